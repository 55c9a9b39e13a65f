import Verif.Http.Add
import Verif.Unixfs.FileSum

/-! # What the add endpoint does, in terms of the adder -/

namespace Verif.Http

open Verif Verif.Unixfs

/-- The lines sent. -/
def linesOf : List AddEvent → List AddLine
  | [] => []
  | .put _ _ :: ev => linesOf ev
  | .line l :: ev => l :: linesOf ev

/-- The blocks stored. -/
def putsOf : List AddEvent → List Block
  | [] => []
  | .put c d :: ev => (c, d) :: putsOf ev
  | .line _ :: ev => putsOf ev

theorem linesOf_append (a b : List AddEvent) : linesOf (a ++ b) = linesOf a ++ linesOf b := by
  induction a with
  | nil => rfl
  | cons e a ih => cases e <;> simp [linesOf, ih]

theorem putsOf_append (a b : List AddEvent) : putsOf (a ++ b) = putsOf a ++ putsOf b := by
  induction a with
  | nil => rfl
  | cons e a ih => cases e <;> simp [putsOf, ih]

/-- Storing all of these. -/
def putAll (bs : List Block) : List AddEvent := bs.map (fun b => .put b.1 b.2)

theorem linesOf_putAll (bs : List Block) : linesOf (putAll bs) = [] := by
  induction bs with
  | nil => rfl
  | cons b bs ih => simpa [putAll, linesOf] using ih

theorem putsOf_putAll (bs : List Block) : putsOf (putAll bs) = bs := by
  induction bs with
  | nil => rfl
  | cons b bs ih => simpa [putAll, putsOf] using ih

/-- Bytes of blocks. -/
def bytesIn (bs : List Block) : Nat := (bs.map (fun b => b.2.length)).sum

theorem bytesIn_append (a b : List Block) : bytesIn (a ++ b) = bytesIn a + bytesIn b := by simp [bytesIn]

/-- What `importAll` gives when it succeeds. -/
def lastOf (last : Option Cid) (total : Nat) (bs : List Block) : Option (Cid × Nat) :=
  ((bs.getLast?.map (·.1)).or last).map (fun c => (c, total + bytesIn bs))

theorem lastOf_cons (last : Option Cid) (total : Nat) (b : Block) (bs : List Block) :
    lastOf (some b.1) (total + b.2.length) bs = lastOf last total (b :: bs) := by
  unfold lastOf bytesIn
  rw [List.getLast?_cons]
  cases bs.getLast? with
  | none => simp; omega
  | some x => simp; omega

theorem importAll_ok {put : Block → Bool} {bs : List Block} (h : ∀ b ∈ bs, put b = true) :
    ∀ last total, importAll put last total bs = (putAll bs, .ok (lastOf last total bs)) := by
  induction bs with
  | nil => intro last total; simp [importAll, putAll, lastOf, bytesIn]
  | cons b bs ih =>
    intro last total
    rw [importAll, if_pos (h b (by simp)), ih (fun x hx => h x (by simp [hx])), lastOf_cons last]
    rfl

theorem importAll_inv {put : Block → Bool} {bs : List Block} : ∀ {last total ev r},
    importAll put last total bs = (ev, .ok r) → ∀ b ∈ bs, put b = true := by
  induction bs with
  | nil => intro _ _ _ _ _ b hb; cases hb
  | cons b bs ih =>
    intro last total ev r h
    rw [importAll] at h
    split at h
    · rename_i hp
      obtain ⟨h1, h2⟩ := Prod.mk.inj h
      intro x hx
      rcases List.mem_cons.mp hx with rfl | hx
      · exact hp
      · exact ih (show importAll put (some b.1) (total + b.2.length) bs = (_, .ok r) from Prod.ext rfl h2) x hx
    · cases (Prod.mk.inj h).2

theorem lastOf_isSome (bs : List Block) : (lastOf none 0 bs).isSome = !bs.isEmpty := by
  cases bs with
  | nil => rfl
  | cons b bs => simp [lastOf, List.getLast?_cons]

theorem lastOf_bytes (bs : List Block) : ((lastOf none 0 bs).map (·.2)).getD 0 = bytesIn bs := by
  cases bs with
  | nil => rfl
  | cons b bs => simp [lastOf, List.getLast?_cons]

theorem accept_le {chunk : Nat} {input buf acc : Bytes} {ready : Bool}
    (h : accept chunk input buf = some (acc, ready)) : acc.length ≤ input.length := by
  unfold accept at h
  split at h
  · cases h
  · cases h
    rw [List.length_take]; omega

theorem push_le {sha : Bytes → Bytes} {a a' : Adder} {input : Bytes} {bs : List Block} {used : Nat}
    (h : a.push sha input = .ok (bs, used, a')) : used ≤ input.length := by
  unfold Adder.push at h
  cases ha : accept a.chunk input a.buffer with
  | none => rw [ha] at h; cases h
  | some r =>
    obtain ⟨acc, ready⟩ := r
    have hle := accept_le ha
    rw [ha] at h
    simp only [] at h
    split at h
    · split at h
      · cases h
      · split at h
        · cases h
        · cases h; exact hle
    · split at h
      · cases h; exact hle
      · split at h
        · cases h
        · split at h
          · cases h
          · cases h; exact hle

theorem isEmpty_append' {α : Type} (a b : List α) : (!(a ++ b).isEmpty) = (!a.isEmpty || !b.isEmpty) := by
  cases a <;> simp

theorem pushAllTo_ok {sha : Bytes → Bytes} {put : Block → Bool} : ∀ {fuel : Nat} {a a' : Adder}
    {next : Bytes} {bs : List Block}, Adder.pushAll sha fuel a next = .ok (bs, a') →
    (∀ b ∈ bs, put b = true) →
    pushAllTo sha put fuel a next = (putAll bs, .ok (next.length, !bs.isEmpty, bytesIn bs, a')) := by
  intro fuel
  induction fuel with
  | zero =>
    intro a a' next bs h hp
    rw [Adder.pushAll] at h
    split at h
    · rename_i he
      cases h
      simp only [List.isEmpty_iff] at he
      subst he
      simp [pushAllTo, putAll, bytesIn]
    · cases h
  | succ fuel ih =>
    intro a a' next bs h hp
    rw [Adder.pushAll] at h
    split at h
    · rename_i he
      cases h
      simp only [List.isEmpty_iff] at he
      subst he
      simp [pushAllTo, putAll, bytesIn]
    · rename_i he
      rw [pushAllTo, if_neg he]
      cases hpush : a.push sha next with
      | error e => rw [hpush] at h; cases h
      | ok r =>
        obtain ⟨b1, used, a1⟩ := r
        rw [hpush] at h
        simp only [] at h ⊢
        cases hrec : Adder.pushAll sha fuel a1 (next.drop used) with
        | error e => rw [hrec] at h; cases h
        | ok r =>
          obtain ⟨b2, a2⟩ := r
          rw [hrec] at h
          cases h
          rw [importAll_ok (fun b hb => hp b (List.mem_append.mpr (Or.inl hb)))]
          simp only []
          rw [ih hrec (fun b hb => hp b (List.mem_append.mpr (Or.inr hb)))]
          simp only [lastOf_isSome, lastOf_bytes, bytesIn_append, isEmpty_append']
          have := push_le hpush
          refine Prod.ext (by simp [putAll]) ?_
          simp only [List.length_drop]
          rw [show used + (next.length - used) = next.length by omega]

theorem pushAllTo_inv {sha : Bytes → Bytes} {put : Block → Bool} : ∀ {fuel : Nat} {a : Adder}
    {next : Bytes} {ev r}, pushAllTo sha put fuel a next = (ev, .ok r) →
    ∃ bs a', Adder.pushAll sha fuel a next = .ok (bs, a') ∧ ∀ b ∈ bs, put b = true := by
  intro fuel
  induction fuel with
  | zero =>
    intro a next ev r h
    rw [pushAllTo] at h
    rw [Adder.pushAll]
    split at h
    · rename_i he; rw [if_pos he]; exact ⟨_, _, rfl, by simp⟩
    · cases (Prod.mk.inj h).2
  | succ fuel ih =>
    intro a next ev r h
    rw [pushAllTo] at h
    rw [Adder.pushAll]
    split at h
    · rename_i he; rw [if_pos he]; exact ⟨_, _, rfl, by simp⟩
    · rename_i he
      rw [if_neg he]
      cases hpush : a.push sha next with
      | error e => rw [hpush] at h; cases (Prod.mk.inj h).2
      | ok q =>
        obtain ⟨b1, used, a1⟩ := q
        rw [hpush] at h
        simp only [] at h ⊢
        cases hi : importAll put none 0 b1 with
        | mk ev1 r1 =>
          rw [hi] at h
          cases r1 with
          | error e => cases (Prod.mk.inj h).2
          | ok saved =>
            simp only [] at h
            cases hr : pushAllTo sha put fuel a1 (next.drop used) with
            | mk ev2 r2 =>
              cases r2 with
              | error e => rw [hr] at h; cases (Prod.mk.inj h).2
              | ok q2 =>
                obtain ⟨b2, a2, h1, h2⟩ := ih hr
                refine ⟨b1 ++ b2, a2, by rw [h1], ?_⟩
                intro b hb
                rcases List.mem_append.mp hb with hb | hb
                · exact importAll_inv hi b hb
                · exact h2 b hb

/-- The numbers reported while reading: after each piece that completed a block. -/
def reports (sha : Bytes → Bytes) : Adder → Nat → List Bytes → List Nat
  | _, _, [] => []
  | a, read, s :: ss =>
    match Adder.pushAll sha s.length a s with
    | .error _ => []
    | .ok (bs, a') => (if bs.isEmpty then [] else [read + s.length]) ++ reports sha a' (read + s.length) ss

theorem readFile_ok {sha : Bytes → Bytes} {put : Block → Bool} {args : AddArgs} {path : Bytes} {broken : Bool} :
    ∀ {slices : List Bytes} {a a' : Adder} {bs : List Block}, Adder.pushSlices sha a slices = .ok (bs, a') →
    (∀ b ∈ bs, put b = true) → ∀ written read, ∃ ev,
      readFile sha put args path broken a written read slices =
        (ev, if broken then .error .parsing else .ok (written + bytesIn bs, read + slices.flatten.length, a')) ∧
      putsOf ev = bs ∧
      linesOf ev = if args.progress then (reports sha a read slices).map (.progress path) else [] := by
  intro slices
  induction slices with
  | nil =>
    intro a a' bs h hp written read
    cases h
    refine ⟨[], ?_, rfl, by simp [linesOf, reports]⟩
    rw [readFile]
    simp [bytesIn]
  | cons s ss ih =>
    intro a a' bs h hp written read
    rw [Adder.pushSlices] at h
    cases h1 : Adder.pushAll sha s.length a s with
    | error e => rw [h1] at h; cases h
    | ok q =>
      obtain ⟨b1, a1⟩ := q
      rw [h1] at h
      simp only [] at h
      cases h2 : Adder.pushSlices sha a1 ss with
      | error e => rw [h2] at h; cases h
      | ok q2 =>
        obtain ⟨b2, a2⟩ := q2
        rw [h2] at h
        cases h
        obtain ⟨ev, e1, e2, e3⟩ := ih h2 (fun b hb => hp b (List.mem_append.mpr (Or.inr hb)))
          (written + bytesIn b1) (read + s.length)
        rw [readFile, pushAllTo_ok h1 (fun b hb => hp b (List.mem_append.mpr (Or.inl hb)))]
        simp only []
        rw [e1]
        refine ⟨_, Prod.ext rfl (by simp [bytesIn_append, Nat.add_assoc]), ?_, ?_⟩
        · rw [putsOf_append, putsOf_append, putsOf_putAll, e2]
          cases b1.isEmpty <;> cases args.progress <;> simp [putsOf]
        · rw [linesOf_append, linesOf_append, linesOf_putAll, e3, reports, h1]
          simp only []
          cases b1.isEmpty <;> cases args.progress <;> simp [linesOf]

theorem readFile_inv {sha : Bytes → Bytes} {put : Block → Bool} {args : AddArgs} {path : Bytes} {broken : Bool} :
    ∀ {slices : List Bytes} {a : Adder} {written read : Nat} {ev r},
      readFile sha put args path broken a written read slices = (ev, .ok r) →
      broken = false ∧ ∃ bs a', Adder.pushSlices sha a slices = .ok (bs, a') ∧ ∀ b ∈ bs, put b = true := by
  intro slices
  induction slices with
  | nil =>
    intro a written read ev r h
    rw [readFile] at h
    cases broken with
    | true => cases (Prod.mk.inj h).2
    | false => exact ⟨rfl, [], a, rfl, by simp⟩
  | cons s ss ih =>
    intro a written read ev r h
    rw [readFile] at h
    cases h1 : pushAllTo sha put s.length a s with
    | mk ev1 r1 =>
      rw [h1] at h
      cases r1 with
      | error e => cases (Prod.mk.inj h).2
      | ok q =>
        obtain ⟨b1, a1, h2, h3⟩ := pushAllTo_inv h1
        have := pushAllTo_ok (put := put) h2 h3
        rw [h1] at this
        cases this
        simp only [] at h
        cases h4 : readFile sha put args path broken a1 (written + bytesIn b1) (read + s.length) ss with
        | mk ev2 r2 =>
          rw [h4] at h
          cases (Prod.mk.inj h).2
          obtain ⟨e1, b2, a2, e2, e3⟩ := ih h4
          refine ⟨e1, b1 ++ b2, a2, ?_, ?_⟩
          · rw [Adder.pushSlices, h2]
            simp only []
            rw [e2]
          · intro b hb
            rcases List.mem_append.mp hb with hb | hb
            · exact h3 b hb
            · exact e3 b hb

/-- Reports grow and stay below what is read in the end. -/
theorem reports_sorted {sha : Bytes → Bytes} : ∀ (slices : List Bytes) (a : Adder) (read : Nat),
    (reports sha a read slices).Pairwise (· ≤ ·) ∧
      ∀ k ∈ reports sha a read slices, read ≤ k ∧ k ≤ read + slices.flatten.length := by
  intro slices
  induction slices with
  | nil => intro a read; simp [reports]
  | cons s ss ih =>
    intro a read
    rw [reports]
    cases h1 : Adder.pushAll sha s.length a s with
    | error e => simp
    | ok q =>
      obtain ⟨bs, a'⟩ := q
      obtain ⟨i1, i2⟩ := ih a' (read + s.length)
      simp only [List.flatten_cons, List.length_append]
      have hmem : ∀ k ∈ (if bs.isEmpty = true then [] else [read + s.length]), k = read + s.length := by
        intro k hk; split at hk <;> simp at hk; exact hk
      constructor
      · rw [List.pairwise_append]
        refine ⟨by split <;> simp, i1, ?_⟩
        intro x hx y hy
        rw [hmem x hx]
        exact (i2 y hy).1
      · intro k hk
        rcases List.mem_append.mp hk with hk | hk
        · rw [hmem k hk]; omega
        · have := i2 k hk; omega

/-- Blocks are completed by pieces with bytes, which are then reported. -/
theorem reports_pos {sha : Bytes → Bytes} : ∀ (slices : List Bytes) (a a' : Adder) (read : Nat) (bs : List Block),
    Adder.pushSlices sha a slices = .ok (bs, a') → bs ≠ [] → ∃ k ∈ reports sha a read slices, 0 < k := by
  intro slices
  induction slices with
  | nil => intro a a' read bs h hb; cases h; exact absurd rfl hb
  | cons s ss ih =>
    intro a a' read bs h hb
    rw [Adder.pushSlices] at h
    rw [reports]
    cases h1 : Adder.pushAll sha s.length a s with
    | error e => rw [h1] at h; cases h
    | ok q =>
      obtain ⟨b1, a1⟩ := q
      rw [h1] at h
      simp only [] at h ⊢
      cases h2 : Adder.pushSlices sha a1 ss with
      | error e => rw [h2] at h; cases h
      | ok q2 =>
        obtain ⟨b2, a2⟩ := q2
        rw [h2] at h
        cases h
        cases hb1 : b1 with
        | nil =>
          obtain ⟨k, hk, hk'⟩ := ih a1 _ (read + s.length) b2 h2 (by rw [hb1] at hb; simpa using hb)
          exact ⟨k, List.mem_append.mpr (Or.inr hk), hk'⟩
        | cons x xs =>
          refine ⟨read + s.length, by simp, ?_⟩
          cases s with
          | nil => simp [Adder.pushAll] at h1; rw [hb1] at h1; simp at h1
          | cons c s => simp; omega

end Verif.Http
