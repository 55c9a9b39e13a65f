import Verif.Net.Dial
import Verif.Props.Swarm

/-!
# C46: futures of `connect`
-/

namespace Verif.Props

open Verif Verif.Ipfs Verif.Repo.Subs Verif.Net

/-! ### Specification -/

/-- A poll of the future gives the result. -/
def Completed (s : SwarmSt) (i : Nat) (r : ConnRes) : Prop := ∃ reg, s.reg.poll i = some (reg, .done r)

/-- The event answers the dial of the peer, one way or another. -/
def AnswersPeer (p : PeerId) : SwarmEv → Prop
  | .established q _ _ => q = p
  | .closed q _ _ => q = p
  | .dialFailure q _ => q = some p
  | _ => False

/-- The event answers a future for the address, whose address was given out to be dialed, with the result. -/
inductive AnswersWith (debug : Bool) (k : AddrPeer) : SwarmEv → ConnRes → Prop where
  | connected (c : Nat) (a : Maddr) : AddrPeer.ofAddr debug a = .ok k →
      AnswersWith debug k (.established k.peer c (.dialer a)) (.ok ())
  | elsewhere (c : Nat) (a : Maddr) : AddrPeer.ofAddr debug a ≠ .ok k →
      AnswersWith debug k (.established k.peer c (.dialer a)) (.error sAnother)
  | accepted (c : Nat) (a : Maddr) :
      AnswersWith debug k (.established k.peer c (.listener a)) (.error sAnother)
  | closed (c : Nat) (a : Maddr) : shownAddr (.dialer a) = k.multiaddr.addr →
      AnswersWith debug k (.closed k.peer c (.dialer a)) (.error sReset)
  | failed (l₁ : List (Maddr × Bytes)) (a : Maddr) (text : Bytes) (l₂ : List (Maddr × Bytes)) :
      AddrPeer.ofAddr debug a = .ok k → (∀ x ∈ l₁, AddrPeer.ofAddr debug x.1 ≠ .ok k) →
      AnswersWith debug k (.dialFailure (some k.peer) (.transport (l₁ ++ (a, text) :: l₂))) (.error text)
  | wrong (text : Bytes) : AnswersWith debug k (.dialFailure (some k.peer) (.wrongPeer text)) (.error text)

/-- The address is read again from what is given out to be dialed; so it is if it was itself read from an
address (`C49_parse_again`). -/
def ReadsBack (debug : Bool) (k : AddrPeer) : Prop := AddrPeer.ofAddr debug k.toAddr = .ok k

instance (debug : Bool) (k : AddrPeer) : Decidable (ReadsBack debug k) :=
  inferInstanceAs (Decidable (AddrPeer.ofAddr debug k.toAddr = .ok k))

/-- Nothing unfortunate happens: addresses read back, a dial is refused only if all futures for the peer
wait for addresses being dialed, as do those for known peers when the known addresses are asked for, and dials
fail only in the two ways that are handled. -/
def Calm (debug : Bool) (w : World) : WorldEv → Prop
  | .connect a => ReadsBack debug a
  | .dial _ => ∀ p rest tried, w.st.events = p :: rest → AMap.get w.running p = some tried →
      ∀ k i b, k.peer = p → Waits w.st.reg k i b →
        k.toAddr ∈ tried ∧ ∃ given, AMap.get w.st.pendConns p = some given ∧ k ∈ given
  | .failed _ err => err ≠ .other
  | .asked order => ∀ k i b, k.peer ∈ order → Waits w.st.reg k i b →
      (∃ tried, AMap.get w.running k.peer = some tried ∧ k.toAddr ∈ tried) ∧
        ∃ given, AMap.get w.st.pendConns k.peer = some given ∧ k ∈ given
  | _ => True

/-- Runs without panic and misfortune. -/
inductive CalmRun (debug : Bool) : World → List WorldEv → World → Prop where
  | nil (w : World) : CalmRun debug w [] w
  | cons {w w₁ w₂ : World} {e : WorldEv} {es : List WorldEv} : Calm debug w e → w.step debug e = some (.ok w₁) →
      CalmRun debug w₁ es w₂ → CalmRun debug w (e :: es) w₂

/-- A run, unless it panics or an event cannot happen. -/
def worldRun (debug : Bool) : World → List WorldEv → Option (Except SwarmPanic World)
  | w, [] => some (.ok w)
  | w, e :: es =>
    match w.step debug e with
    | none => none
    | some (.error p) => some (.error p)
    | some (.ok w₁) => worldRun debug w₁ es

/-! ### Helpers: finishing several kinds -/

structure Finished (reg reg' : Reg AddrPeer ConnRes) (ks : AMap AddrPeer ConnRes) : Prop where
  inv : SubsInv reg → SubsInv reg'
  shut : reg'.shut = reg.shut
  get : ∀ k i, AMap.get reg'.subs (k, i) =
    match AMap.get reg.subs (k, i) with
    | some (.pending w n) =>
      (match AMap.get ks k with
        | some r => some (.ready r)
        | none => some (.pending w n))
    | x => x
  keep : ∀ j ∈ reg.wakes, j ∈ reg'.wakes
  wake : ∀ k i, Waits reg k i true → (AMap.get ks k).isSome = true → i ∈ reg'.wakes

theorem Finished.refl (reg : Reg AddrPeer ConnRes) : Finished reg reg [] := by
  refine ⟨id, rfl, ?_, fun _ h => h, ?_⟩
  · intro k i
    cases AMap.get reg.subs (k, i) with
    | none => rfl
    | some x => cases x <;> rfl
  · intro k i _ h; simp [AMap.get] at h

theorem Finished.one {debug : Bool} {reg reg' : Reg AddrPeer ConnRes} {k : AddrPeer} {r : ConnRes}
    (h : finishOne debug reg k r = .ok reg') : Finished reg reg' [(k, r)] := by
  have h1 : reg' = (reg.finish debug k r).1 := by
    unfold finishOne at h
    split at h
    · cases h
    · rename_i reg2 out _ hx
      simp only [Except.ok.injEq] at h
      subst h; rw [hx]
  subst h1
  refine ⟨fun hi => hi.step (debug := debug) (op := .finish k r) rfl, ?_, ?_, ?_, ?_⟩
  · unfold Reg.finish; split
    · simp only; split <;> rfl
    · rfl
  · intro k' i
    rw [sub_finish]
    cases AMap.get reg.subs (k', i) with
    | none => rfl
    | some x =>
      cases x with
      | pending w n =>
        by_cases hk : k' = k
        · subst hk; simp [AMap.get]
        · have hk' : ¬ k = k' := fun hh => hk hh.symm
          simp [AMap.get, hk, hk']
      | _ => rfl
  · intro j hj
    unfold Reg.finish; split
    · simp only; split
      · exact hj
      · exact List.mem_append.mpr (Or.inl hj)
    · exact hj
  · rintro k' i ⟨n, hg⟩ hk
    have hkk : k' = k := by
      by_cases hk' : k = k'
      · exact hk'.symm
      · simp [AMap.get, hk'] at hk
    subst hkk
    have hmem := mem_pendingOf hg
    have hkind : hasKind reg.subs k' = true := hasKind_iff.mpr ⟨i, by rw [hg]; rfl⟩
    have hne : (pendingOf reg.subs k').isEmpty = false := by
      cases hp : pendingOf reg.subs k' with
      | nil => rw [hp] at hmem; cases hmem
      | cons a b => rfl
    simp only [Reg.finish, hkind, if_true, hne, Bool.and_false, Bool.false_eq_true, if_false]
    refine List.mem_append.mpr (Or.inr (List.mem_map.mpr ⟨(i, true), ?_, rfl⟩))
    exact List.mem_filter.mpr ⟨hmem, rfl⟩

theorem get_append {κ ν : Type} [DecidableEq κ] (a b : AMap κ ν) (k : κ) :
    AMap.get (a ++ b) k = (match AMap.get a k with
      | some v => some v
      | none => AMap.get b k) := by
  induction a with
  | nil => rfl
  | cons e a ih =>
    obtain ⟨k', v⟩ := e
    by_cases h : k' = k
    · simp [AMap.get, h]
    · simp only [List.cons_append, AMap.get, h, if_false]; exact ih

theorem Finished.trans {a b c : Reg AddrPeer ConnRes} {ks ks' : AMap AddrPeer ConnRes} (h1 : Finished a b ks)
    (h2 : Finished b c ks') : Finished a c (ks ++ ks') := by
  refine ⟨fun h => h2.inv (h1.inv h), by rw [h2.shut, h1.shut], ?_, fun j hj => h2.keep j (h1.keep j hj), ?_⟩
  · intro k i
    rw [h2.get, h1.get, get_append]
    cases AMap.get a.subs (k, i) with
    | none => rfl
    | some x =>
      cases x with
      | pending w n => cases AMap.get ks k <;> rfl
      | _ => rfl
  · intro k i hw hk
    rw [get_append] at hk
    cases hks : AMap.get ks k with
    | some r => exact h2.keep _ (h1.wake k i hw (by rw [hks]; rfl))
    | none =>
      rw [hks] at hk
      refine h2.wake k i ?_ hk
      obtain ⟨n, hg⟩ := hw
      exact ⟨n, by rw [h1.get, hg, hks]⟩

theorem Finished.all {debug : Bool} {l : List (AddrPeer × ConnRes)} : ∀ {reg reg' : Reg AddrPeer ConnRes},
    finishAll debug reg l = .ok reg' → Finished reg reg' l := by
  induction l with
  | nil => intro reg reg' h; simp only [finishAll, Except.ok.injEq] at h; subst h; exact Finished.refl _
  | cons x l ih =>
    intro reg reg' h
    obtain ⟨k, r⟩ := x
    simp only [finishAll] at h
    split at h
    · cases h
    · rename_i reg1 h1
      exact (Finished.one h1).trans (ih h)

theorem Finished.transport {debug : Bool} {l : List (Maddr × Bytes)} :
    ∀ {reg reg' : Reg AddrPeer ConnRes} {as rest : List AddrPeer},
    transportFailures debug reg as l = .ok (reg', rest) →
    ∃ ks : AMap AddrPeer ConnRes, Finished reg reg' ks ∧ (∀ k ∈ rest, k ∈ as) ∧
      (∀ k ∈ as, k ∈ rest ∨ (AMap.get ks k).isSome = true) ∧
      (∀ l₁ a text l₂ k, l = l₁ ++ (a, text) :: l₂ → AddrPeer.ofAddr debug a = .ok k →
        (∀ x ∈ l₁, AddrPeer.ofAddr debug x.1 ≠ .ok k) → AMap.get ks k = some (.error text)) ∧
      (∀ k r, AMap.get ks k = some r → ∃ text, r = .error text) := by
  induction l with
  | nil =>
    intro reg reg' as rest h
    simp only [transportFailures, Except.ok.injEq, Prod.mk.injEq] at h
    obtain ⟨rfl, rfl⟩ := h
    refine ⟨[], Finished.refl _, fun _ h => h, fun _ h => Or.inl h, ?_, ?_⟩
    · intro l₁ a text l₂ k h; cases l₁ <;> cases h
    · intro k r h; cases h
  | cons x l ih =>
    intro reg reg' as rest h
    obtain ⟨m, tx⟩ := x
    simp only [transportFailures] at h
    split at h
    · cases h
    · rename_i k hk
      split at h
      · cases h
      · rename_i reg1 h1
        obtain ⟨ks, hf, hsub, hcov, hget, herr⟩ := ih h
        refine ⟨[(k, .error tx)] ++ ks, (Finished.one h1).trans hf, ?_, ?_, ?_, ?_⟩
        · intro k' hk'
          have := hsub k' hk'
          by_cases hin : k ∈ as
          · exact (swapRemove_perm hin).subset (List.mem_cons_of_mem _ this)
          · rw [swapRemove_absent hin] at this; exact this
        · intro k' hk'
          by_cases hkk : k' = k
          · subst hkk; right; simp [AMap.get]
          · have : k' ∈ swapRemove as k := by
              by_cases hin : k ∈ as
              · have := (swapRemove_perm hin).symm.subset hk'
                cases this with
                | head => exact absurd rfl hkk
                | tail _ h => exact h
              · rw [swapRemove_absent hin]; exact hk'
            rcases hcov k' this with h | h
            · exact Or.inl h
            · right
              have hkk' : ¬ k = k' := fun hh => hkk hh.symm
              rw [get_append]; simp only [AMap.get, hkk', if_false]; exact h
        · intro l₁ a text l₂ k' heq hak hfirst
          rw [get_append]
          cases l₁ with
          | nil =>
            simp only [List.nil_append, List.cons.injEq, Prod.mk.injEq] at heq
            obtain ⟨⟨rfl, rfl⟩, rfl⟩ := heq
            rw [hk] at hak
            simp only [Except.ok.injEq] at hak
            subst hak
            simp [AMap.get]
          | cons y l₁ =>
            simp only [List.cons_append, List.cons.injEq] at heq
            obtain ⟨rfl, rfl⟩ := heq
            have hkk' : ¬ k = k' := by
              rintro rfl; exact hfirst (m, tx) (by simp) hk
            simp only [AMap.get, hkk', if_false]
            exact hget l₁ a text l₂ k' rfl hak (fun x hx => hfirst x (by simp [hx]))
        · intro k' r hr
          rw [get_append] at hr
          by_cases hkk : k = k'
          · subst hkk
            simp only [AMap.get, if_true, Option.some.injEq] at hr
            exact ⟨tx, hr.symm⟩
          · simp only [AMap.get, hkk, if_false] at hr
            exact herr k' r hr

theorem Finished.waits {a b : Reg AddrPeer ConnRes} {ks : AMap AddrPeer ConnRes} (h : Finished a b ks) (k : AddrPeer)
    (i : Nat) (w : Bool) : Waits b k i w ↔ Waits a k i w ∧ AMap.get ks k = none := by
  unfold Waits
  rw [h.get]
  cases AMap.get a.subs (k, i) with
  | none => simp
  | some x =>
    cases x with
    | pending w' n' =>
      cases AMap.get ks k with
      | none => simp
      | some r => simp
    | ready r => simp
    | cancelled => simp

/-- A waiting future whose kind was finished is completed and was woken. -/
theorem Finished.done {a b : Reg AddrPeer ConnRes} {ks : AMap AddrPeer ConnRes} (h : Finished a b ks)
    (hi : SubsInv a) {k : AddrPeer} {i : Nat} {w : Bool} {r : ConnRes} (hw : Waits a k i w)
    (hr : AMap.get ks k = some r) : (∃ reg, b.poll i = some (reg, .done r)) ∧ (w = true → i ∈ b.wakes) := by
  constructor
  · obtain ⟨n, hg⟩ := hw
    have hb : AMap.get b.subs (k, i) = some (.ready r) := by rw [h.get, hg, hr]
    have ho := (h.inv hi).owner _ _ _ hb
    unfold Reg.poll
    rw [ho]
    simp only [hb]
    exact ⟨_, rfl⟩
  · rintro rfl
    exact h.wake k i hw (by rw [hr]; rfl)

/-! ### Helpers: one event -/

/-- The addresses not yet given out, and those given out. -/
def waitingOf (s : SwarmSt) (p : PeerId) : List AddrPeer := (AMap.get s.pendAddrs p).getD []
def givenOf (s : SwarmSt) (p : PeerId) : List AddrPeer := (AMap.get s.pendConns p).getD []

theorem get_map_all {l : List AddrPeer} {r : ConnRes} {k : AddrPeer} :
    AMap.get (l.map (fun a => (a, r))) k = if k ∈ l then some r else none := by
  induction l with
  | nil => rfl
  | cons a l ih =>
    by_cases h : a = k
    · subst h; simp [AMap.get]
    · have h' : ¬ k = a := fun hh => h hh.symm
      simp [AMap.get, h, h', ih]

theorem justConnected_fin {debug : Bool} {s s' : SwarmSt} {p : PeerId} {ep : Endpoint}
    (h : s.justConnected debug p ep = .ok s') :
    (∃ a k, ep = .dialer a ∧ AddrPeer.ofAddr debug a = .ok k ∧ k ∈ givenOf s p ∧
      Finished s.reg s'.reg [(k, .ok ())] ∧ (k :: givenOf s' p).Perm (givenOf s p) ∧
      ∀ q, q ≠ p → givenOf s' q = givenOf s q) ∨
    ((∀ a k, ep = .dialer a → AddrPeer.ofAddr debug a = .ok k → k ∉ givenOf s p) ∧ s' = s) := by
  unfold SwarmSt.justConnected at h
  split at h
  · simp only [Except.ok.injEq] at h
    subst h
    exact Or.inr ⟨by intro a k he; (cases he), rfl⟩
  · rename_i a
    split at h
    · rename_i hg
      simp only [Except.ok.injEq] at h
      subst h
      exact Or.inr ⟨by intro a k _ _; simp [givenOf, hg], rfl⟩
    · rename_i as hg
      split at h
      · cases h
      · rename_i k hk
        split at h
        · rename_i hin
          split at h
          · cases h
          · rename_i reg hreg
            simp only [Except.ok.injEq] at h
            subst h
            left
            refine ⟨a, k, rfl, hk, by simpa [givenOf, hg] using hin, Finished.one hreg, ?_, ?_⟩
            · simp only [givenOf, get_putVec, if_true, hg, Option.getD_some]
              exact swapRemove_perm hin
            · intro q hq
              simp only [givenOf, get_putVec, hq, if_false]
        · rename_i hin
          simp only [Except.ok.injEq] at h
          subst h
          right
          refine ⟨?_, rfl⟩
          intro a' k' he hk'
          simp only [Endpoint.dialer.injEq] at he
          subst he
          rw [hk] at hk'
          simp only [Except.ok.injEq] at hk'
          subst hk'
          simpa [givenOf, hg] using hin

theorem established_fin {debug : Bool} {s s' : SwarmSt} {p : PeerId} {ep : Endpoint}
    (h : s.established debug p ep = .ok s') :
    ∃ ks, Finished s.reg s'.reg ks ∧ waitingOf s' p = [] ∧ givenOf s' p = [] ∧
      (∀ q, q ≠ p → waitingOf s' q = waitingOf s q ∧ givenOf s' q = givenOf s q) ∧
      (∀ k, k ∈ waitingOf s p ∨ k ∈ givenOf s p ↔ (AMap.get ks k).isSome = true) ∧
      (∀ k a, ep = .dialer a → AddrPeer.ofAddr debug a = .ok k → k ∈ givenOf s p → AMap.get ks k = some (.ok ())) ∧
      (∀ k, AMap.get ks k = some (.ok ()) → ∃ a, ep = .dialer a ∧ AddrPeer.ofAddr debug a = .ok k) ∧
      (∀ k r, AMap.get ks k = some r → r = .ok () ∨ r = .error sAnother) := by
  unfold SwarmSt.established at h
  split at h
  · cases h
  · rename_i addr haddr
    simp only at h
    split at h
    · cases h
    · rename_i s2 h2
      split at h
      · cases h
      · rename_i reg hreg
        simp only [Except.ok.injEq] at h
        subst h
        have hf := Finished.all hreg
        have hpa := (justConnected_frame h2).2.2.2.2.2.2
        simp only at hpa
        have fin : ∀ q, q ≠ p → (AMap.get (AMap.erase s2.pendAddrs p) q).getD [] = waitingOf s q := by
          intro q hq; simp [AMap.get_erase, hq, hpa, waitingOf]
        rcases justConnected_fin h2 with ⟨a, k, rfl, hk, hin, hone, hperm, hoth⟩ | ⟨hno, heq⟩
        · refine ⟨_, hone.trans hf, by simp [waitingOf, AMap.get_erase], by simp [givenOf, AMap.get_erase], ?_, ?_, ?_,
            ?_, ?_⟩
          · intro q hq
            refine ⟨fin q hq, ?_⟩
            have := hoth q hq
            simp only [givenOf, AMap.get_erase, hq, if_false] at this ⊢
            exact this
          · intro k'
            rw [get_append, get_map_all]
            by_cases hkk : k = k'
            · subst hkk
              simp only [AMap.get, if_true, Option.isSome_some, iff_true]
              exact Or.inr hin
            · have hkk' : ¬ k' = k := fun hh => hkk hh.symm
              have hmem : k' ∈ givenOf s p ↔ k' ∈ (AMap.get s2.pendConns p).getD [] := by
                constructor
                · intro hh
                  have := hperm.symm.subset hh
                  cases this with
                  | head => exact absurd rfl hkk'
                  | tail _ h => exact h
                · intro hh; exact hperm.subset (List.mem_cons_of_mem _ hh)
              simp only [AMap.get, hkk, if_false, List.mem_append, hmem, hpa, waitingOf]
              split
              · rename_i h1; simp only [Option.isSome_some, iff_true]; exact h1
              · rename_i h1; simp only [Option.isSome_none, Bool.false_eq_true, iff_false]; exact h1
          · intro k' a' he hk' _
            simp only [Endpoint.dialer.injEq] at he
            subst he
            rw [hk] at hk'
            simp only [Except.ok.injEq] at hk'
            subst hk'
            rw [get_append]; simp [AMap.get]
          · intro k' hr
            rw [get_append, get_map_all] at hr
            by_cases hkk : k = k'
            · subst hkk; exact ⟨a, rfl, hk⟩
            · simp only [AMap.get, hkk, if_false] at hr
              split at hr <;> cases hr
          · intro k' r hr
            rw [get_append, get_map_all] at hr
            by_cases hkk : k = k'
            · subst hkk
              simp only [AMap.get, if_true, Option.some.injEq] at hr
              exact Or.inl hr.symm
            · simp only [AMap.get, hkk, if_false] at hr
              split at hr
              · simp only [Option.some.injEq] at hr; exact Or.inr hr.symm
              · cases hr
        · subst heq
          refine ⟨_, hf, by simp [waitingOf, AMap.get_erase], by simp [givenOf, AMap.get_erase], ?_, ?_, ?_, ?_, ?_⟩
          · intro q hq
            exact ⟨fin q hq, by simp [givenOf, AMap.get_erase, hq]⟩
          · intro k'
            rw [get_map_all]
            simp only [List.mem_append, waitingOf, givenOf]
            split
            · rename_i h1; simp only [Option.isSome_some, iff_true]; exact h1
            · rename_i h1; simp only [Option.isSome_none, Bool.false_eq_true, iff_false]; exact h1
          · intro k' a' he hk' hin
            exact absurd hin (hno a' k' he hk')
          · intro k' hr
            rw [get_map_all] at hr
            split at hr <;> cases hr
          · intro k' r hr
            rw [get_map_all] at hr
            split at hr
            · simp only [Option.some.injEq] at hr; exact Or.inr hr.symm
            · cases hr

theorem closed_fin {debug : Bool} {s s' : SwarmSt} {p : PeerId} {ep : Endpoint}
    (h : s.closed debug p ep = .ok s') :
    ∃ ks, Finished s.reg s'.reg ks ∧ (∀ q, waitingOf s' q = waitingOf s q) ∧
      (∀ q, q ≠ p → givenOf s' q = givenOf s q) ∧ (∀ k ∈ givenOf s' p, k ∈ givenOf s p) ∧
      (∀ k ∈ givenOf s p, k ∈ givenOf s' p ∨ (AMap.get ks k).isSome = true) ∧
      (∀ a, ep = .dialer a → (⟨⟨shownAddr ep⟩, p⟩ : AddrPeer) ∈ givenOf s p →
        AMap.get ks ⟨⟨shownAddr ep⟩, p⟩ = some (.error sReset)) ∧
      (∀ k r, AMap.get ks k = some r → k.peer = p ∧ r = .error sReset) := by
  unfold SwarmSt.closed at h
  split at h
  · cases h
  · rename_i addr haddr
    have := pointAddr_ok haddr
    subst this
    simp only at h
    split at h
    · cases h
    · have hpa := (justClosed_frame h).2.2.2.2.2.2
      simp only at hpa
      have hw : ∀ q, waitingOf s' q = waitingOf s q := by intro q; simp [waitingOf, hpa]
      unfold SwarmSt.justClosed at h
      split at h
      · simp only [Except.ok.injEq] at h
        subst h
        exact ⟨[], Finished.refl _, hw, fun _ _ => rfl, fun _ h => h, fun _ h => Or.inl h,
          by intro a he; (cases he), by intro k r hr; (cases hr)⟩
      · split at h
        · rename_i hg
          simp only [Except.ok.injEq] at h
          subst h
          simp only at hg
          exact ⟨[], Finished.refl _, hw, fun _ _ => rfl, fun _ h => h, fun _ h => Or.inl h,
            by intro a he hin; simp [givenOf, hg] at hin, by intro k r hr; cases hr⟩
        · rename_i conns hg
          simp only at hg
          split at h
          · rename_i hin
            split at h
            · cases h
            · rename_i reg hreg
              simp only [Except.ok.injEq] at h
              subst h
              refine ⟨_, Finished.one hreg, hw, ?_, ?_, ?_, ?_, ?_⟩
              · intro q hq; simp only [givenOf, get_putVec, hq, if_false]
              · intro k hk
                simp only [givenOf, get_putVec, if_true] at hk
                simp only [givenOf, hg, Option.getD_some]
                exact (swapRemove_perm hin).subset (List.mem_cons_of_mem _ hk)
              · intro k hk
                simp only [givenOf, hg, Option.getD_some] at hk
                simp only [givenOf, get_putVec, if_true]
                have := (swapRemove_perm hin).symm.subset hk
                cases this with
                | head => right; simp [AMap.get]
                | tail _ h => exact Or.inl h
              · intro a _ _; simp [AMap.get]
              · intro k r hr
                simp only [AMap.get] at hr
                split at hr
                · rename_i hk
                  simp only [Option.some.injEq] at hr
                  exact ⟨by rw [← hk], hr.symm⟩
                · cases hr
          · rename_i hin
            simp only [Except.ok.injEq] at h
            subst h
            have hsame : ∀ q, (AMap.get (putVec s.pendConns p conns) q).getD [] = (AMap.get s.pendConns q).getD [] := by
              intro q
              rw [get_putVec]
              split
              · rename_i hq; rw [hq, hg]; rfl
              · rfl
            refine ⟨[], Finished.refl _, hw, fun q _ => hsame q, ?_, ?_, ?_, by intro k r hr; cases hr⟩
            · intro k hk; rw [givenOf, ← hsame]; exact hk
            · intro k hk; left; rw [givenOf, ← hsame] at hk; exact hk
            · intro a _ hh
              simp only [givenOf, hg, Option.getD_some] at hh
              exact absurd hh hin

theorem dialFailure_fin {debug : Bool} {s s' : SwarmSt} {peer : Option PeerId} {err : DialErr}
    (h : s.dialFailure debug peer err = .ok s') :
    ∃ ks, Finished s.reg s'.reg ks ∧ (∀ q, waitingOf s' q = waitingOf s q) ∧
      (∀ q, peer ≠ some q → givenOf s' q = givenOf s q) ∧ (∀ q, ∀ k ∈ givenOf s' q, k ∈ givenOf s q) ∧
      (∀ q, ∀ k ∈ givenOf s q, k ∈ givenOf s' q ∨ (AMap.get ks k).isSome = true) ∧
      (∀ p l l₁ a text l₂ k, peer = some p → err = .transport l → l = l₁ ++ (a, text) :: l₂ →
        AddrPeer.ofAddr debug a = .ok k → (∀ x ∈ l₁, AddrPeer.ofAddr debug x.1 ≠ .ok k) → givenOf s p ≠ [] →
        AMap.get ks k = some (.error text)) ∧
      (∀ p text k, peer = some p → err = .wrongPeer text → k ∈ givenOf s p → AMap.get ks k = some (.error text)) ∧
      (err = .other → ks = []) ∧ (∀ k r, AMap.get ks k = some r → ∃ text, r = .error text) := by
  have hpa := (dialFailure_frame h).2.2.2.2.2.2
  have hw : ∀ q, waitingOf s' q = waitingOf s q := by intro q; simp [waitingOf, hpa]
  unfold SwarmSt.dialFailure at h
  split at h
  · simp only [Except.ok.injEq] at h
    subst h
    exact ⟨[], Finished.refl _, hw, fun _ _ => rfl, fun _ _ h => h, fun _ _ h => Or.inl h,
      by intro p _ _ _ _ _ _ hp; (cases hp), by intro p _ _ hp; (cases hp), fun _ => rfl, by intro k r hr; (cases hr)⟩
  · rename_i p
    split at h
    · rename_i hg
      simp only [Except.ok.injEq] at h
      subst h
      refine ⟨[], Finished.refl _, hw, fun _ _ => rfl, fun _ _ h => h, fun _ _ h => Or.inl h, ?_, ?_, fun _ => rfl,
        by intro k r hr; (cases hr)⟩
      · intro q _ _ _ _ _ _ hp _ _ _ _ hne
        simp only [Option.some.injEq] at hp
        subst hp
        simp [givenOf, hg] at hne
      · intro q _ k hp _ hin
        simp only [Option.some.injEq] at hp
        subst hp
        simp [givenOf, hg] at hin
    · rename_i as hg
      have hgp : givenOf s p = as := by simp [givenOf, hg]
      split at h
      · rename_i l
        split at h
        · cases h
        · rename_i reg rest htr
          simp only [Except.ok.injEq] at h
          subst h
          obtain ⟨ks, hf, hsub, hcov, hget, herr⟩ := Finished.transport htr
          refine ⟨ks, hf, hw, ?_, ?_, ?_, ?_, by intro _ _ _ _ he; (cases he), by intro he; (cases he), herr⟩
          · intro q hq
            have hq' : ¬ q = p := by rintro rfl; exact hq rfl
            simp only [givenOf, get_putVec, hq', if_false]
          · intro q k hk
            simp only [givenOf, get_putVec] at hk
            split at hk
            · rename_i hqp; rw [hqp, hgp]; exact hsub k hk
            · exact hk
          · intro q k hk
            simp only [givenOf, get_putVec]
            split
            · rename_i hqp; rw [hqp, hgp] at hk; exact hcov k hk
            · exact Or.inl hk
          · intro q l' l₁ a text l₂ k _ he heq hk hfirst _
            simp only [DialErr.transport.injEq] at he
            subst he
            exact hget l₁ a text l₂ k heq hk hfirst
      · rename_i text
        split at h
        · cases h
        · rename_i reg hreg
          simp only [Except.ok.injEq] at h
          subst h
          refine ⟨_, Finished.all hreg, hw, ?_, ?_, ?_, by intro _ _ _ _ _ _ _ _ he; (cases he), ?_,
            by intro he; (cases he), ?_⟩
          · intro q hq
            have hq' : ¬ q = p := by rintro rfl; exact hq rfl
            simp only [givenOf, get_putVec, hq', if_false]
          · intro q k hk
            simp only [givenOf, get_putVec] at hk
            split at hk
            · cases hk
            · exact hk
          · intro q k hk
            simp only [givenOf, get_putVec]
            split
            · rename_i hqp; rw [hqp, hgp] at hk; right; simp [get_map_all, hk]
            · exact Or.inl hk
          · intro q text' k hp he hin
            simp only [Option.some.injEq] at hp
            subst hp
            simp only [DialErr.wrongPeer.injEq] at he
            subst he
            rw [hgp] at hin
            simp [get_map_all, hin]
          · intro k r hr
            rw [get_map_all] at hr
            split at hr
            · simp only [Option.some.injEq] at hr; exact ⟨text, hr.symm⟩
            · cases hr
      · simp only [Except.ok.injEq] at h
        subst h
        have hsame : ∀ q, (AMap.get (putVec s.pendConns p as) q).getD [] = (AMap.get s.pendConns q).getD [] := by
          intro q
          rw [get_putVec]
          split
          · rename_i hq; rw [hq, hg]; rfl
          · rfl
        refine ⟨[], Finished.refl _, hw, fun q _ => hsame q, ?_, ?_, by intro _ _ _ _ _ _ _ _ he; (cases he),
          by intro _ _ _ _ he; (cases he), fun _ => rfl, by intro k r hr; (cases hr)⟩
        · intro q k hk; rw [givenOf, ← hsame]; exact hk
        · intro q k hk; left; rw [givenOf, ← hsame] at hk; exact hk

/-- Every future that waits has its address in one of the two tables. -/
structure PendInv (s : SwarmSt) : Prop where
  inv : SubsInv s.reg
  shut : s.reg.shut = false
  home : ∀ p k, k ∈ waitingOf s p ∨ k ∈ givenOf s p → k.peer = p
  cover : ∀ k i w, Waits s.reg k i w → k ∈ waitingOf s k.peer ∨ k ∈ givenOf s k.peer

theorem create_insert {K R : Type} [DecidableEq K] {reg : Reg K R} (hi : SubsInv reg) (hs : reg.shut = false) (a : K) :
    ∃ reg', (reg.create a false).insert reg.nextId = some reg' ∧ SubsInv reg' ∧ reg'.shut = false ∧
      reg'.wakes = reg.wakes ∧
      reg'.subs = AMap.set reg.subs (a, reg.nextId) (.pending false false) ∧
      (∀ i, reg'.futs i = if i = reg.nextId then some ⟨a, .live false⟩ else reg.futs i) := by
  have hc : reg.create a false = { reg with nextId := reg.nextId + 1 }.setFut reg.nextId
      ⟨a, .creating (.pending false false)⟩ := by
    simp [Reg.create, hs]
  have h1 : SubsInv (reg.create a false) := hi.step (debug := false) (op := .create a false) rfl
  have h2 : (reg.create a false).insert reg.nextId = some ({ (reg.create a false) with
      subs := AMap.set (reg.create a false).subs (a, reg.nextId) (.pending false false) }.setFut reg.nextId
        ⟨a, .live false⟩) := by
    rw [hc]; simp [Reg.insert, Reg.setFut]
  refine ⟨_, h2, h1.step (debug := false) (op := .insert reg.nextId) (by simp [Reg.step, h2]; rfl), ?_, ?_, ?_, ?_⟩
  · rw [hc]; exact hs
  · rw [hc]; rfl
  · rw [hc]; rfl
  · intro i
    rw [hc]
    simp only [Reg.setFut]
    split <;> rfl

theorem fresh_get {K R : Type} [DecidableEq K] {reg : Reg K R} (hi : SubsInv reg) (k : K) :
    AMap.get reg.subs (k, reg.nextId) = none := by
  cases h : AMap.get reg.subs (k, reg.nextId) with
  | none => rfl
  | some x =>
    have := hi.owner _ _ _ h
    rw [hi.fresh _ (Nat.le_refl _)] at this
    cases this

theorem poll_waits {K R : Type} [DecidableEq K] {reg reg' : Reg K R} {j : Nat} {out : Out R}
    (h : reg.poll j = some (reg', out)) {k : K} {i : Nat} {w : Bool} (hw : Waits reg' k i w) :
    ∃ w', Waits reg k i w' := by
  obtain ⟨n, hg⟩ := hw
  unfold Reg.poll at h
  split at h
  · split at h
    · simp only [Option.some.injEq, Prod.mk.injEq] at h; obtain ⟨rfl, rfl⟩ := h; exact ⟨w, n, hg⟩
    · rename_i kk _ _ _ _ n0 h0
      simp only [Option.some.injEq, Prod.mk.injEq] at h; obtain ⟨rfl, rfl⟩ := h
      simp only [AMap.get_set] at hg
      split at hg
      · rename_i heq
        simp only [Prod.mk.injEq] at heq
        obtain ⟨rfl, rfl⟩ := heq
        exact ⟨_, _, h0⟩
      · exact ⟨w, n, hg⟩
    all_goals
      simp only [Option.some.injEq, Prod.mk.injEq] at h; obtain ⟨rfl, rfl⟩ := h
      simp only [Reg.setFut, AMap.get_erase] at hg
      split at hg
      · cases hg
      · exact ⟨w, n, hg⟩
  · cases h

theorem drop_waits {K R : Type} [DecidableEq K] {reg reg' : Reg K R} {j : Nat}
    (h : reg.dropLocked j = some reg') {k : K} {i : Nat} {w : Bool} (hw : Waits reg' k i w) :
    Waits reg k i w := by
  obtain ⟨n, hg⟩ := hw
  unfold Reg.dropLocked at h
  split at h
  · split at h
    · simp only [Option.some.injEq] at h; subst h; exact ⟨n, hg⟩
    · split at h
      · simp only [Option.some.injEq] at h; subst h
        simp only [Reg.setFut, AMap.get_erase] at hg
        split at hg
        · cases hg
        · exact ⟨n, hg⟩
      · simp only [Option.some.injEq] at h; subst h; exact ⟨n, hg⟩
  · cases h

theorem notify_subs {K R : Type} [DecidableEq K] {reg reg' : Reg K R} {j : Nat} (h : reg.dropNotify j = some reg') :
    reg'.subs = reg.subs ∧ reg'.shut = reg.shut := by
  unfold Reg.dropNotify at h
  split at h
  · simp only [Option.some.injEq] at h; subst h; exact ⟨rfl, rfl⟩
  · cases h

theorem poll_shut {K R : Type} [DecidableEq K] {reg reg' : Reg K R} {j : Nat} {out : Out R}
    (h : reg.poll j = some (reg', out)) : reg'.shut = reg.shut := by
  unfold Reg.poll at h
  split at h
  · split at h <;> (simp only [Option.some.injEq, Prod.mk.injEq] at h; obtain ⟨rfl, rfl⟩ := h; rfl)
  · cases h

theorem drop_shut {K R : Type} [DecidableEq K] {reg reg' : Reg K R} {j : Nat} (h : reg.dropLocked j = some reg') :
    reg'.shut = reg.shut := by
  unfold Reg.dropLocked at h
  split at h
  · split at h
    · simp only [Option.some.injEq] at h; subst h; rfl
    · split at h <;> (simp only [Option.some.injEq] at h; subst h; rfl)
  · cases h

theorem PendInv.finished {s s' : SwarmSt} (hi : PendInv s) {ks : AMap AddrPeer ConnRes}
    (hf : Finished s.reg s'.reg ks)
    (hsub : ∀ q k, k ∈ waitingOf s' q ∨ k ∈ givenOf s' q → k ∈ waitingOf s q ∨ k ∈ givenOf s q)
    (hcov : ∀ q k, k ∈ waitingOf s q ∨ k ∈ givenOf s q →
      k ∈ waitingOf s' q ∨ k ∈ givenOf s' q ∨ (AMap.get ks k).isSome = true) : PendInv s' := by
  refine ⟨hf.inv hi.inv, by rw [hf.shut]; exact hi.shut, fun p k h => hi.home p k (hsub p k h), ?_⟩
  intro k i w hw
  obtain ⟨hw0, hn⟩ := (hf.waits k i w).mp hw
  rcases hcov _ _ (hi.cover k i w hw0) with h | h | h
  · exact Or.inl h
  · exact Or.inr h
  · rw [hn] at h; cases h

theorem mem_addressesOf {s : SwarmSt} {p q : PeerId} {k : AddrPeer} :
    (k ∈ waitingOf (s.addressesOf p).1 q ↔ k ∈ waitingOf s q ∧ q ≠ p) ∧
    (k ∈ givenOf (s.addressesOf p).1 q ↔ k ∈ givenOf s q ∨ (q = p ∧ k ∈ waitingOf s p)) := by
  unfold SwarmSt.addressesOf waitingOf givenOf
  simp only [AMap.get_erase, AMap.get_set]
  by_cases hq : q = p
  · subst hq; simp
  · simp [hq]

theorem PendInv.step {debug : Bool} {s s' : SwarmSt} {e : SwarmEv} (hi : PendInv s)
    (h : s.step debug e = .ok s') : PendInv s' := by
  cases e with
  | connect a =>
    simp only [SwarmSt.step, Except.ok.injEq] at h
    subst h
    unfold SwarmSt.connect
    split
    · exact hi
    · obtain ⟨reg', h1, h2, h3, -, h4, h5⟩ := create_insert hi.inv hi.shut a
      simp only [h1, Option.getD_some]
      have hw : ∀ q k, k ∈ (AMap.get (AMap.set s.pendAddrs a.peer
          ((AMap.get s.pendAddrs a.peer).getD [] ++ [a])) q).getD [] ↔ k ∈ waitingOf s q ∨ (q = a.peer ∧ k = a) := by
        intro q k
        rw [AMap.get_set]
        by_cases hq : q = a.peer
        · subst hq; simp [waitingOf]
        · simp [hq, waitingOf]
      refine ⟨h2, h3, ?_, ?_⟩
      · intro p k hk
        simp only [waitingOf, givenOf, hw] at hk
        rcases hk with (hk | ⟨rfl, rfl⟩) | hk
        · exact hi.home p k (Or.inl hk)
        · rfl
        · exact hi.home p k (Or.inr hk)
      · rintro k i w ⟨n, hg⟩
        rw [h4, AMap.get_set] at hg
        simp only [waitingOf, hw]
        split at hg
        · rename_i heq
          simp only [Prod.mk.injEq] at heq
          exact Or.inl (Or.inr ⟨by rw [heq.1], heq.1⟩)
        · rcases hi.cover k i w ⟨n, hg⟩ with h | h
          · exact Or.inl (Or.inl h)
          · exact Or.inr h
  | pollFut j =>
    simp only [SwarmSt.step, Except.ok.injEq] at h
    subst h
    cases hp : s.reg.poll j with
    | none => exact hi
    | some x =>
      obtain ⟨reg', out⟩ := x
      simp only [Option.map_some, Option.getD_some]
      refine ⟨hi.inv.step (debug := debug) (op := .poll j) hp, by rw [poll_shut hp]; exact hi.shut, hi.home, ?_⟩
      intro k i w hw
      obtain ⟨w', hw'⟩ := poll_waits hp hw
      exact hi.cover k i w' hw'
  | dropFut j =>
    simp only [SwarmSt.step, Except.ok.injEq] at h
    subst h
    cases hp : s.reg.dropLocked j with
    | none => exact hi
    | some reg' =>
      simp only [Option.getD_some]
      refine ⟨hi.inv.step (debug := debug) (op := .dropLocked j) (out := .nothing) (by simp [Reg.step, hp]),
        by rw [drop_shut hp]; exact hi.shut, hi.home, ?_⟩
      intro k i w hw
      exact hi.cover k i w (drop_waits hp hw)
  | dropDone j =>
    simp only [SwarmSt.step, Except.ok.injEq] at h
    subst h
    cases hp : s.reg.dropNotify j with
    | none => exact hi
    | some reg' =>
      simp only [Option.getD_some]
      obtain ⟨hsub, hsh⟩ := notify_subs hp
      refine ⟨hi.inv.step (debug := debug) (op := .dropNotify j) (out := .nothing) (by simp [Reg.step, hp]),
        by rw [hsh]; exact hi.shut, hi.home, ?_⟩
      rintro k i w ⟨n, hg⟩
      rw [hsub] at hg
      exact hi.cover k i w ⟨n, hg⟩
  | addressesOf p =>
    simp only [SwarmSt.step, Except.ok.injEq] at h
    subst h
    refine ⟨hi.inv, hi.shut, ?_, ?_⟩
    · intro q k hk
      rw [mem_addressesOf.1, mem_addressesOf.2] at hk
      rcases hk with ⟨hk, -⟩ | hk | ⟨rfl, hk⟩
      · exact hi.home q k (Or.inl hk)
      · exact hi.home q k (Or.inr hk)
      · exact hi.home _ k (Or.inl hk)
    · intro k i w hw
      rw [mem_addressesOf.1, mem_addressesOf.2]
      rcases hi.cover k i w hw with h | h
      · by_cases hq : k.peer = p
        · exact Or.inr (Or.inr ⟨hq, by rw [← hq]; exact h⟩)
        · exact Or.inl ⟨h, hq⟩
      · exact Or.inr (Or.inl h)
  | established p c ep =>
    obtain ⟨ks, hf, hw, hg, hoth, hall, -⟩ := established_fin h
    refine hi.finished hf ?_ ?_
    · intro q k hk
      by_cases hq : q = p
      · subst hq; rw [hw, hg] at hk; simp at hk
      · rw [(hoth q hq).1, (hoth q hq).2] at hk; exact hk
    · intro q k hk
      by_cases hq : q = p
      · subst hq; exact Or.inr (Or.inr ((hall k).mp hk))
      · rw [(hoth q hq).1, (hoth q hq).2]
        rcases hk with hk | hk
        · exact Or.inl hk
        · exact Or.inr (Or.inl hk)
  | closed p c ep =>
    obtain ⟨ks, hf, hw, hoth, hsub, hcov, -⟩ := closed_fin h
    refine hi.finished hf ?_ ?_
    · intro q k hk
      rw [hw] at hk
      refine hk.imp id ?_
      intro hk
      by_cases hq : q = p
      · subst hq; exact hsub k hk
      · rw [hoth q hq] at hk; exact hk
    · intro q k hk
      rw [hw]
      rcases hk with hk | hk
      · exact Or.inl hk
      · right
        by_cases hq : q = p
        · subst hq; exact hcov k hk
        · rw [hoth q hq]; exact Or.inl hk
  | dialFailure peer err =>
    obtain ⟨ks, hf, hw, hoth, hsub, hcov, -⟩ := dialFailure_fin h
    refine hi.finished hf ?_ ?_
    · intro q k hk
      rw [hw] at hk
      exact hk.imp id (hsub q k)
    · intro q k hk
      rw [hw]
      exact hk.imp id (hcov q k)
  | addPeer p => simp only [SwarmSt.step, Except.ok.injEq] at h; subst h; exact ⟨hi.inv, hi.shut, hi.home, hi.cover⟩
  | removePeer p => simp only [SwarmSt.step, Except.ok.injEq] at h; subst h; exact ⟨hi.inv, hi.shut, hi.home, hi.cover⟩
  | setRtt p t => simp only [SwarmSt.step, Except.ok.injEq] at h; subst h; exact ⟨hi.inv, hi.shut, hi.home, hi.cover⟩
  | poll => simp only [SwarmSt.step, Except.ok.injEq] at h; subst h; exact ⟨hi.inv, hi.shut, hi.home, hi.cover⟩

theorem PendInv.init : PendInv SwarmSt.init :=
  ⟨SubsInv.init, rfl, by intro p k h; simp [waitingOf, givenOf, SwarmSt.init, AMap.get] at h,
    by rintro k i w ⟨n, h⟩; (cases h)⟩

theorem PendInv.run {debug : Bool} {es : List SwarmEv} : ∀ {s s' : SwarmSt}, PendInv s → s.run debug es = .ok s' →
    PendInv s' := by
  induction es with
  | nil => intro s s' hi h; simp only [SwarmSt.run, Except.ok.injEq] at h; subst h; exact hi
  | cons e es ih =>
    intro s s' hi h
    simp only [SwarmSt.run] at h
    split at h
    · cases h
    · rename_i s1 h1; exact ih (hi.step h1) h

/-! ### C46 -/

/-- **C46**: when a connection to a peer is established, every future for that peer that waits is
completed, and woken if it was polled before; no future for the peer waits any more, and the futures for
other peers are left alone. -/
theorem C46_established (debug : Bool) (es : List SwarmEv) (s s' : SwarmSt) (p : PeerId) (c : Nat) (ep : Endpoint)
    (h : SwarmSt.init.run debug es = .ok s) (he : s.step debug (.established p c ep) = .ok s') :
    (∀ k i w, k.peer = p → Waits s.reg k i w → (w = true → i ∈ s'.reg.wakes) ∧
      (Completed s' i (.ok ()) ∨ Completed s' i (.error sAnother))) ∧
    (∀ k i w, k.peer = p → ¬ Waits s'.reg k i w) ∧
    (∀ k i, k.peer ≠ p → AMap.get s'.reg.subs (k, i) = AMap.get s.reg.subs (k, i)) := by
  have hi := PendInv.init.run h
  obtain ⟨ks, hf, hw, hg, hoth, hall, -, -, hres⟩ := established_fin he
  refine ⟨?_, ?_, ?_⟩
  · rintro k i w rfl hwait
    have hsome := (hall k).mp (hi.cover k i w hwait)
    obtain ⟨r, hr⟩ := Option.isSome_iff_exists.mp hsome
    obtain ⟨h1, h2⟩ := hf.done hi.inv hwait hr
    refine ⟨h2, ?_⟩
    rcases hres k r hr with rfl | rfl
    · exact Or.inl h1
    · exact Or.inr h1
  · rintro k i w rfl hwait
    obtain ⟨h0, hn⟩ := (hf.waits k i w).mp hwait
    have := (hall k).mp (hi.cover k i w h0)
    rw [hn] at this
    cases this
  · intro k i hk
    rw [hf.get]
    have hn : AMap.get ks k = none := by
      cases hks : AMap.get ks k with
      | none => rfl
      | some r =>
        have := hi.home p k ((hall k).mpr (by rw [hks]; rfl))
        exact absurd this hk
    rw [hn]
    cases AMap.get s.reg.subs (k, i) with
    | none => rfl
    | some x => cases x <;> rfl

theorem given_keep {debug : Bool} {s s' : SwarmSt} {e : SwarmEv} {k : AddrPeer}
    (hk : k ∈ givenOf s k.peer) (hn : ¬ AnswersPeer k.peer e) (h : s.step debug e = .ok s') :
    k ∈ givenOf s' k.peer := by
  cases e with
  | connect a =>
    simp only [SwarmSt.step, Except.ok.injEq] at h
    subst h
    unfold SwarmSt.connect
    split <;> exact hk
  | addressesOf p =>
    simp only [SwarmSt.step, Except.ok.injEq] at h
    subst h
    exact mem_addressesOf.2.mpr (Or.inl hk)
  | established p c ep =>
    obtain ⟨ks, -, -, -, hoth, -⟩ := established_fin h
    rw [(hoth k.peer (fun hh => hn hh.symm)).2]; exact hk
  | closed p c ep =>
    obtain ⟨ks, -, -, hoth, -⟩ := closed_fin h
    rw [hoth k.peer (fun hh => hn hh.symm)]; exact hk
  | dialFailure peer err =>
    obtain ⟨ks, -, -, hoth, -⟩ := dialFailure_fin h
    rw [hoth k.peer hn]; exact hk
  | _ => simp only [SwarmSt.step, Except.ok.injEq] at h; subst h; exact hk

theorem given_run {debug : Bool} {es : List SwarmEv} {k : AddrPeer} : ∀ {s s' : SwarmSt},
    k ∈ givenOf s k.peer → (∀ e ∈ es, ¬ AnswersPeer k.peer e) → s.run debug es = .ok s' → k ∈ givenOf s' k.peer := by
  induction es with
  | nil => intro s s' hk _ h; simp only [SwarmSt.run, Except.ok.injEq] at h; subst h; exact hk
  | cons e es ih =>
    intro s s' hk hn h
    simp only [SwarmSt.run] at h
    split at h
    · cases h
    · rename_i s1 h1
      exact ih (given_keep hk (hn e (by simp)) h1) (fun e he => hn e (by simp [he])) h

/-- **C46**: a future that waits when the addresses of its peer are given out to be dialed, and still waits
when the dial is answered next, is completed by that answer with the result that tells it, and woken if it
was polled before. -/
theorem C46_answered (debug : Bool) (pre mid : List SwarmEv) (s₀ s s' : SwarmSt) (k : AddrPeer) (i : Nat)
    (w₀ w : Bool) (ans : SwarmEv) (r : ConnRes)
    (h₀ : SwarmSt.init.run debug pre = .ok s₀) (hw₀ : Waits s₀.reg k i w₀)
    (h : s₀.run debug (.addressesOf k.peer :: mid) = .ok s) (hmid : ∀ e ∈ mid, ¬ AnswersPeer k.peer e)
    (hw : Waits s.reg k i w) (hans : AnswersWith debug k ans r) (hs : s.step debug ans = .ok s') :
    Completed s' i r ∧ (w = true → i ∈ s'.reg.wakes) := by
  have hi₀ := PendInv.init.run h₀
  have hi := hi₀.run h
  have hgiven : k ∈ givenOf s k.peer := by
    simp only [SwarmSt.run, SwarmSt.step] at h
    refine given_run ?_ hmid h
    rw [mem_addressesOf.2]
    rcases hi₀.cover k i w₀ hw₀ with h | h
    · exact Or.inr ⟨rfl, h⟩
    · exact Or.inl h
  cases hans with
  | connected c a hk =>
    obtain ⟨ks, hf, -, -, -, -, hok, -⟩ := established_fin hs
    exact hf.done hi.inv hw (hok k a rfl hk hgiven)
  | elsewhere c a hk =>
    obtain ⟨ks, hf, -, -, -, hall, -, hsound, hres⟩ := established_fin hs
    obtain ⟨r, hr⟩ := Option.isSome_iff_exists.mp ((hall k).mp (Or.inr hgiven))
    rcases hres k r hr with rfl | rfl
    · obtain ⟨a', he, hk'⟩ := hsound k hr
      simp only [Endpoint.dialer.injEq] at he
      subst he
      exact absurd hk' hk
    · exact hf.done hi.inv hw hr
  | accepted c a =>
    obtain ⟨ks, hf, -, -, -, hall, -, hsound, hres⟩ := established_fin hs
    obtain ⟨r, hr⟩ := Option.isSome_iff_exists.mp ((hall k).mp (Or.inr hgiven))
    rcases hres k r hr with rfl | rfl
    · obtain ⟨a', he, hk'⟩ := hsound k hr
      cases he
    · exact hf.done hi.inv hw hr
  | closed c a ha =>
    obtain ⟨ks, hf, -, -, -, -, hres, -⟩ := closed_fin hs
    have hkey : (⟨⟨shownAddr (.dialer a)⟩, k.peer⟩ : AddrPeer) = k := by
      obtain ⟨⟨m⟩, p⟩ := k; simp only at ha ⊢; rw [ha]
    have := hres a rfl (by rw [hkey]; exact hgiven)
    rw [hkey] at this
    exact hf.done hi.inv hw this
  | failed l₁ a text l₂ hk hfirst =>
    simp only [SwarmSt.step] at hs
    obtain ⟨ks, hf, -, -, -, -, hres, -⟩ := dialFailure_fin hs
    exact hf.done hi.inv hw (hres _ _ l₁ a text l₂ k rfl rfl rfl hk hfirst (List.ne_nil_of_mem hgiven))
  | wrong text =>
    simp only [SwarmSt.step] at hs
    obtain ⟨ks, hf, -, -, -, -, -, hres, -⟩ := dialFailure_fin hs
    exact hf.done hi.inv hw (hres _ text k rfl rfl hgiven)

/-- **C46**: a failure to dial of another kind than those two completes no future. -/
theorem C46_other_failures (debug : Bool) (s : SwarmSt) (p : Option PeerId) :
    ∃ s', s.step debug (.dialFailure p .other) = .ok s' ∧ s'.reg = s.reg := by
  simp only [SwarmSt.step, SwarmSt.dialFailure]
  cases p with
  | none => exact ⟨_, rfl, rfl⟩
  | some p =>
    simp only
    split
    · exact ⟨_, rfl, rfl⟩
    · exact ⟨_, rfl, rfl⟩

theorem poll_ready {K R : Type} [DecidableEq K] {reg reg' : Reg K R} {j : Nat} {out : Out R}
    (h : reg.poll j = some (reg', out)) {x : K × Nat} {r : R}
    (hg : AMap.get reg'.subs x = some (.ready r)) : AMap.get reg.subs x = some (.ready r) := by
  unfold Reg.poll at h
  split at h
  · split at h
    · simp only [Option.some.injEq, Prod.mk.injEq] at h; obtain ⟨rfl, rfl⟩ := h; exact hg
    · simp only [Option.some.injEq, Prod.mk.injEq] at h; obtain ⟨rfl, rfl⟩ := h
      simp only [AMap.get_set] at hg
      split at hg
      · cases hg
      · exact hg
    all_goals
      simp only [Option.some.injEq, Prod.mk.injEq] at h; obtain ⟨rfl, rfl⟩ := h
      simp only [Reg.setFut, AMap.get_erase] at hg
      split at hg
      · cases hg
      · exact hg
  · cases h

theorem drop_ready {K R : Type} [DecidableEq K] {reg reg' : Reg K R} {j : Nat}
    (h : reg.dropLocked j = some reg') {x : K × Nat} {r : R}
    (hg : AMap.get reg'.subs x = some (.ready r)) : AMap.get reg.subs x = some (.ready r) := by
  unfold Reg.dropLocked at h
  split at h
  · split at h
    · simp only [Option.some.injEq] at h; subst h; exact hg
    · split at h
      · simp only [Option.some.injEq] at h; subst h
        simp only [Reg.setFut, AMap.get_erase] at hg
        split at hg
        · cases hg
        · exact hg
      · simp only [Option.some.injEq] at h; subst h; exact hg
  · cases h

/-- A finished entry was finished before or is by the keys. -/
theorem Finished.source {a b : Reg AddrPeer ConnRes} {ks : AMap AddrPeer ConnRes} (h : Finished a b ks)
    {k : AddrPeer} {i : Nat} {r : ConnRes} (hg : AMap.get b.subs (k, i) = some (.ready r)) :
    AMap.get a.subs (k, i) = some (.ready r) ∨ AMap.get ks k = some r := by
  rw [h.get] at hg
  cases ha : AMap.get a.subs (k, i) with
  | none => rw [ha] at hg; cases hg
  | some x =>
    rw [ha] at hg
    cases x with
    | pending w n =>
      cases hk : AMap.get ks k with
      | none => rw [hk] at hg; cases hg
      | some r' =>
        rw [hk] at hg
        simp only [Option.some.injEq, Sub.ready.injEq] at hg
        right; rw [hg]
    | ready r' => left; exact hg
    | cancelled => cases hg

theorem ready_ok_source {debug : Bool} {es : List SwarmEv} {s : SwarmSt} (h : SwarmSt.init.run debug es = .ok s)
    (k : AddrPeer) (i : Nat) (hg : AMap.get s.reg.subs (k, i) = some (.ready (.ok ()))) :
    ∃ c a, SwarmEv.established k.peer c (.dialer a) ∈ es ∧ AddrPeer.ofAddr debug a = .ok k := by
  induction es using snocInd generalizing s with
  | nil => simp only [SwarmSt.run, Except.ok.injEq] at h; subst h; cases hg
  | snoc es e ih =>
    obtain ⟨m, hm, he⟩ := swarm_run_snoc.mp h
    have hi := PendInv.init.run hm
    have back : AMap.get m.reg.subs (k, i) = some (.ready (.ok ())) →
        ∃ c a, SwarmEv.established k.peer c (.dialer a) ∈ es ++ [e] ∧ AddrPeer.ofAddr debug a = .ok k := by
      intro hh
      obtain ⟨c, a, h1, h2⟩ := ih hm hh
      exact ⟨c, a, List.mem_append.mpr (Or.inl h1), h2⟩
    cases e with
    | connect a =>
      simp only [SwarmSt.step, Except.ok.injEq] at he
      subst he
      unfold SwarmSt.connect at hg
      split at hg
      · exact back hg
      · obtain ⟨reg', h1, h2, h3, -, h4, h5⟩ := create_insert hi.inv hi.shut a
        simp only [h1, Option.getD_some, h4, AMap.get_set] at hg
        split at hg
        · cases hg
        · exact back hg
    | pollFut j =>
      simp only [SwarmSt.step, Except.ok.injEq] at he
      subst he
      cases hp : m.reg.poll j with
      | none => simp only [hp, Option.map_none, Option.getD_none] at hg; exact back hg
      | some x =>
        simp only [hp, Option.map_some, Option.getD_some] at hg
        exact back (poll_ready hp hg)
    | dropFut j =>
      simp only [SwarmSt.step, Except.ok.injEq] at he
      subst he
      cases hp : m.reg.dropLocked j with
      | none => simp only [hp, Option.getD_none] at hg; exact back hg
      | some x =>
        simp only [hp, Option.getD_some] at hg
        exact back (drop_ready hp hg)
    | dropDone j =>
      simp only [SwarmSt.step, Except.ok.injEq] at he
      subst he
      cases hp : m.reg.dropNotify j with
      | none => simp only [hp, Option.getD_none] at hg; exact back hg
      | some x =>
        simp only [hp, Option.getD_some, (notify_subs hp).1] at hg
        exact back hg
    | established p c ep =>
      obtain ⟨ks, hf, -, -, -, hall, -, hsound, -⟩ := established_fin he
      rcases hf.source hg with hh | hh
      · exact back hh
      · obtain ⟨a, rfl, hk⟩ := hsound k hh
        have hp := hi.home p k ((hall k).mpr (by rw [hh]; rfl))
        exact ⟨c, a, by rw [hp]; simp, hk⟩
    | closed p c ep =>
      obtain ⟨ks, hf, -, -, -, -, -, hres⟩ := closed_fin he
      rcases hf.source hg with hh | hh
      · exact back hh
      · have := (hres _ _ hh).2; cases this
    | dialFailure p err =>
      obtain ⟨ks, hf, -, -, -, -, -, -, -, hres⟩ := dialFailure_fin he
      rcases hf.source hg with hh | hh
      · exact back hh
      · obtain ⟨t, ht⟩ := hres _ _ hh; cases ht
    | _ => simp only [SwarmSt.step, Except.ok.injEq] at he; subst he; exact back hg

/-- **C46**: a future for an address is only told that it is connected if a connection dialed at that very
address of the peer was established. -/
theorem C46_ok_sound (debug : Bool) (es : List SwarmEv) (s : SwarmSt) (h : SwarmSt.init.run debug es = .ok s)
    (k : AddrPeer) (i : Nat) (c : Bool) (hf : s.reg.futs i = some ⟨k, .live c⟩) (hd : Completed s i (.ok ())) :
    ∃ c a, SwarmEv.established k.peer c (.dialer a) ∈ es ∧ AddrPeer.ofAddr debug a = .ok k := by
  obtain ⟨reg, hp⟩ := hd
  unfold Reg.poll at hp
  rw [hf] at hp
  simp only at hp
  split at hp
  · simp at hp
  · simp at hp
  · simp at hp
  · rename_i r hg
    simp only [Option.some.injEq, Prod.mk.injEq, Out.done.injEq] at hp
    obtain ⟨-, rfl⟩ := hp
    exact ready_ok_source h k i hg

/-! ### Dialing -/

structure WorldInv (debug : Bool) (w : World) : Prop where
  pend : PendInv w.st
  reads : ∀ k i b, Waits w.st.reg k i b → ReadsBack debug k
  dialed : ∀ k i b, Waits w.st.reg k i b → (k ∈ waitingOf w.st k.peer ∧ k.peer ∈ w.st.events) ∨
    (k ∈ givenOf w.st k.peer ∧ ∃ tried, AMap.get w.running k.peer = some tried ∧ k.toAddr ∈ tried)

theorem other_frame {debug : Bool} {s s' : SwarmSt} {p : PeerId}
    (h : s.dialFailure debug (some p) .other = .ok s') :
    s'.reg = s.reg ∧ s'.events = s.events ∧ (∀ q, waitingOf s' q = waitingOf s q) ∧
      (∀ q, ∀ k ∈ givenOf s q, k ∈ givenOf s' q) ∧ (∀ q, ∀ k ∈ givenOf s' q, k ∈ givenOf s q) := by
  obtain ⟨s1, h1, h2⟩ := C46_other_failures debug s (some p)
  simp only [SwarmSt.step] at h1
  rw [h] at h1
  simp only [Except.ok.injEq] at h1
  subst h1
  obtain ⟨ks, -, hw, -, hsub, hcov, -, -, hks, -⟩ := dialFailure_fin h
  have := hks rfl
  subst this
  refine ⟨h2, (dialFailure_frame h).2.2.2.2.2.1, hw, ?_, hsub⟩
  intro q k hk
  rcases hcov q k hk with h | h
  · exact h
  · simp [AMap.get] at h

theorem WorldInv.startDial {debug : Bool} {w w' : World} {p : PeerId} {more : List Maddr}
    (hp : PendInv w.st) (hr : ∀ k i b, Waits w.st.reg k i b → ReadsBack debug k)
    (hd : ∀ k i b, Waits w.st.reg k i b → (k ∈ waitingOf w.st k.peer ∧ (k.peer ∈ w.st.events ∨ k.peer = p)) ∨
      (k ∈ givenOf w.st k.peer ∧ ∃ tried, AMap.get w.running k.peer = some tried ∧ k.toAddr ∈ tried))
    (hrun : ∀ tried, AMap.get w.running p = some tried → ∀ k i b, k.peer = p → Waits w.st.reg k i b →
      (k ∈ waitingOf w.st p ∧ p ∈ w.st.events) ∨ (k ∈ givenOf w.st p ∧ k.toAddr ∈ tried))
    (h : w.startDial debug p more = .ok w') : WorldInv debug w' := by
  unfold World.startDial at h
  cases hg : AMap.get w.running p with
  | some tried =>
    rw [hg] at h
    simp only at h
    cases hs : w.st.dialFailure debug (some p) .other with
    | error x => rw [hs] at h; cases h
    | ok s =>
      rw [hs] at h
      simp only [Except.map, Except.ok.injEq] at h
      subst h
      obtain ⟨f1, f2, f3, f4, -⟩ := other_frame hs
      refine ⟨hp.step (debug := debug) (e := .dialFailure (some p) .other) hs, ?_, ?_⟩
      · intro k i b hw; simp only [f1] at hw; exact hr k i b hw
      · intro k i b hw
        simp only [f1] at hw
        simp only [f2, f3]
        by_cases hk : k.peer = p
        · subst hk
          rcases hrun tried hg k i b rfl hw with h | h
          · exact Or.inl h
          · exact Or.inr ⟨f4 _ _ h.1, tried, hg, h.2⟩
        · rcases hd k i b hw with ⟨h1, h2⟩ | ⟨h1, h2⟩
          · exact Or.inl ⟨h1, h2.resolve_right hk⟩
          · exact Or.inr ⟨f4 _ _ h1, h2⟩
  | none =>
    rw [hg] at h
    simp only at h
    have hp1 : PendInv (w.st.addressesOf p).1 := hp.step (debug := debug) (e := .addressesOf p) rfl
    have hown : (w.st.addressesOf p).2 = (waitingOf w.st p).map AddrPeer.toAddr := rfl
    split at h
    · rename_i hemp
      simp only [List.isEmpty_iff, List.append_eq_nil_iff, hown, List.map_eq_nil_iff] at hemp
      cases hs : (w.st.addressesOf p).1.dialFailure debug (some p) .other with
      | error x => rw [hs] at h; cases h
      | ok s =>
        rw [hs] at h
        simp only [Except.map, Except.ok.injEq] at h
        subst h
        obtain ⟨f1, f2, f3, f4, -⟩ := other_frame hs
        refine ⟨hp1.step (debug := debug) (e := .dialFailure (some p) .other) hs, ?_, ?_⟩
        · intro k i b hw; simp only [f1] at hw; exact hr k i b hw
        · intro k i b hw
          simp only [f1] at hw
          simp only [f2, f3]
          rcases hd k i b hw with ⟨h1, h2⟩ | ⟨h1, tried, h2, h3⟩
          · by_cases hk : k.peer = p
            · rw [hk, hemp.1] at h1; cases h1
            · exact Or.inl ⟨mem_addressesOf.1.mpr ⟨h1, hk⟩, h2.resolve_right hk⟩
          · exact Or.inr ⟨f4 _ _ (mem_addressesOf.2.mpr (Or.inl h1)), tried, h2, h3⟩
    · simp only [Except.ok.injEq] at h
      subst h
      refine ⟨hp1, hr, ?_⟩
      intro k i b hw
      simp only
      rcases hd k i b hw with ⟨h1, h2⟩ | ⟨h1, tried, h2, h3⟩
      · by_cases hk : k.peer = p
        · refine Or.inr ⟨mem_addressesOf.2.mpr (Or.inr ⟨hk, by rw [← hk]; exact h1⟩),
            (w.st.addressesOf p).2 ++ more, ?_, ?_⟩
          · rw [hk, AMap.get_set_eq]
          · rw [hown]
            exact List.mem_append.mpr (Or.inl (List.mem_map.mpr ⟨k, by rw [← hk]; exact h1, rfl⟩))
        · exact Or.inl ⟨mem_addressesOf.1.mpr ⟨h1, hk⟩, h2.resolve_right hk⟩
      · have hk : k.peer ≠ p := by rintro hk; rw [hk, hg] at h2; cases h2
        exact Or.inr ⟨mem_addressesOf.2.mpr (Or.inl h1), tried, by rw [AMap.get_set_ne _ _ hk]; exact h2, h3⟩

/-- Events that only finish futures or do nothing. -/
theorem WorldInv.finished {debug : Bool} {w : World} {s : SwarmSt} {running : AMap PeerId (List Maddr)}
    (hi : WorldInv debug w) (hp : PendInv s) {ks : AMap AddrPeer ConnRes} (hf : Finished w.st.reg s.reg ks)
    (hev : s.events = w.st.events)
    (hw : ∀ k, k ∈ waitingOf w.st k.peer → k ∈ waitingOf s k.peer ∨ (AMap.get ks k).isSome = true)
    (hg : ∀ k, ReadsBack debug k → k ∈ givenOf w.st k.peer →
      (∃ tried, AMap.get w.running k.peer = some tried ∧ k.toAddr ∈ tried) →
      (k ∈ givenOf s k.peer ∧ ∃ tried, AMap.get running k.peer = some tried ∧ k.toAddr ∈ tried) ∨
        (AMap.get ks k).isSome = true) : WorldInv debug ⟨s, running⟩ := by
  refine ⟨hp, ?_, ?_⟩
  · intro k i b hh
    exact hi.reads k i b ((hf.waits k i b).mp hh).1
  · intro k i b hh
    obtain ⟨h0, hn⟩ := (hf.waits k i b).mp hh
    have no : ¬ (AMap.get ks k).isSome = true := by rw [hn]; simp
    simp only [hev]
    rcases hi.dialed k i b h0 with ⟨h1, h2⟩ | ⟨h1, h2⟩
    · exact Or.inl ⟨(hw k h1).resolve_right no, h2⟩
    · exact Or.inr ((hg k (hi.reads k i b h0) h1 h2).resolve_right no)

/-- Asking for the known addresses is nothing but asking for those of each peer. -/
theorem addrs_run (debug : Bool) (other : PeerId → List Maddr) (s : SwarmSt) (l : List PeerId) :
    s.run debug (l.map .addressesOf) = .ok (s.addrs other l).1 := by
  induction l generalizing s with
  | nil => rfl
  | cons p l ih => exact ih _

theorem addrs_frame (other : PeerId → List Maddr) (s : SwarmSt) (l : List PeerId) :
    (s.addrs other l).1.reg = s.reg ∧ (s.addrs other l).1.events = s.events ∧
    (∀ q k, k ∈ waitingOf (s.addrs other l).1 q ↔ k ∈ waitingOf s q ∧ q ∉ l) ∧
    (∀ q k, k ∈ givenOf (s.addrs other l).1 q ↔ k ∈ givenOf s q ∨ (q ∈ l ∧ k ∈ waitingOf s q)) := by
  induction l generalizing s with
  | nil => exact ⟨rfl, rfl, by simp [SwarmSt.addrs], by simp [SwarmSt.addrs]⟩
  | cons p l ih =>
    obtain ⟨h1, h2, h3, h4⟩ := ih (s.addressesOf p).1
    refine ⟨h1, h2, ?_, ?_⟩
    · intro q k
      refine (h3 q k).trans ?_
      rw [mem_addressesOf.1]
      simp only [List.mem_cons, not_or, and_assoc]
    · intro q k
      refine (h4 q k).trans ?_
      rw [mem_addressesOf.1, mem_addressesOf.2]
      simp only [List.mem_cons]
      constructor
      · rintro ((h | ⟨rfl, h⟩) | ⟨h5, h6, -⟩)
        · exact Or.inl h
        · exact Or.inr ⟨Or.inl rfl, h⟩
        · exact Or.inr ⟨Or.inr h5, h6⟩
      · rintro (h | ⟨h5, h6⟩)
        · exact Or.inl (Or.inl h)
        · by_cases hq : q = p
          · subst hq; exact Or.inl (Or.inr ⟨rfl, h6⟩)
          · exact Or.inr ⟨h5.resolve_left hq, h6, hq⟩

theorem PendInv.addrs {s : SwarmSt} (hi : PendInv s) (other : PeerId → List Maddr) (l : List PeerId) :
    PendInv (s.addrs other l).1 := by
  induction l generalizing s with
  | nil => exact hi
  | cons p l ih => exact ih (hi.step (debug := true) (e := .addressesOf p) rfl)

theorem WorldInv.step {debug : Bool} {w w' : World} {e : WorldEv} (hi : WorldInv debug w) (hc : Calm debug w e)
    (h : w.step debug e = some (.ok w')) : WorldInv debug w' := by
  cases e with
  | connect a =>
    simp only [World.step, Option.some.injEq, Except.ok.injEq] at h
    subst h
    have hp := hi.pend.step (debug := debug) (e := .connect a) rfl
    unfold SwarmSt.connect at hp ⊢
    split
    · exact hi
    · rename_i hin
      simp only [hin, if_false] at hp
      obtain ⟨reg', h1, h2, h3, -, h4, h5⟩ := create_insert hi.pend.inv hi.pend.shut a
      simp only [h1, Option.getD_some] at hp ⊢
      have hw : ∀ q k, k ∈ (AMap.get (AMap.set w.st.pendAddrs a.peer
          ((AMap.get w.st.pendAddrs a.peer).getD [] ++ [a])) q).getD [] ↔
            k ∈ waitingOf w.st q ∨ (q = a.peer ∧ k = a) := by
        intro q k
        rw [AMap.get_set]
        by_cases hq : q = a.peer
        · subst hq; simp [waitingOf]
        · simp [hq, waitingOf]
      have cases' : ∀ k i b, Waits reg' k i b → Waits w.st.reg k i b ∨ k = a := by
        rintro k i b ⟨n, hg⟩
        rw [h4, AMap.get_set] at hg
        split at hg
        · rename_i heq; simp only [Prod.mk.injEq] at heq; exact Or.inr heq.1
        · exact Or.inl ⟨n, hg⟩
      refine ⟨hp, ?_, ?_⟩
      · intro k i b hh
        rcases cases' k i b hh with hh | rfl
        · exact hi.reads k i b hh
        · exact hc
      · intro k i b hh
        simp only [waitingOf, hw, List.mem_append, List.mem_singleton]
        rcases cases' k i b hh with hh | rfl
        · rcases hi.dialed k i b hh with ⟨h1, h2⟩ | h
          · exact Or.inl ⟨Or.inl h1, Or.inl h2⟩
          · exact Or.inr h
        · exact Or.inl ⟨Or.inr ⟨rfl, rfl⟩, Or.inr rfl⟩
  | pollFut j =>
    simp only [World.step, SwarmSt.step, Except.map, Option.some.injEq, Except.ok.injEq] at h
    subst h
    refine ⟨hi.pend.step (debug := debug) (e := .pollFut j) rfl, ?_, ?_⟩
    all_goals
      intro k i b hh
      have : ∃ b', Waits w.st.reg k i b' := by
        cases hp : w.st.reg.poll j with
        | none => simp only [hp, Option.map_none, Option.getD_none] at hh; exact ⟨b, hh⟩
        | some x => simp only [hp, Option.map_some, Option.getD_some] at hh; exact poll_waits hp hh
      obtain ⟨b', hb'⟩ := this
    · exact hi.reads k i b' hb'
    · exact hi.dialed k i b' hb'
  | dropFut j =>
    simp only [World.step, SwarmSt.step, Except.map, Option.some.injEq, Except.ok.injEq] at h
    subst h
    refine ⟨hi.pend.step (debug := debug) (e := .dropFut j) rfl, ?_, ?_⟩
    all_goals
      intro k i b hh
      have : Waits w.st.reg k i b := by
        cases hp : w.st.reg.dropLocked j with
        | none => simp only [hp, Option.getD_none] at hh; exact hh
        | some x => simp only [hp, Option.getD_some] at hh; exact drop_waits hp hh
    · exact hi.reads k i b this
    · exact hi.dialed k i b this
  | dropDone j =>
    simp only [World.step, SwarmSt.step, Except.map, Option.some.injEq, Except.ok.injEq] at h
    subst h
    refine ⟨hi.pend.step (debug := debug) (e := .dropDone j) rfl, ?_, ?_⟩
    all_goals
      intro k i b hh
      have : Waits w.st.reg k i b := by
        cases hp : w.st.reg.dropNotify j with
        | none => simp only [hp, Option.getD_none] at hh; exact hh
        | some x =>
          simp only [hp, Option.getD_some, Waits, (notify_subs hp).1] at hh; exact hh
    · exact hi.reads k i b this
    · exact hi.dialed k i b this
  | dial more =>
    simp only [World.step] at h
    split at h
    · cases h
    · rename_i p rest hev
      simp only [Option.some.injEq] at h
      refine WorldInv.startDial (w := ⟨{ w.st with events := rest }, w.running⟩)
        (hi.pend.step (debug := debug) (e := .poll) (by simp [SwarmSt.step, hev])) hi.reads ?_ ?_ h
      · intro k i b hh
        rcases hi.dialed k i b hh with ⟨h1, h2⟩ | h2
        · refine Or.inl ⟨h1, ?_⟩
          rw [hev] at h2
          cases h2 with
          | head => exact Or.inr rfl
          | tail _ h2 => exact Or.inl h2
        · exact Or.inr h2
      · intro tried ht k i b hk hh
        obtain ⟨h1, given, h2, h3⟩ := hc p rest tried hev ht k i b hk hh
        exact Or.inr ⟨by simp only [givenOf, h2, Option.getD_some]; exact h3, h1⟩
  | dialToo p more =>
    simp only [World.step, Option.some.injEq] at h
    refine WorldInv.startDial hi.pend hi.reads ?_ ?_ h
    · intro k i b hh
      rcases hi.dialed k i b hh with ⟨h1, h2⟩ | h2
      · exact Or.inl ⟨h1, Or.inl h2⟩
      · exact Or.inr h2
    · rintro tried ht k i b rfl hh
      rcases hi.dialed k i b hh with h | ⟨h1, tried', h2, h3⟩
      · exact Or.inl h
      · rw [ht] at h2
        simp only [Option.some.injEq] at h2
        subst h2
        exact Or.inr ⟨h1, h3⟩
  | dialed p c a =>
    simp only [World.step] at h
    split at h
    · cases h
    · split at h
      · cases hs : w.st.established debug p (.dialer a) with
        | error x => rw [hs] at h; cases h
        | ok s =>
          rw [hs] at h
          simp only [Except.map, Option.some.injEq, Except.ok.injEq] at h
          subst h
          obtain ⟨ks, hf, -, -, hoth, hall, -⟩ := established_fin hs
          refine hi.finished (hi.pend.step (debug := debug) (e := .established p c (.dialer a)) hs) hf
            (established_ok hs).2.2.2.2.2 ?_ ?_
          · intro k hk
            by_cases hkp : k.peer = p
            · subst hkp; exact Or.inr ((hall k).mp (Or.inl hk))
            · exact Or.inl (by rw [(hoth _ hkp).1]; exact hk)
          · intro k _ hk ht
            by_cases hkp : k.peer = p
            · subst hkp; exact Or.inr ((hall k).mp (Or.inr hk))
            · refine Or.inl ⟨by rw [(hoth _ hkp).2]; exact hk, ?_⟩
              rw [AMap.get_erase_ne _ hkp]; exact ht
      · cases h
  | accepted p c a =>
    simp only [World.step] at h
    cases hs : w.st.established debug p (.listener a) with
    | error x => rw [hs] at h; cases h
    | ok s =>
      rw [hs] at h
      simp only [Except.map, Option.some.injEq, Except.ok.injEq] at h
      subst h
      obtain ⟨ks, hf, -, -, hoth, hall, -⟩ := established_fin hs
      refine hi.finished (hi.pend.step (debug := debug) (e := .established p c (.listener a)) hs) hf
        (established_ok hs).2.2.2.2.2 ?_ ?_
      · intro k hk
        by_cases hkp : k.peer = p
        · subst hkp; exact Or.inr ((hall k).mp (Or.inl hk))
        · exact Or.inl (by rw [(hoth _ hkp).1]; exact hk)
      · intro k _ hk ht
        by_cases hkp : k.peer = p
        · subst hkp; exact Or.inr ((hall k).mp (Or.inr hk))
        · exact Or.inl ⟨by rw [(hoth _ hkp).2]; exact hk, ht⟩
  | closed p c ep =>
    simp only [World.step] at h
    cases hs : w.st.closed debug p ep with
    | error x => rw [hs] at h; cases h
    | ok s =>
      rw [hs] at h
      simp only [Except.map, Option.some.injEq, Except.ok.injEq] at h
      subst h
      obtain ⟨ks, hf, hw, hoth, -, hcov, -⟩ := closed_fin hs
      refine hi.finished (hi.pend.step (debug := debug) (e := .closed p c ep) hs) hf
        (closed_ok hs).2.2.2.2.2.1 ?_ ?_
      · intro k hk; exact Or.inl (by rw [hw]; exact hk)
      · intro k _ hk ht
        by_cases hkp : k.peer = p
        · subst hkp
          rcases hcov k hk with h | h
          · exact Or.inl ⟨h, ht⟩
          · exact Or.inr h
        · exact Or.inl ⟨by rw [hoth _ hkp]; exact hk, ht⟩
  | failed p err =>
    simp only [World.step] at h
    split at h
    · cases h
    · rename_i tried htr
      split at h
      · rename_i hcover
        cases hs : w.st.dialFailure debug (some p) err with
        | error x => rw [hs] at h; cases h
        | ok s =>
          rw [hs] at h
          simp only [Except.map, Option.some.injEq, Except.ok.injEq] at h
          subst h
          obtain ⟨ks, hf, hw, hoth, -, -, htran, hwrong, -⟩ := dialFailure_fin hs
          refine hi.finished (hi.pend.step (debug := debug) (e := .dialFailure (some p) err) hs) hf
            (dialFailure_frame hs).2.2.2.2.2.1 ?_ ?_
          · intro k hk; exact Or.inl (by rw [hw]; exact hk)
          · rintro k hrb hk ⟨tried', ht, hin⟩
            by_cases hkp : k.peer = p
            · subst hkp
              right
              rw [htr] at ht
              simp only [Option.some.injEq] at ht
              subst ht
              cases err with
              | transport l =>
                simp only [coversTried, List.all_eq_true, decide_eq_true_eq] at hcover
                have hmem := hcover _ hin
                obtain ⟨x, hx, hxa⟩ := List.mem_map.mp hmem
                -- the first entry that reads as the key
                have : ∃ l₁ a text l₂, l = l₁ ++ (a, text) :: l₂ ∧ AddrPeer.ofAddr debug a = .ok k ∧
                    ∀ y ∈ l₁, AddrPeer.ofAddr debug y.1 ≠ .ok k := by
                  clear hcover hmem hs hf htran hwrong hc
                  induction l with
                  | nil => cases hx
                  | cons y l ih =>
                    by_cases hy : AddrPeer.ofAddr debug y.1 = .ok k
                    · exact ⟨[], y.1, y.2, l, rfl, hy, by simp⟩
                    · have hx' : x ∈ l := by
                        cases hx with
                        | head => rw [hxa] at hy; exact absurd hrb hy
                        | tail _ h => exact h
                      obtain ⟨l₁, a, text, l₂, rfl, h2, h3⟩ := ih hx'
                      refine ⟨y :: l₁, a, text, l₂, rfl, h2, ?_⟩
                      intro z hz
                      cases hz with
                      | head => exact hy
                      | tail _ hz => exact h3 z hz
                obtain ⟨l₁, a, text, l₂, hl, h2, h3⟩ := this
                rw [htran _ _ l₁ a text l₂ k rfl rfl hl h2 h3 (List.ne_nil_of_mem hk)]
                rfl
              | wrongPeer text => rw [hwrong _ text k rfl rfl hk]; rfl
              | other => exact absurd rfl hc
            · refine Or.inl ⟨by rw [hoth _ (by intro hh; simp only [Option.some.injEq] at hh; exact hkp hh.symm)]
                                exact hk, tried', ?_, hin⟩
              rw [AMap.get_erase_ne _ hkp]; exact ht
      · cases h
  | asked order =>
    simp only [World.step] at h
    split at h
    · simp only [Option.some.injEq, Except.ok.injEq] at h
      subst h
      obtain ⟨f1, f2, f3, f4⟩ := addrs_frame (fun _ => []) w.st order
      refine ⟨hi.pend.addrs _ _, ?_, ?_⟩
      · intro k i b hh
        simp only [f1] at hh
        exact hi.reads k i b hh
      · intro k i b hh
        simp only [f1] at hh
        simp only [f2, f3, f4]
        by_cases hk : k.peer ∈ order
        · obtain ⟨h1, given, h2, h3⟩ := hc k i b hk hh
          exact Or.inr ⟨Or.inl (by simp only [givenOf, h2, Option.getD_some]; exact h3), h1⟩
        · rcases hi.dialed k i b hh with ⟨h1, h2⟩ | ⟨h1, h2⟩
          · exact Or.inl ⟨⟨h1, hk⟩, h2⟩
          · exact Or.inr ⟨Or.inl h1, h2⟩
    · cases h
  | learned p =>
    simp only [World.step, SwarmSt.step, Except.map, Option.some.injEq, Except.ok.injEq] at h
    subst h
    exact ⟨hi.pend.step (debug := debug) (e := .addPeer p) rfl, hi.reads, hi.dialed⟩
  | timedOut p =>
    simp only [World.step, SwarmSt.step, Except.map, Option.some.injEq, Except.ok.injEq] at h
    subst h
    exact ⟨hi.pend.step (debug := debug) (e := .removePeer p) rfl, hi.reads, hi.dialed⟩

theorem WorldInv.run {debug : Bool} {w w' : World} {es : List WorldEv} (h : CalmRun debug w es w')
    (hi : WorldInv debug w) : WorldInv debug w' := by
  induction h with
  | nil w => exact hi
  | cons hc hs _ ih => exact ih (hi.step hc hs)

theorem WorldInv.init (debug : Bool) : WorldInv debug World.init :=
  ⟨PendInv.init, by rintro k i b ⟨n, h⟩; (cases h), by rintro k i b ⟨n, h⟩; (cases h)⟩

/-- **C46**: in a run without misfortune every future that waits has its peer queued to be dialed, or its
address is being dialed.

Partial: dials may be refused while a future waits for an address that is not being dialed
(`C46_refused`), they fail in other ways (`C46_unhandled`), addresses do not all read back
(`C46_relay_address`), and asking for the known addresses takes those away that were to be dialed (`C94_lost`). -/
theorem C46_dialed_partial (debug : Bool) (es : List WorldEv) (w : World) (h : CalmRun debug World.init es w)
    (k : AddrPeer) (i : Nat) (b : Bool) (hw : Waits w.st.reg k i b) :
    k.peer ∈ w.st.events ∨ ∃ tried, AMap.get w.running k.peer = some tried ∧ k.toAddr ∈ tried := by
  rcases (WorldInv.init debug |>.run h).dialed k i b hw with ⟨-, h⟩ | ⟨-, h⟩
  · exact Or.inl h
  · exact Or.inr h

/-- **C46**: so when nothing is queued and no dial runs, no future waits. -/
theorem C46_idle_partial (debug : Bool) (es : List WorldEv) (w : World) (h : CalmRun debug World.init es w)
    (hq : w.st.events = []) (hr : ∀ p, AMap.get w.running p = none) (k : AddrPeer) (i : Nat) (b : Bool) :
    ¬ Waits w.st.reg k i b := by
  intro hw
  rcases C46_dialed_partial debug es w h k i b hw with h | ⟨t, h, -⟩
  · rw [hq] at h; cases h
  · rw [hr] at h; cases h

/-! ### Examples and counterexamples -/

/-- Two addresses of a peer, and one through a relay. -/
def exKey1 : AddrPeer := ⟨⟨exHost⟩, exPeerA⟩
def exKey2 : AddrPeer := ⟨⟨[.ip4 10 0 0 2, .tcp 4001]⟩, exPeerA⟩
def exKeyR : AddrPeer := ⟨⟨exHost ++ [.p2pCircuit]⟩, exPeerA⟩

def stuckIn (w : Option (Except SwarmPanic World)) (k : AddrPeer) (i : Nat) : Bool :=
  match w with
  | some (.ok w) => w.st.events.isEmpty && w.running.isEmpty && decide (AMap.get w.st.reg.subs (k, i) =
      some (.pending true false))
  | _ => false

def saysIn (w : Option (Except SwarmPanic World)) (i : Nat) : Option (Out ConnRes) :=
  match w with
  | some (.ok w) => (w.st.reg.poll i).map Prod.snd
  | _ => none

/-- What the theorems of C46 speak of: a future that waits while its address is dialed, and then does not. -/
example : saysIn (worldRun true World.init [.connect exKey1, .pollFut 0, .dial []]) 0 = some .pending ∧
    saysIn (worldRun true World.init [.connect exKey1, .pollFut 0, .dial [], .dialed exPeerA 1 exDial1]) 0 =
      some (.done (.ok ())) ∧
    saysIn (worldRun true World.init [.connect exKey1, .pollFut 0, .dial [],
      .failed exPeerA (.transport [(exDial1, [1, 2])])]) 0 = some (.done (.error [1, 2])) ∧
    ReadsBack true exKey1 := by decide

example : ∃ s₀ s s', SwarmSt.init.run true [.connect exKey1] = .ok s₀ ∧ Waits s₀.reg exKey1 0 false ∧
    s₀.run true [.addressesOf exPeerA, .pollFut 0] = .ok s ∧ Waits s.reg exKey1 0 true ∧
    AnswersWith true exKey1 (.established exPeerA 1 (.dialer exDial1)) (.ok ()) ∧
    s.step true (.established exPeerA 1 (.dialer exDial1)) = .ok s' ∧ s'.reg.wakes = [0] :=
  ⟨_, _, _, rfl, ⟨false, by decide⟩, rfl, ⟨false, by decide⟩, .connected 1 exDial1 (by decide), rfl, by decide⟩

example : ∃ w, CalmRun true World.init [.connect exKey1, .dial [], .dialed exPeerA 1 exDial1] w ∧
    w.st.events = [] ∧ w.running = [] := by
  refine ⟨_, .cons (w₁ := _) (by show ReadsBack true exKey1; decide) rfl
    (.cons (w₁ := _) ?_ rfl (.cons (w₁ := _) trivial rfl (.nil _))), rfl, rfl⟩
  intro p rest tried hev hrun
  cases hrun

/-- **C46** fails: a second address asked for while the peer is being dialed is not dialed after all: its
dial is refused, and when the first one fails, its future waits though nothing is queued and no dial runs.
(The code has a remark on it, src/p2p/swarm.rs:345-347 and 390-391.) -/
theorem C46_refused :
    stuckIn (worldRun true World.init [.connect exKey1, .dial [], .connect exKey2, .dial [], .pollFut 1,
      .failed exPeerA (.transport [(exDial1, [1, 2])])]) exKey2 1 = true := by decide

/-- **C46** fails: after a failure to dial of another kind, such as reaching the limit of connections, the
future waits on. -/
theorem C46_unhandled :
    stuckIn (worldRun true World.init [.connect exKey1, .dial [], .pollFut 0, .failed exPeerA .other]) exKey1 0 =
      true := by decide

/-- **C46** fails: an address through a relay reads back as another one, so the failure of its dial is not
noticed. -/
theorem C46_relay_address :
    stuckIn (worldRun true World.init [.connect exKeyR, .dial [], .pollFut 0,
      .failed exPeerA (.transport [(exKeyR.toAddr, [1, 2])])]) exKeyR 0 = true := by decide

/-- **C46**: two futures for one address: when it is connected, a build with debug assertions panics; without
them both futures are told so. -/
theorem C46_twice :
    worldRun true World.init [.connect exKey1, .connect exKey1, .dial [], .dialed exPeerA 1 exDial1] =
      some (.error .nothingAwoken) ∧
    saysIn (worldRun false World.init [.connect exKey1, .connect exKey1, .dial [], .dialed exPeerA 1 exDial1]) 0 =
      some (.done (.ok ())) ∧
    saysIn (worldRun false World.init [.connect exKey1, .connect exKey1, .dial [], .dialed exPeerA 1 exDial1]) 1 =
      some (.done (.ok ())) := by
  refine ⟨rfl, by decide, by decide⟩

/-- **C46**: a future asked for while another behaviour dials that very address is told of an error when the
connection is established there. -/
theorem C46_told_error :
    saysIn (worldRun true World.init [.dialToo exPeerA [exDial1], .connect exKey1, .dialed exPeerA 1 exDial1]) 0 =
      some (.done (.error sAnother)) := by decide

end Verif.Props
