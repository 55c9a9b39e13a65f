import Verif.Ipfs.Ipns
import Verif.Base.Snoc
import Verif.Props.Path

/-!
# C55: resolving ipns paths, and C57: the records of the repository
-/

namespace Verif.Props

open Verif Verif.Ipld Verif.Ipfs

/-! ### Specification -/

/-- The first string of the TXT records of the name that is a link is one to the path. -/
def LinkRec (mb : UInt8 → Bytes → Option Bytes) (txt : Txt) (d : Bytes) (q : IpfsPath) : Prop :=
  ∃ before s after, txt d = some (before ++ ("dnslink=".toUTF8.toList ++ s) :: after) ∧
    (∀ x ∈ before, ∀ t, x ≠ "dnslink=".toUTF8.toList ++ t) ∧ utf8Ok s = true ∧ IpfsPath.parse mb s = some q

/-- One step of resolution. A cid is where it ends; for a name, its own records are preferred to those
of the name with "_dnslink." in front, which is not put there twice. -/
inductive Next (mb : UInt8 → Bytes → Option Bytes) (txt : Txt) : IpfsPath → IpfsPath → Prop where
  | ipld {c segs} : Next mb txt ⟨.ipld c, segs⟩ ⟨.ipld c, segs⟩
  | own {d segs q} : LinkRec mb txt d q → Next mb txt ⟨.dns d, segs⟩ q
  | sub {d segs q} : (∀ q', ¬ LinkRec mb txt d q') → (∀ t, d ≠ "_dnslink.".toUTF8.toList ++ t) →
      LinkRec mb txt ("_dnslink.".toUTF8.toList ++ d) q → Next mb txt ⟨.dns d, segs⟩ q

/-- Any number of steps. -/
inductive Leads (mb : UInt8 → Bytes → Option Bytes) (txt : Txt) : IpfsPath → IpfsPath → Prop where
  | refl {p} : Leads mb txt p p
  | step {p q r} : Leads mb txt p q → Next mb txt q r → Leads mb txt p r

/-- There are finitely many different sets of records. -/
def FinitelyMany (txt : Txt) (sets : List (List Bytes)) : Prop := ∀ d r, txt d = some r → r ∈ sets

/-! ### One step -/

theorem dnslinkEq_text : sDnslinkEq = "dnslink=".toUTF8.toList := by decide +kernel
theorem dnslinkDot_text : sDnslinkDot = "_dnslink.".toUTF8.toList := by decide +kernel

theorem linkOf_some {x s : Bytes} : linkOf x = some s ↔ x = sDnslinkEq ++ s := by
  unfold linkOf
  by_cases h : sDnslinkEq.isPrefixOf x = true
  · rw [if_pos h]
    obtain ⟨t, rfl⟩ := List.isPrefixOf_iff_prefix.mp h
    simp
  · rw [if_neg h]
    simp only [reduceCtorEq, false_iff]
    rintro rfl
    exact h (List.isPrefixOf_iff_prefix.mpr ⟨s, rfl⟩)

theorem linkOf_none {x : Bytes} : linkOf x = none ↔ ∀ t, x ≠ sDnslinkEq ++ t := by
  constructor
  · intro h t ht
    rw [linkOf_some.mpr ht] at h
    cases h
  · intro h
    cases hx : linkOf x with
    | none => rfl
    | some s => exact absurd (linkOf_some.mp hx) (h s)

theorem filterMap_head {strings : List Bytes} {s : Bytes} {rest : List Bytes}
    (h : strings.filterMap linkOf = s :: rest) :
    ∃ before after, strings = before ++ (sDnslinkEq ++ s) :: after ∧ ∀ x ∈ before, ∀ t, x ≠ sDnslinkEq ++ t := by
  induction strings with
  | nil => cases h
  | cons y ys ih =>
    rw [List.filterMap_cons] at h
    split at h
    · rename_i hn
      obtain ⟨before, after, h1, h2⟩ := ih h
      refine ⟨y :: before, after, by rw [h1]; rfl, ?_⟩
      intro x hx
      rcases List.mem_cons.mp hx with rfl | hx
      · exact linkOf_none.mp hn
      · exact h2 x hx
    · rename_i s' hs
      simp only [List.cons.injEq] at h
      obtain ⟨rfl, -⟩ := h
      exact ⟨[], ys, by rw [linkOf_some.mp hs]; rfl, by simp⟩

theorem filterMap_of_head {before : List Bytes} {s : Bytes} {after : List Bytes}
    (h : ∀ x ∈ before, ∀ t, x ≠ sDnslinkEq ++ t) :
    (before ++ (sDnslinkEq ++ s) :: after).filterMap linkOf = s :: after.filterMap linkOf := by
  induction before with
  | nil =>
    rw [List.nil_append, List.filterMap_cons, linkOf_some.mpr rfl]
  | cons y ys ih =>
    rw [List.cons_append, List.filterMap_cons, linkOf_none.mpr (h y (by simp))]
    exact ih (fun x hx => h x (by simp [hx]))

theorem firstLink_iff {mb : UInt8 → Bytes → Option Bytes} {txt : Txt} {d : Bytes} {q : IpfsPath} :
    (txt d).bind (firstLink mb) = some q ↔ LinkRec mb txt d q := by
  unfold LinkRec
  rw [← dnslinkEq_text]
  constructor
  · intro h
    obtain ⟨strings, h1, h2⟩ := Option.bind_eq_some_iff.mp h
    unfold firstLink at h2
    split at h2
    · cases h2
    · rename_i s rest hs
      obtain ⟨before, after, h3, h4⟩ := filterMap_head hs
      split at h2
      · rename_i hu
        exact ⟨before, s, after, by rw [h1, h3], h4, hu, h2⟩
      · cases h2
  · rintro ⟨before, s, after, h1, h2, h3, h4⟩
    rw [h1]
    simp only [Option.bind_some, firstLink, filterMap_of_head h2, h3, if_true, h4]

theorem isPrefix_dot {d : Bytes} : sDnslinkDot.isPrefixOf d = true ↔ ∃ t, d = "_dnslink.".toUTF8.toList ++ t := by
  rw [← dnslinkDot_text, List.isPrefixOf_iff_prefix]
  constructor
  · rintro ⟨t, rfl⟩; exact ⟨t, rfl⟩
  · rintro ⟨t, rfl⟩; exact ⟨t, rfl⟩

theorem next_iff {mb : UInt8 → Bytes → Option Bytes} {txt : Txt} {p q : IpfsPath} :
    ipnsResolve mb txt p = .ok q ↔ Next mb txt p q := by
  obtain ⟨root, segs⟩ := p
  cases root with
  | ipld c =>
    simp only [ipnsResolve, Except.ok.injEq]
    constructor
    · rintro rfl; exact .ipld
    · intro h; cases h; rfl
  | ipns k =>
    simp only [ipnsResolve, reduceCtorEq, false_iff]
    intro h; cases h
  | dns d =>
    have hres : ipnsResolve mb txt ⟨.dns d, segs⟩ = .ok q ↔ dnslinkResolve mb txt d = some q := by
      simp only [ipnsResolve]
      cases dnslinkResolve mb txt d <;> simp
    rw [hres, dnslinkResolve, searched, List.findSome?_cons]
    cases ho : (txt d).bind (firstLink mb) with
    | some q' =>
      simp only [Option.some.injEq]
      have hq' := firstLink_iff.mp ho
      constructor
      · rintro rfl; exact .own hq'
      · intro h
        cases h with
        | own h => rw [firstLink_iff.mpr h] at ho; exact (Option.some.inj ho).symm
        | sub h _ _ => exact absurd hq' (h _)
    | none =>
      have hno : ∀ q', ¬ LinkRec mb txt d q' := by
        intro q' h
        rw [firstLink_iff.mpr h] at ho
        cases ho
      simp only
      by_cases hp : sDnslinkDot.isPrefixOf d = true
      · rw [if_pos hp]
        obtain ⟨t, ht⟩ := isPrefix_dot.mp hp
        simp only [List.findSome?_nil, reduceCtorEq, false_iff]
        intro h
        cases h with
        | own h => exact hno _ h
        | sub _ h _ => exact h t ht
      · rw [if_neg hp]
        have hp' : ∀ t, d ≠ "_dnslink.".toUTF8.toList ++ t := fun t ht => hp (isPrefix_dot.mpr ⟨t, ht⟩)
        have : (List.findSome? (fun d => (txt d).bind (firstLink mb)) [sDnslinkDot ++ d]) =
            (txt (sDnslinkDot ++ d)).bind (firstLink mb) := by
          simp only [List.findSome?_cons, List.findSome?_nil]
          split <;> rename_i hh <;> rw [hh]
        rw [this, firstLink_iff, dnslinkDot_text]
        constructor
        · intro h; exact .sub hno hp' h
        · intro h
          cases h with
          | own h => exact absurd h (hno _)
          | sub _ _ h => exact h

theorem next_det {mb : UInt8 → Bytes → Option Bytes} {txt : Txt} {p q r : IpfsPath}
    (h1 : Next mb txt p q) (h2 : Next mb txt p r) : q = r := by
  have h1 := next_iff.mpr h1
  have h2 := next_iff.mpr h2
  rw [h1] at h2
  exact Except.ok.inj h2

theorem next_none {mb : UInt8 → Bytes → Option Bytes} {txt : Txt} {p : IpfsPath} :
    (∃ e, ipnsResolve mb txt p = .error e) ↔ ∀ q, ¬ Next mb txt p q := by
  constructor
  · rintro ⟨e, he⟩ q hq
    rw [next_iff.mpr hq] at he
    cases he
  · intro h
    cases hr : ipnsResolve mb txt p with
    | error e => exact ⟨e, rfl⟩
    | ok q => exact absurd (next_iff.mp hr) (h q)

theorem Leads.trans {mb : UInt8 → Bytes → Option Bytes} {txt : Txt} {p q r : IpfsPath}
    (h1 : Leads mb txt p q) (h2 : Leads mb txt q r) : Leads mb txt p r := by
  induction h2 with
  | refl => exact h1
  | step _ h ih => exact .step ih h

theorem Leads.head {mb : UInt8 → Bytes → Option Bytes} {txt : Txt} {p q r : IpfsPath}
    (h1 : Next mb txt p q) (h2 : Leads mb txt q r) : Leads mb txt p r := Leads.trans (.step .refl h1) h2

/-- The first of the steps. -/
theorem Leads.cases_head {mb : UInt8 → Bytes → Option Bytes} {txt : Txt} {a b : IpfsPath} (h : Leads mb txt a b) :
    a = b ∨ ∃ c, Next mb txt a c ∧ Leads mb txt c b := by
  induction h with
  | refl => exact .inl rfl
  | step h1 h2 ih =>
    rcases ih with rfl | ⟨c, hc1, hc2⟩
    · exact .inr ⟨_, h2, .refl⟩
    · exact .inr ⟨c, hc1, .step hc2 h2⟩

/-- From one path, one of two others comes first. -/
theorem Leads.linear {mb : UInt8 → Bytes → Option Bytes} {txt : Txt} {p q r : IpfsPath}
    (h1 : Leads mb txt p q) (h2 : Leads mb txt p r) : Leads mb txt q r ∨ Leads mb txt r q := by
  induction h1 with
  | refl => exact .inl h2
  | step h1 hn ih =>
    rcases ih with h | h
    · rcases h.cases_head with rfl | ⟨c, hc1, hc2⟩
      · exact .inr (.step .refl hn)
      · rw [next_det hn hc1]; exact .inl hc2
    · exact .inr (.step h hn)

/-! ### The loop -/

theorem nodup_bound {α : Type} [DecidableEq α] {l m : List α} (h : l.Nodup) (hs : ∀ x ∈ l, x ∈ m) :
    l.length ≤ m.length := by
  induction l generalizing m with
  | nil => simp
  | cons x l ih =>
    rw [List.nodup_cons] at h
    have hx := hs x (by simp)
    have := ih h.2 (m := m.erase x) (by
      intro y hy
      have hne : y ≠ x := by rintro rfl; exact h.1 hy
      exact (List.mem_erase_of_ne hne).mpr (hs y (by simp [hy])))
    rw [List.length_erase_of_mem hx] at this
    have : 0 < m.length := List.length_pos_of_mem hx
    simp only [List.length_cons]
    omega

/-- What the loop keeps: all seen are on the way, the last one seen leads to the current result. -/
structure LoopInv (mb : UInt8 → Bytes → Option Bytes) (txt : Txt) (start : IpfsPath) (seen : List IpfsPath)
    (cur : IpfsPath) : Prop where
  nodup : seen.Nodup
  from_start : ∀ q ∈ cur :: seen, ∃ p, Leads mb txt start p ∧ Next mb txt p q
  to_cur : ∀ q ∈ seen, ∃ p, Leads mb txt q p ∧ Next mb txt p cur

theorem LoopInv.next {mb : UInt8 → Bytes → Option Bytes} {txt : Txt} {start cur q : IpfsPath} {seen : List IpfsPath}
    (h : LoopInv mb txt start seen cur) (hnew : cur ∉ seen) (hn : Next mb txt cur q) :
    LoopInv mb txt start (cur :: seen) q := by
  refine ⟨List.nodup_cons.mpr ⟨hnew, h.nodup⟩, ?_, ?_⟩
  · intro x hx
    rcases List.mem_cons.mp hx with rfl | hx
    · obtain ⟨p, h1, h2⟩ := h.from_start cur (by simp)
      exact ⟨cur, .step h1 h2, hn⟩
    · exact h.from_start x hx
  · intro x hx
    rcases List.mem_cons.mp hx with rfl | hx
    · exact ⟨x, .refl, hn⟩
    · obtain ⟨p, h1, h2⟩ := h.to_cur x hx
      exact ⟨cur, .step h1 h2, hn⟩

theorem loop_result {mb : UInt8 → Bytes → Option Bytes} {txt : Txt} {start : IpfsPath} :
    ∀ {fuel : Nat} {seen : List IpfsPath} {cur : IpfsPath} {r : Except IpnsErr IpfsPath},
    LoopInv mb txt start seen cur → resolveLoop mb txt fuel seen (.ok cur) = some r →
    (∀ q, r = .ok q → (∃ p, Leads mb txt start p ∧ Next mb txt p q) ∧ (∃ p, Leads mb txt q p ∧ Next mb txt p q)) ∧
    (∀ e, r = .error e → ∃ p, Leads mb txt start p ∧ ipnsResolve mb txt p = .error e) := by
  intro fuel
  induction fuel with
  | zero => intro seen cur r _ h; cases h
  | succ fuel ih =>
    intro seen cur r hinv h
    simp only [resolveLoop] at h
    split at h
    · rename_i hmem
      simp only [Option.some.injEq] at h
      subst h
      refine ⟨?_, by simp⟩
      intro q hq
      cases hq
      exact ⟨hinv.from_start _ (by simp), hinv.to_cur _ hmem⟩
    · rename_i hnew
      cases hr : ipnsResolve mb txt cur with
      | ok q =>
        rw [hr] at h
        exact ih (hinv.next hnew (next_iff.mp hr)) h
      | error e =>
        rw [hr] at h
        cases fuel with
        | zero => cases h
        | succ fuel =>
          simp only [resolveLoop, Option.some.injEq] at h
          subst h
          refine ⟨by simp, ?_⟩
          intro e' he'
          cases he'
          obtain ⟨p, h1, h2⟩ := hinv.from_start cur (by simp)
          exact ⟨cur, .step h1 h2, hr⟩

theorem resolveIpns_result {mb : UInt8 → Bytes → Option Bytes} {txt : Txt} {fuel : Nat} {path : IpfsPath}
    {r : Except IpnsErr IpfsPath} (h : resolveIpns mb txt fuel path true = some r) :
    (∀ q, r = .ok q → (∃ p, Leads mb txt path p ∧ Next mb txt p q) ∧ (∃ p, Leads mb txt q p ∧ Next mb txt p q)) ∧
    (∀ e, r = .error e → ∃ p, Leads mb txt path p ∧ ipnsResolve mb txt p = .error e) := by
  simp only [resolveIpns, if_true] at h
  cases hr : ipnsResolve mb txt path with
  | ok q =>
    rw [hr] at h
    refine loop_result ⟨List.nodup_nil, ?_, by simp⟩ h
    intro x hx
    simp only [List.mem_singleton] at hx
    subst hx
    exact ⟨path, .refl, next_iff.mp hr⟩
  | error e =>
    rw [hr] at h
    cases fuel with
    | zero => cases h
    | succ fuel =>
      simp only [resolveLoop, Option.some.injEq] at h
      subst h
      refine ⟨by simp, ?_⟩
      intro e' he'
      cases he'
      exact ⟨path, .refl, hr⟩

theorem linkRec_mem {mb : UInt8 → Bytes → Option Bytes} {txt : Txt} {sets : List (List Bytes)}
    (hfin : FinitelyMany txt sets) {d : Bytes} {q : IpfsPath} (h : LinkRec mb txt d q) :
    q ∈ sets.filterMap (firstLink mb) := by
  obtain ⟨r, h1, h2⟩ := Option.bind_eq_some_iff.mp (firstLink_iff.mpr h)
  exact List.mem_filterMap.mpr ⟨r, hfin d r h1, h2⟩

theorem next_mem {mb : UInt8 → Bytes → Option Bytes} {txt : Txt} {sets : List (List Bytes)}
    (hfin : FinitelyMany txt sets) {p q : IpfsPath} (h : Next mb txt p q) :
    q = p ∨ q ∈ sets.filterMap (firstLink mb) := by
  cases h with
  | ipld => exact .inl rfl
  | own h => exact .inr (linkRec_mem hfin h)
  | sub _ _ h => exact .inr (linkRec_mem hfin h)

theorem leads_mem {mb : UInt8 → Bytes → Option Bytes} {txt : Txt} {sets : List (List Bytes)}
    (hfin : FinitelyMany txt sets) {p q : IpfsPath} (h : Leads mb txt p q) :
    q ∈ p :: sets.filterMap (firstLink mb) := by
  induction h with
  | refl => simp
  | step _ hn ih =>
    rcases next_mem hfin hn with rfl | h
    · exact ih
    · exact List.mem_cons_of_mem _ h

theorem loop_ends {mb : UInt8 → Bytes → Option Bytes} {txt : Txt} {sets : List (List Bytes)}
    (hfin : FinitelyMany txt sets) {start : IpfsPath} :
    ∀ {fuel : Nat} {seen : List IpfsPath} {cur : IpfsPath}, LoopInv mb txt start seen cur →
    sets.length + 3 ≤ fuel + seen.length → ∃ r, resolveLoop mb txt fuel seen (.ok cur) = some r := by
  intro fuel
  induction fuel with
  | zero =>
    intro seen cur hinv hlen
    exfalso
    have h1 : seen.length ≤ (start :: sets.filterMap (firstLink mb)).length := by
      apply nodup_bound hinv.nodup
      intro x hx
      obtain ⟨p, h1, h2⟩ := hinv.from_start x (by simp [hx])
      exact leads_mem hfin (.step h1 h2)
    have h2 := List.length_filterMap_le (firstLink mb) sets
    simp only [List.length_cons] at h1
    omega
  | succ fuel ih =>
    intro seen cur hinv hlen
    simp only [resolveLoop]
    split
    · exact ⟨_, rfl⟩
    · rename_i hnew
      cases hr : ipnsResolve mb txt cur with
      | ok q => exact ih (hinv.next hnew (next_iff.mp hr)) (by simp only [List.length_cons]; omega)
      | error e =>
        cases fuel with
        | zero =>
          exfalso
          have h1 : (cur :: seen).length ≤ (start :: sets.filterMap (firstLink mb)).length := by
            apply nodup_bound (List.nodup_cons.mpr ⟨hnew, hinv.nodup⟩)
            intro x hx
            obtain ⟨p, h1, h2⟩ := hinv.from_start x hx
            exact leads_mem hfin (.step h1 h2)
          have h2 := List.length_filterMap_le (firstLink mb) sets
          simp only [List.length_cons] at h1
          omega
        | succ fuel => exact ⟨_, rfl⟩

/-! ### C55 -/

/-- **C55**: with finitely many records, recursive resolution ends, after at most one round for each and
three more. -/
theorem C55_terminates (mb : UInt8 → Bytes → Option Bytes) (txt : Txt) (sets : List (List Bytes))
    (hfin : FinitelyMany txt sets) (path : IpfsPath) (fuel : Nat) (hf : sets.length + 3 ≤ fuel) :
    ∃ r, resolveIpns mb txt fuel path true = some r := by
  simp only [resolveIpns, if_true]
  cases hr : ipnsResolve mb txt path with
  | ok q =>
    refine loop_ends hfin (start := path) ⟨List.nodup_nil, ?_, by simp⟩ (by simpa using hf)
    intro x hx
    simp only [List.mem_singleton] at hx
    subst hx
    exact ⟨path, .refl, next_iff.mp hr⟩
  | error e =>
    cases fuel with
    | zero => omega
    | succ fuel => exact ⟨_, rfl⟩

/-- **C55**: the path resolved to is reached by following records, and is a cid or on a cycle of records. -/
theorem C55_ok (mb : UInt8 → Bytes → Option Bytes) (txt : Txt) (fuel : Nat) (path q : IpfsPath)
    (h : resolveIpns mb txt fuel path true = some (.ok q)) :
    Leads mb txt path q ∧ ((∃ c segs, q = ⟨.ipld c, segs⟩) ∨
      ∃ d segs, q = ⟨.dns d, segs⟩ ∧ ∃ p, Leads mb txt q p ∧ Next mb txt p q) := by
  obtain ⟨⟨p, h1, h2⟩, p', h3, h4⟩ := (resolveIpns_result h).1 q rfl
  refine ⟨.step h1 h2, ?_⟩
  obtain ⟨root, segs⟩ := q
  cases root with
  | ipld c => exact .inl ⟨c, segs, rfl⟩
  | dns d => exact .inr ⟨d, segs, rfl, p', h3, h4⟩
  | ipns k =>
    exfalso
    -- nothing follows the path of a peer
    have : ∀ a b, Leads mb txt a b → ∀ k segs, a = ⟨.ipns k, segs⟩ → b = a := by
      intro a b hab
      induction hab with
      | refl => intros; rfl
      | step _ hn ih =>
        intro k segs ha
        rw [ih k segs ha, ha] at hn
        cases hn
    have := this _ _ h3 k segs rfl
    rw [this] at h4
    cases h4

/-- From a path on a cycle, every path reached leads back. -/
theorem cycle_back {mb : UInt8 → Bytes → Option Bytes} {txt : Txt} {q x : IpfsPath}
    (hc : ∃ p, Leads mb txt q p ∧ Next mb txt p q) (h : Leads mb txt q x) :
    ∃ y, Leads mb txt x y ∧ Next mb txt y q := by
  induction h with
  | refl => exact hc
  | step _ hn ih =>
    obtain ⟨y, h1, h2⟩ := ih
    rcases h1.cases_head with rfl | ⟨c, hc1, hc2⟩
    · rw [next_det hn h2]; exact hc
    · rw [next_det hn hc1]; exact ⟨y, hc2, h2⟩

/-- **C55**: it fails exactly when following the records comes to a path without one, and then with the
error of that path. -/
theorem C55_error (mb : UInt8 → Bytes → Option Bytes) (txt : Txt) (fuel : Nat) (path : IpfsPath)
    (r : Except IpnsErr IpfsPath) (h : resolveIpns mb txt fuel path true = some r) :
    ((∃ e, r = .error e) ↔ ∃ p, Leads mb txt path p ∧ ∀ q, ¬ Next mb txt p q) ∧
    ∀ p, Leads mb txt path p → (∀ q, ¬ Next mb txt p q) → r = .error
      (match p.root with | .dns d => .failed d | _ => .unimplemented) := by
  have hr := resolveIpns_result h
  have key : ∀ p, Leads mb txt path p → (∀ q, ¬ Next mb txt p q) → r = .error
      (match p.root with | .dns d => .failed d | _ => .unimplemented) := by
    intro p hp hno
    cases r with
    | ok q =>
      exfalso
      obtain ⟨⟨a, h1, h2⟩, hc⟩ := hr.1 q rfl
      rcases Leads.linear (.step h1 h2) hp with hl | hl
      · obtain ⟨y, h3, h4⟩ := cycle_back hc hl
        rcases h3.cases_head with rfl | ⟨c, hc1, _⟩
        · exact hno _ h4
        · exact hno _ hc1
      · rcases hl.cases_head with rfl | ⟨c, hc1, _⟩
        · obtain ⟨y, h3, h4⟩ := hc
          rcases h3.cases_head with rfl | ⟨c, hc1, _⟩
          · exact hno _ h4
          · exact hno _ hc1
        · exact hno _ hc1
    | error e =>
      obtain ⟨a, h1, h2⟩ := hr.2 e rfl
      have hna := next_none.mp ⟨e, h2⟩
      have : a = p := by
        rcases Leads.linear h1 hp with hl | hl
        · rcases hl.cases_head with rfl | ⟨c, hc1, _⟩
          · rfl
          · exact absurd hc1 (hna _)
        · rcases hl.cases_head with rfl | ⟨c, hc1, _⟩
          · rfl
          · exact absurd hc1 (hno _)
      subst this
      obtain ⟨root, segs⟩ := a
      cases root with
      | ipld c => exact absurd .ipld (hna _)
      | ipns k => simp only [ipnsResolve, Except.error.injEq] at h2; rw [← h2]
      | dns d =>
        simp only [ipnsResolve] at h2
        split at h2
        · cases h2
        · cases h2; rfl
  refine ⟨⟨?_, ?_⟩, key⟩
  · rintro ⟨e, rfl⟩
    obtain ⟨a, h1, h2⟩ := hr.2 e rfl
    exact ⟨a, h1, next_none.mp ⟨e, h2⟩⟩
  · rintro ⟨p, h1, h2⟩
    exact ⟨_, key p h1 h2⟩

/-- **C55**: if following the records comes to a cid, that is the result. -/
theorem C55_cid (mb : UInt8 → Bytes → Option Bytes) (txt : Txt) (fuel : Nat) (path : IpfsPath) (c : Cid)
    (segs : List Bytes) (r : Except IpnsErr IpfsPath) (h : resolveIpns mb txt fuel path true = some r)
    (hl : Leads mb txt path ⟨.ipld c, segs⟩) : r = .ok ⟨.ipld c, segs⟩ := by
  have hr := resolveIpns_result h
  have stay : ∀ x, Leads mb txt ⟨.ipld c, segs⟩ x → x = ⟨.ipld c, segs⟩ := by
    intro x hx
    generalize hp : (⟨.ipld c, segs⟩ : IpfsPath) = p at hx
    induction hx with
    | refl => rfl
    | step _ hn ih =>
      rw [ih, ← hp] at hn
      rw [← hp]
      cases hn
      rfl
  cases r with
  | ok q =>
    obtain ⟨⟨a, h1, h2⟩, hc⟩ := hr.1 q rfl
    rcases Leads.linear (.step h1 h2) hl with h3 | h3
    · obtain ⟨y, h4, h5⟩ := cycle_back hc h3
      rw [stay y h4] at h5
      cases h5
      rfl
    · rw [stay q h3]
  | error e =>
    exfalso
    obtain ⟨a, h1, h2⟩ := hr.2 e rfl
    have hna := next_none.mp ⟨e, h2⟩
    rcases Leads.linear h1 hl with h3 | h3
    · rcases h3.cases_head with rfl | ⟨c, hc1, _⟩
      · exact hna _ .ipld
      · exact hna _ hc1
    · rw [stay a h3] at hna
      exact hna _ .ipld

/-- **C55**: a path that is already an ipld path is returned unchanged, recursively or not. -/
theorem C55_ipld (mb : UInt8 → Bytes → Option Bytes) (txt : Txt) (fuel : Nat) (c : Cid) (segs : List Bytes)
    (recursive : Bool) : resolveIpns mb txt (fuel + 2) ⟨.ipld c, segs⟩ recursive = some (.ok ⟨.ipld c, segs⟩) := by
  cases recursive <;> simp [resolveIpns, ipnsResolve, resolveLoop]

/-- **C55**: not recursively, a single record is followed. -/
theorem C55_single (mb : UInt8 → Bytes → Option Bytes) (txt : Txt) (fuel : Nat) (path q : IpfsPath) :
    resolveIpns mb txt fuel path false = some (.ok q) ↔ Next mb txt path q := by
  simp only [resolveIpns, Bool.false_eq_true, if_false, Option.some.injEq]
  exact next_iff

/-- The segments after a name are lost: documents are got as if there were none. -/
theorem C55_segments_lost (mb : UInt8 → Bytes → Option Bytes) (txt : Txt) (e : Env) (size : Nat)
    (fetch : Cid → Option Bytes) (fuel : Nat) (d : Bytes) (segs : List Bytes) (doc : Ipld) :
    dagGetAny mb txt e size fetch fuel ⟨.dns d, segs⟩ = some (.ok doc) ↔
      dagGetAny mb txt e size fetch fuel ⟨.dns d, []⟩ = some (.ok doc) := by
  have : resolveIpns mb txt fuel ⟨.dns d, segs⟩ true = resolveIpns mb txt fuel ⟨.dns d, []⟩ true := rfl
  simp only [dagGetAny, this]
  cases resolveIpns mb txt fuel ⟨.dns d, []⟩ true with
  | none => rfl
  | some r => cases r <;> simp

/-! ### C57 -/

/-- The root is one that parsing can give. -/
def RootOk : PathRoot → Prop
  | .ipld c => c.Valid
  | .ipns p => p.Valid
  | .dns d => NoSlash d ∧ PeerId.ofText d = none

/-- What a call says about the record of the peer. -/
def says (peer : PeerId) : IpnsOp → Option (Option IpfsPath)
  | .put p path => if p = peer then some (some path) else none
  | .remove p => if p = peer then some none else none
  | .get _ => none
  | .wipe => some none

/-- The last path put for the peer and not removed since. -/
def lastPut (hist : List IpnsOp) (peer : PeerId) : Option IpfsPath :=
  (hist.reverse.findSome? (says peer)).join

/-- The peer of a call and the path it puts are ones that exist. -/
def OpOk : IpnsOp → Prop
  | .put p path => p.Valid ∧ RootOk path.root ∧ ∀ x ∈ path.path, Segment x
  | .remove p => p.Valid
  | .get p => p.Valid
  | .wipe => True

theorem PeerId.toBytes_inj {a b : PeerId} (ha : a.Valid) (hb : b.Valid) (h : a.toBytes = b.toBytes) : a = b := by
  have h1 := PeerId.ofText_toText a ha
  have h2 := PeerId.ofText_toText b hb
  unfold PeerId.toText at h1 h2
  rw [h, h2] at h1
  exact (Option.some.inj h1).symm

/-- The text of a path whose root is as parsing gives it parses back. -/
theorem parse_text {mb : UInt8 → Bytes → Option Bytes} {p : IpfsPath} (h : RootOk p.root)
    (hseg : ∀ x ∈ p.path, Segment x) : IpfsPath.parse mb p.text = some p := by
  obtain ⟨root, path⟩ := p
  cases root with
  | ipld c =>
    refine parse_text_of (ty := sIpfs) (key := c.toText) (by decide) (Cid.toText_no_slash c) hseg rfl ?_
    simp only [parseRoot, ne_eq, not_true_eq_false, if_false, true_or, if_true,
      Cid.ofText_toText mb c h, Option.map_some]
  | ipns p =>
    refine parse_text_of (ty := sIpns) (key := p.toText) (by decide)
      (fun x hx => (base58_no_slash _ x hx).1) hseg rfl ?_
    have hne : ¬ (sIpns = sIpfs ∨ sIpns = sIpld) := by decide
    simp only [parseRoot, ne_eq, not_true_eq_false, if_false, if_neg hne, if_true,
      PeerId.ofText_toText p h]
  | dns d =>
    obtain ⟨hd1, hd2⟩ := h
    refine parse_text_of (ty := sIpns) (key := d) (by decide) hd1 hseg rfl ?_
    have hne : ¬ (sIpns = sIpfs ∨ sIpns = sIpld) := by decide
    simp only [parseRoot, ne_eq, not_true_eq_false, if_false, if_neg hne, if_true, hd2]

theorem lastPut_snoc (hist : List IpnsOp) (op : IpnsOp) (peer : PeerId) :
    lastPut (hist ++ [op]) peer = match says peer op with
      | some x => x
      | none => lastPut hist peer := by
  simp only [lastPut, List.reverse_append, List.reverse_singleton, List.singleton_append, List.findSome?_cons]
  cases says peer op <;> rfl

/-- What is stored, for every history. -/
theorem store_spec (hist : List IpnsOp) (h : ∀ op ∈ hist, OpOk op) (peer : PeerId) (hp : peer.Valid) :
    AMap.get (IpnsStore.after hist) peer.toBytes = (lastPut hist peer).map IpfsPath.text ∧
    ∀ path, lastPut hist peer = some path → RootOk path.root ∧ ∀ x ∈ path.path, Segment x := by
  revert h
  refine snocInd (P := fun hist => (∀ op ∈ hist, OpOk op) →
    AMap.get (IpnsStore.after hist) peer.toBytes = (lastPut hist peer).map IpfsPath.text ∧
    ∀ path, lastPut hist peer = some path → RootOk path.root ∧ ∀ x ∈ path.path, Segment x)
    (fun _ => ⟨rfl, by intro path h; cases h⟩) ?_ hist
  intro hist op ih h
  obtain ⟨ih1, ih2⟩ := ih (fun o ho => h o (by simp [ho]))
  have hop := h op (by simp)
  have hstep : IpnsStore.after (hist ++ [op]) = (IpnsStore.after hist).step op := by
    simp [IpnsStore.after]
  rw [hstep, lastPut_snoc]
  cases op with
  | put p path =>
    simp only [IpnsStore.step, IpnsStore.putIpns, says]
    by_cases hpe : p = peer
    · subst hpe
      simp only [if_true, AMap.get_set_eq, Option.map_some]
      refine ⟨trivial, ?_⟩
      intro path' he
      cases he
      exact hop.2
    · simp only [if_neg hpe]
      rw [AMap.get_set_ne _ _ (fun he => hpe (PeerId.toBytes_inj hop.1 hp he.symm))]
      exact ⟨ih1, ih2⟩
  | remove p =>
    simp only [IpnsStore.step, IpnsStore.removeIpns, says, AMap.get_erase]
    by_cases hpe : p = peer
    · subst hpe
      simp
    · simp only [if_neg hpe]
      rw [if_neg (fun he => hpe (PeerId.toBytes_inj hop hp he.symm))]
      exact ⟨ih1, ih2⟩
  | get p => exact ⟨ih1, ih2⟩
  | wipe => simp [IpnsStore.step, says, AMap.get]

/-- **C57**: `get_ipns` gives the last path put for the peer and not removed since, after every history of
calls, as long as the paths put are ones that parsing or `From<Cid>`, `From<PeerId>` and `sub_path` give. -/
theorem C57_get_partial (mb : UInt8 → Bytes → Option Bytes) (hist : List IpnsOp) (h : ∀ op ∈ hist, OpOk op)
    (peer : PeerId) (hp : peer.Valid) :
    (IpnsStore.after hist).getIpns mb peer = .ok (lastPut hist peer) := by
  obtain ⟨h1, h2⟩ := store_spec hist h peer hp
  simp only [IpnsStore.getIpns, h1]
  cases hl : lastPut hist peer with
  | none => rfl
  | some path =>
    obtain ⟨h3, h4⟩ := h2 path hl
    simp [parse_text h3 h4]

/-- **C57**: calls about other peers change nothing for a peer, whatever they put. -/
theorem C57_others (mb : UInt8 → Bytes → Option Bytes) (s : IpnsStore) (peer other : PeerId) (path : IpfsPath)
    (hp : peer.Valid) (ho : other.Valid) (hne : peer ≠ other) :
    (s.putIpns other path).getIpns mb peer = s.getIpns mb peer ∧
    (s.removeIpns other).getIpns mb peer = s.getIpns mb peer := by
  have hb : other.toBytes ≠ peer.toBytes := fun he => hne (PeerId.toBytes_inj hp ho he.symm)
  simp only [IpnsStore.getIpns, IpnsStore.putIpns, IpnsStore.removeIpns, AMap.get_erase]
  rw [AMap.get_set_ne _ _ (Ne.symm hb), if_neg (Ne.symm hb)]
  exact ⟨rfl, rfl⟩

/-! ### Examples and witnesses -/

def exPeer : PeerId := ⟨mhSha256, List.replicate 32 7⟩
def exPeer2 : PeerId := ⟨mhSha256, List.replicate 32 8⟩

def exDnsPath (s : String) : IpfsPath := ⟨.dns s.toUTF8.toList, []⟩

/-- a → b → cid; c → d → c; e has an unusable link first. -/
def exTxt : Txt := fun d =>
  if d = "a".toUTF8.toList then some ["v=spf1".toUTF8.toList, "dnslink=/ipns/b".toUTF8.toList]
  else if d = "_dnslink.b".toUTF8.toList then
    some ["dnslink=/ipfs/QmdfTbBqBPQ7VNxZEYEj14VmRuZBkqFbiwReogJgS1zR1n/x".toUTF8.toList]
  else if d = "c".toUTF8.toList then some ["dnslink=/ipns/d".toUTF8.toList]
  else if d = "d".toUTF8.toList then some ["dnslink=/ipns/c".toUTF8.toList]
  else if d = "e".toUTF8.toList then some ["dnslink=x".toUTF8.toList, "dnslink=/ipns/b".toUTF8.toList]
  else none

def exSets : List (List Bytes) :=
  [["v=spf1".toUTF8.toList, "dnslink=/ipns/b".toUTF8.toList],
   ["dnslink=/ipfs/QmdfTbBqBPQ7VNxZEYEj14VmRuZBkqFbiwReogJgS1zR1n/x".toUTF8.toList],
   ["dnslink=/ipns/d".toUTF8.toList], ["dnslink=/ipns/c".toUTF8.toList],
   ["dnslink=x".toUTF8.toList, "dnslink=/ipns/b".toUTF8.toList]]

example : FinitelyMany exTxt exSets := by
  intro d r h
  unfold exTxt at h
  unfold exSets
  repeat' (split at h)
  all_goals first | (cases h; done) | (simp only [Option.some.injEq] at h; subst h; simp)

/-- Two records to a cid. -/
example : (resolveIpns (fun _ _ => none) exTxt 8 (exDnsPath "a") true).map (fun r => r.toOption.map IpfsPath.text) =
    some (some "/ipfs/QmdfTbBqBPQ7VNxZEYEj14VmRuZBkqFbiwReogJgS1zR1n/x".toUTF8.toList) := by decide +kernel

/-- A cycle: the result is a name. -/
example : resolveIpns (fun _ _ => none) exTxt 8 (exDnsPath "c") true = some (.ok (exDnsPath "d")) := by
  decide +kernel

/-- Only the first link of a record is tried. -/
theorem C55_first_only : resolveIpns (fun _ _ => none) exTxt 8 (exDnsPath "e") true =
    some (.error (.failed "e".toUTF8.toList)) := by decide +kernel

/-- Getting a document of a name on a cycle fails as a path without cid. -/
example : dagGetAny (fun _ _ => none) exTxt { hash := fun _ _ => [], jsonEnc := fun _ => none, jsonDec := fun _ => none }
    0 (fun _ => none) 8 (exDnsPath "c") = some (.error (.noCid (exDnsPath "d"))) := by decide +kernel

example : exPeer.Valid ∧ exPeer2.Valid ∧ RootOk (exDnsPath "a").root := by
  refine ⟨⟨.inl rfl, by decide⟩, ⟨.inl rfl, by decide⟩, ?_, ?_⟩ <;> decide +kernel

example : (IpnsStore.after [.put exPeer (exDnsPath "a"), .put exPeer2 (exDnsPath "b"), .put exPeer (exDnsPath "c"),
    .remove exPeer2]).getIpns (fun _ _ => none) exPeer = .ok (some (exDnsPath "c")) := by decide +kernel

/-- A path that parses but whose text does not (`C18_false`) is put without an error and cannot be got. -/
theorem C57_unreadable : ∃ s p, IpfsPath.parse (fun _ _ => none) s = some p ∧
    (IpnsStore.after [.put exPeer p]).getIpns (fun _ _ => none) exPeer = .error () :=
  ⟨98 :: base32 [0x00, 0x70, 0x12, 0x00], ⟨.ipld ⟨.v0, codecDagPb, mhSha256, []⟩, []⟩,
    by decide +kernel, by decide +kernel⟩

/-- A name with a slash, as `PathRoot::Dns` may be given, comes back as a name and a segment. -/
theorem C57_slash : (IpnsStore.after [.put exPeer (exDnsPath "a/b")]).getIpns (fun _ _ => none) exPeer =
    .ok (some ⟨.dns "a".toUTF8.toList, ["b".toUTF8.toList]⟩) := by decide +kernel

end Verif.Props
