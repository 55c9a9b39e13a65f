import Verif.Props.Block
import Verif.Props.Publish
import Verif.Props.DagJson

/-!
# C63, C65, C66, C68: what is answered when requests are refused, and which base64 texts are read
-/

namespace Verif.Props

open Verif Verif.Http Verif.Ipld Verif.Unixfs Verif.Ipfs

/-! ### C65: base64 -/

theorem char64_value64 : ∀ c : Fin 256, ∀ n, value64 (UInt8.ofNat c) = some n → n < 64 ∧ char64 n = UInt8.ofNat c := by
  have h : ∀ c : Fin 256, (match value64 (UInt8.ofNat c) with
    | none => true
    | some n => decide (n < 64) && (char64 n == UInt8.ofNat c)) = true := by decide +kernel
  intro c n hn
  have := h c
  rw [hn] at this
  simpa using this

theorem value64_some {c : UInt8} {n : Nat} (h : value64 c = some n) : n < 64 ∧ char64 n = c := by
  have := char64_value64 ⟨c.toNat, c.toNat_lt⟩ n
  simp only [UInt8.ofNat_toNat] at this
  exact this h

theorem value64_pad : value64 61 = none := by decide +kernel

theorem base64_one {a b : UInt8} {bs : Bytes} (h : tail2 a b = some bs) : base64 bs = [a, b, 61, 61] := by
  unfold tail2 at h
  split at h
  · rename_i x y hx hy
    obtain ⟨hx1, hx2⟩ := value64_some hx
    obtain ⟨hy1, hy2⟩ := value64_some hy
    split at h
    · rename_i hm
      simp only [Option.some.injEq] at h
      subst h
      have e : (UInt8.ofNat (x * 4 + y / 16)).toNat = x * 4 + y / 16 := by
        rw [UInt8.toNat_ofNat']; omega
      simp only [base64, e]
      rw [show (x * 4 + y / 16) / 4 = x by omega, show (x * 4 + y / 16) % 4 * 16 = y by omega, hx2, hy2]
    · cases h
  · cases h

theorem base64_two {a b c : UInt8} {bs : Bytes} (h : tail3 a b c = some bs) : base64 bs = [a, b, c, 61] := by
  unfold tail3 at h
  split at h
  · rename_i x y z hx hy hz
    obtain ⟨hx1, hx2⟩ := value64_some hx
    obtain ⟨hy1, hy2⟩ := value64_some hy
    obtain ⟨hz1, hz2⟩ := value64_some hz
    split at h
    · rename_i hm
      simp only [Option.some.injEq] at h
      subst h
      have e1 : (UInt8.ofNat (x * 4 + y / 16)).toNat = x * 4 + y / 16 := by
        rw [UInt8.toNat_ofNat']; omega
      have e2 : (UInt8.ofNat (y % 16 * 16 + z / 4)).toNat = y % 16 * 16 + z / 4 := by
        rw [UInt8.toNat_ofNat']; omega
      simp only [base64, e1, e2]
      rw [show (x * 4 + y / 16) / 4 = x by omega,
        show (x * 4 + y / 16) % 4 * 16 + (y % 16 * 16 + z / 4) / 16 = y by omega,
        show (y % 16 * 16 + z / 4) % 16 * 4 = z by omega, hx2, hy2, hz2]
    · cases h
  · cases h

theorem base64_three {a b c d : UInt8} {bs rest : Bytes} (h : quad a b c d = some bs) :
    base64 (bs ++ rest) = a :: b :: c :: d :: base64 rest := by
  unfold quad at h
  split at h
  · rename_i x y z w hx hy hz hw
    obtain ⟨hx1, hx2⟩ := value64_some hx
    obtain ⟨hy1, hy2⟩ := value64_some hy
    obtain ⟨hz1, hz2⟩ := value64_some hz
    obtain ⟨hw1, hw2⟩ := value64_some hw
    simp only [Option.some.injEq] at h
    subst h
    have e1 : (UInt8.ofNat (x * 4 + y / 16)).toNat = x * 4 + y / 16 := by
      rw [UInt8.toNat_ofNat']; omega
    have e2 : (UInt8.ofNat (y % 16 * 16 + z / 4)).toNat = y % 16 * 16 + z / 4 := by
      rw [UInt8.toNat_ofNat']; omega
    have e3 : (UInt8.ofNat (z % 4 * 64 + w)).toNat = z % 4 * 64 + w := by
      rw [UInt8.toNat_ofNat']; omega
    simp only [List.cons_append, List.nil_append, base64, e1, e2, e3]
    rw [show (x * 4 + y / 16) / 4 = x by omega,
      show (x * 4 + y / 16) % 4 * 16 + (y % 16 * 16 + z / 4) / 16 = y by omega,
      show (y % 16 * 16 + z / 4) % 16 * 4 + (z % 4 * 64 + w) / 64 = z by omega,
      show (z % 4 * 64 + w) % 64 = w by omega, hx2, hy2, hz2, hw2]
  · cases h

/-- What comes after a text that is a whole number of groups. -/
theorem pads_eq {t : Bytes} {n : Nat} {x : UInt8} {r : Bytes} (h : t ++ List.replicate n 61 = x :: r) (hx : x ≠ 61) :
    ∃ t', t = x :: t' ∧ t' ++ List.replicate n 61 = r := by
  cases t with
  | nil =>
    cases n with
    | zero => simp at h
    | succ n =>
      simp only [List.nil_append, List.replicate_succ, List.cons.injEq] at h
      exact absurd h.1.symm hx
  | cons a t =>
    simp only [List.cons_append, List.cons.injEq] at h
    exact ⟨t, by rw [h.1], h.2⟩

/-- **C65**: a base64 text is read as some bytes just if it is how they are written, with padding left away or not. -/
theorem C65_base64 (t bs : Bytes) : unbase64 t = some bs ↔ ∃ n, t ++ List.replicate n 61 = base64 bs := by
  constructor
  · intro h
    fun_induction unbase64 t generalizing bs with
    | case1 => cases h; exact ⟨0, rfl⟩
    | case2 => cases h
    | case3 a b => exact ⟨2, (base64_one h).symm⟩
    | case4 a b => exact ⟨1, (base64_one h).symm⟩
    | case5 a b c _ => exact ⟨1, (base64_two h).symm⟩
    | case6 a b d r hr =>
      obtain ⟨rfl, rfl⟩ := hr
      exact ⟨0, by simpa using (base64_one h).symm⟩
    | case7 => cases h
    | case8 a b c _ => exact ⟨0, by simpa using (base64_two h).symm⟩
    | case9 => cases h
    | case10 a b c d r _ _ x y hx hy ih =>
      simp only [Option.some.injEq] at h
      subst h
      obtain ⟨n, hn⟩ := ih y hx
      exact ⟨n, by rw [base64_three hy, ← hn]; rfl⟩
    | case11 => cases h
  · rintro ⟨n, h⟩
    fun_induction base64 bs generalizing t with
    | case1 =>
      obtain ⟨rfl, -⟩ := List.append_eq_nil_iff.mp h
      rfl
    | case2 a =>
      have ha := a.toNat_lt
      have hfull := unbase64_base64 [a]
      obtain ⟨t1, rfl, h1⟩ := pads_eq h (char64_ne _ (by omega))
      obtain ⟨t2, rfl, h2⟩ := pads_eq h1 (char64_ne _ (by omega))
      simp only [base64, unbase64, and_self, if_true] at hfull
      match t2, h2 with
      | [], _ => simpa [unbase64] using hfull
      | [x], h =>
        simp only [List.cons_append, List.cons.injEq] at h
        simpa [unbase64, h.1] using hfull
      | [x, y], h =>
        simp only [List.cons_append, List.cons.injEq] at h
        simpa [unbase64, h.1, h.2.1] using hfull
      | _ :: _ :: _ :: _, h => simp at h
    | case3 a b =>
      have ha := a.toNat_lt
      have hb := b.toNat_lt
      have hfull := unbase64_base64 [a, b]
      have n3 := char64_ne (b.toNat % 16 * 4) (by omega)
      obtain ⟨t1, rfl, h1⟩ := pads_eq h (char64_ne _ (by omega))
      obtain ⟨t2, rfl, h2⟩ := pads_eq h1 (char64_ne _ (by omega))
      obtain ⟨t3, rfl, h3⟩ := pads_eq h2 n3
      simp only [base64, unbase64, if_neg n3, if_true] at hfull
      match t3, h3 with
      | [], _ => simpa [unbase64, n3] using hfull
      | [x], h =>
        simp only [List.cons_append, List.cons.injEq] at h
        simpa [unbase64, h.1, n3] using hfull
      | _ :: _ :: _, h => simp at h
    | case4 a b c r ih =>
      have ha := a.toNat_lt
      have hb := b.toNat_lt
      have hc := c.toNat_lt
      have v1 := value64_char64 (a.toNat / 4) (by omega)
      have v2 := value64_char64 (a.toNat % 4 * 16 + b.toNat / 16) (by omega)
      have v3 := value64_char64 (b.toNat % 16 * 4 + c.toNat / 64) (by omega)
      have v4 := value64_char64 (c.toNat % 64) (by omega)
      have n3 := char64_ne (b.toNat % 16 * 4 + c.toNat / 64) (by omega)
      have n4 := char64_ne (c.toNat % 64) (by omega)
      obtain ⟨t1, rfl, h1⟩ := pads_eq h (char64_ne _ (by omega))
      obtain ⟨t2, rfl, h2⟩ := pads_eq h1 (char64_ne _ (by omega))
      obtain ⟨t3, rfl, h3⟩ := pads_eq h2 n3
      obtain ⟨t4, rfl, h4⟩ := pads_eq h3 n4
      rw [unbase64, if_neg n3, if_neg n4, quad, v1, v2, v3, v4, ih t4 h4]
      simp only [List.cons_append, List.nil_append, Option.some.injEq, List.cons.injEq, and_true]
      simp only [← UInt8.toNat_inj, UInt8.toNat_ofNat']
      omega

example : unbase64 "YQ".toUTF8.toList = some [97] ∧ unbase64 "YQ=".toUTF8.toList = some [97] ∧
    unbase64 "YR==".toUTF8.toList = none ∧ unbase64 "Y".toUTF8.toList = none := by decide +kernel

/-! ### C63: refused requests to publish -/

/-- **C63**: why a request to publish is refused whose topic is fine but whose message is not in the query. -/
theorem C63_refused (form : Bytes → List (Option FormField)) (param q : Bytes) (ctype : CType) (topic : Bytes)
    (ps : List (Bytes × Bytes)) (first : Bytes) (hq : Params q ps) (hv : valuesOf param ps = [first])
    (ht : Unescaped first topic) (hu : utf8Ok topic = true) :
    (ctype = .absent → publishArgs form param (some q) ctype = .error .noBody) ∧
    (ctype = .invalid → publishArgs form param (some q) ctype = .error .invalidHeader) ∧
    (ctype = .mime none → publishArgs form param (some q) ctype = .error .noBoundary) ∧
    (∀ boundary, ctype = .mime (some boundary) → ∀ e, onlyNamed ["file".toUTF8.toList] 102400 (form boundary) = .error e →
      publishArgs form param (some q) ctype = .error (if e = .notFound then .noData else .form e)) ∧
    (∀ boundary, ctype = .mime (some boundary) → onlyNamed ["file".toUTF8.toList] 102400 (form boundary) = .ok [] →
      publishArgs form param (some q) ctype = .error .noData) := by
  have hps := (C63_params q ps).mpr hq
  have hne : q.isEmpty = false := by
    cases q with
    | nil => rw [rawParts] at hps; subst hps; simp [valuesOf] at hv
    | cons => rfl
  have hd := (C54_unescaped _ _).mpr ht
  have hpq : publishQuery param (some q) = .ok (topic, none) := by
    unfold publishQuery
    have : ((rawParts q).filter (fun p => p.1 = param)).map Prod.snd = [first] := by
      rw [hps]; exact hv
    simp only [hne, Bool.false_eq_true, if_false, this, hd, hu, if_true, List.head?_nil, Option.map_none]
  unfold publishArgs
  simp only [hpq]
  refine ⟨?_, ?_, ?_, ?_, ?_⟩
  · rintro rfl; rfl
  · rintro rfl; rfl
  · rintro rfl; rfl
  · rintro boundary rfl e he
    simp only [publishInner, kFile_eq]
    rw [show (1024 * 100 : Nat) = 102400 from rfl, he]
    cases e <;> rfl
  · rintro boundary rfl he
    simp only [publishInner, kFile_eq]
    rw [show (1024 * 100 : Nat) = 102400 from rfl, he]

/-! ### C66: refused requests to `cat` and `get` -/

/-- What a request for a file is answered with if its path was not resolved. -/
def refusedWith (e : AnyErr) (ε : Type) : Reply ε := if e = .dag .panic then .panic else .failed (.resolving e)

/-- **C66**: if the path cannot be resolved, the answer of `cat` and `get` says why. -/
theorem C66_refused (mb : UInt8 → Bytes → Option Bytes) (s : Served) (args : CatArgs) (range : Option Rng)
    (hr : wantedRange s.debug args.offset args.length = .range range) (ht : args.timeout = none) :
    (∀ x, resolveIpns mb s.txt s.fuel args.arg true = some (.error x) →
      catInner mb s args = refusedWith (.ipnsResolutionFailed args.arg) _ ∧
      getInner mb s args.arg none = refusedWith (.ipnsResolutionFailed args.arg) _) ∧
    (∀ c segs, resolveIpns mb s.txt s.fuel args.arg true = some (.ok ⟨.ipld c, segs⟩) →
      (∀ e, dagResolve s.env s.size s.fetch true s.fuel c segs = some (.error e) →
        catInner mb s args = refusedWith (.dag e) _ ∧ getInner mb s args.arg none = refusedWith (.dag e) _) ∧
      (∀ node rem, dagResolve s.env s.size s.fetch true s.fuel c segs = some (.ok (node, rem)) →
        ∀ e, intoUnixfsBlock node = .error e →
        catInner mb s args = .failed (.path e) ∧ getInner mb s args.arg none = .failed (.path e))) := by
  have hto : s.timedOut none = false := rfl
  have hloc : ∀ e, resolveAny mb s args.arg = some (.error e) →
      catInner mb s args = refusedWith e _ ∧ getInner mb s args.arg none = refusedWith e _ := by
    intro e he
    unfold catInner getInner refusedWith
    rw [hr, ht]
    simp only [locate, hto, Bool.false_eq_true, if_false, he]
    by_cases hp : e = .dag .panic
    · subst hp
      exact ⟨rfl, rfl⟩
    · rw [if_neg hp, if_neg hp]
      cases e with
      | dag d => cases d <;> first | exact absurd rfl hp | exact ⟨rfl, rfl⟩
      | ipnsResolutionFailed p => exact ⟨rfl, rfl⟩
      | noCid p => exact ⟨rfl, rfl⟩
  refine ⟨fun x hx => hloc _ (by simp only [resolveAny, hx]), fun c segs hc => ⟨fun e he => hloc _ ?_, fun node rem hn e he => ?_⟩⟩
  · simp only [resolveAny, hc, he]
  · unfold catInner getInner
    rw [hr, ht]
    have : resolveAny mb s args.arg = some (.ok node) := by simp only [resolveAny, hc, hn]
    simp only [locate, hto, Bool.false_eq_true, if_false, this, he, and_self]

/-- **C66**: a path that leads to something else than a file is answered by `cat` with an error: the type it has, or
that it cannot be read. -/
theorem C66_not_a_file (mb : UInt8 → Bytes → Option Bytes) (s : Served) {top d : Cid} {segs : List Bytes} {data : Bytes}
    (hd : s.fetch d = some data) (hc : d.codec = 0x70) (hf : followNames (pbOnly s.fetch) top segs = .reached d)
    (hfuel : segs.length + 2 ≤ s.fuel) (offset length : Option Nat) (range : Option Rng)
    (hr : wantedRange s.debug offset length = .range range) :
    (∀ flat, Flat.parse data = .ok flat → flat.data.type ≠ .file → flat.data.type ≠ .raw →
      catInner mb s ⟨⟨.ipld top, segs⟩, offset, length, none⟩ = .failed (.walking d (.unexpectedType flat.data.type))) ∧
    (∀ e, Flat.parse data = .error e →
      catInner mb s ⟨⟨.ipld top, segs⟩, offset, length, none⟩ = .failed (.walking d .read)) := by
  have hl := locate_follow mb s hd hc hf hfuel
  unfold catInner
  simp only [hr, hl]
  refine ⟨fun flat h1 h2 h3 => ?_, fun e h1 => ?_⟩
  · have : visitStart range data = .error (.unexpectedType flat.data.type) := by
      simp only [visitStart, FileReader.fromBlock, parseFlat, h1, FileReader.fromParts, if_pos (And.intro h2 h3)]
    simp only [this]
  · have : visitStart range data = .error .read := by
      simp only [visitStart, FileReader.fromBlock, parseFlat, h1]
    simp only [this]

/-! ### C68: messages -/

/-- The messages that are written in the code. -/
def blockMessages : List (BlockFail × Bytes) :=
  [(.notImplemented, "Not implemented".toUTF8.toList), (.noContentType, "UNHANDLED REJECTION".toUTF8.toList),
    (.noBoundary, "missing 'boundary' on content-type".toUTF8.toList), (.unknownHash, "unknown hash".toUTF8.toList),
    (.badVersion, "invalid cid version".toUTF8.toList), (.unknownCodec, "unknown codec".toUTF8.toList)]

/-- **C68**: the messages written in the code tell what was wrong; any other is that of the library. -/
theorem C68_messages (libText : BlockFail → Bytes) :
    (∀ p ∈ blockMessages, failText libText p.1 = p.2) ∧
    (∀ e, e ∉ blockMessages.map Prod.fst → failText libText e = libText e) ∧
    (∀ p ∈ blockMessages, ∀ p' ∈ blockMessages, p.2 = p'.2 → p = p') := by
  refine ⟨?_, ?_, by decide +kernel⟩
  · intro p hp
    simp only [blockMessages, List.mem_cons, List.not_mem_nil, or_false] at hp
    rcases hp with rfl | rfl | rfl | rfl | rfl | rfl <;> rfl
  · intro e he
    simp only [blockMessages, List.map_cons, List.map_nil, List.mem_cons, List.not_mem_nil, or_false, not_or] at he
    cases e <;> first | rfl | simp at he

/-- **C68**: an answer with status 200 is one that is no error, with its body. -/
theorem C68_status (libText : BlockFail → Bytes) (r : BlockReply) (body : Bytes) :
    httpAnswer libText r = some (200, body) ↔ r = .ok body ∨ ∃ chunks, r = .chunks chunks ∧ body = chunks.flatten := by
  cases r with
  | ok b => simp [httpAnswer]
  | chunks l => simp [httpAnswer, eq_comm]
  | failed e => cases e <;> simp [httpAnswer, failStatus]
  | waits => simp [httpAnswer]
  | none => simp [httpAnswer]

/-- **C68**: a request with a form whose header lacks the content type, or the boundary in it, is refused for that
reason, if its query is well-formed. -/
theorem C68_header {σ : Type} (env : BlockEnv) (s : Repo.RepoState σ) (query : Option Bytes) (u : Upload) (codec code : Nat) (v : Version) :
    (PutAsked env.q (query.getD []) codec code v →
      (u.contentType = .absent → blockPut env s query u = (s, .failed .noContentType)) ∧
      (u.contentType = .noBoundary → blockPut env s query u = (s, .failed .noBoundary))) ∧
    (DagAsked env.q (query.getD []) codec code →
      (u.contentType = .absent → dagPut env s query u = (s, .failed .noContentType)) ∧
      (u.contentType = .noBoundary → dagPut env s query u = (s, .failed .noBoundary))) := by
  have hv1 : u.contentType = .absent → u.value = .error .noContentType := fun h => by simp only [Upload.value, h]
  have hv2 : u.contentType = .noBoundary → u.value = .error .noBoundary := fun h => by simp only [Upload.value, h]
  refine ⟨?_, ?_⟩
  · rintro ⟨ps, f, m, n, g1, g2, g3, g4, -⟩
    have hp := (blockPutQuery_iff env.q (query.getD []) ⟨f, m, n⟩).mpr ⟨ps, g1, g2, g3, g4⟩
    exact ⟨fun h => by simp only [blockPut, hp, blockToPut, hv1 h], fun h => by simp only [blockPut, hp, blockToPut, hv2 h]⟩
  · rintro ⟨ps, f, m, g1, g2, g3, g4, g5, g6⟩
    have hp := (dagPutQuery_iff env.q (query.getD []) f m true).mpr ⟨ps, some true, g1, g2, g3, g4, rfl⟩
    have h5 := (codecNamed_iff ..).mpr g5
    have h6 := (hashNamed_iff ..).mpr g6
    refine ⟨fun h => by simp only [Http.dagPut, hp, h, if_true], fun h => ?_⟩
    have hn : u.contentType ≠ .absent := by rw [h]; simp
    simp only [Http.dagPut, hp, if_neg hn, if_true, dagToPut, h5, h6, hv2 h]

/-- **C68**: a request for the size of a block that is answered gives the argument and the size of what `block/get`
gives, and changes nothing. -/
theorem C68_stat {σ ε : Type} (env : BlockEnv) (hl : ∀ x, utf8Ok (env.q.lossy x) = true) (api : Repo.PinApi σ ε) (s : Repo.RepoState σ)
    (query : Option Bytes) (elapses : Bool) (arg : Bytes) (timeout : Option Nat) (body : Bytes)
    (hq : GetAsked env.q query arg timeout) (hb : (serveBlock env api s (.get query elapses)).2 = .ok body) :
    (serveBlock env api s (.get query elapses)).1 = s ∧
    ∃ text, serveBlock env api s (.stat query elapses) = (s, .ok text) ∧
      readJson text = some (.obj [("Key".toUTF8.toList, .str arg),
        ("Size".toUTF8.toList, .num ⟨false, decimal body.length, []⟩)], []) := by
  obtain ⟨text, h1, h2⟩ := (C68_get env s query elapses).2 hl arg timeout body hq hb
  exact ⟨rfl, text, by simp only [serveBlock, h1], h2⟩

/-- `C68_header`: a request without a boundary. -/
example : (blockPut exBlockEnv (noBlocks ([] : List Cid)) (some "format=raw&version=1".toUTF8.toList)
    { exUpload [1, 2, 3] with contentType := .noBoundary }).2 = .failed .noBoundary := by decide +kernel

/-- `C68_stat`: the size of what was put. -/
example : (serveBlock exBlockEnv exPinApi (serveBlocks exBlockEnv exPinApi (noBlocks []) exHistory)
    (.stat (some (catUrl exEsc (exRaw [1, 2, 3]).toText none)) true)).2 =
    .ok ("{\"Key\":\"".toUTF8.toList ++ (exRaw [1, 2, 3]).toText ++ "\",\"Size\":3}".toUTF8.toList) := by decide +kernel

/-- `C66_not_a_file`: an empty directory. -/
example : ∃ flat, Flat.parse [10, 2, 8, 1] = .ok flat ∧ flat.data.type ≠ .file ∧ flat.data.type ≠ .raw :=
  ⟨(Flat.parse [10, 2, 8, 1]).toOption.get (by decide +kernel), by decide +kernel, by decide +kernel, by decide +kernel⟩

end Verif.Props
