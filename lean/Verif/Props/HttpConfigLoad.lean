import Verif.Props.HttpConfig

/-!
# C77, C78: making and loading the configuration
-/

namespace Verif.Props

open Verif Verif.Ipfs Verif.Http

/-! ### Specification -/

/-- The object has the field once. -/
def OnlyEntry (m : List (Bytes × Json)) (f : Bytes) (x : Json) : Prop := m.filter (fun e => e.1 = f) = [(f, x)]

/-- A value with two fields: an object with both of them and whatever else, or a list of the two. -/
def Struct2 (f g : String) (j x y : Json) : Prop :=
  j = .arr [x, y] ∨ ∃ m, j = .obj m ∧ OnlyEntry m f.toUTF8.toList x ∧ OnlyEntry m g.toUTF8.toList y

/-- A file with a configuration. -/
def ConfigText (parseAddr : Bytes → Option Maddr) (file : Bytes) (c : ConfigFile) : Prop :=
  ∃ (w t w' : Bytes) (j i a : Json) (swarm : List Bytes) (api : Bytes),
    file = w ++ (t ++ w') ∧ JWs w ∧ JWs w' ∧ JText 127 j t ∧
    Struct2 "Identity" "Addresses" j i a ∧
    Struct2 "PeerID" "PrivKey" i (.str c.peerId) (.str c.privKey) ∧
    Struct2 "Swarm" "API" a (.arr (swarm.map .str)) (.str api) ∧
    swarm.map parseAddr = c.swarm.map some ∧ parseAddr api = some c.api

/-- The text of an RSA key, the key, and the PEM text made of it. -/
def KeyText {R Kp : Type} (env : KeyEnv R Kp) (text pem : Bytes) : Prop :=
  ∃ bytes der k, PadText text bytes ∧ PrivKey.decode bytes = some ⟨0, der⟩ ∧ env.ofDer der = some k ∧ env.pem k = some pem

/-- What a key and the library for addresses have to satisfy. -/
structure LawfulKeys {R Kp : Type} (env : ConfigEnv R Kp) : Prop where
  der : ∀ k d, env.der k = some d → env.ofDer d = some k ∧ d.length < 2 ^ 64
  addr : ∀ port, utf8Ok (Maddr.text env.show' (localTcp port)) = true ∧
    env.parseAddr (Maddr.text env.show' (localTcp port)) = some (localTcp port)

/-! ### The fields -/

theorem twoFields_iff {f g : Bytes} (hfg : f ≠ g) (x y : Json) (m : List (Bytes × Json)) : ∀ a b : Option Json,
    twoFields f g a b m = some (x, y) ↔
      (a.toList.map (fun j => (f, j)) ++ m.filter (fun e => e.1 = f) = [(f, x)] ∧
       b.toList.map (fun j => (g, j)) ++ m.filter (fun e => e.1 = g) = [(g, y)]) := by
  induction m with
  | nil => intro a b; cases a <;> cases b <;> simp [twoFields]
  | cons e m ih =>
    intro a b
    obtain ⟨k, j⟩ := e
    rw [twoFields]
    by_cases hf : k = f
    · subst hf
      rw [if_pos rfl]
      cases a with
      | none => simp only [Option.isSome_none, Bool.false_eq_true, if_false]; rw [ih]; simp [hfg]
      | some a => simp
    · rw [if_neg hf]
      by_cases hg : k = g
      · subst hg
        rw [if_pos rfl]
        cases b with
        | none => simp only [Option.isSome_none, Bool.false_eq_true, if_false]; rw [ih]; simp [hf]
        | some b => simp
      · rw [if_neg hg, ih]
        simp [hf, hg]

theorem readTwo_iff {f g : String} (hfg : f.toUTF8.toList ≠ g.toUTF8.toList) (j x y : Json) :
    readTwo f.toUTF8.toList g.toUTF8.toList j = some (x, y) ↔ Struct2 f g j x y := by
  unfold readTwo Struct2 OnlyEntry
  split
  · rename_i m
    rw [twoFields_iff hfg]
    simp
  · rename_i a b; simp
  · rename_i h1 h2
    constructor
    · intro h; cases h
    · rintro (rfl | ⟨m, rfl, _⟩)
      · exact absurd rfl (h2 _ _)
      · exact absurd rfl (h1 _)

theorem readText_iff (j : Json) (s : Bytes) : readText j = some s ↔ j = .str s := by
  cases j <;> simp [readText]

theorem confAddrs_iff (parse : Bytes → Option Maddr) (l : List Json) : ∀ as, confAddrs parse l = some as ↔
    ∃ ts : List Bytes, l = ts.map .str ∧ ts.map parse = as.map some := by
  induction l with
  | nil =>
    intro as
    simp only [confAddrs, Option.some.injEq]
    constructor
    · rintro rfl; exact ⟨[], rfl, rfl⟩
    · rintro ⟨ts, h1, h2⟩
      have : ts = [] := by simpa using h1.symm
      subst this
      simpa using h2
  | cons j l ih =>
    intro as
    rw [confAddrs]
    constructor
    · intro h
      split at h
      · rename_i a as' ha has
        cases h
        obtain ⟨s, hs, hp⟩ := Option.bind_eq_some_iff.mp ha
        obtain ⟨ts, h1, h2⟩ := (ih _).mp has
        exact ⟨s :: ts, by rw [(readText_iff _ _).mp hs, h1]; rfl, by simp [hp, h2]⟩
      · cases h
    · rintro ⟨ts, h1, h2⟩
      cases ts with
      | nil => cases h1
      | cons s ts =>
        cases as with
        | nil => simp at h2
        | cons a as =>
          simp only [List.map_cons, List.cons.injEq] at h1 h2
          obtain ⟨rfl, h1⟩ := h1
          have := (ih as).mpr ⟨ts, h1, h2.2⟩
          simp only [readText, Option.bind_some, h2.1, this]

theorem readSwarm_iff (parse : Bytes → Option Maddr) (j : Json) (as : List Maddr) : readSwarm parse j = some as ↔
    ∃ ts : List Bytes, j = .arr (ts.map .str) ∧ ts.map parse = as.map some := by
  cases j with
  | arr l => simp only [readSwarm, confAddrs_iff, Json.arr.injEq]
  | _ => simp [readSwarm]

theorem ofJson_iff (parse : Bytes → Option Maddr) (j : Json) (c : ConfigFile) : ConfigFile.ofJson parse j = some c ↔
    ∃ (i a : Json) (swarm : List Bytes) (api : Bytes),
      Struct2 "Identity" "Addresses" j i a ∧ Struct2 "PeerID" "PrivKey" i (.str c.peerId) (.str c.privKey) ∧
      Struct2 "Swarm" "API" a (.arr (swarm.map .str)) (.str api) ∧
      swarm.map parse = c.swarm.map some ∧ parse api = some c.api := by
  have n1 : "Identity".toUTF8.toList ≠ "Addresses".toUTF8.toList := by decide +kernel
  have n2 : "PeerID".toUTF8.toList ≠ "PrivKey".toUTF8.toList := by decide +kernel
  have n3 : "Swarm".toUTF8.toList ≠ "API".toUTF8.toList := by decide +kernel
  simp only [← readTwo_iff n1, ← readTwo_iff n2, ← readTwo_iff n3]
  change _ ↔ ∃ (i a : Json) (swarm : List Bytes) (api : Bytes),
      readTwo fIdentity fAddresses j = some (i, a) ∧ readTwo fPeerId fPrivKey i = some (.str c.peerId, .str c.privKey) ∧
      readTwo fSwarm fApi a = some (.arr (swarm.map .str), .str api) ∧
      swarm.map parse = c.swarm.map some ∧ parse api = some c.api
  unfold ConfigFile.ofJson
  constructor
  · intro h
    split at h
    · cases h
    · rename_i i a h1
      split at h
      · rename_i p k s api h2 h3
        split at h
        · rename_i p' k' s' api' e1 e2 e3 e4
          cases h
          obtain ⟨ts, rfl, e3'⟩ := (readSwarm_iff _ _ _).mp e3
          obtain ⟨t, e4, e5⟩ := Option.bind_eq_some_iff.mp e4
          rw [readText_iff] at e1 e2 e4
          subst e1 e2 e4
          exact ⟨i, a, ts, t, h1, h2, h3, e3', e5⟩
        · cases h
      · cases h
  · rintro ⟨i, a, ts, t, h1, h2, h3, h4, h5⟩
    have := (readSwarm_iff parse (.arr (ts.map .str)) c.swarm).mpr ⟨ts, rfl, h4⟩
    simp only [h1, h2, h3, readText, this, Option.bind_some, h5]

theorem skipWs_nil_iff (s : Bytes) : skipWs s = [] ↔ JWs s := by
  constructor
  · intro h
    obtain ⟨w, h1, h2, _⟩ := skipWs_split s
    rw [h, List.append_nil] at h2
    rw [h2]; exact h1
  · intro h
    have := skipWs_append h (s := []) (by simp)
    simpa using this

theorem struct2_num {f g : String} {n : JNum} {x y : Json} : ¬ Struct2 f g (.num n) x y := by
  rintro (h | ⟨m, h, _⟩) <;> cases h

/-- **C77**: which files are configurations, and which. -/
theorem C77_file (parse : Bytes → Option Maddr) (file : Bytes) (c : ConfigFile) :
    ConfigFile.read parse file = some c ↔ ConfigText parse file c := by
  unfold ConfigFile.read ConfigText
  constructor
  · intro h
    split at h
    · rename_i j rest hr
      split at h
      · rename_i hw
        obtain ⟨w, t, h1, h2, h3, _⟩ := (C65_read _ _ _).mp hr
        obtain ⟨i, a, ts, s, h4⟩ := (ofJson_iff _ _ _).mp h
        exact ⟨w, t, rest, j, i, a, ts, s, h3, h1, (skipWs_nil_iff _).mp hw, h2, h4⟩
      · cases h
    · cases h
  · rintro ⟨w, t, w', j, i, a, ts, s, h1, h2, h3, h4, h5⟩
    have hn : ∀ n, j ≠ .num n := by
      rintro n rfl
      exact struct2_num h5.1
    have := (C65_read file j w').mpr ⟨w, t, h2, h4, h1, ends_nonnum hn _⟩
    rw [this]
    dsimp only
    rw [if_pos ((skipWs_nil_iff _).mpr h3)]
    exact (ofJson_iff _ _ _).mpr ⟨i, a, ts, s, h5⟩

/-! ### The key -/

/-- Fields of the text of a key. -/
inductive KeyField where
  | type (t : Nat)
  | data (b : Bytes)
  | other (n : Nat) (b : Bytes)

/-- It can be written. -/
def KeyField.Fits : KeyField → Prop
  | .type t => t < 2 ^ 64
  | .data b => b.length < 2 ^ 64
  | .other n b => 2 < n ∧ n < 2 ^ 29 ∧ b.length < 2 ^ 64

/-- Its text. -/
def KeyField.text : KeyField → Bytes
  | .type t => writeVarint 8 ++ writeVarint t
  | .data b => writeVarint 18 ++ (writeVarint b.length ++ b)
  | .other n b => writeVarint (n * 8 + 2) ++ (writeVarint b.length ++ b)

def KeyField.type? : KeyField → Option Nat
  | .type t => some (t % 2 ^ 32)
  | _ => none

def KeyField.data? : KeyField → Option Bytes
  | .data b => some b
  | _ => none

theorem key_fields (fs : List KeyField) (hf : ∀ f ∈ fs, f.Fits) : ∀ k : PrivKey,
    Prost.msg privKeyStep k (fs.flatMap KeyField.text) =
      some ⟨((fs.filterMap KeyField.type?).getLast?).getD k.type, ((fs.filterMap KeyField.data?).getLast?).getD k.data⟩ := by
  induction fs with
  | nil => intro k; simp [Prost.msg_nil]
  | cons f fs ih =>
    intro k
    have hf0 := hf f (by simp)
    have ih := ih (fun x hx => hf x (by simp [hx]))
    have last : ∀ {α : Type} (l : List α) (x d : α), ((x :: l).getLast?).getD d = (l.getLast?).getD x := by
      intro α l x d
      cases l with
      | nil => rfl
      | cons y l => rw [List.getLast?_cons_cons]; simp [List.getLast?_cons]
    rw [List.flatMap_cons]
    cases f with
    | type t =>
      have := Prost.msg_field (step := privKeyStep) (s := k)
        (Prost.readField_varint (n := 1) (v := t) (r := fs.flatMap KeyField.text) (by omega) (by omega) hf0)
      rw [show KeyField.text (.type t) = varintField (1 * 8) t from rfl, this]
      simp only [privKeyStep, Option.bind_some, ih]
      simp only [KeyField.type?, KeyField.data?, List.filterMap_cons, last]
    | data b =>
      have := Prost.msg_field (step := privKeyStep) (s := k)
        (Prost.readField_len (n := 2) (b := b) (r := fs.flatMap KeyField.text) (by omega) (by omega) hf0)
      rw [show KeyField.text (.data b) = lenField (2 * 8 + 2) b from by simp [KeyField.text, lenField], this]
      simp only [privKeyStep, Option.bind_some, ih]
      simp only [KeyField.type?, KeyField.data?, List.filterMap_cons, last]
    | other n b =>
      obtain ⟨h1, h2, h3⟩ := hf0
      have := Prost.msg_field (step := privKeyStep) (s := k)
        (Prost.readField_len (n := n) (b := b) (r := fs.flatMap KeyField.text) (by omega) h2 h3)
      rw [show KeyField.text (.other n b) = lenField (n * 8 + 2) b from by simp [KeyField.text, lenField], this]
      have hs : privKeyStep k n (.len b) = some k := by
        unfold privKeyStep
        split
        · omega
        · omega
        · omega
        · omega
        · rfl
      simp only [hs, Option.bind_some, ih]
      simp only [KeyField.type?, KeyField.data?, List.filterMap_cons]

/-- **C77**: the text of a key is read field by field: the last type and the last data count, what is missing is zero or
empty, other fields are ignored. -/
theorem C77_key (fs : List KeyField) (hf : ∀ f ∈ fs, f.Fits) :
    PrivKey.decode (fs.flatMap KeyField.text) =
      some ⟨((fs.filterMap KeyField.type?).getLast?).getD 0, ((fs.filterMap KeyField.data?).getLast?).getD []⟩ :=
  key_fields fs hf ⟨0, []⟩

theorem decode_encode (d : Bytes) (h : d.length < 2 ^ 64) : PrivKey.decode (PrivKey.encode ⟨0, d⟩) = some ⟨0, d⟩ := by
  have := C77_key [.type 0, .data d] (by intro f hf; simp at hf; rcases hf with rfl | rfl <;> simp [KeyField.Fits, h])
  have e : PrivKey.encode ⟨0, d⟩ = [KeyField.type 0, KeyField.data d].flatMap KeyField.text := by
    simp [PrivKey.encode, KeyField.text, varintField, lenField]
  rw [e, this]
  rfl

example : PrivKey.encode ⟨0, [7, 8]⟩ = [8, 0, 18, 2, 7, 8] ∧ PrivKey.decode [18, 2, 7, 8] = some ⟨0, [7, 8]⟩ := by decide +kernel

theorem pemToDer_error {bs : Bytes} {e : PemPanic} (h : pemToDer bs = .error e) : ¬ ∃ d, PemText bs d := by
  rintro ⟨d, hd⟩
  rw [(C77_pem _ _).mpr hd] at h
  cases h

theorem loadKeypair_ok {R Kp : Type} (env : KeyEnv R Kp) (text : Bytes) (kp : Kp) : loadKeypair env text = .ok kp ↔
    ∃ pem pkcs8, KeyText env text pem ∧ PemText pem pkcs8 ∧ env.ofPkcs8 pkcs8 = some kp := by
  unfold loadKeypair KeyText
  constructor
  · intro h
    split at h
    · cases h
    · rename_i bytes hb
      split at h
      · cases h
      · rename_i k hk
        obtain ⟨ty, data⟩ := k
        dsimp only at h
        split at h
        · rename_i ht
          subst ht
          unfold loadRsa at h
          split at h
          · cases h
          · rename_i r hr
            split at h
            · cases h
            · rename_i pem hp
              split at h
              · cases h
              · rename_i pk hpk
                split at h
                · cases h
                · rename_i kp' hkp
                  cases h
                  exact ⟨pem, pk, ⟨bytes, data, r, (C77_base64 _ _).mp hb, hk, hr, hp⟩, (C77_pem _ _).mp hpk, hkp⟩
        · cases h
  · rintro ⟨pem, pk, ⟨bytes, data, r, h1, h2, h3, h4⟩, h5, h6⟩
    rw [(C77_base64 _ _).mpr h1]
    simp only [h2, if_true, loadRsa, h3, h4, (C77_pem _ _).mpr h5, h6]

theorem loadKeypair_panic {R Kp : Type} (env : KeyEnv R Kp) (text : Bytes) : loadKeypair env text = .panic ↔
    ∃ pem, KeyText env text pem ∧ ¬ ∃ d, PemText pem d := by
  unfold loadKeypair KeyText
  constructor
  · intro h
    split at h
    · cases h
    · rename_i bytes hb
      split at h
      · cases h
      · rename_i k hk
        obtain ⟨ty, data⟩ := k
        dsimp only at h
        split at h
        · rename_i ht
          subst ht
          unfold loadRsa at h
          split at h
          · cases h
          · rename_i r hr
            split at h
            · cases h
            · rename_i pem hp
              split at h
              · rename_i e he
                exact ⟨pem, ⟨bytes, data, r, (C77_base64 _ _).mp hb, hk, hr, hp⟩, pemToDer_error he⟩
              · split at h <;> cases h
        · cases h
  · rintro ⟨pem, ⟨bytes, data, r, h1, h2, h3, h4⟩, h5⟩
    rw [(C77_base64 _ _).mpr h1]
    simp only [h2, if_true, loadRsa, h3, h4]
    cases hp : pemToDer pem with
    | error e => rfl
    | ok d => exact absurd ⟨d, (C77_pem _ _).mp hp⟩ h5

/-! ### Loading -/

/-- **C77**: a file is loaded exactly if it is a configuration with an RSA key, and the peer id in it is that of the key;
the addresses are those of the file. -/
theorem C77_load {R Kp : Type} (env : ConfigEnv R Kp) (file : Bytes) (c : Conf Kp) : loadConfig env file = .ok c ↔
    ∃ f pem pkcs8, ConfigText env.parseAddr file f ∧ KeyText env.toKeyEnv f.privKey pem ∧ PemText pem pkcs8 ∧
      env.ofPkcs8 pkcs8 = some c.keypair ∧ f.peerId = (env.peer c.keypair).toText ∧ c.swarm = f.swarm ∧ c.api = f.api := by
  unfold loadConfig
  simp only [← C77_file]
  constructor
  · intro h
    split at h
    · cases h
    · rename_i f hf
      split at h
      · cases h
      · cases h
      · rename_i kp hk
        split at h
        · rename_i hp
          cases h
          obtain ⟨pem, pk, h1, h2, h3⟩ := (loadKeypair_ok _ _ _).mp hk
          exact ⟨f, pem, pk, hf, h1, h2, h3, hp.symm, rfl, rfl⟩
        · cases h
  · rintro ⟨f, pem, pk, h1, h2, h3, h4, h5, h6, h7⟩
    have := (loadKeypair_ok env.toKeyEnv f.privKey c.keypair).mpr ⟨pem, pk, h2, h3, h4⟩
    obtain ⟨kp, swarm, api⟩ := c
    dsimp only at *
    simp only [h1, this, h5, if_true, h6, h7]

/-- **C77**: a key that is not the one of the peer is refused, and both are named. -/
theorem C77_mismatch {R Kp : Type} (env : ConfigEnv R Kp) (file loaded stored : Bytes) :
    loadConfig env file = .failed (.mismatch loaded stored) ↔
    ∃ f pem pkcs8 kp, ConfigText env.parseAddr file f ∧ KeyText env.toKeyEnv f.privKey pem ∧ PemText pem pkcs8 ∧
      env.ofPkcs8 pkcs8 = some kp ∧ loaded = (env.peer kp).toText ∧ stored = f.peerId ∧ loaded ≠ stored := by
  unfold loadConfig
  simp only [← C77_file]
  constructor
  · intro h
    split at h
    · cases h
    · rename_i f hf
      split at h
      · rename_i e he
        exfalso
        cases h
        unfold loadKeypair loadRsa at he
        repeat' split at he
        all_goals cases he
      · cases h
      · rename_i kp hk
        split at h
        · cases h
        · rename_i hp
          cases h
          obtain ⟨pem, pk, h1, h2, h3⟩ := (loadKeypair_ok _ _ _).mp hk
          exact ⟨f, pem, pk, kp, hf, h1, h2, h3, rfl, rfl, hp⟩
  · rintro ⟨f, pem, pk, kp, h1, h2, h3, h4, rfl, rfl, h7⟩
    have := (loadKeypair_ok env.toKeyEnv f.privKey kp).mpr ⟨pem, pk, h2, h3, h4⟩
    simp only [h1, this, if_neg h7]

/-- **C77**: a key of another kind is refused, and the kind is named. -/
theorem C77_kind {R Kp : Type} (env : ConfigEnv R Kp) (file : Bytes) (t : Nat) :
    loadConfig env file = .failed (.keyType t) ↔
    ∃ f bytes data, ConfigText env.parseAddr file f ∧ PadText f.privKey bytes ∧ PrivKey.decode bytes = some ⟨t, data⟩ ∧ t ≠ 0 := by
  unfold loadConfig
  simp only [← C77_file]
  constructor
  · intro h
    split at h
    · cases h
    · rename_i f hf
      split at h
      · rename_i e he
        cases h
        unfold loadKeypair at he
        split at he
        · cases he
        · rename_i bytes hb
          split at he
          · cases he
          · rename_i k hk
            obtain ⟨ty, data⟩ := k
            dsimp only at he
            split at he
            · unfold loadRsa at he
              repeat' split at he
              all_goals cases he
            · rename_i ht
              cases he
              exact ⟨f, bytes, data, hf, (C77_base64 _ _).mp hb, hk, ht⟩
      · cases h
      · split at h <;> cases h
  · rintro ⟨f, bytes, data, h1, h2, h3, h4⟩
    simp only [h1, loadKeypair, (C77_base64 _ _).mpr h2, h3, if_neg h4]

/-- **C77**: loading panics only if the PEM text of the key is none. -/
theorem C77_load_panic {R Kp : Type} (env : ConfigEnv R Kp) (file : Bytes) : loadConfig env file = .panic ↔
    ∃ f pem, ConfigText env.parseAddr file f ∧ KeyText env.toKeyEnv f.privKey pem ∧ ¬ ∃ d, PemText pem d := by
  unfold loadConfig
  simp only [← C77_file]
  constructor
  · intro h
    split at h
    · cases h
    · rename_i f hf
      split at h
      · cases h
      · rename_i hk
        obtain ⟨pem, h1, h2⟩ := (loadKeypair_panic _ _).mp hk
        exact ⟨f, pem, hf, h1, h2⟩
      · split at h <;> cases h
  · rintro ⟨f, pem, h1, h2, h3⟩
    simp only [h1, (loadKeypair_panic env.toKeyEnv f.privKey).mpr ⟨pem, h2, h3⟩]

/-! ### Making it -/

/-- The profile that counts. -/
def PickedProfile (profiles : List Profile) (p : Profile) : Prop := profiles = [p] ∨ (profiles = [] ∧ p = .default)

/-- The address for the API in it. -/
def apiOf : Profile → Maddr
  | .test => [.ip4 127 0 0 1, .tcp 0]
  | .default => [.ip4 127 0 0 1, .tcp 4004]

/-- Everything that is done with the key works: the key pair, and the text of the key. -/
def KeyMade {R Kp : Type} (env : KeyEnv R Kp) (k : R) (kp : Kp) (der : Bytes) : Prop :=
  ∃ pem pkcs8, env.pem k = some pem ∧ PemText pem pkcs8 ∧ env.ofPkcs8 pkcs8 = some kp ∧ env.der k = some der

/-- What is written for it. -/
def madeText {R Kp : Type} (env : ConfigEnv R Kp) (kp : Kp) (der : Bytes) (p : Profile) : Bytes :=
  prettyAt 0 (ConfigFile.json env.show' ⟨(env.peer kp).toText, base64 (PrivKey.encode ⟨0, der⟩), [localTcp 0], p.api⟩)

theorem api_eq (p : Profile) : p.api = apiOf p := by cases p <;> rfl

theorem picked_iff (profiles : List Profile) (p : Profile) : pickProfile profiles = some p ↔ PickedProfile profiles p := by
  unfold PickedProfile pickProfile
  match profiles with
  | [] => simp [eq_comm]
  | [q] => simp
  | a :: b :: l => simp

theorem init_made {R Kp : Type} (env : ConfigEnv R Kp) {k : R} {kp : Kp} {der : Bytes} {p : Profile} {profiles : List Profile}
    {bits : Nat} (hp : PickedProfile profiles p) (hb : 2048 ≤ bits ∧ bits ≤ 16384) (hk : KeyMade env.toKeyEnv k kp der) (disk : Disk)
    (file : Option Bytes) :
    initConfig env (some k) disk file bits profiles = writeConfig disk file (madeText env kp der p) (env.peer kp).toText := by
  obtain ⟨pem, pk, h1, h2, h3, h4⟩ := hk
  unfold initConfig
  rw [(picked_iff profiles p).mpr hp]
  dsimp only
  rw [if_pos hb]
  simp only [h1, (C77_pem _ _).mpr h2, h3, h4]
  rfl

theorem init_cases {R Kp : Type} (env : ConfigEnv R Kp) (gen : Option R) (disk : Disk) (file : Option Bytes) (bits : Nat)
    (profiles : List Profile) :
    (∃ p k kp der, PickedProfile profiles p ∧ (2048 ≤ bits ∧ bits ≤ 16384) ∧ gen = some k ∧ KeyMade env.toKeyEnv k kp der) ∨
    ((initConfig env gen disk file bits profiles).1 = file ∧ ∀ id, (initConfig env gen disk file bits profiles).2 ≠ .ok id) := by
  unfold initConfig
  split
  · right; exact ⟨rfl, by intro id h; cases h⟩
  · rename_i p hp
    have hp := (picked_iff _ _).mp hp
    split
    · rename_i hb
      split
      · right; exact ⟨rfl, by intro id h; cases h⟩
      · rename_i k
        split
        · right; exact ⟨rfl, by intro id h; cases h⟩
        · rename_i pem h1
          split
          · right; exact ⟨rfl, by intro id h; cases h⟩
          · rename_i pk h2
            split
            · right; exact ⟨rfl, by intro id h; cases h⟩
            · rename_i kp h3
              split
              · right; exact ⟨rfl, by intro id h; cases h⟩
              · rename_i der h4
                left
                exact ⟨p, k, kp, der, hp, hb, rfl, pem, pk, h1, (C77_pem _ _).mp h2, h3, h4⟩
    · right; exact ⟨rfl, by intro id h; cases h⟩

theorem made_writable {R Kp : Type} (env : ConfigEnv R Kp) (h : LawfulKeys env) (kp : Kp) (der : Bytes) (p : Profile) :
    let j := ConfigFile.json env.show' ⟨(env.peer kp).toText, base64 (PrivKey.encode ⟨0, der⟩), [localTcp 0], p.api⟩
    Writable j ∧ nesting j ≤ 127 ∧ ∀ n, j ≠ .num n := by
  intro j
  have hb : utf8Ok (base64 (PrivKey.encode ⟨0, der⟩)) = true :=
    utf8Ok_ascii (fun c hc => UInt8.lt_iff_toNat_lt.mpr (base64_plain _ c hc).1.2)
  have ha : utf8Ok (Maddr.text env.show' p.api) = true := by cases p <;> exact (h.addr _).1
  refine ⟨?_, ?_, ?_⟩
  · simp only [j, ConfigFile.json, Writable, WritableMap, List.map_cons, List.map_nil, WritableList]
    exact ⟨by decide +kernel, ⟨by decide +kernel, utf8Ok_peer _, by decide +kernel, hb, trivial⟩, by decide +kernel,
      ⟨by decide +kernel, ⟨(h.addr 0).1, trivial⟩, by decide +kernel, ha, trivial⟩, trivial⟩
  · simp [j, ConfigFile.json, nesting, nestingMap, nestingList]
  · intro n hn; simp only [j, ConfigFile.json, reduceCtorEq] at hn

theorem made_json {R Kp : Type} (env : ConfigEnv R Kp) (h : LawfulKeys env) (kp : Kp) (der : Bytes) (p : Profile) :
    ConfigFile.ofJson env.parseAddr
      (ConfigFile.json env.show' ⟨(env.peer kp).toText, base64 (PrivKey.encode ⟨0, der⟩), [localTcp 0], p.api⟩) =
      some ⟨(env.peer kp).toText, base64 (PrivKey.encode ⟨0, der⟩), [localTcp 0], p.api⟩ := by
  have ha : env.parseAddr (Maddr.text env.show' p.api) = some p.api := by cases p <;> exact (h.addr _).2
  rw [ofJson_iff]
  refine ⟨.obj [(fPeerId, .str (env.peer kp).toText), (fPrivKey, .str (base64 (PrivKey.encode ⟨0, der⟩)))],
    .obj [(fSwarm, .arr ([Maddr.text env.show' (localTcp 0)].map .str)), (fApi, .str (Maddr.text env.show' p.api))],
    [Maddr.text env.show' (localTcp 0)], Maddr.text env.show' p.api, Or.inr ⟨_, rfl, ?_⟩, Or.inr ⟨_, rfl, ?_⟩,
    Or.inr ⟨_, rfl, ?_⟩, by simp [(h.addr 0).2], ha⟩
  · unfold OnlyEntry
    have e1 : (fIdentity = "Identity".toUTF8.toList) = True ∧ (fAddresses = "Identity".toUTF8.toList) = False ∧
      (fIdentity = "Addresses".toUTF8.toList) = False ∧ (fAddresses = "Addresses".toUTF8.toList) = True := by
      simp only [eq_iff_iff]; decide +kernel
    simp only [List.filter_cons, e1.1, e1.2.1, e1.2.2.1, e1.2.2.2, decide_true, decide_false, List.filter_nil, if_true,
      Bool.false_eq_true, if_false]
    exact ⟨rfl, rfl⟩
  · unfold OnlyEntry
    have e1 : (fPeerId = "PeerID".toUTF8.toList) = True ∧ (fPrivKey = "PeerID".toUTF8.toList) = False ∧
      (fPeerId = "PrivKey".toUTF8.toList) = False ∧ (fPrivKey = "PrivKey".toUTF8.toList) = True := by
      simp only [eq_iff_iff]; decide +kernel
    simp only [List.filter_cons, e1.1, e1.2.1, e1.2.2.1, e1.2.2.2, decide_true, decide_false, List.filter_nil, if_true,
      Bool.false_eq_true, if_false]
    exact ⟨rfl, rfl⟩
  · unfold OnlyEntry
    have e1 : (fSwarm = "Swarm".toUTF8.toList) = True ∧ (fApi = "Swarm".toUTF8.toList) = False ∧
      (fSwarm = "API".toUTF8.toList) = False ∧ (fApi = "API".toUTF8.toList) = True := by
      simp only [eq_iff_iff]; decide +kernel
    simp only [List.filter_cons, e1.1, e1.2.1, e1.2.2.1, e1.2.2.2, decide_true, decide_false, List.filter_nil, if_true,
      Bool.false_eq_true, if_false]
    exact ⟨rfl, rfl⟩

theorem load_made {R Kp : Type} (env : ConfigEnv R Kp) (h : LawfulKeys env) {k : R} {kp : Kp} {der : Bytes}
    (hk : KeyMade env.toKeyEnv k kp der) (p : Profile) :
    loadConfig env (madeText env kp der p) = .ok ⟨kp, [localTcp 0], apiOf p⟩ := by
  obtain ⟨pem, pk, h1, h2, h3, h4⟩ := hk
  obtain ⟨w1, w2, w3⟩ := made_writable env h kp der p
  have hr := C77_pretty _ w1 w2 [] (ends_nonnum w3 [])
  rw [List.append_nil] at hr
  rw [C77_load]
  refine ⟨⟨(env.peer kp).toText, base64 (PrivKey.encode ⟨0, der⟩), [localTcp 0], p.api⟩, pem, pk, ?_, ?_, h2, h3, rfl, rfl,
    (api_eq p).symm⟩
  · rw [← C77_file, ConfigFile.read, madeText, hr]
    exact made_json env h kp der p
  · obtain ⟨l1, l2⟩ := h.der k der h4
    exact ⟨PrivKey.encode ⟨0, der⟩, der, k, ⟨[PrivKey.encode ⟨0, der⟩], by simp, by simp⟩, decode_encode der l2, l1, h1⟩

/-- **C77**: the text that is written, byte for byte. -/
theorem C77_text {R Kp : Type} (env : ConfigEnv R Kp) (kp : Kp) (der : Bytes) (p : Profile) :
    madeText env kp der p =
      "{\n  \"Identity\": {\n    \"PeerID\": ".toUTF8.toList ++ writeStr (env.peer kp).toText ++
      ",\n    \"PrivKey\": ".toUTF8.toList ++ writeStr (base64 (PrivKey.encode ⟨0, der⟩)) ++
      "\n  },\n  \"Addresses\": {\n    \"Swarm\": [\n      ".toUTF8.toList ++ writeStr (Maddr.text env.show' [.ip4 127 0 0 1, .tcp 0]) ++
      "\n    ],\n    \"API\": ".toUTF8.toList ++ writeStr (Maddr.text env.show' (apiOf p)) ++ "\n  }\n}".toUTF8.toList := by
  have e1 : "{\n  \"Identity\": {\n    \"PeerID\": ".toUTF8.toList =
      123 :: 10 :: (indentOf 1 ++ (writeStr fIdentity ++ (58 :: 32 :: 123 :: 10 :: (indentOf 2 ++ (writeStr fPeerId ++ [58, 32]))))) := by
    decide +kernel
  have e2 : ",\n    \"PrivKey\": ".toUTF8.toList = 44 :: 10 :: (indentOf 2 ++ (writeStr fPrivKey ++ [58, 32])) := by decide +kernel
  have e3 : "\n  },\n  \"Addresses\": {\n    \"Swarm\": [\n      ".toUTF8.toList =
      10 :: (indentOf 1 ++ (125 :: 44 :: 10 :: (indentOf 1 ++ (writeStr fAddresses ++ (58 :: 32 :: 123 :: 10 :: (indentOf 2 ++
        (writeStr fSwarm ++ (58 :: 32 :: 91 :: 10 :: indentOf 3)))))))) := by decide +kernel
  have e4 : "\n    ],\n    \"API\": ".toUTF8.toList =
      10 :: (indentOf 2 ++ (93 :: 44 :: 10 :: (indentOf 2 ++ (writeStr fApi ++ [58, 32])))) := by decide +kernel
  have e5 : "\n  }\n}".toUTF8.toList = 10 :: (indentOf 1 ++ [125, 10] ++ indentOf 0 ++ [125]) := by decide +kernel
  rw [e1, e2, e3, e4, e5, ← api_eq]
  simp only [madeText, ConfigFile.json, prettyAt, prettyObj, prettyArr, List.map_cons, List.map_nil, Json.write, localTcp,
    List.append_assoc, List.cons_append, List.nil_append, Nat.zero_add, Nat.reduceAdd, List.append_nil]

/-- **C77**: a configuration is made exactly if there is none yet, the number of bits is allowed, at most one profile is
named, and the key and the disk are fine. -/
theorem C77_init {R Kp : Type} (env : ConfigEnv R Kp) (gen : Option R) (disk : Disk) (file : Option Bytes) (bits : Nat)
    (profiles : List Profile) (id : Bytes) : (initConfig env gen disk file bits profiles).2 = .ok id ↔
    file = none ∧ disk = .fine ∧ 2048 ≤ bits ∧ bits ≤ 16384 ∧ profiles.length ≤ 1 ∧
      ∃ k kp der, gen = some k ∧ KeyMade env.toKeyEnv k kp der ∧ id = (env.peer kp).toText := by
  constructor
  · intro h
    rcases init_cases env gen disk file bits profiles with ⟨p, k, kp, der, hp, hb, rfl, hk⟩ | ⟨_, hn⟩
    · rw [init_made env hp hb hk] at h
      have hl : profiles.length ≤ 1 := by rcases hp with rfl | ⟨rfl, _⟩ <;> simp
      cases file with
      | some f =>
        unfold writeConfig at h
        split at h <;> cases h
      | none =>
        cases disk with
        | fine =>
          simp only [writeConfig, reduceCtorEq, if_false, Inited.ok.injEq] at h
          exact ⟨rfl, rfl, hb.1, hb.2, hl, k, kp, der, rfl, hk, h.symm⟩
        | noDirectory => simp only [writeConfig, if_true, reduceCtorEq] at h
        | noFile => simp only [writeConfig, if_false, reduceCtorEq] at h
        | full n => simp only [writeConfig, if_false, reduceCtorEq] at h
    · exact absurd h (hn id)
  · rintro ⟨rfl, rfl, h1, h2, h3, k, kp, der, rfl, hk, rfl⟩
    have : ∃ p, PickedProfile profiles p := by
      match profiles, h3 with
      | [], _ => exact ⟨.default, Or.inr ⟨rfl, rfl⟩⟩
      | [p], _ => exact ⟨p, Or.inl rfl⟩
    obtain ⟨p, hp⟩ := this
    rw [init_made env hp ⟨h1, h2⟩ hk]
    rfl

/-- **C77**: what is made can be loaded: the identity is the one that was reported, and the addresses are those of the profile. -/
theorem C77_roundtrip {R Kp : Type} (env : ConfigEnv R Kp) (h : LawfulKeys env) (gen : Option R) (disk : Disk)
    (file file' : Option Bytes) (bits : Nat) (profiles : List Profile) (id : Bytes)
    (hi : initConfig env gen disk file bits profiles = (file', .ok id)) :
    ∃ f kp p, file' = some f ∧ PickedProfile profiles p ∧ loadConfig env f = .ok ⟨kp, [[.ip4 127 0 0 1, .tcp 0]], apiOf p⟩ ∧
      (env.peer kp).toText = id := by
  have h2 : (initConfig env gen disk file bits profiles).2 = .ok id := by rw [hi]
  obtain ⟨rfl, rfl, _⟩ := (C77_init env gen disk file bits profiles id).mp h2
  rcases init_cases env gen .fine none bits profiles with ⟨p, k, kp, der, hp, hb, rfl, hk⟩ | ⟨_, hn⟩
  · rw [init_made env hp hb hk] at hi
    simp only [writeConfig, reduceCtorEq, if_false, Prod.mk.injEq] at hi
    exact ⟨madeText env kp der p, kp, p, hi.1.symm, hp, load_made env h hk p, by simpa using hi.2⟩
  · exact absurd h2 (hn id)

/-- **C77**: a file that is there is never changed. -/
theorem C77_keeps {R Kp : Type} (env : ConfigEnv R Kp) (gen : Option R) (disk : Disk) (f : Bytes) (bits : Nat)
    (profiles : List Profile) : (initConfig env gen disk (some f) bits profiles).1 = some f := by
  rcases init_cases env gen disk (some f) bits profiles with ⟨p, k, kp, der, hp, hb, rfl, hk⟩ | ⟨h, _⟩
  · rw [init_made env hp hb hk, writeConfig]
    split <;> rfl
  · exact h

/-- **C77**: what is refused for which reason, before anything is done. -/
theorem C77_refused {R Kp : Type} (env : ConfigEnv R Kp) (gen : Option R) (disk : Disk) (file : Option Bytes) (bits : Nat)
    (profiles : List Profile) :
    (1 < profiles.length → initConfig env gen disk file bits profiles = (file, .panic)) ∧
    (profiles.length ≤ 1 → ¬ (2048 ≤ bits ∧ bits ≤ 16384) → initConfig env gen disk file bits profiles = (file, .failed (.bits bits))) := by
  constructor
  · intro h
    match profiles, h with
    | a :: b :: l, _ => rfl
  · intro h hb
    unfold initConfig
    match profiles, h with
    | [], _ => exact if_neg hb
    | [p], _ => exact if_neg hb

/-- **C77**: making it panics exactly with several profiles, or if the key pair cannot be made from the PEM text. -/
theorem C77_init_panic {R Kp : Type} (env : ConfigEnv R Kp) (gen : Option R) (disk : Disk) (file : Option Bytes) (bits : Nat)
    (profiles : List Profile) : (initConfig env gen disk file bits profiles).2 = .panic ↔
    1 < profiles.length ∨ (2048 ≤ bits ∧ bits ≤ 16384 ∧ ∃ k pem, gen = some k ∧ env.pem k = some pem ∧
      ∀ d, PemText pem d → env.ofPkcs8 d = none) := by
  constructor
  · intro h
    by_cases hl : 1 < profiles.length
    · exact Or.inl hl
    right
    by_cases hb : 2048 ≤ bits ∧ bits ≤ 16384
    · refine ⟨hb.1, hb.2, ?_⟩
      unfold initConfig at h
      split at h
      · rename_i hp
        match profiles, hl, hp with
        | [], _, hp => cases hp
        | [p], _, hp => cases hp
        | a :: b :: l, hl, _ => simp at hl
      · rw [if_pos hb] at h
        split at h
        · cases h
        · rename_i k
          split at h
          · cases h
          · rename_i pem h1
            refine ⟨k, pem, rfl, h1, ?_⟩
            intro d hd
            rw [(C77_pem _ _).mpr hd] at h
            dsimp only at h
            split at h
            · assumption
            · exfalso
              split at h
              · cases h
              · unfold writeConfig at h
                repeat' split at h
                all_goals cases h
    · rw [(C77_refused env gen disk file bits profiles).2 (by omega) hb] at h
      cases h
  · rintro (hl | ⟨h1, h2, k, pem, rfl, h3, h4⟩)
    · rw [(C77_refused env gen disk file bits profiles).1 hl]
    · unfold initConfig
      split
      · rfl
      · rw [if_pos ⟨h1, h2⟩]
        dsimp only
        rw [h3]
        dsimp only
        split
        · rfl
        · rename_i d hd
          rw [h4 d ((C77_pem _ _).mp hd)]

/-! ### The program -/

/-- **C77**: the program for making it ends with success exactly if it was made, with an error if there is one or a file already,
and panics where making it does; the file afterwards is the one that was there or was made. -/
theorem C77_init_code {R Kp : Type} (env : ConfigEnv R Kp) (gen : Option R) (disk : Disk) (bits : Nat) (profiles : List Profile) :
    (∀ f, mainInit env gen disk (some f) bits profiles = (some f, .exit 1)) ∧
    ((mainInit env gen disk none bits profiles).2 = .exit 0 ↔ ∃ p, (initConfig env gen disk none bits profiles).2 = .ok p) ∧
    ((mainInit env gen disk none bits profiles).2 = .exit 1 ↔ ∃ e, (initConfig env gen disk none bits profiles).2 = .failed e) ∧
    ((mainInit env gen disk none bits profiles).2 = .panic ↔ (initConfig env gen disk none bits profiles).2 = .panic) ∧
    (mainInit env gen disk none bits profiles).1 = (initConfig env gen disk none bits profiles).1 := by
  refine ⟨fun f => rfl, ?_⟩
  simp only [mainInit]
  rcases initConfig env gen disk none bits profiles with ⟨f, r⟩
  cases r <;> simp

/-- **C77**: the daemon serves exactly with a file that can be loaded and an address of IPv4 and TCP for the API; without a
file it ends, and with any other it panics. -/
theorem C77_daemon {R Kp : Type} (env : ConfigEnv R Kp) (file : Option Bytes) :
    (file = none ∧ mainDaemon env file = .exit 1) ∨
    (∃ f c a b c' d port, file = some f ∧ loadConfig env f = .ok c ∧ c.api = [.ip4 a b c' d, .tcp port] ∧
      mainDaemon env file = .serves c.keypair c.swarm (a, b, c', d) port) ∨
    (∃ f, file = some f ∧ (∀ c, loadConfig env f = .ok c → ¬ ∃ a b c' d port, c.api = [.ip4 a b c' d, .tcp port]) ∧
      mainDaemon env file = .panic) := by
  cases file with
  | none => exact Or.inl ⟨rfl, rfl⟩
  | some f =>
    right
    rw [mainDaemon]
    cases hl : loadConfig env f with
    | failed e => right; exact ⟨f, rfl, by simp [hl], rfl⟩
    | panic => right; exact ⟨f, rfl, by simp [hl], rfl⟩
    | ok c =>
      dsimp only
      unfold socketAddr
      split
      · rename_i r ip port h
        split at h
        · rename_i a b c' d port' hapi
          cases h
          left
          exact ⟨f, c, a, b, c', d, port, rfl, hl, hapi, rfl⟩
        · cases h
      · rename_i h
        split at h
        · cases h
        · rename_i hn
          right
          refine ⟨f, rfl, ?_, rfl⟩
          intro c2 hc2
          rw [hl] at hc2
          cases hc2
          rintro ⟨a, b, c', d, port, hapi⟩
          exact hn _ _ _ _ _ hapi

/-- **C77**: after the repository was made, the daemon serves with that identity at the address of the profile. -/
theorem C77_start {R Kp : Type} (env : ConfigEnv R Kp) (h : LawfulKeys env) (gen : Option R) (disk : Disk) (file file' : Option Bytes)
    (bits : Nat) (profiles : List Profile) (hi : mainInit env gen disk file bits profiles = (file', .exit 0)) :
    file = none ∧ ∃ k kp der port, gen = some k ∧ KeyMade env.toKeyEnv k kp der ∧
      (port = if profiles = [.test] then 0 else 4004) ∧
      mainDaemon env file' = .serves kp [[.ip4 127 0 0 1, .tcp 0]] (127, 0, 0, 1) port := by
  unfold mainInit at hi
  cases file with
  | some f => cases hi
  | none =>
    refine ⟨rfl, ?_⟩
    dsimp only at hi
    split at hi
    · rename_i f id hf
      cases hi
      have h2 : (initConfig env gen disk none bits profiles).2 = .ok id := by rw [hf]
      obtain ⟨_, rfl, _⟩ := (C77_init env gen disk none bits profiles id).mp h2
      rcases init_cases env gen .fine none bits profiles with ⟨p, k, kp, der, hp, hb, rfl, hk⟩ | ⟨_, hn⟩
      · rw [init_made env hp hb hk] at hf
        simp only [writeConfig, reduceCtorEq, if_false, Prod.mk.injEq] at hf
        refine ⟨k, kp, der, _, rfl, hk, rfl, ?_⟩
        rw [← hf.1]
        simp only [mainDaemon, load_made env h hk p]
        rcases hp with rfl | ⟨rfl, rfl⟩
        · cases p <;> simp [apiOf, socketAddr, localTcp]
        · simp [apiOf, socketAddr, localTcp]
      · exact absurd h2 (hn id)
    · cases hi
    · cases hi

/-! ### C78: when making it is interrupted -/

/-- **C78**: a file that was cut off is no configuration. -/
theorem C78_torn_file {R Kp : Type} (env : ConfigEnv R Kp) (h : LawfulKeys env) (kp : Kp) (der : Bytes) (p : Profile) (n : Nat)
    (hn : n < (madeText env kp der p).length) : loadConfig env ((madeText env kp der p).take n) = .failed .format := by
  have : ConfigFile.read env.parseAddr ((madeText env kp der p).take n) = none := by
    cases hr : ConfigFile.read env.parseAddr ((madeText env kp der p).take n) with
    | none => rfl
    | some c =>
      exfalso
      obtain ⟨w, t, w', j, i, a, ts, s, h1, h2, h3, h4, h5, _⟩ := (C77_file _ _ _).mp hr
      have hj : ∀ n, j ≠ .num n := by rintro n rfl; exact struct2_num h5
      have e : madeText env kp der p = w ++ (t ++ (w' ++ (madeText env kp der p).drop n)) := by
        have := List.take_append_drop n (madeText env kp der p)
        rw [h1] at this
        simpa using this.symm
      have r1 := (C65_read _ j (w' ++ (madeText env kp der p).drop n)).mpr ⟨w, t, h2, h4, e, ends_nonnum hj _⟩
      obtain ⟨w1, w2, w3⟩ := made_writable env h kp der p
      have r2 := C77_pretty _ w1 w2 [] (ends_nonnum w3 [])
      rw [List.append_nil] at r2
      rw [madeText] at r1
      rw [r2] at r1
      simp only [Option.some.injEq, Prod.mk.injEq] at r1
      have := List.append_eq_nil_iff.mp r1.2.symm
      have := congrArg List.length this.2
      simp only [List.length_drop, List.length_nil] at this
      unfold madeText at hn
      omega
  rw [loadConfig, this]

/-- **C78**: if writing was cut off, the daemon panics, and making the repository again is refused: nothing but removing the
file by hand helps. -/
theorem C78_stuck {R Kp : Type} (env : ConfigEnv R Kp) (h : LawfulKeys env) {k : R} {kp : Kp} {der : Bytes} {p : Profile}
    {profiles : List Profile} {bits : Nat} (hp : PickedProfile profiles p) (hb : 2048 ≤ bits ∧ bits ≤ 16384)
    (hk : KeyMade env.toKeyEnv k kp der) (n : Nat) (hn : n < (madeText env kp der p).length) :
    ∃ f, mainInit env (some k) (.full n) none bits profiles = (some f, .exit 1) ∧ mainDaemon env (some f) = .panic ∧
      ∀ gen disk bits profiles, mainInit env gen disk (some f) bits profiles = (some f, .exit 1) := by
  refine ⟨(madeText env kp der p).take n, ?_, ?_, fun _ _ _ _ => rfl⟩
  · simp only [mainInit, init_made env hp hb hk, writeConfig, reduceCtorEq, if_false]
  · simp only [mainDaemon, C78_torn_file env h kp der p n hn]

/-- **C78**, the part that holds: if the directory or the file could not be made, or all was written before the end, making it
again or starting the daemon works. -/
theorem C78_partial {R Kp : Type} (env : ConfigEnv R Kp) (h : LawfulKeys env) {k : R} {kp : Kp} {der : Bytes} {p : Profile}
    {profiles : List Profile} {bits : Nat} (hp : PickedProfile profiles p) (hb : 2048 ≤ bits ∧ bits ≤ 16384)
    (hk : KeyMade env.toKeyEnv k kp der) (disk : Disk) :
    (disk = .noDirectory ∨ disk = .noFile → mainInit env (some k) disk none bits profiles = (none, .exit 1)) ∧
    (∀ n, disk = .full n → (madeText env kp der p).length ≤ n →
      ∃ f ip port, mainInit env (some k) disk none bits profiles = (some f, .exit 1) ∧
        mainDaemon env (some f) = .serves kp [[.ip4 127 0 0 1, .tcp 0]] ip port) := by
  constructor
  · rintro (rfl | rfl)
    · simp only [mainInit, init_made env hp hb hk, writeConfig, if_true]
    · simp only [mainInit, init_made env hp hb hk, writeConfig, reduceCtorEq, if_false]
  · rintro n rfl hn
    have e : (madeText env kp der p).take n = madeText env kp der p := List.take_of_length_le hn
    refine ⟨madeText env kp der p, (127, 0, 0, 1), if p = .test then 0 else 4004, ?_, ?_⟩
    · simp only [mainInit, init_made env hp hb hk, writeConfig, reduceCtorEq, if_false, e]
    · simp only [mainDaemon, load_made env h hk p]
      cases p <;> rfl

/-- The full statement of C78: however making the repository ends, making it again can succeed or the daemon can serve. -/
def RecoversFromTorn : Prop :=
  ∀ (R Kp : Type) (env : ConfigEnv R Kp), LawfulKeys env → ∀ (k : R) (kp : Kp) (der : Bytes), KeyMade env.toKeyEnv k kp der →
    ∀ (disk : Disk), let f := (mainInit env (some k) disk none 2048 []).1
      (∃ f', mainInit env (some k) .fine f 2048 [] = (f', .exit 0)) ∨
      (∃ kp' swarm ip port, mainDaemon env f = .serves kp' swarm ip port)

/-! ### A witness -/

/-- The text of a small component. -/
def exShow : Ipfs.Comp → Bytes
  | .ip4 _ _ _ _ => "/ip4/127.0.0.1".toUTF8.toList
  | .tcp port => "/tcp/".toUTF8.toList ++ (base64 (List.replicate port 0))
  | _ => []

/-- Addresses of this form. -/
def exParse (s : Bytes) : Option Maddr :=
  if "/ip4/127.0.0.1/tcp/".toUTF8.toList.isPrefixOf s then
    (unbase64 (s.drop 19)).map (fun b => localTcp b.length)
  else none

/-- Keys that are numbers. -/
def exConfEnv : ConfigEnv UInt8 UInt8 where
  pem k := some ("-----BEGIN K\n".toUTF8.toList ++ base64 [k] ++ "\n-----END K\n".toUTF8.toList)
  der k := some [k]
  ofDer d := d.head?
  ofPkcs8 d := d.head?
  peer k := ⟨0, [k]⟩
  parseAddr := exParse
  show' := exShow

theorem exConf_lawful : LawfulKeys exConfEnv where
  der k d h := by cases h; exact ⟨rfl, by simp⟩
  addr port := by
    have e : Maddr.text exShow (localTcp port) = "/ip4/127.0.0.1/tcp/".toUTF8.toList ++ base64 (List.replicate port 0) := by
      have : "/ip4/127.0.0.1/tcp/".toUTF8.toList = "/ip4/127.0.0.1".toUTF8.toList ++ "/tcp/".toUTF8.toList := by decide +kernel
      rw [this]
      simp [Maddr.text, localTcp, Ipfs.Comp.text, exShow]
    have hl : "/ip4/127.0.0.1/tcp/".toUTF8.toList.length = 19 := by decide +kernel
    change utf8Ok (Maddr.text exShow _) = true ∧ exParse (Maddr.text exShow _) = _
    rw [e]
    constructor
    · rw [utf8Ok_append (by decide +kernel)]
      exact utf8Ok_ascii (fun c hc => UInt8.lt_iff_toNat_lt.mpr (base64_plain _ c hc).1.2)
    · rw [exParse, if_pos (List.isPrefixOf_iff_prefix.mpr ⟨_, rfl⟩), List.drop_append_of_le_length (by omega)]
      rw [List.drop_of_length_le (by omega), List.nil_append, unbase64_base64]
      simp

theorem exConf_made (k : UInt8) : KeyMade exConfEnv.toKeyEnv k k [k] := by
  refine ⟨_, [k], rfl, ?_, rfl, rfl⟩
  rw [← C77_pem]
  have := C77_wrapped [k] " K".toUTF8.toList [] [base64 [k]] (by simp) (by decide +kernel) (by decide +kernel) (by decide +kernel)
    (by decide +kernel)
  have e1 : "-----BEGIN K\n".toUTF8.toList = "-----BEGIN".toUTF8.toList ++ " K".toUTF8.toList ++ [10] := by decide +kernel
  have e2 : "\n-----END K\n".toUTF8.toList = [10] ++ "-----END".toUTF8.toList ++ " K".toUTF8.toList ++ [10] := by decide +kernel
  rw [e1, e2]
  simpa [withFeeds] using this

/-- **C78** fails: a crash after the file was created and before it was written is never recovered from. -/
theorem C78_full_false : ¬ RecoversFromTorn := by
  intro h
  have hlen : 0 < (madeText exConfEnv 7 [7] .default).length := by
    rw [madeText, ConfigFile.json, prettyAt]; simp
  obtain ⟨f, h1, h2, h3⟩ := C78_stuck exConfEnv exConf_lawful (profiles := []) (bits := 2048) (Or.inr ⟨rfl, rfl⟩) (by decide)
    (exConf_made 7) 0 hlen
  rcases h _ _ exConfEnv exConf_lawful 7 7 [7] (exConf_made 7) (.full 0) with ⟨f', hf⟩ | ⟨kp', swarm, ip, port, hs⟩
  · rw [h1] at hf
    dsimp only at hf
    rw [h3] at hf
    cases hf
  · rw [h1] at hs
    dsimp only at hs
    rw [h2] at hs
    cases hs

example : (initConfig exConfEnv (some 7) .fine none 2048 [.test]).2 = .ok (PeerId.toText ⟨0, [7]⟩) := by
  rw [C77_init]
  exact ⟨rfl, rfl, by decide, by decide, by decide, 7, 7, [7], rfl, exConf_made 7, rfl⟩

example : initConfig exConfEnv (some 7) .fine none 1024 [.test] = (none, .failed (.bits 1024)) := by decide +kernel

/-- **C77**: the names of the profiles. -/
theorem C77_profile (s : Bytes) (p : Profile) : Profile.ofText s = some p ↔
    (s = "test".toUTF8.toList ∧ p = .test) ∨ (s = "default".toUTF8.toList ∧ p = .default) := by
  have hne : "default".toUTF8.toList ≠ "test".toUTF8.toList := by decide +kernel
  unfold Profile.ofText
  generalize "test".toUTF8.toList = a at *
  generalize "default".toUTF8.toList = b at *
  by_cases h : s = a
  · subst h
    rw [if_pos rfl]
    constructor
    · intro e; cases e; exact Or.inl ⟨rfl, rfl⟩
    · rintro (⟨_, rfl⟩ | ⟨e, _⟩)
      · rfl
      · exact absurd e.symm hne
  · rw [if_neg h]
    by_cases h' : s = b
    · rw [if_pos h']
      constructor
      · intro e; cases e; exact Or.inr ⟨h', rfl⟩
      · rintro (⟨e, _⟩ | ⟨_, rfl⟩)
        · exact absurd e h
        · rfl
    · rw [if_neg h']
      constructor
      · intro e; cases e
      · rintro (⟨e, _⟩ | ⟨e, _⟩)
        · exact absurd e h
        · exact absurd e h'

/-- **C77**: the path of the repository is the one in the environment, or else below the home directory. -/
theorem C77_home (ipfsPath home : Option Bytes) (push : Bytes → Bytes → Bytes) (p : Bytes) :
    homeOf ipfsPath home push = some p ↔
      ipfsPath = some p ∨ (ipfsPath = none ∧ ∃ h, home = some h ∧ p = push h ".rust-ipfs".toUTF8.toList) := by
  cases ipfsPath <;> cases home <;> simp [homeOf, eq_comm]

end Verif.Props
