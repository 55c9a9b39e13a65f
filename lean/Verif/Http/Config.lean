import Verif.Base.Json
import Verif.Base.Base64
import Verif.Base.Prost
import Verif.Ipfs.Addr

/-!
# The configuration file and starting the daemon

Model of http/src/config.rs and of the decisions of http/src/main.rs.

* Keys are those of `openssl` and `libp2p`: two types and the functions `KeyEnv` between them and bytes. Which key is
  generated is up to the environment.
* The parser and the texts of multiaddresses are the library's: `parseAddr` and `show'`.
* The file is what `ipfs_path/config` holds, if it exists. Errors of the disk and a crash are up to the environment:
  `Disk`.
* serde reads the file into the structs of config.rs:280-302: an object may have other entries, which are ignored, but
  none of the named ones twice; a list with the values in order is taken as well. Values of ignored entries are read
  like any other here; `serde_json` is more tolerant inside of them (depth and UTF-8).
* `Base64Pad` of `multibase` is `BASE64` of the crate `data_encoding`: padding is required, and may come between texts
  that are written one after the other.
-/

namespace Verif.Http

open Verif Verif.Ipfs

/-! ### Writing and reading -/

/-- Two spaces for every level. -/
def indentOf (n : Nat) : Bytes := List.replicate (2 * n) 32

mutual
/-- `serde_json::to_writer_pretty` at some level. -/
def prettyAt (n : Nat) : Json → Bytes
  | .arr [] => [91, 93]
  | .arr (x :: l) => 91 :: 10 :: (indentOf (n + 1) ++ (prettyAt (n + 1) x ++ (prettyArr (n + 1) l ++ (10 :: (indentOf n ++ [93])))))
  | .obj [] => [123, 125]
  | .obj ((k, x) :: m) =>
    123 :: 10 :: (indentOf (n + 1) ++ (writeStr k ++ (58 :: 32 :: (prettyAt (n + 1) x ++ (prettyObj (n + 1) m ++ (10 :: (indentOf n ++ [125])))))))
  | .null => Json.null.write
  | .bool b => (Json.bool b).write
  | .num x => (Json.num x).write
  | .str s => (Json.str s).write

/-- The elements after the first. -/
def prettyArr (n : Nat) : List Json → Bytes
  | [] => []
  | x :: l => 44 :: 10 :: (indentOf n ++ (prettyAt n x ++ prettyArr n l))

/-- The entries after the first. -/
def prettyObj (n : Nat) : List (Bytes × Json) → Bytes
  | [] => []
  | (k, x) :: m => 44 :: 10 :: (indentOf n ++ (writeStr k ++ (58 :: 32 :: (prettyAt n x ++ prettyObj n m))))
end

/-- The value of a group of four digits, some of which may be padding. -/
def padBlock (a b c d : UInt8) : Option Bytes :=
  if d = 61 then (if c = 61 then tail2 a b else tail3 a b c) else quad a b c d

/-- `Base64Pad.decode`. -/
def unbase64Pad : Bytes → Option Bytes
  | [] => some []
  | a :: b :: c :: d :: r =>
    match padBlock a b c d, unbase64Pad r with
    | some x, some y => some (x ++ y)
    | _, _ => none
  | _ => none

/-- One trailing carriage return is not part of a line. -/
def dropCr (l : Bytes) : Bytes := if l.getLast? = some 13 then l.dropLast else l

/-- `str::lines`; `cur` is what the line has so far. A carriage return at the very end stays. -/
def linesFrom (cur : Bytes) : Bytes → List Bytes
  | [] => if cur = [] then [] else [cur]
  | c :: s => if c = 10 then dropCr cur :: linesFrom [] s else linesFrom (cur ++ [c]) s

/-- How `pem_to_der` panics. -/
inductive PemPanic where
  | utf8
  | firstLine
  | tag
  | noEnd
  | base64
deriving DecidableEq, Repr

def kBegin : Bytes := "-----BEGIN".toUTF8.toList
def kEnd : Bytes := "-----END".toUTF8.toList

/-- The loop after the first line (config.rs:258-273): the text that was collected, if the end was found. -/
def pemBody (tag acc : Bytes) : List Bytes → Except PemPanic Bytes
  | [] => .error .noEnd
  | l :: ls =>
    if kEnd.isPrefixOf l then
      if l.drop 8 = tag then .ok acc else .error .tag
    else pemBody tag (acc ++ l) ls

/-- `pem_to_der` (config.rs:236-278). -/
def pemToDer (bytes : Bytes) : Except PemPanic Bytes :=
  if utf8Ok bytes then
    match linesFrom [] bytes with
    | [] => .error .noEnd
    | l :: ls =>
      if kBegin.isPrefixOf l then
        match pemBody (l.drop 10) [] ls with
        | .error e => .error e
        | .ok text =>
          match unbase64Pad text with
          | some d => .ok d
          | none => .error .base64
      else .error .firstLine
  else .error .utf8

/-- `keys_proto::PrivateKey` (http/src/keys.proto). -/
structure PrivKey where
  type : Nat
  data : Bytes
deriving DecidableEq, Repr

/-- `PrivateKey::encode`: required fields are always written. -/
def PrivKey.encode (k : PrivKey) : Bytes := varintField 8 k.type ++ lenField 18 k.data

/-- `merge_field`. -/
def privKeyStep (k : PrivKey) (n : Nat) (v : WireVal) : Option PrivKey :=
  match n, v with
  | 1, .varint t => some { k with type := t % 2 ^ 32 }
  | 1, _ => none
  | 2, .len b => some { k with data := b }
  | 2, _ => none
  | _, _ => some k

/-- `PrivateKey::decode`: a field that is missing is zero or empty. -/
def PrivKey.decode (bs : Bytes) : Option PrivKey := Prost.msg privKeyStep ⟨0, []⟩ bs

/-! ### Keys -/

/-- What is done with keys: `openssl::rsa::Rsa` and `ipfs::Keypair`. -/
structure KeyEnv (R Kp : Type) where
  /-- `PKey::from_rsa` and `private_key_to_pem_pkcs8` -/
  pem : R → Option Bytes
  /-- `private_key_to_der` -/
  der : R → Option Bytes
  /-- `Rsa::private_key_from_der` -/
  ofDer : Bytes → Option R
  /-- `Keypair::rsa_from_pkcs8` -/
  ofPkcs8 : Bytes → Option Kp
  /-- `public().to_peer_id()` -/
  peer : Kp → PeerId

/-- What starting needs. -/
structure ConfigEnv (R Kp : Type) extends KeyEnv R Kp where
  parseAddr : Bytes → Option Maddr
  show' : Ipfs.Comp → Bytes

/-! ### The file -/

/-- `CompatibleConfigFile` (config.rs:280-302). -/
structure ConfigFile where
  peerId : Bytes
  privKey : Bytes
  swarm : List Maddr
  api : Maddr
deriving DecidableEq, Repr

def fIdentity : Bytes := "Identity".toUTF8.toList
def fAddresses : Bytes := "Addresses".toUTF8.toList
def fPeerId : Bytes := "PeerID".toUTF8.toList
def fPrivKey : Bytes := "PrivKey".toUTF8.toList
def fSwarm : Bytes := "Swarm".toUTF8.toList
def fApi : Bytes := "API".toUTF8.toList

/-- The derived `Serialize`. -/
def ConfigFile.json (show' : Ipfs.Comp → Bytes) (c : ConfigFile) : Json :=
  .obj [(fIdentity, .obj [(fPeerId, .str c.peerId), (fPrivKey, .str c.privKey)]),
    (fAddresses, .obj [(fSwarm, .arr (c.swarm.map (fun a => .str (Maddr.text show' a)))), (fApi, .str (Maddr.text show' c.api))])]

/-- The derived `Deserialize` of a struct with two fields: both once, or both in order. -/
def twoFields (f g : Bytes) (a b : Option Json) : List (Bytes × Json) → Option (Json × Json)
  | [] =>
    match a, b with
    | some x, some y => some (x, y)
    | _, _ => none
  | (k, x) :: m =>
    if k = f then (if a.isSome then none else twoFields f g (some x) b m)
    else if k = g then (if b.isSome then none else twoFields f g a (some x) m)
    else twoFields f g a b m

/-- From an object or a list. -/
def readTwo (f g : Bytes) : Json → Option (Json × Json)
  | .obj m => twoFields f g none none m
  | .arr [x, y] => some (x, y)
  | _ => none

/-- A string. -/
def readText : Json → Option Bytes
  | .str s => some s
  | _ => none

/-- All of a list. -/
def confAddrs (parseAddr : Bytes → Option Maddr) : List Json → Option (List Maddr)
  | [] => some []
  | j :: l =>
    match (readText j).bind parseAddr, confAddrs parseAddr l with
    | some a, some as => some (a :: as)
    | _, _ => none

/-- `Vec<Multiaddr>`. -/
def readSwarm (parseAddr : Bytes → Option Maddr) : Json → Option (List Maddr)
  | .arr l => confAddrs parseAddr l
  | _ => none

/-- The derived `Deserialize` of the whole. -/
def ConfigFile.ofJson (parseAddr : Bytes → Option Maddr) (j : Json) : Option ConfigFile :=
  match readTwo fIdentity fAddresses j with
  | none => none
  | some (i, a) =>
    match readTwo fPeerId fPrivKey i, readTwo fSwarm fApi a with
    | some (p, k), some (s, api) =>
      match readText p, readText k, readSwarm parseAddr s, (readText api).bind parseAddr with
      | some p, some k, some s, some api => some ⟨p, k, s, api⟩
      | _, _, _, _ => none
    | _, _ => none

/-- `serde_json::from_reader`: nothing but white space may follow. -/
def ConfigFile.read (parseAddr : Bytes → Option Maddr) (file : Bytes) : Option ConfigFile :=
  match readJson file with
  | some (j, rest) => if skipWs rest = [] then ConfigFile.ofJson parseAddr j else none
  | none => none

/-! ### `load` -/

/-- `LoadingError` (config.rs:170-183) without its texts. -/
inductive LoadFail where
  | format
  | key
  | keyType (t : Nat)
  | mismatch (loaded stored : Bytes)
deriving DecidableEq, Repr

/-- What comes of it. -/
inductive Loaded (α : Type) where
  | ok (x : α)
  | failed (e : LoadFail)
  | panic
deriving DecidableEq, Repr

/-- The key pair of an RSA key, through PKCS#8 (config.rs:319-329). -/
def loadRsa {R Kp : Type} (env : KeyEnv R Kp) (der : Bytes) : Loaded Kp :=
  match env.ofDer der with
  | none => .failed .key
  | some k =>
    match env.pem k with
    | none => .failed .key
    | some pem =>
      match pemToDer pem with
      | .error _ => .panic
      | .ok pkcs8 =>
        match env.ofPkcs8 pkcs8 with
        | none => .failed .key
        | some kp => .ok kp

/-- `Identity::load_keypair` (config.rs:305-333). -/
def loadKeypair {R Kp : Type} (env : KeyEnv R Kp) (privKey : Bytes) : Loaded Kp :=
  match unbase64Pad privKey with
  | none => .failed .key
  | some bytes =>
    match PrivKey.decode bytes with
    | none => .failed .key
    | some k => if k.type = 0 then loadRsa env k.data else .failed (.keyType k.type)

/-- `Config` (config.rs:160-168). -/
structure Conf (Kp : Type) where
  keypair : Kp
  swarm : List Maddr
  api : Maddr

/-- `load` (config.rs:190-214). -/
def loadConfig {R Kp : Type} (env : ConfigEnv R Kp) (file : Bytes) : Loaded (Conf Kp) :=
  match ConfigFile.read env.parseAddr file with
  | none => .failed .format
  | some c =>
    match loadKeypair env.toKeyEnv c.privKey with
    | .failed e => .failed e
    | .panic => .panic
    | .ok kp =>
      if (env.peer kp).toText = c.peerId then .ok ⟨kp, c.swarm, c.api⟩
      else .failed (.mismatch (env.peer kp).toText c.peerId)

/-! ### `init` -/

/-- `Profile` (config.rs:19-23). -/
inductive Profile where
  | test
  | default
deriving DecidableEq, Repr

/-- `Profile::from_str` (config.rs:29-35). -/
def Profile.ofText (s : Bytes) : Option Profile :=
  if s = "test".toUTF8.toList then some .test
  else if s = "default".toUTF8.toList then some .default
  else none

/-- What the disk does. -/
inductive Disk where
  | fine
  | noDirectory
  | noFile
  /-- writing ends after so many bytes: an error, or the process is gone -/
  | full (written : Nat)
deriving DecidableEq, Repr

/-- `InitializationError` (config.rs:38-54) without its texts. -/
inductive InitFail where
  | directory
  | creation
  | bits (n : Nat)
  | generation
  | writing
deriving DecidableEq, Repr

/-- What comes of it. -/
inductive Inited where
  | ok (peerId : Bytes)
  | failed (e : InitFail)
  | panic
deriving DecidableEq, Repr

/-- `/ip4/127.0.0.1/tcp/..` -/
def localTcp (port : Nat) : Maddr := [.ip4 127 0 0 1, .tcp port]

/-- The address for the API (config.rs:120-123). -/
def Profile.api : Profile → Maddr
  | .test => localTcp 0
  | .default => localTcp 4004

/-- The only profile, or the default one (config.rs:69-73). -/
def pickProfile : List Profile → Option Profile
  | [] => some .default
  | [p] => some p
  | _ => none

/-- The end of `init` (config.rs:136-157): the file afterwards. -/
def writeConfig (disk : Disk) (file : Option Bytes) (text peerId : Bytes) : Option Bytes × Inited :=
  if disk = .noDirectory then (file, .failed .directory)
  else
    match file with
    | some f => (some f, .failed .creation)
    | none =>
      match disk with
      | .noFile => (none, .failed .creation)
      | .full n => (some (text.take n), .failed .writing)
      | _ => (some text, .ok peerId)

/-- `init` (config.rs:59-158) with the key that is generated. -/
def initConfig {R Kp : Type} (env : ConfigEnv R Kp) (generated : Option R) (disk : Disk) (file : Option Bytes) (bits : Nat)
    (profiles : List Profile) : Option Bytes × Inited :=
  match pickProfile profiles with
  | none => (file, .panic)
  | some profile =>
    if 2048 ≤ bits ∧ bits ≤ 16 * 1024 then
      match generated with
      | none => (file, .failed .generation)
      | some k =>
        match env.pem k with
        | none => (file, .failed .generation)
        | some pem =>
          match pemToDer pem with
          | .error _ => (file, .panic)
          | .ok pkcs8 =>
            match env.ofPkcs8 pkcs8 with
            | none => (file, .panic)
            | some kp =>
              match env.der k with
              | none => (file, .failed .generation)
              | some der =>
                writeConfig disk file
                  (prettyAt 0 (ConfigFile.json env.show' ⟨(env.peer kp).toText, base64 (PrivKey.encode ⟨0, der⟩), [localTcp 0], profile.api⟩))
                  (env.peer kp).toText
    else (file, .failed (.bits bits))

/-! ### `main` -/

/-- The path of the repository (main.rs:46-62). -/
def homeOf (ipfsPath home : Option Bytes) (push : Bytes → Bytes → Bytes) : Option Bytes :=
  match ipfsPath with
  | some p => some p
  | none => home.map (fun h => push h ".rust-ipfs".toUTF8.toList)

/-- How the program ends, or that it serves at an address. -/
inductive Started (Kp : Type) where
  | exit (code : Nat)
  | panic
  | serves (keypair : Kp) (swarm : List Maddr) (ip : UInt8 × UInt8 × UInt8 × UInt8) (port : Nat)

/-- The address of `serve` (main.rs:203-211). -/
def socketAddr : Maddr → Option ((UInt8 × UInt8 × UInt8 × UInt8) × Nat)
  | [.ip4 a b c d, .tcp port] => some ((a, b, c, d), port)
  | _ => none

/-- `Options::Init` (main.rs:67-112): the file afterwards, and how it ends. -/
def mainInit {R Kp : Type} (env : ConfigEnv R Kp) (generated : Option R) (disk : Disk) (file : Option Bytes) (bits : Nat)
    (profiles : List Profile) : Option Bytes × Started Kp :=
  match file with
  | some f => (some f, .exit 1)
  | none =>
    match initConfig env generated disk none bits profiles with
    | (f, .ok _) => (f, .exit 0)
    | (f, .failed _) => (f, .exit 1)
    | (f, .panic) => (f, .panic)

/-- `Options::Daemon` (main.rs:113-157) until it serves, if the node can be started. -/
def mainDaemon {R Kp : Type} (env : ConfigEnv R Kp) (file : Option Bytes) : Started Kp :=
  match file with
  | none => .exit 1
  | some f =>
    match loadConfig env f with
    | .ok c =>
      match socketAddr c.api with
      | some (ip, port) => .serves c.keypair c.swarm ip port
      | none => .panic
    | _ => .panic

end Verif.Http
