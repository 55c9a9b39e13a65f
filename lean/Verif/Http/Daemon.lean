import Verif.Http.Config
import Verif.Repo.Lock
import Verif.Base.Decimal

/-!
# The life of daemons, and the file that tells where they serve

Model of `Options::Daemon` from loading the configuration to its end (http/src/main.rs:113-188) and of `serve` (main.rs:190-224), for any
number of processes with the same `IPFS_PATH`, side by side and one after the other.

* The repository is locked as in `Repo/Lock`: `UninitializedIpfs::new` makes the first handle (main.rs:147), `start` takes the lock
  (main.rs:148-151). The routes keep a handle until the server has ended (main.rs:199, 202), the background task and its calls others.
* `bind_with_graceful_shutdown` (main.rs:219) panics if the address cannot be had; a port of zero is replaced by a free one. Which one,
  and whether it can be had, is up to the environment.
* `tokio::fs::write` (main.rs:167-169) is two steps, `File::create` and `write_all`, which can fail, the second after any number of bytes.
  It writes from the start of the file, over what others may have put there since.
* A request to `shutdown` ends the acceptance of connections (main.rs:219-223); the server ends when all requests are done (main.rs:174).
* A panic, a signal (none is handled, main.rs:131) and a crash are the same: the process is gone, and so are its open files.
* When the server has ended the file is made empty (main.rs:176-182), and the process ends.
-/

namespace Verif.Http

open Verif Verif.Ipfs Verif.Repo

/-- An address of IPv4 and a port: `SocketAddr`. -/
abbrev Sock := (UInt8 × UInt8 × UInt8 × UInt8) × Nat

/-- `format!("/ip4/{}/tcp/{}", addr.ip(), addr.port())` (main.rs:163). -/
def apiText (s : Sock) : Bytes :=
  "/ip4/".toUTF8.toList ++ decimal s.1.1.toNat ++ 46 :: decimal s.1.2.1.toNat ++ 46 :: decimal s.1.2.2.1.toNat ++
    46 :: decimal s.1.2.2.2.toNat ++ "/tcp/".toUTF8.toList ++ decimal s.2

/-- Where a process is. -/
inductive DStage where
  /-- the configuration was loaded and a node made of it (main.rs:121-147) -/
  | loaded (s : Sock)
  /-- `start` has succeeded -/
  | started (s : Sock)
  /-- connections are accepted -/
  | bound (a : Sock)
  /-- the file was created or made empty -/
  | opened (a : Sock)
  /-- `server.await`; whether the file was written -/
  | serves (a : Sock) (wrote : Bool)
  /-- no more connections are accepted -/
  | asked (a : Sock) (wrote : Bool)
  /-- the server has ended -/
  | closed (a : Sock) (wrote : Bool)
deriving DecidableEq, Repr

/-- The directory of the repository and the processes. -/
structure DaemonWorld where
  lock : LockWorld
  config : Option Bytes
  api : Option Bytes
  proc : Nat → Option DStage

/-- An empty directory, or none. -/
def DaemonWorld.init (dir : Bool) : DaemonWorld := ⟨LockWorld.init dir, none, none, fun _ => none⟩

/-- A process is somewhere else. -/
def DaemonWorld.goto (w : DaemonWorld) (n : Nat) (s : DStage) : DaemonWorld := { w with proc := fun k => if k = n then some s else w.proc k }

/-- A process is gone. -/
def DaemonWorld.gone (w : DaemonWorld) (n : Nat) : DaemonWorld :=
  { w with lock := w.lock.close n 0, proc := fun k => if k = n then none else w.proc k }

/-- What happens. -/
inductive DaemonEv (R : Type) where
  /-- `ipfs init`, from its beginning to its end -/
  | init (generated : Option R) (disk : Disk) (bits : Nat) (profiles : List Profile)
  /-- `ipfs daemon` -/
  | run (n : Nat)
  | start (n : Nat) (storesOk : Bool)
  | bind (n : Nat) (port : Nat)
  | create (n : Nat) (ok : Bool)
  /-- so many bytes could be written -/
  | write (n : Nat) (count : Nat)
  | shutdown (n : Nat)
  | close (n : Nat)
  /-- what is after `server.await` -/
  | finish (n : Nat) (ok : Bool)
  | kill (n : Nat)
  /-- a handle of the repository is cloned or dropped, a blocking task begins or ends -/
  | share (n : Nat)
  | drop (n : Nat)
  | job (n : Nat)
  | jobDone (n : Nat)
deriving DecidableEq, Repr

/-- The routes have a handle. -/
def DStage.keeps : DStage → Bool
  | .closed .. => false
  | _ => true

/-- A step of a handle or a blocking task. -/
def DaemonWorld.onLock (w : DaemonWorld) (e : LockEv) : Option DaemonWorld := (w.lock.step e).map (fun l => { w with lock := l })

/-- One step; `none` if it cannot be. -/
def DaemonWorld.step {R Kp : Type} (env : ConfigEnv R Kp) (w : DaemonWorld) : DaemonEv R → Option DaemonWorld
  | .init gen disk bits profiles =>
    some { w with
      config := (mainInit env gen disk w.config bits profiles).1
      lock := if (mainInit env gen disk w.config bits profiles).1.isSome then { w.lock with dir := true } else w.lock }
  | .run n =>
    match w.proc n, mainDaemon env w.config with
    | none, .serves _ _ ip port => (w.lock.step (.make n)).map (fun l => { w with lock := l }.goto n (.loaded (ip, port)))
    | none, _ => some w
    | _, _ => none
  | .start n ok =>
    match w.proc n with
    | some (.loaded s) =>
      match w.lock.initRepo n ok with
      | (.ok, l) => some ({ w with lock := l }.goto n (.started s))
      | (_, l) => some ({ w with lock := l }.gone n)
    | _ => none
  | .bind n port =>
    match w.proc n with
    | some (.started s) => if s.2 = 0 ∨ s.2 = port then some (w.goto n (.bound (s.1, port))) else none
    | _ => none
  | .create n ok =>
    match w.proc n with
    | some (.bound a) => if ok then some ({ w with api := some [] }.goto n (.opened a)) else some (w.goto n (.serves a false))
    | _ => none
  | .write n k =>
    match w.proc n with
    | some (.opened a) =>
      some ({ w with api := w.api.map (fun f : Bytes => (apiText a).take k ++ List.drop (min k (apiText a).length) f) }.goto n
        (.serves a (decide ((apiText a).length ≤ k))))
    | _ => none
  | .shutdown n =>
    match w.proc n with
    | some (.serves a wrote) => some (w.goto n (.asked a wrote))
    | _ => none
  | .close n =>
    match w.proc n with
    | some (.asked a wrote) => some (w.goto n (.closed a wrote))
    | _ => none
  | .finish n ok =>
    match w.proc n with
    | some (.closed _ wrote) => some ({ w with api := if wrote && ok then some [] else w.api }.gone n)
    | _ => none
  | .kill n => if (w.proc n).isSome then some (w.gone n) else none
  | .share n => if (w.proc n).isSome then w.onLock (.share n) else none
  | .drop n =>
    match w.proc n with
    | some s => if s.keeps ∧ (w.lock.node n).handles ≤ 1 then none else w.onLock (.drop n)
    | none => none
  | .job n => if (w.proc n).isSome then w.onLock (.job n) else none
  | .jobDone n => if (w.proc n).isSome then w.onLock (.jobDone n) else none

/-- Many steps. -/
def DaemonWorld.run {R Kp : Type} (env : ConfigEnv R Kp) (w : DaemonWorld) : List (DaemonEv R) → Option DaemonWorld
  | [] => some w
  | e :: es => (w.step env e).bind (fun w' => w'.run env es)

end Verif.Http
