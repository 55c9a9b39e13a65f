import Verif.Base.Cid
import Verif.Base.BMap

/-!
# IPLD documents
-/

namespace Verif.Ipld

open Verif

/-- `Ipld` (src/ipld/mod.rs:24-43). An `f64` is its bits; a `BTreeMap` is its entries in key order;
the integers of the model are unbounded, those of the code have 128 bits. -/
inductive Ipld where
  | null
  | bool (b : Bool)
  | int (i : Int)
  | float (bits : UInt64)
  | str (s : Bytes)
  | bytes (b : Bytes)
  | list (l : List Ipld)
  | map (m : List (Bytes × Ipld))
  | link (c : Cid)

/-- Induction over documents. -/
theorem Ipld.ind {P : Ipld → Prop} (hnull : P .null) (hbool : ∀ b, P (.bool b)) (hint : ∀ i, P (.int i))
    (hfloat : ∀ x, P (.float x)) (hstr : ∀ s, P (.str s)) (hbytes : ∀ b, P (.bytes b))
    (hlink : ∀ c, P (.link c)) (hlist : ∀ l, (∀ x ∈ l, P x) → P (.list l))
    (hmap : ∀ m, (∀ e ∈ m, P e.2) → P (.map m)) (d : Ipld) : P d :=
  match d with
  | .null => hnull
  | .bool b => hbool b
  | .int i => hint i
  | .float x => hfloat x
  | .str s => hstr s
  | .bytes b => hbytes b
  | .link c => hlink c
  | .list l => hlist l (fun x hx =>
      have : sizeOf x < sizeOf l := List.sizeOf_lt_of_mem hx
      Ipld.ind hnull hbool hint hfloat hstr hbytes hlink hlist hmap x)
  | .map m => hmap m (fun e he =>
      have : sizeOf e.2 < sizeOf m := by
        have h1 := List.sizeOf_lt_of_mem he
        have h2 : sizeOf e.2 < sizeOf e := by cases e; simp; omega
        omega
      Ipld.ind hnull hbool hint hfloat hstr hbytes hlink hlist hmap e.2)
termination_by sizeOf d

mutual
/-- Equality of documents can be computed (used only to evaluate examples). -/
def Ipld.beq : Ipld → Ipld → Bool
  | .null, .null => true
  | .bool a, .bool b => a == b
  | .int a, .int b => a == b
  | .float a, .float b => a == b
  | .str a, .str b => a == b
  | .bytes a, .bytes b => a == b
  | .link a, .link b => a == b
  | .list a, .list b => beqList a b
  | .map a, .map b => beqMap a b
  | _, _ => false

def beqList : List Ipld → List Ipld → Bool
  | [], [] => true
  | a :: as, b :: bs => Ipld.beq a b && beqList as bs
  | _, _ => false

def beqMap : List (Bytes × Ipld) → List (Bytes × Ipld) → Bool
  | [], [] => true
  | (k, a) :: as, (k', b) :: bs => k == k' && Ipld.beq a b && beqMap as bs
  | _, _ => false
end

mutual
theorem Ipld.beq_iff : ∀ a b : Ipld, Ipld.beq a b = true ↔ a = b
  | .null, b => by cases b <;> simp [Ipld.beq]
  | .bool _, b => by cases b <;> simp [Ipld.beq]
  | .int _, b => by cases b <;> simp [Ipld.beq]
  | .float _, b => by cases b <;> simp [Ipld.beq]
  | .str _, b => by cases b <;> simp [Ipld.beq]
  | .bytes _, b => by cases b <;> simp [Ipld.beq]
  | .link _, b => by cases b <;> simp [Ipld.beq]
  | .list l, b => by cases b <;> simp [Ipld.beq, beqList_iff l]
  | .map m, b => by cases b <;> simp [Ipld.beq, beqMap_iff m]

theorem beqList_iff : ∀ a b : List Ipld, beqList a b = true ↔ a = b
  | [], b => by cases b <;> simp [beqList]
  | x :: xs, b => by cases b <;> simp [beqList, Ipld.beq_iff x, beqList_iff xs]

theorem beqMap_iff : ∀ a b : List (Bytes × Ipld), beqMap a b = true ↔ a = b
  | [], b => by cases b <;> simp [beqMap]
  | (k, x) :: xs, b => by
    cases b with
    | nil => simp [beqMap]
    | cons e b => obtain ⟨k', y⟩ := e; simp [beqMap, Ipld.beq_iff x, beqMap_iff xs]
end

instance : DecidableEq Ipld := fun a b =>
  if h : Ipld.beq a b then isTrue ((Ipld.beq_iff a b).mp h)
  else isFalse (fun e => h ((Ipld.beq_iff a b).mpr e))

/-- `Ipld::get` with a string (src/ipld/mod.rs:117-131). -/
def Ipld.get : Ipld → Bytes → Option Ipld
  | .map m, k => AMap.get m k
  | _, _ => none

mutual
/-- The documents that can exist: strings are UTF-8, keys of a map strictly increase. -/
def Ipld.WF : Ipld → Prop
  | .str s => utf8Ok s = true
  | .list l => WFList l
  | .map m => BMap.Sorted m ∧ WFMap m
  | _ => True

def WFList : List Ipld → Prop
  | [] => True
  | x :: xs => x.WF ∧ WFList xs

def WFMap : List (Bytes × Ipld) → Prop
  | [] => True
  | (k, x) :: xs => utf8Ok k = true ∧ x.WF ∧ WFMap xs
end

theorem WFList_iff (l : List Ipld) : WFList l ↔ ∀ x ∈ l, x.WF := by
  induction l with
  | nil => simp [WFList]
  | cons x l ih => simp [WFList, ih]

theorem WFMap_iff (m : List (Bytes × Ipld)) : WFMap m ↔ ∀ e ∈ m, utf8Ok e.1 = true ∧ e.2.WF := by
  induction m with
  | nil => simp [WFMap]
  | cons x m ih => obtain ⟨k, x⟩ := x; simp [WFMap, ih, and_assoc]

end Verif.Ipld
