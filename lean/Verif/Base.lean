import Mathlib.Data.List.Basic
import Mathlib.Order.Basic

/-!
# Basic containers used by the model

Byte strings, little-endian integers, `BTreeMap<u32, _>`, `sort`, `dedup`.
None of this is code of ice-frost itself: it models the pieces of the Rust
standard library that the crate calls.
-/

namespace IceFrost

/-- `Vec<u8>` / `&[u8]`. -/
abbrev Bytes := List UInt8

/-- `u32`. -/
abbrev U32 := UInt32

/-- The `k` low bytes of `n`, least significant first (`to_le_bytes`). -/
def leBytes : Nat → Nat → Bytes
  | 0, _ => []
  | k + 1, n => UInt8.ofNat n :: leBytes k (n / 256)

/-- The number written by a little-endian byte string (`from_le_bytes`). -/
def leNat : Bytes → Nat
  | [] => 0
  | b :: bs => b.toNat + 256 * leNat bs

/-- `u32::to_le_bytes`. -/
def u32le (i : U32) : Bytes := leBytes 4 i.toNat

/-- The bytes of an ASCII string literal (`str::as_bytes`), as natural numbers below 256. -/
def strBytes (s : String) : Bytes := s.toList.map fun c => UInt8.ofNat c.toNat

/-! ### `BTreeMap<u32, α>`

An association list in increasing key order. -/

/-- `BTreeMap<u32, α>` as the list of its entries in iteration order. -/
abbrev BMap (α : Type) := List (U32 × α)

namespace BMap
variable {α β : Type}

/-- `BTreeMap::insert` (the returned old value is ignored by all callers in the crate). -/
def insert (k : U32) (v : α) : BMap α → BMap α
  | [] => [(k, v)]
  | (k', v') :: m =>
    if k < k' then (k, v) :: (k', v') :: m
    else if k = k' then (k, v) :: m
    else (k', v') :: insert k v m

/-- `BTreeMap::get`. -/
def get? (k : U32) : BMap α → Option α
  | [] => none
  | (k', v) :: m => if k = k' then some v else get? k m

/-- `BTreeMap::remove` (the returned old value is ignored by all callers in the crate). -/
def remove (k : U32) : BMap α → BMap α
  | [] => []
  | (k', v) :: m => if k = k' then m else (k', v) :: remove k m

/-- `BTreeMap::keys().copied().collect()`. -/
def keys (m : BMap α) : List U32 := m.map Prod.fst

/-- The representation invariant: keys strictly increasing. -/
def WF (m : BMap α) : Prop := (keys m).Pairwise (· < ·)

end BMap

/-! ### `sort` and `dedup` -/

/-- Insertion of one element into a sorted list, after all elements that are not greater. -/
def insertSorted {α : Type} (key : α → U32) (a : α) : List α → List α
  | [] => [a]
  | b :: l => if key a < key b then a :: b :: l else b :: insertSorted key a l

/-- `slice::sort` for an `Ord` that compares the `u32` given by `key`.  The sort is stable: elements with
equal keys keep their order.  (`sort_unstable` is only used on plain `u32`s, where equal elements are
indistinguishable.) -/
def sortByKey {α : Type} (key : α → U32) (l : List α) : List α :=
  l.foldl (fun acc a => insertSorted key a acc) []

/-- `Vec::dedup` for a `PartialEq` that compares the `u32` given by `key`: of each run of consecutive equal
elements only the first is kept. -/
def dedupByKey {α : Type} (key : α → U32) : List α → List α
  | [] => []
  | [a] => [a]
  | a :: b :: l => if key a = key b then dedupByKey key (a :: l) else a :: dedupByKey key (b :: l)
termination_by l => l.length

end IceFrost
