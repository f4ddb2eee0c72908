import Mathlib.Data.List.Basic

/-! The bit tables of the clique and biclique search (include/busclique/util.hpp 53-87), and the way
a byte is used as a set of line numbers below 8. -/

namespace MM
namespace Bus

/-- What a run of the C++ code of include/busclique can come to instead of a result: an access outside of an
array or table, an exception (none of the functions is declared `except +` in busclique_h.pxi, so
that the process ends), a loop that does not end. -/
inductive Fault where
  | ub
  | thrown
  | diverge
  deriving DecidableEq, Repr

abbrev B (α : Type) := Except Fault α

/-- Bytes, `uint8_t`. -/
abbrev Byte := BitVec 8

/-- An array access; outside of the array it is undefined. -/
def at_ {α : Type} (l : List α) (i : Nat) : B α :=
  match l[i]? with
  | some x => .ok x
  | none => .error .ub

/-- A write to an array. -/
def put {α : Type} (l : List α) (i : Nat) (x : α) : B (List α) :=
  if i < l.length then .ok (l.set i x) else .error .ub

/-- `popcount` (util.hpp 55-64). -/
def popcountTable : List Nat :=
  [
   0, 1, 1, 2, 1, 2, 2, 3, 1, 2, 2, 3, 2, 3, 3, 4, 1, 2, 2, 3, 2, 3, 3, 4, 2, 3, 3, 4, 3, 4, 4, 5,
   1, 2, 2, 3, 2, 3, 3, 4, 2, 3, 3, 4, 3, 4, 4, 5, 2, 3, 3, 4, 3, 4, 4, 5, 3, 4, 4, 5, 4, 5, 5, 6,
   1, 2, 2, 3, 2, 3, 3, 4, 2, 3, 3, 4, 3, 4, 4, 5, 2, 3, 3, 4, 3, 4, 4, 5, 3, 4, 4, 5, 4, 5, 5, 6,
   2, 3, 3, 4, 3, 4, 4, 5, 3, 4, 4, 5, 4, 5, 5, 6, 3, 4, 4, 5, 4, 5, 5, 6, 4, 5, 5, 6, 5, 6, 6, 7,
   1, 2, 2, 3, 2, 3, 3, 4, 2, 3, 3, 4, 3, 4, 4, 5, 2, 3, 3, 4, 3, 4, 4, 5, 3, 4, 4, 5, 4, 5, 5, 6,
   2, 3, 3, 4, 3, 4, 4, 5, 3, 4, 4, 5, 4, 5, 5, 6, 3, 4, 4, 5, 4, 5, 5, 6, 4, 5, 5, 6, 5, 6, 6, 7,
   2, 3, 3, 4, 3, 4, 4, 5, 3, 4, 4, 5, 4, 5, 5, 6, 3, 4, 4, 5, 4, 5, 5, 6, 4, 5, 5, 6, 5, 6, 6, 7,
   3, 4, 4, 5, 4, 5, 5, 6, 4, 5, 5, 6, 5, 6, 6, 7, 4, 5, 5, 6, 5, 6, 6, 7, 5, 6, 6, 7, 6, 7, 7, 8]

/-- `first_bit` (util.hpp 66-75). -/
def firstBitTable : List Nat :=
  [
   0, 0, 1, 0, 2, 0, 1, 0, 3, 0, 1, 0, 2, 0, 1, 0, 4, 0, 1, 0, 2, 0, 1, 0, 3, 0, 1, 0, 2, 0, 1, 0,
   5, 0, 1, 0, 2, 0, 1, 0, 3, 0, 1, 0, 2, 0, 1, 0, 4, 0, 1, 0, 2, 0, 1, 0, 3, 0, 1, 0, 2, 0, 1, 0,
   6, 0, 1, 0, 2, 0, 1, 0, 3, 0, 1, 0, 2, 0, 1, 0, 4, 0, 1, 0, 2, 0, 1, 0, 3, 0, 1, 0, 2, 0, 1, 0,
   5, 0, 1, 0, 2, 0, 1, 0, 3, 0, 1, 0, 2, 0, 1, 0, 4, 0, 1, 0, 2, 0, 1, 0, 3, 0, 1, 0, 2, 0, 1, 0,
   7, 0, 1, 0, 2, 0, 1, 0, 3, 0, 1, 0, 2, 0, 1, 0, 4, 0, 1, 0, 2, 0, 1, 0, 3, 0, 1, 0, 2, 0, 1, 0,
   5, 0, 1, 0, 2, 0, 1, 0, 3, 0, 1, 0, 2, 0, 1, 0, 4, 0, 1, 0, 2, 0, 1, 0, 3, 0, 1, 0, 2, 0, 1, 0,
   6, 0, 1, 0, 2, 0, 1, 0, 3, 0, 1, 0, 2, 0, 1, 0, 4, 0, 1, 0, 2, 0, 1, 0, 3, 0, 1, 0, 2, 0, 1, 0,
   5, 0, 1, 0, 2, 0, 1, 0, 3, 0, 1, 0, 2, 0, 1, 0, 4, 0, 1, 0, 2, 0, 1, 0, 3, 0, 1, 0, 2, 0, 1, 0]

/-- `mask_bit` (util.hpp 77). -/
def maskBitTable : List Byte := [1, 2, 4, 8, 16, 32, 64, 128]

/-- `popcount[m]`. -/
def popcount (m : Byte) : B Nat := at_ popcountTable m.toNat

/-- `first_bit[m]`. -/
def firstBit (m : Byte) : B Nat := at_ firstBitTable m.toNat

/-- `mask_bit[k]`. -/
def maskBit (k : Nat) : B Byte := at_ maskBitTable k

/-- `m ^= mask_bit[first_bit[m]]`, the step of the loops over the bits of a byte
(bundle_cache.hpp 64-65, 92; topo_cache.hpp 175-176). -/
def dropFirst (m : Byte) : B Byte := do
  let k ← firstBit m
  let b ← maskBit k
  pure (m ^^^ b)

/-- The members of a byte: the loop `while (m) { k = first_bit[m]; m ^= mask_bit[k]; … }` with
the values `k` takes. `fuel` bounds the number of rounds; a run that uses it up does not end. -/
def bitsLoop : Nat → Byte → B (List Nat)
  | 0, _ => .error .diverge
  | fuel + 1, m =>
    if m = 0 then .ok []
    else do
      let k ← firstBit m
      let m' ← dropFirst m
      let r ← bitsLoop fuel m'
      pure (k :: r)

end Bus
end MM
