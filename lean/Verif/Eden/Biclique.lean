import Mathlib.Data.List.Dedup
import Verif.Eden.Eden

/-! Model of the bicliques of `eden_processor` (minorminer/utils/polynomialembedder.py 243-327, 615-764). The order of sets is a parameter. -/

namespace MM
namespace Eden

open Spec.Eden (Qb Ell)

/-- `biclique_size` (polynomialembedder.py 271-296), without the memo. The depth of the recursion is bounded by a number that it does not reach. -/
def Proc.sizeFrom (P : Proc) : Nat → Rect → Except Err (Nat × Nat)
  | 0, _ => .error .hang
  | fuel + 1, R => do
    let h ← P.hscore R.ymin R.xmin R.xmax
    let v ← P.vscore R.xmin R.ymin R.ymax
    let h' ← (if R.ymin < R.ymax then do
        let s ← P.sizeFrom fuel ⟨R.xmin, R.xmax, R.ymin + 1, R.ymax⟩
        .ok (h + s.1)
      else .ok h)
    let v' ← (if R.xmin < R.xmax then do
        let s ← P.sizeFrom fuel ⟨R.xmin + 1, R.xmax, R.ymin, R.ymax⟩
        .ok (v + s.2)
      else .ok v)
    .ok (h', v')

/-- `biclique_size(xmin, xmax, ymin, ymax)`. -/
def Proc.bicliqueSize (P : Proc) (R : Rect) : Except Err (Nat × Nat) := P.sizeFrom (P.M + P.N + 1) R

/-- `biclique` (polynomialembedder.py 303-326). -/
def Proc.biclique (P : Proc) (R : Rect) : List (List Qb) × List (List Qb) :=
  ((upTo R.ymin (R.ymax + 1)).flatMap fun y => P.hbundle y R.xmin R.xmax, (upTo R.xmin (R.xmax + 1)).flatMap fun x => P.vbundle x R.ymin R.ymax)

/-- An item of `_biclique_size_to_length[size]`: lengths of the two kinds of chains, and a rectangle. -/
structure Item where
  size : Nat × Nat
  lens : Int × Int
  rect : Rect
deriving DecidableEq, Repr

/-- `_biclique_size_to_length[ab][wh] = r`: the dictionaries are one list of items in the order of insertion; a key that is there keeps its place. -/
def putItem (D : List Item) (i : Item) : List Item :=
  if D.any (fun e => decide (e.size = i.size ∧ e.lens = i.lens)) then D.map fun e => if e.size = i.size ∧ e.lens = i.lens then i else e else D ++ [i]

/-- The rectangles in the order of the loops of `_compute_biclique_sizes` (polynomialembedder.py 258-261). -/
def allRects (M N : Nat) : List Rect :=
  (upTo 0 M).flatMap fun xmax => (upTo 0 (xmax + 1)).flatMap fun xmin => (upTo 0 N).flatMap fun ymax => (upTo 0 (ymax + 1)).map fun ymin => ⟨xmin, xmax, ymin, ymax⟩

/-- `_compute_biclique_sizes` (polynomialembedder.py 243-269); `_biclique_length_to_size` is never read. -/
def Proc.items (P : Proc) : Except Err (List Item) :=
  (allRects P.M P.N).foldlM (fun D R => do
    let ab ← P.bicliqueSize R
    .ok (putItem D ⟨ab, (R.xmax - R.xmin + 1, R.ymax - R.ymin + 1), R⟩)) []

/-- Order of pairs. -/
def lexLt {α : Type} [LT α] [DecidableLT α] [DecidableEq α] (a b : α × α) : Bool := decide (a.1 < b.1) || decide (a.1 = b.1 ∧ a.2 < b.2)

/-- `(min(k), max(k))` (polynomialembedder.py 662-663). -/
def sortedPair (k : Nat × Nat) : Nat × Nat := (min k.1 k.2, max k.1 k.2)

/-- `(max(ab), min(ab))`. -/
def longFirst (ab : Int × Int) : Int × Int := (max ab.1 ab.2, min ab.1 ab.2)

/-- `acceptable_chains` (polynomialembedder.py 658-660, 732-735). -/
def acceptable (maxLength imbalance : Int) (t : Int × Int) : Bool := decide (t.1 ≤ maxLength ∧ t.2 ≤ maxLength ∧ ((t.1 - t.2).natAbs : Int) ≤ imbalance)

/-- `max(l, key=sortedpair)`: the first of the largest. -/
def maxSize : List (Nat × Nat) → Option (Nat × Nat)
  | [] => none
  | a :: l => some (l.foldl (fun best b => if lexLt (sortedPair best) (sortedPair b) then b else best) a)

/-- One round of the loops that look for the shortest chains (polynomialembedder.py 671-675, 747-752). -/
def shorter (ok : Int × Int → Bool) (best : (Int × Int) × Option Item) (i : Item) : (Int × Int) × Option Item :=
  if ok (longFirst i.lens) && lexLt (longFirst i.lens) best.1 then (longFirst i.lens, some i) else best

/-- `feasible_sizes`, in some order. -/
def feasible (D : List Item) (good : Nat × Nat → Bool) (ok : Int × Int → Bool) : List (Nat × Nat) :=
  ((D.filter fun i => good i.size && ok i.lens).map Item.size).dedup

/-- A parameter that is `None` by default. -/
def orElse (a : Option Int) (b : Int) : Int :=
  match a with
  | none => b
  | some a => a

/-- `largestNativeBiClique` (polynomialembedder.py 615-679). `order` is the order in which sets are read. -/
def Proc.largestBi (P : Proc) (order : List (Nat × Nat) → List (Nat × Nat)) (imbalance maxLength : Option Int) :
    Except Err ((Nat × Nat) × List (List Qb) × List (List Qb)) := do
  let D ← P.items
  let ok := acceptable (orElse maxLength (P.M + P.N)) (orElse imbalance (P.M + P.N))
  let sizes := feasible D (fun _ => true) ok
  match maxSize (order sizes) with
  | none => .error .value
  | some mn =>
    let both := order ([mn, (mn.2, mn.1)].dedup.filter fun s => decide (s ∈ sizes))
    match (both.foldl (fun best s => (D.filter fun i => decide (i.size = s)).foldl (shorter ok) best) (((P.M + P.N : Int), (P.M + P.N : Int)), none)).2 with
    | none => .error .type
    | some i => do
      let s ← P.bicliqueSize i.rect
      .ok (sortedPair s, P.biclique i.rect)

/-- `tightestNativeBiClique` (polynomialembedder.py 681-764). -/
def Proc.tightestBi (P : Proc) (order : List (Nat × Nat) → List (Nat × Nat)) (n : Nat) (m : Option Nat) (imbalance maxLength : Option Int) :
    Except Err (Option ((Nat × Nat) × List (List Qb) × List (List Qb))) := do
  let m := match m with
    | none => n
    | some m => m
  let D ← P.items
  let ok := acceptable (orElse maxLength (P.M + P.N + 1)) (orElse imbalance (P.M + P.N + 1))
  let sizes := feasible D (fun s => decide ((m ≤ s.1 ∧ n ≤ s.2) ∨ (n ≤ s.1 ∧ m ≤ s.2))) ok
  match ((order sizes).foldl (fun best s => (D.filter fun i => decide (i.size = s)).foldl (shorter ok) best) (((P.M + P.N + 1 : Int), (P.M + P.N + 1 : Int)), none)).2 with
  | none => .ok none
  | some i => do
    let s ← P.bicliqueSize i.rect
    let b := P.biclique i.rect
    if m ≤ i.size.1 ∧ n ≤ i.size.2 then .ok (some (s, b.2.take n, b.1.take m)) else .ok (some (s, b.1.take n, b.2.take m))

end Eden
end MM
