import Verif.Lay.Layout
import Verif.Py.Connected

/-! Model of `closest` (minorminer/layout/placement.py 269-407). Frozensets are lists without duplicates. The order in which
Python runs through a set is a parameter, and so is the k-d tree of scipy, which gives the distances and indices of the nearest points. -/

namespace MM
namespace Lay

open Py

variable {V Q : Type} [DecidableEq V] [DecidableEq Q]

/-- Sum of the rows of an array. -/
def sumRows : List Pt → Pt
  | [] => []
  | r :: rs => rs.foldl (List.zipWith (· + ·)) r

/-- `np.mean(rows, axis=0)`. -/
def meanOf (rows : List Pt) : Pt := (sumRows rows).map (· / rows.length)

/-- The point of a set of nodes of T (placement.py 324-331). -/
def barycentre (T : List (Q × Pt)) (k : Nat) (X : List Q) : Except Err Pt :=
  if k = 1 then
    match X with
    | [v] => item T v
    | _ => .error .value
  else do .ok (meanOf (← X.mapM (item T)))

/-- `T_subgraph_layout[subgraph] = p`: a set that is there already keeps its place. -/
def putSet (d : List (List Q × Pt)) (X : List Q) (p : Pt) : List (List Q × Pt) :=
  if d.any (fun e => sameSet X e.1) then d.map (fun e => if sameSet X e.1 then (e.1, p) else e) else d ++ [(X, p)]

/-- The loops that fill `T_subgraph_layout` (placement.py 323-331). -/
def subsetLayout (order : List (List Q) → List (List Q)) (g : Graph Q) (T : List (Q × Pt)) (lo hi : Nat) : Except Err (List (List Q × Pt)) :=
  (List.range' lo (hi + 1 - lo)).foldlM (fun d k => (order (connectedSubgraphs g hi k)).foldlM (fun d X => do .ok (putSet d X (← barycentre T k X))) d) []

/-- `T_subset_lookup[p]` (placement.py 335): of sets with the same point the last one. -/
def setAt (d : List (List Q × Pt)) (p : Pt) : Option (List Q) := (d.reverse.find? fun e => decide (e.2 = p)).map Prod.fst

/-- `base**overlap_counter[v]` summed up (placement.py 402); `used` contains a node as often as it was counted. -/
def penalty (base : Nat) (used X : List Q) : Nat := (X.map fun v => base ^ used.count v).sum

/-- `subsets[subset] = d + ...` (placement.py 402): a set that is there already keeps its place. -/
def putCost (l : List (List Q × Rat)) (X : List Q) (c : Rat) : List (List Q × Rat) :=
  if l.any (fun e => sameSet X e.1) then l.map (fun e => if sameSet X e.1 then (e.1, c) else e) else l ++ [(X, c)]

/-- The dict `subsets` for a base, `none` for an `OverflowError`: integers from `big` on are no floating point numbers (placement.py 399-402). -/
def costs (big base : Nat) (used : List Q) (near : List (List Q × Rat)) : Option (List (List Q × Rat)) :=
  near.foldlM (fun l e => if big ≤ penalty base used e.1 then none else some (putCost l e.1 (e.2 + penalty base used e.1))) []

/-- `min(subsets, key=subsets.get)`: the first of the cheapest. -/
def cheapest : List (List Q × Rat) → Option (List Q × Rat)
  | [] => none
  | e :: l =>
    match cheapest l with
    | some b => if b.2 < e.2 then some b else some e
    | none => some e

/-- `_minimize_overlap` (placement.py 395-407) for the sets and distances of the neighbours, with the bases that are left. `min` of
no sets is a `ValueError`; after the last base the function ends without a value. -/
def minimizeOverlap (big : Nat) (used : List Q) (near : List (List Q × Rat)) : List Nat → Except Err (List Q)
  | [] => .error .overflow
  | base :: bases =>
    match costs big base used near with
    | none => minimizeOverlap big used near bases
    | some l =>
      match cheapest l with
      | some b => .ok b.1
      | none => .error .value

/-- The sets of the neighbours (placement.py 400-401). -/
def nearSets (d : List (List Q × Pt)) (found : List (Rat × Nat)) : Except Err (List (List Q × Rat)) :=
  found.mapM fun r =>
    match d[r.2]? with
    | none => .error .index
    | some e =>
      match setAt d e.2 with
      | some X => .ok (X, r.1)
      | none => .error .key

/-- The loop over S (placement.py 345-357). Without points there is no tree; a query for no neighbours or for points of another dimension is a
`ValueError`; for more neighbours than points the tree returns an index that is out of range. -/
def placeAll (tree : List Pt → Pt → Nat → List (Rat × Nat)) (big : Nat) (d : List (List Q × Pt)) (num : Nat) :
    List (V × Pt) → List Q → Except Err (List (V × List Q))
  | [], _ => .ok []
  | (u, p) :: rest, used =>
    if d = [] then .error .unboundLocal
    else if num = 0 ∨ p.length ≠ dimOf (d.map Prod.snd) then .error .value
    else if d.length < num then .error .index
    else do
      let near ← nearSets d (tree (d.map Prod.snd) p num)
      let X ← minimizeOverlap big used near ((List.range 10).reverse.map (· + 1))
      .ok ((u, X) :: (← placeAll tree big d num rest (used ++ X)))

/-- `closest` (placement.py 269-357). -/
def closest (tree : List Pt → Pt → Nat → List (Rat × Nat)) (order : List (List Q) → List (List Q)) (big : Nat) (S : Layout V) (g : Graph Q)
    (T : Layout Q) (lo hi num : Nat) : Except Err (List (V × List Q)) := do
  let d ← subsetLayout order g T.dict lo hi
  placeAll tree big d num S.dict []

end Lay
end MM
