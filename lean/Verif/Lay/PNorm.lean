import Mathlib.Algebra.BigOperators.Group.Finset.Basic
import Mathlib.Algebra.Order.Group.Unbundled.Abs
import Mathlib.Algebra.Order.Ring.Unbundled.Rat
import Mathlib.Algebra.Field.Basic
import Mathlib.Algebra.Field.Rat
import Verif.Lay.Layout

/-! Model of `p_norm` and its objective (minorminer/layout/layout.py 25-238). Arrays are functions of indices. The minimiser is a parameter, and so is the norm except for
`p` 1 and infinity. The objective is defined over any ordered field, so that its derivative over the real numbers can be taken. -/

namespace MM
namespace Lay

open Finset

section Objective

variable {K : Type} [Field K] [LinearOrder K]

/-- `diff` (layout.py 201): coordinate `k` of row `i` minus row `j`. -/
def diff (X : Nat → Nat → K) (i j k : Nat) : K := X i k - X j k

/-- `dist` (layout.py 204) for a norm of rows. -/
def rowDist (dim : Nat) (norm : List K → K) (X : Nat → Nat → K) (i j : Nat) : K := norm ((List.range dim).map (diff X i j))

/-- The cost (layout.py 238) of an array of `n` rows and `dim` columns. -/
def cost (n dim : Nat) (norm : List K → K) (D X : Nat → Nat → K) : K := ∑ i ∈ range n, ∑ j ∈ range n, (D i j - rowDist dim norm X i j) ^ 2

/-- `np.linalg.norm(_, ord=1)` -/
def norm1 (x : List K) : K := (x.map fun a => |a|).sum

/-- `np.linalg.norm(_, ord=inf)` -/
def normInf (x : List K) : K := (x.map fun a => |a|).foldl max 0

/-- `np.nan_to_num((1/x)**m)` for `x` that is not negative; `big` is the largest number. -/
def nanInv (big x : K) (m : Nat) : K := if x = 0 then big else (1 / x) ^ m

/-- The gradient for `p == 1` (layout.py 209-215). -/
def grad1 (big : K) (n dim : Nat) (D X : Nat → Nat → K) (i k : Nat) : K :=
  ∑ j ∈ range n, 2 * diff X i j k * (rowDist dim norm1 X i j - D i j) * nanInv big |diff X i j k| 1

/-- The gradient for `p == inf` (layout.py 216-227). The mask has two columns, so it fits arrays of two columns only. -/
def gradInf (big : K) (n dim : Nat) (D X : Nat → Nat → K) (i k : Nat) : Except Err K :=
  if dim < 2 then .error .index
  else if dim ≠ 2 then .error .value
  else .ok (∑ j ∈ range n, 2 * diff X i j k * (rowDist 2 normInf X i j - D i j) * nanInv big |diff X i j k| 1 *
    (if k = 0 then (if |diff X i j 1| < |diff X i j 0| then 1 else 0) else (if |diff X i j 1| < |diff X i j 0| then 0 else 1)))

/-- The gradient for other `p` (layout.py 228-235), for integers from 2 on. -/
def gradP (big : K) (p : Nat) (norm : List K → K) (n dim : Nat) (D X : Nat → Nat → K) (i k : Nat) : K :=
  ∑ j ∈ range n, 2 * diff X i j k * |diff X i j k| ^ (p - 2) * (rowDist dim norm X i j - D i j) * nanInv big (rowDist dim norm X i j) (p - 1)

end Objective

variable {V : Type} [DecidableEq V]

/-- `_graph_distance_matrix` (layout.py 139-170). `nodes` are the nodes in the order of the graph, `dist` is what networkx computes, `none` for nodes of different
components. The distances passed in are not used. Indices are those of the array; elsewhere the value is 0. -/
def distances (nodes : List V) (dist : V → V → Option Nat) (_given : Option (V → V → Rat)) (i j : Nat) : Rat :=
  match nodes[i]?, nodes[j]? with
  | some u, some v => match dist u v with
    | some d => d
    | none => nodes.length
  | _, _ => 0

/-- An array given by its rows, with value 0 at other indices. -/
def entries (rows : List Pt) (i k : Nat) : Rat :=
  match rows[i]? with
  | some r => match r[k]? with
    | some x => x
    | none => 0
  | none => 0

/-- `_set_dim_and_center` (layout.py 670-690). -/
def dimAndCenter (dim : Option Int) (center : Option Pt) : Except Err (Int × Pt) :=
  let d := match dim, center with
    | some d, _ => d
    | none, some c => (c.length : Int)
    | none, none => 2
  let c := match center with
    | some c => c
    | none => List.replicate d.toNat 0
  if (c.length : Int) = d then .ok (d, c) else .error .value

/-- `p_norm` (layout.py 25-136) for a starting layout, which is the one passed in or made by networkx. `verts` is `sorted(G)`, `nodes` is `list(G)`, not empty. The
minimiser gets the cost as a function of the rows, and the rows to start from. It also gets the gradient; see `grad1`. The array it works on is reshaped to `dim`
columns, which is an error if it has another number of them. -/
def pNorm (minimise : (List Pt → Rat) → List Pt → List Pt) (norm : Pt → Rat) (verts nodes : List V) (dist : V → V → Option Nat) (given : Option (V → V → Rat))
    (start : List (V × Pt)) (dim : Option Int) (center : Option Pt) (scale : Option Rat) : Except Err (List (V × Pt)) := do
  let (dim, center) ← dimAndCenter dim center
  let L ← make verts start (some dim) none none
  if (dimOf L.array : Int) ≠ dim then .error .value
  else
    let f := fun rows => cost nodes.length dim.toNat norm (distances nodes dist given) (entries rows)
    let L ← L.setArray (minimise f L.array)
    let L ← L.setCenter center
    let L ← match scale with
      | some s => L.setScale s
      | none => .ok L
    .ok L.dict

end Lay
end MM
