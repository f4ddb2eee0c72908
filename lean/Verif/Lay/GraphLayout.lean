import Verif.Lay.PNorm

/-! Model of `graph_layout` (minorminer/layout/layout.py 241-359). The drawings `dwave.graphs.*_layout` are a parameter. -/

namespace MM
namespace Lay

variable {V : Type} [DecidableEq V]

/-- `_nx_to_graph_layout` (layout.py 344-359). -/
def topLeft (center : Pt) (scale : Rat) : Except Err (Pt × Rat) :=
  match center with
  | x :: y :: rest => .ok ((x - scale) :: (y + scale) :: rest, 2 * scale)
  | _ => .error .index

/-- `(dnx_layout[v]-dnx_center)[:2]` (layout.py 315). -/
def firstTwo (corner p : Pt) : Except Err (Rat × Rat) :=
  match p, corner with
  | x :: y :: _, a :: b :: _ => .ok (x - a, y - b)
  | _, _ => .error .value

/-- `np.min` and `np.max` of a column (layout.py 316-317). -/
def bounds : List Rat → Except Err (Rat × Rat)
  | [] => .error .value
  | x :: xs => .ok (xs.foldl min x, xs.foldl max x)

/-- The array scaled to the box (layout.py 319-324). Divisors that are zero make `nan`. -/
def fitBox (corner : Pt) (size : Rat) (x y : Rat × Rat) (arr : List (Rat × Rat)) : Except Err (List Pt) :=
  match corner with
  | a :: b :: rest =>
    if x.2 - x.1 = 0 ∨ y.2 - y.1 = 0 then .error .nan
    else .ok (arr.map fun p => ((p.1 - x.1) * (size / (x.2 - x.1)) + a) :: ((p.2 - y.2) * (size / (y.2 - y.1)) + b) :: rest)
  | _ => .error .value

/-- The scale (layout.py 296-298): by default half the larger number of rows and columns. -/
def defaultScale (rows columns : Nat) : Option Rat → Rat
  | some s => s
  | none => (max columns rows : Nat) / 2

/-- `graph_layout` (layout.py 286-327). `known` says whether the graph is one of the three families, `rows` and `columns` are attributes of the graph, `draw` is the
drawing for a dimension, a corner and a size. `verts` is `sorted(G)`, `nodes` is `list(G)`. -/
def graphLayout (draw : Int → Pt → Rat → V → Pt) (verts nodes : List V) (known : Bool) (rows columns : Nat) (dim : Option Int) (center : Option Pt)
    (scale : Option Rat) : Except Err (List (V × Pt)) :=
  if known = false then .error .value
  else do
    let (dim, center) ← dimAndCenter dim center
    let (corner, size) ← topLeft center (defaultScale rows columns scale)
    let arr ← nodes.mapM fun v => firstTwo corner (draw dim corner size v)
    let x ← bounds (arr.map Prod.fst)
    let y ← bounds (arr.map Prod.snd)
    let pts ← (if x.1 ≠ 0 ∨ x.2 ≠ size ∨ y.1 ≠ -size ∨ y.2 ≠ 0 then fitBox corner size x y arr
      else .ok (nodes.map (draw dim corner size)) : Except Err (List Pt))
    let L ← make verts (nodes.zip pts) none none none
    .ok L.dict

end Lay
end MM
