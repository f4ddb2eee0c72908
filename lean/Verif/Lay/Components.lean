import Verif.Lay.Layout
import Verif.Pack.Pack

/-! Model of `_pack_components` and the end of `_rotate_to_minimize_area` (minorminer/layout/layout.py 693-778). Parameters are the layout function, the rotation
(convex hull, angles and the choice of the best), the components in the order and with the order of nodes in which networkx gives them, and `qsort`. -/

namespace MM
namespace Lay

variable {V : Type} [DecidableEq V]

/-- Unpacking of a point into two numbers. -/
def unpack2 : Pt → Except Err (Rat × Rat)
  | [x, y] => .ok (x, y)
  | _ => .error .value

/-- The rotated points around the middle of their box, and the dimensions of the box (layout.py 719-723). -/
def frame : List (Rat × Rat) → Except Err (List (Rat × Rat) × Rat × Rat)
  | [] => .error .value
  | p :: ps =>
    let x0 := (ps.map Prod.fst).foldl min p.1
    let y0 := (ps.map Prod.snd).foldl min p.2
    let x1 := (ps.map Prod.fst).foldl max p.1
    let y1 := (ps.map Prod.snd).foldl max p.2
    .ok ((p :: ps).map (fun q => (q.1 - (x1 + x0) / 2, q.2 - (y1 + y0) / 2)), x1 - x0, y1 - y0)

/-- `int(ceil(z)+.001)` (layout.py 758), where `z` is not negative. -/
def side (z : Rat) : Int := Rat.floor ((Rat.ceil z : Rat) + 1 / 1000)

/-- The layout of one component and its rectangle (layout.py 750-764). -/
def component (layout : List V → Except Err (List (V × Pt))) (rotate : List Pt → Except Err (List Pt)) :
    List V → Except Err (List (V × Rat × Rat) × Int × Int)
  | [] => .ok ([], 1, 1)
  | [v] => .ok ([(v, 0, 0)], 1, 1)
  | [u, v] => .ok ([(u, -1/2, 0), (v, 1/2, 0)], 2, 1)
  | c => do
    let cpos ← layout c
    let pts ← rotate (cpos.map Prod.snd)
    let ps ← pts.mapM unpack2
    let (rpos, w, h) ← frame ps
    .ok ((cpos.map Prod.fst).zip rpos, side w, side h)

/-- `d[v] = p` for a dict given by its items. -/
def setItem (d : List (V × Pt)) (e : V × Pt) : List (V × Pt) :=
  if e.1 ∈ d.map Prod.fst then d.map fun x => if x.1 = e.1 then e else x else d ++ [e]

/-- The points of a component in its place (layout.py 769-773). -/
def moveTo (pos : Int × Int) (comp : List (V × Rat × Rat) × Int × Int) : List (V × Pt) :=
  comp.1.map fun e => (e.1, [e.2.1 + pos.1 + (comp.2.1 : Rat) / 2, e.2.2 + pos.2 + (comp.2.2 : Rat) / 2])

/-- What an exception of the packer is here. -/
def ofPack : Pack.Err → Err
  | .value => .value
  | .index => .index
  | .zeroDivision => .zeroDivision
  | .impossible _ => .packing
  | .ub => .ub
  | .assert => .ub
  | .hang => .ub

/-- The positions of the rectangles. -/
def packRects (q : Pack.Qsort) (sizes : List (Int × Int)) : Except Err (List (Int × Int)) :=
  match Pack.pack false q sizes none none with
  | .ok pos => .ok pos
  | .error e => .error (ofPack e)

/-- The layout of all components, before it is scaled (layout.py 740-773). -/
def packed (q : Pack.Qsort) (layout : List V → Except Err (List (V × Pt))) (rotate : List Pt → Except Err (List Pt)) (comps : List (List V)) :
    Except Err (List (V × Pt)) := do
  let parts ← comps.mapM (component layout rotate)
  let pos ← packRects q (parts.map Prod.snd)
  .ok ((List.zipWith moveTo pos parts).flatten.foldl setItem [])

/-- `_pack_components` (layout.py 725-778); `whole` is what the layout function returns for the graph as it is, `verts` are the nodes in the order of the graph. -/
def packComponents (q : Pack.Qsort) (layout : List V → Except Err (List (V × Pt))) (rotate : List Pt → Except Err (List Pt)) (whole : Except Err (List (V × Pt)))
    (verts : List V) (comps : List (List V)) (dim : Option Int) (scale : Option Rat) : Except Err (List (V × Pt)) :=
  if dim.elim false (fun d => d ≠ 2) then whole
  else do
    let d ← packed q layout rotate comps
    match scale with
    | none => .ok d
    | some s => do
      let rows ← verts.mapM (item d)
      if rows = [] then .error .value
      else .ok (verts.zip (← scaleLayout rows s (scaleOf rows) (centerOf rows)))

end Lay
end MM
