import Mathlib.Data.Rat.Defs
import Mathlib.Algebra.Order.Ring.Unbundled.Rat
import Mathlib.Algebra.Order.Group.Unbundled.Abs

/-! Model of the class `Layout` (minorminer/layout/layout.py 362-667). Floating point numbers are exact rationals here; an
operation that makes `nan` is an outcome of its own. Points are lists of coordinates, so arrays of numbers in place of points do
not occur. -/

namespace MM
namespace Lay

/-- A point, which is a row of `layout_array`. -/
abbrev Pt := List Rat

/-- What may happen instead of a result: exceptions of Python, and `nan`, which is none: the coordinates are not numbers from then on. -/
inductive Err where
  | key
  | value
  | index
  | zeroDivision
  | unboundLocal
  | notImplemented
  | attribute
  | type
  | timeout
  | overflow
  | packing
  | ub
  | nan
deriving DecidableEq, Repr

variable {V : Type} [DecidableEq V]

/-- A `Layout` object: `sorted(self.G)`, `self._layout` in the order of its keys, and `self._layout_array`. -/
structure Layout (V : Type) where
  verts : List V
  dict : List (V × Pt)
  array : List Pt
deriving DecidableEq, Repr

/-- `d[v]` for a dict given by its items. -/
def item (d : List (V × Pt)) (v : V) : Except Err Pt :=
  match d.lookup v with
  | some p => .ok p
  | none => .error .key

/-- `_dim` (layout.py 548, 552). -/
def dimOf : List Pt → Nat
  | [] => 0
  | r :: _ => r.length

/-- `_get_center` (layout.py 786-789) and `_center` (layout.py 549, 553). -/
def centerOf : List Pt → Pt
  | [] => []
  | r :: rs => List.zipWith (fun a b => (a + b) / 2) (rs.foldl (List.zipWith min) r) (rs.foldl (List.zipWith max) r)

/-- Largest difference of a coordinate. -/
def dev (c p : Pt) : Rat := (List.zipWith (fun x y => |x - y|) p c).foldl max 0

/-- `_scale` (layout.py 550, 554-558). The code takes the maximum first over the rows and then over the columns. -/
def scaleOf (a : List Pt) : Rat := (a.map (dev (centerOf a))).foldl max 0

/-- Setting `layout` (layout.py 459-467). Rows of different lengths make no array. -/
def setLayout (verts : List V) (value : List (V × Pt)) : Except Err (Layout V) := do
  let rows ← verts.mapM (item value)
  if rows.all (fun r => r.length == dimOf rows) then .ok ⟨verts, value, rows⟩ else .error .value

/-- Setting `layout_array` (layout.py 474-480). -/
def Layout.setArray (L : Layout V) (rows : List Pt) : Except Err (Layout V) := setLayout L.verts (L.verts.zip rows)

/-- `_dimension_layout` (layout.py 561-595). -/
def dimensionLayout (a : List Pt) (new : Int) : Except Err (List Pt) :=
  if new < dimOf a then .error .value
  else .ok (a.map fun r => r ++ List.replicate (new.toNat - dimOf a) 0)

/-- `_scale_layout` (layout.py 627-667) given `center` and `old_scale`. Where the old scale is zero, the quotient is infinite and
its product with the differences, all zero, is `nan`; the scale of the empty array is an `int`, so that a Python number divided by
it raises. -/
def scaleLayout (a : List Pt) (new old : Rat) (center : Pt) : Except Err (List Pt) :=
  if old = 0 then .error (if dimOf a = 0 then .zeroDivision else .nan)
  else .ok (a.map fun r => List.zipWith (fun x c => (new / old) * (x - c) + c) r center)

/-- `_center_layout` (layout.py 598-624) given `old_center`, with the broadcasting of numpy. -/
def centerLayout (a : List Pt) (new old : Pt) : Except Err (List Pt) :=
  let moved := a.map fun r => List.zipWith (fun x c => x - c) r old
  if new.length = dimOf a then .ok (moved.map fun r => List.zipWith (· + ·) r new)
  else match new with
    | [c] => .ok (moved.map fun r => r.map (· + c))
    | _ => if dimOf a = 1 then .ok (moved.map fun r => r.flatMap fun x => new.map (x + ·)) else .error .value

/-- Setting `dim` (layout.py 487-491). -/
def Layout.setDim (L : Layout V) (d : Int) : Except Err (Layout V) :=
  if d = 0 then .ok L else do L.setArray (← dimensionLayout L.array d)

/-- Setting `center` (layout.py 498-505). -/
def Layout.setCenter (L : Layout V) (c : Pt) : Except Err (Layout V) :=
  if c = [] then .ok L else do L.setArray (← centerLayout L.array c (centerOf L.array))

/-- Setting `scale` (layout.py 512-516). -/
def Layout.setScale (L : Layout V) (s : Rat) : Except Err (Layout V) :=
  if s = 0 then .ok L else do L.setArray (← scaleLayout L.array s (scaleOf L.array) (centerOf L.array))

/-- `a or b` for a number that may be `None`. -/
def orElse {α : Type} [OfNat α 0] [DecidableEq α] (a : Option α) (b : α) : α :=
  match a with
  | some x => if x = 0 then b else x
  | none => b

/-- The centre to set (layout.py 448-451). -/
def orCenter (center : Option Pt) (own : Pt) : Pt :=
  match center with
  | some c => c
  | none => own

/-- The end of the constructor: scale and centre (layout.py 447-451). -/
def Layout.specs (L : Layout V) (center : Option Pt) (scale : Option Rat) : Except Err (Layout V) := do
  let L ← L.setScale (orElse scale (scaleOf L.array))
  L.setCenter (orCenter center (centerOf L.array))

/-- Constructor of `Layout` for a mapping (layout.py 404-451). -/
def make (verts : List V) (layout : List (V × Pt)) (dim : Option Int) (center : Option Pt) (scale : Option Rat) :
    Except Err (Layout V) := do
  let L ← setLayout verts layout
  let L ← L.setDim (orElse dim (dimOf L.array))
  L.specs center scale

end Lay
end MM
