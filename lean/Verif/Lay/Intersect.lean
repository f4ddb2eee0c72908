import Verif.Lay.Layout

/-! Model of `intersection` (minorminer/layout/placement.py 25-267). The functions of dwave-graphs that give the coordinates of a
node (placement.py 163-203) are a parameter. -/

namespace MM
namespace Lay

/-- What is read of `T.graph` for the three families: rows, columns and tile, and the offsets of Pegasus graphs. -/
inductive Fam where
  | chimera (rows columns tile : Nat)
  | pegasus (rows columns tile : Nat) (vertical horizontal : List Nat)
  | zephyr (rows columns tile : Nat)
deriving DecidableEq, Repr

/-- `m, n, t` (placement.py 106-110). -/
def Fam.dims : Fam → Nat × Nat × Nat
  | .chimera m n t => (m, n, t)
  | .pegasus m n t _ _ => (m, n, t)
  | .zephyr m n t => (2 * m + 1, 2 * n + 1, 2 * t)

/-- `_chimera_all_intersection_points` (placement.py 217-233): the points to which the vertex is added, column first. -/
def chimeraPoints (t i j u k : Nat) : List (Nat × Nat) :=
  if u = 1 then (List.range t).map fun kk => (j * t + kk, i * t + k)
  else if u = 0 then (List.range t).map fun kk => (j * t + k, i * t + kk)
  else []

/-- `_pegasus_all_intersection_points` (placement.py 235-251). -/
def pegasusPoints (vertical horizontal : List Nat) (u w k z : Nat) : Except Err (List (Nat × Nat)) :=
  if u = 1 then
    match horizontal[k]? with
    | some o => .ok ((List.range 12).map fun kk => (12 * z + o + kk, 12 * w + k))
    | none => .error .index
  else if u = 0 then
    match vertical[k]? with
    | some o => .ok ((List.range 12).map fun kk => (12 * w + k, 12 * z + o + kk))
    | none => .error .index
  else .ok []

/-- `_zephyr_all_intersection_points` (placement.py 253-267). -/
def zephyrPoints (t u w k j z : Nat) : List (Nat × Nat) :=
  if u = 0 then (List.range (4 * t)).map fun kk => ((4 * z + 2 * j) * t + kk, 2 * (t * w + k) + j)
  else if u = 1 then (List.range (4 * t)).map fun kk => (2 * (t * w + k) + j, (4 * z + 2 * j) * t + kk)
  else []

/-- The points of a vertex with the given coordinates (placement.py 205-213). -/
def Fam.points : Fam → List Nat → Except Err (List (Nat × Nat))
  | .chimera _ _ t, [i, j, u, k] => .ok (chimeraPoints t i j u k)
  | .pegasus _ _ _ vo ho, [u, w, k, z] => pegasusPoints vo ho u w k z
  | .zephyr _ _ t, [u, w, k, j, z] => .ok (zephyrPoints t u w k j z)
  | _, _ => .error .type

/-- `(x, y)` is a node of `nx.grid_2d_graph(t*n, t*m)` (placement.py 114). -/
def Fam.inGrid (F : Fam) (x y : Int) : Bool :=
  decide (0 ≤ x ∧ x < F.dims.2.2 * F.dims.2.1 ∧ 0 ≤ y ∧ y < F.dims.2.2 * F.dims.1)

/-- `scale` (placement.py 117). -/
def Fam.scale (F : Fam) : Rat := (((F.dims.2.2 * min F.dims.2.1 F.dims.1 : Nat) : Rat) - 1) / 2

/-- `np.round`: to the nearest integer, and to the even one of two. -/
def round (x : Rat) : Int :=
  if x - x.floor < 1 / 2 then x.floor
  else if 1 / 2 < x - x.floor then x.floor + 1
  else if x.floor % 2 = 0 then x.floor else x.floor + 1

variable {V Q : Type} [DecidableEq V] [DecidableEq Q]

/-- The vertices of T with their grid points; a point outside the grid is a `KeyError` (placement.py 120-129). -/
def lineUp (F : Fam) (coords : Q → List Nat) (nodes : List Q) : Except Err (List (Q × List (Nat × Nat))) :=
  nodes.mapM fun q => do
    let ps ← F.points (coords q)
    if ps.all (fun p => F.inGrid p.1 p.2) then .ok (q, ps) else .error .key

/-- The attribute `qubits` of a grid point. -/
def qubitsAt (lines : List (Q × List (Nat × Nat))) (x y : Int) : List Q :=
  (lines.filter fun l => l.2.any fun p => decide ((p.1 : Int) = x ∧ (p.2 : Int) = y)).map Prod.fst

/-- The grid point of a position, if there is one, and its qubits (placement.py 143-145). -/
def place (F : Fam) (lines : List (Q × List (Nat × Nat))) (p : Pt) : Except Err (List Q) :=
  match p.map round with
  | [x, y] => if F.inGrid x y then .ok (qubitsAt lines x y) else .error .key
  | _ => .error .key

/-- The layout fitted into the grid (placement.py 131-140). -/
def fit (F : Fam) (S : Layout V) : Except Err (Layout V) := do
  let zoom := scaleOf S.array * F.dims.2.2
  let S ← S.setScale (if zoom < F.scale then zoom else F.scale)
  S.setCenter [F.scale, F.scale]

/-- `intersection` (placement.py 25-86), `none` for T without a supported family. The result is a dict; its order is that of
`S_layout` here, not that of the grid. -/
def intersection (F : Option Fam) (coords : Q → List Nat) (nodes : List Q) (S : Layout V) : Except Err (List (V × List Q)) :=
  match F with
  | none => .error .notImplemented
  | some F => do
    let lines ← lineUp F coords nodes
    let S ← fit F S
    S.dict.mapM fun (v, p) => do .ok (v, ← place F lines p)

end Lay
end MM
