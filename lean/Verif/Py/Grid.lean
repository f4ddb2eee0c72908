import Verif.Py.Lattice
import Verif.Py.Diag

/-! Model of `find_grid_embedding` (minorminer/utils/chimera.py 183-245). -/

namespace MM
namespace Py

/-- `chimera_coordinates(m, n, t).chimera_to_linear` of dwave-graphs (external). -/
def linear (n t : Nat) (q : Nat × Nat × Nat × Nat) : Nat := ((n * q.1 + q.2.1) * 2 + q.2.2.1) * t + q.2.2.2

/-- `_get_target_graph(m, n, t, None, _dont_construct)` (chimera.py 248-279) for int arguments; an argument not above zero
raises. -/
def latticeArgs (m : Int) (n t : Option Int) : Except PErr (Nat × Nat × Nat) :=
  if m ≤ 0 then .error .value
  else
    let n := n.elim m id
    if n ≤ 0 then .error .value
    else
      let t := t.elim 4 id
      if t ≤ 0 then .error .value else .ok (m.toNat, n.toNat, t.toNat)

/-- `find_grid_embedding` (chimera.py 221-245). Keys are lists of coordinates, for one dimension with one entry; in
Python that key is the bare number. Dimensions are natural numbers. -/
def gridEmbedding (dim : List Nat) (m : Int) (n t : Option Int) : Except PErr (List (List Nat × List Nat)) :=
  match latticeArgs m n t with
  | .error e => .error e
  | .ok (m, n, t) =>
    let build (key : Nat → Nat → Nat → List Nat) (rows cols aisles : Nat) : Except PErr (List (List Nat × List Nat)) :=
      if rows > m ∨ cols > n ∨ aisles > t then .error .value
      else .ok ((List.range rows).flatMap fun row => (List.range cols).flatMap fun col => (List.range aisles).map fun aisle =>
        (key row col aisle, [linear n t (row, col, 0, aisle), linear n t (row, col, 1, aisle)]))
    match dim with
    | [rows] => build (fun row _ _ => [row]) rows 1 1
    | [rows, cols] => build (fun row col _ => [row, col]) rows cols 1
    | [rows, cols, aisles] => build (fun row col aisle => [row, col, aisle]) rows cols aisles
    | _ => .error .value

end Py

namespace Spec.Py

open MM.Py

/-- The nodes of a grid: all lists of coordinates. -/
def gridNodes : List Nat → List (List Nat)
  | [] => [[]]
  | d :: ds => (List.range d).flatMap fun i => (gridNodes ds).map fun x => i :: x

/-- The edges of a grid: from every node to the next one along each axis. -/
def gridEdges : List Nat → List (List Nat × List Nat)
  | [] => []
  | d :: ds => ((List.range (d - 1)).flatMap fun i => (gridNodes ds).map fun x => (i :: x, (i + 1) :: x)) ++
      (List.range d).flatMap fun i => (gridEdges ds).map fun e => (i :: e.1, i :: e.2)

/-- The grid graph. -/
def gridGraph (dim : List Nat) : Graph (List Nat) := ⟨gridNodes dim, gridEdges dim⟩

/-- The Chimera graph with nodes numbered. -/
def chimeraLinear (m n t : Nat) : Graph Nat where
  nodes := (chimeraGraph m n t).nodes.map (linear n t)
  edges := (chimeraGraph m n t).edges.map fun e => (linear n t e.1, linear n t e.2)

end Spec.Py
end MM
