import Verif.Spec.Lattice

/-! The names of qubits in graphs with coordinate labels, as D-Wave defines them. -/

namespace MM
namespace Lattice

open Bus (Topo)

/-- A label of a node: a number, or a tuple of numbers. -/
inductive Label where
  | int (n : Nat)
  | tuple (l : List Int)
  deriving DecidableEq, Repr

/-- The value of `g.graph['labels']`. -/
inductive Labels where
  | int
  | coordinate
  | nice
  | other
  deriving DecidableEq, Repr

/-- The coordinates `l` belong to the qubit with number `q`: `(y, x, u, k)` for Chimera, `(u, w, k, z)` for Pegasus, `(u, w, k, j, z)` for Zephyr. -/
def Coordinates : Topo → List Int → Nat → Prop
  | .chimera m n t, l, q => ∃ y x u k : Nat, y < m ∧ x < n ∧ u < 2 ∧ k < t ∧ l = [(y : Int), (x : Int), (u : Int), (k : Int)] ∧ q = chimeraNum n t y x u k
  | .pegasus d _, l, q => ∃ u w k z : Nat, u < 2 ∧ w < d ∧ k < 12 ∧ z < d - 1 ∧ l = [(u : Int), (w : Int), (k : Int), (z : Int)] ∧ q = pegasusNum d u w k z
  | .zephyr d t, l, q => ∃ u w k j z : Nat, u < 2 ∧ w < 2 * d + 1 ∧ k < t ∧ j < 2 ∧ z < d ∧ l = [(u : Int), (w : Int), (k : Int), (j : Int), (z : Int)] ∧ q = zephyrNum d t u w (2 * k + j) z

/-- The label belongs to the qubit with number `q`, in a graph with labels of the given kind; `nice` is the naming by nice coordinates of Pegasus graphs. -/
def Named (T : Topo) (nice : List Int → Nat → Prop) : Labels → Label → Nat → Prop
  | .int, .int n, q => n = q
  | .coordinate, .tuple l, q => Coordinates T l q
  | .nice, .tuple l, q => nice l q
  | _, _, _ => False

/-- A graph of the family whose nodes have names of the given kind: some of the qubits, and some of the couplers between these. -/
structure LabelledGraph (T : Topo) (named : Label → Nat → Prop) (nodes : List Label) (edges : List (Label × Label)) : Prop where
  supported : Supported T
  qubits : ∀ x ∈ nodes, ∃ q, named x q ∧ IsQubit T q
  ends : ∀ e ∈ edges, e.1 ∈ nodes ∧ e.2 ∈ nodes
  coupled : ∀ e ∈ edges, ∃ p q, named e.1 p ∧ named e.2 q ∧ (Coupled T p q ∨ Coupled T q p)

end Lattice
end MM
