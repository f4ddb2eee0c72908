import Verif.Bus.Topo

/-! The three lattices as D-Wave defines them, by coordinates; nothing here refers to the code of
the clique search but for the type of topologies. -/

namespace MM
namespace Lattice

open Bus (Topo)

/-- Number of a Chimera qubit: row, column, shore, number in the shore. -/
def chimeraNum (n t : Nat) (y x u k : Nat) : Nat := ((y * n + x) * 2 + u) * t + k

/-- Couplers of `chimera_graph(m, n, t)`, from the smaller to the larger qubit. -/
inductive ChimeraCoupled (m n t : Nat) : Nat → Nat → Prop
  | cell {y x k k' : Nat} : y < m → x < n → k < t → k' < t →
      ChimeraCoupled m n t (chimeraNum n t y x 0 k) (chimeraNum n t y x 1 k')
  | vertical {y x k : Nat} : y + 1 < m → x < n → k < t →
      ChimeraCoupled m n t (chimeraNum n t y x 0 k) (chimeraNum n t (y + 1) x 0 k)
  | horizontal {y x k : Nat} : y < m → x + 1 < n → k < t →
      ChimeraCoupled m n t (chimeraNum n t y x 1 k) (chimeraNum n t y (x + 1) 1 k)

/-- Number of a Pegasus qubit `(u, w, k, z)` of `pegasus_graph(d)`. -/
def pegasusNum (d : Nat) (u w k z : Nat) : Nat := ((u * d + w) * 12 + k) * (d - 1) + z

/-- Couplers of `pegasus_graph(d)`. A qubit of orientation 0 lies in column `6 w + k / 2` of the grid of cells and spans the six rows from
`6 z + off` on; one of orientation 1 has rows and columns swapped. Qubits that cross are coupled, and neighbours in a line, and the
two halves of a pair (`k = 2 j`, `2 j + 1`). `off` is half the offset of the graph. -/
inductive PegasusCoupled (d : Nat) (off : Bool → Nat → Nat) : Nat → Nat → Prop
  | cross {w k z w' k' z' : Nat} : w < d → k < 12 → z < d - 1 → w' < d → k' < 12 → z' < d - 1 →
      6 * z + off false (k / 2) ≤ 6 * w' + k' / 2 → 6 * w' + k' / 2 < 6 * z + off false (k / 2) + 6 →
      6 * z' + off true (k' / 2) ≤ 6 * w + k / 2 → 6 * w + k / 2 < 6 * z' + off true (k' / 2) + 6 →
      PegasusCoupled d off (pegasusNum d 0 w k z) (pegasusNum d 1 w' k' z')
  | external {u w k z : Nat} : u < 2 → w < d → k < 12 → z + 1 < d - 1 →
      PegasusCoupled d off (pegasusNum d u w k z) (pegasusNum d u w k (z + 1))
  | odd {u w j z : Nat} : u < 2 → w < d → j < 6 → z < d - 1 →
      PegasusCoupled d off (pegasusNum d u w (2 * j) z) (pegasusNum d u w (2 * j + 1) z)

/-- Number of a Zephyr qubit `(u, w, k, z)` of `zephyr_graph(d, t)`, where `k` stands for `2 k + j`
of D-Wave's coordinates `(u, w, k, j, z)`. -/
def zephyrNum (d t : Nat) (u w k z : Nat) : Nat := ((u * (2 * d + 1) + w) * (2 * t) + k) * d + z

/-- Couplers of `zephyr_graph(d, t)`. A qubit of orientation 0 lies in column `w` and spans the rows `2 z + j` and
`2 z + j + 1` where `j = k % 2`; one of orientation 1 has rows and columns swapped. -/
inductive ZephyrCoupled (d t : Nat) : Nat → Nat → Prop
  | cross {w k z w' k' z' : Nat} : w < 2 * d + 1 → k < 2 * t → z < d → w' < 2 * d + 1 → k' < 2 * t → z' < d →
      2 * z + k % 2 ≤ w' → w' < 2 * z + k % 2 + 2 → 2 * z' + k' % 2 ≤ w → w < 2 * z' + k' % 2 + 2 →
      ZephyrCoupled d t (zephyrNum d t 0 w k z) (zephyrNum d t 1 w' k' z')
  | external {u w k z : Nat} : u < 2 → w < 2 * d + 1 → k < 2 * t → z + 1 < d →
      ZephyrCoupled d t (zephyrNum d t u w k z) (zephyrNum d t u w k (z + 1))
  | odd {u w j z : Nat} : u < 2 → w < 2 * d + 1 → j < t → z < d →
      ZephyrCoupled d t (zephyrNum d t u w (2 * j) z) (zephyrNum d t u w (2 * j + 1) z)
  | odd' {u w j z : Nat} : u < 2 → w < 2 * d + 1 → j < t → z + 1 < d →
      ZephyrCoupled d t (zephyrNum d t u w (2 * j) (z + 1)) (zephyrNum d t u w (2 * j + 1) z)

/-- Qubit numbers of the full lattice. -/
def IsQubit : Topo → Nat → Prop
  | .chimera m n t, q => q < 2 * t * m * n
  | .pegasus d _, q => q < 24 * d * (d - 1)
  | .zephyr d t, q => q < 4 * t * d * (2 * d + 1)

/-- Couplers of the full lattice. -/
def Coupled : Topo → Nat → Nat → Prop
  | .chimera m n t => ChimeraCoupled m n t
  | .pegasus d off => PegasusCoupled d off
  | .zephyr d t => ZephyrCoupled d t

/-- Odd couplers, which join two parallel qubits of the same bundle. -/
def OddCoupled : Topo → Nat → Nat → Prop
  | .chimera _ _ _, _, _ => False
  | .pegasus d _, p, q => ∃ u w j z, u < 2 ∧ w < d ∧ j < 6 ∧ z < d - 1 ∧ p = pegasusNum d u w (2 * j) z ∧ q = pegasusNum d u w (2 * j + 1) z
  | .zephyr d t, p, q => ∃ u w j z z', u < 2 ∧ w < 2 * d + 1 ∧ j < t ∧ z < d ∧ z' < d ∧ (z' = z ∨ z = z' + 1) ∧
      p = zephyrNum d t u w (2 * j) z ∧ q = zephyrNum d t u w (2 * j + 1) z'

/-- What the clique search supports: shores of at most 8 lines (busclique.pyx 819, 1050: a tile of at most 8 for Chimera, of at
most 4 for Zephyr), and offsets of Pegasus graphs below 12, which is 6 when halved. -/
def Supported : Topo → Prop
  | .chimera _ _ t => t ≤ 8
  | .pegasus _ off => ∀ u i, off u i < 6
  | .zephyr _ t => t ≤ 4

/-- A graph of that family: some of the qubits, and some of the couplers between these, each in any direction. -/
structure WFGraph (T : Topo) (nodes : List Nat) (edges : List (Nat × Nat)) : Prop where
  supported : Supported T
  qubits : ∀ q ∈ nodes, IsQubit T q
  ends : ∀ e ∈ edges, e.1 ∈ nodes ∧ e.2 ∈ nodes
  coupled : ∀ e ∈ edges, Coupled T e.1 e.2 ∨ Coupled T e.2 e.1

end Lattice
end MM
