import Verif.Spec.Lattice
import Verif.Spec.Clique

/-! How the qubits of the three lattices are cut into pieces that are nodes of a Chimera lattice; nothing here refers to the code
but for the type of topologies. -/

namespace MM
namespace Lattice

open Bus (Topo)

/-- Node `a` of the Chimera lattice is a piece of qubit `q`. A Chimera qubit is its own only piece. A Pegasus qubit has six pieces in a row, two
to each shore of a cell, a Zephyr qubit has two; they lie where the qubit crosses others. -/
inductive Fragment : Topo → Nat → Nat → Prop
  | chimera {m n t q : Nat} : q < 2 * t * m * n → Fragment (.chimera m n t) q q
  | pegasusColumn {d : Nat} {off : Bool → Nat → Nat} {w k z i : Nat} : w < d → k < 12 → z < d - 1 → i < 6 →
      Fragment (.pegasus d off) (pegasusNum d 0 w k z) (chimeraNum (6 * d) 2 (6 * z + off false (k / 2) + i) (6 * w + k / 2) 0 (k % 2))
  | pegasusRow {d : Nat} {off : Bool → Nat → Nat} {w k z i : Nat} : w < d → k < 12 → z < d - 1 → i < 6 →
      Fragment (.pegasus d off) (pegasusNum d 1 w k z) (chimeraNum (6 * d) 2 (6 * w + k / 2) (6 * z + off true (k / 2) + i) 1 (k % 2))
  | zephyrColumn {d t w k z i : Nat} : w < 2 * d + 1 → k < 2 * t → z < d → i < 2 →
      Fragment (.zephyr d t) (zephyrNum d t 0 w k z) (chimeraNum (2 * d + 1) (2 * t) (2 * z + k % 2 + i) w 0 k)
  | zephyrRow {d t w k z i : Nat} : w < 2 * d + 1 → k < 2 * t → z < d → i < 2 →
      Fragment (.zephyr d t) (zephyrNum d t 1 w k z) (chimeraNum (2 * d + 1) (2 * t) w (2 * z + k % 2 + i) 1 k)

/-- The couplers of a graph apart from odd ones. -/
structure Straight (T : Topo) (edges straight : List (Nat × Nat)) : Prop where
  iff : ∀ p q, (p, q) ∈ straight ↔ (p, q) ∈ edges ∧ ¬OddCoupled T p q ∧ ¬OddCoupled T q p

end Lattice
end MM
