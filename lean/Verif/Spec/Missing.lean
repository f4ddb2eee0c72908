import Verif.Spec.Lattice
import Verif.Spec.Clique

/-! Missing internal couplers of a graph. -/

namespace MM
namespace Lattice

open Bus (Topo)
open Spec (Coupler)

/-- Internal couplers of the full lattice: those of a vertical and a horizontal qubit. -/
def Internal : Topo → Nat → Nat → Prop
  | .chimera m n t, p, q => ChimeraCoupled m n t p q ∧ ∃ y x k y' x' k', y < m ∧ x < n ∧ k < t ∧ y' < m ∧ x' < n ∧ k' < t ∧ p = chimeraNum n t y x 0 k ∧ q = chimeraNum n t y' x' 1 k'
  | .pegasus d off, p, q => PegasusCoupled d off p q ∧ ∃ w k z w' k' z', w < d ∧ k < 12 ∧ z < d - 1 ∧ w' < d ∧ k' < 12 ∧ z' < d - 1 ∧ p = pegasusNum d 0 w k z ∧ q = pegasusNum d 1 w' k' z'
  | .zephyr d t, p, q => ZephyrCoupled d t p q ∧ ∃ w k z w' k' z', w < 2 * d + 1 ∧ k < 2 * t ∧ z < d ∧ w' < 2 * d + 1 ∧ k' < 2 * t ∧ z' < d ∧ p = zephyrNum d t 0 w k z ∧ q = zephyrNum d t 1 w' k' z'

/-- At most `n` internal couplers between qubits of the graph are missing. -/
def FewMissing (T : Topo) (nodes : List Nat) (edges : List (Nat × Nat)) (n : Nat) : Prop :=
  ∃ ms : List (Nat × Nat), ms.length ≤ n ∧ ∀ p ∈ nodes, ∀ q ∈ nodes, Internal T p q → Coupler edges p q ∨ (p, q) ∈ ms

end Lattice
end MM
