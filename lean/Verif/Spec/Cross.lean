import Verif.Spec.Lattice
import Mathlib.Data.Rat.Defs
import Mathlib.Algebra.Order.Ring.Unbundled.Rat

/-! Specification of the grid of crossings of a lattice: every qubit is a piece of a row or column of that grid. -/

namespace MM
namespace Spec.Cross

open Bus (Topo)
open Lattice

/-- The qubit with number `q` has the coordinates `cs` as dwave-graphs writes them: `(i, j, u, k)` in Chimera, `(u, w, k, z)` in Pegasus,
`(u, w, k, j, z)` in Zephyr graphs. -/
def IsAt : Topo → List Nat → Nat → Prop
  | .chimera m n t, [i, j, u, k], q => i < m ∧ j < n ∧ u < 2 ∧ k < t ∧ q = chimeraNum n t i j u k
  | .pegasus d _, [u, w, k, z], q => u < 2 ∧ w < d ∧ k < 12 ∧ z < d - 1 ∧ q = pegasusNum d u w k z
  | .zephyr d t, [u, w, k, j, z], q => u < 2 ∧ w < 2 * d + 1 ∧ k < t ∧ j < 2 ∧ z < d ∧ q = zephyrNum d t u w (2 * k + j) z
  | _, _, _ => False

instance (T : Topo) (cs : List Nat) (q : Nat) : Decidable (IsAt T cs q) := by unfold IsAt; split <;> infer_instance

/-- The orientation among coordinates. -/
def orientation : Topo → List Nat → Option Nat
  | .chimera _ _ _, cs => cs[2]?
  | _, cs => cs[0]?

/-- The qubit with coordinates `cs` passes the grid point in column `x` and row `y`. A Chimera cell has as many rows and columns
as its shores have qubits; Pegasus qubits span twelve points from twice their half offset on; Zephyr qubits span two tiles, and
those of orientation 0 are rows. -/
def Passes : Topo → List Nat → Nat → Nat → Prop
  | .chimera _ _ t, [i, j, u, k], x, y =>
    u = 0 ∧ x = j * t + k ∧ i * t ≤ y ∧ y < (i + 1) * t ∨ u = 1 ∧ y = i * t + k ∧ j * t ≤ x ∧ x < (j + 1) * t
  | .pegasus _ off, [u, w, k, z], x, y =>
    u = 0 ∧ x = 12 * w + k ∧ 12 * z + 2 * off false (k / 2) ≤ y ∧ y < 12 * z + 2 * off false (k / 2) + 12 ∨
    u = 1 ∧ y = 12 * w + k ∧ 12 * z + 2 * off true (k / 2) ≤ x ∧ x < 12 * z + 2 * off true (k / 2) + 12
  | .zephyr _ t, [u, w, k, j, z], x, y =>
    u = 0 ∧ y = 2 * t * w + (2 * k + j) ∧ 2 * t * (2 * z + j) ≤ x ∧ x < 2 * t * (2 * z + j + 2) ∨
    u = 1 ∧ x = 2 * t * w + (2 * k + j) ∧ 2 * t * (2 * z + j) ≤ y ∧ y < 2 * t * (2 * z + j + 2)
  | _, _, _, _ => False

/-- The integer nearest to `x`, either of them half way. -/
def Nearest (x : Rat) (n : Nat) : Prop := x - 1 / 2 ≤ n ∧ (n : Rat) ≤ x + 1 / 2

end Spec.Cross
end MM
