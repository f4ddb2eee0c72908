import Verif.Spec.Eden

/-! Chimera graphs with linear labels, missing couplers inside of cells, and subgraphs without them (`polynomialembedder.py`, class `processor`). -/

namespace MM
namespace Spec
namespace Eden

/-- A qubit of the Chimera graph with `M` columns and `N` rows of cells with `L` qubits in each side. -/
def Grid (M N L : Nat) (q : Qb) : Prop := (0 ≤ q.x ∧ q.x < M) ∧ (0 ≤ q.y ∧ q.y < N) ∧ (q.u = 0 ∨ q.u = 1) ∧ 0 ≤ q.k ∧ q.k < L

/-- Couplers of Chimera graphs: in a cell between the two sides, and between neighbouring cells along lines. -/
def Adjacent (p q : Qb) : Prop :=
  (p.x = q.x ∧ p.y = q.y ∧ p.u ≠ q.u) ∨
  (p.u = 0 ∧ q.u = 0 ∧ p.k = q.k ∧ p.y = q.y ∧ (q.x = p.x + 1 ∨ p.x = q.x + 1)) ∨
  (p.u = 1 ∧ q.u = 1 ∧ p.k = q.k ∧ p.x = q.x ∧ (q.y = p.y + 1 ∨ p.y = q.y + 1))

/-- The couplers that are left without some qubits. -/
def without (E : List (Qb × Qb)) (d : List Qb) : List (Qb × Qb) := E.filter fun e => decide (e.1 ∉ d ∧ e.2 ∉ d)

/-- The set has a qubit of every missing coupler between working qubits of the same cell. -/
def Covers (E : List (Qb × Qb)) (d : List Qb) : Prop :=
  ∀ x y k l, Works E ⟨x, y, 0, k⟩ → Works E ⟨x, y, 1, l⟩ → Joined E ⟨x, y, 0, k⟩ ⟨x, y, 1, l⟩ ∨ ⟨x, y, 0, k⟩ ∈ d ∨ ⟨x, y, 1, l⟩ ∈ d

/-- The list has every missing coupler between working qubits of the same cell. -/
def Missing (E ms : List (Qb × Qb)) : Prop :=
  ∀ x y k l, Works E ⟨x, y, 0, k⟩ → Works E ⟨x, y, 1, l⟩ → ¬ Joined E ⟨x, y, 0, k⟩ ⟨x, y, 1, l⟩ → (⟨x, y, 0, k⟩, ⟨x, y, 1, l⟩) ∈ ms

/-- No proper subset is one. -/
def MinimalCover (E : List (Qb × Qb)) (d : List Qb) : Prop := Covers E d ∧ ∀ d', Covers E d' → d' ⊆ d → d ⊆ d'

end Eden
end Spec
end MM
