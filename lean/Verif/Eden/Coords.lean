import Mathlib.Tactic.Ring
import Mathlib.Tactic.Linarith
import Verif.Eden.Wrap

/-! Linear labels and coordinates of Chimera graphs. -/

namespace MM
namespace Eden

open Spec.Eden (Qb Grid Adjacent)

theorem toChimera_ok {N L : Nat} (hN : 0 < N) (hL : 0 < L) (a : Int) : ∃ q, toChimera N L a = .ok q ∧ toLinear N L q = a ∧ q.x = a / L / 2 / N ∧ q.y = a / L / 2 % N ∧ q.u = a / L % 2 ∧ q.k = a % L := by
  have e : a / N / L / 2 = a / L / 2 / N := by
    rw [Int.ediv_ediv_of_nonneg (by omega), Int.ediv_ediv_of_nonneg (by positivity), Int.ediv_ediv_of_nonneg (by omega), Int.ediv_ediv_of_nonneg (by positivity)]
    congr 1
    ring
  refine ⟨_, by rw [toChimera, if_neg (by omega)], ?_, e, rfl, rfl, rfl⟩
  simp only [toLinear]
  rw [e]
  have h1 := Int.mul_ediv_add_emod a L
  have h2 := Int.mul_ediv_add_emod (a / L) 2
  have h3 := Int.mul_ediv_add_emod (a / L / 2) N
  calc 2 * (L : Int) * N * (a / L / 2 / N) + 2 * L * (a / L / 2 % N) + L * (a / L % 2) + a % L
      = L * (2 * (N * (a / L / 2 / N) + a / L / 2 % N) + a / L % 2) + a % L := by ring
    _ = a := by rw [h3, h2, h1]

theorem toChimera_toLinear {M N L : Nat} {q : Qb} (h : Grid M N L q) : toChimera N L (toLinear N L q) = .ok q := by
  obtain ⟨⟨x1, x2⟩, ⟨y1, y2⟩, u, k1, k2⟩ := h
  have hN : (0 : Int) < N := by omega
  have hL : (0 : Int) < L := by omega
  obtain ⟨q', h1, -, ex, ey, eu, ek⟩ := toChimera_ok (N := N) (L := L) (by omega) (by omega) (toLinear N L q)
  obtain ⟨a1, a2⟩ := (Int.ediv_emod_unique (a := toLinear N L q) (r := q.k) (q := 2 * (N * q.x + q.y) + q.u) hL).mpr ⟨by unfold toLinear; ring, k1, k2⟩
  obtain ⟨b1, b2⟩ := (Int.ediv_emod_unique (a := 2 * (N * q.x + q.y) + q.u) (r := q.u) (q := N * q.x + q.y) (b := 2) (by omega)).mpr ⟨by ring, by omega, by omega⟩
  obtain ⟨c1, c2⟩ := (Int.ediv_emod_unique (a := N * q.x + q.y) (r := q.y) (q := q.x) hN).mpr ⟨by ring, y1, y2⟩
  rw [a1, b1, c1] at ex
  rw [a1, b1, c2] at ey
  rw [a1, b2] at eu
  rw [a2] at ek
  rw [h1]
  cases q
  cases q'
  simp only at ex ey eu ek
  rw [ex, ey, eu, ek]

/-- Labels below the number of qubits are those of the grid. -/
theorem toChimera_grid {M N L : Nat} (hN : 0 < N) (hL : 0 < L) (a : Int) {q : Qb} (h : toChimera N L a = .ok q) : Grid M N L q ↔ 0 ≤ a ∧ a < 2 * M * N * L := by
  obtain ⟨q', h1, hl, ex, ey, eu, ek⟩ := toChimera_ok hN hL a
  rw [h1] at h
  cases h
  have hN' : (0 : Int) < N := by omega
  have hL' : (0 : Int) < L := by omega
  have y := Int.emod_nonneg (a / L / 2) (b := N) (by omega)
  have y' := Int.emod_lt_of_pos (a / L / 2) hN'
  have k := Int.emod_nonneg a (b := L) (by omega)
  have k' := Int.emod_lt_of_pos a hL'
  rw [← ey] at y y'
  rw [← ek] at k k'
  have hu : q.u = 0 ∨ q.u = 1 := by rw [eu]; omega
  have hxe : q.x = a / (L * 2 * N) := by
    rw [ex, Int.ediv_ediv_of_nonneg (by omega), Int.ediv_ediv_of_nonneg (by positivity), mul_assoc]
  have hpos : (0 : Int) < L * 2 * N := by positivity
  unfold Grid
  have e1 : 0 ≤ q.x ↔ 0 ≤ a := by
    rw [hxe]
    exact Int.ediv_nonneg_iff_of_pos hpos
  have e2 : q.x < M ↔ a < 2 * M * N * L := by
    rw [hxe, Int.ediv_lt_iff_lt_mul hpos, show (M : Int) * (L * 2 * N) = 2 * M * N * L by ring]
  rw [e1, e2]
  exact ⟨fun h => h.1, fun h => ⟨h, ⟨y, y'⟩, hu, k, k'⟩⟩

theorem mem_neighbors {M N L : Nat} {p q : Qb} (hp : Grid M N L p) : q ∈ neighbors M N L p ↔ Grid M N L q ∧ Adjacent p q := by
  obtain ⟨px, py, pu, pk⟩ := p
  obtain ⟨qx, qy, qu, qk⟩ := q
  obtain ⟨⟨x1, x2⟩, ⟨y1, y2⟩, u, k1, k2⟩ := hp
  dsimp only at x1 x2 y1 y2 u k1 k2
  have first : (⟨qx, qy, qu, qk⟩ : Qb) ∈ (List.range L).map (fun (l : Nat) => (⟨px, py, 1 - pu, l⟩ : Qb)) ↔ qx = px ∧ qy = py ∧ qu = 1 - pu ∧ 0 ≤ qk ∧ qk < L := by
    simp only [List.mem_map, List.mem_range, Qb.mk.injEq]
    constructor
    · rintro ⟨l, hl, rfl, rfl, rfl, rfl⟩
      omega
    · rintro ⟨rfl, rfl, rfl, h1, h2⟩
      exact ⟨qk.toNat, by omega, rfl, rfl, rfl, by omega⟩
  unfold neighbors
  rw [List.mem_append, first]
  simp only [Grid, Adjacent]
  rcases u with rfl | rfl
  · rw [if_pos rfl, List.mem_append]
    have a : (⟨qx, qy, qu, qk⟩ : Qb) ∈ (if px ≠ 0 then [(⟨px - 1, py, 0, pk⟩ : Qb)] else []) ↔ px ≠ 0 ∧ qx = px - 1 ∧ qy = py ∧ qu = 0 ∧ qk = pk := by
      split <;> simp_all
    have b : (⟨qx, qy, qu, qk⟩ : Qb) ∈ (if px < (M : Int) - 1 then [(⟨px + 1, py, 0, pk⟩ : Qb)] else []) ↔ px < (M : Int) - 1 ∧ qx = px + 1 ∧ qy = py ∧ qu = 0 ∧ qk = pk := by
      split <;> simp_all
    rw [a, b]
    omega
  · rw [if_neg (by decide), List.mem_append]
    have a : (⟨qx, qy, qu, qk⟩ : Qb) ∈ (if py ≠ 0 then [(⟨px, py - 1, 1, pk⟩ : Qb)] else []) ↔ py ≠ 0 ∧ qx = px ∧ qy = py - 1 ∧ qu = 1 ∧ qk = pk := by
      split <;> simp_all
    have b : (⟨qx, qy, qu, qk⟩ : Qb) ∈ (if py < (N : Int) - 1 then [(⟨px, py + 1, 1, pk⟩ : Qb)] else []) ↔ py < (N : Int) - 1 ∧ qx = px ∧ qy = py + 1 ∧ qu = 1 ∧ qk = pk := by
      split <;> simp_all
    rw [a, b]
    omega

theorem neighbors_nodup (M N L : Nat) (p : Qb) : (neighbors M N L p).Nodup := by
  unfold neighbors
  refine List.nodup_append.mpr ⟨List.nodup_range.map fun a b h => by simpa using h, ?_, fun a ha b hb e => ?_⟩
  · split <;> split <;> split <;> simp
    all_goals omega
  · subst e
    obtain ⟨l, -, rfl⟩ := List.mem_map.mp ha
    split at hb <;> simp only [List.mem_append] at hb <;> rcases hb with hb | hb <;> split at hb <;> simp at hb <;> omega

end Eden
end MM
