import Verif.Bus.Kind
import Verif.Bus.BitsInv

/-! C43 (coordinates) and C44 (bit tables). -/

namespace MM

open Bus Lattice

/-- C43 for Chimera: `(y, x, u, k)` to a number and back, all numbers below the number of qubits. -/
theorem C43_chimera {m n t : Nat} :
    (∀ y x u k, y < m → x < n → k < t →
      chimeraLinear n t y x u k = chimeraNum n t y x (unum u) k ∧ chimeraLinear n t y x u k < 2 * t * m * n ∧
      linearChimera n t (chimeraLinear n t y x u k) = (y, x, u, k)) ∧
    (∀ q, q < 2 * t * m * n → ∃ y x u k, linearChimera n t q = (y, x, u, k) ∧ y < m ∧ x < n ∧ k < t ∧ chimeraLinear n t y x u k = q) := by
  have e : t * (2 * (n * m)) = 2 * t * m * n := by ring
  refine ⟨fun y x u k hy hx hk => ⟨chimeraNum_eq.symm, ?_, linearChimera_linear hx hk⟩, fun q hq => ?_⟩
  · rw [← e]; exact chimeraLinear_lt hy hx hk
  · obtain ⟨h1, h2, h3⟩ := linearChimera_bounds (dy := m) (dx := n) (t := t) (q := q) (by rw [e]; exact hq)
    exact ⟨_, _, _, _, rfl, h1, h2, h3, chimeraLinear_chimera⟩

/-- C43, different Chimera coordinates have different numbers. -/
theorem C43_chimera_distinct {n t y x k y' x' k' : Nat} {u u' : Bool} (hx : x < n) (hk : k < t) (hx' : x' < n) (hk' : k' < t)
    (hne : (y, x, u, k) ≠ (y', x', u', k')) : chimeraLinear n t y x u k ≠ chimeraLinear n t y' x' u' k' := fun h => by
  obtain ⟨rfl, rfl, rfl, rfl⟩ := chimeraLinear_inj hx hk hx' hk' h
  exact hne rfl

/-- C43 for Pegasus. -/
theorem C43_pegasus {d : Nat} :
    (∀ u w k z, w < d → k < 12 → z < d - 1 →
      pegasusLinear d u w k z = pegasusNum d (unum u) w k z ∧ pegasusLinear d u w k z < 24 * d * (d - 1) ∧
      pegasusCoordinates d (pegasusLinear d u w k z) = (u, w, k, z)) ∧
    (∀ q, q < 24 * d * (d - 1) → ∃ u w k z, pegasusCoordinates d q = (u, w, k, z) ∧ w < d ∧ k < 12 ∧ z < d - 1 ∧ pegasusLinear d u w k z = q) := by
  have e : (d - 1) * (12 * (d * 2)) = 24 * d * (d - 1) := by ring
  refine ⟨fun u w k z hw hk hz => ⟨pegasusNum_eq.symm, ?_, linearLinemajor_linear hw hk hz⟩, fun q hq => ?_⟩
  · rw [← e]; exact linemajorLinear_lt hw hk hz
  · rw [← e] at hq
    obtain ⟨h1, h2, h3⟩ := linearLinemajor_bounds hq
    exact ⟨_, _, _, _, rfl, h1, h2, h3, linemajorLinear_linemajor hq⟩

/-- C43 for Zephyr. -/
theorem C43_zephyr {d t : Nat} :
    (∀ u w k z, w < 2 * d + 1 → k < 2 * t → z < d →
      zephyrLinear d t u w k z = zephyrNum d t (unum u) w k z ∧ zephyrLinear d t u w k z < 4 * t * d * (2 * d + 1) ∧
      zephyrCoordinates d t (zephyrLinear d t u w k z) = (u, w, k, z)) ∧
    (∀ q, q < 4 * t * d * (2 * d + 1) → ∃ u w k z, zephyrCoordinates d t q = (u, w, k, z) ∧ w < 2 * d + 1 ∧ k < 2 * t ∧ z < d ∧ zephyrLinear d t u w k z = q) := by
  have e : d * (2 * t * ((2 * d + 1) * 2)) = 4 * t * d * (2 * d + 1) := by ring
  refine ⟨fun u w k z hw hk hz => ⟨zephyrNum_eq.symm, ?_, linearLinemajor_linear hw hk hz⟩, fun q hq => ?_⟩
  · rw [← e]; exact linemajorLinear_lt hw hk hz
  · rw [← e] at hq
    obtain ⟨h1, h2, h3⟩ := linearLinemajor_bounds hq
    exact ⟨_, _, _, _, rfl, h1, h2, h3, linemajorLinear_linemajor hq⟩

/-- C43, different line-major coordinates (Pegasus and Zephyr) have different numbers. -/
theorem C43_linemajor_distinct {dw t dz w k z w' k' z' : Nat} {u u' : Bool} (hw : w < dw) (hk : k < t) (hz : z < dz) (hw' : w' < dw) (hk' : k' < t) (hz' : z' < dz)
    (hne : (u, w, k, z) ≠ (u', w', k', z')) : linemajorLinear dw t dz u w k z ≠ linemajorLinear dw t dz u' w' k' z' := fun h => by
  obtain ⟨rfl, rfl, rfl, rfl⟩ := linemajorLinear_inj hw hk hz hw' hk' hz' h
  exact hne rfl

/-- C43, the entries of the table of line segments do not collide and fit into its memory. -/
theorem C43_segments {dy dx : Nat} {u u' : Bool} {w z0 z1 w' z0' z1' : Nat} (h : w < (if u then dy else dx) ∧ z0 ≤ z1 ∧ z1 < if u then dx else dy)
    (h' : w' < (if u' then dy else dx) ∧ z0' ≤ z1' ∧ z1' < if u' then dx else dy) :
    bundleIndex (dx * binom dy) (if u then binom dx else binom dy) u w z0 z1 < dx * binom dy + dy * binom dx ∧
    (bundleIndex (dx * binom dy) (if u then binom dx else binom dy) u w z0 z1 = bundleIndex (dx * binom dy) (if u' then binom dx else binom dy) u' w' z0' z1' →
      (u, w, z0, z1) = (u', w', z0', z1')) := by
  have key : ∀ {D a b c d e : Nat}, b ≤ c → c < D → a * binom D + binom c + b < (a + 1) * binom D := by
    intro D a b c d e hb hc
    have := binom_add_lt hb hc
    rw [Nat.add_mul]; omega
  have split : ∀ {D a b c a' b' c' : Nat}, b ≤ c → c < D → b' ≤ c' → c' < D → a * binom D + binom c + b = a' * binom D + binom c' + b' → a = a' ∧ b = b' ∧ c = c' := by
    intro D a b c a' b' c' hb hc hb' hc' he
    have h1 := binom_add_lt hb hc
    have h2 := binom_add_lt hb' hc'
    obtain ⟨e1, e2⟩ := mix_inj (t := binom D) (k := binom c + b) (r := a) (k' := binom c' + b') (r' := a') h1 h2 (by rw [Nat.mul_comm _ a, Nat.mul_comm _ a']; omega)
    obtain ⟨e3, e4⟩ := binom_inj hb hb' e1
    exact ⟨e2, e3, e4⟩
  obtain ⟨h1, h2, h3⟩ := h
  obtain ⟨h1', h2', h3'⟩ := h'
  have b0 : ∀ {w z0 z1}, w < dx → z0 ≤ z1 → z1 < dy → w * binom dy + binom z1 + z0 < dx * binom dy := fun hw hz hz' =>
    Nat.lt_of_lt_of_le (key (e := 0) (d := 0) hz hz') (Nat.mul_le_mul_right _ hw)
  have b1 : ∀ {w z0 z1}, w < dy → z0 ≤ z1 → z1 < dx → w * binom dx + binom z1 + z0 < dy * binom dx := fun hw hz hz' =>
    Nat.lt_of_lt_of_le (key (e := 0) (d := 0) hz hz') (Nat.mul_le_mul_right _ hw)
  cases u <;> cases u' <;> simp only [Bool.false_eq_true, if_false, if_true, bundleIndex, unum, Nat.zero_mul, Nat.one_mul, Nat.zero_add] at *
  · have := b0 h1 h2 h3
    refine ⟨by omega, fun he => ?_⟩
    obtain ⟨e1, e2, e3⟩ := split h2 h3 h2' h3' he
    rw [e1, e2, e3]
  · have := b0 h1 h2 h3
    have := b1 h1' h2' h3'
    exact ⟨by omega, fun he => by omega⟩
  · have := b1 h1 h2 h3
    have := b0 h1' h2' h3'
    exact ⟨by omega, fun he => by omega⟩
  · have := b1 h1 h2 h3
    refine ⟨by omega, fun he => ?_⟩
    obtain ⟨e1, e2, e3⟩ := split (D := dx) (a := w) (a' := w') h2 h3 h2' h3' (by omega)
    rw [e1, e2, e3]

/-- The three lattices at work: the last qubit of `chimera_graph(3, 5, 4)`, of `pegasus_graph(4)` and of `zephyr_graph(3, 2)`. -/
example : chimeraLinear 5 4 2 4 true 3 = 119 ∧ linearChimera 5 4 119 = (2, 4, true, 3) ∧ pegasusLinear 4 true 3 11 2 = 287 ∧
    pegasusCoordinates 4 287 = (true, 3, 11, 2) ∧ zephyrLinear 3 2 true 6 3 2 = 167 ∧ zephyrCoordinates 3 2 167 = (true, 6, 3, 2) := by decide

/-- C44: `popcount` counts the bits of every byte. -/
theorem C44_popcount (m : Byte) : popcount m = .ok ((List.range 8).filter fun k => m.getLsbD k).length := popcount_ok m

/-- C44: `first_bit` is the lowest set bit of every byte but 0, where it is 0. -/
theorem C44_first_bit (m : Byte) :
    (m = 0 → firstBit m = .ok 0) ∧ (m ≠ 0 → ∃ k, firstBit m = .ok k ∧ k < 8 ∧ m.getLsbD k = true ∧ ∀ j, j < k → m.getLsbD j = false) := by
  refine ⟨fun h => h ▸ firstBit_zero, ?_⟩
  revert m
  have : ∀ m : Byte, m ≠ 0 → ∃ k, k < 8 ∧ firstBit m = .ok k ∧ m.getLsbD k = true ∧ ∀ j, j < k → m.getLsbD j = false := by decide +kernel
  intro m hm
  obtain ⟨k, h1, h2, h3, h4⟩ := this m hm
  exact ⟨k, h2, h1, h3, h4⟩

/-- C44: `mask_bit` is the byte with one bit, and has eight entries. -/
theorem C44_mask_bit (k : Nat) : (k < 8 → ∃ b, maskBit k = .ok b ∧ ∀ j, b.getLsbD j = decide (j = k)) ∧ (8 ≤ k → maskBit k = .error .ub) := by
  refine ⟨fun h => ⟨_, maskBit_ok k h, fun j => ?_⟩, maskBit_ub⟩
  rw [BitVec.getLsbD_twoPow]
  by_cases hj : j = k
  · subst hj; simp [h]
  · rw [decide_eq_false hj, decide_eq_false (p := k = j) (fun e => hj e.symm), Bool.and_false]

/-- C44: the loop over the bits of a byte ends and meets each of them once, in increasing order. -/
theorem C44_loop (m : Byte) : bitsLoop 9 m = .ok ((List.range 8).filter fun k => m.getLsbD k) :=
  bitsLoop_ok 9 m (Nat.lt_succ_of_le (members_length_le m))

example : popcount 0xB4 = .ok 4 ∧ firstBit 0xB4 = .ok 2 ∧ maskBit 7 = .ok 0x80 ∧ bitsLoop 9 0xB4 = .ok [2, 4, 5, 7] := by decide +kernel

end MM
