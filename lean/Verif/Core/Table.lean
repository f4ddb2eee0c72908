import Verif.Core.Search
import Mathlib.Analysis.SpecialFunctions.Log.Base

/-! The weight table of include/find_embedding/embedding_problem.hpp. -/

namespace MM

/-- `populate_weight_table` and `weight` (embedding_problem.hpp:286-304). `margin` is
`exponent_margin`, `beta` the smaller of `max_beta` and `round_beta`. Simplified: real numbers stand
for `double`, so nothing is rounded but the entries of the table, which are cut off. A negative
fill is converted to a large `unsigned int`. -/
noncomputable def weightTable (margin : Nat) (beta : ℝ) (maxfill fill : Int) : D :=
  let m := min 63 maxfill
  let log2base : ℝ := if m ≤ 0 then 1 else (63 - Real.logb 2 margin) / m
  let base : ℝ := min (2 ^ log2base) beta
  if 0 ≤ fill ∧ fill ≤ m then some ⌊base ^ fill.toNat⌋₊ else none

/-- `weight_bound` after `reset_mood` (embedding_problem.hpp:253-262), real numbers standing for
`double`. The exception of line 256 is left out: it needs a margin above `2 ^ 61`, and a margin is below
`2 ^ 32` (`Input.margin`). -/
noncomputable def weightBound (margin : Nat) (maxFill : Int) : Int :=
  if 63 - Real.logb 2 margin < maxFill then ⌊63 - Real.logb 2 margin⌋ else maxFill

theorem weightTable_some {margin : Nat} {beta : ℝ} {m c : Int} (h0 : 0 ≤ c) (hc : c ≤ m) (h63 : c ≤ 63) :
    ∃ w, weightTable margin beta m c = some w := by
  unfold weightTable
  dsimp only
  rw [if_pos ⟨h0, by omega⟩]
  exact ⟨_, rfl⟩

theorem weightTable_none {margin : Nat} {beta : ℝ} {m c : Int} (hc : 63 < c) : weightTable margin beta m c = none := by
  unfold weightTable
  dsimp only
  rw [if_neg (by omega)]

theorem two_rpow_margin {margin : Nat} (hM : 0 < margin) :
    (2 : ℝ) ^ (63 - Real.logb 2 margin) * margin = 2 ^ 63 := by
  rw [Real.rpow_sub (by norm_num), Real.rpow_logb (by norm_num) (by norm_num) (by exact_mod_cast hM)]
  have : (margin : ℝ) ≠ 0 := by exact_mod_cast hM.ne'
  field_simp
  norm_num

/-- The table leaves room for `margin` summands. -/
theorem weightTable_room {margin : Nat} (hM : 0 < margin) (hM' : margin ≤ 2 ^ 63) {beta : ℝ} (hb : 0 ≤ beta) {m c : Int}
    {w : Nat} (h : weightTable margin beta m c = some w) : w * margin ≤ 2 ^ 63 := by
  unfold weightTable at h
  dsimp only at h
  split at h
  next hc =>
    simp only [Option.some.injEq] at h
    have hMr : (0 : ℝ) < margin := by exact_mod_cast hM
    have hL : 0 ≤ 63 - Real.logb 2 (margin : ℝ) := by
      have : Real.logb 2 (margin : ℝ) ≤ 63 := by
        rw [Real.logb_le_iff_le_rpow (by norm_num) hMr]
        have : (margin : ℝ) ≤ 2 ^ 63 := by exact_mod_cast hM'
        calc (margin : ℝ) ≤ 2 ^ 63 := this
          _ = (2 : ℝ) ^ (63 : ℝ) := by norm_num
      linarith
    have key : (min ((2 : ℝ) ^ (if min 63 m ≤ 0 then (1 : ℝ) else (63 - Real.logb 2 margin) / ((min 63 m : Int) : ℝ))) beta) ^ c.toNat
        ≤ (2 : ℝ) ^ (63 - Real.logb 2 (margin : ℝ)) := by
      have h0 : (0 : ℝ) ≤ min ((2 : ℝ) ^ (if min 63 m ≤ 0 then (1 : ℝ) else (63 - Real.logb 2 margin) / ((min 63 m : Int) : ℝ))) beta :=
        le_min (Real.rpow_nonneg (by norm_num) _) hb
      refine (pow_le_pow_left₀ h0 (min_le_left _ _) c.toNat).trans ?_
      rw [← Real.rpow_natCast, ← Real.rpow_mul (by norm_num)]
      refine Real.rpow_le_rpow_of_exponent_le (by norm_num) ?_
      by_cases hm : min 63 m ≤ 0
      · rw [if_pos hm]
        have : c.toNat = 0 := by omega
        rw [this]; simpa using hL
      · rw [if_neg hm]
        have hm' : (0 : ℝ) < ((min 63 m : Int) : ℝ) := by exact_mod_cast (by omega : 0 < min 63 m)
        have hcm : ((c.toNat : Nat) : ℝ) ≤ ((min 63 m : Int) : ℝ) := by
          have : (c.toNat : Int) ≤ min 63 m := by omega
          exact_mod_cast this
        rw [div_mul_eq_mul_div, div_le_iff₀ hm']
        exact mul_le_mul_of_nonneg_left hcm hL
    have hfl : (w : ℝ) ≤ (2 : ℝ) ^ (63 - Real.logb 2 (margin : ℝ)) := by
      rw [← h]
      refine (Nat.floor_le (pow_nonneg (le_min (Real.rpow_nonneg (by norm_num) _) hb) _)).trans key
    have := mul_le_mul_of_nonneg_right hfl hMr.le
    rw [two_rpow_margin hM] at this
    exact_mod_cast this
  · cases h

/-- A fill of 1 on an otherwise empty target. -/
theorem weightTable_one {k : Nat} (hk : k ≤ 63) {beta : ℝ} (hb : 2 ^ (63 - k) ≤ beta) :
    weightTable (2 ^ k) beta 1 1 = some (2 ^ (63 - k)) := by
  unfold weightTable
  dsimp only
  have hl : Real.logb 2 ((2 ^ k : Nat) : ℝ) = k := by
    push_cast
    rw [Real.logb_pow, Real.logb_self_eq_one (by norm_num), mul_one]
  have hp : (2 : ℝ) ^ ((63 - (k : ℝ)) / ((min 63 1 : Int) : ℝ)) = 2 ^ (63 - k) := by
    rw [show ((63 - (k : ℝ)) / ((min 63 1 : Int) : ℝ)) = ((63 - k : Nat) : ℝ) by push_cast [hk]; norm_num]
    rw [Real.rpow_natCast]
  rw [if_pos (by omega), if_neg (by omega), hl, hp, min_eq_left hb]
  congr 1
  have : ((2 : ℝ) ^ (63 - k)) ^ (1 : Int).toNat = ((2 ^ (63 - k) : Nat) : ℝ) := by push_cast; simp
  rw [this, Nat.floor_natCast]

/-- Empty qubits weigh 1. -/
theorem weightTable_zero {margin : Nat} {beta : ℝ} {m : Int} (hm : 0 ≤ m) : weightTable margin beta m 0 = some 1 := by
  unfold weightTable
  dsimp only
  rw [if_pos (by omega)]
  simp

/-- Weights next to a crowded qubit. -/
theorem weightTable_low {margin : Nat} (hM : 1 < margin) (hM' : margin ≤ 2 ^ 63) {beta : ℝ} (hb : 1 ≤ beta) {m : Int} (hm : 63 ≤ m) :
    weightTable margin beta m 1 = some 1 := by
  unfold weightTable
  dsimp only
  rw [if_pos (by omega), if_neg (by omega), show min 63 m = 63 by omega]
  have hMr : (1 : ℝ) < margin := by exact_mod_cast hM
  have hpos : 0 < Real.logb 2 (margin : ℝ) := Real.logb_pos (by norm_num) hMr
  have hle : Real.logb 2 (margin : ℝ) ≤ 63 := by
    rw [Real.logb_le_iff_le_rpow (by norm_num) (by linarith)]
    have : (margin : ℝ) ≤ 2 ^ 63 := by exact_mod_cast hM'
    calc (margin : ℝ) ≤ 2 ^ 63 := this
      _ = (2 : ℝ) ^ (63 : ℝ) := by norm_num
  congr 1
  rw [Nat.floor_eq_iff (by
    refine pow_nonneg (le_min (Real.rpow_nonneg (by norm_num) _) (by linarith)) _)]
  simp only [Int.toNat_one, pow_one, Nat.cast_one]
  refine ⟨le_min ?_ hb, (min_le_left _ _).trans_lt ?_⟩
  · refine Real.one_le_rpow (by norm_num) ?_
    apply div_nonneg <;> push_cast <;> linarith
  · have : (63 - Real.logb 2 (margin : ℝ)) / ((63 : Int) : ℝ) < 1 := by
      push_cast
      rw [div_lt_one (by norm_num)]; linarith
    have := Real.rpow_lt_rpow_of_exponent_lt (x := 2) (by norm_num) this
    rw [Real.rpow_one] at this
    linarith

end MM
