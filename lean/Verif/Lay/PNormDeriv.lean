import Mathlib.Analysis.Calculus.Deriv.Abs
import Mathlib.Analysis.Calculus.Deriv.Pow
import Mathlib.Analysis.InnerProductSpace.NormPow
import Mathlib.Analysis.SpecialFunctions.Pow.Deriv
import Verif.Lay.PNorm

/-! Derivative of the objective of `p_norm` over the real numbers. -/

namespace MM
namespace Lay

open Finset

/-- The array with `h` added to coordinate `k` of row `i`. -/
def nudge {K : Type} [Field K] (X : Nat → Nat → K) (i k : Nat) (h : K) (a b : Nat) : K := if a = i ∧ b = k then X a b + h else X a b

theorem nudge_zero (X : Nat → Nat → ℝ) (i k : Nat) : nudge X i k 0 = X := by
  funext a b
  unfold nudge
  rw [add_zero, ite_self]

theorem diff_nudge (X : Nat → Nat → ℝ) {i j : Nat} (k : Nat) (hj : j ≠ i) (h : ℝ) (b : Nat) :
    diff (nudge X i k h) i j b = diff X i j b + if b = k then h else 0 := by
  unfold diff nudge
  rw [if_neg (c := j = i ∧ b = k) fun e => hj e.1]
  by_cases e : b = k
  · rw [if_pos ⟨rfl, e⟩, if_pos e]; ring
  · rw [if_neg fun c => e c.2, if_neg e, add_zero]

theorem rowDist_symm {dim : Nat} {norm : List ℝ → ℝ} (heven : ∀ l : List ℝ, norm (l.map fun x => -x) = norm l) (X : Nat → Nat → ℝ) (a b : Nat) :
    rowDist dim norm X a b = rowDist dim norm X b a := by
  unfold rowDist
  rw [← heven, List.map_map]
  congr 1
  refine List.map_congr_left fun k _ => ?_
  show -(X a k - X b k) = X b k - X a k
  ring

theorem rowDist_nudge_self {dim : Nat} {norm : List ℝ → ℝ} (X : Nat → Nat → ℝ) (i k : Nat) (h : ℝ) (a : Nat) :
    rowDist dim norm (nudge X i k h) a a = rowDist dim norm X a a := by
  unfold rowDist
  congr 1
  refine List.map_congr_left fun b _ => ?_
  unfold diff
  rw [sub_self, sub_self]

theorem rowDist_nudge_other {dim : Nat} {norm : List ℝ → ℝ} (X : Nat → Nat → ℝ) {i : Nat} (k : Nat) (h : ℝ) {a b : Nat} (ha : a ≠ i) (hb : b ≠ i) :
    rowDist dim norm (nudge X i k h) a b = rowDist dim norm X a b := by
  unfold rowDist
  congr 1
  refine List.map_congr_left fun c _ => ?_
  unfold diff nudge
  rw [if_neg fun e => ha e.1, if_neg fun e => hb e.1]

/-- Derivative of the cost from derivatives of distances. -/
theorem hasDerivAt_cost {n dim : Nat} {norm : List ℝ → ℝ} (heven : ∀ l : List ℝ, norm (l.map fun x => -x) = norm l) {D X : Nat → Nat → ℝ} {i k : Nat} (hi : i < n)
    (hD : ∀ j < n, D i j = D j i) {w : Nat → ℝ} (hw : ∀ j < n, j ≠ i → HasDerivAt (fun h => rowDist dim norm (nudge X i k h) i j) (w j) 0) {g : ℝ}
    (hg : g = ∑ j ∈ range n, if j = i then 0 else 2 * (rowDist dim norm X i j - D i j) * w j) :
    HasDerivAt (fun h => cost n dim norm D (nudge X i k h)) (2 * g) 0 := by
  let G : Nat → ℝ := fun j => if j = i then 0 else 2 * (rowDist dim norm X i j - D i j) * w j
  have hsum : 2 * g = ∑ a ∈ range n, ∑ b ∈ range n, ((if a = i then G b else 0) + (if b = i then G a else 0)) := by
    have h1 : ∑ a ∈ range n, ∑ b ∈ range n, (if a = i then G b else 0) = g := by
      rw [Finset.sum_comm, hg]
      refine sum_congr rfl fun b _ => ?_
      rw [Finset.sum_ite_eq' (range n) i fun _ => G b, if_pos (mem_range.mpr hi)]
    have h2 : ∑ a ∈ range n, ∑ b ∈ range n, (if b = i then G a else 0) = g := by
      rw [hg]
      refine sum_congr rfl fun a _ => ?_
      rw [Finset.sum_ite_eq' (range n) i fun _ => G a, if_pos (mem_range.mpr hi)]
    simp only [Finset.sum_add_distrib]
    rw [h1, h2]; ring
  rw [hsum]
  unfold cost
  refine HasDerivAt.fun_sum fun a ha => HasDerivAt.fun_sum fun b hb => ?_
  rw [mem_range] at ha hb
  have main : ∀ j < n, j ≠ i → HasDerivAt (fun h => (D i j - rowDist dim norm (nudge X i k h) i j) ^ 2) (G j) 0 := by
    intro j hj hne
    have h1 := ((hw j hj hne).const_sub (D i j)).pow 2
    refine h1.congr_deriv ?_
    simp only [nudge_zero]
    show _ = if j = i then 0 else _
    rw [if_neg hne]
    simp
    ring
  by_cases ea : a = i
  · by_cases eb : b = i
    · rw [if_pos ea, if_pos eb]
      have : (fun h => (D a b - rowDist dim norm (nudge X i k h) a b) ^ 2) = fun _ => (D a b - rowDist dim norm X a b) ^ 2 := by
        funext h
        rw [ea, eb, rowDist_nudge_self]
      rw [this]
      refine (hasDerivAt_const (0 : ℝ) _).congr_deriv ?_
      show (0 : ℝ) = (if b = i then 0 else _) + (if a = i then 0 else _)
      rw [if_pos ea, if_pos eb, add_zero]
    · rw [if_pos ea, if_neg eb, add_zero, ea]
      exact main b hb eb
  · by_cases eb : b = i
    · rw [if_neg ea, if_pos eb, zero_add, eb]
      have := main a ha ea
      rw [hD a ha] at this
      refine this.congr_of_eventuallyEq (Filter.Eventually.of_forall fun h => ?_)
      show (D a i - _) ^ 2 = (D a i - _) ^ 2
      rw [rowDist_symm heven]
    · rw [if_neg ea, if_neg eb, add_zero]
      have : (fun h => (D a b - rowDist dim norm (nudge X i k h) a b) ^ 2) = fun _ => (D a b - rowDist dim norm X a b) ^ 2 := by
        funext h
        rw [rowDist_nudge_other X k h ea eb]
      rw [this]
      exact hasDerivAt_const _ _

theorem sum_map_range (n : Nat) (f : Nat → ℝ) : ((List.range n).map f).sum = ∑ k ∈ range n, f k := by
  induction n with
  | zero => rfl
  | succ n ih => rw [List.range_succ, List.map_append, List.sum_append, ih, sum_range_succ]; simp

theorem norm1_even (l : List ℝ) : norm1 (l.map fun x => -x) = norm1 l := by
  unfold norm1
  rw [List.map_map]
  congr 1
  exact List.map_congr_left fun x _ => abs_neg x

theorem normInf_even (l : List ℝ) : normInf (l.map fun x => -x) = normInf l := by
  unfold normInf
  rw [List.map_map]
  congr 1
  exact List.map_congr_left fun x _ => abs_neg x

/-- Derivative of a sum of functions of the coordinates. -/
theorem hasDerivAt_coords {φ : ℝ → ℝ} {X : Nat → Nat → ℝ} {i j k dim : Nat} (hj : j ≠ i) (hk : k < dim) {w : ℝ} (hφ : HasDerivAt φ w (diff X i j k)) :
    HasDerivAt (fun h => ∑ b ∈ range dim, φ (diff (nudge X i k h) i j b)) w 0 := by
  have hsum : w = ∑ b ∈ range dim, if b = k then w else 0 := by
    rw [Finset.sum_ite_eq' (range dim) k fun _ => w, if_pos (mem_range.mpr hk)]
  rw [hsum]
  refine HasDerivAt.fun_sum fun b _ => ?_
  have he : (fun h => φ (diff (nudge X i k h) i j b)) = fun h => φ (diff X i j b + if b = k then h else 0) := by
    funext h
    rw [diff_nudge X k hj]
  rw [he]
  by_cases e : b = k
  · subst e
    simp only [if_pos]
    have h1 : HasDerivAt (fun h : ℝ => diff X i j b + h) 1 0 := (hasDerivAt_id (0 : ℝ)).const_add _
    have h2 : HasDerivAt φ w (diff X i j b + 0) := by rw [add_zero]; exact hφ
    have := HasDerivAt.comp (0 : ℝ) h2 h1
    rw [mul_one] at this
    exact this
  · simp only [if_neg e]
    exact hasDerivAt_const _ _

theorem sign_eq {big x : ℝ} (hx : x ≠ 0) : ((SignType.sign x : SignType) : ℝ) = x * nanInv big |x| 1 := by
  unfold nanInv
  rw [if_neg (abs_ne_zero.mpr hx), pow_one]
  rcases lt_or_gt_of_ne hx with h | h
  · rw [sign_neg h, abs_of_neg h]; field_simp; simp
  · rw [sign_pos h, abs_of_pos h]; field_simp; simp

theorem hasDerivAt_norm1 {big : ℝ} {X : Nat → Nat → ℝ} {i j k dim : Nat} (hj : j ≠ i) (hk : k < dim) (hd : X i k ≠ X j k) :
    HasDerivAt (fun h => rowDist dim norm1 (nudge X i k h) i j) (diff X i j k * nanInv big |diff X i j k| 1) 0 := by
  have he : (fun h => rowDist dim norm1 (nudge X i k h) i j) = fun h => ∑ b ∈ range dim, |diff (nudge X i k h) i j b| := by
    funext h
    unfold rowDist norm1
    rw [List.map_map]
    exact sum_map_range dim _
  rw [he]
  have hne : diff X i j k ≠ 0 := sub_ne_zero.mpr hd
  rw [← sign_eq hne]
  exact hasDerivAt_coords hj hk (hasDerivAt_abs hne)

/-- `np.linalg.norm(_, ord=p)` -/
noncomputable def normP (p : Nat) (x : List ℝ) : ℝ := ((x.map fun a => |a| ^ p).sum) ^ (1 / p : ℝ)

theorem normP_even (p : Nat) (l : List ℝ) : normP p (l.map fun x => -x) = normP p l := by
  unfold normP
  rw [List.map_map]
  congr 2
  exact List.map_congr_left fun x _ => by show |-x| ^ p = _; rw [abs_neg]

theorem hasDerivAt_normP {big : ℝ} {p : Nat} (hp : 2 ≤ p) {X : Nat → Nat → ℝ} {i j k dim : Nat} (hj : j ≠ i) (hk : k < dim) (hd : ∃ b < dim, X i b ≠ X j b) :
    HasDerivAt (fun h => rowDist dim (normP p) (nudge X i k h) i j)
      (diff X i j k * |diff X i j k| ^ (p - 2) * nanInv big (rowDist dim (normP p) X i j) (p - 1)) 0 := by
  have hp0 : (p : ℝ) ≠ 0 := by positivity
  let S : (Nat → Nat → ℝ) → ℝ := fun Y => ∑ b ∈ range dim, |diff Y i j b| ^ p
  have hr : ∀ Y : Nat → Nat → ℝ, rowDist dim (normP p) Y i j = S Y ^ (1 / p : ℝ) := by
    intro Y
    unfold rowDist normP
    rw [List.map_map, sum_map_range]
    rfl
  have he : (fun h => rowDist dim (normP p) (nudge X i k h) i j) = fun h => S (nudge X i k h) ^ (1 / p : ℝ) := funext fun h => hr _
  have hpos : 0 < S X := by
    obtain ⟨b, hb, hne⟩ := hd
    refine Finset.sum_pos' (fun c _ => by positivity) ⟨b, mem_range.mpr hb, ?_⟩
    exact pow_pos (abs_pos.mpr (sub_ne_zero.mpr hne)) p
  have h1 : HasDerivAt (fun x : ℝ => |x| ^ p) (p * |diff X i j k| ^ (p - 2) * diff X i j k) (diff X i j k) := by
    have := hasDerivAt_abs_rpow (diff X i j k) (p := (p : ℝ)) (by exact_mod_cast (by omega : 1 < p))
    have e2 : ((p : ℝ) - 2) = ((p - 2 : Nat) : ℝ) := by rw [Nat.cast_sub hp]; norm_num
    rw [e2] at this
    simp only [Real.rpow_natCast] at this
    exact this
  have h2 : HasDerivAt (fun h => S (nudge X i k h)) (p * |diff X i j k| ^ (p - 2) * diff X i j k) 0 := hasDerivAt_coords (φ := fun x => |x| ^ p) hj hk h1
  have hS0 : S (nudge X i k 0) ≠ 0 := by rw [nudge_zero]; exact hpos.ne'
  have h3 := h2.rpow_const (p := (1 / p : ℝ)) (Or.inl hS0)
  rw [he]
  refine h3.congr_deriv ?_
  rw [nudge_zero, hr]
  have hroot : S X ^ (1 / p : ℝ) ≠ 0 := (Real.rpow_pos_of_pos hpos _).ne'
  unfold nanInv
  rw [if_neg hroot]
  have hpow : (1 / S X ^ (1 / p : ℝ)) ^ (p - 1) = S X ^ ((1 / p : ℝ) - 1) := by
    rw [one_div, inv_pow, ← Real.rpow_natCast, ← Real.rpow_mul hpos.le, ← Real.rpow_neg hpos.le]
    congr 1
    rw [Nat.cast_sub (by omega)]
    field_simp
    push_cast
    ring
  rw [hpow]
  field_simp

/-- The distance for `p` infinity, in the plane. -/
theorem rowDist_inf (X : Nat → Nat → ℝ) (i j : Nat) : rowDist 2 normInf X i j = max |diff X i j 0| |diff X i j 1| := by
  show max (max 0 |diff X i j 0|) |diff X i j 1| = _
  rw [max_eq_right (abs_nonneg (diff X i j 0))]

theorem hasDerivAt_abs_coord {big : ℝ} {X : Nat → Nat → ℝ} {i j : Nat} (k : Nat) {b : Nat} (hj : j ≠ i) (hd : diff X i j b ≠ 0) :
    HasDerivAt (fun h => |diff (nudge X i k h) i j b|) (diff X i j k * nanInv big |diff X i j k| 1 * if k = b then 1 else 0) 0 := by
  have he : (fun h => |diff (nudge X i k h) i j b|) = fun h => |diff X i j b + if b = k then h else 0| := by
    funext h
    rw [diff_nudge X k hj]
  rw [he]
  by_cases e : b = k
  · subst e
    simp only [if_pos, mul_one]
    rw [← sign_eq hd]
    have h1 : HasDerivAt (fun h : ℝ => diff X i j b + h) 1 0 := (hasDerivAt_id (0 : ℝ)).const_add _
    have h2 : HasDerivAt (fun x : ℝ => |x|) ((SignType.sign (diff X i j b) : SignType) : ℝ) (diff X i j b + 0) := by rw [add_zero]; exact hasDerivAt_abs hd
    have := HasDerivAt.comp (0 : ℝ) h2 h1
    rw [mul_one] at this
    exact this
  · simp only [if_neg e, if_neg (Ne.symm e), mul_zero]
    exact hasDerivAt_const _ _

theorem continuous_abs_coord (X : Nat → Nat → ℝ) {i j : Nat} (k b : Nat) (hj : j ≠ i) : Continuous fun h : ℝ => |diff (nudge X i k h) i j b| := by
  have he : (fun h => |diff (nudge X i k h) i j b|) = fun h => |diff X i j b + if b = k then h else 0| := by
    funext h
    rw [diff_nudge X k hj]
  rw [he]
  split
  · exact (continuous_const.add continuous_id).abs
  · exact continuous_const

theorem hasDerivAt_normInf {big : ℝ} {X : Nat → Nat → ℝ} {i j k : Nat} (hj : j ≠ i) (hk : k < 2) (hd : |diff X i j 0| ≠ |diff X i j 1|) :
    HasDerivAt (fun h => rowDist 2 normInf (nudge X i k h) i j)
      (diff X i j k * nanInv big |diff X i j k| 1 *
        (if k = 0 then (if |diff X i j 1| < |diff X i j 0| then 1 else 0) else (if |diff X i j 1| < |diff X i j 0| then 0 else 1))) 0 := by
  simp only [rowDist_inf]
  by_cases hlt : |diff X i j 1| < |diff X i j 0|
  · have hev : ∀ᶠ h in nhds (0 : ℝ), |diff (nudge X i k h) i j 1| < |diff (nudge X i k h) i j 0| := by
      refine (isOpen_lt (continuous_abs_coord X k 1 hj) (continuous_abs_coord X k 0 hj)).mem_nhds ?_
      show |diff (nudge X i k 0) i j 1| < |diff (nudge X i k 0) i j 0|
      rw [nudge_zero]; exact hlt
    have hne : diff X i j 0 ≠ 0 := fun e => by rw [e, abs_zero] at hlt; exact absurd hlt (not_lt.mpr (abs_nonneg _))
    refine ((hasDerivAt_abs_coord (big := big) k hj hne).congr_of_eventuallyEq (hev.mono fun h hh => max_eq_left hh.le)).congr_deriv ?_
    rw [if_pos hlt, if_pos hlt]
  · have hlt' : |diff X i j 0| < |diff X i j 1| := lt_of_le_of_ne (not_lt.mp hlt) hd
    have hev : ∀ᶠ h in nhds (0 : ℝ), |diff (nudge X i k h) i j 0| < |diff (nudge X i k h) i j 1| := by
      refine (isOpen_lt (continuous_abs_coord X k 0 hj) (continuous_abs_coord X k 1 hj)).mem_nhds ?_
      show |diff (nudge X i k 0) i j 0| < |diff (nudge X i k 0) i j 1|
      rw [nudge_zero]; exact hlt'
    have hne : diff X i j 1 ≠ 0 := fun e => by rw [e, abs_zero] at hlt'; exact absurd hlt' (not_lt.mpr (abs_nonneg _))
    refine ((hasDerivAt_abs_coord (big := big) k hj hne).congr_of_eventuallyEq (hev.mono fun h hh => max_eq_right hh.le)).congr_deriv ?_
    rw [if_neg hlt, if_neg hlt]
    congr 1
    rcases (by omega : k = 0 ∨ k = 1) with rfl | rfl <;> simp

end Lay
end MM
