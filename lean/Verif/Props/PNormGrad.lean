import Verif.Lay.PNormDeriv
import Verif.Props.PNorm

/-! Property C80: the gradient given to the minimiser. -/

namespace MM

open Lay Finset

/-- The gradient for `p` 1 is half the derivative of the cost, at all places where no other row has the same coordinate. -/
theorem C80_partial {n dim : Nat} {D X : Nat → Nat → ℝ} (hD : ∀ i < n, ∀ j < n, D i j = D j i) (big : ℝ) {i k : Nat} (hi : i < n) (hk : k < dim)
    (hX : ∀ j < n, j ≠ i → X i k ≠ X j k) : HasDerivAt (fun h => cost n dim norm1 D (nudge X i k h)) (2 * grad1 big n dim D X i k) 0 := by
  refine hasDerivAt_cost norm1_even hi (hD i hi) (fun j hj hne => hasDerivAt_norm1 (big := big) hne hk (hX j hj hne)) ?_
  unfold grad1
  refine sum_congr rfl fun j _ => ?_
  split
  · next e => subst e; unfold diff; rw [sub_self]; ring
  · ring

/-- The same for integers `p` from 2 on, where no other row is equal. -/
theorem C80_p_partial {n dim p : Nat} (hp : 2 ≤ p) {D X : Nat → Nat → ℝ} (hD : ∀ i < n, ∀ j < n, D i j = D j i) (big : ℝ) {i k : Nat} (hi : i < n) (hk : k < dim)
    (hX : ∀ j < n, j ≠ i → ∃ b < dim, X i b ≠ X j b) :
    HasDerivAt (fun h => cost n dim (normP p) D (nudge X i k h)) (2 * gradP big p (normP p) n dim D X i k) 0 := by
  refine hasDerivAt_cost (normP_even p) hi (hD i hi) (fun j hj hne => hasDerivAt_normP (big := big) hp hne hk (hX j hj hne)) ?_
  unfold gradP
  refine sum_congr rfl fun j _ => ?_
  split
  · next e => subst e; unfold diff; rw [sub_self]; ring
  · ring

/-- The same for `p` infinity in two dimensions, where the differences to other rows have two coordinates of different size. -/
theorem C80_inf_partial {n : Nat} {D X : Nat → Nat → ℝ} (hD : ∀ i < n, ∀ j < n, D i j = D j i) (big : ℝ) {i k : Nat} (hi : i < n) (hk : k < 2)
    (hX : ∀ j < n, j ≠ i → |X i 0 - X j 0| ≠ |X i 1 - X j 1|) :
    ∃ g, gradInf big n 2 D X i k = .ok g ∧ HasDerivAt (fun h => cost n 2 normInf D (nudge X i k h)) (2 * g) 0 := by
  refine ⟨_, rfl, hasDerivAt_cost normInf_even hi (hD i hi) (fun j hj hne => hasDerivAt_normInf (big := big) hne hk (hX j hj hne)) ?_⟩
  refine sum_congr rfl fun j _ => ?_
  by_cases e : j = i
  · rw [if_pos e, e]; unfold diff; rw [sub_self]; ring
  · rw [if_neg e]; ring

/-- Two rows at distance 2 for nodes at distance 1. -/
def Demo.far (i _k : Nat) : ℝ := if i = 1 then 2 else 0

def Demo.near (i j : Nat) : ℝ := if i = j then 0 else 1

theorem Demo.far_grad (big : ℝ) : grad1 big 2 1 near far 1 0 = 2 := by
  have hm : ∀ f : Nat → ℝ, (List.map f (List.range 1)) = [f 0] := fun f => rfl
  unfold grad1
  rw [sum_range_succ, sum_range_succ, range_zero, sum_empty]
  unfold rowDist norm1 nanInv
  rw [hm, hm]
  unfold diff far near
  norm_num

theorem Demo.far_half (big : ℝ) : HasDerivAt (fun h => cost 2 1 norm1 near (nudge far 1 0 h)) (2 * grad1 big 2 1 near far 1 0) 0 := by
  refine C80_partial (fun i _ j _ => ?_) big (by decide) (by decide) (fun j hj hne => ?_)
  · unfold near
    simp only [eq_comm]
  · unfold far
    rw [if_pos rfl, if_neg hne]
    norm_num

/-- The gradient is not the gradient of the cost: for two rows at distance 2 and nodes at distance 1 the derivative is 4 and the value given is 2. -/
theorem C80_wrong (big : ℝ) : ¬ HasDerivAt (fun h => cost 2 1 norm1 Demo.near (nudge Demo.far 1 0 h)) (grad1 big 2 1 Demo.near Demo.far 1 0) 0 := by
  intro h
  have := h.unique (Demo.far_half big)
  rw [Demo.far_grad] at this
  norm_num at this

/-- For `p` infinity there is a gradient in two dimensions only. -/
theorem C80_inf_dim (big : Rat) (n dim : Nat) (h : dim ≠ 2) (D X : Nat → Nat → Rat) (i k : Nat) :
    gradInf big n dim D X i k = .error (if dim < 2 then .index else .value) := by
  unfold gradInf
  split
  · rfl
  · rfl

/-- The hypotheses of the other two for three rows. -/
example : ∃ g, gradInf 0 3 2 (fun i j => if i = j then 0 else 1) (fun i k => if i = 0 then 0 else if k = 0 then (i : ℝ) else 3 * i) 0 1 = .ok g ∧
    HasDerivAt (fun h => cost 3 2 normInf (fun i j => if i = j then 0 else 1) (nudge (fun i k => if i = 0 then 0 else if k = 0 then (i : ℝ) else 3 * i) 0 1 h)) (2 * g) 0 := by
  refine C80_inf_partial (fun i _ j _ => by simp only [eq_comm]) 0 (by decide) (by decide) fun j hj hne => ?_
  rcases (by omega : j = 1 ∨ j = 2) with rfl | rfl <;> norm_num

example : HasDerivAt (fun h => cost 3 2 (normP 2) (fun i j => if i = j then 0 else 1) (nudge (fun i _ => (i : ℝ)) 0 1 h))
    (2 * gradP 0 2 (normP 2) 3 2 (fun i j => if i = j then 0 else 1) (fun i _ => (i : ℝ)) 0 1) 0 := by
  refine C80_p_partial (by decide) (fun i _ j _ => by simp only [eq_comm]) 0 (by decide) (by decide) fun j hj hne => ⟨0, by decide, ?_⟩
  exact_mod_cast (Ne.symm hne)

end MM
