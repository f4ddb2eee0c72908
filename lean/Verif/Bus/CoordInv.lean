import Verif.Bus.Coord
import Mathlib.Tactic.Ring
import Mathlib.Tactic.Linarith

/-! The number systems of the coordinates are mixed radix systems. -/

namespace MM
namespace Bus

theorem mix_div {t k r : Nat} (h : k < t) : (k + t * r) / t = r := by
  rw [Nat.add_mul_div_left _ _ (by omega), Nat.div_eq_of_lt h, Nat.zero_add]

theorem mix_mod {t k r : Nat} (h : k < t) : (k + t * r) % t = k := by
  rw [Nat.add_mul_mod_self_left, Nat.mod_eq_of_lt h]

theorem mix_inj {t k r k' r' : Nat} (h : k < t) (h' : k' < t) (he : k + t * r = k' + t * r') : k = k' ∧ r = r' := by
  constructor
  · rw [← mix_mod h (r := r), he, mix_mod h']
  · rw [← mix_div h (r := r), he, mix_div h']

theorem mix_lt {t k r n : Nat} (h : k < t) (hr : r < n) : k + t * r < t * n := by
  calc k + t * r < t + t * r := by omega
    _ = t * (r + 1) := by ring
    _ ≤ t * n := Nat.mul_le_mul_left _ hr

theorem unum_lt (u : Bool) : unum u < 2 := by cases u <;> decide

theorem unum_inj {u v : Bool} (h : unum u = unum v) : u = v := by
  cases u <;> cases v <;> simp_all [unum]

theorem cellYX_lt {dy dx y x : Nat} {u : Bool} (hy : y < dy) (hx : x < dx) : cellYX dx y x u < 2 * (dx * dy) :=
  mix_lt (unum_lt u) (mix_lt hx hy)

theorem cellYX_inj {dx y x y' x' : Nat} {u u' : Bool} (hx : x < dx) (hx' : x' < dx)
    (h : cellYX dx y x u = cellYX dx y' x' u') : y = y' ∧ x = x' ∧ u = u' := by
  obtain ⟨h1, h2⟩ := mix_inj (unum_lt u) (unum_lt u') h
  obtain ⟨h3, h4⟩ := mix_inj hx hx' h2
  exact ⟨h4, h3, unum_inj h1⟩

theorem chimeraLinear_lt {dy dx t y x k : Nat} {u : Bool} (hy : y < dy) (hx : x < dx) (hk : k < t) :
    chimeraLinear dx t y x u k < t * (2 * (dx * dy)) :=
  mix_lt hk (cellYX_lt hy hx)

theorem chimeraLinear_inj {dx t y x k y' x' k' : Nat} {u u' : Bool} (hx : x < dx) (hk : k < t) (hx' : x' < dx) (hk' : k' < t)
    (h : chimeraLinear dx t y x u k = chimeraLinear dx t y' x' u' k') : y = y' ∧ x = x' ∧ u = u' ∧ k = k' := by
  obtain ⟨h1, h2⟩ := mix_inj hk hk' h
  obtain ⟨h3, h4, h5⟩ := cellYX_inj hx hx' h2
  exact ⟨h3, h4, h5, h1⟩

theorem linearChimera_linear {dx t y x k : Nat} {u : Bool} (hx : x < dx) (hk : k < t) :
    linearChimera dx t (chimeraLinear dx t y x u k) = (y, x, u, k) := by
  unfold linearChimera chimeraLinear
  rw [mix_div hk, mix_mod hk, mix_div (unum_lt u), mix_mod (unum_lt u), mix_div hx, mix_mod hx]
  cases u <;> rfl

theorem chimeraLinear_chimera {dx t q : Nat} :
    chimeraLinear dx t (linearChimera dx t q).1 (linearChimera dx t q).2.1 (linearChimera dx t q).2.2.1 (linearChimera dx t q).2.2.2 = q := by
  unfold linearChimera chimeraLinear
  have h : unum (decide (q / t % 2 = 1)) = q / t % 2 := by
    rcases Nat.mod_two_eq_zero_or_one (q / t) with h | h <;> rw [h] <;> rfl
  dsimp only
  rw [h, Nat.mod_add_div, Nat.mod_add_div, Nat.mod_add_div]

theorem linearChimera_bounds {dy dx t q : Nat} (h : q < t * (2 * (dx * dy))) :
    (linearChimera dx t q).1 < dy ∧ (linearChimera dx t q).2.1 < dx ∧ (linearChimera dx t q).2.2.2 < t := by
  unfold linearChimera
  have ht : 0 < t := Nat.pos_of_ne_zero fun h0 => by simp [h0] at h
  have h1 : q / t < 2 * (dx * dy) := Nat.div_lt_of_lt_mul h
  have h2 : q / t / 2 < dx * dy := Nat.div_lt_of_lt_mul h1
  have hd : 0 < dx := Nat.pos_of_ne_zero fun h0 => by simp [h0] at h2
  exact ⟨Nat.div_lt_of_lt_mul h2, Nat.mod_lt _ hd, Nat.mod_lt _ ht⟩

theorem linemajorLinear_lt {dw t dz w k z : Nat} {u : Bool} (hw : w < dw) (hk : k < t) (hz : z < dz) :
    linemajorLinear dw t dz u w k z < dz * (t * (dw * 2)) :=
  mix_lt hz (mix_lt hk (mix_lt hw (unum_lt u)))

theorem linemajorLinear_inj {dw t dz w k z w' k' z' : Nat} {u u' : Bool} (hw : w < dw) (hk : k < t) (hz : z < dz)
    (hw' : w' < dw) (hk' : k' < t) (hz' : z' < dz)
    (h : linemajorLinear dw t dz u w k z = linemajorLinear dw t dz u' w' k' z') : u = u' ∧ w = w' ∧ k = k' ∧ z = z' := by
  obtain ⟨h1, h2⟩ := mix_inj hz hz' h
  obtain ⟨h3, h4⟩ := mix_inj hk hk' h2
  obtain ⟨h5, h6⟩ := mix_inj hw hw' h4
  exact ⟨unum_inj h6, h5, h3, h1⟩

theorem linearLinemajor_linear {dw t dz w k z : Nat} {u : Bool} (hw : w < dw) (hk : k < t) (hz : z < dz) :
    linearLinemajor dw t dz (linemajorLinear dw t dz u w k z) = (u, w, k, z) := by
  unfold linearLinemajor linemajorLinear
  rw [mix_div hz, mix_mod hz, mix_div hk, mix_mod hk, mix_div hw, mix_mod hw]
  cases u <;> rfl

theorem linearLinemajor_bounds {dw t dz q : Nat} (h : q < dz * (t * (dw * 2))) :
    (linearLinemajor dw t dz q).2.1 < dw ∧ (linearLinemajor dw t dz q).2.2.1 < t ∧ (linearLinemajor dw t dz q).2.2.2 < dz := by
  unfold linearLinemajor
  have hz : 0 < dz := Nat.pos_of_ne_zero fun h0 => by simp [h0] at h
  have h1 : q / dz < t * (dw * 2) := Nat.div_lt_of_lt_mul h
  have ht : 0 < t := Nat.pos_of_ne_zero fun h0 => by simp [h0] at h1
  have h2 : q / dz / t < dw * 2 := Nat.div_lt_of_lt_mul h1
  have hw : 0 < dw := Nat.pos_of_ne_zero fun h0 => by simp [h0] at h2
  exact ⟨Nat.mod_lt _ hw, Nat.mod_lt _ ht, Nat.mod_lt _ hz⟩

theorem linemajorLinear_linemajor {dw t dz q : Nat} (h : q < dz * (t * (dw * 2))) :
    linemajorLinear dw t dz (linearLinemajor dw t dz q).1 (linearLinemajor dw t dz q).2.1 (linearLinemajor dw t dz q).2.2.1 (linearLinemajor dw t dz q).2.2.2 = q := by
  unfold linearLinemajor linemajorLinear
  have h1 : q / dz < t * (dw * 2) := Nat.div_lt_of_lt_mul h
  have h2 : q / dz / t < dw * 2 := Nat.div_lt_of_lt_mul h1
  have h3 : q / dz / t / dw < 2 := Nat.div_lt_of_lt_mul h2
  have hu : unum (decide (q / dz / t / dw ≠ 0)) = q / dz / t / dw := by
    revert h3
    generalize q / dz / t / dw = r
    intro h3
    rcases (by omega : r = 0 ∨ r = 1) with h | h <;> rw [h] <;> rfl
  dsimp only
  rw [hu, Nat.mod_add_div, Nat.mod_add_div, Nat.mod_add_div]

theorem gridIndex_lt {dy dx y x : Nat} (hy : y < dy) (hx : x < dx) : gridIndex dx y x < dx * dy := mix_lt hx hy

theorem gridIndex_inj {dx y x y' x' : Nat} (hx : x < dx) (hx' : x' < dx) (h : gridIndex dx y x = gridIndex dx y' x') :
    y = y' ∧ x = x' := by
  obtain ⟨h1, h2⟩ := mix_inj hx hx' h
  exact ⟨h2, h1⟩

theorem binom_succ (z : Nat) : binom (z + 1) = binom z + (z + 1) := by
  unfold binom
  have : (z + 1) * (z + 1) + (z + 1) = z * z + z + (z + 1) * 2 := by ring
  rw [this, Nat.add_mul_div_right _ _ (by decide)]

theorem binom_mono {a b : Nat} (h : a ≤ b) : binom a ≤ binom b := by
  induction b, h using Nat.le_induction with
  | base => exact Nat.le_refl _
  | succ n _ ih => rw [binom_succ]; omega

/-- Segments `z0 ≤ z1` have different numbers. -/
theorem binom_inj {z0 z1 z0' z1' : Nat} (h : z0 ≤ z1) (h' : z0' ≤ z1') (he : binom z1 + z0 = binom z1' + z0') : z0 = z0' ∧ z1 = z1' := by
  have key : ∀ {a b c d : Nat}, a ≤ b → b < d → binom b + a = binom d + c → False := by
    intro a b c d hab hbd e
    have := binom_mono (Nat.succ_le_of_lt hbd)
    have := binom_succ b
    simp only [Nat.succ_eq_add_one] at *
    omega
  rcases Nat.lt_trichotomy z1 z1' with hlt | heq | hlt
  · exact (key h hlt he).elim
  · subst heq; exact ⟨by omega, rfl⟩
  · exact (key h' hlt he.symm).elim

theorem binom_add_lt {z0 z1 d : Nat} (h : z0 ≤ z1) (hd : z1 < d) : binom z1 + z0 < binom d := by
  have := binom_mono (Nat.succ_le_of_lt hd)
  have := binom_succ z1
  simp only [Nat.succ_eq_add_one] at *
  omega

end Bus
end MM
