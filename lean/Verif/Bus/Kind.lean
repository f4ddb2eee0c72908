import Verif.Bus.Frag

/-! What the code does for each coupler of a lattice, in terms of fragments. -/

namespace MM
namespace Bus

open Lattice

theorem coupled_lt {T : Topo} {p q : Nat} (h : Coupled T p q) : p < q := by
  cases T with
  | chimera m n t =>
    cases h with
    | cell hy hx hk hk' => unfold chimeraNum; rename_i y x k k'; rw [Nat.add_mul ((y * n + x) * 2) 1, Nat.add_zero]; omega
    | @vertical y x k hy hx hk =>
      unfold chimeraNum
      have : ((y + 1) * n + x) * 2 * t = (y * n + x) * 2 * t + n * 2 * t := by ring
      have : 0 < n * 2 * t := Nat.mul_pos (by omega) (by omega)
      simp only [Nat.add_zero]
      omega
    | @horizontal y x k hy hx hk =>
      unfold chimeraNum
      have : ((y * n + (x + 1)) * 2 + 1) * t = ((y * n + x) * 2 + 1) * t + 2 * t := by ring
      omega
  | pegasus d off =>
    cases h with
    | @cross w k z w' k' z' hw hk hz hw' hk' hz' _ _ _ _ =>
      unfold pegasusNum
      have h1 : z + (d - 1) * (k + 12 * w) < (d - 1) * (12 * d) := mix_lt hz (mix_lt hk hw)
      have h2 : ((1 * d + w') * 12 + k') * (d - 1) + z' = (d - 1) * (12 * d) + ((d - 1) * (12 * w' + k') + z') := by ring
      have h3 : ((0 * d + w) * 12 + k) * (d - 1) + z = z + (d - 1) * (k + 12 * w) := by ring
      omega
    | external _ _ _ _ => unfold pegasusNum; omega
    | @odd u w j z _ _ _ hz =>
      unfold pegasusNum
      have : ((u * d + w) * 12 + (2 * j + 1)) * (d - 1) = ((u * d + w) * 12 + 2 * j) * (d - 1) + (d - 1) := by ring
      omega
  | zephyr d t =>
    cases h with
    | @cross w k z w' k' z' hw hk hz hw' hk' hz' _ _ _ _ =>
      unfold zephyrNum
      have h1 : z + d * (k + 2 * t * w) < d * (2 * t * (2 * d + 1)) := mix_lt hz (mix_lt hk hw)
      have h2 : ((1 * (2 * d + 1) + w') * (2 * t) + k') * d + z' = d * (2 * t * (2 * d + 1)) + (d * (2 * t * w' + k') + z') := by ring
      have h3 : ((0 * (2 * d + 1) + w) * (2 * t) + k) * d + z = z + d * (k + 2 * t * w) := by ring
      omega
    | external _ _ _ _ => unfold zephyrNum; omega
    | @odd u w j z _ _ _ hz =>
      unfold zephyrNum
      have : ((u * (2 * d + 1) + w) * (2 * t) + (2 * j + 1)) * d = ((u * (2 * d + 1) + w) * (2 * t) + 2 * j) * d + d := by ring
      omega
    | @odd' u w j z _ _ _ hz =>
      unfold zephyrNum
      have : ((u * (2 * d + 1) + w) * (2 * t) + (2 * j + 1)) * d = ((u * (2 * d + 1) + w) * (2 * t) + 2 * j) * d + d := by ring
      omega

theorem first_chimera {m n t y x k : Nat} {u : Bool} (hx : x < n) (hk : k < t) :
    (Topo.chimera m n t).first (chimeraLinear n t y x u k) = (u, if u then y else x, k, if u then x else y) := by
  simp only [Topo.first, linearChimera_linear hx hk]

theorem first_pegasus {d w k z : Nat} {off : Bool → Nat → Nat} {u : Bool} (hw : w < d) (hk : k < 12) (hz : z < d - 1) :
    (Topo.pegasus d off).first (pegasusLinear d u w k z) = (u, w * 6 + k / 2, k % 2, z * 6 + off u (k / 2)) := by
  simp only [Topo.first, pegasusFirst, pegasusCoordinates, pegasusLinear, linearLinemajor_linear hw hk hz]

theorem first_zephyr {d t w k z : Nat} {u : Bool} (hw : w < 2 * d + 1) (hk : k < 2 * t) (hz : z < d) :
    (Topo.zephyr d t).first (zephyrLinear d t u w k z) = (u, w, k, z * 2 + k % 2) := by
  simp only [Topo.first, zephyrFirst, zephyrCoordinates, zephyrLinear, linearLinemajor_linear hw hk hz]

theorem fragOf_of_first {T : Topo} {q : Nat} {u : Bool} {w k z z' : Nat} (h : T.first q = (u, w, k, z)) (hge : z ≤ z') (hlt : z' < z + T.span) :
    FragOf T q u w k z' := by
  refine ⟨?_, ?_, ?_, ?_, ?_⟩ <;> rw [h] <;> first | rfl | assumption

/-- A coupler between neighbours in a line. -/
def addCoupler (T : Topo) (M : Masks) (u : Bool) (w k z : Nat) : B Masks := do
  let b ← maskBit k
  let edge ← orAt M.edge (T.cell u w z) b
  pure { M with edge := edge }

theorem u_cases {u : Nat} (h : u < 2) : ∃ v : Bool, unum v = u := by
  rcases (by omega : u = 0 ∨ u = 1) with h | h
  · exact ⟨false, h.symm⟩
  · exact ⟨true, h.symm⟩

/-- The three kinds of couplers and what is done for them. -/
inductive Kind (T : Topo) (p q : Nat) (e : Nat × Nat) : Prop
  | cross {x y k0 k1 : Nat} : FragOf T p false x k0 y → FragOf T q true y k1 x →
      (∀ M, processEdge T M e = clearBad T M y x k0 k1) → Kind T p q e
  | line {u : Bool} {w k z : Nat} : FragOf T p u w k z → T.first q = (u, w, k, z + 1) →
      (∀ M, processEdge T M e = addCoupler T M u w k (z + 1)) → Kind T p q e
  | odd : (T.first p).1 = (T.first q).1 → (T.first p).2.1 = (T.first q).2.1 → (T.first p).2.2.1 ≠ (T.first q).2.2.1 →
      (∀ M, processEdge T M e = .ok M) → Kind T p q e

theorem minmax {p q : Nat} {e : Nat × Nat} (h : p < q) (he : e = (p, q) ∨ e = (q, p)) : min e.1 e.2 = p ∧ max e.1 e.2 = q := by
  rcases he with he | he <;> subst he <;> simp <;> omega

theorem xor_one {j : Nat} : 2 * j = (2 * j + 1) ^^^ 1 := by
  apply Nat.eq_of_testBit_eq
  intro i
  cases i with
  | zero => simp [Nat.testBit_xor, Nat.testBit_zero]
  | succ n =>
    rw [Nat.testBit_xor, Nat.testBit_succ, Nat.testBit_succ, Nat.testBit_succ, show 2 * j / 2 = j by omega, show (2 * j + 1) / 2 = j by omega]
    simp

theorem chimeraNum_zero {n t y x k : Nat} : chimeraNum n t y x 0 k = chimeraLinear n t y x false k := chimeraNum_eq (u := false)
theorem chimeraNum_one {n t y x k : Nat} : chimeraNum n t y x 1 k = chimeraLinear n t y x true k := chimeraNum_eq (u := true)
theorem pegasusNum_zero {d w k z : Nat} : pegasusNum d 0 w k z = pegasusLinear d false w k z := pegasusNum_eq (u := false)
theorem pegasusNum_one {d w k z : Nat} : pegasusNum d 1 w k z = pegasusLinear d true w k z := pegasusNum_eq (u := true)
theorem zephyrNum_zero {d t w k z : Nat} : zephyrNum d t 0 w k z = zephyrLinear d t false w k z := zephyrNum_eq (u := false)
theorem zephyrNum_one {d t w k z : Nat} : zephyrNum d t 1 w k z = zephyrLinear d t true w k z := zephyrNum_eq (u := true)

theorem kind_chimera {p q : Nat} {e : Nat × Nat} {m n t : Nat} (h : ChimeraCoupled m n t p q) (he : e = (p, q) ∨ e = (q, p)) : Kind (.chimera m n t) p q e := by
  obtain ⟨hmin, hmax⟩ := minmax (coupled_lt (T := (.chimera m n t)) h) he
  cases h with
  | @cell y x k k' hy hx hk hk' =>
    rw [chimeraNum_zero] at hmin ⊢
    rw [chimeraNum_one] at hmax ⊢
    refine .cross (x := x) (y := y) (k0 := k) (k1 := k') (fragOf_of_first (first_chimera hx hk) (Nat.le_refl _) (by simp [Topo.span])) (fragOf_of_first (first_chimera hx hk') (Nat.le_refl _) (by simp [Topo.span])) fun M => ?_
    simp only [processEdge, hmin, hmax, linearChimera_linear hx hk, linearChimera_linear hx hk']
    rfl
  | @vertical y x k hy hx hk =>
    rw [chimeraNum_zero] at hmin ⊢
    rw [chimeraNum_zero] at hmax ⊢
    refine .line (u := false) (w := x) (k := k) (z := y) (fragOf_of_first (first_chimera hx hk) (Nat.le_refl _) (by simp [Topo.span])) (first_chimera hx hk) fun M => ?_
    simp only [processEdge, hmin, hmax, linearChimera_linear hx hk]
    rw [if_pos trivial, if_pos ⟨trivial, rfl, rfl⟩]
    rfl
  | @horizontal y x k hy hx hk =>
    rw [chimeraNum_one] at hmin ⊢
    rw [chimeraNum_one] at hmax ⊢
    refine .line (u := true) (w := y) (k := k) (z := x) (fragOf_of_first (first_chimera (by omega) hk) (Nat.le_refl _) (by simp [Topo.span])) (first_chimera hx hk) fun M => ?_
    simp only [processEdge, hmin, hmax, linearChimera_linear hx hk, linearChimera_linear (show x < n by omega) hk]
    rw [if_pos trivial, if_pos ⟨trivial, rfl, rfl⟩]
    rfl

theorem kind_pegasus {p q : Nat} {e : Nat × Nat} {d : Nat} {off : Bool → Nat → Nat} (h : PegasusCoupled d off p q) (he : e = (p, q) ∨ e = (q, p)) : Kind (.pegasus d off) p q e := by
  obtain ⟨hmin, hmax⟩ := minmax (coupled_lt (T := (.pegasus d off)) h) he
  cases h with
  | @cross w k z w' k' z' hw hk hz hw' hk' hz' h1 h2 h3 h4 =>
    rw [pegasusNum_zero] at hmin ⊢
    rw [pegasusNum_one] at hmax ⊢
    refine .cross (x := w * 6 + k / 2) (y := w' * 6 + k' / 2) (k0 := k % 2) (k1 := k' % 2) (fragOf_of_first (first_pegasus hw hk hz) (by omega) (by simp only [Topo.span]; omega)) (fragOf_of_first (first_pegasus hw' hk' hz') (by omega) (by simp only [Topo.span]; omega)) fun M => ?_
    simp only [processEdge, hmin, hmax, pegasusCoordinates, pegasusLinear, linearLinemajor_linear hw hk hz, linearLinemajor_linear hw' hk' hz']
    rfl
  | @external u w k z hu hw hk hz =>
    obtain ⟨v, rfl⟩ := u_cases hu
    rw [pegasusNum_eq] at hmin hmax ⊢
    rw [pegasusNum_eq]
    refine .line (u := v) (w := w * 6 + k / 2) (k := k % 2) (z := z * 6 + off v (k / 2) + 5) (fragOf_of_first (first_pegasus hw hk (by omega)) (by omega) (by simp only [Topo.span]; omega)) ?_ fun M => ?_
    · rw [first_pegasus hw hk hz]; congr 3; ring
    · simp only [processEdge, hmin, hmax, pegasusCoordinates, pegasusLinear, linearLinemajor_linear hw hk hz, linearLinemajor_linear hw hk (show z < d - 1 by omega)]
      rw [if_pos trivial, if_pos (by simp), show (z + 1) * 6 + off v (k / 2) = z * 6 + off v (k / 2) + 5 + 1 by ring]
      rfl
  | @odd u w j z hu hw hj hz =>
    obtain ⟨v, rfl⟩ := u_cases hu
    rw [pegasusNum_eq] at hmin hmax ⊢
    rw [pegasusNum_eq]
    refine .odd ?_ ?_ ?_ fun M => ?_
    · rw [first_pegasus hw (by omega) hz, first_pegasus hw (by omega) hz]
    · rw [first_pegasus hw (by omega) hz, first_pegasus hw (by omega) hz]; show w * 6 + 2 * j / 2 = w * 6 + (2 * j + 1) / 2; omega
    · rw [first_pegasus hw (by omega) hz, first_pegasus hw (by omega) hz]; show 2 * j % 2 ≠ (2 * j + 1) % 2; omega
    · simp only [processEdge, hmin, hmax, pegasusCoordinates, pegasusLinear, linearLinemajor_linear hw (show 2 * j < 12 by omega) hz, linearLinemajor_linear hw (show 2 * j + 1 < 12 by omega) hz]
      rw [if_pos trivial, if_neg (by omega), if_pos ⟨trivial, xor_one, trivial⟩]
      rfl

theorem kind_zephyr {p q : Nat} {e : Nat × Nat} {d t : Nat} (h : ZephyrCoupled d t p q) (he : e = (p, q) ∨ e = (q, p)) : Kind (.zephyr d t) p q e := by
  obtain ⟨hmin, hmax⟩ := minmax (coupled_lt (T := (.zephyr d t)) h) he
  cases h with
  | @cross w k z w' k' z' hw hk hz hw' hk' hz' h1 h2 h3 h4 =>
    rw [zephyrNum_zero] at hmin ⊢
    rw [zephyrNum_one] at hmax ⊢
    refine .cross (x := w) (y := w') (k0 := k) (k1 := k') (fragOf_of_first (first_zephyr hw hk hz) (by omega) (by simp only [Topo.span]; omega)) (fragOf_of_first (first_zephyr hw' hk' hz') (by omega) (by simp only [Topo.span]; omega)) fun M => ?_
    simp only [processEdge, hmin, hmax, zephyrCoordinates, zephyrLinear, linearLinemajor_linear hw hk hz, linearLinemajor_linear hw' hk' hz']
    rfl
  | @external u w k z hu hw hk hz =>
    obtain ⟨v, rfl⟩ := u_cases hu
    rw [zephyrNum_eq] at hmin hmax ⊢
    rw [zephyrNum_eq]
    refine .line (u := v) (w := w) (k := k) (z := z * 2 + k % 2 + 1) (fragOf_of_first (first_zephyr hw hk (by omega)) (by omega) (by simp only [Topo.span]; omega)) ?_ fun M => ?_
    · rw [first_zephyr hw hk hz]; congr 3; ring
    · simp only [processEdge, hmin, hmax, zephyrCoordinates, zephyrLinear, linearLinemajor_linear hw hk hz, linearLinemajor_linear hw hk (show z < d by omega)]
      rw [if_pos trivial, if_pos (by simp), show (z + 1) * 2 + k % 2 = z * 2 + k % 2 + 1 + 1 by ring]
      rfl
  | @odd u w j z hu hw hj hz =>
    obtain ⟨v, rfl⟩ := u_cases hu
    rw [zephyrNum_eq] at hmin hmax ⊢
    rw [zephyrNum_eq]
    refine .odd ?_ ?_ ?_ fun M => ?_
    · rw [first_zephyr hw (by omega) hz, first_zephyr hw (by omega) hz]
    · rw [first_zephyr hw (by omega) hz, first_zephyr hw (by omega) hz]
    · rw [first_zephyr hw (by omega) hz, first_zephyr hw (by omega) hz]; show 2 * j ≠ 2 * j + 1; omega
    · simp only [processEdge, hmin, hmax, zephyrCoordinates, zephyrLinear, linearLinemajor_linear hw (show 2 * j < 2 * t by omega) hz, linearLinemajor_linear hw (show 2 * j + 1 < 2 * t by omega) hz]
      rw [if_pos trivial, if_neg (by omega), if_pos ⟨trivial, xor_one, .inl trivial⟩]
      rfl
  | @odd' u w j z hu hw hj hz =>
    obtain ⟨v, rfl⟩ := u_cases hu
    rw [zephyrNum_eq] at hmin hmax ⊢
    rw [zephyrNum_eq]
    refine .odd ?_ ?_ ?_ fun M => ?_
    · rw [first_zephyr hw (by omega) hz, first_zephyr hw (by omega) (by omega)]
    · rw [first_zephyr hw (by omega) hz, first_zephyr hw (by omega) (by omega)]
    · rw [first_zephyr hw (by omega) hz, first_zephyr hw (by omega) (by omega)]; show 2 * j ≠ 2 * j + 1; omega
    · simp only [processEdge, hmin, hmax, zephyrCoordinates, zephyrLinear, linearLinemajor_linear hw (show 2 * j < 2 * t by omega) hz, linearLinemajor_linear hw (show 2 * j + 1 < 2 * t by omega) (show z < d by omega)]
      rw [if_pos trivial, if_neg (by omega), if_pos ⟨trivial, xor_one, .inr trivial⟩]
      rfl

theorem kind_of {T : Topo} {p q : Nat} {e : Nat × Nat} (h : Coupled T p q) (he : e = (p, q) ∨ e = (q, p)) : Kind T p q e := by
  cases T with
  | chimera m n t => exact kind_chimera h he
  | pegasus d off => exact kind_pegasus h he
  | zephyr d t => exact kind_zephyr h he

end Bus
end MM
