import Verif.Bus.Frag
import Verif.Spec.Piece

/-! Where a qubit lies is where its fragments are. -/

namespace MM
namespace Bus

open Lattice

theorem lies_frag {T : Topo} {q : Nat} {u : Bool} {w k z : Nat} (h : Lies T q u w k z) : IsQubit T q ∧ FragOf T q u w k z := by
  cases T with
  | chimera m n t =>
    have key : ∀ y x, y < m → x < n → k < t → IsQubit (.chimera m n t) (chimeraNum n t y x (unum u) k) ∧ (Topo.chimera m n t).first (chimeraNum n t y x (unum u) k) = (u, if u then y else x, k, if u then x else y) := by
      intro y x hy hx hk
      rw [chimeraNum_eq]
      constructor
      · have := chimeraLinear_lt (u := u) hy hx hk
        have e : t * (2 * (n * m)) = 2 * t * m * n := by ring
        rw [e] at this
        exact this
      · simp only [Topo.first, linearChimera_linear hx hk]
    cases u with
    | false =>
      obtain ⟨h1, h2, h3, rfl⟩ := h
      obtain ⟨a, b⟩ := key z w h1 h2 h3
      have b' : (Topo.chimera m n t).first (chimeraNum n t z w 0 k) = (false, w, k, z) := b
      exact ⟨a, by rw [b'], by rw [b'], by rw [b'], by rw [b'], by rw [b']; simp [Topo.span]⟩
    | true =>
      obtain ⟨h1, h2, h3, rfl⟩ := h
      obtain ⟨a, b⟩ := key w z h1 h2 h3
      have b' : (Topo.chimera m n t).first (chimeraNum n t w z 1 k) = (true, w, k, z) := b
      exact ⟨a, by rw [b'], by rw [b'], by rw [b'], by rw [b'], by rw [b']; simp [Topo.span]⟩
  | pegasus d off =>
    obtain ⟨i, j, s, h1, h2, h3, h4, rfl, rfl, h5, h6⟩ := h
    have e : pegasusNum d (if u then 1 else 0) i (2 * j + k) s = linemajorLinear d 12 (d - 1) u i (2 * j + k) s := pegasusNum_eq (u := u)
    rw [e]
    have hk : 2 * j + k < 12 := by omega
    have hl := linemajorLinear_lt (u := u) h1 hk h4
    have e2 : (d - 1) * (12 * (d * 2)) = 24 * d * (d - 1) := by ring
    have hf := linearLinemajor_linear (u := u) h1 hk h4
    rw [e2] at hl
    refine ⟨hl, ?_, ?_, ?_, ?_, ?_⟩ <;> simp only [Topo.first, pegasusFirst, pegasusCoordinates, Topo.span, hf]
    · omega
    · omega
    · rw [show (2 * j + k) / 2 = j by omega]; omega
    · rw [show (2 * j + k) / 2 = j by omega]; omega
  | zephyr d t =>
    obtain ⟨s, h1, h2, h3, rfl, h5, h6⟩ := h
    have e : zephyrNum d t (if u then 1 else 0) w k s = linemajorLinear (2 * d + 1) (2 * t) d u w k s := zephyrNum_eq (u := u)
    rw [e]
    have hl := linemajorLinear_lt (u := u) h1 h2 h3
    have e2 : d * (2 * t * ((2 * d + 1) * 2)) = 4 * t * d * (2 * d + 1) := by ring
    have hf := linearLinemajor_linear (u := u) h1 h2 h3
    rw [e2] at hl
    refine ⟨hl, ?_, ?_, ?_, ?_, ?_⟩ <;> simp only [Topo.first, zephyrFirst, zephyrCoordinates, Topo.span, hf]
    · omega
    · omega

theorem frag_lies {T : Topo} {q : Nat} {u : Bool} {w k z : Nat} (hq : IsQubit T q) (h : FragOf T q u w k z) : Lies T q u w k z := by
  cases T with
  | chimera m n t =>
    obtain ⟨hy, hx, hk⟩ := linearChimera_bounds (isQubit_chimera hq)
    have e := chimeraLinear_chimera (dx := n) (t := t) (q := q)
    obtain ⟨h1, h2, h3, h4, h5⟩ := h
    simp only [Topo.first, Topo.span] at *
    generalize linearChimera n t q = c at *
    obtain ⟨y, x, v, k'⟩ := c
    simp only at *
    subst h1 h3
    rw [← chimeraNum_eq] at e
    cases v with
    | false =>
      simp only [Bool.false_eq_true, if_false] at *
      obtain rfl : z = y := by omega
      subst h2
      exact ⟨hy, hx, hk, e.symm⟩
    | true =>
      simp only [if_true] at *
      obtain rfl : z = x := by omega
      subst h2
      exact ⟨hy, hx, hk, e.symm⟩
  | pegasus d off =>
    obtain ⟨hw, hk, hz⟩ := linearLinemajor_bounds (isQubit_pegasus hq)
    have e := linemajorLinear_linemajor (isQubit_pegasus hq)
    obtain ⟨h1, h2, h3, h4, h5⟩ := h
    simp only [Topo.first, Topo.span, pegasusFirst, pegasusCoordinates] at *
    generalize linearLinemajor d 12 (d - 1) q = c at *
    obtain ⟨v, w', k', z'⟩ := c
    simp only at *
    subst h1
    have e' : pegasusNum d (if v then 1 else 0) w' k' z' = linemajorLinear d 12 (d - 1) v w' k' z' := pegasusNum_eq (u := v)
    refine ⟨w', k' / 2, z', hw, by omega, by omega, hz, by omega, ?_, by omega, by omega⟩
    rw [show 2 * (k' / 2) + k = k' by omega, e', e]
  | zephyr d t =>
    obtain ⟨hw, hk, hz⟩ := linearLinemajor_bounds (isQubit_zephyr hq)
    have e := linemajorLinear_linemajor (isQubit_zephyr hq)
    obtain ⟨h1, h2, h3, h4, h5⟩ := h
    simp only [Topo.first, Topo.span, zephyrFirst, zephyrCoordinates] at *
    generalize linearLinemajor (2 * d + 1) (2 * t) d q = c at *
    obtain ⟨v, w', k', z'⟩ := c
    simp only at *
    subst h1 h2 h3
    have e' : zephyrNum d t (if v then 1 else 0) w' k' z' = linemajorLinear (2 * d + 1) (2 * t) d v w' k' z' := zephyrNum_eq (u := v)
    refine ⟨z', hw, hk, hz, ?_, by omega, by omega⟩
    rw [e', e]

end Bus
end MM
