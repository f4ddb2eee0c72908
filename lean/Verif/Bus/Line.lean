import Verif.Bus.EdgeInv
import Verif.Bus.Bundle
import Verif.Spec.Clique

/-! The qubits of a segment of a line. -/

namespace MM
namespace Bus

open Lattice

namespace Topo

/-- Position of the first fragment of the first qubit of a line. -/
def org : Topo → Bool → Nat → Nat → Nat
  | chimera _ _ _, _, _, _ => 0
  | pegasus _ off, u, w, _ => off u (w % 6)
  | zephyr _ _, _, _, k => k % 2

/-- Qubit number `i` of a line. -/
def qub : Topo → Bool → Nat → Nat → Nat → Nat
  | T@(chimera _ _ _), u, w, k, i => T.frag u w i k
  | pegasus d _, u, w, k, i => pegasusLinear d u (w / 6) (2 * (w % 6) + k) i
  | zephyr d t, u, w, k, i => zephyrLinear d t u w k i

/-- Which qubit of a line has position `z`. -/
def piece (T : Topo) (u : Bool) (w k z : Nat) : Nat := (z - T.org u w k) / T.span

end Topo

theorem own_qub (T : Topo) (u : Bool) (w k z : Nat) : T.own u w k z = T.qub u w k (T.piece u w k z) := by
  cases T with
  | chimera m n t => simp [Topo.own, Topo.qub, Topo.piece, Topo.org, Topo.span]
  | pegasus d off => rfl
  | zephyr d t => rfl

theorem align {T : Topo} {q : Nat} {u : Bool} {w k z : Nat} (hq : IsQubit T q) (h : FragOf T q u w k z) :
    T.org u w k ≤ z ∧ (T.first q).2.2.2 = T.org u w k + T.span * T.piece u w k z := by
  cases T with
  | chimera m n t =>
    obtain ⟨h1, h2, h3, h4, h5⟩ := h
    simp only [Topo.org, Topo.piece, Topo.span] at *
    omega
  | pegasus d off =>
    obtain ⟨hw, hk, hz⟩ := linearLinemajor_bounds (isQubit_pegasus hq)
    obtain ⟨h1, h2, h3, h4, h5⟩ := h
    simp only [Topo.first, Topo.span, Topo.org, Topo.piece, pegasusFirst, pegasusCoordinates] at *
    generalize hc : linearLinemajor d 12 (d - 1) q = c at *
    obtain ⟨v, w', k', z'⟩ := c
    simp only at *
    subst h1
    have a2 : w % 6 = k' / 2 := by omega
    rw [a2]
    generalize off v (k' / 2) = o at *
    omega
  | zephyr d t =>
    obtain ⟨h1, h2, h3, h4, h5⟩ := h
    simp only [Topo.first, Topo.span, Topo.org, Topo.piece, zephyrFirst, zephyrCoordinates] at *
    generalize hc : linearLinemajor (2 * d + 1) (2 * t) d q = c at *
    obtain ⟨v, w', k', z'⟩ := c
    simp only at *
    subst h3
    omega

theorem constructLine_eq {T : Topo} {u : Bool} {w k z0 z1 : Nat} (hk : k < T.shore) (h0 : T.org u w k ≤ z0) (h1 : z0 ≤ z1) :
    constructLine T u w z0 z1 k = .ok ((List.range' (T.piece u w k z0) (T.piece u w k z1 + 1 - T.piece u w k z0)).map (T.qub u w k)) := by
  cases T with
  | chimera m n t =>
    simp only [constructLine, Topo.piece, Topo.org, Topo.span, Nat.sub_zero, Nat.div_one]
    cases u <;> rfl
  | pegasus d off =>
    simp only [Topo.shore] at hk
    simp only [Topo.org] at h0
    have e1 : (w * 2 + k) % 12 = 2 * (w % 6) + k := by omega
    have e2 : (w * 2 + k) / 12 = w / 6 := by omega
    have e3 : (2 * (w % 6) + k) / 2 = w % 6 := by omega
    simp only [constructLine, e1, e2, e3, sub_, if_pos h0, if_pos (Nat.le_trans h0 h1)]
    rfl
  | zephyr d t =>
    simp only [Topo.org] at h0
    simp only [constructLine, sub_, if_pos h0, if_pos (Nat.le_trans h0 h1)]
    rfl

/-- What the chain of a segment of a line looks like. -/
structure Line (T : Topo) (nodes : List Nat) (edges : List (Nat × Nat)) (u : Bool) (w k z0 z1 : Nat) (l : List Nat) : Prop where
  mem : ∀ q, q ∈ l ↔ q ∈ nodes ∧ ∃ z, z0 ≤ z ∧ z ≤ z1 ∧ FragOf T q u w k z
  nodup : l.Nodup
  chain : Spec.IsChain nodes edges l
  length : l.length = T.piece u w k z1 + 1 - T.piece u w k z0

theorem Line.covers {T : Topo} {nodes : List Nat} {edges : List (Nat × Nat)} {u : Bool} {w k z0 z1 : Nat} {l : List Nat} (h : Line T nodes edges u w k z0 z1 l)
    {q z : Nat} (hq : q ∈ nodes) (hz : z0 ≤ z) (hz' : z ≤ z1) (hf : FragOf T q u w k z) : q ∈ l :=
  (h.mem q).mpr ⟨hq, z, hz, hz', hf⟩

/-- A row of elements, each linked to the next, is connected. -/
theorem row_connected {R : Nat → Nat → Prop} {c : List Nat} {f : Nat → Nat} {a n : Nat} (hsymm : ∀ x y, R x y → R y x) (hmem : ∀ i, a ≤ i → i < a + n → f i ∈ c)
    (hlink : ∀ i, a ≤ i → i + 1 < a + n → R (f i) (f (i + 1))) :
    ∀ i j, a ≤ i → i < a + n → a ≤ j → j < a + n → Relation.ReflTransGen (fun x y => x ∈ c ∧ y ∈ c ∧ R x y) (f i) (f j) := by
  have up : ∀ d i, a ≤ i → i + d < a + n → Relation.ReflTransGen (fun x y => x ∈ c ∧ y ∈ c ∧ R x y) (f i) (f (i + d)) := by
    intro d
    induction d with
    | zero => intro i _ _; exact .refl
    | succ d ih =>
      intro i h1 h2
      exact (ih i h1 (by omega)).tail ⟨hmem _ (by omega) (by omega), hmem _ (by omega) (by omega), hlink (i + d) (by omega) (by omega)⟩
  have down : ∀ d i, a ≤ i → i + d < a + n → Relation.ReflTransGen (fun x y => x ∈ c ∧ y ∈ c ∧ R x y) (f (i + d)) (f i) := by
    intro d
    induction d with
    | zero => intro i _ _; exact .refl
    | succ d ih =>
      intro i h1 h2
      exact Relation.ReflTransGen.head ⟨hmem _ (by omega) (by omega), hmem _ (by omega) (by omega), hsymm _ _ (hlink (i + d) (by omega) (by omega))⟩ (ih i h1 (by omega))
  intro i j h1 h2 h3 h4
  rcases Nat.le_total i j with h | h
  · have := up (j - i) i h1 (by omega)
    rwa [show i + (j - i) = j by omega] at this
  · have := down (i - j) j h3 (by omega)
    rwa [show j + (i - j) = i by omega] at this

theorem line_ok {T : Topo} {nodes : List Nat} {edges : List (Nat × Nat)} (hG : WFGraph T nodes edges) {u : Bool} {w k z0 z1 : Nat} (hz : z0 ≤ z1)
    (hN : ∀ z, z0 ≤ z → z ≤ z1 → Has T nodes u w k z) (hE : ∀ z, z0 < z → z ≤ z1 → Joint T nodes edges u w k z) :
    ∃ l, constructLine T u w z0 z1 k = .ok l ∧ Line T nodes edges u w k z0 z1 l := by
  have hk : k < T.shore := (Has.bounds hG.supported hG.qubits (hN z0 (Nat.le_refl _) hz)).2
  have hs := span_pos T
  have hown : ∀ q ∈ nodes, ∀ z, FragOf T q u w k z → q = T.qub u w k (T.piece u w k z) := by
    intro q hq z hf
    rw [← own_qub, own_eq (hG.qubits q hq) hf]
  have horg : T.org u w k ≤ z0 := by
    obtain ⟨q, hq, hf⟩ := hN z0 (Nat.le_refl _) hz
    exact (align (hG.qubits q hq) hf).1
  have hmono : ∀ z z', z ≤ z' → T.piece u w k z ≤ T.piece u w k z' := fun z z' h => Nat.div_le_div_right (by omega)
  -- each number in the range has a position in the segment
  have hat : ∀ i, T.piece u w k z0 ≤ i → i < T.piece u w k z1 + 1 → ∃ z, z0 ≤ z ∧ z ≤ z1 ∧ T.piece u w k z = i ∧ T.qub u w k i ∈ nodes ∧ FragOf T (T.qub u w k i) u w k z := by
    intro i h0 h1
    have hup : T.org u w k + T.span * i ≤ z1 := by
      have h2 : T.span * i ≤ T.span * T.piece u w k z1 := Nat.mul_le_mul_left _ (by omega)
      have h3 : T.span * T.piece u w k z1 ≤ z1 - T.org u w k := Nat.mul_div_le _ _
      omega
    have hp : T.piece u w k (max z0 (T.org u w k + T.span * i)) = i := by
      rcases Nat.le_total z0 (T.org u w k + T.span * i) with h | h
      · rw [Nat.max_eq_right h]
        unfold Topo.piece
        rw [Nat.add_sub_cancel_left, Nat.mul_div_cancel_left _ hs]
      · rw [Nat.max_eq_left h]
        refine Nat.le_antisymm h0 ?_
        unfold Topo.piece
        rw [Nat.le_div_iff_mul_le hs, Nat.mul_comm]
        omega
    obtain ⟨q, hq, hf⟩ := hN (max z0 (T.org u w k + T.span * i)) (by omega) (by omega)
    have e := hown q hq _ hf
    rw [hp] at e
    subst e
    exact ⟨_, by omega, by omega, hp, hq, hf⟩
  refine ⟨_, constructLine_eq hk horg hz, ?_⟩
  generalize hl : (List.range' (T.piece u w k z0) (T.piece u w k z1 + 1 - T.piece u w k z0)).map (T.qub u w k) = l
  have h01 := hmono z0 z1 hz
  have hmem : ∀ i, T.piece u w k z0 ≤ i → i < T.piece u w k z0 + (T.piece u w k z1 + 1 - T.piece u w k z0) → T.qub u w k i ∈ l := by
    intro i h0 h1
    rw [← hl]
    exact List.mem_map_of_mem (List.mem_range'_1.mpr ⟨h0, h1⟩)
  have hget : ∀ q ∈ l, ∃ i, T.piece u w k z0 ≤ i ∧ i < T.piece u w k z0 + (T.piece u w k z1 + 1 - T.piece u w k z0) ∧ T.qub u w k i = q := by
    intro q hq
    rw [← hl] at hq
    obtain ⟨i, hi, e⟩ := List.mem_map.mp hq
    rw [List.mem_range'_1] at hi
    exact ⟨i, hi.1, hi.2, e⟩
  refine ⟨fun q => ⟨fun h => ?_, ?_⟩, ?_, ⟨?_, fun q hq => ?_, fun p hp q hq => ?_⟩, ?_⟩
  · obtain ⟨i, h0, h1, rfl⟩ := hget q h
    obtain ⟨z, a, b, c, d, e⟩ := hat i h0 (by omega)
    exact ⟨d, z, a, b, e⟩
  · rintro ⟨hq, z, a, b, hf⟩
    rw [hown q hq z hf]
    have := hmono _ _ a
    have := hmono _ _ b
    exact hmem _ (by omega) (by omega)
  · rw [← hl, List.nodup_map_iff_inj_on List.nodup_range']
    intro i hi j hj e
    rw [List.mem_range'_1] at hi hj
    obtain ⟨z, _, _, a3, a4, a5⟩ := hat i (by omega) (by omega)
    obtain ⟨z', _, _, b3, b4, b5⟩ := hat j (by omega) (by omega)
    have e1 := (align (hG.qubits _ a4) a5).2
    have e2 := (align (hG.qubits _ b4) b5).2
    rw [← e, e1, a3, b3] at e2
    exact Nat.eq_of_mul_eq_mul_left hs (by omega)
  · intro hnil
    have := hmem _ (Nat.le_refl _) (by omega)
    rw [hnil] at this
    cases this
  · obtain ⟨i, h0, h1, rfl⟩ := hget q hq
    obtain ⟨z, _, _, _, d, _⟩ := hat i h0 (by omega)
    exact d
  · obtain ⟨i, i0, i1, rfl⟩ := hget p hp
    obtain ⟨j, j0, j1, rfl⟩ := hget q hq
    refine row_connected (R := Spec.Coupler edges) (f := T.qub u w k) (fun x y h => Or.symm h) hmem (fun i h0 h1 => ?_) i j i0 i1 j0 j1
    obtain ⟨z, a1, a2, a3, a4, a5⟩ := hat i h0 (by omega)
    obtain ⟨z', b1, b2, b3, b4, b5⟩ := hat (i + 1) (by omega) (by omega)
    -- the first position of the qubit number i + 1
    have e2 := (align (hG.qubits _ b4) b5)
    rw [b3] at e2
    have e3 := b5.ge
    have hle : z < T.org u w k + T.span * (i + 1) := by
      have e1 := align (hG.qubits _ a4) a5
      have := a5.lt
      rw [e1.2, a3] at this
      rw [Nat.mul_succ]; omega
    have hf : FragOf T (T.qub u w k (i + 1)) u w k (T.org u w k + T.span * (i + 1)) := ⟨b5.hu, b5.hw, b5.hk, by omega, by omega⟩
    obtain ⟨y, hy, p', hp', q', hq', f1, f2, f3⟩ := hE (T.org u w k + T.span * (i + 1)) (by omega) (by omega)
    obtain rfl := frag_unique (hG.qubits _ hq') (hG.qubits _ b4) f2 hf
    have hy' : T.piece u w k y = i := by
      have g1 : T.span * i ≤ y - T.org u w k := by rw [Nat.mul_succ] at hy; omega
      have g2 : y - T.org u w k < T.span * (i + 1) := by rw [Nat.mul_succ] at hy ⊢; omega
      unfold Topo.piece
      apply Nat.le_antisymm
      · exact Nat.lt_succ_iff.mp ((Nat.div_lt_iff_lt_mul hs).mpr (by rw [Nat.mul_comm]; exact g2))
      · rw [Nat.le_div_iff_mul_le hs, Nat.mul_comm]; exact g1
    have ep := hown p' hp' y f1
    rw [hy'] at ep
    rw [← ep]
    rcases f3 with f3 | f3
    · exfalso
      have := f1.ge
      rw [f3, e2.2] at this
      omega
    · exact f3
  · rw [← hl, List.length_map, List.length_range']

end Bus
end MM
