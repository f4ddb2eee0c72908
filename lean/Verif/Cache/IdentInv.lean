import Verif.Cache.SerialInv

/-! What the masks say about the graph. -/

namespace MM
namespace Bus

open Lattice

section
variable {T : Topo} {nodes nodes' : List Nat} {edges edges' : List (Nat × Nat)} {p q : Nat}

theorem odd_coupled (h : OddCoupled T p q) : Coupled T p q := by
  cases T with
  | chimera m n t => exact h.elim
  | pegasus d off => obtain ⟨u, w, j, z, h1, h2, h3, h4, rfl, rfl⟩ := h; exact .odd h1 h2 h3 h4
  | zephyr d t =>
    obtain ⟨u, w, j, z, z', h1, h2, h3, h4, h5, h | h, rfl, rfl⟩ := h
    · subst h; exact .odd h1 h2 h3 h4
    · subst h; exact .odd' h1 h2 h3 h4

/-- Couplers between parallel lines of one bundle are odd. -/
theorem odd_of_parallel (h : Coupled T p q) (hu : (T.first p).1 = (T.first q).1) (hk : (T.first p).2.2.1 ≠ (T.first q).2.2.1) : OddCoupled T p q := by
  cases T with
  | chimera m n t =>
    cases h with
    | @cell y x k k' hy hx hk' hk'' =>
      rw [chimeraNum_zero, chimeraNum_one, first_chimera hx hk', first_chimera hx hk''] at hu
      cases hu
    | @vertical y x k hy hx hk' =>
      rw [chimeraNum_zero, chimeraNum_zero, first_chimera hx hk', first_chimera hx hk'] at hk
      exact absurd rfl hk
    | @horizontal y x k hy hx hk' =>
      rw [chimeraNum_one, chimeraNum_one, first_chimera hx hk', first_chimera (show x < n by omega) hk'] at hk
      exact absurd rfl hk
  | pegasus d off =>
    cases h with
    | @cross w k z w' k' z' hw hk1 hz hw' hk' hz' h1 h2 h3 h4 =>
      rw [pegasusNum_zero, pegasusNum_one, first_pegasus hw hk1 hz, first_pegasus hw' hk' hz'] at hu
      cases hu
    | @external u w k z hu1 hw hk1 hz =>
      obtain ⟨v, rfl⟩ := u_cases hu1
      rw [pegasusNum_eq, pegasusNum_eq, first_pegasus hw hk1 hz, first_pegasus hw hk1 (show z < d - 1 by omega)] at hk
      exact absurd rfl hk
    | @odd u w j z hu1 hw hj hz => exact ⟨u, w, j, z, hu1, hw, hj, hz, rfl, rfl⟩
  | zephyr d t =>
    cases h with
    | @cross w k z w' k' z' hw hk1 hz hw' hk' hz' h1 h2 h3 h4 =>
      rw [zephyrNum_zero, zephyrNum_one, first_zephyr hw hk1 hz, first_zephyr hw' hk' hz'] at hu
      cases hu
    | @external u w k z hu1 hw hk1 hz =>
      obtain ⟨v, rfl⟩ := u_cases hu1
      rw [zephyrNum_eq, zephyrNum_eq, first_zephyr hw hk1 hz, first_zephyr hw hk1 (show z < d by omega)] at hk
      exact absurd rfl hk
    | @odd u w j z hu1 hw hj hz => exact ⟨u, w, j, z, z, hu1, hw, hj, hz, hz, .inl rfl, rfl, rfl⟩
    | @odd' u w j z hu1 hw hj hz => exact ⟨u, w, j, z + 1, z, hu1, hw, hj, hz, by omega, .inr rfl, rfl, rfl⟩

/-- Odd couplers join parallel lines. -/
theorem odd_parallel (h : OddCoupled T p q) : (T.first p).1 = (T.first q).1 ∧ (T.first p).2.2.1 ≠ (T.first q).2.2.1 := by
  cases T with
  | chimera m n t => exact h.elim
  | pegasus d off =>
    obtain ⟨u, w, j, z, h1, h2, h3, h4, rfl, rfl⟩ := h
    obtain ⟨v, rfl⟩ := u_cases h1
    rw [pegasusNum_eq, pegasusNum_eq, first_pegasus h2 (by omega) h4, first_pegasus h2 (by omega) h4]
    exact ⟨rfl, by show 2 * j % 2 ≠ (2 * j + 1) % 2; omega⟩
  | zephyr d t =>
    obtain ⟨u, w, j, z, z', h1, h2, h3, h4, h5, -, rfl, rfl⟩ := h
    obtain ⟨v, rfl⟩ := u_cases h1
    rw [zephyrNum_eq, zephyrNum_eq, first_zephyr h2 (by omega) h4, first_zephyr h2 (by omega) h5]
    exact ⟨rfl, by show 2 * j ≠ 2 * j + 1; omega⟩

/-- Nothing is done for an odd coupler. -/
theorem processEdge_odd (h : OddCoupled T p q) {e : Nat × Nat} (he : e = (p, q) ∨ e = (q, p)) (M : Masks) : processEdge T M e = .ok M := by
  have hk := kind_of (odd_coupled h) he
  have hpar := odd_parallel h
  cases hk with
  | cross h1 h2 _ =>
    have := hpar.1
    rw [h1.hu, h2.hu] at this; cases this
  | line h1 h2 _ =>
    have := hpar.2
    rw [h1.hk, h2] at this; exact absurd rfl this
  | odd _ _ _ h => exact h M

theorem buildMasks_odd (h : OddCoupled T p q) {e : Nat × Nat} (he : e = (p, q) ∨ e = (q, p)) (nodes : List Nat) (l l' : List (Nat × Nat)) : buildMasks T nodes (l ++ e :: l') = buildMasks T nodes (l ++ l') := by
  unfold buildMasks processEdges
  congr 1
  funext M
  congr 1
  rw [List.foldlM_append, List.foldlM_append]
  congr 1
  funext M'
  rw [List.foldlM_cons, processEdge_odd h he]
  rfl

/-- Equal masks come from the same qubits. -/
theorem nodes_of_masks {M : Masks} (hG : WFGraph T nodes edges) (hG' : WFGraph T nodes' edges')
    (h : Rep T M (Has T nodes) (Joint T nodes edges) (Missing T nodes edges)) (h' : Rep T M (Has T nodes') (Joint T nodes' edges') (Missing T nodes' edges')) {q : Nat} (hq : q ∈ nodes) : q ∈ nodes' := by
  have hf : FragOf T q _ _ _ _ := FragOf.first
  obtain ⟨a, b, c⟩ := frag_bounds hG.supported (hG.qubits q hq) hf
  have h1 := (h.node _ _ (T.first q).2.2.1 _ ⟨a, c⟩).mpr ⟨q, hq, hf⟩
  obtain ⟨q', hq', hf'⟩ := (h'.node _ _ _ _ ⟨a, c⟩).mp h1
  rwa [frag_unique (hG.qubits q hq) (hG'.qubits q' hq') hf hf']

/-- Equal masks come from the same couplers, apart from the odd ones. -/
theorem edges_of_masks {M : Masks} (hG : WFGraph T nodes edges) (hG' : WFGraph T nodes' edges')
    (h : Rep T M (Has T nodes) (Joint T nodes edges) (Missing T nodes edges)) (h' : Rep T M (Has T nodes') (Joint T nodes' edges') (Missing T nodes' edges'))
    {p q : Nat} (hc : Coupled T p q) (hl : Linked edges p q) (ho : ¬OddCoupled T p q) : Linked edges' p q := by
  have hends : ∀ {edges : List (Nat × Nat)} {nodes : List Nat}, WFGraph T nodes edges → ∀ {p q}, Linked edges p q → p ∈ nodes ∧ q ∈ nodes := by
    intro edges nodes hG p q hl
    rcases hl with hl | hl
    · exact hG.ends _ hl
    · exact (hG.ends _ hl).symm
  obtain ⟨hp, hq⟩ := hends hG hl
  have hp' := nodes_of_masks hG hG' h h' hp
  have hq' := nodes_of_masks hG hG' h h' hq
  have Qp := hG.qubits p hp
  have Qq := hG.qubits q hq
  cases kind_of hc (.inl rfl) with
  | @cross x y k0 k1 h1 h2 _ =>
    obtain ⟨a, b, c⟩ := frag_bounds hG.supported Qp h1
    have n1 : ¬Missing T nodes edges false x k0 y k1 := fun hm => hm.2.2 ⟨p, q, hl, h1, h2⟩
    have n2 : ¬Missing T nodes' edges' false x k0 y k1 := fun hm => n1 ((h.bad _ _ _ _ _ ⟨a, c⟩ b).mp ((h'.bad _ _ _ _ _ ⟨a, c⟩ b).mpr hm))
    have hx : Crossed T edges' false x k0 y k1 := by
      by_contra hx
      exact n2 ⟨⟨p, hp', h1⟩, ⟨q, hq', h2⟩, hx⟩
    obtain ⟨p', q', hl', h1', h2'⟩ := hx
    obtain ⟨r1, r2⟩ := hends hG' hl'
    rw [frag_unique Qp (hG'.qubits _ r1) h1 h1', frag_unique Qq (hG'.qubits _ r2) h2 h2']
    exact hl'
  | @line u w k z h1 h2 _ =>
    have h2 : FragOf T q u w k (z + 1) := fragOf_of_first h2 (Nat.le_refl _) (by have := span_pos T; omega)
    obtain ⟨a, b, c⟩ := frag_bounds hG.supported Qq h2
    have hj := (h'.edge _ _ k _ ⟨a, c⟩).mp ((h.edge _ _ k _ ⟨a, c⟩).mpr ⟨z, rfl, p, hp, q, hq, h1, h2, .inr hl⟩)
    obtain ⟨z0, e, p', r1, q', r2, h1', h2', hl'⟩ := hj
    obtain rfl : z = z0 := by omega
    have e1 := frag_unique Qp (hG'.qubits _ r1) h1 h1'
    have e2 := frag_unique Qq (hG'.qubits _ r2) h2 h2'
    subst e1 e2
    rcases hl' with rfl | hl'
    · exact absurd (coupled_lt hc) (Nat.lt_irrefl _)
    · exact hl'
  | odd h1 h2 h3 _ => exact absurd (odd_of_parallel hc h1 h3) ho
end

end Bus
end MM
