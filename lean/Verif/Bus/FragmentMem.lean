import Verif.Bus.FragmentInv
import Verif.Cache.IdentInv
import Verif.Spec.Fragment

/-! The fragment graph in terms of the given graph. -/

namespace MM
namespace Bus

open Lattice Spec

theorem fragment_iff {T : Topo} {q a : Nat} (hq : IsQubit T q) : Fragment T q a ↔ ∃ u w k z, FragOf T q u w k z ∧ a = T.frag u w z k := by
  constructor
  · intro h
    cases h with
    | @chimera m n t _ h => exact ⟨_, _, _, _, FragOf.first, (own_eq hq FragOf.first).symm⟩
    | @pegasusColumn d off w k z i hw hk hz hi =>
      rw [pegasusNum_zero]
      refine ⟨_, _, _, z * 6 + off false (k / 2) + i, fragOf_of_first (first_pegasus hw hk hz) (by omega) (by simp only [Topo.span]; omega), ?_⟩
      rw [chimeraNum_zero]
      simp only [Topo.frag, Bool.false_eq_true, if_false, Topo.dimX, Topo.shore, Nat.mul_comm 6 z, Nat.mul_comm 6 w]
    | @pegasusRow d off w k z i hw hk hz hi =>
      rw [pegasusNum_one]
      refine ⟨_, _, _, z * 6 + off true (k / 2) + i, fragOf_of_first (first_pegasus hw hk hz) (by omega) (by simp only [Topo.span]; omega), ?_⟩
      rw [chimeraNum_one]
      simp only [Topo.frag, if_true, Topo.dimX, Topo.shore, Nat.mul_comm 6 z, Nat.mul_comm 6 w]
    | @zephyrColumn d t w k z i hw hk hz hi =>
      rw [zephyrNum_zero]
      refine ⟨_, _, _, z * 2 + k % 2 + i, fragOf_of_first (first_zephyr hw hk hz) (by omega) (by simp only [Topo.span]; omega), ?_⟩
      rw [chimeraNum_zero]
      simp only [Topo.frag, Bool.false_eq_true, if_false, Topo.dimX, Topo.shore, Nat.mul_comm 2 z]
    | @zephyrRow d t w k z i hw hk hz hi =>
      rw [zephyrNum_one]
      refine ⟨_, _, _, z * 2 + k % 2 + i, fragOf_of_first (first_zephyr hw hk hz) (by omega) (by simp only [Topo.span]; omega), ?_⟩
      rw [chimeraNum_one]
      simp only [Topo.frag, if_true, Topo.dimX, Topo.shore, Nat.mul_comm 2 z]
  · rintro ⟨u, w, k, z, h, rfl⟩
    cases T with
    | chimera m n t =>
      have := own_eq hq h
      simp only [Topo.own] at this
      rw [this]
      exact .chimera hq
    | pegasus d off =>
      have hb := linearLinemajor_bounds (isQubit_pegasus hq)
      have e := linemajorLinear_linemajor (isQubit_pegasus hq)
      obtain ⟨h1, h2, h3, h4, h5⟩ := h
      simp only [Topo.first, Topo.span, pegasusFirst, pegasusCoordinates] at h1 h2 h3 h4 h5
      generalize hc : linearLinemajor d 12 (d - 1) q = c at *
      obtain ⟨v, w', k', z'⟩ := c
      obtain ⟨b1, b2, b3⟩ := hb
      simp only at *
      subst h1
      rw [← h2, ← h3, ← e, show z = 6 * z' + off v (k' / 2) + (z - (6 * z' + off v (k' / 2))) by omega, Nat.mul_comm w' 6]
      cases v with
      | false =>
        have := Fragment.pegasusColumn (off := off) b1 b2 b3 (show z - (6 * z' + off false (k' / 2)) < 6 by omega)
        rw [pegasusNum_zero, chimeraNum_zero] at this
        exact this
      | true =>
        have := Fragment.pegasusRow (off := off) b1 b2 b3 (show z - (6 * z' + off true (k' / 2)) < 6 by omega)
        rw [pegasusNum_one, chimeraNum_one] at this
        exact this
    | zephyr d t =>
      have hb := linearLinemajor_bounds (isQubit_zephyr hq)
      have e := linemajorLinear_linemajor (isQubit_zephyr hq)
      obtain ⟨h1, h2, h3, h4, h5⟩ := h
      simp only [Topo.first, Topo.span, zephyrFirst, zephyrCoordinates] at h1 h2 h3 h4 h5
      generalize hc : linearLinemajor (2 * d + 1) (2 * t) d q = c at *
      obtain ⟨v, w', k', z'⟩ := c
      obtain ⟨b1, b2, b3⟩ := hb
      simp only at *
      subst h1
      rw [← h2, ← h3, ← e, show z = 2 * z' + k' % 2 + (z - (2 * z' + k' % 2)) by omega]
      cases v with
      | false =>
        have := Fragment.zephyrColumn b1 b2 b3 (show z - (2 * z' + k' % 2) < 2 by omega)
        rw [zephyrNum_zero, chimeraNum_zero] at this
        exact this
      | true =>
        have := Fragment.zephyrRow b1 b2 b3 (show z - (2 * z' + k' % 2) < 2 by omega)
        rw [zephyrNum_one, chimeraNum_one] at this
        exact this

theorem fragment_frag {T : Topo} {q : Nat} {u : Bool} {w k z : Nat} (hs : Supported T) (hq : IsQubit T q) (hr : InR T u w z) (hk : k < T.shore)
    (h : Fragment T q (T.frag u w z k)) : FragOf T q u w k z := by
  obtain ⟨u', w', k', z', hf, e⟩ := (fragment_iff hq).mp h
  obtain ⟨b1, b2, b3⟩ := frag_bounds hs hq hf
  obtain ⟨rfl, rfl, rfl, rfl⟩ := frag_inj hr hk ⟨b1, b3⟩ b2 e
  exact hf

theorem fragment_unique {T : Topo} {p q a : Nat} (hs : Supported T) (hp : IsQubit T p) (hq : IsQubit T q) (h : Fragment T p a) (h' : Fragment T q a) : p = q := by
  obtain ⟨u, w, k, z, hf, rfl⟩ := (fragment_iff hp).mp h
  obtain ⟨b1, b2, b3⟩ := frag_bounds hs hp hf
  exact frag_unique hp hq hf (fragment_frag hs hq ⟨b1, b3⟩ b2 h')

theorem mem_fragmentLoop {T : Topo} {u : Bool} {w k z0 n a : Nat} : a ∈ fragmentLoop T u w k z0 n ↔ ∃ z, z0 ≤ z ∧ z < z0 + n ∧ a = T.frag u w z k := by
  induction n with
  | zero => simp [fragmentLoop]; omega
  | succ n ih =>
    simp only [fragmentLoop, List.mem_cons, ih]
    constructor
    · rintro (h | ⟨z, h1, h2, h3⟩)
      · exact ⟨z0 + n, by omega, by omega, h⟩
      · exact ⟨z, h1, by omega, h3⟩
    · rintro ⟨z, h1, h2, h3⟩
      by_cases e : z = z0 + n
      · subst e; exact .inl h3
      · exact .inr ⟨z, h1, by omega, h3⟩

theorem mem_fragments {T : Topo} {q a : Nat} (hq : IsQubit T q) : a ∈ T.fragments q ↔ Fragment T q a := by
  rw [fragment_iff hq]
  have key : a ∈ fragmentLoop T (T.first q).1 (T.first q).2.1 (T.first q).2.2.1 (T.first q).2.2.2 T.span ↔ ∃ u w k z, FragOf T q u w k z ∧ a = T.frag u w z k := by
    rw [mem_fragmentLoop]
    constructor
    · rintro ⟨z, h1, h2, h3⟩; exact ⟨_, _, _, z, ⟨rfl, rfl, rfl, h1, h2⟩, h3⟩
    · rintro ⟨u, w, k, z, ⟨h1, h2, h3, h4, h5⟩, h6⟩; exact ⟨z, h4, h5, by rw [h1, h2, h3]; exact h6⟩
  cases T with
  | chimera m n t =>
    rw [← key]
    have := own_eq hq (FragOf.first (T := .chimera m n t))
    simp only [Topo.own] at this
    simp only [Topo.fragments, Topo.span, fragmentLoop, Nat.add_zero, this]
  | pegasus d off => exact key
  | zephyr d t => exact key

theorem mem_chainFragments {T : Topo} {c : List Nat} {a : Nat} (hc : ∀ q ∈ c, IsQubit T q) : a ∈ T.chainFragments c ↔ ∃ q ∈ c, Fragment T q a := by
  unfold Topo.chainFragments
  rw [List.mem_flatMap]
  exact ⟨fun ⟨q, h1, h2⟩ => ⟨q, h1, (mem_fragments (hc q h1)).mp h2⟩, fun ⟨q, h1, h2⟩ => ⟨q, h1, (mem_fragments (hc q h1)).mpr h2⟩⟩

theorem fragment_exists {T : Topo} {q : Nat} (hq : IsQubit T q) : ∃ a, Fragment T q a := ⟨_, (fragment_iff hq).mpr ⟨_, _, _, _, FragOf.first, rfl⟩⟩

/-- Numbers below the number of places. -/
theorem frag_surj {T : Topo} {a : Nat} (h : a < T.shore * T.numCells) : ∃ u w z k, InR T u w z ∧ k < T.shore ∧ a = T.frag u w z k := by
  have e : T.shore * T.numCells = T.shore * (2 * (T.dimX * T.dimY)) := by unfold Topo.numCells; ring
  rw [e] at h
  obtain ⟨h1, h2, h3⟩ := linearChimera_bounds h
  have e2 := chimeraLinear_chimera (dx := T.dimX) (t := T.shore) (q := a)
  generalize linearChimera T.dimX T.shore a = c at *
  obtain ⟨y, x, u, k⟩ := c
  cases u with
  | false => exact ⟨false, x, y, k, ⟨h2, h1⟩, h3, e2.symm⟩
  | true => exact ⟨true, y, x, k, ⟨h1, h2⟩, h3, e2.symm⟩

theorem mem_listedNodes {T : Topo} {M : Masks} {N E : Bool → Nat → Nat → Nat → Prop} {D : Bool → Nat → Nat → Nat → Nat → Prop} (h : Rep T M N E D) {a : Nat} :
    a ∈ listedNodes T.shore M.node (T.shore * T.numCells) ↔ ∃ u w k z, InR T u w z ∧ k < T.shore ∧ N u w k z ∧ a = T.frag u w z k := by
  unfold listedNodes
  rw [List.mem_filter, List.mem_range, bitB_iff]
  constructor
  · rintro ⟨h1, h2⟩
    obtain ⟨u, w, z, k, hr, hk, rfl⟩ := frag_surj h1
    rw [frag_eq_cell, mix_div hk, mix_mod hk] at h2
    exact ⟨u, w, k, z, hr, hk, (h.node _ _ _ _ hr).mp h2, rfl⟩
  · rintro ⟨u, w, k, z, hr, hk, hn, rfl⟩
    refine ⟨by have := frag_lt hr hk; rwa [Nat.mul_comm] at this, ?_⟩
    rw [frag_eq_cell, mix_div hk, mix_mod hk]
    exact (h.node _ _ _ _ hr).mpr hn

theorem mem_cellOrder {T : Topo} {c : Nat × Nat} : c ∈ cellOrder T ↔ c.1 < T.dimY ∧ c.2 < T.dimX := by
  obtain ⟨y, x⟩ := c
  simp [cellOrder]

theorem mem_listedEdges {T : Topo} {M : Masks} {N E : Bool → Nat → Nat → Nat → Prop} {D : Bool → Nat → Nat → Nat → Nat → Prop} (h : Rep T M N E D) {a b : Nat} :
    (a, b) ∈ (cellOrder T).flatMap (ofCell T M) ↔
      (∃ u w k z, InR T u w z ∧ k < T.shore ∧ E u w k z ∧ a = T.frag u w z k ∧ b = T.frag u w (z - 1) k) ∨
      (∃ x k y j, InR T false x y ∧ k < T.shore ∧ j < T.shore ∧ N false x k y ∧ N true y j x ∧ ¬D false x k y j ∧ a = T.frag false x y k ∧ b = T.frag true y x j) := by
  rw [List.mem_flatMap]
  constructor
  · rintro ⟨⟨y, x⟩, hc, hab⟩
    obtain ⟨hy, hx⟩ := mem_cellOrder.mp hc
    simp only [ofCell, List.mem_append, List.mem_flatMap, List.mem_range] at hab
    rcases hab with ⟨k, hk, hab⟩ | ⟨k, hk, hab⟩
    · unfold ofVertical at hab
      rcases List.mem_append.mp hab with hab | hab
      · by_cases hb : bitB M.edge (T.cell false x y) k = true
        · rw [if_pos hb, List.mem_singleton] at hab
          cases hab
          exact .inl ⟨false, x, k, y, ⟨hx, hy⟩, hk, (h.edge _ _ _ _ ⟨hx, hy⟩).mp (bitB_iff.mp hb), rfl, rfl⟩
        · rw [if_neg hb] at hab; simp at hab
      · by_cases hb : bitB M.node (T.cell false x y) k = true
        · rw [if_pos hb] at hab
          simp only [listedCross, List.mem_map, List.mem_filter, List.mem_range, Bool.and_eq_true, Bool.not_eq_true'] at hab
          obtain ⟨j, ⟨hj, h1, h2⟩, he⟩ := hab
          cases he
          refine .inr ⟨x, k, y, j, ⟨hx, hy⟩, hk, hj, (h.node _ _ _ _ ⟨hx, hy⟩).mp (bitB_iff.mp hb), (h.node _ _ _ _ ⟨hy, hx⟩).mp (bitB_iff.mp h1), ?_, rfl, rfl⟩
          intro hd
          rw [bitB_iff.mpr ((h.bad _ _ _ _ _ ⟨hx, hy⟩ hk).mpr hd)] at h2
          cases h2
        · rw [if_neg hb] at hab; simp at hab
    · unfold ofHorizontal at hab
      by_cases hb : bitB M.edge (T.cell true y x) k = true
      · rw [if_pos hb, List.mem_singleton] at hab
        cases hab
        exact .inl ⟨true, y, k, x, ⟨hy, hx⟩, hk, (h.edge _ _ _ _ ⟨hy, hx⟩).mp (bitB_iff.mp hb), rfl, rfl⟩
      · rw [if_neg hb] at hab; simp at hab
  · rintro (⟨u, w, k, z, hr, hk, he, rfl, rfl⟩ | ⟨x, k, y, j, ⟨hx, hy⟩, hk, hj, h1, h2, h3, rfl, rfl⟩)
    · have hb := bitB_iff.mpr ((h.edge _ _ _ _ hr).mpr he)
      obtain ⟨hw, hz⟩ := hr
      cases u with
      | false =>
        refine ⟨(z, w), mem_cellOrder.mpr ⟨hz, hw⟩, ?_⟩
        simp only [ofCell, List.mem_append, List.mem_flatMap, List.mem_range]
        refine .inl ⟨k, hk, ?_⟩
        unfold ofVertical
        rw [if_pos hb]
        simp
      | true =>
        refine ⟨(w, z), mem_cellOrder.mpr ⟨hw, hz⟩, ?_⟩
        simp only [ofCell, List.mem_append, List.mem_flatMap, List.mem_range]
        refine .inr ⟨k, hk, ?_⟩
        unfold ofHorizontal
        rw [if_pos hb]
        simp
    · refine ⟨(y, x), mem_cellOrder.mpr ⟨hy, hx⟩, ?_⟩
      simp only [ofCell, List.mem_append, List.mem_flatMap, List.mem_range]
      refine .inl ⟨k, hk, ?_⟩
      unfold ofVertical
      rw [if_pos (bitB_iff.mpr ((h.node _ _ _ _ ⟨hx, hy⟩).mpr h1)), List.mem_append]
      right
      simp only [listedCross, List.mem_map, List.mem_filter, List.mem_range, Bool.and_eq_true, Bool.not_eq_true']
      refine ⟨j, ⟨hj, bitB_iff.mpr ((h.node _ _ _ _ ⟨hy, hx⟩).mpr h2), ?_⟩, rfl⟩
      rw [← Bool.not_eq_true]
      intro hd
      exact h3 ((h.bad _ _ _ _ _ ⟨hx, hy⟩ hk).mp (bitB_iff.mp hd))

/-- The fragment graph in coordinates. -/
theorem fragmentGraphSpec_ok {T : Topo} {nodes : List Nat} {edges : List (Nat × Nat)} (hG : WFGraph T nodes edges) :
    ∃ ns es, fragmentGraphSpec T nodes edges = .ok { m := T.dimY, n := T.dimX, t := T.shore, nodes := ns, edges := es } ∧ ns.Pairwise (· < ·) ∧
      (∀ a, a ∈ ns ↔ ∃ u w k z, Has T nodes u w k z ∧ a = T.frag u w z k) ∧
      ∀ a b, (a, b) ∈ es ↔ (∃ u w k z, Joint T nodes edges u w k (z + 1) ∧ a = T.frag u w (z + 1) k ∧ b = T.frag u w z k) ∨
        (∃ x k y j, Crossed T edges false x k y j ∧ a = T.frag false x y k ∧ b = T.frag true y x j) := by
  obtain ⟨M, hM, r⟩ := buildMasks_ok hG
  have hs := shore_le hG.supported
  refine ⟨_, _, ?_, ?_, fun a => (mem_listedNodes r).trans ?_, fun a b => (mem_listedEdges r).trans ?_⟩
  · simp only [fragmentGraphSpec, hM, bind, Except.bind, fragmentNodes_eq r hs, fragmentEdges_eq r hs (by rintro u w k z ⟨z0, e, _⟩; omega)]
    rfl
  · unfold listedNodes
    exact List.Pairwise.filter _ List.pairwise_lt_range
  · constructor
    · rintro ⟨u, w, k, z, _, _, h, e⟩; exact ⟨u, w, k, z, h, e⟩
    · rintro ⟨u, w, k, z, h, e⟩
      obtain ⟨h1, h2⟩ := h.bounds hG.supported hG.qubits
      exact ⟨u, w, k, z, h1, h2, h, e⟩
  · refine or_congr ?_ ?_
    · constructor
      · rintro ⟨u, w, k, z, _, _, h, e1, e2⟩
        obtain ⟨z0, rfl, _⟩ := id h
        exact ⟨u, w, k, z0, h, e1, e2⟩
      · rintro ⟨u, w, k, z, h, e1, e2⟩
        obtain ⟨z0, e0, p, hp, q, hq, _, h2, _⟩ := id h
        obtain ⟨b1, b2, b3⟩ := frag_bounds hG.supported (hG.qubits q hq) h2
        exact ⟨u, w, k, z + 1, ⟨b1, b3⟩, b2, h, e1, e2⟩
    · constructor
      · rintro ⟨x, k, y, j, _, _, _, h1, h2, h3, e1, e2⟩
        refine ⟨x, k, y, j, ?_, e1, e2⟩
        by_contra hn
        exact h3 ⟨h1, h2, hn⟩
      · rintro ⟨x, k, y, j, h, e1, e2⟩
        obtain ⟨p, q, hl, f1, f2⟩ := id h
        have hn : p ∈ nodes ∧ q ∈ nodes := by
          rcases hl with hl | hl
          · exact hG.ends _ hl
          · exact (hG.ends _ hl).symm
        obtain ⟨b1, b2, b3⟩ := frag_bounds hG.supported (hG.qubits p hn.1) f1
        obtain ⟨c1, c2, c3⟩ := frag_bounds hG.supported (hG.qubits q hn.2) f2
        exact ⟨x, k, y, j, ⟨b1, b3⟩, b2, c2, ⟨p, hn.1, f1⟩, ⟨q, hn.2, f2⟩, fun hm => hm.2.2 h, e1, e2⟩

theorem fragmentEdge_iff {T : Topo} {nodes : List Nat} {edges es : List (Nat × Nat)} (hG : WFGraph T nodes edges)
    (hes : ∀ a b, (a, b) ∈ es ↔ (∃ u w k z, Joint T nodes edges u w k (z + 1) ∧ a = T.frag u w (z + 1) k ∧ b = T.frag u w z k) ∨
        (∃ x k y j, Crossed T edges false x k y j ∧ a = T.frag false x y k ∧ b = T.frag true y x j)) (a b : Nat) :
    Coupler es a b ↔ (ChimeraCoupled T.dimY T.dimX T.shore a b ∨ ChimeraCoupled T.dimY T.dimX T.shore b a) ∧
      ∃ p ∈ nodes, ∃ q ∈ nodes, Fragment T p a ∧ Fragment T q b ∧ (p = q ∨ Coupler edges p q) := by
  have hends : ∀ {p q}, Coupler edges p q → p ∈ nodes ∧ q ∈ nodes := by
    rintro p q (h | h)
    · exact hG.ends _ h
    · exact (hG.ends _ h).symm
  have fwd : ∀ a b, (a, b) ∈ es → (ChimeraCoupled T.dimY T.dimX T.shore a b ∨ ChimeraCoupled T.dimY T.dimX T.shore b a) ∧
      ∃ p ∈ nodes, ∃ q ∈ nodes, Fragment T p a ∧ Fragment T q b ∧ (p = q ∨ Coupler edges p q) := by
    intro a b h
    rcases (hes a b).mp h with ⟨u, w, k, z, ⟨z0, e0, p, hp, q, hq, f1, f2, f3⟩, rfl, rfl⟩ | ⟨x, k, y, j, ⟨p, q, hl, f1, f2⟩, rfl, rfl⟩
    · obtain rfl : z = z0 := by omega
      obtain ⟨b1, b2, b3⟩ := frag_bounds hG.supported (hG.qubits q hq) f2
      refine ⟨.inr ?_, q, hq, p, hp, (fragment_iff (hG.qubits q hq)).mpr ⟨_, _, _, _, f2, rfl⟩, (fragment_iff (hG.qubits p hp)).mpr ⟨_, _, _, _, f1, rfl⟩, f3.imp Eq.symm Or.symm⟩
      cases u with
      | false =>
        have := ChimeraCoupled.vertical (m := T.dimY) b3 b1 b2
        rw [chimeraNum_zero, chimeraNum_zero] at this
        exact this
      | true =>
        have := ChimeraCoupled.horizontal (n := T.dimX) b1 b3 b2
        rw [chimeraNum_one, chimeraNum_one] at this
        exact this
    · obtain ⟨hp, hq⟩ := hends hl
      obtain ⟨b1, b2, b3⟩ := frag_bounds hG.supported (hG.qubits p hp) f1
      obtain ⟨c1, c2, c3⟩ := frag_bounds hG.supported (hG.qubits q hq) f2
      refine ⟨.inl ?_, p, hp, q, hq, (fragment_iff (hG.qubits p hp)).mpr ⟨_, _, _, _, f1, rfl⟩, (fragment_iff (hG.qubits q hq)).mpr ⟨_, _, _, _, f2, rfl⟩, .inr hl⟩
      have := ChimeraCoupled.cell (m := T.dimY) b3 b1 b2 c2
      rw [chimeraNum_zero, chimeraNum_one] at this
      exact this
  have bwd : ∀ a b, ChimeraCoupled T.dimY T.dimX T.shore a b → (∃ p ∈ nodes, ∃ q ∈ nodes, Fragment T p a ∧ Fragment T q b ∧ (p = q ∨ Coupler edges p q)) → Coupler es a b := by
    rintro a b hc ⟨p, hp, q, hq, f1, f2, f3⟩
    have Qp := hG.qubits p hp
    have Qq := hG.qubits q hq
    cases hc with
    | @cell y x k k' hy hx hk hk' =>
      rw [chimeraNum_zero] at f1
      rw [chimeraNum_one] at f2
      have g1 := fragment_frag (u := false) (w := x) (z := y) hG.supported Qp ⟨hx, hy⟩ hk f1
      have g2 := fragment_frag (u := true) (w := y) (z := x) hG.supported Qq ⟨hy, hx⟩ hk' f2
      rw [chimeraNum_zero, chimeraNum_one]
      refine .inl ((hes _ _).mpr (.inr ⟨x, k, y, k', ⟨p, q, ?_, g1, g2⟩, rfl, rfl⟩))
      rcases f3 with rfl | f3
      · have := g1.hu.symm.trans g2.hu; cases this
      · exact f3
    | @vertical y x k hy hx hk =>
      rw [chimeraNum_zero] at f1 f2
      have g1 := fragment_frag (u := false) (w := x) (z := y) hG.supported Qp ⟨hx, show y < T.dimY by omega⟩ hk f1
      have g2 := fragment_frag (u := false) (w := x) (z := y + 1) hG.supported Qq ⟨hx, hy⟩ hk f2
      rw [chimeraNum_zero, chimeraNum_zero]
      exact .inr ((hes _ _).mpr (.inl ⟨false, x, k, y, ⟨y, rfl, p, hp, q, hq, g1, g2, f3⟩, rfl, rfl⟩))
    | @horizontal y x k hy hx hk =>
      rw [chimeraNum_one] at f1 f2
      have g1 := fragment_frag (u := true) (w := y) (z := x) hG.supported Qp ⟨hy, show x < T.dimX by omega⟩ hk f1
      have g2 := fragment_frag (u := true) (w := y) (z := x + 1) hG.supported Qq ⟨hy, hx⟩ hk f2
      rw [chimeraNum_one, chimeraNum_one]
      exact .inr ((hes _ _).mpr (.inl ⟨true, y, k, x, ⟨x, rfl, p, hp, q, hq, g1, g2, f3⟩, rfl, rfl⟩))
  constructor
  · rintro (h | h)
    · exact fwd a b h
    · obtain ⟨h1, p, hp, q, hq, f1, f2, f3⟩ := fwd b a h
      exact ⟨h1.symm, q, hq, p, hp, f2, f1, f3.imp Eq.symm Or.symm⟩
  · rintro ⟨h | h, hpq⟩
    · exact bwd a b h hpq
    · obtain ⟨p, hp, q, hq, f1, f2, f3⟩ := hpq
      exact Or.symm (bwd b a h ⟨q, hq, p, hp, f2, f1, f3.imp Eq.symm Or.symm⟩)

end Bus
end MM
