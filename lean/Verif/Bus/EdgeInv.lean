import Verif.Bus.MaskInv

/-! The masks after the couplers of the graph have been processed, and the list of missing couplers. -/

namespace MM
namespace Bus

open Lattice

section
variable {T : Topo} {M : Masks} {N E : Bool → Nat → Nat → Nat → Prop} {D : Bool → Nat → Nat → Nat → Nat → Prop}

theorem addCoupler_ok (h : Rep T M N E D) {u : Bool} {w k z : Nat} (hr : InR T u w z) (hk : k < 8) :
    ∃ M', addCoupler T M u w k z = .ok M' ∧ Rep T M' N (fun u' w' k' z' => E u' w' k' z' ∨ (u' = u ∧ w' = w ∧ k' = k ∧ z' = z)) D := by
  obtain ⟨edge, he1, he2, he3⟩ := orAt_ok (a := M.edge) (i := T.cell u w z) (k0 := k) (by rw [h.edgeLen]; exact cell_lt hr) hk
  refine ⟨{ M with edge := edge }, ?_, h.nodeLen, he2.trans h.edgeLen, h.badLen, h.node, ?_, h.bad⟩
  · simp only [addCoupler, maskBit_ok k hk, bind, Except.bind, he1, pure, Except.pure]
  · intro u' w' k' z' hr'
    have hcell : T.cell u' w' z' = T.cell u w z ↔ u' = u ∧ w' = w ∧ z' = z := ⟨cell_inj hr' hr, fun ⟨a, b, c⟩ => by rw [a, b, c]⟩
    rw [he3, h.edge _ _ _ _ hr', hcell]
    constructor <;> rintro (h | h) <;> simp_all

theorem clearBad_ok (h : Rep T M N E D) (hs : T.shore ≤ 8) {y x k0 k1 : Nat} (hr : InR T false x y) (hr' : InR T true y x) (hk0 : k0 < T.shore) (hk1 : k1 < T.shore) :
    ∃ M', clearBad T M y x k0 k1 = .ok M' ∧ Rep T M' N E (fun u w k z j => D u w k z j ∧
      ¬((u = false ∧ w = x ∧ k = k0 ∧ z = y) ∧ j = k1) ∧ ¬((u = true ∧ w = y ∧ k = k1 ∧ z = x) ∧ j = k0)) := by
  have f0 : chimeraLinear T.dimX T.shore y x false k0 = T.frag false x y k0 := rfl
  have f1 : chimeraLinear T.dimX T.shore y x true k1 = T.frag true y x k1 := rfl
  obtain ⟨b1, h1, l1, c1⟩ := andAt_not_ok (a := M.bad) (i := T.frag false x y k0) (k0 := k1) (by rw [h.badLen]; exact frag_lt hr hk0)
  obtain ⟨b2, h2, l2, c2⟩ := andAt_not_ok (a := b1) (i := T.frag true y x k1) (k0 := k0) (by rw [l1, h.badLen]; exact frag_lt hr' hk1)
  refine ⟨{ M with bad := b2 }, ?_, h.nodeLen, h.edgeLen, l2.trans (l1.trans h.badLen), h.node, h.edge, ?_⟩
  · simp only [clearBad, maskBit_ok k1 (by omega), maskBit_ok k0 (by omega), bind, Except.bind, pure, Except.pure, f0, f1, h1, h2]
  · intro u w k z j hi hk
    have e0 : T.frag u w z k = T.frag false x y k0 ↔ u = false ∧ w = x ∧ k = k0 ∧ z = y :=
      ⟨fun e => by obtain ⟨a, b, c, d⟩ := frag_inj hi hk hr hk0 e; exact ⟨a, b, d, c⟩, fun ⟨a, b, c, d⟩ => by rw [a, b, c, d]⟩
    have e1 : T.frag u w z k = T.frag true y x k1 ↔ u = true ∧ w = y ∧ k = k1 ∧ z = x :=
      ⟨fun e => by obtain ⟨a, b, c, d⟩ := frag_inj hi hk hr' hk1 e; exact ⟨a, b, d, c⟩, fun ⟨a, b, c, d⟩ => by rw [a, b, c, d]⟩
    rw [c2, c1, h.bad _ _ _ _ _ hi hk, e0, e1, and_assoc]
end

/-- Two qubits with a coupler in the list. -/
def Linked (edges : List (Nat × Nat)) (p q : Nat) : Prop := (p, q) ∈ edges ∨ (q, p) ∈ edges

theorem Linked.symm {edges : List (Nat × Nat)} {p q : Nat} (h : Linked edges p q) : Linked edges q p := Or.symm h

/-- Positions `z - 1` and `z` of line `k` of `w` belong to the same or to coupled qubits. -/
def Joint (T : Topo) (nodes : List Nat) (edges : List (Nat × Nat)) (u : Bool) (w k z : Nat) : Prop :=
  ∃ z0, z = z0 + 1 ∧ ∃ p ∈ nodes, ∃ q ∈ nodes, FragOf T p u w k z0 ∧ FragOf T q u w k z ∧ (p = q ∨ Linked edges p q)

/-- Two coupled qubits that cross at row `y` and column `x`. -/
def Crossed (T : Topo) (edges : List (Nat × Nat)) (u : Bool) (w k z j : Nat) : Prop :=
  ∃ p q, Linked edges p q ∧ FragOf T p u w k z ∧ FragOf T q (!u) z j w

theorem Joint.append_mono {T : Topo} {nodes : List Nat} {edges edges' : List (Nat × Nat)} {u : Bool} {w k z : Nat} (hsub : ∀ e ∈ edges, e ∈ edges')
    (h : Joint T nodes edges u w k z) : Joint T nodes edges' u w k z := by
  obtain ⟨z0, e, p, hp, q, hq, h1, h2, h3⟩ := h
  exact ⟨z0, e, p, hp, q, hq, h1, h2, h3.imp id (Or.imp (hsub _) (hsub _))⟩

theorem linked_snoc {edges : List (Nat × Nat)} {e : Nat × Nat} {p q : Nat} : Linked (edges ++ [e]) p q ↔ Linked edges p q ∨ e = (p, q) ∨ e = (q, p) := by
  simp only [Linked, List.mem_append, List.mem_singleton]
  constructor
  · rintro ((h | h) | (h | h))
    · exact .inl (.inl h)
    · exact .inr (.inl h.symm)
    · exact .inl (.inr h)
    · exact .inr (.inr h.symm)
  · rintro ((h | h) | (h | h))
    · exact .inl (.inl h)
    · exact .inr (.inl h)
    · exact .inl (.inr h.symm)
    · exact .inr (.inr h.symm)

theorem FragOf.eq_of {T : Topo} {q : Nat} {u u' : Bool} {w w' k k' z z' : Nat} (h : FragOf T q u w k z) (h' : FragOf T q u' w' k' z') : u = u' ∧ w = w' ∧ k = k' :=
  ⟨h.hu.symm.trans h'.hu, h.hw.symm.trans h'.hw, h.hk.symm.trans h'.hk⟩

/-- Two different qubits of one line do not share a position. -/
theorem frag_disjoint {T : Topo} {p q : Nat} (hp : IsQubit T p) (hq : IsQubit T q) (hne : p ≠ q) {u : Bool} {w k z : Nat} (h : FragOf T p u w k z) : ¬FragOf T q u w k z :=
  fun h' => hne (frag_unique hp hq h h')

theorem step_line {T : Topo} {nodes : List Nat} {done : List (Nat × Nat)} {e : Nat × Nat} {p q : Nat} (hp : IsQubit T p) (hq : IsQubit T q) (hpn : p ∈ nodes) (hqn : q ∈ nodes)
    (hpq : p < q) (he : e = (p, q) ∨ e = (q, p)) {u : Bool} {w k z : Nat} (hf : FragOf T p u w k z) (hfirst : T.first q = (u, w, k, z + 1)) {u' : Bool} {w' k' z' : Nat} :
    Joint T nodes (done ++ [e]) u' w' k' z' ↔ Joint T nodes done u' w' k' z' ∨ (u' = u ∧ w' = w ∧ k' = k ∧ z' = z + 1) := by
  have hfq : FragOf T q u w k (z + 1) := fragOf_of_first hfirst (Nat.le_refl _) (by have := span_pos T; omega)
  constructor
  · rintro ⟨z0, rfl, a, ha, b, hb, h1, h2, h3⟩
    rcases h3 with h3 | h3
    · exact .inl ⟨z0, rfl, a, ha, b, hb, h1, h2, .inl h3⟩
    · rcases linked_snoc.mp h3 with h3 | h3
      · exact .inl ⟨z0, rfl, a, ha, b, hb, h1, h2, .inr h3⟩
      · have hab : (a = p ∧ b = q) ∨ (a = q ∧ b = p) := by
          rcases he with rfl | rfl <;> rcases h3 with h3 | h3 <;> (simp only [Prod.mk.injEq] at h3; omega)
        rcases hab with ⟨rfl, rfl⟩ | ⟨rfl, rfl⟩
        · right
          obtain ⟨e1, e2, e3⟩ := h1.eq_of hf
          refine ⟨e1, e2, e3, ?_⟩
          have g2 := h2.ge
          rw [hfirst] at g2
          simp only at g2
          by_contra hne
          refine frag_disjoint hp hq (by omega) (u := u) (w := w) (k := k) (z := z + 1) ?_ hfq
          exact ⟨hf.hu, hf.hw, hf.hk, by have := hf.ge; omega, by have := h1.lt; omega⟩
        · exfalso
          obtain ⟨e1, e2, e3⟩ := h2.eq_of hf
          have g1 := h1.ge
          rw [hfirst] at g1
          simp only at g1
          refine frag_disjoint hp hq (by omega) (u := u) (w := w) (k := k) (z := z + 1) ?_ hfq
          exact ⟨hf.hu, hf.hw, hf.hk, by have := hf.ge; omega, by have := h2.lt; omega⟩
  · rintro (h | ⟨rfl, rfl, rfl, rfl⟩)
    · exact h.append_mono fun e he => List.mem_append_left _ he
    · exact ⟨z, rfl, p, hpn, q, hqn, hf, hfq, .inr (linked_snoc.mpr (.inr he))⟩

theorem step_joint_other {T : Topo} {nodes : List Nat} {done : List (Nat × Nat)} {e : Nat × Nat} {p q : Nat} (he : e = (p, q) ∨ e = (q, p))
    (hno : ∀ u w k z u' w' k' z', FragOf T p u w k z → FragOf T q u' w' k' z' → ¬(u = u' ∧ w = w' ∧ k = k')) {u : Bool} {w k z : Nat} :
    Joint T nodes (done ++ [e]) u w k z ↔ Joint T nodes done u w k z := by
  constructor
  · rintro ⟨z0, rfl, a, ha, b, hb, h1, h2, h3⟩
    rcases h3 with h3 | h3
    · exact ⟨z0, rfl, a, ha, b, hb, h1, h2, .inl h3⟩
    · rcases linked_snoc.mp h3 with h3 | h3
      · exact ⟨z0, rfl, a, ha, b, hb, h1, h2, .inr h3⟩
      · exfalso
        have hab : (a = p ∧ b = q) ∨ (a = q ∧ b = p) := by
          rcases he with rfl | rfl <;> rcases h3 with h3 | h3 <;> (simp only [Prod.mk.injEq] at h3; omega)
        rcases hab with ⟨rfl, rfl⟩ | ⟨rfl, rfl⟩
        · exact hno _ _ _ _ _ _ _ _ h1 h2 ⟨rfl, rfl, rfl⟩
        · exact hno _ _ _ _ _ _ _ _ h2 h1 ⟨rfl, rfl, rfl⟩
  · exact fun h => h.append_mono fun e he => List.mem_append_left _ he

theorem crossed_snoc {T : Topo} {done : List (Nat × Nat)} {e : Nat × Nat} {p q : Nat} (he : e = (p, q) ∨ e = (q, p)) {u : Bool} {w k z j : Nat} :
    Crossed T (done ++ [e]) u w k z j ↔ Crossed T done u w k z j ∨ (FragOf T p u w k z ∧ FragOf T q (!u) z j w) ∨ (FragOf T q u w k z ∧ FragOf T p (!u) z j w) := by
  constructor
  · rintro ⟨a, b, hl, h1, h2⟩
    rcases linked_snoc.mp hl with hl | hl
    · exact .inl ⟨a, b, hl, h1, h2⟩
    · right
      have hab : (a = p ∧ b = q) ∨ (a = q ∧ b = p) := by
        rcases he with rfl | rfl <;> rcases hl with h3 | h3 <;> (simp only [Prod.mk.injEq] at h3; omega)
      rcases hab with ⟨rfl, rfl⟩ | ⟨rfl, rfl⟩
      · exact .inl ⟨h1, h2⟩
      · exact .inr ⟨h1, h2⟩
  · rintro (⟨a, b, hl, h1, h2⟩ | ⟨h1, h2⟩ | ⟨h1, h2⟩)
    · exact ⟨a, b, linked_snoc.mpr (.inl hl), h1, h2⟩
    · exact ⟨p, q, linked_snoc.mpr (.inr he), h1, h2⟩
    · exact ⟨q, p, linked_snoc.mpr (.inr he.symm), h1, h2⟩

theorem crossed_same {T : Topo} {done : List (Nat × Nat)} {e : Nat × Nat} {p q : Nat} (he : e = (p, q) ∨ e = (q, p)) (hu : (T.first p).1 = (T.first q).1) {u : Bool} {w k z j : Nat} :
    Crossed T (done ++ [e]) u w k z j ↔ Crossed T done u w k z j := by
  rw [crossed_snoc he]
  constructor
  · rintro (h | ⟨h1, h2⟩ | ⟨h1, h2⟩)
    · exact h
    · have := h1.hu.symm.trans (hu.trans h2.hu); cases u <;> cases this
    · have := h2.hu.symm.trans (hu.trans h1.hu); cases u <;> cases this
  · exact .inl

theorem processEdge_ok {T : Topo} {M : Masks} {N : Bool → Nat → Nat → Nat → Prop} {nodes : List Nat} {done : List (Nat × Nat)} {e : Nat × Nat} (hs : Supported T) (hq : ∀ q ∈ nodes, IsQubit T q)
    (he : e.1 ∈ nodes ∧ e.2 ∈ nodes) (hc : Coupled T e.1 e.2 ∨ Coupled T e.2 e.1)
    (h : Rep T M N (Joint T nodes done) (fun u w k z j => Has T nodes u w k z ∧ j < 8 ∧ ¬Crossed T done u w k z j)) :
    ∃ M', processEdge T M e = .ok M' ∧
      Rep T M' N (Joint T nodes (done ++ [e])) (fun u w k z j => Has T nodes u w k z ∧ j < 8 ∧ ¬Crossed T (done ++ [e]) u w k z j) := by
  obtain ⟨p, q, hcpq, hepq, hp, hq'⟩ : ∃ p q, Coupled T p q ∧ (e = (p, q) ∨ e = (q, p)) ∧ p ∈ nodes ∧ q ∈ nodes := by
    rcases hc with hc | hc
    · exact ⟨_, _, hc, .inl rfl, he.1, he.2⟩
    · exact ⟨_, _, hc, .inr rfl, he.2, he.1⟩
  have hlt := coupled_lt hcpq
  have hIp := hq p hp
  have hIq := hq q hq'
  have hs8 := shore_le hs
  cases kind_of hcpq hepq with
  | @cross x y k0 k1 hfp hfq hpe =>
    obtain ⟨b1, b2, b3⟩ := frag_bounds hs hIp hfp
    obtain ⟨c1, c2, c3⟩ := frag_bounds hs hIq hfq
    obtain ⟨M', h1, r1⟩ := clearBad_ok h hs8 ⟨b1, b3⟩ ⟨c1, c3⟩ b2 c2
    refine ⟨M', (hpe M).trans h1, r1.congr (fun _ _ _ _ _ => Iff.rfl) (fun u w k z _ => ?_) fun u w k z j _ _ => ?_⟩
    · refine (step_joint_other hepq ?_).symm
      rintro u w k z u' w' k' z' g1 g2 ⟨g3, -, -⟩
      have e1 := (g1.eq_of hfp).1
      have e2 := (g2.eq_of hfq).1
      rw [g3] at e1
      rw [e1] at e2
      cases e2
    · rw [crossed_snoc hepq]
      have d1 : (FragOf T p u w k z ∧ FragOf T q (!u) z j w) ↔ (u = false ∧ w = x ∧ k = k0 ∧ z = y) ∧ j = k1 := by
        constructor
        · rintro ⟨g1, g2⟩
          obtain ⟨a1, a2, a3⟩ := g1.eq_of hfp
          obtain ⟨a4, a5, a6⟩ := g2.eq_of hfq
          exact ⟨⟨a1, a2, a3, a5⟩, a6⟩
        · rintro ⟨⟨rfl, rfl, rfl, rfl⟩, rfl⟩; exact ⟨hfp, hfq⟩
      have d2 : (FragOf T q u w k z ∧ FragOf T p (!u) z j w) ↔ (u = true ∧ w = y ∧ k = k1 ∧ z = x) ∧ j = k0 := by
        constructor
        · rintro ⟨g1, g2⟩
          obtain ⟨a1, a2, a3⟩ := g1.eq_of hfq
          obtain ⟨a4, a5, a6⟩ := g2.eq_of hfp
          exact ⟨⟨a1, a2, a3, a5⟩, a6⟩
        · rintro ⟨⟨rfl, rfl, rfl, rfl⟩, rfl⟩; exact ⟨hfq, hfp⟩
      rw [d1, d2]
      simp only [not_or, and_assoc]
  | @line u w k z hf hfirst hpe =>
    have hfq : FragOf T q u w k (z + 1) := fragOf_of_first hfirst (Nat.le_refl _) (by have := span_pos T; omega)
    obtain ⟨c1, c2, c3⟩ := frag_bounds hs hIq hfq
    obtain ⟨M', h1, r1⟩ := addCoupler_ok h ⟨c1, c3⟩ (Nat.lt_of_lt_of_le c2 hs8)
    refine ⟨M', (hpe M).trans h1, r1.congr (fun _ _ _ _ _ => Iff.rfl) (fun u' w' k' z' _ => ?_) fun u w k z j _ _ => ?_⟩
    · exact (step_line hIp hIq hp hq' hlt hepq hf hfirst).symm
    · rw [crossed_same hepq (by rw [hf.hu, hfirst])]
  | odd o1 o2 o3 hpe =>
    refine ⟨M, hpe M, h.congr (fun _ _ _ _ _ => Iff.rfl) (fun u w k z _ => ?_) fun u w k z j _ _ => ?_⟩
    · refine (step_joint_other hepq ?_).symm
      rintro u w k z u' w' k' z' g1 g2 ⟨-, -, g3⟩
      exact o3 (g1.hk.trans (g3.trans g2.hk.symm))
    · rw [crossed_same hepq o1]

theorem joint_nil {T : Topo} {nodes : List Nat} (hq : ∀ q ∈ nodes, IsQubit T q) {u : Bool} {w k z : Nat} :
    Inner T nodes u w k z ↔ Joint T nodes [] u w k z := by
  constructor
  · rintro ⟨q, hqn, h1, h2⟩
    have := h1.ge
    refine ⟨z - 1, by omega, q, hqn, q, hqn, ⟨h1.hu, h1.hw, h1.hk, by omega, by have := h1.lt; omega⟩, h1, .inl rfl⟩
  · rintro ⟨z0, rfl, p, hp, q, hqn, h1, h2, h3⟩
    rcases h3 with rfl | h3
    · exact ⟨p, hp, h2, by have := h1.ge; omega⟩
    · rcases h3 with h3 | h3 <;> cases h3

theorem processEdges_ok {T : Topo} {M : Masks} {nodes : List Nat} {edges : List (Nat × Nat)} (hG : WFGraph T nodes edges)
    (h : Rep T M (Has T nodes) (Inner T nodes) (fun u w k z j => Has T nodes u w k z ∧ j < 8)) :
    ∃ M', processEdges T M edges = .ok M' ∧
      Rep T M' (Has T nodes) (Joint T nodes edges) (fun u w k z j => Has T nodes u w k z ∧ j < 8 ∧ ¬Crossed T edges u w k z j) := by
  suffices ∀ (done todo : List (Nat × Nat)) (M : Masks), (∀ e ∈ todo, e ∈ edges) →
      Rep T M (Has T nodes) (Joint T nodes done) (fun u w k z j => Has T nodes u w k z ∧ j < 8 ∧ ¬Crossed T done u w k z j) →
      ∃ M', processEdges T M todo = .ok M' ∧
        Rep T M' (Has T nodes) (Joint T nodes (done ++ todo)) (fun u w k z j => Has T nodes u w k z ∧ j < 8 ∧ ¬Crossed T (done ++ todo) u w k z j) by
    refine this [] edges M (fun _ h => h) (h.congr (fun _ _ _ _ _ => Iff.rfl) (fun u w k z _ => joint_nil hG.qubits) fun u w k z j _ _ => ?_)
    have : ¬Crossed T [] u w k z j := by rintro ⟨p, q, hl, _⟩; rcases hl with hl | hl <;> cases hl
    tauto
  intro done todo
  induction todo generalizing done with
  | nil => intro M _ h; exact ⟨M, rfl, by simpa using h⟩
  | cons e todo ih =>
    intro M hsub h
    obtain ⟨M1, h1, r1⟩ := processEdge_ok hG.supported hG.qubits (hG.ends e (hsub e (by simp))) (hG.coupled e (hsub e (by simp))) h
    obtain ⟨M2, h2, r2⟩ := ih (done ++ [e]) M1 (fun p hp => hsub p (by simp [hp])) r1
    refine ⟨M2, ?_, by simpa using r2⟩
    simp only [processEdges, List.foldlM_cons, h1, bind, Except.bind] at h2 ⊢
    exact h2

/-- Entries of the list of cells. -/
theorem cellOrder_get {T : Topo} {y x : Nat} (hy : y < T.dimY) (hx : x < T.dimX) : (cellOrder T)[x + T.dimX * y]? = some (y, x) := by
  unfold cellOrder
  generalize T.dimX = dx at *
  suffices ∀ n s, y < n → ((List.range' s n).flatMap fun y => (List.range dx).map fun x => (y, x))[x + dx * y]? = some (s + y, x) by
    have h := this T.dimY 0 hy
    rw [← List.range_eq_range', Nat.zero_add] at h
    exact h
  intro n
  induction n generalizing y with
  | zero => intro s h; omega
  | succ n ih =>
    intro s h
    rw [List.range'_succ, List.flatMap_cons]
    cases y with
    | zero =>
      rw [List.getElem?_append_left (by simpa using hx)]
      simp [hx]
    | succ y =>
      rw [List.getElem?_append_right (by simp only [List.length_map, List.length_range]; rw [Nat.mul_succ]; omega)]
      have := ih (y := y) (by omega) (s + 1) (by omega)
      simp only [List.length_map, List.length_range]
      rw [Nat.mul_succ, show x + (dx * y + dx) - dx = x + dx * y by omega, this]
      congr 2; omega

theorem cellOrder_length (T : Topo) : (cellOrder T).length = T.dimX * T.dimY := by
  simp [cellOrder, List.length_flatMap, Nat.mul_comm]

theorem cellOrder_bounds {T : Topo} {i : Nat} {c : Nat × Nat} (h : (cellOrder T)[i]? = some c) : c.1 < T.dimY ∧ c.2 < T.dimX ∧ i = c.2 + T.dimX * c.1 := by
  have hi : i < T.dimX * T.dimY := by
    rw [← cellOrder_length]
    exact (List.getElem?_eq_some_iff.mp h).1
  have hx : 0 < T.dimX := Nat.pos_of_ne_zero fun e => by rw [e] at hi; omega
  have h1 : i / T.dimX < T.dimY := Nat.div_lt_of_lt_mul hi
  have h2 : i % T.dimX < T.dimX := Nat.mod_lt _ hx
  have h3 := cellOrder_get h1 h2
  rw [Nat.mod_add_div, h] at h3
  cases h3
  exact ⟨h1, h2, (Nat.mod_add_div _ _).symm⟩

theorem finishShore_ok {node bad : List Byte} {c q n : Nat} (hc : c < node.length) (hq : q + n ≤ bad.length) :
    ∃ bad', finishShore node c n (q, bad) = .ok (q + n, bad') ∧ bad'.length = bad.length ∧
      ∀ i j, Bit bad' i j ↔ Bit bad i j ∧ (q ≤ i → i < q + n → Bit node c j) := by
  have hget : node[c]? = some node[c] := List.getElem?_eq_getElem hc
  induction n generalizing q bad with
  | zero => exact ⟨bad, rfl, rfl, fun i j => by constructor <;> intro h; exacts [⟨h, fun _ _ => by omega⟩, h.1]⟩
  | succ n ih =>
    obtain ⟨b1, h1, l1, c1⟩ := andAt_ok (a := bad) (i := q) (m := node[c]) (by omega)
    obtain ⟨b2, h2, l2, c2⟩ := ih (q := q + 1) (bad := b1) (by omega)
    refine ⟨b2, ?_, l2.trans l1, fun i j => ?_⟩
    · simp only [finishShore, at_ok hget, bind, Except.bind, h1, h2]
      rw [show q + 1 + n = q + (n + 1) by omega]
    · rw [c2, c1, bit_iff hget, and_assoc]
      apply and_congr Iff.rfl
      constructor
      · rintro ⟨g1, g2⟩ h3 h4
        by_cases hi : i = q
        · exact g1 hi
        · exact g2 (by omega) (by omega)
      · intro g; exact ⟨fun hi => g (by omega) (by omega), fun h3 h4 => g (by omega) (by omega)⟩

theorem finishFold_ok {T : Topo} {node : List Byte} (hn : node.length = T.numCells) (L : List (Nat × Nat)) (hL : ∀ c ∈ L, c.1 < T.dimY ∧ c.2 < T.dimX) (q0 : Nat) (bad : List Byte) (hb : q0 + 2 * T.shore * L.length ≤ bad.length) :
    ∃ bad', L.foldlM (init := (q0, bad)) (fun s c => do
        let s ← finishShore node (cellYX T.dimX c.1 c.2 true) T.shore s
        finishShore node (cellYX T.dimX c.1 c.2 false) T.shore s) = (.ok (q0 + 2 * T.shore * L.length, bad') : B _) ∧ bad'.length = bad.length ∧
      (∀ i j, i < q0 → (Bit bad' i j ↔ Bit bad i j)) ∧
      ∀ (idx : Nat) c, L[idx]? = some c → ∀ u k j, k < T.shore → (Bit bad' (q0 + (k + T.shore * (unum u + 2 * idx))) j ↔ Bit bad (q0 + (k + T.shore * (unum u + 2 * idx))) j ∧ Bit node (cellYX T.dimX c.1 c.2 (!u)) j) := by
  induction L generalizing q0 bad with
  | nil => exact ⟨bad, rfl, rfl, fun _ _ _ => Iff.rfl, fun idx c h => by simp at h⟩
  | cons c L ih =>
    have hlen : 2 * T.shore * (c :: L).length = 2 * T.shore * L.length + 2 * T.shore := by simp [Nat.mul_succ]
    rw [hlen] at hb
    have hcr := hL c (by simp)
    have hcell : ∀ u, cellYX T.dimX c.1 c.2 u < node.length := by
      intro u
      rw [hn, show T.numCells = 2 * (T.dimX * T.dimY) by unfold Topo.numCells; ring]
      exact cellYX_lt hcr.1 hcr.2
    obtain ⟨b1, h1, l1, c1⟩ := finishShore_ok (bad := bad) (q := q0) (n := T.shore) (hcell true) (by omega)
    obtain ⟨b2, h2, l2, c2⟩ := finishShore_ok (bad := b1) (q := q0 + T.shore) (n := T.shore) (hcell false) (by omega)
    obtain ⟨b3, h3, l3, c3, c4⟩ := ih (fun c hc => hL c (by simp [hc])) (q0 + 2 * T.shore) b2 (by omega)
    refine ⟨b3, ?_, by omega, fun i j hi => ?_, ?_⟩
    · simp only [List.foldlM_cons, h1, h2, bind, Except.bind]
      rw [hlen, show q0 + (2 * T.shore * L.length + 2 * T.shore) = q0 + 2 * T.shore + 2 * T.shore * L.length by omega, ← h3]
      rw [show q0 + T.shore + T.shore = q0 + 2 * T.shore by omega]
      rfl
    · rw [c3 i j (by omega), c2, c1]
      constructor
      · exact fun h => h.1.1
      · exact fun h => ⟨⟨h, fun _ _ => by omega⟩, fun _ _ => by omega⟩
    · intro idx c' hc' u k j hk
      cases idx with
      | zero =>
        simp only [List.getElem?_cons_zero, Option.some.injEq] at hc'
        subst hc'
        have hpos : k + T.shore * (unum u + 2 * 0) < 2 * T.shore := by
          cases u <;> simp [unum] <;> omega
        rw [c3 _ _ (by omega), c2, c1, and_assoc]
        apply and_congr Iff.rfl
        cases u <;> simp only [unum, Bool.false_eq_true, if_false, if_true, Nat.mul_zero, Nat.add_zero, Nat.mul_one, Bool.not_true, Bool.not_false]
        · constructor
          · intro h; exact h.1 (by omega) (by omega)
          · intro h; exact ⟨fun _ _ => h, fun _ _ => by omega⟩
        · constructor
          · intro h; exact h.2 (by omega) (by omega)
          · intro h; exact ⟨fun _ _ => by omega, fun _ _ => h⟩
      | succ idx =>
        rw [List.getElem?_cons_succ] at hc'
        have e : q0 + (k + T.shore * (unum u + 2 * (idx + 1))) = q0 + 2 * T.shore + (k + T.shore * (unum u + 2 * idx)) := by ring
        rw [e, c4 idx c' hc' u k j hk]
        apply and_congr _ Iff.rfl
        rw [c2, c1]
        constructor
        · exact fun h => h.1.1
        · exact fun h => ⟨⟨h, fun _ _ => by omega⟩, fun _ _ => by omega⟩

theorem frag_pos {T : Topo} {u : Bool} {w z k : Nat} : T.frag u w z k = 0 + (k + T.shore * (unum u + 2 * ((if u then z else w) + T.dimX * (if u then w else z)))) := by
  rw [Nat.zero_add]
  cases u <;> simp [Topo.frag, chimeraLinear]

/-- A missing coupler between two fragments that are there. -/
def Missing (T : Topo) (nodes : List Nat) (edges : List (Nat × Nat)) (u : Bool) (w k z j : Nat) : Prop :=
  Has T nodes u w k z ∧ Has T nodes (!u) z j w ∧ ¬Crossed T edges u w k z j

theorem Has.bounds {T : Topo} {nodes : List Nat} (hs : Supported T) (hq : ∀ q ∈ nodes, IsQubit T q) {u : Bool} {w k z : Nat} (h : Has T nodes u w k z) : InR T u w z ∧ k < T.shore := by
  obtain ⟨q, hqn, hf⟩ := h
  obtain ⟨a, b, c⟩ := frag_bounds hs (hq q hqn) hf
  exact ⟨⟨a, c⟩, b⟩

/-- What `_initialize` computes (topo_cache.hpp 143-148). -/
theorem buildMasks_ok {T : Topo} {nodes : List Nat} {edges : List (Nat × Nat)} (hG : WFGraph T nodes edges) :
    ∃ M, buildMasks T nodes edges = .ok M ∧ Rep T M (Has T nodes) (Joint T nodes edges) (Missing T nodes edges) := by
  obtain ⟨M1, h1, r1⟩ := processNodes_ok hG.supported hG.qubits
  obtain ⟨M2, h2, r2⟩ := processEdges_ok hG r1
  have hlen : 0 + 2 * T.shore * (cellOrder T).length = M2.bad.length := by
    rw [cellOrder_length, r2.badLen]; unfold Topo.numCells; ring
  obtain ⟨bad, h3, l3, -, c3⟩ := finishFold_ok (T := T) r2.nodeLen (cellOrder T) (fun c hc => by
      obtain ⟨i, hi, he⟩ := List.getElem_of_mem hc
      have := cellOrder_bounds (T := T) (i := i) (c := c) (by rw [List.getElem?_eq_getElem hi, he])
      exact ⟨this.1, this.2.1⟩) 0 M2.bad (Nat.le_of_eq hlen)
  refine ⟨{ M2 with bad := bad }, ?_, r2.nodeLen, r2.edgeLen, l3.trans r2.badLen, r2.node, r2.edge, ?_⟩
  · simp only [buildMasks, h1, h2, bind, Except.bind, finishBadmask]
    simp only [bind, Except.bind] at h3
    rw [h3]
    rfl
  · intro u w k z j hr hk
    have hyx : (if u then w else z) < T.dimY ∧ (if u then z else w) < T.dimX := by
      obtain ⟨a, b⟩ := hr
      cases u <;> simp only [Topo.dimW, Topo.dimZ, Bool.false_eq_true, if_false, if_true] at * <;> exact ⟨by assumption, by assumption⟩
    have hcell : cellYX T.dimX (if u then w else z) (if u then z else w) (!u) = T.cell (!u) z w := by
      cases u <;> rfl
    have hr2 : InR T (!u) z w := by
      obtain ⟨a, b⟩ := hr
      cases u <;> exact ⟨b, a⟩
    have h := c3 _ _ (cellOrder_get hyx.1 hyx.2) u k j hk
    rw [← frag_pos, hcell, r2.node _ _ _ _ hr2, r2.bad _ _ _ _ _ hr hk] at h
    show Bit bad _ _ ↔ _
    rw [h]
    unfold Missing
    constructor
    · rintro ⟨⟨a, b, c⟩, d⟩; exact ⟨a, d, c⟩
    · rintro ⟨a, d, c⟩
      have := (d.bounds hG.supported hG.qubits).2
      have := shore_le hG.supported
      exact ⟨⟨a, by omega, c⟩, d⟩

theorem badOfCell_ok {T : Topo} {bad : List Byte} {y x q n : Nat} {out : List (Nat × Nat)} (hq : q + n ≤ bad.length) :
    ∃ new, badOfCell T bad y x n (q, out) = .ok (q + n, out ++ new) ∧
      ∀ a b, (a, b) ∈ new ↔ ∃ j, q ≤ a ∧ a < q + n ∧ Bit bad a j ∧ b = chimeraLinear T.dimX T.shore y x true j := by
  induction n generalizing q out with
  | zero => exact ⟨[], by simp [badOfCell]; rfl, fun a b => by simp; omega⟩
  | succ n ih =>
    have hget : bad[q]? = some bad[q] := List.getElem?_eq_getElem (by omega)
    have hb := bitsLoop_ok 9 bad[q] (Nat.lt_succ_of_le (members_length_le _))
    obtain ⟨new, h1, c1⟩ := ih (q := q + 1) (out := out ++ (members bad[q]).map fun k => (q, chimeraLinear T.dimX T.shore y x true k)) (by omega)
    refine ⟨((members bad[q]).map fun k => (q, chimeraLinear T.dimX T.shore y x true k)) ++ new, ?_, fun a b => ?_⟩
    · simp only [badOfCell, at_ok hget, hb, bind, Except.bind, h1]
      rw [List.append_assoc, show q + 1 + n = q + (n + 1) by omega]
    · rw [List.mem_append, c1, List.mem_map]
      constructor
      · rintro (⟨k, hk, he⟩ | ⟨j, h2, h3, h4, h5⟩)
        · cases he
          exact ⟨k, by omega, by omega, (bit_iff hget).mpr (mem_members.mp hk), rfl⟩
        · exact ⟨j, by omega, by omega, h4, h5⟩
      · rintro ⟨j, h2, h3, h4, h5⟩
        by_cases ha : a = q
        · subst ha
          exact .inl ⟨j, mem_members.mpr ((bit_iff hget).mp h4), by rw [h5]⟩
        · exact .inr ⟨j, by omega, by omega, h4, h5⟩

theorem badFold_ok {T : Topo} {bad : List Byte} (L : List (Nat × Nat)) (q0 : Nat) (out : List (Nat × Nat)) (hb : q0 + 2 * T.shore * L.length ≤ bad.length) :
    ∃ new, L.foldlM (init := (q0, out)) (fun s c => do
        let s ← badOfCell T bad c.1 c.2 T.shore s
        pure (s.1 + T.shore, s.2)) = (.ok (q0 + 2 * T.shore * L.length, out ++ new) : B _) ∧
      ∀ a b, (a, b) ∈ new ↔ ∃ (idx : Nat) (c : Nat × Nat) (k j : Nat), L[idx]? = some c ∧ k < T.shore ∧ a = q0 + (k + T.shore * (2 * idx)) ∧ Bit bad a j ∧
        b = chimeraLinear T.dimX T.shore c.1 c.2 true j := by
  induction L generalizing q0 out with
  | nil => exact ⟨[], by simp; rfl, fun a b => by simp⟩
  | cons c L ih =>
    have hlen : 2 * T.shore * (c :: L).length = 2 * T.shore * L.length + 2 * T.shore := by simp [Nat.mul_succ]
    rw [hlen] at hb
    obtain ⟨n1, h1, c1⟩ := badOfCell_ok (T := T) (bad := bad) (y := c.1) (x := c.2) (q := q0) (n := T.shore) (out := out) (by omega)
    obtain ⟨n2, h2, c2⟩ := ih (q0 + 2 * T.shore) (out ++ n1) (by omega)
    refine ⟨n1 ++ n2, ?_, fun a b => ?_⟩
    · simp only [List.foldlM_cons, h1, bind, Except.bind, pure, Except.pure] at h2 ⊢
      rw [show q0 + T.shore + T.shore = q0 + 2 * T.shore by omega, h2, hlen, List.append_assoc]
      rw [show q0 + 2 * T.shore + 2 * T.shore * L.length = q0 + (2 * T.shore * L.length + 2 * T.shore) by omega]
    · rw [List.mem_append, c1, c2]
      constructor
      · rintro (⟨j, h3, h4, h5, h6⟩ | ⟨idx, c', k, j, h3, h4, h5, h6, h7⟩)
        · exact ⟨0, c, a - q0, j, rfl, by omega, by simp; omega, h5, h6⟩
        · exact ⟨idx + 1, c', k, j, h3, h4, by rw [h5]; ring, h6, h7⟩
      · rintro ⟨idx, c', k, j, h3, h4, h5, h6, h7⟩
        cases idx with
        | zero =>
          simp only [List.getElem?_cons_zero, Option.some.injEq] at h3
          subst h3
          exact .inl ⟨j, by omega, by simp at h5; omega, h6, h7⟩
        | succ idx =>
          exact .inr ⟨idx, c', k, j, h3, h4, by rw [h5]; ring, h6, h7⟩

/-- The list of missing couplers: pairs of numbers of a vertical and a horizontal fragment. -/
theorem badEdges_ok {T : Topo} {M : Masks} {N E : Bool → Nat → Nat → Nat → Prop} {D : Bool → Nat → Nat → Nat → Nat → Prop} (h : Rep T M N E D) :
    ∃ L, badEdges T M.bad = .ok L ∧ ∀ a b, (a, b) ∈ L ↔ ∃ x k y j, InR T false x y ∧ k < T.shore ∧ D false x k y j ∧ a = T.frag false x y k ∧ b = T.frag true y x j := by
  have hlen : 0 + 2 * T.shore * (cellOrder T).length = M.bad.length := by
    rw [cellOrder_length, h.badLen]; unfold Topo.numCells; ring
  obtain ⟨new, h1, c1⟩ := badFold_ok (T := T) (bad := M.bad) (cellOrder T) 0 [] (Nat.le_of_eq hlen)
  refine ⟨new, ?_, fun a b => ?_⟩
  · simp only [bind, Except.bind] at h1
    simp only [badEdges, bind, Except.bind, h1]
    rfl
  · rw [c1]
    constructor
    · rintro ⟨idx, ⟨y, x⟩, k, j, h2, h3, h4, h5, h6⟩
      obtain ⟨hy, hx, hidx⟩ := cellOrder_bounds h2
      simp only at hy hx hidx h6
      have ha : a = T.frag false x y k := by rw [h4, hidx, frag_pos]; simp [unum]
      have hr : InR T false x y := ⟨hx, hy⟩
      exact ⟨x, k, y, j, hr, h3, (h.bad _ _ _ _ _ hr h3).mp (ha ▸ h5), ha, h6⟩
    · rintro ⟨x, k, y, j, hr, h3, h5, ha, hb⟩
      refine ⟨x + T.dimX * y, (y, x), k, j, cellOrder_get hr.2 hr.1, h3, ?_, ?_, hb⟩
      · rw [ha, frag_pos]; simp [unum]
      · rw [ha]; exact (h.bad _ _ _ _ _ hr h3).mpr h5

end Bus
end MM
