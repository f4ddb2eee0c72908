import Verif.Bus.BicliqueInv
import Verif.Bus.YieldInv

/-! The bicliques of rectangles. -/

namespace MM
namespace Bus

open Lattice

variable {T : Topo} {nodes : List Nat} {edges : List (Nat × Nat)} {C : Masks} {N E : Bool → Nat → Nat → Nat → Prop} {lines : List Byte}

theorem linesLoop_ok (hG : WFGraph T nodes edges) (hC : Clean T nodes edges C N E) {u : Bool} {w z0 z1 : Nat} (hz : z0 ≤ z1) {fuel : Nat} {b : Byte} (hf : (members b).length < fuel)
    (hb : ∀ k ∈ members b, Whole N E u w k z0 z1) :
    ∃ cs, (∀ emb, linesLoop T u w z0 z1 fuel b emb = .ok (emb ++ cs)) ∧ List.Forall₂ (fun k c => Wire T nodes edges N E u w k z0 z1 c) (members b) cs := by
  induction fuel generalizing b with
  | zero => omega
  | succ n ih =>
    by_cases h0 : b = 0
    · exact ⟨[], fun emb => by rw [linesLoop, if_pos h0, List.append_nil]; rfl, by rw [h0, members_zero]; exact .nil⟩
    · obtain ⟨a, _, a1, b', a2, a3⟩ := step_ok b h0
      rw [a3] at hf hb
      rw [List.length_cons] at hf
      obtain ⟨v, v1, v2⟩ := wire_ok hG hC hz (hb a List.mem_cons_self)
      obtain ⟨cs, c1, c2⟩ := ih (b := b') (by omega) (fun k hk => hb k (List.mem_cons_of_mem _ hk))
      refine ⟨v :: cs, fun emb => ?_, ?_⟩
      · rw [linesLoop, if_neg h0]
        simp only [a1, v1, a2, bind, Except.bind, c1]
        simp
      · rw [a3]
        exact .cons v2 c2

/-- The score of a line, as a number. -/
def lsOf (T : Topo) (lines : List Byte) (u : Bool) (w z0 z1 : Nat) : Nat :=
  match lineScore T lines u w z0 z1 with
  | .ok n => n
  | .error _ => 0

theorem scores_of (hC : Clean T nodes edges C N E) (hT : Table T C lines) : Scores T lines (lsOf T lines) := by
  intro u w z0 z1 hw hz hz1
  obtain ⟨b, h1, _⟩ := hT.tracks hC hw hz hz1
  simp only [lsOf, lineScore, h1, bind, Except.bind, popcount_ok]

theorem lsOf_eq {u : Bool} {w z0 z1 : Nat} {b : Byte} (h : lineMask T lines u w z0 z1 = .ok b) : lsOf T lines u w z0 z1 = (members b).length := by
  simp only [lsOf, lineScore, h, bind, Except.bind, popcount_ok]

/-- Lines of one orientation. -/
structure SideOut (T : Topo) (nodes : List Nat) (edges : List (Nat × Nat)) (N E : Bool → Nat → Nat → Nat → Prop) (u : Bool) (w n z0 z1 : Nat) (ps : List (Nat × Nat)) (cs : List (List Nat)) : Prop where
  wires : List.Forall₂ (fun (p : Nat × Nat) c => Wire T nodes edges N E u p.1 p.2 z0 z1 c) ps cs
  nodup : ps.Nodup
  mem : ∀ p, p ∈ ps ↔ w ≤ p.1 ∧ p.1 < w + n ∧ Whole N E u p.1 p.2 z0 z1

theorem inflateSide_ok (hG : WFGraph T nodes edges) (hC : Clean T nodes edges C N E) (hT : Table T C lines) {u : Bool} {z0 z1 : Nat} (hz : z0 ≤ z1) (hz1 : z1 < T.dimZ u) :
    ∀ (n w : Nat), w + n ≤ T.dimW u → ∃ ps cs, (∀ emb, inflateSide T lines u z0 z1 n w emb = .ok (emb ++ cs)) ∧ SideOut T nodes edges N E u w n z0 z1 ps cs ∧
      cs.length = ((List.range' w n).map fun i => lsOf T lines u i z0 z1).sum := by
  intro n
  induction n with
  | zero => intro w _; exact ⟨[], [], fun emb => by simp [inflateSide]; rfl, ⟨.nil, .nil, fun p => by simp; omega⟩, rfl⟩
  | succ n ih =>
    intro w hw
    obtain ⟨b, b1, b2⟩ := hT.tracks hC (u := u) (w := w) (by omega) hz hz1
    obtain ⟨cs, c1, c2⟩ := linesLoop_ok hG hC hz (fuel := 9) (b := b) (Nat.lt_succ_of_le (members_length_le b)) (fun k hk => (b2 k).mp hk)
    obtain ⟨ps, ds, d1, d2, d3⟩ := ih (w + 1) (by omega)
    refine ⟨(members b).map (fun k => (w, k)) ++ ps, cs ++ ds, fun emb => ?_, ⟨?_, ?_, ?_⟩, ?_⟩
    · rw [inflateSide]
      simp only [b1, c1, bind, Except.bind, d1, List.append_assoc]
    · exact List.rel_append (List.forall₂_map_left_iff.mpr c2) d2.wires
    · refine List.nodup_append'.mpr ⟨(members_nodup b).map (fun a b h => by simpa using h), d2.nodup, ?_⟩
      intro p hp hp'
      obtain ⟨k, _, rfl⟩ := List.mem_map.mp hp
      have := ((d2.mem _).mp hp').1
      simp only at this
      omega
    · rintro ⟨i, k⟩
      rw [List.mem_append, d2.mem, List.mem_map]
      constructor
      · rintro (⟨k', hk, he⟩ | ⟨h1, h2, h3⟩)
        · cases he
          exact ⟨Nat.le_refl _, by simp only; omega, (b2 k).mp hk⟩
        · exact ⟨by omega, by omega, h3⟩
      · rintro ⟨h1, h2, h3⟩
        simp only at h1 h2 h3 ⊢
        by_cases hi : i = w
        · subst hi
          exact .inl ⟨k, (b2 k).mpr h3, rfl⟩
        · exact .inr ⟨by omega, by omega, h3⟩
    · rw [List.length_append, d3, ← c2.length_eq, List.range'_succ, List.map_cons, List.sum_cons, lsOf_eq b1]

theorem nodup_prod_le {ps : List (Nat × Nat)} {w n m : Nat} (h : ps.Nodup) (hp : ∀ p ∈ ps, w ≤ p.1 ∧ p.1 < w + n ∧ p.2 < m) : ps.length ≤ n * m := by
  have hsub : ps ⊆ (List.range' w n).flatMap fun i => (List.range m).map fun k => (i, k) := by
    rintro ⟨i, k⟩ hik
    obtain ⟨a, b, c⟩ := hp _ hik
    simp only [List.mem_flatMap, List.mem_map, List.mem_range, List.mem_range'_1]
    exact ⟨i, ⟨a, b⟩, k, c, rfl⟩
  have := (List.subperm_of_subset h hsub).length_le
  simpa [List.length_flatMap] using this

theorem SideOut.length_le (hG : WFGraph T nodes edges) (hC : Clean T nodes edges C N E) {u : Bool} {w n z0 z1 : Nat} (hz : z0 ≤ z1) {ps : List (Nat × Nat)} {cs : List (List Nat)} (h : SideOut T nodes edges N E u w n z0 z1 ps cs) :
    cs.length ≤ n * T.shore := by
  rw [← h.wires.length_eq]
  refine nodup_prod_le (w := w) h.nodup fun p hp => ?_
  obtain ⟨a, b, c⟩ := (h.mem p).mp hp
  exact ⟨a, b, (Has.bounds hG.supported hG.qubits (hC.node_has _ _ _ _ (c.1 z0 (Nat.le_refl _) hz))).2⟩

theorem SideOut.chains (h : SideOut T nodes edges N E u w n z0 z1 ps cs) : (∀ c ∈ cs, ∃ i k, w ≤ i ∧ i < w + n ∧ Wire T nodes edges N E u i k z0 z1 c) ∧ cs.Pairwise fun c d => ∀ q ∈ c, q ∉ d := by
  refine ⟨fun c hc => ?_, forall₂_pairwise h.wires h.nodup fun p c q d hp hq hne => hp.disjoint hq ?_⟩
  · obtain ⟨p, hp, hw⟩ := forall₂_right h.wires hc
    have := (h.mem p).mp hp
    exact ⟨_, _, this.1, this.2.1, hw⟩
  · rintro ⟨_, a, b⟩
    exact hne (Prod.ext a b)

/-- The lines of a rectangle embed a biclique. -/
theorem sides_biclique (hG : WFGraph T nodes edges) (hC : Clean T nodes edges C N E) {y0 y1 x0 x1 : Nat} {ps qs : List (Nat × Nat)} {cs ds : List (List Nat)}
    (h0 : SideOut T nodes edges N E false x0 (x1 + 1 - x0) y0 y1 ps cs) (h1 : SideOut T nodes edges N E true y0 (y1 + 1 - y0) x0 x1 qs ds) :
    Spec.BicliqueEmbedding nodes edges cs ds ∧ ∀ c ∈ cs ++ ds, c.Nodup := by
  obtain ⟨a1, a2⟩ := h0.chains
  obtain ⟨b1, b2⟩ := h1.chains
  refine ⟨⟨fun c hc => ?_, List.pairwise_append.mpr ⟨a2, b2, fun c hc d hd => ?_⟩, fun c hc d hd => ?_⟩, fun c hc => ?_⟩
  · rcases List.mem_append.mp hc with hc | hc
    · obtain ⟨_, _, _, _, hw⟩ := a1 c hc
      exact hw.line.chain
    · obtain ⟨_, _, _, _, hw⟩ := b1 c hc
      exact hw.line.chain
  · obtain ⟨_, _, _, _, hw⟩ := a1 c hc
    obtain ⟨_, _, _, _, hw'⟩ := b1 d hd
    exact hw.disjoint hw' (by simp)
  · obtain ⟨i, k, p1, p2, hw⟩ := a1 c hc
    obtain ⟨i', k', p1', p2', hw'⟩ := b1 d hd
    exact hw.cross hG hC hw' p1' (by omega) p1 (by omega)
  · rcases List.mem_append.mp hc with hc | hc
    · obtain ⟨_, _, _, _, hw⟩ := a1 c hc
      exact hw.line.nodup
    · obtain ⟨_, _, _, _, hw⟩ := b1 c hc
      exact hw.line.nodup

theorem foldl_max_ge {f : Nat → Nat} {l : List Nat} {a : Nat} : a ≤ l.foldl (fun m x => max (f x) m) a ∧ ∀ x ∈ l, f x ≤ l.foldl (fun m x => max (f x) m) a := by
  induction l generalizing a with
  | nil => simp
  | cons b l ih =>
    rw [List.foldl_cons]
    obtain ⟨h1, h2⟩ := ih (a := max (f b) a)
    refine ⟨by omega, fun x hx => ?_⟩
    rcases List.mem_cons.mp hx with rfl | hx
    · omega
    · exact h2 x hx

theorem foldl_max_mem {f : Nat → Nat} {l : List Nat} {a : Nat} : l.foldl (fun m x => max (f x) m) a = a ∨ ∃ x ∈ l, l.foldl (fun m x => max (f x) m) a = f x := by
  induction l generalizing a with
  | nil => simp
  | cons b l ih =>
    rw [List.foldl_cons]
    rcases ih (a := max (f b) a) with h | ⟨x, hx, h⟩
    · rcases Nat.le_total (f b) a with h' | h'
      · left; rw [h]; omega
      · right; exact ⟨b, List.mem_cons_self, by rw [h]; omega⟩
    · exact .inr ⟨x, List.mem_cons_of_mem _ hx, h⟩

/-- The number of qubits of a whole line. -/
theorem wire_pegasus {d : Nat} {off : Bool → Nat → Nat} (hG : WFGraph (.pegasus d off) nodes edges) (hC : Clean (.pegasus d off) nodes edges C N E) {u : Bool} {w k z0 z1 : Nat} {l : List Nat} (hz : z0 ≤ z1)
    (hw : Wire (.pegasus d off) nodes edges N E u w k z0 z1 l) : l.length = pegasusLength off u w z0 z1 := by
  rw [hw.line.length]
  obtain ⟨q, hq, hf⟩ := hC.node_has _ _ _ _ (hw.whole.1 z0 (Nat.le_refl _) hz)
  have h1 := (align (hG.qubits q hq) hf).1
  have h2 := hG.supported u (w % 6)
  simp only [Topo.piece, Topo.org, Topo.span, pegasusLength] at *
  generalize off u (w % 6) = o at *
  omega

theorem wire_zephyr {d t : Nat} (hG : WFGraph (.zephyr d t) nodes edges) (hC : Clean (.zephyr d t) nodes edges C N E) {u : Bool} {w k z0 z1 : Nat} {l : List Nat} (hz : z0 ≤ z1)
    (hw : Wire (.zephyr d t) nodes edges N E u w k z0 z1 l) : l.length = (z1 - k % 2) / 2 - (z0 - k % 2) / 2 + 1 ∧ k % 2 ≤ z0 ∧ z1 + 1 ≤ 2 * d + k % 2 := by
  rw [hw.line.length]
  obtain ⟨q, hq, hf⟩ := hC.node_has _ _ _ _ (hw.whole.1 z0 (Nat.le_refl _) hz)
  obtain ⟨q', hq', hf'⟩ := hC.node_has _ _ _ _ (hw.whole.1 z1 hz (Nat.le_refl _))
  have h1 := (align (hG.qubits q hq) hf).1
  have h3 : z1 + 1 ≤ 2 * d + k % 2 := by
    have hb := linearLinemajor_bounds (isQubit_zephyr (hG.qubits q' hq'))
    obtain ⟨g1, g2, g3, g4, g5⟩ := hf'
    simp only [Topo.first, Topo.span, zephyrFirst, zephyrCoordinates] at *
    generalize linearLinemajor (2 * d + 1) (2 * t) d q' = c at *
    obtain ⟨v, w', k', z'⟩ := c
    simp only at *
    subst g3
    omega
  simp only [Topo.piece, Topo.org, Topo.span] at *
  omega

/-- `biclique_length` is a bound for the lines of a rectangle, and not 0 if there are any. -/
theorem bicliqueLength_ok (hG : WFGraph T nodes edges) (hC : Clean T nodes edges C N E) {y0 y1 x0 x1 : Nat} (hy : y0 ≤ y1) (hx : x0 ≤ x1) :
    ∃ len, bicliqueLength T y0 y1 x0 x1 = .ok len ∧
      (∀ i k c, x0 ≤ i → i ≤ x1 → Wire T nodes edges N E false i k y0 y1 c → c.length ≤ len) ∧
      (∀ i k c, y0 ≤ i → i ≤ y1 → Wire T nodes edges N E true i k x0 x1 c → c.length ≤ len) := by
  cases T with
  | chimera m n t =>
    refine ⟨_, rfl, fun i k c _ _ h => ?_, fun i k c _ _ h => ?_⟩ <;>
    · rw [h.line.length]
      simp only [Topo.piece, Topo.org, Topo.span]
      omega
  | pegasus d off =>
    refine ⟨_, rfl, fun i k c h1 h2 h => ?_, fun i k c h1 h2 h => ?_⟩
    · rw [wire_pegasus hG hC hy h]
      refine Nat.le_trans ?_ foldl_max_ge.1
      have he : pegasusLength off false i y0 y1 = pegasusLength off false (x0 + (i - x0) % 6) y0 y1 := by
        simp only [pegasusLength]
        rw [show (x0 + (i - x0) % 6) % 6 = i % 6 by omega]
      rw [he]
      refine (foldl_max_ge (f := fun x => pegasusLength off false x y0 y1)).2 _ (List.mem_range'_1.mpr ?_)
      omega
    · rw [wire_pegasus hG hC hx h]
      have he : pegasusLength off true i x0 x1 = pegasusLength off true (y0 + (i - y0) % 6) x0 x1 := by
        simp only [pegasusLength]
        rw [show (y0 + (i - y0) % 6) % 6 = i % 6 by omega]
      rw [he]
      refine (foldl_max_ge (f := fun x => pegasusLength off true x x0 x1)).2 _ (List.mem_range'_1.mpr ?_)
      omega
  | zephyr d t =>
    have hl : ∀ z0 z1 k, k ≤ z0 → z0 ≤ z1 → k < 2 → zephyrLength z0 z1 k = .ok ((z1 - k) / 2 - (z0 - k) / 2 + 1) := by
      intro z0 z1 k h1 h2 h3
      have e : k % 2 = k := by omega
      simp only [zephyrLength, e, sub_ok (Nat.le_trans h1 h2), sub_ok h1, bind, Except.bind]; rfl
    have hlen : ∃ len, bicliqueLength (.zephyr d t) y0 y1 x0 x1 = .ok len ∧ (0 < y0 → (y1 - 1) / 2 - (y0 - 1) / 2 + 1 ≤ len) ∧ (0 < x0 → (x1 - 1) / 2 - (x0 - 1) / 2 + 1 ≤ len) ∧
        (y1 < 2 * d → y1 / 2 - y0 / 2 + 1 ≤ len) ∧ (x1 < 2 * d → x1 / 2 - x0 / 2 + 1 ≤ len) := by
      have hdy : (Topo.zephyr d t).dimY = 2 * d + 1 := rfl
      have hdx : (Topo.zephyr d t).dimX = 2 * d + 1 := rfl
      have l1 : ∀ (h : 0 < y0), zephyrLength y0 y1 1 = .ok ((y1 - 1) / 2 - (y0 - 1) / 2 + 1) := fun h => hl y0 y1 1 h hy (by omega)
      have l2 : ∀ (h : 0 < x0), zephyrLength x0 x1 1 = .ok ((x1 - 1) / 2 - (x0 - 1) / 2 + 1) := fun h => hl x0 x1 1 h hx (by omega)
      have l3 : zephyrLength y0 y1 0 = .ok (y1 / 2 - y0 / 2 + 1) := hl y0 y1 0 (by omega) hy (by omega)
      have l4 : zephyrLength x0 x1 0 = .ok (x1 / 2 - x0 / 2 + 1) := hl x0 x1 0 (by omega) hx (by omega)
      by_cases c1 : 0 < y0 <;> by_cases c2 : 0 < x0 <;> by_cases c3 : y1 < 2 * d <;> by_cases c4 : x1 < 2 * d <;>
      · simp only [bicliqueLength, hdy, hdx, Nat.add_lt_add_iff_right, c1, c2, c3, c4, if_true, if_false, bind, Except.bind, pure, Except.pure, l3, l4]
        first
          | rw [l1 c1, l2 c2]
          | rw [l1 c1]
          | rw [l2 c2]
          | skip
        refine ⟨_, rfl, ?_, ?_, ?_, ?_⟩ <;> intro hc <;> first | exact hc.elim | omega
    obtain ⟨len, e, g1, g2, g3, g4⟩ := hlen
    refine ⟨len, e, fun i k c h1 h2 h => ?_, fun i k c h1 h2 h => ?_⟩
    · obtain ⟨a, b, c⟩ := wire_zephyr hG hC hy h
      rw [a]
      rcases Nat.mod_two_eq_zero_or_one k with hk | hk <;> rw [hk] at b c ⊢
      · exact g3 (by omega)
      · exact g1 (by omega)
    · obtain ⟨a, b, c⟩ := wire_zephyr hG hC hx h
      rw [a]
      rcases Nat.mod_two_eq_zero_or_one k with hk | hk <;> rw [hk] at b c ⊢
      · exact g4 (by omega)
      · exact g2 (by omega)

end Bus
end MM
