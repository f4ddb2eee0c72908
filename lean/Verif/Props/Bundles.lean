import Verif.Bus.EllInv
import Verif.Props.BusDemo

/-! C46, C47: line segments, and the chains made of them. -/

namespace MM

open Bus Lattice

/-- C46: for every mask that is searched, the table of segments can be filled, and the byte for positions `z0` to `z1` of a bundle
holds track `k` exactly if the mask uses all the pieces of the track from `z0` to `z1` and lets it go on from each of them to the next. -/
theorem C46_segments {T : Topo} {nodes : List Nat} {edges : List (Nat × Nat)} (hG : WFGraph T nodes edges) {bound : Nat} (hb : 0 < bound)
    {D D' : Draws} (hD : D.Perm) (hD' : D'.Perm) {l : List Masks} (hl : searched T bound D D' nodes edges = .ok l) {C : Masks} (hC : C ∈ l) :
    ∃ mem, lineMasks T C = .ok mem ∧ ∀ u w z0 z1, w < T.dimW u → z0 ≤ z1 → z1 < T.dimZ u →
      ∃ b, lineMask T mem u w z0 z1 = .ok b ∧
        ∀ k, b.getLsbD k = true ↔ (∀ z, z0 ≤ z → z ≤ z1 → Uses T C u w k z) ∧ ∀ z, z0 ≤ z → z < z1 → Continues T C u w k z := by
  obtain ⟨l', h1, _, h3⟩ := searched_ok hG hb hD hD'
  rw [hl] at h1; cases h1
  obtain ⟨N, E, hc⟩ := h3 C hC
  obtain ⟨mem, h4, h5⟩ := lineMasks_ok hc.sized
  refine ⟨mem, h4, fun u w z0 z1 hw hz hz1 => ?_⟩
  obtain ⟨b, h6, h7⟩ := h5 u w z0 z1 hw hz hz1
  refine ⟨b, h6, fun k => (seg_clean hc hw hz hz1 h7 k).trans (and_congr ?_ ?_)⟩
  · refine forall_congr' fun z => forall_congr' fun a => forall_congr' fun b => ?_
    exact (hc.rep.node u w k z ⟨hw, by show z < T.dimZ u; omega⟩).symm
  · constructor
    · intro h z a b
      exact (hc.rep.edge u w k (z + 1) ⟨hw, by show z + 1 < T.dimZ u; omega⟩).mpr (h (z + 1) (by omega) (by omega))
    · intro h z a b
      obtain ⟨y, rfl⟩ : ∃ y, z = y + 1 := ⟨z - 1, by omega⟩
      exact (hc.rep.edge u w k (y + 1) ⟨hw, by show y + 1 < T.dimZ u; omega⟩).mp (h y (by omega) (by omega))

/-- C46 without faults: if all couplers between crossing qubits are there, the byte holds exactly the tracks
whose qubits from `z0` to `z1` are all there and coupled, one to the next. -/
theorem C46_faultless {T : Topo} {nodes : List Nat} {edges : List (Nat × Nat)} (hG : WFGraph T nodes edges)
    (hfull : ∀ p ∈ nodes, ∀ q ∈ nodes, ∀ x k y j, FragOf T p false x k y → FragOf T q true y j x → (p, q) ∈ edges ∨ (q, p) ∈ edges)
    {bound : Nat} (hb : 0 < bound) {D D' : Draws} (hD : D.Perm) (hD' : D'.Perm) :
    ∃ C mem, searched T bound D D' nodes edges = .ok [C] ∧ lineMasks T C = .ok mem ∧ ∀ u w z0 z1, w < T.dimW u → z0 ≤ z1 → z1 < T.dimZ u →
      ∃ b, lineMask T mem u w z0 z1 = .ok b ∧ ∀ k, b.getLsbD k = true ↔ (∀ z, z0 ≤ z → z ≤ z1 → ∃ q ∈ nodes, FragOf T q u w k z) ∧
        ∀ z, z0 ≤ z → z < z1 → ∃ p ∈ nodes, ∃ q ∈ nodes, FragOf T p u w k z ∧ FragOf T q u w k (z + 1) ∧ (p = q ∨ (p, q) ∈ edges ∨ (q, p) ∈ edges) := by
  obtain ⟨M, L, hM, hL, hmiss⟩ := C45_missing hG
  have hnil : L = [] := by
    rw [List.eq_nil_iff_forall_not_mem]
    rintro ⟨a, b⟩ hab
    obtain ⟨x, k, y, j, ⟨p, hp, q, hq, fp, fq, n1, n2⟩, _⟩ := (hmiss a b).mp hab
    rcases hfull p hp q hq x k y j fp fq with h | h
    · exact n1 h
    · exact n2 h
  subst hnil
  obtain ⟨l, hl, choices, _, hch, hlen, hfew⟩ := C45_few hG hD hD' hM hL (bound := bound) (by simpa [Nat.one_le_iff_ne_zero, Nat.pos_iff_ne_zero] using hb)
  have h1 := C45_count hG hb hD hD' hM hL hl
  rw [List.length_nil, Nat.pow_zero, Nat.min_eq_left hb] at h1
  obtain ⟨C, rfl⟩ := List.length_eq_one_iff.mp h1
  obtain ⟨c, rfl⟩ := List.length_eq_one_iff.mp (hlen.symm.trans h1)
  obtain ⟨mem, hm, hseg⟩ := C46_segments hG hb hD hD' hl (C := C) (List.mem_singleton.mpr rfl)
  refine ⟨C, mem, hl, hm, fun u w z0 z1 hw hz hz1 => ?_⟩
  obtain ⟨b, h6, h7⟩ := hseg u w z0 z1 hw hz hz1
  have huse : ∀ z, z < T.dimZ u → ∀ k, Uses T C u w k z ↔ ∃ q ∈ nodes, FragOf T q u w k z := by
    intro z hz k
    have := (hfew 0 C c rfl rfl u w k z hw hz).1
    simpa using this
  refine ⟨b, h6, fun k => (h7 k).trans (and_congr ?_ ?_)⟩
  · exact forall_congr' fun z => forall_congr' fun a => forall_congr' fun b => huse z (by omega) k
  · refine forall_congr' fun z => forall_congr' fun a => forall_congr' fun b => ?_
    rw [(hfew 0 C c rfl rfl u w k z hw (by omega)).2 (by omega), huse z (by omega), huse (z + 1) (by omega)]
    constructor
    · exact fun h => h.2.2
    · rintro ⟨p, hp, q, hq, f1, f2, f3⟩
      exact ⟨⟨p, hp, f1⟩, ⟨q, hq, f2⟩, p, hp, q, hq, f1, f2, f3⟩

/-- All of `chimera_graph(2, 2, 2)` misses no coupler. -/
example : WFGraph (.chimera 2 2 2) (List.range 16) (chimeraEdges 2 2 2) ∧ ∀ p ∈ List.range 16, ∀ q ∈ List.range 16, ∀ x k y j, FragOf (.chimera 2 2 2) p false x k y →
    FragOf (.chimera 2 2 2) q true y j x → (p, q) ∈ chimeraEdges 2 2 2 ∨ (q, p) ∈ chimeraEdges 2 2 2 := by
  refine ⟨⟨show 2 ≤ 8 by decide, ?_, by decide +kernel, fun e he => .inl (chimeraEdges_coupled he)⟩, ?_⟩
  · intro q hq
    rw [List.mem_range] at hq
    show q < 2 * 2 * 2 * 2
    omega
  · intro p hp q hq x k y j f g
    have key : ∀ p ∈ List.range 16, ∀ q ∈ List.range 16, ((Topo.chimera 2 2 2).first p).1 = false → ((Topo.chimera 2 2 2).first q).1 = true →
        ((Topo.chimera 2 2 2).first p).2.1 = ((Topo.chimera 2 2 2).first q).2.2.2 → ((Topo.chimera 2 2 2).first p).2.2.2 = ((Topo.chimera 2 2 2).first q).2.1 →
        (p, q) ∈ chimeraEdges 2 2 2 ∨ (q, p) ∈ chimeraEdges 2 2 2 := by decide +kernel
    obtain ⟨f1, f2, f3, f4, f5⟩ := f
    obtain ⟨g1, g2, g3, g4, g5⟩ := g
    simp only [Topo.span] at f5 g5
    exact key p hp q hq f1 g1 (by omega) (by omega)

/-- C47: let some ells lie in the grid, in rows and columns that are all different, such that for any two of them the vertical line of one crosses
the horizontal line of the other. The chains made of them are connected, disjoint and pairwise adjacent in the
graph; none lists a qubit twice. They are as many as the scores of the ells say. -/
theorem C47_ells {T : Topo} {nodes : List Nat} {edges : List (Nat × Nat)} (hG : WFGraph T nodes edges) {bound : Nat} (hb : 0 < bound)
    {D D' : Draws} (hD : D.Perm) (hD' : D'.Perm) {l : List Masks} (hl : searched T bound D D' nodes edges = .ok l) {C : Masks} (hC : C ∈ l)
    {es : List Ell} (hin : ∀ e ∈ es, e.InGrid T) (hm : es.Pairwise Ell.Meets) :
    ∃ mem emb scores, lineMasks T C = .ok mem ∧ inflateAll T mem es = .ok emb ∧ es.mapM (ellScore T mem) = .ok scores ∧
      Spec.CliqueEmbedding nodes edges emb ∧ (∀ c ∈ emb, c.Nodup) ∧ emb.length = scores.sum := by
  obtain ⟨l', h1, _, h3⟩ := searched_ok hG hb hD hD'
  rw [hl] at h1; cases h1
  obtain ⟨N, E, hc⟩ := h3 C hC
  obtain ⟨mem, h4, h5⟩ := lineMasks_ok hc.sized
  have key : ∀ es : List Ell, (∀ e ∈ es, e.InGrid T) → ∃ css scores, (∀ emb, es.foldlM (fun emb e => inflateEll T mem e emb) emb = .ok (emb ++ css.flatten)) ∧
      es.mapM (ellScore T mem) = .ok scores ∧ List.Forall₂ (EllOut T nodes edges N E) es css ∧ css.flatten.length = scores.sum := by
    intro es
    induction es with
    | nil => intro _; exact ⟨[], [], fun emb => by simp; rfl, rfl, .nil, rfl⟩
    | cons e es ih =>
      intro hin
      obtain ⟨cs, a1, a2, a3⟩ := inflateEll_ok hG hc (mem := mem) h5 (hin e List.mem_cons_self)
      obtain ⟨css, scores, b1, b2, b3, b4⟩ := ih fun f hf => hin f (List.mem_cons_of_mem _ hf)
      refine ⟨cs :: css, cs.length :: scores, fun emb => ?_, ?_, .cons a3 b3, by simp [b4]⟩
      · rw [List.foldlM_cons, a1]
        show List.foldlM _ (emb ++ cs) es = _
        rw [b1, List.flatten_cons, List.append_assoc]
      · rw [List.mapM_cons, a2]
        show (do let r ← es.mapM (ellScore T mem); pure (cs.length :: r)) = _
        rw [b2]; rfl
  obtain ⟨css, scores, b1, b2, b3, b4⟩ := key es hin
  obtain ⟨c1, c2⟩ := ells_clique hG hc hin hm b3
  exact ⟨mem, css.flatten, scores, h4, by rw [inflateAll, b1]; rfl, b2, c1, c2, b4⟩

/-- Two ells that meet: their chains in `chimera_graph(2, 2, 2)` without the coupler of 0 and 2, for each of the two masks. -/
def demoElls : List Ell := [⟨0, 0, 0, 0, 0, 1⟩, ⟨1, 1, 0, 1, 1, 1⟩]

theorem demoElls_ok : (∀ e ∈ demoElls, e.InGrid (.chimera 2 2 2)) ∧ demoElls.Pairwise Ell.Meets := by
  constructor
  · intro e he
    simp only [demoElls, List.mem_cons, List.not_mem_nil, or_false] at he
    rcases he with rfl | rfl <;> constructor <;> decide
  · simp only [demoElls, List.pairwise_cons, List.mem_cons, List.not_mem_nil, or_false, forall_eq]
    exact ⟨⟨by decide, by decide, .inl ⟨by decide, by decide, by decide, by decide⟩⟩, by simp, .nil⟩

example : (do
    let l ← searched (.chimera 2 2 2) 64 revDraws revDraws gridNodes gridEdges
    l.mapM fun C => do
      let mem ← lineMasks (.chimera 2 2 2) C
      inflateAll (.chimera 2 2 2) mem demoElls) =
    .ok [[[0, 3, 7], [4, 12, 14], [5, 13, 15]], [[1, 2, 6], [4, 12, 14], [5, 13, 15]]] := by decide +kernel

end MM
