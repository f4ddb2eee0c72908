import Verif.Bus.NestedInv
import Verif.Props.Bundles

/-! C48: the dynamic program finds the best of all sequences of nested rectangles. -/

namespace MM

open Bus Lattice Spec

/-- C48: take a graph of one of the three families, a mask that is searched and a width of at least 2 that fits. The search returns an answer. Leave out from each
sequence of nested rectangles the ells that fail the check (Pegasus: those whose chains are too long) and make chains of the
others. The answer are the chains of one of these sequences, they embed a clique, and no sequence has more chains. No answer
means that no sequence has any chain. -/
theorem C48_best {T : Topo} {nodes : List Nat} {edges : List (Nat × Nat)} (hG : WFGraph T nodes edges) {bound : Nat} (hb : 0 < bound)
    {D D' : Draws} (hD : D.Perm) (hD' : D'.Perm) {l : List Masks} (hl : searched T bound D D' nodes edges = .ok l) {C : Masks} (hC : C ∈ l)
    (check : Ell → Bool) {W : Nat} (hW : 2 ≤ W) (hY : W ≤ T.dimY) (hX : W ≤ T.dimX) :
    ∃ mem r, lineMasks T C = .ok mem ∧ cliqueOf T mem check W = .ok r ∧
      (∀ emb, r = some emb → emb ≠ [] ∧ CliqueEmbedding nodes edges emb ∧ (∀ c ∈ emb, c.Nodup) ∧
        ∃ ys xs, Nested T.dimY T.dimX W ys xs ∧ inflateAll T mem ((nestedElls W ys xs W).filter check) = .ok emb) ∧
      ∀ ys xs, Nested T.dimY T.dimX W ys xs →
        ∃ emb, inflateAll T mem ((nestedElls W ys xs W).filter check) = .ok emb ∧ emb.length ≤ r.elim 0 List.length := by
  obtain ⟨l', h1, _, h3⟩ := searched_ok hG hb hD hD'
  rw [hl] at h1; cases h1
  obtain ⟨N, E, hc⟩ := h3 C hC
  obtain ⟨mem, h4, h5⟩ := lineMasks_ok hc.sized
  obtain ⟨r, r1, r2, r3⟩ := cliqueOf_best (check := check) hG hc (lines := mem) h5 ⟨hW, hY, hX⟩
  refine ⟨mem, r, h4, r1, fun emb he => ?_, r3⟩
  obtain ⟨a0, a1, a2, ys, xs, css, b1, b2, rfl⟩ := r2 emb he
  exact ⟨a0, a1, a2, ys, xs, b1, inflateAll_ok b2⟩

/-- The best clique of width 2 in `chimera_graph(2, 2, 2)` without the coupler of 0 and 2, for each of the two masks. -/
example : (do
    let l ← searched (.chimera 2 2 2) 64 revDraws revDraws gridNodes gridEdges
    l.mapM fun C => do
      let mem ← lineMasks (.chimera 2 2 2) C
      cliqueOf (.chimera 2 2 2) mem (fun _ => true) 2) =
    .ok [some [[4, 12, 6], [5, 13, 7], [8, 10, 14], [9, 11, 15]], some [[4, 12, 6], [5, 13, 7], [8, 10, 14], [9, 11, 15]]] := by decide +kernel

/-- Its sequence of rectangles. -/
example : Nested 2 2 2 (fun i => if i = 0 then 1 else 0) (fun i => i) ∧
    nestedElls 2 (fun i => if i = 0 then 1 else 0) (fun i => i) 2 = [⟨0, 1, 0, 1, 1, 1⟩, ⟨1, 0, 1, 1, 0, 1⟩] := by
  refine ⟨⟨?_, ?_, ?_, ?_⟩, by decide⟩
  · intro i hi; show (if i = 0 then 1 else 0) + i < 2; split <;> omega
  · intro i hi; show i + (2 - 1 - i) < 2; omega
  · intro i hi
    obtain rfl : i = 0 := by omega
    exact .inr rfl
  · intro i hi; exact .inr rfl

theorem foldlM_ub {α σ : Type} {f : σ → α → B σ} (P : σ → Prop) {l : List α} (hstep : ∀ s a, a ∈ l → P s → f s a = .error .ub ∨ ∃ s', f s a = .ok s' ∧ P s')
    (hbad : ∃ a ∈ l, ∀ s, P s → f s a = .error .ub) {s : σ} (hs : P s) : l.foldlM f s = .error .ub := by
  induction l generalizing s with
  | nil => obtain ⟨a, ha, _⟩ := hbad; cases ha
  | cons b l ih =>
    rw [List.foldlM_cons]
    rcases hstep s b List.mem_cons_self hs with h | ⟨s', h, hs'⟩
    · rw [h]; rfl
    · rw [h]
      refine ih (fun s a ha => hstep s a (List.mem_cons_of_mem _ ha)) ?_ hs'
      obtain ⟨a, ha, hb⟩ := hbad
      rcases List.mem_cons.mp ha with e | ha
      · have h' := hb s hs
        rw [e, h] at h'
        cases h'
      · exact ⟨a, ha, hb⟩

/-- C48 cannot be extended to width 1: there the search always writes past the end of its table. -/
theorem C48_width_one {T : Topo} {nodes : List Nat} {edges : List (Nat × Nat)} (hG : WFGraph T nodes edges) {bound : Nat} (hb : 0 < bound)
    {D D' : Draws} (hD : D.Perm) (hD' : D'.Perm) {l : List Masks} (hl : searched T bound D D' nodes edges = .ok l) {C : Masks} (hC : C ∈ l)
    (check : Ell → Bool) (hY : 0 < T.dimY) (hX : 0 < T.dimX) : ∃ mem, lineMasks T C = .ok mem ∧ cliqueOf T mem check 1 = .error .ub := by
  obtain ⟨l', h1, _, h3⟩ := searched_ok hG hb hD hD'
  rw [hl] at h1; cases h1
  obtain ⟨N, E, hc⟩ := h3 C hC
  obtain ⟨mem, h4, h5⟩ := lineMasks_ok hc.sized
  refine ⟨mem, h4, ?_⟩
  have hn : memTotal T 1 = .ok (T.dimY * T.dimX + 1) := by
    show (List.range 1).foldlM _ 0 = _
    rw [List.range_one]
    simp only [List.foldlM_cons, List.foldlM_nil, memsize, memrows, memcols, sub_, Nat.zero_le, if_true, Nat.zero_lt_one, show ¬ 0 + 1 < 1 by omega, if_false, bind, Except.bind, pure, Except.pure, Nat.sub_zero, Nat.zero_add]
  have hlay : layout T 1 (List.replicate (T.dimY * T.dimX + 1) 0) = .ok ((List.replicate (T.dimY * T.dimX + 1) 0).set 0 1) := by
    simp only [layout, put_ok (show 0 < (List.replicate (T.dimY * T.dimX + 1) 0).length by simp), bind, Except.bind]
    rfl
  generalize hm0 : (List.replicate (T.dimY * T.dimX + 1) 0).set 0 1 = m0 at hlay
  have hlen : m0.length = T.dimY * T.dimX + 1 := by rw [← hm0]; simp
  have hhead : at_ m0 0 = .ok 1 := by
    refine at_ok ?_
    rw [← hm0]
    exact List.getElem?_set_self (by simp)
  have htab : tabAt T 1 m0 0 = .ok ⟨T.dimY, T.dimX, 1⟩ := by
    simp only [tabAt, memrows, memcols, sub_, Nat.zero_le, if_true, Nat.zero_lt_one, show ¬ 0 + 1 < 1 by omega, if_false, bind, Except.bind, pure, Except.pure, Nat.sub_zero, hhead]
  have hset : ∀ (m : List Nat) y x s c, m.length = T.dimY * T.dimX + 1 → setmax m ⟨T.dimY, T.dimX, 1⟩ y x s c = .error .ub ∨ ∃ m', setmax m ⟨T.dimY, T.dimX, 1⟩ y x s c = .ok m' ∧ m'.length = T.dimY * T.dimX + 1 := by
    intro m y x s c hm
    by_cases hi : (⟨T.dimY, T.dimX, 1⟩ : Tab).index y x < m.length
    · right
      have hat := at_ok (List.getElem?_eq_getElem hi)
      simp only [setmax, hat, bind, Except.bind, put_ok hi]
      split
      · exact ⟨_, rfl, by rw [List.length_set, hm]⟩
      · split
        · exact ⟨_, rfl, by rw [List.length_set, hm]⟩
        · exact ⟨_, rfl, hm⟩
    · left
      have hat : at_ m ((⟨T.dimY, T.dimX, 1⟩ : Tab).index y x) = .error .ub := by
        unfold at_; rw [List.getElem?_eq_none (by omega)]
      simp only [setmax, hat, bind, Except.bind]
  have hbad : ∀ (m : List Nat) s c, m.length = T.dimY * T.dimX + 1 → setmax m ⟨T.dimY, T.dimX, 1⟩ (T.dimY - 1) T.dimX s c = .error .ub := by
    intro m s c hm
    have hat : at_ m ((⟨T.dimY, T.dimX, 1⟩ : Tab).index (T.dimY - 1) T.dimX) = .error .ub := by
      have e : T.dimX + T.dimX * (T.dimY - 1) = T.dimY * T.dimX := by
        obtain ⟨n, hn⟩ : ∃ n, T.dimY = n + 1 := ⟨T.dimY - 1, by omega⟩
        rw [hn, Nat.add_sub_cancel, Nat.add_mul, Nat.mul_comm, Nat.add_comm, Nat.one_mul]
      unfold at_; rw [List.getElem?_eq_none (by simp only [Tab.index]; omega)]
    simp only [setmax, hat, bind, Except.bind]
  have hext : extendAll T mem check 1 none 1 1 [.sw, .se] m0 = .error .ub := by
    have hny : sub_ T.dimY 1 = .ok (T.dimY - 1) := by unfold sub_; rw [if_pos (by omega)]; rfl
    have hnx : sub_ T.dimX 1 = .ok (T.dimX - 1) := by unfold sub_; rw [if_pos (by omega)]; rfl
    simp only [extendAll, htab, hny, hnx, bind, Except.bind]
    have hgrid : ∀ (r : Nat × Nat × Corner), r ∈ rounds (T.dimY - 1 + 1) (T.dimX - 1 + 1) [.sw, .se] → (ellAt r.1 (r.1 + 1 - 1) r.2.1 (r.2.1 + 1 - 1) r.2.2).InGrid T := by
      intro r hr
      obtain ⟨y, x, c⟩ := r
      obtain ⟨a, b, _⟩ := mem_rounds.mp hr
      have b : x < T.dimX - 1 + 1 := b
      cases c <;> constructor <;> simp only [ellAt] <;> omega
    have hone : ∀ (m : List Nat) (r : Nat × Nat × Corner), r ∈ rounds (T.dimY - 1 + 1) (T.dimX - 1 + 1) [.sw, .se] →
        ∃ s c, extendOne T mem check none ⟨T.dimY, T.dimX, 1⟩ m r.1 (r.1 + 1 - 1) r.2.1 (r.2.1 + 1 - 1) r.2.2 = setmax m ⟨T.dimY, T.dimX, 1⟩ r.1 (nextX r.2.1 r.2.2) s c := by
      intro m r hr
      have he := weight_ok hG hc (lines := mem) h5 _ (hgrid r hr)
      unfold extendOne
      simp only [bind, Except.bind, pure, Except.pure, he]
      split
      · exact ⟨_, _, rfl⟩
      · exact ⟨_, _, rfl⟩
    refine foldlM_ub (fun m => m.length = T.dimY * T.dimX + 1) ?_ ?_ hlen
    · intro m r hr hm
      obtain ⟨s, c, h⟩ := hone m r hr
      rw [h]; exact hset _ _ _ _ _ hm
    · have hr : (T.dimY - 1, T.dimX - 1, Corner.sw) ∈ rounds (T.dimY - 1 + 1) (T.dimX - 1 + 1) [.sw, .se] := mem_rounds.mpr ⟨by simp, by simp, by simp⟩
      refine ⟨_, hr, fun m hm => ?_⟩
      obtain ⟨s, c, h⟩ := hone m _ hr
      rw [h]
      have : nextX (T.dimX - 1) .sw = T.dimX := by simp only [nextX]; omega
      simp only [this]
      exact hbad m s c hm
  simp only [cliqueOf, cliqueCache, hn, hlay, computeCache, hext, bind, Except.bind]

example : WFGraph (.chimera 2 2 2) gridNodes gridEdges ∧ ∃ l C, searched (.chimera 2 2 2) 64 revDraws revDraws gridNodes gridEdges = .ok l ∧ C ∈ l := by
  obtain ⟨l, h1, h2, -⟩ := searched_ok (bound := 64) grid_wf (by decide) revDraws_perm revDraws_perm
  obtain ⟨C, hC⟩ := List.exists_mem_of_ne_nil l h2
  exact ⟨grid_wf, l, C, h1, hC⟩

end MM
