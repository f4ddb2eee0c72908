import Verif.Bus.YieldInv
import Verif.Props.Small

/-! What `best_cliques` returns. -/

namespace MM
namespace Bus

open Lattice Spec

/-- The entries of a result that are at least as large as those of one mask. -/
structure Covers (T : Topo) (nodes : List Nat) (edges : List (Nat × Nat)) (C : Masks) (r : List (List (List Nat))) : Prop where
  found : ∃ N E mem Y, Clean T nodes edges C N E ∧ lineMasks T C = .ok mem ∧ Table T C mem ∧ (∀ p ∈ widthsTried T, Beats T mem nodes edges N E p Y) ∧
    (T.hasWidthOne = true → ∀ y x emb, y < T.dimY → x < T.dimX → inflateEll T mem ⟨y, x, y, y, x, x⟩ [] = .ok emb → ∃ e, Y.embs[2]? = some e ∧ emb.length ≤ e.length) ∧
    ∀ (i : Nat) e, Y.embs[i]? = some e → ∃ e', r[i]? = some e' ∧ e.length ≤ e'.length

theorem Covers.mono {T : Topo} {nodes : List Nat} {edges : List (Nat × Nat)} {C : Masks} {r r' : List (List (List Nat))} (h : Covers T nodes edges C r)
    (hr : ∀ (i : Nat) e, r[i]? = some e → ∃ e', r'[i]? = some e' ∧ e.length ≤ e'.length) : Covers T nodes edges C r' := by
  obtain ⟨N, E, mem, Y, h1, h2, h3, h4, h5, h6⟩ := h.found
  refine ⟨N, E, mem, Y, h1, h2, h3, h4, h5, fun i e he => ?_⟩
  obtain ⟨e', a, b⟩ := h6 i e he
  obtain ⟨e'', c, d⟩ := hr i e' a
  exact ⟨e'', c, Nat.le_trans b d⟩

theorem bestCliques_ok {T : Topo} {nodes : List Nat} {edges : List (Nat × Nat)} (hG : WFGraph T nodes edges) {bound : Nat} (hb : 0 < bound) {D D' : Draws} (hD : D.Perm) (hD' : D'.Perm) :
    ∃ l r, searched T bound D D' nodes edges = .ok l ∧ l ≠ [] ∧ bestCliques T bound D D' nodes edges = .ok r ∧ (∀ (i : Nat) e, r[i]? = some e → Entry nodes edges i e) ∧
      (∃ e, r[1]? = some e ∧ (shortClique T.cliqueNumber nodes edges).length ≤ e.length) ∧ ∀ C ∈ l, Covers T nodes edges C r := by
  obtain ⟨l, h1, h2, h3⟩ := searched_ok hG hb hD hD'
  have hcn : 2 ≤ T.cliqueNumber ∧ T.cliqueNumber ≤ 4 := by cases T <;> simp [Topo.cliqueNumber]
  obtain ⟨s1, s2, _⟩ := C49_short hG.ends hG.loopless hcn.1 hcn.2
  have h0 : ∀ (i : Nat) e, [[], shortClique T.cliqueNumber nodes edges][i]? = some e → Entry nodes edges i e := by
    intro i e he
    match i, he with
    | 0, he => cases he; exact ⟨⟨by simp, .nil, .nil⟩, by simp, by simp, by simp⟩
    | 1, he =>
      cases he
      refine ⟨s1, fun c hc => ?_, fun c hc => Nat.le_of_eq (s2 c hc), fun hne => ?_⟩
      · obtain ⟨v, rfl⟩ := List.length_eq_one_iff.mp (s2 c hc); simp
      · obtain ⟨c, hc⟩ := List.exists_mem_of_ne_nil _ hne
        exact ⟨c, hc, s2 c hc⟩
    | i + 2, he => simp at he
  have key : ∀ (l : List Masks) r, (∀ C ∈ l, ∃ N E, Clean T nodes edges C N E) → (∀ (i : Nat) e, r[i]? = some e → Entry nodes edges i e) →
      ∃ r', l.foldlM (fun embs C => do
        let Y ← yieldOf T C
        pure (mergeYield embs Y.embs)) r = .ok r' ∧ (∀ (i : Nat) e, r'[i]? = some e → Entry nodes edges i e) ∧
        (∀ (i : Nat) e, r[i]? = some e → ∃ e', r'[i]? = some e' ∧ e.length ≤ e'.length) ∧ ∀ C ∈ l, Covers T nodes edges C r' := by
    intro l
    induction l with
    | nil => intro r _ hr; exact ⟨r, rfl, hr, fun i e h => ⟨e, h, Nat.le_refl _⟩, by simp⟩
    | cons C l ih =>
      intro r hc hr
      obtain ⟨N, E, hC⟩ := hc C List.mem_cons_self
      obtain ⟨mem, m1, m2⟩ := lineMasks_ok hC.sized
      obtain ⟨Y, y1, y2, y3, y4⟩ := yieldOf_ok hG hC m1 m2
      obtain ⟨g1, g2, g3⟩ := mergeYield_ok (P := Entry nodes edges) hr y2.entry
      obtain ⟨r', i1, i2, i3, i4⟩ := ih (mergeYield r Y.embs) (fun C h => hc C (List.mem_cons_of_mem _ h)) g1
      refine ⟨r', ?_, i2, ?_, ?_⟩
      · rw [List.foldlM_cons, y1]; exact i1
      · intro i e he
        obtain ⟨e', a, b⟩ := g2 i e he
        obtain ⟨e'', c, d⟩ := i3 i e' a
        exact ⟨e'', c, Nat.le_trans b d⟩
      · intro C' hC'
        rcases List.mem_cons.mp hC' with rfl | hC'
        · exact Covers.mono ⟨N, E, mem, Y, hC, m1, m2, y3, y4, g3⟩ i3
        · exact i4 C' hC'
  obtain ⟨r, r1, r2, r3, r4⟩ := key l _ h3 h0
  refine ⟨l, r, h1, h2, ?_, r2, r3 1 _ rfl, r4⟩
  simp only [bestCliques, h1, bind, Except.bind]
  exact r1

end Bus
end MM
