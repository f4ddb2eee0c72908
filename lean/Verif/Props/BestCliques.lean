import Verif.Bus.BestInv
import Verif.Props.BusDemo

/-! C60: the clique embeddings that are stored for a graph. -/

namespace MM

open Bus Lattice Spec

/-- C60: for every subgraph of a supported lattice the search returns a list of clique embeddings. Entry `i` is a valid embedding without repeated qubits
whose longest chain has exactly `i` qubits, unless it is empty. -/
theorem C60_valid {T : Topo} {nodes : List Nat} {edges : List (Nat × Nat)} (hG : WFGraph T nodes edges) {bound : Nat} (hb : 0 < bound) {D D' : Draws} (hD : D.Perm) (hD' : D'.Perm) :
    ∃ r, bestCliques T bound D D' nodes edges = .ok r ∧
      ∀ (i : Nat) e, r[i]? = some e → CliqueEmbedding nodes edges e ∧ (∀ c ∈ e, c.Nodup ∧ c.length ≤ i) ∧ (e ≠ [] → ∃ c ∈ e, c.length = i) := by
  obtain ⟨l, r, h1, h2, h3, h4, h5, h6⟩ := bestCliques_ok hG hb hD hD'
  refine ⟨r, h3, fun i e he => ?_⟩
  obtain ⟨a, b, c, d⟩ := h4 i e he
  exact ⟨a, fun x hx => ⟨b x hx, c x hx⟩, d⟩

/-- Entry 1 is as large as any clique of the graph with at most `clique_number` nodes. -/
theorem C60_short {T : Topo} {nodes : List Nat} {edges : List (Nat × Nat)} (hG : WFGraph T nodes edges) {bound : Nat} (hb : 0 < bound) {D D' : Draws} (hD : D.Perm) (hD' : D'.Perm)
    {r : List (List (List Nat))} (hr : bestCliques T bound D D' nodes edges = .ok r) {vs : List Nat} (hv : IsClique nodes edges vs) (hn : vs.length ≤ T.cliqueNumber) :
    ∃ e, r[1]? = some e ∧ vs.length ≤ e.length := by
  obtain ⟨l, r', h1, h2, h3, h4, ⟨e, h5, h5'⟩, h6⟩ := bestCliques_ok hG hb hD hD'
  rw [hr] at h3; cases h3
  have hcn : 2 ≤ T.cliqueNumber ∧ T.cliqueNumber ≤ 4 := by cases T <;> simp [Topo.cliqueNumber]
  exact ⟨e, h5, Nat.le_trans ((C49_short hG.ends hG.loopless hcn.1 hcn.2).2.2 vs hv hn) h5'⟩

/-- Some entry is at least as large as what any sequence of nested rectangles gives, of any width, in any of the masks that are searched. -/
theorem C60_nested {T : Topo} {nodes : List Nat} {edges : List (Nat × Nat)} (hG : WFGraph T nodes edges) {bound : Nat} (hb : 0 < bound) {D D' : Draws} (hD : D.Perm) (hD' : D'.Perm)
    {r : List (List (List Nat))} (hr : bestCliques T bound D D' nodes edges = .ok r) {l : List Masks} (hl : searched T bound D D' nodes edges = .ok l) {C : Masks} (hC : C ∈ l) :
    ∃ mem, lineMasks T C = .ok mem ∧ ∀ W ys xs, 2 ≤ W → Nested T.dimY T.dimX W ys xs →
      ∃ (emb : List (List Nat)) (i : Nat) (e : List (List Nat)), inflateAll T mem (nestedElls W ys xs W) = .ok emb ∧ r[i]? = some e ∧ emb.length ≤ e.length := by
  obtain ⟨l', r', h1, h2, h3, h4, ⟨e, h5, h5'⟩, h6⟩ := bestCliques_ok hG hb hD hD'
  rw [hr] at h3; cases h3
  rw [hl] at h1; cases h1
  obtain ⟨N, E, mem, Y, g1, g2, g3, g4, g5, g6⟩ := (h6 C hC).found
  refine ⟨mem, g2, fun W ys xs hW hn => ?_⟩
  have hF : Fits T W := ⟨hW, by have := hn.rows (W - 1) (by omega); omega, by have := hn.cols 0 (by omega); omega⟩
  obtain ⟨_, _, _, k3⟩ := cliqueOf_best (check := fun _ => true) hG g1 g3 hF
  obtain ⟨emb, k4, _⟩ := k3 ys xs hn
  have hf : (nestedElls W ys xs W).filter (fun _ => true) = nestedElls W ys xs W := List.filter_eq_self.mpr (by simp)
  by_cases hne : emb = []
  · exact ⟨emb, 1, e, by rwa [hf] at k4, h5, by simp [hne]⟩
  · obtain ⟨i, e', a1, a2, _⟩ := g4 (W, none) (widthsTried_none hF) ys xs emb hn (show inflateAll _ mem ((nestedElls W ys xs W).filter fun e => true) = .ok emb from k4) hne
    obtain ⟨e'', b1, b2⟩ := g6 i e' a1
    exact ⟨emb, i, e'', by rwa [hf] at k4, b1, Nat.le_trans a2 b2⟩

/-- In Chimera, chains of `W + 1` qubits are enough for what rectangles of width `W` give, including cells, which are those of width 1. -/
theorem C60_chimera {m n t : Nat} {nodes : List Nat} {edges : List (Nat × Nat)} (hG : WFGraph (.chimera m n t) nodes edges) {bound : Nat} (hb : 0 < bound) {D D' : Draws} (hD : D.Perm) (hD' : D'.Perm)
    {r : List (List (List Nat))} (hr : bestCliques (.chimera m n t) bound D D' nodes edges = .ok r) {l : List Masks} (hl : searched (.chimera m n t) bound D D' nodes edges = .ok l) {C : Masks} (hC : C ∈ l) :
    ∃ mem, lineMasks (.chimera m n t) C = .ok mem ∧ ∀ W ys xs, 1 ≤ W → Nested m n W ys xs →
      ∃ emb, inflateAll (.chimera m n t) mem (nestedElls W ys xs W) = .ok emb ∧ (emb ≠ [] → ∃ e, r[W + 1]? = some e ∧ emb.length ≤ e.length) := by
  obtain ⟨l', r', h1, h2, h3, h4, ⟨e, h5, h5'⟩, h6⟩ := bestCliques_ok hG hb hD hD'
  rw [hr] at h3; cases h3
  rw [hl] at h1; cases h1
  obtain ⟨N, E, mem, Y, g1, g2, g3, g4, g5, g6⟩ := (h6 C hC).found
  refine ⟨mem, g2, fun W ys xs hW hn => ?_⟩
  by_cases hW2 : 2 ≤ W
  · have hF : Fits (.chimera m n t) W := ⟨hW2, by have := hn.rows (W - 1) (by omega); show W ≤ m; omega, by have := hn.cols 0 (by omega); show W ≤ n; omega⟩
    obtain ⟨_, _, _, k3⟩ := cliqueOf_best (check := fun _ => true) hG g1 g3 hF
    obtain ⟨emb, k4, _⟩ := k3 ys xs hn
    have hf : (nestedElls W ys xs W).filter (fun _ => true) = nestedElls W ys xs W := List.filter_eq_self.mpr (by simp)
    refine ⟨emb, by rwa [hf] at k4, fun hne => ?_⟩
    obtain ⟨i, e', a1, a2, d, k, j, c, a3, a4, a5, a6⟩ := g4 (W, none) (widthsTried_none hF) ys xs emb hn (show inflateAll _ mem ((nestedElls W ys xs W).filter fun e => true) = .ok emb from k4) hne
    rw [chimera_length a4 a5] at a6
    obtain ⟨e'', b1, b2⟩ := g6 i e' a1
    exact ⟨e'', by rw [a6]; exact b1, Nat.le_trans a2 b2⟩
  · obtain rfl : W = 1 := by omega
    have hy : ys 0 < m := by simpa using hn.rows 0 (by omega)
    have hx : xs 0 < n := by simpa using hn.cols 0 (by omega)
    obtain ⟨cs, a1, _, _⟩ := inflateEll_ok hG g1 g3 (cell_inGrid (T := .chimera m n t) hy hx)
    have hin : inflateEll (.chimera m n t) mem ⟨ys 0, xs 0, ys 0, ys 0, xs 0, xs 0⟩ [] = .ok cs := by simpa using a1 []
    refine ⟨cs, ?_, fun _ => ?_⟩
    · have : nestedElls 1 ys xs 1 = [⟨ys 0, xs 0, ys 0, ys 0, xs 0, xs 0⟩] := by simp [nestedElls, nestedEll, newRow, oldColumn]
      rw [this]
      simp only [inflateAll, List.foldlM_cons, List.foldlM_nil, hin, bind, Except.bind]; rfl
    · obtain ⟨e', b1, b2⟩ := g5 rfl (ys 0) (xs 0) cs hy hx hin
      obtain ⟨e'', c1, c2⟩ := g6 2 e' b1
      exact ⟨e'', c1, Nat.le_trans b2 c2⟩

/-- In Pegasus, for every bound on the length of chains: what those ells of a sequence give whose chains obey the bound is matched by an entry that obeys it. -/
theorem C60_pegasus {d : Nat} {off : Bool → Nat → Nat} {nodes : List Nat} {edges : List (Nat × Nat)} (hG : WFGraph (.pegasus d off) nodes edges) {bound : Nat} (hb : 0 < bound) {D D' : Draws} (hD : D.Perm) (hD' : D'.Perm)
    {r : List (List (List Nat))} (hr : bestCliques (.pegasus d off) bound D D' nodes edges = .ok r) {l : List Masks} (hl : searched (.pegasus d off) bound D D' nodes edges = .ok l) {C : Masks} (hC : C ∈ l) :
    ∃ mem, lineMasks (.pegasus d off) C = .ok mem ∧ ∀ W ys xs len, 2 ≤ W → Nested (6 * d) (6 * d) W ys xs →
      ∃ css : List (List (List Nat)), (nestedElls W ys xs W).mapM (fun e => inflateEll (.pegasus d off) mem e []) = .ok css ∧
        ((css.flatten.filter fun c => c.length ≤ len) ≠ [] → ∃ (i : Nat) (e : List (List Nat)), i ≤ len ∧ r[i]? = some e ∧ (css.flatten.filter fun c => c.length ≤ len).length ≤ e.length) := by
  obtain ⟨l', r', h1, h2, h3, h4, ⟨e, h5, h5'⟩, h6⟩ := bestCliques_ok hG hb hD hD'
  rw [hr] at h3; cases h3
  rw [hl] at h1; cases h1
  obtain ⟨N, E, mem, Y, g1, g2, g3, g4, g5, g6⟩ := (h6 C hC).found
  refine ⟨mem, g2, fun W ys xs len hW hn => ?_⟩
  have hF : Fits (.pegasus d off) W := ⟨hW, by have := hn.rows (W - 1) (by omega); show W ≤ 6 * d; omega, by have := hn.cols 0 (by omega); show W ≤ 6 * d; omega⟩
  have hgrid : ∀ e ∈ nestedElls W ys xs W, e.InGrid (.pegasus d off) := by
    have hk := nested_walk (T := .pegasus d off) hn hW (show W - 1 < W by omega)
    rw [show W - 1 + 1 = W by omega] at hk
    exact hk.inGrid (by omega)
  have hwide : ∀ e ∈ nestedElls W ys xs W, Wide W e := fun e he => nestedEll_wide he
  have key : ∀ es : List Ell, (∀ e ∈ es, e.InGrid (.pegasus d off)) → (∀ e ∈ es, Wide W e) → ∃ css : List (List (List Nat)), es.mapM (fun e => inflateEll (.pegasus d off) mem e []) = .ok css ∧
      ∀ emb, (es.filter fun e => decide (pegasusEllLength off e ≤ len)).foldlM (fun emb e => inflateEll (.pegasus d off) mem e emb) emb = .ok (emb ++ css.flatten.filter fun c => c.length ≤ len) := by
    intro es
    induction es with
    | nil => intro _ _; exact ⟨[], rfl, fun emb => by simp; rfl⟩
    | cons e es ih =>
      intro h1 h2
      obtain ⟨css, i1, i2⟩ := ih (fun e h => h1 e (List.mem_cons_of_mem _ h)) (fun e h => h2 e (List.mem_cons_of_mem _ h))
      obtain ⟨cs, a1, _, a3⟩ := inflateEll_ok hG g1 g3 (h1 e List.mem_cons_self)
      have hw := h2 e List.mem_cons_self
      have hlen : ∀ c ∈ cs, c.length = pegasusEllLength off e := by
        intro c hc
        obtain ⟨k, j, hk⟩ := a3.chains c hc
        exact pegasusEllLength_ok hG g1 hw.y hw.x hk
      have hsel : pegasusEllLength off e ≤ len → cs.filter (fun c => decide (c.length ≤ len)) = cs :=
        fun h => List.filter_eq_self.mpr fun c hc => by simpa [hlen c hc] using h
      have hrej : ¬ pegasusEllLength off e ≤ len → cs.filter (fun c => decide (c.length ≤ len)) = [] :=
        fun h => List.filter_eq_nil_iff.mpr fun c hc => by simpa [hlen c hc] using h
      refine ⟨cs :: css, ?_, fun emb => ?_⟩
      · simp only [List.mapM_cons, i1, a1 [], bind, Except.bind, pure, Except.pure, List.nil_append]
      · rw [List.flatten_cons, List.filter_append]
        by_cases hl : pegasusEllLength off e ≤ len
        · rw [List.filter_cons_of_pos (by simpa using hl), List.foldlM_cons, a1 emb, hsel hl, ← List.append_assoc]
          exact i2 (emb ++ cs)
        · rw [List.filter_cons_of_neg (by simpa using hl), hrej hl, List.nil_append]
          exact i2 emb
  obtain ⟨css, c1, c2⟩ := key _ hgrid hwide
  refine ⟨css, c1, fun hne => ?_⟩
  obtain ⟨i, e', a0, a1, a2⟩ := beats_pegasus hG g1 g4 hF len hn (c2 []) hne
  obtain ⟨e'', b1, b2⟩ := g6 i e' a1
  exact ⟨i, e'', a0, b1, Nat.le_trans a2 b2⟩

/-- The stored embeddings of `chimera_graph(2, 2, 2)` without the coupler of 0 and 2. -/
example : bestCliques (.chimera 2 2 2) 64 revDraws revDraws gridNodes gridEdges =
    .ok [[], [[0], [3]], [[4, 6], [5, 7]], [[4, 12, 6], [5, 13, 7], [8, 10, 14], [9, 11, 15]]] := by decide +kernel

/-- For `C60_pegasus`: a graph, its entries and a mask. -/
example : WFGraph (.pegasus 3 pegasusOff) pegNodes pegEdges ∧ ∃ r l C, bestCliques (.pegasus 3 pegasusOff) 64 revDraws revDraws pegNodes pegEdges = .ok r ∧
    searched (.pegasus 3 pegasusOff) 64 revDraws revDraws pegNodes pegEdges = .ok l ∧ C ∈ l := by
  obtain ⟨l, r, h1, h2, h3, -⟩ := bestCliques_ok (bound := 64) peg_wf (by decide) revDraws_perm revDraws_perm
  obtain ⟨C, hC⟩ := List.exists_mem_of_ne_nil l h2
  exact ⟨peg_wf, r, l, C, h3, h1, hC⟩

end MM
