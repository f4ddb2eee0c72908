import Verif.Bus.FindInv
import Verif.Props.Small
import Verif.Props.CliqueCache

/-! C50, C63: `find_clique_embedding` without a cache. -/

namespace MM

open Bus Lattice Spec

theorem zip_take_size {α β : Type} (L : List α) (A : List β) : L.zip A = L.zip (A.take L.length) := by
  induction L generalizing A with
  | nil => simp
  | cons a L ih =>
    cases A with
    | nil => simp
    | cons b A => simp [ih A]

/-- C50, except for what `C50_never` refutes: a request that the direct search for cliques of single qubits can meet returns such an embedding. -/
theorem C50_partial {α : Type} (S : Sorting) (fuel : Nat) {T : Topo} {nodes : List Nat} {edges : List (Nat × Nat)} (hG : WFGraph T nodes edges) {bound : Nat} {D D' : Draws} {labels : List α}
    (hex : ∃ vs, IsClique nodes edges vs ∧ vs.length = labels.length) (hn : labels.length ≤ T.cliqueNumber) :
    ∃ A, findUncached S fuel T bound D D' nodes edges labels = .ok (labels.zip A) ∧ A.length = labels.length ∧ CliqueEmbedding nodes edges A ∧ ∀ c ∈ A, c.length = 1 := by
  obtain ⟨vs, hv, hl⟩ := hex
  have hcn : 2 ≤ T.cliqueNumber ∧ T.cliqueNumber ≤ 4 := by cases T <;> simp [Topo.cliqueNumber]
  obtain ⟨h1, h2, h3⟩ := C49_short hG.ends hG.loopless hcn.1 hcn.2
  have hle := h3 vs hv (by omega)
  refine ⟨(shortClique T.cliqueNumber nodes edges).take labels.length, ?_, by rw [List.length_take]; omega, clique_sublist h1 (List.take_sublist _ _), fun c hc => h2 c (List.mem_of_mem_take hc)⟩
  rw [findUncached]
  rw [if_pos (by omega), ← zip_take_size]
  rfl

/-- C50 is false of the code: in Chimera and Zephyr graphs, a request of at most the size of one side of a cell that single qubits cannot meet never returns.
Either the loop that makes the chains of a cell never ends, or the search for cliques of width 1 writes past the end of its table. -/
theorem C50_never {α : Type} (S : Sorting) {T : Topo} (hk : T.hasWidthOne = true) (hY : 0 < T.dimY) (hX : 0 < T.dimX) {nodes : List Nat} {edges : List (Nat × Nat)} (hG : WFGraph T nodes edges) {bound : Nat} (hb : 0 < bound)
    {D D' : Draws} (hD : D.Perm) (hD' : D'.Perm) {labels : List α} (h1 : (shortClique T.cliqueNumber nodes edges).length < labels.length) (h2 : labels.length ≤ T.shore) :
    (∀ fuel, findUncached S fuel T bound D D' nodes edges labels = .error .diverge) ∨ (∀ fuel, findUncached S fuel T bound D D' nodes edges labels = .error .ub) := by
  obtain ⟨C, l, _, g1, g2⟩ := findClique_cell S hG hb hD hD' hk (by omega) h2 hY hX
  by_cases hex : ∃ y x s, y < T.dimY ∧ x < T.dimX ∧ cellScore T C y x = .ok s ∧ labels.length ≤ s
  · left
    intro fuel
    simp only [findUncached, if_neg (Nat.not_le.mpr h1), g1 hex fuel, bind, Except.bind]
  · right
    intro fuel
    simp only [findUncached, if_neg (Nat.not_le.mpr h1), g2 hex fuel, bind, Except.bind]

/-- A single Chimera cell with 4 qubits on each side. -/
def unitEdges : List (Nat × Nat) := chimeraEdges 1 1 4

theorem unit_wf : WFGraph (.chimera 1 1 4) (List.range 8) unitEdges := by
  refine ⟨show 4 ≤ 8 by decide, ?_, by decide +kernel, fun e he => .inl (chimeraEdges_coupled he)⟩
  have : ∀ q ∈ List.range 8, q < 8 := by decide +kernel
  exact this

theorem unit_short : (shortClique (Topo.chimera 1 1 4).cliqueNumber (List.range 8) unitEdges).length = 2 := by decide +kernel

/-- Two nodes in a whole cell. -/
example (S : Sorting) (fuel : Nat) : ∃ A, findUncached S fuel (.chimera 1 1 4) 64 revDraws revDraws (List.range 8) unitEdges ["a", "b"] = .ok (["a", "b"].zip A) ∧ A.length = 2 ∧
    CliqueEmbedding (List.range 8) unitEdges A ∧ ∀ c ∈ A, c.length = 1 := by
  refine C50_partial S fuel unit_wf ⟨[0, 4], ⟨by decide, ?_⟩, rfl⟩ (show 2 ≤ 2 by decide)
  rw [List.pairwise_pair]
  exact ⟨by decide, by decide +kernel⟩

theorem bare_wf : WFGraph (.chimera 1 1 4) [0, 1] [] := by
  refine ⟨show 4 ≤ 8 by decide, ?_, by simp, by simp⟩
  have : ∀ q ∈ [0, 1], q < 8 := by decide
  exact this

/-- Three nodes in a cell without couplers, where the table is too short. -/
example (S : Sorting) : (∀ fuel, findUncached S fuel (.chimera 1 1 4) 64 revDraws revDraws [0, 1] [] ["a", "b", "c"] = .error .diverge) ∨ (∀ fuel, findUncached S fuel (.chimera 1 1 4) 64 revDraws revDraws [0, 1] [] ["a", "b", "c"] = .error .ub) :=
  C50_never S rfl (by decide) (by decide) bare_wf (by decide) revDraws_perm revDraws_perm (by decide +kernel) (by decide)

/-- The clique with 3 nodes in a single whole cell: there is a valid embedding, but the loop never ends. -/
theorem C50_hangs (S : Sorting) (fuel : Nat) : findUncached S fuel (.chimera 1 1 4) 64 revDraws revDraws (List.range 8) unitEdges ["a", "b", "c"] = .error .diverge ∧
    CliqueEmbedding (List.range 8) unitEdges [[0, 4], [1, 5], [2, 6]] := by
  obtain ⟨C, l, h0, g1, _⟩ := findClique_cell S (bound := 64) unit_wf (by decide) revDraws_perm revDraws_perm (size := 3) rfl (by decide) (show 3 ≤ 4 by decide) (by decide) (by decide)
  have hC : ((searched (.chimera 1 1 4) 64 revDraws revDraws (List.range 8) unitEdges).bind fun l => match l with
      | C :: _ => cellScore (.chimera 1 1 4) C 0 0
      | [] => .error .ub) = .ok 4 := by decide +kernel
  rw [h0] at hC
  have := g1 ⟨0, 0, 4, by decide, by decide, hC, by decide⟩ fuel
  have hshort := unit_short
  constructor
  · simp only [findUncached]
    rw [if_neg (by rw [hshort]; decide)]
    simp only [List.length_cons, List.length_nil, Nat.zero_add, this, bind, Except.bind]
  · exact clique_of_paths (by decide +kernel) (by decide +kernel) (by decide +kernel)

/-- C63: `find_clique_embedding` without a cache, for more nodes than one side of a cell has. If for any of the masks that are searched some sequence of nested rectangles gives enough chains, the result
maps the labels, one by one, to the chains of a valid embedding; otherwise it is empty. -/
theorem C63_found {α : Type} (S : Sorting) (fuel : Nat) {T : Topo} {nodes : List Nat} {edges : List (Nat × Nat)} (hG : WFGraph T nodes edges) {bound : Nat} (hb : 0 < bound) {D D' : Draws} (hD : D.Perm) (hD' : D'.Perm)
    {labels : List α} (h0 : 0 < T.shore) (h1 : (shortClique T.cliqueNumber nodes edges).length < labels.length) (h2 : T.shore < labels.length) :
    ∃ l, searched T bound D D' nodes edges = .ok l ∧
      ((∃ C ∈ l, ∃ lines W ys xs emb, lineMasks T C = .ok lines ∧ Nested T.dimY T.dimX W ys xs ∧ inflateAll T lines (nestedElls W ys xs W) = .ok emb ∧ labels.length ≤ emb.length) →
        ∃ A, findUncached S fuel T bound D D' nodes edges labels = .ok (labels.zip A) ∧ A.length = labels.length ∧ CliqueEmbedding nodes edges A ∧ ∀ c ∈ A, c.Nodup) ∧
      ((¬ ∃ C ∈ l, ∃ lines W ys xs emb, lineMasks T C = .ok lines ∧ Nested T.dimY T.dimX W ys xs ∧ inflateAll T lines (nestedElls W ys xs W) = .ok emb ∧ labels.length ≤ emb.length) →
        findUncached S fuel T bound D D' nodes edges labels = .ok []) := by
  obtain ⟨l, r, g1, g2, g3, g4⟩ := findClique_ok S fuel hG hb hD hD' h0 h2
  have hiff : (∃ C ∈ l, ∃ lines W ys xs emb, lineMasks T C = .ok lines ∧ Nested T.dimY T.dimX W ys xs ∧ inflateAll T lines (nestedElls W ys xs W) = .ok emb ∧ labels.length ≤ emb.length) ↔ Offered T l labels.length := by
    constructor
    · rintro ⟨C, hC, lines, W, ys, xs, emb, a, b, c, d⟩; exact ⟨C, hC, lines, a, W, ys, xs, emb, b, c, d⟩
    · rintro ⟨C, hC, lines, a, W, ys, xs, emb, b, c, d⟩; exact ⟨C, hC, lines, W, ys, xs, emb, a, b, c, d⟩
  refine ⟨l, g1, fun hoff => ?_, fun hno => ?_⟩
  · rw [hiff] at hoff
    cases r with
    | none => exact absurd rfl (g3 hoff)
    | some emb =>
      obtain ⟨_, k1, k2, k3⟩ := g4 emb rfl
      refine ⟨emb.take labels.length, ?_, by rw [List.length_take]; omega, clique_sublist k2 (List.take_sublist _ _), fun c hc => k3 c (List.mem_of_mem_take hc)⟩
      simp only [findUncached, if_neg (Nat.not_le.mpr h1), g2, bind, Except.bind]
      rw [← zip_take_size]
      rfl
  · rw [hiff] at hno
    cases r with
    | some emb => exact absurd (g4 emb rfl).1 hno
    | none =>
      simp only [findUncached, if_neg (Nat.not_le.mpr h1), g2, bind, Except.bind]
      rfl

/-- C63 for Chimera: no sequence of nested rectangles of any width `W`, in any of the masks that are searched, that gives enough chains has shorter ones: all its chains have `W + 1` qubits, and those returned have no more. -/
theorem C63_chimera {α : Type} (S : Sorting) (fuel : Nat) {m n t : Nat} {nodes : List Nat} {edges : List (Nat × Nat)} (hG : WFGraph (.chimera m n t) nodes edges) {bound : Nat} (hb : 0 < bound) {D D' : Draws} (hD : D.Perm) (hD' : D'.Perm)
    {labels : List α} (h0 : 0 < t) (h1 : (shortClique 2 nodes edges).length < labels.length) (h2 : t < labels.length) {l : List Masks} (hl : searched (.chimera m n t) bound D D' nodes edges = .ok l)
    {C : Masks} (hC : C ∈ l) {lines : List Byte} (hlines : lineMasks (.chimera m n t) C = .ok lines) {W : Nat} {ys xs : Nat → Nat} {emb : List (List Nat)} (hn : Nested m n W ys xs)
    (he : inflateAll (.chimera m n t) lines (nestedElls W ys xs W) = .ok emb) (hle : labels.length ≤ emb.length) :
    ∃ A, findUncached S fuel (.chimera m n t) bound D D' nodes edges labels = .ok (labels.zip A) ∧ A.length = labels.length ∧ ∀ c ∈ A, c.length ≤ W + 1 := by
  have h1 : (shortClique (Topo.chimera m n t).cliqueNumber nodes edges).length < labels.length := h1
  have h2' : (Topo.chimera m n t).shore < labels.length := h2
  obtain ⟨l', r, g1, g2, g3, g4⟩ := findClique_ok S fuel hG hb hD hD' (show 0 < (Topo.chimera m n t).shore from h0) h2'
  rw [hl] at g1; cases g1
  have hfe : Feasible (.chimera m n t) lines labels.length W := ⟨ys, xs, emb, hn, he, hle⟩
  cases r with
  | none => exact absurd rfl (g3 ⟨C, hC, lines, hlines, W, hfe⟩)
  | some emb' =>
    refine ⟨emb'.take labels.length, ?_, ?_, findClique_chimera S fuel hG hb hD hD' h0 h2 hl g2 hC hlines hfe⟩
    · simp only [findUncached, if_neg (Nat.not_le.mpr h1), g2, bind, Except.bind]
      rw [← zip_take_size]
      rfl
    · have := (g4 emb' rfl).2.1
      rw [List.length_take]; omega

/-- Sorting by length that keeps the order of chains of the same length. -/
def stableSort : Sorting where
  sort l := l.insertionSort fun c d => c.length ≤ d.length
  perm l := List.perm_insertionSort _ l
  sorted l := by
    have : Std.Total fun (c d : List Nat) => c.length ≤ d.length := ⟨fun c d => Nat.le_total _ _⟩
    have : IsTrans (List Nat) fun c d => c.length ≤ d.length := ⟨fun _ _ _ => Nat.le_trans⟩
    exact List.pairwise_insertionSort _ l

/-- The hypotheses of `C63_found` hold of the grid with one coupler missing. -/
example (fuel : Nat) :=
  C63_found stableSort fuel grid_wf (bound := 64) (by decide) revDraws_perm revDraws_perm (labels := ["a", "b", "c"]) (by decide) (by decide +kernel) (by decide)

/-- Three nodes are found; five do not fit. -/
example : findUncached stableSort 9 (.chimera 2 2 2) 64 revDraws revDraws gridNodes gridEdges ["a", "b", "c"] = .ok [("a", [4, 12, 6]), ("b", [5, 13, 7]), ("c", [8, 10, 14])] := by decide +kernel

example : findUncached stableSort 9 (.chimera 2 2 2) 64 revDraws revDraws gridNodes gridEdges ["a", "b", "c", "d", "e"] = .ok [] := by decide +kernel

end MM
