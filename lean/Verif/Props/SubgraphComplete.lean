import Verif.Props.Subgraph

/-! Property C127: `find_subgraph` misses nothing. -/

namespace MM

open Py Spec.Py

variable {α β : Type} [DecidableEq α] [DecidableEq β]

/-- The solver was given the time it needs: it answers whenever there is something to answer. -/
def Spec.Py.Thorough (solve : Injectivity → SolverGraph → SolverGraph → List (Nat × Nat)) : Prop :=
  ∀ inj P Q f, Solution inj P Q f → P.size ≠ 0 → solve inj P Q ≠ []

/-- `emb` keeps the labels of edges and of nodes with an edge. -/
structure Spec.Py.KeepsLabels (S : SubInput α) (T : SubInput β) (emb : List (α × β)) : Prop where
  nodes : ∀ p ∈ emb, (∃ w, S.graph.Adj p.1 w) → labelOf S.nodeLabel p.1 = labelOf T.nodeLabel p.2
  edges : ∀ p ∈ emb, ∀ q ∈ emb, S.graph.Adj p.1 q.1 → labelOf S.edgeLabel (p.1, q.1) = labelOf T.edgeLabel (p.2, q.2)

namespace Py

theorem touched_adj {X : SubInput α} {a : α} (h : X.Touched a) : ∃ b, X.graph.Adj a b := by
  obtain ⟨e, he, rfl | rfl⟩ := h
  · exact ⟨e.2, .inl (by rw [graph_edges]; exact he)⟩
  · exact ⟨e.1, .inr (by rw [graph_edges]; exact he)⟩

/-- A mapping of the graphs gives one of the graphs the solver sees. -/
theorem solution_of_map {inj : Injectivity} {S : SubInput α} {T : SubInput β} {P : SubRead α} {Q : SubRead β} (hS : S.graph.WF) (hP : ReadOK S P) (hQ : ReadOK T Q)
    {emb : List (α × β)} (h : SubgraphMap inj S.graph T.graph emb) (hl : KeepsLabels S T emb) : ∃ f, Solution inj P.g Q.g f := by
  have huniqP : ∀ {i j : Nat} {a : α}, P.L.label[i]? = some a → P.L.label[j]? = some a → i = j := by
    intro i j a hi hj
    have h1 := (hP.wf.idx a i).mpr hi
    have h2 := (hP.wf.idx a j).mpr hj
    rw [h1] at h2
    exact Option.some.inj h2
  have huniqQ : ∀ {i j : Nat} {a : β}, Q.L.label[i]? = some a → Q.L.label[j]? = some a → i = j := by
    intro i j a hi hj
    have h1 := (hQ.wf.idx a i).mpr hi
    have h2 := (hQ.wf.idx a j).mpr hj
    rw [h1] at h2
    exact Option.some.inj h2
  have hent : ∀ a ∈ S.graph.nodes, ∃ p ∈ emb, p.1 = a := by
    intro a ha
    exact List.mem_map.mp (h.total.mem_iff.mpr ha)
  have hone : ∀ i, ∃ j : Nat, i < P.g.size → ∃ p ∈ emb, P.L.label[i]? = some p.1 ∧ Q.L.label[j]? = some p.2 ∧ ∃ w, S.graph.Adj p.1 w := by
    intro i
    by_cases hi : i < P.g.size
    · rw [hP.size] at hi
      have ht := (hP.label P.L.label[i]).mp (List.getElem_mem hi)
      obtain ⟨w, hw⟩ := touched_adj ht
      obtain ⟨p, hp, e⟩ := hent _ (touched_node hS ht)
      obtain ⟨q, hq, rfl⟩ := hent _ (touched_node hS (adj_touched hw).2)
      rw [← e] at hw
      obtain ⟨j, hj⟩ := List.mem_iff_getElem?.mp ((hQ.label p.2).mpr (adj_touched (h.edges p hp q hq hw)).1)
      exact ⟨j, fun _ => ⟨p, hp, by rw [e]; exact List.getElem?_eq_getElem hi, hj, q.1, hw⟩⟩
    · exact ⟨0, fun h => absurd h hi⟩
  choose f hf using hone
  have hlt : ∀ {i : Nat} {a : α}, P.L.label[i]? = some a → i < P.g.size := by
    intro i a hi
    rw [hP.size]
    exact (List.getElem?_eq_some_iff.mp hi).1
  have himg : ∀ {i : Nat} {a : α}, P.L.label[i]? = some a → ∃ p ∈ emb, p.1 = a ∧ Q.L.label[f i]? = some p.2 ∧ ∃ w, S.graph.Adj p.1 w := by
    intro i a hi
    obtain ⟨p, hp, e1, e2, e3⟩ := hf i (hlt hi)
    rw [hi] at e1
    exact ⟨p, hp, (Option.some.inj e1).symm, e2, e3⟩
  refine ⟨f, ?_, ?_, ?_, ?_, ?_⟩
  · intro i hi
    obtain ⟨p, _, _, e2, _⟩ := hf i hi
    rw [hQ.size]
    exact (List.getElem?_eq_some_iff.mp e2).1
  · intro i hi
    obtain ⟨p, hp, e1, e2, e3⟩ := hf i hi
    rw [hP.names i _ e1, hQ.names _ _ e2, nodeName_eq, nodeName_eq]
    exact hl.nodes p hp e3
  · intro i j l hmem
    obtain ⟨a, b, a1, b1, hab, rfl⟩ := hP.sound _ hmem
    obtain ⟨p, hp, rfl, p2, _⟩ := himg a1
    obtain ⟨q, hq, rfl, q2, _⟩ := himg b1
    obtain ⟨i', j', c1, c2, c3⟩ := hQ.complete _ _ (h.edges p hp q hq hab)
    rw [edgeName_eq, hl.edges p hp q hq hab, ← edgeName_eq, huniqQ p2 c1, huniqQ q2 c2]
    exact c3
  · intro hinj i hi j hj hij
    obtain ⟨p, hp, e1, e2, _⟩ := hf i hi
    obtain ⟨q, hq, g1, g2, _⟩ := hf j hj
    rw [hij, g2] at e2
    have : p = q := List.inj_on_of_nodup_map (h.injective hinj) hp hq (Option.some.inj e2).symm
    rw [this] at e1
    exact huniqP e1 g1
  · intro hloc k i j l l' hki hkj hij
    obtain ⟨a, b, a1, b1, hab, _⟩ := hP.sound _ hki
    obtain ⟨a', c, a2, c1, hac, _⟩ := hP.sound _ hkj
    dsimp only at a1 b1 a2 c1
    rw [a1] at a2
    cases a2
    obtain ⟨p, hp, rfl, _, _⟩ := himg a1
    obtain ⟨q, hq, rfl, q2, _⟩ := himg b1
    obtain ⟨r, hr, rfl, r2, _⟩ := himg c1
    rw [hij, r2] at q2
    have := h.locally hloc p hp q hq r hr hab hac (Option.some.inj q2).symm
    rw [this] at b1
    exact huniqP b1 c1

end Py

/-- **C127.** If there is a mapping of the kind asked for that keeps the labels, `find_subgraph` returns one, unless the solver runs out of time. It maps every node. -/
theorem C127_found {S : SubInput α} {T : SubInput β} (hS : S.graph.WF) (hT : T.graph.WF) {shS : Option (Shuffle α)} {shT : Option (Shuffle β)}
    (hsS : Shuffle.OK shS) (hsT : Shuffle.OK shT) (inj : Injectivity) {setOrder : List β → List β} (ho : ∀ l, (setOrder l).Perm l)
    {solve : Injectivity → SolverGraph → SolverGraph → List (Nat × Nat)} (hsolve : Sound solve) (hall : Thorough solve)
    {emb : List (α × β)} (h : SubgraphMap inj S.graph T.graph emb) (hl : KeepsLabels S T emb) :
    ∃ emb', findSubgraph S T shS shT inj setOrder solve = .ok emb' ∧ SubgraphMap inj S.graph T.graph emb' ∧ KeepsLabels S T emb' := by
  obtain ⟨emb1, e1, k1, k2⟩ := C59_labels_partial hS hT hsS hsT inj ho hsolve
  by_cases hnodes : S.graph.nodes = []
  · obtain ⟨emb2, e2, h2 | h2⟩ := C33_empty_or_complete hS hT hsS hsT inj ho hsolve
    · rw [e1] at e2; cases e2
      exact ⟨emb1, e1, ⟨by rw [h2, hnodes]; rfl, by simp [h2], by simp [h2], by simp [h2], by simp [h2]⟩, ⟨k1, k2⟩⟩
    · rw [e1] at e2; cases e2
      exact ⟨emb1, e1, h2, ⟨k1, k2⟩⟩
  · obtain ⟨a, ha⟩ := List.exists_mem_of_ne_nil _ hnodes
    obtain ⟨p, hp, -⟩ := List.mem_map.mp (h.total.mem_iff.mpr ha)
    have hfound : S.edges = [] ∨ solve inj (S.read shS).g (T.read shT).g ≠ [] := by
      by_cases hE : S.edges = []
      · exact .inl hE
      · obtain ⟨e, he⟩ := List.exists_mem_of_ne_nil _ hE
        have hP := read_ok hS hsS
        have hQ := read_ok hT hsT
        obtain ⟨f, hf⟩ := solution_of_map hS hP hQ h hl
        refine .inr (hall _ _ _ f hf ?_)
        have := List.length_pos_of_mem ((hP.label e.1).mpr ⟨e, he, .inl rfl⟩)
        rw [hP.size]
        omega
    obtain ⟨emb2, e2, h2⟩ := C33_found hS hT hsS hsT inj ho hsolve hnodes hfound (List.ne_nil_of_mem (h.nodes p hp)) (by
      intro hinj
      have h1 := (List.subperm_of_subset (h.injective hinj) (l₂ := T.graph.nodes) (by
        intro b hb
        obtain ⟨p, hp, rfl⟩ := List.mem_map.mp hb
        exact h.nodes p hp)).length_le
      have h2 := h.total.length_eq
      rw [List.length_map] at h1 h2
      omega)
    rw [e1] at e2; cases e2
    exact ⟨emb1, e1, h2, ⟨k1, k2⟩⟩

/-- **C127.** For a source with nodes, the answer is empty exactly if there is no such mapping. -/
theorem C127_empty {S : SubInput α} {T : SubInput β} (hS : S.graph.WF) (hT : T.graph.WF) {shS : Option (Shuffle α)} {shT : Option (Shuffle β)}
    (hsS : Shuffle.OK shS) (hsT : Shuffle.OK shT) (inj : Injectivity) {setOrder : List β → List β} (ho : ∀ l, (setOrder l).Perm l)
    {solve : Injectivity → SolverGraph → SolverGraph → List (Nat × Nat)} (hsolve : Sound solve) (hall : Thorough solve) (hnodes : S.graph.nodes ≠ []) :
    findSubgraph S T shS shT inj setOrder solve = .ok [] ↔ ¬ ∃ emb, SubgraphMap inj S.graph T.graph emb ∧ KeepsLabels S T emb := by
  constructor
  · rintro h0 ⟨emb, h, hl⟩
    obtain ⟨emb', e, h', -⟩ := C127_found hS hT hsS hsT inj ho hsolve hall h hl
    rw [h0] at e; cases e
    have := h'.total.length_eq
    exact hnodes (List.length_eq_zero_iff.mp (by simpa using this.symm))
  · intro hno
    obtain ⟨emb, e, h⟩ := C33_empty_or_complete hS hT hsS hsT inj ho hsolve
    obtain ⟨emb1, e1, k1, k2⟩ := C59_labels_partial hS hT hsS hsT inj ho hsolve
    rw [e] at e1; cases e1
    rcases h with rfl | h
    · exact e
    · exact absurd ⟨emb, h, ⟨k1, k2⟩⟩ hno

/-- A solver that is stopped by the time limit or by Ctrl-C has no mapping (subgraph.pyx 427-431). For a source with edges the call then returns the empty mapping,
whatever the graphs: no exception tells this answer from the proof that there is no subgraph. -/
theorem C127_stopped {S : SubInput α} {T : SubInput β} (hS : S.graph.WF) {shS : Option (Shuffle α)} {shT : Option (Shuffle β)} (hsS : Shuffle.OK shS)
    (inj : Injectivity) {setOrder : List β → List β} (hE : S.edges ≠ []) :
    findSubgraph S T shS shT inj setOrder (fun _ _ _ => []) = .ok [] := by
  obtain ⟨e, he⟩ := List.exists_mem_of_ne_nil _ hE
  have hpos := List.length_pos_of_mem (((read_ok hS hsS).label e.1).mpr ⟨e, he, .inl rfl⟩)
  unfold findSubgraph
  simp only [translate, ite_self]
  rw [if_neg]
  rintro ⟨-, h⟩
  simp only [List.length_nil] at h
  omega

namespace Demo

open Classical in
/-- A solver with all the time in the world. -/
noncomputable def oracle (inj : Injectivity) (P Q : SolverGraph) : List (Nat × Nat) :=
  if h : ∃ f, Solution inj P Q f then (List.range P.size).map fun i => (i, h.choose i) else []

theorem oracle_sound : Sound oracle := by
  intro inj P Q
  unfold oracle
  split
  · rename_i h
    exact .inr ⟨_, h.choose_spec, rfl⟩
  · exact .inl rfl

theorem oracle_thorough : Thorough oracle := by
  intro inj P Q f hf hn
  unfold oracle
  rw [dif_pos ⟨f, hf⟩]
  intro h
  rw [List.map_eq_nil_iff, List.range_eq_nil] at h
  exact hn h

end Demo

/-- The hypotheses are met: an edge and an isolated node are found in a triangle, and nothing is found the other way round. -/
example : (∃ emb, findSubgraph Demo.edgeDot Demo.triangleIn none none .injective id Demo.oracle = .ok emb ∧ SubgraphMap .injective Demo.edgeDot.graph Demo.triangleIn.graph emb) ∧
    findSubgraph Demo.triangleIn Demo.edgeDot none none .injective id Demo.oracle = .ok [] := by
  have hw1 : Demo.edgeDot.graph.WF := ⟨by decide, by decide⟩
  have hw2 : Demo.triangleIn.graph.WF := ⟨by decide, by decide⟩
  have hs : Shuffle.OK (none : Option (Shuffle Nat)) := by simp [Shuffle.OK]
  constructor
  · have hm : SubgraphMap .injective Demo.edgeDot.graph Demo.triangleIn.graph [(1, 10), (2, 11), (0, 12)] := by
      refine ⟨by decide, by decide, ?_, fun _ => by decide, nofun⟩
      unfold Graph.Adj
      decide
    have hk : KeepsLabels Demo.edgeDot Demo.triangleIn [(1, 10), (2, 11), (0, 12)] := ⟨fun _ _ _ => rfl, fun _ _ _ _ _ => rfl⟩
    obtain ⟨emb, e, h, -⟩ := C127_found hw1 hw2 hs hs .injective (fun _ => .refl _) Demo.oracle_sound Demo.oracle_thorough hm hk
    exact ⟨emb, e, h⟩
  · refine (C127_empty hw2 hw1 hs hs .injective (fun _ => .refl _) Demo.oracle_sound Demo.oracle_thorough (by decide)).mpr ?_
    rintro ⟨emb, h, -⟩
    -- node 10 lies on two edges, no node of the target does
    have hent : ∀ a ∈ Demo.triangleIn.graph.nodes, ∃ p ∈ emb, p.1 = a := fun a ha => List.mem_map.mp (h.total.mem_iff.mpr ha)
    obtain ⟨p, hp, p1⟩ := hent 10 (by decide)
    obtain ⟨q, hq, q1⟩ := hent 11 (by decide)
    obtain ⟨r, hr, r1⟩ := hent 12 (by decide)
    have a1 := h.edges p hp q hq (by rw [p1, q1]; unfold Graph.Adj; decide)
    have a2 := h.edges p hp r hr (by rw [p1, r1]; unfold Graph.Adj; decide)
    have hqr : q.2 = r.2 := by
      revert a1 a2
      simp only [Graph.Adj, show Demo.edgeDot.graph.edges = [(1, 2)] from rfl, List.mem_singleton, Prod.mk.injEq]
      omega
    have := List.inj_on_of_nodup_map (h.injective rfl) hq hr hqr
    rw [this, r1] at q1
    cases q1

/-- A triangle in itself, stopped. -/
example : findSubgraph Demo.triangleIn Demo.triangleIn none none .injective id (fun _ _ _ => []) = .ok [] :=
  C127_stopped ⟨by decide, by decide⟩ (by simp [Shuffle.OK]) .injective (by decide)

end MM
