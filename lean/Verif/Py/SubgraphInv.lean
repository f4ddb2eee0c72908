import Verif.Py.Subgraph
import Verif.Py.FeasibleInv

/-! Reading graphs for `find_subgraph`. -/

namespace MM
namespace Py

open Spec.Py

variable {α β : Type} [DecidableEq α] [DecidableEq β]

/-- The graph meant by an argument. -/
def SubInput.graph (X : SubInput α) : Graph α :=
  match X.nodes with
  | none => Graph.ofEdges X.edges
  | some ns => ⟨ns, X.edges⟩

/-- Some edge ends at `a`. -/
def SubInput.Touched (X : SubInput α) (a : α) : Prop := ∃ e ∈ X.edges, a = e.1 ∨ a = e.2

theorem degree_pos (X : SubInput α) (a : α) : X.degree a ≠ 0 ↔ X.Touched a := by
  unfold SubInput.degree Graph.degree SubInput.Touched
  dsimp only
  induction X.edges with
  | nil => simp
  | cons e es ih =>
    rw [List.map_cons, List.sum_cons]
    constructor
    · intro h
      by_cases h1 : a = e.1 ∨ a = e.2
      · exact ⟨e, List.mem_cons_self, h1⟩
      · push Not at h1
        rw [if_neg (Ne.symm h1.1), if_neg (Ne.symm h1.2)] at h
        obtain ⟨f, hf, h2⟩ := ih.mp (by omega)
        exact ⟨f, List.mem_cons_of_mem _ hf, h2⟩
    · rintro ⟨f, hf, h2⟩
      rcases List.mem_cons.mp hf with rfl | hf
      · rcases h2 with rfl | rfl
        · rw [if_pos rfl]; omega
        · rw [if_pos rfl]; omega
      · have := ih.mpr ⟨f, hf, h2⟩
        omega

theorem graph_edges (X : SubInput α) : X.graph.edges = X.edges := by
  unfold SubInput.graph
  cases X.nodes <;> rfl

theorem touched_node {X : SubInput α} (h : X.graph.WF) {a : α} (ha : X.Touched a) : a ∈ X.graph.nodes := by
  obtain ⟨e, he, h1⟩ := ha
  have := h.ends e (by rw [graph_edges]; exact he)
  rcases h1 with rfl | rfl
  · exact this.1
  · exact this.2

theorem mem_ofEdges {es : List (α × α)} {a : α} : a ∈ (Graph.ofEdges es).nodes ↔ ∃ e ∈ es, a = e.1 ∨ a = e.2 := by
  unfold Graph.ofEdges
  simp [List.mem_dedup, List.mem_flatMap, eq_comm]

/-- Label dictionaries whose labels are all touched. -/
structure Good (X : SubInput α) (L : LabelDict α) : Prop where
  wf : L.WF
  touched : ∀ a ∈ L.label, X.Touched a

theorem Good.get {X : SubInput α} {L : LabelDict α} (h : Good X L) {a : α} (ha : X.Touched a) :
    Good X (L.get a).1 ∧ L.Le (L.get a).1 ∧ (L.get a).1.label[(L.get a).2]? = some a := by
  obtain ⟨h1, h2, h3, h4⟩ := h.wf.get a
  refine ⟨⟨h1, ?_⟩, h2, (h1.idx _ _).mp h3⟩
  intro b hb
  rw [h4] at hb
  split at hb
  · exact h.touched b hb
  · rcases List.mem_append.mp hb with hb | hb
    · exact h.touched b hb
    · rw [List.mem_singleton] at hb
      rwa [hb]

theorem le_get? {L L' : LabelDict α} (h : L.Le L') {k : Nat} {a : α} (hk : L.label[k]? = some a) : L'.label[k]? = some a := by
  obtain ⟨l, hl⟩ := h.2
  rw [hl, List.getElem?_append_left (List.getElem?_eq_some_iff.mp hk).1]
  exact hk

theorem Good.get2 {X : SubInput α} {L : LabelDict α} (h : Good X L) {e : α × α} (he : e ∈ X.edges) :
    Good X (L.get2 e) ∧ L.Le (L.get2 e) ∧ e.1 ∈ (L.get2 e).label ∧ e.2 ∈ (L.get2 e).label := by
  obtain ⟨h1, h2, h3⟩ := h.get (a := e.1) ⟨e, he, .inl rfl⟩
  obtain ⟨h4, h5, h6⟩ := h1.get (a := e.2) ⟨e, he, .inr rfl⟩
  exact ⟨h4, h2.trans h5, List.mem_of_getElem? (le_get? h5 h3), List.mem_of_getElem? h6⟩

theorem good_fill {X : SubInput α} : ∀ (es : List (α × α)) (L : LabelDict α), (∀ e ∈ es, e ∈ X.edges) → Good X L →
    Good X (es.foldl LabelDict.get2 L) ∧ L.Le (es.foldl LabelDict.get2 L) ∧
    ∀ e ∈ es, e.1 ∈ (es.foldl LabelDict.get2 L).label ∧ e.2 ∈ (es.foldl LabelDict.get2 L).label := by
  intro es
  induction es with
  | nil => intro L _ h; exact ⟨h, .refl L, by simp⟩
  | cons e es ih =>
    intro L hs h
    obtain ⟨h1, h2, h3, h4⟩ := h.get2 (hs e List.mem_cons_self)
    obtain ⟨k1, k2, k3⟩ := ih (L.get2 e) (fun f hf => hs f (List.mem_cons_of_mem _ hf)) h1
    refine ⟨k1, h2.trans k2, ?_⟩
    intro f hf
    rcases List.mem_cons.mp hf with rfl | hf
    · obtain ⟨l, hl⟩ := k2.2
      rw [List.foldl_cons, hl]
      exact ⟨List.mem_append_left _ h3, List.mem_append_left _ h4⟩
    · exact k3 f hf

theorem good_shuffle {X : SubInput α} {L : LabelDict α} (h : Good X L) {f : List α → List α} (hf : (f L.label).Perm L.label) :
    Good X (L.shuffle f) := by
  have hn : (f L.label).Nodup := hf.symm.nodup h.wf.nodup
  refine ⟨⟨hn, ?_⟩, ?_⟩
  · intro a k
    unfold LabelDict.shuffle
    dsimp only
    by_cases ha : a ∈ f L.label
    · rw [if_pos ha]
      constructor
      · intro e
        cases e
        rw [List.getElem?_eq_getElem (List.idxOf_lt_length_of_mem ha), List.getElem_idxOf]
      · intro e
        obtain ⟨hk, e⟩ := List.getElem?_eq_some_iff.mp e
        subst e
        rw [hn.idxOf_getElem]
    · rw [if_neg ha]
      constructor
      · intro e
        exact absurd (hf.mem_iff.mpr (List.mem_of_getElem? ((h.wf.idx a k).mp e))) ha
      · intro e
        exact absurd (List.mem_of_getElem? e) ha
  · intro a ha
    exact h.touched a (hf.mem_iff.mp ha)

theorem good_empty (X : SubInput α) : Good X LabelDict.empty := ⟨LabelDict.wf_empty, by simp [LabelDict.empty]⟩

theorem sortNodes_spec (X : SubInput α) :
    Good X X.sortNodes.1 ∧
    (∀ ns, X.nodes = some ns → X.sortNodes.2 = ns.filter (fun a => decide (X.degree a = 0)) ∧
      ∀ a ∈ ns, X.Touched a → a ∈ X.sortNodes.1.label) ∧
    (X.nodes = none → X.sortNodes.2 = []) := by
  unfold SubInput.sortNodes
  cases hX : X.nodes with
  | none => exact ⟨good_empty X, by simp, fun _ => rfl⟩
  | some ns =>
    dsimp only
    have key : ∀ (ns : List α) (s : LabelDict α × List α), Good X s.1 →
        Good X (ns.foldl (fun s a => if X.degree a ≠ 0 then ((s.1.get a).1, s.2) else (s.1, s.2 ++ [a])) s).1 ∧
        s.1.Le (ns.foldl (fun s a => if X.degree a ≠ 0 then ((s.1.get a).1, s.2) else (s.1, s.2 ++ [a])) s).1 ∧
        (ns.foldl (fun s a => if X.degree a ≠ 0 then ((s.1.get a).1, s.2) else (s.1, s.2 ++ [a])) s).2 =
          s.2 ++ ns.filter (fun a => decide (X.degree a = 0)) ∧
        ∀ a ∈ ns, X.Touched a → a ∈ (ns.foldl (fun s a => if X.degree a ≠ 0 then ((s.1.get a).1, s.2) else (s.1, s.2 ++ [a])) s).1.label := by
      intro ns
      induction ns with
      | nil => intro s h; exact ⟨h, .refl _, by simp, by simp⟩
      | cons a ns ih =>
        intro s h
        rw [List.foldl_cons]
        by_cases hd : X.degree a ≠ 0
        · rw [if_pos hd]
          obtain ⟨h1, h2, h3⟩ := h.get ((degree_pos X a).mp hd)
          obtain ⟨k1, k2, k3, k4⟩ := ih ((s.1.get a).1, s.2) h1
          refine ⟨k1, h2.trans k2, ?_, ?_⟩
          · rw [k3, List.filter_cons_of_neg (by simpa using hd)]
          · intro b hb hbt
            rcases List.mem_cons.mp hb with rfl | hb
            · exact List.mem_of_getElem? (le_get? k2 h3)
            · exact k4 b hb hbt
        · rw [if_neg hd]
          obtain ⟨k1, k2, k3, k4⟩ := ih (s.1, s.2 ++ [a]) h
          refine ⟨k1, k2, ?_, ?_⟩
          · rw [k3, List.filter_cons_of_pos (by simpa using hd), List.append_assoc]; rfl
          · intro b hb hbt
            rcases List.mem_cons.mp hb with rfl | hb
            · exact absurd ((degree_pos X b).mpr hbt) hd
            · exact k4 b hb hbt
    obtain ⟨k1, -, k3, k4⟩ := key ns (LabelDict.empty, []) (good_empty X)
    refine ⟨k1, ?_, by simp⟩
    intro ns' hns
    cases hns
    exact ⟨by simpa using k3, k4⟩

/-- Shuffles permute. -/
def Shuffle.OK (sh : Option (Shuffle α)) : Prop := ∀ s, sh = some s → (∀ l, (s.labels l).Perm l) ∧ ∀ l, (s.edges l).Perm l

theorem order_perm {X : SubInput α} {sh : Option (Shuffle α)} (hsh : Shuffle.OK sh) : (X.order sh).Perm X.edges := by
  unfold SubInput.order
  cases sh with
  | none => exact .refl _
  | some s => exact (hsh s rfl).2 _

theorem labels_spec {X : SubInput α} (hX : X.graph.WF) {sh : Option (Shuffle α)} (hsh : Shuffle.OK sh) :
    Good X (X.labels sh) ∧ ((sh.isSome = true ∨ X.nodeLabel.isSome = true ∨ X.nodes.isSome = true) → ∀ a, X.Touched a → a ∈ (X.labels sh).label) := by
  obtain ⟨g0, g1, -⟩ := sortNodes_spec X
  have hfull : ∀ L, L = (if (sh.isSome || X.nodeLabel.isSome) && X.nodes.isNone then X.edges.foldl LabelDict.get2 X.sortNodes.1 else X.sortNodes.1) →
      Good X L ∧ ((sh.isSome = true ∨ X.nodeLabel.isSome = true ∨ X.nodes.isSome = true) → ∀ a, X.Touched a → a ∈ L.label) := by
    intro L hL
    subst hL
    split
    · obtain ⟨k1, -, k3⟩ := good_fill X.edges X.sortNodes.1 (fun e he => he) g0
      refine ⟨k1, fun _ a ha => ?_⟩
      obtain ⟨e, he, h1⟩ := ha
      rcases h1 with rfl | rfl
      · exact (k3 e he).1
      · exact (k3 e he).2
    · rename_i hc
      refine ⟨g0, fun hor a ha => ?_⟩
      cases hn : X.nodes with
      | none =>
        exfalso
        rw [hn] at hc hor
        simp at hc hor
        rcases hor with h | h
        · rw [hc.1] at h; cases h
        · rw [hc.2] at h; cases h
      | some ns =>
        refine (g1 ns hn).2 a ?_ ha
        have := touched_node hX ha
        unfold SubInput.graph at this
        rw [hn] at this
        exact this
  unfold SubInput.labels
  cases sh with
  | none => exact hfull _ rfl
  | some s =>
    dsimp only
    obtain ⟨k1, k2⟩ := hfull _ rfl
    refine ⟨good_shuffle k1 ((hsh s rfl).1 _), fun hor a ha => ?_⟩
    exact ((hsh s rfl).1 _).mem_iff.mpr (k2 hor a ha)

/-- `((i, j), l)` stands for an edge. -/
def LinkOf (X : SubInput α) (L : LabelDict α) (x : (Nat × Nat) × String) : Prop :=
  ∃ a b, L.label[x.1.1]? = some a ∧ L.label[x.1.2]? = some b ∧ X.graph.Adj a b ∧ x.2 = X.edgeName (a, b)

theorem addEdge_spec {X : SubInput α} : ∀ (es : List (α × α)) (s : LabelDict α × List ((Nat × Nat) × String)), (∀ e ∈ es, e ∈ X.edges) →
    Good X s.1 → (∀ x ∈ s.2, LinkOf X s.1 x) →
    Good X (es.foldl X.addEdge s).1 ∧ s.1.Le (es.foldl X.addEdge s).1 ∧
    (∀ x ∈ (es.foldl X.addEdge s).2, LinkOf X (es.foldl X.addEdge s).1 x) ∧
    (∀ x ∈ s.2, x ∈ (es.foldl X.addEdge s).2) ∧
    ∀ a b, (a, b) ∈ es ∨ (b, a) ∈ es → ∃ i j, (es.foldl X.addEdge s).1.label[i]? = some a ∧ (es.foldl X.addEdge s).1.label[j]? = some b ∧
      ((i, j), X.edgeName (a, b)) ∈ (es.foldl X.addEdge s).2 := by
  intro es
  induction es with
  | nil => intro s _ h hl; exact ⟨h, .refl _, hl, fun x hx => hx, by simp⟩
  | cons e es ih =>
    intro s hs h hl
    have he := hs e List.mem_cons_self
    obtain ⟨h1, h2, h3⟩ := h.get (a := e.1) ⟨e, he, .inl rfl⟩
    obtain ⟨h4, h5, h6⟩ := h1.get (a := e.2) ⟨e, he, .inr rfl⟩
    have h3' := le_get? h5 h3
    have hadj : X.graph.Adj e.1 e.2 := .inl (by rw [graph_edges]; exact he)
    have hle := h2.trans h5
    have hl' : ∀ x ∈ (X.addEdge s e).2, LinkOf X (X.addEdge s e).1 x := by
      intro x hx
      rcases List.mem_append.mp hx with hx | hx
      · obtain ⟨a, b, x1, x2, x3, x4⟩ := hl x hx
        exact ⟨a, b, le_get? hle x1, le_get? hle x2, x3, x4⟩
      · rcases List.mem_cons.mp hx with rfl | hx
        · exact ⟨e.1, e.2, h3', h6, hadj, rfl⟩
        · rw [List.mem_singleton] at hx
          subst hx
          exact ⟨e.2, e.1, h6, h3', hadj.symm, rfl⟩
    obtain ⟨k1, k2, k3, k4, k5⟩ := ih (X.addEdge s e) (fun f hf => hs f (List.mem_cons_of_mem _ hf)) h4 hl'
    rw [List.foldl_cons]
    refine ⟨k1, hle.trans k2, k3, fun x hx => k4 x (List.mem_append_left _ hx), ?_⟩
    intro a b hab
    rcases hab with hab | hab
    · rcases List.mem_cons.mp hab with rfl | hab
      · exact ⟨_, _, le_get? k2 h3', le_get? k2 h6, k4 _ (List.mem_append_right _ List.mem_cons_self)⟩
      · exact k5 a b (.inl hab)
    · rcases List.mem_cons.mp hab with rfl | hab
      · exact ⟨_, _, le_get? k2 h6, le_get? k2 h3', k4 _ (List.mem_append_right _ (List.mem_cons_of_mem _ (List.mem_singleton.mpr rfl)))⟩
      · exact k5 a b (.inr hab)

/-- The label of a node; nodes without one have the empty label. -/
def SubInput.nodeName (X : SubInput α) (a : α) : String :=
  match X.nodeLabel with
  | none => ""
  | some f => (f a).elim "" id

/-- The label the solver has for a vertex. -/
def SolverGraph.name (g : SolverGraph) (i : Nat) : String := (g.names.lookup i).elim "" id

/-- What reading a graph gives. -/
structure ReadOK (X : SubInput α) (R : SubRead α) : Prop where
  wf : R.L.WF
  size : R.g.size = R.L.label.length
  label : ∀ a, a ∈ R.L.label ↔ X.Touched a
  isolated : ∀ a, a ∈ R.isolated ↔ a ∈ X.graph.nodes ∧ ¬ X.Touched a
  nodup : R.isolated.Nodup
  sound : ∀ x ∈ R.g.links, LinkOf X R.L x
  complete : ∀ a b, X.graph.Adj a b → ∃ i j, R.L.label[i]? = some a ∧ R.L.label[j]? = some b ∧ ((i, j), X.edgeName (a, b)) ∈ R.g.links
  names : ∀ i a, R.L.label[i]? = some a → R.g.name i = X.nodeName a

theorem lookup_zipIdx (f : α → Option String) (l : List α) (k i : Nat) :
    ((l.zipIdx k).filterMap fun p => (f p.1).map fun s => (p.2, s)).lookup i = (if k ≤ i then l[i - k]? else none).bind f := by
  induction l generalizing k with
  | nil => simp
  | cons a l ih =>
    rw [List.zipIdx_cons, List.filterMap_cons]
    have ih := ih (k + 1)
    by_cases hk : k = i
    · subst hk
      cases hf : f a with
      | none =>
        simp only [Option.map_none, ih]
        simp [hf]
      | some s => simp [hf]
    · have e1 : (if k ≤ i then (a :: l)[i - k]? else none) = (if k + 1 ≤ i then l[i - (k + 1)]? else none) := by
        by_cases hle : k ≤ i
        · rw [if_pos hle, if_pos (by omega), show i - k = (i - (k + 1)) + 1 by omega, List.getElem?_cons_succ]
        · rw [if_neg hle, if_neg (by omega)]
      rw [e1, ← ih]
      cases hf : f a with
      | none => simp
      | some s =>
        simp only [Option.map_some]
        rw [List.lookup_cons]
        have : (i == k) = false := by simpa using fun h => hk h.symm
        rw [this]

theorem read_ok {X : SubInput α} (hX : X.graph.WF) {sh : Option (Shuffle α)} (hsh : Shuffle.OK sh) : ReadOK X (X.read sh) := by
  obtain ⟨g0, g1⟩ := labels_spec hX hsh
  obtain ⟨-, s1, s2⟩ := sortNodes_spec X
  have hp := order_perm (X := X) hsh
  obtain ⟨k1, k2, k3, -, k5⟩ := addEdge_spec (X := X) (X.order sh) (X.labels sh, []) (fun e he => hp.mem_iff.mp he) g0 (by simp)
  have hcomp : ∀ a b, X.graph.Adj a b → ∃ i j, ((X.order sh).foldl X.addEdge (X.labels sh, [])).1.label[i]? = some a ∧
      ((X.order sh).foldl X.addEdge (X.labels sh, [])).1.label[j]? = some b ∧
      ((i, j), X.edgeName (a, b)) ∈ ((X.order sh).foldl X.addEdge (X.labels sh, [])).2 := by
    intro a b hab
    refine k5 a b ?_
    unfold Graph.Adj at hab
    rw [graph_edges] at hab
    rcases hab with hab | hab
    · exact .inl (hp.mem_iff.mpr hab)
    · exact .inr (hp.mem_iff.mpr hab)
  have hlab : ∀ a, a ∈ ((X.order sh).foldl X.addEdge (X.labels sh, [])).1.label ↔ X.Touched a := by
    intro a
    refine ⟨k1.touched a, ?_⟩
    rintro ⟨e, he, h1⟩
    obtain ⟨i, j, e1, e2, -⟩ := hcomp e.1 e.2 (.inl (by rw [graph_edges]; exact he))
    rcases h1 with rfl | rfl
    · exact List.mem_of_getElem? e1
    · exact List.mem_of_getElem? e2
  have hiso : ∀ a, a ∈ X.sortNodes.2 ↔ a ∈ X.graph.nodes ∧ ¬ X.Touched a := by
    intro a
    rw [← degree_pos]
    cases hn : X.nodes with
    | none =>
      rw [s2 hn]
      unfold SubInput.graph
      rw [hn]
      dsimp only
      rw [mem_ofEdges, degree_pos]
      exact iff_of_false (by simp) (fun h => h.2 h.1)
    | some ns =>
      rw [(s1 ns hn).1]
      unfold SubInput.graph
      rw [hn]
      simp
  refine ⟨k1.wf, rfl, hlab, hiso, ?_, k3, hcomp, ?_⟩
  · change X.sortNodes.2.Nodup
    cases hn : X.nodes with
    | none => rw [s2 hn]; exact List.nodup_nil
    | some ns =>
      rw [(s1 ns hn).1]
      have := hX.nodup
      unfold SubInput.graph at this
      rw [hn] at this
      exact this.filter _
  · intro i a hi
    unfold SolverGraph.name SubInput.nodeName
    change ((X.names (X.labels sh)).lookup i).elim "" id = _
    unfold SubInput.names
    cases hl : X.nodeLabel with
    | none => rfl
    | some f =>
      dsimp only
      have hi' : (X.labels sh).label[i]? = some a := by
        have ha : a ∈ (X.labels sh).label := g1 (.inr (.inl (by rw [hl]; rfl))) a ((hlab a).mp (List.mem_of_getElem? hi))
        obtain ⟨k, hk⟩ := List.mem_iff_getElem?.mp ha
        have := le_get? k2 hk
        have hki : k = i := by
          have h1 := (k1.wf.idx a k).mpr this
          have h2 := (k1.wf.idx a i).mpr hi
          rw [h1] at h2
          exact Option.some.inj h2
        rwa [← hki]
      rw [lookup_zipIdx]
      simp [hi']

end Py
end MM
