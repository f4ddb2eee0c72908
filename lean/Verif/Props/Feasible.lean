import Verif.Py.FeasibleInv
import Verif.Py.FeasibleNum

/-! Property C31: `embedding_feasibility_filter`. -/

namespace MM

open Py Spec.Py

variable {α β : Type} [DecidableEq α] [DecidableEq β]

/-- `f` embeds `S` in `T` as a subgraph. -/
structure Spec.Py.SubgraphEmbedding (S : Graph α) (T : Graph β) (f : α → β) : Prop where
  nodes : ∀ v ∈ S.nodes, f v ∈ T.nodes
  inj : ∀ v ∈ S.nodes, ∀ w ∈ S.nodes, f v = f w → v = w
  edges : ∀ v w, S.Adj v w → T.Adj (f v) (f w)

namespace Py

theorem degrees_perm (g : Graph α) : g.degrees.Perm (g.nodes.map g.degree) := List.perm_insertionSort _ _

theorem degrees_sorted (g : Graph α) : g.degrees.Pairwise (· ≤ ·) := List.pairwise_insertionSort _ _

theorem degrees_length (g : Graph α) : g.degrees.length = g.nodes.length := by
  rw [(degrees_perm g).length_eq, List.length_map]

theorem degrees_count (g : Graph α) (j : Nat) :
    g.degrees.countP (fun x => decide (j ≤ x)) = (g.nodes.filter fun v => decide (j ≤ g.degree v)).length := by
  rw [(degrees_perm g).countP_eq, List.countP_map, List.countP_eq_length_filter]
  rfl

theorem degrees_sum (g : Graph α) (w : Nat → Nat) : (g.degrees.map w).sum = (g.nodes.map fun v => w (g.degree v)).sum := by
  have hsum : ∀ {k l : List Nat}, k.Perm l → (k.map w).sum = (l.map w).sum := by
    intro k l hkl
    induction hkl with
    | nil => rfl
    | cons a _ ih => simp only [List.map_cons, List.sum_cons, ih]
    | swap a b l => simp only [List.map_cons, List.sum_cons]; omega
    | trans _ _ h1 h2 => exact h1.trans h2
  rw [hsum (degrees_perm g), List.map_map]
  rfl

/-- The filter says yes if nodes, edges and degrees are enough. -/
theorem feasible_of_counts {S : Graph α} {T : Graph β} (same one : Bool) (hn : S.nodes.length ≤ T.nodes.length)
    (he : S.edges.length ≤ T.edges.length)
    (hd : ∀ j, (S.nodes.filter fun v => decide (j ≤ S.degree v)).length ≤ (T.nodes.filter fun v => decide (j ≤ T.degree v)).length) :
    feasible same S T one = .ok true := by
  unfold feasible
  split
  · rfl
  rw [if_neg (by omega)]
  split
  · rfl
  rw [if_neg (by omega)]
  dsimp only
  rw [sorted_le (degrees_sorted S) (degrees_sorted T) (by rw [degrees_length, degrees_length]; exact hn)
    (by intro j; rw [degrees_count, degrees_count]; exact hd j)]
  rfl

theorem last_max {l : List Nat} (h : l.Pairwise (· ≤ ·)) {top : Nat} (ht : l.getLast? = some top) : ∀ x ∈ l, x ≤ top := by
  rw [List.getLast?_eq_some_iff] at ht
  obtain ⟨l', rfl⟩ := ht
  rw [List.pairwise_append] at h
  intro x hx
  rcases List.mem_append.mp hx with hx | hx
  · exact h.2.2 x hx top (by simp)
  · simp only [List.mem_singleton] at hx; omega

end Py

/-- If the source has a minor embedding in the target, the filter returns `True`. Missing: sources with self-loops, where it is
false (`C31_self_loops`). -/
theorem C31_minor_embedding_accepted_partial {S : Graph α} {T : Graph β} (hS : S.WF) (hs : Simple S) (hl : Loopless S)
    {emb : α → Option (List β)} (h : MinorEmbedding S T emb) (same : Bool) : feasible same S T false = .ok true := by
  have P := Packed.of hS h
  generalize (fun v => ((emb v).getD []).dedup) = X at P
  have hn : S.nodes.length ≤ T.nodes.length := by
    have := P.count_le hS (fun _ => True) (fun _ => True) (by
      intro v hv _
      obtain ⟨a, ha⟩ := List.exists_mem_of_ne_nil _ (P.ne v hv)
      exact ⟨a, ha, trivial⟩)
    simpa using this
  have he := P.edges_le hS hs hl
  by_cases hd : ∀ j, S.degrees.countP (fun x => decide (j ≤ x)) ≤ T.degrees.countP (fun x => decide (j ≤ x))
  · exact feasible_of_counts same false hn he (fun j => by rw [← degrees_count, ← degrees_count]; exact hd j)
  have hw : Worth S.degrees T.degrees := by
    intro j p hj hp
    rw [degrees_sum, degrees_sum]
    refine P.weight_le hS _ _ ?_
    intro v hv
    have := wt_chain (j := j) (p := p) (d := S.degree v) hj hp (l := (X v).map T.degree) (by simpa using P.ne v hv)
      (by rw [List.length_map]; exact P.degree_le hS hs hl hv)
    rw [List.map_map] at this
    exact this
  unfold feasible
  split
  · rfl
  rw [if_neg (by omega)]
  split
  · rfl
  rw [if_neg (by omega)]
  dsimp only
  split
  · cases ht : T.degrees.getLast? with
    | none =>
      exfalso
      rw [List.getLast?_eq_none_iff] at ht
      have := degrees_length T
      rw [ht] at this
      simp only [List.length_nil] at this
      omega
    | some top =>
      dsimp only
      by_cases h2 : top ≤ 2
      · exfalso
        apply hd
        intro j
        rw [degrees_count, degrees_count]
        refine P.count_le hS (fun v => j ≤ S.degree v) (fun q => j ≤ T.degree q) ?_
        intro v hv hjv
        have h3 := P.degree_le hS hs hl hv
        have hall : ∀ q ∈ X v, T.degree q ≤ 2 := by
          intro q hq
          have : T.degree q ∈ T.degrees := (degrees_perm T).mem_iff.mpr (List.mem_map.mpr ⟨q, P.nodes v hv q hq, rfl⟩)
          exact (last_max (degrees_sorted T) ht _ this).trans h2
        cases hX : X v with
        | nil => exact absurd hX (P.ne v hv)
        | cons a l =>
          refine ⟨a, by simp, ?_⟩
          rw [hX] at h3 hall
          simp only [List.length_cons, List.map_cons, List.sum_cons] at h3
          have hsum : ∀ m : List β, (∀ q ∈ m, T.degree q ≤ 2) → (m.map T.degree).sum ≤ 2 * m.length := by
            intro m
            induction m with
            | nil => simp
            | cons b m ih =>
              intro hm
              have e1 := hm b (by simp)
              have e2 := ih (fun q hq => hm q (by simp [hq]))
              simp only [List.map_cons, List.sum_cons, List.length_cons]
              omega
          have := hsum l (fun q hq => hall q (by simp [hq]))
          omega
      · rw [if_neg (by simpa using h2)]
        exact minorTest_true hw hd
  · rfl

namespace Py

/-- A subgraph embedding gives each edge one of its own, and degrees do not fall. -/
theorem subgraph_degree {S : Graph α} {T : Graph β} (hS : S.WF) (hs : Simple S) {f : α → β} (h : SubgraphEmbedding S T f) :
    S.edges.length ≤ T.edges.length ∧ ∀ v ∈ S.nodes, S.degree v ≤ T.degree (f v) := by
  let R : α × α → β × β → Prop := fun e g => g = (f e.1, f e.2) ∨ g = (f e.2, f e.1)
  have hex : ∀ e ∈ S.edges, ∃ g ∈ T.edges, R e g := by
    intro e he
    rcases h.edges e.1 e.2 (.inl he) with hh | hh
    · exact ⟨_, hh, .inl rfl⟩
    · exact ⟨_, hh, .inr rfl⟩
  have hinj : ∀ e ∈ S.edges, ∀ e' ∈ S.edges, ∀ g, R e g → R e' g → e = e' := by
    intro e he e' he' g hg hg'
    obtain ⟨a1, a2⟩ := hS.ends e he
    obtain ⟨b1, b2⟩ := hS.ends e' he'
    have key : e = e' ∨ e = (e'.2, e'.1) := by
      rcases hg with rfl | rfl <;> rcases hg' with hg' | hg' <;> rw [Prod.mk.injEq] at hg' <;> obtain ⟨g1, g2⟩ := hg'
      · exact .inl (Prod.ext (h.inj _ a1 _ b1 g1) (h.inj _ a2 _ b2 g2))
      · exact .inr (Prod.ext (h.inj _ a1 _ b2 g1) (h.inj _ a2 _ b1 g2))
      · exact .inr (Prod.ext (h.inj _ a1 _ b2 g2) (h.inj _ a2 _ b1 g1))
      · exact .inl (Prod.ext (h.inj _ a1 _ b1 g2) (h.inj _ a2 _ b2 g1))
    rcases key with key | key
    · exact key
    · by_contra hne
      have hs' := List.pairwise_iff_getElem.mp hs
      obtain ⟨i, hi, hi'⟩ := List.getElem_of_mem he
      obtain ⟨j, hj, hj'⟩ := List.getElem_of_mem he'
      rcases Nat.lt_trichotomy i j with hij | hij | hij
      · have := (hs' i j hi hj hij).2
        rw [hi', hj'] at this
        exact this key
      · subst hij
        exact hne (hi'.symm.trans hj')
      · have := (hs' j i hj hi hij).2
        rw [hi', hj'] at this
        exact this (by rw [key])
  have hdeg : ∀ {γ : Type} [DecidableEq γ] (G : Graph γ) (v : γ), G.degree v =
      (G.edges.filter fun e => e.1 = v ∨ e.2 = v).length + (G.edges.filter fun e => e.1 = v ∧ e.2 = v).length := by
    intro γ _ G v
    unfold Graph.degree
    induction G.edges with
    | nil => rfl
    | cons e es ih =>
      rw [List.map_cons, List.sum_cons, ih]
      by_cases h1 : e.1 = v <;> by_cases h2 : e.2 = v <;> simp [h1, h2] <;> omega
  have hle : ∀ v ∈ S.nodes, S.degree v ≤ T.degree (f v) := by
    intro v hv
    rw [hdeg, hdeg]
    have e1 : (S.edges.filter fun e => e.1 = v ∨ e.2 = v).length ≤ (T.edges.filter fun e => e.1 = f v ∨ e.2 = f v).length := by
      refine length_le_of_rel R ((Simple.nodup hs).filter _) ?_ ?_
      · intro e he
        simp only [List.mem_filter, decide_eq_true_eq] at he
        obtain ⟨g, hg, hR⟩ := hex e he.1
        refine ⟨g, ?_, hR⟩
        simp only [List.mem_filter, decide_eq_true_eq]
        refine ⟨hg, ?_⟩
        rcases hR with rfl | rfl <;> rcases he.2 with rfl | rfl <;> simp
      · intro e he e' he'
        exact hinj e (List.mem_filter.mp he).1 e' (List.mem_filter.mp he').1
    have e2 : (S.edges.filter fun e => e.1 = v ∧ e.2 = v).length ≤ (T.edges.filter fun e => e.1 = f v ∧ e.2 = f v).length := by
      refine length_le_of_rel R ((Simple.nodup hs).filter _) ?_ ?_
      · intro e he
        simp only [List.mem_filter, decide_eq_true_eq] at he
        obtain ⟨g, hg, hR⟩ := hex e he.1
        refine ⟨g, ?_, hR⟩
        simp only [List.mem_filter, decide_eq_true_eq]
        refine ⟨hg, ?_⟩
        rcases hR with rfl | rfl <;> simp [he.2.1, he.2.2]
      · intro e he e' he'
        exact hinj e (List.mem_filter.mp he).1 e' (List.mem_filter.mp he').1
    omega
  exact ⟨length_le_of_rel R (Simple.nodup hs) hex hinj, hle⟩

end Py

/-- If the source is isomorphic to a subgraph of the target, the filter returns `True`, for `one_to_one` and in
general. Self-loops are allowed. -/
theorem C31_subgraph_accepted {S : Graph α} {T : Graph β} (hS : S.WF) (hs : Simple S) {f : α → β} (h : SubgraphEmbedding S T f)
    (same one : Bool) : feasible same S T one = .ok true := by
  obtain ⟨he, hle⟩ := subgraph_degree hS hs h
  refine feasible_of_counts same one ?_ he ?_
  · refine length_le_of_rel (fun v q => q = f v) hS.nodup (fun v hv => ⟨f v, h.nodes v hv, rfl⟩) ?_
    rintro v hv w hw q rfl h2
    exact h.inj v hv w hw h2
  · intro j
    refine length_le_of_rel (fun v q => q = f v) (hS.nodup.filter _) ?_ ?_
    · intro v hv
      simp only [List.mem_filter, decide_eq_true_eq] at hv
      refine ⟨f v, ?_, rfl⟩
      simp only [List.mem_filter, decide_eq_true_eq]
      exact ⟨h.nodes v hv.1, hv.2.trans (hle v hv.1)⟩
    · rintro v hv w hw q rfl h2
      exact h.inj v (List.mem_filter.mp hv).1 w (List.mem_filter.mp hw).1 h2

/-- The filter never raises. -/
theorem C31_never_raises (same one : Bool) (S : Graph α) (T : Graph β) : ∃ b, feasible same S T one = .ok b := by
  unfold feasible
  split
  · exact ⟨_, rfl⟩
  split
  · exact ⟨_, rfl⟩
  split
  · exact ⟨_, rfl⟩
  split
  · exact ⟨_, rfl⟩
  rename_i hn _ ht
  dsimp only
  split
  · rename_i hany
    cases hl : T.degrees.getLast? with
    | none =>
      exfalso
      rw [List.getLast?_eq_none_iff] at hl
      have := degrees_length T
      rw [hl] at this
      exact ht this.symm
    | some top =>
      dsimp only
      split
      · exact ⟨_, rfl⟩
      · refine minorTest_ok ?_
        intro hc
        rw [sorted_le (degrees_sorted S) (degrees_sorted T) (by rw [degrees_length, degrees_length]; omega) hc] at hany
        cases hany
  · exact ⟨_, rfl⟩

/-- Without the condition on self-loops the claim for minor embeddings is false: a node with a self-loop has a minor
embedding in a single node, and the filter says it has none. -/
theorem C31_self_loops : ∃ (S T : Graph Nat) (emb : Nat → Option (List Nat)), S.WF ∧ T.WF ∧ Simple S ∧ MinorEmbedding S T emb ∧
    feasible false S T false = .ok false := by
  refine ⟨⟨[0], [(0, 0)]⟩, ⟨[5], []⟩, fun _ => some [5], ⟨by decide, by decide⟩, ⟨by decide, by decide⟩, by simp [Simple], ?_, rfl⟩
  refine ⟨fun x _ => ⟨[5], rfl, by simp⟩, ?_, ?_, ?_, ?_⟩
  · intro x _ c hc q hq
    cases hc
    simpa using hq
  · intro x _ c hc a ha b hb
    cases hc
    simp only [List.mem_singleton] at ha hb
    subst ha hb
    exact .refl
  · intro x hx y hy hne
    simp only [List.mem_singleton] at hx hy
    omega
  · intro x y hxy hne
    exfalso
    rcases hxy with hxy | hxy <;> simp at hxy <;> omega

namespace Demo

/-- A star with five leaves. -/
def star5 : Graph Nat := ⟨[0, 1, 2, 3, 4, 5], [(0, 1), (0, 2), (0, 3), (0, 4), (0, 5)]⟩

/-- A tree with degrees at most three. -/
def tree8 : Graph Nat := ⟨[0, 1, 2, 3, 4, 5, 6, 7], [(5, 6), (6, 7), (5, 0), (5, 1), (6, 2), (7, 3), (7, 4)]⟩

def starEmb : Nat → Option (List Nat)
  | 0 => some [5, 6, 7]
  | n + 1 => some [n]

end Demo

/-- The star has a degree no target node has; its centre becomes a chain. -/
example : Demo.star5.WF ∧ Simple Demo.star5 ∧ Loopless Demo.star5 ∧
    isValid id id Demo.starEmb Demo.star5 Demo.tree8 = true ∧ Demo.tree8.degrees = [1, 1, 1, 1, 1, 3, 3, 3] ∧
    Demo.star5.degrees = [1, 1, 1, 1, 1, 5] :=
  ⟨⟨by decide, by decide⟩, by unfold Simple; decide, by unfold Loopless; decide, by decide +kernel, by decide +kernel, by decide +kernel⟩

/-- A subgraph embedding of an edge. -/
example : SubgraphEmbedding (⟨[0, 1], [(0, 1)]⟩ : Graph Nat) Demo.tree8 (fun v => v + 5) :=
  ⟨by decide, by decide, by rintro v w (h | h) <;> simp at h <;> obtain ⟨rfl, rfl⟩ := h <;> decide⟩

/-- The filter does say no: a triangle does not fit on a path by degrees, and a star with six leaves not in the tree. -/
example : feasible false (⟨[0, 1, 2], [(0, 1), (1, 2), (0, 2)]⟩ : Graph Nat) (⟨[0, 1, 2, 3], [(0, 1), (1, 2), (2, 3)]⟩ : Graph Nat) false = .ok false ∧
    feasible false (⟨[0, 1, 2, 3, 4, 5, 6], [(0, 1), (0, 2), (0, 3), (0, 4), (0, 5), (0, 6)]⟩ : Graph Nat) Demo.tree8 false = .ok false := by
  constructor <;> rfl

end MM
