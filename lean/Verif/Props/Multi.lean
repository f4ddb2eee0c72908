import Verif.Py.MultiInv

/-! Properties C28, C29 and C30: several embeddings at once. -/

namespace MM

open Py Spec.Py

variable {α β τ : Type} [DecidableEq α] [DecidableEq β] [DecidableEq τ]

/-! ### C28: `find_multiple_embeddings` -/

/-- What surrounds a call of `find_multiple_embeddings`: the embedder keeps its promises, and if the graphs are
shuffled, they are the same graphs. -/
structure Spec.Py.MultiOK (E : Env α β) (T : Graph β) (iter : Bool) (shuf : Option (Graph α × Graph β)) : Prop where
  honest : Honest iter E
  shuf : ∀ p, shuf = some p → SameGraph p.2 T

/-- The call returns, whatever the embedder finds, for a source graph with nodes. The embeddings are pairwise disjoint,
inside the target, at most `max_num_emb` and at most as many as fit by the number of nodes. The `i`th is what the
embedder answered, not empty, on the target without the nodes of those before. -/
theorem C28_disjoint_and_limited {E : Env α β} {S : Graph α} {T : Graph β} {iter : Bool} {shuf : Option (Graph α × Graph β)}
    (h : MultiOK E T iter shuf) (hS : S.nodes ≠ []) (start : Bool) (limit : Option Int) (useFilter : Bool) :
    ∃ embs, (findMultiple E S T start limit useFilter iter shuf).1 = .ok embs ∧
      Disjoint embs ∧ (∀ e ∈ embs, ∀ q ∈ e.used, q ∈ T.nodes) ∧
      (∀ n : Int, limit = some n → (embs.length : Int) ≤ max n 0) ∧
      embs.length * S.nodes.length ≤ T.nodes.length ∧
      ∀ (i : Nat) (e : Emb α β), embs[i]? = some e → e ≠ [] ∧
        ∃ G, SameGraph G (T.remove ((embs.take i).flatMap Emb.used)) ∧ e = E.embedder i (shuf.elim S Prod.fst) G := by
  unfold findMultiple
  by_cases hst : start = false
  · rw [if_pos hst]
    exact ⟨[], rfl, .nil, by simp, fun n _ => by simp only [List.length_nil]; omega, by simp, by simp⟩
  have hpos : 0 < S.nodes.length := by
    cases hs : S.nodes with
    | nil => exact absurd hs hS
    | cons a l => simp
  rw [if_neg hst, if_neg (by omega)]
  dsimp only
  generalize hm : limit.elim ((T.nodes.length / S.nodes.length : Nat) : Int) (min ((T.nodes.length / S.nodes.length : Nat) : Int)) = m
  obtain ⟨embs, h1, h2, h3⟩ := multiLoop_spec (E := E) (S := shuf.elim S Prod.fst) (uf := useFilter) (iter := iter) (m := m)
    (fun _ k S G kv hkv => (h.honest k S G kv hkv).1) m.toNat 0 T (shuf.map Prod.snd) []
    { len := rfl
      few := fun hh => by omega
      lim := by omega
      same := fun _ => by
        cases hs : shuf with
        | none => exact SameGraph.remove_nil T
        | some p => exact SameGraph.trans (h.shuf p hs) (SameGraph.remove_nil T)
      cur := fun hh => absurd rfl hh
      out := by simp }
  obtain ⟨h4, h5⟩ := disjoint_of_out h.honest (fun i e he => (h3 i e he).2)
  refine ⟨embs, h1, h4, h5, ?_, ?_, h3⟩
  · intro n hn
    rw [hn] at hm
    simp only [Option.elim_some] at hm
    omega
  · have hle : m ≤ ((T.nodes.length / S.nodes.length : Nat) : Int) := by
      cases hl : limit with
      | none => rw [hl] at hm; simp only [Option.elim_none] at hm; omega
      | some n => rw [hl] at hm; simp only [Option.elim_some] at hm; omega
    have h0 : (0 : Int) ≤ ((T.nodes.length / S.nodes.length : Nat) : Int) := Int.natCast_nonneg _
    have h6 : embs.length ≤ T.nodes.length / S.nodes.length := by omega
    exact (Nat.le_div_iff_mul_le hpos).mp h6

/-- The caller's target graph is unchanged after the call, whatever happens in it. -/
theorem C28_target_untouched (E : Env α β) (S : Graph α) (T : Graph β) (start : Bool) (limit : Option Int) (useFilter iter : Bool)
    (shuf : Option (Graph α × Graph β)) : (findMultiple E S T start limit useFilter iter shuf).2 = T := by
  unfold findMultiple
  split
  · rfl
  split
  · rfl
  · exact multiLoop_target _ _ _ _ _ (fun h => absurd rfl h)

/-- A source graph without nodes is an error (division by zero). -/
theorem C28_empty_source (E : Env α β) (S : Graph α) (T : Graph β) (limit : Option Int) (useFilter iter : Bool)
    (shuf : Option (Graph α × Graph β)) (hS : S.nodes = []) :
    (findMultiple E S T true limit useFilter iter shuf).1 = .error .zeroDiv := by
  unfold findMultiple
  rw [hS]
  rfl

namespace Demo

/-- An edge. -/
def edge2 : Graph Nat := ⟨[0, 1], [(0, 1)]⟩

/-- A path with nodes 10 … 15. -/
def path6 : Graph Nat := ⟨[10, 11, 12, 13, 14, 15], [(10, 11), (11, 12), (12, 13), (13, 14), (14, 15)]⟩

/-- An embedder for the edge: the first edge of the target. -/
def firstEdge : Graph Nat → Emb Nat Nat := fun G =>
  match G.edges with
  | [] => []
  | (a, b) :: _ => if a ∈ G.nodes ∧ b ∈ G.nodes then [(0, .one a), (1, .one b)] else []

def edgeEnv : Env Nat Nat where
  filter := fun _ _ _ => true
  late := fun _ => false
  embedder := fun _ _ G => firstEdge G

theorem edgeEnv_ok (T : Graph Nat) : MultiOK edgeEnv T false none where
  honest := by
    intro k S G kv hkv
    change kv ∈ firstEdge G at hkv
    unfold firstEdge at hkv
    split at hkv
    · simp at hkv
    · split at hkv
      · rename_i h
        simp only [List.mem_cons, List.not_mem_nil, or_false] at hkv
        rcases hkv with rfl | rfl
        · exact ⟨rfl, by simpa [Val.nodes] using h.1⟩
        · exact ⟨rfl, by simpa [Val.nodes] using h.2⟩
      · simp at hkv
  shuf := by simp

end Demo

/-- Three disjoint edges fit on the path. -/
example : MultiOK Demo.edgeEnv Demo.path6 false none ∧ Demo.edge2.nodes ≠ [] ∧
    (findMultiple Demo.edgeEnv Demo.edge2 Demo.path6 true none true false none).1.toOption =
      some [[(0, .one 10), (1, .one 11)], [(0, .one 12), (1, .one 13)], [(0, .one 14), (1, .one 15)]] :=
  ⟨Demo.edgeEnv_ok _, by decide, by decide +kernel⟩

/-! ### C29: `find_sublattice_embeddings` -/

/-- The limit asked for. -/
def Spec.Py.Within (limit : Option Int) (n : Nat) : Prop := ∀ l : Int, limit = some l → (n : Int) ≤ max l 0

/-- The full property: for graphs and embedders as documented the embeddings are disjoint and within the limit. -/
def Spec.Py.SublatticeClaim (A : SubArgs α β τ) : Prop :=
  A.S.WF → A.T.WF → (∀ j, Honest A.iter (A.env j)) → Honest A.iter A.envTile →
    (findSublattice A).1.toOption ≠ none ∧ ∀ embs, (findSublattice A).1 = .ok embs → Disjoint embs ∧ Within A.limit embs.length

namespace Demo

/-- An embedder for the edge giving chains: the first edge of the target, each node a tuple, or a list. -/
def firstChains (mk : List Nat → Val Nat) : Graph Nat → Emb Nat Nat := fun G =>
  match G.edges with
  | [] => []
  | (a, b) :: _ => if a ∈ G.nodes ∧ b ∈ G.nodes then [(0, mk [a]), (1, mk [b])] else []

theorem firstChains_honest {mk : List Nat → Val Nat} (h : ∀ l, (mk l).isChain = true ∧ (mk l).nodes = l) :
    Honest true { filter := fun _ _ _ => true
                  late := fun _ => false
                  embedder := fun _ (_ : Graph Nat) G => firstChains mk G } := by
  intro k S G kv hkv
  change kv ∈ firstChains mk G at hkv
  unfold firstChains at hkv
  split at hkv
  · simp at hkv
  · split at hkv
    · rename_i hh
      simp only [List.mem_cons, List.not_mem_nil, or_false] at hkv
      rcases hkv with rfl | rfl
      · refine ⟨(h _).1, ?_⟩
        dsimp only
        rw [(h _).2]
        simpa using hh.1
      · refine ⟨(h _).1, ?_⟩
        dsimp only
        rw [(h _).2]
        simpa using hh.2
    · simp at hkv

/-- A search for the edge on the whole path as only sublattice. -/
def chainArgs (mk : List Nat → Val Nat) : SubArgs Nat Nat Nat where
  S := edge2
  T := path6
  start := true
  tile := some path6
  limit := none
  useFilter := false
  iter := true
  inPlace := false
  infeasible := false
  same := none
  tileEmb := none
  useTile := none
  maps := fun _ _ => [id]
  lateAt := fun _ => false
  freshTile := true
  fresh := fun _ => true
  envTile :=
    { filter := fun _ _ _ => true
      late := fun _ => false
      embedder := fun _ _ G => firstChains mk G }
  env := fun _ =>
    { filter := fun _ _ _ => true
      late := fun _ => false
      embedder := fun _ _ G => firstChains mk G }
  ordQ := id
  ordX := id
  ordT := id

/-- The same with nodes as values, and a limit and use of the tile's embedding to be set. -/
def nodeArgs (limit : Option Int) (useTile : Option Bool) (inPlace : Bool) : SubArgs Nat Nat Nat where
  S := edge2
  T := path6
  start := true
  tile := some edge2
  limit := limit
  useFilter := false
  iter := false
  inPlace := inPlace
  infeasible := false
  same := none
  tileEmb := none
  useTile := useTile
  maps := fun _ _ => [(· + 10), (· + 11), (· + 12), (· + 13)]
  lateAt := fun _ => false
  freshTile := true
  fresh := fun _ => true
  envTile := edgeEnv
  env := fun _ => edgeEnv
  ordQ := id
  ordX := id
  ordT := id

theorem edge2_wf : edge2.WF := ⟨by decide, by decide⟩
theorem path6_wf : path6.WF := ⟨by decide, by decide⟩

end Demo

/-- The property fails: an embedder returning tuples as chains, announced by `one_to_iterable=True`, is given the same
target again, and the embeddings returned use the same nodes. -/
theorem C29_chains_overlap : ¬ SublatticeClaim (Demo.chainArgs Val.tup) := by
  intro h
  have hh := Demo.firstChains_honest (mk := Val.tup) (fun l => ⟨rfl, rfl⟩)
  obtain ⟨-, h⟩ := h Demo.edge2_wf Demo.path6_wf (fun _ => hh) hh
  have he : (findSublattice (Demo.chainArgs Val.tup)).1.toOption =
      some [[(0, .tup [10]), (1, .tup [11])], [(0, .tup [10]), (1, .tup [11])], [(0, .tup [10]), (1, .tup [11])]] := by
    decide +kernel
  cases hf : (findSublattice (Demo.chainArgs Val.tup)).1 with
  | error x => rw [hf] at he; simp [Except.toOption] at he
  | ok embs =>
    rw [hf] at he
    simp only [Except.toOption, Option.some.injEq] at he
    have h1 := (h embs hf).1
    rw [he] at h1
    unfold Disjoint at h1
    rw [List.pairwise_cons] at h1
    exact h1.1 [(0, .tup [10]), (1, .tup [11])] (by simp) 10 (by decide) (by decide)

/-- The property fails: with lists as chains the call raises TypeError. -/
theorem C29_list_chains_raise : (match (findSublattice (Demo.chainArgs Val.lst)).1 with
    | .ok _ => false
    | .error x => decide (x = .type)) = true := by decide +kernel

/-- The property fails: with `max_num_emb=0` and the tile's embedding in use one embedding is returned. -/
theorem C29_limit_zero : ¬ SublatticeClaim (Demo.nodeArgs (some 0) (some true) false) := by
  intro h
  obtain ⟨-, h⟩ := h Demo.edge2_wf Demo.path6_wf (fun _ => (Demo.edgeEnv_ok Demo.path6).honest) (Demo.edgeEnv_ok Demo.path6).honest
  have he : (findSublattice (Demo.nodeArgs (some 0) (some true) false)).1.toOption = some [[(0, .one 10), (1, .one 11)]] := by
    decide +kernel
  cases hf : (findSublattice (Demo.nodeArgs (some 0) (some true) false)).1 with
  | error x => rw [hf] at he; simp [Except.toOption] at he
  | ok embs =>
    rw [hf] at he
    simp only [Except.toOption, Option.some.injEq] at he
    have h1 := (h embs hf).2 0 rfl
    rw [he] at h1
    simp at h1

/-- When `_T` is the caller's own graph, one embedding was asked for (parallel_embeddings.py 440); the embedding for the
tile, given or equal to the tile, has values of the kind announced, for distinct source nodes; set orders are orders. -/
structure Spec.Py.SubOK (A : SubArgs α β τ) : Prop where
  srcWF : A.S.WF
  tgtWF : A.T.WF
  inPlace : A.inPlace = true → A.limit = some 1
  ordQ : ∀ l, (A.ordQ l).Perm l
  ordX : ∀ l, (A.ordX l).Perm l
  given : ∀ te, A.tileEmb = some te ∨ A.same = some te →
    (∀ kv ∈ te, kv.2.isChain = A.iter ∧ kv.1 ∈ A.S.nodes) ∧ (te.map Prod.fst).Nodup
  /-- so has what the embedder finds on the tile -/
  found : ∀ k G, (∀ kv ∈ A.envTile.embedder k A.S G, kv.2.isChain = A.iter ∧ kv.1 ∈ A.S.nodes) ∧
    ((A.envTile.embedder k A.S G).map Prod.fst).Nodup

/-- Every sublattice is covered by the tile's embedding. -/
def Spec.Py.UsesTile (A : SubArgs α β τ) : Prop :=
  (A.useTile = none ∧ (A.same ≠ none ∨ A.tileEmb ≠ none)) ∨ A.useTile = some true

/-- What a search for one embedding finds is an answer of the embedder. -/
theorem Py.findMultiple_one (E : Env α β) {S : Graph α} (hS : S.nodes ≠ []) (T : Graph β) (start uf iter : Bool) :
    ∃ embs, (findMultiple E S T start (some 1) uf iter none).1 = .ok embs ∧ ∀ e ∈ embs, ∃ k G, e = E.embedder k S G := by
  unfold findMultiple
  have hpos : 0 < S.nodes.length := List.length_pos_iff.mpr hS
  split
  · exact ⟨[], rfl, by simp⟩
  rw [if_neg (by omega)]
  dsimp only [Option.elim_some]
  generalize hm : min ((T.nodes.length / S.nodes.length : Nat) : Int) 1 = m
  obtain ⟨embs, h1, -, h3⟩ := multiLoop_spec (E := E) (S := S) (uf := uf) (iter := iter) (m := m)
    (fun hh => by omega) m.toNat 0 T none []
    { len := rfl
      few := fun hh => by omega
      lim := by omega
      same := fun _ => SameGraph.remove_nil T
      cur := fun hh => absurd rfl hh
      out := by simp }
  refine ⟨embs, h1, ?_⟩
  intro e he
  obtain ⟨i, hi⟩ := List.getElem?_of_mem he
  obtain ⟨-, G, -, h4⟩ := h3 i e hi
  exact ⟨i, G, h4⟩

/-- What is proved of the property: for embedders giving nodes, and for embedders giving chains if the tile's embedding
is used for every sublattice, the embeddings are disjoint, inside the target and within the limit, except that there may
be one where the tile's embedding is used and the limit is below one. The caller's graph is not changed. The only
exception is ValueError, for a tile embedding that is not one. Missing: chains without use of the tile's embedding,
where the property fails (`C29_chains_overlap`, `C29_list_chains_raise`), and a limit below one (`C29_limit_zero`). -/
theorem C29_disjoint_partial {A : SubArgs α β τ} (h : SubOK A) (hne : A.S.nodes ≠ [])
    (hA : (A.iter = false ∧ ∀ j, Honest false (A.env j)) ∨ (A.tile ≠ none ∧ UsesTile A)) :
    (findSublattice A).2 = A.T ∧
    ((findSublattice A).1 = .error .value ∨ ∃ embs, (findSublattice A).1 = .ok embs ∧
      Disjoint embs ∧ (∀ e ∈ embs, ∀ q ∈ e.used, q ∈ A.T.nodes) ∧
      ((A.tile ≠ none ∧ UsesTile A → ∀ l : Int, A.limit = some l → 1 ≤ l) → Within A.limit embs.length)) := by
  have nothing : ∀ (P : Prop), Disjoint ([] : List (Emb α β)) ∧ (∀ e ∈ ([] : List (Emb α β)), ∀ q ∈ e.used, q ∈ A.T.nodes) ∧
      (P → Within A.limit ([] : List (Emb α β)).length) := by
    intro P
    refine ⟨.nil, by simp, fun _ l _ => by simp only [List.length_nil]; omega⟩
  have hpos : 0 < A.S.nodes.length := List.length_pos_iff.mpr hne
  unfold findSublattice
  by_cases hst : A.start = false
  · rw [if_pos hst]
    exact ⟨rfl, .inr ⟨[], rfl, nothing _⟩⟩
  rw [if_neg hst]
  cases ht : A.tile with
  | none =>
    dsimp only
    refine ⟨C28_target_untouched _ _ _ _ _ _ _ _, .inr ?_⟩
    rcases hA with ⟨-, hh⟩ | ⟨hh, -⟩
    · obtain ⟨embs, h1, h2, h3, h4, -, -⟩ := C28_disjoint_and_limited (E := A.env 0) (S := A.S) (T := A.T) (iter := false) (shuf := none)
        ⟨hh 0, by simp⟩ hne true A.limit true
      exact ⟨embs, h1, h2, h3, fun _ => h4⟩
    · exact absurd ht hh
  | some tile =>
    dsimp only
    by_cases hinf : A.infeasible = true
    · rw [if_pos hinf]
      exact ⟨rfl, .inr ⟨[], rfl, nothing _⟩⟩
    rw [if_neg hinf]
    split
    · exact ⟨rfl, .inl rfl⟩
    have hgiven : ∀ te, A.given = some te → A.tiles = true ∧ (∀ kv ∈ te, kv.2.isChain = A.iter ∧ kv.1 ∈ A.S.nodes) ∧ (te.map Prod.fst).Nodup := by
      intro te hte
      unfold SubArgs.given at hte
      split at hte
      · rename_i hh
        refine ⟨hh, ?_⟩
        cases hte' : A.tileEmb with
        | none => rw [hte'] at hte; exact h.given te (.inr hte)
        | some te' =>
          rw [hte'] at hte
          injection hte with hte
          subst hte
          exact h.given te' (.inl hte')
      · cases hte
    generalize hut : A.tiles = ut at hgiven
    have huses : ut = true → UsesTile A := by
      intro hh
      unfold UsesTile
      cases hu : A.useTile with
      | none =>
        unfold SubArgs.tiles at hut
        rw [hu] at hut
        rw [← hut] at hh
        simp only [Option.elim_none, Bool.or_eq_true, Option.isSome_iff_ne_none] at hh
        exact .inl ⟨rfl, hh⟩
      | some b =>
        unfold SubArgs.tiles at hut
        rw [hu] at hut
        simp only [Option.elim_some, id] at hut
        rw [hut, hh]
        exact .inr rfl
    have hnuses : ut = false → ¬ UsesTile A := by
      rintro hh (⟨h1, h2⟩ | h1)
      · unfold SubArgs.tiles at hut
        rw [h1] at hut
        rw [← hut] at hh
        simp only [Option.elim_none, Bool.or_eq_false_iff, Option.isSome_eq_false_iff, Option.isNone_iff_eq_none] at hh
        rcases h2 with h2 | h2
        · exact h2 hh.1
        · exact h2 hh.2
      · unfold SubArgs.tiles at hut
        rw [h1] at hut
        simp only [Option.elim_some, id] at hut
        rw [← hut] at hh
        cases hh
    -- the loop
    have run : ∀ (tile : Graph τ) (te : Option (Emb α τ)) (uf : Bool), (te = none → ut = false) →
        (∀ te', te = some te' → ut = true ∧ (∀ kv ∈ te', kv.2.isChain = A.iter ∧ kv.1 ∈ A.S.nodes) ∧ (te'.map Prod.fst).Nodup) →
        let r := subLoop A tile te uf (A.limit.elim ((A.T.nodes.length / A.S.nodes.length : Nat) : Int)
          (min ((A.T.nodes.length / A.S.nodes.length : Nat) : Int))) (A.maps tile A.T) 0 A.T (if A.inPlace then none else some A.T) []
        r.2 = A.T ∧ (r.1 = .error .value ∨ ∃ embs, r.1 = .ok embs ∧
          Disjoint embs ∧ (∀ e ∈ embs, ∀ q ∈ e.used, q ∈ A.T.nodes) ∧
          ((UsesTile A → ∀ l : Int, A.limit = some l → 1 ≤ l) → Within A.limit embs.length)) := by
      intro tile te uf hno hte
      dsimp only
      generalize hm : A.limit.elim ((A.T.nodes.length / A.S.nodes.length : Nat) : Int) (min ((A.T.nodes.length / A.S.nodes.length : Nat) : Int)) = m
      have inv : SInv A m A.T (if A.inPlace then none else some A.T) [] := by
        have : ((if A.inPlace then none else some A.T) : Option (Graph β)).elim A.T id = A.T := by split <;> rfl
        refine ⟨.nil, by simp, ?_, ?_, .inr rfl⟩
        · rw [this]; exact h.tgtWF
        · rw [this]; intro q hq; exact ⟨hq, by simp⟩
      have hin : ((if A.inPlace then none else some A.T) : Option (Graph β)) = none → m ≤ 1 := by
        intro hh
        have : A.inPlace = true := by
          by_contra hc
          rw [if_neg hc] at hh
          cases hh
        rw [h.inPlace this] at hm
        simp only [Option.elim_some] at hm
        omega
      have hlim : ∀ l : Int, A.limit = some l → m ≤ l := by
        intro l hl
        rw [hl] at hm
        simp only [Option.elim_some] at hm
        omega
      cases te with
      | none =>
        have hut' := hno rfl
        have hnu := hnuses hut'
        obtain ⟨hi, hh⟩ : A.iter = false ∧ ∀ j, Honest false (A.env j) := by
          rcases hA with hA | ⟨-, hA⟩
          · exact hA
          · exact absurd hA hnu
        obtain ⟨r2, embs, r1, r3, r4, r5⟩ := subLoop_spec (A := A) (tile := tile) (te := none) (uf := uf) (m := m) (b := max m 0)
          (by omega) (by omega) (by
            intro f j G embs hG hl
            unfold subSearch
            obtain ⟨new, h1, h2, h3, h4, -, h6⟩ := C28_disjoint_and_limited (E := A.env j) (S := A.S) (T := G.sub (tile.nodes.map f)) (iter := false) (shuf := none)
              ⟨hh j, by simp⟩ hne (A.fresh j) (some (m - embs.length)) uf
            refine ⟨new, h1, h2, ?_, ?_, ?_⟩
            · intro e he q hq
              have := h3 e he q hq
              simp only [Graph.sub, List.mem_filter] at this
              exact this.1
            · intro e he kv hkv
              obtain ⟨i, hi'⟩ := List.getElem?_of_mem he
              obtain ⟨-, G', -, h7⟩ := h6 i e hi'
              rw [h7] at hkv
              rw [hi]
              exact (hh j i _ G' kv hkv).1
            · have := h4 _ rfl
              omega) (A.maps tile A.T) 0 A.T _ [] inv hin
        refine ⟨r2, .inr ⟨embs, r1, r3, r4, ?_⟩⟩
        intro _ l hl
        have := hlim l hl
        omega
      | some te =>
        obtain ⟨hut', hk, hn⟩ := hte te rfl
        have hu := huses hut'
        obtain ⟨r2, embs, r1, r3, r4, r5⟩ := subLoop_spec (A := A) (tile := tile) (te := some te) (uf := uf) (m := m) (b := max m 1)
          (by omega) (by omega) (by
            intro f j G embs hG hl
            unfold subSearch
            dsimp only
            split
            · rename_i hv
              refine ⟨_, rfl, by simp [Disjoint], ?_, ?_, ?_⟩
              · intro e he
                rw [List.mem_singleton] at he
                subst he
                refine valid_nodes h.ordQ h.ordX h.srcWF hG (mapped_kind fun kv hkv => (hk kv hkv).1) ?_ ?_ hv
                · unfold Emb.mapped
                  rw [List.map_map]
                  exact hn
                · intro kv hkv
                  unfold Emb.mapped at hkv
                  obtain ⟨kv', hkv', rfl⟩ := List.mem_map.mp hkv
                  exact (hk kv' hkv').2
              · intro e he
                rw [List.mem_singleton] at he
                subst he
                exact mapped_kind fun kv hkv => (hk kv hkv).1
              · rw [List.length_singleton]
                rcases hl with hl | hl
                · omega
                · rw [hl, List.length_nil]
                  omega
            · refine ⟨_, rfl, .nil, by simp, by simp, ?_⟩
              simp only [List.length_nil]
              omega) (A.maps tile A.T) 0 A.T _ [] inv hin
        refine ⟨r2, .inr ⟨embs, r1, r3, r4, ?_⟩⟩
        intro hl1 l hl
        have := hlim l hl
        have := hl1 hu l hl
        omega
    have hkey : A.onTile tile = .ok none ∨ ∃ tile' te, A.onTile tile = .ok (some (tile', te)) ∧ (te = none → ut = false) ∧
        ∀ te', te = some te' → ut = true ∧ (∀ kv ∈ te', kv.2.isChain = A.iter ∧ kv.1 ∈ A.S.nodes) ∧ (te'.map Prod.fst).Nodup := by
      unfold SubArgs.onTile
      rw [hut]
      split
      · obtain ⟨embs, h1, h2⟩ := Py.findMultiple_one A.envTile hne tile A.freshTile false false
        rw [h1]
        cases embs with
        | nil => exact .inl rfl
        | cons te es =>
          dsimp only
          obtain ⟨k, G, hte⟩ := h2 te (by simp)
          obtain ⟨h3, h4⟩ := h.found k G
          rw [← hte] at h3 h4
          cases ut with
          | false => exact .inr ⟨tile, none, by simp, by simp, by simp⟩
          | true =>
            rw [removal_used (fun kv hkv => (h3 kv hkv).1)]
            exact .inr ⟨_, some te, rfl, by simp, fun te' hte' => by cases hte'; exact ⟨rfl, h3, h4⟩⟩
      · rename_i hno
        refine .inr ⟨tile, A.given, rfl, ?_, hgiven⟩
        intro hg
        rw [hg] at hno
        cases ut
        · rfl
        · simp at hno
    rcases hkey with hkey | ⟨tile', te, hkey, k1, k2⟩
    · rw [hkey]
      exact ⟨rfl, .inr ⟨[], rfl, nothing _⟩⟩
    · rw [hkey]
      dsimp only
      rw [if_neg (by omega : ¬ A.S.nodes.length = 0)]
      obtain ⟨r1, r2⟩ := run tile' te A.filters k1 k2
      refine ⟨r1, r2.imp id ?_⟩
      rintro ⟨embs, e1, e2, e3, e4⟩
      exact ⟨embs, e1, e2, e3, fun hh => e4 fun hu => hh ⟨by simp, hu⟩⟩

/-- Node values: with a limit of two, two disjoint edges. -/
example : SubOK (Demo.nodeArgs (some 2) none false) ∧ (Demo.nodeArgs (some 2) none false).S.nodes ≠ [] ∧
    (∀ j, Honest false ((Demo.nodeArgs (some 2) none false).env j)) ∧
    (findSublattice (Demo.nodeArgs (some 2) none false)).1.toOption = some [[(0, .one 10), (1, .one 11)], [(0, .one 12), (1, .one 13)]] := by
  refine ⟨⟨Demo.edge2_wf, Demo.path6_wf, by decide, fun l => List.Perm.refl l, fun l => List.Perm.refl l, ?_, ?_⟩, by decide,
    fun _ => (Demo.edgeEnv_ok Demo.path6).honest, by decide +kernel⟩
  · rintro te (h | h) <;> cases h
  · intro k G
    change (∀ kv ∈ Demo.firstEdge G, _) ∧ ((Demo.firstEdge G).map Prod.fst).Nodup
    unfold Demo.firstEdge
    split
    · simp
    · split
      · refine ⟨?_, by simp⟩
        intro kv hkv
        simp only [List.mem_cons, List.not_mem_nil, or_false] at hkv
        rcases hkv with rfl | rfl
        · exact ⟨rfl, show 0 ∈ Demo.edge2.nodes by decide⟩
        · exact ⟨rfl, show 1 ∈ Demo.edge2.nodes by decide⟩
      · simp

/-- Chains: the embedding of the tile given is used along the path. -/
def Demo.tileArgs : SubArgs Nat Nat Nat :=
  { Demo.nodeArgs none none false with
    iter := true
    tile := some ⟨[0, 1, 2], [(0, 1), (1, 2)]⟩
    tileEmb := some [(0, .tup [0, 1]), (1, .lst [2])]
    envTile :=
      { filter := fun _ _ _ => true
        late := fun _ => false
        embedder := fun _ _ _ => [] } }

example : SubOK Demo.tileArgs ∧ Demo.tileArgs.S.nodes ≠ [] ∧ (Demo.tileArgs.tile ≠ none ∧ UsesTile Demo.tileArgs) ∧
    (findSublattice Demo.tileArgs).1.toOption = some [[(0, .tup [10, 11]), (1, .tup [12])], [(0, .tup [13, 14]), (1, .tup [15])]] := by
  refine ⟨⟨Demo.edge2_wf, Demo.path6_wf, by decide, fun l => List.Perm.refl l, fun l => List.Perm.refl l, ?_, ?_⟩, by decide,
    ⟨by decide, .inl ⟨rfl, .inr (by decide)⟩⟩, by decide +kernel⟩
  · rintro te (h | h)
    · cases h
      decide
    · cases h
  · intro k G
    exact ⟨by simp [Demo.tileArgs], by simp [Demo.tileArgs]⟩

/-! ### C30: arrays -/

/-- Rows made of the embeddings and read back give the same values for the same source nodes. -/
def Spec.Py.RoundTrip (order : List α) (embs : List (List (α × β))) : Prop :=
  ∃ rows ds, toArray order embs = .ok rows ∧ ofArray order rows = .ok ds ∧ ds.length = embs.length ∧
    ∀ (i : Nat) (e : List (α × β)) (d : List (α × Entry β)), embs[i]? = some e → ds[i]? = some d →
      ∀ x, d.lookup x = (e.lookup x).map Entry.leaf

/-- The property fails for two embeddings of two source nodes: what comes back is one embedding with rows as values. -/
theorem C30_square_arrays :
    ¬ RoundTrip [0, 1] [[((0 : Nat), (10 : Nat)), (1, 11)], [(0, 12), (1, 13)]] := by
  rintro ⟨rows, ds, h1, h2, h3, -⟩
  have h1' : rows = [[10, 11], [12, 13]] := by
    have h : toArray [0, 1] [[((0 : Nat), (10 : Nat)), (1, 11)], [(0, 12), (1, 13)]] = .ok [[10, 11], [12, 13]] := rfl
    rw [h] at h1
    injection h1 with h1
    exact h1.symm
  subst h1'
  have h : ofArray [(0 : Nat), 1] [[(10 : Nat), 11], [12, 13]] = .ok [[(0, .row [10, 11]), (1, .row [12, 13])]] := rfl
  rw [h] at h2
  injection h2 with h2
  subst h2
  simp at h3

/-- What is proved of the property: it holds whenever the number of embeddings differs from the number of source nodes.
Missing: equal numbers, where it fails (`C30_square_arrays`). -/
theorem C30_round_trip_partial {order : List α} (ho : order.Nodup) {embs : List (List (α × β))}
    (hk : ∀ e ∈ embs, ∀ x, (∃ y, e.lookup x = some y) ↔ x ∈ order) (hl : embs.length ≠ order.length) :
    RoundTrip order embs := by
  have one : ∀ (order : List α) (e : List (α × β)), order.Nodup → (∀ x ∈ order, ∃ y, e.lookup x = some y) →
      ∃ r d, rowOf order e = .ok r ∧ dictOf order r = .ok d ∧
        ∀ x, (d.map fun kv => (kv.1, Entry.leaf kv.2)).lookup x = if x ∈ order then (e.lookup x).map Entry.leaf else none := by
    intro order e
    induction order with
    | nil => intro _ _; exact ⟨[], [], rfl, rfl, fun x => by simp⟩
    | cons v order ih =>
      intro hn hx
      obtain ⟨r, d, h1, h2, h3⟩ := ih (List.nodup_cons.mp hn).2 (fun x hx' => hx x (by simp [hx']))
      obtain ⟨y, hy⟩ := hx v (by simp)
      refine ⟨y :: r, (v, y) :: d, ?_, ?_, ?_⟩
      · unfold rowOf; rw [hy, h1]
      · unfold dictOf; rw [h2]
      · intro x
        rw [List.map_cons, List.lookup_cons]
        by_cases hxv : x = v
        · subst hxv
          simp [hy]
        · have : (x == v) = false := by simpa using hxv
          rw [this]
          dsimp only
          rw [h3]
          simp [hxv]
  have all : ∀ embs : List (List (α × β)), (∀ e ∈ embs, ∀ x, (∃ y, e.lookup x = some y) ↔ x ∈ order) →
      ∃ rows ds, toArray order embs = .ok rows ∧ rows.length = embs.length ∧
        rows.foldr (fun r acc =>
          match dictOf order r, acc with
          | .error e, _ => .error e
          | _, .error e => .error e
          | .ok d, .ok ds => .ok ((d.map fun kv => (kv.1, .leaf kv.2)) :: ds)) (.ok []) = (.ok ds : Except PErr (List (List (α × Entry β)))) ∧
        ds.length = embs.length ∧
        ∀ (i : Nat) (e : List (α × β)) (d : List (α × Entry β)), embs[i]? = some e → ds[i]? = some d →
          ∀ x, d.lookup x = (e.lookup x).map Entry.leaf := by
    intro embs
    induction embs with
    | nil => intro _; exact ⟨[], [], rfl, rfl, rfl, rfl, by simp⟩
    | cons e embs ih =>
      intro hk
      obtain ⟨rows, ds, h1, h2, h3, h4, h5⟩ := ih (fun e he => hk e (by simp [he]))
      have hke := hk e (by simp)
      obtain ⟨r, d, g1, g2, g3⟩ := one order e ho (fun x hx => (hke x).mpr hx)
      refine ⟨r :: rows, (d.map fun kv => (kv.1, .leaf kv.2)) :: ds, ?_, by simp [h2], ?_, by simp [h4], ?_⟩
      · unfold toArray; rw [g1, h1]
      · rw [List.foldr_cons, h3, g2]
      · intro i e' d' he hd x
        cases i with
        | zero =>
          simp only [List.getElem?_cons_zero, Option.some.injEq] at he hd
          subst he hd
          rw [g3]
          split
          · rfl
          · rename_i hx
            cases hy : e.lookup x with
            | none => rfl
            | some y => exact absurd ((hke x).mp ⟨y, hy⟩) hx
        | succ i =>
          simp only [List.getElem?_cons_succ] at he hd
          exact h5 i e' d' he hd x
  obtain ⟨rows, ds, h1, h2, h3, h4, h5⟩ := all embs hk
  refine ⟨rows, ds, h1, ?_, h4, h5⟩
  unfold ofArray
  rw [if_neg (by omega)]
  exact h3

/-- Three embeddings of two source nodes. -/
example : ([0, 1] : List Nat).Nodup ∧
    (∀ e ∈ [[((0 : Nat), (10 : Nat)), (1, 11)], [(1, 13), (0, 12)], [(0, 14), (1, 15)]], ∀ x, (∃ y, e.lookup x = some y) ↔ x ∈ [0, 1]) ∧
    ([[((0 : Nat), (10 : Nat)), (1, 11)], [(1, 13), (0, 12)], [(0, 14), (1, 15)]]).length ≠ ([0, 1] : List Nat).length := by
  refine ⟨by decide, ?_, by decide⟩
  intro e he x
  have : ∀ (a b : Nat × Nat), (∃ y, [a, b].lookup x = some y) ↔ x = a.1 ∨ x = b.1 := by
    intro a b
    rw [List.lookup_cons, List.lookup_cons, List.lookup_nil]
    by_cases h1 : x = a.1
    · have e1 : (x == a.1) = true := by simpa using h1
      rw [e1]
      exact ⟨fun _ => .inl h1, fun _ => ⟨_, rfl⟩⟩
    · have e1 : (x == a.1) = false := by simpa using h1
      rw [e1]
      by_cases h2 : x = b.1
      · have e2 : (x == b.1) = true := by simpa using h2
        rw [e2]
        exact ⟨fun _ => .inr h2, fun _ => ⟨_, rfl⟩⟩
      · have e2 : (x == b.1) = false := by simpa using h2
        rw [e2]
        simp [h1, h2]
  simp only [List.mem_cons, List.not_mem_nil, or_false] at he
  rcases he with rfl | rfl | rfl <;> rw [this] <;> simp <;> omega

end MM
