import Verif.Props.Multi
import Verif.Props.Diagnose

/-! C67: what `find_multiple_embeddings` and `find_sublattice_embeddings` return are embeddings. -/

namespace MM

open Py Spec.Py Relation

variable {α β τ : Type} [DecidableEq α] [DecidableEq β] [DecidableEq τ]

/-- The embedder's answers for `S` are empty or embeddings of `S` in the graph it was given. -/
def Spec.Py.SoundEmbedder (iter : Bool) (E : Env α β) (S : Graph α) : Prop :=
  ∀ k G, G.WF → E.embedder k S G = [] ∨ MinorEmbedding S G ((E.embedder k S G).chains iter)

namespace Py

/-- A graph as networkx keeps it, with nodes and edges of `T` only. -/
structure Inside (G T : Graph β) : Prop where
  wf : G.WF
  nodes : ∀ q ∈ G.nodes, q ∈ T.nodes
  adj : ∀ p q, G.Adj p q → T.Adj p q

omit [DecidableEq β] in
theorem Inside.refl {T : Graph β} (h : T.WF) : Inside T T := ⟨h, fun _ h => h, fun _ _ h => h⟩

theorem Inside.remove {G T : Graph β} (h : Inside G T) (ns : List β) : Inside (G.remove ns) T :=
  ⟨h.wf.remove ns, fun q hq => h.nodes q (mem_remove.1 hq).1, fun p q hpq => h.adj p q (remove_adj.1 hpq).1⟩

theorem Inside.sub {G T : Graph β} (h : Inside G T) (c : List β) : Inside (G.sub c) T := by
  refine ⟨h.wf.sub c, fun q hq => h.nodes q (List.mem_filter.1 hq).1, fun p q hpq => h.adj p q ?_⟩
  unfold Graph.sub Graph.Adj at hpq
  simp only [List.mem_filter] at hpq
  exact hpq.imp And.left And.left

omit [DecidableEq α] [DecidableEq β] in
theorem _root_.MM.Spec.Py.MinorEmbedding.wider {S S' : Graph α} {G T : Graph β} (hS : SameGraph S' S) (h : Inside G T)
    {emb : α → Option (List β)} (he : MinorEmbedding S' G emb) : MinorEmbedding S T emb where
  chain x hx := he.chain x ((hS.1 x).2 hx)
  nodes x hx c hc q hq := h.nodes q (he.nodes x ((hS.1 x).2 hx) c hc q hq)
  linked x hx c hc a ha b hb :=
    ReflTransGen.mono (fun p q hpq => ⟨hpq.1, h.adj p q hpq.2⟩) a b (he.linked x ((hS.1 x).2 hx) c hc a ha b hb)
  disjoint x hx y hy := he.disjoint x ((hS.1 x).2 hx) y ((hS.1 y).2 hy)
  edges x y hxy hne c d hc hd := by
    obtain ⟨p, hp, q, hq, hpq⟩ := he.edges x y ((hS.2 x y).2 hxy) hne c d hc hd
    exact ⟨p, hp, q, hq, h.adj p q hpq⟩

/-- Everything the loop returns is an answer of the embedder for a graph inside `T0`. -/
theorem multiLoop_inside {E : Env α β} {S : Graph α} {uf iter : Bool} {m : Int} {T0 : Graph β} {Q : Emb α β → Prop}
    (hQ : ∀ k G, Inside G T0 → E.embedder k S G ≠ [] → Q (E.embedder k S G)) :
    ∀ (r k : Nat) (T : Graph β) (cur : Option (Graph β)) (embs : List (Emb α β)), Inside T T0 →
    (∀ H, cur = some H → Inside H T0) → (∀ e ∈ embs, Q e) →
    ∀ out, (multiLoop E S uf iter m r k T cur embs).1 = .ok out → ∀ e ∈ out, Q e := by
  intro r
  induction r with
  | zero =>
    intro k T cur embs _ _ he out ho
    simp only [multiLoop, Except.ok.injEq] at ho
    rw [← ho]; exact he
  | succ r ih =>
    intro k T cur embs hT hc he out ho
    have hG : Inside (cur.elim T id) T0 := by
      cases cur with
      | none => exact hT
      | some H => exact hc H rfl
    unfold multiLoop at ho
    dsimp only at ho
    split at ho
    · simp only [Except.ok.injEq] at ho; rw [← ho]; exact he
    split at ho
    · simp only [Except.ok.injEq] at ho; rw [← ho]; exact he
    split at ho
    · simp only [Except.ok.injEq] at ho; rw [← ho]; exact he
    rename_i hne
    have he' : ∀ e ∈ embs ++ [E.embedder k S (cur.elim T id)], Q e := by
      intro e hm
      rcases List.mem_append.1 hm with hm | hm
      · exact he e hm
      · rw [List.mem_singleton.1 hm]; exact hQ k _ hG hne
    split at ho
    · cases hr : Emb.removal iter (E.embedder k S (cur.elim T id)) with
      | error x => rw [hr] at ho; simp at ho
      | ok ns =>
        rw [hr] at ho
        dsimp only at ho
        by_cases hemb : embs = []
        · rw [if_pos hemb] at ho
          exact ih _ _ _ _ hT (fun H hH => by cases hH; exact hT.remove ns) he' out ho
        · rw [if_neg hemb] at ho
          cases hcur : cur with
          | none =>
            rw [hcur] at ho he'
            exact ih _ _ _ _ (hT.remove ns) (fun H hH => by cases hH) he' out ho
          | some H =>
            rw [hcur] at ho he'
            exact ih _ _ _ _ hT (fun H' hH' => by cases hH'; exact (hc H hcur).remove ns) he' out ho
    · exact ih _ _ _ _ hT hc he' out ho

theorem findMultiple_inside {E : Env α β} {S : Graph α} {T T0 : Graph β} {start : Bool} {limit : Option Int}
    {uf iter it : Bool} (hE : SoundEmbedder it E S) (hT : Inside T T0)
    {out : List (Emb α β)} (ho : (findMultiple E S T start limit uf iter none).1 = .ok out) :
    ∀ e ∈ out, MinorEmbedding S T0 (e.chains it) := by
  unfold findMultiple at ho
  split at ho
  · simp only [Except.ok.injEq] at ho; rw [← ho]; simp
  split at ho
  · simp at ho
  refine multiLoop_inside (T0 := T0) ?_ _ _ _ _ _ hT (fun H hH => by cases hH) (by simp) out ho
  intro k G hG hne
  rcases hE k G hG.wf with h | h
  · exact absurd h hne
  · exact h.wider ⟨fun _ => Iff.rfl, fun _ _ => Iff.rfl⟩ hG

/-- What is found on one sublattice. -/
theorem subSearch_inside {A : SubArgs α β τ} (hS : A.S.WF) (hQ : ∀ l, (A.ordQ l).Perm l) (hX : ∀ l, (A.ordX l).Perm l)
    (hE : ∀ j, SoundEmbedder A.iter (A.env j) A.S) {tile : Graph τ} {te : Option (Emb α τ)} {uf : Bool} {m : Int} {f : τ → β}
    {j : Nat} {G T0 : Graph β} (hG : Inside G T0) {embs new : List (Emb α β)}
    (h : subSearch A tile te uf m f j G embs = .ok new) : ∀ e ∈ new, MinorEmbedding A.S T0 (e.chains A.iter) := by
  unfold subSearch at h
  cases te with
  | some te =>
    simp only [Except.ok.injEq] at h
    subst h
    intro e he
    split at he
    · rename_i hv
      rw [List.mem_singleton.1 he]
      exact ((C27_is_valid hQ hX _ _ hS hG.wf _).1 hv).wider ⟨fun _ => Iff.rfl, fun _ _ => Iff.rfl⟩ hG
    · simp at he
  | none => exact findMultiple_inside (hE j) (hG.sub _) h

theorem subLoop_inside {A : SubArgs α β τ} (hS : A.S.WF) (hQ : ∀ l, (A.ordQ l).Perm l) (hX : ∀ l, (A.ordX l).Perm l)
    (hE : ∀ j, SoundEmbedder A.iter (A.env j) A.S) {tile : Graph τ} {te : Option (Emb α τ)} {uf : Bool} {m : Int} {T0 : Graph β} :
    ∀ (fs : List (τ → β)) (j : Nat) (T : Graph β) (cur : Option (Graph β)) (embs : List (Emb α β)), Inside T T0 →
    (∀ H, cur = some H → Inside H T0) → (∀ e ∈ embs, MinorEmbedding A.S T0 (e.chains A.iter)) →
    ∀ out, (subLoop A tile te uf m fs j T cur embs).1 = .ok out → ∀ e ∈ out, MinorEmbedding A.S T0 (e.chains A.iter) := by
  intro fs
  induction fs with
  | nil =>
    intro j T cur embs _ _ he out ho
    simp only [subLoop, Except.ok.injEq] at ho
    rw [← ho]; exact he
  | cons f fs ih =>
    intro j T cur embs hT hc he out ho
    have hG : Inside (cur.elim T id) T0 := by
      cases cur with
      | none => exact hT
      | some H => exact hc H rfl
    unfold subLoop at ho
    split at ho
    · simp only [Except.ok.injEq] at ho; rw [← ho]; exact he
    cases hs : subSearch A tile te uf m f j (cur.elim T id) embs with
    | error x => rw [hs] at ho; simp at ho
    | ok new =>
      rw [hs] at ho
      dsimp only at ho
      have he' : ∀ e ∈ embs ++ new, MinorEmbedding A.S T0 (e.chains A.iter) := by
        intro e hm
        rcases List.mem_append.1 hm with hm | hm
        · exact he e hm
        · exact subSearch_inside hS hQ hX hE hG hs e hm
      split at ho
      · simp only [Except.ok.injEq] at ho; rw [← ho]; exact he'
      cases hr : Emb.removal A.iter new.flatten with
      | error x => rw [hr] at ho; simp at ho
      | ok ns =>
        rw [hr] at ho
        dsimp only at ho
        cases hcur : cur with
        | none =>
          rw [hcur] at ho
          exact ih _ _ _ _ (hT.remove ns) (fun H hH => by cases hH) he' out ho
        | some H =>
          rw [hcur] at ho
          exact ih _ _ _ _ hT (fun H' hH' => by cases hH'; exact (hc H hcur).remove ns) he' out ho

end Py

/-- Everything `find_multiple_embeddings` returns is a minor embedding of the source graph in the target graph, if the
embedder returns such; also for shuffled graphs. -/
theorem C67_multiple {E : Env α β} {S : Graph α} {T : Graph β} {start : Bool} {limit : Option Int} {uf iter : Bool}
    {shuf : Option (Graph α × Graph β)} (hT : T.WF) (hE : SoundEmbedder iter E (shuf.elim S Prod.fst))
    (hs : ∀ p, shuf = some p → SameGraph p.1 S ∧ SameGraph p.2 T ∧ p.2.WF)
    {embs : List (Emb α β)} (h : (findMultiple E S T start limit uf iter shuf).1 = .ok embs) :
    ∀ e ∈ embs, MinorEmbedding S T (e.chains iter) := by
  unfold findMultiple at h
  split at h
  · simp only [Except.ok.injEq] at h; rw [← h]; simp
  split at h
  · simp at h
  refine multiLoop_inside (T0 := T) ?_ _ _ _ _ _ (Inside.refl hT) ?_ (by simp) embs h
  · intro k G hG hne
    rcases hE k G hG.wf with h | h
    · exact absurd h hne
    · refine MinorEmbedding.wider ?_ hG h
      cases shuf with
      | none => exact ⟨fun _ => Iff.rfl, fun _ _ => Iff.rfl⟩
      | some p => exact (hs p rfl).1
  · intro H hH
    cases shuf with
    | none => simp at hH
    | some p =>
      simp only [Option.map_some, Option.some.injEq] at hH
      subst hH
      obtain ⟨_, h2, h3⟩ := hs p rfl
      exact ⟨h3, fun q hq => (h2.1 q).1 hq, fun a b hab => (h2.2 a b).1 hab⟩

/-- Everything `find_sublattice_embeddings` returns is a minor embedding of the source graph in the target graph,
whether found on a sublattice or carried over from the tile, if the embedder returns such. Nothing is asked of the
tile, of the mappings and of a tile embedding. -/
theorem C67_sublattice {A : SubArgs α β τ} (hS : A.S.WF) (hT : A.T.WF) (hQ : ∀ l, (A.ordQ l).Perm l)
    (hX : ∀ l, (A.ordX l).Perm l) (hE : ∀ j, SoundEmbedder A.iter (A.env j) A.S) {embs : List (Emb α β)}
    (h : (findSublattice A).1 = .ok embs) : ∀ e ∈ embs, MinorEmbedding A.S A.T (e.chains A.iter) := by
  unfold findSublattice at h
  split at h
  · simp only [Except.ok.injEq] at h; rw [← h]; simp
  cases ht : A.tile with
  | none =>
    rw [ht] at h
    exact findMultiple_inside (hE 0) (Inside.refl hT) h
  | some tile =>
    rw [ht] at h
    dsimp only at h
    split at h
    · simp only [Except.ok.injEq] at h; rw [← h]; simp
    split at h
    · simp at h
    cases ho : A.onTile tile with
    | error x => rw [ho] at h; simp at h
    | ok o =>
      rw [ho] at h
      cases o with
      | none => simp only [Except.ok.injEq] at h; rw [← h]; simp
      | some te =>
        dsimp only at h
        split at h
        · simp at h
        refine subLoop_inside hS hQ hX hE _ _ _ _ _ (Inside.refl hT) ?_ (by simp) embs h
        intro H hH
        split at hH
        · cases hH
        · cases hH; exact Inside.refl hT

/-- A tile embedding that does not embed the source graph in the tile is refused with ValueError, unless the tile was
rejected before; one that does is not. -/
theorem C67_tile_embedding {A : SubArgs α β τ} (hS : A.S.WF) {tile : Graph τ} (htile : A.tile = some tile)
    (hw : tile.WF) (hQ : ∀ l, (A.ordT l).Perm l) (hX : ∀ l, (A.ordX l).Perm l) (hst : A.start = true)
    (hf : A.infeasible = false) {te : Emb α τ} (hte : A.tileEmb = some te) :
    (¬ MinorEmbedding A.S tile (te.chains A.iter) → findSublattice A = (.error .value, A.T)) ∧
    (MinorEmbedding A.S tile (te.chains A.iter) → A.tiles = true → A.S.nodes ≠ [] →
      ∃ m, findSublattice A = subLoop A tile (some te) false m (A.maps tile A.T) 0 A.T
        (if A.inPlace then none else some A.T) []) := by
  have hbad : A.badTile tile = !isValid A.ordT A.ordX (te.chains A.iter) A.S tile := by
    unfold SubArgs.badTile; rw [hte]
  unfold findSublattice
  rw [if_neg (by rw [hst]; simp), htile]
  dsimp only
  rw [if_neg (by rw [hf]; simp), hbad]
  constructor
  · intro hn
    have : isValid A.ordT A.ordX (te.chains A.iter) A.S tile = false := by
      rw [← Bool.not_eq_true, C27_is_valid hQ hX _ _ hS hw]; exact hn
    rw [this]; rfl
  · intro hv htl hne
    rw [(C27_is_valid hQ hX _ _ hS hw _).2 hv]
    have hg : A.given = some te := by unfold SubArgs.given; rw [if_pos htl, hte]
    have hfi : A.filters = false := by unfold SubArgs.filters; rw [hte]; simp
    have ho : A.onTile tile = .ok (some (tile, some te)) := by
      unfold SubArgs.onTile
      rw [hfi, hg]
      simp
    rw [if_neg (by simp), ho]
    dsimp only
    rw [if_neg (by rw [List.length_eq_zero_iff]; exact hne), hfi]
    exact ⟨_, rfl⟩

namespace Demo

/-- An embedder for the edge that checks its answers: the first edge of the target. -/
def checkedEnv : Env Nat Nat where
  filter := fun _ _ _ => true
  late := fun _ => false
  embedder := fun _ S G => if S.nodes.Nodup ∧ (∀ e ∈ S.edges, e.1 ∈ S.nodes ∧ e.2 ∈ S.nodes) ∧
    isValid id id ((firstEdge G).chains false) S G = true then firstEdge G else []

theorem checkedEnv_sound (S : Graph Nat) : SoundEmbedder false checkedEnv S := by
  intro k G hG
  unfold checkedEnv
  dsimp only
  split
  · rename_i h
    exact .inr ((C27_is_valid (fun _ => List.Perm.refl _) (fun _ => List.Perm.refl _) S G ⟨h.1, h.2.1⟩ hG _).1 h.2.2)
  · exact .inl rfl

/-- Calls with that embedder: with and without use of the tile's embedding, and with a tile embedding given. -/
def validArgs (useTile : Option Bool) (te : Option (Emb Nat Nat)) : SubArgs Nat Nat Nat :=
  { nodeArgs none useTile false with env := fun _ => checkedEnv, envTile := checkedEnv, tileEmb := te }

end Demo

/-- The hypotheses are met by three calls, which return embeddings; a fourth has a bad tile embedding. -/
example : Demo.edge2.WF ∧ Demo.path6.WF ∧ SoundEmbedder false Demo.checkedEnv Demo.edge2 ∧
    (findSublattice (Demo.validArgs none none)).1.toOption =
      some [[(0, .one 10), (1, .one 11)], [(0, .one 12), (1, .one 13)]] ∧
    (findSublattice (Demo.validArgs (some true) none)).1.toOption =
      some [[(0, .one 10), (1, .one 11)], [(0, .one 12), (1, .one 13)]] ∧
    (findSublattice (Demo.validArgs none (some [(0, .one 1), (1, .one 0)]))).1.toOption =
      some [[(0, .one 11), (1, .one 10)], [(0, .one 13), (1, .one 12)]] ∧
    (findSublattice (Demo.validArgs none (some [(0, .one 1), (1, .one 1)]))).1.toOption = none ∧
    (findMultiple Demo.checkedEnv Demo.edge2 Demo.path6 true none true false none).1.toOption =
      some [[(0, .one 10), (1, .one 11)], [(0, .one 12), (1, .one 13)], [(0, .one 14), (1, .one 15)]] :=
  ⟨Demo.edge2_wf, Demo.path6_wf, Demo.checkedEnv_sound _, by decide +kernel, by decide +kernel, by decide +kernel,
    by decide +kernel, by decide +kernel⟩

end MM
