import Verif.Props.Maximal
import Verif.Props.SubgraphComplete

/-! C128 for the default embedder: `find_multiple_embeddings` on top of `find_subgraph`. -/

namespace MM

open Py Spec.Py

variable {α β : Type} [DecidableEq α] [DecidableEq β]

namespace Py

instance (G : Graph α) : Decidable G.WF := decidable_of_iff (G.nodes.Nodup ∧ ∀ e ∈ G.edges, e.1 ∈ G.nodes ∧ e.2 ∈ G.nodes) ⟨fun h => ⟨h.1, h.2⟩, fun h => ⟨h.1, h.2⟩⟩

/-- A networkx graph as an argument of `find_subgraph`. -/
def asInput (G : Graph α) : SubInput α := ⟨G.edges, some G.nodes, none, none⟩

/-- `find_subgraph` as the embedder of `find_multiple_embeddings`, which is the default (parallel_embeddings.py 203-206, 244). Graphs that networkx cannot
hold are answered with nothing. -/
def subgraphEmbedder (setOrder : List β → List β) (solve : Injectivity → SolverGraph → SolverGraph → List (Nat × Nat)) (S : Graph α) (G : Graph β) : Emb α β :=
  if S.WF ∧ G.WF then
    match findSubgraph (asInput S) (asInput G) none none .injective setOrder solve with
    | .ok emb => emb.map fun p => (p.1, .one p.2)
    | .error _ => []
  else []

section
variable {setOrder : List β → List β} {solve : Injectivity → SolverGraph → SolverGraph → List (Nat × Nat)}

theorem embedder_cases (ho : ∀ l, (setOrder l).Perm l) (hsolve : Sound solve) (S : Graph α) (G : Graph β) :
    subgraphEmbedder setOrder solve S G = [] ∨ S.WF ∧ G.WF ∧ ∃ emb, SubgraphMap .injective S G emb ∧ subgraphEmbedder setOrder solve S G = emb.map fun p => (p.1, .one p.2) := by
  unfold subgraphEmbedder
  split
  · rename_i h
    obtain ⟨emb, e, he⟩ := C33_empty_or_complete (S := asInput S) (T := asInput G) h.1 h.2 (shS := none) (shT := none) (by simp [Shuffle.OK]) (by simp [Shuffle.OK]) .injective ho hsolve
    rw [e]
    rcases he with rfl | he
    · exact .inl rfl
    · exact .inr ⟨h.1, h.2, emb, he, rfl⟩
  · exact .inl rfl

omit [DecidableEq β] in
theorem lookup_one (emb : List (α × β)) (x : α) :
    (∃ q, (x, q) ∈ emb ∧ Emb.chains false (emb.map fun p => (p.1, Val.one p.2)) x = some [q]) ∨
      x ∉ emb.map Prod.fst ∧ Emb.chains false (emb.map fun p => (p.1, Val.one p.2)) x = none := by
  induction emb with
  | nil => exact .inr ⟨by simp, rfl⟩
  | cons p emb ih =>
    unfold Emb.chains at ih ⊢
    rw [List.map_cons, List.lookup_cons]
    by_cases h : x = p.1
    · subst h
      rw [beq_self_eq_true]
      exact .inl ⟨p.2, List.mem_cons_self, rfl⟩
    · rw [beq_eq_false_iff_ne.mpr h]
      refine ih.imp (fun ⟨q, h1, h2⟩ => ⟨q, List.mem_cons_of_mem _ h1, h2⟩) fun ⟨h1, h2⟩ => ⟨?_, h2⟩
      rw [List.map_cons, List.mem_cons]
      exact fun h' => h'.elim h h1

omit [DecidableEq β] in
/-- A mapping of `find_subgraph` as a minor embedding. -/
theorem map_minor {S : Graph α} {G : Graph β} {emb : List (α × β)} (h : SubgraphMap .injective S G emb) :
    MinorEmbedding S G (Emb.chains false (emb.map fun p => (p.1, Val.one p.2))) := by
  have hat : ∀ x ∈ S.nodes, ∃ q, (x, q) ∈ emb ∧ Emb.chains false (emb.map fun p => (p.1, Val.one p.2)) x = some [q] := by
    intro x hx
    exact (lookup_one emb x).resolve_right fun h1 => h1.1 (h.total.mem_iff.mpr hx)
  have hval : ∀ {x c}, Emb.chains false (emb.map fun p => (p.1, Val.one p.2)) x = some c → ∃ q, (x, q) ∈ emb ∧ c = [q] := by
    intro x c hc
    rcases lookup_one emb x with ⟨q, h1, h2⟩ | ⟨_, h2⟩
    · rw [h2] at hc; cases hc; exact ⟨q, h1, rfl⟩
    · rw [h2] at hc; cases hc
  refine ⟨fun x hx => ?_, fun x _ c hc q hq => ?_, fun x _ c hc a ha b hb => ?_, fun x _ y _ hxy c d hc hd q hq hq' => ?_, fun x y hxy _ c d hc hd => ?_⟩
  · obtain ⟨q, -, h2⟩ := hat x hx
    exact ⟨_, h2, by simp⟩
  · obtain ⟨r, h1, rfl⟩ := hval hc
    rw [List.mem_singleton.mp hq]
    exact h.nodes _ h1
  · obtain ⟨r, h1, rfl⟩ := hval hc
    rw [List.mem_singleton.mp ha, List.mem_singleton.mp hb]
  · obtain ⟨r, h1, rfl⟩ := hval hc
    obtain ⟨s, h2, rfl⟩ := hval hd
    rw [List.mem_singleton.mp hq, List.mem_singleton] at hq'
    have := List.inj_on_of_nodup_map (h.injective rfl) h1 h2 hq'
    exact hxy (congrArg Prod.fst this)
  · obtain ⟨r, h1, rfl⟩ := hval hc
    obtain ⟨s, h2, rfl⟩ := hval hd
    exact ⟨r, List.mem_singleton.mpr rfl, s, List.mem_singleton.mpr rfl, h.edges _ h1 _ h2 hxy⟩

/-- A place for a graph as a mapping. -/
theorem place_map {S : Graph α} {G : Graph β} (hS : S.WF) {emb : α → Option (List β)} (h : Place false S G emb) : ∃ l, SubgraphMap .injective S G l := by
  refine ⟨S.nodes.flatMap fun x => ((emb x).getD []).map fun q => (x, q), ?_⟩
  have hmem : ∀ p, p ∈ (S.nodes.flatMap fun x => ((emb x).getD []).map fun q => (x, q)) ↔ p.1 ∈ S.nodes ∧ emb p.1 = some [p.2] := by
    rintro ⟨x, q⟩
    rw [List.mem_flatMap]
    constructor
    · rintro ⟨y, hy, hm⟩
      obtain ⟨r, hr, -⟩ := h.single rfl y hy
      rw [hr, Option.getD_some] at hm
      obtain ⟨q', h1, h2⟩ := List.mem_map.mp hm
      cases h2
      rw [List.mem_singleton.mp h1]
      exact ⟨hy, hr⟩
    · rintro ⟨h1, h2⟩
      exact ⟨x, h1, by rw [h2]; simp⟩
  have hfst : (S.nodes.flatMap fun x => ((emb x).getD []).map fun q => (x, q)).map Prod.fst = S.nodes := by
    have : ∀ l : List α, (∀ x ∈ l, x ∈ S.nodes) → (l.flatMap fun x => ((emb x).getD []).map fun q => (x, q)).map Prod.fst = l := by
      intro l
      induction l with
      | nil => intro _; rfl
      | cons x l ih =>
        intro hl
        obtain ⟨r, hr, -⟩ := h.single rfl x (hl x List.mem_cons_self)
        rw [List.flatMap_cons, List.map_append, ih fun y hy => hl y (List.mem_cons_of_mem _ hy), hr]
        rfl
    exact this _ fun _ hx => hx
  refine ⟨by rw [hfst], fun p hp => ?_, fun p hp q hq hadj => ?_, fun _ => ?_, nofun⟩
  · obtain ⟨h1, h2⟩ := (hmem p).mp hp
    exact h.minor.nodes _ h1 _ h2 _ (List.mem_singleton.mpr rfl)
  · obtain ⟨h1, h2⟩ := (hmem p).mp hp
    obtain ⟨h3, h4⟩ := (hmem q).mp hq
    by_cases he : p.1 = q.1
    · obtain ⟨r, hr, hl⟩ := h.single rfl p.1 h1
      rw [← he, h2] at h4
      rw [h2] at hr
      have e1 : p.2 = q.2 := by simpa using h4
      have e2 : p.2 = r := by simpa using hr
      have := hl (by rw [← he] at hadj; exact hadj)
      rwa [← e1, e2]
    · obtain ⟨a, ha, b, hb, hab⟩ := h.minor.edges _ _ hadj he _ _ h2 h4
      rwa [List.mem_singleton.mp ha, List.mem_singleton.mp hb] at hab
  · refine List.Nodup.map_on (fun p hp q hq hpq => ?_) (List.Nodup.of_map Prod.fst (by rw [hfst]; exact hS.1))
    obtain ⟨h1, h2⟩ := (hmem p).mp hp
    obtain ⟨h3, h4⟩ := (hmem q).mp hq
    have he : p.1 = q.1 := by
      by_contra he
      exact h.minor.disjoint _ h1 _ h3 he _ _ h2 h4 p.2 (List.mem_singleton.mpr rfl) (by rw [hpq]; exact List.mem_singleton.mpr rfl)
    exact Prod.ext he hpq

variable {E : Env α β}

theorem default_honest (ho : ∀ l, (setOrder l).Perm l) (hsolve : Sound solve) (hE : ∀ k S G, E.embedder k S G = subgraphEmbedder setOrder solve S G) : Honest false E := by
  intro k S' G kv hkv
  rw [hE] at hkv
  rcases embedder_cases ho hsolve S' G with h | ⟨_, _, emb, h1, h2⟩
  · rw [h] at hkv; cases hkv
  · rw [h2] at hkv
    obtain ⟨p, hp, rfl⟩ := List.mem_map.mp hkv
    exact ⟨rfl, fun q hq => by rw [List.mem_singleton.mp hq]; exact h1.nodes p hp⟩

theorem default_sound (ho : ∀ l, (setOrder l).Perm l) (hsolve : Sound solve) (hE : ∀ k S G, E.embedder k S G = subgraphEmbedder setOrder solve S G) (S : Graph α) :
    SoundEmbedder false E S := by
  intro k G hG
  rw [hE]
  rcases embedder_cases ho hsolve S G with h | ⟨_, _, emb, h1, h2⟩
  · exact .inl h
  · rw [h2]; exact .inr (map_minor h1)

theorem default_thorough (ho : ∀ l, (setOrder l).Perm l) (hsolve : Sound solve) (hall : Thorough solve) (hE : ∀ k S G, E.embedder k S G = subgraphEmbedder setOrder solve S G)
    {S : Graph α} (hS : S.WF) (hne : S.nodes ≠ []) : ThoroughEmbedder false E S := by
  rintro k G hG ⟨emb, hp⟩ h0
  obtain ⟨l, hl⟩ := place_map hS hp
  obtain ⟨emb', e, h', -⟩ := C127_found (S := asInput S) (T := asInput G) hS hG (shS := none) (shT := none) (by simp [Shuffle.OK]) (by simp [Shuffle.OK]) .injective ho hsolve hall hl
    ⟨fun _ _ _ => rfl, fun _ _ _ _ _ => rfl⟩
  rw [hE, subgraphEmbedder, if_pos ⟨hS, hG⟩, e] at h0
  have : emb' = [] := List.map_eq_nil_iff.mp h0
  rw [this] at h'
  have := h'.total.length_eq
  exact hne (List.length_eq_zero_iff.mp this.symm)

theorem place_of_map {S : Graph α} {T : Graph β} {l : List (α × β)} (hl : SubgraphMap .injective S T l) : Place false S T (Emb.chains false (l.map fun p => (p.1, Val.one p.2))) := by
  refine ⟨map_minor hl, fun _ x hx => ?_⟩
  obtain ⟨q, h1, h2⟩ := (lookup_one l x).resolve_right fun h1 => h1.1 (hl.total.mem_iff.mpr hx)
  exact ⟨q, h2, fun hxx => hl.edges _ h1 _ h1 hxx⟩

end
end Py

/-- **C128** for the default: `find_multiple_embeddings` with `find_subgraph` returns, for any limit, embeddings that map edges to edges, one to one, with no target node in two of them;
if there are fewer than asked for, the target graph has no other such embedding beside them, unless time runs out. -/
theorem C128_default {S : Graph α} {T : Graph β} (hS : S.WF) (hT : T.WF) (hne : S.nodes ≠ []) (hs : Simple S) {setOrder : List β → List β} (ho : ∀ l, (setOrder l).Perm l)
    {solve : Injectivity → SolverGraph → SolverGraph → List (Nat × Nat)} (hsolve : Sound solve) (hall : Thorough solve)
    {E : Env α β} (hE : ∀ k S G, E.embedder k S G = subgraphEmbedder setOrder solve S G) (hlate : ∀ k, E.late k = false)
    (hf : ∀ G one, ∃ same, E.filter S G one = decide (feasible same S G one ≠ .ok false)) (limit : Option Int) (uf : Bool) :
    ∃ embs, (findMultiple E S T true limit uf false none).1 = .ok embs ∧ Disjoint embs ∧
      (∀ e ∈ embs, MinorEmbedding S T (e.chains false)) ∧ (∀ n : Int, limit = some n → (embs.length : Int) ≤ max n 0) ∧
      ((∀ n, limit = some n → (embs.length : Int) < n) → ∀ l, SubgraphMap .injective S T l → ∃ e ∈ embs, ∃ p ∈ l, p.2 ∈ e.used) := by
  have hh := default_honest ho hsolve hE
  have hsound := default_sound ho hsolve hE S
  have hth := default_thorough ho hsolve hall hE hS hne
  obtain ⟨embs, e1, e2, _, e4, _⟩ := C28_disjoint_and_limited (S := S) (T := T) (shuf := none) ⟨hh, nofun⟩ hne true limit uf
  refine ⟨embs, e1, e2, C67_multiple (shuf := none) hT hsound nofun e1, e4, fun hlim l hl => ?_⟩
  have hp := place_of_map hl
  obtain ⟨e, he, x, hx, c, hc, q, hq, hqe⟩ := C128_maximal (shuf := none) hS hT hne hh nofun hsound hth
    (fun _ => C128_filter hS hs nofun hf) hlate e1 hlim _ hp
  rcases lookup_one l x with ⟨r, h1, h2⟩ | ⟨_, h2⟩
  · rw [h2] at hc
    cases hc
    rw [List.mem_singleton.mp hq] at hqe
    exact ⟨e, he, _, h1, hqe⟩
  · rw [h2] at hc; cases hc

namespace Demo

/-- The surroundings of a call with defaults: no time limit, the filter of the code. -/
noncomputable def defaultEnv : Env Nat Nat where
  filter S G one := decide (feasible false S G one ≠ .ok false)
  late _ := false
  embedder _ S G := subgraphEmbedder id oracle S G

end Demo

/-- Edges in a path of six nodes, with defaults and no limit: at least one is found, for the edge from 12 to 13 meets one that is returned. -/
example : ∃ embs, (findMultiple Demo.defaultEnv Demo.edge2 Demo.path6 true none true false none).1 = .ok embs ∧ ∃ e ∈ embs, 12 ∈ e.used ∨ 13 ∈ e.used := by
  obtain ⟨embs, e1, -, -, -, h⟩ := C128_default Demo.edge2_wf Demo.path6_wf (by decide) (by simp [Simple, Demo.edge2]) (fun _ => .refl _) Demo.oracle_sound Demo.oracle_thorough
    (E := Demo.defaultEnv) (fun _ _ _ => rfl) (fun _ => rfl) (fun G one => ⟨false, rfl⟩) none true
  have hm : SubgraphMap .injective Demo.edge2 Demo.path6 [(0, 12), (1, 13)] := by
    refine ⟨by decide, by decide, ?_, fun _ => by decide, nofun⟩
    unfold Graph.Adj
    decide
  obtain ⟨e, he, p, hp, hpe⟩ := h nofun _ hm
  refine ⟨embs, e1, e, he, ?_⟩
  simp only [List.mem_cons, List.not_mem_nil, or_false] at hp
  rcases hp with rfl | rfl
  · exact .inl hpe
  · exact .inr hpe

end MM
