import Verif.Cache.MineKeep
import Verif.Spec.Minor
import Verif.Props.Serial
import Verif.Bus.BestInv
import Verif.Cache.Matching
import Mathlib.Data.Prod.Lex

/-! C110: `mine_clique_embeddings`. -/

namespace MM
open Spec

namespace Cache

/-- Runs of a fold that go on alike. -/
theorem foldlM_pair {σ α ε : Type} {f g : σ → α → Except ε σ} {R : σ → σ → Prop} : ∀ {l : List α} {s t : σ},
    (∀ a ∈ l, ∀ s t, R s t → (∃ x, f s a = .error x ∧ g t a = .error x) ∨ ∃ s' t', f s a = .ok s' ∧ g t a = .ok t' ∧ R s' t') → R s t →
    (∃ x, l.foldlM f s = .error x ∧ l.foldlM g t = .error x) ∨ ∃ s' t', l.foldlM f s = .ok s' ∧ l.foldlM g t = .ok t' ∧ R s' t' := by
  intro l
  induction l with
  | nil => intro s t _ h; exact .inr ⟨s, t, rfl, rfl, h⟩
  | cons a l ih =>
    intro s t hf h
    simp only [List.foldlM_cons, bind, Except.bind]
    rcases hf a List.mem_cons_self s t h with ⟨x, e1, e2⟩ | ⟨s', t', e1, e2, h'⟩
    · rw [e1, e2]; exact .inl ⟨x, rfl, rfl⟩
    · rw [e1, e2]
      exact ih (fun b hb => hf b (List.mem_cons_of_mem _ hb)) h'

/-- What one round does with the caches on disk and with the cache in memory. -/
theorem polynomial_split (M : Mining) (st : Files × Cliques) (s : Nat) :
    ∃ F : Except Failure Cliques, M.polynomial st s = F.map (fun c => ((fetch st.1 (M.ident s) (M.computed s)).1, c)) ∧
      F = (do
        let c ← lift (mergeBy M.quality (fetch st.1 (M.ident s) (M.computed s)).2 st.2)
        if M.regular then
          let big ← lift (largest (fetch st.1 (M.ident s) (M.computed s)).2)
          (List.range' 3 (big.length + 1 - 3)).foldlM (M.polished (fetch st.1 (M.ident s) (M.computed s)).2) c
        else pure c) := by
  refine ⟨_, ?_, rfl⟩
  simp only [Mining.polynomial]
  generalize fetch st.1 (M.ident s) (M.computed s) = fc
  obtain ⟨files, ci⟩ := fc
  simp only [bind, Except.bind]
  cases lift (mergeBy M.quality ci st.2) with
  | error x => rfl
  | ok c =>
    dsimp only
    split
    · cases lift (largest ci) with
      | error x => rfl
      | ok big =>
        dsimp only
        cases (List.range' 3 (big.length + 1 - 3)).foldlM (M.polished ci) c with
        | error x => rfl
        | ok c' => rfl
    · rfl

/-- Rounds with the same cache for the seed and the same cache in memory. -/
theorem polynomial_pair {M M' : Mining} {st st' : Files × Cliques} {s : Nat} (hf : (fetch st.1 (M.ident s) (M.computed s)).2 = (fetch st'.1 (M'.ident s) (M'.computed s)).2) (hc : st.2 = st'.2)
    (hq : M.quality = M'.quality) (hr : M.regular = M'.regular) (hp : M.polished = M'.polished) :
    (∃ x, M.polynomial st s = .error x ∧ M'.polynomial st' s = .error x) ∨
      ∃ c, M.polynomial st s = .ok ((fetch st.1 (M.ident s) (M.computed s)).1, c) ∧ M'.polynomial st' s = .ok ((fetch st'.1 (M'.ident s) (M'.computed s)).1, c) := by
  obtain ⟨F, e1, e2⟩ := polynomial_split M st s
  obtain ⟨F', e1', e2'⟩ := polynomial_split M' st' s
  have : F = F' := by rw [e2, e2', hf, hc, hq, hr, hp]
  subst this
  rw [e1, e1']
  cases F with
  | error x => exact .inl ⟨x, rfl, rfl⟩
  | ok c => exact .inr ⟨c, rfl, rfl⟩

/-- What mining does after the seeds. -/
theorem mine_split (M : Mining) (files : Files) :
    mine M files = (M.seeds.foldlM M.polynomial (files, blank)).bind fun st => (do
      let b ← M.heuristicBound
      let c ← (List.range' 3 (b + 1 - 3).toNat).foldlM M.heuristics st.2
      insertBy none [] c).map fun c => (dset st.1 (M.ident 0) c, c) := by
  simp only [mine, bind]
  cases M.seeds.foldlM M.polynomial (files, blank) with
  | error x => rfl
  | ok st =>
    obtain ⟨files, c⟩ := st
    dsimp only [Except.bind]
    cases M.heuristicBound with
    | error x => rfl
    | ok b =>
      dsimp only
      cases (List.range' 3 (b + 1 - 3).toNat).foldlM M.heuristics c with
      | error x => rfl
      | ok c' =>
        dsimp only
        cases insertBy none [] c' <;> rfl

end Cache

open Cache

/-- How mining ends. -/
theorem Cache.mine_ends {M : Mining} {files : Files} (h : M.OK files) :
    (∃ files' c, mine M files = .ok (files', c) ∧ dget files' (M.ident 0) = some c ∧ (∀ id, id ≠ M.ident 0 → ∀ c0, dget files id = some c0 → dget files' id = some c0) ∧ Good M.nodes M.edges c) ∨
    (mine M files = .error .heuristic ∧ ∃ size ≥ 3, M.heuristic size = none) ∨
    (M.bound = none ∧ M.family = .chimera ∧ (mine M files = .error (.err .key) ∨ mine M files = .error .type)) := by
  rw [mine_split]
  obtain ⟨st, e1, hI⟩ := foldlM_ok (f := M.polynomial) (I := M.Inv) (l := M.seeds) (s := (files, blank)) (fun s hs st hI => polynomial_ok h hI hs) ⟨h.files, Good.blank⟩
  have hF : FilesAt M files M.seeds st.1 :=
    (Keeping.seeds (M := M) (P := fun _ => True) (H := fun _ => True) ⟨fun _ _ _ _ _ _ _ _ => ⟨trivial, fun _ => trivial⟩, fun _ _ _ _ _ => trivial, trivial, fun _ => trivial⟩ (fun _ _ => trivial)
      M.seeds [] _ _ rfl (by intro id; cases dget files id <;> rfl) trivial e1).1
  rw [e1]
  simp only [bind, Except.bind]
  cases eb : M.heuristicBound with
  | error x =>
    right; right
    simp only [Mining.heuristicBound] at eb
    cases e2 : M.bound with
    | some b => rw [e2] at eb; cases eb
    | none =>
      rw [e2] at eb
      cases e3 : M.family with
      | zephyr => rw [e3] at eb; cases eb
      | pegasus => rw [e3] at eb; cases eb
      | chimera =>
        rw [e3] at eb
        refine ⟨rfl, rfl, ?_⟩
        cases e4 : M.cols with
        | none => rw [e4] at eb; cases eb; exact .inl rfl
        | some n => rw [e4] at eb; cases eb; exact .inr rfl
  | ok b =>
    dsimp only
    cases e2 : (List.range' 3 (b + 1 - 3).toNat).foldlM M.heuristics st.2 with
    | error x =>
      right; left
      obtain ⟨size, hs, c, hc, e3⟩ := foldlM_error (f := M.heuristics) (I := Good M.nodes M.edges) (fun size _ c c' hc e => by
        rcases heuristics_ok h hc size with ⟨c'', e', hc'⟩ | ⟨e', _⟩
        · rw [e'] at e; cases e; exact hc'
        · rw [e'] at e; cases e) hI.2 e2
      rcases heuristics_ok h hc size with ⟨c'', e', hc'⟩ | ⟨e', e4⟩
      · rw [e'] at e3; cases e3
      · rw [e'] at e3; cases e3
        rw [List.mem_range'_1] at hs
        exact ⟨rfl, size, hs.1, e4⟩
    | ok c1 =>
      left
      dsimp only
      have hc1 : Good M.nodes M.edges c1 := foldlM_inv (f := M.heuristics) (I := Good M.nodes M.edges) (fun size _ c c' hc e => by
        rcases heuristics_ok h hc size with ⟨c'', e', hc'⟩ | ⟨e', _⟩
        · rw [e'] at e; cases e; exact hc'
        · rw [e'] at e; cases e) e2 hI.2
      obtain ⟨c, e3, hc⟩ := insertBy_ok (quality := none) (nodes := M.nodes) (edges := M.edges) (emb := []) ⟨by simp, .nil, .nil⟩ hc1
      rw [e3]
      refine ⟨_, c, rfl, by rw [dget_dset, if_pos rfl], fun id hid c0 h0 => by rw [dget_dset, if_neg (Ne.symm hid), hF id, h0], hc⟩

theorem Cache.mine_good {M : Mining} {files files' : Files} {c : Cliques} (hok : M.OK files) (h : mine M files = .ok (files', c)) : Good M.nodes M.edges c := by
  rcases mine_ends hok with ⟨f, c', e1, _, _, hc⟩ | ⟨e1, _⟩ | ⟨_, _, e1 | e1⟩
  · rw [e1] at h; cases h; exact hc
  · rw [e1] at h; cases h
  · rw [e1] at h; cases h
  · rw [e1] at h; cases h

/-- C110, the result of mining: when the embeddings that it starts from are valid, it either returns a cache all of whose answers are valid embeddings with enough chains,
which it has also stored under the identifier of the graph, or it fails because the heuristic raised an exception or because of the missing bound for Chimera. -/
theorem C110_valid {M : Mining} {files : Files} (h : M.OK files) :
    (∃ files' c, mine M files = .ok (files', c) ∧ dget files' (M.ident 0) = some c ∧ (∀ id, id ≠ M.ident 0 → ∀ c0, dget files id = some c0 → dget files' id = some c0) ∧
      ∀ {α : Type} (names : List α), ∃ items, Cache.find c names = .ok items ∧ (items = [] ∨ items.map Prod.fst = names ∧ CliqueEmbedding M.nodes M.edges (items.map Prod.snd))) ∨
    (mine M files = .error .heuristic ∧ ∃ size ≥ 3, M.heuristic size = none) ∨
    (M.bound = none ∧ M.family = .chimera ∧ (mine M files = .error (.err .key) ∨ mine M files = .error .type)) := by
  rcases mine_ends h with ⟨files', c, e1, e2, e3, hc⟩ | h
  · refine .inl ⟨files', c, e1, e2, e3, fun names => ?_⟩
    cases e4 : dget c.size names.length with
    | none => exact ⟨[], by simp only [Cache.find, e4], .inl rfl⟩
    | some k =>
      obtain ⟨e, e5, hl⟩ := hc.sound.size _ _ e4
      refine ⟨_, find_zip e4 e5, .inr ⟨List.map_fst_zip hl, ?_⟩⟩
      rw [snd_zip]
      exact Bus.clique_sublist (hc.valid e (List.mem_of_getElem? e5)) (List.take_sublist _ _)
  · exact .inr h

/-- C110, the polynomial part: what the search computes for a graph of the three families meets the assumption of `C110_valid`. -/
theorem C110_computed {T : Bus.Topo} {nodes : List Nat} {edges : List (Nat × Nat)} (hG : Lattice.WFGraph T nodes edges) {bound : Nat} (hb : 0 < bound) {D D' : Bus.Draws} (hD : D.Perm) (hD' : D'.Perm) :
    ∃ r, Bus.bestCliques T bound D D' nodes edges = .ok r ∧ Good nodes edges (make r) := by
  obtain ⟨_, r, _, _, h, hv, _⟩ := Bus.bestCliques_ok hG hb hD hD'
  refine ⟨r, h, Good.make fun e he => ?_⟩
  obtain ⟨i, hi⟩ := List.getElem?_of_mem he
  exact (hv i e hi).1

/-- C110, the heuristic part: an embedding of the complete graph in the target graph of the heuristic, whose nodes are numbers, is one in the labels of the graph. -/
theorem C110_heuristic {src tgt : IGraph} {chains : List (List Nat)} (h : Embeds src tgt chains) (hK : ∀ u v, u < src.n → v < src.n → u ≠ v → src.Edge u v) {nodes : List Nat} {edges : List (Nat × Nat)}
    {label : Nat → Nat} (hn : ∀ q < tgt.n, label q ∈ nodes) (hinj : ∀ p < tgt.n, ∀ q < tgt.n, label p = label q → p = q) (he : ∀ p q, tgt.Edge p q → Coupler edges (label p) (label q)) :
    CliqueEmbedding nodes edges (chains.map (·.map label)) := by
  refine ⟨fun c hc => ?_, ?_, ?_⟩
  · obtain ⟨d, hd, rfl⟩ := List.mem_map.mp hc
    refine ⟨fun e => h.nonempty d hd (List.map_eq_nil_iff.mp e), fun q hq => ?_, fun p hp q hq => ?_⟩
    · obtain ⟨a, ha, rfl⟩ := List.mem_map.mp hq
      exact hn a (h.nodes d hd a ha)
    · obtain ⟨a, ha, rfl⟩ := List.mem_map.mp hp
      obtain ⟨b, hb, rfl⟩ := List.mem_map.mp hq
      obtain ⟨u, hu⟩ := List.getElem?_of_mem hd
      have hr := h.connected u d (fun x => x) hu a ha b hb
      have : b ∈ d ∧ Relation.ReflTransGen (fun x y => x ∈ d.map label ∧ y ∈ d.map label ∧ Coupler edges x y) (label a) (label b) := by
        clear hb hq
        induction hr with
        | refl => exact ⟨ha, .refl⟩
        | tail _ h2 ih => exact ⟨h2.1, ih.2.tail ⟨List.mem_map_of_mem ih.1, List.mem_map_of_mem h2.1, he _ _ h2.2⟩⟩
      exact this.2
  · rw [List.pairwise_map, List.pairwise_iff_getElem]
    intro i j hi hj hij q hq hq'
    obtain ⟨a, ha, rfl⟩ := List.mem_map.mp hq
    obtain ⟨b, hb, e⟩ := List.mem_map.mp hq'
    have := hinj b (h.nodes _ (List.getElem_mem hj) b hb) a (h.nodes _ (List.getElem_mem hi) a ha) e
    subst this
    exact h.disjoint i j _ _ (by omega) (List.getElem?_eq_getElem hi) (List.getElem?_eq_getElem hj) b ha hb
  · rw [List.pairwise_map, List.pairwise_iff_getElem]
    intro i j hi hj hij
    have hs := h.size
    obtain ⟨p, hp, q, hq, hpq⟩ := h.edges i j _ _ (fun x => x.1) (hK i j (by omega) (by omega) (by omega)) (by omega) (List.getElem?_eq_getElem hi) (List.getElem?_eq_getElem hj)
    exact ⟨_, List.mem_map_of_mem hp, _, List.mem_map_of_mem hq, he _ _ hpq⟩

/-- C110, a fault: for Chimera graphs mining never returns unless `heuristic_bound` is given. -/
theorem C110_chimera_fails {M : Mining} (hf : M.family = .chimera) (hb : M.bound = none) (files : Files) (r : Files × Cliques) : mine M files ≠ .ok r := by
  have : ∃ x, M.heuristicBound = .error x := by
    simp only [Mining.heuristicBound, hf, hb]
    cases M.cols <;> exact ⟨_, rfl⟩
  obtain ⟨x, hx⟩ := this
  rw [mine_split, hx]
  intro h
  cases e : M.seeds.foldlM M.polynomial (files, blank) with
  | error y => rw [e] at h; cases h
  | ok st => rw [e] at h; cases h

/-- C110, what is on disk: apart from the caches of the seeds drawn nothing on disk matters, not even what an earlier call stored for the graph. -/
theorem C110_disk_ignored (M : Mining) {files files' : Files} (h : ∀ s ∈ M.seeds, dget files (M.ident s) = dget files' (M.ident s)) :
    (mine M files).map Prod.snd = (mine M files').map Prod.snd := by
  rw [mine_split, mine_split]
  rcases foldlM_pair (f := M.polynomial) (g := M.polynomial) (l := M.seeds) (s := (files, blank)) (t := (files', blank))
    (R := fun st st' => st.2 = st'.2 ∧ ∀ s ∈ M.seeds, dget st.1 (M.ident s) = dget st'.1 (M.ident s)) (fun s hs st st' hR => by
      have hfe : (fetch st.1 (M.ident s) (M.computed s)).2 = (fetch st'.1 (M.ident s) (M.computed s)).2 := by
        simp only [fetch, hR.2 s hs]
        split <;> rfl
      rcases polynomial_pair (M := M) (M' := M) hfe hR.1 rfl rfl rfl with h | ⟨c, h1, h2⟩
      · exact .inl h
      · refine .inr ⟨_, _, h1, h2, rfl, fun t ht => ?_⟩
        have := hR.2 t ht
        simp only [fetch, hR.2 s hs]
        split
        · exact this
        · rw [dget_dset, dget_dset, this]) ⟨rfl, h⟩ with ⟨x, e1, e2⟩ | ⟨s, t, e1, e2, e3, _⟩
  · rw [e1, e2]
  · rw [e1, e2]
    simp only [Except.bind, e3]
    generalize (do
      let b ← M.heuristicBound
      let c ← (List.range' 3 (b + 1 - 3).toNat).foldlM M.heuristics t.2
      insertBy none [] c) = F
    cases F <;> rfl

/-- C110, Pegasus: the identifier does not depend on the seed … -/
theorem C110_pegasus_identifier (junk : Nat → List Bus.Byte) (m : Nat) (off : Bool → Nat → Nat) (nodes : List Nat) (edges : List (Nat × Nat)) (seed seed' : BitVec 64) :
    Bus.graphId junk (.pegasus m off) seed nodes edges = Bus.graphId junk (.pegasus m off) seed' nodes edges := rfl

/-- … so that whatever the number of seeds, at most one of them is ever used for a search: the first, and that only if there is nothing on disk. -/
theorem C110_one_search (M : Mining) (h : ∀ s ∈ M.seeds, M.ident s = M.ident 0) (files : Files) (computed : Nat → Cliques)
    (hc : (dget files (M.ident 0)).isSome ∨ ∀ s, M.seeds.head? = some s → computed s = M.computed s) : mine { M with computed := computed } files = mine M files := by
  rw [mine_split, mine_split]
  have key : ∀ (l : List Nat) (st : Files × Cliques), (∀ s ∈ l, M.ident s = M.ident 0) → (dget st.1 (M.ident 0)).isSome →
      l.foldlM ({ M with computed := computed } : Mining).polynomial st = l.foldlM M.polynomial st := by
    intro l
    induction l with
    | nil => intro st _ _; rfl
    | cons s l ih =>
      intro st hl hd
      obtain ⟨c0, h0⟩ := Option.isSome_iff_exists.mp hd
      have hs := hl s List.mem_cons_self
      have f1 : ∀ x, fetch st.1 (M.ident s) x = (st.1, c0) := fun x => by simp only [fetch, hs, h0]
      simp only [List.foldlM_cons, bind, Except.bind]
      rcases polynomial_pair (M := { M with computed := computed }) (M' := M) (st := st) (st' := st) (s := s) (by dsimp only; rw [f1, f1]) rfl rfl rfl rfl with ⟨x, e1, e2⟩ | ⟨c, e1, e2⟩
      · rw [e1, e2]
      · dsimp only at e1
        rw [f1] at e1 e2
        rw [e1, e2]
        exact ih _ (fun t ht => hl t (List.mem_cons_of_mem _ ht)) hd
  have : ∀ l : List Nat, (∀ s ∈ l, M.ident s = M.ident 0) → ((dget files (M.ident 0)).isSome ∨ ∀ s, l.head? = some s → computed s = M.computed s) →
      l.foldlM ({ M with computed := computed } : Mining).polynomial (files, blank) = l.foldlM M.polynomial (files, blank) := by
    intro l h hc
    rcases hc with hc | hc
    · exact key l _ h hc
    · cases l with
      | nil => rfl
      | cons s l =>
        have hs := hc s rfl
        simp only [List.foldlM_cons, bind, Except.bind]
        rcases polynomial_pair (M := { M with computed := computed }) (M' := M) (st := (files, blank)) (st' := (files, blank)) (s := s) (by dsimp only; rw [hs]) rfl rfl rfl rfl with ⟨x, e1, e2⟩ | ⟨c, e1, e2⟩
        · rw [e1, e2]
        · dsimp only at e1
          rw [hs] at e1
          rw [e1, e2]
          refine key l _ (fun t ht => h t (List.mem_cons_of_mem _ ht)) ?_
          simp only [fetch, h s List.mem_cons_self]
          split
          · rename_i c0 h0; rw [h0]; rfl
          · rw [dget_dset, if_pos rfl]; rfl
  dsimp only
  rw [this M.seeds h hc]
  rfl

namespace Cache

theorem Mining.OK.source {M : Mining} {files : Files} (h : M.OK files) {s : Nat} (hs : s ∈ M.seeds) : Good M.nodes M.edges (M.source files s) := by
  simp only [Mining.source]
  cases e : dget files (M.ident s) with
  | some c => exact h.files s hs c e
  | none =>
    dsimp only
    cases e2 : M.seeds.find? (fun t => M.ident t = M.ident s) with
    | none => exact h.computed s hs
    | some t => exact h.computed t (List.mem_of_find?_eq_some e2)

/-- Answers, as `find` gives them. -/
theorem find_answers {α : Type} {c : Cliques} (h : Sound c) {names : List α} {items : List (α × List Nat)} (hf : Cache.find c names = .ok items) (hne : items ≠ []) : Answers c names.length (items.map Prod.snd) := by
  simp only [Cache.find] at hf
  cases e : dget c.size names.length with
  | none => rw [e] at hf; cases hf; exact absurd rfl hne
  | some k =>
    rw [e] at hf
    obtain ⟨e', e1, _⟩ := h.size _ _ e
    simp only [rawAt, e1, bind, Except.bind, pure, Except.pure] at hf
    cases hf
    exact ⟨k, e', e, e1, snd_zip _ _⟩

theorem Answers.find {α : Type} {c : Cliques} (h : Sound c) {names : List α} (h0 : names ≠ []) {e : Emb} (ha : Answers c names.length e) : ∃ items, Cache.find c names = .ok items ∧ items.map Prod.fst = names ∧ items.map Prod.snd = e := by
  obtain ⟨k, e', e1, e2, rfl⟩ := ha
  obtain ⟨e'', e3, hl⟩ := h.size _ _ e1
  rw [e2] at e3; cases e3
  exact ⟨_, find_zip e1 e2, List.map_fst_zip hl, snd_zip _ _⟩

/-- The comparison of a quality function. -/
def betterOf {β : Type} [LinearOrder β] (q : Emb → β) : Better := fun a b => decide (q b < q a)

theorem pickSizeBy_best {β : Type} [LinearOrder β] {q : Emb → β} {c0 c1 : Cliques} (h0 : Sound c0) (h1 : Sound c1) {n : Nat} (hn : n ≠ 0) {k : Nat × Bool} (hk : pickSizeBy (betterOf q) c0 c1 n = .ok k)
    {e e' : Emb} (he : Answers c0 n e ∨ Answers c1 n e) (he' : (if k.2 then c1 else c0).raw[k.1]? = some e') : q e ≤ q (e'.take n) := by
  simp only [pickSizeBy] at hk
  cases e0 : dget c0.size n with
  | none =>
    rcases he with ⟨k', x, hx, _⟩ | ⟨k', x, hx, hx2, rfl⟩
    · rw [e0] at hx; cases hx
    · rw [e0, hx] at hk
      cases hk
      rw [if_pos rfl, hx2] at he'
      cases he'; exact le_rfl
  | some k0 =>
    obtain ⟨r0, hr0, _⟩ := h0.size _ _ e0
    cases e1 : dget c1.size n with
    | none =>
      rcases he with ⟨k', x, hx, hx2, rfl⟩ | ⟨k', x, hx, _⟩
      · rw [e0, e1] at hk
        rw [e0] at hx; cases hx
        cases hk
        rw [if_neg (by simp), hx2] at he'
        cases he'; exact le_rfl
      · rw [e1] at hx; cases hx
    | some k1 =>
      obtain ⟨r1, hr1, _⟩ := h1.size _ _ e1
      rw [e0, e1] at hk
      simp only [if_neg hn, rawAt_some hr0, rawAt_some hr1, bind, Except.bind] at hk
      have hb : e = r0.take n ∨ e = r1.take n := by
        rcases he with ⟨k', x, hx, hx2, rfl⟩ | ⟨k', x, hx, hx2, rfl⟩
        · rw [e0] at hx; cases hx; rw [hr0] at hx2; cases hx2; exact .inl rfl
        · rw [e1] at hx; cases hx; rw [hr1] at hx2; cases hx2; exact .inr rfl
      by_cases hlt : q (r1.take n) < q (r0.take n)
      · rw [if_pos (show betterOf q (r0.take n) (r1.take n) = true from decide_eq_true hlt)] at hk
        cases hk
        rw [if_neg (by simp), hr0] at he'
        cases he'
        rcases hb with rfl | rfl
        · exact le_rfl
        · exact le_of_lt hlt
      · rw [if_neg (show ¬ betterOf q (r0.take n) (r1.take n) = true from fun h => hlt (of_decide_eq_true h))] at hk
        cases hk
        rw [if_pos rfl, hr1] at he'
        cases he'
        rcases hb with rfl | rfl
        · exact not_lt.mp hlt
        · exact le_rfl

/-- What a quality function ranks highest is kept. -/
theorem keeping_quality {β : Type} [LinearOrder β] {q : Emb → β} {M : Mining} (hq : M.quality = some (betterOf q)) {n : Nat} (hn : n ≠ 0) (e : Emb) :
    Keeping M Sound (fun c => ∃ e', Answers c n e' ∧ q e ≤ q e') := by
  have hh : M.heuristicQuality = betterOf q := by simp only [Mining.heuristicQuality, hq]
  have hp : ∀ {quality : Option Better} {c0 c1 c : Cliques}, Sound c0 → Sound c1 → mergeBy quality c0 c1 = .ok c → Sound c := by
    intro quality c0 c1 c h0 h1 h
    obtain ⟨c', a1, a2, _⟩ := mergeBy_ok quality h0 h1
    rw [a1] at h; cases h; exact a2
  refine ⟨fun quality hqu c0 c1 c h0 h1 h => ⟨hp h0 h1 h, fun hH => ?_⟩, fun c c' h0 hH h => ?_, sound_blank, fun emb => (insertCache_offers emb).1⟩
  · have hqu' : quality = some (betterOf q) := by
      rcases hqu with rfl | rfl
      · exact hq
      · rw [hh]
    obtain ⟨c', a1, a2, a3, a4, _⟩ := mergeBy_ok quality h0 h1
    rw [a1] at h; cases h
    have : ∃ e', (Answers c0 n e' ∨ Answers c1 n e') ∧ q e ≤ q e' := by
      rcases hH with ⟨e', x, y⟩ | ⟨e', x, y⟩
      · exact ⟨e', .inl x, y⟩
      · exact ⟨e', .inr x, y⟩
    obtain ⟨e', hA, hle⟩ := this
    have hs : (dget c.size n).isSome := by
      rw [a3]
      rcases hA with ⟨k, _, hk, _⟩ | ⟨k, _, hk, _⟩
      · left; rw [hk]; rfl
      · right; rw [hk]; rfl
    obtain ⟨v, hv⟩ := Option.isSome_iff_exists.mp hs
    obtain ⟨k, b1, b2, b3⟩ := a4 n v hv
    obtain ⟨x, hx, _⟩ := a2.size n v hv
    rw [hx] at b2
    exact ⟨x.take n, ⟨v, x, hv, hx, rfl⟩, le_trans hle (pickSizeBy_best h0 h1 hn (b3 _ hqu') hA b2.symm)⟩
  · obtain ⟨e', ⟨k, x, x1, x2, rfl⟩, hle⟩ := hH
    obtain ⟨c'', a1, a2, a3, a4, _⟩ := mergeBy_ok none (insertCache_offers []).1 h0
    have h' := lift_ok.mp h
    rw [a1] at h'; cases h'
    obtain ⟨v, hv⟩ := Option.isSome_iff_exists.mp ((a3 n).mpr (.inr (by rw [x1]; rfl)))
    obtain ⟨⟨k', b⟩, b1, b2, _⟩ := a4 n v hv
    cases b with
    | false => rw [if_neg (by simp), insertCache_nil_size hn] at b1; cases b1
    | true =>
      rw [if_pos rfl] at b1 b2
      rw [x1] at b1; cases b1
      exact ⟨_, ⟨v, x, hv, by rw [b2, x2], rfl⟩, hle⟩

theorem maxLen_le {e : Emb} {L : Nat} : maxLen e ≤ L ↔ ∀ c ∈ e, c.length ≤ L := by
  have key : ∀ (e : Emb) (m : Nat), e.foldl (fun m c => max m c.length) m ≤ L ↔ m ≤ L ∧ ∀ c ∈ e, c.length ≤ L := by
    intro e
    induction e with
    | nil => intro m; simp
    | cons c e ih =>
      intro m
      rw [List.foldl_cons, ih]
      simp only [List.mem_cons, forall_eq_or_imp]
      constructor
      · rintro ⟨a, b⟩; exact ⟨by omega, by omega, b⟩
      · rintro ⟨a, b, c⟩; exact ⟨by omega, c⟩
  rw [maxLen, key]
  simp

theorem offers_iff {c : Cliques} (h : Sound c) {n L : Nat} : Offers c n L ↔ ∃ e, Answers c n e ∧ maxLen e ≤ L := by
  constructor
  · rintro ⟨k, e, h1, h2, _, h4⟩
    exact ⟨_, ⟨k, e, h1, h2, rfl⟩, maxLen_le.mpr h4⟩
  · rintro ⟨_, ⟨k, e, h1, h2, rfl⟩, h4⟩
    obtain ⟨e', h5, h6⟩ := h.size _ _ h1
    rw [h2] at h5; cases h5
    exact ⟨k, e, h1, h2, h6, maxLen_le.mp h4⟩

theorem defaultBetter_true {a b : Emb} (h : defaultBetter a b = true) : maxLen a ≤ maxLen b := by
  simp only [defaultBetter, Bool.or_eq_true, Bool.and_eq_true, decide_eq_true_eq] at h
  omega

theorem defaultBetter_false {a b : Emb} (h : ¬ defaultBetter a b = true) : maxLen b ≤ maxLen a := by
  simp only [defaultBetter, Bool.or_eq_true, Bool.and_eq_true, decide_eq_true_eq, not_or] at h
  omega

/-- Without a quality function, sizes offered with short chains stay so. -/
theorem keeping_default {M : Mining} (hq : M.quality = none) (n L : Nat) : Keeping M (fun c => Sound c ∧ SortedChains c) (fun c => Offers c n L) := by
  have hh : M.heuristicQuality = defaultBetter := by simp only [Mining.heuristicQuality, hq]
  have hnone : ∀ c0 c1 c, Sound c0 ∧ SortedChains c0 → Sound c1 ∧ SortedChains c1 → merge c0 c1 = .ok c → (Sound c ∧ SortedChains c) ∧ (Offers c0 n L ∨ Offers c1 n L → Offers c n L) := by
    intro c0 c1 c h0 h1 h
    obtain ⟨c', b1, b2, b3, b4, _⟩ := C37_merge_partial h0.1 h1.1 h0.2 h1.2
    rw [b1] at h; cases h
    exact ⟨⟨b2, b3⟩, b4 n L⟩
  have hins : ∀ emb, Sound (insertCache emb) ∧ SortedChains (insertCache emb) := fun emb => ⟨(insertCache_offers emb).1, (insertCache_offers emb).2.1⟩
  refine ⟨fun quality hqu c0 c1 c h0 h1 h => ?_, fun c c' h0 hH h => (hnone _ _ _ (hins []) h0 (lift_ok.mp h)).2 (.inr hH), ⟨sound_blank, by
    have : blank = insertCache [] := by decide
    rw [this]; exact (hins []).2⟩, hins⟩
  rw [hq] at hqu
  rcases hqu with rfl | rfl
  · exact hnone _ _ _ h0 h1 h
  · obtain ⟨c', a1, a2, a3, a4, a5⟩ := mergeBy_ok (some M.heuristicQuality) h0.1 h1.1
    rw [a1] at h; cases h
    refine ⟨⟨a2, fun e he => ?_⟩, fun hH => ?_⟩
    · rcases a5 e he with h | h
      · exact h0.2 e h
      · exact h1.2 e h
    · have hs : (dget c.size n).isSome := by
        rw [a3]
        rcases hH with ⟨k, _, hk, _⟩ | ⟨k, _, hk, _⟩
        · left; rw [hk]; rfl
        · right; rw [hk]; rfl
      obtain ⟨v, hv⟩ := Option.isSome_iff_exists.mp hs
      obtain ⟨k, b1, b2, b3⟩ := a4 n v hv
      obtain ⟨x, hx, hxl⟩ := a2.size n v hv
      rw [hx] at b2
      have hk := b3 _ rfl
      rw [hh] at hk
      refine ⟨v, x, hv, hx, hxl, maxLen_le.mp ?_⟩
      rw [offers_iff h0.1, offers_iff h1.1] at hH
      simp only [pickSizeBy] at hk
      by_cases hn : n = 0
      · subst hn; simp [maxLen]
      cases e0 : dget c0.size n with
      | none =>
        rcases hH with ⟨_, ⟨k', y, hy, _⟩, _⟩ | ⟨_, ⟨k', y, hy, hy2, rfl⟩, hle⟩
        · rw [e0] at hy; cases hy
        · rw [e0, hy] at hk; cases hk
          rw [if_pos rfl, hy2] at b2; cases b2
          exact hle
      | some k0 =>
        obtain ⟨r0, hr0, _⟩ := h0.1.size _ _ e0
        cases e1 : dget c1.size n with
        | none =>
          rcases hH with ⟨_, ⟨k', y, hy, hy2, rfl⟩, hle⟩ | ⟨_, ⟨k', y, hy, _⟩, _⟩
          · rw [e0, e1] at hk
            rw [e0] at hy; cases hy
            cases hk
            rw [if_neg (by simp), hy2] at b2; cases b2
            exact hle
          · rw [e1] at hy; cases hy
        | some k1 =>
          obtain ⟨r1, hr1, _⟩ := h1.1.size _ _ e1
          rw [e0, e1] at hk
          simp only [if_neg hn, rawAt_some hr0, rawAt_some hr1, bind, Except.bind] at hk
          have hb : maxLen (r0.take n) ≤ L ∨ maxLen (r1.take n) ≤ L := by
            rcases hH with ⟨_, ⟨k', y, hy, hy2, rfl⟩, hle⟩ | ⟨_, ⟨k', y, hy, hy2, rfl⟩, hle⟩
            · rw [e0] at hy; cases hy; rw [hr0] at hy2; cases hy2; exact .inl hle
            · rw [e1] at hy; cases hy; rw [hr1] at hy2; cases hy2; exact .inr hle
          split at hk
          · rename_i hlt
            cases hk
            rw [if_neg (by simp), hr0] at b2; cases b2
            rcases hb with hb | hb
            · exact hb
            · exact le_trans (defaultBetter_true hlt) hb
          · rename_i hlt
            cases hk
            rw [if_pos rfl, hr1] at b2; cases b2
            rcases hb with hb | hb
            · exact le_trans (defaultBetter_false hlt) hb
            · exact hb

end Cache

/-- C110, with a quality function: for each number of nodes, the answer of the result is of at least the quality of the answer of the cache used for each of the seeds, and of each embedding that the heuristic found for that
number (its chains listed by length). -/
theorem C110_quality {β : Type} [LinearOrder β] {q : Emb → β} {M : Mining} (hq : M.quality = some (betterOf q)) {files files' : Files} {c : Cliques} (hok : M.OK files) (h : mine M files = .ok (files', c))
    {α : Type} {names : List α} (h0 : names ≠ []) :
    (∀ s ∈ M.seeds, ∀ items, Cache.find (M.source files s) names = .ok items → items ≠ [] →
      ∃ items', Cache.find c names = .ok items' ∧ items'.map Prod.fst = names ∧ q (items.map Prod.snd) ≤ q (items'.map Prod.snd)) ∧
    ∀ b, M.heuristicBound = .ok b → 3 ≤ names.length → (names.length : Int) ≤ b → ∀ embs, M.heuristic names.length = some embs → ∀ emb ∈ embs, emb.length = names.length →
      ∃ items', Cache.find c names = .ok items' ∧ items'.map Prod.fst = names ∧ q (sortLen emb) ≤ q (items'.map Prod.snd) := by
  have hn : names.length ≠ 0 := fun h => h0 (List.length_eq_zero_iff.mp h)
  have hc := (mine_good hok h).sound
  have hP : ∀ s ∈ M.seeds, Sound (M.source files s) := fun s hs => (hok.source hs).sound
  constructor
  · intro s hs items hf hne
    obtain ⟨e', ha, hle⟩ := ((keeping_quality hq hn (items.map Prod.snd)).mine hP h).1 s hs ⟨_, find_answers (hP s hs) hf hne, le_rfl⟩
    obtain ⟨items', i1, i2, i3⟩ := ha.find hc h0
    exact ⟨items', i1, i2, by rw [i3]; exact hle⟩
  · intro b hb h3 hle embs he emb hemb hlen
    obtain ⟨e', ha, hle⟩ := ((keeping_quality hq hn (sortLen emb)).mine hP h).2 b hb _ h3 hle embs he emb hemb (by rintro rfl; exact hn hlen.symm)
      ⟨_, by rw [← hlen]; exact insertCache_answers emb, le_rfl⟩
    obtain ⟨items', i1, i2, i3⟩ := ha.find hc h0
    exact ⟨items', i1, i2, by rw [i3]; exact hle⟩

/-- C110, without a quality function: if all caches used list their chains by length, then what they offer with chains of at most some length the result offers too, and so for the embeddings that the heuristic found.
Missing: caches that were computed need not list their chains by length, see C37. -/
theorem C110_default_partial {M : Mining} (hq : M.quality = none) {files files' : Files} {c : Cliques} (hok : M.OK files) (hs : ∀ s ∈ M.seeds, SortedChains (M.source files s)) (h : mine M files = .ok (files', c))
    {α : Type} {names : List α} (h0 : names ≠ []) (L : Nat) :
    (∀ s ∈ M.seeds, ∀ items, Cache.find (M.source files s) names = .ok items → items ≠ [] → (∀ ch ∈ items.map Prod.snd, ch.length ≤ L) →
      ∃ items', Cache.find c names = .ok items' ∧ items'.map Prod.fst = names ∧ ∀ ch ∈ items'.map Prod.snd, ch.length ≤ L) ∧
    ∀ b, M.heuristicBound = .ok b → 3 ≤ names.length → (names.length : Int) ≤ b → ∀ embs, M.heuristic names.length = some embs → ∀ emb ∈ embs, emb.length = names.length → (∀ ch ∈ emb, ch.length ≤ L) →
      ∃ items', Cache.find c names = .ok items' ∧ items'.map Prod.fst = names ∧ ∀ ch ∈ items'.map Prod.snd, ch.length ≤ L := by
  have hn : names.length ≠ 0 := fun h => h0 (List.length_eq_zero_iff.mp h)
  have hc := (mine_good hok h).sound
  have hP : ∀ s ∈ M.seeds, Sound (M.source files s) ∧ SortedChains (M.source files s) := fun s hm => ⟨(hok.source hm).sound, hs s hm⟩
  have back : Offers c names.length L → ∃ items', Cache.find c names = .ok items' ∧ items'.map Prod.fst = names ∧ ∀ ch ∈ items'.map Prod.snd, ch.length ≤ L := by
    intro ho
    obtain ⟨e, he, hle⟩ := (offers_iff hc).mp ho
    obtain ⟨items', i1, i2, i3⟩ := he.find hc h0
    exact ⟨items', i1, i2, by rw [i3]; exact maxLen_le.mp hle⟩
  constructor
  · intro s hm items hf hne hL
    exact back (((keeping_default hq names.length L).mine hP h).1 s hm ((offers_iff (hP s hm).1).mpr ⟨_, find_answers (hP s hm).1 hf hne, maxLen_le.mpr hL⟩))
  · intro b hb h3 hle embs he emb hemb hlen hL
    refine back (((keeping_default hq names.length L).mine hP h).2 b hb _ h3 hle embs he emb hemb (by rintro rfl; exact hn hlen.symm) ?_)
    refine (offers_iff (insertCache_offers emb).1).mpr ⟨sortLen emb, by rw [← hlen]; exact insertCache_answers emb, maxLen_le.mpr fun ch hch => hL ch ?_⟩
    exact (sortLen_perm emb).mem_iff.mp hch

namespace Cache

theorem maxLen_eq {e : Emb} {L : Nat} (h : Longest e L) : maxLen e = L := by
  obtain ⟨h3, ch, h1, h2⟩ := h
  refine le_antisymm (maxLen_le.mpr h3) ?_
  rw [← h2]
  exact maxLen_le.mp le_rfl ch h1

theorem longest_exists {e : Emb} (h : e ≠ []) : Longest e (maxLen e) := by
  refine ⟨maxLen_le.mp le_rfl, by_contra fun hn => ?_⟩
  have hle := maxLen_le.mp (le_refl (maxLen e))
  obtain ⟨ch, hch⟩ := List.exists_mem_of_ne_nil e h
  have hlt : ∀ c ∈ e, c.length < maxLen e := fun c hc => lt_of_le_of_ne (hle c hc) fun he => hn ⟨c, hc, he⟩
  have h1 := hlt ch hch
  have : maxLen e ≤ maxLen e - 1 := maxLen_le.mpr fun c hc => by have := hlt c hc; omega
  omega

/-- The default quality as a value of a linear order. -/
def defaultQuality (e : Emb) : Lex (Int × Nat) := toLex (-(maxLen e : Int), e.countP fun c => c.length = maxLen e)

theorem defaultBetter_eq : defaultBetter = betterOf defaultQuality := by
  funext a b
  rw [Bool.eq_iff_iff, betterOf, decide_eq_true_iff, defaultQuality, defaultQuality, Prod.Lex.toLex_lt_toLex, List.countP_eq_length_filter, List.countP_eq_length_filter]
  simp only [defaultBetter, Bool.or_eq_true, Bool.and_eq_true, decide_eq_true_eq]
  constructor
  · rintro (h | ⟨h, h'⟩)
    · exact .inl (by omega)
    · exact .inr ⟨by omega, h'⟩
  · rintro (h | ⟨h, h'⟩)
    · exact .inl (by omega)
    · exact .inr ⟨by omega, h'⟩

/-- What the default quality says of two embeddings. -/
theorem defaultQuality_le {a b : Emb} {L : Nat} (hb : b ≠ []) (ha : Longest a L) (h : defaultQuality a ≤ defaultQuality b) :
    ∃ L', Longest b L' ∧ (L' < L ∨ L' = L ∧ a.countP (fun c => c.length = L) ≤ b.countP (fun c => c.length = L)) := by
  refine ⟨_, longest_exists hb, ?_⟩
  rw [defaultQuality, defaultQuality, Prod.Lex.toLex_le_toLex] at h
  dsimp only at h
  rw [maxLen_eq ha] at h
  rcases h with h | ⟨h, h'⟩
  · exact .inl (by omega)
  · have e : maxLen b = L := by omega
    rw [e] at h'
    exact .inr ⟨e, h'⟩

end Cache

/-- C110, the default for embeddings of the heuristic: of those found for a number of nodes, none has a shorter longest chain than the answer of the result, nor as short a one and more chains of that length. -/
theorem C110_default_heuristic {M : Mining} (hq : M.quality = none) {files files' : Files} {c : Cliques} (hok : M.OK files) (h : mine M files = .ok (files', c)) {α : Type} {names : List α} {b : Int}
    (hb : M.heuristicBound = .ok b) (h3 : 3 ≤ names.length) (hle : (names.length : Int) ≤ b) {embs : List Emb} (he : M.heuristic names.length = some embs) {emb : Emb} (hm : emb ∈ embs) (hlen : emb.length = names.length) {L : Nat}
    (hL : Longest emb L) : ∃ items, Cache.find c names = .ok items ∧ items.map Prod.fst = names ∧
      ∃ L', Longest (items.map Prod.snd) L' ∧ (L' < L ∨ L' = L ∧ emb.countP (fun ch => ch.length = L) ≤ (items.map Prod.snd).countP (fun ch => ch.length = L)) := by
  have hn : names.length ≠ 0 := by omega
  have h0 : names ≠ [] := fun h => hn (by rw [h]; rfl)
  have hc := (mine_good hok h).sound
  have hP : ∀ s ∈ M.seeds, Sound (M.source files s) := fun s hs => (hok.source hs).sound
  have kt : Keeping M Sound fun _ => True := by
    refine ⟨fun quality _ c0 c1 c' h0 h1 h => ⟨?_, fun _ => trivial⟩, fun _ _ _ _ _ => trivial, sound_blank, fun emb => (insertCache_offers emb).1⟩
    obtain ⟨c'', a1, a2, _⟩ := mergeBy_ok quality h0 h1
    rw [a1] at h; cases h; exact a2
  have k := keeping_quality (M := { M with quality := some (betterOf defaultQuality) }) rfl hn (sortLen emb)
  have hsame : ({ M with quality := some (betterOf defaultQuality) } : Mining).heuristics = M.heuristics := by
    have ht : ({ M with quality := some (betterOf defaultQuality) } : Mining).take = M.take := by
      funext c e
      simp only [Mining.take, Mining.heuristicQuality, hq, defaultBetter_eq]
      rfl
    funext c n
    simp only [Mining.heuristics, ht]
  simp only [mine, bind, Except.bind] at h
  split at h
  · cases h
  rename_i st hst
  obtain ⟨files1, c1⟩ := st
  obtain ⟨_, a2, _⟩ := kt.seeds hP M.seeds [] (files, Cache.blank) (files1, c1) rfl (fun id => by simp only [List.find?_nil, Option.map_none]; split <;> rename_i e <;> rw [e]) kt.blank hst
  rw [hb] at h
  dsimp only at h
  split at h
  · cases h
  rename_i c2 h2
  split at h
  · cases h
  rename_i c3 h3'
  cases h
  rw [← hsame] at h2
  have hs2 := foldlM_inv (I := Sound) (fun n _ c1 c2 hc h => (k.heuristics hc h).1) h2 a2
  have hH := foldlM_reach (f := ({ M with quality := some (betterOf defaultQuality) } : Mining).heuristics) (l := List.range' 3 (b + 1 - 3).toNat) (I := Sound) (J := fun c => ∃ e', Answers c names.length e' ∧ defaultQuality (sortLen emb) ≤ defaultQuality e') (a := names.length)
    (List.mem_range'_1.mpr ⟨h3, by omega⟩) (fun n _ c1 c2 hc h => (k.heuristics hc h).1)
    (fun c1 c2 hc h => (k.heuristics hc h).2.2 embs he emb hm (by rintro rfl; exact hn hlen.symm) ⟨_, by rw [← hlen]; exact insertCache_answers emb, le_rfl⟩)
    (fun n _ c1 c2 hc hj h => (k.heuristics hc h).2.1 hj) h2 a2
  obtain ⟨e', ha, hle'⟩ := k.last _ _ hs2 hH h3'
  obtain ⟨items, i1, i2, i3⟩ := ha.find hc h0
  refine ⟨items, i1, i2, ?_⟩
  have hne : items.map Prod.snd ≠ [] := by
    intro e0
    have := congrArg List.length i2
    rw [List.map_eq_nil_iff.mp e0] at this
    exact hn this.symm
  rw [← i3] at hle'
  have hL' : Longest (sortLen emb) L := by
    obtain ⟨g3, ch, g1, g2⟩ := hL
    exact ⟨fun ch hch => g3 ch ((sortLen_perm emb).mem_iff.mp hch), ch, (sortLen_perm emb).mem_iff.mpr g1, g2⟩
  have := defaultQuality_le hne hL' hle'
  rwa [(sortLen_perm emb).countP_eq] at this

theorem foldlM_same {α β ε : Type} {f g : β → α → Except ε β} {l : List α} (h : ∀ a ∈ l, ∀ b, f b a = g b a) (b : β) : l.foldlM f b = l.foldlM g b := by
  induction l generalizing b with
  | nil => rfl
  | cons a l ih =>
    rw [List.foldlM_cons, List.foldlM_cons, h a List.mem_cons_self]
    cases g b a with
    | error e => rfl
    | ok b' => exact ih (fun a ha => h a (List.mem_cons_of_mem _ ha)) b'

/-- C110, which sizes the heuristic is run for: from 3 to the bound given, or else to the default for the family, and what it would find for others does not matter. -/
theorem C110_sizes (M : Mining) (files : Files) {b : Int} (hb : M.bound = some b ∨ M.bound = none ∧
      (M.family = .pegasus ∧ b = min 36 (12 * ((M.rows : Int) - 1)) ∨ M.family = .zephyr ∧ b = min (8 * (M.tile : Int)) (2 * (M.tile : Int) * ((M.rows : Int) - 1)))) :
    M.heuristicBound = .ok b ∧
    (∀ H : Nat → Option (List Emb), (∀ size : Nat, 3 ≤ size → (size : Int) ≤ b → H size = M.heuristic size) → mine { M with heuristic := H } files = mine M files) ∧
    ∀ r, mine M files = .ok r → ∀ size : Nat, 3 ≤ size → (size : Int) ≤ b → M.heuristic size ≠ none := by
  have h : M.heuristicBound = .ok b := by
    simp only [Mining.heuristicBound]
    rcases hb with hb | ⟨hb, ⟨hf, rfl⟩ | ⟨hf, rfl⟩⟩
    · simp only [hb]
    · simp only [hb, hf]
    · simp only [hb, hf]
  refine ⟨h, fun H hH => ?_, fun r hr size h3 hle hn => ?_⟩
  · rw [mine_split, mine_split]
    have e1 : ({ M with heuristic := H } : Mining).polynomial = M.polynomial := rfl
    have e2 : ({ M with heuristic := H } : Mining).heuristicBound = M.heuristicBound := rfl
    rw [e1, e2, h]
    have e3 : ∀ c, (List.range' 3 (b + 1 - 3).toNat).foldlM ({ M with heuristic := H } : Mining).heuristics c = (List.range' 3 (b + 1 - 3).toNat).foldlM M.heuristics c := by
      intro c
      refine foldlM_same (fun size hs c => ?_) c
      rw [List.mem_range'_1] at hs
      simp only [Mining.heuristics, hH size hs.1 (by omega)]
      rfl
    simp only [bind, Except.bind, e3]
  · simp only [mine, bind, Except.bind] at hr
    split at hr
    · cases hr
    rw [h] at hr
    dsimp only at hr
    split at hr
    · cases hr
    rename_i c2 h2
    exact foldlM_reach (f := M.heuristics) (l := List.range' 3 (b + 1 - 3).toNat) (I := fun _ => True) (J := fun _ => False) (a := size) (List.mem_range'_1.mpr ⟨h3, by omega⟩) (fun _ _ _ _ _ _ => trivial)
      (fun c1 c2 _ h => by simp only [Mining.heuristics, hn] at h; cases h) (fun _ _ _ _ _ hj _ => hj) h2 trivial

/-- C110, Chimera and Zephyr: the identifier tells seeds apart, … -/
theorem C110_identifiers {T : Bus.Topo} {nodes : List Nat} {edges : List (Nat × Nat)} (hG : Lattice.WFGraph T nodes edges) (hT : Machine T) (hf : T.family ≠ .pegasus) {junk : Nat → List Bus.Byte}
    (hj : ∀ n, (junk n).length = n) {seed seed' : BitVec 64} (hs : seed ≠ seed') {id id' : List Bus.Byte} (h : Bus.graphId junk T seed nodes edges = .ok id) (h' : Bus.graphId junk T seed' nodes edges = .ok id') : id ≠ id' := by
  obtain ⟨M, e, _⟩ := Bus.buildMasks_ok hG
  simp only [Bus.graphId, e, bind, Except.bind, Bus.identifier_ok hj, Except.ok.injEq] at h h'
  rintro rfl
  exact hs ((C53_injective hG hG hT hT rfl e e (by rw [h, h'])).2.2 hf)

/-- … so that, unless the seed of the graph itself is drawn, what is on disk for the graph is not read, but only replaced. -/
theorem C110_overwrites (M : Mining) (h : ∀ s ∈ M.seeds, M.ident s ≠ M.ident 0) (files : Files) (old : Cliques) : (mine M (dset files (M.ident 0) old)).map Prod.snd = (mine M files).map Prod.snd :=
  C110_disk_ignored M fun s hs => by rw [dget_dset, if_neg (Ne.symm (h s hs))]

namespace Demo

/-- A triangle of a Zephyr graph; no seeds, and a heuristic that finds `found` for three nodes. -/
def mining (quality : Option Better) (seeds : List Nat) (found : List Emb) : Mining where
  nodes := [0, 1, 8]
  edges := [(0, 1), (0, 8), (1, 8)]
  family := .zephyr
  rows := 1
  tile := 1
  cols := none
  quality := quality
  regular := true
  bound := some 3
  seeds := seeds
  ident := fun s => [BitVec.ofNat 8 s]
  computed := fun _ => make [[], [[0], [8]]]
  heuristic := fun _ => some found
  matcher := allChoices

theorem mining_ok (quality : Option Better) (seeds : List Nat) {found : List Emb} (hf : ∀ e ∈ found, e = [] ∨ CliqueEmbedding [0, 1, 8] [(0, 1), (0, 8), (1, 8)] e) {files : Files}
    (h : ∀ s ∈ seeds, ∀ c, dget files [BitVec.ofNat 8 s] = some c → Good [0, 1, 8] [(0, 1), (0, 8), (1, 8)] c) : (mining quality seeds found).OK files where
  matcher := allChoices_ok
  computed := fun _ _ => Good.make fun e he => by
    rcases List.mem_cons.mp he with rfl | he
    · exact ⟨by simp, .nil, .nil⟩
    · rw [List.mem_singleton.mp he]
      exact (clique_of_paths (by decide) (by decide) (by decide) : CliqueEmbedding [0, 1, 8] [(0, 1), (0, 8), (1, 8)] [[0], [8]])
  files := h
  heuristic := fun _ embs he emb hm => hf emb (by cases he; exact hm)

theorem triangle_clique : CliqueEmbedding [0, 1, 8] [(0, 1), (0, 8), (1, 8)] [[0], [1], [8]] := clique_of_paths (by decide) (by decide) (by decide)

end Demo

/-- C110, a fault: a second call may make the stored cache worse, contrary to the documentation ("repeated calls to this function can only improve the quality of the cache"). Here the heuristic finds nothing in the second call,
and the triangle that the first call stored is lost. -/
theorem C110_worse : ∃ (M M' : Mining) (files files' : Files) (c c' : Cliques), M.nodes = M'.nodes ∧ M.edges = M'.edges ∧ M.ident = M'.ident ∧ M.OK [] ∧ M'.OK files ∧
    mine M [] = .ok (files, c) ∧ mine M' files = .ok (files', c') ∧ dget files (M.ident 0) = some c ∧ dget files' (M.ident 0) = some c' ∧
    Cache.find c [0, 1, 2] = .ok [(0, [0]), (1, [1]), (2, [8])] ∧ Cache.find c' [0, 1, 2] = .ok [] := by
  have e1 : ∃ r, mine (Demo.mining none [] [[[0], [1], [8]]]) [] = .ok r ∧ Cache.find r.2 [0, 1, 2] = .ok [(0, [0]), (1, [1]), (2, [8])] ∧
      ∃ r', mine (Demo.mining none [] [[]]) r.1 = .ok r' ∧ Cache.find r'.2 [0, 1, 2] = .ok [] ∧ dget r.1 [0] = some r.2 ∧ dget r'.1 [0] = some r'.2 :=
    ⟨_, rfl, by decide +kernel, _, rfl, by decide +kernel, by decide +kernel, by decide +kernel⟩
  obtain ⟨r, h1, h2, r', h3, h4, h5, h6⟩ := e1
  exact ⟨Demo.mining none [] [[[0], [1], [8]]], Demo.mining none [] [[]], r.1, r'.1, r.2, r'.2, rfl, rfl, rfl,
    Demo.mining_ok none [] (fun e he => .inr (by rw [List.mem_singleton.mp he]; exact Demo.triangle_clique)) (fun s hs => by cases hs),
    Demo.mining_ok none [] (fun e he => .inl (List.mem_singleton.mp he)) (fun s hs => by cases hs), h1, h3, h5, h6, h2, h4⟩

/-- The hypotheses of `C110_valid`, `C110_quality` and `C110_overwrites` are met, with a seed, and the result has an embedding of three nodes. -/
example : (Demo.mining (some (betterOf List.length)) [7] [[[0], [1], [8]]]).OK [] ∧
    ∃ r, mine (Demo.mining (some (betterOf List.length)) [7] [[[0], [1], [8]]]) [] = .ok r ∧ Cache.find r.2 [0, 1, 2] = .ok [(0, [0]), (1, [1]), (2, [8])] :=
  ⟨Demo.mining_ok _ _ (fun e he => .inr (by rw [List.mem_singleton.mp he]; exact Demo.triangle_clique)) (fun s _ c hc => by cases hc), _, rfl, by decide +kernel⟩

/-- The hypotheses of `C110_default_partial` are met. -/
example : (Demo.mining none [7] [[[0], [1], [8]]]).OK [] ∧ (∀ s ∈ (Demo.mining none [7] [[[0], [1], [8]]]).seeds, SortedChains ((Demo.mining none [7] [[[0], [1], [8]]]).source [] s)) ∧
    ∃ r, mine (Demo.mining none [7] [[[0], [1], [8]]]) [] = .ok r ∧ Cache.find r.2 [0, 1, 2] = .ok [(0, [0]), (1, [1]), (2, [8])] :=
  ⟨Demo.mining_ok _ _ (fun e he => .inr (by rw [List.mem_singleton.mp he]; exact Demo.triangle_clique)) (fun s _ c hc => by cases hc), by
    intro s hs
    rw [List.mem_singleton.mp hs]
    have : ∀ e ∈ ((Demo.mining none [7] [[[0], [1], [8]]]).source [] 7).raw, e.Pairwise fun a b => a.length ≤ b.length := by decide +kernel
    exact this, _, rfl, by decide +kernel⟩

/-- The hypotheses of `C110_default_heuristic` and `C110_sizes` are met: the heuristic finds two triangles, and the one with single qubits is kept. -/
example : (Demo.mining none [7] [[[0], [1], [8]]]).OK [] ∧ (Demo.mining none [7] [[[0], [1], [8]]]).heuristicBound = .ok 3 ∧ Longest [[0], [1], [8]] 1 ∧
    (Demo.mining none [7] [[[0], [1], [8]]]).heuristic 3 = some [[[0], [1], [8]]] ∧
    ((Demo.mining none [7] [[[0], [1], [8]]]).bound = some 3 ∧ ({ Demo.mining none [7] [[[0], [1], [8]]] with bound := none, rows := 2, tile := 4 } : Mining).heuristicBound = .ok 8) :=
  ⟨Demo.mining_ok _ _ (fun e he => .inr (by rw [List.mem_singleton.mp he]; exact Demo.triangle_clique)) (fun s _ c hc => by cases hc), rfl, ⟨by decide, [0], by simp, rfl⟩, rfl, rfl, rfl⟩

/-- The complete graph on three nodes and its embedding in numbers meet the hypotheses of `C110_heuristic`. -/
example : ∃ src tgt : IGraph, src.n = 3 ∧ Embeds src tgt [[0], [1], [2]] ∧ ∀ u v, u < src.n → v < src.n → u ≠ v → src.Edge u v := by
  refine ⟨⟨3, [(0, 1), (0, 2), (1, 2)]⟩, ⟨3, [(0, 1), (0, 2), (1, 2)]⟩, rfl, ⟨rfl, by decide, by decide, by decide, fun u c _ hc a ha b hb => ?_, ?_, ?_⟩, ?_⟩
  · match u, hc with
    | 0, hc => cases hc; simp only [List.mem_singleton] at ha hb; subst ha hb; exact .refl
    | 1, hc => cases hc; simp only [List.mem_singleton] at ha hb; subst ha hb; exact .refl
    | 2, hc => cases hc; simp only [List.mem_singleton] at ha hb; subst ha hb; exact .refl
  · intro u v c d huv hc hd q hq hq'
    match u, v, hc, hd with
    | 0, 0, _, _ => exact huv rfl
    | 1, 1, _, _ => exact huv rfl
    | 2, 2, _, _ => exact huv rfl
    | 0, 1, hc, hd => cases hc; cases hd; simp at hq hq'; omega
    | 0, 2, hc, hd => cases hc; cases hd; simp at hq hq'; omega
    | 1, 0, hc, hd => cases hc; cases hd; simp at hq hq'; omega
    | 1, 2, hc, hd => cases hc; cases hd; simp at hq hq'; omega
    | 2, 0, hc, hd => cases hc; cases hd; simp at hq hq'; omega
    | 2, 1, hc, hd => cases hc; cases hd; simp at hq hq'; omega
  · intro u v c d _ he huv hc hd
    have hx : ∀ (i : Nat) (c : List Nat), ([[0], [1], [2]] : List (List Nat))[i]? = some c → c = [i] := by
      intro i c h
      match i, h with
      | 0, h => cases h; rfl
      | 1, h => cases h; rfl
      | 2, h => cases h; rfl
    rw [hx u c hc, hx v d hd]
    exact ⟨u, by simp, v, by simp, he⟩
  · intro u v hu hv huv
    dsimp only at hu hv
    simp only [IGraph.Edge, List.mem_cons, Prod.mk.injEq, List.not_mem_nil, or_false]
    omega

end MM
