import Verif.Props.SubMaximal

/-! Property C130: the share of the possible embeddings that is found. -/

namespace MM

open Py Spec.Py

variable {α β τ : Type} [DecidableEq α] [DecidableEq β] [DecidableEq τ]

namespace Py

omit [DecidableEq τ] in
/-- Things each of which owns an element of a list, no two of them the same: there are not more of them than elements. -/
theorem owners {ι : Type} (own : ι → β → Prop) : ∀ (L : List ι) (U : List β), (L.Pairwise fun a b => ∀ q, own a q → ¬ own b q) → (∀ a ∈ L, ∃ q ∈ U, own a q) → L.length ≤ U.length
  | [], _, _, _ => Nat.zero_le _
  | a :: L, U, hp, hU => by
    obtain ⟨q, hq, haq⟩ := hU a List.mem_cons_self
    rw [List.pairwise_cons] at hp
    have := owners own L (U.erase q) hp.2 fun b hb => by
      obtain ⟨r, hr, hbr⟩ := hU b (List.mem_cons_of_mem _ hb)
      exact ⟨r, (List.mem_erase_of_ne fun e : r = q => hp.1 b hb q haq (e ▸ hbr)).mpr hr, hbr⟩
    rw [List.length_erase_of_mem hq] at this
    have := List.length_pos_of_mem hq
    rw [List.length_cons]
    omega

omit [DecidableEq α] [DecidableEq β] in
theorem used_total {embs : List (Emb α β)} {n : Nat} (h : ∀ e ∈ embs, e.used.length = n) : (embs.flatMap Emb.used).length = embs.length * n := by
  induction embs with
  | nil => rw [List.length_nil, Nat.zero_mul]; rfl
  | cons e embs ih =>
    rw [List.flatMap_cons, List.length_append, h e List.mem_cons_self, ih fun e' he' => h e' (List.mem_cons_of_mem _ he'), List.length_cons, Nat.succ_mul, Nat.add_comm]

omit [DecidableEq α] [DecidableEq β] in
theorem used_ones (l : List (α × β)) : Emb.used (l.map fun p => (p.1, Val.one p.2)) = l.map Prod.snd := by
  unfold Emb.used
  induction l with
  | nil => rfl
  | cons p l ih => rw [List.map_cons, List.flatMap_cons, ih]; rfl

/-- `find_subgraph` uses as many target nodes as there are source nodes. -/
theorem default_used {setOrder : List β → List β} {solve : Injectivity → SolverGraph → SolverGraph → List (Nat × Nat)} (ho : ∀ l, (setOrder l).Perm l) (hsolve : Sound solve)
    {E : Env α β} (hE : ∀ k S G, E.embedder k S G = subgraphEmbedder setOrder solve S G) (k : Nat) (S : Graph α) (G : Graph β) (hne : E.embedder k S G ≠ []) :
    (E.embedder k S G).used.length = S.nodes.length := by
  rw [hE] at hne ⊢
  rcases embedder_cases ho hsolve S G with h | ⟨_, _, emb, h1, h2⟩
  · exact absurd h hne
  · rw [h2, used_ones, List.length_map, ← h1.total.length_eq, List.length_map]

omit [DecidableEq τ] in
/-- Whatever holds of all that the embedder answers holds of all that is found on sublattices. -/
theorem subLoop_each {A : SubArgs α β τ} {tile : Graph τ} {uf : Bool} {m : Int} {Q : Emb α β → Prop} (hne : A.S.nodes ≠ []) (hh : ∀ j, Honest false (A.env j))
    (hQ : ∀ j k G, (A.env j).embedder k A.S G ≠ [] → Q ((A.env j).embedder k A.S G)) :
    ∀ (fs : List (τ → β)) (j : Nat) (T : Graph β) (cur : Option (Graph β)) (embs : List (Emb α β)), (∀ e ∈ embs, Q e) →
      ∀ out, (subLoop A tile none uf m fs j T cur embs).1 = .ok out → ∀ e ∈ out, Q e := by
  intro fs
  induction fs with
  | nil =>
    intro j T cur embs h out ho
    simp only [subLoop, Except.ok.injEq] at ho
    rw [← ho]; exact h
  | cons f fs ih =>
    intro j T cur embs h out ho
    unfold subLoop at ho
    split at ho
    · simp only [Except.ok.injEq] at ho
      rw [← ho]; exact h
    unfold subSearch at ho
    dsimp only at ho
    obtain ⟨new, e1, -, -, -, -, e5⟩ := C28_disjoint_and_limited (E := A.env j) (S := A.S) (T := (cur.elim T id).sub (tile.nodes.map f)) (iter := false) (shuf := none)
      ⟨hh j, nofun⟩ hne (A.fresh j) (some (m - embs.length)) uf
    rw [e1] at ho
    dsimp only at ho
    have h' : ∀ e ∈ embs ++ new, Q e := by
      intro e he
      rcases List.mem_append.mp he with he | he
      · exact h e he
      · obtain ⟨i, hi⟩ := List.mem_iff_getElem?.mp he
        obtain ⟨hn, G, -, rfl⟩ := e5 i e hi
        exact hQ j i G hn
    split at ho
    · simp only [Except.ok.injEq] at ho
      rw [← ho]; exact h'
    · split at ho
      · cases ho
      · cases cur with
        | none => exact ih _ _ none _ h' out ho
        | some H => exact ih _ _ (some _) _ h' out ho

end Py

/-- **C130.** As C128: any number of embeddings of the target graph, no two with a target node in common, are not more than the target nodes that the embeddings returned take up. -/
theorem C130_share {E : Env α β} {S : Graph α} {T : Graph β} {iter uf : Bool} {shuf : Option (Graph α × Graph β)} {limit : Option Int} (hS : S.WF) (hT : T.WF) (hne : S.nodes ≠ [])
    (hh : Honest iter E) (hsh : ∀ p, shuf = some p → SameGraph p.1 S ∧ p.1.WF ∧ SameGraph p.2 T ∧ p.2.WF)
    (hsound : SoundEmbedder iter E (shuf.elim S Prod.fst)) (hth : ThoroughEmbedder iter E (shuf.elim S Prod.fst))
    (hf : uf = true → LenientFilter iter E (shuf.elim S Prod.fst)) (hlate : ∀ k, E.late k = false)
    {embs : List (Emb α β)} (h : (findMultiple E S T true limit uf iter shuf).1 = .ok embs) (hlim : ∀ n, limit = some n → (embs.length : Int) < n) :
    ∀ places : List (α → Option (List β)), (∀ emb ∈ places, Place iter S T emb) →
      (places.Pairwise fun emb emb' => ∀ x ∈ S.nodes, ∀ c, emb x = some c → ∀ y ∈ S.nodes, ∀ d, emb' y = some d → ∀ q ∈ c, q ∉ d) →
      places.length ≤ (embs.flatMap Emb.used).length := by
  intro places hpl hdis
  refine owners (fun emb q => ∃ x ∈ S.nodes, ∃ c, emb x = some c ∧ q ∈ c) places _ (hdis.imp fun {a b} hab q ⟨x, hx, c, hc, hq⟩ ⟨y, hy, d, hd, hq'⟩ => hab x hx c hc y hy d hd q hq hq') ?_
  intro emb hemb
  obtain ⟨e, he, x, hx, c, hc, q, hq, hqe⟩ := C128_maximal hS hT hne hh hsh hsound hth hf hlate h hlim emb (hpl emb hemb)
  exact ⟨q, List.mem_flatMap.mpr ⟨e, he, hqe⟩, x, hx, c, hc, hq⟩

/-- With `find_subgraph` and `n` source nodes, at least the `n`th part of the embeddings is found that any choice of embeddings without common target nodes would have, unless time
runs out or as many are returned as were asked for. -/
theorem C130_default {S : Graph α} {T : Graph β} (hS : S.WF) (hT : T.WF) (hne : S.nodes ≠ []) (hs : Simple S) {setOrder : List β → List β} (ho : ∀ l, (setOrder l).Perm l)
    {solve : Injectivity → SolverGraph → SolverGraph → List (Nat × Nat)} (hsolve : Sound solve) (hall : Thorough solve)
    {E : Env α β} (hE : ∀ k S G, E.embedder k S G = subgraphEmbedder setOrder solve S G) (hlate : ∀ k, E.late k = false)
    (hf : ∀ G one, ∃ same, E.filter S G one = decide (feasible same S G one ≠ .ok false)) {limit : Option Int} {uf : Bool}
    {embs : List (Emb α β)} (h : (findMultiple E S T true limit uf false none).1 = .ok embs) (hlim : ∀ n, limit = some n → (embs.length : Int) < n) :
    ∀ maps : List (List (α × β)), (∀ l ∈ maps, SubgraphMap .injective S T l) → (maps.Pairwise fun l l' => ∀ p ∈ l, ∀ p' ∈ l', p.2 ≠ p'.2) →
      maps.length ≤ embs.length * S.nodes.length := by
  intro maps hm hdis
  obtain ⟨embs', e1, -, -, -, hmax⟩ := C128_default hS hT hne hs ho hsolve hall hE hlate hf limit uf
  rw [h] at e1; cases e1
  obtain ⟨embs', e1, -, -, -, -, e5⟩ := C28_disjoint_and_limited (S := S) (T := T) (shuf := none) ⟨default_honest ho hsolve hE, nofun⟩ hne true limit uf
  rw [h] at e1; cases e1
  rw [← used_total (n := S.nodes.length) fun e he => ?_]
  · refine owners (fun l q => ∃ p ∈ l, p.2 = q) maps _ (hdis.imp fun {a b} hab q ⟨p, hp, e⟩ ⟨p', hp', e'⟩ => hab p hp p' hp' (e.trans e'.symm)) ?_
    intro l hl
    obtain ⟨e, he, p, hp, hpe⟩ := hmax hlim l (hm l hl)
    exact ⟨p.2, List.mem_flatMap.mpr ⟨e, he, hpe⟩, p, hp, rfl⟩
  · obtain ⟨i, hi⟩ := List.mem_iff_getElem?.mp he
    obtain ⟨hn, G, -, rfl⟩ := e5 i e hi
    exact default_used ho hsolve hE i S G hn

/-- The same for the search over sublattices, compared with embeddings each of which lies in one of the sublattices. -/
theorem C130_sublattice {A : SubArgs α β τ} (hS : A.S.WF) (hT : A.T.WF) (hne : A.S.nodes ≠ []) (hs : Simple A.S) (hst : A.start = true) {tile : Graph τ} (ht : A.tile = some tile)
    (htile : tile.WF) (hinf : A.infeasible = true → A.useFilter = true ∧ ((∀ emb, ¬ Place false A.S tile emb) ∨ ∀ emb, ¬ Place false A.S A.T emb)) (hi : A.iter = false) (hte : A.tileEmb = none)
    (hu : A.useTile = some false ∨ A.useTile = none ∧ A.same = none)
    (hlate : ∀ j, A.lateAt j = false) (hfresh : ∀ j, A.fresh j = true) (hfreshT : A.freshTile = true) (hl : ∀ j k, (A.env j).late k = false) (hlT : ∀ k, A.envTile.late k = false)
    {setOrder : List β → List β} (ho : ∀ l, (setOrder l).Perm l) {setOrderT : List τ → List τ} (hoT : ∀ l, (setOrderT l).Perm l)
    {solve : Injectivity → SolverGraph → SolverGraph → List (Nat × Nat)} (hsolve : Sound solve) (hall : Thorough solve)
    (hE : ∀ j k S G, (A.env j).embedder k S G = subgraphEmbedder setOrder solve S G) (hET : ∀ k S G, A.envTile.embedder k S G = subgraphEmbedder setOrderT solve S G)
    (hf : ∀ j G one, ∃ same, (A.env j).filter A.S G one = decide (feasible same A.S G one ≠ .ok false))
    (hmaps : A.useFilter = true → ∀ f ∈ A.maps tile A.T, Sublattice tile A.T f)
    {embs : List (Emb α β)} (h : (findSublattice A).1 = .ok embs) (hlim : ∀ n, A.limit = some n → (embs.length : Int) < n) :
    ∀ maps : List (List (α × β)), (∀ l ∈ maps, SubgraphMap .injective A.S A.T l ∧ ∃ f ∈ A.maps tile A.T, ∀ p ∈ l, ∃ a ∈ tile.nodes, f a = p.2) →
      (maps.Pairwise fun l l' => ∀ p ∈ l, ∀ p' ∈ l', p.2 ≠ p'.2) → maps.length ≤ embs.length * A.S.nodes.length := by
  intro maps hm hdis
  have hmax := C129_default hS hT hne hs hst ht htile hinf hi hte hu hlate hfresh hfreshT hl hlT ho hoT hsolve hall hE hET hf hmaps h hlim
  have hsize : ∀ e ∈ embs, e.used.length = A.S.nodes.length := by
    have htl : A.tiles = false := by
      unfold SubArgs.tiles
      rcases hu with hu | ⟨hu, hs⟩
      · rw [hu]; rfl
      · rw [hu, hs, hte]; rfl
    have hg : A.given = none := by unfold SubArgs.given; rw [if_neg (by rw [htl]; simp)]
    have hon : ∀ r, A.onTile tile = .ok (some r) → r.2 = none := by
      intro r hr
      unfold SubArgs.onTile at hr
      rw [hg, htl] at hr
      split at hr
      · split at hr
        · cases hr
        · cases hr
        · rw [if_neg (by simp)] at hr
          cases hr; rfl
      · cases hr; rfl
    unfold findSublattice at h
    rw [if_neg (by rw [hst]; simp), ht] at h
    dsimp only at h
    split at h
    · cases h; nofun
    split at h
    · cases h
    split at h
    · cases h
    · cases h; nofun
    · rename_i tile' te ho'
      have : te = none := hon _ ho'
      subst this
      rw [if_neg (by rw [List.length_eq_zero_iff]; exact hne)] at h
      exact subLoop_each (Q := fun e => e.used.length = A.S.nodes.length) hne (fun j => default_honest ho hsolve (hE j))
        (fun j k G hn => default_used ho hsolve (hE j) k A.S G hn) _ _ _ _ _ (by simp) embs h
  rw [← used_total hsize]
  refine owners (fun l q => ∃ p ∈ l, p.2 = q) maps _ (hdis.imp fun {a b} hab q ⟨p, hp, e⟩ ⟨p', hp', e'⟩ => hab p hp p' hp' (e.trans e'.symm)) ?_
  intro l hl'
  obtain ⟨h1, f, hfm, hin⟩ := hm l hl'
  obtain ⟨e, he, p, hp, hpe⟩ := hmax f hfm l h1 hin
  exact ⟨p.2, List.mem_flatMap.mpr ⟨e, he, hpe⟩, p, hp, rfl⟩

/-- There are three edges without common nodes in a path of six nodes, so that at least two are found. -/
example {embs : List (Emb Nat Nat)} (h : (findMultiple Demo.defaultEnv Demo.edge2 Demo.path6 true none true false none).1 = .ok embs) : 2 ≤ embs.length := by
  have := C130_default Demo.edge2_wf Demo.path6_wf (by decide) (by simp [Simple, Demo.edge2]) (fun _ => .refl _) Demo.oracle_sound Demo.oracle_thorough
    (E := Demo.defaultEnv) (fun _ _ _ => rfl) (fun _ => rfl) (fun G one => ⟨false, rfl⟩) h nofun [[(0, 10), (1, 11)], [(0, 12), (1, 13)], [(0, 14), (1, 15)]] ?_ (by decide)
  · simp only [Demo.edge2, List.length_cons, List.length_nil] at this
    omega
  · intro l hl
    simp only [List.mem_cons, List.not_mem_nil, or_false] at hl
    rcases hl with rfl | rfl | rfl <;>
    · refine ⟨by decide, by decide, ?_, fun _ => by decide, nofun⟩
      unfold Graph.Adj
      decide

end MM
