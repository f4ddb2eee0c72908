import Verif.Props.MultiSubgraph

/-! Property C129: `find_sublattice_embeddings` without an embedding for the tile leaves no place out. -/

namespace MM

open Py Spec.Py Relation

variable {α β τ : Type} [DecidableEq α] [DecidableEq β] [DecidableEq τ]

/-- `f` places the tile in the target one to one, and the target has no edge there that the tile lacks. -/
structure Spec.Py.Sublattice (tile : Graph τ) (T : Graph β) (f : τ → β) : Prop where
  inj : ∀ a ∈ tile.nodes, ∀ b ∈ tile.nodes, f a = f b → a = b
  adj : ∀ a ∈ tile.nodes, ∀ b ∈ tile.nodes, T.Adj (f a) (f b) → tile.Adj a b

/-- All nodes of `emb` lie where `f` places the tile. -/
def Spec.Py.InSublattice (S : Graph α) (tile : Graph τ) (f : τ → β) (emb : α → Option (List β)) : Prop :=
  ∀ x ∈ S.nodes, ∀ c, emb x = some c → ∀ q ∈ c, ∃ a ∈ tile.nodes, f a = q

namespace Py

omit [DecidableEq α] in
theorem Left.removeAll {T G : Graph β} {embs : List (Emb α β)} (h : Left T G embs) (new : List (Emb α β)) : Left T (G.remove (new.flatMap Emb.used)) (embs ++ new) := by
  have hnew : ∀ q, q ∉ new.flatMap Emb.used ↔ ∀ e ∈ new, q ∉ e.used := fun q => by
    rw [List.mem_flatMap]
    exact ⟨fun hq e he hqe => hq ⟨e, he, hqe⟩, fun hq ⟨e, he, hqe⟩ => hq e he hqe⟩
  refine ⟨h.wf.remove _, fun q => ?_, fun p q => ?_⟩
  · rw [mem_remove, h.nodes, hnew]
    simp only [List.mem_append, or_imp, forall_and]
    tauto
  · rw [remove_adj, h.adj, hnew, hnew]
    simp only [List.mem_append, or_imp, forall_and]
    tauto

omit [DecidableEq α] in
/-- A place of single nodes within some nodes is one in the graph of those nodes. -/
theorem Place.sub {S : Graph α} (hS : S.WF) {G : Graph β} {emb : α → Option (List β)} (h : Place false S G emb) {l : List β}
    (hl : ∀ x ∈ S.nodes, ∀ c, emb x = some c → ∀ q ∈ c, q ∈ l) : Place false S (G.sub l) emb := by
  have hadj : ∀ p q, G.Adj p q → p ∈ l → q ∈ l → (G.sub l).Adj p q := fun p q hpq hp hq => by
    unfold Graph.sub Graph.Adj
    simp only [List.mem_filter, decide_eq_true_eq]
    exact hpq.imp (fun h => ⟨h, hp, hq⟩) fun h => ⟨h, hq, hp⟩
  refine ⟨⟨h.minor.chain, fun x hx c hc q hq => ?_, fun x hx c hc a ha b hb => ?_, h.minor.disjoint, fun x y hxy hne c d hc hd => ?_⟩, fun _ x hx => ?_⟩
  · exact List.mem_filter.mpr ⟨h.minor.nodes x hx c hc q hq, decide_eq_true (hl x hx c hc q hq)⟩
  · obtain ⟨q, hq, -⟩ := h.single rfl x hx
    rw [hq] at hc; cases hc
    rw [List.mem_singleton.mp ha, List.mem_singleton.mp hb]
  · obtain ⟨p, hp, q, hq, hpq⟩ := h.minor.edges x y hxy hne c d hc hd
    have hxy' : x ∈ S.nodes ∧ y ∈ S.nodes := hxy.elim (fun h => hS.2 _ h) fun h => (hS.2 _ h).symm
    exact ⟨p, hp, q, hq, hadj p q hpq (hl x hxy'.1 c hc p hp) (hl y hxy'.2 d hd q hq)⟩
  · obtain ⟨q, hq, hqq⟩ := h.single rfl x hx
    have hm := hl x hx _ hq q (List.mem_singleton.mpr rfl)
    exact ⟨q, hq, fun hxx => hadj q q (hqq hxx) hm hm⟩

open Classical in
omit [DecidableEq α] [DecidableEq β] [DecidableEq τ] in
/-- A place within a sublattice, taken back to the tile. -/
theorem Place.back {S : Graph α} (hS : S.WF) {T : Graph β} {tile : Graph τ} {f : τ → β} (hf : Sublattice tile T f) {emb : α → Option (List β)} (h : Place false S T emb)
    (hw : InSublattice S tile f emb) : ∃ emb', Place false S tile emb' := by
  have key : ∀ x, x ∈ S.nodes → ∃ a, a ∈ tile.nodes ∧ emb x = some [f a] ∧ (S.Adj x x → T.Adj (f a) (f a)) := fun x hx => by
    obtain ⟨q, hq, hqq⟩ := h.single rfl x hx
    obtain ⟨a, ha, rfl⟩ := hw x hx _ hq q (List.mem_singleton.mpr rfl)
    exact ⟨a, ha, hq, hqq⟩
  let back : α → Option (List τ) := fun x => if hx : x ∈ S.nodes then some [(key x hx).choose] else none
  have hback : ∀ x (hx : x ∈ S.nodes), back x = some [(key x hx).choose] := fun x hx => dif_pos hx
  refine ⟨back, ⟨fun x hx => ⟨_, hback x hx, by simp⟩, fun x hx c hc q hq => ?_, fun x hx c hc a ha b hb => ?_, fun x hx y hy hne c d hc hd q hqc hqd => ?_,
    fun x y hxy hne c d hc hd => ?_⟩, fun _ x hx => ⟨_, hback x hx, fun hxx => ?_⟩⟩
  · rw [hback x hx] at hc; cases hc
    rw [List.mem_singleton.mp hq]
    exact (key x hx).choose_spec.1
  · rw [hback x hx] at hc; cases hc
    rw [List.mem_singleton.mp ha, List.mem_singleton.mp hb]
  · rw [hback x hx] at hc; cases hc
    rw [hback y hy] at hd; cases hd
    have e : (key x hx).choose = (key y hy).choose := (List.mem_singleton.mp hqc).symm.trans (List.mem_singleton.mp hqd)
    refine h.minor.disjoint x hx y hy hne _ _ (key x hx).choose_spec.2.1 (key y hy).choose_spec.2.1 (f (key x hx).choose) (List.mem_singleton.mpr rfl) ?_
    rw [e]; exact List.mem_singleton.mpr rfl
  · have hxy' : x ∈ S.nodes ∧ y ∈ S.nodes := hxy.elim (fun h => hS.2 _ h) fun h => (hS.2 _ h).symm
    rw [hback x hxy'.1] at hc; cases hc
    rw [hback y hxy'.2] at hd; cases hd
    obtain ⟨p, hp, q, hq, hpq⟩ := h.minor.edges x y hxy hne _ _ (key x hxy'.1).choose_spec.2.1 (key y hxy'.2).choose_spec.2.1
    rw [List.mem_singleton.mp hp, List.mem_singleton.mp hq] at hpq
    exact ⟨_, List.mem_singleton.mpr rfl, _, List.mem_singleton.mpr rfl, hf.adj _ (key x hxy'.1).choose_spec.1 _ (key y hxy'.2).choose_spec.1 hpq⟩
  · exact hf.adj _ (key x hx).choose_spec.1 _ (key x hx).choose_spec.1 ((key x hx).choose_spec.2.2 hxx)

/-- The embeddings returned meet the place. -/
def Met (S : Graph α) (emb : α → Option (List β)) (embs : List (Emb α β)) : Prop :=
  ∃ e ∈ embs, ∃ x ∈ S.nodes, ∃ c, emb x = some c ∧ ∃ q ∈ c, q ∈ e.used

theorem subLoop_maximal {A : SubArgs α β τ} (hS : A.S.WF) (hne : A.S.nodes ≠ []) (hi : A.iter = false) (hlate : ∀ j, A.lateAt j = false) (hfresh : ∀ j, A.fresh j = true)
    (hh : ∀ j, Honest false (A.env j)) (hsound : ∀ j, SoundEmbedder false (A.env j) A.S) (hth : ∀ j, ThoroughEmbedder false (A.env j) A.S)
    (hl : ∀ j k, (A.env j).late k = false) {tile : Graph τ} {uf : Bool} (hf : uf = true → ∀ j, LenientFilter false (A.env j) A.S) {m : Int} {T0 : Graph β} :
    ∀ (fs : List (τ → β)) (j : Nat) (T : Graph β) (cur : Option (Graph β)) (embs : List (Emb α β)), Left T0 (cur.elim T id) embs → Filled A.S T0 false embs →
    ∀ out, (subLoop A tile none uf m fs j T cur embs).1 = .ok out → (∀ e ∈ embs, e ∈ out) ∧ Filled A.S T0 false out ∧
      (m ≤ out.length ∨ ∀ f ∈ fs, ∀ emb, Place false A.S T0 emb → InSublattice A.S tile f emb → Met A.S emb out) := by
  intro fs
  induction fs with
  | nil =>
    intro j T cur embs hL hP out ho
    simp only [subLoop, Except.ok.injEq] at ho
    subst ho
    exact ⟨fun e he => he, hP, .inr (by simp)⟩
  | cons f fs ih =>
    intro j T cur embs hL hP out ho
    unfold subLoop at ho
    rw [hlate j, if_neg (by simp)] at ho
    unfold subSearch at ho
    dsimp only at ho
    rw [hfresh j] at ho
    have hGwf : ((cur.elim T id).sub (tile.nodes.map f)).WF := hL.wf.sub _
    obtain ⟨new, e1, e2, e3, -⟩ := C28_disjoint_and_limited (E := A.env j) (S := A.S) (T := (cur.elim T id).sub (tile.nodes.map f)) (iter := false) (shuf := none)
      ⟨hh j, nofun⟩ hne true (some (m - embs.length)) uf
    rw [e1] at ho
    dsimp only at ho
    have hP' : Filled A.S T0 false (embs ++ new) := by
      refine ⟨fun e he => ?_, ?_⟩
      · rcases List.mem_append.mp he with he | he
        · exact hP.emb e he
        · exact findMultiple_inside (hsound j) (hL.inside.sub _) e1 e he
      · rw [List.pairwise_append]
        refine ⟨hP.apart, e2.imp fun {a b} hab x _ c hc q hq hqa => hab q hqa (chains_used hc q hq), fun e he e' he' x _ c hc q hq => ?_⟩
        exact ((hL.nodes q).mp (List.mem_filter.mp (e3 e' he' q (chains_used hc q hq))).1).2 e he
    split at ho
    · next hm =>
      simp only [Except.ok.injEq] at ho
      subst ho
      exact ⟨fun e he => List.mem_append_left _ he, hP', .inl hm⟩
    · next hm =>
      have hkind : ∀ e ∈ new, ∀ kv ∈ e, kv.2.isChain = A.iter := by
        intro e he kv hkv
        obtain ⟨embs', e1', -, -, -, -, e5⟩ := C28_disjoint_and_limited (E := A.env j) (S := A.S) (T := (cur.elim T id).sub (tile.nodes.map f)) (iter := false) (shuf := none)
          ⟨hh j, nofun⟩ hne true (some (m - embs.length)) uf
        rw [e1] at e1'; cases e1'
        obtain ⟨i, hi'⟩ := List.mem_iff_getElem?.mp he
        obtain ⟨-, G, -, rfl⟩ := e5 i e hi'
        rw [hi]
        exact (hh j i _ G kv hkv).1
      rw [removal_flatten hkind] at ho
      dsimp only at ho
      have hL' := hL.removeAll new
      have fin : (∀ e ∈ embs ++ new, e ∈ out) ∧ Filled A.S T0 false out ∧
          (m ≤ out.length ∨ ∀ f ∈ fs, ∀ emb, Place false A.S T0 emb → InSublattice A.S tile f emb → Met A.S emb out) := by
        cases cur with
        | none => exact ih _ _ none _ hL' hP' out ho
        | some H => exact ih _ _ (some _) _ hL' hP' out ho
      refine ⟨fun e he => fin.1 e (List.mem_append_left _ he), fin.2.1, fin.2.2.imp_right fun h g hg emb hp hw => ?_⟩
      rcases List.mem_cons.mp hg with rfl | hg
      · by_contra hno
        have hfree : ∀ x ∈ A.S.nodes, ∀ c, emb x = some c → ∀ q ∈ c, ∀ e ∈ embs, q ∉ e.used :=
          fun x hx c hc q hq e he hqe => hno ⟨e, fin.1 e (List.mem_append_left _ he), x, hx, c, hc, q, hq, hqe⟩
        have hp' := Place.sub hS (Place.narrow hL hS hp hfree) (l := tile.nodes.map g) fun x hx c hc q hq => by
          obtain ⟨a, ha, rfl⟩ := hw x hx c hc q hq
          exact List.mem_map_of_mem ha
        obtain ⟨e, he, hmeet⟩ := C128_maximal (shuf := none) hS hGwf hne (hh j) nofun (hsound j) (hth j) (fun hu => hf hu j) (hl j) e1 (fun n hn => by
          cases hn
          rw [List.length_append] at hm
          push_cast at hm
          omega) emb hp'
        exact hno ⟨e, fin.1 e (List.mem_append_right _ he), hmeet⟩
      · exact h g hg emb hp hw

end Py

/-- **C129.** `find_sublattice_embeddings` is asked for embeddings of single nodes, without an embedding for the tile. Suppose that the time was not up and that it returns
fewer embeddings than asked for. Then every embedding of the source graph in the target graph that lies in one of the sublattices shares a target node with one of those
returned. The embedder is any that finds an embedding whenever there is one. Where the filter is asked for, the tile is searched first; that does no harm since the
sublattices of the target have no edges that the tile lacks. For the same reason the tile may be refused at once, as long as it is refused only if it has no embedding, or
the target graph has none (`C129_filter`, `C129_bound`). -/
theorem C129_maximal {A : SubArgs α β τ} (hS : A.S.WF) (hT : A.T.WF) (hne : A.S.nodes ≠ []) (hst : A.start = true) {tile : Graph τ} (ht : A.tile = some tile) (htile : tile.WF)
    (hinf : A.infeasible = true → A.useFilter = true ∧ ((∀ emb, ¬ Place false A.S tile emb) ∨ ∀ emb, ¬ Place false A.S A.T emb)) (hi : A.iter = false) (hte : A.tileEmb = none) (hu : A.useTile = some false ∨ A.useTile = none ∧ A.same = none)
    (hlate : ∀ j, A.lateAt j = false) (hfresh : ∀ j, A.fresh j = true) (hfreshT : A.freshTile = true)
    (hh : ∀ j, Honest false (A.env j)) (hsound : ∀ j, SoundEmbedder false (A.env j) A.S) (hth : ∀ j, ThoroughEmbedder false (A.env j) A.S) (hl : ∀ j k, (A.env j).late k = false)
    (hf : A.useFilter = true → ∀ j, LenientFilter false (A.env j) A.S)
    (hhT : Honest false A.envTile) (hsoundT : SoundEmbedder false A.envTile A.S) (hthT : ThoroughEmbedder false A.envTile A.S) (hlT : ∀ k, A.envTile.late k = false)
    (hmaps : A.useFilter = true → ∀ f ∈ A.maps tile A.T, Sublattice tile A.T f)
    {embs : List (Emb α β)} (h : (findSublattice A).1 = .ok embs) (hlim : ∀ n, A.limit = some n → (embs.length : Int) < n) :
    ∀ f ∈ A.maps tile A.T, ∀ emb, Place false A.S A.T emb → InSublattice A.S tile f emb → ∃ e ∈ embs, ∃ x ∈ A.S.nodes, ∃ c, emb x = some c ∧ ∃ q ∈ c, q ∈ e.used := by
  intro f hfm emb hp hw
  have htl : A.tiles = false := by
    unfold SubArgs.tiles
    rcases hu with hu | ⟨hu, hs⟩
    · rw [hu]; rfl
    · rw [hu, hs, hte]; rfl
  have hg : A.given = none := by unfold SubArgs.given; rw [if_neg (by rw [htl]; simp)]
  have hfil : A.filters = A.useFilter := by unfold SubArgs.filters; rw [hg, hte]; simp
  unfold findSublattice at h
  rw [if_neg (by rw [hst]; simp), ht] at h
  dsimp only at h
  have hinf' : ¬ A.infeasible = true := fun hx => by
    obtain ⟨huf, hno⟩ := hinf hx
    rcases hno with hno | hno
    · obtain ⟨emb', hp'⟩ := Place.back hS (hmaps huf f hfm) hp hw
      exact hno emb' hp'
    · exact hno emb hp
  rw [if_neg hinf', if_neg (by unfold SubArgs.badTile; rw [hte]; simp)] at h
  have hon : A.onTile tile = .ok (some (tile, none)) := by
    unfold SubArgs.onTile
    rw [hg, htl, hfil]
    by_cases huf : A.useFilter = true
    · rw [if_pos (by rw [huf]; rfl)]
      obtain ⟨ts, e1, -⟩ := C28_disjoint_and_limited (E := A.envTile) (S := A.S) (T := tile) (iter := false) (shuf := none) ⟨hhT, nofun⟩ hne A.freshTile (some 1) false
      rw [hfreshT] at e1 ⊢
      rw [e1]
      cases ts with
      | cons t ts => rfl
      | nil =>
        exfalso
        obtain ⟨emb', hp'⟩ := Place.back hS (hmaps huf f hfm) hp hw
        obtain ⟨e, he, -⟩ := C128_maximal (shuf := none) hS htile hne hhT nofun hsoundT hthT (fun h => by cases h) hlT e1 (fun n hn => by cases hn; simp) emb' hp'
        cases he
    · rw [if_neg (by simpa using huf)]
  rw [hon] at h
  dsimp only at h
  rw [if_neg (by rw [List.length_eq_zero_iff]; exact hne)] at h
  have hL : Left A.T ((if A.inPlace then none else some A.T : Option (Graph β)).elim A.T id) ([] : List (Emb α β)) := by
    have : (if A.inPlace then none else some A.T : Option (Graph β)).elim A.T id = A.T := by split <;> rfl
    rw [this]
    exact ⟨hT, by simp, by simp⟩
  obtain ⟨-, hP, hc⟩ := subLoop_maximal hS hne hi hlate hfresh hh hsound hth hl (fun huf => hf (hfil ▸ huf)) _ _ _ _ _ hL ⟨by simp, .nil⟩ embs h
  rcases hc with hc | hc
  · by_contra hno
    have hpos : 0 < A.S.nodes.length := List.length_pos_iff.mpr hne
    have hmost : A.T.nodes.length / A.S.nodes.length ≤ embs.length := by
      cases hl : A.limit with
      | none => rw [hl] at hc; exact Int.ofNat_le.mp hc
      | some l =>
        have := hlim l hl
        rw [hl] at hc
        change min _ l ≤ _ at hc
        omega
    have hF : Filled A.S A.T false (embs ++ [asEmb false A.S emb]) := by
      refine ⟨fun e he => ?_, ?_⟩
      · rcases List.mem_append.mp he with he | he
        · exact hP.emb e he
        · rw [List.mem_singleton.mp he]
          exact minor_congr hS (fun x hx => asEmb_chains hp hx) hp.minor
      · rw [List.pairwise_append]
        refine ⟨hP.apart, List.pairwise_singleton _ _, fun e he e' he' x hx c hc q hq hqe => ?_⟩
        rw [List.mem_singleton.mp he', asEmb_chains hp hx] at hc
        exact hno ⟨e, he, x, hx, c, hc, q, hq, hqe⟩
    have := hF.count hS
    rw [List.length_append, List.length_singleton] at this
    have h2 := Nat.lt_div_mul_add (a := A.T.nodes.length) hpos
    have h3 := Nat.mul_le_mul_right A.S.nodes.length hmost
    rw [Nat.succ_mul] at this
    omega
  · exact hc f hfm emb hp hw

omit [DecidableEq β] in
/-- A tile that the filter refuses has no embedding of single nodes, for a source graph with no edge twice. -/
theorem C129_filter {S : Graph α} (hS : S.WF) (hs : Simple S) {tile : Graph τ} (htile : tile.WF) {same : Bool} (h : feasible same S tile true = .ok false) :
    ∀ emb, ¬ Place false S tile emb := by
  intro emb hp
  have := C128_filter (E := ⟨fun S G one => decide (feasible same S G one ≠ .ok false), fun _ => false, fun _ _ _ => []⟩) (iter := false) hS hs (by simp)
    (fun G one => ⟨same, rfl⟩) tile htile ⟨emb, hp⟩
  exact of_decide_eq_true this h

/-- A tile of one node is refused for an edge. -/
example : feasible false Demo.edge2 (⟨[0], []⟩ : Graph Nat) true = .ok false := by decide

/-- **C129** for the default: with `find_subgraph` and a source graph with no edge twice. Every one-to-one map of the source graph into a
sublattice of the target graph that maps edges to edges meets an embedding that is returned, unless time runs out or as many are returned as were asked for. -/
theorem C129_default {A : SubArgs α β τ} (hS : A.S.WF) (hT : A.T.WF) (hne : A.S.nodes ≠ []) (hs : Simple A.S) (hst : A.start = true) {tile : Graph τ} (ht : A.tile = some tile) (htile : tile.WF)
    (hinf : A.infeasible = true → A.useFilter = true ∧ ((∀ emb, ¬ Place false A.S tile emb) ∨ ∀ emb, ¬ Place false A.S A.T emb)) (hi : A.iter = false) (hte : A.tileEmb = none)
    (hu : A.useTile = some false ∨ A.useTile = none ∧ A.same = none)
    (hlate : ∀ j, A.lateAt j = false) (hfresh : ∀ j, A.fresh j = true) (hfreshT : A.freshTile = true) (hl : ∀ j k, (A.env j).late k = false) (hlT : ∀ k, A.envTile.late k = false)
    {setOrder : List β → List β} (ho : ∀ l, (setOrder l).Perm l) {setOrderT : List τ → List τ} (hoT : ∀ l, (setOrderT l).Perm l)
    {solve : Injectivity → SolverGraph → SolverGraph → List (Nat × Nat)} (hsolve : Sound solve) (hall : Thorough solve)
    (hE : ∀ j k S G, (A.env j).embedder k S G = subgraphEmbedder setOrder solve S G) (hET : ∀ k S G, A.envTile.embedder k S G = subgraphEmbedder setOrderT solve S G)
    (hf : ∀ j G one, ∃ same, (A.env j).filter A.S G one = decide (feasible same A.S G one ≠ .ok false))
    (hmaps : A.useFilter = true → ∀ f ∈ A.maps tile A.T, Sublattice tile A.T f)
    {embs : List (Emb α β)} (h : (findSublattice A).1 = .ok embs) (hlim : ∀ n, A.limit = some n → (embs.length : Int) < n) :
    ∀ f ∈ A.maps tile A.T, ∀ l, SubgraphMap .injective A.S A.T l → (∀ p ∈ l, ∃ a ∈ tile.nodes, f a = p.2) → ∃ e ∈ embs, ∃ p ∈ l, p.2 ∈ e.used := by
  intro f hfm l hl' hin
  obtain ⟨e, he, x, hx, c, hc, q, hq, hqe⟩ := C129_maximal hS hT hne hst ht htile
    hinf hi hte hu hlate hfresh hfreshT
    (fun j => default_honest ho hsolve (hE j)) (fun j => default_sound ho hsolve (hE j) _) (fun j => default_thorough ho hsolve hall (hE j) hS hne) hl
    (fun _ j => C128_filter hS hs (by simp) (hf j)) (default_honest hoT hsolve hET) (default_sound hoT hsolve hET _) (default_thorough hoT hsolve hall hET hS hne) hlT
    hmaps h hlim f hfm _ (place_of_map hl') (fun x _ c hc q hq => by
      rcases lookup_one l x with ⟨r, h1, h2⟩ | ⟨_, h2⟩
      · rw [h2] at hc; cases hc
        rw [List.mem_singleton.mp hq]
        exact hin _ h1
      · rw [h2] at hc; cases hc)
  rcases lookup_one l x with ⟨r, h1, h2⟩ | ⟨_, h2⟩
  · rw [h2] at hc; cases hc
    rw [List.mem_singleton.mp hq] at hqe
    exact ⟨e, he, _, h1, hqe⟩
  · rw [h2] at hc; cases hc

namespace Demo

/-- Edges are searched for in the path of six nodes, one pair of neighbours after the other. -/
noncomputable def pairArgs : SubArgs Nat Nat Nat :=
  { nodeArgs none none false with useFilter := true, env := fun _ => thoroughEnv false, envTile := thoroughEnv false }

theorem path6_pair {k : Nat} (hk : k ∈ [10, 11, 12, 13]) : Sublattice edge2 path6 (· + k) := by
  refine ⟨fun a _ b _ h => by omega, ?_⟩
  unfold Graph.Adj
  revert k
  decide

theorem path6_place : Place false edge2 path6 (fun x => some [x + 11]) := by
  refine ⟨⟨fun x _ => ⟨_, rfl, by simp⟩, ?_, ?_, ?_, ?_⟩, ?_⟩
  · intro x hx c hc q hq
    cases hc
    rw [List.mem_singleton.mp hq]
    clear hq q
    revert x; decide
  · intro x hx c hc a ha b hb
    cases hc
    rw [List.mem_singleton.mp ha, List.mem_singleton.mp hb]
  · intro x _ y _ hxy c d hc hd q hq hq'
    cases hc; cases hd
    have h1 := List.mem_singleton.mp hq
    have h2 := List.mem_singleton.mp hq'
    omega
  · intro x y hxy _ c d hc hd
    cases hc; cases hd
    refine ⟨_, List.mem_singleton.mpr rfl, _, List.mem_singleton.mpr rfl, ?_⟩
    rcases hxy with hxy | hxy <;> · simp only [edge2, List.mem_singleton, Prod.mk.injEq] at hxy; obtain ⟨rfl, rfl⟩ := hxy; unfold Graph.Adj; decide
  · intro _ x _
    refine ⟨_, rfl, fun hxx => ?_⟩
    rcases hxx with hxx | hxx <;> · simp only [edge2, List.mem_singleton, Prod.mk.injEq] at hxx; omega

end Demo

/-- The hypotheses are met there: whatever is returned, it meets the place that starts at the second node of the path. -/
example {embs : List (Emb Nat Nat)} (h : (findSublattice Demo.pairArgs).1 = .ok embs) : ∃ e ∈ embs, 11 ∈ e.used ∨ 12 ∈ e.used := by
  have hne : Demo.edge2.nodes ≠ [] := by decide
  obtain ⟨e, he, x, hx, c, hc, q, hq, hqe⟩ := C129_maximal (A := Demo.pairArgs) Demo.edge2_wf Demo.path6_wf hne rfl rfl Demo.edge2_wf nofun rfl rfl (.inr ⟨rfl, rfl⟩) (fun _ => rfl) (fun _ => rfl) rfl
    (fun _ => Demo.thoroughEnv_honest false) (fun _ => Demo.thoroughEnv_sound false Demo.edge2_wf) (fun _ => Demo.thoroughEnv_thorough false hne) (fun _ _ => rfl)
    (fun _ _ _ _ _ => rfl) (Demo.thoroughEnv_honest false) (Demo.thoroughEnv_sound false Demo.edge2_wf) (Demo.thoroughEnv_thorough false hne) (fun _ => rfl)
    (fun _ f hf => by
      change f ∈ [(· + 10), (· + 11), (· + 12), (· + 13)] at hf
      simp only [List.mem_cons, List.not_mem_nil, or_false] at hf
      rcases hf with rfl | rfl | rfl | rfl <;> exact Demo.path6_pair (by decide))
    h nofun (· + 11) (show (fun x : Nat => x + 11) ∈ [(· + 10), (· + 11), (· + 12), (· + 13)] by simp) _ Demo.path6_place
    (fun x hx c hc q hq => by cases hc; exact ⟨x, hx, (List.mem_singleton.mp hq).symm⟩)
  refine ⟨e, he, ?_⟩
  cases hc
  rw [List.mem_singleton.mp hq] at hqe
  have : x = 0 ∨ x = 1 := by simpa [Demo.pairArgs, Demo.nodeArgs, Demo.edge2] using hx
  rcases this with rfl | rfl
  · exact .inl hqe
  · exact .inr hqe

/-- The same arguments, with `find_subgraph`. -/
noncomputable def Demo.pairDefault : SubArgs Nat Nat Nat :=
  { nodeArgs none none false with useFilter := true, env := fun _ => defaultEnv, envTile := defaultEnv }

example {embs : List (Emb Nat Nat)} (h : (findSublattice Demo.pairDefault).1 = .ok embs) :
    ∃ e ∈ embs, 12 ∈ e.used ∨ 13 ∈ e.used := by
  have hm : SubgraphMap .injective Demo.edge2 Demo.path6 [(0, 12), (1, 13)] := by
    refine ⟨by decide, by decide, ?_, fun _ => by decide, nofun⟩
    unfold Graph.Adj
    decide
  obtain ⟨e, he, p, hp, hpe⟩ := C129_default (A := Demo.pairDefault) Demo.edge2_wf Demo.path6_wf (by decide) (by simp [Simple, Demo.pairDefault, Demo.nodeArgs, Demo.edge2]) rfl rfl Demo.edge2_wf nofun rfl rfl (.inr ⟨rfl, rfl⟩)
    (fun _ => rfl) (fun _ => rfl) rfl (fun _ _ => rfl) (fun _ => rfl) (fun _ => .refl _) (fun _ => .refl _) Demo.oracle_sound Demo.oracle_thorough (fun _ _ _ _ => rfl) (fun _ _ _ => rfl)
    (fun _ G one => ⟨false, rfl⟩)
    (fun _ f hf => by
      change f ∈ [(· + 10), (· + 11), (· + 12), (· + 13)] at hf
      simp only [List.mem_cons, List.not_mem_nil, or_false] at hf
      rcases hf with rfl | rfl | rfl | rfl <;> exact Demo.path6_pair (by decide))
    h nofun (· + 12) (show (fun x : Nat => x + 12) ∈ [(· + 10), (· + 11), (· + 12), (· + 13)] by simp) _ hm (by decide)
  refine ⟨e, he, ?_⟩
  simp only [List.mem_cons, List.not_mem_nil, or_false] at hp
  rcases hp with rfl | rfl
  · exact .inl hpe
  · exact .inr hpe

end MM
