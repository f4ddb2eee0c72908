import Verif.Py.SubgraphInv

/-! Properties C33 and C59: `find_subgraph`. -/

namespace MM

open Py Spec.Py

variable {α β : Type} [DecidableEq α] [DecidableEq β]

/-- `emb` maps the nodes of `S` to nodes of `T` and edges to edges, as injectively as asked for. -/
structure Spec.Py.SubgraphMap (inj : Injectivity) (S : Graph α) (T : Graph β) (emb : List (α × β)) : Prop where
  /-- every node of `S` is mapped, and nothing else -/
  total : (emb.map Prod.fst).Perm S.nodes
  nodes : ∀ p ∈ emb, p.2 ∈ T.nodes
  edges : ∀ p ∈ emb, ∀ q ∈ emb, S.Adj p.1 q.1 → T.Adj p.2 q.2
  injective : inj = .injective → (emb.map Prod.snd).Nodup
  locally : inj = .locally → ∀ p ∈ emb, ∀ q ∈ emb, ∀ r ∈ emb, S.Adj p.1 q.1 → S.Adj p.1 r.1 → q.2 = r.2 → q.1 = r.1

/-- What the solver promises of an answer that is not empty. -/
structure Spec.Py.Solution (inj : Injectivity) (P Q : SolverGraph) (f : Nat → Nat) : Prop where
  range : ∀ i < P.size, f i < Q.size
  names : ∀ i < P.size, P.name i = Q.name (f i)
  links : ∀ i j l, ((i, j), l) ∈ P.links → ((f i, f j), l) ∈ Q.links
  injective : inj = .injective → ∀ i < P.size, ∀ j < P.size, f i = f j → i = j
  locally : inj = .locally → ∀ k i j l l', ((k, i), l) ∈ P.links → ((k, j), l') ∈ P.links → f i = f j → i = j

/-- The solver answers nothing or gives a mapping for all vertices of the pattern, in increasing order. -/
def Spec.Py.Sound (solve : Injectivity → SolverGraph → SolverGraph → List (Nat × Nat)) : Prop :=
  ∀ inj P Q, solve inj P Q = [] ∨ ∃ f, Solution inj P Q f ∧ solve inj P Q = (List.range P.size).map fun i => (i, f i)

namespace Py

theorem dictSet_new {d : List (α × β)} {k : α} {v : β} (h : k ∉ d.map Prod.fst) : dictSet d k v = d ++ [(k, v)] := by
  unfold dictSet
  rw [if_neg]
  intro hs
  obtain ⟨w, hw⟩ := Option.isSome_iff_exists.mp hs
  rw [List.lookup_eq_some_iff] at hw
  obtain ⟨l1, l2, rfl, -⟩ := hw
  simp at h

theorem dictSet_fold {ps : List (α × β)} : ∀ {d : List (α × β)}, (ps.map Prod.fst).Nodup → (∀ p ∈ ps, p.1 ∉ d.map Prod.fst) →
    ps.foldl (fun d p => dictSet d p.1 p.2) d = d ++ ps := by
  induction ps with
  | nil => simp
  | cons p ps ih =>
    intro d hn hd
    rw [List.map_cons, List.nodup_cons] at hn
    rw [List.foldl_cons, dictSet_new (hd p List.mem_cons_self), ih hn.2, List.append_assoc]
    · rfl
    · intro q hq
      rw [List.map_append, List.mem_append]
      rintro (h | h)
      · exact hd q (List.mem_cons_of_mem _ hq) h
      · simp only [List.map_cons, List.map_nil, List.mem_singleton] at h
        exact hn.1 (h ▸ List.mem_map_of_mem hq)

/-- Entries stand for pairs of numbers. -/
def Stood (LS : LabelDict α) (LT : LabelDict β) (x : Nat × Nat) (p : α × β) : Prop :=
  LS.label[x.1]? = some p.1 ∧ LT.label[x.2]? = some p.2

theorem translate_ok {LS : LabelDict α} {LT : LabelDict β} (hS : LS.WF) : ∀ (r : List (Nat × Nat)) (d : List (α × β)),
    (r.map Prod.fst).Nodup → (∀ x ∈ r, x.1 < LS.label.length ∧ x.2 < LT.label.length) →
    (∀ x ∈ r, ∀ a, LS.label[x.1]? = some a → a ∉ d.map Prod.fst) →
    ∃ d', translate LS LT r d = .ok (d ++ d') ∧ List.Forall₂ (Stood LS LT) r d' := by
  intro r
  induction r with
  | nil => intro d _ _ _; exact ⟨[], by simp [translate], .nil⟩
  | cons x r ih =>
    intro d hn hr hd
    obtain ⟨s, t⟩ := x
    obtain ⟨h1, h2⟩ := hr (s, t) List.mem_cons_self
    have e1 := List.getElem?_eq_getElem h1
    have e2 := List.getElem?_eq_getElem h2
    dsimp only at h1 h2 e1 e2
    rw [List.map_cons, List.nodup_cons] at hn
    unfold translate
    rw [e1, e2]
    dsimp only
    rw [dictSet_new (hd (s, t) List.mem_cons_self _ e1)]
    obtain ⟨d', k1, k2⟩ := ih (d ++ [(LS.label[s], LT.label[t])]) hn.2 (fun x hx => hr x (List.mem_cons_of_mem _ hx)) (by
      intro x hx a ha
      rw [List.map_append, List.mem_append]
      rintro (h | h)
      · exact hd x (List.mem_cons_of_mem _ hx) a ha h
      · simp only [List.map_cons, List.map_nil, List.mem_singleton] at h
        have e3 := (hS.idx a x.1).mpr ha
        have e4 := (hS.idx _ s).mpr e1
        rw [← h, e3] at e4
        exact hn.1 (List.mem_map.mpr ⟨x, hx, Option.some.inj e4⟩))
    exact ⟨(LS.label[s], LT.label[t]) :: d', by rw [k1, List.append_assoc]; rfl, .cons ⟨e1, e2⟩ k2⟩

/-- A mapping of the nodes that are not isolated. -/
structure Part (inj : Injectivity) (S : SubInput α) (T : SubInput β) (P : SubRead α) (Q : SubRead β) (emb : List (α × β)) : Prop where
  keys : emb.map Prod.fst = P.L.label
  nodes : ∀ p ∈ emb, p.2 ∈ Q.L.label
  edges : ∀ p ∈ emb, ∀ q ∈ emb, S.graph.Adj p.1 q.1 → T.graph.Adj p.2 q.2 ∧ S.edgeName (p.1, q.1) = T.edgeName (p.2, q.2)
  names : ∀ p ∈ emb, S.nodeName p.1 = T.nodeName p.2
  injective : inj = .injective → (emb.map Prod.snd).Nodup
  locally : inj = .locally → ∀ p ∈ emb, ∀ q ∈ emb, ∀ r ∈ emb, S.graph.Adj p.1 q.1 → S.graph.Adj p.1 r.1 → q.2 = r.2 → q.1 = r.1

theorem part_nil {inj : Injectivity} {S : SubInput α} {T : SubInput β} {P : SubRead α} {Q : SubRead β} (h : P.L.label = []) :
    Part inj S T P Q [] where
  keys := by rw [h]; rfl
  nodes := by simp
  edges := by simp
  names := by simp
  injective := by simp
  locally := by simp

theorem translate_part {inj : Injectivity} {S : SubInput α} {T : SubInput β} {P : SubRead α} {Q : SubRead β} (hP : ReadOK S P) (hQ : ReadOK T Q)
    {f : Nat → Nat} (h : Solution inj P.g Q.g f) :
    ∃ emb, translate P.L Q.L ((List.range P.g.size).map fun i => (i, f i)) [] = .ok emb ∧ Part inj S T P Q emb := by
  obtain ⟨emb, e, hF⟩ := translate_ok (LT := Q.L) hP.wf ((List.range P.g.size).map fun i => (i, f i)) [] (by
    rw [List.map_map]
    exact (List.nodup_range (n := P.g.size)).map (fun _ _ h => h)) (by
    intro x hx
    obtain ⟨i, hi, rfl⟩ := List.mem_map.mp hx
    rw [List.mem_range] at hi
    rw [← hP.size, ← hQ.size]
    exact ⟨hi, h.range i hi⟩) (by simp)
  refine ⟨emb, by simpa using e, ?_⟩
  have hlen : emb.length = P.L.label.length := by
    rw [← hF.length_eq, List.length_map, List.length_range, hP.size]
  have hget : ∀ i (hi : i < emb.length), P.L.label[i]? = some emb[i].1 ∧ Q.L.label[f i]? = some emb[i].2 := by
    intro i hi
    have hi' : i < ((List.range P.g.size).map fun i => (i, f i)).length := by rw [hF.length_eq]; exact hi
    have := (List.forall₂_iff_get.mp hF).2 i hi' hi
    simp only [List.get_eq_getElem, List.getElem_map, List.getElem_range] at this
    exact this
  have hent : ∀ p ∈ emb, ∃ i, i < P.g.size ∧ P.L.label[i]? = some p.1 ∧ Q.L.label[f i]? = some p.2 := by
    intro p hp
    obtain ⟨i, hi, rfl⟩ := List.mem_iff_getElem.mp hp
    exact ⟨i, by rw [hP.size, ← hlen]; exact hi, hget i hi⟩
  have huniq : ∀ {i j : Nat} {a : α}, P.L.label[i]? = some a → P.L.label[j]? = some a → i = j := by
    intro i j a hi hj
    have h1 := (hP.wf.idx a i).mpr hi
    have h2 := (hP.wf.idx a j).mpr hj
    rw [h1] at h2
    exact Option.some.inj h2
  have huniqQ : ∀ {i j : Nat} {a : β}, Q.L.label[i]? = some a → Q.L.label[j]? = some a → i = j := by
    intro i j a hi hj
    have h1 := (hQ.wf.idx a i).mpr hi
    have h2 := (hQ.wf.idx a j).mpr hj
    rw [h1] at h2
    exact Option.some.inj h2
  have hlink : ∀ {p q : α × β} {i j : Nat}, P.L.label[i]? = some p.1 → P.L.label[j]? = some q.1 → S.graph.Adj p.1 q.1 →
      ((i, j), S.edgeName (p.1, q.1)) ∈ P.g.links := by
    intro p q i j hi hj hadj
    obtain ⟨i', j', e1, e2, e3⟩ := hP.complete p.1 q.1 hadj
    rwa [huniq hi e1, huniq hj e2]
  refine ⟨?_, ?_, ?_, ?_, ?_, ?_⟩
  · refine List.ext_getElem? fun i => ?_
    by_cases hi : i < emb.length
    · rw [(hget i hi).1, List.getElem?_map, List.getElem?_eq_getElem hi]; rfl
    · rw [List.getElem?_eq_none (by rw [List.length_map]; omega), List.getElem?_eq_none (by omega)]
  · intro p hp
    obtain ⟨i, -, -, h2⟩ := hent p hp
    exact List.mem_of_getElem? h2
  · intro p hp q hq hadj
    obtain ⟨i, hi, i1, i2⟩ := hent p hp
    obtain ⟨j, hj, j1, j2⟩ := hent q hq
    obtain ⟨a, b, a1, b1, hab, hl⟩ := hQ.sound _ (h.links i j _ (hlink i1 j1 hadj))
    dsimp only at a1 b1 hl
    rw [i2] at a1
    rw [j2] at b1
    cases a1
    cases b1
    exact ⟨hab, hl⟩
  · intro p hp
    obtain ⟨i, hi, i1, i2⟩ := hent p hp
    rw [← hP.names i _ i1, ← hQ.names _ _ i2]
    exact h.names i hi
  · intro hinj
    rw [List.nodup_iff_injective_getElem]
    rintro ⟨i, hi⟩ ⟨j, hj⟩ hij
    simp only [List.getElem_map] at hij
    rw [List.length_map] at hi hj
    have e1 := (hget i hi).2
    have e2 := (hget j hj).2
    rw [hij] at e1
    have := h.injective hinj i (by rw [hP.size, ← hlen]; exact hi) j (by rw [hP.size, ← hlen]; exact hj) (huniqQ e1 e2)
    exact Fin.ext this
  · intro hloc p hp q hq r hr hpq hpr hqr
    obtain ⟨i, hi, i1, i2⟩ := hent p hp
    obtain ⟨j, hj, j1, j2⟩ := hent q hq
    obtain ⟨k, hk, k1, k2⟩ := hent r hr
    rw [hqr] at j2
    have := h.locally hloc i j k _ _ (hlink i1 j1 hpq) (hlink i1 k1 hpr) (huniqQ j2 k2)
    subst this
    rw [j1] at k1
    exact Option.some.inj k1

/-- The labels and the isolated nodes make up the nodes. -/
theorem read_perm {X : SubInput α} {R : SubRead α} (hX : X.graph.WF) (h : ReadOK X R) : (R.L.label ++ R.isolated).Perm X.graph.nodes := by
  refine (List.perm_ext_iff_of_nodup ?_ hX.nodup).mpr ?_
  · refine List.nodup_append.mpr ⟨h.wf.nodup, h.nodup, ?_⟩
    intro a ha b hb hab
    exact ((h.isolated b).mp hb).2 (hab ▸ (h.label a).mp ha)
  · intro a
    rw [List.mem_append, h.label, h.isolated]
    constructor
    · rintro (h1 | h1)
      · exact touched_node hX h1
      · exact h1.1
    · intro h1
      by_cases h2 : X.Touched a
      · exact .inl h2
      · exact .inr ⟨h1, h2⟩

theorem adj_touched {X : SubInput α} {a b : α} (h : X.graph.Adj a b) : X.Touched a ∧ X.Touched b := by
  unfold Graph.Adj at h
  rw [graph_edges] at h
  rcases h with h | h
  · exact ⟨⟨_, h, .inl rfl⟩, ⟨_, h, .inr rfl⟩⟩
  · exact ⟨⟨_, h, .inr rfl⟩, ⟨_, h, .inl rfl⟩⟩

/-- The whole mapping from its two parts: `iso` places the isolated nodes. -/
theorem Part.complete {inj : Injectivity} {S : SubInput α} {T : SubInput β} {P : SubRead α} {Q : SubRead β} {emb : List (α × β)}
    (h : Part inj S T P Q emb) (hS : S.graph.WF) (hT : T.graph.WF) (hP : ReadOK S P) (hQ : ReadOK T Q) {iso : List (α × β)}
    (hk : iso.map Prod.fst = P.isolated) (hv : ∀ p ∈ iso, p.2 ∈ T.graph.nodes)
    (hinj : inj = .injective → ((emb ++ iso).map Prod.snd).Nodup) :
    SubgraphMap inj S.graph T.graph (emb ++ iso) := by
  have hiso : ∀ p ∈ iso, ¬ S.Touched p.1 := by
    intro p hp
    exact ((hP.isolated p.1).mp (hk ▸ List.mem_map_of_mem hp)).2
  have hin : ∀ p ∈ emb ++ iso, S.Touched p.1 → p ∈ emb := by
    intro p hp ht
    rcases List.mem_append.mp hp with hp | hp
    · exact hp
    · exact absurd ht (hiso p hp)
  refine ⟨?_, ?_, ?_, hinj, ?_⟩
  · rw [List.map_append, h.keys, hk]
    exact read_perm hS hP
  · intro p hp
    rcases List.mem_append.mp hp with hp | hp
    · exact touched_node hT ((hQ.label _).mp (h.nodes p hp))
    · exact hv p hp
  · intro p hp q hq hadj
    obtain ⟨t1, t2⟩ := adj_touched hadj
    exact (h.edges p (hin p hp t1) q (hin q hq t2) hadj).1
  · intro hl p hp q hq r hr hpq hpr
    exact h.locally hl p (hin p hp (adj_touched hpq).1) q (hin q hq (adj_touched hpq).2) r (hin r hr (adj_touched hpr).2) hpq hpr

theorem filter_notMem_length {l v : List β} (hl : l.Nodup) (hv : v.Nodup) (hs : ∀ b ∈ v, b ∈ l) :
    (l.filter fun t => decide (t ∉ v)).length + v.length = l.length := by
  have h1 : (l.filter fun t => decide (t ∈ v)).Perm v := by
    refine (List.perm_ext_iff_of_nodup (hl.filter _) hv).mpr ?_
    intro a
    simp only [List.mem_filter, decide_eq_true_eq]
    exact ⟨fun h => h.2, fun h => ⟨hs a h, h⟩⟩
  have h2 := List.length_eq_length_filter_add (l := l) (fun t => decide (t ∈ v))
  rw [h1.length_eq] at h2
  have h3 : (l.filter fun t => !decide (t ∈ v)) = l.filter fun t => decide (t ∉ v) := by
    congr 1
    funext t
    simp
  rw [h3] at h2
  omega

/-- What `find_subgraph` does, in full: either the mapping is empty, or it is complete. -/
theorem findSubgraph_spec {S : SubInput α} {T : SubInput β} (hS : S.graph.WF) (hT : T.graph.WF) {shS : Option (Shuffle α)} {shT : Option (Shuffle β)}
    (hsS : Shuffle.OK shS) (hsT : Shuffle.OK shT) (inj : Injectivity) {setOrder : List β → List β} (ho : ∀ l, (setOrder l).Perm l)
    {solve : Injectivity → SolverGraph → SolverGraph → List (Nat × Nat)} (hsolve : Sound solve) :
    ∃ emb, findSubgraph S T shS shT inj setOrder solve = .ok emb ∧
      (emb = [] ∧ (S.graph.nodes = [] ∨ (S.edges ≠ [] ∧ solve inj (S.read shS).g (T.read shT).g = []) ∨
          (inj = .injective ∧ T.graph.nodes.length < S.graph.nodes.length) ∨ T.graph.nodes = []) ∨
        SubgraphMap inj S.graph T.graph emb ∧ ∃ part iso, emb = part ++ iso ∧ Part inj S T (S.read shS) (T.read shT) part ∧
          ∀ p ∈ iso, ¬ S.Touched p.1) := by
  have hP := read_ok hS hsS
  have hQ := read_ok hT hsT
  generalize hPe : S.read shS = P at hP
  generalize hQe : T.read shT = Q at hQ
  have lenS : P.L.label.length + P.isolated.length = S.graph.nodes.length := by
    rw [← (read_perm hS hP).length_eq, List.length_append]
  have lenT : Q.L.label.length + Q.isolated.length = T.graph.nodes.length := by
    rw [← (read_perm hT hQ).length_eq, List.length_append]
  have hlabE : P.L.label = [] → S.edges = [] := by
    intro h
    by_contra hne
    obtain ⟨e, he⟩ := List.exists_mem_of_ne_nil _ hne
    have := (hP.label e.1).mpr ⟨e, he, .inl rfl⟩
    rw [h] at this
    cases this
  have hElab : S.edges = [] → P.L.label = [] := by
    intro h
    by_contra hne
    obtain ⟨a, ha⟩ := List.exists_mem_of_ne_nil _ hne
    obtain ⟨e, he, -⟩ := (hP.label a).mp ha
    rw [h] at he
    cases he
  -- the solver's part
  have hsol : ∃ emb, (if P.L.label.length + P.isolated.length ≤ Q.L.label.length + Q.isolated.length ∨ inj ≠ .injective then
      translate P.L Q.L (solve inj P.g Q.g) [] else .ok [] : Except PErr (List (α × β))) = .ok emb ∧
      (Part inj S T P Q emb ∧ (emb ≠ [] → inj = .injective → S.graph.nodes.length ≤ T.graph.nodes.length) ∨
        emb = [] ∧ P.L.label ≠ [] ∧ ((S.edges ≠ [] ∧ solve inj P.g Q.g = []) ∨ (inj = .injective ∧ T.graph.nodes.length < S.graph.nodes.length))) := by
    split
    · rename_i hc
      have himp : inj = .injective → S.graph.nodes.length ≤ T.graph.nodes.length := by
        intro hi
        rcases hc with hc | hc
        · omega
        · exact absurd hi hc
      rcases hsolve inj P.g Q.g with he | ⟨f, hf, he⟩
      · refine ⟨[], by rw [he]; rfl, ?_⟩
        by_cases hl : P.L.label = []
        · exact .inl ⟨part_nil hl, fun h => absurd rfl h⟩
        · exact .inr ⟨rfl, hl, .inl ⟨fun h => hl (hElab h), he⟩⟩
      · rw [he]
        obtain ⟨emb, e, hp⟩ := translate_part hP hQ hf
        exact ⟨emb, e, .inl ⟨hp, fun _ => himp⟩⟩
    · rename_i hc
      push Not at hc
      refine ⟨[], rfl, ?_⟩
      by_cases hl : P.L.label = []
      · exact .inl ⟨part_nil hl, fun h => absurd rfl h⟩
      · exact .inr ⟨rfl, hl, .inr ⟨hc.2, by omega⟩⟩
  obtain ⟨emb, e1, hcase⟩ := hsol
  unfold findSubgraph
  rw [hPe, hQe]
  dsimp only
  rw [e1]
  dsimp only
  rcases hcase with ⟨hpart, himp⟩ | ⟨rfl, hl, hwhy⟩
  swap
  · -- the solver's answer is empty though there are edges
    rw [if_neg]
    · exact ⟨[], rfl, .inl ⟨rfl, .inr (hwhy.elim .inl (fun h => .inr (.inl h)))⟩⟩
    · rintro ⟨-, h⟩
      exact hl (List.length_eq_zero_iff.mp h.symm)
  have hlen : emb.length = P.L.label.length := by rw [← hpart.keys, List.length_map]
  by_cases hiso : P.isolated = []
  · rw [if_neg (fun h => h.1 hiso)]
    refine ⟨emb, rfl, ?_⟩
    have := hpart.complete hS hT hP hQ (iso := []) (by rw [hiso]; rfl) (by simp) (by simpa using hpart.injective)
    rw [List.append_nil] at this
    exact .inr ⟨this, emb, [], by simp, hpart, by simp⟩
  rw [if_pos ⟨hiso, hlen⟩]
  have hsome : S.graph.nodes.length ≠ 0 := by
    have : P.isolated.length ≠ 0 := fun h => hiso (List.length_eq_zero_iff.mp h)
    omega
  have hnew : ∀ a ∈ P.isolated, a ∉ emb.map Prod.fst := by
    intro a ha
    rw [hpart.keys]
    intro h
    exact ((hP.isolated a).mp ha).2 ((hP.label a).mp h)
  by_cases hinj : inj = .injective
  · rw [if_pos hinj]
    have hvn := hpart.injective hinj
    have hfl := filter_notMem_length hQ.wf.nodup hvn (by
      intro b hb
      obtain ⟨p, hp, rfl⟩ := List.mem_map.mp hb
      exact hpart.nodes p hp)
    rw [List.length_map] at hfl
    generalize hfree : Q.isolated ++ setOrder (Q.L.label.filter fun t => decide (t ∉ emb.map Prod.snd)) = free
    have hfreelen : free.length + emb.length = T.graph.nodes.length := by
      rw [← hfree, List.length_append, (ho _).length_eq]
      omega
    have hfreemem : ∀ b ∈ free, b ∈ T.graph.nodes ∧ b ∉ emb.map Prod.snd := by
      intro b hb
      rw [← hfree] at hb
      rcases List.mem_append.mp hb with hb | hb
      · refine ⟨((hQ.isolated b).mp hb).1, ?_⟩
        intro h
        obtain ⟨p, hp, rfl⟩ := List.mem_map.mp h
        exact ((hQ.isolated _).mp hb).2 ((hQ.label _).mp (hpart.nodes p hp))
      · have := (ho _).mem_iff.mp hb
        simp only [List.mem_filter, decide_eq_true_eq] at this
        exact ⟨touched_node hT ((hQ.label _).mp this.1), this.2⟩
    have hfreenodup : free.Nodup := by
      rw [← hfree]
      refine List.nodup_append.mpr ⟨hQ.nodup, (ho _).symm.nodup (hQ.wf.nodup.filter _), ?_⟩
      intro a ha b hb hab
      have hb' := (ho _).mem_iff.mp hb
      simp only [List.mem_filter, decide_eq_true_eq] at hb'
      exact ((hQ.isolated a).mp ha).2 (hab ▸ (hQ.label b).mp hb'.1)
    split
    · rename_i hle
      have hk : (P.isolated.zip free).map Prod.fst = P.isolated := List.map_fst_zip hle
      rw [dictSet_fold (by rw [hk]; exact hP.nodup) (by
        intro p hp
        exact hnew p.1 (hk ▸ List.mem_map_of_mem hp))]
      refine ⟨_, rfl, .inr ⟨?_, emb, _, rfl, hpart, ?_⟩⟩
      · refine hpart.complete hS hT hP hQ hk ?_ ?_
        · intro p hp
          exact (hfreemem p.2 (List.of_mem_zip hp).2).1
        · intro _
          rw [List.map_append]
          refine List.nodup_append.mpr ⟨hvn, ?_, ?_⟩
          · have : ((P.isolated.zip free).map Prod.snd).Sublist free := by
              rw [show (P.isolated.zip free).map Prod.snd = free.take P.isolated.length from ?_]
              · exact List.take_sublist _ _
              · have : ∀ (a : List α) (b : List β), a.length ≤ b.length → (a.zip b).map Prod.snd = b.take a.length := by
                  intro a
                  induction a with
                  | nil => simp
                  | cons x a ih =>
                    intro b hb
                    cases b with
                    | nil => simp at hb
                    | cons y b => simp [ih b (by simpa using hb)]
                exact this _ _ hle
            exact this.nodup hfreenodup
          · intro a ha b hb hab
            obtain ⟨p, hp, rfl⟩ := List.mem_map.mp hb
            exact (hfreemem p.2 (List.of_mem_zip hp).2).2 (hab ▸ ha)
      · intro p hp
        exact ((hP.isolated p.1).mp (List.of_mem_zip hp).1).2
    · rename_i hgt
      have hemb : emb = [] := by
        by_contra hne
        have := himp hne hinj
        omega
      refine ⟨emb, rfl, .inl ⟨hemb, .inr (.inr (.inl ⟨hinj, by omega⟩))⟩⟩
  · rw [if_neg hinj]
    have finish : ∀ t, t ∈ T.graph.nodes → ∃ emb', (.ok (P.isolated.foldl (fun d s => dictSet d s t) emb) : Except PErr (List (α × β))) = .ok emb' ∧
        (emb' = [] ∧ (S.graph.nodes = [] ∨ (S.edges ≠ [] ∧ solve inj P.g Q.g = []) ∨
          (inj = .injective ∧ T.graph.nodes.length < S.graph.nodes.length) ∨ T.graph.nodes = []) ∨
        SubgraphMap inj S.graph T.graph emb' ∧ ∃ part iso, emb' = part ++ iso ∧ Part inj S T P Q part ∧
          ∀ p ∈ iso, ¬ S.Touched p.1) := by
      intro t ht
      have e2 : P.isolated.foldl (fun d s => dictSet d s t) emb = emb ++ P.isolated.map fun s => (s, t) := by
        rw [← dictSet_fold (ps := P.isolated.map fun s => (s, t)), List.foldl_map]
        · rw [List.map_map]
          exact hP.nodup.map (fun _ _ h => h)
        · intro p hp
          obtain ⟨s, hs, rfl⟩ := List.mem_map.mp hp
          exact hnew s hs
      rw [e2]
      refine ⟨_, rfl, .inr ⟨?_, emb, _, rfl, hpart, ?_⟩⟩
      · refine hpart.complete hS hT hP hQ ?_ ?_ (fun h => absurd h hinj)
        · rw [List.map_map]
          exact List.map_id _
        · intro p hp
          obtain ⟨s, hs, rfl⟩ := List.mem_map.mp hp
          exact ht
      · intro p hp
        obtain ⟨s, hs, rfl⟩ := List.mem_map.mp hp
        exact ((hP.isolated s).mp hs).2
    cases hqi : Q.isolated with
    | cons t l =>
      dsimp only
      exact finish t ((hQ.isolated t).mp (by rw [hqi]; simp)).1
    | nil =>
      cases hql : Q.L.label with
      | cons t l =>
        dsimp only
        exact finish t (touched_node hT ((hQ.label t).mp (by rw [hql]; simp)))
      | nil =>
        dsimp only
        refine ⟨emb, rfl, .inl ⟨?_, .inr (.inr (.inr ?_))⟩⟩
        · by_contra hne
          obtain ⟨p, hp⟩ := List.exists_mem_of_ne_nil _ hne
          have := hpart.nodes p hp
          rw [hql] at this
          cases this
        · rw [hqi, hql] at lenT
          exact List.length_eq_zero_iff.mp lenT.symm

end Py

/-- Whatever the graphs, `find_subgraph` returns, and what it returns is empty or maps every source node, edges to
edges, as injectively as asked for. -/
theorem C33_empty_or_complete {S : SubInput α} {T : SubInput β} (hS : S.graph.WF) (hT : T.graph.WF) {shS : Option (Shuffle α)} {shT : Option (Shuffle β)}
    (hsS : Shuffle.OK shS) (hsT : Shuffle.OK shT) (inj : Injectivity) {setOrder : List β → List β} (ho : ∀ l, (setOrder l).Perm l)
    {solve : Injectivity → SolverGraph → SolverGraph → List (Nat × Nat)} (hsolve : Sound solve) :
    ∃ emb, findSubgraph S T shS shT inj setOrder solve = .ok emb ∧ (emb = [] ∨ SubgraphMap inj S.graph T.graph emb) := by
  obtain ⟨emb, e, h | h⟩ := findSubgraph_spec hS hT hsS hsT inj ho hsolve
  · exact ⟨emb, e, .inl h.1⟩
  · exact ⟨emb, e, .inr h.1⟩

/-- With too few target nodes the injective search returns the empty mapping. -/
theorem C33_too_few_nodes {S : SubInput α} {T : SubInput β} (hS : S.graph.WF) (hT : T.graph.WF) {shS : Option (Shuffle α)} {shT : Option (Shuffle β)}
    (hsS : Shuffle.OK shS) (hsT : Shuffle.OK shT) {setOrder : List β → List β} (ho : ∀ l, (setOrder l).Perm l)
    {solve : Injectivity → SolverGraph → SolverGraph → List (Nat × Nat)} (hsolve : Sound solve)
    (hfew : T.graph.nodes.length < S.graph.nodes.length) :
    findSubgraph S T shS shT .injective setOrder solve = .ok [] := by
  obtain ⟨emb, e, h | h⟩ := C33_empty_or_complete hS hT hsS hsT .injective ho hsolve
  · rw [e, h]
  · exfalso
    have h1 := (List.subperm_of_subset (h.injective rfl) (l₂ := T.graph.nodes) (by
      intro b hb
      obtain ⟨p, hp, rfl⟩ := List.mem_map.mp hb
      exact h.nodes p hp)).length_le
    have h2 := h.total.length_eq
    rw [List.length_map] at h1 h2
    omega

/-- A source with nodes gets a mapping if the target has enough nodes and the solver finds a mapping for the part with
edges, or there are no edges. -/
theorem C33_found {S : SubInput α} {T : SubInput β} (hS : S.graph.WF) (hT : T.graph.WF) {shS : Option (Shuffle α)} {shT : Option (Shuffle β)}
    (hsS : Shuffle.OK shS) (hsT : Shuffle.OK shT) (inj : Injectivity) {setOrder : List β → List β} (ho : ∀ l, (setOrder l).Perm l)
    {solve : Injectivity → SolverGraph → SolverGraph → List (Nat × Nat)} (hsolve : Sound solve)
    (hnodes : S.graph.nodes ≠ []) (hfound : S.edges = [] ∨ solve inj (S.read shS).g (T.read shT).g ≠ []) (htarget : T.graph.nodes ≠ [])
    (hroom : inj = .injective → S.graph.nodes.length ≤ T.graph.nodes.length) :
    ∃ emb, findSubgraph S T shS shT inj setOrder solve = .ok emb ∧ SubgraphMap inj S.graph T.graph emb := by
  obtain ⟨emb, e, h | h⟩ := findSubgraph_spec hS hT hsS hsT inj ho hsolve
  · exfalso
    rcases h.2 with h | h | h | h
    · exact hnodes h
    · rcases hfound with h1 | h1
      · exact h.1 h1
      · exact h1 h.2
    · have := hroom h.1
      omega
    · exact htarget h
  · exact ⟨emb, e, h.1⟩

/-- What a labelling, if there is one, says of an object; what has no label counts as labelled with the empty string. -/
def Spec.Py.labelOf {γ : Type} (l : Option (γ → Option String)) (x : γ) : String := (l.bind fun f => f x).getD ""

theorem Py.nodeName_eq (X : SubInput α) (a : α) : X.nodeName a = Spec.Py.labelOf X.nodeLabel a := by
  unfold SubInput.nodeName labelOf
  cases X.nodeLabel with
  | none => rfl
  | some f => cases h : f a <;> simp [h]

theorem Py.edgeName_eq (X : SubInput α) (e : α × α) : X.edgeName e = Spec.Py.labelOf X.edgeLabel e := by
  unfold SubInput.edgeName labelOf
  cases X.edgeLabel with
  | none => rfl
  | some f => cases h : f e <;> simp [h]

/-- `node_labels` and `edge_labels` are respected for edges and for nodes with an edge; isolated nodes are missing. -/
theorem C59_labels_partial {S : SubInput α} {T : SubInput β} (hS : S.graph.WF) (hT : T.graph.WF) {shS : Option (Shuffle α)} {shT : Option (Shuffle β)}
    (hsS : Shuffle.OK shS) (hsT : Shuffle.OK shT) (inj : Injectivity) {setOrder : List β → List β} (ho : ∀ l, (setOrder l).Perm l)
    {solve : Injectivity → SolverGraph → SolverGraph → List (Nat × Nat)} (hsolve : Sound solve) :
    ∃ emb, findSubgraph S T shS shT inj setOrder solve = .ok emb ∧
      (∀ p ∈ emb, (∃ w, S.graph.Adj p.1 w) → labelOf S.nodeLabel p.1 = labelOf T.nodeLabel p.2) ∧
      ∀ p ∈ emb, ∀ q ∈ emb, S.graph.Adj p.1 q.1 → labelOf S.edgeLabel (p.1, q.1) = labelOf T.edgeLabel (p.2, q.2) := by
  simp only [← nodeName_eq, ← edgeName_eq]
  obtain ⟨emb, e, h | ⟨-, part, iso, rfl, hp, hi⟩⟩ := findSubgraph_spec hS hT hsS hsT inj ho hsolve
  · rw [h.1] at e
    exact ⟨[], e, by simp, by simp⟩
  · refine ⟨_, e, ?_, ?_⟩
    · rintro p hpm ⟨w, hw⟩
      rcases List.mem_append.mp hpm with hpm | hpm
      · exact hp.names p hpm
      · exact absurd (adj_touched hw).1 (hi p hpm)
    · intro p hpm q hqm hadj
      rcases List.mem_append.mp hpm with hpm | hpm
      · rcases List.mem_append.mp hqm with hqm | hqm
        · exact (hp.edges p hpm q hqm hadj).2
        · exact absurd (adj_touched hadj).2 (hi q hqm)
      · exact absurd (adj_touched hadj).1 (hi p hpm)

namespace Demo

/-- A node labelled "a" alone. -/
def oneA : SubInput Nat where
  edges := []
  nodes := some [0]
  nodeLabel := some fun _ => some "a"
  edgeLabel := none

/-- Nodes labelled "b" and "a". -/
def twoBA : SubInput Nat where
  edges := []
  nodes := some [7, 8]
  nodeLabel := some fun v => some (if v = 7 then "b" else "a")
  edgeLabel := none

/-- A solver that knows the empty pattern and, for a pattern of one edge, the first edge of the target. -/
def edgeSolver (_ : Injectivity) (P Q : SolverGraph) : List (Nat × Nat) :=
  if P.size = 2 ∧ P.links = [((0, 1), ""), ((1, 0), "")] ∧ 2 ≤ Q.size ∧ ((0, 1), "") ∈ Q.links ∧ ((1, 0), "") ∈ Q.links ∧
    P.name 0 = Q.name 0 ∧ P.name 1 = Q.name 1 then [(0, 0), (1, 1)] else []

theorem edgeSolver_sound : Sound edgeSolver := by
  intro inj P Q
  unfold edgeSolver
  split
  · rename_i h
    obtain ⟨h1, h2, h3, h4, h5, h6, h7⟩ := h
    right
    refine ⟨id, ⟨?_, ?_, ?_, fun _ _ _ _ _ h => h, fun _ _ _ _ _ _ _ _ h => h⟩, by rw [h1]; rfl⟩
    · intro i hi
      exact Nat.lt_of_lt_of_le (h1 ▸ hi) h3
    · intro i hi
      rw [h1] at hi
      rcases (show i = 0 ∨ i = 1 by omega) with rfl | rfl
      · exact h6
      · exact h7
    · intro i j l hl
      rw [h2] at hl
      simp only [List.mem_cons, List.not_mem_nil, or_false, Prod.mk.injEq] at hl
      rcases hl with ⟨⟨rfl, rfl⟩, rfl⟩ | ⟨⟨rfl, rfl⟩, rfl⟩
      · exact h4
      · exact h5
  · exact .inl rfl

/-- An edge and an isolated node. -/
def edgeDot : SubInput Nat where
  edges := [(1, 2)]
  nodes := some [0, 1, 2]
  nodeLabel := none
  edgeLabel := none

/-- A triangle. -/
def triangleIn : SubInput Nat where
  edges := [(10, 11), (11, 12), (10, 12)]
  nodes := none
  nodeLabel := none
  edgeLabel := none

end Demo

/-- Labels of isolated nodes are ignored: a node labelled "a" is put on one labelled "b", though another target node
carries the label "a". -/
theorem C59_isolated_nodes :
    Demo.oneA.graph.WF ∧ Demo.twoBA.graph.WF ∧ Sound Demo.edgeSolver ∧
    (findSubgraph Demo.oneA Demo.twoBA none none .injective id Demo.edgeSolver).toOption = some [(0, 7)] ∧
    labelOf Demo.oneA.nodeLabel 0 = "a" ∧ labelOf Demo.twoBA.nodeLabel 7 = "b" ∧ labelOf Demo.twoBA.nodeLabel 8 = "a" :=
  ⟨⟨by decide, by decide⟩, ⟨by decide, by decide⟩, Demo.edgeSolver_sound, rfl, rfl, rfl, rfl⟩

/-- An edge and an isolated node in a triangle given as an edge list: all three nodes are placed. -/
example : Demo.edgeDot.graph.WF ∧ Demo.triangleIn.graph.WF ∧ Sound Demo.edgeSolver ∧ Shuffle.OK (none : Option (Shuffle Nat)) ∧
    (findSubgraph Demo.edgeDot Demo.triangleIn none none .injective id Demo.edgeSolver).toOption = some [(1, 10), (2, 11), (0, 12)] :=
  ⟨⟨by decide, by decide⟩, ⟨by decide, by decide⟩, Demo.edgeSolver_sound, by simp [Shuffle.OK], by decide +kernel⟩

end MM
