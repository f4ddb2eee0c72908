import Verif.Graph.UnionFind

/-! `components` computes the connected components. -/

namespace MM
namespace Comps

open Relation

/-! ### grouping -/

theorem group_spec {n : Nat} {par rank rep : Nat → Nat} (h : UF.Inv n par rank rep) :
    Ok (group n par) (fun c => (∀ r x, x ∈ c r ↔ x < n ∧ rep x = r) ∧ ∀ r, (c r).Nodup) := by
  unfold group
  refine Ok.bind (Ok.foldlM (I := fun done (s : (Nat → Nat) × (Nat → List Nat)) =>
    UF.Inv n s.1 rank rep ∧ (∀ r x, x ∈ s.2 r ↔ x ∈ done ∧ rep x = r) ∧ ∀ r, (s.2 r).Nodup) ?_ ?_) ?_
  · exact ⟨h, by simp, by simp⟩
  · rintro done x ⟨par, c⟩ hx ⟨rest, hrest⟩ ⟨h1, h2, h3⟩
    have hxn : x < n := by simpa using hx
    have hnd : (List.range n).reverse.Nodup := (List.reverse_perm _).nodup_iff.2 List.nodup_range
    have hxd : x ∉ done := by
      rw [hrest] at hnd
      intro hm
      exact (List.nodup_append.1 hnd).2.2 x hm x (by simp) rfl
    refine Ok.bind (UF.find_spec n h1 hxn (by omega)) ?_
    rintro ⟨par1, r⟩ ⟨k1, k2, _⟩
    dsimp only at *
    subst k2
    refine Ok.pure ⟨k1, ?_, ?_⟩
    · intro r y
      dsimp only
      by_cases hr : r = rep x
      · subst hr
        rw [upd_same, List.mem_append, h2, List.mem_append]
        simp only [List.mem_singleton]
        constructor
        · rintro (⟨a, b⟩ | rfl)
          · exact ⟨Or.inl a, b⟩
          · exact ⟨Or.inr rfl, rfl⟩
        · rintro ⟨a | rfl, b⟩
          · exact Or.inl ⟨a, b⟩
          · exact Or.inr rfl
      · rw [upd_ne _ _ hr, h2, List.mem_append]
        simp only [List.mem_singleton]
        constructor
        · rintro ⟨a, b⟩; exact ⟨Or.inl a, b⟩
        · rintro ⟨a | rfl, b⟩
          · exact ⟨a, b⟩
          · exact absurd b.symm hr
    · intro r
      dsimp only
      by_cases hr : r = rep x
      · subst hr
        rw [upd_same, List.nodup_append]
        refine ⟨h3 _, by simp, ?_⟩
        intro a ha b hb
        simp at hb; subst hb
        rintro rfl
        exact hxd ((h2 _ _).1 ha).1
      · rw [upd_ne _ _ hr]; exact h3 r
  · rintro ⟨par', c⟩ ⟨_, h2, h3⟩
    refine Ok.pure ⟨fun r x => ?_, h3⟩
    rw [h2]; simp

/-! ### partition -/

theorem part_spec (res : Nat → Bool) : ∀ (f : Nat) (m t : List Nat), m.length ≤ f →
    ((part res f m t).1 ++ (part res f m t).2).Perm (m ++ t) ∧
    (∀ x ∈ (part res f m t).1, res x = false) ∧
    ((∀ x ∈ t, res x = true) → ∀ x ∈ (part res f m t).2, res x = true) := by
  intro f
  induction f with
  | zero =>
    intro m t h
    have : m = [] := by simpa using h
    subst this
    simp [part]
  | succ f ih =>
    intro m t h
    cases m with
    | nil => simp [part]
    | cons x m =>
      unfold part
      have hm : m.length ≤ f := by simpa using h
      split
      · next hx =>
        cases hl : m.getLast? with
        | none =>
          rw [List.getLast?_eq_none_iff] at hl
          subst hl
          simp [hx]
        | some y =>
          have hne : m ≠ [] := by rintro rfl; simp at hl
          have hm' : m.dropLast ++ [y] = m := by
            have h0 := List.dropLast_concat_getLast hne
            rw [List.getLast?_eq_some_getLast hne] at hl
            rw [Option.some.injEq] at hl
            rw [hl] at h0; exact h0
          have hlen : (y :: m.dropLast).length ≤ f := by
            have := congrArg List.length hm'
            simp at this ⊢; omega
          obtain ⟨h1, h2, h3⟩ := ih (y :: m.dropLast) (x :: t) hlen
          refine ⟨h1.trans ?_, h2, fun ht => h3 ?_⟩
          · have h4 : (y :: m.dropLast).Perm m := by
              have := (List.perm_append_singleton y m.dropLast).symm
              rw [hm'] at this; exact this
            calc (y :: m.dropLast) ++ x :: t
                _ |>.Perm (m ++ x :: t) := h4.append_right _
                _ |>.Perm (x :: m ++ t) := List.perm_middle
          · intro z hz
            rcases List.mem_cons.1 hz with rfl | hz
            · exact hx
            · exact ht z hz
      · next hx =>
        obtain ⟨h1, h2, h3⟩ := ih m t hm
        refine ⟨h1.cons x, ?_, h3⟩
        intro z hz
        rcases List.mem_cons.1 hz with rfl | hz
        · simpa using hx
        · exact h2 z hz

/-! ### numbering -/

theorem number_spec {c : Nat} : ∀ (l : List Nat) (k : Nat) (s : (Nat → Nat) × (Nat → Nat)), l.Nodup →
    let r := (l.zipIdx k).reverse.foldl (init := s) fun s (x, j) => (upd s.1 x c, upd s.2 x j)
    (∀ j x, l[j]? = some x → r.1 x = c ∧ r.2 x = k + j) ∧
    (∀ x, x ∉ l → r.1 x = s.1 x ∧ r.2 x = s.2 x) := by
  intro l
  induction l with
  | nil => intro k s _; simp
  | cons y l ih =>
    intro k s hnd
    obtain ⟨hy, hl⟩ := List.nodup_cons.1 hnd
    obtain ⟨h1, h2⟩ := ih (k + 1) s hl
    simp only [List.zipIdx_cons, List.reverse_cons, List.foldl_append, List.foldl_cons, List.foldl_nil]
    generalize List.foldl _ s (l.zipIdx (k + 1)).reverse = r at *
    dsimp only at *
    constructor
    · intro j x hj
      cases j with
      | zero => simp at hj; subst hj; simp
      | succ j =>
        simp at hj
        have hx : x ≠ y := by rintro rfl; exact hy (List.mem_of_getElem? hj)
        rw [upd_ne _ _ hx, upd_ne _ _ hx]
        have := h1 j x hj
        exact ⟨this.1, by rw [this.2]; omega⟩
    · intro x hx
      have hx1 : x ≠ y := by rintro rfl; simp at hx
      rw [upd_ne _ _ hx1, upd_ne _ _ hx1]
      exact h2 x (fun h => hx (by simp [h]))

theorem numberAll_spec : ∀ (L : List (List Nat)) (k : Nat) (s : (Nat → Nat) × (Nat → Nat)),
    (∀ l ∈ L, l.Nodup) → L.Pairwise (fun a b => ∀ x, x ∈ a → x ∉ b) →
    let r := (L.zipIdx k).foldl (init := s) fun s (l, c) => number c l s
    (∀ c l j x, L[c]? = some l → l[j]? = some x → r.1 x = k + c ∧ r.2 x = j) ∧
    (∀ x, (∀ l ∈ L, x ∉ l) → r.1 x = s.1 x ∧ r.2 x = s.2 x) := by
  intro L
  induction L with
  | nil => intro k s _ _; simp
  | cons l L ih =>
    intro k s hnd hp
    obtain ⟨hp1, hp2⟩ := List.pairwise_cons.1 hp
    obtain ⟨n1, n2⟩ := number_spec (c := k) l 0 s (hnd l (by simp))
    obtain ⟨h1, h2⟩ := ih (k + 1) (number k l s) (fun l hl => hnd l (by simp [hl])) hp2
    simp only [List.zipIdx_cons, List.foldl_cons]
    constructor
    · intro c l' j x hc hj
      cases c with
      | zero =>
        simp at hc; subst hc
        have hx := List.mem_of_getElem? hj
        have h3 := h2 x (fun l' hl' => hp1 l' hl' x hx)
        have h4 := n1 j x hj
        exact ⟨h3.1.trans h4.1, h3.2.trans (h4.2.trans (Nat.zero_add j))⟩
      | succ c =>
        simp at hc
        have := h1 c l' j x hc hj
        exact ⟨by rw [this.1]; omega, this.2⟩
    · intro x hx
      have h3 := h2 x (fun l' hl' => hx l' (by simp [hl']))
      have h4 := n2 x (hx l (by simp))
      exact ⟨h3.1.trans h4.1, h3.2.trans h4.2⟩

/-! ### the whole construction -/

/-- `C` is the decomposition of `g` into connected components, reserved nodes last. -/
structure OK (g : IGraph) (res : Nat → Bool) (C : Comps) : Prop where
  /-- every node has a place, and finding it back gives the node -/
  back : ∀ x, x < g.n → ∃ l, C.comp[C.index x]? = some l ∧ l[C.label x]? = some x
  place : ∀ c l j x, C.comp[c]? = some l → l[j]? = some x → x < g.n ∧ C.index x = c ∧ C.label x = j
  /-- same component exactly when connected by a path -/
  conn : ∀ x y, x < g.n → y < g.n → (C.index x = C.index y ↔ ReflTransGen g.Edge x y)
  ne : ∀ l ∈ C.comp, l ≠ []
  desc : C.comp.Pairwise (fun a b => b.length ≤ a.length)
  nres_len : C.nres.length = C.comp.length
  /-- exactly the last `nres` nodes of a component are reserved -/
  nres : ∀ (c : Nat) (l : List Nat) (r : Nat), C.comp[c]? = some l → C.nres[c]? = some r → r ≤ l.length ∧
    ∀ (j x : Nat), l[j]? = some x → (res x = true ↔ l.length - r ≤ j)
  /-- component graphs have exactly the relabelled edges -/
  gedges : ∀ c i j, (i, j) ∈ (C.graphs c).edges ↔
    ∃ a b, (a, b) ∈ g.edges ∧ C.index a = c ∧ C.label a = i ∧ C.label b = j
  gn : ∀ c k, k < (C.graphs c).n ↔ ∃ i j, (i, j) ∈ (C.graphs c).edges ∧ (k ≤ i ∨ k ≤ j)

theorem takeWhile_desc {L : List (List Nat)} (h : L.Pairwise (fun a b => b.length ≤ a.length)) :
    ∀ l, l ∈ L.takeWhile (fun l => !l.isEmpty) ↔ l ∈ L ∧ l ≠ [] := by
  induction L with
  | nil => simp
  | cons a L ih =>
    obtain ⟨h1, h2⟩ := List.pairwise_cons.1 h
    intro l
    rw [List.takeWhile_cons]
    by_cases ha : a = []
    · subst ha
      simp only [List.isEmpty_nil, Bool.not_true, Bool.false_eq_true, if_false, List.not_mem_nil,
        List.mem_cons, false_iff]
      rintro ⟨rfl | hl, hne⟩
      · exact hne rfl
      · have := h1 l hl
        simp at this
        exact hne this
    · have : (!a.isEmpty) = true := by simp [ha]
      rw [if_pos this, List.mem_cons, ih h2 l, List.mem_cons]
      constructor
      · rintro (rfl | ⟨b, c⟩)
        · exact ⟨Or.inl rfl, ha⟩
        · exact ⟨Or.inr b, c⟩
      · rintro ⟨rfl | b, c⟩
        · exact Or.inl rfl
        · exact Or.inr ⟨b, c⟩

theorem pushBack_edges {g : IGraph} {a b : Nat} : (g.pushBack a b).edges = g.edges ++ [(a, b)] := rfl

theorem build_spec {sort : List (List Nat) → List (List Nat)} (hs : SortOK sort) {g : IGraph}
    (hg : g.WF) (res : Nat → Bool) : Ok (build sort g res) (OK g res) := by
  unfold build
  refine Ok.bind (UF.unions_spec hg) ?_
  rintro ⟨par, rank⟩ ⟨rep, hu⟩
  dsimp only at *
  refine Ok.bind (group_spec hu.inv) ?_
  rintro c ⟨hc, hcn⟩
  obtain ⟨K, hK⟩ : ∃ K, K = (sort ((List.range g.n).map c)).takeWhile (fun l => !l.isEmpty) := ⟨_, rfl⟩
  rw [← hK]
  have hperm := hs.perm ((List.range g.n).map c)
  have hdesc := hs.desc ((List.range g.n).map c)
  have hKmem : ∀ l, l ∈ K ↔ (∃ r, r < g.n ∧ c r = l) ∧ l ≠ [] := by
    intro l
    rw [hK, takeWhile_desc hdesc, hperm.mem_iff]
    simp
  have hKsub : K.Sublist (sort ((List.range g.n).map c)) := by
    rw [hK]; exact List.takeWhile_sublist _
  have hdisj0 : ((List.range g.n).map c).Pairwise (fun a b => ∀ x, x ∈ a → x ∉ b) := by
    rw [List.pairwise_map]
    refine List.nodup_range.imp ?_
    intro i j hij x hx hx'
    exact hij (((hc i x).1 hx).2.symm.trans ((hc j x).1 hx').2)
  have hdisjK : K.Pairwise (fun a b => ∀ x, x ∈ a → x ∉ b) := by
    refine List.Pairwise.sublist hKsub ?_
    refine hperm.symm.pairwise hdisj0 ?_
    intro a b hab x hx hx'
    exact hab x hx' hx
  have hdescK := hdesc.sublist hKsub
  -- the partitioned lists
  obtain ⟨L, hL⟩ : ∃ L, L = (K.map (fun l => part res l.length l [])).map (fun p => p.1 ++ p.2) := ⟨_, rfl⟩
  rw [← hL]
  have hLK : L = K.map (fun l => (part res l.length l []).1 ++ (part res l.length l []).2) := by
    rw [hL, List.map_map]; rfl
  have hpp : ∀ l : List Nat, ((part res l.length l []).1 ++ (part res l.length l []).2).Perm l := by
    intro l
    have := (part_spec res l.length l [] (Nat.le_refl _)).1
    simpa using this
  have hLget : ∀ (i : Nat) l', L[i]? = some l' ↔ ∃ l, K[i]? = some l ∧
      l' = (part res l.length l []).1 ++ (part res l.length l []).2 := by
    intro i l'
    rw [hLK, List.getElem?_map]
    constructor
    · intro h
      rw [Option.map_eq_some_iff] at h
      obtain ⟨l, h1, h2⟩ := h
      exact ⟨l, h1, h2.symm⟩
    · rintro ⟨l, h1, h2⟩
      rw [h1, h2]; rfl
  have hLnd : ∀ l ∈ L, l.Nodup := by
    intro l hl
    rw [hLK, List.mem_map] at hl
    obtain ⟨k, hk, rfl⟩ := hl
    obtain ⟨⟨r, _, rfl⟩, _⟩ := (hKmem k).1 hk
    exact (hpp _).nodup_iff.2 (hcn r)
  have hLdisj : L.Pairwise (fun a b => ∀ x, x ∈ a → x ∉ b) := by
    rw [hLK, List.pairwise_map]
    refine hdisjK.imp ?_
    intro a b hab x hx hx'
    exact hab x ((hpp a).mem_iff.1 hx) ((hpp b).mem_iff.1 hx')
  have hLmem : ∀ l ∈ L, ∃ r, r < g.n ∧ ∀ x, x ∈ l ↔ x < g.n ∧ rep x = r := by
    intro l hl
    rw [hLK, List.mem_map] at hl
    obtain ⟨k, hk, rfl⟩ := hl
    obtain ⟨⟨r, hr, rfl⟩, _⟩ := (hKmem k).1 hk
    exact ⟨r, hr, fun x => by rw [(hpp _).mem_iff, hc]⟩
  have hLcov : ∀ x, x < g.n → ∃ l ∈ L, x ∈ l := by
    intro x hx
    have hxc : x ∈ c (rep x) := (hc _ _).2 ⟨hx, rfl⟩
    refine ⟨_, ?_, (hpp (c (rep x))).mem_iff.2 hxc⟩
    rw [hLK, List.mem_map]
    exact ⟨c (rep x), (hKmem _).2 ⟨⟨rep x, hu.inv.rlt x hx, rfl⟩, by intro h; rw [h] at hxc; simp at hxc⟩, rfl⟩
  obtain ⟨n1, n2⟩ := numberAll_spec L 0 (par, rank) hLnd hLdisj
  obtain ⟨⟨index, label⟩, hil⟩ : ∃ s, s = (L.zipIdx.foldl (init := (par, rank)) fun s (l, c) => number c l s) :=
    ⟨_, rfl⟩
  rw [← hil] at n1 n2
  rw [← hil]
  dsimp only at *
  have hback : ∀ x, x < g.n → ∃ l, L[index x]? = some l ∧ l[label x]? = some x := by
    intro x hx
    obtain ⟨l, hl, hxl⟩ := hLcov x hx
    obtain ⟨i, hi⟩ := List.getElem?_of_mem hl
    obtain ⟨j, hj⟩ := List.getElem?_of_mem hxl
    obtain ⟨h1, h2⟩ := n1 i l j x hi hj
    rw [h1, h2]
    exact ⟨l, by simpa using hi, hj⟩
  have hplace : ∀ c l j x, L[c]? = some l → l[j]? = some x → x < g.n ∧ index x = c ∧ label x = j := by
    intro c l j x h1 h2
    obtain ⟨r, _, hr⟩ := hLmem l (List.mem_of_getElem? h1)
    have := n1 c l j x h1 h2
    exact ⟨((hr x).1 (List.mem_of_getElem? h2)).1, by simpa using this.1, this.2⟩
  refine Ok.bind (Ok.foldlM (I := fun done (gs : Nat → IGraph) =>
      (∀ c i j, (i, j) ∈ (gs c).edges ↔ ∃ a b, (a, b) ∈ done ∧ index a = c ∧ label a = i ∧ label b = j) ∧
      (∀ c k, k < (gs c).n ↔ ∃ i j, (i, j) ∈ (gs c).edges ∧ (k ≤ i ∨ k ≤ j))) ?_ ?_) ?_
  · simp [IGraph.empty]
  · rintro done ⟨a, b⟩ gs he _ ⟨h1, h2⟩
    have hab := hg (a, b) (by simpa using he)
    dsimp only at hab ⊢
    obtain ⟨l, hl, _⟩ := hback a hab.1
    have hlt : index a < L.length := by
      by_contra hcon
      rw [List.getElem?_eq_none (by omega)] at hl
      simp at hl
    rw [if_pos hlt]
    refine Ok.pure ⟨?_, ?_⟩
    · intro c i j
      by_cases hci : c = index a
      · subst hci
        rw [upd_same, pushBack_edges, List.mem_append, h1]
        simp only [List.mem_append, List.mem_singleton, Prod.mk.injEq]
        constructor
        · rintro (⟨a', b', h, h'⟩ | ⟨rfl, rfl⟩)
          · exact ⟨a', b', Or.inl h, h'⟩
          · exact ⟨a, b, Or.inr ⟨rfl, rfl⟩, rfl, rfl, rfl⟩
        · rintro ⟨a', b', h | ⟨rfl, rfl⟩, h1, h2, h3⟩
          · exact Or.inl ⟨a', b', h, h1, h2, h3⟩
          · exact Or.inr ⟨h2.symm, h3.symm⟩
      · rw [upd_ne _ _ hci, h1]
        constructor
        · rintro ⟨a', b', h, h'⟩; exact ⟨a', b', by simp [h], h'⟩
        · rintro ⟨a', b', h, h1, h2⟩
          rcases List.mem_append.1 h with h | h
          · exact ⟨a', b', h, h1, h2⟩
          · simp at h; obtain ⟨rfl, rfl⟩ := h; exact absurd h1.symm hci
    · intro c k
      by_cases hci : c = index a
      · subst hci
        rw [upd_same]
        have h3 := h2 (index a) k
        simp only [IGraph.pushBack]
        constructor
        · intro hk
          by_cases hk' : k < (gs (index a)).n
          · obtain ⟨i, j, hij, hk''⟩ := h3.1 hk'
            exact ⟨i, j, by simp [hij], hk''⟩
          · exact ⟨label a, label b, by simp, by omega⟩
        · rintro ⟨i, j, hij, hk⟩
          rcases List.mem_append.1 hij with h | h
          · have := h3.2 ⟨i, j, h, hk⟩; omega
          · simp at h; obtain ⟨rfl, rfl⟩ := h; omega
      · rw [upd_ne _ _ hci]; exact h2 c k
  · rintro gs ⟨h1, h2⟩
    refine Ok.pure ⟨hback, hplace, ?_, ?_, ?_, ?_, ?_, ?_, h2⟩
    · intro x y hx hy
      dsimp only
      have e : ReflTransGen g.Edge x y ↔ ReflTransGen (UF.EdgeIn g.edges.reverse) x y := by
        have : g.Edge = UF.EdgeIn g.edges.reverse := by
          funext a b; simp [IGraph.Edge, UF.EdgeIn]
        rw [this]
      rw [e, ← hu.conn x y hx hy]
      obtain ⟨l, hl, hxl⟩ := hback x hx
      obtain ⟨l', hl', hyl⟩ := hback y hy
      obtain ⟨r, _, hr⟩ := hLmem l (List.mem_of_getElem? hl)
      obtain ⟨r', _, hr'⟩ := hLmem l' (List.mem_of_getElem? hl')
      have hx1 := ((hr x).1 (List.mem_of_getElem? hxl)).2
      have hy1 := ((hr' y).1 (List.mem_of_getElem? hyl)).2
      constructor
      · intro hi
        rw [hi, hl'] at hl
        simp at hl; subst hl
        exact hx1.trans (((hr y).1 (List.mem_of_getElem? hyl)).2).symm
      · intro hxy
        have hy2 : y ∈ l := (hr y).2 ⟨hy, by rw [← hxy]; exact hx1⟩
        obtain ⟨j, hj⟩ := List.getElem?_of_mem hy2
        exact ((hplace _ _ _ _ hl hj).2.1).symm
    · intro l hl
      dsimp only at hl
      rw [hLK, List.mem_map] at hl
      obtain ⟨k, hk, rfl⟩ := hl
      have := ((hKmem k).1 hk).2
      intro hn
      have h4 := hpp k
      rw [hn] at h4
      exact this (List.nil_perm.1 h4)
    · dsimp only
      rw [hLK, List.pairwise_map]
      refine hdescK.imp ?_
      intro a b hab
      rw [(hpp a).length_eq, (hpp b).length_eq]; exact hab
    · dsimp only
      rw [hLK]; simp
    · intro c l r hcl hcr
      dsimp only at *
      obtain ⟨k, hk, rfl⟩ := (hLget c l).1 hcl
      simp only [List.map_map, List.getElem?_map, hk, Option.map_some, Function.comp_apply,
        Option.some.injEq] at hcr
      subst hcr
      have hp := part_spec res k.length k [] (Nat.le_refl _)
      refine ⟨by simp, ?_⟩
      intro j x hj
      rw [List.length_append, Nat.add_sub_cancel]
      rw [List.getElem?_append] at hj
      split at hj
      · next hlt =>
        have := hp.2.1 x (List.mem_of_getElem? hj)
        rw [this]; simp; exact hlt
      · next hlt =>
        have := hp.2.2 (by simp) x (List.mem_of_getElem? hj)
        rw [this]; simp; omega
    · intro c i j
      dsimp only
      rw [h1]; simp

end Comps
end MM
