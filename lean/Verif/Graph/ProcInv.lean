import Verif.Graph.ParamInv

/-! The problem handed to the search, in terms of the caller's graphs and chain maps. -/

namespace MM

open Relation

namespace Input

/-- What a caller must guarantee for `findEmbedding` to be defined. -/
structure OK (I : Input) : Prop where
  src : I.src.WF
  tgt : I.tgt.WF
  src_pos : 0 < I.src.n
  tgt_pos : 0 < I.tgt.n
  /-- every target node is mentioned by an edge, perhaps a self-loop -/
  covered : ∀ x, x < I.tgt.n → ∃ y, I.tgt.Edge x y
  fkeys : (I.fixedC.map Prod.fst).Nodup
  ikeys : (I.initC.map Prod.fst).Nodup
  rkeys : (I.restrC.map Prod.fst).Nodup
  /-- fixed chains consist of existing nodes, -/
  frange : ∀ kv ∈ I.fixedC, (0 ≤ kv.1 ∧ kv.1 < (I.src.n : Int)) ∧ ∀ q ∈ kv.2, 0 ≤ q ∧ q < (I.tgt.n : Int)
  /-- are not empty -/
  fne : ∀ kv ∈ I.fixedC, kv.2 ≠ []
  /-- and do not meet -/
  fdisj : ∀ kv ∈ I.fixedC, ∀ kv' ∈ I.fixedC, kv.1 ≠ kv'.1 → ∀ q, q ∈ kv.2 → q ∉ kv'.2
  /-- initial chains are not empty, -/
  ine : ∀ kv ∈ I.initC, kv.2 ≠ []
  /-- belong to variables without fixed chain -/
  ifree : ∀ kv ∈ I.initC, ∀ kv' ∈ I.fixedC, kv.1 ≠ kv'.1
  /-- and avoid the fixed chains -/
  iavoid : ∀ kv ∈ I.initC, ∀ kv' ∈ I.fixedC, ∀ q, q ∈ kv.2 → q ∉ kv'.2

end Input

/-- `p` represents the problem `I`; `l0` lists the target nodes of the largest component. -/
structure Proc.Rep (I : Input) (p : Proc) (l0 : List Nat) : Prop where
  wf : p.P.WF
  hN : p.P.N = I.src.n
  hQ : p.P.Q = l0.length
  comp0 : p.comps.comp[0]? = some l0
  nodup : l0.Nodup
  place : ∀ j x, l0[j]? = some x → x < I.tgt.n ∧ p.comps.index x = 0 ∧ p.comps.label x = j
  back : ∀ x, x < I.tgt.n → p.comps.index x = 0 → l0[p.comps.label x]? = some x
  conn : ∀ x y, x ∈ l0 → (ReflTransGen I.tgt.Edge x y ↔ y ∈ l0)
  slt : ∀ v, v < I.src.n → p.screw v < I.src.n
  fxv : ∀ v, p.fx v = true ↔ I.FixV v
  su : ∀ v, v < I.src.n → p.unscrew (p.screw v) = v
  us : ∀ j, j < I.src.n → p.unscrew j < I.src.n ∧ p.screw (p.unscrew j) = j
  fixed : ∀ v, v < I.src.n → (p.P.nv ≤ p.screw v ↔ I.FixV v)
  ordered : ∀ u v, u < v → v < I.src.n → (I.FixV u ↔ I.FixV v) → p.screw u < p.screw v
  resv : ∀ j x, l0[j]? = some x → (p.P.nq ≤ j ↔ I.ResQ x)
  vn : ∀ u v, u < I.src.n → v < I.src.n → ¬ I.FixV u →
    (p.screw v ∈ p.P.vn (p.screw u) ↔ u ≠ v ∧ I.src.Edge u v)
  qn : ∀ i j x y, l0[i]? = some x → l0[j]? = some y →
    (j ∈ p.P.qn i ↔ x ≠ y ∧ I.tgt.Edge x y ∧ ¬ I.ResQ y)
  fch : ∀ kv ∈ I.fixedC, p.P.fixedChain (p.screw kv.1.toNat) = kv.2.map (fun x => p.comps.label x.toNat) ∧
    ∀ x ∈ kv.2, x.toNat ∈ l0
  init : Input.Renum p.comps p.screw I.initC p.init
  irange : ∀ kv ∈ I.initC, Input.EntryOK I.src.n I.tgt.n p.comps kv
  acc : ∀ (v j x : Nat), v < I.src.n → l0[j]? = some x →
    (p.P.accepts (p.screw v) j = true ↔ ∀ kv ∈ I.restrC, kv.1 = (v : Int) → (x : Int) ∈ kv.2)
  free : 0 < p.P.nq
  vnf : ∀ j, p.P.nv ≤ j → j < p.P.N → p.P.vn j = []

/-- A list of distinct numbers from an interval is not longer than the interval. -/
theorem nodup_interval {l : List Nat} {a b : Nat} (hn : l.Nodup) (h : ∀ x ∈ l, a ≤ x ∧ x < b) :
    l.length ≤ b - a := by
  have h1 : ∀ x ∈ l, x ∈ List.range' a (b - a) := by
    intro x hx
    rw [List.mem_range'_1]
    have := h x hx; omega
  have := (hn.subperm h1).length_le
  simpa using this

theorem fst_unique {α β : Type} {m : List (α × β)} (h : (m.map Prod.fst).Nodup) {a b : α × β}
    (ha : a ∈ m) (hb : b ∈ m) (he : a.1 = b.1) : a = b := by
  induction m with
  | nil => simp at ha
  | cons c m ih =>
    rw [List.map_cons, List.nodup_cons] at h
    rcases List.mem_cons.1 ha with rfl | ha
    · rcases List.mem_cons.1 hb with rfl | hb
      · rfl
      · exact absurd (List.mem_map.2 ⟨b, hb, he.symm⟩) h.1
    · rcases List.mem_cons.1 hb with hb | hb
      · exact absurd (List.mem_map.2 ⟨a, ha, by rw [he, hb]⟩) h.1
      · exact ih h.2 ha hb

theorem process_full {sort : List (List Nat) → List (List Nat)} (hs : SortOK sort) {I : Input} (hI : I.OK) :
    Ok (I.process sort) (fun p => ∃ l0, p.Rep I l0) ∨
      (I.process sort = .error .corrupt ∧ ∃ (C : Comps) (rq : Nat → Bool), C.OK I.tgt rq ∧
        ∃ kv ∈ I.fixedC ++ I.initC ++ I.restrC, ¬ Input.EntryOK I.src.n I.tgt.n C kv) ∨
      I.process sort = .error .small := by
  unfold Input.process
  obtain ⟨⟨fx, rq⟩, he, hfx, hrq⟩ := Input.reserved_spec hI.frange
  rw [he]
  dsimp only [bind, Except.bind] at hfx hrq ⊢
  obtain ⟨C, hC, ok⟩ := Comps.build_spec hs hI.tgt rq
  rw [hC]
  dsimp only
  -- component 0
  obtain ⟨l0, hl0⟩ : ∃ l0, C.comp[0]? = some l0 := by
    obtain ⟨l, hl, _⟩ := ok.back 0 hI.tgt_pos
    cases hc : C.comp with
    | nil => rw [hc] at hl; simp at hl
    | cons a _ => exact ⟨a, rfl⟩
  obtain ⟨r, hr⟩ : ∃ r, C.nres[0]? = some r := by
    have h1 := ok.nres_len
    cases hc : C.nres with
    | nil => rw [hc] at h1; cases hcc : C.comp with
      | nil => rw [hcc] at hl0; simp at hl0
      | cons => rw [hcc] at h1; simp at h1
    | cons a _ => exact ⟨a, rfl⟩
  rw [hr]
  dsimp only
  obtain ⟨hr1, hr2⟩ := ok.nres 0 l0 r hl0 hr
  have hplace : ∀ j x, l0[j]? = some x → x < I.tgt.n ∧ C.index x = 0 ∧ C.label x = j :=
    fun j x h => ok.place 0 l0 j x hl0 h
  have hback : ∀ x, x < I.tgt.n → C.index x = 0 → l0[C.label x]? = some x := by
    intro x hx h0
    obtain ⟨l, h1, h2⟩ := ok.back x hx
    rw [h0, hl0] at h1
    simp at h1; subst h1; exact h2
  have hmem0 : ∀ x, x ∈ l0 ↔ x < I.tgt.n ∧ C.index x = 0 := by
    intro x
    constructor
    · intro hx
      obtain ⟨j, hj⟩ := List.getElem?_of_mem hx
      have := hplace j x hj
      exact ⟨this.1, this.2.1⟩
    · rintro ⟨h1, h2⟩; exact List.mem_of_getElem? (hback x h1 h2)
  have hnd0 : l0.Nodup := by
    rw [List.Nodup, List.pairwise_iff_getElem]
    intro i j hi hj hij hc
    have h1 := hplace i _ (List.getElem?_eq_getElem hi)
    have h2 := hplace j _ (List.getElem?_eq_getElem hj)
    rw [hc] at h1
    omega
  have hidx : ∀ a b, I.tgt.Edge a b → C.index a = C.index b := by
    intro a b hab
    have := IGraph.Edge.lt hI.tgt hab
    exact (ok.conn a b this.1 this.2).2 (ReflTransGen.single hab)
  have hlab : ∀ x, x < I.tgt.n → C.index x = 0 → C.label x < l0.length := by
    intro x hx h0
    have := hback x hx h0
    by_contra hc
    rw [List.getElem?_eq_none (by omega)] at this
    simp at this
  have hedge : ∀ i j, (C.graphs 0).Edge i j ↔ ∃ a b, I.tgt.Edge a b ∧ C.index a = 0 ∧ C.index b = 0 ∧
      C.label a = i ∧ C.label b = j := by
    intro i j
    unfold IGraph.Edge
    rw [ok.gedges, ok.gedges]
    constructor
    · rintro (⟨a, b, h1, h2, h3, h4⟩ | ⟨a, b, h1, h2, h3, h4⟩)
      · exact ⟨a, b, Or.inl h1, h2, by rw [← hidx a b (Or.inl h1)]; exact h2, h3, h4⟩
      · exact ⟨b, a, Or.inr h1, by rw [← hidx a b (Or.inl h1)]; exact h2, h2, h4, h3⟩
    · rintro ⟨a, b, h1 | h1, h2, h3, h4, h5⟩
      · exact Or.inl ⟨a, b, h1, h2, h4, h5⟩
      · exact Or.inr ⟨b, a, h1, h3, h5, h4⟩
  have hsize : C.size 0 = l0.length := by
    unfold Comps.size
    have hne := ok.ne l0 (List.mem_of_getElem? hl0)
    have hlen : 0 < l0.length := List.length_pos_iff.2 hne
    apply Nat.le_antisymm
    · by_contra hc
      obtain ⟨i, j, hij, hk⟩ := (ok.gn 0 l0.length).1 (by omega)
      obtain ⟨a, b, h1, h2, h3, h4⟩ := (ok.gedges 0 i j).1 hij
      have hab := hI.tgt _ h1
      have h5 : C.index b = 0 := by rw [← hidx a b (Or.inl h1)]; exact h2
      have h6 := hlab a hab.1 h2
      have h7 := hlab b hab.2 h5
      omega
    · obtain ⟨x, hx⟩ : ∃ x, l0[l0.length - 1]? = some x :=
        ⟨l0[l0.length - 1], List.getElem?_eq_getElem (by omega)⟩
      obtain ⟨h1, h2, h3⟩ := hplace _ _ hx
      obtain ⟨y, hxy⟩ := hI.covered x h1
      have : (C.graphs 0).Edge (l0.length - 1) (C.label y) :=
        (hedge _ _).2 ⟨x, y, hxy, h2, by rw [← hidx x y hxy]; exact h2, h3, rfl⟩
      have : l0.length - 1 < (C.graphs 0).n := by
        rw [ok.gn]
        rcases this with h | h
        · exact ⟨_, _, h, Or.inl (Nat.le_refl _)⟩
        · exact ⟨_, _, h, Or.inr (Nat.le_refl _)⟩
      omega
  -- renumbering
  have hcnt := Input.cnt_fixed hfx hI.fkeys (fun kv hkv => (hI.frange kv hkv).1)
  have hnfle : I.fixedC.length ≤ I.src.n := hcnt ▸ Input.cnt_le_n fx I.src.n
  obtain ⟨⟨fr, bk, un⟩, hun, hscr⟩ := Input.filterFixed_spec hcnt
  rw [hun]
  dsimp only at hscr ⊢
  obtain ⟨screw, hscrew⟩ : ∃ s, s = Input.inverse I.src.n un := ⟨_, rfl⟩
  rw [← hscrew]
  have hsu : ∀ j, j < I.src.n → screw (un j) = j := by
    intro j hj
    rw [hscrew]
    exact Input.inverse_spec (fun i j hi hj => hscr.inj hi hj) hj
  have hslt : ∀ v, v < I.src.n → screw v < I.src.n ∧ un (screw v) = v := by
    intro v hv
    obtain ⟨j, hj, rfl⟩ := hscr.surj v hv
    rw [hsu j hj]; exact ⟨hj, rfl⟩
  have hsinj : ∀ a b, a < I.src.n → b < I.src.n → screw a = screw b → a = b := by
    intro a b ha hb h
    rw [← (hslt a ha).2, ← (hslt b hb).2, h]
  -- chain maps
  rcases Input.inputChains_spec (nt := I.tgt.n) (C := C) hsinj hI.fkeys with ⟨fok, fixedM, hfm, hfr⟩ | ⟨hno, hbad⟩
  swap
  · rw [hbad]
    refine Or.inr (Or.inl ⟨rfl, C, rq, ok, ?_⟩)
    obtain ⟨kv, hkv, hk⟩ := hno
    exact ⟨kv, by simp only [List.mem_append]; exact Or.inl (Or.inl hkv), hk⟩
  rw [hfm]
  dsimp only
  rcases Input.inputChains_spec (nt := I.tgt.n) (C := C) hsinj hI.ikeys with ⟨iok, initM, him, hir⟩ | ⟨hno, hbad⟩
  swap
  · rw [hbad]
    refine Or.inr (Or.inl ⟨rfl, C, rq, ok, ?_⟩)
    obtain ⟨kv, hkv, hk⟩ := hno
    exact ⟨kv, by simp only [List.mem_append]; exact Or.inl (Or.inr hkv), hk⟩
  rw [him]
  dsimp only
  rcases Input.inputChains_spec (nt := I.tgt.n) (C := C) hsinj hI.rkeys with ⟨rok, restrM, hrm, hrr⟩ | ⟨hno, hbad⟩
  swap
  · rw [hbad]
    refine Or.inr (Or.inl ⟨rfl, C, rq, ok, ?_⟩)
    obtain ⟨kv, hkv, hk⟩ := hno
    exact ⟨kv, by simp only [List.mem_append]; exact Or.inr hkv, hk⟩
  rw [hrm]
  dsimp only
  -- neighbours
  obtain ⟨vn, hvn, hvs, hvm⟩ := IGraph.getNeighbors_spec (g := I.src) (src := fun _ => false) (snk := fx)
    (rel := screw) (fun e he => ⟨(hslt _ (hI.src e he).1).1, (hslt _ (hI.src e he).2).1⟩)
  rw [hvn]
  dsimp only
  obtain ⟨qn, hqn, hqs, hqm⟩ := IGraph.getNeighbors_spec (g := C.graphs 0)
    (src := fun x => decide (((C.size 0 : Int) - r) ≤ x)) (snk := fun _ => false) (rel := id) (by
      intro e he
      refine ⟨(ok.gn 0 e.1).2 ⟨e.1, e.2, he, Or.inl (Nat.le_refl _)⟩, (ok.gn 0 e.2).2 ⟨e.1, e.2, he, Or.inr (Nat.le_refl _)⟩⟩)
  unfold Comps.neighbors
  rw [hqn]
  dsimp only
  rw [if_neg (by omega)]
  -- the problem
  obtain ⟨P, hP⟩ : ∃ P : Prob, P = { nv := I.src.n - I.fixedC.length, nf := I.fixedC.length, nq := C.size 0 - r, nr := r, qn := qn, vn := vn
                                     accepts := Input.allowed restrM, fixedChain := Input.entry fixedM } := ⟨_, rfl⟩
  rw [← hP]
  have hPN : P.N = I.src.n := by rw [hP]; unfold Prob.N; dsimp only; omega
  have hPQ : P.Q = l0.length := by rw [hP]; unfold Prob.Q; dsimp only; omega
  have hPnv : P.nv = I.src.n - I.fixedC.length := by rw [hP]
  have hPnq : P.nq = l0.length - r := by rw [hP]; dsimp only; omega
  have hPnr : P.nr = r := by rw [hP]
  have hPnf : P.nf = I.fixedC.length := by rw [hP]
  have hPvn : P.vn = vn := by rw [hP]
  have hPqn : P.qn = qn := by rw [hP]
  have hPacc : P.accepts = Input.allowed restrM := by rw [hP]
  have hPfc : P.fixedChain = Input.entry fixedM := by rw [hP]
  clear hP
  unfold Input.margin
  by_cases hq0 : P.nq = 0
  · rw [if_pos hq0]; exact Or.inr (Or.inr rfl)
  rw [if_neg hq0, if_neg (by rw [hPN]; have := hI.src_pos; omega)]
  dsimp only
  generalize (if Input.maxDegree P.N P.vn = 0 then P.nq else Input.maxDegree P.N P.vn * P.nq) % 2 ^ 32 = mg
  by_cases hmg : mg = 0
  · rw [if_pos hmg]; exact Or.inr (Or.inr rfl)
  rw [if_neg hmg]
  refine Or.inl (Ok.pure ⟨l0, ?_⟩)
  -- fixed variables
  have hfixed : ∀ v, v < I.src.n → (P.nv ≤ screw v ↔ I.FixV v) := by
    intro v hv
    have := hscr.fx (screw v) (hslt v hv).1
    rw [(hslt v hv).2, hfx] at this
    rw [hPnv]; exact this.symm
  have hresv : ∀ j x, l0[j]? = some x → (P.nq ≤ j ↔ I.ResQ x) := by
    intro j x hj
    rw [hPnq, ← hr2 j x hj]; exact hrq x
  have hfixE : ∀ j, P.nv ≤ j → j < P.N → ∃ kv ∈ I.fixedC, screw kv.1.toNat = j ∧
      P.fixedChain j = kv.2.map (fun x => C.label x.toNat) := by
    intro j h1 h2
    rw [hPN] at h2
    have h3 : screw (un j) = j := hsu j h2
    have h4 : un j < I.src.n := hscr.lt j h2
    have h5 := (hfixed (un j) h4).1 (by rw [h3]; exact h1)
    obtain ⟨kv, hkv, he⟩ := h5
    have hk : kv.1.toNat = un j := by omega
    refine ⟨kv, hkv, by rw [hk, h3], ?_⟩
    have hm : (j, kv.2.map (fun x => C.label x.toNat)) ∈ fixedM :=
      (hfr.mem _).2 ⟨kv, hkv, by rw [hk, h3]⟩
    rw [hPfc]
    unfold Input.entry
    rw [(Input.lookup_iff hfr.sorted).2 hm]
  have hfq : ∀ kv ∈ I.fixedC, ∀ x ∈ kv.2, x.toNat < I.tgt.n ∧ C.index x.toNat = 0 ∧
      C.label x.toNat < l0.length ∧ P.nq ≤ C.label x.toNat := by
    intro kv hkv x hx
    obtain ⟨h1, h2, h3⟩ := (fok kv hkv).2 x hx
    have h4 : x.toNat < I.tgt.n := by omega
    have h5 := hback _ h4 h3
    refine ⟨h4, h3, hlab _ h4 h3, ?_⟩
    rw [hresv _ _ h5]
    exact ⟨kv, hkv, by rw [Int.toNat_of_nonneg h1]; exact hx⟩
  have hvnmem : ∀ u v, u < I.src.n → v < I.src.n → ¬ I.FixV u →
      (screw v ∈ P.vn (screw u) ↔ u ≠ v ∧ I.src.Edge u v) := by
    intro u v hu hv hf
    rw [hPvn, hvm]
    constructor
    · rintro ⟨hne, a, b, ha, hb, hl, _, _⟩
      have hab := IGraph.Edge.lt hI.src (show I.src.Edge a b from hl)
      have := hsinj a u hab.1 hu ha
      have := hsinj b v hab.2 hv hb
      subst_vars
      exact ⟨fun h => hne (by rw [h]), hl⟩
    · rintro ⟨hne, he⟩
      refine ⟨fun h => hne (hsinj _ _ hu hv h), u, v, rfl, rfl, he, rfl, ?_⟩
      cases hx : fx u with
      | false => rfl
      | true => exact absurd ((hfx u).1 hx) hf
  have hfree : ∀ j, j < P.nv → un j < I.src.n ∧ screw (un j) = j ∧ ¬ I.FixV (un j) := by
    intro j hj
    have hj' : j < I.src.n := by omega
    refine ⟨hscr.lt j hj', hsu j hj', ?_⟩
    rw [← hfixed _ (hscr.lt j hj'), hsu j hj']; omega
  have hvnf : ∀ j, P.nv ≤ j → j < P.N → P.vn j = [] := by
    intro j h1 h2
    rw [hPN] at h2
    rw [List.eq_nil_iff_forall_not_mem]
    intro k hk
    rw [hPvn, hvm] at hk
    obtain ⟨_, a, b, ha, _, hl, _, hs⟩ := hk
    have hab := IGraph.Edge.lt hI.src (show I.src.Edge a b from hl)
    have := (hfx a).2 ((hfixed a hab.1).1 (by rw [ha]; exact h1))
    rw [this] at hs; cases hs
  have hvnmem2 : ∀ i k, i < P.nv → k ∈ P.vn i → ∃ v, v < I.src.n ∧ screw v = k := by
    intro i k hi hk
    rw [hPvn, hvm] at hk
    obtain ⟨_, a, b, _, hb, hl, _, _⟩ := hk
    exact ⟨b, (IGraph.Edge.lt hI.src (show I.src.Edge a b from hl)).2, hb⟩
  have hqnmem : ∀ i j x y, l0[i]? = some x → l0[j]? = some y →
      (j ∈ P.qn i ↔ x ≠ y ∧ I.tgt.Edge x y ∧ ¬ I.ResQ y) := by
    intro i j x y hi hj
    obtain ⟨x1, x2, x3⟩ := hplace i x hi
    obtain ⟨y1, y2, y3⟩ := hplace j y hj
    rw [hPqn, hqm]
    have hy : (decide (((C.size 0 : Int) - r) ≤ j) = false) ↔ ¬ I.ResQ y := by
      rw [← hresv j y hj, decide_eq_false_iff_not, hPnq]
      omega
    constructor
    · rintro ⟨hne, a, b, rfl, rfl, hl, hs, _⟩
      dsimp only [id] at *
      obtain ⟨a', b', hab, ha1, hb1, ha2, hb2⟩ := (hedge a b).1 hl
      have hlt := IGraph.Edge.lt hI.tgt hab
      have e1 := hback a' hlt.1 ha1
      have e2 := hback b' hlt.2 hb1
      rw [ha2, hi] at e1; rw [hb2, hj] at e2
      simp at e1 e2; subst e1; subst e2
      refine ⟨fun h => hne ?_, hab, hy.1 hs⟩
      rw [← x3, ← y3, h]
    · rintro ⟨hne, he, hs⟩
      refine ⟨?_, i, j, rfl, rfl, (hedge i j).2 ⟨x, y, he, x2, y2, x3, y3⟩, hy.2 hs, rfl⟩
      rintro rfl
      rw [hi] at hj; simp at hj; exact hne hj
  have hqnlt : ∀ q p, p ∈ P.qn q → p < P.nq := by
    intro q p hp
    rw [hPqn, hqm] at hp
    obtain ⟨_, a, b, _, hb, _, hs, _⟩ := hp
    dsimp only [id] at hb; subst hb
    rw [decide_eq_false_iff_not] at hs
    rw [hPnq]; omega
  have hwf : P.WF := by
    refine ⟨by omega, fun q p _ hp => hqnlt q p hp, ?_, ?_, ?_, ?_, ?_, ?_, ?_, ?_⟩
    · intro u v hu hv
      obtain ⟨w, hw, rfl⟩ := hvnmem2 u v hu hv
      rw [hPN]; exact (hslt w hw).1
    · intro u hu hc
      rw [hPvn, hvm] at hc
      exact hc.1 rfl
    · intro u hu
      rw [hPvn]
      exact (hvs u).imp (fun h => Nat.ne_of_lt h)
    · intro u v hu hv hm
      obtain ⟨u1, u2, u3⟩ := hfree u hu
      obtain ⟨v1, v2, v3⟩ := hfree v hv
      have h1 := (hvnmem (un u) (un v) u1 v1 u3).1 (by rw [u2, v2]; exact hm)
      have h2 := (hvnmem (un v) (un u) v1 u1 v3).2 ⟨h1.1.symm, h1.2.symm⟩
      rw [u2, v2] at h2; exact h2
    · intro v h1 h2
      obtain ⟨kv, hkv, _, he⟩ := hfixE v h1 h2
      rw [he]
      intro hc
      exact hI.fne kv hkv (List.map_eq_nil_iff.1 hc)
    · intro v q h1 h2 hq
      obtain ⟨kv, hkv, _, he⟩ := hfixE v h1 h2
      rw [he, List.mem_map] at hq
      obtain ⟨x, hx, rfl⟩ := hq
      rw [hPQ]; exact (hfq kv hkv x hx).2.2.1
    · intro v q h1 h2 hq
      obtain ⟨kv, hkv, _, he⟩ := hfixE v h1 h2
      rw [he, List.mem_map] at hq
      obtain ⟨x, hx, rfl⟩ := hq
      exact (hfq kv hkv x hx).2.2.2
    · rw [hPnf, hPnr]
      -- first qubits of the fixed chains have different positions
      have h1 : ((I.fixedC.map (fun kv => match kv.2 with
          | [] => 0
          | x :: _ => C.label x.toNat)) : List Nat).length ≤ l0.length - P.nq := by
        refine nodup_interval ?_ ?_
        · have hk := hI.fkeys
          rw [List.Nodup, List.pairwise_map] at hk ⊢
          refine hk.imp_of_mem ?_
          intro kv kv' hkv hkv' hne hc
          have n1 := hI.fne kv hkv
          have n2 := hI.fne kv' hkv'
          obtain ⟨k, l⟩ := kv
          obtain ⟨k', l'⟩ := kv'
          cases l with
          | nil => exact n1 rfl
          | cons x l =>
            cases l' with
            | nil => exact n2 rfl
            | cons y l' =>
              dsimp only at hc
              have a := hfq _ hkv x (by simp)
              have b := hfq _ hkv' y (by simp)
              have e1 := hback _ a.1 a.2.1
              have e2 := hback _ b.1 b.2.1
              rw [hc, e2] at e1
              simp only [Option.some.injEq] at e1
              have hx0 := ((fok _ hkv).2 x (by simp)).1
              have hy0 := ((fok _ hkv').2 y (by simp)).1
              have hxy : x = y := by omega
              subst hxy
              exact hI.fdisj _ hkv _ hkv' hne x (by simp) (by simp)
        · intro z hz
          obtain ⟨kv, hkv, rfl⟩ := List.mem_map.1 hz
          have n1 := hI.fne kv hkv
          obtain ⟨k, l⟩ := kv
          cases l with
          | nil => exact absurd rfl n1
          | cons x l =>
            have a := hfq _ hkv x (by simp)
            exact ⟨a.2.2.2, a.2.2.1⟩
      rw [List.length_map] at h1
      omega
  refine ⟨hwf, hPN, hPQ, hl0, hnd0, hplace, hback, ?_, fun v hv => (hslt v hv).1, hfx,
    fun v hv => (hslt v hv).2, fun j hj => ⟨hscr.lt j hj, hsu j hj⟩, hfixed, ?_, hresv, hvnmem, hqnmem, ?_, hir, iok, ?_,
    Nat.pos_of_ne_zero hq0, hvnf⟩
  · intro x y hx
    obtain ⟨x1, x2⟩ := (hmem0 x).1 hx
    constructor
    · intro hp
      have hy : y < I.tgt.n := by
        rcases ReflTransGen.cases_tail hp with rfl | ⟨z, _, hz⟩
        · exact x1
        · exact (IGraph.Edge.lt hI.tgt hz).2
      exact (hmem0 y).2 ⟨hy, by rw [← (ok.conn x y x1 hy).2 hp]; exact x2⟩
    · intro hy
      obtain ⟨y1, y2⟩ := (hmem0 y).1 hy
      exact (ok.conn x y x1 y1).1 (by rw [x2, y2])
  · intro u v huv hv hiff
    dsimp only
    have hu : u < I.src.n := by omega
    rw [← hfixed u hu, ← hfixed v hv] at hiff
    by_contra hc
    have hne : screw u ≠ screw v := fun h => by have := hsinj u v hu hv h; omega
    have := hscr.mono (screw v) (screw u) (by omega) (hslt u hu).1 (by rw [← hPnv]; omega)
    rw [(hslt u hu).2, (hslt v hv).2] at this
    omega
  · intro kv hkv
    dsimp only
    have hr' := (fok kv hkv).1
    have hkn : kv.1.toNat < I.src.n := by omega
    have hm : (screw kv.1.toNat, kv.2.map (fun x => C.label x.toNat)) ∈ fixedM := (hfr.mem _).2 ⟨kv, hkv, rfl⟩
    refine ⟨?_, fun x hx => (hmem0 _).2 ⟨(hfq kv hkv x hx).1, (hfq kv hkv x hx).2.1⟩⟩
    rw [hPfc]; unfold Input.entry
    rw [(Input.lookup_iff hfr.sorted).2 hm]
  · intro v j x hv hj
    dsimp only
    obtain ⟨x1, x2, x3⟩ := hplace j x hj
    rw [hPacc]; unfold Input.allowed
    cases hlk : restrM.lookup (screw v) with
    | none =>
      simp only [true_iff]
      intro kv hkv he
      have hm : (screw v, kv.2.map (fun x => C.label x.toNat)) ∈ restrM :=
        (hrr.mem _).2 ⟨kv, hkv, by rw [he]; simp⟩
      rw [(Input.lookup_iff hrr.sorted).2 hm] at hlk
      simp at hlk
    | some l =>
      have hm := (Input.lookup_iff hrr.sorted).1 hlk
      obtain ⟨kv, hkv, he⟩ := (hrr.mem _).1 hm
      simp only [Prod.mk.injEq] at he
      have hr' := (rok kv hkv).1
      have hkv1 : kv.1.toNat = v := (hsinj v kv.1.toNat hv (by omega) he.1).symm
      simp only [List.contains_iff_mem]
      rw [he.2, List.mem_map]
      have huniq : ∀ kv' ∈ I.restrC, kv'.1 = (v : Int) → kv' = kv := by
        intro kv' hkv' h'
        exact fst_unique hI.rkeys hkv' hkv (by omega)
      constructor
      · rintro ⟨y, hy, hyl⟩ kv' hkv' h'
        rw [huniq kv' hkv' h']
        obtain ⟨y1, y2, y3⟩ := (rok kv hkv).2 y hy
        have e1 := hback y.toNat (by omega) y3
        rw [hyl, hj] at e1
        simp only [Option.some.injEq] at e1
        have : (x : Int) = y := by omega
        rw [this]; exact hy
      · intro h
        exact ⟨(x : Int), h kv hkv (by omega), by simpa using x3⟩

theorem process_spec {sort : List (List Nat) → List (List Nat)} (hs : SortOK sort) {I : Input} (hI : I.OK) :
    Ok (I.process sort) (fun p => ∃ l0, p.Rep I l0) ∨ I.process sort = .error .corrupt ∨
      I.process sort = .error .small :=
  (process_full hs hI).imp_right (fun h => h.imp_left And.left)

end MM
