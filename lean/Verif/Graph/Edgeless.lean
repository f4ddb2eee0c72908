import Verif.Core.Edgeless
import Verif.Graph.Find

/-! Calls for sources without edges. -/

namespace MM

open Relation
open Scratch (Cfg)

variable {I : Input}

theorem maxDegree_zero {N : Nat} {vn : Nat → List Nat} (h : ∀ v, v < N → vn v = []) : Input.maxDegree N vn = 0 := by
  unfold Input.maxDegree
  have : ∀ l : List Nat, (∀ v ∈ l, v < N) → l.foldl (fun m v => max m (vn v).length) 0 = 0 := by
    intro l
    induction l with
    | nil => intro _; rfl
    | cons a l ih =>
      intro hl
      rw [List.foldl_cons, h a (hl a (by simp))]
      exact ih (fun v hv => hl v (by simp [hv]))
  exact this _ (fun v hv => List.mem_range.1 hv)

/-- A problem without chains of the caller and without edges between source nodes is accepted. -/
theorem process_plain {sort : List (List Nat) → List (List Nat)} (hs : SortOK sort) (hI : I.OK)
    (hf : I.fixedC = []) (hi : I.initC = []) (hr : I.restrC = []) (he : ∀ u v, I.src.Edge u v → u = v)
    (hsz : I.tgt.n < 2 ^ 32) :
    ∃ p l0, I.process sort = .ok p ∧ p.Rep I l0 ∧ p.P.nf = 0 ∧ p.init = [] ∧ ∃ rq, p.comps.OK I.tgt rq := by
  have main : I.process sort ≠ .error .small ∧ ∀ p, I.process sort = .ok p →
      p.P.nf = 0 ∧ p.init = [] ∧ ∃ rq, p.comps.OK I.tgt rq := by
    unfold Input.process
    obtain ⟨⟨fx, rq⟩, hrs, hfx, hrq⟩ := Input.reserved_spec hI.frange
    rw [hrs]
    dsimp only [bind, Except.bind] at hfx hrq ⊢
    obtain ⟨C, hC, ok⟩ := Comps.build_spec hs hI.tgt rq
    rw [hC]
    dsimp only
    obtain ⟨l0, hl0⟩ : ∃ l0, C.comp[0]? = some l0 := by
      obtain ⟨l, hl, _⟩ := ok.back 0 hI.tgt_pos
      cases hc : C.comp with
      | nil => rw [hc] at hl; simp at hl
      | cons a _ => exact ⟨a, rfl⟩
    have hnores : ∀ q, rq q = false := by
      intro q
      cases hq : rq q with
      | false => rfl
      | true =>
        obtain ⟨kv, hkv, _⟩ := (hrq q).1 hq
        rw [hf] at hkv; simp at hkv
    have hle : l0.length ≤ I.tgt.n := by
      have hnd : l0.Nodup := by
        rw [List.Nodup, List.pairwise_iff_getElem]
        intro i j hi hj hij hc
        have h1 := ok.place 0 l0 i _ hl0 (List.getElem?_eq_getElem hi)
        have h2 := ok.place 0 l0 j _ hl0 (List.getElem?_eq_getElem hj)
        rw [hc] at h1
        omega
      have := nodup_interval (a := 0) (b := I.tgt.n) hnd (fun x hx => by
        obtain ⟨j, hj⟩ := List.getElem?_of_mem hx
        exact ⟨Nat.zero_le _, (ok.place 0 l0 j x hl0 hj).1⟩)
      omega
    have hpos : 0 < l0.length := List.length_pos_iff.2 (ok.ne l0 (List.mem_of_getElem? hl0))
    have hsize : C.size 0 ≤ l0.length ∧ 0 < C.size 0 := by
      unfold Comps.size
      have hidx : ∀ a b, I.tgt.Edge a b → C.index a = C.index b := by
        intro a b hab
        have := IGraph.Edge.lt hI.tgt hab
        exact (ok.conn a b this.1 this.2).2 (ReflTransGen.single hab)
      have hlab : ∀ x, x < I.tgt.n → C.index x = 0 → C.label x < l0.length := by
        intro x hx h0
        obtain ⟨l, h1, h2⟩ := ok.back x hx
        rw [h0, hl0] at h1
        simp at h1; subst h1
        by_contra hc
        rw [List.getElem?_eq_none (by omega)] at h2
        simp at h2
      constructor
      · by_contra hc
        obtain ⟨i, j, hij, hk⟩ := (ok.gn 0 l0.length).1 (by omega)
        obtain ⟨a, b, h1, h2, h3, h4⟩ := (ok.gedges 0 i j).1 hij
        have hab := hI.tgt _ h1
        have h5 : C.index b = 0 := by rw [← hidx a b (Or.inl h1)]; exact h2
        have h6 := hlab a hab.1 h2
        have h7 := hlab b hab.2 h5
        omega
      · obtain ⟨x, hx⟩ := getElem?_lt hpos
        obtain ⟨x1, x2, x3⟩ := ok.place 0 l0 0 x hl0 hx
        obtain ⟨y, hxy⟩ := hI.covered x x1
        rw [ok.gn]
        rcases hxy with h | h
        · exact ⟨_, _, (ok.gedges 0 _ _).2 ⟨x, y, h, x2, rfl, rfl⟩, Or.inl (Nat.zero_le _)⟩
        · exact ⟨_, _, (ok.gedges 0 _ _).2 ⟨y, x, h, by rw [← hidx x y (Or.inr h)]; exact x2, rfl, rfl⟩, Or.inl (Nat.zero_le _)⟩
    obtain ⟨r, hr'⟩ : ∃ r, C.nres[0]? = some r := by
      have h1 := ok.nres_len
      cases hc : C.nres with
      | nil => rw [hc] at h1; cases hcc : C.comp with
        | nil => rw [hcc] at hl0; simp at hl0
        | cons => rw [hcc] at h1; simp at h1
      | cons a _ => exact ⟨a, rfl⟩
    have hr0 : r = 0 := by
      obtain ⟨r1, r2⟩ := ok.nres 0 l0 r hl0 hr'
      obtain ⟨x, hx⟩ := getElem?_lt (show l0.length - 1 < l0.length by omega)
      have := (r2 _ x hx).not.1 (by rw [hnores x]; simp)
      omega
    subst hr0
    rw [hr']
    dsimp only
    have hcnt := Input.cnt_fixed hfx hI.fkeys (fun kv hkv => (hI.frange kv hkv).1)
    obtain ⟨⟨fr, bk, un⟩, hun, hscr⟩ := Input.filterFixed_spec hcnt
    rw [hun]
    dsimp only at hscr ⊢
    obtain ⟨screw, hscrew⟩ : ∃ s, s = Input.inverse I.src.n un := ⟨_, rfl⟩
    rw [← hscrew]
    have hsu : ∀ j, j < I.src.n → screw (un j) = j := by
      intro j hj
      rw [hscrew]
      exact Input.inverse_spec (fun i j hi hj => hscr.inj hi hj) hj
    have hslt : ∀ v, v < I.src.n → screw v < I.src.n := by
      intro v hv
      obtain ⟨j, hj, rfl⟩ := hscr.surj v hv
      rw [hsu j hj]; exact hj
    rw [hf, hi, hr]
    unfold Input.inputChains
    simp only [List.foldlM_nil, pure, Except.pure]
    obtain ⟨vn, hvn, hvs, hvm⟩ := IGraph.getNeighbors_spec (g := I.src) (src := fun _ => false) (snk := fx)
      (rel := screw) (fun e he => ⟨hslt _ (hI.src e he).1, hslt _ (hI.src e he).2⟩)
    rw [hvn]
    dsimp only
    obtain ⟨qn, hqn, _⟩ := IGraph.getNeighbors_spec (g := C.graphs 0)
      (src := fun x => decide (((C.size 0 : Int) - (0 : Nat)) ≤ x)) (snk := fun _ => false) (rel := id) (by
        intro e he
        refine ⟨(ok.gn 0 e.1).2 ⟨e.1, e.2, he, Or.inl (Nat.le_refl _)⟩, (ok.gn 0 e.2).2 ⟨e.1, e.2, he, Or.inr (Nat.le_refl _)⟩⟩)
    unfold Comps.neighbors
    rw [hqn]
    dsimp only
    rw [if_neg (by omega)]
    have hvn0 : ∀ v, vn v = [] := by
      intro v
      apply List.eq_nil_iff_forall_not_mem.2
      intro y hy
      obtain ⟨hne, a, b, ha, hb, hl, _⟩ := (hvm v y).1 hy
      have := he a b hl
      subst this
      exact hne (ha.symm.trans hb)
    unfold Input.margin
    dsimp only
    rw [if_neg (by omega), if_neg (by unfold Prob.N; dsimp only; have := hI.src_pos; simp; omega),
      maxDegree_zero (fun v _ => hvn0 v)]
    dsimp only
    rw [if_pos rfl, Nat.mod_eq_of_lt (by omega), if_neg (by omega)]
    refine ⟨by simp, ?_⟩
    intro p hp
    cases hp
    exact ⟨rfl, rfl, rq, ok⟩
  obtain ⟨m1, m2⟩ := main
  rcases process_full hs hI with ⟨p, hp, l0, hrep⟩ | ⟨_, C, rq, _, kv, hkv, _⟩ | hbad
  · exact ⟨p, l0, hp, hrep, m2 p hp⟩
  · rw [hf, hi, hr] at hkv; simp at hkv
  · exact absurd hbad m1

/-- The first component is as large as any connected set of target nodes. -/
theorem Proc.Rep.largest {p : Proc} {l0 : List Nat} (h : p.Rep I l0) {rq : Nat → Bool} (ok : p.comps.OK I.tgt rq)
    {part : List Nat} (hnd : part.Nodup) (hlt : ∀ x ∈ part, x < I.tgt.n) (hc : Spec.ConnectedIn I.tgt part) :
    part.length ≤ l0.length := by
  cases part with
  | nil => simp
  | cons a part =>
    obtain ⟨l, hl, _⟩ := ok.back a (hlt a (by simp))
    have key : ∀ x y, ReflTransGen (fun x y => y ∈ a :: part ∧ I.tgt.Edge x y) x y → ReflTransGen I.tgt.Edge x y := by
      intro x y h
      induction h with
      | refl => exact ReflTransGen.refl
      | tail _ h ih => exact ih.tail h.2
    have hsub : ∀ x ∈ a :: part, x ∈ l := by
      intro x hx
      have hp : ReflTransGen I.tgt.Edge x a := by
        exact key x a (hc x hx a (by simp))
      obtain ⟨l', hl', hx'⟩ := ok.back x (hlt x hx)
      have := (ok.conn x a (hlt x hx) (hlt a (by simp))).2 hp
      rw [this, hl] at hl'
      cases hl'
      exact List.mem_of_getElem? hx'
    have h1 := (hnd.subperm hsub).length_le
    have h2 : l.length ≤ l0.length := by
      have hd := ok.desc
      have h0 := h.comp0
      cases hc : p.comps.comp with
      | nil => rw [hc] at h0; simp at h0
      | cons b cs =>
        rw [hc] at hd h0 hl
        simp at h0; subst h0
        have hm := List.mem_of_getElem? hl
        rcases List.mem_cons.1 hm with rfl | hm
        · exact Nat.le_refl _
        · exact (List.pairwise_cons.1 hd).1 l hm
    omega

theorem findEmbedding_alone {sort : List (List Nat) → List (List Nat)} (hs : SortOK sort) (hI : I.OK)
    (hf : I.fixedC = []) (hi : I.initC = []) (hr : I.restrC = []) (he : ∀ u v, I.src.Edge u v → u = v)
    (hsz : I.tgt.n < 2 ^ 32) {part : List Nat} (hnd : part.Nodup) (hlt : ∀ x ∈ part, x < I.tgt.n)
    (hc : Spec.ConnectedIn I.tgt part) (hle : I.src.n ≤ part.length)
    {C : Cfg} (hpar : C.par = false) (hC : Prefers C) {A : Params} (hsk : A.skipInit = false) (hb : 1 ≤ A.bound)
    (hA : ¬ A.Halts) (hst : A.stops 0 = (false, false)) (ro : Bool) (t : Tape) :
    ∃ cs, findEmbedding sort C A ro I t = .ok (true, cs) := by
  obtain ⟨p, l0, hp, hrep, hnf, hin, rq, ok⟩ := process_plain hs hI hf hi hr he hsz
  have hlen := hrep.largest ok hnd hlt hc
  unfold findEmbedding
  rw [hp]
  dsimp only [bind, Except.bind]
  have hnv : p.P.nv = I.src.n := by have := hrep.hN; unfold Prob.N at this; omega
  have hnofix : ∀ v, ¬ I.FixV v := by rintro v ⟨kv, hkv, _⟩; rw [hf] at hkv; simp at hkv
  have hnq : l0.length ≤ p.P.nq := by
    by_contra hcon
    obtain ⟨x, hx⟩ := getElem?_lt (show p.P.nq < l0.length by omega)
    obtain ⟨kv, hkv, _⟩ := (hrep.resv _ x hx).1 (Nat.le_refl _)
    rw [hf] at hkv; simp at hkv
  have hvn : ∀ u, u < p.P.nv → p.P.vn u = [] := by
    intro u hu
    apply List.eq_nil_iff_forall_not_mem.2
    intro v hv
    obtain ⟨u1, u2⟩ := hrep.us u (by omega)
    have hvN := hrep.wf.vn_lt u v hu hv
    rw [hrep.hN] at hvN
    obtain ⟨v1, v2⟩ := hrep.us v hvN
    rw [← u2, ← v2] at hv
    obtain ⟨hne, hed⟩ := (hrep.vn _ _ u1 v1 (hnofix _)).1 hv
    exact hne (he _ _ hed)
  have hacc : ∀ u q, u < p.P.nv → q < p.P.nq → p.P.accepts u q = true := by
    intro v q hv hq
    obtain ⟨v1, v2⟩ := hrep.us v (by omega)
    obtain ⟨x, hx⟩ := getElem?_lt (show q < l0.length by rw [← hrep.hQ]; unfold Prob.Q; omega)
    have := (hrep.acc (p.unscrew v) q x v1 hx).2 (by rw [hr]; simp)
    rw [v2] at this; exact this
  have hiok := hrep.initOK hI
  obtain ⟨X, hX, hri⟩ := Run.new_spec hrep.wf (dom_free p.P) hiok t
  have hx : X.clock = 0 ∧ ∀ u, u < p.P.nv → ∀ q, (X.init.chains u).has q = false := by
    obtain ⟨⟨E, t'⟩, hE, _, hE2⟩ := construct_shape (t := t) hrep.wf (dom_free p.P) hiok
    unfold Run.new at hX
    rw [hE] at hX
    simp only [bind, Except.bind, Except.ok.injEq] at hX
    rw [← hX]
    refine ⟨rfl, ?_⟩
    intro u hu q
    dsimp only
    cases hq : (E.chains u).has q with
    | false => rfl
    | true =>
      obtain ⟨qs, hm, _⟩ := (hE2 u q hu).1 hq
      rw [hin] at hm; simp at hm
  rw [hX]
  dsimp only
  obtain ⟨⟨Y, b⟩, hY, hb'⟩ := heuristic_alone (A := { A with restricted := !I.restrC.isEmpty }) hrep.wf (dom_free p.P)
    (hrep.even hr) (by rw [hrep.hN]; exact hI.src_pos) hnf hpar hC hacc hvn (by omega) hsk hb
    (by rintro ⟨h1, h2⟩; exact hA ⟨h1, h2⟩) hri (by rw [hx.1]; exact hst) hx.2
  rw [hY]
  dsimp only at hb' ⊢
  subst hb'
  rw [if_pos (by simp)]
  obtain ⟨cs, hcs, _⟩ := hrep.getChains Y.best (List.range I.src.n) Y.S.tape
  rw [hcs]
  exact ⟨cs, rfl⟩

end MM
