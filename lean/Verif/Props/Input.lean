import Verif.Graph.Find
import Verif.Props.Demo
import Mathlib.Data.List.Nodup

/-! C19–C22: neighbour lists, components, renumbering, chain parameters. -/

namespace MM

open Relation
open Scratch (Cfg)

variable {I : Input} {sort : List (List Nat) → List (List Nat)}

/-! ### C19 -/

/-- `y` is listed for `x` exactly when they differ and some edge `a-b`, given in either
orientation, is renamed to `x-y`, does not lead into a source and does not leave a sink.
The lists are strictly increasing, so nothing is listed twice. -/
theorem C19_neighbour_lists (g : IGraph) (src snk : Nat → Bool) (rel : Nat → Nat)
    (hrel : ∀ e ∈ g.edges, rel e.1 < g.n ∧ rel e.2 < g.n) :
    ∃ nb, g.getNeighbors src snk rel = .ok nb ∧ (∀ x, (nb x).Pairwise (· < ·)) ∧
      ∀ x y, y ∈ nb x ↔ x ≠ y ∧ ∃ a b, rel a = x ∧ rel b = y ∧
        ((a, b) ∈ g.edges ∨ (b, a) ∈ g.edges) ∧ src b = false ∧ snk a = false :=
  IGraph.getNeighbors_spec hrel

/-- With parallel edges, a self-loop, a sink (3) and a renaming. -/
example : ((IGraph.getNeighbors ⟨4, [(0, 1), (1, 0), (2, 2), (2, 0), (3, 0)]⟩ (fun _ => false) (fun x => x == 3)
    (fun x => 3 - x)).toOption.map fun nb => (List.range 4).map nb) = some [[], [3], [3], [0, 1, 2]] := by decide

/-! ### C20 -/

/-- The split of a graph into components, for every graph and set of reserved nodes. -/
theorem C20_components (hs : SortOK sort) (g : IGraph) (hg : ∀ e ∈ g.edges, e.1 < g.n ∧ e.2 < g.n)
    (res : Nat → Bool) :
    ∃ C, Comps.build sort g res = .ok C ∧
      -- same component exactly when connected by a path
      (∀ x y, x < g.n → y < g.n →
        (C.index x = C.index y ↔ ReflTransGen (fun a b => (a, b) ∈ g.edges ∨ (b, a) ∈ g.edges) x y)) ∧
      -- every node has a place in a component and the place determines the node
      (∀ x, x < g.n → ∃ l, C.comp[C.index x]? = some l ∧ l[C.label x]? = some x) ∧
      (∀ (c : Nat) (l : List Nat) (j : Nat), C.comp[c]? = some l → j < l.length →
        ∃ x, l[j]? = some x ∧ x < g.n ∧ C.index x = c ∧ C.label x = j) ∧
      -- components are not empty and come in order of decreasing size
      ((∀ l ∈ C.comp, l ≠ []) ∧ C.comp.Pairwise (fun a b => b.length ≤ a.length)) ∧
      -- exactly the last `r` nodes of a component are reserved
      (∀ c l, C.comp[c]? = some l → ∃ r, C.nres[c]? = some r ∧ r ≤ l.length ∧
        ∀ x, x < g.n → C.index x = c → (res x = true ↔ l.length - r ≤ C.label x)) ∧
      -- the edges of the component graphs
      (∀ c i j, (i, j) ∈ (C.graphs c).edges ↔
        ∃ a b, (a, b) ∈ g.edges ∧ C.index a = c ∧ C.index b = c ∧ C.label a = i ∧ C.label b = j) := by
  obtain ⟨C, hC, ok⟩ := Comps.build_spec hs hg res
  refine ⟨C, hC, ok.conn, ok.back, ?_, ⟨ok.ne, ok.desc⟩, ?_, ?_⟩
  · intro c l j hl hj
    obtain ⟨x, hx⟩ := getElem?_lt hj
    exact ⟨x, hx, ok.place c l j x hl hx⟩
  · intro c l hl
    have hc : c < C.nres.length := by
      rw [ok.nres_len]; by_contra h; rw [List.getElem?_eq_none (by omega)] at hl; simp at hl
    have hr := List.getElem?_eq_getElem hc
    refine ⟨_, hr, (ok.nres c l _ hl hr).1, ?_⟩
    intro x hx hxc
    obtain ⟨l', h1, h2⟩ := ok.back x hx
    rw [hxc, hl] at h1
    simp only [Option.some.injEq] at h1
    subst h1
    exact (ok.nres c l _ hl hr).2 _ x h2
  · intro c i j
    rw [ok.gedges]
    constructor
    · rintro ⟨a, b, h1, h2, h3⟩
      have hl := hg _ h1
      have : C.index a = C.index b := (ok.conn a b hl.1 hl.2).2 (ReflTransGen.single (Or.inl h1))
      exact ⟨a, b, h1, h2, by rw [← this]; exact h2, h3⟩
    · rintro ⟨a, b, h1, h2, _, h3⟩
      exact ⟨a, b, h1, h2, h3⟩

/-- Translating a list of nodes of one component to labels and back gives the list; a list
with a node outside is refused. -/
theorem C20_round_trip (hs : SortOK sort) (g : IGraph) (hg : ∀ e ∈ g.edges, e.1 < g.n ∧ e.2 < g.n)
    (res : Nat → Bool) {C : Comps} (hC : Comps.build sort g res = .ok C) (c : Nat) (xs : List Nat) :
    ((∃ ls, C.into g.n c (xs.map Int.ofNat) = some ls) ↔ ∀ x ∈ xs, x < g.n ∧ C.index x = c) ∧
    ∀ ls, C.into g.n c (xs.map Int.ofNat) = some ls → xs ≠ [] → C.from_ c ls = .ok xs := by
  obtain ⟨C', hC', ok⟩ := Comps.build_spec hs hg res
  rw [hC] at hC'
  cases hC'
  have hinto : ∀ ls, C.into g.n c (xs.map Int.ofNat) = some ls ↔
      (∀ x ∈ xs, x < g.n ∧ C.index x = c) ∧ ls = xs.map C.label := by
    intro ls
    rw [Comps.into_spec]
    constructor
    · rintro ⟨h1, h2⟩
      refine ⟨fun x hx => ?_, ?_⟩
      · have := h1 (Int.ofNat x) (List.mem_map.2 ⟨x, hx, rfl⟩)
        refine ⟨?_, this.2.2⟩
        have := this.2.1
        simpa using this
      · rw [h2, List.map_map]; rfl
    · rintro ⟨h1, h2⟩
      refine ⟨?_, ?_⟩
      · intro y hy
        obtain ⟨x, hx, rfl⟩ := List.mem_map.1 hy
        obtain ⟨a, b⟩ := h1 x hx
        refine ⟨by simp, by simpa using a, b⟩
      · rw [h2, List.map_map]; rfl
  refine ⟨⟨?_, ?_⟩, ?_⟩
  · rintro ⟨ls, h⟩; exact ((hinto ls).1 h).1
  · intro h; exact ⟨_, (hinto _).2 ⟨h, rfl⟩⟩
  · intro ls h hne
    obtain ⟨h1, rfl⟩ := (hinto ls).1 h
    obtain ⟨x0, hx0⟩ := List.exists_mem_of_ne_nil _ hne
    obtain ⟨l, hl, _⟩ := ok.back x0 (h1 x0 hx0).1
    rw [(h1 x0 hx0).2] at hl
    have hb : ∀ x ∈ xs, l[C.label x]? = some x := by
      intro x hx
      obtain ⟨l', h3, h4⟩ := ok.back x (h1 x hx).1
      rw [(h1 x hx).2, hl] at h3
      simp only [Option.some.injEq] at h3
      subst h3; exact h4
    obtain ⟨out, ho, h5, h6⟩ := from_spec (l := xs.map C.label) hl (by
      intro y hy
      obtain ⟨x, hx, rfl⟩ := List.mem_map.1 hy
      have := hb x hx
      by_contra hc
      rw [List.getElem?_eq_none (by omega)] at this; simp at this)
    rw [ho]
    congr 1
    apply List.ext_getElem?
    intro i
    cases hx : xs[i]? with
    | none =>
      rw [List.getElem?_eq_none_iff] at hx ⊢
      rw [h5, List.length_map]; exact hx
    | some x =>
      rw [h6 i (C.label x) (by rw [List.getElem?_map, hx]; rfl)]
      exact hb x (List.mem_of_getElem? hx)

/-- Two components and a reserved node. -/
def Demo.twoParts : IGraph := ⟨6, [(5, 0), (1, 2), (2, 4), (4, 3), (3, 1)]⟩

example : ((Comps.build Demo.sortBySize Demo.twoParts (fun x => x == 2)).toOption.map fun C =>
    (C.comp, C.nres, C.into 6 0 [4, 2, 1], (C.from_ 0 [1, 3, 2]).toOption)) =
    some ([[4, 3, 1, 2], [5, 0]], [1, 0], some [0, 3, 2], some [3, 2, 1]) := by decide

/-! ### C21 -/

/-- The renumbering that puts the fixed variables last, for every set of fixed variables:
`un` is the list the code builds, `screw` the inverse it stores. -/
theorem C21_renumbering (n : Nat) (fx : Nat → Bool) :
    ∃ a b un, Input.filterFixed n ((List.range n).filter fx).length fx = .ok (a, b, un) ∧
      let screw := Input.inverse n un
      (∀ v, v < n → screw v < n ∧ un (screw v) = v) ∧
      (∀ j, j < n → un j < n ∧ screw (un j) = j) ∧
      (∀ v, v < n → (fx v = true ↔ n - ((List.range n).filter fx).length ≤ screw v)) ∧
      (∀ u v, u < v → v < n → fx u = fx v → screw u < screw v) := by
  obtain ⟨⟨a, b, un⟩, h, hs⟩ := Input.filterFixed_spec (n := n) (fx := fx) (Input.cnt_eq_filter fx n)
  dsimp only at hs
  have hsu : ∀ j, j < n → Input.inverse n un (un j) = j := fun j hj =>
    Input.inverse_spec (fun i j hi hj => hs.inj hi hj) hj
  have hslt : ∀ v, v < n → Input.inverse n un v < n ∧ un (Input.inverse n un v) = v := by
    intro v hv
    obtain ⟨j, hj, rfl⟩ := hs.surj v hv
    rw [hsu j hj]; exact ⟨hj, rfl⟩
  have hfx : ∀ v, v < n → (fx v = true ↔ n - ((List.range n).filter fx).length ≤ Input.inverse n un v) := by
    intro v hv
    obtain ⟨h1, h2⟩ := hslt v hv
    have := hs.fx _ h1
    rw [h2] at this; exact this
  refine ⟨a, b, un, h, hslt, fun j hj => ⟨hs.lt j hj, hsu j hj⟩, hfx, ?_⟩
  intro u v huv hv he
  have hu : u < n := by omega
  obtain ⟨u1, u2⟩ := hslt u hu
  obtain ⟨v1, v2⟩ := hslt v hv
  have fu := hfx u hu
  have fv := hfx v hv
  rw [he] at fu
  by_contra hc
  have hne : Input.inverse n un u ≠ Input.inverse n un v := by
    intro h; rw [h, v2] at u2; omega
  have := hs.mono (Input.inverse n un v) (Input.inverse n un u) (by omega) u1 (by
    have := fu.symm.trans fv; omega)
  rw [u2, v2] at this
  omega

example : (Input.filterFixed 5 2 (fun v => v == 0 || v == 3)).toOption.map (fun r =>
    ((List.range 5).map r.2.2, (List.range 5).map (Input.inverse 5 r.2.2))) =
    some ([1, 2, 4, 0, 3], [3, 0, 1, 4, 2]) := by decide

/-- Chains are reported for the node they were computed for: in the problem handed to the
search, number `screw u` has the neighbours and the restriction of node `u`, and what is
reported for `u` is the chain of number `screw u`, each qubit under its own name. -/
theorem C21_reported_for_own_node (hs : SortOK sort) (hI : I.OK) {p : Proc} (hp : I.process sort = .ok p) :
    ∃ W : List Nat, (∀ x ∈ W, x < I.tgt.n) ∧ W.Nodup ∧ W.length = p.P.Q ∧
      (∀ u, u < I.src.n → p.screw u < I.src.n) ∧
      (∀ u v, u < I.src.n → v < I.src.n → p.screw u = p.screw v → u = v) ∧
      (∀ u, u < I.src.n → (p.P.fixed (p.screw u) = true ↔ ∃ kv ∈ I.fixedC, kv.1 = (u : Int))) ∧
      (∀ u v, u < I.src.n → v < I.src.n → p.P.fixed (p.screw u) = false →
        (p.screw v ∈ p.P.vn (p.screw u) ↔ u ≠ v ∧ I.src.Edge u v)) ∧
      (∀ u j x : Nat, u < I.src.n → W[j]? = some x →
        (p.P.accepts (p.screw u) j = true ↔ ∀ kv ∈ I.restrC, kv.1 = (u : Int) → (x : Int) ∈ kv.2)) ∧
      (∀ i j x y, W[i]? = some x → W[j]? = some y → p.P.nq > j →
        (j ∈ p.P.qn i ↔ x ≠ y ∧ I.tgt.Edge x y)) ∧
      ∀ (E : Emb) (t : Tape), ∃ cs, p.getChains E (List.range I.src.n) t = .ok cs ∧ cs.length = I.src.n ∧
        ∀ (u : Nat) (c : List Nat), cs[u]? = some c → c.Nodup ∧
          ∀ q, q ∈ c ↔ ∃ j, W[j]? = some q ∧ (E.chains (p.screw u)).has j = true := by
  rcases process_spec hs hI with ⟨p', hp', l0, h⟩ | hb | hb
  · rw [hp] at hp'; cases hp'
    have hfix : ∀ u, p.P.fixed (p.screw u) = true ↔ p.P.nv ≤ p.screw u := by
      intro u; unfold Prob.fixed; rw [decide_eq_true_iff]
    refine ⟨l0, ?_, h.nodup, h.hQ.symm, h.slt, ?_, ?_, ?_, ?_, ?_, ?_⟩
    · intro x hx
      obtain ⟨j, hj⟩ := List.getElem?_of_mem hx
      exact (h.place j x hj).1
    · intro u v hu hv he; rw [← h.su u hu, ← h.su v hv, he]
    · intro u hu
      rw [hfix, h.fixed u hu]; rfl
    · intro u v hu hv hf
      refine h.vn u v hu hv ?_
      rw [← h.fixed u hu, ← hfix, hf]; simp
    · intro u j x hu hj; exact h.acc u j x hu hj
    · intro i j x y hi hj hq
      rw [h.qn i j x y hi hj]
      have := h.resv j y hj
      constructor
      · rintro ⟨a, b, _⟩; exact ⟨a, b⟩
      · rintro ⟨a, b⟩; exact ⟨a, b, fun hc => by have := this.2 hc; omega⟩
    · intro E t
      obtain ⟨cs, hcs, h1, h2⟩ := h.getChains E (List.range I.src.n) t
      have h1' : cs.length = I.src.n := by simpa using h1
      refine ⟨cs, hcs, h1', fun u c hu => ?_⟩
      have hul : u < I.src.n := by
        rw [← h1']; by_contra hc; rw [List.getElem?_eq_none (by omega)] at hu; simp at hu
      exact h2 u u c (by rw [List.getElem?_range hul]) hu
  · rw [hp] at hb; simp at hb
  · rw [hp] at hb; simp at hb

/-- A processed problem with a fixed node in front. -/
example : Demo.star.OK ∧ ((Demo.star.process Demo.sortBySize).toOption.map fun p =>
    ((List.range 4).map p.screw, p.P.nv, p.P.nq)) = some ([3, 0, 1, 2], 3, 6) :=
  ⟨Demo.star_ok, by decide +kernel⟩

/-! ### C22 -/

/-- An entry of a chain parameter is well-formed for the component `W`. -/
def Spec.EntryFits (I : Input) (W : List Nat) (kv : Int × List Int) : Prop :=
  (0 ≤ kv.1 ∧ kv.1 < (I.src.n : Int)) ∧ ∀ x ∈ kv.2, 0 ≤ x ∧ x.toNat ∈ W

/-- `W` lists a largest connected component of the target. -/
structure Spec.Largest (g : IGraph) (W : List Nat) : Prop where
  nodup : W.Nodup
  conn : ∀ x ∈ W, x < g.n ∧ ∀ y, y ∈ W ↔ ReflTransGen (fun a b => (a, b) ∈ g.edges ∨ (b, a) ∈ g.edges) x y
  ne : W ≠ []
  max : ∀ V : List Nat, V.Nodup → (∀ x ∈ V, x < g.n) →
    (∀ x ∈ V, ∀ y ∈ V, ReflTransGen (fun a b => (a, b) ∈ g.edges ∨ (b, a) ∈ g.edges) x y) → V.length ≤ W.length

theorem Comps.OK.largest {g : IGraph} (hg : g.WF) {res : Nat → Bool} {C : Comps} (ok : Comps.OK g res C)
    {l0 : List Nat} (hl0 : C.comp[0]? = some l0) : Spec.Largest g l0 := by
  have hmem : ∀ {c : Nat} {l : List Nat}, C.comp[c]? = some l → ∀ x, x ∈ l ↔ x < g.n ∧ C.index x = c := by
    intro c l hl x
    constructor
    · intro hx
      obtain ⟨j, hj⟩ := List.getElem?_of_mem hx
      have := ok.place c l j x hl hj
      exact ⟨this.1, this.2.1⟩
    · rintro ⟨h1, h2⟩
      obtain ⟨l', h3, h4⟩ := ok.back x h1
      rw [h2, hl] at h3
      simp only [Option.some.injEq] at h3
      subst h3; exact List.mem_of_getElem? h4
  refine ⟨?_, ?_, ok.ne l0 (List.mem_of_getElem? hl0), ?_⟩
  · rw [List.Nodup, List.pairwise_iff_getElem]
    intro i j hi hj hij hc
    have h1 := ok.place 0 l0 i _ hl0 (List.getElem?_eq_getElem hi)
    have h2 := ok.place 0 l0 j _ hl0 (List.getElem?_eq_getElem hj)
    rw [hc] at h1
    omega
  · intro x hx
    obtain ⟨x1, x2⟩ := (hmem hl0 x).1 hx
    refine ⟨x1, fun y => ?_⟩
    constructor
    · intro hy
      obtain ⟨y1, y2⟩ := (hmem hl0 y).1 hy
      exact (ok.conn x y x1 y1).1 (by rw [x2, y2])
    · intro hp
      have hy : y < g.n := by
        rcases ReflTransGen.cases_tail hp with rfl | ⟨z, _, hz⟩
        · exact x1
        · exact (IGraph.Edge.lt hg hz).2
      exact (hmem hl0 y).2 ⟨hy, by rw [← (ok.conn x y x1 hy).2 hp]; exact x2⟩
  · intro V hn hV hc
    cases V with
    | nil => simp
    | cons a V =>
      have ha := hV a (by simp)
      obtain ⟨l, hl, _⟩ := ok.back a ha
      have hsub : ∀ x ∈ a :: V, x ∈ l := by
        intro x hx
        exact (hmem hl x).2 ⟨hV x hx, ((ok.conn a x ha (hV x hx)).2 (hc a (by simp) x hx)).symm⟩
      refine Nat.le_trans (hn.subperm hsub).length_le ?_
      have hd := ok.desc
      cases hcomp : C.comp with
      | nil => rw [hcomp] at hl0; simp at hl0
      | cons b bs =>
        rw [hcomp] at hl hl0 hd
        simp only [List.getElem?_cons_zero, Option.some.injEq] at hl0
        subst hl0
        rcases List.mem_cons.1 (List.mem_of_getElem? hl) with rfl | hm
        · exact Nat.le_refl _
        · exact (List.pairwise_cons.1 hd).1 l hm

/-- A call is rejected because of its chain parameters exactly when some entry of one of
them has a key that is not a source node or a node outside the working component. Fixed
chains must be within the two graphs for this to be defined at all. -/
theorem C22_rejected_exactly (hs : SortOK sort) (hsrc : I.src.WF) (htgt : I.tgt.WF) (hpos : 0 < I.tgt.n)
    (hf : (I.fixedC.map Prod.fst).Nodup) (hi : (I.initC.map Prod.fst).Nodup) (hr : (I.restrC.map Prod.fst).Nodup)
    (hfr : ∀ kv ∈ I.fixedC, (0 ≤ kv.1 ∧ kv.1 < (I.src.n : Int)) ∧ ∀ q ∈ kv.2, 0 ≤ q ∧ q < (I.tgt.n : Int)) :
    ∃ W, Spec.Largest I.tgt W ∧ (I.process sort = .error .corrupt ↔
      ∃ kv, (kv ∈ I.fixedC ∨ kv ∈ I.initC ∨ kv ∈ I.restrC) ∧ ¬ Spec.EntryFits I W kv) := by
  unfold Input.process
  obtain ⟨⟨fx, rq⟩, he, hfx, hrq⟩ := Input.reserved_spec hfr
  rw [he]
  dsimp only [bind, Except.bind] at hfx hrq ⊢
  obtain ⟨C, hC, ok⟩ := Comps.build_spec hs htgt rq
  rw [hC]
  dsimp only
  obtain ⟨l0, hl0⟩ : ∃ l0, C.comp[0]? = some l0 := by
    obtain ⟨l, hl, _⟩ := ok.back 0 hpos
    cases hc : C.comp with
    | nil => rw [hc] at hl; simp at hl
    | cons a _ => exact ⟨a, rfl⟩
  obtain ⟨r, hr'⟩ : ∃ r, C.nres[0]? = some r := by
    have h1 := ok.nres_len
    cases hc : C.nres with
    | nil => rw [hc] at h1; cases hcc : C.comp with
      | nil => rw [hcc] at hl0; simp at hl0
      | cons => rw [hcc] at h1; simp at h1
    | cons a _ => exact ⟨a, rfl⟩
  rw [hr']
  dsimp only
  have hL := ok.largest htgt hl0
  refine ⟨l0, hL, ?_⟩
  have hmem0 : ∀ x, x ∈ l0 ↔ x < I.tgt.n ∧ C.index x = 0 := by
    intro x
    constructor
    · intro hx
      obtain ⟨j, hj⟩ := List.getElem?_of_mem hx
      have := ok.place 0 l0 j x hl0 hj
      exact ⟨this.1, this.2.1⟩
    · rintro ⟨h1, h2⟩
      obtain ⟨l', h3, h4⟩ := ok.back x h1
      rw [h2, hl0] at h3
      simp only [Option.some.injEq] at h3
      subst h3; exact List.mem_of_getElem? h4
  have hfit : ∀ kv, Input.EntryOK I.src.n I.tgt.n C kv ↔ Spec.EntryFits I l0 kv := by
    intro kv
    unfold Input.EntryOK Spec.EntryFits
    refine and_congr_right (fun _ => forall_congr' fun x => forall_congr' fun _ => ?_)
    rw [hmem0]
    constructor
    · rintro ⟨a, b, c⟩; exact ⟨a, by omega, c⟩
    · rintro ⟨a, b, c⟩; exact ⟨a, by omega, c⟩
  have hcnt := Input.cnt_fixed hfx hf (fun kv hkv => (hfr kv hkv).1)
  obtain ⟨⟨fr, bk, un⟩, hun, hscr⟩ := Input.filterFixed_spec hcnt
  rw [hun]
  dsimp only at hscr ⊢
  generalize hscrew : Input.inverse I.src.n un = screw
  have hsu : ∀ j, j < I.src.n → screw (un j) = j := by
    intro j hj
    rw [← hscrew]
    exact Input.inverse_spec (fun i j hi hj => hscr.inj hi hj) hj
  have hslt : ∀ v, v < I.src.n → screw v < I.src.n ∧ un (screw v) = v := by
    intro v hv
    obtain ⟨j, hj, rfl⟩ := hscr.surj v hv
    rw [hsu j hj]; exact ⟨hj, rfl⟩
  have hsinj : ∀ a b, a < I.src.n → b < I.src.n → screw a = screw b → a = b := by
    intro a b ha hb h
    rw [← (hslt a ha).2, ← (hslt b hb).2, h]
  rcases Input.inputChains_spec (nt := I.tgt.n) (C := C) hsinj hf with ⟨fok, fixedM, hfm, _⟩ | ⟨⟨kv, hkv, hno⟩, hbad⟩
  swap
  · rw [hbad]
    exact ⟨fun _ => ⟨kv, Or.inl hkv, fun hc => hno ((hfit kv).2 hc)⟩, fun _ => rfl⟩
  rw [hfm]
  dsimp only
  rcases Input.inputChains_spec (nt := I.tgt.n) (C := C) hsinj hi with ⟨iok, initM, him, _⟩ | ⟨⟨kv, hkv, hno⟩, hbad⟩
  swap
  · rw [hbad]
    exact ⟨fun _ => ⟨kv, Or.inr (Or.inl hkv), fun hc => hno ((hfit kv).2 hc)⟩, fun _ => rfl⟩
  rw [him]
  dsimp only
  rcases Input.inputChains_spec (nt := I.tgt.n) (C := C) hsinj hr with ⟨rok, restrM, hrm, _⟩ | ⟨⟨kv, hkv, hno⟩, hbad⟩
  swap
  · rw [hbad]
    exact ⟨fun _ => ⟨kv, Or.inr (Or.inr hkv), fun hc => hno ((hfit kv).2 hc)⟩, fun _ => rfl⟩
  rw [hrm]
  dsimp only
  have hno : ¬ ∃ kv, (kv ∈ I.fixedC ∨ kv ∈ I.initC ∨ kv ∈ I.restrC) ∧ ¬ Spec.EntryFits I l0 kv := by
    rintro ⟨kv, hkv | hkv | hkv, hn⟩
    · exact hn ((hfit kv).1 (fok kv hkv))
    · exact hn ((hfit kv).1 (iok kv hkv))
    · exact hn ((hfit kv).1 (rok kv hkv))
  refine ⟨fun hc => absurd hc ?_, fun hc => absurd hc hno⟩
  obtain ⟨vn, hvn, _⟩ := IGraph.getNeighbors_spec (g := I.src) (src := fun _ => false) (snk := fx)
    (rel := screw) (fun e he => ⟨(hslt _ (hsrc e he).1).1, (hslt _ (hsrc e he).2).1⟩)
  rw [hvn]
  dsimp only
  obtain ⟨qn, hqn, _⟩ := IGraph.getNeighbors_spec (g := C.graphs 0)
    (src := fun x => decide (((C.size 0 : Int) - r) ≤ x)) (snk := fun _ => false) (rel := id) (by
      intro e he
      refine ⟨(ok.gn 0 e.1).2 ⟨e.1, e.2, he, Or.inl (Nat.le_refl _)⟩, (ok.gn 0 e.2).2 ⟨e.1, e.2, he, Or.inr (Nat.le_refl _)⟩⟩)
  unfold Comps.neighbors
  rw [hqn]
  dsimp only
  split
  · simp
  · unfold Input.margin
    split <;> rename_i hm
    · split at hm <;> first | (simp at hm; done) | (split at hm <;> simp at hm; subst hm; simp)
    · split <;> simp

/-- Otherwise every entry is translated and none is lost: initial chains keep their
qubits, restrictions admit exactly the listed qubits, fixed chains are kept as given. -/
theorem C22_translated (hs : SortOK sort) (hI : I.OK) {p : Proc} (hp : I.process sort = .ok p) :
    ∃ W : List Nat, Spec.Largest I.tgt W ∧ (∀ x ∈ W, W[p.comps.label x]? = some x) ∧
      (∀ e, e ∈ p.init ↔ ∃ kv ∈ I.initC, e = (p.screw kv.1.toNat, kv.2.map (fun x => p.comps.label x.toNat))) ∧
      (∀ kv ∈ I.fixedC, p.P.fixedChain (p.screw kv.1.toNat) = kv.2.map (fun x => p.comps.label x.toNat)) ∧
      (∀ v x, v < I.src.n → x ∈ W → (p.P.accepts (p.screw v) (p.comps.label x) = true ↔
        ∀ kv ∈ I.restrC, kv.1 = (v : Int) → (x : Int) ∈ kv.2)) := by
  rcases process_spec hs hI with ⟨p', hp', l0, h⟩ | hb | hb
  · rw [hp] at hp'; cases hp'
    have hW : Spec.Largest I.tgt l0 := by
      have hp2 := hp
      unfold Input.process at hp2
      obtain ⟨⟨fx, rq⟩, he, _⟩ := Input.reserved_spec hI.frange
      rw [he] at hp2
      obtain ⟨C, hC, ok⟩ := Comps.build_spec hs hI.tgt rq
      dsimp only [bind, Except.bind] at hp2
      rw [hC] at hp2
      dsimp only at hp2
      have hcomp : p.comps = C := by
        cases hr : C.nres[0]? with
        | none => rw [hr] at hp2; simp at hp2
        | some r =>
          rw [hr] at hp2
          dsimp only at hp2
          repeat' (split at hp2 <;> try (simp at hp2; done))
          simp only [Except.ok.injEq] at hp2
          rw [← hp2]
      have := h.comp0
      rw [hcomp] at this
      exact ok.largest hI.tgt this
    refine ⟨l0, hW, ?_, h.init.mem, fun kv hkv => (h.fch kv hkv).1, ?_⟩
    · intro x hx
      obtain ⟨j, hj⟩ := List.getElem?_of_mem hx
      rw [(h.place j x hj).2.2]; exact hj
    · intro v x hv hx
      obtain ⟨j, hj⟩ := List.getElem?_of_mem hx
      rw [(h.place j x hj).2.2]
      exact h.acc v j x hv hj
  · rw [hp] at hb; simp at hb
  · rw [hp] at hb; simp at hb

/-- A key or qubit of a *fixed* chain that is out of range is not rejected: it is used as
an index before it is checked. -/
theorem C22_fixed_out_of_range (h : ∃ kv ∈ I.fixedC, ¬ ((0 ≤ kv.1 ∧ kv.1 < (I.src.n : Int)) ∧
    ∀ q ∈ kv.2, 0 ≤ q ∧ q < (I.tgt.n : Int))) : I.process sort = .error .ub := by
  have key : I.reserved = .error .ub := by
    unfold Input.reserved
    generalize hs : (((fun _ => false), (fun _ => false)) : (Nat → Bool) × (Nat → Bool)) = s
    clear hs
    generalize I.fixedC = m at h
    induction m generalizing s with
    | nil => simp at h
    | cons kv m ih =>
      rw [List.foldlM_cons]
      by_cases h1 : 0 ≤ kv.1 ∧ kv.1 < (I.src.n : Int)
      · rw [Input.index_spec h1.1 h1.2]
        dsimp only [bind, Except.bind]
        by_cases h2 : ∀ q ∈ kv.2, 0 ≤ q ∧ q < (I.tgt.n : Int)
        · obtain ⟨rq, hrq, _⟩ : Ok (kv.2.foldlM (init := s.2) fun rq q => do
              let q ← Input.index I.tgt.n q
              .ok (upd rq q true)) (fun _ => True) := by
            refine Ok.foldlM (I := fun _ _ => True) trivial ?_
            intro _ q r hq _ _
            rw [Input.index_spec (h2 q hq).1 (h2 q hq).2]
            exact Ok.pure trivial
          dsimp only [bind, Except.bind] at hrq
          rw [hrq]
          dsimp only
          apply ih
          obtain ⟨e, he, hb⟩ := h
          rcases List.mem_cons.1 he with rfl | he
          · exact absurd ⟨h1, h2⟩ hb
          · exact ⟨e, he, hb⟩
        · have : (kv.2.foldlM (init := s.2) fun rq q => do
              let q ← Input.index I.tgt.n q
              (.ok (upd rq q true) : M (Nat → Bool))) = .error .ub := by
            generalize s.2 = r
            generalize kv.2 = l at h2
            induction l generalizing r with
            | nil => simp at h2
            | cons q l ihl =>
              rw [List.foldlM_cons]
              by_cases hq : 0 ≤ q ∧ q < (I.tgt.n : Int)
              · rw [Input.index_spec hq.1 hq.2]
                apply ihl
                intro hc
                apply h2
                intro x hx
                rcases List.mem_cons.1 hx with rfl | hx
                · exact hq
                · exact hc x hx
              · unfold Input.index
                rw [if_neg hq]; rfl
          dsimp only [bind, Except.bind] at this
          rw [this]
      · unfold Input.index
        rw [if_neg h1]; rfl
  unfold Input.process
  rw [key]
  rfl

example : ({ Demo.star with fixedC := [(0, [1]), (7, [2])] } : Input).process Demo.sortBySize = .error .ub :=
  C22_fixed_out_of_range ⟨(7, [2]), by simp, by decide⟩

/-- One chain outside the working component. -/
example : ((({ Demo.star with initC := [(3, [8])] } : Input).process Demo.sortBySize).toOption.isNone) = true ∧
    (Demo.star.process Demo.sortBySize).toOption.isSome = true := by decide +kernel

end MM
