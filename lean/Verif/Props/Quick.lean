import Verif.Graph.QuickFind
import Verif.Props.Demo
import Mathlib.Data.List.Nodup
import Mathlib.Data.List.Induction

/-! C23, C56–C58: the greedy pass. -/

namespace MM

open Relation
open Scratch (Cfg)

variable {I : Input} {sort : List (List Nat) → List (List Nat)}

/-! ### the result -/

/-- A listed variable without a fixed chain. -/
def Listed (I : Input) (vs : List Int) (u : Nat) : Prop := (u : Int) ∈ vs ∧ ¬ I.FixV u

namespace QuickDone

variable {K : Quick} {vs : List Int} {p : Proc} {l0 : List Nat} {E E' : Emb} {cs : List (List Nat)}

theorem lt (h : QuickDone I K vs p l0 E E' cs) {u : Nat} {c : List Nat} (hu : cs[u]? = some c) : u < I.src.n := by
  rw [← h.len]; by_contra hc; rw [List.getElem?_eq_none (by omega)] at hu; simp at hu

/-- The numbers in the order of the pass are those of the listed variables. -/
theorem order (h : QuickDone I K vs p l0 E E' cs) (hvs : ∀ v ∈ vs, 0 ≤ v ∧ v < (I.src.n : Int))
    (hlow : ∀ v ∈ vs, ¬ I.FixV v.toNat → ∀ w, I.FixV w → v.toNat < w) {u : Nat} (hu : u < I.src.n) :
    p.screw u ∈ (vs.map Int.toNat).filter (fun v => !p.fx v) ↔ Listed I vs u := by
  have key : ∀ v ∈ vs, ¬ I.FixV v.toNat → p.screw v.toNat = v.toNat := fun v hv hf =>
    h.rep.screw_id (by have := hvs v hv; omega) (hlow v hv hf)
  have hfx : ∀ v, (!p.fx v) = true ↔ ¬ I.FixV v := by
    intro v; rw [← h.rep.fxv v]; cases p.fx v <;> simp
  rw [List.mem_filter, List.mem_map, hfx]
  constructor
  · rintro ⟨⟨v, hv, he⟩, hf⟩
    rw [← he] at hf
    have h1 := key v hv hf
    have h2 := hvs v hv
    have : u = v.toNat := by
      rw [← h.rep.su u hu, ← he]
      have h3 := h.rep.su v.toNat (by omega)
      rw [h1] at h3; exact h3
    subst this
    exact ⟨by rw [Int.toNat_of_nonneg h2.1]; exact hv, hf⟩
  · rintro ⟨hm, hf⟩
    have h1 := key u hm (by simpa using hf)
    simp only [Int.toNat_natCast] at h1
    rw [h1]
    exact ⟨⟨u, hm, by simp⟩, hf⟩

/-- A free variable starts with a chain exactly when it has an initial chain. -/
theorem init_iff (h : QuickDone I K vs p l0 E E' cs) {u : Nat} (hu : u < I.src.n) (hf : ¬ I.FixV u) {j x : Nat}
    (hj : l0[j]? = some x) :
    (E.chains (p.screw u)).has j = true ↔ ∃ kv ∈ I.initC, kv.1 = (u : Int) ∧ (x : Int) ∈ kv.2 := by
  have hnv : p.screw u < p.P.nv := by
    by_contra hc; exact hf ((h.rep.fixed u hu).1 (by omega))
  rw [h.init _ _ hnv]
  constructor
  · rintro ⟨qs, hq, hjq⟩
    obtain ⟨kv, hkv, he⟩ := (h.rep.init.mem _).1 hq
    simp only [Prod.mk.injEq] at he
    obtain ⟨e1, rfl⟩ := he
    obtain ⟨k1, k2⟩ := h.rep.irange kv hkv
    have hk : kv.1.toNat = u := by
      rw [← h.rep.su _ (by omega : kv.1.toNat < I.src.n), ← e1, h.rep.su u hu]
    obtain ⟨y, hy, hyj⟩ := List.mem_map.1 hjq
    obtain ⟨y1, y2, y3⟩ := k2 y hy
    have hb := h.rep.back y.toNat (by omega) y3
    rw [hyj, hj] at hb
    simp only [Option.some.injEq] at hb
    refine ⟨kv, hkv, by omega, ?_⟩
    have : y = (x : Int) := by omega
    rw [← this]; exact hy
  · rintro ⟨kv, hkv, he, hx⟩
    refine ⟨kv.2.map (fun x => p.comps.label x.toNat), (h.rep.init.mem _).2 ⟨kv, hkv, by rw [he]; simp⟩, ?_⟩
    rw [List.mem_map]
    exact ⟨x, hx, by simp only [Int.toNat_natCast]; exact (h.rep.place j x hj).2.2⟩

theorem init_ne (h : QuickDone I K vs p l0 E E' cs) (hI : I.OK) {u : Nat} (hu : u < I.src.n) (hf : ¬ I.FixV u) :
    E.NE (p.screw u) ↔ ∃ kv ∈ I.initC, kv.1 = (u : Int) := by
  have hN : p.screw u < p.P.N := by rw [h.rep.hN]; exact h.rep.slt u hu
  constructor
  · rintro ⟨j, hj⟩
    obtain ⟨x, hx⟩ := getElem?_lt (l := l0) (by rw [← h.rep.hQ]; exact (h.start.cinv _ hN).has_lt hj)
    obtain ⟨kv, hkv, he, _⟩ := (h.init_iff hu hf hx).1 hj
    exact ⟨kv, hkv, he⟩
  · rintro ⟨kv, hkv, he⟩
    have hne := hI.ine kv hkv
    obtain ⟨x, hx⟩ := List.exists_mem_of_ne_nil _ hne
    obtain ⟨x1, x2, x3⟩ := (h.rep.irange kv hkv).2 x hx
    have hb := h.rep.back x.toNat (by omega) x3
    exact ⟨_, (h.init_iff hu hf hb).2 ⟨kv, hkv, he, by rw [Int.toNat_of_nonneg x1]; exact hx⟩⟩

end QuickDone

/-! ### C23 -/

/-- `quickpass` with a fixed node: the caller lists node 1 and node 2 is embedded; the
caller lists node 2 and the fixed chain of node 0 is replaced. -/
def Demo.fixedPath : Input :=
  { src := ⟨3, [(0, 1), (1, 2)]⟩
    tgt := ⟨5, [(0, 1), (1, 2), (2, 3), (3, 4), (4, 0)]⟩
    fixedC := [(0, [0])], initC := [], restrC := [] }

/-- No bound on lengths, no overlaps, no local search. -/
def Demo.greedy : Quick := ⟨0, 0, false, true⟩

theorem Demo.fixedPath_ok : Demo.fixedPath.OK := Demo.Checked.ok (by decide)

/-- The claim fails: the caller lists node 1 only, node 1 gets no chain and node 2, which
is not listed and had no chain, gets one. -/
theorem C23_other_node_embedded : ∃ (I : Input) (vs : List Int) (cs : List (List Nat)), I.OK ∧ I.restrC = [] ∧
    I.initC = [] ∧ vs = [1] ∧ ¬ I.FixV 2 ∧
    (quickPass Demo.sortBySize Demo.cfg Demo.greedy I vs Demo.tape0).toOption = some cs ∧
    cs[1]? = some [] ∧ cs[2]? = some [4] :=
  ⟨Demo.fixedPath, [1], [[0], [], [4]], Demo.fixedPath_ok, rfl, rfl, rfl, by
    rintro ⟨kv, hkv, h⟩; simp [Demo.fixedPath] at hkv; subst hkv; simp at h, by decide +kernel, rfl, rfl⟩

/-- Worse, the pass replaces the chain that the caller fixed. -/
theorem C23_fixed_chain_replaced : ∃ (I : Input) (vs : List Int) (cs : List (List Nat)), I.OK ∧ I.restrC = [] ∧
    (0, [0]) ∈ I.fixedC ∧
    (quickPass Demo.sortBySize Demo.cfg Demo.greedy I vs Demo.tape0).toOption = some cs ∧ cs[0]? = some [4] :=
  ⟨Demo.fixedPath, [2], [[4], [], []], Demo.fixedPath_ok, rfl, by simp [Demo.fixedPath], by decide +kernel, rfl⟩

/-- The claim holds when every listed node comes before all fixed ones: exactly the listed
nodes are torn out and embedded anew. A node that is not listed has a chain afterwards
exactly when it has an initial chain; a listed node that gets a chain gets a connected one
that meets or touches the chain of every neighbour. -/
theorem C23_listed_nodes_partial (hs : SortOK sort) (hI : I.OK) (hr : I.restrC = []) {vs : List Int}
    (hvs : ∀ v ∈ vs, 0 ≤ v ∧ v < (I.src.n : Int))
    (hlow : ∀ v ∈ vs, ¬ I.FixV v.toNat → ∀ w, I.FixV w → v.toNat < w)
    {C : Cfg} {K : Quick} (hK : K.near = true → Spec.Ready I vs) {t : Tape} {cs : List (List Nat)}
    (h : quickPass sort C K I vs t = .ok cs) :
    cs.length = I.src.n ∧
    (∀ kv ∈ I.fixedC, ∃ c, cs[kv.1.toNat]? = some c ∧ ∀ q : Nat, q ∈ c ↔ (q : Int) ∈ kv.2) ∧
    (∀ (u : Nat) (c : List Nat), cs[u]? = some c → ¬ I.FixV u → (u : Int) ∉ vs →
      (c ≠ [] ↔ ∃ kv ∈ I.initC, kv.1 = (u : Int))) ∧
    (∀ (u : Nat) (c : List Nat), cs[u]? = some c → Listed I vs u → c ≠ [] → Spec.ConnectedIn I.tgt c) ∧
    (∀ (u v : Nat) (c d : List Nat), cs[u]? = some c → cs[v]? = some d → Listed I vs u → I.src.Edge u v → u ≠ v →
      c ≠ [] → d ≠ [] → Spec.Joined I.tgt c d ∨ ∃ q ∈ c, q ∈ d) := by
  rcases quickPass_spec hs hI hr hvs hlow C hK t with ⟨_, hcs, p, l0, E, E', hd⟩ | hb | hb
  · rw [h] at hcs; cases hcs
    have hscr : ∀ u, u < I.src.n → ¬ I.FixV u → p.screw u < p.P.nv := by
      intro u hu hf
      by_contra hc; exact hf ((hd.rep.fixed u hu).1 (by omega))
    refine ⟨hd.len, ?_, ?_, ?_, ?_⟩
    · intro kv hkv
      have hlt : kv.1.toNat < cs.length := by rw [hd.len]; have := hI.frange kv hkv; omega
      have hc := List.getElem?_eq_getElem hlt
      exact ⟨_, hc, fun q => hd.rep.fixed_chain hI hd.stop hkv (hd.handed _ _ hc) q⟩
    · intro u c hu hf hm
      have hul := hd.lt hu
      rw [(hd.handed u c hu).ne hd.rep hul hd.stop, ← hd.init_ne hI hul hf]
      exact hd.passed.ne _ (fun hc => hm ((hd.order hvs hlow hul).1 hc).1)
    · intro u c hu hm hne
      have hul := hd.lt hu
      have := hd.passed.own _ ((hd.order hvs hlow hul).2 hm) (((hd.handed u c hu).ne hd.rep hul hd.stop).1 hne)
      exact hd.rep.chain_conn hd.stop hul this.1 (hd.handed u c hu)
    · intro u v c d hu hv hm he huv hc hd'
      have hul := hd.lt hu
      have hvl := hd.lt hv
      have := hd.passed.own _ ((hd.order hvs hlow hul).2 hm) (((hd.handed u c hu).ne hd.rep hul hd.stop).1 hc)
      refine (hd.handed u c hu).linked hd.rep hul hvl huv hd.stop (this.2 _ ?_ ?_) (hd.handed v d hv)
      · exact (hd.rep.vn u v hul hvl hm.2).2 ⟨huv, he⟩
      · exact ((hd.handed v d hv).ne hd.rep hvl hd.stop).1 hd'
  · rw [h] at hb; simp at hb
  · rw [h] at hb; simp at hb

/-- The last of three nodes of a path fixed, the first one with an initial chain. -/
def Demo.lastFixed : Input :=
  { src := ⟨3, [(0, 1), (1, 2)]⟩
    tgt := ⟨5, [(0, 1), (1, 2), (2, 3), (3, 4), (4, 0)]⟩
    fixedC := [(2, [0])], initC := [(0, [3])], restrC := [] }

theorem Demo.lastFixed_run : (quickPass Demo.sortBySize Demo.cfg Demo.greedy Demo.lastFixed [1] Demo.tape0).toOption =
    some [[3], [4], [0]] := by decide +kernel

/-- The hypotheses are met by a run. -/
example : Demo.lastFixed.OK ∧ Demo.lastFixed.restrC = [] ∧
    (∀ v ∈ [(1 : Int)], 0 ≤ v ∧ v < (Demo.lastFixed.src.n : Int)) ∧
    (∀ v ∈ [(1 : Int)], ¬ Demo.lastFixed.FixV v.toNat → ∀ w, Demo.lastFixed.FixV w → v.toNat < w) ∧
    (quickPass Demo.sortBySize Demo.cfg Demo.greedy Demo.lastFixed [1] Demo.tape0).toOption = some [[3], [4], [0]] :=
  ⟨Demo.Checked.ok (by decide), rfl, by decide, by
    rintro v hv _ w ⟨kv, hkv, h⟩
    simp [Demo.lastFixed] at hkv hv
    subst hkv; subst hv; simp at h; omega, Demo.lastFixed_run⟩

/-- Local search: the last of three nodes of a path fixed, the others with initial chains. -/
def Demo.nearPath : Input :=
  { src := ⟨3, [(0, 1), (1, 2)]⟩
    tgt := ⟨5, [(0, 1), (1, 2), (2, 3), (3, 4), (4, 0)]⟩
    fixedC := [(2, [0])], initC := [(0, [2]), (1, [3, 4])], restrC := [] }

/-- A way to check a chain against those of the neighbours. -/
theorem Demo.placed {I : Input} {u : Nat} {c : List Nat} (hc : Spec.Given I u c) (hn : Spec.ConnectedIn I.tgt c)
    (h : ∀ kv ∈ I.fixedC ++ I.initC, kv.1.toNat ≠ u → I.src.Edge u kv.1.toNat →
      (∃ x ∈ c, ∃ y ∈ kv.2.map Int.toNat, I.tgt.Edge x y) ∨ ∃ q ∈ c, q ∈ kv.2.map Int.toNat) : Spec.Placed I u := by
  refine ⟨c, hc, hn, ?_⟩
  rintro v d huv he ⟨kv, hkv, hv, rfl⟩
  have : kv.1.toNat = v := by omega
  exact h kv hkv (by rw [this]; exact Ne.symm huv) (by rw [this]; exact he)

theorem Demo.nearPath_ready : Spec.Ready Demo.nearPath [1, 0] := by
  refine ⟨by decide, ?_⟩
  intro v hv _
  simp only [List.mem_cons, List.not_mem_nil, or_false] at hv
  rcases hv with rfl | rfl
  · refine Demo.placed (c := [3, 4]) ⟨(1, [3, 4]), by decide, by decide, by decide⟩ ?_ (by decide)
    intro a ha b hb
    simp only [List.mem_cons, List.not_mem_nil, or_false] at ha hb
    rcases ha with rfl | rfl <;> rcases hb with rfl | rfl
    · exact ReflTransGen.refl
    · exact ReflTransGen.single ⟨by decide, by decide⟩
    · exact ReflTransGen.single ⟨by decide, by decide⟩
    · exact ReflTransGen.refl
  · refine Demo.placed (c := [2]) ⟨(0, [2]), by decide, by decide, by decide⟩ ?_ (by decide)
    intro a ha b hb
    simp only [List.mem_cons, List.not_mem_nil, or_false] at ha hb
    subst ha; subst hb
    exact ReflTransGen.refl

theorem Demo.nearPath_run (b : Nat) (hb : b < 2) :
    (quickPass Demo.sortBySize Demo.cfg ⟨b, 0, true, true⟩ Demo.nearPath [1, 0] Demo.tape0).toOption =
      some [[2], [1], [0]] := by
  have : b = 0 ∨ b = 1 := by omega
  rcases this with rfl | rfl <;> decide +kernel

/-- The hypotheses are met by a run with local search, without and with a bound on the
length of chains. -/
example : Demo.nearPath.OK ∧ Demo.nearPath.restrC = [] ∧
    (∀ v ∈ [(1 : Int), 0], 0 ≤ v ∧ v < (Demo.nearPath.src.n : Int)) ∧
    (∀ v ∈ [(1 : Int), 0], ∀ w, Demo.nearPath.FixV w → v.toNat < w) ∧ Spec.Ready Demo.nearPath [1, 0] ∧
    ∀ b < 2, (quickPass Demo.sortBySize Demo.cfg ⟨b, 0, true, true⟩ Demo.nearPath [1, 0] Demo.tape0).toOption =
      some [[2], [1], [0]] :=
  ⟨Demo.Checked.ok (by decide), rfl, by decide, by
    rintro v hv w ⟨kv, hkv, h⟩
    simp [Demo.nearPath] at hkv hv
    subst hkv; simp at h; omega, Demo.nearPath_ready, Demo.nearPath_run⟩

/-! ### C56 -/

/-- With local search, a listed node without a chain next to a node with an initial chain:
the flip that follows the search dereferences a missing link. -/
theorem C56_undefined_with_local_search : ∃ (I : Input) (vs : List Int), I.OK ∧ I.restrC = [] ∧ I.fixedC = [] ∧
    (∀ v ∈ vs, 0 ≤ v ∧ v < (I.src.n : Int)) ∧
    (quickPass Demo.sortBySize Demo.cfg ⟨0, 0, true, true⟩ I vs Demo.tape0) = .error .ub := by
  refine ⟨{ Demo.path3 with initC := [(1, [1])] }, [0], Demo.Checked.ok (by decide), rfl, rfl, by decide, ?_⟩
  have : (match quickPass Demo.sortBySize Demo.cfg ⟨0, 0, true, true⟩ { Demo.path3 with initC := [(1, [1])] } [0]
      Demo.tape0 with
    | .ok _ => false
    | .error e => decide (e = .ub)) = true := by decide +kernel
  cases h : quickPass Demo.sortBySize Demo.cfg ⟨0, 0, true, true⟩ { Demo.path3 with initC := [(1, [1])] } [0]
      Demo.tape0 with
  | ok _ => rw [h] at this; simp at this
  | error e => rw [h] at this; simp at this; rw [this]

/-- The pass always ends, with chains or with one of two exceptions, if local search is off
or the listed nodes have suitable initial chains. -/
theorem C56_defined_partial (hs : SortOK sort) (hI : I.OK) (hr : I.restrC = []) {vs : List Int}
    (hlow : ∀ v ∈ vs, ¬ I.FixV v.toNat → ∀ w, I.FixV w → v.toNat < w)
    (C : Cfg) {K : Quick} (hK : K.near = true → Spec.Ready I vs) (t : Tape) :
    (∃ cs, quickPass sort C K I vs t = .ok cs) ∨ quickPass sort C K I vs t = .error .corrupt ∨
      quickPass sort C K I vs t = .error .small := by
  by_cases hvs : ∀ v ∈ vs, 0 ≤ v ∧ v < (I.src.n : Int)
  · rcases quickPass_spec hs hI hr hvs hlow C hK t with ⟨cs, hcs, _⟩ | hb | hb
    · exact Or.inl ⟨cs, hcs⟩
    · exact Or.inr (Or.inl hb)
    · exact Or.inr (Or.inr hb)
  · have hbad : ∃ v ∈ vs, ¬ (0 ≤ v ∧ v < (I.src.n : Int)) := by
      by_contra hc; apply hvs; intro v hv; by_contra hc'; exact hc ⟨v, hv, hc'⟩
    unfold quickPass
    rcases process_spec hs hI with ⟨p, hp, l0, hrep⟩ | hb | hb
    · rw [hp]
      obtain ⟨X, hX, _⟩ := Run.new_spec hrep.wf (dom_free p.P) (hrep.initOK hI) t
      dsimp only [bind, Except.bind]
      rw [hX]
      dsimp only
      rw [inputVars_bad hbad]
      exact Or.inr (Or.inl rfl)
    · rw [hb]; exact Or.inr (Or.inl rfl)
    · rw [hb]; exact Or.inr (Or.inr rfl)

/-! ### C57 -/

/-- The claim fails when a fixed node comes before a listed one: the listed node keeps a
chain longer than the bound. -/
theorem C57_listed_node_too_long : ∃ (I : Input) (vs : List Int) (cs : List (List Nat)), I.OK ∧ I.restrC = [] ∧
    vs = [1] ∧ ¬ I.FixV 1 ∧
    (quickPass Demo.sortBySize Demo.cfg ⟨1, 0, false, true⟩ I vs Demo.tape0).toOption = some cs ∧
    cs[1]? = some [2, 1] :=
  ⟨{ Demo.fixedPath with initC := [(1, [1, 2])] }, [1], [[0], [2, 1], [3]], Demo.Checked.ok (by decide), rfl, rfl, by
    rintro ⟨kv, hkv, h⟩; simp [Demo.fixedPath] at hkv; subst hkv; simp at h, by decide +kernel, rfl⟩

/-- Listed nodes get no chain longer than the bound, and no other chain grows beyond the
bound, with and without local search. -/
theorem C57_length_bound_partial (hs : SortOK sort) (hI : I.OK) (hr : I.restrC = []) {vs : List Int}
    (hvs : ∀ v ∈ vs, 0 ≤ v ∧ v < (I.src.n : Int))
    (hlow : ∀ v ∈ vs, ¬ I.FixV v.toNat → ∀ w, I.FixV w → v.toNat < w)
    {C : Cfg} {K : Quick} (hK : K.near = true → Spec.Ready I vs) (hb : 0 < K.length) {t : Tape} {cs : List (List Nat)}
    (h : quickPass sort C K I vs t = .ok cs) :
    (∀ (u : Nat) (c : List Nat), cs[u]? = some c → Listed I vs u → c.length ≤ K.length) ∧
    (∀ (u : Nat) (c : List Nat), cs[u]? = some c → ¬ I.FixV u → (u : Int) ∉ vs → c.length ≤ K.length ∨
      ∃ kv ∈ I.initC, kv.1 = (u : Int) ∧ c.length ≤ kv.2.length) := by
  rcases quickPass_spec hs hI hr hvs hlow C hK t with ⟨_, hcs, p, l0, E, E', hd⟩ | hb' | hb'
  · rw [h] at hcs; cases hcs
    constructor
    · intro u c hu hm
      have hul := hd.lt hu
      rw [(hd.handed u c hu).length hd.rep hul hd.stop]
      exact hd.passed.size hb _ ((hd.order hvs hlow hul).2 hm)
    · intro u c hu hf hm
      have hul := hd.lt hu
      have hN : p.screw u < p.P.N := by rw [hd.rep.hN]; exact hd.rep.slt u hul
      have h1 := hd.passed.sizes hb (p.screw u) (fun hc => hm ((hd.order hvs hlow hul).1 hc).1)
      rw [← (hd.handed u c hu).length hd.rep hul hd.stop] at h1
      by_cases hle : c.length ≤ K.length
      · exact Or.inl hle
      · right
        have h2 : c.length ≤ E.chainsize p.P (p.screw u) := by omega
        have h3 : E.NE (p.screw u) := (hd.start.size_iff hN).1 (by omega)
        obtain ⟨kv, hkv, he⟩ := (hd.init_ne hI hul hf).1 h3
        refine ⟨kv, hkv, he, Nat.le_trans h2 ?_⟩
        unfold Emb.chainsize Chain.size
        rw [Input.cnt_eq_filter]
        have hsub : ∀ j ∈ (List.range p.P.Q).filter (fun j => (E.chains (p.screw u)).has j),
            j ∈ kv.2.map (fun x => p.comps.label x.toNat) := by
          intro j hj
          rw [List.mem_filter, List.mem_range] at hj
          obtain ⟨x, hx⟩ := getElem?_lt (l := l0) (by rw [← hd.rep.hQ]; exact hj.1)
          obtain ⟨kv', hkv', he', hxm⟩ := (hd.init_iff hul hf hx).1 hj.2
          have : kv' = kv := fst_unique hI.ikeys hkv' hkv (by rw [he, he'])
          subst this
          exact List.mem_map.2 ⟨x, hxm, by simp only [Int.toNat_natCast]; exact (hd.rep.place j x hx).2.2⟩
        have hn : ((List.range p.P.Q).filter (fun j => (E.chains (p.screw u)).has j)).Nodup :=
          List.nodup_range.sublist List.filter_sublist
        have := (hn.subperm hsub).length_le
        simpa using this
  · rw [h] at hb'; simp at hb'
  · rw [h] at hb'; simp at hb'

/-- A triangle into a cycle of five. -/
def Demo.triangle5 : Input :=
  { src := ⟨3, [(0, 1), (0, 2), (1, 2)]⟩
    tgt := ⟨5, [(0, 1), (1, 2), (2, 3), (3, 4), (4, 0)]⟩
    fixedC := [], initC := [], restrC := [] }

/-- Two runs meet the hypotheses; the bound makes a difference. -/
example : Demo.triangle5.OK ∧
    (quickPass Demo.sortBySize Demo.cfg ⟨2, 0, false, true⟩ Demo.triangle5 [0, 1, 2] Demo.tape0).toOption =
      some [[4, 0], [3], [2, 1]] ∧
    (quickPass Demo.sortBySize Demo.cfg ⟨3, 0, false, true⟩ Demo.triangle5 [0, 1, 2] Demo.tape0).toOption =
      some [[4, 1, 0], [3], [2]] := ⟨Demo.Checked.ok (by decide), by decide +kernel, by decide +kernel⟩

/-! ### C58 -/

theorem countP_cnt (f : List Nat → Bool) (cs : List (List Nat)) :
    cs.countP f = cnt (fun i => match cs[i]? with | none => false | some c => f c) cs.length := by
  induction cs using List.reverseRecOn with
  | nil => rfl
  | append_singleton cs c ih =>
    rw [List.countP_append, List.length_append, List.length_singleton, cnt, ih]
    have h1 : cnt (fun i => match (cs ++ [c])[i]? with | none => false | some c => f c) cs.length =
        cnt (fun i => match cs[i]? with | none => false | some c => f c) cs.length := by
      refine cnt_congr ?_
      intro i hi
      rw [List.getElem?_append_left hi]
    rw [h1, List.getElem?_append_right (Nat.le_refl _)]
    simp [List.countP_cons]

theorem cnt_perm {f : Nat → Bool} {g : Nat → Nat} {n : Nat} (hg : ∀ i, i < n → g i < n)
    (hinj : ∀ i j, i < n → j < n → g i = g j → i = j) : cnt (fun i => f (g i)) n = cnt f n := by
  have hnd : ((List.range n).map g).Nodup := by
    refine (List.nodup_map_iff_inj_on List.nodup_range).2 ?_
    intro x hx y hy h
    exact hinj x y (by simpa using hx) (by simpa using hy) h
  have hsub : ∀ x ∈ (List.range n).map g, x ∈ List.range n := by
    intro x hx
    obtain ⟨i, hi, rfl⟩ := List.mem_map.1 hx
    simpa using hg i (by simpa using hi)
  have hp : ((List.range n).map g).Perm (List.range n) :=
    (hnd.subperm hsub).perm_of_length_le (by simp)
  rw [Input.cnt_eq_filter, Input.cnt_eq_filter, ← List.countP_eq_length_filter, ← List.countP_eq_length_filter,
    ← hp.countP_eq f, List.countP_map]
  rfl

/-- How many chains a target node is in. -/
def Spec.load (cs : List (List Nat)) (q : Nat) : Nat := cs.countP (fun c => decide (q ∈ c))

theorem QuickDone.load {K : Quick} {vs : List Int} {p : Proc} {l0 : List Nat} {E E' : Emb} {cs : List (List Nat)}
    (h : QuickDone I K vs p l0 E E' cs) {j q : Nat} (hj : l0[j]? = some q) : (Spec.load cs q : Int) = E'.w j := by
  unfold Spec.load
  rw [h.stop.exact j, countP_cnt, h.len, h.rep.hN, ← cnt_perm (f := fun v => (E'.chains v).has j) h.rep.slt]
  · congr 1
    refine cnt_congr ?_
    intro u hu
    rw [List.getElem?_eq_getElem (by rw [h.len]; exact hu)]
    dsimp only
    have hc := h.handed u _ (List.getElem?_eq_getElem (by rw [h.len]; exact hu))
    rw [Bool.eq_iff_iff, decide_eq_true_iff, hc.2 q]
    constructor
    · rintro ⟨i, hi, hh⟩
      rw [h.rep.get_inj hj hi]; exact hh
    · intro hh; exact ⟨j, hj, hh⟩
  · intro a b ha hb hab
    rw [← h.rep.su a ha, ← h.rep.su b hb, hab]

/-- The claim fails next to fixed chains: two neighbours of a fixed node overlap although
no overlap is allowed. -/
theorem C58_overlap_beside_fixed : ∃ (I : Input) (vs : List Int) (cs : List (List Nat)), I.OK ∧ I.restrC = [] ∧
    I.initC = [] ∧ (∀ v ∈ vs, ∀ w, I.FixV w → v.toNat < w) ∧
    (quickPass Demo.sortBySize Demo.cfg ⟨0, 0, false, true⟩ I vs Demo.tape0).toOption = some cs ∧
    Spec.load cs 1 = 2 := by
  refine ⟨{ src := ⟨3, [(0, 2), (2, 1)]⟩, tgt := ⟨3, [(0, 1), (1, 2)]⟩, fixedC := [(2, [0])], initC := [], restrC := [] },
    [0, 1], [[1], [2, 1], [0]], Demo.Checked.ok (by decide), rfl, rfl, ?_, by decide +kernel, by decide⟩
  rintro v hv w ⟨kv, hkv, h⟩
  simp at hkv hv
  subst hkv
  rcases hv with rfl | rfl <;> simp at h <;> omega

/-- If no listed node has a fixed neighbour and the initial chains do not meet, then no
target node is in more than `1 + overlap_bound` chains. -/
theorem C58_overlap_bound_partial (hs : SortOK sort) (hI : I.OK) (hr : I.restrC = []) {vs : List Int}
    (hvs : ∀ v ∈ vs, 0 ≤ v ∧ v < (I.src.n : Int))
    (hlow : ∀ v ∈ vs, ¬ I.FixV v.toNat → ∀ w, I.FixV w → v.toNat < w)
    (hfar : ∀ v ∈ vs, ∀ w, I.FixV w → ¬ I.src.Edge v.toNat w)
    (hdisj : ∀ kv ∈ I.initC, ∀ kv' ∈ I.initC, kv.1 ≠ kv'.1 → ∀ q ∈ kv.2, q ∉ kv'.2)
    {C : Cfg} {K : Quick} (hK : K.near = true → Spec.Ready I vs) (ho : 0 ≤ K.overlap) {t : Tape} {cs : List (List Nat)}
    (h : quickPass sort C K I vs t = .ok cs) (q : Nat) :
    (Spec.load cs q : Int) ≤ 1 + K.overlap := by
  rcases quickPass_spec hs hI hr hvs hlow C hK t with ⟨_, hcs, p, l0, E, E', hd⟩ | hb' | hb'
  · rw [h] at hcs; cases hcs
    by_cases hq : q ∈ l0
    · obtain ⟨j, hj⟩ := List.getElem?_of_mem hq
      rw [hd.load hj]
      have h1 := hd.passed.fill ho (by
        intro u hu v hv
        rw [List.mem_filter, List.mem_map] at hu
        obtain ⟨⟨w, hw, rfl⟩, hf⟩ := hu
        have hfw : ¬ I.FixV w.toNat := by
          intro hc; rw [(hd.rep.fxv _).2 hc] at hf; simp at hf
        have hwn : w.toNat < I.src.n := by have := hvs w hw; omega
        have hsw := hd.rep.screw_id hwn (hlow w hw hfw)
        have hnv : p.screw w.toNat < p.P.nv := by
          by_contra hc; exact hfw ((hd.rep.fixed _ hwn).1 (by omega))
        rw [← hsw] at hv
        have hvN := hd.rep.wf.vn_lt _ _ hnv hv
        rw [hd.rep.hN] at hvN
        obtain ⟨u1, u2⟩ := hd.rep.us v hvN
        rw [← u2] at hv
        have he := (hd.rep.vn _ _ hwn u1 hfw).1 hv
        unfold Prob.fixed
        rw [decide_eq_false_iff_not]
        intro hc
        rw [← u2] at hc
        exact hfar w hw _ ((hd.rep.fixed _ u1).1 hc) he.2) j
      have h2 : E.w j ≤ 1 := by
        rw [hd.start.exact j]
        by_contra hc
        obtain ⟨a, b, ha, hb, hab, ha', hb'⟩ := two_of_cnt (f := fun v => (E.chains v).has j) (n := p.P.N) (by omega)
        rw [hd.rep.hN] at ha hb
        obtain ⟨a1, a2⟩ := hd.rep.us a ha
        obtain ⟨b1, b2⟩ := hd.rep.us b hb
        have free : ∀ v, v < p.P.N → (E.chains v).has j = true → (p.P.nv ≤ v ↔ p.P.nq ≤ j) := by
          intro v hv hh
          constructor
          · intro hnv
            exact hd.rep.wf.fixed_ge v j hnv hv ((hd.start.fixd v j hnv hv).1 hh)
          · intro hj'
            by_contra hc
            have := hd.start.dom v j (by omega) hh
            omega
        have fa := free a (by rw [hd.rep.hN]; exact ha) ha'
        have fb := free b (by rw [hd.rep.hN]; exact hb) hb'
        by_cases hjq : p.P.nq ≤ j
        · -- two fixed chains
          obtain ⟨kv, hkv, he⟩ := (hd.rep.fixed _ a1).1 (by rw [a2]; exact fa.2 hjq)
          obtain ⟨kv', hkv', he'⟩ := (hd.rep.fixed _ b1).1 (by rw [b2]; exact fb.2 hjq)
          have key : ∀ (v : Nat) (kv : Int × List Int), kv ∈ I.fixedC → kv.1 = (v : Int) → v < I.src.n →
              (E.chains (p.screw v)).has j = true → (q : Int) ∈ kv.2 := by
            intro v kv hkv he hv hh
            have hc : Handed p l0 E v ((List.range I.tgt.n).filter
                (fun x => decide (x ∈ l0) && (E.chains (p.screw v)).has (p.comps.label x))) := by
              refine ⟨List.nodup_range.sublist List.filter_sublist, fun x => ?_⟩
              rw [List.mem_filter, List.mem_range, Bool.and_eq_true, decide_eq_true_iff]
              constructor
              · rintro ⟨_, hx, hh⟩
                obtain ⟨i, hi⟩ := List.getElem?_of_mem hx
                rw [(hd.rep.place i x hi).2.2] at hh
                exact ⟨i, hi, hh⟩
              · rintro ⟨i, hi, hh⟩
                obtain ⟨p1, _, p3⟩ := hd.rep.place i x hi
                exact ⟨p1, List.mem_of_getElem? hi, by rw [p3]; exact hh⟩
            have he2 : kv.1.toNat = v := by omega
            rw [← he2] at hc
            refine (hd.rep.fixed_chain hI hd.start hkv hc q).1 ((hc.2 q).2 ⟨j, hj, ?_⟩)
            rw [he2]; exact hh
          refine hI.fdisj kv hkv kv' hkv' ?_ q (key _ kv hkv he a1 (by rw [a2]; exact ha'))
            (key _ kv' hkv' he' b1 (by rw [b2]; exact hb'))
          intro hc
          apply hab
          rw [← a2, ← b2]; congr 1; omega
        · have na : ¬ I.FixV (p.unscrew a) := by
            rw [← hd.rep.fixed _ a1, a2, fa]; exact hjq
          have nb : ¬ I.FixV (p.unscrew b) := by
            rw [← hd.rep.fixed _ b1, b2, fb]; exact hjq
          obtain ⟨kv, hkv, he, hq1⟩ := (hd.init_iff a1 na hj).1 (by rw [a2]; exact ha')
          obtain ⟨kv', hkv', he', hq2⟩ := (hd.init_iff b1 nb hj).1 (by rw [b2]; exact hb')
          refine hdisj kv hkv kv' hkv' ?_ q hq1 hq2
          intro hc
          apply hab
          rw [← a2, ← b2]; congr 1; omega
      omega
    · have : Spec.load cs q = 0 := by
        unfold Spec.load
        rw [List.countP_eq_zero]
        intro c hc hcq
        rw [decide_eq_true_iff] at hcq
        obtain ⟨u, hu⟩ := List.getElem?_of_mem hc
        obtain ⟨j, hj, _⟩ := ((hd.handed u c hu).2 q).1 hcq
        exact hq (List.mem_of_getElem? hj)
      omega
  · rw [h] at hb'; simp at hb'
  · rw [h] at hb'; simp at hb'

/-- The hypotheses are met by a run in which two chains are found. -/
example : Demo.path3.OK ∧ Demo.path3.restrC = [] ∧ (∀ v ∈ [(0 : Int), 1, 2], 0 ≤ v ∧ v < (Demo.path3.src.n : Int)) ∧
    (∀ w, ¬ Demo.path3.FixV w) ∧
    (quickPass Demo.sortBySize Demo.cfg Demo.greedy Demo.path3 [0, 1, 2] Demo.tape0).toOption = some [[4], [3], [2]] :=
  ⟨Demo.path3_ok, rfl, by decide, by rintro w ⟨kv, hkv, _⟩; simp [Demo.path3] at hkv, by decide +kernel⟩

end MM
