import Verif.Graph.Edgeless
import Verif.Core.Table
import Verif.Props.Embedding

/-! Property C123: sources without edges are embedded. -/

namespace MM

open Relation
open Scratch (Cfg)

variable {I : Input} {sort : List (List Nat) → List (List Nat)}

/-- **C123, what holds.** A source without edges (self-loops apart) is embedded by every serial call,
whatever is drawn, if some connected part of the target has as many nodes as the source. Needed is
that a used qubit is dearer than a free one, that the search is not interrupted, and that time does
not run out before every node has a chain. -/
theorem C123_edgeless_partial (hs : SortOK sort) (hI : I.OK)
    (hf : I.fixedC = []) (hi : I.initC = []) (hr : I.restrC = [])
    (he : ∀ u v, (u, v) ∈ I.src.edges → u = v)
    (hsz : I.tgt.n < 2 ^ 32) (part : List Nat) (hnd : part.Nodup) (hlt : ∀ x ∈ part, x < I.tgt.n)
    (hc : Spec.ConnectedIn I.tgt part) (hle : I.src.n ≤ part.length)
    (C : Cfg) (hpar : C.par = false) (h0 : C.weight 0 0 ≠ none)
    (h1 : D.lt (C.weight 1 0) (C.weight 1 1) = true) (A : Params) (hsk : A.skipInit = false)
    (hb : 1 ≤ A.bound) (hint : ∀ n, (A.stops n).1 = false) (htime : (A.stops 0).2 = false) (ro : Bool) (t : Tape) :
    ∃ cs, findEmbedding sort C A ro I t = .ok (true, cs) ∧ Spec.Embeds I.src I.tgt cs := by
  obtain ⟨cs, hcs⟩ := findEmbedding_alone hs hI hf hi hr
    (fun u v h => h.elim (he u v) (fun h => (he v u h).symm)) hsz hnd hlt hc hle hpar ⟨h0, h1⟩ hsk hb
    (by rintro ⟨_, n, hn⟩; rw [hint n] at hn; simp at hn) (Prod.ext (hint 0) htime) ro t
  refine ⟨cs, hcs, ?_⟩
  refine C01_success_is_minor_embedding_of_fixed hs hI hr ?_ ?_ C A ro t cs hcs
  · rw [hf]; simp
  · rw [hf]; simp

/-- The table of weights meets the condition, if `max_beta` is at least 2 (it is unbounded unless given). -/
theorem C123_weights {margin : Nat} (hm : 0 < margin) (hm' : margin ≤ 2 ^ 62) {beta : ℝ} (hb : 2 ≤ beta) :
    weightTable margin beta 0 0 ≠ none ∧ D.lt (weightTable margin beta 1 0) (weightTable margin beta 1 1) = true := by
  rw [weightTable_zero (by omega), weightTable_zero (by omega)]
  refine ⟨by simp, ?_⟩
  have : ∃ w, weightTable margin beta 1 1 = some w ∧ 2 ≤ w := by
    unfold weightTable
    dsimp only
    rw [if_pos (by omega), if_neg (by omega)]
    refine ⟨_, rfl, ?_⟩
    have hmr : (0 : ℝ) < margin := by exact_mod_cast hm
    have hlog : Real.logb 2 (margin : ℝ) ≤ 62 := by
      rw [Real.logb_le_iff_le_rpow (by norm_num) hmr]
      have : ((margin : Nat) : ℝ) ≤ ((2 ^ 62 : Nat) : ℝ) := by exact_mod_cast hm'
      refine this.trans ?_
      norm_num
    have hbase : (2 : ℝ) ≤ (2 : ℝ) ^ ((63 - Real.logb 2 (margin : ℝ)) / ((min 63 1 : Int) : ℝ)) := by
      have hx : (1 : ℝ) ≤ (63 - Real.logb 2 (margin : ℝ)) / ((min 63 1 : Int) : ℝ) := by
        have : ((min 63 1 : Int) : ℝ) = 1 := by norm_num
        rw [this]; linarith
      calc (2 : ℝ) = 2 ^ (1 : ℝ) := by simp
        _ ≤ _ := Real.rpow_le_rpow_of_exponent_le (by norm_num) hx
    apply Nat.le_floor
    have h1 : (1 : Int).toNat = 1 := rfl
    rw [h1, pow_one]
    exact_mod_cast le_min hbase hb
  obtain ⟨w, hw, hw2⟩ := this
  rw [hw]
  simp only [D.lt, decide_eq_true_eq]
  omega

/-- Both together: a serial call with `max_beta` at least 2. -/
theorem C123_edgeless_default_partial (hs : SortOK sort) (hI : I.OK)
    (hf : I.fixedC = []) (hi : I.initC = []) (hr : I.restrC = [])
    (he : ∀ u v, (u, v) ∈ I.src.edges → u = v)
    (hsz : I.tgt.n < 2 ^ 32) (part : List Nat) (hnd : part.Nodup) (hlt : ∀ x ∈ part, x < I.tgt.n)
    (hc : Spec.ConnectedIn I.tgt part) (hle : I.src.n ≤ part.length)
    {margin : Nat} (hm : 0 < margin) (hm' : margin < 2 ^ 32) {beta : ℝ} (hbeta : 2 ≤ beta)
    (A : Params) (hsk : A.skipInit = false)
    (hb : 1 ≤ A.bound) (hint : ∀ n, (A.stops n).1 = false) (htime : (A.stops 0).2 = false) (ro : Bool) (t : Tape) :
    ∃ cs, findEmbedding sort ⟨weightTable margin beta, false⟩ A ro I t = .ok (true, cs) ∧ Spec.Embeds I.src I.tgt cs :=
  have hw := C123_weights hm (by omega) hbeta
  C123_edgeless_partial hs hI hf hi hr he hsz part hnd hlt hc hle _ rfl hw.1 hw.2 A hsk hb hint htime ro t

/-- Chains of a reported success lie in one component of the target. -/
theorem C123_one_component (hs : SortOK sort) (hI : I.OK) (hr : I.restrC = []) (C : Cfg) (A : Params) (ro : Bool) (t : Tape)
    (cs : List (List Nat)) (h : findEmbedding sort C A ro I t = .ok (true, cs)) :
    ∀ c ∈ cs, ∀ d ∈ cs, ∀ p ∈ c, ∀ q ∈ d, ReflTransGen I.tgt.Edge p q := by
  obtain ⟨p, l0, E, hf⟩ := findEmbedding_final hs hI (Input.compatible_of_nil hr) h
  obtain ⟨_, hh⟩ := hf.given (Or.inl rfl)
  have mem : ∀ c ∈ cs, ∀ x ∈ c, x ∈ l0 := by
    intro c hc x hx
    obtain ⟨u, hu⟩ := List.getElem?_of_mem hc
    obtain ⟨j, hj, _⟩ := ((hh u c hu).2 x).1 hx
    exact List.mem_of_getElem? hj
  intro c hc d hd x hx y hy
  exact (hf.rep.conn x y (mem c hc x hx)).2 (mem d hd y hy)

namespace Demo

/-- Three nodes without edges into a path of four. -/
def loose : Input :=
  { src := ⟨3, [(0, 0), (1, 1), (2, 2)]⟩, tgt := ⟨4, [(0, 1), (1, 2), (2, 3)]⟩, fixedC := [], initC := [], restrC := [] }

/-- Two nodes without edges into two nodes without edges. -/
def apart : Input :=
  { src := ⟨2, [(0, 0), (1, 1)]⟩, tgt := ⟨2, [(0, 0), (1, 1)]⟩, fixedC := [], initC := [], restrC := [] }

theorem loose_ok : loose.OK := Checked.ok (by decide)

theorem loose_edgeless : ∀ u v, (u, v) ∈ loose.src.edges → u = v := by
  have : ∀ e ∈ loose.src.edges, e.1 = e.2 := by decide
  exact fun u v h => this _ h

theorem apart_ok : apart.OK := Checked.ok (by decide)

theorem path4_connected : Spec.ConnectedIn loose.tgt [0, 1, 2, 3] := by
  have step : ∀ i, i < 3 → ReflTransGen (fun x y => y ∈ [0, 1, 2, 3] ∧ loose.tgt.Edge x y) i (i + 1) ∧
      ReflTransGen (fun x y => y ∈ [0, 1, 2, 3] ∧ loose.tgt.Edge x y) (i + 1) i := by
    intro i hi
    have h : (i + 1 ∈ [0, 1, 2, 3] ∧ loose.tgt.Edge i (i + 1)) ∧ (i ∈ [0, 1, 2, 3] ∧ loose.tgt.Edge (i + 1) i) := by
      have : i = 0 ∨ i = 1 ∨ i = 2 := by omega
      rcases this with rfl | rfl | rfl <;> exact ⟨⟨by decide, by decide⟩, by decide, by decide⟩
    exact ⟨ReflTransGen.single h.1, ReflTransGen.single h.2⟩
  have fro : ∀ i, i < 4 → ReflTransGen (fun x y => y ∈ [0, 1, 2, 3] ∧ loose.tgt.Edge x y) 0 i ∧
      ReflTransGen (fun x y => y ∈ [0, 1, 2, 3] ∧ loose.tgt.Edge x y) i 0 := by
    intro i
    induction i with
    | zero => intro _; exact ⟨.refl, .refl⟩
    | succ i ih =>
      intro hi
      obtain ⟨a, b⟩ := ih (by omega)
      obtain ⟨c, d⟩ := step i (by omega)
      exact ⟨a.trans c, d.trans b⟩
  intro a ha b hb
  exact (fro a (by simp at ha; omega)).2.trans (fro b (by simp at hb; omega)).1

end Demo

/-- The hypotheses are met by three nodes into a path of four, -/
example (t : Tape) : ∃ cs, findEmbedding Demo.sortBySize Demo.cfg Demo.params false Demo.loose t = .ok (true, cs) ∧
    Spec.Embeds Demo.loose.src Demo.loose.tgt cs :=
  C123_edgeless_partial Demo.sortOK Demo.loose_ok rfl rfl rfl Demo.loose_edgeless (by decide) [0, 1, 2, 3] (by decide) (by decide)
    Demo.path4_connected (by decide) Demo.cfg rfl (by decide) (by decide) Demo.params rfl (by decide) (fun _ => rfl) rfl false t

/-- also with the table the code uses. -/
example (t : Tape) : ∃ cs, findEmbedding Demo.sortBySize ⟨weightTable 4 1000, false⟩ Demo.params false Demo.loose t =
    .ok (true, cs) ∧ Spec.Embeds Demo.loose.src Demo.loose.tgt cs :=
  C123_edgeless_default_partial Demo.sortOK Demo.loose_ok rfl rfl rfl Demo.loose_edgeless (by decide) [0, 1, 2, 3] (by decide) (by decide)
    Demo.path4_connected (by decide) (by decide) (by decide) (by norm_num) Demo.params rfl (by decide) (fun _ => rfl) rfl false t

example : ∀ c ∈ [[1, 2], [5], [6], [3]], ∀ d ∈ [[1, 2], [5], [6], [3]], ∀ p ∈ c, ∀ q ∈ d,
    ReflTransGen Demo.star.tgt.Edge p q :=
  C123_one_component Demo.sortOK Demo.star_ok rfl _ _ _ _ _ Demo.star_run

/-- **C123 fails** if the target is in pieces: two nodes without edges go into two nodes without edges,
but no call finds that, with any settings and any draws. -/
theorem C123_pieces_never : Demo.apart.OK ∧ Spec.Embeds Demo.apart.src Demo.apart.tgt [[0], [1]] ∧
    ∀ sort, SortOK sort → ∀ (C : Cfg) (A : Params) (ro : Bool) (t : Tape) (cs : List (List Nat)),
      findEmbedding sort C A ro Demo.apart t ≠ .ok (true, cs) := by
  refine ⟨Demo.apart_ok, ⟨rfl, by decide, by decide, by decide, ?_, ?_, ?_⟩, ?_⟩
  · intro u c _ hu a ha b hb
    have hcu : c = [0] ∨ c = [1] := by
      match u, hu with
      | 0, hu => left; simpa using hu.symm
      | 1, hu => right; simpa using hu.symm
    rcases hcu with rfl | rfl <;> (simp at ha hb; subst ha; subst hb; exact ReflTransGen.refl)
  · intro u v c d huv hu hv q hq hq'
    match u, v, hu, hv with
    | 0, 0, _, _ => exact huv rfl
    | 1, 1, _, _ => exact huv rfl
    | 0, 1, hu, hv => simp at hu hv; subst hu; subst hv; simp at hq hq'; omega
    | 1, 0, hu, hv => simp at hu hv; subst hu; subst hv; simp at hq hq'; omega
  · intro u v c d _ he huv _ _
    have : ∀ e ∈ Demo.apart.src.edges, e.1 = e.2 := by decide
    rcases he with he | he
    · exact absurd (this _ he) huv
    · exact absurd (this _ he).symm huv
  · intro sort hs C A ro t cs h
    have hem := C01_success_is_minor_embedding hs Demo.apart_ok rfl C A ro t cs h
    have hone := C123_one_component hs Demo.apart_ok rfl C A ro t cs h
    have hstay : ∀ p q, ReflTransGen Demo.apart.tgt.Edge p q → p = q := by
      intro p q hpq
      have : ∀ e ∈ Demo.apart.tgt.edges, e.1 = e.2 := by decide
      induction hpq with
      | refl => rfl
      | tail _ he ih =>
        rcases he with he | he
        · exact ih.trans (this _ he)
        · exact ih.trans (this _ he).symm
    have hlen : cs.length = 2 := hem.size
    have h0 : cs[0]? = some cs[0] := List.getElem?_eq_getElem (by omega)
    have h1 : cs[1]? = some cs[1] := List.getElem?_eq_getElem (by omega)
    obtain ⟨p, l, hp⟩ := List.exists_cons_of_ne_nil (hem.nonempty cs[0] (List.getElem_mem _))
    obtain ⟨q, l', hq⟩ := List.exists_cons_of_ne_nil (hem.nonempty cs[1] (List.getElem_mem _))
    have hp' : p ∈ cs[0] := by rw [hp]; simp
    have hq' : q ∈ cs[1] := by rw [hq]; simp
    have := hstay p q (hone _ (List.getElem_mem _) _ (List.getElem_mem _) p hp' q hq')
    subst this
    exact hem.disjoint 0 1 _ _ (by decide) h0 h1 p hp' hq'

/-- **C123 fails** with several threads: a search around no chain ignores the fills, and three nodes end up on
one of four qubits. -/
theorem C123_threads_false : ∃ (t : Tape), findEmbedding Demo.sortBySize { Demo.cfg with par := true } Demo.params true
    Demo.loose t = .ok (false, [[3], [3], [3]]) :=
  ⟨Demo.tape0, by decide +kernel⟩

/-- **C123 fails** with `max_beta` 1, when a used qubit costs as much as a free one. -/
theorem C123_flat_false : ∃ (C : Cfg) (t : Tape), C.par = false ∧
    (∀ m f, 0 ≤ f → f ≤ m → C.weight m f = some 1) ∧
    findEmbedding Demo.sortBySize C Demo.params true Demo.loose t = .ok (false, [[3], [3], [3]]) :=
  ⟨⟨fun m f => if f ≤ m then some 1 else none, false⟩, Demo.tape0, rfl, fun m f _ h => by simp [h], by decide +kernel⟩

end MM
