import Verif.Graph.InitLinks
import Mathlib.Data.List.Nodup

/-! What a greedy pass returns to the caller. -/

namespace MM

open Relation
open Scratch (Cfg)

variable {P : Prob} {R : Nat → Nat → Prop} {E : Emb} {I : Input} {p : Proc} {l0 : List Nat}

/-- What local search needs: the listed nodes are distinct, and each one without a fixed
chain has a connected initial chain that meets or touches the chains of its neighbours. -/
def Spec.Ready (I : Input) (vs : List Int) : Prop :=
  vs.Nodup ∧ ∀ v ∈ vs, ¬ I.FixV v.toNat → Placed I v.toNat

theorem Ok.both {α : Type} {m : M α} {A B : α → Prop} (h1 : Ok m A) (h2 : Ok m B) : Ok m (fun a => A a ∧ B a) := by
  obtain ⟨a, ha, h3⟩ := h1
  obtain ⟨b, hb, h4⟩ := h2
  rw [ha] at hb
  cases hb
  exact ⟨a, ha, h3, h4⟩

/-! ### the list of variables -/

/-- The free variables of the list, as indices. -/
theorem inputVars_spec {nv : Nat} {fx : Nat → Bool} {vs : List Int} (h : ∀ v ∈ vs, 0 ≤ v ∧ v < (nv : Int)) :
    Input.inputVars nv fx vs = .ok ((vs.map Int.toNat).filter (fun v => !fx v)) := by
  unfold Input.inputVars
  suffices hg : ∀ (vs : List Int) (out : List Nat), (∀ v ∈ vs, 0 ≤ v ∧ v < (nv : Int)) →
      (vs.foldlM (init := out) fun out (v : Int) =>
        if (0 : Int) ≤ v ∧ v < (nv : Int) then
          (.ok (if fx v.toNat then out else out ++ [v.toNat]) : M (List Nat))
        else .error .corrupt) = .ok (out ++ (vs.map Int.toNat).filter (fun v => !fx v)) by
    simpa using hg vs [] h
  intro vs
  induction vs with
  | nil => intro out _; simp; rfl
  | cons v vs ih =>
    intro out hv
    rw [List.foldlM_cons, if_pos (hv v (by simp))]
    dsimp only [bind, Except.bind]
    rw [ih _ (fun w hw => hv w (by simp [hw]))]
    cases hf : fx v.toNat <;> simp [hf]

theorem inputVars_bad {nv : Nat} {fx : Nat → Bool} {vs : List Int} (h : ∃ v ∈ vs, ¬ (0 ≤ v ∧ v < (nv : Int))) :
    Input.inputVars nv fx vs = .error .corrupt := by
  unfold Input.inputVars
  suffices hg : ∀ out : List Nat, (vs.foldlM (init := out) fun out (v : Int) =>
      if (0 : Int) ≤ v ∧ v < (nv : Int) then
        (.ok (if fx v.toNat then out else out ++ [v.toNat]) : M (List Nat))
      else .error .corrupt) = .error .corrupt from hg []
  induction vs with
  | nil => simp at h
  | cons v vs ih =>
    intro out
    rw [List.foldlM_cons]
    by_cases hv : 0 ≤ v ∧ v < (nv : Int)
    · rw [if_pos hv]
      obtain ⟨w, hw, hb⟩ := h
      rcases List.mem_cons.1 hw with rfl | hw
      · exact absurd hv hb
      · exact ih ⟨w, hw, hb⟩ _
    · rw [if_neg hv]; rfl

/-- A free variable before all fixed ones keeps its number. -/
theorem Proc.Rep.screw_id (h : p.Rep I l0) {v : Nat} (hv : v < I.src.n) (hf : ∀ w, I.FixV w → v < w) :
    p.screw v = v := by
  have hfv : ¬ I.FixV v := fun hc => Nat.lt_irrefl _ (hf v hc)
  have hfree : ∀ u, u ≤ v → ¬ I.FixV u := fun u hu hc => by have := hf u hc; omega
  have ge : ∀ u, u ≤ v → u ≤ p.screw u := by
    intro u
    induction u with
    | zero => intro _; omega
    | succ u ih =>
      intro hu
      have := ih (by omega)
      have := h.ordered u (u + 1) (by omega) (by omega)
        ⟨fun hc => absurd hc (hfree u (by omega)), fun hc => absurd hc (hfree _ hu)⟩
      omega
  have hsv := h.slt v hv
  have hsn : p.screw v < p.P.nv := by
    by_contra hc; exact hfv ((h.fixed v hv).1 (by omega))
  have hunfree : ∀ j, j ≤ p.screw v → ¬ I.FixV (p.unscrew j) := by
    intro j hj hc
    have hjn : j < I.src.n := by omega
    have := (h.fixed _ (h.us j hjn).1).2 hc
    rw [(h.us j hjn).2] at this; omega
  have ge' : ∀ j, j ≤ p.screw v → j ≤ p.unscrew j := by
    intro j
    induction j with
    | zero => intro _; omega
    | succ j ih =>
      intro hj
      have h1 := ih (by omega)
      have h2 := h.us j (by omega)
      have h3 := h.us (j + 1) (by omega)
      by_contra hc
      have hne : p.unscrew (j + 1) ≠ p.unscrew j := by
        intro he; have := h2.2; rw [← he, h3.2] at this; omega
      have := h.ordered (p.unscrew (j + 1)) (p.unscrew j) (by omega) h2.1
        ⟨fun hc => absurd hc (hunfree _ hj), fun hc => absurd hc (hunfree _ (by omega))⟩
      rw [h2.2, h3.2] at this; omega
  have h1 := ge v (Nat.le_refl _)
  have h2 := ge' (p.screw v) (Nat.le_refl _)
  rw [h.su v hv] at h2
  omega

/-! ### the pass -/

/-- How the result came about: `E` holds the initial chains, `E'` the final ones. -/
structure QuickDone (I : Input) (K : Quick) (vs : List Int) (p : Proc) (l0 : List Nat) (E E' : Emb)
    (cs : List (List Nat)) : Prop where
  rep : p.Rep I l0
  len : cs.length = I.src.n
  handed : ∀ (u : Nat) (c : List Nat), cs[u]? = some c → Handed p l0 E' u c
  start : EInv p.P (fun _ q => q < p.P.nq) E
  init : ∀ v q, v < p.P.nv → ((E.chains v).has q = true ↔ ∃ qs, (v, qs) ∈ p.init ∧ q ∈ qs)
  stop : EInv p.P (fun _ q => q < p.P.nq) E'
  passed : Passed p.P K ((vs.map Int.toNat).filter (fun v => !p.fx v)) E E'

theorem quickPass_spec {sort : List (List Nat) → List (List Nat)} (hs : SortOK sort) (hI : I.OK) (hr : I.restrC = [])
    {vs : List Int} (hvs : ∀ v ∈ vs, 0 ≤ v ∧ v < (I.src.n : Int))
    (hlow : ∀ v ∈ vs, ¬ I.FixV v.toNat → ∀ w, I.FixV w → v.toNat < w)
    (C : Cfg) {K : Quick} (hK : K.near = true → Spec.Ready I vs) (t : Tape) :
    Ok (quickPass sort C K I vs t) (fun cs => ∃ p l0 E E', QuickDone I K vs p l0 E E' cs) ∨
      quickPass sort C K I vs t = .error .corrupt ∨ quickPass sort C K I vs t = .error .small := by
  unfold quickPass
  rcases process_spec hs hI with ⟨p, hp, l0, hrep⟩ | hbad | hbad
  · left
    refine Ok.bind (P := fun x => x = p) ⟨p, hp, rfl⟩ ?_
    intro _ he
    rw [he]
    have d1 := dom_free p.P
    have d2 := hrep.even hr
    have d3 := hrep.initOK hI
    refine Ok.bind ((Run.new_spec hrep.wf d1 d3 t).both (Run.new_started hrep.wf d1 d3 t)) ?_
    rintro X ⟨hX, hinit⟩
    rw [inputVars_spec hvs]
    refine Ok.bind (P := fun x => x = (vs.map Int.toNat).filter (fun v => !p.fx v)) (Ok.pure rfl) ?_
    rintro _ rfl
    have hord : ∀ u ∈ (vs.map Int.toNat).filter (fun v => !p.fx v), u < p.P.nv := by
      intro u hu
      rw [List.mem_filter, List.mem_map] at hu
      obtain ⟨⟨v, hv, rfl⟩, hf⟩ := hu
      have hfv : ¬ I.FixV v.toNat := by
        intro hc
        rw [(hrep.fxv v.toNat).2 hc] at hf; simp at hf
      have h1 := hvs v hv
      have h2 := hrep.screw_id (v := v.toNat) (by omega) (hlow v hv hfv)
      by_contra hc
      exact hfv ((hrep.fixed _ (by omega)).1 (by omega))
    refine Ok.bind (pass_spec hrep.wf d1 d2 (K := { K with clear := true }) hord rfl hX.best hX.init hX.vn
      (fun hk => ?_)) ?_
    · obtain ⟨r1, r2⟩ := hK hk
      refine ⟨((List.nodup_map_iff_inj_on r1).2 ?_).sublist List.filter_sublist, ?_⟩
      · intro x hx y hy hxy
        have h1 := hvs x hx
        have h2 := hvs y hy
        omega
      · intro u hu
        rw [List.mem_filter, List.mem_map] at hu
        obtain ⟨⟨v, hv, rfl⟩, hf⟩ := hu
        have hfv : ¬ I.FixV v.toNat := by
          intro hc
          rw [(hrep.fxv v.toNat).2 hc] at hf; simp at hf
        have h1 := hvs v hv
        have h2 := hrep.screw_id (v := v.toNat) (by omega) (hlow v hv hfv)
        have := Started.holds hrep hinit hI (by omega) hfv (r2 v hv hfv)
        rw [h2] at this
        exact this
    rintro Y ⟨_, y2, _, E, e1, e2, e3⟩
    refine (hrep.getChains Y.best (List.range I.src.n) Y.S.tape).mono ?_
    rintro cs ⟨h1, h2⟩
    have h1' : cs.length = I.src.n := by simpa using h1
    refine ⟨p, l0, E, Y.best, hrep, h1', ?_, e1, ?_, y2, ⟨e3.ne, e3.own, e3.others, e3.size, e3.sizes, e3.fill⟩⟩
    · intro u c hu
      have hul : u < I.src.n := by
        rw [← h1']; by_contra hc; rw [List.getElem?_eq_none (by omega)] at hu; simp at hu
      exact h2 u u c (by rw [List.getElem?_range hul]) hu
    · intro v q hv
      rw [e2 v (by unfold Prob.N; omega)]
      exact hinit.has v q hv
  · right; left; rw [hbad]; rfl
  · right; right; rw [hbad]; rfl

/-! ### chains of the caller -/

theorem Handed.perm {p : Proc} {l0 : List Nat} {E : Emb} {u : Nat} {c : List Nat} (h : p.Rep I l0)
    (hu : u < I.src.n) {R : Nat → Nat → Prop} (hE : EInv p.P R E) (hc : Handed p l0 E u c) :
    (c.map p.comps.label).Perm ((List.range p.P.Q).filter (fun j => (E.chains (p.screw u)).has j)) := by
  have hN : p.screw u < p.P.N := by rw [h.hN]; exact h.slt u hu
  rw [List.perm_ext_iff_of_nodup]
  · intro j
    rw [List.mem_map, List.mem_filter, List.mem_range]
    constructor
    · rintro ⟨q, hq, rfl⟩
      obtain ⟨j, hj, hh⟩ := (hc.2 q).1 hq
      rw [(h.place j q hj).2.2]
      exact ⟨(hE.cinv _ hN).has_lt hh, hh⟩
    · rintro ⟨hj, hh⟩
      obtain ⟨x, hx⟩ := getElem?_lt (l := l0) (by rw [← h.hQ]; exact hj)
      exact ⟨x, (hc.2 x).2 ⟨j, hx, hh⟩, (h.place j x hx).2.2⟩
  · refine (List.nodup_map_iff_inj_on hc.1).2 ?_
    intro x hx y hy hxy
    obtain ⟨i, hi, _⟩ := (hc.2 x).1 hx
    obtain ⟨j, hj, _⟩ := (hc.2 y).1 hy
    rw [(h.place i x hi).2.2, (h.place j y hj).2.2] at hxy
    subst hxy
    rw [hi] at hj; simpa using hj
  · exact List.nodup_range.sublist List.filter_sublist

theorem Handed.length {p : Proc} {l0 : List Nat} {E : Emb} {u : Nat} {c : List Nat} (h : p.Rep I l0)
    (hu : u < I.src.n) {R : Nat → Nat → Prop} (hE : EInv p.P R E) (hc : Handed p l0 E u c) :
    c.length = E.chainsize p.P (p.screw u) := by
  have := (hc.perm h hu hE).length_eq
  rw [List.length_map] at this
  rw [this]
  unfold Emb.chainsize Chain.size
  rw [Input.cnt_eq_filter]

theorem Handed.ne {p : Proc} {l0 : List Nat} {E : Emb} {u : Nat} {c : List Nat} (h : p.Rep I l0)
    (hu : u < I.src.n) {R : Nat → Nat → Prop} (hE : EInv p.P R E) (hc : Handed p l0 E u c) :
    c ≠ [] ↔ E.NE (p.screw u) := by
  have hN : p.screw u < p.P.N := by rw [h.hN]; exact h.slt u hu
  rw [← hE.size_iff hN, ← hc.length h hu hE]
  cases c <;> simp

end MM
