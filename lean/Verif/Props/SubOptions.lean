import Verif.Py.SubOptionsLemmas
import Mathlib.Tactic.ByContra

/-! C122: the options of `find_subgraph`. -/

namespace MM

open Py
open Spec (Restarts Ordering5 Mapping3 SubArgs SubDefaults SubParams OrStandard)

variable {F : Type}

/-- **C122.** Options that are not as documented (a name that is not known, or a parameter that does not belong to the restart policy) raise an exception. -/
theorem C122_rejected (d : SubDefaults F) (a : SubArgs F) (h : ¬ a.Fits) : ∃ e, subParams d a = .error e := by
  by_contra hc
  apply h
  obtain ⟨p, hp⟩ : ∃ p, subParams d a = .ok p := by
    cases hq : subParams d a with
    | error e => exact absurd ⟨e, hq⟩ hc
    | ok p => exact ⟨p, rfl⟩
  unfold subParams at hp
  cases hr : restarts d a with
  | error e => rw [hr] at hp; exact nomatch hp
  | ok r =>
    rw [hr] at hp
    have ho : ∃ o : Ordering5, a.valueOrdering = o.name := by
      by_contra ho
      rw [orderingOf_error ho] at hp
      exact nomatch hp
    have hm : ∃ m : Mapping3, a.injectivity = m.name := by
      by_contra hm
      rw [mappingOf_error hm] at hp
      cases hz : orderingOf a.valueOrdering with
      | error e => rw [hz] at hp; exact nomatch hp
      | ok o => rw [hz] at hp; exact nomatch hp
    obtain ⟨o, ho'⟩ := ho
    obtain ⟨m, hm'⟩ := hm
    rw [ho', hm', orderingOf_name, mappingOf_name] at hp
    have hg : (given a).all (fun n => decide (n ∈ r.2)) = true := by
      by_contra hg
      simp only [bind, Except.bind, if_neg hg] at hp
      exact nomatch hp
    rw [given_all] at hg
    obtain ⟨g1, g2, g3, g4, g5⟩ := hg
    unfold restarts at hr
    cases hpol : a.restartsPolicy with
    | none =>
      rw [hpol] at hr
      simp only at hr
      have hr2 : r.2 = [] := by
        split_ifs at hr <;> (cases hr; rfl)
      rw [hr2] at g1 g2 g3 g4 g5
      refine ⟨?_, ⟨o, ho'⟩, ⟨m, hm'⟩, ?_, ?_, ?_, ?_, ?_⟩
      · unfold SubArgs.policy
        rw [hpol]
        simp only
        split_ifs <;> simp
      all_goals
        intro hh
        simp_all
    | some s =>
      rw [hpol] at hr
      have hs : a.policy = s := by unfold SubArgs.policy; rw [hpol]
      simp only at hr
      split_ifs at hr with e1 e2 e3 e4
      all_goals
        cases hr
        refine ⟨?_, ⟨o, ho'⟩, ⟨m, hm'⟩, ?_, ?_, ?_, ?_, ?_⟩ <;> simp_all

/-- What is missing in C122: parameters of the default policy without naming it, and `triggered_restarts`. -/
theorem C122_meant_partial (d : SubDefaults F) (a : SubArgs F) (h : a.Fits)
    (hnamed : a.restartsPolicy ≠ none ∨ (a.lubyConstant = none ∧ a.restartInterval = none ∧ a.restartMinimum = none)) :
    ∃ p, subParams d a = .ok p ∧ a.Meant d p ∧ (d.triggered = false → a.triggeredRestarts ≠ some true → a.MeantTriggered p) := by
  obtain ⟨h1, ⟨o, ho⟩, ⟨m, hm⟩, h2, h3, h4, h5, h6⟩ := h
  obtain ⟨r, l, hr, hl, hlu, hge, hti, hno⟩ : ∃ r l, restarts d a = .ok (r, l) ∧ (given a).all (fun n => decide (n ∈ l)) = true ∧
      (a.policy = "luby" → ∃ c, OrStandard a.lubyConstant d.luby c ∧ r = .luby c) ∧
      (a.policy = "geometric" → ∃ c m, OrStandard a.geometricConstant d.constant c ∧ OrStandard a.geometricMultiplier d.multiplier m ∧ r = .geometric c m) ∧
      (a.policy = "timed" → ∃ t n, OrStandard a.restartInterval d.duration t ∧ OrStandard a.restartMinimum d.backtracks n ∧ r = .timed t n) ∧
      (a.policy = "none" → r = .none) := by
    cases hpol : a.restartsPolicy with
    | none =>
      rcases hnamed with hnamed | ⟨n1, n2, n3⟩
      · exact absurd hpol hnamed
      have hpp : a.policy = if a.parallel then "timed" else "luby" := by unfold SubArgs.policy; rw [hpol]
      unfold restarts
      rw [hpol]
      simp only
      cases hpar : a.parallel with
      | true =>
        rw [hpar, if_pos rfl] at hpp
        rw [hpp] at h2 h3 h4 h5 h6
        refine ⟨_, _, if_pos rfl, given_all.mpr ?_, ?_, ?_, ?_, ?_⟩
        · refine ⟨fun h => absurd n1 h, fun h => absurd (h3 h) (by decide), fun h => absurd (h4 h) (by decide), fun h => absurd n2 h, fun h => absurd n3 h⟩
        · intro e; rw [hpp] at e; exact absurd e (by decide)
        · intro e; rw [hpp] at e; exact absurd e (by decide)
        · intro _
          exact ⟨_, _, by rw [n2]; exact given_orDefault none _, by rw [n3]; exact given_orDefault none _, rfl⟩
        · intro e; rw [hpp] at e; exact absurd e (by decide)
      | false =>
        rw [hpar, if_neg (by decide)] at hpp
        rw [hpp] at h2 h3 h4 h5 h6
        refine ⟨_, _, if_neg (by decide), given_all.mpr ?_, ?_, ?_, ?_, ?_⟩
        · refine ⟨fun h => absurd n1 h, fun h => absurd (h3 h) (by decide), fun h => absurd (h4 h) (by decide), fun h => absurd n2 h, fun h => absurd n3 h⟩
        · intro _
          exact ⟨_, by rw [n1]; exact given_orDefault none _, rfl⟩
        · intro e; rw [hpp] at e; exact absurd e (by decide)
        · intro e; rw [hpp] at e; exact absurd e (by decide)
        · intro e; rw [hpp] at e; exact absurd e (by decide)
    | some s =>
      have hs : a.policy = s := by unfold SubArgs.policy; rw [hpol]
      rw [hs] at h1 h2 h3 h4 h5 h6 ⊢
      unfold restarts
      rw [hpol]
      simp only
      rcases h1 with rfl | rfl | rfl | rfl
      · refine ⟨_, _, if_pos rfl, given_all.mpr ⟨fun _ => by simp, fun h => absurd (h3 h) (by decide), fun h => absurd (h4 h) (by decide), fun h => absurd (h5 h) (by decide),
          fun h => absurd (h6 h) (by decide)⟩, fun _ => ⟨_, given_orDefault _ _, rfl⟩, fun e => absurd e (by decide), fun e => absurd e (by decide), fun e => absurd e (by decide)⟩
      · refine ⟨_, _, (if_neg (by decide)).trans (if_pos rfl), given_all.mpr ⟨fun h => absurd (h2 h) (by decide), fun _ => by simp, fun _ => by simp, fun h => absurd (h5 h) (by decide),
          fun h => absurd (h6 h) (by decide)⟩, fun e => absurd e (by decide), fun _ => ⟨_, _, given_orDefault _ _, given_orDefault _ _, rfl⟩, fun e => absurd e (by decide),
          fun e => absurd e (by decide)⟩
      · refine ⟨_, _, (if_neg (by decide)).trans ((if_neg (by decide)).trans (if_pos rfl)), given_all.mpr ⟨fun h => absurd (h2 h) (by decide), fun h => absurd (h3 h) (by decide),
          fun h => absurd (h4 h) (by decide), fun _ => by simp, fun _ => by simp⟩, fun e => absurd e (by decide), fun e => absurd e (by decide),
          fun _ => ⟨_, _, given_orDefault _ _, given_orDefault _ _, rfl⟩, fun e => absurd e (by decide)⟩
      · refine ⟨_, _, (if_neg (by decide)).trans ((if_neg (by decide)).trans ((if_neg (by decide)).trans (if_pos rfl))), given_all.mpr ⟨fun h => absurd (h2 h) (by decide),
          fun h => absurd (h3 h) (by decide), fun h => absurd (h4 h) (by decide), fun h => absurd (h5 h) (by decide), fun h => absurd (h6 h) (by decide)⟩,
          fun e => absurd e (by decide), fun e => absurd e (by decide), fun e => absurd e (by decide), fun _ => rfl⟩
  unfold subParams
  rw [hr, ho, hm, orderingOf_name, mappingOf_name]
  simp only [bind, Except.bind, if_pos hl]
  refine ⟨_, rfl, ⟨rfl, hlu, hge, hti, hno, rfl, given_orDefault _ _, ho.symm, hm.symm, rfl, rfl, rfl, rfl, rfl, rfl, rfl, rfl⟩, ?_⟩
  intro hd ht
  refine ⟨fun w hw => ?_, fun _ => hd⟩
  cases w with
  | false => exact hd
  | true => exact absurd hw ht

/-- Options with everything left to the defaults. -/
def subDefault (F : Type) : SubArgs F where
  timeout := 0
  parallel := false
  injectivity := "injective"
  threads := 1
  triggeredRestarts := none
  delayThreadCreation := none
  restartsPolicy := none
  lubyConstant := none
  geometricConstant := none
  geometricMultiplier := none
  restartInterval := none
  restartMinimum := none
  valueOrdering := "biased"
  cliqueDetection := true
  noSupplementals := false
  noNds := false
  distance3 := false
  k4 := false
  nExactPathGraphs := 4
  cliques := false
  cliquesOnSupplementals := false

example : ¬ { subDefault F with restartsPolicy := some "luby", restartInterval := some 3 }.Fits := fun h => absurd (h.interval (by simp)) (show ¬ "luby" = "timed" by decide)
example : ¬ { subDefault F with valueOrdering := "Random" }.Fits := fun h => by
  obtain ⟨o, ho⟩ := h.ordering
  have ho' : "Random" = o.name := ho
  clear h ho
  revert ho'
  cases o <;> decide

example : { subDefault F with restartsPolicy := some "timed", restartInterval := some 3, parallel := true, triggeredRestarts := some false }.Fits where
  policy := .inr (.inr (.inl rfl))
  ordering := ⟨.biased, rfl⟩
  mapping := ⟨.injective, rfl⟩
  luby := fun h => absurd rfl h
  constant := fun h => absurd rfl h
  multiplier := fun h => absurd rfl h
  interval := fun _ => rfl
  minimum := fun _ => rfl

/-- `triggered_restarts` has no effect: with options as documented, whatever they are, asking for it and not asking for it give the same, so that one of both is wrong. -/
theorem C122_triggered (d : SubDefaults F) (a : SubArgs F) (b b' : Option Bool) : subParams d { a with triggeredRestarts := b } = subParams d { a with triggeredRestarts := b' } := rfl

/-- So no solver constant makes the option work. -/
theorem C122_triggered_false (d : SubDefaults F) : ¬ ∀ a : SubArgs F, a.Fits → ∀ p, subParams d a = .ok p → a.MeantTriggered p := by
  intro h
  have hf : ∀ b, { subDefault F with triggeredRestarts := b }.Fits := fun b => ⟨.inl rfl, ⟨.biased, rfl⟩, ⟨.injective, rfl⟩, fun h => absurd rfl h, fun h => absurd rfl h,
    fun h => absurd rfl h, fun h => absurd rfl h, fun h => absurd rfl h⟩
  obtain ⟨p, hp, -⟩ := C122_meant_partial d _ (hf none) (.inr ⟨rfl, rfl, rfl⟩)
  have h1 := h _ (hf (some true)) p ((C122_triggered d (subDefault F) _ _).trans hp)
  have h2 := h _ (hf (some false)) p ((C122_triggered d (subDefault F) _ _).trans hp)
  have e1 := h1.1 true rfl
  have e2 := h2.1 false rfl
  rw [e1] at e2
  exact nomatch e2

/-- A parameter of the policy that is the default is refused if the policy is not named: `luby_constant` on its own, although these options are as documented. -/
theorem C122_default_policy_false (d : SubDefaults F) : ∃ a : SubArgs F, a.Fits ∧ subParams d a = .error .value :=
  ⟨{ subDefault F with lubyConstant := some 10 }, ⟨.inl rfl, ⟨.biased, rfl⟩, ⟨.injective, rfl⟩, fun _ => rfl, fun h => absurd rfl h, fun h => absurd rfl h, fun h => absurd rfl h,
    fun h => absurd rfl h⟩, by
    unfold subParams
    rw [show restarts d { subDefault F with lubyConstant := some 10 } = .ok (.luby d.luby, []) from rfl, show orderingOf (subDefault F).valueOrdering = .ok .biased from orderingOf_name .biased,
      show mappingOf (subDefault F).injectivity = .ok .injective from mappingOf_name .injective]
    rfl⟩

end MM
