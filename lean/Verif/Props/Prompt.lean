import Verif.Props.Improve

/-! Property C78: the search ends soon after the time is up. -/

namespace MM

open Scratch (Cfg)

variable {P : Prob} {C : Cfg} {A : Params}

/-- Between two looks at the clock it stands still. -/
theorem along_still (P : Prob) : Along P { A with interactive := false, stops := fun _ => (true, true) } (fun X Y => Y.clock = X.clock) :=
  ⟨fun h => h.clock, fun h k => k.trans h, fun _ => check_clock, fun r X s h => by unfold Run.checkStops at h; simp at h⟩

/-- One pass: it fails without a look at the clock, or looks once; it stops there if the time is up. -/
def Looks (A : Params) (X : Run) (r : Run × Pass) : Prop :=
  r.2 = .failed ∧ r.1.clock = X.clock ∨
    r.1.clock = X.clock + 1 ∧ ((A.stops X.clock).1 = true ∨ (A.stops X.clock).2 = true → r.2 = .stopped)

theorem checkStops_looks {p : Pass} {X Y : Run} (h : X.clock = Y.clock) : Post (Run.checkStops A p X) (Looks A Y) := by
  intro s hs
  unfold Run.checkStops at hs
  unfold Looks; rw [← h]
  cases hst : A.stops X.clock with
  | mk i t =>
    rw [hst] at hs
    cases i <;> cases t <;> cases hi : A.interactive <;> simp [hi] at hs <;> subst hs <;> right <;> simp [← h, hst]

theorem initPass_looks {X : Run} : Post (Run.initPass P C A X) (Looks A X) := by
  unfold Run.initPass
  refine Post.bind orderBy_held ?_
  intro Y hY
  refine Post.bind ((along_still (A := A) P).initLoop _) ?_
  rintro ⟨Z, got⟩ hZ
  dsimp only at hZ ⊢
  split
  · exact checkStops_looks (hZ.trans hY.clock)
  · exact Post.pure (.inl ⟨rfl, hZ.trans hY.clock⟩)

theorem overfillPass_looks {X : Run} : Post (Run.overfillPass P C A X) (Looks A X) := by
  unfold Run.overfillPass
  refine Post.bind orderBy_held ?_
  intro Y hY
  refine Post.bind ((along_still (A := A) P).improveLoop _) ?_
  rintro ⟨Z, imp, ok⟩ hZ
  dsimp only at hZ ⊢
  split
  · exact checkStops_looks (hZ.trans hY.clock)
  · exact Post.pure (.inl ⟨rfl, hZ.trans hY.clock⟩)

theorem pushdownPass_looks {X : Run} : Post (Run.pushdownPass P C A X) (Looks A X) := by
  unfold Run.pushdownPass
  refine Post.bind orderBy_held ?_
  intro Y hY
  refine Post.bind ((along_still (A := A) P).pushLoop _) ?_
  rintro ⟨Z, imp, ok⟩ hZ
  dsimp only at hZ ⊢
  split
  · split
    · exact checkStops_looks (hZ.trans hY.clock)
    · split
      · exact Post.error
      · exact checkStops_looks (hZ.trans hY.clock)
  · exact Post.pure (.inl ⟨rfl, hZ.trans hY.clock⟩)

theorem chainlengthPass_looks {X : Run} : Post (Run.chainlengthPass P C A X) (Looks A X) := by
  unfold Run.chainlengthPass
  refine Post.bind (P := fun Y => Held X Y) ?_ ?_
  · unfold Run.mixPerms
    split
    · exact Post.error
    · exact Post.pure ⟨rfl, rfl, rfl, rfl⟩
  intro X0 h0
  refine Post.bind orderBy_held ?_
  intro Y hY
  have hY := h0.trans hY
  refine Post.bind ((along_still (A := A) P).improveLoop _) ?_
  rintro ⟨Z, imp, ok⟩ hZ
  dsimp only at hZ ⊢
  split
  · exact checkStops_looks (hZ.trans hY.clock)
  · exact Post.pure (.inl ⟨rfl, hZ.trans hY.clock⟩)

variable {N : Nat} (hN : ∀ n, N ≤ n → (A.stops n).1 = true ∨ (A.stops n).2 = true)
include hN

/-- A pass that does not stop leaves the clock where it was, or before the end of the time. -/
theorem Looks.cases {X Y : Run} {p : Pass} (h : Looks A X (Y, p)) :
    p = .stopped ∧ Y.clock = X.clock + 1 ∨ p = .failed ∧ Y.clock = X.clock ∨ p ≠ .stopped ∧ Y.clock = X.clock + 1 ∧ X.clock < N := by
  rcases h with h | ⟨h1, h2⟩
  · exact .inr (.inl h)
  · by_cases hp : p = .stopped
    · exact .inl ⟨hp, h1⟩
    · refine .inr (.inr ⟨hp, h1, ?_⟩)
      by_contra hc
      exact hp (h2 (hN _ (Nat.le_of_not_lt hc)))

theorem rounds_prompt {trial : Nat} : ∀ (r : Nat) {ip : Nat} {X : Run},
    Post (Run.rounds P C A trial r ip X) (fun s => s.1.clock ≤ max N X.clock + 1)
  | 0, ip, X => Post.pure (by show X.clock ≤ _; omega)
  | r+1, ip, X => by
    unfold Run.rounds
    split
    · exact Post.pure (by show X.clock ≤ _; omega)
    · refine Post.bind (P := Looks A X) ?_ ?_
      · split
        · exact pushdownPass_looks
        · exact overfillPass_looks
      rintro ⟨Y, res⟩ hY
      dsimp only at hY ⊢
      have hc := hY.cases hN
      have go : ∀ {ip : Nat} (Z : Run), Z.clock = Y.clock → res ≠ .stopped → Post (Run.rounds P C A trial r ip Z) (fun s => s.1.clock ≤ max N X.clock + 1) := by
        intro ip Z hZ hres
        refine (rounds_prompt r).mono fun s k => ?_
        rcases hc with ⟨h, _⟩ | ⟨_, h⟩ | ⟨_, h1, h2⟩
        · exact absurd h hres
        · omega
        · omega
      cases res with
      | failed => exact go _ rfl (by simp)
      | stopped =>
        have hz : ∀ (r : Nat) (Z : Run), Run.rounds P C A trial r 0 Z = .ok (Z, 0) := by
          intro r Z
          cases r with
          | zero => rfl
          | succ r => unfold Run.rounds; rw [if_pos (.inl rfl)]
        simp only [hz]
        refine Post.pure ?_
        show Y.clock ≤ _
        rcases hc with ⟨_, h⟩ | ⟨_, h⟩ | ⟨h, _⟩
        · omega
        · omega
        · exact absurd rfl h
      | same => exact go _ rfl (by simp)
      | better => exact go _ rfl (by simp)

theorem trials_prompt : ∀ (t : Nat) {X : Run}, Post (Run.trials P C A t X) (fun Y => Y.clock ≤ max N X.clock + t + 1)
  | 0, X => Post.pure (by show X.clock ≤ _; omega)
  | t+1, X => by
    unfold Run.trials
    split
    · exact Post.pure (by show X.clock ≤ _; omega)
    · refine Post.bind (P := fun s => s.1.clock ≤ max N X.clock + 1) (rounds_prompt hN _) ?_
      rintro ⟨Y, ip⟩ hY
      dsimp only at hY ⊢
      have go : ∀ (Z : Run), Z.clock ≤ max N X.clock + 1 → Post (Run.trials P C A t Z) (fun s => s.clock ≤ max N X.clock + (t + 1) + 1) :=
        fun Z hZ => (trials_prompt t).mono (fun s k => by omega)
      split
      · refine Post.bind (P := Looks A Y) (initPass_looks.mono fun s k => k) ?_
        rintro ⟨Z, res⟩ hZ
        dsimp only at hZ ⊢
        have hc := hZ.cases hN
        cases res with
        | failed =>
          refine go _ ?_
          show Z.clock ≤ _
          rcases hc with ⟨h, _⟩ | ⟨_, h⟩ | ⟨_, h1, h2⟩
          · cases h
          · omega
          · omega
        | stopped =>
          refine Post.pure ?_
          rcases hc with ⟨_, h⟩ | ⟨h, _⟩ | ⟨h, _⟩
          · omega
          · cases h
          · exact absurd rfl h
        | same =>
          refine go _ ?_
          rcases hc with ⟨h, _⟩ | ⟨h, _⟩ | ⟨_, h1, h2⟩
          · cases h
          · cases h
          · omega
        | better =>
          refine Post.bind check_clock ?_
          rintro ⟨W, b⟩ hW
          refine go _ ?_
          dsimp only at hW ⊢
          rcases hc with ⟨h, _⟩ | ⟨h, _⟩ | ⟨_, h1, h2⟩
          · cases h
          · cases h
          · omega
      · exact go _ hY

theorem shrink_prompt : ∀ (fuel : Nat) {ip : Nat} {X : Run}, Post (Run.shrink P C A fuel ip X) (fun Y => Y.clock ≤ max N X.clock + 1)
  | 0, 0, X => Post.pure (by omega)
  | 0, _+1, X => Post.error
  | fuel+1, 0, X => Post.pure (by omega)
  | fuel+1, ip+1, X => by
    unfold Run.shrink
    refine Post.bind (P := Looks A X) (chainlengthPass_looks.mono fun s k => k) ?_
    rintro ⟨Y, res⟩ hY
    dsimp only at hY ⊢
    have hc := hY.cases hN
    have go : ∀ {ip : Nat} (Z : Run), Z.clock = Y.clock → res ≠ .stopped → Post (Run.shrink P C A fuel ip Z) (fun s => s.clock ≤ max N X.clock + 1) := by
      intro ip Z hZ hres
      refine (shrink_prompt fuel).mono fun s k => ?_
      rcases hc with ⟨h, _⟩ | ⟨_, h⟩ | ⟨_, h1, h2⟩
      · exact absurd h hres
      · omega
      · omega
    cases res with
    | failed => exact go _ rfl (by simp)
    | stopped =>
      refine Post.pure ?_
      rcases hc with ⟨_, h⟩ | ⟨h, _⟩ | ⟨h, _⟩
      · omega
      · cases h
      · exact absurd rfl h
    | same => exact go _ rfl (by simp)
    | better => exact go _ rfl (by simp)

/-- **C78.** If from the look number `N` on the time is up or an interrupt is pending, the search looks at the clock at most once more for
each try, and twice more on top. -/
theorem C78_prompt {X Y : Run} {b : Bool} (hX : X.clock ≤ N) (h : Run.heuristic P C A X = .ok (Y, b)) : Y.clock ≤ N + A.tries + 2 := by
  have key : Post (Run.heuristicFor P C A (Run.shrinkFuel P A) X) (fun r => r.1.clock ≤ N + A.tries + 2) := by
    unfold Run.heuristicFor
    refine Post.bind (P := fun r => r.1.clock ≤ N + 1 ∧ (r.2 = true → r.1.clock ≤ N)) ?_ ?_
    · unfold Run.start Run.resetMood
      dsimp only
      split
      · split
        · refine Post.pure ⟨?_, fun _ => ?_⟩
          · show X.clock ≤ _; omega
          · show X.clock ≤ _; omega
        · exact Post.error
      · refine Post.bind (P := Looks A X) (initPass_looks.mono fun _ k => k) ?_
        rintro ⟨Y, res⟩ hY
        have hc := hY.cases hN
        cases res with
        | stopped =>
          refine Post.pure ⟨?_, fun h => by cases h⟩
          rcases hc with ⟨_, h⟩ | ⟨h, _⟩ | ⟨h, _⟩
          · show Y.clock ≤ _; omega
          · cases h
          · exact absurd rfl h
        | failed => exact Post.error
        | same =>
          have : Y.clock ≤ N := by
            rcases hc with ⟨h, _⟩ | ⟨h, _⟩ | ⟨_, h1, h2⟩
            · cases h
            · cases h
            · omega
          exact Post.pure ⟨Nat.le_succ_of_le this, fun _ => this⟩
        | better =>
          have : Y.clock ≤ N := by
            rcases hc with ⟨h, _⟩ | ⟨h, _⟩ | ⟨_, h1, h2⟩
            · cases h
            · cases h
            · omega
          exact Post.pure ⟨Nat.le_succ_of_le this, fun _ => this⟩
    rintro ⟨X1, go⟩ h1
    dsimp only at h1 ⊢
    split
    · rename_i hgo
      have hle := h1.2 hgo
      refine Post.bind check_clock ?_
      rintro ⟨X2, b⟩ h2
      dsimp only at h2 ⊢
      refine Post.bind (P := fun Y => Y.clock ≤ N + A.tries + 1) ((trials_prompt hN A.tries).mono fun Y k => ?_) ?_
      · dsimp only at k; omega
      intro X3 h3
      split
      · refine Post.bind (P := fun Y => Y.clock ≤ N + A.tries + 2) ((shrink_prompt hN _).mono fun Y k => ?_) ?_
        · dsimp only at k; omega
        intro X4 h4
        exact Post.pure h4
      · exact Post.pure (by show X3.clock ≤ _; omega)
    · exact Post.pure (by show X1.clock ≤ _; omega)
  exact key _ h

/-- The time is up at the second look at the clock. -/
def Demo.soon : Params := { Demo.params with stops := fun n => (false, decide (1 ≤ n)) }

/-- The search looks at the clock three times, two of them after the time is up. -/
example : (match Run.new Demo.P0 Demo.init0 Demo.tape0 with
    | .ok X => (match Run.heuristic Demo.P0 Demo.cfg Demo.soon X with
      | .ok (Y, _) => X.clock == 0 && Y.clock == 3
      | .error _ => false)
    | .error _ => false) = true := by decide +kernel

example {X Y : Run} {b : Bool} (h0 : X.clock = 0)
    (h : Run.heuristic Demo.P0 Demo.cfg Demo.soon X = .ok (Y, b)) : Y.clock ≤ 5 :=
  C78_prompt (N := 1) (A := Demo.soon) (fun n h => .inr (decide_eq_true h)) (by omega) h

end MM
