import Verif.Core.Signed
import Verif.Core.RunPost

/-! Signed counts: agreement with natural numbers, what is kept, and when the loops end. -/

namespace MM

open Scratch (Cfg)

variable {P : Prob} {R : Nat → Nat → Prop} {C : Cfg} {A : Params} {N : Counts}

/-- The natural counts of `A` as `int`s. -/
def Params.counts (A : Params) : Counts := ⟨A.tries, A.innerRounds, A.maxNoImp, A.clPatience⟩

/-- They are in the range of `int`. -/
def Params.Small (A : Params) : Prop :=
  A.tries < 2 ^ 31 ∧ A.innerRounds < 2 ^ 31 ∧ A.maxNoImp < 2 ^ 31 ∧ A.clPatience < 2 ^ 31

theorem i32_ok {x : Int} (h1 : -2 ^ 31 ≤ x) (h2 : x < 2 ^ 31) : i32 x = .ok x := if_pos ⟨h1, h2⟩

theorem i32_post (x : Int) : Post (i32 x) (fun y => y = x) := by
  unfold i32
  split
  · exact Post.pure rfl
  · exact Post.error

/-! ### pushback -/

/-- `pushback` is the same. -/
theorem checkImprovement_pushback {E : Emb} {X : Run} :
    Post (Run.checkImprovement P E X) (fun r => r.1.pushback = X.pushback ∧ r.1.clock = X.clock) := by
  unfold Run.checkImprovement
  refine Post.bind Post.triv ?_
  rintro ⟨emb, tmp⟩ _
  dsimp only
  split
  · exact Post.pure ⟨rfl, rfl⟩
  · cases tmp.getLast? with
    | none => exact Post.error
    | some m =>
      dsimp only
      split
      · split <;> exact Post.pure ⟨rfl, rfl⟩
      · split <;> exact Post.pure ⟨rfl, rfl⟩

theorem check_pushback {X : Run} :
    Post (Run.check P X) (fun r => r.1.pushback = X.pushback ∧ r.1.clock = X.clock) :=
  checkImprovement_pushback

theorem place_pushback {u : Nat} {X : Run} :
    Post (Run.place P C u X) (fun r => r.1.pushback = X.pushback ∧ r.1.clock = X.clock) := by
  unfold Run.place
  refine Post.bind Post.triv ?_
  intro E _
  split
  · refine Post.bind Post.triv ?_
    rintro ⟨E1, S⟩ _
    exact Post.pure ⟨rfl, rfl⟩
  · refine Post.bind Post.triv ?_
    intro E1 _
    refine Post.bind Post.triv ?_
    rintro ⟨E2, S, got⟩ _
    exact Post.pure ⟨rfl, rfl⟩

theorem improveLoop_pushback {stop : Bool} : ∀ (l : List Nat) {imp : Bool} {X : Run},
    Post (Run.improveLoop P C stop l imp X) (fun r => r.1.pushback = X.pushback ∧ r.1.clock = X.clock)
  | [], imp, X => Post.pure ⟨rfl, rfl⟩
  | u :: us, imp, X => by
    unfold Run.improveLoop
    refine Post.bind place_pushback ?_
    rintro ⟨Y, got⟩ hY
    dsimp only at hY ⊢
    split
    · refine Post.bind check_pushback ?_
      rintro ⟨Z, b⟩ hZ
      dsimp only at hZ ⊢
      have h1 := hZ.1.trans hY.1
      have h2 := hZ.2.trans hY.2
      split
      · exact Post.pure ⟨h1, h2⟩
      · exact (improveLoop_pushback us).mono (fun r k => ⟨k.1.trans h1, k.2.trans h2⟩)
    · exact Post.pure hY

theorem orderBy_pushback {o : VarOrder} {X : Run} :
    Post (Run.orderBy P o X) (fun Y => Y.pushback = X.pushback ∧ Y.clock = X.clock) := by
  unfold Run.orderBy
  refine Post.bind Post.triv ?_
  rintro ⟨l, t⟩ _
  exact Post.pure ⟨rfl, rfl⟩

theorem checkStops_pushback {r : Pass} {X : Run} :
    Post (Run.checkStops A r X) (fun s => s.1.pushback = X.pushback) := by
  unfold Run.checkStops
  dsimp only
  split
  · split
    · exact Post.pure rfl
    · exact Post.error
  · split <;> exact Post.pure rfl

theorem overfillPass_pushback {X : Run} :
    Post (Run.overfillPass P C A X) (fun r => r.1.pushback = X.pushback) := by
  unfold Run.overfillPass
  refine Post.bind orderBy_pushback ?_
  intro Y hY
  refine Post.bind (improveLoop_pushback _) ?_
  rintro ⟨Z, imp, ok⟩ hZ
  dsimp only at hZ ⊢
  have h1 := hZ.1.trans hY.1
  split
  · exact checkStops_pushback.mono (fun r k => k.trans h1)
  · exact Post.pure h1

/-- Between `a` and `max a (num_vars + 2)`. -/
def Nudged (P : Prob) (a b : Int) : Prop := a ≤ b ∧ (b ≤ a ∨ b ≤ (P.nv : Int) + 2)

theorem Nudged.trans {a b c : Int} (h : Nudged P a b) (k : Nudged P b c) : Nudged P a c := by
  obtain ⟨h1, h2⟩ := h
  obtain ⟨k1, k2⟩ := k
  refine ⟨by omega, ?_⟩
  rcases k2 with k2 | k2
  · rcases h2 with h2 | h2
    · left; omega
    · right; omega
  · right; exact k2

theorem Nudged.of_eq {a b : Int} (h : b = a) : Nudged P a b := ⟨by omega, by omega⟩

theorem pushLoop_pushback {old : Int} : ∀ (l : List Nat) {imp : Bool} {X : Run},
    Post (Run.pushLoop P C old l imp X) (fun r => Nudged P X.pushback r.1.pushback)
  | [], imp, X => Post.pure (Nudged.of_eq rfl)
  | u :: us, imp, X => by
    unfold Run.pushLoop
    refine Post.bind (P := fun r => Nudged P X.pushback r.1.pushback) ?_ ?_
    · split
      · next hlt =>
        refine Post.bind (P := fun Y => Nudged P X.pushback Y.pushback) ?_ (fun Y hY => Post.pure hY)
        unfold Run.pushdown1
        refine Post.bind Post.triv ?_
        intro E _
        refine Post.bind Post.triv ?_
        rintro ⟨E1, n⟩ _
        refine Post.bind Post.triv ?_
        rintro ⟨E2, S, got⟩ _
        dsimp only
        split
        · exact Post.pure (Nudged.of_eq rfl)
        · refine Post.bind Post.triv ?_
          intro E3 _
          refine Post.bind Post.triv ?_
          intro E4 _
          refine Post.pure ⟨?_, Or.inr ?_⟩
          · dsimp only; omega
          · dsimp only; omega
      · unfold Run.bypass1
        refine Post.bind Post.triv ?_
        intro E _
        refine Post.bind Post.triv ?_
        intro E1 _
        refine Post.bind Post.triv ?_
        rintro ⟨E2, S, got⟩ _
        exact Post.pure (Nudged.of_eq rfl)
    rintro ⟨Y, got⟩ hY
    dsimp only at hY ⊢
    split
    · refine Post.bind check_pushback ?_
      rintro ⟨Z, b⟩ hZ
      dsimp only at hZ ⊢
      have hXZ : Nudged P X.pushback Z.pushback := hY.trans (Nudged.of_eq hZ.1)
      split
      · exact Post.pure hXZ
      · exact (pushLoop_pushback us).mono (fun r k => hXZ.trans k)
    · exact Post.pure hY

/-- What natural counts keep `pushback` within. -/
def Mild (P : Prob) (X : Run) : Prop := -1 ≤ X.pushback ∧ X.pushback ≤ 3 * (P.nv : Int) + 2

theorem bind_congr_post {α β : Type} {m : M α} {f g : α → M β} {Q : α → Prop} (hm : Post m Q)
    (h : ∀ a, Q a → f a = g a) : (m >>= f) = (m >>= g) := by
  cases m with
  | error e => rfl
  | ok a => exact h a (hm a rfl)

theorem pushdownPassS_eq {X : Run} (h1 : -1 ≤ X.pushback) (h2 : X.pushback < P.nv) (hb : P.nv < 2 ^ 29) :
    Run.pushdownPassS P C A A.counts X = Run.pushdownPass P C A X := by
  unfold Run.pushdownPassS Run.pushdownPass
  dsimp only
  refine bind_congr_post orderBy_pushback ?_
  intro Y hY
  refine bind_congr_post (pushLoop_pushback _) ?_
  rintro ⟨Z, imp, ok⟩ hZ
  dsimp only at hZ ⊢
  cases ok with
  | false => rfl
  | true =>
    simp only [if_true]
    cases imp with
    | true => rfl
    | false =>
      simp only [Bool.false_eq_true, if_false]
      show (if ((A.innerRounds : Nat) : Int) = 0 then _ else _) = _
      by_cases h0 : A.innerRounds = 0
      · rw [if_pos h0, if_pos (by omega)]
      · rw [if_neg h0, if_neg (by omega)]
        have hd : ((P.nv * 2 : Nat) : Int).tdiv A.counts.innerRounds = ((P.nv * 2 / A.innerRounds : Nat) : Int) := by
          show ((P.nv * 2 : Nat) : Int).tdiv ((A.innerRounds : Nat) : Int) = _
          rw [Int.ofNat_tdiv]
        have hle : P.nv * 2 / A.innerRounds ≤ P.nv * 2 := Nat.div_le_self _ _
        obtain ⟨z1, z2⟩ := hZ
        rw [hY.1] at z1 z2
        rw [hd]
        generalize P.nv * 2 / A.innerRounds = e at hle ⊢
        rw [i32_ok (by omega) (by omega)]
        rfl

theorem pushdownPass_mild {X : Run} (h1 : -1 ≤ X.pushback) (h2 : X.pushback < P.nv) :
    Post (Run.pushdownPass P C A X) (fun r => Mild P r.1) := by
  unfold Run.pushdownPass
  dsimp only
  refine Post.bind orderBy_pushback ?_
  intro Y hY
  refine Post.bind (pushLoop_pushback _) ?_
  rintro ⟨Z, imp, ok⟩ hZ
  dsimp only at hZ ⊢
  obtain ⟨z1, z2⟩ := hZ
  rw [hY.1] at z1 z2
  have hle : P.nv * 2 / A.innerRounds ≤ P.nv * 2 := Nat.div_le_self _ _
  cases ok with
  | false =>
    refine Post.pure ⟨?_, ?_⟩
    · dsimp only; omega
    · dsimp only; omega
  | true =>
    simp only [if_true]
    cases imp with
    | true =>
      refine checkStops_pushback.mono ?_
      intro r k
      unfold Mild
      rw [k]
      constructor
      · dsimp only; omega
      · dsimp only; omega
    | false =>
      simp only [Bool.false_eq_true, if_false]
      split
      · exact Post.error
      · refine checkStops_pushback.mono ?_
        intro r k
        unfold Mild
        rw [k]
        generalize P.nv * 2 / A.innerRounds = e at hle ⊢
        constructor
        · dsimp only; omega
        · dsimp only; omega

theorem passS_eq {X : Run} (h : Mild P X) (hb : P.nv < 2 ^ 29) :
    Run.passS P C A A.counts X = (if X.pushback < (P.nv : Int) then Run.pushdownPass P C A X
      else Run.overfillPass P C A { X with pushback := X.pushback - 1 } : M (Run × Pass)) := by
  unfold Run.passS
  by_cases hc : X.pushback < (P.nv : Int)
  · rw [if_pos hc, if_pos hc]; exact pushdownPassS_eq h.1 hc hb
  · rw [if_neg hc, if_neg hc]

theorem pass_mild {X : Run} (h : Mild P X) :
    Post (if X.pushback < (P.nv : Int) then Run.pushdownPass P C A X
      else Run.overfillPass P C A { X with pushback := X.pushback - 1 } : M (Run × Pass)) (fun r => Mild P r.1) := by
  split
  · next hc => exact pushdownPass_mild h.1 hc
  · refine overfillPass_pushback.mono ?_
    intro r k
    obtain ⟨h1, h2⟩ := h
    unfold Mild
    rw [k]
    constructor
    · dsimp only; omega
    · dsimp only; omega

/-! ### agreement -/

/-- A result with its number as an integer. -/
def widen (r : M (Run × Nat)) : M (Run × Int) :=
  match r with
  | .ok s => .ok (s.1, (s.2 : Int))
  | .error e => .error e

theorem widen_bind {α : Type} {m : M α} {f : α → M (Run × Nat)} : widen (m >>= f) = m >>= fun a => widen (f a) := by
  cases m <;> rfl

theorem roundsS_eq (hb : P.nv < 2 ^ 29) (hA : A.Small) {trial : Nat} :
    ∀ (r : Nat) {k : Nat} {ip : Nat} {X : Run}, (k : Int) = r + 2 ^ 31 → ip < 2 ^ 31 → r < 2 ^ 31 → Mild P X →
    Run.roundsS P C A A.counts trial k ip X = widen (Run.rounds P C A trial r ip X) := by
  intro r
  induction r with
  | zero =>
    intro k ip X hk _ _ _
    cases k with
    | zero => omega
    | succ k =>
    unfold Run.roundsS Run.rounds
    rw [if_pos (Or.inl (by omega))]
    rfl
  | succ r ih =>
    intro k ip X hk hip hr hX
    cases k with
    | zero => omega
    | succ k =>
    unfold Run.roundsS Run.rounds
    by_cases hc : ip = 0 ∨ X.embedded = true
    · rw [if_pos hc, if_pos (by rcases hc with hc | hc <;> simp [hc])]
      rfl
    · rw [if_neg hc, if_neg (by
        rintro (h | h | h)
        · omega
        · exact hc (Or.inl (by omega))
        · exact hc (Or.inr h))]
      have hip0 : ip ≠ 0 := fun h => hc (Or.inl h)
      rw [i32_ok (by
          rcases Int.le_total (ip : Int) ((k : Int) - 2 ^ 31) with h | h
          · rw [min_eq_left h]; omega
          · rw [min_eq_right h]; omega) (by
          rcases Int.le_total (ip : Int) ((k : Int) - 2 ^ 31) with h | h
          · rw [min_eq_left h]; omega
          · rw [min_eq_right h]; omega)]
      have hd : (decide ((ip : Int) ≤ 1) || decide ((trial : Int) = 0) || decide ((k : Int) = 2 ^ 31)) =
          (decide (ip ≤ 1) || decide (trial = 0) || decide (r = 0)) := by
        congr 1
        · congr 1
          · rw [decide_eq_decide]; omega
          · rw [decide_eq_decide]; omega
        · rw [decide_eq_decide]; omega
      show (Run.passS P C A A.counts { X with desperate := _ } >>= _) = _
      rw [hd]
      have hmild : Mild P { X with desperate := decide (ip ≤ 1) || decide (trial = 0) || decide (r = 0) } := hX
      dsimp only
      rw [passS_eq hmild hb, widen_bind]
      refine bind_congr_post (pass_mild hmild) ?_
      rintro ⟨Y, res⟩ hY
      dsimp only at hY ⊢
      have hsub : i32 ((ip : Int) - 1) = .ok ((ip - 1 : Nat) : Int) := by
        rw [i32_ok (by omega) (by omega)]
        congr 1; omega
      cases res with
      | stopped => exact ih (ip := 0) (by omega) (by omega) (by omega) hY
      | failed =>
        dsimp only
        rw [hsub]
        exact ih (by omega) (by omega) (by omega) hY
      | same =>
        dsimp only
        rw [hsub]
        exact ih (by omega) (by omega) (by omega) hY
      | better =>
        refine ih (ip := A.maxNoImp) (by omega) hA.2.2.1 (by omega) ⟨?_, ?_⟩
        · dsimp only; omega
        · dsimp only; omega

theorem ticks_nat (n : Nat) : (Run.ticks (n : Int) : Int) = n + 2 ^ 31 := by
  unfold Run.ticks
  omega

attribute [local irreducible] Run.ticks

theorem trialsS_eq (hb : P.nv < 2 ^ 29) (hA : A.Small) :
    ∀ (t : Nat) {k : Nat} {X : Run}, (k : Int) = t + 2 ^ 31 →
    Run.trialsS P C A A.counts k X = Run.trials P C A t X := by
  intro t
  induction t with
  | zero =>
    intro k X hk
    cases k with
    | zero => omega
    | succ k =>
    unfold Run.trialsS Run.trials
    rw [if_pos (Or.inl (by omega))]
  | succ t ih =>
    intro k X hk
    cases k with
    | zero => omega
    | succ k =>
    unfold Run.trialsS Run.trials
    by_cases hX : X.embedded = true
    · rw [if_pos hX, if_pos (Or.inr hX)]
    · rw [if_neg hX, if_neg (by
        rintro (h | h)
        · omega
        · exact hX h)]
      have ht : ((k : Int) - 2 ^ 31) = (t : Int) := by omega
      rw [ht]
      show (Run.roundsS P C A A.counts t (Run.ticks ((A.innerRounds : Nat) : Int)) ((A.maxNoImp : Nat) : Int) _ >>= _) = _
      rw [roundsS_eq hb hA A.innerRounds (ticks_nat _) hA.2.2.1 hA.2.1 ⟨by dsimp only; omega, by dsimp only; omega⟩]
      cases hr : Run.rounds P C A t A.innerRounds A.maxNoImp { X with pushback := 0 } with
      | error e => rfl
      | ok s =>
        obtain ⟨Y, ip⟩ := s
        show (if _ then _ else _ : M Run) = (if _ then _ else _ : M Run)
        have hcond : ((k : Int) ≠ 2 ^ 31 ∧ Y.embedded = false ∧ (ip : Int) = 0) ↔
            (t ≠ 0 ∧ Y.embedded = false ∧ ip = 0) := by
          constructor
          · rintro ⟨a, b, c⟩; exact ⟨by omega, b, by omega⟩
          · rintro ⟨a, b, c⟩; exact ⟨by omega, b, by omega⟩
        by_cases hc : t ≠ 0 ∧ Y.embedded = false ∧ ip = 0
        · rw [if_pos hc, if_pos (hcond.2 hc)]
          refine bind_congr_post Post.triv ?_
          rintro ⟨Z, res⟩ _
          cases res with
          | stopped => rfl
          | failed => exact ih (by omega)
          | same => exact ih (by omega)
          | better =>
            refine bind_congr_post Post.triv ?_
            rintro ⟨W, b⟩ _
            exact ih (by omega)
        · rw [if_neg hc, if_neg (fun h => hc (hcond.1 h))]
          exact ih (by omega)

theorem shrinkS_eq (hA : A.Small) : ∀ (fuel : Nat) {ip : Nat} {X : Run}, ip < 2 ^ 31 →
    Run.shrinkS P C A A.counts fuel ip X = Run.shrink P C A fuel ip X := by
  intro fuel
  induction fuel with
  | zero =>
    intro ip X _
    cases ip with
    | zero => unfold Run.shrinkS Run.shrink; rfl
    | succ ip => unfold Run.shrinkS Run.shrink; rw [if_neg (by omega)]
  | succ fuel ih =>
    intro ip X hip
    cases ip with
    | zero => unfold Run.shrinkS Run.shrink; rfl
    | succ ip =>
      unfold Run.shrinkS Run.shrink
      rw [if_neg (by omega)]
      have hsub : i32 (((ip + 1 : Nat) : Int) - 1) = .ok (ip : Int) := by
        rw [i32_ok (by omega) (by omega)]
        congr 1; omega
      rw [hsub]
      have hd : decide (((ip + 1 : Nat) : Int) = 1) = decide (ip = 0) := by
        rw [decide_eq_decide]; omega
      show (Run.chainlengthPass P C A { X with last := Emb.copy P X.last X.curr, desperate := _ } >>= _) = _
      rw [hd]
      refine bind_congr_post Post.triv ?_
      rintro ⟨Y, res⟩ _
      cases res with
      | stopped => rfl
      | failed => exact ih (by omega)
      | same => exact ih (by omega)
      | better => exact ih (ip := A.clPatience) hA.2.2.2

/-- For natural counts nothing changes. -/
theorem heuristicS_eq (hb : P.nv < 2 ^ 29) (hA : A.Small) (fuel : Nat) (X : Run) :
    Run.heuristicS P C A A.counts fuel X = Run.heuristicFor P C A fuel X := by
  unfold Run.heuristicS Run.heuristicFor
  refine bind_congr_post Post.triv ?_
  rintro ⟨Y, go⟩ _
  dsimp only
  cases go with
  | false => simp only [Bool.false_eq_true, if_false]
  | true =>
    simp only [if_true]
    refine bind_congr_post Post.triv ?_
    rintro ⟨Z, b⟩ _
    dsimp only
    have ht : (Run.ticks A.counts.tries : Int) = A.tries + 2 ^ 31 := ticks_nat A.tries
    rw [trialsS_eq hb hA A.tries ht]
    refine bind_congr_post Post.triv ?_
    intro W _
    have hcond : (W.embedded = true ∧ A.counts.clPatience ≠ 0) ↔ (W.embedded = true ∧ A.clPatience ≠ 0) := by
      show (_ ∧ ((A.clPatience : Nat) : Int) ≠ 0) ↔ _
      constructor
      · rintro ⟨a, b⟩; exact ⟨a, by omega⟩
      · rintro ⟨a, b⟩; exact ⟨a, by omega⟩
    by_cases hc : W.embedded = true ∧ A.clPatience ≠ 0
    · rw [if_pos hc, if_pos (hcond.2 hc)]
      have := shrinkS_eq (P := P) (C := C) hA fuel (ip := A.clPatience)
        (X := { W with wb := 1, curr := Emb.copy P W.curr W.best }) hA.2.2.2
      have hp : A.counts.clPatience = ((A.clPatience : Nat) : Int) := rfl
      rw [hp, this]
    · rw [if_neg hc, if_neg (fun h => hc (hcond.1 h))]

/-! ### what is kept -/

theorem pushdownPassS_good (wf : P.WF) (hR : Dom P R) (he : P.Even) {X : Run}
    (h : Good P R X) (hf : Full P X.curr) (hX : X.embedded = false) :
    Post (Run.pushdownPassS P C A N X) (fun s => Good P R s.1 ∧ (s.2 ≠ .failed → Full P s.1.curr)) := by
  have hg0 : ∀ b Y, Gain P b X Y := fun b Y h => by rw [hX] at h; simp at h
  unfold Run.pushdownPassS
  dsimp only
  refine Post.bind (Post.of_safe (i := False) (b := False) (orderBy_spec wf h.ri).safe) ?_
  rintro X1 ⟨h1, ⟨l, t, hX1⟩, h2, _⟩
  have hm1 : Moved' X X1 := by rw [hX1]; rfl
  have ho := h2 (by simp)
  have hf1 : Full P X1.curr := by rw [hX1]; exact hf
  refine Post.bind (Post.of_safe (i := False) (b := False)
    (pushLoop_spec wf hR he X1.order ⟨h1, h.best.moved' hm1⟩ hf1 (by rw [hX1]; exact hX)
    (fun u hu => List.mem_range.1 (ho.mem_iff.1 hu))).safe) ?_
  rintro ⟨X2, imp, ok⟩ ⟨k1, k2, k3⟩
  dsimp only at *
  have hfix := hm1.fixed.trans k2
  have hend : ∀ {m : M (Run × Pass)}, Safe A.Halts False m (Improved P R X) →
      Post m (fun s => Good P R s.1 ∧ (s.2 ≠ .failed → Full P s.1.curr)) :=
    fun hm => (Post.of_safe hm).mono (fun s hs => ⟨hs.good, hs.full⟩)
  cases ok with
  | false =>
    simp only [Bool.false_eq_true, if_false]
    exact Post.pure ⟨k1, by simp⟩
  | true =>
    simp only [if_true]
    have hgood : ∀ pb, Good P R { X2 with wb := X.wb, pushback := pb } := fun pb =>
      ⟨⟨k1.ri.vn, k1.ri.init, k1.ri.curr, k1.ri.best, k1.ri.last, k1.ri.ord⟩, k1.best.congr rfl rfl rfl⟩
    cases imp with
    | true =>
      exact hend (endPass (hgood X2.pushback) (hfix.trans ⟨rfl, rfl⟩) (k3 rfl) (hg0 true _) rfl rfl)
    | false =>
      simp only [Bool.false_eq_true, if_false]
      split
      · exact Post.error
      · refine Post.bind Post.triv ?_
        intro pb _
        exact hend (endPass (hgood pb) (hfix.trans ⟨rfl, rfl⟩) (k3 rfl) (hg0 false _) rfl rfl)

theorem passS_good (wf : P.WF) (hR : Dom P R) (he : P.Even) {X : Run}
    (h : Good P R X) (hf : Full P X.curr) (hX : X.embedded = false) :
    Post (Run.passS P C A N X) (fun s => Good P R s.1 ∧ (s.2 ≠ .failed → Full P s.1.curr)) := by
  unfold Run.passS
  split
  · exact pushdownPassS_good wf hR he h hf hX
  · have hg : Good P R { X with pushback := X.pushback - 1 } := h.flags rfl rfl rfl rfl rfl rfl rfl rfl
    exact (Post.of_safe (overfillPass_spec wf hR he hg hf)).mono (fun s hs => ⟨hs.good, hs.full⟩)

theorem roundsS_good (wf : P.WF) (hR : Dom P R) (he : P.Even) {trial : Int} :
    ∀ (k : Nat) {ip : Int} {X : Run}, Good P R X → Full P X.curr →
    Post (Run.roundsS P C A N trial k ip X) (fun s => Good P R s.1 ∧ Full P s.1.curr) := by
  intro k
  induction k with
  | zero => intro ip X _ _; unfold Run.roundsS; exact Post.error
  | succ k ih =>
    intro ip X h hf
    unfold Run.roundsS
    by_cases hc : (k : Int) + 1 = 2 ^ 31 ∨ ip = 0 ∨ X.embedded = true
    · rw [if_pos hc]; exact Post.pure ⟨h, hf⟩
    rw [if_neg hc]
    have hX : X.embedded = false := by
      cases hx : X.embedded with
      | false => rfl
      | true => exact absurd (Or.inr (Or.inr hx)) hc
    refine Post.bind Post.triv ?_
    intro _ _
    dsimp only
    refine Post.bind (passS_good wf hR he (h.flags rfl rfl rfl rfl rfl rfl rfl rfl) hf hX) ?_
    rintro ⟨X1, res⟩ ⟨h1, h2⟩
    dsimp only at *
    cases res with
    | stopped => exact ih h1 (h2 (by simp))
    | failed =>
      obtain ⟨k1, k2⟩ := h1.restore wf
      refine Post.bind Post.triv ?_
      intro _ _
      exact ih (k1.flags rfl rfl rfl rfl rfl rfl rfl rfl) k2
    | same =>
      refine Post.bind Post.triv ?_
      intro _ _
      exact ih (h1.flags rfl rfl rfl rfl rfl rfl rfl rfl) (h2 (by simp))
    | better => exact ih (h1.flags rfl rfl rfl rfl rfl rfl rfl rfl) (h2 (by simp))

/-- A run that ends with negative `tries` has an embedding, or was stopped. -/
theorem trialsS_good (wf : P.WF) (hR : Dom P R) (he : P.Even) :
    ∀ (k : Nat) {X : Run}, Good P R X → Full P X.curr →
    Post (Run.trialsS P C A N k X) (fun Y => Good P R Y ∧ (k < 2 ^ 31 → Y.embedded = true ∨ A.Stops)) := by
  intro k
  induction k with
  | zero => intro X _ _; unfold Run.trialsS; exact Post.error
  | succ k ih =>
    intro X h hf
    unfold Run.trialsS
    by_cases hX : (k : Int) + 1 = 2 ^ 31 ∨ X.embedded = true
    · rw [if_pos hX]
      refine Post.pure ⟨h, fun hk => Or.inl ?_⟩
      rcases hX with hX | hX
      · omega
      · exact hX
    rw [if_neg hX]
    have go : ∀ {Y : Run}, Good P R Y → Full P Y.curr → Post (Run.trialsS P C A N k Y)
        (fun Y => Good P R Y ∧ (k + 1 < 2 ^ 31 → Y.embedded = true ∨ A.Stops)) :=
      fun h hf => (ih h hf).mono (fun Y hY => ⟨hY.1, fun hk => hY.2 (by omega)⟩)
    refine Post.bind (roundsS_good wf hR he _ (h.flags rfl rfl rfl rfl rfl rfl rfl rfl) hf) ?_
    rintro ⟨X1, ip⟩ ⟨h1, hf1⟩
    dsimp only at *
    by_cases hc : (k : Int) ≠ 2 ^ 31 ∧ X1.embedded = false ∧ ip = 0
    · rw [if_pos hc]
      have hcp := EInv.copy h1.ri.curr.exact h1.ri.curr.lab h1.ri.init
      have hri : RI P R { X1 with desperate := false, pushback := 0, curr := Emb.copy P X1.curr X1.init } :=
        ⟨h1.ri.vn, h1.ri.init, hcp.1, h1.ri.best, h1.ri.last, h1.ri.ord⟩
      refine Post.bind (Post.of_safe (initPass_spec wf hR he hri hc.2.1).kept) ?_
      rintro ⟨X2, res⟩ ⟨⟨k1, k2, k3, k4⟩, k5⟩
      dsimp only at *
      have hb0 : BestOK P R { X1 with desperate := false, pushback := 0, curr := Emb.copy P X1.curr X1.init } :=
        h1.best.congr rfl rfl rfl
      have hg2 : Good P R X2 := ⟨k1, hb0.moved' k2⟩
      cases res with
      | stopped => exact Post.pure ⟨hg2, fun _ => Or.inr (initPass_stopped k5 rfl)⟩
      | same => exact absurd rfl k4
      | failed =>
        obtain ⟨m1, m2⟩ := hg2.restore wf
        exact go m1 m2
      | better =>
        have hri2 : RI P R { X2 with stats := [] } := ⟨k1.vn, k1.init, k1.curr, k1.best, k1.last, k1.ord⟩
        refine Post.bind (Post.of_safe (i := False) (b := False) (check_spec wf hri2 (k3 rfl) (Or.inr ⟨rfl, ?_⟩)).safe) ?_
        · dsimp only; rw [k2]; exact hc.2.1
        rintro ⟨X3, b⟩ ⟨m1, m2, m3, _⟩
        dsimp only at *
        refine go ⟨m1, m2⟩ ?_
        rw [m3.curr]; exact k3 rfl
    · rw [if_neg hc]
      exact go h1 hf1

/-! ### the last loop -/

theorem checkStops_stopped {r : Pass} {X : Run} (hr : r ≠ .stopped) :
    Post (Run.checkStops A r X) (fun s => s.1.clock = X.clock + 1 ∧ (s.2 = .stopped → A.Stops) ∧
      ((A.stops X.clock).2 = true → s.2 = .stopped)) := by
  unfold Run.checkStops
  dsimp only
  split
  · next h1 =>
    split
    · exact Post.pure ⟨rfl, fun _ => ⟨_, Or.inl h1⟩, fun _ => rfl⟩
    · exact Post.error
  · split
    · next h2 => exact Post.pure ⟨rfl, fun _ => ⟨_, Or.inr h2⟩, fun _ => rfl⟩
    · next h2 => exact Post.pure ⟨rfl, fun h => absurd h hr, fun h => absurd h h2⟩

theorem chainlengthPass_clock {X : Run} : Post (Run.chainlengthPass P C A X) (fun s =>
    (s.2 = .stopped → A.Stops) ∧ (s.2 ≠ .failed → s.1.clock = X.clock + 1 ∧
      ((A.stops X.clock).2 = true → s.2 = .stopped))) := by
  unfold Run.chainlengthPass
  refine Post.bind (P := fun Y => Y.clock = X.clock) ?_ ?_
  · unfold Run.mixPerms
    split
    · exact Post.error
    · exact Post.pure rfl
  intro Y hY
  refine Post.bind orderBy_pushback ?_
  intro Z hZ
  refine Post.bind (improveLoop_pushback _) ?_
  rintro ⟨W, imp, ok⟩ hW
  dsimp only at hW ⊢
  have hclock : W.clock = X.clock := hW.2.trans (hZ.2.trans hY)
  split
  · refine (checkStops_stopped (by cases imp <;> simp [Run.flag])).mono ?_
    rintro s ⟨a, b, c⟩
    rw [hclock] at a c
    exact ⟨b, fun _ => ⟨a, c⟩⟩
  · exact Post.pure ⟨by simp, fun h => absurd rfl h⟩

theorem shrinkS_good (wf : P.WF) (hR : Dom P R) (he : P.Even) (hn : 0 < P.N) :
    ∀ (fuel : Nat) {ip : Int} {X : Run}, Good P R X → Full P X.curr → X.embedded = true →
    Post (Run.shrinkS P C A N fuel ip X) (fun Y => Good P R Y ∧ Y.embedded = true) := by
  intro fuel
  induction fuel with
  | zero =>
    intro ip X h _ hX
    unfold Run.shrinkS
    split
    · exact Post.pure ⟨h, hX⟩
    · exact Post.error
  | succ fuel ih =>
    intro ip X h hf hX
    unfold Run.shrinkS
    split
    · exact Post.pure ⟨h, hX⟩
    refine Post.bind Post.triv ?_
    intro less _
    dsimp only
    have hcp := EInv.copy h.ri.last.1 h.ri.last.2 h.ri.curr.toShape
    have h0 : Good P R { X with last := Emb.copy P X.last X.curr, desperate := decide (ip = 1) } :=
      ⟨⟨h.ri.vn, h.ri.init, h.ri.curr, h.ri.best, hcp.1.base, h.ri.ord⟩, h.best.congr rfl rfl rfl⟩
    refine Post.bind (Post.of_safe (chainlengthPass_spec wf hR he h0 hf hn)) ?_
    rintro ⟨X1, res⟩ h1
    have e1 := (h1.gain hX).1
    dsimp only at e1 ⊢
    cases res with
    | failed => exact absurd rfl (h1.emb hX)
    | stopped => exact Post.pure ⟨h1.good, e1⟩
    | same => exact ih (h1.good.flags rfl rfl rfl rfl rfl rfl rfl rfl) (h1.full (by simp)) e1
    | better => exact ih (h1.good.flags rfl rfl rfl rfl rfl rfl rfl rfl) (h1.full (by simp)) e1

/-- With a negative patience only a stop ends the loop. -/
theorem shrinkS_endless (hN : N.clPatience < 0) (hs : ¬ A.Stops) : ∀ (fuel : Nat) {ip : Int} {X : Run}, ip < 0 →
    Post (Run.shrinkS P C A N fuel ip X) (fun _ => False) := by
  intro fuel
  induction fuel with
  | zero =>
    intro ip X hip
    unfold Run.shrinkS
    rw [if_neg (by omega)]
    exact Post.error
  | succ fuel ih =>
    intro ip X hip
    unfold Run.shrinkS
    rw [if_neg (by omega)]
    refine Post.bind (i32_post _) ?_
    intro less hless
    dsimp only
    refine Post.bind chainlengthPass_clock ?_
    rintro ⟨X1, res⟩ ⟨h1, _⟩
    dsimp only at h1 ⊢
    cases res with
    | failed => exact ih (by omega)
    | stopped => exact absurd (h1 rfl) hs
    | same => exact ih (by omega)
    | better => exact ih hN

/-- The loop ends at the first look at the clock after the time is up. -/
theorem shrinkS_ends (wf : P.WF) (hR : Dom P R) (he : P.Even) (hn : 0 < P.N) (hi : ¬ A.Halts) {n : Nat}
    (hs : ∀ m, n ≤ m → (A.stops m).2 = true) (hN : -2 ^ 31 + (n : Int) + 1 ≤ N.clPatience) (hN' : N.clPatience < 0) :
    ∀ (d : Nat) {ip : Int} {X : Run}, Good P R X → Full P X.curr → X.embedded = true → n ≤ X.clock + d → d ≤ n →
    ip < 0 → -2 ^ 31 + (d : Int) + 1 ≤ ip →
    Ok (Run.shrinkS P C A N (d + 1) ip X) (fun Y => Good P R Y ∧ Y.embedded = true) := by
  intro d
  induction d with
  | zero =>
    intro ip X h hf hX hd hdn hip hip'
    unfold Run.shrinkS
    rw [if_neg (by omega), i32_ok (by omega) (by omega)]
    have hcp := EInv.copy h.ri.last.1 h.ri.last.2 h.ri.curr.toShape
    have h0 : Good P R { X with last := Emb.copy P X.last X.curr, desperate := decide (ip = 1) } :=
      ⟨⟨h.ri.vn, h.ri.init, h.ri.curr, h.ri.best, hcp.1.base, h.ri.ord⟩, h.best.congr rfl rfl rfl⟩
    dsimp only [bind, Except.bind]
    rcases chainlengthPass_spec (C := C) (A := A) wf hR he h0 hf hn with ⟨s, hs1, hs2⟩ | ⟨hb, _⟩ | ⟨hb, _⟩
    · have hc := chainlengthPass_clock s hs1
      rw [hs1]
      obtain ⟨X1, res⟩ := s
      have hst := (hc.2 (hs2.emb hX)).2 (hs _ (by dsimp only; omega))
      dsimp only at hst ⊢
      subst hst
      exact Ok.pure ⟨hs2.good, (hs2.gain hX).1⟩
    · exact hb.elim
    · exact absurd hb hi
  | succ d ih =>
    intro ip X h hf hX hd hdn hip hip'
    unfold Run.shrinkS
    rw [if_neg (by omega), i32_ok (by omega) (by omega)]
    have hcp := EInv.copy h.ri.last.1 h.ri.last.2 h.ri.curr.toShape
    have h0 : Good P R { X with last := Emb.copy P X.last X.curr, desperate := decide (ip = 1) } :=
      ⟨⟨h.ri.vn, h.ri.init, h.ri.curr, h.ri.best, hcp.1.base, h.ri.ord⟩, h.best.congr rfl rfl rfl⟩
    dsimp only [bind, Except.bind]
    rcases chainlengthPass_spec (C := C) (A := A) wf hR he h0 hf hn with ⟨s, hs1, hs2⟩ | ⟨hb, _⟩ | ⟨hb, _⟩
    · have hc := chainlengthPass_clock s hs1
      rw [hs1]
      obtain ⟨X1, res⟩ := s
      have hcl := (hc.2 (hs2.emb hX)).1
      have e1 := (hs2.gain hX).1
      dsimp only at hcl e1 ⊢
      cases res with
      | failed => exact absurd rfl (hs2.emb hX)
      | stopped => exact Ok.pure ⟨hs2.good, e1⟩
      | same =>
        exact ih (hs2.good.flags rfl rfl rfl rfl rfl rfl rfl rfl) (hs2.full (by simp)) e1
          (by dsimp only; omega) (by omega) (by omega) (by omega)
      | better =>
        exact ih (hs2.good.flags rfl rfl rfl rfl rfl rfl rfl rfl) (hs2.full (by simp)) e1
          (by dsimp only; omega) (by omega) hN' (by omega)
    · exact hb.elim
    · exact absurd hb hi

end MM
