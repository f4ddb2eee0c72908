import Verif.Core.RunPass
import Mathlib.Data.List.Shortlex

/-! What passes do to the best embedding, whenever they end normally, and the order in
which candidates are compared. -/

namespace MM

open Scratch (Cfg)

namespace Spec

/-- Quality of a candidate: whether it is free of overlaps, and a histogram (of overfull
qubits, or of chain lengths). Smaller histograms are better: fewer entries, or equally many
and the last differing entry smaller. -/
def Better (a b : Bool × List Nat) : Prop :=
  (a.1 = true ∧ b.1 = false) ∨ (a.1 = b.1 ∧ (a.2.length < b.2.length ∨
    (a.2.length = b.2.length ∧ ∃ (k x y : Nat), a.2[k]? = some x ∧ b.2[k]? = some y ∧ x < y ∧
      ∀ j, k < j → a.2[j]? = b.2[j]?)))

end Spec

open Spec (Better)

variable {P : Prob} {R : Nat → Nat → Prop}

theorem Better.irrefl (a : Bool × List Nat) : ¬ Better a a := by
  rintro (⟨h1, h2⟩ | ⟨_, h | ⟨_, k, x, y, h1, h2, h3, _⟩⟩)
  · rw [h1] at h2; simp at h2
  · omega
  · rw [h1] at h2; simp at h2; omega

theorem Better.trans {a b c : Bool × List Nat} (h : Better a b) (k : Better b c) : Better a c := by
  rcases h with ⟨h1, h2⟩ | ⟨h1, h2⟩
  · rcases k with ⟨k1, k2⟩ | ⟨k1, k2⟩
    · rw [h2] at k1; simp at k1
    · exact Or.inl ⟨h1, by rw [← k1]; exact h2⟩
  · rcases k with ⟨k1, k2⟩ | ⟨k1, k2⟩
    · exact Or.inl ⟨h1.trans k1, k2⟩
    · refine Or.inr ⟨h1.trans k1, ?_⟩
      rcases h2 with h2 | ⟨hl, i, x, y, i1, i2, i3, i4⟩
      · rcases k2 with k2 | ⟨k2, _⟩ <;> left <;> omega
      · rcases k2 with k2 | ⟨kl, j, x', y', j1, j2, j3, j4⟩
        · left; omega
        · right
          refine ⟨hl.trans kl, ?_⟩
          rcases Nat.lt_trichotomy i j with hij | hij | hij
          · exact ⟨j, x', y', by rw [i4 j hij]; exact j1, j2, j3, fun m hm => (i4 m (by omega)).trans (j4 m hm)⟩
          · subst hij
            rw [i2] at j1
            simp only [Option.some.injEq] at j1
            exact ⟨i, x, y', i1, j2, by omega, fun m hm => (i4 m hm).trans (j4 m hm)⟩
          · exact ⟨i, x, y, i1, by rw [← j4 i hij]; exact i2, i3, fun m hm => (i4 m hm).trans (j4 m (by omega))⟩

/-- `lessDown`, by position. -/
theorem lessDown_iff : ∀ {a b : List Nat}, a.length = b.length →
    (Run.lessDown a b = true ↔ ∃ (k x y : Nat), a[k]? = some x ∧ b[k]? = some y ∧ x < y ∧ ∀ j, j < k → a[j]? = b[j]?)
  | [], [], _ => by simp [Run.lessDown]
  | [], _ :: _, h => by simp at h
  | _ :: _, [], h => by simp at h
  | u :: a, v :: b, h => by
    have ih := lessDown_iff (a := a) (b := b) (by simpa using h)
    unfold Run.lessDown
    by_cases huv : u = v
    · subst huv
      rw [if_pos rfl, ih]
      constructor
      · rintro ⟨k, x, y, h1, h2, h3, h4⟩
        refine ⟨k + 1, x, y, by simpa using h1, by simpa using h2, h3, ?_⟩
        intro j hj
        cases j with
        | zero => simp
        | succ j => simpa using h4 j (by omega)
      · rintro ⟨k, x, y, h1, h2, h3, h4⟩
        cases k with
        | zero => simp at h1 h2; omega
        | succ k =>
          refine ⟨k, x, y, by simpa using h1, by simpa using h2, h3, ?_⟩
          intro j hj
          simpa using h4 (j + 1) (by omega)
    · rw [if_neg huv]
      simp only [decide_eq_true_eq]
      constructor
      · intro hlt; exact ⟨0, u, v, rfl, rfl, hlt, by intro j hj; omega⟩
      · rintro ⟨k, x, y, h1, h2, h3, h4⟩
        cases k with
        | zero => simp at h1 h2; omega
        | succ k => have := h4 0 (by omega); simp at this; exact absurd this huv

theorem lessDown_rev {a b : List Nat} (h : a.length = b.length) :
    (Run.lessDown a.reverse b.reverse = true ↔
      ∃ (k x y : Nat), a[k]? = some x ∧ b[k]? = some y ∧ x < y ∧ ∀ j, k < j → a[j]? = b[j]?) := by
  rw [lessDown_iff (by simpa using h)]
  constructor
  · rintro ⟨k, x, y, h1, h2, h3, h4⟩
    have hk : k < a.length := by
      by_contra hc
      rw [List.getElem?_eq_none (by simp; omega)] at h1; simp at h1
    rw [List.getElem?_reverse hk] at h1
    rw [List.getElem?_reverse (by omega)] at h2
    refine ⟨a.length - 1 - k, x, y, h1, by rw [h]; exact h2, h3, ?_⟩
    intro j hj
    by_cases hja : j < a.length
    · have := h4 (a.length - 1 - j) (by omega)
      rw [List.getElem?_reverse (by omega), List.getElem?_reverse (by omega)] at this
      have e1 : a.length - 1 - (a.length - 1 - j) = j := by omega
      have e2 : b.length - 1 - (a.length - 1 - j) = j := by omega
      rw [e1, e2] at this; exact this
    · rw [List.getElem?_eq_none (by omega), List.getElem?_eq_none (by omega)]
  · rintro ⟨k, x, y, h1, h2, h3, h4⟩
    have hk : k < a.length := by
      by_contra hc
      rw [List.getElem?_eq_none (by omega)] at h1; simp at h1
    refine ⟨a.length - 1 - k, x, y, ?_, ?_, h3, ?_⟩
    · rw [List.getElem?_reverse (by omega)]
      have e1 : a.length - 1 - (a.length - 1 - k) = k := by omega
      rw [e1]; exact h1
    · rw [List.getElem?_reverse (by omega)]
      have e1 : b.length - 1 - (a.length - 1 - k) = k := by omega
      rw [e1]; exact h2
    · intro j hj
      rw [List.getElem?_reverse (by omega), List.getElem?_reverse (by omega), h]
      exact h4 _ (by omega)

theorem better_iff {e1 e2 : Bool} {l1 l2 : List Nat} (h : l2 ≠ []) :
    betterB e1 l1 e2 l2 = true ↔ Better (e1, l1) (e2, l2) := by
  have hne : l2.isEmpty = false := by simpa using h
  unfold betterB Better
  simp only [hne, Bool.or_eq_true, Bool.and_eq_true, Bool.not_eq_true', decide_eq_true_eq, Bool.false_or]
  refine or_congr Iff.rfl (and_congr Iff.rfl (or_congr Iff.rfl ?_))
  constructor
  · rintro ⟨a, b⟩; exact ⟨a, (lessDown_rev a).1 b⟩
  · rintro ⟨a, b⟩; exact ⟨a, (lessDown_rev a).2 b⟩

theorem Better.total {a b : Bool × List Nat} (h : a ≠ b) : Better a b ∨ Better b a := by
  obtain ⟨e1, l1⟩ := a
  obtain ⟨e2, l2⟩ := b
  by_cases he : e1 = e2
  · subst he
    rcases Nat.lt_trichotomy l1.length l2.length with hl | hl | hl
    · exact Or.inl (Or.inr ⟨rfl, Or.inl hl⟩)
    · have hne : l1.reverse ≠ l2.reverse := by
        intro hc; exact h (by rw [List.reverse_inj.1 hc])
      have key : ∀ a b : List Nat, a.length = b.length → a ≠ b → Run.lessDown a b = true ∨ Run.lessDown b a = true := by
        intro a
        induction a with
        | nil => intro b hb hn; cases b with
          | nil => exact absurd rfl hn
          | cons => simp at hb
        | cons u a ih =>
          intro b hb hn
          cases b with
          | nil => simp at hb
          | cons v b =>
            unfold Run.lessDown
            by_cases huv : u = v
            · subst huv
              rw [if_pos rfl, if_pos rfl]
              exact ih b (by simpa using hb) (fun hc => hn (by rw [hc]))
            · rw [if_neg huv, if_neg (Ne.symm huv)]
              simp only [decide_eq_true_eq]; omega
      rcases key _ _ (by simpa using hl) hne with hk | hk
      · exact Or.inl (Or.inr ⟨rfl, Or.inr ⟨hl, (lessDown_rev hl).1 hk⟩⟩)
      · exact Or.inr (Or.inr ⟨rfl, Or.inr ⟨hl.symm, (lessDown_rev hl.symm).1 hk⟩⟩)
    · exact Or.inr (Or.inr ⟨rfl, Or.inl hl⟩)
  · cases e1 <;> cases e2
    · exact absurd rfl he
    · exact Or.inr (Or.inl ⟨rfl, rfl⟩)
    · exact Or.inl (Or.inl ⟨rfl, rfl⟩)
    · exact absurd rfl he

theorem lessDown_lex : ∀ {a b : List Nat}, Run.lessDown a b = true → List.Lex (· < ·) a b
  | [], [], h => by simp [Run.lessDown] at h
  | [], _ :: _, h => by simp [Run.lessDown] at h
  | _ :: _, [], h => by simp [Run.lessDown] at h
  | u :: a, v :: b, h => by
    unfold Run.lessDown at h
    by_cases huv : u = v
    · subst huv
      rw [if_pos rfl] at h
      exact List.Lex.cons (lessDown_lex h)
    · rw [if_neg huv] at h
      exact List.Lex.rel (by simpa using h)

theorem Better.wf : WellFounded Better := by
  have hb : WellFounded (fun a b : Bool => a = true ∧ b = false) := by
    refine ⟨fun b => ?_⟩
    have ht : Acc (fun a b : Bool => a = true ∧ b = false) true := ⟨_, fun y h => by simp at h⟩
    cases b with
    | true => exact ht
    | false => exact ⟨_, fun y h => by rw [h.1]; exact ht⟩
  have hl : WellFounded (List.Shortlex (fun a b : Nat => a < b)) := List.Shortlex.wf Nat.lt_wfRel.wf
  refine Subrelation.wf ?_ (InvImage.wf (fun a : Bool × List Nat => (a.1, a.2.reverse)) (Prod.lex ⟨_, hb⟩ ⟨_, hl⟩).wf)
  rintro ⟨e1, l1⟩ ⟨e2, l2⟩ h
  rcases h with ⟨h1, h2⟩ | ⟨h1, h2⟩
  · exact Prod.Lex.left _ _ ⟨h1, h2⟩
  · dsimp only at h1 h2
    subst h1
    refine Prod.Lex.right _ ?_
    rcases h2 with h2 | ⟨h2, h3⟩
    · exact Prod.Lex.left _ _ (by simpa using h2)
    · show Prod.Lex _ _ _ _
      have e : l1.reverse.length = l2.reverse.length := by simpa using h2
      dsimp only
      rw [e]
      exact Prod.Lex.right _ (lessDown_lex ((lessDown_rev h2).2 h3))

/-! ### the best embedding during passes -/

/-- If `m` ends normally, then in a value satisfying `Q`. -/
def Post {α : Type} (m : M α) (Q : α → Prop) : Prop := ∀ a, m = .ok a → Q a

theorem Post.pure {α : Type} {a : α} {Q : α → Prop} (h : Q a) : Post (.ok a : M α) Q := by
  intro b hb; cases hb; exact h

theorem Post.error {α : Type} {e : Fault} {Q : α → Prop} : Post (.error e : M α) Q := by
  intro b hb; cases hb

theorem Post.bind {α β : Type} {m : M α} {f : α → M β} {P : α → Prop} {Q : β → Prop}
    (h : Post m P) (hf : ∀ a, P a → Post (f a) Q) : Post (m >>= f) Q := by
  cases m with
  | error e => exact Post.error
  | ok a => exact hf a (h a rfl)

theorem Post.mono {α : Type} {m : M α} {P Q : α → Prop} (h : Post m P) (hpq : ∀ a, P a → Q a) : Post m Q :=
  fun a ha => hpq a (h a ha)

theorem Post.triv {α : Type} {m : M α} : Post m (fun _ => True) := fun _ _ => trivial

theorem Post.of_safe {i b : Prop} {α : Type} {m : M α} {Q : α → Prop} (h : Safe i b m Q) : Post m Q := by
  intro a ha
  rcases h with ⟨b, hb, hq⟩ | ⟨_, hb⟩ | ⟨_, hb⟩
  · rw [ha] at hb; cases hb; exact hq
  · rw [ha] at hb; cases hb
  · rw [ha] at hb; cases hb

/-- Quality of the best embedding so far. -/
def Run.quality (X : Run) : Bool × List Nat := (X.embedded, X.stats)

/-- From `X`, which has a best embedding, to `Y` the best embedding was kept or replaced by
a better one. -/
def NoWorse (X Y : Run) : Prop := X.stats ≠ [] → Y.stats ≠ [] ∧
  (Y.best = X.best ∧ Y.quality = X.quality ∨ Better Y.quality X.quality)

/-- What one call of `check_improvement` does, given that there is a best embedding. -/
theorem check_post {X : Run} (hs : X.stats ≠ []) : Post (Run.check P X) (fun r =>
    r.1.stats ≠ [] ∧ ∃ st, X.curr.statistics P = .ok st ∧
    (r.2 = true ∧ r.1.quality = st ∧ Better st X.quality ∧ r.1.best = Emb.copy P X.best X.curr ∨
      r.2 = false ∧ r.1 = X ∧ ¬ Better st X.quality)) := by
  unfold Run.check Run.checkImprovement
  cases hst : X.curr.statistics P with
  | error e => exact Post.error
  | ok st =>
    obtain ⟨emb, tmp⟩ := st
    dsimp only [bind, Except.bind]
    have bridge : betterB emb tmp X.embedded X.stats = true ↔ Better (emb, tmp) X.quality := better_iff hs
    by_cases hc : (X.embedded && !emb) = true
    · rw [if_pos hc]
      simp only [Bool.and_eq_true, Bool.not_eq_true'] at hc
      refine Post.pure ⟨hs, _, rfl, Or.inr ⟨rfl, rfl, ?_⟩⟩
      rw [← bridge]; simp [betterB, hc.1, hc.2]
    rw [if_neg hc]
    cases hl : tmp.getLast? with
    | none => exact Post.error
    | some m =>
      dsimp only
      have hne : tmp ≠ [] := by rintro rfl; simp at hl
      obtain ⟨d, hd⟩ : ∃ d, d = (((emb && !X.embedded || decide (tmp.length < X.stats.length) ||
          X.stats.isEmpty) || (decide (tmp.length = X.stats.length) &&
          decide (0 < Run.minorDiff X.stats m))) ||
          (decide (tmp.length = X.stats.length) && decide (Run.minorDiff X.stats m = 0) &&
          Run.lessDown tmp.reverse X.stats.reverse)) := ⟨_, rfl⟩
      have hd' : d = betterB emb tmp X.embedded X.stats := by
        rw [hd]
        unfold Run.minorDiff
        cases hs' : X.stats.getLast? with
        | none => rw [List.getLast?_eq_none_iff] at hs'; exact absurd hs' hs
        | some y =>
          have hsne : X.stats.isEmpty = false := by simpa using hs
          have key := lessDown_split hl hs'
          have hcases : emb = X.embedded ∨ (emb = true ∧ X.embedded = false) := by
            cases emb <;> cases he : X.embedded <;> simp [he] at hc ⊢
          rcases hcases with he | ⟨he1, he2⟩
          · simp only [betterB, he, hsne]
            rw [key]
            have e1 : decide ((0:Int) < (y:Int) - m) = decide (m < y) := by
              simp only [decide_eq_decide]; omega
            have e2 : decide ((y:Int) - m = 0) = decide (m = y) := by
              simp only [decide_eq_decide]; omega
            rw [e1, e2]
            cases X.embedded <;> cases decide (tmp.length < X.stats.length) <;>
              cases decide (tmp.length = X.stats.length) <;> cases decide (m < y) <;>
              cases decide (m = y) <;> cases Run.lessDown tmp.reverse X.stats.reverse <;> rfl
          · simp [betterB, he1, he2]
      simp only [apply_ite Run.stats, ite_self]
      rw [← hd]
      cases hdv : d with
      | true =>
        rw [hdv] at hd'
        rw [if_pos rfl]
        have hemb : (X.embedded || emb) = emb := by
          cases emb <;> cases he : X.embedded <;> simp [he] at hc ⊢
        refine Post.pure ⟨hne, _, rfl, Or.inl ⟨rfl, ?_, bridge.1 hd'.symm, ?_⟩⟩
        · unfold Run.quality; dsimp only
          split <;> simp [hemb]
        · dsimp only; split <;> rfl
      | false =>
        rw [hdv] at hd'
        simp only [Bool.false_eq_true, if_false]
        have hnb : ¬ Better (emb, tmp) X.quality := by rw [← bridge, ← hd']; simp
        have hemb : emb = X.embedded := by
          cases emb <;> cases he : X.embedded <;> simp [he] at hc ⊢
          exact hnb (Or.inl ⟨rfl, he⟩)
        have hb1 : (emb && !X.embedded || decide (tmp.length < X.stats.length) || X.stats.isEmpty) = false := by
          rw [hdv] at hd
          cases hb : (emb && !X.embedded || decide (tmp.length < X.stats.length) || X.stats.isEmpty) with
          | false => rfl
          | true => rw [hb] at hd; simp at hd
        rw [hb1]
        simp only [Bool.false_and, Bool.false_eq_true, if_false]
        refine Post.pure ⟨hs, _, rfl, Or.inr ⟨rfl, ?_, hnb⟩⟩
        have : (X.embedded || emb) = X.embedded := by rw [hemb]; simp
        rw [this]

/-! ### relations kept by every pass -/

/-- Nothing that counts for the outcome differs: the best embedding, its quality, the
number of looks at the clock and the initial embedding. -/
structure Held (X Y : Run) : Prop where
  best : Y.best = X.best
  q : Y.quality = X.quality
  clock : Y.clock = X.clock
  init : Y.init = X.init

theorem Held.trans {X Y Z : Run} (h : Held X Y) (k : Held Y Z) : Held X Z :=
  ⟨k.best.trans h.best, k.q.trans h.q, k.clock.trans h.clock, k.init.trans h.init⟩

/-- A relation between earlier and later states of a run. -/
structure Along (P : Prob) (A : Params) (ρ : Run → Run → Prop) : Prop where
  held : ∀ {X Y}, Held X Y → ρ X Y
  trans : ∀ {X Y Z}, ρ X Y → ρ Y Z → ρ X Z
  check : ∀ X, Post (Run.check P X) (fun r => ρ X r.1)
  stops : ∀ r X, Post (Run.checkStops A r X) (fun s => ρ X s.1)

variable {A : Params} {ρ : Run → Run → Prop} {C : Cfg}

theorem place_held {u : Nat} {X : Run} : Post (Run.place P C u X) (fun r => Held X r.1) := by
  unfold Run.place
  refine Post.bind Post.triv ?_
  intro E _
  split
  · refine Post.bind Post.triv ?_
    rintro ⟨E1, S⟩ _
    exact Post.pure ⟨rfl, rfl, rfl, rfl⟩
  · refine Post.bind Post.triv ?_
    intro E1 _
    refine Post.bind Post.triv ?_
    rintro ⟨E2, S, got⟩ _
    exact Post.pure ⟨rfl, rfl, rfl, rfl⟩

theorem orderBy_held {o : VarOrder} {X : Run} : Post (Run.orderBy P o X) (fun Y => Held X Y) := by
  unfold Run.orderBy
  refine Post.bind Post.triv ?_
  rintro ⟨l, t⟩ _
  exact Post.pure ⟨rfl, rfl, rfl, rfl⟩

theorem Along.from (h : Along P A ρ) {X X' : Run} {α : Type} {m : M (Run × α)} (k : Post m (fun r => ρ X' r.1))
    (hx : Held X X') : Post m (fun r => ρ X r.1) :=
  k.mono (fun _ hr => h.trans (h.held hx) hr)

theorem Along.after (h : Along P A ρ) {X X' Y : Run} (k : ρ X' Y) (hx : Held X X') : ρ X Y :=
  h.trans (h.held hx) k

theorem Along.improveLoop (h : Along P A ρ) {stop : Bool} : ∀ (l : List Nat) {imp : Bool} {X : Run},
    Post (Run.improveLoop P C stop l imp X) (fun r => ρ X r.1)
  | [], imp, X => Post.pure (h.held ⟨rfl, rfl, rfl, rfl⟩)
  | u :: us, imp, X => by
    unfold Run.improveLoop
    refine Post.bind place_held ?_
    rintro ⟨Y, got⟩ hY
    dsimp only at hY ⊢
    split
    · refine Post.bind (h.check Y) ?_
      rintro ⟨Z, b⟩ hZ
      dsimp only at hZ ⊢
      have hXZ : ρ X Z := h.trans (h.held hY) hZ
      split
      · exact Post.pure hXZ
      · exact (h.improveLoop us).mono (fun r k => h.trans hXZ k)
    · exact Post.pure (h.held hY)

theorem Along.initLoop (h : Along P A ρ) : ∀ (l : List Nat) {X : Run},
    Post (Run.initLoop P C l X) (fun r => ρ X r.1)
  | [], X => Post.pure (h.held ⟨rfl, rfl, rfl, rfl⟩)
  | u :: us, X => by
    unfold Run.initLoop
    split
    · exact h.initLoop us
    · refine Post.bind place_held ?_
      rintro ⟨Y, got⟩ hY
      dsimp only at hY ⊢
      split
      · exact h.from (h.initLoop us) hY
      · exact Post.pure (h.held hY)

theorem Along.initPass (h : Along P A ρ) {X : Run} : Post (Run.initPass P C A X) (fun r => ρ X r.1) := by
  unfold Run.initPass
  refine Post.bind orderBy_held ?_
  intro Y hY
  refine Post.bind (h.initLoop _) ?_
  rintro ⟨Z, got⟩ hZ
  dsimp only at hZ ⊢
  have hXZ : ρ X Z := h.trans (h.held hY) hZ
  split
  · exact (h.stops _ _).mono (fun r k => h.trans hXZ k)
  · exact Post.pure hXZ

theorem Along.overfillPass (h : Along P A ρ) {X : Run} : Post (Run.overfillPass P C A X) (fun r => ρ X r.1) := by
  unfold Run.overfillPass
  refine Post.bind orderBy_held ?_
  intro Y hY
  refine Post.bind (h.improveLoop _) ?_
  rintro ⟨Z, imp, ok⟩ hZ
  dsimp only at hZ ⊢
  have hXZ : ρ X Z := h.trans (h.held hY) hZ
  split
  · exact (h.stops _ _).mono (fun r k => h.trans hXZ k)
  · exact Post.pure hXZ

theorem Along.pushLoop (h : Along P A ρ) {old : Int} : ∀ (l : List Nat) {imp : Bool} {X : Run},
    Post (Run.pushLoop P C old l imp X) (fun r => ρ X r.1)
  | [], imp, X => Post.pure (h.held ⟨rfl, rfl, rfl, rfl⟩)
  | u :: us, imp, X => by
    unfold Run.pushLoop
    refine Post.bind (P := fun r => Held X r.1) ?_ ?_
    · split
      · refine Post.bind (P := fun Y => Held X Y) ?_ (fun Y hY => Post.pure hY)
        unfold Run.pushdown1
        refine Post.bind Post.triv ?_
        intro E _
        refine Post.bind Post.triv ?_
        rintro ⟨E1, n⟩ _
        refine Post.bind Post.triv ?_
        rintro ⟨E2, S, got⟩ _
        dsimp only
        split
        · exact Post.pure ⟨rfl, rfl, rfl, rfl⟩
        · refine Post.bind Post.triv ?_
          intro E3 _
          refine Post.bind Post.triv ?_
          intro E4 _
          exact Post.pure ⟨rfl, rfl, rfl, rfl⟩
      · unfold Run.bypass1
        refine Post.bind Post.triv ?_
        intro E _
        refine Post.bind Post.triv ?_
        intro E1 _
        refine Post.bind Post.triv ?_
        rintro ⟨E2, S, got⟩ _
        exact Post.pure ⟨rfl, rfl, rfl, rfl⟩
    rintro ⟨Y, got⟩ hY
    dsimp only at hY ⊢
    split
    · refine Post.bind (h.check Y) ?_
      rintro ⟨Z, b⟩ hZ
      dsimp only at hZ ⊢
      have hXZ : ρ X Z := h.trans (h.held hY) hZ
      split
      · exact Post.pure hXZ
      · exact (h.pushLoop us).mono (fun r k => h.trans hXZ k)
    · exact Post.pure (h.held hY)

theorem Along.pushdownPass (h : Along P A ρ) {X : Run} : Post (Run.pushdownPass P C A X) (fun r => ρ X r.1) := by
  unfold Run.pushdownPass
  refine Post.bind orderBy_held ?_
  intro Y hY
  refine Post.bind (h.pushLoop _) ?_
  rintro ⟨Z, imp, ok⟩ hZ
  dsimp only at hZ ⊢
  have hXZ : ρ X Z := h.trans (h.held hY) hZ
  split
  · split
    · exact (h.stops _ _).mono (fun r k => h.trans hXZ (h.after k (by constructor <;> rfl)))
    · split
      · exact Post.error
      · exact (h.stops _ _).mono (fun r k => h.trans hXZ (h.after k (by constructor <;> rfl)))
  · exact Post.pure hXZ

theorem Along.chainlengthPass (h : Along P A ρ) {X : Run} :
    Post (Run.chainlengthPass P C A X) (fun r => ρ X r.1) := by
  unfold Run.chainlengthPass
  refine Post.bind (P := fun Y => Held X Y) ?_ ?_
  · unfold Run.mixPerms
    split
    · exact Post.error
    · exact Post.pure ⟨rfl, rfl, rfl, rfl⟩
  intro X0 h0
  refine Post.bind orderBy_held ?_
  intro Y hY
  have hY := h0.trans hY
  refine Post.bind (h.improveLoop _) ?_
  rintro ⟨Z, imp, ok⟩ hZ
  dsimp only at hZ ⊢
  have hXZ : ρ X Z := h.trans (h.held hY) hZ
  split
  · exact (h.stops _ _).mono (fun r k => h.trans hXZ k)
  · exact Post.pure hXZ

theorem Along.rounds (h : Along P A ρ) {trial : Nat} : ∀ (r : Nat) {ip : Nat} {X : Run},
    Post (Run.rounds P C A trial r ip X) (fun s => ρ X s.1)
  | 0, ip, X => Post.pure (h.held ⟨rfl, rfl, rfl, rfl⟩)
  | r+1, ip, X => by
    unfold Run.rounds
    split
    · exact Post.pure (h.held ⟨rfl, rfl, rfl, rfl⟩)
    · refine Post.bind (P := fun r => ρ X r.1) ?_ ?_
      · split
        · exact h.from h.pushdownPass ⟨rfl, rfl, rfl, rfl⟩
        · exact h.from h.overfillPass ⟨rfl, rfl, rfl, rfl⟩
      rintro ⟨Y, res⟩ hY
      dsimp only at hY ⊢
      have go : ∀ {ip : Nat} (Z : Run), Held Y Z → Post (Run.rounds P C A trial r ip Z) (fun s => ρ X s.1) := by
        intro ip Z hZ
        exact (h.rounds r).mono (fun s k => h.trans (h.trans hY (h.held hZ)) k)
      cases res
      · exact go _ ⟨rfl, rfl, rfl, rfl⟩
      · exact go _ ⟨rfl, rfl, rfl, rfl⟩
      · exact go _ ⟨rfl, rfl, rfl, rfl⟩
      · exact go _ ⟨rfl, rfl, rfl, rfl⟩

/-- The trials, for a relation that does not mind the restart of a trial. -/
theorem Along.trials (h : Along P A ρ) (hr : ∀ X : Run, ρ X { X with stats := [] }) : ∀ (t : Nat) {X : Run},
    Post (Run.trials P C A t X) (fun Y => ρ X Y)
  | 0, X => Post.pure (h.held ⟨rfl, rfl, rfl, rfl⟩)
  | t+1, X => by
    unfold Run.trials
    split
    · exact Post.pure (h.held ⟨rfl, rfl, rfl, rfl⟩)
    · refine Post.bind (P := fun s => ρ X s.1) ((h.rounds _).mono fun _ k => h.after k (by constructor <;> rfl)) ?_
      rintro ⟨Y, ip⟩ hY
      dsimp only at hY ⊢
      have go : ∀ (Z : Run), ρ X Z → Post (Run.trials P C A t Z) (fun s => ρ X s) :=
        fun Z hZ => (h.trials hr t).mono (fun s k => h.trans hZ k)
      split
      · refine Post.bind (P := fun s => ρ Y s.1) (h.initPass.mono fun _ k => h.after k (by constructor <;> rfl)) ?_
        rintro ⟨Z, res⟩ hZ
        dsimp only at hZ ⊢
        have hXZ : ρ X Z := h.trans hY hZ
        cases res
        · exact go _ (h.trans hXZ (h.held ⟨rfl, rfl, rfl, rfl⟩))
        · exact Post.pure hXZ
        · exact go _ hXZ
        · refine Post.bind (h.check _) ?_
          rintro ⟨W, b⟩ hW
          exact go _ (h.trans (h.trans hXZ (hr Z)) hW)
      · exact go _ hY

theorem Along.shrink (h : Along P A ρ) : ∀ (fuel : Nat) {ip : Nat} {X : Run},
    Post (Run.shrink P C A fuel ip X) (fun Y => ρ X Y)
  | 0, 0, X => Post.pure (h.held ⟨rfl, rfl, rfl, rfl⟩)
  | 0, _+1, X => Post.error
  | fuel+1, 0, X => Post.pure (h.held ⟨rfl, rfl, rfl, rfl⟩)
  | fuel+1, ip+1, X => by
    unfold Run.shrink
    refine Post.bind (P := fun s => ρ X s.1) (h.chainlengthPass.mono fun _ k => h.after k (by constructor <;> rfl)) ?_
    rintro ⟨Y, res⟩ hY
    dsimp only at hY ⊢
    have go : ∀ {ip : Nat} (Z : Run), Held Y Z → Post (Run.shrink P C A fuel ip Z) (fun Y => ρ X Y) := by
      intro ip Z hZ
      exact (h.shrink fuel).mono (fun s k => h.trans (h.trans hY (h.held hZ)) k)
    cases res
    · exact go _ ⟨rfl, rfl, rfl, rfl⟩
    · exact Post.pure hY
    · exact go _ ⟨rfl, rfl, rfl, rfl⟩
    · exact go _ ⟨rfl, rfl, rfl, rfl⟩

/-- A trial phase that starts with a success changes nothing. -/
theorem trials_embedded : ∀ (t : Nat) {X : Run}, X.embedded = true → Run.trials P C A t X = .ok X
  | 0, _, _ => rfl
  | t+1, X, h => by unfold Run.trials; rw [if_pos h]

/-- The best embedding is only replaced by a better one. -/
theorem along_noWorse (P : Prob) (A : Params) : Along P A NoWorse := by
  refine ⟨?_, ?_, ?_, ?_⟩
  · intro X Y h hs
    exact ⟨fun hc => hs ((congrArg Prod.snd h.q).symm.trans hc), Or.inl ⟨h.best, h.q⟩⟩
  · intro X Y Z h k hs
    obtain ⟨h1, h2⟩ := h hs
    obtain ⟨k1, k2⟩ := k h1
    refine ⟨k1, ?_⟩
    rcases h2 with h2 | h2
    · rcases k2 with k2 | k2
      · exact Or.inl ⟨k2.1.trans h2.1, k2.2.trans h2.2⟩
      · right; rw [← h2.2]; exact k2
    · rcases k2 with k2 | k2
      · right; rw [k2.2]; exact h2
      · exact Or.inr (Better.trans k2 h2)
  · intro X r hr hs
    obtain ⟨h1, st, _, h | h⟩ := check_post hs r hr
    · refine ⟨h1, Or.inr ?_⟩
      rw [h.2.1]; exact h.2.2.1
    · refine ⟨h1, Or.inl ?_⟩
      rw [h.2.1]; exact ⟨rfl, rfl⟩
  · intro r X s h hs
    unfold Run.checkStops at h
    dsimp only at h
    split at h
    · split at h
      · cases h; exact ⟨hs, Or.inl ⟨rfl, rfl⟩⟩
      · cases h
    · split at h
      · cases h; exact ⟨hs, Or.inl ⟨rfl, rfl⟩⟩
      · cases h; exact ⟨hs, Or.inl ⟨rfl, rfl⟩⟩

theorem NoWorse.emb {X Y : Run} (h : NoWorse X Y) (hs : X.stats ≠ []) (hX : X.embedded = true) : Y.embedded = true := by
  rcases (h hs).2 with h | h | h
  · exact (congrArg Prod.fst h.2).trans hX
  · exact h.1
  · exact h.1.trans hX

/-- Between `X` and `Y`, no look at the clock showed an interrupt. -/
def Calm (A : Params) (X Y : Run) : Prop :=
  X.clock ≤ Y.clock ∧ ∀ n, X.clock ≤ n → n < Y.clock → (A.stops n).1 = false

theorem check_clock {X : Run} : Post (Run.check P X) (fun r => r.1.clock = X.clock) := by
  unfold Run.check Run.checkImprovement
  refine Post.bind Post.triv ?_
  rintro ⟨emb, tmp⟩ _
  dsimp only
  split
  · exact Post.pure rfl
  · cases tmp.getLast? with
    | none => exact Post.error
    | some m =>
      dsimp only
      split
      · split <;> exact Post.pure rfl
      · split <;> exact Post.pure rfl

theorem along_calm (P : Prob) {A : Params} (hA : A.interactive = false) : Along P A (Calm A) := by
  refine ⟨?_, ?_, ?_, ?_⟩
  · intro X Y h
    exact ⟨by rw [h.clock], fun n h1 h2 => by rw [h.clock] at h2; omega⟩
  · intro X Y Z h k
    refine ⟨Nat.le_trans h.1 k.1, fun n h1 h2 => ?_⟩
    by_cases hn : n < Y.clock
    · exact h.2 n h1 hn
    · exact k.2 n (by omega) h2
  · intro X r hr
    have := check_clock r hr
    exact ⟨by omega, fun n h1 h2 => by omega⟩
  · intro r X s h
    unfold Run.checkStops at h
    dsimp only at h
    have key : (A.stops X.clock).1 = false → Calm A X { X with clock := X.clock + 1 } := by
      intro hf
      refine ⟨by simp, fun n h1 h2 => ?_⟩
      have : n = X.clock := by dsimp only at h2; omega
      rw [this]; exact hf
    split at h
    · rw [hA] at h; simp at h
    · next hs =>
      have hf : (A.stops X.clock).1 = false := by simpa using hs
      split at h
      · cases h; exact key hf
      · cases h; exact key hf

theorem check_init {X : Run} : Post (Run.check P X) (fun r => r.1.init = X.init) := by
  unfold Run.check Run.checkImprovement
  refine Post.bind Post.triv ?_
  rintro ⟨emb, tmp⟩ _
  dsimp only
  split
  · exact Post.pure rfl
  · cases tmp.getLast? with
    | none => exact Post.error
    | some m =>
      dsimp only
      split
      · split <;> exact Post.pure rfl
      · split <;> exact Post.pure rfl

theorem along_init (P : Prob) (A : Params) : Along P A (fun X Y => Y.init = X.init) := by
  refine ⟨fun h => h.init, fun h k => k.trans h, fun X => check_init, ?_⟩
  intro r X s h
  unfold Run.checkStops at h
  dsimp only at h
  split at h
  · split at h
    · cases h; rfl
    · cases h
  · split at h
    · cases h; rfl
    · cases h; rfl

/-- A search leaves the initial embedding alone. -/
theorem heuristicFor_init {fuel : Nat} {X : Run} :
    Post (Run.heuristicFor P C A fuel X) (fun r => r.1.init = X.init) := by
  have al := along_init P A
  unfold Run.heuristicFor
  refine Post.bind (P := fun r => r.1.init = X.init) ?_ ?_
  · unfold Run.start Run.resetMood
    dsimp only
    split
    · split
      · exact Post.pure rfl
      · exact Post.error
    · refine Post.bind (P := fun r => r.1.init = X.init) (al.initPass.mono fun _ k => k) ?_
      rintro ⟨Y, res⟩ hY
      cases res with
      | stopped => exact Post.pure hY
      | failed => exact Post.error
      | same => exact Post.pure hY
      | better => exact Post.pure hY
  rintro ⟨X1, go⟩ h1
  dsimp only at h1 ⊢
  split
  · refine Post.bind (P := fun r => r.1.init = X.init) (check_init.mono fun r k => k.trans h1) ?_
    rintro ⟨X2, b⟩ h2
    dsimp only at h2 ⊢
    refine Post.bind (P := fun Y => Y.init = X.init) ((al.trials (fun _ => rfl) A.tries).mono
      fun Y k => k.trans h2) ?_
    intro X3 h3
    split
    · refine Post.bind (P := fun Y => Y.init = X.init) ((al.shrink fuel).mono
        fun Y k => k.trans h3) ?_
      intro X4 h4
      exact Post.pure h4
    · exact Post.pure h3
  · exact Post.pure h1

end MM
