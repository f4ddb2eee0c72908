import Verif.Core.Run
import Verif.Core.Stats
import Verif.Core.FindShort

/-! Invariant of the master heuristic. -/

namespace MM

open Scratch (Cfg)

/-- An interrupt may propagate to the caller. -/
def Params.Halts (A : Params) : Prop := A.interactive = false ∧ ∃ n, (A.stops n).1 = true

/-- `m` ends normally in a value satisfying `Q`, or with one of the documented exceptions:
the one for interrupts only under the condition `i`, the one for bad initial chains only
under the condition `b`. -/
def Safe (i b : Prop) {α : Type} (m : M α) (Q : α → Prop) : Prop :=
  (∃ a, m = .ok a ∧ Q a) ∨ (b ∧ m = .error .badInit) ∨ (i ∧ m = .error .cancelled)

theorem Ok.safe {i b : Prop} {α : Type} {m : M α} {Q : α → Prop} (h : Ok m Q) : Safe i b m Q := Or.inl h

theorem Safe.pure {i b : Prop} {α : Type} {a : α} {Q : α → Prop} (h : Q a) : Safe i b (.ok a : M α) Q :=
  Or.inl ⟨a, rfl, h⟩

theorem Safe.bind {i b : Prop} {α β : Type} {m : M α} {f : α → M β} {P : α → Prop} {Q : β → Prop}
    (h : Safe i b m P) (hf : ∀ a, P a → Safe i b (f a) Q) : Safe i b (m >>= f) Q := by
  rcases h with ⟨a, rfl, ha⟩ | ⟨hb, rfl⟩ | ⟨hi, rfl⟩
  · exact hf a ha
  · exact Or.inr (Or.inl ⟨hb, rfl⟩)
  · exact Or.inr (Or.inr ⟨hi, rfl⟩)

theorem Safe.mono {i b : Prop} {α : Type} {m : M α} {P Q : α → Prop} (h : Safe i b m P) (hpq : ∀ a, P a → Q a) :
    Safe i b m Q := by
  rcases h with ⟨a, rfl, ha⟩ | h
  · exact Or.inl ⟨a, rfl, hpq a ha⟩
  · exact Or.inr h

/-- The value with the equation it comes from. -/
theorem Safe.kept {i b : Prop} {α : Type} {m : M α} {Q : α → Prop} (h : Safe i b m Q) :
    Safe i b m (fun a => Q a ∧ m = .ok a) := by
  rcases h with ⟨a, rfl, ha⟩ | h
  · exact Or.inl ⟨a, rfl, ha, rfl⟩
  · exact Or.inr h

theorem Safe.weak {i b : Prop} {α : Type} {m : M α} {Q : α → Prop} (h : Safe i False m Q) : Safe i b m Q := by
  rcases h with h | ⟨hb, _⟩ | h
  · exact Or.inl h
  · exact hb.elim
  · exact Or.inr (Or.inr h)

/-- `skip_initialization` is off, or some initial chain is missing or not linked. -/
def Refuses (P : Prob) (A : Params) (X : Run) : Prop := A.skipInit = true → X.init.linked P X.S.vn = false

variable {P : Prob} {R : Nat → Nat → Prop} {E : Emb}

/-! ### linking -/

/-- The variables of `S` are connected and linked to all non-empty neighbours. -/
def Part (P : Prob) (E : Emb) (S : Nat → Prop) : Prop :=
  ∀ u, u < P.nv → S u → E.L u u = true ∧ ∀ v ∈ P.vn u, E.NE v → E.L u v = true

/-- Every free variable has a connected chain linked to all its neighbours. -/
def Full (P : Prob) (E : Emb) : Prop :=
  ∀ u, u < P.nv → E.L u u = true ∧ ∀ v ∈ P.vn u, E.L u v = true

theorem EInv.fixed_NE (wf : P.WF) (h : EInv P R E) {v : Nat} (h1 : P.nv ≤ v) (h2 : v < P.N) :
    E.NE v := by
  obtain ⟨q, l, hq⟩ := List.exists_cons_of_ne_nil (wf.fixed_ne v h1 h2)
  exact ⟨q, (h.fixd v q h1 h2).2 (by rw [hq]; simp)⟩

theorem Full.part (h : Full P E) (S : Nat → Prop) : Part P E S :=
  fun u hu _ => ⟨(h u hu).1, fun v hv _ => (h u hu).2 v hv⟩

theorem Part.full (wf : P.WF) (hE : EInv P R E) (h : Part P E (fun _ => True)) : Full P E := by
  intro u hu
  obtain ⟨h1, h2⟩ := h u hu trivial
  refine ⟨h1, fun v hv => h2 v hv ?_⟩
  by_cases hvn : v < P.nv
  · exact hE.L_ne (by unfold Prob.N; omega) (h v hvn trivial).1
  · exact hE.fixed_NE wf (by omega) (wf.vn_lt u v hu hv)

theorem Part.same {E' : Emb} {S : Nat → Prop} (h : Part P E S) (hs : SameView E E') : Part P E' S := by
  intro u hu hS
  obtain ⟨h1, h2⟩ := h u hu hS
  refine ⟨by rw [hs.links]; exact h1, fun v hv hn => ?_⟩
  rw [hs.links]; exact h2 v hv ((hs.ne v).1 hn)

theorem Full.same {E' : Emb} (h : Full P E) (hs : SameView E E') : Full P E' := by
  intro u hu
  refine ⟨by rw [hs.links]; exact (h u hu).1, fun v hv => by rw [hs.links]; exact (h u hu).2 v hv⟩

theorem Full.kept {E' : Emb} (h : Full P E) (hs : Kept P E E') : Full P E' := by
  intro u hu
  have huN : u < P.N := by unfold Prob.N; omega
  refine ⟨by rw [hs.links _ _ huN]; exact (h u hu).1,
    fun v hv => by rw [hs.links _ _ huN]; exact (h u hu).2 v hv⟩

theorem Part.torn {E' : Emb} {S : Nat → Prop} {u : Nat} (h : Part P E S)
    (ht : TornOut P E E' u) : Part P E' (fun x => S x ∧ x ≠ u) := by
  intro x hx ⟨hS, hxu⟩
  have hxN : x < P.N := by unfold Prob.N; omega
  obtain ⟨h1, h2⟩ := h x hx hS
  refine ⟨by rw [ht.view.links x x hxN]; simp [h1, hxu], fun v hv hn => ?_⟩
  obtain ⟨n1, n2⟩ := (ht.view.ne v).1 hn
  rw [ht.view.links x v hxN]
  simp [h2 v hv n1, hxu, n2]

theorem Part.rebuilt (wf : P.WF) (hE : EInv P R E) {E' : Emb} {S : Nat → Prop} {u : Nat}
    (hu : u < P.nv) (h : Part P E (fun x => S x ∧ x ≠ u)) (hr : Rebuilt P E E' u) :
    Part P E' (fun x => S x ∨ x = u) := by
  have huN : u < P.N := by unfold Prob.N; omega
  intro x hx hS
  have hxN : x < P.N := by unfold Prob.N; omega
  by_cases hxu : x = u
  · subst hxu
    refine ⟨(hr.links x x hxN).2 (by simp), fun v hv hn => (hr.links x v hxN).2 ?_⟩
    rw [if_pos rfl]
    have hvx : v ≠ x := by rintro rfl; exact wf.vn_irr v hx hv
    rcases (hr.ne v).1 hn with h' | h'
    · exact Or.inr ⟨hv, h'⟩
    · exact absurd h' hvx
  · have hSx : S x := by
      rcases hS with h' | h'
      · exact h'
      · exact absurd h' hxu
    obtain ⟨h1, h2⟩ := h x hx ⟨hSx, hxu⟩
    refine ⟨(hr.links x x hxN).2 (by simpa [hxu] using h1), fun v hv hn => (hr.links x v hxN).2 ?_⟩
    rw [if_neg hxu]
    by_cases hvu : v = u
    · subst hvu
      rw [if_pos rfl]
      exact ⟨wf.vn_symm x v hx hu hv, hE.L_ne hxN h1⟩
    · rw [if_neg hvu]
      rcases (hr.ne v).1 hn with h' | h'
      · exact h2 v hv h'
      · exact absurd h' hvu

theorem Full.rebuilt (wf : P.WF) (hE : EInv P R E) {E' : Emb} (hE' : EInv P R E') {u : Nat}
    (hu : u < P.nv) (h : Full P E) (hr : Rebuilt P E E' u) : Full P E' := by
  refine Part.full wf hE' ?_
  have := Part.rebuilt (S := fun _ => True) wf hE hu (h.part _) hr
  intro x hx _
  exact this x hx (Or.inl trivial)

/-! ### the order of histograms -/

/-- The decision of `check_improvement`. -/
def betterB (e1 : Bool) (l1 : List Nat) (e2 : Bool) (l2 : List Nat) : Bool :=
  (e1 && !e2) || (decide (e1 = e2) && (l2.isEmpty || decide (l1.length < l2.length) ||
    (decide (l1.length = l2.length) && Run.lessDown l1.reverse l2.reverse)))

/-- Base `B` value of a list of digits, most significant first. -/
def valBE (B : Nat) : List Nat → Nat
  | [] => 0
  | a :: l => a * B ^ l.length + valBE B l

theorem valBE_lt {B : Nat} : ∀ {l : List Nat}, (∀ x ∈ l, x < B) → valBE B l < B ^ l.length
  | [], _ => by simp [valBE]
  | a :: l, h => by
    have h1 := valBE_lt (l := l) (fun x hx => h x (by simp [hx]))
    have h2 := h a (by simp)
    unfold valBE
    rw [List.length_cons, Nat.pow_succ, Nat.mul_comm (B ^ l.length)]
    have : (a + 1) * B ^ l.length ≤ B * B ^ l.length := Nat.mul_le_mul_right _ h2
    rw [Nat.add_mul, Nat.one_mul] at this
    omega

theorem lessDown_val {B : Nat} : ∀ {a b : List Nat}, (∀ x ∈ a, x < B) → a.length = b.length →
    Run.lessDown a b = true → valBE B a < valBE B b
  | [], [], _, _, h => by simp [Run.lessDown] at h
  | [], _ :: _, _, hl, _ => by simp at hl
  | _ :: _, [], _, hl, _ => by simp at hl
  | x :: a, y :: b, ha, hl, h => by
    have hl' : a.length = b.length := by simpa using hl
    unfold Run.lessDown at h
    unfold valBE
    split at h
    · next hxy =>
      subst hxy
      have := lessDown_val (B := B) (fun z hz => ha z (by simp [hz])) hl' h
      rw [hl']; omega
    · have hlt : x < y := by simpa using h
      have h1 := valBE_lt (l := a) (fun z hz => ha z (by simp [hz]))
      have h2 : (x + 1) * B ^ b.length ≤ y * B ^ b.length := Nat.mul_le_mul_right _ hlt
      rw [Nat.add_mul, Nat.one_mul] at h2
      rw [hl'] at h1 ⊢
      omega

theorem lessDown_split {a b : List Nat} {x y : Nat} (ha : a.getLast? = some x)
    (hb : b.getLast? = some y) :
    Run.lessDown a.reverse b.reverse =
      (decide (x < y) || (decide (x = y) && Run.lessDown a.reverse b.reverse)) := by
  rw [← List.head?_reverse] at ha hb
  generalize a.reverse = a' at *
  generalize b.reverse = b' at *
  cases a' with
  | nil => simp at ha
  | cons u a' =>
    cases b' with
    | nil => simp at hb
    | cons v b' =>
      simp at ha hb
      subst ha; subst hb
      unfold Run.lessDown
      by_cases h : u = v
      · subst h; simp
      · simp [h]

/-- Size measure of a histogram of chain lengths. -/
def histVal (P : Prob) (l : List Nat) : Nat := valBE (P.nv + 1) l.reverse

/-! ### state -/

/-- Exact fills and right labels. -/
def Base (P : Prob) (E : Emb) : Prop := E.Exact P ∧ ∀ v, v < P.N → (E.chains v).label = v

theorem EInv.base (h : EInv P R E) : Base P E := ⟨h.exact, h.lab⟩

/-- What always holds between steps. -/
structure RI (P : Prob) (R : Nat → Nat → Prop) (X : Run) : Prop where
  vn : VnOK P X.S
  init : X.init.Shape P R
  curr : EInv P R X.curr
  best : Base P X.best
  last : Base P X.last
  ord : ∀ u ∈ X.order, u < P.nv

/-- The best embedding is complete and `stats` describes it. -/
structure BestOK (P : Prob) (R : Nat → Nat → Prop) (X : Run) : Prop where
  inv : EInv P R X.best
  full : Full P X.best
  st : StatsOK P X.best (X.embedded, X.stats)

/-- Unchanged by `check`. -/
structure Frame (X X' : Run) : Prop where
  curr : X'.curr = X.curr
  init : X'.init = X.init
  last : X'.last = X.last
  S : X'.S = X.S
  order : X'.order = X.order
  pushback : X'.pushback = X.pushback
  wb : X'.wb = X.wb
  desperate : X'.desperate = X.desperate
  improved : X'.improved = X.improved

theorem StatsOK.ne_nil {r : Bool × List Nat} (h : StatsOK P E r) : r.2 ≠ [] := by
  cases hb : r.1 with
  | true => exact (h.lens hb).2.1
  | false => exact (h.over hb).2.1

theorem StatsOK.congr {E' : Emb} {r : Bool × List Nat} (h : StatsOK P E r)
    (hc : ∀ v, v < P.N → E'.chains v = E.chains v) : StatsOK P E' r := by
  have hfill : E'.fill P = E.fill P := by
    funext q; unfold Emb.fill; exact cnt_congr (fun v hv => by rw [hc v hv])
  have hsz : ∀ v, v < P.nv → E'.chainsize P v = E.chainsize P v := by
    intro v hv; unfold Emb.chainsize; rw [hc v (by unfold Prob.N; omega)]
  refine ⟨by rw [hfill]; exact h.flag, fun hb => by rw [hfill]; exact h.over hb, fun hb => ?_⟩
  obtain ⟨h1, h2, h3, h4⟩ := h.lens hb
  refine ⟨⟨fun q hq => by rw [hsz q hq]; exact h1.le q hq, ?_⟩, h2, ?_, h4⟩
  · intro k c hk
    rw [h1.entry k c hk]
    exact cnt_congr (fun q hq => by rw [hsz q hq])
  · intro h0
    obtain ⟨v, hv, h5⟩ := h3 h0
    exact ⟨v, hv, by rw [hsz v hv]; exact h5⟩

theorem Full.congr (wf : P.WF) {E' : Emb} (h : Full P E) (hc : ∀ v, v < P.N → E'.chains v = E.chains v) :
    Full P E' := by
  intro u hu
  have := hc u (by unfold Prob.N; omega)
  unfold Emb.L
  rw [this]; exact h u hu

theorem StatsOK.digits {r : Bool × List Nat} (h : StatsOK P E r) (hb : r.1 = true) :
    (∀ x ∈ r.2, x < P.nv + 1) ∧ r.2.length ≤ P.Q + 1 ∧
    (0 < P.nv → ∀ x, r.2.getLast? = some x → 0 < x) ∧ (P.nv = 0 → r.2.length = 1) := by
  obtain ⟨h1, h2, h3, h4⟩ := h.lens hb
  refine ⟨?_, ?_, ?_, h4⟩
  · intro x hx
    obtain ⟨k, hk⟩ := List.getElem?_of_mem hx
    rw [h1.entry k x hk]
    exact Nat.lt_succ_of_le cnt_le
  · by_cases h0 : P.nv = 0
    · rw [h4 h0]; omega
    · obtain ⟨v, hv, h5⟩ := h3 (by omega)
      have : E.chainsize P v ≤ P.Q := cnt_le
      omega
  · intro h0 x hx
    obtain ⟨v, hv, h5⟩ := h3 h0
    rw [List.getLast?_eq_getElem?] at hx
    rw [h1.entry _ x hx]
    refine cnt_pos hv ?_
    simp; omega

theorem better_val {E E' : Emb} {l l' : List Nat} (h : StatsOK P E (true, l))
    (h' : StatsOK P E' (true, l')) (hb : betterB true l true l' = true) :
    histVal P l < histVal P l' := by
  obtain ⟨d1, d2, d3, d4⟩ := h.digits rfl
  obtain ⟨e1, e2, e3, e4⟩ := h'.digits rfl
  dsimp only at *
  have hne : l'.isEmpty = false := by
    have := h'.ne_nil
    simpa using this
  have hdig : ∀ x ∈ l.reverse, x < P.nv + 1 := fun x hx => d1 x (by simpa using hx)
  simp only [betterB, Bool.not_true, Bool.and_false, decide_true, Bool.true_and, hne, Bool.false_or,
    Bool.or_eq_true, decide_eq_true_eq, Bool.and_eq_true] at hb
  unfold histVal
  rcases hb with hb | ⟨hb1, hb2⟩
  · have hnv : 0 < P.nv := by
      by_contra hc
      have a := d4 (by omega)
      have b := e4 (by omega)
      omega
    have h1 := valBE_lt hdig
    rw [List.length_reverse] at h1
    have h2 : (P.nv + 1) ^ l.length ≤ valBE (P.nv + 1) l'.reverse := by
      cases hr : l'.reverse with
      | nil =>
        have := congrArg List.length hr
        simp at this
        rw [this] at hne; simp at hne
      | cons a as =>
        have ha : l'.getLast? = some a := by rw [← List.head?_reverse, hr]; rfl
        have hp := e3 hnv a ha
        have hlen : as.length + 1 = l'.length := by
          have := congrArg List.length hr
          simpa using this.symm
        unfold valBE
        have h3 : (P.nv + 1) ^ l.length ≤ (P.nv + 1) ^ as.length :=
          Nat.pow_le_pow_right (by omega) (by omega)
        have h4 : 1 * (P.nv + 1) ^ as.length ≤ a * (P.nv + 1) ^ as.length :=
          Nat.mul_le_mul_right _ hp
        omega
    omega
  · exact lessDown_val hdig (by simpa using hb1) hb2

theorem histVal_lt {E : Emb} {l : List Nat} (h : StatsOK P E (true, l)) :
    histVal P l < (P.nv + 1) ^ (P.Q + 2) := by
  obtain ⟨d1, d2, _, _⟩ := h.digits rfl
  dsimp only at *
  have h1 := valBE_lt (B := P.nv + 1) (l := l.reverse) (fun x hx => d1 x (by simpa using hx))
  rw [List.length_reverse] at h1
  have h2 : (P.nv + 1) ^ l.length ≤ (P.nv + 1) ^ (P.Q + 2) :=
    Nat.pow_le_pow_right (by omega) (by omega)
  unfold histVal
  omega

/-- Effect of `check`: the candidate's statistics `st` and the decision. -/
structure Checked (P : Prob) (X : Run) (r : Run × Bool) (st : Bool × List Nat) : Prop where
  ok : StatsOK P X.curr st
  dec : r.2 = betterB st.1 st.2 X.embedded X.stats
  yes : r.2 = true → r.1.embedded = st.1 ∧ r.1.stats = st.2 ∧
    ∀ v, v < P.N → r.1.best.chains v = X.curr.chains v
  no : r.2 = false → r.1 = X

theorem check_spec (wf : P.WF) {X : Run} (h : RI P R X) (hf : Full P X.curr)
    (hb : BestOK P R X ∨ X.stats = [] ∧ X.embedded = false) :
    Ok (Run.check P X) (fun r => RI P R r.1 ∧ BestOK P R r.1 ∧ Frame X r.1 ∧
      ∃ st, Checked P X r st) := by
  unfold Run.check Run.checkImprovement
  refine Ok.bind (statistics_spec h.curr.exact) ?_
  rintro ⟨emb, tmp⟩ hst
  dsimp only
  by_cases hc : (X.embedded && !emb) = true
  · rw [if_pos hc]
    simp only [Bool.and_eq_true, Bool.not_eq_true'] at hc
    have hbest : BestOK P R X := by
      rcases hb with h | ⟨_, h⟩
      · exact h
      · rw [h] at hc; simp at hc
    refine Ok.pure ⟨h, hbest, ⟨rfl, rfl, rfl, rfl, rfl, rfl, rfl, rfl, rfl⟩, (emb, tmp), hst, ?_, by simp, fun _ => rfl⟩
    simp [betterB, hc.1, hc.2]
  rw [if_neg hc]
  have hne : tmp ≠ [] := hst.ne_nil
  cases hl : tmp.getLast? with
  | none => simp [List.getLast?_eq_none_iff] at hl; exact absurd hl hne
  | some m =>
    dsimp only
    have hcopy := EInv.copy h.best.1 h.best.2 h.curr.toShape
    -- the decision
    obtain ⟨d, hd⟩ : ∃ d, d = (((emb && !X.embedded || decide (tmp.length < X.stats.length) ||
        X.stats.isEmpty) || (decide (tmp.length = X.stats.length) &&
        decide (0 < Run.minorDiff X.stats m))) ||
        (decide (tmp.length = X.stats.length) && decide (Run.minorDiff X.stats m = 0) &&
        Run.lessDown tmp.reverse X.stats.reverse)) := ⟨_, rfl⟩
    have hd' : d = betterB emb tmp X.embedded X.stats := by
      rw [hd]
      unfold Run.minorDiff
      cases hs : X.stats.getLast? with
      | none =>
        rw [List.getLast?_eq_none_iff] at hs
        rw [hs]
        cases emb <;> cases he : X.embedded <;> simp [betterB, he] at hc ⊢
      | some y =>
        have hsne : X.stats.isEmpty = false := by
          cases hx : X.stats with
          | nil => rw [hx] at hs; simp at hs
          | cons a l => rfl
        have key := lessDown_split hl hs
        have hcases : emb = X.embedded ∨ (emb = true ∧ X.embedded = false) := by
          cases emb <;> cases he : X.embedded <;> simp [he] at hc ⊢
        rcases hcases with he | ⟨he1, he2⟩
        · simp only [betterB, he, hsne]
          rw [key]
          have e1 : decide ((0:Int) < (y:Int) - m) = decide (m < y) := by
            simp only [decide_eq_decide]; omega
          have e2 : decide ((y:Int) - m = 0) = decide (m = y) := by
            simp only [decide_eq_decide]; omega
          rw [e1, e2]
          cases X.embedded <;> cases decide (tmp.length < X.stats.length) <;>
            cases decide (tmp.length = X.stats.length) <;> cases decide (m < y) <;>
            cases decide (m = y) <;> cases Run.lessDown tmp.reverse X.stats.reverse <;> rfl
        · simp [betterB, he1, he2]
    simp only [apply_ite Run.stats]
    simp only [ite_self]
    rw [← hd]
    cases hdv : d with
    | true =>
      rw [hdv] at hd'
      rw [if_pos rfl]
      have hemb : (X.embedded || emb) = emb := by
        cases emb <;> cases he : X.embedded <;> simp [he] at hc ⊢
      refine Ok.pure ⟨?_, ?_, ?_, (emb, tmp), hst, hd', ?_, by simp⟩
      · refine ⟨?_, ?_, ?_, ?_, ?_, ?_⟩
        · split <;> exact h.vn
        · split <;> exact h.init
        · split <;> exact h.curr
        · dsimp only
          have : ∀ Y : Run, Y.best = X.best → Base P (Emb.copy P Y.best X.curr) := by
            intro Y hY; rw [hY]; exact hcopy.1.base
          split <;> exact this _ rfl
        · split <;> exact h.last
        · split <;> exact h.ord
      · have hg : ∀ Y : Run, Y.best = X.best → Y.embedded = (X.embedded || emb) →
            BestOK P R { Y with best := Emb.copy P Y.best X.curr, stats := tmp } := by
          intro Y hY hYe
          refine ⟨?_, ?_, ?_⟩
          · dsimp only; rw [hY]; exact hcopy.1
          · dsimp only; rw [hY]; exact hf.congr wf hcopy.2
          · dsimp only; rw [hY, hYe, hemb]; exact hst.congr hcopy.2
        split <;> exact hg _ rfl rfl
      · constructor <;> split <;> rfl
      · intro _
        dsimp only
        refine ⟨?_, rfl, ?_⟩
        · split <;> exact hemb
        · have hg : ∀ Y : Run, Y.best = X.best → ∀ v, v < P.N →
              (Emb.copy P Y.best X.curr).chains v = X.curr.chains v := by
            intro Y hY; rw [hY]; exact hcopy.2
          split <;> exact hg _ rfl
    | false =>
      rw [hdv] at hd hd'
      rw [if_neg (by simp)]
      have hfirst : (emb && !X.embedded || decide (tmp.length < X.stats.length) || X.stats.isEmpty) = false := by
        revert hd
        cases (emb && !X.embedded || decide (tmp.length < X.stats.length) || X.stats.isEmpty) <;> simp
      have hemb : (X.embedded || emb) = X.embedded := by
        revert hfirst
        cases emb <;> cases he : X.embedded <;> simp [he] at hc ⊢
      have hX : { X with embedded := X.embedded || emb } = X := by rw [hemb]
      have hbest : BestOK P R X := by
        rcases hb with h | ⟨h, _⟩
        · exact h
        · rw [h] at hfirst; simp at hfirst
      rw [hfirst]
      simp only [Bool.false_and, Bool.false_eq_true, if_false, hX]
      exact Ok.pure ⟨h, hbest, ⟨rfl, rfl, rfl, rfl, rfl, rfl, rfl, rfl, rfl⟩, (emb, tmp), hst, hd', by simp, fun _ => rfl⟩

end MM
