import Verif.Core.RunPost

/-! How many chains share a qubit during a run of the heuristic. -/

namespace MM

open Scratch (Cfg)

variable {P : Prob} {R : Nat → Nat → Prop} {C : Cfg} {A : Params} {B : Int}

theorem Post.of_ok {α : Type} {m : M α} {Q : α → Prop} (h : Ok m Q) : Post m Q := by
  obtain ⟨a, rfl, ha⟩ := h
  exact Post.pure ha

theorem Post.and {α : Type} {m : M α} {Q Q' : α → Prop} (h : Post m Q) (k : Post m Q') :
    Post m (fun a => Q a ∧ Q' a) := fun a ha => ⟨h a ha, k a ha⟩

/-- No free qubit is in more than `B` chains. -/
def Few (P : Prob) (B : Int) (E : Emb) : Prop :=
  ∀ q, q < P.nq → (cnt (fun v => (E.chains v).has q) P.N : Int) ≤ B

/-- The free variables have no fixed neighbours. -/
def Prob.Apart (P : Prob) : Prop := ∀ u, u < P.nv → ∀ v ∈ P.vn u, P.fixed v = false

theorem EInv.few_iff {E : Emb} (h : E.Exact P) : Few P B E ↔ ∀ q, q < P.nq → E.w q ≤ B := by
  unfold Few
  constructor <;> intro k q hq <;> have := k q hq <;> have e := h q
  · rw [e]; exact this
  · rw [e] at this; exact this

theorem Few.congr {E E' : Emb} (h : Few P B E) (he : ∀ v, v < P.N → E'.chains v = E.chains v) : Few P B E' := by
  intro q hq
  rw [cnt_congr (p' := fun v => (E.chains v).has q) (fun v hv => by rw [he v hv])]
  exact h q hq

theorem Few.of_w {E E' : Emb} (hE : E.Exact P) (hE' : E'.Exact P) (h : Few P B E)
    (hw : ∀ q, q < P.nq → E'.w q ≤ B ∨ E'.w q ≤ E.w q) : Few P B E' := by
  rw [EInv.few_iff hE']
  intro q hq
  have := (EInv.few_iff hE).1 h q hq
  rcases hw q hq with k | k <;> omega

/-- The embeddings of a run, and its bound. -/
structure FB (P : Prob) (B : Int) (X : Run) : Prop where
  wb : X.wb ≤ B
  curr : Few P B X.curr
  best : Few P B X.best
  init : Few P B X.init

theorem FB.set {X : Run} (h : FB P B X) {E : Emb} {S : Scratch} (hE : Few P B E) :
    FB P B { X with curr := E, S := S } := ⟨h.wb, hE, h.best, h.init⟩

theorem FB.flags {X X' : Run} (h : FB P B X) (h0 : X'.wb = X.wb) (h1 : X'.best = X.best)
    (h3 : X'.curr = X.curr) (h4 : X'.init = X.init) : FB P B X' := by
  refine ⟨?_, ?_, ?_, ?_⟩
  · rw [h0]; exact h.wb
  · rw [h3]; exact h.curr
  · rw [h1]; exact h.best
  · rw [h4]; exact h.init

theorem FB.restore {X : Run} (hg : Good P R X) (h : FB P B X) :
    FB P B { X with curr := Emb.copy P X.curr X.best } :=
  ⟨h.wb, h.best.congr (EInv.copy hg.ri.curr.exact hg.ri.curr.lab hg.best.inv.toShape).2, h.best, h.init⟩

theorem place_fill (wf : P.WF) (hR : Dom P R) (he : P.Even) (ha : P.Apart) (hB : 1 ≤ B) {u : Nat} (hu : u < P.nv)
    {X : Run} (h : RI P R X) (hf : X.embedded = true → Full P X.curr) (hb : FB P B X) :
    Post (Run.place P C u X) (fun r => FB P B r.1) := by
  unfold Run.place
  refine Post.bind (P := fun E => EInv P R E ∧ Few P B E ∧ (X.embedded = true → Full P E)) ?_ ?_
  · split
    · refine Post.of_ok ((h.curr.stealAll_full wf hR hu (fun v hv => (h.vn u hu).mem_iff.1 hv)).mono ?_)
      rintro E ⟨h1, h2, h3⟩
      exact ⟨h1, hb.curr.of_w h.curr.exact h1.exact fun q _ => Or.inr (h3.w q), fun k => (hf k).same h2⟩
    · exact Post.pure ⟨h.curr, hb.curr, hf⟩
  rintro E1 ⟨h1, h2, h3⟩
  split
  · next hX =>
    have hf1 := h3 hX
    refine Post.bind (Post.of_ok (findShort_full wf hR he hu h1 h.vn (fun v hv _ => (hf1 u hu).2 v hv))) ?_
    rintro ⟨E2, S2⟩ ⟨_, k2, _, k4, _⟩
    refine Post.pure (hb.set (h2.of_w h1.exact k2.exact fun q _ => ?_))
    have := k4 q
    dsimp only at this ⊢
    omega
  · refine Post.bind (Post.of_ok (h1.tearOut wf hu (fun v => (h.vn u hu).mem_iff))) ?_
    rintro E2 ⟨k1, k2⟩
    have hE2 : Few P B E2 := h2.of_w h1.exact k1.exact fun q _ => by
      have := k2.w q
      have := ind_nonneg ((E1.chains u).has q)
      omega
    refine Post.bind (Post.of_ok (findChain_full wf hR he hu k1 k2.own (torn_no k2) h.vn)) ?_
    rintro ⟨E3, S3, got⟩ ⟨_, l2, l3, l4, _⟩
    refine Post.pure (hb.set ?_)
    dsimp only at *
    cases got with
    | false => rw [l2 rfl]; exact hE2
    | true =>
      refine hE2.of_w k1.exact (l3 rfl).1.exact fun q _ => ?_
      have := l4 (ha u hu) q
      have := hb.wb
      omega

theorem orderBy_fill {o : VarOrder} {X : Run} (h : FB P B X) : Post (Run.orderBy P o X) (FB P B) := by
  unfold Run.orderBy
  refine Post.bind Post.triv ?_
  rintro ⟨l, t⟩ _
  exact Post.pure (h.flags rfl rfl rfl rfl)

theorem checkStops_fill {r : Pass} {X : Run} (h : FB P B X) : Post (Run.checkStops A r X) (fun s => FB P B s.1) := by
  have h' : FB P B { X with clock := X.clock + 1 } := h.flags rfl rfl rfl rfl
  unfold Run.checkStops
  dsimp only
  split
  · split
    · exact Post.pure h'
    · exact Post.error
  · split
    · exact Post.pure h'
    · exact Post.pure h'

theorem check_fill (wf : P.WF) {X : Run} (h : RI P R X) (hf : Full P X.curr)
    (hs : BestOK P R X ∨ X.stats = [] ∧ X.embedded = false) (hb : FB P B X) :
    Post (Run.check P X) (fun r => FB P B r.1) := by
  refine Post.of_ok ((check_spec wf h hf hs).mono ?_)
  rintro ⟨Y, b⟩ ⟨_, _, k3, st, k4⟩
  dsimp only at *
  refine ⟨by rw [k3.wb]; exact hb.wb, by rw [k3.curr]; exact hb.curr, ?_, by rw [k3.init]; exact hb.init⟩
  cases b with
  | true => exact hb.curr.congr (k4.yes rfl).2.2
  | false => have := k4.no rfl; dsimp only at this; rw [this]; exact hb.best

theorem initLoop_fill (wf : P.WF) (hR : Dom P R) (he : P.Even) (ha : P.Apart) (hB : 1 ≤ B) :
    ∀ (l : List Nat) {X : Run}, RI P R X → X.embedded = false → (∀ u ∈ l, u < P.nv) → FB P B X →
    Post (Run.initLoop P C l X) (fun r => FB P B r.1)
  | [], X, _, _, _, hb => Post.pure hb
  | u :: us, X, h, hX, hl, hb => by
    have hu := hl u (by simp)
    have hl' : ∀ x ∈ us, x < P.nv := fun x hx => hl x (by simp [hx])
    unfold Run.initLoop
    split
    · exact initLoop_fill wf hR he ha hB us h hX hl' hb
    · refine Post.bind ((Post.of_ok (place_free wf hR he hu h hX (T := fun _ => False) (fun _ _ h => h.elim))).and
        (place_fill wf hR he ha hB hu h (fun k => by rw [hX] at k; simp at k) hb)) ?_
      rintro ⟨Y, got⟩ ⟨⟨h1, h2, _⟩, hb1⟩
      dsimp only at *
      split
      · exact initLoop_fill wf hR he ha hB us h1 (by rw [h2]; exact hX) hl' hb1
      · exact Post.pure hb1

theorem initPass_fill (wf : P.WF) (hR : Dom P R) (he : P.Even) (ha : P.Apart) (hB : 1 ≤ B) {X : Run}
    (h : RI P R X) (hX : X.embedded = false) (hb : FB P B X) :
    Post (Run.initPass P C A X) (fun r => FB P B r.1) := by
  unfold Run.initPass
  refine Post.bind ((Post.of_ok (orderBy_spec wf h)).and (orderBy_fill hb)) ?_
  rintro X1 ⟨⟨h1, ⟨l, t, hX1⟩, _⟩, hb1⟩
  refine Post.bind (initLoop_fill wf hR he ha hB X1.order h1 (by rw [hX1]; exact hX) h1.ord hb1) ?_
  rintro ⟨X2, got⟩ hb2
  dsimp only at *
  split
  · exact checkStops_fill hb2
  · exact Post.pure hb2

theorem improveLoop_fill (wf : P.WF) (hR : Dom P R) (he : P.Even) (ha : P.Apart) (hB : 1 ≤ B) {stop : Bool} :
    ∀ (l : List Nat) {imp : Bool} {X : Run}, Good P R X → Full P X.curr → (∀ u ∈ l, u < P.nv) → FB P B X →
    Post (Run.improveLoop P C stop l imp X) (fun r => FB P B r.1)
  | [], imp, X, _, _, _, hb => Post.pure hb
  | u :: us, imp, X, h, hf, hl, hb => by
    have hu := hl u (by simp)
    have hl' : ∀ x ∈ us, x < P.nv := fun x hx => hl x (by simp [hx])
    unfold Run.improveLoop
    refine Post.bind ((Post.of_ok (place_full wf hR he hu h.ri hf)).and
      (place_fill wf hR he ha hB hu h.ri (fun _ => hf) hb)) ?_
    rintro ⟨X1, got⟩ ⟨⟨h1, h2, h3, _⟩, hb1⟩
    dsimp only at *
    split
    · next hg =>
      have hbo := h.best.moved h2
      refine Post.bind ((Post.of_ok (check_gain wf h1 (h3 hg) hbo)).and
        (check_fill wf h1 (h3 hg) (Or.inl hbo) hb1)) ?_
      rintro ⟨X2, b⟩ ⟨⟨k1, k2, k3, _⟩, hb2⟩
      dsimp only at *
      split
      · exact Post.pure hb2
      · exact improveLoop_fill wf hR he ha hB us ⟨k1, k2⟩ (by rw [k3.curr]; exact h3 hg) hl' hb2
    · exact Post.pure hb1

theorem overfillPass_fill (wf : P.WF) (hR : Dom P R) (he : P.Even) (ha : P.Apart) (hB : 1 ≤ B) {X : Run}
    (h : Good P R X) (hf : Full P X.curr) (hb : FB P B X) :
    Post (Run.overfillPass P C A X) (fun r => FB P B r.1) := by
  unfold Run.overfillPass
  refine Post.bind ((Post.of_ok (orderBy_spec wf h.ri)).and (orderBy_fill hb)) ?_
  rintro X1 ⟨⟨h1, ⟨l, t, hX1⟩, _⟩, hb1⟩
  have hm1 : Moved' X X1 := by rw [hX1]; rfl
  refine Post.bind (improveLoop_fill wf hR he ha hB X1.order ⟨h1, h.best.moved' hm1⟩
    (by rw [hX1]; exact hf) h1.ord hb1) ?_
  rintro ⟨X2, imp, ok⟩ hb2
  dsimp only at *
  split
  · exact checkStops_fill hb2
  · exact Post.pure hb2

theorem maxfill_le {E : Emb} (hB : 0 ≤ B) {u : Nat} (hd : ∀ q, (E.chains u).has q = true → E.w q ≤ B) :
    Run.maxfill P E u ≤ B := by
  unfold Run.maxfill
  have : ∀ (l : List Nat) (m : Int), m ≤ B → (∀ q ∈ l, E.w q ≤ B) → l.foldl (fun m q => max m (E.w q)) m ≤ B := by
    intro l
    induction l with
    | nil => intro m hm _; exact hm
    | cons a l ih =>
      intro m hm hl
      exact ih _ (by have := hl a (by simp); dsimp only; omega) fun q hq => hl q (by simp [hq])
  refine this _ 0 hB fun q hq => hd q ?_
  unfold Chain.keys at hq
  simp at hq
  exact hq.2

theorem pushdown1_fill (wf : P.WF) (hR : Dom P R) (he : P.Even) (ha : P.Apart) (hB : 1 ≤ B) {u : Nat} (hu : u < P.nv)
    {X : Run} (h : RI P R X) (hf : Full P X.curr) (hb : FB P B X) :
    Post (Run.pushdown1 P C u X) (FB P B) := by
  have huN : u < P.N := by unfold Prob.N; omega
  unfold Run.pushdown1
  refine Post.bind (Post.of_ok (h.curr.stealAll_full wf hR hu (fun v hv => (h.vn u hu).mem_iff.1 hv))) ?_
  rintro E1 ⟨h1, h2, h2'⟩
  have hf1 := hf.same h2
  have hE1 : Few P B E1 := hb.curr.of_w h.curr.exact h1.exact fun q _ => Or.inr (h2'.w q)
  have hmf : Run.maxfill P E1 u ≤ B := maxfill_le (by omega) fun q hq =>
    (EInv.few_iff h1.exact).1 hE1 q (hR.lt u q hu (h1.dom u q hu hq))
  refine Post.bind (Post.of_ok (h1.freezeOut wf hu)) ?_
  rintro ⟨E2, n⟩ ⟨f1, f2, f3, f4, f5, _⟩
  dsimp only at *
  have hE2 : Few P B E2 := hE1.of_w h1.exact f1.exact fun q _ => by
    have := f2.w q
    have := ind_nonneg ((E1.chains u).has q)
    omega
  refine Post.bind (Post.of_ok (findChain_full wf hR he hu f1 f2.own (torn_no f2) h.vn)) ?_
  rintro ⟨E3, S3, got⟩ ⟨g1, g2, g3, g4, _⟩
  dsimp only at *
  cases got with
  | true =>
    simp only [if_true]
    refine Post.pure ⟨hmf, ?_, hb.best, hb.init⟩
    refine hE2.of_w f1.exact (g3 rfl).1.exact fun q _ => ?_
    rcases le_max_iff.1 (g4 (ha u hu) q) with k | k
    · exact Or.inr k
    · exact Or.inl (k.trans hmf)
  | false =>
    simp only [Bool.false_eq_true, if_false]
    rw [g2 rfl]
    refine Post.bind (Post.of_ok (f1.thawBack wf hu f2.own (torn_no f2) f3)) ?_
    rintro E4 ⟨k1, k2⟩
    have hhas : ∀ v, v < P.N → ∀ q, (E4.chains v).has q = (E1.chains v).has q := by
      intro v hv q
      by_cases hvu : v = u
      · subst hvu
        rw [k2.own]
        simp only [Chain.has, f4]
      · rw [Chain.has_congr (k2.par v hvu), Chain.has_congr (f2.par v hvu)]
    have hE4 : Few P B E4 := by
      intro q hq
      rw [cnt_congr (p' := fun v => (E1.chains v).has q) (fun v hv => hhas v hv q)]
      exact hE1 q hq
    have hk : Kept P E1 E4 := by
      constructor
      · intro x y hx
        rw [k2.view x y hx]
        by_cases hxu : x = u
        · subst hxu; simp only [if_true, f5]; rfl
        · simp only [hxu, if_false]
          by_cases hyu : y = u
          · subst hyu
            simp only [if_true, f5]
            exact h1.L_symm huN hx
          · simp only [hyu, if_false]
            rw [f2.view.links x y hx]; simp [hxu, hyu]
      · intro v
        by_cases hvu : v = u
        · subst hvu
          unfold Emb.NE
          rw [k2.own]
          simp only [Chain.has, f4]
        · unfold Emb.NE
          simp [Chain.has_congr (k2.par v hvu), Chain.has_congr (f2.par v hvu)]
    have hf4 := hf1.kept hk
    refine Post.bind (Post.of_ok (k1.flipBack_full wf hR hu (cs := 0) (fun v hv => (g1 u hu).mem_iff.1 hv)
      (fun v hv _ => (hf4 u hu).2 v ((g1 u hu).mem_iff.1 hv)))) ?_
    rintro E5 ⟨m1, m2, m3⟩
    exact Post.pure ⟨hmf, hE4.of_w k1.exact m1.exact fun q _ => Or.inr (m3.w q), hb.best, hb.init⟩

theorem bypass1_fill (wf : P.WF) (hR : Dom P R) (he : P.Even) (ha : P.Apart) {u : Nat} (hu : u < P.nv)
    {old : Int} (ho : old ≤ B) {X : Run} (h : RI P R X) (hb : FB P B X) :
    Post (Run.bypass1 P C old u X) (fun r => FB P B r.1) := by
  unfold Run.bypass1
  refine Post.bind (Post.of_ok (h.curr.stealAll_full wf hR hu (fun v hv => (h.vn u hu).mem_iff.1 hv))) ?_
  rintro E1 ⟨h1, _, h2'⟩
  have hE1 : Few P B E1 := hb.curr.of_w h.curr.exact h1.exact fun q _ => Or.inr (h2'.w q)
  refine Post.bind (Post.of_ok (h1.tearOut wf hu (fun v => (h.vn u hu).mem_iff))) ?_
  rintro E2 ⟨f1, f2⟩
  have hE2 : Few P B E2 := hE1.of_w h1.exact f1.exact fun q _ => by
    have := f2.w q
    have := ind_nonneg ((E1.chains u).has q)
    omega
  refine Post.bind (Post.of_ok (findChain_full wf hR he hu f1 f2.own (torn_no f2) h.vn)) ?_
  rintro ⟨E3, S3, got⟩ ⟨g1, g2, g3, g4, _⟩
  refine Post.pure ⟨ho, ?_, hb.best, hb.init⟩
  dsimp only at *
  cases got with
  | false => rw [g2 rfl]; exact hE2
  | true =>
    refine hE2.of_w f1.exact (g3 rfl).1.exact fun q _ => ?_
    have := g4 (ha u hu) q
    omega

theorem pushLoop_fill (wf : P.WF) (hR : Dom P R) (he : P.Even) (ha : P.Apart) (hB : 1 ≤ B) {old : Int} (ho : old ≤ B) :
    ∀ (l : List Nat) {imp : Bool} {X : Run}, Good P R X → Full P X.curr → (∀ u ∈ l, u < P.nv) → FB P B X →
    Post (Run.pushLoop P C old l imp X) (fun r => FB P B r.1)
  | [], imp, X, _, _, _, hb => Post.pure hb
  | u :: us, imp, X, h, hf, hl, hb => by
    have hu := hl u (by simp)
    have hl' : ∀ x ∈ us, x < P.nv := fun x hx => hl x (by simp [hx])
    unfold Run.pushLoop
    refine Post.bind (P := fun r : Run × Bool => (RI P R r.1 ∧ (r.2 = true → Full P r.1.curr) ∧
      r.1.best = X.best ∧ r.1.embedded = X.embedded ∧ r.1.stats = X.stats) ∧ FB P B r.1) ?_ ?_
    · split
      · refine Post.bind ((Post.of_ok (pushdown1_spec wf hR he hu h.ri hf)).and
          (pushdown1_fill wf hR he ha hB hu h.ri hf hb)) ?_
        rintro X1 ⟨⟨h1, h2, h3, h4, h5, _⟩, hb1⟩
        exact Post.pure ⟨⟨h1, fun _ => h2, h3, h4, h5⟩, hb1⟩
      · refine ((Post.of_ok (bypass1_spec wf hR he hu h.ri hf)).and (bypass1_fill wf hR he ha hu ho h.ri hb)).mono ?_
        rintro X1 ⟨⟨h1, h2, h3, h4, h5, _⟩, hb1⟩
        exact ⟨⟨h1, h2, h3, h4, h5⟩, hb1⟩
    rintro ⟨X1, got⟩ ⟨⟨h1, h2, h3, h4, h5⟩, hb1⟩
    dsimp only at *
    have hbo : BestOK P R X1 := h.best.congr h3 h4 h5
    split
    · next hg =>
      refine Post.bind ((Post.of_ok (check_gain wf h1 (h2 hg) hbo)).and
        (check_fill wf h1 (h2 hg) (Or.inl hbo) hb1)) ?_
      rintro ⟨X2, b⟩ ⟨⟨k1, k2, k3, _⟩, hb2⟩
      dsimp only at *
      split
      · exact Post.pure hb2
      · exact pushLoop_fill wf hR he ha hB ho us ⟨k1, k2⟩ (by rw [k3.curr]; exact h2 hg) hl' hb2
    · exact Post.pure hb1

theorem pushdownPass_fill (wf : P.WF) (hR : Dom P R) (he : P.Even) (ha : P.Apart) (hB : 1 ≤ B) {X : Run}
    (h : Good P R X) (hf : Full P X.curr) (hb : FB P B X) :
    Post (Run.pushdownPass P C A X) (fun r => FB P B r.1) := by
  unfold Run.pushdownPass
  refine Post.bind ((Post.of_ok (orderBy_spec wf h.ri)).and (orderBy_fill hb)) ?_
  rintro X1 ⟨⟨h1, ⟨l, t, hX1⟩, _⟩, hb1⟩
  have hm1 : Moved' X X1 := by rw [hX1]; rfl
  refine Post.bind (pushLoop_fill wf hR he ha hB hb.wb X1.order ⟨h1, h.best.moved' hm1⟩
    (by rw [hX1]; exact hf) h1.ord hb1) ?_
  rintro ⟨X2, imp, ok⟩ hb2
  dsimp only at *
  split
  · have hb3 : ∀ pb, FB P B { X2 with wb := X.wb, pushback := pb } := fun pb => ⟨hb.wb, hb2.curr, hb2.best, hb2.init⟩
    split
    · exact checkStops_fill (hb3 _)
    · split
      · exact Post.error
      · exact checkStops_fill (hb3 _)
  · exact Post.pure hb2

theorem chainlengthPass_fill (wf : P.WF) (hR : Dom P R) (he : P.Even) (ha : P.Apart) (hB : 1 ≤ B) {X : Run}
    (hn : 0 < P.N) (h : Good P R X) (hf : Full P X.curr) (hb : FB P B X) :
    Post (Run.chainlengthPass P C A X) (fun r => FB P B r.1) := by
  unfold Run.chainlengthPass
  refine Post.bind ((Post.of_ok (mixPerms_spec wf hn h)).and (Q' := FB P B) ?_) ?_
  · unfold Run.mixPerms
    split
    · exact Post.error
    · exact Post.pure (hb.flags rfl rfl rfl rfl)
  rintro X0 ⟨⟨h0, hm0, hc0⟩, hb0⟩
  refine Post.bind ((Post.of_ok (orderBy_spec wf h0.ri)).and (orderBy_fill hb0)) ?_
  rintro X1 ⟨⟨h1, ⟨l, t, hX1⟩, _⟩, hb1⟩
  have hm1 : Moved' X X1 := hm0.weak.trans (by rw [hX1]; rfl)
  refine Post.bind (improveLoop_fill wf hR he ha hB X1.order ⟨h1, h.best.moved' hm1⟩
    (by rw [hX1]; dsimp only; rw [hc0]; exact hf) h1.ord hb1) ?_
  rintro ⟨X2, imp, ok⟩ hb2
  dsimp only at *
  split
  · exact checkStops_fill hb2
  · exact Post.pure hb2

theorem rounds_fill (wf : P.WF) (hR : Dom P R) (he : P.Even) (ha : P.Apart) (hB : 1 ≤ B) {trial : Nat} :
    ∀ (r : Nat) {ip : Nat} {X : Run}, r ≤ A.innerRounds → Good P R X → Full P X.curr → FB P B X →
    Post (Run.rounds P C A trial r ip X) (fun s => FB P B s.1)
  | 0, ip, X, _, _, _, hb => Post.pure hb
  | r+1, ip, X, hr, h, hf, hb => by
    unfold Run.rounds
    by_cases hc : ip = 0 ∨ X.embedded = true
    · rw [if_pos hc]; exact Post.pure hb
    rw [if_neg hc]
    have hX : X.embedded = false := by
      cases hx : X.embedded with
      | false => rfl
      | true => exact absurd (Or.inr hx) hc
    dsimp only
    refine Post.bind (P := fun s : Run × Pass => (Good P R s.1 ∧ (s.2 ≠ .failed → Full P s.1.curr)) ∧ FB P B s.1) ?_ ?_
    · split
      · have hg : Good P R { X with desperate := decide (ip ≤ 1) || decide (trial = 0) || decide (r = 0) } :=
          h.flags rfl rfl rfl rfl rfl rfl rfl rfl
        refine ((Post.of_safe (pushdownPass_spec wf hR he (by omega) hg hf hX)).and
          (pushdownPass_fill wf hR he ha hB hg hf (hb.flags rfl rfl rfl rfl))).mono ?_
        rintro s ⟨hs, k⟩; exact ⟨⟨hs.good, hs.full⟩, k⟩
      · have hg : Good P R { X with
            pushback := X.pushback - 1
            desperate := decide (ip ≤ 1) || decide (trial = 0) || decide (r = 0) } :=
          h.flags rfl rfl rfl rfl rfl rfl rfl rfl
        refine ((Post.of_safe (overfillPass_spec wf hR he hg hf)).and
          (overfillPass_fill wf hR he ha hB hg hf (hb.flags rfl rfl rfl rfl))).mono ?_
        rintro s ⟨hs, k⟩; exact ⟨⟨hs.good, hs.full⟩, k⟩
    · rintro ⟨X1, res⟩ ⟨⟨h1, h2⟩, hb1⟩
      dsimp only at *
      cases res with
      | stopped => exact rounds_fill wf hR he ha hB r (by omega) h1 (h2 (by simp)) hb1
      | failed =>
        obtain ⟨k1, k2⟩ := h1.restore wf
        exact rounds_fill wf hR he ha hB r (by omega) (k1.flags rfl rfl rfl rfl rfl rfl rfl rfl) k2
          ((hb1.restore h1).flags rfl rfl rfl rfl)
      | same =>
        exact rounds_fill wf hR he ha hB r (by omega) (h1.flags rfl rfl rfl rfl rfl rfl rfl rfl) (h2 (by simp))
          (hb1.flags rfl rfl rfl rfl)
      | better =>
        exact rounds_fill wf hR he ha hB r (by omega) (h1.flags rfl rfl rfl rfl rfl rfl rfl rfl) (h2 (by simp))
          (hb1.flags rfl rfl rfl rfl)

theorem trials_fill (wf : P.WF) (hR : Dom P R) (he : P.Even) (ha : P.Apart) (hB : 1 ≤ B) :
    ∀ (t : Nat) {X : Run}, Good P R X → Full P X.curr → FB P B X →
    Post (Run.trials P C A t X) (FB P B)
  | 0, X, _, _, hb => Post.pure hb
  | t+1, X, h, hf, hb => by
    unfold Run.trials
    by_cases hX : X.embedded = true
    · rw [if_pos hX]; exact Post.pure hb
    rw [if_neg hX]
    have hg0 : Good P R { X with pushback := 0 } := h.flags rfl rfl rfl rfl rfl rfl rfl rfl
    refine Post.bind ((Post.of_safe (rounds_spec wf hR he A.innerRounds (Nat.le_refl _) hg0 hf)).and
      (rounds_fill wf hR he ha hB A.innerRounds (Nat.le_refl _) hg0 hf (hb.flags rfl rfl rfl rfl))) ?_
    rintro ⟨X1, ip⟩ ⟨⟨h1, hf1⟩, hb1⟩
    dsimp only at *
    by_cases hc : t ≠ 0 ∧ X1.embedded = false ∧ ip = 0
    · rw [if_pos hc]
      have hcp := EInv.copy h1.ri.curr.exact h1.ri.curr.lab h1.ri.init
      have hri : RI P R { X1 with desperate := false, pushback := 0, curr := Emb.copy P X1.curr X1.init } :=
        ⟨h1.ri.vn, h1.ri.init, hcp.1, h1.ri.best, h1.ri.last, h1.ri.ord⟩
      have hb2 : FB P B { X1 with desperate := false, pushback := 0, curr := Emb.copy P X1.curr X1.init } :=
        ⟨hb1.wb, hb1.init.congr hcp.2, hb1.best, hb1.init⟩
      refine Post.bind ((Post.of_safe (initPass_spec wf hR he hri hc.2.1)).and
        (initPass_fill wf hR he ha hB hri hc.2.1 hb2)) ?_
      rintro ⟨X2, res⟩ ⟨⟨k1, k2, k3, k4⟩, hb3⟩
      dsimp only at *
      have hb0 : BestOK P R { X1 with desperate := false, pushback := 0, curr := Emb.copy P X1.curr X1.init } :=
        h1.best.congr rfl rfl rfl
      have hg2 : Good P R X2 := ⟨k1, hb0.moved' k2⟩
      cases res with
      | stopped => exact Post.pure hb3
      | same => exact absurd rfl k4
      | failed =>
        obtain ⟨m1, m2⟩ := hg2.restore wf
        exact trials_fill wf hR he ha hB t m1 m2 (hb3.restore hg2)
      | better =>
        have hri2 : RI P R { X2 with stats := [] } := ⟨k1.vn, k1.init, k1.curr, k1.best, k1.last, k1.ord⟩
        have hst : BestOK P R { X2 with stats := [] } ∨
            ({ X2 with stats := [] } : Run).stats = [] ∧ ({ X2 with stats := [] } : Run).embedded = false := by
          refine Or.inr ⟨rfl, ?_⟩
          dsimp only; rw [k2]; exact hc.2.1
        refine Post.bind ((Post.of_ok (check_spec wf hri2 (k3 rfl) hst)).and
          (check_fill wf hri2 (k3 rfl) hst (hb3.flags rfl rfl rfl rfl))) ?_
        rintro ⟨X3, b⟩ ⟨⟨m1, m2, m3, _⟩, hb4⟩
        dsimp only at *
        exact trials_fill wf hR he ha hB t ⟨m1, m2⟩ (by rw [m3.curr]; exact k3 rfl) hb4
    · rw [if_neg hc]
      exact trials_fill wf hR he ha hB t h1 hf1 hb1

theorem shrink_fill (wf : P.WF) (hR : Dom P R) (he : P.Even) (ha : P.Apart) (hB : 1 ≤ B) (hn : 0 < P.N) :
    ∀ (fuel : Nat) {ip : Nat} {X : Run}, Good P R X → Full P X.curr → X.embedded = true → FB P B X →
    Post (Run.shrink P C A fuel ip X) (FB P B) := by
  intro fuel
  induction fuel with
  | zero =>
    intro ip X h hf hX hb
    cases ip with
    | zero => unfold Run.shrink; exact Post.pure hb
    | succ ip => unfold Run.shrink; exact Post.error
  | succ fuel ih =>
    intro ip X h hf hX hb
    cases ip with
    | zero => unfold Run.shrink; exact Post.pure hb
    | succ ip =>
      unfold Run.shrink
      dsimp only
      have hcp := EInv.copy h.ri.last.1 h.ri.last.2 h.ri.curr.toShape
      have h0 : Good P R { X with last := Emb.copy P X.last X.curr, desperate := decide (ip = 0) } :=
        ⟨⟨h.ri.vn, h.ri.init, h.ri.curr, h.ri.best, hcp.1.base, h.ri.ord⟩, h.best.congr rfl rfl rfl⟩
      refine Post.bind ((Post.of_safe (chainlengthPass_spec wf hR he h0 hf hn)).and
        (chainlengthPass_fill wf hR he ha hB hn h0 hf (hb.flags rfl rfl rfl rfl))) ?_
      rintro ⟨X1, res⟩ ⟨h1, hb1⟩
      have e1 := (h1.gain hX).1
      dsimp only at *
      cases res with
      | failed => exact absurd rfl (h1.emb hX)
      | stopped => exact Post.pure hb1
      | same =>
        exact ih (h1.good.flags rfl rfl rfl rfl rfl rfl rfl rfl) (h1.full (by simp)) e1 (hb1.flags rfl rfl rfl rfl)
      | better =>
        exact ih (h1.good.flags rfl rfl rfl rfl rfl rfl rfl rfl) (h1.full (by simp)) e1 (hb1.flags rfl rfl rfl rfl)

theorem heuristicFor_fill (wf : P.WF) (hR : Dom P R) (he : P.Even) (hn : 0 < P.N) (ha : P.Apart) (hB : 1 ≤ B)
    (hA : A.bound ≤ B) {X : Run} (h : RI0 P R X) (hbest : Few P B X.best) (hinit : Few P B X.init) {fuel : Nat} :
    Post (Run.heuristicFor P C A fuel X) (fun r => FB P B r.1) := by
  unfold Run.heuristicFor
  have hcp := EInv.copy h.curr.1 h.curr.2 h.init
  have hc0 : Few P B (Emb.copy P X.curr X.init) := hinit.congr hcp.2
  refine Post.bind (P := fun r : Run × Bool => (RI P R r.1 ∧ r.1.embedded = false ∧
    (r.2 = true → Full P r.1.curr)) ∧ FB P B r.1) ?_ ?_
  · unfold Run.start Run.resetMood
    dsimp only
    by_cases hs : A.skipInit = true
    · rw [if_pos hs]
      by_cases hl : X.init.linked P X.S.vn = true
      · rw [if_pos hl]
        refine Post.pure ⟨⟨⟨h.vn, h.init, hcp.1, h.best, h.last, h.ord⟩, rfl, fun _ => ?_⟩, hA, hc0, hbest, hinit⟩
        dsimp only
        refine Full.congr (E := X.init) wf ?_ hcp.2
        intro u hu
        unfold Emb.linked at hl
        have := List.all_eq_true.1 hl u (List.mem_range.2 hu)
        unfold Emb.linked1 at this
        simp only [Bool.and_eq_true, List.all_eq_true] at this
        exact ⟨this.1, fun v hv => this.2 v ((h.vn u hu).mem_iff.2 hv)⟩
      · rw [if_neg hl]; exact Post.error
    · rw [if_neg hs]
      have hri : RI P R { X with wb := A.bound, embedded := false, desperate := false, cs := 0, improved := false, curr := Emb.copy P X.curr X.init } :=
        ⟨h.vn, h.init, hcp.1, h.best, h.last, h.ord⟩
      refine Post.bind ((Post.of_safe (initPass_spec wf hR he hri rfl)).and
        (initPass_fill wf hR he ha hB hri rfl ⟨hA, hc0, hbest, hinit⟩)) ?_
      rintro ⟨X1, res⟩ ⟨⟨k1, k2, k3, k4⟩, hb1⟩
      have he1 : X1.embedded = false := by
        dsimp only at k2; rw [k2]
      cases res with
      | stopped => exact Post.pure ⟨⟨k1, he1, by simp⟩, hb1⟩
      | failed => exact Post.error
      | same => exact absurd rfl k4
      | better => exact Post.pure ⟨⟨k1, he1, fun _ => k3 rfl⟩, hb1⟩
  rintro ⟨X1, go⟩ ⟨⟨h1, he1, hf1⟩, hb1⟩
  dsimp only at *
  cases go with
  | false =>
    simp only [Bool.false_eq_true, if_false]
    exact Post.pure hb1
  | true =>
    simp only [if_true]
    have hri : RI P R { X1 with stats := [] } := ⟨h1.vn, h1.init, h1.curr, h1.best, h1.last, h1.ord⟩
    refine Post.bind ((Post.of_ok (check_spec wf hri (hf1 rfl) (Or.inr ⟨rfl, he1⟩))).and
      (check_fill wf hri (hf1 rfl) (Or.inr ⟨rfl, he1⟩) (hb1.flags rfl rfl rfl rfl))) ?_
    rintro ⟨X2, _⟩ ⟨⟨m1, m2, m3, _⟩, hb2⟩
    dsimp only at *
    obtain ⟨r1, r2⟩ := Good.restore wf ⟨m1, m2⟩
    have hg : Good P R { X2 with improved := true, curr := Emb.copy P X2.curr X2.best } :=
      r1.flags rfl rfl rfl rfl rfl rfl rfl rfl
    refine Post.bind ((Post.of_safe (trials_spec wf hR he (C := C) (A := A) A.tries hg r2)).and
      (trials_fill wf hR he ha hB A.tries hg r2 ((hb2.restore ⟨m1, m2⟩).flags rfl rfl rfl rfl))) ?_
    rintro X3 ⟨h3, hb3⟩
    by_cases hc : X3.embedded = true ∧ A.clPatience ≠ 0
    · rw [if_pos hc]
      obtain ⟨s1, s2⟩ := h3.restore wf
      refine Post.bind (shrink_fill wf hR he ha hB hn fuel (s1.flags rfl rfl rfl rfl rfl rfl rfl rfl) s2 hc.1
        ⟨hB, (hb3.restore h3).curr, hb3.best, hb3.init⟩) ?_
      intro X4 hb4
      exact Post.pure hb4
    · rw [if_neg hc]
      exact Post.pure hb3

end MM
