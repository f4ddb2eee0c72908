import Verif.Core.RunInv

/-! The passes of the master heuristic keep its invariant. -/

namespace MM

open Scratch (Cfg)

variable {P : Prob} {R : Nat → Nat → Prop}

theorem VnOK.nbr (wf : P.WF) {S : Scratch} (h : VnOK P S) : Order.NbrOK P S.vn :=
  fun v hv y hy => wf.vn_lt v y hv ((h v hv).mem_iff.1 hy)

theorem RI.set {X : Run} (h : RI P R X) {E : Emb} {S : Scratch} (hE : EInv P R E) (hS : VnOK P S) :
    RI P R { X with curr := E, S := S } := ⟨hS, h.init, hE, h.best, h.last, h.ord⟩

/-- `X'` differs from `X` in the current embedding and the scratch state only. -/
def Moved (X X' : Run) : Prop := X' = { X with curr := X'.curr, S := X'.S }

theorem Moved.trans {X Y Z : Run} (h : Moved X Y) (k : Moved Y Z) : Moved X Z := by
  unfold Moved at *
  rw [k, h]

theorem BestOK.congr {X X' : Run} (h : BestOK P R X) (h1 : X'.best = X.best)
    (h2 : X'.embedded = X.embedded) (h3 : X'.stats = X.stats) : BestOK P R X' := by
  refine ⟨by rw [h1]; exact h.inv, by rw [h1]; exact h.full, ?_⟩
  rw [h1, h2, h3]; exact h.st

theorem BestOK.moved {X X' : Run} (h : BestOK P R X) (hm : Moved X X') : BestOK P R X' := by
  refine h.congr ?_ ?_ ?_ <;> rw [hm]

theorem torn_no {E E' : Emb} {u : Nat} (ht : TornOut P E E' u) :
    ∀ v, v < P.N → (E'.chains v).links u = none := by
  intro v hv
  by_cases hvu : v = u
  · subst hvu; rw [ht.own]; rfl
  · rw [ht.links v hv hvu]; simp

theorem place_embedded (wf : P.WF) (hR : Dom P R) (he : P.Even) {C : Cfg} {u : Nat} (hu : u < P.nv)
    {X : Run} (h : RI P R X) (hX : X.embedded = true) (hf : Full P X.curr) :
    Ok (Run.place P C u X) (fun r => RI P R r.1 ∧ Moved X r.1 ∧ Full P r.1.curr ∧ r.2 = true) := by
  unfold Run.place
  rw [if_pos (by simp [hX])]
  refine Ok.bind (h.curr.stealAll wf hR hu (fun v hv => (h.vn u hu).mem_iff.1 hv)) ?_
  rintro E1 ⟨h1, h2⟩
  have hf1 := hf.same h2
  rw [if_pos hX]
  refine Ok.bind (findShort_spec wf hR he hu h1 h.vn (fun v hv _ => (hf1 u hu).2 v hv)) ?_
  rintro ⟨E2, S2⟩ ⟨h3, h4, h5⟩
  refine Ok.pure ⟨h.set h4 h3, rfl, ?_, rfl⟩
  rcases h5 with h5 | h5
  · exact hf1.kept h5
  · exact hf1.rebuilt wf h1 h4 hu h5

theorem place_free (wf : P.WF) (hR : Dom P R) (he : P.Even) {C : Cfg} {u : Nat} (hu : u < P.nv)
    {X : Run} (h : RI P R X) (hX : X.embedded = false) {T : Nat → Prop} (hf : Part P X.curr T) :
    Ok (Run.place P C u X) (fun r => RI P R r.1 ∧ Moved X r.1 ∧
      (r.2 = true → Part P r.1.curr (fun x => T x ∨ x = u))) := by
  unfold Run.place
  refine Ok.bind (P := fun E => EInv P R E ∧ Part P E T) ?_ ?_
  · split
    · exact (h.curr.stealAll wf hR hu (fun v hv => (h.vn u hu).mem_iff.1 hv)).mono
        (fun E hE => ⟨hE.1, hf.same hE.2⟩)
    · exact Ok.pure ⟨h.curr, hf⟩
  rintro E1 ⟨h1, h2⟩
  rw [if_neg (by simp [hX])]
  refine Ok.bind (h1.tearOut wf hu (fun v => (h.vn u hu).mem_iff)) ?_
  rintro E2 ⟨h3, h4⟩
  refine Ok.bind (findChain_spec wf hR he hu h3 h4.own (torn_no h4) h.vn) ?_
  rintro ⟨E3, S3, got⟩ ⟨h5, h6, h7⟩
  dsimp only at *
  cases got with
  | false =>
    rw [h6 rfl]
    exact Ok.pure ⟨h.set h3 h5, rfl, by simp⟩
  | true =>
    obtain ⟨h8, h9⟩ := h7 rfl
    exact Ok.pure ⟨h.set h8 h5, rfl, fun _ => (h2.torn h4).rebuilt wf h3 hu h9⟩

theorem place_full (wf : P.WF) (hR : Dom P R) (he : P.Even) {C : Cfg} {u : Nat} (hu : u < P.nv)
    {X : Run} (h : RI P R X) (hf : Full P X.curr) :
    Ok (Run.place P C u X) (fun r => RI P R r.1 ∧ Moved X r.1 ∧
      (r.2 = true → Full P r.1.curr) ∧ (X.embedded = true → r.2 = true)) := by
  cases hX : X.embedded with
  | true =>
    exact (place_embedded wf hR he hu h hX hf).mono
      (fun r h => ⟨h.1, h.2.1, fun _ => h.2.2.1, fun _ => h.2.2.2⟩)
  | false =>
    refine (place_free wf hR he hu h hX (hf.part (fun _ => True))).mono ?_
    rintro r ⟨h1, h2, h3⟩
    refine ⟨h1, h2, fun hr => Part.full wf h1.curr ?_, by simp⟩
    intro x hx _
    exact h3 hr x hx (Or.inl trivial)

theorem orderBy_spec (wf : P.WF) {o : VarOrder} {X : Run} (h : RI P R X) :
    Ok (Run.orderBy P o X) (fun X' => RI P R X' ∧ (∃ l t, X' = { X with order := l, S := { X.S with tape := t } }) ∧
      (o ≠ .keep → X'.order.Perm (List.range P.nv)) ∧ (o = .keep → X'.order = X.order)) := by
  unfold Run.orderBy
  refine Ok.bind (varOrder_spec (h.vn.nbr wf)) ?_
  rintro ⟨l, t⟩ ⟨h1, h2⟩
  refine Ok.pure ⟨⟨h.vn, h.init, h.curr, h.best, h.last, ?_⟩, ⟨l, t, rfl⟩, h1, h2⟩
  intro u hu
  by_cases ho : o = .keep
  · have := h2 ho
    dsimp only at this hu
    rw [this] at hu; exact h.ord u hu
  · exact List.mem_range.1 ((h1 ho).mem_iff.1 hu)

theorem checkStops_spec {A : Params} {r : Pass} {X : Run} (h : RI P R X) :
    Safe A.Halts False (Run.checkStops A r X) (fun s => RI P R s.1 ∧ s.1 = { X with clock := X.clock + 1 } ∧
      (s.2 = r ∨ s.2 = .stopped)) := by
  have hri : RI P R { X with clock := X.clock + 1 } :=
    ⟨h.vn, h.init, h.curr, h.best, h.last, h.ord⟩
  unfold Run.checkStops
  dsimp only
  split
  · next hs =>
    split
    · exact Safe.pure ⟨hri, rfl, Or.inr rfl⟩
    · next hi => exact Or.inr (Or.inr ⟨⟨by simpa using hi, _, hs⟩, rfl⟩)
  · split
    · exact Safe.pure ⟨hri, rfl, Or.inr rfl⟩
    · exact Safe.pure ⟨hri, rfl, Or.inl rfl⟩

/-! ### initialization -/

theorem initLoop_spec (wf : P.WF) (hR : Dom P R) (he : P.Even) {C : Cfg} :
    ∀ (l : List Nat) {X : Run} {T : Nat → Prop}, RI P R X → X.embedded = false →
    (∀ u ∈ l, u < P.nv) → Part P X.curr T →
    Ok (Run.initLoop P C l X) (fun r => RI P R r.1 ∧ Moved X r.1 ∧
      (r.2 = true → Part P r.1.curr (fun x => T x ∨ x ∈ l))) := by
  intro l
  induction l with
  | nil =>
    intro X T h _ _ hp
    exact Ok.pure ⟨h, rfl, fun _ => by simpa using hp⟩
  | cons u l ih =>
    intro X T h hX hl hp
    have hu := hl u (by simp)
    have huN : u < P.N := by unfold Prob.N; omega
    have hl' : ∀ x ∈ l, x < P.nv := fun x hx => hl x (by simp [hx])
    unfold Run.initLoop
    split
    · next hc =>
      have hlk := hc.2
      unfold Emb.linked1 at hlk
      simp only [Bool.and_eq_true, List.all_eq_true] at hlk
      have hp' : Part P X.curr (fun x => T x ∨ x = u) := by
        intro x hx hT
        by_cases hxu : x = u
        · subst hxu
          exact ⟨hlk.1, fun v hv _ => hlk.2 v ((h.vn x hx).mem_iff.2 hv)⟩
        · exact hp x hx (hT.resolve_right hxu)
      refine (ih h hX hl' hp').mono ?_
      rintro r ⟨h1, h2, h3⟩
      refine ⟨h1, h2, fun hr x hx hT => h3 hr x hx ?_⟩
      rcases hT with h | h
      · exact Or.inl (Or.inl h)
      · rcases List.mem_cons.1 h with h | h
        · exact Or.inl (Or.inr h)
        · exact Or.inr h
    · refine Ok.bind (place_free wf hR he hu h hX hp) ?_
      rintro ⟨X1, got⟩ ⟨h1, h2, h3⟩
      dsimp only at *
      cases got with
      | false =>
        simp only [Bool.false_eq_true, if_false]
        exact Ok.pure ⟨h1, h2, by simp⟩
      | true =>
        simp only [if_true]
        have hX1 : X1.embedded = false := by rw [h2]; exact hX
        refine (ih h1 hX1 hl' (h3 rfl)).mono ?_
        rintro r ⟨k1, k2, k3⟩
        refine ⟨k1, h2.trans k2, fun hr x hx hT => k3 hr x hx ?_⟩
        rcases hT with h | h
        · exact Or.inl (Or.inl h)
        · rcases List.mem_cons.1 h with h | h
          · exact Or.inl (Or.inr h)
          · exact Or.inr h

/-- Everything but order, current embedding and scratch unchanged. -/
def Moved' (X X' : Run) : Prop :=
  X' = { X with curr := X'.curr, S := X'.S, order := X'.order, clock := X'.clock }

theorem Moved'.trans {X Y Z : Run} (h : Moved' X Y) (k : Moved' Y Z) : Moved' X Z := by
  unfold Moved' at *
  rw [k, h]

theorem Moved.weak {X Y : Run} (h : Moved X Y) : Moved' X Y := by
  unfold Moved Moved' at *
  rw [h]

theorem BestOK.moved' {X X' : Run} (h : BestOK P R X) (hm : Moved' X X') : BestOK P R X' := by
  refine h.congr ?_ ?_ ?_ <;> rw [hm]

theorem initPass_spec (wf : P.WF) (hR : Dom P R) (he : P.Even) {C : Cfg} {A : Params} {X : Run}
    (h : RI P R X) (hX : X.embedded = false) :
    Safe A.Halts False (Run.initPass P C A X) (fun r => RI P R r.1 ∧ Moved' X r.1 ∧
      (r.2 = .better → Full P r.1.curr) ∧ r.2 ≠ .same) := by
  unfold Run.initPass
  refine Safe.bind (orderBy_spec wf h).safe ?_
  rintro X1 ⟨h1, ⟨l, t, hX1⟩, h2, _⟩
  have hm1 : Moved' X X1 := by rw [hX1]; rfl
  have ho : X1.order.Perm (List.range P.nv) := h2 (by split <;> simp)
  have hp0 : Part P X1.curr (fun _ => False) := fun _ _ h => h.elim
  have hX1e : X1.embedded = false := by rw [hX1]; exact hX
  refine Safe.bind (initLoop_spec wf hR he X1.order h1 hX1e
    (fun u hu => List.mem_range.1 (ho.mem_iff.1 hu)) hp0).safe ?_
  rintro ⟨X2, got⟩ ⟨k1, k2, k3⟩
  dsimp only at *
  cases got with
  | false =>
    simp only [Bool.false_eq_true, if_false]
    exact Safe.pure ⟨k1, hm1.trans k2.weak, by simp, by simp⟩
  | true =>
    simp only [if_true]
    refine (checkStops_spec k1).mono ?_
    rintro s ⟨s1, s2, s3⟩
    refine ⟨s1, (hm1.trans k2.weak).trans (by rw [s2]; rfl), fun _ => ?_, ?_⟩
    · refine Part.full wf s1.curr ?_
      have := k3 rfl
      rw [s2]
      intro x hx _
      exact this x hx (Or.inr (ho.mem_iff.2 (List.mem_range.2 hx)))
    · rcases s3 with h | h <;> rw [h] <;> simp

/-! ### improvement passes -/

/-- `X'` is at least as good as `X`: never loses success, never makes a successful
histogram worse; with `b` strictly better. -/
def Gain (P : Prob) (b : Bool) (X X' : Run) : Prop :=
  X.embedded = true → X'.embedded = true ∧
    histVal P X'.stats + (if b then 1 else 0) ≤ histVal P X.stats

theorem Gain.refl (X : Run) : Gain P false X X := fun h => ⟨h, by simp⟩

theorem Gain.trans {a b : Bool} {X Y Z : Run} (h : Gain P a X Y) (k : Gain P b Y Z) :
    Gain P (a || b) X Z := by
  intro hX
  obtain ⟨h1, h2⟩ := h hX
  obtain ⟨k1, k2⟩ := k h1
  refine ⟨k1, ?_⟩
  cases a <;> cases b <;> simp at * <;> omega

theorem Gain.moved' {X Y : Run} (h : Moved' X Y) : Gain P false X Y := by
  intro hX
  rw [h]; exact ⟨hX, by simp⟩

theorem check_gain (wf : P.WF) {X : Run} (h : RI P R X) (hf : Full P X.curr) (hb : BestOK P R X) :
    Ok (Run.check P X) (fun r => RI P R r.1 ∧ BestOK P R r.1 ∧ Frame X r.1 ∧ Gain P r.2 X r.1) := by
  refine (check_spec wf h hf (Or.inl hb)).mono ?_
  rintro ⟨X1, b⟩ ⟨h1, h2, h3, st, h4⟩
  refine ⟨h1, h2, h3, ?_⟩
  intro hX
  have hd := h4.dec
  have hy := h4.yes
  have hn := h4.no
  dsimp only at *
  cases b with
  | false => rw [hn rfl]; exact ⟨hX, by simp⟩
  | true =>
    obtain ⟨y1, y2, _⟩ := hy rfl
    have hst1 : st.1 = true := by
      cases hs : st.1 with
      | true => rfl
      | false => rw [hs, hX] at hd; simp [betterB] at hd
    refine ⟨by rw [y1]; exact hst1, ?_⟩
    rw [y2, if_pos rfl]
    rw [hst1, hX] at hd
    have e1 : StatsOK P X.curr (true, st.2) := by rw [← hst1]; exact h4.ok
    have e2 : StatsOK P X.best (true, X.stats) := by rw [← hX]; exact hb.st
    exact better_val e1 e2 hd.symm

/-- State between improvement steps. -/
structure Good (P : Prob) (R : Nat → Nat → Prop) (X : Run) : Prop where
  ri : RI P R X
  best : BestOK P R X

/-- Unchanged during passes. -/
structure Fixed (X X' : Run) : Prop where
  init : X'.init = X.init
  last : X'.last = X.last

theorem Fixed.trans {X Y Z : Run} (h : Fixed X Y) (k : Fixed Y Z) : Fixed X Z :=
  ⟨k.init.trans h.init, k.last.trans h.last⟩

theorem Moved'.fixed {X Y : Run} (h : Moved' X Y) : Fixed X Y := by
  constructor <;> rw [h]

theorem improveLoop_spec (wf : P.WF) (hR : Dom P R) (he : P.Even) {C : Cfg} {stop : Bool} :
    ∀ (l : List Nat) {imp : Bool} {X : Run}, Good P R X → Full P X.curr → (∀ u ∈ l, u < P.nv) →
    Ok (Run.improveLoop P C stop l imp X) (fun r => Good P R r.1 ∧ Fixed X r.1 ∧
      (r.2.2 = true → Full P r.1.curr) ∧ (X.embedded = true → r.2.2 = true) ∧
      ∃ b, Gain P b X r.1 ∧ r.2.1 = (imp || b)) := by
  intro l
  induction l with
  | nil =>
    intro imp X h hf _
    exact Ok.pure ⟨h, ⟨rfl, rfl⟩, fun _ => hf, fun _ => rfl, false, Gain.refl X, by simp⟩
  | cons u l ih =>
    intro imp X h hf hl
    have hu := hl u (by simp)
    unfold Run.improveLoop
    refine Ok.bind (place_full wf hR he hu h.ri hf) ?_
    rintro ⟨X1, got⟩ ⟨h1, h2, h3, h4⟩
    dsimp only at *
    cases got with
    | false =>
      simp only [Bool.false_eq_true, if_false]
      exact Ok.pure ⟨⟨h1, h.best.moved h2⟩, h2.weak.fixed, by simp, h4, false,
        Gain.moved' h2.weak, by simp⟩
    | true =>
      simp only [if_true]
      refine Ok.bind (check_gain wf h1 (h3 rfl) (h.best.moved h2)) ?_
      rintro ⟨X2, b⟩ ⟨k1, k2, k3, k4⟩
      dsimp only at *
      have hfix : Fixed X X2 := h2.weak.fixed.trans ⟨k3.init, k3.last⟩
      have hg : Gain P b X X2 := by
        have := (Gain.moved' (P := P) h2.weak).trans k4
        simpa using this
      have hf2 : Full P X2.curr := by rw [k3.curr]; exact h3 rfl
      split
      · exact Ok.pure ⟨⟨k1, k2⟩, hfix, fun _ => hf2, fun _ => rfl, b, hg, rfl⟩
      · refine (ih ⟨k1, k2⟩ hf2 (fun x hx => hl x (by simp [hx]))).mono ?_
        rintro r ⟨m1, m2, m3, m4, b', m5, m6⟩
        refine ⟨m1, hfix.trans m2, m3, fun hX => m4 (hg hX).1, b || b', hg.trans m5, ?_⟩
        rw [m6, Bool.or_assoc]

/-- Result of an improvement pass. -/
structure Improved (P : Prob) (R : Nat → Nat → Prop) (X : Run) (r : Run × Pass) : Prop where
  good : Good P R r.1
  fixed : Fixed X r.1
  full : r.2 ≠ .failed → Full P r.1.curr
  gain : Gain P (decide (r.2 = .better)) X r.1
  emb : X.embedded = true → r.2 ≠ .failed

theorem Good.tick {X : Run} (h : Good P R X) (t : Nat) : Good P R { X with clock := t } :=
  ⟨⟨h.ri.vn, h.ri.init, h.ri.curr, h.ri.best, h.ri.last, h.ri.ord⟩, h.best.congr rfl rfl rfl⟩

/-- The end of a pass. -/
theorem endPass {A : Params} {X X1 : Run} {imp b : Bool} {res : Pass} (h : Good P R X1) (hx : Fixed X X1)
    (hf : Full P X1.curr) (hg : Gain P b X X1) (hb : imp = b) (hres : res = Run.flag imp) :
    Safe A.Halts False (Run.checkStops A res X1) (Improved P R X) := by
  subst hb
  refine (checkStops_spec h.ri).mono ?_
  rintro ⟨X2, s⟩ ⟨_, s2, s3⟩
  dsimp only at *
  subst s2
  have hg' : Gain P (decide (s = .better)) X { X1 with clock := X1.clock + 1 } := by
    intro hX
    obtain ⟨g1, g2⟩ := hg hX
    refine ⟨g1, ?_⟩
    rcases s3 with h | h
    · rw [h, hres]
      cases imp <;> simp [Run.flag] at g2 ⊢ <;> exact g2
    · rw [h]
      cases imp <;> simp at g2 ⊢ <;> omega
  have hnf : s ≠ .failed := by
    rcases s3 with h | h
    · rw [h, hres]; cases imp <;> simp [Run.flag]
    · rw [h]; simp
  exact ⟨h.tick _, hx.trans ⟨rfl, rfl⟩, fun _ => hf, hg', fun _ => hnf⟩

theorem overfillPass_spec (wf : P.WF) (hR : Dom P R) (he : P.Even) {C : Cfg} {A : Params} {X : Run}
    (h : Good P R X) (hf : Full P X.curr) :
    Safe A.Halts False (Run.overfillPass P C A X) (Improved P R X) := by
  unfold Run.overfillPass
  refine Safe.bind (orderBy_spec wf h.ri).safe ?_
  rintro X1 ⟨h1, ⟨l, t, hX1⟩, h2, _⟩
  have hm1 : Moved' X X1 := by rw [hX1]; rfl
  have ho := h2 (by simp)
  have hf1 : Full P X1.curr := by rw [hX1]; exact hf
  refine Safe.bind (improveLoop_spec wf hR he X1.order ⟨h1, h.best.moved' hm1⟩ hf1
    (fun u hu => List.mem_range.1 (ho.mem_iff.1 hu))).safe ?_
  rintro ⟨X2, imp, ok⟩ ⟨k1, k2, k3, k4, b, k5, k6⟩
  dsimp only at *
  have hg : Gain P b X X2 := by
    have := (Gain.moved' (P := P) hm1).trans k5; simpa using this
  have hfix := hm1.fixed.trans k2
  cases ok with
  | false =>
    simp only [Bool.false_eq_true, if_false]
    refine Safe.pure ⟨k1, hfix, by simp, ?_, ?_⟩
    · intro hX
      obtain ⟨g1, g2⟩ := hg hX
      exact ⟨g1, by cases b <;> simp at g2 ⊢ <;> omega⟩
    · intro hX
      have := k4 (by rw [hX1]; exact hX)
      simp at this
  | true =>
    simp only [if_true]
    exact endPass k1 hfix (k3 rfl) hg (by simpa using k6) rfl

theorem pushdown1_spec (wf : P.WF) (hR : Dom P R) (he : P.Even) {C : Cfg} {u : Nat} (hu : u < P.nv)
    {X : Run} (h : RI P R X) (hf : Full P X.curr) :
    Ok (Run.pushdown1 P C u X) (fun X' => RI P R X' ∧ Full P X'.curr ∧ X'.best = X.best ∧
      X'.embedded = X.embedded ∧ X'.stats = X.stats ∧ Fixed X X') := by
  have huN : u < P.N := by unfold Prob.N; omega
  unfold Run.pushdown1
  refine Ok.bind (h.curr.stealAll wf hR hu (fun v hv => (h.vn u hu).mem_iff.1 hv)) ?_
  rintro E1 ⟨h1, h2⟩
  have hf1 := hf.same h2
  refine Ok.bind (h1.freezeOut wf hu) ?_
  rintro ⟨E2, n⟩ ⟨f1, f2, f3, f4, f5, _⟩
  dsimp only at *
  refine Ok.bind (findChain_spec wf hR he hu f1 f2.own (torn_no f2) h.vn) ?_
  rintro ⟨E3, S3, got⟩ ⟨g1, g2, g3⟩
  dsimp only at *
  cases got with
  | true =>
    obtain ⟨g4, g5⟩ := g3 rfl
    simp only [if_true]
    refine Ok.pure ⟨⟨g1, h.init, g4, h.best, h.last, h.ord⟩, ?_, rfl, rfl, rfl, rfl, rfl⟩
    refine Part.full wf g4 ?_
    have := ((hf1.part (fun _ => True)).torn f2).rebuilt wf f1 hu g5
    intro x hx _
    exact this x hx (Or.inl trivial)
  | false =>
    simp only [Bool.false_eq_true, if_false]
    rw [g2 rfl]
    refine Ok.bind (f1.thawBack wf hu f2.own (torn_no f2) f3) ?_
    rintro E4 ⟨k1, k2⟩
    have hk : Kept P E1 E4 := by
      constructor
      · intro x y hx
        rw [k2.view x y hx]
        by_cases hxu : x = u
        · subst hxu; simp only [if_true, f5]; rfl
        · simp only [hxu, if_false]
          by_cases hyu : y = u
          · subst hyu
            simp only [if_true, f5]
            exact h1.L_symm huN hx
          · simp only [hyu, if_false]
            rw [f2.view.links x y hx]; simp [hxu, hyu]
      · intro v
        by_cases hvu : v = u
        · subst hvu
          unfold Emb.NE
          rw [k2.own]
          simp only [Chain.has, f4]
        · unfold Emb.NE
          simp [Chain.has_congr (k2.par v hvu), Chain.has_congr (f2.par v hvu)]
    have hf4 := hf1.kept hk
    refine Ok.bind (k1.flipBack wf hR hu (cs := 0) (fun v hv => (g1 u hu).mem_iff.1 hv)
      (fun v hv _ => (hf4 u hu).2 v ((g1 u hu).mem_iff.1 hv))) ?_
    rintro E5 ⟨m1, m2⟩
    exact Ok.pure ⟨⟨g1, h.init, m1, h.best, h.last, h.ord⟩, hf4.same m2, rfl, rfl, rfl, rfl, rfl⟩

theorem bypass1_spec (wf : P.WF) (hR : Dom P R) (he : P.Even) {C : Cfg} {u : Nat} (hu : u < P.nv)
    {old : Int} {X : Run} (h : RI P R X) (hf : Full P X.curr) :
    Ok (Run.bypass1 P C old u X) (fun r => RI P R r.1 ∧ (r.2 = true → Full P r.1.curr) ∧
      r.1.best = X.best ∧ r.1.embedded = X.embedded ∧ r.1.stats = X.stats ∧ Fixed X r.1) := by
  unfold Run.bypass1
  refine Ok.bind (h.curr.stealAll wf hR hu (fun v hv => (h.vn u hu).mem_iff.1 hv)) ?_
  rintro E1 ⟨h1, h2⟩
  have hf1 := hf.same h2
  refine Ok.bind (h1.tearOut wf hu (fun v => (h.vn u hu).mem_iff)) ?_
  rintro E2 ⟨f1, f2⟩
  refine Ok.bind (findChain_spec wf hR he hu f1 f2.own (torn_no f2) h.vn) ?_
  rintro ⟨E3, S3, got⟩ ⟨g1, g2, g3⟩
  dsimp only at *
  cases got with
  | true =>
    obtain ⟨g4, g5⟩ := g3 rfl
    refine Ok.pure ⟨⟨g1, h.init, g4, h.best, h.last, h.ord⟩, fun _ => ?_, rfl, rfl, rfl, rfl, rfl⟩
    refine Part.full wf g4 ?_
    have := ((hf1.part (fun _ => True)).torn f2).rebuilt wf f1 hu g5
    intro x hx _
    exact this x hx (Or.inl trivial)
  | false =>
    rw [g2 rfl]
    exact Ok.pure ⟨⟨g1, h.init, f1, h.best, h.last, h.ord⟩, by simp, rfl, rfl, rfl, rfl, rfl⟩

theorem pushLoop_spec (wf : P.WF) (hR : Dom P R) (he : P.Even) {C : Cfg} {old : Int} :
    ∀ (l : List Nat) {imp : Bool} {X : Run}, Good P R X → Full P X.curr → X.embedded = false →
    (∀ u ∈ l, u < P.nv) →
    Ok (Run.pushLoop P C old l imp X) (fun r => Good P R r.1 ∧ Fixed X r.1 ∧
      (r.2.2 = true → Full P r.1.curr)) := by
  intro l
  induction l with
  | nil =>
    intro imp X h hf _ _
    exact Ok.pure ⟨h, ⟨rfl, rfl⟩, fun _ => hf⟩
  | cons u l ih =>
    intro imp X h hf hX hl
    have hu := hl u (by simp)
    unfold Run.pushLoop
    refine Ok.bind (P := fun r : Run × Bool => RI P R r.1 ∧ (r.2 = true → Full P r.1.curr) ∧
      r.1.best = X.best ∧ r.1.embedded = X.embedded ∧ r.1.stats = X.stats ∧ Fixed X r.1) ?_ ?_
    · split
      · refine Ok.bind (pushdown1_spec wf hR he hu h.ri hf) ?_
        rintro X1 ⟨h1, h2, h3⟩
        exact Ok.pure ⟨h1, fun _ => h2, h3⟩
      · exact bypass1_spec wf hR he hu h.ri hf
    · rintro ⟨X1, got⟩ ⟨h1, h2, h3, h4, h5, h6⟩
      dsimp only at *
      have hb1 : BestOK P R X1 := h.best.congr h3 h4 h5
      cases got with
      | false =>
        simp only [Bool.false_eq_true, if_false]
        exact Ok.pure ⟨⟨h1, hb1⟩, h6, by simp⟩
      | true =>
        simp only [if_true]
        refine Ok.bind (check_gain wf h1 (h2 rfl) hb1) ?_
        rintro ⟨X2, b⟩ ⟨k1, k2, k3, k4⟩
        dsimp only at *
        have hf2 : Full P X2.curr := by rw [k3.curr]; exact h2 rfl
        have hfix : Fixed X X2 := h6.trans ⟨k3.init, k3.last⟩
        split
        · exact Ok.pure ⟨⟨k1, k2⟩, hfix, fun _ => hf2⟩
        · next hne =>
          refine (ih ⟨k1, k2⟩ hf2 (by simpa using hne) (fun x hx => hl x (by simp [hx]))).mono ?_
          rintro r ⟨m1, m2, m3⟩
          exact ⟨m1, hfix.trans m2, m3⟩

theorem pushdownPass_spec (wf : P.WF) (hR : Dom P R) (he : P.Even) {C : Cfg} {A : Params} {X : Run}
    (hA : 0 < A.innerRounds) (h : Good P R X) (hf : Full P X.curr) (hX : X.embedded = false) :
    Safe A.Halts False (Run.pushdownPass P C A X) (Improved P R X) := by
  have hg0 : ∀ b Y, Gain P b X Y := fun b Y h => by rw [hX] at h; simp at h
  unfold Run.pushdownPass
  dsimp only
  refine Safe.bind (orderBy_spec wf h.ri).safe ?_
  rintro X1 ⟨h1, ⟨l, t, hX1⟩, h2, _⟩
  have hm1 : Moved' X X1 := by rw [hX1]; rfl
  have ho := h2 (by simp)
  have hf1 : Full P X1.curr := by rw [hX1]; exact hf
  refine Safe.bind (pushLoop_spec wf hR he X1.order ⟨h1, h.best.moved' hm1⟩ hf1 (by rw [hX1]; exact hX)
    (fun u hu => List.mem_range.1 (ho.mem_iff.1 hu))).safe ?_
  rintro ⟨X2, imp, ok⟩ ⟨k1, k2, k3⟩
  dsimp only at *
  have hfix := hm1.fixed.trans k2
  cases ok with
  | false =>
    simp only [Bool.false_eq_true, if_false]
    exact Safe.pure ⟨k1, hfix, by simp, hg0 _ _, by simp [hX]⟩
  | true =>
    simp only [if_true]
    have hgood : ∀ pb, Good P R { X2 with wb := X.wb, pushback := pb } := fun pb =>
      ⟨⟨k1.ri.vn, k1.ri.init, k1.ri.curr, k1.ri.best, k1.ri.last, k1.ri.ord⟩, k1.best.congr rfl rfl rfl⟩
    split
    · next hi =>
      subst hi
      exact endPass (hgood X2.pushback) (hfix.trans ⟨rfl, rfl⟩) (k3 rfl) (hg0 true _) rfl rfl
    · next hi =>
      have hi : imp = false := by simpa using hi
      subst hi
      rw [if_neg (by omega)]
      exact endPass (hgood _) (hfix.trans ⟨rfl, rfl⟩) (k3 rfl) (hg0 false _) rfl rfl

theorem mixPerms_spec (wf : P.WF) (hn : 0 < P.N) {X : Run} (h : Good P R X) :
    Ok (Run.mixPerms P X) (fun X' => Good P R X' ∧ Moved X X' ∧ X'.curr = X.curr) := by
  unfold Run.mixPerms
  have h0 : ¬ P.nv + P.nr = 0 := by
    have := wf.nf_le
    unfold Prob.N at hn
    omega
  rw [if_neg h0]
  exact Ok.pure ⟨⟨⟨h.ri.vn, h.ri.init, h.ri.curr, h.ri.best, h.ri.last, h.ri.ord⟩,
    h.best.congr rfl rfl rfl⟩, rfl, rfl⟩

theorem chainlengthPass_spec (wf : P.WF) (hR : Dom P R) (he : P.Even) {C : Cfg} {A : Params} {X : Run}
    (h : Good P R X) (hf : Full P X.curr) (hn : 0 < P.N) :
    Safe A.Halts False (Run.chainlengthPass P C A X) (Improved P R X) := by
  unfold Run.chainlengthPass
  refine Safe.bind (mixPerms_spec wf hn h).safe ?_
  rintro X0 ⟨h0, hm0, hc0⟩
  refine Safe.bind (orderBy_spec wf h0.ri).safe ?_
  rintro X1 ⟨h1, ⟨l, t, hX1⟩, h2, _⟩
  have hm1 : Moved' X X1 := hm0.weak.trans (by rw [hX1]; rfl)
  have hf1 : Full P X1.curr := by rw [hX1]; dsimp only; rw [hc0]; exact hf
  refine Safe.bind (improveLoop_spec wf hR he X1.order ⟨h1, h.best.moved' hm1⟩ hf1 h1.ord).safe ?_
  rintro ⟨X2, imp, ok⟩ ⟨k1, k2, k3, k4, b, k5, k6⟩
  dsimp only at *
  have hg : Gain P b X X2 := by
    have := (Gain.moved' (P := P) hm1).trans k5; simpa using this
  have hfix := hm1.fixed.trans k2
  cases ok with
  | false =>
    simp only [Bool.false_eq_true, if_false]
    refine Safe.pure ⟨k1, hfix, by simp, ?_, ?_⟩
    · intro hX
      obtain ⟨g1, g2⟩ := hg hX
      exact ⟨g1, by cases b <;> simp at g2 ⊢ <;> omega⟩
    · intro hX
      have := k4 (by rw [hm1]; exact hX)
      simp at this
  | true =>
    simp only [if_true]
    exact endPass k1 hfix (k3 rfl) hg (by simpa using k6) rfl

/-! ### the loops -/

theorem Good.restore (wf : P.WF) {X : Run} (h : Good P R X) :
    Good P R { X with curr := Emb.copy P X.curr X.best } ∧ Full P (Emb.copy P X.curr X.best) := by
  have hc := EInv.copy h.ri.curr.exact h.ri.curr.lab h.best.inv.toShape
  exact ⟨⟨⟨h.ri.vn, h.ri.init, hc.1, h.ri.best, h.ri.last, h.ri.ord⟩, h.best.congr rfl rfl rfl⟩,
    h.best.full.congr wf hc.2⟩

theorem Good.flags {X X' : Run} (h : Good P R X) (h1 : X'.best = X.best) (h2 : X'.last = X.last)
    (h3 : X'.curr = X.curr) (h4 : X'.init = X.init) (h5 : X'.S = X.S) (h6 : X'.order = X.order)
    (h7 : X'.embedded = X.embedded) (h8 : X'.stats = X.stats) : Good P R X' := by
  refine ⟨⟨?_, ?_, ?_, ?_, ?_, ?_⟩, h.best.congr h1 h7 h8⟩
  · rw [h5]; exact h.ri.vn
  · rw [h4]; exact h.ri.init
  · rw [h3]; exact h.ri.curr
  · rw [h1]; exact h.ri.best
  · rw [h2]; exact h.ri.last
  · rw [h6]; exact h.ri.ord

theorem rounds_spec (wf : P.WF) (hR : Dom P R) (he : P.Even) {C : Cfg} {A : Params} {trial : Nat} :
    ∀ (r : Nat) {ip : Nat} {X : Run}, r ≤ A.innerRounds → Good P R X → Full P X.curr →
    Safe A.Halts False (Run.rounds P C A trial r ip X) (fun s => Good P R s.1 ∧ Full P s.1.curr) := by
  intro r
  induction r with
  | zero => intro ip X _ h hf; exact Safe.pure ⟨h, hf⟩
  | succ r ih =>
    intro ip X hr h hf
    unfold Run.rounds
    by_cases hc : ip = 0 ∨ X.embedded = true
    · rw [if_pos hc]; exact Safe.pure ⟨h, hf⟩
    rw [if_neg hc]
    have hX : X.embedded = false := by
      cases hx : X.embedded with
      | false => rfl
      | true => exact absurd (Or.inr hx) hc
    dsimp only
    refine Safe.bind (P := fun s : Run × Pass => Good P R s.1 ∧ (s.2 ≠ .failed → Full P s.1.curr)) ?_ ?_
    · split
      · refine Safe.mono (P := Improved P R _) (pushdownPass_spec wf hR he (by omega)
          (h.flags rfl rfl rfl rfl rfl rfl rfl rfl) hf hX) ?_
        intro s hs; exact ⟨hs.good, hs.full⟩
      · have hg : Good P R { X with
            pushback := X.pushback - 1
            desperate := decide (ip ≤ 1) || decide (trial = 0) || decide (r = 0) } :=
          h.flags rfl rfl rfl rfl rfl rfl rfl rfl
        refine (overfillPass_spec wf hR he hg hf).mono ?_
        intro s hs; exact ⟨hs.good, hs.full⟩
    · rintro ⟨X1, res⟩ ⟨h1, h2⟩
      dsimp only at *
      cases res with
      | stopped => exact ih (by omega) h1 (h2 (by simp))
      | failed =>
        obtain ⟨k1, k2⟩ := h1.restore wf
        exact ih (by omega) (k1.flags rfl rfl rfl rfl rfl rfl rfl rfl) k2
      | same => exact ih (by omega) (h1.flags rfl rfl rfl rfl rfl rfl rfl rfl) (h2 (by simp))
      | better => exact ih (by omega) (h1.flags rfl rfl rfl rfl rfl rfl rfl rfl) (h2 (by simp))

theorem trials_spec (wf : P.WF) (hR : Dom P R) (he : P.Even) {C : Cfg} {A : Params} :
    ∀ (t : Nat) {X : Run}, Good P R X → Full P X.curr →
    Safe A.Halts False (Run.trials P C A t X) (Good P R) := by
  intro t
  induction t with
  | zero => intro X h _; exact Safe.pure h
  | succ t ih =>
    intro X h hf
    unfold Run.trials
    by_cases hX : X.embedded = true
    · rw [if_pos hX]; exact Safe.pure h
    rw [if_neg hX]
    refine Safe.bind (rounds_spec wf hR he A.innerRounds (Nat.le_refl _)
      (h.flags rfl rfl rfl rfl rfl rfl rfl rfl) hf) ?_
    rintro ⟨X1, ip⟩ ⟨h1, hf1⟩
    dsimp only at *
    by_cases hc : t ≠ 0 ∧ X1.embedded = false ∧ ip = 0
    · rw [if_pos hc]
      have hcp := EInv.copy h1.ri.curr.exact h1.ri.curr.lab h1.ri.init
      have hri : RI P R { X1 with desperate := false, pushback := 0, curr := Emb.copy P X1.curr X1.init } :=
        ⟨h1.ri.vn, h1.ri.init, hcp.1, h1.ri.best, h1.ri.last, h1.ri.ord⟩
      refine Safe.bind (initPass_spec wf hR he hri hc.2.1) ?_
      rintro ⟨X2, res⟩ ⟨k1, k2, k3, k4⟩
      dsimp only at *
      have hb0 : BestOK P R { X1 with desperate := false, pushback := 0, curr := Emb.copy P X1.curr X1.init } :=
        h1.best.congr rfl rfl rfl
      have hg2 : Good P R X2 := ⟨k1, hb0.moved' k2⟩
      cases res with
      | stopped => exact Safe.pure hg2
      | same => exact absurd rfl k4
      | failed =>
        obtain ⟨m1, m2⟩ := hg2.restore wf
        exact ih m1 m2
      | better =>
        have hri2 : RI P R { X2 with stats := [] } := ⟨k1.vn, k1.init, k1.curr, k1.best, k1.last, k1.ord⟩
        refine Safe.bind (check_spec wf hri2 (k3 rfl) (Or.inr ⟨rfl, ?_⟩)).safe ?_
        · dsimp only; rw [k2]; exact hc.2.1
        rintro ⟨X3, b⟩ ⟨m1, m2, m3, _⟩
        dsimp only at *
        refine ih ⟨m1, m2⟩ ?_
        rw [m3.curr]; exact k3 rfl
    · rw [if_neg hc]
      exact ih h1 hf1

/-- Measure decreasing in the chain length improvement loop. -/
theorem shrink_spec (wf : P.WF) (hR : Dom P R) (he : P.Even) {C : Cfg} {A : Params} (hn : 0 < P.N) :
    ∀ (fuel : Nat) {ip : Nat} {X : Run}, Good P R X → Full P X.curr → X.embedded = true →
    ip ≤ A.clPatience → (A.clPatience + 1) * histVal P X.stats + ip ≤ fuel →
    Safe A.Halts False (Run.shrink P C A fuel ip X) (fun X' => Good P R X' ∧ Gain P false X X') := by
  intro fuel
  induction fuel with
  | zero =>
    intro ip X h _ hX hip hm
    have : ip = 0 := by omega
    subst this
    unfold Run.shrink
    exact Safe.pure ⟨h, Gain.refl X⟩
  | succ fuel ih =>
    intro ip X h hf hX hip hm
    cases ip with
    | zero => unfold Run.shrink; exact Safe.pure ⟨h, Gain.refl X⟩
    | succ ip =>
      unfold Run.shrink
      dsimp only
      have hcp := EInv.copy h.ri.last.1 h.ri.last.2 h.ri.curr.toShape
      have h0 : Good P R { X with last := Emb.copy P X.last X.curr, desperate := decide (ip = 0) } :=
        ⟨⟨h.ri.vn, h.ri.init, h.ri.curr, h.ri.best, hcp.1.base, h.ri.ord⟩, h.best.congr rfl rfl rfl⟩
      refine Safe.bind (chainlengthPass_spec wf hR he h0 hf hn) ?_
      rintro ⟨X1, res⟩ h1
      have hg := h1.gain hX
      have hg' : ∀ b, Gain P b { X with last := Emb.copy P X.last X.curr, desperate := decide (ip = 0) } X1 →
          Gain P b X X1 := fun b h => h
      have hgain := hg' _ h1.gain
      dsimp only at hg hgain ⊢
      obtain ⟨e1, e2⟩ := hg
      cases res with
      | failed => exact absurd rfl (h1.emb hX)
      | stopped => exact Safe.pure ⟨h1.good, by simpa using hgain⟩
      | same =>
        have hg1 : Good P R { X1 with improved := false } :=
          h1.good.flags rfl rfl rfl rfl rfl rfl rfl rfl
        refine (ih (ip := ip) hg1 (h1.full (by simp)) e1 (by omega) ?_).mono ?_
        · simp at e2
          have := Nat.mul_le_mul_left (A.clPatience + 1) e2
          dsimp only; omega
        · rintro X' ⟨k1, k2⟩
          refine ⟨k1, ?_⟩
          have k2' : Gain P false X1 X' := k2
          simpa using hgain.trans k2'
      | better =>
        have hg1 : Good P R { X1 with improved := true } :=
          h1.good.flags rfl rfl rfl rfl rfl rfl rfl rfl
        refine (ih (ip := A.clPatience) hg1 (h1.full (by simp)) e1 (Nat.le_refl _) ?_).mono ?_
        · simp at e2
          have := Nat.mul_le_mul_left (A.clPatience + 1) e2
          rw [Nat.mul_add] at this
          dsimp only; omega
        · rintro X' ⟨k1, k2⟩
          refine ⟨k1, ?_⟩
          have k2' : Gain P false X1 X' := k2
          have := hgain.trans k2'
          intro hX
          obtain ⟨a, b⟩ := this hX
          refine ⟨a, ?_⟩
          simp at b ⊢; omega

/-- What holds of a pathfinder between calls. -/
structure RI0 (P : Prob) (R : Nat → Nat → Prop) (X : Run) : Prop where
  vn : VnOK P X.S
  init : X.init.Shape P R
  curr : Base P X.curr
  best : Base P X.best
  last : Base P X.last
  ord : ∀ u ∈ X.order, u < P.nv

theorem RI.weak {X : Run} (h : RI P R X) : RI0 P R X :=
  ⟨h.vn, h.init, h.curr.base, h.best, h.last, h.ord⟩

/-- A stop is met. -/
def Params.Stops (A : Params) : Prop := ∃ n, (A.stops n).1 = true ∨ (A.stops n).2 = true

theorem initPass_stopped {C : Cfg} {A : Params} {X : Run} {r : Run × Pass} (h : Run.initPass P C A X = .ok r)
    (hr : r.2 = .stopped) : A.Stops := by
  unfold Run.initPass at h
  simp only [bind, Except.bind] at h
  split at h
  · simp at h
  · split at h
    · simp at h
    · split at h
      · unfold Run.checkStops at h
        dsimp only at h
        split at h
        · next h1 => exact ⟨_, Or.inl h1⟩
        · split at h
          · next h1 => exact ⟨_, Or.inr h1⟩
          · simp only [Except.ok.injEq] at h
            rw [← h] at hr; simp at hr
      · simp only [Except.ok.injEq] at h
        rw [← h] at hr; simp at hr

/-- `heuristicEmbedding` from any state meeting the invariant: no undefined behaviour, no
divergence; success means the best embedding is complete and without overlaps. -/
theorem heuristicFor_full (wf : P.WF) (hR : Dom P R) (he : P.Even) (hn : 0 < P.N) {C : Cfg} {A : Params} {X : Run}
    (h : RI0 P R X) {fuel : Nat} (hfu : Run.shrinkFuel P A ≤ fuel) :
    Safe A.Halts (Refuses P A X) (Run.heuristicFor P C A fuel X) (fun r => RI P R r.1 ∧ r.2 = r.1.embedded ∧
      (Good P R r.1 ∨ r.2 = false ∧ r.1.best = X.best ∧ A.Stops)) := by
  unfold Run.heuristicFor
  have hcp := EInv.copy h.curr.1 h.curr.2 h.init
  refine Safe.bind (P := fun r : Run × Bool => RI P R r.1 ∧ r.1.embedded = false ∧
    (r.2 = true → Full P r.1.curr) ∧ r.1.best = X.best ∧ (r.2 = false → A.Stops)) ?_ ?_
  · unfold Run.start Run.resetMood
    dsimp only
    by_cases hs : A.skipInit = true
    · rw [if_pos hs]
      by_cases hl : X.init.linked P X.S.vn = true
      · rw [if_pos hl]
        refine Safe.pure ⟨⟨h.vn, h.init, hcp.1, h.best, h.last, h.ord⟩, rfl, fun _ => ?_, rfl, by simp⟩
        dsimp only
        refine Full.congr (E := X.init) wf ?_ hcp.2
        intro u hu
        unfold Emb.linked at hl
        have := List.all_eq_true.1 hl u (List.mem_range.2 hu)
        unfold Emb.linked1 at this
        simp only [Bool.and_eq_true, List.all_eq_true] at this
        exact ⟨this.1, fun v hv => this.2 v ((h.vn u hu).mem_iff.2 hv)⟩
      · rw [if_neg hl]; exact Or.inr (Or.inl ⟨fun _ => by simpa using hl, rfl⟩)
    · rw [if_neg hs]
      have hri : RI P R { X with wb := A.bound, embedded := false, desperate := false, cs := 0, improved := false, curr := Emb.copy P X.curr X.init } :=
        ⟨h.vn, h.init, hcp.1, h.best, h.last, h.ord⟩
      refine Safe.bind (initPass_spec wf hR he hri rfl).kept.weak ?_
      rintro ⟨X1, res⟩ ⟨⟨k1, k2, k3, k4⟩, k5⟩
      have he1 : X1.embedded = false := by
        dsimp only at k2; rw [k2]
      have hb1 : X1.best = X.best := by
        dsimp only at k2; rw [k2]
      cases res with
      | stopped => exact Safe.pure ⟨k1, he1, by simp, hb1, fun _ => initPass_stopped k5 rfl⟩
      | failed => exact Or.inr (Or.inl ⟨fun h' => absurd h' hs, rfl⟩)
      | same => exact absurd rfl k4
      | better => exact Safe.pure ⟨k1, he1, fun _ => k3 rfl, hb1, by simp⟩
  rintro ⟨X1, go⟩ ⟨h1, he1, hf1, hb1, hs1⟩
  dsimp only at *
  cases go with
  | false =>
    simp only [Bool.false_eq_true, if_false]
    exact Safe.pure ⟨h1, he1.symm, Or.inr ⟨rfl, hb1, hs1 rfl⟩⟩
  | true =>
    simp only [if_true]
    have hri : RI P R { X1 with stats := [] } := ⟨h1.vn, h1.init, h1.curr, h1.best, h1.last, h1.ord⟩
    refine Safe.bind (check_spec wf hri (hf1 rfl) (Or.inr ⟨rfl, he1⟩)).safe ?_
    rintro ⟨X2, _⟩ ⟨m1, m2, m3, _⟩
    dsimp only at *
    obtain ⟨r1, r2⟩ := Good.restore wf ⟨m1, m2⟩
    refine Safe.bind (Safe.weak (by
      exact trials_spec wf hR he A.tries (r1.flags rfl rfl rfl rfl rfl rfl rfl rfl) r2)) ?_
    intro X3 h3
    by_cases hc : X3.embedded = true ∧ A.clPatience ≠ 0
    · rw [if_pos hc]
      obtain ⟨s1, s2⟩ := h3.restore wf
      refine Safe.bind (Safe.weak (by
        refine shrink_spec wf hR he hn fuel (s1.flags rfl rfl rfl rfl rfl rfl rfl rfl)
          s2 hc.1 (Nat.le_refl _) ?_
        have hv : StatsOK P X3.best (true, X3.stats) := by rw [← hc.1]; exact h3.best.st
        have := histVal_lt hv
        have := Nat.mul_le_mul_left (A.clPatience + 1) (Nat.le_of_lt this)
        unfold Run.shrinkFuel at hfu
        rw [Nat.mul_add] at hfu
        dsimp only
        omega)) ?_
      · rintro X4 ⟨k1, k2⟩
        exact Safe.pure ⟨k1.ri, rfl, Or.inl k1⟩
    · rw [if_neg hc]
      exact Safe.pure ⟨h3.ri, rfl, Or.inl h3⟩

theorem heuristicFor_spec (wf : P.WF) (hR : Dom P R) (he : P.Even) (hn : 0 < P.N) {C : Cfg} {A : Params} {X : Run}
    (h : RI0 P R X) {fuel : Nat} (hfu : Run.shrinkFuel P A ≤ fuel) :
    Safe A.Halts (Refuses P A X) (Run.heuristicFor P C A fuel X) (fun r => RI P R r.1 ∧ r.2 = r.1.embedded ∧
      (Good P R r.1 ∨ r.2 = false ∧ r.1.best = X.best)) :=
  (heuristicFor_full wf hR he hn h hfu).mono (fun _ k => ⟨k.1, k.2.1, k.2.2.imp_right (fun k => ⟨k.1, k.2.1⟩)⟩)

theorem heuristic_full (wf : P.WF) (hR : Dom P R) (he : P.Even) (hn : 0 < P.N) {C : Cfg} {A : Params} {X : Run}
    (h : RI0 P R X) :
    Safe A.Halts (Refuses P A X) (Run.heuristic P C A X) (fun r => RI P R r.1 ∧ r.2 = r.1.embedded ∧
      (Good P R r.1 ∨ r.2 = false ∧ r.1.best = X.best ∧ A.Stops)) :=
  heuristicFor_full wf hR he hn h (Nat.le_refl _)

theorem heuristic_spec (wf : P.WF) (hR : Dom P R) (he : P.Even) (hn : 0 < P.N) {C : Cfg} {A : Params} {X : Run}
    (h : RI0 P R X) :
    Safe A.Halts (Refuses P A X) (Run.heuristic P C A X) (fun r => RI P R r.1 ∧ r.2 = r.1.embedded ∧
      (Good P R r.1 ∨ r.2 = false ∧ r.1.best = X.best)) :=
  heuristicFor_spec wf hR he hn h (Nat.le_refl _)

end MM
