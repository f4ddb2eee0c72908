import Verif.Core.RunPost

/-! A search that starts from a complete embedding without overlaps. -/

namespace MM

open Scratch (Cfg)
open Spec (Better)

variable {P : Prob} {R : Nat → Nat → Prop} {C : Cfg} {A : Params}

/-- Nothing is left to do for the initialization. -/
theorem initLoop_full : ∀ (l : List Nat) {X : Run}, EInv P R X.curr → VnOK P X.S → Full P X.curr →
    (∀ u ∈ l, u < P.nv) → Run.initLoop P C l X = .ok (X, true) := by
  intro l
  induction l with
  | nil => intro X _ _ _ _; rfl
  | cons u l ih =>
    intro X hE hS hf hl
    have hu := hl u (by simp)
    have huN : u < P.N := by unfold Prob.N; omega
    unfold Run.initLoop
    rw [if_pos]
    · exact ih hE hS hf (fun x hx => hl x (by simp [hx]))
    · refine ⟨(hE.size_iff huN).2 (hE.L_ne huN (hf u hu).1), ?_⟩
      unfold Emb.linked1
      simp only [Bool.and_eq_true, List.all_eq_true]
      exact ⟨(hf u hu).1, fun v hv => (hf u hu).2 v ((hS u hu).mem_iff.1 hv)⟩

theorem linked_full {E : Emb} {S : Scratch} (hS : VnOK P S) (hf : Full P E) : E.linked P S.vn = true := by
  unfold Emb.linked
  rw [List.all_eq_true]
  intro u hu
  have hu := List.mem_range.1 hu
  unfold Emb.linked1
  simp only [Bool.and_eq_true, List.all_eq_true]
  exact ⟨(hf u hu).1, fun v hv => (hf u hu).2 v ((hS u hu).mem_iff.1 hv)⟩

/-- The start of the search. -/
theorem start_full (wf : P.WF) {X : Run} (h : RI0 P R X) (hf : Full P X.init) :
    Safe A.Halts False (Run.start P C A X) (fun r => RI P R r.1 ∧ r.1.embedded = false ∧
      Full P r.1.curr ∧ (∀ v, v < P.N → r.1.curr.chains v = X.init.chains v) ∧ r.1.best = X.best ∧
      (r.2 = false → (A.stops X.clock).1 = true ∨ (A.stops X.clock).2 = true)) := by
  have hcp := EInv.copy h.curr.1 h.curr.2 h.init
  have hfc : Full P (Emb.copy P X.curr X.init) := hf.congr wf hcp.2
  unfold Run.start Run.resetMood
  dsimp only
  by_cases hs : A.skipInit = true
  · rw [if_pos hs, if_pos (linked_full h.vn hf)]
    exact Safe.pure ⟨⟨h.vn, h.init, hcp.1, h.best, h.last, h.ord⟩, rfl, hfc, hcp.2, rfl, by simp⟩
  · rw [if_neg hs]
    have hri : RI P R { X with wb := A.bound, embedded := false, desperate := false, cs := 0, improved := false, curr := Emb.copy P X.curr X.init } :=
      ⟨h.vn, h.init, hcp.1, h.best, h.last, h.ord⟩
    unfold Run.initPass
    refine Safe.bind (P := fun s : Run × Pass => RI P R s.1 ∧ s.1.embedded = false ∧ Full P s.1.curr ∧
      (∀ v, v < P.N → s.1.curr.chains v = X.init.chains v) ∧ s.1.best = X.best ∧
      (s.2 = .better ∨ s.2 = .stopped ∧ ((A.stops X.clock).1 = true ∨ (A.stops X.clock).2 = true))) ?_ ?_
    · refine Safe.bind (orderBy_spec wf hri).safe ?_
      rintro X1 ⟨h1, ⟨l, t, hX1⟩, _⟩
      have hf1 : Full P X1.curr := by rw [hX1]; exact hfc
      rw [initLoop_full X1.order h1.curr h1.vn hf1 h1.ord]
      refine Safe.bind (P := fun r => r = (X1, true)) (Safe.pure rfl) ?_
      rintro _ rfl
      simp only [if_true]
      have hcl : X1.clock = X.clock := by rw [hX1]
      unfold Run.checkStops
      rw [hcl]
      dsimp only
      have hri' : RI P R { X1 with clock := X.clock + 1 } := ⟨h1.vn, h1.init, h1.curr, h1.best, h1.last, h1.ord⟩
      have hch : ∀ v, v < P.N → X1.curr.chains v = X.init.chains v := by rw [hX1]; exact hcp.2
      have he1 : X1.embedded = false := by rw [hX1]
      have hb1 : X1.best = X.best := by rw [hX1]
      by_cases hi : (A.stops X.clock).1 = true
      · rw [if_pos hi]
        by_cases ha : A.interactive = true
        · rw [if_pos ha]
          exact Safe.pure ⟨hri', he1, hf1, hch, hb1, Or.inr ⟨rfl, Or.inl hi⟩⟩
        · rw [if_neg ha]
          exact Or.inr (Or.inr ⟨⟨by simpa using ha, _, hi⟩, rfl⟩)
      · rw [if_neg hi]
        by_cases ht : (A.stops X.clock).2 = true
        · rw [if_pos ht]
          exact Safe.pure ⟨hri', he1, hf1, hch, hb1, Or.inr ⟨rfl, Or.inr ht⟩⟩
        · rw [if_neg ht]
          exact Safe.pure ⟨hri', he1, hf1, hch, hb1, Or.inl rfl⟩
    · rintro ⟨Y, res⟩ ⟨h1, h2, h3, h4, h5, h6⟩
      dsimp only at *
      rcases h6 with rfl | ⟨rfl, h6⟩
      · exact Safe.pure ⟨h1, h2, h3, h4, h5, by simp⟩
      · exact Safe.pure ⟨h1, h2, h3, h4, h5, fun _ => h6⟩

/-- A search that starts from a complete embedding without overlaps succeeds, unless it is
stopped at once, and its result is the embedding it started from or a better one. -/
theorem heuristic_restart (wf : P.WF) (hR : Dom P R) (he : P.Even) (hn : 0 < P.N) {X : Run} (h : RI0 P R X)
    (hf : Full P X.init) (hfill : ∀ q, q < P.nq → X.init.fill P q ≤ 1) :
    Safe A.Halts False (Run.heuristic P C A X) (fun r =>
      (r.2 = true ∧ ∃ l, StatsOK P X.init (true, l) ∧
        ((∀ v, v < P.N → r.1.best.chains v = X.init.chains v) ∨ Better r.1.quality (true, l))) ∨
      (r.2 = false ∧ ((A.stops X.clock).1 = true ∨ (A.stops X.clock).2 = true))) := by
  unfold Run.heuristic Run.heuristicFor
  refine Safe.bind (start_full wf h hf) ?_
  rintro ⟨X1, go⟩ ⟨h1, he1, hf1, hc1, hb1, hs1⟩
  dsimp only at *
  cases go with
  | false =>
    simp only [Bool.false_eq_true, if_false]
    exact Safe.pure (Or.inr ⟨rfl, hs1 rfl⟩)
  | true =>
    simp only [if_true]
    have hri : RI P R { X1 with stats := [] } := ⟨h1.vn, h1.init, h1.curr, h1.best, h1.last, h1.ord⟩
    refine Safe.bind (check_spec wf hri hf1 (Or.inr ⟨rfl, he1⟩)).safe ?_
    rintro ⟨X2, b⟩ ⟨m1, m2, m3, st, m4⟩
    dsimp only at *
    have hst : StatsOK P X.init st := m4.ok.congr (fun v hv => (hc1 v hv).symm)
    have hst1 : st.1 = true := hst.flag.2 hfill
    have hb : b = true := by
      have := m4.dec
      dsimp only at this
      rw [this, hst1, he1]; rfl
    obtain ⟨y1, y2, y3⟩ := m4.yes hb
    dsimp only at y1 y2 y3
    have hX2 : X2.embedded = true := by rw [y1, hst1]
    have hst' : StatsOK P X.init (true, st.2) := by
      have : (true, st.2) = st := by rw [← hst1]
      rw [this]; exact hst
    have hch : ∀ v, v < P.N → X2.best.chains v = X.init.chains v := fun v hv => (y3 v hv).trans (hc1 v hv)
    rw [trials_embedded A.tries (show ({ X2 with improved := true, curr := Emb.copy P X2.curr X2.best } : Run).embedded = true from hX2)]
    refine Safe.bind (P := fun Y => Y = { X2 with improved := true, curr := Emb.copy P X2.curr X2.best }) (Safe.pure rfl) ?_
    rintro _ rfl
    obtain ⟨r1, r2⟩ := Good.restore wf ⟨m1, m2⟩
    by_cases hc : X2.embedded = true ∧ A.clPatience ≠ 0
    · rw [if_pos hc]
      have hg3 : Good P R { X2 with improved := true, curr := Emb.copy P X2.curr X2.best } :=
        r1.flags rfl rfl rfl rfl rfl rfl rfl rfl
      obtain ⟨s1, s2⟩ := hg3.restore wf
      have hsp := shrink_spec wf hR he hn (C := C) (A := A) (Run.shrinkFuel P A) (X := { X2 with
          improved := true, wb := 1, curr := Emb.copy P (Emb.copy P X2.curr X2.best) X2.best })
        (s1.flags rfl rfl rfl rfl rfl rfl rfl rfl) s2 hc.1 (Nat.le_refl _) (by
          have hv : StatsOK P X2.best (true, X2.stats) := by rw [← hc.1]; exact m2.st
          have := histVal_lt hv
          have := Nat.mul_le_mul_left (A.clPatience + 1) (Nat.le_of_lt this)
          unfold Run.shrinkFuel
          rw [Nat.mul_add]
          dsimp only
          omega)
      have hq : Run.quality { X2 with improved := true, wb := 1, curr := Emb.copy P (Emb.copy P X2.curr X2.best) X2.best } =
          (true, st.2) := by
        unfold Run.quality; dsimp only; rw [hX2, y2]
      refine Safe.bind (P := fun Y => NoWorse { X2 with
          improved := true, wb := 1, curr := Emb.copy P (Emb.copy P X2.curr X2.best) X2.best } Y) ?_ ?_
      · rcases hsp with ⟨Y, hY, _⟩ | ⟨hx, _⟩ | ⟨hi, hY⟩
        · exact Or.inl ⟨Y, hY, ((along_noWorse P A).shrink (C := C) (Run.shrinkFuel P A)) Y hY⟩
        · exact hx.elim
        · exact Or.inr (Or.inr ⟨hi, hY⟩)
      · intro Y hnw
        have hnw := hnw (by dsimp only; rw [y2]; exact hst.ne_nil)
        rw [hq] at hnw
        refine Safe.pure (Or.inl ⟨?_, st.2, hst', ?_⟩)
        · rcases hnw.2 with ⟨_, h⟩ | h | h
          · exact congrArg Prod.fst h
          · exact h.1
          · exact h.1
        · rcases hnw.2 with ⟨hk, _⟩ | hk
          · left
            intro v hv
            dsimp only at hk ⊢
            rw [hk]; exact hch v hv
          · exact Or.inr hk
    · rw [if_neg hc]
      exact Safe.pure (Or.inl ⟨hX2, st.2, hst', Or.inl hch⟩)

end MM
