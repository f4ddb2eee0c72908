import Verif.Graph.Signed
import Verif.Graph.Result
import Verif.Core.SignedInv

/-! What a call with `int` counts returns. -/

namespace MM

open Scratch (Cfg)

variable {P : Prob} {R : Nat → Nat → Prop} {C : Cfg} {A : Params} {N : Counts}

/-- The first part of the search, as far as needed here. -/
theorem start_good (wf : P.WF) (hR : Dom P R) (he : P.Even) {X : Run} (h : RI0 P R X) :
    Post (Run.start P C A X) (fun r => RI P R r.1 ∧ r.1.embedded = false ∧
      (r.2 = true → Full P r.1.curr) ∧ (r.2 = false → A.Stops)) := by
  have hcp := EInv.copy h.curr.1 h.curr.2 h.init
  unfold Run.start Run.resetMood
  dsimp only
  by_cases hs : A.skipInit = true
  · rw [if_pos hs]
    by_cases hl : X.init.linked P X.S.vn = true
    · rw [if_pos hl]
      refine Post.pure ⟨⟨h.vn, h.init, hcp.1, h.best, h.last, h.ord⟩, rfl, fun _ => ?_, by simp⟩
      dsimp only
      refine Full.congr (E := X.init) wf ?_ hcp.2
      intro u hu
      unfold Emb.linked at hl
      have := List.all_eq_true.1 hl u (List.mem_range.2 hu)
      unfold Emb.linked1 at this
      simp only [Bool.and_eq_true, List.all_eq_true] at this
      exact ⟨this.1, fun v hv => this.2 v ((h.vn u hu).mem_iff.2 hv)⟩
    · rw [if_neg hl]; exact Post.error
  · rw [if_neg hs]
    have hri : RI P R { X with wb := A.bound, embedded := false, desperate := false, cs := 0, improved := false, curr := Emb.copy P X.curr X.init } :=
      ⟨h.vn, h.init, hcp.1, h.best, h.last, h.ord⟩
    refine Post.bind (Post.of_safe (initPass_spec wf hR he hri rfl).kept) ?_
    rintro ⟨X1, res⟩ ⟨⟨k1, k2, k3, k4⟩, k5⟩
    have he1 : X1.embedded = false := by
      dsimp only at k2; rw [k2]
    cases res with
    | stopped => exact Post.pure ⟨k1, he1, by simp, fun _ => initPass_stopped k5 rfl⟩
    | failed => exact Post.error
    | same => exact absurd rfl k4
    | better => exact Post.pure ⟨k1, he1, fun _ => k3 rfl, by simp⟩

/-- What a search that returns has found. -/
theorem heuristicS_good (wf : P.WF) (hR : Dom P R) (he : P.Even) (hn : 0 < P.N) {X : Run} (h : RI0 P R X) (fuel : Nat) :
    Post (Run.heuristicS P C A N fuel X) (fun r => (r.2 = true → Good P R r.1 ∧ r.1.embedded = true) ∧
      (¬ A.Stops → N.tries < 0 → r.2 = true) ∧ (¬ A.Stops → N.clPatience < 0 → r.2 = false)) := by
  unfold Run.heuristicS
  refine Post.bind (start_good wf hR he h) ?_
  rintro ⟨X1, go⟩ ⟨h1, he1, hf1, hs1⟩
  dsimp only at *
  cases go with
  | false =>
    simp only [Bool.false_eq_true, if_false]
    exact Post.pure ⟨by simp, fun hs => absurd (hs1 rfl) hs, fun _ _ => rfl⟩
  | true =>
    simp only [if_true]
    have hri : RI P R { X1 with stats := [] } := ⟨h1.vn, h1.init, h1.curr, h1.best, h1.last, h1.ord⟩
    refine Post.bind (Post.of_safe (i := False) (b := False) (check_spec wf hri (hf1 rfl) (Or.inr ⟨rfl, he1⟩)).safe) ?_
    rintro ⟨X2, _⟩ ⟨m1, m2, m3, _⟩
    dsimp only at *
    obtain ⟨r1, r2⟩ := Good.restore wf ⟨m1, m2⟩
    refine Post.bind (trialsS_good wf hR he _ (r1.flags rfl rfl rfl rfl rfl rfl rfl rfl) r2) ?_
    rintro X3 ⟨h3, h3'⟩
    have htick : N.tries < 0 → Run.ticks N.tries < 2 ^ 31 := by
      intro hlt; unfold Run.ticks; omega
    by_cases hc : X3.embedded = true ∧ N.clPatience ≠ 0
    · rw [if_pos hc]
      obtain ⟨s1, s2⟩ := h3.restore wf
      intro r hr
      have key1 := Post.bind (shrinkS_good (C := C) (A := A) (N := N) wf hR he hn fuel (ip := N.clPatience)
        (s1.flags (X' := { X3 with wb := 1, curr := Emb.copy P X3.curr X3.best }) rfl rfl rfl rfl rfl rfl rfl rfl) s2 hc.1)
        (f := fun X => (.ok (X, X.embedded) : M (Run × Bool))) (Q := fun r => Good P R r.1 ∧ r.1.embedded = true ∧ r.2 = true)
        (fun Y hY => Post.pure ⟨hY.1, hY.2, hY.2⟩) r hr
      refine ⟨fun _ => ⟨key1.1, key1.2.1⟩, fun _ _ => key1.2.2, fun hs hlt => ?_⟩
      exact (Post.bind (shrinkS_endless (P := P) (C := C) hlt hs fuel hlt)
        (f := fun X => (.ok (X, X.embedded) : M (Run × Bool))) (Q := fun _ => False) (fun _ hY => hY.elim) r hr).elim
    · rw [if_neg hc]
      refine Post.pure ⟨fun he => ⟨h3, he⟩, ?_, ?_⟩
      · intro hs hlt
        exact (h3' (htick hlt)).resolve_right hs
      · intro hs hlt
        dsimp only
        cases he : X3.embedded with
        | false => rfl
        | true => exact absurd ⟨he, by omega⟩ hc

/-- Negative patience and a time limit: what was found without the last phase is kept and shortened until
the time is up. -/
theorem heuristicS_timeout (wf : P.WF) (hR : Dom P R) (he : P.Even) (hn : 0 < P.N) {X : Run} (h : RI0 P R X)
    (hi : ¬ A.Halts) {n : Nat} (hs : ∀ m, n ≤ m → (A.stops m).2 = true)
    (hN : -2 ^ 31 + (n : Int) + 1 ≤ N.clPatience) (hN' : N.clPatience < 0) {fuel : Nat} {r : Run × Bool}
    (hr : Run.heuristicS P C A { N with clPatience := 0 } fuel X = .ok r) (hr' : r.2 = true) :
    Ok (Run.heuristicS P C A N (n + 1) X) (fun r => Good P R r.1 ∧ r.1.embedded = true ∧ r.2 = true) := by
  have htr : ∀ (k : Nat) (Z : Run), Run.trialsS P C A { N with clPatience := 0 } k Z = Run.trialsS P C A N k Z := by
    have hro : ∀ (trial : Int) (k : Nat) (ip : Int) (Z : Run),
        Run.roundsS P C A { N with clPatience := 0 } trial k ip Z = Run.roundsS P C A N trial k ip Z := by
      intro trial k
      induction k with
      | zero => intro ip Z; rfl
      | succ k ih =>
        intro ip Z
        unfold Run.roundsS
        by_cases hc : (k : Int) + 1 = 2 ^ 31 ∨ ip = 0 ∨ Z.embedded = true
        · rw [if_pos hc, if_pos hc]
        rw [if_neg hc, if_neg hc]
        refine bind_congr_post Post.triv ?_
        intro _ _
        show (Run.passS P C A N _ >>= _) = (Run.passS P C A N _ >>= _)
        refine bind_congr_post Post.triv ?_
        rintro ⟨W, res⟩ _
        cases res with
        | stopped => exact ih _ _
        | failed => exact bind_congr_post Post.triv (fun _ _ => ih _ _)
        | same => exact bind_congr_post Post.triv (fun _ _ => ih _ _)
        | better => exact ih _ _
    intro k
    induction k with
    | zero => intro Z; rfl
    | succ k ih =>
      intro Z
      unfold Run.trialsS
      by_cases hc : (k : Int) + 1 = 2 ^ 31 ∨ Z.embedded = true
      · rw [if_pos hc, if_pos hc]
      rw [if_neg hc, if_neg hc, hro]
      refine bind_congr_post Post.triv ?_
      rintro ⟨W, ip⟩ _
      dsimp only
      by_cases hd : (k : Int) ≠ 2 ^ 31 ∧ W.embedded = false ∧ ip = 0
      · rw [if_pos hd, if_pos hd]
        refine bind_congr_post Post.triv ?_
        rintro ⟨V, res⟩ _
        cases res with
        | stopped => rfl
        | failed => exact ih _
        | same => exact ih _
        | better => exact bind_congr_post Post.triv (fun _ _ => ih _)
      · rw [if_neg hd, if_neg hd]; exact ih _
  unfold Run.heuristicS at hr ⊢
  have hst := start_good (C := C) (A := A) wf hR he h
  cases hS : Run.start P C A X with
  | error e => rw [hS] at hr; simp [bind, Except.bind] at hr
  | ok s =>
    obtain ⟨X1, go⟩ := s
    obtain ⟨h1, he1, hf1, hs1⟩ := hst _ hS
    rw [hS] at hr
    dsimp only [bind, Except.bind] at hr he1 hf1 h1 hs1 ⊢
    cases go with
    | false =>
      simp only [Bool.false_eq_true, if_false, Except.ok.injEq] at hr
      rw [← hr] at hr'; simp at hr'
    | true =>
      simp only [if_true] at hr ⊢
      have hri : RI P R { X1 with stats := [] } := ⟨h1.vn, h1.init, h1.curr, h1.best, h1.last, h1.ord⟩
      obtain ⟨⟨X2, b⟩, hX2, m1, m2, m3, _⟩ := check_spec wf hri (hf1 rfl) (Or.inr ⟨rfl, he1⟩)
      rw [hX2] at hr ⊢
      dsimp only at hr m1 m2 m3 ⊢
      obtain ⟨r1, r2⟩ := Good.restore wf ⟨m1, m2⟩
      rw [htr] at hr
      have htg := trialsS_good (C := C) (A := A) (N := N) wf hR he (Run.ticks N.tries)
        (r1.flags (X' := { X2 with improved := true, curr := Emb.copy P X2.curr X2.best }) rfl rfl rfl rfl rfl rfl rfl rfl) r2
      cases hT : Run.trialsS P C A N (Run.ticks N.tries)
          { X2 with improved := true, curr := Emb.copy P X2.curr X2.best } with
      | error e => rw [hT] at hr; simp at hr
      | ok X3 =>
        have h3 := (htg _ hT).1
        rw [hT] at hr
        dsimp only at hr ⊢
        rw [if_neg (by simp)] at hr
        simp only [Except.ok.injEq] at hr
        have hem : X3.embedded = true := by rw [← hr] at hr'; exact hr'
        rw [if_pos ⟨hem, by omega⟩]
        obtain ⟨s1, s2⟩ := h3.restore wf
        obtain ⟨Y, hY, hg, hYe⟩ := shrinkS_ends (C := C) wf hR he hn hi hs hN hN' n (ip := N.clPatience)
          (s1.flags (X' := { X3 with wb := 1, curr := Emb.copy P X3.curr X3.best }) rfl rfl rfl rfl rfl rfl rfl rfl) s2 hem
          (by dsimp only; omega) (Nat.le_refl _) hN' hN
        rw [hY]
        exact Ok.pure ⟨hg, hYe, hYe⟩

variable {sort : List (List Nat) → List (List Nat)} {I : Input}

/-- The stages of a call. -/
theorem findEmbeddingS_run (hs : SortOK sort) (hI : I.OK) (hr : I.Compatible) {fuel : Nat} {ro : Bool} {t : Tape}
    {r : Bool × List (List Nat)} (h : findEmbeddingS sort C A N fuel ro I t = .ok r) :
    ∃ p l0 X Y, I.process sort = .ok p ∧ p.Rep I l0 ∧ Run.new p.P p.init t = .ok X ∧
      Run.heuristicS p.P C { A with restricted := !I.restrC.isEmpty } N fuel X = .ok (Y, r.1) ∧
      (r.1 = true → p.getChains Y.best (List.range I.src.n) Y.S.tape = .ok r.2) := by
  unfold findEmbeddingS at h
  rcases process_spec hs hI with ⟨p, hp, l0, hrep⟩ | hbad | hbad
  · rw [hp] at h
    dsimp only [bind, Except.bind] at h
    cases hX : Run.new p.P p.init t with
    | error e => rw [hX] at h; simp at h
    | ok X =>
      rw [hX] at h
      dsimp only at h
      cases hY : Run.heuristicS p.P C { A with restricted := !I.restrC.isEmpty } N fuel X with
      | error e => rw [hY] at h; simp at h
      | ok s =>
        obtain ⟨Y, ok⟩ := s
        rw [hY] at h
        dsimp only at h
        refine ⟨p, l0, X, Y, hp, hrep, hX, ?_⟩
        by_cases hc : (ro || ok) = true
        · rw [if_pos hc] at h
          cases hg : p.getChains Y.best (List.range I.src.n) Y.S.tape with
          | error e => rw [hg] at h; simp at h
          | ok cs =>
            rw [hg] at h
            simp only [Except.ok.injEq] at h
            subst h
            exact ⟨hY, fun _ => rfl⟩
        · rw [if_neg hc] at h
          simp only [Except.ok.injEq] at h
          subst h
          refine ⟨hY, fun hok => ?_⟩
          dsimp only at hok
          rw [hok] at hc; simp at hc
  · rw [hbad] at h; simp [bind, Except.bind] at h
  · rw [hbad] at h; simp [bind, Except.bind] at h

theorem Proc.Rep.good_success {p : Proc} {l0 : List Nat} (h : p.Rep I l0) (hI : I.OK) {Y : Run}
    (hg : Good p.P (fun _ q => q < p.P.nq) Y) (he : Y.embedded = true) {cs : List (List Nat)}
    (hc : p.getChains Y.best (List.range I.src.n) Y.S.tape = .ok cs) : Spec.EmbedsUpTo I.FixV I.src I.tgt cs := by
  obtain ⟨cs', hcs, h1, h2⟩ := h.getChains Y.best (List.range I.src.n) Y.S.tape
  rw [hc] at hcs
  cases hcs
  have h1' : cs.length = I.src.n := by simpa using h1
  refine h.success hI hg.best.inv hg.best.full (hg.best.st.flag.1 he) h1' ?_
  intro u c hu
  have hul : u < I.src.n := by
    rw [← h1']; by_contra hc; rw [List.getElem?_eq_none (by omega)] at hu; simp at hu
  exact h2 u u c (by rw [List.getElem?_range hul]) hu

end MM
