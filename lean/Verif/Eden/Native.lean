import Verif.Eden.Table

/-! What `nativeCliqueEmbed` returns. -/

namespace MM
namespace Eden

open Spec.Eden (Qb Ell Joined Works HLine VLine hLines vLines LinesWhole CellsWhole Path Touch Clique Native)

variable {P : Proc}

/-- The blocks are read from the table. -/
theorem collect_spec {width : Nat} {seen : List Rect} {S : Search} (hS : Inv P width seen S) (fuel : Nat) (R : Rect) (hf : R.xmax - R.xmin + 1 < fuel) :
    ∃ es, collect S.table fuel (some R) = .ok es ∧ Native P.M P.N (width + 1) es ∧ (es.map P.blk).sum = val S.table R ∧
      ∀ e, es.head? = some e → (∀ c, e.InCols c ↔ R.xmin ≤ c ∧ c ≤ R.xmax) ∧ (∀ r, e.InRows r ↔ (R.ymin ≤ r ∧ r ≤ R.ymax) ∨ r = e.y) ∧
        ¬ (R.ymin ≤ e.y ∧ e.y ≤ R.ymax) := by
  have empty : Native P.M P.N (width + 1) [] := ⟨.nil, fun e h => (nomatch h), fun e h => (nomatch h), fun e h => (nomatch h)⟩
  induction fuel generalizing R with
  | zero =>
    cases hfi : find S.table R with
    | none =>
      refine ⟨[], by unfold collect; rw [hfi], empty, ?_, fun e h => (nomatch h)⟩
      unfold val
      rw [hfi]
      rfl
    | some e =>
      have hsh := hS.shape R ((hS.keys R).mp ⟨e, hfi⟩)
      have := hsh.wide
      omega
  | succ fuel ih =>
    cases hfi : find S.table R with
    | none =>
      refine ⟨[], by unfold collect; rw [hfi], empty, ?_, fun e h => (nomatch h)⟩
      unfold val
      rw [hfi]
      rfl
    | some e =>
      have hsh := hS.shape R ((hS.keys R).mp ⟨e, hfi⟩)
      have hv : val S.table R = e.score := by unfold val; rw [hfi]
      obtain ⟨-, g, -⟩ := hS.good R e hfi
      rcases g with ⟨-, g1, g2, g3⟩ | ⟨o, ho, g1, g2, g3⟩
      · refine ⟨[], ?_, empty, by rw [hv, g1]; rfl, fun e h => (nomatch h)⟩
        unfold collect
        rw [hfi]
        simp only [bind, Except.bind, g2, g3]
        cases fuel <;> rfl
      · have op := opt_of_mem hsh ho
        obtain ⟨es, h1, h2, h3, h4⟩ := ih o.2 (by have := op.width; omega)
        have hin : ∀ c, o.1.InCols c ↔ R.xmin ≤ c ∧ c ≤ R.xmax := fun c => by
          unfold Ell.InCols
          rw [op.cols.1, op.cols.2]
        have hrow : ∀ r, o.1.InRows r ↔ o.2.ymin ≤ r ∧ r ≤ o.2.ymax := fun r => by
          unfold Ell.InRows
          rw [op.rows.1, op.rows.2]
        refine ⟨o.1 :: es, ?_, ?_, ?_, ?_⟩
        · unfold collect
          rw [hfi]
          simp only [bind, Except.bind, g1, g2, h1]
        · refine ⟨?_, fun e he => ?_, fun e he => ?_, fun e he => ?_⟩
          · rw [List.isChain_cons]
            refine ⟨fun f hf' => ?_, h2.next⟩
            obtain ⟨k1, k2, k3⟩ := h4 f hf'
            refine ⟨fun c => ?_, fun r => ?_, fun h => ?_⟩
            · rw [k1, hin]; exact op.left c
            · rw [k2, hrow]
            · exact k3 ((hrow _).mp h)
          · rcases List.mem_cons.mp he with rfl | he
            · exact op.grid.cols
            · exact h2.cols e he
          · rcases List.mem_cons.mp he with rfl | he
            · exact op.grid.rows
            · exact h2.rows e he
          · rcases List.mem_cons.mp he with rfl | he
            · rw [op.len]; push_cast; rfl
            · exact h2.len e he
        · rw [List.map_cons, List.sum_cons, h3, hv, g3, Nat.add_comm]
        · intro e he
          cases he
          exact ⟨hin, fun r => (hrow r).trans (op.old r), op.new⟩

/-- The rectangle that a block is laid around. -/
def Rof (e : Ell) : Rect :=
  if e.y ≤ e.y' then ⟨min e.x e.x', max e.x e.x', e.y + 1, e.y'⟩ else ⟨min e.x e.x', max e.x e.x', e.y', e.y - 1⟩

/-- The rectangle that is left for the next block. -/
def leftOf (e : Ell) : Rect :=
  if e.x ≤ e.x' then ⟨e.x + 1, e.x', min e.y e.y', max e.y e.y'⟩ else ⟨e.x', e.x - 1, min e.y e.y', max e.y e.y'⟩

theorem rof_mem {width : Nat} {e : Ell} (hg : InGrid P e) (hl : e.len = width + 1) : Rof e ∈ rects P.M P.N width ∧ (e, leftOf e) ∈ options P.N (Rof e) := by
  obtain ⟨x, x', y, y'⟩ := e
  have c1 := hg.cols x ⟨by dsimp only; omega, by dsimp only; omega⟩
  have c2 := hg.cols x' ⟨by dsimp only; omega, by dsimp only; omega⟩
  have r1 := hg.rows y ⟨by dsimp only; omega, by dsimp only; omega⟩
  have r2 := hg.rows y' ⟨by dsimp only; omega, by dsimp only; omega⟩
  unfold Ell.len at hl
  dsimp only at hl
  refine ⟨mem_rects.mpr ?_, ?_⟩
  · unfold Rof
    dsimp only
    split
    · exact ⟨⟨by dsimp only; omega, by dsimp only; omega, by dsimp only; omega, by dsimp only; omega, by dsimp only; omega, by dsimp only; omega⟩, by dsimp only; omega⟩
    · exact ⟨⟨by dsimp only; omega, by dsimp only; omega, by dsimp only; omega, by dsimp only; omega, by dsimp only; omega, by dsimp only; omega⟩, by dsimp only; omega⟩
  · unfold options Rof leftOf
    dsimp only
    rw [List.mem_filter, decide_eq_true_eq]
    clear hg hl
    by_cases hy : y ≤ y' <;> by_cases hx : x ≤ x'
    · rw [min_eq_left hx, max_eq_right hx, min_eq_left hy, max_eq_right hy, if_pos hx, if_pos hy, add_sub_cancel_right]
      exact ⟨List.mem_cons_self, r1.1, hy, r2.2⟩
    · have hx' : x' ≤ x := by omega
      rw [min_eq_right hx', max_eq_left hx', min_eq_left hy, max_eq_right hy, if_neg hx, if_pos hy, add_sub_cancel_right]
      exact ⟨List.mem_cons_of_mem _ (List.mem_cons_of_mem _ List.mem_cons_self), r1.1, hy, r2.2⟩
    · have hy' : y' ≤ y := by omega
      rw [min_eq_left hx, max_eq_right hx, min_eq_right hy', max_eq_left hy', if_pos hx, if_neg hy, sub_add_cancel]
      exact ⟨List.mem_cons_of_mem _ List.mem_cons_self, r2.1, hy', r1.2⟩
    · have hx' : x' ≤ x := by omega
      have hy' : y' ≤ y := by omega
      rw [min_eq_right hx', max_eq_left hx', min_eq_right hy', max_eq_left hy', if_neg hx, if_neg hy, sub_add_cancel]
      exact ⟨List.mem_cons_of_mem _ (List.mem_cons_of_mem _ (List.mem_cons_of_mem _ List.mem_cons_self)), r2.1, hy', r1.2⟩

theorem interval_eq {p q p' q' : Int} (h : ∀ c, p ≤ c ∧ c ≤ q ↔ p' ≤ c ∧ c ≤ q') (hpq : p ≤ q) : p = p' ∧ q = q' := by
  have h1 := h p
  have h2 := h q
  have h3 := h p'
  have h4 := h q'
  omega

theorem rof_next {e f : Ell} (h : e.Next f) : Rof f = leftOf e := by
  have cols : min f.x f.x' = (leftOf e).xmin ∧ max f.x f.x' = (leftOf e).xmax := by
    refine interval_eq (fun c => (h.1 c).trans ?_) (by omega)
    unfold Ell.InCols leftOf
    split <;> dsimp only <;> omega
  have rows : (Rof f).ymin = min e.y e.y' ∧ (Rof f).ymax = max e.y e.y' := by
    have : min e.y e.y' = (Rof f).ymin ∧ max e.y e.y' = (Rof f).ymax := by
      refine interval_eq (fun c => ?_) (by omega)
      have h2 := h.2.1 c
      have h3 := h.2.2
      have : (Rof f).ymin ≤ c ∧ c ≤ (Rof f).ymax ↔ f.InRows c ∧ c ≠ f.y := by
        unfold Ell.InRows Rof
        split <;> dsimp only <;> omega
      rw [this, h2]
      constructor
      · intro hc
        exact ⟨.inl hc, fun he => h3 (he ▸ hc)⟩
      · rintro ⟨hc | hc, hne⟩
        · exact hc
        · exact absurd hc hne
    exact ⟨this.1.symm, this.2.symm⟩
  have e1 : (Rof f).xmin = min f.x f.x' ∧ (Rof f).xmax = max f.x f.x' := by
    unfold Rof
    split <;> exact ⟨rfl, rfl⟩
  have e2 : (leftOf e).ymin = min e.y e.y' ∧ (leftOf e).ymax = max e.y e.y' := by
    unfold leftOf
    split <;> exact ⟨rfl, rfl⟩
  have ext : ∀ R R' : Rect, R.xmin = R'.xmin → R.xmax = R'.xmax → R.ymin = R'.ymin → R.ymax = R'.ymax → R = R' := by
    rintro ⟨_, _, _, _⟩ ⟨_, _, _, _⟩ h1 h2 h3 h4
    dsimp only at h1 h2 h3 h4
    rw [h1, h2, h3, h4]
  exact ext _ _ (e1.1.trans cols.1) (e1.2.trans cols.2) (rows.1.trans e2.1.symm) (rows.2.trans e2.2.symm)

/-- No sequence of blocks scores higher than the table says. -/
theorem table_best {width : Nat} {S : Search} (hS : Inv P width (rects P.M P.N width) S) {es : List Ell} (hn : Native P.M P.N (width + 1) es) :
    ∀ e, es.head? = some e → (es.map P.blk).sum ≤ val S.table (Rof e) := by
  induction es with
  | nil => intro e h; cases h
  | cons e es ih =>
    intro e' he
    cases he
    have hg : InGrid P e := ⟨hn.cols e List.mem_cons_self, hn.rows e List.mem_cons_self⟩
    obtain ⟨h1, h2⟩ := rof_mem hg (by rw [hn.len e List.mem_cons_self]; push_cast; rfl)
    obtain ⟨v, hv⟩ := (hS.keys _).mpr h1
    have hle := (hS.good _ v hv).2.2 _ h2
    dsimp only at hle
    have hval : val S.table (Rof e) = v.score := by unfold val; rw [hv]
    have hch := List.isChain_cons.mp hn.next
    have rest : (es.map P.blk).sum ≤ val S.table (leftOf e) := by
      cases es with
      | nil => simp
      | cons f es =>
        rw [← rof_next (hch.1 f rfl)]
        exact ih ⟨hch.2, fun g hg => hn.cols g (List.mem_cons_of_mem _ hg), fun g hg => hn.rows g (List.mem_cons_of_mem _ hg), fun g hg => hn.len g (List.mem_cons_of_mem _ hg)⟩ f rfl
    rw [List.map_cons, List.sum_cons, hval]
    omega

theorem native_spec {rnd : Nat → Nat → Nat} (hr : Rolls rnd) (mix : Ell → Bool → List (List Qb) → List (List Qb)) (width : Nat) :
    ∃ es score, P.native rnd mix width = .ok (score, es.flatMap fun e => P.bundle (mix e) e) ∧ Native P.M P.N (width + 1) es ∧
      (score = none → es = [] ∧ ∀ e, InGrid P e → e.len ≠ width + 1) ∧ (∀ m, score = some m → m = (es.map P.blk).sum ∧ ∃ e, InGrid P e ∧ e.len = width + 1) ∧
      ∀ es', Native P.M P.N (width + 1) es' → (es'.map P.blk).sum ≤ (es.map P.blk).sum := by
  obtain ⟨S, h1, h2⟩ := search_inv (P := P) hr width
  have none' : S.maxscore = none → ∀ e, InGrid P e → e.len ≠ width + 1 := by
    intro h e hg hl
    obtain ⟨k1, k2⟩ := rof_mem hg hl
    rw [h2.none h _ k1] at k2
    cases k2
  have nil' : S.maxscore = none → ∀ es', Native P.M P.N (width + 1) es' → es' = [] := by
    intro h es' hn
    cases es' with
    | nil => rfl
    | cons e es =>
      exact absurd (by rw [hn.len e List.mem_cons_self]; push_cast; rfl) (none' h e ⟨hn.cols e List.mem_cons_self, hn.rows e List.mem_cons_self⟩)
  have read : ∃ es, collect S.table (width + 3) S.key = .ok es ∧ Native P.M P.N (width + 1) es ∧ ∀ r, S.key = some r → (es.map P.blk).sum = val S.table r := by
    cases hk : S.key with
    | none =>
      refine ⟨[], by unfold collect; rfl, ⟨.nil, fun e h => (nomatch h), fun e h => (nomatch h), fun e h => (nomatch h)⟩, fun r h => (by cases h)⟩
    | some r =>
      obtain ⟨hs, hl⟩ := mem_rects.mp (h2.key r hk)
      obtain ⟨es, g1, g2, g3, -⟩ := collect_spec h2 (width + 3) r (by have := hs.sum; push_cast; omega)
      exact ⟨es, g1, g2, fun r' h => by cases h; exact g3⟩
  obtain ⟨es, g1, g2, g3⟩ := read
  refine ⟨es, S.maxscore, ?_, g2, fun h => ⟨nil' h es g2, none' h⟩, fun m h => ?_, fun es' hn => ?_⟩
  · unfold Proc.native
    simp only [bind, Except.bind, h1, g1]
  · obtain ⟨r, k1, k2, k3, -⟩ := h2.some m h
    refine ⟨by rw [g3 r k1, k2], ?_⟩
    obtain ⟨o, os, ho⟩ := List.exists_cons_of_ne_nil k3
    have op := opt_of_mem (h2.shape r (h2.key r k1)) (o := o) (by rw [ho]; exact List.mem_cons_self)
    exact ⟨o.1, op.grid, op.len⟩
  · cases hm : S.maxscore with
    | none =>
      rw [nil' hm es' hn]
      simp
    | some m =>
      obtain ⟨r, k1, k2, -, k4⟩ := h2.some m hm
      rw [g3 r k1, k2]
      cases es' with
      | nil => simp
      | cons e es' =>
        have := table_best h2 hn e rfl
        refine this.trans (k4 _ ?_)
        exact (rof_mem ⟨hn.cols e List.mem_cons_self, hn.rows e List.mem_cons_self⟩ (by rw [hn.len e List.mem_cons_self]; push_cast; rfl)).1

end Eden
end MM
