import Verif.Bus.IterateInv

/-! The walks that the iterator over the largest cliques lists are the best ones. -/

namespace MM
namespace Bus

open Lattice Spec

section
variable {T : Topo} {W : Nat} {lines : List Byte} {mem : List Nat}
variable {check : Ell → Bool} {nodes : List Nat} {edges : List (Nat × Nat)} {C : Masks} {N E : Bool → Nat → Nat → Nat → Prop}

theorem slice_ok (hG : WFGraph T nodes edges) (hC : Clean T nodes edges C N E) (hT : Table T C lines) (hF : Fits T W) (h : Done T W lines check W mem)
    {i y x k : Nat} (hi : i < W) (hy : y < rowsN T i) (hx : x < colsN T W i) (hk : k ∈ members (cornerSet T W mem i y x)) {es : List Ell} {css : List (List (List Nat))}
    (hm : List.Forall₂ (Made T lines nodes edges N E) (es.filter check) css) :
    ∃ css', List.Forall₂ (Made T lines nodes edges N E) ((ellN W i y (backX x k) (cornerOf k) :: es).filter check) css' ∧ css'.flatten = slice T W lines i y x k ++ css.flatten := by
  obtain ⟨h1, h2, h3, h4, _, _⟩ := branch_ok hF h hi hy hx hk
  have hgrid : (ellN W i y (backX x k) (cornerOf k)).InGrid T := ellN_inGrid hi (by unfold rowsN at hy; omega) h2
  obtain ⟨cs, c1, c2, c3⟩ := inflateEll_ok hG hC hT hgrid
  by_cases hk4 : k < 4
  · refine ⟨cs :: css, ?_, ?_⟩
    · rw [List.filter_cons, if_pos (h4.1 hk4)]; exact .cons ⟨c1, c3⟩ hm
    · simp only [slice, if_pos hk4, c1, List.nil_append, List.flatten_cons]
  · refine ⟨css, ?_, ?_⟩
    · rw [List.filter_cons, if_neg (fun hq => hk4 (h4.2 hq))]; exact hm
    · simp only [slice, if_neg hk4, List.nil_append]

/-- Everything listed comes from a walk with the score of its cell. -/
theorem via_sound (hG : WFGraph T nodes edges) (hC : Clean T nodes edges C N E) (hT : Table T C lines) (hF : Fits T W) (h : Done T W lines check W mem)
    {i y x k : Nat} (hi : i < W) (hy : y < rowsN T i) (hx : x < colsN T W i) (hk : k ∈ members (cornerSet T W mem i y x)) {e : List (List Nat)}
    (he : e ∈ allVia T W lines mem i y x k) :
    ∃ es css, Walk T W i y x (ellN W i y (backX x k) (cornerOf k) :: es) ∧
      List.Forall₂ (Made T lines nodes edges N E) ((ellN W i y (backX x k) (cornerOf k) :: es).filter check) css ∧ e = css.flatten ∧
      total T lines check (ellN W i y (backX x k) (cornerOf k) :: es) = scoreOf T W mem i y x := by
  induction i generalizing y x k e with
  | zero =>
    obtain ⟨h1, h2, h3, h4, h5, _⟩ := branch_ok hF h hi hy hx hk
    obtain ⟨css, c1, c2⟩ := slice_ok hG hC hT hF h hi hy hx hk (es := []) (css := []) .nil
    have hw : Walk T W 0 y (nextX (backX x k) (cornerOf k)) [ellN W 0 y (backX x k) (cornerOf k)] := .start h1 (by unfold rowsN at hy; omega) (by omega)
    rw [h3] at hw
    rw [List.mem_singleton.mp (show e ∈ [slice T W lines 0 y x k] from he)]
    refine ⟨[], css, hw, c1, by rw [c2]; simp, ?_⟩
    rw [h5]
    simp [total, before]
  | succ i ih =>
    obtain ⟨h1, h2, h3, h4, h5, _⟩ := branch_ok hF h hi hy hx hk
    obtain ⟨p1, p2⟩ := branch_range hF h hi hy hx hk
    obtain ⟨e0, e1, rfl⟩ := List.mem_map.mp (show e ∈ (allFrom T W lines mem i (prevY y (cornerOf k)) (backX x k)).map _ from he)
    rw [allFrom_eq] at e1
    obtain ⟨j, j1, j2⟩ := List.mem_flatMap.mp e1
    obtain ⟨es, css, a1, a2, rfl, a4⟩ := ih (by omega) p1 p2 j1 j2
    obtain ⟨css', c1, c2⟩ := slice_ok hG hC hT hF h hi hy hx hk a2
    have hw := Walk.step a1 h1 hi (by unfold rowsN at hy; omega) h2
    rw [h3] at hw
    refine ⟨_, css', hw, c1, c2.symm, ?_⟩
    rw [h5]
    simp only [total, List.map_cons, List.sum_cons] at a4 ⊢
    simp only [before, ← a4]
    omega

theorem cell_some (h : Done T W lines check W mem) {i y x : Nat} (hi : i < W) (hy : y < rowsN T i) (hx : x < colsN T W i) : ∃ v, mem[posN T W i y x]? = some v := by
  obtain ⟨v, a1, _⟩ := (h.filled i hi).cell y x hy hx
  exact ⟨v, a1⟩

/-- The bit of a corner. -/
theorem bit_of (b : Bool) (c : Corner) : ∃ k, k < 8 ∧ (if b then c.code else c.skipCode).testBit k = true ∧ k = match c with
      | .nw => if b then 0 else 4
      | .ne => if b then 1 else 5
      | .sw => if b then 2 else 6
      | .se => if b then 3 else 7 := by
  cases b <;> cases c <;> exact ⟨_, by decide, by decide, rfl⟩

/-- A choice with the best score is noted. -/
theorem choice_ok (h : Done T W lines check W mem) {i y x0 : Nat} {c : Corner} (hi : i < W) (hy : y < rowsN T i) (hx : nextX x0 c < colsN T W i)
    (hc : c ∈ cornersAt W i) (hx0 : x0 + (W - i) ≤ T.dimX)
    (hs : scoreOf T W mem i y (nextX x0 c) = before T W mem i (prevY y c) x0 + gain T lines check (ellN W i y x0 c)) :
    ∃ k, k ∈ members (cornerSet T W mem i y (nextX x0 c)) ∧ cornerOf k = c ∧ backX (nextX x0 c) k = x0 ∧ (k < 4 ↔ check (ellN W i y x0 c) = true) := by
  obtain ⟨v, hv⟩ := cell_some h hi hy hx
  obtain ⟨k, k1, k2, k3⟩ := bit_of (check (ellN W i y x0 c)) c
  obtain ⟨e1, e2, e3⟩ := bit_back _ _ x0 k3
  refine ⟨k, ?_, e1, e2, e3⟩
  rw [mem_cornerSet hv]
  refine ⟨k1, (h.filled i hi).all y _ v hy hx hv x0 c hc hx0 rfl ?_ k k1 k2⟩
  simpa only [scoreOf, hv] using hs

/-- Every walk with the score of its cell is listed. -/
theorem via_complete (hG : WFGraph T nodes edges) (hC : Clean T nodes edges C N E) (hT : Table T C lines) (hF : Fits T W) (h : Done T W lines check W mem)
    {i y x : Nat} {es : List Ell} (hw : Walk T W i y x es) (ht : total T lines check es = scoreOf T W mem i y x) :
    ∃ k es' css, k ∈ members (cornerSet T W mem i y x) ∧ es = ellN W i y (backX x k) (cornerOf k) :: es' ∧ (k < 4 ↔ check (ellN W i y (backX x k) (cornerOf k)) = true) ∧
      List.Forall₂ (Made T lines nodes edges N E) (es.filter check) css ∧ css.flatten ∈ allVia T W lines mem i y x k := by
  induction hw with
  | @start y x c hc hy hx =>
    have hr := (Walk.start hc hy hx).range hF
    obtain ⟨k, k1, k2, k3, k4⟩ := choice_ok h hr.1 hr.2.1 hr.2.2 hc (by omega) (by
      rw [← ht]; simp [total, before])
    obtain ⟨css, c1, c2⟩ := slice_ok hG hC hT hF h hr.1 hr.2.1 hr.2.2 k1 (es := []) (css := []) .nil
    rw [k2, k3] at c1
    refine ⟨k, [], css, k1, by rw [k2, k3], by rw [k2, k3]; exact k4, c1, ?_⟩
    rw [c2]
    simp [allVia]
  | @step i y x c es hw hc hi hy hx ih =>
    have hr := (Walk.step hw hc hi hy hx).range hF
    have hle := walk_le hF h hw
    obtain ⟨v, a1, a2, _⟩ := (h.filled (i + 1) hr.1).cell _ _ hr.2.1 hr.2.2
    have hge := a2 x c hc hx rfl
    have hsv : scoreOf T W mem (i + 1) y (nextX x c) = v >>> 8 := by simp only [scoreOf, a1]
    have ht' : gain T lines check (ellN W (i + 1) y x c) + total T lines check es = v >>> 8 := by rw [← hsv, ← ht]; rfl
    simp only [before] at hge
    have hes : total T lines check es = scoreOf T W mem i (prevY y c) x := by omega
    obtain ⟨k', es', css, b1, b2, b3, b4, b5⟩ := ih hes
    obtain ⟨k, k1, k2, k3, k4⟩ := choice_ok h hr.1 hr.2.1 hr.2.2 hc hx (by
      rw [hsv]; simp only [before]; omega)
    obtain ⟨css', c1, c2⟩ := slice_ok hG hC hT hF h hr.1 hr.2.1 hr.2.2 k1 b4
    rw [k2, k3] at c1
    refine ⟨k, es, css', k1, by rw [k2, k3], by rw [k2, k3]; exact k4, c1, ?_⟩
    rw [c2]
    refine List.mem_map.mpr ⟨css.flatten, ?_, rfl⟩
    rw [k2, k3, allFrom_eq]
    exact List.mem_flatMap.mpr ⟨k', b1, b5⟩

/-- The constructor finds the best cells. -/
theorem iterStart_ok (hF : Fits T W) (h : Done T W lines check W mem) :
    ∃ s b, iterStart T W mem = .ok ⟨b, [], []⟩ ∧ b ≠ [] ∧ BaseOK T W mem b ∧ (∀ y x, y < rowsN T (W - 1) → x < colsN T W (W - 1) → scoreOf T W mem (W - 1) y x ≤ s) ∧
      (∀ p ∈ b, scoreOf T W mem (W - 1) p.1 p.2.1 = s) ∧
      ∀ y x, y < rowsN T (W - 1) → x < colsN T W (W - 1) → scoreOf T W mem (W - 1) y x = s → ∃ c, (y, x, c) ∈ b := by
  have h2 := hF.two
  have hi : W - 1 < W := by omega
  have key : ∀ (l done : List (Nat × Nat)), (∀ p ∈ l, p.1 < rowsN T (W - 1) ∧ p.2 < colsN T W (W - 1)) → ∀ st : Nat × List (Nat × Nat × Nat),
      (∀ p ∈ done, scoreOf T W mem (W - 1) p.1 p.2 ≤ st.1 ∧ (scoreOf T W mem (W - 1) p.1 p.2 = st.1 → ∃ c, (p.1, p.2, c) ∈ st.2)) →
      (BaseOK T W mem st.2 ∧ ∀ p ∈ st.2, scoreOf T W mem (W - 1) p.1 p.2.1 = st.1) → (st.2 = [] → st.1 = 0 ∧ done = []) →
      ∃ st' : Nat × List (Nat × Nat × Nat), l.foldlM (fun (st : Nat × List (Nat × Nat × Nat)) p => do
        let s ← tabScore mem (tabN T W (W - 1)) p.1 p.2
        if s < st.1 then pure st
        else do
          let c ← tabCorners mem (tabN T W (W - 1)) p.1 p.2
          pure (s, (p.1, p.2, c) :: (if st.1 < s then [] else st.2))) st = (.ok st' : B _) ∧
        (∀ p ∈ done ++ l, scoreOf T W mem (W - 1) p.1 p.2 ≤ st'.1 ∧ (scoreOf T W mem (W - 1) p.1 p.2 = st'.1 → ∃ c, (p.1, p.2, c) ∈ st'.2)) ∧
        (BaseOK T W mem st'.2 ∧ ∀ p ∈ st'.2, scoreOf T W mem (W - 1) p.1 p.2.1 = st'.1) ∧ (st'.2 = [] → st'.1 = 0 ∧ done ++ l = []) := by
    intro l
    induction l with
    | nil => intro done _ st h1 h2 h3; exact ⟨st, rfl, by simpa using h1, h2, by simpa using h3⟩
    | cons p l ih =>
      intro done hl st h1 h2 h3
      obtain ⟨p1, p2⟩ := hl p List.mem_cons_self
      obtain ⟨v, hv⟩ := cell_some h hi p1 p2
      have hsc : tabScore mem (tabN T W (W - 1)) p.1 p.2 = .ok (scoreOf T W mem (W - 1) p.1 p.2) := by
        have : at_ mem ((tabN T W (W - 1)).index p.1 p.2) = .ok v := at_ok hv
        simp only [tabScore, this, scoreOf, hv, bind, Except.bind]; rfl
      obtain ⟨c, c1, c2, c3, c4⟩ := corners_ok hF h hi p1 p2
      have hl' : ∀ q ∈ l, q.1 < rowsN T (W - 1) ∧ q.2 < colsN T W (W - 1) := fun q hq => hl q (List.mem_cons_of_mem _ hq)
      rw [List.foldlM_cons, hsc]
      rw [show done ++ p :: l = (done ++ [p]) ++ l by simp]
      by_cases hlt : scoreOf T W mem (W - 1) p.1 p.2 < st.1
      · simp only [bind, Except.bind, if_pos hlt, pure, Except.pure] at ih ⊢
        refine ih (done ++ [p]) hl' st (fun q hq => ?_) h2 (fun e => by have := (h3 e).1; omega)
        rcases List.mem_append.mp hq with hq | hq
        · exact h1 q hq
        · rw [List.mem_singleton.mp hq]; exact ⟨by omega, fun e => by omega⟩
      · simp only [bind, Except.bind, if_neg hlt, c1, pure, Except.pure] at ih ⊢
        refine ih (done ++ [p]) hl' (scoreOf T W mem (W - 1) p.1 p.2, (p.1, p.2, c) :: (if st.1 < scoreOf T W mem (W - 1) p.1 p.2 then [] else st.2)) (fun q hq => ?_) ⟨?_, ?_⟩ (fun e => by cases e)
        · rcases List.mem_append.mp hq with hq | hq
          · obtain ⟨a1, a2⟩ := h1 q hq
            refine ⟨by dsimp only; omega, fun e => ?_⟩
            dsimp only at e ⊢
            by_cases hg : st.1 < scoreOf T W mem (W - 1) p.1 p.2
            · omega
            · obtain ⟨c', hc'⟩ := a2 (by omega)
              rw [if_neg hg]
              exact ⟨c', List.mem_cons_of_mem _ hc'⟩
          · rw [List.mem_singleton.mp hq]; exact ⟨Nat.le_refl _, fun _ => ⟨c, List.mem_cons_self⟩⟩
        · intro q hq
          rcases List.mem_cons.mp hq with rfl | hq
          · exact ⟨p1, p2, c2, c4⟩
          · split at hq
            · cases hq
            · exact h2.1 q hq
        · intro q hq
          rcases List.mem_cons.mp hq with rfl | hq
          · rfl
          · split at hq
            · cases hq
            · have := h2.2 q hq
              dsimp only; omega
  obtain ⟨st, e1, e2, ⟨e3, e4⟩, e5⟩ := key ((List.range (rowsN T (W - 1))).flatMap fun y => (List.range (colsN T W (W - 1))).map fun x => (y, x)) []
    (by
      intro p hp
      simp only [List.mem_flatMap, List.mem_range, List.mem_map] at hp
      obtain ⟨y, h1, x, h2, rfl⟩ := hp
      exact ⟨h1, h2⟩) (0, []) (by simp) ⟨by simp [BaseOK], by simp⟩ (fun _ => ⟨rfl, rfl⟩)
  have hmem : ∀ y x, y < rowsN T (W - 1) → x < colsN T W (W - 1) → (y, x) ∈ ([] : List (Nat × Nat)) ++ (List.range (rowsN T (W - 1))).flatMap fun y => (List.range (colsN T W (W - 1))).map fun x => (y, x) := by
    intro y x hy hx
    simp only [List.nil_append, List.mem_flatMap, List.mem_range, List.mem_map]
    exact ⟨y, hy, x, hx, rfl⟩
  refine ⟨st.1, st.2, ?_, fun e => ?_, e3, fun y x hy hx => (e2 _ (hmem y x hy hx)).1, e4, fun y x hy hx => (e2 _ (hmem y x hy hx)).2⟩
  swap
  · have hm := hmem 0 0 (by have := hF.y; unfold rowsN; omega) (by have := hF.x; unfold colsN; split <;> omega)
    rw [(e5 e).2] at hm
    cases hm
  simp only [iterStart, tabAt_ok hF h.header hi, bind, Except.bind] at e1 ⊢
  have : (tabN T W (W - 1)).rows = rowsN T (W - 1) ∧ (tabN T W (W - 1)).cols = colsN T W (W - 1) := ⟨rfl, rfl⟩
  rw [this.1, this.2, e1]
  rfl

theorem first_one : ∀ m : Byte, (∀ k ∈ members m, k % 2 = 1) → 1 ∈ members m → (members m).take 1 = [1] := by decide +kernel

theorem first_three : ∀ m : Byte, (∀ k ∈ members m, k % 2 = 1) → 1 ∉ members m → 3 ∈ members m → (members m).take 1 = [3] := by decide +kernel

theorem last_odd (hF : Fits T W) (h : Done T W lines check W mem) {y x k : Nat} (hy : y < rowsN T (W - 1)) (hx : x < colsN T W (W - 1))
    (hk : k ∈ members (cornerSet T W mem (W - 1) y x)) : k % 2 = 1 := by
  have h2 := hF.two
  have h1 := (branch_ok hF h (show W - 1 < W by omega) hy hx hk).1
  unfold cornersAt at h1
  rw [if_neg (by omega), if_pos (by omega)] at h1
  unfold cornerOf at h1
  have : k % 4 = 0 ∨ k % 4 = 1 ∨ k % 4 = 2 ∨ k % 4 = 3 := by omega
  rcases this with e | e | e | e
  · simp [e] at h1
  · omega
  · simp [e] at h1
  · omega

theorem via_ne (hF : Fits T W) (h : Done T W lines check W mem) {i y x k : Nat} (hi : i < W) (hy : y < rowsN T i) (hx : x < colsN T W i)
    (hk : k ∈ members (cornerSet T W mem i y x)) : allVia T W lines mem i y x k ≠ [] := by
  induction i generalizing y x k with
  | zero => simp [allVia]
  | succ i ih =>
    obtain ⟨p1, p2⟩ := branch_range hF h hi hy hx hk
    obtain ⟨c, _, c2, c3, c4⟩ := corners_ok hF h (show i < W by omega) p1 p2
    have hne : members (cornerSet T W mem i (prevY y (cornerOf k)) (backX x k)) ≠ [] := by
      rw [← c4]; exact fun e => c3 ((members_eq_nil_iff c2).1 e)
    obtain ⟨j, hj⟩ := List.exists_mem_of_ne_nil _ hne
    obtain ⟨a, ha⟩ := List.exists_mem_of_ne_nil _ (ih (by omega) p1 p2 hj)
    intro e
    have : slice T W lines (i + 1) y x k ++ a ∈ allVia T W lines mem (i + 1) y x k := by
      refine List.mem_map.mpr ⟨a, ?_, rfl⟩
      rw [allFrom_eq]
      exact List.mem_flatMap.mpr ⟨j, hj, ha⟩
    rw [e] at this
    cases this

end
end Bus
end MM
