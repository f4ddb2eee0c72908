import Verif.Spec.Nested
import Verif.Bus.CliqueDP

/-! The walks of the dynamic program are the sequences of nested rectangles. -/

namespace MM
namespace Bus

open Spec

variable {T : Topo} {W : Nat}

theorem nestedElls_succ (ys xs : Nat → Nat) (n : Nat) : nestedElls W ys xs (n + 1) = nestedEll W ys xs n :: nestedElls W ys xs n := by
  simp [nestedElls, List.range_succ]

theorem nestedElls_congr {ys xs ys' xs' : Nat → Nat} {n : Nat} (hy : ∀ i, i < n → ys i = ys' i) (hx : ∀ i, i ≤ n → xs i = xs' i) :
    nestedElls W ys xs n = nestedElls W ys' xs' n := by
  unfold nestedElls
  refine List.map_congr_left fun i hi => ?_
  have hi : i < n := by simpa using hi
  have hrow : newRow ys i = newRow ys' i := by
    cases i with
    | zero => exact hy 0 hi
    | succ j => simp only [newRow, hy _ hi, hy j (by omega)]
  have hcol : oldColumn W xs i = oldColumn W xs' i := by
    simp only [oldColumn, hx i (by omega), hx (i + 1) (by omega)]
  simp only [nestedEll, hrow, hcol, hy i hi, hx i (by omega)]

/-- The corner at which the ell of rectangle `i` lies. -/
def cornerN (W : Nat) (ys xs : Nat → Nat) (i : Nat) : Corner :=
  match (if i = 0 then true else decide (ys i = ys (i - 1))), (if i + 1 = W then true else decide (xs (i + 1) = xs i)) with
  | true, true => .se
  | true, false => .sw
  | false, true => .ne
  | false, false => .nw

theorem cornerN_ell {ys xs : Nat → Nat} {i : Nat} (hi : i < W) : nestedEll W ys xs i = ellN W i (ys i) (xs i) (cornerN W ys xs i) := by
  have e : xs i + (W - i) - 1 = xs i + (W - 1 - i) := by omega
  have hrow : newRow ys i = if (if i = 0 then true else decide (ys i = ys (i - 1))) then ys i + i else ys i := by
    cases i with
    | zero => simp [newRow]
    | succ j => simp [newRow]
  have hcol : oldColumn W xs i = if (if i + 1 = W then true else decide (xs (i + 1) = xs i)) then xs i + (W - 1 - i) else xs i := by
    unfold oldColumn
    by_cases h : i + 1 = W
    · simp [h]
    · simp [h]
  unfold nestedEll ellN cornerN
  rw [hrow, hcol, e]
  cases (if i = 0 then true else decide (ys i = ys (i - 1))) <;> cases (if i + 1 = W then true else decide (xs (i + 1) = xs i)) <;> rfl

theorem cornerN_mem {ys xs : Nat → Nat} {i : Nat} (hi : i < W) (hW : 2 ≤ W) : cornerN W ys xs i ∈ cornersAt W i := by
  unfold cornerN cornersAt
  by_cases h0 : i = 0
  · subst h0
    simp only [if_true, show ¬ 0 + 1 = W by omega, if_false]
    cases decide (xs (0 + 1) = xs 0) <;> simp
  · simp only [h0, if_false]
    by_cases h1 : i + 1 = W
    · simp only [h1, if_true]
      cases decide (ys i = ys (i - 1)) <;> simp
    · simp only [h1, if_false]
      cases decide (ys i = ys (i - 1)) <;> cases decide (xs (i + 1) = xs i) <;> simp

theorem nested_walk {ys xs : Nat → Nat} (h : Nested T.dimY T.dimX W ys xs) (hW : 2 ≤ W) {i : Nat} (hi : i < W) :
    Walk T W i (ys i) (if i + 1 = W then xs i else xs (i + 1)) (nestedElls W ys xs (i + 1)) := by
  have hnext : ∀ i, i < W → (if i + 1 = W then xs i else xs (i + 1)) = nextX (xs i) (cornerN W ys xs i) := by
    intro i hi
    unfold cornerN
    by_cases h1 : i + 1 = W
    · simp only [h1, if_true]
      cases (if i = 0 then true else decide (ys i = ys (i - 1))) <;> rfl
    · simp only [h1, if_false]
      have := h.col i (by omega)
      by_cases h2 : xs (i + 1) = xs i
      · simp only [h2, decide_true]
        cases (if i = 0 then true else decide (ys i = ys (i - 1))) <;> rfl
      · simp only [h2, decide_false]
        have : xs (i + 1) = xs i + 1 := by omega
        rw [this]
        cases (if i = 0 then true else decide (ys i = ys (i - 1))) <;> rfl
  induction i with
  | zero =>
    rw [hnext 0 hi, nestedElls_succ, cornerN_ell hi]
    have h1 := h.rows 0 hi
    have h2 := h.cols 0 hi
    exact .start (cornerN_mem hi hW) (by omega) (by omega)
  | succ i ih =>
    rw [hnext (i + 1) hi, nestedElls_succ, cornerN_ell hi]
    have h1 := h.rows (i + 1) hi
    have h2 := h.cols (i + 1) hi
    have hp : prevY (ys (i + 1)) (cornerN W ys xs (i + 1)) = ys i := by
      unfold cornerN
      have h3 := h.row i hi
      simp only [Nat.add_one_ne_zero, if_false, Nat.add_sub_cancel]
      by_cases h4 : ys (i + 1) = ys i
      · simp only [h4, decide_true]
        cases (if i + 1 + 1 = W then true else decide (xs (i + 1 + 1) = xs (i + 1))) <;> simp [prevY]
      · simp only [h4, decide_false]
        cases (if i + 1 + 1 = W then true else decide (xs (i + 1 + 1) = xs (i + 1))) <;> simp only [prevY] <;> omega
    have hw := ih (by omega)
    rw [if_neg (show ¬ i + 1 = W by omega), ← hp] at hw
    exact .step hw (cornerN_mem hi hW) hi h1 (by omega)

theorem ellN_nested {ys xs : Nat → Nat} {i : Nat} {c : Corner} (hi : i < W) (hc : c ∈ cornersAt W i) (hx : xs (i + 1) = nextX (xs i) c)
    (hy : ∀ j, i = j + 1 → ys j = prevY (ys i) c) : nestedEll W ys xs i = ellN W i (ys i) (xs i) c := by
  have e : xs i + (W - i) - 1 = xs i + (W - 1 - i) := by omega
  unfold cornersAt at hc
  have hrow : newRow ys i = (ellN W i (ys i) (xs i) c).yc := by
    cases i with
    | zero => simp only [newRow, ellN]; cases c <;> rfl
    | succ j =>
      have := hy j rfl
      simp only [newRow, ellN]
      cases c <;> simp only [prevY, ellAt] at this ⊢ <;> split <;> omega
  have hcol : oldColumn W xs i = (ellN W i (ys i) (xs i) c).xc := by
    unfold oldColumn ellN
    by_cases h1 : i + 1 = W
    · rw [if_pos h1]
      by_cases h0 : i = 0
      · cases c <;> simp only [ellAt] <;> omega
      · simp only [h0, h1, if_true, if_false, List.mem_cons, List.not_mem_nil, or_false] at hc
        rcases hc with rfl | rfl <;> simp only [ellAt] <;> omega
    · rw [if_neg h1]
      cases c <;> simp only [nextX, ellAt] at hx ⊢ <;> split <;> omega
  unfold nestedEll
  rw [hrow, hcol]
  unfold ellN
  cases c <;> simp only [ellAt, e]

theorem walk_nested (hW : 2 ≤ W) {i y x : Nat} {es : List Ell} (h : Walk T W i y x es) :
    ∃ ys xs, ys i = y ∧ xs (i + 1) = x ∧ es = nestedElls W ys xs (i + 1) ∧ (∀ j, j ≤ i → ys j + j < T.dimY) ∧ (∀ j, j ≤ i → xs j + (W - 1 - j) < T.dimX) ∧
      (∀ j, j < i → ys (j + 1) = ys j ∨ ys (j + 1) + 1 = ys j) ∧ (∀ j, j ≤ i → xs (j + 1) = xs j ∨ xs (j + 1) = xs j + 1) := by
  induction h with
  | @start y x c hc hy hx =>
    refine ⟨fun _ => y, fun j => if j = 0 then x else nextX x c, rfl, by simp, ?_, ?_, ?_, ?_, ?_⟩
    · rw [nestedElls_succ, ellN_nested (c := c) (by omega) hc (by simp) (by simp)]; rfl
    · intro j hj
      have : j = 0 := by omega
      subst this; simpa using hy
    · intro j hj
      have : j = 0 := by omega
      subst this; simp; omega
    · simp
    · intro j hj
      have : j = 0 := by omega
      subst this
      cases c <;> simp [nextX]
  | @step i y x c es hw hc hi hy hx ih =>
    obtain ⟨ys, xs, a1, a2, a3, a4, a5, a6, a7⟩ := ih
    refine ⟨fun j => if j = i + 1 then y else ys j, fun j => if j = i + 2 then nextX x c else xs j, by simp, by simp, ?_, ?_, ?_, ?_, ?_⟩
    · rw [nestedElls_succ, a3]
      congr 1
      · rw [ellN_nested (c := c) hi hc (by simp [a2]) ?_]
        · simp [a2]
        · intro j hj
          have : j = i := by omega
          subst this
          simp [a1]
      · refine nestedElls_congr (fun j hj => ?_) (fun j hj => ?_)
        · rw [if_neg (by omega)]
        · rw [if_neg (by omega)]
    · intro j hj
      by_cases h : j = i + 1
      · subst h; simpa using hy
      · simp only [h, if_false]; exact a4 j (by omega)
    · intro j hj
      by_cases h : j = i + 1
      · subst h; simp [a2]; omega
      · simp only [show ¬ j = i + 2 by omega, if_false]; exact a5 j (by omega)
    · intro j hj
      by_cases h : j = i
      · subst h
        simp only [if_true, show ¬ j = j + 1 by omega, if_false, a1]
        cases c <;> simp [prevY]
      · simp only [show ¬ j + 1 = i + 1 by omega, show ¬ j = i + 1 by omega, if_false]
        exact a6 j (by omega)
    · intro j hj
      by_cases h : j = i + 1
      · subst h
        simp only [if_true, show ¬ i + 1 = i + 2 by omega, if_false, a2]
        cases c <;> simp [nextX]
      · simp only [show ¬ j + 1 = i + 2 by omega, show ¬ j = i + 2 by omega, if_false]
        exact a7 j (by omega)

theorem walk_is_nested (hW : 2 ≤ W) {y x : Nat} {es : List Ell} (h : Walk T W (W - 1) y x es) : ∃ ys xs, Nested T.dimY T.dimX W ys xs ∧ es = nestedElls W ys xs W := by
  obtain ⟨ys, xs, _, _, a3, a4, a5, a6, a7⟩ := walk_nested hW h
  rw [show W - 1 + 1 = W by omega] at a3
  exact ⟨ys, xs, ⟨fun i hi => a4 i (by omega), fun i hi => a5 i (by omega), fun i hi => a6 i (by omega), fun i hi => a7 i (by omega)⟩, a3⟩

section
variable {lines : List Byte} {check : Ell → Bool} {nodes : List Nat} {edges : List (Nat × Nat)} {C : Masks} {N E : Bool → Nat → Nat → Nat → Prop}

theorem inflateAll_ok {es : List Ell} {css : List (List (List Nat))} (h : List.Forall₂ (Made T lines nodes edges N E) es css) : inflateAll T lines es = .ok css.flatten := by
  have : ∀ emb, es.foldlM (fun emb e => inflateEll T lines e emb) emb = .ok (emb ++ css.flatten) := by
    induction h with
    | nil => intro emb; simp; rfl
    | cons h1 _ ih =>
      intro emb
      rw [List.foldlM_cons, h1.1]
      show List.foldlM _ (emb ++ _) _ = _
      rw [ih, List.flatten_cons, List.append_assoc]
  exact this []

theorem made_all (hG : Lattice.WFGraph T nodes edges) (hC : Clean T nodes edges C N E) (hT : Table T C lines) {es : List Ell} (hin : ∀ e ∈ es, e.InGrid T) :
    ∃ css, List.Forall₂ (Made T lines nodes edges N E) (es.filter check) css ∧ css.flatten.length = total T lines check es := by
  induction es with
  | nil => exact ⟨[], .nil, rfl⟩
  | cons e es ih =>
    obtain ⟨css, c1, c2⟩ := ih fun f hf => hin f (List.mem_cons_of_mem _ hf)
    obtain ⟨cs, d1, d2, d3⟩ := inflateEll_ok hG hC hT (hin e List.mem_cons_self)
    have hwt : weight T lines e = cs.length := by simp only [weight, d2]
    cases hch : check e with
    | true =>
      refine ⟨cs :: css, ?_, ?_⟩
      · rw [List.filter_cons, if_pos hch]; exact .cons ⟨d1, d3⟩ c1
      · simp only [total, List.map_cons, List.sum_cons, gain, hch, if_true, hwt, List.flatten_cons, List.length_append, c2]
    | false =>
      refine ⟨css, ?_, ?_⟩
      · rw [List.filter_cons, if_neg (by simp [hch])]; exact c1
      · simp only [total, List.map_cons, List.sum_cons, gain, hch, Bool.false_eq_true, if_false, Nat.zero_add, c2]

/-- `clique_cache` and `extract_solution` in terms of nested rectangles. -/
theorem cliqueOf_best (hG : Lattice.WFGraph T nodes edges) (hC : Clean T nodes edges C N E) (hT : Table T C lines) (hF : Fits T W) :
    ∃ r, cliqueOf T lines check W = .ok r ∧
      (∀ emb, r = some emb → emb ≠ [] ∧ CliqueEmbedding nodes edges emb ∧ (∀ c ∈ emb, c.Nodup) ∧
        ∃ ys xs css, Nested T.dimY T.dimX W ys xs ∧ List.Forall₂ (Made T lines nodes edges N E) ((nestedElls W ys xs W).filter check) css ∧ emb = css.flatten) ∧
      ∀ ys xs, Nested T.dimY T.dimX W ys xs → ∃ emb, inflateAll T lines ((nestedElls W ys xs W).filter check) = .ok emb ∧ emb.length ≤ r.elim 0 List.length := by
  have hW := hF.two
  obtain ⟨r, r1, r2, r3⟩ := cliqueOf_ok (check := check) hG hC hT hF
  refine ⟨r, r1, fun emb he => ?_, fun ys xs hn => ?_⟩
  · obtain ⟨a0, y, x, es, css, a1, a2, rfl⟩ := r2 emb he
    have hsub : (es.filter check).Sublist es := List.filter_sublist
    have hcl := ells_clique hG hC (fun e he => a1.inGrid (by omega) e (hsub.subset he)) ((a1.meets (by omega)).sublist hsub)
      (List.Forall₂.imp (fun _ _ h => h.2) a2)
    obtain ⟨ys, xs, b1, rfl⟩ := walk_is_nested hW a1
    exact ⟨a0, hcl.1, hcl.2, ys, xs, css, b1, a2, rfl⟩
  · have hw := nested_walk hn hW (show W - 1 < W by omega)
    rw [show W - 1 + 1 = W by omega] at hw
    have hle := r3 _ _ _ hw
    obtain ⟨css, c1, c2⟩ := made_all (check := check) hG hC hT (hw.inGrid (by omega))
    refine ⟨css.flatten, inflateAll_ok c1, ?_⟩
    rw [c2]
    cases r <;> exact hle

end
end Bus
end MM
