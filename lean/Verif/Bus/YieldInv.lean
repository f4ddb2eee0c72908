import Verif.Bus.Yield
import Verif.Bus.NestedInv

/-! The embeddings that are kept, one for each length of chains. -/

namespace MM
namespace Bus

open Lattice Spec

theorem embMaxLength_ok (emb : List (List Nat)) : (∀ c ∈ emb, c.length ≤ embMaxLength emb) ∧ (emb ≠ [] → ∃ c ∈ emb, c.length = embMaxLength emb) := by
  have key : ∀ (l : List (List Nat)) m, m ≤ l.foldl (fun m c => max m c.length) m ∧ (∀ c ∈ l, c.length ≤ l.foldl (fun m c => max m c.length) m) ∧
      (l.foldl (fun m c => max m c.length) m = m ∨ ∃ c ∈ l, c.length = l.foldl (fun m c => max m c.length) m) := by
    intro l
    induction l with
    | nil => intro m; simp
    | cons d l ih =>
      intro m
      rw [List.foldl_cons]
      obtain ⟨h1, h2, h3⟩ := ih (max m d.length)
      refine ⟨by omega, ?_, ?_⟩
      · intro c hc
        rcases List.mem_cons.mp hc with rfl | hc
        · omega
        · exact h2 c hc
      · rcases h3 with h3 | ⟨c, hc, h3⟩
        · rcases Nat.le_total m d.length with h | h
          · right; exact ⟨d, List.mem_cons_self, by omega⟩
          · left; omega
        · right; exact ⟨c, List.mem_cons_of_mem _ hc, h3⟩
  obtain ⟨h1, h2, h3⟩ := key emb 0
  refine ⟨h2, fun hne => ?_⟩
  rcases h3 with h3 | h3
  · obtain ⟨c, hc⟩ := List.exists_mem_of_ne_nil _ hne
    have := h2 c hc
    exact ⟨c, hc, by unfold embMaxLength; omega⟩
  · exact h3

section
variable {T : Topo} {lines : List Byte} {nodes : List Nat} {edges : List (Nat × Nat)} {C : Masks} {N E : Bool → Nat → Nat → Nat → Prop}

theorem div_le {o s z0 z1 : Nat} (hs : 0 < s) (h : z0 ≤ z1) : (z1 - o) / s + 1 - (z0 - o) / s ≤ (z1 - z0 + (s - 1)) / s + 1 := by
  have h1 : (z1 - o) / s ≤ (z0 - o) / s + (z1 - z0 + (s - 1)) / s := by
    have e0 := Nat.div_add_mod (z1 - o) s
    have e1 := Nat.div_add_mod (z0 - o) s
    have e2 := Nat.div_add_mod (z1 - z0 + (s - 1)) s
    have l0 := Nat.mod_lt (z0 - o) hs
    have l2 := Nat.mod_lt (z1 - z0 + (s - 1)) hs
    by_contra hc
    have hc : (z0 - o) / s + (z1 - z0 + (s - 1)) / s + 1 ≤ (z1 - o) / s := by omega
    have := Nat.mul_le_mul_left s hc
    rw [Nat.mul_add, Nat.mul_add, Nat.mul_one] at this
    omega
  generalize (z1 - o) / s = a at *
  generalize (z0 - o) / s = b at *
  generalize (z1 - z0 + (s - 1)) / s = c at *
  omega

/-- A line of `n + 1` cells has at most so many qubits. -/
theorem Wire.length_le {u : Bool} {w k z0 z1 : Nat} {l : List Nat} (h : Wire T nodes edges N E u w k z0 z1 l) (hz : z0 ≤ z1) : l.length ≤ (z1 - z0 + (T.span - 1)) / T.span + 1 := by
  rw [h.line.length]
  exact div_le (span_pos T) hz

/-- The chain of a cell has two qubits. -/
theorem EllChain.length_cell {y x k j : Nat} {c : List Nat} (h : EllChain T nodes edges N E ⟨y, x, y, y, x, x⟩ k j c) : c.length = 2 := by
  obtain ⟨v, h, rfl, hv, hh⟩ := h
  rw [List.length_append, hv.line.length, hh.line.length]
  simp only
  omega

/-- Chains of ells of nested rectangles are short enough for the array. -/
theorem EllChain.length_lt {e : Ell} {k j W : Nat} {c : List Nat} (h : EllChain T nodes edges N E e k j c) (hy : e.y0 ≤ e.y1) (hx : e.x0 ≤ e.x1)
    (hW : e.y1 - e.y0 + (e.x1 - e.x0) + 1 ≤ W) (h1 : W ≤ T.dimY) (h2 : W ≤ T.dimX) : c.length < lengthBound T := by
  obtain ⟨v, h, rfl, hv, hh⟩ := h
  have a1 := hv.length_le hy
  have a2 := hh.length_le hx
  rw [List.length_append]
  generalize e.y1 - e.y0 = a at *
  generalize e.x1 - e.x0 = b at *
  cases T <;> simp only [Topo.span, Topo.dimY, Topo.dimX, lengthBound] at * <;> omega

/-- A good entry for the length `i`. -/
structure Entry (nodes : List Nat) (edges : List (Nat × Nat)) (i : Nat) (emb : List (List Nat)) : Prop where
  clique : CliqueEmbedding nodes edges emb
  nodup : ∀ c ∈ emb, c.Nodup
  le : ∀ c ∈ emb, c.length ≤ i
  eq : emb ≠ [] → ∃ c ∈ emb, c.length = i

/-- What holds of the two arrays all the time. -/
structure YieldOk (T : Topo) (nodes : List Nat) (edges : List (Nat × Nat)) (Y : Yield) : Prop where
  counts : Y.counts.length = lengthBound T
  embs : Y.embs.length = lengthBound T
  count : ∀ i : Nat, Y.counts[i]? = Y.embs[i]?.map List.length
  entry : ∀ (i : Nat) emb, Y.embs[i]? = some emb → Entry nodes edges i emb

/-- No entry gets smaller. -/
def Grows (Y Y' : Yield) : Prop := ∀ (i : Nat) e, Y.embs[i]? = some e → ∃ e', Y'.embs[i]? = some e' ∧ e.length ≤ e'.length

theorem Grows.refl (Y : Yield) : Grows Y Y := fun _ e h => ⟨e, h, Nat.le_refl _⟩

theorem Grows.trans {Y Y' Y'' : Yield} (h : Grows Y Y') (h' : Grows Y' Y'') : Grows Y Y'' := by
  intro i e he
  obtain ⟨e', h1, h2⟩ := h i e he
  obtain ⟨e'', h3, h4⟩ := h' i e' h1
  exact ⟨e'', h3, Nat.le_trans h2 h4⟩

theorem keep_ok {Y : Yield} (h : YieldOk T nodes edges Y) {i : Nat} {emb old : List (List Nat)} (ho : Y.embs[i]? = some old) (hlt : old.length < emb.length) (he : Entry nodes edges i emb) :
    ∃ Y', Y.keep i emb.length emb = .ok Y' ∧ YieldOk T nodes edges Y' ∧ Grows Y Y' ∧ Y'.embs[i]? = some emb := by
  have hi : i < lengthBound T := by
    rw [← h.embs]; exact (List.getElem?_eq_some_iff.mp ho).1
  have hi1 : i < Y.counts.length := by rw [h.counts]; exact hi
  have hi2 : i < Y.embs.length := by rw [h.embs]; exact hi
  refine ⟨⟨Y.counts.set i emb.length, Y.embs.set i emb⟩, ?_, ⟨by simp [h.counts], by simp [h.embs], ?_, ?_⟩, ?_, List.getElem?_set_self hi2⟩
  · simp only [Yield.keep, put_ok hi1, put_ok hi2, bind, Except.bind]; rfl
  · intro j
    by_cases hj : i = j
    · subst hj
      rw [List.getElem?_set_self hi1, List.getElem?_set_self hi2]; rfl
    · rw [List.getElem?_set_ne hj, List.getElem?_set_ne hj]; exact h.count j
  · intro j e hje
    by_cases hj : i = j
    · subst hj
      rw [List.getElem?_set_self hi2] at hje
      cases hje; exact he
    · rw [List.getElem?_set_ne hj] at hje; exact h.entry j e hje
  · intro j e hje
    by_cases hj : i = j
    · subst hj
      rw [ho] at hje; cases hje
      exact ⟨emb, List.getElem?_set_self hi2, Nat.le_of_lt hlt⟩
    · exact ⟨e, by rw [List.getElem?_set_ne hj]; exact hje, Nat.le_refl _⟩

/-- An ell of width `W`: its corner is one of the rectangle it spans. -/
structure Wide (W : Nat) (e : Ell) : Prop where
  y : e.y0 ≤ e.y1
  x : e.x0 ≤ e.x1
  width : e.y1 - e.y0 + (e.x1 - e.x0) + 1 = W
  yc : e.yc = e.y0 ∨ e.yc = e.y1
  xc : e.xc = e.x0 ∨ e.xc = e.x1

/-- Ells of nested rectangles. -/
theorem nestedEll_wide {W : Nat} {ys xs : Nat → Nat} {e : Ell} (he : e ∈ nestedElls W ys xs W) : Wide W e := by
  unfold nestedElls at he
  obtain ⟨i, hi, rfl⟩ := List.mem_map.mp he
  have hi : i < W := by simpa using hi
  refine ⟨by simp only [nestedEll]; omega, by simp only [nestedEll]; omega, by simp only [nestedEll]; omega, ?_, ?_⟩
  · simp only [nestedEll]
    cases i with
    | zero => left; rfl
    | succ i => simp only [newRow]; split <;> omega
  · simp only [nestedEll, oldColumn]
    split
    · left; rfl
    · split <;> omega

/-- Every chain of the answer comes from an ell that passed the check. -/
theorem made_mem {es : List Ell} {css : List (List (List Nat))} (h : List.Forall₂ (Made T lines nodes edges N E) es css) {c : List Nat} (hc : c ∈ css.flatten) :
    ∃ e ∈ es, ∃ k j, EllChain T nodes edges N E e k j c := by
  obtain ⟨cs, h1, h2⟩ := List.mem_flatten.mp hc
  obtain ⟨e, h3, h4⟩ := forall₂_right h h1
  exact ⟨e, h3, h4.2.chains c h2⟩

/-- `process_cliques`: afterwards some entry is at least as large as the chains of each sequence, and no longer than the chains of the ells that pass the check. -/
theorem processCliques_ok (hG : WFGraph T nodes edges) (hC : Clean T nodes edges C N E) (hT : Table T C lines) {check : Ell → Bool} {W : Nat} (hF : Fits T W) {Y : Yield} (h : YieldOk T nodes edges Y) :
    ∃ Y', processCliques T lines check W Y = .ok Y' ∧ YieldOk T nodes edges Y' ∧ Grows Y Y' ∧
      ∀ ys xs emb, Nested T.dimY T.dimX W ys xs → inflateAll T lines ((nestedElls W ys xs W).filter check) = .ok emb → emb ≠ [] →
        ∃ i e, Y'.embs[i]? = some e ∧ emb.length ≤ e.length ∧ ∃ d k j c, check d = true ∧ Wide W d ∧ EllChain T nodes edges N E d k j c ∧ c.length = i := by
  obtain ⟨r, r1, r2, r3⟩ := cliqueOf_best (check := check) hG hC hT hF
  cases r with
  | none =>
    refine ⟨Y, by simp only [processCliques, r1, bind, Except.bind]; rfl, h, .refl Y, fun ys xs emb hn he hne => ?_⟩
    obtain ⟨emb', h1, h2⟩ := r3 ys xs hn
    rw [he] at h1; cases h1
    exact absurd (List.length_eq_zero_iff.mp (Nat.le_zero.mp h2)) hne
  | some best =>
    obtain ⟨a0, a1, a2, ys, xs, css, b1, b2, b3⟩ := r2 best rfl
    obtain ⟨m1, m2⟩ := embMaxLength_ok best
    obtain ⟨c, hc, hcl⟩ := m2 a0
    have hc' := hc
    rw [b3] at hc'
    obtain ⟨d, hd, k, j, hch⟩ := made_mem b2 hc'
    rw [List.mem_filter] at hd
    have hw := nestedEll_wide hd.1
    have hlt : embMaxLength best < lengthBound T := by rw [← hcl]; exact hch.length_lt hw.y hw.x (Nat.le_of_eq hw.width) hF.y hF.x
    obtain ⟨old, ho⟩ : ∃ old, Y.embs[embMaxLength best]? = some old := ⟨_, List.getElem?_eq_getElem (by rw [h.embs]; exact hlt)⟩
    have hcount : at_ Y.counts (embMaxLength best) = .ok old.length := at_ok (by rw [h.count, ho]; rfl)
    have hent : Entry nodes edges (embMaxLength best) best := ⟨a1, a2, m1, fun _ => ⟨c, hc, hcl⟩⟩
    by_cases hold : old.length < best.length
    · obtain ⟨Y', k1, k2, k3, k4⟩ := keep_ok h ho hold hent
      refine ⟨Y', ?_, k2, k3, fun ys xs emb hn he hne => ?_⟩
      · simp only [processCliques, r1, hcount, bind, Except.bind]
        rw [if_pos hold]; exact k1
      · obtain ⟨emb', h1, h2⟩ := r3 ys xs hn
        rw [he] at h1; cases h1
        exact ⟨_, best, k4, h2, d, k, j, c, hd.2, hw, hch, hcl⟩
    · refine ⟨Y, ?_, h, .refl Y, fun ys xs emb hn he hne => ?_⟩
      · simp only [processCliques, r1, hcount, bind, Except.bind]
        rw [if_neg hold]; rfl
      · obtain ⟨emb', h1, h2⟩ := r3 ys xs hn
        rw [he] at h1; cases h1
        exact ⟨_, old, ho, Nat.le_trans h2 (by simpa using hold), d, k, j, c, hd.2, hw, hch, hcl⟩

theorem cell_inGrid {y x : Nat} (hy : y < T.dimY) (hx : x < T.dimX) : (⟨y, x, y, y, x, x⟩ : Ell).InGrid T := ⟨Nat.le_refl _, Nat.le_refl _, hy, Nat.le_refl _, Nat.le_refl _, hx⟩

/-- No cell gives more chains than its lines have tracks. -/
theorem ellScore_le (hG : WFGraph T nodes edges) (hC : Clean T nodes edges C N E) (hT : Table T C lines) {e : Ell} (he : e.InGrid T) {n : Nat} (h : ellScore T lines e = .ok n) : n ≤ T.shore := by
  obtain ⟨k0, a1, a2⟩ := hT.tracks hC (u := false) (w := e.xc) (z0 := e.y0) (z1 := e.y1) (Nat.lt_of_le_of_lt he.x1 he.x) (Nat.le_trans he.y0 he.y1) he.y
  obtain ⟨k1, b1, b2⟩ := hT.tracks hC (u := true) (w := e.yc) (z0 := e.x0) (z1 := e.x1) (Nat.lt_of_le_of_lt he.y1 he.y) (Nat.le_trans he.x0 he.x1) he.x
  simp only [ellScore, lineScore, a1, b1, bind, Except.bind, popcount_ok] at h
  cases h
  refine Nat.le_trans (Nat.min_le_left _ _) ?_
  have hsub : (members k0) ⊆ List.range T.shore := by
    intro k hk
    have hw := (a2 k).mp hk
    exact List.mem_range.mpr (Has.bounds hG.supported hG.qubits (hC.node_has _ _ _ _ (hw.1 e.y0 (Nat.le_refl _) (Nat.le_trans he.y0 he.y1)))).2
  have := (List.subperm_of_subset (members_nodup k0) hsub).length_le
  simpa using this

/-- `compute_cache_width_1`. -/
theorem widthOne_ok (hG : WFGraph T nodes edges) (hC : Clean T nodes edges C N E) (hT : Table T C lines) {l : List (Nat × Nat)} (hl : ∀ p ∈ l, p.1 < T.dimY ∧ p.2 < T.dimX) (h2 : l = [] ∨ 2 < lengthBound T)
    {Y : Yield} (h : YieldOk T nodes edges Y) :
    ∃ Y', widthOne T lines l Y = .ok Y' ∧ YieldOk T nodes edges Y' ∧ Grows Y Y' ∧
      ∀ p ∈ l, ∀ emb, inflateEll T lines ⟨p.1, p.2, p.1, p.1, p.2, p.2⟩ [] = .ok emb → ∃ e, Y'.embs[2]? = some e ∧ emb.length ≤ e.length := by
  induction l generalizing Y with
  | nil => exact ⟨Y, rfl, h, .refl Y, by simp⟩
  | cons p l ih =>
    obtain ⟨y, x⟩ := p
    have h2' : 2 < lengthBound T := by
      rcases h2 with h2 | h2
      · cases h2
      · exact h2
    obtain ⟨hy, hx⟩ := hl (y, x) List.mem_cons_self
    have hgrid := cell_inGrid hy hx
    obtain ⟨cs, a1, a2, a3⟩ := inflateEll_ok hG hC hT hgrid
    have hle := ellScore_le hG hC hT hgrid a2
    obtain ⟨old, ho⟩ : ∃ old, Y.embs[2]? = some old := ⟨_, List.getElem?_eq_getElem (by rw [h.embs]; exact h2')⟩
    have hcount : at_ Y.counts 2 = .ok old.length := at_ok (by rw [h.count, ho]; rfl)
    have hin : inflateEll T lines ⟨y, x, y, y, x, x⟩ [] = .ok cs := by simpa using a1 []
    have hcl := ells_clique hG hC (es := [⟨y, x, y, y, x, x⟩]) (css := [cs]) (by simpa using hgrid) (List.pairwise_singleton _ _) (.cons a3 .nil)
    rw [List.flatten_cons, List.flatten_nil, List.append_nil] at hcl
    have hlen : ∀ c ∈ cs, c.length = 2 := by
      intro c hc
      obtain ⟨k, j, hk⟩ := a3.chains c hc
      exact hk.length_cell
    have hent : Entry nodes edges 2 cs := ⟨hcl.1, hcl.2, fun c hc => Nat.le_of_eq (hlen c hc), fun hne => by
      obtain ⟨c, hc⟩ := List.exists_mem_of_ne_nil _ hne
      exact ⟨c, hc, hlen c hc⟩⟩
    obtain ⟨Y1, k1, k2, k3, e1, k4, k5⟩ : ∃ Y1, (if old.length < cs.length then do
          let emb ← inflateEll T lines ⟨y, x, y, y, x, x⟩ []
          Y.keep 2 cs.length emb
        else pure Y : B Yield) = .ok Y1 ∧ YieldOk T nodes edges Y1 ∧ Grows Y Y1 ∧ ∃ e1, Y1.embs[2]? = some e1 ∧ cs.length ≤ e1.length := by
      by_cases hold : old.length < cs.length
      · obtain ⟨Y1, k1, k2, k3, k4⟩ := keep_ok h ho hold hent
        refine ⟨Y1, ?_, k2, k3, cs, k4, Nat.le_refl _⟩
        rw [if_pos hold, hin]; exact k1
      · exact ⟨Y, by rw [if_neg hold]; rfl, h, .refl Y, old, ho, by omega⟩
    by_cases hs : cs.length = T.shore
    · refine ⟨Y1, ?_, k2, k3, ?_⟩
      · simp only [widthOne, a2, hcount]
        simp only [bind, Except.bind] at k1 ⊢
        split at k1
        · rename_i hold
          rw [hin] at k1
          simp only [if_pos hold, hin, k1, if_pos hs]; rfl
        · rename_i hold
          cases k1
          simp only [if_neg hold, pure, Except.pure, if_pos hs]
      · intro p hp emb he
        have hp2 := hl p hp
        obtain ⟨cs', b1, b2, _⟩ := inflateEll_ok hG hC hT (cell_inGrid (T := T) hp2.1 hp2.2)
        have hle' := ellScore_le hG hC hT (cell_inGrid (T := T) hp2.1 hp2.2) b2
        have : inflateEll T lines ⟨p.1, p.2, p.1, p.1, p.2, p.2⟩ [] = .ok cs' := by simpa using b1 []
        rw [this] at he; cases he
        exact ⟨e1, k4, by omega⟩
    · obtain ⟨Y2, m1, m2, m3, m4⟩ := ih (fun p hp => hl p (List.mem_cons_of_mem _ hp)) (.inr h2') k2
      refine ⟨Y2, ?_, m2, k3.trans m3, ?_⟩
      · simp only [widthOne, a2, hcount]
        simp only [bind, Except.bind] at k1 ⊢
        split at k1
        · rename_i hold
          rw [hin] at k1
          simp only [if_pos hold, hin, k1, if_neg hs, m1]
        · rename_i hold
          cases k1
          simp only [if_neg hold, pure, Except.pure, if_neg hs, m1]
      · intro p hp emb he
        rcases List.mem_cons.mp hp with rfl | hp
        · rw [hin] at he; cases he
          obtain ⟨e2, n1, n2⟩ := m3 2 e1 k4
          exact ⟨e2, n1, by omega⟩
        · exact m4 p hp emb he

theorem mem_allCells {p : Nat × Nat} : p ∈ T.allCells ↔ p.1 < T.dimY ∧ p.2 < T.dimX := by
  obtain ⟨y, x⟩ := p
  simp [Topo.allCells]

theorem mem_widthsTried {p : Nat × Option Nat} (h : p ∈ widthsTried T) : Fits T p.1 := by
  unfold widthsTried at h
  obtain ⟨w, hw, h⟩ := List.mem_flatMap.mp h
  rw [List.mem_range'_1] at hw
  have hp : p.1 = w := by
    cases T with
    | pegasus d off =>
      simp only [List.mem_cons, List.mem_map] at h
      rcases h with rfl | ⟨_, _, rfl⟩ <;> rfl
    | chimera m n t => simp only [List.mem_singleton] at h; rw [h]
    | zephyr d t => simp only [List.mem_singleton] at h; rw [h]
  exact ⟨by omega, by omega, by omega⟩

theorem widthsTried_none {W : Nat} (hF : Fits T W) : (W, none) ∈ widthsTried T := by
  unfold widthsTried
  have := hF.two; have := hF.y; have := hF.x
  refine List.mem_flatMap.mpr ⟨W, List.mem_range'_1.mpr ⟨by omega, by omega⟩, ?_⟩
  cases T <;> simp

/-- What an entry must beat: the chains of a sequence of rectangles in the search for a width and a bound of length. -/
def Beats (T : Topo) (lines : List Byte) (nodes : List Nat) (edges : List (Nat × Nat)) (N E : Bool → Nat → Nat → Nat → Prop) (p : Nat × Option Nat) (Y : Yield) : Prop :=
  ∀ ys xs emb, Nested T.dimY T.dimX p.1 ys xs → inflateAll T lines ((nestedElls p.1 ys xs p.1).filter (checkFor T p.2)) = .ok emb → emb ≠ [] →
    ∃ i e, Y.embs[i]? = some e ∧ emb.length ≤ e.length ∧ ∃ d k j c, checkFor T p.2 d = true ∧ Wide p.1 d ∧ EllChain T nodes edges N E d k j c ∧ c.length = i

theorem yieldOf_ok (hG : WFGraph T nodes edges) (hC : Clean T nodes edges C N E) {lines : List Byte} (hl : lineMasks T C = .ok lines) (hT : Table T C lines) :
    ∃ Y, yieldOf T C = .ok Y ∧ YieldOk T nodes edges Y ∧ (∀ p ∈ widthsTried T, Beats T lines nodes edges N E p Y) ∧
      (T.hasWidthOne = true → ∀ y x emb, y < T.dimY → x < T.dimX → inflateEll T lines ⟨y, x, y, y, x, x⟩ [] = .ok emb → ∃ e, Y.embs[2]? = some e ∧ emb.length ≤ e.length) := by
  have h0 : YieldOk T nodes edges ⟨List.replicate (lengthBound T) 0, List.replicate (lengthBound T) []⟩ := by
    refine ⟨by simp, by simp, ?_, ?_⟩
    · intro i
      simp only [List.getElem?_replicate]
      split <;> rfl
    · intro i emb he
      simp only [List.getElem?_replicate] at he
      split at he
      · cases he
        exact ⟨⟨by simp, .nil, .nil⟩, by simp, by simp, by simp⟩
      · cases he
  obtain ⟨Y1, a1, a2, a3⟩ : ∃ Y1, (if T.hasWidthOne then widthOne T lines T.allCells ⟨List.replicate (lengthBound T) 0, List.replicate (lengthBound T) []⟩
      else pure ⟨List.replicate (lengthBound T) 0, List.replicate (lengthBound T) []⟩ : B Yield) = .ok Y1 ∧ YieldOk T nodes edges Y1 ∧
      (T.hasWidthOne = true → ∀ y x emb, y < T.dimY → x < T.dimX → inflateEll T lines ⟨y, x, y, y, x, x⟩ [] = .ok emb → ∃ e, Y1.embs[2]? = some e ∧ emb.length ≤ e.length) := by
    cases hw : T.hasWidthOne with
    | false => exact ⟨_, rfl, h0, by simp⟩
    | true =>
      have hcells : T.allCells = [] ∨ 2 < lengthBound T := by
        cases hcs : T.allCells with
        | nil => left; rfl
        | cons p l =>
          right
          have hp : p ∈ T.allCells := by rw [hcs]; exact List.mem_cons_self
          obtain ⟨hy, hx⟩ := mem_allCells.mp hp
          cases T <;> simp only [Topo.dimY, Topo.dimX, lengthBound] at * <;> omega
      obtain ⟨Y1, b1, b2, _, b4⟩ := widthOne_ok hG hC hT (l := T.allCells) (fun p hp => mem_allCells.mp hp) hcells h0
      exact ⟨Y1, b1, b2, fun _ y x emb hy hx he => b4 (y, x) (mem_allCells.mpr ⟨hy, hx⟩) emb he⟩
  have key : ∀ (l : List (Nat × Option Nat)) Y, (∀ p ∈ l, Fits T p.1) → YieldOk T nodes edges Y →
      ∃ Y', l.foldlM (fun Y p => processCliques T lines (checkFor T p.2) p.1 Y) Y = .ok Y' ∧ YieldOk T nodes edges Y' ∧ Grows Y Y' ∧ ∀ p ∈ l, Beats T lines nodes edges N E p Y' := by
    intro l
    induction l with
    | nil => intro Y _ hY; exact ⟨Y, rfl, hY, .refl Y, by simp⟩
    | cons p l ih =>
      intro Y hp hY
      obtain ⟨Y', b1, b2, b3, b4⟩ := processCliques_ok (check := checkFor T p.2) hG hC hT (hp p List.mem_cons_self) hY
      obtain ⟨Y'', c1, c2, c3, c4⟩ := ih Y' (fun q hq => hp q (List.mem_cons_of_mem _ hq)) b2
      refine ⟨Y'', by rw [List.foldlM_cons, b1]; exact c1, c2, b3.trans c3, ?_⟩
      intro q hq
      rcases List.mem_cons.mp hq with rfl | hq
      · intro ys xs emb hn he hne
        obtain ⟨i, e, d1, d2, d3⟩ := b4 ys xs emb hn he hne
        obtain ⟨e', f1, f2⟩ := c3 i e d1
        exact ⟨i, e', f1, Nat.le_trans d2 f2, d3⟩
      · exact c4 q hq
  obtain ⟨Y2, b1, b2, b3, b4⟩ := key (widthsTried T) Y1 (fun p hp => mem_widthsTried hp) a2
  refine ⟨Y2, ?_, b2, b4, ?_⟩
  · simp only [yieldOf, hl]
    simp only [bind, Except.bind]
    split at a1
    · rename_i hw
      rw [if_pos hw, a1]; exact b1
    · rename_i hw
      cases a1
      rw [if_neg hw]; exact b1
  · intro hw y x emb hy hx he
    obtain ⟨e, c1, c2⟩ := a3 hw y x emb hy hx he
    obtain ⟨e', d1, d2⟩ := b3 2 e c1
    exact ⟨e', d1, Nat.le_trans c2 d2⟩

/-- The length that Pegasus computes for an ell is that of its chains. -/
theorem pegasusEllLength_ok {d : Nat} {off : Bool → Nat → Nat} (hG : WFGraph (.pegasus d off) nodes edges) (hC : Clean (.pegasus d off) nodes edges C N E) {e : Ell} (hy : e.y0 ≤ e.y1) (hx : e.x0 ≤ e.x1)
    {k j : Nat} {c : List Nat} (h : EllChain (.pegasus d off) nodes edges N E e k j c) : c.length = pegasusEllLength off e := by
  have key : ∀ {u : Bool} {w k z0 z1 : Nat} {l : List Nat}, z0 ≤ z1 → Wire (.pegasus d off) nodes edges N E u w k z0 z1 l → l.length = pegasusLength off u w z0 z1 := by
    intro u w k z0 z1 l hz hw
    rw [hw.line.length]
    obtain ⟨q, hq, hf⟩ := hC.node_has _ _ _ _ (hw.whole.1 z0 (Nat.le_refl _) hz)
    have h1 := (align (hG.qubits q hq) hf).1
    have h2 := hG.supported u (w % 6)
    simp only [Topo.piece, Topo.org, Topo.span, pegasusLength] at *
    generalize off u (w % 6) = o at *
    omega
  obtain ⟨v, h, rfl, hv, hh⟩ := h
  rw [List.length_append, key hy hv, key hx hh]; rfl

theorem pegasusLength_shift {off : Bool → Nat → Nat} (hoff : ∀ u i, off u i < 6) {u : Bool} {w w' z0 z1 z0' z1' a : Nat} (hw : w' % 6 = w % 6) (h0 : z0' + 6 * a = z0 + 6) (h1 : z1' + 6 * a = z1 + 6) :
    pegasusLength off u w' z0' z1' = pegasusLength off u w z0 z1 := by
  have := hoff u (w % 6)
  simp only [pegasusLength, hw]
  generalize off u (w % 6) = o at *
  omega

/-- `get_length_range` sees all lengths of ells of a width. -/
theorem lengthRange_ok {off : Bool → Nat → Nat} (hoff : ∀ u i, off u i < 6) {W : Nat} {e : Ell} (h : Wide W e) :
    ∃ a, (lengthRange off W).1 = some a ∧ a ≤ pegasusEllLength off e ∧ pegasusEllLength off e ≤ (lengthRange off W).2 := by
  have key : ∀ (l : List Ell) (r : Option Nat × Nat), let r' := l.foldl (fun r e => (some (match r.1 with | none => pegasusEllLength off e | some m => min m (pegasusEllLength off e)), max r.2 (pegasusEllLength off e))) r
      (∀ m, r.1 = some m → ∃ a, r'.1 = some a ∧ a ≤ m) ∧ r.2 ≤ r'.2 ∧ ∀ d ∈ l, ∃ a, r'.1 = some a ∧ a ≤ pegasusEllLength off d ∧ pegasusEllLength off d ≤ r'.2 := by
    intro l
    induction l with
    | nil => intro r; exact ⟨fun m h => ⟨m, h, Nat.le_refl _⟩, Nat.le_refl _, by simp⟩
    | cons d l ih =>
      intro r
      simp only [List.foldl_cons]
      obtain ⟨i1, i2, i3⟩ := ih (some (match r.1 with | none => pegasusEllLength off d | some m => min m (pegasusEllLength off d)), max r.2 (pegasusEllLength off d))
      obtain ⟨a, a1, a2⟩ := i1 _ rfl
      simp only at i2 a2
      refine ⟨?_, by omega, ?_⟩
      · intro m hm
        rw [hm] at a2
        exact ⟨a, a1, by simp only at a2; omega⟩
      · intro c hc
        rcases List.mem_cons.mp hc with rfl | hc
        · refine ⟨a, a1, ?_, by omega⟩
          split at a2 <;> omega
        · exact i3 c hc
  obtain ⟨-, -, k3⟩ := key (rangeElls W) (none, 0)
  obtain ⟨h1, h2, h3, h4, h5⟩ := h
  -- the same ell in the first block of rows and columns
  have hm : ∃ d ∈ rangeElls W, pegasusEllLength off d = pegasusEllLength off e := by
    obtain ⟨yc, xc, y0, y1, x0, x1⟩ := e
    simp only at h1 h2 h3 h4 h5
    have ey := Nat.div_add_mod y0 6
    have ex := Nat.div_add_mod x0 6
    have ly := Nat.mod_lt y0 (show 0 < 6 by omega)
    have lx := Nat.mod_lt x0 (show 0 < 6 by omega)
    generalize y0 / 6 = a at *
    generalize x0 / 6 = b at *
    generalize hY : 6 + y0 % 6 = y at *
    generalize hX : 6 + x0 % 6 = x at *
    have hmem : ∀ yc' ∈ [y, y + (W - (x1 - x0)) - 1], ∀ xc' ∈ [x, x + (x1 - x0 + 1) - 1], (⟨yc', xc', y, y + (W - (x1 - x0)) - 1, x, x + (x1 - x0 + 1) - 1⟩ : Ell) ∈ rangeElls W := by
      intro yc' hy' xc' hx'
      refine List.mem_flatMap.mpr ⟨x1 - x0, List.mem_range.mpr (by omega), List.mem_flatMap.mpr ⟨y, List.mem_range'_1.mpr (by omega), List.mem_flatMap.mpr ⟨x, List.mem_range'_1.mpr (by omega), ?_⟩⟩⟩
      simp only [List.mem_cons, List.not_mem_nil, or_false] at hy' hx'
      rcases hy' with rfl | rfl <;> rcases hx' with rfl | rfl <;> simp
    refine ⟨⟨if yc = y0 then y else y + (W - (x1 - x0)) - 1, if xc = x0 then x else x + (x1 - x0 + 1) - 1, _, _, _, _⟩, hmem _ (by split <;> simp) _ (by split <;> simp), ?_⟩
    simp only [pegasusEllLength]
    rw [pegasusLength_shift hoff (u := false) (w := xc) (z0 := y0) (z1 := y1) (a := a) (by split <;> omega) (by omega) (by omega),
      pegasusLength_shift hoff (u := true) (w := yc) (z0 := x0) (z1 := x1) (a := b) (by split <;> omega) (by omega) (by omega)]
  obtain ⟨d, hd, hde⟩ := hm
  rw [← hde]
  exact k3 d hd

theorem chimera_length {m n t : Nat} {e : Ell} {W : Nat} (hw : Wide W e) {k j : Nat} {c : List Nat} (h : EllChain (.chimera m n t) nodes edges N E e k j c) : c.length = W + 1 := by
  obtain ⟨v, h, rfl, hv, hh⟩ := h
  have := hw.y; have := hw.x; have := hw.width
  rw [List.length_append, hv.line.length, hh.line.length]
  simp only [Topo.piece, Topo.org, Topo.span]
  omega

/-- In Pegasus the entries answer for any bound on the length. -/
theorem beats_pegasus {d : Nat} {off : Bool → Nat → Nat} (hG : WFGraph (.pegasus d off) nodes edges) (hC : Clean (.pegasus d off) nodes edges C N E) {Y : Yield}
    (h : ∀ p ∈ widthsTried (.pegasus d off), Beats (.pegasus d off) lines nodes edges N E p Y) {W : Nat} (hF : Fits (.pegasus d off) W) (len : Nat) {ys xs : Nat → Nat} {emb : List (List Nat)}
    (hn : Nested (Topo.pegasus d off).dimY (Topo.pegasus d off).dimX W ys xs)
    (he : inflateAll (.pegasus d off) lines ((nestedElls W ys xs W).filter fun e => decide (pegasusEllLength off e ≤ len)) = .ok emb) (hne : emb ≠ []) :
    ∃ i e, i ≤ len ∧ Y.embs[i]? = some e ∧ emb.length ≤ e.length := by
  have hoff : ∀ u i, off u i < 6 := hG.supported
  by_cases hlen : (lengthRange off W).2 ≤ len
  · -- all ells pass
    have hf : ((nestedElls W ys xs W).filter fun e => decide (pegasusEllLength off e ≤ len)) = (nestedElls W ys xs W).filter (checkFor (.pegasus d off) none) := by
      refine List.filter_congr fun e he => ?_
      obtain ⟨a, _, _, h3⟩ := lengthRange_ok hoff (nestedEll_wide he)
      simp only [checkFor, decide_eq_true_eq]
      omega
    rw [hf] at he
    obtain ⟨i, e, h1, h2, d', k, j, c, h3, h4, h5, h6⟩ := h (W, none) (widthsTried_none hF) ys xs emb hn he hne
    refine ⟨i, e, ?_, h1, h2⟩
    obtain ⟨a, _, _, h7⟩ := lengthRange_ok hoff h4
    rw [← h6, pegasusEllLength_ok hG hC h4.y h4.x h5]
    exact Nat.le_trans h7 hlen
  · by_cases hmin : ∃ a, (lengthRange off W).1 = some a ∧ a ≤ len
    · obtain ⟨a, ha, hal⟩ := hmin
      have hp : (W, some len) ∈ widthsTried (.pegasus d off) := by
        unfold widthsTried
        have := hF.two; have := hF.y; have := hF.x
        refine List.mem_flatMap.mpr ⟨W, List.mem_range'_1.mpr ⟨by omega, by omega⟩, List.mem_cons_of_mem _ (List.mem_map.mpr ⟨len, ?_, rfl⟩)⟩
        unfold lengthsTried
        generalize lengthRange off W = r at *
        obtain ⟨r1, r2⟩ := r
        simp only at ha hlen
        subst ha
        exact List.mem_range'_1.mpr (by omega)
      obtain ⟨i, e, h1, h2, d', k, j, c, h3, h4, h5, h6⟩ := h (W, some len) hp ys xs emb hn he hne
      refine ⟨i, e, ?_, h1, h2⟩
      rw [← h6, pegasusEllLength_ok hG hC h4.y h4.x h5]
      simpa [checkFor] using h3
    · exfalso
      have hf : ((nestedElls W ys xs W).filter fun e => decide (pegasusEllLength off e ≤ len)) = [] := by
        rw [List.filter_eq_nil_iff]
        intro e he hle
        obtain ⟨a, h1, h2, _⟩ := lengthRange_ok hoff (nestedEll_wide he)
        exact hmin ⟨a, h1, Nat.le_trans h2 (by simpa using hle)⟩
      rw [hf] at he
      cases he
      exact hne rfl

end

theorem mergeYield_get (A B : List (List (List Nat))) (i : Nat) : (mergeYield A B)[i]? = (match A[i]?, B[i]? with
    | some a, some b => some (if a.length < b.length then b else a)
    | some a, none => some a
    | none, b => b) := by
  induction B generalizing A i with
  | nil =>
    cases A <;> simp only [mergeYield, List.getElem?_nil] <;> split <;> simp_all
  | cons b B ih =>
    cases A with
    | nil =>
      cases i with
      | zero => simp [mergeYield]
      | succ i => simp only [mergeYield, List.getElem?_cons_succ, ih]; simp
    | cons a A =>
      cases i with
      | zero => simp [mergeYield]
      | succ i => simp only [mergeYield, List.getElem?_cons_succ, ih]

theorem mergeYield_ok {P : Nat → List (List Nat) → Prop} {A B : List (List (List Nat))} (hA : ∀ (i : Nat) e, A[i]? = some e → P i e) (hB : ∀ (i : Nat) e, B[i]? = some e → P i e) :
    (∀ (i : Nat) e, (mergeYield A B)[i]? = some e → P i e) ∧ (∀ (i : Nat) e, A[i]? = some e → ∃ e', (mergeYield A B)[i]? = some e' ∧ e.length ≤ e'.length) ∧
      ∀ (i : Nat) e, B[i]? = some e → ∃ e', (mergeYield A B)[i]? = some e' ∧ e.length ≤ e'.length := by
  refine ⟨?_, ?_, ?_⟩
  · intro i e he
    rw [mergeYield_get] at he
    split at he
    · rename_i a b ha hb
      cases he
      split
      · exact hB i _ hb
      · exact hA i _ ha
    · rename_i a ha hb
      cases he; exact hA i _ ha
    · exact hB i _ he
  · intro i e he
    rw [mergeYield_get, he]
    cases B[i]? with
    | none => exact ⟨e, rfl, Nat.le_refl _⟩
    | some b =>
      refine ⟨_, rfl, ?_⟩
      split <;> omega
  · intro i e he
    rw [mergeYield_get, he]
    cases A[i]? with
    | none => exact ⟨e, rfl, Nat.le_refl _⟩
    | some b =>
      refine ⟨_, rfl, ?_⟩
      split <;> omega

theorem lin_ne {a b d z z' : Nat} (h : a < b) (hz : z < d) : a * d + z ≠ b * d + z' := by
  have := Nat.mul_le_mul_right d (show a + 1 ≤ b from h)
  rw [Nat.add_mul, Nat.one_mul] at this
  omega

/-- Couplers join different qubits. -/
theorem coupled_ne {T : Topo} {p q : Nat} (h : Coupled T p q) : p ≠ q := by
  cases T with
  | chimera m n t =>
    cases h with
    | cell h1 h2 h3 h4 =>
      rename_i y x k k'
      simp only [chimeraNum, Nat.add_mul, Nat.mul_add]
      omega
    | vertical h1 h2 h3 =>
      rename_i y x k
      intro e
      simp only [chimeraNum, Nat.add_mul, Nat.one_mul, Nat.add_zero] at e
      have : 0 < n * 2 * t := Nat.mul_pos (Nat.mul_pos (by omega) (by omega)) (by omega)
      omega
    | horizontal h1 h2 h3 =>
      rename_i y x k
      simp only [chimeraNum, Nat.add_mul]
      omega
  | pegasus d off =>
    cases h with
    | cross h1 h2 h3 h4 h5 h6 => exact lin_ne (by omega) h3
    | external h1 h2 h3 h4 => simp only [pegasusNum]; omega
    | odd h1 h2 h3 h4 => exact lin_ne (by omega) h4
  | zephyr d t =>
    cases h with
    | cross h1 h2 h3 h4 h5 h6 =>
      rename_i w k z w' k' z' _ _ _ _
      refine lin_ne ?_ h3
      have a0 := Nat.mul_le_mul_right (2 * t) (show 0 * (2 * d + 1) + w + 1 ≤ 1 * (2 * d + 1) + w' by omega)
      rw [Nat.add_mul, Nat.one_mul] at a0
      omega
    | external h1 h2 h3 h4 => simp only [zephyrNum]; omega
    | odd h1 h2 h3 h4 => exact lin_ne (by omega) h4
    | odd' h1 h2 h3 h4 => exact lin_ne (by omega) h4

theorem _root_.MM.Lattice.WFGraph.loopless {T : Topo} {nodes : List Nat} {edges : List (Nat × Nat)} (hG : WFGraph T nodes edges) : ∀ e ∈ edges, e.1 ≠ e.2 := by
  intro e he
  rcases hG.coupled e he with h | h
  · exact coupled_ne h
  · exact (coupled_ne h).symm

end Bus
end MM
