import Verif.Bus.CliqueInv

/-! The dynamic program of the clique search: optimality, and the walk back. -/

namespace MM
namespace Bus

open Lattice

section
variable {T : Topo} {W : Nat} {lines : List Byte} {check : Ell → Bool}

/-- The score in a cell. -/
def scoreOf (T : Topo) (W : Nat) (mem : List Nat) (i y x : Nat) : Nat :=
  match mem[posN T W i y x]? with
  | some v => v >>> 8
  | none => 0

/-- The scores stage `i` starts from. -/
def before (T : Topo) (W : Nat) (mem : List Nat) : Nat → Nat → Nat → Nat
  | 0, _, _ => 0
  | i + 1, y, x => scoreOf T W mem i y x

theorem prev_range (hF : Fits T W) {i y x : Nat} {c : Corner} (hi : i + 1 < W) (hy : y < rowsN T (i + 1)) (hx : x + (W - (i + 1)) ≤ T.dimX) :
    prevY y c < rowsN T i ∧ x < colsN T W i := by
  have := hF.x
  have := hF.y
  unfold rowsN at *
  unfold colsN
  rw [if_pos hi]
  cases c <;> simp only [prevY] <;> omega

theorem Filled.congr (hF : Fits T W) {i : Nat} (hi : i < W) {mem mem' : List Nat} (h : Filled T W lines check i (before T W mem i) mem) (he : ∀ j : Nat, j < offN T W (i + 1) → mem'[j]? = mem[j]?) :
    Filled T W lines check i (before T W mem' i) mem' := by
  have hb : ∀ y x0 c, y < rowsN T i → x0 + (W - i) ≤ T.dimX → before T W mem' i (prevY y c) x0 = before T W mem i (prevY y c) x0 := by
    intro y x0 c hy hx
    cases i with
    | zero => rfl
    | succ i =>
      obtain ⟨h1, h2⟩ := prev_range hF (c := c) hi hy hx
      have := posN_lt (T := T) (W := W) h1 h2
      simp only [before, scoreOf]
      rw [he _ (Nat.lt_of_lt_of_le this (offN_mono (by omega)))]
  refine ⟨fun y x hy hx => ?_, fun y x v hy hx hv x0 c h1 h2 h3 h4 => ?_⟩
  swap
  · rw [he _ (posN_lt hy hx)] at hv
    rw [hb y x0 c hy h2] at h4
    exact h.all y x v hy hx hv x0 c h1 h2 h3 h4
  obtain ⟨v, a1, a2, a3, a4⟩ := h.cell y x hy hx
  refine ⟨v, by rw [he _ (posN_lt hy hx), a1], fun x0 c h1 h2 h3 => ?_, a3, fun k hk => ?_⟩
  · rw [hb y x0 c hy h2]; exact a2 x0 c h1 h2 h3
  · obtain ⟨x0, c, b1, b2, b3, b4, b5⟩ := a4 k hk
    exact ⟨x0, c, b1, b2, b3, by rw [hb y x0 c hy b2]; exact b4, b5⟩

/-- The first `n` tables are filled. -/
structure Done (T : Topo) (W : Nat) (lines : List Byte) (check : Ell → Bool) (n : Nat) (mem : List Nat) : Prop where
  header : Header T W mem
  filled : ∀ i, i < n → Filled T W lines check i (before T W mem i) mem
  blank : ∀ j, offN T W n ≤ j → j < offN T W W → mem[j]? = some 0

/-- The table before stage `i`. -/
def prevTab (T : Topo) (W : Nat) : Nat → Option Tab
  | 0 => none
  | i + 1 => some (tabN T W i)

theorem stage_ok (hs : ∀ e : Ell, e.InGrid T → ellScore T lines e = .ok (weight T lines e)) (hF : Fits T W) {n : Nat} (hn : n < W) {mem : List Nat} (h : Done T W lines check n mem) :
    ∃ mem', extendAll T lines check W (prevTab T W n) (n + 1) (W - n) (cornersAt W n) mem = .ok mem' ∧ Done T W lines check (n + 1) mem' := by
  obtain ⟨mem', a1, a2, a3, a4⟩ := extendAll_ok (check := check) hs hF h.header hn (prev := prevTab T W n) (before T W mem n) (by
    intro m hm hm' y x c hy hx hc
    cases n with
    | zero => rfl
    | succ n =>
      obtain ⟨h1, h2⟩ := prev_range hF (c := c) hn (show y < T.dimY - (n + 1) by omega) hx
      obtain ⟨v, b1, _⟩ := (h.filled n (by omega)).cell _ _ h1 h2
      have e : m[posN T W n (prevY y c) x]? = some v := by rw [hm' _ (.inl (posN_lt h1 h2)), b1]
      simp only [prevTab, tabScore, before, scoreOf, b1]
      have e' : at_ m ((tabN T W n).index (prevY y c) x) = .ok v := at_ok e
      simp only [e', bind, Except.bind]; rfl)
    (fun j h1 h2 => h.blank j h1 (Nat.lt_of_lt_of_le h2 (offN_mono (by omega))))
  have hsame : ∀ j : Nat, j < offN T W n → mem'[j]? = mem[j]? := fun j hj => a3 j (.inl hj)
  refine ⟨mem', a1, a2, fun i hi => ?_, fun j h1 h2 => ?_⟩
  · by_cases hin : i = n
    · subst hin
      refine ⟨fun y x hy hx => ?_, fun y x v hy hx hv x0 c h1 h2 h3 h4 => ?_⟩
      swap
      · refine a4.all y x v hy hx hv x0 c h1 h2 h3 (h4.trans ?_)
        congr 1
        cases i with
        | zero => rfl
        | succ i =>
          obtain ⟨p1, p2⟩ := prev_range hF (c := c) hn hy h2
          simp only [before, scoreOf]
          rw [hsame _ (posN_lt p1 p2)]
      have hb : ∀ x0 c, x0 + (W - i) ≤ T.dimX → before T W mem' i (prevY y c) x0 = before T W mem i (prevY y c) x0 := by
        intro x0 c hx
        cases i with
        | zero => rfl
        | succ i =>
          obtain ⟨h1, h2⟩ := prev_range hF (c := c) hn hy hx
          simp only [before, scoreOf]
          rw [hsame _ (posN_lt h1 h2)]
      obtain ⟨v, b1, b2, b3, b4⟩ := a4.cell y x hy hx
      refine ⟨v, b1, fun x0 c h1 h2 h3 => ?_, b3, fun k hk => ?_⟩
      · rw [hb x0 c h2]; exact b2 x0 c h1 h2 h3
      · obtain ⟨x0, c, c1, c2, c3, c4, c5⟩ := b4 k hk
        exact ⟨x0, c, c1, c2, c3, by rw [hb x0 c c2]; exact c4, c5⟩
    · exact (h.filled i (by omega)).congr hF (by omega) fun j hj => hsame j (Nat.lt_of_lt_of_le hj (offN_mono (by omega)))
  · rw [a3 j (.inr h1)]
    exact h.blank j (Nat.le_trans (offN_mono (by omega)) h1) h2

theorem cliqueCache_ok (hs : ∀ e : Ell, e.InGrid T → ellScore T lines e = .ok (weight T lines e)) (hF : Fits T W) :
    ∃ mem, cliqueCache T lines check W = .ok mem ∧ Done T W lines check W mem := by
  have h2 := hF.two
  obtain ⟨m0, a1, a2, a3⟩ := layout_ok hF
  have d0 : Done T W lines check 0 m0 := ⟨a2, fun i hi => by omega, a3⟩
  obtain ⟨m1, b1, d1⟩ := stage_ok hs hF (show 0 < W by omega) d0
  have key : ∀ n, n ≤ W - 2 → ∃ mem, (List.range' 1 n).foldlM (fun mem i => do
      let prev ← tabBefore T W mem (i + 1)
      extendAll T lines check W (some prev) (i + 1) (W - i) [.ne, .nw, .sw, .se] mem) m1 = .ok mem ∧ Done T W lines check (n + 1) mem := by
    intro n
    induction n with
    | zero => intro _; exact ⟨m1, rfl, d1⟩
    | succ n ih =>
      intro hn
      obtain ⟨m, c1, c2⟩ := ih (by omega)
      obtain ⟨m', e1, e2⟩ := stage_ok hs hF (show n + 1 < W by omega) c2
      refine ⟨m', ?_, e2⟩
      rw [List.range'_concat, List.foldlM_append, c1]
      have hcs : cornersAt W (n + 1) = [.ne, .nw, .sw, .se] := by unfold cornersAt; rw [if_neg (by omega), if_neg (by omega)]
      rw [hcs] at e1
      simp only [List.foldlM_cons, List.foldlM_nil, show 1 + 1 * n = n + 1 by omega, bind, Except.bind, tabBefore_ok hF c2.header (show n < W by omega)]
      simp only [prevTab] at e1
      rw [e1]; rfl
  obtain ⟨m2, c1, c2⟩ := key (W - 2) (Nat.le_refl _)
  obtain ⟨m3, e1, e2⟩ := stage_ok hs hF (show W - 2 + 1 < W by omega) c2
  rw [show W - 2 + 1 + 1 = W by omega] at e2 e1
  refine ⟨m3, ?_, e2⟩
  unfold cliqueCache computeCache
  simp only [memTotal_ok hF, a1, bind, Except.bind]
  have hcs0 : cornersAt W 0 = [.sw, .se] := rfl
  rw [hcs0, Nat.sub_zero] at b1
  have b1' : extendAll T lines check W none 1 W [.sw, .se] m0 = .ok m1 := b1
  simp only [b1']
  simp only [bind, Except.bind] at c1
  simp only [c1]
  have hcs : cornersAt W (W - 2 + 1) = [.ne, .se] := by unfold cornersAt; rw [if_neg (by omega), if_pos (by omega)]
  rw [hcs] at e1
  have ht := tabBefore_ok hF c2.header (show W - 2 < W by omega)
  rw [show W - 2 + 2 = W by omega] at ht
  simp only [ht]
  simp only [prevTab, show W - (W - 2 + 1) = 1 by omega] at e1
  exact e1

theorem Walk.range (hF : Fits T W) {i y x : Nat} {es : List Ell} (h : Walk T W i y x es) : i < W ∧ y < rowsN T i ∧ x < colsN T W i := by
  have := hF.two
  cases h with
  | start hc hy hx => exact ⟨by omega, by unfold rowsN; omega, nextX_lt hF (by omega) (by omega) hc⟩
  | step _ hc hi hy hx => exact ⟨hi, by unfold rowsN; omega, nextX_lt hF hi hx hc⟩

/-- No walk scores more than its cell. -/
theorem walk_le (hF : Fits T W) {mem : List Nat} (h : Done T W lines check W mem) {i y x : Nat} {es : List Ell} (hw : Walk T W i y x es) :
    total T lines check es ≤ scoreOf T W mem i y x := by
  induction hw with
  | @start y x c hc hy hx =>
    have hr := (Walk.start hc hy hx).range hF
    obtain ⟨v, a1, a2, _⟩ := (h.filled 0 hr.1).cell _ _ hr.2.1 hr.2.2
    have := a2 x c hc (by omega) rfl
    simp only [total, List.map_cons, List.map_nil, List.sum_cons, List.sum_nil, scoreOf, a1]
    simp only [before] at this
    omega
  | @step i y x c es hw hc hi hy hx ih =>
    have hr := (Walk.step hw hc hi hy hx).range hF
    obtain ⟨v, a1, a2, _⟩ := (h.filled (i + 1) hr.1).cell _ _ hr.2.1 hr.2.2
    have := a2 x c hc hx rfl
    simp only [total, List.map_cons, List.sum_cons] at ih ⊢
    simp only [scoreOf, a1]
    simp only [before] at this
    omega

theorem noted_bit : ∀ (b : Bool) (c : Corner) (k : Nat), k < 8 → (if b then c.code else c.skipCode).testBit k = true →
    k = match c with
      | .nw => if b then 0 else 4
      | .ne => if b then 1 else 5
      | .sw => if b then 2 else 6
      | .se => if b then 3 else 7 := by
  intro b c; cases b <;> cases c <;> decide

/-- `inflate_first_ell` goes back to the cell the score came from. -/
theorem inflateFirst_ok {emb : List (List Nat)} {y x0 h w cs : Nat} {c : Corner} {b : Bool} (hb : firstBit (BitVec.ofNat 8 cs) = .ok (match c with
      | .nw => if b then 0 else 4
      | .ne => if b then 1 else 5
      | .sw => if b then 2 else 6
      | .se => if b then 3 else 7)) :
    inflateFirst T lines emb y (nextX x0 c) h w cs = (do
      let emb ← if b then inflateEll T lines (ellAt y (y + h) x0 (x0 + w) c) emb else pure emb
      pure (emb, prevY y c, x0)) := by
  unfold inflateFirst
  rw [hb]
  have hsub : sub_ (x0 + 1) 1 = .ok x0 := by
    unfold sub_; rw [if_pos (by omega)]; rfl
  cases c <;> cases b <;> simp only [nextX, prevY, ellAt, if_true, if_false, Bool.false_eq_true, bind, Except.bind, hsub, pure, Except.pure]

theorem firstBit_of {cs : Nat} (h0 : cs ≠ 0) (h1 : cs < 256) : ∃ k, k < 8 ∧ firstBit (BitVec.ofNat 8 cs) = .ok k ∧ cs.testBit k = true := by
  have hne : BitVec.ofNat 8 cs ≠ 0 := by
    intro e
    have := congrArg BitVec.toNat e
    simp only [BitVec.toNat_ofNat, BitVec.toNat_zero] at this
    rw [Nat.mod_eq_of_lt (show cs < 2 ^ 8 from h1)] at this
    exact h0 this
  obtain ⟨k, k8, hk, m', _, hm⟩ := step_ok _ hne
  refine ⟨k, k8, hk, ?_⟩
  have : k ∈ members (BitVec.ofNat 8 cs) := by rw [hm]; exact List.mem_cons_self
  rw [mem_members, BitVec.getLsbD_ofNat] at this
  simp at this
  exact this.2

end

section
variable {T : Topo} {W : Nat} {lines : List Byte} {check : Ell → Bool} {nodes : List Nat} {edges : List (Nat × Nat)} {C : Masks} {N E : Bool → Nat → Nat → Nat → Prop}

theorem weight_ok (hG : WFGraph T nodes edges) (hC : Clean T nodes edges C N E) (hT : Table T C lines) (e : Ell) (he : e.InGrid T) : ellScore T lines e = .ok (weight T lines e) := by
  obtain ⟨cs, _, h, _⟩ := inflateEll_ok hG hC hT he
  simp only [weight, h]

/-- The chains `inflate` adds for an ell. -/
def Made (T : Topo) (lines : List Byte) (nodes : List Nat) (edges : List (Nat × Nat)) (N E : Bool → Nat → Nat → Nat → Prop) (e : Ell) (cs : List (List Nat)) : Prop :=
  (∀ emb, inflateEll T lines e emb = .ok (emb ++ cs)) ∧ EllOut T nodes edges N E e cs

/-- The walk back from a cell. -/
theorem extractLoop_ok (hG : WFGraph T nodes edges) (hC : Clean T nodes edges C N E) (hT : Table T C lines) (hF : Fits T W) {mem : List Nat} (h : Done T W lines check W mem) {i : Nat} (hi : i < W)
    {y x v : Nat} (hy : y < rowsN T i) (hx : x < colsN T W i) (hv : mem[posN T W i y x]? = some v) :
    ∃ es css, Walk T W i y x es ∧ List.Forall₂ (Made T lines nodes edges N E) (es.filter check) css ∧ css.flatten.length = v >>> 8 ∧ total T lines check es = v >>> 8 ∧
      ∀ emb, extractLoop T lines W mem i emb y x (v &&& 255) = .ok (emb ++ css.flatten) := by
  induction i generalizing y x v with
  | zero =>
    obtain ⟨v', a1, _, a3, a4⟩ := (h.filled 0 hi).cell y x hy hx
    rw [hv] at a1; cases a1
    obtain ⟨k, k8, k1, k2⟩ := firstBit_of a3 (Nat.lt_succ_of_le Nat.and_le_right)
    obtain ⟨x0, c, b1, b2, rfl, b4, b5⟩ := a4 k k2
    have hk := noted_bit _ _ k k8 b5
    have hell : ellAt y (y + 0) x0 (x0 + (W - 1)) c = ellN W 0 y x0 c := by
      unfold ellN; rw [show x0 + (W - 0) - 1 = x0 + (W - 1) by omega]
    have hgrid : (ellN W 0 y x0 c).InGrid T := ellN_inGrid hi (by unfold rowsN at hy; omega) b2
    obtain ⟨cs, c1, c2, c3⟩ := inflateEll_ok hG hC hT hgrid
    have hw : weight T lines (ellN W 0 y x0 c) = cs.length := by simp only [weight, c2]
    have hwalk : Walk T W 0 y (nextX x0 c) [ellN W 0 y x0 c] := Walk.start b1 (by unfold rowsN at hy; omega) (by omega)
    have hstep := fun emb => inflateFirst_ok (T := T) (lines := lines) (emb := emb) (y := y) (x0 := x0) (h := 0) (w := W - 1) (cs := v &&& 255) (c := c) (b := check (ellN W 0 y x0 c)) (by rw [k1, hk])
    simp only [before, gain, Nat.zero_add, hw] at b4
    cases hc : check (ellN W 0 y x0 c) with
    | true =>
      simp only [hc, if_true] at b4 hstep
      refine ⟨_, [cs], hwalk, ?_, by rw [b4]; simp, by simp [total, gain, hc, hw, b4], fun emb => ?_⟩
      · rw [List.filter_cons, if_pos hc]; exact .cons ⟨c1, c3⟩ .nil
      · simp only [extractLoop, hstep emb, hell, c1, bind, Except.bind, pure, Except.pure, List.flatten_cons, List.flatten_nil, List.append_nil]
    | false =>
      simp only [hc, if_false, Bool.false_eq_true] at b4 hstep
      refine ⟨_, [], hwalk, ?_, by rw [b4]; simp, by simp [total, gain, hc, b4], fun emb => ?_⟩
      · rw [List.filter_cons, if_neg (by simp [hc])]; exact .nil
      · simp only [extractLoop, hstep emb, bind, Except.bind, pure, Except.pure, List.flatten_nil, List.append_nil]
  | succ i ih =>
    obtain ⟨v', a1, _, a3, a4⟩ := (h.filled (i + 1) hi).cell y x hy hx
    rw [hv] at a1; cases a1
    obtain ⟨k, k8, k1, k2⟩ := firstBit_of a3 (Nat.lt_succ_of_le Nat.and_le_right)
    obtain ⟨x0, c, b1, b2, rfl, b4, b5⟩ := a4 k k2
    have hk := noted_bit _ _ k k8 b5
    have hell : ellAt y (y + (i + 1)) x0 (x0 + (W - 2 - i)) c = ellN W (i + 1) y x0 c := by
      unfold ellN; rw [show x0 + (W - (i + 1)) - 1 = x0 + (W - 2 - i) by omega]
    have hy' : y + (i + 1) < T.dimY := by unfold rowsN at hy; omega
    have hgrid : (ellN W (i + 1) y x0 c).InGrid T := ellN_inGrid hi hy' b2
    obtain ⟨cs, c1, c2, c3⟩ := inflateEll_ok hG hC hT hgrid
    have hw : weight T lines (ellN W (i + 1) y x0 c) = cs.length := by simp only [weight, c2]
    obtain ⟨p1, p2⟩ := prev_range hF (c := c) hi hy b2
    obtain ⟨v', d1, _⟩ := (h.filled i (by omega)).cell _ _ p1 p2
    obtain ⟨es, css, e1, e2, e3, e4, e5⟩ := ih (by omega) p1 p2 d1
    have hwalk : Walk T W (i + 1) y (nextX x0 c) (ellN W (i + 1) y x0 c :: es) := Walk.step e1 b1 hi hy' b2
    have hstep := fun emb => inflateFirst_ok (T := T) (lines := lines) (emb := emb) (y := y) (x0 := x0) (h := i + 1) (w := W - 2 - i) (cs := v &&& 255) (c := c) (b := check (ellN W (i + 1) y x0 c)) (by rw [k1, hk])
    have ht := tabAt_ok hF h.header (show i < W by omega)
    have hcor : tabCorners mem (tabN T W i) (prevY y c) x0 = .ok (v' &&& 255) := by
      have : at_ mem ((tabN T W i).index (prevY y c) x0) = .ok v' := at_ok d1
      simp only [tabCorners, this, bind, Except.bind]; rfl
    simp only [before, scoreOf, d1, gain, hw] at b4
    have e4' : total T lines check (ellN W (i + 1) y x0 c :: es) = gain T lines check (ellN W (i + 1) y x0 c) + v' >>> 8 := by
      rw [← e4]; rfl
    cases hc : check (ellN W (i + 1) y x0 c) with
    | true =>
      simp only [hc, if_true] at b4 hstep
      refine ⟨_, cs :: css, hwalk, ?_, by rw [b4, ← e3]; simp; omega, by rw [e4', b4]; simp only [gain, hc, if_true, hw]; omega, fun emb => ?_⟩
      · rw [List.filter_cons, if_pos hc]; exact .cons ⟨c1, c3⟩ e2
      · simp only [extractLoop, hstep emb, hell, c1, bind, Except.bind, pure, Except.pure, ht, hcor, e5, List.flatten_cons, List.append_assoc]
    | false =>
      simp only [hc, if_false, Bool.false_eq_true] at b4 hstep
      refine ⟨_, css, hwalk, ?_, by rw [b4, ← e3]; simp, by rw [e4', b4]; simp only [gain, hc, if_false, Bool.false_eq_true]; omega, fun emb => ?_⟩
      · rw [List.filter_cons, if_neg (by simp [hc])]; exact e2
      · simp only [extractLoop, hstep emb, bind, Except.bind, pure, Except.pure, ht, hcor, e5]

/-- The best cell. -/
theorem bestCell_ok (hF : Fits T W) {mem : List Nat} (h : Done T W lines check W mem) {i : Nat} (hi : i < W) :
    ∃ s y x, bestCell mem (tabN T W i) = .ok (s, y, x) ∧ (∀ y' x', y' < rowsN T i → x' < colsN T W i → scoreOf T W mem i y' x' ≤ s) ∧
      (s ≠ 0 → y < rowsN T i ∧ x < colsN T W i ∧ scoreOf T W mem i y x = s) := by
  have key : ∀ (l : List (Nat × Nat)), (∀ p ∈ l, p.1 < rowsN T i ∧ p.2 < colsN T W i) → ∀ b : Nat × Nat × Nat, (b.1 ≠ 0 → b.2.1 < rowsN T i ∧ b.2.2 < colsN T W i ∧ scoreOf T W mem i b.2.1 b.2.2 = b.1) →
      ∃ s y x, l.foldlM (fun best p => do
        let s ← tabScore mem (tabN T W i) p.1 p.2
        pure (if best.1 < s then (s, p.1, p.2) else best)) b = (.ok (s, y, x) : B (Nat × Nat × Nat)) ∧ b.1 ≤ s ∧ (∀ p ∈ l, scoreOf T W mem i p.1 p.2 ≤ s) ∧
        (s ≠ 0 → y < rowsN T i ∧ x < colsN T W i ∧ scoreOf T W mem i y x = s) := by
    intro l
    induction l with
    | nil => intro _ b hb; exact ⟨b.1, b.2.1, b.2.2, rfl, Nat.le_refl _, by simp, hb⟩
    | cons p l ih =>
      intro hl b hb
      obtain ⟨p1, p2⟩ := hl p List.mem_cons_self
      obtain ⟨v, d1, _⟩ := (h.filled i hi).cell _ _ p1 p2
      have hsc : tabScore mem (tabN T W i) p.1 p.2 = .ok (scoreOf T W mem i p.1 p.2) := by
        have : at_ mem ((tabN T W i).index p.1 p.2) = .ok v := at_ok d1
        simp only [tabScore, this, scoreOf, d1, bind, Except.bind]; rfl
      obtain ⟨s, y, x, e1, e2, e3, e4⟩ := ih (fun q hq => hl q (List.mem_cons_of_mem _ hq))
        (if b.1 < scoreOf T W mem i p.1 p.2 then (scoreOf T W mem i p.1 p.2, p.1, p.2) else b) (by
          split
          · intro _; exact ⟨p1, p2, rfl⟩
          · exact hb)
      refine ⟨s, y, x, ?_, ?_, ?_, e4⟩
      · rw [List.foldlM_cons, hsc]; exact e1
      · split at e2
        · rename_i hc; exact Nat.le_trans (Nat.le_of_lt hc) e2
        · exact e2
      · intro q hq
        rcases List.mem_cons.mp hq with rfl | hq
        · split at e2
          · exact e2
          · omega
        · exact e3 q hq
  obtain ⟨s, y, x, e1, _, e3, e4⟩ := key ((List.range (rowsN T i)).flatMap fun y => (List.range (colsN T W i)).map fun x => (y, x))
    (by
      intro p hp
      simp only [List.mem_flatMap, List.mem_range, List.mem_map] at hp
      obtain ⟨y, h1, x, h2, rfl⟩ := hp
      exact ⟨h1, h2⟩) (0, 0, 0) (by simp)
  refine ⟨s, y, x, e1, fun y' x' h1 h2 => e3 (y', x') ?_, e4⟩
  simp only [List.mem_flatMap, List.mem_range, List.mem_map]
  exact ⟨y', h1, x', h2, rfl⟩

/-- Ells of a walk: in the grid, and each meets all others. -/
theorem Walk.inGrid {i y x : Nat} {es : List Ell} (h : Walk T W i y x es) (hi : i < W) : ∀ e ∈ es, e.InGrid T := by
  induction h with
  | start hc hy hx =>
    intro e he
    rw [List.mem_singleton.mp he]
    exact ellN_inGrid hi (by omega) (by omega)
  | step hw hc hi' hy hx ih =>
    intro e he
    rcases List.mem_cons.mp he with rfl | he
    · exact ellN_inGrid hi hy hx
    · exact ih (by omega) e he

/-- Where the ells of a walk lie: rows inside of the rows so far, columns apart from those left, and horizontal lines that cover the columns left. -/
theorem Walk.covers {i y x : Nat} {es : List Ell} (h : Walk T W i y x es) (hi : i < W) :
    ∀ e ∈ es, y ≤ e.yc ∧ e.yc ≤ y + i ∧ (∀ xx, x ≤ xx → xx + i + 1 < x + W → xx ≠ e.xc ∧ e.x0 ≤ xx ∧ xx ≤ e.x1) := by
  induction h with
  | @start y x c hc hy hx =>
    intro e he
    rw [List.mem_singleton.mp he]
    unfold ellN
    cases c <;> simp only [ellAt, nextX] <;> refine ⟨by omega, by omega, fun xx h1 h2 => ⟨by omega, by omega, by omega⟩⟩
  | @step i y x c es hw hc hi' hy hx ih =>
    intro e he
    rcases List.mem_cons.mp he with rfl | he
    · unfold ellN
      cases c <;> simp only [ellAt, nextX] <;> refine ⟨by omega, by omega, fun xx h1 h2 => ⟨by omega, by omega, by omega⟩⟩
    · obtain ⟨a1, a2, a3⟩ := ih (by omega) e he
      refine ⟨?_, ?_, fun xx h1 h2 => a3 xx ?_ ?_⟩
      · cases c <;> simp only [prevY] at a1 <;> omega
      · cases c <;> simp only [prevY] at a2 <;> omega
      · cases c <;> simp only [nextX] at h1 <;> omega
      · cases c <;> simp only [nextX] at h2 <;> omega

theorem Walk.meets {i y x : Nat} {es : List Ell} (h : Walk T W i y x es) (hi : i < W) : es.Pairwise Ell.Meets := by
  induction h with
  | start hc hy hx => simp
  | @step i y x c es hw hc hi' hy hx ih =>
    rw [List.pairwise_cons]
    refine ⟨fun e he => ?_, ih (by omega)⟩
    obtain ⟨a1, a2, a3⟩ := hw.covers (by omega) e he
    have hxc : x ≤ (ellN W (i + 1) y x c).xc ∧ (ellN W (i + 1) y x c).xc + i + 1 < x + W := by
      unfold ellN; cases c <;> simp only [ellAt] <;> omega
    obtain ⟨b1, b2, b3⟩ := a3 _ hxc.1 hxc.2
    have hcol : (ellN W (i + 1) y x c).y0 = y ∧ (ellN W (i + 1) y x c).y1 = y + (i + 1) := by
      unfold ellN; cases c <;> exact ⟨rfl, rfl⟩
    refine ⟨?_, b1, .inr ⟨?_, ?_, b2, b3⟩⟩
    · unfold ellN
      cases c <;> simp only [ellAt, prevY] at a1 a2 ⊢ <;> omega
    · rw [hcol.1]; cases c <;> simp only [prevY] at a1 <;> omega
    · rw [hcol.2]; cases c <;> simp only [prevY] at a2 <;> omega

/-- `clique_cache` and `extract_solution` together. -/
theorem cliqueOf_ok (hG : WFGraph T nodes edges) (hC : Clean T nodes edges C N E) (hT : Table T C lines) (hF : Fits T W) :
    ∃ r, cliqueOf T lines check W = .ok r ∧ (∀ emb, r = some emb → emb ≠ [] ∧ ∃ y x es css, Walk T W (W - 1) y x es ∧ List.Forall₂ (Made T lines nodes edges N E) (es.filter check) css ∧ emb = css.flatten) ∧
      ∀ y x es, Walk T W (W - 1) y x es → total T lines check es ≤ match r with | some emb => emb.length | none => 0 := by
  have h2 := hF.two
  obtain ⟨mem, h1, hd⟩ := cliqueCache_ok (check := check) (weight_ok hG hC hT) hF
  obtain ⟨s, y, x, b1, b2, b3⟩ := bestCell_ok hF hd (show W - 1 < W by omega)
  have hle : ∀ y x es, Walk T W (W - 1) y x es → total T lines check es ≤ s := by
    intro y x es hw
    have hr := hw.range hF
    exact Nat.le_trans (walk_le hF hd hw) (b2 y x hr.2.1 hr.2.2)
  have ht := tabAt_ok hF hd.header (show W - 1 < W by omega)
  by_cases hs : s = 0
  · refine ⟨none, ?_, by simp, fun y x es hw => by rw [← hs]; exact hle y x es hw⟩
    simp only [cliqueOf, h1, extractSolution, ht, b1, hs, bind, Except.bind]
    rw [if_pos trivial]; rfl
  · obtain ⟨c1, c2, c3⟩ := b3 hs
    obtain ⟨v, d1, _⟩ := (hd.filled (W - 1) (by omega)).cell _ _ c1 c2
    obtain ⟨es, css, e1, e2, e3, e4, e5⟩ := extractLoop_ok hG hC hT hF hd (show W - 1 < W by omega) c1 c2 d1
    have hsv : v >>> 8 = s := by simpa only [scoreOf, d1] using c3
    have hcor : tabCorners mem (tabN T W (W - 1)) y x = .ok (v &&& 255) := by
      have : at_ mem ((tabN T W (W - 1)).index y x) = .ok v := at_ok d1
      simp only [tabCorners, this, bind, Except.bind]; rfl
    refine ⟨some css.flatten, ?_, ?_, fun y x es hw => ?_⟩
    · simp only [cliqueOf, h1, extractSolution, ht, b1, bind, Except.bind]
      rw [if_neg hs]
      simp only [hcor, e5]; rfl
    · intro emb he
      cases he
      refine ⟨fun hnil => hs ?_, y, x, es, css, e1, e2, rfl⟩
      rw [← hsv, ← e3, hnil]; rfl
    · show _ ≤ css.flatten.length
      rw [e3, hsv]; exact hle y x es hw

end
end Bus
end MM
