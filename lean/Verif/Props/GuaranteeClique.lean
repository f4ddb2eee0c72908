import Verif.Bus.CliqueNum
import Verif.Props.BestCliques
import Verif.Props.Guarantee
import Verif.Props.OneShot

/-! C120: cliques that are found. -/

namespace MM

open Bus Lattice Spec Disk

namespace Bus

section
variable {T : Topo} {nodes : List Nat} {edges : List (Nat × Nat)} {C : Masks} {N E : Bool → Nat → Nat → Nat → Prop} {lines : List Byte}

/-- An ell gives as many chains as it has whole tracks, vertical or horizontal ones, whichever are fewer. -/
theorem weight_ge (hG : WFGraph T nodes edges) (hC : Clean T nodes edges C N E) (hT : Table T C lines) {e : Ell} (he : e.InGrid T) {ks js : List Nat} (hk : ks.Nodup) (hj : js.Nodup)
    (h0 : ∀ k ∈ ks, Whole N E false e.xc k e.y0 e.y1) (h1 : ∀ k ∈ js, Whole N E true e.yc k e.x0 e.x1) : min ks.length js.length ≤ weight T lines e := by
  obtain ⟨k0, a1, a2⟩ := hT.tracks hC (u := false) (w := e.xc) (z0 := e.y0) (z1 := e.y1) (Nat.lt_of_le_of_lt he.x1 he.x) (Nat.le_trans he.y0 he.y1) he.y
  obtain ⟨k1, b1, b2⟩ := hT.tracks hC (u := true) (w := e.yc) (z0 := e.x0) (z1 := e.x1) (Nat.lt_of_le_of_lt he.y1 he.y) (Nat.le_trans he.x0 he.x1) he.x
  have hs : ellScore T lines e = .ok (min (members k0).length (members k1).length) := by
    simp only [ellScore, lineScore, a1, b1, bind, Except.bind, popcount_ok]; rfl
  have l0 := (List.subperm_of_subset hk fun k hk => (a2 k).mpr (h0 k hk)).length_le
  have l1 := (List.subperm_of_subset hj fun k hk => (b2 k).mpr (h1 k hk)).length_le
  simp only [weight, hs]
  omega

/-- The chains of nested rectangles whose lines a mask holds. -/
theorem stairs_weight (hG : WFGraph T nodes edges) (hC : Clean T nodes edges C N E) (hT : Table T C lines) {W : Nat} {ys xs : Nat → Nat} {vs hs : Nat → List Nat} (hn : ∀ e ∈ nestedElls W ys xs W, e.InGrid T)
    (hd : ∀ i < W, (vs i).Nodup ∧ (hs i).Nodup) (h0 : ∀ i < W, ∀ k ∈ vs i, Whole N E false (oldColumn W xs i) k (ys i) (ys i + i)) (h1 : ∀ i < W, ∀ k ∈ hs i, Whole N E true (newRow ys i) k (xs i) (xs i + (W - 1 - i)))
    {emb : List (List Nat)} (he : inflateAll T lines (nestedElls W ys xs W) = .ok emb) : ellCount W vs hs ≤ emb.length := by
  obtain ⟨css, c1, c2⟩ := made_all (check := fun _ => true) hG hC hT hn
  have hf : (nestedElls W ys xs W).filter (fun _ => true) = nestedElls W ys xs W := List.filter_eq_self.mpr (by simp)
  rw [hf] at c1
  rw [inflateAll_ok c1] at he
  cases he
  rw [c2]
  have key : ∀ n ≤ W, ((List.range n).map fun i => min (vs i).length (hs i).length).sum ≤ total T lines (fun _ => true) (nestedElls W ys xs n) := by
    intro n hn'
    induction n with
    | zero => simp
    | succ n ih =>
      rw [List.range_succ, List.map_append, List.sum_append, nestedElls_succ]
      simp only [total, List.map_cons, List.sum_cons, List.map_nil, List.sum_nil, gain, if_true] at ih ⊢
      have := ih (by omega)
      have hin : nestedEll W ys xs n ∈ nestedElls W ys xs W := List.mem_map.mpr ⟨n, by simp; omega, rfl⟩
      have := weight_ge hG hC hT (hn _ hin) (hd n (by omega)).1 (hd n (by omega)).2 (h0 n (by omega)) (h1 n (by omega))
      omega
  exact key W (Nat.le_refl _)

theorem nestedElls_inGrid {W : Nat} {ys xs : Nat → Nat} (hn : Nested T.dimY T.dimX W ys xs) : ∀ e ∈ nestedElls W ys xs W, e.InGrid T := by
  by_cases hW : 2 ≤ W
  · have hk := nested_walk hn hW (show W - 1 < W by omega)
    rw [show W - 1 + 1 = W by omega] at hk
    exact hk.inGrid (by omega)
  · intro e he
    obtain ⟨i, hi, rfl⟩ := List.mem_map.mp he
    have hi : i < W := by simpa using hi
    obtain rfl : i = 0 := by omega
    obtain rfl : W = 1 := by omega
    have := hn.rows 0 (by decide)
    have := hn.cols 0 (by decide)
    constructor <;> simp [nestedEll, newRow, oldColumn] <;> omega

end

end Bus

section
variable {T : Topo} {nodes : List Nat} {edges : List (Nat × Nat)} {D D' : Draws} {W : Nat} {ys xs : Nat → Nat} {vs hs : Nat → List Nat}

/-- One of the masks holds all lines. -/
theorem stairs_mask (hG : WFGraph T nodes edges) (hf : FewMissing T nodes edges 6) (hD : D.Perm) (hD' : D'.Perm) (hg : Stairs T nodes edges W ys xs vs hs) :
    ∃ l, searched T 64 D D' nodes edges = .ok l ∧ ∃ C ∈ l, ∃ mem emb, lineMasks T C = .ok mem ∧ inflateAll T mem (nestedElls W ys xs W) = .ok emb ∧ ellCount W vs hs ≤ emb.length := by
  let S : Bool → Nat → Nat → Nat → Prop := fun u w k z => if u then ∃ i < W, w = newRow ys i ∧ k ∈ hs i ∧ xs i ≤ z ∧ z ≤ xs i + (W - 1 - i) else ∃ i < W, w = oldColumn W xs i ∧ k ∈ vs i ∧ ys i ≤ z ∧ z ≤ ys i + i
  have joint : ∀ {u w k z0 z1}, Track T nodes edges u w k z0 z1 → ∀ z, z0 ≤ z → z < z1 →
      ∃ p ∈ nodes, ∃ q ∈ nodes, FragOf T p u w k z ∧ FragOf T q u w k (z + 1) ∧ (p = q ∨ (p, q) ∈ edges ∨ (q, p) ∈ edges) := by
    intro u w k z0 z1 h z a b
    obtain ⟨p, hp, lp⟩ := h.qubits z a (by omega)
    obtain ⟨q, hq, lq⟩ := h.qubits (z + 1) (by omega) (by omega)
    exact ⟨p, hp, q, hq, (lies_frag lp).2, (lies_frag lq).2, h.joints z a b p hp q hq lp lq⟩
  have hS : ∀ u w k z, S u w k z → ∃ q ∈ nodes, FragOf T q u w k z := by
    intro u w k z h
    cases u with
    | false =>
      obtain ⟨i, hi, rfl, hk, b, c⟩ := h
      obtain ⟨q, hq, h⟩ := (hg.vertical i hi k hk).qubits z b c
      exact ⟨q, hq, (lies_frag h).2⟩
    | true =>
      obtain ⟨i, hi, rfl, hk, b, c⟩ := h
      obtain ⟨q, hq, h⟩ := (hg.horizontal i hi k hk).qubits z b c
      exact ⟨q, hq, (lies_frag h).2⟩
  obtain ⟨l, h1, C, hC, hu, hc⟩ := fits_mask hG hf hD hD' (S := S) hS
    (by
      intro x k y j a b p hp q hq fp fq
      obtain ⟨i, hi, rfl, hk, a1, a2⟩ := a
      obtain ⟨i', hi', rfl, hj, b1, b2⟩ := b
      exact hg.coupled i hi i' hi' k hk j hj a1 a2 b1 b2 p hp q hq (frag_lies (hG.qubits p hp) fp) (frag_lies (hG.qubits q hq) fq))
  obtain ⟨l', h1', _, h3⟩ := searched_ok hG (bound := 64) (by decide) hD hD'
  rw [h1] at h1'; cases h1'
  obtain ⟨N, E, hcl⟩ := h3 C hC
  obtain ⟨mem, m1, m2⟩ := lineMasks_ok (T := T) (C := C) hcl.sized
  have whole : ∀ u w k z0 z1, Track T nodes edges u w k z0 z1 → (∀ z, z0 ≤ z → z ≤ z1 → S u w k z) → Whole N E u w k z0 z1 := by
    intro u w k z0 z1 ht hz
    have inr : ∀ z, z0 ≤ z → z ≤ z1 → InR T u w z := fun z a b => (Has.bounds hG.supported hG.qubits (hS _ _ _ _ (hz z a b))).1
    refine ⟨fun z a b => (hcl.rep.node u w k z (inr z a b)).mp (hu _ _ _ _ (hz z a b)), fun z a b => ?_⟩
    obtain ⟨z, rfl⟩ : ∃ v, z = v + 1 := ⟨z - 1, by omega⟩
    exact (hcl.rep.edge u w k (z + 1) (inr _ (by omega) b)).mp (hc u w k z (hz z (by omega) (by omega)) (hz _ (by omega) b) (joint ht z (by omega) (by omega)))
  have hin := nestedElls_inGrid hg.nested
  obtain ⟨css, c1, _⟩ := made_all (check := fun _ => true) hG hcl m2 hin
  have hfl : (nestedElls W ys xs W).filter (fun _ => true) = nestedElls W ys xs W := List.filter_eq_self.mpr (by simp)
  rw [hfl] at c1
  refine ⟨l, h1, C, hC, mem, css.flatten, m1, inflateAll_ok c1, ?_⟩
  exact stairs_weight hG hcl m2 hin hg.nodup (fun i hi k hk => whole _ _ _ _ _ (hg.vertical i hi k hk) fun z a b => ⟨i, hi, rfl, hk, a, b⟩)
    (fun i hi k hk => whole _ _ _ _ _ (hg.horizontal i hi k hk) fun z a b => ⟨i, hi, rfl, hk, a, b⟩) (inflateAll_ok c1)

/-- C120: if at most six internal couplers are missing, the search finds a clique with at least as many chains as any lines of nested rectangles (of width 2 or more) make ells. -/
theorem C120_found (hG : WFGraph T nodes edges) (hf : FewMissing T nodes edges 6) (hD : D.Perm) (hD' : D'.Perm) (hg : Stairs T nodes edges W ys xs vs hs) (hW : 2 ≤ W) :
    ∃ r, bestCliques T 64 D D' nodes edges = .ok r ∧ ∃ e ∈ r, ellCount W vs hs ≤ e.length := by
  obtain ⟨l, h1, C, hC, mem, emb, h2, h3, h4⟩ := stairs_mask hG hf hD hD' hg
  obtain ⟨r, hr, _⟩ := C60_valid hG (bound := 64) (by decide) hD hD'
  obtain ⟨mem', k1, k2⟩ := C60_nested hG (by decide) hD hD' hr h1 hC
  rw [h2] at k1; cases k1
  obtain ⟨emb', i, e, e1, e2, e3⟩ := k2 W ys xs hW hg.nested
  rw [h3] at e1; cases e1
  exact ⟨r, hr, e, List.mem_of_getElem? e2, Nat.le_trans h4 e3⟩

/-- C120, Chimera: the chains need not be longer than `W + 1` qubits; here the width may be 1. -/
theorem C120_short {m n t : Nat} (hG : WFGraph (.chimera m n t) nodes edges) (hf : FewMissing (.chimera m n t) nodes edges 6) (hD : D.Perm) (hD' : D'.Perm) (hg : Stairs (.chimera m n t) nodes edges W ys xs vs hs) (hW : 1 ≤ W)
    (hpos : 0 < ellCount W vs hs) : ∃ r, bestCliques (.chimera m n t) 64 D D' nodes edges = .ok r ∧ ∃ e, r[W + 1]? = some e ∧ ellCount W vs hs ≤ e.length ∧ ∀ c ∈ e, c.length ≤ W + 1 := by
  obtain ⟨l, h1, C, hC, mem, emb, h2, h3, h4⟩ := stairs_mask hG hf hD hD' hg
  obtain ⟨r, hr, hv⟩ := C60_valid hG (bound := 64) (by decide) hD hD'
  obtain ⟨mem', k1, k2⟩ := C60_chimera hG (by decide) hD hD' hr h1 hC
  rw [h2] at k1; cases k1
  obtain ⟨emb', e1, e2⟩ := k2 W ys xs hW hg.nested
  rw [h3] at e1; cases e1
  obtain ⟨e, e3, e4⟩ := e2 (List.ne_nil_of_length_pos (by omega))
  exact ⟨r, hr, e, e3, Nat.le_trans h4 e4, fun c hc => ((hv _ e e3).2.1 c hc).2⟩

end

section
variable {Y X W : Nat} {ys xs : Nat → Nat}

/-- Rectangles grow in rows and shrink in columns. -/
theorem nested_mono (hn : Nested Y X W ys xs) {i j : Nat} (hij : i ≤ j) (hj : j < W) : ys j ≤ ys i ∧ ys i + i ≤ ys j + j ∧ xs i ≤ xs j ∧ xs j + (W - 1 - j) ≤ xs i + (W - 1 - i) := by
  induction j with
  | zero => obtain rfl : i = 0 := by omega
            omega
  | succ j ih =>
    by_cases e : i = j + 1
    · subst e; omega
    · have := ih (by omega) (by omega)
      have := hn.row j hj
      have := hn.col j hj
      omega

theorem newRow_mem (hn : Nested Y X W ys xs) {i : Nat} (hi : i < W) : ys i ≤ newRow ys i ∧ newRow ys i ≤ ys i + i := by
  cases i with
  | zero => simp [newRow]
  | succ i =>
    have := hn.row i hi
    rw [show newRow ys (i + 1) = if ys (i + 1) = ys i then ys (i + 1) + (i + 1) else ys (i + 1) from rfl]
    split <;> omega

theorem oldColumn_mem (_ : Nested Y X W ys xs) {i : Nat} (_ : i < W) : xs i ≤ oldColumn W xs i ∧ oldColumn W xs i ≤ xs i + (W - 1 - i) := by
  unfold oldColumn
  split
  · omega
  · split <;> omega

/-- Every row of a rectangle is the new one of some rectangle before. -/
theorem newRow_cover (hn : Nested Y X W ys xs) {i z : Nat} (hi : i < W) (h1 : ys i ≤ z) (h2 : z ≤ ys i + i) : ∃ j ≤ i, newRow ys j = z := by
  induction i with
  | zero => exact ⟨0, Nat.le_refl _, by show ys 0 = z; omega⟩
  | succ i ih =>
    have hr := hn.row i hi
    by_cases hin : ys i ≤ z ∧ z ≤ ys i + i
    · obtain ⟨j, a, b⟩ := ih (by omega) hin.1 hin.2
      exact ⟨j, by omega, b⟩
    · refine ⟨i + 1, Nat.le_refl _, ?_⟩
      rw [show newRow ys (i + 1) = if ys (i + 1) = ys i then ys (i + 1) + (i + 1) else ys (i + 1) from rfl]
      split <;> omega

/-- Every column of a rectangle is the old one of it or some rectangle after. -/
theorem oldColumn_cover (hn : Nested Y X W ys xs) {n i z : Nat} (hi : i + n + 1 = W) (h1 : xs i ≤ z) (h2 : z ≤ xs i + (W - 1 - i)) : ∃ j, i ≤ j ∧ j < W ∧ oldColumn W xs j = z := by
  induction n generalizing i with
  | zero =>
    refine ⟨i, Nat.le_refl _, by omega, ?_⟩
    unfold oldColumn
    rw [if_pos (by omega)]
    omega
  | succ n ih =>
    have hc := hn.col i (by omega)
    by_cases hin : xs (i + 1) ≤ z ∧ z ≤ xs (i + 1) + (W - 1 - (i + 1))
    · obtain ⟨j, a, b, c⟩ := ih (i := i + 1) (by omega) hin.1 hin.2
      exact ⟨j, by omega, b, c⟩
    · refine ⟨i, Nat.le_refl _, by omega, ?_⟩
      unfold oldColumn
      rw [if_neg (by omega)]
      split <;> omega

end

/-- Where the full lattice has all lines of nested rectangles, a graph without faults has them. -/
theorem faultless_stairs {T : Topo} {nodes : List Nat} {edges : List (Nat × Nat)} (hF : Faultless T nodes edges) {W t : Nat} {ys xs : Nat → Nat} (hn : Nested T.dimY T.dimX W ys xs)
    (hv : ∀ i < W, ∀ k < t, ∀ z, ys i ≤ z → z ≤ ys i + i → ∃ q, Lies T q false (oldColumn W xs i) k z)
    (hh : ∀ i < W, ∀ k < t, ∀ z, xs i ≤ z → z ≤ xs i + (W - 1 - i) → ∃ q, Lies T q true (newRow ys i) k z) :
    Stairs T nodes edges W ys xs (fun _ => List.range t) (fun _ => List.range t) := by
  refine ⟨hn, fun i _ => ⟨List.nodup_range, List.nodup_range⟩, fun i hi k hk => ⟨fun z a b => ?_, fun z _ _ p np q nq lp lq => faultless_next hF _ _ _ _ p np q nq lp lq⟩,
    fun i hi k hk => ⟨fun z a b => ?_, fun z _ _ p np q nq lp lq => faultless_next hF _ _ _ _ p np q nq lp lq⟩, fun i _ j _ v _ h _ _ _ _ _ p np q nq lp lq => hF.couplers p np q nq ?_⟩
  · have hk : k < t := List.mem_range.mp hk
    obtain ⟨q, hq⟩ := hv i hi k hk z a b
    obtain ⟨j, hj, rfl⟩ := newRow_cover hn hi a b
    have := nested_mono hn hj hi
    have := oldColumn_mem hn hi
    obtain ⟨p, hp⟩ := hh j (by omega) k hk (oldColumn W xs i) (by omega) (by omega)
    exact ⟨q, (hF.qubits _ _ (lies_internal _ _ _ _ _ _ hq hp)).1, hq⟩
  · have hk : k < t := List.mem_range.mp hk
    obtain ⟨q, hq⟩ := hh i hi k hk z a b
    obtain ⟨j, hj, hjW, rfl⟩ := oldColumn_cover hn (n := W - 1 - i) (by omega) a b
    have := nested_mono hn hj hjW
    have := newRow_mem hn hi
    obtain ⟨p, hp⟩ := hv j hjW k hk (newRow ys i) (by omega) (by omega)
    exact ⟨q, (hF.qubits _ _ (lies_internal _ _ _ _ _ _ hp hq)).2, hq⟩
  · have h := lies_internal _ _ _ _ _ _ lp lq
    cases T <;> exact h.1

theorem ellCount_range (W t : Nat) : ellCount W (fun _ => List.range t) (fun _ => List.range t) = W * t := by
  unfold ellCount
  simp only [List.length_range, Nat.min_self]
  induction W with
  | zero => simp
  | succ W ih => rw [List.range_succ, List.map_append, List.sum_append, ih, Nat.succ_mul]; simp

/-- Rectangles with all rows from `a` on and all columns from `a` on. -/
theorem nested_const {Y X W a b : Nat} (hY : a + W ≤ Y) (hX : b + W ≤ X) : Nested Y X W (fun _ => a) (fun _ => b) :=
  ⟨fun i _ => by omega, fun i _ => by omega, fun i _ => .inl rfl, fun i _ => .inl rfl⟩

section
variable {nodes : List Nat} {edges : List (Nat × Nat)} {D D' : Draws}

/-- C120, `chimera_graph(m, n, t)` without faults: for every `W` up to `m` and `n` the search finds a clique with at least `W t` chains of at most `W + 1` qubits. -/
theorem C120_chimera {m n t W : Nat} (hG : WFGraph (.chimera m n t) nodes edges) (hF : Faultless (.chimera m n t) nodes edges) (hW : 0 < W) (hm : W ≤ m) (hn : W ≤ n) (ht : 0 < t) (hD : D.Perm) (hD' : D'.Perm) :
    ∃ r, bestCliques (.chimera m n t) 64 D D' nodes edges = .ok r ∧ ∃ e, r[W + 1]? = some e ∧ W * t ≤ e.length ∧ ∀ c ∈ e, c.length ≤ W + 1 := by
  have hN : Nested (Topo.chimera m n t).dimY (Topo.chimera m n t).dimX W (fun _ => 0) (fun _ => 0) := nested_const (show 0 + W ≤ m by omega) (show 0 + W ≤ n by omega)
  have hst := faultless_stairs hF (t := t) hN (fun i hi k hk z a b => ⟨_, show _ ∧ _ ∧ _ ∧ _ from ⟨by omega, by have := oldColumn_mem hN hi; omega, hk, rfl⟩⟩)
    (fun i hi k hk z a b => ⟨_, show _ ∧ _ ∧ _ ∧ _ from ⟨by have := newRow_mem hN hi; omega, by omega, hk, rfl⟩⟩)
  have := C120_short hG (faultless_few hF) hD hD' hst hW (by rw [ellCount_range]; exact Nat.mul_pos hW ht)
  rwa [ellCount_range] at this

/-- C120, `zephyr_graph(m, t)` without faults, `m ≥ 2`: the search finds a clique with at least `2 t (2 m - 1)` chains. -/
theorem C120_zephyr {m t : Nat} (hG : WFGraph (.zephyr m t) nodes edges) (hF : Faultless (.zephyr m t) nodes edges) (hm : 2 ≤ m) (hD : D.Perm) (hD' : D'.Perm) :
    ∃ r, bestCliques (.zephyr m t) 64 D D' nodes edges = .ok r ∧ ∃ e ∈ r, 2 * t * (2 * m - 1) ≤ e.length := by
  have hN : Nested (Topo.zephyr m t).dimY (Topo.zephyr m t).dimX (2 * m - 1) (fun _ => 1) (fun _ => 1) := nested_const (show 1 + (2 * m - 1) ≤ 2 * m + 1 by omega) (show 1 + (2 * m - 1) ≤ 2 * m + 1 by omega)
  have key : ∀ u w k z, 1 ≤ w → w ≤ 2 * m - 1 → k < 2 * t → 1 ≤ z → z ≤ 2 * m - 1 → ∃ q, Lies (.zephyr m t) q u w k z := by
    intro u w k z h1 h2 h3 h4 h5
    exact ⟨_, (z - k % 2) / 2, by omega, h3, by omega, rfl, by omega, by omega⟩
  have hst := faultless_stairs hF (t := 2 * t) hN (fun i hi k hk z a b => by have := oldColumn_mem hN hi; exact key _ _ _ _ (by omega) (by omega) hk (by omega) (by omega))
    (fun i hi k hk z a b => by have := newRow_mem hN hi; exact key _ _ _ _ (by omega) (by omega) hk (by omega) (by omega))
  have := C120_found hG (faultless_few hF) hD hD' hst (by omega)
  rwa [ellCount_range, Nat.mul_comm] at this

/-- C120, `pegasus_graph(m)` with any offsets, without faults: the search finds a clique with at least `12 (m - 1) - 2 (hi - lo)` chains, where the offsets (halved) are between `lo` and `hi`. -/
theorem C120_pegasus {m lo hi : Nat} {off : Bool → Nat → Nat} (hG : WFGraph (.pegasus m off) nodes edges) (hF : Faultless (.pegasus m off) nodes edges) (ho : ∀ u j, j < 6 → lo ≤ off u j ∧ off u j ≤ hi)
    (hm : hi + 2 ≤ 6 * (m - 1) + lo) (hD : D.Perm) (hD' : D'.Perm) : ∃ r, bestCliques (.pegasus m off) 64 D D' nodes edges = .ok r ∧ ∃ e ∈ r, 12 * (m - 1) - 2 * (hi - lo) ≤ e.length := by
  have hlo : lo ≤ hi := by have := ho false 0 (by decide); omega
  have hlo6 : lo < 6 := Nat.lt_of_le_of_lt (ho false 0 (by decide)).1 (hG.supported false 0)
  have hN : Nested (Topo.pegasus m off).dimY (Topo.pegasus m off).dimX (6 * (m - 1) + lo - hi) (fun _ => hi) (fun _ => hi) :=
    nested_const (show hi + (6 * (m - 1) + lo - hi) ≤ 6 * m by omega) (show hi + (6 * (m - 1) + lo - hi) ≤ 6 * m by omega)
  have key : ∀ u w k z, hi ≤ w → w ≤ 6 * (m - 1) + lo - 1 → k < 2 → hi ≤ z → z ≤ 6 * (m - 1) + lo - 1 → ∃ q, Lies (.pegasus m off) q u w k z := by
    intro u w k z h1 h2 h3 h4 h5
    obtain ⟨o1, o2⟩ := ho u (w % 6) (by omega)
    refine ⟨_, w / 6, w % 6, (z - off u (w % 6)) / 6, by omega, by omega, h3, ?_, by omega, rfl, ?_, ?_⟩
    all_goals
      generalize off u (w % 6) = o at *
      omega
  have hst := faultless_stairs hF (t := 2) hN (fun i hi k hk z a b => by have := oldColumn_mem hN hi; exact key _ _ _ _ (by omega) (by omega) hk (by omega) (by omega))
    (fun i hi k hk z a b => by have := newRow_mem hN hi; exact key _ _ _ _ (by omega) (by omega) hk (by omega) (by omega))
  obtain ⟨r, h1, e, h2, h3⟩ := C120_found hG (faultless_few hF) hD hD' hst (by omega)
  rw [ellCount_range] at h3
  exact ⟨r, h1, e, h2, by omega⟩

/-- C120, `pegasus_graph(m)` with the usual offsets, without faults, `m ≥ 4`: the search finds a clique with at least `12 (m - 1)` chains, 180 for `m = 16`. -/
theorem C120_pegasus_usual {m : Nat} {off : Bool → Nat → Nat} (hG : WFGraph (.pegasus m off) nodes edges) (hF : Faultless (.pegasus m off) nodes edges)
    (hv : (List.range 6).map (off false) = [1, 1, 5, 5, 3, 3]) (hh : (List.range 6).map (off true) = [3, 3, 1, 1, 5, 5]) (hm : 4 ≤ m) (hD : D.Perm) (hD' : D'.Perm) :
    ∃ r, bestCliques (.pegasus m off) 64 D D' nodes edges = .ok r ∧ ∃ e ∈ r, 12 * (m - 1) ≤ e.length := by
  obtain ⟨W, hW⟩ : ∃ W, W = 6 * (m - 1) := ⟨_, rfl⟩
  let ys : Nat → Nat := fun i => max 3 (min (W - i) 6)
  let xs : Nat → Nat := fun i => max 3 (min (i + 1) 10)
  have hN : Nested (6 * m) (6 * m) W ys xs := by
    refine ⟨fun i hi => ?_, fun i hi => ?_, fun i hi => ?_, fun i hi => ?_⟩ <;> simp only [ys, xs] <;> omega
  have ov : ∀ r < 6, off false r = if r < 2 then 1 else if r < 4 then 5 else 3 := by
    have hv : [off false 0, off false 1, off false 2, off false 3, off false 4, off false 5] = [1, 1, 5, 5, 3, 3] := hv
    simp only [List.cons.injEq, and_true] at hv
    obtain ⟨a, b, c, d, e, f⟩ := hv
    intro r hr
    match r, hr with
    | 0, _ => rw [a]; rfl
    | 1, _ => rw [b]; rfl
    | 2, _ => rw [c]; rfl
    | 3, _ => rw [d]; rfl
    | 4, _ => rw [e]; rfl
    | 5, _ => rw [f]; rfl
  have oh : ∀ r < 6, off true r = if r < 2 then 3 else if r < 4 then 1 else 5 := by
    have hh : [off true 0, off true 1, off true 2, off true 3, off true 4, off true 5] = [3, 3, 1, 1, 5, 5] := hh
    simp only [List.cons.injEq, and_true] at hh
    obtain ⟨a, b, c, d, e, f⟩ := hh
    intro r hr
    match r, hr with
    | 0, _ => rw [a]; rfl
    | 1, _ => rw [b]; rfl
    | 2, _ => rw [c]; rfl
    | 3, _ => rw [d]; rfl
    | 4, _ => rw [e]; rfl
    | 5, _ => rw [f]; rfl
  have key : ∀ u w k z, w < 6 * m → k < 2 → off u (w % 6) ≤ z → z < off u (w % 6) + W → ∃ q, Lies (.pegasus m off) q u w k z := by
    intro u w k z h1 h2 h3 h4
    refine ⟨_, w / 6, w % 6, (z - off u (w % 6)) / 6, by omega, by omega, h2, ?_, by omega, rfl, ?_, ?_⟩
    all_goals
      generalize off u (w % 6) = o at *
      omega
  have hst := faultless_stairs (T := .pegasus m off) hF (t := 2) (ys := ys) (xs := xs) (W := W) hN
    (fun i hi k hk z a b => by
      have hc := oldColumn_mem hN hi
      have hcx := hN.cols i hi
      have hb : off false (oldColumn W xs i % 6) ≤ ys i ∧ ys i + i < off false (oldColumn W xs i % 6) + W := by
        rw [ov _ (Nat.mod_lt _ (by decide))]
        have hcol : oldColumn W xs i = if i + 1 = W then xs i else if xs (i + 1) = xs i then xs i + (W - 1 - i) else xs i := rfl
        generalize oldColumn W xs i = c at *
        simp only [ys, xs] at *
        split at hcol
        · split <;> [skip; split] <;> omega
        · split at hcol
          · split <;> [skip; split] <;> omega
          · split <;> [skip; split] <;> omega
      exact key _ _ _ _ (by omega) hk (by omega) (by omega))
    (fun i hi k hk z a b => by
      have hr := newRow_mem hN hi
      have hry := hN.rows i hi
      have hb : off true (newRow ys i % 6) ≤ xs i ∧ xs i + (W - 1 - i) < off true (newRow ys i % 6) + W := by
        rw [oh _ (Nat.mod_lt _ (by decide))]
        cases i with
        | zero =>
          have hrow : newRow ys 0 = ys 0 := rfl
          generalize newRow ys 0 = c at *
          simp only [ys, xs] at *
          split <;> [skip; split] <;> omega
        | succ i =>
          have hrow : newRow ys (i + 1) = if ys (i + 1) = ys i then ys (i + 1) + (i + 1) else ys (i + 1) := rfl
          generalize newRow ys (i + 1) = c at *
          simp only [ys, xs] at *
          split at hrow
          · split <;> [skip; split] <;> omega
          · split <;> [skip; split] <;> omega
      exact key _ _ _ _ (by omega) hk (by omega) (by omega))
  obtain ⟨r, h1, e, h2, h3⟩ := C120_found hG (faultless_few hF) hD hD' hst (by omega)
  rw [ellCount_range] at h3
  exact ⟨r, h1, e, h2, by omega⟩

end

section
variable {α : Type} [DecidableEq α] {P : Build} {int : Nat → α} {h : List (Question α × Chance × Option Nat)}

theorem zip_take {β : Type} (l : List α) (e : List β) : l.zip (e.take l.length) = l.zip e := by
  induction l generalizing e with
  | nil => simp
  | cons a l ih => cases e <;> simp [ih]

/-- C120, for calls of `find_clique_embedding`: if at most six internal couplers of the graph are missing and lines of nested rectangles make as many ells as nodes are asked for, more than 4 (2 in Chimera), the answer is a valid embedding of the
nodes, with the cache or without it, whatever was asked before, calls that were killed included (but not while they evicted). Without the cache, if there are more nodes than one side of a cell has tracks. -/
theorem C120_answer (hP : P.Ok) (ho : ∀ e ∈ h, e.2.1.Ok ∧ ∀ g, e.1.g = some g → g.Ok) (hk : NotEvicting P.limit (requests P h) Dir.empty) {q : Question α} {x : Except EErr (Cache.Dict α (List Nat))}
    (hx : (q, x) ∈ asks P int h Dir.empty) {g : Target} (hqg : q.g = some g) (hs : q.seed.Valid) (hs' : q.seed ≠ .none) (hs0 : q.useCache = true ∨ q.seed ≠ .absent) (hf : FewMissing g.T g.nodes g.edges 6)
    {W : Nat} {ys xs : Nat → Nat} {vs hl : Nat → List Nat} (hg : Stairs g.T g.nodes g.edges W ys xs vs hl) (hW : 2 ≤ W) (hc : (if g.T.family = .chimera then 2 else 4) < q.count) (hle : q.count ≤ ellCount W vs hl)
    (hu : q.useCache = true ∨ (match g.T with | .chimera _ _ t => 0 < t ∧ t < q.count | .pegasus _ _ => True | .zephyr _ t => 0 < t ∧ 2 * t < q.count))
    (hn : (numNodes int q.nodes).Nodup) :
    ∃ A, x = .ok ((numNodes int q.nodes).zip A) ∧ A.length = q.count ∧ CliqueEmbedding g.nodes g.edges A := by
  obtain ⟨c0, hmem, _⟩ := asks_mem hx
  obtain ⟨hc0, hg0⟩ := ho _ hmem
  have hw := hg0 g hqg
  rw [C116_repeat_partial hP ho hk hx ⟨hs', hs0⟩ (fun g' hg' _ => .inl (by rw [hqg] at hg'; cases hg'; exact hc)) (fun g' hg' _ _ => .inl (by rw [hqg] at hg'; cases hg'; exact hf)) hc0]
  obtain ⟨seed, hog⟩ := openGraph_valid hw hs c0.entropy q.useCache
  obtain ⟨M, embs, hM, hb, _⟩ := cacheRequest_ok hP hw hc0 seed
  by_cases huc : q.useCache = true
  · rw [ask_fresh hP hw hqg huc hc0 hog hM hb]
    obtain ⟨r, e1, e, e2, e3⟩ := C120_found hw.1 hf (hP.draws _ _ _).1 (hP.draws _ _ _).2 hg hW
    rw [hb] at e1; cases e1
    obtain ⟨_, r', _, _, h1, h2, _⟩ := bestCliques_ok hw.1 (bound := 64) (by decide) (hP.draws g.T seed M).1 (hP.draws g.T seed M).2
    rw [hb] at h1; cases h1
    have hlen : (numNodes int q.nodes).length = q.count := numNodes_length
    rcases C35_find embs (numNodes int q.nodes) with ⟨i, e', e4, e5, _, e6⟩ | ⟨e4, _⟩
    · have hcl := (h2 i e' e4).clique
      refine ⟨e'.take q.count, ?_, by rw [List.length_take]; omega, ?_⟩
      · simp only [fromCache, e6]
        rw [Cache.toDict_self]
        · rw [← hlen, zip_take]
        · rw [List.map_fst_zip e5]; exact hn
      · have hsub : (e'.take q.count).Sublist e' := List.take_sublist _ _
        exact ⟨fun c hc => hcl.chains c (hsub.subset hc), hcl.disjoint.sublist hsub, hcl.adjacent.sublist hsub⟩
    · exact absurd (e4 e e2) (by omega)
  · have hu := hu.resolve_left huc
    have hlen : (numNodes int q.nodes).length = q.count := numNodes_length
    have hshort : (shortClique g.T.cliqueNumber g.nodes g.edges).length < (numNodes int q.nodes).length := by
      obtain ⟨h1, h2, -⟩ := C49_largest hw.1
      have hE : Entry g.nodes g.edges 1 (shortClique g.T.cliqueNumber g.nodes g.edges) := by
        refine ⟨h1, fun c hc => ?_, fun c hc => Nat.le_of_eq (h2 c hc), fun hne => ?_⟩
        · obtain ⟨v, rfl⟩ := List.length_eq_one_iff.mp (h2 c hc)
          simp
        · obtain ⟨c, hc⟩ := List.exists_mem_of_ne_nil _ hne
          exact ⟨c, hc, h2 c hc⟩
      obtain ⟨vs, hv, hvl⟩ := singles_clique hE
      have := C49_number hw.1 hv
      omega
    have hshore : 0 < g.T.shore ∧ g.T.shore < (numNodes int q.nodes).length := by
      rw [hlen]
      revert hu hc
      cases g.T with
      | chimera m n t => exact fun _ hu => hu
      | pegasus d off => exact fun hc _ => ⟨show 0 < 2 by decide, show 2 < q.count by have hc : 4 < q.count := hc; omega⟩
      | zephyr d t => exact fun _ hu => ⟨show 0 < 2 * t by omega, hu.2⟩
    obtain ⟨l, k1, k2, _⟩ := C63_found P.S P.fuel hw.1 (bound := 64) (by decide) (hP.draws g.T seed M).1 (hP.draws g.T seed M).2 hshore.1 hshort hshore.2
    obtain ⟨l', m1, C, hC, mem, emb, m2, m3, m4⟩ := stairs_mask hw.1 hf (hP.draws g.T seed M).1 (hP.draws g.T seed M).2 hg
    rw [k1] at m1; cases m1
    obtain ⟨A, a1, a2, a3, _⟩ := k2 ⟨C, hC, mem, W, ys, xs, emb, m2, hg.nested, m3, by omega⟩
    refine ⟨A, ?_, by omega, a3⟩
    have hreq : requestOf P c0 q = .ok none := by
      unfold requestOf
      rw [hqg]
      simp only
      rw [hog]
      simp only
      rw [if_neg huc]
    simp only [ask, hreq, hqg, oneShot, hog, drawsFor, hM, bind, Except.bind, pure, Except.pure, a1]
    rw [Cache.toDict_self]
    rw [List.map_fst_zip (by omega)]
    exact hn

end

end MM
