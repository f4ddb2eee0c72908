import Verif.Bus.Find
import Verif.Bus.YieldInv
import Verif.Props.CliqueSearch

/-! What `find_clique` returns. -/

namespace MM
namespace Bus

open Lattice Spec

section
variable {T : Topo} {lines : List Byte} {nodes : List Nat} {edges : List (Nat × Nat)} {C : Masks} {N E : Bool → Nat → Nat → Nat → Prop}

/-- The byte of a cell. -/
theorem node_byte (hC : Clean T nodes edges C N E) {u : Bool} {w z : Nat} (h : InR T u w z) : ∃ b, at_ C.node (T.cell u w z) = .ok b ∧ ∀ k, k ∈ members b ↔ N u w k z := by
  have hlt : T.cell u w z < C.node.length := by rw [hC.rep.nodeLen]; exact cell_lt h
  have hget := List.getElem?_eq_getElem hlt
  refine ⟨_, at_ok hget, fun k => ?_⟩
  rw [mem_members, ← hC.rep.node u w k z h, bit_iff hget]

theorem whole_one {u : Bool} {w k z : Nat} (h : N u w k z) : Whole N E u w k z z := by
  refine ⟨fun z' p q => ?_, fun z' p q => by omega⟩
  obtain rfl : z' = z := by omega
  exact h

theorem cellLoop_diverges (hG : WFGraph T nodes edges) (hC : Clean T nodes edges C N E) {y x : Nat} {k0 k1 : Byte} (h0 : k0 ≠ 0) (h1 : k1 ≠ 0)
    (m0 : ∀ k, k ∈ members k0 → N false x k y) (m1 : ∀ k, k ∈ members k1 → N true y k x) : ∀ fuel emb, cellLoop T y x k0 k1 fuel emb = .error .diverge := by
  intro fuel
  induction fuel with
  | zero => intro emb; rfl
  | succ n ih =>
    intro emb
    obtain ⟨a, _, a1, k0', _, a3⟩ := step_ok k0 h0
    obtain ⟨b, _, b1, k1', _, b3⟩ := step_ok k1 h1
    have na := m0 a (by rw [a3]; exact List.mem_cons_self)
    have nb := m1 b (by rw [b3]; exact List.mem_cons_self)
    obtain ⟨v, v1, _⟩ := wire_ok hG hC (Nat.le_refl y) (u := false) (w := x) (k := a) (whole_one na)
    obtain ⟨h, w1, _⟩ := wire_ok hG hC (Nat.le_refl x) (u := true) (w := y) (k := b) (whole_one nb)
    rw [cellLoop, if_neg (not_or.mpr ⟨h0, h1⟩)]
    simp only [a1, b1, v1, w1, bind, Except.bind]
    exact ih _

theorem cellScore_ok (hC : Clean T nodes edges C N E) {y x : Nat} (hy : y < T.dimY) (hx : x < T.dimX) :
    ∃ k0 k1, at_ C.node (T.cell false x y) = .ok k0 ∧ at_ C.node (T.cell true y x) = .ok k1 ∧ (∀ k, k ∈ members k0 ↔ N false x k y) ∧ (∀ k, k ∈ members k1 ↔ N true y k x) ∧
      cellScore T C y x = .ok (min (members k0).length (members k1).length) := by
  obtain ⟨k0, a1, a2⟩ := node_byte hC (u := false) (w := x) (z := y) ⟨hx, hy⟩
  obtain ⟨k1, b1, b2⟩ := node_byte hC (u := true) (w := y) (z := x) ⟨hy, hx⟩
  exact ⟨k0, k1, a1, b1, a2, b2, by simp only [cellScore, a1, b1, popcount_ok, bind, Except.bind]; rfl⟩

/-- `find_clique_short` never ends if some cell is large enough. -/
theorem findShort_ok (hG : WFGraph T nodes edges) (hC : Clean T nodes edges C N E) {size : Nat} (hs : 0 < size) {cells : List (Nat × Nat)} (h : ∀ p ∈ cells, p.1 < T.dimY ∧ p.2 < T.dimX) :
    ((∃ p ∈ cells, ∃ s, cellScore T C p.1 p.2 = .ok s ∧ size ≤ s) → ∀ fuel, findShort T C fuel size cells = .error .diverge) ∧
    ((¬ ∃ p ∈ cells, ∃ s, cellScore T C p.1 p.2 = .ok s ∧ size ≤ s) → ∀ fuel, findShort T C fuel size cells = .ok none) := by
  induction cells with
  | nil => exact ⟨fun ⟨p, hp, _⟩ => (by cases hp), fun _ _ => rfl⟩
  | cons p cells ih =>
    obtain ⟨y, x⟩ := p
    obtain ⟨hy, hx⟩ := h (y, x) List.mem_cons_self
    obtain ⟨k0, k1, a1, b1, a2, b2, h1⟩ := cellScore_ok hC hy hx
    obtain ⟨i1, i2⟩ := ih (fun p hp => h p (List.mem_cons_of_mem _ hp))
    by_cases hle : size ≤ min (members k0).length (members k1).length
    · have z0 : k0 ≠ 0 := by rintro rfl; rw [members_zero] at hle; simp at hle; omega
      have z1 : k1 ≠ 0 := by rintro rfl; rw [members_zero] at hle; simp at hle; omega
      refine ⟨fun _ fuel => ?_, fun hn => absurd ⟨(y, x), List.mem_cons_self, _, h1, hle⟩ hn⟩
      simp only [findShort, h1, bind, Except.bind, if_pos hle, inflateCell, a1, b1]
      rw [cellLoop_diverges hG hC z0 z1 (fun k => (a2 k).mp) (fun k => (b2 k).mp)]
    · have hstep : ∀ fuel, findShort T C fuel size ((y, x) :: cells) = findShort T C fuel size cells := by
        intro fuel
        simp only [findShort, h1, bind, Except.bind, if_neg hle]
      refine ⟨fun ⟨p, hp, s, h2, h3⟩ fuel => ?_, fun hn fuel => ?_⟩
      · rw [hstep]
        rcases List.mem_cons.mp hp with rfl | hp
        · rw [h1] at h2; cases h2; exact absurd h3 hle
        · exact i1 ⟨p, hp, s, h2, h3⟩ fuel
      · rw [hstep]
        exact i2 (fun ⟨p, hp, s, h2, h3⟩ => hn ⟨p, List.mem_cons_of_mem _ hp, s, h2, h3⟩) fuel

/-- Some sequence of nested rectangles of width `W` gives enough chains. -/
def Feasible (T : Topo) (lines : List Byte) (size W : Nat) : Prop :=
  ∃ ys xs emb, Nested T.dimY T.dimX W ys xs ∧ inflateAll T lines (nestedElls W ys xs W) = .ok emb ∧ size ≤ emb.length

theorem Feasible.range (hG : WFGraph T nodes edges) (hC : Clean T nodes edges C N E) (hT : Table T C lines) {size W : Nat} (hs : 0 < size) (h : Feasible T lines size W) :
    0 < W ∧ W ≤ T.dimY ∧ W ≤ T.dimX ∧ size ≤ W * T.shore := by
  obtain ⟨ys, xs, emb, hn, he, hle⟩ := h
  have hW : 0 < W := by
    rcases Nat.eq_zero_or_pos W with rfl | h
    · simp only [nestedElls, List.range_zero, List.map_nil, List.reverse_nil, inflateAll, List.foldlM_nil] at he
      cases he
      simp at hle
      omega
    · exact h
  have g1 := hn.rows (W - 1) (by omega)
  have g2 := hn.cols 0 (by omega)
  refine ⟨hW, by omega, by omega, Nat.le_trans hle ?_⟩
  have hgrid : ∀ e ∈ nestedElls W ys xs W, e.InGrid T := by
    intro e he
    have hw := nestedEll_wide he
    simp only [nestedElls, List.mem_map, List.mem_reverse, List.mem_range] at he
    obtain ⟨i, hi, rfl⟩ := he
    have r := hn.rows i hi
    have c := hn.cols i hi
    have := hw.yc; have := hw.xc
    simp only [nestedEll] at *
    constructor <;> simp only <;> omega
  have key : ∀ (es : List Ell), (∀ e ∈ es, e.InGrid T) → ∀ a b, es.foldlM (fun emb e => inflateEll T lines e emb) a = .ok b → b.length ≤ a.length + es.length * T.shore := by
    intro es
    induction es with
    | nil => intro _ a b h; cases h; simp
    | cons e es ih =>
      intro hg a b h
      obtain ⟨cs, c1, c2, _⟩ := inflateEll_ok hG hC hT (hg e List.mem_cons_self)
      rw [List.foldlM_cons, c1] at h
      have := ih (fun e he => hg e (List.mem_cons_of_mem _ he)) _ _ h
      have h2 := ellScore_le hG hC hT (hg e List.mem_cons_self) c2
      rw [List.length_append] at this
      rw [List.length_cons, Nat.succ_mul]
      omega
  have := key _ hgrid [] emb he
  simpa [nestedElls] using this

theorem clique_perm {A B : List (List Nat)} (h : CliqueEmbedding nodes edges A) (hp : B.Perm A) : CliqueEmbedding nodes edges B :=
  ⟨fun c hc => h.chains c (hp.subset hc), h.disjoint.perm hp.symm (fun h q hq hq' => h q hq' hq), h.adjacent.perm hp.symm (fun ⟨p, hp, q, hq, hpq⟩ => ⟨q, hq, p, hp, Or.symm hpq⟩)⟩

theorem clique_sublist {A B : List (List Nat)} (h : CliqueEmbedding nodes edges A) (hs : B.Sublist A) : CliqueEmbedding nodes edges B :=
  ⟨fun c hc => h.chains c (hs.subset hc), h.disjoint.sublist hs, h.adjacent.sublist hs⟩

theorem getSol_ok (S : Sorting) {size : Nat} (hs : 0 < size) (r : Option (List (List Nat))) :
    (∃ emb l, r = some emb ∧ size ≤ emb.length ∧ getSol S r size = .ok (some (S.sort emb, l)) ∧ (∃ c ∈ emb, c.length = l) ∧ ∀ c ∈ (S.sort emb).take size, c.length ≤ l) ∨
    (getSol S r size = .ok none ∧ ∀ emb, r = some emb → emb.length < size) := by
  cases r with
  | none => exact .inr ⟨rfl, fun emb h => by cases h⟩
  | some emb =>
    by_cases hle : size ≤ emb.length
    · left
      have hlen := (S.perm emb).length_eq
      have hlt : size - 1 < (S.sort emb).length := by omega
      have hget := List.getElem?_eq_getElem hlt
      refine ⟨emb, ((S.sort emb)[size - 1]).length, rfl, hle, ?_, ⟨_, (S.perm emb).subset (List.getElem_mem hlt), rfl⟩, fun c hc => ?_⟩
      · have hsub : sub_ size 1 = .ok (size - 1) := by unfold sub_; rw [if_pos (by omega)]; rfl
        simp only [getSol, if_pos hle, getMaxlen, hsub, at_ok hget, bind, Except.bind]
        rfl
      · obtain ⟨i, hi, rfl⟩ := List.mem_iff_getElem.mp hc
        rw [List.length_take] at hi
        rw [List.getElem_take]
        rcases Nat.lt_or_ge i (size - 1) with h | h
        · exact List.pairwise_iff_getElem.mp (S.sorted emb) i (size - 1) (by omega) hlt h
        · obtain rfl : i = size - 1 := by omega
          exact Nat.le_refl _
    · right
      refine ⟨by simp only [getSol, if_neg hle]; rfl, fun e h => by cases h; omega⟩

/-- What holds of `emb` and `max_length` all the time; `P` says that there is something to find. -/
structure FoundOk (nodes : List Nat) (edges : List (Nat × Nat)) (size : Nat) (P : Prop) (F : Found) : Prop where
  clique : CliqueEmbedding nodes edges F.emb
  nodup : ∀ c ∈ F.emb, c.Nodup
  empty : F.len = none → F.emb = []
  found : ∀ L, F.len = some L → P ∧ 0 < L ∧ size ≤ F.emb.length ∧ ∀ c ∈ F.emb.take size, c.length ≤ L

theorem FoundOk.mono {size : Nat} {P Q : Prop} {F : Found} (h : FoundOk nodes edges size P F) (hPQ : P → Q) : FoundOk nodes edges size Q F :=
  ⟨h.clique, h.nodup, h.empty, fun L hL => ⟨hPQ (h.found L hL).1, (h.found L hL).2⟩⟩

/-- A search for a width, and `get_sol`. -/
theorem search_ok (S : Sorting) (hG : WFGraph T nodes edges) (hC : Clean T nodes edges C N E) (hT : Table T C lines) {size : Nat} (hs : 0 < size) (check : Ell → Bool) {W : Nat} (hF : Fits T W) :
    ∃ r, cliqueOf T lines check W = .ok r ∧
      ((∃ emb l d k j c, getSol S r size = .ok (some (emb, l)) ∧ size ≤ emb.length ∧ CliqueEmbedding nodes edges emb ∧ (∀ c ∈ emb, c.Nodup) ∧ (∀ c ∈ emb.take size, c.length ≤ l) ∧
        check d = true ∧ Wide W d ∧ EllChain T nodes edges N E d k j c ∧ c.length = l ∧ 0 < l ∧ ((∀ e, check e = true) → Feasible T lines size W)) ∨
      (getSol S r size = .ok none ∧ ((∀ e, check e = true) → ¬ Feasible T lines size W))) := by
  obtain ⟨r, r1, r2, r3⟩ := cliqueOf_best (check := check) hG hC hT hF
  refine ⟨r, r1, ?_⟩
  have hfil : (∀ e, check e = true) → ∀ es : List Ell, es.filter check = es := fun h es => List.filter_eq_self.mpr (fun e _ => h e)
  rcases getSol_ok S hs r with ⟨emb, l, rfl, h1, h2, ⟨c, hc, hl⟩, h4⟩ | ⟨h1, h2⟩
  · left
    obtain ⟨a0, a1, a2, ys, xs, css, b1, b2, rfl⟩ := r2 emb rfl
    obtain ⟨d, hd, k, j, hch⟩ := made_mem b2 hc
    rw [List.mem_filter] at hd
    have hpos : 0 < l := by
      rw [← hl]
      exact List.length_pos_iff.mpr (a1.chains c hc).nonempty
    refine ⟨S.sort css.flatten, l, d, k, j, c, h2, by rw [(S.perm _).length_eq]; exact h1, clique_perm a1 (S.perm _), fun c hc => a2 c ((S.perm _).subset hc), h4, hd.2, nestedEll_wide hd.1, hch, hl, hpos, fun hall => ?_⟩
    rw [hfil hall] at b2
    exact ⟨ys, xs, _, b1, inflateAll_ok b2, h1⟩
  · right
    refine ⟨h1, fun hall => ?_⟩
    rintro ⟨ys, xs, emb, hn, he, hle⟩
    obtain ⟨emb', e1, e2⟩ := r3 ys xs hn
    rw [hfil hall, he] at e1
    cases e1
    cases r with
    | none => simp only [Option.elim_none] at e2; omega
    | some b =>
      have := h2 b rfl
      simp only [Option.elim_some] at e2
      omega

theorem shorter_iff {l : Nat} {o : Option Nat} : shorter l o = true ↔ ∀ L, o = some L → l < L := by
  cases o with
  | none => simp [shorter]
  | some m => simp [shorter]

/-- The loop over the widths. -/
theorem tryWidths_ok (S : Sorting) (hG : WFGraph T nodes edges) (hC : Clean T nodes edges C N E) (hT : Table T C lines) {size : Nat} (hs : 0 < size) {P : Prop} (hP : ∀ W, Feasible T lines size W → P)
    {F : Found} (hF : FoundOk nodes edges size P F) : ∀ {ws : List Nat}, (∀ w ∈ ws, Fits T w) →
    ∃ b F', tryWidths S T lines size F ws = .ok (b, F') ∧ FoundOk nodes edges size P F' ∧
      ((b = false ∧ F' = F ∧ ∀ w ∈ ws, Feasible T lines size w → ∃ d k j c, Wide w d ∧ EllChain T nodes edges N E d k j c ∧ shorter c.length F.len = false) ∨
       (b = true ∧ ∃ pre w post d k j c, ws = pre ++ w :: post ∧ Wide w d ∧ EllChain T nodes edges N E d k j c ∧ F'.len = some c.length ∧ shorter c.length F.len = true ∧
         ∀ w ∈ pre, Feasible T lines size w → ∃ d k j c, Wide w d ∧ EllChain T nodes edges N E d k j c ∧ shorter c.length F.len = false)) := by
  intro ws
  induction ws with
  | nil => intro _; exact ⟨false, F, rfl, hF, .inl ⟨rfl, rfl, by simp⟩⟩
  | cons w ws ih =>
    intro hw
    obtain ⟨r, r1, hr⟩ := search_ok S hG hC hT hs (fun _ => true) (hw w List.mem_cons_self)
    have next : (Feasible T lines size w → ∃ d k j c, Wide w d ∧ EllChain T nodes edges N E d k j c ∧ shorter c.length F.len = false) →
        tryWidths S T lines size F (w :: ws) = tryWidths S T lines size F ws → ∃ b F', tryWidths S T lines size F (w :: ws) = .ok (b, F') ∧ FoundOk nodes edges size P F' ∧
        ((b = false ∧ F' = F ∧ ∀ w' ∈ w :: ws, Feasible T lines size w' → ∃ d k j c, Wide w' d ∧ EllChain T nodes edges N E d k j c ∧ shorter c.length F.len = false) ∨
        (b = true ∧ ∃ pre w' post d k j c, w :: ws = pre ++ w' :: post ∧ Wide w' d ∧ EllChain T nodes edges N E d k j c ∧ F'.len = some c.length ∧ shorter c.length F.len = true ∧
         ∀ w ∈ pre, Feasible T lines size w → ∃ d k j c, Wide w d ∧ EllChain T nodes edges N E d k j c ∧ shorter c.length F.len = false)) := by
      intro hno he
      rw [he]
      obtain ⟨b, F', i1, i2, i3⟩ := ih (fun w h => hw w (List.mem_cons_of_mem _ h))
      refine ⟨b, F', i1, i2, ?_⟩
      rcases i3 with ⟨i3, i4, i5⟩ | ⟨i3, pre, w', post, d, k, j, c, i4, i5, i6, i7, i8, i9⟩
      · left
        refine ⟨i3, i4, fun w' hw' => ?_⟩
        rcases List.mem_cons.mp hw' with rfl | hw'
        · exact hno
        · exact i5 w' hw'
      · right
        refine ⟨i3, w :: pre, w', post, d, k, j, c, by rw [i4]; rfl, i5, i6, i7, i8, fun w' hw' => ?_⟩
        rcases List.mem_cons.mp hw' with rfl | hw'
        · exact hno
        · exact i9 w' hw'
    rcases hr with ⟨emb, l, d, k, j, c, h1, h2, h3, h4, h5, -, h7, h8, h9, h10, h11⟩ | ⟨h1, h2⟩
    · have hfe := h11 (fun _ => rfl)
      cases hsh : shorter l F.len with
      | true =>
        refine ⟨true, ⟨emb, some l⟩, ?_, ⟨h3, h4, fun h => (by cases h), fun L hL => ?_⟩, .inr ⟨rfl, [], w, ws, d, k, j, c, rfl, h7, h8, by rw [h9], by rw [h9]; exact hsh, by simp⟩⟩
        · simp only [tryWidths, r1, h1, bind, Except.bind, hsh, if_true]; rfl
        · cases hL
          exact ⟨hP w hfe, h10, h2, h5⟩
      | false =>
        refine next (fun _ => ⟨d, k, j, c, h7, h8, by rw [h9]; exact hsh⟩) ?_
        simp only [tryWidths, r1, h1, bind, Except.bind, hsh]; rfl
    · refine next (fun h => absurd h (h2 fun _ => rfl)) ?_
      simp only [tryWidths, r1, h1, bind, Except.bind]

theorem minw_le {size shore W : Nat} (hs : 0 < shore) (h : size ≤ W * shore) : (size + shore - 1) / shore ≤ W := by
  have : size + shore - 1 < (W + 1) * shore := by rw [Nat.add_mul, Nat.one_mul]; omega
  have := (Nat.div_lt_iff_lt_mul hs).mpr this
  omega

theorem two_le_minw {size shore : Nat} (hs : 0 < shore) (h : shore < size) : 2 ≤ (size + shore - 1) / shore := by
  rw [Nat.le_div_iff_mul_le hs]
  omega

theorem mem_range'_split {a n w : Nat} {pre post : List Nat} (h : List.range' a n = pre ++ w :: post) : a ≤ w ∧ w < a + n ∧ ∀ v, a ≤ v → v < w → v ∈ pre := by
  have hw : w ∈ List.range' a n := by rw [h]; simp
  rw [List.mem_range'_1] at hw
  refine ⟨hw.1, hw.2, fun v h1 h2 => ?_⟩
  have hv : v ∈ List.range' a n := List.mem_range'_1.mpr ⟨h1, by omega⟩
  have hp : (List.range' a n).Pairwise (· < ·) := List.pairwise_lt_range'
  rw [h] at hv hp
  rcases List.mem_append.mp hv with hv | hv
  · exact hv
  · rw [List.pairwise_append, List.pairwise_cons] at hp
    rcases List.mem_cons.mp hv with rfl | hv
    · omega
    · have := hp.2.1.1 v hv
      omega

theorem maxWidth_ok {len : Option Nat} (h : ∀ L, len = some L → 0 < L) : ∃ m, maxWidth T len = .ok m ∧ m ≤ T.dimY ∧ m ≤ T.dimX ∧ (len = none → m = min T.dimY T.dimX) := by
  cases len with
  | none => exact ⟨_, rfl, by omega, by omega, fun _ => rfl⟩
  | some L =>
    have hL := h L rfl
    have hsub : sub_ L 1 = .ok (L - 1) := by unfold sub_; rw [if_pos (by omega)]; rfl
    cases T <;> simp only [maxWidth, hsub, bind, Except.bind] <;> exact ⟨_, rfl, by omega, by omega, fun h => by cases h⟩

/-- The search through the widths of one mask. -/
theorem niceWidths_ok (S : Sorting) (hG : WFGraph T nodes edges) (hC : Clean T nodes edges C N E) (hl : lineMasks T C = .ok lines) (hT : Table T C lines) {size : Nat} (hs : 0 < T.shore) (hsize : T.shore < size)
    {P : Prop} (hP : ∀ W, Feasible T lines size W → P) {F : Found} (hF : FoundOk nodes edges size P F) :
    ∃ b F', niceWidths S T C size F = .ok (b, F') ∧ FoundOk nodes edges size P F' ∧ (b = false → F' = F) ∧ (F.len ≠ none → F'.len ≠ none) ∧ (F'.len = none → ∀ W, ¬ Feasible T lines size W) := by
  unfold niceWidths
  split
  · rename_i h1
    exact ⟨false, F, rfl, hF, fun _ => rfl, fun h => h, fun h => by rw [h1] at h; cases h⟩
  · obtain ⟨m, m1, m2, m3, m4⟩ := maxWidth_ok (T := T) (len := F.len) (fun L hL => (hF.found L hL).2.1)
    have h2 := two_le_minw hs hsize
    obtain ⟨b, F', t1, t2, t3⟩ := tryWidths_ok S hG hC hT (by omega) hP hF (ws := List.range' ((size + T.shore - 1) / T.shore) (m + 1 - (size + T.shore - 1) / T.shore)) (by
      intro w hw
      rw [List.mem_range'_1] at hw
      exact ⟨by omega, by omega, by omega⟩)
    refine ⟨b, F', by simp only [hl, m1, bind, Except.bind, t1], t2, ?_, ?_, ?_⟩
    · intro hb
      rcases t3 with ⟨_, h, _⟩ | ⟨h, _⟩
      · exact h
      · rw [h] at hb; cases hb
    · intro hne
      rcases t3 with ⟨_, h, _⟩ | ⟨_, pre, w, post, d, k, j, c, _, _, _, h, _⟩
      · rw [h]; exact hne
      · rw [h]; simp
    · intro hnone W hfe
      obtain ⟨_, f2, f3, f4⟩ := hfe.range hG hC hT (by omega)
      have f5 := minw_le hs f4
      rcases t3 with ⟨_, h, h3⟩ | ⟨_, pre, w, post, d, k, j, c, _, _, _, h, _⟩
      · rw [h] at hnone
        have := m4 hnone
        obtain ⟨_, _, _, c, _, _, hsh⟩ := h3 W (List.mem_range'_1.mpr ⟨f5, by omega⟩) hfe
        rw [hnone] at hsh
        cases hsh
      · rw [h] at hnone; cases hnone

/-- In Chimera the chains found are as short as can be. -/
theorem niceWidths_chimera (S : Sorting) {m n t : Nat} (hG : WFGraph (.chimera m n t) nodes edges) (hC : Clean (.chimera m n t) nodes edges C N E) (hl : lineMasks (.chimera m n t) C = .ok lines) (hT : Table (.chimera m n t) C lines)
    {size : Nat} (hs : 0 < t) (hsize : t < size) {P : Prop} (hP : ∀ W, Feasible (.chimera m n t) lines size W → P) {F : Found} (hF : FoundOk nodes edges size P F) (h1 : F.len ≠ some 1) :
    ∃ b F', niceWidths S (.chimera m n t) C size F = .ok (b, F') ∧ F'.len ≠ some 1 ∧ (∀ L, F.len = some L → ∃ L', F'.len = some L' ∧ L' ≤ L) ∧
      ∀ W, Feasible (.chimera m n t) lines size W → ∃ L, F'.len = some L ∧ L ≤ W + 1 := by
  have hs : 0 < (Topo.chimera m n t).shore := hs
  have hsize : (Topo.chimera m n t).shore < size := hsize
  unfold niceWidths
  rw [if_neg h1]
  obtain ⟨mw, m1, m2, m3, m4⟩ := maxWidth_ok (T := .chimera m n t) (len := F.len) (fun L hL => (hF.found L hL).2.1)
  have m5 : ∀ L, F.len = some L → mw = min (L - 1) (min m n) := by
    intro L hL
    have hp := (hF.found L hL).2.1
    have hsub : sub_ L 1 = .ok (L - 1) := by unfold sub_; rw [if_pos (by omega)]; rfl
    rw [hL] at m1
    simp only [maxWidth, hsub, bind, Except.bind] at m1
    cases m1; rfl
  have h2 := two_le_minw hs hsize
  obtain ⟨b, F', t1, t2, t3⟩ := tryWidths_ok S hG hC hT (by omega) hP hF (ws := List.range' ((size + (Topo.chimera m n t).shore - 1) / (Topo.chimera m n t).shore) (mw + 1 - (size + (Topo.chimera m n t).shore - 1) / (Topo.chimera m n t).shore)) (by
    intro w hw
    rw [List.mem_range'_1] at hw
    exact ⟨by omega, by omega, by omega⟩)
  refine ⟨b, F', by simp only [hl, m1, bind, Except.bind, t1], ?_, ?_, ?_⟩
  · rcases t3 with ⟨_, h, _⟩ | ⟨_, pre, w, post, d, k, j, c, e1, e2, e3, h, _⟩
    · rw [h]; exact h1
    · rw [h, chimera_length e2 e3]
      have := (mem_range'_split e1).1
      simp only [ne_eq, Option.some.injEq]
      omega
  · intro L hL
    rcases t3 with ⟨_, h, _⟩ | ⟨_, pre, w, post, d, k, j, c, e1, e2, e3, h, h', _⟩
    · exact ⟨L, by rw [h]; exact hL, Nat.le_refl _⟩
    · exact ⟨_, h, Nat.le_of_lt (shorter_iff.mp h' L hL)⟩
  · intro W hfe
    obtain ⟨_, f2, f3, f4⟩ := hfe.range hG hC hT (by omega)
    have f5 := minw_le hs f4
    have hold : (∃ d k j c, Wide W d ∧ EllChain (.chimera m n t) nodes edges N E d k j c ∧ shorter c.length F.len = false) → ∃ L, F.len = some L ∧ L ≤ W + 1 := by
      rintro ⟨d, k, j, c, e2, e3, e4⟩
      rw [chimera_length e2 e3] at e4
      cases hL : F.len with
      | none => rw [hL] at e4; cases e4
      | some L =>
        rw [hL] at e4
        simp only [shorter, decide_eq_false_iff_not] at e4
        exact ⟨L, rfl, by omega⟩
    rcases t3 with ⟨_, h, h3⟩ | ⟨_, pre, w, post, d, k, j, c, e1, e2, e3, h, h', h''⟩
    · rw [h]
      by_cases hW : W ≤ mw
      · exact hold (h3 W (List.mem_range'_1.mpr ⟨f5, by omega⟩) hfe)
      · cases hL : F.len with
        | none =>
          have := m4 hL
          omega
        | some L =>
          have := m5 L hL
          simp only [Topo.dimY, Topo.dimX] at f2 f3
          exact ⟨L, rfl, by omega⟩
    · rw [h, chimera_length e2 e3]
      rw [chimera_length e2 e3] at h'
      obtain ⟨_, _, q3⟩ := mem_range'_split e1
      refine ⟨_, rfl, ?_⟩
      by_contra hcon
      obtain ⟨L, hL, hle⟩ := hold (h'' W (q3 W f5 (by omega)) hfe)
      have := shorter_iff.mp h' L hL
      omega

/-- One round of the loop over the lengths in Pegasus. -/
theorem lengthStep_ok (S : Sorting) {d : Nat} {off : Bool → Nat → Nat} (hG : WFGraph (.pegasus d off) nodes edges) (hC : Clean (.pegasus d off) nodes edges C N E) (hT : Table (.pegasus d off) C lines)
    {size : Nat} (hs : 0 < size) {P : Prop} {w : Nat} (hW : Fits (.pegasus d off) w) {F : Found} (hF : FoundOk nodes edges size P F) (hne : F.len ≠ none) (length : Nat) :
    ∃ F', lengthStep S (.pegasus d off) lines size w F length = .ok F' ∧ FoundOk nodes edges size P F' ∧ F'.len ≠ none := by
  obtain ⟨r, r1, hr⟩ := search_ok S hG hC hT hs (checkFor (.pegasus d off) (some length)) hW
  rcases hr with ⟨emb, l, e, k, j, c, h1, h2, h3, h4, h5, h6, h7, h8, h9, h10, -⟩ | ⟨h1, h2⟩
  · refine ⟨_, by simp only [lengthStep, r1, h1, bind, Except.bind]; rfl, ?_, by simp⟩
    cases hL : F.len with
    | none => exact absurd hL hne
    | some L =>
      obtain ⟨p1, p2, p3, p4⟩ := hF.found L hL
      have hle : l ≤ length := by
        rw [← h9, pegasusEllLength_ok hG hC h7.y h7.x h8]
        simpa [checkFor] using h6
      cases hsh : shorter l (some L) with
      | true =>
        have hlt : l < L := by simpa [shorter] using hsh
        simp only [if_true, minLen]
        refine ⟨h3, h4, fun h => (by cases h), fun L' hL' => ?_⟩
        cases hL'
        exact ⟨p1, by omega, h2, fun c hc => by have := h5 c hc; omega⟩
      | false =>
        have hge : L ≤ l := by simpa [shorter] using hsh
        simp only [minLen]
        refine ⟨hF.clique, hF.nodup, fun h => (by cases h), fun L' hL' => ?_⟩
        cases hL'
        exact ⟨p1, by omega, p3, fun c hc => by have := p4 c hc; omega⟩
  · exact ⟨F, by simp only [lengthStep, r1, h1, bind, Except.bind]; rfl, hF, hne⟩

theorem pegasusWidths_ok (S : Sorting) {d : Nat} {off : Bool → Nat → Nat} (hG : WFGraph (.pegasus d off) nodes edges) (hC : Clean (.pegasus d off) nodes edges C N E) (hT : Table (.pegasus d off) C lines)
    {size : Nat} (hs : 0 < size) {P : Prop} (hP : ∀ W, Feasible (.pegasus d off) lines size W → P) : ∀ (n : Nat) {w maxw : Nat} {F : Found}, 2 ≤ w → maxw ≤ 6 * d → FoundOk nodes edges size P F →
    ∃ F', pegasusWidths S (.pegasus d off) off lines size n w maxw F = .ok F' ∧ FoundOk nodes edges size P F' ∧ (F.len ≠ none → F'.len ≠ none) ∧
      (F'.len = none → ∀ W, w ≤ W → W ≤ maxw → W < w + n → ¬ Feasible (.pegasus d off) lines size W) := by
  intro n
  induction n with
  | zero => intro w maxw F _ _ hF; exact ⟨F, rfl, hF, fun h => h, fun _ W h1 _ h3 => by omega⟩
  | succ n ih =>
    intro w maxw F hw hmax hF
    rw [pegasusWidths]
    split
    · rename_i hle
      have hfit : Fits (.pegasus d off) w := ⟨hw, show w ≤ 6 * d by omega, show w ≤ 6 * d by omega⟩
      have hwide : Wide w ⟨0, 0, 0, w - 1, 0, 0⟩ := ⟨Nat.zero_le _, Nat.le_refl _, by simp only; omega, .inl rfl, .inl rfl⟩
      obtain ⟨lo, hlo, _, _⟩ := lengthRange_ok hG.supported hwide
      rw [hlo]
      simp only
      split
      · rename_i hsh
        obtain ⟨r, r1, hr⟩ := search_ok S hG hC hT hs (fun _ => true) hfit
        rcases hr with ⟨emb, l, e, k, j, c, h1, h2, h3, h4, h5, -, h7, h8, h9, h10, h11⟩ | ⟨h1, h2⟩
        · have hfe := h11 (fun _ => rfl)
          have h0 : FoundOk nodes edges size P ⟨if shorter l F.len then emb else F.emb, some (minLen l F.len)⟩ := by
            cases hL : F.len with
            | none =>
              refine ⟨h3, h4, fun h => (by cases h), fun L' hL' => ?_⟩
              cases hL'
              exact ⟨hP w hfe, h10, h2, h5⟩
            | some L =>
              obtain ⟨p1, p2, p3, p4⟩ := hF.found L hL
              cases hsh : shorter l (some L) with
              | true =>
                have hlt : l < L := by simpa [shorter] using hsh
                simp only [if_true, minLen]
                refine ⟨h3, h4, fun h => (by cases h), fun L' hL' => ?_⟩
                cases hL'
                exact ⟨p1, by omega, h2, fun c hc => by have := h5 c hc; omega⟩
              | false =>
                have hge : L ≤ l := by simpa [shorter] using hsh
                simp only [minLen]
                refine ⟨hF.clique, hF.nodup, fun h => (by cases h), fun L' hL' => ?_⟩
                cases hL'
                exact ⟨p1, by omega, p3, fun c hc => by have := p4 c hc; omega⟩
          have hfold : ∀ (ls : List Nat) (F : Found), FoundOk nodes edges size P F → F.len ≠ none → ∃ F', ls.foldlM (lengthStep S (.pegasus d off) lines size w) F = .ok F' ∧ FoundOk nodes edges size P F' ∧ F'.len ≠ none := by
            intro ls
            induction ls with
            | nil => intro F h1 h2; exact ⟨F, rfl, h1, h2⟩
            | cons a ls ihl =>
              intro F h1 h2
              obtain ⟨F1, g1, g2, g3⟩ := lengthStep_ok S hG hC hT hs hfit h1 h2 a
              rw [List.foldlM_cons, g1]
              exact ihl F1 g2 g3
          obtain ⟨F1, g1, g2, g3⟩ := hfold (List.range' lo (max (minLen l F.len) (lengthRange off w).2 - lo)) _ h0 (by simp)
          obtain ⟨F2, k1, k2, k3, _⟩ := ih (w := w + 1) (maxw := min maxw (w + 6)) (by omega) (by omega) g2
          refine ⟨F2, ?_, k2, fun _ => k3 g3, fun h => absurd h (k3 g3)⟩
          simp only [r1, h1, bind, Except.bind, g1, k1]
        · obtain ⟨F2, k1, k2, k3, k4⟩ := ih (w := w + 1) (maxw := maxw) (by omega) (by omega) hF
          refine ⟨F2, ?_, k2, k3, fun h W a1 a2 a3 => ?_⟩
          · simp only [r1, h1, bind, Except.bind, k1]
          · rcases Nat.eq_or_lt_of_le a1 with rfl | a1
            · exact h2 fun _ => rfl
            · exact k4 h W a1 a2 (by omega)
      · rename_i hsh
        refine ⟨F, rfl, hF, fun h => h, fun h => ?_⟩
        rw [h] at hsh
        exact absurd rfl hsh
    · exact ⟨F, rfl, hF, fun h => h, fun _ W h1 h2 _ => by omega⟩

/-- `find_clique_nice`. -/
theorem findNice_ok (S : Sorting) (fuel : Nat) (hG : WFGraph T nodes edges) (hC : Clean T nodes edges C N E) (hl : lineMasks T C = .ok lines) (hT : Table T C lines) {size : Nat} (hs : 0 < T.shore) (hsize : T.shore < size)
    {P : Prop} (hP : ∀ W, Feasible T lines size W → P) {F : Found} (hF : FoundOk nodes edges size P F) :
    ∃ b F', findNice S fuel T C size F = .ok (b, F') ∧ FoundOk nodes edges size P F' ∧ (F.len ≠ none → F'.len ≠ none) ∧ (F'.len = none → ∀ W, ¬ Feasible T lines size W) ∧ (if b then F'.emb else F.emb) = F'.emb := by
  have grid : ∃ b F', niceGrid S fuel T C size F = .ok (b, F') ∧ FoundOk nodes edges size P F' ∧ (F.len ≠ none → F'.len ≠ none) ∧ (F'.len = none → ∀ W, ¬ Feasible T lines size W) ∧ (if b then F'.emb else F.emb) = F'.emb := by
    obtain ⟨b, F', h1, h2, h3, h4, h5⟩ := niceWidths_ok S hG hC hl hT hs hsize hP hF
    refine ⟨b, F', by unfold niceGrid; rw [if_neg (by omega)]; exact h1, h2, h4, h5, ?_⟩
    cases b with
    | true => rfl
    | false => rw [h3 rfl]; rfl
  cases T with
  | chimera m n t => exact grid
  | zephyr d t => exact grid
  | pegasus d off =>
    have hsize : 2 < size := hsize
    obtain ⟨F', h1, h2, h3, h4⟩ := pegasusWidths_ok S hG hC hT (by omega) hP (6 * d + 1 - (size + 1) / 2) (w := (size + 1) / 2) (maxw := 6 * d) (by omega) (Nat.le_refl _) hF
    refine ⟨decide (size ≤ F'.emb.length), F', ?_, h2, h3, fun h W hfe => ?_, ?_⟩
    · have e : min (Topo.pegasus d off).dimY (Topo.pegasus d off).dimX = 6 * d := Nat.min_self _
      simp only [findNice, nicePegasus, hl, e, h1, bind, Except.bind]
      rfl
    · obtain ⟨f1, f2, f3, f4⟩ := hfe.range hG hC hT (by omega)
      simp only [Topo.dimY, Topo.shore] at f2 f4
      exact h4 h W (by omega) f2 (by omega) hfe
    · cases hL : F'.len with
      | some L =>
        obtain ⟨_, _, h, _⟩ := h2.found L hL
        simp [h]
      | none =>
        have hF0 : F.len = none := by
          by_contra hne
          exact h3 hne hL
        have e1 := h2.empty hL
        have e2 := hF.empty hF0
        simp [e1, e2]

/-- What some mask offers. -/
def Offered (T : Topo) (l : List Masks) (size : Nat) : Prop := ∃ C ∈ l, ∃ lines, lineMasks T C = .ok lines ∧ ∃ W, Feasible T lines size W

/-- `find_clique` for sizes above a cell. -/
theorem findClique_ok (S : Sorting) (fuel : Nat) (hG : WFGraph T nodes edges) {bound : Nat} (hb : 0 < bound) {D D' : Draws} (hD : D.Perm) (hD' : D'.Perm) {size : Nat} (hs : 0 < T.shore) (hsize : T.shore < size) :
    ∃ l r, searched T bound D D' nodes edges = .ok l ∧ findClique S fuel T bound D D' nodes edges size = .ok r ∧ (Offered T l size → r ≠ none) ∧
      ∀ emb, r = some emb → Offered T l size ∧ size ≤ emb.length ∧ CliqueEmbedding nodes edges emb ∧ ∀ c ∈ emb, c.Nodup := by
  obtain ⟨l, h1, _, h3⟩ := searched_ok hG hb hD hD'
  have key : ∀ (l : List Masks), (∀ C ∈ l, ∃ N E, Clean T nodes edges C N E) → ∀ (P : Prop), (Offered T l size → P) → ∀ F, FoundOk nodes edges size P F →
      ∃ F', l.foldlM (fun (p : List (List Nat) × Found) C => do
        let (b, F) ← findNice S fuel T C size p.2
        pure (if b then F.emb else p.1, F)) (F.emb, F) = .ok (F'.emb, F') ∧ FoundOk nodes edges size P F' ∧ (F.len ≠ none → F'.len ≠ none) ∧ (F'.len = none → ¬ Offered T l size) := by
    intro l
    induction l with
    | nil => intro _ P _ F hF; exact ⟨F, rfl, hF, fun h => h, fun _ => by rintro ⟨C, hC, _⟩; cases hC⟩
    | cons C l ih =>
      intro hl P hP F hF
      obtain ⟨N, E, hC⟩ := hl C List.mem_cons_self
      obtain ⟨lines, g1, g2⟩ := lineMasks_ok hC.sized
      obtain ⟨b, F1, k1, k2, k3, k4, k5⟩ := findNice_ok S fuel hG hC g1 g2 hs hsize (P := P) (fun W hfe => hP ⟨C, List.mem_cons_self, lines, g1, W, hfe⟩) hF
      obtain ⟨F2, i1, i2, i3, i4⟩ := ih (fun C h => hl C (List.mem_cons_of_mem _ h)) P (fun ⟨C, h, r⟩ => hP ⟨C, List.mem_cons_of_mem _ h, r⟩) F1 k2
      refine ⟨F2, ?_, i2, fun h => i3 (k3 h), fun h => ?_⟩
      · rw [List.foldlM_cons]
        simp only [k1, bind, Except.bind, k5]
        exact i1
      · rintro ⟨C', hC', lines', e1, W, hfe⟩
        rcases List.mem_cons.mp hC' with rfl | hC'
        · rw [g1] at e1; cases e1
          have : F1.len = none := by
            by_contra hne
            exact i3 hne h
          exact k4 this W hfe
        · exact i4 h ⟨C', hC', lines', e1, W, hfe⟩
  obtain ⟨F', f1, f2, f3, f4⟩ := key l h3 (Offered T l size) (fun h => h) ⟨[], none⟩ ⟨⟨by simp, .nil, .nil⟩, by simp, fun _ => rfl, fun L h => (by cases h)⟩
  refine ⟨l, if size ≤ F'.emb.length then some F'.emb else none, h1, ?_, ?_, ?_⟩
  · simp only [findClique, h1, bind, Except.bind] at f1 ⊢
    rw [f1]; rfl
  · intro hoff
    cases hL : F'.len with
    | none => exact absurd hoff (f4 hL)
    | some L => rw [if_pos (f2.found L hL).2.2.1]; simp
  · intro emb he
    split at he
    · rename_i hle
      cases he
      cases hL : F'.len with
      | none =>
        rw [f2.empty hL, List.length_nil] at hle
        omega
      | some L => exact ⟨(f2.found L hL).1, hle, f2.clique, f2.nodup⟩
    · cases he

/-- In Chimera: the first `size` chains are as short as any mask offers. -/
theorem findClique_chimera (S : Sorting) (fuel : Nat) {m n t : Nat} (hG : WFGraph (.chimera m n t) nodes edges) {bound : Nat} (hb : 0 < bound) {D D' : Draws} (hD : D.Perm) (hD' : D'.Perm) {size : Nat} (hs : 0 < t) (hsize : t < size)
    {l : List Masks} (hl : searched (.chimera m n t) bound D D' nodes edges = .ok l) {emb : List (List Nat)} (he : findClique S fuel (.chimera m n t) bound D D' nodes edges size = .ok (some emb))
    {C : Masks} (hC : C ∈ l) {lines : List Byte} (hlines : lineMasks (.chimera m n t) C = .ok lines) {W : Nat} (hfe : Feasible (.chimera m n t) lines size W) : ∀ c ∈ emb.take size, c.length ≤ W + 1 := by
  obtain ⟨l', h1, _, h3⟩ := searched_ok hG hb hD hD'
  rw [hl] at h1; cases h1
  have key : ∀ (l : List Masks), (∀ C ∈ l, ∃ N E, Clean (.chimera m n t) nodes edges C N E) → ∀ F, FoundOk nodes edges size True F → F.len ≠ some 1 →
      ∃ F', l.foldlM (fun (p : List (List Nat) × Found) C => do
        let (b, F) ← findNice S fuel (.chimera m n t) C size p.2
        pure (if b then F.emb else p.1, F)) (F.emb, F) = .ok (F'.emb, F') ∧ FoundOk nodes edges size True F' ∧ (∀ L, F.len = some L → ∃ L', F'.len = some L' ∧ L' ≤ L) ∧
        ∀ C ∈ l, ∀ lines, lineMasks (.chimera m n t) C = .ok lines → ∀ W, Feasible (.chimera m n t) lines size W → ∃ L, F'.len = some L ∧ L ≤ W + 1 := by
    intro l
    induction l with
    | nil => intro _ F hF _; exact ⟨F, rfl, hF, fun L h => ⟨L, h, Nat.le_refl _⟩, by simp⟩
    | cons C l ih =>
      intro hl F hF hone
      obtain ⟨N, E, hC⟩ := hl C List.mem_cons_self
      obtain ⟨lines, g1, g2⟩ := lineMasks_ok hC.sized
      obtain ⟨b, F1, k1, k2, k3, k4, k5⟩ := findNice_ok S fuel hG hC g1 g2 (show 0 < (Topo.chimera m n t).shore from hs) (show (Topo.chimera m n t).shore < size from hsize) (P := True) (fun _ _ => trivial) hF
      obtain ⟨b', F1', q1, q2, q3, q4⟩ := niceWidths_chimera S hG hC g1 g2 hs hsize (P := True) (fun _ _ => trivial) hF hone
      have hsame : findNice S fuel (.chimera m n t) C size F = niceWidths S (.chimera m n t) C size F := by
        show niceGrid S fuel (.chimera m n t) C size F = _
        unfold niceGrid
        rw [if_neg (by show ¬ size ≤ t; omega)]
      rw [hsame, q1] at k1
      cases k1
      obtain ⟨F2, i1, i2, i3, i4⟩ := ih (fun C h => hl C (List.mem_cons_of_mem _ h)) F1 k2 q2
      refine ⟨F2, ?_, i2, fun L hL => ?_, fun C' hC' lines' e1 W hfe => ?_⟩
      · rw [List.foldlM_cons]
        simp only [hsame, q1, bind, Except.bind, k5]
        exact i1
      · obtain ⟨L1, a1, a2⟩ := q3 L hL
        obtain ⟨L2, b1, b2⟩ := i3 L1 a1
        exact ⟨L2, b1, by omega⟩
      · rcases List.mem_cons.mp hC' with rfl | hC'
        · rw [g1] at e1; cases e1
          obtain ⟨L1, a1, a2⟩ := q4 W hfe
          obtain ⟨L2, b1, b2⟩ := i3 L1 a1
          exact ⟨L2, b1, by omega⟩
        · exact i4 C' hC' lines' e1 W hfe
  obtain ⟨F', f1, f2, f3, f4⟩ := key l h3 ⟨[], none⟩ ⟨⟨by simp, .nil, .nil⟩, by simp, fun _ => rfl, fun L h => (by cases h)⟩ (by simp)
  simp only [findClique, hl, bind, Except.bind] at f1 he
  rw [f1] at he
  simp only at he
  split at he
  · cases he
    obtain ⟨L, hL, hle⟩ := f4 C hC lines hlines W hfe
    intro c hc
    have := (f2.found L hL).2.2.2 c hc
    omega
  · cases he

/-- Requests of at most the size of a cell never return. -/
theorem findClique_cell (S : Sorting) (hG : WFGraph T nodes edges) {bound : Nat} (hb : 0 < bound) {D D' : Draws} (hD : D.Perm) (hD' : D'.Perm) {size : Nat} (hk : T.hasWidthOne = true) (hs : 0 < size) (hsize : size ≤ T.shore)
    (hY : 0 < T.dimY) (hX : 0 < T.dimX) :
    ∃ C l, searched T bound D D' nodes edges = .ok (C :: l) ∧
      ((∃ y x s, y < T.dimY ∧ x < T.dimX ∧ cellScore T C y x = .ok s ∧ size ≤ s) → ∀ fuel, findClique S fuel T bound D D' nodes edges size = .error .diverge) ∧
      ((¬ ∃ y x s, y < T.dimY ∧ x < T.dimX ∧ cellScore T C y x = .ok s ∧ size ≤ s) → ∀ fuel, findClique S fuel T bound D D' nodes edges size = .error .ub) := by
  obtain ⟨l, h1, h2, h3⟩ := searched_ok hG hb hD hD'
  cases l with
  | nil => exact absurd rfl h2
  | cons C l =>
    obtain ⟨N, E, hC⟩ := h3 C List.mem_cons_self
    refine ⟨C, l, h1, ?_⟩
    obtain ⟨s1, s2⟩ := findShort_ok hG hC hs (cells := T.allCells) (fun p hp => mem_allCells.mp hp)
    have hiff : (∃ p ∈ T.allCells, ∃ s, cellScore T C p.1 p.2 = .ok s ∧ size ≤ s) ↔ ∃ y x s, y < T.dimY ∧ x < T.dimX ∧ cellScore T C y x = .ok s ∧ size ≤ s := by
      constructor
      · rintro ⟨p, hp, s, a, b⟩
        exact ⟨p.1, p.2, s, (mem_allCells.mp hp).1, (mem_allCells.mp hp).2, a, b⟩
      · rintro ⟨y, x, s, a, b, c, d⟩
        exact ⟨(y, x), mem_allCells.mpr ⟨a, b⟩, s, c, d⟩
    rw [hiff] at s1 s2
    have hgrid : ∀ fuel F, findNice S fuel T C size F = niceGrid S fuel T C size F := by
      intro fuel F
      cases T with
      | chimera m n t => rfl
      | zephyr d t => rfl
      | pegasus d off => cases hk
    constructor
    · intro hex fuel
      simp only [findClique, h1, bind, Except.bind, List.foldlM_cons, hgrid, niceGrid, if_pos hsize, s1 hex fuel]
    · intro hno fuel
      obtain ⟨mem, g1, g2⟩ := C48_width_one hG hb hD hD' h1 (C := C) List.mem_cons_self (fun _ => true) hY hX
      have hmin : (size + T.shore - 1) / T.shore = 1 := by
        rw [Nat.div_eq_iff (by omega)]
        omega
      have hws : List.range' 1 (min T.dimY T.dimX + 1 - 1) = 1 :: List.range' 2 (min T.dimY T.dimX - 1) := by
        obtain ⟨n, hn⟩ : ∃ n, min T.dimY T.dimX = n + 1 := ⟨min T.dimY T.dimX - 1, by omega⟩
        rw [hn]
        rfl
      simp only [findClique, h1, bind, Except.bind, List.foldlM_cons, hgrid, niceGrid, if_pos hsize, s2 hno fuel, niceWidths, g1, hmin, maxWidth, pure, Except.pure, reduceCtorEq, if_false, hws, tryWidths, g2]

end

end Bus
end MM
