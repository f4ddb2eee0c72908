import Verif.Lay.GraphLayout
import Verif.Props.PNorm

/-! Property C81: layouts of lattices by `graph_layout`. -/

namespace MM

open Lay Spec.Layout

variable {V : Type} [DecidableEq V]

theorem Lay.foldl_min_spec (l : List Rat) : ∀ a : Rat, l.foldl min a ≤ a ∧ (∀ x ∈ l, l.foldl min a ≤ x) ∧ (l.foldl min a = a ∨ l.foldl min a ∈ l) := by
  induction l with
  | nil => exact fun a => ⟨le_refl _, by simp, .inl rfl⟩
  | cons y l ih =>
    intro a
    obtain ⟨h1, h2, h3⟩ := ih (min a y)
    rw [List.foldl_cons]
    refine ⟨h1.trans (min_le_left _ _), fun x hx => ?_, ?_⟩
    · rcases List.mem_cons.mp hx with rfl | hx
      · exact h1.trans (min_le_right _ _)
      · exact h2 x hx
    · rcases h3 with h3 | h3
      · rw [h3]
        rcases min_choice a y with h | h
        · exact .inl h
        · rw [h]; exact .inr List.mem_cons_self
      · exact .inr (List.mem_cons_of_mem _ h3)

theorem Lay.bounds_spec {nodes : List V} (hne : nodes ≠ []) (f : V → Rat) :
    ∃ lo hi, bounds (nodes.map f) = .ok (lo, hi) ∧ (∀ v ∈ nodes, lo ≤ f v ∧ f v ≤ hi) ∧ (∃ v ∈ nodes, f v = lo) ∧ ∃ v ∈ nodes, f v = hi := by
  cases nodes with
  | nil => exact absurd rfl hne
  | cons v vs =>
    obtain ⟨h1, h2, h3⟩ := foldl_min_spec (vs.map f) (f v)
    have h4 := foldl_max_ge (vs.map f) (f v)
    have h5 := foldl_max_mem (vs.map f) (f v)
    refine ⟨_, _, rfl, fun w hw => ?_, ?_, ?_⟩
    · rcases List.mem_cons.mp hw with rfl | hw
      · exact ⟨h1, h4.1⟩
      · exact ⟨h2 _ (List.mem_map_of_mem hw), h4.2 _ (List.mem_map_of_mem hw)⟩
    · rcases h3 with h | h
      · exact ⟨v, List.mem_cons_self, h.symm⟩
      · obtain ⟨w, hw, e⟩ := List.mem_map.mp h
        exact ⟨w, List.mem_cons_of_mem _ hw, e⟩
    · rcases h5 with h | h
      · exact ⟨v, List.mem_cons_self, h.symm⟩
      · obtain ⟨w, hw, e⟩ := List.mem_map.mp h
        exact ⟨w, List.mem_cons_of_mem _ hw, e⟩

theorem Lay.lookup_zip_map {nodes : List V} (g : V → Pt) {v : V} (hv : v ∈ nodes) : (nodes.zip (nodes.map g)).lookup v = some (g v) := by
  induction nodes with
  | nil => cases hv
  | cons w nodes ih =>
    rw [List.map_cons, List.zip_cons_cons, List.lookup_cons]
    by_cases h : v = w
    · rw [h, beq_self_eq_true]
    · rw [beq_eq_false_iff_ne.mpr h]
      exact ih ((List.mem_cons.mp hv).resolve_left h)

theorem Lay.mapM_map_ok {α β : Type} {l : List α} {f : α → Except Err β} {g : α → β} (h : ∀ a ∈ l, f a = .ok (g a)) : l.mapM f = .ok (l.map g) := by
  induction l with
  | nil => rfl
  | cons a l ih =>
    rw [List.mapM_cons, h a List.mem_cons_self, ih fun b hb => h b (List.mem_cons_of_mem _ hb)]
    rfl

/-- A layout made of points for all nodes, as they are. -/
theorem Lay.make_plain {verts nodes : List V} (hn : verts.Nodup) (hne : verts ≠ []) (hmem : ∀ v ∈ verts, v ∈ nodes) {g : V → Pt} {D : Nat} (hD : D ≠ 0)
    (hg : ∀ v ∈ verts, (g v).length = D) : ∃ L, make verts (nodes.zip (nodes.map g)) none none none = .ok L ∧ L.dict = verts.map fun v => (v, g v) := by
  have hr : Rows D (verts.map g) := by
    intro q hq
    obtain ⟨v, hv, rfl⟩ := List.mem_map.mp hq
    exact hg v hv
  have hnp : verts.map g ≠ [] := by simpa using hne
  obtain ⟨L, new, k, e, sh, -, -, mv, -, k1⟩ := C72_partial hn hne (d := D) (D := D) (Nat.pos_of_ne_zero hD) (old := g) (pad := g)
    (fun v hv => ⟨lookup_zip_map g (hmem v hv), hg v hv⟩)
    (fun v hv => ⟨hg v hv, fun i hi => by rw [List.getElem?_eq_getElem (by rw [hg v hv]; exact hi)]; rfl⟩) (dim := none) (.inl ⟨.inl rfl, rfl⟩)
    (isCentre_centerOf hr hnp) (isScale_scaleOf hr hnp hD) (center := none) (.inl ⟨.inl rfl, rfl⟩) (scale := none) (.inl ⟨.inl rfl, rfl⟩)
  refine ⟨L, e, ?_⟩
  rw [sh.2.1]
  refine List.map_congr_left fun v hv => ?_
  have h := mv v hv
  rw [k1 rfl] at h
  rw [moved_one h ((hg v hv).trans (centerOf_length hr hnp).symm)]

/-- What the function returns for points with coordinates `X` and `Y`. -/
theorem Lay.graphLayout_eq {draw : Int → Pt → Rat → V → Pt} {verts nodes : List V} (hn : verts.Nodup) (hne : verts ≠ []) (hmem : ∀ v, v ∈ verts ↔ v ∈ nodes)
    (rows columns : Nat) {dim : Option Int} {center : Option Pt} {d : Int} {c0 c1 : Rat} {cs : Pt} (hdc : dimAndCenter dim center = .ok (d, c0 :: c1 :: cs))
    {scale : Option Rat} {s : Rat} (hs : scale = some s ∨ scale = none ∧ s = (max columns rows : Nat) / 2) {X Y : V → Rat}
    (hdraw : ∀ v ∈ nodes, draw d ((c0 - s) :: (c1 + s) :: cs) (2 * s) v = X v :: Y v :: cs) :
    ∃ x0 x1 y0 y1, ((∀ v ∈ nodes, x0 ≤ X v ∧ X v ≤ x1) ∧ (∃ v ∈ nodes, X v = x0) ∧ ∃ v ∈ nodes, X v = x1) ∧
      ((∀ v ∈ nodes, y0 ≤ Y v ∧ Y v ≤ y1) ∧ (∃ v ∈ nodes, Y v = y0) ∧ ∃ v ∈ nodes, Y v = y1) ∧
      ((x0 = c0 - s ∧ x1 = c0 + s ∧ y0 = c1 - s ∧ y1 = c1 + s ∧
          graphLayout draw verts nodes true rows columns dim center scale = .ok (verts.map fun v => (v, X v :: Y v :: cs))) ∨
        (x0 = x1 ∨ y0 = y1) ∧ graphLayout draw verts nodes true rows columns dim center scale = .error .nan ∨
        x0 < x1 ∧ y0 < y1 ∧ graphLayout draw verts nodes true rows columns dim center scale =
          .ok (verts.map fun v => (v, ((X v - x0) * (2 * s / (x1 - x0)) + (c0 - s)) :: ((Y v - y1) * (2 * s / (y1 - y0)) + (c1 + s)) :: cs))) := by
  have hnn : nodes ≠ [] := by
    obtain ⟨v, hv⟩ := List.exists_mem_of_ne_nil _ hne
    exact List.ne_nil_of_mem ((hmem v).mp hv)
  obtain ⟨lx, hx, ex, bx, ⟨vx, mx, qx⟩, wx, nx, rx⟩ := bounds_spec hnn fun v => X v - (c0 - s)
  obtain ⟨ly, hy, ey, b_y, ⟨vy, my, qy⟩, wy, ny, ry⟩ := bounds_spec hnn fun v => Y v - (c1 + s)
  have harr : (nodes.mapM fun v => firstTwo ((c0 - s) :: (c1 + s) :: cs) (draw d ((c0 - s) :: (c1 + s) :: cs) (2 * s) v)) =
      .ok (nodes.map fun v => (X v - (c0 - s), Y v - (c1 + s))) := mapM_map_ok fun v hv => by rw [hdraw v hv]; rfl
  have hsc : defaultScale rows columns scale = s := by
    rcases hs with h | ⟨h, h'⟩
    · rw [h]; rfl
    · rw [h, h']; rfl
  have hrun : graphLayout draw verts nodes true rows columns dim center scale =
      (do
        let pts ← (if lx ≠ 0 ∨ hx ≠ 2 * s ∨ ly ≠ -(2 * s) ∨ hy ≠ 0 then
            fitBox ((c0 - s) :: (c1 + s) :: cs) (2 * s) (lx, hx) (ly, hy) (nodes.map fun v => (X v - (c0 - s), Y v - (c1 + s)))
          else .ok (nodes.map (draw d ((c0 - s) :: (c1 + s) :: cs) (2 * s))) : Except Err (List Pt))
        let L ← make verts (nodes.zip pts) none none none
        .ok L.dict) := by
    unfold graphLayout
    rw [if_neg (by simp), hdc]
    simp only [bind, Except.bind]
    rw [hsc]
    simp only [topLeft]
    rw [harr]
    simp only [List.map_map, Function.comp_def]
    rw [ex]
    simp only
    rw [ey]
  have hlen : ∀ {g : V → Pt}, (∀ v ∈ nodes, (g v).length = cs.length + 2) →
      ∃ L, make verts (nodes.zip (nodes.map g)) none none none = .ok L ∧ L.dict = verts.map fun v => (v, g v) := fun {g} hg =>
    make_plain hn hne (fun v hv => (hmem v).mp hv) (D := cs.length + 2) (by omega) fun v hv => hg v ((hmem v).mp hv)
  refine ⟨lx + (c0 - s), hx + (c0 - s), ly + (c1 + s), hy + (c1 + s), ⟨fun v hv => ?_, ⟨vx, mx, by rw [← qx]; ring⟩, wx, nx, by rw [← rx]; ring⟩,
    ⟨fun v hv => ?_, ⟨vy, my, by rw [← qy]; ring⟩, wy, ny, by rw [← ry]; ring⟩, ?_⟩
  · have := bx v hv
    constructor <;> linarith [this.1, this.2]
  · have := b_y v hv
    constructor <;> linarith [this.1, this.2]
  rw [hrun]
  by_cases hfit : lx ≠ 0 ∨ hx ≠ 2 * s ∨ ly ≠ -(2 * s) ∨ hy ≠ 0
  · rw [if_pos hfit]
    by_cases hz : hx - lx = 0 ∨ hy - ly = 0
    · refine .inr (.inl ⟨hz.imp (fun h => by linarith) (fun h => by linarith), ?_⟩)
      unfold fitBox
      dsimp only
      rw [if_pos hz]
      rfl
    · rw [not_or] at hz
      have lex : lx ≤ hx := by have := bx vx mx; rw [qx] at this; exact this.2
      have ley : ly ≤ hy := by have := b_y vy my; rw [qy] at this; exact this.2
      refine .inr (.inr ⟨?_, ?_, ?_⟩)
      · have : lx ≠ hx := fun h => hz.1 (by rw [h]; ring)
        linarith [lt_of_le_of_ne lex this]
      · have : ly ≠ hy := fun h => hz.2 (by rw [h]; ring)
        linarith [lt_of_le_of_ne ley this]
      · unfold fitBox
        dsimp only
        rw [if_neg (by rw [not_or]; exact hz)]
        simp only [List.map_map, Function.comp_def]
        obtain ⟨L, e1, e2⟩ := hlen (g := fun v => ((X v - (c0 - s) - lx) * (2 * s / (hx - lx)) + (c0 - s)) :: ((Y v - (c1 + s) - hy) * (2 * s / (hy - ly)) + (c1 + s)) :: cs)
          (fun v _ => rfl)
        simp only [bind, Except.bind]
        rw [e1]
        simp only
        rw [e2]
        congr 1
        refine List.map_congr_left fun v _ => ?_
        rw [add_sub_add_right_eq_sub, add_sub_add_right_eq_sub, sub_sub (X v), sub_sub (Y v), add_comm (c0 - s) lx, add_comm (c1 + s) hy]
  · rw [if_neg hfit]
    simp only [not_or, not_not] at hfit
    obtain ⟨f1, f2, f3, f4⟩ := hfit
    refine .inl ⟨by rw [f1]; ring, by rw [f2]; ring, by rw [f3]; ring, by rw [f4]; ring, ?_⟩
    obtain ⟨L, e1, e2⟩ := hlen (g := fun v => X v :: Y v :: cs) (fun v _ => rfl)
    have : nodes.map (draw d ((c0 - s) :: (c1 + s) :: cs) (2 * s)) = nodes.map fun v => X v :: Y v :: cs := List.map_congr_left hdraw
    simp only [bind, Except.bind]
    rw [this, e1]
    simp only
    rw [e2]

/-- For a lattice drawn in at least two dimensions, a positive scale (by default half the larger of the numbers of rows and columns), and a drawing in which not all nodes have the same first and not all the
same second coordinate, and the further coordinates are those of the centre: the layout fills the square of the scale around the centre, its further coordinates are those of
the centre, and it is the drawing moved and stretched along the two axes. -/
theorem C81_partial {draw : Int → Pt → Rat → V → Pt} {verts nodes : List V} (hn : verts.Nodup) (hne : verts ≠ []) (hmem : ∀ v, v ∈ verts ↔ v ∈ nodes)
    (rows columns : Nat) {dim : Option Int} {center : Option Pt} {d : Int} {c0 c1 : Rat} {cs : Pt} (hdc : dimAndCenter dim center = .ok (d, c0 :: c1 :: cs))
    {scale : Option Rat} {s : Rat} (hs : scale = some s ∨ scale = none ∧ s = (max columns rows : Nat) / 2) (hpos : 0 < s) {X Y : V → Rat}
    (hdraw : ∀ v ∈ nodes, draw d ((c0 - s) :: (c1 + s) :: cs) (2 * s) v = X v :: Y v :: cs) (hX : ∃ u ∈ nodes, ∃ v ∈ nodes, X u ≠ X v)
    (hY : ∃ u ∈ nodes, ∃ v ∈ nodes, Y u ≠ Y v) :
    ∃ px py : V → Rat, graphLayout draw verts nodes true rows columns dim center scale = .ok (verts.map fun v => (v, px v :: py v :: cs)) ∧
      Fills (verts.map fun v => px v :: py v :: cs) 0 (c0 - s) (c0 + s) ∧ Fills (verts.map fun v => px v :: py v :: cs) 1 (c1 - s) (c1 + s) ∧
      ∃ a b : Rat, 0 < a ∧ 0 < b ∧ ∀ u ∈ verts, ∀ v ∈ verts, px u - px v = a * (X u - X v) ∧ py u - py v = b * (Y u - Y v) := by
  obtain ⟨x0, x1, y0, y1, ⟨hx, ⟨vx, mx, qx⟩, wx, nx, rx⟩, ⟨hy, ⟨vy, my, qy⟩, wy, ny, ry⟩, h⟩ := graphLayout_eq hn hne hmem rows columns hdc hs hdraw
  rcases h with ⟨e0, e1, e2, e3, e⟩ | ⟨hz, -⟩ | ⟨lx, ly, e⟩
  · subst e0 e1 e2 e3
    refine ⟨X, Y, e, ⟨fun p hp => ?_, ⟨_, List.mem_map_of_mem ((hmem vx).mpr mx), by rw [← qx]; rfl⟩, _, List.mem_map_of_mem ((hmem wx).mpr nx), by rw [← rx]; rfl⟩,
      ⟨fun p hp => ?_, ⟨_, List.mem_map_of_mem ((hmem vy).mpr my), by rw [← qy]; rfl⟩, _, List.mem_map_of_mem ((hmem wy).mpr ny), by rw [← ry]; rfl⟩,
      1, 1, one_pos, one_pos, fun u _ v _ => by constructor <;> ring⟩
    · obtain ⟨v, hv, rfl⟩ := List.mem_map.mp hp
      exact ⟨X v, rfl, hx v ((hmem v).mp hv)⟩
    · obtain ⟨v, hv, rfl⟩ := List.mem_map.mp hp
      exact ⟨Y v, rfl, hy v ((hmem v).mp hv)⟩
  · exfalso
    rcases hz with hz | hz
    · obtain ⟨u, hu, v, hv, hne'⟩ := hX
      have h1 := hx u hu
      have h2 := hx v hv
      exact hne' (by linarith [h1.1, h1.2, h2.1, h2.2])
    · obtain ⟨u, hu, v, hv, hne'⟩ := hY
      have h1 := hy u hu
      have h2 := hy v hv
      exact hne' (by linarith [h1.1, h1.2, h2.1, h2.2])
  · have dx : 0 < x1 - x0 := sub_pos.mpr lx
    have dy : 0 < y1 - y0 := sub_pos.mpr ly
    have ax : 0 < 2 * s / (x1 - x0) := div_pos (by linarith) dx
    have ay : 0 < 2 * s / (y1 - y0) := div_pos (by linarith) dy
    have fx : (x1 - x0) * (2 * s / (x1 - x0)) = 2 * s := mul_div_cancel₀ _ dx.ne'
    have fy : (y0 - y1) * (2 * s / (y1 - y0)) = -(2 * s) := by
      have : (y1 - y0) * (2 * s / (y1 - y0)) = 2 * s := mul_div_cancel₀ _ dy.ne'
      linarith
    refine ⟨_, _, e, ⟨fun p hp => ?_, ⟨_, List.mem_map_of_mem ((hmem vx).mpr mx), ?_⟩, _, List.mem_map_of_mem ((hmem wx).mpr nx), ?_⟩,
      ⟨fun p hp => ?_, ⟨_, List.mem_map_of_mem ((hmem vy).mpr my), ?_⟩, _, List.mem_map_of_mem ((hmem wy).mpr ny), ?_⟩,
      2 * s / (x1 - x0), 2 * s / (y1 - y0), ax, ay, fun u _ v _ => by constructor <;> ring⟩
    · obtain ⟨v, hv, rfl⟩ := List.mem_map.mp hp
      have := hx v ((hmem v).mp hv)
      refine ⟨_, rfl, ?_, ?_⟩
      · have := mul_nonneg (sub_nonneg.mpr this.1) ax.le
        linarith
      · have := mul_le_mul_of_nonneg_right (sub_le_sub_right this.2 x0) ax.le
        rw [fx] at this
        linarith
    · show some _ = some _
      rw [qx, sub_self, zero_mul, zero_add]
    · show some _ = some _
      rw [rx, fx]
      congr 1; ring
    · obtain ⟨v, hv, rfl⟩ := List.mem_map.mp hp
      have := hy v ((hmem v).mp hv)
      refine ⟨_, rfl, ?_, ?_⟩
      · have := mul_le_mul_of_nonneg_right (sub_le_sub_right this.1 y1) ay.le
        rw [fy] at this
        linarith
      · have := mul_nonneg (sub_nonneg.mpr this.2) ay.le
        linarith
    · show some _ = some _
      rw [qy, fy]
      congr 1; ring
    · show some _ = some _
      rw [ry, sub_self, zero_mul, zero_add]

/-- Where all nodes have the same first or the same second coordinate in the drawing, as in a graph of one node, the result is `nan`, whatever the drawing, if the scale is positive. -/
theorem C81_nan {draw : Int → Pt → Rat → V → Pt} {verts nodes : List V} (hn : verts.Nodup) (hne : verts ≠ []) (hmem : ∀ v, v ∈ verts ↔ v ∈ nodes)
    (rows columns : Nat) {dim : Option Int} {center : Option Pt} {d : Int} {c0 c1 : Rat} {cs : Pt} (hdc : dimAndCenter dim center = .ok (d, c0 :: c1 :: cs))
    {scale : Option Rat} {s : Rat} (hs : scale = some s ∨ scale = none ∧ s = (max columns rows : Nat) / 2) (hpos : 0 < s) {X Y : V → Rat}
    (hdraw : ∀ v ∈ nodes, draw d ((c0 - s) :: (c1 + s) :: cs) (2 * s) v = X v :: Y v :: cs)
    (hflat : (∀ u ∈ nodes, ∀ v ∈ nodes, X u = X v) ∨ ∀ u ∈ nodes, ∀ v ∈ nodes, Y u = Y v) :
    graphLayout draw verts nodes true rows columns dim center scale = .error .nan := by
  obtain ⟨x0, x1, y0, y1, ⟨hx, ⟨vx, mx, qx⟩, wx, nx, rx⟩, ⟨hy, ⟨vy, my, qy⟩, wy, ny, ry⟩, h⟩ := graphLayout_eq hn hne hmem rows columns hdc hs hdraw
  have heq : x0 = x1 ∨ y0 = y1 := hflat.imp (fun h => by rw [← qx, ← rx]; exact h _ mx _ nx) fun h => by rw [← qy, ← ry]; exact h _ my _ ny
  rcases h with ⟨e0, e1, e2, e3, -⟩ | ⟨-, e⟩ | ⟨lx, ly, -⟩
  · exfalso
    rcases heq with h | h <;> linarith
  · exact e
  · exfalso
    rcases heq with h | h <;> linarith

/-- A layout in one dimension is an `IndexError`. -/
theorem C81_one_dim (draw : Int → Pt → Rat → V → Pt) (verts nodes : List V) (rows columns : Nat) {dim : Option Int} {center : Option Pt} {d : Int} {c : Rat}
    (hdc : dimAndCenter dim center = .ok (d, [c])) (scale : Option Rat) : graphLayout draw verts nodes true rows columns dim center scale = .error .index := by
  unfold graphLayout
  rw [if_neg (by simp), hdc]
  rfl

/-- Other graphs are a `ValueError`. -/
theorem C81_unknown (draw : Int → Pt → Rat → V → Pt) (verts nodes : List V) (rows columns : Nat) (dim : Option Int) (center : Option Pt) (scale : Option Rat) :
    graphLayout draw verts nodes false rows columns dim center scale = .error .value := rfl

/-- Three nodes drawn in a corner of the square. -/
def Demo.corner (_d : Int) (c : Pt) (_s : Rat) (v : Nat) : Pt :=
  match c with
  | x :: y :: rest => (x + if v = 1 then 1 else 0) :: (y - if v = 2 then 1/2 else 0) :: rest
  | _ => []

example : graphLayout Demo.corner [0, 1, 2] [2, 1, 0] true 1 4 none (some [1, 1, 5]) none = .ok [(0, [-1, 3, 5]), (1, [3, 3, 5]), (2, [-1, -1, 5])] ∧
    dimAndCenter none (some [1, 1, 5]) = .ok (3, [1, 1, 5]) ∧
    (∀ v ∈ [2, 1, 0], Demo.corner 3 [1 - 2, 1 + 2, 5] 4 v = (-1 + if v = 1 then 1 else 0) :: (3 - if v = 2 then 1/2 else 0) :: [5]) := by
  refine ⟨ok_of_toOption (by decide +kernel), rfl, by decide +kernel⟩

/-- One node. -/
example : (graphLayout Demo.corner [0] [0] true 1 1 none none none).toOption = none ∧ dimAndCenter (some 1) none = .ok (1, [0]) := ⟨by decide +kernel, rfl⟩

end MM
