import Verif.Lay.LayoutInv

/-! Property C72: dimension, centre and scale of layouts. -/

namespace MM

open Lay Spec.Layout

variable {V : Type} [DecidableEq V]

/-- Layouts of nodes `verts` with the given points. -/
def Lay.Shows (L : Layout V) (verts : List V) (pt : V → Pt) : Prop :=
  L.verts = verts ∧ L.dict = verts.map (fun v => (v, pt v)) ∧ L.array = verts.map pt

theorem Lay.zip_map {α β : Type} (l : List α) (f : α → β) : l.zip (l.map f) = l.map fun a => (a, f a) := by
  induction l with
  | nil => rfl
  | cons a l ih => rw [List.map_cons, List.zip_cons_cons, ih, List.map_cons]

/-- For a non-empty graph with a point of `d` coordinates for each node, a dimension that is not smaller, a centre of that
dimension, and a scale if the points are not all the same: the keys of the layout are the nodes; the new points are the old ones
with zeros added, stretched by one factor `k` around the old centre `c0`, which is moved to `c`; they have centre `c` and scale
`|s|`. Here `c`, `s` are the given values, or the old ones where none were given or they were empty or zero. -/
theorem C72_partial {verts : List V} (hn : verts.Nodup) (hne : verts ≠ []) {pos : List (V × Pt)} {d D : Nat} (h0 : 0 < d) {old pad : V → Pt}
    (hold : ∀ v ∈ verts, pos.lookup v = some (old v) ∧ (old v).length = d) (hpad : ∀ v ∈ verts, Padded D (old v) (pad v))
    {dim : Option Int} (hdim : (dim = none ∨ dim = some 0) ∧ D = d ∨ dim = some (D : Int) ∧ d ≤ D)
    {c0 : Pt} {s0 : Rat} (hc0 : IsCentre (verts.map pad) c0) (hs0 : IsScale (verts.map pad) c0 s0)
    {center : Option Pt} {c : Pt} (hcenter : (center = none ∨ center = some []) ∧ c = c0 ∨ center = some c ∧ c.length = D)
    {scale : Option Rat} {s : Rat} (hscale : (scale = none ∨ scale = some 0) ∧ s = s0 ∨ scale = some s ∧ s ≠ 0 ∧ s0 ≠ 0) :
    ∃ L new k, make verts pos dim center scale = .ok L ∧ Shows L verts new ∧ IsCentre (verts.map new) c ∧ IsScale (verts.map new) c |s| ∧
      (∀ v ∈ verts, Moved c0 c k (pad v) (new v)) ∧ s = k * s0 ∧ (s = s0 → k = 1) := by
  have hle : d ≤ D := by
    rcases hdim with ⟨_, e⟩ | ⟨_, e⟩
    · exact e ▸ Nat.le_refl _
    · exact e
  have hD : D ≠ 0 := by omega
  have hne' : verts.map old ≠ [] := by simpa using hne
  have hr : Rows d (verts.map old) := by
    intro q hq
    obtain ⟨v, hv, rfl⟩ := List.mem_map.mp hq
    exact (hold v hv).2
  obtain ⟨L, g, hv, ha, hd, he⟩ := make_eq hn (forall₂_map fun v hv => (hold v hv).1) hr hne' hdim hD center scale
  have hpads : L.array = verts.map pad := by
    rw [ha, List.map_map]
    exact List.map_congr_left fun v hv => (padded_eq (hold v hv).2 hle (hpad v hv)).symm
  have hneL : L.array ≠ [] := by rw [hpads]; simpa using hne
  have ec : centerOf L.array = c0 := isCentre_unique hneL (isCentre_centerOf g.rows hneL) (hpads ▸ hc0)
  have es : scaleOf L.array = s0 := isScale_unique (isScale_scaleOf g.rows hneL hD) (ec ▸ hpads ▸ hs0)
  obtain ⟨L', f, k, e', g', v', a', d', m', k1, k2⟩ := finish_ok g hD hneL hd (center := center) (c := c) (ec ▸ hcenter) (scale := scale) (s := s) (es ▸ hscale)
  rw [ec, hpads] at m'
  rw [es] at k1 k2
  have hnew : L'.array = verts.map fun v => f (pad v) := by rw [a', hpads, List.map_map]; rfl
  have hcl : c.length = c0.length := by
    rcases hcenter with ⟨_, e⟩ | ⟨_, e⟩
    · rw [e]
    · rw [e, ← ec]; exact (centerOf_length g.rows hneL).symm
  have hs' : IsScale (verts.map fun v => f (pad v)) c (|k| * s0) := by
    have := isScale_moved hc0.1 hs0 hcl m'
    rwa [List.map_map] at this
  have habs : |k| * s0 = |s| := by
    rw [k1, abs_mul, abs_of_nonneg (a := s0)]
    obtain ⟨_, p, hp, i, x, y, _, _, e⟩ := hs0
    exact e ▸ abs_nonneg _
  refine ⟨L', fun v => f (pad v), k, he.trans e', ⟨v'.trans hv, ?_, hnew⟩, ?_, habs ▸ hs', fun v hv => m' _ (List.mem_map_of_mem hv), k1, k2⟩
  · rw [d', v', hv, hnew, zip_map]
  · have := isCentre_moved hc0 hcl m'
    rwa [List.map_map] at this

/-- Setting the scale of a layout of points that are not all the same keeps the centre. -/
theorem C72_set_scale {L : Layout V} {verts : List V} {pt : V → Pt} (hL : Shows L verts pt) (hn : verts.Nodup) (hne : verts ≠ []) {c : Pt} {s0 : Rat}
    (hc : IsCentre (verts.map pt) c) (hs : IsScale (verts.map pt) c s0) (h0 : s0 ≠ 0) {s : Rat} (hs0 : s ≠ 0) :
    ∃ L' new, L.setScale s = .ok L' ∧ Shows L' verts new ∧ IsCentre (verts.map new) c ∧ IsScale (verts.map new) c |s| ∧
      ∀ v ∈ verts, Moved c c (s / s0) (pt v) (new v) := by
  obtain ⟨rfl, hdict, harr⟩ := hL
  have hneL : L.array ≠ [] := by rw [harr]; simpa using hne
  have hrows : Rows c.length L.array := fun p hp => hc.1 p (harr ▸ hp)
  have g : Good c.length L := ⟨hn, by rw [harr, List.length_map], hrows⟩
  have hD : c.length ≠ 0 := by
    obtain ⟨_, p, _, i, x, y, _, hy, _⟩ := hs
    intro e
    rw [List.length_eq_zero_iff.mp e] at hy
    cases hy
  have ec : centerOf L.array = c := isCentre_unique hneL (isCentre_centerOf hrows hneL) (harr ▸ hc)
  have es : scaleOf L.array = s0 := isScale_unique (isScale_scaleOf hrows hneL hD) (ec ▸ harr ▸ hs)
  obtain ⟨L', f, e, g', v', a', d', m'⟩ := setScale_ok g hs0 (es ▸ h0) hneL
  rw [ec, es, harr] at m'
  have hnew : L'.array = L.verts.map fun v => f (pt v) := by rw [a', harr, List.map_map]; rfl
  have habs : |s / s0| * s0 = |s| := by
    have : 0 ≤ s0 := by
      obtain ⟨_, p, hp, i, x, y, _, _, e⟩ := hs
      exact e ▸ abs_nonneg _
    rw [abs_div, abs_of_nonneg this, div_mul_cancel₀ _ h0]
  refine ⟨L', fun v => f (pt v), e, ⟨v', ?_, hnew⟩, ?_, ?_, fun v hv => m' _ (List.mem_map_of_mem hv)⟩
  · rw [d', v', hnew, zip_map]
  · have := isCentre_moved hc rfl m'
    rwa [List.map_map] at this
  · have := isScale_moved hc.1 hs rfl m'
    rwa [List.map_map, habs] at this

/-- Setting the centre of a layout keeps the scale. -/
theorem C72_set_center {L : Layout V} {verts : List V} {pt : V → Pt} (hL : Shows L verts pt) (hn : verts.Nodup) (hne : verts ≠ []) {c c' : Pt} {s0 : Rat}
    (hc : IsCentre (verts.map pt) c) (hs : IsScale (verts.map pt) c s0) (hl : c'.length = c.length) :
    ∃ L' new, L.setCenter c' = .ok L' ∧ Shows L' verts new ∧ IsCentre (verts.map new) c' ∧ IsScale (verts.map new) c' s0 ∧
      ∀ v ∈ verts, Moved c c' 1 (pt v) (new v) := by
  obtain ⟨rfl, hdict, harr⟩ := hL
  have hneL : L.array ≠ [] := by rw [harr]; simpa using hne
  have hrows : Rows c.length L.array := fun p hp => hc.1 p (harr ▸ hp)
  have g : Good c.length L := ⟨hn, by rw [harr, List.length_map], hrows⟩
  have hD : c.length ≠ 0 := by
    obtain ⟨_, p, _, i, x, y, _, hy, _⟩ := hs
    intro e
    rw [List.length_eq_zero_iff.mp e] at hy
    cases hy
  have ec : centerOf L.array = c := isCentre_unique hneL (isCentre_centerOf hrows hneL) (harr ▸ hc)
  obtain ⟨L', f, e, g', v', a', d', m'⟩ := setCenter_ok g hD hl hneL
  rw [ec, harr] at m'
  have hnew : L'.array = L.verts.map fun v => f (pt v) := by rw [a', harr, List.map_map]; rfl
  refine ⟨L', fun v => f (pt v), e, ⟨v', ?_, hnew⟩, ?_, ?_, fun v hv => m' _ (List.mem_map_of_mem hv)⟩
  · rw [d', v', hnew, zip_map]
  · have := isCentre_moved hc hl m'
    rwa [List.map_map] at this
  · have := isScale_moved hc.1 hs hl m'
    rwa [List.map_map, abs_one, one_mul] at this

/-- A node without a point is a `KeyError`. -/
theorem C72_missing {verts : List V} {pos : List (V × Pt)} {v : V} (hv : v ∈ verts) (h : ∀ p ∈ pos, p.1 ≠ v) (dim : Option Int)
    (center : Option Pt) (scale : Option Rat) : make verts pos dim center scale = .error .key := by
  have hget : item pos v = .error .key := by
    unfold item
    rw [List.lookup_eq_none_iff.mpr fun p hp => bne_iff_ne.mpr (Ne.symm (h p hp))]
  have hmap : verts.mapM (item pos) = .error .key := by
    induction verts with
    | nil => cases hv
    | cons w ws ih =>
      rw [List.mapM_cons]
      cases hw : item pos w with
      | error e =>
        have : e = .key := by
          unfold item at hw
          cases hl : pos.lookup w with
          | none => rw [hl] at hw; cases hw; rfl
          | some p => rw [hl] at hw; cases hw
        rw [this]; rfl
      | ok p =>
        rcases List.mem_cons.mp hv with rfl | hv
        · rw [hw] at hget; cases hget
        · rw [ih hv]; rfl
  unfold make setLayout
  rw [hmap]; rfl

/-- A dimension that is too small is a `ValueError`. -/
theorem C72_small_dim {verts : List V} (hne : verts ≠ []) {pos : List (V × Pt)} {d : Nat} {old : V → Pt}
    (hold : ∀ v ∈ verts, pos.lookup v = some (old v) ∧ (old v).length = d) {e : Int} (he : e < d) (h0 : e ≠ 0)
    (center : Option Pt) (scale : Option Rat) : make verts pos (some e) center scale = .error .value := by
  have hr : Rows d (verts.map old) := by
    intro q hq
    obtain ⟨v, hv, rfl⟩ := List.mem_map.mp hq
    exact (hold v hv).2
  unfold make
  rw [setLayout_ok (forall₂_map fun v hv => (hold v hv).1) hr]
  show (do
    let L ← (⟨verts, pos, verts.map old⟩ : Layout V).setDim (orElse (some e) ((dimOf (verts.map old) : Nat) : Int))
    L.specs center scale) = _
  have ho : orElse (some e) ((dimOf (verts.map old) : Nat) : Int) = e := by unfold orElse; exact if_neg h0
  rw [ho]
  unfold Layout.setDim dimensionLayout
  rw [if_neg h0, if_pos]
  · rfl
  · show e < dimOf (verts.map old)
    rw [dimOf_rows hr (by simpa using hne)]; exact he

/-- If all nodes have the same point and a scale is given, the coordinates become `nan`: no scale but zero is possible, and no
exception is raised. -/
theorem C72_nan {verts : List V} (hn : verts.Nodup) (hne : verts ≠ []) {pos : List (V × Pt)} {p : Pt} (hp : p ≠ [])
    (hold : ∀ v ∈ verts, pos.lookup v = some p) {s : Rat} (hs : s ≠ 0) (center : Option Pt) :
    make verts pos none center (some s) = .error .nan := by
  have hr : Rows p.length (verts.map fun _ => p) := by
    intro q hq
    obtain ⟨v, hv, rfl⟩ := List.mem_map.mp hq
    rfl
  have hD : p.length ≠ 0 := by simpa using hp
  have hne' : (verts.map fun _ => p) ≠ [] := by simpa using hne
  obtain ⟨L, g, hv, ha, hd, he⟩ := make_eq hn (forall₂_map hold) hr hne' (dim := none) (.inl ⟨.inl rfl, rfl⟩) hD center (some s)
  have ha' : L.array = verts.map fun _ => p := by
    rw [ha, List.map_map]
    exact List.map_congr_left fun v hv => by simp
  have hneL : L.array ≠ [] := by rw [ha']; exact hne'
  have h0 : scaleOf L.array = 0 := by
    have h1 := isScale_scaleOf g.rows hneL hD
    have hc : IsCentre L.array p := by
      rw [ha']
      refine ⟨fun q hq => ?_, fun i y hy => ⟨y, y, by ring, ?_, ?_, ?_⟩⟩
      · obtain ⟨v, hv, rfl⟩ := List.mem_map.mp hq; rfl
      all_goals
        obtain ⟨v, hv⟩ := List.exists_mem_of_ne_nil verts hne
      · exact ⟨p, List.mem_map.mpr ⟨v, hv, rfl⟩, hy⟩
      · exact ⟨p, List.mem_map.mpr ⟨v, hv, rfl⟩, hy⟩
      · intro q hq x hx
        obtain ⟨w, hw, rfl⟩ := List.mem_map.mp hq
        have : x = y := Option.some.inj (hx.symm.trans hy)
        rw [this]; exact ⟨le_refl y, le_refl y⟩
    rw [isCentre_unique hneL (isCentre_centerOf g.rows hneL) hc] at h1
    obtain ⟨_, q, hq, i, x, y, hx, hy, e⟩ := h1
    rw [ha'] at hq
    obtain ⟨w, hw, rfl⟩ := List.mem_map.mp hq
    have : x = y := Option.some.inj (hx.symm.trans hy)
    rw [← e, this, sub_self, abs_zero]
  rw [he]
  unfold Layout.specs
  have ho : orElse (some s) (scaleOf L.array) = s := by unfold orElse; exact if_neg hs
  rw [ho]
  unfold Layout.setScale scaleLayout
  rw [if_neg hs, if_pos h0, if_neg (by rw [dimOf_rows g.rows hneL]; exact hD)]
  rfl

/-- Empty graphs: a scale is a `ZeroDivisionError`, a centre of more than one coordinate a `ValueError`, and foreign keys stay. -/
theorem C72_empty : make ([] : List Nat) [] none none (some 1) = .error .zeroDivision ∧
    make ([] : List Nat) [] none (some [0, 0]) none = .error .value ∧
    make ([] : List Nat) [(7, [1, 1])] none none none = .ok ⟨[], [(7, [1, 1])], []⟩ := by
  decide +kernel

/-! Non-vacuity: three points, one foreign key, a third coordinate, a new centre and scale. -/

example : (make [0, 1, 2] [(2, [4, 1]), (9, [7, 7]), (0, [0, 0]), (1, [2, 2])] (some 3) (some [1, 1, 1]) (some 4)).toOption.map Layout.dict =
    some [(0, [-3, -1, 1]), (1, [1, 3, 1]), (2, [5, 1, 1])] := by decide +kernel

def Demo.cloud : Nat → Pt := fun v => if v = 0 then [0, 0] else if v = 1 then [2, 2] else [4, 1]

def Demo.cloud3 : Nat → Pt := fun v => Demo.cloud v ++ [0]

theorem Demo.cloud_rows : Rows 3 ([0, 1, 2].map Demo.cloud3) := by
  intro r hr
  obtain ⟨v, hv, rfl⟩ := List.mem_map.mp hr
  unfold Demo.cloud3 Demo.cloud
  split
  · rfl
  · split <;> rfl

example : ∃ L new k, make [0, 1, 2] [(2, [4, 1]), (9, [7, 7]), (0, [0, 0]), (1, [2, 2])] (some 3) (some [1, 1, 1]) (some 4) = .ok L ∧
    Shows L [0, 1, 2] new ∧ IsCentre ([0, 1, 2].map new) [1, 1, 1] ∧ IsScale ([0, 1, 2].map new) [1, 1, 1] |4| ∧
    (∀ v ∈ [0, 1, 2], Moved [2, 1, 0] [1, 1, 1] k (Demo.cloud3 v) (new v)) ∧ (4 : Rat) = k * 2 ∧ ((4 : Rat) = 2 → k = 1) := by
  have ec : centerOf ([0, 1, 2].map Demo.cloud3) = [2, 1, 0] := by decide +kernel
  have es : scaleOf ([0, 1, 2].map Demo.cloud3) = 2 := by decide +kernel
  refine C72_partial (by decide) (by decide) (d := 2) (D := 3) (by decide) (old := Demo.cloud) (pad := Demo.cloud3) (by decide) ?_ (.inr ⟨rfl, by decide⟩) ?_ ?_
    (.inr ⟨rfl, rfl⟩) (.inr ⟨rfl, by decide +kernel, by decide +kernel⟩)
  · intro v hv
    refine ⟨Demo.cloud_rows _ (List.mem_map_of_mem hv), ?_⟩
    revert v
    decide +kernel
  · exact ec ▸ isCentre_centerOf Demo.cloud_rows (by decide)
  · exact ec ▸ es ▸ isScale_scaleOf Demo.cloud_rows (by decide) (by decide)

end MM
