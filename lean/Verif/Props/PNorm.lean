import Verif.Lay.PNorm
import Verif.Props.LayoutFind

/-! Property C79: layouts by `p_norm`. -/

namespace MM

open Lay Spec.Layout Finset

variable {V : Type} [DecidableEq V]

theorem Lay.sum_range_list {α : Type} (l : List α) (F : Nat → Rat) (g : α → Rat) (h : ∀ (i : Nat) (a : α), l[i]? = some a → F i = g a) :
    ∑ i ∈ range l.length, F i = (l.map g).sum := by
  induction l generalizing F with
  | nil => rfl
  | cons a l ih =>
    rw [List.length_cons, sum_range_succ', ih (fun i => F (i + 1)) fun i b hb => h (i + 1) b (by simpa using hb), h 0 a rfl, List.map_cons, List.sum_cons, add_comm]

theorem Lay.rowDist_points {rows : List Pt} {dim i j : Nat} {p q : Pt} {norm : Pt → Rat} (hp : rows[i]? = some p) (hq : rows[j]? = some q) (lp : p.length = dim)
    (lq : q.length = dim) : rowDist dim norm (entries rows) i j = norm (List.zipWith (fun x y => x - y) p q) := by
  unfold rowDist
  congr 1
  apply List.ext_getElem
  · simp [lp, lq]
  · intro k h1 h2
    rw [List.length_map, List.length_range] at h1
    rw [List.getElem_map, List.getElem_range, List.getElem_zipWith]
    unfold diff entries
    simp only [hp, hq, List.getElem?_eq_getElem (lp ▸ h1 : k < p.length), List.getElem?_eq_getElem (lq ▸ h1 : k < q.length)]

/-- The cost is the stress if the rows are those of the nodes in the order of the graph. -/
theorem Lay.cost_stress {nodes : List V} {dist : V → V → Option Nat} {given : Option (V → V → Rat)} {d : V → V → Rat}
    (hd : ∀ u v k, dist u v = some k → d u v = k) (hd' : ∀ u v, dist u v = none → d u v = nodes.length) {dim : Nat} {pos : V → Pt} (hp : ∀ v ∈ nodes, (pos v).length = dim)
    (norm : Pt → Rat) : cost nodes.length dim norm (distances nodes dist given) (entries (nodes.map pos)) = stress norm nodes d pos := by
  unfold cost stress
  apply sum_range_list
  intro i u hu
  apply sum_range_list
  intro j v hv
  rw [rowDist_points (p := pos u) (q := pos v) (by rw [List.getElem?_map, hu]; rfl) (by rw [List.getElem?_map, hv]; rfl) (hp u (List.mem_of_getElem? hu))
    (hp v (List.mem_of_getElem? hv))]
  have : distances nodes dist given i j = d u v := by
    unfold distances
    rw [hu, hv]
    dsimp only
    cases h : dist u v with
    | none => exact (hd' u v h).symm
    | some k => exact (hd u v k h).symm
  rw [this]

theorem Lay.exists_map {l : List V} (hn : l.Nodup) : ∀ {rows : List Pt}, rows.length = l.length → ∃ f : V → Pt, rows = l.map f := by
  induction l with
  | nil => exact fun h => ⟨fun _ => [], List.length_eq_zero_iff.mp h⟩
  | cons v l ih =>
    intro rows h
    cases rows with
    | nil => cases h
    | cons r rows =>
      obtain ⟨f, rfl⟩ := ih (List.nodup_cons.mp hn).2 (Nat.succ_inj.mp h)
      refine ⟨fun w => if w = v then r else f w, ?_⟩
      rw [List.map_cons, if_pos rfl]
      congr 1
      refine List.map_congr_left fun w hw => ?_
      rw [if_neg]
      rintro rfl
      exact (List.nodup_cons.mp hn).1 hw

/-- The difference of two points does not change when both are moved. -/
theorem Lay.moved_diff {c c' p q p' q' : Pt} (h1 : Spec.Layout.Moved c c' 1 p p') (h2 : Spec.Layout.Moved c c' 1 q q') (lp : p.length = c.length) (lq : q.length = c.length)
    (lc : c'.length = c.length) : List.zipWith (fun x y => x - y) p' q' = List.zipWith (fun x y => x - y) p q := by
  apply List.ext_getElem
  · simp [h1.1, h2.1]
  · intro k e1 e2
    rw [List.length_zipWith] at e1 e2
    have k1 : k < p.length := by omega
    have k2 : k < q.length := by omega
    have kc : k < c.length := by omega
    have kc' : k < c'.length := by omega
    rw [List.getElem_zipWith, List.getElem_zipWith]
    have a := h1.2 k _ _ _ (List.getElem?_eq_getElem k1) (List.getElem?_eq_getElem kc) (List.getElem?_eq_getElem kc')
    have b := h2.2 k _ _ _ (List.getElem?_eq_getElem k2) (List.getElem?_eq_getElem kc) (List.getElem?_eq_getElem kc')
    rw [List.getElem?_eq_getElem (by omega), Option.some_inj] at a b
    rw [a, b]
    ring

theorem Lay.dimAndCenter_length {dim : Option Int} {center : Option Pt} {d : Int} {c : Pt} (h : dimAndCenter dim center = .ok (d, c)) : (c.length : Int) = d := by
  unfold dimAndCenter at h
  cases dim <;> cases center <;> simp only at h <;>
  · split at h
    · next e => injection h with h; injection h with a b; rw [← a, ← b]; first | done | exact e
    · cases h

/-- What `p_norm` does up to the scale. -/
theorem Lay.pNorm_centred {nodes : List V} (hn : nodes.Nodup) (hne : nodes ≠ []) {dist : V → V → Option Nat} {given : Option (V → V → Rat)} {d : V → V → Rat}
    (hd : ∀ u v k, dist u v = some k → d u v = k) (hd' : ∀ u v, dist u v = none → d u v = nodes.length) {d0 D : Nat} (h0 : 0 < d0) {start : List (V × Pt)} {old pad : V → Pt}
    (hold : ∀ v ∈ nodes, start.lookup v = some (old v) ∧ (old v).length = d0) (hle : d0 ≤ D) (hpad : ∀ v ∈ nodes, Padded D (old v) (pad v))
    {dim : Option Int} {center : Option Pt} {c : Pt} (hdc : dimAndCenter dim center = .ok ((D : Int), c)) {norm : Pt → Rat}
    {minimise : (List Pt → Rat) → List Pt → List Pt}
    (hshape : ∀ f rows, (minimise f rows).length = rows.length ∧ ∀ n, (∀ r ∈ rows, r.length = n) → ∀ r ∈ minimise f rows, r.length = n)
    {Y : V → Pt} (hbest : ∀ f : List Pt → Rat, (∀ pos : V → Pt, (∀ v ∈ nodes, (pos v).length = D) → f (nodes.map pos) = stress norm nodes d pos) →
      f (minimise f (nodes.map pad)) ≤ f (nodes.map Y)) (hY : ∀ v ∈ nodes, (Y v).length = D) (scale : Option Rat) :
    ∃ f best pos L c0 s0, best = minimise f (nodes.map pad) ∧ stress norm nodes d pos ≤ stress norm nodes d Y ∧ Shows L nodes pos ∧ IsCentre (nodes.map pos) c ∧
      IsScale (nodes.map pos) c s0 ∧ IsScale best c0 s0 ∧ IsCentre best c0 ∧
      pNorm minimise norm nodes nodes dist given start dim center scale =
        (do let L ← (match scale with | some s => L.setScale s | none => .ok L : Except Err (Layout V)); .ok L.dict) := by
  have hD : D ≠ 0 := by omega
  have hpl : ∀ v ∈ nodes, (pad v).length = D := fun v hv => (hpad v hv).1
  have hnp : nodes.map pad ≠ [] := by simpa using hne
  have hrp : Rows D (nodes.map pad) := by
    intro q hq
    obtain ⟨v, hv, rfl⟩ := List.mem_map.mp hq
    exact hpl v hv
  obtain ⟨L, new, k, e, sh, -, -, mv, -, k1⟩ := C72_partial hn hne h0 hold hpad (dim := some (D : Int)) (Or.inr ⟨rfl, hle⟩) (isCentre_centerOf hrp hnp)
    (isScale_scaleOf hrp hnp hD) (center := none) (c := centerOf (nodes.map pad)) (Or.inl ⟨Or.inl rfl, rfl⟩) (scale := none) (s := scaleOf (nodes.map pad))
    (Or.inl ⟨Or.inl rfl, rfl⟩)
  have harr : L.array = nodes.map pad := by
    rw [sh.2.2]
    refine List.map_congr_left fun v hv => ?_
    have h := mv v hv
    rw [k1 rfl] at h
    exact moved_one h ((hpl v hv).trans (centerOf_length hrp hnp).symm)
  let f : List Pt → Rat := fun rows => cost nodes.length D norm (distances nodes dist given) (entries rows)
  have hf : ∀ pos : V → Pt, (∀ v ∈ nodes, (pos v).length = D) → f (nodes.map pos) = stress norm nodes d pos := fun pos hp => cost_stress hd hd' hp norm
  have hlen : (minimise f (nodes.map pad)).length = nodes.length := by rw [(hshape _ _).1, List.length_map]
  have hrows : Rows D (minimise f (nodes.map pad)) := (hshape _ _).2 D hrp
  obtain ⟨best, hb⟩ := exists_map hn hlen
  have hbl : ∀ v ∈ nodes, (best v).length = D := fun v hv => hrows _ (hb ▸ List.mem_map_of_mem hv)
  have hnb : nodes.map best ≠ [] := by simpa using hne
  have hrb : Rows D (nodes.map best) := hb ▸ hrows
  have hset := setArray_ok (L := L) (sh.1 ▸ hn) (rows := minimise f (nodes.map pad)) (hlen.trans (by rw [sh.1])) hrows
  have sh1 : Shows (⟨L.verts, L.verts.zip (minimise f (nodes.map pad)), minimise f (nodes.map pad)⟩ : Layout V) nodes best :=
    ⟨sh.1, by show L.verts.zip _ = _; rw [sh.1, hb, zip_map], hb⟩
  have hcl : c.length = D := by
    exact Int.ofNat_inj.mp (dimAndCenter_length hdc)
  obtain ⟨L2, pos, e2, sh2, c2, s2, m2⟩ := C72_set_center sh1 hn hne (isCentre_centerOf hrb hnb) (isScale_scaleOf hrb hnb hD)
    (c' := c) (hcl.trans (centerOf_length hrb hnb).symm)
  refine ⟨f, _, pos, L2, centerOf (nodes.map best), scaleOf (nodes.map best), rfl, ?_, sh2, c2, s2, ?_, ?_, ?_⟩
  · have : stress norm nodes d pos = stress norm nodes d best := by
      unfold stress
      congr 1
      refine List.map_congr_left fun u hu => ?_
      congr 1
      refine List.map_congr_left fun v hv => ?_
      rw [moved_diff (m2 u hu) (m2 v hv) ((hbl u hu).trans (centerOf_length hrb hnb).symm) ((hbl v hv).trans (centerOf_length hrb hnb).symm)
        (hcl.trans (centerOf_length hrb hnb).symm)]
    rw [this, ← hf best hbl, ← hf Y hY, ← hb]
    exact hbest f hf
  · rw [hb]; exact isScale_scaleOf hrb hnb hD
  · rw [hb]; exact isCentre_centerOf hrb hnb
  · unfold pNorm
    rw [hdc]
    simp only [bind, Except.bind]
    rw [e]
    simp only
    rw [if_neg (by rw [harr, dimOf_rows hrp hnp]; simp)]
    rw [harr, Int.toNat_natCast]
    rw [hset]
    simp only
    rw [e2]
    cases scale <;> rfl

/-- For a graph that gives its nodes in sorted order: if the minimiser, asked to minimise the stress, gets no worse than the layout `Y` (which may be the starting layout, or any other if it finds the minimum), the layout
`p_norm` returns without a scale is no worse than `Y`, has a point for each node and the centre asked for. The distance of nodes of different components is the number of nodes. The starting
layout is padded by zeros. -/
theorem C79_partial {nodes : List V} (hn : nodes.Nodup) (hne : nodes ≠ []) {dist : V → V → Option Nat} (given : Option (V → V → Rat)) {d : V → V → Rat}
    (hd : ∀ u v k, dist u v = some k → d u v = k) (hd' : ∀ u v, dist u v = none → d u v = nodes.length) {d0 D : Nat} (h0 : 0 < d0) {start : List (V × Pt)} {old pad : V → Pt}
    (hold : ∀ v ∈ nodes, start.lookup v = some (old v) ∧ (old v).length = d0) (hle : d0 ≤ D) (hpad : ∀ v ∈ nodes, Padded D (old v) (pad v))
    {dim : Option Int} {center : Option Pt} {c : Pt} (hdc : dimAndCenter dim center = .ok ((D : Int), c)) (norm : Pt → Rat)
    {minimise : (List Pt → Rat) → List Pt → List Pt}
    (hshape : ∀ f rows, (minimise f rows).length = rows.length ∧ ∀ n, (∀ r ∈ rows, r.length = n) → ∀ r ∈ minimise f rows, r.length = n)
    {Y : V → Pt} (hbest : ∀ f : List Pt → Rat, (∀ pos : V → Pt, (∀ v ∈ nodes, (pos v).length = D) → f (nodes.map pos) = stress norm nodes d pos) →
      f (minimise f (nodes.map pad)) ≤ f (nodes.map Y)) (hY : ∀ v ∈ nodes, (Y v).length = D) {scale : Option Rat} (hscale : scale = none ∨ scale = some 0) :
    ∃ pos : V → Pt, pNorm minimise norm nodes nodes dist given start dim center scale = .ok (nodes.map fun v => (v, pos v)) ∧
      IsCentre (nodes.map pos) c ∧ stress norm nodes d pos ≤ stress norm nodes d Y := by
  obtain ⟨f, best, pos, L, c0, s0, -, h1, h2, h3, -, -, -, e⟩ := pNorm_centred hn hne (given := given) hd hd' h0 hold hle hpad hdc hshape hbest hY scale
  refine ⟨pos, ?_, h3, h1⟩
  rw [e]
  rcases hscale with rfl | rfl
  · show Except.ok L.dict = _
    rw [h2.2.1]
  · show (do let L ← L.setScale 0; Except.ok L.dict) = _
    unfold Layout.setScale
    rw [if_pos rfl]
    show Except.ok L.dict = _
    rw [h2.2.1]

/-- With a scale the layout is in addition stretched to that scale around its centre, unless the minimiser put all nodes in one place. -/
theorem C79_scaled {nodes : List V} (hn : nodes.Nodup) (hne : nodes ≠ []) {dist : V → V → Option Nat} (given : Option (V → V → Rat)) {d : V → V → Rat}
    (hd : ∀ u v k, dist u v = some k → d u v = k) (hd' : ∀ u v, dist u v = none → d u v = nodes.length) {d0 D : Nat} (h0 : 0 < d0) {start : List (V × Pt)} {old pad : V → Pt}
    (hold : ∀ v ∈ nodes, start.lookup v = some (old v) ∧ (old v).length = d0) (hle : d0 ≤ D) (hpad : ∀ v ∈ nodes, Padded D (old v) (pad v))
    {dim : Option Int} {center : Option Pt} {c : Pt} (hdc : dimAndCenter dim center = .ok ((D : Int), c)) (norm : Pt → Rat)
    {minimise : (List Pt → Rat) → List Pt → List Pt}
    (hshape : ∀ f rows, (minimise f rows).length = rows.length ∧ ∀ n, (∀ r ∈ rows, r.length = n) → ∀ r ∈ minimise f rows, r.length = n)
    (hspread : ∀ f, ∃ p ∈ minimise f (nodes.map pad), ∃ q ∈ minimise f (nodes.map pad), p ≠ q)
    {Y : V → Pt} (hbest : ∀ f : List Pt → Rat, (∀ pos : V → Pt, (∀ v ∈ nodes, (pos v).length = D) → f (nodes.map pos) = stress norm nodes d pos) →
      f (minimise f (nodes.map pad)) ≤ f (nodes.map Y)) (hY : ∀ v ∈ nodes, (Y v).length = D) {s : Rat} (hs : s ≠ 0) :
    ∃ (best pos : V → Pt) (k : Rat), pNorm minimise norm nodes nodes dist given start dim center (some s) = .ok (nodes.map fun v => (v, pos v)) ∧
      IsCentre (nodes.map pos) c ∧ IsScale (nodes.map pos) c |s| ∧ stress norm nodes d best ≤ stress norm nodes d Y ∧ ∀ v ∈ nodes, Spec.Layout.Moved c c k (best v) (pos v) := by
  obtain ⟨f, best, pos, L, c0, s0, hb, h1, h2, h3, h4, h5, h6, e⟩ := pNorm_centred hn hne (given := given) hd hd' h0 hold hle hpad hdc hshape hbest hY (some s)
  have hs0 : s0 ≠ 0 := by
    rintro rfl
    obtain ⟨p, hp, q, hq, hpq⟩ := hspread f
    rw [← hb] at hp hq
    apply hpq
    have key : ∀ r ∈ best, r = c0 := by
      intro r hr
      apply List.ext_getElem (h6.1 r hr)
      intro i i1 i2
      have := h5.1 r hr i _ _ (List.getElem?_eq_getElem i1) (List.getElem?_eq_getElem i2)
      exact sub_eq_zero.mp (abs_nonpos_iff.mp this)
    rw [key p hp, key q hq]
  obtain ⟨L', new, e', sh', c', s', m'⟩ := C72_set_scale h2 hn hne h3 h4 hs0 hs
  refine ⟨pos, new, s / s0, ?_, c', s', h1, m'⟩
  rw [e]
  show (do let L ← L.setScale s; Except.ok L.dict) = _
  rw [e']
  show Except.ok L'.dict = _
  rw [sh'.2.1]

/-- Distances passed in are ignored. -/
theorem C79_given_ignored (minimise : (List Pt → Rat) → List Pt → List Pt) (norm : Pt → Rat) (verts nodes : List V) (dist : V → V → Option Nat) (given : Option (V → V → Rat))
    (start : List (V × Pt)) (dim : Option Int) (center : Option Pt) (scale : Option Rat) :
    pNorm minimise norm verts nodes dist given start dim center scale = pNorm minimise norm verts nodes dist none start dim center scale := rfl

/-- A dimension that does not fit the centre is a `ValueError`. -/
theorem C79_dim_mismatch {d : Int} {c : Pt} (h : (c.length : Int) ≠ d) (minimise : (List Pt → Rat) → List Pt → List Pt) (norm : Pt → Rat) (verts nodes : List V)
    (dist : V → V → Option Nat) (given : Option (V → V → Rat)) (start : List (V × Pt)) (scale : Option Rat) :
    pNorm minimise norm verts nodes dist given start (some d) (some c) scale = .error .value := by
  unfold pNorm dimAndCenter
  simp only
  rw [if_neg h]
  rfl

/-- Distances in the path 1, 0, 2. -/
def Demo.path102 (u v : Nat) : Option Nat := some (if u = v then 0 else if u = 0 ∨ v = 0 then 1 else 2)

/-- A minimiser that takes the better of two arrays. -/
def Demo.better (other : List Pt) (f : List Pt → Rat) (rows : List Pt) : List Pt :=
  if other.map List.length = rows.map List.length ∧ f other < f rows then other else rows

theorem Demo.better_shape (other : List Pt) (f : List Pt → Rat) (rows : List Pt) :
    (better other f rows).length = rows.length ∧ ∀ n, (∀ r ∈ rows, r.length = n) → ∀ r ∈ better other f rows, r.length = n := by
  unfold better
  split
  · next h =>
    refine ⟨by rw [← List.length_map (f := List.length), h.1, List.length_map], fun n hn r hr => ?_⟩
    have : r.length ∈ rows.map List.length := h.1 ▸ List.mem_map_of_mem hr
    obtain ⟨q, hq, e⟩ := List.mem_map.mp this
    rw [← e]; exact hn q hq
  · exact ⟨rfl, fun n hn => hn⟩

theorem Demo.better_le (other : List Pt) (f : List Pt → Rat) (rows : List Pt) : f (better other f rows) ≤ f rows := by
  unfold better
  split
  · next h => exact le_of_lt h.2
  · exact le_refl _

/-- The path 1, 0, 2 given in this order, with a perfect starting layout on a line, and a minimiser that returns the array it starts from or a better one: the
result is worse than the starting layout, because rows of the array are in sorted order and distances in the order of the graph. -/
theorem C79_order : pNorm (Demo.better [[0], [1], [2]]) norm1 [0, 1, 2] [1, 0, 2] Demo.path102 none [(1, [0]), (0, [1]), (2, [2])] (some 1) (some [1]) none =
      .ok [(0, [0]), (1, [1]), (2, [2])] ∧
    stress norm1 [1, 0, 2] (fun u v => match Demo.path102 u v with | some k => (k : Rat) | none => 3) (fun v => match v with | 0 => [1] | 1 => [0] | _ => [2]) = 0 ∧
    stress norm1 [1, 0, 2] (fun u v => match Demo.path102 u v with | some k => (k : Rat) | none => 3) (fun v => match v with | 0 => [0] | 1 => [1] | _ => [2]) = 4 := by
  refine ⟨ok_of_toOption (by decide +kernel), by decide +kernel, by decide +kernel⟩

/-- The same graph given in sorted order, from a bad starting layout to a perfect one. -/
example : pNorm (Demo.better [[1], [0], [2]]) norm1 [0, 1, 2] [0, 1, 2] Demo.path102 none [(1, [0]), (0, [0]), (2, [0])] (some 1) none none =
    .ok [(0, [0]), (1, [-1]), (2, [1])] := ok_of_toOption (by decide +kernel)

/-- The hypotheses of `C79_partial` for this graph and starting layout. -/
example : ∃ pos : Nat → Pt, pNorm (Demo.better [[1], [0], [2]]) norm1 [0, 1, 2] [0, 1, 2] Demo.path102 none [(1, [0]), (0, [0]), (2, [0])] (some 1) none none =
      .ok ([0, 1, 2].map fun v => (v, pos v)) ∧ IsCentre ([0, 1, 2].map pos) [0] ∧
      stress norm1 [0, 1, 2] (fun u v => match Demo.path102 u v with | some k => (k : Rat) | none => 3) pos ≤
        stress norm1 [0, 1, 2] (fun u v => match Demo.path102 u v with | some k => (k : Rat) | none => 3) (fun _ => [0]) :=
  C79_partial (by decide) (by decide) none (fun u v k h => by rw [h]) (fun u v h => by rw [h]; rfl) (d0 := 1) (D := 1) (by decide) (old := fun _ => [0]) (pad := fun _ => [0])
    (by decide) (by decide) (fun v _ => ⟨rfl, fun i (hi : i < 1) => by rw [Nat.lt_one_iff.mp hi]; rfl⟩) (by rfl) norm1 (Demo.better_shape _)
    (fun f _ => Demo.better_le _ f _) (fun _ _ => rfl) (Or.inl rfl)

end MM
