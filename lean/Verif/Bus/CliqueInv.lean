import Verif.Bus.CliqueMem

/-! The dynamic program of the clique search: what its tables hold. -/

namespace MM
namespace Bus

open Lattice

/-- The score of an ell, as a number. -/
def weight (T : Topo) (lines : List Byte) (e : Ell) : Nat :=
  match ellScore T lines e with
  | .ok n => n
  | .error _ => 0

/-- What an ell adds to the score. -/
def gain (T : Topo) (lines : List Byte) (check : Ell → Bool) (e : Ell) : Nat := if check e then weight T lines e else 0

/-- What is noted for a corner. -/
def noted (check : Ell → Bool) (e : Ell) (c : Corner) : Nat := if check e then c.code else c.skipCode

/-- Corners tried at stage `i`. -/
def cornersAt (W i : Nat) : List Corner := if i = 0 then [.sw, .se] else if i + 1 = W then [.ne, .se] else [.ne, .nw, .sw, .se]

/-- The ell of stage `i` for a corner of the rectangle that starts at `(y, x)`. -/
def ellN (W i y x : Nat) (c : Corner) : Ell := ellAt y (y + i) x (x + (W - i) - 1) c

theorem ellN_inGrid {T : Topo} {W i y x : Nat} {c : Corner} (hi : i < W) (hy : y + i < T.dimY) (hx : x + (W - i) ≤ T.dimX) : (ellN W i y x c).InGrid T := by
  unfold ellN
  cases c <;> constructor <;> simp only [ellAt] <;> omega

theorem noted_pos : ∀ (b : Bool) (c : Corner), (if b then c.code else c.skipCode) ≠ 0 ∧ (if b then c.code else c.skipCode) < 256 := by
  intro b c; cases b <;> cases c <;> decide

/-- The choices of the walk through the tables: `Walk i y x es` ends at cell `(y, x)` of table `i` after the ells `es`, the last one first. -/
inductive Walk (T : Topo) (W : Nat) : Nat → Nat → Nat → List Ell → Prop
  | start {y x : Nat} {c : Corner} : c ∈ cornersAt W 0 → y < T.dimY → x + W ≤ T.dimX → Walk T W 0 y (nextX x c) [ellN W 0 y x c]
  | step {i y x : Nat} {c : Corner} {es : List Ell} : Walk T W i (prevY y c) x es → c ∈ cornersAt W (i + 1) → i + 1 < W → y + (i + 1) < T.dimY → x + (W - (i + 1)) ≤ T.dimX →
      Walk T W (i + 1) y (nextX x c) (ellN W (i + 1) y x c :: es)

section
variable {T : Topo} {W : Nat} {lines : List Byte} {check : Ell → Bool}

/-- The total of a list of ells. -/
def total (T : Topo) (lines : List Byte) (check : Ell → Bool) (es : List Ell) : Nat := (es.map (gain T lines check)).sum

theorem extendOne_ok (hs : ∀ e : Ell, e.InGrid T → ellScore T lines e = .ok (weight T lines e)) {prev : Option Tab} {next : Tab} {mem : List Nat} {y0 y1 x0 x1 pv old : Nat} {c : Corner}
    (he : (ellAt y0 y1 x0 x1 c).InGrid T)
    (hp : (match prev with | none => pure 0 | some t => tabScore mem t (prevY y0 c) x0) = (.ok pv : B Nat))
    (ho : mem[next.index y0 (nextX x0 c)]? = some old) :
    ∃ mem', extendOne T lines check prev next mem y0 y1 x0 x1 c = .ok mem' ∧ mem'.length = mem.length ∧
      mem'[next.index y0 (nextX x0 c)]? = some (upd old (pv + gain T lines check (ellAt y0 y1 x0 x1 c), noted check (ellAt y0 y1 x0 x1 c) c)) ∧
      ∀ j : Nat, j ≠ next.index y0 (nextX x0 c) → mem'[j]? = mem[j]? := by
  have hx : extendOne T lines check prev next mem y0 y1 x0 x1 c =
      setmax mem next y0 (nextX x0 c) (pv + gain T lines check (ellAt y0 y1 x0 x1 c)) (noted check (ellAt y0 y1 x0 x1 c) c) := by
    have h1 : extendOne T lines check prev next mem y0 y1 x0 x1 c = (do
        let s ← (match prev with | none => pure 0 | some t => tabScore mem t (prevY y0 c) x0)
        if check (ellAt y0 y1 x0 x1 c) then do
          let a ← ellScore T lines (ellAt y0 y1 x0 x1 c)
          setmax mem next y0 (nextX x0 c) (s + a) c.code
        else setmax mem next y0 (nextX x0 c) s c.skipCode) := by
      cases prev <;> rfl
    rw [h1, hp]
    unfold gain noted
    simp only [bind, Except.bind, hs _ he]
    by_cases hc : check (ellAt y0 y1 x0 x1 c) = true
    · simp only [hc, if_true]
    · simp only [hc]; rfl
  rw [hx]
  exact setmax_ok ho

/-- All rounds of a stage. -/
theorem extendFold_ok (hs : ∀ e : Ell, e.InGrid T → ellScore T lines e = .ok (weight T lines e)) {prev : Option Tab} {i h w : Nat} (pv : Nat → Nat → Nat) {rs : List (Nat × Nat × Corner)}
    (hr : ∀ r ∈ rs, r.1 < rowsN T i ∧ nextX r.2.1 r.2.2 < colsN T W i ∧ (ellAt r.1 (r.1 + h - 1) r.2.1 (r.2.1 + w - 1) r.2.2).InGrid T)
    {mem : List Nat} (v : Nat → Nat → Nat)
    (hp : ∀ m : List Nat, m.length = mem.length → (∀ j : Nat, j < offN T W i ∨ offN T W (i + 1) ≤ j → m[j]? = mem[j]?) → ∀ r ∈ rs,
      (match prev with | none => pure 0 | some t => tabScore m t (prevY r.1 r.2.2) r.2.1) = (.ok (pv (prevY r.1 r.2.2) r.2.1) : B Nat))
    (hv : ∀ y x, y < rowsN T i → x < colsN T W i → mem[posN T W i y x]? = some (v y x)) :
    ∃ mem', rs.foldlM (fun mem r => extendOne T lines check prev (tabN T W i) mem r.1 (r.1 + h - 1) r.2.1 (r.2.1 + w - 1) r.2.2) mem = .ok mem' ∧
      mem'.length = mem.length ∧ (∀ j : Nat, j < offN T W i ∨ offN T W (i + 1) ≤ j → mem'[j]? = mem[j]?) ∧
      ∀ y x, y < rowsN T i → x < colsN T W i → mem'[posN T W i y x]? = some
        (((rs.filter fun r => decide (r.1 = y ∧ nextX r.2.1 r.2.2 = x)).map fun r =>
          (pv (prevY r.1 r.2.2) r.2.1 + gain T lines check (ellAt r.1 (r.1 + h - 1) r.2.1 (r.2.1 + w - 1) r.2.2),
            noted check (ellAt r.1 (r.1 + h - 1) r.2.1 (r.2.1 + w - 1) r.2.2) r.2.2)).foldl upd (v y x)) := by
  induction rs generalizing mem v with
  | nil => exact ⟨mem, rfl, rfl, fun _ _ => rfl, fun y x hy hx => by simpa using hv y x hy hx⟩
  | cons r rs ih =>
    obtain ⟨r1, r2, r3⟩ := hr r List.mem_cons_self
    obtain ⟨m1, a1, a2, a3, a4⟩ := extendOne_ok (check := check) hs (next := tabN T W i) (mem := mem) (old := v r.1 (nextX r.2.1 r.2.2)) r3
      (hp mem rfl (fun _ _ => rfl) r List.mem_cons_self) (hv _ _ r1 r2)
    have hout : ∀ j : Nat, j < offN T W i ∨ offN T W (i + 1) ≤ j → m1[j]? = mem[j]? := by
      intro j hj
      refine a4 j ?_
      have h1 := posN_ge (T := T) (W := W) (i := i) (y := r.1) (x := nextX r.2.1 r.2.2)
      have h2 := posN_lt (T := T) (W := W) r1 r2
      unfold posN at h1 h2
      omega
    obtain ⟨m2, b1, b2, b3, b4⟩ := ih (fun r hr' => hr r (List.mem_cons_of_mem _ hr')) (mem := m1)
      (fun y x => if r.1 = y ∧ nextX r.2.1 r.2.2 = x then
        upd (v y x) (pv (prevY r.1 r.2.2) r.2.1 + gain T lines check (ellAt r.1 (r.1 + h - 1) r.2.1 (r.2.1 + w - 1) r.2.2), noted check (ellAt r.1 (r.1 + h - 1) r.2.1 (r.2.1 + w - 1) r.2.2) r.2.2)
        else v y x)
      (fun m hm hm' r hr' => hp m (hm.trans a2) (fun j hj => (hm' j hj).trans (hout j hj)) r (List.mem_cons_of_mem _ hr'))
      (fun y x hy hx => by
        by_cases hc : r.1 = y ∧ nextX r.2.1 r.2.2 = x
        · rw [if_pos hc]
          obtain ⟨rfl, rfl⟩ := hc
          exact a3
        · rw [if_neg hc, a4 _ (fun e => hc ?_)]
          · exact hv y x hy hx
          · obtain ⟨e1, e2⟩ := posN_inj hx r2 e
            exact ⟨e1.symm, e2.symm⟩)
    refine ⟨m2, ?_, b2.trans a2, fun j hj => (b3 j hj).trans (hout j hj), fun y x hy hx => ?_⟩
    · rw [List.foldlM_cons, a1]; exact b1
    · rw [b4 y x hy hx, List.filter_cons]
      by_cases hc : r.1 = y ∧ nextX r.2.1 r.2.2 = x
      · simp only [hc, and_self, decide_true, if_true, List.map_cons, List.foldl_cons]
      · simp only [hc, decide_false, if_false, Bool.false_eq_true]

theorem mem_rounds {ny nx : Nat} {cs : List Corner} {r : Nat × Nat × Corner} : r ∈ rounds ny nx cs ↔ r.1 < ny ∧ r.2.1 < nx ∧ r.2.2 ∈ cs := by
  obtain ⟨y, x, c⟩ := r
  simp only [rounds, List.mem_flatMap, List.mem_range, List.mem_map, Prod.mk.injEq]
  constructor
  · rintro ⟨y', h1, x', h2, c', h3, rfl, rfl, rfl⟩; exact ⟨h1, h2, h3⟩
  · rintro ⟨h1, h2, h3⟩; exact ⟨y, h1, x, h2, c, h3, rfl, rfl, rfl⟩

/-- What table `i` holds, given the scores `pv` of the table before. -/
structure Filled (T : Topo) (W : Nat) (lines : List Byte) (check : Ell → Bool) (i : Nat) (pv : Nat → Nat → Nat) (mem : List Nat) : Prop where
  cell : ∀ y x, y < rowsN T i → x < colsN T W i → ∃ v, mem[posN T W i y x]? = some v ∧
    (∀ x0 c, c ∈ cornersAt W i → x0 + (W - i) ≤ T.dimX → nextX x0 c = x → pv (prevY y c) x0 + gain T lines check (ellN W i y x0 c) ≤ v >>> 8) ∧
    v &&& 255 ≠ 0 ∧
    ∀ k, (v &&& 255).testBit k = true → ∃ x0 c, c ∈ cornersAt W i ∧ x0 + (W - i) ≤ T.dimX ∧ nextX x0 c = x ∧
      v >>> 8 = pv (prevY y c) x0 + gain T lines check (ellN W i y x0 c) ∧ (noted check (ellN W i y x0 c) c).testBit k = true
  all : ∀ y x v, y < rowsN T i → x < colsN T W i → mem[posN T W i y x]? = some v → ∀ x0 c, c ∈ cornersAt W i → x0 + (W - i) ≤ T.dimX → nextX x0 c = x →
    v >>> 8 = pv (prevY y c) x0 + gain T lines check (ellN W i y x0 c) → ∀ k, k < 8 → (noted check (ellN W i y x0 c) c).testBit k = true → (v &&& 255).testBit k = true

theorem nextX_lt (hF : Fits T W) {i x : Nat} (hi : i < W) (hx : x + (W - i) ≤ T.dimX) {c : Corner} (hc : c ∈ cornersAt W i) : nextX x c < colsN T W i := by
  have := hF.x
  have := hF.two
  unfold colsN
  by_cases h1 : i + 1 < W
  · rw [if_pos h1]; cases c <;> simp only [nextX] <;> omega
  · rw [if_neg h1]
    have h2 : i + 1 = W := by omega
    unfold cornersAt at hc
    rw [if_neg (by omega), if_pos h2] at hc
    simp only [List.mem_cons, List.not_mem_nil, or_false] at hc
    rcases hc with rfl | rfl <;> simp only [nextX] <;> omega

/-- One stage. -/
theorem extendAll_ok (hs : ∀ e : Ell, e.InGrid T → ellScore T lines e = .ok (weight T lines e)) (hF : Fits T W) {mem : List Nat} (hm : Header T W mem) {i : Nat} (hi : i < W) {prev : Option Tab} (pv : Nat → Nat → Nat)
    (hp : ∀ m : List Nat, m.length = mem.length → (∀ j : Nat, j < offN T W i ∨ offN T W (i + 1) ≤ j → m[j]? = mem[j]?) → ∀ y x c, y + i < T.dimY → x + (W - i) ≤ T.dimX → c ∈ cornersAt W i →
      (match prev with | none => pure 0 | some t => tabScore m t (prevY y c) x) = (.ok (pv (prevY y c) x) : B Nat))
    (hz : ∀ j : Nat, offN T W i ≤ j → j < offN T W (i + 1) → mem[j]? = some 0) :
    ∃ mem', extendAll T lines check W prev (i + 1) (W - i) (cornersAt W i) mem = .ok mem' ∧ Header T W mem' ∧
      (∀ j : Nat, j < offN T W i ∨ offN T W (i + 1) ≤ j → mem'[j]? = mem[j]?) ∧ Filled T W lines check i pv mem' := by
  have hx := hF.x
  have hy := hF.y
  have h2 := hF.two
  have hr : ∀ r ∈ rounds (T.dimY - (i + 1) + 1) (T.dimX - (W - i) + 1) (cornersAt W i), r.1 + i < T.dimY ∧ r.2.1 + (W - i) ≤ T.dimX ∧ r.2.2 ∈ cornersAt W i := by
    intro r hr
    obtain ⟨a, b, c⟩ := mem_rounds.mp hr
    exact ⟨by omega, by omega, c⟩
  have hell : ∀ y x c, ellAt y (y + (i + 1) - 1) x (x + (W - i) - 1) c = ellN W i y x c := fun _ _ _ => rfl
  obtain ⟨mem', a1, a2, a3, a4⟩ := extendFold_ok (check := check) (W := W) hs (prev := prev) (i := i) (h := i + 1) (w := W - i) pv
    (rs := rounds (T.dimY - (i + 1) + 1) (T.dimX - (W - i) + 1) (cornersAt W i))
    (fun r h => by
      obtain ⟨b1, b2, b3⟩ := hr r h
      exact ⟨show r.1 < T.dimY - i by omega, nextX_lt hF hi b2 b3, ellN_inGrid hi b1 b2⟩)
    (mem := mem) (fun _ _ => 0)
    (fun m h1 h2 r h => by
      obtain ⟨b1, b2, b3⟩ := hr r h
      exact hp m h1 h2 _ _ _ b1 b2 b3)
    (fun y x hy hx => hz _ posN_ge (posN_lt hy hx))
  have hin : ∀ y x, y < rowsN T i → ∀ x0 c, c ∈ cornersAt W i → x0 + (W - i) ≤ T.dimX → nextX x0 c = x → (y, x0, c) ∈ (rounds (T.dimY - (i + 1) + 1) (T.dimX - (W - i) + 1) (cornersAt W i)).filter fun r => decide (r.1 = y ∧ nextX r.2.1 r.2.2 = x) := by
    intro y x hy' x0 c h1 h2 h3
    rw [List.mem_filter, mem_rounds]
    have hy'' : y < T.dimY - i := hy'
    exact ⟨⟨show y < _ by omega, show x0 < _ by omega, h1⟩, by simp [h3]⟩
  have hcells : ∀ y x, Cell ((((rounds (T.dimY - (i + 1) + 1) (T.dimX - (W - i) + 1) (cornersAt W i)).filter fun r => decide (r.1 = y ∧ nextX r.2.1 r.2.2 = x)).map fun r =>
          (pv (prevY r.1 r.2.2) r.2.1 + gain T lines check (ellAt r.1 (r.1 + (i + 1) - 1) r.2.1 (r.2.1 + (W - i) - 1) r.2.2),
            noted check (ellAt r.1 (r.1 + (i + 1) - 1) r.2.1 (r.2.1 + (W - i) - 1) r.2.2) r.2.2)).foldl upd 0) _ := fun y x =>
    cell_fold (fun p hp => by
        obtain ⟨r, _, rfl⟩ := List.mem_map.mp hp
        exact noted_pos _ _)
  refine ⟨mem', ?_, ?_, a3, ⟨fun y x hy' hx' => ?_, fun y x v hy' hx' hv x0 c h1 h2 h3 h4 k hk8 hk => ?_⟩⟩
  · unfold extendAll
    simp only [tabAt_ok hF hm (show i + 1 - 1 < W by omega), sub_, if_pos (show i + 1 ≤ T.dimY by omega), if_pos (show W - i ≤ T.dimX by omega), bind, Except.bind]
    exact a1
  · refine ⟨a2.trans hm.len, fun k hk => ?_⟩
    have := offN_mono (T := T) (W := W) (Nat.zero_le i)
    rw [a3 k (.inl (by simp only [offN] at this; omega))]
    exact hm.head k hk
  · refine ⟨_, a4 y x hy' hx', ?_⟩
    have hcell := hcells y x
    have hin := hin y x hy'
    refine ⟨fun x0 c h1 h2 h3 => ?_, ?_, fun k hk => ?_⟩
    · exact hcell.le _ (List.mem_map.mpr ⟨(y, x0, c), hin x0 c h1 h2 h3, rfl⟩)
    · apply hcell.some
      have : ∃ x0 c, c ∈ cornersAt W i ∧ x0 + (W - i) ≤ T.dimX ∧ nextX x0 c = x := by
        have hse : Corner.se ∈ cornersAt W i := by unfold cornersAt; split <;> [skip; split] <;> simp
        by_cases hc : x + (W - i) ≤ T.dimX
        · exact ⟨x, .se, hse, hc, rfl⟩
        · unfold colsN at hx'
          by_cases h1 : i + 1 < W
          · rw [if_pos h1] at hx'
            refine ⟨x - 1, .sw, ?_, by omega, by simp only [nextX]; omega⟩
            unfold cornersAt
            split
            · simp
            · rw [if_neg (by omega)]; simp
          · rw [if_neg h1] at hx'; omega
      obtain ⟨x0, c, h1, h2, h3⟩ := this
      intro hnil
      have := List.mem_map_of_mem (f := fun r : Nat × Nat × Corner => (pv (prevY r.1 r.2.2) r.2.1 + gain T lines check (ellAt r.1 (r.1 + (i + 1) - 1) r.2.1 (r.2.1 + (W - i) - 1) r.2.2),
            noted check (ellAt r.1 (r.1 + (i + 1) - 1) r.2.1 (r.2.1 + (W - i) - 1) r.2.2) r.2.2)) (hin x0 c h1 h2 h3)
      rw [hnil] at this
      cases this
    · obtain ⟨p, hp1, hp2, hp3⟩ := hcell.bits k hk
      obtain ⟨⟨y', x0, c⟩, hr1, rfl⟩ := List.mem_map.mp hp1
      rw [List.mem_filter] at hr1
      obtain ⟨b1, b2, b3⟩ := hr _ hr1.1
      obtain ⟨e1, e2⟩ := of_decide_eq_true hr1.2
      simp only at e1 e2 b1 b2 b3 hp2 hp3
      subst e1
      exact ⟨x0, c, b3, b2, e2, hp2.symm, hp3⟩
  · rw [a4 y x hy' hx'] at hv
    have hv := Option.some.inj hv
    subst hv
    exact (hcells y x).all _ (List.mem_map.mpr ⟨(y, x0, c), hin y x hy' x0 c h1 h2 h3, rfl⟩) h4.symm k hk hk8

end
end Bus
end MM
