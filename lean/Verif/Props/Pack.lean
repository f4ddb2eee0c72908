import Verif.Pack.DemoSort
import Verif.Pack.TopInv
import Verif.Pack.HelpersInv

/-! C68 to C71: the bundled rectangle packer. -/

namespace MM

open Pack Spec.Pack

/-- Rectangles for examples. -/
def demoSizes : List (Int × Int) := [(2, 3), (1, 1), (3, 1), (1, 2)]

example : pack false demoSort demoSizes none none = .ok [(0, 0), (2, 2), (0, 3), (2, 0)] := by decide +kernel

/-- C68, valid results: with sizes below 2³¹, the positions that `pack` returns are a packing: there is one for each
rectangle, in the order of the sizes, none is negative, no two rectangles overlap, and all lie within the positive limits.
Missing: larger sizes, with which the packer divides by zero (`C68_counterexample`). -/
theorem C68_partial {q : Qsort} (hq : Sorts q) {sizes pos : List (Int × Int)} {maxWidth maxHeight : Option Int}
    (hn : sizes.length ≤ 2 ^ 31) (hs : ∀ p ∈ sizes, p.1 < 2 ^ 31 ∧ p.2 < 2 ^ 31)
    (h : pack false q sizes maxWidth maxHeight = .ok pos) :
    Packing sizes pos ∧
      (∀ m, maxWidth = some m → 0 < m → ∀ r ∈ place sizes pos, r.x + r.w ≤ m) ∧
      (∀ m, maxHeight = some m → 0 < m → ∀ r ∈ place sizes pos, r.y + r.h ≤ m) := by
  rw [pack_eq] at h
  by_cases hne : sizes = []
  · subst hne
    cases h
    exact ⟨⟨rfl, by simp [place], List.Pairwise.nil⟩, by simp [place], by simp [place]⟩
  · by_cases hpos : ∃ p ∈ sizes, p.1 ≤ 0 ∨ p.2 ≤ 0
    · rw [corePack_bad hpos] at h
      cases h
    · have hs' : ∀ p ∈ sizes, 0 < p.1 ∧ 0 < p.2 ∧ p.1 < 2 ^ 31 ∧ p.2 < 2 ^ 31 := by
        intro p hp
        have h1 := hs p hp
        have h2 : ¬ (p.1 ≤ 0 ∨ p.2 ≤ 0) := fun hb => hpos ⟨p, hp, hb⟩
        omega
      rcases corePack_spec hq hne hn hs' (maxWidth := readLimit maxWidth) (maxHeight := readLimit maxHeight) with
        ⟨l, e⟩ | ⟨pos', e, k1, k2, k3⟩
      · rw [e] at h; cases h
      · rw [e] at h
        cases h
        refine ⟨k1, ?_, ?_⟩
        · rintro m rfl hm
          rw [readLimit_pos hm] at k2
          exact k2 (by omega)
        · rintro m rfl hm
          rw [readLimit_pos hm] at k3
          exact k3 (by omega)

example : Sorts (demoSort (α := Rect)) ∧ demoSizes.length ≤ 2 ^ 31 ∧ (∀ p ∈ demoSizes, p.1 < 2 ^ 31 ∧ p.2 < 2 ^ 31) ∧
    pack false demoSort demoSizes (some 3) none = .ok [(0, 0), (2, 2), (0, 3), (2, 0)] :=
  ⟨demoSort_sorts, by decide, by decide, by decide +kernel⟩

/-- C68, outcomes: with sizes below 2³¹, `pack` raises a value error if some size is not positive, and otherwise returns or
says that packing is impossible. It never reads or writes outside its arrays, follows a null pointer, divides by zero or
runs forever. -/
theorem C68_outcome {q : Qsort} (hq : Sorts q) {sizes : List (Int × Int)} {maxWidth maxHeight : Option Int}
    (hn : sizes.length ≤ 2 ^ 31) (hs : ∀ p ∈ sizes, p.1 < 2 ^ 31 ∧ p.2 < 2 ^ 31) :
    ((∃ p ∈ sizes, p.1 ≤ 0 ∨ p.2 ≤ 0) → pack false q sizes maxWidth maxHeight = .error .value) ∧
    ((∀ p ∈ sizes, 0 < p.1 ∧ 0 < p.2) → (∃ pos, pack false q sizes maxWidth maxHeight = .ok pos) ∨
      ∃ l, pack false q sizes maxWidth maxHeight = .error (.impossible l)) := by
  rw [pack_eq]
  refine ⟨fun h => corePack_bad h, fun h => ?_⟩
  by_cases hne : sizes = []
  · subst hne
    exact Or.inl ⟨[], rfl⟩
  · rcases corePack_spec hq hne hn (fun p hp => ⟨(h p hp).1, (h p hp).2, hs p hp⟩) (maxWidth := readLimit maxWidth)
      (maxHeight := readLimit maxHeight) with ⟨l, e⟩ | ⟨pos', e, -⟩
    · exact Or.inr ⟨l, e⟩
    · exact Or.inl ⟨pos', e⟩

example : pack false demoSort [(1, 1), (0, 1)] none none = .error .value ∧
    pack false demoSort demoSizes (some 2) none = .error (.impossible []) := by decide +kernel

/-- C68 fails for large sizes: a single rectangle of width 1 and height 2³¹ makes the packer divide by zero. In a build
with assertions, even a unit square fails one. -/
theorem C68_counterexample : pack false demoSort [(1, 2 ^ 31)] none none = .error .ub ∧
    pack true demoSort [(1, 1)] none none = .error .assert := by decide +kernel

/-- C69, success without limits: if each rectangle has an area below 2³¹, and all of them beside each other have one below
2⁶³ - 2, then `pack` without limits returns a packing. It lies in a box that is not larger than the one with all rectangles
beside each other, and at most one unit larger than the one with all rectangles above each other. Missing: larger areas
(`C69_counterexample`). -/
theorem C69_partial {q : Qsort} (hq : Sorts q) {sizes : List (Int × Int)} (hne : sizes ≠ []) (hn : sizes.length ≤ 2 ^ 31)
    (hs : ∀ p ∈ sizes, 0 < p.1 ∧ 0 < p.2 ∧ p.1 * p.2 < 2 ^ 31)
    (hsum : ∀ p ∈ sizes, p.2 * (sizes.map (·.1)).sum < 2 ^ 63 - 2) (hsum' : ∀ p ∈ sizes, p.1 * (sizes.map (·.2)).sum < 2 ^ 63 - 2) :
    ∃ pos W H, pack false q sizes none none = .ok pos ∧ Packing sizes pos ∧
      (∀ r ∈ place sizes pos, r.x + r.w ≤ W ∧ r.y + r.h ≤ H) ∧
      (∃ p ∈ sizes, W * H ≤ p.2 * (sizes.map (·.1)).sum) ∧ ∃ p ∈ sizes, W * H ≤ p.1 * (sizes.map (·.2)).sum + 1 := by
  have hs' : ∀ p ∈ sizes, 0 < p.1 ∧ 0 < p.2 ∧ p.1 < 2 ^ 31 ∧ p.2 < 2 ^ 31 ∧ p.1 * p.2 < 2 ^ 31 := by
    intro p hp
    obtain ⟨h1, h2, h3⟩ := hs p hp
    have := sides_le h1 h2
    exact ⟨h1, h2, by omega, by omega, h3⟩
  obtain ⟨pos, W, H, h1, h2, h3, h4⟩ := corePack_total hq hne hn hs' (maxWidth := -1) (maxHeight := -1) (by omega) (by omega)
    (Or.inl ⟨by omega, hsum⟩)
  refine ⟨pos, W, H, h1, ?_, h2, h3 (by omega) hsum, h4 (by omega) hsum'⟩
  exact (C68_partial hq hn (fun p hp => ⟨(hs' p hp).2.2.1, (hs' p hp).2.2.2.1⟩) (maxWidth := none) (maxHeight := none) h1).1

example : demoSizes ≠ [] ∧ demoSizes.length ≤ 2 ^ 31 ∧ (∀ p ∈ demoSizes, 0 < p.1 ∧ 0 < p.2 ∧ p.1 * p.2 < 2 ^ 31) ∧
    (∀ p ∈ demoSizes, p.2 * (demoSizes.map (·.1)).sum < 2 ^ 63 - 2) ∧ ∀ p ∈ demoSizes, p.1 * (demoSizes.map (·.2)).sum < 2 ^ 63 - 2 := by
  decide

/-- Six rectangles of which five have areas that are equal modulo 2³². -/
def tiedSizes : List (Int × Int) := [(1, 2 ^ 30), (41, 2 ^ 29), (25, 2 ^ 29), (25, 2 ^ 29), (33, 2 ^ 29), (25, 2 ^ 29)]

/-- Whether packing is said to be impossible. -/
def saysImpossible : Except Err (List (Int × Int)) → Bool
  | .error (.impossible _) => true
  | _ => false

/-- C69 fails for large areas: the compare functions narrow them to `int`, so that rectangles of different sizes tie; the
final packing then goes through the rectangles in another order than the search, and `pack` without limits says that packing
is impossible. -/
theorem C69_counterexample : Sorts (demoSort (α := Rect)) ∧ (∀ p ∈ tiedSizes, 0 < p.1 ∧ 0 < p.2 ∧ p.1 < 2 ^ 31 ∧ p.2 < 2 ^ 31) ∧
    saysImpossible (pack false demoSort tiedSizes none none) = true := by
  refine ⟨demoSort_sorts, by decide, by decide +kernel⟩

/-- C70, one limit: if only the width is limited, to at least the width of each rectangle, then `pack` returns a packing;
likewise for the height. Missing: two limits (`C70_counterexample`). -/
theorem C70_partial {q : Qsort} (hq : Sorts q) {sizes : List (Int × Int)} (hn : sizes.length ≤ 2 ^ 31)
    (hs : ∀ p ∈ sizes, 0 < p.1 ∧ 0 < p.2 ∧ p.1 * p.2 < 2 ^ 31) {m : Int} :
    ((∀ p ∈ sizes, p.1 ≤ m) → (∀ p ∈ sizes, p.1 * (sizes.map (·.2)).sum < 2 ^ 63 - 2) →
      ∃ pos, pack false q sizes (some m) none = .ok pos ∧ Packing sizes pos ∧ ∀ r ∈ place sizes pos, r.x + r.w ≤ m) ∧
    ((∀ p ∈ sizes, p.2 ≤ m) → (∀ p ∈ sizes, p.2 * (sizes.map (·.1)).sum < 2 ^ 63 - 2) →
      ∃ pos, pack false q sizes none (some m) = .ok pos ∧ Packing sizes pos ∧ ∀ r ∈ place sizes pos, r.y + r.h ≤ m) := by
  have hs' : ∀ p ∈ sizes, 0 < p.1 ∧ 0 < p.2 ∧ p.1 < 2 ^ 31 ∧ p.2 < 2 ^ 31 ∧ p.1 * p.2 < 2 ^ 31 := by
    intro p hp
    obtain ⟨h1, h2, h3⟩ := hs p hp
    have := sides_le h1 h2
    exact ⟨h1, h2, by omega, by omega, h3⟩
  by_cases hne : sizes = []
  · subst hne
    exact ⟨fun _ _ => ⟨[], rfl, ⟨rfl, by simp [place], List.Pairwise.nil⟩, by simp [place]⟩,
      fun _ _ => ⟨[], rfl, ⟨rfl, by simp [place], List.Pairwise.nil⟩, by simp [place]⟩⟩
  · obtain ⟨p0, hp0⟩ := List.exists_mem_of_ne_nil _ hne
    have hp := hs' p0 hp0
    constructor
    · intro hm hsum
      have := hm p0 hp0
      obtain ⟨pos, W, H, h1, -⟩ := corePack_total hq hne hn hs' (maxWidth := m) (maxHeight := -1) (fun _ => ⟨by omega, hm⟩)
        (by omega) (Or.inr ⟨by omega, hsum⟩)
      have h1 : pack false q sizes (some m) none = .ok pos := by
        rw [pack_eq, readLimit_pos (by omega)]
        exact h1
      have := C68_partial hq hn (fun p hp => ⟨(hs' p hp).2.2.1, (hs' p hp).2.2.2.1⟩) h1
      exact ⟨pos, h1, this.1, this.2.1 m rfl (by omega)⟩
    · intro hm hsum
      have := hm p0 hp0
      obtain ⟨pos, W, H, h1, -⟩ := corePack_total hq hne hn hs' (maxWidth := -1) (maxHeight := m) (by omega)
        (fun _ => ⟨by omega, hm⟩) (Or.inl ⟨by omega, hsum⟩)
      have h1 : pack false q sizes none (some m) = .ok pos := by
        rw [pack_eq, readLimit_pos (by omega)]
        exact h1
      have := C68_partial hq hn (fun p hp => ⟨(hs' p hp).2.2.1, (hs' p hp).2.2.2.1⟩) h1
      exact ⟨pos, h1, this.1, this.2.2 m rfl (by omega)⟩

example : demoSizes.length ≤ 2 ^ 31 ∧ (∀ p ∈ demoSizes, 0 < p.1 ∧ 0 < p.2 ∧ p.1 * p.2 < 2 ^ 31) ∧ (∀ p ∈ demoSizes, p.1 ≤ 3) ∧
    ∀ p ∈ demoSizes, p.1 * (demoSizes.map (·.2)).sum < 2 ^ 63 - 2 := by
  decide

/-- C70, limits too small: if a positive limit is smaller than a rectangle, `pack` says that packing is impossible, and it
is. -/
theorem C70_too_small {q : Qsort} {debug : Bool} {sizes : List (Int × Int)} (hs : ∀ p ∈ sizes, 0 < p.1 ∧ 0 < p.2)
    {maxWidth maxHeight : Option Int}
    (h : (∃ m, maxWidth = some m ∧ 0 < m ∧ ∃ p ∈ sizes, m < p.1) ∨ ∃ m, maxHeight = some m ∧ 0 < m ∧ ∃ p ∈ sizes, m < p.2) :
    pack debug q sizes maxWidth maxHeight = .error (.impossible []) ∧
      ¬ ∃ pos, Packing sizes pos ∧ (∀ m, maxWidth = some m → ∀ r ∈ place sizes pos, r.x + r.w ≤ m) ∧
        ∀ m, maxHeight = some m → ∀ r ∈ place sizes pos, r.y + r.h ≤ m := by
  have hne : sizes ≠ [] := by
    rintro rfl
    rcases h with ⟨_, _, _, p, hp, _⟩ | ⟨_, _, _, p, hp, _⟩ <;> cases hp
  constructor
  · obtain ⟨s, h1, h2, h3⟩ := make_spec (sizes := sizes) hs
    obtain ⟨-, -, -, -, m5⟩ := make_sums hne hs h2 h3
    have small : ∀ {m t l : Int}, 0 < m → m < l → limit m t l = .error (.impossible []) := by
      intro m t l h1 h2
      unfold limit
      rw [if_neg (by omega), if_neg (by omega), if_pos h2]
    have any : ∀ m t l, limit m t l = .error (.impossible []) ∨ ∃ k, limit m t l = .ok k := by
      intro m t l
      unfold limit
      split
      · exact Or.inr ⟨_, rfl⟩
      · split
        · exact Or.inl rfl
        · split
          · exact Or.inl rfl
          · exact Or.inr ⟨_, rfl⟩
    rw [pack_eq]
    unfold corePack
    rw [if_neg hne, h1]
    simp only [bind, Except.bind]
    rcases h with ⟨m, rfl, hm, p, hp, hlt⟩ | ⟨m, rfl, hm, p, hp, hlt⟩
    · have := (m5 p hp).1
      rw [readLimit_pos hm, small hm (by omega)]
    · have := (m5 p hp).2
      rw [readLimit_pos hm]
      rcases any (readLimit maxWidth) s.sumWidth s.maxWidth with e | ⟨k, e⟩
      · rw [e]
      · rw [e, small hm (by omega)]
  · rintro ⟨pos, k1, k2, k3⟩
    have mem : ∀ p ∈ sizes, ∃ r ∈ place sizes pos, r.w = p.1 ∧ r.h = p.2 ∧ 0 ≤ r.x ∧ 0 ≤ r.y := by
      intro p hp
      obtain ⟨i, hi, rfl⟩ := List.mem_iff_getElem.mp hp
      have hi' : i < pos.length := by rw [k1.all]; exact hi
      have hm : (⟨pos[i].1, pos[i].2, sizes[i].1, sizes[i].2⟩ : Placed) ∈ place sizes pos := by
        refine List.mem_iff_getElem.mpr ⟨i, by simp [place]; omega, ?_⟩
        simp [place]
      exact ⟨_, hm, rfl, rfl, k1.corner _ hm⟩
    rcases h with ⟨m, rfl, hm, p, hp, hlt⟩ | ⟨m, rfl, hm, p, hp, hlt⟩
    · obtain ⟨r, hr, e1, e2, e3, e4⟩ := mem p hp
      have := k2 m rfl r hr
      omega
    · obtain ⟨r, hr, e1, e2, e3, e4⟩ := mem p hp
      have := k3 m rfl r hr
      omega

example : (∀ p ∈ demoSizes, 0 < p.1 ∧ 0 < p.2) ∧ ∃ p ∈ demoSizes, 2 < p.1 := by decide

/-- C70, limits that are ignored: a limit that is zero or negative has no effect. -/
theorem C70_ignored {q : Qsort} {debug : Bool} {sizes : List (Int × Int)} {m : Int} (hm : m ≤ 0) (other : Option Int) :
    pack debug q sizes (some m) other = pack debug q sizes none other ∧
      pack debug q sizes other (some m) = pack debug q sizes other none := by
  have h1 : readLimit (some m) < 0 := readLimit_neg (by rintro k ⟨⟩; exact hm)
  have h2 : readLimit none < 0 := readLimit_neg (by rintro k ⟨⟩)
  exact ⟨corePack_neg (Or.inr ⟨h1, h2⟩) (Or.inl rfl), corePack_neg (Or.inl rfl) (Or.inr ⟨h1, h2⟩)⟩

/-- Five rectangles that fill a box of width 9 and height 4 around the middle one. -/
def wheelSizes : List (Int × Int) := [(6, 2), (3, 3), (7, 1), (2, 2), (4, 1)]

/-- The places of the rectangles in that box. -/
def wheelPositions : List (Int × Int) := [(0, 0), (6, 0), (2, 3), (0, 2), (2, 2)]

/-- C70 fails for two limits: `pack` says that packing is impossible although there is a packing within them. -/
theorem C70_counterexample : Sorts (demoSort (α := Rect)) ∧
    saysImpossible (pack false demoSort wheelSizes (some 9) (some 4)) = true ∧ Packing wheelSizes wheelPositions ∧
    ∀ r ∈ place wheelSizes wheelPositions, r.x + r.w ≤ 9 ∧ r.y + r.h ≤ 4 :=
  ⟨demoSort_sorts, by decide +kernel, ⟨by decide, by decide, by decide⟩, by decide⟩

/-- C71, the bounding box: for one position per rectangle, `bbox_size` returns the smallest box, from the origin on, that
contains them all. -/
theorem C71_box {sizes pos : List (Int × Int)} (hl : pos.length = sizes.length) :
    ∃ W H, bboxSize sizes pos = .ok (W, H) ∧ 0 ≤ W ∧ 0 ≤ H ∧ (∀ r ∈ place sizes pos, r.x + r.w ≤ W ∧ r.y + r.h ≤ H) ∧
      ∀ W' H', 0 ≤ W' → 0 ≤ H' → (∀ r ∈ place sizes pos, r.x + r.w ≤ W' ∧ r.y + r.h ≤ H') → W ≤ W' ∧ H ≤ H' := by
  obtain ⟨W, H, h1, h2, h3, h4, h5⟩ := bboxFrom_spec hl (List.range sizes.length) 0 0 (fun i hi => List.mem_range.mp hi)
  refine ⟨W, H, h1, h2, h3, ?_, ?_⟩
  · intro r hr
    obtain ⟨i, hi⟩ := place_mem.mp hr
    refine h4 i (List.mem_range.mpr ?_) r hi
    obtain ⟨hlt, _⟩ := List.getElem?_eq_some_iff.mp hi
    simp only [place, List.length_zipWith] at hlt
    omega
  · intro W' H' a b c
    exact h5 W' H' a b (fun i _ r hr => c r (place_mem.mpr ⟨i, hr⟩))

example : bboxSize demoSizes [(0, 0), (2, 2), (0, 3), (2, 0)] = .ok (3, 4) := by decide +kernel

/-- C71, overlaps: for positive sizes and one position per rectangle, `overlapping` returns `None` if and only if no two
rectangles share a unit square; otherwise it returns the first pair, by the first and then by the second index, that do. -/
theorem C71_overlap {sizes pos : List (Int × Int)} (hl : pos.length = sizes.length) (hs : ∀ p ∈ sizes, 0 < p.1 ∧ 0 < p.2) :
    (overlapping sizes pos = .ok none ∧ (place sizes pos).Pairwise fun a b => ¬ Overlap a b) ∨
    ∃ i j a b, overlapping sizes pos = .ok (some (i, j)) ∧ i ≠ j ∧ (place sizes pos)[i]? = some a ∧
      (place sizes pos)[j]? = some b ∧ Overlap a b ∧
      ∀ i' j' a' b', (i' < i ∨ (i' = i ∧ j' < j)) → i' ≠ j' → (place sizes pos)[i']? = some a' → (place sizes pos)[j']? = some b' →
        ¬ Overlap a' b' := by
  have hlen : (place sizes pos).length = sizes.length := by simp [place, hl]
  have hpos : ∀ (i : Nat) (r : Placed), (place sizes pos)[i]? = some r → 0 < r.w ∧ 0 < r.h := by
    intro i r hr
    obtain ⟨hlt, e⟩ := List.getElem?_eq_some_iff.mp hr
    rw [← e]
    simp only [place, List.getElem_zipWith]
    exact hs _ (List.getElem_mem _)
  have hlt : ∀ (i : Nat) (r : Placed), (place sizes pos)[i]? = some r → i < sizes.length := by
    intro i r hr
    obtain ⟨hlt, e⟩ := List.getElem?_eq_some_iff.mp hr
    omega
  rcases overlapFrom_spec hl (List.range sizes.length) (fun i hi => List.mem_range.mp hi) with
    ⟨h1, h2⟩ | ⟨pre, i, post, j, a, b, h1, h2, h3, h4, h5, h6, h7, h8, h9⟩
  · left
    refine ⟨h1, ?_⟩
    rw [List.pairwise_iff_getElem]
    intro i j hi hj hij
    have ei := List.getElem?_eq_getElem hi
    have ej := List.getElem?_eq_getElem hj
    rw [overlap_iff (hpos i _ ei) (hpos j _ ej)]
    exact fun hn => hn (h2 i (List.mem_range.mpr (by omega)) j (by omega) (by omega) _ _ ei ej)
  · right
    refine ⟨i, j, a, b, h2, fun e => h4 e.symm, h5, h6, (overlap_iff (hpos i a h5) (hpos j b h6)).mpr h7, ?_⟩
    intro i' j' a' b' hord hne ha hb
    rw [overlap_iff (hpos i' a' ha) (hpos j' b' hb)]
    refine fun hn => hn ?_
    rcases hord with hord | ⟨rfl, hord⟩
    · refine h9 i' ?_ j' (hlt j' b' hb) (fun e => hne e.symm) a' b' ha hb
      have hi : i < sizes.length := hlt i a h5
      have hl' := congrArg List.length h1
      simp at hl'
      have hpre : pre.length = i := by
        have := congrArg (fun l => l[pre.length]?) h1
        simp at this
        simp [show pre.length < sizes.length by omega] at this
        exact this
      have : (List.range sizes.length)[i']? = pre[i']? := by
        rw [h1, List.getElem?_append_left (by omega)]
      rw [List.getElem?_range (by omega)] at this
      exact List.mem_of_getElem? this.symm
    · rw [h5] at ha
      cases ha
      exact h8 j' hord (fun e => hne e.symm) b' hb

example : overlapping demoSizes [(0, 0), (2, 2), (0, 3), (2, 0)] = .ok none ∧
    overlapping demoSizes [(0, 0), (2, 2), (0, 2), (2, 0)] = .ok (some (0, 2)) := by decide +kernel

/-- C71, the density: for a packing of at least one rectangle with positive sizes, `packing_density` is the area of the
rectangles over that of the bounding box, a number above 0 and at most 1. -/
theorem C71_density {sizes pos : List (Int × Int)} (hne : sizes ≠ []) (hs : ∀ p ∈ sizes, 0 < p.1 ∧ 0 < p.2) (hp : Packing sizes pos) :
    ∃ a W H, bboxSize sizes pos = .ok (W, H) ∧ density sizes pos = .ok (a, W * H) ∧
      a = (sizes.map fun p => p.1 * p.2).sum ∧ 0 < a ∧ a ≤ W * H := by
  obtain ⟨W, H, h1, h2, h3, h4, h5⟩ := C71_box hp.all
  have hmap : (place sizes pos).map (fun r => r.w * r.h) = sizes.map fun p => p.1 * p.2 := by
    apply List.ext_getElem
    · simp [place, hp.all]
    · intro i _ _
      simp [place]
  have hwh : ∀ r ∈ place sizes pos, 0 < r.w ∧ 0 < r.h := by
    intro r hr
    obtain ⟨i, hi, rfl⟩ := List.mem_iff_getElem.mp hr
    simp only [place, List.getElem_zipWith]
    exact hs _ (List.getElem_mem _)
  have hle := area_le hp.apart (fun r hr => ⟨Int.le_of_lt (hwh r hr).1, Int.le_of_lt (hwh r hr).2⟩) h2 h3
    (fun r hr => ⟨(hp.corner r hr).1, (hp.corner r hr).2, h4 r hr⟩)
  rw [hmap] at hle
  have hpos : 0 < (sizes.map fun p => p.1 * p.2).sum := by
    obtain ⟨p0, hp0⟩ := List.exists_mem_of_ne_nil _ hne
    have := le_sum_int (l := sizes.map fun p => p.1 * p.2) (by
      intro a ha
      obtain ⟨p, hp, rfl⟩ := List.mem_map.mp ha
      exact Int.mul_pos (hs p hp).1 (hs p hp).2) _ (List.mem_map_of_mem hp0)
    have := Int.mul_pos (hs p0 hp0).1 (hs p0 hp0).2
    omega
  refine ⟨_, W, H, h1, ?_, rfl, hpos, hle⟩
  unfold density
  rw [h1]
  simp only [bind, Except.bind]
  rw [if_neg (by omega)]

example : density demoSizes [(0, 0), (2, 2), (0, 3), (2, 0)] = .ok (12, 12) := by decide +kernel

/-- C71, errors: too few positions raise an index error, and the density of nothing is a division by zero, although `pack`
packs it. -/
theorem C71_errors : bboxSize [(1, 1), (2, 1)] [(0, 0)] = .error .index ∧ overlapping [(1, 1), (2, 1)] [(0, 0)] = .error .index ∧
    pack false demoSort [] none none = .ok [] ∧ density [] [] = .error .zeroDivision := by decide +kernel

end MM
