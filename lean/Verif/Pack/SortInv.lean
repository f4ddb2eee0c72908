import Verif.Pack.Pack
import Verif.Spec.Pack
import Mathlib.Data.List.Perm.Basic
import Mathlib.Data.List.Sort

/-! The compare functions of the rectangle packer, and the rectangle set. -/

namespace MM
namespace Pack

open Spec.Pack

theorem downCmp_le {a b : Int} : downCmp a b ≤ 0 ↔ toInt b ≤ toInt a := by
  unfold downCmp
  split
  · omega
  · split <;> omega

theorem downCmp_lt {a b : Int} : downCmp a b < 0 ↔ toInt b < toInt a := by
  unfold downCmp
  split
  · omega
  · split <;> omega

theorem downCmp_gt {a b : Int} : 0 < downCmp a b ↔ toInt a < toInt b := by
  unfold downCmp
  split
  · omega
  · split <;> omega

theorem downCmp_eq {a b : Int} : downCmp a b = 0 ↔ toInt a = toInt b := by
  unfold downCmp
  split
  · omega
  · split <;> omega

/-- Comparison of a first and then of a second number, larger ones first. -/
def lexCmp (f : Rect → Int) (a b : Rect) : Int := if downCmp (f a) (f b) = 0 then areaCmp a b else downCmp (f a) (f b)

theorem lexCmp_le {f : Rect → Int} {a b : Rect} : lexCmp f a b ≤ 0 ↔
    toInt (f b) < toInt (f a) ∨ (toInt (f a) = toInt (f b) ∧ toInt b.area ≤ toInt a.area) := by
  unfold lexCmp areaCmp
  by_cases h : downCmp (f a) (f b) = 0
  · rw [if_pos h, downCmp_le]
    rw [downCmp_eq] at h
    omega
  · rw [if_neg h, downCmp_le]
    rw [downCmp_eq] at h
    omega

theorem lexCmp_consistent (f : Rect → Int) : Consistent (lexCmp f) := by
  constructor
  · intro a b
    unfold lexCmp areaCmp
    by_cases h : downCmp (f a) (f b) = 0
    · have h' : downCmp (f b) (f a) = 0 := by rw [downCmp_eq] at h ⊢; omega
      rw [if_pos h, if_pos h', downCmp_lt, downCmp_gt]
    · have h' : ¬ downCmp (f b) (f a) = 0 := by rw [downCmp_eq] at h ⊢; omega
      rw [if_neg h, if_neg h', downCmp_lt, downCmp_gt]
  · intro a b c
    simp only [lexCmp_le]
    omega

theorem widthCmp_consistent : Consistent widthCmp := lexCmp_consistent (·.width)

theorem heightCmp_consistent : Consistent heightCmp := lexCmp_consistent (·.height)

theorem indexCmp_le {a b : Rect} : indexCmp a b ≤ 0 ↔ toInt a.index ≤ toInt b.index := by
  unfold indexCmp
  split
  · omega
  · split <;> omega

theorem indexCmp_consistent : Consistent indexCmp := by
  constructor
  · intro a b
    unfold indexCmp
    constructor
    · intro h
      split at h
      · rw [if_neg (by omega), if_neg (by omega)]; omega
      · split at h <;> omega
    · intro h
      split at h
      · omega
      · split at h
        · omega
        · rw [if_pos (by omega)]; omega
  · intro a b c
    simp only [indexCmp_le]
    omega

/-- The rectangle with the given index and size, not yet placed. -/
def fresh (p : (Int × Int) × Nat) : Rect := ⟨p.1.1, p.1.2, -1, -1, p.2, p.1.1 * p.1.2⟩

/-- A rectangle turned by a right angle. -/
def Rect.turn (r : Rect) : Rect := { r with width := r.height, height := r.width }

/-- What a rectangle set says about its rectangles. -/
structure RSet.Sums (s : RSet) : Prop where
  sw : s.sumWidth = (s.rects.map (·.width)).sum
  sh : s.sumHeight = (s.rects.map (·.height)).sum
  mw : ∀ r ∈ s.rects, r.width ≤ s.maxWidth
  mh : ∀ r ∈ s.rects, r.height ≤ s.maxHeight
  mw' : s.maxWidth = 0 ∨ ∃ r ∈ s.rects, s.maxWidth = r.width
  mh' : s.maxHeight = 0 ∨ ∃ r ∈ s.rects, s.maxHeight = r.height

theorem fill_spec : ∀ (sizes : List (Int × Int)) (s : RSet) (i : Nat), s.Sums →
    (∀ p ∈ sizes, 0 < p.1 ∧ 0 < p.2) → ∃ s', s.fill i sizes = .ok s' ∧ s'.Sums ∧
      s'.rects = s.rects ++ (sizes.zipIdx i).map fresh := by
  intro sizes
  induction sizes with
  | nil => intro s i h _; exact ⟨s, rfl, h, by simp⟩
  | cons p sizes ih =>
    intro s i h hp
    obtain ⟨w, h'⟩ := p
    have hpos := hp (w, h') (by simp)
    simp only at hpos
    simp only [RSet.fill]
    rw [if_neg (by omega)]
    obtain ⟨s', k1, k2, k3⟩ := ih ⟨s.rects ++ [⟨w, h', -1, -1, i, w * h'⟩], s.sumWidth + w, s.sumHeight + h',
      if s.maxWidth < w then w else s.maxWidth, if s.maxHeight < h' then h' else s.maxHeight⟩ (i + 1) (by
        constructor
        · simp [h.sw]
        · simp [h.sh]
        · intro r hr
          simp only [List.mem_append, List.mem_singleton] at hr
          show r.width ≤ if s.maxWidth < w then w else s.maxWidth
          rcases hr with hr | rfl
          · have := h.mw r hr
            split <;> omega
          · split <;> simp only <;> omega
        · intro r hr
          simp only [List.mem_append, List.mem_singleton] at hr
          show r.height ≤ if s.maxHeight < h' then h' else s.maxHeight
          rcases hr with hr | rfl
          · have := h.mh r hr
            split <;> omega
          · split <;> simp only <;> omega
        · show (if s.maxWidth < w then w else s.maxWidth) = 0 ∨ _
          split
          · exact Or.inr ⟨_, List.mem_append.mpr (Or.inr (List.mem_singleton.mpr rfl)), rfl⟩
          · exact h.mw'.imp_right (fun ⟨r, hr, e⟩ => ⟨r, List.mem_append.mpr (Or.inl hr), e⟩)
        · show (if s.maxHeight < h' then h' else s.maxHeight) = 0 ∨ _
          split
          · exact Or.inr ⟨_, List.mem_append.mpr (Or.inr (List.mem_singleton.mpr rfl)), rfl⟩
          · exact h.mh'.imp_right (fun ⟨r, hr, e⟩ => ⟨r, List.mem_append.mpr (Or.inl hr), e⟩)) (fun p hp' => hp p (by simp [hp']))
    exact ⟨s', k1, k2, by rw [k3]; simp [fresh]⟩

theorem make_spec {sizes : List (Int × Int)} (hp : ∀ p ∈ sizes, 0 < p.1 ∧ 0 < p.2) :
    ∃ s, RSet.make sizes = .ok s ∧ s.Sums ∧ s.rects = sizes.zipIdx.map fresh := by
  obtain ⟨s, h1, h2, h3⟩ := fill_spec sizes ⟨[], 0, 0, 0, 0⟩ 0 ⟨rfl, rfl, by simp, by simp, Or.inl rfl, Or.inl rfl⟩ hp
  exact ⟨s, h1, h2, by simpa using h3⟩

theorem sum_perm {l l' : List Int} (h : l.Perm l') : l.sum = l'.sum := by
  induction h with
  | nil => rfl
  | cons x _ ih => simp [ih]
  | swap x y l => simp only [List.sum_cons]; omega
  | trans _ _ h1 h2 => rw [h1, h2]

theorem RSet.Sums.perm {s : RSet} (h : s.Sums) {l : List Rect} (hl : l.Perm s.rects) : ({ s with rects := l } : RSet).Sums := by
  refine ⟨?_, ?_, fun r hr => h.mw r (hl.mem_iff.mp hr), fun r hr => h.mh r (hl.mem_iff.mp hr), ?_, ?_⟩
  · rw [show s.sumWidth = _ from h.sw]
    exact (sum_perm (hl.map (fun r : Rect => r.width))).symm
  · rw [show s.sumHeight = _ from h.sh]
    exact (sum_perm (hl.map (fun r : Rect => r.height))).symm
  · exact h.mw'.imp_right (fun ⟨r, hr, e⟩ => ⟨r, hl.mem_iff.mpr hr, e⟩)
  · exact h.mh'.imp_right (fun ⟨r, hr, e⟩ => ⟨r, hl.mem_iff.mpr hr, e⟩)

theorem RSet.Sums.rotate {s : RSet} (h : s.Sums) : s.rotate.Sums := by
  refine ⟨?_, ?_, ?_, ?_, ?_, ?_⟩
  · show s.sumHeight = _
    rw [h.sh]; simp [RSet.rotate, Function.comp_def]
  · show s.sumWidth = _
    rw [h.sw]; simp [RSet.rotate, Function.comp_def]
  · intro r hr
    obtain ⟨a, ha, rfl⟩ := List.mem_map.mp hr
    exact h.mh a ha
  · intro r hr
    obtain ⟨a, ha, rfl⟩ := List.mem_map.mp hr
    exact h.mw a ha
  · exact h.mh'.imp_right (fun ⟨r, hr, e⟩ => ⟨_, List.mem_map_of_mem hr, e⟩)
  · exact h.mw'.imp_right (fun ⟨r, hr, e⟩ => ⟨_, List.mem_map_of_mem hr, e⟩)

end Pack
end MM
