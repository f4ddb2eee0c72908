import Verif.Pack.Grid
import Mathlib.Data.List.Nodup
import Mathlib.Data.List.Pairwise

/-! Lemmas on the lists of cells of the rectangle packer. -/

namespace MM
namespace Pack

/-- A cell with its start. -/
structure Span where
  index : Nat
  lo : Int
  hi : Int
deriving DecidableEq

/-- The cells with their starts. -/
def spans (p : Int) : List Cell → List Span
  | [] => []
  | c :: cs => ⟨c.index, p, c.endPos⟩ :: spans c.endPos cs

/-- The end of the last cell. -/
def lastEnd (p : Int) : List Cell → Int
  | [] => p
  | c :: cs => lastEnd c.endPos cs

/-- The ends ascend. -/
def Ascend (p : Int) : List Cell → Prop
  | [] => True
  | c :: cs => p < c.endPos ∧ Ascend c.endPos cs

theorem spans_append (p : Int) (a b : List Cell) : spans p (a ++ b) = spans p a ++ spans (lastEnd p a) b := by
  induction a generalizing p with
  | nil => rfl
  | cons c cs ih => simp [spans, lastEnd, ih]

theorem lastEnd_append (p : Int) (a b : List Cell) : lastEnd p (a ++ b) = lastEnd (lastEnd p a) b := by
  induction a generalizing p with
  | nil => rfl
  | cons c cs ih => simp [lastEnd, ih]

theorem Ascend_append (p : Int) (a b : List Cell) : Ascend p (a ++ b) ↔ Ascend p a ∧ Ascend (lastEnd p a) b := by
  induction a generalizing p with
  | nil => simp [Ascend, lastEnd]
  | cons c cs ih => simp [Ascend, lastEnd, ih, and_assoc]

theorem spans_index (p : Int) (a : List Cell) : (spans p a).map (·.index) = a.map (·.index) := by
  induction a generalizing p with
  | nil => rfl
  | cons c cs ih => simp [spans, ih]

theorem Ascend.le {p : Int} {a : List Cell} (h : Ascend p a) : p ≤ lastEnd p a := by
  induction a generalizing p with
  | nil => simp [lastEnd]
  | cons c cs ih => have := ih h.2; have := h.1; simp only [lastEnd]; omega

theorem Ascend.mem {p : Int} {a : List Cell} (h : Ascend p a) {s : Span} (hs : s ∈ spans p a) :
    p ≤ s.lo ∧ s.lo < s.hi ∧ s.hi ≤ lastEnd p a := by
  induction a generalizing p with
  | nil => cases hs
  | cons c cs ih =>
    have h1 := h.1
    have h3 := h.2.le
    simp only [spans, List.mem_cons] at hs
    simp only [lastEnd]
    rcases hs with rfl | hs
    · exact ⟨Int.le_refl _, h1, h3⟩
    · have := ih h.2 hs
      omega

theorem Ascend.pairwise {p : Int} {a : List Cell} (h : Ascend p a) : (spans p a).Pairwise fun s t => s.hi ≤ t.lo := by
  induction a generalizing p with
  | nil => exact List.Pairwise.nil
  | cons c cs ih => exact List.Pairwise.cons (fun t ht => (h.2.mem ht).1) (ih h.2)

theorem Ascend.cover {p : Int} {a : List Cell} (h : Ascend p a) {z : Int} (h0 : p ≤ z) (h1 : z < lastEnd p a) :
    ∃ s ∈ spans p a, s.lo ≤ z ∧ z < s.hi := by
  induction a generalizing p with
  | nil => simp only [lastEnd] at h1; omega
  | cons c cs ih =>
    by_cases hz : z < c.endPos
    · exact ⟨⟨c.index, p, c.endPos⟩, List.mem_cons_self, h0, hz⟩
    · obtain ⟨s, hs, h2⟩ := ih h.2 (by omega) h1
      exact ⟨s, List.mem_cons_of_mem _ hs, h2⟩

theorem spans_split {p : Int} {a : List Cell} {s : Span} (hs : s ∈ spans p a) :
    ∃ pre post, a = pre ++ ⟨s.hi, s.index⟩ :: post ∧ s.lo = lastEnd p pre := by
  induction a generalizing p with
  | nil => cases hs
  | cons c cs ih =>
    simp only [spans, List.mem_cons] at hs
    rcases hs with rfl | hs
    · exact ⟨[], cs, rfl, rfl⟩
    · obtain ⟨pre, post, rfl, h2⟩ := ih hs
      exact ⟨c :: pre, post, rfl, h2⟩

/-- A list of cells is well formed: not empty, ascending to `E`, with distinct indices below `used`. -/
structure Link.Ok (l : Link) (E : Int) : Prop where
  ne : l.cells ≠ []
  asc : Ascend 0 l.cells
  last : lastEnd 0 l.cells = E
  nodup : (l.cells.map (·.index)).Nodup
  lt : ∀ c ∈ l.cells, c.index < l.used

/-- The cells of a list with their starts. -/
def Link.spans (l : Link) : List Span := Pack.spans 0 l.cells

theorem Link.Ok.mem {l : Link} {E : Int} (h : l.Ok E) {s : Span} (hs : s ∈ l.spans) : 0 ≤ s.lo ∧ s.lo < s.hi ∧ s.hi ≤ E := by
  have := h.asc.mem hs
  rwa [h.last] at this

theorem Link.Ok.index_lt {l : Link} {E : Int} (h : l.Ok E) {s : Span} (hs : s ∈ l.spans) : s.index < l.used := by
  have : s.index ∈ l.cells.map (·.index) := by
    rw [← spans_index 0]; exact List.mem_map_of_mem hs
  obtain ⟨c, hc, e⟩ := List.mem_map.mp this
  rw [← e]; exact h.lt c hc

theorem eq_of_index {p : Int} {a : List Cell} (h : (a.map (·.index)).Nodup) {s t : Span} (hs : s ∈ spans p a)
    (ht : t ∈ spans p a) (e : s.index = t.index) : s = t := by
  rw [← spans_index p] at h
  exact List.inj_on_of_nodup_map h hs ht e

theorem Link.Ok.inj {l : Link} {E : Int} (h : l.Ok E) {s t : Span} (hs : s ∈ l.spans) (ht : t ∈ l.spans)
    (e : s.index = t.index) : s = t := eq_of_index h.nodup hs ht e

theorem Link.Ok.apart {l : Link} {E : Int} (h : l.Ok E) {s t : Span} (hs : s ∈ l.spans) (ht : t ∈ l.spans) :
    s = t ∨ s.hi ≤ t.lo ∨ t.hi ≤ s.lo := by
  have hp := List.pairwise_iff_getElem.mp h.asc.pairwise
  obtain ⟨i, hi, rfl⟩ := List.mem_iff_getElem.mp hs
  obtain ⟨j, hj, rfl⟩ := List.mem_iff_getElem.mp ht
  rcases Nat.lt_trichotomy i j with h | h | h
  · exact Or.inr (Or.inl (hp i j hi hj h))
  · subst h; exact Or.inl rfl
  · exact Or.inr (Or.inr (hp j i hj hi h))

theorem cellsFrom_append {pre post : List Cell} {c : Cell} (h : ((pre ++ c :: post).map (·.index)).Nodup) :
    cellsFrom (pre ++ c :: post) c.index = c :: post := by
  induction pre with
  | nil => simp [cellsFrom]
  | cons d ds ih =>
    simp only [List.cons_append, List.map_cons, List.nodup_cons] at h
    have : d.index ≠ c.index := fun e => h.1 (by simp [e])
    simp only [List.cons_append, cellsFrom, if_neg this]
    exact ih h.2

theorem cutCells_append {pre post : List Cell} {v new : Nat} {b e : Int}
    (h : ((pre ++ ⟨b, v⟩ :: post).map (·.index)).Nodup) :
    cutCells v e new (pre ++ ⟨b, v⟩ :: post) = pre ++ ⟨e, v⟩ :: ⟨b, new⟩ :: post := by
  induction pre with
  | nil => simp [cutCells]
  | cons d ds ih =>
    simp only [List.cons_append, List.map_cons, List.nodup_cons] at h
    have : d.index ≠ v := fun e => h.1 (by simp [e])
    simp only [List.cons_append, cutCells, if_neg this]
    rw [ih h.2]

theorem prevEnd_append {pre post : List Cell} {c : Cell} (h : ((pre ++ c :: post).map (·.index)).Nodup) (hp : pre ≠ [])
    (p : Int) : prevEnd (pre ++ c :: post) c.index = some (lastEnd p pre) := by
  induction pre generalizing p with
  | nil => exact absurd rfl hp
  | cons d ds ih =>
    simp only [List.cons_append, List.map_cons, List.nodup_cons] at h
    cases ds with
    | nil => simp [prevEnd, lastEnd]
    | cons d' ds' =>
      have : d'.index ≠ c.index := by
        have := h.2
        simp only [List.cons_append, List.map_cons, List.nodup_cons] at this
        exact fun e => this.1 (by simp [e])
      simp only [List.cons_append, prevEnd, if_neg this]
      exact ih h.2 (by simp) d.endPos

theorem startFrom_append {pre post : List Cell} {c : Cell} (h : ((pre ++ c :: post).map (·.index)).Nodup) (p : Int) :
    startFrom p (pre ++ c :: post) c.index = lastEnd p pre := by
  induction pre generalizing p with
  | nil => simp [startFrom, lastEnd]
  | cons d ds ih =>
    simp only [List.cons_append, List.map_cons, List.nodup_cons] at h
    have : d.index ≠ c.index := fun e => h.1 (by simp [e])
    simp only [List.cons_append, startFrom, if_neg this, lastEnd]
    exact ih h.2 _

theorem Link.Ok.startPos {l : Link} {E : Int} (h : l.Ok E) {s : Span} (hs : s ∈ l.spans) : l.startPos s.index = s.lo := by
  obtain ⟨pre, post, e, e2⟩ := spans_split hs
  have := h.nodup
  rw [e] at this
  rw [Link.startPos, e, e2]
  exact startFrom_append (c := ⟨s.hi, s.index⟩) this 0

theorem Link.Ok.endOf {l : Link} {E : Int} (h : l.Ok E) {s : Span} (hs : s ∈ l.spans) : l.endOf s.index = .ok s.hi := by
  obtain ⟨pre, post, e, e2⟩ := spans_split hs
  have := h.nodup
  rw [e] at this
  rw [Link.endOf, e, cellsFrom_append (c := ⟨s.hi, s.index⟩) this]

/-- What `cut` does to a well formed list. -/
theorem Link.Ok.cut {l : Link} {E e : Int} (h : l.Ok E) {s : Span} (hs : s ∈ l.spans) (h0 : s.lo < e) (h1 : e < s.hi)
    (hz : l.used < l.size) : ∃ l', l.cut s.index e = .ok l' ∧ l'.Ok E ∧ l'.size = l.size ∧ l'.used = l.used + 1 ∧
      ∀ t, t ∈ l'.spans ↔ t = ⟨s.index, s.lo, e⟩ ∨ t = ⟨l.used, e, s.hi⟩ ∨ (t ∈ l.spans ∧ t ≠ s) := by
  obtain ⟨pre, post, e1, e2⟩ := spans_split hs
  have hn := h.nodup
  have ha := h.asc
  have hl := h.last
  have hlt := h.lt
  rw [e1] at hn ha hl hlt
  have hc : l.cut s.index e = .ok ⟨l.size, l.used + 1, pre ++ ⟨e, s.index⟩ :: ⟨s.hi, l.used⟩ :: post⟩ := by
    rw [Link.cut, if_pos hz, e1, cutCells_append hn]
  refine ⟨_, hc, ⟨?_, ?_, ?_, ?_, ?_⟩, rfl, rfl, ?_⟩
  · simp
  · rw [Ascend_append] at ha ⊢
    simp only [Ascend] at ha ⊢
    rw [← e2] at ha ⊢
    exact ⟨ha.1, h0, h1, ha.2.2⟩
  · rw [lastEnd_append] at hl ⊢
    simpa [lastEnd] using hl
  · have h3 : l.used ∉ (pre ++ (⟨s.hi, s.index⟩ : Cell) :: post).map (·.index) := by
      intro hm
      obtain ⟨c, hc, e⟩ := List.mem_map.mp hm
      have := hlt c hc
      omega
    simp only [List.map_append, List.map_cons, List.nodup_append, List.nodup_cons, List.mem_append, List.mem_cons, not_or]
      at hn h3 ⊢
    refine ⟨hn.1, ⟨⟨fun e => h3.2.1 e.symm, hn.2.1.1⟩, ⟨h3.2.2, hn.2.1.2⟩⟩, ?_⟩
    intro a ha b hb
    rcases hb with rfl | rfl | hb
    · exact hn.2.2 a ha _ (Or.inl rfl)
    · exact fun e => h3.1 (e ▸ ha)
    · exact hn.2.2 a ha _ (Or.inr hb)
  · intro c hc
    simp only [List.mem_append, List.mem_cons] at hc hlt
    show c.index < l.used + 1
    rcases hc with hc | rfl | rfl | hc
    · have := hlt c (Or.inl hc); omega
    · have := hlt ⟨s.hi, s.index⟩ (Or.inr (Or.inl rfl)); dsimp only at this ⊢; omega
    · exact Nat.lt_succ_self _
    · have := hlt c (Or.inr (Or.inr hc)); omega
  · intro t
    have hs' : s = ⟨s.index, lastEnd 0 pre, s.hi⟩ := by rw [← e2]
    have hin : ∀ t, t ∈ l.spans ↔ t ∈ Pack.spans 0 pre ∨ t = s ∨ t ∈ Pack.spans s.hi post := by
      intro t
      rw [Link.spans, e1, spans_append]
      simp only [Pack.spans, List.mem_append, List.mem_cons]
      rw [← hs']
    have hne : ∀ t, t ∈ Pack.spans 0 pre ∨ t ∈ Pack.spans s.hi post → t ≠ s := by
      rintro t ht rfl
      rw [Ascend_append] at ha
      rcases ht with ht | ht
      · have := ha.1.mem ht; omega
      · have := (show Ascend t.hi post from ha.2.2).mem ht; omega
    rw [hin, Link.spans]
    show t ∈ Pack.spans 0 (pre ++ ⟨e, s.index⟩ :: ⟨s.hi, l.used⟩ :: post) ↔ _
    rw [spans_append]
    simp only [Pack.spans, List.mem_append, List.mem_cons]
    rw [← e2]
    constructor
    · rintro (h | h | h | h)
      · exact Or.inr (Or.inr ⟨Or.inl h, hne t (Or.inl h)⟩)
      · exact Or.inl h
      · exact Or.inr (Or.inl h)
      · exact Or.inr (Or.inr ⟨Or.inr (Or.inr h), hne t (Or.inr h)⟩)
    · rintro (h | h | ⟨h | h | h, h'⟩)
      · exact Or.inr (Or.inl h)
      · exact Or.inr (Or.inr (Or.inl h))
      · exact Or.inl h
      · exact absurd h h'
      · exact Or.inr (Or.inr (Or.inr h))

end Pack
end MM
