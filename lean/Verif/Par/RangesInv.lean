import Verif.Par.Threads
import Verif.Par.Chunks
import Mathlib.Data.List.Nodup

/-! Workers on disjoint ranges of an array: the outcome does not depend on the schedule. -/

namespace MM
namespace Par

variable {α : Type}

/-- What the accesses of a loop make of entry `q`, one after the other. -/
def playAt (q : Nat) : List (Access α) → α → α
  | [], x => x
  | a :: l, x => playAt q l (if a.1 = q then a.2 x else x)

theorem playAt_append (q : Nat) (l l' : List (Access α)) (x : α) :
    playAt q (l ++ l') x = playAt q l' (playAt q l x) := by
  induction l generalizing x with
  | nil => rfl
  | cons a l ih => simp only [List.cons_append, playAt, ih]

theorem playAt_none {q : Nat} {l : List (Access α)} (h : ∀ a ∈ l, a.1 ≠ q) (x : α) : playAt q l x = x := by
  induction l generalizing x with
  | nil => rfl
  | cons a l ih =>
    unfold playAt
    rw [if_neg (h a (by simp))]
    exact ih (fun b hb => h b (by simp [hb])) x

/-- A loop over a list without repetitions touches an entry once. -/
theorem playAt_map {q : Nat} {l : List Nat} (hnd : l.Nodup) (hq : q ∈ l) (f : Nat → α → α) (x : α) :
    playAt q (l.map fun p => (p, f p)) x = f q x := by
  induction l generalizing x with
  | nil => cases hq
  | cons p l ih =>
    rw [List.nodup_cons] at hnd
    unfold List.map playAt
    dsimp only
    by_cases hp : p = q
    · subst hp
      rw [if_pos rfl]
      refine playAt_none ?_ _
      intro a ha
      obtain ⟨b, hb, rfl⟩ := List.mem_map.1 ha
      rintro rfl
      exact hnd.1 hb
    · rw [if_neg hp]
      exact ih hnd.2 (by rcases List.mem_cons.1 hq with h | h
                         · exact absurd h.symm hp
                         · exact h) x

/-- The invariant, when the workers began with `prog0` on `mem0`. -/
structure RInv (prog0 : Nat → List (Access α)) (mem0 : Nat → α) (X : Ranges α) : Prop where
  rest : ∀ i, ∃ l, prog0 i = l ++ X.prog i
  cell : ∀ q i, (∃ a ∈ prog0 i, a.1 = q) → playAt q (X.prog i) (X.mem q) = playAt q (prog0 i) (mem0 q)
  out : ∀ q, (∀ i, ∀ a ∈ prog0 i, a.1 ≠ q) → X.mem q = mem0 q

theorem RInv.init (prog0 : Nat → List (Access α)) (mem0 : Nat → α) : RInv prog0 mem0 ⟨prog0, mem0⟩ :=
  ⟨fun _ => ⟨[], rfl⟩, fun _ _ _ => rfl, fun _ _ => rfl⟩

/-- No entry is touched by two workers. -/
def Apart (prog0 : Nat → List (Access α)) : Prop :=
  ∀ i j, ∀ a ∈ prog0 i, ∀ b ∈ prog0 j, a.1 = b.1 → i = j

theorem RInv.step {prog0 : Nat → List (Access α)} {mem0 : Nat → α} {X Y : Ranges α} (hap : Apart prog0)
    (h : RInv prog0 mem0 X) {i : Nat} (hs : RangeStep i X Y) : RInv prog0 mem0 Y := by
  cases hs with
  | @access q f l hp =>
    obtain ⟨l0, hl0⟩ := h.rest i
    have hmem : (q, f) ∈ prog0 i := by rw [hl0, hp]; simp
    refine ⟨?_, ?_, ?_⟩
    · intro j
      by_cases hj : j = i
      · subst hj
        dsimp only
        rw [upd_same]
        exact ⟨l0 ++ [(q, f)], by rw [hl0, hp]; simp⟩
      · dsimp only; rw [upd_ne _ _ hj]; exact h.rest j
    · intro p j ⟨a, ha, hap'⟩
      dsimp only
      have hc := h.cell p j ⟨a, ha, hap'⟩
      by_cases hj : j = i
      · subst hj
        rw [upd_same]
        rw [hp] at hc
        have hc : playAt p l (if q = p then f (X.mem p) else X.mem p) = playAt p (prog0 j) (mem0 p) := hc
        rw [← hc]
        by_cases hpq : q = p
        · subst hpq; rw [upd_same, if_pos rfl]
        · rw [upd_ne _ _ (fun h => hpq h.symm), if_neg hpq]
      · rw [upd_ne _ _ hj]
        have : p ≠ q := by
          rintro rfl
          exact hj (hap j i a ha (p, f) hmem hap')
        rw [upd_ne _ _ this]; exact hc
    · intro p hp'
      dsimp only
      have : p ≠ q := fun e => hp' i _ hmem e.symm
      rw [upd_ne _ _ this]; exact h.out p hp'

/-- The array at the end. -/
theorem RInv.final {prog0 : Nat → List (Access α)} {mem0 : Nat → α} {X : Ranges α} (h : RInv prog0 mem0 X) {k : Nat}
    (hd : X.Done k) {q i : Nat} (hi : i < k) (hq : ∃ a ∈ prog0 i, a.1 = q) : X.mem q = playAt q (prog0 i) (mem0 q) := by
  have := h.cell q i hq
  rw [hd i hi] at this
  exact this

/-- Accesses left. -/
def Ranges.left (k : Nat) (X : Ranges α) : Nat := ((List.range k).map fun i => (X.prog i).length).sum

theorem RangeStep.decreases {X Y : Ranges α} {i k : Nat} (hi : i < k) (hs : RangeStep i X Y) : Y.left k < X.left k := by
  cases hs with
  | @access q f l hp =>
    unfold Ranges.left
    dsimp only
    have key : ∀ n, ((List.range n).map fun j => (upd X.prog i l j).length).sum + (if i < n then 1 else 0) =
        ((List.range n).map fun j => (X.prog j).length).sum := by
      intro n
      induction n with
      | zero => simp
      | succ n ih =>
        simp only [List.range_succ, List.map_append, List.map_cons, List.map_nil, List.sum_append, List.sum_cons,
          List.sum_nil]
        by_cases hin : i = n
        · subst hin
          rw [if_neg (by omega)] at ih
          rw [if_pos (by omega), upd_same, hp, List.length_cons]
          omega
        · rw [upd_ne _ _ (fun h => hin h.symm)]
          by_cases hlt : i < n
          · rw [if_pos hlt] at ih; rw [if_pos (by omega)]; omega
          · rw [if_neg hlt] at ih; rw [if_neg (by omega)]; omega
    have := key k
    rw [if_pos hi] at this
    omega

theorem Ranges.progress {X : Ranges α} {k : Nat} (h : ¬ X.Done k) : ∃ i Y, i < k ∧ RangeStep i X Y := by
  unfold Ranges.Done at h
  simp only [not_forall] at h
  obtain ⟨i, hi, hne⟩ := h
  cases hp : X.prog i with
  | nil => exact absurd hp hne
  | cons a l => exact ⟨i, _, hi, .access (q := a.1) (f := a.2) hp⟩

/-! ### the ranges -/

theorem range_lt {n k j q : Nat} (hk : 0 < k) (h : q ∈ range n k j) : q < n ∧ j < k := by
  unfold range at h
  split at h
  · simp at h
  · next c hc =>
    have hj := (List.getElem?_eq_some_iff.1 hc).1
    have hm : q ∈ (chunks n k).flatMap (fun c => List.range' c.1 (c.2 - c.1)) :=
      List.mem_flatMap.2 ⟨c, List.mem_of_getElem? hc, h⟩
    rw [chunks_cover hk] at hm
    have := (List.mem_range'_1.1 hm).2
    unfold chunks at hj
    rw [chunkLoop_length] at hj
    omega

theorem range_nodup (n k j : Nat) : (range n k j).Nodup := by
  unfold range
  split
  · exact List.nodup_nil
  · exact List.nodup_range'

theorem range_apart {n k i j q : Nat} (hk : 0 < k) (hi : q ∈ range n k i) (hj : q ∈ range n k j) : i = j := by
  have hnd : ((chunks n k).flatMap (fun c => List.range' c.1 (c.2 - c.1))).Nodup := by
    rw [chunks_cover hk]; exact List.nodup_range'
  rw [List.nodup_flatMap] at hnd
  have key : ∀ a b, a < b → q ∈ range n k a → q ∈ range n k b → False := by
    intro a b hab ha hb
    unfold range at ha hb
    split at ha
    · simp at ha
    next c hc =>
    split at hb
    · simp at hb
    next d hd =>
    obtain ⟨la, ea⟩ := List.getElem?_eq_some_iff.1 hc
    obtain ⟨lb, eb⟩ := List.getElem?_eq_some_iff.1 hd
    have := List.pairwise_iff_getElem.1 hnd.2 a b la lb hab
    rw [ea, eb] at this
    exact this ha hb
  by_contra hne
  rcases Nat.lt_or_gt_of_ne hne with h | h
  · exact key i j h hi hj
  · exact key j i h hj hi

theorem range_cover {n k q : Nat} (hk : 0 < k) (hq : q < n) : ∃ j, j < k ∧ q ∈ range n k j := by
  have : q ∈ (chunks n k).flatMap (fun c => List.range' c.1 (c.2 - c.1)) := by
    rw [chunks_cover hk]; exact List.mem_range'_1.2 (by omega)
  obtain ⟨c, hc, hqc⟩ := List.mem_flatMap.1 this
  obtain ⟨j, hj⟩ := List.mem_iff_getElem?.1 hc
  have hm : q ∈ range n k j := by unfold range; rw [hj]; exact hqc
  exact ⟨j, (range_lt hk hm).2, hm⟩

/-- Loops over the ranges keep apart. -/
theorem apart_of_range {n k : Nat} (hk : 0 < k) {prog : Nat → List (Access α)}
    (h : ∀ j, ∀ a ∈ prog j, a.1 ∈ range n k j) : Apart prog := by
  intro i j a ha b hb e
  have := h j b hb
  rw [← e] at this
  exact range_apart hk (h i a ha) this

end Par
end MM
