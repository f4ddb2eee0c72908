import Mathlib.Data.Int.Order.Basic
import Verif.Eden.BicliqueInv

/-! The choice of bicliques. -/

namespace MM
namespace Eden

open Spec.Eden (Qb Biclique Box LexLe)

variable {P : Proc}

theorem lexLt_iff {β : Type} [LinearOrder β] (a b : β × β) : lexLt a b = true ↔ a.1 < b.1 ∨ a.1 = b.1 ∧ a.2 < b.2 := by
  unfold lexLt
  rw [Bool.or_eq_true, decide_eq_true_eq, decide_eq_true_eq]

theorem not_lexLt {β : Type} [LinearOrder β] (a b : β × β) : lexLt a b = false ↔ LexLe b a := by
  rw [← Bool.not_eq_true, lexLt_iff, LexLe]
  rcases lt_trichotomy a.1 b.1 with h | h | h
  · simp [h, h.ne', not_lt_of_gt h]
  · simp [h]
  · simp [h, h.ne', not_lt_of_gt h]

theorem lexLe_refl {β : Type} [LinearOrder β] (a : β × β) : LexLe a a := .inr ⟨rfl, le_refl _⟩

theorem lexLe_trans {β : Type} [LinearOrder β] {a b c : β × β} (h : LexLe a b) (k : LexLe b c) : LexLe a c := by
  rcases h with h | ⟨h, h'⟩ <;> rcases k with k | ⟨k, k'⟩
  · exact .inl (h.trans k)
  · exact .inl (k ▸ h)
  · exact .inl (h ▸ k)
  · exact .inr ⟨h.trans k, h'.trans k'⟩

theorem lexLe_of_lt {β : Type} [LinearOrder β] {a b : β × β} (h : lexLt a b = true) : LexLe a b := by
  rcases (lexLt_iff a b).mp h with h | ⟨h, h'⟩
  · exact .inl h
  · exact .inr ⟨h, h'.le⟩

/-- The loop over items finds the shortest chains. -/
theorem shorter_spec (ok : Int × Int → Bool) (l : List Item) (B : (Int × Int) × Option Item) :
    (l.foldl (shorter ok) B = B ∨ ∃ i ∈ l, ok (longFirst i.lens) = true ∧ l.foldl (shorter ok) B = (longFirst i.lens, some i)) ∧
      LexLe (l.foldl (shorter ok) B).1 B.1 ∧ ∀ i ∈ l, ok (longFirst i.lens) = true → LexLe (l.foldl (shorter ok) B).1 (longFirst i.lens) := by
  induction l generalizing B with
  | nil => exact ⟨.inl rfl, lexLe_refl _, fun i h => by simp at h⟩
  | cons i l ih =>
    obtain ⟨h1, h2, h3⟩ := ih (shorter ok B i)
    rw [List.foldl_cons]
    by_cases hi : (ok (longFirst i.lens) && lexLt (longFirst i.lens) B.1) = true
    · have e : shorter ok B i = (longFirst i.lens, some i) := by rw [shorter, if_pos hi]
      obtain ⟨hi1, hi2⟩ := Bool.and_eq_true_iff.mp hi
      rw [e] at h1 h2 h3 ⊢
      refine ⟨.inr ?_, lexLe_trans h2 (lexLe_of_lt hi2), fun j hj hok => ?_⟩
      · rcases h1 with h1 | ⟨j, hj, hj', h1⟩
        · exact ⟨i, List.mem_cons_self, hi1, h1⟩
        · exact ⟨j, List.mem_cons_of_mem _ hj, hj', h1⟩
      · rcases List.mem_cons.mp hj with rfl | hj
        · exact h2
        · exact h3 j hj hok
    · have e : shorter ok B i = B := by rw [shorter, if_neg hi]
      rw [e] at h1 h2 h3 ⊢
      refine ⟨?_, h2, fun j hj hok => ?_⟩
      · rcases h1 with h1 | ⟨j, hj, hj', h1⟩
        · exact .inl h1
        · exact .inr ⟨j, List.mem_cons_of_mem _ hj, hj', h1⟩
      · rcases List.mem_cons.mp hj with rfl | hj
        · rw [hok, Bool.true_and, Bool.not_eq_true, not_lexLt] at hi
          exact lexLe_trans h2 hi
        · exact h3 j hj hok

theorem maxSize_spec (l : List (Nat × Nat)) : (l = [] ∧ maxSize l = none) ∨ ∃ s ∈ l, maxSize l = some s ∧ ∀ t ∈ l, LexLe (sortedPair t) (sortedPair s) := by
  cases l with
  | nil => exact .inl ⟨rfl, rfl⟩
  | cons a l =>
    refine .inr ?_
    simp only [maxSize, Option.some.injEq]
    induction l generalizing a with
    | nil => exact ⟨a, List.mem_cons_self, rfl, fun t ht => by rw [List.mem_singleton.mp ht]; exact lexLe_refl _⟩
    | cons b l ih =>
      simp only [List.foldl_cons]
      by_cases h : lexLt (sortedPair a) (sortedPair b) = true
      · rw [if_pos h]
        obtain ⟨s, h1, h2, h3⟩ := ih b
        refine ⟨s, List.mem_cons_of_mem _ h1, h2, fun t ht => ?_⟩
        rcases List.mem_cons.mp ht with rfl | ht
        · exact lexLe_trans (lexLe_of_lt h) (h3 b List.mem_cons_self)
        · exact h3 t ht
      · rw [if_neg h]
        obtain ⟨s, h1, h2, h3⟩ := ih a
        refine ⟨s, ?_, h2, fun t ht => ?_⟩
        · rcases List.mem_cons.mp h1 with h | h
          · exact h ▸ List.mem_cons_self
          · exact List.mem_cons_of_mem _ (List.mem_cons_of_mem _ h)
        · rcases List.mem_cons.mp ht with rfl | ht
          · exact h3 _ List.mem_cons_self
          · rcases List.mem_cons.mp ht with rfl | ht
            · rw [Bool.not_eq_true, not_lexLt] at h
              exact lexLe_trans h (h3 a List.mem_cons_self)
            · exact h3 t (List.mem_cons_of_mem _ ht)

/-- Lengths of horizontal and vertical chains. -/
def dims (R : Rect) : Int × Int := (R.box.width, R.box.height)

theorem mem_allRects {M N : Nat} {R : Rect} : R ∈ allRects M N ↔ R.box.Inside M N := by
  obtain ⟨xmin, xmax, ymin, ymax⟩ := R
  simp only [allRects, List.mem_flatMap, List.mem_map, mem_upTo, Box.Inside, Rect.box, Rect.mk.injEq]
  constructor
  · rintro ⟨a, ha, b, hb, c, hc, d, hd, rfl, rfl, rfl, rfl⟩
    omega
  · intro h
    exact ⟨xmax, by omega, xmin, by omega, ymax, by omega, ymin, by omega, rfl, rfl, rfl, rfl⟩

/-- Items describe rectangles of the grid. -/
def Items (P : Proc) (sz : Rect → Nat × Nat) (l : List Rect) (D : List Item) : Prop :=
  (∀ i ∈ D, i.rect.box.Inside P.M P.N ∧ i.size = sz i.rect ∧ i.lens = dims i.rect) ∧ ∀ R ∈ l, ∃ i ∈ D, i.size = sz R ∧ i.lens = dims R

theorem items_spec {sz : Rect → Nat × Nat} (hsz : ∀ R, R.box.Inside P.M P.N → P.bicliqueSize R = .ok (sz R)) : ∃ D, P.items = .ok D ∧ Items P sz (allRects P.M P.N) D := by
  unfold Proc.items
  have main : ∀ (l done : List Rect) (D : List Item), (∀ R ∈ l, R.box.Inside P.M P.N) → Items P sz done D →
      ∃ D', l.foldlM (fun D R => do
        let ab ← P.bicliqueSize R
        .ok (putItem D ⟨ab, (R.xmax - R.xmin + 1, R.ymax - R.ymin + 1), R⟩)) D = Except.ok (ε := Err) D' ∧ Items P sz (done ++ l) D' := by
    intro l
    induction l with
    | nil => exact fun done D _ h => ⟨D, rfl, by rwa [List.append_nil]⟩
    | cons R l ih =>
      intro done D hl h
      have hR := hl R List.mem_cons_self
      rw [List.foldlM_cons]
      simp only [bind, Except.bind, hsz R hR]
      rw [show done ++ R :: l = (done ++ [R]) ++ l by simp]
      refine ih (done ++ [R]) _ (fun r hr => hl r (List.mem_cons_of_mem _ hr)) ⟨fun i hi => ?_, fun r hr => ?_⟩
      · unfold putItem at hi
        split at hi
        · obtain ⟨e, he, rfl⟩ := List.mem_map.mp hi
          split
          · exact ⟨hR, rfl, rfl⟩
          · exact h.1 e he
        · rcases List.mem_append.mp hi with hi | hi
          · exact h.1 i hi
          · rw [List.mem_singleton.mp hi]
            exact ⟨hR, rfl, rfl⟩
      · have old : ∀ j ∈ D, ∃ i ∈ putItem D ⟨sz R, (R.xmax - R.xmin + 1, R.ymax - R.ymin + 1), R⟩, i.size = j.size ∧ i.lens = j.lens := by
          intro j hj
          unfold putItem
          split
          · by_cases hk : j.size = sz R ∧ j.lens = (R.xmax - R.xmin + 1, R.ymax - R.ymin + 1)
            · exact ⟨_, List.mem_map.mpr ⟨j, hj, if_pos hk⟩, hk.1.symm, hk.2.symm⟩
            · exact ⟨_, List.mem_map.mpr ⟨j, hj, if_neg hk⟩, rfl, rfl⟩
          · exact ⟨j, List.mem_append_left _ hj, rfl, rfl⟩
        rcases List.mem_append.mp hr with hr | hr
        · obtain ⟨j, hj, e1, e2⟩ := h.2 r hr
          obtain ⟨i, hi, k1, k2⟩ := old j hj
          exact ⟨i, hi, k1.trans e1, k2.trans e2⟩
        · rw [List.mem_singleton.mp hr]
          by_cases ha : D.any (fun e => decide (e.size = sz R ∧ e.lens = (R.xmax - R.xmin + 1, R.ymax - R.ymin + 1))) = true
          · obtain ⟨j, hj, e⟩ := List.any_eq_true.mp ha
            obtain ⟨i, hi, k1, k2⟩ := old j hj
            have := of_decide_eq_true e
            exact ⟨i, hi, k1.trans this.1, k2.trans this.2⟩
          · unfold putItem
            rw [if_neg ha]
            exact ⟨_, List.mem_append_right _ List.mem_cons_self, rfl, rfl⟩
  obtain ⟨D, h1, h2⟩ := main (allRects P.M P.N) [] [] (fun R hR => mem_allRects.mp hR) ⟨fun i hi => by simp at hi, fun R hR => by simp at hR⟩
  exact ⟨D, h1, h2⟩

theorem acceptable_longFirst (a b : Int) (t : Int × Int) : acceptable a b (longFirst t) = acceptable a b t := by
  unfold acceptable longFirst
  refine decide_eq_decide.mpr ?_
  rcases le_total t.1 t.2 with h | h
  · rw [max_eq_right h, min_eq_left h]
    dsimp only
    omega
  · rw [max_eq_left h, min_eq_right h]

theorem acceptable_iff {R : Rect} {K : Int} (hK : (P.M : Int) + P.N ≤ K) (hR : R.box.Inside P.M P.N) (imbalance maxLength : Option Int) :
    acceptable (orElse maxLength K) (orElse imbalance K) (dims R) = true ↔ R.box.Allowed maxLength imbalance := by
  obtain ⟨xmin, xmax, ymin, ymax⟩ := R
  simp only [Box.Inside, Rect.box] at hR
  unfold acceptable
  rw [decide_eq_true_iff]
  simp only [dims, Rect.box, Box.Allowed, Box.width, Box.height]
  have abs : ∀ a b d : Int, (((a - b).natAbs : Int) ≤ d ↔ a - b ≤ d ∧ b - a ≤ d) := by omega
  rw [abs]
  cases maxLength <;> cases imbalance <;> simp only [orElse, Option.some.injEq, reduceCtorEq, forall_eq', IsEmpty.forall_iff, implies_true, true_and, and_true, iff_true] <;> omega

theorem longFirst_lt {R : Rect} {K : Int} (hK : (P.M : Int) + P.N ≤ K) (hR : R.box.Inside P.M P.N) : ¬ LexLe (K, K) (longFirst (dims R)) := by
  obtain ⟨xmin, xmax, ymin, ymax⟩ := R
  simp only [Box.Inside, Rect.box] at hR
  simp only [LexLe, longFirst, dims, Rect.box, Box.width, Box.height]
  rcases le_total (xmax - xmin + 1) (ymax - ymin + 1) with h | h
  · rw [max_eq_right h, min_eq_left h]
    omega
  · rw [max_eq_left h, min_eq_right h]
    omega

/-- Rectangles considered. -/
def Cand (P : Proc) (imbalance maxLength : Option Int) (R : Rect) : Prop := R.box.Inside P.M P.N ∧ R.box.Allowed maxLength imbalance

theorem mem_feasible {sz : Rect → Nat × Nat} {D : List Item} (hD : Items P sz (allRects P.M P.N) D) {K : Int} (hK : (P.M : Int) + P.N ≤ K) (imbalance maxLength : Option Int)
    (good : Nat × Nat → Bool) (s : Nat × Nat) :
    s ∈ feasible D good (acceptable (orElse maxLength K) (orElse imbalance K)) ↔ ∃ R, Cand P imbalance maxLength R ∧ sz R = s ∧ good s = true := by
  unfold feasible
  rw [List.mem_dedup, List.mem_map]
  constructor
  · rintro ⟨i, hi, rfl⟩
    obtain ⟨hi, hk⟩ := List.mem_filter.mp hi
    obtain ⟨hg, hk⟩ := Bool.and_eq_true_iff.mp hk
    obtain ⟨h1, h2, h3⟩ := hD.1 i hi
    exact ⟨i.rect, ⟨h1, (acceptable_iff hK h1 _ _).mp (h3 ▸ hk)⟩, h2.symm, hg⟩
  · rintro ⟨R, ⟨h1, h2⟩, rfl, hg⟩
    obtain ⟨i, hi, k1, k2⟩ := hD.2 R (mem_allRects.mpr h1)
    refine ⟨i, List.mem_filter.mpr ⟨hi, Bool.and_eq_true_iff.mpr ⟨k1 ▸ hg, ?_⟩⟩, k1⟩
    rw [k2]
    exact (acceptable_iff hK h1 _ _).mpr h2

/-- Both loops, over sizes and items: the shortest chains among rectangles of these sizes. -/
theorem pick_spec {sz : Rect → Nat × Nat} {D : List Item} (hD : Items P sz (allRects P.M P.N) D) {K : Int} (hK : (P.M : Int) + P.N ≤ K) (imbalance maxLength : Option Int)
    (l : List (Nat × Nat)) :
    ((∀ R, Cand P imbalance maxLength R → sz R ∉ l) ∧
      (l.foldl (fun best s => (D.filter fun i => decide (i.size = s)).foldl (shorter (acceptable (orElse maxLength K) (orElse imbalance K))) best) ((K, K), none)).2 = none) ∨
    ∃ i, (l.foldl (fun best s => (D.filter fun i => decide (i.size = s)).foldl (shorter (acceptable (orElse maxLength K) (orElse imbalance K))) best) ((K, K), none)).2 = some i ∧
      Cand P imbalance maxLength i.rect ∧ i.size = sz i.rect ∧ i.size ∈ l ∧ ∀ R, Cand P imbalance maxLength R → sz R ∈ l → LexLe (longFirst (dims i.rect)) (longFirst (dims R)) := by
  rw [← List.foldl_flatMap]
  obtain ⟨h1, h2, h3⟩ := shorter_spec (acceptable (orElse maxLength K) (orElse imbalance K)) (l.flatMap fun s => D.filter fun i => decide (i.size = s)) ((K, K), none)
  have item : ∀ R, Cand P imbalance maxLength R → sz R ∈ l → LexLe (List.foldl (shorter (acceptable (orElse maxLength K) (orElse imbalance K))) ((K, K), none)
      (l.flatMap fun s => D.filter fun i => decide (i.size = s))).1 (longFirst (dims R)) := by
    intro R hR hl
    obtain ⟨i, hi, k1, k2⟩ := hD.2 R (mem_allRects.mpr hR.1)
    rw [← k2]
    refine h3 i (List.mem_flatMap.mpr ⟨_, hl, List.mem_filter.mpr ⟨hi, decide_eq_true k1⟩⟩) ?_
    rw [acceptable_longFirst, k2]
    exact (acceptable_iff hK hR.1 _ _).mpr hR.2
  rcases h1 with h1 | ⟨i, hi, hok, h1⟩
  · refine .inl ⟨fun R hR hl => ?_, by rw [h1]⟩
    have := item R hR hl
    rw [h1] at this
    exact longFirst_lt hK hR.1 this
  · obtain ⟨s, hs, hi⟩ := List.mem_flatMap.mp hi
    obtain ⟨hi', e⟩ := List.mem_filter.mp hi
    obtain rfl := of_decide_eq_true e
    obtain ⟨k1, k2, k3⟩ := hD.1 i hi'
    rw [acceptable_longFirst, k3] at hok
    refine .inr ⟨i, by rw [h1], ⟨k1, (acceptable_iff hK k1 _ _).mp hok⟩, k2, hs, fun R hR hl => ?_⟩
    have := item R hR hl
    rw [h1, k3] at this
    exact this

theorem sortedPair_eq {a b : Nat × Nat} (h : sortedPair a = sortedPair b) : a = b ∨ a = (b.2, b.1) := by
  obtain ⟨a, a'⟩ := a
  obtain ⟨b, b'⟩ := b
  simp only [sortedPair, Prod.mk.injEq] at h ⊢
  omega

theorem sortedPair_swap (b : Nat × Nat) : sortedPair (b.2, b.1) = sortedPair b := by
  simp only [sortedPair, min_comm, max_comm]

theorem largestBi_spec {sz : Rect → Nat × Nat} (hsz : ∀ R, R.box.Inside P.M P.N → P.bicliqueSize R = .ok (sz R)) {order : List (Nat × Nat) → List (Nat × Nat)}
    (ho : ∀ l, (order l).Perm l) (imbalance maxLength : Option Int) :
    ((∀ R, ¬ Cand P imbalance maxLength R) ∧ P.largestBi order imbalance maxLength = .error .value) ∨
    ∃ R, Cand P imbalance maxLength R ∧ P.largestBi order imbalance maxLength = .ok (sortedPair (sz R), P.biclique R) ∧ ∀ R', Cand P imbalance maxLength R' →
      LexLe (sortedPair (sz R')) (sortedPair (sz R)) ∧ (sortedPair (sz R') = sortedPair (sz R) → LexLe (longFirst (dims R)) (longFirst (dims R'))) := by
  obtain ⟨D, hD, hI⟩ := items_spec hsz
  unfold Proc.largestBi
  simp only [bind, Except.bind, hD]
  have hmem := fun s => mem_feasible hI (le_refl ((P.M : Int) + P.N)) imbalance maxLength (fun _ => true) s
  rcases maxSize_spec (order (feasible D (fun _ => true) (acceptable (orElse maxLength (P.M + P.N)) (orElse imbalance (P.M + P.N))))) with ⟨h1, h2⟩ | ⟨mn, h1, h2, h3⟩
  · refine .inl ⟨fun R hR => ?_, by rw [h2]⟩
    have := (ho _).mem_iff.mpr ((hmem (sz R)).mpr ⟨R, hR, rfl, rfl⟩)
    rw [h1] at this
    simp at this
  · rw [h2]
    dsimp only
    obtain ⟨R₀, hR₀, rfl, -⟩ := (hmem mn).mp ((ho _).mem_iff.mp h1)
    have hboth : ∀ s, s ∈ order ([sz R₀, ((sz R₀).2, (sz R₀).1)].dedup.filter fun s => decide (s ∈ feasible D (fun _ => true) (acceptable (orElse maxLength (P.M + P.N)) (orElse imbalance (P.M + P.N))))) ↔
        sortedPair s = sortedPair (sz R₀) ∧ ∃ R, Cand P imbalance maxLength R ∧ sz R = s := by
      intro s
      rw [(ho _).mem_iff, List.mem_filter, List.mem_dedup, decide_eq_true_eq, hmem]
      simp only [List.mem_cons, List.not_mem_nil, or_false, and_true]
      refine and_congr_left fun _ => ⟨fun h => ?_, fun h => sortedPair_eq h⟩
      rcases h with rfl | rfl
      · rfl
      · exact sortedPair_swap _
    rcases pick_spec hI (le_refl ((P.M : Int) + P.N)) imbalance maxLength (order ([sz R₀, ((sz R₀).2, (sz R₀).1)].dedup.filter fun s =>
        decide (s ∈ feasible D (fun _ => true) (acceptable (orElse maxLength (P.M + P.N)) (orElse imbalance (P.M + P.N)))))) with ⟨k1, -⟩ | ⟨i, k1, k2, k3, k4, k5⟩
    · exact absurd ((hboth _).mpr ⟨rfl, R₀, hR₀, rfl⟩) (k1 R₀ hR₀)
    · rw [k1]
      dsimp only
      rw [hsz _ k2.1]
      have e := ((hboth _).mp k4).1
      rw [k3] at e
      refine .inr ⟨i.rect, k2, rfl, fun R' hR' => ⟨?_, fun h => k5 R' hR' ((hboth _).mpr ⟨h.trans e, R', hR', rfl⟩)⟩⟩
      rw [e]
      exact h3 _ ((ho _).mem_iff.mpr ((hmem _).mpr ⟨R', hR', rfl, rfl⟩))

/-- A biclique with sides of these sizes has one with `n` and `m` chains. -/
def Enough (n m : Nat) (s : Nat × Nat) : Prop := (m ≤ s.1 ∧ n ≤ s.2) ∨ (n ≤ s.1 ∧ m ≤ s.2)

theorem tightestBi_spec {sz : Rect → Nat × Nat} (hsz : ∀ R, R.box.Inside P.M P.N → P.bicliqueSize R = .ok (sz R)) {order : List (Nat × Nat) → List (Nat × Nat)}
    (ho : ∀ l, (order l).Perm l) (n m : Nat) (imbalance maxLength : Option Int) :
    ((∀ R, Cand P imbalance maxLength R → ¬ Enough n m (sz R)) ∧ P.tightestBi order n (some m) imbalance maxLength = .ok none) ∨
    ∃ R A B, Cand P imbalance maxLength R ∧ Enough n m (sz R) ∧ P.tightestBi order n (some m) imbalance maxLength = .ok (some (sz R, A, B)) ∧
      ((m ≤ (sz R).1 ∧ n ≤ (sz R).2 ∧ A = (P.biclique R).2.take n ∧ B = (P.biclique R).1.take m) ∨
        (n ≤ (sz R).1 ∧ m ≤ (sz R).2 ∧ A = (P.biclique R).1.take n ∧ B = (P.biclique R).2.take m)) ∧
      ∀ R', Cand P imbalance maxLength R' → Enough n m (sz R') → LexLe (longFirst (dims R)) (longFirst (dims R')) := by
  obtain ⟨D, hD, hI⟩ := items_spec hsz
  unfold Proc.tightestBi
  simp only [bind, Except.bind, hD]
  have hK : (P.M : Int) + P.N ≤ P.M + P.N + 1 := by omega
  have hmem : ∀ s, s ∈ order (feasible D (fun s => decide ((m ≤ s.1 ∧ n ≤ s.2) ∨ (n ≤ s.1 ∧ m ≤ s.2))) (acceptable (orElse maxLength (P.M + P.N + 1)) (orElse imbalance (P.M + P.N + 1)))) ↔
      ∃ R, Cand P imbalance maxLength R ∧ sz R = s ∧ Enough n m s := by
    intro s
    rw [(ho _).mem_iff, mem_feasible hI hK]
    simp only [decide_eq_true_eq, Enough]
  rcases pick_spec hI hK imbalance maxLength (order (feasible D (fun s => decide ((m ≤ s.1 ∧ n ≤ s.2) ∨ (n ≤ s.1 ∧ m ≤ s.2)))
      (acceptable (orElse maxLength (P.M + P.N + 1)) (orElse imbalance (P.M + P.N + 1))))) with ⟨k1, k2⟩ | ⟨i, k1, k2, k3, k4, k5⟩
  · refine .inl ⟨fun R hR he => k1 R hR ((hmem _).mpr ⟨R, hR, rfl, he⟩), ?_⟩
    rw [k2]
  · obtain ⟨-, -, -, he⟩ := (hmem _).mp k4
    rw [k1]
    dsimp only
    rw [hsz _ k2.1, k3]
    rw [k3] at he
    dsimp only
    refine .inr ⟨i.rect, ?_⟩
    by_cases hc : m ≤ (sz i.rect).1 ∧ n ≤ (sz i.rect).2
    · rw [if_pos hc]
      exact ⟨_, _, k2, he, rfl, .inl ⟨hc.1, hc.2, rfl, rfl⟩, fun R' hR' he' => k5 R' hR' ((hmem _).mpr ⟨R', hR', rfl, he'⟩)⟩
    · rw [if_neg hc]
      have h2 := he.resolve_left hc
      exact ⟨_, _, k2, he, rfl, .inr ⟨h2.1, h2.2, rfl, rfl⟩, fun R' hR' he' => k5 R' hR' ((hmem _).mpr ⟨R', hR', rfl, he'⟩)⟩

/-- Sizes of all rectangles of the grid. -/
theorem exists_sizes (P : Proc) : ∃ sz : Rect → Nat × Nat, (∀ R, R.box.Inside P.M P.N → P.bicliqueSize R = .ok (sz R)) ∧
    ∀ R, R.box.Inside P.M P.N → (sz R).1 ≤ (R.box.lines P.edges P.L).1 ∧ (sz R).2 ≤ (R.box.lines P.edges P.L).2 ∧ (Spec.Eden.LinesWhole P.edges → sz R = R.box.lines P.edges P.L) := by
  classical
  refine ⟨fun R => if h : R.box.Inside P.M P.N then (bicliqueSize_spec h).choose else (0, 0), fun R h => ?_, fun R h => ?_⟩
  · simp only [dif_pos h]
    exact (bicliqueSize_spec h).choose_spec.1
  · simp only [dif_pos h]
    exact (bicliqueSize_spec h).choose_spec.2

theorem biclique_take {E : List (Qb × Qb)} {A B : List (List Qb)} (h : Biclique E A B) (n m : Nat) : Biclique E (A.take n) (B.take m) := by
  refine ⟨fun c hc => h.1 c ?_, List.Pairwise.sublist (List.Sublist.append (List.take_sublist _ _) (List.take_sublist _ _)) h.disjoint,
    fun c hc d hd => h.touch c (List.mem_of_mem_take hc) d (List.mem_of_mem_take hd)⟩
  rcases List.mem_append.mp hc with hc | hc
  · exact List.mem_append_left _ (List.mem_of_mem_take hc)
  · exact List.mem_append_right _ (List.mem_of_mem_take hc)

theorem biclique_swap {E : List (Qb × Qb)} {A B : List (List Qb)} (h : Biclique E A B) : Biclique E B A := by
  refine ⟨fun c hc => h.paths c (List.mem_append.mpr (List.mem_append.mp hc).symm), ?_, fun c hc d hd => ?_⟩
  · obtain ⟨h1, h2, h3⟩ := List.pairwise_append.mp h.disjoint
    exact List.pairwise_append.mpr ⟨h2, h1, fun c hc d hd q hq hq' => h3 d hd c hc q hq' hq⟩
  · obtain ⟨p, hp, q, hq, hj⟩ := h.touch d hd c hc
    exact ⟨q, hq, p, hp, hj.symm⟩

theorem biclique_sizes {R : Rect} (hR : R.box.Inside P.M P.N) :
    (P.biclique R).1.length = (R.box.lines P.edges P.L).1 ∧ (P.biclique R).2.length = (R.box.lines P.edges P.L).2 := by
  have := biclique_length (P := P) R
  rw [if_pos ⟨hR.2.1, hR.2.2.2.2.1⟩] at this
  exact ⟨congrArg Prod.fst this, congrArg Prod.snd this⟩

end Eden
end MM
