import Verif.Eden.Best
import Mathlib.Data.List.Nodup
import Mathlib.Data.List.Perm.Subperm

/-! The number of missing couplers; graphs of `random_processor`. -/

namespace MM
namespace Eden

open Spec.Eden (Qb Ell Joined Works Box Grid Adjacent Missing)

variable {P : Proc}

theorem nodup_ranges {α : Type} {n : Nat} {f : Nat → List α} (key : α → Int) (h : ∀ i, (f i).Nodup) (hk : ∀ (i : Nat), ∀ a ∈ f i, key a = i) : ((List.range n).flatMap f).Nodup := by
  rw [List.nodup_flatMap]
  refine ⟨fun i _ => h i, List.nodup_range.imp ?_⟩
  intro i j hij a h1 h2
  have := hk i a h1
  have := hk j a h2
  omega

theorem evil_nodup : P.evil.Nodup := by
  unfold Proc.evil
  refine nodup_ranges (fun e => e.1.x) (fun x => nodup_ranges (fun e => e.1.y) (fun y => nodup_ranges (fun e => e.1.k) (fun u => nodup_ranges (fun e => e.2.k) (fun v => ?_) ?_) ?_) ?_) ?_
  · split <;> simp
  all_goals
    intro i a ha
    try simp only [List.mem_flatMap] at ha
  · split at ha
    · rw [List.mem_singleton.mp ha]
    · simp at ha
  · obtain ⟨v, -, ha⟩ := ha
    split at ha
    · rw [List.mem_singleton.mp ha]
    · simp at ha
  · obtain ⟨u, -, v, -, ha⟩ := ha
    split at ha
    · rw [List.mem_singleton.mp ha]
    · simp at ha
  · obtain ⟨y, -, u, -, v, -, ha⟩ := ha
    split at ha
    · rw [List.mem_singleton.mp ha]
    · simp at ha

theorem evil_limit {ms : List (Qb × Qb)} (hm : Missing P.edges ms) {limit : Int} (hl : 2 ^ ms.length ≤ limit) : 2 ^ P.evil.length ≤ limit := by
  have hsub : P.evil ⊆ ms := by
    intro e he
    obtain ⟨p, q⟩ := e
    obtain ⟨⟨x, y, k, l, h1, h2, -⟩, w1, w2, hj⟩ := mem_evil.mp he
    subst h1 h2
    exact hm _ _ _ _ w1 w2 hj
  have := (evil_nodup.subperm hsub).length_le
  refine le_trans ?_ hl
  exact_mod_cast Nat.pow_le_pow_right (by decide) this

theorem missing_evil (hE : ∀ e ∈ P.edges, Grid P.M P.N P.L e.1 ∧ Grid P.M P.N P.L e.2) {ms : List (Qb × Qb)} (h : P.evil ⊆ ms) : Missing P.edges ms := by
  intro x y k l w1 w2 hj
  obtain ⟨⟨a1, a2⟩, ⟨b1, b2⟩, -, c1, c2⟩ := works_grid hE w1
  obtain ⟨-, -, -, d1, d2⟩ := works_grid hE w2
  dsimp only at a1 a2 b1 b2 c1 c2 d1 d2
  refine h (mem_evil.mpr ⟨⟨x.toNat, y.toNat, k.toNat, l.toNat, ?_, ?_, by omega, by omega, by omega, by omega⟩, w1, w2, hj⟩)
  all_goals rw [Int.toNat_of_nonneg a1, Int.toNat_of_nonneg b1]
  · rw [Int.toNat_of_nonneg c1]
  · rw [Int.toNat_of_nonneg d1]

theorem box_mono {E F : List (Qb × Qb)} (h : ∀ p q, Joined E p q → Joined F p q) (L : Nat) (b : Box) : (b.lines E L).1 ≤ (b.lines F L).1 ∧ (b.lines E L).2 ≤ (b.lines F L).2 := by
  have sum : ∀ (l : List Nat) (f g : Nat → Nat), (∀ i, f i ≤ g i) → (l.map f).sum ≤ (l.map g).sum := by
    intro l f g hfg
    induction l with
    | nil => exact le_refl _
    | cons i l ih => exact Nat.add_le_add (hfg i) ih
  exact ⟨sum _ _ _ fun i => (lines_mono h L _ _ _).1, sum _ _ _ fun i => (lines_mono h L _ _ _).2⟩

theorem pair_mono {a b c d : Nat} (h1 : a ≤ c) (h2 : b ≤ d) : Spec.Eden.LexLe (min a b, max a b) (min c d, max c d) := by
  unfold Spec.Eden.LexLe
  dsimp only
  omega

theorem qbLt_total {p q : Qb} (h : p ≠ q) : qbLt p q = true ∨ qbLt q p = true := by
  obtain ⟨a, b, c, d⟩ := p
  obtain ⟨a', b', c', d'⟩ := q
  unfold qbLt
  simp only [Bool.or_eq_true, Bool.and_eq_true, decide_eq_true_eq]
  by_cases h1 : a = a'
  · by_cases h2 : b = b'
    · by_cases h3 : c = c'
      · have h4 : d ≠ d' := fun h4 => h (by rw [h1, h2, h3, h4])
        omega
      · omega
    · omega
  · omega

theorem qbLt_asymm {p q : Qb} (h : qbLt p q = true) : qbLt q p = false := by
  obtain ⟨a, b, c, d⟩ := p
  obtain ⟨a', b', c', d'⟩ := q
  rw [Bool.eq_false_iff]
  unfold qbLt at h ⊢
  simp only [ne_eq, Bool.or_eq_true, Bool.and_eq_true, decide_eq_true_eq] at h ⊢
  omega

theorem adjacent_symm {p q : Qb} (h : Adjacent p q) : Adjacent q p := by
  unfold Adjacent at h ⊢
  omega

theorem adjacent_ne {p q : Qb} (h : Adjacent p q) : p ≠ q := by
  rintro rfl
  unfold Adjacent at h
  omega

/-- The couplers between the qubits. -/
theorem edges_spec {M N L : Nat} {qubits : List Qb} (hq : qubits.Nodup) (hg : ∀ q ∈ qubits, Grid M N L q) (edges : List (Qb × Qb))
    (he : edges = (qubits.flatMap fun p => (neighbors M N L p).map fun q => (p, q)).filter fun e => decide (e.2 ∈ qubits) && qbLt e.1 e.2) :
    edges.Nodup ∧ ∀ e, e ∈ edges ↔ e.1 ∈ qubits ∧ e.2 ∈ qubits ∧ Adjacent e.1 e.2 ∧ qbLt e.1 e.2 = true := by
  subst he
  refine ⟨List.Nodup.filter _ ?_, fun e => ?_⟩
  · rw [List.nodup_flatMap]
    refine ⟨fun p _ => (neighbors_nodup M N L p).map fun _ _ h => congrArg Prod.snd h, hq.imp ?_⟩
    intro p q hpq e h1 h2
    obtain ⟨_, -, rfl⟩ := List.mem_map.mp h1
    obtain ⟨_, -, h⟩ := List.mem_map.mp h2
    exact hpq (congrArg Prod.fst h).symm
  · rw [List.mem_filter, List.mem_flatMap, Bool.and_eq_true, decide_eq_true_eq]
    constructor
    · rintro ⟨⟨p, hp, h⟩, h2, h3⟩
      obtain ⟨q, hq, rfl⟩ := List.mem_map.mp h
      exact ⟨hp, h2, ((mem_neighbors (hg p hp)).mp hq).2, h3⟩
    · rintro ⟨h1, h2, h3, h4⟩
      exact ⟨⟨e.1, h1, List.mem_map.mpr ⟨e.2, (mem_neighbors (hg _ h1)).mpr ⟨hg _ h2, h3⟩, rfl⟩⟩, h2, h4⟩

theorem randomProcessor_spec {M N L : Nat} {qubits : List Qb} (hq : qubits.Nodup) (hg : ∀ q ∈ qubits, Grid M N L q) {sample : List (Qb × Qb) → Nat → List (Qb × Qb)}
    (hs : ∀ l k, k ≤ l.length → (sample l k).length = k ∧ (sample l k).Subperm l) (numEvil : Nat) :
    (randomProcessor M N L qubits sample numEvil).edges.Nodup ∧
    ∃ gone : List (Qb × Qb), gone.Nodup ∧ (∀ e ∈ gone, e.1 ∈ qubits ∧ e.2 ∈ qubits ∧ Adjacent e.1 e.2 ∧ e.1.u ≠ e.2.u ∧ (e.2, e.1) ∉ gone) ∧
      (∀ p q, Joined (randomProcessor M N L qubits sample numEvil).edges p q ↔ p ∈ qubits ∧ q ∈ qubits ∧ Adjacent p q ∧ ¬ Joined gone p q) ∧
      (gone.length = numEvil ∨ gone.length < numEvil ∧ ∀ p ∈ qubits, ∀ q ∈ qubits, Adjacent p q → p.u ≠ q.u → Joined gone p q) := by
  unfold randomProcessor
  dsimp only
  generalize he : (qubits.flatMap fun p => (neighbors M N L p).map fun q => (p, q)).filter (fun e => decide (e.2 ∈ qubits) && qbLt e.1 e.2) = edges
  obtain ⟨hnd, hmem⟩ := edges_spec hq hg edges he.symm
  generalize hp : edges.filter (fun e => decide (e.1.x = e.2.x ∧ e.1.y = e.2.y)) = possibly
  have hpm : ∀ e, e ∈ possibly ↔ e ∈ edges ∧ e.1.u ≠ e.2.u := by
    intro e
    rw [← hp, List.mem_filter, decide_eq_true_eq]
    refine and_congr_right fun h => ?_
    have h := ((hmem e).mp h).2.2.1
    unfold Adjacent at h
    omega
  have hpn : possibly.Nodup := hp ▸ hnd.filter _
  obtain ⟨h1, h2⟩ := hs possibly (min numEvil possibly.length) (Nat.min_le_right _ _)
  generalize hgone : sample possibly (min numEvil possibly.length) = gone at h1 h2
  have hsub : ∀ e ∈ gone, e ∈ possibly := fun e h => h2.subset h
  have hgn : gone.Nodup := by
    obtain ⟨l, hl, hl'⟩ := h2
    exact hl.nodup_iff.mp (hpn.sublist hl')
  have hgm : ∀ e, e ∈ gone → (e.1 ∈ qubits ∧ e.2 ∈ qubits ∧ Adjacent e.1 e.2 ∧ qbLt e.1 e.2 = true) ∧ e.1.u ≠ e.2.u := by
    intro e h
    obtain ⟨k1, k2⟩ := (hpm e).mp (hsub e h)
    exact ⟨(hmem e).mp k1, k2⟩
  refine ⟨hnd.filter _, gone, hgn, fun e h => ?_, fun p q => ?_, ?_⟩
  · obtain ⟨⟨k1, k2, k3, k4⟩, k5⟩ := hgm e h
    refine ⟨k1, k2, k3, k5, fun h' => ?_⟩
    have := (hgm _ h').1.2.2.2
    rw [qbLt_asymm k4] at this
    cases this
  · unfold Joined
    simp only [List.mem_filter, decide_eq_true_eq, hmem]
    constructor
    · rintro (⟨⟨k1, k2, k3, k4⟩, k5⟩ | ⟨⟨k1, k2, k3, k4⟩, k5⟩)
      · refine ⟨k1, k2, k3, ?_⟩
        rintro (h | h)
        · exact k5 h
        · have := (hgm _ h).1.2.2.2
          rw [qbLt_asymm k4] at this
          cases this
      · refine ⟨k2, k1, adjacent_symm k3, ?_⟩
        rintro (h | h)
        · have := (hgm _ h).1.2.2.2
          rw [qbLt_asymm k4] at this
          cases this
        · exact k5 h
    · rintro ⟨k1, k2, k3, k4⟩
      rcases qbLt_total (adjacent_ne k3) with h | h
      · exact .inl ⟨⟨k1, k2, k3, h⟩, fun h => k4 (.inl h)⟩
      · exact .inr ⟨⟨k2, k1, adjacent_symm k3, h⟩, fun h => k4 (.inr h)⟩
  · by_cases hle : numEvil ≤ possibly.length
    · exact .inl (by omega)
    · refine .inr ⟨by omega, fun p hp q hq hadj hu => ?_⟩
      have hall : possibly ⊆ gone := by
        obtain ⟨l, hl, hl'⟩ := h2
        have : l = possibly := hl'.eq_of_length (by rw [hl.length_eq]; omega)
        subst this
        exact hl.subset
      rcases qbLt_total (adjacent_ne hadj) with h | h
      · exact .inl (hall ((hpm _).mpr ⟨(hmem _).mpr ⟨hp, hq, hadj, h⟩, hu⟩))
      · exact .inr (hall ((hpm _).mpr ⟨(hmem _).mpr ⟨hq, hp, adjacent_symm hadj, h⟩, hu.symm⟩))

end Eden
end MM
