import Mathlib.Data.List.Perm.Subperm
import Verif.Eden.BicliqueBest
import Verif.Eden.Cliques
import Verif.Eden.Wrap

/-! Deletions that leave no missing couplers inside of cells. -/

namespace MM
namespace Eden

open Spec.Eden (Qb Ell Joined Works HLine VLine hLines vLines LinesWhole CellsWhole Path Touch Clique Biclique Native Grid without Covers MinimalCover Box)

variable {P : Proc}

/-- A qubit of every pair. -/
def Hits (l : List (Qb × Qb)) (d : List Qb) : Prop := ∀ e ∈ l, e.1 ∈ d ∨ e.2 ∈ d

theorem sub_edges (d : List Qb) : (P.sub d).edges = without P.edges d := by
  unfold Proc.sub without
  refine List.filter_congr fun e _ => ?_
  simp

theorem mem_evil {p q : Qb} : (p, q) ∈ P.evil ↔ (∃ x y k l : Nat, p = ⟨x, y, 0, k⟩ ∧ q = ⟨x, y, 1, l⟩ ∧ x < P.M ∧ y < P.N ∧ k < P.L ∧ l < P.L) ∧
    Works P.edges p ∧ Works P.edges q ∧ ¬ Joined P.edges p q := by
  unfold Proc.evil
  simp only [List.mem_flatMap, List.mem_range]
  constructor
  · rintro ⟨x, hx, y, hy, u, hu, v, hv, h⟩
    split at h
    · rename_i hc
      obtain ⟨hc, h3⟩ := Bool.and_eq_true_iff.mp hc
      obtain ⟨h1, h2⟩ := Bool.and_eq_true_iff.mp hc
      obtain ⟨rfl, rfl⟩ := Prod.mk.inj (List.mem_singleton.mp h)
      refine ⟨⟨x, y, u, v, rfl, rfl, hx, hy, hu, hv⟩, Proc.has_iff.mp h1, Proc.has_iff.mp h2, fun hj => ?_⟩
      rw [P.joined_iff.mpr hj.symm] at h3
      cases h3
    · simp at h
  · rintro ⟨⟨x, y, u, v, rfl, rfl, hx, hy, hu, hv⟩, h1, h2, h3⟩
    refine ⟨x, hx, y, hy, u, hu, v, hv, ?_⟩
    have e : P.joined ⟨x, y, 1, v⟩ ⟨x, y, 0, u⟩ = false := by
      rw [← Bool.not_eq_true]
      exact fun h => h3 (P.joined_iff.mp h).symm
    rw [Proc.has_iff.mpr h1, Proc.has_iff.mpr h2, e]
    exact List.mem_singleton_self _

theorem works_grid (hE : ∀ e ∈ P.edges, Grid P.M P.N P.L e.1 ∧ Grid P.M P.N P.L e.2) {q : Qb} (h : Works P.edges q) : Grid P.M P.N P.L q := by
  obtain ⟨p, h | h⟩ := h
  · exact (hE _ h).2
  · exact (hE _ h).1

theorem covers_iff (hE : ∀ e ∈ P.edges, Grid P.M P.N P.L e.1 ∧ Grid P.M P.N P.L e.2) (d : List Qb) : Covers P.edges d ↔ Hits P.evil d := by
  constructor
  · intro h e he
    obtain ⟨⟨x, y, k, l, h1, h2, -⟩, w1, w2, hj⟩ := mem_evil.mp he
    rw [h1] at w1 hj ⊢
    rw [h2] at w2 hj ⊢
    exact (h _ _ _ _ w1 w2).resolve_left hj
  · intro h x y k l w1 w2
    by_cases hj : Joined P.edges ⟨x, y, 0, k⟩ ⟨x, y, 1, l⟩
    · exact .inl hj
    · refine .inr (h (⟨x, y, 0, k⟩, ⟨x, y, 1, l⟩) (mem_evil.mpr ⟨?_, w1, w2, hj⟩))
      obtain ⟨⟨a1, a2⟩, ⟨b1, b2⟩, -, c1, c2⟩ := works_grid hE w1
      obtain ⟨-, -, -, d1, d2⟩ := works_grid hE w2
      dsimp only at a1 a2 b1 b2 c1 c2 d1 d2
      refine ⟨x.toNat, y.toNat, k.toNat, l.toNat, ?_, ?_, by omega, by omega, by omega, by omega⟩
      · rw [Int.toNat_of_nonneg a1, Int.toNat_of_nonneg b1, Int.toNat_of_nonneg c1]
      · rw [Int.toNat_of_nonneg a1, Int.toNat_of_nonneg b1, Int.toNat_of_nonneg d1]

/-! ### Minimal covers -/

theorem products_hit {l : List (Qb × Qb)} {d : List Qb} (h : d ∈ products l) : Hits l d := by
  induction l generalizing d with
  | nil => intro e he; simp at he
  | cons e l ih =>
    simp only [products, List.mem_flatMap, List.mem_map, List.mem_cons, List.not_mem_nil, or_false] at h
    obtain ⟨a, ha, d', hd', rfl⟩ := h
    intro f hf
    rcases List.mem_cons.mp hf with rfl | hf
    · rcases ha with rfl | rfl <;> simp
    · rcases ih hd' f hf with h | h
      · exact .inl (List.mem_cons_of_mem _ h)
      · exact .inr (List.mem_cons_of_mem _ h)

theorem exists_product {l : List (Qb × Qb)} {c : List Qb} (h : Hits l c) : ∃ d ∈ products l, d ⊆ c := by
  induction l with
  | nil => exact ⟨[], List.mem_singleton_self _, List.nil_subset _⟩
  | cons e l ih =>
    obtain ⟨d, hd, hs⟩ := ih fun f hf => h f (List.mem_cons_of_mem _ hf)
    simp only [products, List.mem_flatMap, List.mem_map, List.mem_cons, List.not_mem_nil, or_false]
    rcases h e List.mem_cons_self with h | h
    · exact ⟨e.1 :: d, ⟨e.1, .inl rfl, d, hd, rfl⟩, List.cons_subset.mpr ⟨h, hs⟩⟩
    · exact ⟨e.2 :: d, ⟨e.2, .inr rfl, d, hd, rfl⟩, List.cons_subset.mpr ⟨h, hs⟩⟩

theorem products_length (l : List (Qb × Qb)) : (products l).length = 2 ^ l.length := by
  induction l with
  | nil => rfl
  | cons e l ih =>
    simp only [products, List.length_flatMap, List.length_map, List.map_cons, List.map_nil, List.sum_cons, List.sum_nil, List.length_cons, ih]
    rw [pow_succ]
    omega

theorem below_iff (s d : List Qb) : below s d = true ↔ s ⊆ d ∧ ¬ d ⊆ s := by
  unfold below
  simp only [Bool.and_eq_true, List.all_eq_true, decide_eq_true_eq, Bool.not_eq_true', ← Bool.not_eq_true]
  exact Iff.rfl

theorem keepMin_spec (d : List Qb) (m : List (List Qb)) :
    (keepMin d m = none ∧ ∃ s ∈ m, s ⊆ d ∧ ¬ d ⊆ s) ∨ ∃ m', keepMin d m = some m' ∧ (∀ s, s ∈ m' ↔ s ∈ m ∧ ¬ (d ⊆ s ∧ ¬ s ⊆ d)) ∧ (∀ s ∈ m', ¬ (s ⊆ d ∧ ¬ d ⊆ s)) ∧ m'.length ≤ m.length := by
  induction m with
  | nil => exact .inr ⟨[], rfl, by simp, by simp, le_refl _⟩
  | cons s m ih =>
    unfold keepMin
    by_cases h1 : below s d = true
    · rw [if_pos h1]
      exact .inl ⟨rfl, s, List.mem_cons_self, (below_iff _ _).mp h1⟩
    · rw [if_neg h1]
      rw [below_iff] at h1
      by_cases h2 : below d s = true
      · rw [if_pos h2]
        rw [below_iff] at h2
        rcases ih with ⟨i1, t, i2, i3⟩ | ⟨m', i1, i2, i3, i4⟩
        · exact .inl ⟨i1, t, List.mem_cons_of_mem _ i2, i3⟩
        · refine .inr ⟨m', i1, fun t => ?_, i3, by rw [List.length_cons]; omega⟩
          rw [i2, List.mem_cons]
          exact ⟨fun h => ⟨.inr h.1, h.2⟩, fun h => ⟨h.1.resolve_left fun e => h.2 (e ▸ h2), h.2⟩⟩
      · rw [if_neg h2]
        rw [below_iff] at h2
        rcases ih with ⟨i1, t, i2, i3⟩ | ⟨m', i1, i2, i3, i4⟩
        · exact .inl ⟨by rw [i1]; rfl, t, List.mem_cons_of_mem _ i2, i3⟩
        · refine .inr ⟨s :: m', by rw [i1]; rfl, fun t => ?_, fun t ht => ?_, by simp only [List.length_cons]; omega⟩
          · rw [List.mem_cons, i2, List.mem_cons]
            constructor
            · rintro (rfl | h)
              · exact ⟨.inl rfl, h2⟩
              · exact ⟨.inr h.1, h.2⟩
            · rintro ⟨h | h, h'⟩
              · exact .inl h
              · exact .inr ⟨h, h'⟩
          · rcases List.mem_cons.mp ht with rfl | ht
            · exact h1
            · exact i3 t ht

/-- No set is a proper subset of another, and every set seen has a subset. -/
structure Least (done : List (List Qb)) (m : List (List Qb)) : Prop where
  from_done : ∀ s ∈ m, s ∈ done
  anti : ∀ s ∈ m, ∀ t ∈ m, s ⊆ t → t ⊆ s
  reach : ∀ d ∈ done, ∃ s ∈ m, s ⊆ d
  short : m.length ≤ done.length

theorem least_step {done m : List (List Qb)} (h : Least done m) (d : List Qb) : Least (done ++ [d]) (addDeletion m d) := by
  unfold addDeletion
  rcases keepMin_spec d m with ⟨h1, s, h2, h3, -⟩ | ⟨m', h1, h2, h3, h4⟩
  · rw [h1]
    refine ⟨fun s hs => List.mem_append_left _ (h.from_done s hs), h.anti, fun d' hd' => ?_, by dsimp only; rw [List.length_append]; have := h.short; omega⟩
    rcases List.mem_append.mp hd' with hd' | hd'
    · exact h.reach d' hd'
    · rw [List.mem_singleton.mp hd']
      exact ⟨s, h2, h3⟩
  · rw [h1]
    refine ⟨fun s hs => ?_, fun s hs t ht hst => ?_, fun d' hd' => ?_, ?_⟩
    · rcases List.mem_append.mp hs with hs | hs
      · exact List.mem_append_left _ (h.from_done s ((h2 s).mp hs).1)
      · exact List.mem_append_right _ hs
    · rcases List.mem_append.mp hs with hs | hs <;> rcases List.mem_append.mp ht with ht | ht
      · exact h.anti s ((h2 s).mp hs).1 t ((h2 t).mp ht).1 hst
      · rw [List.mem_singleton.mp ht] at hst ⊢
        by_contra hc
        exact h3 s hs ⟨hst, hc⟩
      · rw [List.mem_singleton.mp hs] at hst ⊢
        by_contra hc
        exact ((h2 t).mp ht).2 ⟨hst, hc⟩
      · rw [List.mem_singleton.mp hs, List.mem_singleton.mp ht]
        exact List.Subset.refl _
    · rcases List.mem_append.mp hd' with hd' | hd'
      · obtain ⟨s, hs, hsd⟩ := h.reach d' hd'
        by_cases hc : d ⊆ s ∧ ¬ s ⊆ d
        · exact ⟨d, List.mem_append_right _ (List.mem_singleton_self _), List.Subset.trans hc.1 hsd⟩
        · exact ⟨s, List.mem_append_left _ ((h2 s).mpr ⟨hs, hc⟩), hsd⟩
      · exact ⟨d, List.mem_append_right _ (List.mem_singleton_self _), by rw [List.mem_singleton.mp hd']; exact List.Subset.refl _⟩
    · simp only [List.length_append, List.length_singleton]
      have := h.short
      omega

theorem deletions_least (P : Proc) : Least (products P.evil) P.deletions := by
  unfold Proc.deletions
  have main : ∀ (l done m : List (List Qb)), Least done m → Least (done ++ l) (l.foldl addDeletion m) := by
    intro l
    induction l with
    | nil => intro done m h; rwa [List.append_nil]
    | cons d l ih =>
      intro done m h
      rw [List.foldl_cons, show done ++ d :: l = (done ++ [d]) ++ l by simp]
      exact ih _ _ (least_step h d)
  exact main (products P.evil) [] [] ⟨by simp, by simp, by simp, le_refl _⟩

theorem deletions_hit {d : List Qb} (h : d ∈ P.deletions) : Hits P.evil d := products_hit ((deletions_least P).from_done d h)

theorem deletions_reach {c : List Qb} (h : Hits P.evil c) : ∃ d ∈ P.deletions, d ⊆ c := by
  obtain ⟨d, hd, hs⟩ := exists_product h
  obtain ⟨s, hs', hsd⟩ := (deletions_least P).reach d hd
  exact ⟨s, hs', List.Subset.trans hsd hs⟩

theorem deletions_length : P.deletions.length ≤ 2 ^ P.evil.length := by
  rw [← products_length]
  exact (deletions_least P).short

theorem deletions_minimal {d c : List Qb} (hd : d ∈ P.deletions) (hc : Hits P.evil c) (hcd : c ⊆ d) : d ⊆ c := by
  obtain ⟨s, hs, hsc⟩ := deletions_reach hc
  exact List.Subset.trans ((deletions_least P).anti s hs d hd (List.Subset.trans hsc hcd)) hsc

/-! ### Random deletions -/

theorem randomDeletion_hit (coin : Nat → Bool) (j : Nat) (l : List (Qb × Qb)) (d : List Qb) : Hits l (randomDeletion coin j l d) ∧ d ⊆ randomDeletion coin j l d := by
  induction l generalizing j d with
  | nil => exact ⟨fun e he => by simp at he, List.Subset.refl _⟩
  | cons e l ih =>
    unfold randomDeletion
    obtain ⟨h1, h2⟩ := ih (j + 1) (if e.1 ∈ d ∨ e.2 ∈ d then d else (if coin j then e.1 else e.2) :: d)
    have h3 : d ⊆ (if e.1 ∈ d ∨ e.2 ∈ d then d else (if coin j then e.1 else e.2) :: d) := by
      split
      · exact List.Subset.refl _
      · exact List.subset_cons_self _ _
    refine ⟨fun f hf => ?_, List.Subset.trans h3 h2⟩
    rcases List.mem_cons.mp hf with rfl | hf
    · have : f.1 ∈ (if f.1 ∈ d ∨ f.2 ∈ d then d else (if coin j then f.1 else f.2) :: d) ∨ f.2 ∈ (if f.1 ∈ d ∨ f.2 ∈ d then d else (if coin j then f.1 else f.2) :: d) := by
        by_cases hc : f.1 ∈ d ∨ f.2 ∈ d
        · rw [if_pos hc]
          exact hc
        · rw [if_neg hc]
          cases coin j <;> simp
      exact this.imp (fun h => h2 h) fun h => h2 h
    · exact h1 f hf

/-- `random.sample` returns as many different positions as asked for. -/
def Chance.Fair (C : Chance) : Prop := ∀ l k, k ≤ l.length → (C.sample l k).length = k ∧ (C.sample l k).Subperm l

theorem chosen_spec {limit : Int} {C : Chance} (hC : C.Fair) : (∀ d ∈ P.chosen limit C, Hits P.evil d) ∧ ((P.chosen limit C).length : Int) ≤ max limit 0 ∧
    (P.chosen limit C = [] ↔ limit ≤ 0) ∧ (2 ^ P.evil.length ≤ limit → P.chosen limit C = P.deletions) := by
  have hne : P.deletions ≠ [] := by
    intro h
    obtain ⟨d, hd, -⟩ := deletions_reach (P := P) (c := P.evil.map Prod.fst) fun e he => .inl (List.mem_map_of_mem he)
    rw [h] at hd
    simp at hd
  have hpow : (1 : Int) ≤ 2 ^ P.evil.length := by
    have := Nat.one_le_two_pow (n := P.evil.length)
    exact_mod_cast this
  have hlen : (P.deletions.length : Int) ≤ 2 ^ P.evil.length := by
    have := deletions_length (P := P)
    exact_mod_cast this
  unfold Proc.chosen
  by_cases h1 : (2 : Int) ^ P.evil.length ≤ limit
  · rw [if_pos h1]
    exact ⟨fun d hd => deletions_hit hd, by omega, ⟨fun h => absurd h hne, fun h => by omega⟩, fun _ => rfl⟩
  · rw [if_neg h1]
    refine and_assoc.mp (and_assoc.mp ⟨?_, fun h => absurd h h1⟩) |>.imp id fun h => ⟨h.1, h.2.1, h.2.2⟩
    by_cases h2 : (2 : Int) ^ P.evil.length ≤ 8 * limit
    · rw [if_pos h2]
      by_cases h3 : limit < (P.deletions.length : Int)
      · rw [if_pos h3]
        obtain ⟨s1, s2⟩ := hC P.deletions limit.toNat (by omega)
        refine ⟨⟨fun d hd => deletions_hit (s2.subset hd), by omega⟩, ?_⟩
        rw [← List.length_eq_zero_iff, s1]
        omega
      · rw [if_neg h3]
        exact ⟨⟨fun d hd => deletions_hit hd, by omega⟩, ⟨fun h => absurd h hne, fun h => by omega⟩⟩
    · rw [if_neg h2]
      refine ⟨⟨fun d hd => ?_, by rw [List.length_map, List.length_range]; omega⟩, ?_⟩
      · obtain ⟨i, -, rfl⟩ := List.mem_map.mp hd
        exact (randomDeletion_hit _ _ _ _).1
      · rw [List.map_eq_nil_iff, List.range_eq_nil]
        omega

/-! ### Subgraphs -/

theorem joined_without {E : List (Qb × Qb)} {d : List Qb} {p q : Qb} : Joined (without E d) p q ↔ Joined E p q ∧ p ∉ d ∧ q ∉ d := by
  unfold Joined without
  simp only [List.mem_filter, decide_eq_true_eq]
  tauto

theorem works_without {E : List (Qb × Qb)} {d : List Qb} {q : Qb} (h : Works (without E d) q) : Works E q ∧ q ∉ d := by
  obtain ⟨p, h⟩ := h
  rw [joined_without] at h
  exact ⟨⟨p, h.1⟩, h.2.2⟩

theorem cells_without {E : List (Qb × Qb)} {d : List Qb} (h : Covers E d) : CellsWhole (without E d) := by
  intro x y k l h1 h2
  obtain ⟨w1, n1⟩ := works_without h1
  obtain ⟨w2, n2⟩ := works_without h2
  rw [joined_without]
  refine ⟨?_, n1, n2⟩
  rcases h x y k l w1 w2 with h | h | h
  · exact h
  · exact absurd h n1
  · exact absurd h n2

theorem lines_without {E : List (Qb × Qb)} (d : List Qb) (h : LinesWhole E) : LinesWhole (without E d) := by
  refine ⟨fun x y k h1 h2 => ?_, fun x y k h1 h2 => ?_⟩
  · obtain ⟨w1, n1⟩ := works_without h1
    obtain ⟨w2, n2⟩ := works_without h2
    exact joined_without.mpr ⟨h.1 x y k w1 w2, n1, n2⟩
  · obtain ⟨w1, n1⟩ := works_without h1
    obtain ⟨w2, n2⟩ := works_without h2
    exact joined_without.mpr ⟨h.2 x y k w1 w2, n1, n2⟩

section Mono

variable {α β : Type} {E : List (α × α)} {F : List (β × β)} {f : α → β}

/-- Embeddings are kept by maps that keep couplers and are injective on working qubits. -/
structure Keeps (f : α → β) (E : List (α × α)) (F : List (β × β)) : Prop where
  joined : ∀ p q, Joined E p q → Joined F (f p) (f q)
  inj : ∀ p q, Works E p → Works E q → f p = f q → p = q

theorem Keeps.path (h : Keeps f E F) {c : List α} (hc : Path E c) : Path F (c.map f) := by
  refine ⟨fun e => hc.nonempty (List.map_eq_nil_iff.mp e), ?_, fun q hq => ?_, ?_⟩
  · exact hc.nodup.map_on fun p hp q hq e => h.inj p q (hc.works p hp) (hc.works q hq) e
  · obtain ⟨p, hp, rfl⟩ := List.mem_map.mp hq
    obtain ⟨r, hr⟩ := hc.works p hp
    exact ⟨f r, h.joined _ _ hr⟩
  · exact List.isChain_map_of_isChain f (fun p q hpq => h.joined p q hpq) hc.joined

theorem Keeps.touch (h : Keeps f E F) {c d : List α} (ht : Touch E c d) : Touch F (c.map f) (d.map f) := by
  obtain ⟨p, hp, q, hq, hj⟩ := ht
  exact ⟨f p, List.mem_map_of_mem hp, f q, List.mem_map_of_mem hq, h.joined p q hj⟩

theorem Keeps.disjoint (h : Keeps f E F) {l : List (List α)} (hl : ∀ c ∈ l, Path E c) (hd : l.Pairwise fun c d => ∀ q ∈ c, q ∉ d) :
    (l.map fun c => c.map f).Pairwise fun c d => ∀ q ∈ c, q ∉ d := by
  rw [List.pairwise_map]
  refine hd.imp_of_mem fun {c d} hc hd' h' q hq hq' => ?_
  obtain ⟨p, hp, rfl⟩ := List.mem_map.mp hq
  obtain ⟨r, hr, e⟩ := List.mem_map.mp hq'
  have := h.inj r p ((hl d hd').works r hr) ((hl c hc).works p hp) e
  exact h' p hp (this ▸ hr)

theorem Keeps.clique (h : Keeps f E F) {l : List (List α)} (hl : Clique E l) : Clique F (l.map fun c => c.map f) := by
  refine ⟨fun c hc => ?_, h.disjoint hl.paths hl.disjoint, ?_⟩
  · obtain ⟨c', hc', rfl⟩ := List.mem_map.mp hc
    exact h.path (hl.paths c' hc')
  · rw [List.pairwise_map]
    exact hl.touch.imp fun ht => h.touch ht

theorem Keeps.biclique (h : Keeps f E F) {A B : List (List α)} (hl : Biclique E A B) : Biclique F (A.map fun c => c.map f) (B.map fun c => c.map f) := by
  have e : ((A.map fun c => c.map f) ++ B.map fun c => c.map f) = (A ++ B).map fun c => c.map f := List.map_append.symm
  refine ⟨fun c hc => ?_, ?_, fun c hc d hd => ?_⟩
  · rw [e] at hc
    obtain ⟨c', hc', rfl⟩ := List.mem_map.mp hc
    exact h.path (hl.paths c' hc')
  · rw [e]
    exact h.disjoint hl.paths hl.disjoint
  · obtain ⟨c', hc', rfl⟩ := List.mem_map.mp hc
    obtain ⟨d', hd', rfl⟩ := List.mem_map.mp hd
    exact h.touch (hl.touch c' hc' d' hd')

end Mono

theorem keeps_without (E : List (Qb × Qb)) (d : List Qb) : Keeps id (without E d) E := ⟨fun _ _ h => (joined_without.mp h).1, fun _ _ _ _ h => h⟩

theorem clique_without {E : List (Qb × Qb)} {d : List Qb} {l : List (List Qb)} (h : Clique (without E d) l) : Clique E l := by
  have := (keeps_without E d).clique h
  simpa using this

theorem biclique_without {E : List (Qb × Qb)} {d : List Qb} {A B : List (List Qb)} (h : Biclique (without E d) A B) : Biclique E A B := by
  have := (keeps_without E d).biclique h
  simpa using this

/-- More couplers, more lines. -/
theorem lines_mono {E F : List (Qb × Qb)} (h : ∀ p q, Joined E p q → Joined F p q) (L : Nat) (y a b : Int) : hLines E L y a b ≤ hLines F L y a b ∧ vLines E L y a b ≤ vLines F L y a b := by
  have w : ∀ q, Works E q → Works F q := fun q ⟨p, hp⟩ => ⟨p, h p q hp⟩
  unfold hLines vLines
  constructor
  · refine List.countP_mono_left fun k _ hk => ?_
    simp only [decide_eq_true_eq] at hk ⊢
    exact ⟨fun x h1 h2 => w _ (hk.1 x h1 h2), fun x h1 h2 => h _ _ (hk.2 x h1 h2)⟩
  · refine List.countP_mono_left fun k _ hk => ?_
    simp only [decide_eq_true_eq] at hk ⊢
    exact ⟨fun x h1 h2 => w _ (hk.1 x h1 h2), fun x h1 h2 => h _ _ (hk.2 x h1 h2)⟩

theorem size_mono {E F : List (Qb × Qb)} (h : ∀ p q, Joined E p q → Joined F p q) (L : Nat) (es : List Ell) : Spec.Eden.size E L es ≤ Spec.Eden.size F L es := by
  unfold Spec.Eden.size
  induction es with
  | nil => exact le_refl _
  | cons e es ih =>
    simp only [List.map_cons, List.sum_cons]
    refine Nat.add_le_add ?_ ih
    unfold Ell.size
    exact min_le_min (lines_mono h L _ _ _).1 (lines_mono h L _ _ _).2

/-- A subgraph without missing couplers in cells comes from a deletion that hits all of them. -/
theorem exists_cover {E : List (Qb × Qb)} {d : List Qb} (h : CellsWhole (without E d)) : ∃ d', Covers E d' ∧ ∀ p q, Joined (without E d) p q → Joined (without E d') p q := by
  classical
  refine ⟨d ++ (E.flatMap fun e => [e.1, e.2]).filter fun q => decide (¬ Works (without E d) q), fun x y k l w1 w2 => ?_, fun p q hj => ?_⟩
  · have mem : ∀ q, Works E q → ¬ Works (without E d) q → q ∈ d ++ (E.flatMap fun e => [e.1, e.2]).filter fun q => decide (¬ Works (without E d) q) := by
      intro q ⟨p, hp⟩ hn
      refine List.mem_append_right _ (List.mem_filter.mpr ⟨List.mem_flatMap.mpr ?_, decide_eq_true hn⟩)
      rcases hp with hp | hp
      · exact ⟨_, hp, by simp⟩
      · exact ⟨_, hp, by simp⟩
    by_cases h1 : Works (without E d) ⟨x, y, 0, k⟩
    · by_cases h2 : Works (without E d) ⟨x, y, 1, l⟩
      · exact .inl (joined_without.mp (h x y k l h1 h2)).1
      · exact .inr (.inr (mem _ w2 h2))
    · exact .inr (.inl (mem _ w1 h1))
  · have hp : Works (without E d) p := ⟨q, hj.symm⟩
    have hq : Works (without E d) q := ⟨p, hj⟩
    rw [joined_without] at hj ⊢
    refine ⟨hj.1, fun hm => ?_, fun hm => ?_⟩
    · rcases List.mem_append.mp hm with hm | hm
      · exact hj.2.1 hm
      · exact of_decide_eq_true (List.mem_filter.mp hm).2 hp
    · rcases List.mem_append.mp hm with hm | hm
      · exact hj.2.2 hm
      · exact of_decide_eq_true (List.mem_filter.mp hm).2 hq

end Eden
end MM
