import Verif.Eden.Yield
import Verif.Props.EdenProcessor

/-! C95 from the yield on. -/

namespace MM

open Eden
open Spec.Eden (Qb Joined Grid Adjacent)

namespace Eden

theorem mem_allQubits {M N L : Nat} {q : Qb} : q ∈ allQubits M N L ↔ Grid M N L q := by
  unfold allQubits Grid
  simp only [List.mem_flatMap, List.mem_range, List.mem_map, List.mem_cons, List.not_mem_nil, or_false]
  constructor
  · rintro ⟨x, hx, y, hy, u, hu, k, hk, rfl⟩
    exact ⟨⟨by simp, by simpa using hx⟩, ⟨by simp, by simpa using hy⟩, hu, by simp, by simpa using hk⟩
  · rintro ⟨⟨h1, h2⟩, ⟨h3, h4⟩, h5, h6, h7⟩
    refine ⟨q.x.toNat, by omega, q.y.toNat, by omega, q.u, h5, q.k.toNat, by omega, ?_⟩
    cases q
    simp only [Qb.mk.injEq]
    dsimp only at h1 h3 h6
    refine ⟨by omega, by omega, trivial, by omega⟩

theorem allQubits_length (M N L : Nat) : (allQubits M N L).length = 2 * M * N * L := by
  unfold allQubits
  simp [List.length_flatMap]
  ring

theorem allQubits_nodup (M N L : Nat) : (allQubits M N L).Nodup := by
  unfold allQubits
  rw [List.nodup_flatMap]
  refine ⟨fun x _ => ?_, List.nodup_range.imp fun {x x'} hx => ?_⟩
  · rw [List.nodup_flatMap]
    refine ⟨fun y _ => ?_, List.nodup_range.imp fun {y y'} hy => ?_⟩
    · rw [List.nodup_flatMap]
      refine ⟨fun u _ => List.nodup_range.map fun a b h => by simpa using h, ?_⟩
      simp [Function.onFun, List.disjoint_left]
    · simp only [Function.onFun, List.disjoint_left, List.mem_flatMap, List.mem_map]
      rintro q ⟨u, -, k, -, rfl⟩ ⟨u', -, k', -, h⟩
      simp only [Qb.mk.injEq] at h
      omega
  · simp only [Function.onFun, List.disjoint_left, List.mem_flatMap, List.mem_map]
    rintro q ⟨y, -, u, -, k, -, rfl⟩ ⟨y', -, u', -, k', -, h⟩
    simp only [Qb.mk.injEq] at h
    omega

end Eden

/-- C95 from the yield on: for a yield between 0 and 1, with any rounding that respects the order and whole numbers up to the number of all qubits, as many qubits are sampled as the rounded
product says, all of them for yield 1, and they are what the sample of all qubits gave. The couplers are as in `C95_random`. -/
theorem C95_yield {M N L : Nat} {round : Rat → Rat} (hmono : ∀ a b, a ≤ b → round a ≤ round b) (hexact : ∀ n : Nat, n ≤ 2 * M * N * L → round n = n)
    {pick : List Qb → Nat → List Qb} (hp : ∀ l k, k ≤ l.length → (pick l k).length = k ∧ (pick l k).Subperm l)
    {sample : List (Qb × Qb) → Nat → List (Qb × Qb)} (hs : ∀ l k, k ≤ l.length → (sample l k).length = k ∧ (sample l k).Subperm l)
    {y : Rat} (h0 : 0 ≤ y) (h1 : y ≤ 1) {numEvil : Int} (he : 0 ≤ numEvil) :
    ∃ (P : Proc) (qubits : List Qb), randomYield round pick sample M N L y numEvil = .ok P ∧ qubits.Nodup ∧ (∀ q ∈ qubits, Grid M N L q) ∧ (∃ all : List Qb, all.Nodup ∧ (∀ q, q ∈ all ↔ Grid M N L q) ∧ qubits = pick all qubits.length) ∧
      ((qubits.length : Rat) ≤ round ((2 * M * N * L : Nat) * y) ∧ round ((2 * M * N * L : Nat) * y) < qubits.length + 1) ∧ (y = 1 → ∀ q, Grid M N L q → q ∈ qubits) ∧
      P.edges.Nodup ∧ ∃ gone : List (Qb × Qb), gone.Nodup ∧ (∀ e ∈ gone, e.1 ∈ qubits ∧ e.2 ∈ qubits ∧ Adjacent e.1 e.2 ∧ e.1.u ≠ e.2.u ∧ (e.2, e.1) ∉ gone) ∧
      (∀ p q, Joined P.edges p q ↔ p ∈ qubits ∧ q ∈ qubits ∧ Adjacent p q ∧ ¬ Joined gone p q) ∧
      ((gone.length : Int) = numEvil ∨ (gone.length : Int) < numEvil ∧ ∀ p ∈ qubits, ∀ q ∈ qubits, Adjacent p q → p.u ≠ q.u → Joined gone p q) := by
  have hlen := allQubits_length M N L
  have hny0 : (0 : Rat) ≤ (2 * M * N * L : Nat) * y := mul_nonneg (Nat.cast_nonneg _) h0
  have hny1 : ((2 * M * N * L : Nat) : Rat) * y ≤ (2 * M * N * L : Nat) := mul_le_of_le_one_right (Nat.cast_nonneg _) h1
  have hr0 : 0 ≤ round ((2 * M * N * L : Nat) * y) := by
    have := hmono _ _ hny0
    have h00 := hexact 0 (Nat.zero_le _)
    rw [Nat.cast_zero] at h00
    rwa [h00] at this
  have hr1 : round ((2 * M * N * L : Nat) * y) ≤ (2 * M * N * L : Nat) := by
    have := hmono _ _ hny1
    rwa [hexact _ le_rfl] at this
  have hk : truncate (round ((2 * M * N * L : Nat) * y)) = ⌊round ((2 * M * N * L : Nat) * y)⌋ := if_pos hr0
  have hk0 : 0 ≤ ⌊round ((2 * M * N * L : Nat) * y)⌋ := Int.floor_nonneg.mpr hr0
  have hk1 : ⌊round ((2 * M * N * L : Nat) * y)⌋ ≤ (2 * M * N * L : Nat) := by
    have := Int.floor_le (round ((2 * M * N * L : Nat) * y))
    exact_mod_cast this.trans hr1
  have hrun : randomYield round pick sample M N L y numEvil =
      .ok (randomProcessor M N L (pick (allQubits M N L) ⌊round ((2 * M * N * L : Nat) * y)⌋.toNat) sample numEvil.toNat) := by
    unfold randomYield
    dsimp only
    rw [hlen, hk, if_neg (by omega), if_neg (by omega)]
  obtain ⟨p1, p2⟩ := hp (allQubits M N L) ⌊round ((2 * M * N * L : Nat) * y)⌋.toNat (by rw [hlen]; omega)
  generalize hq : pick (allQubits M N L) ⌊round ((2 * M * N * L : Nat) * y)⌋.toNat = qubits at hrun p1 p2
  have hnd : qubits.Nodup := by
    obtain ⟨l, h1, h2⟩ := p2
    exact h1.nodup_iff.mp (h2.nodup (allQubits_nodup M N L))
  have hgrid : ∀ q ∈ qubits, Grid M N L q := fun q hq => mem_allQubits.mp (p2.subset hq)
  have hcast : (qubits.length : Rat) = (⌊round ((2 * M * N * L : Nat) * y)⌋ : Int) := by
    have : (qubits.length : Int) = ⌊round ((2 * M * N * L : Nat) * y)⌋ := by rw [p1]; omega
    rw [← this]; simp
  obtain ⟨e1, gone, e2, e3, e4, e5⟩ := C95_random M N L qubits hnd hgrid sample hs numEvil.toNat
  refine ⟨_, qubits, hrun, hnd, hgrid, ⟨_, allQubits_nodup M N L, fun _ => mem_allQubits, by rw [p1, hq]⟩, ⟨?_, ?_⟩, ?_, e1, gone, e2, e3, e4, e5.imp (fun h => by omega) fun h => ⟨by omega, h.2⟩⟩
  · rw [hcast]; exact Int.floor_le _
  · rw [hcast]; exact Int.lt_floor_add_one _
  · rintro rfl q hq
    have : qubits.length = (allQubits M N L).length := by
      rw [p1, hlen, mul_one, hexact _ le_rfl, Int.floor_natCast, Int.toNat_natCast]
    exact (p2.perm_of_length_le this.ge).mem_iff.mpr (mem_allQubits.mpr hq)

/-- Other yields and negative numbers raise, as soon as the product is rounded to a number outside of the range. -/
theorem C95_refuses {M N L : Nat} {round : Rat → Rat} (pick : List Qb → Nat → List Qb) (sample : List (Qb × Qb) → Nat → List (Qb × Qb)) {y : Rat} {numEvil : Int}
    (h : round ((2 * M * N * L : Nat) * y) ≤ -1 ∨ ((2 * M * N * L : Nat) : Rat) + 1 ≤ round ((2 * M * N * L : Nat) * y) ∨ numEvil < 0) :
    randomYield round pick sample M N L y numEvil = .error .value := by
  unfold randomYield
  dsimp only
  rw [allQubits_length]
  rcases h with h | h | h
  · rw [if_pos]
    left
    unfold truncate
    rw [if_neg (by linarith)]
    have : ⌈round ((2 * M * N * L : Nat) * y)⌉ ≤ -1 := Int.ceil_le.mpr (by exact_mod_cast h)
    omega
  · rw [if_pos]
    right
    unfold truncate
    rw [if_pos (le_trans (by positivity) h)]
    have : ((2 * M * N * L : Nat) : Int) + 1 ≤ ⌊round ((2 * M * N * L : Nat) * y)⌋ := Int.le_floor.mpr (by exact_mod_cast h)
    omega
  · rw [if_pos h, ite_self]

/-- The hypotheses are met by exact arithmetic and samples from the front. -/
example (M N L : Nat) : ∃ P, randomYield id (fun l k => l.take k) (fun l k => l.take k) M N L (9 / 10) 5 = .ok P :=
  have ht : ∀ {α : Type} (l : List α) (k : Nat), k ≤ l.length → (l.take k).length = k ∧ (l.take k).Subperm l := fun l k h => ⟨List.length_take_of_le h, (List.take_sublist k l).subperm⟩
  have ⟨P, _, h, _⟩ := C95_yield (M := M) (N := N) (L := L) (round := id) (fun _ _ h => h) (fun _ _ => rfl) ht ht (y := 9 / 10) (by norm_num) (by norm_num) (numEvil := 5) (by norm_num)
  ⟨P, h⟩

example (M N L : Nat) : randomYield id (fun l k => l.take k) (fun l k => l.take k) M N L (1 / 2) (-1) = .error .value := C95_refuses _ _ (.inr (.inr (by norm_num)))

/-- Half of the qubits of a cell, without rounding; and the whole cell. -/
example : (randomYield id (fun l k => l.take k) (fun l k => l.take k) 1 1 2 (1 / 2) 3).toOption.map (fun P => P.edges) = some [] := by decide +kernel
example : (randomYield id (fun l k => l.take k) (fun l k => l.take k) 1 1 2 1 3).toOption.map (fun P => P.edges.length) = some 1 := by decide +kernel

end MM
