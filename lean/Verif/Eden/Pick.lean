import Verif.Eden.Eden
import Verif.Eden.Boxes
import Mathlib.Tactic.Ring

/-! On-line random selection. -/

namespace MM
namespace Eden

variable {β : Type}

/-- The loop in the documentation of `_accumulate_random` (polynomialembedder.py 95-98): objects with weights, one after the other, from call number `i` of `randint` on. -/
def pickLoop (rnd : Nat → Nat → Nat) : List (β × Nat) → Nat → Nat → β → β
  | [], _, _, thing => thing
  | o :: l, i, count, thing => pickLoop rnd l (i + 1) (accumulate rnd i count o.2 thing o.1).1 (accumulate rnd i count o.2 thing o.1).2

/-- Sum of the first weights. -/
def upToWeight (things : List (β × Nat)) (n : Nat) : Nat := ((things.take n).map Prod.snd).sum

theorem pickLoop_append (rnd : Nat → Nat → Nat) (pre l : List (β × Nat)) (i count : Nat) (t : β) :
    pickLoop rnd (pre ++ l) i count t = pickLoop rnd l (i + pre.length) (count + (pre.map Prod.snd).sum) (pickLoop rnd pre i count t) := by
  induction pre generalizing i count t with
  | nil => rfl
  | cons o pre ih =>
    rw [List.cons_append, show ∀ l : List (β × Nat), pickLoop rnd (o :: l) i count t =
      pickLoop rnd l (i + 1) (accumulate rnd i count o.2 t o.1).1 (accumulate rnd i count o.2 t o.1).2 from fun _ => rfl, ih]
    rw [List.length_cons, List.map_cons, List.sum_cons]
    congr 1
    · omega
    · change count + o.2 + _ = _
      omega

/-- Something taken earlier stays if nothing is taken later. -/
theorem pickLoop_stays {rnd : Nat → Nat → Nat} {o : β} (W : Nat → Nat) : ∀ (l : List (β × Nat)) (i : Nat) (t : β), o ∉ l.map Prod.fst →
    (∀ m x, l[m]? = some x → W (i + m + 1) = W (i + m) + x.2) →
    (pickLoop rnd l i (W i) t = o ↔ t = o ∧ ∀ m, i ≤ m → m < i + l.length → ¬ rnd m (W (m + 1)) ≤ W (m + 1) - W m) := by
  intro l
  induction l with
  | nil =>
    intro i t _ _
    exact ⟨fun h => ⟨h, fun m h1 h2 => absurd h2 (by simpa using h1)⟩, fun h => h.1⟩
  | cons x l ih =>
    intro i t ho hW
    rw [List.map_cons, List.mem_cons, not_or] at ho
    have h0 : W (i + 1) = W i + x.2 := hW 0 x rfl
    have step : pickLoop rnd (x :: l) i (W i) t = pickLoop rnd l (i + 1) (W (i + 1)) (if rnd i (W (i + 1)) ≤ x.2 then x.1 else t) := by
      rw [h0]
      rfl
    rw [step, ih (i + 1) _ ho.2 (fun m y hy => by
      have := hW (m + 1) y hy
      rw [show i + 1 + m = i + (m + 1) by omega]
      exact this)]
    have h1 : W (i + 1) - W i = x.2 := by rw [h0]; omega
    constructor
    · rintro ⟨h, h'⟩
      by_cases hr : rnd i (W (i + 1)) ≤ x.2
      · rw [if_pos hr] at h
        exact absurd h.symm ho.1
      · rw [if_neg hr] at h
        refine ⟨h, fun m m1 m2 => ?_⟩
        rcases Nat.eq_or_lt_of_le m1 with rfl | m1
        · rw [h1]
          exact hr
        · refine h' m m1 ?_
          rw [List.length_cons] at m2
          omega
    · rintro ⟨h, h'⟩
      have hr := h' i le_rfl (by rw [List.length_cons]; omega)
      rw [h1] at hr
      rw [if_neg hr]
      refine ⟨h, fun m m1 m2 => h' m (by omega) ?_⟩
      rw [List.length_cons]
      omega

theorem pickLoop_mem {rnd : Nat → Nat → Nat} (l : List (β × Nat)) (i count : Nat) (t : β) : pickLoop rnd l i count t = t ∨ pickLoop rnd l i count t ∈ l.map Prod.fst := by
  induction l generalizing i count t with
  | nil => exact .inl rfl
  | cons x l ih =>
    have := ih (i + 1) (count + x.2) (if rnd i (count + x.2) ≤ x.2 then x.1 else t)
    rw [show pickLoop rnd (x :: l) i count t = pickLoop rnd l (i + 1) (count + x.2) (if rnd i (count + x.2) ≤ x.2 then x.1 else t) from rfl, List.map_cons, List.mem_cons]
    rcases this with h | h
    · rw [h]
      split
      · exact .inr (.inl rfl)
      · exact .inl rfl
    · exact .inr (.inr h)

theorem pickLoop_first {rnd : Nat → Nat → Nat} (hr : ∀ i n, 1 ≤ n → 1 ≤ rnd i n ∧ rnd i n ≤ n) {l : List (β × Nat)} (hl : l ≠ []) (hp : ∀ x ∈ l, 1 ≤ x.2) (t : β) :
    pickLoop rnd l 0 0 t ∈ l.map Prod.fst := by
  cases l with
  | nil => exact absurd rfl hl
  | cons x l =>
    rw [show pickLoop rnd (x :: l) 0 0 t = pickLoop rnd l 1 (0 + x.2) (if rnd 0 (0 + x.2) ≤ x.2 then x.1 else t) from rfl, Nat.zero_add,
      if_pos (hr _ _ (hp x List.mem_cons_self)).2, List.map_cons, List.mem_cons]
    exact pickLoop_mem l 1 x.2 x.1

theorem upToWeight_succ {things : List (β × Nat)} {m : Nat} {x : β × Nat} (h : things[m]? = some x) : upToWeight things (m + 1) = upToWeight things m + x.2 := by
  unfold upToWeight
  rw [List.take_add_one, h, List.map_append, List.sum_append]
  simp

/-- When an object is the one picked. -/
theorem pickLoop_iff {rnd : Nat → Nat → Nat} (hr : ∀ i n, 1 ≤ n → 1 ≤ rnd i n ∧ rnd i n ≤ n) {things : List (β × Nat)} (hp : ∀ x ∈ things, 1 ≤ x.2)
    (hn : (things.map Prod.fst).Nodup) {j : Nat} {o : β} {c : Nat} (hj : things[j]? = some (o, c)) (t : β) :
    pickLoop rnd things 0 0 t = o ↔ rnd j (upToWeight things (j + 1)) ≤ c ∧
      ∀ m, j + 1 ≤ m → m < things.length → ¬ rnd m (upToWeight things (m + 1)) ≤ upToWeight things (m + 1) - upToWeight things m := by
  obtain ⟨hlt, hget⟩ := List.getElem?_eq_some_iff.mp hj
  have hsplit : things = things.take j ++ (o, c) :: things.drop (j + 1) := by
    rw [← hget, List.getElem_cons_drop, List.take_append_drop]
  have hlen : (things.take j).length = j := by rw [List.length_take]; omega
  have hnames : o ∉ (things.take j).map Prod.fst ∧ o ∉ (things.drop (j + 1)).map Prod.fst := by
    rw [hsplit, List.map_append, List.map_cons, List.nodup_append] at hn
    refine ⟨fun h => hn.2.2 o h o List.mem_cons_self rfl, (List.nodup_cons.mp hn.2.1).1⟩
  have h1 : pickLoop rnd things 0 0 t = pickLoop rnd (things.drop (j + 1)) (j + 1) (upToWeight things (j + 1))
      (if rnd j (upToWeight things (j + 1)) ≤ c then o else pickLoop rnd (things.take j) 0 0 t) := by
    conv_lhs => rw [hsplit]
    rw [pickLoop_append, hlen, upToWeight_succ hj]
    rw [Nat.zero_add, Nat.zero_add]
    rfl
  rw [h1, pickLoop_stays (upToWeight things) _ _ _ hnames.2 (fun m x h => by
    rw [List.getElem?_drop] at h
    exact upToWeight_succ h)]
  have hl2 : j + 1 + (things.drop (j + 1)).length = things.length := by rw [List.length_drop]; omega
  rw [hl2]
  refine and_congr_left fun _ => ?_
  constructor
  · intro h
    by_contra hc
    rw [if_neg hc] at h
    by_cases hne : things.take j = []
    · have hj0 : j = 0 := by
        rw [hne] at hlen
        exact hlen.symm
      subst hj0
      rw [upToWeight_succ hj, show upToWeight things 0 = 0 from rfl, Nat.zero_add] at hc
      exact hc (hr _ _ (hp (o, c) (List.mem_of_getElem? hj))).2
    · have := pickLoop_first hr hne (fun x hx => hp x (List.mem_of_mem_take hx)) t
      rw [h] at this
      exact hnames.1 this
  · intro h
    rw [if_pos h]

open Spec (FairDraws chance)

/-- The chance of an object. -/
theorem pickLoop_chance [DecidableEq β] {B : Nat} {Ω : Type} [Fintype Ω] {rnd : Ω → Nat → Nat → Nat} {things : List (β × Nat)} (hf : FairDraws things.length B Ω rnd)
    (hp : ∀ x ∈ things, 1 ≤ x.2) (hn : (things.map Prod.fst).Nodup) (hB : (things.map Prod.snd).sum ≤ B) {j : Nat} {o : β} {c : Nat} (hj : things[j]? = some (o, c)) (t : β) :
    chance (fun ω => pickLoop (rnd ω) things 0 0 t = o) = c / (things.map Prod.snd).sum := by
  obtain ⟨hlt, -⟩ := List.getElem?_eq_some_iff.mp hj
  have hmono : ∀ m < things.length, upToWeight things m + 1 ≤ upToWeight things (m + 1) := by
    intro m hm
    have h := upToWeight_succ (List.getElem?_eq_getElem hm)
    have := hp _ (List.getElem_mem hm)
    omega
  have hall : upToWeight things things.length = (things.map Prod.snd).sum := by
    unfold upToWeight
    rw [List.take_length]
  have htop : ∀ d m, m + d = things.length → upToWeight things m ≤ (things.map Prod.snd).sum := by
    intro d
    induction d with
    | zero => exact fun m h => by rw [← hall, ← h, Nat.add_zero]
    | succ d ih =>
      intro m h
      have h1 := ih (m + 1) (by omega)
      have h2 := hmono m (by omega)
      omega
  have hcj : upToWeight things (j + 1) = upToWeight things j + c := upToWeight_succ hj
  let A : Nat → Finset Nat := fun i => if i < j then Finset.Icc 1 (upToWeight things (i + 1)) else if i = j then Finset.Icc 1 c else
    Finset.Icc (upToWeight things (i + 1) - upToWeight things i + 1) (upToWeight things (i + 1))
  have h1 : ∀ ω, pickLoop (rnd ω) things 0 0 t = o ↔ ∀ i < things.length, rnd ω i (upToWeight things (i + 1)) ∈ A i := by
    intro ω
    rw [pickLoop_iff (hf.range ω) hp hn hj t]
    have hin : ∀ i < things.length, 1 ≤ rnd ω i (upToWeight things (i + 1)) ∧ rnd ω i (upToWeight things (i + 1)) ≤ upToWeight things (i + 1) :=
      fun i hi => hf.range ω i _ (by have := hmono i hi; omega)
    constructor
    · rintro ⟨h, h'⟩ i hi
      have := hin i hi
      dsimp only [A]
      split
      · rw [Finset.mem_Icc]; exact this
      · split
        · rename_i _ e
          rw [Finset.mem_Icc]
          exact ⟨this.1, by rw [e]; exact h⟩
        · rename_i e1 e2
          have := h' i (by omega) hi
          rw [Finset.mem_Icc]
          omega
    · intro h
      refine ⟨?_, fun m m1 m2 => ?_⟩
      · have := h j hlt
        dsimp only [A] at this
        rw [if_neg (by omega), if_pos rfl, Finset.mem_Icc] at this
        exact this.2
      · have := h m m2
        dsimp only [A] at this
        rw [if_neg (by omega), if_neg (by omega), Finset.mem_Icc] at this
        omega
  rw [Spec.chance_congr h1, hf.chance_box (fun i hi => ?_) (fun i hi => ?_)]
  · -- telescoping
    have tele : ∀ p, j + 1 + p ≤ things.length → ∏ i ∈ Finset.range (j + 1 + p), ((A i).card / (upToWeight things (i + 1) : Nat) : Rat) = c / (upToWeight things (j + 1 + p) : Nat) := by
      intro p
      induction p with
      | zero =>
        intro _
        rw [Nat.add_zero, Finset.prod_range_succ, Finset.prod_eq_one, one_mul]
        · dsimp only [A]
          rw [if_neg (by omega), if_pos rfl, Nat.card_Icc, Nat.add_sub_cancel]
        · intro i hi
          rw [Finset.mem_range] at hi
          dsimp only [A]
          rw [if_pos hi, Nat.card_Icc, Nat.add_sub_cancel]
          refine div_self ?_
          have := hmono i (by omega)
          exact_mod_cast (show upToWeight things (i + 1) ≠ 0 by omega)
      | succ p ih =>
        intro hle
        rw [← Nat.add_assoc, Finset.prod_range_succ, ih (by omega)]
        have h2 := hmono (j + 1 + p) (by omega)
        have h3 : (A (j + 1 + p)).card = upToWeight things (j + 1 + p) := by
          dsimp only [A]
          rw [if_neg (by omega), if_neg (by omega), Nat.card_Icc]
          omega
        rw [h3]
        have h4 : ((upToWeight things (j + 1 + p) : Nat) : Rat) ≠ 0 := by
          have := hmono (j + p) (by omega)
          rw [show j + 1 + p = j + p + 1 by omega]
          exact_mod_cast (show upToWeight things (j + p + 1) ≠ 0 by omega)
        exact div_mul_div_cancel₀ h4
    have h5 := tele (things.length - (j + 1)) (by omega)
    rw [show j + 1 + (things.length - (j + 1)) = things.length by omega, hall] at h5
    exact h5
  · have h2 := hmono i hi
    have h3 := htop (things.length - (i + 1)) (i + 1) (by omega)
    exact ⟨by omega, h3.trans hB⟩
  · dsimp only [A]
    split
    · exact Finset.Subset.refl _
    · split
      · rename_i _ e
        rw [e, hcj]
        exact Finset.Icc_subset_Icc le_rfl (by omega)
      · exact Finset.Icc_subset_Icc (by omega) le_rfl

end Eden
end MM
