import Mathlib.Tactic.Common
import Mathlib.Tactic.Linarith
import Mathlib.Logic.Function.Basic

/-! Shared vocabulary of the model: outcomes, point updates, counting. -/

namespace MM

/-- Outcomes of a C++ computation other than a normal return. `ub` is undefined
behaviour (dereferencing a missing map entry, index out of range), `diverge` a
loop that used up the fuel given to the model, `badInit` is
`BadInitializationException`, `cancelled` is `ProblemCancelledException`, `corrupt` is
`CorruptParametersException` (include/find_embedding/util.hpp:62-88), `small` the
`MinorMinerException` for too few nodes (embedding_problem.hpp:246). -/
inductive Fault
  | ub
  | diverge
  | badInit
  | cancelled
  | corrupt
  | small
  deriving DecidableEq, Repr

abbrev M (α : Type) := Except Fault α

/-- Point update of a table. -/
def upd {α : Type} (f : Nat → α) (k : Nat) (v : α) : Nat → α :=
  fun i => if i = k then v else f i

@[simp] theorem upd_same {α : Type} (f : Nat → α) (k : Nat) (v : α) : upd f k v k = v := by
  simp [upd]

@[simp] theorem upd_ne {α : Type} (f : Nat → α) {k i : Nat} (v : α) (h : i ≠ k) :
    upd f k v i = f i := by simp [upd, h]

theorem upd_apply {α : Type} (f : Nat → α) (k i : Nat) (v : α) :
    upd f k v i = if i = k then v else f i := rfl

@[simp] theorem upd_self {α : Type} (f : Nat → α) (k : Nat) : upd f k (f k) = f := by
  funext i; simp only [upd]; split <;> simp_all

/-- Number of indices `i < n` with `p i`. -/
def cnt (p : Nat → Bool) : Nat → Nat
  | 0 => 0
  | n+1 => cnt p n + (if p n then 1 else 0)

/-- Indicator. -/
def ind (b : Bool) : Int := if b then 1 else 0

@[simp] theorem ind_true : ind true = 1 := rfl
@[simp] theorem ind_false : ind false = 0 := rfl

theorem ind_nonneg (b : Bool) : 0 ≤ ind b := by cases b <;> simp

theorem cnt_congr {p p' : Nat → Bool} {n : Nat} (h : ∀ i, i < n → p i = p' i) :
    cnt p n = cnt p' n := by
  induction n with
  | zero => rfl
  | succ n ih =>
    simp only [cnt]
    rw [ih (fun i hi => h i (by omega)), h n (by omega)]

/-- Changing the predicate at one point changes the count by the difference of indicators. -/
theorem cnt_change {p p' : Nat → Bool} {n k : Nat} (hk : k < n)
    (h : ∀ i, i ≠ k → p' i = p i) :
    (cnt p' n : Int) = cnt p n - ind (p k) + ind (p' k) := by
  induction n with
  | zero => omega
  | succ n ih =>
    simp only [cnt]
    by_cases hkn : k = n
    · subst hkn
      rw [cnt_congr (fun i hi => h i (by omega))]
      cases p k <;> cases p' k <;> simp
    · have := ih (by omega)
      rw [h n (by omega)]
      push_cast
      rw [this]
      omega

theorem cnt_pos {p : Nat → Bool} {n k : Nat} (hk : k < n) (hp : p k = true) : 0 < cnt p n := by
  induction n with
  | zero => omega
  | succ n ih =>
    simp only [cnt]
    by_cases hkn : k = n
    · subst hkn; simp [hp]
    · have := ih (by omega); omega

theorem cnt_eq_zero {p : Nat → Bool} {n : Nat} : cnt p n = 0 ↔ ∀ i, i < n → p i = false := by
  constructor
  · intro h i hi
    by_contra hne
    have : p i = true := by simpa using hne
    have := cnt_pos hi this
    omega
  · intro h
    induction n with
    | zero => rfl
    | succ n ih =>
      simp only [cnt]
      rw [ih (fun i hi => h i (by omega)), h n (by omega)]
      rfl

theorem cnt_exists {p : Nat → Bool} {n : Nat} (h : 0 < cnt p n) : ∃ i, i < n ∧ p i = true := by
  by_contra hne
  have : cnt p n = 0 := cnt_eq_zero.2 (fun i hi => by
    by_contra hc
    exact hne ⟨i, hi, by simpa using hc⟩)
  omega

theorem cnt_two {p : Nat → Bool} {n i j : Nat} (hi : i < n) (hj : j < n) (hij : i ≠ j)
    (pi : p i = true) (pj : p j = true) : 2 ≤ cnt p n := by
  have h1 := cnt_change (p := p) (p' := upd p i false) (k := i) hi (fun x hx => by simp [hx])
  have h2 : 0 < cnt (upd p i false) n := cnt_pos hj (by simp [upd, hij.symm, pj])
  simp [pi] at h1
  omega

theorem cnt_le {p : Nat → Bool} {n : Nat} : cnt p n ≤ n := by
  induction n with
  | zero => simp [cnt]
  | succ n ih => simp only [cnt]; split <;> omega

theorem cnt_mono {p p' : Nat → Bool} {n : Nat} (h : ∀ i, i < n → p i = true → p' i = true) :
    cnt p n ≤ cnt p' n := by
  induction n with
  | zero => simp [cnt]
  | succ n ih =>
    simp only [cnt]
    have := ih (fun i hi => h i (by omega))
    have h2 := h n (by omega)
    cases hp : p n <;> cases hp' : p' n <;> simp_all <;> omega

end MM
