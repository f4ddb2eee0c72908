import Verif.Py.Errors
import Verif.Props.Demo

/-! Property C54: translation of exceptions. -/

namespace MM

open Py

/-- The Python errors the documentation promises. -/
def Spec.Py.promised : LibErr → PyExc
  | .timeout => .TimeoutError
  | .cancelled => .KeyboardInterrupt
  | .params => .ValueError
  | .badInit => .RuntimeError
  | .corrupt => .AssertionError

open Spec.Py

namespace Py

theorem isA_unique : ∀ (c : CppClass) (k l : LibErr), c.isA k = true → c.isA l = true → k = l := by
  intro c
  induction c with
  | lib j =>
    intro k l hk hl
    simp only [CppClass.isA, decide_eq_true_eq] at hk hl
    exact hk.symm.trans hl
  | base => intro k l hk; cases hk
  | foreign _ => intro k l hk; cases hk
  | derived _ c ih => intro k l hk hl; exact ih k l hk hl

theorem catchBy_eq_some {hs : List (LibErr × PyExc)} {c : CppClass} {k : LibErr} (hk : c.isA k = true) {e : PyExc} (he : (k, e) ∈ hs)
    (hu : ∀ e', (k, e') ∈ hs → e' = e) : catchBy hs c = some e := by
  induction hs with
  | nil => cases he
  | cons h hs ih =>
    obtain ⟨l, f⟩ := h
    unfold catchBy
    by_cases hl : c.isA l = true
    · rw [if_pos hl]
      have := isA_unique c l k hl hk
      subst this
      rw [hu f List.mem_cons_self]
    · rw [if_neg hl]
      refine ih ?_ (fun e' h' => hu e' (List.mem_cons_of_mem _ h'))
      rcases List.mem_cons.mp he with he | he
      · simp only [Prod.mk.injEq] at he
        rw [← he.1] at hl
        exact absurd hk hl
      · exact he

theorem catchBy_eq_none {hs : List (LibErr × PyExc)} {c : CppClass} (h : ∀ k, c.isA k = false) : catchBy hs c = none := by
  induction hs with
  | nil => rfl
  | cons x hs ih =>
    obtain ⟨l, f⟩ := x
    unfold catchBy
    rw [if_neg (by rw [h l]; decide), ih]

end Py

/-- Every exception of one of the five library classes, or of a class derived from one, reaches Python as promised,
whatever the order of the catch clauses. What is missing: exceptions of the base class itself, see below. -/
theorem C54_documented_partial (c : CppClass) (k : LibErr) (h : c.isA k = true) :
    handleExceptions c = some (promised k) ∧ ∀ hs, hs.Perm handlers → catchBy hs c = some (promised k) := by
  have key : ∀ hs, hs.Perm handlers → catchBy hs c = some (promised k) := by
    intro hs hp
    refine catchBy_eq_some h (hp.mem_iff.mpr ?_) ?_
    · cases k <;> decide
    · intro e' he
      have := hp.mem_iff.mp he
      revert this
      cases k <;> cases e' <;> decide
  exact ⟨key handlers (.refl _), key⟩

/-- An exception that belongs to none of the five classes is not translated: it leaves the handler. -/
theorem C54_others_escape (c : CppClass) : handleExceptions c = none ↔ ∀ k, c.isA k = false := by
  constructor
  · intro h k
    by_contra hk
    rw [Bool.not_eq_false] at hk
    rw [(C54_documented_partial c k hk).1] at h
    cases h
  · exact catchBy_eq_none

namespace Demo

/-- Two variables fixed to the two nodes of the target. -/
def allFixed : Args Nat where
  srcE := [(0, 1)]
  srcN := none
  tgtE := [(0, 1)]
  tgtN := none
  fixed := [(0, [0]), (1, [1])]
  initial := []
  restr := []
  suspend := []

/-- Fault of a run, if any. -/
def faultOf {α : Type} (x : Except PyErr (Result α)) : Option Fault :=
  match x with
  | .error (.core f) => some f
  | _ => none

end Demo

/-- The base class is thrown: if the fixed chains use up the target, `find_embedding` throws a `MinorMinerException`,
whatever the parameters, and that exception is not translated. -/
theorem C54_base_class_escapes (C : Scratch.Cfg) (A : Params) (ro : Bool) (t : Tape) (pin : Nat → Nat → Nat) :
    (∃ c, (Demo.faultOf (call pin Demo.sortBySize C A ro Demo.allFixed t)).bind thrown = some c ∧ handleExceptions c = none) := by
  refine ⟨.base, ?_, rfl⟩
  rfl

/-- A timeout and a class derived from the initialisation error. -/
example : handleExceptions (.lib .timeout) = some .TimeoutError ∧ handleExceptions (.derived "Mine" (.lib .badInit)) = some .RuntimeError ∧
    handleExceptions (.foreign "std::bad_alloc") = none := by decide

end MM
