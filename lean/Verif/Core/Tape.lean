import Verif.Core.Basic

/-! Sources of nondeterminism and the total-correctness predicate `Ok`. -/

namespace MM

/-- Every nondeterministic outcome of a run (random numbers, iteration order of an
`unordered_map`) is read from an infinite tape of numbers. A theorem about all tapes is a theorem about all outcomes. -/
abbrev Tape := Nat → Nat

namespace Tape

/-- The next number on the tape. -/
def head (t : Tape) : Nat := t 0

/-- The tape after reading one number. -/
def tail (t : Tape) : Tape := fun n => t (n + 1)

end Tape

/-- `randint(0, n-1)` (embedding_problem.hpp:343): any value below `n`. -/
def pick (n : Nat) (t : Tape) : Nat × Tape := (t.head % n, t.tail)

theorem pick_lt {n : Nat} (hn : 0 < n) (t : Tape) : (pick n t).1 < n := Nat.mod_lt _ hn

/-- `std::shuffle` (embedding_problem.hpp:347), and the iteration order of a hash map:
any permutation, read from the tape as a Lehmer code. -/
def permT {α : Type} : List α → Tape → List α × Tape
  | [], t => ([], t)
  | a :: l, t =>
    let (l', t') := permT l t.tail
    (l'.insertIdx (t.head % (l'.length + 1)) a, t')

theorem permT_perm {α : Type} (l : List α) : ∀ t, List.Perm (permT l t).1 l := by
  induction l with
  | nil => intro t; exact List.Perm.refl _
  | cons a l ih =>
    intro t
    have h := ih t.tail
    unfold permT
    refine (List.perm_insertIdx _ _ ?_).trans (h.cons a)
    exact Nat.lt_succ_iff.1 (Nat.mod_lt _ (Nat.succ_pos _))

theorem permT_mem {α : Type} {l : List α} {t : Tape} {a : α} : a ∈ (permT l t).1 ↔ a ∈ l :=
  (permT_perm l t).mem_iff

/-- `m` ends normally in a value satisfying `Q`. -/
def Ok {α : Type} (m : M α) (Q : α → Prop) : Prop := ∃ a, m = .ok a ∧ Q a

theorem Ok.pure {α : Type} {a : α} {Q : α → Prop} (h : Q a) : Ok (.ok a : M α) Q := ⟨a, rfl, h⟩

theorem Ok.bind {α β : Type} {m : M α} {f : α → M β} {P : α → Prop} {Q : β → Prop}
    (h : Ok m P) (hf : ∀ a, P a → Ok (f a) Q) : Ok (m >>= f) Q := by
  obtain ⟨a, rfl, ha⟩ := h
  exact hf a ha

theorem Ok.mono {α : Type} {m : M α} {P Q : α → Prop} (h : Ok m P) (hpq : ∀ a, P a → Q a) :
    Ok m Q := by
  obtain ⟨a, e, ha⟩ := h
  exact ⟨a, e, hpq a ha⟩

/-- Loop over a list with an invariant on the part already processed. -/
theorem Ok.foldlM {α β : Type} {f : β → α → M β} {l : List α} {b : β}
    (I : List α → β → Prop) (h0 : I [] b)
    (hstep : ∀ done a b, a ∈ l → (∃ rest, l = done ++ a :: rest) → I done b →
      Ok (f b a) (I (done ++ [a]))) :
    Ok (l.foldlM f b) (I l) := by
  suffices h : ∀ (l' : List α) (done : List α) (b : β), l = done ++ l' → I done b →
      Ok (l'.foldlM f b) (I l) by exact h l [] b (by simp) h0
  intro l'
  induction l' with
  | nil => intro done b hl hi; simp at hl; subst hl; exact Ok.pure hi
  | cons a l' ih =>
    intro done b hl hi
    rw [List.foldlM_cons]
    refine Ok.bind (hstep done a b (by rw [hl]; simp) ⟨l', hl⟩ hi) ?_
    intro b' hb'
    exact ih (done ++ [a]) b' (by rw [hl]; simp) hb'

/-- Loop over a list with an invariant that does not mention the progress. -/
theorem Ok.foldlM' {α β : Type} {f : β → α → M β} {l : List α} {b : β}
    (I : β → Prop) (h0 : I b) (hstep : ∀ a b, a ∈ l → I b → Ok (f b a) I) :
    Ok (l.foldlM f b) I :=
  Ok.foldlM (fun _ => I) h0 (fun _ a b ha _ hi => hstep a b ha hi)

end MM
