import Verif.Graph.Result

/-! Concrete inputs used by the examples beside the theorems. -/

namespace MM
namespace Demo

/-- Insertion into a list ordered by decreasing size. -/
def ins (a : List Nat) : List (List Nat) → List (List Nat)
  | [] => [a]
  | b :: l => if b.length ≤ a.length then a :: b :: l else b :: ins a l

/-- A sorting function like the one assumed of the standard library. -/
def sortBySize : List (List Nat) → List (List Nat)
  | [] => []
  | a :: l => ins a (sortBySize l)

theorem ins_perm (a : List Nat) (l : List (List Nat)) : (ins a l).Perm (a :: l) := by
  induction l with
  | nil => exact List.Perm.refl _
  | cons b l ih =>
    unfold ins
    split
    · exact List.Perm.refl _
    · exact (ih.cons b).trans (List.Perm.swap a b l)

theorem ins_desc (a : List Nat) (l : List (List Nat)) (h : l.Pairwise (fun a b => b.length ≤ a.length)) :
    (ins a l).Pairwise (fun a b => b.length ≤ a.length) := by
  induction l with
  | nil => simp [ins]
  | cons b l ih =>
    obtain ⟨h1, h2⟩ := List.pairwise_cons.1 h
    unfold ins
    split
    · next hc =>
      refine List.pairwise_cons.2 ⟨?_, h⟩
      intro x hx
      rcases List.mem_cons.1 hx with rfl | hx
      · exact hc
      · exact Nat.le_trans (h1 x hx) hc
    · next hc =>
      refine List.pairwise_cons.2 ⟨?_, ih h2⟩
      intro x hx
      rcases List.mem_cons.1 ((ins_perm a l).mem_iff.1 hx) with rfl | hx
      · omega
      · exact h1 x hx

theorem sortOK : SortOK sortBySize := by
  constructor
  · intro l
    induction l with
    | nil => exact List.Perm.refl _
    | cons a l ih => exact (ins_perm a _).trans (ih.cons a)
  · intro l
    induction l with
    | nil => simp [sortBySize]
    | cons a l ih => exact ins_desc a _ ih

/-- Serial search; a qubit in `f` chains weighs `8 ^ f`. -/
def cfg : Scratch.Cfg := ⟨fun m f => if f ≤ m then some (8 ^ f.toNat) else none, false⟩

/-- Small limits, no interrupt, no timeout. -/
def params : Params :=
  { tries := 2, innerRounds := 2, maxNoImp := 2, clPatience := 1, skipInit := false
    interactive := false, restricted := false, bound := 63, stops := fun _ => (false, false) }

/-- A run in which every draw is 0. -/
def tape0 : Tape := fun _ => 0

/-- A path of three nodes into a cycle of five. -/
def path3 : Input :=
  { src := ⟨3, [(0, 1), (1, 2)]⟩
    tgt := ⟨5, [(0, 1), (1, 2), (2, 3), (3, 4), (4, 0)]⟩
    fixedC := [], initC := [], restrC := [] }

/-- A triangle into a path, which is impossible. -/
def triangle : Input :=
  { src := ⟨3, [(0, 1), (1, 2), (2, 0)]⟩, tgt := ⟨4, [(0, 1), (1, 2), (2, 3)]⟩, fixedC := [], initC := []
    restrC := [] }

/-- A star of three leaves into a 4x2 grid, the centre fixed on two qubits, one leaf given an
initial chain. -/
def star : Input :=
  { src := ⟨4, [(0, 1), (0, 2), (3, 0)]⟩
    tgt := ⟨9, [(0, 1), (1, 2), (2, 3), (4, 5), (5, 6), (6, 7), (0, 4), (1, 5), (2, 6), (3, 7), (8, 8)]⟩
    fixedC := [(0, [1, 2])], initC := [(3, [3])], restrC := [] }

instance : DecidableEq (M (Bool × List (List Nat))) := fun a b => by
  cases a <;> cases b
  · exact decidable_of_iff _ (Except.error.injEq _ _).to_iff.symm
  · exact isFalse (by simp)
  · exact isFalse (by simp)
  · exact decidable_of_iff _ (Except.ok.injEq _ _).to_iff.symm

instance (g : IGraph) : Decidable g.WF := inferInstanceAs (Decidable (∀ e ∈ g.edges, _))

instance (g : IGraph) (a b : Nat) : Decidable (g.Edge a b) := inferInstanceAs (Decidable (_ ∨ _))

/-- The conditions on an input, in a form that can be evaluated. -/
def Checked (I : Input) : Prop :=
  (I.src.WF ∧ I.tgt.WF ∧ 0 < I.src.n ∧ 0 < I.tgt.n ∧ ∀ x < I.tgt.n, ∃ y < I.tgt.n, I.tgt.Edge x y) ∧
  ((I.fixedC.map Prod.fst).Nodup ∧ (I.initC.map Prod.fst).Nodup ∧ (I.restrC.map Prod.fst).Nodup) ∧
  (∀ kv ∈ I.fixedC, (0 ≤ kv.1 ∧ kv.1 < (I.src.n : Int)) ∧ ∀ q ∈ kv.2, 0 ≤ q ∧ q < (I.tgt.n : Int)) ∧
  (∀ kv ∈ I.fixedC, kv.2 ≠ []) ∧
  (∀ kv ∈ I.fixedC, ∀ kv' ∈ I.fixedC, kv.1 ≠ kv'.1 → ∀ q ∈ kv.2, q ∉ kv'.2) ∧
  (∀ kv ∈ I.initC, kv.2 ≠ []) ∧
  (∀ kv ∈ I.initC, ∀ kv' ∈ I.fixedC, kv.1 ≠ kv'.1) ∧
  (∀ kv ∈ I.initC, ∀ kv' ∈ I.fixedC, ∀ q ∈ kv.2, q ∉ kv'.2)

instance (I : Input) : Decidable (Checked I) := by unfold Checked; infer_instance

theorem Checked.ok {I : Input} (h : Checked I) : I.OK := by
  obtain ⟨⟨a1, a2, a3, a4, a5⟩, ⟨b1, b2, b3⟩, c1, c2, c3, c4, c5, c6⟩ := h
  exact ⟨a1, a2, a3, a4, fun x hx => (a5 x hx).imp fun _ h => h.2, b1, b2, b3, c1, c2, c3, c4, c5, c6⟩

theorem path3_ok : path3.OK := Checked.ok (by decide)

theorem star_ok : star.OK := Checked.ok (by decide)

theorem triangle_ok : triangle.OK := Checked.ok (by decide)

theorem triangle_run : findEmbedding sortBySize cfg params true triangle tape0 =
    .ok (false, [[1], [2], [3, 2]]) := by
  decide +kernel

theorem path3_run : findEmbedding sortBySize cfg params false path3 tape0 = .ok (true, [[2], [3], [4]]) := by
  decide +kernel

theorem star_run : findEmbedding sortBySize cfg params false star tape0 = .ok (true, [[1, 2], [5], [6], [3]]) := by
  decide +kernel

end Demo
end MM
