import Verif.Core.Tape

/-! Model of `input_graph` of include/find_embedding/graph.hpp. -/

namespace MM

/-- `input_graph` (graph.hpp:73-78): edge `i` is `(edges_aside[i], edges_bside[i])`. -/
structure IGraph where
  n : Nat
  edges : List (Nat × Nat)

namespace IGraph

/-- `input_graph()` (graph.hpp:97). -/
def empty : IGraph := ⟨0, []⟩

/-- `push_back` (graph.hpp:126-130). -/
def pushBack (g : IGraph) (a b : Nat) : IGraph := ⟨max g.n (max a b + 1), g.edges ++ [(a, b)]⟩

/-- Insertion into a `std::set<int>`, kept as a sorted list. -/
def setInsert (x : Nat) : List Nat → List Nat
  | [] => [x]
  | y :: l => if x < y then x :: y :: l else if x = y then y :: l else y :: setInsert x l

/-- `_nbrs[x].insert(y)`; `_nbrs` has `_num_nodes` entries (graph.hpp:140, 145-146). -/
def addNbr (n : Nat) (nb : Nat → List Nat) (x y : Nat) : M (Nat → List Nat) :=
  if x < n then .ok (upd nb x (setInsert y (nb x))) else .error .ub

/-- One iteration of the loop of `__get_neighbors` (graph.hpp:141-148). No caller passes a
mask, so it is left out. -/
def nbrStep (n : Nat) (src snk : Nat → Bool) (rel : Nat → Nat) (nb : Nat → List Nat)
    (e : Nat × Nat) : M (Nat → List Nat) := do
  let nb ← (if !src e.2 && !snk e.1 then addNbr n nb (rel e.1) (rel e.2) else .ok nb :
    M (Nat → List Nat))
  if !src e.1 && !snk e.2 then addNbr n nb (rel e.2) (rel e.1) else .ok nb

/-- `__get_neighbors` with `_to_vectorhoods` (graph.hpp:85-93, 137-150): the edges are
taken from the last to the first; in the end each node is erased from its own set. -/
def getNeighbors (g : IGraph) (src snk : Nat → Bool) (rel : Nat → Nat) : M (Nat → List Nat) := do
  let nb ← g.edges.reverse.foldlM (nbrStep g.n src snk rel) (fun _ => [])
  .ok (fun x => (nb x).erase x)

/-! ### Specification -/

/-- All end points are nodes. -/
def WF (g : IGraph) : Prop := ∀ e ∈ g.edges, e.1 < g.n ∧ e.2 < g.n

/-- `a` and `b` are the two ends of an edge. -/
def Edge (g : IGraph) (a b : Nat) : Prop := (a, b) ∈ g.edges ∨ (b, a) ∈ g.edges

theorem Edge.symm {g : IGraph} {a b : Nat} (h : g.Edge a b) : g.Edge b a := Or.symm h

theorem Edge.lt {g : IGraph} (h : g.WF) {a b : Nat} (he : g.Edge a b) : a < g.n ∧ b < g.n := by
  rcases he with he | he
  · exact h _ he
  · exact (h _ he).symm

theorem wf_empty : empty.WF := by intro e he; simp [empty] at he

theorem wf_pushBack {g : IGraph} (h : g.WF) (a b : Nat) : (g.pushBack a b).WF := by
  intro e he
  simp only [pushBack, List.mem_append, List.mem_singleton] at he ⊢
  rcases he with he | rfl
  · have := h e he; omega
  · simp only; omega

/-! ### `std::set` -/

theorem mem_setInsert {x z : Nat} {l : List Nat} : z ∈ setInsert x l ↔ z = x ∨ z ∈ l := by
  induction l with
  | nil => simp [setInsert]
  | cons y l ih =>
    unfold setInsert
    split
    · simp
    · split
      · next h => subst h; simp
      · simp only [List.mem_cons, ih]; constructor <;> (rintro (h | h | h) <;> simp [h])

theorem setInsert_sorted {x : Nat} {l : List Nat} (h : l.Pairwise (· < ·)) :
    (setInsert x l).Pairwise (· < ·) := by
  induction l with
  | nil => simp [setInsert]
  | cons y l ih =>
    rw [List.pairwise_cons] at h
    unfold setInsert
    split
    · next hxy =>
      refine List.pairwise_cons.2 ⟨?_, List.pairwise_cons.2 h⟩
      intro z hz
      rcases List.mem_cons.1 hz with rfl | hz
      · exact hxy
      · exact Nat.lt_trans hxy (h.1 z hz)
    · split
      · exact List.pairwise_cons.2 h
      · next h1 h2 =>
        refine List.pairwise_cons.2 ⟨?_, ih h.2⟩
        intro z hz
        rcases mem_setInsert.1 hz with rfl | hz
        · omega
        · exact h.1 z hz

/-! ### neighbour lists -/

/-- The pair `(a, b)` is put into the lists of `l`: an edge in either orientation that does
not end in a source or leave a sink. -/
def Listed (l : List (Nat × Nat)) (src snk : Nat → Bool) (a b : Nat) : Prop :=
  ((a, b) ∈ l ∨ (b, a) ∈ l) ∧ src b = false ∧ snk a = false

theorem addNbr_spec {n : Nat} {nb : Nat → List Nat} {x y : Nat} (hx : x < n) :
    Ok (addNbr n nb x y) (fun nb' => ∀ i, nb' i = if i = x then setInsert y (nb x) else nb i) := by
  unfold addNbr
  rw [if_pos hx]
  refine Ok.pure ?_
  intro i
  by_cases h : i = x
  · subst h; simp
  · simp [h, upd_ne]

structure NB (n : Nat) (src snk : Nat → Bool) (rel : Nat → Nat) (l : List (Nat × Nat))
    (nb : Nat → List Nat) : Prop where
  mem : ∀ x y, y ∈ nb x ↔ ∃ a b, rel a = x ∧ rel b = y ∧ Listed l src snk a b
  sorted : ∀ x, (nb x).Pairwise (· < ·)

theorem nbrStep_spec {n : Nat} {src snk : Nat → Bool} {rel : Nat → Nat} {l : List (Nat × Nat)}
    {nb : Nat → List Nat} {e : Nat × Nat} (h : NB n src snk rel l nb)
    (h1 : rel e.1 < n) (h2 : rel e.2 < n) :
    Ok (nbrStep n src snk rel nb e) (NB n src snk rel (l ++ [e])) := by
  unfold nbrStep
  refine Ok.bind (P := fun nb' => (∀ x, (nb' x).Pairwise (· < ·)) ∧ ∀ x y, y ∈ nb' x ↔
      y ∈ nb x ∨ (x = rel e.1 ∧ y = rel e.2 ∧ src e.2 = false ∧ snk e.1 = false)) ?_ ?_
  · split
    · next hc =>
      simp only [Bool.and_eq_true, Bool.not_eq_true'] at hc
      refine (addNbr_spec h1).mono ?_
      intro nb' hnb
      constructor
      · intro x; rw [hnb x]; split
        · exact setInsert_sorted (h.sorted _)
        · exact h.sorted x
      · intro x y
        rw [hnb x]
        split
        · next hx => subst hx; rw [mem_setInsert]; simp [hc]; tauto
        · next hx => simp [hx]
    · next hc =>
      refine Ok.pure ⟨h.sorted, fun x y => ?_⟩
      have : ¬ (src e.2 = false ∧ snk e.1 = false) := by
        rintro ⟨a, b⟩; apply hc; simp [a, b]
      tauto
  · rintro nb1 ⟨s1, m1⟩
    have key : ∀ nb2 : Nat → List Nat, (∀ x, (nb2 x).Pairwise (· < ·)) →
        (∀ x y, y ∈ nb2 x ↔ y ∈ nb1 x ∨ (x = rel e.2 ∧ y = rel e.1 ∧ src e.1 = false ∧ snk e.2 = false)) →
        NB n src snk rel (l ++ [e]) nb2 := by
      intro nb2 s2 m2
      refine ⟨fun x y => ?_, s2⟩
      rw [m2, m1, h.mem]
      constructor
      · rintro ((⟨a, b, ha, hb, hl⟩ | ⟨rfl, rfl, hs⟩) | ⟨rfl, rfl, hs⟩)
        · refine ⟨a, b, ha, hb, ?_, hl.2⟩
          rcases hl.1 with h | h <;> simp [h]
        · exact ⟨e.1, e.2, rfl, rfl, Or.inl (by simp), hs⟩
        · exact ⟨e.2, e.1, rfl, rfl, Or.inr (by simp), hs⟩
      · rintro ⟨a, b, rfl, rfl, hm, hs⟩
        simp only [List.mem_append, List.mem_singleton] at hm
        rcases hm with (hm | hm) | (hm | hm)
        · exact Or.inl (Or.inl ⟨a, b, rfl, rfl, Or.inl hm, hs⟩)
        · subst hm; exact Or.inl (Or.inr ⟨rfl, rfl, hs⟩)
        · exact Or.inl (Or.inl ⟨a, b, rfl, rfl, Or.inr hm, hs⟩)
        · subst hm; exact Or.inr ⟨rfl, rfl, hs⟩
    split
    · next hc =>
      simp only [Bool.and_eq_true, Bool.not_eq_true'] at hc
      refine (addNbr_spec h2).mono ?_
      intro nb' hnb
      refine key nb' ?_ ?_
      · intro x; rw [hnb x]; split
        · exact setInsert_sorted (s1 _)
        · exact s1 x
      · intro x y
        rw [hnb x]
        split
        · next hx => subst hx; rw [mem_setInsert]; simp [hc]; tauto
        · next hx => simp [hx]
    · next hc =>
      refine Ok.pure (key nb1 s1 fun x y => ?_)
      have : ¬ (src e.1 = false ∧ snk e.2 = false) := by
        rintro ⟨a, b⟩; apply hc; simp [a, b]
      tauto

theorem getNeighbors_spec {g : IGraph} {src snk : Nat → Bool} {rel : Nat → Nat}
    (hr : ∀ e ∈ g.edges, rel e.1 < g.n ∧ rel e.2 < g.n) :
    Ok (g.getNeighbors src snk rel) (fun nb => (∀ x, (nb x).Pairwise (· < ·)) ∧
      ∀ x y, y ∈ nb x ↔ x ≠ y ∧ ∃ a b, rel a = x ∧ rel b = y ∧ Listed g.edges src snk a b) := by
  unfold getNeighbors
  refine Ok.bind (Ok.foldlM (I := fun done nb => NB g.n src snk rel done nb) ?_ ?_) ?_
  · exact ⟨by simp [Listed], by simp⟩
  · intro done e nb he _ h
    have := hr e (by simpa using he)
    exact nbrStep_spec h this.1 this.2
  · intro nb h
    refine Ok.pure ⟨fun x => (h.sorted x).sublist List.erase_sublist, fun x y => ?_⟩
    have hnd : (nb x).Nodup := (h.sorted x).imp (fun h => Nat.ne_of_lt h)
    rw [hnd.mem_erase_iff, h.mem]
    simp only [Listed, List.mem_reverse]
    constructor
    · rintro ⟨a, b⟩; exact ⟨fun h => a h.symm, b⟩
    · rintro ⟨a, b⟩; exact ⟨fun h => a h.symm, b⟩

end IGraph
end MM
