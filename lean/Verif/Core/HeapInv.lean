import Verif.Core.Heap

/-! The pairing queue keeps its contents and pops in priority order. -/

namespace MM

namespace Item

/-- `a` may be popped before `b` -/
def le (a b : Item) : Prop := less a b = false

theorem less_def {a b : Item} : less a b = true ↔
    D.lt b.dist a.dist = true ∨ (a.dist = b.dist ∧ b.dirt < a.dirt) := by
  simp [less]

theorem le_refl (a : Item) : le a a := by
  have := D.lt_irrefl a.dist
  simp [le, less, this]

theorem less_le {a b : Item} (h : less a b = true) : le b a := by
  rcases less_def.1 h with h | ⟨h1, h2⟩
  · have h' := D.lt_asymm h
    have : b.dist ≠ a.dist := by intro hc; rw [hc, D.lt_irrefl] at h; simp at h
    simp [le, less, h', this]
  · have h' := D.lt_irrefl a.dist
    simp [le, less, ← h1, h']; omega

theorem le_trans {a b c : Item} (h1 : le a b) (h2 : le b c) : le a c := by
  by_contra h
  have h : less a c = true := by simpa [le] using h
  simp only [le, less, Bool.or_eq_false_iff, Bool.and_eq_false_iff, decide_eq_false_iff_not] at h1 h2
  rcases less_def.1 h with h | ⟨h3, h4⟩
  · by_cases hab : D.lt a.dist b.dist = true
    · have := D.lt_trans h hab
      rw [h2.1] at this; simp at this
    · have e := D.lt_total (by simpa using hab) h1.1
      rw [e, h2.1] at h; simp at h
  · rw [h3] at h1
    have e := D.lt_total h1.1 h2.1
    rw [h3] at *
    rcases h1.2 with h | h
    · exact h e.symm
    · rcases h2.2 with h' | h'
      · exact h' e
      · omega

end Item

namespace PNode

/-- Heap order: a node precedes everything among its descendants. -/
def Heap : PNode → Prop
  | nil => True
  | node x d n => (∀ y ∈ d.elems, Item.le x y) ∧ d.Heap ∧ n.Heap

/-- contents of a root -/
def relems (r : Root) : List Item := r.1 :: r.2.elems

def RHeap (r : Root) : Prop := (∀ y ∈ r.2.elems, Item.le r.1 y) ∧ r.2.Heap

theorem link_perm (a b : Root) : (relems (link a b)).Perm (relems a ++ relems b) := by
  rw [List.perm_iff_count]
  intro x
  unfold link
  split <;> simp only [relems, elems, List.count_cons, List.count_append] <;> omega

theorem link_heap {a b : Root} (ha : RHeap a) (hb : RHeap b) : RHeap (link a b) := by
  unfold link
  split
  · next h =>
    have hle := Item.less_le h
    refine ⟨?_, hb.1, hb.2, ha.2⟩
    intro y hy
    simp only [elems, List.mem_cons, List.mem_append] at hy
    rcases hy with rfl | hy | hy
    · exact hle
    · exact Item.le_trans hle (hb.1 y hy)
    · exact ha.1 y hy
  · next h =>
    have hle : Item.le b.1 a.1 := by simpa [Item.le] using h
    refine ⟨?_, ha.1, ha.2, hb.2⟩
    intro y hy
    simp only [elems, List.mem_cons, List.mem_append] at hy
    rcases hy with rfl | hy | hy
    · exact hle
    · exact Item.le_trans hle (ha.1 y hy)
    · exact hb.1 y hy

theorem mergeLoop_perm (r : Root) (n : PNode) :
    (relems (mergeLoop r n)).Perm (relems r ++ n.elems) := by
  fun_induction mergeLoop r n with
  | case1 r => simp [elems]
  | case2 r a ad =>
    refine (link_perm _ _).trans ?_
    rw [List.perm_iff_count]; intro x
    simp only [relems, elems, List.count_cons, List.count_append, List.count_nil]; omega
  | case3 r a ad b bd c ih =>
    refine ih.trans ?_
    have h1 := List.perm_iff_count.1 (link_perm (link (a, ad) (b, bd)) r)
    have h2 := List.perm_iff_count.1 (link_perm (a, ad) (b, bd))
    rw [List.perm_iff_count]; intro x
    have h1 := h1 x
    have h2 := h2 x
    rw [List.count_append] at *
    simp only [relems, elems, List.count_cons, List.count_append] at *; omega

theorem mergeLoop_heap {r : Root} {n : PNode} (hr : RHeap r) (hn : n.Heap) :
    RHeap (mergeLoop r n) := by
  fun_induction mergeLoop r n with
  | case1 r => exact hr
  | case2 r a ad => exact link_heap ⟨hn.1, hn.2.1⟩ hr
  | case3 r a ad b bd c ih =>
    exact ih (link_heap (link_heap ⟨hn.1, hn.2.1⟩ ⟨hn.2.2.1, hn.2.2.2.1⟩) hr) hn.2.2.2.2

theorem mergePairs_perm (n : PNode) : (mergePairs n).elems.Perm n.elems := by
  unfold mergePairs
  split
  · simp
  · simp [ofRoot, elems]
  · next a ad r rd c =>
    have h1 := List.perm_iff_count.1 (mergeLoop_perm (link (a, ad) (r, rd)) c)
    have h2 := List.perm_iff_count.1 (link_perm (a, ad) (r, rd))
    rw [List.perm_iff_count]; intro x
    have h1 := h1 x
    have h2 := h2 x
    rw [List.count_append] at *
    simp only [ofRoot, relems, elems, List.count_cons, List.count_append, List.count_nil] at *; omega

theorem mergePairs_heap {n : PNode} (hn : n.Heap) : (mergePairs n).Heap := by
  unfold mergePairs
  split
  · trivial
  · exact ⟨hn.1, hn.2.1, trivial⟩
  · next a ad r rd c =>
    have := mergeLoop_heap (link_heap (a := (a, ad)) (b := (r, rd)) ⟨hn.1, hn.2.1⟩
      ⟨hn.2.2.1, hn.2.2.2.1⟩) hn.2.2.2.2
    exact ⟨this.1, this.2, trivial⟩

/-- the `next` pointer of a root is null -/
def NextNil : PNode → Prop
  | nil => True
  | node _ _ n => n = nil

theorem mergePairs_next (n : PNode) : NextNil (mergePairs n) := by
  unfold mergePairs
  split <;> simp [NextNil, ofRoot]

end PNode

namespace PQ

/-- What holds of a queue between operations. -/
structure Inv (q : PQ) : Prop where
  heap : q.root.Heap
  next : q.root.NextNil
  cnt : q.items.length ≤ q.count
  cap : q.count ≤ q.cap

theorem new_inv (n : Nat) : (new n).Inv :=
  ⟨trivial, trivial, by simp [new, items, PNode.elems], by simp [new]⟩

theorem reset_inv (q : PQ) : (reset q).Inv :=
  ⟨trivial, trivial, by simp [reset, items, PNode.elems], by simp [reset]⟩

theorem isEmpty_iff {q : PQ} : q.isEmpty = true ↔ q.items = [] := by
  unfold isEmpty items
  cases h : q.root <;> simp [PNode.elems]

theorem emplace_spec {q : PQ} (hq : q.Inv) {x : Item} (hc : q.count < q.cap) :
    ∃ q', q.emplace x = .ok q' ∧ q'.Inv ∧ q'.items.Perm (x :: q.items) ∧
      q'.count = q.count + 1 ∧ q'.cap = q.cap := by
  obtain ⟨cap, count, root⟩ := q
  have hcnt := hq.cnt
  have hh := hq.heap
  have hn := hq.next
  dsimp only at hc
  cases root with
  | nil =>
    refine ⟨⟨cap, count + 1, .node x .nil .nil⟩, by rw [emplace, if_pos hc], ⟨?_, ?_, ?_, ?_⟩, ?_, rfl, rfl⟩
    · simp [PNode.Heap, PNode.elems]
    · simp [PNode.NextNil]
    · simp [items, PNode.elems]
    · exact hc
    · simp [items, PNode.elems]
  | node r d n =>
    simp only [PNode.NextNil] at hn
    subst hn
    have hp := PNode.link_perm (x, .nil) (r, d)
    have hl := PNode.link_heap (a := (x, .nil)) (b := (r, d))
      ⟨by simp [PNode.elems], trivial⟩ ⟨hh.1, hh.2.1⟩
    have hp' : (PNode.ofRoot (PNode.link (x, .nil) (r, d))).elems.Perm
        (x :: (PNode.node r d .nil).elems) := by
      simpa [PNode.relems, PNode.elems, PNode.ofRoot] using hp
    refine ⟨⟨cap, count + 1, PNode.ofRoot (PNode.link (x, .nil) (r, d))⟩,
      by rw [emplace, if_pos hc], ⟨?_, ?_, ?_, ?_⟩, hp', rfl, rfl⟩
    · exact ⟨hl.1, hl.2, trivial⟩
    · simp [PNode.NextNil, PNode.ofRoot]
    · have := hp'.length_eq
      simp only [items] at *
      simp only [List.length_cons] at this
      omega
    · exact hc

/-- A non-empty queue yields an item of highest priority, and loses exactly it. -/
theorem pop_spec {q : PQ} (hq : q.Inv) (hne : q.isEmpty = false) :
    ∃ x q', q.top = .ok x ∧ q.pop = .ok q' ∧ q'.Inv ∧ q.items.Perm (x :: q'.items) ∧
      (∀ y ∈ q.items, Item.le x y) ∧ q'.count = q.count ∧ q'.cap = q.cap := by
  obtain ⟨cap, count, root⟩ := q
  have hcnt := hq.cnt
  have hh := hq.heap
  have hn := hq.next
  cases root with
  | nil => simp [isEmpty] at hne
  | node x d n =>
    simp only [PNode.NextNil] at hn
    subst hn
    have hp := PNode.mergePairs_perm d
    refine ⟨x, _, rfl, rfl, ⟨PNode.mergePairs_heap hh.2.1, PNode.mergePairs_next d, ?_, hq.cap⟩,
      ?_, ?_, rfl, rfl⟩
    · have := hp.length_eq
      simp only [items, PNode.elems, List.length_cons, List.append_nil] at *
      omega
    · simp only [items, PNode.elems, List.append_nil]
      exact hp.symm.cons x
    · intro y hy
      simp only [items, PNode.elems, List.mem_cons, List.append_nil] at hy
      rcases hy with rfl | hy
      · exact Item.le_refl y
      · exact hh.1 y hy

end PQ
end MM
