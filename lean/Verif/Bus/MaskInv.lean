import Verif.Bus.Kind
import Verif.Bus.BitsInv

/-! The masks as sets of fragments and couplers. -/

namespace MM
namespace Bus

open Lattice

/-- Bit `k` of entry `i`. -/
def Bit (a : List Byte) (i k : Nat) : Prop := ∃ b, a[i]? = some b ∧ b.getLsbD k = true

theorem Bit.lt {a : List Byte} {i k : Nat} (h : Bit a i k) : k < 8 := by
  obtain ⟨b, _, hk⟩ := h
  by_contra hn
  rw [BitVec.getLsbD_of_ge _ _ (by omega)] at hk
  cases hk

theorem bit_iff {a : List Byte} {i k : Nat} {b : Byte} (h : a[i]? = some b) : Bit a i k ↔ b.getLsbD k = true := by
  constructor
  · rintro ⟨b', hb', hk⟩; rw [h] at hb'; cases hb'; exact hk
  · intro hk; exact ⟨b, h, hk⟩

theorem at_ok {α : Type} {l : List α} {i : Nat} {x : α} (h : l[i]? = some x) : at_ l i = .ok x := by
  unfold at_; rw [h]

theorem put_ok {α : Type} {l : List α} {i : Nat} {x : α} (h : i < l.length) : put l i x = .ok (l.set i x) := by
  unfold put; rw [if_pos h]

theorem bit_set {a : List Byte} {i j k : Nat} {b : Byte} (h : i < a.length) :
    Bit (a.set i b) j k ↔ if j = i then b.getLsbD k = true else Bit a j k := by
  unfold Bit
  by_cases hj : j = i
  · subst hj
    rw [if_pos rfl, List.getElem?_set_self h]
    simp
  · rw [if_neg hj, List.getElem?_set_ne (fun e => hj e.symm)]

theorem orAt_ok {a : List Byte} {i k0 : Nat} (h : i < a.length) (hk : k0 < 8) :
    ∃ a', orAt a i (BitVec.twoPow 8 k0) = .ok a' ∧ a'.length = a.length ∧ ∀ j k, Bit a' j k ↔ Bit a j k ∨ (j = i ∧ k = k0) := by
  have hi : a[i]? = some a[i] := List.getElem?_eq_getElem h
  refine ⟨a.set i (a[i] ||| BitVec.twoPow 8 k0), ?_, List.length_set, fun j k => ?_⟩
  · simp only [orAt, at_ok hi, bind, Except.bind, put_ok h]
  · rw [bit_set h]
    by_cases hj : j = i
    · subst hj
      rw [if_pos rfl, bit_iff hi, BitVec.getLsbD_or, BitVec.getLsbD_twoPow]
      simp only [Bool.or_eq_true, Bool.and_eq_true, decide_eq_true_eq, hk, true_and]
      constructor <;> rintro (h | h) <;> simp_all
    · rw [if_neg hj]; simp [hj]

theorem andAt_ok {a : List Byte} {i : Nat} {m : Byte} (h : i < a.length) :
    ∃ a', andAt a i m = .ok a' ∧ a'.length = a.length ∧ ∀ j k, Bit a' j k ↔ Bit a j k ∧ (j = i → m.getLsbD k = true) := by
  have hi : a[i]? = some a[i] := List.getElem?_eq_getElem h
  refine ⟨a.set i (a[i] &&& m), ?_, List.length_set, fun j k => ?_⟩
  · simp only [andAt, at_ok hi, bind, Except.bind, put_ok h]
  · rw [bit_set h]
    by_cases hj : j = i
    · subst hj
      rw [if_pos rfl, bit_iff hi, BitVec.getLsbD_and]
      simp
    · rw [if_neg hj]; simp [hj]

theorem not_twoPow {k0 k : Nat} (hk : k < 8) : (~~~(BitVec.twoPow 8 k0)).getLsbD k = true ↔ k ≠ k0 := by
  rw [BitVec.getLsbD_not, BitVec.getLsbD_twoPow]
  simp only [hk, decide_true, Bool.true_and, Bool.not_eq_true', Bool.and_eq_false_imp, decide_eq_true_eq, decide_eq_false_iff_not]
  constructor
  · intro h e; exact h (by omega) e.symm
  · intro h _ e; exact h e.symm

theorem andAt_not_ok {a : List Byte} {i k0 : Nat} (h : i < a.length) :
    ∃ a', andAt a i (~~~(BitVec.twoPow 8 k0)) = .ok a' ∧ a'.length = a.length ∧ ∀ j k, Bit a' j k ↔ Bit a j k ∧ ¬(j = i ∧ k = k0) := by
  obtain ⟨a', h1, h2, h3⟩ := andAt_ok (m := ~~~(BitVec.twoPow 8 k0)) h
  refine ⟨a', h1, h2, fun j k => ?_⟩
  rw [h3]
  constructor
  · rintro ⟨hb, hm⟩; exact ⟨hb, fun ⟨hj, hk⟩ => (not_twoPow hb.lt).mp (hm hj) hk⟩
  · rintro ⟨hb, hm⟩; exact ⟨hb, fun hj => (not_twoPow hb.lt).mpr fun hk => hm ⟨hj, hk⟩⟩

theorem put_ones {a : List Byte} {i : Nat} (h : i < a.length) :
    ∃ a', put a i (BitVec.allOnes 8) = .ok a' ∧ a'.length = a.length ∧ ∀ j k, Bit a' j k ↔ if j = i then k < 8 else Bit a j k := by
  refine ⟨_, put_ok h, List.length_set, fun j k => ?_⟩
  rw [bit_set h, BitVec.getLsbD_allOnes]
  simp

/-- Positions of the grid. -/
def InR (T : Topo) (u : Bool) (w z : Nat) : Prop := w < T.dimW u ∧ z < T.dimZ u

theorem cell_lt {T : Topo} {u : Bool} {w z : Nat} (h : InR T u w z) : T.cell u w z < T.numCells := by
  obtain ⟨h1, h2⟩ := h
  have e : T.numCells = 2 * (T.dimX * T.dimY) := by unfold Topo.numCells; ring
  rw [e]
  cases u
  · simp only [Topo.cell, cellUWZ, Bool.false_eq_true, if_false]; exact cellYX_lt h2 h1
  · simp only [Topo.cell, cellUWZ, if_true]; exact cellYX_lt h1 h2

theorem cell_inj {T : Topo} {u u' : Bool} {w z w' z' : Nat} (h : InR T u w z) (h' : InR T u' w' z')
    (e : T.cell u w z = T.cell u' w' z') : u = u' ∧ w = w' ∧ z = z' := by
  obtain ⟨h1, h2⟩ := h
  obtain ⟨h3, h4⟩ := h'
  cases u <;> cases u' <;> simp only [Topo.cell, cellUWZ, Bool.false_eq_true, if_false, if_true, Topo.dimW, Topo.dimZ] at *
  · obtain ⟨a, b, c⟩ := cellYX_inj h1 h3 e; exact ⟨trivial, b, a⟩
  · obtain ⟨a, b, c⟩ := cellYX_inj h1 h4 e; cases c
  · obtain ⟨a, b, c⟩ := cellYX_inj h2 h3 e; cases c
  · obtain ⟨a, b, c⟩ := cellYX_inj h2 h4 e; exact ⟨trivial, a, b⟩

theorem frag_lt {T : Topo} {u : Bool} {w z k : Nat} (h : InR T u w z) (hk : k < T.shore) : T.frag u w z k < T.numCells * T.shore := by
  obtain ⟨h1, h2⟩ := h
  have e : T.numCells * T.shore = T.shore * (2 * (T.dimX * T.dimY)) := by unfold Topo.numCells; ring
  rw [e]
  cases u
  · simp only [Topo.frag, Bool.false_eq_true, if_false]; exact chimeraLinear_lt h2 h1 hk
  · simp only [Topo.frag, if_true]; exact chimeraLinear_lt h1 h2 hk

theorem frag_inj {T : Topo} {u u' : Bool} {w z w' z' k k' : Nat} (h : InR T u w z) (hk : k < T.shore) (h' : InR T u' w' z') (hk' : k' < T.shore)
    (e : T.frag u w z k = T.frag u' w' z' k') : u = u' ∧ w = w' ∧ z = z' ∧ k = k' := by
  obtain ⟨h1, h2⟩ := h
  obtain ⟨h3, h4⟩ := h'
  cases u <;> cases u' <;> simp only [Topo.frag, Bool.false_eq_true, if_false, if_true, Topo.dimW, Topo.dimZ] at *
  · obtain ⟨a, b, c, d⟩ := chimeraLinear_inj h1 hk h3 hk' e; exact ⟨trivial, b, a, d⟩
  · obtain ⟨a, b, c, d⟩ := chimeraLinear_inj h1 hk h4 hk' e; cases c
  · obtain ⟨a, b, c, d⟩ := chimeraLinear_inj h2 hk h3 hk' e; cases c
  · obtain ⟨a, b, c, d⟩ := chimeraLinear_inj h2 hk h4 hk' e; exact ⟨trivial, a, b, d⟩

/-- The masks hold the fragments `N`, the joints `E` (between positions `z - 1` and `z` of a line) and the missing cell couplers `D`. -/
structure Rep (T : Topo) (M : Masks) (N E : Bool → Nat → Nat → Nat → Prop) (D : Bool → Nat → Nat → Nat → Nat → Prop) : Prop where
  nodeLen : M.node.length = T.numCells
  edgeLen : M.edge.length = T.numCells
  badLen : M.bad.length = T.numCells * T.shore
  node : ∀ u w k z, InR T u w z → (Bit M.node (T.cell u w z) k ↔ N u w k z)
  edge : ∀ u w k z, InR T u w z → (Bit M.edge (T.cell u w z) k ↔ E u w k z)
  bad : ∀ u w k z j, InR T u w z → k < T.shore → (Bit M.bad (T.frag u w z k) j ↔ D u w k z j)

theorem Rep.congr {T : Topo} {M : Masks} {N E N' E' : Bool → Nat → Nat → Nat → Prop} {D D' : Bool → Nat → Nat → Nat → Nat → Prop}
    (h : Rep T M N E D) (hN : ∀ u w k z, InR T u w z → (N u w k z ↔ N' u w k z)) (hE : ∀ u w k z, InR T u w z → (E u w k z ↔ E' u w k z))
    (hD : ∀ u w k z j, InR T u w z → k < T.shore → (D u w k z j ↔ D' u w k z j)) : Rep T M N' E' D' :=
  ⟨h.nodeLen, h.edgeLen, h.badLen, fun u w k z hr => (h.node u w k z hr).trans (hN u w k z hr), fun u w k z hr => (h.edge u w k z hr).trans (hE u w k z hr),
    fun u w k z j hr hk => (h.bad u w k z j hr hk).trans (hD u w k z j hr hk)⟩

theorem bit_replicate {n i k : Nat} : ¬Bit (List.replicate n 0) i k := by
  rintro ⟨b, hb, hk⟩
  rw [List.getElem?_replicate] at hb
  split at hb
  · cases hb; simp at hk
  · cases hb

theorem rep_blank (T : Topo) : Rep T (Masks.blank T) (fun _ _ _ _ => False) (fun _ _ _ _ => False) (fun _ _ _ _ _ => False) :=
  ⟨List.length_replicate, List.length_replicate, List.length_replicate, fun _ _ _ _ _ => iff_of_false bit_replicate id, fun _ _ _ _ _ => iff_of_false bit_replicate id,
    fun _ _ _ _ _ _ _ => iff_of_false bit_replicate id⟩

section
variable {T : Topo} {M : Masks} {N E : Bool → Nat → Nat → Nat → Prop} {D : Bool → Nat → Nat → Nat → Nat → Prop}

theorem addFragment_ok (h : Rep T M N E D) {inner : Bool} {u : Bool} {w k z : Nat} (hr : InR T u w z) (hk : k < T.shore) (hs : T.shore ≤ 8) :
    ∃ M', addFragment T inner M u w k z = .ok M' ∧ Rep T M' (fun u' w' k' z' => N u' w' k' z' ∨ (u' = u ∧ w' = w ∧ k' = k ∧ z' = z))
      (fun u' w' k' z' => E u' w' k' z' ∨ (inner = true ∧ u' = u ∧ w' = w ∧ k' = k ∧ z' = z))
      (fun u' w' k' z' j => if u' = u ∧ w' = w ∧ k' = k ∧ z' = z then j < 8 else D u' w' k' z' j) := by
  obtain ⟨node, hn1, hn2, hn3⟩ := orAt_ok (a := M.node) (i := T.cell u w z) (k0 := k) (by rw [h.nodeLen]; exact cell_lt hr) (by omega)
  obtain ⟨bad, hb1, hb2, hb3⟩ := put_ones (a := M.bad) (i := T.frag u w z k) (by rw [h.badLen]; exact frag_lt hr hk)
  have hcell : ∀ u' w' z', InR T u' w' z' → (T.cell u' w' z' = T.cell u w z ↔ u' = u ∧ w' = w ∧ z' = z) := by
    intro u' w' z' hr'
    exact ⟨cell_inj hr' hr, fun ⟨a, b, c⟩ => by rw [a, b, c]⟩
  have hfrag : ∀ u' w' k' z', InR T u' w' z' → k' < T.shore → (T.frag u' w' z' k' = T.frag u w z k ↔ u' = u ∧ w' = w ∧ k' = k ∧ z' = z) := by
    intro u' w' k' z' hr' hk'
    constructor
    · intro e; obtain ⟨a, b, c, d⟩ := frag_inj hr' hk' hr hk e; exact ⟨a, b, d, c⟩
    · rintro ⟨a, b, c, d⟩; rw [a, b, c, d]
  have hnode : ∀ u' w' k' z', InR T u' w' z' → (Bit node (T.cell u' w' z') k' ↔ N u' w' k' z' ∨ (u' = u ∧ w' = w ∧ k' = k ∧ z' = z)) := by
    intro u' w' k' z' hr'
    rw [hn3, h.node _ _ _ _ hr', hcell _ _ _ hr']
    constructor <;> rintro (h | h) <;> simp_all
  have hbad : ∀ u' w' k' z' j, InR T u' w' z' → k' < T.shore → (Bit bad (T.frag u' w' z' k') j ↔ if u' = u ∧ w' = w ∧ k' = k ∧ z' = z then j < 8 else D u' w' k' z' j) := by
    intro u' w' k' z' j hr' hk'
    rw [hb3, h.bad _ _ _ _ _ hr' hk']
    simp only [hfrag _ _ _ _ hr' hk']
  cases inner with
  | false =>
    refine ⟨⟨node, M.edge, bad⟩, ?_, hn2.trans h.nodeLen, h.edgeLen, hb2.trans h.badLen, hnode, ?_, hbad⟩
    · simp only [addFragment, maskBit_ok k (by omega), bind, Except.bind, hn1, hb1, Bool.false_eq_true, if_false, pure, Except.pure]
    · intro u' w' k' z' hr'
      rw [h.edge _ _ _ _ hr']; simp
  | true =>
    obtain ⟨edge, he1, he2, he3⟩ := orAt_ok (a := M.edge) (i := T.cell u w z) (k0 := k) (by rw [h.edgeLen]; exact cell_lt hr) (by omega)
    refine ⟨⟨node, edge, bad⟩, ?_, hn2.trans h.nodeLen, he2.trans h.edgeLen, hb2.trans h.badLen, hnode, ?_, hbad⟩
    · simp only [addFragment, maskBit_ok k (by omega), bind, Except.bind, hn1, hb1, he1, if_true, pure, Except.pure]
    · intro u' w' k' z' hr'
      rw [he3, h.edge _ _ _ _ hr', hcell _ _ _ hr']
      constructor <;> rintro (h | h) <;> simp_all

theorem addInner_ok {n : Nat} {u : Bool} {w k z : Nat} (hs : T.shore ≤ 8) (h : Rep T M N E D) (hw : w < T.dimW u) (hk : k < T.shore) (hz : z + n ≤ T.dimZ u) :
    ∃ M', addInner T u w k n z M = .ok M' ∧ Rep T M' (fun u' w' k' z' => N u' w' k' z' ∨ (u' = u ∧ w' = w ∧ k' = k ∧ z ≤ z' ∧ z' < z + n))
      (fun u' w' k' z' => E u' w' k' z' ∨ (u' = u ∧ w' = w ∧ k' = k ∧ z ≤ z' ∧ z' < z + n))
      (fun u' w' k' z' j => if u' = u ∧ w' = w ∧ k' = k ∧ z ≤ z' ∧ z' < z + n then j < 8 else D u' w' k' z' j) := by
  induction n generalizing z M N E D with
  | zero =>
    refine ⟨M, rfl, h.congr (fun u' w' k' z' _ => ?_) (fun u' w' k' z' _ => ?_) fun u' w' k' z' j _ _ => ?_⟩
    · constructor
      · exact Or.inl
      · rintro (h | h); exacts [h, by omega]
    · constructor
      · exact Or.inl
      · rintro (h | h); exacts [h, by omega]
    · rw [if_neg (by omega)]
  | succ n ih =>
    obtain ⟨M1, h1, r1⟩ := addFragment_ok h (inner := true) (u := u) (w := w) (z := z) ⟨hw, by omega⟩ hk hs
    obtain ⟨M2, h2, r2⟩ := ih r1 (z := z + 1) (by omega)
    refine ⟨M2, ?_, r2.congr (fun u' w' k' z' _ => ?_) (fun u' w' k' z' _ => ?_) fun u' w' k' z' j _ _ => ?_⟩
    · simp only [addInner, h1, bind, Except.bind, h2]
    · rw [or_assoc]
      apply or_congr Iff.rfl
      constructor
      · rintro (h | h) <;> (refine ⟨?_, ?_, ?_, ?_, ?_⟩ <;> first | tauto | omega)
      · rintro ⟨a, b, c, d, e⟩
        by_cases hz' : z' = z
        · exact .inl ⟨a, b, c, hz'⟩
        · exact .inr ⟨a, b, c, by omega, by omega⟩
    · rw [or_assoc]
      apply or_congr Iff.rfl
      constructor
      · rintro (h | h) <;> (refine ⟨?_, ?_, ?_, ?_, ?_⟩ <;> first | tauto | omega)
      · rintro ⟨a, b, c, d, e⟩
        by_cases hz' : z' = z
        · exact .inl ⟨rfl, a, b, c, hz'⟩
        · exact .inr ⟨a, b, c, by omega, by omega⟩
    · by_cases hc : u' = u ∧ w' = w ∧ k' = k
      · by_cases hz' : z' = z
        · rw [if_neg (by omega), if_pos ⟨hc.1, hc.2.1, hc.2.2, hz'⟩, if_pos ⟨hc.1, hc.2.1, hc.2.2, by omega, by omega⟩]
        · by_cases hin : z + 1 ≤ z' ∧ z' < z + 1 + n
          · rw [if_pos ⟨hc.1, hc.2.1, hc.2.2, hin⟩, if_pos ⟨hc.1, hc.2.1, hc.2.2, by omega, by omega⟩]
          · rw [if_neg (by tauto), if_neg (by tauto), if_neg (by omega)]
      · rw [if_neg (by tauto), if_neg (by tauto), if_neg (by tauto)]

/-- The sets after all fragments of one qubit. -/
theorem addLine_ok {q n : Nat} (hs : Supported T) (hq : IsQubit T q) (hn : n + 1 = T.span) (h : Rep T M N E D) :
    ∃ M', addLine T n (T.first q) M = .ok M' ∧ Rep T M' (fun u w k z => N u w k z ∨ FragOf T q u w k z)
      (fun u w k z => E u w k z ∨ (FragOf T q u w k z ∧ z ≠ (T.first q).2.2.2))
      (fun u w k z j => (FragOf T q u w k z ∧ j < 8) ∨ (¬FragOf T q u w k z ∧ D u w k z j)) := by
  obtain ⟨hw, hk, hz⟩ := frag_bounds hs hq FragOf.first
  obtain ⟨hw', hk', hz'⟩ := frag_bounds hs hq (u := (T.first q).1) (w := (T.first q).2.1) (k := (T.first q).2.2.1) (z := (T.first q).2.2.2 + n) ⟨rfl, rfl, rfl, by omega, by omega⟩
  obtain ⟨M1, h1, r1⟩ := addFragment_ok h (inner := false) ⟨hw, hz⟩ hk (shore_le hs)
  obtain ⟨M2, h2, r2⟩ := addInner_ok (n := n) (z := (T.first q).2.2.2 + 1) (shore_le hs) r1 hw hk (by omega)
  have hf : ∀ u w k z, FragOf T q u w k z ↔ (u = (T.first q).1 ∧ w = (T.first q).2.1 ∧ k = (T.first q).2.2.1 ∧ (T.first q).2.2.2 ≤ z ∧ z < (T.first q).2.2.2 + (n + 1)) := by
    intro u w k z
    rw [hn]
    exact ⟨fun h => ⟨h.hu.symm, h.hw.symm, h.hk.symm, h.ge, h.lt⟩, fun ⟨a, b, c, d, e⟩ => ⟨a.symm, b.symm, c.symm, d, e⟩⟩
  refine ⟨M2, ?_, r2.congr (fun u w k z _ => ?_) (fun u w k z _ => ?_) fun u w k z j _ _ => ?_⟩
  · simp only [addLine, h1, bind, Except.bind, h2]
  · rw [or_assoc, hf]
    apply or_congr Iff.rfl
    constructor
    · rintro (h | h) <;> (refine ⟨?_, ?_, ?_, ?_, ?_⟩ <;> first | tauto | omega)
    · rintro ⟨a, b, c, d, e⟩
      by_cases hz' : z = (T.first q).2.2.2
      · exact .inl ⟨a, b, c, hz'⟩
      · exact .inr ⟨a, b, c, by omega, by omega⟩
  · rw [or_assoc, hf]
    apply or_congr Iff.rfl
    constructor
    · rintro (h | h)
      · exact absurd h.1 (by simp)
      · exact ⟨⟨h.1, h.2.1, h.2.2.1, by omega, by omega⟩, by omega⟩
    · rintro ⟨⟨a, b, c, d, e⟩, f⟩
      exact .inr ⟨a, b, c, by omega, by omega⟩
  · rw [hf]
    by_cases hc : u = (T.first q).1 ∧ w = (T.first q).2.1 ∧ k = (T.first q).2.2.1
    · by_cases hz' : z = (T.first q).2.2.2
      · rw [if_neg (by omega), if_pos ⟨hc.1, hc.2.1, hc.2.2, hz'⟩]
        have : u = (T.first q).1 ∧ w = (T.first q).2.1 ∧ k = (T.first q).2.2.1 ∧ (T.first q).2.2.2 ≤ z ∧ z < (T.first q).2.2.2 + (n + 1) := ⟨hc.1, hc.2.1, hc.2.2, by omega, by omega⟩
        tauto
      · by_cases hin : (T.first q).2.2.2 + 1 ≤ z ∧ z < (T.first q).2.2.2 + 1 + n
        · rw [if_pos ⟨hc.1, hc.2.1, hc.2.2, hin⟩]
          have : u = (T.first q).1 ∧ w = (T.first q).2.1 ∧ k = (T.first q).2.2.1 ∧ (T.first q).2.2.2 ≤ z ∧ z < (T.first q).2.2.2 + (n + 1) := ⟨hc.1, hc.2.1, hc.2.2, by omega, by omega⟩
          tauto
        · rw [if_neg (by tauto), if_neg (by tauto)]
          have : ¬(u = (T.first q).1 ∧ w = (T.first q).2.1 ∧ k = (T.first q).2.2.1 ∧ (T.first q).2.2.2 ≤ z ∧ z < (T.first q).2.2.2 + (n + 1)) := by omega
          tauto
    · rw [if_neg (by tauto), if_neg (by tauto)]
      tauto

theorem cellYX_eq (dx y x : Nat) (u : Bool) : cellYX dx y x u = cellUWZ dx u (if u then y else x) (if u then x else y) := by
  cases u <;> rfl

theorem chimera_addLine {m n t q : Nat} (h : Rep (.chimera m n t) M N E D) (hs : Supported (.chimera m n t)) (hq : IsQubit (.chimera m n t) q) :
    processNode (.chimera m n t) M q = addLine (.chimera m n t) 0 ((Topo.chimera m n t).first q) M := by
  have hf := FragOf.first (T := .chimera m n t) (q := q)
  have ho : (Topo.chimera m n t).frag _ _ _ _ = q := own_eq hq hf
  obtain ⟨hw, hk, hz⟩ := frag_bounds hs hq hf
  have hs8 := shore_le hs
  obtain ⟨node, hn1, _⟩ := orAt_ok (a := M.node) (i := (Topo.chimera m n t).cell _ _ _) (k0 := ((Topo.chimera m n t).first q).2.2.1) (by rw [h.nodeLen]; exact cell_lt ⟨hw, hz⟩) (by omega)
  obtain ⟨bad, hb1, _⟩ := put_ones (a := M.bad) (i := (Topo.chimera m n t).frag _ _ _ _) (by rw [h.badLen]; exact frag_lt ⟨hw, hz⟩ hk)
  have e1 : addLine (.chimera m n t) 0 ((Topo.chimera m n t).first q) M = .ok { M with node := node, bad := bad } := by
    simp only [addLine, addFragment, maskBit_ok _ (Nat.lt_of_lt_of_le hk hs8), bind, Except.bind, hn1, hb1, addInner, pure, Except.pure, Bool.false_eq_true, if_false]
  rw [e1]
  rw [ho] at hb1
  have hc : cellYX (Topo.chimera m n t).dimX (linearChimera n t q).1 (linearChimera n t q).2.1 (linearChimera n t q).2.2.1 = (Topo.chimera m n t).cell ((Topo.chimera m n t).first q).1 ((Topo.chimera m n t).first q).2.1 ((Topo.chimera m n t).first q).2.2.2 := cellYX_eq _ _ _ _
  simp only [processNode, bind, Except.bind, hb1, hc]
  have hk8 : maskBit (linearChimera n t q).2.2.2 = .ok (BitVec.twoPow 8 ((Topo.chimera m n t).first q).2.2.1) := maskBit_ok _ (Nat.lt_of_lt_of_le hk hs8)
  simp only [hk8, hn1]
  rfl

theorem processNode_ok {q : Nat} (hs : Supported T) (hq : IsQubit T q) (h : Rep T M N E D) :
    ∃ M', processNode T M q = .ok M' ∧ Rep T M' (fun u w k z => N u w k z ∨ FragOf T q u w k z)
      (fun u w k z => E u w k z ∨ (FragOf T q u w k z ∧ z ≠ (T.first q).2.2.2))
      (fun u w k z j => (FragOf T q u w k z ∧ j < 8) ∨ (¬FragOf T q u w k z ∧ D u w k z j)) := by
  cases T with
  | chimera m n t =>
    rw [chimera_addLine h hs hq]
    exact addLine_ok hs hq rfl h
  | pegasus d off => exact addLine_ok (n := 5) hs hq rfl h
  | zephyr d t => exact addLine_ok (n := 1) hs hq rfl h

end

/-- Fragment of one of the given qubits. -/
def Has (T : Topo) (nodes : List Nat) (u : Bool) (w k z : Nat) : Prop := ∃ q ∈ nodes, FragOf T q u w k z

/-- Positions `z - 1` and `z` belong to one of the given qubits. -/
def Inner (T : Topo) (nodes : List Nat) (u : Bool) (w k z : Nat) : Prop := ∃ q ∈ nodes, FragOf T q u w k z ∧ z ≠ (T.first q).2.2.2

theorem processNodes_ok {T : Topo} {nodes : List Nat} (hs : Supported T) (hq : ∀ q ∈ nodes, IsQubit T q) :
    ∃ M, processNodes T (Masks.blank T) nodes = .ok M ∧ Rep T M (Has T nodes) (Inner T nodes) (fun u w k z j => Has T nodes u w k z ∧ j < 8) := by
  suffices ∀ (done todo : List Nat) (M : Masks), (∀ q ∈ todo, IsQubit T q) → Rep T M (Has T done) (Inner T done) (fun u w k z j => Has T done u w k z ∧ j < 8) →
      ∃ M', processNodes T M todo = .ok M' ∧ Rep T M' (Has T (done ++ todo)) (Inner T (done ++ todo)) (fun u w k z j => Has T (done ++ todo) u w k z ∧ j < 8) by
    refine this [] nodes _ hq ((rep_blank T).congr ?_ ?_ ?_) <;> intros <;> simp [Has, Inner]
  intro done todo
  induction todo generalizing done with
  | nil => intro M _ h; exact ⟨M, rfl, by simpa using h⟩
  | cons q todo ih =>
    intro M hq h
    obtain ⟨M1, h1, r1⟩ := processNode_ok hs (hq q (by simp)) h
    obtain ⟨M2, h2, r2⟩ := ih (done ++ [q]) M1 (fun p hp => hq p (by simp [hp])) (r1.congr (by
        intro u w k z _; simp only [Has, List.mem_append, List.mem_singleton]
        constructor
        · rintro (⟨p, hp, h⟩ | h)
          · exact ⟨p, .inl hp, h⟩
          · exact ⟨q, .inr rfl, h⟩
        · rintro ⟨p, hp | hp, h⟩
          · exact .inl ⟨p, hp, h⟩
          · exact .inr (hp ▸ h)) (by
        intro u w k z _; simp only [Inner, List.mem_append, List.mem_singleton]
        constructor
        · rintro (⟨p, hp, h⟩ | h)
          · exact ⟨p, .inl hp, h⟩
          · exact ⟨q, .inr rfl, h⟩
        · rintro ⟨p, hp | hp, h⟩
          · exact .inl ⟨p, hp, h⟩
          · exact .inr (hp ▸ h)) (by
        intro u w k z j _ _; simp only [Has, List.mem_append, List.mem_singleton]
        constructor
        · rintro (⟨h, hj⟩ | ⟨_, ⟨p, hp, h⟩, hj⟩)
          · exact ⟨⟨q, .inr rfl, h⟩, hj⟩
          · exact ⟨⟨p, .inl hp, h⟩, hj⟩
        · rintro ⟨⟨p, hp | hp, h⟩, hj⟩
          · by_cases hf : FragOf T q u w k z
            · exact .inl ⟨hf, hj⟩
            · exact .inr ⟨hf, ⟨p, hp, h⟩, hj⟩
          · exact .inl ⟨hp ▸ h, hj⟩))
    refine ⟨M2, ?_, by simpa using r2⟩
    simp only [processNodes, List.foldlM_cons, h1, bind, Except.bind] at h2 ⊢
    exact h2

end Bus
end MM
