import Verif.Bus.NextInv
import Verif.Bus.Bundle

/-! The table of line segments. -/

namespace MM
namespace Bus

open Lattice

/-- The byte of a segment: track `k` is in it if the last piece and all joints are there. -/
def Seg (T : Topo) (C : Masks) (u : Bool) (w z0 z1 : Nat) (b : Byte) : Prop :=
  ∀ k, b.getLsbD k = true ↔ Bit C.node (T.cell u w z1) k ∧ ∀ z, z0 < z → z ≤ z1 → Bit C.edge (T.cell u w z) k

/-- Masks of the right size. -/
structure Sized (T : Topo) (C : Masks) : Prop where
  node : C.node.length = T.numCells
  edge : C.edge.length = T.numCells

theorem put_get {mem : List Byte} {i : Nat} {b : Byte} (h : i < mem.length) :
    ∃ mem', put mem i b = .ok mem' ∧ mem'.length = mem.length ∧ mem'[i]? = some b ∧ ∀ j : Nat, j ≠ i → mem'[j]? = mem[j]? :=
  ⟨mem.set i b, put_ok h, List.length_set, List.getElem?_set_self h, fun _ hj => List.getElem?_set_ne (fun e => hj e.symm)⟩

section
variable {T : Topo} {C : Masks} (hS : Sized T C) {u : Bool} {w : Nat}
include hS

theorem at_edge {z : Nat} (hr : InR T u w z) : ∃ b, at_ C.edge (T.cell u w z) = .ok b ∧ C.edge[T.cell u w z]? = some b := by
  have h : T.cell u w z < C.edge.length := by rw [hS.edge]; exact cell_lt hr
  exact ⟨_, at_ok (List.getElem?_eq_getElem h), List.getElem?_eq_getElem h⟩

theorem at_node {z : Nat} (hr : InR T u w z) : ∃ b, at_ C.node (T.cell u w z) = .ok b ∧ C.node[T.cell u w z]? = some b := by
  have h : T.cell u w z < C.node.length := by rw [hS.node]; exact cell_lt hr
  exact ⟨_, at_ok (List.getElem?_eq_getElem h), List.getElem?_eq_getElem h⟩

theorem fillDown_ok (hw : w < T.dimW u) {base n z1 : Nat} (hn : n ≤ z1) (hz : z1 < T.dimZ u) {m : Byte} {mem : List Byte} (hb : base + n ≤ mem.length) (hm : Seg T C u w n z1 m) :
    ∃ mem', fillDown T C u w base n m mem = .ok mem' ∧ mem'.length = mem.length ∧ (∀ i : Nat, i < base ∨ base + n ≤ i → mem'[i]? = mem[i]?) ∧
      ∀ j, j < n → ∃ b, mem'[base + j]? = some b ∧ Seg T C u w j z1 b := by
  induction n generalizing m mem with
  | zero => exact ⟨mem, rfl, rfl, fun _ _ => rfl, fun j hj => by omega⟩
  | succ n ih =>
    obtain ⟨e, he, he'⟩ := at_edge hS (u := u) (w := w) (z := n + 1) ⟨hw, by omega⟩
    obtain ⟨m1, h1, l1, g1, o1⟩ := put_get (mem := mem) (i := base + n) (b := m &&& e) (by omega)
    have hm' : Seg T C u w n z1 (m &&& e) := by
      intro k
      rw [BitVec.getLsbD_and, Bool.and_eq_true, hm k, ← bit_iff he', and_assoc]
      apply and_congr Iff.rfl
      constructor
      · rintro ⟨h, h'⟩ z hz0 hz1
        by_cases hzn : z = n + 1
        · rw [hzn]; exact h'
        · exact h z (by omega) hz1
      · intro h; exact ⟨fun z a b => h z (by omega) b, h (n + 1) (by omega) (by omega)⟩
    obtain ⟨m2, h2, l2, o2, c2⟩ := ih (by omega) (mem := m1) (m := m &&& e) (by omega) hm'
    refine ⟨m2, by simp only [fillDown, he, h1, bind, Except.bind, h2], l2.trans l1, fun i hi => ?_, fun j hj => ?_⟩
    · rw [o2 i (by omega), o1 i (by omega)]
    · by_cases hjn : j = n
      · subst hjn
        exact ⟨_, by rw [o2 _ (by omega), g1], hm'⟩
      · exact c2 j (by omega)

theorem seg_self {z : Nat} {b : Byte} (h : C.node[T.cell u w z]? = some b) : Seg T C u w z z b := by
  intro k
  rw [← bit_iff h]
  constructor
  · exact fun h => ⟨h, fun z' a b => by omega⟩
  · exact fun h => h.1

theorem fillLine_ok (hw : w < T.dimW u) {b0 n z base : Nat} (hbase : base + z = b0 + binom z) (hz : z + n ≤ T.dimZ u) {mem : List Byte} (hb : b0 + binom (z + n) ≤ mem.length) :
    ∃ base' mem', fillLine T C u w n z base mem = .ok (base', mem') ∧ base' + (z + n) = b0 + binom (z + n) ∧ mem'.length = mem.length ∧
      (∀ i : Nat, i < b0 + binom z ∨ b0 + binom (z + n) ≤ i → mem'[i]? = mem[i]?) ∧
      ∀ z1 z0, z ≤ z1 → z1 < z + n → z0 ≤ z1 → ∃ b, mem'[b0 + binom z1 + z0]? = some b ∧ Seg T C u w z0 z1 b := by
  induction n generalizing z base mem with
  | zero => exact ⟨base, mem, rfl, hbase, rfl, fun _ _ => rfl, fun z1 z0 a b => by omega⟩
  | succ n ih =>
    obtain ⟨m, hm, hm'⟩ := at_node hS (u := u) (w := w) (z := z) ⟨hw, by omega⟩
    have hbs := binom_succ z
    have hmono := binom_mono (show z + 1 ≤ z + (n + 1) by omega)
    obtain ⟨m1, h1, l1, g1, o1⟩ := put_get (mem := mem) (i := base + z + z) (b := m) (by omega)
    obtain ⟨m2, h2, l2, o2, c2⟩ := fillDown_ok hS hw (base := base + z) (n := z) (z1 := z) (Nat.le_refl _) (by omega) (m := m) (mem := m1) (by omega) (seg_self hS hm')
    have e1 : z + 1 + n = z + (n + 1) := by omega
    obtain ⟨base', m3, h3, b3, l3, o3, c3⟩ := ih (z := z + 1) (base := base + z) (mem := m2) (by omega) (by omega) (by rw [e1]; omega)
    rw [e1] at b3 o3 c3
    refine ⟨base', m3, by simp only [fillLine, hm, h1, h2, bind, Except.bind, h3], b3, by omega, fun i hi => ?_, fun z1 z0 ha hb hc => ?_⟩
    · rw [o3 i (by omega), o2 i (by omega), o1 i (by omega)]
    · by_cases hz1 : z1 = z
      · subst hz1
        have hpos : m3[b0 + binom z1 + z0]? = m2[b0 + binom z1 + z0]? := o3 _ (by omega)
        rw [hpos]
        by_cases hz0 : z0 = z1
        · subst hz0
          refine ⟨m, ?_, seg_self hS hm'⟩
          rw [o2 _ (by omega), ← g1]
          congr 1; omega
        · obtain ⟨b, hb1, hb2⟩ := c2 z0 (by omega)
          refine ⟨b, ?_, hb2⟩
          rw [← hb1]; congr 1; omega
      · exact c3 z1 z0 (by omega) (by omega) hc

theorem fillSide_ok {n w0 base : Nat} (hw : w0 + n ≤ T.dimW u) {mem : List Byte} (hb : base + n * binom (T.dimZ u) ≤ mem.length) :
    ∃ mem', fillSide T C u n w0 base mem = .ok (base + n * binom (T.dimZ u), mem') ∧ mem'.length = mem.length ∧
      (∀ i : Nat, i < base ∨ base + n * binom (T.dimZ u) ≤ i → mem'[i]? = mem[i]?) ∧
      ∀ j z1 z0, j < n → z1 < T.dimZ u → z0 ≤ z1 → ∃ b, mem'[base + j * binom (T.dimZ u) + binom z1 + z0]? = some b ∧ Seg T C u (w0 + j) z0 z1 b := by
  have hside : sideZ T u = T.dimZ u := rfl
  induction n generalizing w0 base mem with
  | zero => exact ⟨mem, by simp [fillSide]; rfl, rfl, fun _ _ => rfl, fun j _ _ h => by omega⟩
  | succ n ih =>
    rw [Nat.succ_mul] at hb
    obtain ⟨base', m1, h1, b1, l1, o1, c1⟩ := fillLine_ok hS (u := u) (w := w0) (by omega) (b0 := base) (n := T.dimZ u) (z := 0) (base := base) (by simp [binom]) (by omega) (mem := mem) (by rw [Nat.zero_add]; omega)
    rw [Nat.zero_add] at b1 o1 c1
    have hb0 : binom 0 = 0 := rfl
    rw [hb0] at o1
    obtain ⟨m2, h2, l2, o2, c2⟩ := ih (w0 := w0 + 1) (base := base' + T.dimZ u) (mem := m1) (by omega) (by omega)
    refine ⟨m2, ?_, l2.trans l1, fun i hi => ?_, fun j z1 z0 hj hz hz0 => ?_⟩
    · simp only [fillSide, hside, h1, bind, Except.bind, h2, Nat.succ_mul]
      rw [b1]; congr 2; omega
    · rw [Nat.succ_mul] at hi
      rw [o2 i (by omega), o1 i (by omega)]
    · cases j with
      | zero =>
        have := binom_add_lt hz0 hz
        rw [Nat.zero_mul, Nat.add_zero, o2 _ (by omega)]
        exact c1 z1 z0 (by omega) hz hz0
      | succ j =>
        obtain ⟨b, hb1, hb2⟩ := c2 j z1 z0 (by omega) hz hz0
        refine ⟨b, ?_, by rw [show w0 + (j + 1) = w0 + 1 + j by omega]; exact hb2⟩
        rw [← hb1, Nat.succ_mul]; congr 1; omega

/-- The table holds the right byte for every segment. -/
theorem lineMasks_ok : ∃ mem, lineMasks T C = .ok mem ∧ ∀ u w z0 z1, w < T.dimW u → z0 ≤ z1 → z1 < T.dimZ u →
    ∃ b, lineMask T mem u w z0 z1 = .ok b ∧ Seg T C u w z0 z1 b := by
  obtain ⟨m1, h1, l1, o1, c1⟩ := fillSide_ok hS (u := false) (n := T.dimX) (w0 := 0) (base := 0) (by simp [Topo.dimW]) (mem := List.replicate (T.dimX * binom T.dimY + T.dimY * binom T.dimX) 0) (by
    simp only [Topo.dimZ, List.length_replicate, Bool.false_eq_true, if_false]; omega)
  obtain ⟨m2, h2, l2, o2, c2⟩ := fillSide_ok hS (u := true) (n := T.dimY) (w0 := 0) (base := 0 + T.dimX * binom (T.dimZ false)) (by simp [Topo.dimW]) (mem := m1) (by
    rw [l1]; simp only [Topo.dimZ, List.length_replicate, Bool.false_eq_true, if_false, if_true]; omega)
  refine ⟨m2, ?_, fun u w z0 z1 hw hz hz' => ?_⟩
  · have e1 : sideW T false = T.dimX := rfl
    have e2 : sideW T true = T.dimY := rfl
    simp only [lineMasks, e1, e2, h1, h2, bind, Except.bind]; rfl
  · cases u with
    | false =>
      obtain ⟨b, hb1, hb2⟩ := c1 w z1 z0 hw hz' hz
      refine ⟨b, at_ok ?_, by rw [Nat.zero_add] at hb2; exact hb2⟩
      have hlt := binom_add_lt hz hz'
      have hle : (w + 1) * binom (T.dimZ false) ≤ T.dimX * binom (T.dimZ false) := Nat.mul_le_mul_right _ hw
      rw [Nat.add_mul] at hle
      have hpos : bundleIndex (T.dimX * binom T.dimY) (if false = true then binom T.dimX else binom T.dimY) false w z0 z1 = 0 + w * binom (T.dimZ false) + binom z1 + z0 := by
        simp [bundleIndex, unum, Topo.dimZ]
      rw [hpos, o2 _ (by omega)]
      exact hb1
    | true =>
      obtain ⟨b, hb1, hb2⟩ := c2 w z1 z0 hw hz' hz
      refine ⟨b, at_ok ?_, by rw [Nat.zero_add] at hb2; exact hb2⟩
      rw [← hb1]
      congr 1
      simp [bundleIndex, unum, Topo.dimZ]
end

/-- A segment of a clean mask is whole exactly if all its pieces and joints are there. -/
theorem seg_clean {T : Topo} {nodes : List Nat} {edges : List (Nat × Nat)} {C : Masks} {N E : Bool → Nat → Nat → Nat → Prop} (hC : Clean T nodes edges C N E)
    {u : Bool} {w z0 z1 : Nat} {b : Byte} (hw : w < T.dimW u) (hz : z0 ≤ z1) (hz' : z1 < T.dimZ u) (hs : Seg T C u w z0 z1 b) (k : Nat) :
    b.getLsbD k = true ↔ (∀ z, z0 ≤ z → z ≤ z1 → N u w k z) ∧ ∀ z, z0 < z → z ≤ z1 → E u w k z := by
  rw [hs k, hC.rep.node u w k z1 ⟨hw, hz'⟩]
  constructor
  · rintro ⟨h1, h2⟩
    have hE : ∀ z, z0 < z → z ≤ z1 → E u w k z := fun z a b => (hC.rep.edge u w k z ⟨hw, by show z < _; omega⟩).mp (h2 z a b)
    refine ⟨fun z a b => ?_, hE⟩
    by_cases hzz : z = z1
    · rw [hzz]; exact h1
    · exact (hC.edge_node _ _ _ _ (hE (z + 1) (by omega) (by omega))).1
  · rintro ⟨h1, h2⟩
    exact ⟨h1 z1 hz (Nat.le_refl _), fun z a b => (hC.rep.edge u w k z ⟨hw, by show z < _; omega⟩).mpr (h2 z a b)⟩

theorem Clean.sized {T : Topo} {nodes : List Nat} {edges : List (Nat × Nat)} {C : Masks} {N E : Bool → Nat → Nat → Nat → Prop} (hC : Clean T nodes edges C N E) : Sized T C :=
  ⟨hC.rep.nodeLen, hC.rep.edgeLen⟩

end Bus
end MM
