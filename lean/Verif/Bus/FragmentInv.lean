import Verif.Bus.Fragment
import Verif.Bus.EdgeInv

/-! What the loops over the fragment graph list. -/

namespace MM
namespace Bus

open Lattice

theorem cellFold {T : Topo} {σ : Type} {step : σ → Nat × Nat → B σ} (S : Nat → σ)
    (h : ∀ y x, y < T.dimY → x < T.dimX → step (S (x + T.dimX * y)) (y, x) = .ok (S (x + T.dimX * y + 1))) :
    (cellOrder T).foldlM step (S 0) = .ok (S (T.dimX * T.dimY)) := by
  suffices ∀ n, n ≤ T.dimX * T.dimY → ((cellOrder T).take n).foldlM step (S 0) = .ok (S n) by
    have e := this _ (Nat.le_refl _)
    rwa [← cellOrder_length, List.take_length, cellOrder_length] at e
  intro n
  induction n with
  | zero => intro _; rfl
  | succ n ih =>
    intro hn
    have hlt : n < (cellOrder T).length := by rw [cellOrder_length]; omega
    have hget : (cellOrder T)[n]? = some (cellOrder T)[n] := List.getElem?_eq_getElem hlt
    obtain ⟨h1, h2, h3⟩ := cellOrder_bounds hget
    rw [List.take_succ_eq_append_getElem hlt, List.foldlM_append, ih (by omega)]
    have e := h _ _ h1 h2
    rw [← h3] at e
    simp only [bind, Except.bind, List.foldlM_cons, List.foldlM_nil]
    rw [show step (S n) (cellOrder T)[n] = _ from e]
    rfl

/-- A bit of an array. -/
def bitB (a : List Byte) (i k : Nat) : Bool :=
  match a[i]? with
  | some b => b.getLsbD k
  | none => false

theorem bitB_iff {a : List Byte} {i k : Nat} : bitB a i k = true ↔ Bit a i k := by
  unfold bitB Bit
  cases a[i]? <;> simp

theorem bitB_eq {a : List Byte} {i k : Nat} {m : Byte} (h : a[i]? = some m) : bitB a i k = m.getLsbD k := by
  unfold bitB; rw [h]

theorem and_twoPow : ∀ k, k < 8 → ∀ m : Byte, (m &&& BitVec.twoPow 8 k = 0) ↔ m.getLsbD k = false := by decide +kernel

theorem and_twoPow_not {k : Nat} (hk : k < 8) (m b : Byte) : (m &&& BitVec.twoPow 8 k &&& ~~~b = 0) ↔ ¬(m.getLsbD k = true ∧ b.getLsbD k = false) := by
  have e : m &&& BitVec.twoPow 8 k &&& ~~~b = (m &&& ~~~b) &&& BitVec.twoPow 8 k := by
    rw [BitVec.and_assoc, BitVec.and_comm (BitVec.twoPow 8 k), ← BitVec.and_assoc]
  rw [e, and_twoPow k hk, BitVec.getLsbD_and, BitVec.getLsbD_not]
  cases m.getLsbD k <;> cases b.getLsbD k <;> simp [hk]

theorem frag_eq_cell {T : Topo} {u : Bool} {w z k : Nat} : T.frag u w z k = k + T.shore * T.cell u w z := by
  cases u <;> rfl

/-- The numbers below `q` whose bit is set. -/
def listedNodes (t : Nat) (node : List Byte) (q : Nat) : List Nat := (List.range q).filter fun a => bitB node (a / t) (a % t)

theorem shoreNodes_ok {node : List Byte} {t c n k q : Nat} (hc : c < node.length) (ht : t ≤ 8) (hk : k + n ≤ t) (hq : q = k + t * c) :
    shoreNodes node c n k (q, listedNodes t node q) = .ok (q + n, listedNodes t node (q + n)) := by
  induction n generalizing k q with
  | zero => rfl
  | succ n ih =>
    have hget : node[c]? = some node[c] := List.getElem?_eq_getElem hc
    have hb : bitB node (q / t) (q % t) = node[c].getLsbD k := by
      rw [hq, mix_div (by omega), mix_mod (by omega), bitB_eq hget]
    have e : (if node[c] &&& BitVec.twoPow 8 k = 0 then listedNodes t node q else listedNodes t node q ++ [q]) = listedNodes t node (q + 1) := by
      unfold listedNodes
      rw [List.range_succ, List.filter_append]
      by_cases h : node[c].getLsbD k = true
      · rw [if_neg (by rw [and_twoPow k (by omega), h]; simp), List.filter_cons_of_pos (by rw [hb]; exact h)]
        rfl
      · rw [if_pos ((and_twoPow k (by omega) _).mpr (by simpa using h)), List.filter_cons_of_neg (by rw [hb]; exact h)]
        simp
    simp only [shoreNodes, at_ok hget, maskBit_ok k (by omega), bind, Except.bind, e]
    rw [ih (by omega) (by omega)]
    have : q + 1 + n = q + (n + 1) := by omega
    rw [this]

theorem fragmentNodes_eq {T : Topo} {M : Masks} {N E : Bool → Nat → Nat → Nat → Prop} {D : Bool → Nat → Nat → Nat → Nat → Prop} (h : Rep T M N E D) (hs : T.shore ≤ 8) :
    fragmentNodes T M = .ok (listedNodes T.shore M.node (T.shore * T.numCells)) := by
  unfold fragmentNodes
  have e := cellFold (T := T) (step := fun s c => do
    let s ← shoreNodes M.node (T.cell false c.2 c.1) T.shore 0 s
    shoreNodes M.node (T.cell true c.1 c.2) T.shore 0 s) (fun i => (T.shore * (2 * i), listedNodes T.shore M.node (T.shore * (2 * i)))) (by
      intro y x hy hx
      have c0 : T.cell false x y = 2 * (x + T.dimX * y) := by simp [Topo.cell, cellUWZ, cellYX, unum]
      have c1 : T.cell true y x = 1 + 2 * (x + T.dimX * y) := by simp [Topo.cell, cellUWZ, cellYX, unum]
      have l0 : T.cell false x y < M.node.length := by rw [h.nodeLen]; exact cell_lt ⟨hx, hy⟩
      have l1 : T.cell true y x < M.node.length := by rw [h.nodeLen]; exact cell_lt ⟨hy, hx⟩
      simp only [bind, Except.bind]
      rw [shoreNodes_ok (t := T.shore) l0 hs (by omega) (by rw [c0]; ring)]
      dsimp only
      rw [shoreNodes_ok (t := T.shore) l1 hs (by omega) (by rw [c1]; ring)]
      have : T.shore * (2 * (x + T.dimX * y)) + T.shore + T.shore = T.shore * (2 * (x + T.dimX * y + 1)) := by ring
      rw [this])
  have e0 : ((0 : Nat), ([] : List Nat)) = (T.shore * (2 * 0), listedNodes T.shore M.node (T.shore * (2 * 0))) := by simp [listedNodes]
  simp only [bind, Except.bind] at e ⊢
  rw [e0, e]
  have : T.shore * (2 * (T.dimX * T.dimY)) = T.shore * T.numCells := by unfold Topo.numCells; ring
  dsimp only
  rw [this]
  rfl

/-- The crossings listed for fragment `q`. -/
def listedCross (T : Topo) (M : Masks) (y x q n : Nat) : List (Nat × Nat) :=
  ((List.range n).filter fun j => bitB M.node (T.cell true y x) j && !bitB M.bad q j).map fun j => (q, chimeraLinear T.dimX T.shore y x true j)

theorem crossEdges_ok {T : Topo} {M : Masks} {y x q n k : Nat} {out : List (Nat × Nat)} (hc : T.cell true y x < M.node.length) (hq : q < M.bad.length) (hk : k + n ≤ 8) :
    crossEdges T M y x q n k (out ++ listedCross T M y x q k) = .ok (out ++ listedCross T M y x q (k + n)) := by
  induction n generalizing k with
  | zero => rfl
  | succ n ih =>
    have hget : M.node[T.cell true y x]? = some M.node[T.cell true y x] := List.getElem?_eq_getElem hc
    have hgb : M.bad[q]? = some M.bad[q] := List.getElem?_eq_getElem hq
    have e : (if M.node[T.cell true y x] &&& BitVec.twoPow 8 k &&& ~~~M.bad[q] = 0 then out ++ listedCross T M y x q k
        else out ++ listedCross T M y x q k ++ [(q, chimeraLinear T.dimX T.shore y x true k)]) = out ++ listedCross T M y x q (k + 1) := by
      unfold listedCross
      rw [List.range_succ, List.filter_append, List.map_append, ← List.append_assoc]
      by_cases h : M.node[T.cell true y x].getLsbD k = true ∧ M.bad[q].getLsbD k = false
      · rw [if_neg (by rw [and_twoPow_not (by omega)]; exact not_not_intro h), List.filter_cons_of_pos (by rw [bitB_eq hget, bitB_eq hgb, h.1, h.2]; rfl)]
        simp
      · rw [if_pos ((and_twoPow_not (by omega) _ _).mpr h), List.filter_cons_of_neg (by
          rw [bitB_eq hget, bitB_eq hgb]
          intro h'
          apply h
          simpa using h')]
        simp
    simp only [crossEdges, at_ok hget, at_ok hgb, maskBit_ok k (by omega), bind, Except.bind, e]
    rw [ih (by omega)]
    have : k + 1 + n = k + (n + 1) := by omega
    rw [this]

/-- What is listed for fragment `k` of the vertical shore of cell `(y, x)`. -/
def ofVertical (T : Topo) (M : Masks) (y x k : Nat) : List (Nat × Nat) :=
  (if bitB M.edge (T.cell false x y) k then [(T.frag false x y k, T.frag false x (y - 1) k)] else []) ++
    if bitB M.node (T.cell false x y) k then listedCross T M y x (T.frag false x y k) T.shore else []

/-- What is listed for fragment `k` of the horizontal shore of cell `(y, x)`. -/
def ofHorizontal (T : Topo) (M : Masks) (y x k : Nat) : List (Nat × Nat) :=
  if bitB M.edge (T.cell true y x) k then [(T.frag true y x k, T.frag true y (x - 1) k)] else []

theorem verticalEdges_ok {T : Topo} {M : Masks} {y x n k q : Nat} {out : List (Nat × Nat)} (hn : M.node.length = T.numCells) (he : M.edge.length = T.numCells)
    (hb : M.bad.length = T.numCells * T.shore) (hy : y < T.dimY) (hx : x < T.dimX) (hs : T.shore ≤ 8) (hk : k + n ≤ T.shore) (hq : q = T.frag false x y k)
    (h0 : ∀ j, Bit M.edge (T.cell false x y) j → y ≠ 0) :
    verticalEdges T M y x n k (q, out ++ (List.range k).flatMap (ofVertical T M y x)) = .ok (q + n, out ++ (List.range (k + n)).flatMap (ofVertical T M y x)) := by
  induction n generalizing k q with
  | zero => rfl
  | succ n ih =>
    have l0 : T.cell false x y < T.numCells := cell_lt ⟨hx, hy⟩
    have l1 : T.cell true y x < T.numCells := cell_lt ⟨hy, hx⟩
    have hgn : M.node[T.cell false x y]? = some _ := List.getElem?_eq_getElem (by rw [hn]; exact l0)
    have hge : M.edge[T.cell false x y]? = some _ := List.getElem?_eq_getElem (by rw [he]; exact l0)
    have hql : q < M.bad.length := by rw [hb, hq]; exact frag_lt ⟨hx, hy⟩ (by omega)
    generalize M.node[T.cell false x y]'(by rw [hn]; exact l0) = mn at hgn
    generalize M.edge[T.cell false x y]'(by rw [he]; exact l0) = me at hge
    have hf : chimeraLinear T.dimX T.shore (y - 1) x false k = T.frag false x (y - 1) k := rfl
    have e1 : backEdge me (BitVec.twoPow 8 k) y (q, chimeraLinear T.dimX T.shore (y - 1) x false k) (out ++ (List.range k).flatMap (ofVertical T M y x)) =
        .ok (out ++ (List.range k).flatMap (ofVertical T M y x) ++
          if bitB M.edge (T.cell false x y) k then [(T.frag false x y k, T.frag false x (y - 1) k)] else []) := by
      unfold backEdge
      rw [bitB_eq hge]
      by_cases h : me.getLsbD k = true
      · rw [if_neg (by rw [and_twoPow k (by omega), h]; simp), if_neg (h0 k ⟨me, hge, h⟩), if_pos h, hf, hq]; rfl
      · rw [if_pos ((and_twoPow k (by omega) _).mpr (by simpa using h)), if_neg h, List.append_nil]; rfl
    have e2 : ∀ o : List (Nat × Nat), cellEdges T M mn (BitVec.twoPow 8 k) y x q o =
        .ok (o ++ if bitB M.node (T.cell false x y) k then listedCross T M y x (T.frag false x y k) T.shore else []) := by
      intro o
      unfold cellEdges
      rw [bitB_eq hgn]
      by_cases h : mn.getLsbD k = true
      · rw [if_neg (by rw [and_twoPow k (by omega), h]; simp), if_pos h]
        have := crossEdges_ok (T := T) (M := M) (y := y) (x := x) (q := q) (n := T.shore) (k := 0) (out := o) (by rw [hn]; exact l1) hql (by omega)
        rw [show o ++ listedCross T M y x q 0 = o from List.append_nil _, Nat.zero_add] at this
        rw [this, hq]
      · rw [if_pos ((and_twoPow k (by omega) _).mpr (by simpa using h)), if_neg h, List.append_nil]; rfl
    simp only [verticalEdges, at_ok hgn, at_ok hge, maskBit_ok k (by omega), bind, Except.bind, e1, e2]
    have e3 : out ++ (List.range k).flatMap (ofVertical T M y x) ++ (if bitB M.edge (T.cell false x y) k then [(T.frag false x y k, T.frag false x (y - 1) k)] else []) ++
        (if bitB M.node (T.cell false x y) k then listedCross T M y x (T.frag false x y k) T.shore else []) = out ++ (List.range (k + 1)).flatMap (ofVertical T M y x) := by
      rw [List.range_succ, List.flatMap_append, List.flatMap_singleton, List.append_assoc, List.append_assoc]
      rfl
    rw [e3, ih (by omega) (by rw [hq, frag_eq_cell, frag_eq_cell]; ring)]
    have a1 : q + 1 + n = q + (n + 1) := by omega
    have a2 : k + 1 + n = k + (n + 1) := by omega
    rw [a1, a2]

theorem horizontalEdges_ok {T : Topo} {M : Masks} {y x n k q : Nat} {out : List (Nat × Nat)} (he : M.edge.length = T.numCells)
    (hy : y < T.dimY) (hx : x < T.dimX) (hs : T.shore ≤ 8) (hk : k + n ≤ T.shore) (hq : q = T.frag true y x k)
    (h0 : ∀ j, Bit M.edge (T.cell true y x) j → x ≠ 0) :
    horizontalEdges T M y x n k (q, out ++ (List.range k).flatMap (ofHorizontal T M y x)) = .ok (q + n, out ++ (List.range (k + n)).flatMap (ofHorizontal T M y x)) := by
  induction n generalizing k q with
  | zero => rfl
  | succ n ih =>
    have l1 : T.cell true y x < T.numCells := cell_lt ⟨hy, hx⟩
    have hge : M.edge[T.cell true y x]? = some _ := List.getElem?_eq_getElem (by rw [he]; exact l1)
    generalize M.edge[T.cell true y x]'(by rw [he]; exact l1) = me at hge
    have hf : chimeraLinear T.dimX T.shore y (x - 1) true k = T.frag true y (x - 1) k := rfl
    have e1 : backEdge me (BitVec.twoPow 8 k) x (q, chimeraLinear T.dimX T.shore y (x - 1) true k) (out ++ (List.range k).flatMap (ofHorizontal T M y x)) =
        .ok (out ++ (List.range (k + 1)).flatMap (ofHorizontal T M y x)) := by
      rw [List.range_succ, List.flatMap_append, List.flatMap_singleton, ← List.append_assoc]
      unfold ofHorizontal
      unfold backEdge
      rw [bitB_eq hge]
      by_cases h : me.getLsbD k = true
      · rw [if_neg (by rw [and_twoPow k (by omega), h]; simp), if_neg (h0 k ⟨me, hge, h⟩), if_pos h, hf, hq]; rfl
      · rw [if_pos ((and_twoPow k (by omega) _).mpr (by simpa using h)), if_neg h, List.append_nil]; rfl
    simp only [horizontalEdges, at_ok hge, maskBit_ok k (by omega), bind, Except.bind, e1]
    rw [ih (by omega) (by rw [hq, frag_eq_cell, frag_eq_cell]; ring)]
    have a1 : q + 1 + n = q + (n + 1) := by omega
    have a2 : k + 1 + n = k + (n + 1) := by omega
    rw [a1, a2]

/-- What is listed for cell `(y, x)`. -/
def ofCell (T : Topo) (M : Masks) (c : Nat × Nat) : List (Nat × Nat) :=
  (List.range T.shore).flatMap (ofVertical T M c.1 c.2) ++ (List.range T.shore).flatMap (ofHorizontal T M c.1 c.2)

theorem fragmentEdges_eq {T : Topo} {M : Masks} {N E : Bool → Nat → Nat → Nat → Prop} {D : Bool → Nat → Nat → Nat → Nat → Prop} (h : Rep T M N E D) (hs : T.shore ≤ 8)
    (h0 : ∀ u w k z, E u w k z → z ≠ 0) : fragmentEdges T M = .ok ((cellOrder T).flatMap (ofCell T M)) := by
  unfold fragmentEdges
  have e := cellFold (T := T) (step := fun s c => do
    let s ← verticalEdges T M c.1 c.2 T.shore 0 s
    horizontalEdges T M c.1 c.2 T.shore 0 s) (fun i => (T.shore * (2 * i), ((cellOrder T).take i).flatMap (ofCell T M))) (by
      intro y x hy hx
      have c0 : T.frag false x y 0 = T.shore * (2 * (x + T.dimX * y)) := by rw [frag_eq_cell]; simp [Topo.cell, cellUWZ, cellYX, unum]
      have c1 : T.frag true y x 0 = T.shore * (2 * (x + T.dimX * y)) + T.shore := by rw [frag_eq_cell]; simp [Topo.cell, cellUWZ, cellYX, unum]; ring
      have v := verticalEdges_ok (T := T) (M := M) (n := T.shore) (k := 0) (out := ((cellOrder T).take (x + T.dimX * y)).flatMap (ofCell T M)) h.nodeLen h.edgeLen h.badLen hy hx hs (by omega) c0.symm
        (fun j hj => h0 _ _ _ _ ((h.edge false x j y ⟨hx, hy⟩).mp hj))
      have r := horizontalEdges_ok (T := T) (M := M) (n := T.shore) (k := 0) (out := ((cellOrder T).take (x + T.dimX * y)).flatMap (ofCell T M) ++ (List.range T.shore).flatMap (ofVertical T M y x)) h.edgeLen hy hx hs (by omega) c1.symm
        (fun j hj => h0 _ _ _ _ ((h.edge true y j x ⟨hy, hx⟩).mp hj))
      simp only [List.range_zero, List.flatMap_nil, List.append_nil, Nat.zero_add] at v r
      simp only [bind, Except.bind]
      rw [v]
      dsimp only
      rw [r]
      have hget := cellOrder_get hy hx
      have hlt := (List.getElem?_eq_some_iff.mp hget)
      obtain ⟨hlt, hel⟩ := hlt
      rw [List.take_succ_eq_append_getElem hlt, hel, List.flatMap_append, List.flatMap_singleton, List.append_assoc]
      have : T.shore * (2 * (x + T.dimX * y)) + T.shore + T.shore = T.shore * (2 * (x + T.dimX * y + 1)) := by ring
      rw [this]
      rfl)
  have e0 : ((0 : Nat), ([] : List (Nat × Nat))) = (T.shore * (2 * 0), ((cellOrder T).take 0).flatMap (ofCell T M)) := by simp
  simp only [bind, Except.bind] at e ⊢
  rw [e0, e]
  dsimp only
  rw [← cellOrder_length, List.take_length]
  rfl

end Bus
end MM
