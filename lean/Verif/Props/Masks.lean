import Verif.Bus.Count

/-! C45: the masks the clique and biclique search runs on avoid all missing couplers. -/

namespace MM

open Bus Lattice

/-- The mask uses the piece at position `z` of line `k` in column (`u = false`) or row (`u = true`) `w`. -/
def Uses (T : Topo) (C : Masks) (u : Bool) (w k z : Nat) : Prop := Bit C.node (T.cell u w z) k

/-- The mask lets a line go on from position `z` to `z + 1`. -/
def Continues (T : Topo) (C : Masks) (u : Bool) (w k z : Nat) : Prop := Bit C.edge (T.cell u w (z + 1)) k

/-- C45: each mask uses qubits of the graph only, at most one of two qubits that cross without a coupler, and lets lines go on
only over pieces that it uses and that belong to one qubit or to coupled ones. It holds for every graph of the three families and for
all random choices; the search ends. -/
theorem C45_avoids {T : Topo} {nodes : List Nat} {edges : List (Nat × Nat)} (hG : WFGraph T nodes edges) {bound : Nat} (hb : 0 < bound)
    {D D' : Draws} (hD : D.Perm) (hD' : D'.Perm) :
    ∃ l, searched T bound D D' nodes edges = .ok l ∧ l ≠ [] ∧ ∀ C ∈ l,
      (∀ u w k z, w < T.dimW u → z < T.dimZ u → Uses T C u w k z → ∃ q ∈ nodes, FragOf T q u w k z) ∧
      (∀ p ∈ nodes, ∀ q ∈ nodes, ∀ x k y j, FragOf T p false x k y → FragOf T q true y j x → (p, q) ∉ edges → (q, p) ∉ edges →
        ¬(Uses T C false x k y ∧ Uses T C true y j x)) ∧
      (∀ u w k z, w < T.dimW u → z + 1 < T.dimZ u → Continues T C u w k z → Uses T C u w k z ∧ Uses T C u w k (z + 1) ∧
        ∃ p ∈ nodes, ∃ q ∈ nodes, FragOf T p u w k z ∧ FragOf T q u w k (z + 1) ∧ (p = q ∨ (p, q) ∈ edges ∨ (q, p) ∈ edges)) := by
  obtain ⟨l, h1, h2, h3⟩ := searched_ok hG hb hD hD'
  refine ⟨l, h1, h2, fun C hC => ?_⟩
  obtain ⟨N, E, hc⟩ := h3 C hC
  refine ⟨fun u w k z hw hz hu => hc.node_has _ _ _ _ ((hc.rep.node u w k z ⟨hw, hz⟩).mp hu), ?_, ?_⟩
  · rintro p hp q hq x k y j fp fq n1 n2 ⟨u1, u2⟩
    obtain ⟨a1, a2, a3⟩ := frag_bounds hG.supported (hG.qubits p hp) fp
    obtain ⟨b1, b2, b3⟩ := frag_bounds hG.supported (hG.qubits q hq) fq
    obtain ⟨p', q', hl, fp', fq'⟩ := hc.cross x k y j ((hc.rep.node _ _ _ _ ⟨a1, a3⟩).mp u1) ((hc.rep.node _ _ _ _ ⟨b1, b3⟩).mp u2)
    have hp' : p' ∈ nodes ∧ q' ∈ nodes := by
      rcases hl with hl | hl
      · exact hG.ends _ hl
      · exact (hG.ends _ hl).symm
    obtain rfl := frag_unique (hG.qubits p hp) (hG.qubits p' hp'.1) fp fp'
    obtain rfl := frag_unique (hG.qubits q hq) (hG.qubits q' hp'.2) fq fq'
    rcases hl with hl | hl
    · exact n1 hl
    · exact n2 hl
  · intro u w k z hw hz hcont
    have he := (hc.rep.edge u w k (z + 1) ⟨hw, hz⟩).mp hcont
    obtain ⟨n1, n2⟩ := hc.edge_node _ _ _ _ he
    refine ⟨(hc.rep.node _ _ _ _ ⟨hw, by show z < T.dimZ u; omega⟩).mpr n1, (hc.rep.node _ _ _ _ ⟨hw, hz⟩).mpr n2, ?_⟩
    obtain ⟨z0, e, p, hp, q, hq, f1, f2, f3⟩ := hc.edge_joint _ _ _ _ he
    obtain rfl : z = z0 := by omega
    exact ⟨p, hp, q, hq, f1, f2, f3⟩

/-- C45, few missing couplers: if there are at most `bound` ways (that is 64) to choose an end of each of them, each
choice is made exactly once, and its mask holds just the pieces of the graph that are not chosen. -/
theorem C45_few {T : Topo} {nodes : List Nat} {edges : List (Nat × Nat)} (hG : WFGraph T nodes edges) {bound : Nat} {D D' : Draws} (hD : D.Perm) (hD' : D'.Perm)
    {M : Masks} {L : List (Nat × Nat)} (hM : buildMasks T nodes edges = .ok M) (hL : badEdges T M.bad = .ok L) (hb : 2 ^ L.length ≤ bound) :
    ∃ l, searched T bound D D' nodes edges = .ok l ∧ ∃ choices : List (List Bool), choices.Nodup ∧ (∀ c, c ∈ choices ↔ c.length = L.length) ∧ l.length = choices.length ∧
      ∀ (i : Nat) C c, l[i]? = some C → choices[i]? = some c → ∀ u w k z, w < T.dimW u → z < T.dimZ u →
        (Uses T C u w k z ↔ (∃ q ∈ nodes, FragOf T q u w k z) ∧ T.frag u w z k ∉ (L.zip c).map fun p => if p.2 then p.1.1 else p.1.2) ∧
        (z + 1 < T.dimZ u → (Continues T C u w k z ↔ Uses T C u w k z ∧ Uses T C u w k (z + 1) ∧
          ∃ p ∈ nodes, ∃ q ∈ nodes, FragOf T p u w k z ∧ FragOf T q u w k (z + 1) ∧ (p = q ∨ (p, q) ∈ edges ∨ (q, p) ∈ edges))) := by
  obtain ⟨l, h1, h2, h3⟩ := searched_few hG hD hD' hM hL hb
  refine ⟨l, h1, allChoices L.length, allChoices_nodup _, fun c => mem_allChoices, by rw [h2]; simp [allChoices], ?_⟩
  intro i C c hC hc u w k z hw hz
  have h := h3 i C hC
  have hi : c = bitsOf L.length i := by
    unfold allChoices at hc
    rw [List.getElem?_map] at hc
    obtain ⟨m, hm, rfl⟩ := Option.map_eq_some_iff.mp hc
    rw [(List.getElem?_range (n := 2 ^ L.length) (i := i) (by
      by_contra hlt
      rw [List.getElem?_eq_none (by simpa using hlt)] at hm
      cases hm))] at hm
    cases hm
    rfl
  rw [hi]
  refine ⟨h.node u w k z ⟨hw, hz⟩, fun hz1 => ?_⟩
  have e1 := h.node u w k z ⟨hw, hz⟩
  have e2 := h.node u w k (z + 1) ⟨hw, hz1⟩
  have e3 := h.edge u w k (z + 1) ⟨hw, hz1⟩
  unfold Uses Continues
  rw [e1, e2, e3]
  constructor
  · rintro ⟨⟨z0, e, p, hp, q, hq, f1, f2, f3⟩, g1, g2⟩
    obtain rfl : z = z0 := by omega
    exact ⟨⟨⟨p, hp, f1⟩, g2 z rfl⟩, ⟨⟨q, hq, f2⟩, g1⟩, p, hp, q, hq, f1, f2, f3⟩
  · rintro ⟨⟨_, g2⟩, ⟨_, g1⟩, p, hp, q, hq, f1, f2, f3⟩
    refine ⟨⟨z, rfl, p, hp, q, hq, f1, f2, f3⟩, g1, fun z0 hz0 => ?_⟩
    obtain rfl : z = z0 := by omega
    exact g2

/-- C45, the list of missing couplers: pairs of the numbers of a vertical and a horizontal piece that cross, both there, without a coupler. -/
theorem C45_missing {T : Topo} {nodes : List Nat} {edges : List (Nat × Nat)} (hG : WFGraph T nodes edges) :
    ∃ M L, buildMasks T nodes edges = .ok M ∧ badEdges T M.bad = .ok L ∧ ∀ a b, (a, b) ∈ L ↔
      ∃ x k y j, (∃ p ∈ nodes, ∃ q ∈ nodes, FragOf T p false x k y ∧ FragOf T q true y j x ∧ (p, q) ∉ edges ∧ (q, p) ∉ edges) ∧
        a = T.frag false x y k ∧ b = T.frag true y x j := by
  obtain ⟨M, h1, r1⟩ := buildMasks_ok hG
  obtain ⟨L, h2, hL⟩ := badEdges_ok r1
  refine ⟨M, L, h1, h2, fun a b => (hL a b).trans ?_⟩
  constructor
  · rintro ⟨x, k, y, j, hr, hk, ⟨⟨p, hp, fp⟩, ⟨q, hq, fq⟩, hn⟩, ha, hb⟩
    exact ⟨x, k, y, j, ⟨p, hp, q, hq, fp, fq, fun h => hn ⟨p, q, .inl h, fp, fq⟩, fun h => hn ⟨p, q, .inr h, fp, fq⟩⟩, ha, hb⟩
  · rintro ⟨x, k, y, j, ⟨p, hp, q, hq, fp, fq, n1, n2⟩, ha, hb⟩
    obtain ⟨a1, a2, a3⟩ := frag_bounds hG.supported (hG.qubits p hp) fp
    refine ⟨x, k, y, j, ⟨a1, a3⟩, a2, ⟨⟨p, hp, fp⟩, ⟨q, hq, fq⟩, ?_⟩, ha, hb⟩
    rintro ⟨p', q', hl, fp', fq'⟩
    have hp' : p' ∈ nodes ∧ q' ∈ nodes := by
      rcases hl with hl | hl
      · exact hG.ends _ hl
      · exact (hG.ends _ hl).symm
    obtain rfl := frag_unique (hG.qubits p hp) (hG.qubits p' hp'.1) fp fp'
    obtain rfl := frag_unique (hG.qubits q hq) (hG.qubits q' hp'.2) fq fq'
    rcases hl with hl | hl
    · exact n1 hl
    · exact n2 hl

/-- C45, the number of masks: one if no coupler is missing, all choices if they are at most `bound`, `bound` otherwise. -/
theorem C45_count {T : Topo} {nodes : List Nat} {edges : List (Nat × Nat)} (hG : WFGraph T nodes edges) {bound : Nat} (hb : 0 < bound) {D D' : Draws} (hD : D.Perm) (hD' : D'.Perm)
    {M : Masks} {L : List (Nat × Nat)} (hM : buildMasks T nodes edges = .ok M) (hL : badEdges T M.bad = .ok L) {l : List Masks} (hl : searched T bound D D' nodes edges = .ok l) :
    l.length = min (2 ^ L.length) bound := by
  rw [searched_length hG hb hD hD' hM hL hl]
  unfold limit
  split
  · rename_i h; rw [h]; simp; omega
  · split <;> omega

/-- One cell of `chimera_graph(1, 1, 2)` without the coupler of 0 and 2. -/
def cellNodes : List Nat := [0, 1, 2, 3]
def cellEdges : List (Nat × Nat) := [(0, 3), (2, 1), (1, 3)]

theorem cell_wf : WFGraph (.chimera 1 1 2) cellNodes cellEdges := by
  refine ⟨show 2 ≤ 8 by decide, ?_, ?_, ?_⟩
  · intro q hq; simp only [cellNodes, List.mem_cons, List.not_mem_nil, or_false] at hq; show q < 2 * 2 * 1 * 1; omega
  · decide
  · intro e he
    simp only [cellEdges, List.mem_cons, List.not_mem_nil, or_false] at he
    rcases he with rfl | rfl | rfl
    · exact .inl (ChimeraCoupled.cell (y := 0) (x := 0) (k := 0) (k' := 1) (by decide) (by decide) (by decide) (by decide))
    · exact .inr (ChimeraCoupled.cell (y := 0) (x := 0) (k := 1) (k' := 0) (by decide) (by decide) (by decide) (by decide))
    · exact .inl (ChimeraCoupled.cell (y := 0) (x := 0) (k := 1) (k' := 1) (by decide) (by decide) (by decide) (by decide))

/-- Draws that reverse the list. -/
def revDraws : Draws := ⟨fun _ l => l.reverse, fun n m => (n + m) % 2 = 0⟩

theorem revDraws_perm : revDraws.Perm := fun _ l => List.reverse_perm l

/-- The two masks for the cell: without qubit 2, without qubit 0. -/
example : (searched (.chimera 1 1 2) 64 revDraws revDraws cellNodes cellEdges).map (fun l => l.map (·.node)) = .ok [[3, 2], [2, 3]] := by decide +kernel

/-- The same with the bound 1, so that covers are drawn. -/
example : (searched (.chimera 1 1 2) 1 revDraws revDraws cellNodes cellEdges).map (fun l => l.map (·.node)) = .ok [[3, 2]] := by decide +kernel

end MM
