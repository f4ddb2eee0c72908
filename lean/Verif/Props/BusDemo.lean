import Verif.Props.Masks

/-! Graphs for the examples beside the theorems about the clique search. -/

namespace MM

open Bus Lattice

/-- The couplers of `chimera_graph(m, n, t)`. -/
def chimeraEdges (m n t : Nat) : List (Nat × Nat) :=
  (List.range m).flatMap fun y => (List.range n).flatMap fun x => (List.range t).flatMap fun k =>
    (List.range t).map (fun k' => (chimeraNum n t y x 0 k, chimeraNum n t y x 1 k')) ++
    (if y + 1 < m then [(chimeraNum n t y x 0 k, chimeraNum n t (y + 1) x 0 k)] else []) ++
    (if x + 1 < n then [(chimeraNum n t y x 1 k, chimeraNum n t y (x + 1) 1 k)] else [])

theorem chimeraEdges_coupled {m n t : Nat} {e : Nat × Nat} (h : e ∈ chimeraEdges m n t) : ChimeraCoupled m n t e.1 e.2 := by
  simp only [chimeraEdges, List.mem_flatMap, List.mem_range, List.mem_append, List.mem_map] at h
  obtain ⟨y, hy, x, hx, k, hk, (⟨k', hk', rfl⟩ | h) | h⟩ := h
  · exact .cell hy hx hk hk'
  · by_cases hc : y + 1 < m
    · rw [if_pos hc, List.mem_singleton] at h
      subst h; exact .vertical hc hx hk
    · rw [if_neg hc] at h; cases h
  · by_cases hc : x + 1 < n
    · rw [if_pos hc, List.mem_singleton] at h
      subst h; exact .horizontal hy hc hk
    · rw [if_neg hc] at h; cases h

/-- `chimera_graph(2, 2, 2)` without the coupler of 0 and 2. -/
def gridNodes : List Nat := List.range 16
def gridEdges : List (Nat × Nat) := (chimeraEdges 2 2 2).erase (0, 2)

theorem grid_wf : WFGraph (.chimera 2 2 2) gridNodes gridEdges := by
  refine ⟨show 2 ≤ 8 by decide, ?_, ?_, ?_⟩
  · intro q hq; rw [gridNodes, List.mem_range] at hq; show q < 2 * 2 * 2 * 2; omega
  · decide +kernel
  · intro e he
    exact .inl (chimeraEdges_coupled (List.mem_of_mem_erase he))

/-- The couplers of `zephyr_graph(d, t)`. -/
def zephyrEdges (d t : Nat) : List (Nat × Nat) :=
  let W := List.range (2 * d + 1)
  let K := List.range (2 * t)
  let Z := List.range d
  (W.flatMap fun w => K.flatMap fun k => Z.flatMap fun z => W.flatMap fun w' => K.flatMap fun k' => Z.flatMap fun z' =>
    if 2 * z + k % 2 ≤ w' ∧ w' < 2 * z + k % 2 + 2 ∧ 2 * z' + k' % 2 ≤ w ∧ w < 2 * z' + k' % 2 + 2 then [(zephyrNum d t 0 w k z, zephyrNum d t 1 w' k' z')] else []) ++
  ((List.range 2).flatMap fun u => W.flatMap fun w => K.flatMap fun k => Z.flatMap fun z =>
    if z + 1 < d then [(zephyrNum d t u w k z, zephyrNum d t u w k (z + 1))] else []) ++
  ((List.range 2).flatMap fun u => W.flatMap fun w => (List.range t).flatMap fun j => Z.flatMap fun z =>
    (zephyrNum d t u w (2 * j) z, zephyrNum d t u w (2 * j + 1) z) :: if z + 1 < d then [(zephyrNum d t u w (2 * j) (z + 1), zephyrNum d t u w (2 * j + 1) z)] else [])

theorem zephyrEdges_coupled {d t : Nat} {e : Nat × Nat} (h : e ∈ zephyrEdges d t) : ZephyrCoupled d t e.1 e.2 := by
  simp only [zephyrEdges, List.mem_flatMap, List.mem_range, List.mem_append, List.mem_cons] at h
  obtain (⟨w, hw, k, hk, z, hz, w', hw', k', hk', z', hz', h⟩ | ⟨u, hu, w, hw, k, hk, z, hz, h⟩) | ⟨u, hu, w, hw, j, hj, z, hz, rfl | h⟩ := h
  · split at h
    · rename_i hc
      rw [List.mem_singleton] at h
      subst h; exact .cross hw hk hz hw' hk' hz' hc.1 hc.2.1 hc.2.2.1 hc.2.2.2
    · cases h
  · split at h
    · rename_i hc
      rw [List.mem_singleton] at h
      subst h; exact .external hu hw hk hc
    · cases h
  · exact .odd hu hw hj hz
  · split at h
    · rename_i hc
      rw [List.mem_singleton] at h
      subst h; exact .odd' hu hw hj hc
    · cases h

/-- `zephyr_graph(2, 1)` without the qubits 6 and 11. -/
def tearNodes : List Nat := (List.range 40).filter fun q => q ≠ 6 ∧ q ≠ 11
def tearEdges : List (Nat × Nat) := (zephyrEdges 2 1).filter fun e => e.1 ∈ tearNodes ∧ e.2 ∈ tearNodes

theorem tear_wf : WFGraph (.zephyr 2 1) tearNodes tearEdges := by
  refine ⟨show 1 ≤ 4 by decide, ?_, ?_, ?_⟩
  · intro q hq
    have := List.mem_range.mp (List.mem_filter.mp hq).1
    show q < 4 * 1 * 2 * (2 * 2 + 1); omega
  · intro e he
    simpa using (List.mem_filter.mp he).2
  · intro e he
    exact .inl (zephyrEdges_coupled (List.mem_filter.mp he).1)

/-- Half the offsets of `pegasus_graph(d)`. -/
def pegasusOff (u : Bool) (i : Nat) : Nat :=
  match u, i / 2 with
  | false, 0 => 1
  | false, 1 => 5
  | false, _ => 3
  | true, 0 => 3
  | true, 1 => 1
  | true, _ => 5

/-- Three vertical qubits of `pegasus_graph(3)`, of which the first two follow one another and the first and third are a pair, and three horizontal
ones that cross them. -/
def pegNodes : List Nat := [pegasusNum 3 0 1 0 0, pegasusNum 3 0 1 0 1, pegasusNum 3 0 1 1 0, pegasusNum 3 1 1 0 0, pegasusNum 3 1 0 8 0, pegasusNum 3 1 1 2 0]

/-- All their couplers but one of the third qubit with the fifth. -/
def pegEdges : List (Nat × Nat) :=
  [(pegasusNum 3 0 1 0 0, pegasusNum 3 0 1 0 1), (pegasusNum 3 0 1 0 0, pegasusNum 3 0 1 1 0), (pegasusNum 3 0 1 0 0, pegasusNum 3 1 1 0 0), (pegasusNum 3 0 1 0 0, pegasusNum 3 1 0 8 0),
   (pegasusNum 3 0 1 0 1, pegasusNum 3 1 1 2 0), (pegasusNum 3 0 1 1 0, pegasusNum 3 1 1 0 0)]

theorem pegasusOff_lt (u : Bool) (i : Nat) : pegasusOff u i < 6 := by
  unfold pegasusOff; split <;> decide

theorem peg_wf : WFGraph (.pegasus 3 pegasusOff) pegNodes pegEdges := by
  refine ⟨pegasusOff_lt, ?_, by decide, ?_⟩
  · intro q hq
    have : ∀ q ∈ pegNodes, q < 24 * 3 * (3 - 1) := by decide
    exact this q hq
  · intro e he
    simp only [pegEdges, List.mem_cons, List.not_mem_nil, or_false] at he
    refine .inl ?_
    rcases he with rfl | rfl | rfl | rfl | rfl | rfl
    · exact .external (by decide) (by decide) (by decide) (by decide)
    · exact .odd (j := 0) (by decide) (by decide) (by decide) (by decide)
    all_goals exact .cross (by decide) (by decide) (by decide) (by decide) (by decide) (by decide) (by decide) (by decide) (by decide) (by decide)

end MM
