import Verif.Eden.BicliqueBest
import Verif.Props.Eden

/-! Native biclique embeddings in Chimera graphs (`eden_processor`). -/

namespace MM

open Eden
open Spec.Eden (Qb LinesWhole CellsWhole Path Touch Biclique Box LexLe HLine VLine)

/-- C88: `biclique` returns an embedding of a complete bipartite graph: the sides hold as many chains as there are horizontal and vertical unbroken lines across the
rectangle, and each chain runs all the way across. -/
theorem C88_valid (P : Proc) (hc : CellsWhole P.edges) (b : Box) (hb : b.Inside P.M P.N) :
    ∃ A B, P.biclique ⟨b.x0, b.x1, b.y0, b.y1⟩ = (A, B) ∧ Biclique P.edges A B ∧ (A.length, B.length) = b.lines P.edges P.L ∧
      (∀ c ∈ A, (c.length : Int) = b.width) ∧ ∀ c ∈ B, (c.length : Int) = b.height := by
  have h1 := biclique_sizes (P := P) (R := ⟨b.x0, b.x1, b.y0, b.y1⟩) hb
  have h2 := biclique_lens (P := P) ⟨b.x0, b.x1, b.y0, b.y1⟩ hb.2.1 hb.2.2.2.2.1
  exact ⟨_, _, rfl, biclique_valid hc _, Prod.ext h1.1 h1.2, h2.1, h2.2⟩

/-- All of the first column. -/
example : CellsWhole Demo.chip.edges ∧ (⟨0, 0, 0, 1⟩ : Box).Inside Demo.chip.M Demo.chip.N ∧ Demo.chip.biclique ⟨0, 0, 0, 1⟩ =
    ([[⟨0, 0, 0, 0⟩], [⟨0, 0, 0, 1⟩], [⟨0, 1, 0, 0⟩], [⟨0, 1, 0, 1⟩]], [[⟨0, 1, 1, 0⟩, ⟨0, 0, 1, 0⟩], [⟨0, 1, 1, 1⟩, ⟨0, 0, 1, 1⟩]]) :=
  ⟨Demo.chip_cells, by unfold Box.Inside; decide, by decide +kernel⟩

/-- C88, partial: `biclique_size` never exceeds the numbers of lines, and is these numbers if no coupler between working qubits of neighbouring cells is missing. -/
theorem C88_size_partial (P : Proc) (b : Box) (hb : b.Inside P.M P.N) :
    ∃ n m, P.bicliqueSize ⟨b.x0, b.x1, b.y0, b.y1⟩ = .ok (n, m) ∧ n ≤ (b.lines P.edges P.L).1 ∧ m ≤ (b.lines P.edges P.L).2 ∧
      (LinesWhole P.edges → (n, m) = b.lines P.edges P.L) := by
  obtain ⟨s, h1, h2, h3, h4⟩ := bicliqueSize_spec (P := P) (R := ⟨b.x0, b.x1, b.y0, b.y1⟩) hb
  exact ⟨s.1, s.2, h1, h2, h3, h4⟩

example : (⟨0, 0, 0, 1⟩ : Box).Inside Demo.chip.M Demo.chip.N ∧ LinesWhole Demo.chip.edges ∧ (Demo.chip.bicliqueSize ⟨0, 0, 0, 1⟩).toOption = some (4, 2) :=
  ⟨by unfold Box.Inside; decide, Demo.chip_lines, by decide +kernel⟩

/-- C88 is false with missing couplers between cells: the size says that there is no horizontal chain in this cell, but the biclique has two. -/
theorem C88_broken : CellsWhole Demo.torn.edges ∧ (⟨1, 1, 0, 0⟩ : Box).Inside Demo.torn.M Demo.torn.N ∧ (Demo.torn.bicliqueSize ⟨1, 1, 0, 0⟩).toOption = some (0, 2) ∧
    Demo.torn.biclique ⟨1, 1, 0, 0⟩ = ([[⟨1, 0, 0, 0⟩], [⟨1, 0, 0, 1⟩]], [[⟨1, 0, 1, 0⟩], [⟨1, 0, 1, 1⟩]]) :=
  ⟨Demo.torn_cells, by unfold Box.Inside; decide, by decide +kernel, by decide +kernel⟩

/-- C89: `largestNativeBiClique` returns an embedding of a complete bipartite graph whose chains respect the limits; or it raises `ValueError`, exactly if the limits allow no
rectangle. The score is at most the sizes. -/
theorem C89_valid (P : Proc) (hc : CellsWhole P.edges) (order : List (Nat × Nat) → List (Nat × Nat)) (ho : ∀ l, (order l).Perm l) (imbalance maxLength : Option Int) :
    ((∀ b : Box, b.Inside P.M P.N → ¬ b.Allowed maxLength imbalance) ∧ P.largestBi order imbalance maxLength = .error .value) ∨
    ∃ (b : Box) (n m : Nat) (A B : List (List Qb)), b.Inside P.M P.N ∧ b.Allowed maxLength imbalance ∧ P.largestBi order imbalance maxLength = .ok ((n, m), A, B) ∧
      Biclique P.edges A B ∧ (∀ c ∈ A, (c.length : Int) = b.width) ∧ (∀ c ∈ B, (c.length : Int) = b.height) ∧
      n ≤ m ∧ n ≤ min A.length B.length ∧ m ≤ max A.length B.length := by
  obtain ⟨sz, hsz, hsz'⟩ := exists_sizes P
  rcases largestBi_spec hsz ho imbalance maxLength with ⟨h1, h2⟩ | ⟨R, h1, h2, -⟩
  · exact .inl ⟨fun b hb ha => h1 ⟨b.x0, b.x1, b.y0, b.y1⟩ ⟨hb, ha⟩, h2⟩
  · obtain ⟨e1, e2⟩ := biclique_sizes h1.1
    obtain ⟨l1, l2⟩ := biclique_lens (P := P) R h1.1.2.1 h1.1.2.2.2.2.1
    obtain ⟨k1, k2, -⟩ := hsz' R h1.1
    refine .inr ⟨R.box, _, _, (P.biclique R).1, (P.biclique R).2, h1.1, h1.2, h2, biclique_valid hc R, l1, l2, ?_, ?_, ?_⟩ <;> omega

/-- C89, partial: if no coupler between working qubits is missing, the smaller side of the biclique of `largestNativeBiClique` is as large as possible, then the larger side
is, then the longer chains are as short as possible, then the shorter chains are; among the bicliques that consist of all lines across a rectangle and whose chains respect
the limits. The score is the sizes. -/
theorem C89_largest_partial (P : Proc) (hc : CellsWhole P.edges) (hl : LinesWhole P.edges) (order : List (Nat × Nat) → List (Nat × Nat)) (ho : ∀ l, (order l).Perm l)
    (imbalance maxLength : Option Int) :
    ((∀ b : Box, b.Inside P.M P.N → ¬ b.Allowed maxLength imbalance) ∧ P.largestBi order imbalance maxLength = .error .value) ∨
    ∃ (b : Box) (A B : List (List Qb)), b.Inside P.M P.N ∧ b.Allowed maxLength imbalance ∧
      P.largestBi order imbalance maxLength = .ok ((min A.length B.length, max A.length B.length), A, B) ∧
      Biclique P.edges A B ∧ (A.length, B.length) = b.lines P.edges P.L ∧ (∀ c ∈ A, (c.length : Int) = b.width) ∧ (∀ c ∈ B, (c.length : Int) = b.height) ∧
      ∀ b' : Box, b'.Inside P.M P.N → b'.Allowed maxLength imbalance → ∀ n m, (n, m) = b'.lines P.edges P.L →
        LexLe (min n m, max n m) (min A.length B.length, max A.length B.length) ∧
        ((min n m, max n m) = (min A.length B.length, max A.length B.length) → LexLe (max b.width b.height, min b.width b.height) (max b'.width b'.height, min b'.width b'.height)) := by
  obtain ⟨sz, hsz, hsz'⟩ := exists_sizes P
  rcases largestBi_spec hsz ho imbalance maxLength with ⟨h1, h2⟩ | ⟨R, h1, h2, h3⟩
  · exact .inl ⟨fun b hb ha => h1 ⟨b.x0, b.x1, b.y0, b.y1⟩ ⟨hb, ha⟩, h2⟩
  · obtain ⟨e1, e2⟩ := biclique_sizes h1.1
    obtain ⟨l1, l2⟩ := biclique_lens (P := P) R h1.1.2.1 h1.1.2.2.2.2.1
    obtain ⟨-, -, k3⟩ := hsz' R h1.1
    have e : sortedPair (sz R) = (min (P.biclique R).1.length (P.biclique R).2.length, max (P.biclique R).1.length (P.biclique R).2.length) := by
      rw [k3 hl, e1, e2]
      rfl
    rw [e] at h2 h3
    refine .inr ⟨R.box, _, _, h1.1, h1.2, h2, biclique_valid hc R, Prod.ext e1 e2, l1, l2, fun b' hb' ha' n m hnm => ?_⟩
    have := h3 ⟨b'.x0, b'.x1, b'.y0, b'.y1⟩ ⟨hb', ha'⟩
    rw [(hsz' ⟨b'.x0, b'.x1, b'.y0, b'.y1⟩ hb').2.2 hl] at this
    have eb : Rect.box ⟨b'.x0, b'.x1, b'.y0, b'.y1⟩ = b' := rfl
    rw [eb, ← hnm] at this
    exact this

/-- All of the chip; and no rectangle is allowed if chains may not have any qubits. -/
example : CellsWhole Demo.chip.edges ∧ LinesWhole Demo.chip.edges ∧ (Demo.chip.largestBi id (some 0) none).toOption =
    some ((4, 4), [[⟨0, 0, 0, 0⟩, ⟨1, 0, 0, 0⟩], [⟨0, 0, 0, 1⟩, ⟨1, 0, 0, 1⟩], [⟨0, 1, 0, 0⟩, ⟨1, 1, 0, 0⟩], [⟨0, 1, 0, 1⟩, ⟨1, 1, 0, 1⟩]],
      [[⟨0, 1, 1, 0⟩, ⟨0, 0, 1, 0⟩], [⟨0, 1, 1, 1⟩, ⟨0, 0, 1, 1⟩], [⟨1, 1, 1, 0⟩, ⟨1, 0, 1, 0⟩], [⟨1, 1, 1, 1⟩, ⟨1, 0, 1, 1⟩]]) ∧
    (Demo.chip.largestBi id (some 0) (some 0)).toOption = none := ⟨Demo.chip_cells, Demo.chip_lines, by decide +kernel, by decide +kernel⟩

/-- C89 is false with missing couplers between cells: a cell has two horizontal and two vertical qubits, but one and two are returned. -/
theorem C89_not_largest : CellsWhole Demo.torn.edges ∧ (∃ A B, Biclique Demo.torn.edges A B ∧ A.length = 2 ∧ B.length = 2 ∧ ∀ c ∈ A ++ B, c.length = 1) ∧
    ((Demo.torn.largestBi id (some 0) none).toOption.map fun r => (r.1, r.2.1.length, r.2.2.length)) = some ((1, 2), 2, 1) := by
  refine ⟨Demo.torn_cells, ⟨_, _, biclique_valid Demo.torn_cells ⟨1, 1, 0, 0⟩, by decide +kernel, by decide +kernel, by decide +kernel⟩, by decide +kernel⟩

/-- C90: `tightestNativeBiClique` returns sides with exactly `n` and `m` chains that embed a complete bipartite graph; its chains respect the limits. Otherwise it returns
nothing. -/
theorem C90_valid (P : Proc) (hc : CellsWhole P.edges) (order : List (Nat × Nat) → List (Nat × Nat)) (ho : ∀ l, (order l).Perm l) (n m : Nat) (imbalance maxLength : Option Int) :
    P.tightestBi order n (some m) imbalance maxLength = .ok none ∨
    ∃ (b : Box) (s : Nat × Nat) (A B : List (List Qb)), b.Inside P.M P.N ∧ b.Allowed maxLength imbalance ∧ P.tightestBi order n (some m) imbalance maxLength = .ok (some (s, A, B)) ∧
      Biclique P.edges A B ∧ A.length = n ∧ B.length = m ∧
      (((∀ c ∈ A, (c.length : Int) = b.width) ∧ ∀ c ∈ B, (c.length : Int) = b.height) ∨ ((∀ c ∈ A, (c.length : Int) = b.height) ∧ ∀ c ∈ B, (c.length : Int) = b.width)) := by
  obtain ⟨sz, hsz, hsz'⟩ := exists_sizes P
  rcases tightestBi_spec hsz ho n m imbalance maxLength with ⟨-, h2⟩ | ⟨R, A, B, h1, -, h2, h3, -⟩
  · exact .inl h2
  · obtain ⟨e1, e2⟩ := biclique_sizes h1.1
    obtain ⟨l1, l2⟩ := biclique_lens (P := P) R h1.1.2.1 h1.1.2.2.2.2.1
    obtain ⟨k1, k2, -⟩ := hsz' R h1.1
    refine .inr ⟨R.box, _, A, B, h1.1, h1.2, h2, ?_⟩
    rcases h3 with ⟨a1, a2, rfl, rfl⟩ | ⟨a1, a2, rfl, rfl⟩
    · refine ⟨biclique_take (biclique_swap (biclique_valid hc R)) _ _, ?_, ?_, .inr ⟨fun c h => l2 c (List.mem_of_mem_take h), fun c h => l1 c (List.mem_of_mem_take h)⟩⟩
      · rw [List.length_take]
        omega
      · rw [List.length_take]
        omega
    · refine ⟨biclique_take (biclique_valid hc R) _ _, ?_, ?_, .inl ⟨fun c h => l1 c (List.mem_of_mem_take h), fun c h => l2 c (List.mem_of_mem_take h)⟩⟩
      · rw [List.length_take]
        omega
      · rw [List.length_take]
        omega

/-- C90, partial: if no coupler between working qubits is missing, the longer chains of the biclique of `tightestNativeBiClique` are as short as possible, then the shorter
chains are, among the bicliques of lines across a rectangle whose chains respect the limits; nothing is returned exactly if there are none with sides of `n` and `m`. -/
theorem C90_tightest_partial (P : Proc) (hc : CellsWhole P.edges) (hl : LinesWhole P.edges) (order : List (Nat × Nat) → List (Nat × Nat)) (ho : ∀ l, (order l).Perm l)
    (n m : Nat) (imbalance maxLength : Option Int) :
    ((∀ b : Box, b.Inside P.M P.N → b.Allowed maxLength imbalance → ¬ b.Holds P.edges P.L n m) ∧ P.tightestBi order n (some m) imbalance maxLength = .ok none) ∨
    ∃ (b : Box) (s : Nat × Nat) (A B : List (List Qb)), b.Inside P.M P.N ∧ b.Allowed maxLength imbalance ∧ P.tightestBi order n (some m) imbalance maxLength = .ok (some (s, A, B)) ∧
      s = b.lines P.edges P.L ∧ Biclique P.edges A B ∧ A.length = n ∧ B.length = m ∧
      (((∀ c ∈ A, (c.length : Int) = b.width) ∧ ∀ c ∈ B, (c.length : Int) = b.height) ∨ ((∀ c ∈ A, (c.length : Int) = b.height) ∧ ∀ c ∈ B, (c.length : Int) = b.width)) ∧
      ∀ b' : Box, b'.Inside P.M P.N → b'.Allowed maxLength imbalance → b'.Holds P.edges P.L n m →
        LexLe (max b.width b.height, min b.width b.height) (max b'.width b'.height, min b'.width b'.height) := by
  obtain ⟨sz, hsz, hsz'⟩ := exists_sizes P
  rcases tightestBi_spec hsz ho n m imbalance maxLength with ⟨h1, h2⟩ | ⟨R, A, B, h1, -, h2, h3, h4⟩
  · refine .inl ⟨fun b hb ha hh => h1 ⟨b.x0, b.x1, b.y0, b.y1⟩ ⟨hb, ha⟩ ?_, h2⟩
    rw [(hsz' ⟨b.x0, b.x1, b.y0, b.y1⟩ hb).2.2 hl]
    exact hh.symm
  · obtain ⟨e1, e2⟩ := biclique_sizes h1.1
    obtain ⟨l1, l2⟩ := biclique_lens (P := P) R h1.1.2.1 h1.1.2.2.2.2.1
    obtain ⟨-, -, k3⟩ := hsz' R h1.1
    rw [k3 hl] at h2 h3
    refine .inr ⟨R.box, _, A, B, h1.1, h1.2, h2, rfl, ?_⟩
    have best : ∀ b' : Box, b'.Inside P.M P.N → b'.Allowed maxLength imbalance → b'.Holds P.edges P.L n m →
        LexLe (max R.box.width R.box.height, min R.box.width R.box.height) (max b'.width b'.height, min b'.width b'.height) := by
      intro b' hb' ha' hh
      refine h4 ⟨b'.x0, b'.x1, b'.y0, b'.y1⟩ ⟨hb', ha'⟩ ?_
      rw [(hsz' ⟨b'.x0, b'.x1, b'.y0, b'.y1⟩ hb').2.2 hl]
      exact hh.symm
    rcases h3 with ⟨a1, a2, rfl, rfl⟩ | ⟨a1, a2, rfl, rfl⟩
    · refine ⟨biclique_take (biclique_swap (biclique_valid hc R)) _ _, ?_, ?_, .inr ⟨fun c h => l2 c (List.mem_of_mem_take h), fun c h => l1 c (List.mem_of_mem_take h)⟩, best⟩
      · rw [List.length_take]
        omega
      · rw [List.length_take]
        omega
    · refine ⟨biclique_take (biclique_valid hc R) _ _, ?_, ?_, .inl ⟨fun c h => l1 c (List.mem_of_mem_take h), fun c h => l2 c (List.mem_of_mem_take h)⟩, best⟩
      · rw [List.length_take]
        omega
      · rw [List.length_take]
        omega

/-- C90: without `m` both sides have `n` chains. -/
theorem C90_square (P : Proc) (order : List (Nat × Nat) → List (Nat × Nat)) (n : Nat) (imbalance maxLength : Option Int) :
    P.tightestBi order n none imbalance maxLength = P.tightestBi order n (some n) imbalance maxLength := rfl

/-- Three chains on each side take the whole chip; five are not there. -/
example : CellsWhole Demo.chip.edges ∧ LinesWhole Demo.chip.edges ∧
    ((Demo.chip.tightestBi id 3 none (some 0) none).toOption.map fun r => r.map fun r => (r.1, r.2.1.length, r.2.2.length)) = some (some ((4, 4), 3, 3)) ∧
    (Demo.chip.tightestBi id 5 none (some 0) none).toOption = some none := ⟨Demo.chip_cells, Demo.chip_lines, by decide +kernel, by decide +kernel⟩

/-- C90: the score is the size of another biclique, not the smaller and the larger of `n` and `m` as documented. -/
theorem C90_score : ∃ A B, (Demo.chip.tightestBi id 1 (some 2) (some 0) none).toOption = some (some ((2, 2), A, B)) ∧ A.length = 1 ∧ B.length = 2 :=
  ⟨[[⟨1, 1, 1, 0⟩]], [[⟨1, 1, 0, 0⟩], [⟨1, 1, 0, 1⟩]], by decide +kernel, rfl, rfl⟩

/-- C90 is false with missing couplers between cells: a biclique with two chains of one qubit on each side is there, but nothing is returned. -/
theorem C90_missed : CellsWhole Demo.torn.edges ∧ (∃ A B, Biclique Demo.torn.edges A B ∧ A.length = 2 ∧ B.length = 2 ∧ ∀ c ∈ A ++ B, c.length = 1) ∧
    (Demo.torn.tightestBi id 2 none (some 0) none).toOption = some none :=
  ⟨Demo.torn_cells, C89_not_largest.2.1, by decide +kernel⟩

end MM
