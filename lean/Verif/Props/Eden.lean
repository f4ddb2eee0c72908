import Verif.Eden.Cliques

/-! Native clique embeddings in Chimera graphs (`eden_processor`). -/

namespace MM

open Eden
open Spec.Eden (Qb Ell Joined Works HLine VLine hLines vLines LinesWhole CellsWhole Path Touch Clique Native)

namespace Eden

/-- A check for `CellsWhole`. -/
def Proc.cellsOk (P : Proc) : Bool :=
  (P.edges.flatMap fun e => [e.1, e.2]).all fun p => (P.edges.flatMap fun e => [e.1, e.2]).all fun q =>
    if p.x = q.x ∧ p.y = q.y ∧ p.u = 0 ∧ q.u = 1 then P.joined p q else true

theorem mem_nodes {E : List (Qb × Qb)} {q : Qb} (h : Works E q) : q ∈ E.flatMap fun e => [e.1, e.2] := by
  obtain ⟨p, h | h⟩ := h
  · exact List.mem_flatMap.mpr ⟨_, h, by simp⟩
  · exact List.mem_flatMap.mpr ⟨_, h, by simp⟩

theorem Proc.cells_of_check {P : Proc} (h : P.cellsOk = true) : CellsWhole P.edges := by
  intro x y k l h1 h2
  have := List.all_eq_true.mp (List.all_eq_true.mp h _ (mem_nodes h1)) _ (mem_nodes h2)
  rw [if_pos ⟨rfl, rfl, rfl, rfl⟩] at this
  exact P.joined_iff.mp this

/-- A check for `LinesWhole`. -/
def Proc.linesOk (P : Proc) : Bool :=
  (P.edges.flatMap fun e => [e.1, e.2]).all fun p => (P.edges.flatMap fun e => [e.1, e.2]).all fun q =>
    if p.k = q.k ∧ ((q.x = p.x + 1 ∧ p.y = q.y ∧ p.u = 0 ∧ q.u = 0) ∨ (q.x = p.x ∧ q.y = p.y + 1 ∧ p.u = 1 ∧ q.u = 1)) then P.joined p q else true

theorem Proc.lines_of_check {P : Proc} (h : P.linesOk = true) : LinesWhole P.edges := by
  refine ⟨fun x y k h1 h2 => ?_, fun x y k h1 h2 => ?_⟩
  · have := List.all_eq_true.mp (List.all_eq_true.mp h _ (mem_nodes h1)) _ (mem_nodes h2)
    rw [if_pos ⟨rfl, .inl ⟨rfl, rfl, rfl, rfl⟩⟩] at this
    exact P.joined_iff.mp this
  · have := List.all_eq_true.mp (List.all_eq_true.mp h _ (mem_nodes h1)) _ (mem_nodes h2)
    rw [if_pos ⟨rfl, .inr ⟨rfl, rfl, rfl, rfl⟩⟩] at this
    exact P.joined_iff.mp this

end Eden

namespace Demo

/-- The first of the numbers that `randint` may return; nothing is shuffled. -/
def luck : Luck := ⟨fun _ _ _ => 1, fun _ _ _ l => l⟩

theorem luck_fair : luck.Fair := ⟨fun _ _ _ h => ⟨le_refl _, h⟩, fun _ _ _ _ => List.Perm.refl _⟩

/-- Chimera graph with columns `xs` (where vertical qubits work: `vs`), rows `ys` and `L` qubits in each side of a cell. -/
def grid (M N L : Nat) (vs : List Nat) : List (Qb × Qb) :=
  (List.range M).flatMap fun (x : Nat) => (List.range N).flatMap fun (y : Nat) => (List.range L).flatMap fun (k : Nat) =>
    (if x ∈ vs then (List.range L).map fun (l : Nat) => ((⟨x, y, 0, k⟩ : Qb), (⟨x, y, 1, l⟩ : Qb)) else []) ++
    (if x + 1 < M then [(⟨x, y, 0, k⟩, ⟨(x + 1 : Nat), y, 0, k⟩)] else []) ++
    (if y + 1 < N ∧ x ∈ vs then [(⟨x, y, 1, k⟩, ⟨x, (y + 1 : Nat), 1, k⟩)] else [])

/-- Two by two cells with two qubits in each side. -/
def chip : Proc := ⟨grid 2 2 2 [0, 1], 2, 2, 2⟩

theorem chip_cells : CellsWhole chip.edges := Proc.cells_of_check (by decide +kernel)

theorem chip_lines : LinesWhole chip.edges := Proc.lines_of_check (by decide +kernel)

/-- Two cells in a row; both couplers between them are missing, and one vertical qubit of the first. -/
def torn : Proc := ⟨[(⟨0, 0, 0, 0⟩, ⟨0, 0, 1, 0⟩), (⟨0, 0, 0, 1⟩, ⟨0, 0, 1, 0⟩), (⟨1, 0, 0, 0⟩, ⟨1, 0, 1, 0⟩), (⟨1, 0, 0, 0⟩, ⟨1, 0, 1, 1⟩),
  (⟨1, 0, 0, 1⟩, ⟨1, 0, 1, 0⟩), (⟨1, 0, 0, 1⟩, ⟨1, 0, 1, 1⟩)], 2, 1, 2⟩

theorem torn_cells : CellsWhole torn.edges := Proc.cells_of_check (by decide +kernel)

/-- Four columns and three rows with one qubit in each side; the third column has no vertical qubits. -/
def hollow : Proc := ⟨grid 4 3 1 [0, 1, 3], 4, 3, 1⟩

theorem hollow_cells : CellsWhole hollow.edges := Proc.cells_of_check (by decide +kernel)

theorem hollow_lines : LinesWhole hollow.edges := Proc.lines_of_check (by decide +kernel)

end Demo

/-- C83, partial: scores never exceed the number of unbroken lines, and are that number for lines of two or more cells, and everywhere if no coupler between working qubits of
neighbouring cells is missing. -/
theorem C83_lines_partial (P : Proc) :
    (∀ y a b : Int, 0 ≤ y → y < P.N → 0 ≤ a → a ≤ b → b < P.M →
      ∃ n, P.hscore y a b = .ok n ∧ n ≤ hLines P.edges P.L y a b ∧ ((a < b ∨ LinesWhole P.edges) → n = hLines P.edges P.L y a b)) ∧
    ∀ x a b : Int, 0 ≤ x → x < P.M → 0 ≤ a → a ≤ b → b < P.N →
      ∃ n, P.vscore x a b = .ok n ∧ n ≤ vLines P.edges P.L x a b ∧ ((a < b ∨ LinesWhole P.edges) → n = vLines P.edges P.L x a b) :=
  ⟨fun _ _ _ h1 h2 h3 h4 h5 => hscore_spec ⟨h1, h2⟩ h3 h4 h5, fun _ _ _ h1 h2 h3 h4 h5 => vscore_spec ⟨h1, h2⟩ h3 h4 h5⟩

/-- Two unbroken lines through two cells. -/
example : (Demo.chip.hscore 0 0 1).toOption = some 2 ∧ (Demo.chip.vscore 1 0 0).toOption = some 2 := by decide +kernel

/-- C83: outside of the grid there is no score. -/
theorem C83_outside (P : Proc) (y a b : Int) (h : y < 0 ∨ (P.N : Int) ≤ y ∨ a < 0 ∨ b < a ∨ (P.M : Int) ≤ b) : P.hscore y a b = .error .key := by
  unfold Proc.hscore
  rw [if_neg (by omega)]

example : ((Demo.chip.M : Int) ≤ 2) := by decide

/-- C83 is false for single cells: the two horizontal qubits of a cell work, but a missing coupler to the cell before makes them count for nothing. -/
theorem C83_broken : (Demo.torn.hscore 0 1 1).toOption = some 0 ∧ hLines Demo.torn.edges Demo.torn.L 0 1 1 = 2 := by
  refine ⟨by decide +kernel, ?_⟩
  have line : ∀ k : Nat, k < 2 → HLine Demo.torn.edges 0 1 1 k := by
    intro k hk
    refine ⟨fun x h1 h2 => ?_, fun x h1 h2 => by omega⟩
    rw [show x = 1 by omega]
    refine Proc.has_iff.mp ?_
    rcases (show k = 0 ∨ k = 1 by omega) with rfl | rfl <;> decide +kernel
  unfold hLines
  refine (List.countP_eq_length.mpr fun k hk => ?_).trans rfl
  simp only [decide_eq_true_eq]
  exact line k (List.mem_range.mp hk)

/-- C84: if only couplers between different cells are missing among those of working qubits, `nativeCliqueEmbed` returns an embedding of a complete graph; all chains are
paths of `width + 1` qubits, and the score is at most their number. -/
theorem C84_valid (P : Proc) (hc : CellsWhole P.edges) (rnd : Nat → Nat → Nat) (hr : ∀ i n, 1 ≤ n → 1 ≤ rnd i n ∧ rnd i n ≤ n)
    (mix : Ell → Bool → List (List Qb) → List (List Qb)) (hm : ∀ e b l, (mix e b l).Perm l) (width : Nat) :
    ∃ score chains, P.native rnd mix width = .ok (score, chains) ∧ Clique P.edges chains ∧ (∀ c ∈ chains, c.length = width + 1) ∧ ∀ m, score = some m → m ≤ chains.length := by
  obtain ⟨r, h1, h2⟩ := native_result (P := P) hr hm width
  exact ⟨r.1, r.2, h1, h2.clique hc, h2.len, fun m h => (h2.score m h).1⟩

/-- A clique of four chains of three qubits. -/
example : CellsWhole Demo.chip.edges ∧ Demo.luck.Fair ∧ (Demo.chip.native (Demo.luck.rnd 2) (Demo.luck.mix 2) 2).toOption =
    some (some 4, [[⟨1, 1, 1, 0⟩, ⟨1, 1, 0, 0⟩, ⟨0, 1, 0, 0⟩], [⟨1, 1, 1, 1⟩, ⟨1, 1, 0, 1⟩, ⟨0, 1, 0, 1⟩], [⟨0, 1, 1, 0⟩, ⟨0, 0, 1, 0⟩, ⟨0, 0, 0, 0⟩],
      [⟨0, 1, 1, 1⟩, ⟨0, 0, 1, 1⟩, ⟨0, 0, 0, 1⟩]]) := ⟨Demo.chip_cells, Demo.luck_fair, by decide +kernel⟩

/-- C84: `largestNativeClique`, if it returns. -/
theorem C84_largest (P : Proc) (hc : CellsWhole P.edges) (K : Luck) (hK : K.Fair) (maxLength : Option Nat) (score : Option Nat) (chains : List (List Qb))
    (h : P.largest K maxLength = .ok (score, chains)) : Clique P.edges chains ∧ ∃ n, ∀ c ∈ chains, c.length = n := by
  have key : ∀ l : Nat, (List.range l).foldlM (P.improve K) (none, []) = .ok (score, chains) → Clique P.edges chains ∧ ∃ n, ∀ c ∈ chains, c.length = n := by
    intro l h
    by_cases hl : l ≤ P.M + P.N ∨ P.M = 0 ∨ P.N = 0
    · obtain ⟨b, h1, h2⟩ := largest_inv (P := P) hK l hl
      rw [h1] at h
      cases h
      obtain ⟨n, -, hn, -⟩ := h2.len
      exact ⟨h2.clique hc, n, hn⟩
    · rw [largest_type hK (by omega) (by omega) l (by omega)] at h
      cases h
  unfold Proc.largest at h
  exact key _ h

example : (Demo.chip.largest Demo.luck none).toOption.map Prod.fst = some (some 4) := by decide +kernel

/-- C84: `tightestNativeClique`. -/
theorem C84_tightest (P : Proc) (hc : CellsWhole P.edges) (K : Luck) (hK : K.Fair) (n : Nat) (hn : 1 ≤ n) :
    ∃ score chains, P.tightest K n = .ok (score, chains) ∧ Clique P.edges chains ∧ (chains.length = n ∨ (score = none ∧ chains = [])) := by
  obtain ⟨r, h1, h2, h3⟩ := tightest_spec (P := P) hK n hn (List.range' 1 (min P.M P.N))
  refine ⟨r.1, r.2, h1, h2 hc, ?_⟩
  rcases h3 with h | h
  · exact .inl h.1
  · rw [h.1]
    exact .inr ⟨rfl, rfl⟩

example : (Demo.chip.tightest Demo.luck 3).toOption =
    some (some 4, [[⟨1, 1, 1, 0⟩, ⟨1, 1, 0, 0⟩, ⟨0, 1, 0, 0⟩], [⟨1, 1, 1, 1⟩, ⟨1, 1, 0, 1⟩, ⟨0, 1, 0, 1⟩], [⟨0, 1, 1, 0⟩, ⟨0, 0, 1, 0⟩, ⟨0, 0, 0, 0⟩]]) := by decide +kernel

/-- C85: if no coupler between working qubits of neighbouring cells is missing, no native clique with chains of `width + 1` qubits has more chains than the one returned, and
the score is its number of chains; the score is `None` exactly if no such chains fit in the grid. -/
theorem C85_optimal (P : Proc) (hl : LinesWhole P.edges) (rnd : Nat → Nat → Nat) (hr : ∀ i n, 1 ≤ n → 1 ≤ rnd i n ∧ rnd i n ≤ n)
    (mix : Ell → Bool → List (List Qb) → List (List Qb)) (hm : ∀ e b l, (mix e b l).Perm l) (width : Nat) :
    ∃ score chains, P.native rnd mix width = .ok (score, chains) ∧ (∀ es, Native P.M P.N (width + 1) es → Spec.Eden.size P.edges P.L es ≤ chains.length) ∧
      (score = none ↔ ¬ (1 ≤ P.M ∧ 1 ≤ P.N ∧ 1 ≤ width ∧ width + 1 ≤ P.M + P.N)) ∧ (∀ m, score = some m → m = chains.length) ∧ (score = none → chains = []) := by
  obtain ⟨r, h1, h2⟩ := native_result (P := P) hr hm width
  exact ⟨r.1, r.2, h1, h2.best hl, h2.none_iff, fun m h => (h2.score m h).2 hl, h2.empty⟩

example : LinesWhole Demo.hollow.edges ∧ (Demo.hollow.native (Demo.luck.rnd 4) (Demo.luck.mix 4) 4).toOption.map Prod.fst = some (some 3) :=
  ⟨Demo.hollow_lines, by decide +kernel⟩

/-- C85: every native clique counted there is one: its blocks hold that many chains, which make a clique. -/
theorem C85_counted (E : List (Qb × Qb)) (hc : CellsWhole E) (M N L n : Nat) (es : List Ell) (hn : Native M N n es) :
    ∃ chains, Clique E chains ∧ chains.length = Spec.Eden.size E L es ∧ ∀ c ∈ chains, c.length = n := by
  have hm : ∀ e : Ell, Mixes ((fun _ _ l => l : Ell → Bool → List (List Qb) → List (List Qb)) e) := fun _ _ l => List.Perm.refl l
  refine ⟨es.flatMap fun e => (⟨E, M, N, L⟩ : Proc).bundle (fun _ l => l) e, blocks_clique (P := ⟨E, M, N, L⟩) hm hc hn.next, blocks_length (P := ⟨E, M, N, L⟩) hm es,
    fun c h => ?_⟩
  obtain ⟨e, he, h⟩ := List.mem_flatMap.mp h
  have h1 := chain_length (P := ⟨E, M, N, L⟩) (hm e) h
  have h2 := hn.len e he
  omega

/-- Two blocks. -/
example : CellsWhole Demo.chip.edges ∧ Native 2 2 3 [⟨0, 1, 0, 0⟩, ⟨1, 1, 1, 0⟩] := by
  refine ⟨Demo.chip_cells, ⟨?_, ?_, ?_, ?_⟩⟩
  · rw [List.isChain_cons_cons]
    refine ⟨⟨fun c => ?_, fun r => ?_, ?_⟩, List.isChain_singleton _⟩
    · simp only [Ell.InCols]; omega
    · simp only [Ell.InRows]; omega
    · simp only [Ell.InRows]; omega
  · intro e he c hc
    simp only [List.mem_cons, List.not_mem_nil, or_false] at he
    rcases he with rfl | rfl <;> simp only [Ell.InCols] at hc <;> omega
  · intro e he c hc
    simp only [List.mem_cons, List.not_mem_nil, or_false] at he
    rcases he with rfl | rfl <;> simp only [Ell.InRows] at hc <;> omega
  · intro e he
    simp only [List.mem_cons, List.not_mem_nil, or_false] at he
    rcases he with rfl | rfl <;> decide

/-- The longest chains that `largestNativeClique` looks at. -/
def maxLen (P : Proc) : Option Nat → Nat
  | none => min P.M P.N + 1
  | some l => l

/-- C86, partial: if no coupler between working qubits is missing and the limit is at most the number of rows and columns, `largestNativeClique` returns a largest native
clique among those with chains of at most the given length (by default, one more than the smaller number of rows or columns), and no native clique of the same size has
shorter chains. -/
theorem C86_largest_partial (P : Proc) (hc : CellsWhole P.edges) (hl : LinesWhole P.edges) (K : Luck) (hK : K.Fair) (maxLength : Option Nat)
    (hb : ∀ l, maxLength = some l → l ≤ P.M + P.N) :
    ∃ score chains, P.largest K maxLength = .ok (score, chains) ∧ Clique P.edges chains ∧ (∀ m, score = some m → m = chains.length) ∧
      (∀ n ≤ maxLen P maxLength, ∀ es, Native P.M P.N n es → Spec.Eden.size P.edges P.L es ≤ chains.length) ∧
      ∃ n ≤ maxLen P maxLength, (∀ c ∈ chains, c.length = n) ∧ ∀ n' < n, ∀ es, Native P.M P.N n' es → Spec.Eden.size P.edges P.L es < chains.length := by
  have key : maxLen P maxLength ≤ P.M + P.N ∨ P.M = 0 ∨ P.N = 0 := by
    cases maxLength with
    | none =>
      have : maxLen P none = min P.M P.N + 1 := rfl
      omega
    | some l => exact .inl (hb l rfl)
  obtain ⟨b, h1, h2⟩ := largest_inv (P := P) hK (maxLen P maxLength) key
  obtain ⟨n, n1, n2, n3⟩ := h2.len
  refine ⟨b.1, b.2, ?_, h2.clique hc, fun m h => (h2.score m h).2 hl, h2.best hl, n, n1, n2, n3 hl⟩
  unfold Proc.largest
  cases maxLength <;> exact h1

example : CellsWhole Demo.chip.edges ∧ LinesWhole Demo.chip.edges ∧ (Demo.chip.largest Demo.luck (some 4)).toOption.map Prod.fst = some (some 4) :=
  ⟨Demo.chip_cells, Demo.chip_lines, by decide +kernel⟩

/-- C86: a limit above the number of rows and columns makes `largestNativeClique` raise. -/
theorem C86_type_error (P : Proc) (hM : 1 ≤ P.M) (hN : 1 ≤ P.N) (K : Luck) (hK : K.Fair) (l : Nat) (hl : P.M + P.N < l) : P.largest K (some l) = .error .type :=
  largest_type hK hM hN l hl

example : 1 ≤ Demo.chip.M ∧ 1 ≤ Demo.chip.N ∧ Demo.chip.M + Demo.chip.N < 5 := by decide

/-- C86 is false with missing couplers between cells, although only those inside of cells are excluded: there are two chains of two qubits in one cell, but a single one is
returned. -/
theorem C86_not_largest : CellsWhole Demo.torn.edges ∧ Clique Demo.torn.edges [[⟨1, 0, 1, 0⟩, ⟨1, 0, 0, 0⟩], [⟨1, 0, 1, 1⟩, ⟨1, 0, 0, 1⟩]] ∧
    ((Demo.torn.largest Demo.luck none).toOption.map fun r => r.2.length) = some 1 := by
  refine ⟨Demo.torn_cells, ⟨?_, by decide, ?_⟩, by decide +kernel⟩
  · intro c hc
    simp only [List.mem_cons, List.not_mem_nil, or_false] at hc
    rcases hc with rfl | rfl
    · refine ⟨by decide, by decide, fun q hq => (Proc.has_iff (P := Demo.torn)).mp ?_, ?_⟩
      · simp only [List.mem_cons, List.not_mem_nil, or_false] at hq
        rcases hq with rfl | rfl <;> decide +kernel
      · rw [List.isChain_cons_cons]
        exact ⟨(Proc.joined_iff (P := Demo.torn)).mp (by decide +kernel), List.isChain_singleton _⟩
    · refine ⟨by decide, by decide, fun q hq => (Proc.has_iff (P := Demo.torn)).mp ?_, ?_⟩
      · simp only [List.mem_cons, List.not_mem_nil, or_false] at hq
        rcases hq with rfl | rfl <;> decide +kernel
      · rw [List.isChain_cons_cons]
        exact ⟨(Proc.joined_iff (P := Demo.torn)).mp (by decide +kernel), List.isChain_singleton _⟩
  · refine List.pairwise_pair.mpr ⟨⟨1, 0, 1, 0⟩, by simp, ⟨1, 0, 0, 1⟩, by simp, (Proc.joined_iff (P := Demo.torn)).mp (by decide +kernel)⟩

/-- C86: without a limit the longest native cliques are left out: in this graph, which misses no coupler between working qubits, chains of five qubits give a clique of
three, but one of two is returned. -/
theorem C86_short_by_default : CellsWhole Demo.hollow.edges ∧ LinesWhole Demo.hollow.edges ∧
    (∃ chains, Clique Demo.hollow.edges chains ∧ chains.length = 3 ∧ ∀ c ∈ chains, c.length = 5) ∧
    ((Demo.hollow.largest Demo.luck none).toOption.map fun r => r.2.length) = some 2 := by
  refine ⟨Demo.hollow_cells, Demo.hollow_lines, ?_, by decide +kernel⟩
  obtain ⟨r, h1, h2⟩ := native_result (P := Demo.hollow) (Demo.luck_fair.rolls 4) (Demo.luck_fair.mixes 4) 4
  have h3 : ((Demo.hollow.native (Demo.luck.rnd 4) (Demo.luck.mix 4) 4).toOption.map fun r => r.2.length) = some 3 := by decide +kernel
  rw [h1] at h3
  exact ⟨r.2, h2.clique Demo.hollow_cells, Option.some.inj h3, h2.len⟩

/-- C87, partial: if no coupler between working qubits is missing, `tightestNativeClique` returns `n` chains as short as possible, or nothing if no native clique with chains
of at most one qubit more than the smaller number of rows or columns has `n` chains. -/
theorem C87_tightest_partial (P : Proc) (hc : CellsWhole P.edges) (hl : LinesWhole P.edges) (K : Luck) (hK : K.Fair) (n : Nat) (hn : 1 ≤ n) :
    ∃ score chains, P.tightest K n = .ok (score, chains) ∧ Clique P.edges chains ∧
      ((chains.length = n ∧ ∃ l ≤ min P.M P.N + 1, (∀ c ∈ chains, c.length = l) ∧ ∀ l' < l, ∀ es, Native P.M P.N l' es → Spec.Eden.size P.edges P.L es < n) ∨
       (score = none ∧ chains = [] ∧ ∀ l ≤ min P.M P.N + 1, ∀ es, Native P.M P.N l es → Spec.Eden.size P.edges P.L es < n)) := by
  obtain ⟨r, h1, h2, h3⟩ := tightest_spec (P := P) hK n hn (List.range' 1 (min P.M P.N))
  have short : ∀ l < 2, ∀ es, Native P.M P.N l es → Spec.Eden.size P.edges P.L es < n := by
    intro l hl' es hes
    rw [size_zero hl' hes]
    exact hn
  refine ⟨r.1, r.2, h1, h2 hc, ?_⟩
  rcases h3 with ⟨k1, pre, w, post, k2, k3, k4⟩ | ⟨k1, k2⟩
  · have hw : w ≤ min P.M P.N := by
      have : w ∈ List.range' 1 (min P.M P.N) := by rw [k2]; simp
      rw [List.mem_range'_1] at this
      omega
    refine .inl ⟨k1, w + 1, by omega, k3, fun l' hl' es hes => ?_⟩
    by_cases h : l' < 2
    · exact short l' h es hes
    · refine k4 hl (l' - 1) ?_ es (by rw [show l' - 1 + 1 = l' by omega]; exact hes)
      have hmem : l' - 1 ∈ pre ++ w :: post := by
        rw [← k2, List.mem_range'_1]
        omega
      have hs : (pre ++ w :: post).Pairwise (· < ·) := k2 ▸ List.pairwise_lt_range'
      rcases List.mem_append.mp hmem with h' | h'
      · exact h'
      · rcases List.mem_cons.mp h' with h' | h'
        · omega
        · have := List.rel_of_pairwise_cons (List.pairwise_append.mp hs).2.1 h'
          omega
  · rw [k1]
    refine .inr ⟨rfl, rfl, fun l' hl' es hes => ?_⟩
    by_cases h : l' < 2
    · exact short l' h es hes
    · refine k2 hl (l' - 1) ?_ es (by rw [show l' - 1 + 1 = l' by omega]; exact hes)
      rw [List.mem_range'_1]
      omega

example : CellsWhole Demo.chip.edges ∧ LinesWhole Demo.chip.edges ∧ Demo.luck.Fair ∧ ((Demo.chip.tightest Demo.luck 3).toOption.map fun r => r.2.map List.length) = some [3, 3, 3] :=
  ⟨Demo.chip_cells, Demo.chip_lines, Demo.luck_fair, by decide +kernel⟩

/-- The score is that of a larger clique. -/
theorem C87_score : ∃ chains, (Demo.chip.tightest Demo.luck 3).toOption = some (some 4, chains) ∧ chains.length = 3 :=
  ⟨[[⟨1, 1, 1, 0⟩, ⟨1, 1, 0, 0⟩, ⟨0, 1, 0, 0⟩], [⟨1, 1, 1, 1⟩, ⟨1, 1, 0, 1⟩, ⟨0, 1, 0, 1⟩], [⟨0, 1, 1, 0⟩, ⟨0, 0, 1, 0⟩, ⟨0, 0, 0, 0⟩]], by decide +kernel, rfl⟩

/-- C87: a clique of three exists, none is returned. -/
theorem C87_missed : (∃ chains, Clique Demo.hollow.edges chains ∧ chains.length = 3 ∧ ∀ c ∈ chains, c.length = 5) ∧
    (Demo.hollow.tightest Demo.luck 3).toOption = some (none, []) := ⟨C86_short_by_default.2.2.1, by decide +kernel⟩

end MM
