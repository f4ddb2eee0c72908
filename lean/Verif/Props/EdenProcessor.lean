import Verif.Eden.Random
import Verif.Props.EdenBiclique

/-! Native embeddings in Chimera graphs with any missing couplers (class `processor`). -/

namespace MM

open Eden
open Spec.Eden (Qb Ell Joined Works LinesWhole CellsWhole Path Touch Clique Biclique Native Box LexLe Grid Adjacent without Covers Missing MinimalCover)

namespace Eden

/-- A check for couplers of the grid. -/
def Proc.gridOk (P : Proc) : Bool :=
  P.edges.all fun e => [e.1, e.2].all fun q => decide ((0 ≤ q.x ∧ q.x < P.M) ∧ (0 ≤ q.y ∧ q.y < P.N) ∧ (q.u = 0 ∨ q.u = 1) ∧ 0 ≤ q.k ∧ q.k < P.L)

theorem Proc.grid_of_check {P : Proc} (h : P.gridOk = true) : ∀ e ∈ P.edges, Grid P.M P.N P.L e.1 ∧ Grid P.M P.N P.L e.2 := by
  intro e he
  have := List.all_eq_true.mp h e he
  simp only [List.all_cons, List.all_nil, Bool.and_true, Bool.and_eq_true, decide_eq_true_eq] at this
  exact this

end Eden

namespace Demo

/-- Nothing is random: the first qubit is deleted, samples are the first items. -/
def chance : Chance := ⟨fun _ _ => true, fun l k => l.take k⟩

theorem chance_fair : chance.Fair := fun l k h => ⟨by simp [chance, h], (List.take_sublist k l).subperm⟩

/-- Two by two cells; a coupler in the first cell is missing. -/
def uneven : Proc := ⟨[(⟨0, 0, 0, 0⟩, ⟨0, 0, 1, 1⟩), (⟨0, 0, 0, 0⟩, ⟨0, 0, 1, 2⟩), (⟨0, 0, 0, 1⟩, ⟨0, 0, 1, 0⟩), (⟨0, 0, 0, 1⟩, ⟨0, 0, 1, 1⟩), (⟨0, 0, 0, 1⟩, ⟨0, 0, 1, 2⟩),
  (⟨1, 0, 0, 1⟩, ⟨1, 0, 1, 1⟩), (⟨0, 1, 0, 1⟩, ⟨0, 1, 1, 1⟩), (⟨1, 1, 0, 1⟩, ⟨1, 1, 1, 1⟩), (⟨0, 0, 0, 1⟩, ⟨1, 0, 0, 1⟩), (⟨0, 1, 0, 1⟩, ⟨1, 1, 0, 1⟩),
  (⟨0, 0, 1, 1⟩, ⟨0, 1, 1, 1⟩), (⟨1, 0, 1, 1⟩, ⟨1, 1, 1, 1⟩)], 2, 2, 3⟩

theorem uneven_grid : ∀ e ∈ uneven.edges, Grid uneven.M uneven.N uneven.L e.1 ∧ Grid uneven.M uneven.N uneven.L e.2 := Proc.grid_of_check (by decide +kernel)

theorem uneven_lines : LinesWhole uneven.edges := Proc.lines_of_check (by decide +kernel)

theorem uneven_missing : Missing uneven.edges [(⟨0, 0, 0, 0⟩, ⟨0, 0, 1, 0⟩)] := missing_evil uneven_grid (by decide +kernel)

/-- A cell without four couplers. -/
def sparse : Proc := ⟨[(⟨0, 0, 0, 0⟩, ⟨0, 0, 1, 1⟩), (⟨0, 0, 0, 0⟩, ⟨0, 0, 1, 2⟩), (⟨0, 0, 0, 1⟩, ⟨0, 0, 1, 1⟩), (⟨0, 0, 0, 1⟩, ⟨0, 0, 1, 2⟩), (⟨0, 0, 0, 2⟩, ⟨0, 0, 1, 0⟩)], 1, 1, 3⟩

theorem sparse_grid : ∀ e ∈ sparse.edges, Grid sparse.M sparse.N sparse.L e.1 ∧ Grid sparse.M sparse.N sparse.L e.2 := Proc.grid_of_check (by decide +kernel)

/-- The second choice is the second qubit. -/
def chance2 : Chance := ⟨fun _ j => decide (j ≠ 1), fun l k => l.take k⟩

theorem chance2_fair : chance2.Fair := chance_fair

end Demo

/-- C91: linear labels and coordinates: the conversions are inverse to each other on the qubits of a Chimera graph, whose labels are the numbers below `2 M N L`. -/
theorem C91_labels (M N L : Nat) :
    (∀ q, Grid M N L q → toChimera N L (toLinear N L q) = .ok q ∧ 0 ≤ toLinear N L q ∧ toLinear N L q < 2 * M * N * L) ∧
    ∀ a : Int, 0 ≤ a → a < 2 * M * N * L → ∃ q, toChimera N L a = .ok q ∧ Grid M N L q ∧ toLinear N L q = a := by
  refine ⟨fun q hq => ?_, fun a h0 h1 => ?_⟩
  · have hN : 0 < N := by obtain ⟨-, ⟨h, h'⟩, -⟩ := hq; omega
    have hL : 0 < L := by obtain ⟨-, -, -, h, h'⟩ := hq; omega
    have h := toChimera_toLinear hq
    exact ⟨h, (toChimera_grid hN hL _ h).mp hq⟩
  · have hN : 0 < N := Nat.pos_of_ne_zero fun h => by subst h; simp at h1; omega
    have hL : 0 < L := Nat.pos_of_ne_zero fun h => by subst h; simp at h1; omega
    obtain ⟨q, k1, k2, -⟩ := toChimera_ok hN hL a
    exact ⟨q, k1, (toChimera_grid hN hL a k1).mpr ⟨h0, h1⟩, k2⟩

example : Grid 2 3 4 ⟨1, 2, 0, 3⟩ ∧ toLinear 3 4 ⟨1, 2, 0, 3⟩ = 43 := by unfold Grid; decide

/-- C91: the neighbours of a qubit are listed, each once. -/
theorem C91_neighbors (M N L : Nat) (p : Qb) (hp : Grid M N L p) : (neighbors M N L p).Nodup ∧ ∀ q, q ∈ neighbors M N L p ↔ Grid M N L q ∧ Adjacent p q :=
  ⟨neighbors_nodup M N L p, fun _ => mem_neighbors hp⟩

example : Grid 2 3 2 ⟨1, 2, 0, 1⟩ ∧ neighbors 2 3 2 ⟨1, 2, 0, 1⟩ = [⟨1, 2, 1, 0⟩, ⟨1, 2, 1, 1⟩, ⟨0, 2, 0, 1⟩] := by unfold Grid; decide

/-- C92: whatever couplers are missing, `nativeCliqueEmbed` returns an embedding of a complete graph in the given graph, with chains of `width + 1` qubits. -/
theorem C92_native (P : Proc) (hE : ∀ e ∈ P.edges, Grid P.M P.N P.L e.1 ∧ Grid P.M P.N P.L e.2) (limit : Int) (hl : 1 ≤ limit) (C : Chance) (hC : C.Fair) (K : Nat → Luck)
    (hK : ∀ i, (K i).Fair) (width : Nat) : ∃ chains, P.nativeAll limit C K width = .ok chains ∧ Clique P.edges chains ∧ ∀ c ∈ chains, c.length = width + 1 := by
  obtain ⟨v, d, hd, h1, h2, -⟩ := mapTo_spec (P := P) (Q := fun p v => Result p width v) follows_nat (chosen_ne hC hl)
    (f := fun i p => p.native ((K i).rnd width) ((K i).mix width) width) (fun i d _ => native_result (P := P.sub d) ((hK i).rolls width) ((hK i).mixes width) width)
  refine ⟨v.2, h1, ?_, h2.len⟩
  have := h2.clique (sub_cells hE hC hd)
  rw [sub_edges] at this
  exact clique_without this

example : Demo.chance.Fair ∧ Demo.luck.Fair ∧ ¬ CellsWhole Demo.uneven.edges ∧
    (Demo.uneven.nativeAll 64 Demo.chance (fun _ => Demo.luck) 1).toOption = some [[⟨0, 0, 1, 1⟩, ⟨0, 0, 0, 0⟩], [⟨0, 0, 1, 2⟩, ⟨0, 0, 0, 1⟩]] := by
  refine ⟨Demo.chance_fair, Demo.luck_fair, fun h => ?_, by decide +kernel⟩
  have := (Proc.joined_iff (P := Demo.uneven)).mpr (h 0 0 0 0 ((Proc.has_iff (P := Demo.uneven)).mp (by decide +kernel)) ((Proc.has_iff (P := Demo.uneven)).mp (by decide +kernel)))
  exact absurd this (by decide +kernel)

/-- C92: `largestNativeClique`; as for the class above, limits beyond the number of rows and columns make it raise. -/
theorem C92_largest (P : Proc) (hE : ∀ e ∈ P.edges, Grid P.M P.N P.L e.1 ∧ Grid P.M P.N P.L e.2) (limit : Int) (hl : 1 ≤ limit) (C : Chance) (hC : C.Fair) (K : Nat → Luck)
    (hK : ∀ i, (K i).Fair) (maxLength : Option Nat) (hb : ∀ l, maxLength = some l → l ≤ P.M + P.N) :
    ∃ chains, P.largestAll limit C K maxLength = .ok chains ∧ Clique P.edges chains ∧ ∃ n ≤ maxLen P maxLength, ∀ c ∈ chains, c.length = n := by
  have key : maxLen P maxLength ≤ P.M + P.N ∨ P.M = 0 ∨ P.N = 0 := by
    cases maxLength with
    | none =>
      have : maxLen P none = min P.M P.N + 1 := rfl
      omega
    | some l => exact .inl (hb l rfl)
  obtain ⟨v, d, hd, h1, h2, -⟩ := mapTo_spec (P := P) (Q := fun p v => Largest p (maxLen P maxLength) v) follows_nat (chosen_ne hC hl)
    (f := fun i p => p.largest (K i) maxLength) (fun i d _ => by
      obtain ⟨b, k1, k2⟩ := largest_inv (P := P.sub d) (hK i) (maxLen P maxLength) key
      refine ⟨b, ?_, k2⟩
      unfold Proc.largest
      cases maxLength <;> exact k1)
  obtain ⟨n, n1, n2, -⟩ := h2.len
  refine ⟨v.2, h1, ?_, n, n1, n2⟩
  have := h2.clique (sub_cells hE hC hd)
  rw [sub_edges] at this
  exact clique_without this

example : ((Demo.uneven.largestAll 64 Demo.chance (fun _ => Demo.luck) none).toOption.map List.length) = some 2 := by decide +kernel

/-- C92: `tightestNativeClique` returns exactly `n` chains, or none. -/
theorem C92_tightest (P : Proc) (hE : ∀ e ∈ P.edges, Grid P.M P.N P.L e.1 ∧ Grid P.M P.N P.L e.2) (limit : Int) (hl : 1 ≤ limit) (C : Chance) (hC : C.Fair) (K : Nat → Luck)
    (hK : ∀ i, (K i).Fair) (n : Nat) (hn : 1 ≤ n) : ∃ chains, P.tightestAll limit C K n = .ok chains ∧ Clique P.edges chains ∧ (chains.length = n ∨ chains = []) := by
  obtain ⟨v, d, hd, h1, ⟨h2, h3⟩, -⟩ := mapTo_spec (P := P) (Q := fun p v => (CellsWhole p.edges → Clique p.edges v.2) ∧ (v.2.length = n ∨ v.2 = []))
    (follows_fewest List.isEmpty Eden.measure) (chosen_ne hC hl)
    (f := fun i p => p.tightest (K i) n) (fun i d _ => by
      obtain ⟨r, k1, k2, k3⟩ := tightest_spec (P := P.sub d) (hK i) n hn (List.range' 1 (min P.M P.N))
      refine ⟨r, k1, k2, ?_⟩
      rcases k3 with k3 | k3
      · exact .inl k3.1
      · rw [k3.1]
        exact .inr rfl)
  refine ⟨v.2, h1, ?_, h3⟩
  have := h2 (sub_cells hE hC hd)
  rw [sub_edges] at this
  exact clique_without this

example : (Demo.uneven.tightestAll 64 Demo.chance (fun _ => Demo.luck) 2).toOption = some [[⟨0, 0, 1, 1⟩, ⟨0, 0, 0, 0⟩], [⟨0, 0, 1, 2⟩, ⟨0, 0, 0, 1⟩]] ∧
    (Demo.uneven.tightestAll 64 Demo.chance (fun _ => Demo.luck) 3).toOption = some [] := ⟨by decide +kernel, by decide +kernel⟩

/-- C92: `largestNativeBiClique`. -/
theorem C92_largest_bi (P : Proc) (hE : ∀ e ∈ P.edges, Grid P.M P.N P.L e.1 ∧ Grid P.M P.N P.L e.2) (limit : Int) (hl : 1 ≤ limit) (C : Chance) (hC : C.Fair)
    (order : Nat → List (Nat × Nat) → List (Nat × Nat)) (ho : ∀ i l, (order i l).Perm l) (imbalance maxLength : Option Int) :
    ((∀ b : Box, b.Inside P.M P.N → ¬ b.Allowed maxLength imbalance) ∧ P.largestBiAll limit C order imbalance maxLength = .error .value) ∨
    ∃ (b : Box) (A B : List (List Qb)), b.Inside P.M P.N ∧ b.Allowed maxLength imbalance ∧ P.largestBiAll limit C order imbalance maxLength = .ok (A, B) ∧
      Biclique P.edges A B ∧ (∀ c ∈ A, (c.length : Int) = b.width) ∧ ∀ c ∈ B, (c.length : Int) = b.height := by
  by_cases hn : ∀ b : Box, b.Inside P.M P.N → ¬ b.Allowed maxLength imbalance
  · refine .inl ⟨hn, mapTo_error (chosen_ne hC hl) fun i d hd => ?_⟩
    rcases C89_valid (P.sub d) (sub_cells hE hC hd) (order i) (ho i) imbalance maxLength with ⟨-, h⟩ | ⟨b, n, m, A, B, h1, h2, -⟩
    · simp only [bind, Except.bind, h]
    · exact absurd h2 (hn b h1)
  · obtain ⟨v, d, hd, h1, ⟨b, k1, k2, k3, k4, k5⟩, -⟩ := mapTo_spec (P := P) (Q := fun p v => ∃ b : Box, b.Inside p.M p.N ∧ b.Allowed maxLength imbalance ∧
        Biclique p.edges v.2.1 v.2.2 ∧ (∀ c ∈ v.2.1, (c.length : Int) = b.width) ∧ ∀ c ∈ v.2.2, (c.length : Int) = b.height) follows_lex (chosen_ne hC hl)
      (f := fun i p => do
        let r ← p.largestBi (order i) imbalance maxLength
        .ok (some r.1, r.2)) (fun i d hd => by
        rcases C89_valid (P.sub d) (sub_cells hE hC hd) (order i) (ho i) imbalance maxLength with ⟨h, -⟩ | ⟨b, n, m, A, B, h1, h2, h3, h4, h5, h6, -⟩
        · exact absurd h hn
        · simp only [bind, Except.bind, h3]
          exact ⟨_, rfl, b, h1, h2, h4, h5, h6⟩)
    rw [sub_edges] at k3
    exact .inr ⟨b, v.2.1, v.2.2, k1, k2, h1, biclique_without k3, k4, k5⟩

example : ((Demo.uneven.largestBiAll 64 Demo.chance (fun _ => id) (some 0) none).toOption.map fun r => (r.1.length, r.2.length)) = some (2, 2) := by decide +kernel

/-- C92: `tightestNativeBiClique`. -/
theorem C92_tightest_bi (P : Proc) (hE : ∀ e ∈ P.edges, Grid P.M P.N P.L e.1 ∧ Grid P.M P.N P.L e.2) (limit : Int) (hl : 1 ≤ limit) (C : Chance) (hC : C.Fair)
    (order : Nat → List (Nat × Nat) → List (Nat × Nat)) (ho : ∀ i l, (order i l).Perm l) (n m : Nat) (imbalance maxLength : Option Int) :
    P.tightestBiAll limit C order n (some m) imbalance maxLength = .ok none ∨
    ∃ (b : Box) (A B : List (List Qb)), b.Inside P.M P.N ∧ b.Allowed maxLength imbalance ∧ P.tightestBiAll limit C order n (some m) imbalance maxLength = .ok (some (A, B)) ∧
      Biclique P.edges A B ∧ A.length = n ∧ B.length = m ∧
      (((∀ c ∈ A, (c.length : Int) = b.width) ∧ ∀ c ∈ B, (c.length : Int) = b.height) ∨ ((∀ c ∈ A, (c.length : Int) = b.height) ∧ ∀ c ∈ B, (c.length : Int) = b.width)) := by
  obtain ⟨v, d, hd, h1, h2, -⟩ := mapTo_spec (P := P) (Q := fun p v => v.2 = none ∨ ∃ (b : Box) (A B : List (List Qb)), v.2 = some (A, B) ∧ b.Inside p.M p.N ∧
        b.Allowed maxLength imbalance ∧ Biclique p.edges A B ∧ A.length = n ∧ B.length = m ∧
      (((∀ c ∈ A, (c.length : Int) = b.width) ∧ ∀ c ∈ B, (c.length : Int) = b.height) ∨ ((∀ c ∈ A, (c.length : Int) = b.height) ∧ ∀ c ∈ B, (c.length : Int) = b.width)))
    (follows_fewest (S := Nat × Nat) (fun _ => false) measureBoth) (chosen_ne hC hl)
    (f := fun i p => do
      let r ← p.tightestBi (order i) n (some m) imbalance maxLength
      .ok (r.map Prod.fst, r.map Prod.snd)) (fun i d hd => by
      rcases C90_valid (P.sub d) (sub_cells hE hC hd) (order i) (ho i) n m imbalance maxLength with h | ⟨b, s, A, B, k1, k2, k3, k4, k5, k6, k7⟩
      · simp only [bind, Except.bind, h]
        exact ⟨_, rfl, .inl rfl⟩
      · simp only [bind, Except.bind, k3]
        exact ⟨_, rfl, .inr ⟨b, A, B, rfl, k1, k2, k4, k5, k6, k7⟩⟩)
  rcases h2 with h2 | ⟨b, A, B, h2, k1, k2, k3, k4⟩
  · rw [h2] at h1
    exact .inl h1
  · rw [h2] at h1
    rw [sub_edges] at k3
    exact .inr ⟨b, A, B, k1, k2, h1, biclique_without k3, k4⟩

example : (Demo.uneven.tightestBiAll 64 Demo.chance (fun _ => id) 2 (some 1) (some 0) none).toOption =
    some (some ([[⟨0, 0, 1, 0⟩], [⟨0, 0, 1, 1⟩]], [[⟨0, 0, 0, 1⟩]])) := by decide +kernel

/-- C92: with linear labels, embeddings in the converted graph are embeddings in the given one after translation. -/
theorem C92_linear (M N L : Nat) (hN : 0 < N) (hL : 0 < L) (E : List (Int × Int)) :
    ∃ P, fromLinear M N L E = .ok P ∧ P.M = M ∧ P.N = N ∧ P.L = L ∧ (∀ chains, Clique P.edges chains → Clique E (translate N L chains)) ∧
      (∀ A B, Biclique P.edges A B → Biclique E (translate N L A) (translate N L B)) ∧
      ((∀ e ∈ E, (0 ≤ e.1 ∧ e.1 < 2 * M * N * L) ∧ (0 ≤ e.2 ∧ e.2 < 2 * M * N * L)) → ∀ e ∈ P.edges, Grid M N L e.1 ∧ Grid M N L e.2) := by
  obtain ⟨P, h1, h2, h3, h4, h5, h6, -⟩ := fromLinear_spec (M := M) (E := E) hN hL
  exact ⟨P, h1, h2, h3, h4, fun _ h => h5.clique h, fun _ _ h => h5.biclique h, h6⟩

example : (fromLinear 1 1 2 [(0, 2), (1, 3)]).toOption = some ⟨[(⟨0, 0, 0, 0⟩, ⟨0, 0, 1, 0⟩), (⟨0, 0, 0, 1⟩, ⟨0, 0, 1, 1⟩)], 1, 1, 2⟩ ∧
    translate 1 2 [[⟨0, 0, 0, 1⟩, ⟨0, 0, 1, 1⟩]] = [[1, 3]] := ⟨by decide +kernel, by decide +kernel⟩

/-- C93: the deletions examined one after the other are the minimal sets of qubits that leave no missing coupler inside of a cell. -/
theorem C93_deletions (P : Proc) (hE : ∀ e ∈ P.edges, Grid P.M P.N P.L e.1 ∧ Grid P.M P.N P.L e.2) :
    (∀ d ∈ P.deletions, MinimalCover P.edges d) ∧ ∀ d, MinimalCover P.edges d → ∃ d' ∈ P.deletions, d' ⊆ d ∧ d ⊆ d' := by
  refine ⟨fun d hd => ⟨(covers_iff hE d).mpr (deletions_hit hd), fun c hc hcd => deletions_minimal hd ((covers_iff hE c).mp hc) hcd⟩, fun d hd => ?_⟩
  obtain ⟨d', hd', hs⟩ := deletions_reach ((covers_iff hE d).mp hd.1)
  exact ⟨d', hd', hs, hd.2 d' ((covers_iff hE d').mpr (deletions_hit hd')) hs⟩

/-- Two of them. -/
example : Demo.sparse.deletions = [[⟨0, 0, 0, 0⟩, ⟨0, 0, 0, 1⟩, ⟨0, 0, 0, 2⟩, ⟨0, 0, 0, 2⟩], [⟨0, 0, 0, 0⟩, ⟨0, 0, 0, 1⟩, ⟨0, 0, 1, 1⟩, ⟨0, 0, 1, 2⟩],
    [⟨0, 0, 1, 0⟩, ⟨0, 0, 1, 0⟩, ⟨0, 0, 0, 2⟩, ⟨0, 0, 0, 2⟩], [⟨0, 0, 1, 0⟩, ⟨0, 0, 1, 0⟩, ⟨0, 0, 1, 1⟩, ⟨0, 0, 1, 2⟩]] := by decide +kernel

/-- C93: if there are few missing couplers in cells and no other couplers are missing, `nativeCliqueEmbed` returns a largest native clique among those of all induced
subgraphs without missing couplers. -/
theorem C93_native (P : Proc) (hE : ∀ e ∈ P.edges, Grid P.M P.N P.L e.1 ∧ Grid P.M P.N P.L e.2) (hw : LinesWhole P.edges) (limit : Int) (ms : List (Qb × Qb))
    (hm : Missing P.edges ms) (hl' : 2 ^ ms.length ≤ limit) (C : Chance) (hC : C.Fair) (K : Nat → Luck) (hK : ∀ i, (K i).Fair) (width : Nat) :
    ∃ chains, P.nativeAll limit C K width = .ok chains ∧ Clique P.edges chains ∧
      ∀ d, CellsWhole (without P.edges d) → ∀ es, Native P.M P.N (width + 1) es → Spec.Eden.size (without P.edges d) P.L es ≤ chains.length := by
  have hl := evil_limit hm hl'
  have hlim : 1 ≤ limit := le_trans (by exact_mod_cast Nat.one_le_two_pow (n := P.evil.length)) hl
  obtain ⟨v, d, hd, h1, h2, h3⟩ := mapTo_spec (P := P) (Q := fun p v => Result p width v) follows_nat (chosen_ne hC hlim)
    (f := fun i p => p.native ((K i).rnd width) ((K i).mix width) width) (fun i d _ => native_result (P := P.sub d) ((hK i).rolls width) ((hK i).mixes width) width)
  have hcl := h2.clique (sub_cells hE hC hd)
  rw [sub_edges] at hcl
  refine ⟨v.2, h1, clique_without hcl, fun c hc es hes => ?_⟩
  obtain ⟨d', hd', hj⟩ := reach_chosen hE hC hl hc
  obtain ⟨v', k1, k2⟩ := h3 d' hd'
  have best := (size_mono hj P.L es).trans (k1.best (sub_lines hw d') es hes)
  cases hv : v'.1 with
  | none =>
    rw [k1.empty hv] at best
    exact best.trans (Nat.zero_le _)
  | some a =>
    obtain ⟨b, hb, hab⟩ := k2 a hv
    rw [← (k1.score a hv).2 (sub_lines hw d')] at best
    exact best.trans (hab.trans (h2.score b hb).1)

example : LinesWhole Demo.uneven.edges ∧ Missing Demo.uneven.edges [(⟨0, 0, 0, 0⟩, ⟨0, 0, 1, 0⟩)] ∧ (2 : Int) ^ 1 ≤ 64 := ⟨Demo.uneven_lines, Demo.uneven_missing, by decide⟩

/-- C93, partial: so does `largestNativeClique` among chains up to its limit. -/
theorem C93_largest_partial (P : Proc) (hE : ∀ e ∈ P.edges, Grid P.M P.N P.L e.1 ∧ Grid P.M P.N P.L e.2) (hw : LinesWhole P.edges) (limit : Int) (ms : List (Qb × Qb))
    (hm : Missing P.edges ms) (hl' : 2 ^ ms.length ≤ limit) (C : Chance) (hC : C.Fair) (K : Nat → Luck) (hK : ∀ i, (K i).Fair) (maxLength : Option Nat) (hb : ∀ l, maxLength = some l → l ≤ P.M + P.N) :
    ∃ chains, P.largestAll limit C K maxLength = .ok chains ∧ Clique P.edges chains ∧
      ∀ d, CellsWhole (without P.edges d) → ∀ n ≤ maxLen P maxLength, ∀ es, Native P.M P.N n es → Spec.Eden.size (without P.edges d) P.L es ≤ chains.length := by
  have hl := evil_limit hm hl'
  have hlim : 1 ≤ limit := le_trans (by exact_mod_cast Nat.one_le_two_pow (n := P.evil.length)) hl
  have key : maxLen P maxLength ≤ P.M + P.N ∨ P.M = 0 ∨ P.N = 0 := by
    cases maxLength with
    | none =>
      have : maxLen P none = min P.M P.N + 1 := rfl
      omega
    | some l => exact .inl (hb l rfl)
  obtain ⟨v, d, hd, h1, h2, h3⟩ := mapTo_spec (P := P) (Q := fun p v => Largest p (maxLen P maxLength) v) follows_nat (chosen_ne hC hlim)
    (f := fun i p => p.largest (K i) maxLength) (fun i d _ => by
      obtain ⟨b, k1, k2⟩ := largest_inv (P := P.sub d) (hK i) (maxLen P maxLength) key
      refine ⟨b, ?_, k2⟩
      unfold Proc.largest
      cases maxLength <;> exact k1)
  have hcl := h2.clique (sub_cells hE hC hd)
  rw [sub_edges] at hcl
  refine ⟨v.2, h1, clique_without hcl, fun c hc n hn es hes => ?_⟩
  obtain ⟨d', hd', hj⟩ := reach_chosen hE hC hl hc
  obtain ⟨v', k1, k2⟩ := h3 d' hd'
  have best := (size_mono hj P.L es).trans (k1.best (sub_lines hw d') n hn es hes)
  cases hv : v'.1 with
  | none =>
    rw [k1.empty hv] at best
    exact best.trans (Nat.zero_le _)
  | some a =>
    obtain ⟨b, hb, hab⟩ := k2 a hv
    rw [← (k1.score a hv).2 (sub_lines hw d')] at best
    exact best.trans (hab.trans (h2.score b hb).1)

example : LinesWhole Demo.uneven.edges ∧ Missing Demo.uneven.edges [(⟨0, 0, 0, 0⟩, ⟨0, 0, 1, 0⟩)] ∧ (2 : Int) ^ 1 ≤ 64 := ⟨Demo.uneven_lines, Demo.uneven_missing, by decide⟩

/-- C93: `tightestNativeClique` has the shortest chains among all native cliques with `n` chains of all induced subgraphs without missing couplers, or there is none (with
chains up to one more than the smaller number of rows or columns). -/
theorem C93_tightest (P : Proc) (hE : ∀ e ∈ P.edges, Grid P.M P.N P.L e.1 ∧ Grid P.M P.N P.L e.2) (hw : LinesWhole P.edges) (limit : Int) (ms : List (Qb × Qb))
    (hm : Missing P.edges ms) (hl' : 2 ^ ms.length ≤ limit) (C : Chance) (hC : C.Fair) (K : Nat → Luck) (hK : ∀ i, (K i).Fair) (n : Nat) (hn : 1 ≤ n) :
    ∃ chains, P.tightestAll limit C K n = .ok chains ∧ Clique P.edges chains ∧
      ((chains.length = n ∧ ∃ l ≤ min P.M P.N + 1, (∀ c ∈ chains, c.length = l) ∧
          ∀ d, CellsWhole (without P.edges d) → ∀ l' < l, ∀ es, Native P.M P.N l' es → Spec.Eden.size (without P.edges d) P.L es < n) ∨
        (chains = [] ∧ ∀ d, CellsWhole (without P.edges d) → ∀ l ≤ min P.M P.N + 1, ∀ es, Native P.M P.N l es → Spec.Eden.size (without P.edges d) P.L es < n)) := by
  have hl := evil_limit hm hl'
  have hlim : 1 ≤ limit := le_trans (by exact_mod_cast Nat.one_le_two_pow (n := P.evil.length)) hl
  obtain ⟨v, d, hd, h1, ⟨h2, h4⟩, h3⟩ := mapTo_spec (P := P) (Q := fun p v => (CellsWhole p.edges → Clique p.edges v.2) ∧
      ((v.1 ≠ none ∧ v.2.length = n ∧ ∃ l ≤ min P.M P.N + 1, (∀ c ∈ v.2, c.length = l) ∧
          (LinesWhole p.edges → ∀ l' < l, ∀ es, Native P.M P.N l' es → Spec.Eden.size p.edges P.L es < n)) ∨
        (v = (none, []) ∧ (LinesWhole p.edges → ∀ l ≤ min P.M P.N + 1, ∀ es, Native P.M P.N l es → Spec.Eden.size p.edges P.L es < n))))
    (follows_fewest List.isEmpty Eden.measure) (chosen_ne hC hlim)
    (f := fun i p => p.tightest (K i) n) (fun i d _ => by
      obtain ⟨r, k1, k2, k3⟩ := tightest_spec (P := P.sub d) (hK i) n hn (List.range' 1 (min P.M P.N))
      have short : ∀ l < 2, ∀ es, Native P.M P.N l es → Spec.Eden.size (P.sub d).edges P.L es < n := by
        intro l hll es hes
        rw [size_zero (P := P) hll hes]
        exact hn
      refine ⟨r, k1, k2, ?_⟩
      rcases k3 with ⟨m1, pre, w, post, m2, m3, m4⟩ | ⟨m1, m2⟩
      · have hw' : w ≤ min P.M P.N := by
          have : w ∈ List.range' 1 (min P.M P.N) := by rw [m2]; simp
          rw [List.mem_range'_1] at this
          omega
        refine .inl ⟨fun h0 => ?_, m1, w + 1, by omega, m3, fun hl l' hl' es hes => ?_⟩
        · rw [tightest_score (hK i) hn _ k1 h0] at m1
          simp at m1
          omega
        · by_cases h : l' < 2
          · exact short l' h es hes
          · refine m4 hl (l' - 1) ?_ es (by rw [show l' - 1 + 1 = l' by omega]; exact hes)
            have hmem : l' - 1 ∈ pre ++ w :: post := by
              rw [← m2, List.mem_range'_1]
              omega
            have hs : (pre ++ w :: post).Pairwise (· < ·) := m2 ▸ List.pairwise_lt_range'
            rcases List.mem_append.mp hmem with h' | h'
            · exact h'
            · rcases List.mem_cons.mp h' with h' | h'
              · omega
              · have := List.rel_of_pairwise_cons (List.pairwise_append.mp hs).2.1 h'
                omega
      · refine .inr ⟨m1, fun hl l' hl' es hes => ?_⟩
        by_cases h : l' < 2
        · exact short l' h es hes
        · refine m2 hl (l' - 1) ?_ es (by rw [show l' - 1 + 1 = l' by omega]; exact hes)
          rw [List.mem_range'_1]
          omega)
  have hcl := h2 (sub_cells hE hC hd)
  rw [sub_edges] at hcl
  refine ⟨v.2, h1, clique_without hcl, ?_⟩
  have sum : ∀ (chains : List (List Qb)) (l : Nat), (∀ c ∈ chains, c.length = l) → Eden.measure chains = chains.length * l := by
    intro chains l h
    unfold Eden.measure
    clear h1 h2 h3
    induction chains with
    | nil => simp
    | cons c cs ih =>
      rw [List.map_cons, List.sum_cons, h c List.mem_cons_self, ih fun c hc => h c (List.mem_cons_of_mem _ hc), List.length_cons]
      ring
  have ne : ∀ chains : List (List Qb), chains.length = n → chains.isEmpty = false := by
    intro chains h
    cases chains with
    | nil => simp at h; omega
    | cons c l => rfl
  rcases h4 with ⟨a1, a2, l, a3, a4, -⟩ | ⟨a1, -⟩
  · refine .inl ⟨a2, l, a3, a4, fun c hc l' hl' es hes => ?_⟩
    obtain ⟨d', hd', hj⟩ := reach_chosen hE hC hl hc
    obtain ⟨v', ⟨-, k1⟩, k2⟩ := h3 d' hd'
    refine (size_mono hj P.L es).trans_lt ?_
    rcases k1 with ⟨b1, b2, m, b3, b4, b5⟩ | ⟨-, b2⟩
    · obtain ⟨-, k3⟩ := k2 b1
      obtain ⟨-, k4⟩ := k3 (ne _ b2)
      rw [sum _ l a4, sum _ m b4, a2, b2] at k4
      have := Nat.le_of_mul_le_mul_left k4 (by omega)
      exact b5 (sub_lines hw d') l' (by omega) es hes
    · exact b2 (sub_lines hw d') l' (by omega) es hes
  · refine .inr ⟨by rw [a1], fun c hc l hll es hes => ?_⟩
    obtain ⟨d', hd', hj⟩ := reach_chosen hE hC hl hc
    obtain ⟨v', ⟨-, k1⟩, k2⟩ := h3 d' hd'
    refine (size_mono hj P.L es).trans_lt ?_
    rcases k1 with ⟨b1, -⟩ | ⟨-, b2⟩
    · have := (k2 b1).1
      rw [a1] at this
      exact absurd rfl this
    · exact b2 (sub_lines hw d') l hll es hes

example : (Demo.uneven.tightestAll 64 Demo.chance (fun _ => Demo.luck) 2).toOption = some [[⟨0, 0, 1, 1⟩, ⟨0, 0, 0, 0⟩], [⟨0, 0, 1, 2⟩, ⟨0, 0, 0, 1⟩]] := by decide +kernel

/-- C93 is false for the lengths of chains of the largest clique: two chains of three qubits are returned, although two chains of two qubits are a clique. -/
theorem C93_long_chains : ((Demo.uneven.largestAll 64 Demo.chance (fun _ => Demo.luck) none).toOption.map fun r => r.map List.length) = some [3, 3] ∧
    ∃ chains, Clique Demo.uneven.edges chains ∧ chains.map List.length = [2, 2] := by
  refine ⟨by decide +kernel, ?_⟩
  obtain ⟨chains, h1, h2, -⟩ := C92_tightest Demo.uneven Demo.uneven_grid 64 (by decide) Demo.chance Demo.chance_fair (fun _ => Demo.luck) (fun _ => Demo.luck_fair) 2 (by decide)
  have h3 : ((Demo.uneven.tightestAll 64 Demo.chance (fun _ => Demo.luck) 2).toOption.map fun r => r.map List.length) = some [2, 2] := by decide +kernel
  rw [h1] at h3
  exact ⟨chains, h2, Option.some.inj h3⟩

/-- C93, partial: if there are few missing couplers in cells and no other couplers are missing, `largestNativeBiClique` returns sides whose sizes are maximal among the rectangles
within the limits of all induced subgraphs without missing couplers. -/
theorem C93_largest_bi_partial (P : Proc) (hE : ∀ e ∈ P.edges, Grid P.M P.N P.L e.1 ∧ Grid P.M P.N P.L e.2) (hw : LinesWhole P.edges) (limit : Int) (ms : List (Qb × Qb))
    (hm : Missing P.edges ms) (hl' : 2 ^ ms.length ≤ limit) (C : Chance) (hC : C.Fair) (order : Nat → List (Nat × Nat) → List (Nat × Nat)) (ho : ∀ i l, (order i l).Perm l)
    (imbalance maxLength : Option Int) (b : Box) (hb : b.Inside P.M P.N) (ha : b.Allowed maxLength imbalance) :
    ∃ A B, P.largestBiAll limit C order imbalance maxLength = .ok (A, B) ∧ Biclique P.edges A B ∧
      ∀ d, CellsWhole (without P.edges d) → ∀ b' : Box, b'.Inside P.M P.N → b'.Allowed maxLength imbalance → ∀ n m, (n, m) = b'.lines (without P.edges d) P.L →
        LexLe (min n m, max n m) (min A.length B.length, max A.length B.length) := by
  have hl := evil_limit hm hl'
  have hlim : 1 ≤ limit := le_trans (by exact_mod_cast Nat.one_le_two_pow (n := P.evil.length)) hl
  obtain ⟨v, d, hd, h1, ⟨k0, k3, -⟩, h3⟩ := mapTo_spec (P := P) (Q := fun p v => v.1 = some (min v.2.1.length v.2.2.length, max v.2.1.length v.2.2.length) ∧
        Biclique p.edges v.2.1 v.2.2 ∧ ∀ b' : Box, b'.Inside P.M P.N → b'.Allowed maxLength imbalance → ∀ n m, (n, m) = b'.lines p.edges P.L →
        LexLe (min n m, max n m) (min v.2.1.length v.2.2.length, max v.2.1.length v.2.2.length)) follows_lex (chosen_ne hC hlim)
      (f := fun i p => do
        let r ← p.largestBi (order i) imbalance maxLength
        .ok (some r.1, r.2)) (fun i d hd => by
        rcases C89_largest_partial (P.sub d) (sub_cells hE hC hd) (sub_lines hw d) (order i) (ho i) imbalance maxLength with ⟨h, -⟩ | ⟨b, A, B, -, -, h3, h4, -, -, -, h5⟩
        · exact absurd ha (h b hb)
        · simp only [bind, Except.bind, h3]
          exact ⟨_, rfl, rfl, h4, fun b' k1 k2 n m k3 => (h5 b' k1 k2 n m k3).1⟩)
  rw [sub_edges] at k3
  refine ⟨v.2.1, v.2.2, h1, biclique_without k3, fun c hc b' hb' ha' n m hnm => ?_⟩
  obtain ⟨d', hd', hj⟩ := reach_chosen hE hC hl hc
  obtain ⟨v', ⟨m1, -, m2⟩, m3⟩ := h3 d' hd'
  obtain ⟨s, m4, m5⟩ := m3 _ m1
  rw [k0] at m4
  cases m4
  have mono := box_mono hj P.L b'
  have m6 := m2 b' hb' ha' _ _ rfl
  refine lexLe_trans (lexLe_trans ?_ m6) m5
  rw [← hnm] at mono
  exact pair_mono mono.1 mono.2

example : (⟨0, 0, 0, 0⟩ : Box).Inside Demo.uneven.M Demo.uneven.N ∧ (⟨0, 0, 0, 0⟩ : Box).Allowed none (some 0) := by
  refine ⟨by unfold Box.Inside; decide, fun l h => ?_, fun l h => ?_⟩
  · cases h
  · cases h
    decide

/-- C93 is false for the lengths of chains of the largest biclique: two and two chains of two qubits are returned, although single qubits suffice. -/
theorem C93_long_bi : ((Demo.uneven.largestBiAll 64 Demo.chance (fun _ => id) (some 0) none).toOption.map fun r => (r.1.map List.length, r.2.map List.length)) = some ([2, 2], [2, 2]) ∧
    ∃ A B, Biclique Demo.uneven.edges A B ∧ A.map List.length = [1, 1] ∧ B.map List.length = [1, 1] := by
  refine ⟨by decide +kernel, ?_⟩
  rcases C92_tightest_bi Demo.uneven Demo.uneven_grid 64 (by decide) Demo.chance Demo.chance_fair (fun _ => id) (fun _ _ => List.Perm.refl _) 2 2 (some 0) none with h | ⟨b, A, B, -, -, h1, h2, -⟩
  · have h3 : ((Demo.uneven.tightestBiAll 64 Demo.chance (fun _ => id) 2 (some 2) (some 0) none).toOption.map Option.isSome) = some true := by decide +kernel
    rw [h] at h3
    cases h3
  · have h3 : ((Demo.uneven.tightestBiAll 64 Demo.chance (fun _ => id) 2 (some 2) (some 0) none).toOption.map fun r => r.map fun r => (r.1.map List.length, r.2.map List.length)) =
        some (some ([1, 1], [1, 1])) := by decide +kernel
    rw [h1] at h3
    have h4 := Option.some.inj (Option.some.inj h3)
    exact ⟨A, B, h2, congrArg Prod.fst h4, congrArg Prod.snd h4⟩

/-- C93, partial: `tightestNativeBiClique` returns nothing only if no rectangle within the limits of any such subgraph has enough lines. -/
theorem C93_tightest_bi_partial (P : Proc) (hE : ∀ e ∈ P.edges, Grid P.M P.N P.L e.1 ∧ Grid P.M P.N P.L e.2) (hw : LinesWhole P.edges) (limit : Int) (ms : List (Qb × Qb))
    (hm : Missing P.edges ms) (hl' : 2 ^ ms.length ≤ limit) (C : Chance) (hC : C.Fair) (order : Nat → List (Nat × Nat) → List (Nat × Nat)) (ho : ∀ i l, (order i l).Perm l)
    (n m : Nat) (imbalance maxLength : Option Int) :
    P.tightestBiAll limit C order n (some m) imbalance maxLength = .ok none ↔
      ∀ d, CellsWhole (without P.edges d) → ∀ b : Box, b.Inside P.M P.N → b.Allowed maxLength imbalance → ¬ b.Holds (without P.edges d) P.L n m := by
  have hl := evil_limit hm hl'
  have hlim : 1 ≤ limit := le_trans (by exact_mod_cast Nat.one_le_two_pow (n := P.evil.length)) hl
  obtain ⟨v, d, hd, h1, ⟨k0, k1⟩, h3⟩ := mapTo_spec (P := P) (Q := fun p v => (v.1 = none ↔ v.2 = none) ∧
        (v.2 = none ↔ ∀ b : Box, b.Inside P.M P.N → b.Allowed maxLength imbalance → ¬ b.Holds p.edges P.L n m))
    (follows_fewest (S := Nat × Nat) (fun _ => false) measureBoth) (chosen_ne hC hlim)
    (f := fun i p => do
      let r ← p.tightestBi (order i) n (some m) imbalance maxLength
      .ok (r.map Prod.fst, r.map Prod.snd)) (fun i d hd => by
      obtain ⟨sz, hsz, hsz'⟩ := exists_sizes (P.sub d)
      have key : ∀ R : Rect, R.box.Inside P.M P.N → (Enough n m (sz R) ↔ R.box.Holds (P.sub d).edges P.L n m) := by
        intro R hR
        rw [(hsz' R hR).2.2 (sub_lines hw d)]
        exact or_comm
      rcases tightestBi_spec hsz (ho i) n m imbalance maxLength with ⟨h, h'⟩ | ⟨R, A, B, hR, he, h3, -⟩
      · simp only [bind, Except.bind, h']
        refine ⟨_, rfl, by simp, ⟨fun _ b hb ha hh => ?_, fun _ => rfl⟩⟩
        exact h ⟨b.x0, b.x1, b.y0, b.y1⟩ ⟨hb, ha⟩ ((key ⟨b.x0, b.x1, b.y0, b.y1⟩ hb).mpr hh)
      · simp only [bind, Except.bind, h3]
        refine ⟨_, rfl, by simp, ⟨fun hh => by simp at hh, fun hh => ?_⟩⟩
        exact (hh _ hR.1 hR.2 ((key R hR.1).mp he)).elim)
  have hv : P.tightestBiAll limit C order n (some m) imbalance maxLength = .ok v.2 := h1
  rw [hv]
  constructor
  · intro h c hc b hb ha hh
    have h := Except.ok.inj h
    obtain ⟨d', hd', hj⟩ := reach_chosen hE hC hl hc
    obtain ⟨v', ⟨m1, m2⟩, m3⟩ := h3 d' hd'
    have : v'.1 = none := by
      refine Classical.byContradiction fun hn => ?_
      exact (m3 hn).1 (k0.mpr h)
    refine m2.mp (m1.mp this) b hb ha ?_
    have := box_mono hj P.L b
    unfold Box.Holds at hh ⊢
    omega
  · intro h
    rw [k1.mpr]
    intro b hb ha
    rw [sub_edges]
    exact h d (by rw [← sub_edges]; exact sub_cells hE hC hd) b hb ha

example : (Demo.uneven.tightestBiAll 64 Demo.chance (fun _ => id) 2 (some 2) (some 0) none).toOption.map Option.isSome = some true ∧
    (Demo.uneven.tightestBiAll 64 Demo.chance (fun _ => id) 4 (some 4) (some 0) none).toOption = some none := ⟨by decide +kernel, by decide +kernel⟩

/-- C94: at most `proc_limit` sets of qubits are tried; each leaves no missing coupler inside of a cell. -/
theorem C94_tried (P : Proc) (hE : ∀ e ∈ P.edges, Grid P.M P.N P.L e.1 ∧ Grid P.M P.N P.L e.2) (limit : Int) (C : Chance) (hC : C.Fair) :
    ((P.chosen limit C).length : Int) ≤ max limit 0 ∧ ∀ d ∈ P.chosen limit C, Covers P.edges d ∧ CellsWhole (without P.edges d) := by
  obtain ⟨h1, h2, -⟩ := chosen_spec (P := P) (limit := limit) hC
  exact ⟨h2, fun d hd => ⟨(covers_iff hE d).mpr (h1 d hd), by rw [← sub_edges]; exact sub_cells hE hC hd⟩⟩

example : Demo.sparse.chosen 1 Demo.chance2 = [[⟨0, 0, 0, 2⟩, ⟨0, 0, 1, 0⟩, ⟨0, 0, 0, 0⟩]] ∧ (Demo.sparse.chosen 2 Demo.chance2).length = 2 ∧
    (Demo.sparse.chosen 16 Demo.chance2).length = 4 := by decide +kernel

/-- C94: with a limit that is not positive every search raises `StopIteration`. -/
theorem C94_stop (P : Proc) (limit : Int) (hl : limit ≤ 0) (C : Chance) (hC : C.Fair) (K : Nat → Luck) (order : Nat → List (Nat × Nat) → List (Nat × Nat)) (width n : Nat)
    (maxLength : Option Nat) (m : Option Nat) (imbalance length : Option Int) :
    P.nativeAll limit C K width = .error .stop ∧ P.largestAll limit C K maxLength = .error .stop ∧ P.tightestAll limit C K n = .error .stop ∧
      P.largestBiAll limit C order imbalance length = .error .stop ∧ P.tightestBiAll limit C order n m imbalance length = .error .stop := by
  have h := ((chosen_spec (P := P) (limit := limit) hC).2.2.1).mpr hl
  exact ⟨mapTo_stop h, mapTo_stop h, mapTo_stop h, mapTo_stop h, mapTo_stop h⟩

example : Demo.sparse.nativeAll 0 Demo.chance2 (fun _ => Demo.luck) 1 = .error .stop ∧ (Demo.sparse.nativeAll 1 Demo.chance2 (fun _ => Demo.luck) 1).toOption.isSome = true :=
  ⟨(C94_stop Demo.sparse 0 (by decide) Demo.chance2 Demo.chance2_fair (fun _ => Demo.luck) (fun _ l => l) 1 1 none none none none).1, by decide +kernel⟩

/-- C94 is false for the documented claim that random deletions are minimal: one qubit is deleted in vain. -/
theorem C94_redundant : Demo.chance2.Fair ∧ ∃ d, Demo.sparse.chosen 1 Demo.chance2 = [d] ∧ ¬ MinimalCover Demo.sparse.edges d := by
  refine ⟨Demo.chance2_fair, _, rfl, fun h => ?_⟩
  have hc : Covers Demo.sparse.edges [⟨0, 0, 1, 0⟩, ⟨0, 0, 0, 2⟩] := by
    rw [covers_iff Demo.sparse_grid]
    unfold Hits
    decide +kernel
  have := h.2 _ hc (by decide +kernel)
  exact absurd this (by decide +kernel)

/-- C95: a random processor has the couplers of the Chimera graph between the sampled qubits except for up to `num_evil` of those inside of cells; fewer only if there are no more. -/
theorem C95_random (M N L : Nat) (qubits : List Qb) (hq : qubits.Nodup) (hg : ∀ q ∈ qubits, Grid M N L q) (sample : List (Qb × Qb) → Nat → List (Qb × Qb))
    (hs : ∀ l k, k ≤ l.length → (sample l k).length = k ∧ (sample l k).Subperm l) (numEvil : Nat) :
    (randomProcessor M N L qubits sample numEvil).edges.Nodup ∧
    ∃ gone : List (Qb × Qb), gone.Nodup ∧ (∀ e ∈ gone, e.1 ∈ qubits ∧ e.2 ∈ qubits ∧ Adjacent e.1 e.2 ∧ e.1.u ≠ e.2.u ∧ (e.2, e.1) ∉ gone) ∧
      (∀ p q, Joined (randomProcessor M N L qubits sample numEvil).edges p q ↔ p ∈ qubits ∧ q ∈ qubits ∧ Adjacent p q ∧ ¬ Joined gone p q) ∧
      (gone.length = numEvil ∨ gone.length < numEvil ∧ ∀ p ∈ qubits, ∀ q ∈ qubits, Adjacent p q → p.u ≠ q.u → Joined gone p q) :=
  randomProcessor_spec hq hg hs numEvil

example : (randomProcessor 1 2 2 (allQubits 1 2 2) (fun l k => l.take k) 3).edges = [(⟨0, 0, 0, 1⟩, ⟨0, 0, 1, 1⟩), (⟨0, 0, 1, 0⟩, ⟨0, 1, 1, 0⟩), (⟨0, 0, 1, 1⟩, ⟨0, 1, 1, 1⟩),
    (⟨0, 1, 0, 0⟩, ⟨0, 1, 1, 0⟩), (⟨0, 1, 0, 0⟩, ⟨0, 1, 1, 1⟩), (⟨0, 1, 0, 1⟩, ⟨0, 1, 1, 0⟩), (⟨0, 1, 0, 1⟩, ⟨0, 1, 1, 1⟩)] := by decide +kernel

/-- C95 is false for the number of missing couplers between working qubits: one was asked for, but its qubits do not work without it. -/
theorem C95_no_evil : ∃ P : Proc, randomProcessor 1 1 1 (allQubits 1 1 1) (fun l k => l.take k) 1 = P ∧ P.edges = [] ∧ P.evil = [] := ⟨_, rfl, by decide +kernel, by decide +kernel⟩

end MM
