import Verif.Props.Guarantee
import Verif.Props.RepeatCases

/-! C118, C119: queries for bicliques that meet the hypotheses of the theorems, and that show what they do not say. -/

namespace MM

open Bus Lattice Spec Disk

namespace Asking

/-- `busgraph_cache(g, seed = z)`, asked for a biclique or for the largest balanced one. -/
def bi (g : Target) (z : Int) (query : BiQuery Nat) : BiQuestion Nat := ⟨some g, .int z, query⟩

theorem bi_open {g : Target} (hg : g.Ok) {z : Int} {query : BiQuery Nat} (hz : 0 ≤ z ∧ z < 2 ^ 32) : openGraph calm.entropy g (seedGiven true (bi g z query).seed) = .ok (Rng.amplify (BitVec.ofInt 32 z)) := by
  have ht : tileSupported g.T = true := by
    have := hg.1.supported
    revert this
    cases g.T <;> simp [tileSupported, Supported]
  unfold openGraph
  rw [if_pos ht]
  have : internalSeed calm.entropy (seedGiven true (bi g z query).seed) = .ok (BitVec.ofInt 32 z) := if_pos hz
  rw [this]

theorem halves_wide : halves.Wide := ⟨halves_ok, by decide, by decide⟩

theorem cellA_wide : cellA.Wide := ⟨cellA_ok, by decide, by decide⟩

end Asking

/-- With eight internal couplers missing the seed matters for bicliques too: with seed 1 a balanced biclique with sides of three chains is found, with seed 2 only one with sides of one chain. So six cannot be replaced by eight in
`C118_few`. -/
theorem C118_seeds (S : Sorting) : Asking.halves.Wide ∧ FewMissing Asking.halves.T Asking.halves.nodes Asking.halves.edges 8 ∧
    (askBi (Asking.program S) id id Asking.calm (Asking.bi Asking.halves 1 .largest) Dir.empty).1 = .ok [(0, [2]), (1, [3]), (2, [4]), (3, [7]), (4, [8]), (5, [9])] ∧
    (askBi (Asking.program S) id id Asking.calm (Asking.bi Asking.halves 2 .largest) Dir.empty).1 = .ok [(0, [2]), (1, [5])] := by
  have hP := Asking.program_ok S
  refine ⟨Asking.halves_wide, (C116_seeds S).2.1, ?_, ?_⟩
  · have o := Asking.bi_open Asking.halves_ok (z := 1) (query := .largest) (by decide)
    obtain ⟨M, e1, hM, b1, _⟩ := biRequest_ok (ord := id) hP Asking.halves_wide Asking.calm_ok (Rng.amplify (BitVec.ofInt 32 1))
    have hd : (Asking.program S).draws (.chimera 1 1 5) (Rng.amplify (BitVec.ofInt 32 1)) M = (Asking.turnDraws, Asking.turnDraws) := by
      have : Rng.amplify (BitVec.ofInt 32 1) = Rng.amplify 1 := by decide +kernel
      simp only [Asking.program]
      rw [if_pos this]
    have b1' : bestBicliques (.chimera 1 1 5) 64 Asking.turnDraws Asking.turnDraws Asking.halves.nodes Asking.halves.edges = .ok [((1, 5), [[2], [5], [6], [7], [8], [9]]), ((3, 3), [[2], [3], [4], [7], [8], [9]])] := of_toOption (by decide +kernel)
    have x1 : e1 = [((1, 5), [[2], [5], [6], [7], [8], [9]]), ((3, 3), [[2], [3], [4], [7], [8], [9]])] := by
      have h : bestBicliques (.chimera 1 1 5) 64 ((Asking.program S).draws (.chimera 1 1 5) (Rng.amplify (BitVec.ofInt 32 1)) M).1 ((Asking.program S).draws (.chimera 1 1 5) (Rng.amplify (BitVec.ofInt 32 1)) M).2 Asking.halves.nodes Asking.halves.edges = .ok e1 := b1
      rw [hd, b1'] at h
      cases h; rfl
    subst x1
    refine (askBi_fresh hP Asking.halves_wide rfl Asking.calm_ok o hM b1).trans ?_
    exact of_toOption (by decide +kernel)
  · have o := Asking.bi_open Asking.halves_ok (z := 2) (query := .largest) (by decide)
    obtain ⟨M, e1, hM, b1, _⟩ := biRequest_ok (ord := id) hP Asking.halves_wide Asking.calm_ok (Rng.amplify (BitVec.ofInt 32 2))
    have hd : (Asking.program S).draws (.chimera 1 1 5) (Rng.amplify (BitVec.ofInt 32 2)) M = (revDraws, revDraws) := by
      have : ¬Rng.amplify (BitVec.ofInt 32 2) = Rng.amplify 1 := by decide +kernel
      simp only [Asking.program]
      rw [if_neg this]
    have b1' : bestBicliques (.chimera 1 1 5) 64 revDraws revDraws Asking.halves.nodes Asking.halves.edges = .ok [((1, 5), [[2], [5], [6], [7], [8], [9]]), ((5, 1), [[0], [1], [2], [3], [4], [7]])] := of_toOption (by decide +kernel)
    have x1 : e1 = [((1, 5), [[2], [5], [6], [7], [8], [9]]), ((5, 1), [[0], [1], [2], [3], [4], [7]])] := by
      have h : bestBicliques (.chimera 1 1 5) 64 ((Asking.program S).draws (.chimera 1 1 5) (Rng.amplify (BitVec.ofInt 32 2)) M).1 ((Asking.program S).draws (.chimera 1 1 5) (Rng.amplify (BitVec.ofInt 32 2)) M).2 Asking.halves.nodes Asking.halves.edges = .ok e1 := b1
      rw [hd, b1'] at h
      cases h; rfl
    subst x1
    refine (askBi_fresh hP Asking.halves_wide rfl Asking.calm_ok o hM b1).trans ?_
    exact of_toOption (by decide +kernel)

/-- A graph without couplers. -/
def Asking.lonely : Target := ⟨.chimera 1 1 2, [0], []⟩

/-- C118: in a graph without couplers every query raises `ValueError`, for the exception of an empty `max` gets out; also the query for an empty biclique. -/
theorem C118_lonely (S : Sorting) (query : BiQuery Nat) : Asking.lonely.Wide ∧ (askBi (Asking.program S) id id Asking.calm (Asking.bi Asking.lonely 2 query) Dir.empty).1 = .error (.disk .compute) := by
  have hw : Asking.lonely.Wide := ⟨⟨⟨show 2 ≤ 8 by decide, (show ∀ q ∈ [0], q < 4 by decide), by decide, by simp [Asking.lonely]⟩, by decide, by decide, by decide⟩, by decide, by decide⟩
  have hP := Asking.program_ok S
  refine ⟨hw, ?_⟩
  have o := Asking.bi_open hw.1 (z := 2) (query := query) (by decide)
  obtain ⟨M, e1, hM, b1, _⟩ := biRequest_ok (ord := id) hP hw Asking.calm_ok (Rng.amplify (BitVec.ofInt 32 2))
  have hd : (Asking.program S).draws (.chimera 1 1 2) (Rng.amplify (BitVec.ofInt 32 2)) M = (revDraws, revDraws) := by
    have : ¬Rng.amplify (BitVec.ofInt 32 2) = Rng.amplify 1 := by decide +kernel
    simp only [Asking.program]
    rw [if_neg this]
  have x1 : e1 = [] := by
    have h : bestBicliques (.chimera 1 1 2) 64 ((Asking.program S).draws (.chimera 1 1 2) (Rng.amplify (BitVec.ofInt 32 2)) M).1 ((Asking.program S).draws (.chimera 1 1 2) (Rng.amplify (BitVec.ofInt 32 2)) M).2 [0] [] = .ok e1 := b1
    rw [hd, C62_no_biclique.2.1] at h
    cases h; rfl
  subst x1
  refine (askBi_fresh hP hw rfl Asking.calm_ok o hM b1).trans ?_
  cases query <;> rfl

theorem Asking.cellA_faultless : Faultless cellA.T cellA.nodes cellA.edges := by
  constructor
  · rintro p q ⟨-, y, x, k, y', x', k', hy, hx, hk, hy', hx', hk', rfl, rfl⟩
    obtain rfl : y = 0 := by omega
    obtain rfl : x = 0 := by omega
    obtain rfl : y' = 0 := by omega
    obtain rfl : x' = 0 := by omega
    have : ∀ k < 2, chimeraNum 1 2 0 0 0 k ∈ cellA.nodes ∧ chimeraNum 1 2 0 0 1 k ∈ cellA.nodes := by decide +kernel
    exact ⟨(this k hk).1, (this k' hk').2⟩
  · rintro p hp q hq (⟨hy, hx, hk, hk'⟩ | ⟨hy, hx, hk⟩ | ⟨hy, hx, hk⟩)
    · rename_i y x k k'
      obtain rfl : y = 0 := by omega
      obtain rfl : x = 0 := by omega
      have : ∀ k < 2, ∀ k' < 2, ((chimeraNum 1 2 0 0 0 k, chimeraNum 1 2 0 0 1 k') ∈ cellA.edges ∨ (chimeraNum 1 2 0 0 1 k', chimeraNum 1 2 0 0 0 k) ∈ cellA.edges) := by decide +kernel
      exact this k hk k' hk'
    · omega
    · omega

/-- The hypotheses of `C119_chimera` are met. -/
example : ∃ embs, bestBicliques (.chimera 1 1 2) 64 revDraws revDraws Asking.cellA.nodes Asking.cellA.edges = .ok embs ∧ ∃ s emb, (s, emb) ∈ embs ∧ 1 * 2 ≤ s.1 ∧ 1 * 2 ≤ s.2 :=
  C119_chimera Asking.cellA_ok.1 Asking.cellA_faultless (by decide) (by decide) (by decide) revDraws_perm revDraws_perm

/-- Ends of internal couplers are qubits. -/
theorem internal_qubits {T : Topo} {p q : Nat} (h : Internal T p q) : IsQubit T p ∧ IsQubit T q := by
  cases T with
  | chimera m n t =>
    obtain ⟨-, y, x, k, y', x', k', h1, h2, h3, h4, h5, h6, rfl, rfl⟩ := h
    exact ⟨(lies_frag (T := .chimera m n t) (u := false) (q := chimeraNum n t y x 0 k) (w := x) (k := k) (z := y) ⟨h1, h2, h3, rfl⟩).1, (lies_frag (T := .chimera m n t) (q := chimeraNum n t y' x' 1 k') (u := true) (w := y') (k := k') (z := x') ⟨h4, h5, h6, rfl⟩).1⟩
  | pegasus d off =>
    obtain ⟨-, w, k, z, w', k', z', h1, h2, h3, h4, h5, h6, rfl, rfl⟩ := h
    refine ⟨(lies_frag (T := .pegasus d off) (q := pegasusNum d 0 w k z) (u := false) (w := 6 * w + k / 2) (k := k % 2) (z := 6 * z + off false (k / 2)) ⟨w, k / 2, z, h1, by omega, by omega, h3, rfl, ?_, by omega, by omega⟩).1,
      (lies_frag (T := .pegasus d off) (q := pegasusNum d 1 w' k' z') (u := true) (w := 6 * w' + k' / 2) (k := k' % 2) (z := 6 * z' + off true (k' / 2)) ⟨w', k' / 2, z', h4, by omega, by omega, h6, rfl, ?_, by omega, by omega⟩).1⟩
    · rw [Nat.div_add_mod]; rfl
    · rw [Nat.div_add_mod]; rfl
  | zephyr d t =>
    obtain ⟨-, w, k, z, w', k', z', h1, h2, h3, h4, h5, h6, rfl, rfl⟩ := h
    exact ⟨(lies_frag (T := .zephyr d t) (q := zephyrNum d t 0 w k z) (u := false) (w := w) (k := k) (z := 2 * z + k % 2) ⟨z, h1, h2, h3, rfl, by omega, by omega⟩).1,
      (lies_frag (T := .zephyr d t) (q := zephyrNum d t 1 w' k' z') (u := true) (w := w') (k := k') (z := 2 * z' + k' % 2) ⟨z', h4, h5, h6, rfl, by omega, by omega⟩).1⟩

/-- There are graphs without faults, of every size. -/
theorem exists_faultless {T : Topo} (hs : Supported T) : ∃ nodes edges, WFGraph T nodes edges ∧ Faultless T nodes edges := by
  classical
  obtain ⟨nodes, hn⟩ : ∃ nodes : List Nat, ∀ q, q ∈ nodes ↔ IsQubit T q := by
    cases T with
    | chimera m n t => exact ⟨List.range (2 * t * m * n), fun q => List.mem_range⟩
    | pegasus d off => exact ⟨List.range (24 * d * (d - 1)), fun q => List.mem_range⟩
    | zephyr d t => exact ⟨List.range (4 * t * d * (2 * d + 1)), fun q => List.mem_range⟩
  refine ⟨nodes, (nodes.flatMap fun p => nodes.map fun q => (p, q)).filter (fun e => Coupled T e.1 e.2), ⟨hs, fun q h => (hn q).mp h, ?_, ?_⟩, ⟨?_, ?_⟩⟩
  · rintro ⟨p, q⟩ he
    simp only [List.mem_filter, List.mem_flatMap, List.mem_map, Prod.mk.injEq] at he
    obtain ⟨⟨p', h1, q', h2, rfl, rfl⟩, -⟩ := he
    exact ⟨h1, h2⟩
  · intro e he
    exact .inl (by simpa using (List.mem_filter.mp he).2)
  · intro p q h
    exact ⟨(hn p).mpr (internal_qubits h).1, (hn q).mpr (internal_qubits h).2⟩
  · intro p hp q hq h
    left
    simp only [List.mem_filter, List.mem_flatMap, List.mem_map, Prod.mk.injEq, decide_eq_true_eq]
    exact ⟨⟨p, hp, q, hq, rfl, rfl⟩, h⟩

/-- The hypotheses of `C119_zephyr` are met: sides of 184 chains in a graph of the size of D-Wave's largest processors. -/
example : ∃ nodes edges, WFGraph (.zephyr 12 4) nodes edges ∧ ∃ embs, bestBicliques (.zephyr 12 4) 64 revDraws revDraws nodes edges = .ok embs ∧ ∃ s emb, (s, emb) ∈ embs ∧ 184 ≤ s.1 ∧ 184 ≤ s.2 := by
  obtain ⟨nodes, edges, hG, hF⟩ := exists_faultless (T := .zephyr 12 4) (show 4 ≤ 4 by decide)
  exact ⟨nodes, edges, hG, C119_zephyr hG hF (by decide) (by decide) revDraws_perm revDraws_perm⟩

theorem Asking.off_lt (u : Bool) (i : Nat) : off u i < 6 := by
  unfold off
  split
  · exact pegasusOff_lt u i
  · decide

theorem Asking.off_range (u : Bool) (j : Nat) (hj : j < 6) : 1 ≤ off u j ∧ off u j ≤ 5 := by
  have : ∀ u : Bool, ∀ j < 6, 1 ≤ off u j ∧ off u j ≤ 5 := by decide
  exact this u j hj

/-- The hypotheses of `C119_pegasus` are met: sides of 172 chains in `pegasus_graph(16)`. -/
example : ∃ nodes edges, WFGraph (.pegasus 16 Asking.off) nodes edges ∧ ∃ embs, bestBicliques (.pegasus 16 Asking.off) 64 revDraws revDraws nodes edges = .ok embs ∧ ∃ s emb, (s, emb) ∈ embs ∧ 172 ≤ s.1 ∧ 172 ≤ s.2 := by
  obtain ⟨nodes, edges, hG, hF⟩ := exists_faultless (T := .pegasus 16 Asking.off) Asking.off_lt
  exact ⟨nodes, edges, hG, C119_pegasus (lo := 1) (hi := 5) hG hF Asking.off_range (by decide) revDraws_perm revDraws_perm⟩

seal Asking.program

/-- The queries of the next example. -/
def Asking.queries : List (BiQuestion Nat × Chance × Option Nat) :=
  [(bi cellA 1 .largest, calm, none), (bi cellA 2 .largest, calm, some 0), (bi cellA 2 (.pair (.nodes [7, 8]) (.nodes [9])), calm, none)]

/-- The hypotheses of `C118_repeat_partial`, `C118_valid` and `C119_answer` are met by three queries with two different seeds, one of them killed. -/
example (S : Sorting) : ∃ x A B items, x = (askBi (Asking.program S) id id Asking.calm (Asking.bi Asking.cellA 2 (.pair (.nodes [7, 8]) (.nodes [9]))) Dir.empty).1 ∧ x = .ok items ∧ items.Perm ([7, 8].zip A ++ [9].zip B) ∧
    A.length = 2 ∧ B.length = 1 ∧ BicliqueEmbedding Asking.cellA.nodes Asking.cellA.edges A B := by
  obtain ⟨x, hx⟩ : ∃ x, (Asking.bi Asking.cellA 2 (.pair (.nodes [7, 8]) (.nodes [9])), x) ∈ asksBi (Asking.program S) id id Asking.queries Dir.empty := by
    simp only [Asking.queries, asksBi]
    exact ⟨_, List.mem_cons_of_mem _ List.mem_cons_self⟩
  have hP := Asking.program_ok S
  have hord : Listing.Ok id := fun _ => .refl _
  have h1 : ∀ e ∈ Asking.queries, e.2.1.Ok ∧ ∀ g, e.1.g = some g → g.Wide := by
    have : ∀ z query, (∀ g, (Asking.bi Asking.cellA z query).g = some g → g.Wide) := by
      rintro z query g hg; cases hg; exact Asking.cellA_wide
    simp only [Asking.queries, List.mem_cons, List.not_mem_nil, or_false, forall_eq_or_imp, forall_eq]
    exact ⟨⟨Asking.calm_ok, this _ _⟩, ⟨Asking.calm_ok, this _ _⟩, Asking.calm_ok, this _ _⟩
  have h2 : NotEvicting (Asking.program S).limit (biRequests (Asking.program S) id Asking.queries) Dir.empty := by
    obtain ⟨M1, e1, hM1, b1, r1⟩ := biRequest_ok (ord := id) hP Asking.cellA_wide Asking.calm_ok (Rng.amplify (BitVec.ofInt 32 1))
    obtain ⟨M2, e2, hM2, b2, r2⟩ := biRequest_ok (ord := id) hP Asking.cellA_wide Asking.calm_ok (Rng.amplify (BitVec.ofInt 32 2))
    have q1 := biRequestOf_some (q := Asking.bi Asking.cellA 1 .largest) (c := Asking.calm) (g := Asking.cellA) rfl (Asking.bi_open Asking.cellA_ok (by decide)) r1
    have q2 := biRequestOf_some (q := Asking.bi Asking.cellA 2 .largest) (c := Asking.calm) (g := Asking.cellA) rfl (Asking.bi_open Asking.cellA_ok (by decide)) r2
    have q3 := biRequestOf_some (q := Asking.bi Asking.cellA 2 (.pair (.nodes [7, 8]) (.nodes [9]))) (c := Asking.calm) (g := Asking.cellA) rfl (Asking.bi_open Asking.cellA_ok (by decide)) r2
    simp only [biRequests, Asking.queries, List.filterMap_cons, q1, q2, q3, List.filterMap_nil]
    simp only [NotEvicting, evicts, and_self]
  have hz : (SeedArg.int 2).Valid := show (0 : Int) ≤ 2 ∧ (2 : Int) < 2 ^ 32 by decide
  have hw := faultless_weave Asking.cellA_faultless (y0 := 0) (y1 := 0) (x0 := 0) (x1 := 0) (t := 2) (by decide) (by decide)
    (fun w k z _ a b _ c => ⟨_, show _ ∧ _ ∧ _ ∧ _ from ⟨by omega, by omega, b, rfl⟩⟩) (fun w k z _ a b _ c => ⟨_, show _ ∧ _ ∧ _ ∧ _ from ⟨by omega, by omega, b, rfl⟩⟩)
  have := C118_valid hP hord (fun _ _ h => h) h1 h2 hx (g := Asking.cellA) rfl hz
  obtain ⟨A, B, items, a1, a2, a3, a4, a5⟩ := C119_answer hP hord h1 h2 hx (g := Asking.cellA) rfl hz (by simp [Asking.bi]) (faultless_few Asking.cellA_faultless) hw rfl (by decide) (by decide) (by decide)
  exact ⟨x, A, B, items, C118_repeat_partial hP h1 h2 hx (by simp [Asking.bi]) (by rintro g hg hf; cases hg; cases hf) Asking.calm_ok, a1, a2, a3, a4, a5⟩

/-- The hypotheses of `C118_pegasus` are met in `pegasus_graph(16)` without faults. -/
example (S : Sorting) : ∃ g : Target, g.T = .pegasus 16 Asking.off ∧ asksBi (Asking.program S) id id [(Asking.bi g 1 .largest, Asking.calm, none), (Asking.bi g 2 .largest, Asking.calm, none)] Dir.empty =
    [(Asking.bi g 1 .largest, (askBi (Asking.program S) id id Asking.calm (Asking.bi g 1 .largest) Dir.empty).1), (Asking.bi g 2 .largest, (askBi (Asking.program S) id id Asking.calm (Asking.bi g 1 .largest) Dir.empty).1)] := by
  obtain ⟨nodes, edges, hG, hF⟩ := exists_faultless (T := .pegasus 16 Asking.off) Asking.off_lt
  have hg : (Target.mk (.pegasus 16 Asking.off) nodes edges).Wide := ⟨⟨hG, fun u i => ⟨Asking.off_lt u i, fun h => if_neg (by omega)⟩⟩, (show 0 < 6 * 16 by decide), (show 0 < 6 * 16 by decide)⟩
  have hP := Asking.program_ok S
  refine ⟨⟨_, nodes, edges⟩, rfl, ?_⟩
  refine C118_pegasus hP (q := Asking.bi ⟨.pegasus 16 Asking.off, nodes, edges⟩ 1 .largest) (s := .int 2) rfl hg rfl (show (0 : Int) ≤ 1 ∧ (1 : Int) < 2 ^ 32 by decide)
    (show (0 : Int) ≤ 2 ∧ (2 : Int) < 2 ^ 32 by decide) Asking.calm_ok Asking.calm_ok ?_
  have o := Asking.bi_open hg.1 (z := 1) (query := .largest) (by decide)
  obtain ⟨M, e1, hM, b1, _⟩ := biRequest_ok (ord := id) hP hg Asking.calm_ok (Rng.amplify (BitVec.ofInt 32 1))
  obtain ⟨embs, e, s, emb, hmem, _⟩ := C119_pegasus (lo := 1) (hi := 5) hG hF Asking.off_range (by decide) (hP.draws _ (Rng.amplify (BitVec.ofInt 32 1)) M).1 (hP.draws _ (Rng.amplify (BitVec.ofInt 32 1)) M).2
  rw [b1] at e
  cases e
  rw [askBi_fresh hP hg rfl Asking.calm_ok o hM b1]
  have hit := found_items hg.1.1 hg.2.1 hg.2.2 (hP.draws _ _ _).1 (hP.draws _ _ _).2 (ord := id) (fun _ => .refl _) b1
  obtain ⟨b, b2, A, B, b3, _⟩ := C62_partial hit (List.ne_nil_of_mem hmem)
  rw [b2]
  show fromBicliques id .largest (.ok b) ≠ _
  simp only [fromBicliques, b3]
  exact fun h => nomatch h

end MM
