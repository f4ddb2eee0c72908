import Mathlib.Data.List.Rotate
import Verif.Props.Repeat

/-! C116: calls of `find_clique_embedding` that refute it, and calls that meet the hypotheses of its theorems. -/

namespace MM

open Bus Lattice Spec Disk

namespace Asking

/-- Calls with an empty memory. -/
def calm : Chance := ⟨0, fun n => List.replicate n 0⟩

theorem calm_ok : calm.Ok := fun _ => List.length_replicate

/-- Draws that turn the list of missing couplers round by five places. -/
def turnDraws : Draws := ⟨fun _ l => l.rotate 5, fun n m => decide ((n * m + 1) % 2 = 0)⟩

theorem turnDraws_perm : turnDraws.Perm := fun _ l => List.rotate_perm l 5

/-- A program whose generator gives these draws for seed 1 and others for all other seeds. -/
def program (S : Sorting) : Build := ⟨fun _ s _ => if s = Rng.amplify 1 then (turnDraws, turnDraws) else (revDraws, revDraws), S, 9, 100⟩

theorem program_ok (S : Sorting) : (program S).Ok := by
  refine ⟨by show 0 < 100; decide, fun T s M => ?_⟩
  simp only [program]
  split
  · exact ⟨turnDraws_perm, turnDraws_perm⟩
  · exact ⟨revDraws_perm, revDraws_perm⟩

/-- `chimera_graph(1, 1, 2)`, and the same graph with its edges in another order. -/
def cellA : Target := ⟨.chimera 1 1 2, [0, 1, 2, 3], [(0, 2), (0, 3), (1, 2), (1, 3)]⟩
def cellB : Target := ⟨.chimera 1 1 2, [0, 1, 2, 3], [(1, 3), (0, 3), (1, 2), (0, 2)]⟩

theorem cellA_ok : cellA.Ok := by
  refine ⟨⟨show 2 ≤ 8 by decide, ?_, by decide, ?_⟩, by decide, by decide, by decide⟩
  · have : ∀ q ∈ [0, 1, 2, 3], q < 4 := by decide
    exact this
  · have : ∀ e ∈ cellA.edges, e ∈ chimeraEdges 1 1 2 := by decide +kernel
    exact fun e he => .inl (chimeraEdges_coupled (this e he))

theorem cellB_ok : cellB.Ok := by
  refine ⟨⟨show 2 ≤ 8 by decide, ?_, by decide, ?_⟩, by decide, by decide, by decide⟩
  · have : ∀ q ∈ [0, 1, 2, 3], q < 4 := by decide
    exact this
  · have : ∀ e ∈ cellB.edges, e ∈ chimeraEdges 1 1 2 := by decide +kernel
    exact fun e he => .inl (chimeraEdges_coupled (this e he))

/-- A cell with two complete bipartite halves that share a coupler; eight internal couplers are missing. -/
def halves : Target := ⟨.chimera 1 1 5, List.range 10, [(0, 5), (0, 6), (0, 7), (1, 5), (1, 6), (1, 7), (2, 5), (2, 6), (2, 7), (2, 8), (2, 9), (3, 7), (3, 8), (3, 9), (4, 7), (4, 8), (4, 9)]⟩

/-- The missing couplers of `halves`. -/
def gaps : List (Nat × Nat) := [(0, 8), (0, 9), (1, 8), (1, 9), (3, 5), (3, 6), (4, 5), (4, 6)]

theorem halves_ok : halves.Ok := by
  refine ⟨⟨show 5 ≤ 8 by decide, ?_, by decide, ?_⟩, by decide, by decide, by decide⟩
  · have : ∀ q ∈ List.range 10, q < 10 := by decide
    exact this
  · have : ∀ e ∈ halves.edges, e ∈ chimeraEdges 1 1 5 := by decide +kernel
    exact fun e he => .inl (chimeraEdges_coupled (this e he))

/-- `find_clique_embedding(labels, g, seed)`. -/
def query (g : Target) (labels : List String) (z : Int) : Question String := ⟨.nodes labels, some g, .int z, true⟩

theorem query_open {g : Target} (hg : g.Ok) {labels : List String} {z : Int} (hz : 0 ≤ z ∧ z < 2 ^ 32) : openGraph calm.entropy g (seedGiven (query g labels z).useCache (query g labels z).seed) = .ok (Rng.amplify (BitVec.ofInt 32 z)) := by
  have ht : tileSupported g.T = true := by
    have := hg.1.supported
    revert this
    cases g.T <;> simp [tileSupported, Supported]
  unfold openGraph
  rw [if_pos ht]
  have : internalSeed calm.entropy (seedGiven (query g labels z).useCache (query g labels z).seed) = .ok (BitVec.ofInt 32 z) := if_pos hz
  rw [this]

end Asking

/-- C116 is false of the code: after a call for a graph listed in one order, a call for the same graph listed in another order is answered with what was found for the first, which is not the answer it gets alone. -/
theorem C116_listing (S : Sorting) : Asking.cellA.Ok ∧ Asking.cellB.Ok ∧ SameButOdd Asking.cellA.T Asking.cellA.nodes Asking.cellA.edges Asking.cellB.nodes Asking.cellB.edges ∧
    asks (Asking.program S) (fun _ => "") [(Asking.query Asking.cellA ["x", "y"] 0, Asking.calm, none), (Asking.query Asking.cellB ["x", "y"] 0, Asking.calm, none)] Dir.empty =
      [(Asking.query Asking.cellA ["x", "y"] 0, .ok [("x", [0]), ("y", [2])]), (Asking.query Asking.cellB ["x", "y"] 0, .ok [("x", [0]), ("y", [2])])] ∧
    (ask (Asking.program S) (fun _ => "") Asking.calm (Asking.query Asking.cellB ["x", "y"] 0) Dir.empty).1 = .ok [("x", [1]), ("y", [3])] := by
  have hP := Asking.program_ok S
  have o1 := Asking.query_open Asking.cellA_ok (labels := ["x", "y"]) (z := 0) (by decide)
  have o2 := Asking.query_open Asking.cellB_ok (labels := ["x", "y"]) (z := 0) (by decide)
  obtain ⟨M, e1, hM, b1, r1⟩ := cacheRequest_ok hP Asking.cellA_ok Asking.calm_ok (Rng.amplify (BitVec.ofInt 32 0))
  obtain ⟨M', e2, hM', b2, r2⟩ := cacheRequest_ok hP Asking.cellB_ok Asking.calm_ok (Rng.amplify (BitVec.ofInt 32 0))
  have hMM : M = M' := by
    have : (buildMasks Asking.cellA.T Asking.cellA.nodes Asking.cellA.edges).toOption = (buildMasks Asking.cellB.T Asking.cellB.nodes Asking.cellB.edges).toOption := by decide +kernel
    rw [hM, hM'] at this
    exact Option.some.inj this
  subst hMM
  have hd : (Asking.program S).draws (.chimera 1 1 2) (Rng.amplify (BitVec.ofInt 32 0)) M = (revDraws, revDraws) := by
    have : ¬Rng.amplify (BitVec.ofInt 32 0) = Rng.amplify 1 := by decide +kernel
    simp only [Asking.program]
    rw [if_neg this]
  have b1' : bestCliques (.chimera 1 1 2) 64 revDraws revDraws Asking.cellA.nodes Asking.cellA.edges = .ok [[], [[0], [2]], [[0, 2], [1, 3]]] := of_toOption (by decide +kernel)
  have b2' : bestCliques (.chimera 1 1 2) 64 revDraws revDraws Asking.cellB.nodes Asking.cellB.edges = .ok [[], [[1], [3]], [[0, 2], [1, 3]]] := of_toOption (by decide +kernel)
  have x1 : e1 = [[], [[0], [2]], [[0, 2], [1, 3]]] := by
    have h : bestCliques (.chimera 1 1 2) 64 ((Asking.program S).draws (.chimera 1 1 2) (Rng.amplify (BitVec.ofInt 32 0)) M).1 ((Asking.program S).draws (.chimera 1 1 2) (Rng.amplify (BitVec.ofInt 32 0)) M).2 Asking.cellA.nodes Asking.cellA.edges = .ok e1 := b1
    rw [hd, b1'] at h
    cases h; rfl
  have x2 : e2 = [[], [[1], [3]], [[0, 2], [1, 3]]] := by
    have h : bestCliques (.chimera 1 1 2) 64 ((Asking.program S).draws (.chimera 1 1 2) (Rng.amplify (BitVec.ofInt 32 0)) M).1 ((Asking.program S).draws (.chimera 1 1 2) (Rng.amplify (BitVec.ofInt 32 0)) M).2 Asking.cellB.nodes Asking.cellB.edges = .ok e2 := b2
    rw [hd, b2'] at h
    cases h; rfl
  subst x1 x2
  refine ⟨Asking.cellA_ok, Asking.cellB_ok, sameButOdd_of_masks Asking.cellA_ok.1 Asking.cellB_ok.1 hM hM', ?_, ?_⟩
  · have q1 : requestOf (Asking.program S) Asking.calm (Asking.query Asking.cellA ["x", "y"] 0) = _ := requestOf_cache rfl rfl o1 r1
    have q2 : requestOf (Asking.program S) Asking.calm (Asking.query Asking.cellB ["x", "y"] 0) = _ := requestOf_cache rfl rfl o2 r2
    have hT : Asking.cellB.T = Asking.cellA.T := rfl
    rw [hT] at q2
    generalize (serialFields Asking.cellA.T (Rng.amplify (BitVec.ofInt 32 0)) M).flatten = id at q1 q2
    generalize shortCode Asking.cellA.T id = code at q1 q2
    have := C42_results (limit := 100) (by decide) [(⟨id, code, false, some (Cache.make [[], [[0], [2]], [[0, 2], [1, 3]]])⟩ : Req (Family × BitVec 64) (List Byte) Cache.Cliques), ⟨id, code, false, some (Cache.make [[], [[1], [3]], [[0, 2], [1, 3]]])⟩]
    have e : (serveAll 100 [] [(⟨id, code, false, some (Cache.make [[], [[0], [2]], [[0, 2], [1, 3]]])⟩ : Req (Family × BitVec 64) (List Byte) Cache.Cliques), ⟨id, code, false, some (Cache.make [[], [[1], [3]], [[0, 2], [1, 3]]])⟩]).1 =
        [.ok (Cache.make [[], [[0], [2]], [[0, 2], [1, 3]]]), .ok (Cache.make [[], [[0], [2]], [[0, 2], [1, 3]]])] := by
      simp [serveAll, serve, held, keep, Cache.dget, Cache.dset]
    rw [e] at this
    simp only [execAll, List.cons.injEq, and_true] at this
    have hf : fromCache ["x", "y"] (.ok (Cache.make [[], [[0], [2]], [[0, 2], [1, 3]]])) = .ok [("x", [0]), ("y", [2])] := of_toOption (by decide +kernel)
    simp only [asks, ask, q1, q2]
    have hl : (Asking.program S).limit = 100 := rfl
    rw [hl, this.1, this.2]
    rfl
  · refine (ask_fresh hP Asking.cellB_ok rfl rfl Asking.calm_ok o2 hM' b2).trans ?_
    exact of_toOption (by decide +kernel)

/-- With eight internal couplers missing the seed matters: with seed 1 an embedding of three nodes is found, with seed 2 there is none, with or without earlier calls. So six cannot be replaced by eight in `C116_few`, whose hypotheses are
otherwise met. -/
theorem C116_seeds (S : Sorting) : Asking.halves.Ok ∧ FewMissing Asking.halves.T Asking.halves.nodes Asking.halves.edges 8 ∧
    (ask (Asking.program S) (fun _ => "") Asking.calm (Asking.query Asking.halves ["x", "y", "z"] 1) Dir.empty).1 = .ok [("x", [2, 7]), ("y", [3, 8]), ("z", [4, 9])] ∧
    (ask (Asking.program S) (fun _ => "") Asking.calm (Asking.query Asking.halves ["x", "y", "z"] 2) Dir.empty).1 = .ok [] := by
  have hP := Asking.program_ok S
  refine ⟨Asking.halves_ok, ?_, ?_, ?_⟩
  · refine ⟨Asking.gaps, by decide, ?_⟩
    rintro p _ q _ ⟨-, y, x, k, y', x', k', hy, hx, hk, hy', hx', hk', rfl, rfl⟩
    obtain rfl : y = 0 := by omega
    obtain rfl : x = 0 := by omega
    obtain rfl : y' = 0 := by omega
    obtain rfl : x' = 0 := by omega
    have : ∀ k : Fin 5, ∀ k' : Fin 5, ((chimeraNum 1 5 0 0 0 k, chimeraNum 1 5 0 0 1 k') ∈ Asking.halves.edges ∨ (chimeraNum 1 5 0 0 1 k', chimeraNum 1 5 0 0 0 k) ∈ Asking.halves.edges) ∨
        (chimeraNum 1 5 0 0 0 k, chimeraNum 1 5 0 0 1 k') ∈ Asking.gaps := by decide +kernel
    exact this ⟨k, hk⟩ ⟨k', hk'⟩
  · have o := Asking.query_open Asking.halves_ok (labels := ["x", "y", "z"]) (z := 1) (by decide)
    obtain ⟨M, e1, hM, b1, r1⟩ := cacheRequest_ok hP Asking.halves_ok Asking.calm_ok (Rng.amplify (BitVec.ofInt 32 1))
    have hd : (Asking.program S).draws (.chimera 1 1 5) (Rng.amplify (BitVec.ofInt 32 1)) M = (Asking.turnDraws, Asking.turnDraws) := by
      have : Rng.amplify (BitVec.ofInt 32 1) = Rng.amplify 1 := by decide +kernel
      simp only [Asking.program]
      rw [if_pos this]
    have b1' : bestCliques (.chimera 1 1 5) 64 Asking.turnDraws Asking.turnDraws Asking.halves.nodes Asking.halves.edges = .ok [[], [[0], [5]], [[2, 7], [3, 8], [4, 9]]] := of_toOption (by decide +kernel)
    have x1 : e1 = [[], [[0], [5]], [[2, 7], [3, 8], [4, 9]]] := by
      have h : bestCliques (.chimera 1 1 5) 64 ((Asking.program S).draws (.chimera 1 1 5) (Rng.amplify (BitVec.ofInt 32 1)) M).1 ((Asking.program S).draws (.chimera 1 1 5) (Rng.amplify (BitVec.ofInt 32 1)) M).2 Asking.halves.nodes Asking.halves.edges = .ok e1 := b1
      rw [hd, b1'] at h
      cases h; rfl
    subst x1
    refine (ask_fresh hP Asking.halves_ok rfl rfl Asking.calm_ok o hM b1).trans ?_
    exact of_toOption (by decide +kernel)
  · have o := Asking.query_open Asking.halves_ok (labels := ["x", "y", "z"]) (z := 2) (by decide)
    obtain ⟨M, e1, hM, b1, r1⟩ := cacheRequest_ok hP Asking.halves_ok Asking.calm_ok (Rng.amplify (BitVec.ofInt 32 2))
    have hd : (Asking.program S).draws (.chimera 1 1 5) (Rng.amplify (BitVec.ofInt 32 2)) M = (revDraws, revDraws) := by
      have : ¬Rng.amplify (BitVec.ofInt 32 2) = Rng.amplify 1 := by decide +kernel
      simp only [Asking.program]
      rw [if_neg this]
    have b1' : bestCliques (.chimera 1 1 5) 64 revDraws revDraws Asking.halves.nodes Asking.halves.edges = .ok [[], [[0], [5]], [[2, 5]]] := of_toOption (by decide +kernel)
    have x1 : e1 = [[], [[0], [5]], [[2, 5]]] := by
      have h : bestCliques (.chimera 1 1 5) 64 ((Asking.program S).draws (.chimera 1 1 5) (Rng.amplify (BitVec.ofInt 32 2)) M).1 ((Asking.program S).draws (.chimera 1 1 5) (Rng.amplify (BitVec.ofInt 32 2)) M).2 Asking.halves.nodes Asking.halves.edges = .ok e1 := b1
      rw [hd, b1'] at h
      cases h; rfl
    subst x1
    refine (ask_fresh hP Asking.halves_ok rfl rfl Asking.calm_ok o hM b1).trans ?_
    exact of_toOption (by decide +kernel)

/-- Six offsets in each direction. -/
def Asking.off (u : Bool) (i : Nat) : Nat := if i < 6 then pegasusOff u i else 0

/-- The Pegasus graph of `peg_wf`. -/
def Asking.peg : Target := ⟨.pegasus 3 off, pegNodes, pegEdges⟩

theorem Asking.peg_ok : peg.Ok := by
  have hlt : ∀ u i, off u i < 6 := by
    intro u i
    unfold off
    split
    · exact pegasusOff_lt u i
    · decide
  refine ⟨⟨hlt, ?_, by decide, ?_⟩, fun u i => ⟨hlt u i, fun h => if_neg (by omega)⟩⟩
  · intro q hq
    have : ∀ q ∈ pegNodes, q < 24 * 3 * (3 - 1) := by decide
    exact this q hq
  · intro e he
    simp only [peg, pegEdges, List.mem_cons, List.not_mem_nil, or_false] at he
    refine .inl ?_
    rcases he with rfl | rfl | rfl | rfl | rfl | rfl
    · exact .external (by decide) (by decide) (by decide) (by decide)
    · exact .odd (j := 0) (by decide) (by decide) (by decide) (by decide)
    all_goals exact .cross (by decide) (by decide) (by decide) (by decide) (by decide) (by decide) (by decide) (by decide) (by decide) (by decide)

seal Asking.program

/-- The calls of the next example. -/
def Asking.calls : List (Question String × Chance × Option Nat) :=
  [(query halves ["x", "y", "z"] 2, calm, none), (query halves ["x", "y", "z"] 3, calm, some 0), (query halves ["x", "y", "z"] 1, calm, none)]

/-- The hypotheses of `C116_repeat_partial` are met by three calls with three different seeds, one of them killed. -/
example (S : Sorting) : ∃ x, x = (ask (Asking.program S) (fun _ => "") Asking.calm (Asking.query Asking.halves ["x", "y", "z"] 1) Dir.empty).1 ∧
    (Asking.query Asking.halves ["x", "y", "z"] 1, x) ∈ asks (Asking.program S) (fun _ => "") Asking.calls Dir.empty := by
  obtain ⟨x, hx⟩ : ∃ x, (Asking.query Asking.halves ["x", "y", "z"] 1, x) ∈ asks (Asking.program S) (fun _ => "") Asking.calls Dir.empty := by
    simp only [Asking.calls, asks]
    exact ⟨_, List.mem_cons_of_mem _ List.mem_cons_self⟩
  have hs : (Asking.query Asking.halves ["x", "y", "z"] 1).Seeded := ⟨by simp [Asking.query], .inl rfl⟩
  have hP := Asking.program_ok S
  have h1 : ∀ e ∈ Asking.calls, e.2.1.Ok ∧ ∀ g, e.1.g = some g → g.Ok := by
    have : ∀ z, (∀ g, (Asking.query Asking.halves ["x", "y", "z"] z).g = some g → g.Ok) := by
      rintro z g hg; cases hg; exact Asking.halves_ok
    simp only [Asking.calls, List.mem_cons, List.not_mem_nil, or_false, forall_eq_or_imp, forall_eq]
    exact ⟨⟨Asking.calm_ok, this 2⟩, ⟨Asking.calm_ok, this 3⟩, Asking.calm_ok, this 1⟩
  have h2 : NotEvicting (Asking.program S).limit (requests (Asking.program S) Asking.calls) Dir.empty := by
    obtain ⟨M1, e1, hM1, b1, r1⟩ := cacheRequest_ok hP Asking.halves_ok Asking.calm_ok (Rng.amplify (BitVec.ofInt 32 1))
    obtain ⟨M2, e2, hM2, b2, r2⟩ := cacheRequest_ok hP Asking.halves_ok Asking.calm_ok (Rng.amplify (BitVec.ofInt 32 2))
    obtain ⟨M3, e3, hM3, b3, r3⟩ := cacheRequest_ok hP Asking.halves_ok Asking.calm_ok (Rng.amplify (BitVec.ofInt 32 3))
    have q1 := requestOf_cache (q := Asking.query Asking.halves ["x", "y", "z"] 1) (c := Asking.calm) (g := Asking.halves) rfl rfl (Asking.query_open Asking.halves_ok (labels := ["x", "y", "z"]) (z := 1) (by decide)) r1
    have q2 := requestOf_cache (q := Asking.query Asking.halves ["x", "y", "z"] 2) (c := Asking.calm) (g := Asking.halves) rfl rfl (Asking.query_open Asking.halves_ok (labels := ["x", "y", "z"]) (z := 2) (by decide)) r2
    have q3 := requestOf_cache (q := Asking.query Asking.halves ["x", "y", "z"] 3) (c := Asking.calm) (g := Asking.halves) rfl rfl (Asking.query_open Asking.halves_ok (labels := ["x", "y", "z"]) (z := 3) (by decide)) r3
    simp only [requests, Asking.calls, List.filterMap_cons, q1, q2, q3, List.filterMap_nil]
    simp only [NotEvicting, evicts, and_self]
  -- `C116_valid` applies too.
  have : ∃ e, x = .ok (["x", "y", "z"].zip e) ∧ (e = [] ∨ 3 ≤ e.length) ∧ CliqueEmbedding Asking.halves.nodes Asking.halves.edges e :=
    C116_valid hP h1 h2 hx (g := Asking.halves) rfl rfl ⟨by decide, by decide⟩ (.inr rfl) (by decide)
  refine ⟨x, C116_repeat_partial hP h1 h2 hx hs ?_ ?_ Asking.calm_ok, hx⟩
  · rintro g hg _
    exact .inl (by cases hg; decide)
  · rintro g hg _ hf
    cases hg; cases hf

/-- The hypotheses of `C116_few` are met: nothing is missing in the cell. -/
example : FewMissing Asking.cellA.T Asking.cellA.nodes Asking.cellA.edges 6 := by
  refine ⟨[], by decide, ?_⟩
  rintro p _ q _ ⟨-, y, x, k, y', x', k', hy, hx, hk, hy', hx', hk', rfl, rfl⟩
  obtain rfl : y = 0 := by omega
  obtain rfl : x = 0 := by omega
  obtain rfl : y' = 0 := by omega
  obtain rfl : x' = 0 := by omega
  have : ∀ k < 2, ∀ k' < 2, ((chimeraNum 1 2 0 0 0 k, chimeraNum 1 2 0 0 1 k') ∈ Asking.cellA.edges ∨ (chimeraNum 1 2 0 0 1 k', chimeraNum 1 2 0 0 0 k) ∈ Asking.cellA.edges) := by decide +kernel
  exact .inl (this k hk k' hk')

/-- In Pegasus the second of two calls with different seeds gets the answer of the first. -/
example (S : Sorting) : asks (Asking.program S) (fun _ => "") [(Asking.query Asking.peg ["x", "y"] 1, Asking.calm, none), (Asking.query Asking.peg ["x", "y"] 2, Asking.calm, none)] Dir.empty =
    [(Asking.query Asking.peg ["x", "y"] 1, (ask (Asking.program S) (fun _ => "") Asking.calm (Asking.query Asking.peg ["x", "y"] 1) Dir.empty).1),
      (Asking.query Asking.peg ["x", "y"] 2, (ask (Asking.program S) (fun _ => "") Asking.calm (Asking.query Asking.peg ["x", "y"] 1) Dir.empty).1)] :=
  C116_pegasus (Asking.program_ok S) (q := Asking.query Asking.peg ["x", "y"] 1) (s := .int 2) rfl rfl Asking.peg_ok rfl (show (0 : Int) ≤ 1 ∧ (1 : Int) < 2 ^ 32 by decide)
    (show (0 : Int) ≤ 2 ∧ (2 : Int) < 2 ^ 32 by decide) Asking.calm_ok Asking.calm_ok

/-- Four mutually coupled qubits of a Zephyr graph, as many as `C49_number` allows. -/
example : IsClique [0, 1, 8, 9] [(0, 1), (0, 8), (0, 9), (1, 8), (1, 9), (8, 9)] [0, 1, 8, 9] := by
  refine ⟨by decide, ?_⟩
  simp [Coupler]

end MM
