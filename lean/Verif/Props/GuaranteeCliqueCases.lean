import Verif.Props.GuaranteeCases
import Verif.Props.GuaranteeClique

/-! C120: calls that meet the hypotheses of the theorems. -/

namespace MM

open Bus Lattice Spec Disk

/-- The hypotheses of `C120_chimera`, `C120_short` are met: two chains of two qubits in a cell. -/
example : ∃ r, bestCliques (.chimera 1 1 2) 64 revDraws revDraws Asking.cellA.nodes Asking.cellA.edges = .ok r ∧ ∃ e, r[1 + 1]? = some e ∧ 1 * 2 ≤ e.length ∧ ∀ c ∈ e, c.length ≤ 1 + 1 :=
  C120_chimera Asking.cellA_ok.1 Asking.cellA_faultless (by decide) (by decide) (by decide) (by decide) revDraws_perm revDraws_perm

/-- 64 chains of 17 qubits in `chimera_graph(16)`. -/
example : ∃ nodes edges, WFGraph (.chimera 16 16 4) nodes edges ∧ ∃ r, bestCliques (.chimera 16 16 4) 64 revDraws revDraws nodes edges = .ok r ∧ ∃ e, r[16 + 1]? = some e ∧ 64 ≤ e.length ∧ ∀ c ∈ e, c.length ≤ 16 + 1 := by
  obtain ⟨nodes, edges, hG, hF⟩ := exists_faultless (T := .chimera 16 16 4) (show 4 ≤ 8 by decide)
  exact ⟨nodes, edges, hG, C120_chimera hG hF (by decide) (by decide) (by decide) (by decide) revDraws_perm revDraws_perm⟩

/-- The hypotheses of `C120_zephyr` are met: 184 chains. -/
example : ∃ nodes edges, WFGraph (.zephyr 12 4) nodes edges ∧ ∃ r, bestCliques (.zephyr 12 4) 64 revDraws revDraws nodes edges = .ok r ∧ ∃ e ∈ r, 184 ≤ e.length := by
  obtain ⟨nodes, edges, hG, hF⟩ := exists_faultless (T := .zephyr 12 4) (show 4 ≤ 4 by decide)
  exact ⟨nodes, edges, hG, C120_zephyr hG hF (by decide) revDraws_perm revDraws_perm⟩

/-- The hypotheses of `C120_pegasus` and `C120_pegasus_usual` are met: 180 chains in `pegasus_graph(16)`. -/
example : ∃ nodes edges, WFGraph (.pegasus 16 Asking.off) nodes edges ∧ ∃ r, bestCliques (.pegasus 16 Asking.off) 64 revDraws revDraws nodes edges = .ok r ∧ (∃ e ∈ r, 172 ≤ e.length) ∧ ∃ e ∈ r, 180 ≤ e.length := by
  obtain ⟨nodes, edges, hG, hF⟩ := exists_faultless (T := .pegasus 16 Asking.off) Asking.off_lt
  obtain ⟨r, h1, h2⟩ := C120_pegasus (lo := 1) (hi := 5) hG hF Asking.off_range (by decide) revDraws_perm revDraws_perm
  obtain ⟨r', h3, h4⟩ := C120_pegasus_usual hG hF (by decide) (by decide) (by decide) revDraws_perm revDraws_perm
  rw [h1] at h3
  cases h3
  exact ⟨nodes, edges, hG, r, h1, h2, h4⟩

/-- A call for a clique on numbers. -/
def Asking.call (g : Target) (n : Nat) (useCache : Bool) : Question Nat := ⟨.number n, some g, .int 7, useCache⟩

seal Asking.program

/-- The hypotheses of `C120_answer` are met: 40 nodes in `zephyr_graph(3, 4)` without faults, with and without the cache. -/
example (S : Sorting) (u : Bool) : ∃ g : Target, g.T = .zephyr 3 4 ∧ ∃ A, (ask (Asking.program S) id Asking.calm (Asking.call g 40 u) Dir.empty).1 = .ok ((List.range 40).zip A) ∧ A.length = 40 ∧ CliqueEmbedding g.nodes g.edges A := by
  obtain ⟨nodes, edges, hG, hF⟩ := exists_faultless (T := .zephyr 3 4) (show 4 ≤ 4 by decide)
  have hg : (Target.mk (.zephyr 3 4) nodes edges).Ok := ⟨hG, by show 2 * 3 + 1 < 2 ^ 64 ∧ 2 * 4 < 2 ^ 64; decide⟩
  have hP := Asking.program_ok S
  refine ⟨⟨_, nodes, edges⟩, rfl, ?_⟩
  have hN : Nested (Topo.zephyr 3 4).dimY (Topo.zephyr 3 4).dimX 5 (fun _ => 1) (fun _ => 1) := nested_const (by decide) (by decide)
  have key : ∀ u w k z, 1 ≤ w → w ≤ 5 → k < 8 → 1 ≤ z → z ≤ 5 → ∃ q, Lies (.zephyr 3 4) q u w k z := by
    intro u w k z h1 h2 h3 h4 h5
    exact ⟨_, (z - k % 2) / 2, by omega, h3, by omega, rfl, by omega, by omega⟩
  have hst := faultless_stairs hF (t := 8) hN (fun i hi k hk z a b => by have := oldColumn_mem hN hi; exact key _ _ _ _ (by omega) (by omega) hk (by omega) (by omega))
    (fun i hi k hk z a b => by have := newRow_mem hN hi; exact key _ _ _ _ (by omega) (by omega) hk (by omega) (by omega))
  have hev : NotEvicting (Asking.program S).limit (requests (Asking.program S) [(Asking.call ⟨.zephyr 3 4, nodes, edges⟩ 40 u, Asking.calm, none)]) Dir.empty := by
    simp only [requests, List.filterMap_cons, List.filterMap_nil]
    generalize requestOf (Asking.program S) Asking.calm (Asking.call ⟨.zephyr 3 4, nodes, edges⟩ 40 u) = z
    match z with
    | .ok (some r) => simp only [NotEvicting, and_self]
    | .ok none => simp only [NotEvicting]
    | .error e => simp only [NotEvicting]
  have := C120_answer (int := id) hP (h := [(Asking.call ⟨.zephyr 3 4, nodes, edges⟩ 40 u, Asking.calm, none)]) (q := Asking.call ⟨.zephyr 3 4, nodes, edges⟩ 40 u)
    (by intro e he; rw [List.mem_singleton] at he; subst he; exact ⟨Asking.calm_ok, fun g hg' => by cases hg'; exact hg⟩) hev (List.mem_singleton.mpr rfl) (g := ⟨.zephyr 3 4, nodes, edges⟩) rfl
    (show (0 : Int) ≤ 7 ∧ (7 : Int) < 2 ^ 32 by decide) (by simp [Asking.call]) (.inr (by simp [Asking.call])) (faultless_few hF) hst (by decide) (show 4 < 40 by decide) (by rw [ellCount_range]; exact show 40 ≤ 5 * 8 by decide)
    (.inr (show 0 < 4 ∧ 2 * 4 < 40 by decide)) (by show (List.map id (List.range 40)).Nodup; rw [List.map_id]; exact List.nodup_range)
  simpa [Asking.call, numNodes, Question.count] using this

end MM
