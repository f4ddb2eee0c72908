import Verif.Props.SubMaximal
import Verif.Props.Lattice

/-! C129 for tiles made by `find_sublattice_embeddings` itself: the lower bound on the size of the lattice. -/

namespace MM

open Py Spec.Py

variable {α β γ : Type} [DecidableEq α] [DecidableEq β] [DecidableEq γ]

namespace Py

omit [DecidableEq α] [DecidableEq β] in
/-- Single nodes make a subgraph. -/
theorem place_embeds {S : Graph α} (hS : S.WF) (hne : S.nodes ≠ []) {G : Graph β} {emb : α → Option (List β)} (hp : Place false S G emb) : Embeds true S G := by
  have hx : ∀ x, x ∈ S.nodes → ∃ q, emb x = some [q] ∧ (S.Adj x x → G.Adj q q) := hp.single rfl
  obtain ⟨x0, hx0⟩ := List.exists_mem_of_ne_nil _ hne
  obtain ⟨q0, -, -⟩ := hx x0 hx0
  have hmem : ∀ x y, S.Adj x y → x ∈ S.nodes ∧ y ∈ S.nodes := fun x y hxy => hxy.elim (fun h => hS.2 _ h) fun h => (hS.2 _ h).symm
  have hval : ∀ {x q}, emb x = some [q] → ((emb x).bind List.head?).getD q0 = q := fun h => by rw [h]; rfl
  refine ⟨fun x => ((emb x).bind List.head?).getD q0, fun x hxm => ?_, fun x hxm y hym hxy => ?_, fun x y hxy => ?_⟩
  · obtain ⟨q, h1, -⟩ := hx x hxm
    rw [hval h1]
    exact hp.minor.nodes x hxm _ h1 q (List.mem_singleton.mpr rfl)
  · obtain ⟨q, h1, -⟩ := hx x hxm
    obtain ⟨r, h2, -⟩ := hx y hym
    rw [hval h1, hval h2] at hxy
    by_contra hne
    exact hp.minor.disjoint x hxm y hym hne _ _ h1 h2 q (List.mem_singleton.mpr rfl) (by rw [hxy]; exact List.mem_singleton.mpr rfl)
  · obtain ⟨q, h1, h1'⟩ := hx x (hmem x y hxy).1
    obtain ⟨r, h2, -⟩ := hx y (hmem x y hxy).2
    rw [hval h1, hval h2]
    by_cases hxye : x = y
    · subst hxye
      rw [h1] at h2; cases h2
      exact h1' hxy
    · obtain ⟨a, ha, b, hb, hab⟩ := hp.minor.edges x y hxy hxye _ _ h1 h2
      rw [List.mem_singleton.mp ha, List.mem_singleton.mp hb] at hab
      exact hab

end Py

/-- With `one_to_one` and a target graph given, `None` from `lattice_size_lower_bound` means that the source graph fits into the target graph not at all, or into no lattice of the family.
Networkx colours bipartite graphs with two colours when asked to proceed breadth-first. -/
theorem C32_none_target_partial {A : BoundArgs α γ} (L : Lattices A.gen) (hS : A.S.WF) (hs : Simple A.S) {T : Graph β} {info : TargetInfo} (hT : A.target = some info)
    (hans : ∃ same, info.answer = decide (feasible same A.S T true ≠ .ok false)) {fam : Family} {t : Nat} (hu : InUse A fam t)
    (hc : (∃ side : α → Bool, ∀ v w, A.S.Adj v w → side v ≠ side w) → ∀ v ∈ A.S.nodes, A.colour v < 2)
    {fuel : Nat} (h : latticeBound A fuel = some (.ok none)) : ¬ Embeds true A.S T ∨ ∀ m, ¬ Embeds true A.S (A.gen fam t m) := by
  unfold latticeBound at h
  cases hset : settle A with
  | error x => rw [hset] at h; cases h
  | ok o =>
    rw [hset] at h
    cases o with
    | none =>
      left
      rintro ⟨f, hf⟩
      obtain ⟨same, hans⟩ := hans
      rw [C31_subgraph_accepted hS hs hf same, decide_eq_true (by nofun)] at hans
      unfold settle at hset
      rw [hT] at hset
      dsimp only at hset
      rw [if_neg (by rw [hans]; simp)] at hset
      split at hset
      · split at hset <;> cases hset
      · split at hset
        · split at hset <;> cases hset
        · cases hset
    | some x =>
      right
      rintro m ⟨f, hf⟩
      have := settle_inUse hu hset
      subst this
      dsimp only at h
      split at h
      · cases h
      split at h
      · rename_i hcol
        obtain ⟨h1, h2⟩ := hcol
        subst h1
        obtain ⟨side, hside⟩ := L.bipartite t m
        have h3 := hc ⟨fun v => side (f v), fun v w hvw => hside _ _ (hf.edges v w hvw)⟩
        rw [List.any_eq_true] at h2
        obtain ⟨v, hv, h4⟩ := h2
        have := h3 v hv
        simp only [decide_eq_true_eq] at h4
        omega
      split at h
      · cases h
      split at h
      · cases h
      · split at h <;> cases h

/-- Where the tile is made from `sublattice_size`, it is refused if `lattice_size_lower_bound` finds `None` or a greater size. Then the tile or the target graph has no embedding of single nodes. -/
theorem C129_bound {A : BoundArgs α γ} (L : Lattices A.gen) (hS : A.S.WF) (hs : Simple A.S) (hne : A.S.nodes ≠ []) (hone : A.one = true) {T : Graph β} {info : TargetInfo}
    (hT : A.target = some info) (hans : ∃ same, info.answer = decide (feasible same A.S T true ≠ .ok false)) {fam : Family} {t : Nat} (hu : InUse A fam t)
    (hc : (∃ side : α → Bool, ∀ v w, A.S.Adj v w → side v ≠ side w) → ∀ v ∈ A.S.nodes, A.colour v < 2)
    {fuel size : Nat} (h : latticeBound A fuel = some (.ok none) ∨ ∃ k, latticeBound A fuel = some (.ok (some k)) ∧ size < k) :
    (∀ emb, ¬ Place false A.S (A.gen fam t size) emb) ∨ ∀ emb, ¬ Place false A.S T emb := by
  rcases h with h | ⟨k, h, hk⟩
  · rcases C32_none_target_partial L hS hs hT hans hu hc h with hno | hno
    · exact .inr fun emb hp => hno (place_embeds hS hne hp)
    · exact .inl fun emb hp => hno size (place_embeds hS hne hp)
  · refine .inl fun emb hp => ?_
    have := C32_lower_bound_partial L hS hs hne (by rw [hone]; nofun) hu h size (by rw [hone]; exact place_embeds hS hne hp)
    omega

/-- A path of nine nodes. -/
def Demo.path9 : Graph Nat := ⟨List.range 9, (List.range 8).map fun i => (i, i + 1)⟩

/-- The path on a Chimera graph with four cells: tiles of a single cell are refused, and rightly so. -/
def Demo.path9Args : BoundArgs Nat (Nat × Nat × Nat × Nat) :=
  { chimeraArgs path9 (fun v => v % 2) true with target := some { answer := true, family := some .chimera, tile := some 4 }, topology := none }

example : (∀ emb, ¬ Place false Demo.path9 (chimeraGraph 1 1 4) emb) ∨ ∀ emb, ¬ Place false Demo.path9 (chimeraGraph 2 2 4) emb :=
  C129_bound (A := Demo.path9Args) (T := chimeraGraph 2 2 4) Demo.chimeraGen_ok ⟨by decide, by decide⟩ (by unfold Simple; decide) (by decide) rfl rfl
    ⟨false, by decide +kernel⟩ (fam := .chimera) (t := 4) ⟨.inr ⟨rfl, _, rfl, rfl⟩, .inr ⟨rfl, .inr ⟨_, rfl, rfl⟩⟩⟩ (fun _ v _ => Nat.mod_lt v (by decide)) (fuel := 3) (size := 1)
    (.inr ⟨2, by decide +kernel, by decide⟩)

/-- For the complete graph with four nodes the answer is `None`: it is no subgraph of any Chimera graph. -/
example : ¬ Embeds true Demo.K4 (chimeraGraph 1 1 4) ∨ ∀ m, ¬ Embeds true Demo.K4 (Demo.chimeraGen .chimera 4 m) :=
  C32_none_target_partial (A := { Demo.chimeraArgs Demo.K4 id true with target := some { answer := true, family := some .chimera, tile := some 4 } }) (T := chimeraGraph 1 1 4)
    Demo.chimeraGen_ok ⟨by decide, by decide⟩ (by unfold Simple; decide) rfl ⟨false, by decide +kernel⟩ ⟨.inl rfl, .inr ⟨rfl, .inr ⟨_, rfl, rfl⟩⟩⟩
    (fun ⟨side, h⟩ => by
      have h01 := h 0 1 (by unfold Graph.Adj; decide)
      have h02 := h 0 2 (by unfold Graph.Adj; decide)
      have h12 := h 1 2 (by unfold Graph.Adj; decide)
      revert h01 h02 h12
      cases side 0 <;> cases side 1 <;> cases side 2 <;> simp) (fuel := 1) (by decide +kernel)

end MM
