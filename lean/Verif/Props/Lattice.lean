import Verif.Props.Feasible
import Verif.Props.Diagnose
import Verif.Py.Chimera

/-! Property C32: `lattice_size_lower_bound`. -/

namespace MM

open Py Spec.Py

variable {α γ : Type} [DecidableEq α] [DecidableEq γ]

/-- `S` embeds in `T`: as a subgraph if `one`, as a minor otherwise. -/
def Spec.Py.Embeds (one : Bool) (S : Graph α) (T : Graph γ) : Prop :=
  if one then ∃ f, SubgraphEmbedding S T f else ∃ emb, MinorEmbedding S T emb

/-- What is known of the lattices of dwave-graphs. -/
structure Spec.Py.Lattices (gen : Family → Nat → Nat → Graph γ) : Prop where
  chimera : ∀ t m, (gen .chimera t m).nodes.length ≤ m * m * 2 * t
  pegasus : ∀ t m, (gen .pegasus t m).nodes.length ≤ 8 * (3 * m - 1) * (m - 1)
  zephyr : ∀ t m, (gen .zephyr t m).nodes.length ≤ 4 * t * m * (2 * m + 1)
  /-- degrees -/
  chimera_degree : ∀ t m v, (gen .chimera t m).degree v ≤ 2 * t + 2
  pegasus_degree : ∀ t m v, (gen .pegasus t m).degree v ≤ 15
  zephyr_degree : ∀ t m v, (gen .zephyr t m).degree v ≤ 4 * t + 4
  /-- Chimera graphs are bipartite -/
  bipartite : ∀ t m, ∃ side : γ → Bool, ∀ v w, (gen .chimera t m).Adj v w → side v ≠ side w

/-- The degrees in the program's table are bounds. -/
theorem Spec.Py.Lattices.degree {gen : Family → Nat → Nat → Graph γ} (L : Lattices gen) {fam : Family} {t m top : Nat}
    (h : maxDegree t fam = some top) (v : γ) : (gen fam t m).degree v ≤ top := by
  cases fam with
  | chimera =>
    have := L.chimera_degree t m v
    simp only [maxDegree, Option.some.injEq] at h; omega
  | pegasus =>
    have := L.pegasus_degree t m v
    simp only [maxDegree, Option.some.injEq] at h; omega
  | zephyr =>
    have := L.zephyr_degree t m v
    simp only [maxDegree, Option.some.injEq] at h; omega
  | other => simp [maxDegree] at h

/-- The topology and the tile parameter asked for, if need be taken from the target. -/
def Spec.Py.InUse (A : BoundArgs α γ) (fam : Family) (t : Nat) : Prop :=
  (A.topology = some fam ∨ A.topology = none ∧ ∃ T, A.target = some T ∧ T.family = some fam) ∧
  (A.t = some t ∨ A.t = none ∧ ((A.target = none ∧ t = 4) ∨ ∃ T, A.target = some T ∧ T.tile = some t))

namespace Py

theorem settle_inUse {A : BoundArgs α γ} {fam : Family} {t : Nat} (h : InUse A fam t) {x : Option Family × Nat}
    (hx : settle A = .ok (some x)) : x = (some fam, t) := by
  obtain ⟨h1, h2⟩ := h
  unfold settle at hx
  cases hT : A.target with
  | some T =>
    rw [hT] at hx
    dsimp only at hx
    have ht : ∀ f, (match A.t, T.tile with
        | some t, _ => (.ok (some (f, t)) : Except PErr (Option (Option Family × Nat)))
        | none, some t => .ok (some (f, t))
        | none, none => .error .key) = .ok (some x) → x = (f, t) := by
      intro f hf
      rcases h2 with h2 | ⟨h2, h3⟩
      · rw [h2] at hf
        simp only [Except.ok.injEq, Option.some.injEq] at hf
        exact hf.symm
      · rcases h3 with ⟨h3, -⟩ | ⟨T', h3, h4⟩
        · rw [hT] at h3; cases h3
        · rw [hT] at h3
          cases h3
          rw [h2, h4] at hf
          simp only [Except.ok.injEq, Option.some.injEq] at hf
          exact hf.symm
    split at hx
    · cases hx
    rcases h1 with h1 | ⟨h1, T', h3, h4⟩
    · rw [h1] at hx
      dsimp only at hx
      split at hx
      · exact ht (some fam) hx
      · cases hx
    · rw [h1] at hx
      rw [hT] at h3
      cases h3
      have := ht T.family hx
      rw [h4] at this
      exact this
  | none =>
    rw [hT] at hx
    dsimp only at hx
    have htt : A.t.elim 4 id = t := by
      rcases h2 with h2 | ⟨h2, h3⟩
      · rw [h2]; rfl
      · rcases h3 with ⟨-, h3⟩ | ⟨T', h3, -⟩
        · rw [h2, h3]; rfl
        · rw [hT] at h3; cases h3
    rcases h1 with h1 | ⟨h1, T', h3, h4⟩
    · rw [h1, htt] at hx
      dsimp only at hx
      cases hd : (A.S.nodes.map A.S.degree).max? with
      | none => rw [hd] at hx; cases hx
      | some d =>
        rw [hd] at hx
        dsimp only at hx
        cases hm : maxDegree t fam with
        | none => rw [hm] at hx; cases hx
        | some top =>
          rw [hm] at hx
          dsimp only at hx
          split at hx
          · cases hx
          · simp only [Except.ok.injEq, Option.some.injEq] at hx
            exact hx.symm
    · rw [hT] at h3; cases h3

theorem firstSize_spec {t N k : Nat} {fam : Family} (h : firstSize t N fam = some k) (hf : fam ≠ .other) {m : Nat}
    (hm : match fam with
      | .chimera => N ≤ 4 * t * m ^ 2
      | .pegasus => 8 ≤ 12 * m ∧ 6 * N + 16 ≤ (12 * m - 8) ^ 2
      | .zephyr => 2 * N + t ≤ t * (4 * m + 1) ^ 2
      | .other => False) : k ≤ m := by
  unfold firstSize at h
  rw [List.find?_eq_some_iff_getElem] at h
  obtain ⟨h1, i, hi, h2, h3⟩ := h
  rw [List.getElem_range] at h2
  subst h2
  by_contra hc
  have h4 := h3 m (by omega)
  rw [List.getElem_range] at h4
  cases fam with
  | other => exact hf rfl
  | _ =>
    dsimp only at h4 hm
    rw [decide_eq_true hm] at h4
    simp at h4

theorem sizeLoop_spec {A : BoundArgs α γ} {fam : Family} {t m : Nat} (hm : feasible false A.S (A.gen fam t m) A.one = .ok true) :
    ∀ (fuel k : Nat), k ≤ m → (m < fuel + k → ∃ k', sizeLoop A fam t fuel k = some (.ok k')) ∧
      ∀ k', sizeLoop A fam t fuel k = some (.ok k') → k' ≤ m := by
  intro fuel
  induction fuel with
  | zero =>
    intro k hk
    refine ⟨fun h => by omega, ?_⟩
    intro k' h
    cases h
  | succ fuel ih =>
    intro k hk
    unfold sizeLoop
    obtain ⟨b, hb⟩ := C31_never_raises false A.one A.S (A.gen fam t k)
    rw [hb]
    cases b with
    | true =>
      refine ⟨fun _ => ⟨k, rfl⟩, ?_⟩
      intro k' h
      simp only [Option.some.injEq, Except.ok.injEq] at h
      omega
    | false =>
      have hne : k ≠ m := by
        rintro rfl
        rw [hm] at hb
        cases hb
      obtain ⟨h1, h2⟩ := ih (k + 1) (by omega)
      exact ⟨fun h => h1 (by omega), h2⟩

theorem feasible_of_embeds {S : Graph α} {T : Graph γ} {one : Bool} (hS : S.WF) (hs : Simple S) (hl : one = false → Loopless S)
    (h : Embeds one S T) : feasible false S T one = .ok true ∧ S.nodes.length ≤ T.nodes.length := by
  unfold Embeds at h
  have h1 : feasible false S T one = .ok true := by
    cases one with
    | true =>
      rw [if_pos rfl] at h
      obtain ⟨f, hf⟩ := h
      exact C31_subgraph_accepted hS hs hf false true
    | false =>
      rw [if_neg (by simp)] at h
      obtain ⟨emb, he⟩ := h
      exact C31_minor_embedding_accepted_partial hS hs (hl rfl) he false
  refine ⟨h1, ?_⟩
  by_contra hc
  unfold feasible at h1
  rw [if_neg (by simp), if_pos (by omega)] at h1
  cases h1

/-- The first size tried is no larger than any size that works. -/
theorem firstSize_le {A : BoundArgs α γ} (L : Lattices A.gen) {fam : Family} {t k m : Nat} (hne : A.S.nodes ≠ [])
    (hf : fam ≠ .other) (h : firstSize t A.S.nodes.length fam = some k) (hn : A.S.nodes.length ≤ (A.gen fam t m).nodes.length) : k ≤ m := by
  have hpos : 0 < A.S.nodes.length := List.length_pos_iff.mpr hne
  refine firstSize_spec h hf ?_
  cases fam with
  | other => exact hf rfl
  | chimera =>
    have := L.chimera t m
    dsimp only
    calc A.S.nodes.length ≤ m * m * 2 * t := hn.trans this
      _ ≤ m * m * 4 * t := by
        refine Nat.mul_le_mul_right _ (Nat.mul_le_mul_left _ (by omega))
      _ = 4 * t * m ^ 2 := by ring
  | pegasus =>
    have h1 := L.pegasus t m
    dsimp only
    have hm1 : 1 ≤ m - 1 := by
      by_contra hc
      have : m - 1 = 0 := by omega
      rw [this, Nat.mul_zero] at h1
      omega
    obtain ⟨x, rfl⟩ : ∃ x, m = x + 2 := ⟨m - 2, by omega⟩
    have e1 : 3 * (x + 2) - 1 = 3 * x + 5 := by omega
    have e2 : x + 2 - 1 = x + 1 := by omega
    have e3 : 12 * (x + 2) - 8 = 12 * x + 16 := by omega
    rw [e1, e2] at h1
    rw [e3]
    refine ⟨by omega, ?_⟩
    nlinarith
  | zephyr =>
    have h1 := L.zephyr t m
    dsimp only
    nlinarith

end Py

/-- What is proved of the property, part one: a number returned is at most the size of any lattice in which the source
embeds. Missing, as in C31, are sources with self-loops for minor embedding. -/
theorem C32_lower_bound_partial {A : BoundArgs α γ} (L : Lattices A.gen) (hS : A.S.WF) (hs : Simple A.S) (hne : A.S.nodes ≠ [])
    (hl : A.one = false → Loopless A.S) {fam : Family} {t : Nat} (hu : InUse A fam t) {fuel k : Nat}
    (h : latticeBound A fuel = some (.ok (some k))) (m : Nat) (hm : Embeds A.one A.S (A.gen fam t m)) : k ≤ m := by
  obtain ⟨h1, h2⟩ := feasible_of_embeds hS hs hl hm
  unfold latticeBound at h
  cases hset : settle A with
  | error x => rw [hset] at h; cases h
  | ok o =>
    rw [hset] at h
    cases o with
    | none => cases h
    | some x =>
      have := settle_inUse hu hset
      subst this
      dsimp only at h
      split at h
      · cases h
      rename_i hf
      split at h
      · cases h
      split at h
      · cases h
      cases hfs : firstSize t A.S.nodes.length fam with
      | none => rw [hfs] at h; cases h
      | some k0 =>
        rw [hfs] at h
        dsimp only at h
        have hk0 := firstSize_le L hne hf hfs h2
        have := (sizeLoop_spec h1 fuel k0 hk0).2
        cases hsl : sizeLoop A fam t fuel k0 with
        | none => rw [hsl] at h; cases h
        | some r =>
          rw [hsl] at h
          cases r with
          | error x => cases h
          | ok k1 =>
            simp only [Option.some.injEq, Except.ok.injEq] at h
            subst h
            exact this k1 hsl

/-- The call returns if the source embeds in a lattice of some size. -/
theorem C32_terminates_partial {A : BoundArgs α γ} (L : Lattices A.gen) (hS : A.S.WF) (hs : Simple A.S) (hne : A.S.nodes ≠ [])
    (hl : A.one = false → Loopless A.S) {fam : Family} {t : Nat} (hu : InUse A fam t) (m : Nat) (hm : Embeds A.one A.S (A.gen fam t m))
    (fuel : Nat) (hfuel : m < fuel) : latticeBound A fuel ≠ none := by
  obtain ⟨h1, h2⟩ := feasible_of_embeds hS hs hl hm
  intro h
  unfold latticeBound at h
  cases hset : settle A with
  | error x => rw [hset] at h; cases h
  | ok o =>
    rw [hset] at h
    cases o with
    | none => cases h
    | some x =>
      have := settle_inUse hu hset
      subst this
      dsimp only at h
      split at h
      · cases h
      rename_i hf
      split at h
      · cases h
      split at h
      · cases h
      cases hfs : firstSize t A.S.nodes.length fam with
      | none => rw [hfs] at h; cases h
      | some k0 =>
        rw [hfs] at h
        dsimp only at h
        have hk0 := firstSize_le L hne hf hfs h2
        obtain ⟨k', hk'⟩ := (sizeLoop_spec h1 fuel k0 hk0).1 (by omega)
        rw [hk'] at h
        cases h

/-- What is proved of the property, part two: for `one_to_one` and no target graph, `None` is returned only if the
source embeds in no lattice of the family. Networkx colours bipartite graphs with two colours when asked to proceed
breadth-first. Missing: minor embeddings, where it is false (`C32_none_for_a_star`, `C32_none_for_K4`), and targets
given (`C32_none_for_small_target`). -/
theorem C32_none_one_to_one_partial {A : BoundArgs α γ} (L : Lattices A.gen) (hS : A.S.WF) (hs : Simple A.S) (hone : A.one = true)
    (hT : A.target = none) {fam : Family} {t : Nat} (hu : InUse A fam t)
    (hc : (∃ side : α → Bool, ∀ v w, A.S.Adj v w → side v ≠ side w) → ∀ v ∈ A.S.nodes, A.colour v < 2)
    {fuel : Nat} (h : latticeBound A fuel = some (.ok none)) (m : Nat) : ¬ Embeds true A.S (A.gen fam t m) := by
  rintro ⟨f, hf⟩
  have htt : A.t.elim 4 id = t := by
    rcases hu.2 with h2 | ⟨h2, h3⟩
    · rw [h2]; rfl
    · rcases h3 with ⟨-, h3⟩ | ⟨T', h3, -⟩
      · rw [h2, h3]; rfl
      · rw [hT] at h3; cases h3
  have htop : A.topology = some fam := by
    rcases hu.1 with h1 | ⟨-, T', h3, -⟩
    · exact h1
    · rw [hT] at h3; cases h3
  have hdeg := (subgraph_degree hS hs hf).2
  unfold latticeBound at h
  cases hset : settle A with
  | error x => rw [hset] at h; cases h
  | ok o =>
    rw [hset] at h
    cases o with
    | none =>
      unfold settle at hset
      rw [hT, htop] at hset
      dsimp only at hset
      rw [htt] at hset
      cases hd : (A.S.nodes.map A.S.degree).max? with
      | none => rw [hd] at hset; cases hset
      | some d =>
        rw [hd] at hset
        dsimp only at hset
        cases hm : maxDegree t fam with
        | none => rw [hm] at hset; cases hset
        | some top =>
          rw [hm] at hset
          dsimp only at hset
          split at hset
          · rename_i hlt
            rw [List.max?_eq_some_iff] at hd
            obtain ⟨v, hv, hvd⟩ := List.mem_map.mp hd.1
            have h1 := hdeg v hv
            have h2 := L.degree hm (m := m) (f v)
            omega
          · cases hset
    | some x =>
      have := settle_inUse hu hset
      subst this
      dsimp only at h
      split at h
      · cases h
      rename_i hf'
      split at h
      · rename_i hcol
        obtain ⟨h1, h2⟩ := hcol
        subst h1
        obtain ⟨side, hside⟩ := L.bipartite t m
        have h3 := hc ⟨fun v => side (f v), fun v w hvw => hside _ _ (hf.edges v w hvw)⟩
        rw [List.any_eq_true] at h2
        obtain ⟨v, hv, h4⟩ := h2
        have := h3 v hv
        simp only [decide_eq_true_eq] at h4
        omega
      split at h
      · cases h
      cases hfs : firstSize t A.S.nodes.length fam with
      | none => rw [hfs] at h; cases h
      | some k0 =>
        rw [hfs] at h
        dsimp only at h
        cases hsl : sizeLoop A fam t fuel k0 with
        | none => rw [hsl] at h; cases h
        | some r =>
          rw [hsl] at h
          cases r with
          | error x => cases h
          | ok k1 => simp at h

/-! ### Counterexamples -/

namespace Demo

/-- The Chimera lattices, and nothing for the other families. -/
def chimeraGen : Family → Nat → Nat → Graph (Nat × Nat × Nat × Nat)
  | .chimera, t, m => chimeraGraph m m t
  | _, _, _ => ⟨[], []⟩

theorem chimeraGen_ok : Lattices chimeraGen where
  chimera := fun t m => by
    change (chimeraGraph m m t).nodes.length ≤ _
    rw [chimera_count]
  pegasus := fun t m => Nat.zero_le _
  zephyr := fun t m => Nat.zero_le _
  chimera_degree := fun t m v => by
    change (chimeraGraph m m t).degree v ≤ _
    have := chimera_degree (m := m) (n := m) (t := t) v
    omega
  pegasus_degree := fun t m v => Nat.zero_le _
  zephyr_degree := fun t m v => Nat.zero_le _
  bipartite := fun t m => ⟨fun v => decide ((v.1 + v.2.1 + v.2.2.1) % 2 = 0), by
    intro v w h
    have := chimera_bipartite (m := m) (n := m) (t := t) h
    intro hc
    rw [decide_eq_decide] at hc
    omega⟩

/-- A star with `n` leaves. -/
def starN (n : Nat) : Graph Nat := ⟨List.range (n + 1), (List.range n).map fun i => (0, i + 1)⟩

/-- A call for Chimera graphs without a target graph. -/
def chimeraArgs (S : Graph Nat) (colour : Nat → Nat) (one : Bool) : BoundArgs Nat (Nat × Nat × Nat × Nat) where
  S := S
  target := none
  topology := some .chimera
  t := none
  one := one
  colour := colour
  gen := chimeraGen

/-- The star with eleven leaves on the Chimera graph of size two. -/
def star11 : Nat → Option (List (Nat × Nat × Nat × Nat))
  | 0 => some [(0, 0, 0, 0), (0, 0, 1, 0), (1, 0, 0, 0)]
  | 1 => some [(0, 0, 0, 1)]
  | 2 => some [(0, 0, 0, 2)]
  | 3 => some [(0, 0, 0, 3)]
  | 4 => some [(0, 0, 1, 1)]
  | 5 => some [(0, 0, 1, 2)]
  | 6 => some [(0, 0, 1, 3)]
  | 7 => some [(0, 1, 1, 0)]
  | 8 => some [(1, 0, 1, 0)]
  | 9 => some [(1, 0, 1, 1)]
  | 10 => some [(1, 0, 1, 2)]
  | 11 => some [(1, 0, 1, 3)]
  | _ => none

/-- The complete graph with four nodes. -/
def K4 : Graph Nat := ⟨[0, 1, 2, 3], [(0, 1), (0, 2), (0, 3), (1, 2), (1, 3), (2, 3)]⟩

def K4emb : Nat → Option (List (Nat × Nat × Nat × Nat))
  | 0 => some [(0, 0, 0, 0), (0, 0, 1, 0)]
  | 1 => some [(0, 0, 0, 1), (0, 0, 1, 1)]
  | 2 => some [(0, 0, 0, 2), (0, 0, 1, 2)]
  | 3 => some [(0, 0, 0, 3), (0, 0, 1, 3)]
  | _ => none

theorem star_wf : (starN 7).WF ∧ Simple (starN 7) ∧ (starN 11).WF ∧ Simple (starN 11) :=
  ⟨⟨by decide, by decide⟩, by unfold Simple; decide +kernel, ⟨by decide, by decide⟩, by unfold Simple; decide +kernel⟩

end Demo

/-- `None` does not mean that no size works: a star with eleven leaves is refused for its degree, though it has a minor
embedding in the Chimera graph of size two. -/
theorem C32_none_for_a_star : (∀ colour fuel, latticeBound (Demo.chimeraArgs (Demo.starN 11) colour false) fuel = some (.ok none)) ∧
    Embeds false (Demo.starN 11) (Demo.chimeraGen .chimera 4 2) := by
  refine ⟨?_, Demo.star11, ?_⟩
  · intro colour fuel
    have hset : settle (Demo.chimeraArgs (Demo.starN 11) colour false) = .ok none := by
      unfold settle
      simp only [Demo.chimeraArgs, Option.elim]
      rw [show ((Demo.starN 11).nodes.map (Demo.starN 11).degree).max? = some 11 by decide +kernel]
      rfl
    unfold latticeBound
    rw [hset]
  exact (C27_is_valid (ordQ := id) (ordX := id) (fun l => List.Perm.refl l) (fun l => List.Perm.refl l) _ _ Demo.star_wf.2.2.1 chimera_wf _).mp
    (by decide +kernel)

/-- Nor does it for graphs with many colours: the complete graph with four nodes is refused, whatever proper colouring is
found, though it has a minor embedding in a single Chimera cell. -/
theorem C32_none_for_K4 : (∀ (colour : Nat → Nat) (fuel : Nat), (∀ v w, Demo.K4.Adj v w → colour v ≠ colour w) →
      latticeBound (Demo.chimeraArgs Demo.K4 colour false) fuel = some (.ok none)) ∧
    Embeds false Demo.K4 (Demo.chimeraGen .chimera 4 1) := by
  refine ⟨?_, ?_⟩
  · intro colour fuel hc
    have hex : (Demo.K4.nodes.any fun v => decide (2 < colour v)) = true := by
      by_contra hno
      have hno : ∀ v ∈ Demo.K4.nodes, colour v ≤ 2 := by
        intro v hv
        by_contra hlt
        exact hno (List.any_eq_true.mpr ⟨v, hv, by simpa using hlt⟩)
      have h01 := hc 0 1 (by decide)
      have h02 := hc 0 2 (by decide)
      have h03 := hc 0 3 (by decide)
      have h12 := hc 1 2 (by decide)
      have h13 := hc 1 3 (by decide)
      have h23 := hc 2 3 (by decide)
      have h0 := hno 0 (by decide)
      have h1 := hno 1 (by decide)
      have h2 := hno 2 (by decide)
      have h3 := hno 3 (by decide)
      omega
    have hset : settle (Demo.chimeraArgs Demo.K4 colour false) = .ok (some (some .chimera, 4)) := rfl
    unfold latticeBound
    rw [hset]
    dsimp only
    rw [if_neg (by decide), if_pos ⟨rfl, hex⟩]
  · refine ⟨Demo.K4emb, ?_⟩
    exact (C27_is_valid (ordQ := id) (ordX := id) (fun l => List.Perm.refl l) (fun l => List.Perm.refl l) _ _ ⟨by decide, by decide⟩ chimera_wf _).mp
      (by decide +kernel)

/-- The call may never return: for a star with seven leaves, `one_to_one` and Chimera graphs, whose degrees are at most
six, the loop goes on for ever, because the table of degrees allows ten. -/
theorem C32_endless (fuel : Nat) : latticeBound (Demo.chimeraArgs (Demo.starN 7) (fun v => if v = 0 then 0 else 1) true) fuel = none := by
  have hno : ∀ k, feasible false (Demo.starN 7) (chimeraGraph k k 4) true = .ok false := by
    intro k
    unfold feasible
    rw [if_neg (by simp)]
    split
    · rfl
    rename_i hn
    rw [if_neg (by decide)]
    split
    · rfl
    rename_i hpos
    dsimp only
    have hs : (Demo.starN 7).degrees = [1, 1, 1, 1, 1, 1, 1, 7] := by decide +kernel
    have hlen : 8 ≤ (chimeraGraph k k 4).degrees.length := by
      rw [degrees_length]
      have : (Demo.starN 7).nodes.length = 8 := by decide
      omega
    have hany : (((chimeraGraph k k 4).degrees.drop ((chimeraGraph k k 4).degrees.length - (Demo.starN 7).degrees.length)).zip
        (Demo.starN 7).degrees).any (fun p => decide (p.1 < p.2)) = true := by
      rw [hs, List.any_eq_true]
      have h7 : 7 < (((chimeraGraph k k 4).degrees.drop ((chimeraGraph k k 4).degrees.length - [1, 1, 1, 1, 1, 1, 1, 7].length)).zip [1, 1, 1, 1, 1, 1, 1, 7]).length := by
        rw [List.length_zip, List.length_drop]
        simp only [List.length_cons, List.length_nil]
        omega
      refine ⟨_, List.getElem_mem h7, ?_⟩
      rw [List.getElem_zip]
      simp only [decide_eq_true_eq]
      have hle : ∀ x ∈ (chimeraGraph k k 4).degrees, x ≤ 6 := by
        intro x hx
        obtain ⟨v, -, rfl⟩ := List.mem_map.mp ((degrees_perm _).mem_iff.mp hx)
        exact chimera_degree v
      have := hle _ (List.mem_of_mem_drop (List.getElem_mem (l := (chimeraGraph k k 4).degrees.drop ((chimeraGraph k k 4).degrees.length - [1, 1, 1, 1, 1, 1, 1, 7].length)) (n := 7) (by
        rw [List.length_drop]
        simp only [List.length_cons, List.length_nil]
        omega)))
      exact Nat.lt_of_le_of_lt this (show 6 < 7 by decide)
    rw [if_pos hany]
    cases hl : (chimeraGraph k k 4).degrees.getLast? with
    | none =>
      exfalso
      rw [List.getLast?_eq_none_iff] at hl
      rw [hl] at hlen
      simp at hlen
    | some top =>
      dsimp only
      rw [if_pos (.inl rfl)]
  have hloop : ∀ fuel k, sizeLoop (Demo.chimeraArgs (Demo.starN 7) (fun v => if v = 0 then 0 else 1) true) .chimera 4 fuel k = none := by
    intro fuel
    induction fuel with
    | zero => intro k; rfl
    | succ fuel ih =>
      intro k
      unfold sizeLoop
      rw [show (Demo.chimeraArgs (Demo.starN 7) (fun v => if v = 0 then 0 else 1) true).gen .chimera 4 k = chimeraGraph k k 4 from rfl]
      rw [show feasible false (Demo.chimeraArgs (Demo.starN 7) (fun v => if v = 0 then 0 else 1) true).S (chimeraGraph k k 4)
        (Demo.chimeraArgs (Demo.starN 7) (fun v => if v = 0 then 0 else 1) true).one = .ok false from hno k]
      exact ih (k + 1)
  have hset : settle (Demo.chimeraArgs (Demo.starN 7) (fun v => if v = 0 then 0 else 1) true) = .ok (some (some .chimera, 4)) := by
    rfl
  unfold latticeBound
  rw [hset]
  dsimp only
  rw [if_neg (by decide), if_neg (by decide +kernel), if_neg (by decide)]
  rw [show firstSize 4 (Demo.chimeraArgs (Demo.starN 7) (fun v => if v = 0 then 0 else 1) true).S.nodes.length .chimera = some 1 by decide +kernel]
  dsimp only
  rw [hloop]

/-- With a target graph too small for the source the answer is `None`, though a larger lattice of the family would do:
a path of nine nodes, Chimera graphs of size one and two. -/
theorem C32_none_for_small_target :
    feasible false (⟨List.range 9, (List.range 8).map fun i => (i, i + 1)⟩ : Graph Nat) (chimeraGraph 1 1 4) true = .ok false ∧
    (∀ fuel, latticeBound { Demo.chimeraArgs ⟨List.range 9, (List.range 8).map fun i => (i, i + 1)⟩ (fun v => v % 2) true with
      target := some { answer := false, family := some .chimera, tile := some 4 } } fuel = some (.ok none)) ∧
    Embeds true (⟨List.range 9, (List.range 8).map fun i => (i, i + 1)⟩ : Graph Nat) (chimeraGraph 2 2 4) := by
  refine ⟨by decide +kernel, fun _ => rfl, ?_⟩
  refine ⟨fun i => if i = 8 then (0, 1, 1, 3) else (0, 0, i % 2, i / 2), ⟨by decide +kernel, by decide +kernel, ?_⟩⟩
  have key : ∀ e ∈ ((List.range 8).map fun i => (i, i + 1)),
      (chimeraGraph 2 2 4).Adj ((fun i => if i = 8 then (0, 1, 1, 3) else (0, 0, i % 2, i / 2)) e.1)
        ((fun i => if i = 8 then (0, 1, 1, 3) else (0, 0, i % 2, i / 2)) e.2) := by decide +kernel
  intro v w h
  rcases h with h | h
  · exact key (v, w) h
  · exact (key (w, v) h).symm

/-- A call to which the theorems apply: the path of nine nodes as a subgraph of Chimera graphs. The bound is one for the
path, and size two works. -/
example : Lattices Demo.chimeraGen ∧
    (⟨List.range 9, (List.range 8).map fun i => (i, i + 1)⟩ : Graph Nat).WF ∧ Simple (⟨List.range 9, (List.range 8).map fun i => (i, i + 1)⟩ : Graph Nat) ∧
    InUse (Demo.chimeraArgs ⟨List.range 9, (List.range 8).map fun i => (i, i + 1)⟩ (fun v => v % 2) true) .chimera 4 ∧
    (match latticeBound (Demo.chimeraArgs ⟨List.range 9, (List.range 8).map fun i => (i, i + 1)⟩ (fun v => v % 2) true) 5 with
      | some (.ok (some k)) => decide (k = 2)
      | _ => false) = true :=
  ⟨Demo.chimeraGen_ok, ⟨by decide, by decide⟩, by unfold Simple; decide +kernel, ⟨.inl rfl, .inr ⟨rfl, .inl ⟨rfl, rfl⟩⟩⟩, by decide +kernel⟩

/-- A call to which the theorem on `None` applies: a star with eleven leaves as a subgraph. -/
example : (Demo.chimeraArgs (Demo.starN 11) (fun v => if v = 0 then 0 else 1) true).target = none ∧
    (∀ v ∈ (Demo.starN 11).nodes, (fun v => if v = 0 then 0 else 1) v < 2) ∧
    latticeBound (Demo.chimeraArgs (Demo.starN 11) (fun v => if v = 0 then 0 else 1) true) 5 = some (.ok none) :=
  ⟨rfl, by decide, rfl⟩

end MM
