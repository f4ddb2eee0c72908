import Verif.Py.Lattice
import Verif.Py.FeasibleInv

/-! Facts about Chimera graphs. -/

namespace MM
namespace Py

open Spec.Py

theorem nodup_tag {δ : Type} {n : Nat} {f : Nat → List δ} (g : δ → Nat) (h : ∀ i, ∀ x ∈ f i, g x = i) (hn : ∀ i, (f i).Nodup) :
    ((List.range n).flatMap f).Nodup := by
  rw [List.nodup_flatMap]
  refine ⟨fun i _ => hn i, ?_⟩
  refine List.nodup_range.pairwise_of_forall_ne ?_
  intro i _ j _ hij x hx hx'
  exact hij ((h i x hx).symm.trans (h j x hx'))

theorem nodup_map_range {δ : Type} {n : Nat} {f : Nat → δ} (g : δ → Nat) (h : ∀ i, g (f i) = i) : ((List.range n).map f).Nodup := by
  refine List.Nodup.map ?_ List.nodup_range
  intro i j hij
  have := congrArg g hij
  rwa [h, h] at this

variable {m n t : Nat}

theorem mem_chimera {i j u k : Nat} : (i, j, u, k) ∈ (chimeraGraph m n t).nodes ↔ i < m ∧ j < n ∧ u < 2 ∧ k < t := by
  unfold chimeraGraph
  simp only [List.mem_flatMap, List.mem_map, List.mem_range, Prod.mk.injEq]
  constructor
  · rintro ⟨a, ha, b, hb, c, hc, d, hd, rfl, rfl, rfl, rfl⟩
    exact ⟨ha, hb, hc, hd⟩
  · rintro ⟨ha, hb, hc, hd⟩
    exact ⟨i, ha, j, hb, u, hc, k, hd, rfl, rfl, rfl, rfl⟩

theorem mem_chimera_edges {i j u k i' j' u' k' : Nat} :
    ((i, j, u, k), (i', j', u', k')) ∈ (chimeraGraph m n t).edges ↔
      (i < m ∧ j < n ∧ k < t ∧ k' < t ∧ i' = i ∧ j' = j ∧ u = 0 ∧ u' = 1) ∨
      (i + 1 < m ∧ j < n ∧ k < t ∧ i' = i + 1 ∧ j' = j ∧ u = 0 ∧ u' = 0 ∧ k' = k) ∨
      (i < m ∧ j + 1 < n ∧ k < t ∧ i' = i ∧ j' = j + 1 ∧ u = 1 ∧ u' = 1 ∧ k' = k) := by
  unfold chimeraGraph
  simp only [List.mem_append, List.mem_flatMap, List.mem_map, List.mem_range, Prod.mk.injEq]
  constructor
  · rintro ((⟨a, ha, b, hb, c, hc, d, hd, ⟨rfl, rfl, rfl, rfl⟩, rfl, rfl, rfl, rfl⟩ |
      ⟨a, ha, b, hb, c, hc, ⟨rfl, rfl, rfl, rfl⟩, rfl, rfl, rfl, rfl⟩) |
      ⟨a, ha, b, hb, c, hc, ⟨rfl, rfl, rfl, rfl⟩, rfl, rfl, rfl, rfl⟩)
    · exact .inl ⟨ha, hb, hc, hd, rfl, rfl, rfl, rfl⟩
    · exact .inr (.inl ⟨by omega, hb, hc, rfl, rfl, rfl, rfl, rfl⟩)
    · exact .inr (.inr ⟨ha, by omega, hc, rfl, rfl, rfl, rfl, rfl⟩)
  · rintro (⟨ha, hb, hc, hd, rfl, rfl, rfl, rfl⟩ | ⟨ha, hb, hc, rfl, rfl, rfl, rfl, rfl⟩ | ⟨ha, hb, hc, rfl, rfl, rfl, rfl, rfl⟩)
    · exact .inl (.inl ⟨i', ha, j', hb, k, hc, k', hd, ⟨rfl, rfl, rfl, rfl⟩, rfl, rfl, rfl, rfl⟩)
    · exact .inl (.inr ⟨i, by omega, j', hb, k', hc, ⟨rfl, rfl, rfl, rfl⟩, rfl, rfl, rfl, rfl⟩)
    · exact .inr ⟨i', ha, j, by omega, k', hc, ⟨rfl, rfl, rfl, rfl⟩, rfl, rfl, rfl, rfl⟩

theorem chimera_wf : (chimeraGraph m n t).WF where
  nodup := by
    unfold chimeraGraph
    refine nodup_tag (fun x => x.1) ?_ fun i => nodup_tag (fun x => x.2.1) ?_ fun j => nodup_tag (fun x => x.2.2.1) ?_ fun u =>
      nodup_map_range (fun x => x.2.2.2) fun k => rfl
    · intro i x hx
      simp only [List.mem_flatMap, List.mem_map] at hx
      obtain ⟨_, _, _, _, _, _, rfl⟩ := hx
      rfl
    · intro j x hx
      simp only [List.mem_flatMap, List.mem_map] at hx
      obtain ⟨_, _, _, _, rfl⟩ := hx
      rfl
    · intro u x hx
      simp only [List.mem_map] at hx
      obtain ⟨_, _, rfl⟩ := hx
      rfl
  ends := by
    rintro ⟨⟨i, j, u, k⟩, i', j', u', k'⟩ he
    rw [mem_chimera_edges] at he
    simp only [mem_chimera]
    omega

theorem chimera_count : (chimeraGraph m n t).nodes.length = m * n * 2 * t := by
  unfold chimeraGraph
  have e : ∀ (a : Nat) {δ : Type} (f : Nat → List δ) (c : Nat), (∀ i, (f i).length = c) → ((List.range a).flatMap f).length = a * c := by
    intro a δ f c h
    induction a with
    | zero => simp
    | succ a ih => rw [List.range_succ, List.flatMap_append, List.length_append, ih]; simp [h, Nat.succ_mul]
  rw [e m _ (n * (2 * t)) (fun i => e n _ (2 * t) (fun j => e 2 _ t (fun u => by simp)))]
  ring

theorem chimera_loopless : Loopless (chimeraGraph m n t) := by
  rintro ⟨⟨i, j, u, k⟩, i', j', u', k'⟩ he
  rw [mem_chimera_edges] at he
  simp only [ne_eq, Prod.mk.injEq]
  omega

theorem chimera_simple : Simple (chimeraGraph m n t) := by
  have hn : (chimeraGraph m n t).edges.Nodup := by
    unfold chimeraGraph
    rw [List.nodup_append, List.nodup_append]
    refine ⟨⟨?_, ?_, ?_⟩, ?_, ?_⟩
    · refine nodup_tag (fun x => x.1.1) ?_ fun i => nodup_tag (fun x => x.1.2.1) ?_ fun j => nodup_tag (fun x => x.1.2.2.2) ?_ fun u =>
        nodup_map_range (fun x => x.2.2.2.2) fun k => rfl
      · intro i x hx
        simp only [List.mem_flatMap, List.mem_map] at hx
        obtain ⟨_, _, _, _, _, _, rfl⟩ := hx
        rfl
      · intro j x hx
        simp only [List.mem_flatMap, List.mem_map] at hx
        obtain ⟨_, _, _, _, rfl⟩ := hx
        rfl
      · intro u x hx
        simp only [List.mem_map] at hx
        obtain ⟨_, _, rfl⟩ := hx
        rfl
    · refine nodup_tag (fun x => x.1.1) ?_ fun i => nodup_tag (fun x => x.1.2.1) ?_ fun j => nodup_map_range (fun x => x.1.2.2.2) fun k => rfl
      · intro i x hx
        simp only [List.mem_flatMap, List.mem_map] at hx
        obtain ⟨_, _, _, _, rfl⟩ := hx
        rfl
      · intro j x hx
        simp only [List.mem_map] at hx
        obtain ⟨_, _, rfl⟩ := hx
        rfl
    · intro x hx y hy
      simp only [List.mem_flatMap, List.mem_map] at hx hy
      obtain ⟨_, _, _, _, _, _, _, _, rfl⟩ := hx
      obtain ⟨_, _, _, _, _, _, rfl⟩ := hy
      simp
    · refine nodup_tag (fun x => x.1.1) ?_ fun i => nodup_tag (fun x => x.1.2.1) ?_ fun j => nodup_map_range (fun x => x.1.2.2.2) fun k => rfl
      · intro i x hx
        simp only [List.mem_flatMap, List.mem_map] at hx
        obtain ⟨_, _, _, _, rfl⟩ := hx
        rfl
      · intro j x hx
        simp only [List.mem_map] at hx
        obtain ⟨_, _, rfl⟩ := hx
        rfl
    · intro x hx y hy
      simp only [List.mem_append, List.mem_flatMap, List.mem_map] at hx hy
      obtain ⟨_, _, _, _, _, _, rfl⟩ := hy
      rcases hx with ⟨_, _, _, _, _, _, _, _, rfl⟩ | ⟨_, _, _, _, _, _, rfl⟩ <;> simp
  have hasym : ∀ e ∈ (chimeraGraph m n t).edges, (e.2, e.1) ∉ (chimeraGraph m n t).edges := by
    rintro ⟨⟨i, j, u, k⟩, i', j', u', k'⟩ he
    simp only [mem_chimera_edges] at he ⊢
    omega
  refine hn.pairwise_of_forall_ne ?_
  intro e he f hf hne
  refine ⟨hne, ?_⟩
  rintro rfl
  exact hasym f hf he

/-- A node has at most as many neighbours as listed. -/
theorem degree_le_of_nbrs {β : Type} [DecidableEq β] {G : Graph β} (hs : Simple G) (hl : Loopless G) {v : β} {l : List β}
    (h : ∀ w, G.Adj v w → w ∈ l) : G.degree v ≤ l.length := by
  rw [degree_eq hl]
  refine length_le_of_rel (fun e w => e = (v, w) ∨ e = (w, v)) ((Simple.nodup hs).filter _) ?_ ?_
  · rintro ⟨a, b⟩ he
    simp only [List.mem_filter, decide_eq_true_eq] at he
    rcases he.2 with rfl | rfl
    · exact ⟨b, h b (.inl he.1), .inl rfl⟩
    · exact ⟨a, h a (.inr he.1), .inr rfl⟩
  · intro e he e' he' w h1 h2
    have h1' := (List.mem_filter.mp he).1
    have h2' := (List.mem_filter.mp he').1
    by_contra hne
    have key : e = (e'.2, e'.1) := by
      rcases h1 with rfl | rfl <;> rcases h2 with rfl | rfl
      · exact absurd rfl hne
      · rfl
      · rfl
      · exact absurd rfl hne
    have hs' := List.pairwise_iff_getElem.mp hs
    obtain ⟨i, hi, hi'⟩ := List.getElem_of_mem h1'
    obtain ⟨j, hj, hj'⟩ := List.getElem_of_mem h2'
    rcases Nat.lt_trichotomy i j with hij | hij | hij
    · have := (hs' i j hi hj hij).2
      rw [hi', hj'] at this
      exact this key
    · subst hij
      exact hne (hi'.symm.trans hj')
    · have := (hs' j i hj hi hij).2
      rw [hi', hj'] at this
      exact this (by rw [key])

theorem chimera_degree (v : Nat × Nat × Nat × Nat) : (chimeraGraph m n t).degree v ≤ t + 2 := by
  obtain ⟨i, j, u, k⟩ := v
  have := degree_le_of_nbrs (G := chimeraGraph m n t) (v := (i, j, u, k)) chimera_simple chimera_loopless
    (l := ((List.range t).map fun l => (i, j, 1 - u, l)) ++ [if u = 0 then (i + 1, j, u, k) else (i, j + 1, u, k),
      if u = 0 then (i - 1, j, u, k) else (i, j - 1, u, k)]) (by
    rintro ⟨i', j', u', k'⟩ h
    unfold Graph.Adj at h
    rw [mem_chimera_edges, mem_chimera_edges] at h
    simp only [List.mem_append, List.mem_map, List.mem_range, List.mem_cons, List.not_mem_nil, or_false, Prod.mk.injEq]
    by_cases hu : u = 0
    · rw [if_pos hu, if_pos hu]
      simp only [Prod.mk.injEq]
      by_cases hu' : u' = 1
      · left
        exact ⟨k', by omega, by omega, by omega, by omega, rfl⟩
      · right
        omega
    · rw [if_neg hu, if_neg hu]
      simp only [Prod.mk.injEq]
      by_cases hu' : u' = 0
      · left
        exact ⟨k', by omega, by omega, by omega, by omega, rfl⟩
      · right
        omega)
  simpa using this

/-- Chimera graphs are bipartite. -/
theorem chimera_bipartite {v w : Nat × Nat × Nat × Nat} (h : (chimeraGraph m n t).Adj v w) :
    (v.1 + v.2.1 + v.2.2.1) % 2 ≠ (w.1 + w.2.1 + w.2.2.1) % 2 := by
  obtain ⟨i, j, u, k⟩ := v
  obtain ⟨i', j', u', k'⟩ := w
  unfold Graph.Adj at h
  rw [mem_chimera_edges, mem_chimera_edges] at h
  dsimp only
  omega

end Py
end MM
