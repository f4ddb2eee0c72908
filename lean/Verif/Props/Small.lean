import Verif.Bus.SmallInv
import Mathlib.Data.List.Basic

/-! C49: cliques of up to four nodes. -/

namespace MM

open Bus Spec

/-- C49: in a graph without self-loops, the direct search for 1, 2, 3 or 4 nodes returns as many different nodes of the graph that are all joined to each other, each as
a chain of its own. If it fails, the graph has no such nodes. -/
theorem C49_exact {nodes : List Nat} {edges : List (Nat × Nat)} (hends : ∀ e ∈ edges, e.1 ∈ nodes ∧ e.2 ∈ nodes) (hloop : ∀ e ∈ edges, e.1 ≠ e.2)
    {n : Nat} (h1 : 1 ≤ n) (h4 : n ≤ 4) :
    (∀ emb, findGeneric nodes edges n = some emb → ∃ vs, vs.length = n ∧ IsClique nodes edges vs ∧ emb = vs.map fun v => [v]) ∧
      (findGeneric nodes edges n = none → ∀ vs, vs.length = n → ¬ IsClique nodes edges vs) := by
  have hin : ∀ p q, Coupler edges p q → p ∈ nodes ∧ q ∈ nodes ∧ p ≠ q := by
    rintro p q (h | h)
    · exact ⟨(hends _ h).1, (hends _ h).2, hloop _ h⟩
    · exact ⟨(hends _ h).2, (hends _ h).1, fun e => hloop _ h e.symm⟩
  obtain rfl | rfl | rfl | rfl : n = 1 ∨ n = 2 ∨ n = 3 ∨ n = 4 := by omega
  · constructor
    · intro emb he
      cases nodes with
      | nil => cases he
      | cons v l => cases he; exact ⟨[v], rfl, ⟨by simp, by simp⟩, rfl⟩
    · intro he vs hv hc
      cases nodes with
      | nil =>
        obtain ⟨v, rfl⟩ := List.length_eq_one_iff.mp hv
        exact absurd (hc.1 v (by simp)) (by simp)
      | cons v l => cases he
  · constructor
    · intro emb he
      cases edges with
      | nil => cases he
      | cons e l =>
        cases he
        have hc : Coupler (e :: l) e.1 e.2 := .inl (by simp)
        obtain ⟨a, b, c⟩ := hin _ _ hc
        exact ⟨[e.1, e.2], rfl, ⟨by simp [a, b], by simp [c, hc]⟩, rfl⟩
    · intro he vs hv hc
      cases edges with
      | nil =>
        obtain ⟨a, b, rfl⟩ := List.length_eq_two.mp hv
        have := (List.pairwise_cons.mp hc.2).1 b (by simp)
        rcases this.2 with h | h <;> cases h
      | cons e l => cases he
  · have := generic3Loop_ok (es := edges) holds_nil (by simpa using hloop) (fun a b c h => by rcases h with h | h <;> cases h)
    simp only [List.nil_append] at this
    constructor
    · intro emb he
      obtain ⟨a, b, c, rfl, g1, g2, g3, g4, g5, g6⟩ := this.1 emb he
      exact ⟨[a, b, c], rfl, ⟨by simp [hin _ _ g1, hin _ _ g2], by simp [g1, g2, g3, g4, g5, g6]⟩, rfl⟩
    · intro he vs hv hc
      obtain ⟨a, b, c, rfl⟩ := List.length_eq_three.mp hv
      have h := hc.2
      simp only [List.pairwise_cons, List.mem_cons, List.not_mem_nil, or_false, forall_eq_or_imp, forall_eq] at h
      exact this.2 he a b c h.1.1.2 h.1.2.2 h.2.1.2 h.1.1.1 h.1.2.1 h.2.1.1
  · have := generic4Loop_ok (es := edges) holds_nil (by simpa using hloop) (fun a b c d h => by rcases h with h | h <;> cases h)
    simp only [List.nil_append] at this
    constructor
    · intro emb he
      obtain ⟨a, b, c, d, rfl, g1, g2, g3, g4, g5, g6, g7⟩ := this.1 emb he
      refine ⟨[a, b, c, d], rfl, ⟨by simp [hin _ _ g1, hin _ _ g6], ?_⟩, rfl⟩
      simp [hin _ _ g1, hin _ _ g2, hin _ _ g3, hin _ _ g4, hin _ _ g5, hin _ _ g6, g1, g2, g3, g4, g5, g6]
    · intro he vs hv hc
      match vs, hv with
      | [a, b, c, d], _ =>
        have h := hc.2
        simp only [List.pairwise_cons, List.mem_cons, List.not_mem_nil, or_false, forall_eq_or_imp, forall_eq] at h
        obtain ⟨⟨a1, a2, a3⟩, ⟨b1, b2⟩, c1, _⟩ := h
        exact this.2 he a b c d a1.2 a2.2 a3.2 b1.2 b2.2 c1.2 (by simp [a1.1, a2.1, a3.1, b1.1, b2.1, c1.1])

/-- C49 for the chains of length 1 that are kept: they embed a clique, and no clique of at most `clique_number` nodes is larger. -/
theorem C49_short {nodes : List Nat} {edges : List (Nat × Nat)} (hends : ∀ e ∈ edges, e.1 ∈ nodes ∧ e.2 ∈ nodes) (hloop : ∀ e ∈ edges, e.1 ≠ e.2) {n : Nat} (h2 : 2 ≤ n) (h4 : n ≤ 4) :
    CliqueEmbedding nodes edges (shortClique n nodes edges) ∧ (∀ c ∈ shortClique n nodes edges, c.length = 1) ∧
      ∀ vs, IsClique nodes edges vs → vs.length ≤ n → vs.length ≤ (shortClique n nodes edges).length := by
  have hclique : ∀ vs, IsClique nodes edges vs → CliqueEmbedding nodes edges (vs.map fun v => [v]) ∧ ∀ c ∈ vs.map (fun v => [v]), c.length = 1 := by
    rintro vs ⟨hv, hp⟩
    refine ⟨⟨?_, ?_, ?_⟩, by simp⟩
    · intro c hc
      obtain ⟨v, hv', rfl⟩ := List.mem_map.mp hc
      refine ⟨by simp, by simpa using hv v hv', ?_⟩
      intro p hp q hq
      rw [List.mem_singleton] at hp hq
      rw [hp, hq]
    · rw [List.pairwise_map]
      refine hp.imp ?_
      rintro p q ⟨h, _⟩
      simpa using h
    · rw [List.pairwise_map]
      refine hp.imp ?_
      rintro p q ⟨_, h⟩
      exact ⟨p, by simp, q, by simp, h⟩
  have hsub : ∀ k vs, IsClique nodes edges vs → k ≤ vs.length → ∃ ws, ws.length = k ∧ IsClique nodes edges ws := by
    intro k vs hv hk
    exact ⟨vs.take k, by simp [hk], fun v h => hv.1 v (List.mem_of_mem_take h), hv.2.sublist (List.take_sublist k vs)⟩
  have no : ∀ k, 1 ≤ k → k ≤ 4 → findGeneric nodes edges k = none → ∀ vs, IsClique nodes edges vs → vs.length < k := by
    intro k k1 k4 hk vs hv
    by_contra hlt
    obtain ⟨ws, w1, w2⟩ := hsub k vs hv (by omega)
    exact (C49_exact hends hloop k1 k4).2 hk ws w1 w2
  have yes : ∀ k emb, 1 ≤ k → k ≤ 4 → findGeneric nodes edges k = some emb → CliqueEmbedding nodes edges emb ∧ (∀ c ∈ emb, c.length = 1) ∧ emb.length = k := by
    intro k emb k1 k4 hk
    obtain ⟨vs, v1, v2, rfl⟩ := (C49_exact hends hloop k1 k4).1 emb hk
    exact ⟨(hclique vs v2).1, (hclique vs v2).2, by simpa using v1⟩
  unfold shortClique
  cases e4 : (if 4 ≤ n then findGeneric4 edges else none) with
  | some emb =>
    have hn : 4 ≤ n := by by_contra h; rw [if_neg h] at e4; cases e4
    rw [if_pos hn] at e4
    obtain ⟨a, b, c⟩ := yes 4 emb (by omega) (by omega) e4
    exact ⟨a, b, fun vs _ hv => by simp only [c]; omega⟩
  | none =>
    have m4 : ∀ vs, IsClique nodes edges vs → vs.length ≤ n → vs.length ≤ 3 := by
      intro vs hv hl
      by_cases hn : 4 ≤ n
      · rw [if_pos hn] at e4
        exact Nat.le_of_lt_succ (no 4 (by omega) (by omega) e4 vs hv)
      · omega
    simp only
    cases e3 : (if 3 ≤ n then findGeneric3 edges else none) with
    | some emb =>
      have hn : 3 ≤ n := by by_contra h; rw [if_neg h] at e3; cases e3
      rw [if_pos hn] at e3
      obtain ⟨a, b, c⟩ := yes 3 emb (by omega) (by omega) e3
      exact ⟨a, b, fun vs h hv => by simp only [c]; exact m4 vs h hv⟩
    | none =>
      have m3 : ∀ vs, IsClique nodes edges vs → vs.length ≤ n → vs.length ≤ 2 := by
        intro vs hv hl
        by_cases hn : 3 ≤ n
        · rw [if_pos hn] at e3
          exact Nat.le_of_lt_succ (no 3 (by omega) (by omega) e3 vs hv)
        · omega
      simp only
      cases e2 : findGeneric2 edges with
      | some emb =>
        obtain ⟨a, b, c⟩ := yes 2 emb (by omega) (by omega) e2
        exact ⟨a, b, fun vs h hv => by simp only [c]; exact m3 vs h hv⟩
      | none =>
        have m2 := fun vs (h : IsClique nodes edges vs) => no 2 (by omega) (by omega) e2 vs h
        simp only
        cases e1 : findGeneric1 nodes with
        | some emb =>
          obtain ⟨a, b, c⟩ := yes 1 emb (by omega) (by omega) e1
          exact ⟨a, b, fun vs h hv => by simp only [c]; exact Nat.le_of_lt_succ (m2 vs h)⟩
        | none =>
          exact ⟨⟨by simp, .nil, .nil⟩, by simp, fun vs h hv => Nat.le_of_lt_succ (no 1 (by omega) (by omega) e1 vs h)⟩

/-- Two triangles with a common edge have no four nodes that are all joined, but three. -/
example : findGeneric [0, 1, 2, 3] [(0, 1), (1, 2), (3, 2), (2, 0), (1, 3)] 4 = none ∧
    findGeneric [0, 1, 2, 3] [(0, 1), (1, 2), (3, 2), (2, 0), (1, 3)] 3 = some [[2], [0], [1]] ∧
    findGeneric [0, 1, 2, 3] [(0, 1), (1, 2), (3, 2), (2, 0), (1, 3), (0, 3)] 4 = some [[0], [3], [2], [1]] := by decide

/-- Without the condition on self-loops C49 is false: one node is given twice. -/
theorem C49_self_loop : findGeneric [0, 1] [(0, 1), (0, 0)] 3 = some [[0], [0], [1]] := by decide

end MM
