import Verif.Props.Bicliques
import Verif.Props.Subgraph

/-! Property C38: of two bicliques with exchanged sides, the one with shorter chains is used; and property C33: the
result of `find_subgraph` as an embedding. -/

namespace MM

theorem Cache.longest_spec {e : Cache.Emb} {a : Nat} (h : Cache.longest e = some a) : (∀ c ∈ e, c.length ≤ a) ∧ ∃ c ∈ e, c.length = a := by
  have key : ∀ (l : List (List Nat)) (m : Nat), m ≤ l.foldl (fun m d => max m d.length) m ∧ (∀ c ∈ l, c.length ≤ l.foldl (fun m d => max m d.length) m) ∧
      (l.foldl (fun m d => max m d.length) m = m ∨ ∃ c ∈ l, c.length = l.foldl (fun m d => max m d.length) m) := by
    intro l
    induction l with
    | nil => intro m; simp
    | cons d l ih =>
      intro m
      obtain ⟨h1, h2, h3⟩ := ih (max m d.length)
      simp only [List.foldl_cons]
      refine ⟨by omega, fun c hc => ?_, ?_⟩
      · rcases List.mem_cons.mp hc with rfl | hc
        · omega
        · exact h2 c hc
      · rcases h3 with h3 | ⟨c, hc, h3⟩
        · rcases Nat.le_total m d.length with hm | hm
          · exact .inr ⟨d, List.mem_cons_self, by rw [h3]; omega⟩
          · exact .inl (by rw [h3]; omega)
        · exact .inr ⟨c, List.mem_cons_of_mem _ hc, h3⟩
  cases e with
  | nil => cases h
  | cons c e =>
    simp only [Cache.longest, Option.some.injEq] at h
    subst h
    obtain ⟨h1, h2, h3⟩ := key e c.length
    refine ⟨fun x hx => ?_, ?_⟩
    · rcases List.mem_cons.mp hx with rfl | hx
      · exact h1
      · exact h2 x hx
    · rcases h3 with h3 | ⟨d, hd, h3⟩
      · exact ⟨c, List.mem_cons_self, h3.symm⟩
      · exact ⟨d, List.mem_cons_of_mem _ hd, h3⟩

/-- The chains of an answer are taken from one stored embedding. If the cache also holds a biclique with the same sides exchanged, its longest chain is not shorter. -/
theorem C38_shorter {α : Type} {nodes : List Nat} {edges : List (Nat × Nat)} {embs : List ((Nat × Nat) × List (List Nat))} (h : BicliqueItems nodes edges embs) (hne : embs ≠ []) (nn mm : List α) :
    ∃ c, Cache.makeBicliques embs = .ok c ∧ ∀ items, Cache.findBiclique c nn mm = .ok items → items ≠ [] →
      ∃ p ∈ embs, (∀ x ∈ items, x.2 ∈ p.2) ∧ ∀ p' ∈ embs, p'.1 = (p.1.2, p.1.1) → ∀ ch ∈ p.2, ∃ ch' ∈ p'.2, ch.length ≤ ch'.length := by
  obtain ⟨c, h1, h2⟩ := Cache.makeBicliques_ok h.items hne
  refine ⟨c, h1, fun items hi hn => ?_⟩
  have key : ∀ N M : List α, Cache.findSorted c N M = .ok items → ∃ p ∈ embs, (∀ x ∈ items, x.2 ∈ p.2) ∧ ∀ p' ∈ embs, p'.1 = (p.1.2, p.1.1) → ∀ ch ∈ p.2, ∃ ch' ∈ p'.2, ch.length ≤ ch'.length := by
    intro N M hs
    simp only [Cache.findSorted] at hs
    split at hs
    · cases hs; exact absurd rfl hn
    · split at hs
      · cases hs; exact absurd rfl hn
      · rename_i k hk
        obtain ⟨cl, s1, s2⟩ := h2.size
        -- the entry of the index
        have hrow : ∃ i j row, Cache.dget c.size i = some row ∧ Cache.dget row j = some k := by
          simp only [Cache.keyFor] at hk
          obtain ⟨i, _, hk⟩ := List.exists_of_findSome?_eq_some hk
          split at hk
          · cases hk
          · obtain ⟨j, _, hk⟩ := List.exists_of_findSome?_eq_some hk
            cases hd : Cache.dget c.size i with
            | none => simp [Cache.rowOf, hd, Cache.dget] at hk
            | some row => exact ⟨i, j, row, hd, by simpa only [Cache.rowOf, hd] using hk⟩
        obtain ⟨i, j, row, g1, g2⟩ := hrow
        obtain ⟨k1, k2, k3⟩ := s1.sound i j row k g1 g2
        obtain ⟨⟨k', emb⟩, hp, rfl⟩ := List.mem_map.mp k1
        have hget : Cache.dget c.raw k' = some emb := by
          rw [h2.raw]
          exact Cache.dget_of_mem h.unique hp
        simp only [Cache.dat, hget, bind, Except.bind, pure, Except.pure, Except.ok.injEq] at hs
        refine ⟨(k', emb), hp, fun x hx => ?_, fun p' hp' hsw ch hch => ?_⟩
        · subst hs
          simp only [Cache.answerBiclique] at hx
          split at hx
          · have := (List.of_mem_zip (a := x.1) (b := x.2) hx).2
            rcases List.mem_append.mp this with h | h
            · exact List.mem_of_mem_take (List.mem_of_mem_take h)
            · exact List.mem_of_mem_drop h
          · have := (List.of_mem_zip (a := x.1) (b := x.2) hx).2
            rcases List.mem_append.mp this with h | h
            · exact List.mem_of_mem_drop (List.mem_of_mem_take h)
            · exact List.mem_of_mem_take h
        · obtain ⟨row', key', c1, c2, a, b, a', b', c3, c4, c5⟩ := s1.complete p'.1 (List.mem_map.mpr ⟨p', hp', rfl⟩)
          have e1 : max p'.1.1 p'.1.2 = i := by rw [hsw]; simp only at k2 ⊢; omega
          have e2 : min p'.1.1 p'.1.2 = j := by rw [hsw]; simp only at k3 ⊢; omega
          rw [e1, g1] at c1
          cases c1
          rw [e2, g2] at c2
          cases c2
          obtain ⟨x, y, d1, d2⟩ := s2 _ hp
          obtain ⟨x', y', d3, d4⟩ := s2 _ hp'
          rw [c4] at d1
          rw [c3] at d3
          cases d1
          cases d3
          obtain ⟨l1, _⟩ := Cache.longest_spec d2
          obtain ⟨_, ch', l2, l3⟩ := Cache.longest_spec d4
          exact ⟨ch', l2, by have := l1 ch hch; omega⟩
  simp only [Cache.findBiclique] at hi
  split at hi
  · exact key _ _ hi
  · exact key _ _ hi

/-- Of two bicliques with sides 2 and 1 the one with single qubits is used, although the other one comes first. -/
example : ((Cache.makeBicliques [((2, 1), [[1], [4], [2, 6]]), ((1, 2), [[1], [2], [3]])]).toOption.bind fun c => (Cache.findBiclique c ["a"] ["b"]).toOption) = some [("a", [2]), ("b", [1])] := by
  decide +kernel

open Py Spec.Py

variable {α β : Type} [DecidableEq α] [DecidableEq β]

/-- With `as_embedding`, the result is empty or has for every source node a chain of exactly one target node; edges become edges between the chains, and for an injective mapping the chains are disjoint. -/
theorem C33_as_embedding {S : SubInput α} {T : SubInput β} (hS : S.graph.WF) (hT : T.graph.WF) {shS : Option (Shuffle α)} {shT : Option (Shuffle β)}
    (hsS : Shuffle.OK shS) (hsT : Shuffle.OK shT) (inj : Injectivity) {setOrder : List β → List β} (ho : ∀ l, (setOrder l).Perm l)
    {solve : Injectivity → SolverGraph → SolverGraph → List (Nat × Nat)} (hsolve : Sound solve) :
    ∃ emb, findSubgraph S T shS shT inj setOrder solve = .ok emb ∧ (asEmbedding emb = [] ∨
      ((asEmbedding emb).map Prod.fst).Perm S.graph.nodes ∧ (∀ p ∈ asEmbedding emb, ∃ t ∈ T.graph.nodes, p.2 = [t]) ∧
      (∀ p ∈ asEmbedding emb, ∀ q ∈ asEmbedding emb, S.graph.Adj p.1 q.1 → ∃ t ∈ p.2, ∃ u ∈ q.2, T.graph.Adj t u) ∧
      (inj = .injective → ((asEmbedding emb).flatMap Prod.snd).Nodup)) := by
  obtain ⟨emb, e, h | h⟩ := C33_empty_or_complete hS hT hsS hsT inj ho hsolve
  · exact ⟨emb, e, .inl (by rw [h]; rfl)⟩
  · refine ⟨emb, e, .inr ⟨?_, ?_, ?_, fun hi => ?_⟩⟩
    · have : (asEmbedding emb).map Prod.fst = emb.map Prod.fst := by simp [asEmbedding]
      rw [this]
      exact h.total
    · intro p hp
      obtain ⟨q, hq, rfl⟩ := List.mem_map.mp hp
      exact ⟨q.2, h.nodes q hq, rfl⟩
    · intro p hp q hq ha
      obtain ⟨p', hp', rfl⟩ := List.mem_map.mp hp
      obtain ⟨q', hq', rfl⟩ := List.mem_map.mp hq
      exact ⟨p'.2, List.mem_singleton.mpr rfl, q'.2, List.mem_singleton.mpr rfl, h.edges p' hp' q' hq' ha⟩
    · have : (asEmbedding emb).flatMap Prod.snd = emb.map Prod.snd := by
        clear e h
        induction emb with
        | nil => rfl
        | cons p l ih => simp only [asEmbedding, List.map_cons, List.flatMap_cons] at ih ⊢; rw [ih]; rfl
      rw [this]
      exact h.injective hi

example : asEmbedding [("a", 3), ("b", 5)] = [("a", [3]), ("b", [5])] := rfl

end MM
