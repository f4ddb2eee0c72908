import Verif.Cache.Matching
import Verif.Props.CliqueCache

/-! C109: growing short chains (`_regularize_embedding`). -/

namespace MM
open Spec Cache

/-- The contract of `networkx.bipartite.maximum_matching`. -/
def MatcherOK (matcher : Matcher) : Prop := ∀ top E, top.Nodup → (∀ e ∈ E, e.1 ∈ top) → MaximumMatching top E (matcher top E)

theorem longest?_some {emb : Emb} (hne : emb ≠ []) : ∃ L, longest? emb = some L ∧ (∃ (i : Nat) (c : List Nat), emb[i]? = some c ∧ c.length = L) ∧ ∀ c ∈ emb, c.length ≤ L := by
  cases emb with
  | nil => exact absurd rfl hne
  | cons c cs =>
    refine ⟨_, rfl, ?_, ?_⟩
    · have : ∀ (cs : Emb) (m : Nat), (cs.foldl (fun m c => max m c.length) m = m) ∨ ∃ d ∈ cs, d.length = cs.foldl (fun m c => max m c.length) m := by
        intro cs
        induction cs with
        | nil => intro m; exact .inl rfl
        | cons d ds ih =>
          intro m
          rw [List.foldl_cons]
          rcases ih (max m d.length) with h | ⟨x, hx, h⟩
          · rw [h]
            rcases Nat.le_total m d.length with hl | hl
            · exact .inr ⟨d, by simp, by rw [Nat.max_eq_right hl]⟩
            · exact .inl (Nat.max_eq_left hl)
          · exact .inr ⟨x, by simp [hx], h⟩
      rcases this cs c.length with h | ⟨d, hd, h⟩
      · exact ⟨0, c, rfl, h.symm⟩
      · obtain ⟨i, hi⟩ := List.getElem?_of_mem hd
        exact ⟨i + 1, d, by rw [List.getElem?_cons_succ]; exact hi, h⟩
    · intro d hd
      obtain ⟨h1, h2⟩ := foldl_max (e := cs) c.length
      rcases List.mem_cons.mp hd with rfl | hd
      · exact h1
      · exact h2 d hd

/-- C109: of an embedding of a clique it makes, after at most as many rounds as the graph has nodes and one, another one of as many nodes, whose chains are the given ones, each perhaps with further
nodes at its end; no chain becomes longer than the longest was; and a chain that is still shorter than another has no unused neighbour. -/
theorem C109_regularize {matcher : Matcher} (hm : MatcherOK matcher) {nodes : List Nat} {edges : List (Nat × Nat)} {emb : Emb} (h : CliqueEmbedding nodes edges emb) (hne : emb ≠ [])
    {fuel : Nat} (hf : nodes.length < fuel) :
    ∃ emb', regularize matcher fuel nodes edges emb = some (.ok emb') ∧ CliqueEmbedding nodes edges emb' ∧ emb'.length = emb.length ∧
      (∀ (i : Nat) (c c' : List Nat), emb[i]? = some c → emb'[i]? = some c' → c <+: c') ∧ (∀ c' ∈ emb', ∃ c ∈ emb, c'.length ≤ c.length) ∧
      ∀ c ∈ emb', ∀ d ∈ emb', c.length < d.length → ∀ p ∈ c, ∀ q ∈ nodes, Coupler edges p q → ∃ e ∈ emb', q ∈ e := by
  obtain ⟨L, hL, ⟨i, c, hi, hc⟩, hmax⟩ := longest?_some hne
  simp only [regularize, hL]
  have h0 : Grows nodes edges emb L ⟨emb, nodes.filter fun q => !emb.any fun c => c.contains q⟩ :=
    ⟨h, rfl, fun i c hc => ⟨c, hc, List.prefix_refl _⟩, fun i c hc => hmax c (List.mem_of_getElem? hc), fun q => by
      simp only [List.mem_filter, Bool.not_eq_true', List.any_eq_false, List.contains_eq_mem, decide_eq_true_eq]⟩
  have hr : (nodes.filter fun q => !emb.any fun c => c.contains q).length < fuel := Nat.lt_of_le_of_lt (List.length_filter_le _ _) hf
  split
  · obtain ⟨s, e, g, stuck⟩ := growLoop_ok hm ⟨i, c, hi, hc⟩ fuel _ h0 hr
    refine ⟨s.emb, by rw [e]; rfl, g.valid, g.same, ?_, ?_, ?_⟩
    · intro j a b ha hb
      obtain ⟨c0, h1, h2⟩ := g.prefixes j b hb
      rw [ha] at h1; cases h1
      exact h2
    · intro d hd
      obtain ⟨j, hj⟩ := List.getElem?_of_mem hd
      exact ⟨c, List.mem_of_getElem? hi, by rw [hc]; exact g.short j d hj⟩
    · intro a ha d hd hl p hp q hq hpq
      obtain ⟨j, hj⟩ := List.getElem?_of_mem hd
      have hb := stuck a ha (Nat.lt_of_lt_of_le hl (g.short j d hj))
      by_contra hno
      have hq' : q ∈ boundary edges a s.rest := mem_boundary.mpr ⟨(g.unused q).mpr ⟨hq, fun e he hqe => hno ⟨e, he, hqe⟩⟩, fun hqa => hno ⟨a, ha, hqa⟩, p, hp, hpq⟩
      rw [hb] at hq'; cases hq'
  · rename_i hu
    refine ⟨emb, rfl, h, rfl, fun j a b ha hb => ?_, fun d hd => ⟨d, hd, Nat.le_refl _⟩, fun a ha d hd hl => ?_⟩
    · rw [ha] at hb; cases hb; exact List.prefix_refl _
    · have := uneven_false (by simpa using hu) a ha d hd
      omega

/-- Without chains `max` raises `ValueError`. -/
theorem C109_empty (matcher : Matcher) (fuel : Nat) (nodes : List Nat) (edges : List (Nat × Nat)) : regularize matcher fuel nodes edges [] = some (.error .value) := rfl

namespace Demo

/-- A matcher that tries all choices. -/
def allChoices : Matcher := fun top E => dget (bestPairs top E)

theorem allChoices_ok : MatcherOK allChoices := fun top E hn _ => bestPairs_maximum top E hn

/-- A triangle with paths that start at its corners. -/
def tails : List (Nat × Nat) := [(0, 1), (1, 2), (0, 3), (0, 6), (3, 6), (3, 4), (3, 5), (4, 9), (6, 5), (5, 8)]

theorem tails_valid : CliqueEmbedding (List.range 10) tails [[0, 1, 2], [3], [6]] :=
  clique_of_paths (by decide) (by decide) (by decide)

end Demo

example : MatcherOK Demo.allChoices ∧ CliqueEmbedding (List.range 10) Demo.tails [[0, 1, 2], [3], [6]] ∧
    regularize Demo.allChoices 11 (List.range 10) Demo.tails [[0, 1, 2], [3], [6]] = some (.ok [[0, 1, 2], [3, 4, 9], [6, 5, 8]]) :=
  ⟨Demo.allChoices_ok, Demo.tails_valid, by decide +kernel⟩

/-- The chains need not become equal even where they could: the result depends on the matching found, and for another order of the chains one of them cannot grow. -/
theorem C109_not_uniform : ∃ matcher emb', MatcherOK matcher ∧ CliqueEmbedding (List.range 10) Demo.tails [[0, 1, 2], [6], [3]] ∧ CliqueEmbedding (List.range 10) Demo.tails [[0, 1, 2], [6, 5, 8], [3, 4, 9]] ∧
    regularize matcher 11 (List.range 10) Demo.tails [[0, 1, 2], [6], [3]] = some (.ok emb') ∧ ([0, 1, 2] ∈ emb' ∧ [6] ∈ emb') :=
  ⟨Demo.allChoices, [[0, 1, 2], [6], [3, 4, 5]], Demo.allChoices_ok, clique_of_paths (by decide) (by decide) (by decide), clique_of_paths (by decide) (by decide) (by decide), by decide +kernel, by decide, by decide⟩

end MM
