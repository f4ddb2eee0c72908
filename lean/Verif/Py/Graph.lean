import Mathlib.Logic.Relation
import Mathlib.Data.List.Nodup
import Mathlib.Data.List.Perm.Subperm

/-! Graphs of the Python layer (`networkx.Graph`): a list of distinct node labels and a list of
undirected edges. networkx is external; what is used here is that every end of an edge is a
node (`Graph.WF`), that `in` tests membership of a node, `subgraph` keeps the nodes given and the
edges between them, and that `is_connected` counts what a breadth-first search reaches. -/

namespace MM
namespace Py

open Relation

structure Graph (α : Type) where
  nodes : List α
  edges : List (α × α)

variable {α : Type}

/-- What networkx keeps for every graph. -/
structure Graph.WF (g : Graph α) : Prop where
  nodup : g.nodes.Nodup
  ends : ∀ e ∈ g.edges, e.1 ∈ g.nodes ∧ e.2 ∈ g.nodes

/-- `a` and `b` are joined by an edge. -/
def Graph.Adj (g : Graph α) (a b : α) : Prop := (a, b) ∈ g.edges ∨ (b, a) ∈ g.edges

theorem Graph.Adj.symm {g : Graph α} {a b : α} (h : g.Adj a b) : g.Adj b a := h.elim .inr .inl

/-- `nx.Graph(edges)`: the nodes are the ends of the edges in order of first appearance. -/
def Graph.ofEdges [DecidableEq α] (es : List (α × α)) : Graph α :=
  { nodes := (es.flatMap fun e => [e.1, e.2]).reverse.dedup.reverse
    edges := es }

variable [DecidableEq α]

instance (g : Graph α) (a b : α) : Decidable (g.Adj a b) := inferInstanceAs (Decidable (_ ∨ _))

/-- `G.subgraph(c)`. -/
def Graph.sub (g : Graph α) (c : List α) : Graph α :=
  { nodes := g.nodes.filter (· ∈ c)
    edges := g.edges.filter fun e => e.1 ∈ c ∧ e.2 ∈ c }

/-- `G.remove_nodes_from(r)` (on a copy): labels that are not nodes are ignored. -/
def Graph.remove (g : Graph α) (r : List α) : Graph α :=
  { nodes := g.nodes.filter (· ∉ r)
    edges := g.edges.filter fun e => e.1 ∉ r ∧ e.2 ∉ r }

/-- The neighbours of a node. -/
def Graph.nbrs (g : Graph α) (a : α) : List α := g.nodes.filter fun b => g.Adj a b

/-- networkx's `_plain_bfs`: visit a queue of nodes, putting unseen neighbours at its end. -/
def Graph.bfs (g : Graph α) : Nat → List α → List α → List α
  | 0, seen, _ => seen
  | _ + 1, seen, [] => seen
  | fuel + 1, seen, v :: queue =>
    let new := (g.nbrs v).filter (· ∉ seen)
    g.bfs fuel (seen ++ new) (queue ++ new)

/-- `nx.is_connected(G)`; networkx raises for the graph without nodes, here `false`. -/
def Graph.isConnected (g : Graph α) : Bool :=
  match g.nodes with
  | [] => false
  | v :: _ => decide ((g.bfs g.nodes.length [v] [v]).length = g.nodes.length)

/-! ### Lemmas -/

theorem Graph.WF.sub {g : Graph α} (h : g.WF) (c : List α) : (g.sub c).WF where
  nodup := h.nodup.filter _
  ends := by
    intro e he
    simp only [Graph.sub, List.mem_filter, decide_eq_true_eq] at he ⊢
    exact ⟨⟨(h.ends e he.1).1, he.2.1⟩, ⟨(h.ends e he.1).2, he.2.2⟩⟩

theorem Graph.WF.remove {g : Graph α} (h : g.WF) (c : List α) : (g.remove c).WF where
  nodup := h.nodup.filter _
  ends := by
    intro e he
    simp only [Graph.remove, List.mem_filter, decide_eq_true_eq] at he ⊢
    exact ⟨⟨(h.ends e he.1).1, he.2.1⟩, ⟨(h.ends e he.1).2, he.2.2⟩⟩

theorem Graph.sub_adj (g : Graph α) (c : List α) (a b : α) : (g.sub c).Adj a b ↔ g.Adj a b ∧ a ∈ c ∧ b ∈ c := by
  simp only [Graph.Adj, Graph.sub, List.mem_filter, decide_eq_true_eq]
  constructor
  · rintro (⟨h, h1, h2⟩ | ⟨h, h1, h2⟩)
    · exact ⟨.inl h, h1, h2⟩
    · exact ⟨.inr h, h2, h1⟩
  · rintro ⟨h | h, h1, h2⟩
    · exact .inl ⟨h, h1, h2⟩
    · exact .inr ⟨h, h2, h1⟩

theorem Graph.mem_nbrs {g : Graph α} (h : g.WF) {a b : α} : b ∈ g.nbrs a ↔ g.Adj a b := by
  simp only [Graph.nbrs, List.mem_filter, decide_eq_true_eq]
  refine ⟨fun x => x.2, fun x => ⟨?_, x⟩⟩
  rcases x with x | x
  · exact (h.ends _ x).2
  · exact (h.ends _ x).1

theorem Graph.nbrs_nodup {g : Graph α} (h : g.WF) (a : α) : (g.nbrs a).Nodup := h.nodup.filter _

/-- State of the breadth-first search from `v`. -/
structure BfsInv (g : Graph α) (v : α) (fuel : Nat) (seen queue : List α) : Prop where
  nodup : seen.Nodup
  nodes : ∀ a ∈ seen, a ∈ g.nodes
  sub : ∀ a ∈ queue, a ∈ seen
  start : v ∈ seen
  reach : ∀ a ∈ seen, ReflTransGen g.Adj v a
  closed : ∀ a ∈ seen, a ∉ queue → ∀ b, g.Adj a b → b ∈ seen
  fuel : g.nodes.length + queue.length ≤ fuel + seen.length

theorem bfs_spec {g : Graph α} (h : g.WF) {v : α} : ∀ (fuel : Nat) (seen queue : List α), BfsInv g v fuel seen queue →
    (g.bfs fuel seen queue).Nodup ∧ (∀ a ∈ g.bfs fuel seen queue, a ∈ g.nodes) ∧
    ∀ a, a ∈ g.bfs fuel seen queue ↔ ReflTransGen g.Adj v a := by
  have done : ∀ fuel seen, BfsInv g v fuel seen [] → seen.Nodup ∧ (∀ a ∈ seen, a ∈ g.nodes) ∧
      ∀ a, a ∈ seen ↔ ReflTransGen g.Adj v a := by
    intro fuel seen I
    refine ⟨I.nodup, I.nodes, fun a => ⟨I.reach a, fun hr => ?_⟩⟩
    induction hr with
    | refl => exact I.start
    | tail _ hab ih => exact I.closed _ ih (by simp) _ hab
  intro fuel
  induction fuel with
  | zero =>
    intro seen queue I
    have hle : seen.length ≤ g.nodes.length := (List.subperm_of_subset I.nodup I.nodes).length_le
    have hq : queue = [] := by
      have := I.fuel
      cases queue with
      | nil => rfl
      | cons => simp at this; omega
    subst hq
    exact done _ _ I
  | succ fuel ih =>
    intro seen queue I
    cases queue with
    | nil => exact done _ _ I
    | cons x queue =>
      have hx : x ∈ seen := I.sub x (by simp)
      apply ih
      refine ⟨?_, ?_, ?_, ?_, ?_, ?_, ?_⟩
      · refine List.nodup_append.mpr ⟨I.nodup, (Graph.nbrs_nodup h x).filter _, ?_⟩
        intro a ha b hb
        simp only [List.mem_filter, decide_eq_true_eq] at hb
        rintro rfl
        exact hb.2 ha
      · intro a ha
        rcases List.mem_append.mp ha with ha | ha
        · exact I.nodes a ha
        · exact (List.mem_filter.mp (List.mem_filter.mp ha).1).1
      · intro a ha
        rcases List.mem_append.mp ha with ha | ha
        · exact List.mem_append_left _ (I.sub a (by simp [ha]))
        · exact List.mem_append_right _ ha
      · exact List.mem_append_left _ I.start
      · intro a ha
        rcases List.mem_append.mp ha with ha | ha
        · exact I.reach a ha
        · exact (I.reach x hx).tail ((Graph.mem_nbrs h).mp (List.mem_filter.mp ha).1)
      · intro a ha haq b hab
        rcases List.mem_append.mp ha with ha | ha
        · by_cases hax : a = x
          · subst hax
            by_cases hb : b ∈ seen
            · exact List.mem_append_left _ hb
            · exact List.mem_append_right _ (List.mem_filter.mpr ⟨(Graph.mem_nbrs h).mpr hab, by simpa using hb⟩)
          · refine List.mem_append_left _ (I.closed a ha ?_ b hab)
            intro hc
            rcases List.mem_cons.mp hc with rfl | hc
            · exact hax rfl
            · exact haq (List.mem_append_left _ hc)
        · exact absurd (List.mem_append_right _ ha) haq
      · have := I.fuel
        simp only [List.length_cons, List.length_append] at this ⊢
        omega

/-- `nx.is_connected` says whether any two nodes are joined by a path. -/
theorem Graph.isConnected_iff {g : Graph α} (h : g.WF) (hne : g.nodes ≠ []) :
    g.isConnected = true ↔ ∀ a ∈ g.nodes, ∀ b ∈ g.nodes, ReflTransGen g.Adj a b := by
  have hn := h.nodup
  cases hv : g.nodes with
  | nil => exact absurd hv hne
  | cons v vs =>
    have I : BfsInv g v g.nodes.length [v] [v] := by
      refine ⟨by simp, ?_, by simp, by simp, ?_, ?_, by simp⟩
      · intro a ha
        simp only [List.mem_singleton] at ha
        rw [ha, hv]; simp
      · intro a ha
        simp only [List.mem_singleton] at ha
        rw [ha]
      · intro a ha hq
        exact absurd ha hq
    obtain ⟨hnd, hsub, hmem⟩ := bfs_spec h _ _ _ I
    have hdef : g.isConnected = decide ((g.bfs g.nodes.length [v] [v]).length = g.nodes.length) := by
      unfold Graph.isConnected
      rw [hv]
    rw [hdef, decide_eq_true_eq, ← hv]
    constructor
    · intro hlen a ha b hb
      have hp := (List.subperm_of_subset hnd hsub).perm_of_length_le (by omega)
      have h1 := (hmem a).mp (hp.mem_iff.mpr ha)
      have h2 := (hmem b).mp (hp.mem_iff.mpr hb)
      refine ReflTransGen.trans ?_ h2
      clear h2 hp
      have : ∀ c, ReflTransGen g.Adj v c → ReflTransGen g.Adj c v := by
        intro c hc
        induction hc with
        | refl => exact .refl
        | tail _ hab ih => exact ih.head hab.symm
      exact this a h1
    · intro hall
      have hv' : v ∈ g.nodes := by rw [hv]; simp
      have h1 : g.nodes.length ≤ (g.bfs g.nodes.length [v] [v]).length :=
        (List.subperm_of_subset hn (fun a ha => (hmem a).mpr (hall v hv' a ha))).length_le
      have h2 := (List.subperm_of_subset hnd hsub).length_le
      omega

theorem lookup_eq_some {β : Type} {d : List (α × β)} (hn : (d.map Prod.fst).Nodup) {x : α} {y : β} :
    d.lookup x = some y ↔ (x, y) ∈ d := by
  induction d with
  | nil => simp
  | cons e d ih =>
    obtain ⟨k, w⟩ := e
    rw [List.map_cons, List.nodup_cons] at hn
    rw [List.lookup_cons]
    by_cases hk : x = k
    · subst hk
      simp only [beq_self_eq_true, Option.some.injEq, List.mem_cons, Prod.mk.injEq, true_and]
      constructor
      · intro h; exact .inl h.symm
      · rintro (h | h)
        · exact h.symm
        · exact absurd (List.mem_map_of_mem (f := Prod.fst) h) hn.1
    · have : (x == k) = false := by simp [hk]
      rw [this]
      simp only [List.mem_cons, Prod.mk.injEq, hk, false_and, false_or]
      exact ih hn.2

end Py
end MM
