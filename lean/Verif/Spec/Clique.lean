import Mathlib.Logic.Relation

/-! What it means that chains embed a complete or a complete bipartite graph. -/

namespace MM
namespace Spec

/-- A coupler, in either direction. -/
def Coupler {α : Type} (edges : List (α × α)) (p q : α) : Prop := (p, q) ∈ edges ∨ (q, p) ∈ edges

/-- A set of qubits of the graph, not empty, connected by couplers of the graph inside of it. -/
structure IsChain {α : Type} (nodes : List α) (edges : List (α × α)) (c : List α) : Prop where
  nonempty : c ≠ []
  qubits : ∀ q ∈ c, q ∈ nodes
  connected : ∀ p ∈ c, ∀ q ∈ c, Relation.ReflTransGen (fun a b => a ∈ c ∧ b ∈ c ∧ Coupler edges a b) p q

/-- A coupler between two chains. -/
def Adjacent {α : Type} (edges : List (α × α)) (c d : List α) : Prop := ∃ p ∈ c, ∃ q ∈ d, Coupler edges p q

/-- The chains `emb` embed the complete graph with as many nodes. -/
structure CliqueEmbedding {α : Type} (nodes : List α) (edges : List (α × α)) (emb : List (List α)) : Prop where
  chains : ∀ c ∈ emb, IsChain nodes edges c
  disjoint : emb.Pairwise fun c d => ∀ q ∈ c, q ∉ d
  adjacent : emb.Pairwise (Adjacent edges)

/-- Different nodes, all joined to each other. -/
def IsClique {α : Type} (nodes : List α) (edges : List (α × α)) (vs : List α) : Prop :=
  (∀ v ∈ vs, v ∈ nodes) ∧ vs.Pairwise fun p q => p ≠ q ∧ Coupler edges p q

/-- The chains `left` and `right` embed the complete bipartite graph with these two sides. -/
structure BicliqueEmbedding {α : Type} (nodes : List α) (edges : List (α × α)) (left right : List (List α)) : Prop where
  chains : ∀ c ∈ left ++ right, IsChain nodes edges c
  disjoint : (left ++ right).Pairwise fun c d => ∀ q ∈ c, q ∉ d
  adjacent : ∀ c ∈ left, ∀ d ∈ right, Adjacent edges c d

end Spec
end MM
