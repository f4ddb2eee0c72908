import Verif.Py.Grid
import Verif.Py.Chimera

/-! Property C34: `find_grid_embedding` of the Chimera utilities. -/

namespace MM

open Py Spec.Py

namespace Py

theorem split_inj {a b k l t : Nat} (hk : k < t) (hl : l < t) (h : a * t + k = b * t + l) : a = b ∧ k = l := by
  have ht : 0 < t := by omega
  have h1 : (a * t + k) / t = a := by rw [Nat.mul_comm, Nat.mul_add_div ht, Nat.div_eq_of_lt hk, Nat.add_zero]
  have h2 : (b * t + l) / t = b := by rw [Nat.mul_comm, Nat.mul_add_div ht, Nat.div_eq_of_lt hl, Nat.add_zero]
  have : a = b := by rw [← h1, ← h2, h]
  subst this
  exact ⟨rfl, by omega⟩

theorem linear_inj {m n t : Nat} {p q : Nat × Nat × Nat × Nat} (hp : p ∈ (chimeraGraph m n t).nodes) (hq : q ∈ (chimeraGraph m n t).nodes)
    (h : linear n t p = linear n t q) : p = q := by
  obtain ⟨i, j, u, k⟩ := p
  obtain ⟨i', j', u', k'⟩ := q
  rw [mem_chimera] at hp hq
  unfold linear at h
  dsimp only at h
  obtain ⟨h1, h2⟩ := split_inj hp.2.2.2 hq.2.2.2 h
  obtain ⟨h3, h4⟩ := split_inj hp.2.2.1 hq.2.2.1 h1
  rw [Nat.mul_comm n, Nat.mul_comm n] at h3
  obtain ⟨h5, h6⟩ := split_inj hp.2.1 hq.2.1 h3
  subst h2 h4 h5 h6
  rfl

theorem lookup_self {δ ε : Type} [BEq δ] [LawfulBEq δ] [DecidableEq δ] (l : List δ) (g : δ → ε) (x : δ) :
    (l.map fun x => (x, g x)).lookup x = if x ∈ l then some (g x) else none := by
  induction l with
  | nil => rfl
  | cons y l ih =>
    rw [List.map_cons, List.lookup_cons]
    by_cases h : x = y
    · subst h
      simp
    · rw [beq_eq_false_iff_ne.mpr h]
      dsimp only
      rw [ih]
      simp [h]

/-- The place of a node of the grid. -/
def place : List Nat → Nat × Nat × Nat
  | [r] => (r, 0, 0)
  | [r, c] => (r, c, 0)
  | [r, c, a] => (r, c, a)
  | _ => (0, 0, 0)

/-- Two places next to each other. -/
def Beside (x y : Nat × Nat × Nat) : Prop :=
  (y.1 = x.1 + 1 ∧ y.2 = x.2) ∨ (y.1 = x.1 ∧ y.2.1 = x.2.1 + 1 ∧ y.2.2 = x.2.2) ∨ (y.1 = x.1 ∧ y.2.1 = x.2.1 ∧ y.2.2 = x.2.2 + 1)

theorem gridNodes_nodup : ∀ dim, (gridNodes dim).Nodup := by
  intro dim
  induction dim with
  | nil => simp [gridNodes]
  | cons d ds ih =>
    unfold gridNodes
    refine nodup_tag (fun x => x.headD 0) ?_ fun i => ih.map (fun _ _ h => (List.cons.inj h).2)
    intro i x hx
    obtain ⟨y, -, rfl⟩ := List.mem_map.mp hx
    rfl

/-- The chain at a place. -/
def gridChain (n t : Nat) (x : Nat × Nat × Nat) : List Nat := [linear n t (x.1, x.2.1, 0, x.2.2), linear n t (x.1, x.2.1, 1, x.2.2)]

/-- Sizes along the three axes. -/
def sizes : List Nat → Option (Nat × Nat × Nat)
  | [r] => some (r, 1, 1)
  | [r, c] => some (r, c, 1)
  | [r, c, a] => some (r, c, a)
  | _ => none

theorem gridEmbedding_eq {dim : List Nat} {m : Int} {n t : Option Int} {emb : List (List Nat × List Nat)} (h : gridEmbedding dim m n t = .ok emb) :
    ∃ m' n' t' r c a, latticeArgs m n t = .ok (m', n', t') ∧ sizes dim = some (r, c, a) ∧ r ≤ m' ∧ c ≤ n' ∧ a ≤ t' ∧
      emb = (gridNodes dim).map fun x => (x, gridChain n' t' (place x)) := by
  unfold gridEmbedding at h
  cases hl : latticeArgs m n t with
  | error e => rw [hl] at h; cases h
  | ok x =>
    obtain ⟨m', n', t'⟩ := x
    rw [hl] at h
    dsimp only at h
    match dim, h with
    | [], h => cases h
    | [r], h =>
      dsimp only at h
      split at h
      · cases h
      · injection h with h
        refine ⟨m', n', t', r, 1, 1, rfl, rfl, by omega, by omega, by omega, ?_⟩
        subst h
        simp [gridNodes, place, gridChain, List.flatMap_def, Function.comp_def]
    | [r, c], h =>
      dsimp only at h
      split at h
      · cases h
      · injection h with h
        refine ⟨m', n', t', r, c, 1, rfl, rfl, by omega, by omega, by omega, ?_⟩
        subst h
        simp [gridNodes, place, gridChain, List.map_flatMap, Function.comp_def, List.flatMap_map]
    | [r, c, a], h =>
      dsimp only at h
      split at h
      · cases h
      · injection h with h
        refine ⟨m', n', t', r, c, a, rfl, rfl, by omega, by omega, by omega, ?_⟩
        subst h
        simp [gridNodes, place, gridChain, List.map_flatMap, Function.comp_def, List.flatMap_map, List.flatMap_singleton']
        simp [List.map_eq_flatMap]
    | _ :: _ :: _ :: _ :: _, h => cases h

theorem place_lt {dim : List Nat} {r c a : Nat} (hs : sizes dim = some (r, c, a)) {x : List Nat} (hx : x ∈ gridNodes dim) :
    (place x).1 < r ∧ (place x).2.1 < c ∧ (place x).2.2 < a := by
  match dim, hs with
  | [r], hs =>
    cases hs
    simp only [gridNodes, List.mem_flatMap, List.mem_range, List.mem_map, List.mem_singleton] at hx
    obtain ⟨i, hi, _, rfl, rfl⟩ := hx
    exact ⟨hi, Nat.one_pos, Nat.one_pos⟩
  | [r, c], hs =>
    cases hs
    simp only [gridNodes, List.mem_flatMap, List.mem_range, List.mem_map, List.mem_singleton] at hx
    obtain ⟨i, hi, _, ⟨j, hj, _, rfl, rfl⟩, rfl⟩ := hx
    exact ⟨hi, hj, Nat.one_pos⟩
  | [r, c, a], hs =>
    cases hs
    simp only [gridNodes, List.mem_flatMap, List.mem_range, List.mem_map, List.mem_singleton] at hx
    obtain ⟨i, hi, _, ⟨j, hj, _, ⟨k, hk, _, rfl, rfl⟩, rfl⟩, rfl⟩ := hx
    exact ⟨hi, hj, hk⟩

theorem place_inj {dim : List Nat} {r c a : Nat} (hs : sizes dim = some (r, c, a)) {x y : List Nat} (hx : x ∈ gridNodes dim)
    (hy : y ∈ gridNodes dim) (h : place x = place y) : x = y := by
  match dim, hs with
  | [r], hs =>
    simp only [gridNodes, List.mem_flatMap, List.mem_range, List.mem_map, List.mem_singleton] at hx hy
    obtain ⟨i, hi, _, rfl, rfl⟩ := hx
    obtain ⟨i', hi', _, rfl, rfl⟩ := hy
    simp only [place, Prod.mk.injEq] at h
    rw [h.1]
  | [r, c], hs =>
    simp only [gridNodes, List.mem_flatMap, List.mem_range, List.mem_map, List.mem_singleton] at hx hy
    obtain ⟨i, hi, _, ⟨j, hj, _, rfl, rfl⟩, rfl⟩ := hx
    obtain ⟨i', hi', _, ⟨j', hj', _, rfl, rfl⟩, rfl⟩ := hy
    simp only [place, Prod.mk.injEq] at h
    rw [h.1, h.2.1]
  | [r, c, a], hs =>
    simp only [gridNodes, List.mem_flatMap, List.mem_range, List.mem_map, List.mem_singleton] at hx hy
    obtain ⟨i, hi, _, ⟨j, hj, _, ⟨k, hk, _, rfl, rfl⟩, rfl⟩, rfl⟩ := hx
    obtain ⟨i', hi', _, ⟨j', hj', _, ⟨k', hk', _, rfl, rfl⟩, rfl⟩, rfl⟩ := hy
    simp only [place, Prod.mk.injEq] at h
    rw [h.1, h.2.1, h.2.2]

theorem edge_beside {dim : List Nat} {r c a : Nat} (hs : sizes dim = some (r, c, a)) {x y : List Nat} (h : (x, y) ∈ gridEdges dim) :
    x ∈ gridNodes dim ∧ y ∈ gridNodes dim ∧ Beside (place x) (place y) := by
  unfold Beside
  match dim, hs with
  | [r], hs =>
    simp only [gridNodes, gridEdges, List.mem_flatMap, List.mem_range, List.mem_map, List.mem_singleton, List.mem_append, Prod.mk.injEq,
      List.not_mem_nil, false_and, exists_false, and_false, or_false] at h ⊢
    obtain ⟨i, hi, _, rfl, rfl, rfl⟩ := h
    exact ⟨⟨i, by omega, _, rfl, rfl⟩, ⟨i + 1, by omega, _, rfl, rfl⟩, by simp [place]⟩
  | [r, c], hs =>
    simp only [gridNodes, gridEdges, List.mem_flatMap, List.mem_range, List.mem_map, List.mem_singleton, List.mem_append, Prod.mk.injEq,
      List.not_mem_nil, false_and, exists_false, and_false, or_false] at h ⊢
    rcases h with ⟨i, hi, _, ⟨j, hj, _, rfl, rfl⟩, rfl, rfl⟩ | ⟨i, hi, ⟨u, v⟩, ⟨j, hj, _, rfl, rfl, rfl⟩, rfl, rfl⟩
    · exact ⟨⟨i, by omega, _, ⟨j, hj, _, rfl, rfl⟩, rfl⟩, ⟨i + 1, by omega, _, ⟨j, hj, _, rfl, rfl⟩, rfl⟩, by simp [place]⟩
    · exact ⟨⟨i, by omega, _, ⟨j, by omega, _, rfl, rfl⟩, rfl⟩, ⟨i, by omega, _, ⟨j + 1, by omega, _, rfl, rfl⟩, rfl⟩, by simp [place]⟩
  | [r, c, a], hs =>
    simp only [gridNodes, gridEdges, List.mem_flatMap, List.mem_range, List.mem_map, List.mem_singleton, List.mem_append, Prod.mk.injEq,
      List.not_mem_nil, false_and, exists_false, and_false, or_false] at h ⊢
    rcases h with ⟨i, hi, _, ⟨j, hj, _, ⟨k, hk, _, rfl, rfl⟩, rfl⟩, rfl, rfl⟩ | ⟨i, hi, ⟨u, v⟩, ⟨j, hj, _, ⟨k, hk, _, rfl, rfl⟩, rfl, rfl⟩ |
      ⟨j, hj, ⟨u', v'⟩, ⟨k, hk, _, rfl, rfl, rfl⟩, rfl, rfl⟩, rfl, rfl⟩
    · exact ⟨⟨i, by omega, _, ⟨j, hj, _, ⟨k, hk, _, rfl, rfl⟩, rfl⟩, rfl⟩, ⟨i + 1, by omega, _, ⟨j, hj, _, ⟨k, hk, _, rfl, rfl⟩, rfl⟩, rfl⟩, by simp [place]⟩
    · exact ⟨⟨i, by omega, _, ⟨j, by omega, _, ⟨k, hk, _, rfl, rfl⟩, rfl⟩, rfl⟩, ⟨i, by omega, _, ⟨j + 1, by omega, _, ⟨k, hk, _, rfl, rfl⟩, rfl⟩, rfl⟩, by simp [place]⟩
    · exact ⟨⟨i, by omega, _, ⟨j, by omega, _, ⟨k, by omega, _, rfl, rfl⟩, rfl⟩, rfl⟩, ⟨i, by omega, _, ⟨j, by omega, _, ⟨k + 1, by omega, _, rfl, rfl⟩, rfl⟩, rfl⟩, by simp [place]⟩

theorem linear_adj {m n t : Nat} {p q : Nat × Nat × Nat × Nat} (h : (p, q) ∈ (chimeraGraph m n t).edges) :
    (chimeraLinear m n t).Adj (linear n t p) (linear n t q) := .inl (List.mem_map.mpr ⟨_, h, rfl⟩)

theorem grid_joined {m n t : Nat} {x y : Nat × Nat × Nat} (hx : x.1 < m ∧ x.2.1 < n ∧ x.2.2 < t) (hy : y.1 < m ∧ y.2.1 < n ∧ y.2.2 < t)
    (h : Beside x y) : ∃ p ∈ gridChain n t x, ∃ q ∈ gridChain n t y, (chimeraLinear m n t).Adj p q := by
  obtain ⟨r, c, a⟩ := x
  obtain ⟨r', c', a'⟩ := y
  unfold Beside at h
  simp only [Prod.mk.injEq] at h hx hy
  rcases h with ⟨rfl, rfl, rfl⟩ | ⟨rfl, rfl, rfl⟩ | ⟨rfl, rfl, rfl⟩
  · exact ⟨_, List.mem_cons_self, _, List.mem_cons_self, linear_adj (mem_chimera_edges.mpr (.inr (.inl ⟨hy.1, hx.2.1, hx.2.2, rfl, rfl, rfl, rfl, rfl⟩)))⟩
  · exact ⟨_, List.mem_cons_of_mem _ (List.mem_singleton.mpr rfl), _, List.mem_cons_of_mem _ (List.mem_singleton.mpr rfl),
      linear_adj (mem_chimera_edges.mpr (.inr (.inr ⟨hx.1, hy.2.1, hx.2.2, rfl, rfl, rfl, rfl, rfl⟩)))⟩
  · exact ⟨_, List.mem_cons_self, _, List.mem_cons_of_mem _ (List.mem_singleton.mpr rfl),
      linear_adj (mem_chimera_edges.mpr (.inl ⟨hx.1, hx.2.1, hx.2.2, hy.2.2, rfl, rfl, rfl, rfl⟩))⟩

end Py

/-- What is returned is a minor embedding of the grid in the Chimera graph of the given sizes, and its keys are the nodes
of the grid. -/
theorem C34_minor_embedding {dim : List Nat} {m : Int} {n t : Option Int} {emb : List (List Nat × List Nat)} (h : gridEmbedding dim m n t = .ok emb) :
    emb.map Prod.fst = (gridGraph dim).nodes ∧
    MinorEmbedding (gridGraph dim) (chimeraLinear m.toNat (n.elim m id).toNat (t.elim 4 id).toNat) (fun x => List.lookup x emb) := by
  obtain ⟨m', n', t', r, c, a, hl, hs, hr, hc, ha, rfl⟩ := gridEmbedding_eq h
  have hl' : m.toNat = m' ∧ (n.elim m id).toNat = n' ∧ (t.elim 4 id).toNat = t' := by
    unfold latticeArgs at hl
    split at hl
    · cases hl
    · dsimp only at hl
      split at hl
      · cases hl
      · split at hl
        · cases hl
        · injection hl with hl
          simp only [Prod.mk.injEq] at hl
          exact hl
  obtain ⟨rfl, rfl, rfl⟩ := hl'
  generalize m.toNat = m' at *
  generalize (n.elim m id).toNat = n' at *
  generalize (t.elim 4 id).toNat = t' at *
  have hkeys : ((gridNodes dim).map fun x => (x, gridChain n' t' (place x))).map Prod.fst = gridNodes dim := by
    rw [List.map_map]
    exact List.map_id _
  have hlook : ∀ x d, ((gridNodes dim).map fun x => (x, gridChain n' t' (place x))).lookup x = some d ↔
      x ∈ gridNodes dim ∧ d = gridChain n' t' (place x) := by
    intro x d
    rw [lookup_self]
    split
    · rename_i hx
      rw [Option.some.injEq]
      exact ⟨fun e => ⟨hx, e.symm⟩, fun e => e.2.symm⟩
    · rename_i hx
      exact ⟨fun e => (by cases e), fun e => absurd e.1 hx⟩
  have hpl : ∀ x ∈ gridNodes dim, (place x).1 < m' ∧ (place x).2.1 < n' ∧ (place x).2.2 < t' := by
    intro x hx
    obtain ⟨h1, h2, h3⟩ := place_lt hs hx
    exact ⟨by omega, by omega, by omega⟩
  refine ⟨hkeys, ⟨?_, ?_, ?_, ?_, ?_⟩⟩
  · intro x hx
    exact ⟨_, (hlook x _).mpr ⟨hx, rfl⟩, by simp [gridChain]⟩
  · intro x hx d hd q hq
    obtain ⟨-, rfl⟩ := (hlook x d).mp hd
    obtain ⟨h1, h2, h3⟩ := hpl x hx
    simp only [gridChain, List.mem_cons, List.not_mem_nil, or_false] at hq
    refine List.mem_map.mpr ?_
    rcases hq with rfl | rfl
    · exact ⟨_, mem_chimera.mpr ⟨h1, h2, by decide, h3⟩, rfl⟩
    · exact ⟨_, mem_chimera.mpr ⟨h1, h2, by decide, h3⟩, rfl⟩
  · intro x hx d hd
    obtain ⟨-, rfl⟩ := (hlook x d).mp hd
    obtain ⟨h1, h2, h3⟩ := hpl x hx
    have hadj := linear_adj (m := m') (mem_chimera_edges (i := (place x).1) (j := (place x).2.1) (u := 0) (k := (place x).2.2)
      (i' := (place x).1) (j' := (place x).2.1) (u' := 1) (k' := (place x).2.2) |>.mpr (.inl ⟨h1, h2, h3, h3, rfl, rfl, rfl, rfl⟩))
    intro p hp q hq
    simp only [gridChain, List.mem_cons, List.not_mem_nil, or_false] at hp hq
    rcases hp with rfl | rfl <;> rcases hq with rfl | rfl
    · exact .refl
    · exact .single ⟨by simp [gridChain], hadj⟩
    · exact .single ⟨by simp [gridChain], hadj.symm⟩
    · exact .refl
  · intro x hx y hy hne d e hd he q hq hq'
    obtain ⟨-, rfl⟩ := (hlook x d).mp hd
    obtain ⟨-, rfl⟩ := (hlook y e).mp he
    obtain ⟨h1, h2, h3⟩ := hpl x hx
    obtain ⟨k1, k2, k3⟩ := hpl y hy
    have key : ∀ u < 2, ∀ u' < 2, linear n' t' ((place x).1, (place x).2.1, u, (place x).2.2) ≠ linear n' t' ((place y).1, (place y).2.1, u', (place y).2.2) := by
      intro u hu u' hu' heq
      have := linear_inj (m := m') (mem_chimera.mpr ⟨h1, h2, hu, h3⟩) (mem_chimera.mpr ⟨k1, k2, hu', k3⟩) heq
      simp only [Prod.mk.injEq] at this
      exact hne (place_inj hs hx hy (Prod.ext this.1 (Prod.ext this.2.1 this.2.2.2)))
    simp only [gridChain, List.mem_cons, List.not_mem_nil, or_false] at hq hq'
    rcases hq with rfl | rfl <;> rcases hq' with hq' | hq'
    · exact key 0 (by decide) 0 (by decide) hq'
    · exact key 0 (by decide) 1 (by decide) hq'
    · exact key 1 (by decide) 0 (by decide) hq'
    · exact key 1 (by decide) 1 (by decide) hq'
  · intro x y hadj hne d e hd he
    obtain ⟨-, rfl⟩ := (hlook x d).mp hd
    obtain ⟨-, rfl⟩ := (hlook y e).mp he
    rcases hadj with hadj | hadj
    · obtain ⟨h1, h2, h3⟩ := edge_beside hs hadj
      exact grid_joined (hpl x h1) (hpl y h2) h3
    · obtain ⟨h1, h2, h3⟩ := edge_beside hs hadj
      obtain ⟨p, hp, q, hq, hpq⟩ := grid_joined (hpl y h1) (hpl x h2) h3
      exact ⟨q, hq, p, hp, hpq.symm⟩

/-- It returns whenever the grid has one to three dimensions and fits, and raises a `ValueError` otherwise. -/
theorem C34_returns (dim : List Nat) (m n t : Nat) (hm : 0 < m) (hn : 0 < n) (ht : 0 < t) :
    ((∃ emb, gridEmbedding dim m (some n) (some t) = .ok emb) ↔
      dim.length ≠ 0 ∧ dim.length ≤ 3 ∧ ∀ (i d : Nat), dim[i]? = some d → ∀ b, [m, n, t][i]? = some b → d ≤ b) ∧
    ((∃ emb, gridEmbedding dim m (some n) (some t) = .ok emb) ∨ gridEmbedding dim m (some n) (some t) = .error .value) := by
  have hl : latticeArgs (m : Int) (some (n : Int)) (some (t : Int)) = .ok (m, n, t) := by
    unfold latticeArgs
    rw [if_neg (by omega)]
    dsimp only [Option.elim, id]
    rw [if_neg (by omega), if_neg (by omega)]
    rfl
  unfold gridEmbedding
  rw [hl]
  dsimp only
  match dim with
  | [] => exact ⟨⟨(fun ⟨_, h⟩ => by cases h), fun h => absurd rfl h.1⟩, .inr rfl⟩
  | [r] =>
    dsimp only
    split
    · rename_i hc
      refine ⟨⟨(fun ⟨_, h⟩ => by cases h), fun h => ?_⟩, .inr rfl⟩
      have h1 := h.2.2 0 r rfl m rfl
      omega
    · rename_i hc
      refine ⟨⟨fun _ => ⟨by simp, by simp, ?_⟩, fun _ => ⟨_, rfl⟩⟩, .inl ⟨_, rfl⟩⟩
      intro i d hi b hb
      match i, hi, hb with
      | 0, hi, hb => cases hi; cases hb; omega
  | [r, c] =>
    dsimp only
    split
    · rename_i hc
      refine ⟨⟨(fun ⟨_, h⟩ => by cases h), fun h => ?_⟩, .inr rfl⟩
      have h1 := h.2.2 0 r rfl m rfl
      have h2 := h.2.2 1 c rfl n rfl
      omega
    · rename_i hc
      refine ⟨⟨fun _ => ⟨by simp, by simp, ?_⟩, fun _ => ⟨_, rfl⟩⟩, .inl ⟨_, rfl⟩⟩
      intro i d hi b hb
      match i, hi, hb with
      | 0, hi, hb => cases hi; cases hb; omega
      | 1, hi, hb => cases hi; cases hb; omega
  | [r, c, a] =>
    dsimp only
    split
    · rename_i hc
      refine ⟨⟨(fun ⟨_, h⟩ => by cases h), fun h => ?_⟩, .inr rfl⟩
      have h1 := h.2.2 0 r rfl m rfl
      have h2 := h.2.2 1 c rfl n rfl
      have h3 := h.2.2 2 a rfl t rfl
      omega
    · rename_i hc
      refine ⟨⟨fun _ => ⟨by simp, by simp, ?_⟩, fun _ => ⟨_, rfl⟩⟩, .inl ⟨_, rfl⟩⟩
      intro i d hi b hb
      match i, hi, hb with
      | 0, hi, hb => cases hi; cases hb; omega
      | 1, hi, hb => cases hi; cases hb; omega
      | 2, hi, hb => cases hi; cases hb; omega
  | a :: b :: c :: d :: l =>
    exact ⟨⟨(fun ⟨_, h⟩ => by cases h), fun h => by have := h.2.1; simp at this⟩, .inr rfl⟩

/-- Lattice sizes below one are refused with a `ValueError`, whatever the grid. -/
theorem C34_refuses (dim : List Nat) (m : Int) (n t : Option Int) (h : m < 1 ∨ (∃ k, n = some k ∧ k < 1) ∨ ∃ k, t = some k ∧ k < 1) :
    gridEmbedding dim m n t = .error .value := by
  have hl : latticeArgs m n t = .error .value := by
    unfold latticeArgs
    by_cases hm : m ≤ 0
    · rw [if_pos hm]
    rw [if_neg hm]
    dsimp only
    by_cases hn : n.elim m id ≤ 0
    · rw [if_pos hn]
    rw [if_neg hn]
    rcases h with h | ⟨k, rfl, hk⟩ | ⟨k, rfl, hk⟩
    · omega
    · exact absurd (show k ≤ 0 by omega) hn
    · rw [if_pos (show (some k).elim 4 id ≤ 0 from (by omega : k ≤ 0))]
  unfold gridEmbedding
  rw [hl]

/-- A lattice with no columns, for a grid that would need none. -/
example : gridEmbedding [0, 0] 2 (some 0) none = .error .value := C34_refuses _ _ _ _ (.inr (.inl ⟨0, rfl, by decide⟩))

/-- The example of the documentation: a two by three grid in twelve by twelve cells. -/
example : (gridEmbedding [2, 3] 12 none none).toOption =
    some [([0, 0], [0, 4]), ([0, 1], [8, 12]), ([0, 2], [16, 20]), ([1, 0], [96, 100]), ([1, 1], [104, 108]), ([1, 2], [112, 116])] := by
  decide +kernel

/-- A three-dimensional grid: every node, and edges along all axes. -/
example : (gridGraph [2, 2, 2]).nodes.length = 8 ∧ (gridGraph [2, 2, 2]).edges.length = 12 ∧
    (gridEmbedding [2, 2, 2] 2 none (some 2)).toOption.isSome = true := by decide +kernel

end MM
