import Verif.Py.Connected
import Verif.Props.Demo

/-! Property C55: enumeration of connected subgraphs. -/

namespace MM

open Py Spec.Py Relation

variable {α : Type} [DecidableEq α]

namespace Py

theorem sameSet_iff {X Y : List α} : sameSet X Y = true ↔ ∀ a, a ∈ X ↔ a ∈ Y := by
  unfold sameSet
  simp only [Bool.and_eq_true, List.all_eq_true, decide_eq_true_eq]
  exact ⟨fun h a => ⟨h.1 a, h.2 a⟩, fun h => ⟨fun a => (h a).mp, fun a => (h a).mpr⟩⟩

theorem mem_union1 {X : List α} {u a : α} : a ∈ union1 X u ↔ a ∈ X ∨ a = u := by
  unfold union1
  split
  · rename_i h
    exact ⟨.inl, fun e => e.elim id (fun e => e ▸ h)⟩
  · simp

theorem addSet_mem {B : List (List α)} {X Y : List α} (h : Y ∈ addSet B X) : Y ∈ B ∨ Y = X := by
  unfold addSet at h
  split at h
  · exact .inl h
  · simpa using h

theorem addSet_old {B : List (List α)} {X Y : List α} (h : Y ∈ B) : Y ∈ addSet B X := by
  unfold addSet
  split
  · exact h
  · exact List.mem_append_left _ h

theorem addSet_new (B : List (List α)) (X : List α) : ∃ Y ∈ addSet B X, ∀ a, a ∈ Y ↔ a ∈ X := by
  unfold addSet
  split
  · rename_i h
    obtain ⟨Y, hY, hs⟩ := List.any_eq_true.mp h
    exact ⟨Y, hY, fun a => (sameSet_iff.mp hs a).symm⟩
  · exact ⟨X, List.mem_append_right _ (List.mem_singleton.mpr rfl), fun _ => Iff.rfl⟩

/-- A fold that only ever adds sets. -/
theorem fold_sets {ι : Type} (l : List ι) (f : List (List α) → ι → List (List α)) (From : ι → List α → Prop)
    (h1 : ∀ out i, i ∈ l → ∀ Y ∈ f out i, Y ∈ out ∨ From i Y) (h2 : ∀ out i, i ∈ l → ∀ Y ∈ out, Y ∈ f out i) :
    ∀ out, (∀ Y ∈ l.foldl f out, Y ∈ out ∨ ∃ i ∈ l, From i Y) ∧ (∀ Y ∈ out, Y ∈ l.foldl f out) := by
  induction l with
  | nil => intro out; exact ⟨fun Y h => .inl h, fun Y h => h⟩
  | cons i l ih =>
    intro out
    obtain ⟨k1, k2⟩ := ih (fun out i hi => h1 out i (List.mem_cons_of_mem _ hi)) (fun out i hi => h2 out i (List.mem_cons_of_mem _ hi)) (f out i)
    refine ⟨?_, fun Y hY => k2 Y (h2 out i List.mem_cons_self Y hY)⟩
    intro Y hY
    rcases k1 Y hY with h | ⟨j, hj, h⟩
    · rcases h1 out i List.mem_cons_self Y h with h | h
      · exact .inl h
      · exact .inr ⟨i, List.mem_cons_self, h⟩
    · exact .inr ⟨j, List.mem_cons_of_mem _ hj, h⟩

/-- What a fold adds at one step stays. -/
theorem fold_sets_new {ι : Type} {l : List ι} {f : List (List α) → ι → List (List α)} {i : ι} (hi : i ∈ l) {Z : List α}
    (h2 : ∀ out j, j ∈ l → ∀ Y ∈ out, Y ∈ f out j) (h3 : ∀ out, ∃ Y ∈ f out i, ∀ a, a ∈ Y ↔ a ∈ Z) (out : List (List α)) :
    ∃ Y ∈ l.foldl f out, ∀ a, a ∈ Y ↔ a ∈ Z := by
  induction l generalizing out with
  | nil => cases hi
  | cons j l ih =>
    rw [List.foldl_cons]
    rcases List.mem_cons.mp hi with rfl | hi
    · obtain ⟨Y, hY, hZ⟩ := h3 out
      refine ⟨Y, ?_, hZ⟩
      exact (fold_sets l f (fun _ _ => True) (fun _ _ _ _ _ => .inr trivial) (fun out j hj => h2 out j (List.mem_cons_of_mem _ hj)) _).2 Y hY
    · exact ih hi (fun out j hj => h2 out j (List.mem_cons_of_mem _ hj)) _

theorem inner_old {g : Graph α} {X : List α} {v : α} {out : List (List α)} {Y : List α} (h : Y ∈ out) :
    Y ∈ (g.nbrs v).foldl (fun out u => addSet out (union1 X u)) out :=
  (fold_sets (g.nbrs v) (fun out u => addSet out (union1 X u)) (fun _ _ => True) (fun _ _ _ _ _ => .inr trivial)
    (fun _ _ _ _ h => addSet_old h) out).2 Y h

theorem middle_old {g : Graph α} {X l : List α} {out : List (List α)} {Y : List α} (h : Y ∈ out) :
    Y ∈ l.foldl (fun out v => (g.nbrs v).foldl (fun out u => addSet out (union1 X u)) out) out :=
  (fold_sets l _ (fun _ _ => True) (fun _ _ _ _ _ => .inr trivial) (fun _ _ _ _ h => inner_old h) out).2 Y h

/-- All sets of a round come from one of the round before, by adding a neighbour. -/
theorem growSets_sound {g : Graph α} {B : List (List α)} {Y : List α} (h : Y ∈ growSets g B) :
    ∃ X ∈ B, ∃ v ∈ X, ∃ u ∈ g.nbrs v, Y = union1 X u := by
  unfold growSets at h
  have := (fold_sets B _ (fun X Y => ∃ v ∈ X, ∃ u ∈ g.nbrs v, Y = union1 X u) ?_ ?_ []).1 Y h
  · rcases this with h | h
    · cases h
    · exact h
  · intro out X _ Y hY
    have := (fold_sets X _ (fun v Y => ∃ u ∈ g.nbrs v, Y = union1 X u) ?_ ?_ out).1 Y hY
    · exact this
    · intro out v _ Y hY
      exact (fold_sets (g.nbrs v) _ (fun u Y => Y = union1 X u) (fun _ _ _ _ h => addSet_mem h) (fun _ _ _ _ h => addSet_old h) out).1 Y hY
    · exact fun _ _ _ _ h => inner_old h
  · exact fun _ _ _ _ h => middle_old h

/-- And all of these are there. -/
theorem growSets_complete {g : Graph α} {B : List (List α)} {X : List α} (hX : X ∈ B) {v u : α} (hv : v ∈ X) (hu : u ∈ g.nbrs v) :
    ∃ Y ∈ growSets g B, ∀ a, a ∈ Y ↔ a ∈ X ∨ a = u := by
  have h : ∃ Y ∈ growSets g B, ∀ a, a ∈ Y ↔ a ∈ union1 X u := by
    refine fold_sets_new hX (fun _ _ _ _ h => middle_old h) (fun out => ?_) []
    refine fold_sets_new hv (fun _ _ _ _ h => inner_old h) (fun out => ?_) out
    exact fold_sets_new (f := fun out u => addSet out (union1 X u)) hu (fun _ _ _ _ h => addSet_old h) (fun out => addSet_new out (union1 X u)) out
  obtain ⟨Y, hY, h⟩ := h
  exact ⟨Y, hY, fun a => (h a).trans mem_union1⟩

omit [DecidableEq α] in
theorem linked_mono {g : Graph α} {c d : List α} (hs : ∀ a ∈ c, a ∈ d) {a b : α} (h : ReflTransGen (fun x y => y ∈ c ∧ g.Adj x y) a b) :
    ReflTransGen (fun x y => y ∈ d ∧ g.Adj x y) a b := by
  induction h with
  | refl => exact .refl
  | tail _ h ih => exact ih.tail ⟨hs _ h.1, h.2⟩

theorem linked_union1 {g : Graph α} (hg : g.WF) {X : List α} {v u : α} (hX : Linked g X) (hv : v ∈ X) (hu : u ∈ g.nbrs v) :
    Linked g (union1 X u) := by
  have hadj := (Graph.mem_nbrs hg).mp hu
  have old : ∀ a ∈ X, ∀ b ∈ X, ReflTransGen (fun x y => y ∈ union1 X u ∧ g.Adj x y) a b :=
    fun a ha b hb => linked_mono (fun a ha => mem_union1.mpr (.inl ha)) (hX a ha b hb)
  have toU : ∀ a ∈ X, ReflTransGen (fun x y => y ∈ union1 X u ∧ g.Adj x y) a u :=
    fun a ha => (old a ha v hv).tail ⟨mem_union1.mpr (.inr rfl), hadj⟩
  have fromU : ∀ b ∈ X, ReflTransGen (fun x y => y ∈ union1 X u ∧ g.Adj x y) u b :=
    fun b hb => ReflTransGen.head ⟨mem_union1.mpr (.inl hv), hadj.symm⟩ (old v hv b hb)
  intro a ha b hb
  rcases mem_union1.mp ha with ha | ha <;> rcases mem_union1.mp hb with hb | hb
  · exact old a ha b hb
  · rw [hb]; exact toU a ha
  · rw [ha]; exact fromU b hb
  · rw [ha, hb]

/-- What can be said of the sets of a round. -/
structure RoundSet (g : Graph α) (i : Nat) (X : List α) : Prop where
  ne : X ≠ []
  nodup : X.Nodup
  nodes : ∀ a ∈ X, a ∈ g.nodes
  linked : Linked g X
  size : X.length ≤ i

theorem round_sound {g : Graph α} (hg : g.WF) : ∀ i X, X ∈ round g i → RoundSet g i X := by
  intro i
  match i with
  | 0 => intro X h; cases h
  | 1 =>
    intro X h
    obtain ⟨v, hv, rfl⟩ := List.mem_map.mp h
    refine ⟨by simp, by simp, by simpa using hv, ?_, by simp⟩
    intro a ha b hb
    rw [List.mem_singleton] at ha hb
    subst ha hb
    exact .refl
  | i + 2 =>
    intro Y h
    obtain ⟨X, hX, v, hv, u, hu, rfl⟩ := growSets_sound h
    have ih := round_sound hg (i + 1) X hX
    have hun : u ∈ g.nodes := (List.mem_filter.mp hu).1
    refine ⟨?_, ?_, ?_, linked_union1 hg ih.linked hv hu, ?_⟩
    · intro e
      have := mem_union1 (X := X) (u := u) (a := v) |>.mpr (.inl hv)
      rw [e] at this
      cases this
    · unfold union1
      split
      · exact ih.nodup
      · rename_i hn
        refine List.nodup_append.mpr ⟨ih.nodup, by simp, ?_⟩
        intro a ha b hb hab
        rw [List.mem_singleton] at hb
        exact hn (hb ▸ hab ▸ ha)
    · intro a ha
      rcases mem_union1.mp ha with ha | rfl
      · exact ih.nodes a ha
      · exact hun
    · have := ih.size
      unfold union1
      split
      · omega
      · rw [List.length_append]
        simpa using this

/-- A connected set is reached by adding one node at a time. -/
theorem exists_edge_out {g : Graph α} {C X : List α} (hC : Linked g C) {v w : α} (hv : v ∈ X) (hX : ∀ a ∈ X, a ∈ C) (hw : w ∈ C) (hwX : w ∉ X) :
    ∃ x ∈ X, ∃ u ∈ C, u ∉ X ∧ g.Adj x u := by
  have hr := hC v (hX v hv) w hw
  have key : ∀ b, ReflTransGen (fun x y => y ∈ C ∧ g.Adj x y) v b → b ∈ X ∨ ∃ x ∈ X, ∃ u ∈ C, u ∉ X ∧ g.Adj x u := by
    intro b hb
    induction hb with
    | refl => exact .inl hv
    | tail _ h ih =>
      rename_i b c _
      rcases ih with ih | ih
      · by_cases hc : c ∈ X
        · exact .inl hc
        · exact .inr ⟨b, ih, c, h.1, hc, h.2⟩
      · exact .inr ih
  rcases key w hr with h | h
  · exact absurd h hwX
  · exact h

theorem round_grows {g : Graph α} (hg : g.WF) {C : List α} (hn : C.Nodup) (hs : ∀ a ∈ C, a ∈ g.nodes) (hC : Linked g C) (hne : C ≠ []) :
    ∀ i, i + 1 ≤ C.length → ∃ X ∈ round g (i + 1), (∀ a ∈ X, a ∈ C) ∧ X.length = i + 1 := by
  intro i
  induction i with
  | zero =>
    intro _
    obtain ⟨v, hv⟩ := List.exists_mem_of_ne_nil _ hne
    exact ⟨[v], List.mem_map.mpr ⟨v, hs v hv, rfl⟩, by simpa using hv, rfl⟩
  | succ i ih =>
    intro hi
    obtain ⟨X, hX, hXC, hlen⟩ := ih (by omega)
    have R := round_sound hg _ X hX
    obtain ⟨v, hv⟩ := List.exists_mem_of_ne_nil _ R.ne
    have : ∃ w ∈ C, w ∉ X := by
      by_contra hno
      push Not at hno
      have := (List.subperm_of_subset hn hno).length_le
      omega
    obtain ⟨w, hw, hwX⟩ := this
    obtain ⟨x, hx, u, huC, huX, hadj⟩ := exists_edge_out hC hv hXC hw hwX
    obtain ⟨Y, hY, hYm⟩ := growSets_complete (g := g) hX hx ((Graph.mem_nbrs hg).mpr hadj)
    refine ⟨Y, hY, ?_, ?_⟩
    · intro a ha
      rcases (hYm a).mp ha with ha | rfl
      · exact hXC a ha
      · exact huC
    · have hYn := (round_sound hg (i + 2) Y hY).nodup
      have hp : Y.Perm (u :: X) := by
        refine (List.perm_ext_iff_of_nodup hYn (List.nodup_cons.mpr ⟨huX, R.nodup⟩)).mpr ?_
        intro a
        rw [hYm a, List.mem_cons, or_comm]
      rw [hp.length_eq, List.length_cons, hlen]

end Py

/-- Every set listed under `i` is a connected set of nodes, not empty, of at most `i` nodes. That there are exactly `i`
is false, see below. -/
theorem C55_connected_partial {g : Graph α} (hg : g.WF) (k i : Nat) (X : List α) (h : X ∈ connectedSubgraphs g k i) :
    X ≠ [] ∧ X.Nodup ∧ (∀ a ∈ X, a ∈ g.nodes) ∧ Linked g X ∧ X.length ≤ i := by
  unfold connectedSubgraphs at h
  split at h
  · have := round_sound hg i X h
    exact ⟨this.ne, this.nodup, this.nodes, this.linked, this.size⟩
  · cases h

/-- No connected set is missing: one of `i` nodes is listed under `i`, up to the bound asked for. -/
theorem C55_none_missing {g : Graph α} (hg : g.WF) (k : Nat) (C : List α) (hn : C.Nodup) (hs : ∀ a ∈ C, a ∈ g.nodes) (hC : Linked g C)
    (hne : C ≠ []) (hk : C.length ≤ k) : ∃ X ∈ connectedSubgraphs g k C.length, ∀ a, a ∈ X ↔ a ∈ C := by
  have hpos : C.length ≠ 0 := fun h => hne (List.length_eq_zero_iff.mp h)
  have hle : C.length ≤ g.nodes.length := (List.subperm_of_subset hn hs).length_le
  obtain ⟨i, hi⟩ := Nat.exists_eq_succ_of_ne_zero hpos
  obtain ⟨X, hX, hXC, hlen⟩ := round_grows hg hn hs hC hne i (by omega)
  refine ⟨X, ?_, ?_⟩
  · unfold connectedSubgraphs
    rw [if_pos (by rw [Nat.le_min]; omega), hi]
    exact hX
  · intro a
    refine ⟨hXC a, ?_⟩
    intro ha
    by_contra hno
    have h1 : (a :: X).Nodup := List.nodup_cons.mpr ⟨hno, (round_sound hg _ X hX).nodup⟩
    have h2 := (List.subperm_of_subset h1 (l₂ := C) (by
      intro b hb
      rcases List.mem_cons.mp hb with rfl | hb
      · exact ha
      · exact hXC b hb)).length_le
    rw [List.length_cons] at h2
    omega

/-- The sizes are wrong: on a path of three nodes a set of two nodes is listed under three. -/
theorem C55_wrong_sizes : ∃ (g : Graph Nat) (X : List Nat), g.WF ∧ X ∈ connectedSubgraphs g 3 3 ∧ X.length = 2 :=
  ⟨⟨[0, 1, 2], [(0, 1), (1, 2)]⟩, [0, 1], ⟨by decide, by decide⟩, by decide, rfl⟩

/-- All sets of a path. -/
example : connectedSubgraphs (⟨[0, 1, 2], [(0, 1), (1, 2)]⟩ : Graph Nat) 3 2 = [[0, 1], [1, 2]] ∧
    connectedSubgraphs (⟨[0, 1, 2], [(0, 1), (1, 2)]⟩ : Graph Nat) 3 3 = [[0, 1], [0, 1, 2], [1, 2]] := by decide

end MM
