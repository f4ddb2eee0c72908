import Verif.Eden.Steer
import Verif.Eden.Pick
import Verif.Props.Eden

/-! Three cells in a column: which of the three native cliques is returned. -/

namespace MM
namespace Eden

open Spec.Eden (Qb Ell)
open Spec (FairDraws chance)

/-- Three cells in a column, with one qubit in each side. -/
def tower : Proc := ⟨Demo.grid 1 3 1 [0], 1, 3, 1⟩

/-- The keys of its table. -/
def spot (y : Int) : Rect := ⟨0, 0, y, y - 1⟩

/-- The chain in a row. -/
def hook (y : Int) : List Qb := [⟨0, y, 1, 0⟩, ⟨0, y, 0, 0⟩]

theorem tower_rects : rects 1 3 1 = [spot 0, spot 1, spot 2, spot 3] := by decide +kernel

theorem tower_shape : ∀ R ∈ rects 1 3 1, Shape tower 1 R := fun _ h => (mem_rects (P := tower).mp h).1

theorem tower_options : ∀ R ∈ rects 1 3 1, ∀ o ∈ options 3 R, tower.blk o.1 = 1 ∧ ∀ R' ∈ rects 1 3 1, R' ≠ o.2 := by decide +kernel

/-- The entry for an ell. -/
def entry (o : Ell × Rect) : Entry := ⟨1, some o.1, some o.2, 1⟩

/-- One rectangle: every option scores one. -/
theorem tower_round {rnd : Nat → Nat → Nat} {R : Rect} (hR : R ∈ rects 1 3 1) {D : List (Rect × Entry)} (hD : ∀ p ∈ D, p.1 ∈ rects 1 3 1) (hne : options 3 R ≠ []) (calls : Nat) :
    tower.withRect rnd calls R D = .ok ⟨some 1, (options 3 R).length, pickLoop rnd ((options 3 R).map fun o => (entry o, 1)) calls 0 ⟨0, none, none, 1⟩,
      calls + (options 3 R).length⟩ := by
  have hfind : ∀ o ∈ options 3 R, find D o.2 = none := by
    intro o ho
    unfold find
    rw [Option.map_eq_none_iff, List.find?_eq_none]
    intro p hp
    rw [decide_eq_true_eq]
    exact (tower_options R hR o ho).2 _ (hD p hp)
  have key : ∀ (l : List (Ell × Rect)) (b : Option Nat) (count : Nat) (best : Entry) (calls : Nat), (∀ o ∈ l, o ∈ options 3 R) → (b = some 1 ∨ b = none ∧ count = 0) →
      l.foldlM (tower.consider rnd R D) ⟨b, count, best, calls⟩ =
        .ok ⟨if l = [] then b else some 1, count + l.length, pickLoop rnd (l.map fun o => (entry o, 1)) calls count best, calls + l.length⟩ := by
    intro l
    induction l with
    | nil => exact fun b count best calls _ _ => rfl
    | cons o l ih =>
      intro b count best calls ho hb
      have hf := hfind o (ho o List.mem_cons_self)
      have hv : val D o.2 + tower.blk o.1 = 1 := by
        rw [(tower_options R hR o (ho o List.mem_cons_self)).1]
        unfold val
        rw [hf]
      have hstep : tower.consider rnd R D ⟨b, count, best, calls⟩ o = .ok ⟨some 1, count + 1, if rnd calls (count + 1) ≤ 1 then entry o else best, calls + 1⟩ := by
        have hk := combine_ok (opt_of_mem (tower_shape R hR) (ho o List.mem_cons_self)) D
        rw [hv, hf] at hk
        unfold Proc.consider
        simp only [bind, Except.bind, hf, hk, weight]
        rcases hb with rfl | ⟨rfl, rfl⟩
        · simp only [lt_irrefl, decide_false, Bool.false_eq_true, if_false, if_true, accumulate, entry]
        · simp only [if_true, accumulate, entry]
      rw [List.foldlM_cons, hstep]
      refine (ih (some 1) (count + 1) _ (calls + 1) (fun q hq => ho q (List.mem_cons_of_mem _ hq)) (.inl rfl)).trans ?_
      rw [List.length_cons, if_neg (List.cons_ne_nil o l), ite_self, Nat.add_assoc, Nat.add_comm 1, Nat.add_assoc, Nat.add_comm 1]
      rfl
  have := key (options 3 R) none 0 ⟨0, none, none, 1⟩ calls (fun _ h => h) (.inr ⟨rfl, rfl⟩)
  rw [if_neg hne, Nat.zero_add] at this
  exact this

/-- The row of the cell that an entry is for. -/
def Entry.row (e : Entry) : Int :=
  match e.ell with
  | some l => l.y
  | none => 0

/-- An entry for one of the cells. -/
structure Cell (e : Entry) : Prop where
  ell : e.ell = some ⟨0, 0, e.row, e.row⟩
  num : e.num = 1
  row : e.row = 0 ∨ e.row = 1 ∨ e.row = 2
  parent : ∃ r, e.parent = some r ∧ ∀ R' ∈ rects 1 3 1, R' ≠ r

theorem tower_cell : ∀ R ∈ rects 1 3 1, ∀ o ∈ options 3 R, Cell (entry o) := by
  have h : ∀ R ∈ rects 1 3 1, ∀ o ∈ options 3 R, o.1 = ⟨0, 0, o.1.y, o.1.y⟩ ∧ (o.1.y = 0 ∨ o.1.y = 1 ∨ o.1.y = 2) := by decide +kernel
  intro R hR o ho
  obtain ⟨h1, h2⟩ := h R hR o ho
  exact ⟨congrArg some h1, rfl, h2, _, rfl, (tower_options R hR o ho).2⟩

/-- Four draws: the last one that hits decides. -/
theorem pick_four (rnd : Nat → Nat → Nat) {β : Type} (a b c d t : β) (i : Nat) (h : rnd i 1 ≤ 1) :
    pickLoop rnd [(a, 1), (b, 1), (c, 1), (d, 1)] i 0 t = if rnd (i + 3) 4 ≤ 1 then d else if rnd (i + 2) 3 ≤ 1 then c else if rnd (i + 1) 2 ≤ 1 then b else a := by
  simp only [pickLoop, accumulate, Nat.zero_add, h, if_true, Nat.reduceAdd, Nat.add_assoc]

theorem pick_two (rnd : Nat → Nat → Nat) {β : Type} (a b t : β) (i : Nat) (h : rnd i 1 ≤ 1) :
    pickLoop rnd [(a, 1), (b, 1)] i 0 t = if rnd (i + 1) 2 ≤ 1 then b else a := by
  simp only [pickLoop, accumulate, Nat.zero_add, h, if_true, Nat.reduceAdd]

theorem options_0 : options 3 (spot 0) = [(⟨0, 0, 0, 0⟩, ⟨1, 0, 0, 0⟩), (⟨0, 0, 0, 0⟩, ⟨0, -1, 0, 0⟩)] := by decide +kernel

theorem options_1 : options 3 (spot 1) = [(⟨0, 0, 0, 0⟩, ⟨1, 0, 0, 0⟩), (⟨0, 0, 1, 1⟩, ⟨1, 0, 1, 1⟩), (⟨0, 0, 0, 0⟩, ⟨0, -1, 0, 0⟩), (⟨0, 0, 1, 1⟩, ⟨0, -1, 1, 1⟩)] := by
  decide +kernel

theorem options_2 : options 3 (spot 2) = [(⟨0, 0, 1, 1⟩, ⟨1, 0, 1, 1⟩), (⟨0, 0, 2, 2⟩, ⟨1, 0, 2, 2⟩), (⟨0, 0, 1, 1⟩, ⟨0, -1, 1, 1⟩), (⟨0, 0, 2, 2⟩, ⟨0, -1, 2, 2⟩)] := by
  decide +kernel

theorem options_3 : options 3 (spot 3) = [(⟨0, 0, 2, 2⟩, ⟨1, 0, 2, 2⟩), (⟨0, 0, 2, 2⟩, ⟨0, -1, 2, 2⟩)] := by decide +kernel

theorem spot_mem : spot 0 ∈ rects 1 3 1 ∧ spot 1 ∈ rects 1 3 1 ∧ spot 2 ∈ rects 1 3 1 ∧ spot 3 ∈ rects 1 3 1 := by decide +kernel

/-- The entry of each rectangle. -/
theorem tower_entry {rnd : Nat → Nat → Nat} (hr : Ranged rnd) {D : List (Rect × Entry)} (hD : ∀ p ∈ D, p.1 ∈ rects 1 3 1) (calls : Nat) :
    (∃ c, tower.withRect rnd calls (spot 0) D = .ok c ∧ c.calls = calls + 2 ∧ c.bestscore = some 1 ∧ Cell c.best ∧ c.best.row = 0) ∧
    (∃ c, tower.withRect rnd calls (spot 1) D = .ok c ∧ c.calls = calls + 4 ∧ c.bestscore = some 1 ∧ Cell c.best ∧
      c.best.row = if rnd (calls + 3) 4 ≤ 1 then 1 else if rnd (calls + 2) 3 ≤ 1 then 0 else if rnd (calls + 1) 2 ≤ 1 then 1 else 0) ∧
    (∃ c, tower.withRect rnd calls (spot 2) D = .ok c ∧ c.calls = calls + 4 ∧ c.bestscore = some 1 ∧ Cell c.best ∧
      c.best.row = if rnd (calls + 3) 4 ≤ 1 then 2 else if rnd (calls + 2) 3 ≤ 1 then 1 else if rnd (calls + 1) 2 ≤ 1 then 2 else 1) ∧
    ∃ c, tower.withRect rnd calls (spot 3) D = .ok c ∧ c.calls = calls + 2 ∧ c.bestscore = some 1 ∧ Cell c.best ∧ c.best.row = 2 := by
  have h1 := (hr calls 1 le_rfl).2
  obtain ⟨s0, s1, s2, s3⟩ := spot_mem
  have c0 := tower_cell _ s0
  have c1 := tower_cell _ s1
  have c2 := tower_cell _ s2
  have c3 := tower_cell _ s3
  have r0 := tower_round (rnd := rnd) s0 hD (by rw [options_0]; exact List.cons_ne_nil _ _) calls
  have r1 := tower_round (rnd := rnd) s1 hD (by rw [options_1]; exact List.cons_ne_nil _ _) calls
  have r2 := tower_round (rnd := rnd) s2 hD (by rw [options_2]; exact List.cons_ne_nil _ _) calls
  have r3 := tower_round (rnd := rnd) s3 hD (by rw [options_3]; exact List.cons_ne_nil _ _) calls
  rw [options_0] at r0 c0
  rw [options_1] at r1 c1
  rw [options_2] at r2 c2
  rw [options_3] at r3 c3
  simp only [List.map_cons, List.map_nil, pick_two rnd _ _ _ _ h1] at r0 r3
  simp only [List.map_cons, List.map_nil, pick_four rnd _ _ _ _ _ _ h1] at r1 r2
  simp only [List.forall_mem_cons] at c0 c1 c2 c3
  refine ⟨⟨_, r0, rfl, rfl, ?_, ?_⟩, ⟨_, r1, rfl, rfl, ?_, ?_⟩, ⟨_, r2, rfl, rfl, ?_, ?_⟩, ⟨_, r3, rfl, rfl, ?_, ?_⟩⟩ <;> dsimp only
  · split
    · exact c0.2.1
    · exact c0.1
  · split <;> rfl
  · split
    · exact c1.2.2.2.1
    · split
      · exact c1.2.2.1
      · split
        · exact c1.2.1
        · exact c1.1
  · split
    · rfl
    · split
      · rfl
      · split <;> rfl
  · split
    · exact c2.2.2.2.1
    · split
      · exact c2.2.2.1
      · split
        · exact c2.2.1
        · exact c2.1
  · split
    · rfl
    · split
      · rfl
      · split <;> rfl
  · split
    · exact c3.2.1
    · exact c3.1
  · split <;> rfl

/-- The row that is returned. -/
def outcome (d : Nat → Nat → Nat) : Int :=
  if d 15 4 ≤ 1 then 2
  else if d 12 3 ≤ 1 then (if d 11 4 ≤ 1 then 2 else if d 10 3 ≤ 1 then 1 else if d 9 2 ≤ 1 then 2 else 1)
  else if d 7 2 ≤ 1 then (if d 6 4 ≤ 1 then 1 else if d 5 3 ≤ 1 then 0 else if d 4 2 ≤ 1 then 1 else 0)
  else 0

theorem visit_tie {rnd : Nat → Nat → Nat} {D : List (Rect × Entry)} {ms : Option Nat} {count : Nat} {key : Option Rect} {calls : Nat} {R : Rect} {c : Choice}
    (hc : tower.withRect rnd calls R D = .ok c) (hb : c.bestscore = some 1) (hn : c.best.num = 1) (hm : ms = some 1 ∨ ms = none ∧ count = 0 ∧ key = none) :
    tower.visit rnd ⟨D, ms, count, key, calls⟩ R = .ok ⟨(R, c.best) :: D, some 1, count + 1, if rnd c.calls (count + 1) ≤ 1 then some R else key, c.calls + 1⟩ := by
  unfold Proc.visit
  simp only [bind, Except.bind, hc, hb]
  rcases hm with rfl | ⟨rfl, rfl, rfl⟩
  · simp only [lt_irrefl, decide_false, Bool.false_eq_true, if_false, if_true, accumulate, hn]
  · simp only [if_true, accumulate, hn]

theorem tower_bundle {mix : Bool → List (List Qb) → List (List Qb)} (hm : Mixes mix) (y : Int) (hy : y = 0 ∨ y = 1 ∨ y = 2) : tower.bundle mix ⟨0, 0, y, y⟩ = [hook y] := by
  unfold Proc.bundle
  have h : ∀ y : Int, (y = 0 ∨ y = 1 ∨ y = 2) → tower.hbundle y 0 0 = [[⟨0, y, 0, 0⟩]] ∧ tower.vbundle 0 y y = [[⟨0, y, 1, 0⟩]] := by
    intro y hy
    rcases hy with rfl | rfl | rfl <;> decide +kernel
  dsimp only
  rw [(h y hy).1, (h y hy).2, List.perm_singleton.mp (hm true _), List.perm_singleton.mp (hm false _)]
  rfl

theorem tower_native {rnd : Nat → Nat → Nat} (hr : Ranged rnd) {mix : Ell → Bool → List (List Qb) → List (List Qb)} (hm : ∀ e, Mixes (mix e)) :
    tower.native rnd mix 1 = .ok (some 1, [hook (outcome rnd)]) := by
  obtain ⟨s0, s1, s2, s3⟩ := spot_mem
  obtain ⟨⟨c0, a0, b0, d0, e0, f0⟩, -⟩ := tower_entry hr (D := []) (fun p h => nomatch h) 0
  obtain ⟨-, ⟨c1, a1, b1, d1, e1, f1⟩, -⟩ := tower_entry hr (D := [(spot 0, c0.best)]) (by simp [s0]) 3
  obtain ⟨-, -, ⟨c2, a2, b2, d2, e2, f2⟩, -⟩ := tower_entry hr (D := [(spot 1, c1.best), (spot 0, c0.best)]) (by simp [s0, s1]) 8
  obtain ⟨-, -, -, ⟨c3, a3, b3, d3, e3, f3⟩⟩ := tower_entry hr (D := [(spot 2, c2.best), (spot 1, c1.best), (spot 0, c0.best)]) (by simp [s0, s1, s2]) 13
  have v0 := visit_tie a0 d0 e0.num (.inr ⟨rfl, rfl, rfl⟩)
  rw [b0, Nat.zero_add, Nat.zero_add, if_pos (hr 2 1 le_rfl).2] at v0
  have v1 := visit_tie (ms := some 1) (count := 1) (key := some (spot 0)) a1 d1 e1.num (.inl rfl)
  rw [b1] at v1
  have v2 := visit_tie (ms := some 1) (count := 2) (key := if rnd 7 2 ≤ 1 then some (spot 1) else some (spot 0)) a2 d2 e2.num (.inl rfl)
  rw [b2] at v2
  have v3 := visit_tie (ms := some 1) (count := 3) (key := if rnd 12 3 ≤ 1 then some (spot 2) else if rnd 7 2 ≤ 1 then some (spot 1) else some (spot 0)) a3 d3 e3.num (.inl rfl)
  rw [b3] at v3
  have hrun : (rects tower.M tower.N 1).foldlM (tower.visit rnd) ⟨[], none, 0, none, 0⟩ = .ok ⟨[(spot 3, c3.best), (spot 2, c2.best), (spot 1, c1.best), (spot 0, c0.best)], some 1, 4,
      if rnd 15 4 ≤ 1 then some (spot 3) else if rnd 12 3 ≤ 1 then some (spot 2) else if rnd 7 2 ≤ 1 then some (spot 1) else some (spot 0), 16⟩ := by
    refine (congrArg (fun l : List Rect => l.foldlM (tower.visit rnd) ⟨[], none, 0, none, 0⟩) (show rects tower.M tower.N 1 = _ from tower_rects)).trans ?_
    simp only [List.foldlM_cons, List.foldlM_nil, bind, Except.bind, v0, v1, v2, v3]
    rfl
  have read : ∀ R e, find [(spot 3, c3.best), (spot 2, c2.best), (spot 1, c1.best), (spot 0, c0.best)] R = some e → Cell e →
      collect [(spot 3, c3.best), (spot 2, c2.best), (spot 1, c1.best), (spot 0, c0.best)] 4 (some R) = .ok [⟨0, 0, e.row, e.row⟩] := by
    intro R e he hc
    obtain ⟨r, r1, r2⟩ := hc.parent
    have none' : find [(spot 3, c3.best), (spot 2, c2.best), (spot 1, c1.best), (spot 0, c0.best)] r = none := by
      rw [find_cons, if_neg (r2 _ s3), find_cons, if_neg (r2 _ s2), find_cons, if_neg (r2 _ s1), find_cons, if_neg (r2 _ s0)]
      rfl
    unfold collect
    rw [he]
    simp only [bind, Except.bind, r1, hc.ell]
    unfold collect
    rw [none']
  have n : spot 3 ≠ spot 2 ∧ spot 3 ≠ spot 1 ∧ spot 3 ≠ spot 0 ∧ spot 2 ≠ spot 1 ∧ spot 2 ≠ spot 0 ∧ spot 1 ≠ spot 0 := by decide +kernel
  have g3 := read (spot 3) c3.best (by rw [find_cons, if_pos rfl]) e3
  have g2 := read (spot 2) c2.best (by rw [find_cons, if_neg n.1, find_cons, if_pos rfl]) e2
  have g1 := read (spot 1) c1.best (by rw [find_cons, if_neg n.2.1, find_cons, if_neg n.2.2.2.1, find_cons, if_pos rfl]) e1
  have g0 := read (spot 0) c0.best (by
    rw [find_cons, if_neg n.2.2.1, find_cons, if_neg n.2.2.2.2.1, find_cons, if_neg n.2.2.2.2.2, find_cons, if_pos rfl]) e0
  have out : ∀ y : Int, (y = 0 ∨ y = 1 ∨ y = 2) → ([(⟨0, 0, y, y⟩ : Ell)].flatMap fun e => tower.bundle (mix e) e) = [hook y] := by
    intro y hy
    rw [List.flatMap_cons, List.flatMap_nil, List.append_nil, tower_bundle (hm _) y hy]
  unfold Proc.native
  simp only [bind, Except.bind, hrun]
  unfold outcome
  by_cases h3 : rnd 15 4 ≤ 1
  · simp only [h3, if_true, g3]
    rw [out _ e3.row, f3]
  · simp only [h3, if_false]
    by_cases h2 : rnd 12 3 ≤ 1
    · simp only [h2, if_true, g2]
      rw [out _ e2.row, f2]
    · simp only [h2, if_false]
      by_cases h1 : rnd 7 2 ≤ 1
      · simp only [h1, if_true, g1]
        rw [out _ e1.row, f1]
      · simp only [h1, if_false, g0]
        rw [out _ e0.row, f0]

end Eden
end MM
