import Verif.Eden.Coords
import Verif.Eden.Covers

/-! The best result of subprocessors. -/

namespace MM
namespace Eden

open Spec.Eden (Qb Ell Joined Works LinesWhole CellsWhole Path Touch Clique Biclique Native Grid without Covers MinimalCover Box LexLe)

variable {P : Proc}

section Loop

variable {S T : Type} {f : Nat → Proc → Except Err (Option S × T)} {objective : Option S × T → Option S × T → Bool}
  {le : Option S × T → Option S × T → Prop} {Q : Proc → Option S × T → Prop}

/-- The objective follows a preorder. -/
structure Follows (objective : Option S × T → Option S × T → Bool) (le : Option S × T → Option S × T → Prop) : Prop where
  refl : ∀ x, le x x
  trans : ∀ x y z, le x y → le y z → le x z
  better : ∀ x y, objective x y = true → le x y
  worse : ∀ x y, objective x y = false → le y x

theorem bestOf_spec (ho : Follows objective le) (l : List Proc) (hf : ∀ i, ∀ p ∈ l, ∃ v, f i p = .ok v ∧ Q p v) (i : Nat) (b : Option S × T) :
    ∃ r, bestOf f objective i b l = .ok r ∧ (r = b ∨ ∃ p ∈ l, Q p r) ∧ le b r ∧ ∀ p ∈ l, ∃ v, Q p v ∧ le v r := by
  induction l generalizing i b with
  | nil => exact ⟨b, rfl, .inl rfl, ho.refl b, fun p hp => by simp at hp⟩
  | cons p l ih =>
    obtain ⟨v, h1, h2⟩ := hf i p List.mem_cons_self
    obtain ⟨r, k1, k2, k3, k4⟩ := ih (fun i q hq => hf i q (List.mem_cons_of_mem _ hq)) (i + 1) (if objective b v then v else b)
    refine ⟨r, ?_, ?_, ?_, ?_⟩
    · unfold bestOf
      simp only [bind, Except.bind, h1, k1]
    · rcases k2 with k2 | ⟨q, hq, k2⟩
      · by_cases hb : objective b v = true
        · rw [if_pos hb] at k2
          exact .inr ⟨p, List.mem_cons_self, k2 ▸ h2⟩
        · rw [if_neg hb] at k2
          exact .inl k2
      · exact .inr ⟨q, List.mem_cons_of_mem _ hq, k2⟩
    · refine ho.trans _ _ _ ?_ k3
      by_cases hb : objective b v = true
      · rw [if_pos hb]
        exact ho.better _ _ hb
      · rw [if_neg hb]
        exact ho.refl _
    · intro q hq
      rcases List.mem_cons.mp hq with rfl | hq
      · refine ⟨v, h2, ho.trans _ _ _ ?_ k3⟩
        by_cases hb : objective b v = true
        · rw [if_pos hb]
          exact ho.refl _
        · rw [if_neg hb]
          exact ho.worse _ _ (Bool.not_eq_true _ ▸ hb)
      · exact k4 q hq

theorem mapTo_spec (ho : Follows objective le) {limit : Int} {C : Chance} (hne : P.chosen limit C ≠ [])
    (hf : ∀ i, ∀ d ∈ P.chosen limit C, ∃ v, f i (P.sub d) = .ok v ∧ Q (P.sub d) v) :
    ∃ v, ∃ d ∈ P.chosen limit C, P.mapTo limit C f objective = .ok v.2 ∧ Q (P.sub d) v ∧ ∀ d' ∈ P.chosen limit C, ∃ v', Q (P.sub d') v' ∧ le v' v := by
  unfold Proc.mapTo
  cases hc : P.chosen limit C with
  | nil => exact absurd hc hne
  | cons d l =>
    rw [hc] at hf
    obtain ⟨x, h1, h2⟩ := hf 0 d List.mem_cons_self
    obtain ⟨r, k1, k2, k3, k4⟩ := bestOf_spec (f := f) (Q := Q) ho (l.map P.sub) (fun i p hp => by
      obtain ⟨d', hd', rfl⟩ := List.mem_map.mp hp
      exact hf i d' (List.mem_cons_of_mem _ hd')) 1 x
    have all : ∀ d' ∈ d :: l, ∃ v', Q (P.sub d') v' ∧ le v' r := by
      intro d' hd'
      rcases List.mem_cons.mp hd' with rfl | hd'
      · exact ⟨x, h2, k3⟩
      · exact k4 _ (List.mem_map_of_mem hd')
    have e : (match (d :: l).map P.sub with
      | [] => .error .stop
      | p :: l => do
        let x ← f 0 p
        let b ← bestOf f objective 1 x l
        .ok b.2 : Except Err T) = .ok r.2 := by
      simp only [List.map_cons, bind, Except.bind, h1, k1]
    rcases k2 with rfl | ⟨p, hp, k2⟩
    · exact ⟨_, d, List.mem_cons_self, e, h2, all⟩
    · obtain ⟨d', hd', rfl⟩ := List.mem_map.mp hp
      exact ⟨r, d', List.mem_cons_of_mem _ hd', e, k2, all⟩

/-- If all subprocessors raise the same exception. -/
theorem mapTo_error {limit : Int} {C : Chance} (hne : P.chosen limit C ≠ []) {err : Err} (hf : ∀ i, ∀ d ∈ P.chosen limit C, f i (P.sub d) = .error err) :
    P.mapTo limit C f objective = .error err := by
  unfold Proc.mapTo
  cases hc : P.chosen limit C with
  | nil => exact absurd hc hne
  | cons d l =>
    rw [hc] at hf
    simp only [List.map_cons, bind, Except.bind, hf 0 d List.mem_cons_self]

theorem mapTo_stop {limit : Int} {C : Chance} (hne : P.chosen limit C = []) : P.mapTo limit C f objective = .error .stop := by
  unfold Proc.mapTo
  rw [hne]
  rfl

end Loop

/-- Scores that are at least as large. -/
def ScoreLe {S T : Type} (le : S → S → Prop) (x y : Option S × T) : Prop := ∀ a, x.1 = some a → ∃ b, y.1 = some b ∧ le a b

theorem follows_score {S T : Type} {lt : S → S → Bool} {le : S → S → Prop} (refl : ∀ a, le a a) (trans : ∀ a b c, le a b → le b c → le a c) (h1 : ∀ a b, lt a b = true → le a b)
    (h2 : ∀ a b, lt a b = false → le b a) : Follows (S := S) (T := T) (bestScore lt) (ScoreLe le) := by
  refine ⟨fun x a h => ⟨a, h, refl a⟩, fun x y z hxy hyz a h => ?_, fun x y h a ha => ?_, fun x y h b hb => ?_⟩
  · obtain ⟨b, hb, l1⟩ := hxy a h
    obtain ⟨c, hc, l2⟩ := hyz b hb
    exact ⟨c, hc, trans a b c l1 l2⟩
  · unfold bestScore at h
    rw [ha] at h
    cases hy : y.1 with
    | none => rw [hy] at h; cases h
    | some b =>
      rw [hy] at h
      exact ⟨b, rfl, h1 a b h⟩
  · unfold bestScore at h
    rw [hb] at h
    cases hx : x.1 with
    | none => rw [hx] at h; cases h
    | some a =>
      rw [hx] at h
      exact ⟨a, rfl, h2 a b h⟩

/-- At most as many qubits. -/
def FewerLe {S T : Type} (empty : T → Bool) (count : T → Nat) (x y : Option S × T) : Prop :=
  x.1 ≠ none → y.1 ≠ none ∧ (empty x.2 = false → empty y.2 = false ∧ count y.2 ≤ count x.2)

theorem follows_fewest {S T : Type} (empty : T → Bool) (count : T → Nat) : Follows (S := S) (fewest empty count) (FewerLe empty count) := by
  refine ⟨fun x h => ⟨h, fun h => ⟨h, le_refl _⟩⟩, fun x y z hxy hyz h => ?_, fun x y h hx => ?_, fun x y h hy => ?_⟩
  · obtain ⟨a1, a2⟩ := hxy h
    obtain ⟨b1, b2⟩ := hyz a1
    refine ⟨b1, fun he => ?_⟩
    obtain ⟨c1, c2⟩ := a2 he
    obtain ⟨d1, d2⟩ := b2 c1
    exact ⟨d1, d2.trans c2⟩
  · obtain ⟨x1, x2⟩ := x
    obtain ⟨y1, y2⟩ := y
    cases x1 with
    | none => exact absurd rfl hx
    | some a =>
      cases y1 with
      | none => cases h
      | some b =>
        simp only [fewest] at h
        refine ⟨nofun, fun he => ?_⟩
        by_cases h1 : empty y2 = true
        · rw [if_pos h1] at h
          cases h
        · rw [if_neg h1] at h
          dsimp only at he ⊢
          rw [he, if_neg (by decide), decide_eq_true_eq] at h
          exact ⟨Bool.not_eq_true _ ▸ h1, h.le⟩
  · obtain ⟨x1, x2⟩ := x
    obtain ⟨y1, y2⟩ := y
    cases y1 with
    | none => exact absurd rfl hy
    | some b =>
      cases x1 with
      | none => cases h
      | some a =>
        simp only [fewest] at h
        refine ⟨nofun, fun he => ?_⟩
        dsimp only at he ⊢
        rw [he, if_neg (by decide)] at h
        by_cases h1 : empty x2 = true
        · rw [if_pos h1] at h
          cases h
        · rw [if_neg h1, decide_eq_false_iff_not] at h
          exact ⟨Bool.not_eq_true _ ▸ h1, by omega⟩

theorem follows_nat {T : Type} : Follows (S := Nat) (T := T) (bestScore fun a b => decide (a < b)) (ScoreLe (· ≤ ·)) :=
  follows_score (fun a => le_refl a) (fun _ _ _ => le_trans) (fun _ _ h => (of_decide_eq_true h).le) fun _ _ h => not_lt.mp (of_decide_eq_false h)

theorem follows_lex {T : Type} : Follows (S := Nat × Nat) (T := T) (bestScore lexLt) (ScoreLe LexLe) :=
  follows_score (fun a => lexLe_refl a) (fun _ _ _ => lexLe_trans) (fun _ _ h => lexLe_of_lt h) fun _ _ h => (not_lexLt _ _).mp h

theorem tightest_score {K : Luck} (hK : K.Fair) {n : Nat} (hn : 1 ≤ n) (ws : List Nat) {r : Option Nat × List (List Qb)} (h : P.tightestFrom K n ws = .ok r) (h0 : r.1 = none) : r.2 = [] := by
  induction ws with
  | nil => cases h; rfl
  | cons w ws ih =>
    obtain ⟨c, h1, h2⟩ := native_result (P := P) (hK.rolls w) (hK.mixes w) w
    unfold Proc.tightestFrom at h
    simp only [bind, Except.bind, h1] at h
    by_cases hlen : n ≤ c.2.length
    · rw [if_pos hlen] at h
      cases h
      rw [h2.empty h0] at hlen
      simp at hlen
      omega
    · rw [if_neg hlen] at h
      exact ih h

/-- A subgraph without missing couplers in cells is part of one that is looked at. -/
theorem reach_chosen (hE : ∀ e ∈ P.edges, Grid P.M P.N P.L e.1 ∧ Grid P.M P.N P.L e.2) {limit : Int} {C : Chance} (hC : C.Fair) (hl : 2 ^ P.evil.length ≤ limit) {d : List Qb}
    (hd : CellsWhole (without P.edges d)) : ∃ d' ∈ P.chosen limit C, ∀ p q, Joined (without P.edges d) p q → Joined (P.sub d').edges p q := by
  obtain ⟨c, hc, hj⟩ := exists_cover hd
  obtain ⟨d', hd', hs⟩ := deletions_reach ((covers_iff hE c).mp hc)
  rw [(chosen_spec hC).2.2.2 hl]
  refine ⟨d', hd', fun p q h => ?_⟩
  rw [sub_edges, joined_without]
  obtain ⟨h1, h2, h3⟩ := joined_without.mp (hj p q h)
  exact ⟨h1, fun h => h2 (hs h), fun h => h3 (hs h)⟩

theorem sub_cells (hE : ∀ e ∈ P.edges, Grid P.M P.N P.L e.1 ∧ Grid P.M P.N P.L e.2) {limit : Int} {C : Chance} (hC : C.Fair) {d : List Qb} (hd : d ∈ P.chosen limit C) :
    CellsWhole (P.sub d).edges := by
  rw [sub_edges]
  exact cells_without ((covers_iff hE d).mpr ((chosen_spec hC).1 d hd))

theorem sub_lines (h : LinesWhole P.edges) (d : List Qb) : LinesWhole (P.sub d).edges := by
  rw [sub_edges]
  exact lines_without d h

theorem chosen_ne {limit : Int} {C : Chance} (hC : C.Fair) (hl : 1 ≤ limit) : P.chosen limit C ≠ [] := fun h => by
  have := (chosen_spec (P := P) hC).2.2.1.mp h
  omega

/-- Linear labels. -/
theorem fromLinear_spec {M N L : Nat} {E : List (Int × Int)} (hN : 0 < N) (hL : 0 < L) : ∃ P, fromLinear M N L E = .ok P ∧ P.M = M ∧ P.N = N ∧ P.L = L ∧ Keeps (toLinear N L) P.edges E ∧
    ((∀ e ∈ E, (0 ≤ e.1 ∧ e.1 < 2 * M * N * L) ∧ (0 ≤ e.2 ∧ e.2 < 2 * M * N * L)) → ∀ e ∈ P.edges, Grid M N L e.1 ∧ Grid M N L e.2) ∧
    P.edges.map (fun e => (toLinear N L e.1, toLinear N L e.2)) = E := by
  have main : ∃ F, E.mapM (fun e => (do
      let p ← toChimera N L e.1
      let q ← toChimera N L e.2
      .ok (p, q) : Except Err (Qb × Qb))) = .ok F ∧ F.map (fun e => (toLinear N L e.1, toLinear N L e.2)) = E ∧
      ∀ f ∈ F, ∃ e ∈ E, toChimera N L e.1 = .ok f.1 ∧ toChimera N L e.2 = .ok f.2 := by
    induction E with
    | nil => exact ⟨[], rfl, rfl, by simp⟩
    | cons e E ih =>
      obtain ⟨F, h1, h2, h3⟩ := ih
      obtain ⟨p, p1, p2, -⟩ := toChimera_ok hN hL e.1
      obtain ⟨q, q1, q2, -⟩ := toChimera_ok hN hL e.2
      refine ⟨(p, q) :: F, ?_, by rw [List.map_cons, h2, p2, q2], fun f hf => ?_⟩
      · rw [List.mapM_cons, h1]
        simp only [bind, Except.bind, p1, q1]
        rfl
      · rcases List.mem_cons.mp hf with rfl | hf
        · exact ⟨e, List.mem_cons_self, p1, q1⟩
        · obtain ⟨e', he', h⟩ := h3 f hf
          exact ⟨e', List.mem_cons_of_mem _ he', h⟩
  obtain ⟨F, h1, h2, h3⟩ := main
  refine ⟨⟨F, M, N, L⟩, by simp only [fromLinear, bind, Except.bind] at h1 ⊢; rw [h1], rfl, rfl, rfl, ⟨fun p q h => ?_, fun p q hp hq e => ?_⟩, fun hE f hf => ?_, h2⟩
  · rw [← h2]
    rcases h with h | h
    · exact .inl (List.mem_map_of_mem (f := fun e : Qb × Qb => (toLinear N L e.1, toLinear N L e.2)) h)
    · exact .inr (List.mem_map_of_mem (f := fun e : Qb × Qb => (toLinear N L e.1, toLinear N L e.2)) h)
  · have back : ∀ p, Works F p → toChimera N L (toLinear N L p) = .ok p := by
      rintro p ⟨r, h | h⟩
      · obtain ⟨e, -, -, h⟩ := h3 _ h
        obtain ⟨p', k1, k2, -⟩ := toChimera_ok hN hL e.2
        rw [h] at k1
        cases k1
        rw [k2, h]
      · obtain ⟨e, -, h, -⟩ := h3 _ h
        obtain ⟨p', k1, k2, -⟩ := toChimera_ok hN hL e.1
        rw [h] at k1
        cases k1
        rw [k2, h]
    have h1 := back p hp
    have h2 := back q hq
    rw [e, h2] at h1
    cases h1
    rfl
  · obtain ⟨e, he, k1, k2⟩ := h3 f hf
    exact ⟨(toChimera_grid hN hL _ k1).mpr (hE e he).1, (toChimera_grid hN hL _ k2).mpr (hE e he).2⟩

end Eden
end MM
