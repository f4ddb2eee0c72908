import Verif.Eden.Odds

/-! Random choice of native cliques (`eden_processor`). -/

namespace MM

open Eden
open Spec (FairDraws chance)
open Spec.Eden (Qb Ell LinesWhole Native)

/-- C121: the documented loop around `_accumulate_random` takes each object with a chance in proportion to its weight. -/
theorem C121_pick {β : Type} [DecidableEq β] (things : List (β × Nat)) (hp : ∀ x ∈ things, 1 ≤ x.2) (hn : (things.map Prod.fst).Nodup) (B : Nat)
    (hB : (things.map Prod.snd).sum ≤ B) (Ω : Type) [Fintype Ω] (rnd : Ω → Nat → Nat → Nat) (hf : FairDraws things.length B Ω rnd) (o : β) (c : Nat) (h : (o, c) ∈ things)
    (thing : β) : chance (fun ω => pickLoop (rnd ω) things 0 0 thing = o) = c / (things.map Prod.snd).sum := by
  obtain ⟨j, hj⟩ := List.mem_iff_getElem?.mp h
  exact pickLoop_chance hf hp hn hB hj thing

/-- Three objects, and fair draws for them. -/
example : (∀ x ∈ [('a', 2), ('b', 1), ('c', 3)], 1 ≤ x.2) ∧ ([('a', 2), ('b', 1), ('c', 3)].map Prod.fst).Nodup ∧
    ∃ rnd : (Fin 3 → Fin (Nat.factorial 6)) → Nat → Nat → Nat, FairDraws 3 6 (Fin 3 → Fin (Nat.factorial 6)) rnd := ⟨by decide, by decide, Spec.fair_exists 3 6⟩

open Classical in
/-- C121, partial: if no coupler between working qubits of neighbouring cells is missing, each of the largest native cliques with chains of `width + 1` qubits has a positive
chance to be the one that `nativeCliqueEmbed` returns. Missing: the chances are equal. -/
theorem C121_possible_partial (P : Proc) (hl : LinesWhole P.edges) (mix : Ell → Bool → List (List Qb) → List (List Qb)) (hm : ∀ e b l, (mix e b l).Perm l) (width : Nat)
    (es : List Ell) (hn : Native P.M P.N (width + 1) es)
    (hmax : ∀ es', Native P.M P.N (width + 1) es' → Spec.Eden.size P.edges P.L es' ≤ Spec.Eden.size P.edges P.L es) :
    ∃ (k B : Nat), ∀ (Ω : Type) [Fintype Ω] (rnd : Ω → Nat → Nat → Nat), FairDraws k B Ω rnd →
      0 < chance fun ω => ∃ score, P.native (rnd ω) mix width = .ok (score, es.flatMap fun e => P.bundle (mix e) e) := by
  obtain ⟨rnd, score, h1, k, bound, h2, h3⟩ := native_can (P := P) (mix := mix) hm (fun e he => ((blk_spec he).2.2 hl).symm) hn fun es' hn' => by
    rw [(sum_blk hn').2 hl, (sum_blk hn).2 hl]
    exact hmax es' hn'
  refine ⟨k, ∑ i ∈ Finset.range k, bound i, fun Ω _ rnd' hf => ?_⟩
  have hcount := hf.even bound (fun i => rnd i (bound i)) fun i hi => ⟨(h1 i _ (h2 i)).1, (h1 i _ (h2 i)).2,
    Finset.single_le_sum (f := bound) (fun _ _ => Nat.zero_le _) (Finset.mem_range.mpr hi)⟩
  have hpos : 0 < Fintype.card Ω := Fintype.card_pos_iff.mpr hf.nonempty
  have hne : (Finset.univ.filter fun ω => ∀ i < k, rnd' ω i (bound i) = rnd i (bound i)).card ≠ 0 := fun h => by
    have hcount' : 0 * ∏ i ∈ Finset.range k, bound i = Fintype.card Ω := by
      rw [← hcount, ← h]
    omega
  obtain ⟨ω, hω⟩ := Finset.card_pos.mp (Nat.pos_of_ne_zero hne)
  have hω' := (Finset.mem_filter.mp hω).2
  unfold chance
  refine div_pos ?_ (by exact_mod_cast hpos)
  have hin : 0 < (Finset.univ.filter fun ω => ∃ score, P.native (rnd' ω) mix width = .ok (score, es.flatMap fun e => P.bundle (mix e) e)).card :=
    Finset.card_pos.mpr ⟨ω, Finset.mem_filter.mpr ⟨Finset.mem_univ _, score, h3 (rnd' ω) hω'⟩⟩
  exact_mod_cast hin

/-- Three cells in a column: a native clique in the second is a largest one. -/
theorem tower_largest : LinesWhole tower.edges ∧ (∀ y ∈ [(0 : Int), 1, 2], Native 1 3 2 [⟨0, 0, y, y⟩] ∧ Spec.Eden.size tower.edges 1 [⟨0, 0, y, y⟩] = 1) ∧
    ∀ es, Native 1 3 2 es → Spec.Eden.size tower.edges 1 es ≤ 1 := by
  have hl : LinesWhole tower.edges := Proc.lines_of_check (by decide +kernel)
  have hnat : ∀ y ∈ [(0 : Int), 1, 2], Native 1 3 2 [⟨0, 0, y, y⟩] := by
    intro y hy
    have hy' : 0 ≤ y ∧ y < 3 := by
      simp only [List.mem_cons, List.not_mem_nil, or_false] at hy
      omega
    refine ⟨List.isChain_singleton _, fun e he c hc => ?_, fun e he r hr => ?_, fun e he => ?_⟩ <;> rw [List.mem_singleton] at he <;> subst he
    · simp only [Ell.InCols] at hc
      omega
    · simp only [Ell.InRows] at hr
      omega
    · simp only [Ell.len]
      omega
  refine ⟨hl, fun y hy => ⟨hnat y hy, ?_⟩, fun es hes => ?_⟩
  · refine ((sum_blk (P := tower) (hnat y hy)).2 hl).symm.trans ?_
    revert y
    decide +kernel
  · have one : Ranged fun _ _ => 1 := fun _ _ h => ⟨le_rfl, h⟩
    obtain ⟨score, chains, h1, h2, -⟩ := C85_optimal tower hl (fun _ _ => 1) one (fun _ _ l => l) (fun _ _ _ => List.Perm.refl _) 1
    rw [tower_native one fun _ _ _ => List.Perm.refl _] at h1
    cases h1
    exact h2 es hes

example : LinesWhole tower.edges ∧ Native tower.M tower.N (1 + 1) [⟨0, 0, 1, 1⟩] ∧
    ∀ es', Native tower.M tower.N (1 + 1) es' → Spec.Eden.size tower.edges tower.L es' ≤ Spec.Eden.size tower.edges tower.L [⟨0, 0, 1, 1⟩] :=
  ⟨tower_largest.1, (tower_largest.2.1 1 (by decide)).1, fun es' h => (tower_largest.2.2 es' h).trans (tower_largest.2.1 1 (by decide)).2.ge⟩

open Classical in
/-- C121 is false: three cells in a column, where no coupler is missing, have three native cliques of one chain with two qubits, one in each row, and none is larger; but
that in the first row has chance 3/8 to be returned, and that in the second row 1/4. -/
theorem C121_not_uniform (mix : Ell → Bool → List (List Qb) → List (List Qb)) (hm : ∀ e b l, (mix e b l).Perm l) (Ω : Type) [Fintype Ω] (rnd : Ω → Nat → Nat → Nat)
    (hf : FairDraws 16 4 Ω rnd) :
    LinesWhole tower.edges ∧ (∀ y ∈ [(0 : Int), 1, 2], Native 1 3 2 [⟨0, 0, y, y⟩] ∧ Spec.Eden.size tower.edges 1 [⟨0, 0, y, y⟩] = 1) ∧
    (∀ es, Native 1 3 2 es → Spec.Eden.size tower.edges 1 es ≤ 1) ∧
    (chance fun ω => tower.native (rnd ω) mix 1 = .ok (some 1, [[⟨0, 0, 1, 0⟩, ⟨0, 0, 0, 0⟩]])) = 3 / 8 ∧
    (chance fun ω => tower.native (rnd ω) mix 1 = .ok (some 1, [[⟨0, 1, 1, 0⟩, ⟨0, 1, 0, 0⟩]])) = 1 / 4 := by
  obtain ⟨t1, t2, t3⟩ := tower_largest
  have key : ∀ y ω, tower.native (rnd ω) mix 1 = .ok (some 1, [[⟨0, y, 1, 0⟩, ⟨0, y, 0, 0⟩]]) ↔ outcome (rnd ω) = y := by
    intro y ω
    rw [tower_native (hf.range ω) hm]
    refine ⟨fun h => ?_, fun h => by rw [h]; rfl⟩
    simp only [hook, Except.ok.injEq, Prod.mk.injEq, List.cons.injEq, Qb.mk.injEq, true_and, and_true] at h
    exact h.1
  refine ⟨t1, t2, t3, ?_, ?_⟩
  · rw [← lowest_chance hf]
    exact Spec.chance_congr (key 0)
  · rw [← middle_chance hf]
    exact Spec.chance_congr (key 1)

/-- There are fair draws. -/
example : ∃ rnd : (Fin 16 → Fin (Nat.factorial 4)) → Nat → Nat → Nat, FairDraws 16 4 (Fin 16 → Fin (Nat.factorial 4)) rnd := Spec.fair_exists 16 4

end MM
