import Verif.Props.EdenProcessor

/-! C93 for bicliques with chains of one length. -/

namespace MM

open Eden
open Spec.Eden (Qb LinesWhole CellsWhole Biclique Box Grid without Missing)

namespace Eden

theorem measure_eq {chains : List (List Qb)} {l : Nat} (h : ∀ c ∈ chains, c.length = l) : Eden.measure chains = chains.length * l := by
  unfold Eden.measure
  induction chains with
  | nil => simp
  | cons c cs ih =>
    rw [List.map_cons, List.sum_cons, h c List.mem_cons_self, ih fun c hc => h c (List.mem_cons_of_mem _ hc), List.length_cons]
    ring

end Eden

/-- C93 for the default `chain_imbalance` of 0: if there are few missing couplers in cells and no other couplers are missing, `tightestNativeBiClique` returns chains of one length, which
is the least for which a square of that length within the limit has enough lines in an induced subgraph without missing couplers; or nothing, if there is no such square. -/
theorem C93_tightest_square (P : Proc) (hE : ∀ e ∈ P.edges, Grid P.M P.N P.L e.1 ∧ Grid P.M P.N P.L e.2) (hw : LinesWhole P.edges) (limit : Int) (ms : List (Qb × Qb))
    (hm : Missing P.edges ms) (hl' : 2 ^ ms.length ≤ limit) (C : Chance) (hC : C.Fair) (order : Nat → List (Nat × Nat) → List (Nat × Nat)) (ho : ∀ i l, (order i l).Perm l)
    (n m : Nat) (hnm : 1 ≤ n + m) (maxLength : Option Int) :
    (P.tightestBiAll limit C order n (some m) (some 0) maxLength = .ok none ∧
      ∀ d, CellsWhole (without P.edges d) → ∀ b : Box, b.Inside P.M P.N → b.Allowed maxLength (some 0) → ¬ b.Holds (without P.edges d) P.L n m) ∨
    ∃ (A B : List (List Qb)) (l : Nat), P.tightestBiAll limit C order n (some m) (some 0) maxLength = .ok (some (A, B)) ∧ Biclique P.edges A B ∧ A.length = n ∧ B.length = m ∧
      (∀ c, c ∈ A ∨ c ∈ B → c.length = l) ∧
      ∀ d, CellsWhole (without P.edges d) → ∀ b : Box, b.Inside P.M P.N → b.Allowed maxLength (some 0) → b.Holds (without P.edges d) P.L n m → (l : Int) ≤ b.width := by
  have hl := evil_limit hm hl'
  have hlim : 1 ≤ limit := le_trans (by exact_mod_cast Nat.one_le_two_pow (n := P.evil.length)) hl
  obtain ⟨v, d, hd, h1, ⟨k0, k1⟩, h3⟩ := mapTo_spec (P := P) (Q := fun p v => (v.1 = none ↔ v.2 = none) ∧
        ((v.2 = none ∧ ∀ b : Box, b.Inside P.M P.N → b.Allowed maxLength (some 0) → ¬ b.Holds p.edges P.L n m) ∨
          ∃ (A B : List (List Qb)) (l : Nat), v.2 = some (A, B) ∧ Biclique p.edges A B ∧ A.length = n ∧ B.length = m ∧ (∀ c, c ∈ A ∨ c ∈ B → c.length = l) ∧
            ∀ b : Box, b.Inside P.M P.N → b.Allowed maxLength (some 0) → b.Holds p.edges P.L n m → (l : Int) ≤ b.width))
    (follows_fewest (S := Nat × Nat) (fun _ => false) measureBoth) (chosen_ne hC hlim)
    (f := fun i p => do
      let r ← p.tightestBi (order i) n (some m) (some 0) maxLength
      .ok (r.map Prod.fst, r.map Prod.snd)) (fun i d hd => by
      rcases C90_tightest_partial (P.sub d) (sub_cells hE hC hd) (sub_lines hw d) (order i) (ho i) n m (some 0) maxLength with ⟨h, h'⟩ | ⟨b, s, A, B, hb, ha, h', -, h4, h5, h6, h7, h8⟩
      · simp only [bind, Except.bind, h']
        exact ⟨_, rfl, by simp, .inl ⟨rfl, h⟩⟩
      · simp only [bind, Except.bind, h']
        obtain ⟨-, i1, -, -, i2, -⟩ := hb
        have hsq := ha.2 0 rfl
        have hwb : (b.width.toNat : Int) = b.width := by
          unfold Box.width
          omega
        refine ⟨_, rfl, by simp, .inr ⟨A, B, b.width.toNat, rfl, h4, h5, h6, fun c hc => ?_, fun b' hb' ha' hh => ?_⟩⟩
        · rcases h7 with ⟨g1, g2⟩ | ⟨g1, g2⟩ <;> rcases hc with hc | hc
          · have := g1 c hc; omega
          · have := g2 c hc; omega
          · have := g1 c hc; omega
          · have := g2 c hc; omega
        · have := h8 b' hb' ha' hh
          have hsq' := ha'.2 0 rfl
          unfold Spec.Eden.LexLe at this
          simp only at this
          omega)
  have hv : P.tightestBiAll limit C order n (some m) (some 0) maxLength = .ok v.2 := h1
  rcases k1 with ⟨a1, -⟩ | ⟨A, B, l, a1, a2, a3, a4, a5, -⟩
  · refine .inl ⟨by rw [hv, a1], fun c hc b hb ha hh => ?_⟩
    exact (C93_tightest_bi_partial P hE hw limit ms hm hl' C hC order ho n m (some 0) maxLength).mp (by rw [hv, a1]) c hc b hb ha hh
  · rw [Eden.sub_edges] at a2
    refine .inr ⟨A, B, l, by rw [hv, a1], biclique_without a2, a3, a4, a5, fun c hc b hb ha hh => ?_⟩
    obtain ⟨d', hd', hj⟩ := reach_chosen hE hC hl hc
    obtain ⟨v', ⟨m0, m1⟩, m2⟩ := h3 d' hd'
    have hh' : b.Holds (P.sub d').edges P.L n m := by
      have := box_mono hj P.L b
      unfold Box.Holds at hh ⊢
      omega
    rcases m1 with ⟨-, c1⟩ | ⟨A', B', l', c1, -, c3, c4, c5, c6⟩
    · exact (c1 b hb ha hh').elim
    · have hne : v'.1 ≠ none := fun h => by
        have := m0.mp h
        rw [c1] at this
        exact nomatch this
      obtain ⟨-, e⟩ := (m2 hne).2 rfl
      rw [a1, c1] at e
      simp only [measureBoth] at e
      rw [measure_eq fun c hc => a5 c (.inl hc), measure_eq fun c hc => a5 c (.inr hc), measure_eq fun c hc => c5 c (.inl hc), measure_eq fun c hc => c5 c (.inr hc), a3, a4, c3, c4,
        ← Nat.add_mul, ← Nat.add_mul] at e
      have := Nat.le_of_mul_le_mul_left e (by omega)
      have := c6 b hb ha hh'
      omega

/-- One coupler missing in a cell: two chains on each side have one qubit each, and four do not exist. -/
example : (∃ (A B : List (List Qb)) (l : Nat), Demo.uneven.tightestBiAll 64 Demo.chance (fun _ => id) 2 (some 2) (some 0) none = .ok (some (A, B)) ∧ Biclique Demo.uneven.edges A B ∧
    A.length = 2 ∧ B.length = 2 ∧ ∀ c, c ∈ A ∨ c ∈ B → c.length = l) ∧ (Demo.uneven.tightestBiAll 64 Demo.chance (fun _ => id) 4 (some 4) (some 0) none).toOption = some none := by
  refine ⟨?_, by decide +kernel⟩
  rcases C93_tightest_square Demo.uneven Demo.uneven_grid Demo.uneven_lines 64 _ Demo.uneven_missing (by decide) Demo.chance Demo.chance_fair (fun _ => id) (fun _ _ => List.Perm.refl _) 2 2
    (by decide) none with ⟨h, -⟩ | ⟨A, B, l, h1, h2, h3, h4, h5, -⟩
  · have h3 : ((Demo.uneven.tightestBiAll 64 Demo.chance (fun _ => id) 2 (some 2) (some 0) none).toOption.map Option.isSome) = some true := by decide +kernel
    rw [h] at h3
    exact nomatch Option.some.inj h3
  · exact ⟨A, B, l, h1, h2, h3, h4, h5⟩

/-- The same if `m` is left out. -/
theorem C93_tightest_default (P : Proc) (limit : Int) (C : Chance) (order : Nat → List (Nat × Nat) → List (Nat × Nat)) (n : Nat) (imbalance maxLength : Option Int) :
    P.tightestBiAll limit C order n none imbalance maxLength = P.tightestBiAll limit C order n (some n) imbalance maxLength := rfl

namespace Demo

/-- Room for a biclique of three columns and one row, and for one of two columns and two rows next to a missing coupler. -/
def twoPlaces : Proc :=
  let cell (x y : Int) (ks : List Int) : List (Qb × Qb) := ks.map fun k => (⟨x, y, 0, k⟩, ⟨x, y, 1, 0⟩)
  ⟨cell 0 0 [0, 1] ++ cell 1 0 [0, 1] ++ cell 2 0 [0, 1] ++ [(⟨0, 0, 0, 0⟩, ⟨1, 0, 0, 0⟩), (⟨0, 0, 0, 1⟩, ⟨1, 0, 0, 1⟩), (⟨1, 0, 0, 0⟩, ⟨2, 0, 0, 0⟩), (⟨1, 0, 0, 1⟩, ⟨2, 0, 0, 1⟩)] ++
    cell 4 0 [0, 1] ++ cell 5 0 [0, 1] ++ cell 4 1 [0] ++ cell 5 1 [0, 1] ++ [(⟨4, 0, 0, 0⟩, ⟨5, 0, 0, 0⟩), (⟨4, 0, 0, 1⟩, ⟨5, 0, 0, 1⟩), (⟨4, 1, 0, 0⟩, ⟨5, 1, 0, 0⟩),
      (⟨4, 1, 0, 1⟩, ⟨5, 1, 0, 1⟩), (⟨4, 0, 1, 0⟩, ⟨4, 1, 1, 0⟩), (⟨5, 0, 1, 0⟩, ⟨5, 1, 1, 0⟩)], 6, 2, 2⟩

theorem twoPlaces_grid : ∀ e ∈ twoPlaces.edges, Grid twoPlaces.M twoPlaces.N twoPlaces.L e.1 ∧ Grid twoPlaces.M twoPlaces.N twoPlaces.L e.2 := Proc.grid_of_check (by decide +kernel)

theorem twoPlaces_lines : LinesWhole twoPlaces.edges := Proc.lines_of_check (by decide +kernel)

theorem twoPlaces_missing : Missing twoPlaces.edges [(⟨4, 1, 0, 1⟩, ⟨4, 1, 1, 0⟩)] := missing_evil twoPlaces_grid (by decide +kernel)

end Demo

/-- C93 is false for the lengths of chains of the tightest biclique without a limit for the imbalance: chains of three qubits are returned, although chains of two suffice; numbers of qubits
decide between subgraphs. Only one coupler is missing, inside of a cell. -/
theorem C93_long_tightest : LinesWhole Demo.twoPlaces.edges ∧ Missing Demo.twoPlaces.edges [(⟨4, 1, 0, 1⟩, ⟨4, 1, 1, 0⟩)] ∧
    ((Demo.twoPlaces.tightestBiAll 64 Demo.chance (fun _ => id) 2 (some 3) none none).toOption.map fun r => r.map fun r => (r.1.map List.length, r.2.map List.length)) =
      some (some ([3, 3], [1, 1, 1])) ∧
    ∃ A B, Biclique Demo.twoPlaces.edges A B ∧ A.map List.length = [2, 2] ∧ B.map List.length = [2, 2, 2] := by
  refine ⟨Demo.twoPlaces_lines, Demo.twoPlaces_missing, by decide +kernel, ?_⟩
  rcases C92_tightest_bi Demo.twoPlaces Demo.twoPlaces_grid 64 (by decide) Demo.chance Demo.chance_fair (fun _ => id) (fun _ _ => List.Perm.refl _) 2 3 (some 0) none with
    h | ⟨b, A, B, -, -, h1, h2, -⟩
  · have h3 : ((Demo.twoPlaces.tightestBiAll 64 Demo.chance (fun _ => id) 2 (some 3) (some 0) none).toOption.map Option.isSome) = some true := by decide +kernel
    rw [h] at h3
    cases h3
  · have h3 : ((Demo.twoPlaces.tightestBiAll 64 Demo.chance (fun _ => id) 2 (some 3) (some 0) none).toOption.map fun r => r.map fun r => (r.1.map List.length, r.2.map List.length)) =
        some (some ([2, 2], [2, 2, 2])) := by decide +kernel
    rw [h1] at h3
    have h4 := Option.some.inj (Option.some.inj h3)
    exact ⟨A, B, h2, congrArg Prod.fst h4, congrArg Prod.snd h4⟩

end MM
