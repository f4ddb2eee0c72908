import Verif.Lay.Intersect
import Verif.Lay.LayoutInv
import Verif.Spec.Cross

/-! Grid points of the lines of a lattice, and fitting a layout into the grid. -/

namespace MM
namespace Lay

open Spec.Layout Spec.Cross Lattice
open Bus (Topo)

/-- The attributes of `T.graph` are those of the lattice. -/
def Of : Fam → Topo → Prop
  | .chimera m n t, .chimera m' n' t' => m = m' ∧ n = n' ∧ t = t'
  | .pegasus m n t vo ho, .pegasus d off => m = d ∧ n = d ∧ t = 12 ∧ (∀ u i, off u i < 6) ∧
      (∀ k < 12, vo[k]? = some (2 * off false (k / 2))) ∧ ∀ k < 12, ho[k]? = some (2 * off true (k / 2))
  | .zephyr m n t, .zephyr d t' => m = d ∧ n = d ∧ t = t'
  | _, _ => False

theorem mem_range_col {n c r x y : Nat} : (x, y) ∈ (List.range n).map (fun kk => (c, r + kk)) ↔ x = c ∧ r ≤ y ∧ y < r + n := by
  rw [List.mem_map]
  constructor
  · rintro ⟨k, hk, e⟩
    rw [List.mem_range] at hk
    injection e with e1 e2
    omega
  · rintro ⟨rfl, h1, h2⟩
    exact ⟨y - r, List.mem_range.mpr (by omega), by rw [Nat.add_sub_cancel' h1]⟩

theorem mem_range_row {n c r x y : Nat} : (x, y) ∈ (List.range n).map (fun kk => (r + kk, c)) ↔ y = c ∧ r ≤ x ∧ x < r + n := by
  rw [List.mem_map]
  constructor
  · rintro ⟨k, hk, e⟩
    rw [List.mem_range] at hk
    injection e with e1 e2
    omega
  · rintro ⟨rfl, h1, h2⟩
    exact ⟨x - r, List.mem_range.mpr (by omega), by rw [Nat.add_sub_cancel' h1]⟩

/-- A line within its bundle. -/
theorem line_lt {t i m k : Nat} (hi : i < m) (hk : k < t) : i * t + k < t * m := by
  have : (i + 1) * t ≤ m * t := Nat.mul_le_mul_right t hi
  rw [Nat.add_mul, Nat.one_mul] at this
  rw [Nat.mul_comm t m]
  omega

theorem points_spec {F : Fam} {T : Topo} (hF : Of F T) {cs : List Nat} {q : Nat} (hq : IsAt T cs q) :
    ∃ ps, F.points cs = .ok ps ∧ (∀ x y, (x, y) ∈ ps ↔ Passes T cs x y) ∧ ∀ x y, (x, y) ∈ ps → x < F.dims.2.2 * F.dims.2.1 ∧ y < F.dims.2.2 * F.dims.1 := by
  cases F with
  | chimera m n t =>
    cases T with
    | chimera m' n' t' =>
      obtain ⟨rfl, rfl, rfl⟩ := hF
      match cs, hq with
      | [i, j, u, k], ⟨hi, hj, hu, hk, _⟩ =>
        refine ⟨_, rfl, ?_⟩
        unfold chimeraPoints Passes Fam.dims
        have h1 : ∀ y, y < (i + 1) * t → y < t * m := fun y hy => by
          have := Nat.mul_le_mul_right t hi
          rw [Nat.mul_comm t m]; exact Nat.lt_of_lt_of_le hy this
        have h2 : ∀ y, y < (j + 1) * t → y < t * n := fun y hy => by
          have := Nat.mul_le_mul_right t hj
          rw [Nat.mul_comm t n]; exact Nat.lt_of_lt_of_le hy this
        have e1 : (i + 1) * t = i * t + t := by rw [Nat.add_mul, Nat.one_mul]
        have e2 : (j + 1) * t = j * t + t := by rw [Nat.add_mul, Nat.one_mul]
        obtain rfl | rfl : u = 0 ∨ u = 1 := by omega
        · rw [if_neg (by decide), if_pos rfl]
          constructor
          · intro x y; rw [mem_range_col, ← e1]; simp
          · intro x y h
            rw [mem_range_col] at h
            obtain ⟨rfl, _, h⟩ := h
            exact ⟨line_lt hj hk, h1 y (e1 ▸ h)⟩
        · rw [if_pos rfl]
          constructor
          · intro x y; rw [mem_range_row, ← e2]; simp
          · intro x y h
            rw [mem_range_row] at h
            obtain ⟨rfl, _, h⟩ := h
            exact ⟨h2 x (e2 ▸ h), line_lt hi hk⟩
    | pegasus => exact hF.elim
    | zephyr => exact hF.elim
  | pegasus m n t vo ho =>
    cases T with
    | chimera => exact hF.elim
    | pegasus d off =>
      obtain ⟨rfl, rfl, rfl, hoff, hvo, hho⟩ := hF
      match cs, hq with
      | [u, w, k, z], ⟨hu, hw, hk, hz, _⟩ =>
        unfold Passes Fam.dims Fam.points pegasusPoints
        obtain rfl | rfl : u = 0 ∨ u = 1 := by omega
        · dsimp only
          rw [if_neg (by decide), if_pos rfl, hvo k hk]
          refine ⟨_, rfl, ?_, ?_⟩
          · intro x y; rw [mem_range_col]; simp
          · intro x y h
            rw [mem_range_col] at h
            have := hoff false (k / 2)
            omega
        · dsimp only
          rw [if_pos rfl, hho k hk]
          refine ⟨_, rfl, ?_, ?_⟩
          · intro x y; rw [mem_range_row]; simp
          · intro x y h
            rw [mem_range_row] at h
            have := hoff true (k / 2)
            omega
    | zephyr => exact hF.elim
  | zephyr m n t =>
    cases T with
    | chimera => exact hF.elim
    | pegasus => exact hF.elim
    | zephyr d t' =>
      obtain ⟨rfl, rfl, rfl⟩ := hF
      match cs, hq with
      | [u, w, k, j, z], ⟨hu, hw, hk, hj, hz, _⟩ =>
        refine ⟨_, rfl, ?_⟩
        unfold zephyrPoints Passes Fam.dims
        have e1 : 2 * (t * w + k) + j = 2 * t * w + (2 * k + j) := by ring
        have e2 : (4 * z + 2 * j) * t = 2 * t * (2 * z + j) := by ring
        have e3 : 2 * t * (2 * z + j) + 4 * t = 2 * t * (2 * z + j + 2) := by ring
        have h1 : 2 * t * w + (2 * k + j) < 2 * t * (2 * n + 1) := by
          have := Nat.mul_le_mul_left (2 * t) (show w + 1 ≤ 2 * n + 1 from hw)
          have e : 2 * t * (w + 1) = 2 * t * w + 2 * t := by ring
          omega
        have h2 : 2 * t * (2 * z + j + 2) ≤ 2 * t * (2 * n + 1) := Nat.mul_le_mul_left _ (by omega)
        obtain rfl | rfl : u = 0 ∨ u = 1 := by omega
        · rw [if_pos rfl, e1, e2]
          constructor
          · intro x y; rw [mem_range_row, e3]; simp
          · intro x y h
            rw [mem_range_row, e3] at h
            obtain ⟨rfl, _, h⟩ := h
            exact ⟨Nat.lt_of_lt_of_le h h2, h1⟩
        · rw [if_neg (by decide), if_pos rfl, e1, e2]
          constructor
          · intro x y; rw [mem_range_col, e3]; simp
          · intro x y h
            rw [mem_range_col, e3] at h
            obtain ⟨rfl, _, h⟩ := h
            exact ⟨h1, Nat.lt_of_lt_of_le h h2⟩

/-- Two equal sums of a multiple of `t` and a rest below `t`. -/
theorem mixed_inj {t a b k l : Nat} (hk : k < t) (hl : l < t) (h : a * t + k = b * t + l) : a = b ∧ k = l := by
  have h0 : 0 < t := by omega
  have e1 : (a * t + k) / t = a := by rw [Nat.mul_comm, Nat.mul_add_div h0, Nat.div_eq_of_lt hk, Nat.add_zero]
  have e2 : (b * t + l) / t = b := by rw [Nat.mul_comm, Nat.mul_add_div h0, Nat.div_eq_of_lt hl, Nat.add_zero]
  have : a = b := by rw [← e1, h, e2]
  subst this
  exact ⟨rfl, Nat.add_left_cancel h⟩

theorem within_inj {t a b x : Nat} (h1 : a * t ≤ x) (h2 : x < (a + 1) * t) (h3 : b * t ≤ x) (h4 : x < (b + 1) * t) : a = b := by
  have e1 : (a + 1) * t = a * t + t := by rw [Nat.add_mul, Nat.one_mul]
  have e2 : (b + 1) * t = b * t + t := by rw [Nat.add_mul, Nat.one_mul]
  exact (mixed_inj (k := x - a * t) (l := x - b * t) (t := t) (by omega) (by omega) (by omega)).1

/-- Different qubits that pass the same grid point have different orientations and are coupled. -/
theorem coupled_of_passes {T : Topo} {c c' : List Nat} {q q' : Nat} (hq : IsAt T c q) (hq' : IsAt T c' q') (hne : q ≠ q') {x y : Nat}
    (h : Passes T c x y) (h' : Passes T c' x y) :
    orientation T c ≠ orientation T c' ∧ (Coupled T q q' ∨ Coupled T q' q) := by
  cases T with
  | chimera m n t =>
    match c, c', hq, hq' with
    | [i, j, u, k], [i', j', u', k'], ⟨hi, hj, hu, hk, e⟩, ⟨hi', hj', hu', hk', e'⟩ =>
      have same : u ≠ u' := by
        rintro rfl
        refine hne (e.trans (Eq.trans ?_ e'.symm))
        rcases h with ⟨a1, a2, a3, a4⟩ | ⟨a1, a2, a3, a4⟩ <;> rcases h' with ⟨b1, b2, b3, b4⟩ | ⟨b1, b2, b3, b4⟩
        · obtain ⟨rfl, rfl⟩ := mixed_inj hk hk' (a2.symm.trans b2)
          rw [within_inj a3 a4 b3 b4]
        · omega
        · omega
        · obtain ⟨rfl, rfl⟩ := mixed_inj hk hk' (a2.symm.trans b2)
          rw [within_inj a3 a4 b3 b4]
      refine ⟨fun e => same (Option.some.inj e), ?_⟩
      have cell : ∀ {i j k i' j' k' : Nat}, i < m → j < n → k < t → k' < t → x = j * t + k → i * t ≤ y → y < (i + 1) * t →
          y = i' * t + k' → j' * t ≤ x → x < (j' + 1) * t → ChimeraCoupled m n t (chimeraNum n t i j 0 k) (chimeraNum n t i' j' 1 k') := by
        intro i j k i' j' k' hi hj hk hk' h1 h2 h3 h4 h5 h6
        have e1 : j = j' := within_inj (t := t) (x := x) (by omega) (by rw [Nat.add_mul, Nat.one_mul]; omega) h5 h6
        have e2 : i = i' := within_inj (t := t) (x := y) h2 h3 (by omega) (by rw [Nat.add_mul, Nat.one_mul]; omega)
        rw [← e1, ← e2]
        exact .cell hi hj hk hk'
      rcases h with ⟨rfl, a2, a3, a4⟩ | ⟨rfl, a2, a3, a4⟩ <;> rcases h' with ⟨rfl, b2, b3, b4⟩ | ⟨rfl, b2, b3, b4⟩
      · exact absurd rfl same
      · exact .inl (e ▸ e' ▸ cell hi hj hk hk' a2 a3 a4 b2 b3 b4)
      · exact .inr (e ▸ e' ▸ cell hi' hj' hk' hk b2 b3 b4 a2 a3 a4)
      · exact absurd rfl same
  | pegasus d off =>
    match c, c', hq, hq' with
    | [u, w, k, z], [u', w', k', z'], ⟨hu, hw, hk, hz, e⟩, ⟨hu', hw', hk', hz', e'⟩ =>
      have same : u ≠ u' := by
        rintro rfl
        refine hne (e.trans (Eq.trans ?_ e'.symm))
        rcases h with ⟨a1, a2, a3, a4⟩ | ⟨a1, a2, a3, a4⟩ <;> rcases h' with ⟨b1, b2, b3, b4⟩ | ⟨b1, b2, b3, b4⟩
        · obtain ⟨rfl, rfl⟩ : w = w' ∧ k = k' := by omega
          have : z = z' := by omega
          rw [this]
        · omega
        · omega
        · obtain ⟨rfl, rfl⟩ : w = w' ∧ k = k' := by omega
          have : z = z' := by omega
          rw [this]
      refine ⟨fun e => same (Option.some.inj e), ?_⟩
      rcases h with ⟨rfl, a2, a3, a4⟩ | ⟨rfl, a2, a3, a4⟩ <;> rcases h' with ⟨rfl, b2, b3, b4⟩ | ⟨rfl, b2, b3, b4⟩
      · exact absurd rfl same
      · refine .inl (e ▸ e' ▸ ?_)
        exact PegasusCoupled.cross hw hk hz hw' hk' hz' (by omega) (by omega) (by omega) (by omega)
      · refine .inr (e ▸ e' ▸ ?_)
        exact PegasusCoupled.cross hw' hk' hz' hw hk hz (by omega) (by omega) (by omega) (by omega)
      · exact absurd rfl same
  | zephyr d t =>
    match c, c', hq, hq' with
    | [u, w, k, j, z], [u', w', k', j', z'], ⟨hu, hw, hk, hj, hz, e⟩, ⟨hu', hw', hk', hj', hz', e'⟩ =>
      have two : ∀ {z j z' j' x : Nat}, j = j' → 2 * t * (2 * z + j) ≤ x → x < 2 * t * (2 * z + j + 2) → 2 * t * (2 * z' + j') ≤ x →
          x < 2 * t * (2 * z' + j' + 2) → z = z' := by
        intro z j z' j' x ej h1 h2 h3 h4
        subst ej
        have a1 : 2 * t * (2 * z + j) < 2 * t * (2 * z' + j + 2) := by omega
        have a2 : 2 * t * (2 * z' + j) < 2 * t * (2 * z + j + 2) := by omega
        have := Nat.lt_of_mul_lt_mul_left a1
        have := Nat.lt_of_mul_lt_mul_left a2
        omega
      have line : ∀ {w k j w' k' j' : Nat}, k < t → j < 2 → k' < t → j' < 2 → 2 * t * w + (2 * k + j) = 2 * t * w' + (2 * k' + j') →
          w = w' ∧ k = k' ∧ j = j' := by
        intro w k j w' k' j' h1 h2 h3 h4 h5
        rw [Nat.mul_comm (2 * t) w, Nat.mul_comm (2 * t) w'] at h5
        have := mixed_inj (t := 2 * t) (by omega) (by omega) h5
        omega
      have same : u ≠ u' := by
        rintro rfl
        refine hne (e.trans (Eq.trans ?_ e'.symm))
        rcases h with ⟨a1, a2, a3, a4⟩ | ⟨a1, a2, a3, a4⟩ <;> rcases h' with ⟨b1, b2, b3, b4⟩ | ⟨b1, b2, b3, b4⟩
        · obtain ⟨rfl, rfl, rfl⟩ := line hk hj hk' hj' (a2.symm.trans b2)
          rw [two rfl a3 a4 b3 b4]
        · omega
        · omega
        · obtain ⟨rfl, rfl, rfl⟩ := line hk hj hk' hj' (a2.symm.trans b2)
          rw [two rfl a3 a4 b3 b4]
      refine ⟨fun e => same (Option.some.inj e), ?_⟩
      have cross : ∀ {w k j z w' k' j' z' x y : Nat}, w < 2 * d + 1 → k < t → j < 2 → z < d → w' < 2 * d + 1 → k' < t → j' < 2 → z' < d →
          y = 2 * t * w + (2 * k + j) → 2 * t * (2 * z + j) ≤ x → x < 2 * t * (2 * z + j + 2) →
          x = 2 * t * w' + (2 * k' + j') → 2 * t * (2 * z' + j') ≤ y → y < 2 * t * (2 * z' + j' + 2) →
          ZephyrCoupled d t (zephyrNum d t 0 w (2 * k + j) z) (zephyrNum d t 1 w' (2 * k' + j') z') := by
        intro w k j z w' k' j' z' x y hw hk hj hz hw' hk' hj' hz' h1 h2 h3 h4 h5 h6
        have m1 : (2 * k + j) % 2 = j := by omega
        have m2 : (2 * k' + j') % 2 = j' := by omega
        have lower : ∀ {a b r : Nat}, r < 2 * t → 2 * t * a ≤ 2 * t * b + r → a ≤ b := by
          intro a b r hr h
          have : 2 * t * a < 2 * t * (b + 1) := by
            have : 2 * t * (b + 1) = 2 * t * b + 2 * t := by ring
            omega
          have := Nat.lt_of_mul_lt_mul_left this
          omega
        have upper : ∀ {a b r : Nat}, 2 * t * b + r < 2 * t * a → b < a := by
          intro a b r h
          exact Nat.lt_of_mul_lt_mul_left (a := 2 * t) (by omega)
        refine ZephyrCoupled.cross hw (by omega) hz hw' (by omega) hz' ?_ ?_ ?_ ?_
        · rw [m1]; exact lower (by omega) (h4 ▸ h2)
        · rw [m1]; exact upper (h4 ▸ h3)
        · rw [m2]; exact lower (by omega) (h1 ▸ h5)
        · rw [m2]; exact upper (h1 ▸ h6)
      rcases h with ⟨rfl, a2, a3, a4⟩ | ⟨rfl, a2, a3, a4⟩ <;> rcases h' with ⟨rfl, b2, b3, b4⟩ | ⟨rfl, b2, b3, b4⟩
      · exact absurd rfl same
      · exact .inl (e ▸ e' ▸ cross hw hk hj hz hw' hk' hj' hz' a2 a3 a4 b2 b3 b4)
      · exact .inr (e ▸ e' ▸ cross hw' hk' hj' hz' hw hk hj hz b2 b3 b4 a2 a3 a4)
      · exact absurd rfl same

/-! ### Rounding -/

theorem floor_le' (x : Rat) : (x.floor : Rat) ≤ x := Rat.floor_le x

theorem lt_floor' (x : Rat) : x < (x.floor : Rat) + 1 := by
  have := Rat.lt_floor (x := x)
  linarith

theorem round_near (x : Rat) : x - 1 / 2 ≤ (round x : Rat) ∧ (round x : Rat) ≤ x + 1 / 2 := by
  have h1 := floor_le' x
  have h2 := lt_floor' x
  unfold round
  split
  · constructor <;> linarith
  · split
    · push_cast
      constructor <;> linarith
    · split
      · constructor <;> linarith
      · push_cast
        constructor <;> linarith

theorem round_range {x : Rat} {N : Int} (h0 : 0 ≤ x) (hN : x ≤ N) : 0 ≤ round x ∧ round x ≤ N := by
  obtain ⟨h1, h2⟩ := round_near x
  constructor
  · have h3 : (-1 : Rat) < (round x : Rat) := by linarith
    have : (-1 : Int) < round x := by exact_mod_cast h3
    omega
  · have h3 : (round x : Rat) < (N : Rat) + 1 := by linarith
    have : round x < N + 1 := by exact_mod_cast h3
    omega

/-! ### The lines -/

variable {V Q : Type} [DecidableEq V] [DecidableEq Q]

theorem inGrid_iff {F : Fam} {x y : Int} : F.inGrid x y = true ↔ 0 ≤ x ∧ x < F.dims.2.2 * F.dims.2.1 ∧ 0 ≤ y ∧ y < F.dims.2.2 * F.dims.1 := by
  unfold Fam.inGrid
  rw [decide_eq_true_eq]

omit [DecidableEq Q] in
theorem lineUp_spec {F : Fam} {T : Topo} (hF : Of F T) {coords : Q → List Nat} {num : Q → Nat} {nodes : List Q}
    (hat : ∀ q ∈ nodes, IsAt T (coords q) (num q)) :
    ∃ lines, lineUp F coords nodes = .ok lines ∧ lines.map Prod.fst = nodes ∧ ∀ l ∈ lines, ∀ x y, (x, y) ∈ l.2 ↔ Passes T (coords l.1) x y := by
  induction nodes with
  | nil => exact ⟨[], rfl, rfl, fun l h => nomatch h⟩
  | cons q nodes ih =>
    obtain ⟨lines, e, e1, h⟩ := ih fun q hq => hat q (List.mem_cons_of_mem _ hq)
    obtain ⟨ps, ep, hp, hg⟩ := points_spec hF (hat q List.mem_cons_self)
    refine ⟨(q, ps) :: lines, ?_, by rw [List.map_cons, e1], ?_⟩
    · unfold lineUp at e ⊢
      rw [List.mapM_cons, e, ep]
      have : ps.all (fun p => F.inGrid p.1 p.2) = true := by
        rw [List.all_eq_true]
        intro p hp'
        obtain ⟨a, b⟩ := hg p.1 p.2 hp'
        rw [inGrid_iff]
        exact ⟨by omega, by exact_mod_cast a, by omega, by exact_mod_cast b⟩
      show (do
        let y ← (if ps.all (fun p => F.inGrid p.1 p.2) = true then Except.ok (q, ps) else Except.error Err.key)
        _) = _
      rw [if_pos this]
      rfl
    · intro l hl
      rcases List.mem_cons.mp hl with rfl | hl
      · exact hp
      · exact h l hl

omit [DecidableEq Q] in
theorem mem_qubitsAt {lines : List (Q × List (Nat × Nat))} {T : Topo} {coords : Q → List Nat}
    (h : ∀ l ∈ lines, ∀ x y, (x, y) ∈ l.2 ↔ Passes T (coords l.1) x y) {x y : Nat} {q : Q} :
    q ∈ qubitsAt lines x y ↔ q ∈ lines.map Prod.fst ∧ Passes T (coords q) x y := by
  unfold qubitsAt
  rw [List.mem_map, List.mem_map]
  constructor
  · rintro ⟨l, hl, rfl⟩
    rw [List.mem_filter, List.any_eq_true] at hl
    obtain ⟨hl, p, hp, hd⟩ := hl
    rw [decide_eq_true_eq] at hd
    refine ⟨⟨l, hl, rfl⟩, (h l hl x y).mp ?_⟩
    have : p = (x, y) := Prod.ext (by exact_mod_cast hd.1) (by exact_mod_cast hd.2)
    exact this ▸ hp
  · rintro ⟨⟨l, hl, rfl⟩, hp⟩
    refine ⟨l, List.mem_filter.mpr ⟨hl, ?_⟩, rfl⟩
    rw [List.any_eq_true]
    exact ⟨(x, y), (h l hl x y).mpr hp, by simp⟩

end Lay
end MM
