import Verif.Core.WideInv
import Verif.Core.Table
import Verif.Graph.Param
import Verif.Props.Search

/-! C103, C104: distances in 64 bits, and the margin they are given. -/

namespace MM

open Scratch (Cfg)

variable {P : Prob} {R : Nat → Nat → Prop} {C : Cfg} {E : Emb}

theorem cap_sum_le {W d : Nat} {l : List Nat} (hl : l.length ≤ d) {n : Nat} (h : ∀ v ∈ l, cap P W v ≤ W * n) :
    (l.map (cap P W)).sum ≤ d * n * W := by
  have : (l.map (cap P W)).sum ≤ l.length * (W * n) := by
    clear hl
    induction l with
    | nil => simp
    | cons v l ih =>
      have h1 := h v (by simp)
      have h2 := ih fun v hv => h v (by simp [hv])
      simp only [List.map_cons, List.sum_cons, List.length_cons, Nat.succ_mul]
      omega
  calc _ ≤ l.length * (W * n) := this
    _ ≤ d * (W * n) := Nat.mul_le_mul_right _ hl
    _ = d * n * W := by rw [Nat.mul_comm W n, Nat.mul_assoc]

/-- A qubit is in no more chains than there are free variables. -/
theorem fill_le (wf : P.WF) (hE : EInv P R E) {q : Nat} (hq : q < P.nq) : E.w q ≤ P.nv := by
  rw [hE.exact q]
  have h1 : ∀ n, n ≤ P.nf → cnt (fun v => (E.chains v).has q) (P.nv + n) = cnt (fun v => (E.chains v).has q) P.nv := by
    intro n
    induction n with
    | zero => intro _; rfl
    | succ n ih =>
      intro hn
      have : (E.chains (P.nv + n)).has q = false := by
        by_contra hc
        have hlt : P.nv + n < P.N := by unfold Prob.N; omega
        have := (hE.fixd (P.nv + n) q (by omega) hlt).1 (by simpa using hc)
        have := wf.fixed_ge (P.nv + n) q (by omega) hlt this
        omega
      rw [show P.nv + (n + 1) = (P.nv + n) + 1 by omega]
      simp only [cnt, this]
      simpa using ih (by omega)
  have h2 := h1 P.nf le_rfl
  have h3 : cnt (fun v => (E.chains v).has q) P.nv ≤ P.nv := cnt_le
  unfold Prob.N
  rw [h2]; exact_mod_cast h3

/-! ### C103 -/

/-- **C103 (partial).** In any state of a run, a search for a chain in which distances are 64-bit
integers with the largest standing for "no distance", and in which a sum that does not fit is
undefined behaviour, does exactly what it does with numbers of any size. `d` bounds the number of
neighbours of a variable; the weights are those of the table for `d * P.nq` summands.

Assumed: no free qubit is in more than 63 chains; and none of the neighbours has a fixed chain, or
`2 ^ 63` leaves a remainder of at least 2 when divided by `d * P.nq`. Without the first
`C103_overflow_crowded` and without the second `C103_overflow_fixed` show an overflow. Also assumed:
`d * P.nq` is below `2 ^ 32` (`C104_margin`), and the table is computed without rounding. -/
theorem C103_distances_fit_partial (wf : P.WF) (hR : Dom P R) (he : P.Even) (h : Arises P R C E) {u : Nat}
    (hu : u < P.nv) {S : Scratch} (hS : VnOK P S) {d : Nat} (hd : (P.vn u).length ≤ d) (hM : d * P.nq < 2 ^ 32)
    {beta : ℝ} (hb : 0 ≤ beta) (hw : C.weight = weightTable (d * P.nq) beta)
    (crowd : ∀ q, q < P.nq → E.w q ≤ 63)
    (room : (2 ≤ P.nq ∧ ∀ v ∈ P.vn u, v < P.nv) ∨ 2 ≤ 2 ^ 63 % (d * P.nq)) (wb : Int) (cs : Nat) :
    Scratch.findChain64 P C wb cs u E S = Scratch.findChain P C wb cs u E S := by
  have hE := h.inv wf hR he
  have hnq := wf.nq_pos
  by_cases hd0 : d = 0
  · have hnil : P.vn u = [] := List.length_eq_zero_iff.1 (by omega)
    -- no neighbours: nothing is added
    subst hd0
    rw [Nat.zero_mul] at hw
    obtain ⟨W, hW⟩ : ∃ W, ∀ p, p < P.nq → ∃ w, C.weight (E.maxWeight 0 P.nq) (E.w p) = some w ∧ w ≤ W := by
      have hex : ∀ p, p < P.nq → ∃ w, C.weight (E.maxWeight 0 P.nq) (E.w p) = some w := by
        intro p hp
        rw [hw]
        refine weightTable_some ?_ ((maxWeight_spec E hnq).2 p (by omega) hp) (crowd p hp)
        rw [hE.exact p]; omega
      have : ∀ n, n ≤ P.nq → ∃ W, ∀ p, p < n → ∃ w, C.weight (E.maxWeight 0 P.nq) (E.w p) = some w ∧ w ≤ W := by
        intro n
        induction n with
        | zero => intro _; exact ⟨0, fun p hp => by omega⟩
        | succ n ih =>
          intro hn
          obtain ⟨W, hW⟩ := ih (by omega)
          obtain ⟨w, hw⟩ := hex n (by omega)
          refine ⟨max W w, fun p hp => ?_⟩
          by_cases hpn : p = n
          · subst hpn; exact ⟨w, hw, by omega⟩
          · obtain ⟨x, h1, h2⟩ := hW p (by omega)
            exact ⟨x, h1, by omega⟩
      exact this P.nq le_rfl
    exact findChain64_eq wf hR hE hu hS (W := W) (by rw [hnil]; simp) hW
  · have hMpos : 0 < d * P.nq := Nat.mul_pos (by omega) hnq
    have hqw : ∀ p, p < P.nq → ∃ w, C.weight (E.maxWeight 0 P.nq) (E.w p) = some w ∧ w ≤ 2 ^ 63 / (d * P.nq) := by
      intro p hp
      have h0 : 0 ≤ E.w p := by rw [hE.exact p]; omega
      obtain ⟨w, hw'⟩ := weightTable_some (margin := d * P.nq) (beta := beta) h0
        ((maxWeight_spec E hnq).2 p (by omega) hp) (crowd p hp)
      refine ⟨w, by rw [hw]; exact hw', ?_⟩
      rw [Nat.le_div_iff_mul_le hMpos]
      exact weightTable_room hMpos (by omega) hb hw'
    refine findChain64_eq wf hR hE hu hS (W := 2 ^ 63 / (d * P.nq)) ?_ hqw
    have hdiv := Nat.div_add_mod (2 ^ 63) (d * P.nq)
    have hbig : 2 ^ 31 ≤ 2 ^ 63 / (d * P.nq) := by
      rw [Nat.le_div_iff_mul_le hMpos]
      omega
    generalize 2 ^ 63 / (d * P.nq) = W at *
    rcases room with ⟨h2, hfree⟩ | hrem
    · have hs := cap_sum_le (P := P) (W := W) hd (n := P.nq - 1) (fun v hv => by
        have : P.fixed v = false := by unfold Prob.fixed; have := hfree v hv; simpa using this
        unfold cap
        rw [this, show max 1 (P.nq - 1) = P.nq - 1 by omega]
        simp)
      obtain ⟨n, hn⟩ : ∃ n, P.nq = n + 1 := ⟨P.nq - 1, by omega⟩
      rw [hn, Nat.add_sub_cancel] at hs
      rw [hn, Nat.mul_succ, Nat.add_mul] at hdiv
      have : W ≤ d * W := Nat.le_mul_of_pos_left _ (by omega)
      omega
    · have hs := cap_sum_le (P := P) (W := W) hd (n := P.nq) (fun v _ => by
        unfold cap
        split
        · exact le_rfl
        · exact Nat.mul_le_mul_left _ (by omega))
      omega

/-- With at most 63 free variables no qubit can be too crowded. -/
theorem C103_few_variables_partial (wf : P.WF) (hR : Dom P R) (he : P.Even) (h : Arises P R C E) {u : Nat}
    (hu : u < P.nv) {S : Scratch} (hS : VnOK P S) {d : Nat} (hd : (P.vn u).length ≤ d) (hM : d * P.nq < 2 ^ 32)
    {beta : ℝ} (hb : 0 ≤ beta) (hw : C.weight = weightTable (d * P.nq) beta) (few : P.nv ≤ 63)
    (room : (2 ≤ P.nq ∧ ∀ v ∈ P.vn u, v < P.nv) ∨ 2 ≤ 2 ^ 63 % (d * P.nq)) (wb : Int) (cs : Nat) :
    Scratch.findChain64 P C wb cs u E S = Scratch.findChain P C wb cs u E S :=
  C103_distances_fit_partial wf hR he h hu hS hd hM hb hw
    (fun q hq => (fill_le wf (h.inv wf hR he) hq).trans (by exact_mod_cast few)) room wb cs

namespace Demo

/-- The state of the searches before a run. -/
def idle (P : Prob) (t : Tape) : Scratch :=
  ⟨P.vn, fun _ _ => none, fun _ _ => 0, fun _ _ => none, fun _ q => q, t⟩

theorem idle_ok (P : Prob) (t : Tape) : VnOK P (idle P t) := fun _ _ => List.Perm.refl _

/-- Variable 0 is joined to the fixed variables 3 and 4, variable 1 to variable 2. The
target has the free qubits 0 and 1, joined, and the qubits 2 and 3 of the fixed chains, both joined
to qubit 0. -/
def twoFixed : Prob :=
  { nv := 3, nf := 2, nq := 2, nr := 2
    qn := fun q => if q = 0 then [1] else [0]
    vn := fun v => if v = 0 then [3, 4] else if v = 1 then [2] else if v = 2 then [1] else []
    accepts := fun _ _ => true, fixedChain := fun v => if v = 3 then [2] else [3] }

theorem twoFixed_wf : twoFixed.WF := by
  have h3 : ∀ u, u < twoFixed.nv → u = 0 ∨ u = 1 ∨ u = 2 := fun u (hu : u < 3) => by omega
  have h4 : ∀ q, q < twoFixed.Q → q = 0 ∨ q = 1 ∨ q = 2 ∨ q = 3 := fun q (hu : q < 4) => by omega
  have h5 : ∀ v, twoFixed.nv ≤ v → v < twoFixed.N → v = 3 ∨ v = 4 := fun v (h1 : 3 ≤ v) (h2 : v < 5) => by omega
  refine ⟨by decide, ?_, ?_, ?_, ?_, ?_, ?_, ?_, ?_, by decide⟩
  · intro q p hq
    rcases h4 q hq with rfl | rfl | rfl | rfl <;> simp [twoFixed] <;> omega
  · intro u v hu
    rcases h3 u hu with rfl | rfl | rfl <;> simp [twoFixed, Prob.N] <;> omega
  · intro u hu
    rcases h3 u hu with rfl | rfl | rfl <;> simp [twoFixed]
  · intro u hu
    rcases h3 u hu with rfl | rfl | rfl <;> simp [twoFixed]
  · intro u v hu hv
    rcases h3 u hu with rfl | rfl | rfl <;> rcases h3 v hv with rfl | rfl | rfl <;> simp [twoFixed]
  · intro v h1 h2
    rcases h5 v h1 h2 with rfl | rfl <;> simp [twoFixed]
  · intro v q h1 h2
    rcases h5 v h1 h2 with rfl | rfl <;> simp [twoFixed, Prob.Q] <;> omega
  · intro v q h1 h2
    rcases h5 v h1 h2 with rfl | rfl <;> simp [twoFixed] <;> omega

/-- Any free qubit. -/
def anywhere (P : Prob) (_ q : Nat) : Prop := q < P.nq

theorem anywhere_dom (P : Prob) : Dom P (anywhere P) :=
  ⟨fun v q _ h => h, fun a b q _ _ _ h _ => h, fun u q _ h _ => h, fun u v q _ _ h _ => h⟩

theorem twoFixed_even : twoFixed.Even := fun _ _ _ _ _ _ _ _ _ => Or.inl rfl

/-- The caller's chains of the variables 1 and 2. -/
def twoFixedInit : List (Nat × List Nat) := [(1, [0]), (2, [1])]

theorem twoFixedInit_ok : InitOK twoFixed (anywhere twoFixed) twoFixedInit := by
  refine ⟨by decide, by decide, ?_, by decide⟩
  show ∀ x ∈ twoFixedInit, ∀ q ∈ x.2, q < 2
  decide

/-- The embedding a run starts from. -/
def loaded (P : Prob) (init : List (Nat × List Nat)) : Emb :=
  match Emb.construct P init tape0 with
  | .ok (E0, _) => Emb.copy P Emb.empty E0
  | .error _ => Emb.empty

theorem loaded_arises {P : Prob} {init : List (Nat × List Nat)} (wf : P.WF) (hi : InitOK P (anywhere P) init) (C : Cfg) :
    Arises P (anywhere P) C (loaded P init) := by
  obtain ⟨⟨E0, t'⟩, h, _⟩ := construct_shape wf (anywhere_dom P) (t := tape0) hi
  unfold loaded
  rw [h]
  exact .load hi h

/-- The fill of nodes outside the target. -/
theorem loaded_outside {P : Prob} {init : List (Nat × List Nat)} (wf : P.WF) (he : P.Even)
    (hi : InitOK P (anywhere P) init) {q : Nat} (hq : P.Q ≤ q) : (loaded P init).w q = 0 := by
  have hE := (loaded_arises wf hi cfg).inv wf (anywhere_dom P) he
  rw [hE.exact q]
  have : cnt (fun v => ((loaded P init).chains v).has q) P.N = 0 := by
    rw [cnt_eq_zero]
    intro v hv
    by_contra hc
    have := (hE.cinv v hv).has_lt (by simpa using hc)
    omega
  rw [this]; rfl

/-- The search looks at the table only through the weights of the qubits. -/
theorem findChain64_table {P : Prob} {E : Emb} {w1 w2 : Int → Int → D}
    (h : ∀ q, w1 (E.maxWeight 0 P.nq) (E.w q) = w2 (E.maxWeight 0 P.nq) (E.w q)) (par : Bool) (wb : Int) (cs u : Nat)
    (S : Scratch) : Scratch.findChain64 P ⟨w1, par⟩ wb cs u E S = Scratch.findChain64 P ⟨w2, par⟩ wb cs u E S := by
  unfold Scratch.findChain64 Scratch.rootSerial64 Scratch.rootParallel64
  simp only [h]

/-- So does the search with numbers of any size. -/
theorem findChain_table {P : Prob} {E : Emb} {w1 w2 : Int → Int → D}
    (h : ∀ q, w1 (E.maxWeight 0 P.nq) (E.w q) = w2 (E.maxWeight 0 P.nq) (E.w q)) (par : Bool) (wb : Int) (cs u : Nat)
    (S : Scratch) : Scratch.findChain P ⟨w1, par⟩ wb cs u E S = Scratch.findChain P ⟨w2, par⟩ wb cs u E S := by
  unfold Scratch.findChain Scratch.rootSerial Scratch.rootParallel
  simp only [h]

/-- A chain is found. -/
def foundIs {α β : Type} : M (α × β × Bool) → Bool
  | .error _ => false
  | .ok (_, _, b) => b

theorem is_found {α β : Type} {m : M (α × β × Bool)} (h : foundIs m = true) : ∃ a b, m = .ok (a, b, true) := by
  match m, h with
  | .ok (a, b, true), _ => exact ⟨a, b, rfl⟩

/-- The outcome is undefined behaviour. -/
def ubIs {α : Type} : M α → Bool
  | .error e => decide (e = .ub)
  | .ok _ => false

theorem is_ub {α : Type} {m : M α} (h : ubIs m = true) : m = .error .ub := by
  cases m with
  | ok a => cases h
  | error e => unfold ubIs at h; simpa using h

/-- The entries of the table that matter on `twoFixed`. -/
def twoFixedTable (_ c : Int) : D := if c = 0 then some 1 else some (2 ^ 61)

/-- Variable 0 is joined to the fixed variable 65; 64 more variables have no neighbours. The target
has the free qubits 0 and 1, joined, and the qubit 2 of the fixed chain, joined to qubit 0. -/
def crowd : Prob :=
  { nv := 65, nf := 1, nq := 2, nr := 1
    qn := fun q => if q = 0 then [1] else [0]
    vn := fun v => if v = 0 then [65] else []
    accepts := fun _ _ => true, fixedChain := fun _ => [2] }

theorem crowd_wf : crowd.WF := by
  have h4 : ∀ q, q < crowd.Q → q = 0 ∨ q = 1 ∨ q = 2 := fun q (hu : q < 3) => by omega
  refine ⟨by decide, ?_, ?_, ?_, ?_, ?_, ?_, ?_, ?_, by decide⟩
  · intro q p hq
    rcases h4 q hq with rfl | rfl | rfl <;> simp [crowd] <;> omega
  · intro u v hu hv
    by_cases h : u = 0 <;> simp [crowd, h] at hv
    subst hv; decide
  · intro u hu hv
    by_cases h : u = 0 <;> simp [crowd, h] at hv
  · intro u hu
    by_cases h : u = 0 <;> simp [crowd, h]
  · intro u v hu hv hm
    by_cases h : u = 0 <;> simp [crowd, h] at hm
    subst hm
    exact absurd hv (by decide)
  · intro v _ _; simp [crowd]
  · intro v q _ _ hq
    simp only [crowd, List.mem_singleton] at hq; subst hq; decide
  · intro v q _ _ hq
    simp only [crowd, List.mem_singleton] at hq; subst hq; decide

theorem crowd_even : crowd.Even := fun _ _ _ _ _ _ _ _ _ => Or.inl rfl

/-- The caller puts 64 variables on qubit 0. -/
def crowdInit : List (Nat × List Nat) := (List.range 64).map fun i => (i + 1, [0])

theorem crowdInit_ok : InitOK crowd (anywhere crowd) crowdInit := by
  refine ⟨by decide, by decide, ?_, by decide⟩
  show ∀ x ∈ crowdInit, ∀ q ∈ x.2, q < 2
  decide

/-- The entries of the table that matter on `crowd`. -/
def crowdTable (_ c : Int) : D := if c = 64 then none else some 1

end Demo

/-- **C103 fails with fixed chains.** A variable with two fixed neighbours, a target with two free
qubits, each in one chain, and the weights of the table for two neighbours and two qubits: the
total distance of qubit 1 is `2 ^ 63`, one more than a 64-bit integer holds. With numbers of any
size a chain is found. -/
theorem C103_overflow_fixed {beta : ℝ} (hb : 2 ^ 61 ≤ beta) :
    let C : Cfg := ⟨weightTable (2 * 2) beta, false⟩
    ∃ E S, Demo.twoFixed.WF ∧ Arises Demo.twoFixed (Demo.anywhere Demo.twoFixed) C E ∧ VnOK Demo.twoFixed S ∧
      (Demo.twoFixed.vn 0).length = 2 ∧ Demo.twoFixed.nq = 2 ∧ E.w 0 = 1 ∧ E.w 1 = 1 ∧ E.chainsize Demo.twoFixed 0 = 0 ∧
      Scratch.findChain64 Demo.twoFixed C 61 0 0 E S = .error .ub ∧
      ∃ E' S', Scratch.findChain Demo.twoFixed C 61 0 0 E S = .ok (E', S', true) := by
  intro C
  have hw : ∀ q, (Demo.loaded Demo.twoFixed Demo.twoFixedInit).w q = if q < 4 then 1 else 0 := by
    intro q
    by_cases hq : q < 4
    · have : ∀ q, q < 4 → (Demo.loaded Demo.twoFixed Demo.twoFixedInit).w q = 1 := by decide +kernel
      rw [if_pos hq]; exact this q hq
    · rw [if_neg hq]
      exact Demo.loaded_outside Demo.twoFixed_wf Demo.twoFixed_even Demo.twoFixedInit_ok (by show 4 ≤ q; omega)
  have hm : (Demo.loaded Demo.twoFixed Demo.twoFixedInit).maxWeight 0 Demo.twoFixed.nq = 1 := by decide +kernel
  refine ⟨Demo.loaded Demo.twoFixed Demo.twoFixedInit, Demo.idle Demo.twoFixed Demo.tape0, Demo.twoFixed_wf,
    Demo.loaded_arises Demo.twoFixed_wf Demo.twoFixedInit_ok C, Demo.idle_ok _ _, rfl, rfl, hw 0, hw 1, ?_, ?_⟩
  · decide +kernel
  · have ht : ∀ q, weightTable (2 * 2) beta ((Demo.loaded Demo.twoFixed Demo.twoFixedInit).maxWeight 0 Demo.twoFixed.nq)
        ((Demo.loaded Demo.twoFixed Demo.twoFixedInit).w q) =
        Demo.twoFixedTable ((Demo.loaded Demo.twoFixed Demo.twoFixedInit).maxWeight 0 Demo.twoFixed.nq)
        ((Demo.loaded Demo.twoFixed Demo.twoFixedInit).w q) := by
      intro q
      rw [hm, hw q]
      split
      · exact weightTable_one (k := 2) (by omega) (by norm_num at hb ⊢; exact hb)
      · exact weightTable_zero (by omega)
    constructor
    · rw [Demo.findChain64_table ht]
      exact Demo.is_ub (by decide +kernel)
    · rw [Demo.findChain_table ht]
      have : Demo.foundIs (Scratch.findChain Demo.twoFixed ⟨Demo.twoFixedTable, false⟩ 61 0 0
        (Demo.loaded Demo.twoFixed Demo.twoFixedInit) (Demo.idle Demo.twoFixed Demo.tape0)) = true := by decide +kernel
      exact Demo.is_found this

/-- **C103 fails on crowded qubits.** The only way out of a fixed chain is through qubit 0, which is
in 64 chains. Its weight is the value that stands for "no distance", and the search adds 1 to it. The
table is the one for one neighbour and two qubits. -/
theorem C103_overflow_crowded {beta : ℝ} (hb : 1 ≤ beta) :
    let C : Cfg := ⟨weightTable (1 * 2) beta, false⟩
    ∃ E S, Demo.crowd.WF ∧ Arises Demo.crowd (Demo.anywhere Demo.crowd) C E ∧ VnOK Demo.crowd S ∧
      (Demo.crowd.vn 0).length = 1 ∧ Demo.crowd.nq = 2 ∧ E.w 0 = 64 ∧ E.w 1 = 0 ∧ E.chainsize Demo.crowd 0 = 0 ∧
      Scratch.findChain64 Demo.crowd C 62 0 0 E S = .error .ub := by
  intro C
  have h0 : (Demo.loaded Demo.crowd Demo.crowdInit).w 0 = 64 := by decide +kernel
  have h1 : (Demo.loaded Demo.crowd Demo.crowdInit).w 1 = 0 := by decide +kernel
  have h2 : (Demo.loaded Demo.crowd Demo.crowdInit).w 2 = 1 := by decide +kernel
  have hm : (Demo.loaded Demo.crowd Demo.crowdInit).maxWeight 0 Demo.crowd.nq = 64 := by decide +kernel
  refine ⟨Demo.loaded Demo.crowd Demo.crowdInit, Demo.idle Demo.crowd Demo.tape0, Demo.crowd_wf,
    Demo.loaded_arises Demo.crowd_wf Demo.crowdInit_ok C, Demo.idle_ok _ _, rfl, rfl, h0, h1, by decide +kernel, ?_⟩
  rw [Demo.findChain64_table (w2 := Demo.crowdTable)]
  · exact Demo.is_ub (by decide +kernel)
  · intro q
    rw [hm]
    by_cases hq : q < 3
    · have : q = 0 ∨ q = 1 ∨ q = 2 := by omega
      rcases this with rfl | rfl | rfl
      · rw [h0]; exact weightTable_none (by omega)
      · rw [h1]; exact weightTable_zero (by omega)
      · rw [h2]; exact weightTable_low (by omega) (by omega) hb (by omega)
    · rw [Demo.loaded_outside Demo.crowd_wf Demo.crowd_even Demo.crowdInit_ok (by show 3 ≤ q; omega)]
      exact weightTable_zero (by omega)

/-- The hypotheses of `C103_distances_fit_partial` are met: two joined variables on a path of four
qubits, with overlapping chains. -/
example : ∃ (C : Cfg) (E : Emb), Arises Demo.P0 Demo.R0 C E ∧ C.weight = weightTable (1 * 4) 2 ∧ E.w 1 = 2 ∧
    Scratch.findChain64 Demo.P0 C 61 0 0 E (Demo.idle Demo.P0 Demo.tape0) =
      Scratch.findChain Demo.P0 C 61 0 0 E (Demo.idle Demo.P0 Demo.tape0) := by
  obtain ⟨⟨E0, t'⟩, h, _⟩ := construct_shape Demo.P0_wf Demo.P0_dom (t := Demo.tape0) Demo.init0_ok
  have ha : Arises Demo.P0 Demo.R0 ⟨weightTable (1 * 4) 2, false⟩ (Emb.copy Demo.P0 Emb.empty E0) := .load Demo.init0_ok h
  refine ⟨⟨weightTable (1 * 4) 2, false⟩, _, ha, rfl, ?_, ?_⟩
  · have : (Demo.loaded Demo.P0 Demo.init0).w 1 = 2 := by decide +kernel
    unfold Demo.loaded at this
    rw [h] at this
    exact this
  · exact C103_few_variables_partial (d := 1) Demo.P0_wf Demo.P0_dom Demo.P0_even ha (by decide) (Demo.idle_ok _ _)
      (by decide) (by decide) (by norm_num) rfl (by decide) (Or.inl ⟨by decide, by decide⟩) 61 0

/-- The room left by the table for `margin` summands, which the proof rests on. -/
theorem C103_table_room {margin : Nat} (h1 : 0 < margin) (h2 : margin ≤ 2 ^ 63) {beta : ℝ} (hb : 0 ≤ beta) (maxfill : Int) :
    (∀ c, 0 ≤ c → c ≤ maxfill → c ≤ 63 → ∃ w, weightTable margin beta maxfill c = some w ∧ w * margin ≤ 2 ^ 63) ∧
    ∀ c, 63 < c → weightTable margin beta maxfill c = none := by
  refine ⟨fun c hc0 hc hc63 => ?_, fun c hc => weightTable_none hc⟩
  obtain ⟨w, hw⟩ := weightTable_some (margin := margin) (beta := beta) hc0 hc hc63
  exact ⟨w, hw, weightTable_room h1 h2 hb hw⟩

example : weightTable 4 (2 ^ 61) 1 1 = some (2 ^ 61) :=
  weightTable_one (k := 2) (by omega) (by norm_num)

/-! ### C104 -/

theorem maxDegree_spec (N : Nat) (vn : Nat → List Nat) :
    (∀ v, v < N → (vn v).length ≤ Input.maxDegree N vn) ∧
    (Input.maxDegree N vn ≠ 0 → ∃ v, v < N ∧ (vn v).length = Input.maxDegree N vn) := by
  unfold Input.maxDegree
  induction N with
  | zero => exact ⟨fun v hv => by omega, fun h => absurd rfl h⟩
  | succ N ih =>
    rw [List.range_succ, List.foldl_append]
    simp only [List.foldl_cons, List.foldl_nil]
    generalize (List.range N).foldl (fun m v => max m (vn v).length) 0 = m at *
    refine ⟨fun v hv => ?_, fun _ => ?_⟩
    · by_cases hvN : v = N
      · subst hvN; omega
      · have := ih.1 v (by omega); omega
    · by_cases hm : (vn N).length ≤ m
      · by_cases hm0 : m = 0
        · exact ⟨N, by omega, by omega⟩
        · obtain ⟨v, h1, h2⟩ := ih.2 hm0
          exact ⟨v, by omega, by omega⟩
      · exact ⟨N, by omega, by omega⟩

/-- `d` is the largest number of neighbours of a variable of `P`. -/
def Spec.MostNeighbours (P : Prob) (d : Nat) : Prop :=
  (∀ v, v < P.N → (P.vn v).length ≤ d) ∧ ∃ v, v < P.N ∧ (P.vn v).length = d

/-- **C104.** The number of summands the weights make room for is the largest number of neighbours,
at least 1, times the number of free qubits — modulo `2 ^ 32`. -/
theorem C104_margin {d : Nat} (hd : Spec.MostNeighbours P d) (hq : 0 < P.nq) :
    Input.margin P = .ok (max d 1 * P.nq % 2 ^ 32) := by
  have hN : P.N ≠ 0 := by obtain ⟨v, hv, _⟩ := hd.2; omega
  obtain ⟨h1, h2⟩ := maxDegree_spec P.N P.vn
  have hdm : Input.maxDegree P.N P.vn = d := by
    obtain ⟨v, k1, k2⟩ := hd.2
    have k3 := h1 v k1
    by_cases h0 : Input.maxDegree P.N P.vn = 0
    · omega
    · obtain ⟨x, l1, l2⟩ := h2 h0
      have := hd.1 x l1
      omega
  unfold Input.margin
  rw [if_neg (by omega), if_neg hN]
  dsimp only
  rw [hdm]
  by_cases h0 : d = 0
  · rw [if_pos h0, h0]; simp
  · rw [if_neg h0, show max d 1 = d by omega]

example : Spec.MostNeighbours Demo.twoFixed 2 ∧ (Input.margin Demo.twoFixed).toOption = some 4 :=
  ⟨⟨by decide, 0, by decide⟩, by decide⟩

/-- **C104 (partial).** As long as the product is below `2 ^ 32`, a problem with variables is refused
as too small exactly if it has no free qubit. -/
theorem C104_refused_partial {d : Nat} (hd : Spec.MostNeighbours P d) (hM : max d 1 * P.nq < 2 ^ 32) :
    Input.margin P = .ok 0 ↔ P.nq = 0 := by
  by_cases hq : P.nq = 0
  · refine ⟨fun _ => hq, fun _ => ?_⟩
    unfold Input.margin
    rw [if_pos hq]
  · rw [C104_margin hd (by omega), Nat.mod_eq_of_lt hM]
    have : 0 < max d 1 * P.nq := Nat.mul_pos (by omega) (by omega)
    refine ⟨fun h => ?_, fun h => absurd h hq⟩
    simp only [Except.ok.injEq] at h
    omega

example : Spec.MostNeighbours Demo.twoFixed 2 ∧ max 2 1 * Demo.twoFixed.nq < 2 ^ 32 ∧ Demo.twoFixed.nq ≠ 0 :=
  ⟨⟨by decide, 0, by decide⟩, by decide, by decide⟩

/-- A hub with `d` neighbours, and `n` qubits with no edges. -/
def Demo.hub (d n : Nat) : Prob :=
  { nv := d + 1, nf := 0, nq := n, nr := 0, qn := fun _ => []
    vn := fun v => if v = 0 then (List.range d).map (· + 1) else [0]
    accepts := fun _ _ => true, fixedChain := fun _ => [] }

theorem Demo.hub_most {d n : Nat} (hd : 0 < d) : Spec.MostNeighbours (Demo.hub d n) d := by
  refine ⟨fun v _ => ?_, 0, by show 0 < d + 1 + 0; omega, by simp [Demo.hub]⟩
  by_cases hv : v = 0
  · simp [Demo.hub, hv]
  · simp [Demo.hub, hv]; omega

/-- **C104 fails on large problems.** A variable with 65536 neighbours and 65536 free qubits: the
problem is refused as having too few nodes or edges. -/
theorem C104_large_refused : (Demo.hub (2 ^ 16) (2 ^ 16)).nq = 2 ^ 16 ∧
    Input.margin (Demo.hub (2 ^ 16) (2 ^ 16)) = .ok 0 := by
  refine ⟨rfl, ?_⟩
  rw [C104_margin (Demo.hub_most (by omega)) (by show 0 < 2 ^ 16; omega)]
  rfl

/-- **C104 fails on large problems.** No problem is ever refused as too large to avoid overflow: the
exponent compared with 2 is never below 31. -/
theorem C104_never_too_large {m : Nat} (h : Input.margin P = .ok m) (hm : m ≠ 0) :
    31 < 63 - Real.logb 2 (m : ℝ) := by
  have hlt : m < 2 ^ 32 := by
    unfold Input.margin at h
    split at h
    · cases h; exact absurd rfl hm
    · split at h
      · cases h
      · cases h; exact Nat.mod_lt _ (by omega)
  have hpos : (0 : ℝ) < m := by exact_mod_cast Nat.pos_of_ne_zero hm
  have : Real.logb 2 (m : ℝ) < 32 := by
    rw [Real.logb_lt_iff_lt_rpow (by norm_num) hpos]
    have : (m : ℝ) < 2 ^ 32 := by exact_mod_cast hlt
    calc (m : ℝ) < 2 ^ 32 := this
      _ = (2 : ℝ) ^ (32 : ℝ) := by norm_num
  linarith

example : Input.margin Demo.twoFixed = .ok 4 := by decide +kernel

/-- **C104 fails on large problems.** A variable with 641 neighbours and 6700417 free qubits: the
table makes room for one summand only, and the weight of a qubit in one chain is `2 ^ 63`, which is
no 64-bit integer. -/
theorem C104_room_lost {beta : ℝ} (hb : 2 ^ 63 ≤ beta) :
    ∃ m, Input.margin (Demo.hub 641 6700417) = .ok m ∧ weightTable m beta 1 1 = some (2 ^ 63) := by
  refine ⟨1, ?_, weightTable_one (k := 0) (by omega) (by norm_num at hb ⊢; exact hb)⟩
  rw [C104_margin (Demo.hub_most (by omega)) (by show 0 < 6700417; omega)]
  rfl

/-- Nor does one free qubit and one neighbour leave more room: the weight of the qubit in one chain
is `2 ^ 63`. -/
theorem C104_single_qubit {beta : ℝ} (hb : 2 ^ 63 ≤ beta) :
    ∃ m, Input.margin (Demo.hub 1 1) = .ok m ∧ weightTable m beta 1 1 = some (2 ^ 63) := by
  refine ⟨1, ?_, weightTable_one (k := 0) (by omega) (by norm_num at hb ⊢; exact hb)⟩
  rw [C104_margin (Demo.hub_most (by omega)) (by show 0 < 1; omega)]
  rfl

end MM
