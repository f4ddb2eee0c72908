import Verif.Bus.EdgeInv
import Verif.Bus.Next

/-! The masks of each step avoid all missing couplers. -/

namespace MM
namespace Bus

open Lattice

/-- A number of a fragment. -/
def IsFrag (T : Topo) (q : Nat) : Prop := ∃ u w z k, InR T u w z ∧ k < T.shore ∧ q = T.frag u w z k

theorem linear_frag {T : Topo} {u : Bool} {w z k : Nat} (hr : InR T u w z) (hk : k < T.shore) :
    linearChimera T.dimX T.shore (T.frag u w z k) = (if u then w else z, if u then z else w, u, k) := by
  obtain ⟨h1, h2⟩ := hr
  cases u <;> simp only [Topo.frag, Topo.dimW, Topo.dimZ, Bool.false_eq_true, if_false, if_true] at *
  · exact linearChimera_linear h1 hk
  · exact linearChimera_linear h2 hk

section
variable {T : Topo} {M : Masks} {N E : Bool → Nat → Nat → Nat → Prop} {D : Bool → Nat → Nat → Nat → Nat → Prop}

theorem clearAt_ok (h : Rep T M N E D) (hs : T.shore ≤ 8) {u : Bool} {w z k : Nat} (hr : InR T u w z) (hk : k < T.shore) :
    ∃ M', clearAt T M (T.frag u w z k) = .ok M' ∧ Rep T M' (fun u' w' k' z' => N u' w' k' z' ∧ ¬(u' = u ∧ w' = w ∧ k' = k ∧ z' = z))
      (fun u' w' k' z' => E u' w' k' z' ∧ ¬(u' = u ∧ w' = w ∧ k' = k ∧ z' = z) ∧ ¬(u' = u ∧ w' = w ∧ k' = k ∧ z' = z + 1)) D := by
  have hcell : ∀ u' w' z' w2 z2, InR T u' w' z' → InR T u w2 z2 → (T.cell u' w' z' = T.cell u w2 z2 ↔ u' = u ∧ w' = w2 ∧ z' = z2) := by
    intro u' w' z' w2 z2 hr' hr2
    exact ⟨cell_inj hr' hr2, fun ⟨a, b, c⟩ => by rw [a, b, c]⟩
  obtain ⟨node, hn1, hn2, hn3⟩ := andAt_not_ok (a := M.node) (i := T.cell u w z) (k0 := k) (by rw [h.nodeLen]; exact cell_lt hr)
  obtain ⟨e1, he1, he2, he3⟩ := andAt_not_ok (a := M.edge) (i := T.cell u w z) (k0 := k) (by rw [h.edgeLen]; exact cell_lt hr)
  obtain ⟨e2, hf1, hf2, hf3⟩ : ∃ e2, (if z + 1 < T.dimZ u then andAt e1 (T.cell u w (z + 1)) (~~~(BitVec.twoPow 8 k)) else pure e1) = (.ok e2 : B _) ∧ e2.length = e1.length ∧
      ∀ i j, Bit e2 i j ↔ Bit e1 i j ∧ ¬(z + 1 < T.dimZ u ∧ i = T.cell u w (z + 1) ∧ j = k) := by
    by_cases hz : z + 1 < T.dimZ u
    · obtain ⟨e2, hf1, hf2, hf3⟩ := andAt_not_ok (a := e1) (i := T.cell u w (z + 1)) (k0 := k) (by rw [he2, h.edgeLen]; exact cell_lt ⟨hr.1, hz⟩)
      exact ⟨e2, by rw [if_pos hz]; exact hf1, hf2, fun i j => by rw [hf3]; simp [hz]⟩
    · exact ⟨e1, by rw [if_neg hz]; rfl, rfl, fun i j => by simp [hz]⟩
  refine ⟨{ M with node := node, edge := e2 }, ?_, hn2.trans h.nodeLen, hf2.trans (he2.trans h.edgeLen), h.badLen, ?_, ?_, h.bad⟩
  · have hc : cellYX T.dimX (if u then w else z) (if u then z else w) u = T.cell u w z := by cases u <;> rfl
    have hc2 : clearNext T e1 (if u then w else z) (if u then z else w) u (BitVec.twoPow 8 k) = .ok e2 := by
      rw [← hf1]
      cases u <;> rfl
    unfold clearAt
    rw [linear_frag hr hk]
    simp only [bind, Except.bind, pure, Except.pure, maskBit_ok k (by omega), hc, hn1, he1, hc2]
  · intro u' w' k' z' hr'
    rw [hn3, h.node _ _ _ _ hr', hcell _ _ _ _ _ hr' hr]
    tauto
  · intro u' w' k' z' hr'
    rw [hf3, he3, h.edge _ _ _ _ hr', hcell _ _ _ _ _ hr' hr, and_assoc]
    apply and_congr Iff.rfl
    apply and_congr
    · tauto
    · apply not_congr
      constructor
      · rintro ⟨a, b, c⟩
        obtain ⟨d, e, f⟩ := (hcell _ _ _ _ _ hr' ⟨hr.1, a⟩).mp b
        exact ⟨d, e, c, f⟩
      · rintro ⟨rfl, rfl, rfl, rfl⟩; exact ⟨hr'.2, rfl, rfl⟩

/-- The masks without the removed fragments. -/
theorem childOf_ok (hs : T.shore ≤ 8) (h : Rep T M N E D) {bad : List Nat} (hb : ∀ q ∈ bad, IsFrag T q) (hN : ∀ u w k z, N u w k z → k < T.shore) (hE : ∀ u w k z, E u w k z → k < T.shore) :
    ∃ M', childOf T M bad = .ok M' ∧ Rep T M' (fun u w k z => N u w k z ∧ T.frag u w z k ∉ bad)
      (fun u w k z => E u w k z ∧ T.frag u w z k ∉ bad ∧ ∀ z0, z = z0 + 1 → T.frag u w z0 k ∉ bad) D := by
  induction bad generalizing M N E with
  | nil => exact ⟨M, rfl, h.congr (by simp) (by simp) (by simp)⟩
  | cons q bad ih =>
    obtain ⟨u, w, z, k, hr, hk, rfl⟩ := hb q (by simp)
    obtain ⟨M1, h1, r1⟩ := clearAt_ok h hs hr hk
    obtain ⟨M2, h2, r2⟩ := ih r1 (fun q hq => hb q (by simp [hq])) (fun u w k z h => hN u w k z h.1) (fun u w k z h => hE u w k z h.1)
    have hfrag : ∀ u' w' k' z', InR T u' w' z' → k' < T.shore → (T.frag u' w' z' k' = T.frag u w z k ↔ u' = u ∧ w' = w ∧ k' = k ∧ z' = z) := by
      intro u' w' k' z' hr' hk'
      constructor
      · intro e; obtain ⟨a, b, c, d⟩ := frag_inj hr' hk' hr hk e; exact ⟨a, b, d, c⟩
      · rintro ⟨a, b, c, d⟩; rw [a, b, c, d]
    refine ⟨M2, ?_, r2.congr (fun u' w' k' z' hr' => ?_) (fun u' w' k' z' hr' => ?_) fun _ _ _ _ _ _ _ => Iff.rfl⟩
    · simp only [childOf, List.foldlM_cons, h1, bind, Except.bind] at h2 ⊢
      exact h2
    · constructor
      · rintro ⟨⟨a, b⟩, c⟩
        refine ⟨a, ?_⟩
        rw [List.mem_cons, hfrag _ _ _ _ hr' (hN _ _ _ _ a)]
        exact fun hn => hn.elim b c
      · rintro ⟨a, b⟩
        rw [List.mem_cons, hfrag _ _ _ _ hr' (hN _ _ _ _ a)] at b
        exact ⟨⟨a, fun h => b (.inl h)⟩, fun h => b (.inr h)⟩
    · constructor
      · rintro ⟨⟨a, b, c⟩, d, e⟩
        refine ⟨a, ?_, ?_⟩
        · rw [List.mem_cons, hfrag _ _ _ _ hr' (hE _ _ _ _ a)]
          exact fun hn => hn.elim b d
        · intro z0 hz0
          rw [List.mem_cons, hfrag _ _ _ _ ⟨hr'.1, by have := hr'.2; omega⟩ (hE _ _ _ _ a)]
          exact fun hn => hn.elim (fun hh => c ⟨hh.1, hh.2.1, hh.2.2.1, by omega⟩) (e z0 hz0)
      · rintro ⟨a, b, c⟩
        rw [List.mem_cons, hfrag _ _ _ _ hr' (hE _ _ _ _ a)] at b
        refine ⟨⟨a, fun h => b (.inl h), fun h => ?_⟩, fun h => b (.inr h), fun z0 hz0 hm => c z0 hz0 (List.mem_cons_of_mem _ hm)⟩
        refine c z h.2.2.2 ?_
        rw [h.1, h.2.1, h.2.2.1]
        exact List.mem_cons_self
end

theorem pickFew_cover {bad : List (Nat × Nat)} {num : Nat} {e : Nat × Nat} (he : e ∈ bad) : e.1 ∈ pickFew bad num ∨ e.2 ∈ pickFew bad num := by
  obtain ⟨i, hi, he⟩ := List.getElem_of_mem he
  have hm : (e, i) ∈ bad.zipIdx := by
    rw [List.mem_zipIdx_iff_getElem?]
    exact List.getElem?_eq_some_iff.mpr ⟨hi, he⟩
  unfold pickFew
  simp only [List.mem_map, List.mem_reverse]
  by_cases hb : num.testBit i
  · exact .inl ⟨_, hm, by simp [hb]⟩
  · exact .inr ⟨_, hm, by simp [hb]⟩

theorem pickFew_sub {bad : List (Nat × Nat)} {num q : Nat} (h : q ∈ pickFew bad num) : ∃ e ∈ bad, q = e.1 ∨ q = e.2 := by
  unfold pickFew at h
  simp only [List.mem_map, List.mem_reverse] at h
  obtain ⟨⟨e, i⟩, hm, rfl⟩ := h
  have := List.mem_zipIdx_iff_getElem?.mp hm
  refine ⟨e, List.mem_of_getElem? this, ?_⟩
  simp only
  split <;> simp

theorem cover_mono {coin : Nat → Bool} {es : List (Nat × Nat)} {adj : Nat → List Nat} {c : List Nat} {q : Nat} (h : q ∈ c) : q ∈ cover coin es adj c := by
  induction es generalizing adj c with
  | nil => exact h
  | cons e es ih =>
    unfold cover
    split
    · exact ih h
    · exact ih (List.mem_cons_of_mem _ h)

theorem coverEnd_cases (adj : Nat → List Nat) (b : Bool) (e : Nat × Nat) : coverEnd adj b e = e.1 ∨ coverEnd adj b e = e.2 := by
  unfold coverEnd
  split
  · exact .inr rfl
  · split
    · exact .inl rfl
    · split
      · exact .inr rfl
      · exact .inl rfl

theorem cover_cover {coin : Nat → Bool} {es : List (Nat × Nat)} {adj : Nat → List Nat} {c : List Nat} {e : Nat × Nat} (he : e ∈ es) :
    e.1 ∈ cover coin es adj c ∨ e.2 ∈ cover coin es adj c := by
  induction es generalizing adj c with
  | nil => cases he
  | cons f es ih =>
    unfold cover
    rcases List.mem_cons.mp he with rfl | he
    · split
      · rename_i h; exact h.imp cover_mono cover_mono
      · rcases coverEnd_cases adj (coin es.length) e with h | h
        · exact .inl (cover_mono (by simp [h]))
        · exact .inr (cover_mono (by simp [h]))
    · split
      · exact ih he
      · exact ih he

theorem cover_sub {coin : Nat → Bool} {es : List (Nat × Nat)} {adj : Nat → List Nat} {c : List Nat} {q : Nat} (h : q ∈ cover coin es adj c) :
    q ∈ c ∨ ∃ e ∈ es, q = e.1 ∨ q = e.2 := by
  induction es generalizing adj c with
  | nil => exact .inl h
  | cons f es ih =>
    unfold cover at h
    split at h
    · rcases ih h with h | ⟨e, he, hq⟩
      · exact .inl h
      · exact .inr ⟨e, List.mem_cons_of_mem _ he, hq⟩
    · rcases ih h with h | ⟨e, he, hq⟩
      · rcases List.mem_cons.mp h with rfl | h
        · exact .inr ⟨f, by simp, coverEnd_cases _ _ _⟩
        · exact .inl h
      · exact .inr ⟨e, List.mem_cons_of_mem _ he, hq⟩

/-- A mask that can be searched: it holds the fragments `N` and joints `E` of a part of the graph in which no coupler is missing. -/
structure Clean (T : Topo) (nodes : List Nat) (edges : List (Nat × Nat)) (C : Masks) (N E : Bool → Nat → Nat → Nat → Prop) : Prop where
  rep : Rep T C N E (Missing T nodes edges)
  node_has : ∀ u w k z, N u w k z → Has T nodes u w k z
  edge_joint : ∀ u w k z, E u w k z → Joint T nodes edges u w k z
  edge_node : ∀ u w k z, E u w k (z + 1) → N u w k z ∧ N u w k (z + 1)
  cross : ∀ x k y j, N false x k y → N true y j x → Crossed T edges false x k y j

theorem Joint.bounds {T : Topo} {nodes : List Nat} {edges : List (Nat × Nat)} (hG : WFGraph T nodes edges) {u : Bool} {w k z : Nat} (h : Joint T nodes edges u w k z) : InR T u w z ∧ k < T.shore := by
  obtain ⟨z0, e, p, hp, q, hq, h1, h2, h3⟩ := h
  exact Has.bounds hG.supported hG.qubits ⟨q, hq, h2⟩

/-- The list of missing couplers as it is at any time. -/
def BadList (T : Topo) (nodes : List Nat) (edges : List (Nat × Nat)) (L : List (Nat × Nat)) : Prop :=
  ∀ a b, (a, b) ∈ L ↔ ∃ x k y j, InR T false x y ∧ k < T.shore ∧ Missing T nodes edges false x k y j ∧ a = T.frag false x y k ∧ b = T.frag true y x j

/-- Removing an end of every missing coupler leaves a clean mask. -/
theorem childOf_clean {T : Topo} {nodes : List Nat} {edges : List (Nat × Nat)} (hG : WFGraph T nodes edges) {M : Masks} (h : Rep T M (Has T nodes) (Joint T nodes edges) (Missing T nodes edges))
    {L : List (Nat × Nat)} (hL : BadList T nodes edges L) {bad : List Nat} (hb : ∀ q ∈ bad, ∃ e ∈ L, q = e.1 ∨ q = e.2) (hc : ∀ e ∈ L, e.1 ∈ bad ∨ e.2 ∈ bad) :
    ∃ C, childOf T M bad = .ok C ∧ Clean T nodes edges C (fun u w k z => Has T nodes u w k z ∧ T.frag u w z k ∉ bad)
      (fun u w k z => Joint T nodes edges u w k z ∧ T.frag u w z k ∉ bad ∧ ∀ z0, z = z0 + 1 → T.frag u w z0 k ∉ bad) := by
  have hfrag : ∀ q ∈ bad, IsFrag T q := by
    intro q hq
    obtain ⟨⟨a, b⟩, he, hq⟩ := hb q hq
    obtain ⟨x, k, y, j, hr, hk, hm, ha, hb'⟩ := (hL a b).mp he
    rcases hq with rfl | rfl
    · exact ⟨false, x, y, k, hr, hk, ha⟩
    · obtain ⟨h1, h2⟩ := hm.2.1.bounds hG.supported hG.qubits
      exact ⟨true, y, x, j, h1, h2, hb'⟩
  obtain ⟨C, h1, r1⟩ := childOf_ok (shore_le hG.supported) h hfrag (fun u w k z h => (h.bounds hG.supported hG.qubits).2) (fun u w k z h => (h.bounds hG).2)
  refine ⟨C, h1, r1, fun u w k z h => h.1, fun u w k z h => h.1, ?_, ?_⟩
  · rintro u w k z ⟨hj, h2, h3⟩
    obtain ⟨z0, e, p, hp, q, hq, f1, f2, f3⟩ := hj
    obtain rfl : z = z0 := by omega
    exact ⟨⟨⟨p, hp, f1⟩, h3 z rfl⟩, ⟨⟨q, hq, f2⟩, h2⟩⟩
  · rintro x k y j ⟨h2, h3⟩ ⟨h4, h5⟩
    by_contra hn
    obtain ⟨hr, hk⟩ := h2.bounds hG.supported hG.qubits
    have := (hL (T.frag false x y k) (T.frag true y x j)).mpr ⟨x, k, y, j, hr, hk, ⟨h2, h4, hn⟩, rfl, rfl⟩
    rcases hc _ this with h | h
    · exact h3 h
    · exact h5 h

/-- The random choices only permute the list. -/
def Draws.Perm (D : Draws) : Prop := ∀ n l, (D.order n l).Perm l

/-- What holds of a state in which a search runs. -/
structure Good (T : Topo) (nodes : List Nat) (edges : List (Nat × Nat)) (s : State) : Prop where
  bad : BadList T nodes edges s.badEdges
  clean : ∃ N E, Clean T nodes edges s.child N E

theorem BadList.perm {T : Topo} {nodes : List Nat} {edges L L' : List (Nat × Nat)} (h : BadList T nodes edges L) (hp : L'.Perm L) : BadList T nodes edges L' :=
  fun a b => hp.mem_iff.trans (h a b)

theorem next_ok {T : Topo} {nodes : List Nat} {edges : List (Nat × Nat)} (hG : WFGraph T nodes edges) {M : Masks} (h : Rep T M (Has T nodes) (Joint T nodes edges) (Missing T nodes edges))
    {bound : Nat} {D : Draws} (hD : D.Perm) (call : Nat) {s : State} (hL : BadList T nodes edges s.badEdges) :
    ∃ r, next T M bound D call s = .ok r ∧ ∀ s', r = some s' → Good T nodes edges s' ∧ s'.maskNum = s.maskNum + 1 ∧ s'.badEdges.Perm s.badEdges ∧ s.maskNum < max 1 bound := by
  unfold next
  by_cases h0 : s.badEdges.length = 0
  · rw [if_pos h0]
    by_cases h1 : s.maskNum = 0
    · rw [if_pos h1]
      refine ⟨_, rfl, ?_⟩
      rintro s' ⟨⟩
      refine ⟨⟨hL, ?_⟩, by simp [h1], List.Perm.refl _, by omega⟩
      have hnil : s.badEdges = [] := List.length_eq_zero_iff.mp h0
      obtain ⟨C, hc, hcl⟩ := childOf_clean hG h hL (bad := []) (by simp) (by simp [hnil])
      have : C = M := by cases hc; rfl
      subst this
      exact ⟨_, _, hcl⟩
    · rw [if_neg h1]
      exact ⟨none, rfl, fun _ h => by cases h⟩
  · rw [if_neg h0]
    by_cases h2 : 2 ^ s.badEdges.length ≤ bound
    · rw [if_pos h2]
      by_cases h3 : s.maskNum < 2 ^ s.badEdges.length
      · rw [if_pos h3]
        obtain ⟨C, hc, hcl⟩ := childOf_clean hG h hL (bad := pickFew s.badEdges s.maskNum) (fun q hq => pickFew_sub hq) (fun e he => pickFew_cover he)
        refine ⟨some ⟨s.maskNum + 1, s.badEdges, C⟩, by simp only [hc, bind, Except.bind]; rfl, ?_⟩
        rintro s' ⟨⟩
        exact ⟨⟨hL, _, _, hcl⟩, rfl, List.Perm.refl _, by omega⟩
      · rw [if_neg h3]
        exact ⟨none, rfl, fun _ h => by cases h⟩
    · rw [if_neg h2]
      by_cases h3 : s.maskNum < bound
      · rw [if_pos h3]
        have hL' := hL.perm (hD call s.badEdges)
        obtain ⟨C, hc, hcl⟩ := childOf_clean hG h hL' (bad := cover (D.coin call) (D.order call s.badEdges) (adjOf (D.order call s.badEdges)) [])
          (fun q hq => (cover_sub hq).resolve_left (by simp)) (fun e he => cover_cover he)
        refine ⟨some ⟨s.maskNum + 1, D.order call s.badEdges, C⟩, by simp only [hc, bind, Except.bind]; rfl, ?_⟩
        rintro s' ⟨⟩
        exact ⟨⟨hL', _, _, hcl⟩, rfl, hD call s.badEdges, by omega⟩
      · rw [if_neg h3]
        exact ⟨none, rfl, fun _ h => by cases h⟩

theorem next_some {T : Topo} {M : Masks} {bound : Nat} {D : Draws} {call : Nat} {s : State} (hb : 0 < bound) (h0 : s.maskNum = 0) (h : next T M bound D call s = .ok none) : False := by
  unfold next at h
  rw [h0] at h
  split at h
  · rw [if_pos rfl] at h; cases h
  · split at h
    · rw [if_pos (Nat.two_pow_pos _)] at h
      cases hc : childOf T M (pickFew s.badEdges 0) <;> rw [hc] at h <;> cases h
    · simp only [bind, Except.bind] at h
      split at h <;> cases h

theorem visits_ok {T : Topo} {nodes : List Nat} {edges : List (Nat × Nat)} (hG : WFGraph T nodes edges) {M : Masks} (h : Rep T M (Has T nodes) (Joint T nodes edges) (Missing T nodes edges))
    {bound : Nat} {D : Draws} (hD : D.Perm) (fuel call : Nat) {s : State} (hs : Good T nodes edges s) (hf : max 1 bound + 1 ≤ fuel + s.maskNum) (hf' : 0 < fuel) :
    ∃ l, visits T M bound D fuel call s = .ok l ∧ (∃ rest, l = s :: rest) ∧ ∀ s' ∈ l, Good T nodes edges s' := by
  induction fuel generalizing call s with
  | zero => omega
  | succ fuel ih =>
    obtain ⟨r, hr, hr'⟩ := next_ok hG h (bound := bound) hD call hs.bad
    unfold visits
    cases r with
    | none => exact ⟨[s], by simp only [hr, bind, Except.bind]; rfl, ⟨[], rfl⟩, by simpa using hs⟩
    | some s' =>
      obtain ⟨g, hn, hp, hlt⟩ := hr' s' rfl
      obtain ⟨l, h1, h2, h3⟩ := ih (call + 1) g (by omega) (by omega)
      refine ⟨s :: l, by simp only [hr, h1, bind, Except.bind]; rfl, ⟨l, rfl⟩, ?_⟩
      intro s2 hs2
      rcases List.mem_cons.mp hs2 with rfl | hs2
      · exact hs
      · exact h3 s2 hs2

theorem start_ok {T : Topo} {nodes : List Nat} {edges : List (Nat × Nat)} (hG : WFGraph T nodes edges) {bound : Nat} (hb : 0 < bound) {D : Draws} (hD : D.Perm) :
    ∃ M s, start T bound D nodes edges = .ok (M, s) ∧ Rep T M (Has T nodes) (Joint T nodes edges) (Missing T nodes edges) ∧ Good T nodes edges s ∧ s.maskNum = 1 ∧
      ∃ L, badEdges T M.bad = .ok L ∧ s.badEdges.Perm L := by
  obtain ⟨M, h1, r1⟩ := buildMasks_ok hG
  obtain ⟨L, h2, hL⟩ := badEdges_ok r1
  obtain ⟨r, h3, h4⟩ := next_ok hG r1 (bound := bound) hD 0 (s := ⟨0, L, M⟩) hL
  cases r with
  | none => exact (next_some hb rfl h3).elim
  | some s =>
    obtain ⟨g, hn, hp, _⟩ := h4 s rfl
    exact ⟨M, s, by simp only [start, h1, h2, h3, bind, Except.bind]; rfl, r1, g, hn, L, h2, hp⟩

theorem reset_ok {T : Topo} {nodes : List Nat} {edges : List (Nat × Nat)} (hG : WFGraph T nodes edges) {M : Masks} (h : Rep T M (Has T nodes) (Joint T nodes edges) (Missing T nodes edges))
    {bound : Nat} (hb : 0 < bound) {D : Draws} (hD : D.Perm) {s : State} (hs : Good T nodes edges s) (hm : 0 < s.maskNum) :
    ∃ s', reset T M bound D s = .ok s' ∧ next T M bound D 0 { s with maskNum := 0 } = .ok (some s') ∧ Good T nodes edges s' ∧ s'.maskNum = 1 ∧ s'.badEdges.Perm s.badEdges := by
  obtain ⟨r, h3, h4⟩ := next_ok hG h (bound := bound) hD 0 (s := { s with maskNum := 0 }) hs.bad
  cases r with
  | none => exact (next_some hb rfl h3).elim
  | some s' =>
    obtain ⟨g, hn, hp, _⟩ := h4 s' rfl
    exact ⟨s', by simp only [reset, if_pos hm, h3, bind, Except.bind]; rfl, h3, g, hn, hp⟩

/-- Every mask a search runs on is clean. -/
theorem searched_ok {T : Topo} {nodes : List Nat} {edges : List (Nat × Nat)} (hG : WFGraph T nodes edges) {bound : Nat} (hb : 0 < bound) {D D' : Draws} (hD : D.Perm) (hD' : D'.Perm) :
    ∃ l, searched T bound D D' nodes edges = .ok l ∧ l ≠ [] ∧ ∀ C ∈ l, ∃ N E, Clean T nodes edges C N E := by
  obtain ⟨M, s, h1, r1, g1, m1, -⟩ := start_ok hG hb hD
  obtain ⟨s', h2, -, g2, m2, -⟩ := reset_ok hG r1 hb hD' g1 (by omega)
  obtain ⟨l, h3, ⟨rest, hl⟩, h4⟩ := visits_ok hG r1 (bound := bound) hD' (bound + 2) 1 g2 (by omega) (by omega)
  refine ⟨l.map (·.child), by simp only [searched, h1, h2, h3, bind, Except.bind]; rfl, by simp [hl], ?_⟩
  intro C hC
  obtain ⟨s2, hs2, rfl⟩ := List.mem_map.mp hC
  exact (h4 s2 hs2).clean

end Bus
end MM
