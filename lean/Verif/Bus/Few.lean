import Verif.Spec.Missing
import Verif.Bus.EdgeInv
import Mathlib.Data.List.Perm.Subperm

/-! The list of missing couplers has no repetitions, and is as long as the list of internal couplers missing. -/

namespace MM
namespace Bus

open Lattice Spec

theorem badOfCell_nodup {T : Topo} {bad : List Byte} {y x q n q' : Nat} {out out' : List (Nat × Nat)} (h : badOfCell T bad y x n (q, out) = .ok (q', out')) (ho : out.Nodup) (hlt : ∀ e ∈ out, e.1 < q) :
    out'.Nodup ∧ (∀ e ∈ out', e.1 < q') ∧ q' = q + n := by
  induction n generalizing q out with
  | zero => cases h; exact ⟨ho, hlt, rfl⟩
  | succ n ih =>
    rw [badOfCell] at h
    cases hm : at_ bad q with
    | error e => simp only [hm, bind, Except.bind] at h; cases h
    | ok m =>
      simp only [hm, bind, Except.bind, bitsLoop_ok 9 m (Nat.lt_succ_of_le (members_length_le _))] at h
      have hn : ((members m).map fun k => (q, chimeraLinear T.dimX T.shore y x true k)).Nodup := by
        refine List.Nodup.map (fun a b hab => ?_) (List.nodup_range.filter _)
        have := (Prod.mk.inj hab).2
        unfold chimeraLinear at this
        omega
      have h1 : (out ++ (members m).map fun k => (q, chimeraLinear T.dimX T.shore y x true k)).Nodup := by
        refine List.nodup_append.mpr ⟨ho, hn, fun e he e' he' => ?_⟩
        obtain ⟨k, _, rfl⟩ := List.mem_map.mp he'
        rintro rfl
        exact absurd (hlt _ he) (Nat.lt_irrefl q)
      have h2 : ∀ e ∈ out ++ (members m).map fun k => (q, chimeraLinear T.dimX T.shore y x true k), e.1 < q + 1 := by
        intro e he
        rcases List.mem_append.mp he with he | he
        · have := hlt e he; omega
        · obtain ⟨k, _, rfl⟩ := List.mem_map.mp he
          exact Nat.lt_succ_self q
      obtain ⟨a, b, c⟩ := ih h h1 h2
      exact ⟨a, b, by omega⟩

theorem badEdges_nodup {T : Topo} {bad : List Byte} {L : List (Nat × Nat)} (h : badEdges T bad = .ok L) : L.Nodup := by
  have key : ∀ (cs : List (Nat × Nat)) (s r : Nat × List (Nat × Nat)), s.2.Nodup → (∀ e ∈ s.2, e.1 < s.1) →
      cs.foldlM (m := B) (init := s) (fun s c => do
        let s ← badOfCell T bad c.1 c.2 T.shore s
        pure (s.1 + T.shore, s.2)) = .ok r → r.2.Nodup := by
    intro cs
    induction cs with
    | nil => intro s r h1 _ h; cases h; exact h1
    | cons c cs ih =>
      intro s r h1 h2 h
      rw [List.foldlM_cons] at h
      cases hb : badOfCell T bad c.1 c.2 T.shore s with
      | error e => simp only [hb, bind, Except.bind] at h; cases h
      | ok s' =>
        simp only [hb, bind, Except.bind, pure, Except.pure] at h
        obtain ⟨q, out⟩ := s
        obtain ⟨q', out'⟩ := s'
        obtain ⟨a, b, -⟩ := badOfCell_nodup hb h1 h2
        refine ih _ _ a (fun e he => ?_) (by simpa only [bind, Except.bind, pure, Except.pure] using h)
        have := b e he
        simp only
        omega
  unfold badEdges at h
  cases hr : (cellOrder T).foldlM (m := B) (init := (0, ([] : List (Nat × Nat)))) (fun s c => do
        let s ← badOfCell T bad c.1 c.2 T.shore s
        pure (s.1 + T.shore, s.2)) with
  | error e => rw [hr] at h; cases h
  | ok r =>
    rw [hr] at h
    cases h
    exact key _ (0, []) _ List.nodup_nil (by simp) hr

theorem internal_of_frags {T : Topo} {p q x k y j : Nat} (hp : IsQubit T p) (hq : IsQubit T q) (fp : FragOf T p false x k y) (fq : FragOf T q true y j x) : Internal T p q := by
  obtain ⟨a1, a2, a3, a4, a5⟩ := fp
  obtain ⟨b1, b2, b3, b4, b5⟩ := fq
  cases T with
  | chimera m n t =>
    obtain ⟨hy, hx, hk⟩ := linearChimera_bounds (isQubit_chimera hp)
    obtain ⟨hy', hx', hk'⟩ := linearChimera_bounds (isQubit_chimera hq)
    have e := chimeraLinear_chimera (dx := n) (t := t) (q := p)
    have e' := chimeraLinear_chimera (dx := n) (t := t) (q := q)
    simp only [Topo.first, Topo.span] at *
    generalize hc : linearChimera n t p = c at *
    generalize hc' : linearChimera n t q = c' at *
    obtain ⟨py, px, v, k1⟩ := c
    obtain ⟨qy, qx, v', k2⟩ := c'
    simp only at *
    subst a1 b1
    simp only [Bool.false_eq_true, if_false, if_true] at *
    have hxx : px = qx := by omega
    have hyy : py = qy := by omega
    subst hxx hyy
    rw [← chimeraNum_zero] at e
    rw [← chimeraNum_one] at e'
    refine ⟨?_, py, px, k1, py, px, k2, hy, hx, hk, hy', hx', hk', e.symm, e'.symm⟩
    rw [← e, ← e']
    exact .cell hy hx hk hk'
  | pegasus d off =>
    obtain ⟨hw, hk, hz⟩ := linearLinemajor_bounds (isQubit_pegasus hp)
    obtain ⟨hw', hk', hz'⟩ := linearLinemajor_bounds (isQubit_pegasus hq)
    have e := linemajorLinear_linemajor (isQubit_pegasus hp)
    have e' := linemajorLinear_linemajor (isQubit_pegasus hq)
    simp only [Topo.first, Topo.span, pegasusFirst, pegasusCoordinates] at *
    generalize hc : linearLinemajor d 12 (d - 1) p = c at *
    generalize hc' : linearLinemajor d 12 (d - 1) q = c' at *
    obtain ⟨v, w1, k1, z1⟩ := c
    obtain ⟨v', w2, k2, z2⟩ := c'
    simp only at *
    subst a1 b1
    have e : pegasusNum d 0 w1 k1 z1 = p := by rw [pegasusNum_zero]; exact e
    have e' : pegasusNum d 1 w2 k2 z2 = q := by rw [pegasusNum_one]; exact e'
    refine ⟨?_, w1, k1, z1, w2, k2, z2, hw, hk, hz, hw', hk', hz', e.symm, e'.symm⟩
    rw [← e, ← e']
    exact .cross hw hk hz hw' hk' hz' (by omega) (by omega) (by omega) (by omega)
  | zephyr d t =>
    obtain ⟨hw, hk, hz⟩ := linearLinemajor_bounds (isQubit_zephyr hp)
    obtain ⟨hw', hk', hz'⟩ := linearLinemajor_bounds (isQubit_zephyr hq)
    have e := linemajorLinear_linemajor (isQubit_zephyr hp)
    have e' := linemajorLinear_linemajor (isQubit_zephyr hq)
    simp only [Topo.first, Topo.span, zephyrFirst, zephyrCoordinates] at *
    generalize hc : linearLinemajor (2 * d + 1) (2 * t) d p = c at *
    generalize hc' : linearLinemajor (2 * d + 1) (2 * t) d q = c' at *
    obtain ⟨v, w1, k1, z1⟩ := c
    obtain ⟨v', w2, k2, z2⟩ := c'
    simp only at *
    subst a1 b1
    have e : zephyrNum d t 0 w1 k1 z1 = p := by rw [zephyrNum_zero]; exact e
    have e' : zephyrNum d t 1 w2 k2 z2 = q := by rw [zephyrNum_one]; exact e'
    refine ⟨?_, w1, k1, z1, w2, k2, z2, hw, hk, hz, hw', hk', hz', e.symm, e'.symm⟩
    rw [← e, ← e']
    exact .cross hw hk hz hw' hk' hz' (by omega) (by omega) (by omega) (by omega)

/-- The list of missing couplers that the search goes through is no longer than any list of the internal couplers missing. -/
theorem badEdges_length {T : Topo} {nodes : List Nat} {edges : List (Nat × Nat)} (hG : WFGraph T nodes edges) {n : Nat} (hf : FewMissing T nodes edges n) {M : Masks} (hM : buildMasks T nodes edges = .ok M) :
    ∃ L, badEdges T M.bad = .ok L ∧ L.length ≤ n := by
  obtain ⟨_, e1, r⟩ := buildMasks_ok hG
  rw [hM] at e1; cases e1
  obtain ⟨L, hL, hm⟩ := badEdges_ok r
  obtain ⟨ms, hlen, hms⟩ := hf
  refine ⟨L, hL, ?_⟩
  let g : Nat × Nat → Nat × Nat := fun e => (T.frag false (T.first e.1).2.1 (T.first e.2).2.1 (T.first e.1).2.2.1, T.frag true (T.first e.2).2.1 (T.first e.1).2.1 (T.first e.2).2.2.1)
  have hsub : L ⊆ ms.map g := by
    rintro ⟨a, b⟩ hab
    obtain ⟨x, k, y, j, _, _, ⟨⟨p, hp, fp⟩, ⟨q, hq, fq⟩, hc⟩, rfl, rfl⟩ := (hm a b).mp hab
    rcases hms p hp q hq (internal_of_frags (hG.qubits p hp) (hG.qubits q hq) fp fq) with h | h
    · exact absurd ⟨p, q, h, fp, fq⟩ hc
    · refine List.mem_map.mpr ⟨(p, q), h, ?_⟩
      simp only [g, fp.hw, fp.hk, fq.hw, fq.hk]
  have := (List.subperm_of_subset (badEdges_nodup hL) hsub).length_le
  rw [List.length_map] at this
  omega

end Bus
end MM
