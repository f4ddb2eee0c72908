import Verif.Bus.Kind
import Verif.Bus.Yield
import Verif.Spec.Clique

/-! The largest sets of mutually coupled qubits in the three lattices. -/

namespace MM
namespace Bus

open Lattice Spec

/-- Orientation, line, number in the bundle and first position of two coupled qubits, in Chimera. -/
def NearC (a b : Bool × Nat × Nat × Nat) : Prop :=
  if a.1 = b.1 then a.2.2.2 = b.2.2.2 + 1 ∨ b.2.2.2 = a.2.2.2 + 1 else a.2.2.2 = b.2.1 ∧ b.2.2.2 = a.2.1

/-- The same in Pegasus. -/
def NearP (a b : Bool × Nat × Nat × Nat) : Prop :=
  a.2.2.1 < 2 ∧ b.2.2.1 < 2 ∧ (a.1 = b.1 → (a.2.2.1 = b.2.2.1 ∧ (a.2.2.2 = b.2.2.2 + 6 ∨ b.2.2.2 = a.2.2.2 + 6)) ∨ (a.2.2.1 ≠ b.2.2.1 ∧ a.2.2.2 = b.2.2.2))

/-- The same in Zephyr. -/
def NearZ (a b : Bool × Nat × Nat × Nat) : Prop :=
  if a.1 = b.1 then a.2.2.2 ≠ b.2.2.2 ∧ a.2.2.2 ≤ b.2.2.2 + 2 ∧ b.2.2.2 ≤ a.2.2.2 + 2
  else a.2.2.2 ≤ b.2.1 ∧ b.2.1 < a.2.2.2 + 2 ∧ b.2.2.2 ≤ a.2.1 ∧ a.2.1 < b.2.2.2 + 2

theorem NearC.symm {a b : Bool × Nat × Nat × Nat} (h : NearC a b) : NearC b a := by
  unfold NearC at *
  by_cases e : a.1 = b.1
  · rw [if_pos e] at h; rw [if_pos e.symm]; exact h.symm
  · rw [if_neg e] at h; rw [if_neg (fun h => e h.symm)]; exact h.symm

theorem NearP.symm {a b : Bool × Nat × Nat × Nat} (h : NearP a b) : NearP b a := by
  refine ⟨h.2.1, h.1, fun e => ?_⟩
  rcases h.2.2 e.symm with ⟨h1, h2⟩ | ⟨h1, h2⟩
  · exact .inl ⟨h1.symm, h2.symm⟩
  · exact .inr ⟨fun h => h1 h.symm, h2.symm⟩

theorem NearZ.symm {a b : Bool × Nat × Nat × Nat} (h : NearZ a b) : NearZ b a := by
  unfold NearZ at *
  by_cases e : a.1 = b.1
  · rw [if_pos e] at h; rw [if_pos e.symm]; exact ⟨fun x => h.1 x.symm, h.2.2, h.2.1⟩
  · rw [if_neg e] at h; rw [if_neg (fun h => e h.symm)]; exact ⟨h.2.2.1, h.2.2.2, h.1, h.2.1⟩

theorem nearC {m n t p q : Nat} (h : Coupled (.chimera m n t) p q) : NearC ((Topo.chimera m n t).first p) ((Topo.chimera m n t).first q) := by
  cases h with
  | @cell y x k k' hy hx hk hk' =>
    rw [chimeraNum_zero, chimeraNum_one, first_chimera hx hk, first_chimera hx hk']
    simp [NearC]
  | @vertical y x k hy hx hk =>
    rw [chimeraNum_zero, chimeraNum_zero, first_chimera hx hk, first_chimera hx hk]
    simp [NearC]
  | @horizontal y x k hy hx hk =>
    rw [chimeraNum_one, chimeraNum_one, first_chimera (show x < n by omega) hk, first_chimera hx hk]
    simp [NearC]

theorem nearP {d p q : Nat} {off : Bool → Nat → Nat} (h : Coupled (.pegasus d off) p q) : NearP ((Topo.pegasus d off).first p) ((Topo.pegasus d off).first q) := by
  cases h with
  | @cross w k z w' k' z' hw hk hz hw' hk' hz' h1 h2 h3 h4 =>
    rw [pegasusNum_zero, pegasusNum_one, first_pegasus hw hk hz, first_pegasus hw' hk' hz']
    exact ⟨Nat.mod_lt _ (by decide), Nat.mod_lt _ (by decide), fun e => by cases e⟩
  | @external u w k z hu hw hk hz =>
    obtain ⟨v, rfl⟩ := u_cases hu
    rw [pegasusNum_eq, pegasusNum_eq, first_pegasus hw hk (show z < d - 1 by omega), first_pegasus hw hk hz]
    exact ⟨Nat.mod_lt _ (by decide), Nat.mod_lt _ (by decide), fun _ => .inl ⟨rfl, .inr (show (z + 1) * 6 + off v (k / 2) = z * 6 + off v (k / 2) + 6 by omega)⟩⟩
  | @odd u w j z hu hw hj hz =>
    obtain ⟨v, rfl⟩ := u_cases hu
    rw [pegasusNum_eq, pegasusNum_eq, first_pegasus hw (show 2 * j < 12 by omega) hz, first_pegasus hw (show 2 * j + 1 < 12 by omega) hz]
    refine ⟨Nat.mod_lt _ (by decide), Nat.mod_lt _ (by decide), fun _ => .inr ⟨show 2 * j % 2 ≠ (2 * j + 1) % 2 by omega, ?_⟩⟩
    show z * 6 + off v (2 * j / 2) = z * 6 + off v ((2 * j + 1) / 2)
    rw [show (2 * j + 1) / 2 = 2 * j / 2 by omega]

theorem nearZ {d t p q : Nat} (h : Coupled (.zephyr d t) p q) : NearZ ((Topo.zephyr d t).first p) ((Topo.zephyr d t).first q) := by
  cases h with
  | @cross w k z w' k' z' hw hk hz hw' hk' hz' h1 h2 h3 h4 =>
    rw [zephyrNum_zero, zephyrNum_one, first_zephyr hw hk hz, first_zephyr hw' hk' hz']
    simp only [NearZ, Bool.false_eq_true, if_false]
    omega
  | @external u w k z hu hw hk hz =>
    obtain ⟨v, rfl⟩ := u_cases hu
    rw [zephyrNum_eq, zephyrNum_eq, first_zephyr hw hk (show z < d by omega), first_zephyr hw hk hz]
    simp only [NearZ, if_true]
    omega
  | @odd u w j z hu hw hj hz =>
    obtain ⟨v, rfl⟩ := u_cases hu
    rw [zephyrNum_eq, zephyrNum_eq, first_zephyr hw (show 2 * j < 2 * t by omega) hz, first_zephyr hw (show 2 * j + 1 < 2 * t by omega) hz]
    simp only [NearZ, if_true]
    omega
  | @odd' u w j z hu hw hj hz =>
    obtain ⟨v, rfl⟩ := u_cases hu
    rw [zephyrNum_eq, zephyrNum_eq, first_zephyr hw (show 2 * j < 2 * t by omega) hz, first_zephyr hw (show 2 * j + 1 < 2 * t by omega) (show z < d by omega)]
    simp only [NearZ, if_true]
    omega

theorem no_three {a b c : Bool × Nat × Nat × Nat} (h1 : NearC a b) (h2 : NearC a c) (h3 : NearC b c) : False := by
  obtain ⟨u1, a⟩ := a
  obtain ⟨u2, b⟩ := b
  obtain ⟨u3, c⟩ := c
  unfold NearC at *
  cases u1 <;> cases u2 <;> cases u3 <;> simp only [reduceCtorEq, if_true, if_false] at * <;> omega

theorem no_threeP {a b c : Bool × Nat × Nat × Nat} (e1 : a.1 = b.1) (e2 : a.1 = c.1) (h1 : NearP a b) (h2 : NearP a c) (h3 : NearP b c) : False := by
  obtain ⟨u1, _, k1, s1⟩ := a
  obtain ⟨u2, _, k2, s2⟩ := b
  obtain ⟨u3, _, k3, s3⟩ := c
  obtain ⟨x1, y1, h1⟩ := h1
  obtain ⟨x2, y2, h2⟩ := h2
  obtain ⟨x3, y3, h3⟩ := h3
  have h1 := h1 e1
  have h2 := h2 e2
  have h3 := h3 (e1.symm.trans e2)
  simp only at *
  omega

theorem no_fourZ {a b c : Bool × Nat × Nat × Nat} {x : Bool × Nat × Nat × Nat} (e1 : a.1 = b.1) (e2 : a.1 = c.1) (h1 : NearZ a b) (h2 : NearZ a c) (h3 : NearZ b c) (h4 : NearZ a x) (h5 : NearZ b x) (h6 : NearZ c x) : False := by
  obtain ⟨u1, _, k1, s1⟩ := a
  obtain ⟨u2, _, k2, s2⟩ := b
  obtain ⟨u3, _, k3, s3⟩ := c
  obtain ⟨u4, _, k4, s4⟩ := x
  simp only at e1 e2
  subst e1 e2
  unfold NearZ at *
  by_cases e : u1 = u4
  · subst e
    simp only [if_true] at *
    omega
  · simp only [if_true, if_neg e] at *
    omega

/-- Of five, three have the same orientation. -/
theorem three_of_five {R : Bool × Nat × Nat × Nat → Bool × Nat × Nat × Nat → Prop} (hs : ∀ {a b}, R a b → R b a)
    (h : ∀ a b c x, a.1 = b.1 → a.1 = c.1 → R a b → R a c → R b c → R a x → R b x → R c x → False) {a b c d e : Bool × Nat × Nat × Nat}
    (ab : R a b) (ac : R a c) (ad : R a d) (ae : R a e) (bc : R b c) (bd : R b d) (be : R b e) (cd : R c d) (ce : R c e) (de : R d e) : False := by
  obtain ⟨ua, a⟩ := a
  obtain ⟨ub, b⟩ := b
  obtain ⟨uc, c⟩ := c
  obtain ⟨ud, d⟩ := d
  obtain ⟨ue, e⟩ := e
  have key : (ua = ub ∧ ua = uc) ∨ (ua = ub ∧ ua = ud) ∨ (ua = ub ∧ ua = ue) ∨ (ua = uc ∧ ua = ud) ∨ (ua = uc ∧ ua = ue) ∨ (ua = ud ∧ ua = ue) ∨ (ub = uc ∧ ub = ud) ∨ (ub = uc ∧ ub = ue) ∨ (ub = ud ∧ ub = ue) ∨ (uc = ud ∧ uc = ue) := by
    cases ua <;> cases ub <;> cases uc <;> cases ud <;> cases ue <;> simp
  rcases key with ⟨p, q⟩ | ⟨p, q⟩ | ⟨p, q⟩ | ⟨p, q⟩ | ⟨p, q⟩ | ⟨p, q⟩ | ⟨p, q⟩ | ⟨p, q⟩ | ⟨p, q⟩ | ⟨p, q⟩
  · exact h _ _ _ _ p q ab ac bc ad bd cd
  · exact h _ _ _ _ p q ab ad bd ac bc (hs cd)
  · exact h _ _ _ _ p q ab ae be ac bc (hs ce)
  · exact h _ _ _ _ p q ac ad cd ab (hs bc) (hs bd)
  · exact h _ _ _ _ p q ac ae ce ab (hs bc) (hs be)
  · exact h _ _ _ _ p q ad ae de ab (hs bd) (hs be)
  · exact h _ _ _ _ p q bc bd cd (hs ab) (hs ac) (hs ad)
  · exact h _ _ _ _ p q bc be ce (hs ab) (hs ac) (hs ae)
  · exact h _ _ _ _ p q bd be de (hs ab) (hs ad) (hs ae)
  · exact h _ _ _ _ p q cd ce de (hs ac) (hs ad) (hs ae)

/-- No graph of a family has more mutually coupled qubits than `clique_number`. -/
theorem isClique_le {T : Topo} {nodes : List Nat} {edges : List (Nat × Nat)} (hG : WFGraph T nodes edges) {vs : List Nat} (hv : IsClique nodes edges vs) : vs.length ≤ T.cliqueNumber := by
  have hco : ∀ p q, Coupler edges p q → Coupled T p q ∨ Coupled T q p := by
    rintro p q (h | h)
    · exact hG.coupled _ h
    · exact (hG.coupled _ h).symm
  by_contra hlen
  have hp := hv.2.imp fun {p q} h => hco p q h.2
  cases T with
  | chimera m n t =>
    have hp := hp.imp (S := fun p q => NearC ((Topo.chimera m n t).first p) ((Topo.chimera m n t).first q)) fun {p q} h => h.elim nearC fun h => (nearC h).symm
    match vs, hlen, hp with
    | a :: b :: c :: _, _, hp =>
      simp only [List.pairwise_cons, List.mem_cons, forall_eq_or_imp] at hp
      exact no_three hp.1.1 hp.1.2.1 hp.2.1.1
    | [], hlen, _ => exact hlen (Nat.zero_le _)
    | [_], hlen, _ => exact hlen (by simp [Topo.cliqueNumber])
    | [_, _], hlen, _ => exact hlen (by simp [Topo.cliqueNumber])
  | pegasus d off =>
    have hp := hp.imp (S := fun p q => NearP ((Topo.pegasus d off).first p) ((Topo.pegasus d off).first q)) fun {p q} h => h.elim nearP fun h => (nearP h).symm
    match vs, hlen, hp with
    | a :: b :: c :: d :: e :: _, _, hp =>
      simp only [List.pairwise_cons, List.mem_cons, forall_eq_or_imp] at hp
      obtain ⟨⟨ab, ac, ad, ae, -⟩, ⟨bc, bd, be, -⟩, ⟨cd, ce, -⟩, ⟨de, -⟩, -⟩ := hp
      exact three_of_five (R := NearP) NearP.symm (fun a b c x e1 e2 h1 h2 h3 _ _ _ => no_threeP e1 e2 h1 h2 h3) ab ac ad ae bc bd be cd ce de
    | [], hlen, _ => exact hlen (Nat.zero_le _)
    | [_], hlen, _ => exact hlen (by simp [Topo.cliqueNumber])
    | [_, _], hlen, _ => exact hlen (by simp [Topo.cliqueNumber])
    | [_, _, _], hlen, _ => exact hlen (by simp [Topo.cliqueNumber])
    | [_, _, _, _], hlen, _ => exact hlen (by simp [Topo.cliqueNumber])
  | zephyr d t =>
    have hp := hp.imp (S := fun p q => NearZ ((Topo.zephyr d t).first p) ((Topo.zephyr d t).first q)) fun {p q} h => h.elim nearZ fun h => (nearZ h).symm
    match vs, hlen, hp with
    | a :: b :: c :: d :: e :: _, _, hp =>
      simp only [List.pairwise_cons, List.mem_cons, forall_eq_or_imp] at hp
      obtain ⟨⟨ab, ac, ad, ae, -⟩, ⟨bc, bd, be, -⟩, ⟨cd, ce, -⟩, ⟨de, -⟩, -⟩ := hp
      exact three_of_five (R := NearZ) NearZ.symm (fun a b c x e1 e2 h1 h2 h3 h4 h5 h6 => no_fourZ e1 e2 h1 h2 h3 h4 h5 h6) ab ac ad ae bc bd be cd ce de
    | [], hlen, _ => exact hlen (Nat.zero_le _)
    | [_], hlen, _ => exact hlen (by simp [Topo.cliqueNumber])
    | [_, _], hlen, _ => exact hlen (by simp [Topo.cliqueNumber])
    | [_, _, _], hlen, _ => exact hlen (by simp [Topo.cliqueNumber])
    | [_, _, _, _], hlen, _ => exact hlen (by simp [Topo.cliqueNumber])

end Bus
end MM
