import Verif.Bus.Iterate
import Verif.Bus.NestedInv

/-! The iterator over the largest cliques of a width lists the walks back from the best cells, depth first. -/

namespace MM
namespace Bus

open Lattice

/-- The corner of bit `k`. -/
def cornerOf (k : Nat) : Corner :=
  match k % 4 with
  | 0 => .nw
  | 1 => .ne
  | 2 => .sw
  | _ => .se

/-- The column the walk goes back to. -/
def backX (x k : Nat) : Nat :=
  match cornerOf k with
  | .nw | .sw => x - 1
  | .ne | .se => x

section
variable (T : Topo) (W : Nat) (lines : List Byte) (mem : List Nat)

/-- The corners noted in a cell. -/
def cornerSet (i y x : Nat) : Byte :=
  match mem[posN T W i y x]? with
  | some v => BitVec.ofNat 8 (v &&& 255)
  | none => 0

/-- The chains of the ell of bit `k` at a cell. -/
def slice (i y x k : Nat) : List (List Nat) :=
  if k < 4 then
    match inflateEll T lines (ellN W i y (backX x k) (cornerOf k)) [] with
    | .ok cs => cs
    | .error _ => []
  else []

/-- All embeddings that come from walks back from a cell, depth first. -/
def allFrom : Nat → Nat → Nat → List (List (List Nat))
  | 0, y, x => (members (cornerSet T W mem 0 y x)).map (slice T W lines 0 y x)
  | i + 1, y, x => (members (cornerSet T W mem (i + 1) y x)).flatMap fun k =>
      (allFrom i (prevY y (cornerOf k)) (backX x k)).map (slice T W lines (i + 1) y x k ++ ·)

/-- Those that start with bit `k`. -/
def allVia : Nat → Nat → Nat → Nat → List (List (List Nat))
  | 0, y, x, k => [slice T W lines 0 y x k]
  | i + 1, y, x, k => (allFrom T W lines mem i (prevY y (cornerOf k)) (backX x k)).map (slice T W lines (i + 1) y x k ++ ·)

theorem allFrom_eq (i y x : Nat) : allFrom T W lines mem i y x = (members (cornerSet T W mem i y x)).flatMap (allVia T W lines mem i y x) := by
  cases i with
  | zero =>
    rw [allFrom]
    exact (List.flatMap_pure_eq_map _ _).symm
  | succ i => rfl

/-- What is still to come from the stack. -/
def pending (emb : List (List Nat)) : Nat → List Frame → List (List (List Nat))
  | _, [] => []
  | l, f :: S => ((members (BitVec.ofNat 8 f.c)).flatMap (allVia T W lines mem l f.y f.x)).map (emb.take f.n ++ ·) ++ pending emb (l + 1) S

/-- What is still to come from the cells in `basepoints`: only the first corner of each is used. -/
def pendingBase (b : List (Nat × Nat × Nat)) : List (List (List Nat)) :=
  b.flatMap fun p => ((members (BitVec.ofNat 8 p.2.2)).take 1).flatMap (allVia T W lines mem (W - 1) p.1 p.2.1)

/-- The stack belongs to the tables: the last entry to table `l`. -/
def StackOK : Nat → Nat → List Frame → Prop
  | _, l, [] => l = W - 1
  | m, l, f :: S => f.n ≤ m ∧ f.y < rowsN T l ∧ f.x < colsN T W l ∧ f.c < 256 ∧
      (∀ k ∈ members (BitVec.ofNat 8 f.c), k ∈ members (cornerSet T W mem l f.y f.x)) ∧ StackOK f.n (l + 1) S

/-- The cells in `basepoints` belong to the last table. -/
def BaseOK (b : List (Nat × Nat × Nat)) : Prop :=
  ∀ p ∈ b, p.1 < rowsN T (W - 1) ∧ p.2.1 < colsN T W (W - 1) ∧ p.2.2 < 256 ∧ BitVec.ofNat 8 p.2.2 = cornerSet T W mem (W - 1) p.1 p.2.1

end

section
variable {T : Topo} {W : Nat} {lines : List Byte} {mem : List Nat}

theorem StackOK.len {m l : Nat} {S : List Frame} (h : StackOK T W mem m l S) : l + S.length = W - 1 := by
  induction S generalizing m l with
  | nil => simpa [StackOK] using h
  | cons f S ih =>
    have := ih h.2.2.2.2.2
    simp only [List.length_cons]
    omega

theorem StackOK.mono {m m' l : Nat} {S : List Frame} (h : StackOK T W mem m l S) (hm : m ≤ m') : StackOK T W mem m' l S := by
  cases S with
  | nil => exact h
  | cons f S => exact ⟨Nat.le_trans h.1 hm, h.2⟩

theorem pending_congr {e e' : List (List Nat)} {m l : Nat} {S : List Frame} (h : StackOK T W mem m l S) (he : e.take m = e'.take m) :
    pending T W lines mem e l S = pending T W lines mem e' l S := by
  induction S generalizing m l with
  | nil => rfl
  | cons f S ih =>
    have hn : e.take f.n = e'.take f.n := by
      have := congrArg (List.take f.n) he
      rwa [List.take_take, List.take_take, Nat.min_eq_left h.1] at this
    simp only [pending, hn]
    rw [ih h.2.2.2.2.2 hn]

theorem other_ok {c : Nat} (hc : c < 256) {k : Nat} {ks : List Nat} (h : members (BitVec.ofNat 8 c) = k :: ks) :
    firstBit (BitVec.ofNat 8 c) = .ok k ∧ ∃ c', otherCorners c = .ok c' ∧ c' < 256 ∧ members (BitVec.ofNat 8 c') = ks := by
  have hne : BitVec.ofNat 8 c ≠ 0 := by
    intro e; rw [e, members_zero] at h; cases h
  obtain ⟨k', _, h1, m', h2, h3⟩ := step_ok _ hne
  rw [h] at h3
  obtain ⟨rfl, rfl⟩ := List.cons.inj h3
  refine ⟨h1, m'.toNat, by simp only [otherCorners, h2, bind, Except.bind]; rfl, m'.isLt, ?_⟩
  rw [BitVec.ofNat_toNat, BitVec.setWidth_eq]

theorem members_eq_nil_iff {c : Nat} (hc : c < 256) : members (BitVec.ofNat 8 c) = [] ↔ c = 0 := by
  constructor
  · intro h
    have := congrArg BitVec.toNat (members_eq_nil _ h)
    rwa [BitVec.toNat_ofNat, Nat.mod_eq_of_lt (show c < 2 ^ 8 from hc)] at this
  · rintro rfl; exact members_zero

variable {check : Ell → Bool} {nodes : List Nat} {edges : List (Nat × Nat)} {C : Masks} {N E : Bool → Nat → Nat → Nat → Prop}

theorem mem_cornerSet {i y x v k : Nat} (hv : mem[posN T W i y x]? = some v) : k ∈ members (cornerSet T W mem i y x) ↔ k < 8 ∧ (v &&& 255).testBit k = true := by
  simp only [cornerSet, hv, mem_members, BitVec.getLsbD_ofNat, Bool.and_eq_true, decide_eq_true_eq]

theorem bit_back (b : Bool) (c : Corner) (x0 : Nat) {k : Nat} (hk : k = match c with
      | .nw => if b then 0 else 4
      | .ne => if b then 1 else 5
      | .sw => if b then 2 else 6
      | .se => if b then 3 else 7) : cornerOf k = c ∧ backX (nextX x0 c) k = x0 ∧ (k < 4 ↔ b = true) := by
  subst hk
  cases b <;> cases c <;> simp [cornerOf, backX, nextX]

/-- What a bit in a cell means. -/
theorem branch_ok (hF : Fits T W) (h : Done T W lines check W mem) {i y x k : Nat} (hi : i < W) (hy : y < rowsN T i) (hx : x < colsN T W i)
    (hk : k ∈ members (cornerSet T W mem i y x)) :
    cornerOf k ∈ cornersAt W i ∧ backX x k + (W - i) ≤ T.dimX ∧ nextX (backX x k) (cornerOf k) = x ∧
      (k < 4 ↔ check (ellN W i y (backX x k) (cornerOf k)) = true) ∧
      scoreOf T W mem i y x = before T W mem i (prevY y (cornerOf k)) (backX x k) + gain T lines check (ellN W i y (backX x k) (cornerOf k)) ∧
      k = (match cornerOf k with
        | .nw => if check (ellN W i y (backX x k) (cornerOf k)) then 0 else 4
        | .ne => if check (ellN W i y (backX x k) (cornerOf k)) then 1 else 5
        | .sw => if check (ellN W i y (backX x k) (cornerOf k)) then 2 else 6
        | .se => if check (ellN W i y (backX x k) (cornerOf k)) then 3 else 7) := by
  obtain ⟨v, a1, _, _, a4⟩ := (h.filled i hi).cell y x hy hx
  rw [mem_cornerSet a1] at hk
  obtain ⟨x0, c, b1, b2, rfl, b4, b5⟩ := a4 k hk.2
  have hk' := noted_bit _ _ k hk.1 b5
  obtain ⟨e1, e2, e3⟩ := bit_back _ _ x0 hk'
  rw [e1, e2]
  refine ⟨b1, b2, rfl, e3, ?_, hk'⟩
  simp only [scoreOf, a1]; exact b4

theorem branch_inflate (hG : WFGraph T nodes edges) (hC : Clean T nodes edges C N E) (hT : Table T C lines) (hF : Fits T W) (h : Done T W lines check W mem)
    {i y x k c : Nat} (hi : i < W) (hy : y < rowsN T i) (hx : x < colsN T W i)
    (hk : k ∈ members (cornerSet T W mem i y x)) (hc : firstBit (BitVec.ofNat 8 c) = .ok k) (emb : List (List Nat)) :
    inflateFirst T lines emb y x i (W - 1 - i) c = .ok (emb ++ slice T W lines i y x k, prevY y (cornerOf k), backX x k) := by
  obtain ⟨h1, h2, h3, h4, _, h6⟩ := branch_ok hF h hi hy hx hk
  have hgrid : (ellN W i y (backX x k) (cornerOf k)).InGrid T := ellN_inGrid hi (by unfold rowsN at hy; omega) h2
  obtain ⟨cs, c1, c2, c3⟩ := inflateEll_ok hG hC hT hgrid
  have hstep := inflateFirst_ok (T := T) (lines := lines) (emb := emb) (y := y) (x0 := backX x k) (h := i) (w := W - 1 - i) (cs := c) (c := cornerOf k)
    (b := check (ellN W i y (backX x k) (cornerOf k))) (by rw [hc]; exact congrArg _ h6)
  have hell : ellAt y (y + i) (backX x k) (backX x k + (W - 1 - i)) (cornerOf k) = ellN W i y (backX x k) (cornerOf k) := by
    unfold ellN; rw [show backX x k + (W - i) - 1 = backX x k + (W - 1 - i) by omega]
  rw [h3] at hstep
  rw [hstep, hell]
  by_cases hk4 : k < 4
  · simp only [h4.1 hk4, if_true, slice, if_pos hk4, c1, List.nil_append, bind, Except.bind]; rfl
  · have hf : check (ellN W i y (backX x k) (cornerOf k)) = false := by
      cases hq : check (ellN W i y (backX x k) (cornerOf k)) with
      | false => rfl
      | true => exact absurd (h4.2 hq) hk4
    simp only [hf, Bool.false_eq_true, if_false, slice, if_neg hk4, List.append_nil, bind, Except.bind, pure, Except.pure]

theorem branch_range (hF : Fits T W) (h : Done T W lines check W mem) {i y x k : Nat} (hi : i + 1 < W) (hy : y < rowsN T (i + 1)) (hx : x < colsN T W (i + 1))
    (hk : k ∈ members (cornerSet T W mem (i + 1) y x)) : prevY y (cornerOf k) < rowsN T i ∧ backX x k < colsN T W i :=
  prev_range hF hi hy (branch_ok hF h hi hy hx hk).2.1

theorem corners_ok (hF : Fits T W) (h : Done T W lines check W mem) {i y x : Nat} (hi : i < W) (hy : y < rowsN T i) (hx : x < colsN T W i) :
    ∃ c, tabCorners mem (tabN T W i) y x = .ok c ∧ c < 256 ∧ c ≠ 0 ∧ BitVec.ofNat 8 c = cornerSet T W mem i y x := by
  obtain ⟨v, a1, _, a3, _⟩ := (h.filled i hi).cell y x hy hx
  have : at_ mem ((tabN T W i).index y x) = .ok v := at_ok a1
  exact ⟨v &&& 255, by simp only [tabCorners, this, bind, Except.bind]; rfl, Nat.lt_succ_of_le Nat.and_le_right, a3, by simp only [cornerSet, a1]⟩

/-- Growing the stack from an entry with a corner left gives the next embedding. -/
theorem growLoop_ok (hG : WFGraph T nodes edges) (hC : Clean T nodes edges C N E) (hT : Table T C lines) (hF : Fits T W) (h : Done T W lines check W mem)
    (b : List (Nat × Nat × Nat)) {l : Nat} {f : Frame} {S : List Frame} {emb : List (List Nat)} (hS : StackOK T W mem emb.length l (f :: S)) (hn : f.n = emb.length) (hc : f.c ≠ 0) {fuel : Nat} (hf : l < fuel) :
    ∃ S' emb' l', growLoop T lines W mem fuel ⟨b, f :: S, emb⟩ = .ok ⟨b, S', emb'⟩ ∧ StackOK T W mem emb'.length l' S' ∧
      pending T W lines mem emb l (f :: S) = emb' :: pending T W lines mem emb' l' S' := by
  induction l generalizing f S emb fuel with
  | zero =>
    obtain ⟨fuel, rfl⟩ : ∃ n, fuel = n + 1 := ⟨fuel - 1, by omega⟩
    obtain ⟨s1, s2, s3, s4, s5, s6⟩ := hS
    have hlen := s6.len
    have h2 := hF.two
    cases hm : members (BitVec.ofNat 8 f.c) with
    | nil => exact absurd ((members_eq_nil_iff s4).1 hm) hc
    | cons k ks =>
      obtain ⟨k1, c', c1, c2, c3⟩ := other_ok s4 hm
      have hk := s5 k (by rw [hm]; exact List.mem_cons_self)
      have hi := branch_inflate hG hC hT hF h (by omega) s2 s3 hk k1 emb
      have hg : growStack T lines W mem ⟨b, f :: S, emb⟩ = .ok (⟨b, { f with c := c' } :: S, emb ++ slice T W lines 0 f.y f.x k⟩, false) := by
        simp only [growStack]
        rw [if_pos (by omega), show W - (S.length + 1) - 1 = 0 by omega, show S.length + 1 = W - 1 - 0 by omega]
        simp only [hi, c1, bind, Except.bind]
        rw [if_neg (by omega)]; rfl
      refine ⟨{ f with c := c' } :: S, emb ++ slice T W lines 0 f.y f.x k, 0, ?_, ?_, ?_⟩
      · simp only [growLoop, hg, bind, Except.bind, Bool.false_eq_true, if_false]; rfl
      · refine ⟨by show f.n ≤ _; rw [List.length_append]; omega, s2, s3, c2, fun j hj => s5 j ?_, s6⟩
        rw [c3] at hj; rw [hm]; exact List.mem_cons_of_mem _ hj
      · have ht : (emb ++ slice T W lines 0 f.y f.x k).take f.n = emb.take f.n := by
          rw [List.take_append_of_le_length (by omega)]
        have he : emb.take f.n = emb := by rw [hn, List.take_length]
        simp only [pending, hm, c3, List.flatMap_cons, List.map_append, ht, allVia, List.map_cons, List.map_nil, List.cons_append, List.nil_append]
        rw [pending_congr s6 (e' := emb ++ slice T W lines 0 f.y f.x k) ht.symm, he]
  | succ l ih =>
    obtain ⟨fuel, rfl⟩ : ∃ n, fuel = n + 1 := ⟨fuel - 1, by omega⟩
    obtain ⟨s1, s2, s3, s4, s5, s6⟩ := hS
    have hlen := s6.len
    have h2 := hF.two
    cases hm : members (BitVec.ofNat 8 f.c) with
    | nil => exact absurd ((members_eq_nil_iff s4).1 hm) hc
    | cons k ks =>
      obtain ⟨k1, c', c1, c2, c3⟩ := other_ok s4 hm
      have hk := s5 k (by rw [hm]; exact List.mem_cons_self)
      have hi := branch_inflate hG hC hT hF h (by omega) s2 s3 hk k1 emb
      obtain ⟨p1, p2⟩ := branch_range hF h (by omega) s2 s3 hk
      obtain ⟨c, d1, d2, d3, d4⟩ := corners_ok hF h (show l < W by omega) p1 p2
      have ht := tabAt_ok hF h.header (show l < W by omega)
      have hg : growStack T lines W mem ⟨b, f :: S, emb⟩ = .ok (⟨b, ⟨(emb ++ slice T W lines (l + 1) f.y f.x k).length, prevY f.y (cornerOf k), backX f.x k, c⟩ :: { f with c := c' } :: S,
          emb ++ slice T W lines (l + 1) f.y f.x k⟩, true) := by
        simp only [growStack]
        rw [if_pos (by omega), show W - (S.length + 1) - 1 = l + 1 by omega, show S.length + 1 = W - 1 - (l + 1) by omega]
        simp only [hi, c1, bind, Except.bind]
        rw [if_pos (by omega), show W - 2 - (W - 1 - (l + 1)) = l by omega]
        simp only [ht, d1]; rfl
      have htake : (emb ++ slice T W lines (l + 1) f.y f.x k).take f.n = emb.take f.n := by
        rw [List.take_append_of_le_length (by omega)]
      have s6' : StackOK T W mem f.n (l + 1 + 1) S := s6
      obtain ⟨S', emb', l', e1, e2, e3⟩ := ih (f := ⟨(emb ++ slice T W lines (l + 1) f.y f.x k).length, prevY f.y (cornerOf k), backX f.x k, c⟩) (S := { f with c := c' } :: S)
        (emb := emb ++ slice T W lines (l + 1) f.y f.x k)
        ⟨Nat.le_refl _, p1, p2, d2, fun j hj => by rw [d4] at hj; exact hj, by show f.n ≤ (emb ++ slice T W lines (l + 1) f.y f.x k).length; rw [List.length_append]; omega, s2, s3, c2, fun j hj => s5 j (by rw [c3] at hj; rw [hm]; exact List.mem_cons_of_mem _ hj), s6'⟩
        rfl d3 (show l < fuel by omega)
      refine ⟨S', emb', l', ?_, e2, ?_⟩
      · simp only [growLoop, hg, bind, Except.bind, if_true]; exact e1
      · rw [← e3]
        have he : emb.take f.n = emb := by rw [hn, List.take_length]
        simp only [pending, hm, c3, List.flatMap_cons, List.map_append, htake, he, allVia, d4, ← allFrom_eq, List.take_length, List.map_map, List.append_assoc]
        rw [pending_congr s6' (e' := emb ++ slice T W lines (l + 1) f.y f.x k) htake.symm]
        congr 1

theorem peel_ok {m l : Nat} {S : List Frame} (h : StackOK T W mem m l S) (emb : List (List Nat)) (hm : m = emb.length) :
    (∃ f S' l', peel emb S = (f :: S', emb.take f.n) ∧ f.c ≠ 0 ∧ StackOK T W mem f.n l' (f :: S') ∧ f.n ≤ emb.length ∧
      pending T W lines mem emb l S = pending T W lines mem (emb.take f.n) l' (f :: S')) ∨
    (peel emb S = ([], emb) ∧ pending T W lines mem emb l S = []) := by
  have key : ∀ (S : List Frame) m l, StackOK T W mem m l S → m ≤ emb.length → 
    (∃ f S' l', peel emb S = (f :: S', emb.take f.n) ∧ f.c ≠ 0 ∧ StackOK T W mem f.n l' (f :: S') ∧ f.n ≤ emb.length ∧
      pending T W lines mem emb l S = pending T W lines mem (emb.take f.n) l' (f :: S')) ∨
    (peel emb S = ([], emb) ∧ pending T W lines mem emb l S = []) := by
    intro S
    induction S with
    | nil => intro m l _ _; exact .inr ⟨rfl, rfl⟩
    | cons f S ih =>
      intro m l h hm
      by_cases hc : f.c = 0
      · have hp : peel emb (f :: S) = peel emb S := by simp [peel, hc]
        have hq : pending T W lines mem emb l (f :: S) = pending T W lines mem emb (l + 1) S := by
          simp only [pending, (members_eq_nil_iff h.2.2.2.1).2 hc, List.flatMap_nil, List.map_nil, List.nil_append]
        rw [hp, hq]
        exact ih _ _ h.2.2.2.2.2 (Nat.le_trans h.1 hm)
      · left
        have h' : StackOK T W mem f.n l (f :: S) := ⟨Nat.le_refl _, h.2⟩
        exact ⟨f, S, l, by simp [peel, hc], hc, h', Nat.le_trans h.1 hm, pending_congr h' (by rw [List.take_take, Nat.min_self])⟩
  exact key S m l h (by omega)

/-- What is still to come. -/
def toCome (T : Topo) (W : Nat) (lines : List Byte) (mem : List Nat) (I : Iter) : List (List (List Nat)) :=
  pending T W lines mem I.emb (W - 1 - I.stack.length) I.stack ++ pendingBase T W lines mem I.base

/-- States of an iterator. -/
structure IterOK (T : Topo) (W : Nat) (mem : List Nat) (I : Iter) : Prop where
  stack : StackOK T W mem I.emb.length (W - 1 - I.stack.length) I.stack
  base : BaseOK T W mem I.base

theorem advance_ok (hG : WFGraph T nodes edges) (hC : Clean T nodes edges C N E) (hT : Table T C lines) (hF : Fits T W) (h : Done T W lines check W mem)
    {I : Iter} (hI : IterOK T W mem I) :
    ∃ I', advance T lines W mem I = .ok I' ∧ IterOK T W mem I' ∧
      ((toCome T W lines mem I = [] ∧ toCome T W lines mem I' = [] ∧ I'.emb = []) ∨ toCome T W lines mem I = I'.emb :: toCome T W lines mem I') := by
  have h2 := hF.two
  rcases peel_ok (lines := lines) hI.stack I.emb rfl with ⟨f, S', l', a1, a2, a3, a4, a5⟩ | ⟨a1, a2⟩
  · have hlen : (I.emb.take f.n).length = f.n := by rw [List.length_take]; omega
    have hl := a3.len
    obtain ⟨S2, e2, l2, b1, b2, b3⟩ := growLoop_ok hG hC hT hF h I.base (l := l') (f := f) (S := S') (emb := I.emb.take f.n) (by rw [hlen]; exact a3) hlen.symm a2 (fuel := W + 1) (by omega)
    have hl2 := b2.len
    refine ⟨⟨I.base, S2, e2⟩, ?_, ⟨by show StackOK T W mem e2.length (W - 1 - S2.length) S2; rw [show W - 1 - S2.length = l2 by omega]; exact b2, hI.base⟩, .inr ?_⟩
    · simp only [advance, a1, List.cons_ne_nil, if_false]; exact b1
    · simp only [toCome]
      rw [a5, b3, show W - 1 - S2.length = l2 by omega, List.cons_append]
  · cases hb : I.base with
    | nil =>
      refine ⟨⟨[], [], []⟩, ?_, ⟨by simp [StackOK], by simp [BaseOK]⟩, .inl ⟨?_, rfl, rfl⟩⟩
      · simp only [advance, a1, if_true, hb, growLoop, growStack, bind, Except.bind, pure, Except.pure, Bool.false_eq_true, if_false]
      · simp only [toCome, a2, hb]; rfl
    | cons p b =>
      obtain ⟨y, x, c⟩ := p
      have hB := hI.base
      rw [hb] at hB
      obtain ⟨p1, p2, p3, p4⟩ := hB _ List.mem_cons_self
      dsimp only at p1 p2 p3 p4
      have hB' : BaseOK T W mem b := fun q hq => hB q (List.mem_cons_of_mem _ hq)
      cases hm : members (BitVec.ofNat 8 c) with
      | nil =>
        obtain ⟨c', _, q2, q3, q4⟩ := corners_ok hF h (show W - 1 < W by omega) p1 p2
        rw [← p4] at q4
        rw [← q4] at hm
        exact absurd ((members_eq_nil_iff q2).1 hm) q3
      | cons k ks =>
        obtain ⟨k1, _⟩ := other_ok p3 hm
        have hk : k ∈ members (cornerSet T W mem (W - 1) y x) := by rw [← p4, hm]; exact List.mem_cons_self
        have hi := branch_inflate hG hC hT hF h (show W - 1 < W by omega) p1 p2 hk k1 []
        rw [show W - 1 - (W - 1) = 0 by omega, List.nil_append] at hi
        obtain ⟨n, rfl⟩ : ∃ n, W = n + 2 := ⟨W - 2, by omega⟩
        obtain ⟨r1, r2⟩ := branch_range hF h (i := n) (by omega) p1 p2 hk
        obtain ⟨c2, d1, d2, d3, d4⟩ := corners_ok hF h (show n < n + 2 by omega) r1 r2
        have ht := tabBefore_ok hF h.header (show n < n + 2 by omega)
        obtain ⟨S2, e2, l2, b1, b2, b3⟩ := growLoop_ok hG hC hT hF h b (l := n)
          (f := ⟨(slice T (n + 2) lines (n + 2 - 1) y x k).length, prevY y (cornerOf k), backX x k, c2⟩) (S := []) (emb := slice T (n + 2) lines (n + 2 - 1) y x k)
          ⟨Nat.le_refl _, r1, r2, d2, fun j hj => by rw [d4] at hj; exact hj, rfl⟩ rfl d3 (fuel := n + 2) (by omega)
        have hl2 := b2.len
        refine ⟨⟨b, S2, e2⟩, ?_, ⟨by show StackOK T (n + 2) mem e2.length (n + 2 - 1 - S2.length) S2; rw [show n + 2 - 1 - S2.length = l2 by omega]; exact b2, hB'⟩, .inr ?_⟩
        · simp only [advance, a1, if_true, hb]
          rw [show n + 2 + 1 = (n + 2) + 1 from rfl, growLoop]
          simp only [growStack, hi, ht, d1, bind, Except.bind, pure, Except.pure, if_true]
          exact b1
        · simp only [toCome]
          rw [a2, hb, show n + 2 - 1 - S2.length = l2 by omega, ← List.cons_append, ← b3]
          simp only [pending, pendingBase, List.flatMap_cons, hm, List.take_succ_cons, List.take_zero, List.flatMap_nil, List.append_nil, d4, ← allFrom_eq, List.take_length, allVia, List.nil_append]
          rfl

/-- The results of all calls. -/
theorem calls_ok (hG : WFGraph T nodes edges) (hC : Clean T nodes edges C N E) (hT : Table T C lines) (hF : Fits T W) (h : Done T W lines check W mem)
    (n : Nat) {I : Iter} (hI : IterOK T W mem I) :
    iterCalls T lines W mem n I = .ok (((toCome T W lines mem I).map fun e => if e = [] then none else some e) ++ List.replicate n none |>.take n) := by
  induction n generalizing I with
  | zero => simp [iterCalls]; rfl
  | succ n ih =>
    obtain ⟨I', a1, a2, a3⟩ := advance_ok hG hC hT hF h hI
    have hi := ih a2
    simp only [iterCalls, iterNext, a1, hi, bind, Except.bind, pure, Except.pure]
    rcases a3 with ⟨b1, b2, b3⟩ | b1
    · rw [b1, b2, b3]
      simp [List.replicate_succ]
    · rw [b1]
      simp only [List.map_cons, List.cons_append, List.take_succ_cons]
      congr 2
      rw [List.replicate_succ', ← List.append_assoc]
      exact (List.take_append_of_le_length (by rw [List.length_append, List.length_replicate]; omega)).symm

end
end Bus
end MM
