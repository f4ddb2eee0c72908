import Verif.Core.SearchInv
import Verif.Core.RunPost
import Verif.Core.Undo

/-! The distances of a search are those of shortest paths. -/

namespace MM

namespace D

/-- `≤` on distances. -/
def le (a b : D) : Prop := lt b a = false

theorem le_refl (a : D) : le a a := lt_irrefl a

theorem le_none (a : D) : le a none := by cases a <;> rfl

theorem le_trans {a b c : D} (h : le a b) (k : le b c) : le a c := by
  unfold le at *; cases a <;> cases b <;> cases c <;> simp_all [lt]; omega

theorem zero_le (a : D) : le (some 0) a := by cases a <;> simp [le, lt]

theorem le_add (a b : D) : le a (add a b) := by cases a <;> cases b <;> simp [le, lt, add]

theorem add_mono {a b : D} (h : le a b) (c : D) : le (add a c) (add b c) := by
  unfold le at *; cases a <;> cases b <;> cases c <;> simp_all [lt, add]

theorem none_le {a : D} (h : le none a) : a = none := by cases a <;> simp_all [le, lt]

end D

namespace Spec

/-- Paths that leave a set `T` of qubits, and what they cost: every qubit entered costs its
weight; `ok q p` says that the step from `q` to `p` is allowed. -/
inductive PathCost (adj : Nat → Nat → Prop) (T : Nat → Prop) (ok : Nat → Nat → Prop) (w : Nat → D) :
    Nat → D → Prop
  | start {p} : T p → PathCost adj T ok w p (some 0)
  | step {q p c} : PathCost adj T ok w q c → adj q p → ok q p → PathCost adj T ok w p (D.add c (w p))

/-- The path found by following `par` from a qubit to `T`, and what it costs. -/
inductive Follows (adj : Nat → Nat → Prop) (T : Nat → Prop) (ok : Nat → Nat → Prop) (w : Nat → D)
    (par : Nat → Option Nat) : Nat → D → Prop
  | base {p} : T p → par p = none → Follows adj T ok w par p (some 0)
  | step {q p c} : ¬ T p → par p = some q → adj q p → ok q p → Follows adj T ok w par q c →
      Follows adj T ok w par p (D.add c (w p))

theorem Follows.path {adj : Nat → Nat → Prop} {T : Nat → Prop} {ok : Nat → Nat → Prop} {w : Nat → D}
    {par : Nat → Option Nat} {p : Nat} {c : D} (h : Follows adj T ok w par p c) : PathCost adj T ok w p c := by
  induction h with
  | base h _ => exact .start h
  | step _ _ ha ho _ ih => exact .step ih ha ho

end Spec

open Spec (PathCost Follows)

/-- Parents of labelled qubits stay. -/
theorem Follows.keep {adj : Nat → Nat → Prop} {T : Nat → Prop} {ok : Nat → Nat → Prop} {w : Nat → D}
    {par par' : Nat → Option Nat} {K : Nat → Prop} {p : Nat} {c : D} (h : Follows adj T ok w par p c)
    (hK : K p) (hcl : ∀ p q, K p → ¬ T p → par p = some q → K q) (hpar : ∀ p, K p → par' p = par p) :
    Follows adj T ok w par' p c := by
  induction h with
  | base hT hn => exact .base hT (by rw [hpar _ hK]; exact hn)
  | step hT hp ha ho _ ih =>
    exact .step hT (by rw [hpar _ hK]; exact hp) ha ho (ih (hcl _ _ hK hT hp))

section

variable {P : Prob} {T : Nat → Prop} {vis0 : Nat → Int} {full : Nat → Bool} {qw : Nat → D} {fx : Bool}

/-- The steps of a search: into a free qubit that one of the two variables may use, and that
is not full; next to a fixed chain fullness is not looked at. -/
def StepOK (P : Prob) (T : Nat → Prop) (vis0 : Nat → Int) (full : Nat → Bool) (fx : Bool) (q p : Nat) : Prop :=
  p < P.nq ∧ vis0 p = 0 ∧ (full p = false ∨ fx = true ∧ T q)

def Adj (P : Prob) (q p : Nat) : Prop := p ∈ P.qn q

/-- Queued, or taken from the queue. -/
def Lab (F : Front) (dn : Nat → Prop) (p : Nat) : Prop := dn p ∨ p ∈ F.pq.items.map Item.node

/-- Invariant of the distance computation: `lab` is the distance a qubit was queued with,
`dn` marks those taken from the queue, `L` is the last distance taken, `N` lists the neighbours
looked at. -/
structure DInv (P : Prob) (T : Nat → Prop) (vis0 : Nat → Int) (full : Nat → Bool) (fx : Bool) (qw : Nat → D)
    (N : Nat → List Nat) (F : Front) (dist : Nat → D) (lab : Nat → D) (dn : Nat → Prop) (L : D) : Prop where
  inv : F.pq.Inv
  nodup : (F.pq.items.map Item.node).Nodup
  item : ∀ x ∈ F.pq.items, x.node < P.nq ∧ F.vis x.node = 1 ∧ lab x.node = x.dist ∧ ¬ dn x.node ∧ D.le L x.dist
  done : ∀ p, dn p → p < P.nq ∧ F.vis p = 1 ∧ dist p = lab p
  vis : ∀ p, F.vis p = vis0 p ∨ F.vis p = 1
  seen : ∀ p, p < P.nq → F.vis p = 1 → Lab F dn p ∨ (full p = true ∧ dist p = none)
  path : ∀ p, Lab F dn p → Follows (Adj P) T (StepOK P T vis0 full fx) qw F.par p (lab p)
  par : ∀ p, Lab F dn p → T p ∨ ∃ q, F.par p = some q ∧ (dn q ∨ fx = true ∧ T q)
  low : ∀ p, Lab F dn p → D.le (lab p) (D.add L (qw p))
  closed : ∀ z p, dn z → p ∈ N z → vis0 p = 0 →
    F.vis p = 1 ∧ (full p = false → Lab F dn p ∧ D.le (lab p) (D.add (lab z) (qw p)))

/-- Labels stay. -/
def Stays (F : Front) (lab : Nat → D) (dn : Nat → Prop) (F' : Front) (lab' : Nat → D) (dn' : Nat → Prop) : Prop :=
  ∀ p, Lab F dn p → Lab F' dn' p ∧ lab' p = lab p

variable {N : Nat → List Nat} {F : Front} {dist lab : Nat → D} {dn : Nat → Prop} {L : D}

theorem DInv.lab_vis (h : DInv P T vis0 full fx qw N F dist lab dn L) {p : Nat} (hp : Lab F dn p) :
    p < P.nq ∧ F.vis p = 1 := by
  rcases hp with hp | hp
  · exact ⟨(h.done p hp).1, (h.done p hp).2.1⟩
  · obtain ⟨x, hx, rfl⟩ := List.mem_map.1 hp
    exact ⟨(h.item x hx).1, (h.item x hx).2.1⟩

theorem DInv.keepPath (h : DInv P T vis0 full fx qw N F dist lab dn L) (hfx : fx = true → ∀ q, T q → P.nq ≤ q)
    {p : Nat} (hp : p < P.nq) (hv : F.vis p ≠ 1) {par' : Nat → Option Nat} (hpar : ∀ i, i ≠ p → par' i = F.par i)
    {i : Nat} (hi : Lab F dn i) : Follows (Adj P) T (StepOK P T vis0 full fx) qw par' i (lab i) := by
  have hnp : ∀ i, Lab F dn i → i ≠ p := by
    rintro i hi rfl; exact hv (h.lab_vis hi).2
  refine Follows.keep (K := fun i => Lab F dn i ∨ fx = true ∧ T i) (h.path i hi) (Or.inl hi) ?_ ?_
  · rintro a b (ha | ha) hT hab
    · rcases h.par a ha with k | ⟨q, k1, k2⟩
      · exact absurd k hT
      · rw [hab] at k1; cases k1
        exact k2.imp Or.inl id
    · exact absurd ha.2 hT
  · rintro a (ha | ha)
    · exact hpar _ (hnp a ha)
    · refine hpar _ ?_
      rintro rfl
      have := hfx ha.1 _ ha.2
      omega

theorem post_emplace {q q' : PQ} (hq : q.Inv) {x : Item} (h : q.emplace x = .ok q') :
    q'.Inv ∧ q'.items.Perm (x :: q.items) := by
  have hc : q.count < q.cap := by
    by_contra hc
    simp [PQ.emplace, hc] at h
  obtain ⟨q'', h1, h2, h3, _⟩ := PQ.emplace_spec hq (x := x) hc
  rw [h] at h1; cases h1; exact ⟨h2, h3⟩

/-- Queueing a qubit. -/
theorem DInv.push (h : DInv P T vis0 full fx qw N F dist lab dn L) (hfx : fx = true → ∀ q, T q → P.nq ≤ q)
    {p dirt : Nat} {d : D} {po : Option Nat} {pq : PQ}
    (he : F.pq.emplace ⟨p, dirt, d⟩ = .ok pq) (hp : p < P.nq) (hv : F.vis p ≠ 1) (hL : D.le L d)
    (hlow : D.le d (D.add L (qw p)))
    (hpath : ∀ par', (∀ i, i ≠ p → par' i = F.par i) → par' p = po →
      Follows (Adj P) T (StepOK P T vis0 full fx) qw par' p d)
    (hpar : T p ∨ ∃ q, po = some q ∧ (dn q ∨ fx = true ∧ T q)) :
    DInv P T vis0 full fx qw N ⟨upd F.par p po, upd F.vis p 1, pq⟩ dist (upd lab p d) dn L ∧
      Stays F lab dn ⟨upd F.par p po, upd F.vis p 1, pq⟩ (upd lab p d) dn ∧
      Lab ⟨upd F.par p po, upd F.vis p 1, pq⟩ dn p := by
  obtain ⟨e1, e2⟩ := post_emplace h.inv he
  have hm : ∀ i, i ∈ pq.items.map Item.node ↔ i = p ∨ i ∈ F.pq.items.map Item.node := by
    intro i; rw [(e2.map Item.node).mem_iff]; simp
  have hl : ∀ i, Lab ⟨upd F.par p po, upd F.vis p 1, pq⟩ dn i ↔ i = p ∨ Lab F dn i := by
    intro i; unfold Lab; rw [hm]; constructor
    · rintro (h | h | h)
      · exact Or.inr (Or.inl h)
      · exact Or.inl h
      · exact Or.inr (Or.inr h)
    · rintro (h | h | h)
      · exact Or.inr (Or.inl h)
      · exact Or.inl h
      · exact Or.inr (Or.inr h)
  have hnp : ∀ i, Lab F dn i → i ≠ p := by
    rintro i hi rfl; exact hv (h.lab_vis hi).2
  have hst : Stays F lab dn ⟨upd F.par p po, upd F.vis p 1, pq⟩ (upd lab p d) dn :=
    fun i hi => ⟨(hl i).2 (Or.inr hi), upd_ne _ _ (hnp i hi)⟩
  refine ⟨⟨e1, ?_, ?_, ?_, ?_, ?_, ?_, ?_, ?_, ?_⟩, hst, (hl p).2 (Or.inl rfl)⟩
  · dsimp only
    rw [(e2.map Item.node).nodup_iff]
    simp only [List.map_cons, List.nodup_cons]
    exact ⟨fun hc => hnp p (Or.inr hc) rfl, h.nodup⟩
  · intro x hx
    dsimp only at hx
    rcases List.mem_cons.1 (e2.mem_iff.1 hx) with rfl | hx
    · refine ⟨hp, by simp, by simp, ?_, hL⟩
      intro hc; exact hnp p (Or.inl hc) rfl
    · obtain ⟨a, b, c, d', e⟩ := h.item x hx
      have := hnp x.node (Or.inr (List.mem_map.2 ⟨x, hx, rfl⟩))
      dsimp only
      rw [upd_ne _ _ this, upd_ne _ _ this]
      exact ⟨a, b, c, d', e⟩
  · intro i hi
    have := hnp i (Or.inl hi)
    dsimp only
    rw [upd_ne _ _ this, upd_ne _ _ this]
    exact h.done i hi
  · intro i
    dsimp only
    by_cases hip : i = p
    · subst hip; simp
    · rw [upd_ne _ _ hip]; exact h.vis i
  · intro i hi hvi
    by_cases hip : i = p
    · exact Or.inl ((hl i).2 (Or.inl hip))
    · dsimp only at hvi
      rw [upd_ne _ _ hip] at hvi
      exact (h.seen i hi hvi).imp (fun k => (hl i).2 (Or.inr k)) id
  · intro i hi
    rcases (hl i).1 hi with rfl | hi
    · rw [upd_same]
      exact hpath _ (fun j hj => upd_ne _ _ hj) (upd_same _ _ _)
    · rw [upd_ne _ _ (hnp i hi)]
      exact h.keepPath hfx hp hv (fun j hj => upd_ne _ _ hj) hi
  · intro i hi
    rcases (hl i).1 hi with rfl | hi
    · dsimp only; rw [upd_same]; exact hpar
    · dsimp only; rw [upd_ne _ _ (hnp i hi)]; exact h.par i hi
  · intro i hi
    rcases (hl i).1 hi with rfl | hi
    · rw [upd_same]; exact hlow
    · rw [upd_ne _ _ (hnp i hi)]; exact h.low i hi
  · intro z i hz hi h0
    obtain ⟨a, b⟩ := h.closed z i hz hi h0
    have hip : i ≠ p := by rintro rfl; exact hv a
    dsimp only
    rw [upd_ne _ _ hip, upd_ne _ _ hip, upd_ne _ _ (hnp z (Or.inl hz))]
    exact ⟨a, fun k => ⟨(hl i).2 (Or.inr (b k).1), (b k).2⟩⟩

/-- Marking a full qubit. -/
theorem DInv.block (h : DInv P T vis0 full fx qw N F dist lab dn L) {p : Nat}
    (hv : F.vis p ≠ 1) (hf : full p = true) :
    DInv P T vis0 full fx qw N { F with vis := upd F.vis p 1 } (upd dist p none) lab dn L := by
  have hnp : ∀ i, Lab F dn i → i ≠ p := by
    rintro i hi rfl; exact hv (h.lab_vis hi).2
  refine ⟨h.inv, h.nodup, ?_, ?_, ?_, ?_, h.path, h.par, h.low, ?_⟩
  · intro x hx
    have := hnp x.node (Or.inr (List.mem_map.2 ⟨x, hx, rfl⟩))
    dsimp only
    rw [upd_ne _ _ this]
    exact h.item x hx
  · intro i hi
    have := hnp i (Or.inl hi)
    dsimp only
    rw [upd_ne _ _ this, upd_ne _ _ this]
    exact h.done i hi
  · intro i
    dsimp only
    by_cases hip : i = p
    · subst hip; simp
    · rw [upd_ne _ _ hip]; exact h.vis i
  · intro i hi hvi
    by_cases hip : i = p
    · subst hip; exact Or.inr ⟨hf, upd_same _ _ _⟩
    · dsimp only at hvi
      rw [upd_ne _ _ hip] at hvi
      rw [upd_ne _ _ hip]
      exact h.seen i hi hvi
  · intro z i hz hi h0
    obtain ⟨a, b⟩ := h.closed z i hz hi h0
    have hip : i ≠ p := by rintro rfl; exact hv a
    dsimp only
    rw [upd_ne _ _ hip]
    exact ⟨a, b⟩

/-- A neighbour was looked at. -/
theorem DInv.look (h : DInv P T vis0 full fx qw N F dist lab dn L) {z p : Nat} {l : List Nat} (hp : p < P.nq)
    (hN : N z = l) (hz : lab z = L) (hv : F.vis p ≠ 0) :
    DInv P T vis0 full fx qw (upd N z (l ++ [p])) F dist lab dn L := by
  refine ⟨h.inv, h.nodup, h.item, h.done, h.vis, h.seen, h.path, h.par, h.low, ?_⟩
  intro z' i hz' hi h0
  by_cases hzz : z' = z
  · subst hzz
    rw [upd_same] at hi
    rcases List.mem_append.1 hi with hi | hi
    · exact h.closed z' i hz' (hN ▸ hi) h0
    · rw [List.mem_singleton] at hi
      subst hi
      have hv1 : F.vis i = 1 := (h.vis i).resolve_left (fun hc => hv (hc.trans h0))
      refine ⟨hv1, fun hf => ?_⟩
      have hl : Lab F dn i := (h.seen i hp hv1).resolve_right (fun hc => by rw [hf] at hc; simp at hc)
      refine ⟨hl, ?_⟩
      rw [hz]; exact h.low i hl
  · rw [upd_ne _ _ hzz] at hi
    exact h.closed z' i hz' hi h0

theorem DInv.congrN {N' : Nat → List Nat} (h : DInv P T vis0 full fx qw N F dist lab dn L)
    (hN : ∀ z, dn z → ∀ p ∈ N' z, p ∈ N z) : DInv P T vis0 full fx qw N' F dist lab dn L :=
  ⟨h.inv, h.nodup, h.item, h.done, h.vis, h.seen, h.path, h.par, h.low,
    fun z p hz hp => h.closed z p hz (hN z hz p hp)⟩

/-- Taking the top of the queue. -/
theorem DInv.pop (h : DInv P T vis0 full fx qw N F dist lab dn L) {z : Item} {pq : PQ}
    (ht : F.pq.top = .ok z) (hp : F.pq.pop = .ok pq) :
    DInv P T vis0 full fx qw (upd N z.node []) { F with pq := pq } (upd dist z.node z.dist) lab
      (fun p => dn p ∨ p = z.node) z.dist ∧ z.node < P.nq ∧ lab z.node = z.dist ∧
    Stays F lab dn { F with pq := pq } lab (fun p => dn p ∨ p = z.node) := by
  have hne : F.pq.isEmpty = false := by
    unfold PQ.isEmpty
    unfold PQ.top at ht
    cases hr : F.pq.root with
    | nil => rw [hr] at ht; cases ht
    | node => rfl
  obtain ⟨z', pq', t1, t2, i1, i2, i3, _⟩ := PQ.pop_spec h.inv hne
  rw [ht] at t1; cases t1
  rw [hp] at t2; cases t2
  have hz : z ∈ F.pq.items := i2.mem_iff.2 (by simp)
  obtain ⟨z1, z2, z3, z4, z5⟩ := h.item z hz
  have hl : ∀ i, Lab { F with pq := pq } (fun p => dn p ∨ p = z.node) i ↔ Lab F dn i := by
    intro i
    unfold Lab
    rw [(i2.map Item.node).mem_iff]
    simp only [List.map_cons, List.mem_cons]
    constructor
    · rintro ((h | h) | h)
      · exact Or.inl h
      · exact Or.inr (Or.inl h)
      · exact Or.inr (Or.inr h)
    · rintro (h | h | h)
      · exact Or.inl (Or.inl h)
      · exact Or.inl (Or.inr h)
      · exact Or.inr h
  have hnd := ((i2.map Item.node).nodup_iff).1 h.nodup
  simp only [List.map_cons, List.nodup_cons] at hnd
  refine ⟨⟨i1, hnd.2, ?_, ?_, h.vis, ?_, ?_, ?_, ?_, ?_⟩, z1, z3, fun p hp => ⟨(hl p).2 hp, rfl⟩⟩
  · intro x hx
    have hx' : x ∈ F.pq.items := i2.mem_iff.2 (List.mem_cons_of_mem _ hx)
    obtain ⟨a, b, c, d, e⟩ := h.item x hx'
    refine ⟨a, b, c, ?_, ?_⟩
    · rintro (k | k)
      · exact d k
      · exact hnd.1 (k ▸ List.mem_map.2 ⟨x, hx, rfl⟩)
    · have := i3 x hx'
      unfold Item.le at this
      unfold D.le
      by_contra hc
      simp only [Bool.not_eq_false] at hc
      have : Item.less z x = true := by unfold Item.less; simp [hc]
      simp_all
  · intro p hp
    by_cases hpz : p = z.node
    · subst hpz
      exact ⟨z1, z2, by rw [upd_same, z3]⟩
    · rw [upd_ne _ _ hpz]
      exact h.done p (hp.resolve_right hpz)
  · intro p hp hv
    rcases h.seen p hp hv with k | ⟨k1, k2⟩
    · exact Or.inl ((hl p).2 k)
    · by_cases hpz : p = z.node
      · exact Or.inl (Or.inl (Or.inr hpz))
      · exact Or.inr ⟨k1, by rw [upd_ne _ _ hpz]; exact k2⟩
  · intro p hp; exact h.path p ((hl p).1 hp)
  · intro p hp
    rcases h.par p ((hl p).1 hp) with k | ⟨q, k1, k2⟩
    · exact Or.inl k
    · exact Or.inr ⟨q, k1, k2.imp Or.inl id⟩
  · intro p hp
    exact D.le_trans (h.low p ((hl p).1 hp)) (D.add_mono z5 _)
  · intro a p ha hp h0
    by_cases haz : a = z.node
    · subst haz; rw [upd_same] at hp; simp at hp
    · rw [upd_ne _ _ haz] at hp
      obtain ⟨k1, k2⟩ := h.closed a p (ha.resolve_right haz) hp h0
      exact ⟨k1, fun hf => ⟨(hl p).2 (k2 hf).1, (k2 hf).2⟩⟩

theorem Stays.refl : Stays F lab dn F lab dn := fun _ h => ⟨h, rfl⟩

theorem Stays.trans {F1 F2 F3 : Front} {lab1 lab2 lab3 : Nat → D} {dn1 dn2 dn3 : Nat → Prop}
    (h : Stays F1 lab1 dn1 F2 lab2 dn2) (k : Stays F2 lab2 dn2 F3 lab3 dn3) : Stays F1 lab1 dn1 F3 lab3 dn3 :=
  fun p hp => ⟨(k p (h p hp).1).1, (k p (h p hp).1).2.trans (h p hp).2⟩

theorem expand_dinv (hfx : fx = true → ∀ q, T q → P.nq ≤ q) {perm : Nat → Nat} {z : Item} {F' : Front}
    {dist' : Nat → D} (h : DInv P T vis0 full fx qw (upd N z.node []) F dist lab dn z.dist) (hz : dn z.node)
    (hzl : lab z.node = z.dist) (hTl : fx = false → ∀ q, T q → Lab F dn q)
    (hr : Front.expand P perm full qw z F dist = .ok (F', dist')) :
    ∃ lab', DInv P T vis0 full fx qw (upd N z.node (P.qn z.node)) F' dist' lab' dn z.dist ∧
      Stays F lab dn F' lab' dn := by
  unfold Front.expand at hr
  refine fold_inv hr (I := fun seen (r : Front × (Nat → D)) =>
    ∃ lab', DInv P T vis0 full fx qw (upd N z.node seen) r.1 r.2 lab' dn z.dist ∧ Stays F lab dn r.1 lab' dn) ?_ ?_
  · exact ⟨lab, h, Stays.refl⟩
  rintro seen p ⟨F1, d1⟩ ⟨F2, d2⟩ ⟨rest, hl⟩ ⟨lab1, i1, i2⟩ hf
  dsimp only at *
  have hzl1 : lab1 z.node = z.dist := (i2 _ (Or.inl hz)).2.trans hzl
  have hmem : p ∈ P.qn z.node := by rw [hl]; simp
  have look : ∀ {F3 : Front} {d3 lab3 : Nat → D}, DInv P T vis0 full fx qw (upd N z.node seen) F3 d3 lab3 dn z.dist →
      lab3 z.node = z.dist → p < P.nq → F3.vis p ≠ 0 →
      DInv P T vis0 full fx qw (upd N z.node (seen ++ [p])) F3 d3 lab3 dn z.dist := by
    intro F3 d3 lab3 k1 k2 k3 k4
    refine (k1.look (z := z.node) (l := seen) k3 (upd_same _ _ _) k2 k4).congrN ?_
    intro a _ b hb
    by_cases haz : a = z.node
    · subst haz; simpa using hb
    · rw [upd_ne _ _ haz] at hb ⊢
      rw [upd_ne _ _ haz]; exact hb
  by_cases hp : p < P.nq
  · rw [if_pos hp] at hf
    by_cases hv : F1.vis p ≠ 0
    · rw [if_pos hv] at hf
      cases hf
      exact ⟨lab1, look i1 hzl1 hp hv, i2⟩
    · rw [if_neg hv] at hf
      have hv : F1.vis p = 0 := by simpa using hv
      simp only [Front.setVis, if_pos hp, bind, Except.bind] at hf
      by_cases hfu : full p = true
      · rw [if_pos hfu] at hf
        cases hf
        refine ⟨lab1, look (i1.block (by omega) hfu) hzl1 hp (by simp), i2⟩
      · rw [if_neg hfu] at hf
        simp only [Front.push, if_pos hp, bind, Except.bind] at hf
        cases he : F1.pq.emplace ⟨p, perm p, D.add z.dist (qw p)⟩ with
        | error e => rw [he] at hf; cases hf
        | ok pq =>
          rw [he] at hf
          cases hf
          have h0 : vis0 p = 0 := by
            rcases i1.vis p with k | k
            · rw [← k]; exact hv
            · omega
          have hpT : ¬ T p := by
            intro hc
            cases hb : fx with
            | true => have := hfx hb p hc; omega
            | false =>
              have := (i1.lab_vis (i2 p (hTl hb p hc)).1).2
              omega
          obtain ⟨k1, k2, _⟩ := i1.push hfx (po := some z.node) he hp (by omega) (D.le_add _ _) (D.le_refl _)
            (by
              intro par' h1 h2
              refine .step hpT h2 hmem ⟨hp, h0, Or.inl (by simpa using hfu)⟩ ?_
              rw [← hzl1]
              exact i1.keepPath hfx hp (by omega) h1 (Or.inl hz))
            (Or.inr ⟨z.node, rfl, Or.inl hz⟩)
          refine ⟨_, look k1 ?_ hp (by simp), i2.trans k2⟩
          rw [(k2 z.node (Or.inl hz)).2]; exact hzl1
  · rw [if_neg hp] at hf; cases hf

/-- The whole computation. -/
theorem run_dinv (hfx : fx = true → ∀ q, T q → P.nq ≤ q) {perm : Nat → Nat} : ∀ (fuel : Nat) {F : Front}
    {dist lab : Nat → D} {dn : Nat → Prop} {L : D} {r : Front × (Nat → D)},
    DInv P T vis0 full fx qw P.qn F dist lab dn L → (fx = false → ∀ q, T q → Lab F dn q) →
    Front.run P perm full qw fuel F dist = .ok r →
    ∃ lab' dn' L', DInv P T vis0 full fx qw P.qn r.1 r.2 lab' dn' L' ∧ Stays F lab dn r.1 lab' dn' ∧
      r.1.pq.items = []
  | 0, _, _, _, _, _, _, _, _, hr => by cases hr
  | fuel+1, F, dist, lab, dn, L, r, h, hTl, hr => by
    unfold Front.run at hr
    by_cases he : F.pq.isEmpty = true
    · rw [if_pos he] at hr
      cases hr
      exact ⟨lab, dn, L, h, Stays.refl, PQ.isEmpty_iff.1 he⟩
    · rw [if_neg he] at hr
      cases ht : F.pq.top with
      | error e => rw [ht] at hr; cases hr
      | ok z =>
        cases hp : F.pq.pop with
        | error e => rw [ht, hp] at hr; cases hr
        | ok pq =>
          rw [ht, hp] at hr
          dsimp only [bind, Except.bind] at hr
          obtain ⟨k1, k2, k3, k4⟩ := h.pop ht hp
          cases hx : Front.expand P perm full qw z { F with pq := pq } (upd dist z.node z.dist) with
          | error e => rw [hx] at hr; cases hr
          | ok s =>
            obtain ⟨F1, d1⟩ := s
            rw [hx] at hr
            dsimp only at hr
            obtain ⟨lab1, m1, m2⟩ := expand_dinv hfx k1 (Or.inr rfl) k3
              (fun hb q hq => (k4 q (hTl hb q hq)).1) hx
            have m1' : DInv P T vis0 full fx qw P.qn F1 d1 lab1 (fun p => dn p ∨ p = z.node) z.dist := by
              refine m1.congrN ?_
              intro a _ b hb
              by_cases haz : a = z.node
              · subst haz; simpa using hb
              · rw [upd_ne _ _ haz]; exact hb
            obtain ⟨lab2, dn2, L2, n1, n2, n3⟩ := run_dinv hfx fuel m1'
              (fun hb q hq => (m2 q (k4 q (hTl hb q hq)).1).1) hr
            exact ⟨lab2, dn2, L2, n1, k4.trans (m2.trans n2), n3⟩

theorem D.le_add_right (a b : D) : D.le b (D.add a b) := by
  cases a <;> cases b <;> simp [D.le, D.lt, D.add]

theorem D.zero_add (a : D) : D.add (some 0) a = a := by cases a <;> simp [D.add]

/-- When the queue is empty, the distances are those of shortest paths. -/
theorem DInv.final (h : DInv P T vis0 full fx qw P.qn F dist lab dn L) (he : F.pq.items = [])
    (hfree : fx = false → ∀ q, T q → Lab F dn q ∧ lab q = some 0)
    (hfixd : fx = true → ∀ q, T q → P.nq ≤ q ∧ ∀ p ∈ P.qn q, vis0 p = 0 → Lab F dn p ∧ D.le (lab p) (qw p))
    {p : Nat} (hp : p < P.nq) :
    (∀ c, PathCost (Adj P) T (StepOK P T vis0 full fx) qw p c → D.le (if F.vis p = 1 then dist p else none) c) ∧
    ((if F.vis p = 1 then dist p else none) ≠ none →
      Follows (Adj P) T (StepOK P T vis0 full fx) qw F.par p (if F.vis p = 1 then dist p else none)) := by
  have hlab : ∀ i, Lab F dn i ↔ dn i := by
    intro i; unfold Lab; rw [he]; simp
  have key : ∀ i c, PathCost (Adj P) T (StepOK P T vis0 full fx) qw i c →
      c = none ∨ (fx = true ∧ T i) ∨ (dn i ∧ D.le (lab i) c) := by
    intro i c hc
    induction hc with
    | start hT =>
      cases hb : fx with
      | true => exact Or.inr (Or.inl ⟨rfl, hT⟩)
      | false =>
        obtain ⟨a, b⟩ := hfree hb _ hT
        refine Or.inr (Or.inr ⟨(hlab _).1 a, ?_⟩)
        rw [b]; exact D.le_refl _
    | @step q i c _ ha ho ih =>
      obtain ⟨o1, o2, o3⟩ := ho
      rcases ih with ih | ih | ih
      · left; rw [ih]; rfl
      · obtain ⟨a, b⟩ := (hfixd ih.1 q ih.2).2 i ha o2
        exact Or.inr (Or.inr ⟨(hlab _).1 a, D.le_trans b (D.le_add_right _ _)⟩)
      · rcases o3 with o3 | o3
        · obtain ⟨a, b⟩ := (h.closed q i ih.1 ha o2).2 o3
          exact Or.inr (Or.inr ⟨(hlab _).1 a, D.le_trans b (D.add_mono ih.2 _)⟩)
        · obtain ⟨a, b⟩ := (hfixd o3.1 q o3.2).2 i ha o2
          exact Or.inr (Or.inr ⟨(hlab _).1 a, D.le_trans b (D.le_add_right _ _)⟩)
  constructor
  · intro c hc
    rcases key p c hc with k | k | k
    · rw [k]; exact D.le_none _
    · have := (hfixd k.1 p k.2).1; omega
    · obtain ⟨_, a, b⟩ := h.done p k.1
      rw [if_pos a, b]; exact k.2
  · intro hn
    by_cases hv : F.vis p = 1
    · rw [if_pos hv] at hn ⊢
      rcases h.seen p hp hv with k | k
      · rw [(h.done p ((hlab p).1 k)).2.2]; exact h.path p k
      · exact absurd k.2 hn
    · rw [if_neg hv] at hn; exact absurd rfl hn

/-! ### seeds -/

theorem DInv.fresh {par : Nat → Option Nat} (hv0 : ∀ p, vis0 p ≠ 1) :
    DInv P T vis0 full fx qw P.qn ⟨par, vis0, PQ.new P.nq⟩ dist lab (fun _ => False) (some 0) := by
  have hl : ∀ i, ¬ Lab ⟨par, vis0, PQ.new P.nq⟩ (fun _ => False) i := by
    intro i; unfold Lab; simp [PQ.new, PQ.items, PNode.elems]
  exact ⟨PQ.new_inv _, by simp [PQ.new, PQ.items, PNode.elems], by simp [PQ.new, PQ.items, PNode.elems],
    by simp, fun _ => Or.inl rfl, fun p _ hp => absurd hp (hv0 p), fun p hp => absurd hp (hl p),
    fun p hp => absurd hp (hl p), fun p hp => absurd hp (hl p), by simp⟩

theorem seedFree_dinv (hb : fx = false) {perm : Nat → Nat} {qs : List Nat} {F' : Front} (hnd : qs.Nodup)
    (hqs : ∀ q ∈ qs, q < P.nq ∧ T q) (hv : ∀ q ∈ qs, F.vis q ≠ 1)
    (h : DInv P T vis0 full fx qw P.qn F dist lab (fun _ => False) (some 0))
    (hr : Front.seedFree P perm qs F = .ok F') :
    ∃ lab', DInv P T vis0 full fx qw P.qn F' dist lab' (fun _ => False) (some 0) ∧
      ∀ q ∈ qs, Lab F' (fun _ => False) q ∧ lab' q = some 0 := by
  unfold Front.seedFree at hr
  have := fold_inv hr (I := fun done (F' : Front) => ∃ lab',
    DInv P T vis0 full fx qw P.qn F' dist lab' (fun _ => False) (some 0) ∧
    (∀ q ∈ done, Lab F' (fun _ => False) q ∧ lab' q = some 0) ∧ (∀ q ∈ qs, q ∉ done → F'.vis q ≠ 1))
    ⟨lab, h, by simp, fun q hq _ => hv q hq⟩ ?_
  · obtain ⟨lab', a, b, _⟩ := this
    exact ⟨lab', a, b⟩
  rintro done q F1 F2 ⟨rest, hl⟩ ⟨lab1, i1, i2, i3⟩ hf
  have hq : q ∈ qs := by rw [hl]; simp
  obtain ⟨hqn, hqT⟩ := hqs q hq
  have hqd : q ∉ done := by
    rw [hl, List.nodup_append] at hnd
    intro hc; exact hnd.2.2 q hc q (by simp) rfl
  simp only [Front.push, if_pos hqn, bind, Except.bind] at hf
  cases he : F1.pq.emplace ⟨q, perm q, some 0⟩ with
  | error e => rw [he] at hf; cases hf
  | ok pq =>
    rw [he] at hf
    simp only [Front.setVis, if_pos hqn] at hf
    cases hf
    obtain ⟨k1, k2, k3⟩ := i1.push (by rw [hb]; simp) (po := none) he hqn (i3 q hq hqd) (D.le_refl _) (D.zero_le _)
      (fun par' _ h2 => .base hqT h2) (Or.inl hqT)
    refine ⟨_, k1, ?_, ?_⟩
    · intro x hx
      rcases List.mem_append.1 hx with hx | hx
      · obtain ⟨a, b⟩ := k2 x (i2 x hx).1
        exact ⟨a, b.trans (i2 x hx).2⟩
      · rw [List.mem_singleton] at hx
        subst hx
        exact ⟨k3, upd_same _ _ _⟩
    · intro x hx hxd
      simp only [List.mem_append, List.mem_singleton, not_or] at hxd
      dsimp only
      rw [upd_ne _ _ hxd.2]
      exact i3 x hx hxd.1

theorem seedFixed_dinv (hb : fx = true) (hfx : fx = true → ∀ q, T q → P.nq ≤ q) {perm : Nat → Nat} {qs : List Nat}
    {F' : Front} (hqs : ∀ q ∈ qs, T q) (hlv : ∀ p, p < P.nq → F.vis p ≠ 1)
    (h : DInv P T vis0 full fx qw P.qn F dist lab (fun _ => False) (some 0))
    (hr : Front.seedFixed P perm (fun _ => true) qw qs F = .ok F') :
    ∃ lab', DInv P T vis0 full fx qw P.qn F' dist lab' (fun _ => False) (some 0) ∧
      ∀ q ∈ qs, ∀ p ∈ P.qn q, vis0 p = 0 → Lab F' (fun _ => False) p ∧ D.le (lab' p) (qw p) := by
  unfold Front.seedFixed at hr
  have := fold_inv hr (I := fun done (F' : Front) => ∃ lab',
    DInv P T vis0 full fx qw P.qn F' dist lab' (fun _ => False) (some 0) ∧
    (∀ q ∈ done, ∀ p ∈ P.qn q, vis0 p = 0 → Lab F' (fun _ => False) p ∧ D.le (lab' p) (qw p)) ∧
    (∀ p, p < P.nq → F'.vis p = 1 → Lab F' (fun _ => False) p))
    ⟨lab, h, by simp, fun p hp hc => absurd hc (hlv p hp)⟩ ?_
  · obtain ⟨lab', a, b, _⟩ := this
    exact ⟨lab', a, b⟩
  rintro done q F1 F2 ⟨rest, hl⟩ ⟨lab1, i1, i2, i3⟩ hf
  have hqT := hqs q (by rw [hl]; simp)
  have hqn := hfx hb q hqT
  have hlq : ∀ i, Lab F1 (fun _ => False) i → i ≠ q := by
    rintro i hi rfl
    have := (i1.lab_vis hi).1; omega
  have i1' : DInv P T vis0 full fx qw P.qn { F1 with par := upd F1.par q none } dist lab1 (fun _ => False) (some 0) := by
    refine ⟨i1.inv, i1.nodup, i1.item, i1.done, i1.vis, i1.seen, ?_, ?_, i1.low, i1.closed⟩
    · intro i hi
      have hp := i1.path i hi
      have aux : ∀ {i c}, Follows (Adj P) T (StepOK P T vis0 full fx) qw F1.par i c →
          Follows (Adj P) T (StepOK P T vis0 full fx) qw (upd F1.par q none) i c := by
        intro i c hh
        induction hh with
        | @base i a b =>
          refine .base a ?_
          by_cases hiq : i = q
          · subst hiq; simp
          · rw [upd_ne _ _ hiq]; exact b
        | @step j i c a b c' d _ ih =>
          refine .step a ?_ c' d ih
          have : i ≠ q := by rintro rfl; exact a hqT
          rw [upd_ne _ _ this]; exact b
      exact aux hp
    · intro i hi
      dsimp only
      rw [upd_ne _ _ (hlq i hi)]
      exact i1.par i hi
  have := fold_inv hf (I := fun dn (F' : Front) => ∃ lab',
    DInv P T vis0 full fx qw P.qn F' dist lab' (fun _ => False) (some 0) ∧
    Stays F1 lab1 (fun _ => False) F' lab' (fun _ => False) ∧
    (∀ p ∈ dn, vis0 p = 0 → Lab F' (fun _ => False) p ∧ D.le (lab' p) (qw p)) ∧
    (∀ p, p < P.nq → F'.vis p = 1 → Lab F' (fun _ => False) p) ∧ F'.par q = none)
    ⟨lab1, i1', Stays.refl, by simp, i3, by simp⟩ ?_
  · obtain ⟨lab', a, b, c, d, _⟩ := this
    refine ⟨lab', a, ?_, d⟩
    intro q' hq' p hp h0
    rcases List.mem_append.1 hq' with hq' | hq'
    · obtain ⟨e1, e2⟩ := i2 q' hq' p hp h0
      obtain ⟨e3, e4⟩ := b p e1
      exact ⟨e3, by rw [e4]; exact e2⟩
    · rw [List.mem_singleton] at hq'
      subst hq'
      exact c p hp h0
  rintro dn' p G1 G2 ⟨rest', hl'⟩ ⟨lab2, j1, j2, j3, j4, j5⟩ hg
  have hpq : p ∈ P.qn q := by rw [hl']; simp
  by_cases hp : p < P.nq
  · rw [if_pos hp] at hg
    by_cases hv : G1.vis p ≠ 0
    · rw [if_pos hv] at hg
      cases hg
      refine ⟨lab2, j1, j2, ?_, j4, j5⟩
      intro x hx h0
      rcases List.mem_append.1 hx with hx | hx
      · exact j3 x hx h0
      · rw [List.mem_singleton] at hx
        subst hx
        have hv1 : G1.vis x = 1 := (j1.vis x).resolve_left (fun hc => hv (hc.trans h0))
        refine ⟨j4 x hp hv1, ?_⟩
        have := j1.low x (j4 x hp hv1)
        rwa [D.zero_add] at this
    · rw [if_neg hv] at hg
      have hv : G1.vis p = 0 := by simpa using hv
      simp only [if_true, Front.push, if_pos hp, bind, Except.bind] at hg
      cases he : G1.pq.emplace ⟨p, perm p, qw p⟩ with
      | error e => rw [he] at hg; cases hg
      | ok pq =>
        rw [he] at hg
        simp only [Front.setVis, if_pos hp] at hg
        cases hg
        have h0 : vis0 p = 0 := by
          rcases j1.vis p with k | k
          · rw [← k]; exact hv
          · omega
        have hpT : ¬ T p := fun hc => by have := hfx hb p hc; omega
        have hqp : q ≠ p := by omega
        obtain ⟨k1, k2, k3⟩ := j1.push hfx (po := some q) he hp (by omega) (D.zero_le _)
          (by rw [D.zero_add]; exact D.le_refl _)
          (by
            intro par' h1 h2
            have := Spec.Follows.step (adj := Adj P) (w := qw) hpT h2 hpq ⟨hp, h0, Or.inr ⟨hb, hqT⟩⟩
              (.base (ok := StepOK P T vis0 full fx) hqT ((h1 q hqp).trans j5))
            rwa [D.zero_add] at this)
          (Or.inr ⟨q, rfl, Or.inr ⟨hb, hqT⟩⟩)
        refine ⟨_, k1, j2.trans k2, ?_, ?_, ?_⟩
        · intro x hx hx0
          rcases List.mem_append.1 hx with hx | hx
          · obtain ⟨e1, e2⟩ := j3 x hx hx0
            obtain ⟨e3, e4⟩ := k2 x e1
            exact ⟨e3, by rw [e4]; exact e2⟩
          · rw [List.mem_singleton] at hx
            subst hx
            exact ⟨k3, by rw [upd_same]; exact D.le_refl _⟩
        · intro x hx hxv
          dsimp only at hxv
          by_cases hxp : x = p
          · subst hxp; exact k3
          · rw [upd_ne _ _ hxp] at hxv
            exact (k2 x (j4 x hx hxv)).1
        · dsimp only
          rw [upd_ne _ _ hqp]; exact j5
  · rw [if_neg hp] at hg; cases hg

end

variable {P : Prob} {R : Nat → Nat → Prop} {E : Emb}

/-- Distances from the chain of `v`, as a search for `u` computes them. -/
theorem distancesFrom_shortest (wf : P.WF) (hR : Dom P R) (hE : EInv P R E) {u v : Nat} {wb : Int} {qw : Nat → D}
    {S S' : Scratch} (hv : v < P.N) (hr : Scratch.distancesFrom P E wb qw u v S = .ok S') {p : Nat} (hp : p < P.nq) :
    let ok := StepOK P (fun x => (E.chains v).has x = true) (Scratch.prepVisited P u v)
      (fun q => decide (wb ≤ E.w q)) (P.fixed v)
    let eff := if S'.vis v p = 1 then S'.dist v p else none
    (∀ c, PathCost (Adj P) (fun x => (E.chains v).has x = true) ok qw p c → D.le eff c) ∧
    (eff ≠ none → Follows (Adj P) (fun x => (E.chains v).has x = true) ok qw (S'.par v) p eff) := by
  unfold Scratch.distancesFrom Front.init at hr
  have hlt : v < P.nv + P.nr := by have := wf.nf_le; unfold Prob.N at hv; omega
  dsimp only at hr
  rw [if_pos hlt] at hr
  dsimp only [bind, Except.bind] at hr
  have hmem : ∀ q, q ∈ (E.iter P v S.tape).1 ↔ q < P.Q ∧ (E.chains v).has q = true := by
    intro q; unfold Emb.iter; rw [permT_mem, Chain.mem_keys]
  have hall : ∀ q, (E.chains v).has q = true → q ∈ (E.iter P v S.tape).1 :=
    fun q hq => (hmem q).2 ⟨(hE.cinv v hv).has_lt hq, hq⟩
  have fresh : DInv P (fun x => (E.chains v).has x = true) (Scratch.prepVisited P u v)
      (fun q => decide (wb ≤ E.w q)) (P.fixed v) qw P.qn ⟨S.par v, Scratch.prepVisited P u v, PQ.new P.nq⟩
      (S.dist v) (fun _ => none) (fun _ => False) (some 0) := DInv.fresh (prepVisited_ne u v)
  have fin : ∀ (F : Front) (lab : Nat → D),
      DInv P (fun x => (E.chains v).has x = true) (Scratch.prepVisited P u v)
        (fun q => decide (wb ≤ E.w q)) (P.fixed v) qw P.qn F (S.dist v) lab (fun _ => False) (some 0) →
      (P.fixed v = true → ∀ q, (E.chains v).has q = true → P.nq ≤ q ∧
        ∀ p ∈ P.qn q, Scratch.prepVisited P u v p = 0 → Lab F (fun _ => False) p ∧ D.le (lab p) (qw p)) →
      (P.fixed v = false → ∀ q, (E.chains v).has q = true → Lab F (fun _ => False) q ∧ lab q = some 0) →
      ∀ x, Front.run P (S.perm v) (fun q => decide (wb ≤ E.w q)) qw (P.nq + 1) F (S.dist v) = .ok x →
      S' = { S with par := upd S.par v x.1.par, vis := upd S.vis v x.1.vis
                    dist := upd S.dist v x.2, tape := (E.iter P v S.tape).2 } →
      (∀ c, PathCost (Adj P) (fun x => (E.chains v).has x = true) (StepOK P (fun x => (E.chains v).has x = true)
          (Scratch.prepVisited P u v) (fun q => decide (wb ≤ E.w q)) (P.fixed v)) qw p c →
        D.le (if S'.vis v p = 1 then S'.dist v p else none) c) ∧
      ((if S'.vis v p = 1 then S'.dist v p else none) ≠ none →
        Follows (Adj P) (fun x => (E.chains v).has x = true) (StepOK P (fun x => (E.chains v).has x = true)
          (Scratch.prepVisited P u v) (fun q => decide (wb ≤ E.w q)) (P.fixed v)) qw (S'.par v) p
          (if S'.vis v p = 1 then S'.dist v p else none)) := by
    intro F lab h1 h2 h3 x hrun h4
    subst h4
    simp only [upd_same]
    obtain ⟨lab', dn', L', m1, m2, m3⟩ := run_dinv (fun hb q hq => (h2 hb q hq).1) (P.nq + 1) h1
      (fun hb q hq => (h3 hb q hq).1) hrun
    refine m1.final m3 ?_ ?_ hp
    · intro hb q hq
      obtain ⟨a, b⟩ := h3 hb q hq
      exact ⟨(m2 q a).1, (m2 q a).2.trans b⟩
    · intro hb q hq
      obtain ⟨a, b⟩ := h2 hb q hq
      refine ⟨a, fun i hi h0 => ?_⟩
      obtain ⟨c, d⟩ := b i hi h0
      exact ⟨(m2 i c).1, by rw [(m2 i c).2]; exact d⟩
  cases hfx : P.fixed v with
  | true =>
    have hv' : P.nv ≤ v := by simpa [Prob.fixed] using hfx
    have hge : ∀ q, (E.chains v).has q = true → P.nq ≤ q := fun q hq => (hE.fixed_has wf hv' hv hq).1
    rw [hfx] at fresh fin
    simp only [hfx, if_true] at hr
    cases hs : Front.seedFixed P (S.perm v) (fun _ => true) qw (E.iter P v S.tape).1
        ⟨S.par v, Scratch.prepVisited P u v, PQ.new P.nq⟩ with
    | error e => rw [hs] at hr; cases hr
    | ok F =>
      rw [hs] at hr
      obtain ⟨lab, a, b⟩ := seedFixed_dinv rfl (fun _ => hge) (fun q hq => ((hmem q).1 hq).2)
        (fun p _ => prepVisited_ne u v p) fresh hs
      dsimp only at hr
      cases hrun : Front.run P (S.perm v) (fun q => decide (wb ≤ E.w q)) qw (P.nq + 1) F (S.dist v) with
      | error e => rw [hrun] at hr; cases hr
      | ok x =>
        rw [hrun] at hr
        cases hr
        exact fin F lab a (fun _ q hq => ⟨hge q hq, b q (hall q hq)⟩) (by simp) x hrun rfl
  | false =>
    have hv' : v < P.nv := by simpa [Prob.fixed] using hfx
    rw [hfx] at fresh fin
    simp only [hfx, Bool.false_eq_true, if_false] at hr
    cases hs : Front.seedFree P (S.perm v) (E.iter P v S.tape).1
        ⟨S.par v, Scratch.prepVisited P u v, PQ.new P.nq⟩ with
    | error e => rw [hs] at hr; cases hr
    | ok F =>
      rw [hs] at hr
      obtain ⟨lab, a, b⟩ := seedFree_dinv rfl ((permT_perm _ _).nodup_iff.2 (keys_nodup _ _))
        (fun q hq => ⟨hR.lt v q hv' (hE.dom v q hv' ((hmem q).1 hq).2), ((hmem q).1 hq).2⟩)
        (fun q _ => prepVisited_ne u v q) fresh hs
      dsimp only at hr
      cases hrun : Front.run P (S.perm v) (fun q => decide (wb ≤ E.w q)) qw (P.nq + 1) F (S.dist v) with
      | error e => rw [hrun] at hr; cases hr
      | ok x =>
        rw [hrun] at hr
        cases hr
        exact fin F lab a (by simp) (fun _ q hq => b q (hall q hq)) x hrun rfl

end MM
