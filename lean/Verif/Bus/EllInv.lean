import Verif.Bus.BundleInv
import Verif.Bus.Line
import Verif.Bus.BitsInv

/-! Chains made of a vertical and a horizontal line. -/

namespace MM
namespace Bus

open Lattice

/-- The ell lies in the grid and its lines cross. -/
structure Ell.InGrid (T : Topo) (e : Ell) : Prop where
  y0 : e.y0 ≤ e.yc
  y1 : e.yc ≤ e.y1
  y : e.y1 < T.dimY
  x0 : e.x0 ≤ e.xc
  x1 : e.xc ≤ e.x1
  x : e.x1 < T.dimX

/-- The vertical line of `f` crosses the horizontal line of `e`. -/
def Ell.Cross (e f : Ell) : Prop := f.y0 ≤ e.yc ∧ e.yc ≤ f.y1 ∧ e.x0 ≤ f.xc ∧ f.xc ≤ e.x1

/-- The ells lie in different rows and columns, and lines of them cross. -/
structure Ell.Meets (e f : Ell) : Prop where
  row : e.yc ≠ f.yc
  col : e.xc ≠ f.xc
  cross : e.Cross f ∨ f.Cross e

variable {T : Topo} {nodes : List Nat} {edges : List (Nat × Nat)} {C : Masks} {N E : Bool → Nat → Nat → Nat → Prop}

/-- Track `k` is whole from `z0` to `z1`. -/
def Whole (N E : Bool → Nat → Nat → Nat → Prop) (u : Bool) (w k z0 z1 : Nat) : Prop :=
  (∀ z, z0 ≤ z → z ≤ z1 → N u w k z) ∧ ∀ z, z0 < z → z ≤ z1 → E u w k z

/-- A line of whole track. -/
structure Wire (T : Topo) (nodes : List Nat) (edges : List (Nat × Nat)) (N E : Bool → Nat → Nat → Nat → Prop) (u : Bool) (w k z0 z1 : Nat) (l : List Nat) : Prop where
  whole : Whole N E u w k z0 z1
  line : Line T nodes edges u w k z0 z1 l

theorem wire_ok (hG : WFGraph T nodes edges) (hC : Clean T nodes edges C N E) {u : Bool} {w k z0 z1 : Nat} (hz : z0 ≤ z1) (h : Whole N E u w k z0 z1) :
    ∃ l, constructLine T u w z0 z1 k = .ok l ∧ Wire T nodes edges N E u w k z0 z1 l := by
  obtain ⟨l, h1, h2⟩ := line_ok hG hz (fun z a b => hC.node_has _ _ _ _ (h.1 z a b)) (fun z a b => hC.edge_joint _ _ _ _ (h.2 z a b))
  exact ⟨l, h1, h, h2⟩

/-- Lines that cross have a coupler between them. -/
theorem Wire.cross (hG : WFGraph T nodes edges) (hC : Clean T nodes edges C N E) {x k y0 y1 y j x0 x1 : Nat} {v h : List Nat}
    (hv : Wire T nodes edges N E false x k y0 y1 v) (hh : Wire T nodes edges N E true y j x0 x1 h) (h1 : y0 ≤ y) (h2 : y ≤ y1) (h3 : x0 ≤ x) (h4 : x ≤ x1) :
    ∃ p ∈ v, ∃ q ∈ h, Spec.Coupler edges p q := by
  obtain ⟨p, q, hl, fp, fq⟩ := hC.cross x k y j (hv.whole.1 y h1 h2) (hh.whole.1 x h3 h4)
  have hpq : p ∈ nodes ∧ q ∈ nodes := by
    rcases hl with hl | hl
    · exact hG.ends _ hl
    · exact (hG.ends _ hl).symm
  exact ⟨p, hv.line.covers hpq.1 h1 h2 fp, q, hh.line.covers hpq.2 h3 h4 fq, hl⟩

/-- Lines in different places share no qubit. -/
theorem Wire.disjoint {u u' : Bool} {w w' k k' a b a' b' : Nat} {l l' : List Nat}
    (hl : Wire T nodes edges N E u w k a b l) (hl' : Wire T nodes edges N E u' w' k' a' b' l') (hne : ¬(u = u' ∧ w = w' ∧ k = k')) : ∀ q ∈ l, q ∉ l' := by
  intro q hq hq'
  obtain ⟨_, z, _, _, hf⟩ := (hl.line.mem q).mp hq
  obtain ⟨_, z', _, _, hf'⟩ := (hl'.line.mem q).mp hq'
  exact hne (hf.eq_of hf')

/-- A chain of the ell `e`, of tracks `k` and `j`. -/
def EllChain (T : Topo) (nodes : List Nat) (edges : List (Nat × Nat)) (N E : Bool → Nat → Nat → Nat → Prop) (e : Ell) (k j : Nat) (c : List Nat) : Prop :=
  ∃ v h, c = v ++ h ∧ Wire T nodes edges N E false e.xc k e.y0 e.y1 v ∧ Wire T nodes edges N E true e.yc j e.x0 e.x1 h

theorem rtg_mono {α : Type} {R S : α → α → Prop} (h : ∀ a b, R a b → S a b) {a b : α} (hr : Relation.ReflTransGen R a b) : Relation.ReflTransGen S a b := by
  induction hr with
  | refl => exact .refl
  | tail _ hs ih => exact ih.tail (h _ _ hs)

/-- Two chains with a coupler between them make a chain. -/
theorem isChain_append {v h : List Nat} (hv : Spec.IsChain nodes edges v) (hh : Spec.IsChain nodes edges h) (hc : ∃ p ∈ v, ∃ q ∈ h, Spec.Coupler edges p q) :
    Spec.IsChain nodes edges (v ++ h) := by
  obtain ⟨p, hp, q, hq, hpq⟩ := hc
  have cv : ∀ a ∈ v, ∀ b ∈ v, Relation.ReflTransGen (fun a b => a ∈ v ++ h ∧ b ∈ v ++ h ∧ Spec.Coupler edges a b) a b :=
    fun a ha b hb => rtg_mono (fun a b h => ⟨List.mem_append_left _ h.1, List.mem_append_left _ h.2.1, h.2.2⟩) (hv.connected a ha b hb)
  have ch : ∀ a ∈ h, ∀ b ∈ h, Relation.ReflTransGen (fun a b => a ∈ v ++ h ∧ b ∈ v ++ h ∧ Spec.Coupler edges a b) a b :=
    fun a ha b hb => rtg_mono (fun a b h => ⟨List.mem_append_right _ h.1, List.mem_append_right _ h.2.1, h.2.2⟩) (hh.connected a ha b hb)
  refine ⟨by simp [hv.nonempty], fun a ha => ?_, fun a ha b hb => ?_⟩
  · rcases List.mem_append.mp ha with ha | ha
    · exact hv.qubits a ha
    · exact hh.qubits a ha
  · rcases List.mem_append.mp ha with ha | ha <;> rcases List.mem_append.mp hb with hb | hb
    · exact cv a ha b hb
    · exact ((cv a ha p hp).tail ⟨List.mem_append_left _ hp, List.mem_append_right _ hq, hpq⟩).trans (ch q hq b hb)
    · exact ((ch a ha q hq).tail ⟨List.mem_append_right _ hq, List.mem_append_left _ hp, Or.symm hpq⟩).trans (cv p hp b hb)
    · exact ch a ha b hb

theorem EllChain.isChain (hG : WFGraph T nodes edges) (hC : Clean T nodes edges C N E) {e : Ell} {k j : Nat} {c : List Nat} (he : e.InGrid T)
    (h : EllChain T nodes edges N E e k j c) : Spec.IsChain nodes edges c := by
  obtain ⟨v, h, rfl, hv, hh⟩ := h
  exact isChain_append hv.line.chain hh.line.chain (hv.cross hG hC hh he.y0 he.y1 he.x0 he.x1)

theorem EllChain.nodup {e : Ell} {k j : Nat} {c : List Nat} (h : EllChain T nodes edges N E e k j c) : c.Nodup := by
  obtain ⟨v, h, rfl, hv, hh⟩ := h
  exact List.nodup_append'.mpr ⟨hv.line.nodup, hh.line.nodup, fun q h1 h2 => hv.disjoint hh (by simp) q h1 h2⟩

theorem EllChain.disjoint {e f : Ell} {k j k' j' : Nat} {c d : List Nat} (h : EllChain T nodes edges N E e k j c) (h' : EllChain T nodes edges N E f k' j' d)
    (hx : e.xc ≠ f.xc ∨ k ≠ k') (hy : e.yc ≠ f.yc ∨ j ≠ j') : ∀ q ∈ c, q ∉ d := by
  obtain ⟨v, h, rfl, hv, hh⟩ := h
  obtain ⟨v', h', rfl, hv', hh'⟩ := h'
  intro q hq hq'
  rcases List.mem_append.mp hq with hq | hq <;> rcases List.mem_append.mp hq' with hq' | hq'
  · exact hv.disjoint hv' (by tauto) q hq hq'
  · exact hv.disjoint hh' (by simp) q hq hq'
  · exact hh.disjoint hv' (by simp) q hq hq'
  · exact hh.disjoint hh' (by tauto) q hq hq'

theorem EllChain.adjacent (hG : WFGraph T nodes edges) (hC : Clean T nodes edges C N E) {e f : Ell} {k j k' j' : Nat} {c d : List Nat}
    (h : EllChain T nodes edges N E e k j c) (h' : EllChain T nodes edges N E f k' j' d) (hx : e.Cross f ∨ f.Cross e) : Spec.Adjacent edges c d := by
  obtain ⟨v, h, rfl, hv, hh⟩ := h
  obtain ⟨v', h', rfl, hv', hh'⟩ := h'
  rcases hx with ⟨a, b, c, d⟩ | ⟨a, b, c, d⟩
  · obtain ⟨p, hp, q, hq, hpq⟩ := hv'.cross hG hC hh a b c d
    exact ⟨q, List.mem_append_right _ hq, p, List.mem_append_left _ hp, Or.symm hpq⟩
  · obtain ⟨p, hp, q, hq, hpq⟩ := hv.cross hG hC hh' a b c d
    exact ⟨p, List.mem_append_left _ hp, q, List.mem_append_right _ hq, hpq⟩

/-- The table of segments of a mask. -/
def Table (T : Topo) (C : Masks) (mem : List Byte) : Prop :=
  ∀ u w z0 z1, w < T.dimW u → z0 ≤ z1 → z1 < T.dimZ u → ∃ b, lineMask T mem u w z0 z1 = .ok b ∧ Seg T C u w z0 z1 b

/-- The tracks of a segment. -/
theorem Table.tracks {mem : List Byte} (hC : Clean T nodes edges C N E) (hT : Table T C mem) {u : Bool} {w z0 z1 : Nat} (hw : w < T.dimW u) (hz : z0 ≤ z1) (hz1 : z1 < T.dimZ u) :
    ∃ b, lineMask T mem u w z0 z1 = .ok b ∧ ∀ k, k ∈ members b ↔ Whole N E u w k z0 z1 := by
  obtain ⟨b, h1, h2⟩ := hT u w z0 z1 hw hz hz1
  exact ⟨b, h1, fun k => by rw [mem_members, seg_clean hC hw hz hz1 h2 k]; rfl⟩

/-- What `inflate` adds for an ell. -/
structure EllOut (T : Topo) (nodes : List Nat) (edges : List (Nat × Nat)) (N E : Bool → Nat → Nat → Nat → Prop) (e : Ell) (cs : List (List Nat)) : Prop where
  chains : ∀ c ∈ cs, ∃ k j, EllChain T nodes edges N E e k j c
  apart : cs.Pairwise fun c d => ∃ k j k' j', EllChain T nodes edges N E e k j c ∧ EllChain T nodes edges N E e k' j' d ∧ k ≠ k' ∧ j ≠ j'

theorem inflateLoop_ok (hG : WFGraph T nodes edges) (hC : Clean T nodes edges C N E) {e : Ell} (he : e.InGrid T) {fuel : Nat} {k0 k1 : Byte}
    (hf : (members k0).length < fuel) (h0 : ∀ k ∈ members k0, Whole N E false e.xc k e.y0 e.y1) (h1 : ∀ k ∈ members k1, Whole N E true e.yc k e.x0 e.x1) :
    ∃ cs, (∀ emb, inflateLoop T e fuel k0 k1 emb = .ok (emb ++ cs)) ∧ List.Forall₂ (fun (p : Nat × Nat) c => EllChain T nodes edges N E e p.1 p.2 c) ((members k0).zip (members k1)) cs := by
  induction fuel generalizing k0 k1 with
  | zero => omega
  | succ n ih =>
    by_cases hz : k0 = 0 ∨ k1 = 0
    · refine ⟨[], fun emb => by rw [inflateLoop, if_pos hz, List.append_nil]; rfl, ?_⟩
      rcases hz with hz | hz <;> rw [hz, members_zero] <;> simp
    · have hz' := hz
      rw [not_or] at hz
      obtain ⟨a, _, a1, k0', a2, a3⟩ := step_ok k0 hz.1
      obtain ⟨b, _, b1, k1', b2, b3⟩ := step_ok k1 hz.2
      rw [a3] at hf h0
      rw [b3] at h1
      rw [List.length_cons] at hf
      obtain ⟨v, v1, v2⟩ := wire_ok hG hC (Nat.le_trans he.y0 he.y1) (h0 a List.mem_cons_self)
      obtain ⟨h, w1, w2⟩ := wire_ok hG hC (Nat.le_trans he.x0 he.x1) (h1 b List.mem_cons_self)
      obtain ⟨cs, c1, c2⟩ := ih (k0 := k0') (k1 := k1') (by omega) (fun k hk => h0 k (List.mem_cons_of_mem _ hk)) (fun k hk => h1 k (List.mem_cons_of_mem _ hk))
      refine ⟨(v ++ h) :: cs, fun emb => ?_, ?_⟩
      · rw [inflateLoop, if_neg hz']
        simp only [a1, b1, v1, w1, a2, b2, bind, Except.bind, c1]
        simp
      · rw [a3, b3, List.zip_cons_cons]
        exact .cons ⟨v, h, rfl, v2, w2⟩ c2

theorem forall₂_right {α β : Type} {P : α → β → Prop} {l : List α} {m : List β} (h : List.Forall₂ P l m) {b : β} (hb : b ∈ m) : ∃ a ∈ l, P a b := by
  induction h with
  | nil => cases hb
  | cons g1 g2 ih' =>
    rcases List.mem_cons.mp hb with e | hd
    · exact ⟨_, List.mem_cons_self, e ▸ g1⟩
    · obtain ⟨c, a, b⟩ := ih' hd
      exact ⟨c, List.mem_cons_of_mem _ a, b⟩

theorem forall₂_pairwise {α β : Type} {P : α → β → Prop} {R : α → α → Prop} {S : β → β → Prop} {l : List α} {m : List β} (h : List.Forall₂ P l m) (hR : l.Pairwise R)
    (hS : ∀ a b c d, P a b → P c d → R a c → S b d) : m.Pairwise S := by
  induction h with
  | nil => exact .nil
  | cons h1 h2 ih =>
    rw [List.pairwise_cons] at hR ⊢
    refine ⟨fun d hd => ?_, ih hR.2⟩
    obtain ⟨c, hc, hcd⟩ := forall₂_right h2 hd
    exact hS _ _ _ _ h1 hcd (hR.1 c hc)

theorem zip_apart {l m : List Nat} (hl : l.Nodup) (hm : m.Nodup) : (l.zip m).Pairwise fun p q => p.1 ≠ q.1 ∧ p.2 ≠ q.2 := by
  induction l generalizing m with
  | nil => simp
  | cons a l ih =>
    cases m with
    | nil => simp
    | cons b m =>
      rw [List.zip_cons_cons, List.pairwise_cons]
      rw [List.nodup_cons] at hl hm
      refine ⟨fun p hp => ⟨fun e => hl.1 (by rw [show a = p.1 from e]; exact (List.of_mem_zip hp).1), fun e => hm.1 (by rw [show b = p.2 from e]; exact (List.of_mem_zip hp).2)⟩, ih hl.2 hm.2⟩

/-- `inflate` for an ell adds as many chains as `score` says. -/
theorem inflateEll_ok (hG : WFGraph T nodes edges) (hC : Clean T nodes edges C N E) {mem : List Byte} (hT : Table T C mem) {e : Ell} (he : e.InGrid T) :
    ∃ cs, (∀ emb, inflateEll T mem e emb = .ok (emb ++ cs)) ∧ ellScore T mem e = .ok cs.length ∧ EllOut T nodes edges N E e cs := by
  obtain ⟨k0, a1, a2⟩ := hT.tracks hC (u := false) (w := e.xc) (z0 := e.y0) (z1 := e.y1) (Nat.lt_of_le_of_lt he.x1 he.x) (Nat.le_trans he.y0 he.y1) he.y
  obtain ⟨k1, b1, b2⟩ := hT.tracks hC (u := true) (w := e.yc) (z0 := e.x0) (z1 := e.x1) (Nat.lt_of_le_of_lt he.y1 he.y) (Nat.le_trans he.x0 he.x1) he.x
  have hfuel : (members k0).length < 9 := Nat.lt_succ_of_le (members_length_le k0)
  have hloop := inflateLoop_ok hG hC he hfuel (fun k hk => (a2 k).mp hk) (fun k hk => (b2 k).mp hk)
  obtain ⟨cs, c1, c2⟩ := hloop
  have hlen : cs.length = min (members k0).length (members k1).length := by
    rw [← c2.length_eq, List.length_zip]
  refine ⟨cs, fun emb => ?_, ?_, ?_⟩
  · simp only [inflateEll, a1, b1, bind, Except.bind]
    exact c1 emb
  · simp only [ellScore, lineScore, a1, b1, bind, Except.bind, popcount_ok, hlen]; rfl
  · refine ⟨fun c hc => ?_, ?_⟩
    · obtain ⟨p, _, hp⟩ := forall₂_right c2 hc
      exact ⟨_, _, hp⟩
    · refine forall₂_pairwise c2 (zip_apart (members_nodup k0) (members_nodup k1)) ?_
      intro p c q d hp hq hne
      exact ⟨_, _, _, _, hp, hq, hne.1, hne.2⟩

/-- The chains of ells that meet each other embed a clique. -/
theorem ells_clique (hG : WFGraph T nodes edges) (hC : Clean T nodes edges C N E) {es : List Ell} {css : List (List (List Nat))} (hin : ∀ e ∈ es, e.InGrid T)
    (hm : es.Pairwise Ell.Meets) (ho : List.Forall₂ (EllOut T nodes edges N E) es css) :
    Spec.CliqueEmbedding nodes edges css.flatten ∧ ∀ c ∈ css.flatten, c.Nodup := by
  have hmem : ∀ c ∈ css.flatten, ∃ e ∈ es, ∃ k j, EllChain T nodes edges N E e k j c := by
    intro c hc
    obtain ⟨cs, h1, h2⟩ := List.mem_flatten.mp hc
    obtain ⟨e, h3, h4⟩ := forall₂_right ho h1
    exact ⟨e, h3, h4.chains c h2⟩
  have hwithin : ∀ cs ∈ css, cs.Pairwise fun c d => (∀ q ∈ c, q ∉ d) ∧ Spec.Adjacent edges c d := by
    intro cs hcs
    obtain ⟨e, h3, h4⟩ := forall₂_right ho hcs
    refine h4.apart.imp ?_
    rintro c d ⟨k, j, k', j', g1, g2, g3, g4⟩
    have := hin e h3
    exact ⟨g1.disjoint g2 (.inr g3) (.inr g4), g1.adjacent hG hC g2 (.inl ⟨this.y0, this.y1, this.x0, this.x1⟩)⟩
  have hacross : css.Pairwise fun cs ds => ∀ c ∈ cs, ∀ d ∈ ds, (∀ q ∈ c, q ∉ d) ∧ Spec.Adjacent edges c d := by
    refine forall₂_pairwise ho hm ?_
    intro e cs f ds h1 h2 hef c hc d hd
    obtain ⟨k, j, g1⟩ := h1.chains c hc
    obtain ⟨k', j', g2⟩ := h2.chains d hd
    exact ⟨g1.disjoint g2 (.inl hef.col) (.inl hef.row), g1.adjacent hG hC g2 hef.cross⟩
  have hp : css.flatten.Pairwise fun c d => (∀ q ∈ c, q ∉ d) ∧ Spec.Adjacent edges c d := List.pairwise_flatten.mpr ⟨hwithin, hacross⟩
  refine ⟨⟨fun c hc => ?_, hp.imp And.left, hp.imp And.right⟩, fun c hc => ?_⟩
  · obtain ⟨e, he, k, j, h⟩ := hmem c hc
    exact h.isChain hG hC (hin e he)
  · obtain ⟨e, he, k, j, h⟩ := hmem c hc
    exact h.nodup

end Bus
end MM
