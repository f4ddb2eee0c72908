import Verif.Lay.Layout
import Verif.Spec.Layout
import Mathlib.Data.List.Nodup
import Mathlib.Tactic.Linarith
import Mathlib.Tactic.Ring
import Mathlib.Tactic.FieldSimp
import Mathlib.Algebra.Order.Field.Basic
import Mathlib.Algebra.Field.Rat
import Mathlib.Algebra.Order.Field.Rat

/-! Centre and scale of arrays, and what the setters do. -/

namespace MM
namespace Lay

open Spec.Layout

variable {V : Type} [DecidableEq V]

/-- All rows have the given length. -/
def Rows (d : Nat) (a : List Pt) : Prop := ∀ r ∈ a, r.length = d

theorem Rows.tail {d : Nat} {r : Pt} {rs : List Pt} (h : Rows d (r :: rs)) : Rows d rs := fun q hq => h q (List.mem_cons_of_mem _ hq)

theorem dimOf_rows {d : Nat} {a : List Pt} (h : Rows d a) (hne : a ≠ []) : dimOf a = d := by
  cases a with
  | nil => exact absurd rfl hne
  | cons r rs => exact h r List.mem_cons_self

/-- A fold of rows takes the extreme value of each coordinate. -/
theorem fold_rows {f : Rat → Rat → Rat} {R : Rat → Rat → Prop} (hR : ∀ a, R a a) (ht : ∀ a b c, R a b → R b c → R a c)
    (hf : ∀ a b, (f a b = a ∨ f a b = b) ∧ R (f a b) a ∧ R (f a b) b) {d : Nat} (rs : List Pt) :
    ∀ r : Pt, r.length = d → Rows d rs → (rs.foldl (List.zipWith f) r).length = d ∧
      ∀ (i : Nat) (y : Rat), (rs.foldl (List.zipWith f) r)[i]? = some y →
        (∃ p ∈ r :: rs, p[i]? = some y) ∧ ∀ p ∈ r :: rs, ∀ x, p[i]? = some x → R y x := by
  induction rs with
  | nil =>
    intro r hr _
    refine ⟨hr, fun i y hy => ⟨⟨r, List.mem_cons_self, hy⟩, ?_⟩⟩
    intro p hp x hx
    rw [List.mem_singleton.mp hp] at hx
    have : y = x := Option.some.inj (hy.symm.trans hx)
    exact this ▸ hR y
  | cons q rs ih =>
    intro r hr hrs
    have hq : q.length = d := hrs q List.mem_cons_self
    have hl : (List.zipWith f r q).length = d := by rw [List.length_zipWith, hr, hq, Nat.min_self]
    obtain ⟨h1, h2⟩ := ih (List.zipWith f r q) hl hrs.tail
    refine ⟨h1, fun i y hy => ?_⟩
    obtain ⟨⟨p, hp, hpy⟩, h3⟩ := h2 i y hy
    have hi : i < d := by
      by_contra hi
      rw [List.foldl_cons] at hy
      rw [List.getElem?_eq_none (by rw [h1]; exact Nat.le_of_not_lt hi)] at hy
      cases hy
    have hz : (List.zipWith f r q)[i]? = some (f (r[i]'(hr ▸ hi)) (q[i]'(hq ▸ hi))) := by
      rw [List.getElem?_eq_getElem (hl ▸ hi), List.getElem_zipWith]
    have hri : r[i]? = some (r[i]'(hr ▸ hi)) := List.getElem?_eq_getElem _
    have hqi : q[i]? = some (q[i]'(hq ▸ hi)) := List.getElem?_eq_getElem _
    obtain ⟨hfe, hfa, hfb⟩ := hf (r[i]'(hr ▸ hi)) (q[i]'(hq ▸ hi))
    have hzy := h3 _ List.mem_cons_self _ hz
    refine ⟨?_, ?_⟩
    · rcases List.mem_cons.mp hp with rfl | hp
      · rw [hz] at hpy
        have := Option.some.inj hpy
        rcases hfe with e | e
        · exact ⟨r, List.mem_cons_self, by rw [hri, ← this, e]⟩
        · exact ⟨q, List.mem_cons_of_mem _ List.mem_cons_self, by rw [hqi, ← this, e]⟩
      · exact ⟨p, List.mem_cons_of_mem _ (List.mem_cons_of_mem _ hp), hpy⟩
    · intro p' hp' x hx
      rcases List.mem_cons.mp hp' with rfl | hp'
      · rw [hri] at hx
        exact Option.some.inj hx ▸ ht _ _ _ hzy hfa
      · rcases List.mem_cons.mp hp' with rfl | hp'
        · rw [hqi] at hx
          exact Option.some.inj hx ▸ ht _ _ _ hzy hfb
        · exact h3 p' (List.mem_cons_of_mem _ hp') x hx

theorem centerOf_length {d : Nat} {a : List Pt} (h : Rows d a) (hne : a ≠ []) : (centerOf a).length = d := by
  cases a with
  | nil => exact absurd rfl hne
  | cons r rs =>
    have hr := h r List.mem_cons_self
    have h1 := (fold_rows (f := min) (R := (· ≤ ·)) (fun a => le_refl a) (fun a b c => le_trans)
      (fun a b => ⟨min_choice a b, min_le_left a b, min_le_right a b⟩) rs r hr h.tail).1
    have h2 := (fold_rows (f := max) (R := (· ≥ ·)) (fun a => le_refl a) (fun a b c h h' => le_trans h' h)
      (fun a b => ⟨max_choice a b, le_max_left a b, le_max_right a b⟩) rs r hr h.tail).1
    unfold centerOf
    rw [List.length_zipWith, h1, h2, Nat.min_self]

theorem isCentre_centerOf {d : Nat} {a : List Pt} (h : Rows d a) (hne : a ≠ []) : IsCentre a (centerOf a) := by
  have hlen := centerOf_length h hne
  refine ⟨fun p hp => (h p hp).trans hlen.symm, ?_⟩
  cases a with
  | nil => exact absurd rfl hne
  | cons r rs =>
    have hr := h r List.mem_cons_self
    obtain ⟨l1, h1⟩ := fold_rows (f := min) (R := (· ≤ ·)) (fun a => le_refl a) (fun a b c => le_trans)
      (fun a b => ⟨min_choice a b, min_le_left a b, min_le_right a b⟩) rs r hr h.tail
    obtain ⟨l2, h2⟩ := fold_rows (f := max) (R := (· ≥ ·)) (fun a => le_refl a) (fun a b c h h' => le_trans h' h)
      (fun a b => ⟨max_choice a b, le_max_left a b, le_max_right a b⟩) rs r hr h.tail
    intro i y hy
    have hi : i < d := by
      by_contra hi
      rw [List.getElem?_eq_none (by rw [hlen]; exact Nat.le_of_not_lt hi)] at hy
      cases hy
    unfold centerOf at hy
    have e1 : (rs.foldl (List.zipWith min) r)[i]? = some ((rs.foldl (List.zipWith min) r)[i]'(l1 ▸ hi)) := List.getElem?_eq_getElem _
    have e2 : (rs.foldl (List.zipWith max) r)[i]? = some ((rs.foldl (List.zipWith max) r)[i]'(l2 ▸ hi)) := List.getElem?_eq_getElem _
    obtain ⟨a1, b1⟩ := h1 i _ e1
    obtain ⟨a2, b2⟩ := h2 i _ e2
    refine ⟨_, _, ?_, a1, a2, fun p hp x hx => ⟨b1 p hp x hx, b2 p hp x hx⟩⟩
    rw [List.getElem?_eq_getElem (by rw [List.length_zipWith, l1, l2, Nat.min_self]; exact hi), List.getElem_zipWith] at hy
    have := Option.some.inj hy
    rw [← this]
    ring

/-- The centre is determined by the points. -/
theorem isCentre_unique {a : List Pt} {c c' : Pt} (hne : a ≠ []) (h : IsCentre a c) (h' : IsCentre a c') : c = c' := by
  obtain ⟨p, hp⟩ := List.exists_mem_of_ne_nil a hne
  have hl : c.length = c'.length := (h.1 p hp).symm.trans (h'.1 p hp)
  refine List.ext_getElem hl fun i hi hi' => ?_
  obtain ⟨lo, hi1, e1, ⟨p1, hp1, q1⟩, ⟨p2, hp2, q2⟩, b1⟩ := h.2 i _ (List.getElem?_eq_getElem hi)
  obtain ⟨lo', hi2, e2, ⟨p3, hp3, q3⟩, ⟨p4, hp4, q4⟩, b2⟩ := h'.2 i _ (List.getElem?_eq_getElem hi')
  have := (b1 p3 hp3 _ q3).1
  have := (b2 p1 hp1 _ q1).1
  have := (b1 p4 hp4 _ q4).2
  have := (b2 p2 hp2 _ q2).2
  linarith

theorem isScale_unique {a : List Pt} {c : Pt} {s s' : Rat} (h : IsScale a c s) (h' : IsScale a c s') : s = s' := by
  obtain ⟨h1, p, hp, i, x, y, hx, hy, e⟩ := h
  obtain ⟨h1', p', hp', i', x', y', hx', hy', e'⟩ := h'
  exact le_antisymm (e ▸ h1' p hp i x y hx hy) (e' ▸ h1 p' hp' i' x' y' hx' hy')

theorem foldl_max_ge (l : List Rat) : ∀ a : Rat, a ≤ l.foldl max a ∧ ∀ x ∈ l, x ≤ l.foldl max a := by
  induction l with
  | nil => intro a; exact ⟨le_refl a, fun x h => nomatch h⟩
  | cons b l ih =>
    intro a
    obtain ⟨h1, h2⟩ := ih (max a b)
    refine ⟨le_trans (le_max_left a b) h1, fun x hx => ?_⟩
    rcases List.mem_cons.mp hx with rfl | hx
    · exact le_trans (le_max_right a x) h1
    · exact h2 x hx

theorem foldl_max_mem (l : List Rat) : ∀ a : Rat, l.foldl max a = a ∨ l.foldl max a ∈ l := by
  induction l with
  | nil => intro a; exact .inl rfl
  | cons b l ih =>
    intro a
    rw [List.foldl_cons]
    rcases ih (max a b) with h | h
    · rw [h]
      rcases max_choice a b with e | e
      · exact .inl e
      · exact .inr (List.mem_cons.mpr (.inl e))
    · exact .inr (List.mem_cons_of_mem _ h)

theorem mem_zipWith_idx {α β γ : Type} {f : α → β → γ} {l : List α} {m : List β} {z : γ} (h : z ∈ List.zipWith f l m) :
    ∃ (i : Nat) (x : α) (y : β), l[i]? = some x ∧ m[i]? = some y ∧ f x y = z := by
  obtain ⟨i, hi, e⟩ := List.getElem_of_mem h
  rw [List.length_zipWith] at hi
  rw [List.getElem_zipWith] at e
  exact ⟨i, _, _, List.getElem?_eq_getElem (by omega), List.getElem?_eq_getElem (by omega), e⟩

theorem zipWith_idx {α β γ : Type} {f : α → β → γ} {l : List α} {m : List β} {i : Nat} {x : α} {y : β} (hx : l[i]? = some x) (hy : m[i]? = some y) :
    (List.zipWith f l m)[i]? = some (f x y) := by
  rw [List.getElem?_zipWith, hx, hy]

theorem isScale_scaleOf {d : Nat} {a : List Pt} (h : Rows d a) (hne : a ≠ []) (hd : d ≠ 0) : IsScale a (centerOf a) (scaleOf a) := by
  have hlen := centerOf_length h hne
  refine ⟨?_, ?_⟩
  · intro p hp i x y hx hy
    have h1 : |x - y| ≤ dev (centerOf a) p :=
      (foldl_max_ge _ 0).2 _ (List.mem_of_getElem? (zipWith_idx (f := fun x y => |x - y|) hx hy))
    exact le_trans h1 ((foldl_max_ge _ 0).2 _ (List.mem_map_of_mem hp))
  · have h0 : ∀ p ∈ a, ∃ (i : Nat) (x y : Rat), p[i]? = some x ∧ (centerOf a)[i]? = some y ∧ |x - y| = dev (centerOf a) p := by
      intro p hp
      rcases foldl_max_mem (List.zipWith (fun x y => |x - y|) p (centerOf a)) 0 with e | e
      · have hp0 : 0 < p.length := by rw [h p hp]; omega
        have hc0 : 0 < (centerOf a).length := by rw [hlen]; omega
        refine ⟨0, p[0], (centerOf a)[0], List.getElem?_eq_getElem hp0, List.getElem?_eq_getElem hc0, ?_⟩
        have := (foldl_max_ge (List.zipWith (fun x y => |x - y|) p (centerOf a)) 0).2 _
          (List.mem_of_getElem? (zipWith_idx (f := fun x y => |x - y|) (List.getElem?_eq_getElem hp0) (List.getElem?_eq_getElem hc0)))
        rw [e] at this
        unfold dev
        rw [e]
        exact le_antisymm this (abs_nonneg _)
      · exact mem_zipWith_idx e
    rcases foldl_max_mem (a.map (dev (centerOf a))) 0 with e | e
    · obtain ⟨p, hp⟩ := List.exists_mem_of_ne_nil a hne
      obtain ⟨i, x, y, hx, hy, e1⟩ := h0 p hp
      have := (foldl_max_ge (a.map (dev (centerOf a))) 0).2 _ (List.mem_map_of_mem hp)
      refine ⟨p, hp, i, x, y, hx, hy, ?_⟩
      unfold scaleOf
      rw [e] at this ⊢
      exact le_antisymm (e1 ▸ this) (abs_nonneg _)
    · obtain ⟨p, hp, e1⟩ := List.mem_map.mp e
      obtain ⟨i, x, y, hx, hy, e2⟩ := h0 p hp
      exact ⟨p, hp, i, x, y, hx, hy, e2.trans e1⟩

theorem isCentre_moved {a : List Pt} {c c' : Pt} {k : Rat} {f : Pt → Pt} (h : IsCentre a c) (hc : c'.length = c.length)
    (hf : ∀ p ∈ a, Moved c c' k p (f p)) : IsCentre (a.map f) c' := by
  refine ⟨?_, ?_⟩
  · intro q hq
    obtain ⟨p, hp, rfl⟩ := List.mem_map.mp hq
    rw [(hf p hp).1, h.1 p hp, hc]
  · intro i z hz
    have hi : i < c.length := by
      by_contra hi
      rw [List.getElem?_eq_none (by rw [hc]; exact Nat.le_of_not_lt hi)] at hz
      cases hz
    have hy : c[i]? = some c[i] := List.getElem?_eq_getElem hi
    obtain ⟨lo, up, e, ⟨p1, hp1, q1⟩, ⟨p2, hp2, q2⟩, b⟩ := h.2 i _ hy
    have m1 := (hf p1 hp1).2 i _ _ _ q1 hy hz
    have m2 := (hf p2 hp2).2 i _ _ _ q2 hy hz
    have hb : ∀ q ∈ a.map f, ∀ x, q[i]? = some x → ∃ w, lo ≤ w ∧ w ≤ up ∧ x = k * (w - c[i]) + z := by
      intro q hq x hx
      obtain ⟨p, hp, rfl⟩ := List.mem_map.mp hq
      have hpi : p[i]? = some (p[i]'(by rw [h.1 p hp]; exact hi)) := List.getElem?_eq_getElem _
      have := (hf p hp).2 i _ _ _ hpi hy hz
      rw [hx] at this
      obtain ⟨b1, b2⟩ := b p hp _ hpi
      exact ⟨_, b1, b2, Option.some.inj this⟩
    rcases le_total 0 k with hk | hk
    · refine ⟨_, _, ?_, ⟨_, List.mem_map_of_mem hp1, m1⟩, ⟨_, List.mem_map_of_mem hp2, m2⟩, ?_⟩
      · have : k * (lo - c[i]) + z + (k * (up - c[i]) + z) = k * (lo + up - 2 * c[i]) + 2 * z := by ring
        rw [this, e]; ring
      · intro q hq x hx
        obtain ⟨w, w1, w2, rfl⟩ := hb q hq x hx
        have := mul_le_mul_of_nonneg_left w1 hk
        have := mul_le_mul_of_nonneg_left w2 hk
        constructor <;> linarith
    · refine ⟨_, _, ?_, ⟨_, List.mem_map_of_mem hp2, m2⟩, ⟨_, List.mem_map_of_mem hp1, m1⟩, ?_⟩
      · have : k * (up - c[i]) + z + (k * (lo - c[i]) + z) = k * (lo + up - 2 * c[i]) + 2 * z := by ring
        rw [this, e]; ring
      · intro q hq x hx
        obtain ⟨w, w1, w2, rfl⟩ := hb q hq x hx
        have := mul_le_mul_of_nonpos_left w1 hk
        have := mul_le_mul_of_nonpos_left w2 hk
        constructor <;> linarith

theorem isScale_moved {a : List Pt} {c c' : Pt} {k s : Rat} {f : Pt → Pt} (hl : ∀ p ∈ a, p.length = c.length) (h : IsScale a c s)
    (hc : c'.length = c.length) (hf : ∀ p ∈ a, Moved c c' k p (f p)) : IsScale (a.map f) c' (|k| * s) := by
  have step : ∀ p ∈ a, ∀ (i : Nat) (x y z : Rat), p[i]? = some x → c[i]? = some y → c'[i]? = some z →
      ∀ w, (f p)[i]? = some w → |w - z| = |k| * |x - y| := by
    intro p hp i x y z hx hy hz w hw
    rw [(hf p hp).2 i x y z hx hy hz] at hw
    rw [← Option.some.inj hw, ← abs_mul]
    congr 1
    ring
  refine ⟨?_, ?_⟩
  · intro q hq i w z hw hz
    obtain ⟨p, hp, rfl⟩ := List.mem_map.mp hq
    have hi : i < c.length := by
      by_contra hi
      rw [List.getElem?_eq_none (by rw [hc]; exact Nat.le_of_not_lt hi)] at hz
      cases hz
    have hy : c[i]? = some c[i] := List.getElem?_eq_getElem hi
    have hx : p[i]? = some (p[i]'(by rw [hl p hp]; exact hi)) := List.getElem?_eq_getElem _
    rw [step p hp i _ _ z hx hy hz w hw]
    exact mul_le_mul_of_nonneg_left (h.1 p hp i _ _ hx hy) (abs_nonneg k)
  · obtain ⟨p, hp, i, x, y, hx, hy, e⟩ := h.2
    have hi : i < c.length := by
      by_contra hi
      rw [List.getElem?_eq_none (Nat.le_of_not_lt hi)] at hy
      cases hy
    have hz : c'[i]? = some (c'[i]'(by rw [hc]; exact hi)) := List.getElem?_eq_getElem _
    refine ⟨f p, List.mem_map_of_mem hp, i, _, _, (hf p hp).2 i x y _ hx hy hz, hz, ?_⟩
    rw [step p hp i x y _ hx hy hz _ ((hf p hp).2 i x y _ hx hy hz), e]

theorem item_ok {d : List (V × Pt)} {v : V} {p : Pt} : item d v = .ok p ↔ d.lookup v = some p := by
  unfold item
  cases d.lookup v with
  | none => simp
  | some q => simp

theorem mapM_item {value : List (V × Pt)} {verts : List V} {rows : List Pt} :
    verts.mapM (item value) = .ok rows ↔ List.Forall₂ (fun v p => value.lookup v = some p) verts rows := by
  induction verts generalizing rows with
  | nil =>
    rw [List.mapM_nil]
    constructor
    · intro h; cases h; exact .nil
    · intro h; cases h; rfl
  | cons v vs ih =>
    rw [List.mapM_cons]
    constructor
    · intro h
      cases hv : item value v with
      | error e => rw [hv] at h; cases h
      | ok p =>
        rw [hv] at h
        cases hr : vs.mapM (item value) with
        | error e => rw [hr] at h; cases h
        | ok ps =>
          rw [hr] at h
          cases h
          exact .cons (item_ok.mp hv) (ih.mp hr)
    · intro h
      cases h with
      | cons h1 h2 => rw [item_ok.mpr h1, ih.mpr h2]; rfl

theorem lookup_zip {verts : List V} (hn : verts.Nodup) {rows : List Pt} (hl : rows.length = verts.length) :
    List.Forall₂ (fun v p => (verts.zip rows).lookup v = some p) verts rows := by
  rw [List.forall₂_iff_get]
  refine ⟨hl.symm, fun i h1 h2 => ?_⟩
  induction verts generalizing rows i with
  | nil => cases h1
  | cons v vs ih =>
    cases rows with
    | nil => cases h2
    | cons r rs =>
      cases i with
      | zero => simp
      | succ i =>
        have hv : (vs[i]'(Nat.lt_of_succ_lt_succ h1)) ≠ v := fun e => (List.nodup_cons.mp hn).1 (e ▸ List.getElem_mem _)
        simp only [List.zip_cons_cons, List.get_eq_getElem, List.getElem_cons_succ, List.lookup_cons]
        rw [beq_eq_false_iff_ne.mpr hv]
        simpa using ih (List.nodup_cons.mp hn).2 (Nat.succ_inj.mp hl) i (Nat.lt_of_succ_lt_succ h1) (Nat.lt_of_succ_lt_succ h2)

theorem setLayout_ok {verts : List V} {value : List (V × Pt)} {rows : List Pt} {d : Nat}
    (h : List.Forall₂ (fun v p => value.lookup v = some p) verts rows) (hr : Rows d rows) :
    setLayout verts value = .ok ⟨verts, value, rows⟩ := by
  unfold setLayout
  rw [mapM_item.mpr h]
  show (if _ then _ else _) = _
  rw [if_pos]
  rw [List.all_eq_true]
  intro r hm
  rw [beq_iff_eq, dimOf_rows hr (List.ne_nil_of_mem hm)]
  exact hr r hm

theorem setArray_ok {L : Layout V} (hn : L.verts.Nodup) {rows : List Pt} (hl : rows.length = L.verts.length) {d : Nat} (hr : Rows d rows) :
    L.setArray rows = .ok ⟨L.verts, L.verts.zip rows, rows⟩ :=
  setLayout_ok (lookup_zip hn hl) hr

/-- A layout as the setters leave it. -/
structure Good (d : Nat) (L : Layout V) : Prop where
  nodup : L.verts.Nodup
  len : L.array.length = L.verts.length
  rows : Rows d L.array

theorem setDim_ok {L : Layout V} {d : Nat} (h : Good d L) (hne : L.array ≠ []) {e : Nat} (he : d ≤ e) (h0 : e ≠ 0) :
    ∃ L', L.setDim e = .ok L' ∧ Good e L' ∧ L'.verts = L.verts ∧ L'.array = L.array.map (fun r => r ++ List.replicate (e - d) 0) ∧
      L'.dict = L'.verts.zip L'.array := by
  have hd := dimOf_rows h.rows hne
  have hr : Rows e (L.array.map (fun r => r ++ List.replicate (e - d) 0)) := by
    intro q hq
    obtain ⟨p, hp, rfl⟩ := List.mem_map.mp hq
    rw [List.length_append, List.length_replicate, h.rows p hp]; omega
  unfold Layout.setDim dimensionLayout
  rw [if_neg (by omega), hd, if_neg (by omega), Int.toNat_natCast]
  have hl : (L.array.map (fun r => r ++ List.replicate (e - d) 0)).length = L.verts.length := by rw [List.length_map]; exact h.len
  exact ⟨_, setArray_ok h.nodup hl hr, ⟨h.nodup, hl, hr⟩, rfl, rfl, rfl⟩

theorem setScale_ok {L : Layout V} {d : Nat} (h : Good d L) {s : Rat} (hs : s ≠ 0) (h0 : scaleOf L.array ≠ 0) (hne : L.array ≠ []) :
    ∃ L' f, L.setScale s = .ok L' ∧ Good d L' ∧ L'.verts = L.verts ∧ L'.array = L.array.map f ∧ L'.dict = L'.verts.zip L'.array ∧
      ∀ p ∈ L.array, Moved (centerOf L.array) (centerOf L.array) (s / scaleOf L.array) p (f p) := by
  have hc := centerOf_length h.rows hne
  have hr : Rows d (L.array.map fun r => List.zipWith (fun x c => (s / scaleOf L.array) * (x - c) + c) r (centerOf L.array)) := by
    intro q hq
    obtain ⟨p, hp, rfl⟩ := List.mem_map.mp hq
    rw [List.length_zipWith, hc, h.rows p hp, Nat.min_self]
  unfold Layout.setScale scaleLayout
  rw [if_neg hs, if_neg h0]
  have hl : (L.array.map fun r => List.zipWith (fun x c => (s / scaleOf L.array) * (x - c) + c) r (centerOf L.array)).length = L.verts.length := by
    rw [List.length_map]; exact h.len
  refine ⟨_, _, setArray_ok h.nodup hl hr, ⟨h.nodup, hl, hr⟩, rfl, rfl, rfl, ?_⟩
  intro p hp
  refine ⟨by rw [List.length_zipWith, hc, h.rows p hp, Nat.min_self], ?_⟩
  intro i x y z hx hy hz
  have : y = z := Option.some.inj (hy.symm.trans hz)
  subst this
  exact zipWith_idx (f := fun x c => (s / scaleOf L.array) * (x - c) + c) hx hy

theorem setCenter_ok {L : Layout V} {d : Nat} (h : Good d L) (hd : d ≠ 0) {c : Pt} (hc' : c.length = d) (hne : L.array ≠ []) :
    ∃ L' f, L.setCenter c = .ok L' ∧ Good d L' ∧ L'.verts = L.verts ∧ L'.array = L.array.map f ∧ L'.dict = L'.verts.zip L'.array ∧
      ∀ p ∈ L.array, Moved (centerOf L.array) c 1 p (f p) := by
  have hc := centerOf_length h.rows hne
  have hr : Rows d (L.array.map fun r => List.zipWith (· + ·) (List.zipWith (fun x c => x - c) r (centerOf L.array)) c) := by
    intro q hq
    obtain ⟨p, hp, rfl⟩ := List.mem_map.mp hq
    rw [List.length_zipWith, List.length_zipWith, hc, h.rows p hp, hc', Nat.min_self, Nat.min_self]
  have hl : (L.array.map fun r => List.zipWith (· + ·) (List.zipWith (fun x c => x - c) r (centerOf L.array)) c).length = L.verts.length := by
    rw [List.length_map]; exact h.len
  unfold Layout.setCenter centerLayout
  rw [if_neg (fun e => hd (by rw [← hc', e]; rfl)), if_pos (hc'.trans (dimOf_rows h.rows hne).symm), List.map_map]
  refine ⟨_, _, setArray_ok h.nodup hl hr, ⟨h.nodup, hl, hr⟩, rfl, rfl, rfl, ?_⟩
  intro p hp
  show Moved _ _ _ _ (List.zipWith (· + ·) (List.zipWith (fun x c => x - c) p (centerOf L.array)) c)
  refine ⟨by rw [List.length_zipWith, List.length_zipWith, hc, h.rows p hp, hc', Nat.min_self, Nat.min_self], ?_⟩
  intro i x y z hx hy hz
  rw [zipWith_idx (f := (· + ·)) (zipWith_idx (f := fun x c => x - c) hx hy) hz, one_mul]

theorem moved_self (c p : Pt) (h : p.length = c.length) : Moved c c 1 p p := by
  refine ⟨rfl, fun i x y z hx hy hz => ?_⟩
  have : y = z := Option.some.inj (hy.symm.trans hz)
  rw [hx, this, one_mul, sub_add_cancel]

theorem moved_trans {c c' : Pt} {k : Rat} {p q r : Pt} (hp : p.length = c.length) (h1 : Moved c c k p q) (h2 : Moved c c' 1 q r) :
    Moved c c' k p r := by
  refine ⟨h2.1.trans h1.1, fun i x y z hx hy hz => ?_⟩
  rw [h2.2 i _ _ _ (h1.2 i x y y hx hy hy) hy hz]
  congr 1
  ring

theorem forall₂_map {α β : Type} {R : α → β → Prop} {l : List α} {f : α → β} (h : ∀ a ∈ l, R a (f a)) : List.Forall₂ R l (l.map f) := by
  induction l with
  | nil => exact .nil
  | cons a l ih => exact .cons (h a List.mem_cons_self) (ih fun b hb => h b (List.mem_cons_of_mem _ hb))

theorem padded_eq {d D : Nat} {p q : Pt} (hp : p.length = d) (h : d ≤ D) (hq : Padded D p q) : q = p ++ List.replicate (D - d) 0 := by
  have hl : (p ++ List.replicate (D - d) (0 : Rat)).length = D := by rw [List.length_append, List.length_replicate]; omega
  refine List.ext_getElem? fun i => ?_
  by_cases hi : i < D
  · rw [hq.2 i hi]
    by_cases hid : i < d
    · rw [List.getElem?_append_left (hp ▸ hid), List.getElem?_eq_getElem (hp ▸ hid)]; rfl
    · rw [List.getElem?_append_right (hp ▸ Nat.le_of_not_lt hid), List.getElem?_eq_none (hp ▸ Nat.le_of_not_lt hid),
        List.getElem?_replicate, if_pos (by omega)]; rfl
  · rw [List.getElem?_eq_none (by rw [hq.1]; omega), List.getElem?_eq_none (by rw [hl]; omega)]

/-- Steps of the constructor after the dimension is set. -/
theorem finish_ok {L : Layout V} {D : Nat} (h : Good D L) (hD : D ≠ 0) (hne : L.array ≠ []) (hdict : L.dict = L.verts.zip L.array)
    {center : Option Pt} {c : Pt} (hcenter : (center = none ∨ center = some []) ∧ c = centerOf L.array ∨ center = some c ∧ c.length = D)
    {scale : Option Rat} {s : Rat} (hscale : (scale = none ∨ scale = some 0) ∧ s = scaleOf L.array ∨ scale = some s ∧ s ≠ 0 ∧ scaleOf L.array ≠ 0) :
    ∃ L' f k, L.specs center scale = .ok L' ∧ Good D L' ∧ L'.verts = L.verts ∧ L'.array = L.array.map f ∧
      L'.dict = L'.verts.zip L'.array ∧ (∀ p ∈ L.array, Moved (centerOf L.array) c k p (f p)) ∧
      s = k * scaleOf L.array ∧ (s = scaleOf L.array → k = 1) := by
  have hrow : ∀ p ∈ L.array, p.length = (centerOf L.array).length := fun p hp => (h.rows p hp).trans (centerOf_length h.rows hne).symm
  -- the scale
  have h1 : ∃ L1 f k, L.setScale (orElse scale (scaleOf L.array)) = .ok L1 ∧ Good D L1 ∧ L1.verts = L.verts ∧ L1.array = L.array.map f ∧
      L1.dict = L1.verts.zip L1.array ∧ (∀ p ∈ L.array, Moved (centerOf L.array) (centerOf L.array) k p (f p)) ∧
      s = k * scaleOf L.array ∧ (s = scaleOf L.array → k = 1) := by
    have same : orElse scale (scaleOf L.array) = s := by
      rcases hscale with ⟨e | e, rfl⟩ | ⟨e, hs, _⟩
      · rw [e]; rfl
      · rw [e]; unfold orElse; exact if_pos rfl
      · rw [e]; unfold orElse; exact if_neg hs
    rw [same]
    by_cases hs : s = 0
    · have h0 : scaleOf L.array = 0 := by
        rcases hscale with ⟨_, e⟩ | ⟨_, e, _⟩
        · exact e ▸ hs
        · exact absurd hs e
      refine ⟨L, id, 1, by unfold Layout.setScale; rw [if_pos hs], h, rfl, (List.map_id _).symm, hdict, ?_, by rw [hs, h0, mul_zero], fun _ => rfl⟩
      exact fun p hp => moved_self _ p (hrow p hp)
    · have h0 : scaleOf L.array ≠ 0 := by
        rcases hscale with ⟨_, e⟩ | ⟨_, _, e⟩
        · exact e ▸ hs
        · exact e
      obtain ⟨L1, f, e1, g1, v1, a1, d1, m1⟩ := setScale_ok h hs h0 hne
      exact ⟨L1, f, _, e1, g1, v1, a1, d1, m1, (div_mul_cancel₀ s h0).symm, fun e => by rw [e]; exact div_self h0⟩
  obtain ⟨L1, f, k, e1, g1, v1, a1, d1, m1, k1, k2⟩ := h1
  have hspec : L.specs center scale = L1.setCenter (orCenter center (centerOf L1.array)) := by
    unfold Layout.specs
    rw [e1]; rfl
  rw [hspec]
  have hne1 : L1.array ≠ [] := by rw [a1]; simpa using hne
  have hcen : centerOf L1.array = centerOf L.array :=
    isCentre_unique hne1 (isCentre_centerOf g1.rows hne1) (a1 ▸ isCentre_moved (isCentre_centerOf h.rows hne) rfl m1)
  have hclen : c.length = D := by
    rcases hcenter with ⟨_, rfl⟩ | ⟨_, e⟩
    · exact centerOf_length h.rows hne
    · exact e
  by_cases hnil : center = some []
  · have hc : c = centerOf L.array := by
      rcases hcenter with ⟨_, e⟩ | ⟨e, e'⟩
      · exact e
      · rw [hnil] at e
        rw [← Option.some.inj e] at e'
        exact absurd e'.symm hD
    subst hnil
    exact ⟨L1, f, k, by unfold Layout.setCenter orCenter; exact if_pos rfl, g1, v1, a1, d1, hc ▸ m1, k1, k2⟩
  · have heq : orCenter center (centerOf L1.array) = c := by
      rcases hcenter with ⟨e | e, rfl⟩ | ⟨e, _⟩
      · rw [e, ← hcen]; rfl
      · exact absurd e hnil
      · rw [e]; rfl
    rw [heq]
    obtain ⟨L2, f2, e2, g2, v2, a2, d2, m2⟩ := setCenter_ok g1 hD hclen hne1
    refine ⟨L2, f2 ∘ f, k, e2, g2, v2.trans v1, by rw [a2, a1, List.map_map], d2, ?_, k1, k2⟩
    intro p hp
    refine moved_trans (hrow p hp) (m1 p hp) ?_
    rw [← hcen]
    exact m2 (f p) (by rw [a1]; exact List.mem_map_of_mem hp)

/-- The dimension that the constructor sets. -/
theorem make_eq {verts : List V} (hn : verts.Nodup) {pos : List (V × Pt)} {rows : List Pt} (hrows : List.Forall₂ (fun v p => pos.lookup v = some p) verts rows)
    {d D : Nat} (hr : Rows d rows) (hne : rows ≠ []) {dim : Option Int} (hdim : (dim = none ∨ dim = some 0) ∧ D = d ∨ dim = some (D : Int) ∧ d ≤ D)
    (hD : D ≠ 0) (center : Option Pt) (scale : Option Rat) :
    ∃ L, Good D L ∧ L.verts = verts ∧ L.array = rows.map (fun r => r ++ List.replicate (D - d) 0) ∧ L.dict = L.verts.zip L.array ∧
      make verts pos dim center scale = L.specs center scale := by
  have hlen : rows.length = verts.length := (List.Forall₂.length_eq hrows).symm
  have hle : d ≤ D := by
    rcases hdim with ⟨_, e⟩ | ⟨_, e⟩
    · exact e ▸ Nat.le_refl _
    · exact e
  have hor : orElse dim ((dimOf rows : Nat) : Int) = (D : Int) := by
    rw [dimOf_rows hr hne]
    rcases hdim with ⟨e | e, rfl⟩ | ⟨e, _⟩
    · rw [e]; rfl
    · rw [e]; unfold orElse; exact if_pos rfl
    · rw [e]; unfold orElse; exact if_neg (by omega)
  obtain ⟨L, e1, g, v, a, dd⟩ := setDim_ok (L := ⟨verts, pos, rows⟩) ⟨hn, hlen, hr⟩ hne hle hD
  refine ⟨L, g, v, a, dd, ?_⟩
  unfold make
  rw [setLayout_ok hrows hr]
  show (do
    let L ← (⟨verts, pos, rows⟩ : Layout V).setDim (orElse dim ((dimOf rows : Nat) : Int))
    L.specs center scale) = _
  rw [hor, e1]
  rfl

end Lay
end MM
