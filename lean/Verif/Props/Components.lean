import Verif.Lay.ComponentsInv
import Verif.Spec.Components
import Verif.Props.Pack
import Verif.Props.Closest

/-! Property C73: components are laid out apart. -/

namespace MM

open Lay Spec.Layout Spec.Pack

variable {V : Type} [DecidableEq V]

namespace Lay

/-- The layout function gives a point to each node of a component with more than two nodes, and to no other node. -/
def Lays (layout : List V → Except Err (List (V × Pt))) (comps : List (List V)) : Prop :=
  ∀ c ∈ comps, 2 < c.length → ∀ d, layout c = .ok d → (d.map Prod.fst).Perm c

/-- The rotation keeps the number of points, and has coordinates of absolute value at most `B`. -/
def Turns (rotate : List Pt → Except Err (List Pt)) (B : Rat) : Prop :=
  ∀ pts pts', rotate pts = .ok pts' → pts'.length = pts.length ∧ ∀ p ∈ pts', ∀ x ∈ p, |x| ≤ B

theorem component_long {layout : List V → Except Err (List (V × Pt))} {rotate : List Pt → Except Err (List Pt)} {c : List V} (h : 2 < c.length) :
    component layout rotate c = (do
      let cpos ← layout c
      let pts ← rotate (cpos.map Prod.snd)
      let ps ← pts.mapM unpack2
      let (rpos, w, h) ← frame ps
      .ok ((cpos.map Prod.fst).zip rpos, side w, side h)) := by
  match c, h with
  | _ :: _ :: _ :: _, _ => rfl

theorem component_long_ok {layout : List V → Except Err (List (V × Pt))} {rotate : List Pt → Except Err (List Pt)} {c : List V} (h : 2 < c.length)
    {part : List (V × Rat × Rat) × Int × Int} (e : component layout rotate c = .ok part) :
    ∃ cpos ps rpos w h, layout c = .ok cpos ∧ rotate (cpos.map Prod.snd) = .ok (ps.map fun r => [r.1, r.2]) ∧ frame ps = .ok (rpos, w, h) ∧
      part = ((cpos.map Prod.fst).zip rpos, side w, side h) := by
  rw [component_long h] at e
  simp only [bind, Except.bind] at e
  cases h1 : layout c with
  | error x => simp only [h1] at e; cases e
  | ok cpos =>
    simp only [h1] at e
    cases h2 : rotate (cpos.map Prod.snd) with
    | error x => simp only [h2] at e; cases e
    | ok pts =>
      simp only [h2] at e
      cases h3 : pts.mapM unpack2 with
      | error x => simp only [h3] at e; cases e
      | ok ps =>
        simp only [h3] at e
        cases h4 : frame ps with
        | error x => simp only [h4] at e; cases e
        | ok r =>
          obtain ⟨rpos, w, h⟩ := r
          simp only [h4] at e
          cases e
          exact ⟨cpos, ps, rpos, w, h, rfl, by rw [h2, mapM_unpack2.mp h3], h4, rfl⟩

/-- What is known of one component. -/
structure PartOK (B : Int) (c : List V) (part : List (V × Rat × Rat) × Int × Int) : Prop where
  keys : (part.1.map Prod.fst).Perm c
  inside : ∀ e ∈ part.1, |e.2.1| ≤ (part.2.1 : Rat) / 2 ∧ |e.2.2| ≤ (part.2.2 : Rat) / 2
  small : part.2.1 ≤ B ∧ part.2.2 ≤ B

theorem coord_le {ps : List (Rat × Rat)} {B : Rat} (h : ∀ p ∈ ps.map (fun r => [r.1, r.2]), ∀ x ∈ p, |x| ≤ B) : ∀ r ∈ ps, |r.1| ≤ B ∧ |r.2| ≤ B := by
  intro r hr
  have := h _ (List.mem_map_of_mem hr)
  exact ⟨this _ List.mem_cons_self, this _ (List.mem_cons_of_mem _ List.mem_cons_self)⟩

theorem sub_le_of_abs {x y B : Rat} (hx : |x| ≤ B) (hy : |y| ≤ B) : x - y ≤ 2 * B := by
  have := abs_le.mp hx
  have := abs_le.mp hy
  linarith

theorem component_part {layout : List V → Except Err (List (V × Pt))} {rotate : List Pt → Except Err (List Pt)} {comps : List (List V)} (hl : Lays layout comps)
    {B : Nat} (hB : 0 < B) (hr : Turns rotate B) {c : List V} (hc : c ∈ comps) {part : List (V × Rat × Rat) × Int × Int}
    (e : component layout rotate c = .ok part) : PartOK (2 * B) c part := by
  by_cases hlen : 2 < c.length
  · obtain ⟨cpos, ps, rpos, w, h, h1, h2, h3, rfl⟩ := component_long_ok hlen e
    obtain ⟨⟨cx, cy, f1⟩, f2, ⟨p, hp, p', hp', f3⟩, ⟨q, hq, q', hq', f4⟩, f5, f6, _, _⟩ := frame_spec h3
    obtain ⟨r1, r2⟩ := hr _ _ h2
    have hb := coord_le r2
    have hlen' : rpos.length = (cpos.map Prod.fst).length := by
      rw [f1, List.length_map, List.length_map]
      simpa using r1
    refine ⟨?_, ?_, side_le ?_, side_le ?_⟩
    · show (((cpos.map Prod.fst).zip rpos).map Prod.fst).Perm c
      rw [List.map_fst_zip (by omega)]
      exact hl c hc hlen cpos h1
    · intro x hx
      obtain ⟨g1, g2⟩ := f2 _ (List.of_mem_zip hx).2
      have s1 := (side_spec w).1
      have s2 := (side_spec h).1
      show |x.2.1| ≤ (side w : Rat) / 2 ∧ |x.2.2| ≤ (side h : Rat) / 2
      constructor <;> linarith
    · rw [f3]
      have := sub_le_of_abs (hb p hp).1 (hb p' hp').1
      push_cast
      linarith
    · rw [f4]
      have := sub_le_of_abs (hb q hq).2 (hb q' hq').2
      push_cast
      linarith
  · match c, hlen, e with
    | [], _, e =>
      cases e
      exact ⟨.nil, (fun e h => nomatch h), by dsimp only; omega, by dsimp only; omega⟩
    | [v], _, e =>
      cases e
      refine ⟨.refl _, ?_, by dsimp only; omega, by dsimp only; omega⟩
      intro e he
      rw [List.mem_singleton.mp he]
      norm_num
    | [u, v], _, e =>
      cases e
      refine ⟨.refl _, ?_, by dsimp only; omega, by dsimp only; omega⟩
      intro e he
      rcases List.mem_cons.mp he with rfl | he
      · norm_num [abs_of_nonneg, abs_neg]
      · rw [List.mem_singleton.mp he]
        norm_num [abs_of_nonneg]
    | _ :: _ :: _ :: _, hlen, _ => exact absurd (by simp) hlen

theorem moveTo_keys (pos : Int × Int) (part : List (V × Rat × Rat) × Int × Int) : (moveTo pos part).map Prod.fst = part.1.map Prod.fst := by
  unfold moveTo
  rw [List.map_map]
  rfl

theorem moveTo_holds {B : Int} {c : List V} {part : List (V × Rat × Rat) × Int × Int} (h : PartOK B c part) (pos : Int × Int) {v : V} (hv : v ∈ c) :
    ∃ p, (v, p) ∈ moveTo pos part ∧ Holds ⟨pos.1, pos.2, part.2.1, part.2.2⟩ p := by
  obtain ⟨e, he, rfl⟩ := List.mem_map.mp (h.keys.mem_iff.mpr hv)
  obtain ⟨h1, h2⟩ := h.inside e he
  rw [abs_le] at h1 h2
  refine ⟨_, List.mem_map_of_mem he, _, _, rfl, ?_, ?_, ?_, ?_⟩
  · dsimp only; linarith
  · dsimp only; push_cast; linarith
  · dsimp only; linarith
  · dsimp only; push_cast; linarith

theorem packRects_ok {q : Pack.Qsort} {sizes pos : List (Int × Int)} : packRects q sizes = .ok pos ↔ Pack.pack false q sizes none none = .ok pos := by
  unfold packRects
  cases Pack.pack false q sizes none none with
  | ok p => simp
  | error e => simp

theorem zipWith_keys {pos : List (Int × Int)} {parts : List (List (V × Rat × Rat) × Int × Int)} (hl : pos.length = parts.length) :
    (List.zipWith moveTo pos parts).flatten.map Prod.fst = (parts.map fun p => p.1.map Prod.fst).flatten := by
  induction parts generalizing pos with
  | nil =>
    cases pos with
    | nil => rfl
    | cons a l => cases hl
  | cons p ps ih =>
    cases pos with
    | nil => cases hl
    | cons a l =>
      rw [List.zipWith_cons_cons, List.flatten_cons, List.map_append, moveTo_keys, ih (by simpa using hl), List.map_cons, List.flatten_cons]

theorem flatten_perm {α β : Type} {f : α → List β} {l : List (List β)} {ps : List α}
    (h : List.Forall₂ (fun c p => (f p).Perm c) l ps) : ((ps.map f).flatten).Perm l.flatten := by
  induction h with
  | nil => exact .nil
  | cons h _ ih => rw [List.map_cons, List.flatten_cons, List.flatten_cons]; exact h.append ih

theorem lookup_mem {d : List (V × Pt)} (hn : (d.map Prod.fst).Nodup) {v : V} {p : Pt} (h : (v, p) ∈ d) : d.lookup v = some p := by
  induction d with
  | nil => cases h
  | cons e d ih =>
    obtain ⟨k, x⟩ := e
    rw [List.map_cons, List.nodup_cons] at hn
    rw [List.lookup_cons]
    rcases List.mem_cons.mp h with h | hd
    · cases h
      simp
    · have : v ≠ k := by
        rintro rfl
        exact hn.1 (List.mem_map.mpr ⟨(v, p), hd, rfl⟩)
      rw [beq_false_of_ne this]
      exact ih hn.2 hd

theorem forall₂_mem {α β : Type} {R S : α → β → Prop} {l : List α} {m : List β} (h : List.Forall₂ R l m) :
    (∀ a ∈ l, ∀ b ∈ m, R a b → S a b) → List.Forall₂ S l m := by
  induction h with
  | nil => intro _; exact .nil
  | cons h _ ih =>
    intro f
    exact .cons (f _ List.mem_cons_self _ List.mem_cons_self h) (ih fun a ha b hb => f a (List.mem_cons_of_mem _ ha) b (List.mem_cons_of_mem _ hb))

theorem forall₂_source {α β : Type} {R : α → β → Prop} {l : List α} {m : List β} (h : List.Forall₂ R l m) : ∀ b ∈ m, ∃ a ∈ l, R a b := by
  induction h with
  | nil => intro b hb; cases hb
  | cons h _ ih =>
    intro b hb
    rcases List.mem_cons.mp hb with rfl | hb
    · exact ⟨_, List.mem_cons_self, h⟩
    · obtain ⟨a, ha, hr⟩ := ih b hb
      exact ⟨a, List.mem_cons_of_mem _ ha, hr⟩

theorem isScale_nonneg {a : List Pt} {c : Pt} {s : Rat} (h : IsScale a c s) : 0 ≤ s := by
  obtain ⟨_, _, _, _, x, y, _, _, e⟩ := h
  rw [← e]; exact abs_nonneg _

theorem all_hold {B : Int} {D : List (V × Pt)} {comps : List (List V)} {parts : List (List (V × Rat × Rat) × Int × Int)} (h : List.Forall₂ (PartOK B) comps parts) :
    ∀ {pos : List (Int × Int)}, pos.length = parts.length → (∀ e ∈ (List.zipWith moveTo pos parts).flatten, e ∈ D) →
      (∀ r ∈ place (parts.map Prod.snd) pos, 0 ≤ r.x ∧ 0 ≤ r.y) →
      List.Forall₂ (fun c r => 0 ≤ r.x ∧ 0 ≤ r.y ∧ ∀ v ∈ c, ∃ p, (v, p) ∈ D ∧ Holds r p) comps (place (parts.map Prod.snd) pos) := by
  induction h with
  | nil => intro pos _ _ _; cases pos <;> exact .nil
  | cons h _ ih =>
    intro pos hl hD h0
    cases pos with
    | nil => cases hl
    | cons a l =>
      rw [List.zipWith_cons_cons, List.flatten_cons] at hD
      refine .cons ?_ (ih (by simpa using hl) (fun e he => hD e (List.mem_append_right _ he)) (fun r hr => h0 r (List.mem_cons_of_mem _ hr)))
      obtain ⟨c1, c2⟩ := h0 _ List.mem_cons_self
      refine ⟨c1, c2, fun v hv => ?_⟩
      obtain ⟨p, hp, hh⟩ := moveTo_holds h a hv
      exact ⟨p, hD _ (List.mem_append_left _ hp), hh⟩

end Lay

variable {layout : List V → Except Err (List (V × Pt))} {rotate : List Pt → Except Err (List Pt)} {whole : Except Err (List (V × Pt))} {verts : List V}
  {comps : List (List V)} {dim : Option Int}

/-- What the layout of all components is made of. -/
theorem Lay.packed_parts {q : Pack.Qsort} (hq : Sorts q) (hn : comps.flatten.Nodup) (hcount : comps.length ≤ 2 ^ 31) (hl : Lays layout comps)
    (hr : Turns rotate ((2 ^ 29 : Nat) : Rat)) {d : List (V × Pt)} (h : packed q layout rotate comps = .ok d) :
    ∃ parts pos, List.Forall₂ (fun c part => component layout rotate c = .ok part) comps parts ∧ List.Forall₂ (PartOK (V := V) (2 * (2 ^ 29 : Nat))) comps parts ∧
      Packing (parts.map Prod.snd) pos ∧ pos.length = parts.length ∧ d = (List.zipWith moveTo pos parts).flatten ∧ (d.map Prod.fst).Perm comps.flatten := by
  unfold packed at h
  simp only [bind, Except.bind] at h
  cases h1 : comps.mapM (component layout rotate) with
  | error e => simp only [h1] at h; cases h
  | ok parts =>
    simp only [h1] at h
    cases h2 : packRects q (parts.map Prod.snd) with
    | error e => simp only [h2] at h; cases h
    | ok pos =>
      simp only [h2] at h
      have hF := mapM_forall₂.mp h1
      have hP : List.Forall₂ (PartOK (V := V) (2 * (2 ^ 29 : Nat))) comps parts :=
        forall₂_mem hF fun c hc part _ e => component_part hl (by norm_num) hr hc e
      have hlen := hP.length_eq
      have hsizes : ∀ p ∈ parts.map Prod.snd, p.1 < 2 ^ 31 ∧ p.2 < 2 ^ 31 := by
        intro p hp
        obtain ⟨part, hpart, rfl⟩ := List.mem_map.mp hp
        obtain ⟨c, _, hc⟩ := forall₂_source hP part hpart
        have := hc.small
        push_cast at this
        constructor <;> omega
      obtain ⟨hpack, _, _⟩ := C68_partial hq (by rw [List.length_map]; omega) hsizes (packRects_ok.mp h2)
      have hpl : pos.length = parts.length := by rw [hpack.all, List.length_map]
      have hkeys : ((List.zipWith moveTo pos parts).flatten.map Prod.fst).Perm comps.flatten := by
        rw [zipWith_keys hpl]
        exact flatten_perm (hP.imp fun _ _ h => h.keys)
      have hnod : ((List.zipWith moveTo pos parts).flatten.map Prod.fst).Nodup := hkeys.nodup_iff.mpr hn
      rw [foldl_setItem (by rw [List.nil_append]; exact hnod), List.nil_append] at h
      cases h
      exact ⟨parts, pos, hF, hP, hpack, hpl, rfl, hkeys⟩

theorem Lay.packed_spec {q : Pack.Qsort} (hq : Sorts q) (hn : comps.flatten.Nodup) (hcount : comps.length ≤ 2 ^ 31) (hl : Lays layout comps)
    (hr : Turns rotate ((2 ^ 29 : Nat) : Rat)) {d : List (V × Pt)} (h : packed q layout rotate comps = .ok d) :
    (d.map Prod.fst).Perm comps.flatten ∧ LaidApart comps d := by
  obtain ⟨parts, pos, hF, hP, hpack, hpl, rfl, hkeys⟩ := packed_parts hq hn hcount hl hr h
  have hnod := hkeys.nodup_iff.mpr hn
  refine ⟨hkeys, place (parts.map Prod.snd) pos, hpack.apart, ?_⟩
  refine (all_hold hP hpl (fun e he => he) hpack.corner).imp fun c r hr => ⟨hr.1, hr.2.1, fun v hv => ?_⟩
  obtain ⟨p, hp, hh⟩ := hr.2.2 v hv
  exact ⟨p, lookup_mem hnod hp, hh⟩

theorem Lay.moved_part {parts : List (List (V × Rat × Rat) × Int × Int)} {R : List V → List (V × Rat × Rat) × Int × Int → Prop} (h : List.Forall₂ R comps parts) :
    ∀ {pos : List (Int × Int)}, pos.length = parts.length → ∀ c ∈ comps, ∃ part a, R c part ∧ ∀ e ∈ moveTo a part, e ∈ (List.zipWith moveTo pos parts).flatten := by
  induction h with
  | nil => intro pos _ c hc; cases hc
  | cons h _ ih =>
    intro pos hl c hc
    cases pos with
    | nil => cases hl
    | cons a l =>
      rw [List.zipWith_cons_cons, List.flatten_cons]
      rcases List.mem_cons.mp hc with rfl | hc
      · exact ⟨_, a, h, fun e he => List.mem_append_left _ he⟩
      · obtain ⟨part, a', hR, hm⟩ := ih (by simpa using hl) c hc
        exact ⟨part, a', hR, fun e he => List.mem_append_right _ (hm e he)⟩

theorem Lay.packComponents_none {q : Pack.Qsort} (hdim : dim = none ∨ dim = some 2) :
    packComponents q layout rotate whole verts comps dim none = packed q layout rotate comps := by
  unfold packComponents
  rw [if_neg (by rcases hdim with rfl | rfl <;> simp)]
  cases packed q layout rotate comps <;> rfl

/-- C73, results: without a dimension other than 2 and without a scale, a layout has a point for each node, and the components are kept apart by rectangles. The
layout function has to give points to the nodes of each component; the points are bounded, so that the sizes of rectangles are. Missing: a component whose points
lie on a line (`C73_flat`). -/
theorem C73_partial {q : Pack.Qsort} (hq : Sorts q) (hn : comps.flatten.Nodup) (hcount : comps.length ≤ 2 ^ 31) (hl : Lays layout comps)
    (hr : Turns rotate ((2 ^ 29 : Nat) : Rat)) (hdim : dim = none ∨ dim = some 2) {d : List (V × Pt)}
    (h : packComponents q layout rotate whole verts comps dim none = .ok d) : (d.map Prod.fst).Perm comps.flatten ∧ LaidApart comps d := by
  rw [packComponents_none hdim] at h
  exact packed_spec hq hn hcount hl hr h

/-- C73, shapes: a component of more than two nodes is drawn as the layout function and the rotation have it, moved to its place; two nodes are drawn beside each
other at distance 1. -/
theorem C73_rigid {q : Pack.Qsort} (hq : Sorts q) (hn : comps.flatten.Nodup) (hcount : comps.length ≤ 2 ^ 31) (hl : Lays layout comps)
    (hr : Turns rotate ((2 ^ 29 : Nat) : Rat)) (hdim : dim = none ∨ dim = some 2) {d : List (V × Pt)}
    (h : packComponents q layout rotate whole verts comps dim none = .ok d) :
    (∀ c ∈ comps, 2 < c.length → ∃ (cpos : List (V × Pt)) (pts : List Pt) (tx ty : Rat), layout c = .ok cpos ∧ rotate (cpos.map Prod.snd) = .ok pts ∧
      ∀ (i : Nat) (v : V) (p p' : Pt), cpos[i]? = some (v, p) → pts[i]? = some p' → ∃ x y, p' = [x, y] ∧ d.lookup v = some [x + tx, y + ty]) ∧
    ∀ u v, [u, v] ∈ comps → ∃ x y, d.lookup u = some [x, y] ∧ d.lookup v = some [x + 1, y] := by
  rw [packComponents_none hdim] at h
  obtain ⟨parts, pos, hF, hP, hpack, hpl, rfl, hkeys⟩ := packed_parts hq hn hcount hl hr h
  have hnod := hkeys.nodup_iff.mpr hn
  refine ⟨?_, ?_⟩
  · intro c hc hlen
    obtain ⟨part, a, hR, hm⟩ := moved_part hF hpl c hc
    obtain ⟨cpos, ps, rpos, w, hh, h1, h2, h3, rfl⟩ := component_long_ok hlen hR
    obtain ⟨⟨cx, cy, f1⟩, _⟩ := frame_spec h3
    refine ⟨cpos, _, -cx + a.1 + (side w : Rat) / 2, -cy + a.2 + (side hh : Rat) / 2, h1, h2, ?_⟩
    intro i v p p' hv hp
    rw [List.getElem?_map] at hp
    cases hpi : ps[i]? with
    | none => rw [hpi] at hp; cases hp
    | some r =>
      rw [hpi] at hp
      cases hp
      refine ⟨r.1, r.2, rfl, ?_⟩
      have hz : ((cpos.map Prod.fst).zip rpos)[i]? = some (v, (r.1 - cx, r.2 - cy)) := by
        rw [List.getElem?_zip_eq_some]
        refine ⟨?_, ?_⟩
        · rw [List.getElem?_map, hv]; rfl
        · rw [f1, List.getElem?_map, hpi]; rfl
      have hmem := hm _ (List.mem_map_of_mem (List.mem_of_getElem? hz))
      rw [lookup_mem hnod hmem]
      congr 2
      · ring
      · congr 1; ring
  · intro u v hc
    obtain ⟨part, a, hR, hm⟩ := moved_part hF hpl _ hc
    cases hR
    have h1 := hm _ (List.mem_map_of_mem List.mem_cons_self)
    have h2 := hm _ (List.mem_map_of_mem (List.mem_cons_of_mem _ List.mem_cons_self))
    refine ⟨_, _, lookup_mem hnod h1, ?_⟩
    rw [lookup_mem hnod h2]
    congr 2
    ring

/-- C73, with a scale: the layout is that without scale, stretched to the given scale. -/
theorem C73_scaled {q : Pack.Qsort} (hq : Sorts q) (hn : comps.flatten.Nodup) (hcount : comps.length ≤ 2 ^ 31) (hl : Lays layout comps)
    (hr : Turns rotate ((2 ^ 29 : Nat) : Rat)) (hdim : dim = none ∨ dim = some 2) (hv : verts.Perm comps.flatten) {s : Rat} {d : List (V × Pt)}
    (h : packComponents q layout rotate whole verts comps dim (some s) = .ok d) :
    ∃ (d0 : List (V × Pt)) (old new : V → Pt) (c : Pt) (k : Rat), packComponents q layout rotate whole verts comps dim none = .ok d0 ∧ LaidApart comps d0 ∧ d = verts.map (fun v => (v, new v)) ∧
      (∀ v ∈ verts, d0.lookup v = some (old v) ∧ Spec.Layout.Moved c c k (old v) (new v)) ∧ IsCentre (verts.map new) c ∧ IsScale (verts.map new) c |s| := by
  unfold packComponents at h
  have hif : ¬ dim.elim false (fun d => d ≠ 2) = true := by rcases hdim with rfl | rfl <;> simp
  rw [if_neg hif] at h
  cases hp : packed q layout rotate comps with
  | error e => simp only [bind, Except.bind, hp] at h; cases h
  | ok d0 =>
    obtain ⟨hk, hapart⟩ := packed_spec hq hn hcount hl hr hp
    simp only [bind, Except.bind, hp] at h
    cases hrows : verts.mapM (item d0) with
    | error e => simp only [hrows] at h; cases h
    | ok rows =>
      simp only [hrows] at h
      split at h
      · cases h
      · rename_i hne
        cases hsc : scaleLayout rows s (scaleOf rows) (centerOf rows) with
        | error e => simp only [hsc] at h; cases h
        | ok a =>
          simp only [hsc] at h
          cases h
          have hrF := mapM_item.mp hrows
          have hold : ∀ v ∈ verts, ∃ x y : Rat, d0.lookup v = some [x, y] := by
            intro v hv'
            obtain ⟨rects, _, hF⟩ := hapart
            obtain ⟨c, hc, hvc⟩ := List.mem_flatten.mp (hv.mem_iff.mp hv')
            obtain ⟨r, _, hr⟩ := forall₂_source hF.flip c hc
            obtain ⟨p, hp, x, y, rfl, _⟩ := hr.2.2 v hvc
            exact ⟨x, y, hp⟩
          have hrows' : rows = verts.map fun v => (d0.lookup v).getD [] := by
            clear hne hsc hv hrows hold
            induction hrF with
            | nil => rfl
            | cons h _ ih => rw [List.map_cons, h, ← ih]; rfl
          have hrows2 : Rows 2 rows := by
            intro p hp
            rw [hrows'] at hp
            obtain ⟨v, hv', rfl⟩ := List.mem_map.mp hp
            obtain ⟨x, y, e⟩ := hold v hv'
            rw [e]; rfl
          have hcl := centerOf_length hrows2 hne
          have hcen := isCentre_centerOf hrows2 hne
          have hsca := isScale_scaleOf hrows2 hne (by decide)
          unfold scaleLayout at hsc
          split at hsc
          · cases hsc
          · rename_i h0
            cases hsc
            have hmoved : ∀ p ∈ rows, Spec.Layout.Moved (centerOf rows) (centerOf rows) (s / scaleOf rows) p
                (List.zipWith (fun x c => (s / scaleOf rows) * (x - c) + c) p (centerOf rows)) := by
              intro p hp
              refine ⟨by rw [List.length_zipWith, hcl, hrows2 p hp, Nat.min_self], ?_⟩
              intro i x y z hx hy hz
              have : y = z := Option.some.inj (hy.symm.trans hz)
              subst this
              exact zipWith_idx (f := fun x c => (s / scaleOf rows) * (x - c) + c) hx hy
            have hmap : rows.map (fun r => List.zipWith (fun x c => (s / scaleOf rows) * (x - c) + c) r (centerOf rows)) =
                verts.map fun v => List.zipWith (fun x c => (s / scaleOf rows) * (x - c) + c) ((d0.lookup v).getD []) (centerOf rows) := by
              conv_lhs => rw [hrows']
              rw [List.map_map]
              rw [← hrows']
              rfl
            refine ⟨d0, fun v => (d0.lookup v).getD [],
              fun v => List.zipWith (fun x c => (s / scaleOf rows) * (x - c) + c) ((d0.lookup v).getD []) (centerOf rows), centerOf rows, s / scaleOf rows, ?_, hapart, ?_, ?_, ?_, ?_⟩
            · unfold packComponents
              rw [if_neg hif]
              simp only [bind, Except.bind, hp]
            · rw [← Lay.zip_map, hmap]
            · intro v hv'
              obtain ⟨x, y, e⟩ := hold v hv'
              refine ⟨by dsimp only; rw [e]; rfl, hmoved _ ?_⟩
              rw [hrows']
              exact List.mem_map.mpr ⟨v, hv', rfl⟩
            · have := isCentre_moved hcen rfl hmoved
              rwa [hmap] at this
            · have := isScale_moved hcen.1 hsca rfl hmoved
              rwa [hmap, abs_div, abs_of_nonneg (isScale_nonneg hsca), div_mul_cancel₀ _ h0] at this

/-- C73, success: if the rotated points of each component of more than two nodes differ in both coordinates, and are bounded by 2¹⁴, there is a layout. -/
theorem C73_succeeds {q : Pack.Qsort} (hq : Sorts q) (hcount : comps.length ≤ 2 ^ 31) (hr : Turns rotate ((2 ^ 14 : Nat) : Rat))
    (hdim : dim = none ∨ dim = some 2)
    (hok : ∀ c ∈ comps, 2 < c.length → ∃ cpos pts, layout c = .ok cpos ∧ rotate (cpos.map Prod.snd) = .ok pts ∧ (∀ p ∈ pts, p.length = 2) ∧
      ∀ i < 2, ∃ p ∈ pts, ∃ p' ∈ pts, p[i]? ≠ p'[i]?) :
    ∃ d, packComponents q layout rotate whole verts comps dim none = .ok d := by
  rw [packComponents_none hdim]
  have hcomp : ∀ c ∈ comps, ∃ part, component layout rotate c = .ok part ∧ 0 < part.2.1 ∧ 0 < part.2.2 ∧ part.2.1 ≤ 2 ^ 15 ∧ part.2.2 ≤ 2 ^ 15 := by
    intro c hc
    by_cases hlen : 2 < c.length
    · obtain ⟨cpos, pts, h1, h2, h3, h4⟩ := hok c hc hlen
      obtain ⟨ps, rfl⟩ : ∃ ps : List (Rat × Rat), pts = ps.map fun r => [r.1, r.2] := by
        clear h2 h4
        induction pts with
        | nil => exact ⟨[], rfl⟩
        | cons p pts ih =>
          obtain ⟨ps, e⟩ := ih fun p hp => h3 p (List.mem_cons_of_mem _ hp)
          match p, h3 p List.mem_cons_self with
          | [x, y], _ => exact ⟨(x, y) :: ps, by rw [e]; rfl⟩
      have hne : ps ≠ [] := by
        rintro rfl
        obtain ⟨p, hp, _⟩ := h4 0 (by decide)
        cases hp
      obtain ⟨⟨rpos, w, hh⟩, h5⟩ := frame_ok hne
      obtain ⟨_, _, ⟨p, hp, p', hp', f3⟩, ⟨r, hr1, r', hr2, f4⟩, _, _, f7, f8⟩ := frame_spec h5
      have hb := coord_le (hr _ _ h2).2
      refine ⟨((cpos.map Prod.fst).zip rpos, side w, side hh), ?_, ?_, ?_, ?_, ?_⟩
      · rw [component_long hlen]
        simp only [bind, Except.bind, h1, h2, mapM_unpack2.mpr rfl, h5]
      · refine (side_spec w).2.2 (f7 ?_)
        obtain ⟨x, hx, y, hy, hxy⟩ := h4 0 (by decide)
        obtain ⟨a, ha, rfl⟩ := List.mem_map.mp hx
        obtain ⟨b, hb, rfl⟩ := List.mem_map.mp hy
        exact ⟨a, ha, b, hb, fun e => hxy (by show some a.1 = some b.1; rw [e])⟩
      · refine (side_spec hh).2.2 (f8 ?_)
        obtain ⟨x, hx, y, hy, hxy⟩ := h4 1 (by decide)
        obtain ⟨a, ha, rfl⟩ := List.mem_map.mp hx
        obtain ⟨b, hb, rfl⟩ := List.mem_map.mp hy
        exact ⟨a, ha, b, hb, fun e => hxy (by show some a.2 = some b.2; rw [e])⟩
      · refine side_le ?_
        rw [f3]
        have := sub_le_of_abs (hb p hp).1 (hb p' hp').1
        push_cast at this ⊢
        linarith
      · refine side_le ?_
        rw [f4]
        have := sub_le_of_abs (hb r hr1).2 (hb r' hr2).2
        push_cast at this ⊢
        linarith
    · match c, hlen with
      | [], _ => exact ⟨_, rfl, Int.lt_of_sub_pos (by simp), Int.lt_of_sub_pos (by simp), by simp, by simp⟩
      | [v], _ => exact ⟨_, rfl, Int.lt_of_sub_pos (by simp), Int.lt_of_sub_pos (by simp), by simp, by simp⟩
      | [u, v], _ => exact ⟨_, rfl, Int.lt_of_sub_pos (by simp), Int.lt_of_sub_pos (by simp), by simp, by simp⟩
      | _ :: _ :: _ :: _, hlen => exact absurd (by simp) hlen
  obtain ⟨parts, hF⟩ : ∃ parts, List.Forall₂ (fun c part => component layout rotate c = .ok part ∧ 0 < part.2.1 ∧ 0 < part.2.2 ∧ part.2.1 ≤ 2 ^ 15 ∧ part.2.2 ≤ 2 ^ 15)
      comps parts := by
    clear hok hcount
    induction comps with
    | nil => exact ⟨[], .nil⟩
    | cons c cs ih =>
      obtain ⟨part, h⟩ := hcomp c List.mem_cons_self
      obtain ⟨parts, h'⟩ := ih fun c hc => hcomp c (List.mem_cons_of_mem _ hc)
      exact ⟨part :: parts, .cons h h'⟩
  unfold packed
  rw [mapM_forall₂.mpr (hF.imp fun _ _ h => h.1)]
  have hsz : ∀ p ∈ parts.map Prod.snd, 0 < p.1 ∧ 0 < p.2 ∧ p.1 ≤ 2 ^ 15 ∧ p.2 ≤ 2 ^ 15 := by
    intro p hp
    obtain ⟨part, hpart, rfl⟩ := List.mem_map.mp hp
    obtain ⟨c, _, hc⟩ := forall₂_source hF part hpart
    exact hc.2
  have hlen : (parts.map Prod.snd).length ≤ 2 ^ 31 := by rw [List.length_map, ← hF.length_eq]; exact hcount
  have hpos : ∃ pos, Pack.pack false q (parts.map Prod.snd) none none = .ok pos := by
    by_cases hne : parts.map Prod.snd = []
    · rw [hne]; exact ⟨_, rfl⟩
    · have hsum : ∀ f : Int × Int → Int, (∀ p ∈ parts.map Prod.snd, f p ≤ 2 ^ 15) → ((parts.map Prod.snd).map f).sum ≤ 2 ^ 15 * (parts.map Prod.snd).length := by
        intro f hf
        generalize parts.map Prod.snd = l at hf
        induction l with
        | nil => simp
        | cons a l ih =>
          have h1 := hf a List.mem_cons_self
          have h2 := ih fun p hp => hf p (List.mem_cons_of_mem _ hp)
          rw [List.map_cons, List.sum_cons, List.length_cons]
          push_cast
          omega
      have bound : ∀ a s : Int, 0 < a → a ≤ 2 ^ 15 → s ≤ 2 ^ 15 * 2 ^ 31 → a * s < 2 ^ 63 - 2 := by
        intro a s h1 h2 h3
        calc a * s ≤ a * (2 ^ 15 * 2 ^ 31) := Int.mul_le_mul_of_nonneg_left h3 (by omega)
          _ ≤ 2 ^ 15 * (2 ^ 15 * 2 ^ 31) := Int.mul_le_mul_of_nonneg_right h2 (by norm_num)
          _ < 2 ^ 63 - 2 := by norm_num
      have hl' : (2 ^ 15 : Int) * (parts.map Prod.snd).length ≤ 2 ^ 15 * 2 ^ 31 := by
        refine Int.mul_le_mul_of_nonneg_left ?_ (by norm_num)
        exact_mod_cast hlen
      obtain ⟨pos, _, _, h1, _⟩ := C69_partial hq hne hlen (fun p hp => by
          obtain ⟨a, b, c, d⟩ := hsz p hp
          refine ⟨a, b, ?_⟩
          calc p.1 * p.2 ≤ p.1 * 2 ^ 15 := Int.mul_le_mul_of_nonneg_left d (by omega)
            _ ≤ 2 ^ 15 * 2 ^ 15 := Int.mul_le_mul_of_nonneg_right c (by norm_num)
            _ < 2 ^ 31 := by norm_num)
        (fun p hp => bound _ _ (hsz p hp).2.1 (hsz p hp).2.2.2 ((hsum _ fun r hr => (hsz r hr).2.2.1).trans hl'))
        (fun p hp => bound _ _ (hsz p hp).1 (hsz p hp).2.2.1 ((hsum _ fun r hr => (hsz r hr).2.2.2).trans hl'))
      exact ⟨pos, h1⟩
  obtain ⟨pos, hpos⟩ := hpos
  simp only [bind, Except.bind, packRects_ok.mpr hpos]
  exact ⟨_, rfl⟩

/-- With a dimension other than 2 the layout function is called for the graph as it is. -/
theorem C73_dim {q : Pack.Qsort} {n : Int} (hn : n ≠ 2) {scale : Option Rat} :
    packComponents q layout rotate whole verts comps (some n) scale = whole := by
  unfold packComponents
  rw [if_pos (by simpa using hn)]

end MM

namespace MM

open Lay Spec.Layout Spec.Pack

namespace Demo

/-- A triangle, an edge and a node. -/
def threeComps : List (List Nat) := [[0, 1, 2], [3, 4], [5]]

def triangleLayout : List Nat → Except Lay.Err (List (Nat × Pt)) := fun c => .ok (c.zip [[0, 0], [2, 0], [1, 3/2]])

/-- Three points on a line. -/
def lineLayout : List Nat → Except Lay.Err (List (Nat × Pt)) := fun c => .ok (c.zip [[0, 0], [1, 0], [2, 0]])

/-- The rotation by nothing, for points that are not too large. -/
def noTurn (B : Rat) (pts : List Pt) : Except Lay.Err (List Pt) := if pts.all fun p => p.all fun x => |x| ≤ B then .ok pts else .error .value

end Demo

/-- **C73 fails** for a component whose points lie on a line: its rectangle has no height, which the packer refuses. -/
theorem C73_flat : (match packComponents Pack.demoSort Demo.lineLayout (Demo.noTurn 10) (.error .key) [0, 1, 2] [[0, 1, 2]] none none with
    | .ok _ => false | .error e => decide (e = .value)) = true := by decide +kernel

/-- A centre of three coordinates without dimension: points of two coordinates are computed, which cannot be moved to that centre. -/
theorem C73_center : (match packComponents Pack.demoSort Demo.lineLayout (Demo.noTurn 10) (.error .key) [0] [[0]] none none with
    | .ok d => (match make [0] d none (some [0, 0, 0]) none with | .ok _ => false | .error e => decide (e = .value))
    | .error _ => false) = true := by decide +kernel

example : packComponents Pack.demoSort Demo.triangleLayout (Demo.noTurn 10) (.error .key) [0, 1, 2, 3, 4, 5] Demo.threeComps none none =
    .ok [(0, [0, 1/4]), (1, [2, 1/4]), (2, [1, 7/4]), (3, [5/2, 1/2]), (4, [7/2, 1/2]), (5, [5/2, 3/2])] := Lay.ok_of_toOption (by decide +kernel)

theorem Demo.noTurn_turns (B : Rat) : Turns (Demo.noTurn B) B := by
  intro pts pts' h
  unfold Demo.noTurn at h
  split at h
  · rename_i hall
    cases h
    refine ⟨rfl, fun p hp x hx => ?_⟩
    exact of_decide_eq_true (List.all_eq_true.mp (List.all_eq_true.mp hall p hp) x hx)
  · cases h

theorem Demo.triangle_lays : Lays Demo.triangleLayout Demo.threeComps := by
  intro c hc hlen d hd
  rcases List.mem_cons.mp hc with rfl | hc
  · cases hd; exact .refl _
  · rcases List.mem_cons.mp hc with rfl | hc
    · exact absurd hlen (by decide)
    · rw [List.mem_singleton.mp hc] at hlen; exact absurd hlen (by decide)

example {d : List (Nat × Pt)} (h : packComponents Pack.demoSort Demo.triangleLayout (Demo.noTurn ((2 ^ 29 : Nat) : Rat)) (.error .key) [0, 1, 2, 3, 4, 5]
    Demo.threeComps none none = .ok d) : LaidApart Demo.threeComps d :=
  (C73_partial Pack.demoSort_sorts (by decide) (by decide) Demo.triangle_lays (Demo.noTurn_turns _) (.inl rfl) h).2

/-- The hypotheses of `C73_succeeds` are met. -/
example : ∃ d, packComponents Pack.demoSort Demo.triangleLayout (Demo.noTurn ((2 ^ 14 : Nat) : Rat)) (.error .key) [0, 1, 2, 3, 4, 5] Demo.threeComps none none = .ok d := by
  refine C73_succeeds Pack.demoSort_sorts (by decide) (Demo.noTurn_turns _) (.inl rfl) ?_
  intro c hc hlen
  rcases List.mem_cons.mp hc with rfl | hc
  · refine ⟨_, [[0, 0], [2, 0], [1, 3/2]], rfl, Lay.ok_of_toOption (by decide +kernel), by decide, fun i hi => ?_⟩
    match i, hi with
    | 0, _ => exact ⟨[0, 0], by simp, [2, 0], by simp, by simp⟩
    | 1, _ => exact ⟨[0, 0], by simp, [1, 3/2], by simp, by decide +kernel⟩
  · rcases List.mem_cons.mp hc with rfl | hc
    · exact absurd hlen (by decide)
    · rw [List.mem_singleton.mp hc] at hlen; exact absurd hlen (by decide)

end MM
