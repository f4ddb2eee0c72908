import Verif.Lay.Find
import Verif.Props.Closest
import Verif.Props.Labels

/-! Properties C76 and C77: layout-aware embeddings and the scale of placements. -/

namespace MM

open Lay Py Spec.Py Spec.Layout Scratch Run

variable {α : Type} [DecidableEq α]

/-! ### C77 -/

theorem Lay.moved_one {c p q : Pt} (h : Spec.Layout.Moved c c 1 p q) (hl : p.length = c.length) : q = p := by
  refine List.ext_getElem? fun i => ?_
  cases hx : p[i]? with
  | none =>
    have := List.getElem?_eq_none_iff.mp hx
    exact List.getElem?_eq_none_iff.mpr (by rw [h.1]; exact this)
  | some x =>
    have hi : i < c.length := hl ▸ (List.getElem?_eq_some_iff.mp hx).1
    have hy := List.getElem?_eq_getElem hi
    rw [h.2 i x _ _ hx hy hy]
    ring_nf

theorem Lay.Shows.lookup {L : Layout α} {verts : List α} {pt : α → Pt} (h : Shows L verts pt) (v : α) (hv : v ∈ verts) : L.dict.lookup v = some (pt v) := by
  rw [h.2.1]
  clear h
  induction verts with
  | nil => cases hv
  | cons w ws ih =>
    rw [List.map_cons, List.lookup_cons]
    by_cases e : v = w
    · subst e; simp
    · rw [show (v == w) = false from beq_eq_false_iff_ne.mpr e]
      exact ih (List.mem_of_ne_of_mem e hv)

/-- A copy has the same points. -/
theorem Lay.copy_ok {L : Layout α} {verts : List α} {pt : α → Pt} (hL : Shows L verts pt) (hn : verts.Nodup) (hne : verts ≠ []) {c : Pt} {s : Rat}
    (hc : IsCentre (verts.map pt) c) (hs : IsScale (verts.map pt) c s) : ∃ L', L.copy = .ok L' ∧ Shows L' verts pt := by
  have hlen : ∀ v ∈ verts, (pt v).length = c.length := fun v hv => hc.1 _ (List.mem_map_of_mem hv)
  have h0 : 0 < c.length := by
    obtain ⟨_, p, _, i, x, y, _, hy, _⟩ := hs
    have := (List.getElem?_eq_some_iff.mp hy).1
    omega
  obtain ⟨L', new, k, e, h1, _, _, h2, _, h3⟩ := C72_partial hn hne h0 (old := pt) (pad := pt) (D := c.length)
    (fun v hv => ⟨hL.lookup v hv, hlen v hv⟩)
    (fun v hv => ⟨hlen v hv, fun i hi => by
      rw [List.getElem?_eq_getElem (by rw [hlen v hv]; exact hi)]; rfl⟩)
    (dim := none) (.inl ⟨.inl rfl, rfl⟩) hc hs (center := none) (c := c) (.inl ⟨.inl rfl, rfl⟩) (scale := none) (s := s) (.inl ⟨.inl rfl, rfl⟩)
  have hnew : ∀ v ∈ verts, new v = pt v := fun v hv => by
    have := h2 v hv
    rw [h3 rfl] at this
    exact moved_one this (hlen v hv)
  refine ⟨L', ?_, h1.1, ?_, ?_⟩
  · unfold Layout.copy; rw [hL.1]; exact e
  · rw [h1.2.1]; exact List.map_congr_left fun v hv => by rw [hnew v hv]
  · rw [h1.2.2]; exact List.map_congr_left hnew

theorem Lay.Shows.measure {L : Layout α} {verts : List α} {pt : α → Pt} (hL : Shows L verts pt) (hne : verts ≠ []) {c : Pt} {s : Rat}
    (hc : IsCentre (verts.map pt) c) (hs : IsScale (verts.map pt) c s) : dimOf L.array = c.length ∧ scaleOf L.array = s := by
  have hneL : L.array ≠ [] := by rw [hL.2.2]; simpa using hne
  have hrows : Rows c.length L.array := fun p hp => hc.1 p (hL.2.2 ▸ hp)
  have hD : c.length ≠ 0 := by
    obtain ⟨_, p, _, i, x, y, _, hy, _⟩ := hs
    intro e
    rw [List.length_eq_zero_iff.mp e] at hy
    cases hy
  have ec : centerOf L.array = c := isCentre_unique hneL (isCentre_centerOf hrows hneL) (hL.2.2 ▸ hc)
  exact ⟨dimOf_rows hrows hneL, isScale_unique (isScale_scaleOf hrows hneL hD) (ec ▸ hL.2.2 ▸ hs)⟩

/-- The scale of S in a placement: that of T if S is larger; otherwise the ratio times that of T if a ratio is given. It is left alone if this is zero. -/
def Spec.Layout.placedScale (s t : Rat) (ratio : Option Rat) : Rat :=
  if t < s then (if t = 0 then s else t)
  else match ratio with
    | none => s
    | some r => if r * t = 0 then s else |r * t|

/-- A placement of layouts of the same dimension works on the points of T as they are, and on the points of S stretched around their centre to the scale of
`placedScale`, unless all points of S are the same and a ratio is given. -/
theorem C77_partial {S T : Layout α} {vs vt : List α} {ps pt : α → Pt} (hS : Shows S vs ps) (hT : Shows T vt pt) (hns : vs.Nodup) (hnt : vt.Nodup)
    (hes : vs ≠ []) (het : vt ≠ []) {cs ct : Pt} {s t : Rat} (hcs : IsCentre (vs.map ps) cs) (hss : IsScale (vs.map ps) cs s)
    (hct : IsCentre (vt.map pt) ct) (hst : IsScale (vt.map pt) ct t) (hdim : cs.length = ct.length) {ratio : Option Rat}
    (h0 : s ≠ 0 ∨ ratio = none ∨ ratio = some 0 ∨ t = 0) :
    ∃ S' T' new k, placementLayouts S T ratio = .ok (S', T') ∧ Shows T' vt pt ∧ Shows S' vs new ∧ IsCentre (vs.map new) cs ∧
      IsScale (vs.map new) cs (placedScale s t ratio) ∧ ∀ v ∈ vs, Spec.Layout.Moved cs cs k (ps v) (new v) := by
  obtain ⟨S', eS, hS'⟩ := copy_ok hS hns hes hcs hss
  obtain ⟨T', eT, hT'⟩ := copy_ok hT hnt het hct hst
  obtain ⟨d1, s1⟩ := hS'.measure hes hcs hss
  obtain ⟨d2, s2⟩ := hT'.measure het hct hst
  have hrun : placementLayouts S T ratio = (do .ok (← fitScale S' T' ratio, T')) := by
    unfold placementLayouts
    rw [eS, eT]
    show (if dimOf S'.array ≠ dimOf T'.array then _ else _) = _
    rw [if_neg (by rw [d1, d2, hdim]; simp)]
  have hnn : 0 ≤ s := by
    obtain ⟨_, p, _, i, x, y, _, _, h⟩ := hss
    rw [← h]; exact abs_nonneg _
  have htn : 0 ≤ t := by
    obtain ⟨_, p, _, i, x, y, _, _, h⟩ := hst
    rw [← h]; exact abs_nonneg _
  -- one way to end for all cases
  have key : ∀ x : Rat, (x = 0 ∧ fitScale S' T' ratio = .ok S' ∧ placedScale s t ratio = s ∨
      fitScale S' T' ratio = S'.setScale x ∧ placedScale s t ratio = (if x = 0 then s else |x|) ∧ (x = 0 ∨ s ≠ 0)) →
      ∃ S'' new k, fitScale S' T' ratio = .ok S'' ∧ Shows S'' vs new ∧ IsCentre (vs.map new) cs ∧
        IsScale (vs.map new) cs (placedScale s t ratio) ∧ ∀ v ∈ vs, Spec.Layout.Moved cs cs k (ps v) (new v) := by
    intro x hx
    have hself : ∀ v ∈ vs, Spec.Layout.Moved cs cs 1 (ps v) (ps v) := fun v hv => moved_self cs _ (hcs.1 _ (List.mem_map_of_mem hv))
    rcases hx with ⟨_, h1, h2⟩ | ⟨h1, h2, h3⟩
    · exact ⟨S', ps, 1, h1, hS', hcs, by rw [h2]; exact hss, hself⟩
    · by_cases h : x = 0
      · rw [if_pos h] at h2
        refine ⟨S', ps, 1, ?_, hS', hcs, by rw [h2]; exact hss, hself⟩
        rw [h1]; unfold Layout.setScale; rw [if_pos h]
      · rw [if_neg h] at h2
        obtain ⟨S'', new, e, k1, k2, k3, k4⟩ := C72_set_scale hS' hns hes hcs hss (h3.resolve_left h) h
        exact ⟨S'', new, x / s, h1.trans e, k1, k2, h2 ▸ k3, k4⟩
  have fin : ∃ x : Rat, (x = 0 ∧ fitScale S' T' ratio = .ok S' ∧ placedScale s t ratio = s ∨
      fitScale S' T' ratio = S'.setScale x ∧ placedScale s t ratio = (if x = 0 then s else |x|) ∧ (x = 0 ∨ s ≠ 0)) := by
    unfold fitScale placedScale
    rw [s1, s2]
    by_cases hlt : t < s
    · refine ⟨t, .inr ⟨if_pos hlt, ?_, .inr fun h => ?_⟩⟩
      · rw [if_pos hlt, abs_of_nonneg htn]
      · rw [h] at hlt; exact absurd hlt (not_lt.mpr htn)
    · rw [if_neg hlt, if_neg hlt]
      cases ratio with
      | none => exact ⟨0, .inl ⟨rfl, rfl, rfl⟩⟩
      | some r =>
        dsimp only
        by_cases hr : r = 0
        · exact ⟨0, .inl ⟨rfl, if_pos hr, if_pos (by rw [hr, zero_mul])⟩⟩
        · refine ⟨r * t, .inr ⟨if_neg hr, rfl, ?_⟩⟩
          rcases h0 with h | h | h | h
          · exact .inr h
          · cases h
          · exact absurd (Option.some.inj h) hr
          · exact .inl (by rw [h, mul_zero])
  obtain ⟨x, hx⟩ := fin
  obtain ⟨S'', new, k, e, k1, k2, k3, k4⟩ := key x hx
  refine ⟨S'', T', new, k, ?_, hT', k1, k2, k3, k4⟩
  rw [hrun, e]; rfl

/-! ### C76 -/

section
variable {sorted : List α → List α} {graphLayout : GraphArg α → LayoutKw → Except Lay.Err (List (α × Pt))}

/-- The graph a graph argument stands for. -/
def Lay.GraphArg.graph (G : GraphArg α) : Py.Graph α := inputGraph G.edges G.nodes

/-- What `layout.find_embedding` does: it returns a result exactly if layouts and placement can be computed, some of the timeout is left and `minorminer.find_embedding`
returns this result for the same graphs, the timeout that is left, the keyword arguments that are left and the placement as hint. -/
theorem C76_result {mm : Option Rat → Args α → Except PyErr (Result α)} {elapsed : Rat} {S T : GraphArg α} {layout : LayoutArg α} {p : PlaceArg α}
    {hint : Hint} {rl : Bool} {kw : Kwargs α} {r : Result α} {ls : Option (Layout α × Layout α)} :
    Lay.find sorted graphLayout mm elapsed S T layout p hint rl kw = .ok (r, ls) ↔
      ∃ LS LT d left a, parseLayouts sorted graphLayout S T layout kw.lay = .ok (LS, LT) ∧ placement LS LT p kw.place = .ok d ∧
        (kw.timeout = none ∧ left = none ∨ ∃ t, kw.timeout = some t ∧ elapsed < t ∧ left = some (t - elapsed)) ∧
        (a.srcE = S.edges ∧ a.srcN = S.nodes ∧ a.tgtE = T.edges ∧ a.tgtN = T.nodes ∧ a.fixed = kw.fixed ∧ a.restr = kw.restr) ∧
        (hint = .initial ∧ kw.initial = none ∧ a.initial = d ∧ a.suspend = kw.suspend.elim [] id ∨
          hint = .suspend ∧ kw.suspend = none ∧ a.suspend = d.map (fun e => (e.1, [e.2])) ∧ a.initial = kw.initial.elim [] id) ∧
        mm left a = .ok r ∧ ls = if rl then some (LS, LT) else none := by
  unfold Lay.find
  constructor
  · intro h
    cases h1 : parseLayouts sorted graphLayout S T layout kw.lay with
    | error e => rw [h1] at h; cases h
    | ok ST =>
      obtain ⟨LS, LT⟩ := ST
      rw [h1] at h
      simp only [liftLay, bind, Except.bind] at h
      cases h2 : placement LS LT p kw.place with
      | error e => rw [h2] at h; cases h
      | ok d =>
        rw [h2] at h
        simp only at h
        cases h3 : timeLeft kw.timeout elapsed with
        | error e => rw [h3] at h; cases h
        | ok left =>
          rw [h3] at h
          simp only at h
          cases h4 : hinted S T kw d hint with
          | error e => rw [h4] at h; cases h
          | ok a =>
            rw [h4] at h
            simp only at h
            cases h5 : mm left a with
            | error e => rw [h5] at h; cases h
            | ok r' =>
              rw [h5] at h
              have h6 := Prod.mk.inj (Except.ok.inj h)
              refine ⟨LS, LT, d, left, a, rfl, h2, ?_, ?_, ?_, h6.1 ▸ h5, h6.2.symm⟩
              · unfold timeLeft at h3
                cases ht : kw.timeout with
                | none => rw [ht] at h3; exact .inl ⟨rfl, (Except.ok.inj h3).symm⟩
                | some t =>
                  rw [ht] at h3
                  dsimp only at h3
                  split at h3
                  · cases h3
                  · rename_i hl
                    exact .inr ⟨t, rfl, sub_pos.mp (not_le.mp hl), (Except.ok.inj h3).symm⟩
              · cases hint with
                | initial =>
                  unfold hinted at h4
                  cases hi : kw.initial with
                  | some x => rw [hi] at h4; cases h4
                  | none => rw [hi] at h4; rw [← Except.ok.inj h4]; exact ⟨rfl, rfl, rfl, rfl, rfl, rfl⟩
                | suspend =>
                  unfold hinted at h4
                  cases hi : kw.suspend with
                  | some x => rw [hi] at h4; cases h4
                  | none => rw [hi] at h4; rw [← Except.ok.inj h4]; exact ⟨rfl, rfl, rfl, rfl, rfl, rfl⟩
                | other => cases h4
              · cases hint with
                | initial =>
                  unfold hinted at h4
                  cases hi : kw.initial with
                  | some x => rw [hi] at h4; cases h4
                  | none => rw [hi] at h4; rw [← Except.ok.inj h4]; exact .inl ⟨rfl, rfl, rfl, rfl⟩
                | suspend =>
                  unfold hinted at h4
                  cases hi : kw.suspend with
                  | some x => rw [hi] at h4; cases h4
                  | none => rw [hi] at h4; rw [← Except.ok.inj h4]; exact .inr ⟨rfl, rfl, rfl, rfl⟩
                | other => cases h4
  · rintro ⟨LS, LT, d, left, a, h1, h2, h3, ⟨e1, e2, e3, e4, e5, e6⟩, h4, h5, rfl⟩
    have ht : timeLeft kw.timeout elapsed = .ok left := by
      rcases h3 with ⟨h, rfl⟩ | ⟨t, h, hlt, rfl⟩
      · rw [h]; rfl
      · rw [h]; unfold timeLeft; exact if_neg (not_le.mpr (sub_pos.mpr hlt))
    have ha : hinted S T kw d hint = .ok a := by
      obtain ⟨a1, a2, a3, a4, a5, a6, a7, a8⟩ := a
      dsimp only at e1 e2 e3 e4 e5 e6 h4
      rcases h4 with ⟨rfl, hi, rfl, rfl⟩ | ⟨rfl, hi, rfl, rfl⟩
      · unfold hinted; rw [hi, e1, e2, e3, e4, e5, e6]
      · unfold hinted; rw [hi, e1, e2, e3, e4, e5, e6]
    simp only [bind, Except.bind, liftLay, h1, h2, ht, ha, h5]

variable {pin : α → Nat → α} {sort : List (List Nat) → List (List Nat)}

/-- Whatever layouts, placement, scale and clock are: without fixed chains and restricted domains a successful result is a minor embedding. (Placements, and initial
chains if given, are dicts: no key occurs twice.) -/
theorem C76_partial (hs : SortOK sort) {C : Cfg} {A : Option Rat → Params} {ro : Bool} {tape : Tape} {elapsed : Rat} {S T : GraphArg α} {layout : LayoutArg α}
    {p : PlaceArg α} {hint : Hint} {rl : Bool} {kw : Kwargs α} (hfix : kw.fixed = []) (hrestr : kw.restr = [])
    (hdict : ∀ LS LT d, placement LS LT p kw.place = .ok d → (d.map Prod.fst).Nodup) (hinit : ∀ d, kw.initial = some d → (d.map Prod.fst).Nodup)
    {r : Result α} {ls : Option (Layout α × Layout α)}
    (h : Lay.find sorted graphLayout (fun left a => call pin sort C (A left) ro a tape) elapsed S T layout p hint rl kw = .ok (r, ls)) (hok : r.Success) :
    MinorEmbedding S.graph T.graph r.chain := by
  obtain ⟨LS, LT, d, left, a, _, h2, _, ⟨e1, e2, e3, e4, e5, e6⟩, h4, h5, _⟩ := C76_result.mp h
  have hf : a.fixed = [] := e5.trans hfix
  have hA : a.OK := by
    refine ⟨by rw [hf]; exact List.nodup_nil, ?_, by rw [e6, hrestr]; exact List.nodup_nil, ?_, ?_, ?_⟩
    · rcases h4 with ⟨_, _, hi, _⟩ | ⟨_, _, _, hi⟩
      · rw [hi]; exact hdict LS LT d h2
      · rw [hi]
        cases hk : kw.initial with
        | none => exact List.nodup_nil
        | some x => exact hinit x hk
    · rw [hf]; intro e he; cases he
    · rw [hf]; intro e _ e' he'; cases he'
    · rw [hf]; intro e _ e' he'; cases he'
  have h1 := C01_dict_is_minor_embedding hs a hA (e6.trans hrestr) C (A left) ro tape r h5 hok
  have hno : ∀ x, ¬ a.Fix x := by
    rintro x ⟨e, he, _⟩
    rw [hf] at he
    cases he
  have hsrc : a.src = S.graph := by unfold Args.src GraphArg.graph; rw [e1, e2]
  have htgt : a.tgt = T.graph := by unfold Args.tgt GraphArg.graph; rw [e3, e4]
  rw [hsrc, htgt] at h1
  exact ⟨h1.chain, h1.nodes, fun x hx => h1.linked x hx (hno x), h1.disjoint, fun x y h2 h3 => h1.edges x y h2 h3 (fun h => hno x h.1)⟩

/-- With the placement as suspended chains every chain of a successful result meets the set on which its node was placed, if that is not empty. -/
theorem C76_suspend (hs : SortOK sort) {C : Cfg} {A : Option Rat → Params} {ro : Bool} {tape : Tape} {elapsed : Rat} {S T : GraphArg α} {layout : LayoutArg α}
    {p : PlaceArg α} {rl : Bool} {kw : Kwargs α} (hfix : kw.fixed = []) (hrestr : kw.restr = []) (hinit : kw.initial = none)
    {r : Result α} {ls : Option (Layout α × Layout α)}
    (h : Lay.find sorted graphLayout (fun left a => call pin sort C (A left) ro a tape) elapsed S T layout p .suspend rl kw = .ok (r, ls)) (hok : r.Success) :
    ∃ LS LT d, parseLayouts sorted graphLayout S T layout kw.lay = .ok (LS, LT) ∧ placement LS LT p kw.place = .ok d ∧
      ∀ v X, (v, X) ∈ d → v ∈ S.graph.nodes → X ≠ [] → ∃ c, r.chain v = some c ∧ ∃ q ∈ c, q ∈ X := by
  obtain ⟨LS, LT, d, left, a, h1, h2, _, ⟨e1, e2, e3, e4, e5, e6⟩, h4, h5, _⟩ := C76_result.mp h
  have hf : a.fixed = [] := e5.trans hfix
  obtain ⟨hsus, hi⟩ : a.suspend = d.map (fun e => (e.1, [e.2])) ∧ a.initial = [] := by
    rcases h4 with ⟨h, _⟩ | ⟨_, _, h1, h2⟩
    · cases h
    · rw [hinit] at h2; exact ⟨h1, h2⟩
  have hA : a.OK := by
    refine ⟨by rw [hf]; exact List.nodup_nil, by rw [hi]; exact List.nodup_nil, by rw [e6, hrestr]; exact List.nodup_nil, ?_, ?_, ?_⟩
    · rw [hf]; intro e he; cases he
    · rw [hf]; intro e _ e' he'; cases he'
    · rw [hf]; intro e _ e' he'; cases he'
  refine ⟨LS, LT, d, h1, h2, fun v X hv hvn hX => ?_⟩
  have hsrc : a.src = S.graph := by unfold Args.src GraphArg.graph; rw [e1, e2]
  refine (C25_suspended_chains hs a hA (e6.trans hrestr) C (A left) ro tape r h5 hok).1 v [X] ?_ (hsrc ▸ hvn) ?_ X List.mem_cons_self hX
  · rw [hsus]; exact List.mem_map.mpr ⟨(v, X), hv, rfl⟩
  · rintro ⟨e, he, _⟩
    rw [hf] at he
    cases he

/-- If layout and placement take as long as the timeout or longer, nothing is searched and a `TimeoutError` is raised. -/
theorem C76_timeout {mm : Option Rat → Args α → Except PyErr (Result α)} {elapsed : Rat} {S T : GraphArg α} {layout : LayoutArg α} {p : PlaceArg α}
    {hint : Hint} {rl : Bool} {kw : Kwargs α} {LS LT : Layout α} {d : List (α × List α)} (h1 : parseLayouts sorted graphLayout S T layout kw.lay = .ok (LS, LT))
    (h2 : placement LS LT p kw.place = .ok d) {t : Rat} (ht : kw.timeout = some t) (hle : t ≤ elapsed) :
    Lay.find sorted graphLayout mm elapsed S T layout p hint rl kw = .error (.lay .timeout) := by
  have h3 : timeLeft kw.timeout elapsed = .error .timeout := by
    rw [ht]; unfold timeLeft; exact if_pos (sub_nonpos.mpr hle)
  unfold Lay.find
  simp only [bind, Except.bind, liftLay, h1, h2, h3]

/-- Contrary to its documentation the function takes no list of edges for T, unless a `Layout` of T is given. -/
theorem C76_edge_list {mm : Option Rat → Args α → Except PyErr (Result α)} {elapsed : Rat} {S T : GraphArg α} (hT : T.nodes = none) {s t : LayoutSrc α}
    (ht : ∀ L, t ≠ .object L) {p : PlaceArg α} {hint : Hint} {rl : Bool} {kw : Kwargs α} {LS : Layout α} (hS : sourceLayout sorted S s kw.lay = .ok LS) :
    Lay.find sorted graphLayout mm elapsed S T (.many [s, t]) p hint rl kw = .error (.lay .attribute) := by
  have h : parseLayouts sorted graphLayout S T (.many [s, t]) kw.lay = .error .attribute := by
    unfold parseLayouts
    simp only [bind, Except.bind, hS]
    have : targetLayout sorted graphLayout T t kw.lay = .error .attribute := by
      unfold targetLayout
      cases t with
      | object L => exact absurd rfl (ht L)
      | mapping d => rw [hT]
      | func f => rw [hT]
    rw [this]
  unfold Lay.find
  simp only [bind, Except.bind, liftLay, h]

/-- `Layout` objects are used as they are, whatever the layout parameters. -/
theorem C76_objects {S T : GraphArg α} {s t : LayoutSrc α} {kw : LayoutKw} {LS LT : Layout α} (h : parseLayouts sorted graphLayout S T (.many [s, t]) kw = .ok (LS, LT)) :
    (∀ A, s = .object A → LS = A) ∧ ∀ B, t = .object B → LT = B := by
  unfold parseLayouts at h
  simp only [bind, Except.bind] at h
  cases h1 : sourceLayout sorted S s kw with
  | error e => rw [h1] at h; cases h
  | ok A =>
    rw [h1] at h
    cases h2 : targetLayout sorted graphLayout T t kw with
    | error e => rw [h2] at h; cases h
    | ok B =>
      rw [h2] at h
      cases h
      refine ⟨fun A hA => ?_, fun B hB => ?_⟩
      · subst hA; cases h1; rfl
      · subst hB; cases h2; rfl

example (kw : LayoutKw) : parseLayouts (fun l => l) (fun _ _ => .ok []) ⟨[(0, 1)], none, false⟩ ⟨[(0, 1)], none, false⟩
    (.many [.object ⟨[0, 1], [(0, [0]), (1, [4])], [[0], [4]]⟩, .object ⟨[0, 1], [(0, [0]), (1, [2])], [[0], [2]]⟩]) kw =
    .ok (⟨[0, 1], [(0, [0]), (1, [4])], [[0], [4]]⟩, ⟨[0, 1], [(0, [0]), (1, [2])], [[0], [2]]⟩) := rfl

/-- Contrary to its documentation a layout function or mapping given for a Chimera, Pegasus or Zephyr graph T is not looked at, in a pair either. -/
theorem C76_family {S T : GraphArg α} (hT : T.family = true) {s t t' : LayoutSrc α} (ht : ∀ L, t ≠ .object L) (ht' : ∀ L, t' ≠ .object L) (kw : LayoutKw) :
    parseLayouts sorted graphLayout S T (.many [s, t]) kw = parseLayouts sorted graphLayout S T (.many [s, t']) kw := by
  have key : ∀ t : LayoutSrc α, (∀ L, t ≠ .object L) → targetLayout sorted graphLayout T t kw =
      match T.nodes with
      | none => .error .attribute
      | some _ => build sorted T (.func graphLayout) kw := by
    intro t ht
    unfold targetLayout
    cases t with
    | object L => exact absurd rfl (ht L)
    | mapping d => rw [hT]; rfl
    | func f => rw [hT]; rfl
  unfold parseLayouts
  simp only [bind, Except.bind]
  rw [key t ht, key t' ht']

end

namespace Demo

/-- A path of two edges. -/
def lineS : GraphArg Nat := ⟨[(0, 1), (1, 2)], some [0, 1, 2], false⟩

/-- A ring of five nodes. -/
def ringT : GraphArg Nat := ⟨[(10, 11), (11, 12), (12, 13), (13, 14), (14, 10)], some [10, 11, 12, 13, 14], false⟩

/-- Positions on a line, those of S twice as far apart. -/
def linePos : List (Nat × Pt) := [(0, [0]), (1, [2]), (2, [4])]

def ringPos : List (Nat × Pt) := [(10, [0]), (11, [1]), (12, [2]), (13, [3]), (14, [4])]

/-- The call, with `closest`. -/
def lineFind (hint : Hint) (kw : Kwargs Nat) : Except FindErr (Result Nat × Option (Layout Nat × Layout Nat)) :=
  Lay.find id (fun _ _ => .ok []) (fun _ a => call pins sortBySize cfg params false a tape0) 1 lineS ringT
    (.many [.mapping linePos, .mapping ringPos]) (.func fun S T _ _ => closest bruteTree id 1000 S ⟨ringT.verts, ringT.edges⟩ T 1 1 1) hint false kw

end Demo

/-- A path of three nodes is found in a ring of five, near the placement; with suspended chains every chain meets its place: 10, 12 and 14. -/
example : (Demo.lineFind .initial {}).toOption.map (·.1.dict) = some [(0, [10]), (1, [14]), (2, [13])] ∧
    (Demo.lineFind .suspend {}).toOption.map (·.1.dict) = some [(0, [10]), (1, [11, 12]), (2, [14, 13])] := by decide +kernel

/-- The hypotheses of `C76_partial` about dicts are met. -/
example {LS LT : Layout Nat} {d : List (Nat × List Nat)} (h : placement LS LT (.mapping [(0, [10]), (1, [11])]) {} = .ok d) : (d.map Prod.fst).Nodup := by
  unfold placement at h
  cases hp : placementLayouts LS LT none with
  | error e => rw [show ({} : PlaceKw).ratio = none from rfl, hp] at h; cases h
  | ok ST =>
    rw [show ({} : PlaceKw).ratio = none from rfl, hp] at h
    cases h
    decide

/-- No time is left. -/
example : (match Demo.lineFind .initial { timeout := some 1 } with | .ok _ => false | .error e => decide (e = .lay .timeout)) = true := by decide +kernel

/-- With `fixed_chains` the behaviour is undefined: the placement also has initial chains for the fixed nodes. -/
theorem C76_fixed : (match Demo.lineFind .initial { fixed := [(0, [11])] } with | .ok _ => false | .error e => decide (e = .py (.core .ub))) = true := by decide +kernel

namespace Demo

/-- Layouts of scale 2, 1 and 0. -/
def wide : Layout Nat := ⟨[0, 1], [(0, [0]), (1, [4])], [[0], [4]]⟩
def narrow : Layout Nat := ⟨[0, 1], [(0, [0]), (1, [2])], [[0], [2]]⟩
def single : Layout Nat := ⟨[0], [(0, [1])], [[1]]⟩

end Demo

/-- A mapping is used as it is; a function gets the two layouts and the parameters, and what it returns is used. -/
theorem C77_used {S T S' T' : Layout α} {p : PlaceArg α} {kw : PlaceKw} (h : placementLayouts S T kw.ratio = .ok (S', T')) (d : List (α × List α)) :
    placement S T p kw = .ok d ↔ p = .mapping d ∨ ∃ f, p = .func f ∧ f S' T' kw.subset kw.num = .ok d := by
  unfold placement
  simp only [bind, Except.bind, h]
  cases p with
  | mapping d' => simp
  | func f => simp

example : placementLayouts Demo.wide Demo.narrow none = .ok (⟨[0, 1], [(0, [1]), (1, [3])], [[1], [3]]⟩, Demo.narrow) :=
  Lay.ok_of_toOption (by decide +kernel)

/-- `scale_ratio` is ignored if S is larger than T: with a ratio of one half the scale of S becomes that of T. -/
theorem C77_ratio_ignored : placementLayouts Demo.wide Demo.narrow (some (1/2)) = .ok (⟨[0, 1], [(0, [1]), (1, [3])], [[1], [3]]⟩, Demo.narrow) ∧
    IsScale [[1], [3]] [2] 1 ∧ IsScale [[0], [2]] [1] 1 := by
  refine ⟨Lay.ok_of_toOption (by decide +kernel), ?_, ?_⟩
  · refine ⟨?_, [1], List.mem_cons_self, 0, 1, 2, rfl, rfl, by decide +kernel⟩
    intro p hp i x y hx hy
    match i with
    | 0 =>
      cases hy
      rcases List.mem_cons.mp hp with rfl | hp
      · cases hx; decide +kernel
      · rw [List.mem_singleton.mp hp] at hx; cases hx; decide +kernel
    | n + 1 => cases hy
  · refine ⟨?_, [0], List.mem_cons_self, 0, 0, 1, rfl, rfl, by decide +kernel⟩
    intro p hp i x y hx hy
    match i with
    | 0 =>
      cases hy
      rcases List.mem_cons.mp hp with rfl | hp
      · cases hx; decide +kernel
      · rw [List.mem_singleton.mp hp] at hx; cases hx; decide +kernel
    | n + 1 => cases hy

/-- Without a ratio S is scaled all the same if it is larger than T, contrary to the documentation. -/
theorem C77_scaled_anyway : placementLayouts Demo.wide Demo.narrow none = .ok (⟨[0, 1], [(0, [1]), (1, [3])], [[1], [3]]⟩, Demo.narrow) :=
  Lay.ok_of_toOption (by decide +kernel)

/-- A source of one node and a ratio: the coordinates become `nan`. -/
theorem C77_nan : (match placementLayouts Demo.single Demo.narrow (some (1/2)) with | .ok _ => false | .error e => decide (e = .nan)) = true := by decide +kernel

/-- The hypotheses of `C77_partial` are met. -/
example : Shows Demo.wide [0, 1] (fun v => if v = 0 then [0] else [4]) ∧ IsCentre [[0], [4]] [2] ∧ IsScale [[0], [4]] [2] 2 := by
  refine ⟨⟨rfl, by decide +kernel, by decide +kernel⟩, ⟨by simp, ?_⟩, ?_, [0], List.mem_cons_self, 0, 0, 2, rfl, rfl, by decide +kernel⟩
  · intro i y hy
    match i with
    | 0 =>
      cases hy
      refine ⟨0, 4, by norm_num, ⟨[0], by simp, rfl⟩, ⟨[4], by simp, rfl⟩, ?_⟩
      intro p hp x hx
      rcases List.mem_cons.mp hp with rfl | hp
      · cases hx; norm_num
      · rw [List.mem_singleton.mp hp] at hx; cases hx; norm_num
    | n + 1 => cases hy
  · intro p hp i x y hx hy
    match i with
    | 0 =>
      cases hy
      rcases List.mem_cons.mp hp with rfl | hp
      · cases hx; decide +kernel
      · rw [List.mem_singleton.mp hp] at hx; cases hx; decide +kernel
    | n + 1 => cases hy

end MM
