import Verif.Eden.Blocks

/-! What the table of `nativeCliqueEmbed` holds. -/

namespace MM
namespace Eden

open Spec.Eden (Qb Ell Joined Works HLine VLine hLines vLines LinesWhole CellsWhole Path Touch Clique Native)

variable {P : Proc}

/-- Every call of `randint(1, n)` returns at most `n`. -/
def Rolls (rnd : Nat → Nat → Nat) : Prop := ∀ i n, 1 ≤ n → rnd i n ≤ n

/-- A block in the grid. -/
structure InGrid (P : Proc) (e : Ell) : Prop where
  cols : ∀ c, e.InCols c → 0 ≤ c ∧ c < P.M
  rows : ∀ r, e.InRows r → 0 ≤ r ∧ r < P.N

/-- The score that a block adds. -/
def Proc.blk (P : Proc) (e : Ell) : Nat :=
  match P.hscore e.y (min e.x e.x') (max e.x e.x'), P.vscore e.x (min e.y e.y') (max e.y e.y') with
  | .ok h, .ok v => min h v
  | _, _ => 0

theorem blk_spec {e : Ell} (hg : InGrid P e) :
    (∃ h v, P.hscore e.y (min e.x e.x') (max e.x e.x') = .ok h ∧ P.vscore e.x (min e.y e.y') (max e.y e.y') = .ok v ∧ P.blk e = min h v) ∧
    P.blk e ≤ e.size P.edges P.L ∧ (LinesWhole P.edges → P.blk e = e.size P.edges P.L) := by
  have c1 := hg.cols _ (inCols_corner e)
  have c2 := hg.cols (min e.x e.x') ⟨by omega, by omega⟩
  have c3 := hg.cols (max e.x e.x') ⟨by omega, by omega⟩
  have r1 := hg.rows _ (inRows_corner e)
  have r2 := hg.rows (min e.y e.y') ⟨by omega, by omega⟩
  have r3 := hg.rows (max e.y e.y') ⟨by omega, by omega⟩
  obtain ⟨h, h1, h2, h3⟩ := hscore_spec (P := P) r1 c2.1 (show min e.x e.x' ≤ max e.x e.x' by omega) c3.2
  obtain ⟨v, v1, v2, v3⟩ := vscore_spec (P := P) c1 r2.1 (show min e.y e.y' ≤ max e.y e.y' by omega) r3.2
  have hb : P.blk e = min h v := by unfold Proc.blk; rw [h1, v1]
  refine ⟨⟨h, v, h1, v1, hb⟩, ?_, fun hl => ?_⟩
  · rw [hb]; unfold Ell.size; omega
  · rw [hb]; unfold Ell.size; rw [h3 (.inr hl), v3 (.inr hl)]

/-- A rectangle that the search for chains of length `width + 1` looks at. -/
structure Shape (P : Proc) (width : Nat) (R : Rect) : Prop where
  left : 0 ≤ R.xmin
  wide : R.xmin ≤ R.xmax
  right : R.xmax < P.M
  sum : (R.xmax - R.xmin) + (R.ymax - R.ymin) + 2 = width
  low : 0 ≤ R.ymin
  high : R.ymax < P.N

theorem mem_rects {width : Nat} {R : Rect} : R ∈ rects P.M P.N width ↔ Shape P width R ∧ -3 ≤ R.ymax - R.ymin := by
  unfold rects
  simp only [List.mem_flatMap, List.mem_range, List.mem_map, mem_upTo]
  constructor
  · rintro ⟨w, hw, ymin, ⟨y1, y2⟩, xmin, ⟨x1, x2⟩, rfl⟩
    exact ⟨⟨x1, by dsimp only; omega, by dsimp only; omega, by dsimp only; omega, y1, by dsimp only; omega⟩, by dsimp only; omega⟩
  · rintro ⟨⟨h1, h2, h3, h4, h5, h6⟩, h7⟩
    obtain ⟨xmin, xmax, ymin, ymax⟩ := R
    dsimp only at *
    refine ⟨(xmax - xmin).toNat, by omega, ymin, ⟨h5, by omega⟩, xmin, ⟨h1, by omega⟩, ?_⟩
    rw [Rect.mk.injEq]
    omega

theorem rects_sorted (M N width : Nat) : (rects M N width).Pairwise fun R R' => R.xmax - R.xmin ≤ R'.xmax - R'.xmin := by
  unfold rects
  have key : ∀ (w : Nat) (R : Rect), R ∈ ((upTo 0 (N - ((width : Int) - w - 2))).flatMap fun ymin => (upTo 0 ((M : Int) - w)).map fun xmin =>
      (⟨xmin, xmin + w, ymin, ymin + ((width : Int) - w - 2)⟩ : Rect)) → R.xmax - R.xmin = w := by
    intro w R h
    obtain ⟨y, -, h⟩ := List.mem_flatMap.mp h
    obtain ⟨x, -, rfl⟩ := List.mem_map.mp h
    dsimp only
    omega
  rw [List.pairwise_flatMap]
  refine ⟨fun w _ => ?_, List.pairwise_lt_range.imp fun {a b} hab R hR R' hR' => ?_⟩
  · have : ∀ (l : List Rect), (∀ R ∈ l, R.xmax - R.xmin = w) → l.Pairwise fun R R' => R.xmax - R.xmin ≤ R'.xmax - R'.xmin := by
      intro l hl
      induction l with
      | nil => exact .nil
      | cons a l ih =>
        rw [List.pairwise_cons]
        refine ⟨fun b hb => ?_, ih fun R h => hl R (List.mem_cons_of_mem _ h)⟩
        rw [hl a List.mem_cons_self, hl b (List.mem_cons_of_mem _ hb)]
    exact this _ (key w)
  · rw [key a R hR, key b R' hR']
    omega

/-- What an ell and the rectangle that is left have to do with the rectangle. -/
structure Opt (P : Proc) (width : Nat) (R : Rect) (o : Ell × Rect) : Prop where
  grid : InGrid P o.1
  len : o.1.len = width + 1
  cols : min o.1.x o.1.x' = R.xmin ∧ max o.1.x o.1.x' = R.xmax
  rows : min o.1.y o.1.y' = o.2.ymin ∧ max o.1.y o.1.y' = o.2.ymax
  left : ∀ c, o.2.xmin ≤ c ∧ c ≤ o.2.xmax ↔ (R.xmin ≤ c ∧ c ≤ R.xmax) ∧ c ≠ o.1.x
  old : ∀ r, o.2.ymin ≤ r ∧ r ≤ o.2.ymax ↔ (R.ymin ≤ r ∧ r ≤ R.ymax) ∨ r = o.1.y
  new : ¬ (R.ymin ≤ o.1.y ∧ o.1.y ≤ R.ymax)
  width : o.2.xmax - o.2.xmin = R.xmax - R.xmin - 1

theorem opt_of_mem {width : Nat} {R : Rect} (hR : Shape P width R) {o : Ell × Rect} (h : o ∈ options P.N R) : Opt P width R o := by
  obtain ⟨h1, h2, h3, h4, h5, h6⟩ := hR
  unfold options at h
  rw [List.mem_filter] at h
  obtain ⟨h, hf⟩ := h
  rw [decide_eq_true_eq] at hf
  simp only [List.mem_cons, List.not_mem_nil, or_false] at h
  rcases h with rfl | rfl | rfl | rfl <;> dsimp only at hf <;>
    refine ⟨⟨fun c hc => ?_, fun r hr => ?_⟩, ?_, ⟨?_, ?_⟩, ⟨?_, ?_⟩, fun c => ?_, fun r => ?_, ?_, ?_⟩ <;>
    simp only [Ell.InCols, Ell.InRows, Ell.len] at * <;> omega

/-- The score in the table, zero if there is none. -/
def val (D : List (Rect × Entry)) (r : Rect) : Nat :=
  match find D r with
  | none => 0
  | some e => e.score

theorem combine_ok {width : Nat} {R : Rect} {o : Ell × Rect} (ho : Opt P width R o) (D : List (Rect × Entry)) :
    P.combine ((find D o.2).map Entry.score) o.1.y R.xmin R.xmax o.1.x o.2.ymin o.2.ymax = .ok (val D o.2 + P.blk o.1) := by
  obtain ⟨⟨h, v, h1, h2, h3⟩, -, -⟩ := blk_spec ho.grid
  rw [ho.cols.1, ho.cols.2] at h1
  rw [ho.rows.1, ho.rows.2] at h2
  have : known ((find D o.2).map Entry.score) = val D o.2 := by
    unfold val
    cases find D o.2 <;> rfl
  unfold Proc.combine
  simp only [bind, Except.bind, h1, h2, this]
  congr 1
  rw [h3]
  split <;> omega

/-- A value for the key `R` among the options `os`: one of them is best. -/
def Good (P : Proc) (D : List (Rect × Entry)) (os : List (Ell × Rect)) (e : Entry) : Prop :=
  0 < e.num ∧ ((os = [] ∧ e.score = 0 ∧ e.ell = none ∧ e.parent = none) ∨
    ∃ o ∈ os, e.ell = some o.1 ∧ e.parent = some o.2 ∧ e.score = val D o.2 + P.blk o.1) ∧ ∀ o ∈ os, val D o.2 + P.blk o.1 ≤ e.score

theorem Good.congr {D D' : List (Rect × Entry)} {os : List (Ell × Rect)} {e : Entry} (h : Good P D os e) (hd : ∀ o ∈ os, find D' o.2 = find D o.2) : Good P D' os e := by
  have hv : ∀ o ∈ os, val D' o.2 = val D o.2 := fun o ho => by unfold val; rw [hd o ho]
  refine ⟨h.1, h.2.1.imp_right fun ⟨o, ho, h1, h2, h3⟩ => ⟨o, ho, h1, h2, by rw [hv o ho]; exact h3⟩, fun o ho => by rw [hv o ho]; exact h.2.2 o ho⟩

theorem withRect_spec {rnd : Nat → Nat → Nat} (hr : Rolls rnd) {width : Nat} {R : Rect} (hR : Shape P width R) {D : List (Rect × Entry)}
    (hD : ∀ r e, find D r = some e → 0 < e.num) (calls : Nat) :
    ∃ c, P.withRect rnd calls R D = .ok c ∧ Good P D (options P.N R) c.best ∧ (options P.N R = [] → c.bestscore = none) ∧
      (options P.N R ≠ [] → c.bestscore = some c.best.score) := by
  have key : ∀ (todo done : List (Ell × Rect)) (c : Choice), (∀ o ∈ todo, Opt P width R o) → Good P D done c.best → (done = [] → c.bestscore = none ∧ c.count = 0) →
      (done ≠ [] → c.bestscore = some c.best.score) →
      ∃ c', todo.foldlM (P.consider rnd R D) c = .ok c' ∧ Good P D (done ++ todo) c'.best ∧ (done ++ todo = [] → c'.bestscore = none) ∧
        (done ++ todo ≠ [] → c'.bestscore = some c'.best.score) := by
    intro todo
    induction todo with
    | nil =>
      intro done c _ h1 h2 h3
      exact ⟨c, rfl, by rw [List.append_nil]; exact h1, by rw [List.append_nil]; exact fun h => (h2 h).1, by rw [List.append_nil]; exact h3⟩
    | cons o todo ih =>
      intro done c ho h1 h2 h3
      have step : ∃ c', P.consider rnd R D c o = .ok c' ∧ Good P D (done ++ [o]) c'.best ∧ c'.bestscore = some c'.best.score := by
        unfold Proc.consider
        simp only [bind, Except.bind, combine_ok (ho o List.mem_cons_self) D]
        generalize hnr : weight (find D o.2) = nr
        have hpos : 0 < nr := by
          subst hnr
          cases hf : find D o.2 with
          | none => exact Nat.one_pos
          | some e => exact hD _ e hf
        generalize hs : val D o.2 + P.blk o.1 = s
        obtain ⟨bs, count, best, calls⟩ := c
        dsimp only at h1 h2 h3
        have fresh : (∀ q ∈ done, val D q.2 + P.blk q.1 ≤ s) → Good P D (done ++ [o]) ⟨s, some o.1, some o.2, nr⟩ := by
          intro hle
          refine ⟨hpos, .inr ⟨o, List.mem_append_right _ List.mem_cons_self, rfl, rfl, hs.symm⟩, fun q hq => ?_⟩
          rcases List.mem_append.mp hq with hq | hq
          · exact hle q hq
          · rw [List.mem_singleton] at hq
            subst hq
            exact hs.le
        have stay : done ≠ [] → s ≤ best.score → Good P D (done ++ [o]) best := by
          intro hne hle
          obtain ⟨g1, g2, g3⟩ := h1
          refine ⟨g1, ?_, fun q hq => ?_⟩
          · rcases g2 with g2 | ⟨q, hq, g⟩
            · exact absurd g2.1 hne
            · exact .inr ⟨q, List.mem_append_left _ hq, g⟩
          · rcases List.mem_append.mp hq with hq | hq
            · exact g3 q hq
            · rw [List.mem_singleton] at hq
              subst hq
              rw [hs]
              exact hle
        cases hbs : bs with
        | none =>
          have hdone : done = [] := by
            by_contra h
            rw [hbs] at h3
            exact absurd (h3 h) (by simp)
          simp only [if_true, accumulate, Nat.zero_add]
          refine ⟨_, rfl, ?_⟩
          rw [if_pos (hr _ _ hpos)]
          exact ⟨fresh (by rw [hdone]; intro q hq; cases hq), rfl⟩
        | some b =>
          have hne : done ≠ [] := fun h => by
            have := (h2 h).1
            rw [hbs] at this
            exact absurd this (by simp)
          have hb : b = best.score := by
            have := h3 hne
            rw [hbs] at this
            exact Option.some.inj this
          dsimp only
          by_cases hlt : b < s
          · simp only [hlt, decide_true, if_true, accumulate, Nat.zero_add]
            refine ⟨_, rfl, ?_⟩
            rw [if_pos (hr _ _ hpos)]
            exact ⟨fresh fun q hq => (h1.2.2 q hq).trans (by omega), rfl⟩
          · simp only [hlt, decide_false, Bool.false_eq_true, if_false]
            by_cases heq : some b = some s
            · simp only [heq, if_true]
              have hbs' : b = s := Option.some.inj heq
              refine ⟨_, rfl, ?_⟩
              simp only [accumulate]
              by_cases hroll : rnd calls (count + nr) ≤ nr
              · rw [if_pos hroll]
                exact ⟨fresh fun q hq => (h1.2.2 q hq).trans (by omega), rfl⟩
              · rw [if_neg hroll]
                exact ⟨stay hne (by omega), by rw [← hbs', hb]⟩
            · simp only [heq, if_false]
              refine ⟨_, rfl, stay hne (by omega), ?_⟩
              dsimp only
              rw [hb]
      obtain ⟨c', hc, g1, g2⟩ := step
      obtain ⟨c'', hc', g3⟩ := ih (done ++ [o]) c' (fun q hq => ho q (List.mem_cons_of_mem _ hq)) g1 (fun h => by simp at h) (fun _ => g2)
      refine ⟨c'', ?_, ?_⟩
      · rw [List.foldlM_cons, hc]
        exact hc'
      · rw [List.append_assoc, List.singleton_append] at g3
        exact g3
  obtain ⟨c, hc, g⟩ := key (options P.N R) [] ⟨none, 0, ⟨0, none, none, 1⟩, calls⟩ (fun o ho => opt_of_mem hR ho)
    ⟨Nat.one_pos, .inl ⟨rfl, rfl, rfl, rfl⟩, fun o ho => nomatch ho⟩ (fun _ => ⟨rfl, rfl⟩) (fun h => absurd rfl h)
  exact ⟨c, hc, by rw [List.nil_append] at g; exact g⟩

theorem find_cons (D : List (Rect × Entry)) (R r : Rect) (e : Entry) : find ((R, e) :: D) r = if R = r then some e else find D r := by
  unfold find
  rw [List.find?_cons]
  by_cases h : R = r
  · simp [h]
  · simp [h]

/-- The state of the search after the rectangles `seen`. -/
structure Inv (P : Proc) (width : Nat) (seen : List Rect) (S : Search) : Prop where
  keys : ∀ R, (∃ e, find S.table R = some e) ↔ R ∈ seen
  shape : ∀ R ∈ seen, Shape P width R
  good : ∀ R e, find S.table R = some e → Good P S.table (options P.N R) e
  key : ∀ r, S.key = some r → r ∈ seen
  none : S.maxscore = none → ∀ R ∈ seen, options P.N R = []
  some : ∀ m, S.maxscore = some m → ∃ r, S.key = some r ∧ val S.table r = m ∧ options P.N r ≠ [] ∧ ∀ R ∈ seen, val S.table R ≤ m

theorem visit_inv {rnd : Nat → Nat → Nat} (hr : Rolls rnd) {width : Nat} {seen : List Rect} {S : Search} (hS : Inv P width seen S) {R : Rect} (hR : Shape P width R)
    (hw : ∀ R' ∈ seen, R'.xmax - R'.xmin ≤ R.xmax - R.xmin) : ∃ S', P.visit rnd S R = .ok S' ∧ Inv P width (seen ++ [R]) S' := by
  obtain ⟨c, hc, hg, hn, hs⟩ := withRect_spec hr hR (D := S.table) (fun r e he => (hS.good r e he).1) S.calls
  -- older keys keep their values
  have later : ∀ R', R' ∈ seen ++ [R] → ∀ o ∈ options P.N R', find ((R, c.best) :: S.table) o.2 = find S.table o.2 := by
    intro R' hR' o ho
    rw [find_cons, if_neg]
    intro h
    have hsh : Shape P width R' ∧ R'.xmax - R'.xmin ≤ R.xmax - R.xmin := by
      rcases List.mem_append.mp hR' with h | h
      · exact ⟨hS.shape _ h, hw _ h⟩
      · rw [List.mem_singleton] at h
        subst h
        exact ⟨hR, le_refl _⟩
    have := (opt_of_mem hsh.1 ho).width
    rw [← h] at this
    omega
  -- a rectangle that comes again gets the same score
  have same : ∀ R' ∈ seen, val ((R, c.best) :: S.table) R' = val S.table R' := by
    intro R' hR'
    unfold val
    rw [find_cons]
    by_cases h : R = R'
    · subst h
      rw [if_pos rfl]
      obtain ⟨e, he⟩ := (hS.keys R).mpr hR'
      rw [he]
      obtain ⟨-, g2, g3⟩ := hS.good R e he
      obtain ⟨-, k2, k3⟩ := hg
      dsimp only
      rcases g2 with g2 | ⟨o, ho, -, -, g2⟩ <;> rcases k2 with k2 | ⟨q, hq, -, -, k2⟩
      · rw [g2.2.1, k2.2.1]
      · rw [g2.1] at hq; cases hq
      · rw [k2.1] at ho; cases ho
      · have := g3 q hq
        have := k3 o ho
        omega
    · rw [if_neg h]
  have self : val ((R, c.best) :: S.table) R = c.best.score := by
    unfold val
    rw [find_cons, if_pos rfl]
  have keys : ∀ R', (∃ e, find ((R, c.best) :: S.table) R' = some e) ↔ R' ∈ seen ++ [R] := by
    intro R'
    rw [find_cons, List.mem_append, List.mem_singleton]
    by_cases h : R = R'
    · simp [h]
    · rw [if_neg h, hS.keys]
      exact ⟨.inl, fun h' => h'.resolve_right fun e => h e.symm⟩
  have shape : ∀ R' ∈ seen ++ [R], Shape P width R' := by
    intro R' h
    rcases List.mem_append.mp h with h | h
    · exact hS.shape _ h
    · rw [List.mem_singleton] at h
      subst h
      exact hR
  have good : ∀ R' e, find ((R, c.best) :: S.table) R' = some e → Good P ((R, c.best) :: S.table) (options P.N R') e := by
    intro R' e h
    have hm : R' ∈ seen ++ [R] := (keys R').mp ⟨e, h⟩
    refine Good.congr (D := S.table) ?_ (later R' hm)
    rw [find_cons] at h
    by_cases h' : R = R'
    · subst h'
      rw [if_pos rfl] at h
      exact Option.some.inj h ▸ hg
    · rw [if_neg h'] at h
      exact hS.good _ _ h
  have hin : R ∈ seen ++ [R] := List.mem_append_right _ List.mem_cons_self
  unfold Proc.visit
  simp only [bind, Except.bind, hc]
  obtain ⟨D, ms, count, key, calls⟩ := S
  dsimp only at *
  have hkey := hS.key
  have hnone := hS.none
  have hsome := hS.some
  dsimp only at hkey hnone hsome
  have old : ∀ r, key = some r → r ∈ seen ++ [R] := fun r h => List.mem_append_left _ (hkey r h)
  have zero : options P.N R = [] → c.best.score = 0 := by
    intro h
    rcases hg.2.1 with g | ⟨o, ho, -⟩
    · exact g.2.1
    · rw [h] at ho; cases ho
  by_cases hopt : options P.N R = []
  · have hb := hn hopt
    cases ms with
    | none =>
      simp only [hb, if_true, accumulate]
      refine ⟨_, rfl, ⟨keys, shape, good, ?_, ?_, ?_⟩⟩
      · dsimp only
        intro r h
        by_cases hroll : rnd c.calls (0 + c.best.num) ≤ c.best.num
        · rw [if_pos hroll] at h
          exact Option.some.inj h ▸ hin
        · rw [if_neg hroll] at h
          cases h
      · intro _ R' h
        rcases List.mem_append.mp h with h | h
        · exact hnone rfl R' h
        · rw [List.mem_singleton] at h
          subst h
          exact hopt
      · intro m h
        cases h
    | some m =>
      simp only [hb, Bool.false_eq_true, if_false, reduceCtorEq]
      refine ⟨_, rfl, ⟨keys, shape, good, old, fun h => (by cases h), fun m' h => ?_⟩⟩
      cases h
      obtain ⟨r, k1, k2, k3, k4⟩ := hsome m rfl
      refine ⟨r, k1, by rw [same r (hkey r k1)]; exact k2, k3, fun R' h => ?_⟩
      rcases List.mem_append.mp h with h | h
      · rw [same R' h]; exact k4 R' h
      · rw [List.mem_singleton] at h
        subst h
        rw [self, zero hopt]
        omega
  · have hb := hs hopt
    have win : (∀ R' ∈ seen, val D R' ≤ c.best.score) → ∀ count' key' calls', (key' = some R) →
        Inv P width (seen ++ [R]) ⟨(R, c.best) :: D, some c.best.score, count', key', calls'⟩ := by
      intro hle count' key' calls' hk
      refine ⟨keys, shape, good, fun r h => ?_, fun h => (by cases h), fun m h => ?_⟩
      · dsimp only at h
        rw [hk] at h
        exact Option.some.inj h ▸ hin
      · cases h
        refine ⟨R, hk, self, hopt, fun R' h => ?_⟩
        rcases List.mem_append.mp h with h | h
        · rw [same R' h]; exact hle R' h
        · rw [List.mem_singleton] at h
          subst h
          exact self.le
    have none0 : ms = none → ∀ R' ∈ seen, val D R' ≤ c.best.score := by
      intro h R' hR'
      obtain ⟨e, he⟩ := (hS.keys R').mpr hR'
      have ho := hnone h R' hR'
      unfold val
      dsimp only at he
      rw [he]
      rcases (hS.good R' e he).2.1 with g | ⟨o, ho', -⟩
      · dsimp only; rw [g.2.1]; omega
      · rw [ho] at ho'; cases ho'
    cases hms : ms with
    | none =>
      simp only [hb, if_true, accumulate, Nat.zero_add]
      rw [if_pos (hr _ _ hg.1)]
      exact ⟨_, rfl, win (none0 hms) _ _ _ rfl⟩
    | some m =>
      obtain ⟨r, k1, k2, k3, k4⟩ := hsome m hms
      simp only [hb]
      by_cases hlt : m < c.best.score
      · simp only [hlt, decide_true, if_true, accumulate, Nat.zero_add]
        rw [if_pos (hr _ _ hg.1)]
        exact ⟨_, rfl, win (fun R' h => (k4 R' h).trans hlt.le) _ _ _ rfl⟩
      · simp only [hlt, decide_false, Bool.false_eq_true, if_false]
        have keep : ∀ count' calls', Inv P width (seen ++ [R]) ⟨(R, c.best) :: D, some m, count', key, calls'⟩ := by
          intro count' calls'
          refine ⟨keys, shape, good, old, fun h => (by cases h), fun m' h => ?_⟩
          cases h
          refine ⟨r, k1, by rw [same r (hkey r k1)]; exact k2, k3, fun R' h => ?_⟩
          rcases List.mem_append.mp h with h | h
          · rw [same R' h]; exact k4 R' h
          · rw [List.mem_singleton] at h
            subst h
            rw [self]
            omega
        by_cases heq : some m = some c.best.score
        · simp only [heq, if_true, accumulate]
          have hm : m = c.best.score := Option.some.inj heq
          by_cases hroll : rnd c.calls (count + c.best.num) ≤ c.best.num
          · rw [if_pos hroll]
            exact ⟨_, rfl, win (fun R' h => (k4 R' h).trans hm.le) _ _ _ rfl⟩
          · rw [if_neg hroll]
            refine ⟨_, rfl, ?_⟩
            rw [← hm]
            exact keep _ _
        · simp only [heq, if_false]
          exact ⟨_, rfl, keep _ _⟩

theorem search_inv {rnd : Nat → Nat → Nat} (hr : Rolls rnd) (width : Nat) :
    ∃ S, (rects P.M P.N width).foldlM (P.visit rnd) ⟨[], none, 0, none, 0⟩ = .ok S ∧ Inv P width (rects P.M P.N width) S := by
  have key : ∀ (todo seen : List Rect) (S : Search), (seen ++ todo).Pairwise (fun R R' => R.xmax - R.xmin ≤ R'.xmax - R'.xmin) → (∀ R ∈ todo, Shape P width R) →
      Inv P width seen S → ∃ S', todo.foldlM (P.visit rnd) S = .ok S' ∧ Inv P width (seen ++ todo) S' := by
    intro todo
    induction todo with
    | nil => exact fun seen S _ _ h => ⟨S, rfl, by rw [List.append_nil]; exact h⟩
    | cons R todo ih =>
      intro seen S hp hsh hi
      obtain ⟨S', h1, h2⟩ := visit_inv hr hi (hsh R List.mem_cons_self) (fun R' h => (List.pairwise_append.mp hp).2.2 R' h R List.mem_cons_self)
      obtain ⟨S'', h3, h4⟩ := ih (seen ++ [R]) S' (by rw [List.append_assoc]; exact hp) (fun R' h => hsh R' (List.mem_cons_of_mem _ h)) h2
      refine ⟨S'', ?_, by rw [List.append_assoc] at h4; exact h4⟩
      rw [List.foldlM_cons, h1]
      exact h3
  obtain ⟨S, h1, h2⟩ := key (rects P.M P.N width) [] ⟨[], none, 0, none, 0⟩ (rects_sorted _ _ _) (fun R h => (mem_rects.mp h).1)
    ⟨fun R => ⟨fun ⟨e, h⟩ => (by cases h), fun h => (nomatch h)⟩, fun R h => (nomatch h), fun R e h => (by cases h), fun r h => (by cases h), fun _ R h => (nomatch h),
      fun m h => (by cases h)⟩
  exact ⟨S, h1, h2⟩

end Eden
end MM
