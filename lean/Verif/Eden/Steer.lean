import Verif.Eden.Native
import Verif.Eden.Blocks

/-! Random numbers that lead the search of `nativeCliqueEmbed` to a given clique. -/

namespace MM
namespace Eden

open Spec.Eden (Qb Ell Joined Works HLine VLine hLines vLines LinesWhole CellsWhole Path Touch Clique Native)

variable {P : Proc}

/-- Random numbers in range. -/
def Ranged (rnd : Nat → Nat → Nat) : Prop := ∀ i n, 1 ≤ n → 1 ≤ rnd i n ∧ rnd i n ≤ n

theorem Ranged.rolls {rnd : Nat → Nat → Nat} (h : Ranged rnd) : Rolls rnd := fun i n hn => (h i n hn).2

section steps

variable {σ ι : Type} {Q : σ → Prop} {calls : σ → Nat} {f : (Nat → Nat → Nat) → σ → ι → Except Err σ}

/-- A step uses the random numbers whose count it adds to, each with one bound, and keeps `Q`. -/
def LocalStep (Q : σ → Prop) (calls : σ → Nat) (f : (Nat → Nat → Nat) → σ → ι → Except Err σ) : Prop :=
  ∀ rnd s x s', Q s → f rnd s x = .ok s' → Q s' ∧ calls s ≤ calls s' ∧ ∃ bound : Nat → Nat, (∀ i, 1 ≤ bound i) ∧
    ∀ rnd', (∀ i, calls s ≤ i → i < calls s' → rnd' i (bound i) = rnd i (bound i)) → f rnd' s x = .ok s'

/-- Some random numbers lead from one state to another. -/
def Can (f : (Nat → Nat → Nat) → σ → ι → Except Err σ) (s : σ) (x : ι) (s' : σ) : Prop := ∃ rnd, Ranged rnd ∧ f rnd s x = .ok s'

theorem LocalStep.fold (h : LocalStep Q calls f) : LocalStep Q calls fun rnd s (l : List ι) => l.foldlM (f rnd) s := by
  intro rnd s l
  induction l generalizing s with
  | nil =>
    intro s' hq hs
    cases hs
    exact ⟨hq, le_rfl, fun _ => 1, fun _ => le_rfl, fun _ _ => rfl⟩
  | cons x l ih =>
    intro s' hq hs
    dsimp only at hs ⊢
    rw [List.foldlM_cons] at hs
    cases h1 : f rnd s x with
    | error e =>
      rw [h1] at hs
      cases hs
    | ok s1 =>
      rw [h1] at hs
      obtain ⟨q1, a, b1, p1, a'⟩ := h rnd s x s1 hq h1
      obtain ⟨q2, b, b2, p2, b'⟩ := ih s1 s' q1 hs
      refine ⟨q2, a.trans b, fun i => if i < calls s1 then b1 i else b2 i, fun i => ?_, fun rnd' hr => ?_⟩
      · dsimp only
        split
        · exact p1 i
        · exact p2 i
      · dsimp only at hr
        rw [List.foldlM_cons, a' rnd' fun i i1 i2 => by
          have := hr i i1 (i2.trans_le b)
          rw [if_pos i2] at this
          exact this]
        exact b' rnd' fun i i1 i2 => by
          have := hr i (a.trans i1) i2
          rw [if_neg (by omega)] at this
          exact this

/-- Random numbers for one part and for the next make random numbers for both. -/
theorem glue (c : Nat) {rnd rnd' : Nat → Nat → Nat} (h : Ranged rnd) (h' : Ranged rnd') : Ranged fun i => if i < c then rnd i else rnd' i := by
  intro i n hn
  dsimp only
  split
  · exact h i n hn
  · exact h' i n hn

theorem LocalStep.same (h : LocalStep Q calls f) {rnd : Nat → Nat → Nat} {s s' : σ} {x : ι} (hq : Q s) (he : f rnd s x = .ok s') :
    ∀ rnd', (∀ i, calls s ≤ i → i < calls s' → rnd' i = rnd i) → f rnd' s x = .ok s' := by
  obtain ⟨-, -, b, -, hb⟩ := h rnd s x s' hq he
  exact fun rnd' hr => hb rnd' fun i i1 i2 => by rw [hr i i1 i2]

theorem Can.cons (h : LocalStep Q calls f) {s s1 s2 : σ} (hq : Q s) {x : ι} {l : List ι} (h1 : Can f s x s1) (h2 : Can (fun rnd s (l : List ι) => l.foldlM (f rnd) s) s1 l s2) :
    Can (fun rnd s (l : List ι) => l.foldlM (f rnd) s) s (x :: l) s2 := by
  obtain ⟨r1, g1, e1⟩ := h1
  obtain ⟨r2, g2, e2⟩ := h2
  refine ⟨_, glue (calls s1) g1 g2, ?_⟩
  dsimp only
  rw [List.foldlM_cons, h.same hq e1 _ fun i _ i2 => if_pos i2]
  exact h.fold.same (h _ _ _ _ hq e1).1 e2 _ fun i i1 _ => if_neg (by omega)

theorem Can.append (h : LocalStep Q calls f) {s s1 s2 : σ} (hq : Q s) {l l' : List ι} (h1 : Can (fun rnd s (l : List ι) => l.foldlM (f rnd) s) s l s1)
    (h2 : Can (fun rnd s (l : List ι) => l.foldlM (f rnd) s) s1 l' s2) : Can (fun rnd s (l : List ι) => l.foldlM (f rnd) s) s (l ++ l') s2 := by
  obtain ⟨r1, g1, e1⟩ := h1
  obtain ⟨r2, g2, e2⟩ := h2
  refine ⟨_, glue (calls s1) g1 g2, ?_⟩
  have e := h.fold.same hq e1 (fun i => if i < calls s1 then r1 i else r2 i) fun i _ i2 => if_pos i2
  dsimp only at e ⊢
  rw [List.foldlM_append, e]
  exact h.fold.same (h.fold _ _ _ _ hq e1).1 e2 _ fun i i1 _ => if_neg (by omega)

theorem Can.keep (h : LocalStep Q calls f) {I : σ → Prop} {l : List ι} (hl : ∀ x ∈ l, ∀ s, I s → ∃ s', Can f s x s' ∧ I s') {s : σ} (hq : Q s) (hs : I s) :
    ∃ s', Can (fun rnd s (l : List ι) => l.foldlM (f rnd) s) s l s' ∧ I s' ∧ Q s' := by
  induction l generalizing s with
  | nil => exact ⟨s, ⟨fun _ _ => 1, fun _ _ hn => ⟨le_rfl, hn⟩, rfl⟩, hs, hq⟩
  | cons x l ih =>
    obtain ⟨s1, c1, i1⟩ := hl x List.mem_cons_self s hs
    have q1 : Q s1 := by
      obtain ⟨r, -, e⟩ := c1
      exact (h _ _ _ _ hq e).1
    obtain ⟨s2, c2, i2, q2⟩ := ih (fun y hy => hl y (List.mem_cons_of_mem _ hy)) q1 i1
    exact ⟨s2, c1.cons h hq c2, i2, q2⟩

end steps

/-- All weights in the table are one. -/
def Ones (D : List (Rect × Entry)) : Prop := ∀ r e, find D r = some e → e.num = 1

/-- One round of the loop over the options, all of them with the same weight. -/
theorem consider_eq {rnd : Nat → Nat → Nat} {width : Nat} {R : Rect} {D : List (Rect × Entry)} (hD : Ones D) {o : Ell × Rect} (ho : Opt P width R o)
    (c : Choice) :
    P.consider rnd R D c o =
      if c.bestscore.all fun b => decide (b < val D o.2 + P.blk o.1) then
        .ok ⟨some (val D o.2 + P.blk o.1), 1, if rnd c.calls 1 ≤ 1 then ⟨val D o.2 + P.blk o.1, some o.1, some o.2, 1⟩ else c.best, c.calls + 1⟩
      else if c.bestscore = some (val D o.2 + P.blk o.1) then
        .ok ⟨some (val D o.2 + P.blk o.1), c.count + 1, if rnd c.calls (c.count + 1) ≤ 1 then ⟨val D o.2 + P.blk o.1, some o.1, some o.2, 1⟩ else c.best, c.calls + 1⟩
      else .ok c := by
  have hw : weight (find D o.2) = 1 := by
    cases h : find D o.2 with
    | none => rfl
    | some e => exact hD _ e h
  unfold Proc.consider
  simp only [bind, Except.bind, combine_ok ho D, hw]
  generalize val D o.2 + P.blk o.1 = s
  obtain ⟨bs, count, best, calls⟩ := c
  cases bs with
  | none => simp only [Option.all_none, if_true, accumulate, Nat.zero_add]
  | some b =>
    by_cases h : b < s
    · simp only [h, decide_true, if_true, Option.all_some, accumulate, Nat.zero_add]
    · simp only [h, decide_false, if_false, Option.all_some, Bool.false_eq_true, accumulate]
      by_cases hb : some b = some s
      · simp only [hb, if_true]
      · simp only [hb, if_false]

theorem consider_local (R : Rect) {D : List (Rect × Entry)} (hD : Ones D) : LocalStep (fun c : Choice => c.best.num = 1) Choice.calls fun rnd => P.consider rnd R D := by
  intro rnd c o c' hq h
  dsimp only at h ⊢
  unfold Proc.consider at h ⊢
  have hw : weight (find D o.2) = 1 := by
    cases h : find D o.2 with
    | none => rfl
    | some e => exact hD _ e h
  cases hk : P.combine ((find D o.2).map Entry.score) o.1.y R.xmin R.xmax o.1.x o.2.ymin o.2.ymax with
  | error e =>
    simp only [bind, Except.bind, hk] at h
    cases h
  | ok s =>
    simp only [bind, Except.bind, hk, hw] at h ⊢
    have hcalls : ∀ b : Bool, (if b = true then ({ c with bestscore := some s, count := 0 } : Choice) else c).calls = c.calls ∧
        (if b = true then ({ c with bestscore := some s, count := 0 } : Choice) else c).best = c.best := by
      intro b
      cases b <;> exact ⟨rfl, rfl⟩
    generalize hz : (if (match c.bestscore with | none => true | some b => decide (b < s)) = true then ({ c with bestscore := some s, count := 0 } : Choice) else c) = z at h ⊢
    obtain ⟨hzc, hzb⟩ : z.calls = c.calls ∧ z.best = c.best := by rw [← hz]; exact hcalls _
    by_cases hs : z.bestscore = some s
    · rw [if_pos hs] at h
      cases h
      refine ⟨?_, by dsimp only; omega, fun _ => z.count + 1, fun _ => Nat.le_add_left _ _, fun rnd' hr => ?_⟩
      · simp only [accumulate]
        split
        · rfl
        · rw [hzb]
          exact hq
      · rw [if_pos hs]
        have := hr c.calls le_rfl (by dsimp only; omega)
        simp only [accumulate, hzc, this]
    · rw [if_neg hs] at h
      cases h
      refine ⟨by rw [hzb]; exact hq, by omega, fun _ => 1, fun _ => le_rfl, fun rnd' _ => ?_⟩
      rw [if_neg hs]

theorem withRect_local (R : Rect) {D : List (Rect × Entry)} (hD : Ones D) {rnd : Nat → Nat → Nat} {calls : Nat} {c : Choice} (h : P.withRect rnd calls R D = .ok c) :
    c.best.num = 1 ∧ calls ≤ c.calls ∧ ∃ bound : Nat → Nat, (∀ i, 1 ≤ bound i) ∧
      ∀ rnd', (∀ i, calls ≤ i → i < c.calls → rnd' i (bound i) = rnd i (bound i)) → P.withRect rnd' calls R D = .ok c :=
  (consider_local (P := P) R hD).fold rnd ⟨none, 0, ⟨0, none, none, 1⟩, calls⟩ (options P.N R) c rfl h

/-- Any of the best options can be chosen. -/
theorem withRect_can {width : Nat} {R : Rect} (hR : Shape P width R) {D : List (Rect × Entry)} (hD : Ones D) (calls : Nat) {o : Ell × Rect}
    (ho : o ∈ options P.N R) (hbest : ∀ q ∈ options P.N R, val D q.2 + P.blk q.1 ≤ val D o.2 + P.blk o.1) :
    ∃ rnd c, Ranged rnd ∧ P.withRect rnd calls R D = .ok c ∧ c.best = ⟨val D o.2 + P.blk o.1, some o.1, some o.2, 1⟩ := by
  obtain ⟨pre, post, hsplit⟩ := List.append_of_mem ho
  have hopt : ∀ q ∈ options P.N R, Opt P width R q := fun q hq => opt_of_mem hR hq
  generalize hs : val D o.2 + P.blk o.1 = s at hbest
  have one : Ranged fun _ _ => 1 := fun _ _ hn => ⟨le_rfl, hn⟩
  have top : Ranged fun _ n => n := fun _ _ hn => ⟨hn, le_rfl⟩
  -- before
  obtain ⟨c1, k1, i1, q1⟩ := Can.keep (consider_local (P := P) R hD) (I := fun c => ∀ b, c.bestscore = some b → b ≤ s) (l := pre) (fun q hq c hc => by
    have hm : q ∈ options P.N R := by rw [hsplit]; exact List.mem_append_left _ hq
    have hle := hbest q hm
    have e := consider_eq (rnd := fun _ _ => 1) hD (hopt q hm) c
    split at e
    · exact ⟨_, ⟨_, one, e⟩, fun b hb => by cases hb; exact hle⟩
    · split at e
      · exact ⟨_, ⟨_, one, e⟩, fun b hb => by cases hb; exact hle⟩
      · exact ⟨_, ⟨_, one, e⟩, hc⟩) (s := ⟨none, 0, ⟨0, none, none, 1⟩, calls⟩) rfl (fun b hb => by cases hb)
  -- the option
  have step : ∃ c2, Can (fun rnd => P.consider rnd R D) c1 o c2 ∧ c2.bestscore = some s ∧ 1 ≤ c2.count ∧ c2.best = ⟨s, some o.1, some o.2, 1⟩ := by
    have e := consider_eq (rnd := fun _ _ => 1) hD (hopt o ho) c1
    rw [hs] at e
    split at e
    · exact ⟨_, ⟨_, one, e⟩, rfl, le_rfl, rfl⟩
    · split at e
      · exact ⟨_, ⟨_, one, e⟩, rfl, by dsimp only; omega, rfl⟩
      · rename_i h1 h2
        exfalso
        cases hb : c1.bestscore with
        | none => rw [hb] at h1; exact h1 rfl
        | some b =>
          have := i1 b hb
          rw [hb] at h1 h2
          simp only [Option.all_some, decide_eq_true_eq] at h1
          exact h2 (by rw [show b = s by omega])
  obtain ⟨c2, k2, b2, n2, e2⟩ := step
  have q2 : c2.best.num = 1 := by rw [e2]
  -- after
  obtain ⟨c3, k3, i3, -⟩ := Can.keep (consider_local (P := P) R hD) (I := fun c => c.bestscore = some s ∧ 1 ≤ c.count ∧ c.best = ⟨s, some o.1, some o.2, 1⟩) (l := post) (fun q hq c hc => by
    have hm : q ∈ options P.N R := by rw [hsplit]; exact List.mem_append_right _ (List.mem_cons_of_mem _ hq)
    have hle := hbest q hm
    have e := consider_eq (rnd := fun _ n => n) hD (hopt q hm) c
    obtain ⟨b, n, h⟩ := hc
    rw [b, if_neg (by simp only [Option.all_some, decide_eq_true_eq]; omega)] at e
    split at e
    · rename_i hq'
      rw [if_neg (by omega)] at e
      exact ⟨_, ⟨_, top, e⟩, hq'.symm, by dsimp only; omega, h⟩
    · exact ⟨_, ⟨_, top, e⟩, b, n, h⟩) q2 ⟨b2, n2, e2⟩
  obtain ⟨rnd, r1, r2⟩ := k1.append (consider_local (P := P) R hD) rfl (k2.cons (consider_local (P := P) R hD) q1 k3)
  refine ⟨rnd, c3, r1, ?_, i3.2.2⟩
  unfold Proc.withRect
  rw [hsplit]
  exact r2

theorem visit_eq (S : Search) (R : Rect) (c : Choice) : ∃ z : Search, z.calls = c.calls ∧ z.table = (R, c.best) :: S.table ∧ ∀ rnd, P.withRect rnd S.calls R S.table = .ok c →
    P.visit rnd S R = if z.maxscore = c.bestscore then
      .ok { z with count := (accumulate rnd z.calls z.count c.best.num z.key (some R)).1, key := (accumulate rnd z.calls z.count c.best.num z.key (some R)).2, calls := z.calls + 1 }
    else .ok z := by
  refine ⟨if (match S.maxscore, c.bestscore with
      | none, _ => true
      | some m, some s => decide (m < s)
      | some _, none => false) = true then ({ table := (R, c.best) :: S.table, maxscore := c.bestscore, count := 0, key := none, calls := c.calls } : Search) else
      { table := (R, c.best) :: S.table, maxscore := S.maxscore, count := S.count, key := S.key, calls := c.calls }, ?_, ?_, fun rnd h => ?_⟩
  · exact (apply_ite Search.calls _ _ _).trans (ite_self _)
  · exact (apply_ite Search.table _ _ _).trans (ite_self _)
  · unfold Proc.visit
    simp only [bind, Except.bind, h]
    rfl

theorem Ones.cons {D : List (Rect × Entry)} (h : Ones D) {R : Rect} {e : Entry} (he : e.num = 1) : Ones ((R, e) :: D) := by
  intro r e' h'
  rw [find_cons] at h'
  split at h'
  · cases h'
    exact he
  · exact h r e' h'

theorem visit_local : LocalStep (fun S : Search => Ones S.table) Search.calls fun rnd => P.visit rnd := by
  intro rnd S R S' hq h
  dsimp only at hq h ⊢
  cases hc : P.withRect rnd S.calls R S.table with
  | error e =>
    unfold Proc.visit at h
    simp only [bind, Except.bind, hc] at h
    cases h
  | ok c =>
    obtain ⟨hn, l1, b, p, l2⟩ := withRect_local R hq hc
    obtain ⟨z, hzc, hzt, hz⟩ := visit_eq (P := P) S R c
    rw [hz rnd hc] at h
    have ht : Ones z.table := by rw [hzt]; exact hq.cons hn
    by_cases hs : z.maxscore = c.bestscore
    · rw [if_pos hs] at h
      cases h
      refine ⟨ht, by dsimp only; omega, fun i => if i < c.calls then b i else z.count + 1, fun i => ?_, fun rnd' hr => ?_⟩
      · dsimp only
        split
        · exact p i
        · omega
      · dsimp only at hr
        have e := l2 rnd' fun i i1 i2 => by
          have := hr i i1 (by omega)
          rw [if_pos i2] at this
          exact this
        have e' := hr c.calls l1 (by omega)
        rw [if_neg (lt_irrefl _)] at e'
        rw [hz rnd' e, if_pos hs]
        simp only [accumulate, hzc, hn, e']
    · rw [if_neg hs] at h
      cases h
      refine ⟨ht, by omega, b, p, fun rnd' hr => ?_⟩
      rw [hz rnd' (l2 rnd' fun i i1 i2 => hr i i1 (by omega)), if_neg hs]

/-- The rectangle of the round can be taken as the key, or left. -/
theorem visit_can {rnd : Nat → Nat → Nat} (hr : Ranged rnd) {S : Search} {R : Rect} {c : Choice} (hc : P.withRect rnd S.calls R S.table = .ok c) (hD : Ones S.table)
    (hcount : ∀ m, S.maxscore = some m → 1 ≤ S.count) (accept : Bool) :
    ∃ S', Can (fun rnd => P.visit rnd) S R S' ∧ S'.table = (R, c.best) :: S.table ∧ (∀ m, S'.maxscore = some m → 1 ≤ S'.count) ∧
      (accept = true → (∃ s, c.bestscore = some s ∧ ∀ m, S.maxscore = some m → m ≤ s) → S'.key = some R) ∧
      (accept = false → (∃ m, S.maxscore = some m ∧ ∀ s, c.bestscore = some s → s ≤ m) → S'.key = S.key) := by
  obtain ⟨hn, l1, b, -, l2'⟩ := withRect_local R hD hc
  have l2 : ∀ rnd', (∀ i, S.calls ≤ i → i < c.calls → rnd' i = rnd i) → P.withRect rnd' S.calls R S.table = .ok c := fun rnd' hr => l2' rnd' fun i i1 i2 => by rw [hr i i1 i2]
  have rg : Ranged fun i => if i < c.calls then rnd i else fun n => if accept = true then 1 else n := by
    refine glue c.calls (rnd' := fun _ n => if accept = true then 1 else n) hr fun i n hn => ?_
    dsimp only
    split
    · exact ⟨le_rfl, hn⟩
    · exact ⟨hn, le_rfl⟩
  have e := l2 (fun i => if i < c.calls then rnd i else fun n => if accept = true then 1 else n) fun i _ i2 => if_pos i2
  have last : (fun i => if i < c.calls then rnd i else fun n => if accept = true then 1 else n : Nat → Nat → Nat) c.calls = fun n => if accept = true then 1 else n :=
    if_neg (lt_irrefl _)
  generalize (fun i => if i < c.calls then rnd i else fun n => if accept = true then 1 else n : Nat → Nat → Nat) = rnd' at rg e last
  have out : ∃ S', P.visit rnd' S R = .ok S' ∧ S'.table = (R, c.best) :: S.table ∧ (∀ m, S'.maxscore = some m → 1 ≤ S'.count) ∧
      (accept = true → (∃ s, c.bestscore = some s ∧ ∀ m, S.maxscore = some m → m ≤ s) → S'.key = some R) ∧
      (accept = false → (∃ m, S.maxscore = some m ∧ ∀ s, c.bestscore = some s → s ≤ m) → S'.key = S.key) := by
    unfold Proc.visit
    simp only [bind, Except.bind, e]
    obtain ⟨D, ms, count, key, calls⟩ := S
    dsimp only at *
    cases hms : ms with
    | none =>
      simp only [if_true, accumulate, Nat.zero_add, hn, last]
      refine ⟨_, rfl, rfl, fun _ _ => le_rfl, fun _ _ => ?_, fun _ ⟨m, h, _⟩ => by cases h⟩
      dsimp only
      rw [if_pos (by split <;> exact le_rfl)]
    | some m =>
      have h1 := hcount m hms
      cases hbs : c.bestscore with
      | none =>
        simp only [Bool.false_eq_true, if_false, reduceCtorEq]
        exact ⟨_, rfl, rfl, fun _ _ => h1, fun _ ⟨s, h, _⟩ => h.elim, fun _ _ => rfl⟩
      | some s =>
        by_cases hlt : m < s
        · simp only [hlt, decide_true, if_true, accumulate, Nat.zero_add, hn, last]
          refine ⟨_, rfl, rfl, fun _ _ => le_rfl, fun _ _ => ?_, fun _ ⟨m', h, h'⟩ => ?_⟩
          · dsimp only
            rw [if_pos (by split <;> exact le_rfl)]
          · cases h
            have := h' s rfl
            omega
        · simp only [hlt, decide_false, Bool.false_eq_true, if_false]
          by_cases heq : some m = some s
          · simp only [heq, if_true, accumulate, hn, last]
            refine ⟨_, rfl, rfl, fun _ _ => by dsimp only; omega, fun ha _ => ?_, fun ha _ => ?_⟩
            · simp only [ha, if_true, le_refl]
            · simp only [ha, Bool.false_eq_true, if_false]
              rw [if_neg (by omega)]
          · simp only [heq, if_false]
            refine ⟨_, rfl, rfl, fun _ _ => h1, fun _ ⟨s', h, h'⟩ => ?_, fun _ _ => rfl⟩
            cases h
            have := h' m rfl
            exact absurd (by rw [show m = s by omega]) heq
  obtain ⟨S', o1, o2⟩ := out
  exact ⟨S', ⟨rnd', rg, o1⟩, o2⟩

/-- Blocks of a clique that scores as high as the table says are best choices. -/
theorem best_choice {width : Nat} {T : Search} (hT : Inv P width (rects P.M P.N width) T) {es : List Ell} (hn : Native P.M P.N (width + 1) es) :
    ∀ e, es.head? = some e → val T.table (Rof e) ≤ (es.map P.blk).sum →
      (∀ e ∈ es, val T.table (Rof e) = val T.table (leftOf e) + P.blk e) ∧ ∀ e, es.getLast? = some e → val T.table (leftOf e) = 0 := by
  induction es with
  | nil => intro e h; cases h
  | cons e es ih =>
    intro e' he hle
    cases he
    have hg : InGrid P e := ⟨hn.cols e List.mem_cons_self, hn.rows e List.mem_cons_self⟩
    obtain ⟨h1, h2⟩ := rof_mem hg (by rw [hn.len e List.mem_cons_self]; push_cast; rfl)
    obtain ⟨v, hv⟩ := (hT.keys _).mpr h1
    have hge := (hT.good _ v hv).2.2 _ h2
    have hval : val T.table (Rof e) = v.score := by unfold val; rw [hv]
    have hch := List.isChain_cons.mp hn.next
    rw [List.map_cons, List.sum_cons] at hle
    dsimp only at hge
    cases es with
    | nil =>
      rw [List.map_nil, List.sum_nil] at hle
      refine ⟨fun f hf => ?_, fun f hf => ?_⟩
      · rw [List.mem_singleton] at hf
        subst hf
        omega
      · have : e = f := Option.some.inj hf
        subst this
        omega
    | cons f es =>
      have hn' : Native P.M P.N (width + 1) (f :: es) :=
        ⟨hch.2, fun g hg => hn.cols g (List.mem_cons_of_mem _ hg), fun g hg => hn.rows g (List.mem_cons_of_mem _ hg), fun g hg => hn.len g (List.mem_cons_of_mem _ hg)⟩
      have hb := table_best hT hn' f rfl
      have hnext := rof_next (hch.1 f rfl)
      rw [hnext] at hb
      obtain ⟨i1, i2⟩ := ih hn' f rfl (by rw [hnext]; omega)
      refine ⟨fun g hg' => ?_, fun g hg' => i2 g (by rw [← hg', List.getLast?_cons_cons])⟩
      rcases List.mem_cons.mp hg' with rfl | hg'
      · omega
      · exact i1 g hg'

theorem rof_inj {es : List Ell} (h : es.IsChain Ell.Next) : ∀ e ∈ es, ∀ f ∈ es, Rof e = Rof f → e = f := by
  have : Trans Before Before Before := ⟨Before.trans⟩
  have hp : es.Pairwise Before := (List.isChain_iff_pairwise (R := Before)).mp (h.imp fun _ _ => Before.of_next)
  have ne : ∀ {e f : Ell}, Before e f → Rof e ≠ Rof f := by
    intro e f hb hr
    have c : ∀ g : Ell, (Rof g).xmin = min g.x g.x' ∧ (Rof g).xmax = max g.x g.x' := fun g => by
      unfold Rof
      split <;> exact ⟨rfl, rfl⟩
    refine hb.col ?_
    unfold Ell.InCols
    rw [← (c f).1, ← (c f).2, ← hr, (c e).1, (c e).2]
    exact inCols_corner e
  clear h
  induction hp with
  | nil => intro e he; cases he
  | cons ha _ ih =>
    intro e he f hf hr
    rcases List.mem_cons.mp he with he | he <;> rcases List.mem_cons.mp hf with hf | hf
    · rw [he, hf]
    · exact absurd hr (ne (he ▸ ha f hf))
    · exact absurd hr.symm (ne (hf ▸ ha e he))
    · exact ih e he f hf hr

/-- The search, led to the blocks `es`. -/
theorem search_can {width : Nat} {T : Search} (hT : Inv P width (rects P.M P.N width) T) {e₀ : Ell} {es : List Ell} (hn : Native P.M P.N (width + 1) (e₀ :: es))
    (hmax : ∀ R ∈ rects P.M P.N width, val T.table R ≤ val T.table (Rof e₀))
    (hbest : ∀ e ∈ e₀ :: es, val T.table (Rof e) = val T.table (leftOf e) + P.blk e) :
    ∃ rnd S, Ranged rnd ∧ (rects P.M P.N width).foldlM (P.visit rnd) ⟨[], none, 0, none, 0⟩ = .ok S ∧ Inv P width (rects P.M P.N width) S ∧ S.key = some (Rof e₀) ∧
      (∀ R ∈ rects P.M P.N width, val S.table R = val T.table R) ∧ ∀ e ∈ e₀ :: es, ∃ s, find S.table (Rof e) = some ⟨s, some e, some (leftOf e), 1⟩ := by
  have hmem : ∀ e ∈ e₀ :: es, Rof e ∈ rects P.M P.N width ∧ (e, leftOf e) ∈ options P.N (Rof e) := fun e he =>
    rof_mem ⟨hn.cols e he, hn.rows e he⟩ (by rw [hn.len e he]; push_cast; rfl)
  have key : ∀ (todo seen : List Rect) (S : Search), rects P.M P.N width = seen ++ todo → Inv P width seen S → Ones S.table →
      (∀ m, S.maxscore = some m → 1 ≤ S.count) → (Rof e₀ ∈ seen → S.key = some (Rof e₀)) → (∀ R ∈ seen, val S.table R = val T.table R) →
      (∀ e ∈ e₀ :: es, Rof e ∈ seen → ∃ s, find S.table (Rof e) = some ⟨s, some e, some (leftOf e), 1⟩) →
      ∃ S', Can (fun rnd s (l : List Rect) => l.foldlM (P.visit rnd) s) S todo S' ∧ Inv P width (seen ++ todo) S' ∧ (Rof e₀ ∈ seen ++ todo → S'.key = some (Rof e₀)) ∧
        (∀ R ∈ seen ++ todo, val S'.table R = val T.table R) ∧
        ∀ e ∈ e₀ :: es, Rof e ∈ seen ++ todo → ∃ s, find S'.table (Rof e) = some ⟨s, some e, some (leftOf e), 1⟩ := by
    intro todo
    induction todo with
    | nil =>
      intro seen S _ hi _ _ hk hv hw
      exact ⟨S, ⟨fun _ _ => 1, fun _ _ h => ⟨le_rfl, h⟩, rfl⟩, by rw [List.append_nil]; exact ⟨hi, hk, hv, hw⟩⟩
    | cons R todo ih =>
      intro seen S hsplit hi hnum hcount hk hv hw
      have hsorted := hsplit ▸ rects_sorted P.M P.N width
      have hRm : R ∈ rects P.M P.N width := by rw [hsplit]; exact List.mem_append_right _ List.mem_cons_self
      have hR := (mem_rects.mp hRm).1
      have hwid : ∀ R' ∈ seen, R'.xmax - R'.xmin ≤ R.xmax - R.xmin := fun R' h => (List.pairwise_append.mp hsorted).2.2 R' h R List.mem_cons_self
      -- the values of the options
      have hopt : ∀ o ∈ options P.N R, val S.table o.2 = val T.table o.2 := by
        intro o ho
        have op := opt_of_mem hR ho
        by_cases hs : o.2 ∈ seen
        · exact hv _ hs
        · have hns : o.2 ∉ rects P.M P.N width := by
            rw [hsplit, List.mem_append]
            rintro (h | h)
            · exact hs h
            · have hw' := op.width
              rcases List.mem_cons.mp h with h | h
              · rw [h] at hw'
                omega
              · have := List.rel_of_pairwise_cons (List.pairwise_append.mp hsorted).2.1 h
                omega
          have z : ∀ (U : Search) (l : List Rect), Inv P width l U → o.2 ∉ l → val U.table o.2 = 0 := by
            intro U l hU hl
            unfold val
            cases hf : find U.table o.2 with
            | none => rfl
            | some e => exact absurd ((hU.keys _).mp ⟨e, hf⟩) hl
          rw [z S _ hi hs, z T _ hT hns]
      -- the choice of the block
      have choose : ∃ rnd c, Ranged rnd ∧ P.withRect rnd S.calls R S.table = .ok c ∧ ∀ e ∈ e₀ :: es, Rof e = R → ∃ s, c.best = ⟨s, some e, some (leftOf e), 1⟩ := by
        by_cases hex : ∃ e ∈ e₀ :: es, Rof e = R
        · obtain ⟨e, he, rfl⟩ := hex
          obtain ⟨rnd, c, c1, c2, c3⟩ := withRect_can hR hnum S.calls (hmem e he).2 fun q hq => by
            rw [hopt q hq, hopt _ (hmem e he).2]
            obtain ⟨v, hv'⟩ := (hT.keys _).mpr hRm
            have := (hT.good _ v hv').2.2 q hq
            have e2 : val T.table (Rof e) = v.score := by unfold val; rw [hv']
            have := hbest e he
            dsimp only
            omega
          refine ⟨rnd, c, c1, c2, fun f hf hr => ?_⟩
          rw [rof_inj hn.next f hf e he hr]
          exact ⟨_, c3⟩
        · have one : Ranged fun _ _ => 1 := fun _ _ h => ⟨le_rfl, h⟩
          obtain ⟨c, c1, -⟩ := withRect_spec one.rolls hR (D := S.table) (fun r e he => by rw [hnum r e he]; exact Nat.one_pos) S.calls
          exact ⟨_, c, one, c1, fun e he hr => absurd ⟨e, he, hr⟩ hex⟩
      obtain ⟨rnd, c, c1, c2, c3⟩ := choose
      have cnum := (withRect_local R hnum c2).1
      obtain ⟨c', w1, w2, w3, w4⟩ := withRect_spec c1.rolls hR (D := S.table) (fun r e he => by rw [hnum r e he]; exact Nat.one_pos) S.calls
      rw [c2] at w1
      cases w1
      obtain ⟨S', ⟨rnd', r1, r2⟩, s2, s3, s4, s5⟩ := visit_can c1 c2 hnum hcount (decide (Rof e₀ = R))
      obtain ⟨S'', v1, v2⟩ := visit_inv r1.rolls hi hR hwid
      dsimp only at r2
      rw [r2] at v1
      cases v1
      -- the score of the block
      have score : c.best.score = val T.table R := by
        obtain ⟨v, hv'⟩ := (hT.keys _).mpr hRm
        have e2 : val T.table R = v.score := by unfold val; rw [hv']
        obtain ⟨-, g2, g3⟩ := hT.good _ v hv'
        obtain ⟨-, k2, k3⟩ := w2
        rw [e2]
        rcases g2 with g2 | ⟨o, ho, -, -, g2⟩ <;> rcases k2 with k2 | ⟨q, hq, -, -, k2⟩
        · rw [g2.2.1, k2.2.1]
        · rw [g2.1] at hq; cases hq
        · rw [k2.1] at ho; cases ho
        · have a1 := g3 q hq
          have a2 := k3 o ho
          rw [← hopt q hq] at a1
          rw [← hopt o ho] at g2
          omega
      have bscore : ∀ s, c.bestscore = some s → s = val T.table R := by
        intro s hs
        by_cases ho : options P.N R = []
        · rw [w3 ho] at hs; cases hs
        · rw [w4 ho] at hs
          cases hs
          exact score
      obtain ⟨U, u1, u2⟩ := ih (seen ++ [R]) S' (by rw [List.append_assoc]; exact hsplit) v2 (fun r e he => by
          rw [s2, find_cons] at he
          split at he
          · cases he; exact cnum
          · exact hnum r e he) s3 (fun hin => by
          by_cases heq : Rof e₀ = R
          · rw [heq]
            refine s4 (by simp [heq]) ?_
            have hne : options P.N R ≠ [] := by
              rw [← heq]
              exact List.ne_nil_of_mem (hmem e₀ List.mem_cons_self).2
            refine ⟨_, w4 hne, fun m hm => ?_⟩
            obtain ⟨r, k1, k2, -⟩ := hi.some m hm
            have hr := hi.key r k1
            rw [score, ← heq, ← k2, hv r hr]
            exact hmax r (by rw [hsplit]; exact List.mem_append_left _ hr)
          · have hseen : Rof e₀ ∈ seen := (List.mem_append.mp hin).resolve_right fun h => heq (List.mem_singleton.mp h)
            rw [s5 (by simp [heq]) ?_, hk hseen]
            cases hms : S.maxscore with
            | none =>
              have := hi.none hms _ hseen
              have h2 := (hmem e₀ List.mem_cons_self).2
              rw [this] at h2
              cases h2
            | some m =>
              obtain ⟨r, k1, k2, -, k4⟩ := hi.some m hms
              refine ⟨m, rfl, fun s hs => ?_⟩
              rw [bscore s hs]
              have a := k4 _ hseen
              rw [hv _ hseen] at a
              exact (hmax R hRm).trans a) (fun R' hR' => by
          rw [s2]
          by_cases h : R = R'
          · rw [← h, ← score]
            unfold val
            rw [find_cons, if_pos rfl]
          · rw [← hv R' ((List.mem_append.mp hR').resolve_right fun h' => h (List.mem_singleton.mp h').symm)]
            unfold val
            rw [find_cons, if_neg h]) (fun e he hin => by
          rw [s2]
          by_cases heq : Rof e = R
          · obtain ⟨s, hs⟩ := c3 e he heq
            exact ⟨s, by rw [find_cons, if_pos heq.symm, hs]⟩
          · obtain ⟨s, hs⟩ := hw e he ((List.mem_append.mp hin).resolve_right fun h => heq (List.mem_singleton.mp h))
            exact ⟨s, by rw [find_cons, if_neg fun h => heq h.symm, hs]⟩)
      rw [List.append_assoc] at u2
      exact ⟨U, Can.cons visit_local hnum ⟨rnd', r1, r2⟩ u1, u2⟩
  obtain ⟨S, ⟨rnd, r1, r2⟩, h1, h2, h3, h4⟩ := key (rects P.M P.N width) [] ⟨[], none, 0, none, 0⟩ rfl
    ⟨fun R => ⟨fun ⟨e, h⟩ => (by cases h), fun h => (nomatch h)⟩, fun R h => (nomatch h), fun R e h => (by cases h), fun r h => (by cases h), fun _ R h => (nomatch h),
      fun m h => (by cases h)⟩ (fun r e h => by cases h) (fun m h => by cases h) (fun h => nomatch h) (fun R h => nomatch h) (fun e _ h => nomatch h)
  exact ⟨rnd, S, r1, r2, h1, h2 (hmem e₀ List.mem_cons_self).1, h3, fun e he => h4 e he (hmem e he).1⟩

/-- The blocks `es` are read from the table, with blocks that score nothing after them. -/
theorem collect_es {width : Nat} {seen : List Rect} {S : Search} (hS : Inv P width seen S) {es : List Ell} (hch : es.IsChain Ell.Next)
    (hfind : ∀ e ∈ es, ∃ s, find S.table (Rof e) = some ⟨s, some e, some (leftOf e), 1⟩) (hlast : ∀ e, es.getLast? = some e → val S.table (leftOf e) = 0) :
    ∀ (fuel : Nat) (e : Ell), es.head? = some e → (Rof e).xmax - (Rof e).xmin + 1 < fuel →
      ∃ tail, collect S.table fuel (some (Rof e)) = .ok (es ++ tail) ∧ (tail.map P.blk).sum = 0 ∧ ∀ f ∈ tail, InGrid P f := by
  induction es with
  | nil => intro fuel e h; cases h
  | cons e es ih =>
    intro fuel e' he hf
    cases he
    obtain ⟨s, hs⟩ := hfind e List.mem_cons_self
    have hwid : (leftOf e).xmax - (leftOf e).xmin + 1 = (Rof e).xmax - (Rof e).xmin := by
      unfold leftOf Rof
      split <;> split <;> dsimp only <;> omega
    have hwid' : 0 ≤ (Rof e).xmax - (Rof e).xmin := by
      unfold Rof
      split <;> dsimp only <;> omega
    cases fuel with
    | zero => push_cast at hf; omega
    | succ fuel =>
      have rest : ∃ tail, collect S.table fuel (some (leftOf e)) = .ok (es ++ tail) ∧ (tail.map P.blk).sum = 0 ∧ ∀ f ∈ tail, InGrid P f := by
        push_cast at hf
        cases es with
        | nil =>
          obtain ⟨tail, t1, t2, t3, -⟩ := collect_spec hS fuel (leftOf e) (by omega)
          exact ⟨tail, t1, by rw [t3]; exact hlast e rfl, fun f hf => ⟨t2.cols f hf, t2.rows f hf⟩⟩
        | cons f es =>
          have hc := List.isChain_cons.mp hch
          rw [← rof_next (hc.1 f rfl)]
          exact ih hc.2 (fun g hg => hfind g (List.mem_cons_of_mem _ hg)) (fun g hg => hlast g (by rw [← hg, List.getLast?_cons_cons])) fuel f rfl
            (by rw [rof_next (hc.1 f rfl)]; omega)
      obtain ⟨tail, t1, t2⟩ := rest
      refine ⟨tail, ?_, t2⟩
      unfold collect
      rw [hs]
      simp only [bind, Except.bind, t1, List.cons_append]

/-- Random numbers that lead to the blocks `es`. -/
theorem native_can {mix : Ell → Bool → List (List Qb) → List (List Qb)} (hm : ∀ e, Mixes (mix e)) (hsize : ∀ e, InGrid P e → e.size P.edges P.L = P.blk e) {width : Nat} {es : List Ell}
    (hn : Native P.M P.N (width + 1) es) (hmax : ∀ es', Native P.M P.N (width + 1) es' → (es'.map P.blk).sum ≤ (es.map P.blk).sum) :
    ∃ rnd score, Ranged rnd ∧ ∃ (k : Nat) (bound : Nat → Nat), (∀ i, 1 ≤ bound i) ∧
      ∀ rnd', (∀ i < k, rnd' i (bound i) = rnd i (bound i)) → P.native rnd' mix width = .ok (score, es.flatMap fun e => P.bundle (mix e) e) := by
  have one : Ranged fun _ _ => 1 := fun _ _ h => ⟨le_rfl, h⟩
  have ones : Ones [] := fun r e h => by cases h
  have run : ∀ {rnd S fs}, (rects P.M P.N width).foldlM (P.visit rnd) ⟨[], none, 0, none, 0⟩ = .ok S → collect S.table (width + 3) S.key = .ok fs →
      ∃ (k : Nat) (bound : Nat → Nat), (∀ i, 1 ≤ bound i) ∧
        ∀ rnd', (∀ i < k, rnd' i (bound i) = rnd i (bound i)) → P.native rnd' mix width = .ok (S.maxscore, fs.flatMap fun e => P.bundle (mix e) e) := by
    intro rnd S fs h1 h2
    obtain ⟨-, -, b, p, hb⟩ := (visit_local (P := P)).fold rnd ⟨[], none, 0, none, 0⟩ (rects P.M P.N width) S ones h1
    refine ⟨S.calls, b, p, fun rnd' hr => ?_⟩
    have := hb rnd' fun i _ i2 => hr i i2
    dsimp only at this
    unfold Proc.native
    simp only [bind, Except.bind, this, h2]
  have none' : ∀ tail : List Ell, (tail.map P.blk).sum = 0 → (∀ f ∈ tail, InGrid P f) → (tail.flatMap fun e => P.bundle (mix e) e) = [] := by
    intro tail h1 h2
    rw [List.flatMap_eq_nil_iff]
    intro e he
    have : P.blk e = 0 := List.sum_eq_zero_iff_forall_eq_nat.mp h1 _ (List.mem_map_of_mem he)
    rw [← List.length_eq_zero_iff, bundle_length (hm e), hsize e (h2 e he), this]
  cases es with
  | nil =>
    obtain ⟨T, t1, t2⟩ := search_inv (P := P) one.rolls width
    have read : ∃ fs, collect T.table (width + 3) T.key = .ok fs ∧ Native P.M P.N (width + 1) fs := by
      cases hk : T.key with
      | none => exact ⟨[], by unfold collect; rfl, ⟨.nil, fun e h => (nomatch h), fun e h => (nomatch h), fun e h => (nomatch h)⟩⟩
      | some r =>
        obtain ⟨hs, -⟩ := mem_rects.mp (t2.key r hk)
        obtain ⟨fs, g1, g2, -, -⟩ := collect_spec t2 (width + 3) r (by have := hs.sum; have := (mem_rects.mp (t2.key r hk)).2; push_cast; omega)
        exact ⟨fs, g1, g2⟩
    obtain ⟨fs, f1, f2⟩ := read
    have := hmax fs f2
    rw [List.map_nil, List.sum_nil] at this
    obtain ⟨k, b, p, h⟩ := run t1 f1
    rw [none' fs (by omega) fun f hf => ⟨f2.cols f hf, f2.rows f hf⟩] at h
    exact ⟨_, _, one, k, b, p, h⟩
  | cons e₀ es =>
    obtain ⟨T, t1, t2⟩ := search_inv (P := P) one.rolls width
    have hroom : ∀ R ∈ rects P.M P.N width, val T.table R ≤ ((e₀ :: es).map P.blk).sum := by
      intro R hR
      obtain ⟨hs, -⟩ := mem_rects.mp hR
      obtain ⟨es', -, g2, g3, -⟩ := collect_spec t2 (width + 3) R (by have := hs.sum; have := (mem_rects.mp hR).2; push_cast; omega)
      rw [← g3]
      exact hmax es' g2
    have h0 : Rof e₀ ∈ rects P.M P.N width :=
      (rof_mem ⟨hn.cols e₀ List.mem_cons_self, hn.rows e₀ List.mem_cons_self⟩ (by rw [hn.len e₀ List.mem_cons_self]; push_cast; rfl)).1
    obtain ⟨b1, b2⟩ := best_choice t2 hn e₀ rfl (hroom _ h0)
    have htop := table_best t2 hn e₀ rfl
    obtain ⟨rnd, S, r1, r2, i1, i2, i3, i4⟩ := search_can t2 hn (fun R hR => (hroom R hR).trans htop) b1
    have hval : ∀ e, (e₀ :: es).getLast? = some e → val S.table (leftOf e) = 0 := by
      intro e he
      by_cases hin : leftOf e ∈ rects P.M P.N width
      · rw [i3 _ hin]
        exact b2 e he
      · unfold val
        cases hf : find S.table (leftOf e) with
        | none => rfl
        | some v => exact absurd ((i1.keys _).mp ⟨v, hf⟩) hin
    obtain ⟨tail, c1, c2, c3⟩ := collect_es i1 hn.next i4 hval (width + 3) e₀ rfl (by
      obtain ⟨hs, -⟩ := mem_rects.mp h0
      have := hs.sum
      have := (mem_rects.mp h0).2
      push_cast
      omega)
    obtain ⟨k, b, p, h⟩ := run r2 (by rw [i2]; exact c1)
    rw [List.flatMap_append, none' tail c2 c3, List.append_nil] at h
    exact ⟨rnd, S.maxscore, r1, k, b, p, h⟩

end Eden
end MM
