import Verif.Par.Threads
import Verif.Core.FindChain
import Verif.Core.Totals
import Verif.Par.Chunks
import Mathlib.Data.List.Nodup

/-! Invariants of the threads of `pathfinder_parallel`. -/

namespace MM
namespace Par

/-! ### a search as a sequence of steps -/

/-- `n` steps of a search. -/
inductive Runs (K : Fixed) (v : Nat) : Nat → Ctrl × Row → Ctrl × Row → Prop
  | refl (x) : Runs K v 0 x x
  | step {n x y z} : x.1 ≠ .fin → next K v x = .ok y → Runs K v n y z → Runs K v (n+1) x z

theorem Runs.trans {K : Fixed} {v m n : Nat} {x y z : Ctrl × Row} (h : Runs K v m x y) (k : Runs K v n y z) :
    Runs K v (n + m) x z := by
  induction h with
  | refl => exact k
  | step a b _ ih => exact .step a b (ih k)

theorem Runs.one {K : Fixed} {v : Nat} {x y : Ctrl × Row} (a : x.1 ≠ .fin) (h : next K v x = .ok y) :
    Runs K v 1 x y := .step a h (.refl _)

/-- A finished search is determined by its start. -/
theorem Runs.unique {K : Fixed} {v m n : Nat} {x : Ctrl × Row} {y z : Row} (h : Runs K v m x (.fin, y))
    (k : Runs K v n x (.fin, z)) : m = n ∧ y = z := by
  generalize hy : (Ctrl.fin, y) = y' at h
  induction h generalizing n with
  | refl =>
    subst hy
    cases k with
    | refl => exact ⟨rfl, rfl⟩
    | step a => exact absurd rfl a
  | step a b _ ih =>
    cases k with
    | refl => exact absurd rfl a
    | step a' b' k' =>
      rw [b] at b'; cases b'
      obtain ⟨h1, h2⟩ := ih k' hy
      exact ⟨by omega, h2⟩

theorem Runs.fin {K : Fixed} {v n : Nat} {r s : Row} (h : Runs K v n (.fin, r) (.fin, s)) : r = s :=
  ((Runs.refl (K := K) (v := v) (.fin, r)).unique h).2

variable {K : Fixed} {v : Nat}

theorem bind_ok {α β : Type} {x : M α} {f : α → M β} {b : β} (h : x.bind f = .ok b) :
    ∃ a, x = .ok a ∧ f a = .ok b := by
  cases x with
  | error e => cases h
  | ok a => exact ⟨a, rfl, h⟩

theorem free_runs (d : Nat → D) : ∀ (qs : List Nat) (F F' : Front), Front.seedFree K.P (K.perm v) qs F = .ok F' →
    ∃ n, Runs K v n (.free qs F.pq, ⟨F.par, F.vis, d⟩) (.loop F'.pq, ⟨F'.par, F'.vis, d⟩)
  | [], F, F', h => by
    cases h
    exact ⟨1, .one (by simp) rfl⟩
  | q :: qs, F, F', h => by
    unfold Front.seedFree at h
    rw [List.foldlM_cons] at h
    obtain ⟨G, h1, h2⟩ := bind_ok h
    obtain ⟨n, hn⟩ := free_runs d qs G F' h2
    refine ⟨_, .step (by simp) ?_ hn⟩
    obtain ⟨G1, g1, g2⟩ := bind_ok h1
    unfold next
    dsimp only [bind, Except.bind]
    have e : (⟨F.par, F.vis, F.pq⟩ : Front) = F := rfl
    rw [e, g1]
    dsimp only
    rw [g2]

theorem beside_runs (d : Nat → D) (qs : List Nat) (q : Nat) : ∀ (ps : List Nat) (F F' : Front),
    ps.foldlM (init := F) (fun F p => if p < K.P.nq then
        if F.vis p ≠ 0 then .ok F
        else if (fun _ : Nat => true) p then do
          let F ← Front.push K.P (K.perm v) F p (K.qw p)
          Front.setVis K.P { F with par := upd F.par p (some q) } p 1
        else .ok F
      else (.error .ub : M Front)) = .ok F' →
    ∃ n, Runs K v n (.beside qs q ps F.pq, ⟨F.par, F.vis, d⟩) (.fixed qs F'.pq, ⟨F'.par, F'.vis, d⟩)
  | [], F, F', h => by
    cases h
    exact ⟨1, .one (by simp) rfl⟩
  | p :: ps, F, F', h => by
    rw [List.foldlM_cons] at h
    obtain ⟨G, h1, h2⟩ := bind_ok h
    obtain ⟨n, hn⟩ := beside_runs d qs q ps G F' h2
    refine ⟨_, .step (by simp) ?_ hn⟩
    unfold next
    dsimp only
    by_cases hp : p < K.P.nq
    · rw [if_pos hp] at h1 ⊢
      by_cases hv : F.vis p ≠ 0
      · rw [if_pos hv] at h1 ⊢; cases h1; rfl
      · rw [if_neg hv] at h1 ⊢
        rw [if_pos rfl] at h1
        obtain ⟨G1, g1, g2⟩ := bind_ok h1
        dsimp only [bind, Except.bind]
        have e : (⟨F.par, F.vis, F.pq⟩ : Front) = F := rfl
        rw [e, g1]
        dsimp only
        rw [g2]
    · rw [if_neg hp] at h1; cases h1

theorem fixed_runs (d : Nat → D) : ∀ (qs : List Nat) (F F' : Front),
    Front.seedFixed K.P (K.perm v) (fun _ => true) K.qw qs F = .ok F' →
    ∃ n, Runs K v n (.fixed qs F.pq, ⟨F.par, F.vis, d⟩) (.loop F'.pq, ⟨F'.par, F'.vis, d⟩)
  | [], F, F', h => by
    cases h
    exact ⟨1, .one (by simp) rfl⟩
  | q :: qs, F, F', h => by
    unfold Front.seedFixed at h
    rw [List.foldlM_cons] at h
    obtain ⟨G, h1, h2⟩ := bind_ok h
    obtain ⟨n, hn⟩ := fixed_runs d qs G F' h2
    obtain ⟨m, hm⟩ := beside_runs d qs q (K.P.qn q) { F with par := upd F.par q none } G h1
    exact ⟨_, .step (by simp) (show next K v (.fixed (q :: qs) F.pq, ⟨F.par, F.vis, d⟩) = .ok _ from rfl) (hm.trans hn)⟩

theorem expand_runs (z : Item) : ∀ (ps : List Nat) (F F' : Front) (d d' : Nat → D),
    ps.foldlM (m := M) (init := (F, d)) (fun (F, dist) p =>
      if p < K.P.nq then
        if F.vis p ≠ 0 then .ok (F, dist)
        else do
          let F ← Front.setVis K.P F p 1
          if (fun q => decide (K.wb ≤ K.E.w q)) p then .ok (F, upd dist p none)
          else do
            let F ← Front.push K.P (K.perm v) { F with par := upd F.par p (some z.node) } p (D.add z.dist (K.qw p))
            .ok (F, dist)
      else (.error .ub : M (Front × (Nat → D)))) = .ok (F', d') →
    ∃ n, Runs K v n (.expand z ps F.pq, ⟨F.par, F.vis, d⟩) (.loop F'.pq, ⟨F'.par, F'.vis, d'⟩)
  | [], F, F', d, d', h => by
    cases h
    exact ⟨1, .one (by simp) rfl⟩
  | p :: ps, F, F', d, d', h => by
    rw [List.foldlM_cons] at h
    obtain ⟨⟨G, dG⟩, h1, h2⟩ := bind_ok h
    obtain ⟨n, hn⟩ := expand_runs z ps G F' dG d' h2
    refine ⟨_, .step (by simp) ?_ hn⟩
    unfold next
    dsimp only at h1 ⊢
    by_cases hp : p < K.P.nq
    · rw [if_pos hp] at h1 ⊢
      by_cases hv : F.vis p ≠ 0
      · rw [if_pos hv] at h1 ⊢; cases h1; rfl
      · rw [if_neg hv] at h1 ⊢
        obtain ⟨G1, g1, g2⟩ := bind_ok h1
        dsimp only [bind, Except.bind]
        have e : (⟨F.par, F.vis, F.pq⟩ : Front) = F := rfl
        rw [e, g1]
        dsimp only
        by_cases hw : K.wb ≤ K.E.w p
        · rw [if_pos (decide_eq_true hw)] at g2
          rw [if_pos hw]
          cases g2; rfl
        · rw [if_neg (by rw [decide_eq_true_eq]; exact hw)] at g2
          rw [if_neg hw]
          obtain ⟨G2, k1, k2⟩ := bind_ok g2
          rw [k1]
          cases k2; rfl
    · rw [if_neg hp] at h1; cases h1

theorem loop_runs : ∀ (fuel : Nat) (F F' : Front) (d d' : Nat → D),
    Front.run K.P (K.perm v) (fun q => decide (K.wb ≤ K.E.w q)) K.qw fuel F d = .ok (F', d') →
    ∃ n, Runs K v n (.loop F.pq, ⟨F.par, F.vis, d⟩) (.fin, ⟨F'.par, F'.vis, d'⟩)
  | 0, F, F', d, d', h => by cases h
  | fuel+1, F, F', d, d', h => by
    unfold Front.run at h
    by_cases he : F.pq.isEmpty
    · rw [if_pos he] at h
      cases h
      refine ⟨1, .one (by simp) ?_⟩
      unfold next
      dsimp only
      rw [if_pos he]
    · rw [if_neg he] at h
      obtain ⟨z, h1, h2⟩ := bind_ok h
      obtain ⟨pq, h3, h4⟩ := bind_ok h2
      obtain ⟨⟨G, dG⟩, h5, h6⟩ := bind_ok h4
      obtain ⟨n, hn⟩ := loop_runs fuel G F' dG d' h6
      obtain ⟨m, hm⟩ := expand_runs z (K.P.qn z.node) { F with pq := pq } G (upd d z.node z.dist) dG h5
      refine ⟨_, .step (by simp) ?_ (hm.trans hn)⟩
      unfold next
      dsimp only [bind, Except.bind]
      rw [if_neg he, h1]
      dsimp only
      rw [h3]

/-- A search in one go is a sequence of steps. -/
theorem distances_runs {P : Prob} {E : Emb} {wb : Int} {qw : Nat → D} {u : Nat} {ord : Nat → List Nat} {S S' : Scratch} {t : Tape}
    (h : Scratch.distancesFrom P E wb qw u v S = .ok S') (ho : E.iter P v S.tape = (ord v, t)) :
    ∃ n, Runs ⟨P, E, wb, qw, u, S.perm, ord⟩ v n (.begin, ⟨S.par v, S.vis v, S.dist v⟩)
      (.fin, ⟨S'.par v, S'.vis v, S'.dist v⟩) := by
  unfold Scratch.distancesFrom at h
  obtain ⟨⟨F, t1⟩, h1, h2⟩ := bind_ok h
  obtain ⟨⟨F', d'⟩, h3, h4⟩ := bind_ok h2
  cases h4
  unfold Front.init at h1
  by_cases hv : v < P.nv + P.nr
  · rw [if_pos hv, ho] at h1
    obtain ⟨G, g1, g2⟩ := bind_ok h1
    cases g2
    obtain ⟨n, hn⟩ := loop_runs (K := ⟨P, E, wb, qw, u, S.perm, ord⟩) (v := v) _ F F' (S.dist v) d' h3
    simp only [upd_same]
    by_cases hf : P.fixed v = true
    · rw [if_pos hf] at g1
      obtain ⟨m, hm⟩ := fixed_runs (K := ⟨P, E, wb, qw, u, S.perm, ord⟩) (v := v) (S.dist v) _ _ _ g1
      refine ⟨_, .step (by simp) ?_ (hm.trans hn)⟩
      unfold next
      dsimp only
      rw [if_pos hv, if_pos hf]
    · rw [if_neg hf] at g1
      obtain ⟨m, hm⟩ := free_runs (K := ⟨P, E, wb, qw, u, S.perm, ord⟩) (v := v) (S.dist v) _ _ _ g1
      refine ⟨_, .step (by simp) ?_ (hm.trans hn)⟩
      unfold next
      dsimp only
      rw [if_pos hv, if_neg hf]
  · rw [if_neg hv] at h1; cases h1

/-- The steps do not depend on weights outside the array. -/
theorem next_congr {K : Fixed} {qw : Nat → D} (h : ∀ q, q < K.P.nq → qw q = K.qw q) (v : Nat) (x : Ctrl × Row) :
    next { K with qw := qw } v x = next K v x := by
  obtain ⟨c, r⟩ := x
  cases c with
  | beside qs q ps pq =>
    cases ps with
    | nil => rfl
    | cons p ps =>
      unfold next
      dsimp only
      by_cases hp : p < K.P.nq
      · rw [if_pos hp, if_pos hp, h p hp]
      · rw [if_neg hp, if_neg hp]
  | expand z ps pq =>
    cases ps with
    | nil => rfl
    | cons p ps =>
      unfold next
      dsimp only
      by_cases hp : p < K.P.nq
      · rw [if_pos hp, if_pos hp, h p hp]
      · rw [if_neg hp, if_neg hp]
  | free qs pq => cases qs <;> rfl
  | fixed qs pq => cases qs <;> rfl
  | begin => rfl
  | loop pq => rfl
  | fin => rfl

theorem Runs.congr {K : Fixed} {qw : Nat → D} (h : ∀ q, q < K.P.nq → qw q = K.qw q) {v n : Nat} {x y : Ctrl × Row}
    (hr : Runs K v n x y) : Runs { K with qw := qw } v n x y := by
  induction hr with
  | refl => exact .refl _
  | step a b _ ih => exact .step a ((next_congr h _ _).trans b) ih

/-! ### the workers exclude each other -/

section
variable {vn : List Nat} {has : Nat → Bool} {k : Nat} {J J' : Jobs}

theorem Reached.lt (h : Reached vn has k J) {i v : Nat} (hv : v ∈ (J.pc i).held) : i < k := by
  by_contra hc
  rw [h.inv.idle i (by omega)] at hv; simp [PC.held] at hv

theorem Reached.held_nodup (hnd : vn.Nodup) (h : Reached vn has k J) :
    (J.log.map Prod.fst ++ heldBy k J.pc).Nodup :=
  h.inv.given.nodup_iff.2 ((hnd.sublist (List.take_sublist _ _)).sublist List.filter_sublist)

theorem Reached.mem_held (h : Reached vn has k J) {i v : Nat} (hv : v ∈ (J.pc i).held) : v ∈ heldBy k J.pc :=
  List.mem_flatMap.2 ⟨i, List.mem_range.2 (h.lt hv), hv⟩

/-- What a worker holds is not finished. -/
theorem Reached.fresh (hnd : vn.Nodup) (h : Reached vn has k J) {i v : Nat} (hv : v ∈ (J.pc i).held) :
    v ∉ J.log.map Prod.fst := fun hc =>
  (List.nodup_append.1 (h.held_nodup hnd)).2.2 v hc v (h.mem_held hv) rfl

/-- Two workers do not hold the same neighbour. -/
theorem Reached.excl (hnd : vn.Nodup) (h : Reached vn has k J) {i j v : Nat} (hi : v ∈ (J.pc i).held)
    (hj : v ∈ (J.pc j).held) : i = j := by
  have hn := (List.nodup_append.1 (h.held_nodup hnd)).2.1
  unfold heldBy at hn
  rw [List.nodup_flatMap] at hn
  by_contra hne
  have key : ∀ a b, a < k → b < k → a < b → v ∈ (J.pc a).held → v ∈ (J.pc b).held → False := by
    intro a b ha hb hab pa pb
    have := List.pairwise_iff_getElem.1 hn.2 a b (by simpa using ha) (by simpa using hb) hab
    simp only [List.getElem_range, Function.onFun] at this
    exact this pa pb
  rcases Nat.lt_or_gt_of_ne hne with hl | hl
  · exact key i j (h.lt hi) (h.lt hj) hl hi hj
  · exact key j i (h.lt hj) (h.lt hi) hl hj hi

/-- What is held or finished is a neighbour with a chain. -/
theorem Reached.given (h : Reached vn has k J) {v : Nat} (hv : v ∈ J.log.map Prod.fst ++ heldBy k J.pc) :
    v ∈ vn ∧ has v = true := by
  obtain ⟨a, b⟩ := List.mem_filter.1 (h.inv.given.mem_iff.1 hv)
  exact ⟨List.mem_of_mem_take a, b⟩

/-- What a step of `run_in_thread` does to the searches: nothing, or it begins one, or ends
one. -/
theorem Step.effect {i : Nat} (hs : Step vn has i J J') :
    ((∀ v, J.pc i ≠ .work v) ∧ (∀ v, J'.pc i ≠ .work v) ∧ (∀ j, j ≠ i → J'.pc j = J.pc j) ∧ J'.log = J.log) ∨
    (∃ v, J.pc i = .got (some v) ∧ J'.pc i = .work v ∧ (∀ j, j ≠ i → J'.pc j = J.pc j) ∧ J'.log = J.log) ∨
    (∃ v, J.pc i = .work v ∧ J'.pc i = .want ∧ (∀ j, j ≠ i → J'.pc j = J.pc j) ∧ J'.log = J.log ++ [(v, i)]) := by
  have up : ∀ (c : PC) (j : Nat), j ≠ i → upd J.pc i c j = J.pc j := fun c j hj => upd_ne _ _ hj
  cases hs with
  | lock hp _ => exact Or.inl ⟨by simp [hp], by simp, up _, rfl⟩
  | take hp _ _ => exact Or.inl ⟨by simp [hp], by simp, up _, rfl⟩
  | skip hp _ _ => exact Or.inl ⟨by simp [hp], by simp [hp], fun _ _ => rfl, rfl⟩
  | none hp _ => exact Or.inl ⟨by simp [hp], by simp, up _, rfl⟩
  | @start v hp => exact Or.inr (Or.inl ⟨v, hp, by simp, up _, rfl⟩)
  | stop hp => exact Or.inl ⟨by simp [hp], by simp, up _, rfl⟩
  | @finish v hp => exact Or.inr (Or.inr ⟨v, hp, by simp, up _, rfl⟩)

end

/-! ### the searches under any schedule -/

/-- The invariant of the searches: what is in the arrays of each neighbour, when `row0` was there
at first and a whole search leaves `res`. -/
structure TInv (K : Fixed) (vn : List Nat) (k : Nat) (row0 res : Nat → Row) (X : Threads) : Prop where
  jobs : Reached vn (fun v => decide (K.E.chainsize K.P v ≠ 0)) k X.J
  idle : ∀ i, (∀ v, X.J.pc i ≠ .work v) → X.ctl i = .begin
  todo : ∀ v, v ∉ X.J.log.map Prod.fst → (∀ i, X.J.pc i ≠ .work v) → X.row v = row0 v
  done : ∀ v ∈ X.J.log.map Prod.fst, X.row v = res v
  busy : ∀ i v, X.J.pc i = .work v → ∃ n, Runs K v n (X.ctl i, X.row v) (.fin, res v)

theorem TInv.init {vn : List Nat} {k : Nat} {row0 res : Nat → Row} :
    TInv K vn k row0 res ⟨Jobs.init, fun _ => .begin, row0⟩ :=
  ⟨.init, fun _ _ => rfl, fun _ _ _ => rfl, by simp [Jobs.init], by simp [Jobs.init]⟩

theorem TInv.step {vn : List Nat} {k : Nat} {row0 res : Nat → Row} (hnd : vn.Nodup)
    (hrun : ∀ v ∈ vn, K.E.chainsize K.P v ≠ 0 → ∃ n, Runs K v n (.begin, row0 v) (.fin, res v)) {i : Nat} (hi : i < k)
    {X Y : Threads} (h : TInv K vn k row0 res X) (hs : ThreadStep K vn i X Y) : TInv K vn k row0 res Y := by
  have hJ := h.jobs
  cases hs with
  | @search v c r hp hf hn =>
    have hheld : v ∈ (X.J.pc i).held := by rw [hp]; simp [PC.held]
    refine ⟨hJ, ?_, ?_, ?_, ?_⟩
    · intro j hj
      have : j ≠ i := by rintro rfl; exact hj v hp
      dsimp only; rw [upd_ne _ _ this]; exact h.idle j hj
    · intro w hw hw'
      have : w ≠ v := by rintro rfl; exact hw' i hp
      dsimp only; rw [upd_ne _ _ this]; exact h.todo w hw hw'
    · intro w hw
      have : w ≠ v := by rintro rfl; exact hJ.fresh hnd hheld hw
      dsimp only; rw [upd_ne _ _ this]; exact h.done w hw
    · intro j w hj
      dsimp only at hj ⊢
      by_cases hji : j = i
      · subst hji
        rw [hp] at hj; cases hj
        rw [upd_same, upd_same]
        obtain ⟨n, hr⟩ := h.busy j v hp
        generalize hx : (X.ctl j, X.row v) = x at hr
        cases hr with
        | refl =>
          rw [Prod.mk.injEq] at hx
          exact absurd hx.1 hf
        | step _ b hr' =>
          subst hx
          rw [hn] at b; cases b
          exact ⟨_, hr'⟩
      · have hwv : w ≠ v := by
          rintro rfl
          exact hji (hJ.excl hnd (v := w) (by rw [hj]; simp [PC.held]) hheld)
        rw [upd_ne _ _ hji, upd_ne _ _ hwv]
        exact h.busy j w hj
  | @job J' hfin hs =>
    have hJ' := hJ.step hi hs
    rcases hs.effect with ⟨e1, e2, e3, e4⟩ | ⟨v, e1, e2, e3, e4⟩ | ⟨v, e1, e2, e3, e4⟩
    · refine ⟨hJ', ?_, ?_, ?_, ?_⟩
      · intro j hj
        dsimp only at *
        by_cases hji : j = i
        · subst hji; rw [upd_same]
        · rw [upd_ne _ _ hji]; exact h.idle j (by rw [← e3 j hji]; exact hj)
      · intro w hw hw'
        dsimp only at *
        rw [e4] at hw
        refine h.todo w hw fun j => ?_
        by_cases hji : j = i
        · subst hji; exact e1 w
        · rw [← e3 j hji]; exact hw' j
      · intro w hw
        dsimp only at *
        rw [e4] at hw; exact h.done w hw
      · intro j w hj
        dsimp only at *
        have hji : j ≠ i := by rintro rfl; exact e2 w hj
        rw [upd_ne _ _ hji]
        exact h.busy j w (by rw [← e3 j hji]; exact hj)
    · have hheld : v ∈ (X.J.pc i).held := by rw [e1]; simp [PC.held]
      have hfresh := hJ.fresh hnd hheld
      have hwork : ∀ j, X.J.pc j ≠ .work v := by
        intro j hj
        have := hJ.excl hnd (v := v) (by rw [hj]; simp [PC.held]) hheld
        subst this; rw [e1] at hj; cases hj
      refine ⟨hJ', ?_, ?_, ?_, ?_⟩
      · intro j hj
        dsimp only at *
        by_cases hji : j = i
        · subst hji; rw [upd_same]
        · rw [upd_ne _ _ hji]; exact h.idle j (by rw [← e3 j hji]; exact hj)
      · intro w hw hw'
        dsimp only at *
        rw [e4] at hw
        refine h.todo w hw fun j => ?_
        by_cases hji : j = i
        · subst hji; rw [e1]; simp
        · rw [← e3 j hji]; exact hw' j
      · intro w hw
        dsimp only at *
        rw [e4] at hw; exact h.done w hw
      · intro j w hj
        dsimp only at *
        by_cases hji : j = i
        · subst hji
          rw [e2] at hj; cases hj
          rw [upd_same, h.todo v hfresh hwork]
          obtain ⟨a, b⟩ := hJ.given (List.mem_append_right _ (hJ.mem_held hheld))
          exact hrun v a (of_decide_eq_true b)
        · rw [upd_ne _ _ hji]
          exact h.busy j w (by rw [← e3 j hji]; exact hj)
    · have hheld : v ∈ (X.J.pc i).held := by rw [e1]; simp [PC.held]
      refine ⟨hJ', ?_, ?_, ?_, ?_⟩
      · intro j hj
        dsimp only at *
        by_cases hji : j = i
        · subst hji; rw [upd_same]
        · rw [upd_ne _ _ hji]; exact h.idle j (by rw [← e3 j hji]; exact hj)
      · intro w hw hw'
        dsimp only at *
        rw [e4, List.map_append, List.mem_append, not_or] at hw
        refine h.todo w hw.1 fun j => ?_
        by_cases hji : j = i
        · subst hji
          rw [e1]
          intro hc; cases hc
          exact hw.2 (by simp)
        · rw [← e3 j hji]; exact hw' j
      · intro w hw
        dsimp only at *
        rw [e4, List.map_append, List.mem_append] at hw
        rcases hw with hw | hw
        · exact h.done w hw
        · have : w = v := by simpa using hw
          subst this
          obtain ⟨n, hr⟩ := h.busy i w e1
          rw [hfin w e1] at hr
          exact hr.fin
      · intro j w hj
        dsimp only at *
        have hji : j ≠ i := by rintro rfl; rw [e2] at hj; cases hj
        rw [upd_ne _ _ hji]
        exact h.busy j w (by rw [← e3 j hji]; exact hj)

/-- No worker does anything undefined. -/
theorem TInv.safe {vn : List Nat} {k : Nat} {row0 res : Nat → Row} {X : Threads} (h : TInv K vn k row0 res X) :
    ¬ X.Bad K k := by
  rintro ⟨i, v, e, hi, hp, he⟩
  obtain ⟨n, hr⟩ := h.busy i v hp
  generalize hx : (X.ctl i, X.row v) = x at hr he
  cases hr with
  | refl => cases he
  | step _ b _ => rw [b] at he; cases he

/-- As long as some worker has not returned, some worker can make a step. -/
theorem TInv.progress {vn : List Nat} {k : Nat} {row0 res : Nat → Row} {X : Threads} (h : TInv K vn k row0 res X) {i : Nat}
    (hi : i < k) (hd : X.J.pc i ≠ .done) : ∃ j Y, j < k ∧ ThreadStep K vn j X Y := by
  obtain ⟨j, J', hj, hs⟩ := h.jobs.progress hi hd
  by_cases hw : ∀ v, X.J.pc j = .work v → X.ctl j = .fin
  · exact ⟨j, _, hj, .job hw hs⟩
  · simp only [not_forall] at hw
    obtain ⟨v, hp, hf⟩ := hw
    cases hn : next K v (X.ctl j, X.row v) with
    | error e => exact absurd ⟨j, v, e, hj, hp, hn⟩ h.safe
    | ok y => exact ⟨j, _, hj, .search (c := y.1) (r := y.2) hp hf hn⟩

/-- The arrays at the end. -/
theorem TInv.final {vn : List Nat} {k : Nat} {row0 res : Nat → Row} {X : Threads} (hk : 0 < k)
    (h : TInv K vn k row0 res X) (hd : ∀ i, i < k → X.J.pc i = .done) :
    X.J.emb = (vn.filter fun v => decide (K.E.chainsize K.P v ≠ 0)).length ∧
    ∀ v, X.row v = if v ∈ vn ∧ K.E.chainsize K.P v ≠ 0 then res v else row0 v := by
  have hI := h.jobs.inv
  have hfin := hI.fin 0 (Or.inr (hd 0 hk))
  have h0 : heldBy k X.J.pc = [] := by
    unfold heldBy
    rw [List.flatMap_eq_nil_iff]
    intro i hi
    rw [hd i (List.mem_range.1 hi)]; rfl
  have hg := hI.given
  have he := hI.emb
  rw [h0, List.append_nil, hfin, List.take_length] at hg
  rw [hfin, List.take_length] at he
  refine ⟨he, fun v => ?_⟩
  have hmem := hg.mem_iff (a := v)
  rw [List.mem_filter, decide_eq_true_eq] at hmem
  split
  · next hv => exact h.done v (hmem.2 hv)
  · next hv =>
    refine h.todo v (fun hc => hv (hmem.1 hc)) fun i hi => ?_
    by_cases hik : i < k
    · rw [hd i hik] at hi; cases hi
    · rw [hI.idle i (by omega)] at hi; cases hi

end Par
end MM
