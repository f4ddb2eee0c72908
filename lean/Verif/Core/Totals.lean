import Verif.Core.Dijkstra

/-! The distances a root is chosen by, in the serial and in the parallel pathfinder. -/

namespace MM

namespace D

theorem add_zero (a : D) : add a (some 0) = a := by cases a <;> rfl

theorem add_comm (a b : D) : add a b = add b a := by cases a <;> cases b <;> simp [add, Nat.add_comm]

theorem add_assoc (a b c : D) : add (add a b) c = add a (add b c) := by
  cases a <;> cases b <;> cases c <;> simp [add, Nat.add_assoc]

theorem le_antisymm {a b : D} (h : le a b) (k : le b a) : a = b := lt_total k h

theorem add_none (a : D) : add a none = none := by cases a <;> rfl

end D

namespace Spec

/-- Sum of distances. -/
def dsum (f : Nat → D) : List Nat → D
  | [] => some 0
  | v :: l => D.add (f v) (dsum f l)

/-- `d` is the least cost of a path to `p`. -/
def IsDist (adj : Nat → Nat → Prop) (T : Nat → Prop) (ok : Nat → Nat → Prop) (w : Nat → D) (p : Nat) (d : D) : Prop :=
  (∀ c, PathCost adj T ok w p c → D.le d c) ∧ (d ≠ none → PathCost adj T ok w p d)

theorem IsDist.unique {adj : Nat → Nat → Prop} {T : Nat → Prop} {ok : Nat → Nat → Prop} {w : Nat → D} {p : Nat}
    {d e : D} (h : IsDist adj T ok w p d) (k : IsDist adj T ok w p e) : d = e := by
  have one : ∀ {d e : D}, IsDist adj T ok w p d → IsDist adj T ok w p e → D.le d e := by
    intro d e h k
    by_cases he : e = none
    · rw [he]; exact D.le_none d
    · exact h.1 e (k.2 he)
  exact D.le_antisymm (one h k) (one k h)

end Spec

open Spec (dsum IsDist PathCost Follows)

theorem dsum_append (f : Nat → D) (a b : List Nat) : dsum f (a ++ b) = D.add (dsum f a) (dsum f b) := by
  induction a with
  | nil => simp [dsum, D.zero_add]
  | cons v a ih => simp [dsum, ih, D.add_assoc]

theorem dsum_perm {f : Nat → D} {a b : List Nat} (h : a.Perm b) : dsum f a = dsum f b := by
  induction h with
  | nil => rfl
  | cons v _ ih => simp [dsum, ih]
  | swap a b l => simp only [dsum]; rw [← D.add_assoc, ← D.add_assoc, D.add_comm (f b)]
  | trans _ _ h1 h2 => exact h1.trans h2

theorem dsum_congr {f g : Nat → D} {l : List Nat} (h : ∀ v ∈ l, f v = g v) : dsum f l = dsum g l := by
  induction l with
  | nil => rfl
  | cons v l ih => simp only [dsum]; rw [h v (by simp), ih fun x hx => h x (by simp [hx])]

theorem dsum_add (f g : Nat → D) (l : List Nat) :
    dsum (fun v => D.add (f v) (g v)) l = D.add (dsum f l) (dsum g l) := by
  induction l with
  | nil => rfl
  | cons v l ih =>
    simp only [dsum, ih]
    rw [D.add_assoc, D.add_assoc, ← D.add_assoc (g v), D.add_comm (g v), D.add_assoc]

theorem dsum_filter {f : Nat → D} {b : Nat → Bool} {l : List Nat} (h : ∀ v ∈ l, b v = false → f v = some 0) :
    dsum f (l.filter b) = dsum f l := by
  induction l with
  | nil => rfl
  | cons v l ih =>
    have ih := ih fun x hx => h x (by simp [hx])
    cases hb : b v with
    | true => rw [List.filter_cons_of_pos hb]; simp [dsum, ih]
    | false =>
      rw [List.filter_cons_of_neg (by simp [hb])]
      simp only [dsum]; rw [h v (by simp) hb, D.zero_add, ih]

variable {P : Prob} {R : Nat → Nat → Prop} {E : Emb}

/-- What a root inside the chain of `v` pays for sharing the qubit. -/
def atCost (P : Prob) (E : Emb) (wb : Int) (qw : Nat → D) (v q : Nat) : D :=
  if P.fixed v = false ∧ (E.chains v).has q = true then
    (if P.reserved q = false ∧ qw q ≠ none ∧ E.w q < wb ∧ D.lt (some 0) (qw q) then qw q else none)
  else some 0

theorem atChain_eq {wb : Int} {qw : Nat → D} {v : Nat} {tot tot' : Nat → D}
    (h : Scratch.atChain P E wb qw v tot = .ok tot') {q : Nat} (hq : q < P.nq) :
    tot' q = D.add (tot q) (atCost P E wb qw v q) := by
  unfold Scratch.atChain at h
  by_cases hf : P.fixed v = true
  · rw [if_pos hf] at h; cases h
    unfold atCost; rw [if_neg (by simp [hf]), D.add_zero]
  · rw [if_neg hf] at h
    have hf : P.fixed v = false := by simpa using hf
    have := fold_inv h (fun done (r : Nat → D) => ∀ x, (x ∈ done → r x = D.add (tot x) (atCost P E wb qw v x)) ∧
      (x ∉ done → r x = tot x)) (fun x => ⟨by simp, fun _ => rfl⟩) ?_
    · by_cases hk : q ∈ (E.chains v).keys P.Q
      · exact (this q).1 hk
      · rw [(this q).2 hk]
        have : (E.chains v).has q = false := by
          by_contra hc
          exact hk (Chain.mem_keys.2 ⟨by unfold Prob.Q; omega, by simpa using hc⟩)
        unfold atCost; rw [if_neg (by simp [this]), D.add_zero]
    · rintro done a b b' ⟨rest, hrest⟩ hi hs
      have had := not_mem_done (keys_nodup _ _) hrest
      have hha := (Chain.mem_keys.1 (show a ∈ (E.chains v).keys P.Q by rw [hrest]; simp)).2
      split at hs
      · cases hs
        intro x
        by_cases hxa : x = a
        · subst hxa
          refine ⟨fun _ => ?_, by simp⟩
          rw [upd_same, (hi x).2 had]
          have hat : atCost P E wb qw v x = if P.reserved x = false ∧ qw x ≠ none ∧ E.w x < wb ∧
              D.lt (some 0) (qw x) then qw x else none := by unfold atCost; rw [if_pos ⟨hf, hha⟩]
          rw [hat]
          by_cases hc : P.reserved x = false ∧ qw x ≠ none ∧ E.w x < wb ∧ D.lt (some 0) (qw x) = true
          · rw [if_pos hc]
            by_cases ht : tot x = none
            · rw [if_neg (fun k => k.1 ht), ht]; cases qw x <;> rfl
            · rw [if_pos ⟨ht, hc⟩]
          · rw [if_neg (fun k => hc k.2), if_neg hc, D.add_none]
        · rw [upd_ne _ _ hxa]
          refine ⟨fun hx => (hi x).1 (by simpa [hxa] using hx), fun hx => (hi x).2 (by simpa [hxa] using hx)⟩
      · simp at hs

/-- The distance a search recorded. -/
def eff (S : Scratch) (v q : Nat) : D := if S.vis v q = 1 then S.dist v q else none

/-- What a neighbour at distance `d` adds. -/
def farCost (E : Emb) (wb : Int) (q : Nat) (d : D) : D :=
  if E.w q < wb then d else none

theorem accum_eq {wb : Int} {S : Scratch} {v : Nat} {tot : Nat → D} {q : Nat} (hq : q < P.nq) :
    Scratch.accum P E wb (S.vis v) (S.dist v) tot q = D.add (tot q) (farCost E wb q (eff S v q)) := by
  unfold Scratch.accum farCost eff
  rw [if_pos hq]
  have hr : P.reserved q = false := by simp [Prob.reserved]; omega
  by_cases h1 : S.vis v q = 1
  · rw [if_pos h1]
    by_cases h2 : E.w q < wb
    · rw [if_pos h2]
      by_cases h3 : tot q = none
      · rw [if_neg (by simp [h3]), h3]; cases S.dist v q <;> rfl
      · by_cases h4 : S.dist v q = none
        · rw [if_neg (by simp [h4]), h4, D.add_none]
        · rw [if_pos ⟨h1, h3, hr, h4, h2⟩]
    · rw [if_neg h2, if_neg (fun k => h2 k.2.2.2.2), D.add_none]
  · rw [if_neg h1, if_neg (fun k => h1 k.1)]
    split <;> rw [D.add_none]

/-- The distance of `q` from the chain of `v`, in a search for a chain of `u`. -/
def TrueDist (P : Prob) (E : Emb) (wb : Int) (qw : Nat → D) (u v q : Nat) (d : D) : Prop :=
  IsDist (Adj P) (fun x => (E.chains v).has x = true)
    (StepOK P (fun x => (E.chains v).has x = true) (Scratch.prepVisited P u v) (fun q => decide (wb ≤ E.w q)) (P.fixed v))
    qw q d

/-- Distances summed over the neighbours with chains, the root's own cost included. -/
def RootSum (P : Prob) (E : Emb) (wb : Int) (qw : Nat → D) (u : Nat) (l : List Nat) (tot : Nat → D) : Prop :=
  ∃ d : Nat → Nat → D, (∀ v ∈ l, E.chainsize P v ≠ 0 → ∀ q, q < P.nq → TrueDist P E wb qw u v q (d v q)) ∧
    ∀ q, q < P.nq → tot q = D.add (Scratch.prepDistances P u q)
      (dsum (fun v => D.add (atCost P E wb qw v q) (farCost E wb q (d v q)))
        (l.filter fun v => decide (E.chainsize P v ≠ 0)))

theorem RootSum.unique {wb : Int} {qw : Nat → D} {u : Nat} {l l' : List Nat} {tot tot' : Nat → D}
    (h : RootSum P E wb qw u l tot) (k : RootSum P E wb qw u l' tot') (hp : l.Perm l') {q : Nat} (hq : q < P.nq) :
    tot q = tot' q := by
  obtain ⟨d, a, b⟩ := h
  obtain ⟨e, a', b'⟩ := k
  rw [b q hq, b' q hq, dsum_perm (hp.filter _)]
  congr 1
  apply dsum_congr
  intro v hv
  obtain ⟨h1, h2⟩ := List.mem_filter.1 hv
  have h2 : E.chainsize P v ≠ 0 := by simpa using h2
  rw [(a v (hp.mem_iff.2 h1) h2 q hq).unique (a' v h1 h2 q hq)]

theorem distancesFrom_true (wf : P.WF) (hR : Dom P R) (hE : EInv P R E) {u v : Nat} {wb : Int} {qw : Nat → D}
    {S S' : Scratch} (hv : v < P.N) (hr : Scratch.distancesFrom P E wb qw u v S = .ok S') {q : Nat} (hq : q < P.nq) :
    TrueDist P E wb qw u v q (eff S' v q) :=
  have h := distancesFrom_shortest wf hR hE hv hr hq
  ⟨h.1, fun hne => (h.2 hne).path⟩

theorem distancesFrom_only {u v : Nat} {wb : Int} {qw : Nat → D} {S S' : Scratch}
    (hr : Scratch.distancesFrom P E wb qw u v S = .ok S') : OnlyAt S S' v := by
  unfold Scratch.distancesFrom at hr
  dsimp only [bind, Except.bind] at hr
  split at hr
  · simp at hr
  · split at hr
    · simp at hr
    · cases hr
      exact ⟨rfl, rfl, fun x hx => upd_ne _ _ hx, fun x hx => upd_ne _ _ hx, fun x hx => upd_ne _ _ hx⟩

theorem rootSerial_sum (wf : P.WF) (hR : Dom P R) (hE : EInv P R E) {weight : Int → Int → D} {wb : Int} {u : Nat}
    (hu : u < P.nv) {S S' : Scratch} (hS : VnOK P S) {tot : Nat → D}
    (hr : Scratch.rootSerial P weight E wb u S = .ok (tot, S')) (hn : ∃ v ∈ P.vn u, E.chainsize P v ≠ 0) :
    RootSum P E wb (fun q => weight (E.maxWeight 0 P.nq) (E.w q)) u (S.vn u) tot := by
  unfold Scratch.rootSerial at hr
  dsimp only at hr
  generalize hqw : (fun q => weight (E.maxWeight 0 P.nq) (E.w q)) = qw at hr ⊢
  have hperm := hS u hu
  dsimp only [bind, Except.bind] at hr
  split at hr
  · simp at hr
  next x r hf =>
  obtain ⟨t1, n, S1⟩ := r
  dsimp only at hr
  have key := fold_inv hf (fun done (r : (Nat → D) × Nat × Scratch) =>
    r.2.1 = (done.filter fun v => decide (E.chainsize P v ≠ 0)).length ∧ RootSum P E wb qw u done r.1) ?_ ?_
  · have hne : n ≠ 0 := by
      obtain ⟨v, hv, hs⟩ := hn
      have : v ∈ (S.vn u).filter fun v => decide (E.chainsize P v ≠ 0) :=
        List.mem_filter.2 ⟨hperm.mem_iff.2 hv, by simpa using hs⟩
      have h1 := List.length_pos_of_mem this
      have h2 : n = _ := key.1
      rw [h2]; omega
    rw [if_neg hne] at hr
    cases hr
    exact key.2
  · exact ⟨rfl, fun _ _ => none, by simp, fun q _ => by simp [dsum, D.add_zero]⟩
  · rintro done v ⟨t, n, S2⟩ b' ⟨rest, hrest⟩ ⟨i1, d, i2, i3⟩ hs
    dsimp only at *
    have hvN : v < P.N := wf.vn_lt u v hu (hperm.mem_iff.1 (by rw [hrest]; simp))
    have hvd := not_mem_done (hperm.nodup_iff.2 (wf.vn_nodup u hu)) hrest
    by_cases h0 : E.chainsize P v = 0
    · rw [if_pos h0] at hs
      cases hs
      have hfil : (done ++ [v]).filter (fun v => decide (E.chainsize P v ≠ 0)) =
          done.filter fun v => decide (E.chainsize P v ≠ 0) := by
        rw [List.filter_append]; simp [h0]
      refine ⟨by rw [hfil]; exact i1, d, ?_, by rw [hfil]; exact i3⟩
      intro x hx hsx
      rcases List.mem_append.1 hx with h | h
      · exact i2 x h hsx
      · rw [List.mem_singleton.1 h] at hsx; exact absurd h0 hsx
    · rw [if_neg h0] at hs
      cases hd : Scratch.distancesFrom P E wb qw u v S2 with
      | error e => rw [hd] at hs; simp at hs
      | ok S3 =>
      rw [hd] at hs
      dsimp only at hs
      cases ha : Scratch.atChain P E wb qw v t with
      | error e => rw [ha] at hs; simp at hs
      | ok t2 =>
      rw [ha] at hs
      dsimp only at hs
      cases hs
      have hfil : (done ++ [v]).filter (fun v => decide (E.chainsize P v ≠ 0)) =
          (done.filter fun v => decide (E.chainsize P v ≠ 0)) ++ [v] := by
        rw [List.filter_append]; simp [h0]
      dsimp only
      refine ⟨by rw [hfil, List.length_append, i1]; rfl, fun x => if x = v then eff S3 v else d x, ?_, ?_⟩
      · intro x hx hsx q hq
        dsimp only
        by_cases hxv : x = v
        · subst hxv; rw [if_pos rfl]; exact distancesFrom_true wf hR hE hvN hd hq
        · rw [if_neg hxv]
          exact i2 x (by simpa [hxv] using hx) hsx q hq
      · intro q hq
        rw [accum_eq hq, atChain_eq ha hq, i3 q hq, hfil, dsum_append]
        simp only [dsum, if_pos, D.add_zero]
        rw [D.add_assoc, D.add_assoc]
        congr 2
        apply dsum_congr
        intro x hx
        have : x ≠ v := fun hc => hvd (hc ▸ (List.mem_filter.1 hx).1)
        rw [if_neg this]

theorem rootParallel_sum (wf : P.WF) (hR : Dom P R) (hE : EInv P R E) {weight : Int → Int → D} {wb : Int} {u : Nat}
    (hu : u < P.nv) {S S' : Scratch} (hS : VnOK P S) {tot : Nat → D}
    (hr : Scratch.rootParallel P weight E wb u S = .ok (tot, S')) (hn : ∃ v ∈ P.vn u, E.chainsize P v ≠ 0) :
    RootSum P E wb (fun q => weight (E.maxWeight 0 P.nq) (E.w q)) u (S.vn u) tot := by
  unfold Scratch.rootParallel at hr
  dsimp only at hr
  generalize hqw : (fun q => weight (E.maxWeight 0 P.nq) (E.w q)) = qw at hr ⊢
  have hperm := hS u hu
  dsimp only [bind, Except.bind] at hr
  split at hr
  · simp at hr
  next x r hf =>
  obtain ⟨n, S1⟩ := r
  dsimp only at hr
  split at hr
  · simp at hr
  next x t1 hat =>
  have k1 := fold_inv hf (fun done (r : Nat × Scratch) => r.2.vn = S.vn ∧
    r.1 = (done.filter fun v => decide (E.chainsize P v ≠ 0)).length ∧
    ∀ v ∈ done, E.chainsize P v ≠ 0 → ∀ q, q < P.nq → TrueDist P E wb qw u v q (eff r.2 v q)) ⟨rfl, rfl, by simp⟩ ?_
  · obtain ⟨j0, j1, j2⟩ := k1
    dsimp only at j0 j1 j2
    rw [j0] at hat hr
    have k2 := fold_inv hat (fun done (t : Nat → D) => ∀ q, q < P.nq →
      t q = D.add (Scratch.prepDistances P u q) (dsum (fun v => atCost P E wb qw v q) done))
      (fun q _ => by simp [dsum, D.add_zero]) ?_
    · have hne : n ≠ 0 := by
        obtain ⟨v, hv, hs⟩ := hn
        have : v ∈ (S.vn u).filter fun v => decide (E.chainsize P v ≠ 0) :=
          List.mem_filter.2 ⟨hperm.mem_iff.2 hv, by simpa using hs⟩
        have h1 := List.length_pos_of_mem this
        rw [j1]; omega
      rw [if_neg hne] at hr
      cases hr
      have k3 : ∀ (l : List Nat) (t : Nat → D) q, q < P.nq → l.foldl (init := t) (fun tot v =>
          if E.chainsize P v = 0 then tot else Scratch.accum P E wb (S'.vis v) (S'.dist v) tot) q =
          D.add (t q) (dsum (fun v => farCost E wb q (eff S' v q)) (l.filter fun v => decide (E.chainsize P v ≠ 0))) := by
        intro l
        induction l with
        | nil => intro t q _; simp [dsum, D.add_zero]
        | cons v l ih =>
          intro t q hq
          rw [List.foldl_cons, ih _ q hq]
          by_cases h0 : E.chainsize P v = 0
          · rw [if_pos h0, List.filter_cons_of_neg (by simp [h0])]
          · rw [if_neg h0, accum_eq hq, List.filter_cons_of_pos (by simpa using h0)]
            simp only [dsum]
            rw [D.add_assoc]
      refine ⟨eff S', j2, ?_⟩
      intro q hq
      rw [k3 _ _ q hq, k2 q hq, dsum_add, D.add_assoc]
      congr 2
      refine (dsum_filter ?_).symm
      intro v hv h0
      have h0 : E.chainsize P v = 0 := by simpa using h0
      unfold atCost
      rw [if_neg]
      rintro ⟨_, hh⟩
      exact ((hE.size_iff (wf.vn_lt u v hu (hperm.mem_iff.1 hv))).2 ⟨q, hh⟩) h0
    · rintro done v t t' _ hi hs q hq
      rw [atChain_eq hs hq, hi q hq, dsum_append, D.add_assoc]
      simp only [dsum, D.add_zero]
  · rintro done v ⟨n, S2⟩ b' ⟨rest, hrest⟩ ⟨i0, i1, i2⟩ hs
    dsimp only at *
    have hvN : v < P.N := wf.vn_lt u v hu (hperm.mem_iff.1 (by rw [hrest]; simp))
    have hvd := not_mem_done (hperm.nodup_iff.2 (wf.vn_nodup u hu)) hrest
    by_cases h0 : E.chainsize P v = 0
    · rw [if_pos h0] at hs
      cases hs
      have hfil : (done ++ [v]).filter (fun v => decide (E.chainsize P v ≠ 0)) =
          done.filter fun v => decide (E.chainsize P v ≠ 0) := by
        rw [List.filter_append]; simp [h0]
      refine ⟨i0, by rw [hfil]; exact i1, ?_⟩
      intro x hx hsx
      rcases List.mem_append.1 hx with h | h
      · exact i2 x h hsx
      · rw [List.mem_singleton.1 h] at hsx; exact absurd h0 hsx
    · rw [if_neg h0] at hs
      cases hd : Scratch.distancesFrom P E wb qw u v S2 with
      | error e => rw [hd] at hs; simp at hs
      | ok S3 =>
      rw [hd] at hs
      dsimp only at hs
      cases hs
      have ho := distancesFrom_only hd
      have hfil : (done ++ [v]).filter (fun v => decide (E.chainsize P v ≠ 0)) =
          (done.filter fun v => decide (E.chainsize P v ≠ 0)) ++ [v] := by
        rw [List.filter_append]; simp [h0]
      dsimp only
      refine ⟨ho.vn.trans i0, by rw [hfil, List.length_append, i1]; rfl, ?_⟩
      intro x hx hsx q hq
      by_cases hxv : x = v
      · subst hxv; exact distancesFrom_true wf hR hE hvN hd hq
      · have := i2 x (by simpa [hxv] using hx) hsx q hq
        unfold eff at this ⊢
        rw [ho.vis x hxv, ho.dist x hxv]; exact this

end MM
