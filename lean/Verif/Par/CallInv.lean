import Verif.Par.ThreadsInv
import Verif.Par.RangesInv

/-! The stages of `prepare_root_distances` under any schedule. -/

namespace MM

/-! ### tapes for given orders -/

/-- A tape with `n` in front. -/
def Tape.cons (n : Nat) (t : Tape) : Tape
  | 0 => n
  | i+1 => t i

theorem Tape.tail_cons (n : Nat) (t : Tape) : (Tape.cons n t).tail = t := rfl

theorem insertIdx_mid {α : Type} (a : α) : ∀ (s r : List α), (s ++ r).insertIdx s.length a = s ++ a :: r
  | [], r => rfl
  | b :: s, r => congrArg (b :: ·) (insertIdx_mid a s r)

/-- Every order of a list is read from some tape, whatever follows on it. -/
theorem permT_any {α : Type} : ∀ {l l' : List α}, l'.Perm l → ∀ t0, ∃ t, permT l t = (l', t0)
  | [], l', h, t0 => ⟨t0, by rw [h.eq_nil]; rfl⟩
  | a :: l, l', h, t0 => by
    obtain ⟨s, r, rfl⟩ := List.append_of_mem (h.mem_iff.2 (by simp : a ∈ a :: l))
    have h' : (s ++ r).Perm l := List.perm_middle.symm.trans h |>.cons_inv
    obtain ⟨t1, ht1⟩ := permT_any h' t0
    refine ⟨Tape.cons s.length t1, ?_⟩
    unfold permT
    rw [Tape.tail_cons, ht1]
    dsimp only
    have e : (Tape.cons s.length t1).head % ((s ++ r).length + 1) = s.length := by
      show s.length % _ = _
      apply Nat.mod_eq_of_lt
      rw [List.length_append]; omega
    rw [e]
    congr 1
    exact insertIdx_mid a s r

namespace Par

variable {P : Prob} {R : Nat → Nat → Prop} {E : Emb}

/-- A search reads the tape only for the order of the chain. -/
theorem distances_tape {wb : Int} {qw : Nat → D} {u v : Nat} {S S1 : Scratch} {a a' b b' : Tape} {o : List Nat}
    (ha : E.iter P v a = (o, a')) (hb : E.iter P v b = (o, b'))
    (h : Scratch.distancesFrom P E wb qw u v { S with tape := a } = .ok S1) :
    Scratch.distancesFrom P E wb qw u v { S with tape := b } = .ok { S1 with tape := b' } ∧ S1.tape = a' ∧
      S1.perm = S.perm ∧ S1.vn = S.vn ∧ ∀ w, w ≠ v → S1.par w = S.par w ∧ S1.vis w = S.vis w ∧ S1.dist w = S.dist w := by
  unfold Scratch.distancesFrom at h ⊢
  obtain ⟨⟨F, t1⟩, h1, h2⟩ := bind_ok h
  obtain ⟨⟨F', d'⟩, h3, h4⟩ := bind_ok h2
  cases h4
  unfold Front.init at h1 ⊢
  by_cases hv : v < P.nv + P.nr
  · rw [if_pos hv, ha] at h1
    obtain ⟨G, g1, g2⟩ := bind_ok h1
    cases g2
    refine ⟨?_, rfl, rfl, rfl, fun w hw => ?_⟩
    · dsimp only [bind, Except.bind] at g1 h3 ⊢
      rw [if_pos hv, hb]
      dsimp only
      rw [g1]
      dsimp only
      rw [h3]
    · dsimp only; rw [upd_ne _ _ hw, upd_ne _ _ hw, upd_ne _ _ hw]; exact ⟨rfl, rfl, rfl⟩
  · rw [if_neg hv] at h1; cases h1

/-- The arrays of one neighbour. -/
def rowOf (S : Scratch) (v : Nat) : Row := ⟨S.par v, S.vis v, S.dist v⟩

/-- The searches one after the other, with given orders. -/
theorem search_all (wf : P.WF) (hR : Dom P R) (hE : EInv P R E) {wb : Int} {qw : Nat → D} {u : Nat} {ord : Nat → List Nat}
    (ho : ∀ v, (ord v).Perm ((E.chains v).keys P.Q)) : ∀ (vs : List Nat), vs.Nodup → (∀ v ∈ vs, v < P.N) →
    ∀ (n : Nat) (S : Scratch) (t0 : Tape), ∃ t S',
      vs.foldlM (m := M) (init := (n, { S with tape := t })) (fun (n, S) v =>
        if E.chainsize P v = 0 then .ok (n, S)
        else do
          let S ← Scratch.distancesFrom P E wb qw u v S
          .ok (n + 1, S)) = .ok (n + (vs.filter fun v => decide (E.chainsize P v ≠ 0)).length, S') ∧
      S'.tape = t0 ∧ S'.perm = S.perm ∧ S'.vn = S.vn ∧
      (∀ v, ¬ (v ∈ vs ∧ E.chainsize P v ≠ 0) → rowOf S' v = rowOf S v) ∧
      ∀ v ∈ vs, E.chainsize P v ≠ 0 →
        ∃ m, Runs ⟨P, E, wb, qw, u, S.perm, ord⟩ v m (.begin, rowOf S v) (.fin, rowOf S' v)
  | [], _, _, n, S, t0 => ⟨t0, { S with tape := t0 }, rfl, rfl, rfl, rfl, fun _ _ => rfl, by simp⟩
  | v :: vs, hnd, hN, n, S, t0 => by
    rw [List.nodup_cons] at hnd
    by_cases hc : E.chainsize P v = 0
    · obtain ⟨t, S', h1, h2, h3, h4, h5, h6⟩ := search_all wf hR hE (wb := wb) (qw := qw) (u := u) ho vs hnd.2
        (fun w hw => hN w (by simp [hw])) n S t0
      refine ⟨t, S', ?_, h2, h3, h4, ?_, ?_⟩
      · rw [List.foldlM_cons]
        dsimp only
        rw [if_pos hc, List.filter_cons_of_neg (by simpa using hc)]
        exact h1
      · intro w hw
        refine h5 w fun hc' => hw ⟨by simp [hc'.1], hc'.2⟩
      · intro w hw hwc
        rcases List.mem_cons.1 hw with rfl | hw
        · exact absurd hc hwc
        · exact h6 w hw hwc
    · obtain ⟨a, ha⟩ := permT_any (ho v) t0
      obtain ⟨S1, d1, -⟩ := distancesFrom_spec (A := fun _ => True) (S := { S with tape := a }) (wb := wb) (qw := qw) (u := u)
        wf hR hE (hN v (by simp)) (by intros; trivial)
      obtain ⟨t1, S', h1, h2, h3, h4, h5, h6⟩ := search_all wf hR hE (wb := wb) (qw := qw) (u := u) ho vs hnd.2
        (fun w hw => hN w (by simp [hw])) (n + 1) S1 t0
      obtain ⟨b, hb⟩ := permT_any (ho v) t1
      obtain ⟨e1, e2, e3, e4, e5⟩ := distances_tape (E := E) (P := P) (v := v) ha hb d1
      obtain ⟨m, hm⟩ := distances_runs (ord := ord) (u := u) (v := v) d1 ha
      have hrow : ∀ w, w ≠ v → rowOf S1 w = rowOf S w := by
        intro w hw
        obtain ⟨x1, x2, x3⟩ := e5 w hw
        unfold rowOf; rw [x1, x2, x3]
      refine ⟨b, S', ?_, h2, h3.trans e3, h4.trans e4, ?_, ?_⟩
      · rw [List.foldlM_cons]
        dsimp only
        rw [if_neg hc, e1, List.filter_cons_of_pos (by simpa using hc), List.length_cons,
          show n + ((vs.filter fun v => decide (E.chainsize P v ≠ 0)).length + 1) =
            n + 1 + (vs.filter fun v => decide (E.chainsize P v ≠ 0)).length by omega]
        exact h1
      · intro w hw
        have hwv : w ≠ v := by rintro rfl; exact hw ⟨by simp, hc⟩
        rw [h5 w fun hc' => hw ⟨by simp [hc'.1], hc'.2⟩]
        exact hrow w hwv
      · intro w hw hwc
        rcases List.mem_cons.1 hw with rfl | hw'
        · refine ⟨m, ?_⟩
          rw [h5 w fun hc' => hnd.1 hc'.1]
          exact hm
        · have hwv : w ≠ v := by rintro rfl; exact hnd.1 hw'
          obtain ⟨m, hm⟩ := h6 w hw' hwc
          rw [e3, hrow w hwv] at hm
          exact ⟨m, hm⟩

/-! ### totals -/

/-- Two arrays have the same entries. -/
def Same {α : Type} (n : Nat) (f g : Nat → α) : Prop := ∀ q, q < n → f q = g q

theorem atChain_same {wb : Int} {qw qw' : Nat → D} {v : Nat} {a b b' : Nat → D} (hq : Same P.nq qw qw') (hab : Same P.nq a b)
    (h : Scratch.atChain P E wb qw' v b = .ok b') :
    ∃ a', Scratch.atChain P E wb qw v a = .ok a' ∧ Same P.nq a' b' := by
  unfold Scratch.atChain at h ⊢
  by_cases hf : P.fixed v = true
  · rw [if_pos hf] at h ⊢; cases h; exact ⟨a, rfl, hab⟩
  · rw [if_neg hf] at h ⊢
    generalize (E.chains v).keys P.Q = l at h ⊢
    induction l generalizing a b with
    | nil => cases h; exact ⟨a, rfl, hab⟩
    | cons p l ih =>
      rw [List.foldlM_cons] at h ⊢
      by_cases hp : p < P.nq
      · rw [if_pos hp] at h ⊢
        refine ih ?_ h
        intro q hq'
        by_cases hqp : q = p
        · subst hqp
          rw [upd_same, upd_same, hq q hp, hab q hp]
        · rw [upd_ne _ _ hqp, upd_ne _ _ hqp]; exact hab q hq'
      · rw [if_neg hp] at h; cases h

theorem atChains_same {wb : Int} {qw qw' : Nat → D} (hq : Same P.nq qw qw') : ∀ (vs : List Nat) {a b b' : Nat → D},
    Same P.nq a b → vs.foldlM (init := b) (fun tot v => Scratch.atChain P E wb qw' v tot) = .ok b' →
    ∃ a', vs.foldlM (init := a) (fun tot v => Scratch.atChain P E wb qw v tot) = .ok a' ∧ Same P.nq a' b'
  | [], a, b, b', hab, h => by cases h; exact ⟨a, rfl, hab⟩
  | v :: vs, a, b, b', hab, h => by
    rw [List.foldlM_cons] at h
    obtain ⟨c, h1, h2⟩ := bind_ok h
    obtain ⟨c', h3, h4⟩ := atChain_same hq hab h1
    obtain ⟨a', h5, h6⟩ := atChains_same hq vs h4 h2
    refine ⟨a', ?_, h6⟩
    rw [List.foldlM_cons, h3]; exact h5

theorem playAt_flat {α : Type} {q : Nat} {l : List Nat} (hnd : l.Nodup) (hq : q ∈ l) (g : Nat → Nat → α → α) :
    ∀ (vs : List Nat) (x : α), playAt q (vs.flatMap fun v => l.map fun p => (p, g v p)) x = vs.foldl (fun x v => g v q x) x
  | [], _ => rfl
  | v :: vs, x => by
    rw [List.flatMap_cons, playAt_append, playAt_map hnd hq, List.foldl_cons]
    exact playAt_flat hnd hq g vs _

/-- One entry of the last loop of the model in one go. -/
theorem accum_fold {wb : Int} (row : Nat → Row) {q : Nat} (hq : q < P.nq) : ∀ (vs : List Nat) (tot : Nat → D) (x : D), tot q = x →
    (vs.foldl (fun tot v => if E.chainsize P v = 0 then tot else Scratch.accum P E wb (row v).vis (row v).dist tot) tot) q =
    (vs.filter fun v => decide (E.chainsize P v ≠ 0)).foldl
      (fun x v => accumCell P E wb ((row v).vis q) ((row v).dist q) q x) x
  | [], tot, x, h => h
  | v :: vs, tot, x, h => by
    rw [List.foldl_cons]
    by_cases hc : E.chainsize P v = 0
    · rw [if_pos hc, List.filter_cons_of_neg (by simpa using hc)]
      exact accum_fold row hq vs tot x h
    · rw [if_neg hc, List.filter_cons_of_pos (by simpa using hc), List.foldl_cons]
      refine accum_fold row hq vs _ _ ?_
      unfold Scratch.accum accumCell
      rw [if_pos hq, h]

/-! ### the stages -/

/-- The weights of the qubits. -/
def Call.qw (C : Call) : Nat → D := fun q => C.weight (C.E.maxWeight 0 C.P.nq) (C.E.w q)

/-- What the same call computes without threads: `S'` after the searches and `tot1` after
`accumulate_distance_at_chain`. -/
structure Call.Solved (C : Call) (S' : Scratch) (tot1 : Nat → D) : Prop where
  pos : 0 < C.k
  le : C.k ≤ C.P.nq
  nodup : (C.S.vn C.u).Nodup
  runs : ∀ v ∈ C.S.vn C.u, C.E.chainsize C.P v ≠ 0 → ∃ m, Runs (C.fixed C.qw) v m (.begin, rowOf C.S v) (.fin, rowOf S' v)
  keep : ∀ v, ¬ (v ∈ C.S.vn C.u ∧ C.E.chainsize C.P v ≠ 0) → rowOf S' v = rowOf C.S v
  chains : (C.S.vn C.u).foldlM (init := Scratch.prepDistances C.P C.u)
    (fun tot v => Scratch.atChain C.P C.E C.wb C.qw v tot) = .ok tot1

/-- The neighbours with chains. -/
def Call.nbrs (C : Call) : List Nat := (C.S.vn C.u).filter fun v => decide (C.E.chainsize C.P v ≠ 0)

/-- One entry of the outcome. -/
def Call.total (C : Call) (S' : Scratch) (tot1 : Nat → D) (q : Nat) : D :=
  let x := C.nbrs.foldl (fun x v => accumCell C.P C.E C.wb (S'.vis v q) (S'.dist v q) q x) (tot1 q)
  if C.nbrs.length = 0 then (if C.wb ≤ C.E.w q then none else x) else x

def SInv (C : Call) (S' : Scratch) (tot1 : Nat → D) : Stage → Prop
  | .weigh X => RInv (weighProg C.P C.E C.k) C.tw X
  | .prep X => RInv (prepProg C.P C.weight C.E C.u (C.E.maxWeight 0 C.P.nq) C.k) C.old X
  | .search m X => (∀ q, q < C.P.nq → m q = (C.qw q, Scratch.prepDistances C.P C.u q)) ∧
      TInv (C.fixed fun q => (m q).1) (C.S.vn C.u) C.k (rowOf C.S) (rowOf S') X
  | .sum row X => row = rowOf S' ∧ ∃ tot, Same C.P.nq tot tot1 ∧ RInv (sumProg C (rowOf S') C.nbrs.length) tot X
  | .done tot row => row = rowOf S' ∧ Same C.P.nq tot (C.total S' tot1)

theorem weighProg_mem {P : Prob} {E : Emb} {k j : Nat} {a : Access Int} (h : a ∈ weighProg P E k j) :
    j < k ∧ a.1 = k - 1 - j := by
  unfold weighProg at h
  split at h
  · simp at h
  · next c hc =>
    have := (List.getElem?_eq_some_iff.1 hc).1
    unfold chunks at this
    rw [chunkLoop_length] at this
    rw [List.mem_singleton] at h
    exact ⟨this, by rw [h]⟩

theorem weigh_apart (P : Prob) (E : Emb) (k : Nat) : Apart (weighProg P E k) := by
  intro i j a ha b hb e
  obtain ⟨h1, h2⟩ := weighProg_mem ha
  obtain ⟨h3, h4⟩ := weighProg_mem hb
  omega

theorem prepProg_mem {P : Prob} {weight : Int → Int → D} {E : Emb} {u : Nat} {mw : Int} {k j : Nat} {a : Access (D × D)}
    (h : a ∈ prepProg P weight E u mw k j) : a.1 ∈ range P.nq k j := by
  unfold prepProg at h
  rcases List.mem_append.1 h with h | h <;>
  · obtain ⟨q, hq, rfl⟩ := List.mem_map.1 h
    exact hq

theorem sumProg_mem {C : Call} {row : Nat → Row} {n j : Nat} {a : Access D} (h : a ∈ sumProg C row n j) :
    a.1 ∈ range C.P.nq C.k j := by
  unfold sumProg at h
  rcases List.mem_append.1 h with h | h
  · obtain ⟨v, _, hv⟩ := List.mem_flatMap.1 h
    obtain ⟨q, hq, rfl⟩ := List.mem_map.1 hv
    exact hq
  · split at h
    · obtain ⟨q, hq, rfl⟩ := List.mem_map.1 h
      exact hq
    · simp at h

/-- A fold of `max` is the largest. -/
theorem foldl_max (f : Nat → Int) : ∀ (n : Nat), (∀ i, i < n + 1 → f i ≤ (List.range (n+1)).foldl (fun m i => max m (f i)) (f 0)) ∧
    ∃ i, i < n + 1 ∧ (List.range (n+1)).foldl (fun m i => max m (f i)) (f 0) = f i := by
  intro n
  induction n with
  | zero =>
    refine ⟨?_, 0, by omega, ?_⟩
    · intro i hi
      have : i = 0 := by omega
      subst this; simp
    · simp
  | succ n ih =>
    rw [List.range_succ, List.foldl_append]
    simp only [List.foldl_cons, List.foldl_nil]
    obtain ⟨h1, i, h2, h3⟩ := ih
    generalize (List.range (n+1)).foldl (fun m i => max m (f i)) (f 0) = M at *
    constructor
    · intro j hj
      by_cases hjn : j < n + 1
      · have := h1 j hjn; omega
      · have : j = n + 1 := by omega
        subst this; omega
    · by_cases hm : f (n+1) ≤ M
      · exact ⟨i, by omega, by omega⟩
      · exact ⟨n+1, by omega, by omega⟩

/-- The main thread finds the largest fill. -/
theorem weigh_final {C : Call} (hk : 0 < C.k) (hle : C.k ≤ C.P.nq) {X : Ranges Int} (h : RInv (weighProg C.P C.E C.k) C.tw X)
    (hd : X.Done C.k) : maxElement C.k X.mem = .ok (C.E.maxWeight 0 C.P.nq) := by
  unfold maxElement
  rw [if_pos hk]
  congr 1
  have hlen : (chunks C.P.nq C.k).length = C.k := chunkLoop_length _ _ _ _
  have hcell : ∀ j, j < C.k → ∃ c ∈ chunks C.P.nq C.k, (chunks C.P.nq C.k)[j]? = some c ∧
      X.mem (C.k - 1 - j) = C.E.maxWeight c.1 c.2 := by
    intro j hj
    have hj' : j < (chunks C.P.nq C.k).length := by omega
    have hc : (chunks C.P.nq C.k)[j]? = some (chunks C.P.nq C.k)[j] := List.getElem?_eq_getElem hj'
    have hp : weighProg C.P C.E C.k j = [(C.k - 1 - j, fun _ => C.E.maxWeight (chunks C.P.nq C.k)[j].1 (chunks C.P.nq C.k)[j].2)] := by
      unfold weighProg; rw [hc]
    refine ⟨_, List.getElem_mem hj', hc, ?_⟩
    rw [h.final hd hj (q := C.k - 1 - j) ⟨_, by rw [hp]; exact List.mem_singleton.2 rfl, rfl⟩, hp]
    unfold playAt
    rw [if_pos rfl]
    rfl
  obtain ⟨n, hn⟩ : ∃ n, C.k = n + 1 := ⟨C.k - 1, by omega⟩
  obtain ⟨h1, i, h2, h3⟩ := foldl_max X.mem n
  rw [← hn] at h1 h2 h3
  refine chunks_max hk hle C.E ?_ ?_
  · rw [h3]
    obtain ⟨c, hc, _, e⟩ := hcell (C.k - 1 - i) (by omega)
    rw [show C.k - 1 - (C.k - 1 - i) = i by omega] at e
    rw [e]; exact List.mem_map.2 ⟨c, hc, rfl⟩
  · intro x hx
    obtain ⟨c, hc, rfl⟩ := List.mem_map.1 hx
    obtain ⟨j, hj⟩ := List.mem_iff_getElem?.1 hc
    have hjk : j < C.k := by have := (List.getElem?_eq_some_iff.1 hj).1; omega
    obtain ⟨d, _, hd', e⟩ := hcell j hjk
    rw [hj] at hd'; cases hd'
    rw [← e]; exact h1 _ (by omega)

theorem prep_final {C : Call} (hk : 0 < C.k) {X : Ranges (D × D)}
    (h : RInv (prepProg C.P C.weight C.E C.u (C.E.maxWeight 0 C.P.nq) C.k) C.old X) (hd : X.Done C.k) {q : Nat} (hq : q < C.P.nq) :
    X.mem q = (C.qw q, Scratch.prepDistances C.P C.u q) := by
  obtain ⟨j, hj, hm⟩ := range_cover hk hq
  rw [h.final hd hj ⟨(q, fun x => (C.weight (C.E.maxWeight 0 C.P.nq) (C.E.w q), x.2)),
    List.mem_append_left _ (List.mem_map.2 ⟨q, hm, rfl⟩), rfl⟩]
  unfold prepProg
  rw [playAt_append, playAt_map (range_nodup _ _ _) hm, playAt_map (range_nodup _ _ _) hm]
  rfl

theorem sum_final {C : Call} (hk : 0 < C.k) {S' : Scratch} {tot1 tot : Nat → D} {X : Ranges D} (hs : Same C.P.nq tot tot1)
    (h : RInv (sumProg C (rowOf S') C.nbrs.length) tot X) (hd : X.Done C.k) : Same C.P.nq X.mem (C.total S' tot1) := by
  intro q hq
  obtain ⟨j, hj, hm⟩ := range_cover hk hq
  have key : playAt q (sumProg C (rowOf S') C.nbrs.length j) (tot q) = C.total S' tot1 q := by
    unfold sumProg
    rw [playAt_append, playAt_flat (range_nodup _ _ _) hm (fun v p => accumCell C.P C.E C.wb ((rowOf S' v).vis p) ((rowOf S' v).dist p) p),
      hs q hq]
    unfold Call.total
    dsimp only
    by_cases h0 : C.nbrs.length = 0
    · rw [if_pos h0, if_pos h0, playAt_map (range_nodup _ _ _) hm (fun q t => if C.wb ≤ C.E.w q then none else t)]
      rfl
    · rw [if_neg h0, if_neg h0]; rfl
  by_cases hne : ∃ a ∈ sumProg C (rowOf S') C.nbrs.length j, a.1 = q
  · rw [h.final hd hj hne]; exact key
  · -- no entry is touched: impossible, but the value is right all the same
    have hnone : ∀ a ∈ sumProg C (rowOf S') C.nbrs.length j, a.1 ≠ q := fun a ha e => hne ⟨a, ha, e⟩
    rw [playAt_none hnone] at key
    rw [← key]
    refine h.out q ?_
    intro i a ha e
    have h1 := sumProg_mem ha
    rw [e] at h1
    have := range_apart hk h1 hm
    subst this
    exact hnone a ha e

theorem SInv.start (C : Call) (S' : Scratch) (tot1 : Nat → D) : SInv C S' tot1 C.start := RInv.init _ _

theorem SInv.step {C : Call} {S' : Scratch} {tot1 : Nat → D} (hS : C.Solved S' tot1) {X Y : Stage} (h : SInv C S' tot1 X)
    (hs : C.Step X Y) : SInv C S' tot1 Y := by
  cases hs with
  | weigh _ hr => exact RInv.step (weigh_apart _ _ _) h hr
  | weighed hd hm =>
    rw [weigh_final hS.pos hS.le h hd] at hm
    cases hm
    exact RInv.init _ _
  | prep _ hr => exact RInv.step (apart_of_range hS.pos fun j a => prepProg_mem) h hr
  | prepared hd => exact ⟨fun q hq => prep_final hS.pos h hd hq, TInv.init⟩
  | @search i m X X' hi ht =>
    refine ⟨h.1, TInv.step hS.nodup ?_ hi h.2 ht⟩
    intro v hv hc
    obtain ⟨n, hn⟩ := hS.runs v hv hc
    exact ⟨n, Runs.congr (K := C.fixed C.qw) (qw := fun q => (m q).1) (fun q hq => congrArg Prod.fst (h.1 q hq)) hn⟩
  | @searched m X tot hd ha =>
    obtain ⟨h1, h2⟩ := h
    obtain ⟨e1, e2⟩ := h2.final hS.pos hd
    have hrow : X.row = rowOf S' := by
      funext v
      rw [e2 v]
      split
      · rfl
      · next hv => exact (hS.keep v hv).symm
    obtain ⟨tot', t1, t2⟩ := atChains_same (E := C.E) (wb := C.wb) (qw := fun q => (m q).1) (a := fun q => (m q).2)
      (fun q hq => congrArg Prod.fst (h1 q hq)) (C.S.vn C.u) (fun q hq => congrArg Prod.snd (h1 q hq)) hS.chains
    rw [t1] at ha; cases ha
    have he : X.J.emb = C.nbrs.length := e1
    refine ⟨hrow, _, t2, ?_⟩
    rw [hrow, he]
    exact RInv.init _ _
  | sum _ hr =>
    obtain ⟨h1, tot, h2, h3⟩ := h
    exact ⟨h1, tot, h2, RInv.step (apart_of_range hS.pos fun j a => sumProg_mem) h3 hr⟩
  | summed hd =>
    obtain ⟨h1, tot, h2, h3⟩ := h
    exact ⟨h1, sum_final hS.pos h2 h3 hd⟩

theorem Call.Reached.inv {C : Call} {S' : Scratch} {tot1 : Nat → D} (hS : C.Solved S' tot1) {X : Stage} (h : C.Reached X) :
    SInv C S' tot1 X := by
  induction h with
  | start => exact SInv.start C S' tot1
  | step _ hs ih => exact ih.step hS hs

/-- Until the end, some step is possible. -/
theorem SInv.progress {C : Call} {S' : Scratch} {tot1 : Nat → D} (hS : C.Solved S' tot1) {X : Stage} (h : SInv C S' tot1 X) :
    (∃ tot row, X = .done tot row) ∨ ∃ Y, C.Step X Y := by
  cases X with
  | weigh X =>
    by_cases hd : X.Done C.k
    · exact Or.inr ⟨_, .weighed hd (weigh_final hS.pos hS.le h hd)⟩
    · obtain ⟨i, Y, hi, hs⟩ := Ranges.progress hd
      exact Or.inr ⟨_, .weigh hi hs⟩
  | prep X =>
    by_cases hd : X.Done C.k
    · exact Or.inr ⟨_, .prepared hd⟩
    · obtain ⟨i, Y, hi, hs⟩ := Ranges.progress hd
      exact Or.inr ⟨_, .prep hi hs⟩
  | search m X =>
    by_cases hd : ∀ i, i < C.k → X.J.pc i = .done
    · obtain ⟨h1, _⟩ := h
      obtain ⟨tot', t1, t2⟩ := atChains_same (E := C.E) (wb := C.wb) (qw := fun q => (m q).1) (a := fun q => (m q).2)
        (fun q hq => congrArg Prod.fst (h1 q hq)) (C.S.vn C.u) (fun q hq => congrArg Prod.snd (h1 q hq)) hS.chains
      exact Or.inr ⟨_, .searched hd t1⟩
    · simp only [not_forall] at hd
      obtain ⟨i, hi, hne⟩ := hd
      obtain ⟨j, Y, hj, hs⟩ := h.2.progress hi hne
      exact Or.inr ⟨_, .search hj hs⟩
  | sum row X =>
    by_cases hd : X.Done C.k
    · exact Or.inr ⟨_, .summed hd⟩
    · obtain ⟨i, Y, hi, hs⟩ := Ranges.progress hd
      exact Or.inr ⟨_, .sum hi hs⟩
  | done tot row => exact Or.inl ⟨tot, row, rfl⟩

/-- The call without threads. -/
theorem Call.solve {C : Call} {R : Nat → Nat → Prop} (wf : C.P.WF) (hR : Dom C.P R) (hE : EInv C.P R C.E) (hu : C.u < C.P.nv)
    (hS : VnOK C.P C.S) (hk : 0 < C.k) (hle : C.k ≤ C.P.nq) (ho : ∀ v, (C.ord v).Perm ((C.E.chains v).keys C.P.Q)) (t0 : Tape) :
    ∃ t S' tot1 tot, C.Solved S' tot1 ∧
      Scratch.rootParallel C.P C.weight C.E C.wb C.u { C.S with tape := t } = .ok (tot, S') ∧ S'.tape = t0 ∧
      S'.vn = C.S.vn ∧ S'.perm = C.S.perm ∧ Same C.P.nq tot (C.total S' tot1) := by
  have hperm := hS C.u hu
  have hnd : (C.S.vn C.u).Nodup := hperm.nodup_iff.2 (wf.vn_nodup C.u hu)
  have hN : ∀ v ∈ C.S.vn C.u, v < C.P.N := fun v hv => wf.vn_lt C.u v hu (hperm.mem_iff.1 hv)
  obtain ⟨t, S', h1, h2, h3, h4, h5, h6⟩ := search_all wf hR hE (wb := C.wb) (qw := C.qw) (u := C.u) ho (C.S.vn C.u) hnd hN 0 C.S t0
  obtain ⟨⟨tot, S''⟩, r1, -⟩ := rootParallel_spec (wb := C.wb) (weight := C.weight) wf hR hE hu (S := { C.S with tape := t }) hS
  have r2 := r1
  unfold Scratch.rootParallel at r2
  obtain ⟨⟨n, S3⟩, r3, r4⟩ := bind_ok r2
  have r3' := h1.symm.trans r3
  rw [Except.ok.injEq, Prod.mk.injEq] at r3'
  obtain ⟨rfl, rfl⟩ := r3'
  obtain ⟨tot1, r5, r6⟩ := bind_ok r4
  rw [Except.ok.injEq, Prod.mk.injEq] at r6
  obtain ⟨r6, rfl⟩ := r6
  rw [h4] at r5
  refine ⟨t, S', tot1, tot, ⟨hk, hle, hnd, h6, h5, r5⟩, r1, h2, h4, h3, ?_⟩
  intro q hq
  have e := accum_fold (E := C.E) (wb := C.wb) (rowOf S') hq (C.S.vn C.u) tot1 (tot1 q) rfl
  rw [← r6]
  unfold Call.total
  dsimp only
  rw [h4, Nat.zero_add]
  by_cases h0 : C.nbrs.length = 0
  · rw [if_pos h0, if_pos (show ((C.S.vn C.u).filter fun v => decide (C.E.chainsize C.P v ≠ 0)).length = 0 from h0), if_pos hq]
    split
    · rfl
    · exact e
  · rw [if_neg h0, if_neg (show ¬ ((C.S.vn C.u).filter fun v => decide (C.E.chainsize C.P v ≠ 0)).length = 0 from h0)]
    exact e

/-! ### termination -/

open Classical in
/-- Steps left of a search. -/
noncomputable def stepsLeft (K : Fixed) (v : Nat) (x : Ctrl × Row) : Nat :=
  if h : ∃ n r, Runs K v n x (.fin, r) then Classical.choose h else 0

theorem stepsLeft_eq {K : Fixed} {v n : Nat} {x : Ctrl × Row} {r : Row} (h : Runs K v n x (.fin, r)) : stepsLeft K v x = n := by
  unfold stepsLeft
  have hx : ∃ n r, Runs K v n x (.fin, r) := ⟨n, r, h⟩
  rw [dif_pos hx]
  obtain ⟨r', h'⟩ := Classical.choose_spec hx
  exact (h'.unique h).1

/-- Steps left of a worker's search. -/
noncomputable def Threads.rem (K : Fixed) (X : Threads) (i : Nat) : Nat :=
  match X.J.pc i with
  | .work v => stepsLeft K v (X.ctl i, X.row v)
  | _ => 0

theorem sum_range_lt {f g : Nat → Nat} {i : Nat} (hne : ∀ j, j ≠ i → f j = g j) (hlt : f i < g i) : ∀ {k : Nat}, i < k →
    ((List.range k).map f).sum < ((List.range k).map g).sum := by
  have key : ∀ k, k ≤ i → ((List.range k).map f).sum = ((List.range k).map g).sum := by
    intro k hk
    congr 1
    apply List.map_congr_left
    intro j hj
    have := List.mem_range.1 hj
    exact hne j (by omega)
  intro k
  induction k with
  | zero => intro h; omega
  | succ k ih =>
    intro h
    simp only [List.range_succ, List.map_append, List.map_cons, List.map_nil, List.sum_append, List.sum_cons, List.sum_nil]
    by_cases hik : i = k
    · subst hik
      have := key i (Nat.le_refl _); omega
    · have := ih (by omega)
      have := hne k (fun h => hik h.symm)
      omega

/-- A step makes this smaller, lexicographically. -/
noncomputable def Stage.measure (C : Call) : Stage → Nat × Nat × Nat
  | .weigh X => (4, X.left C.k, 0)
  | .prep X => (3, X.left C.k, 0)
  | .search m X => (2, X.J.measure (C.S.vn C.u) C.k, ((List.range C.k).map (X.rem (C.fixed fun q => (m q).1))).sum)
  | .sum _ X => (1, X.left C.k, 0)
  | .done _ _ => (0, 0, 0)

/-- The order on the measures. -/
abbrev Smaller : Nat × Nat × Nat → Nat × Nat × Nat → Prop :=
  Prod.Lex (· < ·) (Prod.Lex (· < ·) (· < ·))

theorem smaller_wf : WellFounded Smaller :=
  (Prod.lex (inferInstance : WellFoundedRelation Nat)
    (Prod.lex (inferInstance : WellFoundedRelation Nat) (inferInstance : WellFoundedRelation Nat))).wf

theorem SInv.decreases {C : Call} {S' : Scratch} {tot1 : Nat → D} (hS : C.Solved S' tot1) {X Y : Stage} (h : SInv C S' tot1 X)
    (hs : C.Step X Y) : Smaller (Y.measure C) (X.measure C) := by
  cases hs with
  | weigh hi hr => exact Prod.Lex.right _ (Prod.Lex.left _ _ (hr.decreases hi))
  | weighed => exact Prod.Lex.left _ _ (by omega)
  | prep hi hr => exact Prod.Lex.right _ (Prod.Lex.left _ _ (hr.decreases hi))
  | prepared => exact Prod.Lex.left _ _ (by omega)
  | @search i m X X' hi ht =>
    refine Prod.Lex.right _ ?_
    cases ht with
    | job _ hs => exact Prod.Lex.left _ _ (hs.decreases hi)
    | @search v c r hp hf hn =>
      refine Prod.Lex.right _ (sum_range_lt (i := i) ?_ ?_ hi)
      · intro j hj
        unfold Threads.rem
        dsimp only
        cases hpj : X.J.pc j with
        | work w =>
          have hwv : w ≠ v := by
            rintro rfl
            exact hj (h.2.jobs.excl hS.nodup (v := w) (by rw [hpj]; simp [PC.held]) (by rw [hp]; simp [PC.held]))
          dsimp only
          rw [upd_ne _ _ hj, upd_ne _ _ hwv]
        | _ => rfl
      · obtain ⟨n, hr⟩ := h.2.busy i v hp
        have e1 := stepsLeft_eq hr
        unfold Threads.rem
        dsimp only
        rw [hp]
        dsimp only
        rw [upd_same, upd_same, e1]
        generalize hx : (X.ctl i, X.row v) = x at hr hn
        cases hr with
        | refl =>
          rw [Prod.mk.injEq] at hx
          exact absurd hx.1 hf
        | step _ b hr' =>
          rw [hn] at b; cases b
          rw [stepsLeft_eq hr']; omega
  | searched => exact Prod.Lex.left _ _ (by omega)
  | sum hi hr => exact Prod.Lex.right _ (Prod.Lex.left _ _ (hr.decreases hi))
  | summed => exact Prod.Lex.left _ _ (by omega)

end Par
end MM
