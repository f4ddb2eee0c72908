import Verif.Core.FindChain

/-! Variable orders (embedding_problem.hpp:355-460). -/

namespace MM

/-- `VARORDER` (util.hpp:44-51). -/
inductive VarOrder where
  | shuffle | dfs | bfs | pfs | rpfs | keep
  deriving DecidableEq, Repr

/-- `priority_node<int>` (pairing_queue.hpp:22-36). -/
structure PItem where
  node : Nat
  dirt : Nat
  dist : Int
  deriving DecidableEq

namespace Order

/-- `a` leaves a `min_queue` before `b` (pairing_queue.hpp:31-32). -/
def minFirst (a b : PItem) : Bool := decide (a.dist < b.dist) || (decide (a.dist = b.dist) && decide (a.dirt < b.dirt))
/-- `a` leaves a `max_queue` before `b` (pairing_queue.hpp:33-34). -/
def maxFirst (a b : PItem) : Bool := decide (b.dist < a.dist) || (decide (a.dist = b.dist) && decide (b.dirt < a.dirt))

/-- `std::priority_queue::top` and `pop`: the queue as a list, from which a first element is
removed. Two items that compare equal have the same `dirt`, hence the same node. -/
def popFirst (first : PItem → PItem → Bool) : List PItem → Option (PItem × List PItem)
  | [] => none
  | a :: l => match popFirst first l with
    | none => some (a, [])
    | some (b, l') => if first b a then some (b, a :: l') else some (a, b :: l')

/-- The neighbour loop of `dfs_component` (embedding_problem.hpp:405-410): the unvisited
neighbours are marked and returned. `visited` has `num_v + num_f` entries. -/
def fresh (P : Prob) (nbrs : List Nat) (vis : Nat → Bool) : M ((Nat → Bool) × List Nat) :=
  nbrs.foldlM (init := (vis, ([] : List Nat))) fun (vis, new) y =>
    if y < P.N then
      if vis y then .ok (vis, new) else .ok (upd vis y true, new ++ [y])
    else .error .ub

/-- The loop of `dfs_component` (embedding_problem.hpp:402-413). `component` is
`done ++ pending`, `front` the length of `done`. -/
def dfsLoop (P : Prob) (vn : Nat → List Nat) : Nat → (Nat → Bool) → List Nat → List Nat → Tape →
    M ((Nat → Bool) × List Nat × Tape)
  | _, vis, done, [], t => .ok (vis, done, t)
  | 0, _, _, _ :: _, _ => .error .diverge
  | fuel+1, vis, done, x :: pending, t => do
    let (vis, new) ← fresh P (vn x) vis
    let (new, t) := permT new t
    dfsLoop P vn fuel vis (done ++ [x]) (pending ++ new) t

/-- `-(number of visited neighbours)` (embedding_problem.hpp:432-433). -/
def prio (P : Prob) (vis : Nat → Bool) (nbrs : List Nat) : M Int :=
  nbrs.foldlM (init := (0 : Int)) fun d w =>
    if w < P.N then .ok (if vis w then d - 1 else d) else .error .ub

/-- The loop of `pfs_component` (embedding_problem.hpp:422-437). -/
def pfsLoop (P : Prob) (first : PItem → PItem → Bool) (vn : Nat → List Nat) (sh : List Nat) :
    Nat → (Nat → Bool) → List Nat → List PItem → M ((Nat → Bool) × List Nat)
  | 0, _, _, _ => .error .diverge
  | fuel+1, vis, comp, pq => match popFirst first pq with
    | none => .ok (vis, comp)
    | some (z, pq) =>
      if vis z.node then pfsLoop P first vn sh fuel vis comp pq
      else do
        let vis := upd vis z.node true
        let pq ← (vn z.node).foldlM (init := pq) fun pq y =>
          if y < P.N then
            if vis y then .ok pq
            else match sh[y]? with
              | none => .error .ub
              | some s => do
                let d ← prio P vis (vn y)
                .ok (⟨y, s, d⟩ :: pq)
          else .error .ub
        pfsLoop P first vn sh fuel vis (comp ++ [z.node]) pq

/-- The loop of `bfs_component` (embedding_problem.hpp:444-457). -/
def bfsLoop (P : Prob) (vn : Nat → List Nat) (sh : List Nat) :
    Nat → (Nat → Bool) → List Nat → List PItem → M ((Nat → Bool) × List Nat)
  | 0, _, _, _ => .error .diverge
  | fuel+1, vis, comp, pq => match popFirst minFirst pq with
    | none => .ok (vis, comp)
    | some (z, pq) => do
      let (vis, pq) ← (vn z.node).foldlM (init := (vis, pq)) fun (vis, pq) y =>
        if y < P.N then
          if vis y then .ok (vis, pq)
          else match sh[y]? with
            | none => .error .ub
            | some s => .ok (upd vis y true, ⟨y, s, z.dist + 1⟩ :: pq)
        else .error .ub
      bfsLoop P vn sh fuel vis (comp ++ [z.node]) pq

/-- A bound on the number of iterations of `pfsLoop`. -/
def edges (P : Prob) (vn : Nat → List Nat) : Nat := ((List.range P.nv).map (fun v => (vn v).length)).sum

/-- One component (embedding_problem.hpp:375-391). -/
def component (P : Prob) (o : VarOrder) (vn : Nat → List Nat) (sh : List Nat) (v : Nat)
    (vis : Nat → Bool) (comp : List Nat) (t : Tape) : M ((Nat → Bool) × List Nat × Tape) :=
  match sh[v]? with
  | none => .error .ub
  | some s =>
    match o with
    | .pfs => do
      let (vis, comp) ← pfsLoop P minFirst vn sh (edges P vn + 2) vis comp [⟨v, s, 0⟩]
      .ok (vis, comp, t)
    | .rpfs => do
      let (vis, comp) ← pfsLoop P maxFirst vn sh (edges P vn + 2) vis comp [⟨v, s, 0⟩]
      .ok (vis, comp, t)
    | .bfs => do
      let (vis, comp) ← bfsLoop P vn sh (P.nv + 1) (upd vis v true) comp [⟨v, s, 0⟩]
      .ok (vis, comp, t)
    | _ => dfsLoop P vn P.nv (upd vis v true) comp [v] t

end Order

/-- `var_order` (embedding_problem.hpp:359-395); `old` is the stored order. -/
def varOrder (P : Prob) (o : VarOrder) (vn : Nat → List Nat) (old : List Nat) (t : Tape) :
    M (List Nat × Tape) :=
  match o with
  | .keep => .ok (old, t)
  | .shuffle => .ok (permT (List.range P.nv).reverse t)
  | o => do
    let (sh, t) := permT (List.range P.nv).reverse t
    let (_, comp, t) ← sh.foldlM (init := ((fun v => decide (P.nv ≤ v) : Nat → Bool), ([] : List Nat), t))
      fun (vis, comp, t) v =>
        if vis v then .ok (vis, comp, t) else Order.component P o vn sh v vis comp t
    .ok (comp, t)

namespace Order

variable {P : Prob}

/-- `comp` lists the visited free variables, each once. -/
structure OInv (P : Prob) (vis : Nat → Bool) (comp : List Nat) : Prop where
  nodup : comp.Nodup
  mem : ∀ v, v ∈ comp ↔ v < P.nv ∧ vis v = true
  fixed : ∀ v, P.nv ≤ v → vis v = true

theorem OInv.length {vis : Nat → Bool} {comp : List Nat} (h : OInv P vis comp) :
    comp.length ≤ P.nv := by
  have : comp.length ≤ (List.range P.nv).length := by
    refine (List.subperm_of_subset h.nodup ?_).length_le
    intro v hv
    exact List.mem_range.2 ((h.mem v).1 hv).1
  simpa using this

theorem OInv.lt {vis : Nat → Bool} {comp : List Nat} (h : OInv P vis comp) {y : Nat}
    (hy : vis y = false) : y < P.nv := by
  by_contra hc
  have := h.fixed y (by omega)
  simp [hy] at this

theorem OInv.add {vis : Nat → Bool} {comp : List Nat} (h : OInv P vis comp) {y : Nat}
    (hy : vis y = false) : OInv P (upd vis y true) (comp ++ [y]) := by
  have hlt := h.lt hy
  refine ⟨?_, ?_, ?_⟩
  · rw [List.nodup_append]
    refine ⟨h.nodup, by simp, ?_⟩
    intro a ha b hb
    rw [List.mem_singleton.1 hb]
    rintro rfl
    have := ((h.mem a).1 ha).2
    simp [hy] at this
  · intro v
    rw [List.mem_append, h.mem]
    by_cases hv : v = y
    · subst hv; simp [hlt]
    · simp [hv]
  · intro v hv
    have : v ≠ y := by omega
    simp [this, h.fixed v hv]

theorem OInv.perm {vis : Nat → Bool} {a b : List Nat} (h : OInv P vis a) (hp : a.Perm b) :
    OInv P vis b :=
  ⟨hp.nodup_iff.1 h.nodup, fun v => by rw [← hp.mem_iff]; exact h.mem v, h.fixed⟩

/-- neighbours are variables -/
def NbrOK (P : Prob) (vn : Nat → List Nat) : Prop := ∀ v, v < P.nv → ∀ y ∈ vn v, y < P.N

theorem fresh_spec {nbrs : List Nat} (hn : ∀ y ∈ nbrs, y < P.N) {vis : Nat → Bool}
    {comp : List Nat} (h : OInv P vis comp) :
    Ok (fresh P nbrs vis) (fun r => OInv P r.1 (comp ++ r.2)  ∧
      ∀ v, vis v = true → r.1 v = true) := by
  refine Ok.foldlM' (fun (r : (Nat → Bool) × List Nat) => OInv P r.1 (comp ++ r.2) ∧
      ∀ v, vis v = true → r.1 v = true) (by simpa using h) ?_
  rintro y ⟨vis1, new⟩ hy ⟨h1, h2⟩
  dsimp only at *
  rw [if_pos (hn y hy)]
  split
  · exact Ok.pure ⟨h1, h2⟩
  · next hv =>
    refine Ok.pure ⟨?_, ?_⟩
    · have := h1.add (y := y) (by simpa using hv)
      simpa [List.append_assoc] using this
    · intro v hv'
      by_cases hvy : v = y
      · subst hvy; simp
      · simp [hvy, h2 v hv']

theorem dfsLoop_spec {vn : Nat → List Nat} (hn : NbrOK P vn) (fuel : Nat) :
    ∀ {vis : Nat → Bool} {done pending : List Nat} {t : Tape}, OInv P vis (done ++ pending) →
    P.nv ≤ fuel + done.length →
    Ok (dfsLoop P vn fuel vis done pending t) (fun r => OInv P r.1 r.2.1 ∧
      (∀ v, vis v = true → r.1 v = true)) := by
  induction fuel with
  | zero =>
    intro vis done pending t h hf
    cases pending with
    | nil => unfold dfsLoop; exact Ok.pure ⟨by simpa using h, fun _ h => h⟩
    | cons x pending =>
      have := h.length
      simp at this
      omega
  | succ fuel ih =>
    intro vis done pending t h hf
    cases pending with
    | nil => unfold dfsLoop; exact Ok.pure ⟨by simpa using h, fun _ h => h⟩
    | cons x pending =>
      unfold dfsLoop
      have hx : x < P.nv := ((h.mem x).1 (by simp)).1
      refine Ok.bind (fresh_spec (hn x hx) h) ?_
      rintro ⟨vis1, new⟩ ⟨h1, h2⟩
      dsimp only at *
      have hp := permT_perm new t
      generalize permT new t = r at hp ⊢
      obtain ⟨new', t'⟩ := r
      dsimp only at *
      refine (ih (t := t') ?_ ?_).mono (fun r h => ⟨h.1, fun v hv => h.2 v (h2 v hv)⟩)
      · refine h1.perm ?_
        simp only [List.append_assoc, List.cons_append, List.nil_append]
        exact ((hp.symm.append_left pending).cons x).append_left done
      · simp; omega

theorem popFirst_perm (first : PItem → PItem → Bool) : ∀ {l : List PItem} {z : PItem} {l' : List PItem},
    popFirst first l = some (z, l') → l.Perm (z :: l')
  | [], _, _, h => by simp [popFirst] at h
  | a :: l, z, l', h => by
    unfold popFirst at h
    split at h
    · next hn =>
      cases h
      have : l = [] := by
        cases l with
        | nil => rfl
        | cons b l =>
          exfalso
          unfold popFirst at hn
          split at hn
          · cases hn
          · split at hn <;> cases hn
      subst this; exact List.Perm.refl _
    · next b l1 hb =>
      have := popFirst_perm first hb
      split at h
      · cases h
        exact (this.cons a).trans (List.Perm.swap _ _ _)
      · cases h
        exact this.cons a

theorem popFirst_none {first : PItem → PItem → Bool} {l : List PItem}
    (h : popFirst first l = none) : l = [] := by
  cases l with
  | nil => rfl
  | cons b l =>
    unfold popFirst at h
    split at h
    · cases h
    · split at h <;> cases h

theorem prio_spec {vis : Nat → Bool} {nbrs : List Nat} (hn : ∀ y ∈ nbrs, y < P.N) :
    Ok (prio P vis nbrs) (fun _ => True) := by
  refine Ok.foldlM' (fun _ => True) trivial ?_
  intro y d hy _
  rw [if_pos (hn y hy)]
  exact Ok.pure trivial

/-- total degree of the unvisited variables -/
def slack (n : Nat) (vn : Nat → List Nat) (vis : Nat → Bool) : Nat :=
  ((List.range n).map (fun v => if vis v then 0 else (vn v).length)).sum

theorem slack_upd {vn : Nat → List Nat} {vis : Nat → Bool} {x : Nat} (hv : vis x = false) :
    ∀ n, slack n vn (upd vis x true) + (if x < n then (vn x).length else 0) = slack n vn vis := by
  intro n
  induction n with
  | zero => simp [slack]
  | succ n ih =>
    have e : ∀ f, slack (n+1) vn f = slack n vn f + (if f n then 0 else (vn n).length) := by
      intro f; simp [slack, List.range_succ]
    rw [e, e, ← ih]
    by_cases hx : x = n
    · subst hx
      simp [hv]
    · have hx' : n ≠ x := fun h => hx h.symm
      rw [upd_ne _ _ hx']
      by_cases hlt : x < n
      · have h1 : x < n + 1 := by omega
        rw [if_pos hlt, if_pos h1]; omega
      · have h1 : ¬ x < n + 1 := by omega
        rw [if_neg hlt, if_neg h1]; omega

theorem slack_le (n : Nat) (vn : Nat → List Nat) (vis : Nat → Bool) :
    slack n vn vis ≤ ((List.range n).map (fun v => (vn v).length)).sum := by
  induction n with
  | zero => simp [slack]
  | succ n ih =>
    simp only [slack, List.range_succ, List.map_append, List.sum_append] at ih ⊢
    simp only [List.map_cons, List.map_nil, List.sum_cons, List.sum_nil]
    split <;> omega

theorem pfsLoop_spec {first : PItem → PItem → Bool} {vn : Nat → List Nat} (hn : NbrOK P vn)
    {sh : List Nat} (hsh : sh.length = P.nv) (fuel : Nat) :
    ∀ {vis : Nat → Bool} {comp : List Nat} {pq : List PItem}, OInv P vis comp →
    pq.length + slack P.nv vn vis < fuel →
    Ok (pfsLoop P first vn sh fuel vis comp pq) (fun r => OInv P r.1 r.2 ∧
      (∀ v, vis v = true → r.1 v = true) ∧ ∀ z ∈ pq, r.1 z.node = true) := by
  induction fuel with
  | zero => intro _ _ _ _ hf; omega
  | succ fuel ih =>
    intro vis comp pq h hf
    unfold pfsLoop
    split
    · next hp =>
      rw [popFirst_none hp]
      exact Ok.pure ⟨h, fun _ h => h, by simp⟩
    · next z pq1 hp =>
      have hperm := popFirst_perm first hp
      have hlen := hperm.length_eq
      simp at hlen
      split
      · next hv =>
        refine (ih (pq := pq1) h (by omega)).mono ?_
        rintro r ⟨h1, h2, h3⟩
        refine ⟨h1, h2, ?_⟩
        intro y hy
        rcases List.mem_cons.1 (hperm.mem_iff.1 hy) with rfl | hy
        · exact h2 _ hv
        · exact h3 y hy
      · next hv =>
        have hv : vis z.node = false := by simpa using hv
        have hz := h.lt hv
        have hadd := h.add hv
        dsimp only
        have hs := slack_upd (vn := vn) hv P.nv
        rw [if_pos hz] at hs
        refine Ok.bind (P := fun pq2 => pq1 ⊆ pq2 ∧ pq2.length ≤ pq1.length + (vn z.node).length) ?_ ?_
        · refine (Ok.foldlM (fun done (pq2 : List PItem) => pq1 ⊆ pq2 ∧
            pq2.length ≤ pq1.length + done.length) ⟨by simp, by simp⟩ ?_)
          rintro done y pq2 hy _ ⟨i1, i2⟩
          rw [if_pos (hn _ hz y hy)]
          split
          · exact Ok.pure ⟨i1, by simp; omega⟩
          · next hvy =>
            have hy' : y < P.nv := hadd.lt (by simpa using hvy)
            rw [List.getElem?_eq_getElem (by omega)]
            dsimp only
            refine Ok.bind (prio_spec (hn y hy')) ?_
            intro d _
            exact Ok.pure ⟨fun a ha => List.mem_cons_of_mem _ (i1 ha), by simp; omega⟩
        · rintro pq2 ⟨i1, i2⟩
          refine (ih (pq := pq2) hadd (by omega)).mono ?_
          rintro r ⟨h1, h2, h3⟩
          refine ⟨h1, ?_, ?_⟩
          · intro v hv'
            apply h2
            by_cases hvz : v = z.node
            · subst hvz; simp
            · simp [hvz, hv']
          · intro y hy
            rcases List.mem_cons.1 (hperm.mem_iff.1 hy) with rfl | hy
            · exact h2 _ (by simp)
            · exact h3 y (i1 hy)

theorem bfsLoop_spec {vn : Nat → List Nat} (hn : NbrOK P vn)
    {sh : List Nat} (hsh : sh.length = P.nv) (fuel : Nat) :
    ∀ {vis : Nat → Bool} {comp : List Nat} {pq : List PItem},
    OInv P vis (comp ++ pq.map PItem.node) → P.nv < fuel + comp.length →
    Ok (bfsLoop P vn sh fuel vis comp pq) (fun r => OInv P r.1 r.2 ∧
      (∀ v, vis v = true → r.1 v = true)) := by
  induction fuel with
  | zero =>
    intro vis comp pq h hf
    have := h.length
    simp at this
    omega
  | succ fuel ih =>
    intro vis comp pq h hf
    unfold bfsLoop
    split
    · next hp =>
      rw [popFirst_none hp] at h
      exact Ok.pure ⟨by simpa using h, fun _ h => h⟩
    · next z pq1 hp =>
      have hperm := popFirst_perm minFirst hp
      have h' : OInv P vis ((comp ++ [z.node]) ++ pq1.map PItem.node) := by
        refine h.perm ?_
        rw [List.append_assoc]
        exact (hperm.map PItem.node).append_left comp
      have hz : z.node < P.nv := ((h'.mem z.node).1 (by simp)).1
      refine Ok.bind (Ok.foldlM' (fun (r : (Nat → Bool) × List PItem) =>
        OInv P r.1 ((comp ++ [z.node]) ++ r.2.map PItem.node) ∧
        ∀ v, vis v = true → r.1 v = true) ⟨h', fun _ h => h⟩ ?_) ?_
      · rintro y ⟨vis1, pq2⟩ hy ⟨i1, i2⟩
        dsimp only at *
        rw [if_pos (hn _ hz y hy)]
        split
        · exact Ok.pure ⟨i1, i2⟩
        · next hvy =>
          have hvy : vis1 y = false := by simpa using hvy
          have hy' := i1.lt hvy
          rw [List.getElem?_eq_getElem (by omega)]
          refine Ok.pure ⟨?_, ?_⟩
          · refine (i1.add hvy).perm ?_
            simp only [List.map_cons, List.append_assoc]
            refine List.Perm.append_left _ (List.Perm.append_left _ ?_)
            exact List.perm_append_comm
          · intro v hv
            by_cases h : v = y
            · subst h; simp
            · simp [h, i2 v hv]
      · rintro ⟨vis1, pq2⟩ ⟨i1, i2⟩
        dsimp only at *
        refine (ih i1 (by simp; omega)).mono ?_
        rintro r ⟨h1, h2⟩
        exact ⟨h1, fun v hv => h2 v (i2 v hv)⟩

theorem component_spec {o : VarOrder} {vn : Nat → List Nat} (hn : NbrOK P vn)
    {sh : List Nat} (hsh : sh.length = P.nv) {v : Nat} {vis : Nat → Bool} {comp : List Nat} {t : Tape}
    (h : OInv P vis comp) (hv : vis v = false) :
    Ok (component P o vn sh v vis comp t) (fun r => OInv P r.1 r.2.1 ∧
      (∀ x, vis x = true → r.1 x = true) ∧ r.1 v = true) := by
  have hlt := h.lt hv
  have hup : ∀ x, vis x = true → upd vis v true x = true := by
    intro x hx
    by_cases hxv : x = v
    · subst hxv; simp
    · simp [hxv, hx]
  have hpfs : ∀ first s, Ok (pfsLoop P first vn sh (edges P vn + 2) vis comp [⟨v, s, 0⟩])
      (fun r => OInv P r.1 r.2 ∧ (∀ x, vis x = true → r.1 x = true) ∧ r.1 v = true) := by
    intro first s
    refine (pfsLoop_spec hn hsh _ h ?_).mono (fun r h => ⟨h.1, h.2.1, ?_⟩)
    · have := slack_le P.nv vn vis
      simp [edges]; omega
    · exact h.2.2 ⟨v, s, 0⟩ (by simp)
  have hdfs : Ok (dfsLoop P vn P.nv (upd vis v true) comp [v] t) (fun r => OInv P r.1 r.2.1 ∧
      (∀ x, vis x = true → r.1 x = true) ∧ r.1 v = true) := by
    refine (dfsLoop_spec hn P.nv (h.add hv) (by omega)).mono ?_
    rintro r ⟨h1, h2⟩
    exact ⟨h1, fun x hx => h2 x (hup x hx), h2 v (by simp)⟩
  unfold component
  rw [List.getElem?_eq_getElem (by omega)]
  cases o with
  | pfs =>
    refine Ok.bind (hpfs minFirst _) ?_
    rintro ⟨a, b⟩ h; exact Ok.pure h
  | rpfs =>
    refine Ok.bind (hpfs maxFirst _) ?_
    rintro ⟨a, b⟩ h; exact Ok.pure h
  | bfs =>
    refine Ok.bind (bfsLoop_spec hn hsh (P.nv + 1) (pq := [⟨v, _, 0⟩]) (h.add hv) (by omega)) ?_
    rintro ⟨a, b⟩ ⟨h1, h2⟩
    exact Ok.pure ⟨h1, fun x hx => h2 x (hup x hx), h2 v (by simp)⟩
  | dfs => exact hdfs
  | shuffle => exact hdfs
  | keep => exact hdfs

end Order

theorem varOrder_spec {P : Prob} {o : VarOrder} {vn : Nat → List Nat} {old : List Nat} {t : Tape}
    (hn : Order.NbrOK P vn) :
    Ok (varOrder P o vn old t) (fun r => (o ≠ .keep → r.1.Perm (List.range P.nv)) ∧
      (o = .keep → r.1 = old)) := by
  have hp : (permT (List.range P.nv).reverse t).1.Perm (List.range P.nv) :=
    (permT_perm _ t).trans (List.reverse_perm _)
  have gen : ∀ o', Ok (do
      let (sh, t) := permT (List.range P.nv).reverse t
      let (_, comp, t) ← sh.foldlM (init := ((fun v => decide (P.nv ≤ v) : Nat → Bool), ([] : List Nat), t))
        fun (vis, comp, t) v =>
          if vis v then .ok (vis, comp, t) else Order.component P o' vn sh v vis comp t
      (.ok (comp, t) : M (List Nat × Tape))) (fun r => r.1.Perm (List.range P.nv)) := by
    intro o'
    generalize permT (List.range P.nv).reverse t = r at hp ⊢
    obtain ⟨sh, t1⟩ := r
    dsimp only at *
    have hlen : sh.length = P.nv := by rw [hp.length_eq]; simp
    refine Ok.bind (Ok.foldlM (fun done (r : (Nat → Bool) × List Nat × Tape) =>
      Order.OInv P r.1 r.2.1 ∧ ∀ v ∈ done, r.1 v = true) ⟨?_, by simp⟩ ?_) ?_
    · refine ⟨by simp, ?_, ?_⟩
      · intro v; simp
      · intro v hv; simpa using hv
    · rintro done v ⟨vis, comp, t2⟩ hv _ ⟨i1, i2⟩
      dsimp only at *
      split
      · next hvv =>
        refine Ok.pure ⟨i1, ?_⟩
        intro x hx
        rcases List.mem_append.1 hx with h | h
        · exact i2 x h
        · rw [List.mem_singleton.1 h]; exact hvv
      · next hvv =>
        refine (Order.component_spec hn hlen i1 (by simpa using hvv)).mono ?_
        rintro r ⟨h1, h2, h3⟩
        refine ⟨h1, ?_⟩
        intro x hx
        rcases List.mem_append.1 hx with h | h
        · exact h2 x (i2 x h)
        · rw [List.mem_singleton.1 h]; exact h3
    · rintro ⟨vis, comp, t2⟩ ⟨i1, i2⟩
      refine Ok.pure ?_
      refine (List.perm_ext_iff_of_nodup i1.nodup List.nodup_range).2 ?_
      intro v
      rw [i1.mem, List.mem_range]
      constructor
      · exact fun h => h.1
      · intro h
        exact ⟨h, i2 v (hp.mem_iff.2 (List.mem_range.2 h))⟩
  unfold varOrder
  cases o with
  | keep => exact Ok.pure ⟨by simp, fun _ => rfl⟩
  | shuffle => exact Ok.pure ⟨fun _ => hp, by simp⟩
  | dfs => exact (gen .dfs).mono (fun r h => ⟨fun _ => h, by simp⟩)
  | bfs => exact (gen .bfs).mono (fun r h => ⟨fun _ => h, by simp⟩)
  | pfs => exact (gen .pfs).mono (fun r h => ⟨fun _ => h, by simp⟩)
  | rpfs => exact (gen .rpfs).mono (fun r h => ⟨fun _ => h, by simp⟩)

end MM
