import Verif.Core.Basic
import Mathlib.Algebra.BigOperators.Group.List.Basic

/-! Model of how `pathfinder_parallel` hands out work
(include/find_embedding/pathfinder.hpp:755-856). -/

namespace MM
namespace Par

/-! ### handing out the neighbours -/

/-- Where a worker is in `run_in_thread` (pathfinder.hpp:764-787). -/
inductive PC where
  /-- before `get_job.lock()` -/
  | want
  /-- holding the lock, in the inner `while` loop -/
  | scan
  /-- still holding the lock, after the inner loop: `v`, or `none` for `-1` -/
  | got (v : Option Nat)
  /-- without the lock, computing distances from the chain of `v` -/
  | work (v : Nat)
  /-- returned -/
  | done
  deriving DecidableEq, Repr

/-- Shared state: `nbr_i`, `neighbors_embedded`, the holder of `get_job`, the workers, and
the neighbours whose distances have been computed, each with its worker. -/
structure Jobs where
  nbr : Nat
  emb : Nat
  lock : Option Nat
  pc : Nat → PC
  log : List (Nat × Nat)

/-- Before the threads start (pathfinder.hpp:838-841). -/
def Jobs.init : Jobs := ⟨0, 0, none, fun _ => .want, []⟩

/-- One step of worker `i`; `vn` is `var_neighbors(u)` and `has v` is
`emb.chainsize(v) != 0`. A worker that waits for the lock has no step. -/
inductive Step (vn : List Nat) (has : Nat → Bool) (i : Nat) : Jobs → Jobs → Prop
  /-- `get_job.lock()` -/
  | lock {J} : J.pc i = .want → J.lock = none → Step vn has i J { J with lock := some i, pc := upd J.pc i .scan }
  /-- an embedded neighbour is found -/
  | take {J v} : J.pc i = .scan → vn[J.nbr]? = some v → has v = true →
      Step vn has i J { J with nbr := J.nbr + 1, emb := J.emb + 1, pc := upd J.pc i (.got (some v)) }
  /-- a neighbour without a chain is skipped -/
  | skip {J v} : J.pc i = .scan → vn[J.nbr]? = some v → has v = false →
      Step vn has i J { J with nbr := J.nbr + 1 }
  /-- no neighbour is left -/
  | none {J} : J.pc i = .scan → vn[J.nbr]? = none → Step vn has i J { J with pc := upd J.pc i (.got none) }
  /-- `get_job.unlock()` with a job -/
  | start {J v} : J.pc i = .got (some v) → Step vn has i J { J with lock := .none, pc := upd J.pc i (.work v) }
  /-- `get_job.unlock()` and `break` -/
  | stop {J} : J.pc i = .got .none → Step vn has i J { J with lock := .none, pc := upd J.pc i .done }
  /-- the distances from `v` are computed -/
  | finish {J v} : J.pc i = .work v → Step vn has i J { J with pc := upd J.pc i .want, log := J.log ++ [(v, i)] }

/-- States reached with `k` workers under some schedule. -/
inductive Reached (vn : List Nat) (has : Nat → Bool) (k : Nat) : Jobs → Prop
  | init : Reached vn has k Jobs.init
  | step {J J' i} : Reached vn has k J → i < k → Step vn has i J J' → Reached vn has k J'

/-- The neighbour a worker holds. -/
def PC.held : PC → List Nat
  | .got (some v) => [v]
  | .work v => [v]
  | _ => []

/-- The neighbours held by the first `k` workers. -/
def heldBy (k : Nat) (pc : Nat → PC) : List Nat := (List.range k).flatMap fun i => (pc i).held

theorem heldBy_upd {k i : Nat} (pc : Nat → PC) (c : PC) (hi : i < k) :
    (heldBy k (upd pc i c) ++ (pc i).held).Perm (heldBy k pc ++ c.held) := by
  induction k with
  | zero => omega
  | succ k ih =>
    unfold heldBy at *
    rw [List.range_succ, List.flatMap_append, List.flatMap_append]
    simp only [List.flatMap_cons, List.flatMap_nil, List.append_nil]
    by_cases hik : i = k
    · subst hik
      rw [upd_same]
      have : (List.range i).flatMap (fun j => (upd pc i c j).held) = (List.range i).flatMap fun j => (pc j).held := by
        apply List.flatMap_congr
        intro j hj
        have : j ≠ i := by have := List.mem_range.1 hj; omega
        rw [upd_ne _ _ this]
      rw [this]
      rw [List.perm_iff_count]
      intro a
      simp only [List.count_append]
      omega
    · have hki : k ≠ i := fun h => hik h.symm
      rw [upd_ne _ _ hki]
      have := ih (by omega)
      rw [List.perm_iff_count] at *
      intro a
      have := this a
      simp only [List.count_append] at *
      omega

structure Inv (vn : List Nat) (has : Nat → Bool) (k : Nat) (J : Jobs) : Prop where
  lock : ∀ i, J.lock = some i ↔ J.pc i = .scan ∨ ∃ o, J.pc i = .got o
  idle : ∀ i, k ≤ i → J.pc i = .want
  nbr : J.nbr ≤ vn.length
  emb : J.emb = ((vn.take J.nbr).filter has).length
  given : (J.log.map Prod.fst ++ heldBy k J.pc).Perm ((vn.take J.nbr).filter has)
  fin : ∀ i, (J.pc i = .got none ∨ J.pc i = .done) → J.nbr = vn.length
  who : ∀ x ∈ J.log, x.2 < k

variable {vn : List Nat} {has : Nat → Bool} {k : Nat}

theorem heldBy_init : heldBy k (fun _ => PC.want) = [] := by
  unfold heldBy; simp [PC.held]

/-- After a step of `i` that leaves what `i` holds as it is. -/
theorem held_same {pc : Nat → PC} {i : Nat} {c : PC} (hi : i < k) (h : c.held = (pc i).held) :
    (heldBy k (upd pc i c)).Perm (heldBy k pc) := by
  have := heldBy_upd pc c hi
  rw [h] at this
  exact (List.perm_append_right_iff _).1 this

theorem Inv.init : Inv vn has k Jobs.init :=
  ⟨by intro i; simp [Jobs.init], fun _ _ => rfl, Nat.zero_le _, by simp [Jobs.init], by simp [Jobs.init, heldBy_init],
    by intro i; simp [Jobs.init], by simp [Jobs.init]⟩

theorem take_succ_filter {n v : Nat} (h : vn[n]? = some v) :
    (vn.take (n+1)).filter has = (vn.take n).filter has ++ (if has v then [v] else []) := by
  rw [List.take_add_one, h, List.filter_append]
  cases hh : has v <;> simp [hh]

theorem Inv.step {J J' : Jobs} {i : Nat} (h : Inv vn has k J) (hi : i < k) (hs : Step vn has i J J') :
    Inv vn has k J' := by
  have key : ∀ (c : PC) (l : Option Nat), (∀ j, j ≠ i → (J.lock = some j ↔ l = some j)) →
      (l = some i ↔ c = .scan ∨ ∃ o, c = .got o) →
      ∀ j, l = some j ↔ upd J.pc i c j = .scan ∨ ∃ o, upd J.pc i c j = .got o := by
    intro c l h1 h2 j
    by_cases hj : j = i
    · subst hj; rw [upd_same]; exact h2
    · rw [upd_ne _ _ hj, ← h1 j hj]; exact h.lock j
  have idle : ∀ (c : PC) (j : Nat), k ≤ j → upd J.pc i c j = .want := by
    intro c j hj
    rw [upd_ne _ _ (by omega)]; exact h.idle j hj
  have own : J.pc i = .scan ∨ (∃ o, J.pc i = .got o) → J.lock = some i := (h.lock i).2
  cases hs with
  | lock hp hl =>
    refine ⟨key _ _ ?_ (by simp), idle _, h.nbr, h.emb, ?_, ?_, h.who⟩
    · intro j hj; rw [hl]; simp [hj.symm]
    · exact ((held_same hi (by rw [hp]; rfl)).append_left _).trans h.given
    · intro j hj
      dsimp only at hj
      by_cases hji : j = i
      · subst hji; simp at hj
      · rw [upd_ne _ _ hji] at hj; exact h.fin j hj
  | @take v hp hv hh =>
    have ho := own (Or.inl hp)
    have hlt : J.nbr < vn.length := (List.getElem?_eq_some_iff.1 hv).1
    have hg := heldBy_upd J.pc (.got (some v)) hi
    rw [hp] at hg
    refine ⟨?_, idle _, hlt, ?_, ?_, ?_, h.who⟩
    · refine key _ _ (fun j hj => Iff.rfl) ?_
      rw [ho]; simp
    · dsimp only
      rw [take_succ_filter hv, hh, if_pos rfl, List.length_append, ← h.emb]; rfl
    · dsimp only
      rw [take_succ_filter hv, hh, if_pos rfl]
      have := h.given
      simp only [PC.held, List.append_nil] at hg
      rw [List.perm_iff_count] at *
      intro a
      have h1 := this a
      have h2 := hg a
      simp only [List.count_append] at *
      omega
    · intro j hj
      dsimp only at hj
      by_cases hji : j = i
      · subst hji; simp at hj
      · rw [upd_ne _ _ hji] at hj
        have := h.fin j hj; omega
  | @skip v hp hv hh =>
    have hlt : J.nbr < vn.length := (List.getElem?_eq_some_iff.1 hv).1
    refine ⟨h.lock, h.idle, hlt, ?_, ?_, ?_, h.who⟩
    · dsimp only; rw [take_succ_filter hv, hh]; simpa using h.emb
    · dsimp only; rw [take_succ_filter hv, hh]; simpa using h.given
    · intro j hj
      have := h.fin j hj; omega
  | none hp hv =>
    have ho := own (Or.inl hp)
    refine ⟨?_, idle _, h.nbr, h.emb, ?_, ?_, h.who⟩
    · refine key _ _ (fun j hj => Iff.rfl) ?_
      rw [ho]; simp
    · exact ((held_same hi (by rw [hp]; rfl)).append_left _).trans h.given
    · intro j _
      have := List.getElem?_eq_none_iff.1 hv
      have := h.nbr
      dsimp only; omega
  | @start v hp =>
    have ho := own (Or.inr ⟨_, hp⟩)
    refine ⟨key _ _ ?_ (by simp), idle _, h.nbr, h.emb, ?_, ?_, h.who⟩
    · intro j hj; rw [ho]; simp [hj.symm]
    · exact ((held_same hi (by rw [hp]; rfl)).append_left _).trans h.given
    · intro j hj
      dsimp only at hj
      by_cases hji : j = i
      · subst hji; simp at hj
      · rw [upd_ne _ _ hji] at hj; exact h.fin j hj
  | stop hp =>
    have ho := own (Or.inr ⟨_, hp⟩)
    refine ⟨key _ _ ?_ (by simp), idle _, h.nbr, h.emb, ?_, ?_, h.who⟩
    · intro j hj; rw [ho]; simp [hj.symm]
    · exact ((held_same hi (by rw [hp]; rfl)).append_left _).trans h.given
    · intro j _
      exact h.fin i (Or.inl hp)
  | @finish v hp =>
    have hn : J.lock ≠ some i := by
      intro hc
      rcases (h.lock i).1 hc with k | ⟨o, k⟩ <;> rw [hp] at k <;> simp at k
    have hg := heldBy_upd J.pc .want hi
    rw [hp] at hg
    refine ⟨key _ _ (fun j hj => Iff.rfl) (by simp [hn]), idle _, h.nbr, h.emb, ?_, ?_, ?_⟩
    · dsimp only
      have := h.given
      simp only [PC.held, List.append_nil] at hg
      rw [List.perm_iff_count] at *
      intro a
      have h1 := this a
      have h2 := hg a
      simp only [List.count_append, List.map_append, List.map_cons, List.map_nil] at *
      omega
    · intro j hj
      dsimp only at hj
      by_cases hji : j = i
      · subst hji; simp at hj
      · rw [upd_ne _ _ hji] at hj; exact h.fin j hj
    · intro x hx
      rcases List.mem_append.1 hx with hx | hx
      · exact h.who x hx
      · rw [List.mem_singleton] at hx; subst hx; exact hi

theorem Reached.inv {J : Jobs} (h : Reached vn has k J) : Inv vn has k J := by
  induction h with
  | init => exact Inv.init
  | step _ hi hs ih => exact ih.step hi hs

/-! #### termination -/

/-- Steps a worker can make before another neighbour is handed out. -/
def PC.left : PC → Nat
  | .done => 0
  | .got none => 1
  | .scan => 2
  | .want => 3
  | .work _ => 4
  | .got (some _) => 5

def leftBy (k : Nat) (pc : Nat → PC) : Nat := ((List.range k).map fun i => (pc i).left).sum

/-- Decreases with every step. -/
def Jobs.measure (vn : List Nat) (k : Nat) (J : Jobs) : Nat := 5 * (vn.length - J.nbr) + leftBy k J.pc

theorem leftBy_upd {i : Nat} (pc : Nat → PC) (c : PC) (hi : i < k) :
    leftBy k (upd pc i c) + (pc i).left = leftBy k pc + c.left := by
  induction k with
  | zero => omega
  | succ k ih =>
    unfold leftBy at *
    simp only [List.range_succ, List.map_append, List.map_cons, List.map_nil, List.sum_append, List.sum_cons,
      List.sum_nil]
    by_cases hik : i = k
    · subst hik
      rw [upd_same]
      have : (List.range i).map (fun j => (upd pc i c j).left) = (List.range i).map fun j => (pc j).left := by
        apply List.map_congr_left
        intro j hj
        have : j ≠ i := by have := List.mem_range.1 hj; omega
        rw [upd_ne _ _ this]
      rw [this]; omega
    · have hki : k ≠ i := fun h => hik h.symm
      rw [upd_ne _ _ hki]
      have := ih (by omega)
      omega

theorem Step.decreases {J J' : Jobs} {i : Nat} (hi : i < k) (hs : Step vn has i J J') :
    J'.measure vn k < J.measure vn k := by
  unfold Jobs.measure
  cases hs with
  | lock hp _ => have := leftBy_upd J.pc .scan hi; rw [hp] at this; simp only [PC.left] at this; dsimp only; omega
  | @take v hp hv _ =>
    have hlt : J.nbr < vn.length := (List.getElem?_eq_some_iff.1 hv).1
    have := leftBy_upd J.pc (.got (some v)) hi; rw [hp] at this; simp only [PC.left] at this; dsimp only; omega
  | skip _ hv _ =>
    have hlt : J.nbr < vn.length := (List.getElem?_eq_some_iff.1 hv).1
    dsimp only; omega
  | none hp _ => have := leftBy_upd J.pc (.got Option.none) hi; rw [hp] at this; simp only [PC.left] at this; dsimp only; omega
  | @start v hp => have := leftBy_upd J.pc (.work v) hi; rw [hp] at this; simp only [PC.left] at this; dsimp only; omega
  | stop hp => have := leftBy_upd J.pc .done hi; rw [hp] at this; simp only [PC.left] at this; dsimp only; omega
  | finish hp => have := leftBy_upd J.pc .want hi; rw [hp] at this; simp only [PC.left] at this; dsimp only; omega

/-- As long as some worker has not returned, some worker can make a step. -/
theorem Reached.progress {J : Jobs} (h : Reached vn has k J) {i : Nat} (hi : i < k) (hd : J.pc i ≠ .done) :
    ∃ j J', j < k ∧ Step vn has j J J' := by
  have hI := h.inv
  have busy : ∀ j, j < k → (J.pc j = .scan ∨ ∃ o, J.pc j = .got o) → ∃ j J', j < k ∧ Step vn has j J J' := by
    rintro j hj (hp | ⟨o, hp⟩)
    · cases hv : vn[J.nbr]? with
      | none => exact ⟨j, _, hj, .none hp hv⟩
      | some v =>
        cases hh : has v with
        | true => exact ⟨j, _, hj, .take hp hv hh⟩
        | false => exact ⟨j, _, hj, .skip hp hv hh⟩
    · cases o with
      | none => exact ⟨j, _, hj, .stop hp⟩
      | some v => exact ⟨j, _, hj, .start hp⟩
  cases hp : J.pc i with
  | done => exact absurd hp hd
  | work v => exact ⟨i, _, hi, .finish hp⟩
  | scan => exact busy i hi (Or.inl hp)
  | got o => exact busy i hi (Or.inr ⟨o, hp⟩)
  | want =>
    cases hl : J.lock with
    | none => exact ⟨i, _, hi, .lock hp hl⟩
    | some j =>
      have hj := (hI.lock j).1 hl
      have hjk : j < k := by
        by_contra hc
        have := hI.idle j (by omega)
        rcases hj with k | ⟨o, k⟩ <;> rw [this] at k <;> simp at k
      exact busy j hjk hj

/-! ### chunks -/

/-- The loop of `exec_chunked` and `exec_indexed` (pathfinder.hpp:789-817): `i` more workers,
`grainmod`, and the start of the next chunk. -/
def chunkLoop (grain : Nat) : Nat → Int → Nat → List (Nat × Nat)
  | 0, _, _ => []
  | i+1, m, a =>
    let b := a + grain + (if 0 < m then 1 else 0)
    (a, b) :: chunkLoop grain i (m - 1) b

/-- The index ranges given to `k` workers. -/
def chunks (n k : Nat) : List (Nat × Nat) := chunkLoop (n / k) k (n % k : Nat) 0

theorem chunkLoop_cover (g : Nat) : ∀ (i : Nat) (m : Nat) (a : Nat),
    (chunkLoop g i m a).flatMap (fun c => List.range' c.1 (c.2 - c.1)) = List.range' a (i * g + min i m) := by
  intro i
  induction i with
  | zero => intro m a; simp [chunkLoop]
  | succ i ih =>
    intro m a
    unfold chunkLoop
    dsimp only
    rw [List.flatMap_cons]
    cases m with
    | zero =>
      have neg : ∀ (i : Nat) (m : Int) (a : Nat), m ≤ 0 →
          (chunkLoop g i m a).flatMap (fun c => List.range' c.1 (c.2 - c.1)) = List.range' a (i * g) := by
        intro i
        induction i with
        | zero => intro m a _; simp [chunkLoop]
        | succ i ih =>
          intro m a hm
          unfold chunkLoop
          dsimp only
          rw [List.flatMap_cons, if_neg (by omega), ih _ _ (by omega)]
          rw [show a + g + 0 - a = g by omega, Nat.add_zero, List.range'_append_1, Nat.add_mul, Nat.one_mul]
          exact congrArg (List.range' a) (Nat.add_comm _ _)
      rw [if_neg (by simp), neg _ _ _ (by simp)]
      rw [show a + g + 0 - a = g by omega, Nat.add_zero, List.range'_append_1, Nat.add_mul, Nat.one_mul,
        Nat.min_zero, Nat.add_zero]
      exact congrArg (List.range' a) (Nat.add_comm _ _)
    | succ m =>
      rw [if_pos (by omega)]
      have : ((m + 1 : Nat) : Int) - 1 = (m : Nat) := by omega
      rw [this, ih]
      rw [show a + g + 1 - a = g + 1 by omega, show a + g + 1 = a + (g + 1) by omega, List.range'_append_1,
        Nat.add_mul, Nat.one_mul, Nat.add_min_add_right]
      congr 1; omega

theorem chunkLoop_length (g : Nat) : ∀ (i : Nat) (m : Int) (a : Nat), (chunkLoop g i m a).length = i
  | 0, _, _ => rfl
  | i+1, m, a => by unfold chunkLoop; simp [chunkLoop_length g i]

end Par
end MM
