import Verif.Cache.DiskInv

/-! Many calls on the same directory. -/

namespace MM
namespace Disk

open Cache

variable {C I V : Type} [DecidableEq C] [DecidableEq I]

/-- The schedules for which the cache is safe: no call takes the locks while another one has released them and not yet renamed its files, and no process is killed in a call that has removed a file. -/
def Quiet (s : Sys C I V) : Event → Prop
  | .step i => (∃ k, s.prog i = .op .acquire k) → ∀ j a b k, s.prog j ≠ .op (.replace a b) k
  | .crash i => s.evicted i = true → ∀ o k, s.prog i ≠ .op o k

/-- All events of a schedule are of this kind. -/
def AllQuiet (s : Sys C I V) : List Event → Prop
  | [] => True
  | e :: es => Quiet s e ∧ AllQuiet (s.event e) es

section
variable (limit : Nat) (P : C → I → V → Prop) (rs : Nat → Req C I V)

/-- A call that has not begun, or has ended as it should. -/
def Rest (s : Sys C I V) (i : Nat) : Prop :=
  (s.prog i = fetch limit (rs i) ∧ s.evicted i = false) ∨ (∃ v, s.prog i = .ret v ∧ P (rs i).code (rs i).id v) ∨ (s.prog i = .raise .compute ∧ (rs i).compute = none) ∨ s.prog i = .raise .killed

/-- Call `a` is under way. -/
def Active (s : Sys C I V) (a : Nat) : Prop :=
  ∃ held, Good limit P (rs a) held (s.evicted a) (s.prog a) s.dir ∧ s.holder = (if held then some a else none) ∧ (held = true → ∃ o k, s.prog a = .op o k) ∧ (held = false → ∃ x y k, s.prog a = .op (.replace x y) k)

/-- At most one call is under way. -/
def SysInv (s : Sys C I V) : Prop :=
  (s.holder = none ∧ Sound limit P s.dir ∧ ∀ i, Rest limit P rs s i) ∨ ∃ a, Active limit P rs s a ∧ ∀ i, i ≠ a → Rest limit P rs s i

variable {limit P rs}

theorem rest_other {s s' : Sys C I V} {i : Nat} (hp : s'.prog i = s.prog i) (he : s'.evicted i = s.evicted i) (h : Rest limit P rs s i) : Rest limit P rs s' i := by
  simpa only [Rest, hp, he] using h

theorem good_ended {held b : Bool} {r : Req C I V} {p : Prog C I V} {d : Dir C I V} (h : Good limit P r held b p d) : (∃ o k, p = .op o k) ∨ (held = false ∧ Sound limit P d ∧ ((∃ v, p = .ret v ∧ P r.code r.id v) ∨ (p = .raise .compute ∧ r.compute = none))) := by
  cases p with
  | ret v => exact .inr ⟨h.1, h.2.2, .inl ⟨v, rfl, h.2.1⟩⟩
  | raise e => obtain ⟨h1, ⟨h2, h3⟩, h4⟩ := h; subst h2; exact .inr ⟨h1, h4, .inr ⟨rfl, h3⟩⟩
  | op o k => exact .inl ⟨o, k, rfl⟩

/-- After an operation of the call that is under way: it goes on or has ended. -/
theorem inv_of_good {s : Sys C I V} {a : Nat} {held : Bool} (hg : Good limit P (rs a) held (s.evicted a) (s.prog a) s.dir) (hh : s.holder = if held then some a else none)
    (ho : held = false → ∀ o k, s.prog a = .op o k → ∃ x y, o = .replace x y) (hr : ∀ i, i ≠ a → Rest limit P rs s i) : SysInv limit P rs s := by
  rcases good_ended hg with ⟨o, k, hp⟩ | ⟨h1, h2, h3⟩
  · refine .inr ⟨a, ⟨held, hg, hh, fun _ => ⟨o, k, hp⟩, fun h => ?_⟩, hr⟩
    obtain ⟨x, y, rfl⟩ := ho h o k hp
    exact ⟨x, y, k, hp⟩
  · subst h1
    refine .inl ⟨hh, h2, fun i => ?_⟩
    by_cases hi : i = a
    · subst hi
      rcases h3 with h3 | h3
      · exact .inr (.inl h3)
      · exact .inr (.inr (.inl h3))
    · exact hr i hi

theorem good_closing {b : Bool} {r : Req C I V} {p : Prog C I V} {d : Dir C I V} (h : Good limit P r false b p d) (o : Op C I V) (k : Ans C I V → Prog C I V) (hp : p = .op o k) : ∃ x y, o = .replace x y := by
  subst hp
  cases o with
  | replace x y => exact ⟨x, y, rfl⟩
  | acquire => exact h.elim
  | _ => exact absurd h.1 (by simp)

theorem Active.replaces {s : Sys C I V} {a : Nat} (h : Active limit P rs s a) (h0 : s.holder = none) : ∃ x y k, s.prog a = .op (.replace x y) k := by
  obtain ⟨held, _, hh, _, h4⟩ := h
  cases held with
  | true => rw [h0] at hh; cases hh
  | false => exact h4 rfl

theorem Rest.sound_step {s : Sys C I V} {i : Nat} (h : Rest limit P rs s i) (hne : s.holder ≠ none) : s.event (.step i) = s := by
  simp only [Sys.event]
  rcases h with ⟨h, _⟩ | ⟨v, h, _⟩ | ⟨h, _⟩ | h <;> rw [h]
  · exact if_neg hne

theorem event_inv (hlim : 0 < limit) (hP : ∀ i v, (rs i).compute = some v → P (rs i).code (rs i).id v) {s : Sys C I V} (h : SysInv limit P rs s) {e : Event} (hq : Quiet s e) : SysInv limit P rs (s.event e) := by
  cases e with
  | crash i =>
    cases hp : s.prog i with
    | ret v => simpa only [Sys.event, hp] using h
    | raise e => simpa only [Sys.event, hp] using h
    | op o k =>
      have hev : s.evicted i = false := by
        cases he : s.evicted i with
        | false => rfl
        | true => exact absurd hp (hq he o k)
      have e1 : s.event (.crash i) = { s.go i (.raise .killed) with holder := if s.holder = some i then none else s.holder } := by simp only [Sys.event, hp]
      have hother : ∀ j, j ≠ i → (s.event (.crash i)).prog j = s.prog j := fun j hj => by rw [e1]; simp [Sys.go, hj]
      have hself : (s.event (.crash i)).prog i = .raise .killed := by rw [e1]; simp [Sys.go]
      have hevs : ∀ j, (s.event (.crash i)).evicted j = s.evicted j := fun j => by rw [e1]; rfl
      have hdir : (s.event (.crash i)).dir = s.dir := by rw [e1]; rfl
      rcases h with ⟨h1, h2, h3⟩ | ⟨a, ha, hr⟩
      · refine .inl ⟨by rw [e1]; simp [h1], by rw [hdir]; exact h2, fun j => ?_⟩
        by_cases hj : j = i
        · subst hj; exact .inr (.inr (.inr hself))
        · exact rest_other (hother j hj) (hevs j) (h3 j)
      · by_cases hia : i = a
        · subst hia
          obtain ⟨held, hg, hh, _, _⟩ := ha
          have hs : Sound limit P s.dir := by
            rw [hp, hev] at hg
            cases o with
            | acquire => exact hg.elim
            | _ => exact hg.2.1 rfl
          refine .inl ⟨?_, by rw [hdir]; exact hs, fun j => ?_⟩
          · rw [e1]
            cases held <;> simp [hh]
          · by_cases hj : j = i
            · subst hj; exact .inr (.inr (.inr hself))
            · exact rest_other (hother j hj) (hevs j) (hr j hj)
        · refine .inr ⟨a, ?_, fun j hj => ?_⟩
          · obtain ⟨held, hg, hh, h5, h6⟩ := ha
            have hpa := hother a (fun e => hia e.symm)
            refine ⟨held, by rw [hpa, hevs, hdir]; exact hg, ?_, by rw [hpa]; exact h5, by rw [hpa]; exact h6⟩
            rw [e1]
            show (if s.holder = some i then none else s.holder) = _
            rw [if_neg, hh]
            rw [hh]
            cases held <;> simp
            exact fun e => hia e.symm
          · by_cases hji : j = i
            · subst hji; exact .inr (.inr (.inr hself))
            · exact rest_other (hother j hji) (hevs j) (hr j hj)
  | step i =>
    rcases h with ⟨h1, h2, h3⟩ | ⟨a, ha, hr⟩
    · rcases h3 i with ⟨hf, hev⟩ | ⟨v, hf, _⟩ | ⟨hf, _⟩ | hf
      · obtain ⟨k, hk, hg⟩ := good_body (r := rs i) hlim (hP i) h2
        have e1 : s.event (.step i) = { s.go i (k .ok) with holder := some i } := by
          rw [hk] at hf
          simp only [Sys.event, hf, h1]; rfl
        rw [e1]
        refine inv_of_good (a := i) (held := true) ?_ rfl (fun h => (by cases h)) ?_
        · simp only [Sys.go, if_true]; rw [hev]; exact hg
        · intro j hj; exact rest_other (s := s) (by simp [Sys.go, hj]) rfl (h3 j)
      all_goals
        have : s.event (.step i) = s := by simp only [Sys.event, hf]
        rw [this]; exact .inl ⟨h1, h2, h3⟩
    · by_cases hia : i = a
      · subst hia
        obtain ⟨held, hg, hh, h5, h6⟩ := ha
        cases hp : s.prog i with
        | ret v => have : s.event (.step i) = s := by simp only [Sys.event, hp]
                   rw [this]; exact .inr ⟨i, ⟨held, hg, hh, h5, h6⟩, hr⟩
        | raise e => have : s.event (.step i) = s := by simp only [Sys.event, hp]
                     rw [this]; exact .inr ⟨i, ⟨held, hg, hh, h5, h6⟩, hr⟩
        | op o k =>
          rw [hp] at hg
          cases o with
          | acquire => exact hg.elim
          | release =>
            have e1 : s.event (.step i) = { s.go i (k .ok) with holder := none } := by simp only [Sys.event, hp]
            rw [e1]
            have hg' : Good limit P (rs i) false (s.evicted i) (k .ok) s.dir := hg.2.2
            refine inv_of_good (a := i) (held := false) ?_ rfl ?_ ?_
            · simp only [Sys.go, if_true]; exact hg'
            · simp only [Sys.go, if_true]; intro _ o k hk; exact good_closing hg' o k hk
            · intro j hj; exact rest_other (s := s) (by simp [Sys.go, hj]) rfl (hr j hj)
          | replace x y =>
            have e1 : s.event (.step i) = s.doOp i (.replace x y) k := by simp only [Sys.event, hp]
            rw [e1]
            obtain ⟨hf, _, hg'⟩ := hg
            subst hf
            refine inv_of_good (a := i) (held := false) ?_ hh ?_ ?_
            · simp only [Sys.doOp, Sys.go, if_true]; exact hg'
            · simp only [Sys.doOp, Sys.go, if_true]; intro _ o k hk; exact good_closing hg' o k hk
            · intro j hj; exact rest_other (s := s) (by simp [Sys.doOp, Sys.go, hj]) rfl (hr j hj)
          | remove n =>
            have e1 : s.event (.step i) = { s.doOp i (.remove n) k with evicted := fun j => decide (j = i) || s.evicted j } := by simp only [Sys.event, hp]
            rw [e1]
            obtain ⟨hf, _, hg'⟩ := hg
            subst hf
            refine inv_of_good (a := i) (held := true) ?_ hh (fun h => (by cases h)) ?_
            · simp only [Sys.doOp, Sys.go, if_true, decide_true, Bool.true_or]; exact hg'
            · intro j hj; exact rest_other (s := s) (by simp [Sys.doOp, Sys.go, hj]) (by simp [hj]) (hr j hj)
          | load n =>
            have e1 : s.event (.step i) = s.doOp i (.load n) k := by simp only [Sys.event, hp]
            rw [e1]
            obtain ⟨hf, _, hg'⟩ := hg
            subst hf
            refine inv_of_good (a := i) (held := true) ?_ hh (fun h => (by cases h)) ?_
            · simp only [Sys.doOp, Sys.go, if_true]; exact hg'
            · intro j hj; exact rest_other (s := s) (by simp [Sys.doOp, Sys.go, hj]) rfl (hr j hj)
          | openW n =>
            have e1 : s.event (.step i) = s.doOp i (.openW n) k := by simp only [Sys.event, hp]
            rw [e1]
            obtain ⟨hf, _, hg'⟩ := hg
            subst hf
            refine inv_of_good (a := i) (held := true) ?_ hh (fun h => (by cases h)) ?_
            · simp only [Sys.doOp, Sys.go, if_true]; exact hg'
            · intro j hj; exact rest_other (s := s) (by simp [Sys.doOp, Sys.go, hj]) rfl (hr j hj)
          | write n x =>
            have e1 : s.event (.step i) = s.doOp i (.write n x) k := by simp only [Sys.event, hp]
            rw [e1]
            obtain ⟨hf, _, hg'⟩ := hg
            subst hf
            refine inv_of_good (a := i) (held := true) ?_ hh (fun h => (by cases h)) ?_
            · simp only [Sys.doOp, Sys.go, if_true]; exact hg'
            · intro j hj; exact rest_other (s := s) (by simp [Sys.doOp, Sys.go, hj]) rfl (hr j hj)
      · have hstay : s.event (.step i) = s := by
          by_cases hh : s.holder = none
          · rcases hr i hia with ⟨hf, _⟩ | ⟨v, hf, _⟩ | ⟨hf, _⟩ | hf
            · obtain ⟨x, y, k, hrep⟩ := ha.replaces hh
              exact absurd hrep (hq ⟨_, hf⟩ a x y k)
            all_goals simp only [Sys.event, hf]
          · exact (hr i hia).sound_step hh
        rw [hstay]
        exact .inr ⟨a, ha, hr⟩

theorem events_inv (hlim : 0 < limit) (hP : ∀ i v, (rs i).compute = some v → P (rs i).code (rs i).id v) {es : List Event} : ∀ {s : Sys C I V}, SysInv limit P rs s → AllQuiet s es → SysInv limit P rs (es.foldl Sys.event s) := by
  induction es with
  | nil => intro s h _; exact h
  | cons e es ih => intro s h hq; exact ih (event_inv hlim hP h hq.1) hq.2

end

end Disk
end MM
