import Verif.Graph.Comp
import Mathlib.Logic.Relation

/-! The union-find phase of `components` computes connectivity. -/

namespace MM
namespace UF

open Relation

/-- Invariant: `rep` gives the representative of each node. -/
structure Inv (n : Nat) (par rank rep : Nat → Nat) : Prop where
  lt : ∀ x, x < n → par x < n
  rlt : ∀ x, x < n → rep x < n
  root : ∀ x, x < n → par (rep x) = rep x
  up : ∀ x, x < n → rep (par x) = rep x
  fix : ∀ x, x < n → par x = x → rep x = x
  rk : ∀ x, x < n → par x ≠ x → rank x < rank (par x)
  bd : ∀ x, x < n → rank x + cnt (fun y => par y == y) n ≤ n

variable {n : Nat} {par rank rep : Nat → Nat}

theorem Inv.rank_lt (h : Inv n par rank rep) {x : Nat} (hx : x < n) : rank x < n := by
  have h1 := h.bd x hx
  have : 0 < cnt (fun y => par y == y) n := cnt_pos (h.rlt x hx) (by simp [h.root x hx])
  omega

theorem find_spec : ∀ (fuel : Nat) {par : Nat → Nat} {x : Nat}, Inv n par rank rep → x < n →
    n ≤ fuel + rank x → Ok (find n fuel par x) (fun r => Inv n r.1 rank rep ∧ r.2 = rep x ∧
      rank x ≤ rank (rep x) ∧ (par x ≠ x → rank x < rank (rep x)) ∧
      ∀ y, (r.1 y == y) = (par y == y)) := by
  intro fuel
  induction fuel with
  | zero =>
    intro par x h hx hf
    have := h.rank_lt hx
    omega
  | succ fuel ih =>
    intro par x h hx hf
    unfold find
    rw [if_pos hx]
    by_cases hp : par x = x
    · rw [if_neg (by simpa using hp)]
      have := h.fix x hx hp
      exact Ok.pure ⟨h, this.symm, by rw [this], fun h => absurd hp h, fun _ => rfl⟩
    · rw [if_pos hp]
      have hrk := h.rk x hx hp
      refine Ok.bind (ih h (h.lt x hx) (by omega)) ?_
      rintro ⟨par1, r⟩ ⟨h1, h2, h3, _, h5⟩
      dsimp only at *
      rw [h.up x hx] at h2 h3
      subst h2
      have hlt : rank x < rank (rep x) := by omega
      have hne : rep x ≠ x := by intro he; rw [he] at hlt; omega
      have hroots : ∀ y, (upd par1 x (rep x) y == y) = (par y == y) := by
        intro y
        by_cases hy : y = x
        · subst hy
          simp [hne, hp]
        · rw [upd_ne _ _ hy]; exact h5 y
      suffices hinv : Inv n (upd par1 x (rep x)) rank rep from
        Ok.pure ⟨hinv, rfl, by omega, fun _ => hlt, hroots⟩
      refine ⟨?_, h1.rlt, ?_, ?_, ?_, ?_, ?_⟩
      · intro y hy
        by_cases hyx : y = x
        · subst hyx; simp [h1.rlt y hy]
        · rw [upd_ne _ _ hyx]; exact h1.lt y hy
      · intro y hy
        by_cases hyx : rep y = x
        · have := h1.root y hy
          have h6 := h5 x
          rw [hyx] at this
          simp [this, hp] at h6
        · rw [upd_ne _ _ hyx]; exact h1.root y hy
      · intro y hy
        by_cases hyx : y = x
        · subst hyx
          rw [upd_same]
          exact h1.fix _ (h1.rlt y hy) (h1.root y hy)
        · rw [upd_ne _ _ hyx]; exact h1.up y hy
      · intro y hy
        by_cases hyx : y = x
        · subst hyx; rw [upd_same]; intro he; exact absurd he hne
        · rw [upd_ne _ _ hyx]; exact h1.fix y hy
      · intro y hy
        by_cases hyx : y = x
        · subst hyx; rw [upd_same]; intro _; exact hlt
        · rw [upd_ne _ _ hyx]; exact h1.rk y hy
      · intro y hy
        rw [cnt_congr (fun i _ => hroots i)]
        exact h.bd y hy

/-- Linking root `l` below root `w`. -/
theorem Inv.link (h : Inv n par rank rep) {l w : Nat} (hl : l < n) (hw : w < n) (hlw : l ≠ w)
    (rl : par l = l) (rw' : par w = w) {rank' : Nat → Nat}
    (hrank : ∀ x, x ≠ w → rank' x = rank x) (hge : rank w ≤ rank' w) (hle : rank' w ≤ rank w + 1)
    (hlt : rank l < rank' w) :
    Inv n (upd par l w) rank' (fun x => if rep x = l then w else rep x) := by
  have repl := h.fix l hl rl
  have repw := h.fix w hw rw'
  have hroots : cnt (fun y => upd par l w y == y) n + 1 = cnt (fun y => par y == y) n := by
    have := cnt_change (p := fun y => par y == y) (p' := fun y => upd par l w y == y) hl
      (by intro i hi; rw [upd_ne _ _ hi])
    have hwl : (w == l) = false := by simp [hlw.symm]
    simp [rl, hwl] at this
    omega
  refine ⟨?_, ?_, ?_, ?_, ?_, ?_, ?_⟩
  · intro x hx
    by_cases hxl : x = l
    · subst hxl; simpa using hw
    · rw [upd_ne _ _ hxl]; exact h.lt x hx
  · intro x hx
    split
    · exact hw
    · exact h.rlt x hx
  · intro x hx
    split
    · rw [upd_ne _ _ hlw.symm]; exact rw'
    · next hc => rw [upd_ne _ _ hc]; exact h.root x hx
  · intro x hx
    by_cases hxl : x = l
    · subst hxl
      simp [repl, repw, hlw.symm]
    · rw [upd_ne _ _ hxl, h.up x hx]
  · intro x hx
    by_cases hxl : x = l
    · subst hxl; rw [upd_same]; intro he; exact absurd he.symm hlw
    · rw [upd_ne _ _ hxl]
      intro hp
      have := h.fix x hx hp
      rw [this, if_neg hxl]
  · intro x hx
    by_cases hxl : x = l
    · subst hxl
      rw [upd_same, hrank x hlw]; intro _; exact hlt
    · rw [upd_ne _ _ hxl]
      intro hp
      have h1 := h.rk x hx hp
      have hxw : x ≠ w := by rintro rfl; exact hp rw'
      rw [hrank x hxw]
      by_cases hpw : par x = w
      · rw [hpw] at h1 ⊢; omega
      · rw [hrank _ hpw]; exact h1
  · intro x hx
    have h1 := h.bd x hx
    by_cases hxw : x = w
    · subst hxw; omega
    · rw [hrank x hxw]; omega

/-- The relation of the edges in `l`. -/
def EdgeIn (l : List (Nat × Nat)) (a b : Nat) : Prop := (a, b) ∈ l ∨ (b, a) ∈ l

/-- Invariant with the meaning of `rep`. -/
structure Good (n : Nat) (l : List (Nat × Nat)) (par rank rep : Nat → Nat) : Prop where
  inv : Inv n par rank rep
  conn : ∀ x y, x < n → y < n → (rep x = rep y ↔ ReflTransGen (EdgeIn l) x y)

theorem EdgeIn.symm {l : List (Nat × Nat)} {a b : Nat} (h : EdgeIn l a b) : EdgeIn l b a := Or.symm h

theorem conn_symm {l : List (Nat × Nat)} {a b : Nat} (h : ReflTransGen (EdgeIn l) a b) :
    ReflTransGen (EdgeIn l) b a := by
  induction h with
  | refl => exact ReflTransGen.refl
  | tail _ hbc ih => exact ReflTransGen.head hbc.symm ih

theorem conn_mono {l l' : List (Nat × Nat)} (hl : ∀ e ∈ l, e ∈ l') {a b : Nat}
    (h : ReflTransGen (EdgeIn l) a b) : ReflTransGen (EdgeIn l') a b := by
  induction h with
  | refl => exact ReflTransGen.refl
  | tail _ hbc ih => exact ih.tail (Or.imp (hl _) (hl _) hbc)

theorem Good.same {l : List (Nat × Nat)} (h : Good n l par rank rep) {e : Nat × Nat}
    (h1 : e.1 < n) (h2 : e.2 < n) (he : rep e.1 = rep e.2) {par' : Nat → Nat}
    (hi : Inv n par' rank rep) (hle : ∀ f ∈ l, f.1 < n ∧ f.2 < n) :
    Good n (l ++ [e]) par' rank rep := by
  refine ⟨hi, fun x y hx hy => ⟨fun hr => conn_mono (by intro f hf; simp [hf]) ((h.conn x y hx hy).1 hr), ?_⟩⟩
  intro hc
  induction hc with
  | refl => rfl
  | tail hab hbc ih =>
    next b c =>
    have hb : b < n := by
      rcases hbc with hm | hm <;> rcases List.mem_append.1 hm with hm | hm
      · exact (hle _ hm).1
      · simp at hm; subst hm; exact h1
      · exact (hle _ hm).2
      · simp at hm; subst hm; exact h2
    have hbc' : rep b = rep c := by
      rcases hbc with hm | hm <;> rcases List.mem_append.1 hm with hm | hm
      · exact (h.conn b c hb hy).2 (ReflTransGen.single (Or.inl hm))
      · simp at hm; subst hm; exact he
      · exact (h.conn b c hb hy).2 (ReflTransGen.single (Or.inr hm))
      · simp at hm; subst hm; exact he.symm
    rw [ih hb, hbc']

theorem Good.link {l : List (Nat × Nat)} (h : Good n l par rank rep) {e : Nat × Nat}
    (h1 : e.1 < n) (h2 : e.2 < n) (hle : ∀ f ∈ l, f.1 < n ∧ f.2 < n) {lo wi : Nat} (hlw : lo ≠ wi)
    (hcase : (lo = rep e.1 ∧ wi = rep e.2) ∨ (lo = rep e.2 ∧ wi = rep e.1)) {par' rank' : Nat → Nat}
    (hi : Inv n par' rank' (fun x => if rep x = lo then wi else rep x)) :
    Good n (l ++ [e]) par' rank' (fun x => if rep x = lo then wi else rep x) := by
  have hm : ∀ {a b}, a < n → b < n → rep a = rep b → ReflTransGen (EdgeIn (l ++ [e])) a b :=
    fun ha hb hr => conn_mono (by intro f hf; simp [hf]) ((h.conn _ _ ha hb).1 hr)
  have hee : ReflTransGen (EdgeIn (l ++ [e])) e.1 e.2 := ReflTransGen.single (Or.inl (by simp))
  -- crossing
  have hx : ∀ {x y}, x < n → y < n → rep x = lo → rep y = wi →
      ReflTransGen (EdgeIn (l ++ [e])) x y := by
    intro x y hx hy h3 h4
    rcases hcase with ⟨ha, hb⟩ | ⟨ha, hb⟩
    · exact ((hm hx h1 (h3.trans ha)).trans hee).trans (hm h2 hy (hb.symm.trans h4.symm))
    · exact ((hm hx h2 (h3.trans ha)).trans (conn_symm hee)).trans (hm h1 hy (hb.symm.trans h4.symm))
  have heq : (if rep e.1 = lo then wi else rep e.1) = (if rep e.2 = lo then wi else rep e.2) := by
    rcases hcase with ⟨ha, hb⟩ | ⟨ha, hb⟩
    · rw [if_pos ha.symm, if_neg (by rw [← hb]; exact hlw.symm), hb]
    · rw [if_pos (show rep e.2 = lo from ha.symm), if_neg (by rw [← hb]; exact hlw.symm), hb]
  refine ⟨hi, fun x y hxn hyn => ⟨fun hr => ?_, ?_⟩⟩
  · by_cases hxl : rep x = lo
    · rw [if_pos hxl] at hr
      by_cases hyl : rep y = lo
      · exact hm hxn hyn (hxl.trans hyl.symm)
      · rw [if_neg hyl] at hr
        exact hx hxn hyn hxl hr.symm
    · rw [if_neg hxl] at hr
      by_cases hyl : rep y = lo
      · rw [if_pos hyl] at hr
        exact conn_symm (hx hyn hxn hyl hr)
      · rw [if_neg hyl] at hr
        exact hm hxn hyn hr
  · intro hc
    induction hc with
    | refl => rfl
    | tail hab hbc ih =>
      next b c =>
      have hb : b < n := by
        rcases hbc with hm | hm <;> rcases List.mem_append.1 hm with hm | hm
        · exact (hle _ hm).1
        · simp at hm; subst hm; exact h1
        · exact (hle _ hm).2
        · simp at hm; subst hm; exact h2
      rw [ih hb]
      rcases hbc with hm | hm <;> rcases List.mem_append.1 hm with hm | hm
      · rw [(h.conn b c hb hyn).2 (ReflTransGen.single (Or.inl hm))]
      · simp at hm; subst hm; exact heq
      · rw [(h.conn b c hb hyn).2 (ReflTransGen.single (Or.inr hm))]
      · simp at hm; subst hm; exact heq.symm

theorem union_spec {l : List (Nat × Nat)} (h : Good n l par rank rep) {e : Nat × Nat}
    (h1 : e.1 < n) (h2 : e.2 < n) (hle : ∀ f ∈ l, f.1 < n ∧ f.2 < n) :
    Ok (union n (par, rank) e) (fun s => ∃ rep', Good n (l ++ [e]) s.1 s.2 rep') := by
  unfold union
  refine Ok.bind (find_spec n h.inv h1 (by omega)) ?_
  rintro ⟨par1, x⟩ ⟨f1, f2, _, _, f5⟩
  dsimp only at *
  refine Ok.bind (find_spec n f1 h2 (by omega)) ?_
  rintro ⟨par2, y⟩ ⟨g1, g2, _, _, g5⟩
  dsimp only at *
  subst f2; subst g2
  have r1 := g1.root e.1 h1
  have r2 := g1.root e.2 h2
  have l1 := g1.rlt e.1 h1
  have l2 := g1.rlt e.2 h2
  split
  · next he => exact Ok.pure ⟨rep, h.same h1 h2 he g1 hle⟩
  · next he =>
    split
    · next hr =>
      exact Ok.pure ⟨_, h.link h1 h2 hle he (Or.inl ⟨rfl, rfl⟩)
        (g1.link (rank' := rank) l1 l2 he r1 r2 (fun _ _ => rfl) (Nat.le_refl _) (by omega) hr)⟩
    · split
      · next hr =>
        exact Ok.pure ⟨_, h.link h1 h2 hle (Ne.symm he) (Or.inr ⟨rfl, rfl⟩)
          (g1.link (rank' := rank) l2 l1 (Ne.symm he) r2 r1 (fun _ _ => rfl) (Nat.le_refl _) (by omega) hr)⟩
      · refine Ok.pure ⟨_, h.link h1 h2 hle (Ne.symm he) (Or.inr ⟨rfl, rfl⟩)
          (g1.link l2 l1 (Ne.symm he) r2 r1 (fun z hz => upd_ne _ _ hz) ?_ ?_ ?_)⟩
        · simp
        · simp
        · simp; omega

theorem init_good : Good n [] id (fun _ => 0) id := by
  have hc : cnt (fun y => id y == y) n ≤ n := cnt_le
  refine ⟨⟨fun x h => h, fun x h => h, fun _ _ => rfl, fun _ _ => rfl, fun _ _ _ => rfl,
    fun _ _ h => absurd rfl h, fun x _ => by simpa using hc⟩, fun x y _ _ => ⟨?_, ?_⟩⟩
  · rintro rfl; exact ReflTransGen.refl
  · intro h
    induction h with
    | refl => rfl
    | tail _ hbc _ => rcases hbc with h | h <;> simp at h

/-- After all unions, representatives agree exactly on connected nodes. -/
theorem unions_spec {g : IGraph} (hg : g.WF) :
    Ok (g.edges.reverse.foldlM (union g.n) (id, fun _ => 0)) (fun s => ∃ rep,
      Good g.n g.edges.reverse s.1 s.2 rep) := by
  refine Ok.foldlM (I := fun done (s : (Nat → Nat) × (Nat → Nat)) => ∃ rep, Good g.n done s.1 s.2 rep) ⟨id, init_good⟩ ?_
  rintro done e ⟨par, rank⟩ he ⟨rest, hr⟩ ⟨rep, h⟩
  have hwf : ∀ f ∈ g.edges.reverse, f.1 < g.n ∧ f.2 < g.n := fun f hf => hg f (by simpa using hf)
  exact union_spec h (hwf e he).1 (hwf e he).2 (fun f hf => hwf f (by rw [hr]; simp [hf]))

end UF
end MM
