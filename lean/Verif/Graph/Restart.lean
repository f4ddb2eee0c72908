import Verif.Core.Restart
import Verif.Graph.QuickFind
import Mathlib.Data.List.Perm.Subperm

/-! A search that starts from a valid embedding, in the caller's terms. -/

namespace MM

open Relation
open Scratch (Cfg)

variable {R : Nat → Nat → Prop} {E : Emb} {I : Input} {p : Proc} {l0 : List Nat}

namespace Spec

/-- The number of chains with `k` nodes. -/
def chainsWith (cs : List (List Nat)) (k : Nat) : Nat := cs.countP (fun c => c.length == k)

/-- `cs` has fewer chains of some length than `ds`, and as many of every greater length. -/
def Shorter (cs ds : List (List Nat)) : Prop :=
  ∃ k, chainsWith cs k < chainsWith ds k ∧ ∀ j, k < j → chainsWith cs j = chainsWith ds j

/-- The same number of chains of each length, or shorter. -/
def NoLonger (cs ds : List (List Nat)) : Prop := (∀ k, chainsWith cs k = chainsWith ds k) ∨ Shorter cs ds

/-- The fixed and initial chains of the caller are the lists of `ds`. -/
def StartsWith (I : Input) (ds : List (List Nat)) : Prop :=
  ∀ (u : Nat) (c : List Nat), ds[u]? = some c → Given I u c

end Spec

/-! ### lengths -/

theorem Proc.Rep.screw_perm (h : p.Rep I l0) : ((List.range I.src.n).map p.screw).Perm (List.range I.src.n) := by
  have hnd : ((List.range I.src.n).map p.screw).Nodup := by
    refine (List.nodup_map_iff_inj_on List.nodup_range).2 ?_
    intro x hx y hy hxy
    rw [← h.su x (List.mem_range.1 hx), ← h.su y (List.mem_range.1 hy), hxy]
  refine (hnd.subperm ?_).perm_of_length_le (by simp)
  intro x hx
  obtain ⟨u, hu, rfl⟩ := List.mem_map.1 hx
  exact List.mem_range.2 (h.slt u (List.mem_range.1 hu))

/-- Lengths of the caller's chains, counted among the internal ones. -/
theorem chainsWith_eq (h : p.Rep I l0) (hE : E.Shape p.P R) {cs : List (List Nat)} (hlen : cs.length = I.src.n)
    (hcs : ∀ (u : Nat) (c : List Nat), cs[u]? = some c → Handed p l0 E u c) (k : Nat) :
    Spec.chainsWith cs k = cnt (fun v => decide (E.chainsize p.P v = k)) p.P.N := by
  have h1 : cs.map List.length = (List.range I.src.n).map (fun u => E.chainsize p.P (p.screw u)) := by
    apply List.ext_getElem?
    intro i
    rw [List.getElem?_map, List.getElem?_map]
    by_cases hi : i < I.src.n
    · rw [List.getElem?_range hi, List.getElem?_eq_getElem (by omega)]
      simp only [Option.map_some, Option.some.injEq]
      have hh := hcs i _ (List.getElem?_eq_getElem (by omega))
      exact Handed.length (E := { E with w := fun q => (cnt (fun v => (E.chains v).has q) p.P.N : Int) })
        h hi hE.toEInv hh
    · rw [List.getElem?_eq_none (by omega), List.getElem?_eq_none (by simp; omega)]; rfl
  have h2 : Spec.chainsWith cs k = (cs.map List.length).countP (fun n => n == k) := by
    unfold Spec.chainsWith
    rw [List.countP_map]; rfl
  have h3 : (fun u => E.chainsize p.P (p.screw u)) = (E.chainsize p.P) ∘ p.screw := rfl
  rw [h2, h1, h3, ← List.map_map, (h.screw_perm.map _).countP_eq, List.countP_map, cnt_eq_countP, h.hN]
  refine List.countP_congr ?_
  intro x _
  simp

theorem cnt_split (f : Nat → Bool) (a : Nat) : ∀ b, cnt f (a + b) = cnt f a + cnt (fun i => f (a + i)) b := by
  intro b
  rw [cnt_eq_countP, cnt_eq_countP, cnt_eq_countP, List.range_add, List.countP_append, List.countP_map]
  rfl

/-- Only the chains of the free variables differ. -/
theorem fixed_part {E' : Emb} {P : Prob} (hE : E.Shape P R) (hE' : E'.Shape P R) : ∃ f : Nat → Nat, ∀ n,
    cnt (fun v => decide (E.chainsize P v = n)) P.N = cnt (fun v => decide (E.chainsize P v = n)) P.nv + f n ∧
    cnt (fun v => decide (E'.chainsize P v = n)) P.N = cnt (fun v => decide (E'.chainsize P v = n)) P.nv + f n := by
  refine ⟨fun n => cnt (fun i => decide (E.chainsize P (P.nv + i) = n)) P.nf, fun n => ?_⟩
  unfold Prob.N
  rw [cnt_split, cnt_split]
  refine ⟨rfl, congrArg _ ?_⟩
  dsimp only
  rw [cnt_eq_countP, cnt_eq_countP]
  refine List.countP_congr ?_
  intro i hi
  have hi := List.mem_range.1 hi
  have : E'.chainsize P (P.nv + i) = E.chainsize P (P.nv + i) := by
    unfold Emb.chainsize Chain.size
    rw [cnt_eq_countP, cnt_eq_countP]
    refine List.countP_congr ?_
    intro q _
    rw [hE.fixd _ q (by omega) (by unfold Prob.N; omega), hE'.fixd _ q (by omega) (by unfold Prob.N; omega)]
  rw [this]

theorem cnt_zero {f : Nat → Nat} {n k : Nat} (h : ∀ q, q < n → f q ≠ k) : cnt (fun q => decide (f q = k)) n = 0 := by
  rw [cnt_eq_countP, List.countP_eq_zero]
  intro q hq
  simpa using h q (List.mem_range.1 hq)

theorem cnt_some {f : Nat → Nat} {n k q : Nat} (hq : q < n) (h : f q = k) : 0 < cnt (fun q => decide (f q = k)) n := by
  rw [cnt_eq_countP, List.countP_pos_iff]
  exact ⟨q, List.mem_range.2 hq, by simpa using h⟩

/-- A better quality is one of shorter chains. -/
theorem better_lens {E' : Emb} {P : Prob} {l l' : List Nat} (h : StatsOK P E (true, l)) (h' : StatsOK P E' (true, l'))
    (hb : Spec.Better (true, l') (true, l)) :
    ∃ k, cnt (fun v => decide (E'.chainsize P v = k)) P.nv < cnt (fun v => decide (E.chainsize P v = k)) P.nv ∧
      ∀ j, k < j → cnt (fun v => decide (E'.chainsize P v = j)) P.nv = cnt (fun v => decide (E.chainsize P v = j)) P.nv := by
  obtain ⟨a1, a2, a3, a4⟩ := h.lens rfl
  obtain ⟨b1, b2, b3, b4⟩ := h'.lens rfl
  dsimp only at *
  have hA : ∀ k, l.length ≤ k → cnt (fun v => decide (E.chainsize P v = k)) P.nv = 0 := by
    intro k hk; apply cnt_zero; intro q hq; have := a1.le q hq; omega
  have hB : ∀ k, l'.length ≤ k → cnt (fun v => decide (E'.chainsize P v = k)) P.nv = 0 := by
    intro k hk; apply cnt_zero; intro q hq; have := b1.le q hq; omega
  rcases hb with ⟨_, hb⟩ | ⟨_, hb | ⟨he, k, x, y, hx, hy, hxy, hj⟩⟩
  · simp at hb
  · dsimp only at hb
    by_cases hnv : 0 < P.nv
    · obtain ⟨v, hv, hvl⟩ := a3 hnv
      refine ⟨l.length - 1, ?_, ?_⟩
      · rw [hB _ (by omega)]
        exact cnt_some hv (by omega)
      · intro j hj
        rw [hA j (by omega), hB j (by omega)]
    · have := a4 (by omega); have := b4 (by omega); omega
  · dsimp only at hx hy hj he
    have e1 := a1.entry k y hy
    have e2 := b1.entry k x hx
    rw [Nat.zero_add] at e1 e2
    refine ⟨k, by omega, fun j hkj => ?_⟩
    by_cases hjl : j < l.length
    · have e3 := a1.entry j _ (List.getElem?_eq_getElem hjl)
      have e4 := b1.entry j l[j] (by rw [hj j hkj]; exact List.getElem?_eq_getElem hjl)
      rw [Nat.zero_add] at e3 e4
      omega
    · rw [hA j (by omega), hB j (by omega)]

/-! ### the start -/

theorem Spec.StartsWith.complete {ds : List (List Nat)} (hv : Spec.EmbedsUpTo I.FixV I.src I.tgt ds)
    (hd : Spec.StartsWith I ds) (hI : I.OK) : Spec.CompleteStart I := by
  intro u hu hf
  have hul : u < ds.length := by rw [hv.size]; exact hu
  refine ⟨ds[u], hd u _ (List.getElem?_eq_getElem hul), hv.connected u _ hf (List.getElem?_eq_getElem hul), ?_⟩
  intro v huv he
  have hvl : v < ds.length := by rw [hv.size]; exact (he.lt hI.src).2
  exact ⟨ds[v], hd v _ (List.getElem?_eq_getElem hvl), Or.inl (hv.edges u v _ _ (fun h => hf h.1) he huv
    (List.getElem?_eq_getElem hul) (List.getElem?_eq_getElem hvl))⟩

theorem cnt_unique {f : Nat → Bool} : ∀ {n : Nat}, (∀ i j, i < n → j < n → f i = true → f j = true → i = j) → cnt f n ≤ 1 := by
  intro n
  induction n with
  | zero => intro _; exact Nat.zero_le _
  | succ n ih =>
    intro h
    unfold cnt
    by_cases hn : f n = true
    · have : cnt f n = 0 := by
        rw [cnt_eq_zero]
        intro i hi
        by_contra hc
        have := h i n (by omega) (by omega) (by simpa using hc) hn
        omega
      rw [this, if_pos hn]
    · rw [if_neg hn]
      exact ih (fun i j hi hj => h i j (by omega) (by omega))

/-- The given embedding, inside. -/
structure StartFull (I : Input) (p : Proc) (l0 : List Nat) (ds : List (List Nat)) (E : Emb) : Prop where
  full : Full p.P E
  fill : ∀ q, q < p.P.nq → E.fill p.P q ≤ 1
  handed : ∀ (u : Nat) (c : List Nat), ds[u]? = some c → Handed p l0 E u c

theorem Started.full (h : p.Rep I l0) (hE : Started p.P R p.init E) (hI : I.OK) {S : Scratch} (hS : VnOK p.P S)
    {ds : List (List Nat)} (hv : Spec.EmbedsUpTo I.FixV I.src I.tgt ds) (hd : Spec.StartsWith I ds) :
    StartFull I p l0 ds E := by
  have hh : ∀ (u : Nat) (c : List Nat), ds[u]? = some c → Handed p l0 E u c := by
    intro u c hu
    have := hE.given h hI (hd u c hu)
    rwa [List.dedup_eq_self.2 (hv.nodup c (List.mem_of_getElem? hu))] at this
  refine ⟨?_, ?_, hh⟩
  · have hl := (hE.linked_iff h hI hS).2 (hd.complete hv hI)
    unfold Emb.linked at hl
    rw [List.all_eq_true] at hl
    intro u hu
    have := hl u (List.mem_range.2 hu)
    unfold Emb.linked1 at this
    simp only [Bool.and_eq_true, List.all_eq_true] at this
    exact ⟨this.1, fun v hv => this.2 v ((hS u hu).mem_iff.2 hv)⟩
  · intro q hq
    unfold Emb.fill
    apply cnt_unique
    intro i j hi hj hqi hqj
    rw [h.hN] at hi hj
    obtain ⟨u1, u2⟩ := h.us i hi
    obtain ⟨v1, v2⟩ := h.us j hj
    have hql : q < l0.length := by rw [← h.hQ]; unfold Prob.Q; omega
    obtain ⟨x, hx⟩ := getElem?_lt hql
    have hul : p.unscrew i < ds.length := by rw [hv.size]; exact u1
    have hvl : p.unscrew j < ds.length := by rw [hv.size]; exact v1
    have hcu := hh _ _ (List.getElem?_eq_getElem hul)
    have hcv := hh _ _ (List.getElem?_eq_getElem hvl)
    have m1 := (hcu.2 x).2 ⟨q, hx, by rw [u2]; exact hqi⟩
    have m2 := (hcv.2 x).2 ⟨q, hx, by rw [v2]; exact hqj⟩
    by_contra hij
    have hne : p.unscrew i ≠ p.unscrew j := by
      intro hc; apply hij; rw [← u2, ← v2, hc]
    exact hv.disjoint _ _ _ _ hne (List.getElem?_eq_getElem hul) (List.getElem?_eq_getElem hvl) x m1 m2

/-! ### the search -/

/-- A search that starts from a valid embedding. -/
theorem Proc.Rep.restart_run (h : p.Rep I l0) (hI : I.OK) (he : p.P.Even) {X : Run}
    (hri : RI0 p.P (fun _ q => q < p.P.nq) X) (hst : Started p.P R p.init X.init)
    {ds : List (List Nat)} (hv : Spec.EmbedsUpTo I.FixV I.src I.tgt ds) (hd : Spec.StartsWith I ds)
    (C : Cfg) (A : Params) :
    Safe A.Halts False (Run.heuristic p.P C A X) (fun r =>
      (r.2 = true ∧ ∀ cs : List (List Nat), cs.length = I.src.n →
        (∀ (u : Nat) (c : List Nat), cs[u]? = some c → Handed p l0 r.1.best u c) →
        Spec.EmbedsUpTo I.FixV I.src I.tgt cs ∧ Spec.NoLonger cs ds) ∨
      (r.2 = false ∧ ((A.stops X.clock).1 = true ∨ (A.stops X.clock).2 = true))) := by
  have hN : 0 < p.P.N := by rw [h.hN]; exact hI.src_pos
  have d1 := dom_free p.P
  obtain ⟨f1, f2, f3⟩ := hst.full h hI hri.vn hv hd
  rcases heuristic_restart h.wf d1 he hN (C := C) (A := A) hri f1 f2 with ⟨⟨Y, ok⟩, hY, hy⟩ | ⟨hf, _⟩ | ⟨hi, hY⟩
  · refine Or.inl ⟨_, hY, ?_⟩
    dsimp only at hy ⊢
    rcases hy with ⟨hok, l, hl, hb⟩ | hy
    · refine Or.inl ⟨hok, ?_⟩
      intro cs hlen hcs
      rcases heuristic_spec h.wf d1 he hN (C := C) (A := A) hri with ⟨⟨Y', ok'⟩, hY', g1, g2, g3⟩ | ⟨_, hY'⟩ | ⟨_, hY'⟩
      · rw [hY] at hY'
        simp only [Except.ok.injEq, Prod.mk.injEq] at hY'
        obtain ⟨rfl, rfl⟩ := hY'
        dsimp only at g1 g2 g3
        rcases g3 with hg | ⟨hc, _⟩
        swap
        · rw [hok] at hc; simp at hc
        have hemb : Y.embedded = true := by rw [← g2]; exact hok
        have hst' : StatsOK p.P Y.best (true, Y.stats) := by rw [← hemb]; exact hg.best.st
        refine ⟨h.success hI hg.best.inv hg.best.full (hst'.flag.1 rfl) hlen hcs, ?_⟩
        have ec := chainsWith_eq h hg.best.inv.toShape hlen hcs
        have ed := chainsWith_eq h hri.init hv.size f3
        rcases hb with hb | hb
        · left
          intro k
          rw [ec, ed]
          refine cnt_congr ?_
          intro v hv
          unfold Emb.chainsize
          rw [hb v hv]
        · right
          have hb' : Spec.Better (true, Y.stats) (true, l) := by
            unfold Run.quality at hb; rw [hemb] at hb; exact hb
          obtain ⟨k, k1, k2⟩ := better_lens hl hst' hb'
          obtain ⟨f, hf⟩ := fixed_part hg.best.inv.toShape hri.init
          refine ⟨k, ?_, fun j hj => ?_⟩
          · rw [ec, ed, (hf k).1, (hf k).2]; omega
          · have := k2 j hj
            rw [ec, ed, (hf j).1, (hf j).2]; omega
      · rw [hY] at hY'; simp at hY'
      · rw [hY] at hY'; simp at hY'
    · exact Or.inr hy
  · exact hf.elim
  · exact Or.inr (Or.inr ⟨hi, hY⟩)

end MM
