import Verif.Core.Wide
import Verif.Core.Totals

/-! With enough room in 64 bits the search computes what it computes with numbers of any size. -/

namespace MM

theorem foldlM_agree {α β : Type} {f g : β → α → M β} {l : List α} {b : β} (I : List α → β → Prop) (h0 : I [] b)
    (hstep : ∀ done a s, (∃ rest, l = done ++ a :: rest) → I done s →
      g s a = f s a ∧ ∀ s', f s a = .ok s' → I (done ++ [a]) s') :
    l.foldlM g b = l.foldlM f b ∧ ∀ r, l.foldlM f b = .ok r → I l r := by
  suffices hs : ∀ (l' done : List α) (b : β), l = done ++ l' → I done b →
      l'.foldlM g b = l'.foldlM f b ∧ ∀ r, l'.foldlM f b = .ok r → I l r from hs l [] b rfl h0
  intro l'
  induction l' with
  | nil =>
    intro done b hl hi
    refine ⟨rfl, fun r hr => ?_⟩
    simp only [List.foldlM_nil, pure, Except.pure, Except.ok.injEq] at hr
    subst hr; rw [hl, List.append_nil]; exact hi
  | cons a l' ih =>
    intro done b hl hi
    obtain ⟨h1, h2⟩ := hstep done a b ⟨l', hl⟩ hi
    simp only [List.foldlM_cons, bind, Except.bind, h1]
    cases hf : f b a with
    | error e => exact ⟨rfl, fun r hr => by cases hr⟩
    | ok s => exact ih (done ++ [a]) s (by simp [hl]) (h2 s hf)

theorem bind_agree {α β : Type} {m : M α} {k k' : α → M β} (h : ∀ r, m = .ok r → k r = k' r) :
    (m >>= k) = (m >>= k') := by
  cases hm : m with
  | error e => rfl
  | ok r => exact h r hm

/-- Bounded, or no distance. -/
def Upto (B : Nat) (d : D) : Prop := ∀ x, d = some x → x ≤ B

theorem Upto.mono {A B : Nat} {d : D} (h : Upto A d) (hAB : A ≤ B) : Upto B d := fun x hx => (h x hx).trans hAB

theorem Upto.none (B : Nat) : Upto B (none : D) := fun _ h => by cases h

theorem add64_eq {a b : Nat} (h : a + b + 1 < 2 ^ 63) : D.add64 (some a) (some b) = .ok (D.add (some a) (some b)) := by
  have : a + b < 2 ^ 63 - 1 := by omega
  simp only [D.add64, D.add, if_pos this]

variable {P : Prob} {E : Emb} {W b : Nat}

/-- Number of visited qubits. -/
def vcnt (P : Prob) (vis : Nat → Int) : Nat := cnt (fun i => vis i == 1) P.nq

theorem vcnt_le (vis : Nat → Int) : vcnt P vis ≤ P.nq := cnt_le

theorem vcnt_upd (vis : Nat → Int) (p : Nat) : vcnt P vis ≤ vcnt P (upd vis p 1) := by
  refine cnt_mono fun i _ hi => ?_
  by_cases h : i = p
  · subst h; simp
  · simpa [h] using hi

theorem vcnt_pos {vis : Nat → Int} {p : Nat} (hp : p < P.nq) (h : vis p = 1) : 0 < vcnt P vis :=
  cnt_pos hp (by simp [h])

/-- Queued distances are bounded by the number of visited qubits. -/
structure WInv (P : Prob) (W b : Nat) (F : Front) (dist : Nat → D) : Prop where
  inv : F.pq.Inv
  item : ∀ x ∈ F.pq.items, x.node < P.nq ∧ F.vis x.node = 1 ∧ ∃ d, x.dist = some d ∧ d ≤ W * (vcnt P F.vis - b)
  seen : ∀ p, p < P.nq → F.vis p = 1 → p ∈ F.pq.items.map Item.node ∨ Upto (W * (vcnt P F.vis - b)) (dist p)

theorem WInv.push {F : Front} {dist : Nat → D} (h : WInv P W b F dist) {p dirt d : Nat} {pq : PQ}
    {par : Nat → Option Nat} (he : F.pq.emplace ⟨p, dirt, some d⟩ = .ok pq) (hp : p < P.nq)
    (hd : d ≤ W * (vcnt P (upd F.vis p 1) - b)) : WInv P W b ⟨par, upd F.vis p 1, pq⟩ dist := by
  obtain ⟨e1, e2⟩ := post_emplace h.inv he
  have hmono : W * (vcnt P F.vis - b) ≤ W * (vcnt P (upd F.vis p 1) - b) :=
    Nat.mul_le_mul_left _ (by have := vcnt_upd (P := P) F.vis p; omega)
  refine ⟨e1, ?_, ?_⟩
  · intro x hx
    dsimp only at hx ⊢
    rcases List.mem_cons.1 (e2.mem_iff.1 hx) with rfl | hx
    · exact ⟨hp, by simp, d, rfl, hd⟩
    · obtain ⟨a, c, d', k1, k2⟩ := h.item x hx
      refine ⟨a, ?_, d', k1, k2.trans hmono⟩
      by_cases hxp : x.node = p
      · rw [hxp]; simp
      · rw [upd_ne _ _ hxp]; exact c
  · intro i hi hv
    dsimp only at hv ⊢
    rw [(e2.map Item.node).mem_iff]
    by_cases hip : i = p
    · exact Or.inl (by simp [hip])
    · rw [upd_ne _ _ hip] at hv
      exact (h.seen i hi hv).imp (fun k => by simp only [List.map_cons, List.mem_cons]; exact Or.inr k) (fun k => k.mono hmono)

theorem WInv.block {F : Front} {dist : Nat → D} (h : WInv P W b F dist) {p : Nat} :
    WInv P W b { F with vis := upd F.vis p 1 } (upd dist p none) := by
  have hmono : W * (vcnt P F.vis - b) ≤ W * (vcnt P (upd F.vis p 1) - b) :=
    Nat.mul_le_mul_left _ (by have := vcnt_upd (P := P) F.vis p; omega)
  refine ⟨h.inv, ?_, ?_⟩
  · intro x hx
    obtain ⟨a, c, d', k1, k2⟩ := h.item x hx
    refine ⟨a, ?_, d', k1, k2.trans hmono⟩
    dsimp only
    by_cases hxp : x.node = p
    · rw [hxp]; simp
    · rw [upd_ne _ _ hxp]; exact c
  · intro i hi hv
    dsimp only at hv ⊢
    by_cases hip : i = p
    · subst hip; rw [upd_same]; exact Or.inr (Upto.none _)
    · rw [upd_ne _ _ hip] at hv ⊢
      exact (h.seen i hi hv).imp id (fun k => k.mono hmono)

section

variable {full : Nat → Bool} {qw : Nat → D}

theorem expand64_eq (hb : b ≤ 1) (hW : W * (P.nq - b) + 1 < 2 ^ 63)
    (hqw : ∀ p, p < P.nq → full p = false → ∃ w, qw p = some w ∧ w ≤ W) {perm : Nat → Nat} {z : Item} {F : Front}
    {dist : Nat → D} (h : WInv P W b F dist) (hz : z.node < P.nq) (hzv : F.vis z.node = 1) {d : Nat}
    (hzd : z.dist = some d) (hd : d ≤ W * (vcnt P F.vis - b)) :
    Front.expand64 P perm full qw z F dist = Front.expand P perm full qw z F dist ∧
    ∀ r, Front.expand P perm full qw z F dist = .ok r → WInv P W b r.1 r.2 := by
  have key := foldlM_agree (l := P.qn z.node) (b := (F, dist))
    (f := fun (s : Front × (Nat → D)) p => match s with
      | (F, dist) =>
        if p < P.nq then
          if F.vis p ≠ 0 then .ok (F, dist)
          else do
            let F ← Front.setVis P F p 1
            if full p then .ok (F, upd dist p none)
            else do
              let F ← Front.push P perm { F with par := upd F.par p (some z.node) } p (D.add z.dist (qw p))
              .ok (F, dist)
        else .error .ub)
    (g := fun (s : Front × (Nat → D)) p => match s with
      | (F, dist) =>
        if p < P.nq then
          if F.vis p ≠ 0 then .ok (F, dist)
          else do
            let F ← Front.setVis P F p 1
            if full p then .ok (F, upd dist p none)
            else do
              let d ← D.add64 z.dist (qw p)
              let F ← Front.push P perm { F with par := upd F.par p (some z.node) } p d
              .ok (F, dist)
        else .error .ub)
    (fun _ (s : Front × (Nat → D)) => WInv P W b s.1 s.2 ∧ s.1.vis z.node = 1 ∧ d ≤ W * (vcnt P s.1.vis - b))
    ⟨h, hzv, hd⟩ ?_
  · exact ⟨key.1, fun r hr => (key.2 r hr).1⟩
  rintro done p ⟨F1, d1⟩ _ ⟨i1, i2, i3⟩
  dsimp only at *
  by_cases hp : p < P.nq
  · rw [if_pos hp, if_pos hp]
    by_cases hv : F1.vis p ≠ 0
    · rw [if_pos hv, if_pos hv]
      refine ⟨rfl, fun s' hs => ?_⟩
      cases hs; exact ⟨i1, i2, i3⟩
    · rw [if_neg hv, if_neg hv]
      have hv0 : F1.vis p = 0 := by simpa using hv
      have hne : p ≠ z.node := by rintro rfl; omega
      have hc := cnt_vis (vis := F1.vis) hp (by omega)
      have hc1 : vcnt P (upd F1.vis p 1) = vcnt P F1.vis + 1 := hc.1
      have hc2 : vcnt P F1.vis < P.nq := hc.2
      have hpos := vcnt_pos (P := P) hz i2
      have hmono : W * (vcnt P F1.vis - b) + W ≤ W * (vcnt P (upd F1.vis p 1) - b) := by
        rw [hc1, show vcnt P F1.vis + 1 - b = (vcnt P F1.vis - b) + 1 by omega, Nat.mul_succ]
      simp only [Front.setVis, if_pos hp, bind, Except.bind]
      by_cases hfu : full p = true
      · rw [if_pos hfu, if_pos hfu]
        refine ⟨rfl, fun s' hs => ?_⟩
        cases hs
        refine ⟨i1.block, ?_, ?_⟩
        · dsimp only; rw [upd_ne _ _ hne.symm]; exact i2
        · dsimp only; omega
      · rw [if_neg hfu, if_neg hfu]
        obtain ⟨w, w1, w2⟩ := hqw p hp (by simpa using hfu)
        have hle : W * (vcnt P (upd F1.vis p 1) - b) ≤ W * (P.nq - b) :=
          Nat.mul_le_mul_left _ (by have := vcnt_le (P := P) (upd F1.vis p 1); omega)
        rw [hzd, w1, add64_eq (by omega)]
        dsimp only
        refine ⟨rfl, fun s' hs => ?_⟩
        simp only [Front.push, if_pos hp, bind, Except.bind, D.add] at hs
        cases he : F1.pq.emplace ⟨p, perm p, some (d + w)⟩ with
        | error e => rw [he] at hs; cases hs
        | ok pq =>
          rw [he] at hs
          cases hs
          refine ⟨i1.push he hp (by omega), ?_, ?_⟩
          · dsimp only; rw [upd_ne _ _ hne.symm]; exact i2
          · dsimp only; omega
  · rw [if_neg hp, if_neg hp]
    exact ⟨rfl, fun s' hs => by cases hs⟩

theorem run64_eq (hb : b ≤ 1) (hW : W * (P.nq - b) + 1 < 2 ^ 63)
    (hqw : ∀ p, p < P.nq → full p = false → ∃ w, qw p = some w ∧ w ≤ W) {perm : Nat → Nat} :
    ∀ (fuel : Nat) (F : Front) (dist : Nat → D), WInv P W b F dist →
    Front.run64 P perm full qw fuel F dist = Front.run P perm full qw fuel F dist ∧
    ∀ r, Front.run P perm full qw fuel F dist = .ok r →
      ∀ p, p < P.nq → r.1.vis p = 1 → Upto (W * (P.nq - b)) (r.2 p) := by
  intro fuel
  induction fuel with
  | zero => intro F dist _; exact ⟨rfl, fun r hr => by cases hr⟩
  | succ fuel ih =>
    intro F dist h
    unfold Front.run64 Front.run
    by_cases he : F.pq.isEmpty = true
    · rw [if_pos he, if_pos he]
      refine ⟨rfl, fun r hr p hp hv => ?_⟩
      cases hr
      rcases h.seen p hp hv with k | k
      · exfalso
        have : F.pq.items = [] := by
          unfold PQ.isEmpty at he
          unfold PQ.items
          cases hr : F.pq.root with
          | nil => rfl
          | node => rw [hr] at he; simp at he
        rw [this] at k; simp at k
      · exact k.mono (Nat.mul_le_mul_left _ (by have := vcnt_le (P := P) F.vis; omega))
    · rw [if_neg he, if_neg he]
      obtain ⟨z, pq, t1, t2, i1, i2, _⟩ := PQ.pop_spec h.inv (by simpa using he)
      simp only [t1, t2, bind, Except.bind]
      have hzm : z ∈ F.pq.items := i2.mem_iff.2 (by simp)
      obtain ⟨z1, z2, d, z3, z4⟩ := h.item z hzm
      have h' : WInv P W b { F with pq := pq } (upd dist z.node z.dist) := by
        refine ⟨i1, fun x hx => h.item x (i2.mem_iff.2 (List.mem_cons_of_mem _ hx)), ?_⟩
        intro p hp hv
        by_cases hpz : p = z.node
        · subst hpz; rw [upd_same]
          refine Or.inr fun x hx => ?_
          rw [z3] at hx; cases hx; exact z4
        · rw [upd_ne _ _ hpz]
          refine (h.seen p hp hv).imp (fun k => ?_) id
          rw [(i2.map Item.node).mem_iff] at k
          simpa [hpz] using k
      obtain ⟨k1, k2⟩ := expand64_eq (perm := perm) (z := z) hb hW hqw h' z1 z2 z3 z4
      rw [k1]
      cases hx : Front.expand P perm full qw z { F with pq := pq } (upd dist z.node z.dist) with
      | error e => exact ⟨rfl, fun r hr => by cases hr⟩
      | ok r => exact ih r.1 r.2 (k2 r hx)

/-- What the seeds of a search leave behind. -/
theorem init_winv {v : Nat} (hqw : ∀ p, p < P.nq → ∃ w, qw p = some w ∧ w ≤ W) {perm : Nat → Nat}
    {par : Nat → Option Nat} {vis0 : Nat → Int} (h0 : ∀ p, vis0 p ≠ 1) {t : Tape} {r : Front × Tape} {dist : Nat → D}
    (hr : Front.init P E v perm (fun _ => true) qw ⟨par, vis0, PQ.new P.nq⟩ t = .ok r) :
    WInv P W (if P.fixed v then 0 else 1) r.1 dist := by
  have hnew : ∀ b, WInv P W b ⟨par, vis0, PQ.new P.nq⟩ dist := by
    intro b
    refine ⟨PQ.new_inv _, ?_, fun p _ hv => absurd hv (h0 p)⟩
    intro x hx
    simp [PQ.items, PQ.new, PNode.elems] at hx
  unfold Front.init at hr
  by_cases hv : v < P.nv + P.nr
  · rw [if_pos hv] at hr
    dsimp only [bind, Except.bind] at hr
    by_cases hf : P.fixed v = true
    · rw [if_pos hf] at hr ⊢
      split at hr
      · cases hr
      next x F hF =>
      cases hr
      unfold Front.seedFixed at hF
      refine fold_inv hF (fun _ (F : Front) => WInv P W 0 F dist) (hnew 0) ?_
      intro done q F1 F2 _ i1 h2
      refine fold_inv h2 (fun _ (F : Front) => WInv P W 0 F dist) ⟨i1.inv, i1.item, i1.seen⟩ ?_
      intro done p F1 F2 _ i1 h2
      dsimp only at h2
      by_cases hp : p < P.nq
      · rw [if_pos hp] at h2
        by_cases hv : F1.vis p ≠ 0
        · rw [if_pos hv] at h2; cases h2; exact i1
        · rw [if_neg hv, if_pos rfl] at h2
          obtain ⟨w, w1, w2⟩ := hqw p hp
          simp only [Front.push, Front.setVis, if_pos hp, bind, Except.bind, w1] at h2
          cases he : F1.pq.emplace ⟨p, perm p, some w⟩ with
          | error e => rw [he] at h2; cases h2
          | ok pq =>
            rw [he] at h2
            cases h2
            refine i1.push he hp ?_
            have := vcnt_pos (P := P) (vis := upd F1.vis p 1) hp (by simp)
            calc w ≤ W * 1 := by omega
              _ ≤ _ := Nat.mul_le_mul_left _ (by omega)
      · rw [if_neg hp] at h2; cases h2
    · rw [if_neg hf] at hr ⊢
      split at hr
      · cases hr
      next x F hF =>
      cases hr
      unfold Front.seedFree at hF
      refine fold_inv hF (fun _ (F : Front) => WInv P W 1 F dist) (hnew 1) ?_
      intro done p F1 F2 _ i1 h2
      by_cases hp : p < P.nq
      · simp only [Front.push, Front.setVis, if_pos hp, bind, Except.bind] at h2
        cases he : F1.pq.emplace ⟨p, perm p, some 0⟩ with
        | error e => rw [he] at h2; cases h2
        | ok pq =>
          rw [he] at h2
          cases h2
          exact i1.push he hp (Nat.zero_le _)
      · simp only [Front.push, if_neg hp, bind, Except.bind] at h2; cases h2
  · rw [if_neg hv] at hr; cases hr

/-- The largest distance of `q` from the chain of `v`. -/
def far (P : Prob) (E : Emb) (W v q : Nat) : Nat :=
  if P.fixed v then W * P.nq else if (E.chains v).has q then 0 else W * (P.nq - 1)

/-- The largest cost of a root `q` inside the chain of `v`. -/
def near (P : Prob) (E : Emb) (W v q : Nat) : Nat :=
  if P.fixed v then 0 else if (E.chains v).has q then W else 0

/-- What a neighbour adds at most. -/
def cap (P : Prob) (W v : Nat) : Nat := if P.fixed v then W * P.nq else W * max 1 (P.nq - 1)

theorem near_add_far (W v q : Nat) : near P E W v q + far P E W v q ≤ cap P W v := by
  unfold near far cap
  split
  · omega
  · split
    · calc W + 0 = W * 1 := by omega
        _ ≤ _ := Nat.mul_le_mul_left _ (by omega)
    · have : W * (P.nq - 1) ≤ W * max 1 (P.nq - 1) := Nat.mul_le_mul_left _ (by omega)
      omega

theorem distancesFrom64_eq {R : Nat → Nat → Prop} (wf : P.WF) (hR : Dom P R) (hE : EInv P R E) {wb : Int}
    {u v : Nat} (hv : v < P.N) (hW : cap P W v + 1 < 2 ^ 63)
    (hqw : ∀ p, p < P.nq → ∃ w, qw p = some w ∧ w ≤ W) {S : Scratch} :
    Scratch.distancesFrom64 P E wb qw u v S = Scratch.distancesFrom P E wb qw u v S ∧
    ∀ S', Scratch.distancesFrom P E wb qw u v S = .ok S' →
      ∀ p, p < P.nq → S'.vis v p = 1 → Upto (far P E W v p) (S'.dist v p) := by
  suffices hs : Scratch.distancesFrom64 P E wb qw u v S = Scratch.distancesFrom P E wb qw u v S ∧
      ∀ S', Scratch.distancesFrom P E wb qw u v S = .ok S' →
        ∀ p, p < P.nq → S'.vis v p = 1 → Upto (W * (P.nq - if P.fixed v then 0 else 1)) (S'.dist v p) by
    refine ⟨hs.1, fun S' hr p hp hvis => ?_⟩
    have h := hs.2 S' hr p hp hvis
    unfold far
    split
    · next hf => rw [if_pos hf] at h; exact h
    · next hf =>
      rw [if_neg hf] at h
      split
      · next hh =>
        have ht := (distancesFrom_true wf hR hE hv hr hp).1 (some 0) (.start hh)
        unfold eff at ht
        rw [if_pos hvis] at ht
        intro x hx
        rw [hx] at ht
        simp [D.le, D.lt] at ht
        omega
      · exact h
  have hW : W * (P.nq - if P.fixed v then 0 else 1) + 1 < 2 ^ 63 := by
    unfold cap at hW
    split at hW
    · next hf => rw [if_pos hf]; exact hW
    · next hf =>
      rw [if_neg hf]
      have : W * (P.nq - 1) ≤ W * max 1 (P.nq - 1) := Nat.mul_le_mul_left _ (by omega)
      omega
  unfold Scratch.distancesFrom64 Scratch.distancesFrom
  dsimp only [bind, Except.bind]
  cases hi : Front.init P E v (S.perm v) (fun _ => true) qw ⟨S.par v, Scratch.prepVisited P u v, PQ.new P.nq⟩ S.tape with
  | error e => exact ⟨rfl, fun r hr => by cases hr⟩
  | ok r =>
    obtain ⟨F, t⟩ := r
    dsimp only
    have hw := init_winv (dist := S.dist v) hqw
      (by intro p; unfold Scratch.prepVisited; split <;> omega) hi
    obtain ⟨k1, k2⟩ := run64_eq (full := fun q => decide (wb ≤ E.w q)) (perm := S.perm v) (by split <;> omega) hW
      (fun p hp _ => hqw p hp) (P.nq + 1) F (S.dist v) hw
    rw [k1]
    refine ⟨rfl, ?_⟩
    cases hx : Front.run P (S.perm v) (fun q => decide (wb ≤ E.w q)) qw (P.nq + 1) F (S.dist v) with
    | error e => intro S' hr; cases hr
    | ok r =>
      intro S' hr
      cases hr
      intro p hp hv
      simp only [upd_same] at hv ⊢
      exact k2 r hx p hp hv

theorem atChain64_eq {wb : Int} (hqw : ∀ p, p < P.nq → ∃ w, qw p = some w ∧ w ≤ W) {v : Nat} {B : Nat → Nat}
    (hB : ∀ q, q < P.nq → B q + near P E W v q + 1 < 2 ^ 63) {tot : Nat → D} (ht : ∀ q, q < P.nq → Upto (B q) (tot q)) :
    Scratch.atChain64 P E wb qw v tot = Scratch.atChain P E wb qw v tot ∧
    ∀ tot', Scratch.atChain P E wb qw v tot = .ok tot' → ∀ q, q < P.nq → Upto (B q + near P E W v q) (tot' q) := by
  unfold Scratch.atChain64 Scratch.atChain
  unfold near at hB ⊢
  by_cases hf : P.fixed v = true
  · rw [if_pos hf, if_pos hf]
    refine ⟨rfl, fun tot' hr q hq => ?_⟩
    cases hr
    rw [if_pos hf]; exact ht q hq
  · rw [if_neg hf, if_neg hf]
    simp only [if_neg hf] at hB ⊢
    have key := foldlM_agree (l := (E.chains v).keys P.Q) (b := tot)
      (f := fun (tot : Nat → D) q => (if q < P.nq then
        .ok (upd tot q (
          if tot q ≠ none ∧ P.reserved q = false ∧ qw q ≠ none ∧ E.w q < wb ∧ D.lt (some 0) (qw q)
          then D.add (tot q) (qw q) else none)) else .error .ub : M (Nat → D)))
      (g := fun (tot : Nat → D) q => (if q < P.nq then
        if tot q ≠ none ∧ P.reserved q = false ∧ qw q ≠ none ∧ E.w q < wb ∧ D.lt (some 0) (qw q) then do
          let d ← D.add64 (tot q) (qw q)
          .ok (upd tot q d)
        else .ok (upd tot q none) else .error .ub : M (Nat → D)))
      (fun done (r : Nat → D) => ∀ q, q < P.nq → Upto (B q + if (E.chains v).has q then W else 0) (r q) ∧ (q ∉ done → Upto (B q) (r q)))
      (fun q hq => ⟨(ht q hq).mono (by omega), fun _ => ht q hq⟩) ?_
    · exact ⟨key.1, fun r hr q hq => (key.2 r hr q hq).1⟩
    rintro done a s ⟨rest, hrest⟩ hi
    have had := not_mem_done (keys_nodup _ _) hrest
    have hha := (Chain.mem_keys.1 (show a ∈ (E.chains v).keys P.Q by rw [hrest]; simp)).2
    by_cases ha : a < P.nq
    · rw [if_pos ha, if_pos ha]
      by_cases hc : s a ≠ none ∧ P.reserved a = false ∧ qw a ≠ none ∧ E.w a < wb ∧ D.lt (some 0) (qw a) = true
      · rw [if_pos hc, if_pos hc]
        obtain ⟨w, w1, w2⟩ := hqw a ha
        obtain ⟨x, hx⟩ := Option.ne_none_iff_exists'.1 hc.1
        have hxB := (hi a ha).2 had x hx
        have hBa := hB a ha
        rw [if_pos hha] at hBa
        rw [w1, hx, add64_eq (by omega)]
        refine ⟨rfl, fun s' hs => ?_⟩
        cases hs
        intro q hq
        by_cases hqa : q = a
        · subst hqa
          rw [upd_same]
          refine ⟨?_, fun k => absurd (by simp) k⟩
          intro y hy
          simp only [D.add, Option.some.injEq] at hy
          rw [if_pos hha]
          omega
        · rw [upd_ne _ _ hqa]
          exact ⟨(hi q hq).1, fun k => (hi q hq).2 (by simpa [hqa] using k)⟩
      · rw [if_neg hc, if_neg hc]
        refine ⟨rfl, fun s' hs => ?_⟩
        cases hs
        intro q hq
        by_cases hqa : q = a
        · subst hqa
          rw [upd_same]
          exact ⟨Upto.none _, fun _ => Upto.none _⟩
        · rw [upd_ne _ _ hqa]
          exact ⟨(hi q hq).1, fun k => (hi q hq).2 (by simpa [hqa] using k)⟩
    · rw [if_neg ha, if_neg ha]
      exact ⟨rfl, fun s' hs => by cases hs⟩

theorem accum64_eq {wb : Int} {A B : Nat → Nat} (hAB : ∀ q, q < P.nq → B q + A q + 1 < 2 ^ 63) {vis : Nat → Int} {dist tot : Nat → D}
    (hd : ∀ q, q < P.nq → vis q = 1 → Upto (A q) (dist q)) (ht : ∀ q, q < P.nq → Upto (B q) (tot q)) :
    Scratch.accum64 P E wb vis dist tot = .ok (Scratch.accum P E wb vis dist tot) ∧
    ∀ q, q < P.nq → Upto (B q + A q) (Scratch.accum P E wb vis dist tot q) := by
  have hval : ∀ q, q < P.nq → Upto (B q + A q) (Scratch.accum P E wb vis dist tot q) := by
    intro q hq
    unfold Scratch.accum
    rw [if_pos hq]
    by_cases hc : vis q = 1 ∧ tot q ≠ none ∧ P.reserved q = false ∧ dist q ≠ none ∧ E.w q < wb
    · rw [if_pos hc]
      obtain ⟨x, hx⟩ := Option.ne_none_iff_exists'.1 hc.2.1
      obtain ⟨y, hy⟩ := Option.ne_none_iff_exists'.1 hc.2.2.2.1
      have h1 := ht q hq x hx
      have h2 := hd q hq hc.1 y hy
      rw [hx, hy]
      intro z hz
      simp only [D.add, Option.some.injEq] at hz
      omega
    · rw [if_neg hc]; exact Upto.none _
  refine ⟨?_, hval⟩
  unfold Scratch.accum64
  have hall : ∀ (l done : List Nat) (s : Nat → D), List.range P.nq = done ++ l →
      (∀ q, s q = if q ∈ done then Scratch.accum P E wb vis dist tot q else tot q) →
      l.foldlM (init := s) (fun (tot : Nat → D) q =>
        (if vis q = 1 ∧ tot q ≠ none ∧ P.reserved q = false ∧ dist q ≠ none ∧ E.w q < wb then do
          let d ← D.add64 (tot q) (dist q)
          .ok (upd tot q d)
        else .ok (upd tot q none) : M (Nat → D))) = .ok (Scratch.accum P E wb vis dist tot) := by
    intro l
    induction l with
    | nil =>
      intro done s hl hs
      simp only [List.foldlM_nil, pure, Except.pure, Except.ok.injEq]
      funext q
      rw [hs q]
      rw [List.append_nil] at hl
      by_cases hq : q < P.nq
      · rw [if_pos (by rw [← hl]; simpa using hq)]
      · rw [if_neg (by rw [← hl]; simpa using hq)]
        unfold Scratch.accum; rw [if_neg hq]
    | cons a l ih =>
      intro done s hl hs
      have hnd : (List.range P.nq).Nodup := List.nodup_range
      have had := not_mem_done hnd hl
      have ha : a < P.nq := by
        have : a ∈ List.range P.nq := by rw [hl]; simp
        simpa using this
      have hsa : s a = tot a := by rw [hs a, if_neg had]
      have hnext : ∀ d, d = Scratch.accum P E wb vis dist tot a → ∀ q, upd s a d q =
          if q ∈ done ++ [a] then Scratch.accum P E wb vis dist tot q else tot q := by
        intro d hd q
        by_cases hqa : q = a
        · subst hqa; rw [upd_same, if_pos (by simp), hd]
        · rw [upd_ne _ _ hqa, hs q]; simp [hqa]
      simp only [List.foldlM_cons, bind, Except.bind]
      by_cases hc : vis a = 1 ∧ s a ≠ none ∧ P.reserved a = false ∧ dist a ≠ none ∧ E.w a < wb
      · rw [if_pos hc]
        obtain ⟨x, hx⟩ := Option.ne_none_iff_exists'.1 hc.2.1
        obtain ⟨y, hy⟩ := Option.ne_none_iff_exists'.1 hc.2.2.2.1
        have h1 := ht a ha x (hsa ▸ hx)
        have h2 := hd a ha hc.1 y hy
        rw [hx, hy, add64_eq (by have := hAB a ha; omega)]
        refine ih (done ++ [a]) _ (by simp [hl]) (hnext _ ?_)
        unfold Scratch.accum
        rw [if_pos ha, if_pos (by rw [← hsa]; exact hc), ← hsa, hx, hy]
      · rw [if_neg hc]
        refine ih (done ++ [a]) _ (by simp [hl]) (hnext _ ?_)
        unfold Scratch.accum
        rw [if_pos ha, if_neg (by rw [← hsa]; exact hc)]
  exact hall _ [] tot rfl (fun q => by simp)

theorem prepDistances_upto (u : Nat) (q : Nat) : Upto 0 (Scratch.prepDistances P u q) := by
  unfold Scratch.prepDistances
  intro x hx
  split at hx <;> cases hx
  exact le_refl _

end

section

variable {weight : Int → Int → D} {wb : Int} {u : Nat}

theorem rootSerial64_eq {R : Nat → Nat → Prop} (wf : P.WF) (hR : Dom P R) (hE : EInv P R E) {S : Scratch}
    (hS : ∀ v ∈ S.vn u, v < P.N) (hW : ((S.vn u).map (cap P W)).sum + 1 < 2 ^ 63)
    (hqw : ∀ p, p < P.nq → ∃ w, weight (E.maxWeight 0 P.nq) (E.w p) = some w ∧ w ≤ W) :
    Scratch.rootSerial64 P weight E wb u S = Scratch.rootSerial P weight E wb u S := by
  unfold Scratch.rootSerial64 Scratch.rootSerial
  dsimp only
  generalize hq : (fun q => weight (E.maxWeight 0 P.nq) (E.w q)) = qw
  have hqw : ∀ p, p < P.nq → ∃ w, qw p = some w ∧ w ≤ W := by rw [← hq]; exact hqw
  have key := foldlM_agree (l := S.vn u) (b := (Scratch.prepDistances P u, 0, S))
    (f := fun (s : (Nat → D) × Nat × Scratch) v => match s with
      | (tot, n, S) => (if E.chainsize P v = 0 then .ok (tot, n, S)
        else do
          let S ← Scratch.distancesFrom P E wb qw u v S
          let tot ← Scratch.atChain P E wb qw v tot
          .ok (Scratch.accum P E wb (S.vis v) (S.dist v) tot, n + 1, S) : M _))
    (g := fun (s : (Nat → D) × Nat × Scratch) v => match s with
      | (tot, n, S) => (if E.chainsize P v = 0 then .ok (tot, n, S)
        else do
          let S ← Scratch.distancesFrom64 P E wb qw u v S
          let tot ← Scratch.atChain64 P E wb qw v tot
          let tot ← Scratch.accum64 P E wb (S.vis v) (S.dist v) tot
          .ok (tot, n + 1, S) : M _))
    (fun done (s : (Nat → D) × Nat × Scratch) => ∀ q, q < P.nq → Upto (done.map (cap P W)).sum (s.1 q))
    (fun q _ => by simpa using prepDistances_upto u q) ?_
  · simp only [bind] at key ⊢
    rw [key.1]
  rintro done v ⟨tot, n, S1⟩ ⟨rest, hrest⟩ hi
  dsimp only at *
  have hpart : ((S.vn u).map (cap P W)).sum = (done.map (cap P W)).sum + cap P W v + (rest.map (cap P W)).sum := by
    rw [hrest]; simp; omega
  have hnext : ((done ++ [v]).map (cap P W)).sum = (done.map (cap P W)).sum + cap P W v := by simp
  have hnf := fun q => near_add_far (P := P) (E := E) W v q
  by_cases hs : E.chainsize P v = 0
  · rw [if_pos hs, if_pos hs]
    refine ⟨rfl, fun s' hs' => ?_⟩
    cases hs'
    intro q hq
    exact (hi q hq).mono (by omega)
  · rw [if_neg hs, if_neg hs]
    obtain ⟨a1, a2⟩ := distancesFrom64_eq wf hR hE (wb := wb) (u := u) (v := v) (S := S1)
      (hS v (by rw [hrest]; simp)) (by omega) hqw
    obtain ⟨b1, b2⟩ := atChain64_eq (E := E) (wb := wb) (v := v) (B := fun _ => (done.map (cap P W)).sum) hqw
      (fun q _ => by have := hnf q; omega) hi
    simp only [bind, Except.bind]
    rw [a1, b1]
    cases hd : Scratch.distancesFrom P E wb qw u v S1 with
    | error e => exact ⟨rfl, fun s' h => by cases h⟩
    | ok S2 =>
      dsimp only
      cases ht : Scratch.atChain P E wb qw v tot with
      | error e => exact ⟨rfl, fun s' h => by cases h⟩
      | ok t2 =>
        dsimp only
        obtain ⟨c1, c2⟩ := accum64_eq (E := E) (wb := wb) (A := far P E W v)
          (B := fun q => (done.map (cap P W)).sum + near P E W v q) (fun q _ => by have := hnf q; omega) (a2 S2 hd) (b2 t2 ht)
        rw [c1]
        refine ⟨rfl, fun s' h => ?_⟩
        cases h
        intro q hq
        refine (c2 q hq).mono ?_
        have := hnf q
        omega

theorem sum_near_far (W q : Nat) (l : List Nat) :
    (l.map fun v => near P E W v q).sum + (l.map fun v => far P E W v q).sum ≤ (l.map (cap P W)).sum := by
  induction l with
  | nil => simp
  | cons v l ih =>
    have := near_add_far (P := P) (E := E) W v q
    simp only [List.map_cons, List.sum_cons]
    omega

theorem rootParallel64_eq {R : Nat → Nat → Prop} (wf : P.WF) (hR : Dom P R) (hE : EInv P R E) {S : Scratch}
    (hS : ∀ v ∈ S.vn u, v < P.N) (hW : ((S.vn u).map (cap P W)).sum + 1 < 2 ^ 63)
    (hqw : ∀ p, p < P.nq → ∃ w, weight (E.maxWeight 0 P.nq) (E.w p) = some w ∧ w ≤ W) :
    Scratch.rootParallel64 P weight E wb u S = Scratch.rootParallel P weight E wb u S := by
  unfold Scratch.rootParallel64 Scratch.rootParallel
  dsimp only
  generalize hq : (fun q => weight (E.maxWeight 0 P.nq) (E.w q)) = qw
  have hqw : ∀ p, p < P.nq → ∃ w, qw p = some w ∧ w ≤ W := by rw [← hq]; exact hqw
  have key := foldlM_agree (l := S.vn u) (b := (0, S))
    (f := fun (s : Nat × Scratch) v => match s with
      | (n, S) => (if E.chainsize P v = 0 then .ok (n, S)
        else do
          let S ← Scratch.distancesFrom P E wb qw u v S
          .ok (n + 1, S) : M _))
    (g := fun (s : Nat × Scratch) v => match s with
      | (n, S) => (if E.chainsize P v = 0 then .ok (n, S)
        else do
          let S ← Scratch.distancesFrom64 P E wb qw u v S
          .ok (n + 1, S) : M _))
    (fun done (s : Nat × Scratch) => s.2.vn = S.vn ∧ ∀ v ∈ done, E.chainsize P v ≠ 0 →
      ∀ p, p < P.nq → s.2.vis v p = 1 → Upto (far P E W v p) (s.2.dist v p))
    ⟨rfl, by simp⟩ ?_
  · simp only [bind] at key ⊢
    rw [key.1]
    refine bind_agree fun r hr => ?_
    obtain ⟨e1, e2⟩ := key.2 r hr
    obtain ⟨n, S2⟩ := r
    dsimp only at e1 e2 ⊢
    rw [e1]
    have ka := foldlM_agree (l := S.vn u) (b := Scratch.prepDistances P u)
      (f := fun tot v => Scratch.atChain P E wb qw v tot) (g := fun tot v => Scratch.atChain64 P E wb qw v tot)
      (fun done (s : Nat → D) => ∀ q, q < P.nq → Upto (done.map fun v => near P E W v q).sum (s q))
      (fun q _ => by simpa using prepDistances_upto u q) ?_
    · rw [ka.1]
      refine bind_agree fun tot ht => ?_
      have hbt := ka.2 tot ht
      suffices hs : ∀ (l done : List Nat) (tot : Nat → D), S.vn u = done ++ l →
          (∀ q, q < P.nq → Upto (((S.vn u).map fun v => near P E W v q).sum + (done.map fun v => far P E W v q).sum) (tot q)) →
          l.foldlM (init := tot) (fun tot v =>
            (if E.chainsize P v = 0 then .ok tot else Scratch.accum64 P E wb (S2.vis v) (S2.dist v) tot : M (Nat → D))) =
          .ok (l.foldl (init := tot) fun tot v =>
            if E.chainsize P v = 0 then tot else Scratch.accum P E wb (S2.vis v) (S2.dist v) tot) by
        rw [hs (S.vn u) [] tot rfl (fun q hq => by simpa using hbt q hq)]
        rfl
      intro l
      induction l with
      | nil => intro done tot _ _; rfl
      | cons v l ih =>
        intro done tot hl hb
        have hsum := fun q => sum_near_far (P := P) (E := E) W q (S.vn u)
        have hpart : ∀ q, ((S.vn u).map fun v => far P E W v q).sum =
            (done.map fun v => far P E W v q).sum + far P E W v q + (l.map fun v => far P E W v q).sum := by
          intro q; rw [hl]; simp; omega
        have hnext : ∀ q, ((done ++ [v]).map fun v => far P E W v q).sum =
            (done.map fun v => far P E W v q).sum + far P E W v q := by intro q; simp
        simp only [List.foldlM_cons, List.foldl_cons, bind, Except.bind]
        by_cases hs : E.chainsize P v = 0
        · rw [if_pos hs, if_pos hs]
          exact ih (done ++ [v]) tot (by simp [hl]) (fun q hq => (hb q hq).mono (by have := hnext q; omega))
        · rw [if_neg hs, if_neg hs]
          obtain ⟨c1, c2⟩ := accum64_eq (E := E) (wb := wb) (A := far P E W v)
            (B := fun q => ((S.vn u).map fun v => near P E W v q).sum + (done.map fun v => far P E W v q).sum)
            (fun q _ => by have := hsum q; have := hpart q; omega)
            (e2 v (by rw [hl]; simp) hs) hb
          rw [c1]
          exact ih (done ++ [v]) _ (by simp [hl]) (fun q hq => (c2 q hq).mono (by have := hnext q; omega))
    · rintro done v s ⟨rest, hrest⟩ hi
      have hsum := fun q => sum_near_far (P := P) (E := E) W q (S.vn u)
      have hpart : ∀ q, ((S.vn u).map fun v => near P E W v q).sum =
          (done.map fun v => near P E W v q).sum + near P E W v q + (rest.map fun v => near P E W v q).sum := by
        intro q; rw [hrest]; simp; omega
      obtain ⟨b1, b2⟩ := atChain64_eq (E := E) (wb := wb) (v := v) (B := fun q => (done.map fun v => near P E W v q).sum)
        hqw (fun q _ => by have := hsum q; have := hpart q; omega) hi
      refine ⟨b1, fun s' hs' q hq => ?_⟩
      have := b2 s' hs' q hq
      simpa using this
  rintro done v ⟨n, S1⟩ ⟨rest, hrest⟩ ⟨i1, i2⟩
  dsimp only at *
  by_cases hs : E.chainsize P v = 0
  · rw [if_pos hs, if_pos hs]
    refine ⟨rfl, fun s' hs' => ?_⟩
    cases hs'
    refine ⟨i1, fun x hx hc => ?_⟩
    rcases List.mem_append.1 hx with hx | hx
    · exact i2 x hx hc
    · rw [List.mem_singleton] at hx; subst hx; exact absurd hs hc
  · rw [if_neg hs, if_neg hs]
    have hpart : ((S.vn u).map (cap P W)).sum = (done.map (cap P W)).sum + cap P W v + (rest.map (cap P W)).sum := by
      rw [hrest]; simp; omega
    obtain ⟨a1, a2⟩ := distancesFrom64_eq wf hR hE (wb := wb) (u := u) (v := v) (S := S1)
      (hS v (by rw [hrest]; simp)) (by omega) hqw
    simp only [bind, Except.bind]
    rw [a1]
    cases hd : Scratch.distancesFrom P E wb qw u v S1 with
    | error e => exact ⟨rfl, fun s' h => by cases h⟩
    | ok S2 =>
      refine ⟨rfl, fun s' h => ?_⟩
      cases h
      have ho := distancesFrom_only hd
      refine ⟨ho.1.trans i1, fun x hx hc => ?_⟩
      by_cases hxv : x = v
      · subst hxv; exact a2 S2 hd
      · have hx : x ∈ done := by simpa [hxv] using hx
        have := i2 x hx hc
        dsimp only
        rw [ho.vis x hxv, ho.dist x hxv]; exact this

theorem findChain64_eq {R : Nat → Nat → Prop} (wf : P.WF) (hR : Dom P R) (hE : EInv P R E) {C : Scratch.Cfg}
    {cs : Nat} {S : Scratch} (hu : u < P.nv) (hS : VnOK P S) (hW : ((P.vn u).map (cap P W)).sum + 1 < 2 ^ 63)
    (hqw : ∀ p, p < P.nq → ∃ w, C.weight (E.maxWeight 0 P.nq) (E.w p) = some w ∧ w ≤ W) :
    Scratch.findChain64 P C wb cs u E S = Scratch.findChain P C wb cs u E S := by
  unfold Scratch.findChain64 Scratch.findChain
  refine bind_agree fun S1 h1 => ?_
  have hp : (S1.vn u).Perm (P.vn u) := by
    obtain ⟨S2, k1, k2⟩ := mixQueues_spec wf hu hS
    rw [h1] at k1; cases k1; exact k2 u hu
  have hS1 : ∀ v ∈ S1.vn u, v < P.N := fun v hv => wf.vn_lt u v hu (hp.mem_iff.1 hv)
  have hW1 : ((S1.vn u).map (cap P W)).sum + 1 < 2 ^ 63 := by
    rw [(hp.map (cap P W)).sum_nat]; exact hW
  rw [rootSerial64_eq wf hR hE hS1 hW1 hqw, rootParallel64_eq wf hR hE hS1 hW1 hqw]
  rfl

end

end MM
