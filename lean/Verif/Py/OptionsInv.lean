import Verif.Py.Options
import Verif.Py.CallInv
import Verif.Py.DiagInv

/-! Facts about the reading of parameters. -/

namespace MM
namespace Py

open Scratch (Cfg)

theorem bind_ok {ε β γ : Type} {m : Except ε β} {f : β → Except ε γ} {c : γ} :
    (m >>= f) = .ok c ↔ ∃ b, m = .ok b ∧ f b = .ok c := by
  cases m with
  | error e => simp [bind, Except.bind]
  | ok b => simp [bind, Except.bind]

/-- What `get` gives. -/
theorem get_iff {β : Type} {ps : List (String × Obj)} (hk : (ps.map Prod.fst).Nodup) {name : String}
    {conv : Obj → Except OptErr β} {R : Obj → β → Prop} (hR : ∀ z v, conv z = .ok v ↔ R z v) {d v : β} :
    get ps name conv d = .ok v ↔ (∀ z, (name, z) ∈ ps → if z.isNone then v = d else R z v) ∧
      ((∀ z, (name, z) ∉ ps) → v = d) := by
  unfold get
  cases h : ps.lookup name with
  | none =>
    have hno : ∀ z, (name, z) ∉ ps := by
      intro z hz
      rw [(lookup_eq_some hk).mpr hz] at h
      cases h
    constructor
    · intro hv
      cases hv
      exact ⟨fun z hz => absurd hz (hno z), fun _ => rfl⟩
    · intro hv
      rw [hv.2 hno]
  | some z =>
    have hz := (lookup_eq_some hk).mp h
    have huniq : ∀ w, (name, w) ∈ ps → w = z := by
      intro w hw
      have := (lookup_eq_some hk).mpr hw
      rw [h] at this
      cases this
      rfl
    dsimp only
    constructor
    · intro hv
      refine ⟨fun w hw => ?_, fun hno => absurd hz (hno z)⟩
      rw [huniq w hw]
      split
      · next hn => rw [if_pos hn] at hv; cases hv; rfl
      · next hn => rw [if_neg hn] at hv; exact (hR _ _).mp hv
    · intro hv
      have := hv.1 z hz
      split
      · next hn => rw [if_pos hn] at this; rw [this]
      · next hn => rw [if_neg hn] at this; exact (hR _ _).mpr this

theorem readOpts_iff {u : Nat} {ps : List (String × Obj)} {o : Opts} :
    readOpts u ps = .ok o ↔ (∀ p ∈ ps, p.1 ∈ names) ∧
      get ps "interactive" toBool false = .ok o.interactive ∧
      get ps "max_no_improvement" toCInt 10 = .ok o.maxNoImp ∧
      get ps "skip_initialization" toBint false = .ok o.skipInit ∧
      get ps "chainlength_patience" toCInt 2 = .ok o.clPatience ∧
      get ps "random_seed" toSeed u = .ok o.seed ∧
      get ps "tries" toCInt 10 = .ok o.tries ∧
      get ps "verbose" toCInt 0 = .ok o.verbose ∧
      get ps "inner_rounds" toCInt maxInt = .ok o.innerRounds ∧
      get ps "timeout" toDouble (.num 1000) = .ok o.timeout ∧
      get ps "max_beta" toDouble maxDouble = .ok o.maxBeta ∧
      get ps "return_overlap" toBint false = .ok o.returnOverlap ∧
      get ps "max_fill" toCInt maxInt = .ok o.maxFill ∧
      get ps "threads" toCInt 1 = .ok o.threads := by
  have hall : (ps.all (fun p => names.contains p.1) = true) ↔ ∀ p ∈ ps, p.1 ∈ names := by
    rw [List.all_eq_true]
    simp only [List.contains_iff_mem]
  unfold readOpts
  by_cases h : ps.all (fun p => names.contains p.1) = true
  · rw [if_pos h]
    simp only [bind_ok]
    constructor
    · rintro ⟨_, h1, _, h2, _, h3, _, h4, _, h5, _, h6, _, h7, _, h8, _, h9, _, h10, _, h11, _, h12, _, h13, he⟩
      cases he
      exact ⟨hall.mp h, h1, h2, h3, h4, h5, h6, h7, h8, h9, h10, h11, h12, h13⟩
    · rintro ⟨_, h1, h2, h3, h4, h5, h6, h7, h8, h9, h10, h11, h12, h13⟩
      exact ⟨_, h1, _, h2, _, h3, _, h4, _, h5, _, h6, _, h7, _, h8, _, h9, _, h10, _, h11, _, h12, _, h13, rfl⟩
  · rw [if_neg h]
    constructor
    · intro hc; cases hc
    · intro hc; exact absurd (hall.mpr hc.1) h

theorem toCInt_iff (z : Obj) (v : Int) : toCInt z = .ok v ↔ z.int = some v ∧ -2 ^ 31 ≤ v ∧ v < 2 ^ 31 := by
  unfold toCInt
  cases z.int with
  | none => simp
  | some i =>
    dsimp only
    split
    · next h => constructor
                · intro hv; cases hv; exact ⟨rfl, h⟩
                · rintro ⟨hv, _⟩; cases hv; rfl
    · next h => constructor
                · intro hv; cases hv
                · rintro ⟨hv, hv'⟩; cases hv; exact absurd hv' h

theorem toBint_iff (z : Obj) (v : Bool) : toBint z = .ok v ↔ ∃ i, z.int = some i ∧ (v = true ↔ i ≠ 0) := by
  unfold toBint
  cases z.int with
  | none => simp
  | some i =>
    dsimp only
    constructor
    · intro h; cases h; exact ⟨i, rfl, by simp⟩
    · rintro ⟨j, hj, h⟩
      cases hj
      congr 1
      rw [Bool.eq_iff_iff, h]
      simp

theorem toBool_iff (z : Obj) (v : Bool) : toBool z = .ok v ↔ z.truth = some v := by
  unfold toBool
  cases z.truth <;> simp

theorem toDouble_iff (z : Obj) (v : Dbl) : toDouble z = .ok v ↔ z.float = some v := by
  unfold toDouble
  cases z.float <;> simp

theorem toSeed_iff (z : Obj) (v : Nat) : toSeed z = .ok v ↔ z.int = some (v : Int) ∧ v < 2 ^ 64 := by
  unfold toSeed
  cases z.int with
  | none => simp
  | some i =>
    dsimp only
    split
    · next h => constructor
                · intro hv; cases hv; exact ⟨by rw [Int.toNat_of_nonneg h.1], by omega⟩
                · rintro ⟨hv, _⟩; cases hv; simp
    · next h => constructor
                · intro hv; cases hv
                · rintro ⟨hv, hv'⟩; cases hv; exact absurd ⟨by omega, by omega⟩ h

/-- The keyword arguments passed on. -/
theorem fill_ok {given qs : List (String × Obj)} (h : fill given = .ok qs) {β : Type} {name : String} {dz : Obj}
    (hm : (name, dz) ∈ signature) (conv : Obj → Except OptErr β) (d : β) :
    get qs name conv d = match given.lookup name with
      | .none => if dz.isNone then .ok d else conv dz
      | some z => if z.isNone then .ok d else conv z := by
  unfold fill at h
  split at h
  · cases h
    unfold get
    have hfst : ∀ nd, (supply given nd).1 = nd.1 := by
      intro nd
      unfold supply
      cases given.lookup nd.1 <;> rfl
    have hs : ((signature.map (supply given)).map Prod.fst).Nodup := by
      rw [List.map_map]
      have : Prod.fst ∘ supply given = Prod.fst := funext hfst
      rw [this]
      decide
    have hin : supply given (name, dz) ∈ signature.map (supply given) := List.mem_map.mpr ⟨_, hm, rfl⟩
    unfold supply at hin
    cases hg : given.lookup name with
    | none =>
      dsimp only at hin
      rw [hg] at hin
      rw [(lookup_eq_some hs).mpr hin]
    | some z =>
      dsimp only at hin
      rw [hg] at hin
      rw [(lookup_eq_some hs).mpr hin]
  · cases h

theorem fill_isOk (given : List (String × Obj)) : (∃ qs, fill given = .ok qs) ↔ ∀ p ∈ given, p.1 ∈ names := by
  have hn : ∀ s : String, s ∈ signature.map Prod.fst ↔ s ∈ names := by
    intro s
    simp only [signature, names, List.map_cons, List.map_nil, List.mem_cons, List.not_mem_nil, or_false]
    tauto
  have hall : (given.all (fun p => (signature.map Prod.fst).contains p.1) = true) ↔ ∀ p ∈ given, p.1 ∈ names := by
    rw [List.all_eq_true]
    simp only [List.contains_iff_mem, hn]
  unfold fill
  rw [← hall]
  split
  · next h => exact ⟨fun _ => h, fun _ => ⟨_, rfl⟩⟩
  · next h => exact ⟨fun ⟨_, h'⟩ => (by cases h'), fun h' => absurd h' h⟩

theorem fill_names {given qs : List (String × Obj)} (h : fill given = .ok qs) : ∀ p ∈ qs, p.1 ∈ names := by
  unfold fill at h
  split at h
  · cases h
    intro p hp
    obtain ⟨nd, hnd, rfl⟩ := List.mem_map.mp hp
    have : nd.1 ∈ signature.map Prod.fst := List.mem_map.mpr ⟨nd, hnd, rfl⟩
    have h2 : nd.1 ∈ names := by
      revert this
      simp only [signature, names, List.map_cons, List.map_nil, List.mem_cons, List.not_mem_nil, or_false]
      tauto
    unfold supply
    cases given.lookup nd.1 <;> exact h2
  · cases h

/-- A parameter of the public function. -/
theorem fill_get {given qs : List (String × Obj)} (hk : (given.map Prod.fst).Nodup) (h : fill given = .ok qs) {β : Type}
    {name : String} {dz : Obj} (hm : (name, dz) ∈ signature) {conv : Obj → Except OptErr β} {R : Obj → β → Prop}
    (hR : ∀ z v, conv z = .ok v ↔ R z v) {d e v : β} (he : (if dz.isNone then .ok d else conv dz) = .ok e) :
    get qs name conv d = .ok v ↔ (∀ z, (name, z) ∈ given → if z.isNone then v = d else R z v) ∧
      ((∀ z, (name, z) ∉ given) → v = e) := by
  rw [fill_ok h hm]
  cases hg : given.lookup name with
  | none =>
    have hno : ∀ z, (name, z) ∉ given := by
      intro z hz
      rw [(lookup_eq_some hk).mpr hz] at hg
      cases hg
    dsimp only
    rw [he]
    constructor
    · intro hv
      cases hv
      exact ⟨fun z hz => absurd hz (hno z), fun _ => rfl⟩
    · intro hv
      rw [hv.2 hno]
  | some z =>
    have hz := (lookup_eq_some hk).mp hg
    have huniq : ∀ w, (name, w) ∈ given → w = z := by
      intro w hw
      have := (lookup_eq_some hk).mpr hw
      rw [hg] at this
      cases this
      rfl
    dsimp only
    constructor
    · intro hv
      refine ⟨fun w hw => ?_, fun hno => absurd hz (hno z)⟩
      rw [huniq w hw]
      split
      · next hn => rw [if_pos hn] at hv; cases hv; rfl
      · next hn => rw [if_neg hn] at hv; exact (hR _ _).mp hv
    · intro hv
      have := hv.1 z hz
      split
      · next hn => rw [if_pos hn] at this; rw [this]
      · next hn => rw [if_neg hn] at this; exact (hR _ _).mpr this

theorem lookup_perm {ps qs : List (String × Obj)} (hk : (ps.map Prod.fst).Nodup) (hp : ps.Perm qs) (name : String) :
    ps.lookup name = qs.lookup name := by
  have hk' : (qs.map Prod.fst).Nodup := (hp.map Prod.fst).nodup_iff.mp hk
  cases h : qs.lookup name with
  | some z => exact (lookup_eq_some hk).mpr (hp.mem_iff.mpr ((lookup_eq_some hk').mp h))
  | none =>
    cases h' : ps.lookup name with
    | none => rfl
    | some z =>
      rw [(lookup_eq_some hk').mpr (hp.mem_iff.mp ((lookup_eq_some hk).mp h'))] at h
      cases h

theorem readOpts_congr {u : Nat} {ps qs : List (String × Obj)} (h : ∀ p, p ∈ ps ↔ p ∈ qs) (hl : ∀ n, ps.lookup n = qs.lookup n) :
    readOpts u ps = readOpts u qs := by
  have hg : ∀ {β : Type} n (conv : Obj → Except OptErr β) d, get ps n conv d = get qs n conv d := by
    intro β n conv d
    unfold get
    rw [hl]
  have ha : ps.all (fun p => names.contains p.1) = qs.all (fun p => names.contains p.1) := by
    rw [Bool.eq_iff_iff, List.all_eq_true, List.all_eq_true]
    exact ⟨fun k p hp => k p ((h p).mpr hp), fun k p hp => k p ((h p).mp hp)⟩
  unfold readOpts
  rw [ha]
  simp only [hg]

/-- `readOpts` reads the random number only if no seed is given. -/
theorem readOpts_seed {u u' : Nat} {ps : List (String × Obj)} {z : Obj} (hz : ps.lookup "random_seed" = some z) (hn : z.isNone = false) :
    readOpts u ps = readOpts u' ps := by
  have : get ps "random_seed" toSeed u = get ps "random_seed" toSeed u' := by
    unfold get
    rw [hz]
    simp [hn]
  unfold readOpts
  rw [this]

theorem call_eq_answer {α : Type} [DecidableEq α] {pin : α → Nat → α} {sort : List (List Nat) → List (List Nat)} {C : Cfg}
    {A : Params} {ro : Bool} {a : Args α} {t : Tape} {P : Parsed α} (hp : a.parse pin = .ok P) :
    call pin sort C A ro a t = answer P ro (findEmbedding sort C A ro P.input t) := by
  unfold call
  rw [hp]
  rfl

theorem parse_ok {α : Type} [DecidableEq α] {pin : α → Nat → α} {a : Args α} {P : Parsed α} (hp : a.parse pin = .ok P)
    (hA : a.OK) : P.input.OK ∧ (a.restr = [] → P.input.restrC = []) := by
  obtain ⟨S0, T0, isoS, isoT, fx, h1, h2, h3, h4, h5, h6, h7, h8⟩ := (parse_spec hp hA.fkeys).ex
  have X : Ctx pin a P S0 T0 isoS isoT fx := ⟨h1, h2, h3, h4, h5, h6, h7, h8⟩
  refine ⟨X.ok hA, fun hr => ?_⟩
  have := X.res
  rw [hr] at this
  unfold chainmap at this
  injection this with this
  exact this.symm

end Py
end MM
