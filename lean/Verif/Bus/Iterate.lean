import Verif.Bus.Clique

/-! Model of `clique_iterator` (include/busclique/clique_cache.hpp 240-343): one after the other, the largest cliques that
`clique_cache` has found for a width. -/

namespace MM
namespace Bus

/-- An entry of `stack` (clique_cache.hpp 246): the size of the embedding, a cell and the corners not used yet. -/
structure Frame where
  n : Nat
  y : Nat
  x : Nat
  c : Nat
  deriving DecidableEq, Repr

/-- The members of `clique_iterator` that change (clique_cache.hpp 245-247); the last entries of `basepoints` and `stack` come first. -/
structure Iter where
  base : List (Nat × Nat × Nat)
  stack : List Frame
  emb : List (List Nat)
  deriving DecidableEq, Repr

/-- The constructor (clique_cache.hpp 250-269): all cells of the last table with the best score. -/
def iterStart (T : Topo) (W : Nat) (mem : List Nat) : B Iter := do
  let t ← tabAt T W mem (W - 1)
  let r ← ((List.range t.rows).flatMap fun y => (List.range t.cols).map fun x => (y, x)).foldlM (fun (st : Nat × List (Nat × Nat × Nat)) p => do
    let s ← tabScore mem t p.1 p.2
    if s < st.1 then pure st
    else do
      let c ← tabCorners mem t p.1 p.2
      pure (s, (p.1, p.2, c) :: (if st.1 < s then [] else st.2))) (0, [])
  pure { base := r.2, stack := [], emb := [] }

/-- The first loop of `advance` (clique_cache.hpp 278-287). -/
def peel (emb : List (List Nat)) : List Frame → List Frame × List (List Nat)
  | [] => ([], emb)
  | f :: S => if f.c ≠ 0 then (f :: S, emb.take f.n) else peel emb S

/-- `lc ^ bc`, where `lc` is the first of the corners `bc` (clique_cache.hpp 199, 211, 327). -/
def otherCorners (c : Nat) : B Nat := do
  let m ← dropFirst (BitVec.ofNat 8 c)
  pure m.toNat

/-- `grow_stack` (clique_cache.hpp 295-335). -/
def growStack (T : Topo) (lines : List Byte) (W : Nat) (mem : List Nat) (I : Iter) : B (Iter × Bool) :=
  match I.stack with
  | [] =>
    match I.base with
    | [] => pure (I, false)
    | (y, x, c) :: b => do
      let (emb, y, x) ← inflateFirst T lines I.emb y x (W - 1) 0 c
      let t ← tabBefore T W mem W
      let c ← tabCorners mem t y x
      pure ({ base := b, stack := [⟨emb.length, y, x, c⟩], emb := emb }, true)
  | f :: S =>
    if S.length + 1 < W then do
      let (emb, y, x) ← inflateFirst T lines I.emb f.y f.x (W - (S.length + 1) - 1) (S.length + 1) f.c
      let c' ← otherCorners f.c
      if S.length + 1 < W - 1 then do
        let t ← tabAt T W mem (W - 2 - (S.length + 1))
        let c ← tabCorners mem t y x
        pure ({ base := I.base, stack := ⟨emb.length, y, x, c⟩ :: { f with c := c' } :: S, emb := emb }, true)
      else pure ({ base := I.base, stack := { f with c := c' } :: S, emb := emb }, false)
    else pure (I, false)

/-- `while(grow_stack());` (clique_cache.hpp 291). -/
def growLoop (T : Topo) (lines : List Byte) (W : Nat) (mem : List Nat) : Nat → Iter → B Iter
  | 0, _ => .error .diverge
  | fuel + 1, I => do
    let (I, more) ← growStack T lines W mem I
    if more then growLoop T lines W mem fuel I else pure I

/-- `advance` (clique_cache.hpp 271-293); the loop grows the stack at most `W` times. -/
def advance (T : Topo) (lines : List Byte) (W : Nat) (mem : List Nat) (I : Iter) : B Iter :=
  let (S, emb) := peel I.emb I.stack
  growLoop T lines W mem (W + 1) { base := I.base, stack := S, emb := if S = [] then [] else emb }

/-- `next` (clique_cache.hpp 337-344): the embedding, or `none` for `false`. -/
def iterNext (T : Topo) (lines : List Byte) (W : Nat) (mem : List Nat) (I : Iter) : B (Iter × Option (List (List Nat))) := do
  let I ← advance T lines W mem I
  pure (I, if I.emb = [] then none else some I.emb)

/-- What the first `n` calls of `next` return. -/
def iterCalls (T : Topo) (lines : List Byte) (W : Nat) (mem : List Nat) : Nat → Iter → B (List (Option (List (List Nat))))
  | 0, _ => pure []
  | n + 1, I => do
    let (I, r) ← iterNext T lines W mem I
    let rs ← iterCalls T lines W mem n I
    pure (r :: rs)

/-- A cache for a width, an iterator over it, and what its first `n` calls return. -/
def iterate (T : Topo) (lines : List Byte) (check : Ell → Bool) (W n : Nat) : B (List (Option (List (List Nat)))) := do
  let mem ← cliqueCache T lines check W
  let I ← iterStart T W mem
  iterCalls T lines W mem n I

end Bus
end MM
