import Verif.Eden.Biclique
import Verif.Spec.Processor

/-! Model of the class `processor` (minorminer/utils/polynomialembedder.py 767-1165) and of the functions for coordinates (1168-1232). `random.choice` and `random.sample` are
parameters. -/

namespace MM
namespace Eden

open Spec.Eden (Qb Ell)

/-- `_to_linear` (polynomialembedder.py 1173-1176), also `_bulk_to_linear` for each qubit. -/
def toLinear (N L : Nat) (q : Qb) : Int := 2 * L * N * q.x + 2 * L * q.y + L * q.u + q.k

/-- `_to_chimera` (polynomialembedder.py 1184-1186). Divisors are not negative, so Python and Lean divide alike; division by zero is an exception. -/
def toChimera (N L : Nat) (q : Int) : Except Err Qb :=
  if N = 0 ∨ L = 0 then .error .zeroDivision else .ok ⟨q / N / L / 2, (q / L / 2) % N, (q / L) % 2, q % L⟩

/-- `_chimera_neighbors` (polynomialembedder.py 1189-1203). -/
def neighbors (M N L : Nat) (q : Qb) : List Qb :=
  ((List.range L).map fun (l : Nat) => (⟨q.x, q.y, 1 - q.u, l⟩ : Qb)) ++
    (if q.u = 0 then
      (if q.x ≠ 0 then [⟨q.x - 1, q.y, q.u, q.k⟩] else []) ++ (if q.x < M - 1 then [⟨q.x + 1, q.y, q.u, q.k⟩] else [])
    else (if q.y ≠ 0 then [⟨q.x, q.y - 1, q.u, q.k⟩] else []) ++ (if q.y < N - 1 then [⟨q.x, q.y + 1, q.u, q.k⟩] else []))

/-- `_find_evil` (polynomialembedder.py 972-990). -/
def Proc.evil (P : Proc) : List (Qb × Qb) :=
  (List.range P.M).flatMap fun (x : Nat) => (List.range P.N).flatMap fun (y : Nat) => (List.range P.L).flatMap fun (u : Nat) => (List.range P.L).flatMap fun (v : Nat) =>
    if P.has ⟨x, y, 0, u⟩ && P.has ⟨x, y, 1, v⟩ && !P.joined ⟨x, y, 1, v⟩ ⟨x, y, 0, u⟩ then [((⟨x, y, 0, u⟩ : Qb), (⟨x, y, 1, v⟩ : Qb))] else []

/-- `product(*evil)`; sets are lists of their members, in any order and with repetitions. -/
def products : List (Qb × Qb) → List (List Qb)
  | [] => [[]]
  | e :: l => [e.1, e.2].flatMap fun a => (products l).map fun d => a :: d

/-- `s < d` for sets. -/
def below (s d : List Qb) : Bool := s.all (fun q => decide (q ∈ d)) && !d.all fun q => decide (q ∈ s)

/-- The inner loop of `_compute_all_deletions` (polynomialembedder.py 823-830); `none` if it breaks. -/
def keepMin (d : List Qb) : List (List Qb) → Option (List (List Qb))
  | [] => some []
  | s :: l => if below s d then none else if below d s then keepMin d l else (keepMin d l).map fun m => s :: m

/-- One round of the outer loop. -/
def addDeletion (m : List (List Qb)) (d : List Qb) : List (List Qb) :=
  match keepMin d m with
  | none => m
  | some m' => m' ++ [d]

/-- `_compute_all_deletions` (polynomialembedder.py 817-831). -/
def Proc.deletions (P : Proc) : List (List Qb) := (products P.evil).foldl addDeletion []

/-- `_subprocessor` (polynomialembedder.py 833-841). -/
def Proc.sub (P : Proc) (d : List Qb) : Proc := { P with edges := P.edges.filter fun e => decide (e.1 ∉ d) && decide (e.2 ∉ d) }

/-- The loop of `_random_subprocessor` (polynomialembedder.py 865-868); `coin j` is the choice for the `j`-th missing coupler. -/
def randomDeletion (coin : Nat → Bool) : Nat → List (Qb × Qb) → List Qb → List Qb
  | _, [], d => d
  | j, e :: l, d => randomDeletion coin (j + 1) l (if e.1 ∈ d ∨ e.2 ∈ d then d else (if coin j then e.1 else e.2) :: d)

/-- What is random in the choice of subprocessors. -/
structure Chance where
  coin : Nat → Nat → Bool
  sample : List (List Qb) → Nat → List (List Qb)

/-- `_compute_deletions` and `_random_subprocessors` (polynomialembedder.py 843-853, 871-894): the sets of deleted qubits. -/
def Proc.chosen (P : Proc) (limit : Int) (C : Chance) : List (List Qb) :=
  if 2 ^ P.evil.length ≤ limit then P.deletions
  else if 2 ^ P.evil.length ≤ 8 * limit then (if limit < P.deletions.length then C.sample P.deletions limit.toNat else P.deletions)
  else (List.range limit.toNat).map fun i => randomDeletion (C.coin i) 0 P.evil []

/-- The loop of `_map_to_processors` (polynomialembedder.py 914-917). Subprocessor number `i` is passed to `f i`. -/
def bestOf {S T : Type} (f : Nat → Proc → Except Err (Option S × T)) (objective : Option S × T → Option S × T → Bool) :
    Nat → Option S × T → List Proc → Except Err (Option S × T)
  | _, best, [] => .ok best
  | i, best, p :: l => do
    let x ← f i p
    bestOf f objective (i + 1) (if objective best x then x else best) l

/-- `_map_to_processors` (polynomialembedder.py 896-918). -/
def Proc.mapTo {S T : Type} (P : Proc) (limit : Int) (C : Chance) (f : Nat → Proc → Except Err (Option S × T)) (objective : Option S × T → Option S × T → Bool) : Except Err T :=
  match (P.chosen limit C).map P.sub with
  | [] => .error .stop
  | p :: l => do
    let x ← f 0 p
    let b ← bestOf f objective 1 x l
    .ok b.2

/-- `_objective_bestscore` (polynomialembedder.py 920-936). -/
def bestScore {S T : Type} (lt : S → S → Bool) (old new : Option S × T) : Bool :=
  match old.1, new.1 with
  | none, _ => true
  | some _, none => false
  | some a, some b => lt a b

/-- `_objective_qubitcount` (polynomialembedder.py 938-970); `empty` is `not len`, `count` the number of qubits. -/
def fewest {S T : Type} (empty : T → Bool) (count : T → Nat) (old new : Option S × T) : Bool :=
  match old.1, new.1 with
  | none, _ => true
  | some _, none => false
  | some _, some _ => if empty new.2 then false else if empty old.2 then true else decide (count new.2 < count old.2)

/-- `measure` (polynomialembedder.py 953-954). -/
def measure (chains : List (List Qb)) : Nat := (chains.map List.length).sum

/-- Number of qubits in both sides; the value for `None` is not read. -/
def measureBoth : Option (List (List Qb) × List (List Qb)) → Nat
  | none => 0
  | some e => measure e.1 + measure e.2

/-- `nativeCliqueEmbed`, before `_translate` (polynomialembedder.py 1045-1069). -/
def Proc.nativeAll (P : Proc) (limit : Int) (C : Chance) (K : Nat → Luck) (width : Nat) : Except Err (List (List Qb)) :=
  P.mapTo limit C (fun i p => p.native ((K i).rnd width) ((K i).mix width) width) (bestScore fun a b => decide (a < b))

/-- `largestNativeClique` (polynomialembedder.py 1018-1043). -/
def Proc.largestAll (P : Proc) (limit : Int) (C : Chance) (K : Nat → Luck) (maxLength : Option Nat) : Except Err (List (List Qb)) :=
  P.mapTo limit C (fun i p => p.largest (K i) maxLength) (bestScore fun a b => decide (a < b))

/-- `tightestNativeClique` (polynomialembedder.py 992-1016). -/
def Proc.tightestAll (P : Proc) (limit : Int) (C : Chance) (K : Nat → Luck) (n : Nat) : Except Err (List (List Qb)) :=
  P.mapTo limit C (fun i p => p.tightest (K i) n) (fewest List.isEmpty measure)

/-- `largestNativeBiClique` (polynomialembedder.py 1071-1105). -/
def Proc.largestBiAll (P : Proc) (limit : Int) (C : Chance) (order : Nat → List (Nat × Nat) → List (Nat × Nat)) (imbalance maxLength : Option Int) :
    Except Err (List (List Qb) × List (List Qb)) :=
  P.mapTo limit C (fun i p => do
    let r ← p.largestBi (order i) imbalance maxLength
    .ok (some r.1, r.2)) (bestScore lexLt)

/-- `tightestNativeBiClique` (polynomialembedder.py 1107-1148). The embedding is a pair, which is not empty. -/
def Proc.tightestBiAll (P : Proc) (limit : Int) (C : Chance) (order : Nat → List (Nat × Nat) → List (Nat × Nat)) (n : Nat) (m : Option Nat) (imbalance maxLength : Option Int) :
    Except Err (Option (List (List Qb) × List (List Qb))) :=
  P.mapTo limit C (fun i p => do
    let r ← p.tightestBi (order i) n m imbalance maxLength
    .ok (r.map Prod.fst, r.map Prod.snd)) (fewest (fun _ => false) measureBoth)

/-- The couplers of a `processor` with linear labels (polynomialembedder.py 805-806). -/
def fromLinear (M N L : Nat) (E : List (Int × Int)) : Except Err Proc := do
  let edges ← E.mapM fun e => do
    let p ← toChimera N L e.1
    let q ← toChimera N L e.2
    .ok (p, q)
  .ok ⟨edges, M, N, L⟩

/-- `_translate` (polynomialembedder.py 1159-1165) with linear labels. -/
def translate (N L : Nat) (chains : List (List Qb)) : List (List Int) := chains.map fun c => c.map (toLinear N L)

/-- Order of tuples. -/
def qbLt (p q : Qb) : Bool :=
  decide (p.x < q.x) || (decide (p.x = q.x) && (decide (p.y < q.y) || (decide (p.y = q.y) && (decide (p.u < q.u) || (decide (p.u = q.u) && decide (p.k < q.k))))))

/-- All qubits (polynomialembedder.py 1225). -/
def allQubits (M N L : Nat) : List Qb :=
  (List.range M).flatMap fun (x : Nat) => (List.range N).flatMap fun (y : Nat) => [(0 : Int), 1].flatMap fun u => (List.range L).map fun (k : Nat) => ⟨x, y, u, k⟩

/-- `random_processor` (polynomialembedder.py 1206-1234) from the sample of qubits on: `qubits` are the ones that work; `sample` is the other call of `random.sample`. -/
def randomProcessor (M N L : Nat) (qubits : List Qb) (sample : List (Qb × Qb) → Nat → List (Qb × Qb)) (numEvil : Nat) : Proc :=
  let edges := (qubits.flatMap fun p => (neighbors M N L p).map fun q => (p, q)).filter fun e => decide (e.2 ∈ qubits) && qbLt e.1 e.2
  let possibly := edges.filter fun e => decide (e.1.x = e.2.x ∧ e.1.y = e.2.y)
  let gone := sample possibly (min numEvil possibly.length)
  ⟨edges.filter fun e => decide (e ∉ gone), M, N, L⟩

end Eden
end MM
