import Verif.Kde
import Verif.LshProb

/-!
# Model of `stag_lib/kde.cpp`: the CKNS kernel density estimator

The two query functions are modelled over an abstract number type `R` with arbitrary operations
(`Arith`): nothing is assumed about them, so what is proved of the relation between the two holds
for floating point as well.
-/

namespace Stag

open Pool

/-! ## The queries -/

/-- The arithmetic of a query. -/
structure Arith (R : Type) where
  zero : R
  add : R → R → R
  /-- `median` (`stag_lib/kde.cpp:448-453`), of a non-empty vector. -/
  median : List R → R
  /-- The test `log(mu) >= 1.3 * log_nmu` for the iteration (`stag_lib/kde.cpp:553,614`). -/
  accept : Nat → R → Bool
  /-- Division by `n` (`stag_lib/kde.cpp:554,583,615,623`). -/
  divN : R → R

section
variable {R : Type} (A : Arith R)

/-- The loop over the levels for one copy (`stag_lib/kde.cpp:604-606`): `u j` is the answer of the
`j`-th hash unit. -/
def copyEstimate (u : Nat → R) (J : Nat) : R :=
  (List.range (J + 1)).foldl (fun e j => A.add e (u j)) A.zero

/-- The median of the estimates of the `k1` copies (`stag_lib/kde.cpp:600-609`). -/
def muEstimate (k1 J : Nat) (u : Nat → Nat → R) : R :=
  A.median ((List.range k1).map (fun iter => copyEstimate A (u iter) J))

/-- The loop of `CKNSGaussianKDE::query(q)` (`stag_lib/kde.cpp:591-623`) from iteration `it` on,
with `m` iterations left; `u it iter j` is the answer of the hash unit. -/
def queryLoop (k1 : Nat) (J : Nat → Nat) (u : Nat → Nat → Nat → R) : Nat → Nat → R → R
  | _, 0, last => A.divN last
  | it, m + 1, _ =>
    let est := muEstimate A k1 (J it) (u it)
    if A.accept it est then A.divN est else queryLoop k1 J u (it + 1) m est

/-- `iter_estimates[i][iter] += v` (`stag_lib/kde.cpp:544`). -/
def addEstimate (iter i : Nat) (v : R) (e : Nat → List R) : Nat → List R :=
  fun i' => if i' = i then (e i).modify iter (fun x => A.add x v) else e i'

/-- The loops over copies, levels and unsolved queries (`stag_lib/kde.cpp:538-547`).  `ord` gives
the order in which the `unordered_set` is traversed, possibly another one each time. -/
def iterEstimates (k1 J : Nat) (u : Nat → Nat → Nat → R) (ord : Nat → Nat → List Nat → List Nat)
    (unsolved : List Nat) : Nat → List R :=
  (List.range k1).foldl (fun e iter =>
    (List.range (J + 1)).foldl (fun e j =>
      (ord iter j unsolved).foldl (fun e i => addEstimate A iter i (u i iter j) e) e) e)
    (fun _ => List.replicate k1 A.zero)

/-- The local variables of `chunk_query`. -/
structure ChunkState (R : Type) where
  results : List R
  unsolved : List Nat
  last : Nat → R

/-- The body of the loop over the unsolved queries (`stag_lib/kde.cpp:550-565`); `newly` collects
`newly_solved`. -/
def solveOne (lo it : Nat) (est : Nat → List R) (x : (List R × (Nat → R)) × List Nat) (i : Nat) :
    (List R × (Nat → R)) × List Nat :=
  let mu := A.median (est i)
  let last := fun i' => if i' = i then mu else x.1.2 i'
  if A.accept it mu then ((x.1.1.set (i - lo) (A.divN mu), last), x.2 ++ [i])
  else ((x.1.1, last), x.2)

/-- One iteration over `log_nmu` (`stag_lib/kde.cpp:526-574`); `ord` and `ord'` are the orders of
the traversals. -/
def chunkIteration (lo k1 : Nat) (J : Nat → Nat) (u : Nat → Nat → Nat → Nat → R)
    (ord : Nat → Nat → List Nat → List Nat) (ord' : List Nat → List Nat) (it : Nat)
    (s : ChunkState R) : ChunkState R :=
  let est := iterEstimates A k1 (J it) (fun i iter j => u i it iter j) ord s.unsolved
  let x := (ord' s.unsolved).foldl (solveOne A lo it est) ((s.results, s.last), [])
  ⟨x.1.1, x.2.foldl (fun us i => us.erase i) s.unsolved, x.1.2⟩

/-- `CKNSGaussianKDE::chunk_query` (`stag_lib/kde.cpp:511-586`) on the rows `lo ≤ i < hi`;
`u i it iter j` is the answer of the hash unit for row `i`.  The orders of all the traversals of the
`unordered_set` are parameters. -/
def chunkQuery (k1 iters : Nat) (J : Nat → Nat) (u : Nat → Nat → Nat → Nat → R)
    (ord : Nat → Nat → Nat → List Nat → List Nat) (ord' : Nat → List Nat → List Nat)
    (lo hi : Nat) : List R :=
  let s₀ : ChunkState R :=
    ⟨List.replicate (hi - lo) A.zero, List.range' lo (hi - lo), fun _ => A.zero⟩
  let s := (List.range iters).foldl
    (fun s it => chunkIteration A lo k1 J u (ord it) (ord' it) it s) s₀
  (ord' iters s.unsolved).foldl (fun r i => r.set (i - lo) (A.divN (s.last i))) s.results

end

/-! ## The estimator -/

/-- `CKNSGaussianKDE` (`stag_lib/kde.h`); `units it iter` is `hash_units[log_nmu_iter][iter]`. -/
structure Ckns where
  n : Nat
  a : ℝ
  maxLogNmu : Int
  iters : Nat
  k1 : Nat
  units : Nat → Nat → List HashUnit

/-- `log_nmu` of an iteration (`stag_lib/kde.cpp:342,529,594`). -/
def Ckns.logNmu (maxLogNmu : Int) (it : Nat) : Int := maxLogNmu - (it * 2 : Nat)

/-- `median` (`stag_lib/kde.cpp:448-453`): `nth_element` leaves the element of rank `size / 2` in
place. -/
noncomputable def medianReal (v : List ℝ) : ℝ :=
  (v.mergeSort (fun x y => decide (x ≤ y))).getD (v.length / 2) 0

/-- The operations of the estimator, in real arithmetic: `log(0)` is minus infinity. -/
noncomputable def Ckns.arith (c : Ckns) : Arith ℝ where
  zero := 0
  add := fun x y => x + y
  median := medianReal
  accept := fun it mu => decide (0 < mu ∧ 1.3 * (Ckns.logNmu c.maxLogNmu it : ℝ) ≤ Real.log mu)
  divN := fun x => x / c.n

/-- `J` of an iteration (`stag_lib/kde.cpp:343,530,595`); the loop `j <= J` runs `J + 1` times. -/
noncomputable def Ckns.J (c : Ckns) (it : Nat) : Nat :=
  (cknsJ c.n (Ckns.logNmu c.maxLogNmu it)).toNat

/-- `hash_units[it][iter][j].query(q)`.  The unit at position `j` exists: the constructor makes
`J + 1` of them (`C49_grid`). -/
noncomputable def Ckns.unitQuery (c : Ckns) (q : List ℝ) (it iter j : Nat) : ℝ :=
  (((c.units it iter)[j]?).map (fun h => h.query q)).getD 0

/-- `CKNSGaussianKDE::query(q)` (`stag_lib/kde.cpp:588-624`).  With no copies the median of an empty
vector is read. -/
noncomputable def Ckns.query (c : Ckns) (q : List ℝ) : Outcome ℝ :=
  if c.k1 = 0 ∧ c.iters ≠ 0 then .ub
  else .ok (queryLoop c.arith c.k1 c.J (c.unitQuery q) 0 c.iters 0)

/-- The answers for the rows `lo ≤ i < hi`. -/
noncomputable def Ckns.answers (c : Ckns) (points : List (List ℝ))
    (ord : Nat → Nat → Nat → Nat → List Nat → List Nat) (ord' : Nat → Nat → List Nat → List Nat)
    (lo hi : Nat) : List ℝ :=
  chunkQuery c.arith c.k1 c.iters c.J (fun i => c.unitQuery (points.getD i [])) (ord lo) (ord' lo)
    lo hi

/-- `CKNSGaussianKDE::query(DenseMat*)` (`stag_lib/kde.cpp:455-509`) with `threads` threads: the
possible results.  `ord lo` and `ord' lo` are the traversal orders in the chunk that starts at row
`lo`: arbitrary permutations. -/
def Ckns.BatchQuery (c : Ckns) (points : List (List ℝ)) (threads : Nat)
    (out : Outcome (List ℝ)) : Prop :=
  ∃ (ord : Nat → Nat → Nat → Nat → List Nat → List Nat) (ord' : Nat → Nat → List Nat → List Nat),
    (∀ lo it iter j l, (ord lo it iter j l).Perm l) ∧ (∀ lo it l, (ord' lo it l).Perm l) ∧
    if c.k1 = 0 ∧ c.iters ≠ 0 ∧ points ≠ [] ∧ threads ≠ 0 then out = .ub
    else if points.length < threads then out = .ok (c.answers points ord ord' 0 points.length)
    else ParallelBatch (c.answers points ord ord') 0 points.length threads out

/-! ## The constructor -/

/-- The hash units to make, in the order in which the tasks are pushed
(`stag_lib/kde.cpp:338-350`): copy, iteration, level. -/
def unitSpecs (k1 iters : Nat) (J : Nat → Nat) : List (Nat × Nat × Nat) :=
  (List.range k1).flatMap (fun iter => (List.range iters).flatMap (fun it =>
    (List.range (J it + 1)).map (fun j => (iter, it, j))))

/-- `hash_units.at(log_nmu_iter).at(iter).push_back(new_hash_unit)` (`stag_lib/kde.cpp:440`). -/
def pushUnit (it iter : Nat) (h : HashUnit) (g : Nat → Nat → List HashUnit) :
    Nat → Nat → List HashUnit :=
  fun it' iter' => if it' = it ∧ iter' = iter then g it iter ++ [h] else g it' iter'

/-- The tasks of the constructor (`stag_lib/kde.cpp:355-364`, `add_hash_unit`,
`stag_lib/kde.cpp:429-443`): `mk iter it j` is the unit made by the task; adding it to the grid is
done under a mutex and so is one atomic action. -/
def unitTasks (specs : List (Nat × Nat × Nat)) (mk : Nat → Nat → Nat → HashUnit) :
    Tasks (Nat → Nat → List HashUnit) Int where
  acts := fun t => match specs[t]? with
    | none => []
    | some x => [pushUnit x.2.1 x.1 (mk x.1 x.2.1 x.2.2)]
  val := fun _ _ => 0

/-- `min_log_nmu` (`stag_lib/kde.cpp:311`). -/
noncomputable def cknsMinLog (n : Nat) (minMu : ℝ) : Int := ⌊Real.logb 2 (n * minMu)⌋

/-- `max_log_nmu` (`stag_lib/kde.cpp:312`). -/
noncomputable def cknsMaxLog (n : Nat) : Int := ⌈Real.logb 2 n⌉

/-- `num_log_nmu_iterations` (`stag_lib/kde.cpp:315`). -/
noncomputable def numIterations (n : Nat) (minMu : ℝ) : Int :=
  ⌈((cknsMaxLog n - cknsMinLog n minMu : Int) : ℝ) / 2⌉ + 1

/-- `CKNSGaussianKDE::initialize` (`stag_lib/kde.cpp:285-380`) on `n ≥ 1` rows with
`0 < min_mu ≤ 1` and `threads` threads: the estimators it may return.  `copies iter` are the rows of
the permuted copy `iter` (`stag_lib/kde.cpp:328-334`), `fs iter it j` the random hash functions drawn
by the hash unit.  Simplifications: `K1` is not negative, and the random numbers are given (the
tasks draw them from one unsynchronised generator, see C60). -/
def Ckns.Create (a minMu : ℝ) (n k1 : Nat) (offset : Int) (copies : Nat → List (List ℝ))
    (fs : Nat → Nat → Nat → List (MultiLsh ℝ)) (threads : Nat) (c : Ckns) : Prop :=
  ∃ mk : Nat → Nat → Nat → HashUnit,
    let iters := (numIterations n minMu).toNat
    let J := fun it => (cknsJ n (Ckns.logNmu (cknsMaxLog n) it)).toNat
    (∀ iter it j, iter < k1 → it < iters → j ≤ J it →
      HashUnit.create a (copies iter) (Ckns.logNmu (cknsMaxLog n) it) j offset (fs iter it j)
        = .ok (mk iter it j)) ∧
    ∃ (m k : Nat) (s : State (Nat → Nat → List HashUnit) Int),
      Exec (unitTasks (unitSpecs k1 iters J) mk)
        (init threads (fun _ _ => []) (libProg (unitSpecs k1 iters J).length [false, true])) m k s ∧
      Complete s ∧
      c = ⟨n, a, cknsMaxLog n, iters, k1, s.shared⟩

/-! ## Parameters and constructors -/

/-- `ckns_gaussian_create_lsh_params` (`stag_lib/kde.cpp:142-157`): the number of hash functions of a table
and the number of tables of the unit of level `j ≥ 1`. -/
noncomputable def cknsLshParams (J j : Int) (a k2 : ℝ) : Nat × Nat :=
  let r := Real.sqrt ((j : ℝ) * Real.log 2 / a)
  let p := lshCollision r
  let phi : Int := ⌈((j : ℝ) / (J : ℝ)) * ((J - j + 1 : Int) : ℝ)⌉
  ((max 1 ⌊-(phi : ℝ) / Real.logb 2 p⌋).toNat, ⌈k2 * (2 : ℝ) ^ phi⌉.toNat)

/-- What the constructor draws (`stag_lib/kde.cpp:328-334` and `stag_lib/kde.cpp:218-228`): the copies are
permutations of the rows, and the unit of level `j` gets as many tables of as many hash functions as its
parameters say. -/
structure Ckns.Drawn (rows : List (List ℝ)) (a k2 : ℝ) (k1 : Nat) (copies : Nat → List (List ℝ))
    (fs : Nat → Nat → Nat → List (MultiLsh ℝ)) : Prop where
  perm : ∀ iter < k1, (copies iter).Perm rows
  tables : ∀ iter it j, (fs iter it j).length =
    (cknsLshParams (cknsJ rows.length (Ckns.logNmu (cknsMaxLog rows.length) it)) j a k2).2
  functions : ∀ iter it j, ∀ f ∈ fs iter it j, f.fns.length =
    (cknsLshParams (cknsJ rows.length (Ckns.logNmu (cknsMaxLog rows.length) it)) j a k2).1

/-- `K1` of the simple constructors (`stag_lib/kde.cpp:387,394,403`), `K1_DEFAULT_CONSTANT` is 1. -/
noncomputable def cknsK1 (n : Nat) (eps : ℝ) : Int := ⌈1 * Real.log n / (eps * eps)⌉

/-- `CKNSGaussianKDE(data, a, min_mu, K1, K2_constant, prob_offset)` (`stag_lib/kde.cpp:410-417`) on the rows
of the data. -/
def Ckns.NewFull (rows : List (List ℝ)) (a minMu : ℝ) (k1 : Nat) (k2 : ℝ) (offset : Int) (threads : Nat)
    (c : Ckns) : Prop :=
  ∃ copies fs, Ckns.Drawn rows a k2 k1 copies fs ∧
    Ckns.Create a minMu rows.length k1 offset copies fs threads c

/-- `CKNSGaussianKDE(data, a, eps, min_mu)` (`stag_lib/kde.cpp:382-390`), with the default constants of
`stag_lib/kde.cpp:22-25`. -/
def Ckns.New4 (rows : List (List ℝ)) (a eps minMu : ℝ) (threads : Nat) (c : Ckns) : Prop :=
  Ckns.NewFull rows a minMu (cknsK1 rows.length eps).toNat (1 * Real.log rows.length) 0 threads c

/-- `CKNSGaussianKDE(data, a, eps)` (`stag_lib/kde.cpp:400-408`). -/
def Ckns.New3 (rows : List (List ℝ)) (a eps : ℝ) (threads : Nat) (c : Ckns) : Prop :=
  Ckns.New4 rows a eps (1 / rows.length) threads c

/-- `CKNSGaussianKDE(data, a)` (`stag_lib/kde.cpp:392-398`): `EPS_DEFAULT` is 1 (the documentation says
0.5). -/
def Ckns.New2 (rows : List (List ℝ)) (a : ℝ) (threads : Nat) (c : Ckns) : Prop :=
  Ckns.New3 rows a 1 threads c

/-- The rows `min_idx, …, max_idx - 1` for the constructor with a range (`stag_lib/kde.cpp:419-427`,
`stag_lib/kde.cpp:298-300,332`); out of range is undefined. -/
def Ckns.NewRange (data : Mat ℝ) (a minMu : ℝ) (k1 : Nat) (k2 : ℝ) (offset : Int) (lo hi : Nat)
    (threads : Nat) (c : Ckns) : Prop :=
  lo < hi ∧ hi ≤ data.rows ∧
    Ckns.NewFull ((List.range (hi - lo)).map (fun t => data.row (lo + t))) a minMu k1 k2 offset threads c

end Stag
