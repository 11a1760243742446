import Verif.Model.Radial

/-!
# Model of `calculations/find_pols_coeffs.py` and of the functions using it

Coefficient dictionaries `{order: coefficient}` always have the contiguous keys `0 .. k`, inserted in this order, so they are
lists (`d[i]` is the coefficient of `r ^ i`). The two module-level dictionaries and the two `lru_cache` tables are the state. The
testing mode (`use_test_dict=True`, used only by the developer checks at the end of that file) is left out: it has its own
dictionaries and its own keys in the `lru_cache`.
-/

namespace Verif.Model

/-- A coefficient dictionary with keys `0 .. length - 1`, /repo/src/zernpy/calculations/find_pols_coeffs.py:14-54. -/
abbrev Coeffs := List Int

/-- `d.items()`, /repo/src/zernpy/calculations/calc_zernike_pol.py:489-505. -/
def itemsFrom (k : Nat) : Coeffs → List (Int × Int)
  | [] => []
  | v :: t => ((k : Int), v) :: itemsFrom (k + 1) t

/-- The loop over `defined_coeff.items()`, /repo/src/zernpy/calculations/find_pols_coeffs.py:46-53. -/
def makeLoop (maxOrder : Int) (minus : Bool) : List (Int × Int) → Coeffs → Res Coeffs
  | [], acc => .ok acc
  | (key, value) :: t, acc =>
    if 0 ≤ key ∧ key ≤ maxOrder then makeLoop maxOrder minus t (acc.set key.toNat (if minus then -value else value))
    else .error .valueError

/-- `make_orders_coeffs`, /repo/src/zernpy/calculations/find_pols_coeffs.py:14-54. -/
def makeOrdersCoeffs (items : List (Int × Int)) (maxOrder : Int) (minus : Bool) : Res Coeffs :=
  makeLoop maxOrder minus items (List.replicate (maxOrder + 1).toNat 0)

/-- The loop of `increase_order_coeffs`; setting the key after the last one appends,
/repo/src/zernpy/calculations/find_pols_coeffs.py:135-137. -/
def increaseLoop : List (Int × Int) → Coeffs → Coeffs
  | [], acc => acc
  | (key, value) :: t, acc =>
    if value ≠ 0 then
      increaseLoop t (if (key + 1).toNat < acc.length then acc.set (key + 1).toNat value else acc ++ [value])
    else increaseLoop t acc

/-- `increase_order_coeffs` (`max` of no keys is a `ValueError`),
/repo/src/zernpy/calculations/find_pols_coeffs.py:115-138. -/
def increaseOrderCoeffs (d : Coeffs) : Res Coeffs :=
  if d.length = 0 then .error .valueError
  else .ok (increaseLoop (itemsFrom 0 d) (List.replicate d.length 0))

/-- `coefficients[key] += value` over one dictionary, /repo/src/zernpy/calculations/find_pols_coeffs.py:165-166. -/
def sumLoop : List (Int × Int) → Coeffs → Res Coeffs
  | [], acc => .ok acc
  | (key, value) :: t, acc =>
    if 0 ≤ key ∧ key.toNat < acc.length then sumLoop t (acc.set key.toNat (acc.getD key.toNat 0 + value))
    else .error .keyError

/-- The loop over `args`, /repo/src/zernpy/calculations/find_pols_coeffs.py:164-166. -/
def sumArgs : List Coeffs → Coeffs → Res Coeffs
  | [], acc => .ok acc
  | d :: t, acc => do
    let acc' ← sumLoop (itemsFrom 0 d) acc
    sumArgs t acc'

/-- `sum_orders_coeffs`, /repo/src/zernpy/calculations/find_pols_coeffs.py:141-170. -/
def sumOrdersCoeffs (maxOrder : Int) (args : List Coeffs) : Res Coeffs := do
  let acc ← sumArgs args (List.replicate (maxOrder + 1).toNat 0)
  if maxOrder < 0 then .error .keyError
  else if acc.getD maxOrder.toNat 0 = 0 then .ok (acc.take maxOrder.toNat) else .ok acc

/-- `check_special_orders`, /repo/src/zernpy/calculations/find_pols_coeffs.py:173-194. -/
def checkSpecialOrders (m n : Int) : Res (Option Coeffs) :=
  if pyAbs m = n then (makeOrdersCoeffs [(n, 1)] n false).map some
  else if pyAbs m = n - 2 then (makeOrdersCoeffs [(n, n), (n - 2, -(n - 1))] n false).map some
  else .ok none

/-- `check_special_orders_dr`, /repo/src/zernpy/calculations/find_pols_coeffs.py:197-218. -/
def checkSpecialOrdersDr (m n : Int) : Res (Option Coeffs) :=
  if pyAbs m = n then (makeOrdersCoeffs [(n - 1, n)] (n - 1) false).map some
  else if pyAbs m = n - 2 then
    (makeOrdersCoeffs [(n - 1, n * n), (n - 3, -(n - 1) * (n - 2))] (n - 1) false).map some
  else .ok none

/-- A dictionary keyed by orders `(m, n)`, /repo/src/zernpy/calculations/find_pols_coeffs.py:57-112. -/
abbrev Table := List ((Int × Int) × Coeffs)

/-- Key of the `lru_cache`: the orders, and whether `use_test_dict` was passed explicitly (`f((m, n), False)` and `f((m, n))` have
different keys), /repo/src/zernpy/calculations/find_pols_coeffs.py:221-222,/repo/src/zernpy/calculations/find_pols_coeffs.py:284-285. -/
abbrev LruKey := (Int × Int) × Bool

/-- Contents of an `lru_cache`, most recently used first, /repo/src/zernpy/calculations/find_pols_coeffs.py:221,/repo/src/zernpy/calculations/find_pols_coeffs.py:284. -/
abbrev Lru := List (LruKey × Coeffs)

/-- The process-wide state: the dictionaries `precalculated_initial_coeffs` and `precalculated_initial_coeffs_dr`, and the
`lru_cache` of the two decorated functions, /repo/src/zernpy/calculations/find_pols_coeffs.py:69,98,221,284. -/
structure CoefState where
  vals : Table
  drs : Table
  lru : Lru
  lruDr : Lru

/-- A computation that may raise and keeps its side effects when it does, the functions at /repo/src/zernpy/calculations/find_pols_coeffs.py:222-355. -/
def CM (β : Type) := CoefState → Res β × CoefState

/-- Sequencing of computations, the functions at /repo/src/zernpy/calculations/find_pols_coeffs.py:222-355. -/
instance : Monad CM where
  pure v := fun s => (.ok v, s)
  bind x f := fun s => match x s with
    | (.ok v, s') => f v s'
    | (.error e, s') => (.error e, s')

/-- A computation without side effects, the functions at /repo/src/zernpy/calculations/find_pols_coeffs.py:222-355. -/
def CM.lift {β : Type} (x : Res β) : CM β := fun s => (x, s)

/-- Raise an exception, /repo/src/zernpy/calculations/find_pols_coeffs.py:41-54. -/
def CM.raise {β : Type} (e : PyErr) : CM β := fun s => (.error e, s)

/-- `if orders not in table.keys(): table[orders] = d`, /repo/src/zernpy/calculations/find_pols_coeffs.py:256-280,/repo/src/zernpy/calculations/find_pols_coeffs.py:320-354. -/
def putNew (k : Int × Int) (d : Coeffs) (t : Table) : Table :=
  match t.lookup k with
  | some _ => t
  | none => t ++ [(k, d)]

/-- Store in `precalculated_initial_coeffs` if absent, e.g. /repo/src/zernpy/calculations/find_pols_coeffs.py:257-258. -/
def putVal (k : Int × Int) (d : Coeffs) : CM Unit := fun s => (.ok (), { s with vals := putNew k d s.vals })

/-- Store in `precalculated_initial_coeffs_dr` if absent, e.g. /repo/src/zernpy/calculations/find_pols_coeffs.py:320-321. -/
def putDr (k : Int × Int) (d : Coeffs) : CM Unit := fun s => (.ok (), { s with drs := putNew k d s.drs })

/-- `maxsize=128` of `lru_cache`, /repo/src/zernpy/calculations/find_pols_coeffs.py:221,284. -/
def lruSize : Nat := 128

/-- A hit moves the entry to the front, /repo/src/zernpy/calculations/find_pols_coeffs.py:221,/repo/src/zernpy/calculations/find_pols_coeffs.py:284. -/
def lruTouch (k : LruKey) (d : Coeffs) (c : Lru) : Lru := (k, d) :: c.filter (fun e => e.1 ≠ k)

/-- Inserting a result evicts the least recently used entry of a full cache, /repo/src/zernpy/calculations/find_pols_coeffs.py:221,/repo/src/zernpy/calculations/find_pols_coeffs.py:284. -/
def lruInsert (k : LruKey) (d : Coeffs) (c : Lru) : Lru := ((k, d) :: c).take lruSize

/-- `lru_cache` on `find_coeffs_orders`, /repo/src/zernpy/calculations/find_pols_coeffs.py:221. -/
def cachedVal (k : LruKey) (body : CM Coeffs) : CM Coeffs := fun s =>
  match s.lru.lookup k with
  | some d => (.ok d, { s with lru := lruTouch k d s.lru })
  | none => match body s with
    | (.ok d, s') => (.ok d, { s' with lru := lruInsert k d s'.lru })
    | (.error e, s') => (.error e, s')

/-- `lru_cache` on `find_coeffs_orders_dr`, /repo/src/zernpy/calculations/find_pols_coeffs.py:284. -/
def cachedDr (k : LruKey) (body : CM Coeffs) : CM Coeffs := fun s =>
  match s.lruDr.lookup k with
  | some d => (.ok d, { s with lruDr := lruTouch k d s.lruDr })
  | none => match body s with
    | (.ok d, s') => (.ok d, { s' with lruDr := lruInsert k d s'.lruDr })
    | (.error e, s') => (.error e, s')

/-- `find_coeffs_orders`, /repo/src/zernpy/calculations/find_pols_coeffs.py:221-281. `explicit`: the flag `use_test_dict=False` is
passed as an argument, as the recursive calls do. -/
def findCoeffs : Nat → Bool → Int → Int → CM Coeffs
  | 0, _, _, _ => CM.raise .recursionError
  | fuel + 1, explicit, m, n => cachedVal ((m, n), explicit) fun s =>
    match s.vals.lookup (m, n) with
    | some d => (.ok d, s)
    | none => (do
      match ← CM.lift (checkSpecialOrders m n) with
      | some d =>
        putVal (m, n) d
        pure d
      | none =>
        let p1 ← findCoeffs fuel true (pyAbs (m - 1)) (n - 1)
        let p2 ← findCoeffs fuel true (m + 1) (n - 1)
        let i1 ← CM.lift (increaseOrderCoeffs p1)
        let i2 ← CM.lift (increaseOrderCoeffs p2)
        let p3 ← findCoeffs fuel true m (n - 2)
        let m3 ← CM.lift (makeOrdersCoeffs (itemsFrom 0 p3) (n - 2) true)
        let d ← CM.lift (sumOrdersCoeffs n [i1, i2, m3])
        putVal (pyAbs (m - 1), n - 1) p1
        putVal (m + 1, n - 1) p2
        pure d : CM Coeffs) s

/-- `find_coeffs_orders_dr`, /repo/src/zernpy/calculations/find_pols_coeffs.py:284-355. -/
def findCoeffsDr : Nat → Bool → Int → Int → CM Coeffs
  | 0, _, _, _ => CM.raise .recursionError
  | fuel + 1, explicit, m, n => cachedDr ((m, n), explicit) fun s =>
    match s.drs.lookup (m, n) with
    | some d => (.ok d, s)
    | none => (do
      match ← CM.lift (checkSpecialOrdersDr m n) with
      | some d =>
        putDr (m, n) d
        pure d
      | none =>
        let p1 ← findCoeffs fuel true (pyAbs (m - 1)) (n - 1)
        let p2 ← findCoeffs fuel true (m + 1) (n - 1)
        let d1 ← findCoeffsDr fuel true (pyAbs (m - 1)) (n - 1)
        let d2 ← findCoeffsDr fuel true (m + 1) (n - 1)
        let i1 ← CM.lift (increaseOrderCoeffs d1)
        let i2 ← CM.lift (increaseOrderCoeffs d2)
        let d3 ← findCoeffsDr fuel true m (n - 2)
        let m3 ← CM.lift (makeOrdersCoeffs (itemsFrom 0 d3) (n - 2) true)
        let d ← CM.lift (sumOrdersCoeffs n [p1, p2, i1, i2, m3])
        putVal (pyAbs (m - 1), n - 1) p1
        putVal (m + 1, n - 1) p2
        putDr (pyAbs (m - 1), n - 1) d1
        putDr (m + 1, n - 1) d2
        pure d : CM Coeffs) s

/-- `make_orders_coeffs` on a literal (the literals of the source are all accepted), /repo/src/zernpy/calculations/find_pols_coeffs.py:57-112. -/
def mk (items : List (Int × Int)) (maxOrder : Int) : Coeffs :=
  match makeOrdersCoeffs items maxOrder false with
  | .ok d => d
  | .error _ => []

/-- Initial `precalculated_initial_coeffs`, /repo/src/zernpy/calculations/find_pols_coeffs.py:69-84. -/
def initVals : Table :=
  [((-9, 9), mk [(9, 1)] 9),
   ((9, 9), mk [(9, 1)] 9),
   ((-7, 9), mk [(9, 9), (7, -8)] 9),
   ((7, 9), mk [(9, 9), (7, -8)] 9),
   ((-5, 9), mk [(9, 36), (7, -56), (5, 21)] 9),
   ((5, 9), mk [(9, 36), (7, -56), (5, 21)] 9),
   ((-3, 9), mk [(9, 84), (7, -168), (5, 105), (3, -20)] 9),
   ((3, 9), mk [(9, 84), (7, -168), (5, 105), (3, -20)] 9),
   ((-1, 9), mk [(9, 126), (7, -280), (5, 210), (3, -60), (1, 5)] 9),
   ((1, 9), mk [(9, 126), (7, -280), (5, 210), (3, -60), (1, 5)] 9),
   ((-6, 10), mk [(10, 45), (8, -72), (6, 28)] 10),
   ((6, 10), mk [(10, 45), (8, -72), (6, 28)] 10),
   ((-4, 10), mk [(10, 120), (8, -252), (6, 168), (4, -35)] 10),
   ((4, 10), mk [(10, 120), (8, -252), (6, 168), (4, -35)] 10),
   ((-2, 10), mk [(10, 210), (8, -504), (6, 420), (4, -140), (2, 15)] 10),
   ((2, 10), mk [(10, 210), (8, -504), (6, 420), (4, -140), (2, 15)] 10),
   ((0, 10), mk [(10, 252), (8, -630), (6, 560), (4, -210), (2, 30), (0, -1)] 10)]

/-- Initial `precalculated_initial_coeffs_dr`, /repo/src/zernpy/calculations/find_pols_coeffs.py:98-111. -/
def initDrs : Table :=
  [((-9, 9), mk [(8, 9)] 8),
   ((-7, 9), mk [(8, 81), (6, -56)] 8),
   ((-5, 9), mk [(8, 324), (6, -392), (4, 105)] 8),
   ((5, 9), mk [(8, 324), (6, -392), (4, 105)] 8),
   ((-3, 9), mk [(8, 756), (6, -1176), (4, 525), (2, -60)] 8),
   ((3, 9), mk [(8, 756), (6, -1176), (4, 525), (2, -60)] 8),
   ((-1, 9), mk [(8, 1134), (6, -1960), (4, 1050), (2, -180), (0, 5)] 8),
   ((1, 9), mk [(8, 1134), (6, -1960), (4, 1050), (2, -180), (0, 5)] 8),
   ((-6, 10), mk [(9, 450), (7, -576), (5, 168)] 9),
   ((6, 10), mk [(9, 450), (7, -576), (5, 168)] 9),
   ((-4, 10), mk [(9, 1200), (7, -2016), (5, 1008), (3, -140)] 9),
   ((4, 10), mk [(9, 1200), (7, -2016), (5, 1008), (3, -140)] 9),
   ((-2, 10), mk [(9, 2100), (7, -4032), (5, 2520), (3, -560), (1, 30)] 9),
   ((2, 10), mk [(9, 2100), (7, -4032), (5, 2520), (3, -560), (1, 30)] 9),
   ((0, 10), mk [(9, 2520), (7, -5040), (5, 3360), (3, -840), (1, 60)] 9)]

/-- The state after importing the package, /repo/src/zernpy/calculations/find_pols_coeffs.py:57-112. -/
def initState : CoefState := { vals := initVals, drs := initDrs, lru := [], lruDr := [] }

section
variable {α : Type} [Zero α] [One α] [Add α] [Sub α] [Mul α] [NatCast α] [IntCast α] [Pow α ℕ]

/-- Sum of `value * r ** key`, skipping zeros, /repo/src/zernpy/calculations/calc_zernike_pol.py:490-492. -/
def evalLoop (r : α) : List (Int × Int) → α → α
  | [], acc => acc
  | (key, value) :: t, acc => evalLoop r t (if value ≠ 0 then acc + (value : α) * r ^ key.toNat else acc)

/-- `MAX_RADIAL_ORDER_COEFFS`, /repo/src/zernpy/calculations/calc_zernike_pol.py:28. -/
def maxRadialOrderCoeffs : Int := 40

/-- `MAX_RADIAL_ORDER_COEFFS_dR`, /repo/src/zernpy/calculations/calc_zernike_pol.py:29. -/
def maxRadialOrderCoeffsDr : Int := 38

/-- `radial_polynomial_coeffs`, /repo/src/zernpy/calculations/calc_zernike_pol.py:456-506. -/
def radialPolynomialCoeffs : Nat → Int → Int → α → CM α
  | 0, _, _, _ => CM.raise .recursionError
  | fuel + 1, m, n, r =>
    if n ≤ maxRadialOrderCoeffs then do
      let d ← findCoeffs fuel false m n
      pure (evalLoop r (itemsFrom 0 d) 0)
    else if pyAbs m = n then pure (r ^ n.toNat)
    else if m = 0 then do
      let x ← radialPolynomialCoeffs fuel 1 (n - 1) r
      let y ← radialPolynomialCoeffs fuel 0 (n - 2) r
      pure (2 * r * x - y)
    else if pyAbs m = n - 2 then
      pure ((n : α) * r ^ n.toNat - ((n - 1 : Int) : α) * r ^ (n - 2).toNat)
    else do
      let x ← radialPolynomialCoeffs fuel (pyAbs (m - 1)) (n - 1) r
      let y ← radialPolynomialCoeffs fuel (m + 1) (n - 1) r
      let z ← radialPolynomialCoeffs fuel m (n - 2) r
      pure (r * (x + y) - z)

/-- `radial_polynomial_coeffs_dr`, /repo/src/zernpy/calculations/calc_zernike_pol.py:509-560. In the branch `m == 0` the code adds the
*derivative* of `(1, n-1)` where the product rule has the value. -/
def radialPolynomialCoeffsDr : Nat → Int → Int → α → CM α
  | 0, _, _, _ => CM.raise .recursionError
  | fuel + 1, m, n, r =>
    if n ≤ maxRadialOrderCoeffsDr then do
      let d ← findCoeffsDr fuel false m n
      pure (evalLoop r (itemsFrom 0 d) 0)
    else if pyAbs m = n then pure ((n : α) * r ^ (n - 1).toNat)
    else if m = 0 then do
      let x ← radialPolynomialCoeffsDr fuel 1 (n - 1) r
      let x' ← radialPolynomialCoeffsDr fuel 1 (n - 1) r
      let z ← radialPolynomialCoeffsDr fuel 0 (n - 2) r
      pure (2 * (x + r * x') - z)
    else if pyAbs m = n - 2 then
      pure ((n : α) * (n : α) * r ^ (n - 1).toNat - ((n - 1 : Int) : α) * ((n - 2 : Int) : α) * r ^ (n - 3).toNat)
    else do
      let x ← radialPolynomialCoeffs fuel (pyAbs (m - 1)) (n - 1) r
      let y ← radialPolynomialCoeffs fuel (m + 1) (n - 1) r
      let dx ← radialPolynomialCoeffsDr fuel (pyAbs (m - 1)) (n - 1) r
      let dy ← radialPolynomialCoeffsDr fuel (m + 1) (n - 1) r
      let dz ← radialPolynomialCoeffsDr fuel m (n - 2) r
      pure ((x + y) + r * (dx + dy) - dz)

end

end Verif.Model
