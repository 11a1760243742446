import Verif.Model.History

/-!
# Model of threads that evaluate polynomials in one process

The coefficient tables and the two `lru_cache`s are shared by all threads of the process, and nothing in the package locks them. Here the functions that use
them are programs of *atomic actions* on the shared state, as the interpreter lock of CPython makes them: the test `key in d.keys()`, the access `d[key]`, the
assignment `d[key] = value`, the lookup in an `lru_cache` and the insertion of a result in it are one action each; between two actions of a thread any number of
actions of the others can happen. All other operations work on objects of one thread. The flag of the slow-calculation warning of an object and the warnings
are left out.
-/

namespace Verif.Model

/-- The rest of the program of a thread: finished with a result or exception, or an atomic action: `u` is its effect on the shared state, `k` the rest, which
depends on the state read by it (the state before), /repo/src/zernpy/calculations/find_pols_coeffs.py:221-355. -/
inductive Prog (β : Type) : Type where
  | done (r : Res β)
  | step (u : CoefState → CoefState) (k : CoefState → Prog β)

/-- Sequencing; an exception ends the program, the functions at /repo/src/zernpy/calculations/find_pols_coeffs.py:221-355. -/
def Prog.andThen {β γ : Type} : Prog β → (β → Prog γ) → Prog γ
  | .done (.ok v), f => f v
  | .done (.error e), _ => .done (.error e)
  | .step u k, f => .step u fun s => (k s).andThen f

/-- Sequencing of programs, the functions at /repo/src/zernpy/calculations/find_pols_coeffs.py:221-355. -/
instance : Monad Prog where
  pure v := .done (.ok v)
  bind x f := x.andThen f

/-- A computation on objects of the thread, the functions at /repo/src/zernpy/calculations/find_pols_coeffs.py:115-218. -/
def Prog.lift {β : Type} (x : Res β) : Prog β := .done x

/-- `try: ... except Exception as e:` around a call made by the thread, a thread calling the methods at /repo/src/zernpy/zernikepol.py:352-585. -/
def Prog.attempt {β : Type} : Prog β → Prog (Res β)
  | .done r => .done (.ok r)
  | .step u k => .step u fun s => (k s).attempt

/-- The program run without any other thread, /repo/src/zernpy/calculations/find_pols_coeffs.py:221-355. -/
def Prog.alone {β : Type} : Prog β → CM β
  | .done r => fun s => (r, s)
  | .step u k => fun s => (k s).alone (u s)

/-- `d[key] = value` of a dictionary, /repo/src/zernpy/calculations/find_pols_coeffs.py:258,273,275. -/
def tableSet (k : Int × Int) (d : Coeffs) (t : Table) : Table :=
  match t.lookup k with
  | some _ => t.map fun e => if e.1 = k then (k, d) else e
  | none => t ++ [(k, d)]

/-- `key in precalculated_initial_coeffs.keys()`, /repo/src/zernpy/calculations/find_pols_coeffs.py:251,257,272,274. -/
def hasVal (k : Int × Int) : Prog Bool := .step id fun s => .done (.ok (s.vals.lookup k).isSome)

/-- `precalculated_initial_coeffs[key]`, /repo/src/zernpy/calculations/find_pols_coeffs.py:253. -/
def getVal (k : Int × Int) : Prog Coeffs := .step id fun s => .done (match s.vals.lookup k with | some d => .ok d | none => .error .keyError)

/-- `precalculated_initial_coeffs[key] = d`, /repo/src/zernpy/calculations/find_pols_coeffs.py:258,273,275. -/
def setVal (k : Int × Int) (d : Coeffs) : Prog Unit := .step (fun s => { s with vals := tableSet k d s.vals }) fun _ => .done (.ok ())

/-- `key in precalculated_initial_coeffs_dr.keys()`, /repo/src/zernpy/calculations/find_pols_coeffs.py:314,320,342,344. -/
def hasDr (k : Int × Int) : Prog Bool := .step id fun s => .done (.ok (s.drs.lookup k).isSome)

/-- `precalculated_initial_coeffs_dr[key]`, /repo/src/zernpy/calculations/find_pols_coeffs.py:316. -/
def getDr (k : Int × Int) : Prog Coeffs := .step id fun s => .done (match s.drs.lookup k with | some d => .ok d | none => .error .keyError)

/-- `precalculated_initial_coeffs_dr[key] = d`, /repo/src/zernpy/calculations/find_pols_coeffs.py:321,343,345. -/
def setDr (k : Int × Int) (d : Coeffs) : Prog Unit := .step (fun s => { s with drs := tableSet k d s.drs }) fun _ => .done (.ok ())

/-- `if key not in precalculated_initial_coeffs.keys(): precalculated_initial_coeffs[key] = d`: two actions, /repo/src/zernpy/calculations/find_pols_coeffs.py:257-258,272-275,338-341. -/
def storeVal (k : Int × Int) (d : Coeffs) : Prog Unit := do
  if ← hasVal k then pure () else setVal k d

/-- The same for the derivatives, /repo/src/zernpy/calculations/find_pols_coeffs.py:320-321,342-345. -/
def storeDr (k : Int × Int) (d : Coeffs) : Prog Unit := do
  if ← hasDr k then pure () else setDr k d

/-- `lru_cache` on `find_coeffs_orders`: the lookup (and the move of a found entry to the front) is one action, the insertion of the result of `body` another; if
another thread has inserted the key meanwhile, the cache is not changed, /repo/src/zernpy/calculations/find_pols_coeffs.py:221. -/
def cachedValT (key : LruKey) (body : Prog Coeffs) : Prog Coeffs :=
  .step (fun s => match s.lru.lookup key with | some d => { s with lru := lruTouch key d s.lru } | none => s) fun s =>
    match s.lru.lookup key with
    | some d => .done (.ok d)
    | none => body.andThen fun d =>
      .step (fun s => match s.lru.lookup key with | some _ => s | none => { s with lru := lruInsert key d s.lru }) fun _ => .done (.ok d)

/-- `lru_cache` on `find_coeffs_orders_dr`, /repo/src/zernpy/calculations/find_pols_coeffs.py:284. -/
def cachedDrT (key : LruKey) (body : Prog Coeffs) : Prog Coeffs :=
  .step (fun s => match s.lruDr.lookup key with | some d => { s with lruDr := lruTouch key d s.lruDr } | none => s) fun s =>
    match s.lruDr.lookup key with
    | some d => .done (.ok d)
    | none => body.andThen fun d =>
      .step (fun s => match s.lruDr.lookup key with | some _ => s | none => { s with lruDr := lruInsert key d s.lruDr }) fun _ => .done (.ok d)

/-- `find_coeffs_orders`, /repo/src/zernpy/calculations/find_pols_coeffs.py:221-281. -/
def findCoeffsT : Nat → Bool → Int → Int → Prog Coeffs
  | 0, _, _, _ => .lift (.error .recursionError)
  | fuel + 1, explicit, m, n => cachedValT ((m, n), explicit) do
    if ← hasVal (m, n) then getVal (m, n)
    else
      match ← Prog.lift (checkSpecialOrders m n) with
      | some d =>
        storeVal (m, n) d
        pure d
      | none =>
        let p1 ← findCoeffsT fuel true (pyAbs (m - 1)) (n - 1)
        let p2 ← findCoeffsT fuel true (m + 1) (n - 1)
        let i1 ← Prog.lift (increaseOrderCoeffs p1)
        let i2 ← Prog.lift (increaseOrderCoeffs p2)
        let p3 ← findCoeffsT fuel true m (n - 2)
        let m3 ← Prog.lift (makeOrdersCoeffs (itemsFrom 0 p3) (n - 2) true)
        let d ← Prog.lift (sumOrdersCoeffs n [i1, i2, m3])
        storeVal (pyAbs (m - 1), n - 1) p1
        storeVal (m + 1, n - 1) p2
        pure d

/-- `find_coeffs_orders_dr`, /repo/src/zernpy/calculations/find_pols_coeffs.py:284-355. -/
def findCoeffsDrT : Nat → Bool → Int → Int → Prog Coeffs
  | 0, _, _, _ => .lift (.error .recursionError)
  | fuel + 1, explicit, m, n => cachedDrT ((m, n), explicit) do
    if ← hasDr (m, n) then getDr (m, n)
    else
      match ← Prog.lift (checkSpecialOrdersDr m n) with
      | some d =>
        storeDr (m, n) d
        pure d
      | none =>
        let p1 ← findCoeffsT fuel true (pyAbs (m - 1)) (n - 1)
        let p2 ← findCoeffsT fuel true (m + 1) (n - 1)
        let d1 ← findCoeffsDrT fuel true (pyAbs (m - 1)) (n - 1)
        let d2 ← findCoeffsDrT fuel true (m + 1) (n - 1)
        let i1 ← Prog.lift (increaseOrderCoeffs d1)
        let i2 ← Prog.lift (increaseOrderCoeffs d2)
        let d3 ← findCoeffsDrT fuel true m (n - 2)
        let m3 ← Prog.lift (makeOrdersCoeffs (itemsFrom 0 d3) (n - 2) true)
        let d ← Prog.lift (sumOrdersCoeffs n [p1, p2, i1, i2, m3])
        storeVal (pyAbs (m - 1), n - 1) p1
        storeVal (m + 1, n - 1) p2
        storeDr (pyAbs (m - 1), n - 1) d1
        storeDr (m + 1, n - 1) d2
        pure d

section
variable {α : Type} [Zero α] [One α] [Add α] [Sub α] [Mul α] [NatCast α] [IntCast α] [Pow α ℕ]

/-- `radial_polynomial_coeffs`, /repo/src/zernpy/calculations/calc_zernike_pol.py:456-506. -/
def radialPolynomialCoeffsT : Nat → Int → Int → α → Prog α
  | 0, _, _, _ => .lift (.error .recursionError)
  | fuel + 1, m, n, r =>
    if n ≤ maxRadialOrderCoeffs then do
      let d ← findCoeffsT fuel false m n
      pure (evalLoop r (itemsFrom 0 d) 0)
    else if pyAbs m = n then pure (r ^ n.toNat)
    else if m = 0 then do
      let x ← radialPolynomialCoeffsT fuel 1 (n - 1) r
      let y ← radialPolynomialCoeffsT fuel 0 (n - 2) r
      pure (2 * r * x - y)
    else if pyAbs m = n - 2 then
      pure ((n : α) * r ^ n.toNat - ((n - 1 : Int) : α) * r ^ (n - 2).toNat)
    else do
      let x ← radialPolynomialCoeffsT fuel (pyAbs (m - 1)) (n - 1) r
      let y ← radialPolynomialCoeffsT fuel (m + 1) (n - 1) r
      let z ← radialPolynomialCoeffsT fuel m (n - 2) r
      pure (r * (x + y) - z)

/-- `radial_polynomial_coeffs_dr`, /repo/src/zernpy/calculations/calc_zernike_pol.py:509-560. -/
def radialPolynomialCoeffsDrT : Nat → Int → Int → α → Prog α
  | 0, _, _, _ => .lift (.error .recursionError)
  | fuel + 1, m, n, r =>
    if n ≤ maxRadialOrderCoeffsDr then do
      let d ← findCoeffsDrT fuel false m n
      pure (evalLoop r (itemsFrom 0 d) 0)
    else if pyAbs m = n then pure ((n : α) * r ^ (n - 1).toNat)
    else if m = 0 then do
      let x ← radialPolynomialCoeffsDrT fuel 1 (n - 1) r
      let x' ← radialPolynomialCoeffsDrT fuel 1 (n - 1) r
      let z ← radialPolynomialCoeffsDrT fuel 0 (n - 2) r
      pure (2 * (x + r * x') - z)
    else if pyAbs m = n - 2 then
      pure ((n : α) * (n : α) * r ^ (n - 1).toNat - ((n - 1 : Int) : α) * ((n - 2 : Int) : α) * r ^ (n - 3).toNat)
    else do
      let x ← radialPolynomialCoeffsT fuel (pyAbs (m - 1)) (n - 1) r
      let y ← radialPolynomialCoeffsT fuel (m + 1) (n - 1) r
      let dx ← radialPolynomialCoeffsDrT fuel (pyAbs (m - 1)) (n - 1) r
      let dy ← radialPolynomialCoeffsDrT fuel (m + 1) (n - 1) r
      let dz ← radialPolynomialCoeffsDrT fuel m (n - 2) r
      pure ((x + y) + r * (dx + dy) - dz)

variable [OfRat α]

/-- The choice of the function in `radial` and `polynomial_value`, /repo/src/zernpy/zernikepol.py:409-428,474-493. -/
def radialValueT (fuel : Nat) (exact : Bool) (m n : Int) (r : α) : Prog α :=
  if !exact then
    if n ≤ 12 then .lift (radialPolynomial fuel m n r) else radialPolynomialCoeffsT fuel m n r
  else if n > maxRadialOrderCoeffs then pure 0
  else .lift (radialPolynomialEq m n r)

/-- The choice of the function in `radial_dr`, /repo/src/zernpy/zernikepol.py:566-585. -/
def radialDrValueT (fuel : Nat) (exact : Bool) (m n : Int) (r : α) : Prog α :=
  if !exact then
    if n ≤ 12 then .lift (radialDerivative fuel m n r) else radialPolynomialCoeffsDrT fuel m n r
  else if n > maxRadialOrderCoeffsDr then pure 0
  else .lift (radialDerivativeEq m n r)

end

/-- Evaluate on a `float` or on an array, /repo/src/zernpy/zernikepol.py:472-493. -/
noncomputable def evalNumT (f : (α : Type) → [CommRing α] → [Algebra ℚ α] → α → Prog α) : Num → Prog Num
  | .scalar x => do
    let v ← f ℝ x
    pure (.scalar v)
  | .array shape data => do
    let v ← f (Fin data.length → ℝ) (asFun data)
    pure (.array shape (List.ofFn v))

/-- `ZernPol.radial`, /repo/src/zernpy/zernikepol.py:430-493. -/
noncomputable def radialT (fuel : Nat) (m n : Int) (r : Arg) (exact : Bool) : Prog Num := do
  let x ← Prog.lift (checkRadii r)
  evalNumT (fun α _ _ y => radialValueT (α := α) fuel exact m n y) x

/-- `ZernPol.radial_dr`, /repo/src/zernpy/zernikepol.py:524-585. -/
noncomputable def radialDrT (fuel : Nat) (m n : Int) (r : Arg) (exact : Bool) : Prog Num := do
  let x ← Prog.lift (checkRadii r)
  evalNumT (fun α _ _ y => radialDrValueT (α := α) fuel exact m n y) x

/-- `ZernPol.polynomial_value`, /repo/src/zernpy/zernikepol.py:352-428. -/
noncomputable def polynomialValueT (fuel : Nat) (m n : Int) (r theta : Arg) (exact : Bool) : Prog Num := do
  let x ← Prog.lift (checkRadii r)
  let (t, _) ← Prog.lift (checkAngles theta)
  if shapesDiffer x t then Prog.lift (.error .valueError)
  else if exact ∧ n > maxRadialOrderCoeffs then pure x.zerosLike
  else do
    let v ← evalNumT (fun α _ _ y => radialValueT (α := α) fuel exact m n y) x
    pure ((t.map (fun a => normalizationFactor m n * triangularFunction m a)).mul v)

/-- A call made by a thread on a polynomial with the orders `m`, `n`, /repo/src/zernpy/zernikepol.py:352-585. -/
inductive ThreadCall where
  | radial (m n : Int) (r : Arg) (exact : Bool)
  | radialDr (m n : Int) (r : Arg) (exact : Bool)
  | value (m n : Int) (r theta : Arg) (exact : Bool)

/-- The program of one call; `fuel` is the recursion limit of the thread, /repo/src/zernpy/zernikepol.py:352-585. -/
noncomputable def ThreadCall.prog (fuel : Nat) : ThreadCall → Prog Num
  | .radial m n r exact => radialT fuel m n r exact
  | .radialDr m n r exact => radialDrT fuel m n r exact
  | .value m n r theta exact => polynomialValueT fuel m n r theta exact

/-- A thread that makes calls one after the other and collects their results and exceptions, calls of the methods at /repo/src/zernpy/zernikepol.py:352-585. -/
noncomputable def threadProg (fuel : Nat) : List ThreadCall → Prog (List (Res Num))
  | [] => pure []
  | c :: rest => do
    let x ← (c.prog fuel).attempt
    let xs ← threadProg fuel rest
    pure (x :: xs)

/-- A process: the rests of the programs of its threads, and the shared state, /repo/src/zernpy/calculations/find_pols_coeffs.py:57-112. -/
structure Process (β : Type) where
  threads : List (Prog β)
  st : CoefState

/-- The thread `i` makes its next atomic action; nothing happens if it has finished, /repo/src/zernpy/calculations/find_pols_coeffs.py:221-355. -/
def Process.step {β : Type} (p : Process β) (i : Nat) : Process β :=
  match p.threads[i]? with
  | some (.step u k) => ⟨p.threads.set i (k p.st), u p.st⟩
  | _ => p

/-- The interpreter switches between the threads in an arbitrary way: `schedule` lists the threads that make the successive actions,
/repo/src/zernpy/calculations/find_pols_coeffs.py:221-355. -/
def Process.run {β : Type} (p : Process β) (schedule : List Nat) : Process β := schedule.foldl Process.step p

end Verif.Model
