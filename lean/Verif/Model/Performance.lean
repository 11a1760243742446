import Verif.Model.SelfCheck
import Verif.Model.ZernPol

/-!
# Model of `compare_performances`

The measured times are left out; what is modelled is which polynomials are made and evaluated, the exceptions, and the number that is reported.
-/

namespace Verif.Model

/-- `zernpols.append(ZernPol(m=m, n=n))` for the listed orders (the order of the two named arguments does not matter), /repo/src/zernpy/zernikepol.py:1616-1622. -/
def makePols : List (Int × Int) → Res (List PolObj)
  | [] => .ok []
  | (m, n) :: rest =>
    match zernPolInit [("n", .int n), ("m", .int m)] with
    | .error e => .error e
    | .ok z => match makePols rest with
      | .error e => .error e
      | .ok l => .ok (⟨z.m, z.n, false⟩ :: l)

/-- `test_r`, /repo/src/zernpy/zernikepol.py:1624-1628. -/
noncomputable def performanceRadii : Arg := .arr [251] ((List.range 251).map fun i : ℕ => npRound 6 ((i : ℝ) / 250))

/-- `for i, polynomial in enumerate(zernpols): polynomial.radial(test_r, ...)`: `k` is the next index, `i` the value of the variable `i`, which stays after the loop,
/repo/src/zernpy/zernikepol.py:1631-1632,1637-1638. -/
noncomputable def timedLoop (fuel : Nat) (exact : Bool) : Nat → Nat → List PolObj → CM Nat
  | _, i, [] => pure i
  | k, _, o :: rest => do
    let _ ← (fun s => ((radial fuel o performanceRadii exact s).res, (radial fuel o performanceRadii exact s).st) : CM Num)
    timedLoop fuel exact (k + 1) k rest

/-- `compare_performances`: the number reported as "Used polynomials". The variable `i` is 250 after the loop that fills `test_r`,
/repo/src/zernpy/zernikepol.py:1595-1641. -/
noncomputable def comparePerformances (fuel : Nat) (minOrder maxOrder : Int) : CM Nat := do
  let pols ← CM.lift (makePols (checkedOrders minOrder (maxOrder + 1)))
  let i ← timedLoop fuel false 0 250 pols
  timedLoop fuel true 0 i pols

end Verif.Model
