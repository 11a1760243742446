import Verif.Model.Value

/-!
# Model of the index arithmetic of `ZernPol` (static methods)

Python `//` with a positive divisor is `Int` floor division (`/` on `Int` agrees with
it for positive divisors), Python `%` with a positive modulus is `Int.emod`.
-/

namespace Verif.Model

/-- `ZernPol.get_osa_index`, /repo/src/zernpy/zernikepol.py:634-655. -/
def getOsaIndex (m n : Int) : Int := (n * (n + 2) + m) / 2

/-- `abs`, /repo/src/zernpy/zernikepol.py:679-714. -/
def pyAbs (m : Int) : Int := if m < 0 then -m else m

/-- `np.sign`, /repo/src/zernpy/zernikepol.py:714. -/
def npSign (m : Int) : Int := if m < 0 then -1 else if m = 0 then 0 else 1

/-- `ZernPol.get_noll_index`, /repo/src/zernpy/zernikepol.py:658-690. -/
def getNollIndex (m n : Int) : Int :=
  let addN : Int :=
    if m > 0 then
      if n % 4 = 0 then 0
      else if (n - 1) % 4 = 0 then 0
      else 1
    else if m < 0 then
      if (n - 2) % 4 = 0 then 0
      else if (n - 3) % 4 = 0 then 0
      else 1
    else 1
  (n * (n + 1)) / 2 + pyAbs m + addN

/-- `ZernPol.get_fringe_index`, /repo/src/zernpy/zernikepol.py:693-714 (its numerical value;
the Python type of the result is `numpy.int64` because of `np.sign`, see `getFringeIndexPy`).
Simplification: no 64-bit overflow. -/
def getFringeIndex (m n : Int) : Int :=
  (1 + (n + pyAbs m) / 2) ^ 2 - 2 * pyAbs m + (1 - npSign m) / 2

/-- `ZernPol.get_fringe_index` with its Python type: `np.sign` makes the sum a `numpy.int64`, /repo/src/zernpy/zernikepol.py:693-714. -/
def getFringeIndexPy (m n : Int) : PyVal := .npInt64 (getFringeIndex m n)

/-- The inner loop of `index2orders`, /repo/src/zernpy/zernikepol.py:746-756: `k` iterations
remain, `m` is the current azimuthal order; returns the `m` at loop exit and `stop_search`. -/
def innerLoop (test : Int → Int → Bool) (n : Int) : Nat → Int → Int × Bool
  | 0, m => (m, false)
  | k + 1, m => if test m n then (m, true) else innerLoop test n k (m + 2)

/-- The outer loop of `index2orders`, /repo/src/zernpy/zernikepol.py:742-758: `k` iterations
remain, `order` is the loop variable, `cur` the current pair `(m, n)`. -/
def outerLoop (test : Int → Int → Bool) : Nat → Nat → Int × Int → Int × Int
  | 0, _, cur => cur
  | k + 1, order, _ =>
    let r := innerLoop test order (order + 1) (-(order : Int))
    if r.2 then (r.1, (order : Int)) else outerLoop test k (order + 1) (r.1, (order : Int))

/-- `ZernPol.index2orders`, /repo/src/zernpy/zernikepol.py:717-759. The three recognised keyword
arguments are optional integers; only the first present one is read (`if/elif/elif`).
Simplification: the values are integers (a `float` index would be compared numerically). -/
def index2orders (osa noll fringe : Option Int) : Int × Int :=
  let osaIndex : Int := match osa with | some i => i | none => -1
  let nollIndex : Int := match osa, noll with | none, some i => i | _, _ => -1
  let fringeIndex : Int := match osa, noll, fringe with | none, none, some i => i | _, _, _ => -1
  let highestOrder : Nat := match osa, noll, fringe with | none, none, some _ => 250 | _, _, _ => 56
  let test : Int → Int → Bool := fun m n =>
    if osaIndex ≥ 0 then osaIndex == getOsaIndex m n
    else if nollIndex ≥ 0 then nollIndex == getNollIndex m n
    else if fringeIndex ≥ 0 then fringeIndex == getFringeIndex m n
    else false
  outerLoop test highestOrder 0 (-1, -1)

/-- `ZernPol.osa2noll`, /repo/src/zernpy/zernikepol.py:762-786. -/
def osa2noll (v : PyVal) : Res PyVal :=
  match v.isInt? with
  | some i => if i ≥ 0 then
      let p := index2orders (some i) none none
      .ok (.int (getNollIndex p.1 p.2))
    else .error .valueError
  | none => .error .valueError

/-- `ZernPol.noll2osa`, /repo/src/zernpy/zernikepol.py:789-813. -/
def noll2osa (v : PyVal) : Res PyVal :=
  match v.isInt? with
  | some i => if i ≥ 1 then
      let p := index2orders none (some i) none
      .ok (.int (getOsaIndex p.1 p.2))
    else .error .valueError
  | none => .error .valueError

/-- `ZernPol.osa2fringe`, /repo/src/zernpy/zernikepol.py:816-840. -/
def osa2fringe (v : PyVal) : Res PyVal :=
  match v.isInt? with
  | some i => if i ≥ 0 then
      let p := index2orders (some i) none none
      .ok (getFringeIndexPy p.1 p.2)
    else .error .valueError
  | none => .error .valueError

/-- `ZernPol.fringe2osa`, /repo/src/zernpy/zernikepol.py:843-867. -/
def fringe2osa (v : PyVal) : Res PyVal :=
  match v.isInt? with
  | some i => if i ≥ 1 then
      let p := index2orders none none (some i)
      .ok (.int (getOsaIndex p.1 p.2))
    else .error .valueError
  | none => .error .valueError

end Verif.Model
