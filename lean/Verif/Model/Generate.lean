import Verif.Model.ZernPol
import Verif.Model.NonFinite

/-!
# Model of `generate_polynomials` on any argument, with its warnings
-/

namespace Verif.Model

/-- A Python value given as `max_order`, /repo/src/zernpy/zernikepol.py:1336-1373. A string is represented by the integer it spells (for
`int(...)`), if it does. `other` stands for values without conversion to `int` (`None`, a list, a complex number). Simplification: classes
of the user with their own `__int__` are left out. -/
inductive MaxOrder where
  | int (i : Int)
  | bool (b : Bool)
  | npInt64 (i : Int)
  | float (x : XFloat)
  | text (value : Option Int)
  | other

/-- The messages of `warnings.warn` at /repo/src/zernpy/zernikepol.py:1358-1365. -/
inductive GenWarning where
  | notInteger
  | slow
  deriving DecidableEq, Repr

/-- `isinstance(max_order, int)`, /repo/src/zernpy/zernikepol.py:1357. -/
def MaxOrder.isInt : MaxOrder → Bool
  | .int _ => true
  | .bool _ => true
  | _ => false

open Classical in
/-- `int(max_order)` at /repo/src/zernpy/zernikepol.py:1360: a `float` is truncated towards zero, `nan` raises `ValueError`, an infinity
`OverflowError` (here `otherError`). For an `int` it is the value itself. -/
noncomputable def MaxOrder.toInt : MaxOrder → Res Int
  | .int i => .ok i
  | .bool b => .ok (if b then 1 else 0)
  | .npInt64 i => .ok i
  | .float (.fin x) => .ok (if x < 0 then ⌈x⌉ else ⌊x⌋)
  | .float (.inf _) => .error .otherError
  | .float .nan => .error .valueError
  | .text (some i) => .ok i
  | .text none => .error .valueError
  | .other => .error .typeError

/-- `generate_polynomials`, /repo/src/zernpy/zernikepol.py:1336-1373, on any argument: the warnings in their order and the result. -/
noncomputable def generatePolynomialsAny (a : MaxOrder) : List GenWarning × Res (List ZernPol) :=
  let w := if a.isInt then [] else [GenWarning.notInteger]
  match a.toInt with
  | .error e => (w, .error e)
  | .ok k =>
    if k < 0 then (w, .error .valueError)
    else (w ++ (if k > 30 then [GenWarning.slow] else []), generatePolynomials k)

end Verif.Model
