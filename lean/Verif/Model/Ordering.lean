import Verif.Model.ZernPol

/-!
# Python's operators and containers on `ZernPol` objects

The class defines `__gt__` and `__eq__` only (/repo/src/zernpy/zernikepol.py:300-349). The other operators, `sorted`, `max`, `min`, `in`, `index` and `set` come from Python: the reflected
method is tried if the first one is missing, `!=` inverts `==`, and a class with `__eq__` but without `__hash__` is not hashable. `Operand.other` is an object of a type that knows nothing
of `ZernPol` (a number, a string, `None`).
-/

namespace Verif.Model

/-- `z < b`: there is no `__lt__`, the reflected `b > z` is tried; for another object there is none, and Python raises `TypeError`, /repo/src/zernpy/zernikepol.py:300-323. -/
def ZernPol.lt (z : ZernPol) : Operand → Res Bool
  | .zern w => w.gt (.zern z)
  | .other => .error .typeError

/-- `x < z` for an object `x` of another type: the reflected `z > x`, /repo/src/zernpy/zernikepol.py:300-323. -/
def ZernPol.otherLt (z : ZernPol) : Res Bool := z.gt .other

/-- `z <= b` and `z >= b`: neither the methods nor the reflected ones exist, /repo/src/zernpy/zernikepol.py:300-349. -/
def ZernPol.le (_ : ZernPol) : Operand → Res Bool := fun _ => .error .typeError

/-- `z != b`: the inverted `__eq__`, /repo/src/zernpy/zernikepol.py:325-349. -/
def ZernPol.ne (z : ZernPol) (b : Operand) : Res Bool := (z.eq b).map not

/-- `hash(z)`: a class with `__eq__` and without `__hash__`, /repo/src/zernpy/zernikepol.py:325-349. -/
def ZernPol.hash (_ : ZernPol) : Res Int := .error .typeError

/-- `not (b < a)` of two polynomials, as `sorted` uses it, /repo/src/zernpy/zernikepol.py:300-323. -/
def notAfter (a b : ZernPol) : Bool :=
  match b.lt (.zern a) with
  | .ok r => !r
  | .error _ => false

/-- `sorted(l)`: the stable sort by `<`, /repo/src/zernpy/zernikepol.py:300-323. -/
def pySorted (l : List ZernPol) : List ZernPol := l.mergeSort notAfter

/-- The loop of `max`: the next element replaces the greatest one so far if it is `>`, /repo/src/zernpy/zernikepol.py:300-323. -/
def maxLoop : List ZernPol → ZernPol → Res ZernPol
  | [], top => .ok top
  | z :: t, top => do
    let g ← z.gt (.zern top)
    maxLoop t (if g then z else top)

/-- `max(l)`, `ValueError` for no elements, /repo/src/zernpy/zernikepol.py:300-323. -/
def pyMax : List ZernPol → Res ZernPol
  | [] => .error .valueError
  | z :: t => maxLoop t z

/-- The loop of `min`: the next element replaces the least one so far if it is `<`, /repo/src/zernpy/zernikepol.py:300-323. -/
def minLoop : List ZernPol → ZernPol → Res ZernPol
  | [], low => .ok low
  | z :: t, low => do
    let g ← z.lt (.zern low)
    minLoop t (if g then z else low)

/-- `min(l)`, `ValueError` for no elements, /repo/src/zernpy/zernikepol.py:300-323. -/
def pyMin : List ZernPol → Res ZernPol
  | [] => .error .valueError
  | z :: t => minLoop t z

/-- `z in l`: the elements are compared one after the other, `element == z`; for an element of another type the reflected `z == element`, /repo/src/zernpy/zernikepol.py:325-349. -/
def pyIn (z : ZernPol) : List Operand → Res Bool
  | [] => .ok false
  | b :: t => do
    let e ← match b with
      | .zern w => w.eq (.zern z)
      | .other => z.eq .other
    if e then pure true else pyIn z t

/-- `set(l)`, as a list: every element is hashed, /repo/src/zernpy/zernikepol.py:325-349. -/
def pySet : List ZernPol → Res (List ZernPol)
  | [] => .ok []
  | z :: _ => do
    let _ ← z.hash
    .ok []

end Verif.Model
