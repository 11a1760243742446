/-!
# Python values and exceptions

Only what the code distinguishes by `isinstance`.
-/

namespace Verif.Model

/-- Python exception classes raised (explicitly or by the runtime) in the modelled code, raised in the modelled files, e.g. /repo/src/zernpy/zernikepol.py:679-867. -/
inductive PyErr where
  | valueError | typeError | zeroDivisionError | indexError | keyError | recursionError
  | unboundLocalError | attributeError | fileNotFoundError | systemError | otherError
  deriving DecidableEq, Repr

/-- A result or an exception, the functions at /repo/src/zernpy/zernikepol.py:634-867. -/
abbrev Res (α : Type) := Except PyErr α

/-- Equality of results can be decided, the functions at /repo/src/zernpy/zernikepol.py:634-867. -/
instance {α : Type} [DecidableEq α] : DecidableEq (Res α) := fun a b =>
  match a, b with
  | .ok x, .ok y => if h : x = y then isTrue (by rw [h]) else isFalse (by intro e; cases e; exact h rfl)
  | .error x, .error y => if h : x = y then isTrue (by rw [h]) else isFalse (by intro e; cases e; exact h rfl)
  | .ok _, .error _ => isFalse (by intro e; cases e)
  | .error _, .ok _ => isFalse (by intro e; cases e)

/-- Python values passed as an order or an index. `bool` is a subclass of `int` in Python,
`numpy.int64` is *not*; everything else (`float`, `str`, `None`, ...) is `other`, /repo/src/zernpy/zernikepol.py:86-213,/repo/src/zernpy/zernikepol.py:762-867. -/
inductive PyVal where
  | int (i : Int)
  | bool (b : Bool)
  | npInt64 (i : Int)
  | other (repr : String)
  deriving DecidableEq, Repr

/-- `isinstance(v, int)`, together with the integer value when it holds, /repo/src/zernpy/zernikepol.py:98-213,/repo/src/zernpy/zernikepol.py:782. -/
def PyVal.isInt? : PyVal → Option Int
  | .int i => some i
  | .bool b => some (if b then 1 else 0)
  | .npInt64 _ => none
  | .other _ => none

end Verif.Model
