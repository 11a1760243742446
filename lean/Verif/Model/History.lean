import Verif.Model.Methods
import Verif.Model.ZernPol

/-!
# Histories of calls in one Python process

The coefficient tables and the two `lru_cache`s are process-wide, /repo/src/zernpy/calculations/find_pols_coeffs.py:69-128,221,284. A history
is any list of calls that can touch them; each call has its own recursion budget, so that a call interrupted by a `RecursionError` at any depth
(with the part of the tables already filled) is included.
-/

namespace Verif.Model

/-- A call touching the process-wide coefficient tables, the callers of /repo/src/zernpy/calculations/find_pols_coeffs.py:222-355: /repo/src/zernpy/zernikepol.py:400-585. -/
inductive Call where
  | radial (fuel : Nat) (o : PolObj) (r : Arg) (exact : Bool)
  | radialDr (fuel : Nat) (o : PolObj) (r : Arg) (exact : Bool)
  | value (fuel : Nat) (o : PolObj) (r theta : Arg) (exact : Bool)
  | coeffs (fuel : Nat) (explicit : Bool) (m n : Int)
  | coeffsDr (fuel : Nat) (explicit : Bool) (m n : Int)

/-- The tables after a call: the methods `radial`, `radial_dr`, `polynomial_value` (/repo/src/zernpy/zernikepol.py:352-493,524-585) and the
functions `find_coeffs_orders`, `find_coeffs_orders_dr` (/repo/src/zernpy/calculations/find_pols_coeffs.py:221-341). -/
noncomputable def Call.run (s : CoefState) : Call → CoefState
  | .radial fuel o r exact => (Model.radial fuel o r exact s).st
  | .radialDr fuel o r exact => (Model.radialDr fuel o r exact s).st
  | .value fuel o r theta exact => (polynomialValue fuel o r theta exact s).st
  | .coeffs fuel explicit m n => (findCoeffs fuel explicit m n s).2
  | .coeffsDr fuel explicit m n => (findCoeffsDr fuel explicit m n s).2

/-- The tables after a history, from the import of the package, the tables at /repo/src/zernpy/calculations/find_pols_coeffs.py:57-112. -/
noncomputable def afterCalls (h : List Call) : CoefState := h.foldl Call.run initState

/-- The object of the evaluation methods made by the constructor, /repo/src/zernpy/zernikepol.py:53-227. -/
def ZernPol.obj (z : ZernPol) : PolObj := { m := z.m, n := z.n, slowShown := false }

end Verif.Model

namespace Verif.Model

/-- A call of an evaluation method on one object, /repo/src/zernpy/zernikepol.py:352-585. -/
inductive ObjCall where
  | radial (fuel : Nat) (r : Arg) (exact : Bool)
  | radialDr (fuel : Nat) (r : Arg) (exact : Bool)
  | value (fuel : Nat) (r theta : Arg) (exact : Bool)

/-- One call on an object: the object and tables after it, and the warnings, /repo/src/zernpy/zernikepol.py:352-493,524-585. -/
noncomputable def ObjCall.run (o : PolObj) (s : CoefState) : ObjCall → PolObj × CoefState × List Warn
  | .radial fuel r exact => let out := Model.radial fuel o r exact s; (out.obj, out.st, out.warns)
  | .radialDr fuel r exact => let out := Model.radialDr fuel o r exact s; (out.obj, out.st, out.warns)
  | .value fuel r theta exact => let out := polynomialValue fuel o r theta exact s; (out.obj, out.st, out.warns)

/-- All warnings over a sequence of calls on one object, /repo/src/zernpy/zernikepol.py:352-585. -/
noncomputable def objWarnings (o : PolObj) (s : CoefState) : List ObjCall → List Warn
  | [] => []
  | c :: t => let out := c.run o s; out.2.2 ++ objWarnings out.1 out.2.1 t

end Verif.Model
