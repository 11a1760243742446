import Verif.Model.Threads

/-!
# The number of accesses to the shared tables and caches

The cost of a call is the number of its atomic actions on the shared coefficient tables and `lru_cache`s (see `Verif.Model.Threads`). Every call of
`find_coeffs_orders` or `find_coeffs_orders_dr` makes at least one of them and, without the calls it makes itself, at most eleven.
-/

namespace Verif.Model

/-- The number of accesses to the shared tables and caches made by a program that runs without other threads, the accesses at
/repo/src/zernpy/calculations/find_pols_coeffs.py:221-355. -/
def Prog.actions {β : Type} : Prog β → CoefState → Nat
  | .done _, _ => 0
  | .step u k, s => (k s).actions (u s) + 1

end Verif.Model
