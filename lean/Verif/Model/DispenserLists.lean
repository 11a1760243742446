import Verif.Model.Dispenser

/-!
# Model of the lists that a `DispenserManager` shares with its caller, `utils/intmproc.py`

The manager keeps a reference to the list of parameters of the caller (lines 76, 232), and `compute` returns a reference to its own list of results
(line 167). Both lists can be changed by the caller between two calls, and by the manager. Here lists are objects in a memory. One `compute` is one
step for each interleaving (its steps are those of `Verif.Model.Dispenser`).
-/

namespace Verif.Model.Dispenser

variable {V : Type}

/-- The memory and the attributes of an open manager, /repo/src/zernpy/utils/intmproc.py:22-24,/repo/src/zernpy/utils/intmproc.py:72-76: the contents of the
lists of the caller (`given`) and of the lists of results (`made`), the attributes `__parameters_vector` (`param`) and `__results` (`result`) as
references, the number of the lists of results created so far, the workers, and the references returned by `compute` so far. -/
structure Shared (V : Type) where
  given : Nat → List V
  made : Nat → List (Option V)
  param : Nat
  result : Nat
  created : Nat
  pool : Nat → WState V
  returned : List Nat

/-- What can happen between two calls: the caller changes one of the lists, `update_params` with the list of the caller `k`, `compute` under an
interleaving, /repo/src/zernpy/utils/intmproc.py:116-170,/repo/src/zernpy/utils/intmproc.py:203-232. -/
inductive SharedOp (V : Type) where
  | editGiven (k : Nat) (l : List V)
  | editMade (k : Nat) (l : List (Option V))
  | update (k : Nat)
  | compute (acts : List Act)

/-- A new manager with `w` workers for the list of the caller `k`, /repo/src/zernpy/utils/intmproc.py:71-102. -/
def sharedStart (given : Nat → List V) (k : Nat) : Shared V where
  given := given
  made := fun _ => List.replicate (given k).length none
  param := k
  result := 0
  created := 1
  pool := fun _ => freshWorker
  returned := []

/-- The setup of `compute`: it reads the list of the caller as it is now, /repo/src/zernpy/utils/intmproc.py:127,/repo/src/zernpy/utils/intmproc.py:133. -/
def Shared.setup (f : V → Option V) (w : Nat) (s : Shared V) : Setup V := ⟨fun _ => f, s.given s.param, w⟩

/-- The state of `compute` after the steps `acts`, /repo/src/zernpy/utils/intmproc.py:126-167. -/
def Shared.computing (f : V → Option V) (w : Nat) (s : Shared V) (acts : List Act) : DState V :=
  runSchedule (s.setup f w) (startCompute (s.setup f w) s.pool (s.made s.result)) acts

/-- One operation; `none`: `compute` has not returned after these steps. `update_params` raises an exception that changes nothing
(/repo/src/zernpy/utils/intmproc.py:226-230; the caller goes on), or it creates a new list of results and stores the reference to the list of the caller (231-232);
`compute` writes into the list of results and returns the reference to it (144, 167). Simplification: a list of results shorter than the list of parameters (the caller
removed elements from a returned list) is not modelled (`none`). -/
def Shared.step (f : V → Option V) (w : Nat) (s : Shared V) : SharedOp V → Option (Shared V)
  | .editGiven k l => some { s with given := Function.update s.given k l }
  | .editMade k l => some { s with made := Function.update s.made k l }
  | .update k =>
    match updateParams w (s.given k) with
    | .error _ => some s
    | .ok r => some { s with made := Function.update s.made s.created r, result := s.created, created := s.created + 1, param := k }
  | .compute acts =>
    if (s.made s.result).length < (s.given s.param).length then none
    else
      let d := s.computing f w acts
      match d.pc with
      | .done => some { s with made := Function.update s.made s.result d.results, pool := d.workers, returned := s.returned ++ [s.result] }
      | _ => none

end Verif.Model.Dispenser
