import Mathlib.Data.List.Basic
import Mathlib.Data.List.Range
import Mathlib.Logic.Function.Basic

/-!
# Model of the parallel calculation, `utils/intmproc.py`

The main process (manager) and the workers are concurrent processes; `exec` gives one atomic step of one of them, or of the transport of a message.
A schedule (any sequence of steps) is an interleaving. Steps that touch only private variables of the manager are merged with the neighbouring
step. Waiting times (`time.sleep`), warnings and printed messages are left out.
-/

namespace Verif.Model.Dispenser

/-- Where a worker is in its loop, /repo/src/zernpy/utils/intmproc.py:275-290: waiting for its trigger (276), reading the parameter (283),
computing (285), putting the result into the queue (286), clearing the trigger (287); or its process has ended. -/
inductive WPc (V : Type) where
  | idle
  | reading
  | computing (v : V)
  | storing (r : V)
  | clearing
  | dead

/-- A worker with its trigger (`Event`) and its queue, which is used in both directions: `multiprocessing.Queue.put` only hands the object to a
feeder thread of its process (`sentM`: put by the manager, `sentW`: put by the worker), which transfers it to the common pipe later, /repo/src/zernpy/utils/intmproc.py:236-290 with /repo/src/zernpy/utils/intmproc.py:84. -/
structure WState (V : Type) where
  pc : WPc V
  trigger : Bool
  sentM : List V
  sentW : List V
  pipe : List V

/-- Where the manager is in `compute`, /repo/src/zernpy/utils/intmproc.py:129-167: before putting the first parameter for worker `i` (132-133), before
setting its trigger (135), checking worker `i` (141-142), reading its result (144), putting its next parameter (149), setting its trigger
(150), returned (167), or terminated by an `IndexError` (133). -/
inductive MPc where
  | initPut (i : Nat)
  | initSet (i : Nat)
  | poll (i : Nat)
  | get (i : Nat)
  | put (i : Nat)
  | set (i : Nat)
  | done
  | indexError

/-- The variables of `compute`, /repo/src/zernpy/utils/intmproc.py:127-128, the workers, and the arguments for which the computing functions were
called so far. -/
structure DState (V : Type) where
  pc : MPc
  todo : List Nat
  assigned : Nat → Bool
  index : Nat → Nat
  computed : Nat
  results : List (Option V)
  workers : Nat → WState V
  calls : List V

/-- The computing function of each worker (`none`: it raises an exception), the parameters, the number of workers in the pool, /repo/src/zernpy/utils/intmproc.py:26-102. -/
structure Setup (V : Type) where
  f : Nat → V → Option V
  params : List V
  W : Nat

/-- A step: of the manager, of a worker, or the transport of a message put by the manager or by the worker to the pipe of a worker, /repo/src/zernpy/utils/intmproc.py:116-170 and /repo/src/zernpy/utils/intmproc.py:264-290. -/
inductive Act where
  | manager
  | worker (i : Nat)
  | deliverM (i : Nat)
  | deliverW (i : Nat)

variable {V : Type}

/-- Change of one worker, /repo/src/zernpy/utils/intmproc.py:264-290. -/
def DState.setWorker (s : DState V) (i : Nat) (w : WState V) : DState V := { s with workers := Function.update s.workers i w }

/-- A step of a worker, `IndiWorker.run`, /repo/src/zernpy/utils/intmproc.py:275-290, while the manager is not closed. An exception in the
computing function ends the process. -/
def workerStep (f : V → Option V) (w : WState V) : Option (WState V × List V) :=
  match w.pc with
  | .idle => if w.trigger then some ({ w with pc := .reading }, []) else none
  | .reading =>
    match w.pipe with
    | [] => none
    | v :: rest => some ({ w with pc := .computing v, pipe := rest }, [])
  | .computing v =>
    match f v with
    | some r => some ({ w with pc := .storing r }, [v])
    | none => some ({ w with pc := .dead }, [v])
  | .storing r => some ({ w with pc := .clearing, sentW := w.sentW ++ [r] }, [])
  | .clearing => some ({ w with pc := .idle, trigger := false }, [])
  | .dead => none

/-- A step of the manager, `DispenserManager.compute`, /repo/src/zernpy/utils/intmproc.py:126-167. The bookkeeping of indices (134, 137, 148,
150) is done together with the choice of the index. -/
def managerStep (c : Setup V) (s : DState V) : Option (DState V) :=
  match s.pc with
  | .initPut i =>
    if i < c.W then
      match c.params[i]? with
      | none => some { s with pc := .indexError }
      | some p => some { s with
          workers := Function.update s.workers i { s.workers i with sentM := (s.workers i).sentM ++ [p] }
          assigned := Function.update s.assigned i true, index := Function.update s.index i i, todo := s.todo.erase i, pc := .initSet i }
    else some { s with pc := .poll 0 }
  | .initSet i => some { s with workers := Function.update s.workers i { s.workers i with trigger := true }, pc := .initPut (i + 1) }
  | .poll i =>
    if i < c.W then
      if s.assigned i && !(s.workers i).trigger then some { s with pc := .get i } else some { s with pc := .poll (i + 1) }
    else if s.computed < s.results.length then some { s with pc := .poll 0 }
    else some { s with pc := .done }
  | .get i =>
    match (s.workers i).pipe with
    | [] => none
    | v :: rest =>
      let s := { s with
        workers := Function.update s.workers i { s.workers i with pipe := rest }
        results := s.results.set (s.index i) (some v), computed := s.computed + 1 }
      match s.todo with
      | [] => some { s with assigned := Function.update s.assigned i false, pc := .poll (i + 1) }
      | k :: rest => some { s with todo := rest, index := Function.update s.index i k, pc := .put i }
  | .put i =>
    match c.params[s.index i]? with
    | none => some { s with pc := .indexError }
    | some p => some { s with
        workers := Function.update s.workers i { s.workers i with sentM := (s.workers i).sentM ++ [p] }, pc := .set i }
  | .set i => some { s with workers := Function.update s.workers i { s.workers i with trigger := true }, pc := .poll (i + 1) }
  | .done => none
  | .indexError => none

/-- One step; `none` if it is not possible in this state, /repo/src/zernpy/utils/intmproc.py:116-170 and /repo/src/zernpy/utils/intmproc.py:264-290. -/
def exec (c : Setup V) (s : DState V) : Act → Option (DState V)
  | .manager => managerStep c s
  | .worker i =>
    if i < c.W then
      (workerStep (c.f i) (s.workers i)).map fun x => { s with workers := Function.update s.workers i x.1, calls := s.calls ++ x.2 }
    else none
  | .deliverM i =>
    if i < c.W then
      match (s.workers i).sentM with
      | [] => none
      | v :: rest => some (s.setWorker i { s.workers i with sentM := rest, pipe := (s.workers i).pipe ++ [v] })
    else none
  | .deliverW i =>
    if i < c.W then
      match (s.workers i).sentW with
      | [] => none
      | v :: rest => some (s.setWorker i { s.workers i with sentW := rest, pipe := (s.workers i).pipe ++ [v] })
    else none

/-- A step of a schedule; nothing happens if it is not possible, /repo/src/zernpy/utils/intmproc.py:116-170 and /repo/src/zernpy/utils/intmproc.py:264-290. -/
def step (c : Setup V) (s : DState V) (a : Act) : DState V := (exec c s a).getD s

/-- The state after a schedule, /repo/src/zernpy/utils/intmproc.py:116-170 and /repo/src/zernpy/utils/intmproc.py:264-290. -/
def runSchedule (c : Setup V) (s : DState V) (acts : List Act) : DState V := acts.foldl (step c) s

/-- The state after the first `t` steps of an unlimited schedule, /repo/src/zernpy/utils/intmproc.py:116-170 and /repo/src/zernpy/utils/intmproc.py:264-290. -/
def stateAt (c : Setup V) (s : DState V) (sched : Nat → Act) : Nat → DState V
  | 0 => s
  | t + 1 => step c (stateAt c s sched t) (sched t)

/-- The state at the beginning of `compute`, /repo/src/zernpy/utils/intmproc.py:127-131, with given workers and earlier results. -/
def startCompute (c : Setup V) (workers : Nat → WState V) (results : List (Option V)) : DState V where
  pc := .initPut 0
  todo := List.range c.params.length
  assigned := fun _ => false
  index := fun _ => 0
  computed := 0
  results := results
  workers := workers
  calls := []

/-- The number of workers of a new manager, /repo/src/zernpy/utils/intmproc.py:22,56-66: `cpu` is `os.cpu_count()`, `n` is the argument
`n_workers`. -/
def workersNumber (cpu : Nat) (n : Option Int) : Nat :=
  match n with
  | none => cpu / 2
  | some k => if 2 ≤ k then (if (cpu : Int) < k then cpu / 2 else k.toNat) else cpu / 2

/-- Result of the checks of the constructor, /repo/src/zernpy/utils/intmproc.py:56-75. -/
inductive InitResult where
  | typeError
  | valueError
  | started (workers : Nat)

/-- `DispenserManager.__init__`, /repo/src/zernpy/utils/intmproc.py:53-99, for a list of `len` parameters. -/
def managerInit (callable : Bool) (cpu : Nat) (n : Option Int) (len : Nat) : InitResult :=
  if !callable then .typeError
  else if len = 0 then .typeError
  else if len < workersNumber cpu n then .valueError
  else .started (workersNumber cpu n)

/-- `update_params`, /repo/src/zernpy/utils/intmproc.py:226-233: the new results if the parameters are accepted (they are ignored if the
manager is closed). -/
def updateParams (workers : Nat) (params : List V) : Except InitResult (List (Option V)) :=
  if params.length = 0 then .error .typeError
  else if params.length < workers then .error .valueError
  else .ok (List.replicate params.length none)

/-- A worker after its start, and one whose process has ended, /repo/src/zernpy/utils/intmproc.py:264-275. -/
def freshWorker : WState V := ⟨.idle, false, [], [], []⟩
/-- A worker whose process has ended, /repo/src/zernpy/utils/intmproc.py:288-290. -/
def deadWorker (trigger : Bool) : WState V := ⟨.dead, trigger, [], [], []⟩

/-- The workers and their computing functions in the lists of the class, /repo/src/zernpy/utils/intmproc.py:23-24,85,98: `append` on the attribute
of a new object changes the list of the class, so it holds the workers of all managers created before; `close` (182-190) ends the processes of
the workers, but only the attributes of the object are replaced by empty lists. `closed`: the manager was closed. -/
structure Created (V : Type) where
  f : V → Option V
  n : Nat
  closed : Bool

/-- The pool of the manager created last, /repo/src/zernpy/utils/intmproc.py:22-24,/repo/src/zernpy/utils/intmproc.py:98. -/
def classPool (history : List (Created V)) : List ((V → Option V) × WState V) :=
  history.flatMap fun m => List.replicate m.n (m.f, if m.closed then deadWorker false else freshWorker)

/-- `compute` of the manager created last, with the given parameters, /repo/src/zernpy/utils/intmproc.py:126-129. -/
def computeSetup (history : List (Created V)) (params : List V) : Setup V where
  f := fun i => match (classPool history)[i]? with
    | some x => x.1
    | none => fun _ => none
  params := params
  W := (classPool history).length

/-- Its state at the beginning, /repo/src/zernpy/utils/intmproc.py:126-129. -/
def computeStart (history : List (Created V)) (params : List V) : DState V :=
  startCompute (computeSetup history params) (fun i => match (classPool history)[i]? with
    | some x => x.2
    | none => freshWorker) (List.replicate params.length none)

end Verif.Model.Dispenser
