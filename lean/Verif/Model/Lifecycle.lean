import Verif.Model.Dispenser

/-!
# Model of the whole life of a `DispenserManager`, `utils/intmproc.py`

Verif.Model.Dispenser models one call of `compute` with workers that are already waiting. Here the constructor, `compute`, `update_params`, `close` and the complete
loop of the workers with its checks of the two events are modelled, one step for each access to a shared object, together with
interruptions (`KeyboardInterrupt`) between the steps of the main process. One manager is modelled: the lists of the class (see C39) are those of this
manager. Left out: waiting times, messages, the joining of processes (it has a time limit and changes nothing).
-/

namespace Verif.Model.Dispenser

variable {V : Type}

/-- The line of `IndiWorker.run` that is executed next, /repo/src/zernpy/utils/intmproc.py:273-290: not started; `keep_event.is_set()` (273); sending
"Started" (274); the condition of `while` (275); `trigger.wait()` (276); `trigger.is_set()` (277); `keep_event.is_set()` (277); the task (283-287, where in it: `WState.pc`);
`keep_event.is_set()` (289); `trigger.clear()` (290); the process has ended. -/
inductive Pos where
  | unborn
  | begin
  | confirm
  | head
  | wait
  | checkTrigger
  | checkKeep
  | task
  | recheck
  | leave
  | ended
  deriving DecidableEq

/-- What the main process does with the manager: in the constructor before starting worker `i` (84-87) or waiting for its confirmation (88-97); between two calls; in
`compute`; in `close` before setting the trigger of worker `i` (183-184) or joining worker `i` (185-187), /repo/src/zernpy/utils/intmproc.py:56-232. -/
inductive Phase where
  | spawn (i : Nat)
  | await (i : Nat)
  | free
  | computing
  | closeSet (i : Nat)
  | closeJoin (i : Nat)
  deriving DecidableEq

/-- How a call of `compute` ended: it returned a list for the given parameters, it returned `None`, it raised an `IndexError`, /repo/src/zernpy/utils/intmproc.py:116-170. -/
inductive Outcome (V : Type) where
  | value (params : List V) (results : List (Option V))
  | nothing
  | indexError

/-- The state: the event `keep` (`__global_live_trigger`), the flag `__initialized`, the position of each worker, the variables of `compute` with the workers
(triggers, queues), the attribute `__parameters_vector` (`__results` is in `d`), the ends of the calls of `compute`, /repo/src/zernpy/utils/intmproc.py:22-24,/repo/src/zernpy/utils/intmproc.py:56-232. -/
structure Life (V : Type) where
  phase : Phase
  keep : Bool
  initialized : Bool
  pos : Nat → Pos
  d : DState V
  params : List V
  log : List (Outcome V)

/-- The computing function, the number of workers, the message "Started", /repo/src/zernpy/utils/intmproc.py:26,/repo/src/zernpy/utils/intmproc.py:59-80. -/
structure LifeSetup (V : Type) where
  f : V → Option V
  W : Nat
  hello : V

/-- The setup of `compute` for the current parameters, /repo/src/zernpy/utils/intmproc.py:126-129. -/
def LifeSetup.setup (c : LifeSetup V) (params : List V) : Setup V := ⟨fun _ => c.f, params, c.W⟩

/-- A new manager after the checks of the constructor, /repo/src/zernpy/utils/intmproc.py:80-82. -/
def lifeStart (c : LifeSetup V) (params : List V) : Life V where
  phase := .spawn 0
  keep := true
  initialized := false
  pos := fun _ => .unborn
  d := startCompute (c.setup params) (fun _ => freshWorker) (List.replicate params.length none)
  params := params
  log := []

/-- A call by the user, /repo/src/zernpy/utils/intmproc.py:116-232. -/
inductive ApiCall (V : Type) where
  | compute
  | update (params : List V)
  | close

/-- A step: of the main process, of a worker, of the transport of a message; a call by the user; an interruption of the main process, /repo/src/zernpy/utils/intmproc.py:56-290. -/
inductive LAct (V : Type) where
  | main
  | worker (i : Nat)
  | deliverM (i : Nat)
  | deliverW (i : Nat)
  | call (c : ApiCall V)
  | interrupt

/-- After a step of the task, /repo/src/zernpy/utils/intmproc.py:283-287: the loop continues after the last one; an exception ends the process. -/
def afterTask : WPc V → Pos
  | .idle => .head
  | .dead => .ended
  | _ => .task

/-- A step of a worker, /repo/src/zernpy/utils/intmproc.py:264-290. -/
def lifeWorker (c : LifeSetup V) (keep : Bool) (p : Pos) (w : WState V) : Option (Pos × WState V × List V) :=
  match p with
  | .unborn => none
  | .begin => some (if keep then .confirm else .ended, w, [])
  | .confirm => some (.head, { w with sentW := w.sentW ++ [c.hello] }, [])
  | .head => some (if keep then .wait else .ended, w, [])
  | .wait => if w.trigger then some (.checkTrigger, w, []) else none
  | .checkTrigger => some (if w.trigger then .checkKeep else .recheck, w, [])
  | .checkKeep => if keep then some (.task, { w with pc := .reading }, []) else some (.recheck, w, [])
  | .task =>
    (workerStep c.f w).map fun x => (afterTask x.1.pc, x.1, x.2)
  | .recheck => some (if keep then .head else .leave, w, [])
  | .leave => some (.ended, { w with trigger := false }, [])
  | .ended => none

/-- A step of the main process: the constructor, /repo/src/zernpy/utils/intmproc.py:84-102; `compute`, 126-167; `close`, 183-190. -/
def lifeMain (c : LifeSetup V) (s : Life V) : Option (Life V) :=
  match s.phase with
  | .spawn i =>
    if i < c.W then some { s with pos := Function.update s.pos i .begin, phase := .await i }
    else some { s with phase := .free, initialized := true }
  | .await i =>
    match (s.d.workers i).pipe with
    | [] => some s
    | _ :: rest => some { s with d := s.d.setWorker i { s.d.workers i with pipe := rest }, phase := .spawn (i + 1) }
  | .free => none
  | .computing =>
    match s.d.pc with
    | .done => some { s with phase := .free, log := s.log ++ [.value s.params s.d.results] }
    | .indexError => some { s with phase := .free, log := s.log ++ [.indexError] }
    | _ => (managerStep (c.setup s.params) s.d).map fun d => { s with d := d }
  | .closeSet i =>
    if i < c.W then some { s with d := s.d.setWorker i { s.d.workers i with trigger := true }, phase := .closeSet (i + 1) }
    else some { s with phase := .closeJoin 0 }
  | .closeJoin i =>
    if i < c.W then some { s with phase := .closeJoin (i + 1) }
    else some { s with phase := .free, initialized := false, params := [], d := { s.d with results := [] } }

/-- A call by the user, possible between two calls: `compute`, /repo/src/zernpy/utils/intmproc.py:126-128,168-170; `update_params`, 225-232 (a rejected list raises and
changes nothing); `close` (also `__del__`, 192-201), 181-182 and, if not initialized, 188-190. -/
def lifeCall (c : LifeSetup V) (s : Life V) : ApiCall V → Option (Life V)
  | .compute =>
    if s.phase = .free then
      if s.initialized then some { s with d := startCompute (c.setup s.params) s.d.workers s.d.results, phase := .computing }
      else some { s with log := s.log ++ [.nothing] }
    else none
  | .update ps =>
    if s.phase = .free then
      if s.initialized then
        match updateParams c.W ps with
        | .error _ => some s
        | .ok r => some { s with d := { s.d with results := r }, params := ps }
      else some s
    else none
  | .close =>
    if s.phase = .free then
      if s.initialized then some { s with keep := false, phase := .closeSet 0 }
      else some { s with params := [], d := { s.d with results := [] } }
    else none

/-- One step; `none` if it is not possible in this state. An interruption ends the current call of the main process, /repo/src/zernpy/utils/intmproc.py:56-290. -/
def lifeExec (c : LifeSetup V) (s : Life V) : LAct V → Option (Life V)
  | .main => lifeMain c s
  | .worker i =>
    if i < c.W then
      (lifeWorker c s.keep (s.pos i) (s.d.workers i)).map fun x =>
        { s with pos := Function.update s.pos i x.1, d := { s.d with workers := Function.update s.d.workers i x.2.1, calls := s.d.calls ++ x.2.2 } }
    else none
  | .deliverM i => (exec (c.setup s.params) s.d (.deliverM i)).map fun d => { s with d := d }
  | .deliverW i => (exec (c.setup s.params) s.d (.deliverW i)).map fun d => { s with d := d }
  | .call a => lifeCall c s a
  | .interrupt => if s.phase = .free then none else some { s with phase := .free }

/-- A step of a schedule; nothing happens if it is not possible, /repo/src/zernpy/utils/intmproc.py:56-290. -/
def lifeStep (c : LifeSetup V) (s : Life V) (a : LAct V) : Life V := (lifeExec c s a).getD s

/-- The state after a schedule, /repo/src/zernpy/utils/intmproc.py:56-290. -/
def lifeRun (c : LifeSetup V) (s : Life V) (acts : List (LAct V)) : Life V := acts.foldl (lifeStep c) s

/-- The state after the first `t` steps of an unlimited schedule, /repo/src/zernpy/utils/intmproc.py:56-290. -/
def lifeAt (c : LifeSetup V) (s : Life V) (sched : Nat → LAct V) : Nat → Life V
  | 0 => s
  | t + 1 => lifeStep c (lifeAt c s sched t) (sched t)

end Verif.Model.Dispenser
