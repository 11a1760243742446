import Verif.Proofs.DispenserTerm

/-!
# C39: parallel calculation

`compute` under every interleaving of the manager, the workers and the transport of messages.
-/

namespace Verif.Props

open Verif.Model.Dispenser Verif.Proofs.Dispenser

variable {V : Type}

/-- The state of `compute` of a manager with `n` workers that compute `f` after the steps `acts`; `pool`: the workers at the beginning, `results`: the
contents of its list of results at the beginning. -/
def computeAfter (f : V → Option V) (n : Nat) (params : List V) (pool : Nat → WState V) (results : List (Option V)) (acts : List Act) : DState V :=
  runSchedule ⟨fun _ => f, params, n⟩ (startCompute ⟨fun _ => f, params, n⟩ pool results) acts

/-- The same after `t` steps of an unlimited schedule. -/
def computeAt (f : V → Option V) (n : Nat) (params : List V) (pool : Nat → WState V) (results : List (Option V)) (sched : Nat → Act) (t : Nat) :
    DState V :=
  stateAt ⟨fun _ => f, params, n⟩ (startCompute ⟨fun _ => f, params, n⟩ pool results) sched t

/-- Specification: the state of the workers between two calls of `compute` of one manager with `n` workers that compute `f`: they were just
started, or an earlier `compute` (for any accepted parameters, any earlier results and any interleaving) has returned. -/
inductive PoolState (f : V → Option V) (n : Nat) : (Nat → WState V) → Prop
  | started : PoolState f n (fun _ => freshWorker)
  | computed (pool : Nat → WState V) (params : List V) (results : List (Option V)) (acts : List Act) :
      PoolState f n pool → results.length = params.length →
      (computeAfter f n params pool results acts).pc = .done → PoolState f n (computeAfter f n params pool results acts).workers

/-- Specification: every process and every message transport takes a step again and again. -/
def Fair (n : Nat) (sched : Nat → Act) : Prop :=
  ∀ t, (∃ u, t ≤ u ∧ sched u = .manager) ∧
    ∀ i, i < n → (∃ u, t ≤ u ∧ sched u = .worker i) ∧ (∃ u, t ≤ u ∧ sched u = .deliverM i) ∧ ∃ u, t ≤ u ∧ sched u = .deliverW i

theorem poolState_quiet {f : V → Option V} {n : Nat} {pool : Nat → WState V} (h : PoolState f n pool) :
    (∀ i, Quiet (pool i)) ∧ ∀ i, i < n → (pool i).pc ≠ .dead := by
  induction h with
  | started => exact ⟨fun _ => ⟨Or.inl ⟨rfl, rfl⟩, rfl, rfl, rfl⟩, fun i _ => by simp [freshWorker]⟩
  | computed pool params results acts hp hl hd ih =>
    obtain ⟨_, _, _, _, h5, h6⟩ := good_done (good_run (good_start _ pool results ih.1 hl) acts) hd
    exact ⟨h5, h6⟩

/-- C39: whenever `compute` of a manager returns, for every interleaving and after any earlier use of the manager, the result is the list of the
function values in the order of the parameters, and the function was called exactly once for each parameter; there is never an
`IndexError`. -/
theorem compute_correct (f : V → Option V) (n : Nat) (pool : Nat → WState V) (hpool : PoolState f n pool) (params : List V)
    (hn : n ≤ params.length) (results : List (Option V)) (hl : results.length = params.length) (acts : List Act) :
    let s := computeAfter f n params pool results acts
    s.pc ≠ .indexError ∧ (s.pc = .done → s.results = params.map f ∧ s.results.all Option.isSome ∧ s.calls.Perm params) := by
  intro s
  have hg : Good _ s := good_run (good_start ⟨fun _ => f, params, n⟩ pool results (poolState_quiet hpool).1 hl) acts
  constructor
  · intro hi
    rcases hg with ⟨_, h⟩ | ⟨st, a, h⟩
    · simp only at h; omega
    · have := h.pcOk
      rw [hi] at this
      exact this
  · intro hd
    obtain ⟨_, h2, h3, h4, _⟩ := good_done hg hd
    have hr : s.results = params.map f := by
      apply List.ext_getElem?
      intro k
      by_cases hk : k < params.length
      · obtain ⟨i, p, r, _, hp, hf, hres, _⟩ := h3 k hk
        simp only at hp hf
        rw [hres, List.getElem?_map, hp, Option.map_some, hf]
      · rw [List.getElem?_eq_none (by simp only at h2; omega), List.getElem?_eq_none (by simp; omega)]
    refine ⟨hr, ?_, h4⟩
    rw [List.all_eq_true]
    intro x hx
    obtain ⟨k, hk⟩ := List.mem_iff_getElem?.1 hx
    have hk2 : k < params.length := by
      by_contra hcon
      rw [List.getElem?_eq_none (by simp only at h2; omega)] at hk
      cases hk
    obtain ⟨i, p, r, _, hp, hf, hres, _⟩ := h3 k hk2
    rw [hres] at hk
    simp only [Option.some.injEq] at hk
    rw [← hk]; rfl

/-- C39: `compute` returns if the function raises no exception for the parameters and every process keeps running, after any earlier use of the
manager. -/
theorem compute_terminates (f : V → Option V) (n : Nat) (hn1 : 1 ≤ n) (pool : Nat → WState V) (hpool : PoolState f n pool) (params : List V)
    (hn : n ≤ params.length) (results : List (Option V)) (hl : results.length = params.length) (hf : ∀ p ∈ params, f p ≠ none)
    (sched : Nat → Act) (hfair : Fair n sched) :
    ∃ t, (computeAt f n params pool results sched t).pc = .done :=
  terminates (good_start ⟨fun _ => f, params, n⟩ pool results (poolState_quiet hpool).1 hl) hn1 hn (fun _ _ => hf)
    (poolState_quiet hpool).2 hfair

theorem stateAt_run (c : Setup V) (s : DState V) (sched : Nat → Act) (t : Nat) :
    stateAt c s sched t = runSchedule c s ((List.range t).map sched) := by
  induction t with
  | zero => rfl
  | succ t ih =>
    rw [List.range_succ, List.map_append, runSchedule, List.foldl_append]
    show step c (stateAt c s sched t) (sched t) = _
    rw [ih]
    rfl

/-- C39: the whole life of one manager: it was accepted by the constructor, and for each further parameter list that is accepted, a `compute`
under fair scheduling returns the values of the function in the order of the parameters. -/
theorem manager_session (f : V → V) (cpu : Nat) (hcpu : 2 ≤ cpu) (n : Option Int) (len w : Nat)
    (hw : managerInit true cpu n len = .started w) (pool : Nat → WState V) (hpool : PoolState (fun v => some (f v)) w pool) (params : List V)
    (results : List (Option V)) (hu : updateParams w params = .ok results) (sched : Nat → Act) (hfair : Fair w sched) :
    1 ≤ w ∧ w ≤ cpu ∧ ∃ t, let s := computeAt (fun v => some (f v)) w params pool results sched t
      s.pc = .done ∧ s.results = params.map (fun p => some (f p)) ∧ s.calls.Perm params ∧ PoolState (fun v => some (f v)) w s.workers := by
  have hwn : w = workersNumber cpu n ∧ w ≤ len := by
    unfold managerInit at hw
    simp only [Bool.not_true, Bool.false_eq_true, if_false] at hw
    by_cases h1 : len = 0
    · rw [if_pos h1] at hw; cases hw
    · rw [if_neg h1] at hw
      by_cases h2 : len < workersNumber cpu n
      · rw [if_pos h2] at hw; cases hw
      · rw [if_neg h2] at hw
        cases hw
        exact ⟨rfl, by omega⟩
  have hw1 : 1 ≤ w ∧ w ≤ cpu := by
    rw [hwn.1]
    unfold workersNumber
    cases n with
    | none => simp only; omega
    | some k =>
      simp only
      split_ifs <;> omega
  have hp : w ≤ params.length ∧ results.length = params.length := by
    unfold updateParams at hu
    by_cases h1 : params.length = 0
    · rw [if_pos h1] at hu; cases hu
    · rw [if_neg h1] at hu
      by_cases h2 : params.length < w
      · rw [if_pos h2] at hu; cases hu
      · rw [if_neg h2] at hu
        cases hu
        exact ⟨by omega, by simp⟩
  refine ⟨hw1.1, hw1.2, ?_⟩
  obtain ⟨t, ht⟩ := compute_terminates (fun v => some (f v)) w hw1.1 pool hpool params hp.1 results hp.2 (by simp) sched hfair
  refine ⟨t, ht, ?_⟩
  rw [computeAt, stateAt_run] at ht ⊢
  obtain ⟨h1, _, h3⟩ := (compute_correct (fun v => some (f v)) w pool hpool params hp.1 results hp.2 _).2 ht
  exact ⟨h1, h3, PoolState.computed pool params results _ hpool hp.2 ht⟩

/-- C39: if the function raises an exception for one of the parameters, `compute` never returns, for every interleaving. -/
theorem raising_never_returns (f : V → Option V) (n : Nat) (pool : Nat → WState V) (hpool : PoolState f n pool) (params : List V)
    (results : List (Option V)) (hl : results.length = params.length) (p : V) (hp : p ∈ params) (hf : f p = none) (acts : List Act) :
    (computeAfter f n params pool results acts).pc ≠ .done := by
  intro hd
  obtain ⟨_, _, h3, _⟩ := good_done (good_run (good_start _ pool results (poolState_quiet hpool).1 hl) acts) hd
  obtain ⟨k, hk, hkp⟩ := List.mem_iff_getElem.1 hp
  obtain ⟨i, q, r, _, hq, hfr, _⟩ := h3 k hk
  simp only at hq hfr
  rw [List.getElem?_eq_getElem hk, hkp] at hq
  simp only [Option.some.injEq] at hq
  rw [← hq, hf] at hfr
  cases hfr

/-- C39: the number of workers and the errors of the constructor. -/
theorem manager_init_exact (callable : Bool) (cpu : Nat) (n : Option Int) (len : Nat) :
    (∀ k : Nat, n = some (k : Int) → 2 ≤ k → k ≤ cpu → workersNumber cpu n = k) ∧
    ((n = none ∨ (∃ k : Int, n = some k ∧ (k < 2 ∨ (cpu : Int) < k))) → workersNumber cpu n = cpu / 2) ∧
    (∀ w, managerInit callable cpu n len = .started w ↔ callable = true ∧ 0 < len ∧ w = workersNumber cpu n ∧ w ≤ len) := by
  refine ⟨?_, ?_, ?_⟩
  · rintro k rfl h1 h2
    simp only [workersNumber]
    rw [if_pos (by omega), if_neg (by omega)]
    simp
  · rintro (rfl | ⟨k, rfl, h⟩)
    · rfl
    · simp only [workersNumber]
      split_ifs <;> first | rfl | omega
  · intro w
    cases callable <;> simp only [managerInit, Bool.not_true, Bool.not_false, if_true, Bool.false_eq_true, if_false]
    · simp
    · split_ifs with h1 h2
      · simp; omega
      · simp; omega
      · simp only [InitResult.started.injEq, true_and]
        constructor
        · rintro rfl; omega
        · rintro ⟨_, h, _⟩; exact h.symm

/-- C39: on a machine where only one processor is detected the default number of workers is zero, whatever is asked for, the constructor accepts it,
and then `compute` never returns. -/
theorem one_processor_never_returns (n : Option Int) (params : List V) (hp : params ≠ []) (f : V → Option V) (acts : List Act) :
    managerInit true 1 n params.length = .started 0 ∧
    (computeAfter f 0 params (fun _ => freshWorker) (List.replicate params.length none) acts).pc ≠ .done := by
  have hlen : 0 < params.length := List.length_pos_iff.2 hp
  constructor
  · rw [(manager_init_exact true 1 n params.length).2.2]
    refine ⟨rfl, hlen, ?_, by omega⟩
    unfold workersNumber
    cases n with
    | none => rfl
    | some k => simp only; split_ifs <;> first | rfl | omega
  · intro hd
    obtain ⟨_, _, h3, _⟩ := good_done (good_run (good_start ⟨fun _ => f, params, 0⟩ (fun _ => freshWorker) (List.replicate params.length none)
      (fun _ => ⟨Or.inl ⟨rfl, rfl⟩, rfl, rfl, rfl⟩) (by simp)) acts) hd
    obtain ⟨i, _, _, hi, _⟩ := h3 0 hlen
    simp only at hi
    omega

/-! ### Several managers -/

theorem classPool_get {history : List (Created V)} {i : Nat} {x : (V → Option V) × WState V} (h : (classPool history)[i]? = some x) :
    ∃ m ∈ history, x = (m.f, if m.closed then deadWorker false else freshWorker) := by
  have := List.mem_of_getElem? h
  unfold classPool at this
  rw [List.mem_flatMap] at this
  obtain ⟨m, hm, hx⟩ := this
  exact ⟨m, hm, List.eq_of_mem_replicate hx⟩

theorem computeStart_quiet (history : List (Created V)) (i : Nat) :
    Quiet ((computeStart history params).workers i) := by
  show Quiet (match (classPool history)[i]? with
    | some x => x.2
    | none => freshWorker)
  cases h : (classPool history)[i]? with
  | none => exact ⟨Or.inl ⟨rfl, rfl⟩, rfl, rfl, rfl⟩
  | some x =>
    obtain ⟨m, _, rfl⟩ := classPool_get h
    simp only
    cases m.closed
    · exact ⟨Or.inl ⟨rfl, rfl⟩, rfl, rfl, rfl⟩
    · exact ⟨Or.inr rfl, rfl, rfl, rfl⟩

theorem computeStart_good (history : List (Created V)) (params : List V) (acts : List Act) :
    Good (computeSetup history params) (runSchedule (computeSetup history params) (computeStart history params) acts) :=
  good_run (good_start _ _ _ (computeStart_quiet (params := params) history) (by simp [computeSetup])) acts

/-- C39 (negation): a manager created after another manager (with at least one worker) was closed never returns from `compute`, for every
interleaving: it hands parameters to the ended workers of the closed manager. -/
theorem second_manager_never_returns (history : List (Created V)) (m : Created V) (hm : m ∈ history) (hc : m.closed = true) (hn : 1 ≤ m.n)
    (params : List V) (acts : List Act) :
    (runSchedule (computeSetup history params) (computeStart history params) acts).pc ≠ .done := by
  intro hd
  obtain ⟨_, _, _, _, _, h6⟩ := good_done (computeStart_good history params acts) hd
  have hmem : (m.f, deadWorker false) ∈ classPool history := by
    unfold classPool
    rw [List.mem_flatMap]
    refine ⟨m, hm, ?_⟩
    rw [hc]
    exact List.mem_replicate.2 ⟨by omega, rfl⟩
  obtain ⟨i, hi, hx⟩ := List.mem_iff_getElem.1 hmem
  have hx' : (classPool history)[i]? = some (m.f, deadWorker false) := by rw [List.getElem?_eq_getElem hi, hx]
  refine h6 i hi ?_
  apply dead_run
  show (match (classPool history)[i]? with
    | some x => x.2
    | none => freshWorker).pc = .dead
  rw [hx']
  rfl

/-- C39 (negation): while an earlier manager with `n₁` workers is still open, `compute` of a second manager gives the first results with the function
of the earlier one, for every interleaving. -/
theorem second_manager_wrong_function (m₁ m₂ : Created V) (h₁ : m₁.closed = false) (params : List V) (acts : List Act) (k : Nat) (hk : k < m₁.n)
    (hd : (runSchedule (computeSetup [m₁, m₂] params) (computeStart [m₁, m₂] params) acts).pc = .done) (p : V) (hp : params[k]? = some p) :
    (runSchedule (computeSetup [m₁, m₂] params) (computeStart [m₁, m₂] params) acts).results[k]? = some (m₁.f p) := by
  obtain ⟨hW, _, h3, _⟩ := good_done (computeStart_good [m₁, m₂] params acts) hd
  have hpool : classPool [m₁, m₂] = List.replicate m₁.n (m₁.f, freshWorker) ++
      List.replicate m₂.n (m₂.f, if m₂.closed then deadWorker false else freshWorker) := by
    simp [classPool, h₁]
  have hkW : k < (computeSetup [m₁, m₂] params).W := by
    show k < (classPool [m₁, m₂]).length
    rw [hpool]; simp; omega
  have hkl : k < params.length := lt_of_lt_of_le hkW hW
  obtain ⟨i, q, r, hi, hq, hf, hres, hik⟩ := h3 k hkl
  have := hik hkW
  subst this
  have hqp : q = p := by
    have : params[i]? = some q := hq
    rw [hp] at this
    simpa using this.symm
  subst hqp
  have hfi : (computeSetup [m₁, m₂] params).f i = m₁.f := by
    show (match (classPool [m₁, m₂])[i]? with
      | some x => x.1
      | none => fun _ => none) = m₁.f
    rw [hpool, List.getElem?_append_left (by simpa using hk), List.getElem?_replicate, if_pos hk]
  rw [hfi] at hf
  rw [hres, hf]

/-- C39 (negation): if all managers created so far have together more workers than there are parameters, `compute` of the last one never returns;
under every fair interleaving that runs the manager long enough it ends with an `IndexError`. -/
theorem too_many_workers (history : List (Created V)) (params : List V) (h : params.length < (classPool history).length) :
    (∀ acts, (runSchedule (computeSetup history params) (computeStart history params) acts).pc ≠ .done) ∧
    (runSchedule (computeSetup history params) (computeStart history params) (List.replicate (2 * params.length + 1) .manager)).pc = .indexError := by
  constructor
  · intro acts hd
    obtain ⟨hW, _⟩ := good_done (computeStart_good history params acts) hd
    rw [show (computeSetup history params).params = params from rfl, show (computeSetup history params).W = (classPool history).length from rfl] at hW
    omega
  · have key : ∀ i, i ≤ params.length →
        (runSchedule (computeSetup history params) (computeStart history params) (List.replicate (2 * i) .manager)).pc = .initPut i := by
      intro i
      induction i with
      | zero => intro _; rfl
      | succ i ih =>
        intro hi
        have h1 := ih (by omega)
        have h2 : List.replicate (2 * (i + 1)) Act.manager = List.replicate (2 * i) Act.manager ++ [.manager, .manager] := by
          rw [show 2 * (i + 1) = 2 * i + 2 by ring, List.replicate_add]; rfl
        rw [h2, runSchedule, List.foldl_append]
        change (List.foldl (step (computeSetup history params)) (runSchedule _ _ (List.replicate (2 * i) .manager)) _).pc = _
        generalize runSchedule (computeSetup history params) (computeStart history params) (List.replicate (2 * i) .manager) = s at h1
        have hp : (computeSetup history params).params[i]? = some params[i] := List.getElem?_eq_getElem (by show i < params.length; omega)
        have hW : i < (computeSetup history params).W := lt_trans (by omega) h
        simp only [List.foldl_cons, List.foldl_nil, step, exec, managerStep, h1, if_pos hW, hp, Option.getD_some]
    have h1 := key params.length le_rfl
    rw [List.replicate_add, runSchedule, List.foldl_append]
    change (List.foldl (step (computeSetup history params)) (runSchedule _ _ (List.replicate (2 * params.length) .manager)) _).pc = _
    generalize runSchedule (computeSetup history params) (computeStart history params) (List.replicate (2 * params.length) .manager) = s at h1
    have hp : (computeSetup history params).params[params.length]? = none := List.getElem?_eq_none le_rfl
    have hW : params.length < (computeSetup history params).W := h
    simp only [List.replicate_one, List.foldl_cons, List.foldl_nil, step, exec, managerStep, h1, if_pos hW, hp, Option.getD_some]

/-! ### Examples -/

/-- Round robin of all processes. -/
def roundRobin (n : Nat) (t : Nat) : Act :=
  if t % (3 * n + 1) = 0 then .manager
  else if (t % (3 * n + 1)) % 3 = 1 then .worker ((t % (3 * n + 1)) / 3)
  else if (t % (3 * n + 1)) % 3 = 2 then .deliverM ((t % (3 * n + 1)) / 3)
  else .deliverW ((t % (3 * n + 1)) / 3 - 1)

theorem roundRobin_fair (n : Nat) : Fair n (roundRobin n) := by
  have hmod : ∀ t r, r < 3 * n + 1 → ∃ u, t ≤ u ∧ u % (3 * n + 1) = r := by
    intro t r hr
    refine ⟨(3 * n + 1) * t + r, ?_, ?_⟩
    · nlinarith
    · rw [Nat.mul_add_mod, Nat.mod_eq_of_lt hr]
  intro t
  refine ⟨?_, ?_⟩
  · obtain ⟨u, hu, h⟩ := hmod t 0 (by omega)
    exact ⟨u, hu, by simp [roundRobin, h]⟩
  · intro i hi
    refine ⟨?_, ?_, ?_⟩
    · obtain ⟨u, hu, h⟩ := hmod t (3 * i + 1) (by omega)
      refine ⟨u, hu, ?_⟩
      unfold roundRobin
      rw [h, if_neg (by omega), if_pos (by omega)]
      congr 1
      omega
    · obtain ⟨u, hu, h⟩ := hmod t (3 * i + 2) (by omega)
      refine ⟨u, hu, ?_⟩
      unfold roundRobin
      rw [h, if_neg (by omega), if_neg (by omega), if_pos (by omega)]
      congr 1
      omega
    · obtain ⟨u, hu, h⟩ := hmod t (3 * i + 3) (by omega)
      refine ⟨u, hu, ?_⟩
      unfold roundRobin
      rw [h, if_neg (by omega), if_neg (by omega), if_neg (by omega)]
      congr 1
      omega

/-- A manager with two workers and three parameters, used twice: the hypotheses of the theorems are met. -/
example : managerInit true 8 (some 2) 3 = .started 2 ∧ updateParams 2 [10, 20, 30] = .ok [none, none, none] := ⟨rfl, rfl⟩

example : ∃ t, let s := computeAt (fun v => some (v + 1)) 2 [10, 20, 30] (fun _ => freshWorker) [none, none, none] (roundRobin 2) t
    s.pc = .done ∧ s.results = [some 11, some 21, some 31] ∧ s.calls.Perm [10, 20, 30] ∧ PoolState (fun v => some (v + 1)) 2 s.workers :=
  (manager_session (fun v => v + 1) 8 (by omega) (some 2) 3 2 rfl _ .started [10, 20, 30] _ rfl (roundRobin 2) (roundRobin_fair 2)).2.2

/-- Two open managers with two workers each. -/
def twoManagers : List (Created Nat) := [⟨fun v => some (v + 1), 2, false⟩, ⟨fun v => some (v - 1), 2, false⟩]

/-- `compute` of the second manager, for a list of five parameters, returns, and the first results are those of the function of the first
manager. -/
example : ∃ acts, let s := runSchedule (computeSetup twoManagers [10, 20, 30, 40, 50]) (computeStart twoManagers [10, 20, 30, 40, 50]) acts
    s.pc = .done ∧ s.results[0]? = some (some 11) ∧ s.results[2]? = some (some 29) := by
  obtain ⟨t, ht⟩ := terminates (c := computeSetup twoManagers [10, 20, 30, 40, 50])
    (computeStart_good _ _ []) (by decide) (by decide) (by
      intro i hi p _
      have h4 : i < 4 := hi
      rcases i with _ | _ | _ | _ | i <;> first | omega | simp [computeSetup, classPool, twoManagers])
    (by
      intro i hi
      have h4 : i < 4 := hi
      rcases i with _ | _ | _ | _ | i <;>
        first | omega | simp [computeStart, startCompute, runSchedule, classPool, freshWorker, twoManagers])
    (roundRobin_fair 4)
  rw [stateAt_run] at ht
  refine ⟨_, ht, ?_, ?_⟩
  · exact second_manager_wrong_function _ _ rfl _ _ 0 (by decide) ht 10 rfl
  · obtain ⟨_, _, h3, _⟩ := good_done (computeStart_good _ _ _) ht
    obtain ⟨i, p, r, hi, hp, hf, hres, hik⟩ := h3 2 (by decide)
    have := hik (by decide)
    subst this
    have hp30 : p = 30 := by
      have : (some 30 : Option Nat) = some p := hp
      simpa using this.symm
    subst hp30
    have hr : r = 29 := by
      have : (some 29 : Option Nat) = some r := hf
      simpa using this.symm
    subst hr
    exact hres

end Verif.Props
