import Verif.Proofs.LifecycleReturns

/-!
# C64: the life of a `DispenserManager`

Every history of the main process, the workers, the transports of messages and the calls of the user from the constructor on; in some theorems also with
interruptions (`KeyboardInterrupt`) of the main process.
-/

namespace Verif.Props

open Verif.Model.Dispenser Verif.Proofs.Lifecycle

variable {V : Type}

/-! ### Specification -/

/-- The manager as the user sees it: the parameters, whether it can be used, how the calls of `compute` ended. -/
structure ManagerView (V : Type) where
  params : List V
  opened : Bool
  log : List (Outcome V)

/-- What a call of the user should do. -/
def ManagerView.call (f : V → Option V) (n : Nat) (v : ManagerView V) : ApiCall V → ManagerView V
  | .compute => { v with log := v.log ++ [if v.opened then .value v.params (v.params.map f) else .nothing] }
  | .update ps => if v.opened ∧ 1 ≤ ps.length ∧ n ≤ ps.length then { v with params := ps } else v
  | .close => { v with params := [], opened := false }

/-- The calls of a history: a call is possible only while no other call is running. -/
def callsOf (c : LifeSetup V) (s : Life V) : List (LAct V) → List (ApiCall V)
  | [] => []
  | .call a :: as => (if s.phase = .free then [a] else []) ++ callsOf c (lifeStep c s (.call a)) as
  | a :: as => callsOf c (lifeStep c s a) as

/-- A history without interruptions. -/
def Uninterrupted (acts : List (LAct V)) : Prop := ∀ a ∈ acts, a ≠ .interrupt

/-- The main process, every worker and every transport takes a step again and again, and there is no interruption. -/
def FairLife (n : Nat) (sched : Nat → LAct V) : Prop :=
  (∀ t, sched t ≠ .interrupt) ∧ (∀ t, ∃ u, t ≤ u ∧ sched u = .main) ∧
    ∀ t, ∀ i, i < n → (∃ u, t ≤ u ∧ sched u = .worker i) ∧ (∃ u, t ≤ u ∧ sched u = .deliverM i) ∧ ∃ u, t ≤ u ∧ sched u = .deliverW i

theorem isInterrupt_false {a : LAct V} (h : a ≠ .interrupt) : LAct.isInterrupt a = false := by
  cases a <;> first | rfl | exact absurd rfl h

/-! ### Uninterrupted histories -/

/-- The view agrees with the state; during `compute` and `close` it is already the view after the call. -/
def Agrees (c : LifeSetup V) (v : ManagerView V) (s : Life V) : Prop :=
  match s.phase with
  | .computing => v.params = s.params ∧ v.opened = true ∧ v.log = s.log ++ [.value s.params (s.params.map c.f)]
  | .closeSet _ => v.params = [] ∧ v.opened = false ∧ v.log = s.log
  | .closeJoin _ => v.params = [] ∧ v.opened = false ∧ v.log = s.log
  | .spawn _ => v.params = s.params ∧ v.opened = true ∧ v.log = s.log
  | .await _ => v.params = s.params ∧ v.opened = true ∧ v.log = s.log
  | .free => v.params = s.params ∧ v.opened = s.initialized ∧ v.log = s.log

theorem agrees_of_eq {c : LifeSetup V} {v : ManagerView V} {s s' : Life V} (h : Agrees c v s) (h1 : s'.phase = s.phase) (h2 : s'.params = s.params)
    (h3 : s'.initialized = s.initialized) (h4 : s'.log = s.log) : Agrees c v s' := by
  unfold Agrees at h ⊢
  rw [h1, h2, h3, h4]; exact h

theorem agrees_call {c : LifeSetup V} {v : ManagerView V} {s : Life V} (h : Agrees c v s) (a : ApiCall V) :
    Agrees c (if s.phase = .free then v.call c.f c.W a else v) (lifeStep c s (.call a)) := by
  by_cases hp : s.phase = .free
  · rw [if_pos hp]
    unfold Agrees at h
    rw [hp] at h
    obtain ⟨h1, h2, h3⟩ := h
    cases a with
    | compute =>
      cases hi : s.initialized with
      | true => simp [lifeStep, lifeExec, lifeCall, hp, hi, Agrees, ManagerView.call, h1, h2, h3]
      | false => simp [lifeStep, lifeExec, lifeCall, hp, hi, Agrees, ManagerView.call, h1, h2, h3]
    | close =>
      cases hi : s.initialized with
      | true => simp [lifeStep, lifeExec, lifeCall, hp, hi, Agrees, ManagerView.call, h3]
      | false => simp [lifeStep, lifeExec, lifeCall, hp, hi, Agrees, ManagerView.call, h3]
    | update ps =>
      cases hi : s.initialized with
      | false => simp [lifeStep, lifeExec, lifeCall, hp, hi, Agrees, ManagerView.call, h1, h2, h3]
      | true =>
        simp only [lifeStep, lifeExec, lifeCall, hp, hi, if_true, ManagerView.call, h2]
        by_cases g1 : ps.length = 0
        · rw [if_neg (by omega)]
          simp [updateParams, g1, Agrees, hp, hi, h1, h2, h3]
        · by_cases g2 : ps.length < c.W
          · rw [if_neg (by omega)]
            simp [updateParams, g1, g2, Agrees, hp, hi, h1, h2, h3]
          · rw [if_pos ⟨by trivial, by omega, by omega⟩]
            simp [updateParams, g1, g2, Agrees, hp, hi, h2, h3]
  · rw [if_neg hp]
    have : lifeStep c s (.call a) = s := by
      unfold lifeStep
      cases a <;> simp [lifeExec, lifeCall, hp]
    rw [this]; exact h

theorem agrees_step {c : LifeSetup V} {v : ManagerView V} {s : Life V} (hc : Clean c s) (h : Agrees c v s) {a : LAct V} (ha : LAct.isInterrupt a = false)
    (hcall : ∀ b, a ≠ .call b) : Agrees c v (lifeStep c s a) := by
  cases a with
  | interrupt => cases ha
  | call b => exact absurd rfl (hcall b)
  | worker i =>
    unfold lifeStep
    cases he : lifeExec c s (.worker i) with
    | none => exact h
    | some s' =>
      simp only [lifeExec] at he
      split at he
      · simp only [Option.map_eq_some_iff] at he
        obtain ⟨x, _, rfl⟩ := he
        exact agrees_of_eq h rfl rfl rfl rfl
      · cases he
  | deliverM i =>
    unfold lifeStep
    cases he : lifeExec c s (.deliverM i) with
    | none => exact h
    | some s' =>
      simp only [lifeExec, Option.map_eq_some_iff] at he
      obtain ⟨x, _, rfl⟩ := he
      exact agrees_of_eq h rfl rfl rfl rfl
  | deliverW i =>
    unfold lifeStep
    cases he : lifeExec c s (.deliverW i) with
    | none => exact h
    | some s' =>
      simp only [lifeExec, Option.map_eq_some_iff] at he
      obtain ⟨x, _, rfl⟩ := he
      exact agrees_of_eq h rfl rfl rfl rfl
  | main =>
    cases hp : s.phase with
    | free => simp only [lifeStep, lifeExec, lifeMain, hp, Option.getD_none]; exact h
    | spawn i =>
      unfold Agrees at h
      rw [hp] at h
      by_cases hi : i < c.W
      · simp only [lifeStep, lifeExec, lifeMain, hp, if_pos hi, Option.getD_some]; exact h
      · simp only [lifeStep, lifeExec, lifeMain, hp, if_neg hi, Option.getD_some]; exact h
    | await i =>
      cases hq : (s.d.workers i).pipe with
      | nil => simp only [lifeStep, lifeExec, lifeMain, hp, hq, Option.getD_some]; exact h
      | cons x xs =>
        unfold Agrees at h
        rw [hp] at h
        simp only [lifeStep, lifeExec, lifeMain, hp, hq, Option.getD_some]; exact h
    | closeSet i =>
      unfold Agrees at h
      rw [hp] at h
      by_cases hi : i < c.W
      · simp only [lifeStep, lifeExec, lifeMain, hp, if_pos hi, Option.getD_some]; exact h
      · simp only [lifeStep, lifeExec, lifeMain, hp, if_neg hi, Option.getD_some]; exact h
    | closeJoin i =>
      unfold Agrees at h
      rw [hp] at h
      by_cases hi : i < c.W
      · simp only [lifeStep, lifeExec, lifeMain, hp, if_pos hi, Option.getD_some]; exact h
      · simp only [lifeStep, lifeExec, lifeMain, hp, if_neg hi, Option.getD_some]; exact h
    | computing =>
      by_cases hn : (lifeStep c s .main).phase = .computing
      · unfold lifeStep at hn ⊢
        cases he : lifeExec c s .main with
        | none => exact h
        | some s' =>
          rw [he] at hn
          simp only [lifeExec, lifeMain, hp] at he
          split at he
          · cases he; simp at hn
          · cases he; simp at hn
          · simp only [Option.map_eq_some_iff] at he
            obtain ⟨d, hd, rfl⟩ := he
            exact agrees_of_eq h hp.symm rfl rfl rfl
      · obtain ⟨h1, h2, h3, h4, _⟩ := leave_step hc hp rfl hn
        unfold Agrees at h ⊢
        rw [hp] at h
        rw [h1]
        have hin : (lifeStep c s .main).initialized = true := by
          have := (hc.step (a := .main) rfl).r.phase
          unfold PhaseInv at this
          rw [h1] at this
          refine (this ?_).1
          have hk := hc.r.phase
          unfold PhaseInv at hk
          rw [hp] at hk
          have hk : s.keep = true := hk.1
          unfold lifeStep
          cases he : lifeExec c s .main with
          | none => exact hk
          | some s' =>
            simp only [lifeExec, lifeMain, hp] at he
            split at he
            · cases he; exact hk
            · cases he; exact hk
            · simp only [Option.map_eq_some_iff] at he
              obtain ⟨d, hd, rfl⟩ := he
              exact hk
        simp only
        rw [h2, h3, hin, h4]
        exact h

theorem agrees_run {c : LifeSetup V} (acts : List (LAct V)) {v : ManagerView V} {s : Life V} (hc : Clean c s) (h : Agrees c v s) (ha : ∀ a ∈ acts, LAct.isInterrupt a = false) :
    Agrees c ((callsOf c s acts).foldl (ManagerView.call c.f c.W) v) (lifeRun c s acts) := by
  induction acts generalizing v s with
  | nil => exact h
  | cons a as ih =>
    have hcs := hc.step (ha a (by simp))
    have has : ∀ b ∈ as, LAct.isInterrupt b = false := fun b hb => ha b (by simp [hb])
    cases a with
    | call b =>
      have h2 := agrees_call h b
      simp only [callsOf]
      rw [List.foldl_append]
      by_cases hp : s.phase = .free
      · rw [if_pos hp] at h2 ⊢
        exact ih hcs h2 has
      · rw [if_neg hp] at h2 ⊢
        exact ih hcs h2 has
    | main => exact ih hcs (agrees_step hc h (ha _ (by simp)) (by simp)) has
    | worker i => exact ih hcs (agrees_step hc h (ha _ (by simp)) (by simp)) has
    | deliverM i => exact ih hcs (agrees_step hc h (ha _ (by simp)) (by simp)) has
    | deliverW i => exact ih hcs (agrees_step hc h (ha _ (by simp)) (by simp)) has
    | interrupt => have := ha .interrupt (by simp); cases this

/-- C64: in every history without interruptions, whenever no call is running, the calls of `compute` ended as they should: with the values of the
function for the parameters given last, in their order, as long as the manager was not closed, and with `None` after that; changes of the parameters
have an effect only if they are accepted and the manager is not closed. -/
theorem life_refines (c : LifeSetup V) (params : List V) (hn : c.W ≤ params.length) (acts : List (LAct V)) (hu : Uninterrupted acts)
    (hfree : (lifeRun c (lifeStart c params) acts).phase = .free) :
    let s := lifeRun c (lifeStart c params) acts
    let v := (callsOf c (lifeStart c params) acts).foldl (ManagerView.call c.f c.W) ⟨params, true, []⟩
    s.log = v.log ∧ s.params = v.params ∧ s.initialized = v.opened := by
  have h := agrees_run acts (clean_start c params hn) (v := ⟨params, true, []⟩) (by simp [Agrees, lifeStart]) (fun a ha => isInterrupt_false (hu a ha))
  unfold Agrees at h
  rw [hfree] at h
  exact ⟨h.2.2.symm, h.1.symm, h.2.1.symm⟩

/-- C64: in every history without interruptions no call of `compute` ends with an `IndexError`, and one that returned a list had a function that raised for none of the
parameters. -/
theorem life_outcomes (c : LifeSetup V) (params : List V) (hn : c.W ≤ params.length) (acts : List (LAct V)) (hu : Uninterrupted acts) :
    ∀ o ∈ (lifeRun c (lifeStart c params) acts).log, o ≠ .indexError ∧ ∀ ps rs, o = .value ps rs → rs = ps.map c.f ∧ ∀ p ∈ ps, c.f p ≠ none := by
  intro o ho
  have h := ((clean_start c params hn).run acts (fun a ha => isInterrupt_false (hu a ha))).r.log o ho
  constructor
  · rintro rfl; exact h
  · rintro ps rs rfl; exact h

theorem clean_history (c : LifeSetup V) (params : List V) (hn : c.W ≤ params.length) {acts : List (LAct V)} (hu : Uninterrupted acts) :
    Clean c (lifeRun c (lifeStart c params) acts) := (clean_start c params hn).run acts (fun a ha => isInterrupt_false (hu a ha))

theorem fairLife_fair {n : Nat} {sched : Nat → LAct V} (h : FairLife n sched) : LFair n sched ∧ ∀ t, LAct.isInterrupt (sched t) = false :=
  ⟨⟨h.2.1, h.2.2⟩, fun t => isInterrupt_false (h.1 t)⟩

/-- C64: in every history without interruptions, continued by any fair schedule, a running call returns (the constructor, `compute` and `close`), if the
function raises for none of the current parameters. -/
theorem life_returns (c : LifeSetup V) (hW : 1 ≤ c.W) (params : List V) (hn : c.W ≤ params.length) (acts : List (LAct V)) (hu : Uninterrupted acts)
    (sched : Nat → LAct V) (hfair : FairLife c.W sched)
    (hf : (lifeRun c (lifeStart c params) acts).phase = .computing → ∀ p ∈ (lifeRun c (lifeStart c params) acts).params, c.f p ≠ none) :
    ∃ t, (lifeAt c (lifeRun c (lifeStart c params) acts) sched t).phase = .free := by
  have hcl := clean_history c params hn hu
  obtain ⟨h1, h2⟩ := fairLife_fair hfair
  cases hp : (lifeRun c (lifeStart c params) acts).phase with
  | free => exact ⟨0, hp⟩
  | spawn j => obtain ⟨t, ht, _⟩ := constructor_returns hcl (.inl hp) h1 h2; exact ⟨t, ht⟩
  | await j => obtain ⟨t, ht, _⟩ := constructor_returns hcl (.inr hp) h1 h2; exact ⟨t, ht⟩
  | computing => obtain ⟨t, ht, _⟩ := compute_returns hcl hp (hf hp) hW h1 h2; exact ⟨t, ht⟩
  | closeSet j =>
    obtain ⟨t, ht⟩ := close_returns hcl.r.inv (.inl hp) h1.1 h2
    exact ⟨t, closed_phase (lifeAt_inv hcl.r.inv sched t) ht⟩
  | closeJoin j =>
    obtain ⟨t, ht⟩ := close_returns hcl.r.inv (.inr hp) h1.1 h2
    exact ⟨t, closed_phase (lifeAt_inv hcl.r.inv sched t) ht⟩

/-- C64, counterexample: a function that raises for one of the parameters: `compute` never returns, whatever is scheduled. -/
theorem life_never_returns (c : LifeSetup V) (params : List V) (hn : c.W ≤ params.length) (acts : List (LAct V)) (hu : Uninterrupted acts)
    (hp : (lifeRun c (lifeStart c params) acts).phase = .computing) (hf : ∃ p ∈ (lifeRun c (lifeStart c params) acts).params, c.f p = none)
    (more : List (LAct V)) (hm : Uninterrupted more) : (lifeRun c (lifeRun c (lifeStart c params) acts) more).phase = .computing := by
  have hcl := clean_history c params hn hu
  generalize lifeRun c (lifeStart c params) acts = s at hcl hp hf ⊢
  induction more generalizing s with
  | nil => exact hp
  | cons a as ih =>
    have ha : LAct.isInterrupt a = false := isInterrupt_false (hm a (by simp))
    have hstay : (lifeStep c s a).phase = .computing := by
      by_contra hno
      obtain ⟨_, h2, _, _, _⟩ := leave_step hcl hp ha hno
      have := (hcl.step ha).r.log (.value s.params s.d.results) (by rw [h2]; simp)
      obtain ⟨p, hp2, hp3⟩ := hf
      exact this.2 p hp2 hp3
    have hpar : (lifeStep c s a).params = s.params := by
      cases a with
      | interrupt => cases ha
      | call b => unfold lifeStep; cases b <;> simp [lifeExec, lifeCall, hp]
      | worker i =>
        simp only [lifeStep, lifeExec]
        split
        · cases lifeWorker c s.keep (s.pos i) (s.d.workers i) <;> rfl
        · rfl
      | deliverM i => simp only [lifeStep, lifeExec]; cases exec (c.setup s.params) s.d (.deliverM i) <;> rfl
      | deliverW i => simp only [lifeStep, lifeExec]; cases exec (c.setup s.params) s.d (.deliverW i) <;> rfl
      | main =>
        unfold lifeStep
        cases he : lifeExec c s .main with
        | none => rfl
        | some s' =>
          simp only [lifeExec, lifeMain, hp] at he
          split at he
          · cases he; rfl
          · cases he; rfl
          · simp only [Option.map_eq_some_iff] at he
            obtain ⟨d, hd, rfl⟩ := he
            rfl
    exact ih (fun b hb => hm b (by simp [hb])) _ (hcl.step ha) hstay (by rw [hpar]; exact hf)

/-! ### After `close` -/

/-- C64: after `close` was called in a history without interruptions, the function is not called any more. -/
theorem life_no_calls_after_close (c : LifeSetup V) (params : List V) (hn : c.W ≤ params.length) (acts : List (LAct V)) (hu : Uninterrupted acts)
    (hc : (lifeRun c (lifeStart c params) acts).keep = false) (more : List (LAct V)) (hm : Uninterrupted more) :
    (lifeRun c (lifeRun c (lifeStart c params) acts) more).d.calls = (lifeRun c (lifeStart c params) acts).d.calls := by
  have hcl := clean_history c params hn hu
  exact ((noTask_run hcl.r hcl.noTask more (fun a ha => isInterrupt_false (hm a ha))).2 hc).2

/-- `close` has returned after it was called for a manager that was not closed. -/
def AfterClose (s : Life V) : Prop := s.phase = .free ∧ s.keep = false ∧ s.initialized = false

/-- C64: in every history, also with interruptions of `compute` or of the constructor: after `close` has returned, the function is called at most once
more by each worker. -/
theorem life_few_calls_after_close (c : LifeSetup V) (params : List V) (acts : List (LAct V)) (hc : AfterClose (lifeRun c (lifeStart c params) acts))
    (more : List (LAct V)) :
    (lifeRun c (lifeRun c (lifeStart c params) acts) more).d.calls.length ≤ (lifeRun c (lifeStart c params) acts).d.calls.length + c.W := by
  have h := calls_run (lifeInv c params acts) ⟨hc.2.1, hc.2.2⟩ more
  have hle : ∀ s : Life V, ∑ i ∈ Finset.range c.W, mayCall (s.pos i) (s.d.workers i).pc ≤ c.W := by
    intro s
    calc ∑ i ∈ Finset.range c.W, mayCall (s.pos i) (s.d.workers i).pc ≤ ∑ i ∈ Finset.range c.W, 1 := by
          refine Finset.sum_le_sum fun i _ => ?_
          unfold mayCall; split <;> omega
      _ = c.W := by simp
  have := hle (lifeRun c (lifeStart c params) acts)
  omega

theorem lifeAt_add (c : LifeSetup V) (s : Life V) (sched : Nat → LAct V) (t u : Nat) :
    lifeAt c s sched (t + u) = lifeAt c (lifeAt c s sched t) (fun k => sched (t + k)) u := by
  induction u with
  | zero => rfl
  | succ u ih =>
    show lifeStep c (lifeAt c s sched (t + u)) (sched (t + u)) = lifeStep c _ _
    rw [ih]

/-- C64: in every history, also with interruptions of the constructor, of `compute` and of `close`: when `close` is called for a manager that can be used, then under every
fair schedule `close` returns and from some moment on every process of a worker has ended. -/
theorem life_close_ends_all (c : LifeSetup V) (params : List V) (acts : List (LAct V))
    (hp : (lifeRun c (lifeStart c params) acts).phase = .free) (hi : (lifeRun c (lifeStart c params) acts).initialized = true)
    (sched : Nat → LAct V) (hfair : FairLife c.W sched) :
    let s := lifeStep c (lifeRun c (lifeStart c params) acts) (.call .close)
    ∃ t, ∀ u, t ≤ u → AfterClose (lifeAt c s sched u) ∧ ∀ i, i < c.W → (lifeAt c s sched u).pos i = .ended := by
  intro s
  have hinv : LInv c s := (lifeInv c params acts).step _
  have hph : s.phase = .closeSet 0 := by
    simp only [s, lifeStep, lifeExec, lifeCall, hp, hi, if_true, Option.getD_some]
  obtain ⟨h1, h2⟩ := fairLife_fair hfair
  obtain ⟨t, ht⟩ := close_returns hinv (.inl hph) h1.1 h2
  have hinv2 := lifeAt_inv hinv sched t
  obtain ⟨t2, ht2⟩ := all_end (sched := fun k => sched (t + k)) hinv2 ht (by
    intro a i hi2
    obtain ⟨⟨x, hx, hx2⟩, ⟨y, hy, hy2⟩, ⟨z, hz, hz2⟩⟩ := h1.2 (t + a) i hi2
    exact ⟨⟨x - t, by omega, by simpa [show t + (x - t) = x by omega] using hx2⟩, ⟨y - t, by omega, by simpa [show t + (y - t) = y by omega] using hy2⟩,
      ⟨z - t, by omega, by simpa [show t + (z - t) = z by omega] using hz2⟩⟩)
  refine ⟨t + t2, fun u hu => ?_⟩
  have he : lifeAt c s sched u = lifeAt c (lifeAt c s sched t) (fun k => sched (t + k)) (u - t) := by
    rw [← lifeAt_add, show t + (u - t) = u by omega]
  have hcl : Closed (lifeAt c s sched u) := by
    rw [he]; exact lifeAt_closed hinv2 ht _ _
  refine ⟨⟨closed_phase (lifeAt_inv hinv sched u) hcl, hcl.1, hcl.2⟩, fun i hi => ?_⟩
  rw [he]
  exact ht2 (u - t) (by omega) i hi

/-! ### Interruptions -/

/-- The steps of the constructor of a manager with one worker. -/
def startOne : List (LAct V) := [.main, .worker 0, .worker 0, .deliverW 0, .main, .main]

/-- `compute` is interrupted after the parameter was put into the queue, and it arrives. -/
def interruptedCompute : List (LAct V) := [.call .compute, .main, .interrupt, .deliverM 0]

/-- A complete `compute` after that. -/
def completeCompute : List (LAct V) :=
  [.call .compute, .main, .deliverM 0, .main, .worker 0, .worker 0, .worker 0, .worker 0, .worker 0, .worker 0, .worker 0, .worker 0, .deliverW 0, .main, .main, .main, .main, .main, .main]

/-- C64, counterexample: after an interrupted `compute` the queue of the worker holds its parameter; a later `compute` for a new parameter `q` returns `q` itself instead of the value
of the function. -/
theorem life_interrupted_compute_wrong (f : V → Option V) (hello p q r : V) (hp : f p = some r) :
    (lifeRun ⟨f, 1, hello⟩ (lifeStart ⟨f, 1, hello⟩ [p]) (startOne ++ interruptedCompute ++ [.call (.update [q])] ++ completeCompute)).log = [.value [q] [some q]] := by
  simp [lifeRun, startOne, interruptedCompute, completeCompute, lifeStart, lifeStep, lifeExec, lifeMain, lifeCall, lifeWorker, exec, startCompute, freshWorker,
    LifeSetup.setup, DState.setWorker, managerStep, workerStep, updateParams, hp, afterTask, List.range_succ]

example : (lifeRun ⟨fun x : Nat => some (x + 1), 1, 0⟩ (lifeStart ⟨fun x : Nat => some (x + 1), 1, 0⟩ [5]) (startOne ++ interruptedCompute ++ [.call (.update [7])] ++ completeCompute)).log =
    [.value [7] [some 7]] := life_interrupted_compute_wrong _ _ _ _ 6 rfl

/-- A worker of an interrupted constructor. -/
def Orphan (s : Life V) : Prop :=
  s.phase = .free ∧ s.keep = true ∧ s.initialized = false ∧
    ∀ i, (s.d.workers i).trigger = false ∧ (s.pos i = .unborn ∨ s.pos i = .begin ∨ s.pos i = .confirm ∨ s.pos i = .head ∨ s.pos i = .wait)

theorem orphan_step {c : LifeSetup V} {s : Life V} (h : Orphan s) (a : LAct V) :
    Orphan (lifeStep c s a) ∧ (∀ i, s.pos i ≠ .unborn → (lifeStep c s a).pos i ≠ .unborn) ∧ (lifeStep c s a).d.calls = s.d.calls := by
  obtain ⟨h1, h2, h3, h4⟩ := h
  unfold lifeStep
  cases he : lifeExec c s a with
  | none => exact ⟨⟨h1, h2, h3, h4⟩, fun _ h => h, rfl⟩
  | some s' =>
    simp only [Option.getD_some]
    have hdel : ∀ {b : Act} {i : Nat} {d : DState V}, (b = .deliverM i ∨ b = .deliverW i) → exec (c.setup s.params) s.d b = some d →
        d.calls = s.d.calls ∧ ∀ j, (d.workers j).trigger = (s.d.workers j).trigger := by
      intro b i d hb hd
      rcases hb with rfl | rfl <;> (simp only [exec] at hd; split at hd <;> [skip; cases hd]; split at hd <;> cases hd)
      all_goals
        refine ⟨rfl, fun j => ?_⟩
        by_cases hij : j = i
        · subst hij; simp [DState.setWorker]
        · simp [DState.setWorker, Function.update_of_ne hij]
    cases a with
    | main => simp [lifeExec, lifeMain, h1] at he
    | interrupt => simp [lifeExec, h1] at he
    | call b =>
      cases b <;> (simp only [lifeExec, lifeCall, h1, h3, if_true] at he; cases he) <;> exact ⟨⟨by first | exact h1 | rfl, h2, by first | exact h3 | rfl, h4⟩, fun _ h => h, rfl⟩
    | deliverM i =>
      simp only [lifeExec, Option.map_eq_some_iff] at he
      obtain ⟨d, hd, rfl⟩ := he
      obtain ⟨g1, g2⟩ := hdel (.inl rfl) hd
      exact ⟨⟨h1, h2, h3, fun j => ⟨(g2 j).trans (h4 j).1, (h4 j).2⟩⟩, fun _ h => h, g1⟩
    | deliverW i =>
      simp only [lifeExec, Option.map_eq_some_iff] at he
      obtain ⟨d, hd, rfl⟩ := he
      obtain ⟨g1, g2⟩ := hdel (.inr rfl) hd
      exact ⟨⟨h1, h2, h3, fun j => ⟨(g2 j).trans (h4 j).1, (h4 j).2⟩⟩, fun _ h => h, g1⟩
    | worker i =>
      simp only [lifeExec] at he
      split at he
      · simp only [Option.map_eq_some_iff] at he
        obtain ⟨⟨p, w, l⟩, hx, rfl⟩ := he
        rw [h2] at hx
        have key : w.trigger = false ∧ (p = .confirm ∨ p = .head ∨ p = .wait) ∧ l = [] := by
          obtain ⟨g1, g2⟩ := h4 i
          rcases g2 with g | g | g | g | g <;> rw [g] at hx
          · cases hx
          · cases hx; exact ⟨g1, .inl rfl, rfl⟩
          · cases hx; exact ⟨g1, .inr (.inl rfl), rfl⟩
          · cases hx; exact ⟨g1, .inr (.inr rfl), rfl⟩
          · simp [lifeWorker, g1] at hx
        refine ⟨⟨h1, h2, h3, fun j => ?_⟩, fun j hj => ?_, by simp [key.2.2]⟩
        · by_cases hij : j = i
          · subst hij
            simp only [Function.update_self]
            exact ⟨key.1, .inr (.inr key.2.1)⟩
          · simpa [Function.update_of_ne hij] using h4 j
        · by_cases hij : j = i
          · subst hij
            simp only [Function.update_self]
            rcases key.2.1 with g | g | g <;> rw [g] <;> simp
          · simpa [Function.update_of_ne hij] using hj
      · cases he

theorem outside_unborn (c : LifeSetup V) (params : List V) (acts : List (LAct V)) {i : Nat} (hi : c.W ≤ i) : (lifeRun c (lifeStart c params) acts).pos i ≠ .ended := by
  have key : ∀ (acts : List (LAct V)) (x : Life V), x.pos i = .unborn → (lifeRun c x acts).pos i = .unborn := by
    intro acts
    induction acts with
    | nil => intro x hx; exact hx
    | cons a as ih =>
      intro x hx
      refine ih _ ?_
      unfold lifeStep
      cases he : lifeExec c x a with
      | none => exact hx
      | some x' =>
        simp only [Option.getD_some]
        cases a with
        | interrupt =>
          simp only [lifeExec] at he
          split at he <;> cases he
          exact hx
        | deliverM k => simp only [lifeExec, Option.map_eq_some_iff] at he; obtain ⟨d, hd, rfl⟩ := he; exact hx
        | deliverW k => simp only [lifeExec, Option.map_eq_some_iff] at he; obtain ⟨d, hd, rfl⟩ := he; exact hx
        | worker k =>
          simp only [lifeExec] at he
          split at he
          · rename_i hk
            simp only [Option.map_eq_some_iff] at he
            obtain ⟨y, hy, rfl⟩ := he
            simpa [Function.update_of_ne (show i ≠ k by omega)] using hx
          · cases he
        | call b =>
          cases b with
          | compute => simp only [lifeExec, lifeCall] at he; split at he <;> [skip; cases he]; split at he <;> (cases he; exact hx)
          | close => simp only [lifeExec, lifeCall] at he; split at he <;> [skip; cases he]; split at he <;> (cases he; exact hx)
          | update ps =>
            simp only [lifeExec, lifeCall] at he
            split at he <;> [skip; cases he]
            split at he
            · split at he <;> (cases he; exact hx)
            · cases he; exact hx
        | main =>
          simp only [lifeExec] at he
          unfold lifeMain at he
          split at he
          · rename_i k hk
            split at he
            · cases he; simpa [Function.update_of_ne (show i ≠ k by omega)] using hx
            · cases he; exact hx
          · split at he <;> (cases he; exact hx)
          · cases he
          · split at he
            · cases he; exact hx
            · cases he; exact hx
            · simp only [Option.map_eq_some_iff] at he; obtain ⟨d, hd, rfl⟩ := he; exact hx
          · split at he <;> (cases he; exact hx)
          · split at he <;> (cases he; exact hx)
  rw [key acts _ rfl]; simp

/-- C64, counterexample: the constructor is interrupted after the process of a worker was started: whatever follows (also calls of `close`), this process never ends, it
computes nothing, and the manager cannot be used. -/
theorem life_interrupted_constructor_leaks (c : LifeSetup V) (params : List V) (hn : c.W ≤ params.length) (acts : List (LAct V)) (hu : Uninterrupted acts) (j : Nat)
    (hp : (lifeRun c (lifeStart c params) acts).phase = .spawn j ∨ (lifeRun c (lifeStart c params) acts).phase = .await j) (more : List (LAct V)) :
    let s := lifeRun c (lifeStart c params) acts
    let s' := lifeRun c (lifeStep c s .interrupt) more
    s'.phase = .free ∧ s'.initialized = false ∧ s'.d.calls = s.d.calls ∧ ∀ i, s.pos i ≠ .unborn → s'.pos i ≠ .unborn ∧ s'.pos i ≠ .ended := by
  intro s s'
  have hcl : Clean c s := clean_history c params hn hu
  have hstep : lifeStep c s .interrupt = { s with phase := .free } := by
    have : s.phase ≠ .free := by rcases hp with h | h <;> (rw [h]; simp)
    simp [lifeStep, lifeExec, this]
  have hb := hcl.r.inv.building (by rcases hp with h | h; exacts [⟨j, .inl h⟩, ⟨j, .inr h⟩])
  have hstill := hcl.r.inv.still (by rcases hp with h | h; exacts [⟨j, .inl h⟩, ⟨j, .inr h⟩])
  have horph : Orphan (lifeStep c s .interrupt) := by
    rw [hstep]
    refine ⟨rfl, hb.1, hb.2, fun i => ⟨hstill i, ?_⟩⟩
    have hw := hcl.r.inv.ws i
    have hlate : Pos.late (s.pos i) = false := by
      by_contra hl
      have := hw.trig (by simpa using hl)
      rw [hstill i] at this; cases this
    have hend : s.pos i ≠ .ended := by
      by_cases hi : i < c.W
      · exact hcl.alive hb.1 (fun h => by rcases hp with g | g <;> (rw [show s.phase = _ from g] at h; cases h)) i hi
      · intro he
        have hunb := hcl.r.inv.unb i (by
          rcases hp with h | h
          · left
            refine ⟨j, h, ?_⟩
            by_contra hij
            exact absurd he (outside_unborn c params acts (by omega))
          · right; exact ⟨j, h, by have := hcl.r.inv.awaitW j h; omega⟩)
        rw [hunb] at he; cases he
    cases hpos : s.pos i <;> simp [hpos, Pos.late] at hlate hend ⊢
  have hrun : ∀ (more : List (LAct V)) (x : Life V), Orphan x → Orphan (lifeRun c x more) ∧ (∀ i, x.pos i ≠ .unborn → (lifeRun c x more).pos i ≠ .unborn) ∧
      (lifeRun c x more).d.calls = x.d.calls := by
    intro more
    induction more with
    | nil => intro x hx; exact ⟨hx, fun _ h => h, rfl⟩
    | cons a as ih =>
      intro x hx
      have h1 := orphan_step (c := c) hx a
      have h2 := ih _ h1.1
      exact ⟨h2.1, fun i hi => h2.2.1 i (h1.2.1 i hi), h2.2.2.trans h1.2.2⟩
  obtain ⟨h1, h2, h3⟩ := hrun more _ horph
  refine ⟨h1.1, h1.2.2.1, ?_, fun i hi => ⟨h2 i (by rw [hstep]; exact hi), ?_⟩⟩
  · show (lifeRun c (lifeStep c s .interrupt) more).d.calls = _
    rw [h3, hstep]
  · have := (h1.2.2.2 i).2
    intro he
    have he : (lifeRun c (lifeStep c s .interrupt) more).pos i = .ended := he
    rw [he] at this
    simp at this

/-! ### The hypotheses can be met -/

/-- A manager with one worker that computes `x + 1`. -/
def demoLife : LifeSetup Nat := ⟨fun x => some (x + 1), 1, 0⟩

/-- `compute` with one worker and one parameter. -/
def oneCompute : List (LAct Nat) :=
  [.call .compute, .main, .deliverM 0, .main, .worker 0, .worker 0, .worker 0, .worker 0, .worker 0, .worker 0, .worker 0, .worker 0, .deliverW 0, .main, .main, .main, .main, .main, .main]

/-- Construction, `compute`, new parameters, `compute`, `close`, `compute`. -/
def demoHistory : List (LAct Nat) :=
  startOne ++ oneCompute ++ [.call (.update [7])] ++ oneCompute ++ [.call .close, .main, .main, .main, .main] ++ [.call .compute]

theorem uninterrupted_of_all {acts : List (LAct V)} (h : (acts.all fun a => !LAct.isInterrupt a) = true) : Uninterrupted acts := by
  intro a ha
  rw [List.all_eq_true] at h
  rintro rfl
  have := h _ ha
  cases this

set_option maxRecDepth 20000 in
/-- Non-vacuity of `life_refines` and `life_outcomes`. -/
example : (lifeRun demoLife (lifeStart demoLife [5]) demoHistory).phase = .free ∧
    (lifeRun demoLife (lifeStart demoLife [5]) demoHistory).log = [.value [5] [some 6], .value [7] [some 8], .nothing] ∧ Uninterrupted demoHistory := by
  exact ⟨by rfl, by rfl, uninterrupted_of_all (by rfl)⟩

set_option maxRecDepth 20000 in
/-- Non-vacuity of `life_no_calls_after_close`, `life_few_calls_after_close`. -/
example : AfterClose (lifeRun demoLife (lifeStart demoLife [5]) demoHistory) ∧ (lifeRun demoLife (lifeStart demoLife [5]) demoHistory).d.calls = [7] := ⟨⟨rfl, rfl, rfl⟩, rfl⟩

/-- A fair schedule for one worker. -/
def lifeRobin (t : Nat) : LAct Nat :=
  match t % 4 with
  | 0 => .main
  | 1 => .worker 0
  | 2 => .deliverM 0
  | _ => .deliverW 0

theorem lifeRobin_fair : FairLife 1 lifeRobin := by
  have h : ∀ t, lifeRobin (4 * t) = .main ∧ lifeRobin (4 * t + 1) = .worker 0 ∧ lifeRobin (4 * t + 2) = .deliverM 0 ∧ lifeRobin (4 * t + 3) = .deliverW 0 := by
    intro t
    have h0 : (4 * t) % 4 = 0 := by omega
    have h1 : (4 * t + 1) % 4 = 1 := by omega
    have h2 : (4 * t + 2) % 4 = 2 := by omega
    have h3 : (4 * t + 3) % 4 = 3 := by omega
    simp [lifeRobin, h0, h1, h2, h3]
  refine ⟨fun t => ?_, fun t => ⟨4 * t, by omega, (h t).1⟩, fun t i hi => ?_⟩
  · unfold lifeRobin; split <;> simp
  · obtain rfl : i = 0 := by omega
    exact ⟨⟨4 * t + 1, by omega, (h t).2.1⟩, ⟨4 * t + 2, by omega, (h t).2.2.1⟩, ⟨4 * t + 3, by omega, (h t).2.2.2⟩⟩

/-- Non-vacuity of `life_returns`: during the second `compute`, and of `life_close_ends_all`: after an interrupted `compute`. -/
example : ∃ t, (lifeAt demoLife (lifeRun demoLife (lifeStart demoLife [5]) (startOne ++ [.call .compute, .main])) lifeRobin t).phase = .free :=
  life_returns demoLife le_rfl [5] le_rfl _ (by intro a ha; simp [startOne] at ha; rcases ha with h | h | h | h | h | h <;> (rw [h]; simp)) _ lifeRobin_fair
    (fun _ p _ => by simp [demoLife])

example : ∃ t, ∀ u, t ≤ u →
    (lifeAt demoLife (lifeStep demoLife (lifeRun demoLife (lifeStart demoLife [5]) (startOne ++ interruptedCompute)) (.call .close)) lifeRobin u).pos 0 = .ended := by
  obtain ⟨t, ht⟩ := life_close_ends_all demoLife [5] (startOne ++ interruptedCompute) rfl rfl lifeRobin lifeRobin_fair
  exact ⟨t, fun u hu => (ht u hu).2 0 (by decide)⟩

/-- Non-vacuity of `life_never_returns` and of `life_interrupted_constructor_leaks`. -/
example : (lifeRun (⟨fun _ => none, 1, 0⟩ : LifeSetup Nat) (lifeStart ⟨fun _ => none, 1, 0⟩ [5]) (startOne ++ [.call .compute])).phase = .computing := rfl

example : (lifeRun demoLife (lifeStart demoLife [5]) [.main, .worker 0]).phase = .await 0 ∧ (lifeRun demoLife (lifeStart demoLife [5]) [.main, .worker 0]).pos 0 = .confirm := ⟨rfl, rfl⟩

end Verif.Props
