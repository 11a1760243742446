import Verif.Proofs.DispenserLists
import Verif.Props.Dispenser

/-!
# C113: the lists that a `DispenserManager` shares with its caller

The caller may change its list of parameters, and the lists it got from `compute`, between the calls.
-/

namespace Verif.Props

open Verif.Model.Dispenser Verif.Proofs.Dispenser

variable {V : Type}

/-- Specification: the states of an open manager with `w` workers for the function `f`, used by a caller that changes the lists as it likes
between the calls. -/
inductive SharedReachable (f : V → Option V) (w : Nat) : Shared V → Prop
  | start (given : Nat → List V) (k : Nat) : 1 ≤ w → w ≤ (given k).length → SharedReachable f w (sharedStart given k)
  | step {s s' : Shared V} (op : SharedOp V) : SharedReachable f w s → s.step f w op = some s' → SharedReachable f w s'

/-- Operations one after the other. -/
def sharedSteps (f : V → Option V) (w : Nat) : Shared V → List (SharedOp V) → Option (Shared V)
  | s, [] => some s
  | s, op :: rest => (s.step f w op).bind fun s' => sharedSteps f w s' rest

/-- `compute` has returned: what is known about the lists and the steps. -/
theorem shared_compute {f : V → Option V} {w : Nat} {s s' : Shared V} {acts : List Act} (h : s.step f w (.compute acts) = some s') :
    (s.given s.param).length = (s.made s.result).length ∧ (s.computing f w acts).pc = .done ∧
    s' = { s with made := Function.update s.made s.result (s.computing f w acts).results, pool := (s.computing f w acts).workers
                  returned := s.returned ++ [s.result] } := by
  simp only [Shared.step] at h
  by_cases hl : (s.made s.result).length < (s.given s.param).length
  · rw [if_pos hl] at h; cases h
  · rw [if_neg hl] at h
    cases hpc : (s.computing f w acts).pc with
    | done =>
      simp only [hpc, Option.some.injEq] at h
      refine ⟨?_, rfl, h.symm⟩
      have hc := counted_run (counted_start (s.setup f w) s.pool (s.made s.result)) acts
      have hr := results_length_run (s.setup f w) (startCompute (s.setup f w) s.pool (s.made s.result)) acts
      have h1 := hc.fin hpc
      have h2 := hc.count
      rw [hr] at h1
      change (s.made s.result).length ≤ _ at h1
      change _ = (s.given s.param).length at h2
      omega
    | _ => simp only [hpc] at h; cases h

theorem shared_inv {f : V → Option V} {w : Nat} {s : Shared V} (h : SharedReachable f w s) :
    PoolState f w s.pool ∧ s.result < s.created ∧ (∀ k ∈ s.returned, k < s.created) ∧ 1 ≤ w := by
  induction h with
  | start given k hw hl => exact ⟨.started, Nat.one_pos, by simp [sharedStart], hw⟩
  | @step s s' op _ hs ih =>
    obtain ⟨h1, h2, h3, h4⟩ := ih
    cases op with
    | editGiven k l =>
      simp only [Shared.step, Option.some.injEq] at hs
      subst hs
      exact ⟨h1, h2, h3, h4⟩
    | editMade k l =>
      simp only [Shared.step, Option.some.injEq] at hs
      subst hs
      exact ⟨h1, h2, h3, h4⟩
    | update k =>
      simp only [Shared.step] at hs
      split at hs
      · rw [Option.some.injEq] at hs
        subst hs
        exact ⟨h1, h2, h3, h4⟩
      · rw [Option.some.injEq] at hs
        subst hs
        exact ⟨h1, Nat.lt_succ_self _, fun j hj => Nat.lt_succ_of_lt (h3 j hj), h4⟩
    | compute acts =>
      obtain ⟨hl, hd, rfl⟩ := shared_compute hs
      refine ⟨.computed s.pool (s.given s.param) (s.made s.result) acts h1 hl.symm hd, h2, ?_, h4⟩
      intro j hj
      rcases List.mem_append.1 hj with hj | hj
      · exact h3 j hj
      · rw [List.mem_singleton.1 hj]; exact h2

/-- C113: whenever `compute` returns, whatever the caller did with the lists before, the returned list holds the values of the function for the *present*
elements of the list that was accepted last, in order. No other list of results and no list of the caller is changed. -/
theorem shared_compute_values {f : V → Option V} {w : Nat} {s s' : Shared V} (h : SharedReachable f w s) {acts : List Act}
    (hs : s.step f w (.compute acts) = some s') :
    s'.returned = s.returned ++ [s.result] ∧ s'.made s.result = (s.given s.param).map f ∧ (∀ x ∈ s'.made s.result, x ≠ none) ∧
      (∀ k, k ≠ s.result → s'.made k = s.made k) ∧ s'.given = s.given := by
  obtain ⟨hl, hd, rfl⟩ := shared_compute hs
  have hw : w ≤ (s.given s.param).length := by
    obtain ⟨hw, _⟩ := good_done (good_run (good_start (s.setup f w) s.pool (s.made s.result) (poolState_quiet (shared_inv h).1).1 hl.symm) acts) hd
    exact hw
  obtain ⟨_, h2⟩ := compute_correct f w s.pool (shared_inv h).1 (s.given s.param) hw (s.made s.result) hl.symm acts
  obtain ⟨h3, h4, _⟩ := h2 hd
  refine ⟨rfl, ?_, ?_, fun k hk => Function.update_of_ne hk _ _, rfl⟩
  · show Function.update s.made s.result _ s.result = _
    rw [Function.update_self]; exact h3
  · intro x hx hn
    have hx' : x ∈ (computeAfter f w (s.given s.param) s.pool (s.made s.result) acts).results := by
      simp only [Function.update_self] at hx
      exact hx
    have := List.all_eq_true.1 h4 x hx'
    rw [hn] at this
    cases this

/-- C113: as long as both lists have the same length (at least the number of workers), `compute` does return under every fair schedule if the
function raises no exception. -/
theorem shared_compute_returns {f : V → Option V} {w : Nat} {s : Shared V} (h : SharedReachable f w s)
    (hl : (s.made s.result).length = (s.given s.param).length) (hw : w ≤ (s.given s.param).length) (hf : ∀ p ∈ s.given s.param, f p ≠ none)
    (sched : Nat → Act) (hfair : Fair w sched) :
    ∃ t, (s.step f w (.compute ((List.range t).map sched))).isSome := by
  obtain ⟨hp, _, _, h1⟩ := shared_inv h
  obtain ⟨t, ht⟩ := compute_terminates f w h1 s.pool hp (s.given s.param) hw (s.made s.result) hl hf sched hfair
  refine ⟨t, ?_⟩
  rw [computeAt, stateAt_run] at ht
  have hd : (s.computing f w ((List.range t).map sched)).pc = .done := ht
  simp only [Shared.step]
  rw [if_neg (by omega)]
  simp only [hd]
  rfl

/-- C113 (negation of "a returned list is not changed any more"): if `compute` is called again without `update_params`, it returns the same list
object; the list that was returned first now holds the values for the parameters as they are now. -/
theorem shared_second_compute_overwrites {f : V → Option V} {w : Nat} {s s₁ s₂ s₃ : Shared V} (h : SharedReachable f w s) {acts acts' : List Act}
    (h1 : s.step f w (.compute acts) = some s₁) (k : Nat) (l : List V) (h2 : s₁.step f w (.editGiven k l) = some s₂)
    (h3 : s₂.step f w (.compute acts') = some s₃) :
    s₃.returned = s.returned ++ [s.result, s.result] ∧ s₁.made s.result = (s.given s.param).map f ∧
      s₃.made s.result = (if k = s.param then l else s.given s.param).map f := by
  have hr1 : SharedReachable f w s₁ := .step _ h h1
  have hr2 : SharedReachable f w s₂ := .step _ hr1 h2
  obtain ⟨a1, a2, _, _, a5⟩ := shared_compute_values h h1
  obtain ⟨b1, b2, _⟩ := shared_compute_values hr2 h3
  obtain ⟨_, _, e1⟩ := shared_compute h1
  simp only [Shared.step, Option.some.injEq] at h2
  have hres : s₂.result = s.result := by rw [← h2, e1]
  have hpar : s₂.param = s.param := by rw [← h2, e1]
  have hret : s₂.returned = s₁.returned := by rw [← h2]
  have hgiv : s₂.given s.param = if k = s.param then l else s.given s.param := by
    rw [← h2]
    show Function.update s₁.given k l s.param = _
    by_cases hk : k = s.param
    · rw [if_pos hk, ← hk, Function.update_self]
    · rw [if_neg hk, Function.update_of_ne (Ne.symm hk), a5]
  refine ⟨?_, a2, ?_⟩
  · rw [b1, hret, a1, hres, List.append_assoc]; rfl
  · rw [← hres, b2, hpar, hgiv]

/-- Specification: the caller does not change the list of results `k` itself. -/
def NoEdit (k : Nat) : SharedOp V → Prop
  | .editMade j _ => j ≠ k
  | _ => True

theorem shared_old_kept {f : V → Option V} {w : Nat} (ops : List (SharedOp V)) :
    ∀ {s s' : Shared V}, SharedReachable f w s → ∀ k, k < s.created → k ≠ s.result → (∀ op ∈ ops, NoEdit k op) → sharedSteps f w s ops = some s' →
      s'.made k = s.made k := by
  induction ops with
  | nil =>
    intro s s' _ k _ _ _ h
    simp only [sharedSteps, Option.some.injEq] at h
    rw [h]
  | cons op rest ih =>
    intro s s' hr k hk hne hops h
    simp only [sharedSteps, Option.bind_eq_some_iff] at h
    obtain ⟨s₁, h1, h2⟩ := h
    have hop := hops op (List.mem_cons_self ..)
    have hrest : ∀ op ∈ rest, NoEdit k op := fun op h => hops op (List.mem_cons_of_mem _ h)
    have hr1 : SharedReachable f w s₁ := .step _ hr h1
    have key : s₁.made k = s.made k ∧ k < s₁.created ∧ k ≠ s₁.result := by
      cases op with
      | editGiven j l =>
        simp only [Shared.step, Option.some.injEq] at h1
        subst h1
        exact ⟨rfl, hk, hne⟩
      | editMade j l =>
        simp only [Shared.step, Option.some.injEq] at h1
        subst h1
        exact ⟨Function.update_of_ne (Ne.symm hop) _ _, hk, hne⟩
      | update j =>
        simp only [Shared.step] at h1
        split at h1
        · rw [Option.some.injEq] at h1
          subst h1
          exact ⟨rfl, hk, hne⟩
        · rw [Option.some.injEq] at h1
          subst h1
          exact ⟨Function.update_of_ne (by omega) _ _, Nat.lt_succ_of_lt hk, by show k ≠ s.created; omega⟩
      | compute acts =>
        obtain ⟨_, _, rfl⟩ := shared_compute h1
        exact ⟨Function.update_of_ne hne _ _, hk, hne⟩
    rw [ih hr1 k key.2.1 key.2.2 hrest h2, key.1]

/-- C113: a list returned before an accepted `update_params` is never changed by the manager after it: the caller keeps its results. -/
theorem shared_results_kept_after_update {f : V → Option V} {w : Nat} {s s₁ s₂ : Shared V} (h : SharedReachable f w s) (j : Nat)
    (hj : w ≤ (s.given j).length) (h1 : s.step f w (.update j) = some s₁) (k : Nat) (hk : k ∈ s.returned) (ops : List (SharedOp V)) (hops : ∀ op ∈ ops, NoEdit k op)
    (h2 : sharedSteps f w s₁ ops = some s₂) : s₂.made k = s.made k := by
  have hr1 : SharedReachable f w s₁ := .step _ h h1
  have hlt := (shared_inv h).2.2.1 k hk
  have hw := (shared_inv h).2.2.2
  simp only [Shared.step] at h1
  split at h1
  · rename_i hr
    unfold updateParams at hr
    rw [if_neg (by omega), if_neg (by omega)] at hr
    cases hr
  · rw [Option.some.injEq] at h1
    subst h1
    rw [shared_old_kept ops hr1 k (Nat.lt_succ_of_lt hlt) (by show k ≠ s.created; omega) hops h2]
    exact Function.update_of_ne (by omega) _ _

/-- C113 (negation of "compute returns"): if the list of results is longer than the list of parameters - because the caller removed elements from its list, or
appended something to the list that `compute` had returned -, `compute` never returns, for every interleaving. -/
theorem shared_compute_never_returns (f : V → Option V) (w : Nat) (s : Shared V) (hl : (s.given s.param).length < (s.made s.result).length)
    (acts : List Act) : (s.computing f w acts).pc ≠ .done := by
  intro hd
  have hc := counted_run (counted_start (s.setup f w) s.pool (s.made s.result)) acts
  have hr := results_length_run (s.setup f w) (startCompute (s.setup f w) s.pool (s.made s.result)) acts
  have h1 := hc.fin hd
  have h2 := hc.count
  rw [hr] at h1
  change (s.made s.result).length ≤ _ at h1
  change _ = (s.given s.param).length at h2
  omega

/-- C113 (the same, in terms of the calls): after `compute` has returned a list, appending an element to that list makes every later `compute` hang, until
`update_params` is called. -/
theorem shared_append_hangs {f : V → Option V} {w : Nat} {s s₁ s₂ : Shared V} {acts : List Act} (h1 : s.step f w (.compute acts) = some s₁) (x : Option V)
    (h2 : s₁.step f w (.editMade s.result (s₁.made s.result ++ [x])) = some s₂) (acts' : List Act) : (s₂.computing f w acts').pc ≠ .done := by
  apply shared_compute_never_returns
  obtain ⟨hl, _, rfl⟩ := shared_compute h1
  simp only [Shared.step, Option.some.injEq] at h2
  subst h2
  have hr := results_length_run (s.setup f w) (startCompute (s.setup f w) s.pool (s.made s.result)) acts
  change (s.computing f w acts).results.length = (s.made s.result).length at hr
  simp only [Function.update_self, List.length_append, List.length_singleton]
  omega

/-! ### In terms of the calls only -/

/-- Specification: the list of the caller accepted last. `update_params` accepts a list that has, at this time, at least as many elements as there are workers. -/
def acceptedLast (w : Nat) (given : Nat → List V) (k : Nat) : List (SharedOp V) → Nat
  | [] => k
  | .update j :: rest => acceptedLast w given (if w ≤ (given j).length then j else k) rest
  | .editGiven i l :: rest => acceptedLast w (fun a => if a = i then l else given a) k rest
  | _ :: rest => acceptedLast w given k rest

/-- Specification: the contents of the list `j` of the caller after its changes. -/
def contentsNow (given : Nat → List V) (j : Nat) : List (SharedOp V) → List V
  | [] => given j
  | .editGiven i l :: rest => contentsNow (fun a => if a = i then l else given a) j rest
  | _ :: rest => contentsNow given j rest

theorem shared_history {f : V → Option V} {w : Nat} (hw : 1 ≤ w) (ops : List (SharedOp V)) : ∀ {s s' : Shared V}, sharedSteps f w s ops = some s' →
    s'.param = acceptedLast w s.given s.param ops ∧ ∀ j, s'.given j = contentsNow s.given j ops := by
  induction ops with
  | nil =>
    intro s s' h
    simp only [sharedSteps, Option.some.injEq] at h
    subst h
    exact ⟨rfl, fun _ => rfl⟩
  | cons op rest ih =>
    intro s s' h
    simp only [sharedSteps, Option.bind_eq_some_iff] at h
    obtain ⟨s₁, h1, h2⟩ := h
    obtain ⟨i1, i2⟩ := ih h2
    cases op with
    | editGiven i l =>
      simp only [Shared.step, Option.some.injEq] at h1
      subst h1
      have e : Function.update s.given i l = fun a => if a = i then l else s.given a := by
        funext a
        by_cases h : a = i
        · subst h; simp
        · simp [h]
      refine ⟨?_, fun j => ?_⟩
      · rw [i1]
        show acceptedLast w (Function.update s.given i l) s.param rest = acceptedLast w _ s.param rest
        rw [e]
      · rw [i2 j]
        show contentsNow (Function.update s.given i l) j rest = contentsNow _ j rest
        rw [e]
    | editMade i l =>
      simp only [Shared.step, Option.some.injEq] at h1
      subst h1
      exact ⟨i1, i2⟩
    | update i =>
      simp only [Shared.step] at h1
      split at h1
      · rename_i hr
        rw [Option.some.injEq] at h1
        subst h1
        refine ⟨?_, i2⟩
        rw [i1]
        show _ = acceptedLast w s.given (if w ≤ (s.given i).length then i else s.param) rest
        rw [if_neg ?_]
        intro hle
        unfold updateParams at hr
        rw [if_neg (by omega), if_neg (by omega)] at hr
        cases hr
      · rename_i r hr
        rw [Option.some.injEq] at h1
        subst h1
        refine ⟨?_, i2⟩
        rw [i1]
        show acceptedLast w s.given i rest = acceptedLast w s.given (if w ≤ (s.given i).length then i else s.param) rest
        rw [if_pos ?_]
        unfold updateParams at hr
        split_ifs at hr
        omega
    | compute acts =>
      obtain ⟨_, _, rfl⟩ := shared_compute h1
      exact ⟨i1, i2⟩

theorem shared_reachable_steps {f : V → Option V} {w : Nat} (ops : List (SharedOp V)) : ∀ {s s' : Shared V}, SharedReachable f w s →
    sharedSteps f w s ops = some s' → SharedReachable f w s' := by
  induction ops with
  | nil =>
    intro s s' hr h
    simp only [sharedSteps, Option.some.injEq] at h
    subst h
    exact hr
  | cons op rest ih =>
    intro s s' hr h
    simp only [sharedSteps, Option.bind_eq_some_iff] at h
    obtain ⟨s₁, h1, h2⟩ := h
    exact ih (.step _ hr h1) h2

/-- C113, in terms of the calls: a manager is created for the list `k`, then come any calls and changes `ops`, then `compute`. When it returns, the list it
returns (the last one returned) holds the values for the list accepted last, with the contents that the caller gave it last. -/
theorem shared_history_values {f : V → Option V} {w : Nat} (given : Nat → List V) (k : Nat) (hw : 1 ≤ w) (hk : w ≤ (given k).length)
    (ops : List (SharedOp V)) (s s' : Shared V) (h : sharedSteps f w (sharedStart given k) ops = some s) (acts : List Act)
    (hs : s.step f w (.compute acts) = some s') :
    ∃ R, s'.returned = s.returned ++ [R] ∧ s'.made R = (contentsNow given (acceptedLast w given k ops) ops).map f := by
  have hr := shared_reachable_steps ops (SharedReachable.start given k hw hk) h
  obtain ⟨a1, a2, _⟩ := shared_compute_values hr hs
  obtain ⟨e1, e2⟩ := shared_history hw ops h
  refine ⟨s.result, a1, ?_⟩
  rw [a2, e2, e1]
  rfl

/-- Specification: the caller changes no returned list, and keeps the lengths of its own lists. -/
def KeepsLengths (given : Nat → List V) : SharedOp V → Prop
  | .editGiven i l => l.length = (given i).length
  | .editMade _ _ => False
  | _ => True

theorem shared_lengths {f : V → Option V} {w : Nat} (ops : List (SharedOp V)) (given : Nat → List V) (hops : ∀ op ∈ ops, KeepsLengths given op) :
    ∀ {s s' : Shared V}, sharedSteps f w s ops = some s' → (∀ j, (s.given j).length = (given j).length) →
      (s.made s.result).length = (s.given s.param).length → w ≤ (s.given s.param).length →
      (s'.made s'.result).length = (s'.given s'.param).length ∧ w ≤ (s'.given s'.param).length := by
  induction ops with
  | nil =>
    intro s s' h _ h1 h2
    simp only [sharedSteps, Option.some.injEq] at h
    subst h
    exact ⟨h1, h2⟩
  | cons op rest ih =>
    intro s s' h hg h1 h2
    simp only [sharedSteps, Option.bind_eq_some_iff] at h
    obtain ⟨s₁, hs, h3⟩ := h
    have hop := hops op (List.mem_cons_self ..)
    refine ih (fun op h => hops op (List.mem_cons_of_mem _ h)) h3 ?_ ?_ ?_
    all_goals
      cases op with
      | editGiven i l =>
        simp only [Shared.step, Option.some.injEq] at hs
        subst hs
        have hl : ∀ j, (Function.update s.given i l j).length = (given j).length := by
          intro j
          by_cases hj : j = i
          · subst hj; rw [Function.update_self]; exact hop
          · rw [Function.update_of_ne hj]; exact hg j
        first
          | exact hl
          | (show (s.made s.result).length = (Function.update s.given i l s.param).length; rw [hl, h1, hg])
          | (show w ≤ (Function.update s.given i l s.param).length; rw [hl, ← hg]; exact h2)
      | editMade i l => exact hop.elim
      | update i =>
        simp only [Shared.step] at hs
        split at hs
        · rw [Option.some.injEq] at hs
          subst hs
          first | exact hg | exact h1 | exact h2
        · rename_i r hr
          rw [Option.some.injEq] at hs
          subst hs
          unfold updateParams at hr
          split_ifs at hr with hc
          have hr' := Except.ok.inj hr
          subst hr'
          first
            | exact hg
            | (show (Function.update s.made s.created _ s.created).length = (s.given i).length
               rw [Function.update_self, List.length_replicate])
            | (show w ≤ (s.given i).length; omega)
      | compute acts =>
        obtain ⟨hl, _, rfl⟩ := shared_compute hs
        have hr := results_length_run (s.setup f w) (startCompute (s.setup f w) s.pool (s.made s.result)) acts
        change (s.computing f w acts).results.length = (s.made s.result).length at hr
        first
          | exact hg
          | (show (Function.update s.made s.result _ s.result).length = _; rw [Function.update_self, hr]; exact h1)
          | exact h2

/-- C113, in terms of the calls: if the caller changes no returned list and keeps the lengths of its own lists, `compute` returns under every fair schedule,
whatever the calls and changes before. -/
theorem shared_history_returns {f : V → Option V} {w : Nat} (given : Nat → List V) (k : Nat) (hw : 1 ≤ w) (hk : w ≤ (given k).length)
    (ops : List (SharedOp V)) (hops : ∀ op ∈ ops, KeepsLengths given op) (s : Shared V) (h : sharedSteps f w (sharedStart given k) ops = some s)
    (hf : ∀ p ∈ contentsNow given (acceptedLast w given k ops) ops, f p ≠ none) (sched : Nat → Act) (hfair : Fair w sched) :
    ∃ t, (s.step f w (.compute ((List.range t).map sched))).isSome := by
  have hr := shared_reachable_steps ops (SharedReachable.start given k hw hk) h
  obtain ⟨l1, l2⟩ := shared_lengths ops given hops h (fun _ => rfl) (by simp [sharedStart]) hk
  obtain ⟨e1, e2⟩ := shared_history hw ops h
  refine shared_compute_returns hr l1 l2 (fun p hp => hf p ?_) sched hfair
  rw [e2, e1] at hp
  exact hp

/-! ### The hypotheses can be met -/

/-- A schedule for one worker and one parameter. -/
def oneTask : List Act :=
  [.manager, .manager, .manager, .deliverM 0, .worker 0, .worker 0, .worker 0, .worker 0, .worker 0, .deliverW 0, .manager, .manager, .manager]

/-- A manager with one worker for `x ↦ x + 1` and the list `[5]` of the caller: `compute` returns `[6]`; the caller writes 7 into its list, `compute`
returns the same object, now `[8]`; the list first returned does not hold 6 any more. After `update_params` the next result is in another list. -/
example : ∃ s₁ s₂ s₃ s₄ s₅ : Shared Nat,
    SharedReachable (fun x => some (x + 1)) 1 (sharedStart (fun _ => [5]) 0) ∧
    (sharedStart (fun _ => [5]) 0).step (fun x => some (x + 1)) 1 (.compute oneTask) = some s₁ ∧ s₁.made 0 = [some 6] ∧ s₁.returned = [0] ∧
    s₁.step (fun x => some (x + 1)) 1 (.editGiven 0 [7]) = some s₂ ∧
    s₂.step (fun x => some (x + 1)) 1 (.compute oneTask) = some s₃ ∧ s₃.made 0 = [some 8] ∧ s₃.returned = [0, 0] ∧
    s₃.step (fun x => some (x + 1)) 1 (.update 3) = some s₄ ∧
    s₄.step (fun x => some (x + 1)) 1 (.compute oneTask) = some s₅ ∧ s₅.made 0 = [some 8] ∧ s₅.made 1 = [some 6] ∧ s₅.returned = [0, 0, 1] :=
  ⟨_, _, _, _, _, .start _ _ le_rfl le_rfl, rfl, rfl, rfl, rfl, rfl, rfl, rfl, rfl, rfl, rfl, rfl, rfl⟩

/-- The same manager, in terms of the calls: after a change of list 0 and `update_params` with list 3 the accepted list is 3. -/
example : (sharedSteps (fun x : Nat => some (x + 1)) 1 (sharedStart (fun _ => [5]) 0) [.compute oneTask, .editGiven 0 [7], .update 3]).isSome ∧
    acceptedLast 1 (fun _ => [5]) 0 ([.compute oneTask, .editGiven 0 [7], .update 3] : List (SharedOp Nat)) = 3 ∧
    contentsNow (fun _ => [5]) 3 ([.compute oneTask, .editGiven 0 [7], .update 3] : List (SharedOp Nat)) = [5] ∧
    ∀ op ∈ ([.compute oneTask, .editGiven 0 [7], .update 3] : List (SharedOp Nat)), KeepsLengths (fun _ => [5]) op :=
  ⟨rfl, rfl, rfl, by intro op h; simp only [List.mem_cons, List.not_mem_nil, or_false] at h; rcases h with rfl | rfl | rfl <;> simp [KeepsLengths]⟩

/-- A fair schedule exists for it (`shared_compute_returns`). -/
example : ∃ sched : Nat → Act, Fair 1 sched :=
  ⟨fun t => if t % 4 = 0 then .manager else if t % 4 = 1 then .worker 0 else if t % 4 = 2 then .deliverM 0 else .deliverW 0, fun t => by
    refine ⟨⟨4 * t, by omega, by simp⟩, fun i hi => ?_⟩
    obtain rfl : i = 0 := by omega
    exact ⟨⟨4 * t + 1, by omega, by simp [Nat.add_mod]⟩, ⟨4 * t + 2, by omega, by simp [Nat.add_mod]⟩, ⟨4 * t + 3, by omega, by simp [Nat.add_mod]⟩⟩⟩

/-- The caller removes an element from its list of two parameters: `compute` hangs. -/
example (acts : List Act) :
    ((⟨fun _ => [5], fun _ => [none, none], 0, 0, 1, fun _ => freshWorker, []⟩ : Shared Nat).computing (fun x => some (x + 1)) 1 acts).pc ≠ .done ∧
    (sharedStart (fun _ => [5, 6]) 0).step (fun x : Nat => some (x + 1)) 1 (.editGiven 0 [5]) =
      some ⟨Function.update (fun _ => [5, 6]) 0 [5], fun _ => [none, none], 0, 0, 1, fun _ => freshWorker, []⟩ :=
  ⟨shared_compute_never_returns _ _ _ (by decide) acts, rfl⟩

end Verif.Props
