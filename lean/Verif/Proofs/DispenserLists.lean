import Verif.Model.DispenserLists
import Verif.Proofs.Dispenser

/-! The number of results that `compute` can collect, whatever the length of its list of results is. -/

namespace Verif.Proofs.Dispenser

open Verif.Model.Dispenser

variable {V : Type}

/-- The collected results, the open tasks and the parameters not yet handed out are together the parameters. -/
structure Counted (c : Setup V) (s : DState V) : Prop where
  count : s.computed + s.todo.length + ∑ i ∈ Finset.range c.W, (if s.assigned i then 1 else 0) = c.params.length
  start : ∀ i, s.pc = .initPut i → s.todo = List.range' i (c.params.length - i) ∧ ∀ j, i ≤ j → s.assigned j = false
  start' : ∀ i, s.pc = .initSet i → i < c.params.length ∧ s.todo = List.range' (i + 1) (c.params.length - (i + 1)) ∧ ∀ j, i + 1 ≤ j → s.assigned j = false
  get : ∀ i, s.pc = .get i → i < c.W ∧ s.assigned i = true
  fin : s.pc = .done → s.results.length ≤ s.computed

theorem counted_start (c : Setup V) (workers : Nat → WState V) (results : List (Option V)) : Counted c (startCompute c workers results) := by
  refine ⟨?_, ?_, ?_, ?_, ?_⟩
  · simp [startCompute]
  · intro i hi
    simp only [startCompute, MPc.initPut.injEq] at hi
    subst hi
    exact ⟨by simp [startCompute, List.range_eq_range'], fun j _ => rfl⟩
  all_goals (first | intro i hi | intro hi); simp [startCompute] at hi

/-- Steps that keep the variables of the manager. -/
theorem counted_of_eq {c : Setup V} {s s' : DState V} (h : Counted c s) (h1 : s'.pc = s.pc) (h2 : s'.todo = s.todo) (h3 : s'.assigned = s.assigned)
    (h4 : s'.computed = s.computed) (h5 : s'.results = s.results) : Counted c s' := by
  refine ⟨?_, ?_, ?_, ?_, ?_⟩
  · rw [h2, h3, h4]; exact h.count
  · rw [h1, h2, h3]; exact h.start
  · rw [h1, h2, h3]; exact h.start'
  · rw [h1, h3]; exact h.get
  · rw [h1, h4, h5]; exact h.fin

theorem counted_manager {c : Setup V} {s s' : DState V} (h : Counted c s) (hs : managerStep c s = some s') : Counted c s' := by
  obtain ⟨hc, h1, h2, h3, h4⟩ := h
  unfold managerStep at hs
  cases hpc : s.pc with
  | initPut i =>
    obtain ⟨ht, ha⟩ := h1 i hpc
    simp only [hpc] at hs
    by_cases hi : i < c.W
    · rw [if_pos hi] at hs
      cases hp : c.params[i]? with
      | none =>
        simp only [hp, Option.some.injEq] at hs
        subst hs
        exact ⟨hc, by simp, by simp, by simp, by simp⟩
      | some p =>
        simp only [hp, Option.some.injEq] at hs
        subst hs
        have hlt : i < c.params.length := by
          by_contra hcon
          rw [List.getElem?_eq_none (by omega)] at hp
          cases hp
        have htodo : s.todo.erase i = List.range' (i + 1) (c.params.length - (i + 1)) := by
          rw [ht]
          obtain ⟨m, hm⟩ : ∃ m, c.params.length - i = m + 1 := ⟨c.params.length - i - 1, by omega⟩
          rw [hm, List.range'_succ, List.erase_cons_head]
          congr 1
          omega
        have hsum := sum_change c.W i hi (fun j => if s.assigned j then 1 else 0) (fun j => if Function.update s.assigned i true j then 1 else 0)
          (fun j hj => by simp only [Function.update_of_ne hj])
        simp only [Function.update_self, ha i le_rfl, if_true, Bool.false_eq_true, if_false] at hsum
        refine ⟨?_, by simp, ?_, by simp, by simp⟩
        · show s.computed + (s.todo.erase i).length + ∑ j ∈ Finset.range c.W, (if Function.update s.assigned i true j then 1 else 0) = c.params.length
          rw [htodo, List.length_range']
          rw [ht, List.length_range'] at hc
          omega
        · intro j hj
          simp only [MPc.initSet.injEq] at hj
          subst hj
          refine ⟨hlt, htodo, fun j hj => ?_⟩
          show Function.update s.assigned i true j = false
          rw [Function.update_of_ne (by omega)]
          exact ha j (by omega)
    · rw [if_neg hi, Option.some.injEq] at hs
      subst hs
      exact ⟨hc, by simp, by simp, by simp, by simp⟩
  | initSet i =>
    obtain ⟨hl, ht, ha⟩ := h2 i hpc
    simp only [hpc, Option.some.injEq] at hs
    subst hs
    refine ⟨hc, ?_, by simp, by simp, by simp⟩
    intro j hj
    simp only [MPc.initPut.injEq] at hj
    subst hj
    exact ⟨ht, ha⟩
  | poll i =>
    simp only [hpc] at hs
    by_cases hi : i < c.W
    · rw [if_pos hi] at hs
      by_cases hb : (s.assigned i && !(s.workers i).trigger) = true
      · rw [if_pos hb, Option.some.injEq] at hs
        subst hs
        refine ⟨hc, by simp, by simp, ?_, by simp⟩
        intro j hj
        simp only [MPc.get.injEq] at hj
        subst hj
        rw [Bool.and_eq_true] at hb
        exact ⟨hi, hb.1⟩
      · rw [if_neg hb, Option.some.injEq] at hs
        subst hs
        exact ⟨hc, by simp, by simp, by simp, by simp⟩
    · rw [if_neg hi] at hs
      by_cases hb : s.computed < s.results.length
      · rw [if_pos hb, Option.some.injEq] at hs
        subst hs
        exact ⟨hc, by simp, by simp, by simp, by simp⟩
      · rw [if_neg hb, Option.some.injEq] at hs
        subst hs
        exact ⟨hc, by simp, by simp, by simp, fun _ => by simpa using hb⟩
  | get i =>
    obtain ⟨hi, ha⟩ := h3 i hpc
    simp only [hpc] at hs
    cases hp : (s.workers i).pipe with
    | nil => simp only [hp] at hs; cases hs
    | cons v rest =>
      simp only [hp] at hs
      cases ht : s.todo with
      | nil =>
        simp only [ht, Option.some.injEq] at hs
        subst hs
        have hsum := sum_change c.W i hi (fun j => if s.assigned j then 1 else 0) (fun j => if Function.update s.assigned i false j then 1 else 0)
          (fun j hj => by simp only [Function.update_of_ne hj])
        simp only [Function.update_self, ha, if_true, Bool.false_eq_true, if_false] at hsum
        refine ⟨?_, by simp, by simp, by simp, by simp⟩
        show s.computed + 1 + ([] : List Nat).length + ∑ j ∈ Finset.range c.W, (if Function.update s.assigned i false j then 1 else 0) = c.params.length
        rw [ht] at hc
        omega
      | cons k r =>
        simp only [ht, Option.some.injEq] at hs
        subst hs
        refine ⟨?_, by simp, by simp, by simp, by simp⟩
        show s.computed + 1 + r.length + ∑ j ∈ Finset.range c.W, (if s.assigned j then 1 else 0) = c.params.length
        rw [ht, List.length_cons] at hc
        omega
  | put i =>
    simp only [hpc] at hs
    cases hp : c.params[s.index i]? with
    | none =>
      simp only [hp, Option.some.injEq] at hs
      subst hs
      exact ⟨hc, by simp, by simp, by simp, by simp⟩
    | some p =>
      simp only [hp, Option.some.injEq] at hs
      subst hs
      exact ⟨hc, by simp, by simp, by simp, by simp⟩
  | set i =>
    simp only [hpc, Option.some.injEq] at hs
    subst hs
    exact ⟨hc, by simp, by simp, by simp, by simp⟩
  | done => simp only [hpc] at hs; cases hs
  | indexError => simp only [hpc] at hs; cases hs

theorem counted_step {c : Setup V} {s : DState V} (h : Counted c s) (a : Act) : Counted c (step c s a) := by
  unfold step
  cases hx : exec c s a with
  | none => exact h
  | some s' =>
    show Counted c s'
    cases a with
    | manager => exact counted_manager h hx
    | worker i =>
      simp only [exec] at hx
      split at hx
      · rw [Option.map_eq_some_iff] at hx
        obtain ⟨x, _, rfl⟩ := hx
        exact counted_of_eq h rfl rfl rfl rfl rfl
      · cases hx
    | deliverM i =>
      simp only [exec] at hx
      split at hx
      · split at hx
        · cases hx
        · rw [Option.some.injEq] at hx
          subst hx
          exact counted_of_eq h rfl rfl rfl rfl rfl
      · cases hx
    | deliverW i =>
      simp only [exec] at hx
      split at hx
      · split at hx
        · cases hx
        · rw [Option.some.injEq] at hx
          subst hx
          exact counted_of_eq h rfl rfl rfl rfl rfl
      · cases hx

theorem counted_run {c : Setup V} {s : DState V} (h : Counted c s) (acts : List Act) : Counted c (runSchedule c s acts) := by
  induction acts generalizing s with
  | nil => exact h
  | cons x xs ih => exact ih (counted_step h x)

/-- The length of the list of results never changes. -/
theorem results_length_step (c : Setup V) (s : DState V) (a : Act) : (step c s a).results.length = s.results.length := by
  unfold step
  cases hx : exec c s a with
  | none => rfl
  | some s' =>
    show s'.results.length = _
    cases a with
    | manager =>
      simp only [exec, managerStep] at hx
      repeat' split at hx
      all_goals first
        | (cases hx; done)
        | (rw [Option.some.injEq] at hx; subst hx; first | rfl | simp)
    | worker i =>
      simp only [exec] at hx
      split at hx
      · rw [Option.map_eq_some_iff] at hx
        obtain ⟨x, _, rfl⟩ := hx
        rfl
      · cases hx
    | deliverM i =>
      simp only [exec] at hx
      split at hx
      · split at hx
        · cases hx
        · rw [Option.some.injEq] at hx; subst hx; rfl
      · cases hx
    | deliverW i =>
      simp only [exec] at hx
      split at hx
      · split at hx
        · cases hx
        · rw [Option.some.injEq] at hx; subst hx; rfl
      · cases hx

theorem results_length_run (c : Setup V) (s : DState V) (acts : List Act) : (runSchedule c s acts).results.length = s.results.length := by
  induction acts generalizing s with
  | nil => rfl
  | cons x xs ih => exact (ih (step c s x)).trans (results_length_step c s x)

end Verif.Proofs.Dispenser
