import Verif.Proofs.Lifecycle

/-!
# After `close`: every worker ends
-/

namespace Verif.Proofs.Lifecycle

open Verif.Model.Dispenser

variable {V : Type}

theorem closed_phase {c : LifeSetup V} {s : Life V} (h : LInv c s) (hc : Closed s) : s.phase = .free := by
  obtain ⟨h1, h2⟩ := hc
  cases hp : s.phase with
  | free => rfl
  | spawn i => have := (h.building ⟨i, .inl hp⟩).1; rw [h1] at this; cases this
  | await i => have := (h.building ⟨i, .inr hp⟩).1; rw [h1] at this; cases this
  | computing => have := h.compPhase hp; rw [h2] at this; cases this
  | closeSet i => have := (h.closePhase ⟨i, .inl hp⟩).2; rw [h2] at this; cases this
  | closeJoin i => have := (h.closePhase ⟨i, .inr hp⟩).2; rw [h2] at this; cases this

/-- What a step can change after `close`: worker `i` makes a step, a message is transported, or nothing changes in the workers. -/
theorem closed_exec {c : LifeSetup V} {s s' : Life V} (h : LInv c s) (hc : Closed s) {a : LAct V} (he : lifeExec c s a = some s') :
    Closed s' ∧ ((s'.pos = s.pos ∧ s'.d.workers = s.d.workers ∧ s'.d.calls = s.d.calls) ∨
      (∃ i p w l, a = .worker i ∧ i < c.W ∧ lifeWorker c false (s.pos i) (s.d.workers i) = some (p, w, l) ∧ s'.pos = Function.update s.pos i p ∧
        s'.d.workers = Function.update s.d.workers i w ∧ s'.d.calls = s.d.calls ++ l) ∨
      (∃ i w, (a = .deliverM i ∨ a = .deliverW i) ∧ i < c.W ∧ s'.pos = s.pos ∧ s'.d.workers = Function.update s.d.workers i w ∧ s'.d.calls = s.d.calls ∧
        w.pc = (s.d.workers i).pc ∧ w.sentM.length + w.sentW.length + 1 = (s.d.workers i).sentM.length + (s.d.workers i).sentW.length ∧ w.pipe ≠ [])) := by
  have hph := closed_phase h hc
  cases a with
  | main => simp [lifeExec, lifeMain, hph] at he
  | worker i =>
    simp only [lifeExec] at he
    split at he
    · rename_i hi
      simp only [Option.map_eq_some_iff] at he
      obtain ⟨⟨p, w, l⟩, hx, rfl⟩ := he
      rw [hc.1] at hx
      exact ⟨hc, .inr (.inl ⟨i, p, w, l, rfl, hi, hx, rfl, rfl, rfl⟩)⟩
    · cases he
  | deliverM i =>
    simp only [lifeExec, Option.map_eq_some_iff, Verif.Model.Dispenser.exec] at he
    obtain ⟨d, hd, rfl⟩ := he
    split at hd
    · rename_i hi
      split at hd
      · cases hd
      · rename_i v rest hs
        cases hd
        refine ⟨hc, .inr (.inr ⟨i, _, .inl rfl, hi, rfl, rfl, rfl, rfl, ?_, by simp⟩)⟩
        simp only [hs, List.length_cons]; omega
    · cases hd
  | deliverW i =>
    simp only [lifeExec, Option.map_eq_some_iff, Verif.Model.Dispenser.exec] at he
    obtain ⟨d, hd, rfl⟩ := he
    split at hd
    · rename_i hi
      split at hd
      · cases hd
      · rename_i v rest hs
        cases hd
        refine ⟨hc, .inr (.inr ⟨i, _, .inr rfl, hi, rfl, rfl, rfl, rfl, ?_, by simp⟩)⟩
        simp only [hs, List.length_cons]; omega
    · cases hd
  | call a =>
    cases a with
    | compute =>
      simp only [lifeExec, lifeCall, hph, if_true, hc.2, Bool.false_eq_true, if_false, Option.some.injEq] at he
      subst he
      exact ⟨⟨hc.1, rfl⟩, .inl ⟨rfl, rfl, rfl⟩⟩
    | update ps =>
      simp only [lifeExec, lifeCall, hph, if_true, hc.2, Bool.false_eq_true, if_false, Option.some.injEq] at he
      subst he
      exact ⟨hc, .inl ⟨rfl, rfl, rfl⟩⟩
    | close =>
      simp only [lifeExec, lifeCall, hph, if_true, hc.2, Bool.false_eq_true, if_false, Option.some.injEq] at he
      subst he
      exact ⟨⟨hc.1, rfl⟩, .inl ⟨rfl, rfl, rfl⟩⟩
  | interrupt => simp [lifeExec, hph] at he

theorem closed_step {c : LifeSetup V} {s : Life V} (h : LInv c s) (hc : Closed s) (a : LAct V) : Closed (lifeStep c s a) := by
  unfold lifeStep
  cases he : lifeExec c s a with
  | none => exact hc
  | some s' => exact (closed_exec h hc he).1

/-- Steps to the end. -/
def pcRank : WPc V → Nat
  | .reading => 5
  | .computing _ => 4
  | .storing _ => 3
  | .clearing => 2
  | _ => 0

def rank (p : Pos) (pc : WPc V) : Nat :=
  match p with
  | .unborn => 0
  | .begin => 3
  | .confirm => 2
  | .head => 1
  | .wait => 5
  | .checkTrigger => 4
  | .checkKeep => 3
  | .task => pcRank pc
  | .recheck => 2
  | .leave => 1
  | .ended => 0

/-- Decreases with each step of the worker and each transport. -/
def endM (p : Pos) (w : WState V) : Nat := 10 * rank p w.pc + 2 * (w.sentM.length + w.sentW.length)

theorem endM_worker {c : LifeSetup V} {p p' : Pos} {w w' : WState V} {l : List V} (h : WI false p w) (he : lifeWorker c false p w = some (p', w', l)) :
    endM p' w' < endM p w := by
  cases p with
  | unborn => cases he
  | ended => cases he
  | task =>
    obtain ⟨htask, hload⟩ := h.task rfl
    simp only [lifeWorker, Option.map_eq_some_iff, Prod.mk.injEq] at he
    obtain ⟨⟨x, y⟩, hx, rfl, rfl, rfl⟩ := he
    unfold workerStep at hx
    split at hx
    · rename_i hpc; rw [hpc] at htask; exact htask.elim
    · rename_i hpc
      split at hx
      · cases hx
      · cases hx; simp [endM, rank, afterTask, pcRank, hpc]
    · rename_i v hpc
      split at hx
      · cases hx; simp [endM, rank, afterTask, pcRank, hpc]
      · cases hx; simp [endM, rank, afterTask, pcRank, hpc]
    · rename_i r hpc
      cases hx; simp [endM, rank, afterTask, pcRank, hpc]; omega
    · rename_i hpc
      cases hx; simp [endM, rank, afterTask, pcRank, hpc]
    · cases hx
  | wait =>
    simp only [lifeWorker] at he
    split at he
    · cases he; simp [endM, rank]
    · cases he
  | checkTrigger =>
    simp only [lifeWorker, Option.some.injEq, Prod.mk.injEq] at he
    obtain ⟨rfl, rfl, rfl⟩ := he
    rw [if_pos (h.trig rfl)]
    simp [endM, rank]
  | checkKeep =>
    simp only [lifeWorker, Bool.false_eq_true, if_false, Option.some.injEq, Prod.mk.injEq] at he
    obtain ⟨rfl, rfl, rfl⟩ := he
    simp [endM, rank]
  | begin =>
    simp only [lifeWorker, Bool.false_eq_true, if_false, Option.some.injEq, Prod.mk.injEq] at he
    obtain ⟨rfl, rfl, rfl⟩ := he
    simp [endM, rank]
  | confirm =>
    simp only [lifeWorker, Option.some.injEq, Prod.mk.injEq] at he
    obtain ⟨rfl, rfl, rfl⟩ := he
    simp [endM, rank]; omega
  | head =>
    simp only [lifeWorker, Bool.false_eq_true, if_false, Option.some.injEq, Prod.mk.injEq] at he
    obtain ⟨rfl, rfl, rfl⟩ := he
    simp [endM, rank]
  | recheck =>
    simp only [lifeWorker, Bool.false_eq_true, if_false, Option.some.injEq, Prod.mk.injEq] at he
    obtain ⟨rfl, rfl, rfl⟩ := he
    simp [endM, rank]
  | leave =>
    simp only [lifeWorker, Option.some.injEq, Prod.mk.injEq] at he
    obtain ⟨rfl, rfl, rfl⟩ := he
    simp [endM, rank]

/-- A step does not increase the measure of a worker. -/
theorem endM_step {c : LifeSetup V} {s : Life V} (h : LInv c s) (hc : Closed s) (a : LAct V) (i : Nat) :
    endM ((lifeStep c s a).pos i) ((lifeStep c s a).d.workers i) ≤ endM (s.pos i) (s.d.workers i) := by
  unfold lifeStep
  cases he : lifeExec c s a with
  | none => exact le_rfl
  | some s' =>
    rcases (closed_exec h hc he).2 with ⟨h1, h2, _⟩ | ⟨j, p, w, l, -, hj, hx, h1, h2, _⟩ | ⟨j, w, _, hj, h1, h2, _, h3, h4, _⟩
    · simp [h1, h2]
    · simp only [Option.getD_some, h1, h2]
      by_cases hij : i = j
      · subst hij
        simp only [Function.update_self]
        have hw := h.ws i
        rw [hc.1] at hw
        exact (endM_worker hw hx).le
      · simp [Function.update_of_ne hij]
    · simp only [Option.getD_some, h1, h2]
      by_cases hij : i = j
      · subst hij
        simp only [Function.update_self, endM, h3]
        omega
      · simp [Function.update_of_ne hij]

/-- Worker `i` can make a step, or a message for it can be transported. -/
def Enabled (c : LifeSetup V) (s : Life V) (i : Nat) (a : LAct V) : Prop :=
  (a = .worker i ∧ ∃ x, lifeWorker c false (s.pos i) (s.d.workers i) = some x) ∨ (a = .deliverM i ∧ (s.d.workers i).sentM ≠ []) ∨
    (a = .deliverW i ∧ (s.d.workers i).sentW ≠ [])

theorem enabled_exists {c : LifeSetup V} {s : Life V} (h : LInv c s) (hc : Closed s) {i : Nat} (hi : i < c.W) (hn : s.pos i ≠ .ended) :
    ∃ a, Enabled c s i a := by
  by_cases hM : (s.d.workers i).sentM = []
  · by_cases hW : (s.d.workers i).sentW = []
    · refine ⟨.worker i, .inl ⟨rfl, ?_⟩⟩
      have hw := h.ws i
      cases hp : s.pos i with
      | unborn => exact absurd hp (h.born i hi (.inr (.inr (.inr hc.1))))
      | ended => exact absurd hp hn
      | wait => simp [lifeWorker, h.closing i hi (.inr (.inr hc)) hp]
      | task =>
        obtain ⟨htask, hload⟩ := hw.task hp
        simp only [lifeWorker, workerStep]
        cases hpc : (s.d.workers i).pc with
        | idle => rw [hpc] at htask; exact htask.elim
        | dead => rw [hpc] at htask; exact htask.elim
        | reading =>
          simp only
          cases hpipe : (s.d.workers i).pipe with
          | nil => simp [load, hM, hW, hpipe, hpc, held] at hload
          | cons v r => simp
        | computing v =>
          simp only
          cases c.f v <;> simp
        | storing r => simp
        | clearing => simp
      | checkKeep => simp [lifeWorker]
      | begin => simp [lifeWorker]
      | confirm => simp [lifeWorker]
      | head => simp [lifeWorker]
      | checkTrigger => simp [lifeWorker]
      | recheck => simp [lifeWorker]
      | leave => simp [lifeWorker]
    · exact ⟨.deliverW i, .inr (.inr ⟨rfl, hW⟩)⟩
  · exact ⟨.deliverM i, .inr (.inl ⟨rfl, hM⟩)⟩

theorem enabled_decreases {c : LifeSetup V} {s : Life V} (h : LInv c s) (hc : Closed s) {i : Nat} (hi : i < c.W) {a : LAct V} (ha : Enabled c s i a) :
    endM ((lifeStep c s a).pos i) ((lifeStep c s a).d.workers i) < endM (s.pos i) (s.d.workers i) := by
  rcases ha with ⟨rfl, ⟨p, w, l⟩, hx⟩ | ⟨rfl, hM⟩ | ⟨rfl, hM⟩
  · have hw := h.ws i
    rw [hc.1] at hw
    simp only [lifeStep, lifeExec, if_pos hi, hc.1, hx, Option.map_some, Option.getD_some, Function.update_self]
    exact endM_worker hw hx
  · cases hs : (s.d.workers i).sentM with
    | nil => exact absurd hs hM
    | cons v r =>
      have hiS : i < (c.setup s.params).W := hi
      simp only [lifeStep, lifeExec, Verif.Model.Dispenser.exec, if_pos hiS, hs, Option.map_some, Option.getD_some, DState.setWorker, Function.update_self, endM, List.length_cons]
      omega
  · cases hs : (s.d.workers i).sentW with
    | nil => exact absurd hs hM
    | cons v r =>
      have hiS : i < (c.setup s.params).W := hi
      simp only [lifeStep, lifeExec, Verif.Model.Dispenser.exec, if_pos hiS, hs, Option.map_some, Option.getD_some, DState.setWorker, Function.update_self, endM, List.length_cons]
      omega

/-- If the measure did not change, the same steps are possible. -/
theorem enabled_stays {c : LifeSetup V} {s : Life V} (h : LInv c s) (hc : Closed s) {i : Nat} (a b : LAct V) (hb : Enabled c s i b)
    (hm : ¬ endM ((lifeStep c s a).pos i) ((lifeStep c s a).d.workers i) < endM (s.pos i) (s.d.workers i)) : Enabled c (lifeStep c s a) i b := by
  have key : (lifeStep c s a).pos i = s.pos i ∧ (lifeStep c s a).d.workers i = s.d.workers i := by
    unfold lifeStep at hm ⊢
    cases he : lifeExec c s a with
    | none => exact ⟨rfl, rfl⟩
    | some s' =>
      rw [he] at hm
      simp only [Option.getD_some] at hm ⊢
      rcases (closed_exec h hc he).2 with ⟨h1, h2, _⟩ | ⟨j, p, w, l, -, hj, hx, h1, h2, _⟩ | ⟨j, w, _, hj, h1, h2, _, h3, h4, _⟩
      · rw [h1, h2]; exact ⟨rfl, rfl⟩
      · rw [h1, h2] at hm ⊢
        by_cases hij : i = j
        · subst hij
          have hw := h.ws i
          rw [hc.1] at hw
          simp only [Function.update_self] at hm
          exact absurd (endM_worker hw hx) hm
        · simp [Function.update_of_ne hij]
      · rw [h1, h2] at hm ⊢
        by_cases hij : i = j
        · subst hij
          simp only [Function.update_self, endM, h3] at hm
          omega
        · simp [Function.update_of_ne hij]
  unfold Enabled at hb ⊢
  rw [key.1, key.2]
  exact hb

theorem lifeAt_inv {c : LifeSetup V} {s : Life V} (h : LInv c s) (sched : Nat → LAct V) (t : Nat) : LInv c (lifeAt c s sched t) := by
  induction t with
  | zero => exact h
  | succ t ih => exact ih.step _

theorem lifeAt_closed {c : LifeSetup V} {s : Life V} (h : LInv c s) (hc : Closed s) (sched : Nat → LAct V) (t : Nat) : Closed (lifeAt c s sched t) := by
  induction t with
  | zero => exact hc
  | succ t ih => exact closed_step (lifeAt_inv h sched t) ih _

/-- Every worker and every transport takes a step again and again. -/
def WorkersFair (W : Nat) (sched : Nat → LAct V) : Prop :=
  ∀ t, ∀ i, i < W → (∃ u, t ≤ u ∧ sched u = .worker i) ∧ (∃ u, t ≤ u ∧ sched u = .deliverM i) ∧ ∃ u, t ≤ u ∧ sched u = .deliverW i

theorem worker_ends {c : LifeSetup V} {s : Life V} (h : LInv c s) (hc : Closed s) {sched : Nat → LAct V} (hf : WorkersFair c.W sched) {i : Nat} (hi : i < c.W) :
    ∃ t, (lifeAt c s sched t).pos i = .ended := by
  by_contra hno
  push Not at hno
  have hdec : ∀ t, ∃ u, t ≤ u ∧ endM ((lifeAt c s sched u).pos i) ((lifeAt c s sched u).d.workers i) < endM ((lifeAt c s sched t).pos i) ((lifeAt c s sched t).d.workers i) := by
    intro t
    obtain ⟨a, ha⟩ := enabled_exists (lifeAt_inv h sched t) (lifeAt_closed h hc sched t) hi (hno t)
    have hfu : ∃ u, t ≤ u ∧ sched u = a := by
      rcases ha with ⟨rfl, _⟩ | ⟨rfl, _⟩ | ⟨rfl, _⟩
      · exact (hf t i hi).1
      · exact (hf t i hi).2.1
      · exact (hf t i hi).2.2
    obtain ⟨u, htu, hu⟩ := hfu
    by_contra hnd
    push Not at hnd
    have hkeep : ∀ k, t + k ≤ u → Enabled c (lifeAt c s sched (t + k)) i a ∧
        endM ((lifeAt c s sched (t + k)).pos i) ((lifeAt c s sched (t + k)).d.workers i) = endM ((lifeAt c s sched t).pos i) ((lifeAt c s sched t).d.workers i) := by
      intro k
      induction k with
      | zero => intro _; exact ⟨ha, rfl⟩
      | succ k ih =>
        intro hk
        obtain ⟨h1, h2⟩ := ih (by omega)
        have h3 := hnd (t + k + 1) (by omega)
        have h4 : ¬ endM ((lifeAt c s sched (t + k + 1)).pos i) ((lifeAt c s sched (t + k + 1)).d.workers i) <
            endM ((lifeAt c s sched (t + k)).pos i) ((lifeAt c s sched (t + k)).d.workers i) := by omega
        refine ⟨enabled_stays (lifeAt_inv h sched _) (lifeAt_closed h hc sched _) (sched (t + k)) a h1 h4, ?_⟩
        have h5 := endM_step (lifeAt_inv h sched (t + k)) (lifeAt_closed h hc sched (t + k)) (sched (t + k)) i
        have h6 : endM ((lifeAt c s sched (t + k + 1)).pos i) ((lifeAt c s sched (t + k + 1)).d.workers i) ≤
            endM ((lifeAt c s sched (t + k)).pos i) ((lifeAt c s sched (t + k)).d.workers i) := h5
        show endM ((lifeAt c s sched (t + k + 1)).pos i) ((lifeAt c s sched (t + k + 1)).d.workers i) = _
        have h7 : endM ((lifeAt c s sched t).pos i) ((lifeAt c s sched t).d.workers i) ≤
            endM ((lifeAt c s sched (t + k + 1)).pos i) ((lifeAt c s sched (t + k + 1)).d.workers i) := h3
        omega
    obtain ⟨k, rfl⟩ := Nat.exists_eq_add_of_le htu
    obtain ⟨h1, h2⟩ := hkeep k le_rfl
    have h3 := enabled_decreases (lifeAt_inv h sched (t + k)) (lifeAt_closed h hc sched (t + k)) hi h1
    have h4 := hnd (t + k + 1) (by omega)
    have h5 : endM ((lifeAt c s sched (t + k + 1)).pos i) ((lifeAt c s sched (t + k + 1)).d.workers i) <
        endM ((lifeAt c s sched (t + k)).pos i) ((lifeAt c s sched (t + k)).d.workers i) := by
      show endM ((lifeStep c (lifeAt c s sched (t + k)) (sched (t + k))).pos i) ((lifeStep c (lifeAt c s sched (t + k)) (sched (t + k))).d.workers i) < _
      rw [hu]; exact h3
    omega
  have hall : ∀ n t, endM ((lifeAt c s sched t).pos i) ((lifeAt c s sched t).d.workers i) ≤ n → False := by
    intro n
    induction n with
    | zero =>
      intro t ht
      obtain ⟨u, _, hu⟩ := hdec t
      omega
    | succ n ih =>
      intro t ht
      obtain ⟨u, _, hu⟩ := hdec t
      exact ih u (by omega)
  exact hall _ 0 le_rfl

theorem ended_step {c : LifeSetup V} {s : Life V} (h : LInv c s) (hc : Closed s) {i : Nat} (he : s.pos i = .ended) (a : LAct V) : (lifeStep c s a).pos i = .ended := by
  unfold lifeStep
  cases hx : lifeExec c s a with
  | none => exact he
  | some s' =>
    rcases (closed_exec h hc hx).2 with ⟨h1, _⟩ | ⟨j, p, w, l, -, hj, hl, h1, _⟩ | ⟨j, w, _, hj, h1, _⟩
    · simp [h1, he]
    · simp only [Option.getD_some, h1]
      by_cases hij : i = j
      · subst hij; rw [he] at hl; cases hl
      · simp [Function.update_of_ne hij, he]
    · simp [h1, he]

theorem ended_later {c : LifeSetup V} {s : Life V} (h : LInv c s) (hc : Closed s) {sched : Nat → LAct V} {i t : Nat} (he : (lifeAt c s sched t).pos i = .ended) {u : Nat}
    (hu : t ≤ u) : (lifeAt c s sched u).pos i = .ended := by
  obtain ⟨k, rfl⟩ := Nat.exists_eq_add_of_le hu
  clear hu
  induction k with
  | zero => exact he
  | succ k ih => exact ended_step (lifeAt_inv h sched _) (lifeAt_closed h hc sched _) ih _

theorem all_end {c : LifeSetup V} {s : Life V} (h : LInv c s) (hc : Closed s) {sched : Nat → LAct V} (hf : WorkersFair c.W sched) :
    ∃ t, ∀ u, t ≤ u → ∀ i, i < c.W → (lifeAt c s sched u).pos i = .ended := by
  have : ∀ n, n ≤ c.W → ∃ t, ∀ i, i < n → (lifeAt c s sched t).pos i = .ended := by
    intro n
    induction n with
    | zero => intro _; exact ⟨0, by simp⟩
    | succ n ih =>
      intro hn
      obtain ⟨t1, h1⟩ := ih (by omega)
      obtain ⟨t2, h2⟩ := worker_ends h hc hf (i := n) (by omega)
      refine ⟨max t1 t2, fun i hi => ?_⟩
      rcases Nat.lt_succ_iff_lt_or_eq.1 hi with hi | rfl
      · exact ended_later h hc (h1 i hi) (le_max_left _ _)
      · exact ended_later h hc h2 (le_max_right _ _)
  obtain ⟨t, ht⟩ := this c.W le_rfl
  exact ⟨t, fun u hu i hi => ended_later h hc (ht i hi) hu⟩

/-! ### Calls of the function after `close` -/

/-- The worker has passed the check of `keep` and has not called the function yet. -/
def mayCall (p : Pos) (pc : WPc V) : Nat :=
  match p, pc with
  | .task, .reading => 1
  | .task, .computing _ => 1
  | _, _ => 0

theorem mayCall_worker {c : LifeSetup V} {p p' : Pos} {w w' : WState V} {l : List V} (h : WI false p w) (he : lifeWorker c false p w = some (p', w', l)) :
    mayCall p' w'.pc + l.length ≤ mayCall p w.pc := by
  cases p with
  | unborn => cases he
  | ended => cases he
  | task =>
    simp only [lifeWorker, Option.map_eq_some_iff, Prod.mk.injEq] at he
    obtain ⟨⟨x, y⟩, hx, rfl, rfl, rfl⟩ := he
    unfold workerStep at hx
    split at hx
    · rename_i hpc; have := (h.task rfl).1; rw [hpc] at this; exact this.elim
    · rename_i hpc
      split at hx
      · cases hx
      · cases hx; simp [mayCall, afterTask, hpc]
    · rename_i v hpc
      split at hx
      · cases hx; simp [mayCall, afterTask, hpc]
      · cases hx; simp [mayCall, afterTask, hpc]
    · rename_i r hpc
      cases hx; simp [mayCall, afterTask, hpc]
    · rename_i hpc
      cases hx; simp [mayCall, afterTask, hpc]
    · cases hx
  | wait =>
    simp only [lifeWorker] at he
    split at he
    · cases he; simp [mayCall]
    · cases he
  | checkTrigger =>
    simp only [lifeWorker, Option.some.injEq, Prod.mk.injEq] at he
    obtain ⟨rfl, rfl, rfl⟩ := he
    split_ifs <;> simp [mayCall]
  | checkKeep =>
    simp only [lifeWorker, Bool.false_eq_true, if_false, Option.some.injEq, Prod.mk.injEq] at he
    obtain ⟨rfl, rfl, rfl⟩ := he
    simp [mayCall]
  | begin =>
    simp only [lifeWorker, Bool.false_eq_true, if_false, Option.some.injEq, Prod.mk.injEq] at he
    obtain ⟨rfl, rfl, rfl⟩ := he
    simp [mayCall]
  | confirm =>
    simp only [lifeWorker, Option.some.injEq, Prod.mk.injEq] at he
    obtain ⟨rfl, rfl, rfl⟩ := he
    simp [mayCall]
  | head =>
    simp only [lifeWorker, Bool.false_eq_true, if_false, Option.some.injEq, Prod.mk.injEq] at he
    obtain ⟨rfl, rfl, rfl⟩ := he
    simp [mayCall]
  | recheck =>
    simp only [lifeWorker, Bool.false_eq_true, if_false, Option.some.injEq, Prod.mk.injEq] at he
    obtain ⟨rfl, rfl, rfl⟩ := he
    simp [mayCall]
  | leave =>
    simp only [lifeWorker, Option.some.injEq, Prod.mk.injEq] at he
    obtain ⟨rfl, rfl, rfl⟩ := he
    simp [mayCall]

theorem calls_step {c : LifeSetup V} {s : Life V} (h : LInv c s) (hc : Closed s) (a : LAct V) :
    (lifeStep c s a).d.calls.length + ∑ i ∈ Finset.range c.W, mayCall ((lifeStep c s a).pos i) ((lifeStep c s a).d.workers i).pc ≤
      s.d.calls.length + ∑ i ∈ Finset.range c.W, mayCall (s.pos i) (s.d.workers i).pc := by
  unfold lifeStep
  cases he : lifeExec c s a with
  | none => exact le_rfl
  | some s' =>
    simp only [Option.getD_some]
    rcases (closed_exec h hc he).2 with ⟨h1, h2, h3⟩ | ⟨j, p, w, l, -, hj, hx, h1, h2, h3⟩ | ⟨j, w, _, hj, h1, h2, h3, h4, _⟩
    · rw [h1, h2, h3]
    · rw [h1, h2, h3]
      have hw := h.ws j
      rw [hc.1] at hw
      have hm := mayCall_worker hw hx
      have hs := Verif.Proofs.Dispenser.sum_change c.W j hj (fun i => mayCall (s.pos i) (s.d.workers i).pc)
        (fun i => mayCall (Function.update s.pos j p i) (Function.update s.d.workers j w i).pc)
        (fun i hij => by simp [Function.update_of_ne hij])
      simp only [Function.update_self] at hs
      rw [List.length_append]
      omega
    · rw [h1, h2, h3]
      have : ∀ i, (Function.update s.d.workers j w i).pc = (s.d.workers i).pc := by
        intro i
        by_cases hij : i = j
        · subst hij; simpa using h4
        · simp [Function.update_of_ne hij]
      simp [this]

theorem calls_run {c : LifeSetup V} {s : Life V} (h : LInv c s) (hc : Closed s) (acts : List (LAct V)) :
    (lifeRun c s acts).d.calls.length + ∑ i ∈ Finset.range c.W, mayCall ((lifeRun c s acts).pos i) ((lifeRun c s acts).d.workers i).pc ≤
      s.d.calls.length + ∑ i ∈ Finset.range c.W, mayCall (s.pos i) (s.d.workers i).pc := by
  induction acts generalizing s with
  | nil => exact le_rfl
  | cons a as ih => exact (ih (h.step a) (closed_step h hc a)).trans (calls_step h hc a)

end Verif.Proofs.Lifecycle
