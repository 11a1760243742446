import Verif.Model.Lifecycle
import Verif.Proofs.DispenserTerm

/-!
# Invariants of the life of a manager (C64)
-/

namespace Verif.Proofs.Lifecycle

open Verif.Model.Dispenser

variable {V : Type}

/-- Items held by the worker. -/
def held : WPc V → Nat
  | .computing _ => 1
  | .storing _ => 1
  | _ => 0

/-- Items in the queue of the worker or held by it. -/
def load (w : WState V) : Nat := w.sentM.length + w.sentW.length + w.pipe.length + held w.pc

def TaskPc : WPc V → Prop
  | .idle => False
  | .dead => False
  | _ => True

/-- The positions after the worker has seen its trigger. -/
def Pos.late : Pos → Bool
  | .checkTrigger => true
  | .checkKeep => true
  | .task => true
  | .recheck => true
  | .leave => true
  | _ => false

structure WI (keep : Bool) (p : Pos) (w : WState V) : Prop where
  trig : Pos.late p = true → w.trigger = true
  task : p = .task → TaskPc w.pc ∧ 1 ≤ load w
  idle : p ≠ .task → p ≠ .ended → w.pc = .idle
  some : keep = true → w.trigger = true → 1 ≤ load w ∨ p = .ended
  out : p = .recheck ∨ p = .leave → keep = false

theorem workerStep_load {f : V → Option V} {w w' : WState V} {l : List V} (h : workerStep f w = some (w', l)) (hl : 1 ≤ load w) :
    (w'.pc = .dead ∨ load w' = load w) := by
  unfold workerStep at h
  split at h
  · split at h
    · cases h; right; simp only [load, held]; simp_all [held]
    · cases h
  · split at h
    · cases h
    · rename_i v rest hp
      cases h
      right
      simp only [load, held, hp, List.length_cons]
      simp_all [held]
      omega
  · split at h
    · cases h; right; simp_all [load, held]
    · cases h; left; rfl
  · cases h; right
    simp_all [load, held]
    omega
  · cases h; right; simp_all [load, held]
  · cases h

theorem workerStep_trigger {f : V → Option V} {w w' : WState V} {l : List V} (h : workerStep f w = some (w', l)) :
    (w'.trigger = w.trigger ∧ (TaskPc w.pc → TaskPc w'.pc ∨ w'.pc = .dead)) ∨ (w'.pc = .idle ∧ w'.trigger = false) := by
  unfold workerStep at h
  split at h
  · split at h
    · cases h; left; exact ⟨rfl, fun _ => .inl trivial⟩
    · cases h
  · split at h
    · cases h
    · cases h; left; exact ⟨rfl, fun _ => .inl trivial⟩
  · split at h
    · cases h; left; exact ⟨rfl, fun _ => .inl trivial⟩
    · cases h; left; exact ⟨rfl, fun _ => .inr rfl⟩
  · cases h; left; exact ⟨rfl, fun _ => .inl trivial⟩
  · cases h; right; exact ⟨rfl, rfl⟩
  · cases h

/-- A step of a worker. -/
theorem WI.step {c : LifeSetup V} {keep : Bool} {p p' : Pos} {w w' : WState V} {l : List V} (h : WI keep p w)
    (he : lifeWorker c keep p w = .some (p', w', l)) :
    WI keep p' w' ∧ (p' = .ended ∨ load w ≤ load w') ∧ (w'.trigger = true → w.trigger = true) ∧ (keep = false → p' ≠ .wait) ∧ p' ≠ .unborn ∧
      (p ≠ .task → l = []) := by
  cases p with
  | unborn => cases he
  | begin =>
    simp only [lifeWorker, Option.some.injEq, Prod.mk.injEq] at he
    obtain ⟨rfl, rfl, rfl⟩ := he
    have hi := h.idle (by decide) (by decide)
    have hs := h.some
    cases keep <;> simp only [if_true, Bool.false_eq_true, if_false]
    · exact ⟨⟨by simp [Pos.late], by simp, by simp, by simp, by simp⟩, .inl trivial, id, by simp, by simp, by simp⟩
    · refine ⟨⟨by simp [Pos.late], by simp, fun _ _ => hi, fun a b => ?_, by simp⟩, .inr le_rfl, id, by simp, by simp, by simp⟩
      rcases hs a b with h | h
      · exact .inl h
      · cases h
  | confirm =>
    simp only [lifeWorker, Option.some.injEq, Prod.mk.injEq] at he
    obtain ⟨rfl, rfl, rfl⟩ := he
    have hi := h.idle (by decide) (by decide)
    refine ⟨⟨by simp [Pos.late], by simp, fun _ _ => hi, fun a b => .inl ?_, by simp⟩, .inr ?_, id, by simp, by simp, by simp⟩
    · simp only [load, List.length_append, List.length_singleton]; omega
    · simp only [load, List.length_append, List.length_singleton]; omega
  | head =>
    simp only [lifeWorker, Option.some.injEq, Prod.mk.injEq] at he
    obtain ⟨rfl, rfl, rfl⟩ := he
    have hi := h.idle (by decide) (by decide)
    have hs := h.some
    cases keep <;> simp only [if_true, Bool.false_eq_true, if_false]
    · exact ⟨⟨by simp [Pos.late], by simp, by simp, by simp, by simp⟩, .inl trivial, id, by simp, by simp, by simp⟩
    · refine ⟨⟨by simp [Pos.late], by simp, fun _ _ => hi, fun a b => ?_, by simp⟩, .inr le_rfl, id, by simp, by simp, by simp⟩
      rcases hs a b with h | h
      · exact .inl h
      · cases h
  | wait =>
    simp only [lifeWorker] at he
    by_cases ht : w.trigger = true
    · rw [if_pos ht] at he
      simp only [Option.some.injEq, Prod.mk.injEq] at he
      obtain ⟨rfl, rfl, rfl⟩ := he
      have hi := h.idle (by decide) (by decide)
      have hs := h.some
      refine ⟨⟨fun _ => ht, by simp, fun _ _ => hi, fun a b => ?_, by simp⟩, .inr le_rfl, id, by simp, by simp, by simp⟩
      rcases hs a b with h | h
      · exact .inl h
      · cases h
    · rw [if_neg ht] at he; cases he
  | checkTrigger =>
    have ht : w.trigger = true := h.trig rfl
    simp only [lifeWorker, ht, if_true, Option.some.injEq, Prod.mk.injEq] at he
    obtain ⟨rfl, rfl, rfl⟩ := he
    have hi := h.idle (by decide) (by decide)
    have hs := h.some
    refine ⟨⟨fun _ => ht, by simp, fun _ _ => hi, fun a b => ?_, by simp⟩, .inr le_rfl, id, by simp, by simp, by simp⟩
    rcases hs a b with h | h
    · exact .inl h
    · cases h
  | checkKeep =>
    have ht : w.trigger = true := h.trig rfl
    have hi := h.idle (by decide) (by decide)
    have hs := h.some
    cases keep with
    | true =>
      simp only [lifeWorker, if_true, Option.some.injEq, Prod.mk.injEq] at he
      obtain ⟨rfl, rfl, rfl⟩ := he
      have hl : load ({ w with pc := .reading } : WState V) = load w := by simp [load, held, hi]
      have h1 : 1 ≤ load w := by
        rcases hs rfl ht with h | h
        · exact h
        · cases h
      exact ⟨⟨fun _ => ht, fun _ => ⟨trivial, by rw [hl]; exact h1⟩, by simp, fun _ _ => .inl (by rw [hl]; exact h1), by simp⟩, .inr hl.ge, id, by simp, by simp, by simp⟩
    | false =>
      simp only [lifeWorker, Bool.false_eq_true, if_false, Option.some.injEq, Prod.mk.injEq] at he
      obtain ⟨rfl, rfl, rfl⟩ := he
      exact ⟨⟨fun _ => ht, by simp, fun _ _ => hi, by simp, by simp⟩, .inr le_rfl, id, by simp, by simp, by simp⟩
  | task =>
    have ht : w.trigger = true := h.trig rfl
    obtain ⟨htask, hload⟩ := h.task rfl
    simp only [lifeWorker, Option.map_eq_some_iff, Prod.mk.injEq] at he
    obtain ⟨⟨x, y⟩, hx, rfl, rfl, rfl⟩ := he
    simp only
    rcases workerStep_trigger hx with ⟨h1, h2⟩ | ⟨h1, h2⟩
    · rcases h2 htask with h3 | h3
      · have hp : afterTask x.pc = .task := by
          cases hpc : x.pc <;> rw [hpc] at h3 <;> first | rfl | exact h3.elim
        rw [hp]
        have hl : load x = load w := by
          rcases workerStep_load hx hload with h4 | h4
          · rw [h4] at h3; exact h3.elim
          · exact h4
        exact ⟨⟨fun _ => h1.trans ht, fun _ => ⟨h3, by omega⟩, by simp, fun _ _ => .inl (by omega), by simp⟩, .inr hl.ge, fun _ => ht, by simp, by simp, by simp⟩
      · rw [h3]
        simp only [afterTask]
        exact ⟨⟨by simp [Pos.late], by simp, by simp, by simp, by simp⟩, .inl trivial, fun _ => ht, by simp, by simp, by simp⟩
    · rw [h1]
      simp only [afterTask]
      have hl : load x = load w := by
        rcases workerStep_load hx hload with h4 | h4
        · rw [h1] at h4; cases h4
        · exact h4
      exact ⟨⟨by simp [Pos.late], by simp, fun _ _ => h1, fun _ h => (by rw [h2] at h; cases h), by simp⟩, .inr hl.ge, fun _ => ht, by simp, by simp, by simp⟩
  | recheck =>
    have ht : w.trigger = true := h.trig rfl
    have hi := h.idle (by decide) (by decide)
    have hk := h.out (.inl rfl)
    subst hk
    simp only [lifeWorker, Bool.false_eq_true, if_false, Option.some.injEq, Prod.mk.injEq] at he
    obtain ⟨rfl, rfl, rfl⟩ := he
    exact ⟨⟨fun _ => ht, by simp, fun _ _ => hi, by simp, by simp⟩, .inr le_rfl, id, by simp, by simp, by simp⟩
  | leave =>
    have ht : w.trigger = true := h.trig rfl
    simp only [lifeWorker, Option.some.injEq, Prod.mk.injEq] at he
    obtain ⟨rfl, rfl, rfl⟩ := he
    exact ⟨⟨by simp [Pos.late], by simp, by simp, by simp, by simp⟩, .inl rfl, fun _ => ht, by simp, by simp, by simp⟩
  | ended => cases he

/-- Changes made by the transport. -/
theorem WI.same {keep : Bool} {p : Pos} {w w' : WState V} (h : WI keep p w) (h1 : w'.pc = w.pc) (h2 : w'.trigger = w.trigger) (h3 : load w' = load w) :
    WI keep p w' :=
  ⟨fun a => by rw [h2]; exact h.trig a, fun a => by rw [h1, h3]; exact h.task a, fun a b => by rw [h1]; exact h.idle a b,
    fun a b => by rw [h2] at b; rw [h3]; exact h.some a b, h.out⟩

/-- A message is added. -/
theorem WI.more {keep : Bool} {p : Pos} {w w' : WState V} (h : WI keep p w) (h1 : w'.pc = w.pc) (h2 : w'.trigger = w.trigger) (h3 : load w ≤ load w') :
    WI keep p w' :=
  ⟨fun a => by rw [h2]; exact h.trig a, fun a => by rw [h1]; exact ⟨(h.task a).1, (h.task a).2.trans h3⟩, fun a b => by rw [h1]; exact h.idle a b,
    fun a b => by rw [h2] at b; exact (h.some a b).imp_left (·.trans h3), h.out⟩

/-- A message is taken while the trigger is not set. -/
theorem WI.less {keep : Bool} {p : Pos} {w w' : WState V} (h : WI keep p w) (h1 : w'.pc = w.pc) (h2 : w'.trigger = w.trigger) (h3 : w.trigger = false) :
    WI keep p w' := by
  have hp : p ≠ .task := by
    rintro rfl
    have := h.trig rfl
    rw [h3] at this; cases this
  refine ⟨fun a => by rw [h2]; exact h.trig a, fun a => absurd a hp, fun a b => by rw [h1]; exact h.idle a b, fun _ b => ?_, h.out⟩
  rw [h2, h3] at b; cases b

/-- The trigger is set after a message was put, or in `close`. -/
theorem WI.set {keep : Bool} {p : Pos} {w : WState V} (h : WI keep p w) (h1 : keep = true → 1 ≤ load w ∨ p = .ended) : WI keep p { w with trigger := true } :=
  ⟨fun _ => rfl, h.task, h.idle, fun a _ => h1 a, h.out⟩

theorem WI.drop {p : Pos} {w : WState V} {keep : Bool} (h : WI keep p w) : WI false p w :=
  ⟨h.trig, h.task, h.idle, by simp, fun _ => rfl⟩

/-- The manager was closed: `close` has returned. -/
def Closed (s : Life V) : Prop := s.keep = false ∧ s.initialized = false

structure LInv (c : LifeSetup V) (s : Life V) : Prop where
  ws : ∀ i, WI s.keep (s.pos i) (s.d.workers i)
  born : ∀ i, i < c.W → ((∃ j, s.phase = .spawn j ∧ i < j) ∨ (∃ j, s.phase = .await j ∧ i ≤ j) ∨ s.initialized = true ∨ s.keep = false) → s.pos i ≠ .unborn
  awaitW : ∀ j, s.phase = .await j → j < c.W
  unb : ∀ i, ((∃ j, s.phase = .spawn j ∧ j ≤ i) ∨ ∃ j, s.phase = .await j ∧ j < i) → s.pos i = .unborn
  still : (∃ j, s.phase = .spawn j ∨ s.phase = .await j) → ∀ i, (s.d.workers i).trigger = false
  mSet : s.phase = .computing → ∀ i, s.d.pc = .initSet i ∨ s.d.pc = .set i → 1 ≤ load (s.d.workers i) ∨ s.pos i = .ended
  mGet : s.phase = .computing → ∀ i, s.d.pc = .get i → (s.d.workers i).trigger = false
  closing : ∀ i, i < c.W → ((∃ j, s.phase = .closeSet j ∧ i < j) ∨ (∃ j, s.phase = .closeJoin j) ∨ Closed s) → s.pos i = .wait → (s.d.workers i).trigger = true
  building : (∃ j, s.phase = .spawn j ∨ s.phase = .await j) → s.keep = true ∧ s.initialized = false
  closePhase : (∃ j, s.phase = .closeSet j ∨ s.phase = .closeJoin j) → s.keep = false ∧ s.initialized = true
  compPhase : s.phase = .computing → s.initialized = true

theorem lifeStart_inv (c : LifeSetup V) (params : List V) : LInv c (lifeStart c params) where
  ws _ := ⟨by simp [lifeStart, Pos.late], by simp [lifeStart], fun _ _ => rfl, by simp [lifeStart, startCompute, freshWorker], by simp [lifeStart]⟩
  born i _ h := by simp [lifeStart] at h
  awaitW j h := by simp [lifeStart] at h
  unb i _ := rfl
  still _ i := rfl
  mSet h := by simp [lifeStart] at h
  mGet h := by simp [lifeStart] at h
  closing i _ h := by simp [lifeStart, Closed] at h
  building _ := ⟨rfl, rfl⟩
  closePhase h := by simp [lifeStart] at h
  compPhase h := by simp [lifeStart] at h

theorem LInv.worker {c : LifeSetup V} {s : Life V} (h : LInv c s) {i : Nat} {p' : Pos} {w' : WState V} {l calls : List V}
    (he : lifeWorker c s.keep (s.pos i) (s.d.workers i) = some (p', w', l)) :
    LInv c { s with pos := Function.update s.pos i p', d := { s.d with workers := Function.update s.d.workers i w', calls := calls } } := by
  obtain ⟨h1, h2, h3, h4, h5, h6⟩ := (h.ws i).step he
  refine ⟨fun j => ?_, fun j hj hb => ?_, h.awaitW, fun j hj => ?_, fun hb j => ?_, fun hp j hj => ?_, fun hp j hj => ?_, fun j hj hc hw => ?_, h.building, h.closePhase, h.compPhase⟩
  · by_cases hij : j = i
    · subst hij; simpa using h1
    · simpa [Function.update_of_ne hij] using h.ws j
  · by_cases hij : j = i
    · subst hij; simpa using h5
    · simpa [Function.update_of_ne hij] using h.born j hj hb
  · have hu := h.unb j hj
    by_cases hij : j = i
    · subst hij; rw [hu] at he; cases he
    · simpa [Function.update_of_ne hij] using hu
  · by_cases hij : j = i
    · subst hij
      simp only [Function.update_self]
      have := h.still hb j
      cases ht : w'.trigger
      · rfl
      · rw [h3 ht] at this; cases this
    · simpa [Function.update_of_ne hij] using h.still hb j
  · by_cases hij : j = i
    · subst hij
      simp only [Function.update_self]
      rcases h2 with h2 | h2
      · exact .inr h2
      · rcases h.mSet hp j hj with h7 | h7
        · exact .inl (h7.trans h2)
        · rw [h7] at he; cases he
    · simpa [Function.update_of_ne hij] using h.mSet hp j hj
  · by_cases hij : j = i
    · subst hij
      simp only [Function.update_self]
      have := h.mGet hp j hj
      cases ht : w'.trigger
      · rfl
      · rw [h3 ht] at this; cases this
    · simpa [Function.update_of_ne hij] using h.mGet hp j hj
  · by_cases hij : j = i
    · subst hij
      simp only [Function.update_self] at hw
      have hk : s.keep = false := by
        rcases hc with ⟨k, hk, _⟩ | ⟨k, hk⟩ | hk
        · exact (h.closePhase ⟨k, .inl hk⟩).1
        · exact (h.closePhase ⟨k, .inr hk⟩).1
        · exact hk.1
      exact absurd hw (h4 hk)
    · simp only [Function.update_of_ne hij] at hw ⊢
      exact h.closing j hj hc hw

/-- A step that changes only the queue of worker `i` (not taking a message from it). -/
theorem LInv.queue {c : LifeSetup V} {s : Life V} (h : LInv c s) {i : Nat} {w' : WState V} (h1 : w'.pc = (s.d.workers i).pc)
    (h2 : w'.trigger = (s.d.workers i).trigger) (h3 : load w' = load (s.d.workers i)) : LInv c { s with d := s.d.setWorker i w' } := by
  refine ⟨fun j => ?_, h.born, h.awaitW, h.unb, fun hb j => ?_, fun hp j hj => ?_, fun hp j hj => ?_, fun j hj hc hw => ?_, h.building, h.closePhase, h.compPhase⟩
  · by_cases hij : j = i
    · subst hij; simpa [DState.setWorker] using (h.ws j).same h1 h2 h3
    · simpa [DState.setWorker, Function.update_of_ne hij] using h.ws j
  · by_cases hij : j = i
    · subst hij; simpa [DState.setWorker, h2] using h.still hb j
    · simpa [DState.setWorker, Function.update_of_ne hij] using h.still hb j
  · by_cases hij : j = i
    · subst hij; simpa [DState.setWorker, h3] using h.mSet hp j hj
    · simpa [DState.setWorker, Function.update_of_ne hij] using h.mSet hp j hj
  · by_cases hij : j = i
    · subst hij; simpa [DState.setWorker, h2] using h.mGet hp j hj
    · simpa [DState.setWorker, Function.update_of_ne hij] using h.mGet hp j hj
  · by_cases hij : j = i
    · subst hij; simpa [DState.setWorker, h2] using h.closing j hj hc hw
    · simpa [DState.setWorker, Function.update_of_ne hij] using h.closing j hj hc hw

theorem LInv.deliver {c : LifeSetup V} {s : Life V} (h : LInv c s) {a : Act} {i : Nat} (ha : a = .deliverM i ∨ a = .deliverW i) {d : DState V}
    (he : exec (c.setup s.params) s.d a = some d) : LInv c { s with d := d } := by
  rcases ha with rfl | rfl
  · simp only [exec] at he
    split at he
    · split at he
      · cases he
      · rename_i v rest hs
        cases he
        exact h.queue rfl rfl (by simp [load, hs]; omega)
    · cases he
  · simp only [exec] at he
    split at he
    · split at he
      · cases he
      · rename_i v rest hs
        cases he
        exact h.queue rfl rfl (by simp [load, hs]; omega)
    · cases he

/-- A step of the manager in `compute` that sets the workers and the next position. -/
theorem LInv.compute {c : LifeSetup V} {s : Life V} (h : LInv c s) (hp : s.phase = .computing) {d : DState V}
    (hws : ∀ j, WI s.keep (s.pos j) (d.workers j)) (hset : ∀ i, d.pc = .initSet i ∨ d.pc = .set i → 1 ≤ load (d.workers i) ∨ s.pos i = .ended)
    (hget : ∀ i, d.pc = .get i → (d.workers i).trigger = false) : LInv c { s with d := d } :=
  ⟨hws, h.born, h.awaitW, h.unb, fun ⟨j, hj⟩ => (by rcases hj with hj | hj <;> (have hj : s.phase = _ := hj; rw [hp] at hj; cases hj)), fun _ => hset, fun _ => hget,
    fun i _ hc => (by
      rcases hc with ⟨j, hj, _⟩ | ⟨j, hj⟩ | hj
      · have hj : s.phase = _ := hj
        rw [hp] at hj; cases hj
      · have hj : s.phase = _ := hj
        rw [hp] at hj; cases hj
      · have := h.compPhase hp
        have hj : s.initialized = false := hj.2
        rw [hj] at this; cases this), h.building, h.closePhase, h.compPhase⟩

theorem LInv.manager {c : LifeSetup V} {s : Life V} (h : LInv c s) (hp : s.phase = .computing) {d : DState V}
    (he : managerStep (c.setup s.params) s.d = some d) : LInv c { s with d := d } := by
  have upd : ∀ (i : Nat) (w : WState V), WI s.keep (s.pos i) w → ∀ j, WI s.keep (s.pos j) (Function.update s.d.workers i w j) := by
    intro i w hw j
    by_cases hij : j = i
    · subst hij; simpa using hw
    · simpa [Function.update_of_ne hij] using h.ws j
  have hput : ∀ (i : Nat) (v : V), WI s.keep (s.pos i) { s.d.workers i with sentM := (s.d.workers i).sentM ++ [v] } := by
    intro i v
    exact (h.ws i).more rfl rfl (by simp [load])
  unfold managerStep at he
  split at he
  · rename_i i hpc
    split at he
    · split at he
      · cases he
        exact h.compute hp h.ws (by simp) (by simp)
      · rename_i v hv
        cases he
        refine h.compute hp (upd i _ (hput i v)) (fun j hj => ?_) (by simp)
        simp only [MPc.initSet.injEq, reduceCtorEq, or_false] at hj
        subst hj
        left
        simp [load]
        omega
    · cases he
      exact h.compute hp h.ws (by simp) (by simp)
  · rename_i i hpc
    cases he
    refine h.compute hp (upd i _ ((h.ws i).set fun _ => h.mSet hp i (.inl hpc))) (by simp) (by simp)
  · rename_i i hpc
    split at he
    · split at he
      · rename_i ht
        cases he
        refine h.compute hp h.ws (by simp) (fun j hj => ?_)
        simp only [MPc.get.injEq] at hj
        subst hj
        simp at ht
        exact ht.2
      · cases he
        exact h.compute hp h.ws (by simp) (by simp)
    · split at he
      · cases he
        exact h.compute hp h.ws (by simp) (by simp)
      · cases he
        exact h.compute hp h.ws (by simp) (by simp)
  · rename_i i hpc
    split at he
    · cases he
    · rename_i v rest hpipe
      have hw : WI s.keep (s.pos i) { s.d.workers i with pipe := rest } := (h.ws i).less rfl rfl (h.mGet hp i hpc)
      simp only at he
      split at he
      · cases he
        exact h.compute hp (upd i _ hw) (by simp) (by simp)
      · cases he
        exact h.compute hp (upd i _ hw) (by simp) (by simp)
  · rename_i i hpc
    split at he
    · cases he
      exact h.compute hp h.ws (by simp) (by simp)
    · rename_i v hv
      cases he
      refine h.compute hp (upd i _ (hput i v)) (fun j hj => ?_) (by simp)
      simp only [MPc.set.injEq, reduceCtorEq, false_or] at hj
      subst hj
      left
      simp [load]
      omega
  · rename_i i hpc
    cases he
    exact h.compute hp (upd i _ ((h.ws i).set fun _ => h.mSet hp i (.inr hpc))) (by simp) (by simp)
  · cases he
  · cases he

theorem LInv.free {c : LifeSetup V} {s s' : Life V} (h : LInv c s) (hk : s'.keep = s.keep) (hp : s'.pos = s.pos) (hw : s'.d.workers = s.d.workers)
    (hf : s'.phase = .free) (hb : ∀ i, i < c.W → s'.initialized = true → s.pos i ≠ .unborn)
    (hc : s'.initialized = false → s.keep = false → ∀ i, i < c.W → s.pos i = .wait → (s.d.workers i).trigger = true) : LInv c s' := by
  refine ⟨fun i => ?_, fun i hi hcond => ?_, by simp [hf], by simp [hf], by simp [hf], by simp [hf], by simp [hf], fun i hi hcond hwait => ?_, by simp [hf], by simp [hf], by simp [hf]⟩
  · rw [hk, hp, hw]; exact h.ws i
  · rw [hp]
    simp only [hf, reduceCtorEq, false_and, exists_false, false_or] at hcond
    rcases hcond with h1 | h1
    · exact hb i hi h1
    · exact h.born i hi (.inr (.inr (.inr (hk ▸ h1))))
  · simp only [hf, reduceCtorEq, false_and, exists_false, false_or] at hcond
    rw [hw]
    exact hc hcond.2 (hk ▸ hcond.1) i hi (hp ▸ hwait)

theorem LInv.main {c : LifeSetup V} {s s' : Life V} (h : LInv c s) (he : lifeMain c s = some s') : LInv c s' := by
  unfold lifeMain at he
  split at he
  · rename_i i hph
    obtain ⟨hk, hin⟩ := h.building ⟨i, .inl hph⟩
    split at he
    · rename_i hi
      cases he
      have hu := h.unb i (.inl ⟨i, hph, le_rfl⟩)
      refine ⟨fun j => ?_, fun j hj hcond => ?_, fun j hj => ?_, fun j hj => ?_, fun _ => h.still ⟨i, .inl hph⟩, by simp, by simp, fun j hj hcond => ?_, fun _ => ⟨hk, hin⟩, by simp, by simp⟩
      · by_cases hij : j = i
        · subst hij
          have hw := h.ws j
          rw [hu] at hw
          simp only [Function.update_self]
          exact ⟨by simp [Pos.late], by simp, fun _ _ => hw.idle (by simp) (by simp), fun a b => (hw.some a b).imp_right (by simp), by simp⟩
        · simpa [Function.update_of_ne hij] using h.ws j
      · by_cases hij : j = i
        · subst hij; simp
        · simp only [Function.update_of_ne hij]
          simp only [reduceCtorEq, false_and, exists_false, Phase.await.injEq, false_or, hin, hk, Bool.false_eq_true, Bool.true_eq_false, or_false] at hcond
          obtain ⟨k, rfl, hk2⟩ := hcond
          exact h.born j hj (.inl ⟨i, hph, by omega⟩)
      · cases hj; exact hi
      · simp only [reduceCtorEq, false_and, exists_false, Phase.await.injEq, false_or] at hj
        obtain ⟨k, rfl, hk2⟩ := hj
        simp only [Function.update_of_ne (show j ≠ i by omega)]
        exact h.unb j (.inl ⟨i, hph, by omega⟩)
      · simp [Closed, hk] at hcond
    · rename_i hi
      cases he
      refine h.free rfl rfl rfl rfl (fun j hj _ => h.born j hj (.inl ⟨i, hph, by omega⟩)) (by simp)
  · rename_i i hph
    obtain ⟨hk, hin⟩ := h.building ⟨i, .inr hph⟩
    split at he
    · cases he; exact h
    · rename_i v rest hpipe
      cases he
      have hst := h.still ⟨i, .inr hph⟩
      have hw : WI s.keep (s.pos i) { s.d.workers i with pipe := rest } := (h.ws i).less rfl rfl (hst i)
      refine ⟨fun j => ?_, fun j hj hcond => ?_, by simp, fun j hj => ?_, fun _ j => ?_, by simp, by simp, fun j hj hcond => ?_, fun _ => ⟨hk, hin⟩, by simp, by simp⟩
      · by_cases hij : j = i
        · subst hij; simpa [DState.setWorker] using hw
        · simpa [DState.setWorker, Function.update_of_ne hij] using h.ws j
      · simp only [reduceCtorEq, false_and, exists_false, Phase.spawn.injEq, false_or, hin, hk, Bool.false_eq_true, Bool.true_eq_false, or_false] at hcond
        obtain ⟨k, rfl, hk2⟩ := hcond
        exact h.born j hj (.inr (.inl ⟨i, hph, by omega⟩))
      · simp only [reduceCtorEq, false_and, exists_false, Phase.spawn.injEq, or_false] at hj
        obtain ⟨k, rfl, hk2⟩ := hj
        exact h.unb j (.inr ⟨i, hph, by omega⟩)
      · by_cases hij : j = i
        · subst hij; simpa [DState.setWorker] using hst j
        · simpa [DState.setWorker, Function.update_of_ne hij] using hst j
      · simp [Closed, hk] at hcond
  · cases he
  · rename_i hph
    have hin := h.compPhase hph
    split at he
    · cases he
      exact h.free rfl rfl rfl rfl (fun j hj hi => h.born j hj (.inr (.inr (.inl hi)))) (by simp [hin])
    · cases he
      exact h.free rfl rfl rfl rfl (fun j hj hi => h.born j hj (.inr (.inr (.inl hi)))) (by simp [hin])
    · simp only [Option.map_eq_some_iff] at he
      obtain ⟨d, hd, rfl⟩ := he
      exact h.manager hph hd
  · rename_i i hph
    obtain ⟨hk, hin⟩ := h.closePhase ⟨i, .inl hph⟩
    have hborn : ∀ j, j < c.W → s.pos j ≠ .unborn := fun j hj => h.born j hj (.inr (.inr (.inl hin)))
    split at he
    · rename_i hi
      cases he
      refine ⟨fun j => ?_, fun j hj hcond => hborn j hj, by simp, by simp, by simp, by simp, by simp, fun j hj hcond hwait => ?_, by simp, fun _ => ⟨hk, hin⟩, by simp⟩
      · by_cases hij : j = i
        · subst hij; simpa [DState.setWorker] using (h.ws j).set (by simp [hk])
        · simpa [DState.setWorker, Function.update_of_ne hij] using h.ws j
      · simp only [Phase.closeSet.injEq, reduceCtorEq, exists_false, Closed, hin, Bool.true_eq_false, and_false, or_false] at hcond
        obtain ⟨k, rfl, hk2⟩ := hcond
        by_cases hij : j = i
        · subst hij; simp [DState.setWorker]
        · simpa [DState.setWorker, Function.update_of_ne hij] using h.closing j hj (.inl ⟨i, hph, by omega⟩) hwait
    · rename_i hi
      cases he
      refine ⟨h.ws, fun j hj _ => hborn j hj, by simp, by simp, by simp, by simp, by simp, fun j hj hcond hwait => ?_, by simp, fun _ => ⟨hk, hin⟩, by simp⟩
      exact h.closing j hj (.inl ⟨i, hph, by omega⟩) hwait
  · rename_i i hph
    obtain ⟨hk, hin⟩ := h.closePhase ⟨i, .inr hph⟩
    have hborn : ∀ j, j < c.W → s.pos j ≠ .unborn := fun j hj => h.born j hj (.inr (.inr (.inl hin)))
    split at he
    · cases he
      exact ⟨h.ws, fun j hj _ => hborn j hj, by simp, by simp, by simp, by simp, by simp, fun j hj hcond hwait => h.closing j hj (.inr (.inl ⟨i, hph⟩)) hwait, by simp, fun _ => ⟨hk, hin⟩, by simp⟩
    · cases he
      exact h.free rfl rfl rfl rfl (fun j hj _ => hborn j hj) (fun _ _ j hj hwait => h.closing j hj (.inr (.inl ⟨i, hph⟩)) hwait)

theorem LInv.call {c : LifeSetup V} {s s' : Life V} (h : LInv c s) {a : ApiCall V} (he : lifeCall c s a = some s') : LInv c s' := by
  have hclosed : s.initialized = false → s.keep = false → ∀ i, i < c.W → s.pos i = .wait → (s.d.workers i).trigger = true :=
    fun h1 h2 i hi hw => h.closing i hi (.inr (.inr ⟨h2, h1⟩)) hw
  cases a with
  | compute =>
    simp only [lifeCall] at he
    split at he
    · rename_i hph
      split at he
      · rename_i hin
        cases he
        exact ⟨h.ws, fun j hj _ => h.born j hj (.inr (.inr (.inl hin))), by simp, by simp, by simp, by simp [startCompute], by simp [startCompute], by simp [Closed, hin], by simp, by simp, fun _ => hin⟩
      · rename_i hin
        cases he
        exact h.free rfl rfl rfl hph (fun j hj hi => absurd hi hin) hclosed
    · cases he
  | update ps =>
    simp only [lifeCall] at he
    split at he
    · rename_i hph
      split at he
      · rename_i hin
        split at he
        · cases he; exact h
        · cases he
          exact h.free rfl rfl rfl hph (fun j hj _ => h.born j hj (.inr (.inr (.inl hin)))) hclosed
      · cases he; exact h
    · cases he
  | close =>
    simp only [lifeCall] at he
    split at he
    · rename_i hph
      split at he
      · rename_i hin
        cases he
        exact ⟨fun j => (h.ws j).drop, fun j hj _ => h.born j hj (.inr (.inr (.inl hin))), by simp, by simp, by simp, by simp, by simp, by simp [Closed, hin], by simp, fun _ => ⟨rfl, hin⟩, by simp⟩
      · rename_i hin
        cases he
        exact h.free rfl rfl rfl hph (fun j hj hi => absurd hi hin) hclosed
    · cases he

theorem LInv.exec {c : LifeSetup V} {s s' : Life V} (h : LInv c s) {a : LAct V} (he : lifeExec c s a = some s') : LInv c s' := by
  cases a with
  | main => exact h.main he
  | worker i =>
    simp only [lifeExec] at he
    split at he
    · simp only [Option.map_eq_some_iff] at he
      obtain ⟨⟨p, w, l⟩, hx, rfl⟩ := he
      exact h.worker hx
    · cases he
  | deliverM i =>
    simp only [lifeExec, Option.map_eq_some_iff] at he
    obtain ⟨d, hd, rfl⟩ := he
    exact h.deliver (.inl rfl) hd
  | deliverW i =>
    simp only [lifeExec, Option.map_eq_some_iff] at he
    obtain ⟨d, hd, rfl⟩ := he
    exact h.deliver (.inr rfl) hd
  | call a => exact h.call he
  | interrupt =>
    simp only [lifeExec] at he
    split at he
    · cases he
    · cases he
      exact h.free rfl rfl rfl rfl (fun j hj hi => h.born j hj (.inr (.inr (.inl hi)))) (fun h1 h2 i hi hw => h.closing i hi (.inr (.inr ⟨h2, h1⟩)) hw)

theorem LInv.step {c : LifeSetup V} {s : Life V} (h : LInv c s) (a : LAct V) : LInv c (lifeStep c s a) := by
  unfold lifeStep
  cases he : lifeExec c s a with
  | none => exact h
  | some s' => exact h.exec he

theorem LInv.run {c : LifeSetup V} {s : Life V} (h : LInv c s) (acts : List (LAct V)) : LInv c (lifeRun c s acts) := by
  induction acts generalizing s with
  | nil => exact h
  | cons a as ih => exact ih (h.step a)

theorem lifeInv (c : LifeSetup V) (params : List V) (acts : List (LAct V)) : LInv c (lifeRun c (lifeStart c params) acts) :=
  (lifeStart_inv c params).run acts

end Verif.Proofs.Lifecycle
