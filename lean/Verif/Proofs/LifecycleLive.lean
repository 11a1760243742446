import Verif.Proofs.LifecycleRefine
import Verif.Proofs.LifecycleClose

/-!
# Liveness: the constructor and `compute` return
-/

namespace Verif.Proofs.Lifecycle

open Verif.Model.Dispenser Verif.Proofs.Dispenser

variable {V : Type}

theorem quiet_task {keep : Bool} {p : Pos} {w : WState V} (hw : WI keep p w) (hq : Quiet w) : p ≠ .task := by
  rintro rfl
  rcases hq.1 with h | h
  · have := (hw.task rfl).1; rw [h.1] at this; exact this
  · have := (hw.task rfl).1; rw [h] at this; exact this

/-! ### No call of the function after `close` -/

def NoTask (s : Life V) : Prop := s.keep = false → ∀ i, s.pos i ≠ .task

theorem lifeWorker_task {c : LifeSetup V} {p p' : Pos} {w w' : WState V} {l : List V} (hp : p ≠ .task) (he : lifeWorker c false p w = some (p', w', l)) :
    p' ≠ .task ∧ l = [] := by
  cases p with
  | task => exact absurd rfl hp
  | unborn => cases he
  | ended => cases he
  | wait =>
    simp only [lifeWorker] at he
    split at he
    · cases he; exact ⟨by decide, rfl⟩
    · cases he
  | checkTrigger =>
    simp only [lifeWorker, Option.some.injEq, Prod.mk.injEq] at he
    obtain ⟨rfl, rfl, rfl⟩ := he
    refine ⟨?_, rfl⟩
    split_ifs <;> decide
  | checkKeep => cases he; exact ⟨by decide, rfl⟩
  | begin => cases he; exact ⟨by decide, rfl⟩
  | confirm => cases he; exact ⟨by decide, rfl⟩
  | head => cases he; exact ⟨by decide, rfl⟩
  | recheck => cases he; exact ⟨by decide, rfl⟩
  | leave => cases he; exact ⟨by decide, rfl⟩

/-- In an uninterrupted history: after `close` was called no worker is in its task, and no step calls the function. -/
theorem noTask_exec {c : LifeSetup V} {s s' : Life V} (h : RInv c s) (hn : NoTask s) {a : LAct V} (ha : LAct.isInterrupt a = false)
    (he : lifeExec c s a = some s') : NoTask s' ∧ (s.keep = false → s'.keep = false ∧ s'.d.calls = s.d.calls) := by
  have hdel : ∀ {a : Act} {i : Nat} {d : DState V}, (a = .deliverM i ∨ a = .deliverW i) → exec (c.setup s.params) s.d a = some d → d.calls = s.d.calls := by
    intro a i d ha hd
    rcases ha with rfl | rfl <;> (simp only [exec] at hd; split at hd <;> [skip; cases hd]; split at hd <;> cases hd; rfl)
  cases a with
  | interrupt => cases ha
  | worker i =>
    simp only [lifeExec] at he
    split at he
    · simp only [Option.map_eq_some_iff] at he
      obtain ⟨⟨p, w, l⟩, hx, rfl⟩ := he
      constructor
      · intro hk j
        have hk : s.keep = false := hk
        rw [hk] at hx
        by_cases hij : j = i
        · subst hij; simpa using (lifeWorker_task (hn hk j) hx).1
        · simpa [Function.update_of_ne hij] using hn hk j
      · intro hk
        rw [hk] at hx
        exact ⟨hk, by simp [(lifeWorker_task (hn hk i) hx).2]⟩
    · cases he
  | deliverM i =>
    simp only [lifeExec, Option.map_eq_some_iff] at he
    obtain ⟨d, hd, rfl⟩ := he
    exact ⟨hn, fun hk => ⟨hk, hdel (.inl rfl) hd⟩⟩
  | deliverW i =>
    simp only [lifeExec, Option.map_eq_some_iff] at he
    obtain ⟨d, hd, rfl⟩ := he
    exact ⟨hn, fun hk => ⟨hk, hdel (.inr rfl) hd⟩⟩
  | main =>
    simp only [lifeExec] at he
    unfold lifeMain at he
    split at he
    · rename_i i hph
      have hk := (h.inv.building ⟨i, .inl hph⟩).1
      split at he
      · cases he; exact ⟨fun hk2 => (by have hk2 : s.keep = false := hk2; rw [hk] at hk2; cases hk2), fun hk2 => ⟨hk2, rfl⟩⟩
      · cases he; exact ⟨hn, fun hk2 => ⟨hk2, rfl⟩⟩
    · split at he <;> (cases he; exact ⟨hn, fun hk2 => ⟨hk2, rfl⟩⟩)
    · cases he
    · rename_i hph
      have hp := h.phase
      unfold PhaseInv at hp
      rw [hph] at hp
      have hk : s.keep = true := hp.1
      split at he
      · cases he; exact ⟨hn, fun hk2 => ⟨hk2, rfl⟩⟩
      · cases he; exact ⟨hn, fun hk2 => ⟨hk2, rfl⟩⟩
      · simp only [Option.map_eq_some_iff] at he
        obtain ⟨d, hd, rfl⟩ := he
        exact ⟨hn, fun hk2 => (by rw [hk] at hk2; cases hk2)⟩
    · split at he <;> (cases he; exact ⟨hn, fun hk2 => ⟨hk2, rfl⟩⟩)
    · split at he <;> (cases he; exact ⟨hn, fun hk2 => ⟨hk2, rfl⟩⟩)
  | call b =>
    have hp := h.phase
    unfold PhaseInv at hp
    cases b with
    | compute =>
      simp only [lifeExec, lifeCall] at he
      split at he
      · rename_i hph
        split at he
        · rename_i hin
          cases he
          exact ⟨hn, fun hk => (by rw [h.freeClosed hph hk] at hin; cases hin)⟩
        · cases he; exact ⟨hn, fun hk => ⟨hk, rfl⟩⟩
      · cases he
    | update ps =>
      simp only [lifeExec, lifeCall] at he
      split at he
      · split at he
        · split at he <;> (cases he; exact ⟨hn, fun hk => ⟨hk, rfl⟩⟩)
        · cases he; exact ⟨hn, fun hk => ⟨hk, rfl⟩⟩
      · cases he
    | close =>
      simp only [lifeExec, lifeCall] at he
      split at he
      · rename_i hph
        rw [hph] at hp
        simp only at hp
        split at he
        · rename_i hin
          cases he
          refine ⟨fun _ i => ?_, fun hk => (by rw [h.freeClosed hph hk] at hin; cases hin)⟩
          have hk : s.keep = true := by
            cases hk : s.keep with
            | true => rfl
            | false => rw [h.freeClosed hph hk] at hin; cases hin
          exact quiet_task (h.inv.ws i) ((hp hk).2.1 i)
        · cases he; exact ⟨hn, fun hk => ⟨hk, rfl⟩⟩
      · cases he

theorem noTask_step {c : LifeSetup V} {s : Life V} (h : RInv c s) (hn : NoTask s) {a : LAct V} (ha : LAct.isInterrupt a = false) :
    NoTask (lifeStep c s a) ∧ (s.keep = false → (lifeStep c s a).keep = false ∧ (lifeStep c s a).d.calls = s.d.calls) := by
  unfold lifeStep
  cases he : lifeExec c s a with
  | none => exact ⟨hn, fun hk => ⟨hk, rfl⟩⟩
  | some s' => exact noTask_exec h hn ha he

theorem noTask_run {c : LifeSetup V} {s : Life V} (h : RInv c s) (hn : NoTask s) (acts : List (LAct V)) (ha : ∀ a ∈ acts, LAct.isInterrupt a = false) :
    NoTask (lifeRun c s acts) ∧ (s.keep = false → (lifeRun c s acts).keep = false ∧ (lifeRun c s acts).d.calls = s.d.calls) := by
  induction acts generalizing s with
  | nil => exact ⟨hn, fun hk => ⟨hk, rfl⟩⟩
  | cons a as ih =>
    have h1 := noTask_step h hn (ha a (by simp))
    have h2 := ih (h.step (ha a (by simp))) h1.1 fun b hb => ha b (by simp [hb])
    exact ⟨h2.1, fun hk => ⟨(h2.2 (h1.2 hk).1).1, ((h2.2 (h1.2 hk).1).2).trans (h1.2 hk).2⟩⟩

/-! ### No process of a worker ends before `close` -/

def Fine (c : LifeSetup V) (s : Life V) : Prop := ∀ p ∈ s.params, c.f p ≠ none

def AliveInv (c : LifeSetup V) (s : Life V) : Prop :=
  s.keep = true → (s.phase = .computing → Fine c s) → ∀ i, i < c.W → s.pos i ≠ .ended

theorem not_ended {keep : Bool} {p : Pos} {w : WState V} (hw : WI keep p w) (h : p ≠ .ended) : w.pc ≠ .dead := by
  intro hd
  by_cases ht : p = .task
  · have := (hw.task ht).1; rw [hd] at this; exact this
  · have := hw.idle ht h; rw [hd] at this; cases this

theorem ended_worker {c : LifeSetup V} {p p' : Pos} {w w' : WState V} {l : List V} (he : lifeWorker c true p w = some (p', w', l)) (hk : p ≠ .leave)
    (h : p' = .ended) : p = .task ∧ w'.pc = .dead ∧ workerStep c.f w = some (w', l) := by
  subst h
  cases p with
  | unborn => cases he
  | ended => cases he
  | leave => exact absurd rfl hk
  | wait =>
    simp only [lifeWorker] at he
    split at he <;> cases he
  | checkTrigger =>
    simp only [lifeWorker, Option.some.injEq, Prod.mk.injEq] at he
    obtain ⟨h, -⟩ := he
    split at h <;> cases h
  | task =>
    simp only [lifeWorker, Option.map_eq_some_iff, Prod.mk.injEq] at he
    obtain ⟨⟨x, y⟩, hx, h1, rfl, rfl⟩ := he
    refine ⟨rfl, ?_, hx⟩
    simp only at h1
    cases hp : x.pc <;> simp [hp, afterTask] at h1 ⊢
  | checkKeep => cases he
  | begin => cases he
  | confirm => cases he
  | head => cases he
  | recheck => cases he

theorem alive_step {c : LifeSetup V} {s s' : Life V} (h : RInv c s) (hn : AliveInv c s) {a : LAct V} (ha : LAct.isInterrupt a = false)
    (he : lifeExec c s a = some s') : AliveInv c s' := by
  have hp := h.phase
  unfold PhaseInv at hp
  cases a with
  | interrupt => cases ha
  | worker i =>
    simp only [lifeExec] at he
    split at he
    · rename_i hi
      simp only [Option.map_eq_some_iff] at he
      obtain ⟨⟨p, w, l⟩, hx, rfl⟩ := he
      intro hk hfine j hj
      have hk : s.keep = true := hk
      have hfine : s.phase = .computing → Fine c s := hfine
      rw [hk] at hx
      by_cases hij : j = i
      · subst hij
        simp only [Function.update_self]
        intro hend
        have hw := h.inv.ws j
        rw [hk] at hw
        obtain ⟨h1, h2, h3⟩ := ended_worker hx (fun hl => by have := hw.out (.inr hl); cases this) hend
        cases hph : s.phase with
        | closeSet i => have := (h.inv.closePhase ⟨i, .inl hph⟩).1; rw [hk] at this; cases this
        | closeJoin i => have := (h.inv.closePhase ⟨i, .inr hph⟩).1; rw [hk] at this; cases this
        | spawn i => rw [hph] at hp; exact quiet_task hw (hp.1 j) h1
        | await i =>
          rw [hph] at hp
          by_cases hji : j = i
          · subst hji
            rcases hp.2.1 with ⟨_, g⟩ | ⟨g, _⟩ <;> (rw [h1] at g; rcases g with g | g <;> cases g)
          · exact quiet_task hw (hp.1 j hji) h1
        | free => rw [hph] at hp; exact quiet_task hw ((hp hk).2.1 j) h1
        | computing =>
          rw [hph] at hp
          have hal : ∀ k, k < (c.setup s.params).W → (s.d.workers k).pc ≠ .dead := fun k hk2 => not_ended (h.inv.ws k) (hn hk hfine k hk2)
          have hex : exec (c.setup s.params) s.d (.worker j) = some { s.d with workers := Function.update s.d.workers j w, calls := s.d.calls ++ l } := by
            have hiS : j < (c.setup s.params).W := hj
            simp only [exec, if_pos hiS]
            rw [show (c.setup s.params).f j = c.f from rfl, h3]
            rfl
          rcases alive_exec hp.2.1 (fun _ _ => hfine hph) hal hex with h5 | h5
          · have := (h.lens hk).2
            have h5 : s.params.length < c.W := by first | exact h5 | exact h5.2
            omega
          · exact h5 j hj (by simpa using h2)
      · simpa [Function.update_of_ne hij] using hn hk hfine j hj
    · cases he
  | deliverM i =>
    simp only [lifeExec, Option.map_eq_some_iff] at he
    obtain ⟨d, hd, rfl⟩ := he
    exact hn
  | deliverW i =>
    simp only [lifeExec, Option.map_eq_some_iff] at he
    obtain ⟨d, hd, rfl⟩ := he
    exact hn
  | main =>
    simp only [lifeExec] at he
    unfold lifeMain at he
    split at he
    · rename_i i hph
      split at he
      · cases he
        intro hk _ j hj
        by_cases hij : j = i
        · subst hij; simp
        · simpa [Function.update_of_ne hij] using hn hk (fun h => by rw [hph] at h; cases h) j hj
      · cases he; exact fun hk _ j hj => hn hk (fun h => by rw [hph] at h; cases h) j hj
    · rename_i i hph
      split at he
      · cases he; exact hn
      · cases he; exact fun hk _ j hj => hn hk (fun h => by rw [hph] at h; cases h) j hj
    · cases he
    · rename_i hph
      rw [hph] at hp
      split at he
      · rename_i hd
        cases he
        exact fun hk _ j hj => hn hk (fun _ => (good_value hp.2.1 hd).2) j hj
      · rename_i hd
        rcases hp.2.1 with ⟨_, hlt⟩ | ⟨st, a, hi⟩
        · have := (h.lens hp.1).2
          have hlt : s.params.length < c.W := hlt
          omega
        · have := hi.pcOk
          rw [hd] at this
          exact this.elim
      · simp only [Option.map_eq_some_iff] at he
        obtain ⟨d, hd, rfl⟩ := he
        exact hn
    · rename_i i hph
      have hk := (h.inv.closePhase ⟨i, .inl hph⟩).1
      split at he <;> (cases he; exact fun hk2 => (by have hk2 : s.keep = true := hk2; rw [hk] at hk2; cases hk2))
    · rename_i i hph
      have hk := (h.inv.closePhase ⟨i, .inr hph⟩).1
      split at he <;> (cases he; exact fun hk2 => (by have hk2 : s.keep = true := hk2; rw [hk] at hk2; cases hk2))
  | call b =>
    cases b with
    | compute =>
      simp only [lifeExec, lifeCall] at he
      split at he
      · rename_i hph
        split at he
        · cases he; exact fun hk _ j hj => hn hk (fun h => by rw [hph] at h; cases h) j hj
        · cases he; exact hn
      · cases he
    | update ps =>
      simp only [lifeExec, lifeCall] at he
      split at he
      · rename_i hph
        split at he
        · split at he
          · cases he; exact hn
          · cases he; exact fun hk _ j hj => hn hk (fun h => by rw [hph] at h; cases h) j hj
        · cases he; exact hn
      · cases he
    | close =>
      simp only [lifeExec, lifeCall] at he
      split at he
      · rename_i hph
        split at he
        · cases he; exact fun hk => (by cases hk)
        · cases he; exact fun hk _ j hj => hn hk (fun h => by rw [hph] at h; cases h) j hj
      · cases he

/-! ### Uninterrupted histories -/

structure Clean (c : LifeSetup V) (s : Life V) : Prop where
  r : RInv c s
  noTask : NoTask s
  alive : AliveInv c s

theorem clean_start (c : LifeSetup V) (params : List V) (h : c.W ≤ params.length) : Clean c (lifeStart c params) :=
  ⟨rinv_start c params h, fun hk => (by cases hk), fun _ _ i _ => by simp [lifeStart]⟩

theorem Clean.step {c : LifeSetup V} {s : Life V} (h : Clean c s) {a : LAct V} (ha : LAct.isInterrupt a = false) : Clean c (lifeStep c s a) := by
  refine ⟨h.r.step ha, (noTask_step h.r h.noTask ha).1, ?_⟩
  unfold lifeStep
  cases he : lifeExec c s a with
  | none => exact h.alive
  | some s' => exact alive_step h.r h.alive ha he

theorem Clean.run {c : LifeSetup V} {s : Life V} (h : Clean c s) (acts : List (LAct V)) (ha : ∀ a ∈ acts, LAct.isInterrupt a = false) : Clean c (lifeRun c s acts) := by
  induction acts generalizing s with
  | nil => exact h
  | cons a as ih => exact ih (h.step (ha a (by simp))) fun b hb => ha b (by simp [hb])

theorem Clean.at {c : LifeSetup V} {s : Life V} (h : Clean c s) {sched : Nat → LAct V} (ha : ∀ t, LAct.isInterrupt (sched t) = false) (t : Nat) :
    Clean c (lifeAt c s sched t) := by
  induction t with
  | zero => exact h
  | succ t ih => exact ih.step (ha t)

end Verif.Proofs.Lifecycle
