import Verif.Proofs.LifecycleLive

/-!
# `compute`, the constructor and `close` return under every fair schedule
-/

namespace Verif.Proofs.Lifecycle

open Verif.Model.Dispenser Verif.Proofs.Dispenser

variable {V : Type}

/-- The main process, every worker and every transport takes a step again and again. -/
def LFair (W : Nat) (sched : Nat → LAct V) : Prop :=
  (∀ t, ∃ u, t ≤ u ∧ sched u = .main) ∧ WorkersFair W sched

/-! ### `compute` -/

/-- The positions in which a worker whose trigger is set makes a step that is not a step of the coarse model. -/
def lag (p : Pos) : Nat :=
  match p with
  | .head => 3
  | .wait => 2
  | .checkTrigger => 1
  | _ => 0

def coarseAct (c : LifeSetup V) (s : Life V) : LAct V → Act
  | .main => .manager
  | .worker i => if lag (s.pos i) = 0 ∨ (s.d.workers i).trigger = false then .worker i else .worker c.W
  | .deliverM i => .deliverM i
  | .deliverW i => .deliverW i
  | .call _ => .worker c.W
  | .interrupt => .worker c.W

theorem step_out (c : Setup V) (d : DState V) : step c d (.worker c.W) = d := by simp [step, exec]

theorem coarse_step {c : LifeSetup V} {s : Life V} (h : Clean c s) (hp : s.phase = .computing) (hf : Fine c s) {a : LAct V} (ha : LAct.isInterrupt a = false)
    (hnext : (lifeStep c s a).phase = .computing) :
    (lifeStep c s a).d = step (c.setup s.params) s.d (coarseAct c s a) ∧ (lifeStep c s a).params = s.params ∧ (lifeStep c s a).log = s.log := by
  have hph := h.r.phase
  unfold PhaseInv at hph
  rw [hp] at hph
  obtain ⟨hk, hgood, hrun⟩ := hph
  cases a with
  | interrupt => cases ha
  | call b =>
    have : lifeStep c s (.call b) = s := by
      unfold lifeStep
      cases b <;> simp [lifeExec, lifeCall, hp]
    rw [this]
    exact ⟨(step_out (c.setup s.params) s.d).symm, rfl, rfl⟩
  | deliverM i =>
    simp only [lifeStep, lifeExec, coarseAct, step]
    cases exec (c.setup s.params) s.d (.deliverM i) <;> exact ⟨rfl, rfl, rfl⟩
  | deliverW i =>
    simp only [lifeStep, lifeExec, coarseAct, step]
    cases exec (c.setup s.params) s.d (.deliverW i) <;> exact ⟨rfl, rfl, rfl⟩
  | main =>
    simp only [lifeStep, lifeExec, lifeMain, hp, coarseAct, step, exec] at hnext ⊢
    cases hpc : s.d.pc with
    | done => rw [hpc] at hnext; simp at hnext
    | indexError => rw [hpc] at hnext; simp at hnext
    | _ => cases managerStep (c.setup s.params) s.d <;> exact ⟨rfl, rfl, rfl⟩
  | worker i =>
    by_cases hi : i < c.W
    · have hw := h.r.inv.ws i
      rw [hk] at hw
      have hne := h.alive hk (fun _ => hf) i hi
      have hr := hrun i hi
      have hiS : i < (c.setup s.params).W := hi
      have hstep : step (c.setup s.params) s.d (.worker i) =
          ((workerStep c.f (s.d.workers i)).map fun x => { s.d with workers := Function.update s.d.workers i x.1, calls := s.d.calls ++ x.2 }).getD s.d := by
        simp only [step, exec, if_pos hiS]; rfl
      have hlife : lifeStep c s (.worker i) = ((lifeWorker c true (s.pos i) (s.d.workers i)).map fun x =>
          ({ s with pos := Function.update s.pos i x.1, d := { s.d with workers := Function.update s.d.workers i x.2.1, calls := s.d.calls ++ x.2.2 } } : Life V)).getD s := by
        simp only [lifeStep, lifeExec, if_pos hi, hk]
      rw [hlife]
      simp only [coarseAct]
      cases hpos : s.pos i with
      | unborn => exact absurd hpos hr.1
      | begin => exact absurd hpos hr.2.1
      | confirm => exact absurd hpos hr.2.2
      | ended => exact absurd hpos hne
      | recheck => have := hw.out (.inl hpos); cases this
      | leave => have := hw.out (.inr hpos); cases this
      | head =>
        have hidle := hw.idle (by rw [hpos]; decide) (by rw [hpos]; decide)
        simp only [lifeWorker, if_true, Option.map_some, Option.getD_some, List.append_nil, Function.update_eq_self, and_self, and_true]
        by_cases ht : (s.d.workers i).trigger = false
        · rw [if_pos (.inr ht), hstep]; simp [workerStep, hidle, ht]
        · rw [if_neg (by simp [lag, ht]), show step (c.setup s.params) s.d (.worker c.W) = s.d from step_out (c.setup s.params) s.d]
      | wait =>
        have hidle := hw.idle (by rw [hpos]; decide) (by rw [hpos]; decide)
        by_cases ht : (s.d.workers i).trigger = false
        · rw [if_pos (.inr ht), hstep]; simp [workerStep, lifeWorker, hidle, ht]
        · rw [if_neg (by simp [lag, ht]), show step (c.setup s.params) s.d (.worker c.W) = s.d from step_out (c.setup s.params) s.d]
          have ht : (s.d.workers i).trigger = true := by simpa using ht
          simp [lifeWorker, ht]
      | checkTrigger =>
        have ht := hw.trig (by rw [hpos]; rfl)
        rw [if_neg (by simp [lag, ht]), show step (c.setup s.params) s.d (.worker c.W) = s.d from step_out (c.setup s.params) s.d]
        simp [lifeWorker, ht]
      | checkKeep =>
        have ht := hw.trig (by rw [hpos]; rfl)
        have hidle := hw.idle (by rw [hpos]; decide) (by rw [hpos]; decide)
        rw [if_pos (.inl rfl), hstep]
        simp [lifeWorker, workerStep, hidle, ht]
      | task =>
        rw [if_pos (.inl rfl), hstep]
        simp only [lifeWorker]
        cases workerStep c.f (s.d.workers i) <;> simp
    · have : lifeStep c s (.worker i) = s := by simp [lifeStep, lifeExec, hi]
      rw [this]
      refine ⟨?_, rfl, rfl⟩
      simp only [coarseAct]
      split
      · simp [step, exec, LifeSetup.setup, hi]
      · exact (step_out (c.setup s.params) s.d).symm

/-- Only steps of the worker change its position; while its trigger is set a step in a lagging position moves it on. -/
theorem lag_other {c : LifeSetup V} {s : Life V} (hp : s.phase = .computing) {a : LAct V} {i : Nat} (ha : a ≠ .worker i) :
    (lifeStep c s a).pos i = s.pos i := by
  unfold lifeStep
  cases he : lifeExec c s a with
  | none => rfl
  | some s' =>
    simp only [Option.getD_some]
    cases a with
    | interrupt => simp only [lifeExec, hp] at he; simp at he; rw [← he]
    | call b => cases b <;> simp [lifeExec, lifeCall, hp] at he
    | deliverM j =>
      simp only [lifeExec, Option.map_eq_some_iff] at he
      obtain ⟨d, hd, rfl⟩ := he
      rfl
    | deliverW j =>
      simp only [lifeExec, Option.map_eq_some_iff] at he
      obtain ⟨d, hd, rfl⟩ := he
      rfl
    | main =>
      simp only [lifeExec, lifeMain, hp] at he
      split at he
      · cases he; rfl
      · cases he; rfl
      · simp only [Option.map_eq_some_iff] at he
        obtain ⟨d, hd, rfl⟩ := he
        rfl
    | worker j =>
      simp only [lifeExec] at he
      split at he
      · simp only [Option.map_eq_some_iff] at he
        obtain ⟨⟨p, w, l⟩, hx, rfl⟩ := he
        have hij : i ≠ j := fun h => ha (by rw [h])
        simp [Function.update_of_ne hij]
      · cases he

theorem lag_worker {c : LifeSetup V} {s : Life V} (hk : s.keep = true) {i : Nat} (hi : i < c.W) (hl : lag (s.pos i) ≠ 0)
    (ht : (s.d.workers i).trigger = true) : lag ((lifeStep c s (.worker i)).pos i) < lag (s.pos i) := by
  simp only [lifeStep, lifeExec, if_pos hi, hk]
  cases hpos : s.pos i <;> simp [hpos, lag] at hl <;> simp [lifeWorker, lag, ht]

/-- The first step of a schedule with a property from `t` on. -/
theorem first_from {P : Nat → Prop} {t : Nat} (h : ∃ u, t ≤ u ∧ P u) : ∃ u, t ≤ u ∧ P u ∧ ∀ v, t ≤ v → v < u → ¬ P v := by
  classical
  refine ⟨Nat.find h, (Nat.find_spec h).1, (Nat.find_spec h).2, fun v hv hlt hP => ?_⟩
  exact Nat.find_min h hlt ⟨hv, hP⟩

theorem coarse_worker_fair {c : LifeSetup V} {s : Life V} {sched : Nat → LAct V} (hcomp : ∀ t, (lifeAt c s sched t).phase = .computing)
    (hkeep : ∀ t, (lifeAt c s sched t).keep = true) {i : Nat} (hi : i < c.W) (hf : ∀ t, ∃ u, t ≤ u ∧ sched u = .worker i) :
    ∀ n t, lag ((lifeAt c s sched t).pos i) = n → ∃ u, t ≤ u ∧ coarseAct c (lifeAt c s sched u) (sched u) = .worker i := by
  intro n
  induction n using Nat.strong_induction_on with
  | _ n ih =>
    intro t hn
    obtain ⟨u, hu, hw, hmin⟩ := first_from (hf t)
    have hpos : ∀ k, t + k ≤ u → (lifeAt c s sched (t + k)).pos i = (lifeAt c s sched t).pos i := by
      intro k
      induction k with
      | zero => intro _; rfl
      | succ k ihk =>
        intro hk
        have : (lifeAt c s sched (t + k + 1)).pos i = (lifeAt c s sched (t + k)).pos i := lag_other (hcomp _) (hmin (t + k) (by omega) (by omega))
        exact this.trans (ihk (by omega))
    have hpu := hpos (u - t) (by omega)
    rw [show t + (u - t) = u by omega] at hpu
    by_cases hc : lag ((lifeAt c s sched u).pos i) = 0 ∨ ((lifeAt c s sched u).d.workers i).trigger = false
    · exact ⟨u, hu, by rw [hw]; simp only [coarseAct, if_pos hc]⟩
    · push Not at hc
      have hlt : lag ((lifeAt c s sched (u + 1)).pos i) < n := by
        have := lag_worker (hkeep u) hi hc.1 (by simpa using hc.2)
        rw [← hn, ← hpu]
        show lag ((lifeStep c (lifeAt c s sched u) (sched u)).pos i) < _
        rw [hw]; exact this
      obtain ⟨v, hv, h2⟩ := ih _ hlt (u + 1) rfl
      exact ⟨v, by omega, h2⟩

theorem compute_leaves {c : LifeSetup V} {s : Life V} (h : Clean c s) (hp : s.phase = .computing) (hf : Fine c s) (hW : 1 ≤ c.W) {sched : Nat → LAct V}
    (hfair : LFair c.W sched) (hint : ∀ t, LAct.isInterrupt (sched t) = false) : ∃ t, (lifeAt c s sched t).phase ≠ .computing := by
  by_contra hno
  push Not at hno
  have hclean := fun t => h.at hint t
  have hph : ∀ t, (lifeAt c s sched t).keep = true ∧ Good (c.setup (lifeAt c s sched t).params) (lifeAt c s sched t).d := by
    intro t
    have := (hclean t).r.phase
    unfold PhaseInv at this
    rw [hno t] at this
    exact ⟨this.1, this.2.1⟩
  have hpar : ∀ t, (lifeAt c s sched t).params = s.params := by
    intro t
    induction t with
    | zero => rfl
    | succ t ih =>
      have hfine : Fine c (lifeAt c s sched t) := by unfold Fine; rw [ih]; exact hf
      exact ((coarse_step (hclean t) (hno t) hfine (hint t) (hno (t + 1))).2.1).trans ih
  have hfine : ∀ t, Fine c (lifeAt c s sched t) := by intro t; unfold Fine; rw [hpar t]; exact hf
  let cs : Nat → Act := fun t => coarseAct c (lifeAt c s sched t) (sched t)
  have hsim : ∀ t, stateAt (c.setup s.params) s.d cs t = (lifeAt c s sched t).d := by
    intro t
    induction t with
    | zero => rfl
    | succ t ih =>
      have := (coarse_step (hclean t) (hno t) (hfine t) (hint t) (hno (t + 1))).1
      rw [hpar t] at this
      show step (c.setup s.params) (stateAt (c.setup s.params) s.d cs t) (cs t) = _
      rw [ih]; exact this.symm
  have hcf : FairSched c.W cs := by
    intro t
    refine ⟨?_, fun i hi => ⟨?_, ?_, ?_⟩⟩
    · obtain ⟨u, hu, h1⟩ := hfair.1 t
      exact ⟨u, hu, by simp only [cs, h1, coarseAct]⟩
    · exact coarse_worker_fair hno (fun t => (hph t).1) hi (fun t => (hfair.2 t i hi).1) _ t rfl
    · obtain ⟨u, hu, h1⟩ := (hfair.2 t i hi).2.1
      exact ⟨u, hu, by simp only [cs, h1, coarseAct]⟩
    · obtain ⟨u, hu, h1⟩ := (hfair.2 t i hi).2.2
      exact ⟨u, hu, by simp only [cs, h1, coarseAct]⟩
  have hg := (hph 0).2
  have hk0 : s.keep = true := (hph 0).1
  obtain ⟨t, ht⟩ := terminates (c := c.setup s.params) (s := s.d) (sched := cs) hg hW (h.r.lens hk0).2 (fun _ _ => hf)
    (fun i hi => not_ended (h.r.inv.ws i) (h.alive hk0 (fun _ => hf) i hi)) hcf
  have hdone : ∀ k, (stateAt (c.setup s.params) s.d cs (t + k)).pc = .done := by
    intro k
    induction k with
    | zero => exact ht
    | succ k ih =>
      show (step (c.setup s.params) (stateAt (c.setup s.params) s.d cs (t + k)) (cs (t + k))).pc = .done
      generalize stateAt (c.setup s.params) s.d cs (t + k) = d at ih ⊢
      unfold step
      cases he : exec (c.setup s.params) d (cs (t + k)) with
      | none => exact ih
      | some d' =>
        simp only [Option.getD_some]
        cases hact : cs (t + k) with
        | manager => rw [hact] at he; simp [exec, managerStep, ih] at he
        | worker i =>
          rw [hact] at he
          simp only [exec] at he
          split at he
          · simp only [Option.map_eq_some_iff] at he
            obtain ⟨x, _, rfl⟩ := he
            exact ih
          · cases he
        | deliverM i =>
          rw [hact] at he
          simp only [exec] at he; split at he <;> [skip; cases he]; split at he <;> cases he; exact ih
        | deliverW i =>
          rw [hact] at he
          simp only [exec] at he; split at he <;> [skip; cases he]; split at he <;> cases he; exact ih
  obtain ⟨u, hu, h1⟩ := hfair.1 t
  have hd := hdone (u - t)
  rw [show t + (u - t) = u by omega, hsim u] at hd
  have := hno (u + 1)
  rw [show lifeAt c s sched (u + 1) = lifeStep c (lifeAt c s sched u) (sched u) from rfl, h1] at this
  simp [lifeStep, lifeExec, lifeMain, hno u, hd] at this

/-- The step that ends a call of `compute` without an interruption. -/
theorem leave_step {c : LifeSetup V} {s : Life V} (h : Clean c s) (hp : s.phase = .computing) {a : LAct V} (ha : LAct.isInterrupt a = false)
    (hnext : (lifeStep c s a).phase ≠ .computing) :
    (lifeStep c s a).phase = .free ∧ (lifeStep c s a).log = s.log ++ [.value s.params s.d.results] ∧ (lifeStep c s a).params = s.params ∧
      s.d.results = s.params.map c.f ∧ (lifeStep c s a).d = s.d := by
  have hph := h.r.phase
  unfold PhaseInv at hph
  rw [hp] at hph
  unfold lifeStep at hnext ⊢
  cases he : lifeExec c s a with
  | none => rw [he] at hnext; exact absurd hp hnext
  | some s' =>
    rw [he] at hnext
    simp only [Option.getD_some] at hnext ⊢
    cases a with
    | interrupt => cases ha
    | call b => cases b <;> simp [lifeExec, lifeCall, hp] at he
    | deliverM j =>
      simp only [lifeExec, Option.map_eq_some_iff] at he
      obtain ⟨d, hd, rfl⟩ := he
      exact absurd hp hnext
    | deliverW j =>
      simp only [lifeExec, Option.map_eq_some_iff] at he
      obtain ⟨d, hd, rfl⟩ := he
      exact absurd hp hnext
    | worker j =>
      simp only [lifeExec] at he
      split at he
      · simp only [Option.map_eq_some_iff] at he
        obtain ⟨⟨p, w, l⟩, hx, rfl⟩ := he
        exact absurd hp hnext
      · cases he
    | main =>
      simp only [lifeExec, lifeMain, hp] at he
      split at he
      · rename_i hd
        cases he
        exact ⟨rfl, rfl, rfl, (good_value hph.2.1 hd).1, rfl⟩
      · rename_i hd
        rcases hph.2.1 with ⟨_, hlt⟩ | ⟨st, a, hi⟩
        · have := (h.r.lens hph.1).2
          have hlt : s.params.length < c.W := hlt
          omega
        · have := hi.pcOk
          rw [hd] at this
          exact this.elim
      · simp only [Option.map_eq_some_iff] at he
        obtain ⟨d, hd, rfl⟩ := he
        exact absurd rfl hnext

theorem compute_returns {c : LifeSetup V} {s : Life V} (h : Clean c s) (hp : s.phase = .computing) (hf : Fine c s) (hW : 1 ≤ c.W) {sched : Nat → LAct V}
    (hfair : LFair c.W sched) (hint : ∀ t, LAct.isInterrupt (sched t) = false) :
    ∃ t, (lifeAt c s sched t).phase = .free ∧ (lifeAt c s sched t).log = s.log ++ [.value s.params (s.params.map c.f)] := by
  obtain ⟨u, -, hu, hmin⟩ := first_from (P := fun t => (lifeAt c s sched t).phase ≠ .computing) (t := 0) (by
    obtain ⟨t, ht⟩ := compute_leaves h hp hf hW hfair hint; exact ⟨t, Nat.zero_le _, ht⟩)
  have hbefore : ∀ v, v < u → (lifeAt c s sched v).phase = .computing := by
    intro v hv
    have := hmin v (Nat.zero_le _) hv
    push Not at this
    exact this
  have hsame : ∀ v, v < u → (lifeAt c s sched v).params = s.params ∧ (lifeAt c s sched v).log = s.log := by
    intro v
    induction v with
    | zero => intro _; exact ⟨rfl, rfl⟩
    | succ v ih =>
      intro hv
      have hih := ih (by omega)
      have hfine : Fine c (lifeAt c s sched v) := by unfold Fine; rw [hih.1]; exact hf
      have := coarse_step (h.at hint v) (hbefore v (by omega)) hfine (hint v) (hbefore (v + 1) hv)
      exact ⟨this.2.1.trans hih.1, this.2.2.trans hih.2⟩
  cases u with
  | zero => exact absurd hp hu
  | succ u =>
    have hs := hsame u (by omega)
    have := leave_step (h.at hint u) (hbefore u (by omega)) (hint u) hu
    refine ⟨u + 1, this.1, ?_⟩
    rw [show lifeAt c s sched (u + 1) = lifeStep c (lifeAt c s sched u) (sched u) from rfl, this.2.1, this.2.2.2.1, hs.1, hs.2]

/-! ### The constructor -/

theorem leads {c : LifeSetup V} {s : Life V} {sched : Nat → LAct V} {P Q : Life V → Prop} (a : LAct V) (hf : ∀ t, ∃ u, t ≤ u ∧ sched u = a)
    (hstay : ∀ t, P (lifeAt c s sched t) → P (lifeAt c s sched (t + 1)) ∨ Q (lifeAt c s sched (t + 1)))
    (hgo : ∀ t, P (lifeAt c s sched t) → sched t = a → Q (lifeAt c s sched (t + 1))) {t : Nat} (ht : P (lifeAt c s sched t)) :
    ∃ u, t ≤ u ∧ Q (lifeAt c s sched u) := by
  obtain ⟨u, hu, hw, hmin⟩ := first_from (hf t)
  by_contra hno
  push Not at hno
  have hP : ∀ k, P (lifeAt c s sched (t + k)) := by
    intro k
    induction k with
    | zero => exact ht
    | succ k ih =>
      rcases hstay _ ih with h | h
      · exact h
      · exact absurd h (hno _ (by omega))
  have h1 := hP (u - t)
  rw [show t + (u - t) = u by omega] at h1
  exact hno (u + 1) (by omega) (hgo u h1 hw)

/-- During the constructor: other steps change neither the phase nor worker `j`. -/
theorem build_other {c : LifeSetup V} {s : Life V} {a : LAct V} (hb : s.phase ≠ .free) (hm : a ≠ .main) (ha : LAct.isInterrupt a = false) :
    (lifeStep c s a).phase = s.phase ∧ ∀ j, (a ≠ .worker j → (lifeStep c s a).pos j = s.pos j) ∧
      (a ≠ .worker j → a ≠ .deliverM j → a ≠ .deliverW j → (lifeStep c s a).d.workers j = s.d.workers j) := by
  unfold lifeStep
  cases he : lifeExec c s a with
  | none => exact ⟨rfl, fun j => ⟨fun _ => rfl, fun _ _ _ => rfl⟩⟩
  | some s' =>
    simp only [Option.getD_some]
    cases a with
    | main => exact absurd rfl hm
    | interrupt => cases ha
    | call b => cases b <;> simp [lifeExec, lifeCall, hb] at he
    | deliverM k =>
      simp only [lifeExec, Option.map_eq_some_iff] at he
      obtain ⟨d, hd, rfl⟩ := he
      refine ⟨rfl, fun j => ⟨fun _ => rfl, fun _ h2 _ => ?_⟩⟩
      have hij : j ≠ k := fun h => h2 (by rw [h])
      simp only [exec] at hd; split at hd <;> [skip; cases hd]; split at hd <;> cases hd
      simp [DState.setWorker, Function.update_of_ne hij]
    | deliverW k =>
      simp only [lifeExec, Option.map_eq_some_iff] at he
      obtain ⟨d, hd, rfl⟩ := he
      refine ⟨rfl, fun j => ⟨fun _ => rfl, fun _ _ h2 => ?_⟩⟩
      have hij : j ≠ k := fun h => h2 (by rw [h])
      simp only [exec] at hd; split at hd <;> [skip; cases hd]; split at hd <;> cases hd
      simp [DState.setWorker, Function.update_of_ne hij]
    | worker k =>
      simp only [lifeExec] at he
      split at he
      · simp only [Option.map_eq_some_iff] at he
        obtain ⟨⟨p, w, l⟩, hx, rfl⟩ := he
        refine ⟨rfl, fun j => ⟨fun h2 => ?_, fun h2 _ _ => ?_⟩⟩
        · have hij : j ≠ k := fun h => h2 (by rw [h])
          simp [Function.update_of_ne hij]
        · have hij : j ≠ k := fun h => h2 (by rw [h])
          simp [Function.update_of_ne hij]
      · cases he

theorem build_late {c : LifeSetup V} {s : Life V} (h : Clean c s) {sched : Nat → LAct V} (hfair : LFair c.W sched) (hint : ∀ t, LAct.isInterrupt (sched t) = false)
    {t j : Nat} (hj : j < c.W)
    (ht : (lifeAt c s sched t).phase = .await j ∧ ((lifeAt c s sched t).pos j = .head ∨ (lifeAt c s sched t).pos j = .wait)) :
    ∃ u, t ≤ u ∧ (lifeAt c s sched u).phase = .spawn (j + 1) := by
  have hsucc : ∀ t, lifeAt c s sched (t + 1) = lifeStep c (lifeAt c s sched t) (sched t) := fun _ => rfl
  have hcl := fun t => h.at hint t
  -- a step of the main process while the confirmation is not there
  have hmain : ∀ t, (lifeAt c s sched t).phase = .await j → ((lifeAt c s sched t).d.workers j).pipe = [] → sched t = .main →
      lifeAt c s sched (t + 1) = lifeAt c s sched t := by
    intro t hp hpi hm
    rw [hsucc, hm]
    simp [lifeStep, lifeExec, lifeMain, hp, hpi]
  have hgreet : ∀ t, (lifeAt c s sched t).phase = .await j → Greeting c ((lifeAt c s sched t).pos j) ((lifeAt c s sched t).d.workers j) := by
    intro t hp
    have := (hcl t).r.phase
    unfold PhaseInv at this
    rw [hp] at this
    exact this.2.1
  have hbeg : ∀ t, (lifeAt c s sched t).phase = .await j → ((lifeAt c s sched t).pos j = .begin ∨ (lifeAt c s sched t).pos j = .confirm) →
      ((lifeAt c s sched t).d.workers j).pipe = [] := by
    intro t hp hpos
    rcases hgreet t hp with ⟨hq, _⟩ | ⟨g, _⟩
    · exact hq.2.2.2
    · rcases hpos with h | h <;> (rw [h] at g; rcases g with g | g <;> cases g)
  -- after it: the worker waits
  have hlate : ∀ t, ((lifeAt c s sched t).phase = .await j ∧ ((lifeAt c s sched t).pos j = .head ∨ (lifeAt c s sched t).pos j = .wait)) →
      ((lifeAt c s sched (t + 1)).phase = .await j ∧ ((lifeAt c s sched (t + 1)).pos j = .head ∨ (lifeAt c s sched (t + 1)).pos j = .wait)) ∨
      (lifeAt c s sched (t + 1)).phase = .spawn (j + 1) := by
    intro t hP
    have hk := ((hcl t).r.inv.building ⟨j, .inr hP.1⟩).1
    have htr := (hcl t).r.inv.still ⟨j, .inr hP.1⟩ j
    by_cases hm : sched t = .main
    · cases hpi : ((lifeAt c s sched t).d.workers j).pipe with
      | nil => rw [hmain t hP.1 hpi hm]; exact .inl hP
      | cons v rest => right; rw [hsucc, hm]; simp [lifeStep, lifeExec, lifeMain, hP.1, hpi]
    · left
      have hb := build_other (c := c) (by rw [hP.1]; simp) hm (hint t)
      rw [hsucc]
      refine ⟨hb.1.trans hP.1, ?_⟩
      by_cases hw : sched t = .worker j
      · rw [hw]
        rcases hP.2 with h | h <;> simp [lifeStep, lifeExec, hj, h, lifeWorker, hk, htr]
      · rw [(hb.2 j).1 hw]; exact hP.2
  have hkeepPipe : ∀ t, ((lifeAt c s sched t).phase = .await j ∧ ((lifeAt c s sched t).pos j = .head ∨ (lifeAt c s sched t).pos j = .wait)) → sched t = .deliverW j →
      ((lifeAt c s sched (t + 1)).phase = .await j ∧ ((lifeAt c s sched (t + 1)).pos j = .head ∨ (lifeAt c s sched (t + 1)).pos j = .wait) ∧
        ((lifeAt c s sched (t + 1)).d.workers j).pipe ≠ []) := by
    intro t hP hw
    rcases hgreet t hP.1 with ⟨_, g⟩ | ⟨g1, g2, g3, g4, g5⟩
    · rcases hP.2 with h | h <;> (rw [h] at g; rcases g with g | g <;> cases g)
    · rw [hsucc, hw]
      cases hs : ((lifeAt c s sched t).d.workers j).sentW with
      | nil =>
        rw [hs] at g5
        simp only [lifeStep, lifeExec, exec, hs]
        simp only [LifeSetup.setup, hj, if_true, Option.map_none, Option.getD_none]
        refine ⟨hP.1, hP.2, ?_⟩
        rw [List.nil_append] at g5
        rw [g5]; simp
      | cons v rest =>
        simp only [lifeStep, lifeExec, exec, hs]
        simp only [LifeSetup.setup, hj, if_true, Option.map_some, Option.getD_some]
        exact ⟨hP.1, hP.2, by simp [DState.setWorker]⟩
  by_contra hno
  push Not at hno
  obtain ⟨t4, ht4, h4⟩ := leads (c := c) (s := s) (sched := sched) (P := fun x => x.phase = .await j ∧ (x.pos j = .head ∨ x.pos j = .wait))
    (Q := fun x => (x.phase = .await j ∧ (x.pos j = .head ∨ x.pos j = .wait) ∧ (x.d.workers j).pipe ≠ []) ∨ x.phase = .spawn (j + 1)) (.deliverW j)
    (fun t => (hfair.2 t j hj).2.2)
    (fun t hP => by
      rcases hlate t hP with h | h
      · exact .inl h
      · exact .inr (.inr h))
    (fun t hP hw => .inl (hkeepPipe t hP hw)) ht
  rcases h4 with h4 | h4
  swap
  · exact hno t4 (by omega) h4
  obtain ⟨t5, ht5, h5⟩ := leads (c := c) (s := s) (sched := sched) (P := fun x => x.phase = .await j ∧ (x.pos j = .head ∨ x.pos j = .wait) ∧ (x.d.workers j).pipe ≠ [])
    (Q := fun x => x.phase = .spawn (j + 1)) .main hfair.1
    (fun t hP => by
      rcases hlate t ⟨hP.1, hP.2.1⟩ with h | h
      · left
        refine ⟨h.1, h.2, ?_⟩
        by_cases hm : sched t = .main
        · exfalso
          have h1 := h.1
          rw [hsucc, hm] at h1
          cases hpi : ((lifeAt c s sched t).d.workers j).pipe with
          | nil => exact hP.2.2 hpi
          | cons v rest => simp [lifeStep, lifeExec, lifeMain, hP.1, hpi] at h1
        · have hg := hgreet (t + 1) h.1
          have hb := build_other (c := c) (by rw [hP.1]; simp) hm (hint t)
          have hk := ((hcl t).r.inv.building ⟨j, .inr hP.1⟩).1
          have htr := (hcl t).r.inv.still ⟨j, .inr hP.1⟩ j
          rcases hgreet t hP.1 with ⟨_, g⟩ | ⟨g1, g2, g3, g4, g5⟩
          · rcases hP.2.1 with h | h <;> (rw [h] at g; rcases g with g | g <;> cases g)
          · have g6 : ((lifeAt c s sched t).d.workers j).sentW = [] := by
              cases hs : ((lifeAt c s sched t).d.workers j).sentW with
              | nil => rfl
              | cons v rest =>
                rw [hs] at g5
                simp only [List.cons_append, List.cons.injEq, List.append_eq_nil_iff] at g5
                exact absurd g5.2.2 hP.2.2
            have hsame : ((lifeAt c s sched (t + 1)).d.workers j) = ((lifeAt c s sched t).d.workers j) := by
              rw [hsucc]
              by_cases hw1 : sched t = .worker j
              · rw [hw1]
                rcases hP.2.1 with h | h <;> simp [lifeStep, lifeExec, hj, h, lifeWorker, hk, htr]
              · by_cases hw2 : sched t = .deliverM j
                · rw [hw2]; simp [lifeStep, lifeExec, exec, g4]
                · by_cases hw3 : sched t = .deliverW j
                  · rw [hw3]; simp [lifeStep, lifeExec, exec, g6]
                  · exact (hb.2 j).2 hw1 hw2 hw3
            rw [hsame]; exact hP.2.2
      · exact .inr h)
    (fun t hP hm => by
      cases hpi : ((lifeAt c s sched t).d.workers j).pipe with
      | nil => exact absurd hpi hP.2.2
      | cons v rest => rw [hsucc, hm]; simp [lifeStep, lifeExec, lifeMain, hP.1, hpi]) h4
  exact hno t5 (by omega) h5

theorem build_confirm {c : LifeSetup V} {s : Life V} (h : Clean c s) {sched : Nat → LAct V} (hfair : LFair c.W sched) (hint : ∀ t, LAct.isInterrupt (sched t) = false)
    {t j : Nat} (hj : j < c.W)
    (ht : (lifeAt c s sched t).phase = .await j ∧ (lifeAt c s sched t).pos j = .confirm) : ∃ u, t ≤ u ∧ (lifeAt c s sched u).phase = .spawn (j + 1) := by
  have hsucc : ∀ t, lifeAt c s sched (t + 1) = lifeStep c (lifeAt c s sched t) (sched t) := fun _ => rfl
  have hcl := fun t => h.at hint t
  -- a step of the main process while the confirmation is not there
  have hmain : ∀ t, (lifeAt c s sched t).phase = .await j → ((lifeAt c s sched t).d.workers j).pipe = [] → sched t = .main →
      lifeAt c s sched (t + 1) = lifeAt c s sched t := by
    intro t hp hpi hm
    rw [hsucc, hm]
    simp [lifeStep, lifeExec, lifeMain, hp, hpi]
  have hgreet : ∀ t, (lifeAt c s sched t).phase = .await j → Greeting c ((lifeAt c s sched t).pos j) ((lifeAt c s sched t).d.workers j) := by
    intro t hp
    have := (hcl t).r.phase
    unfold PhaseInv at this
    rw [hp] at this
    exact this.2.1
  have hbeg : ∀ t, (lifeAt c s sched t).phase = .await j → ((lifeAt c s sched t).pos j = .begin ∨ (lifeAt c s sched t).pos j = .confirm) →
      ((lifeAt c s sched t).d.workers j).pipe = [] := by
    intro t hp hpos
    rcases hgreet t hp with ⟨hq, _⟩ | ⟨g, _⟩
    · exact hq.2.2.2
    · rcases hpos with h | h <;> (rw [h] at g; rcases g with g | g <;> cases g)
  -- its message
  obtain ⟨t3, ht3, h3⟩ := leads (c := c) (s := s) (sched := sched) (P := fun x => x.phase = .await j ∧ x.pos j = .confirm)
    (Q := fun x => x.phase = .await j ∧ (x.pos j = .head ∨ x.pos j = .wait)) (.worker j) (fun t => (hfair.2 t j hj).1)
    (fun t hP => by
      by_cases hw : sched t = .worker j
      · right
        rw [hsucc, hw]
        simp [lifeStep, lifeExec, hj, hP.1, hP.2, lifeWorker]
      · left
        by_cases hm : sched t = .main
        · rw [hmain t hP.1 (hbeg t hP.1 (.inr hP.2)) hm]; exact hP
        · have hb := build_other (c := c) (by rw [hP.1]; simp) hm (hint t)
          rw [hsucc]
          exact ⟨hb.1.trans hP.1, ((hb.2 j).1 hw).trans hP.2⟩)
    (fun t hP hw => by
      rw [hsucc, hw]
      simp [lifeStep, lifeExec, hj, hP.1, hP.2, lifeWorker]) ht
  obtain ⟨u, hu, h4⟩ := build_late h hfair hint hj h3
  exact ⟨u, by omega, h4⟩

theorem build_begin {c : LifeSetup V} {s : Life V} (h : Clean c s) {sched : Nat → LAct V} (hfair : LFair c.W sched) (hint : ∀ t, LAct.isInterrupt (sched t) = false)
    {t j : Nat} (hj : j < c.W)
    (ht : (lifeAt c s sched t).phase = .await j ∧ (lifeAt c s sched t).pos j = .begin) : ∃ u, t ≤ u ∧ (lifeAt c s sched u).phase = .spawn (j + 1) := by
  have hsucc : ∀ t, lifeAt c s sched (t + 1) = lifeStep c (lifeAt c s sched t) (sched t) := fun _ => rfl
  have hcl := fun t => h.at hint t
  -- a step of the main process while the confirmation is not there
  have hmain : ∀ t, (lifeAt c s sched t).phase = .await j → ((lifeAt c s sched t).d.workers j).pipe = [] → sched t = .main →
      lifeAt c s sched (t + 1) = lifeAt c s sched t := by
    intro t hp hpi hm
    rw [hsucc, hm]
    simp [lifeStep, lifeExec, lifeMain, hp, hpi]
  have hgreet : ∀ t, (lifeAt c s sched t).phase = .await j → Greeting c ((lifeAt c s sched t).pos j) ((lifeAt c s sched t).d.workers j) := by
    intro t hp
    have := (hcl t).r.phase
    unfold PhaseInv at this
    rw [hp] at this
    exact this.2.1
  have hbeg : ∀ t, (lifeAt c s sched t).phase = .await j → ((lifeAt c s sched t).pos j = .begin ∨ (lifeAt c s sched t).pos j = .confirm) →
      ((lifeAt c s sched t).d.workers j).pipe = [] := by
    intro t hp hpos
    rcases hgreet t hp with ⟨hq, _⟩ | ⟨g, _⟩
    · exact hq.2.2.2
    · rcases hpos with h | h <;> (rw [h] at g; rcases g with g | g <;> cases g)
  -- its first check
  obtain ⟨t2, ht2, h2⟩ := leads (c := c) (s := s) (sched := sched) (P := fun x => x.phase = .await j ∧ x.pos j = .begin)
    (Q := fun x => x.phase = .await j ∧ x.pos j = .confirm) (.worker j) (fun t => (hfair.2 t j hj).1)
    (fun t hP => by
      by_cases hw : sched t = .worker j
      · right
        have hk := ((hcl t).r.inv.building ⟨j, .inr hP.1⟩).1
        rw [hsucc, hw]
        simp [lifeStep, lifeExec, hj, hP.1, hP.2, lifeWorker, hk]
      · left
        by_cases hm : sched t = .main
        · rw [hmain t hP.1 (hbeg t hP.1 (.inl hP.2)) hm]; exact hP
        · have hb := build_other (c := c) (by rw [hP.1]; simp) hm (hint t)
          rw [hsucc]
          exact ⟨hb.1.trans hP.1, ((hb.2 j).1 hw).trans hP.2⟩)
    (fun t hP hw => by
      have hk := ((hcl t).r.inv.building ⟨j, .inr hP.1⟩).1
      rw [hsucc, hw]
      simp [lifeStep, lifeExec, hj, hP.1, hP.2, lifeWorker, hk]) ht
  obtain ⟨u, hu, h4⟩ := build_confirm h hfair hint hj h2
  exact ⟨u, by omega, h4⟩

theorem build_await {c : LifeSetup V} {s : Life V} (h : Clean c s) {sched : Nat → LAct V} (hfair : LFair c.W sched) (hint : ∀ t, LAct.isInterrupt (sched t) = false)
    {t j : Nat} (hj : j < c.W)
    (ht : (lifeAt c s sched t).phase = .await j) : ∃ u, t ≤ u ∧ (lifeAt c s sched u).phase = .spawn (j + 1) := by
  have := (h.at hint t).r.phase
  unfold PhaseInv at this
  rw [ht] at this
  rcases this.2.1 with ⟨_, g | g⟩ | ⟨g, _⟩
  · exact build_begin h hfair hint hj ⟨ht, g⟩
  · exact build_confirm h hfair hint hj ⟨ht, g⟩
  · exact build_late h hfair hint hj ⟨ht, g⟩

theorem build_one {c : LifeSetup V} {s : Life V} (h : Clean c s) {sched : Nat → LAct V} (hfair : LFair c.W sched) (hint : ∀ t, LAct.isInterrupt (sched t) = false)
    {t j : Nat} (hj : j < c.W)
    (ht : (lifeAt c s sched t).phase = .spawn j) : ∃ u, t ≤ u ∧ (lifeAt c s sched u).phase = .spawn (j + 1) := by
  have hsucc : ∀ t, lifeAt c s sched (t + 1) = lifeStep c (lifeAt c s sched t) (sched t) := fun _ => rfl
  have hcl := fun t => h.at hint t
  -- start of the process
  obtain ⟨t1, ht1, h1⟩ := leads (c := c) (s := s) (sched := sched) (P := fun x => x.phase = .spawn j) (Q := fun x => x.phase = .await j ∧ x.pos j = .begin) .main hfair.1
    (fun t hP => by
      by_cases hm : sched t = .main
      · right
        rw [hsucc, hm]
        simp [lifeStep, lifeExec, lifeMain, hP, hj]
      · left
        rw [hsucc]
        exact (build_other (by rw [hP]; simp) hm (hint t)).1.trans hP)
    (fun t hP hm => by
      rw [hsucc, hm]
      simp [lifeStep, lifeExec, lifeMain, hP, hj]) ht
  obtain ⟨u, hu, h4⟩ := build_await h hfair hint hj h1.1
  exact ⟨u, by omega, h4⟩

theorem constructor_returns {c : LifeSetup V} {s : Life V} (h : Clean c s) {j : Nat} (hs : s.phase = .spawn j ∨ s.phase = .await j) {sched : Nat → LAct V}
    (hfair : LFair c.W sched) (hint : ∀ t, LAct.isInterrupt (sched t) = false) :
    ∃ t, (lifeAt c s sched t).phase = .free ∧ (lifeAt c s sched t).initialized = true := by
  have hspawn : ∀ d t j, c.W - j = d → (lifeAt c s sched t).phase = .spawn j → ∃ u k, c.W ≤ k ∧ (lifeAt c s sched u).phase = .spawn k := by
    intro d
    induction d with
    | zero => intro t j hd ht; exact ⟨t, j, by omega, ht⟩
    | succ d ih =>
      intro t j hd ht
      obtain ⟨u, _, hu⟩ := build_one h hfair hint (show j < c.W by omega) ht
      exact ih u (j + 1) (by omega) hu
  have hall : ∃ u k, c.W ≤ k ∧ (lifeAt c s sched u).phase = .spawn k := by
    rcases hs with hs | hs
    · exact hspawn _ 0 j rfl hs
    · obtain ⟨u, _, hu⟩ := build_await h hfair hint (h.r.inv.awaitW j hs) (t := 0) hs
      exact hspawn _ u (j + 1) rfl hu
  obtain ⟨t, k, hk, ht⟩ := hall
  obtain ⟨u, _, hu⟩ := leads (c := c) (s := s) (sched := sched) (P := fun x => x.phase = .spawn k) (Q := fun x => x.phase = .free ∧ x.initialized = true) .main hfair.1
    (fun t hP => by
      by_cases hm : sched t = .main
      · right
        rw [show lifeAt c s sched (t + 1) = lifeStep c (lifeAt c s sched t) (sched t) from rfl, hm]
        simp [lifeStep, lifeExec, lifeMain, hP, Nat.not_lt.2 hk]
      · left
        rw [show lifeAt c s sched (t + 1) = lifeStep c (lifeAt c s sched t) (sched t) from rfl]
        exact (build_other (by rw [hP]; simp) hm (hint t)).1.trans hP)
    (fun t hP hm => by
      rw [show lifeAt c s sched (t + 1) = lifeStep c (lifeAt c s sched t) (sched t) from rfl, hm]
      simp [lifeStep, lifeExec, lifeMain, hP, Nat.not_lt.2 hk]) ht
  exact ⟨u, hu⟩

/-! ### `close` -/

theorem closing_one {c : LifeSetup V} {s : Life V} {sched : Nat → LAct V} (hmainf : ∀ t, ∃ u, t ≤ u ∧ sched u = .main) (hint : ∀ t, LAct.isInterrupt (sched t) = false)
    {p : Phase} {Q : Life V → Prop} (hp : p ≠ .free) (hQ : ∀ x : Life V, x.phase = p → (x.keep = false ∧ x.initialized = true) → Q (lifeStep c x .main))
    {t : Nat} (ht : (lifeAt c s sched t).phase = p) (hinv : ∀ t, LInv c (lifeAt c s sched t)) (hc : ∃ j, p = .closeSet j ∨ p = .closeJoin j) :
    ∃ u, t ≤ u ∧ Q (lifeAt c s sched u) := by
  have hkeep : ∀ t, (lifeAt c s sched t).phase = p → (lifeAt c s sched t).keep = false ∧ (lifeAt c s sched t).initialized = true := by
    intro t hph
    obtain ⟨j, hj⟩ := hc
    exact (hinv t).closePhase ⟨j, by rw [hph]; exact hj⟩
  refine leads (c := c) (s := s) (sched := sched) (P := fun x => x.phase = p) (Q := Q) .main hmainf (fun t hP => ?_) (fun t hP hm => ?_) ht
  · by_cases hm : sched t = .main
    · right
      rw [show lifeAt c s sched (t + 1) = lifeStep c (lifeAt c s sched t) (sched t) from rfl, hm]
      exact hQ _ hP (hkeep t hP)
    · left
      rw [show lifeAt c s sched (t + 1) = lifeStep c (lifeAt c s sched t) (sched t) from rfl]
      exact (build_other (by rw [hP]; exact hp) hm (hint t)).1.trans hP
  · rw [show lifeAt c s sched (t + 1) = lifeStep c (lifeAt c s sched t) (sched t) from rfl, hm]
    exact hQ _ hP (hkeep t hP)

theorem close_returns {c : LifeSetup V} {s : Life V} (h : LInv c s) {j : Nat} (hs : s.phase = .closeSet j ∨ s.phase = .closeJoin j) {sched : Nat → LAct V}
    (hmainf : ∀ t, ∃ u, t ≤ u ∧ sched u = .main) (hint : ∀ t, LAct.isInterrupt (sched t) = false) : ∃ t, Closed (lifeAt c s sched t) := by
  have hinv := fun t => lifeAt_inv h sched t
  have h2 : ∀ d t j, c.W - j = d → (lifeAt c s sched t).phase = .closeJoin j → ∃ u, Closed (lifeAt c s sched u) := by
    intro d
    induction d with
    | zero =>
      intro t j hd ht
      obtain ⟨u, _, hu⟩ := closing_one (c := c) (s := s) (p := .closeJoin j) (Q := Closed) hmainf hint (by simp)
        (fun x hx hk => by simp [lifeStep, lifeExec, lifeMain, hx, Closed, hk.1, show ¬ j < c.W by omega]) ht hinv ⟨j, .inr rfl⟩
      exact ⟨u, hu⟩
    | succ d ih =>
      intro t j hd ht
      obtain ⟨u, _, hu⟩ := closing_one (c := c) (s := s) (p := .closeJoin j) (Q := fun x => x.phase = .closeJoin (j + 1)) hmainf hint (by simp)
        (fun x hx _ => by simp [lifeStep, lifeExec, lifeMain, hx, show j < c.W by omega]) ht hinv ⟨j, .inr rfl⟩
      exact ih u (j + 1) (by omega) hu
  have h1 : ∀ d t j, c.W - j = d → (lifeAt c s sched t).phase = .closeSet j → ∃ u, Closed (lifeAt c s sched u) := by
    intro d
    induction d with
    | zero =>
      intro t j hd ht
      obtain ⟨u, _, hu⟩ := closing_one (c := c) (s := s) (p := .closeSet j) (Q := fun x => x.phase = .closeJoin 0) hmainf hint (by simp)
        (fun x hx hk => by simp [lifeStep, lifeExec, lifeMain, hx, show ¬ j < c.W by omega]) ht hinv ⟨j, .inl rfl⟩
      exact h2 _ u 0 rfl hu
    | succ d ih =>
      intro t j hd ht
      obtain ⟨u, _, hu⟩ := closing_one (c := c) (s := s) (p := .closeSet j) (Q := fun x => x.phase = .closeSet (j + 1)) hmainf hint (by simp)
        (fun x hx _ => by simp [lifeStep, lifeExec, lifeMain, hx, show j < c.W by omega]) ht hinv ⟨j, .inl rfl⟩
      exact ih u (j + 1) (by omega) hu
  rcases hs with hs | hs
  · exact h1 _ 0 j rfl hs
  · exact h2 _ 0 j rfl hs

end Verif.Proofs.Lifecycle
