import Verif.Proofs.Dispenser

/-! Termination of the parallel calculation under fair schedules. -/

namespace Verif.Proofs.Dispenser

open Verif.Model.Dispenser

variable {V : Type}

def wpcM (trigger : Bool) : WPc V → Nat
  | .idle => if trigger then 10 else 0
  | .reading => 9
  | .computing _ => 8
  | .storing _ => 7
  | .clearing => 4
  | .dead => 0

def wM (w : WState V) : Nat := 2 * w.sentM.length + w.pipe.length + 2 * w.sentW.length + wpcM w.trigger w.pc

def mM : MPc → Nat
  | .initPut _ => 4
  | .initSet _ => 15
  | .poll _ => 3
  | .get _ => 2
  | .put _ => 17
  | .set _ => 14
  | .done => 0
  | .indexError => 0

def iM (s : DState V) (i : Nat) : Nat := wM (s.workers i) + if s.assigned i then 5 else 0

def measure (c : Setup V) (s : DState V) : Nat := mM s.pc + 30 * s.todo.length + ∑ i ∈ Finset.range c.W, iM s i

theorem wM_trigger (w : WState V) : wM { w with trigger := true } ≤ wM w + 10 := by
  obtain ⟨pc, t, a, b, d⟩ := w
  cases pc <;> cases t <;> simp [wM, wpcM]

theorem wM_workerStep {f : V → Option V} {w w' : WState V} {l : List V} (h : workerStep f w = some (w', l)) : wM w' < wM w := by
  obtain ⟨pc, t, a, b, d⟩ := w
  cases pc with
  | dead => simp [workerStep] at h
  | idle =>
    cases t with
    | false => simp [workerStep] at h
    | true =>
      simp only [workerStep, if_true, Option.some.injEq, Prod.mk.injEq] at h
      obtain ⟨rfl, rfl⟩ := h
      simp [wM, wpcM]
  | reading =>
    cases d with
    | nil => simp [workerStep] at h
    | cons p rest =>
      simp only [workerStep, Option.some.injEq, Prod.mk.injEq] at h
      obtain ⟨rfl, rfl⟩ := h
      simp [wM, wpcM]
      omega
  | computing v =>
    cases hf : f v with
    | none =>
      simp only [workerStep, hf, Option.some.injEq, Prod.mk.injEq] at h
      obtain ⟨rfl, rfl⟩ := h
      simp [wM, wpcM]
    | some r =>
      simp only [workerStep, hf, Option.some.injEq, Prod.mk.injEq] at h
      obtain ⟨rfl, rfl⟩ := h
      simp [wM, wpcM]
  | storing r =>
    simp only [workerStep, Option.some.injEq, Prod.mk.injEq] at h
    obtain ⟨rfl, rfl⟩ := h
    simp [wM, wpcM]
    omega
  | clearing =>
    simp only [workerStep, Option.some.injEq, Prod.mk.injEq] at h
    obtain ⟨rfl, rfl⟩ := h
    simp [wM, wpcM]

/-- A check of a worker that is not ready, or the beginning of the next round of checks. -/
def Spin (c : Setup V) (s s' : DState V) : Prop :=
  ∃ i, s.pc = .poll i ∧
    ((i < c.W ∧ (s.assigned i && !(s.workers i).trigger) = false ∧ s' = { s with pc := .poll (i + 1) }) ∨
      (¬ i < c.W ∧ s.computed < s.results.length ∧ s' = { s with pc := .poll 0 }))

theorem exec_measure {c : Setup V} {s s' : DState V} {st : Nat → Status V} {a : Nat} (h : Inv c s st a) {act : Act}
    (he : exec c s act = some s') : measure c s' < measure c s ∨ (act = .manager ∧ Spin c s s') := by
  cases act with
  | manager =>
    simp only [exec] at he
    have hpcOk := h.pcOk
    cases hpc : s.pc with
    | initPut k =>
      rw [hpc] at hpcOk
      obtain ⟨rfl, _, _⟩ := hpcOk
      by_cases hk : a < c.W
      · cases hp : c.params[a]? with
        | none =>
          simp only [managerStep, hpc, if_pos hk, hp, Option.some.injEq] at he; subst he; left
          show 0 + 30 * s.todo.length + ∑ i ∈ Finset.range c.W, iM s i < _
          simp only [measure, hpc, mM]; omega
        | some p =>
          simp only [managerStep, hpc, if_pos hk, hp, Option.some.injEq] at he; left
          have hlt : a < c.params.length := by
            by_contra hn
            rw [List.getElem?_eq_none (by omega)] at hp; cases hp
          have htodo : s.todo.length = (s.todo.erase a).length + 1 := by
            rw [h.todo, range'_cons hlt]; simp
          have hsum := sum_change c.W a hk (iM s) (iM s') (by
            intro j hj; subst he; simp only [iM, Function.update_of_ne hj])
          have hi : iM s' a ≤ iM s a + 7 := by
            subst he
            simp only [iM, Function.update_self, wM, List.length_append, List.length_singleton, if_true]
            omega
          have h2 : s'.todo = s.todo.erase a := by subst he; rfl
          have h3 : s'.pc = .initSet a := by subst he; rfl
          simp only [measure, hpc, h2, h3, mM]
          omega
      · simp only [managerStep, hpc, if_neg hk, Option.some.injEq] at he; subst he; left
        show 3 + 30 * s.todo.length + ∑ i ∈ Finset.range c.W, iM s i < _
        simp only [measure, hpc, mM]; omega
    | initSet k =>
      rw [hpc] at hpcOk
      obtain ⟨_, hk, _⟩ := hpcOk
      simp only [managerStep, hpc, Option.some.injEq] at he; left
      have hsum := sum_change c.W k hk (iM s) (iM s') (by
        intro j hj; subst he; simp only [iM, Function.update_of_ne hj])
      have hi : iM s' k ≤ iM s k + 10 := by
        subst he
        have := wM_trigger (s.workers k)
        simp only [iM, Function.update_self]
        omega
      have h2 : s'.todo = s.todo := by subst he; rfl
      have h3 : s'.pc = .initPut (k + 1) := by subst he; rfl
      simp only [measure, hpc, h2, h3, mM]
      omega
    | poll k =>
      by_cases hk : k < c.W
      · by_cases hb : (s.assigned k && !(s.workers k).trigger) = true
        · simp only [managerStep, hpc, if_pos hk, hb, if_true, Option.some.injEq] at he; subst he; left
          show 2 + 30 * s.todo.length + ∑ i ∈ Finset.range c.W, iM s i < _
          simp only [measure, hpc, mM]; omega
        · simp only [managerStep, hpc, if_pos hk, if_neg hb, Option.some.injEq] at he
          right
          exact ⟨rfl, k, hpc, Or.inl ⟨hk, by simpa using hb, he.symm⟩⟩
      · by_cases hc : s.computed < s.results.length
        · simp only [managerStep, hpc, if_neg hk, if_pos hc, Option.some.injEq] at he
          right
          exact ⟨rfl, k, hpc, Or.inr ⟨hk, hc, he.symm⟩⟩
        · simp only [managerStep, hpc, if_neg hk, if_neg hc, Option.some.injEq] at he; subst he; left
          show 0 + 30 * s.todo.length + ∑ i ∈ Finset.range c.W, iM s i < _
          simp only [measure, hpc, mM]; omega
    | get k =>
      rw [hpc] at hpcOk
      obtain ⟨p, r, hpr⟩ := hpcOk
      have hk := (h.par k p (by rw [hpr]; rfl)).1
      have hasg := (h.asg k).2 (by rw [hpr]; simp)
      left
      cases hp : (s.workers k).pipe with
      | nil => simp [managerStep, hpc, hp] at he
      | cons v rest =>
        cases ht : s.todo with
        | nil =>
          simp only [managerStep, hpc, hp, ht, Option.some.injEq] at he
          have hsum := sum_change c.W k hk (iM s) (iM s') (by
            intro j hj; subst he; simp only [iM, Function.update_of_ne hj])
          have hi : iM s' k + 6 ≤ iM s k := by
            subst he
            simp only [iM, Function.update_self, wM, hp, hasg, if_true, List.length_cons]
            simp
            omega
          have h2 : s'.todo = s.todo := by subst he; exact ht.symm
          have h3 : s'.pc = .poll (k + 1) := by subst he; rfl
          simp only [measure, hpc, h2, h3, mM]
          omega
        | cons u us =>
          simp only [managerStep, hpc, hp, ht, Option.some.injEq] at he
          have hsum := sum_change c.W k hk (iM s) (iM s') (by
            intro j hj; subst he; simp only [iM, Function.update_of_ne hj])
          have hi : iM s' k ≤ iM s k := by
            subst he
            simp only [iM, Function.update_self, wM, hp, List.length_cons]
            omega
          have h2 : s'.todo = us := by subst he; rfl
          have h3 : s'.pc = .put k := by subst he; rfl
          simp only [measure, hpc, h2, h3, mM, ht, List.length_cons]
          omega
    | put k =>
      rw [hpc] at hpcOk
      obtain ⟨p, hpr⟩ := hpcOk
      obtain ⟨hk, _, hip, _⟩ := h.par k p (by rw [hpr]; rfl)
      left
      simp only [managerStep, hpc, hip, Option.some.injEq] at he
      have hsum := sum_change c.W k hk (iM s) (iM s') (by
        intro j hj; subst he; simp only [iM, Function.update_of_ne hj])
      have hi : iM s' k ≤ iM s k + 2 := by
        subst he
        simp only [iM, Function.update_self, wM, List.length_append, List.length_singleton]
        omega
      have h2 : s'.todo = s.todo := by subst he; rfl
      have h3 : s'.pc = .set k := by subst he; rfl
      simp only [measure, hpc, h2, h3, mM]
      omega
    | set k =>
      rw [hpc] at hpcOk
      obtain ⟨p, hpr⟩ := hpcOk
      obtain ⟨hk, _, hip, _⟩ := h.par k p (by rw [hpr]; rfl)
      left
      simp only [managerStep, hpc, Option.some.injEq] at he
      have hsum := sum_change c.W k hk (iM s) (iM s') (by
        intro j hj; subst he; simp only [iM, Function.update_of_ne hj])
      have hi : iM s' k ≤ iM s k + 10 := by
        subst he
        have := wM_trigger (s.workers k)
        simp only [iM, Function.update_self]
        omega
      have h2 : s'.todo = s.todo := by subst he; rfl
      have h3 : s'.pc = .poll (k + 1) := by subst he; rfl
      simp only [measure, hpc, h2, h3, mM]
      omega
    | done => simp only [managerStep, hpc] at he; cases he
    | indexError => simp only [managerStep, hpc] at he; cases he
  | worker j =>
    left
    simp only [exec] at he
    by_cases hj : j < c.W
    · rw [if_pos hj] at he
      simp only [Option.map_eq_some_iff] at he
      obtain ⟨⟨w, l⟩, hx, he⟩ := he
      have hsum := sum_change c.W j hj (iM s) (iM s') (by
        intro i hi; subst he; simp only [iM, Function.update_of_ne hi])
      have := wM_workerStep hx
      have hi : iM s' j < iM s j := by
        subst he
        simp only [iM, Function.update_self]
        omega
      have h2 : s'.todo = s.todo := by subst he; rfl
      have h3 : s'.pc = s.pc := by subst he; rfl
      simp only [measure, h2, h3]
      omega
    · rw [if_neg hj] at he; cases he
  | deliverM j =>
    left
    simp only [exec] at he
    by_cases hj : j < c.W
    · rw [if_pos hj] at he
      cases hs : (s.workers j).sentM with
      | nil => rw [hs] at he; cases he
      | cons v rest =>
        simp only [hs, Option.some.injEq, DState.setWorker] at he
        have hsum := sum_change c.W j hj (iM s) (iM s') (by
          intro i hi; subst he; simp only [iM, Function.update_of_ne hi])
        have hi : iM s' j < iM s j := by
          subst he
          simp only [iM, Function.update_self, wM, hs, List.length_append, List.length_cons, List.length_nil]
          omega
        have h2 : s'.todo = s.todo := by subst he; rfl
        have h3 : s'.pc = s.pc := by subst he; rfl
        simp only [measure, h2, h3]
        omega
    · rw [if_neg hj] at he; cases he
  | deliverW j =>
    left
    simp only [exec] at he
    by_cases hj : j < c.W
    · rw [if_pos hj] at he
      cases hs : (s.workers j).sentW with
      | nil => rw [hs] at he; cases he
      | cons v rest =>
        simp only [hs, Option.some.injEq, DState.setWorker] at he
        have hsum := sum_change c.W j hj (iM s) (iM s') (by
          intro i hi; subst he; simp only [iM, Function.update_of_ne hi])
        have hi : iM s' j < iM s j := by
          subst he
          simp only [iM, Function.update_self, wM, hs, List.length_append, List.length_cons, List.length_nil]
          omega
        have h2 : s'.todo = s.todo := by subst he; rfl
        have h3 : s'.pc = s.pc := by subst he; rfl
        simp only [measure, h2, h3]
        omega
    · rw [if_neg hj] at he; cases he

theorem exec_wpc {c : Setup V} {s s' : DState V} {act : Act} (he : exec c s act = some s') (i : Nat) :
    (s'.workers i).pc = (s.workers i).pc ∨
      ∃ w l, act = .worker i ∧ workerStep (c.f i) (s.workers i) = some (w, l) ∧ s'.workers i = w := by
  have key : ∀ (j : Nat) (w : WState V), w.pc = (s.workers j).pc → (Function.update s.workers j w i).pc = (s.workers i).pc := by
    intro j w hw
    by_cases hj : i = j
    · subst hj; rw [Function.update_self]; exact hw
    · rw [Function.update_of_ne hj]
  cases act with
  | manager =>
    left
    simp only [exec, managerStep] at he
    cases hpc : s.pc with
    | initPut k =>
      simp only [hpc] at he
      by_cases hk : k < c.W
      · rw [if_pos hk] at he
        cases hp : c.params[k]? with
        | none => simp only [hp, Option.some.injEq] at he; subst he; rfl
        | some p => simp only [hp, Option.some.injEq] at he; subst he; exact key _ _ rfl
      · rw [if_neg hk] at he; simp only [Option.some.injEq] at he; subst he; rfl
    | initSet k => simp only [hpc, Option.some.injEq] at he; subst he; exact key _ _ rfl
    | poll k =>
      simp only [hpc] at he
      split_ifs at he <;> (simp only [Option.some.injEq] at he; subst he; rfl)
    | get k =>
      simp only [hpc] at he
      cases hp : (s.workers k).pipe with
      | nil => simp only [hp] at he; cases he
      | cons v rest =>
        simp only [hp] at he
        cases ht : s.todo with
        | nil => simp only [ht, Option.some.injEq] at he; subst he; exact key _ _ rfl
        | cons u us => simp only [ht, Option.some.injEq] at he; subst he; exact key _ _ rfl
    | put k =>
      simp only [hpc] at he
      cases hp : c.params[s.index k]? with
      | none => simp only [hp, Option.some.injEq] at he; subst he; rfl
      | some p => simp only [hp, Option.some.injEq] at he; subst he; exact key _ _ rfl
    | set k => simp only [hpc, Option.some.injEq] at he; subst he; exact key _ _ rfl
    | done => simp only [hpc] at he; cases he
    | indexError => simp only [hpc] at he; cases he
  | worker j =>
    simp only [exec] at he
    by_cases hj : j < c.W
    · rw [if_pos hj] at he
      simp only [Option.map_eq_some_iff] at he
      obtain ⟨⟨w, l⟩, hx, rfl⟩ := he
      by_cases hij : i = j
      · subst hij
        right
        exact ⟨w, l, rfl, hx, by simp⟩
      · left; simp only [Function.update_of_ne hij]
    · rw [if_neg hj] at he; cases he
  | deliverM j =>
    left
    simp only [exec] at he
    by_cases hj : j < c.W
    · rw [if_pos hj] at he
      cases hs : (s.workers j).sentM with
      | nil => rw [hs] at he; cases he
      | cons v rest => simp only [hs, Option.some.injEq] at he; subst he; exact key _ _ rfl
    · rw [if_neg hj] at he; cases he
  | deliverW j =>
    left
    simp only [exec] at he
    by_cases hj : j < c.W
    · rw [if_pos hj] at he
      cases hs : (s.workers j).sentW with
      | nil => rw [hs] at he; cases he
      | cons v rest => simp only [hs, Option.some.injEq] at he; subst he; exact key _ _ rfl
    · rw [if_neg hj] at he; cases he

theorem workerStep_dead {f : V → Option V} {w w' : WState V} {l : List V} (h : workerStep f w = some (w', l)) (hd : w'.pc = .dead) :
    ∃ v, w.pc = .computing v ∧ f v = none := by
  obtain ⟨pc, t, a, b, d⟩ := w
  cases pc with
  | dead => simp [workerStep] at h
  | idle =>
    cases t <;> simp [workerStep] at h
    obtain ⟨rfl, rfl⟩ := h
    cases hd
  | reading =>
    cases d <;> simp [workerStep] at h
    obtain ⟨rfl, rfl⟩ := h
    cases hd
  | computing v =>
    cases hf : f v with
    | none => exact ⟨v, rfl, hf⟩
    | some r =>
      simp only [workerStep, hf, Option.some.injEq, Prod.mk.injEq] at h
      obtain ⟨rfl, rfl⟩ := h
      cases hd
  | storing r =>
    simp [workerStep] at h
    obtain ⟨rfl, rfl⟩ := h
    cases hd
  | clearing =>
    simp [workerStep] at h
    obtain ⟨rfl, rfl⟩ := h
    cases hd

theorem computing_status {f : V → Option V} {w : WState V} {x : Status V} {v : V} (h : WOk f w x) (hv : w.pc = .computing v) :
    x = .computing v := by
  cases x <;> simp_all [WOk, Quiet]

/-- Workers whose function never raises stay alive. -/
theorem alive_exec {c : Setup V} {s s' : DState V} (hg : Good c s) (hf : ∀ i, i < c.W → ∀ p ∈ c.params, c.f i p ≠ none)
    (ha : ∀ i, i < c.W → (s.workers i).pc ≠ .dead) {act : Act} (he : exec c s act = some s') :
    c.params.length < c.W ∨ ∀ i, i < c.W → (s'.workers i).pc ≠ .dead := by
  rcases hg with ⟨_, h⟩ | ⟨st, a, h⟩
  · exact Or.inl h
  · right
    intro i hi hd
    rcases exec_wpc he i with h1 | ⟨w, l, h1, h2, h3⟩
    · exact ha i hi (h1.symm.trans hd)
    · obtain ⟨v, hv, hn⟩ := workerStep_dead h2 (by rw [← h3]; exact hd)
      have hst := computing_status (h.ok i) hv
      obtain ⟨_, _, hp, _⟩ := h.par i v (by rw [hst]; rfl)
      exact hf i hi v (List.mem_of_getElem? hp) hn

/-- Every process and every transport takes a step again and again. -/
def FairSched (W : Nat) (sched : Nat → Act) : Prop :=
  ∀ t, (∃ u, t ≤ u ∧ sched u = .manager) ∧
    ∀ i, i < W → (∃ u, t ≤ u ∧ sched u = .worker i) ∧ (∃ u, t ≤ u ∧ sched u = .deliverM i) ∧ ∃ u, t ≤ u ∧ sched u = .deliverW i

theorem good_stateAt {c : Setup V} {s : DState V} (h : Good c s) (sched : Nat → Act) (t : Nat) : Good c (stateAt c s sched t) := by
  induction t with
  | zero => exact h
  | succ t ih => exact good_step ih _

theorem alive_stateAt {c : Setup V} {s : DState V} (h : Good c s) (hWN : c.W ≤ c.params.length)
    (hf : ∀ i, i < c.W → ∀ p ∈ c.params, c.f i p ≠ none)
    (ha : ∀ i, i < c.W → (s.workers i).pc ≠ .dead) (sched : Nat → Act) (t : Nat) :
    ∀ i, i < c.W → ((stateAt c s sched t).workers i).pc ≠ .dead := by
  induction t with
  | zero => exact ha
  | succ t ih =>
    show ∀ i, i < c.W → ((step c (stateAt c s sched t) (sched t)).workers i).pc ≠ .dead
    unfold step
    cases he : exec c (stateAt c s sched t) (sched t) with
    | none => exact ih
    | some s' =>
      rcases alive_exec (good_stateAt h sched t) hf ih he with h1 | h1
      · omega
      · exact h1

theorem busy_ready {f : V → Option V} {w : WState V} {x : Status V} (h : WOk f w x) (hx : x ≠ .free) (h1 : ∀ p, x ≠ .chosen p)
    (h2 : ∀ p, x ≠ .sent p) (hd : w.pc ≠ .dead) (hs : workerStep f w = none) (hm : w.sentM = []) : ∃ p r, x = .ready p r := by
  obtain ⟨pc, t, sm, sw, pipe⟩ := w
  simp only at hm hd
  subst hm
  cases x with
  | free => exact absurd rfl hx
  | chosen p => exact absurd rfl (h1 p)
  | sent p => exact absurd rfl (h2 p)
  | ready p r => exact ⟨p, r, rfl⟩
  | waiting p =>
    obtain ⟨h1, h2, h3, h4⟩ := h
    simp only [List.nil_append] at h1 h2 h3 h4
    subst h2 h4
    rcases h1 with rfl | rfl <;> simp [workerStep] at hs
  | computing p =>
    obtain ⟨h1, _⟩ := h
    simp only at h1
    subst h1
    cases hf : f p <;> simp [workerStep, hf] at hs
  | failed p => exact absurd h.1 hd
  | lost p => exact absurd h.1 hd
  | storing p r =>
    obtain ⟨h1, _⟩ := h
    simp only at h1
    subst h1
    simp [workerStep] at hs
  | clearing p r =>
    obtain ⟨h1, _⟩ := h
    simp only at h1
    subst h1
    simp [workerStep] at hs

theorem terminates {c : Setup V} {s : DState V} (hgood : Good c s) (hW : 1 ≤ c.W) (hWN : c.W ≤ c.params.length)
    (hf : ∀ i, i < c.W → ∀ p ∈ c.params, c.f i p ≠ none) (ha : ∀ i, i < c.W → (s.workers i).pc ≠ .dead)
    {sched : Nat → Act} (hfair : FairSched c.W sched) : ∃ t, (stateAt c s sched t).pc = .done := by
  have hInv : ∀ t, ∃ st a, Inv c (stateAt c s sched t) st a := by
    intro t
    rcases good_stateAt hgood sched t with ⟨_, h⟩ | h
    · omega
    · exact h
  have halive := alive_stateAt hgood hWN hf ha sched
  set S := stateAt c s sched with hS
  have hstep : ∀ t, S (t + 1) = step c (S t) (sched t) := fun t => rfl
  suffices H : ∀ m t, measure c (S t) = m → ∃ t', (S t').pc = .done from H _ 0 rfl
  intro m
  induction m using Nat.strong_induction_on with
  | _ m ih =>
    intro t hm
    by_contra hnd
    push Not at hnd
    have hge : ∀ u, t ≤ u → m ≤ measure c (S u) := by
      intro u hu
      by_contra hlt
      obtain ⟨t', ht'⟩ := ih _ (by omega) u rfl
      exact hnd t' ht'
    -- nothing changes any more except the worker that is checked
    have hfro : ∀ u, t ≤ u → measure c (S u) = m ∧ ∃ pc, S u = { S t with pc := pc } := by
      intro u hu
      induction u, hu using Nat.le_induction with
      | base => exact ⟨hm, (S t).pc, rfl⟩
      | succ u hu ihu =>
        obtain ⟨h1, pc, h2⟩ := ihu
        rw [hstep]
        unfold step
        cases he : exec c (S u) (sched u) with
        | none => exact ⟨h1, pc, h2⟩
        | some s' =>
          obtain ⟨st, a, hI⟩ := hInv u
          have hs' : S (u + 1) = s' := by rw [hstep]; unfold step; rw [he]; rfl
          rcases exec_measure hI he with h3 | ⟨_, i, hi, h3⟩
          · have := hge (u + 1) (by omega)
            rw [hs'] at this
            omega
          · have : ∃ k, s' = { S u with pc := .poll k } := by
              rcases h3 with ⟨_, _, h3⟩ | ⟨_, _, h3⟩
              · exact ⟨_, h3⟩
              · exact ⟨_, h3⟩
            obtain ⟨k, rfl⟩ := this
            refine ⟨?_, .poll k, by simp only [h2, Option.getD_some]⟩
            rw [Option.getD_some, ← h1]
            have hmm : mM (S u).pc = mM (.poll k) := by rw [hi]; rfl
            simp only [measure, hmm]
            rfl
    have hno : ∀ u, t ≤ u → ∀ s', exec c (S u) (sched u) = some s' → sched u = .manager ∧ Spin c (S u) s' := by
      intro u hu s' he
      obtain ⟨st, a, hI⟩ := hInv u
      rcases exec_measure hI he with h3 | h3
      · have h4 := (hfro u hu).1
        have h5 := (hfro (u + 1) (by omega)).1
        have hs' : S (u + 1) = s' := by rw [hstep]; unfold step; rw [he]; rfl
        rw [hs'] at h5
        omega
      · exact h3
    have hwk : ∀ i, i < c.W → workerStep (c.f i) ((S t).workers i) = none ∧ ((S t).workers i).sentM = [] ∧
        ((S t).workers i).sentW = [] := by
      intro i hi
      obtain ⟨⟨u1, hu1, h1⟩, ⟨u2, hu2, h2⟩, u3, hu3, h3⟩ := (hfair t).2 i hi
      refine ⟨?_, ?_, ?_⟩
      · by_contra hcon
        obtain ⟨x, hx⟩ := Option.ne_none_iff_exists'.1 hcon
        obtain ⟨_, pc, hpc⟩ := hfro u1 hu1
        have he : exec c (S u1) (sched u1) = some { S u1 with
            workers := Function.update (S u1).workers i x.1, calls := (S u1).calls ++ x.2 } := by
          rw [h1]
          have : (S u1).workers = (S t).workers := by rw [hpc]
          simp only [exec, if_pos hi, this, hx, Option.map_some]
        have := (hno u1 hu1 _ he).1
        rw [h1] at this
        cases this
      · cases hs : ((S t).workers i).sentM with
        | nil => rfl
        | cons v rest =>
          obtain ⟨_, pc, hpc⟩ := hfro u2 hu2
          have hww : (S u2).workers = (S t).workers := by rw [hpc]
          have he : exec c (S u2) (sched u2) = some ((S u2).setWorker i
              { (S u2).workers i with sentM := rest, pipe := ((S u2).workers i).pipe ++ [v] }) := by
            rw [h2]
            simp only [exec, if_pos hi, hww, hs]
          have := (hno u2 hu2 _ he).1
          rw [h2] at this
          cases this
      · cases hs : ((S t).workers i).sentW with
        | nil => rfl
        | cons v rest =>
          obtain ⟨_, pc, hpc⟩ := hfro u3 hu3
          have hww : (S u3).workers = (S t).workers := by rw [hpc]
          have he : exec c (S u3) (sched u3) = some ((S u3).setWorker i
              { (S u3).workers i with sentW := rest, pipe := ((S u3).workers i).pipe ++ [v] }) := by
            rw [h3]
            simp only [exec, if_pos hi, hww, hs]
          have := (hno u3 hu3 _ he).1
          rw [h3] at this
          cases this
    have hww : ∀ u, t ≤ u → (S u).workers = (S t).workers := by
      intro u hu
      obtain ⟨_, pc, hpc⟩ := hfro u hu
      rw [hpc]
    have hasg : ∀ u, t ≤ u → (S u).assigned = (S t).assigned := by
      intro u hu
      obtain ⟨_, pc, hpc⟩ := hfro u hu
      rw [hpc]
    -- the next step of the manager
    have hnext : ∀ u, t ≤ u → ∃ v, u ≤ v ∧ sched v = .manager ∧ S v = S u := by
      intro u hu
      obtain ⟨v, hv, hv2⟩ := (hfair u).1
      have hex : ∃ d, sched (u + d) = .manager := ⟨v - u, by rw [Nat.add_sub_cancel' hv]; exact hv2⟩
      classical
      refine ⟨u + Nat.find hex, by omega, Nat.find_spec hex, ?_⟩
      have : ∀ d, d ≤ Nat.find hex → S (u + d) = S u := by
        intro d
        induction d with
        | zero => intro _; rfl
        | succ d ihd =>
          intro hd
          have h1 := ihd (by omega)
          have h2 := Nat.find_min hex (show d < Nat.find hex by omega)
          rw [← h1, ← Nat.add_assoc, hstep]
          unfold step
          cases he : exec c (S (u + d)) (sched (u + d)) with
          | none => rfl
          | some s' => exact absurd (hno _ (by omega) _ he).1 h2
      exact this _ le_rfl
    have hspin : ∀ u, t ≤ u → ∃ v, u < v ∧ Spin c (S u) (S v) := by
      intro u hu
      obtain ⟨v, hv, hv2, hv3⟩ := hnext u hu
      refine ⟨v + 1, by omega, ?_⟩
      obtain ⟨st, a, hI⟩ := hInv u
      cases he : exec c (S v) (sched v) with
      | some s' =>
        have := (hno v (by omega) _ he).2
        have hs' : S (v + 1) = s' := by rw [hstep]; unfold step; rw [he]; rfl
        rw [hs', ← hv3]
        exact this
      | none =>
        exfalso
        rw [hv2, hv3] at he
        simp only [exec] at he
        have hpcOk := hI.pcOk
        cases hpc : (S u).pc with
        | initPut k =>
          simp only [managerStep, hpc] at he
          by_cases hk : k < c.W
          · rw [if_pos hk] at he
            cases hp : c.params[k]? <;> simp [hp] at he
          · rw [if_neg hk] at he; cases he
        | initSet k => simp [managerStep, hpc] at he
        | poll k =>
          simp only [managerStep, hpc] at he
          split_ifs at he
        | get k =>
          rw [hpc] at hpcOk
          obtain ⟨p, r, hpr⟩ := hpcOk
          have hk := (hI.par k p (by rw [hpr]; rfl)).1
          have hok := hI.ok k
          rw [hpr] at hok
          obtain ⟨_, _, _, h4, _⟩ := hok
          rw [hww u hu, (hwk k hk).2.2] at h4
          simp only [managerStep, hpc, hww u hu] at he
          rw [List.nil_append] at h4
          rw [h4] at he
          simp only at he
          cases ht : (S u).todo <;> simp [ht] at he
        | put k =>
          simp only [managerStep, hpc] at he
          cases hp : c.params[(S u).index k]? <;> simp [hp] at he
        | set k => simp [managerStep, hpc] at he
        | done => exact hnd u hpc
        | indexError => rw [hpc] at hpcOk; exact hpcOk
    have hfree : ∀ u, t ≤ u → ∀ k, (S u).pc = .poll k → k < c.W → (S t).assigned k = false ∧ ∃ v, u < v ∧ (S v).pc = .poll (k + 1) := by
      intro u hu k hk hkW
      obtain ⟨v, hv, i, hi, h1⟩ := hspin u hu
      have hik : i = k := by
        have := hi.symm.trans hk
        simpa using this
      subst hik
      rcases h1 with ⟨_, h2, h3⟩ | ⟨h2, _⟩
      · refine ⟨?_, v, hv, by rw [h3]⟩
        by_contra hcon
        have hat : (S t).assigned i = true := by simpa using hcon
        obtain ⟨st, a, hI⟩ := hInv u
        have hne := (hI.asg i).1 (by rw [hasg u hu]; exact hat)
        have hok := hI.ok i
        obtain ⟨w1, w2, w3⟩ := hwk i hkW
        obtain ⟨p, r, hpr⟩ := busy_ready hok hne
          (fun p hp => by have := hI.chosenPc i p hp; rw [hi] at this; cases this)
          (fun p hp => by have := hI.sentPc i p hp; rw [hi] at this; rcases this with h | h <;> cases h)
          (halive u i hkW) (by rw [hww u hu]; exact w1) (by rw [hww u hu]; exact w2)
        rw [hpr] at hok
        rw [hasg u hu, hat, hok.2.1] at h2
        cases h2
      · exact absurd hkW h2
    have hreach0 : ∃ u, t ≤ u ∧ (S u).pc = .poll 0 := by
      have : ∀ d u k, t ≤ u → (S u).pc = .poll k → c.W - k = d → ∃ u, t ≤ u ∧ (S u).pc = .poll 0 := by
        intro d
        induction d with
        | zero =>
          intro u k hu hk hd
          obtain ⟨v, hv, i, hi, h1⟩ := hspin u hu
          have hik : i = k := by
            have := hi.symm.trans hk
            simpa using this
          subst hik
          rcases h1 with ⟨h2, _⟩ | ⟨_, _, h3⟩
          · omega
          · exact ⟨v, by omega, by rw [h3]⟩
        | succ d ihd =>
          intro u k hu hk hd
          obtain ⟨_, v, hv, h2⟩ := hfree u hu k hk (by omega)
          exact ihd v (k + 1) (by omega) h2 (by omega)
      obtain ⟨v, hv, i, hi, _⟩ := hspin t le_rfl
      exact this _ t i le_rfl hi rfl
    have hreach : ∀ k, k ≤ c.W → ∃ u, t ≤ u ∧ (S u).pc = .poll k := by
      intro k
      induction k with
      | zero => intro _; exact hreach0
      | succ k ihk =>
        intro hk
        obtain ⟨u, hu, h1⟩ := ihk (by omega)
        obtain ⟨_, v, hv, h2⟩ := hfree u hu k h1 (by omega)
        exact ⟨v, by omega, h2⟩
    have hnone : ∀ k, k < c.W → (S t).assigned k = false := by
      intro k hk
      obtain ⟨u, hu, h1⟩ := hreach k (by omega)
      exact (hfree u hu k h1 hk).1
    obtain ⟨u, hu, h1⟩ := hreach c.W le_rfl
    obtain ⟨v, _, i, hi, h2⟩ := hspin u hu
    have hik : i = c.W := by
      have := hi.symm.trans h1
      simpa using this
    subst hik
    rcases h2 with ⟨h2, _⟩ | ⟨_, h2, _⟩
    · omega
    · obtain ⟨st, a, hI⟩ := hInv u
      have hni : ¬ InInit (S u).pc := by rw [h1]; exact not_false
      have ha : ¬ a < c.params.length := by
        intro hlt
        have := (hI.full hni).2 hlt 0 (by omega)
        have h3 := (hI.asg 0).2 this
        rw [hasg u hu, hnone 0 (by omega)] at h3
        cases h3
      have hcount := hI.count
      have h0 : ∑ i ∈ Finset.range c.W, (if (S u).assigned i then 1 else 0) = 0 := by
        apply Finset.sum_eq_zero
        intro i hi
        rw [hasg u hu, hnone i (Finset.mem_range.1 hi)]
        simp
      have := hI.len
      have := hI.aN
      omega

end Verif.Proofs.Dispenser
