import Verif.Model.Dispenser
import Mathlib.Algebra.BigOperators.Group.Finset.Basic
import Mathlib.Algebra.Order.BigOperators.Group.Finset
import Mathlib.Data.Multiset.Basic
import Mathlib.Tactic.Linarith
import Mathlib.Tactic.Abel
import Mathlib.Tactic.Ring

/-! Invariant of the parallel calculation. -/

namespace Verif.Proofs.Dispenser

open Verif.Model.Dispenser

variable {V : Type}

/-- What a worker is doing (ghost). -/
inductive Status (V : Type) where
  | free
  | chosen (p : V)
  | sent (p : V)
  | waiting (p : V)
  | computing (p : V)
  | failed (p : V)
  | lost (p : V)
  | storing (p r : V)
  | clearing (p r : V)
  | ready (p r : V)

def Status.param : Status V → Option V
  | .free => none
  | .chosen p => some p
  | .sent p => some p
  | .waiting p => some p
  | .computing p => some p
  | .failed p => some p
  | .lost p => some p
  | .storing p _ => some p
  | .clearing p _ => some p
  | .ready p _ => some p

/-- Parameters still to be evaluated. -/
def Status.pending : Status V → Multiset V
  | .chosen p => {p}
  | .sent p => {p}
  | .waiting p => {p}
  | .computing p => {p}
  | .lost p => {p}
  | _ => 0

def Quiet (w : WState V) : Prop :=
  ((w.pc = .idle ∧ w.trigger = false) ∨ w.pc = .dead) ∧ w.sentM = [] ∧ w.sentW = [] ∧ w.pipe = []

def WOk (f : V → Option V) (w : WState V) : Status V → Prop
  | .free => Quiet w
  | .chosen _ => Quiet w
  | .sent p => (w.pc = .idle ∧ w.trigger = false ∧ w.sentW = [] ∧ w.sentM ++ w.pipe = [p]) ∨ w.pc = .dead
  | .waiting p => (w.pc = .idle ∨ w.pc = .reading) ∧ w.trigger = true ∧ w.sentW = [] ∧ w.sentM ++ w.pipe = [p]
  | .computing p => w.pc = .computing p ∧ w.trigger = true ∧ w.sentM = [] ∧ w.sentW = [] ∧ w.pipe = []
  | .failed p => w.pc = .dead ∧ w.trigger = true ∧ f p = none
  | .lost _ => w.pc = .dead ∧ w.trigger = true
  | .storing p r => w.pc = .storing r ∧ w.trigger = true ∧ w.sentM = [] ∧ w.sentW = [] ∧ w.pipe = [] ∧ f p = some r
  | .clearing p r => w.pc = .clearing ∧ w.trigger = true ∧ w.sentM = [] ∧ w.sentW ++ w.pipe = [r] ∧ f p = some r
  | .ready p r => w.pc = .idle ∧ w.trigger = false ∧ w.sentM = [] ∧ w.sentW ++ w.pipe = [r] ∧ f p = some r

def InInit : MPc → Prop
  | .initPut _ => True
  | .initSet _ => True
  | _ => False

def PcOk (W N a : Nat) (computed : Nat) (st : Nat → Status V) : MPc → Prop
  | .initPut i => a = i ∧ i ≤ W ∧ ∀ j, st j = .free ↔ i ≤ j
  | .initSet i => a = i + 1 ∧ i < W ∧ (∃ p, st i = .sent p) ∧ ∀ j, st j = .free ↔ i < j
  | .poll _ => True
  | .get i => ∃ p r, st i = .ready p r
  | .put i => ∃ p, st i = .chosen p
  | .set i => ∃ p, st i = .sent p
  | .done => computed = N
  | .indexError => False

structure Inv (c : Setup V) (s : DState V) (st : Nat → Status V) (a : Nat) : Prop where
  ok : ∀ i, WOk (c.f i) (s.workers i) (st i)
  asg : ∀ i, s.assigned i = true ↔ st i ≠ .free
  par : ∀ i p, (st i).param = some p → i < c.W ∧ s.index i < a ∧ c.params[s.index i]? = some p ∧ (s.index i < c.W → s.index i = i)
  len : s.results.length = c.params.length
  aN : a ≤ c.params.length
  todo : s.todo = List.range' a (c.params.length - a)
  pcOk : PcOk c.W c.params.length a s.computed st s.pc
  chosenPc : ∀ i p, st i = .chosen p → s.pc = .put i
  sentPc : ∀ i p, st i = .sent p → s.pc = .set i ∨ s.pc = .initSet i
  res : ∀ k, k < a → (∃ i, st i ≠ .free ∧ s.index i = k) ∨
    ∃ i p r, i < c.W ∧ c.params[k]? = some p ∧ c.f i p = some r ∧ s.results[k]? = some (some r) ∧ (k < c.W → i = k)
  inj : ∀ i j, st i ≠ .free → st j ≠ .free → s.index i = s.index j → i = j
  count : s.computed + ∑ i ∈ Finset.range c.W, (if s.assigned i then 1 else 0) = a
  calls : (s.calls : Multiset V) + ∑ i ∈ Finset.range c.W, (st i).pending = (c.params.take a : Multiset V)
  full : ¬ InInit s.pc → c.W ≤ a ∧ (a < c.params.length → ∀ i, i < c.W → st i ≠ .free)
  deadW : ¬ InInit s.pc → ∀ i, i < c.W → (s.workers i).pc = .dead → st i ≠ .free

theorem sum_change {M : Type} [AddCommMonoid M] (W i : Nat) (hi : i < W) (F G : Nat → M) (h : ∀ j, j ≠ i → G j = F j) :
    ∑ j ∈ Finset.range W, G j + F i = ∑ j ∈ Finset.range W, F j + G i := by
  have hm : i ∈ Finset.range W := Finset.mem_range.2 hi
  rw [← Finset.add_sum_erase _ _ hm, ← Finset.add_sum_erase (Finset.range W) F hm]
  have : ∑ j ∈ (Finset.range W).erase i, G j = ∑ j ∈ (Finset.range W).erase i, F j := by
    apply Finset.sum_congr rfl
    intro j hj
    exact h j (Finset.ne_of_mem_erase hj)
  rw [this]
  abel

theorem param_ne_free {x : Status V} {p : V} (h : x.param = some p) : x ≠ .free := by
  rintro rfl; cases h

theorem ne_free_param {x : Status V} (h : x ≠ .free) : ∃ p, x.param = some p := by
  cases x <;> first | exact absurd rfl h | exact ⟨_, rfl⟩

/-- A change of one worker that keeps its parameter. -/
theorem inv_worker {c : Setup V} {s : DState V} {st : Nat → Status V} {a : Nat} (h : Inv c s st a) {i : Nat} (hi : i < c.W)
    {w : WState V} {x : Status V} {l : List V} (hok : WOk (c.f i) w x) (hparam : x.param = (st i).param)
    (hready : ∀ p r, st i = .ready p r → x = st i) (hchosen : ∀ p, st i = .chosen p ↔ x = .chosen p)
    (hsent : ∀ p, st i = .sent p ↔ x = .sent p)
    (hcalls : (l : Multiset V) + x.pending = (st i).pending) (hdead : w.pc = .dead → (s.workers i).pc = .dead ∨ x ≠ .free) :
    Inv c { s with workers := Function.update s.workers i w, calls := s.calls ++ l } (Function.update st i x) a := by
  have hfree : x = .free ↔ st i = .free := by
    constructor
    · intro hx
      by_contra hn
      obtain ⟨p, hp⟩ := ne_free_param hn
      exact param_ne_free (hparam.trans hp) hx
    · intro hx
      by_contra hn
      obtain ⟨p, hp⟩ := ne_free_param hn
      exact param_ne_free (hparam.symm.trans hp) hx
  have hst : ∀ j, Function.update st i x j = .free ↔ st j = .free := by
    intro j
    by_cases hj : j = i
    · subst hj; simpa using hfree
    · rw [Function.update_of_ne hj]
  have hne : ∀ j, Function.update st i x j ≠ .free ↔ st j ≠ .free := fun j => not_congr (hst j)
  have hpar : ∀ j, (Function.update st i x j).param = (st j).param := by
    intro j
    by_cases hj : j = i
    · subst hj; simpa using hparam
    · rw [Function.update_of_ne hj]
  have hch : ∀ j p, Function.update st i x j = .chosen p ↔ st j = .chosen p := by
    intro j p
    by_cases hj : j = i
    · subst hj; simpa using (hchosen p).symm
    · rw [Function.update_of_ne hj]
  have hse : ∀ j p, Function.update st i x j = .sent p ↔ st j = .sent p := by
    intro j p
    by_cases hj : j = i
    · subst hj; simpa using (hsent p).symm
    · rw [Function.update_of_ne hj]
  have hre : ∀ j p r, st j = .ready p r → Function.update st i x j = .ready p r := by
    intro j p r hjr
    by_cases hj : j = i
    · subst hj; rw [Function.update_self, hready p r hjr, hjr]
    · rw [Function.update_of_ne hj, hjr]
  refine { ok := ?_, asg := ?_, par := ?_, len := h.len, aN := h.aN, todo := h.todo, pcOk := ?_, chosenPc := ?_, sentPc := ?_, res := ?_,
           inj := ?_, count := h.count, calls := ?_, full := ?_, deadW := ?_ }
  · intro j
    by_cases hj : j = i
    · subst hj; simpa using hok
    · simpa [Function.update_of_ne hj] using h.ok j
  · intro j; rw [hne]; exact h.asg j
  · intro j p hp; rw [hpar] at hp; exact h.par j p hp
  · have := h.pcOk
    show PcOk _ _ _ _ _ s.pc
    generalize s.pc = pc at this
    cases pc with
    | initPut k => exact ⟨this.1, this.2.1, fun j => (hst j).trans (this.2.2 j)⟩
    | initSet k =>
      obtain ⟨h1, h2, ⟨p, hp⟩, h4⟩ := this
      exact ⟨h1, h2, ⟨p, (hse _ _).2 hp⟩, fun j => (hst j).trans (h4 j)⟩
    | poll k => trivial
    | get k => obtain ⟨p, r, hpr⟩ := this; exact ⟨p, r, hre _ _ _ hpr⟩
    | put k => obtain ⟨p, hp⟩ := this; exact ⟨p, (hch _ _).2 hp⟩
    | set k => obtain ⟨p, hp⟩ := this; exact ⟨p, (hse _ _).2 hp⟩
    | done => exact this
    | indexError => exact this
  · intro j p hp; exact h.chosenPc j p ((hch _ _).1 hp)
  · intro j p hp; exact h.sentPc j p ((hse _ _).1 hp)
  · intro k hk
    rcases h.res k hk with ⟨j, hj, hjk⟩ | hr
    · exact Or.inl ⟨j, (hne j).2 hj, hjk⟩
    · exact Or.inr hr
  · intro j k hj hk; exact h.inj j k ((hne _).1 hj) ((hne _).1 hk)
  · have h1 := h.calls
    have h2 := sum_change c.W i hi (fun j => (st j).pending) (fun j => (Function.update st i x j).pending)
      (fun j hj => by simp only [Function.update_of_ne hj])
    simp only [Function.update_self] at h2
    rw [← hcalls] at h2
    rw [← h1]
    show ((s.calls ++ l : List V) : Multiset V) + _ = _
    rw [← Multiset.coe_add]
    have h3 : (∑ j ∈ Finset.range c.W, (Function.update st i x j).pending + (l : Multiset V)) + x.pending =
      ∑ j ∈ Finset.range c.W, (st j).pending + x.pending := by
      rw [← h2]; abel
    have h4 := add_right_cancel h3
    rw [← h4]
    abel
  · intro hp
    obtain ⟨h1, h2⟩ := h.full hp
    exact ⟨h1, fun ha j hj => (hne j).2 (h2 ha j hj)⟩
  · intro hp j hj hd
    rw [hne]
    by_cases hji : j = i
    · subst hji
      simp only [Function.update_self] at hd
      rcases hdead hd with h1 | h1
      · exact h.deadW hp j hj h1
      · intro h2; exact h1 (hfree.2 h2)
    · simp only [Function.update_of_ne hji] at hd
      exact h.deadW hp j hj hd

theorem inv_workerStep {c : Setup V} {s : DState V} {st : Nat → Status V} {a : Nat} (h : Inv c s st a) {i : Nat} (hi : i < c.W)
    {w : WState V} {l : List V} (hw : workerStep (c.f i) (s.workers i) = some (w, l)) :
    ∃ st', Inv c { s with workers := Function.update s.workers i w, calls := s.calls ++ l } st' a := by
  have hok := h.ok i
  generalize hs : s.workers i = v at *
  obtain ⟨pc, trig, sm, sw, pipe⟩ := v
  cases pc with
  | dead => simp [workerStep] at hw
  | idle =>
    cases trig with
    | false => simp [workerStep] at hw
    | true =>
      simp only [workerStep, if_true, Option.some.injEq, Prod.mk.injEq] at hw
      obtain ⟨rfl, rfl⟩ := hw
      refine ⟨_, inv_worker h hi (x := st i) ?_ rfl (fun _ _ _ => rfl) (fun _ => Iff.rfl) (fun _ => Iff.rfl) (by simp) (by simp)⟩
      generalize st i = x at hok ⊢
      cases x <;> simp_all [WOk, Quiet]
  | reading =>
    cases pipe with
    | nil => simp [workerStep] at hw
    | cons p rest =>
      simp only [workerStep, Option.some.injEq, Prod.mk.injEq] at hw
      obtain ⟨rfl, rfl⟩ := hw
      have hx : st i = .waiting p ∧ trig = true ∧ sw = [] ∧ sm = [] ∧ rest = [] := by
        generalize st i = x at hok ⊢
        cases x <;> simp_all [WOk, Quiet]
        cases sm <;> simp_all
      obtain ⟨h1, rfl, rfl, rfl, rfl⟩ := hx
      refine ⟨_, inv_worker h hi (x := .computing p) ?_ ?_ ?_ ?_ ?_ ?_ ?_⟩ <;> simp [WOk, h1, Status.param, Status.pending]
  | computing v =>
    have hx : st i = .computing v ∧ trig = true ∧ sw = [] ∧ sm = [] ∧ pipe = [] := by
      generalize st i = x at hok ⊢
      cases x <;> simp_all [WOk, Quiet]
    obtain ⟨h1, rfl, rfl, rfl, rfl⟩ := hx
    cases hf : c.f i v with
    | none =>
      simp only [workerStep, hf, Option.some.injEq, Prod.mk.injEq] at hw
      obtain ⟨rfl, rfl⟩ := hw
      refine ⟨_, inv_worker h hi (x := .failed v) ?_ ?_ ?_ ?_ ?_ ?_ ?_⟩ <;> simp [WOk, h1, Status.param, Status.pending, hf]
    | some r =>
      simp only [workerStep, hf, Option.some.injEq, Prod.mk.injEq] at hw
      obtain ⟨rfl, rfl⟩ := hw
      refine ⟨_, inv_worker h hi (x := .storing v r) ?_ ?_ ?_ ?_ ?_ ?_ ?_⟩ <;> simp [WOk, h1, Status.param, Status.pending, hf]
  | storing r =>
    simp only [workerStep, Option.some.injEq, Prod.mk.injEq] at hw
    obtain ⟨rfl, rfl⟩ := hw
    have hx : ∃ p, st i = .storing p r ∧ trig = true ∧ sw = [] ∧ sm = [] ∧ pipe = [] ∧ c.f i p = some r := by
      generalize st i = x at hok ⊢
      cases x <;> simp_all [WOk, Quiet]
    obtain ⟨p, h1, rfl, rfl, rfl, rfl, hf⟩ := hx
    refine ⟨_, inv_worker h hi (x := .clearing p r) ?_ ?_ ?_ ?_ ?_ ?_ ?_⟩ <;> simp [WOk, h1, Status.param, Status.pending, hf]
  | clearing =>
    simp only [workerStep, Option.some.injEq, Prod.mk.injEq] at hw
    obtain ⟨rfl, rfl⟩ := hw
    have hx : ∃ p r, st i = .clearing p r ∧ trig = true ∧ sm = [] ∧ sw ++ pipe = [r] ∧ c.f i p = some r := by
      generalize st i = x at hok ⊢
      cases x <;> simp_all [WOk, Quiet]
    obtain ⟨p, r, h1, rfl, rfl, h2, hf⟩ := hx
    refine ⟨_, inv_worker h hi (x := .ready p r) ?_ ?_ ?_ ?_ ?_ ?_ ?_⟩ <;> simp [WOk, h1, Status.param, Status.pending, hf, h2]

theorem inv_deliverM {c : Setup V} {s : DState V} {st : Nat → Status V} {a : Nat} (h : Inv c s st a) {i : Nat} (hi : i < c.W)
    {v : V} {rest : List V} (hw : (s.workers i).sentM = v :: rest) :
    Inv c (s.setWorker i { s.workers i with sentM := rest, pipe := (s.workers i).pipe ++ [v] }) st a := by
  have hok := h.ok i
  have h0 := inv_worker (l := []) (w := { s.workers i with sentM := rest, pipe := (s.workers i).pipe ++ [v] }) h hi (x := st i) ?_ rfl
    (fun _ _ _ => rfl) (fun _ => Iff.rfl) (fun _ => Iff.rfl) (by simp) (by simp; exact fun h => Or.inl h)
  · simpa [DState.setWorker] using h0
  · generalize hs : s.workers i = w at *
    obtain ⟨pc, trig, sm, sw, pipe⟩ := w
    simp only at hw
    subst hw
    generalize st i = x at hok ⊢
    cases x <;> simp_all [WOk, Quiet]
    rcases hok with h | h <;> simp_all

theorem inv_deliverW {c : Setup V} {s : DState V} {st : Nat → Status V} {a : Nat} (h : Inv c s st a) {i : Nat} (hi : i < c.W)
    {v : V} {rest : List V} (hw : (s.workers i).sentW = v :: rest) :
    Inv c (s.setWorker i { s.workers i with sentW := rest, pipe := (s.workers i).pipe ++ [v] }) st a := by
  have hok := h.ok i
  have h0 := inv_worker (l := []) (w := { s.workers i with sentW := rest, pipe := (s.workers i).pipe ++ [v] }) h hi (x := st i) ?_ rfl
    (fun _ _ _ => rfl) (fun _ => Iff.rfl) (fun _ => Iff.rfl) (by simp) (by simp; exact fun h => Or.inl h)
  · simpa [DState.setWorker] using h0
  · generalize hs : s.workers i = w at *
    obtain ⟨pc, trig, sm, sw, pipe⟩ := w
    simp only at hw
    subst hw
    generalize st i = x at hok ⊢
    cases x <;> simp_all [WOk, Quiet]

theorem ite_count (b : Bool) : (if b = true then 1 else 0 : Nat) = if b then 1 else 0 := rfl

theorem take_succ_multiset {l : List V} {a : Nat} {p : V} (h : l[a]? = some p) :
    ((l.take (a + 1) : List V) : Multiset V) = (l.take a : Multiset V) + {p} := by
  rw [List.take_add_one, h, ← Multiset.coe_add]
  rfl

theorem range'_cons {a N : Nat} (h : a < N) : List.range' a (N - a) = a :: List.range' (a + 1) (N - (a + 1)) := by
  have : N - a = (N - (a + 1)) + 1 := by omega
  rw [this, List.range'_succ]

theorem sent_set (f : V → Option V) (w : WState V) (p : V) (h : WOk f w (.sent p)) :
    ∃ x : Status V, WOk f { w with trigger := true } x ∧ x.param = some p ∧ x.pending = {p} ∧ (∀ q, x ≠ .chosen q) ∧ ∀ q, x ≠ .sent q := by
  rcases h with ⟨h1, h2, h3, h4⟩ | h
  · exact ⟨.waiting p, ⟨Or.inl h1, rfl, h3, h4⟩, rfl, rfl, by simp, by simp⟩
  · exact ⟨.lost p, ⟨h, rfl⟩, rfl, rfl, by simp, by simp⟩

/-- Setting the trigger. -/
theorem set_trigger {c : Setup V} {s : DState V} {st : Nat → Status V} {a : Nat} (h : Inv c s st a) {i : Nat} (hi : i < c.W) {p : V}
    (hp : st i = .sent p) (hpc0 : s.pc = .set i ∨ s.pc = .initSet i) {pc : MPc}
    (hpc : ∀ st' : Nat → Status V, (∀ j, st' j = .free ↔ st j = .free) → PcOk c.W c.params.length a s.computed st' pc)
    (hin : ¬ InInit pc → ¬ InInit s.pc) :
    ∃ st' a', Inv c { s with workers := Function.update s.workers i { s.workers i with trigger := true }, pc := pc } st' a' := by
  obtain ⟨hok, hasg, hpar, hlen, haN, htodo, _, hch, hse, hres, hinj, hcount, hcalls, hfull, hdead⟩ := h
  have hoki := hok i
  rw [hp] at hoki
  obtain ⟨x, hx1, hx2, hx3, hx4, hx5⟩ := sent_set (c.f i) (s.workers i) p hoki
  have hst : ∀ j, Function.update st i x j = .free ↔ st j = .free := by
    intro j
    by_cases hj : j = i
    · subst hj; simp [hp, param_ne_free hx2]
    · rw [Function.update_of_ne hj]
  have hne : ∀ j, Function.update st i x j ≠ .free ↔ st j ≠ .free := fun j => not_congr (hst j)
  refine ⟨Function.update st i x, a, ?_⟩
  refine { ok := ?_, asg := ?_, par := ?_, len := hlen, aN := haN, todo := htodo, pcOk := hpc _ hst, chosenPc := ?_, sentPc := ?_, res := ?_,
           inj := ?_, count := hcount, calls := ?_, full := ?_, deadW := ?_ }
  · intro j
    by_cases hj : j = i
    · subst hj; simpa using hx1
    · simpa [Function.update_of_ne hj] using hok j
  · intro j; rw [hne]; exact hasg j
  · intro j q hq
    by_cases hj : j = i
    · subst hj
      rw [Function.update_self, hx2] at hq
      exact hpar j q (by rw [hp]; exact hq)
    · rw [Function.update_of_ne hj] at hq; exact hpar j q hq
  · intro j q hq
    by_cases hj : j = i
    · subst hj; rw [Function.update_self] at hq; exact absurd hq (hx4 q)
    · rw [Function.update_of_ne hj] at hq
      have := hch j q hq
      rcases hpc0 with h | h <;> rw [h] at this <;> cases this
  · intro j q hq
    by_cases hj : j = i
    · subst hj; rw [Function.update_self] at hq; exact absurd hq (hx5 q)
    · rw [Function.update_of_ne hj] at hq
      have := hse j q hq
      rcases hpc0 with h | h <;> rw [h] at this <;> rcases this with h | h <;> cases h <;> exact absurd rfl hj
  · intro k hk
    rcases hres k hk with ⟨j, hj, hjk⟩ | hr
    · exact Or.inl ⟨j, (hne j).2 hj, hjk⟩
    · exact Or.inr hr
  · intro j k hj hk; exact hinj j k ((hne _).1 hj) ((hne _).1 hk)
  · have h2 := sum_change c.W i hi (fun j => (st j).pending) (fun j => (Function.update st i x j).pending)
      (fun j hj => by simp only [Function.update_of_ne hj])
    simp only [Function.update_self, hp, hx3] at h2
    have h4 : ({p} : Multiset V) = (Status.sent p).pending := rfl
    rw [h4] at h2
    simp only
    rw [add_right_cancel h2, hcalls]
  · intro hn
    obtain ⟨h1, h2⟩ := hfull (hin hn)
    exact ⟨h1, fun ha j hj => (hne j).2 (h2 ha j hj)⟩
  · intro hn j hj hd
    rw [hne]
    by_cases hji : j = i
    · subst hji; rw [hp]; simp
    · simp only [Function.update_of_ne hji] at hd
      exact hdead (hin hn) j hj hd

theorem ready_of {f : V → Option V} {w : WState V} {x : Status V} (h : WOk f w x) (h1 : x ≠ .free) (h2 : w.trigger = false)
    (h3 : ∀ p, x ≠ .chosen p) (h4 : ∀ p, x ≠ .sent p) : ∃ p r, x = .ready p r := by
  cases x with
  | free => exact absurd rfl h1
  | chosen p => exact absurd rfl (h3 p)
  | sent p => exact absurd rfl (h4 p)
  | ready p r => exact ⟨p, r, rfl⟩
  | waiting p => have := h.2.1; rw [h2] at this; cases this
  | computing p => have := h.2.1; rw [h2] at this; cases this
  | failed p => have := h.2.1; rw [h2] at this; cases this
  | lost p => have := h.2; rw [h2] at this; cases this
  | storing p r => have := h.2.1; rw [h2] at this; cases this
  | clearing p r => have := h.2.1; rw [h2] at this; cases this

set_option maxHeartbeats 2000000 in
theorem inv_manager {c : Setup V} {s : DState V} {st : Nat → Status V} {a : Nat} (h : Inv c s st a)
    (hW : ∀ i, s.pc = .initPut i → i < c.W → i < c.params.length)
    {s' : DState V} (hm : managerStep c s = some s') : ∃ st' a', Inv c s' st' a' := by
  obtain ⟨pc, todo, assigned, index, computed, results, workers, calls⟩ := s
  obtain ⟨hok, hasg, hpar, hlen, haN, htodo, hpc, hch, hse, hres, hinj, hcount, hcalls, hfull, hdead⟩ := h
  simp only at *
  cases pc with
  | done => simp [managerStep] at hm
  | indexError => simp [managerStep] at hm
  | initPut i =>
    obtain ⟨rfl, hiW, hfr⟩ := hpc
    by_cases hi : a < c.W
    · have hlt : a < c.params.length := hW a rfl hi
      have hp : c.params[a]? = some c.params[a] := List.getElem?_eq_getElem hlt
      generalize c.params[a] = p at hp
      simp only [managerStep, if_pos hi, hp, Option.some.injEq] at hm
      subst hm
      have hst : st a = .free := (hfr a).2 le_rfl
      have hasgi : assigned a = false := by
        cases hb : assigned a
        · rfl
        · exact absurd hst ((hasg a).1 hb)
      refine ⟨Function.update st a (.sent p), a + 1, ?_⟩
      refine { ok := ?_, asg := ?_, par := ?_, len := hlen, aN := hlt, todo := ?_, pcOk := ?_, chosenPc := ?_, sentPc := ?_, res := ?_,
               inj := ?_, count := ?_, calls := ?_, full := ?_, deadW := ?_ }
      · intro j
        by_cases hj : j = a
        · subst hj
          have := hok j
          rw [hst] at this
          obtain ⟨h1, h2, h3, h4⟩ := this
          simp only [Function.update_self, WOk]
          rcases h1 with h1 | h1
          · left; simp [h1, h2, h3, h4]
          · right; exact h1
        · simpa [Function.update_of_ne hj] using hok j
      · intro j
        by_cases hj : j = a
        · subst hj; simp
        · simpa [Function.update_of_ne hj] using hasg j
      · intro j q hq
        by_cases hj : j = a
        · subst hj
          simp only [Function.update_self, Status.param, Option.some.injEq] at hq ⊢
          subst hq
          exact ⟨hi, by omega, hp, fun _ => trivial⟩
        · simp only [Function.update_of_ne hj] at hq ⊢
          obtain ⟨h1, h2, h3⟩ := hpar j q hq
          exact ⟨h1, by omega, h3⟩
      · show todo.erase a = _
        rw [htodo, range'_cons hlt]
        simp
      · refine ⟨rfl, hi, ⟨p, by simp⟩, ?_⟩
        intro j
        by_cases hja : j = a
        · subst hja; simp
        · rw [Function.update_of_ne hja, hfr j]; omega
      · intro j q hq
        by_cases hj : j = a
        · subst hj; simp at hq
        · rw [Function.update_of_ne hj] at hq
          have := hch j q hq
          simp at this
      · intro j q hq
        by_cases hj : j = a
        · subst hj; exact Or.inr rfl
        · rw [Function.update_of_ne hj] at hq
          have := hse j q hq
          simp at this
      · intro k hk
        by_cases hka : k = a
        · subst hka
          exact Or.inl ⟨k, by simp, by simp⟩
        · rcases hres k (by omega) with ⟨j, hj, hjk⟩ | hr
          · have hja : j ≠ a := by rintro rfl; exact hj hst
            exact Or.inl ⟨j, by simpa [Function.update_of_ne hja] using hj, by simpa [Function.update_of_ne hja] using hjk⟩
          · exact Or.inr hr
      · intro j k hj hk hjk
        have hlt' : ∀ m, st m ≠ .free → index m < a := by
          intro m hm
          obtain ⟨q, hq⟩ := ne_free_param hm
          exact (hpar m q hq).2.1
        simp only at hjk
        by_cases hja : j = a
        · by_cases hka : k = a
          · rw [hja, hka]
          · rw [hja, Function.update_self, Function.update_of_ne hka] at hjk
            rw [Function.update_of_ne hka] at hk
            have := hlt' k hk
            omega
        · by_cases hka : k = a
          · rw [hka, Function.update_self, Function.update_of_ne hja] at hjk
            rw [Function.update_of_ne hja] at hj
            have := hlt' j hj
            omega
          · rw [Function.update_of_ne hja] at hj
            rw [Function.update_of_ne hka] at hk
            rw [Function.update_of_ne hja, Function.update_of_ne hka] at hjk
            exact hinj j k hj hk hjk
      · have h2 := sum_change c.W a hi (fun j => if assigned j then 1 else 0) (fun j => if Function.update assigned a true j then 1 else 0)
          (fun j hj => by simp only [Function.update_of_ne hj])
        simp only [Function.update_self, hasgi] at h2
        simp only
        simp at h2
        omega
      · have h2 := sum_change c.W a hi (fun j => (st j).pending) (fun j => (Function.update st a (.sent p) j).pending)
          (fun j hj => by simp only [Function.update_of_ne hj])
        simp only [Function.update_self, hst] at h2
        simp only
        have h3 : (Status.free : Status V).pending = 0 := rfl
        rw [h3, add_zero] at h2
        rw [h2, ← add_assoc, hcalls, take_succ_multiset hp]
        rfl
      · intro hn; exact absurd trivial hn
      · intro hn; exact absurd trivial hn
    · have : a = c.W := by omega
      simp only [managerStep, if_neg hi, Option.some.injEq] at hm
      subst hm
      have hbusy : ∀ i, i < c.W → st i ≠ .free := by
        intro i hi' hcon
        have := (hfr i).1 hcon
        omega
      refine ⟨st, a, ⟨hok, hasg, hpar, hlen, haN, htodo, trivial, ?_, ?_, hres, hinj, hcount, hcalls, ?_, ?_⟩⟩
      · intro j q hq; exact absurd (hch j q hq) (by simp)
      · intro j q hq; exact absurd (hse j q hq) (by simp)
      · intro _; exact ⟨by omega, fun _ => hbusy⟩
      · intro _ j hj _; exact hbusy j hj
  | initSet i =>
    obtain ⟨rfl, hiW, ⟨p, hp⟩, hfr⟩ := hpc
    simp only [managerStep, Option.some.injEq] at hm
    subst hm
    have hinv := set_trigger (s := ⟨.initSet i, todo, assigned, index, computed, results, workers, calls⟩) (st := st) (a := i + 1)
      ⟨hok, hasg, hpar, hlen, haN, htodo, ⟨rfl, hiW, ⟨p, hp⟩, hfr⟩, hch, hse, hres, hinj, hcount, hcalls, hfull, hdead⟩
      hiW hp (Or.inr rfl) (pc := .initPut (i + 1))
    exact hinv (fun st' hst' => ⟨rfl, hiW, fun j => by rw [hst' j, hfr j]; rfl⟩) (fun h => absurd trivial h)
  | poll i =>
    by_cases hi : i < c.W
    · by_cases hb : (assigned i && !(workers i).trigger) = true
      · simp only [managerStep, if_pos hi, hb, if_true, Option.some.injEq] at hm
        subst hm
        refine ⟨st, a, ⟨hok, hasg, hpar, hlen, haN, htodo, ?_, ?_, ?_, hres, hinj, hcount, hcalls, fun _ => hfull not_false, fun _ => hdead not_false⟩⟩
        · simp only [Bool.and_eq_true, Bool.not_eq_true'] at hb
          exact ready_of (hok i) ((hasg i).1 hb.1) hb.2 (fun q hq => absurd (hch i q hq) (by simp)) (fun q hq => absurd (hse i q hq) (by simp))
        · intro j q hq; exact absurd (hch j q hq) (by simp)
        · intro j q hq; exact absurd (hse j q hq) (by simp)
      · simp only [managerStep, if_pos hi, if_neg hb, Option.some.injEq] at hm
        subst hm
        refine ⟨st, a, ⟨hok, hasg, hpar, hlen, haN, htodo, trivial, ?_, ?_, hres, hinj, hcount, hcalls, fun _ => hfull not_false, fun _ => hdead not_false⟩⟩
        · intro j q hq; exact absurd (hch j q hq) (by simp)
        · intro j q hq; exact absurd (hse j q hq) (by simp)
    · by_cases hc : computed < results.length
      · simp only [managerStep, if_neg hi, if_pos hc, Option.some.injEq] at hm
        subst hm
        refine ⟨st, a, ⟨hok, hasg, hpar, hlen, haN, htodo, trivial, ?_, ?_, hres, hinj, hcount, hcalls, fun _ => hfull not_false, fun _ => hdead not_false⟩⟩
        · intro j q hq; exact absurd (hch j q hq) (by simp)
        · intro j q hq; exact absurd (hse j q hq) (by simp)
      · simp only [managerStep, if_neg hi, if_neg hc, Option.some.injEq] at hm
        subst hm
        refine ⟨st, a, ⟨hok, hasg, hpar, hlen, haN, htodo, ?_, ?_, ?_, hres, hinj, hcount, hcalls, fun _ => hfull not_false, fun _ => hdead not_false⟩⟩
        · show computed = c.params.length
          omega
        · intro j q hq; exact absurd (hch j q hq) (by simp)
        · intro j q hq; exact absurd (hse j q hq) (by simp)
  | get i =>
    obtain ⟨p, r, hpr⟩ := hpc
    have hoki := hok i
    rw [hpr] at hoki
    obtain ⟨hw1, hw2, hw3, hw4, hf⟩ := hoki
    obtain ⟨hiW, hia, hip, hii⟩ := hpar i p (by rw [hpr]; rfl)
    have hasgi : assigned i = true := (hasg i).2 (by rw [hpr]; simp)
    have hinj' : ∀ j, j ≠ i → st j ≠ .free → index j ≠ index i := fun j hj hs he => hj (hinj j i hs (by rw [hpr]; simp) he)
    cases hpipe : (workers i).pipe with
    | nil => simp [managerStep, hpipe] at hm
    | cons v rest =>
      have hv : v = r ∧ rest = [] ∧ (workers i).sentW = [] := by
        rw [hpipe] at hw4
        cases hsw : (workers i).sentW with
        | nil => rw [hsw] at hw4; simp at hw4; exact ⟨hw4.1, hw4.2, rfl⟩
        | cons u us => rw [hsw] at hw4; simp at hw4
      obtain ⟨rfl, rfl, hsw⟩ := hv
      have hresx : ∀ k, k < a → k ≠ index i → (∃ j, st j ≠ .free ∧ index j = k) ∨
          ∃ i' p r, i' < c.W ∧ c.params[k]? = some p ∧ c.f i' p = some r ∧ (results.set (index i) (some v))[k]? = some (some r) ∧
            (k < c.W → i' = k) := by
        intro k hk hki
        rcases hres k hk with h1 | ⟨i', p', r', h1, h2, h3, h4, h5⟩
        · exact Or.inl h1
        · refine Or.inr ⟨i', p', r', h1, h2, h3, ?_, h5⟩
          rw [List.getElem?_set_ne (Ne.symm hki)]; exact h4
      have hresi : (results.set (index i) (some v))[index i]? = some (some v) := by
        rw [List.getElem?_set_self]
        omega
      by_cases ha : a = c.params.length
      · have htd : todo = [] := by rw [htodo, ha]; simp
        subst htd
        simp only [managerStep, hpipe, Option.some.injEq] at hm
        subst hm
        refine ⟨Function.update st i .free, a, ?_⟩
        refine { ok := ?_, asg := ?_, par := ?_, len := ?_, aN := haN, todo := htodo, pcOk := trivial, chosenPc := ?_, sentPc := ?_, res := ?_,
                 inj := ?_, count := ?_, calls := ?_, full := ?_, deadW := ?_ }
        · intro j
          by_cases hj : j = i
          · subst hj
            simp only [Function.update_self, WOk, Quiet]
            exact ⟨Or.inl ⟨hw1, hw2⟩, hw3, hsw, trivial⟩
          · simpa [Function.update_of_ne hj] using hok j
        · intro j
          by_cases hj : j = i
          · subst hj; simp
          · simpa [Function.update_of_ne hj] using hasg j
        · intro j q hq
          by_cases hj : j = i
          · subst hj; simp [Status.param] at hq
          · rw [Function.update_of_ne hj] at hq; exact hpar j q hq
        · simpa using hlen
        · intro j q hq
          by_cases hj : j = i
          · subst hj; simp at hq
          · rw [Function.update_of_ne hj] at hq; exact absurd (hch j q hq) (by simp)
        · intro j q hq
          by_cases hj : j = i
          · subst hj; simp at hq
          · rw [Function.update_of_ne hj] at hq; exact absurd (hse j q hq) (by simp)
        · intro k hk
          by_cases hki : k = index i
          · subst hki
            exact Or.inr ⟨i, p, v, hiW, hip, hf, hresi, fun h => (hii h).symm⟩
          · rcases hresx k hk hki with ⟨j, hj, hjk⟩ | h1
            · have hji : j ≠ i := by rintro rfl; exact hki hjk.symm
              exact Or.inl ⟨j, by rw [Function.update_of_ne hji]; exact hj, hjk⟩
            · exact Or.inr h1
        · intro j k hj hk
          have hji : j ≠ i := by rintro rfl; simp at hj
          have hki : k ≠ i := by rintro rfl; simp at hk
          rw [Function.update_of_ne hji] at hj
          rw [Function.update_of_ne hki] at hk
          exact hinj j k hj hk
        · have h2 := sum_change c.W i hiW (fun j => if assigned j then 1 else 0) (fun j => if Function.update assigned i false j then 1 else 0)
            (fun j hj => by simp only [Function.update_of_ne hj])
          simp only [Function.update_self, hasgi] at h2
          simp only
          simp at h2
          omega
        · have h2 := sum_change c.W i hiW (fun j => (st j).pending) (fun j => (Function.update st i .free j).pending)
            (fun j hj => by simp only [Function.update_of_ne hj])
          simp only [Function.update_self, hpr] at h2
          have h3 : (Status.free : Status V).pending = 0 := rfl
          have h4 : (Status.ready p v).pending = 0 := rfl
          rw [h3, h4, add_zero, add_zero] at h2
          simp only
          rw [h2, hcalls]
        · intro _
          exact ⟨(hfull not_false).1, fun h => by omega⟩
        · intro _ j hj hd
          by_cases hji : j = i
          · subst hji
            simp only [Function.update_self] at hd
            rw [hw1] at hd
            cases hd
          · simp only [Function.update_of_ne hji] at hd
            rw [Function.update_of_ne hji]
            exact hdead not_false j hj hd
      · have hlt : a < c.params.length := by omega
        have hWa := (hfull not_false).1
        have hbusy := (hfull not_false).2 hlt
        have hq : c.params[a]? = some c.params[a] := List.getElem?_eq_getElem hlt
        generalize c.params[a] = q at hq
        have htd : todo = a :: List.range' (a + 1) (c.params.length - (a + 1)) := by rw [htodo, range'_cons hlt]
        simp only [managerStep, hpipe, htd, Option.some.injEq] at hm
        subst hm
        have hne : ∀ j, Function.update st i (.chosen q) j ≠ .free ↔ st j ≠ .free := by
          intro j
          by_cases hj : j = i
          · subst hj; simp [hpr]
          · rw [Function.update_of_ne hj]
        refine ⟨Function.update st i (.chosen q), a + 1, ?_⟩
        refine { ok := ?_, asg := ?_, par := ?_, len := ?_, aN := hlt, todo := rfl, pcOk := ⟨q, by simp⟩, chosenPc := ?_, sentPc := ?_, res := ?_,
                 inj := ?_, count := ?_, calls := ?_, full := ?_, deadW := ?_ }
        · intro j
          by_cases hj : j = i
          · subst hj
            simp only [Function.update_self, WOk, Quiet]
            exact ⟨Or.inl ⟨hw1, hw2⟩, hw3, hsw, trivial⟩
          · simpa [Function.update_of_ne hj] using hok j
        · intro j; rw [hne]; exact hasg j
        · intro j q' hq'
          by_cases hj : j = i
          · subst hj
            simp only [Function.update_self, Status.param, Option.some.injEq] at hq' ⊢
            subst hq'
            exact ⟨hiW, by omega, hq, fun h => by omega⟩
          · simp only [Function.update_of_ne hj] at hq' ⊢
            obtain ⟨h1, h2, h3⟩ := hpar j q' hq'
            exact ⟨h1, by omega, h3⟩
        · simpa using hlen
        · intro j q' hq'
          by_cases hj : j = i
          · rw [hj]
          · rw [Function.update_of_ne hj] at hq'; exact absurd (hch j q' hq') (by simp)
        · intro j q' hq'
          by_cases hj : j = i
          · subst hj; simp at hq'
          · rw [Function.update_of_ne hj] at hq'; exact absurd (hse j q' hq') (by simp)
        · intro k hk
          by_cases hka : k = a
          · subst hka
            exact Or.inl ⟨i, by simp, by simp⟩
          by_cases hki : k = index i
          · subst hki
            exact Or.inr ⟨i, p, v, hiW, hip, hf, hresi, fun h => (hii h).symm⟩
          · rcases hresx k (by omega) hki with ⟨j, hj, hjk⟩ | h1
            · have hji : j ≠ i := by rintro rfl; exact hki hjk.symm
              exact Or.inl ⟨j, (hne j).2 hj, by simpa [Function.update_of_ne hji] using hjk⟩
            · exact Or.inr h1
        · intro j k hj hk hjk
          have hlt' : ∀ m, st m ≠ .free → index m < a := by
            intro m hm
            obtain ⟨q, hq⟩ := ne_free_param hm
            exact (hpar m q hq).2.1
          rw [hne] at hj hk
          simp only at hjk
          by_cases hja : j = i
          · by_cases hka : k = i
            · rw [hja, hka]
            · rw [hja, Function.update_self, Function.update_of_ne hka] at hjk
              have := hlt' k hk
              omega
          · by_cases hka : k = i
            · rw [hka, Function.update_self, Function.update_of_ne hja] at hjk
              have := hlt' j hj
              omega
            · rw [Function.update_of_ne hja, Function.update_of_ne hka] at hjk
              exact hinj j k hj hk hjk
        · simp only
          omega
        · have h2 := sum_change c.W i hiW (fun j => (st j).pending) (fun j => (Function.update st i (.chosen q) j).pending)
            (fun j hj => by simp only [Function.update_of_ne hj])
          simp only [Function.update_self, hpr] at h2
          have h4 : (Status.ready p v).pending = 0 := rfl
          rw [h4, add_zero] at h2
          simp only
          rw [h2, ← add_assoc, hcalls, take_succ_multiset hq]
          rfl
        · intro _
          exact ⟨by omega, fun _ j hj => (hne j).2 (hbusy j hj)⟩
        · intro _ j hj _
          exact (hne j).2 (hbusy j hj)
  | put i =>
    obtain ⟨p, hp⟩ := hpc
    obtain ⟨hiW, hia, hip, hii⟩ := hpar i p (by rw [hp]; rfl)
    simp only [managerStep, hip, Option.some.injEq] at hm
    subst hm
    have hoki := hok i
    rw [hp] at hoki
    obtain ⟨h1, h2, h3, h4⟩ := hoki
    have hne : ∀ j, Function.update st i (.sent p) j ≠ .free ↔ st j ≠ .free := by
      intro j
      by_cases hj : j = i
      · subst hj; simp [hp]
      · rw [Function.update_of_ne hj]
    refine ⟨Function.update st i (.sent p), a, ?_⟩
    refine { ok := ?_, asg := ?_, par := ?_, len := hlen, aN := haN, todo := htodo, pcOk := ⟨p, by simp⟩, chosenPc := ?_, sentPc := ?_, res := ?_,
             inj := ?_, count := hcount, calls := ?_, full := ?_, deadW := ?_ }
    · intro j
      by_cases hj : j = i
      · subst hj
        simp only [Function.update_self, WOk]
        rcases h1 with h1 | h1
        · left; simp [h1, h2, h3, h4]
        · right; exact h1
      · simpa [Function.update_of_ne hj] using hok j
    · intro j; rw [hne]; exact hasg j
    · intro j q hq
      by_cases hj : j = i
      · subst hj
        simp only [Function.update_self, Status.param, Option.some.injEq] at hq
        subst hq
        exact ⟨hiW, hia, hip, hii⟩
      · rw [Function.update_of_ne hj] at hq; exact hpar j q hq
    · intro j q hq
      by_cases hj : j = i
      · subst hj; simp at hq
      · rw [Function.update_of_ne hj] at hq
        have := hch j q hq
        simp only [MPc.put.injEq] at this
        exact absurd this.symm hj
    · intro j q hq
      by_cases hj : j = i
      · subst hj; exact Or.inl rfl
      · rw [Function.update_of_ne hj] at hq; exact absurd (hse j q hq) (by simp)
    · intro k hk
      rcases hres k hk with ⟨j, hj, hjk⟩ | hr
      · exact Or.inl ⟨j, (hne j).2 hj, hjk⟩
      · exact Or.inr hr
    · intro j k hj hk; exact hinj j k ((hne _).1 hj) ((hne _).1 hk)
    · have h2 := sum_change c.W i hiW (fun j => (st j).pending) (fun j => (Function.update st i (.sent p) j).pending)
        (fun j hj => by simp only [Function.update_of_ne hj])
      simp only [Function.update_self, hp] at h2
      have h4 : (Status.chosen p).pending = (Status.sent p).pending := rfl
      rw [h4] at h2
      simp only
      rw [add_right_cancel h2, hcalls]
    · intro _
      exact ⟨(hfull not_false).1, fun ha j hj => (hne j).2 ((hfull not_false).2 ha j hj)⟩
    · intro _ j hj hd
      rw [hne]
      by_cases hji : j = i
      · subst hji; rw [hp]; simp
      · simp only [Function.update_of_ne hji] at hd
        exact hdead not_false j hj hd
  | set i =>
    obtain ⟨p, hp⟩ := hpc
    obtain ⟨hiW, _⟩ := hpar i p (by rw [hp]; rfl)
    simp only [managerStep, Option.some.injEq] at hm
    subst hm
    have hinv := set_trigger (s := ⟨.set i, todo, assigned, index, computed, results, workers, calls⟩) (st := st) (a := a)
      ⟨hok, hasg, hpar, hlen, haN, htodo, ⟨p, hp⟩, hch, hse, hres, hinj, hcount, hcalls, hfull, hdead⟩
      hiW hp (Or.inl rfl) (pc := .poll (i + 1))
    exact hinv (fun st' hst' => trivial) (fun _ => not_false)

/-- Invariant, or the manager stopped with an `IndexError` because there are more workers than parameters. -/
def Good (c : Setup V) (s : DState V) : Prop := (s.pc = .indexError ∧ c.params.length < c.W) ∨ ∃ st a, Inv c s st a

theorem good_exec {c : Setup V} {s s' : DState V} (h : Good c s) {act : Act} (he : exec c s act = some s') : Good c s' := by
  rcases h with ⟨h, hlt⟩ | ⟨st, a, h⟩
  · left
    cases act with
    | manager => simp [exec, managerStep, h] at he
    | worker i =>
      simp only [exec] at he
      by_cases hi : i < c.W
      · rw [if_pos hi] at he
        simp only [Option.map_eq_some_iff] at he
        obtain ⟨x, _, rfl⟩ := he
        exact ⟨h, hlt⟩
      · rw [if_neg hi] at he; cases he
    | deliverM i =>
      simp only [exec] at he
      by_cases hi : i < c.W
      · rw [if_pos hi] at he
        cases hs : (s.workers i).sentM with
        | nil => rw [hs] at he; cases he
        | cons v rest => simp only [hs, Option.some.injEq] at he; subst he; exact ⟨h, hlt⟩
      · rw [if_neg hi] at he; cases he
    | deliverW i =>
      simp only [exec] at he
      by_cases hi : i < c.W
      · rw [if_pos hi] at he
        cases hs : (s.workers i).sentW with
        | nil => rw [hs] at he; cases he
        | cons v rest => simp only [hs, Option.some.injEq] at he; subst he; exact ⟨h, hlt⟩
      · rw [if_neg hi] at he; cases he
  · cases act with
    | manager =>
      by_cases hW : ∀ i, s.pc = .initPut i → i < c.W → i < c.params.length
      · exact Or.inr (inv_manager h hW he)
      · push Not at hW
        obtain ⟨i, h1, h2, h3⟩ := hW
        left
        have : c.params[i]? = none := List.getElem?_eq_none h3
        simp only [exec, managerStep, h1, if_pos h2, this, Option.some.injEq] at he
        subst he
        exact ⟨rfl, by omega⟩
    | worker i =>
      simp only [exec] at he
      by_cases hi : i < c.W
      · rw [if_pos hi] at he
        simp only [Option.map_eq_some_iff] at he
        obtain ⟨⟨w, l⟩, hx, rfl⟩ := he
        obtain ⟨st', hst'⟩ := inv_workerStep h hi hx
        exact Or.inr ⟨st', a, hst'⟩
      · rw [if_neg hi] at he; cases he
    | deliverM i =>
      simp only [exec] at he
      by_cases hi : i < c.W
      · rw [if_pos hi] at he
        cases hs : (s.workers i).sentM with
        | nil => rw [hs] at he; cases he
        | cons v rest => simp only [hs, Option.some.injEq] at he; subst he; exact Or.inr ⟨st, a, inv_deliverM h hi hs⟩
      · rw [if_neg hi] at he; cases he
    | deliverW i =>
      simp only [exec] at he
      by_cases hi : i < c.W
      · rw [if_pos hi] at he
        cases hs : (s.workers i).sentW with
        | nil => rw [hs] at he; cases he
        | cons v rest => simp only [hs, Option.some.injEq] at he; subst he; exact Or.inr ⟨st, a, inv_deliverW h hi hs⟩
      · rw [if_neg hi] at he; cases he

theorem good_step {c : Setup V} {s : DState V} (h : Good c s) (act : Act) : Good c (step c s act) := by
  unfold step
  cases he : exec c s act with
  | none => exact h
  | some s' => exact good_exec h he

theorem good_run {c : Setup V} {s : DState V} (h : Good c s) (acts : List Act) : Good c (runSchedule c s acts) := by
  induction acts generalizing s with
  | nil => exact h
  | cons x xs ih => exact ih (good_step h x)

theorem good_start (c : Setup V) (workers : Nat → WState V) (results : List (Option V)) (hq : ∀ i, Quiet (workers i))
    (hl : results.length = c.params.length) : Good c (startCompute c workers results) := by
  refine Or.inr ⟨fun _ => .free, 0, ?_⟩
  refine { ok := hq, asg := ?_, par := ?_, len := hl, aN := Nat.zero_le _, todo := ?_, pcOk := ?_, chosenPc := ?_, sentPc := ?_, res := ?_,
           inj := ?_, count := ?_, calls := ?_, full := ?_, deadW := ?_ }
  · intro i; simp [startCompute]
  · intro i p hp; cases hp
  · simp [startCompute, List.range_eq_range']
  · exact ⟨rfl, Nat.zero_le _, fun j => by simp⟩
  · intro i p hp; cases hp
  · intro i p hp; cases hp
  · intro k hk; omega
  · intro i j hi; exact absurd rfl hi
  · simp [startCompute]
  · simp [startCompute, Status.pending]
  · intro hn; exact absurd trivial hn
  · intro hn; exact absurd trivial hn

/-- What holds when `compute` returns. -/
theorem good_done {c : Setup V} {s : DState V} (h : Good c s) (hd : s.pc = .done) :
    c.W ≤ c.params.length ∧ s.results.length = c.params.length ∧
    (∀ k, k < c.params.length → ∃ i p r, i < c.W ∧ c.params[k]? = some p ∧ c.f i p = some r ∧ s.results[k]? = some (some r) ∧
      (k < c.W → i = k)) ∧
    s.calls.Perm c.params ∧ (∀ i, Quiet (s.workers i)) ∧ ∀ i, i < c.W → (s.workers i).pc ≠ .dead := by
  rcases h with ⟨h, _⟩ | ⟨st, a, h⟩
  · rw [hd] at h; cases h
  · have hpc := h.pcOk
    rw [hd] at hpc
    have hc : s.computed = c.params.length := hpc
    have hcount := h.count
    have haN := h.aN
    have ha : a = c.params.length := by omega
    have h0 : ∑ i ∈ Finset.range c.W, (if s.assigned i then 1 else 0) = 0 := by omega
    have hfree : ∀ i, st i = .free := by
      intro i
      by_contra hn
      obtain ⟨p, hp⟩ := ne_free_param hn
      have hi := (h.par i p hp).1
      have := Finset.sum_eq_zero_iff.1 h0 i (Finset.mem_range.2 hi)
      rw [(h.asg i).2 hn] at this
      simp at this
    have hni : ¬ InInit s.pc := by rw [hd]; exact not_false
    refine ⟨?_, h.len, ?_, ?_, ?_, ?_⟩
    · have := (h.full hni).1; omega
    · intro k hk
      rcases h.res k (by omega) with ⟨i, hi, _⟩ | hr
      · exact absurd (hfree i) hi
      · exact hr
    · have h1 := h.calls
      have h2 : ∑ i ∈ Finset.range c.W, (st i).pending = 0 := by
        apply Finset.sum_eq_zero
        intro i _
        rw [hfree i]; rfl
      rw [h2, add_zero, ha, List.take_length] at h1
      exact Multiset.coe_eq_coe.1 h1
    · intro i
      have := h.ok i
      rw [hfree i] at this
      exact this
    · intro i hi hdead
      exact h.deadW hni i hi hdead (hfree i)

theorem dead_exec {c : Setup V} {s s' : DState V} {i : Nat} (h : (s.workers i).pc = .dead) {act : Act} (he : exec c s act = some s') :
    (s'.workers i).pc = .dead := by
  have key : ∀ (j : Nat) (w : WState V), (j = i → w.pc = .dead) → (Function.update s.workers j w i).pc = .dead := by
    intro j w hw
    by_cases hj : i = j
    · subst hj; rw [Function.update_self]; exact hw rfl
    · rw [Function.update_of_ne hj]; exact h
  cases act with
  | manager =>
    simp only [exec, managerStep] at he
    cases hpc : s.pc with
    | initPut k =>
      simp only [hpc] at he
      by_cases hk : k < c.W
      · rw [if_pos hk] at he
        cases hp : c.params[k]? with
        | none => simp only [hp, Option.some.injEq] at he; subst he; exact h
        | some p => simp only [hp, Option.some.injEq] at he; subst he; exact key _ _ (by rintro rfl; exact h)
      · rw [if_neg hk] at he; simp only [Option.some.injEq] at he; subst he; exact h
    | initSet k => simp only [hpc, Option.some.injEq] at he; subst he; exact key _ _ (by rintro rfl; exact h)
    | poll k =>
      simp only [hpc] at he
      split_ifs at he <;> (simp only [Option.some.injEq] at he; subst he; exact h)
    | get k =>
      simp only [hpc] at he
      cases hp : (s.workers k).pipe with
      | nil => simp only [hp] at he; cases he
      | cons v rest =>
        simp only [hp] at he
        cases ht : s.todo with
        | nil => simp only [ht, Option.some.injEq] at he; subst he; exact key _ _ (by rintro rfl; exact h)
        | cons u us => simp only [ht, Option.some.injEq] at he; subst he; exact key _ _ (by rintro rfl; exact h)
    | put k =>
      simp only [hpc] at he
      cases hp : c.params[s.index k]? with
      | none => simp only [hp, Option.some.injEq] at he; subst he; exact h
      | some p => simp only [hp, Option.some.injEq] at he; subst he; exact key _ _ (by rintro rfl; exact h)
    | set k => simp only [hpc, Option.some.injEq] at he; subst he; exact key _ _ (by rintro rfl; exact h)
    | done => simp only [hpc] at he; cases he
    | indexError => simp only [hpc] at he; cases he
  | worker j =>
    simp only [exec] at he
    by_cases hj : j < c.W
    · rw [if_pos hj] at he
      simp only [Option.map_eq_some_iff] at he
      obtain ⟨⟨w, l⟩, hx, rfl⟩ := he
      refine key _ _ ?_
      rintro rfl
      simp [workerStep, h] at hx
    · rw [if_neg hj] at he; cases he
  | deliverM j =>
    simp only [exec] at he
    by_cases hj : j < c.W
    · rw [if_pos hj] at he
      cases hs : (s.workers j).sentM with
      | nil => rw [hs] at he; cases he
      | cons v rest => simp only [hs, Option.some.injEq] at he; subst he; exact key _ _ (by rintro rfl; exact h)
    · rw [if_neg hj] at he; cases he
  | deliverW j =>
    simp only [exec] at he
    by_cases hj : j < c.W
    · rw [if_pos hj] at he
      cases hs : (s.workers j).sentW with
      | nil => rw [hs] at he; cases he
      | cons v rest => simp only [hs, Option.some.injEq] at he; subst he; exact key _ _ (by rintro rfl; exact h)
    · rw [if_neg hj] at he; cases he

theorem dead_run {c : Setup V} {s : DState V} {i : Nat} (h : (s.workers i).pc = .dead) (acts : List Act) :
    ((runSchedule c s acts).workers i).pc = .dead := by
  induction acts generalizing s with
  | nil => exact h
  | cons x xs ih =>
    apply ih
    show ((step c s x).workers i).pc = .dead
    unfold step
    cases he : exec c s x with
    | none => exact h
    | some s' => exact dead_exec h he

end Verif.Proofs.Dispenser
