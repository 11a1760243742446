import Verif.Proofs.Lifecycle

/-!
# Without interruptions the life of a manager is a sequence of calls of `compute` in the sense of Verif.Model.Dispenser
-/

namespace Verif.Proofs.Lifecycle

open Verif.Model.Dispenser Verif.Proofs.Dispenser

variable {V : Type}

def Running (p : Pos) : Prop := p ≠ .unborn ∧ p ≠ .begin ∧ p ≠ .confirm

def Greeting (c : LifeSetup V) (p : Pos) (w : WState V) : Prop :=
  (Quiet w ∧ (p = .begin ∨ p = .confirm)) ∨ ((p = .head ∨ p = .wait) ∧ w.pc = .idle ∧ w.trigger = false ∧ w.sentM = [] ∧ w.sentW ++ w.pipe = [c.hello])

def PhaseInv (c : LifeSetup V) (s : Life V) : Prop :=
  match s.phase with
  | .spawn j => (∀ i, Quiet (s.d.workers i)) ∧ ∀ i, i < j → Running (s.pos i)
  | .await j => (∀ i, i ≠ j → Quiet (s.d.workers i)) ∧ Greeting c (s.pos j) (s.d.workers j) ∧ ∀ i, i < j → Running (s.pos i)
  | .free => s.keep = true → s.initialized = true ∧ (∀ i, Quiet (s.d.workers i)) ∧ ∀ i, i < c.W → Running (s.pos i)
  | .computing => s.keep = true ∧ Good (c.setup s.params) s.d ∧ ∀ i, i < c.W → Running (s.pos i)
  | .closeSet _ => True
  | .closeJoin _ => True

def OutcomeOk (c : LifeSetup V) : Outcome V → Prop
  | .value ps rs => rs = ps.map c.f ∧ ∀ p ∈ ps, c.f p ≠ none
  | .nothing => True
  | .indexError => False

structure RInv (c : LifeSetup V) (s : Life V) : Prop where
  inv : LInv c s
  phase : PhaseInv c s
  lens : s.keep = true → s.d.results.length = s.params.length ∧ c.W ≤ s.params.length
  log : ∀ o ∈ s.log, OutcomeOk c o
  freeClosed : s.phase = .free → s.keep = false → s.initialized = false

theorem rinv_start (c : LifeSetup V) (params : List V) (h : c.W ≤ params.length) : RInv c (lifeStart c params) where
  inv := lifeStart_inv c params
  phase := ⟨fun _ => ⟨Or.inl ⟨rfl, rfl⟩, rfl, rfl, rfl⟩, fun i hi => absurd hi (Nat.not_lt_zero i)⟩
  lens _ := ⟨by simp [lifeStart, startCompute], h⟩
  log o ho := by simp [lifeStart] at ho
  freeClosed h := by simp [lifeStart] at h

/-- A waiting worker changes only its position. -/
theorem quiet_worker {c : LifeSetup V} {p p' : Pos} {w w' : WState V} {l : List V} (hw : WI true p w) (hq : Quiet w) (hr : Running p)
    (he : lifeWorker c true p w = some (p', w', l)) : w' = w ∧ l = [] ∧ Running p' := by
  have hlate : Pos.late p = true → w.pc = .dead := by
    intro hl
    rcases hq.1 with h | h
    · have := hw.trig hl; rw [h.2] at this; cases this
    · exact h
  cases p with
  | unborn => cases he
  | begin => exact absurd rfl hr.2.1
  | confirm => exact absurd rfl hr.2.2
  | head => cases he; exact ⟨rfl, rfl, by simp [Running]⟩
  | wait =>
    simp only [lifeWorker] at he
    split at he
    · rename_i ht
      have hi := hw.idle (by decide) (by decide)
      rcases hq.1 with h | h
      · rw [h.2] at ht; cases ht
      · rw [hi] at h; cases h
    · cases he
  | task =>
    have h1 := hlate rfl
    have h2 := (hw.task rfl).1
    rw [h1] at h2; exact h2.elim
  | ended => cases he
  | checkTrigger => have h1 := hlate rfl; rw [hw.idle (by decide) (by decide)] at h1; cases h1
  | checkKeep => have h1 := hlate rfl; rw [hw.idle (by decide) (by decide)] at h1; cases h1
  | recheck => have h1 := hlate rfl; rw [hw.idle (by decide) (by decide)] at h1; cases h1
  | leave => have h1 := hlate rfl; rw [hw.idle (by decide) (by decide)] at h1; cases h1

/-- A worker during `compute`: a step of the worker of Verif.Model.Dispenser, or none. -/
theorem compute_worker {c : LifeSetup V} {p p' : Pos} {w w' : WState V} {l : List V} (hw : WI true p w) (hr : Running p)
    (he : lifeWorker c true p w = some (p', w', l)) : Running p' ∧ ((w' = w ∧ l = []) ∨ workerStep c.f w = some (w', l)) := by
  cases p with
  | unborn => cases he
  | begin => exact absurd rfl hr.2.1
  | confirm => exact absurd rfl hr.2.2
  | head => cases he; exact ⟨by simp [Running], .inl ⟨rfl, rfl⟩⟩
  | wait =>
    simp only [lifeWorker] at he
    split at he
    · cases he; exact ⟨by simp [Running], .inl ⟨rfl, rfl⟩⟩
    · cases he
  | checkTrigger =>
    have ht := hw.trig rfl
    simp only [lifeWorker, ht, if_true, Option.some.injEq, Prod.mk.injEq] at he
    obtain ⟨rfl, rfl, rfl⟩ := he
    exact ⟨by simp [Running], .inl ⟨rfl, rfl⟩⟩
  | checkKeep =>
    have ht := hw.trig rfl
    have hi := hw.idle (by decide) (by decide)
    simp only [lifeWorker, if_true, Option.some.injEq, Prod.mk.injEq] at he
    obtain ⟨rfl, rfl, rfl⟩ := he
    exact ⟨by simp [Running], .inr (by simp [workerStep, hi, ht])⟩
  | task =>
    simp only [lifeWorker, Option.map_eq_some_iff, Prod.mk.injEq] at he
    obtain ⟨⟨x, y⟩, hx, rfl, rfl, rfl⟩ := he
    refine ⟨?_, .inr hx⟩
    simp only
    cases x.pc <;> simp [Running, afterTask]
  | recheck => have := hw.out (.inl rfl); cases this
  | leave => have := hw.out (.inr rfl); cases this
  | ended => cases he

theorem managerStep_results {c : Setup V} {s s' : DState V} (h : managerStep c s = some s') : s'.results.length = s.results.length := by
  unfold managerStep at h
  split at h
  · split at h
    · split at h <;> cases h <;> rfl
    · cases h; rfl
  · cases h; rfl
  · split at h
    · split at h <;> cases h <;> rfl
    · split at h <;> cases h <;> rfl
  · split at h
    · cases h
    · simp only at h
      split at h <;> cases h <;> simp
  · split at h <;> cases h <;> rfl
  · cases h; rfl
  · cases h
  · cases h

theorem update_same {α : Type} (g : Nat → α) (i : Nat) : Function.update g i (g i) = g := Function.update_eq_self i g

theorem running_update {W : Nat} {pos : Nat → Pos} {i : Nat} {p : Pos} (h : ∀ j, j < W → Running (pos j)) (hp : Running p) : ∀ j, j < W → Running (Function.update pos i p j) := by
  intro j hj
  by_cases hij : j = i
  · subst hij; simpa using hp
  · simpa [Function.update_of_ne hij] using h j hj

theorem greeting_worker {c : LifeSetup V} {p p' : Pos} {w w' : WState V} {l : List V} (hw : WI true p w) (hg : Greeting c p w)
    (he : lifeWorker c true p w = some (p', w', l)) : Greeting c p' w' ∧ l = [] := by
  rcases hg with ⟨hq, rfl | rfl⟩ | ⟨rfl | rfl, h1, h2, h3, h4⟩
  · cases he; exact ⟨.inl ⟨hq, .inr rfl⟩, rfl⟩
  · cases he
    have hi := hw.idle (by decide) (by decide)
    rcases hq with ⟨h1 | h1, h2, h3, h4⟩
    · exact ⟨.inr ⟨.inl rfl, h1.1, h1.2, h2, by simp [h3, h4]⟩, rfl⟩
    · rw [hi] at h1; cases h1
  · cases he; exact ⟨.inr ⟨.inr rfl, h1, h2, h3, h4⟩, rfl⟩
  · simp [lifeWorker, h2] at he

theorem RInv.worker {c : LifeSetup V} {s : Life V} (h : RInv c s) {i : Nat} (hi : i < c.W) {p' : Pos} {w' : WState V} {l : List V}
    (he : lifeWorker c s.keep (s.pos i) (s.d.workers i) = some (p', w', l)) :
    PhaseInv c { s with pos := Function.update s.pos i p', d := { s.d with workers := Function.update s.d.workers i w', calls := s.d.calls ++ l } } := by
  have hp := h.phase
  have hw := h.inv.ws i
  unfold PhaseInv at hp ⊢
  cases hph : s.phase with
  | closeSet j => trivial
  | closeJoin j => trivial
  | spawn j =>
    rw [hph] at hp
    simp only at hp ⊢
    have hk := (h.inv.building ⟨j, .inl hph⟩).1
    rw [hk] at he hw
    by_cases hij : i < j
    · obtain ⟨rfl, rfl, h3⟩ := quiet_worker hw (hp.1 i) (hp.2 i hij) he
      rw [update_same]
      exact ⟨hp.1, running_update (W := j) hp.2 h3⟩
    · rw [h.inv.unb i (.inl ⟨j, hph, by omega⟩)] at he; cases he
  | await j =>
    rw [hph] at hp
    simp only at hp ⊢
    have hk := (h.inv.building ⟨j, .inr hph⟩).1
    rw [hk] at he hw
    rcases lt_trichotomy i j with hij | hij | hij
    · obtain ⟨rfl, rfl, h3⟩ := quiet_worker hw (hp.1 i (by omega)) (hp.2.2 i hij) he
      rw [update_same, Function.update_of_ne (show j ≠ i by omega)]
      exact ⟨hp.1, hp.2.1, running_update (W := j) hp.2.2 h3⟩
    · subst hij
      obtain ⟨h1, rfl⟩ := greeting_worker hw hp.2.1 he
      simp only [Function.update_self]
      refine ⟨fun k hk2 => ?_, h1, fun k hk2 => ?_⟩
      · rw [Function.update_of_ne hk2]; exact hp.1 k hk2
      · rw [Function.update_of_ne (by omega)]; exact hp.2.2 k hk2
    · rw [h.inv.unb i (.inr ⟨j, hph, hij⟩)] at he; cases he
  | free =>
    rw [hph] at hp
    simp only at hp ⊢
    intro hk
    obtain ⟨a1, a2, a3⟩ := hp hk
    rw [hk] at he hw
    obtain ⟨rfl, rfl, h3⟩ := quiet_worker hw (a2 i) (a3 i hi) he
    rw [update_same]
    exact ⟨a1, a2, running_update a3 h3⟩
  | computing =>
    rw [hph] at hp
    simp only at hp ⊢
    obtain ⟨hk, hgood, hrun⟩ := hp
    rw [hk] at he hw
    obtain ⟨h1, h2⟩ := compute_worker hw (hrun i hi) he
    refine ⟨hk, ?_, running_update hrun h1⟩
    rcases h2 with ⟨rfl, rfl⟩ | h2
    · rw [update_same, List.append_nil]; exact hgood
    · refine good_exec hgood (act := .worker i) ?_
      show exec (c.setup s.params) s.d (.worker i) = _
      have hiS : i < (c.setup s.params).W := hi
      simp only [exec, if_pos hiS]
      rw [show (c.setup s.params).f i = c.f from rfl, h2]
      rfl

theorem RInv.deliver {c : LifeSetup V} {s : Life V} (h : RInv c s) {a : Act} {i : Nat} (ha : a = .deliverM i ∨ a = .deliverW i) {d : DState V}
    (he : exec (c.setup s.params) s.d a = some d) : PhaseInv c { s with d := d } ∧ d.results = s.d.results := by
  have hres : d.results = s.d.results := by
    rcases ha with rfl | rfl <;> (simp only [exec] at he; split at he <;> [skip; cases he]; split at he <;> cases he; rfl)
  refine ⟨?_, hres⟩
  have hquiet : ¬ Quiet (s.d.workers i) := by
    rintro ⟨_, h1, h2, _⟩
    rcases ha with rfl | rfl
    · simp [exec, h1] at he
    · simp [exec, h2] at he
  have hp := h.phase
  unfold PhaseInv at hp ⊢
  cases hph : s.phase with
  | closeSet j => trivial
  | closeJoin j => trivial
  | spawn j =>
    rw [hph] at hp
    exact absurd (hp.1 i) hquiet
  | await j =>
    rw [hph] at hp
    simp only at hp ⊢
    by_cases hij : i = j
    · subst hij
      have hother : ∀ k, k ≠ i → d.workers k = s.d.workers k := by
        intro k hk
        rcases ha with rfl | rfl <;>
          (simp only [exec] at he; split at he <;> [skip; cases he]; split at he <;> cases he; simp [DState.setWorker, Function.update_of_ne hk])
      refine ⟨fun k hk => by rw [hother k hk]; exact hp.1 k hk, ?_, hp.2.2⟩
      rcases hp.2.1 with ⟨hq, _⟩ | ⟨g1, g2, g3, g4, g5⟩
      · exact absurd hq hquiet
      · rcases ha with rfl | rfl
        · simp [exec, g4] at he
        · simp only [exec] at he
          split at he
          · split at he
            · cases he
            · rename_i v rest hs
              cases he
              rw [hs] at g5
              simp only [List.cons_append, List.cons.injEq, List.append_eq_nil_iff] at g5
              obtain ⟨rfl, rfl, g6⟩ := g5
              refine .inr ⟨g1, ?_⟩
              simp [DState.setWorker, g2, g3, g4, g6]
          · cases he
    · exact absurd (hp.1 i hij) hquiet
  | free =>
    rw [hph] at hp
    simp only at hp ⊢
    intro hk
    exact absurd ((hp hk).2.1 i) hquiet
  | computing =>
    rw [hph] at hp
    exact ⟨hp.1, good_exec hp.2.1 he, hp.2.2⟩

theorem good_value {c : LifeSetup V} {params : List V} {d : DState V} (hg : Good (c.setup params) d) (hd : d.pc = .done) :
    OutcomeOk c (.value params d.results) := by
  obtain ⟨_, h2, h3, _⟩ := good_done hg hd
  have h2 : d.results.length = params.length := h2
  have key : ∀ k, k < params.length → ∃ p r, params[k]? = some p ∧ c.f p = some r ∧ d.results[k]? = some (some r) := by
    intro k hk
    obtain ⟨i, p, r, _, hp, hf, hres, _⟩ := h3 k hk
    exact ⟨p, r, hp, hf, hres⟩
  constructor
  · apply List.ext_getElem?
    intro k
    by_cases hk : k < params.length
    · obtain ⟨p, r, hp, hf, hres⟩ := key k hk
      rw [hres, List.getElem?_map, hp, Option.map_some, hf]
    · rw [List.getElem?_eq_none (by omega), List.getElem?_eq_none (by simp; omega)]
  · intro p hp
    obtain ⟨k, hk, hkp⟩ := List.mem_iff_getElem.1 hp
    obtain ⟨q, r, hq, hf, _⟩ := key k hk
    rw [List.getElem?_eq_getElem hk, hkp] at hq
    cases hq
    rw [hf]; simp

theorem RInv.main {c : LifeSetup V} {s s' : Life V} (h : RInv c s) (he : lifeMain c s = some s') : RInv c s' := by
  have hinv := h.inv.main he
  have hp := h.phase
  unfold PhaseInv at hp
  unfold lifeMain at he
  split at he
  · rename_i i hph
    rw [hph] at hp
    simp only at hp
    split at he
    · rename_i hi
      cases he
      refine ⟨hinv, ⟨fun k _ => hp.1 k, .inl ⟨hp.1 i, .inl (by simp)⟩, fun k hk => ?_⟩, h.lens, h.log, by simp⟩
      show Running (Function.update s.pos i Pos.begin k)
      rw [Function.update_of_ne (by omega)]; exact hp.2 k hk
    · rename_i hi
      cases he
      have hkt := (h.inv.building ⟨i, .inl hph⟩).1
      exact ⟨hinv, fun _ => ⟨rfl, hp.1, fun k hk => hp.2 k (by omega)⟩, h.lens, h.log, fun _ hk => (by have hk : s.keep = false := hk; rw [hkt] at hk; cases hk)⟩
  · rename_i i hph
    rw [hph] at hp
    simp only at hp
    split at he
    · cases he; exact h
    · rename_i v rest hpipe
      cases he
      obtain ⟨h1, h2, h3⟩ := hp
      rcases h2 with ⟨hq, _⟩ | ⟨g1, g2, g3, g4, g5⟩
      · rw [hq.2.2.2] at hpipe; cases hpipe
      · have g6 : (s.d.workers i).sentW = [] ∧ rest = [] := by
          rw [hpipe] at g5
          cases hs : (s.d.workers i).sentW with
          | nil => rw [hs] at g5; simp at g5; exact ⟨rfl, g5.2⟩
          | cons a as => rw [hs] at g5; simp at g5
        refine ⟨hinv, ⟨fun k => ?_, fun k hk => ?_⟩, h.lens, h.log, by simp⟩
        · by_cases hki : k = i
          · subst hki
            simp only [DState.setWorker, Function.update_self]
            exact ⟨.inl ⟨g2, g3⟩, g4, g6.1, g6.2⟩
          · simpa [DState.setWorker, Function.update_of_ne hki] using h1 k hki
        · rcases Nat.lt_succ_iff_lt_or_eq.1 hk with hk | rfl
          · exact h3 k hk
          · rcases g1 with g | g <;> (show Running (s.pos k); rw [g]; simp [Running])
  · cases he
  · rename_i hph
    rw [hph] at hp
    simp only at hp
    obtain ⟨hk, hgood, hrun⟩ := hp
    have hin := h.inv.compPhase hph
    split at he
    · rename_i hd
      cases he
      refine ⟨hinv, fun _ => ⟨hin, (good_done hgood hd).2.2.2.2.1, hrun⟩, h.lens, fun o ho => ?_, fun _ hk2 => (by have hk2 : s.keep = false := hk2; rw [hk] at hk2; cases hk2)⟩
      simp only [List.mem_append, List.mem_singleton] at ho
      rcases ho with ho | rfl
      · exact h.log o ho
      · exact good_value hgood hd
    · rename_i hd
      rcases hgood with ⟨_, hlt⟩ | ⟨st, a, hi⟩
      · have := (h.lens hk).2
        have hlt : s.params.length < c.W := hlt
        omega
      · have := hi.pcOk
        rw [hd] at this
        exact this.elim
    · simp only [Option.map_eq_some_iff] at he
      obtain ⟨d, hd, rfl⟩ := he
      refine ⟨hinv, ?_, fun _ => ?_, h.log, by simp [hph]⟩
      · unfold PhaseInv
        simp only [hph]
        exact ⟨hk, good_exec hgood (act := .manager) hd, hrun⟩
      · have := managerStep_results hd
        exact ⟨this.trans (h.lens hk).1, (h.lens hk).2⟩
  · rename_i i hph
    have hk := (h.inv.closePhase ⟨i, .inl hph⟩).1
    split at he
    · cases he; exact ⟨hinv, trivial, fun hk2 => (by have hk2 : s.keep = true := hk2; rw [hk] at hk2; cases hk2), h.log, by simp⟩
    · cases he; exact ⟨hinv, trivial, fun hk2 => (by have hk2 : s.keep = true := hk2; rw [hk] at hk2; cases hk2), h.log, by simp⟩
  · rename_i i hph
    have hk := (h.inv.closePhase ⟨i, .inr hph⟩).1
    split at he
    · cases he; exact ⟨hinv, trivial, fun hk2 => (by have hk2 : s.keep = true := hk2; rw [hk] at hk2; cases hk2), h.log, by simp⟩
    · cases he
      exact ⟨hinv, fun hk2 => (by have hk2 : s.keep = true := hk2; rw [hk] at hk2; cases hk2), fun hk2 => (by have hk2 : s.keep = true := hk2; rw [hk] at hk2; cases hk2), h.log, fun _ _ => rfl⟩

theorem RInv.call {c : LifeSetup V} {s s' : Life V} (h : RInv c s) {a : ApiCall V} (he : lifeCall c s a = some s') : RInv c s' := by
  have hinv := h.inv.call he
  have hp := h.phase
  unfold PhaseInv at hp
  cases a with
  | compute =>
    simp only [lifeCall] at he
    split at he
    · rename_i hph
      rw [hph] at hp
      simp only at hp
      split at he
      · rename_i hin
        cases he
        have hk : s.keep = true := by
          cases hk : s.keep with
          | true => rfl
          | false => rw [h.freeClosed hph hk] at hin; cases hin
        obtain ⟨_, h2, h3⟩ := hp hk
        exact ⟨hinv, ⟨hk, good_start (c.setup s.params) s.d.workers s.d.results h2 (h.lens hk).1, h3⟩, h.lens, h.log, by simp⟩
      · cases he
        refine ⟨hinv, ?_, h.lens, fun o ho => ?_, h.freeClosed⟩
        · unfold PhaseInv; simp only [hph]; exact hp
        · simp only [List.mem_append, List.mem_singleton] at ho
          rcases ho with ho | rfl
          · exact h.log o ho
          · trivial
    · cases he
  | update ps =>
    simp only [lifeCall] at he
    split at he
    · rename_i hph
      rw [hph] at hp
      simp only at hp
      split at he
      · rename_i hin
        split at he
        · cases he; exact h
        · rename_i r hr
          cases he
          refine ⟨hinv, ?_, fun _ => ?_, h.log, h.freeClosed⟩
          · unfold PhaseInv; simp only [hph]; exact hp
          · unfold updateParams at hr
            split at hr
            · cases hr
            · split at hr
              · cases hr
              · cases hr; exact ⟨by simp, by show c.W ≤ ps.length; omega⟩
      · cases he; exact h
    · cases he
  | close =>
    simp only [lifeCall] at he
    split at he
    · rename_i hph
      rw [hph] at hp
      simp only at hp
      split at he
      · cases he
        exact ⟨hinv, trivial, fun hk => (by cases hk), h.log, by simp⟩
      · rename_i hin
        cases he
        have hk : s.keep = false := by
          cases hk : s.keep with
          | false => rfl
          | true => exact absurd (hp hk).1 hin
        refine ⟨hinv, ?_, fun hk2 => (by have hk2 : s.keep = true := hk2; rw [hk] at hk2; cases hk2), h.log, h.freeClosed⟩
        unfold PhaseInv; simp only [hph]
        intro hk2
        rw [hk] at hk2; cases hk2
    · cases he

def LAct.isInterrupt : LAct V → Bool
  | .interrupt => true
  | _ => false

theorem RInv.exec {c : LifeSetup V} {s s' : Life V} (h : RInv c s) {a : LAct V} (ha : LAct.isInterrupt a = false) (he : lifeExec c s a = some s') : RInv c s' := by
  cases a with
  | main => exact h.main he
  | worker i =>
    have hinv := h.inv.exec he
    simp only [lifeExec] at he
    split at he
    · rename_i hi
      simp only [Option.map_eq_some_iff] at he
      obtain ⟨⟨p, w, l⟩, hx, rfl⟩ := he
      exact ⟨hinv, h.worker hi hx, h.lens, h.log, h.freeClosed⟩
    · cases he
  | deliverM i =>
    have hinv := h.inv.exec he
    simp only [lifeExec, Option.map_eq_some_iff] at he
    obtain ⟨d, hd, rfl⟩ := he
    obtain ⟨h1, h2⟩ := h.deliver (.inl rfl) hd
    exact ⟨hinv, h1, fun hk => by rw [h2]; exact h.lens hk, h.log, h.freeClosed⟩
  | deliverW i =>
    have hinv := h.inv.exec he
    simp only [lifeExec, Option.map_eq_some_iff] at he
    obtain ⟨d, hd, rfl⟩ := he
    obtain ⟨h1, h2⟩ := h.deliver (.inr rfl) hd
    exact ⟨hinv, h1, fun hk => by rw [h2]; exact h.lens hk, h.log, h.freeClosed⟩
  | call a => exact h.call he
  | interrupt => cases ha

theorem RInv.step {c : LifeSetup V} {s : Life V} (h : RInv c s) {a : LAct V} (ha : LAct.isInterrupt a = false) : RInv c (lifeStep c s a) := by
  unfold lifeStep
  cases he : lifeExec c s a with
  | none => exact h
  | some s' => exact h.exec ha he

theorem RInv.run {c : LifeSetup V} {s : Life V} (h : RInv c s) (acts : List (LAct V)) (ha : ∀ a ∈ acts, LAct.isInterrupt a = false) : RInv c (lifeRun c s acts) := by
  induction acts generalizing s with
  | nil => exact h
  | cons a as ih => exact ih (h.step (ha a (by simp))) fun b hb => ha b (by simp [hb])

end Verif.Proofs.Lifecycle
