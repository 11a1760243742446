import Verif.Model.PolyWarn
import Verif.Props.Json
import Verif.Props.Warn

/-!
# C75: the warnings of the polynomials in a calculation of a kernel
-/

namespace Verif.Props
open Verif.Model Verif.Spec Verif.Proofs

/-- Object `i` has a warning to give. -/
def Due (order : Nat → Int) (s : SlowState) (i : Nat) : Prop := 50 < order i ∧ s.flags i = false

theorem slowCall_due (strict : Bool) (order : Nat → Int) (i : Nat) (s : SlowState) (h : Due order s i) :
    slowCall strict order i s = if strict then (some i, s) else (none, ⟨fun j => if j = i then true else s.flags j, s.log ++ [i]⟩) := by
  have h1 := h.1
  have h2 := h.2
  unfold slowCall slowWarn
  rw [if_pos (by rfl), if_neg (by omega), if_pos ⟨h1, h2⟩]

theorem slowCall_not (strict : Bool) (order : Nat → Int) (i : Nat) (s : SlowState) (h : ¬ Due order s i) : slowCall strict order i s = (none, s) := by
  unfold slowCall slowWarn
  rw [if_pos (by rfl)]
  by_cases h1 : order i ≤ 12
  · rw [if_pos h1]
  · rw [if_neg h1, if_neg (by exact h)]

/-- The effect of evaluations of the objects in `ids` with shown warnings. -/
def Warned (order : Nat → Int) (ids : List Nat) (s s' : SlowState) : Prop :=
  (∀ i, i ∈ ids ∧ Due order s i → s'.log.count i = s.log.count i + 1 ∧ s'.flags i = true) ∧
  (∀ i, ¬ (i ∈ ids ∧ Due order s i) → s'.log.count i = s.log.count i ∧ s'.flags i = s.flags i)

theorem slowPass_shown (order : Nat → Int) (ids : List Nat) (s : SlowState) :
    ∃ s', slowPass false order ids s = (none, s') ∧ Warned order ids s s' := by
  induction ids generalizing s with
  | nil => exact ⟨s, rfl, by simp, by simp⟩
  | cons i ids ih =>
    unfold slowPass
    by_cases h : Due order s i
    · rw [slowCall_due false order i s h]
      simp only [Bool.false_eq_true, if_false]
      obtain ⟨s', h1, h2, h3⟩ := ih ⟨fun j => if j = i then true else s.flags j, s.log ++ [i]⟩
      refine ⟨s', h1, ?_, ?_⟩
      · rintro j ⟨hj, hd⟩
        by_cases hji : j = i
        · subst hji
          obtain ⟨a, b⟩ := h3 j (fun hc => by have := hc.2.2; simp at this)
          exact ⟨by rw [a]; simp [List.count_append], by rw [b]; simp⟩
        · have hj' : j ∈ ids := by simpa [hji] using hj
          have hd' : Due order ⟨fun j => if j = i then true else s.flags j, s.log ++ [i]⟩ j := ⟨hd.1, by simpa [hji] using hd.2⟩
          obtain ⟨a, b⟩ := h2 j ⟨hj', hd'⟩
          exact ⟨by rw [a]; simp [List.count_append, List.count_singleton, Ne.symm hji], b⟩
      · intro j hj
        by_cases hji : j = i
        · subst hji; exact absurd ⟨List.mem_cons_self .., h⟩ hj
        · have hn : ¬ (j ∈ ids ∧ Due order ⟨fun j => if j = i then true else s.flags j, s.log ++ [i]⟩ j) := by
            rintro ⟨a, b⟩
            exact hj ⟨List.mem_cons_of_mem _ a, b.1, by simpa [hji] using b.2⟩
          obtain ⟨a, b⟩ := h3 j hn
          exact ⟨by rw [a]; simp [List.count_append, List.count_singleton, Ne.symm hji], by rw [b]; simp [hji]⟩
    · rw [slowCall_not false order i s h]
      obtain ⟨s', h1, h2, h3⟩ := ih s
      refine ⟨s', h1, ?_, ?_⟩
      · rintro j ⟨hj, hd⟩
        rcases List.mem_cons.mp hj with rfl | hj
        · exact absurd hd h
        · exact h2 j ⟨hj, hd⟩
      · intro j hj
        exact h3 j fun hc => hj ⟨List.mem_cons_of_mem _ hc.1, hc.2⟩

theorem slowPasses_shown (order : Nat → Int) (ids : List Nat) (k : Nat) (hk : 0 < k) (s : SlowState) :
    ∃ s', slowPasses false order ids k s = (none, s') ∧ Warned order ids s s' := by
  have quietRun : ∀ k (s : SlowState), (∀ i ∈ ids, ¬ Due order s i) → ∃ s', slowPasses false order ids k s = (none, s') ∧ Warned order [] s s' := by
    intro k
    induction k with
    | zero => intro s _; exact ⟨s, rfl, by simp, by simp⟩
    | succ k ih =>
      intro s hs
      unfold slowPasses
      obtain ⟨s1, h1, -, h3⟩ := slowPass_shown order ids s
      rw [h1]
      have hall : ∀ i, s1.log.count i = s.log.count i ∧ s1.flags i = s.flags i := fun i => h3 i fun hc => hs i hc.1 hc.2
      obtain ⟨s', e, -, k3⟩ := ih s1 fun i hi hd => hs i hi ⟨hd.1, by rw [← (hall i).2]; exact hd.2⟩
      refine ⟨s', e, by simp, fun i _ => ?_⟩
      obtain ⟨a, b⟩ := k3 i (by simp)
      exact ⟨a.trans (hall i).1, b.trans (hall i).2⟩
  obtain ⟨k, rfl⟩ : ∃ k', k = k' + 1 := ⟨k - 1, by omega⟩
  unfold slowPasses
  obtain ⟨s1, h1, h2, h3⟩ := slowPass_shown order ids s
  rw [h1]
  obtain ⟨s', e, -, k3⟩ := quietRun k s1 (by
    intro i hi hd
    by_cases h : Due order s i
    · have := (h2 i ⟨hi, h⟩).2
      rw [hd.2] at this; cases this
    · have := (h3 i fun hc => h hc.2).2
      exact h ⟨hd.1, by rw [← this]; exact hd.2⟩)
  refine ⟨s', e, fun i hi => ?_, fun i hi => ?_⟩
  · obtain ⟨a, b⟩ := k3 i (by simp)
    exact ⟨a.trans (h2 i hi).1, b.trans (h2 i hi).2⟩
  · obtain ⟨a, b⟩ := k3 i (by simp)
    exact ⟨a.trans (h3 i hi).1, b.trans (h3 i hi).2⟩

theorem slowPass_strict (order : Nat → Int) (ids : List Nat) (s : SlowState) :
    ((∀ i ∈ ids, ¬ Due order s i) → slowPass true order ids s = (none, s)) ∧
    ((∃ i ∈ ids, Due order s i) → ∃ i ∈ ids, Due order s i ∧ slowPass true order ids s = (some i, s)) := by
  induction ids with
  | nil => exact ⟨fun _ => rfl, by simp⟩
  | cons i ids ih =>
    unfold slowPass
    by_cases h : Due order s i
    · rw [slowCall_due true order i s h]
      exact ⟨fun hn => absurd h (hn i (List.mem_cons_self ..)), fun _ => ⟨i, List.mem_cons_self .., h, rfl⟩⟩
    · rw [slowCall_not true order i s h]
      refine ⟨fun hn => ih.1 fun j hj => hn j (List.mem_cons_of_mem _ hj), ?_⟩
      rintro ⟨j, hj, hd⟩
      rcases List.mem_cons.mp hj with rfl | hj
      · exact absurd hd h
      · obtain ⟨l, hl, hd', e⟩ := ih.2 ⟨j, hj, hd⟩
        exact ⟨l, List.mem_cons_of_mem _ hl, hd', e⟩

/-- The number of evaluations in a calculation that returns, for an object in any reachable state: none if accelerated, at least one otherwise, if some
polynomial is not the piston. -/
theorem passes_pos (o : PsfObj) (t : CoefState) (hr : PsfReachable o t) (env : Env) (suppress normalized : Bool) (accelerated : Option Bool) (g : Grid)
    (hg : (o.calculate env suppress normalized accelerated t).1 = .ok g) (hacc : env.accelerate accelerated = false)
    (hn : ∃ z ∈ psfPols o, 0 < z.n) : 0 < o.passes env accelerated (g.rows * g.cols) := by
  have hpix : 0 < g.rows * g.cols := by
    rcases calculate_cases env o hr.inv suppress normalized accelerated t with ⟨e, h1, _⟩ | ⟨g', S, h1, h2, h3, h4, h5⟩
    · rw [h1] at hg; cases hg
    · rw [h1] at hg
      cases hg
      obtain ⟨r, c, -⟩ := h5
      have : 0 < g.rows := by omega
      have : 0 < g.cols := by omega
      positivity
  have hper : 0 < passesPerPixel o.nPhi := by unfold passesPerPixel; omega
  have hm : 0 < g.rows * g.cols * passesPerPixel o.nPhi := Nat.mul_pos hpix hper
  unfold PsfObj.passes
  rw [hacc]
  simp only [Bool.false_eq_true, if_false]
  obtain ⟨z, hz, hzn⟩ := hn
  rcases hzp : o.zernpol with _ | z'
  · simp only [psfPols, hzp] at hz
    have hne : o.polynomials ≠ [] := List.ne_nil_of_mem hz
    simpa [hne] using hm
  · simp only [psfPols, hzp, List.mem_singleton] at hz
    subst hz
    have := hr.airy hzp (by omega)
    simpa [this] using hm

/-- C75. The warnings of the polynomials in a calculation that returns: without acceleration each polynomial object of an order above 50 that has not
warned before warns exactly once, whether the warnings of the calculation are suppressed or not, and no other object does; accelerated, none. -/
theorem polynomial_warnings_exact (o : PsfObj) (t : CoefState) (hr : PsfReachable o t) (env : Env) (suppress normalized : Bool) (accelerated : Option Bool)
    (g : Grid) (hg : (o.calculate env suppress normalized accelerated t).1 = .ok g) (order : Nat → Int) (ids : List Nat)
    (hids : ids.map order = (psfPols o).map fun z => z.n) (s : SlowState) :
    ∃ s', o.calculateSlow false env suppress normalized accelerated t order ids s = (none, s') ∧
      (∀ i, env.accelerate accelerated = false ∧ i ∈ ids ∧ 50 < order i ∧ s.flags i = false →
        s'.log.count i = s.log.count i + 1 ∧ s'.flags i = true) ∧
      (∀ i, ¬ (env.accelerate accelerated = false ∧ i ∈ ids ∧ 50 < order i ∧ s.flags i = false) →
        s'.log.count i = s.log.count i ∧ s'.flags i = s.flags i) := by
  have hc : o.calculateSlow false env suppress normalized accelerated t order ids s =
      slowPasses false order ids (o.passes env accelerated (g.rows * g.cols)) s := by
    unfold PsfObj.calculateSlow
    rcases hh : o.calculate env suppress normalized accelerated t with ⟨r, o', t'⟩
    rw [hh] at hg
    dsimp only at hg
    subst hg
    rfl
  rw [hc]
  by_cases hacc : env.accelerate accelerated = true
  · have h0 : o.passes env accelerated (g.rows * g.cols) = 0 := by unfold PsfObj.passes; rw [if_pos hacc]
    rw [h0]
    exact ⟨s, rfl, fun i hi => by rw [hacc] at hi; exact absurd hi.1 (by simp), fun i _ => ⟨rfl, rfl⟩⟩
  · rw [Bool.not_eq_true] at hacc
    by_cases hex : ∃ i ∈ ids, Due order s i
    · obtain ⟨i, hi, hd⟩ := hex
      have hz : ∃ z ∈ psfPols o, 0 < z.n := by
        have : order i ∈ ids.map order := List.mem_map.mpr ⟨i, hi, rfl⟩
        rw [hids] at this
        obtain ⟨z, hz, hzn⟩ := List.mem_map.mp this
        have := hd.1
        exact ⟨z, hz, by omega⟩
      obtain ⟨s', e, h2, h3⟩ := slowPasses_shown order ids _ (passes_pos o t hr env suppress normalized accelerated g hg hacc hz) s
      exact ⟨s', e, fun i hi => h2 i ⟨hi.2.1, hi.2.2⟩, fun i hi => h3 i fun hc => hi ⟨hacc, hc.1, hc.2⟩⟩
    · push Not at hex
      have hk : ∃ s', slowPasses false order ids (o.passes env accelerated (g.rows * g.cols)) s = (none, s') ∧ Warned order ids s s' := by
        rcases Nat.eq_zero_or_pos (o.passes env accelerated (g.rows * g.cols)) with h0 | h0
        · rw [h0]; exact ⟨s, rfl, fun i hi => absurd hi.2 (hex i hi.1), fun i _ => ⟨rfl, rfl⟩⟩
        · exact slowPasses_shown order ids _ h0 s
      obtain ⟨s', e, -, h3⟩ := hk
      exact ⟨s', e, fun i hi => absurd hi.2.2 (hex i hi.2.1), fun i hi => h3 i fun hc => hi ⟨hacc, hc.1, hc.2⟩⟩

/-- C109. With the filter "error" the warning of a polynomial of an order above 50 ends the calculation (without acceleration), even if the warnings are
suppressed; its flag is not set, so every further call raises it again: such a kernel cannot be computed. -/
theorem polynomial_warning_raised (o : PsfObj) (t : CoefState) (hr : PsfReachable o t) (env : Env) (suppress normalized : Bool) (accelerated : Option Bool)
    (g : Grid) (hg : (o.calculate env suppress normalized accelerated t).1 = .ok g) (hacc : env.accelerate accelerated = false)
    (order : Nat → Int) (ids : List Nat) (hids : ids.map order = (psfPols o).map fun z => z.n) (s : SlowState)
    (hd : ∃ i ∈ ids, 50 < order i ∧ s.flags i = false) :
    ∃ i ∈ ids, 50 < order i ∧ o.calculateSlow true env suppress normalized accelerated t order ids s = (some i, s) := by
  have hc : o.calculateSlow true env suppress normalized accelerated t order ids s =
      slowPasses true order ids (o.passes env accelerated (g.rows * g.cols)) s := by
    unfold PsfObj.calculateSlow
    rcases hh : o.calculate env suppress normalized accelerated t with ⟨r, o', t'⟩
    rw [hh] at hg
    dsimp only at hg
    subst hg
    rfl
  rw [hc]
  obtain ⟨i, hi, hdi⟩ := hd
  have hz : ∃ z ∈ psfPols o, 0 < z.n := by
    have : order i ∈ ids.map order := List.mem_map.mpr ⟨i, hi, rfl⟩
    rw [hids] at this
    obtain ⟨z, hz, hzn⟩ := List.mem_map.mp this
    have := hdi.1
    exact ⟨z, hz, by omega⟩
  have hp := passes_pos o t hr env suppress normalized accelerated g hg hacc hz
  obtain ⟨k, hk⟩ : ∃ k, o.passes env accelerated (g.rows * g.cols) = k + 1 := ⟨_, (Nat.succ_pred_eq_of_pos hp).symm⟩
  rw [hk]
  unfold slowPasses
  obtain ⟨j, hj, hdj, e⟩ := (slowPass_strict order ids s).2 ⟨i, hi, hdi⟩
  exact ⟨j, hj, hdj.1, by rw [e]⟩

/-- Two objects of orders 52 and 4, the first one twice in the list: the first one warns once. -/
example : (slowPasses false (fun i => if i = 0 then 52 else 4) [0, 1, 0] 7 ⟨fun _ => false, []⟩).2.log = [0] := by decide

end Verif.Props
