import Verif.Props.Units
import Verif.Props.Parallel

/-!
# C66: the unit of length and the parallel kernel calculation
-/

namespace Verif.Props
open Verif.Model Verif.Spec Verif.Proofs

/-- The two objects agree up to the unit, also in the wave number that `get_kernel_parallel` uses. -/
structure SameWithK (c : ℝ) (a b : PsfObj) : Prop extends SameInUnits c a b where
  k : a.k = c * b.k

theorem SameWithK.dist {c : ℝ} {a b : PsfObj} (h : SameWithK c a b) (i j : Nat) :
    kernelDist b.kernelSize b.k b.NA b.pixelSize i j = kernelDist a.kernelSize a.k a.NA a.pixelSize i j := by
  rw [h.size, h.NA, h.px, h.k]
  unfold kernelDist
  congr 1
  ring

theorem kernelParallel_none (o : PsfObj) (h : o.zernpol = none) (fuel : Nat) (w : Workers) (even odd : Nat → Nat → ℂ) (nrm : Bool) (s : CoefState) :
    o.kernelParallel fuel w even odd nrm s =
      (.ok (if nrm then .nan else .finite (Grid.zeros 3 3)), { o with kernelSize := 3, kernel := Grid.zeros 3 3 }, s) := by
  cases o
  cases h
  rfl

theorem kernelParallel_some (o : PsfObj) (z : ZernPol) (h : o.zernpol = some z) (fuel : Nat) (w : Workers) (even odd : Nat → Nat → ℂ) (nrm : Bool) (s : CoefState) :
    o.kernelParallel fuel w even odd nrm s = if o.kernelSize < 3 then (.error .typeError, o, s)
      else match o.parallelLoops fuel z w even odd nrm s with
      | (.ok g, s') => (.ok (.finite g), { o with kernel := g }, s')
      | (.error e, s') => (.error e, { o with kernel := Grid.zeros o.kernelSize.toNat o.kernelSize.toNat }, s') := by
  cases o
  cases h
  rfl

theorem SameWithK.parallel {c : ℝ} {a b : PsfObj} (h : SameWithK c a b) (fuel : Nat) (w : Workers) (even odd : Nat → Nat → ℂ) (nrm : Bool) (s : CoefState) :
    (b.kernelParallel fuel w even odd nrm s).1 = (a.kernelParallel fuel w even odd nrm s).1 ∧
      SameWithK c (a.kernelParallel fuel w even odd nrm s).2.1 (b.kernelParallel fuel w even odd nrm s).2.1 ∧
      (b.kernelParallel fuel w even odd nrm s).2.2 = (a.kernelParallel fuel w even odd nrm s).2.2 := by
  rcases hz : a.zernpol with _ | z
  · rw [kernelParallel_none a hz, kernelParallel_none b (h.pol.trans hz)]
    exact ⟨rfl, { h with size := rfl, kernel := rfl }, rfl⟩
  · have hl : b.parallelLoops fuel z w even odd nrm = a.parallelLoops fuel z w even odd nrm := by
      unfold PsfObj.parallelLoops
      simp only [h.dist, h.nR, h.nPhi, (h.coeff (by simp [hz])).2]
      rw [h.size]
    rw [kernelParallel_some a z hz, kernelParallel_some b z (h.pol.trans hz), hl]
    by_cases h3 : a.kernelSize < 3
    · rw [if_pos h3, if_pos (by rw [h.size]; exact h3)]; exact ⟨rfl, h, rfl⟩
    · rw [if_neg h3, if_neg (by rw [h.size]; exact h3)]
      rcases a.parallelLoops fuel z w even odd nrm s with ⟨r | g, s'⟩
      · exact ⟨rfl, { h with kernel := by simp only [h.size] }, rfl⟩
      · exact ⟨rfl, { h with kernel := rfl }, rfl⟩

theorem SameWithK.afterParallel {c : ℝ} {a b : PsfObj} (h : SameWithK c a b) (fuel : Nat) (w : Workers) (even odd : Nat → Nat → ℂ) (nrm : Bool) (s : CoefState) :
    SameWithK c (a.afterParallel fuel w even odd nrm s).1 (b.afterParallel fuel w even odd nrm s).1 ∧
      (b.afterParallel fuel w even odd nrm s).2 = (a.afterParallel fuel w even odd nrm s).2 := by
  classical
  obtain ⟨h1, h2, h3⟩ := h.parallel fuel w even odd nrm s
  unfold PsfObj.afterParallel
  rw [h1]
  split_ifs
  · exact ⟨h, rfl⟩
  · exact ⟨h2, h3⟩

/-- What `set_physical_props` does with the wave number. -/
theorem setPhysical_wave (o : PsfObj) (NA wl px : ℝ) (co : CoeffArg) :
    (o.setPhysicalProps NA wl co px).2.k = if NA < 0 ∨ NA > 1.7 ∨ wl ≤ 0 then o.k else 2 * Real.pi / o.wavelength := by
  classical
  rcases setPhysical_cases o NA wl co px with ⟨h, e⟩ | ⟨h1, h2, e⟩ | ⟨h1, h2, h3, _, e⟩ | ⟨h1, h2, h3, h4, _, e⟩ <;> rw [e]
  · rw [if_pos h]
  · rw [if_neg (by rw [h2]; rintro (h | h | h) <;> norm_num at h <;> linarith)]
  · rw [if_neg (by rintro (h | h | h) <;> linarith)]
  · rw [if_neg (by rintro (h | h | h) <;> linarith)]
    have := storeCoeff_k (physBase o NA wl px) co
    unfold physRest
    rcases hc : (physBase o NA wl px).storeCoeff co with ⟨r, b'⟩
    rw [hc] at this
    have e2 : (physBase o NA wl px).k = 2 * Real.pi / o.wavelength := rfl
    rw [e2] at this
    cases r with
    | error e => exact this
    | ok u => simp only []; split <;> exact this

theorem SameInUnits.setPhysical_withK {c : ℝ} (hc : 0 < c) {a b : PsfObj} (h : SameInUnits c a b) (hi : PsfInv a) (NA wl px : ℝ) (co : CoeffArg)
    (hk : a.k = c * b.k ∨ (a.setPhysicalProps NA wl co px).1 = .ok ()) :
    SameWithK c (a.setPhysicalProps NA wl co px).2 (b.setPhysicalProps NA (c * wl) (inUnitCoeff c co) (c * px)).2 := by
  classical
  refine ⟨(setPhysical_units hc h.before (PsfInv.pols_cases hi) NA wl px co).2.2 h, ?_⟩
  rw [setPhysical_wave, setPhysical_wave]
  have hw : c * wl ≤ 0 ↔ wl ≤ 0 := by
    constructor
    · intro h; by_contra hx; have := mul_pos hc (not_le.1 hx); linarith
    · intro h; exact mul_nonpos_of_nonneg_of_nonpos hc.le h
  by_cases hb : NA < 0 ∨ NA > 1.7 ∨ wl ≤ 0
  · rw [if_pos hb, if_pos (by rwa [hw])]
    rcases hk with hk | hk
    · exact hk
    · exfalso
      rcases setPhysical_cases a NA wl co px with ⟨_, e⟩ | ⟨h1, h2, _⟩ | ⟨h1, h2, h3, _⟩ | ⟨h1, h2, h3, _⟩
      · rw [e] at hk; cases hk
      · rcases hb with h | h | h <;> linarith
      · rcases hb with h | h | h <;> linarith
      · rcases hb with h | h | h <;> linarith
  · rw [if_neg hb, if_neg (by rwa [hw]), h.wl]
    have := hi.wavelength
    field_simp

theorem setCalc_k (o : PsfObj) (size nR nPhi : Int) : (o.setCalculationProps size nR nPhi).2.k = o.k := by
  unfold PsfObj.setCalculationProps
  split_ifs <;> rfl

theorem calculate_k (o : PsfObj) (h : PsfInv o) (env : Env) (sup nrm : Bool) (acc : Option Bool) (s : CoefState) :
    (o.calculate env sup nrm acc s).2.1.k = o.k := by
  have hcs : (calcStart o sup).k = o.k := by unfold calcStart; split_ifs <;> rfl
  rcases calculate_cases env o h sup nrm acc s with ⟨e, _, h2⟩ | ⟨g, S, _, h2, _⟩
  · rw [h2]; exact hcs
  · rw [h2]; exact hcs

theorem crop_k (o : PsfObj) (part : ℝ) : (o.crop part).2.k = o.k := by
  unfold PsfObj.crop
  split_ifs <;> (try rfl) <;> split <;> (try rfl)
  split
  · rfl
  · split <;> rfl

theorem calculate_units_k {c : ℝ} (hc : 0 < c) {a b : PsfObj} (h : SameWithK c a b) (hi : PsfInv a) (hb : PsfInv b) (env : Env) (sup nrm : Bool)
    (acc : Option Bool) (s : CoefState) : SameWithK c (a.calculate env sup nrm acc s).2.1 (b.calculate env sup nrm acc s).2.1 := by
  refine ⟨(h.calculate hc.ne' env sup nrm acc s).2.1, ?_⟩
  rw [calculate_k a hi, calculate_k b hb]
  exact h.k

theorem run_unitsK {c : ℝ} (hc : 0 < c) {a b : PsfObj} (h : SameWithK c a b) (hi : PsfInv a) (hb : PsfInv b) (s : CoefState) (call : PsfCall) :
    SameWithK c (call.run (a, s)).1 ((inUnit c call).run (b, s)).1 ∧ ((inUnit c call).run (b, s)).2 = (call.run (a, s)).2 := by
  cases call with
  | setPhysicalProps NA wl co px => exact ⟨h.setPhysical_withK hc hi NA wl px co (Or.inl h.k), rfl⟩
  | setCalculationProps size nR nPhi =>
    exact ⟨⟨(h.setCalc size nR nPhi).2, by
      show (a.setCalculationProps size nR nPhi).2.k = c * (b.setCalculationProps size nR nPhi).2.k
      rw [setCalc_k, setCalc_k]; exact h.k⟩, rfl⟩
  | calculate env suppress normalized accelerated =>
    exact ⟨calculate_units_k hc h hi hb _ _ _ _ _, (h.calculate hc.ne' env suppress normalized accelerated s).2.2⟩
  | crop part => exact ⟨⟨(h.crop part).2, by
      show (a.crop part).2.k = c * (b.crop part).2.k
      rw [crop_k, crop_k]; exact h.k⟩, rfl⟩
  | parallel fuel w even odd normalize => exact h.afterParallel fuel w even odd normalize s

theorem afterPsf_unitsK {c : ℝ} (hc : 0 < c) (calls : List PsfCall) : ∀ {a b : PsfObj} (_ : SameWithK c a b) (_ : PsfInv a) (_ : PsfInv b) (s : CoefState),
    SameWithK c (afterPsfCalls a s calls).1 (afterPsfCalls b s (calls.map (inUnit c))).1 ∧
      (afterPsfCalls b s (calls.map (inUnit c))).2 = (afterPsfCalls a s calls).2 := by
  induction calls with
  | nil => intro a b h _ _ s; exact ⟨h, rfl⟩
  | cons x calls ih =>
    intro a b h hi hb s
    obtain ⟨h1, h2⟩ := run_unitsK hc h hi hb s x
    have k := ih h1 (run_inv (a, s) hi x) (run_inv (b, s) hb (inUnit c x)) (x.run (a, s)).2
    have e1 : afterPsfCalls a s (x :: calls) = afterPsfCalls (x.run (a, s)).1 (x.run (a, s)).2 calls := rfl
    have e2 : afterPsfCalls b s ((x :: calls).map (inUnit c)) =
        afterPsfCalls ((inUnit c x).run (b, s)).1 ((inUnit c x).run (b, s)).2 (calls.map (inUnit c)) := rfl
    rw [e1, e2, h2]
    exact k

/-- C66, with `get_kernel_parallel`. After two successful calls of `set_physical_props` on an object in any state, any calls (successful or not, `get_kernel_parallel`
with any workers included) with all lengths in another unit give the same kernel, kernel size and coefficient tables; the workers get the same tasks, and a further
parallel calculation gives the same result or exception and the same kernel. With one call this is false: `units_matter_for_parallel`. -/
theorem units_do_not_matter_twice (o : PsfObj) (s : CoefState) (hr : PsfReachable o s) (c : ℝ) (hc : 0 < c) (NA₁ wl₁ px₁ NA₂ wl₂ px₂ : ℝ) (co₁ co₂ : CoeffArg)
    (o₁ : PsfObj) (h₁ : o.setPhysicalProps NA₁ wl₁ co₁ px₁ = (.ok (), o₁)) (h₂ : (o₁.setPhysicalProps NA₂ wl₂ co₂ px₂).1 = .ok ())
    (calls : List PsfCall) (a b : PsfObj) (s₁ s₂ : CoefState)
    (ha : afterPsfCalls o s (.setPhysicalProps NA₁ wl₁ co₁ px₁ :: .setPhysicalProps NA₂ wl₂ co₂ px₂ :: calls) = (a, s₁))
    (hb : afterPsfCalls o s ((.setPhysicalProps NA₁ wl₁ co₁ px₁ :: .setPhysicalProps NA₂ wl₂ co₂ px₂ :: calls).map (inUnit c)) = (b, s₂)) :
    s₂ = s₁ ∧ b.kernel = a.kernel ∧ b.kernelSize = a.kernelSize ∧
      (∀ fuel n z even odd, a.zernpol = some z → (WorkersReturned fuel n b z even odd ↔ WorkersReturned fuel n a z even odd)) ∧
      (∀ env suppress normalized accelerated, (b.calculate env suppress normalized accelerated s₂).1 = (a.calculate env suppress normalized accelerated s₁).1) ∧
      ∀ fuel w even odd normalize, (b.kernelParallel fuel w even odd normalize s₂).1 = (a.kernelParallel fuel w even odd normalize s₁).1 ∧
        (b.kernelParallel fuel w even odd normalize s₂).2.1.kernel = (a.kernelParallel fuel w even odd normalize s₁).2.1.kernel := by
  have i1 : PsfInv o₁ := by have := setPhysical_inv o hr.inv NA₁ wl₁ co₁ px₁; rwa [h₁] at this
  have u1 := (setPhysical_units hc (a := o) (b := o) ⟨rfl, rfl, rfl, rfl, rfl, rfl, rfl, rfl, rfl⟩ (PsfInv.pols_cases hr.inv) NA₁ wl₁ px₁ co₁).2.1 (by rw [h₁])
  rw [h₁] at u1
  have j1 := setPhysical_inv o hr.inv NA₁ (c * wl₁) (inUnitCoeff c co₁) (c * px₁)
  have u2 := u1.setPhysical_withK hc i1 NA₂ wl₂ px₂ co₂ (Or.inr h₂)
  obtain ⟨k1, k2⟩ := afterPsf_unitsK hc calls u2 (setPhysical_inv o₁ i1 NA₂ wl₂ co₂ px₂) (setPhysical_inv _ j1 NA₂ (c * wl₂) (inUnitCoeff c co₂) (c * px₂)) s
  have e1 : afterPsfCalls o s (.setPhysicalProps NA₁ wl₁ co₁ px₁ :: .setPhysicalProps NA₂ wl₂ co₂ px₂ :: calls) =
      afterPsfCalls (o₁.setPhysicalProps NA₂ wl₂ co₂ px₂).2 s calls := by
    have : o₁ = (o.setPhysicalProps NA₁ wl₁ co₁ px₁).2 := by rw [h₁]
    rw [this]; rfl
  have e2 : afterPsfCalls o s ((.setPhysicalProps NA₁ wl₁ co₁ px₁ :: .setPhysicalProps NA₂ wl₂ co₂ px₂ :: calls).map (inUnit c)) =
    afterPsfCalls ((o.setPhysicalProps NA₁ (c * wl₁) (inUnitCoeff c co₁) (c * px₁)).2.setPhysicalProps NA₂ (c * wl₂) (inUnitCoeff c co₂) (c * px₂)).2 s
      (calls.map (inUnit c)) := rfl
  simp only [← e1, ← e2, ha, hb] at k1 k2
  subst k2
  refine ⟨rfl, k1.kernel, k1.size, ?_, fun env sup nrm acc => (k1.calculate hc.ne' env sup nrm acc s₂).1, fun fuel w even odd nrm =>
    ⟨(k1.parallel fuel w even odd nrm s₂).1, (k1.parallel fuel w even odd nrm s₂).2.1.kernel⟩⟩
  intro fuel n z even odd hz
  unfold WorkersReturned
  simp only [k1.dist, k1.nR, k1.nPhi, (k1.coeff (by simp [hz])).2]
  rw [k1.size]

/-- C66 is false for `get_kernel_parallel` after a single call. For every object with one polynomial (not the piston), in any state: if `set_physical_props` is called with
`NA = 1`, coefficient 0, the old wavelength and a tenth of it as pixel size, and in another, large enough unit, the two (not normalised) parallel kernels differ. -/
theorem units_matter_for_parallel (o : PsfObj) (s : CoefState) (hr : PsfReachable o s) (z : ZernPol) (hz : o.zernpol = some z)
    (hv : ValidOrders z.m z.n) (fuel : Nat) (hf : z.n.toNat + 1 < fuel) :
    ∃ C > 0, ∀ c, 0 < c → c < C → ∃ o₁ o₂, o.setPhysicalProps 1 o.wavelength (.num 0) (o.wavelength / 10) = (.ok (), o₁) ∧
      o.setPhysicalProps 1 (c * o.wavelength) (inUnitCoeff c (.num 0)) (c * (o.wavelength / 10)) = (.ok (), o₂) ∧ o₂.kernelSize = o₁.kernelSize ∧
      (3 ≤ o₁.kernelSize → ∀ s', PsfReachable o₁ s' → PsfReachable o₂ s' → ∀ n even₁ odd₁ even₂ odd₂, WorkersReturned fuel n o₁ z even₁ odd₁ →
        WorkersReturned fuel n o₂ z even₂ odd₂ → ∃ g₁ g₂, (o₁.kernelParallel fuel (.running n) even₁ odd₁ false s').1 = .ok (.finite g₁) ∧
          (o₂.kernelParallel fuel (.running n) even₂ odd₂ false s').1 = .ok (.finite g₂) ∧ g₁ ≠ g₂) := by
  have hpi := Real.pi_pos
  have hp := hr.inv.points
  have hw0 := hr.inv.wavelength
  obtain ⟨N, hN⟩ := Int.eq_ofNat_of_zero_le (by omega : 0 ≤ o.nR)
  obtain ⟨M, hM⟩ := Int.eq_ofNat_of_zero_le (by omega : 0 ≤ o.nPhi)
  have hN2 : (2 : ℝ) ≤ N := by exact_mod_cast (by omega : 2 ≤ N)
  have hlt := ring_lt_center (2 * Real.pi / 10) N M (by omega) (by omega) (by positivity) (by nlinarith)
  have hcont := (ring_continuous N M).tendsto 0
  simp only [neg_zero] at hcont
  obtain ⟨δ, hδ, hball⟩ := Metric.eventually_nhds_iff.1 (hcont.eventually (lt_mem_nhds hlt))
  refine ⟨δ * 10 / (2 * Real.pi), by positivity, fun c hc hcC => ?_⟩
  have hphys : PhysicalOk 1 o.wavelength (o.wavelength / 10) := ⟨by norm_num, by norm_num, hw0, by positivity, by linarith⟩
  have hphys2 : PhysicalOk 1 (c * o.wavelength) (c * (o.wavelength / 10)) :=
    ⟨by norm_num, by norm_num, by positivity, by positivity, by have : 0 < c * o.wavelength := by positivity
                                                                linarith⟩
  obtain ⟨S, _, e₁⟩ := setPhysical_num o z hz hv 1 _ _ 0 hphys
  obtain ⟨S₂, _, e₂⟩ := setPhysical_num o z hz hv 1 _ _ (c * 0) hphys2
  have hu := (setPhysical_units hc (a := o) (b := o) ⟨rfl, rfl, rfl, rfl, rfl, rfl, rfl, rfl, rfl⟩ (PsfInv.pols_cases hr.inv) 1 o.wavelength (o.wavelength / 10) (.num 0)).2.1
    (by rw [e₁])
  have hsz := hu.size
  rw [e₁, show inUnitCoeff c (.num 0) = .num (c * 0) from rfl, e₂] at hsz
  refine ⟨_, _, e₁, e₂, hsz, ?_⟩
  simp only at hsz
  subst hsz
  have hk₁ := setPhysical_k o 1 _ _ _ _ e₁
  have hk₂ := setPhysical_k o 1 _ _ _ _ e₂
  generalize ho₁ : ({ physBase o 1 o.wavelength (o.wavelength / 10) with expansionCoeff := 0, alpha := 0 / o.wavelength, kernelSize := S₂, propsSet := true } : PsfObj) = o₁ at *
  generalize ho₂ : ({ physBase o 1 (c * o.wavelength) (c * (o.wavelength / 10)) with
    expansionCoeff := c * 0, alpha := c * 0 / (c * o.wavelength), kernelSize := S₂, propsSet := true } : PsfObj) = o₂ at *
  intro h3 s' hr₁ hr₂ n even₁ odd₁ even₂ odd₂ w₁ w₂
  have t₁ : o₁.zernpol = some z ∧ o₁.NA = 1 ∧ o₁.pixelSize = o.wavelength / 10 ∧ o₁.alpha = 0 ∧ o₁.nR = N ∧ o₁.nPhi = M ∧ o₁.kernelSize = S₂ := by
    rw [← ho₁]; exact ⟨hz, rfl, rfl, by simp, hN, hM, rfl⟩
  have t₂ : o₂.zernpol = some z ∧ o₂.NA = 1 ∧ o₂.pixelSize = c * (o.wavelength / 10) ∧ o₂.alpha = 0 ∧ o₂.nR = N ∧ o₂.nPhi = M ∧ o₂.kernelSize = S₂ := by
    rw [← ho₂]; exact ⟨hz, rfl, rfl, by simp, hN, hM, rfl⟩
  obtain ⟨g₁, S₁', hS₁, k1, _, _, k4⟩ := parallel_kernel_exact o₁ s' hr₁ z t₁.1 fuel hv hf h3 n even₁ odd₁ w₁ false
  obtain ⟨g₂, S₂', hS₂, l1, _, _, l4⟩ := parallel_kernel_exact o₂ s' hr₂ z t₂.1 fuel hv hf (by rw [t₂.2.2.2.2.2.2, ← t₁.2.2.2.2.2.2]; exact h3) n even₂ odd₂ w₂ false
  refine ⟨g₁, g₂, k1, l1, ?_⟩
  rintro rfl
  obtain rfl : S₁' = S₂' := by
    have := t₁.2.2.2.2.2.2
    have := t₂.2.2.2.2.2.2
    omega
  unfold KernelOf at k4 l4
  simp only [Bool.false_eq_true, if_false] at k4 l4
  have hodd : S₁' % 2 = 1 := by have := hr₁.inv.size; omega
  obtain ⟨d, rfl⟩ : ∃ d, S₁' = 2 * d + 1 := ⟨S₁' / 2, by omega⟩
  have hd1 : 1 ≤ d := by omega
  have q1 := k4.2.2 d (d + 1) (by omega) (by omega)
  have q2 := l4.2.2 d (d + 1) (by omega) (by omega)
  rw [q1] at q2
  unfold pixelPsf at q2
  rw [hk₁, hk₂, t₁.2.1, t₂.2.1, t₁.2.2.1, t₂.2.2.1, t₁.2.2.2.1, t₂.2.2.2.1, t₁.2.2.2.2.1, t₂.2.2.2.2.1, t₁.2.2.2.2.2.1, t₂.2.2.2.2.2.1,
    Int.toNat_natCast, Int.toNat_natCast] at q2
  have x1 : 2 * Real.pi / o.wavelength * 1 * (o.wavelength / 10) * ((((2 * d + 1 : ℕ) : ℝ) - 1) / 2 - ((d + 1 : ℕ) : ℝ)) = -(2 * Real.pi / 10) := by
    push_cast; field_simp; ring
  have x2 : 2 * Real.pi / o.wavelength * 1 * (c * (o.wavelength / 10)) * ((((2 * d + 1 : ℕ) : ℝ) - 1) / 2 - ((d + 1 : ℕ) : ℝ)) = -(c * (2 * Real.pi) / 10) := by
    push_cast; field_simp; ring
  have y : ∀ a : ℝ, a * ((((2 * d + 1 : ℕ) : ℝ) - 1) / 2 - (d : ℝ)) = 0 := by intro a; push_cast; ring
  rw [x1, x2, y, y] at q2
  simp only [zero_mul] at q2
  have := hball (y := c * (2 * Real.pi) / 10) (by
    rw [dist_zero_right, Real.norm_of_nonneg (by positivity), div_lt_iff₀ (by positivity)]
    rw [lt_div_iff₀ (by positivity)] at hcC
    linarith)
  linarith

/-- The hypotheses of `units_do_not_matter_twice` are met: the README example, set twice, then a parallel calculation, a failing call and a cropping. -/
example (even odd : Nat → Nat → ℂ) : ∃ o s o₁, PsfReachable o s ∧ o.setPhysicalProps 0.95 0.6 (.num 0.5) 0.15 = (.ok (), o₁) ∧
    (o₁.setPhysicalProps 0.95 0.6 (.num 0.5) 0.15).1 = .ok () ∧
    ([.parallel 40 (.running 4) even odd true, .setPhysicalProps 0.95 0.6 (.num 0.5) 1, .crop 0.01] : List PsfCall).map (inUnit 1000) =
      [.parallel 40 (.running 4) even odd true, .setPhysicalProps 0.95 600 (.num 500) 1000, .crop 0.01] := by
  let z : ZernPol := ⟨-1, 1, 1, 3, .int 3⟩
  obtain ⟨o, ho⟩ : ∃ o, psfInit (.pol z) = .ok o := ⟨_, rfl⟩
  have hr : PsfReachable o (afterCalls []) := ⟨.pol z, o, [], [], ho, rfl⟩
  have ho' : o = { psfDefault with zernpol := some z, airy := z.isPiston } := by unfold psfInit at ho; exact (Except.ok.inj ho).symm
  have hz : o.zernpol = some z := by rw [ho']
  have hv : ValidOrders z.m z.n := by decide
  have hp : PhysicalOk 0.95 0.6 0.15 := by unfold PhysicalOk; norm_num
  obtain ⟨S₁, _, e₁⟩ := setPhysical_num o z hz hv 0.95 0.6 0.15 0.5 hp
  obtain ⟨S₂, _, e₂⟩ := setPhysical_num ({ physBase o 0.95 0.6 0.15 with expansionCoeff := 0.5, alpha := 0.5 / 0.6, kernelSize := S₁, propsSet := true }) z hz hv
    0.95 0.6 0.15 0.5 hp
  refine ⟨o, _, _, hr, e₁, by rw [e₂], ?_⟩
  simp only [List.map, inUnit, inUnitCoeff]
  norm_num

end Verif.Props
