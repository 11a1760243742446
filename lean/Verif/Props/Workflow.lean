import Verif.Props.PsfCalc
import Verif.Props.Energy

/-!
# C110: from the calls of a user to the physics

`set_physical_props`, `set_calculation_props` and `calculate_psf_kernel`, one after another on an object with any history: what the returned kernel has to do with the exact
diffraction integral.
-/

namespace Verif.Props
open Verif.Model Verif.Spec Verif.Proofs

/-- The orders of the polynomials of an object. -/
def objectOrders (o : PsfObj) : List (Int × Int) := (psfPols o).map fun z => (z.m, z.n)

/-- The kernel after the three calls, on an object with any history: all that enters are the arguments of the calls. -/
theorem workflow_kernel (o : PsfObj) (s : CoefState) (hr : PsfReachable o s) (hpis : ∀ z, o.zernpol = some z → ¬ (z.m = 0 ∧ z.n = 0))
    (NA wl px : ℝ) (hp : PhysicalOk NA wl px) (c : CoeffArg) (hc : CoeffFits (psfPols o).length c)
    (size nR nPhi : Int) (h3 : 3 ≤ size) (hR : 20 ≤ nR) (hPhi : 36 ≤ nPhi) (S : ℕ) (hS : OddSize size S)
    (env : Env) (suppress normalized : Bool) (accelerated : Option Bool) (hs : ∀ z ∈ psfPols o, Supported env accelerated z) :
    ∃ (o₁ o₂ : PsfObj) (g : Grid), o.setPhysicalProps NA wl c px = (.ok (), o₁) ∧ o₁.setCalculationProps size nR nPhi = (.ok (), o₂) ∧
      (o₂.calculate env suppress normalized accelerated s).1 = .ok g ∧ (o₂.calculate env suppress normalized accelerated s).2.1 = { o₂ with kernel := g } ∧
      KernelOf normalized S (pixelPsf (combination ((coeffValues c).map (· / wl)) (objectOrders o)) (opticalScale wl NA px) S nR.toNat nPhi.toNat) g := by
  have hv : ∀ w ∈ psfPols o, ValidOrders w.m w.n := fun w hw => (hs w hw).1
  obtain ⟨o₁, e, hst⟩ := (set_physical_props_exact_partial o s hr hv NA wl px c).1 ⟨hp, hc⟩
  have hr₁ : PsfReachable o₁ s := by
    have := hr.step (.setPhysicalProps NA wl c px)
    simp only [PsfCall.run, e] at this
    exact this
  have e₂ : o₁.setCalculationProps size nR nPhi = (.ok (), { o₁ with kernelSize := makeOdd size, nR := nR, nPhi := nPhi }) := by
    unfold PsfObj.setCalculationProps
    rw [if_neg (by omega), if_neg (by omega), if_neg (by omega)]
  have hr₂ := hr₁.step (.setCalculationProps size nR nPhi)
  simp only [PsfCall.run, e₂] at hr₂
  have hmk := oddSize_makeOdd hS
  obtain ⟨o₂, ho₂⟩ : ∃ o₂ : PsfObj, o₂ = { o₁ with kernelSize := makeOdd size, nR := nR, nPhi := nPhi } := ⟨_, rfl⟩
  rw [← ho₂] at e₂ hr₂
  refine ⟨o₁, o₂, ?_⟩
  have f1 : o₂.NA = NA := by rw [ho₂]; exact hst.NA
  have f2 : o₂.wavelength = wl := by rw [ho₂]; exact hst.wavelength
  have f3 : o₂.pixelSize = px := by rw [ho₂]; exact hst.pixelSize
  have f4 : o₂.nR = nR ∧ o₂.nPhi = nPhi := by rw [ho₂]; exact ⟨rfl, rfl⟩
  have f5 : o₂.zernpol = o.zernpol := by rw [ho₂]; exact hst.same.2.1
  have f6 : o₂.polynomials = o.polynomials := by rw [ho₂]; exact hst.same.2.2.1
  have f7 : o₂.propsSet = true := by rw [ho₂]; exact hst.propsSet
  have f8 : o₂.kernelSize = S := by rw [ho₂]; exact hmk
  have hu : usedSize o₂ suppress = o₂.kernelSize := by simp [usedSize, f7]
  have hS3 : 3 ≤ (S : Int) := by obtain ⟨h1, h2⟩ := hS; omega
  rcases hz : o.zernpol with _ | z
  · have hps : psfPols o = o.polynomials := by simp [psfPols, hz]
    have hamp : o₂.amplitudes = some ((coeffValues c).map (· / wl)) := by rw [ho₂]; exact (hst.several hz).2
    obtain ⟨g, S', k1, k2, k3, k4⟩ := calculated_kernel_several o₂ s hr₂ (f5.trans hz) _ hamp (by rw [f1]; exact hp.1) env suppress normalized accelerated
      (by rw [f6, ← hps]; exact hs)
    rw [hu] at k1 k3
    have : S' = S := by rw [f8] at k1; exact_mod_cast k1
    subst this
    rw [f1, f2, f3, f4.1, f4.2, f6, ← hps] at k4
    exact ⟨g, e, e₂, k2, k3, k4⟩
  · have hps : psfPols o = [z] := by simp [psfPols, hz]
    obtain ⟨x, hx⟩ : ∃ x, coeffValues c = [x] := by
      rw [hps] at hc
      cases c with
      | num x => exact ⟨x, rfl⟩
      | seq l => exact List.length_eq_one_iff.1 hc
      | bad e => exact hc.elim
    have hco : o₂.expansionCoeff = x := by rw [ho₂]; exact (hst.single x (by rw [hz]; simp) hx).1
    obtain ⟨g, S', k1, k2, k3, k4⟩ := calculated_kernel_single o₂ s hr₂ z (f5.trans hz) (hpis z hz) (by rw [f1]; exact hp.1) env suppress normalized accelerated
      (hs z (by rw [hps]; simp)) (Or.inl (by rw [hu, f8]; exact hS3))
    rw [hu] at k1 k3
    have : S' = S := by rw [f8] at k1; exact_mod_cast k1
    subst this
    rw [f1, f2, f3, f4.1, f4.2, hco, ← combination_one] at k4
    refine ⟨g, e, e₂, k2, k3, ?_⟩
    rw [objectOrders, hps, hx]
    exact k4

/-- The optical distance of the most distant pixels is at most this. -/
noncomputable def kernelRadius (wl NA px : ℝ) (S : ℕ) : ℝ := opticalScale wl NA px * S

/-- C110. The three calls return a kernel that deviates from the exact diffraction integral of the given optics by at most `quadratureError` in each pixel: for every history of the
object before, one or several polynomials, plain or accelerated. Normalised, the deviation from the normalised exact PSF is at most `2E / (top - E)`. -/
theorem workflow_error (o : PsfObj) (s : CoefState) (hr : PsfReachable o s) (hpis : ∀ z, o.zernpol = some z → ¬ (z.m = 0 ∧ z.n = 0))
    (NA wl px : ℝ) (hp : PhysicalOk NA wl px) (c : CoeffArg) (hc : CoeffFits (psfPols o).length c)
    (size nR nPhi : Int) (h3 : 3 ≤ size) (hR : 20 ≤ nR) (hPhi : 36 ≤ nPhi) (S : ℕ) (hS : OddSize size S)
    (env : Env) (suppress normalized : Bool) (accelerated : Option Bool) (hs : ∀ z ∈ psfPols o, Supported env accelerated z)
    (E : ℝ) (hE : E = quadratureError ((coeffValues c).map (· / wl)) (objectOrders o) (kernelRadius wl NA px S) nR.toNat nPhi.toNat)
    (w : ℕ → ℕ → ℝ) (hw : w = exactPixel (combination ((coeffValues c).map (· / wl)) (objectOrders o)) (opticalScale wl NA px) S) :
    ∃ (o₁ o₂ : PsfObj) (g : Grid), o.setPhysicalProps NA wl c px = (.ok (), o₁) ∧ o₁.setCalculationProps size nR nPhi = (.ok (), o₂) ∧
      (o₂.calculate env suppress normalized accelerated s).1 = .ok g ∧ (o₂.calculate env suppress normalized accelerated s).2.1 = { o₂ with kernel := g } ∧
      (normalized = false → KernelWithin E S w g) ∧
      (normalized = true → ∀ top, 0 < top → (∃ i j, i < S ∧ j < S ∧ w i j = top) → (∀ i j, i < S → j < S → w i j ≤ top) → E < top →
        KernelWithin (2 * E / (top - E)) S (fun i j => w i j / top) g) := by
  obtain ⟨o₁, o₂, g, e1, e2, e3, e4, k⟩ := workflow_kernel o s hr hpis NA wl px hp c hc size nR nPhi h3 hR hPhi S hS env suppress normalized accelerated hs
  have hκ : 0 ≤ opticalScale wl NA px := by
    obtain ⟨a1, _, a3, a4, _⟩ := hp
    unfold opticalScale
    have := Real.pi_pos
    positivity
  have hpix : ∀ i j, i < S → j < S → |pixelPsf (combination ((coeffValues c).map (· / wl)) (objectOrders o)) (opticalScale wl NA px) S nR.toNat nPhi.toNat i j - w i j| ≤ E := by
    intro i j hi hj
    rw [hw, hE]
    refine pixel_rate _ _ (fun x hx => ?_) _ _ S (by rw [abs_of_nonneg hκ]; rfl) _ _ (by omega) (by omega) i j hi hj
    obtain ⟨z, hz, rfl⟩ := List.mem_map.1 hx
    exact (hs z hz).1
  have hrate := kernel_rate (combination ((coeffValues c).map (· / wl)) (objectOrders o)) ⟨px, wl, NA, nR, nPhi, normalized, size⟩ S nR.toNat nPhi.toNat E
    (by rw [hw] at hpix; exact hpix) g k
  simp only [← hw] at hrate
  refine ⟨o₁, o₂, g, e1, e2, e3, e4, hrate.1, fun hn top h0 h1 h2 h3 => ?_⟩
  refine hrate.2 hn top ⟨h0, ?_, ?_⟩ h3
  · rw [hw] at h1; exact h1
  · rw [hw] at h2; exact h2

/-- C110. As exact as you like: for given optics, coefficients and kernel size there is a number of points from which on every object for these polynomials, whatever happened to it before,
plain or accelerated, gives the exact PSF up to `ε`. -/
theorem workflow_converges (zs : List ZernPol) (NA wl px : ℝ) (hp : PhysicalOk NA wl px) (c : CoeffArg)
    (size : Int) (h3 : 3 ≤ size) (S : ℕ) (hS : OddSize size S) (ε : ℝ) (hε : 0 < ε) :
    ∃ N : ℕ, ∀ nR nPhi : Int, N ≤ nR → N ≤ nPhi → ∀ (o : PsfObj) (s : CoefState), PsfReachable o s → psfPols o = zs → (∀ z, o.zernpol = some z → ¬ (z.m = 0 ∧ z.n = 0)) →
      CoeffFits (psfPols o).length c → ∀ (env : Env) (suppress : Bool) (accelerated : Option Bool), (∀ z ∈ psfPols o, Supported env accelerated z) →
      ∃ (o₁ o₂ : PsfObj) (g : Grid), o.setPhysicalProps NA wl c px = (.ok (), o₁) ∧ o₁.setCalculationProps size nR nPhi = (.ok (), o₂) ∧
        (o₂.calculate env suppress false accelerated s).1 = .ok g ∧
        KernelWithin ε S (exactPixel (combination ((coeffValues c).map (· / wl)) (zs.map fun z => (z.m, z.n))) (opticalScale wl NA px) S) g := by
  obtain ⟨N, hN⟩ := pixels_close (combination ((coeffValues c).map (· / wl)) (zs.map fun z => (z.m, z.n))) (combination_continuous _ _) (opticalScale wl NA px) S ε hε
  refine ⟨N + 36, fun nR nPhi h1 h2 o s hr hz hpis hc env sup acc hs => ?_⟩
  obtain ⟨o₁, o₂, g, e1, e2, e3, -, k⟩ := workflow_kernel o s hr hpis NA wl px hp c hc size nR nPhi h3 (by omega) (by omega) S hS env sup false acc hs
  refine ⟨o₁, o₂, g, e1, e2, e3, ?_⟩
  obtain ⟨r1, r2, h6⟩ := k
  refine ⟨r1, r2, fun i j hi hj => ?_⟩
  rw [h6 i j hi hj, objectOrders, hz]
  exact hN _ _ (by omega) (by omega) i j hi hj

/-- C110. The light in the returned kernel (not normalised): at most the light through the pupil, up to `S²` times the quadrature error. -/
theorem workflow_light (o : PsfObj) (s : CoefState) (hr : PsfReachable o s) (hpis : ∀ z, o.zernpol = some z → ¬ (z.m = 0 ∧ z.n = 0))
    (NA wl px : ℝ) (hp : PhysicalOk NA wl px) (c : CoeffArg) (hc : CoeffFits (psfPols o).length c)
    (size nR nPhi : Int) (h3 : 3 ≤ size) (hR : 20 ≤ nR) (hPhi : 36 ≤ nPhi) (S : ℕ) (hS : OddSize size S)
    (env : Env) (suppress : Bool) (accelerated : Option Bool) (hs : ∀ z ∈ psfPols o, Supported env accelerated z) :
    ∃ (o₁ o₂ : PsfObj) (g : Grid), o.setPhysicalProps NA wl c px = (.ok (), o₁) ∧ o₁.setCalculationProps size nR nPhi = (.ok (), o₂) ∧
      (o₂.calculate env suppress false accelerated s).1 = .ok g ∧
      kernelTotal S g.entry ≤ pupilEnergy wl NA px +
        S ^ 2 * quadratureError ((coeffValues c).map (· / wl)) (objectOrders o) (kernelRadius wl NA px S) nR.toNat nPhi.toNat := by
  obtain ⟨o₁, o₂, g, e1, e2, e3, -, k, -⟩ := workflow_error o s hr hpis NA wl px hp c hc size nR nPhi h3 hR hPhi S hS env suppress false accelerated hs _ rfl _ rfl
  refine ⟨o₁, o₂, g, e1, e2, e3, ?_⟩
  have h1 := (abs_le.1 (total_close S _ g _ (k rfl))).2
  have h2 := exact_total_le ((coeffValues c).map (· / wl)) ((psfPols o).map ZernPol.obj) wl NA px (physical_fine_enough hp) S hS.1
  have h4 : ordersOf ((psfPols o).map ZernPol.obj) = objectOrders o := by simp [ordersOf, objectOrders, ZernPol.obj, Function.comp_def]
  rw [h4] at h2
  linarith

/-- C110. The piston: an object made for it gives, without acceleration and after any calls, the exact PSF of the ideal system up to `10⁻¹⁰`, whatever the numbers of integration points
and the coefficient are. -/
theorem workflow_piston (z : ZernPol) (hz : z.m = 0 ∧ z.n = 0) (o₀ : PsfObj) (hi : psfInit (.pol z) = .ok o₀) (before : List Call) (calls : List PsfCall)
    (o : PsfObj) (s : CoefState) (hr : afterPsfCalls o₀ (afterCalls before) calls = (o, s))
    (NA wl px x : ℝ) (hp : PhysicalOk NA wl px) (size nR nPhi : Int) (h3 : 3 ≤ size) (hR : 20 ≤ nR) (hPhi : 36 ≤ nPhi) (S : ℕ) (hS : OddSize size S)
    (env : Env) (hj : env.j1 = besselJ1) (suppress : Bool) (accelerated : Option Bool) (hacc : env.accelerate accelerated = false) :
    ∃ (o₁ o₂ : PsfObj) (g : Grid), o.setPhysicalProps NA wl (.num x) px = (.ok (), o₁) ∧ o₁.setCalculationProps size nR nPhi = (.ok (), o₂) ∧
      (o₂.calculate env suppress false accelerated s).1 = .ok g ∧
      KernelWithin 1e-10 S (exactPixel (fun _ _ => 0) (opticalScale wl NA px) S) g := by
  have hreach : PsfReachable o s := ⟨_, _, _, _, hi, hr⟩
  have hpol := afterPsf_pols o₀ (afterCalls before) (psfInit_inv _ o₀ hi) calls
  rw [hr] at hpol
  have hz0 : o.zernpol = some z := by rw [hpol.1]; cases hi; rfl
  have hai : o.airy = true := by rw [hpol.2.2]; cases hi; simp [ZernPol.isPiston, hz]
  have hps : psfPols o = [z] := by simp [psfPols, hz0]
  have hv : ∀ w ∈ psfPols o, ValidOrders w.m w.n := by
    intro w hw
    rw [hps, List.mem_singleton] at hw
    rw [hw, hz.1, hz.2]
    decide
  obtain ⟨o₁, e, hst⟩ := (set_physical_props_exact_partial o s hreach hv NA wl px (.num x)).1 ⟨hp, by rw [hps]; rfl⟩
  have e₂ : o₁.setCalculationProps size nR nPhi = (.ok (), { o₁ with kernelSize := makeOdd size, nR := nR, nPhi := nPhi }) := by
    unfold PsfObj.setCalculationProps
    rw [if_neg (by omega), if_neg (by omega), if_neg (by omega)]
  obtain ⟨o₂, ho₂⟩ : ∃ o₂ : PsfObj, o₂ = { o₁ with kernelSize := makeOdd size, nR := nR, nPhi := nPhi } := ⟨_, rfl⟩
  rw [← ho₂] at e₂
  have f1 : o₂.NA = NA := by rw [ho₂]; exact hst.NA
  have f2 : o₂.wavelength = wl := by rw [ho₂]; exact hst.wavelength
  have f3 : o₂.pixelSize = px := by rw [ho₂]; exact hst.pixelSize
  have f5 : o₂.zernpol = some z := by rw [ho₂]; exact hst.same.2.1.trans hz0
  have f6 : o₂.airy = true := by rw [ho₂]; exact hst.same.2.2.2.1.trans hai
  have f7 : o₂.propsSet = true := by rw [ho₂]; exact hst.propsSet
  have f8 : o₂.kernelSize = S := by rw [ho₂]; exact oddSize_makeOdd hS
  have hS3 : 3 ≤ (S : Int) := by obtain ⟨h1, h2⟩ := hS; omega
  have hcs : calcStart o₂ suppress = o₂ := by simp [calcStart, f7]
  obtain ⟨g, hg, hk⟩ := airy_kernel_exact_from s hreach.good env.fuel z.obj o₂.expansionCoeff 0 (o₂.params false)
    ⟨by show 0 < o₂.wavelength; rw [f2]; exact hp.2.2.1, by show 0 < o₂.NA; rw [f1]; exact hp.1⟩ (by show 3 ≤ o₂.kernelSize; rw [f8]; exact hS3) S
    ⟨hS.1, Or.inl (by show _ = o₂.kernelSize; rw [f8])⟩ rfl
  have hcall : (calcStart o₂ suppress).kernelCall env false accelerated = some (getPsfKernel env.fuel besselJ1 z.obj o₂.expansionCoeff (o₂.params false) true) := by
    rw [hcs]
    unfold PsfObj.kernelCall
    simp only [f5, hacc, f6, hj, Bool.false_eq_true, if_false]
  have := calculate_eq env o₂ suppress false accelerated s _ hcall g hg
  refine ⟨o₁, o₂, g, e, e₂, this.1, ?_⟩
  have e6 : opticalScale (o₂.params false).wavelength (o₂.params false).NA (o₂.params false).len2pixels = opticalScale wl NA px := by
    show opticalScale o₂.wavelength o₂.NA o₂.pixelSize = _
    rw [f1, f2, f3]
  rw [e6] at hk
  exact hk

/-- The hypotheses are met: a new object for the coma with 31 pixels, and one for the piston. -/
example (env : Env) (h : env.numba = false) (hf : 4 < env.fuel) :
    (∃ o s, PsfReachable o s ∧ (∀ z, o.zernpol = some z → ¬ (z.m = 0 ∧ z.n = 0)) ∧ CoeffFits (psfPols o).length (.num 0.2) ∧ (∀ z ∈ psfPols o, Supported env none z)) ∧
    PhysicalOk 0.95 0.635 (0.63 / 5) ∧ OddSize 30 31 ∧ (∃ o₀, psfInit (.pol pistonPol) = .ok o₀) ∧ pistonPol.m = 0 ∧ pistonPol.n = 0 ∧ env.accelerate none = false := by
  refine ⟨⟨_, afterCalls [], ⟨.pol ⟨-1, 3, 7, 7, .int 7⟩, _, [], [], rfl, rfl⟩, ?_, rfl, ?_⟩, ?_, ⟨by norm_num, Or.inr (by norm_num)⟩, ⟨_, rfl⟩, rfl, rfl, by simp [Env.accelerate, h]⟩
  · intro z hz
    obtain rfl : (⟨-1, 3, 7, 7, .int 7⟩ : ZernPol) = z := Option.some.inj hz
    decide
  · intro z hz
    obtain rfl : z = ⟨-1, 3, 7, 7, .int 7⟩ := List.mem_singleton.1 hz
    refine ⟨by decide, ?_⟩
    rw [if_neg (by simp [Env.accelerate, h])]
    simpa using hf
  · unfold PhysicalOk; norm_num

end Verif.Props
