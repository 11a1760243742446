import Verif.Props.PsfCalc

/-!
# C66: the unit of length does not matter for PSF kernels
-/

namespace Verif.Props
open Verif.Model Verif.Spec Verif.Proofs

/-- Specification: the coefficients in another unit of length, of which `c` make the old one. -/
def inUnitCoeff (c : ℝ) : CoeffArg → CoeffArg
  | .num x => .num (c * x)
  | .seq l => .seq (l.map (c * ·))
  | .bad e => .bad e

/-- Specification: the same call with all lengths (wavelength, coefficients, pixel size) in another unit. -/
def inUnit (c : ℝ) : PsfCall → PsfCall
  | .setPhysicalProps NA wl co px => .setPhysicalProps NA (c * wl) (inUnitCoeff c co) (c * px)
  | .setCalculationProps size nR nPhi => .setCalculationProps size nR nPhi
  | .calculate env suppress normalized accelerated => .calculate env suppress normalized accelerated
  | .crop part => .crop part
  | .parallel fuel w even odd normalize => .parallel fuel w even odd normalize

/-- Specification: not a call of `get_kernel_parallel`. -/
def NotParallel : PsfCall → Prop
  | .parallel .. => False
  | _ => True

/-- What the two objects have in common, apart from the coefficients. -/
structure PreUnits (c : ℝ) (a b : PsfObj) : Prop where
  kernel : b.kernel = a.kernel
  size : b.kernelSize = a.kernelSize
  NA : b.NA = a.NA
  set : b.propsSet = a.propsSet
  airy : b.airy = a.airy
  nR : b.nR = a.nR
  nPhi : b.nPhi = a.nPhi
  pol : b.zernpol = a.zernpol
  pols : b.polynomials = a.polynomials
  wl : b.wavelength = c * a.wavelength
  px : b.pixelSize = c * a.pixelSize

/-- What the two objects have in common. -/
structure SameInUnits (c : ℝ) (a b : PsfObj) : Prop extends PreUnits c a b where
  coeff : a.zernpol ≠ none → b.expansionCoeff = c * a.expansionCoeff ∧ b.alpha = a.alpha
  ampl : a.zernpol = none → b.amplitudes = a.amplitudes

theorem getKernelSize_units (m n : Int) (px alpha wl NA c : ℝ) (hc : c ≠ 0) :
    getKernelSize m n (c * px) alpha (c * wl) NA = getKernelSize m n px alpha wl NA := by
  unfold getKernelSize
  have : ∀ x : ℝ, x * (c * wl) / (c * px) = x * wl / px := fun x => by
    rw [show x * (c * wl) = c * (x * wl) by ring, mul_div_mul_left _ _ hc]
  simp only [this]

theorem kernelDist_units (size : Int) (wl NA px c : ℝ) (hc : c ≠ 0) (i j : Nat) :
    kernelDist size (2 * Real.pi / (c * wl)) NA (c * px) i j = kernelDist size (2 * Real.pi / wl) NA px i j := by
  unfold kernelDist
  congr 1
  rcases eq_or_ne wl 0 with h | h
  · simp [h]
  · field_simp

/-- The parameters in another unit. -/
noncomputable def paramsIn (c : ℝ) (q : KernelParams) : KernelParams := { q with len2pixels := c * q.len2pixels, wavelength := c * q.wavelength }

theorem wl_zero {c : ℝ} (hc : c ≠ 0) (wl : ℝ) : (c * wl = 0) = (wl = 0) := by simp [hc]

theorem getPsfKernel_units (fuel : Nat) (j1 : ℝ → ℝ) (o : PolObj) (coeff : ℝ) (q : KernelParams) (airy : Bool) (c : ℝ) (hc : c ≠ 0) :
    getPsfKernel fuel j1 o (c * coeff) (paramsIn c q) airy = getPsfKernel fuel j1 o coeff q airy := by
  unfold getPsfKernel paramsIn
  simp only [wl_zero hc, mul_div_mul_left _ _ hc, getKernelSize_units _ _ _ _ _ _ _ hc, kernelDist_units _ _ _ _ _ hc]

theorem getPsfKernelZerns_units (fuel : Nat) (l : List (ℝ × PolObj)) (q : KernelParams) (c : ℝ) (hc : c ≠ 0) :
    getPsfKernelZerns fuel l (paramsIn c q) = getPsfKernelZerns fuel l q := by
  unfold getPsfKernelZerns paramsIn
  simp only [wl_zero hc, kernelDist_units _ _ _ _ _ hc]

theorem getPsfKernelComp_units (o : PolObj) (coeff : ℝ) (q : KernelParams) (c : ℝ) (hc : c ≠ 0) :
    getPsfKernelComp o (c * coeff) (paramsIn c q) = getPsfKernelComp o coeff q := by
  unfold getPsfKernelComp paramsIn
  simp only [wl_zero hc, mul_div_mul_left _ _ hc, kernelDist_units _ _ _ _ _ hc]

theorem getPsfKernelCompPols_units (l : List (ℝ × PolObj)) (q : KernelParams) (c : ℝ) (hc : c ≠ 0) :
    getPsfKernelCompPols l (paramsIn c q) = getPsfKernelCompPols l q := by
  unfold getPsfKernelCompPols paramsIn
  simp only [wl_zero hc, kernelDist_units _ _ _ _ _ hc]

theorem SameInUnits.params {c : ℝ} {a b : PsfObj} (h : SameInUnits c a b) (normalized : Bool) : b.params normalized = paramsIn c (a.params normalized) := by
  unfold PsfObj.params paramsIn
  simp only [h.NA, h.wl, h.px, h.nR, h.nPhi, h.size]

theorem SameInUnits.kernelCall {c : ℝ} (hc : c ≠ 0) {a b : PsfObj} (h : SameInUnits c a b) (env : Env) (normalized : Bool) (acc : Option Bool) :
    b.kernelCall env normalized acc = a.kernelCall env normalized acc := by
  unfold PsfObj.kernelCall
  rw [h.pol, h.pols, h.params]
  rcases hz : a.zernpol with _ | z
  · have he : ∀ x, b.amplitudeError x = a.amplitudeError x := by
      intro x; unfold PsfObj.amplitudeError; rw [h.NA, h.ampl hz]
    simp only [h.ampl hz, he, getPsfKernelCompPols_units _ _ _ hc, getPsfKernelZerns_units _ _ _ _ hc]
  · have := h.coeff (by simp [hz])
    simp only [this.1, h.airy, getPsfKernelComp_units _ _ _ _ hc, getPsfKernel_units _ _ _ _ _ _ _ hc]

theorem SameInUnits.calculate {c : ℝ} (hc : c ≠ 0) {a b : PsfObj} (h : SameInUnits c a b) (env : Env) (suppress normalized : Bool) (acc : Option Bool)
    (s : CoefState) : (b.calculate env suppress normalized acc s).1 = (a.calculate env suppress normalized acc s).1 ∧
      SameInUnits c (a.calculate env suppress normalized acc s).2.1 (b.calculate env suppress normalized acc s).2.1 ∧
      (b.calculate env suppress normalized acc s).2.2 = (a.calculate env suppress normalized acc s).2.2 := by
  have h' : SameInUnits c (calcStart a suppress) (calcStart b suppress) := by
    by_cases hp : ¬ a.propsSet ∧ ¬ suppress
    · unfold calcStart
      rw [if_pos hp, if_pos (by rw [h.set]; exact hp)]
      exact { h with size := rfl }
    · unfold calcStart
      rw [if_neg hp, if_neg (by rw [h.set]; exact hp)]
      exact h
  have e : ∀ o : PsfObj, o.calculate env suppress normalized acc s = (match (calcStart o suppress).kernelCall env normalized acc with
      | none => (.ok (calcStart o suppress).kernel, calcStart o suppress, s)
      | some x =>
        match x s with
        | (.error e, s') => (.error e, calcStart o suppress, s')
        | (.ok g, s') => (.ok g, { calcStart o suppress with kernel := g }, s')) := fun o => rfl
  rw [e, e, h'.kernelCall hc]
  rcases (calcStart a suppress).kernelCall env normalized acc with _ | x
  · exact ⟨by rw [h'.kernel], h', rfl⟩
  · rcases hx : x s with ⟨r | g, s'⟩
    · simp only [hx]; exact ⟨trivial, h', trivial⟩
    · simp only [hx]; exact ⟨trivial, { h' with kernel := rfl }, trivial⟩

theorem SameInUnits.crop {c : ℝ} {a b : PsfObj} (h : SameInUnits c a b) (part : ℝ) :
    (b.crop part).1 = (a.crop part).1 ∧ SameInUnits c (a.crop part).2 (b.crop part).2 := by
  unfold PsfObj.crop
  rw [h.kernel, h.size]
  by_cases h1 : a.kernelSize > 3
  swap
  · simp only [if_neg h1]; exact ⟨trivial, h⟩
  simp only [if_pos h1]
  rcases npMax a.kernel.elems with e | top
  · exact ⟨rfl, h⟩
  simp only []
  by_cases h2 : part ≤ 0
  · simp only [if_pos h2]; exact ⟨trivial, h⟩
  simp only [if_neg h2]
  by_cases h3 : part ≥ 0.5
  · simp only [if_pos h3]; exact ⟨trivial, h⟩
  simp only [if_neg h3]
  rcases cropSteps a.kernel (part * top) (a.kernel.rows + 1) 0 with e | step
  · exact ⟨rfl, h⟩
  simp only []
  by_cases h4 : step > 0
  · simp only [if_pos h4]; exact ⟨trivial, { h with kernel := rfl, size := rfl }⟩
  · simp only [if_neg h4]; exact ⟨trivial, h⟩

theorem SameInUnits.setCalc {c : ℝ} {a b : PsfObj} (h : SameInUnits c a b) (size nR nPhi : Int) :
    (b.setCalculationProps size nR nPhi).1 = (a.setCalculationProps size nR nPhi).1 ∧
      SameInUnits c (a.setCalculationProps size nR nPhi).2 (b.setCalculationProps size nR nPhi).2 := by
  unfold PsfObj.setCalculationProps
  split_ifs
  · exact ⟨rfl, h⟩
  · exact ⟨rfl, { h with size := rfl }⟩
  · exact ⟨rfl, { h with size := rfl }⟩
  · exact ⟨rfl, { h with size := rfl, nR := rfl, nPhi := rfl }⟩

theorem npMax_units (c : ℝ) (l : List ℝ) : (∃ x, npMax l = .ok x) ∧ (∃ y, npMax (l.map (c * ·)) = .ok y) ∨
    npMax l = .error .valueError ∧ npMax (l.map (c * ·)) = .error .valueError := by
  cases l with
  | nil => right; exact ⟨rfl, rfl⟩
  | cons x l => left; exact ⟨⟨_, rfl⟩, ⟨_, rfl⟩⟩

theorem PreUnits.storeCoeff {c : ℝ} (hc : c ≠ 0) {a b : PsfObj} (h : PreUnits c a b) (co : CoeffArg)
    (hwf : (a.zernpol ≠ none ∧ a.polynomials = []) ∨ (a.zernpol = none ∧ 2 ≤ a.polynomials.length)) :
    (b.storeCoeff (inUnitCoeff c co)).1 = (a.storeCoeff co).1 ∧
      PreUnits c (a.storeCoeff co).2 (b.storeCoeff (inUnitCoeff c co)).2 ∧
      ((a.storeCoeff co).1 = .ok () → SameInUnits c (a.storeCoeff co).2 (b.storeCoeff (inUnitCoeff c co)).2) ∧
      (SameInUnits c a b → SameInUnits c (a.storeCoeff co).2 (b.storeCoeff (inUnitCoeff c co)).2) := by
  have hone : ∀ x, a.zernpol ≠ none → SameInUnits c (a.storeOne x) (b.storeOne (c * x)) := fun x hz =>
    { h with
      coeff := fun _ => ⟨rfl, by simp only [PsfObj.storeOne, h.wl, mul_div_mul_left _ _ hc]⟩
      ampl := fun hz' => absurd hz' hz }
  have hno : ∀ e : PyErr, (Except.error e : Res Unit) = .ok () → ∀ P : Prop, P := fun e h => by cases h
  cases co with
  | num x =>
    simp only [inUnitCoeff, PsfObj.storeCoeff, h.pol, h.pols]
    rcases hwf with ⟨hz, hp⟩ | ⟨hz, hp⟩
    · rw [if_neg (by simp [hz]), if_neg (by simp [hz])]
      exact ⟨rfl, (hone x hz).toPreUnits, fun _ => hone x hz, fun _ => hone x hz⟩
    · rw [if_pos ⟨hz, by omega⟩, if_pos ⟨hz, by omega⟩]
      exact ⟨rfl, h, fun e => hno _ e _, id⟩
  | bad e =>
    simp only [inUnitCoeff, PsfObj.storeCoeff, h.pol, h.pols]
    by_cases hz : a.zernpol = none ∧ a.polynomials.length > 1
    · rw [if_pos hz, if_pos hz]; exact ⟨rfl, h, fun e => hno _ e _, id⟩
    · rw [if_neg hz, if_neg hz]; exact ⟨rfl, h, fun e => hno _ e _, id⟩
  | seq l =>
    have hpl : b.polynomials.length = a.polynomials.length := by rw [h.pols]
    simp only [inUnitCoeff, PsfObj.storeCoeff, List.length_map]
    by_cases hl : l.length ≠ a.polynomials.length
    · rw [if_pos hl, if_pos (by rwa [hpl])]
      match l, hl with
      | [], _ => exact ⟨rfl, h, fun e => hno _ e _, id⟩
      | [x], hl =>
        simp only [List.map_cons, List.map_nil]
        rcases hwf with ⟨hz, hp⟩ | ⟨hz, hp⟩
        · rw [if_pos (by rw [hpl]; simp [hp]), if_pos (by simp [hp])]
          exact ⟨rfl, (hone x hz).toPreUnits, fun _ => hone x hz, fun _ => hone x hz⟩
        · rw [if_neg (by omega), if_neg (by omega)]
          exact ⟨rfl, h, fun e => hno _ e _, id⟩
      | _ :: _ :: _, _ => exact ⟨rfl, h, fun e => hno _ e _, id⟩
    · rw [if_neg hl, if_neg (by rwa [hpl])]
      rcases npMax_units c l with ⟨⟨x, hx⟩, ⟨y, hy⟩⟩ | ⟨hx, hy⟩
      · simp only [hx, hy]
        have hz : a.zernpol = none := by
          rcases hwf with ⟨_, hp⟩ | ⟨hz, _⟩
          · have : l = [] := by
              have : l.length = a.polynomials.length := not_not.1 hl
              rw [hp] at this
              exact List.length_eq_zero_iff.1 this
            rw [this] at hx; cases hx
          · exact hz
        have hs : SameInUnits c { a with coefficients := some l, amplitudes := some (l.map (· / a.wavelength)) }
            { b with coefficients := some (l.map (c * ·)), amplitudes := some ((l.map (c * ·)).map (· / b.wavelength)) } :=
          { h with
            coeff := fun hz' => absurd hz hz'
            ampl := fun _ => by
              simp only [List.map_map, Option.some.injEq]
              refine List.map_congr_left fun x _ => ?_
              simp only [Function.comp, h.wl, mul_div_mul_left _ _ hc] }
        exact ⟨trivial, hs.toPreUnits, fun _ => hs, fun _ => hs⟩
      · simp only [hx, hy]
        exact ⟨trivial, { h with }, fun e => hno _ e _, fun hs => { hs with }⟩

theorem sizeLoop_units (px wl NA c : ℝ) (hc : c ≠ 0) (ps : List ZernPol) : ∀ (as : List ℝ) (acc : Int × ℝ),
    sizeLoop (c * px) (c * wl) NA ps as acc = sizeLoop px wl NA ps as acc := by
  induction ps with
  | nil => intro as acc; rfl
  | cons p ps ih =>
    intro as acc
    cases as with
    | nil => rfl
    | cons a as =>
      obtain ⟨x, y⟩ := acc
      simp only [sizeLoop, getKernelSize_units _ _ _ _ _ _ _ hc, ih]

theorem SameInUnits.estimate {c : ℝ} (hc : c ≠ 0) {a b : PsfObj} (h : SameInUnits c a b) : b.estimateSize = a.estimateSize := by
  unfold PsfObj.estimateSize
  rw [h.pol, h.pols, h.px, h.wl, h.NA]
  rcases hz : a.zernpol with _ | z
  · simp only [h.ampl hz, sizeLoop_units _ _ _ _ hc]
  · simp only [(h.coeff (by simp [hz])).2, getKernelSize_units _ _ _ _ _ _ _ hc]

theorem nyquist_units (c wl NA : ℝ) : 0.5 * 0.5 * (c * wl) / NA = c * (0.5 * 0.5 * wl / NA) := by ring

/-- The common part of the two objects before properties are set. -/
structure SameBefore (a b : PsfObj) : Prop where
  kernel : b.kernel = a.kernel
  size : b.kernelSize = a.kernelSize
  NA : b.NA = a.NA
  set : b.propsSet = a.propsSet
  airy : b.airy = a.airy
  nR : b.nR = a.nR
  nPhi : b.nPhi = a.nPhi
  pol : b.zernpol = a.zernpol
  pols : b.polynomials = a.polynomials

theorem setPhysical_units {c : ℝ} (hc : 0 < c) {a b : PsfObj} (h : SameBefore a b)
    (hwf : (a.zernpol ≠ none ∧ a.polynomials = []) ∨ (a.zernpol = none ∧ 2 ≤ a.polynomials.length)) (NA wl px : ℝ) (co : CoeffArg) :
    (b.setPhysicalProps NA (c * wl) (inUnitCoeff c co) (c * px)).1 = (a.setPhysicalProps NA wl co px).1 ∧
      ((a.setPhysicalProps NA wl co px).1 = .ok () → SameInUnits c (a.setPhysicalProps NA wl co px).2
        (b.setPhysicalProps NA (c * wl) (inUnitCoeff c co) (c * px)).2) ∧
      (SameInUnits c a b → SameInUnits c (a.setPhysicalProps NA wl co px).2 (b.setPhysicalProps NA (c * wl) (inUnitCoeff c co) (c * px)).2) := by
  have hno : ∀ e : PyErr, (Except.error e : Res Unit) = .ok () → ∀ P : Prop, P := fun e h => by cases h
  have hwl : ∀ x : ℝ, c * x ≤ 0 ↔ x ≤ 0 := fun x => by
    constructor
    · intro h; by_contra hx; have := mul_pos hc (not_le.1 hx); linarith
    · intro h; exact mul_nonpos_of_nonneg_of_nonpos hc.le h
  have hny : c * px > 0.5 * 0.5 * (c * wl) / NA ↔ px > 0.5 * 0.5 * wl / NA := by
    rw [nyquist_units]; exact mul_lt_mul_iff_right₀ hc
  unfold PsfObj.setPhysicalProps
  by_cases h1 : NA < 0 ∨ NA > 1.7
  · rw [if_pos h1, if_pos h1]; exact ⟨rfl, fun e => hno _ e _, id⟩
  rw [if_neg h1, if_neg h1]
  by_cases h2 : wl ≤ 0
  · rw [if_pos h2, if_pos ((hwl wl).2 h2)]; exact ⟨rfl, fun e => hno _ e _, id⟩
  rw [if_neg h2, if_neg (fun h => h2 ((hwl wl).1 h))]
  by_cases h3 : NA = 0
  · simp only [if_pos h3]; exact ⟨trivial, fun e => hno _ e _, fun hs => { hs with NA := rfl, wl := rfl }⟩
  simp only [if_neg h3]
  by_cases h4 : px ≤ 0
  · simp only [if_pos h4, if_pos ((hwl px).2 h4)]; exact ⟨trivial, fun e => hno _ e _, fun hs => { hs with NA := rfl, wl := rfl }⟩
  simp only [if_neg h4, if_neg (fun h => h4 ((hwl px).1 h))]
  by_cases h5 : px > 0.5 * 0.5 * wl / NA
  · simp only [if_pos h5, if_pos (hny.2 h5)]; exact ⟨trivial, fun e => hno _ e _, fun hs => { hs with NA := rfl, wl := rfl }⟩
  simp only [if_neg h5, if_neg (fun h => h5 (hny.1 h))]
  have hpre : PreUnits c (physBase a NA wl px) (physBase b NA (c * wl) (c * px)) := { h with NA := rfl, wl := rfl, px := rfl }
  obtain ⟨k1, k2, k3, k4⟩ := hpre.storeCoeff hc.ne' co hwf
  have ka : (physBase a NA wl px).storeCoeff co = ({ a with k := 2 * Real.pi / a.wavelength, NA := NA, wavelength := wl, nyquist := 0.5 * 0.5 * wl / NA, pixelSize := px } : PsfObj).storeCoeff co := rfl
  have kb : (physBase b NA (c * wl) (c * px)).storeCoeff (inUnitCoeff c co) = ({ b with k := 2 * Real.pi / b.wavelength, NA := NA, wavelength := c * wl, nyquist := 0.5 * 0.5 * (c * wl) / NA, pixelSize := c * px } : PsfObj).storeCoeff (inUnitCoeff c co) := rfl
  rw [← ka, ← kb]
  rcases hx : (physBase a NA wl px).storeCoeff co with ⟨ra, a'⟩
  rcases hy : (physBase b NA (c * wl) (c * px)).storeCoeff (inUnitCoeff c co) with ⟨rb, b'⟩
  rw [hx, hy] at k1 k2 k3 k4
  simp only at k1 k2 k3 k4
  subst k1
  have k4' : SameInUnits c a b → SameInUnits c a' b' := fun hs => k4 { hs with NA := rfl, wl := rfl, px := rfl }
  rcases rb with e | u
  · exact ⟨rfl, fun e => hno _ e _, k4'⟩
  · have k := k3 rfl
    simp only [k.estimate hc.ne']
    rcases a'.estimateSize with e | size
    · exact ⟨rfl, fun e => hno _ e _, k4'⟩
    · have : SameInUnits c { a' with kernelSize := size, propsSet := true } { b' with kernelSize := size, propsSet := true } :=
        { k with size := rfl, set := rfl }
      exact ⟨rfl, fun _ => this, fun _ => this⟩

theorem SameInUnits.before {c : ℝ} {a b : PsfObj} (h : SameInUnits c a b) : SameBefore a b := { h with }

theorem PsfInv.pols_cases {a : PsfObj} (h : PsfInv a) : (a.zernpol ≠ none ∧ a.polynomials = []) ∨ (a.zernpol = none ∧ 2 ≤ a.polynomials.length) := by
  rcases h.wf.1 with ⟨z, h1, h2⟩ | h
  · left; exact ⟨by simp [h1], h2⟩
  · right; exact h

theorem run_units {c : ℝ} (hc : 0 < c) {a b : PsfObj} (h : SameInUnits c a b) (hi : PsfInv a) (s : CoefState) (call : PsfCall) (hp : NotParallel call) :
    SameInUnits c (call.run (a, s)).1 ((inUnit c call).run (b, s)).1 ∧ ((inUnit c call).run (b, s)).2 = (call.run (a, s)).2 := by
  cases call with
  | setPhysicalProps NA wl co px => exact ⟨(setPhysical_units hc h.before (PsfInv.pols_cases hi) NA wl px co).2.2 h, rfl⟩
  | setCalculationProps size nR nPhi => exact ⟨(h.setCalc size nR nPhi).2, rfl⟩
  | calculate env suppress normalized accelerated =>
    obtain ⟨h1, h2, h3⟩ := h.calculate hc.ne' env suppress normalized accelerated s
    exact ⟨h2, h3⟩
  | crop part => exact ⟨(h.crop part).2, rfl⟩
  | parallel fuel w even odd normalize => exact hp.elim

theorem afterPsf_units {c : ℝ} (hc : 0 < c) (calls : List PsfCall) (hp : ∀ x ∈ calls, NotParallel x) : ∀ {a b : PsfObj} (_ : SameInUnits c a b) (_ : PsfInv a) (s : CoefState),
    SameInUnits c (afterPsfCalls a s calls).1 (afterPsfCalls b s (calls.map (inUnit c))).1 ∧
      (afterPsfCalls b s (calls.map (inUnit c))).2 = (afterPsfCalls a s calls).2 := by
  induction calls with
  | nil => intro a b h _ s; exact ⟨h, rfl⟩
  | cons x calls ih =>
    intro a b h hi s
    obtain ⟨h1, h2⟩ := run_units hc h hi s x (hp x (by simp))
    have hi' := run_inv (a, s) hi x
    have k := ih (fun y hy => hp y (by simp [hy])) h1 hi' (x.run (a, s)).2
    have e1 : afterPsfCalls a s (x :: calls) = afterPsfCalls (x.run (a, s)).1 (x.run (a, s)).2 calls := rfl
    have e2 : afterPsfCalls b s ((x :: calls).map (inUnit c)) =
        afterPsfCalls ((inUnit c x).run (b, s)).1 ((inUnit c x).run (b, s)).2 (calls.map (inUnit c)) := rfl
    rw [e1, e2, h2]
    exact k

/-- C66. The unit of length does not matter. An object in any state; `set_physical_props` with the lengths (wavelength, coefficients, pixel size) in
another unit (`c` times the numbers) gives the same result or the same exception. -/
theorem units_set_result (o : PsfObj) (s : CoefState) (hr : PsfReachable o s) (c : ℝ) (hc : 0 < c) (NA wl px : ℝ) (co : CoeffArg) :
    (o.setPhysicalProps NA (c * wl) (inUnitCoeff c co) (c * px)).1 = (o.setPhysicalProps NA wl co px).1 :=
  (setPhysical_units hc ⟨rfl, rfl, rfl, rfl, rfl, rfl, rfl, rfl, rfl⟩ (PsfInv.pols_cases hr.inv) NA wl px co).1

/-- C66. After a successful `set_physical_props`, any calls (successful or not) except `get_kernel_parallel` (for it: `units_do_not_matter_twice`) with all lengths in another unit give the same kernel, kernel size and
coefficient tables; a further calculation gives the same result or exception, and a further cropping too. -/
theorem units_do_not_matter (o : PsfObj) (s : CoefState) (hr : PsfReachable o s) (c : ℝ) (hc : 0 < c) (NA wl px : ℝ) (co : CoeffArg)
    (hset : (o.setPhysicalProps NA wl co px).1 = .ok ()) (calls : List PsfCall) (hp : ∀ x ∈ calls, NotParallel x) (a b : PsfObj) (s₁ s₂ : CoefState)
    (ha : afterPsfCalls o s (.setPhysicalProps NA wl co px :: calls) = (a, s₁))
    (hb : afterPsfCalls o s ((.setPhysicalProps NA wl co px :: calls).map (inUnit c)) = (b, s₂)) :
    s₂ = s₁ ∧ b.kernel = a.kernel ∧ b.kernelSize = a.kernelSize ∧ b.NA = a.NA ∧ b.wavelength = c * a.wavelength ∧ b.pixelSize = c * a.pixelSize ∧
      (∀ env suppress normalized accelerated, (b.calculate env suppress normalized accelerated s₂).1 =
        (a.calculate env suppress normalized accelerated s₁).1) ∧
      ∀ part, (b.crop part).1 = (a.crop part).1 ∧ (b.crop part).2.kernel = (a.crop part).2.kernel := by
  have h1 := (setPhysical_units hc (a := o) (b := o) ⟨rfl, rfl, rfl, rfl, rfl, rfl, rfl, rfl, rfl⟩ (PsfInv.pols_cases hr.inv) NA wl px co).2.1 hset
  obtain ⟨k1, k2⟩ := afterPsf_units hc calls hp h1 (setPhysical_inv o hr.inv NA wl co px) s
  have e1 : afterPsfCalls o s (.setPhysicalProps NA wl co px :: calls) = afterPsfCalls (o.setPhysicalProps NA wl co px).2 s calls := rfl
  have e2 : afterPsfCalls o s ((.setPhysicalProps NA wl co px :: calls).map (inUnit c)) =
    afterPsfCalls (o.setPhysicalProps NA (c * wl) (inUnitCoeff c co) (c * px)).2 s (calls.map (inUnit c)) := rfl
  rw [← e1, ← e2, ha, hb] at k1 k2
  simp only at k1 k2
  subst k2
  exact ⟨rfl, k1.kernel, k1.size, k1.NA, k1.wl, k1.px, fun env sup nrm acc => (k1.calculate hc.ne' env sup nrm acc s₂).1,
    fun part => ⟨(k1.crop part).1, (k1.crop part).2.kernel⟩⟩

/-- The hypotheses are met: the README example in micrometres and in nanometres, with a calculation, a failing call and a cropping. -/
example : ∃ o s, PsfReachable o s ∧ (o.setPhysicalProps 0.95 0.6 (.num 0.5) 0.15).1 = .ok () ∧
    ([.setPhysicalProps 0.95 0.6 (.num 0.5) 0.15, .setPhysicalProps 0.95 0.6 (.num 0.5) 1, .crop 0.01] : List PsfCall).map (inUnit 1000) =
      [.setPhysicalProps 0.95 600 (.num 500) 150, .setPhysicalProps 0.95 600 (.num 500) 1000, .crop 0.01] := by
  have hr : PsfReachable psfDefault (afterCalls []) := ⟨.other, psfDefault, [], [], rfl, rfl⟩
  have hv : ∀ z ∈ psfPols psfDefault, ValidOrders z.m z.n := by
    intro z hz
    simp [psfPols, psfDefault] at hz
    subst hz
    decide
  obtain ⟨o', e, h⟩ := (set_physical_props_exact_partial psfDefault (afterCalls []) hr hv 0.95 0.6 0.15 (.num 0.5)).1
    ⟨by unfold PhysicalOk; norm_num, by simp [CoeffFits, psfPols, psfDefault]⟩
  refine ⟨_, _, hr, by rw [e], ?_⟩
  simp only [List.map, inUnit, inUnitCoeff]
  norm_num

end Verif.Props
