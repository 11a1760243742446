import Verif.Proofs.PsfNumba
import Verif.Proofs.Airy
import Verif.Props.Sums

/-!
# C32–C35, C43–C46: the PSF calculation
-/

namespace Verif.Props
open Verif.Model Verif.Spec Verif.Proofs

/-- The phase of one polynomial with the amplitude `coeff` in units of length. -/
noncomputable def phaseOne (o : PolObj) (coeff wavelength : ℝ) (p φ : ℝ) : ℝ := coeff / wavelength * zernike o.m o.n p φ

/-- The number of integration points is at least that required for a meaningful sum. -/
def PointsOk (q : KernelParams) : Prop := 2 ≤ q.nR ∧ 0 < q.nPhi

/-- Wavelength and numerical aperture are positive. -/
def OpticsOk (q : KernelParams) : Prop := 0 < q.wavelength ∧ 0 < q.NA

theorem oddSize_makeOdd {k : Int} {S : ℕ} (h : OddSize k S) : makeOdd k = S := by
  obtain ⟨h1, h2⟩ := h
  unfold makeOdd; split_ifs <;> omega

theorem pixel_eq (Φ : ℝ → ℝ → ℝ) (S : ℕ) (hS : S % 2 = 1) (wl NA px : ℝ) (i j : ℕ) (nR nPhi : ℕ) :
    psfValue Φ (kernelDist S (2 * Real.pi / wl) NA px i j) (kernelTheta S i j) nR nPhi =
      pixelPsf Φ (opticalScale wl NA px) S nR nPhi i j := by
  rw [psf_pixel]
  have : (((S : Int) / 2 : Int) : ℝ) = ((S : ℝ) - 1) / 2 := by
    obtain ⟨k, hk⟩ : ∃ k, S = 2 * k + 1 := ⟨S / 2, by omega⟩
    subst hk
    rw [show (((2 * k + 1 : ℕ) : Int) / 2 : Int) = (k : Int) by omega]
    push_cast; ring
  rw [this]
  rfl

theorem kernel_point (ph : Phase) (Φ : ℝ → ℝ → ℝ) (hp : PhaseOk ph Φ) (q : KernelParams) (hq : PointsOk q) (S : ℕ) (hS : S % 2 = 1)
    (i j : ℕ) :
    Ret (psfPoint ph (kernelDist S (2 * Real.pi / q.wavelength) q.NA q.len2pixels i j) (kernelTheta S i j) q.nR q.nPhi)
      (pixelPsf Φ (opticalScale q.wavelength q.NA q.len2pixels) S q.nR.toNat q.nPhi.toNat i j) := by
  rw [← pixel_eq Φ S hS]
  obtain ⟨h1, h2⟩ := hq
  have := psfPoint_ok ph Φ hp (kernelDist S (2 * Real.pi / q.wavelength) q.NA q.len2pixels i j) (kernelTheta S i j)
    q.nR.toNat q.nPhi.toNat (by omega) (by omega)
  rwa [Int.toNat_of_nonneg (by omega), Int.toNat_of_nonneg (by omega)] at this

/-- The kernel of a phase, as a pure function of the parameters. -/
noncomputable def idealKernel (Φ : ℝ → ℝ → ℝ) (q : KernelParams) (S : ℕ) : Res Grid :=
  pureKernel S (pixelPsf Φ (opticalScale q.wavelength q.NA q.len2pixels) S q.nR.toNat q.nPhi.toNat) q.normalize

theorem kernel_res (ph : Phase) (Φ : ℝ → ℝ → ℝ) (hp : PhaseOk ph Φ) (q : KernelParams) (hq : PointsOk q) (hopt : OpticsOk q) (S : ℕ) (hS : S % 2 = 1)
    (s : CoefState) (hg : Good s) :
    (makeKernel S q.NA (fun i j => psfPoint ph (kernelDist S (2 * Real.pi / q.wavelength) q.NA q.len2pixels i j) (kernelTheta S i j)
      q.nR q.nPhi) q.normalize s).1 = idealKernel Φ q S := by
  have := makeKernel_res S (by omega) q.NA hopt.2.ne' _ (pixelPsf Φ (opticalScale q.wavelength q.NA q.len2pixels) S q.nR.toNat q.nPhi.toNat) q.normalize
    (fun i j _ _ => kernel_point ph Φ hp q hq S hS i j) s hg
  rw [this]
  rfl

theorem single_res (s0 : CoefState) (hs0 : Good s0) (fuel : Nat) (j1 : ℝ → ℝ) (o : PolObj) (hv : ValidOrders o.m o.n) (hf : o.n.toNat + 1 < fuel) (coeff : ℝ)
    (q : KernelParams) (hq : PointsOk q) (hopt : OpticsOk q) (h3 : 3 ≤ q.kernelSize) (S : ℕ) (hS : OddSize q.kernelSize S) :
    (getPsfKernel fuel j1 o coeff q false s0).1 = idealKernel (phaseOne o coeff q.wavelength) q S := by
  unfold getPsfKernel
  rw [if_neg hopt.1.ne']
  refine ret_res (v := q.kernelSize) (ret_lift (by rw [if_neg (by omega)])) ?_ _ hs0
  intro s hs
  simp only [oddSize_makeOdd hS, Bool.false_eq_true, if_false]
  exact kernel_res _ _ (singlePhase_ok fuel o hv hf (coeff / q.wavelength)) q hq hopt S hS.1 s hs

theorem single_res_auto (s0 : CoefState) (hs0 : Good s0) (fuel : Nat) (j1 : ℝ → ℝ) (o : PolObj) (hv : ValidOrders o.m o.n) (hf : o.n.toNat + 1 < fuel)
    (coeff : ℝ) (q : KernelParams) (hq : PointsOk q) (hopt : OpticsOk q) (h3 : q.kernelSize < 3) (hpx : 0 < q.len2pixels) :
    ∃ S : ℕ, S % 2 = 1 ∧ getKernelSize o.m o.n q.len2pixels (coeff / q.wavelength) q.wavelength q.NA = .ok (S : Int) ∧
      (getPsfKernel fuel j1 o coeff q false s0).1 = idealKernel (phaseOne o coeff q.wavelength) q S := by
  obtain ⟨s0, e, h1, h2⟩ := getKernelSize_ok o.m o.n hv q.len2pixels (coeff / q.wavelength) q.wavelength q.NA hpx hopt.1.le hopt.2
  refine ⟨s0.toNat, by omega, by rw [e, Int.toNat_of_nonneg (by omega)], ?_⟩
  unfold getPsfKernel
  rw [if_neg hopt.1.ne']
  refine ret_res (v := s0) (ret_lift (by rw [if_pos h3, e])) ?_ _ hs0
  intro s hs
  have : makeOdd s0 = (s0.toNat : Int) := by unfold makeOdd; rw [if_neg (by omega), Int.toNat_of_nonneg (by omega)]
  simp only [this, Bool.false_eq_true, if_false]
  exact kernel_res _ _ (singlePhase_ok fuel o hv hf (coeff / q.wavelength)) q hq hopt _ (by omega) s hs

theorem several_res (s0 : CoefState) (hs0 : Good s0) (fuel : Nat) (l : List (ℝ × PolObj)) (hl : l ≠ [])
    (hv : ∀ x ∈ l, ValidOrders x.2.m x.2.n ∧ x.2.n.toNat + 1 < fuel) (q : KernelParams) (hq : PointsOk q) (hopt : OpticsOk q) (S : ℕ)
    (hS : OddSize q.kernelSize S) :
    (getPsfKernelZerns fuel l q s0).1 = idealKernel (termSum l) q S := by
  unfold getPsfKernelZerns
  rw [if_neg hopt.1.ne']
  simp only [oddSize_makeOdd hS, Bool.false_eq_true, if_false]
  exact kernel_res _ _ (polsPhase_ok fuel l hl hv) q hq hopt S hS.1 _ hs0

/-! ### C44: every pixel of a kernel is the PSF at its place -/

/-- C44. One polynomial: the kernel has the requested (odd) size, and pixel `(i, j)` holds the PSF at the position of the pixel (divided by the
greatest value if normalised), after any history of calls. -/
theorem kernel_samples_psf (h : List Call) (fuel : Nat) (j1 : ℝ → ℝ) (o : PolObj) (hv : ValidOrders o.m o.n) (hf : o.n.toNat + 1 < fuel)
    (coeff : ℝ) (q : KernelParams) (hR : 2 ≤ q.nR) (hPhi : 0 < q.nPhi) (hopt : OpticsOk q) (h3 : 3 ≤ q.kernelSize) (S : ℕ) (hS : OddSize q.kernelSize S) :
    ∃ g, (getPsfKernel fuel j1 o coeff q false (afterCalls h)).1 = .ok g ∧
      KernelOf q.normalize S (fun i j => pixelPsf (fun p φ => coeff / q.wavelength * zernike o.m o.n p φ)
        (opticalScale q.wavelength q.NA q.len2pixels) S q.nR.toNat q.nPhi.toNat i j) g := by
  rw [single_res _ (afterCalls_good h) fuel j1 o hv hf coeff q ⟨hR, hPhi⟩ hopt h3 S hS]
  exact pureKernel_of S (by have := hS.1; omega) _ q.normalize

/-- C44. Without a requested size (smaller than 3) the size is the estimated one. -/
theorem kernel_samples_psf_auto (h : List Call) (fuel : Nat) (j1 : ℝ → ℝ) (o : PolObj) (hv : ValidOrders o.m o.n)
    (hf : o.n.toNat + 1 < fuel) (coeff : ℝ) (q : KernelParams) (hR : 2 ≤ q.nR) (hPhi : 0 < q.nPhi) (hopt : OpticsOk q) (h3 : q.kernelSize < 3)
    (hpx : 0 < q.len2pixels) :
    ∃ (S : ℕ) (g : Grid), S % 2 = 1 ∧ getKernelSize o.m o.n q.len2pixels (coeff / q.wavelength) q.wavelength q.NA = .ok (S : Int) ∧
      (getPsfKernel fuel j1 o coeff q false (afterCalls h)).1 = .ok g ∧
      KernelOf q.normalize S (fun i j => pixelPsf (fun p φ => coeff / q.wavelength * zernike o.m o.n p φ)
        (opticalScale q.wavelength q.NA q.len2pixels) S q.nR.toNat q.nPhi.toNat i j) g := by
  obtain ⟨S, h1, h2, h4⟩ := single_res_auto _ (afterCalls_good h) fuel j1 o hv hf coeff q ⟨hR, hPhi⟩ hopt h3 hpx
  obtain ⟨g, e, hg⟩ := pureKernel_of S (by omega) (pixelPsf (phaseOne o coeff q.wavelength) (opticalScale q.wavelength q.NA q.len2pixels)
    S q.nR.toNat q.nPhi.toNat) q.normalize
  exact ⟨S, g, h1, h2, by rw [h4]; exact e, hg⟩

/-- C44. Several polynomials with amplitudes (in units of the wavelength). -/
theorem kernel_samples_psf_sum (h : List Call) (fuel : Nat) (cs : List ℝ) (os : List PolObj) (hl : cs.length = os.length) (h0 : os ≠ [])
    (hv : PolsOk fuel os) (q : KernelParams) (hR : 2 ≤ q.nR) (hPhi : 0 < q.nPhi) (hopt : OpticsOk q) (S : ℕ) (hS : OddSize q.kernelSize S) :
    ∃ g, (getPsfKernelZerns fuel (cs.zip os) q (afterCalls h)).1 = .ok g ∧
      KernelOf q.normalize S (fun i j => pixelPsf (combination cs (ordersOf os))
        (opticalScale q.wavelength q.NA q.len2pixels) S q.nR.toNat q.nPhi.toNat i j) g := by
  rw [several_res _ (afterCalls_good h) fuel _ (zip_ne_nil hl h0) (pols_zip hv cs) q ⟨hR, hPhi⟩ hopt S hS, termSum_eq]
  exact pureKernel_of S (by have := hS.1; omega) _ q.normalize

example : OddSize 19 19 ∧ OddSize 18 19 ∧ ValidOrders (-1) 3 ∧ PolsOk 100 [⟨-1, 3, false⟩, ⟨0, 4, false⟩] := by
  refine ⟨by simp [OddSize], by simp [OddSize], by decide, ?_⟩
  intro o ho
  fin_cases ho <;> exact ⟨by decide, by decide⟩

/-! ### C32: values -/

/-- All elements of `g` are in `[0, 1]`. -/
def InUnit (g : Grid) : Prop := ∀ i j, i < g.rows → j < g.cols → 0 ≤ g.entry i j ∧ g.entry i j ≤ 1

/-- The greatest element of `g` is 1. -/
def MaxIsOne (g : Grid) : Prop := (∃ i j, i < g.rows ∧ j < g.cols ∧ g.entry i j = 1) ∧ ∀ i j, i < g.rows → j < g.cols → g.entry i j ≤ 1

theorem pixelPsf_mem (Φ : ℝ → ℝ → ℝ) (κ : ℝ) (S nR nPhi i j : ℕ) (hR : 0 < nR) (hPhi : 0 < nPhi) :
    0 ≤ pixelPsf Φ κ S nR nPhi i j ∧ pixelPsf Φ κ S nR nPhi i j ≤ angularFraction nPhi ^ 2 := by
  unfold pixelPsf
  obtain ⟨h1, h2⟩ := polar_arctan2 (κ * (((S : ℝ) - 1) / 2 - i)) (κ * (((S : ℝ) - 1) / 2 - j))
  have e := psfValue_xy Φ (Real.sqrt ((κ * (((S : ℝ) - 1) / 2 - i)) ^ 2 + (κ * (((S : ℝ) - 1) / 2 - j)) ^ 2))
    (arctan2 (κ * (((S : ℝ) - 1) / 2 - i)) (κ * (((S : ℝ) - 1) / 2 - j))) nR nPhi
  rw [h1, h2] at e
  rw [← e]
  exact ⟨psfValue_nonneg _ _ _ _ _, psfValue_le _ _ _ _ _ hR hPhi⟩

theorem fraction_sq_le (N : ℕ) (h : 0 < N) : angularFraction N ^ 2 ≤ 1 := by
  have := fraction_pos N h
  have := fraction_lt_one N h
  nlinarith

theorem kernelOf_unit (nrm : Bool) (S : ℕ) (v : ℕ → ℕ → ℝ) (g : Grid) (hg : KernelOf nrm S v g)
    (hv : ∀ i j, i < S → j < S → 0 ≤ v i j ∧ v i j ≤ 1) (hpos : nrm = true → ∃ i j, i < S ∧ j < S ∧ 0 < v i j) :
    g.rows = S ∧ g.cols = S ∧ InUnit g ∧ (nrm = true → MaxIsOne g) := by
  unfold KernelOf at hg
  cases nrm with
  | false =>
    rw [if_neg (by simp)] at hg
    obtain ⟨h1, h2, h3⟩ := hg
    refine ⟨h1, h2, ?_, by simp⟩
    intro i j hi hj
    rw [h3 i j (by omega) (by omega)]
    exact hv i j (by omega) (by omega)
  | true =>
    rw [if_pos rfl] at hg
    obtain ⟨a, b, ha, hb, hm, h1, h2, h3⟩ := hg
    obtain ⟨i0, j0, hi0, hj0, hp⟩ := hpos rfl
    have hab : 0 < v a b := lt_of_lt_of_le hp (hm i0 j0 hi0 hj0)
    have hle : ∀ i j, i < g.rows → j < g.cols → g.entry i j ≤ 1 := by
      intro i j hi hj
      rw [h3 i j (by omega) (by omega)]
      rw [div_le_one hab]
      exact hm i j (by omega) (by omega)
    refine ⟨h1, h2, ?_, fun _ => ⟨⟨a, b, by omega, by omega, ?_⟩, hle⟩⟩
    · intro i j hi hj
      refine ⟨?_, hle i j hi hj⟩
      rw [h3 i j (by omega) (by omega)]
      exact div_nonneg (hv i j (by omega) (by omega)).1 hab.le
    · rw [h3 a b ha hb]; exact div_self hab.ne'

/-- C32. Every kernel of one polynomial calculated by integration has all its values in `[0, 1]`; normalised, its maximum is exactly 1 (unless all
PSF values vanish, when `numpy` divides 0 by 0). -/
theorem kernel_values_bounded (h : List Call) (fuel : Nat) (j1 : ℝ → ℝ) (o : PolObj) (hv : ValidOrders o.m o.n) (hf : o.n.toNat + 1 < fuel)
    (coeff : ℝ) (q : KernelParams) (hR : 2 ≤ q.nR) (hPhi : 0 < q.nPhi) (hopt : OpticsOk q) (h3 : 3 ≤ q.kernelSize) (S : ℕ) (hS : OddSize q.kernelSize S)
    (hpos : q.normalize = true → ∃ i j, i < S ∧ j < S ∧ 0 < pixelPsf (fun p φ => coeff / q.wavelength * zernike o.m o.n p φ)
      (opticalScale q.wavelength q.NA q.len2pixels) S q.nR.toNat q.nPhi.toNat i j) :
    ∃ g, (getPsfKernel fuel j1 o coeff q false (afterCalls h)).1 = .ok g ∧ g.rows = S ∧ g.cols = S ∧ InUnit g ∧
      (q.normalize = true → MaxIsOne g) := by
  obtain ⟨g, e, hg⟩ := kernel_samples_psf h fuel j1 o hv hf coeff q hR hPhi hopt h3 S hS
  refine ⟨g, e, kernelOf_unit q.normalize S _ g hg (fun i j _ _ => ?_) hpos⟩
  have := pixelPsf_mem (fun p φ => coeff / q.wavelength * zernike o.m o.n p φ) (opticalScale q.wavelength q.NA q.len2pixels) S q.nR.toNat
    q.nPhi.toNat i j (by omega) (by omega)
  exact ⟨this.1, this.2.trans (fraction_sq_le _ (by omega))⟩

/-- C32. The same for several polynomials. -/
theorem kernel_sum_values_bounded (h : List Call) (fuel : Nat) (cs : List ℝ) (os : List PolObj) (hl : cs.length = os.length) (h0 : os ≠ [])
    (hv : PolsOk fuel os) (q : KernelParams) (hR : 2 ≤ q.nR) (hPhi : 0 < q.nPhi) (hopt : OpticsOk q) (S : ℕ) (hS : OddSize q.kernelSize S)
    (hpos : q.normalize = true → ∃ i j, i < S ∧ j < S ∧ 0 < pixelPsf (combination cs (ordersOf os))
      (opticalScale q.wavelength q.NA q.len2pixels) S q.nR.toNat q.nPhi.toNat i j) :
    ∃ g, (getPsfKernelZerns fuel (cs.zip os) q (afterCalls h)).1 = .ok g ∧ g.rows = S ∧ g.cols = S ∧ InUnit g ∧
      (q.normalize = true → MaxIsOne g) := by
  obtain ⟨g, e, hg⟩ := kernel_samples_psf_sum h fuel cs os hl h0 hv q hR hPhi hopt S hS
  refine ⟨g, e, kernelOf_unit q.normalize S _ g hg (fun i j _ _ => ?_) hpos⟩
  have := pixelPsf_mem (combination cs (ordersOf os)) (opticalScale q.wavelength q.NA q.len2pixels) S q.nR.toNat
    q.nPhi.toNat i j (by omega) (by omega)
  exact ⟨this.1, this.2.trans (fraction_sq_le _ (by omega))⟩

theorem pixelPsf_center (Φ : ℝ → ℝ → ℝ) (κ : ℝ) (S nR nPhi : ℕ) (hS : S % 2 = 1) :
    pixelPsf Φ κ S nR nPhi (S / 2) (S / 2) = psfValue Φ 0 0 nR nPhi := by
  have : ((S / 2 : ℕ) : ℝ) = ((S : ℝ) - 1) / 2 := by
    obtain ⟨k, hk⟩ : ∃ k, S = 2 * k + 1 := ⟨S / 2, by omega⟩
    subst hk
    rw [show (2 * k + 1) / 2 = k by omega]
    push_cast; ring
  unfold pixelPsf
  rw [this, psfValue_xy]
  simp

/-- The condition of `kernel_values_bounded` on positive values holds, for example, for moderate aberrations (phases below `π/2`). -/
theorem moderate_aberration_positive (o : PolObj) (coeff wavelength κ : ℝ) (hv : ValidOrders o.m o.n)
    (hsmall : |coeff / wavelength| * Spec.norm o.m o.n < Real.pi / 2) (S nR nPhi : ℕ) (hS : S % 2 = 1) (hR : 0 < nR) (hPhi : 0 < nPhi) :
    0 < pixelPsf (fun p φ => coeff / wavelength * zernike o.m o.n p φ) κ S nR nPhi (S / 2) (S / 2) := by
  rw [pixelPsf_center _ _ _ _ _ hS]
  apply psfValue_pos _ _ _ _ _ hR hPhi
  intro p φ h0 h1
  refine lt_of_le_of_lt ?_ hsmall
  rw [abs_mul]
  apply mul_le_mul_of_nonneg_left _ (abs_nonneg _)
  unfold zernike
  rw [spec_radial_eq _ _ _ hv, abs_mul, abs_mul]
  have a : |RR o.m o.n p| ≤ 1 := RR_abs_le _ _ _ h0 h1
  have b : |angular o.m φ| ≤ 1 := by
    unfold angular; split_ifs
    · exact Real.abs_cos_le_one _
    · exact Real.abs_sin_le_one _
  have c : |Spec.norm o.m o.n| = Spec.norm o.m o.n := abs_of_nonneg (Real.sqrt_nonneg _)
  have d : 0 ≤ Spec.norm o.m o.n := Real.sqrt_nonneg _
  rw [c]
  calc Spec.norm o.m o.n * |RR o.m o.n p| * |angular o.m φ| ≤ Spec.norm o.m o.n * 1 * 1 := by gcongr
    _ = _ := by ring

theorem airy_res (s0 : CoefState) (hs0 : Good s0) (fuel : Nat) (o : PolObj) (coeff : ℝ) (q : KernelParams) (hopt : OpticsOk q) (h3 : 3 ≤ q.kernelSize) (S : ℕ)
    (hS : OddSize q.kernelSize S) :
    (getPsfKernel fuel besselJ1 o coeff q true s0).1 =
      pureKernel S (fun i j => airyRef besselJ1 (kernelDist S (2 * Real.pi / q.wavelength) q.NA q.len2pixels i j)) q.normalize := by
  unfold getPsfKernel
  rw [if_neg hopt.1.ne']
  refine ret_res (v := q.kernelSize) (ret_lift (by rw [if_neg (by omega)])) ?_ _ hs0
  intro s hs
  simp only [oddSize_makeOdd hS, if_true]
  have := makeKernel_res S (by omega) q.NA hopt.2.ne' (fun i j => pure (airyRef besselJ1 (kernelDist S (2 * Real.pi / q.wavelength) q.NA q.len2pixels i j)))
    (fun i j => airyRef besselJ1 (kernelDist S (2 * Real.pi / q.wavelength) q.NA q.len2pixels i j)) q.normalize (fun i j _ _ => ret_pure _) s hs
  rw [this]
  rfl

/-- C32. The Airy kernel of the piston (from the Bessel function `J_1`) has its values in `[0, 1]`, at least `1 - 10^-20` in the centre;
normalised, its maximum is exactly 1. -/
theorem airy_kernel_bounded (h : List Call) (fuel : Nat) (o : PolObj) (coeff : ℝ) (q : KernelParams) (hopt : OpticsOk q) (h3 : 3 ≤ q.kernelSize) (S : ℕ)
    (hS : OddSize q.kernelSize S) :
    ∃ g, (getPsfKernel fuel besselJ1 o coeff q true (afterCalls h)).1 = .ok g ∧ g.rows = S ∧ g.cols = S ∧ InUnit g ∧
      1 - 1e-20 ≤ g.entry (S / 2) (S / 2) ∧ (q.normalize = true → MaxIsOne g) := by
  rw [airy_res _ (afterCalls_good h) fuel o coeff q hopt h3 S hS]
  have hS1 := hS.1
  obtain ⟨g, e, hg⟩ := pureKernel_of S (by omega)
    (fun i j => airyRef besselJ1 (kernelDist S (2 * Real.pi / q.wavelength) q.NA q.len2pixels i j)) q.normalize
  have hc : 1 - 1e-20 ≤ airyRef besselJ1 (kernelDist S (2 * Real.pi / q.wavelength) q.NA q.len2pixels (S / 2) (S / 2)) := by
    have : kernelDist S (2 * Real.pi / q.wavelength) q.NA q.len2pixels (S / 2) (S / 2) = 0 := by
      unfold kernelDist
      rw [show (((S : Int) / 2 : Int) : ℝ) = ((S / 2 : ℕ) : ℝ) by norm_cast]
      simp
    rw [this]
    exact airy_center
  have hpos : 0 < airyRef besselJ1 (kernelDist S (2 * Real.pi / q.wavelength) q.NA q.len2pixels (S / 2) (S / 2)) :=
    lt_of_lt_of_le (by norm_num) hc
  obtain ⟨h1, h2, h4, h5⟩ := kernelOf_unit q.normalize S _ g hg (fun i j _ _ => airy_mem _)
    fun _ => ⟨S / 2, S / 2, by omega, by omega, hpos⟩
  refine ⟨g, e, h1, h2, h4, ?_, h5⟩
  unfold KernelOf at hg
  split_ifs at hg with hn
  · obtain ⟨a, b, ha, hb, hm, _, _, h6⟩ := hg
    rw [h6 _ _ (by omega) (by omega)]
    refine hc.trans ?_
    have hab := lt_of_lt_of_le hpos (hm _ _ (by omega : S / 2 < S) (by omega : S / 2 < S))
    rw [le_div_iff₀ hab]
    have := (airy_mem (kernelDist S (2 * Real.pi / q.wavelength) q.NA q.len2pixels a b)).2
    nlinarith
  · rw [hg.2.2 _ _ (by omega) (by omega)]
    exact hc

/-! ### C33: the central value -/

/-- C33 (partial). Whatever the number of integration points, the value of the unaberrated PSF (a piston of any amplitude) in the centre is
`angularFraction nPhi ^ 2`, the square of the weight that the angular rule gives to a constant: it should be 1. -/
theorem center_value_partial (h : List Call) (fuel : Nat) (hf : 1 < fuel) (o : PolObj) (ho : o.m = 0 ∧ o.n = 0) (alpha θ : ℝ)
    (nR nPhi : ℕ) (hR : 2 ≤ nR) (hPhi : 0 < nPhi) :
    (psfPoint (singlePhase fuel o alpha) 0 θ nR nPhi (afterCalls h)).1 = .ok (angularFraction nPhi ^ 2) := by
  have hp := singlePhase_ok fuel o (by rw [ho.1, ho.2]; decide) (by rw [ho.2]; simpa using hf) alpha
  have := (psfPoint_ok _ _ hp 0 θ nR nPhi hR hPhi _ (afterCalls_good h)).1
  rw [this]
  have e : (fun p φ => alpha * zernike o.m o.n p φ) = fun (_ _ : ℝ) => alpha * 1 := by
    funext p φ
    rw [ho.1, ho.2]
    unfold zernike
    rw [spec_radial_eq 0 0 p (by decide)]
    have : RR 0 0 p = 1 := by
      have := RR_diag 0 0 (by decide) (by decide) p
      simpa using this
    rw [this]
    simp [Spec.norm, angular]
  rw [e, psfValue_center nR nPhi (by omega) hPhi]

/-- The negation of C33: the central value is smaller than 1 for every number of integration points. -/
theorem center_value_not_one (h : List Call) (fuel : Nat) (hf : 1 < fuel) (o : PolObj) (ho : o.m = 0 ∧ o.n = 0) (alpha θ : ℝ)
    (nR nPhi : ℕ) (hR : 2 ≤ nR) (hPhi : 0 < nPhi) :
    ∃ v, (psfPoint (singlePhase fuel o alpha) 0 θ nR nPhi (afterCalls h)).1 = .ok v ∧ v < 1 := by
  refine ⟨_, center_value_partial h fuel hf o ho alpha θ nR nPhi hR hPhi, ?_⟩
  have := fraction_pos nPhi hPhi
  have := fraction_lt_one nPhi hPhi
  nlinarith

/-- The central value for the default number of angular points, 300 (cf. the comment `0.986711` in the repository). -/
theorem center_value_default (h : List Call) (fuel : Nat) (hf : 1 < fuel) (o : PolObj) (ho : o.m = 0 ∧ o.n = 0) (alpha θ : ℝ)
    (nR : ℕ) (hR : 2 ≤ nR) :
    (psfPoint (singlePhase fuel o alpha) 0 θ nR 300 (afterCalls h)).1 = .ok (22201 / 22500) := by
  have := center_value_partial h fuel hf o ho alpha θ nR 300 hR (by norm_num)
  rw [show ((300 : ℕ) : Int) = 300 from rfl] at this
  rw [this]
  have : angularFraction 300 = 149 / 150 := by unfold angularFraction; norm_num
  rw [this]
  norm_num

/-- The reason: for an even number of panels the rule is Simpson's (exact for constants) without the last even and the last odd node. -/
theorem angular_rule_misses_two_nodes (N : ℕ) (hN : 4 ≤ N) (he : N % 2 = 0) (g : ℝ → ℂ) :
    (∀ c, simpson N (fun _ => c) = ((2 * Real.pi : ℝ) : ℂ) * c) ∧
    simpson N g - angularRule N g = ((2 * Real.pi / N : ℝ) : ℂ) / 3 *
      (2 * g (((N - 2 : ℕ) : ℝ) * (2 * Real.pi / N)) + 4 * g (((N - 1 : ℕ) : ℝ) * (2 * Real.pi / N))) :=
  ⟨fun c => simpson_const N (by omega) he c, simpson_sub_rule N hN he g⟩

/-! ### C45: no aberration exceeds the ideal centre -/

/-- C45. No value of any kernel (before normalisation) exceeds the value `v` that the same calculation gives for the unaberrated PSF in the
centre: the Strehl ratio is at most 1. -/
theorem strehl_le_one (h h' : List Call) (fuel : Nat) (cs : List ℝ) (os : List PolObj) (hl : cs.length = os.length) (h0 : os ≠ [])
    (hv : PolsOk fuel os) (q : KernelParams) (hn : q.normalize = false) (hR : 2 ≤ q.nR) (hPhi : 0 < q.nPhi) (hopt : OpticsOk q) (S : ℕ)
    (hS : OddSize q.kernelSize S) (o : PolObj) (ho : o.m = 0 ∧ o.n = 0) (alpha : ℝ) :
    ∃ g v, (getPsfKernelZerns fuel (cs.zip os) q (afterCalls h)).1 = .ok g ∧
      (psfPoint (singlePhase fuel o alpha) 0 0 q.nR q.nPhi (afterCalls h')).1 = .ok v ∧ ∀ i j, i < S → j < S → g.entry i j ≤ v := by
  obtain ⟨g, e, hg⟩ := kernel_samples_psf_sum h fuel cs os hl h0 hv q hR hPhi hopt S hS
  have hf : 1 < fuel := by
    obtain ⟨x, t, rfl⟩ := List.exists_cons_of_ne_nil h0
    have := (hv x (by simp)).2
    omega
  have hc := center_value_partial h' fuel hf o ho alpha 0 q.nR.toNat q.nPhi.toNat (by omega) (by omega)
  rw [Int.toNat_of_nonneg (by omega), Int.toNat_of_nonneg (by omega)] at hc
  refine ⟨g, _, e, hc, fun i j hi hj => ?_⟩
  rw [hn] at hg
  simp only [KernelOf, Bool.false_eq_true, if_false] at hg
  rw [hg.2.2 i j hi hj]
  exact (pixelPsf_mem _ _ S _ _ i j (by omega) (by omega)).2

theorem idealKernel_congr (Φ Ψ : ℝ → ℝ → ℝ) (q : KernelParams) (S : ℕ)
    (h : ∀ x y, psfXY Φ x y q.nR.toNat q.nPhi.toNat = psfXY Ψ x y q.nR.toNat q.nPhi.toNat) : idealKernel Φ q S = idealKernel Ψ q S :=
  pureKernel_congr S _ _ q.normalize fun _ _ _ _ => h _ _

/-! ### C34: a piston term changes nothing -/

theorem psfXY_piston (Φ : ℝ → ℝ → ℝ) (c x y : ℝ) (nR nPhi : ℕ) :
    psfXY (fun p φ => Φ p φ + c) x y nR nPhi = psfXY Φ x y nR nPhi := by
  obtain ⟨h1, h2⟩ := polar_arctan2 y x
  have e := fun Ψ => psfValue_xy Ψ (Real.sqrt (y ^ 2 + x ^ 2)) (arctan2 y x) nR nPhi
  simp only [h1, h2] at e
  rw [← e, ← e]
  exact psfValue_piston Φ c _ _ nR nPhi

theorem termSum_insert (l₁ l₂ : List (ℝ × PolObj)) (a : ℝ) (o : PolObj) (ho : o.m = 0 ∧ o.n = 0) :
    termSum (l₁ ++ (a, o) :: l₂) = fun p φ => termSum (l₁ ++ l₂) p φ + a := by
  funext p φ
  have : zernike o.m o.n p φ = 1 := by
    rw [ho.1, ho.2]
    unfold zernike
    rw [spec_radial_eq 0 0 p (by decide)]
    have : RR 0 0 p = 1 := by
      have := RR_diag 0 0 (by decide) (by decide) p
      simpa using this
    rw [this]
    simp [Spec.norm, angular]
  simp [termSum, this]
  ring

/-- C34. Inserting a piston of any amplitude at any place into a non-empty list of aberrations does not change the kernel. -/
theorem piston_ignored (h h' : List Call) (fuel : Nat) (l₁ l₂ : List (ℝ × PolObj)) (hl : l₁ ++ l₂ ≠ []) (a : ℝ) (o : PolObj)
    (ho : o.m = 0 ∧ o.n = 0) (hv : ∀ x ∈ l₁ ++ (a, o) :: l₂, ValidOrders x.2.m x.2.n ∧ x.2.n.toNat + 1 < fuel) (q : KernelParams)
    (hR : 2 ≤ q.nR) (hPhi : 0 < q.nPhi) (hopt : OpticsOk q) (hq : 0 ≤ q.kernelSize) :
    (getPsfKernelZerns fuel (l₁ ++ (a, o) :: l₂) q (afterCalls h)).1 = (getPsfKernelZerns fuel (l₁ ++ l₂) q (afterCalls h')).1 := by
  have hS : OddSize q.kernelSize (makeOdd q.kernelSize).toNat := by
    unfold OddSize makeOdd; split_ifs <;> omega
  rw [several_res _ (afterCalls_good h) fuel _ (by simp) hv q ⟨hR, hPhi⟩ hopt _ hS,
    several_res _ (afterCalls_good h') fuel _ hl (fun x hx => hv x (by simp at hx ⊢; tauto)) q ⟨hR, hPhi⟩ hopt _ hS, termSum_insert _ _ _ _ ho]
  exact idealKernel_congr _ _ q _ fun x y => psfXY_piston _ a x y _ _

/-! ### C43: symmetries of the aberrations -/

/-- C43. Negating all amplitudes rotates the kernel by 180°: pixel `(i, j)` becomes pixel `(S-1-i, S-1-j)`. -/
theorem negated_amplitudes_rotate (h h' : List Call) (fuel : Nat) (cs : List ℝ) (os : List PolObj) (hl : cs.length = os.length) (h0 : os ≠ [])
    (hv : PolsOk fuel os) (q : KernelParams) (hn : q.normalize = false) (hR : 2 ≤ q.nR) (hPhi : 0 < q.nPhi) (hopt : OpticsOk q) (S : ℕ)
    (hS : OddSize q.kernelSize S) :
    ∃ g g', (getPsfKernelZerns fuel (cs.zip os) q (afterCalls h)).1 = .ok g ∧
      (getPsfKernelZerns fuel ((cs.map fun c => -c).zip os) q (afterCalls h')).1 = .ok g' ∧
      ∀ i j, i < S → j < S → g'.entry i j = g.entry (S - 1 - i) (S - 1 - j) := by
  obtain ⟨g, e, hg⟩ := kernel_samples_psf_sum h fuel cs os hl h0 hv q hR hPhi hopt S hS
  obtain ⟨g', e', hg'⟩ := kernel_samples_psf_sum h' fuel (cs.map fun c => -c) os (by simpa using hl) h0 hv q hR hPhi hopt S hS
  rw [hn] at hg hg'
  simp only [KernelOf, Bool.false_eq_true, if_false] at hg hg'
  refine ⟨g, g', e, e', fun i j hi hj => ?_⟩
  rw [hg'.2.2 i j hi hj, hg.2.2 _ _ (by omega) (by omega)]
  simp only [pixelPsf]
  have ec : combination (cs.map fun c => -c) (ordersOf os) = fun p φ => -combination cs (ordersOf os) p φ := by
    funext p φ
    unfold combination
    rw [List.zip_map_left, List.map_map]
    have key : ∀ l : List (ℝ × Int × Int), (l.map ((fun x => x.1 * zernike x.2.1 x.2.2 p φ) ∘ Prod.map (fun c => -c) id)).sum =
        -(l.map fun x => x.1 * zernike x.2.1 x.2.2 p φ).sum := by
      intro l
      induction l with
      | nil => simp
      | cons x t ih => simp only [List.map_cons, List.sum_cons, ih, Function.comp_apply, Prod.map, id]; ring
    exact key _
  rw [ec, Nat.cast_sub (by omega), Nat.cast_sub (by omega), Nat.cast_sub (by omega), Nat.cast_sub (by omega)]
  rw [← psfXY_conj (combination cs (ordersOf os))]
  congr 1 <;> push_cast <;> ring

/-- C46. The order of the polynomials (with their amplitudes) does not matter. -/
theorem polynomial_order_irrelevant (h h' : List Call) (fuel : Nat) (l l' : List (ℝ × PolObj)) (hp : l.Perm l') (hl : l ≠ [])
    (hv : ∀ x ∈ l, ValidOrders x.2.m x.2.n ∧ x.2.n.toNat + 1 < fuel) (q : KernelParams) (hR : 2 ≤ q.nR) (hPhi : 0 < q.nPhi) (hopt : OpticsOk q)
    (hq : 0 ≤ q.kernelSize) :
    (getPsfKernelZerns fuel l q (afterCalls h)).1 = (getPsfKernelZerns fuel l' q (afterCalls h')).1 := by
  have hS : OddSize q.kernelSize (makeOdd q.kernelSize).toNat := by
    unfold OddSize makeOdd; split_ifs <;> omega
  have hl' : l' ≠ [] := by
    intro e; rw [e] at hp; exact hl hp.eq_nil
  rw [several_res _ (afterCalls_good h) fuel _ hl hv q ⟨hR, hPhi⟩ hopt _ hS,
    several_res _ (afterCalls_good h') fuel _ hl' (fun x hx => hv x (hp.mem_iff.2 hx)) q ⟨hR, hPhi⟩ hopt _ hS]
  have : termSum l = termSum l' := by
    funext p φ
    exact (hp.map fun x => x.1 * zernike x.2.m x.2.n p φ).sum_eq
  rw [this]

/-- C46. A list of one polynomial gives the same kernel as the polynomial alone. -/
theorem single_as_list (h h' : List Call) (fuel : Nat) (j1 : ℝ → ℝ) (o : PolObj) (hv : ValidOrders o.m o.n) (hf : o.n.toNat + 1 < fuel)
    (coeff : ℝ) (q : KernelParams) (hR : 2 ≤ q.nR) (hPhi : 0 < q.nPhi) (hopt : OpticsOk q) (h3 : 3 ≤ q.kernelSize) :
    (getPsfKernel fuel j1 o coeff q false (afterCalls h)).1 = (getPsfKernelZerns fuel [(coeff / q.wavelength, o)] q (afterCalls h')).1 := by
  have hS : OddSize q.kernelSize (makeOdd q.kernelSize).toNat := by
    unfold OddSize makeOdd; split_ifs <;> omega
  rw [single_res _ (afterCalls_good h) fuel j1 o hv hf coeff q ⟨hR, hPhi⟩ hopt h3 _ hS,
    several_res _ (afterCalls_good h') fuel _ (by simp) (by simp; exact ⟨hv, hf⟩) q ⟨hR, hPhi⟩ hopt _ hS]
  have : termSum [(coeff / q.wavelength, o)] = phaseOne o coeff q.wavelength := by
    funext p φ
    simp [termSum, phaseOne]
  rw [this]

end Verif.Props
