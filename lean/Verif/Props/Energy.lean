import Verif.Proofs.Energy
import Verif.Props.PsfObj
import Verif.Props.PsfSymmetry
import Verif.Props.PsfRate

/-!
# C106: aberrations redistribute the light of a PSF and neither create nor destroy it

Specification: `Spec/Diffraction` (the exact PSF at the pixels), `kernelTotal` (the sum of the elements of a kernel), `pupilEnergy` (what that sum should be).
-/

namespace Verif.Props
open Verif.Model Verif.Spec Verif.Proofs Filter Topology

/-- `np.sum(kernel)` of an array of `S × S` elements. -/
noncomputable def kernelTotal (S : ℕ) (v : ℕ → ℕ → ℝ) : ℝ := ∑ i ∈ Finset.range S, ∑ j ∈ Finset.range S, v i j

/-- The light that goes through the pupil, in units of a pixel with the intensity in the centre of the PSF without aberrations. It depends on the optics and the pixel size only. -/
noncomputable def pupilEnergy (wavelength NA pixelSize : ℝ) : ℝ := wavelength ^ 2 / (Real.pi * (NA * pixelSize) ^ 2)

/-- Pixels smaller than `wavelength / (2 NA)`. -/
def FineEnough (wavelength NA pixelSize : ℝ) : Prop := 0 < wavelength ∧ 0 < NA ∧ 0 < pixelSize ∧ 2 * NA * pixelSize < wavelength

/-- The physical properties which the PSF class accepts (C45) are fine enough, by a factor of 2. -/
theorem physical_fine_enough {NA wl px : ℝ} (h : PhysicalOk NA wl px) : FineEnough wl NA px := by
  obtain ⟨h1, -, h2, h3, h4⟩ := h
  refine ⟨h2, h1, h3, ?_⟩
  rw [le_div_iff₀ (by positivity)] at h4
  nlinarith [mul_pos h1 h3]

theorem fine_scale {wl NA px : ℝ} (h : FineEnough wl NA px) : 0 < opticalScale wl NA px ∧ opticalScale wl NA px < Real.pi := by
  obtain ⟨h1, h2, h3, h4⟩ := h
  have hpi := Real.pi_pos
  refine ⟨by unfold opticalScale; positivity, ?_⟩
  have e : opticalScale wl NA px = Real.pi * (2 * NA * px / wl) := by unfold opticalScale; ring
  rw [e]
  have : 2 * NA * px / wl < 1 := by rwa [div_lt_one h1]
  nlinarith

theorem pupilEnergy_eq {wl NA px : ℝ} (h : FineEnough wl NA px) : 4 * Real.pi / opticalScale wl NA px ^ 2 = pupilEnergy wl NA px := by
  obtain ⟨h1, h2, h3, -⟩ := h
  have hpi := Real.pi_pos
  unfold pupilEnergy opticalScale
  field_simp
  ring

/-- C106. Any combination of polynomials with any coefficients: the exact PSF, summed over all the pixels of the unbounded image plane, gives the same total. -/
theorem psf_total (cs : List ℝ) (os : List PolObj) (wl NA px : ℝ) (h : FineEnough wl NA px) :
    HasSum (fun p : ℤ × ℤ => exactPsf (combination cs (ordersOf os)) (opticalScale wl NA px * p.1) (opticalScale wl NA px * p.2)) (pupilEnergy wl NA px) := by
  rw [← pupilEnergy_eq h]
  exact psf_hasSum _ (combination_continuous cs (ordersOf os)) (sum_periodic cs os) _ (fine_scale h).1 (fine_scale h).2

/-- The pixels of a kernel of `2k + 1` rows and columns. -/
noncomputable def box (k : ℕ) : Finset (ℤ × ℤ) := Finset.Icc (-(k : ℤ)) k ×ˢ Finset.Icc (-(k : ℤ)) k

theorem total_box (Φ : ℝ → ℝ → ℝ) (s : ℝ) (k : ℕ) :
    kernelTotal (2 * k + 1) (exactPixel Φ s (2 * k + 1)) = ∑ p ∈ box k, exactPsf Φ (s * (p.1 : ℤ)) (s * (p.2 : ℤ)) := by
  unfold kernelTotal box
  rw [Finset.sum_product, Finset.sum_comm]
  have key : ∀ f : ℤ → ℝ, ∑ j ∈ Finset.range (2 * k + 1), f ((k : ℤ) - j) = ∑ a ∈ Finset.Icc (-(k : ℤ)) k, f a := by
    intro f
    refine Finset.sum_bij' (fun j _ => (k : ℤ) - j) (fun a _ => ((k : ℤ) - a).toNat) ?_ ?_ ?_ ?_ ?_
    · intro j hj; simp only [Finset.mem_range] at hj; simp only [Finset.mem_Icc]; omega
    · intro a ha; simp only [Finset.mem_Icc] at ha; simp only [Finset.mem_range]; omega
    · intro j hj; simp
    · intro a ha; simp only [Finset.mem_Icc] at ha; omega
    · intro j hj; rfl
  rw [← key (fun a => ∑ b ∈ Finset.Icc (-(k : ℤ)) k, exactPsf Φ (s * a) (s * b))]
  refine Finset.sum_congr rfl fun j _ => ?_
  rw [← key (fun b => exactPsf Φ (s * (((k : ℤ) - j : ℤ) : ℝ)) (s * b))]
  refine Finset.sum_congr rfl fun i _ => ?_
  unfold exactPixel
  congr 2 <;> push_cast <;> ring

theorem exactPsf_nonneg (Φ : ℝ → ℝ → ℝ) (x y : ℝ) : 0 ≤ exactPsf Φ x y := by unfold exactPsf; positivity

theorem box_tendsto : Tendsto box atTop atTop := by
  refine tendsto_atTop_finset_of_monotone ?_ ?_
  · intro a b h p hp
    simp only [box, Finset.mem_product, Finset.mem_Icc] at hp ⊢
    omega
  · intro p
    refine ⟨p.1.natAbs + p.2.natAbs, ?_⟩
    simp only [box, Finset.mem_product, Finset.mem_Icc]
    omega

theorem exact_le (Φ : ℝ → ℝ → ℝ) (s T : ℝ) (h : HasSum (fun p : ℤ × ℤ => exactPsf Φ (s * p.1) (s * p.2)) T) (S : ℕ) (hS : S % 2 = 1) :
    kernelTotal S (exactPixel Φ s S) ≤ T := by
  obtain ⟨k, rfl⟩ : ∃ k, S = 2 * k + 1 := ⟨S / 2, by omega⟩
  rw [total_box]
  exact sum_le_hasSum _ (fun p _ => exactPsf_nonneg Φ _ _) h

theorem exact_tendsto (Φ : ℝ → ℝ → ℝ) (s T : ℝ) (h : HasSum (fun p : ℤ × ℤ => exactPsf Φ (s * p.1) (s * p.2)) T) (ε : ℝ) (hε : 0 < ε) :
    ∃ S₀ : ℕ, ∀ S, S₀ ≤ S → S % 2 = 1 → |kernelTotal S (exactPixel Φ s S) - T| ≤ ε := by
  have ht : Tendsto (fun k => ∑ p ∈ box k, exactPsf Φ (s * (p.1 : ℤ)) (s * (p.2 : ℤ))) atTop (𝓝 T) := by
    have h' := h
    unfold HasSum at h'
    rw [SummationFilter.unconditional_filter] at h'
    exact h'.comp box_tendsto
  rw [Metric.tendsto_atTop] at ht
  obtain ⟨k₀, hk⟩ := ht ε hε
  refine ⟨2 * k₀ + 1, fun S h1 h2 => ?_⟩
  obtain ⟨k, rfl⟩ : ∃ k, S = 2 * k + 1 := ⟨S / 2, by omega⟩
  rw [total_box, ← Real.dist_eq]
  exact (hk k (by omega)).le

/-- C106. No kernel, of whatever odd size, contains more light than goes through the pupil (exact PSF). -/
theorem exact_total_le (cs : List ℝ) (os : List PolObj) (wl NA px : ℝ) (h : FineEnough wl NA px) (S : ℕ) (hS : S % 2 = 1) :
    kernelTotal S (exactPixel (combination cs (ordersOf os)) (opticalScale wl NA px) S) ≤ pupilEnergy wl NA px :=
  exact_le _ _ _ (psf_total cs os wl NA px h) S hS

/-- C106. Kernels of large sizes contain all of it, up to as little as you like (exact PSF). -/
theorem exact_total_tendsto (cs : List ℝ) (os : List PolObj) (wl NA px : ℝ) (h : FineEnough wl NA px) (ε : ℝ) (hε : 0 < ε) :
    ∃ S₀ : ℕ, ∀ S, S₀ ≤ S → S % 2 = 1 →
      |kernelTotal S (exactPixel (combination cs (ordersOf os)) (opticalScale wl NA px) S) - pupilEnergy wl NA px| ≤ ε :=
  exact_tendsto _ _ _ (psf_total cs os wl NA px h) ε hε

theorem total_close (S : ℕ) (v : ℕ → ℕ → ℝ) (g : Grid) (E : ℝ) (h : KernelWithin E S v g) : |kernelTotal S g.entry - kernelTotal S v| ≤ S ^ 2 * E := by
  unfold kernelTotal
  rw [← Finset.sum_sub_distrib]
  calc |∑ i ∈ Finset.range S, (∑ j ∈ Finset.range S, g.entry i j - ∑ j ∈ Finset.range S, v i j)|
      ≤ ∑ i ∈ Finset.range S, (S : ℝ) * E := by
        refine (Finset.abs_sum_le_sum_abs _ _).trans (Finset.sum_le_sum fun i hi => ?_)
        rw [← Finset.sum_sub_distrib]
        refine (Finset.abs_sum_le_sum_abs _ _).trans ((Finset.sum_le_sum fun j hj => h.2.2 i j (Finset.mem_range.1 hi) (Finset.mem_range.1 hj)).trans ?_)
        simp
    _ = _ := by simp; ring

/-- C106. The computed kernel (not normalised) of one polynomial: with the error bound `E` of a pixel (C72), the sum of its `S × S` pixels exceeds the light through the pupil by at
most `S² E`. -/
theorem kernel_total_le (h : List Call) (fuel : Nat) (j1 : ℝ → ℝ) (o : PolObj) (hv : ValidOrders o.m o.n) (hf : o.n.toNat + 1 < fuel) (coeff : ℝ)
    (q : KernelParams) (nR nPhi : ℕ) (hR : q.nR = nR) (hPhi : q.nPhi = nPhi) (hR2 : 2 ≤ nR) (hPhi4 : 4 ≤ nPhi) (hfine : FineEnough q.wavelength q.NA q.len2pixels)
    (h3 : 3 ≤ q.kernelSize) (S : ℕ) (hS : OddSize q.kernelSize S) (hnorm : q.normalize = false) (R : ℝ)
    (hr : opticalScale q.wavelength q.NA q.len2pixels * S ≤ R) :
    ∃ g, (getPsfKernel fuel j1 o coeff q false (afterCalls h)).1 = .ok g ∧
      kernelTotal S g.entry ≤ pupilEnergy q.wavelength q.NA q.len2pixels + S ^ 2 * quadratureError [coeff / q.wavelength] [(o.m, o.n)] R nR nPhi := by
  obtain ⟨g, e, k, -⟩ := kernel_quadrature_error h fuel j1 o hv hf coeff q nR nPhi hR hPhi hR2 hPhi4 ⟨hfine.1, hfine.2.1⟩ h3 S hS R
    (by rwa [abs_of_pos (fine_scale hfine).1]) _ rfl
  refine ⟨g, e, ?_⟩
  have h1 := (abs_le.1 (total_close S _ g _ (k hnorm))).2
  have h2 := exact_total_le [coeff / q.wavelength] [o] q.wavelength q.NA q.len2pixels hfine S hS.1
  have e2 : combination [coeff / q.wavelength] (ordersOf [o]) = fun p φ => coeff / q.wavelength * zernike o.m o.n p φ := combination_one _ _ _
  rw [e2] at h2
  linarith

/-- C106. The same for a sum of polynomials. -/
theorem sum_kernel_total_le (h : List Call) (fuel : Nat) (cs : List ℝ) (os : List PolObj) (hl : cs.length = os.length) (h0 : os ≠ []) (hv : PolsOk fuel os)
    (q : KernelParams) (nR nPhi : ℕ) (hR : q.nR = nR) (hPhi : q.nPhi = nPhi) (hR2 : 2 ≤ nR) (hPhi4 : 4 ≤ nPhi) (hfine : FineEnough q.wavelength q.NA q.len2pixels)
    (S : ℕ) (hS : OddSize q.kernelSize S) (hnorm : q.normalize = false) (R : ℝ) (hr : opticalScale q.wavelength q.NA q.len2pixels * S ≤ R) :
    ∃ g, (getPsfKernelZerns fuel (cs.zip os) q (afterCalls h)).1 = .ok g ∧
      kernelTotal S g.entry ≤ pupilEnergy q.wavelength q.NA q.len2pixels + S ^ 2 * quadratureError cs (ordersOf os) R nR nPhi := by
  obtain ⟨g, e, k, -⟩ := sum_kernel_quadrature_error h fuel cs os hl h0 hv q nR nPhi hR hPhi hR2 hPhi4 ⟨hfine.1, hfine.2.1⟩ S hS R
    (by rwa [abs_of_pos (fine_scale hfine).1]) _ rfl
  refine ⟨g, e, ?_⟩
  have h1 := (abs_le.1 (total_close S _ g _ (k hnorm))).2
  have h2 := exact_total_le cs os q.wavelength q.NA q.len2pixels hfine S hS.1
  linarith

/-- C106. The computed kernels (not normalised) of a sum of polynomials contain all the light that goes through the pupil and no more, up to as little as you like, for all kernel sizes
from some size on, each with enough integration points. The total is the same whatever the polynomials and their coefficients are. -/
theorem sum_kernel_total (cs : List ℝ) (os : List PolObj) (hl : cs.length = os.length) (h0 : os ≠ []) (q : KernelParams)
    (hfine : FineEnough q.wavelength q.NA q.len2pixels) (hnorm : q.normalize = false) (ε : ℝ) (hε : 0 < ε) :
    ∃ S₀ : ℕ, ∀ (size : Int) (S : ℕ), S₀ ≤ S → OddSize size S → ∃ N : ℕ, ∀ nR nPhi : ℕ, N ≤ nR → N ≤ nPhi → ∀ (h : List Call) (fuel : Nat), PolsOk fuel os →
      ∃ g, (getPsfKernelZerns fuel (cs.zip os) { q with nR := nR, nPhi := nPhi, kernelSize := size } (afterCalls h)).1 = .ok g ∧ g.rows = S ∧ g.cols = S ∧
        |kernelTotal S g.entry - pupilEnergy q.wavelength q.NA q.len2pixels| ≤ ε := by
  obtain ⟨S₀, hS₀⟩ := exact_total_tendsto cs os q.wavelength q.NA q.len2pixels hfine (ε / 2) (by positivity)
  refine ⟨S₀, fun size S h1 hS => ?_⟩
  have hSpos : (0 : ℝ) < S := by have := hS.1; exact_mod_cast (show 0 < S by omega)
  obtain ⟨N, hN⟩ := sum_kernel_converges cs os hl h0 { q with kernelSize := size } ⟨hfine.1, hfine.2.1⟩ S hS 1 (by simp [hnorm]) (ε / 2 / S ^ 2) (by positivity)
  refine ⟨N, fun nR nPhi a b h fuel hv => ?_⟩
  obtain ⟨g, e, k⟩ := hN nR nPhi a b h fuel hv
  refine ⟨g, e, k.1, k.2.1, ?_⟩
  have t1 := total_close S _ g _ k
  rw [mul_div_cancel₀ _ (by positivity)] at t1
  have e1 : kernelTotal S (exactKernel (combination cs (ordersOf os)) { q with kernelSize := size } S 1) =
      kernelTotal S (exactPixel (combination cs (ordersOf os)) (opticalScale q.wavelength q.NA q.len2pixels) S) := by
    unfold kernelTotal exactKernel
    simp [hnorm]
  rw [e1] at t1
  have t2 := hS₀ S h1 hS.1
  have := abs_sub_le (kernelTotal S g.entry) (kernelTotal S (exactPixel (combination cs (ordersOf os)) (opticalScale q.wavelength q.NA q.len2pixels) S))
    (pupilEnergy q.wavelength q.NA q.len2pixels)
  linarith

/-- C106. The same for the kernel of one polynomial. -/
theorem kernel_total (o : PolObj) (hv : ValidOrders o.m o.n) (coeff : ℝ) (q : KernelParams)
    (hfine : FineEnough q.wavelength q.NA q.len2pixels) (hnorm : q.normalize = false) (ε : ℝ) (hε : 0 < ε) :
    ∃ S₀ : ℕ, ∀ (size : Int) (S : ℕ), S₀ ≤ S → OddSize size S → ∃ N : ℕ, ∀ nR nPhi : ℕ, N ≤ nR → N ≤ nPhi → ∀ (h : List Call) (fuel : Nat) (j1 : ℝ → ℝ), o.n.toNat + 1 < fuel →
      ∃ g, (getPsfKernel fuel j1 o coeff { q with nR := nR, nPhi := nPhi, kernelSize := size } false (afterCalls h)).1 = .ok g ∧ g.rows = S ∧ g.cols = S ∧
        |kernelTotal S g.entry - pupilEnergy q.wavelength q.NA q.len2pixels| ≤ ε := by
  obtain ⟨S₀, hS₀⟩ := exact_total_tendsto [coeff / q.wavelength] [o] q.wavelength q.NA q.len2pixels hfine (ε / 2) (by positivity)
  have e2 : combination [coeff / q.wavelength] (ordersOf [o]) = fun p φ => coeff / q.wavelength * zernike o.m o.n p φ := combination_one _ _ _
  rw [e2] at hS₀
  refine ⟨S₀ + 5, fun size S h1 hS => ?_⟩
  have hSpos : (0 : ℝ) < S := by have := hS.1; exact_mod_cast (show 0 < S by omega)
  obtain ⟨N, hN⟩ := kernel_converges o hv coeff { q with kernelSize := size } ⟨hfine.1, hfine.2.1⟩ (by have := hS.2; simp only; omega) S hS 1 (by simp [hnorm]) (ε / 2 / S ^ 2) (by positivity)
  refine ⟨N, fun nR nPhi a b h fuel j1 hf => ?_⟩
  obtain ⟨g, e, k⟩ := hN nR nPhi a b h fuel j1 hf
  refine ⟨g, e, k.1, k.2.1, ?_⟩
  have t1 := total_close S _ g _ k
  rw [mul_div_cancel₀ _ (by positivity)] at t1
  have e1 : kernelTotal S (exactKernel (fun p φ => coeff / q.wavelength * zernike o.m o.n p φ) { q with kernelSize := size } S 1) =
      kernelTotal S (exactPixel (fun p φ => coeff / q.wavelength * zernike o.m o.n p φ) (opticalScale q.wavelength q.NA q.len2pixels) S) := by
    unfold kernelTotal exactKernel
    simp [hnorm]
  rw [e1] at t1
  have t2 := hS₀ S (by omega) hS.1
  have := abs_sub_le (kernelTotal S g.entry) (kernelTotal S (exactPixel (fun p φ => coeff / q.wavelength * zernike o.m o.n p φ) (opticalScale q.wavelength q.NA q.len2pixels) S))
    (pupilEnergy q.wavelength q.NA q.len2pixels)
  linarith

/-- C106. In double precision, with the default numbers of points: the sum of the `S × S` pixels exceeds the light through the pupil by at most `S²` times the error of a pixel. -/
theorem kernel_total_double (s : List ℝ → ℝ) (hs : Sums s) (h : List Call) (fuel : Nat) (o : PolObj) (hv : ValidOrders o.m o.n) (hf : o.n.toNat + 1 < fuel)
    (hn : o.n ≤ 10) (coeff : ℝ) (q : KernelParams) (hopt : FloatOptics q) (hfine : FineEnough q.wavelength q.NA q.len2pixels) (hR : q.nR = 320) (hPhi : q.nPhi = 300)
    (hα : |coeff / q.wavelength| ≤ 1) (S : ℕ)
    (hS : OddSize q.kernelSize S) (R : ℝ) (hR1 : R ≤ 1000) (hr : opticalScale q.wavelength q.NA q.len2pixels * S ≤ R) (hnorm : q.normalize = false) :
    ∃ g, (fltPsfKernel (psfDoubles s) fuel o coeff q (afterCalls h)).1 = .ok g ∧
      kernelTotal S g.entry ≤ pupilEnergy q.wavelength q.NA q.len2pixels + S ^ 2 * (quadratureError [coeff / q.wavelength] [(o.m, o.n)] R 320 300 + 5 / 10 ^ 8) := by
  obtain ⟨g, e, k⟩ := kernel_double_vs_exact s hs h fuel o hv hf hn coeff q hopt hR hPhi hα S hS R hR1 hr hnorm
  refine ⟨g, e, ?_⟩
  have h1 := (abs_le.1 (total_close S _ g _ k)).2
  have h2 := exact_total_le [coeff / q.wavelength] [o] q.wavelength q.NA q.len2pixels hfine S hS.1
  have e2 : combination [coeff / q.wavelength] (ordersOf [o]) = fun p φ => coeff / q.wavelength * zernike o.m o.n p φ := combination_one _ _ _
  rw [e2] at h2
  linarith

/-- The total is a condition on the pixel size: with pixels of `wavelength / NA` (the PSF class refuses them, C45, the kernel functions take them) the PSF without aberrations has the
value 1 in the centre, more than the whole `1/π` which pixels of this size should get. -/
theorem coarse_pixels_gain (wl NA : ℝ) (hw : 0 < wl) (hN : 0 < NA) :
    pupilEnergy wl NA (wl / NA) < kernelTotal 1 (exactPixel (combination [] (ordersOf [])) (opticalScale wl NA (wl / NA)) 1) := by
  have e : kernelTotal 1 (exactPixel (combination [] (ordersOf [])) (opticalScale wl NA (wl / NA)) 1) = 1 := by
    have hc : combination [] (ordersOf []) = fun _ _ => (0 : ℝ) := by funext r t; simp [combination]
    unfold kernelTotal exactPixel
    rw [hc]
    simp [exactPsf_center]
  rw [e]
  unfold pupilEnergy
  have h3 := Real.pi_gt_three
  rw [mul_div_cancel₀ _ hN.ne', div_lt_one (by positivity)]
  nlinarith [pow_pos hw 2]

/-- Pixels of 110 nm, NA 0.95, 550 nm: they are fine enough; all the light is less than 9 times the central pixel of the PSF without aberrations. -/
example : PhysicalOk 0.95 0.55 0.11 ∧ FineEnough 0.55 0.95 0.11 ∧ pupilEnergy 0.55 0.95 0.11 < 9 := by
  have h : PhysicalOk 0.95 0.55 0.11 := by unfold PhysicalOk; norm_num
  refine ⟨h, physical_fine_enough h, ?_⟩
  unfold pupilEnergy
  have h3 := Real.pi_gt_d2
  rw [div_lt_iff₀ (by positivity)]
  nlinarith

/-- Kernels of defocus with coma get all the light. -/
example : ∃ S₀ : ℕ, ∀ (size : Int) (S : ℕ), S₀ ≤ S → OddSize size S → ∃ N : ℕ, ∀ nR nPhi : ℕ, N ≤ nR → N ≤ nPhi → ∀ (h : List Call) (fuel : Nat),
    PolsOk fuel [⟨0, 2, false⟩, ⟨-1, 3, false⟩] →
      ∃ g, (getPsfKernelZerns fuel ([0.3, -0.2].zip [⟨0, 2, false⟩, ⟨-1, 3, false⟩]) ⟨0.11, 0.55, 0.95, nR, nPhi, false, size⟩ (afterCalls h)).1 = .ok g ∧ g.rows = S ∧ g.cols = S ∧
        |kernelTotal S g.entry - pupilEnergy 0.55 0.95 0.11| ≤ 1e-3 :=
  sum_kernel_total [0.3, -0.2] [⟨0, 2, false⟩, ⟨-1, 3, false⟩] rfl (by simp) ⟨0.11, 0.55, 0.95, 320, 300, false, 31⟩
    (physical_fine_enough (by unfold PhysicalOk; norm_num)) rfl 1e-3 (by norm_num)

end Verif.Props
