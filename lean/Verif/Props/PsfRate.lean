import Verif.Proofs.PsfRate
import Verif.Props.PsfExact
import Verif.Props.FloatPsf

/-!
# C72: how much the kernels deviate from the exact diffraction integral, for given numbers of integration points

`exactPixel` is the exact diffraction integral at the place of a pixel (C51), `quadratureError` an explicit function of the coefficients, the orders, the optical distance and
the numbers of integration points.
-/

namespace Verif.Props
open Verif.Model Verif.Spec Verif.Proofs

theorem weighted_nonneg (f : Int → Int → ℝ) (cs : List ℝ) (os : List (Int × Int)) (h : ∀ o ∈ os, 0 ≤ f o.1 o.2) : 0 ≤ weighted f cs os := by
  refine List.sum_nonneg fun y hy => ?_
  obtain ⟨t, ht, rfl⟩ := List.mem_map.1 hy
  exact mul_nonneg (mul_nonneg (abs_nonneg _) (Real.sqrt_nonneg _)) (h _ (List.of_mem_zip ht).2)

theorem quadratureError_mono (cs : List ℝ) (os : List (Int × Int)) (hv : ∀ o ∈ os, ValidOrders o.1 o.2) {ρ R : ℝ} (h0 : 0 ≤ ρ) (h : ρ ≤ R) (nR nPhi : ℕ) :
    quadratureError cs os ρ nR nPhi ≤ quadratureError cs os R nR nPhi := by
  have h1 := weighted_nonneg (fun m _ => (m : ℝ) ^ 2) cs os fun o _ => sq_nonneg _
  have h2 := weighted_nonneg (fun m _ => |(m : ℝ)|) cs os fun o _ => abs_nonneg _
  have h3 := weighted_nonneg rimSlope cs os fun o ho => (rim_nonneg _ _ (hv o ho)).1
  unfold quadratureError
  gcongr

/-- The optical distance of a pixel from the centre. -/
theorem pixel_distance (κ R : ℝ) (S i j : ℕ) (hi : i < S) (hj : j < S) (hR : |κ| * S ≤ R) :
    Real.sqrt ((κ * (((S : ℝ) - 1) / 2 - j)) ^ 2 + (κ * (((S : ℝ) - 1) / 2 - i)) ^ 2) ≤ R := by
  have key : ∀ k : ℕ, k < S → (((S : ℝ) - 1) / 2 - k) ^ 2 ≤ ((S : ℝ) / 2) ^ 2 := by
    intro k hk
    have h1 : (k : ℝ) + 1 ≤ S := by exact_mod_cast hk
    have h2 : (0 : ℝ) ≤ k := by positivity
    rw [← sq_abs]
    refine pow_le_pow_left₀ (abs_nonneg _) ?_ 2
    rw [abs_le]; constructor <;> linarith
  have a := key i hi
  have b := key j hj
  refine (Real.sqrt_le_sqrt (y := (|κ| * S) ^ 2) ?_).trans ?_
  · have : κ ^ 2 * ((((S : ℝ) - 1) / 2 - j) ^ 2 + (((S : ℝ) - 1) / 2 - i) ^ 2) ≤ κ ^ 2 * ((S : ℝ) ^ 2) := by
      refine mul_le_mul_of_nonneg_left ?_ (sq_nonneg κ)
      nlinarith [sq_nonneg (S : ℝ)]
    rw [mul_pow |κ|, sq_abs]
    nlinarith
  · rw [Real.sqrt_sq (by positivity)]; exact hR

theorem pixel_rate (cs : List ℝ) (os : List (Int × Int)) (hv : ∀ o ∈ os, ValidOrders o.1 o.2) (κ R : ℝ) (S : ℕ) (hR : |κ| * S ≤ R) (nR nPhi : ℕ) (hnR : 0 < nR)
    (hnPhi : 4 ≤ nPhi) (i j : ℕ) (hi : i < S) (hj : j < S) :
    |pixelPsf (combination cs os) κ S nR nPhi i j - exactPixel (combination cs os) κ S i j| ≤ quadratureError cs os R nR nPhi :=
  (psf_rate cs os hv _ _ nR nPhi hnR hnPhi).trans (quadratureError_mono cs os hv (Real.sqrt_nonneg _) (pixel_distance κ R S i j hi hj hR) nR nPhi)

/-- From the pixels to the kernel. -/
theorem kernel_rate (Φ : ℝ → ℝ → ℝ) (q : KernelParams) (S nR nPhi : ℕ) (E : ℝ)
    (hE : ∀ i j, i < S → j < S → |pixelPsf Φ (opticalScale q.wavelength q.NA q.len2pixels) S nR nPhi i j - exactPixel Φ (opticalScale q.wavelength q.NA q.len2pixels) S i j| ≤ E)
    (g : Grid) (hg : KernelOf q.normalize S (fun i j => pixelPsf Φ (opticalScale q.wavelength q.NA q.len2pixels) S nR nPhi i j) g) :
    (q.normalize = false → KernelWithin E S (exactPixel Φ (opticalScale q.wavelength q.NA q.len2pixels) S) g) ∧
    (q.normalize = true → ∀ top, ExactTop Φ q S top → E < top →
      KernelWithin (2 * E / (top - E)) S (fun i j => exactPixel Φ (opticalScale q.wavelength q.NA q.len2pixels) S i j / top) g) := by
  refine ⟨fun hn => ?_, fun hn top htop hEt => ?_⟩
  · unfold KernelOf at hg
    rw [if_neg (by simp [hn])] at hg
    obtain ⟨r1, r2, h6⟩ := hg
    exact ⟨r1, r2, fun i j hi hj => by rw [h6 i j hi hj]; exact hE i j hi hj⟩
  · unfold KernelOf at hg
    rw [if_pos hn] at hg
    obtain ⟨ht, ⟨a0, b0, ha0, hb0, e0⟩, hle⟩ := htop
    obtain ⟨a, b, ha, hb, hm, r1, r2, h6⟩ := hg
    refine ⟨r1, r2, fun i j hi hj => ?_⟩
    rw [h6 i j hi hj]
    have hE0 : 0 ≤ E := (abs_nonneg _).trans (hE i j hi hj)
    have u1 := abs_le.1 (hE i j hi hj)
    have u2 := abs_le.1 (hE a b ha hb)
    have u3 := abs_le.1 (hE a0 b0 ha0 hb0)
    have m1 := hm a0 b0 ha0 hb0
    have l1 := hle i j hi hj
    have l2 := hle a b ha hb
    have n1 := exactPixel_nonneg Φ (opticalScale q.wavelength q.NA q.len2pixels) S i j
    rw [e0] at u3
    simp only at m1 ⊢
    generalize opticalScale q.wavelength q.NA q.len2pixels = κ at *
    generalize pixelPsf Φ κ S nR nPhi i j = v at *
    generalize pixelPsf Φ κ S nR nPhi a b = w at *
    generalize pixelPsf Φ κ S nR nPhi a0 b0 = w0 at *
    generalize exactPixel Φ κ S i j = e at *
    generalize exactPixel Φ κ S a b = e1 at *
    have hw : top - E ≤ w := by linarith
    have hw0 : 0 < w := by linarith
    have hwt : |top - w| ≤ E := by rw [abs_le]; constructor <;> linarith
    have hve : |v - e| ≤ E := by rw [abs_le]; constructor <;> linarith
    rw [div_sub_div _ _ hw0.ne' ht.ne', abs_div, abs_of_pos (mul_pos hw0 ht), div_le_iff₀ (mul_pos hw0 ht)]
    have e3 : v * top - w * e = (v - e) * top + e * (top - w) := by ring
    have k1 : |(v - e) * top| ≤ E * top := by rw [abs_mul, abs_of_pos ht]; exact mul_le_mul_of_nonneg_right hve ht.le
    have k2 : |e * (top - w)| ≤ top * E := by rw [abs_mul, abs_of_nonneg n1]; exact mul_le_mul l1 hwt (abs_nonneg _) ht.le
    rw [e3]
    have hd : 2 * E / (top - E) * (top - E) = 2 * E := div_mul_cancel₀ _ (by linarith)
    have hd0 : 0 ≤ 2 * E / (top - E) := div_nonneg (by linarith) (by linarith)
    calc _ ≤ |(v - e) * top| + |e * (top - w)| := abs_add_le _ _
      _ ≤ E * top + top * E := add_le_add k1 k2
      _ = 2 * E / (top - E) * (top - E) * top := by rw [hd]; ring
      _ ≤ 2 * E / (top - E) * w * top := mul_le_mul_of_nonneg_right (mul_le_mul_of_nonneg_left hw hd0) ht.le
      _ = _ := by ring

theorem combination_one (c : ℝ) (m n : Int) : combination [c] [(m, n)] = fun p φ => c * zernike m n p φ := by
  funext p φ; simp [combination]

/-- C72. One polynomial: in each pixel the kernel deviates from the exact diffraction integral by at most `quadratureError`, whatever has been called before (`R` is a bound of the
optical size of the kernel); normalised, by at most `2E / (top - E)`, with `top` the greatest exact value. -/
theorem kernel_quadrature_error (h : List Call) (fuel : Nat) (j1 : ℝ → ℝ) (o : PolObj) (hv : ValidOrders o.m o.n) (hf : o.n.toNat + 1 < fuel) (coeff : ℝ)
    (q : KernelParams) (nR nPhi : ℕ) (hR : q.nR = nR) (hPhi : q.nPhi = nPhi) (hR2 : 2 ≤ nR) (hPhi4 : 4 ≤ nPhi) (hopt : OpticsOk q) (h3 : 3 ≤ q.kernelSize) (S : ℕ)
    (hS : OddSize q.kernelSize S) (R : ℝ) (hr : |opticalScale q.wavelength q.NA q.len2pixels| * S ≤ R) (E : ℝ)
    (hE : E = quadratureError [coeff / q.wavelength] [(o.m, o.n)] R nR nPhi) :
    ∃ g, (getPsfKernel fuel j1 o coeff q false (afterCalls h)).1 = .ok g ∧
      (q.normalize = false →
        KernelWithin E S (exactPixel (fun p φ => coeff / q.wavelength * zernike o.m o.n p φ) (opticalScale q.wavelength q.NA q.len2pixels) S) g) ∧
      (q.normalize = true → ∀ top, ExactTop (fun p φ => coeff / q.wavelength * zernike o.m o.n p φ) q S top → E < top →
        KernelWithin (2 * E / (top - E)) S
          (fun i j => exactPixel (fun p φ => coeff / q.wavelength * zernike o.m o.n p φ) (opticalScale q.wavelength q.NA q.len2pixels) S i j / top) g) := by
  obtain ⟨g, e, hg⟩ := kernel_samples_psf h fuel j1 o hv hf coeff q (by omega) (by omega) hopt h3 S hS
  refine ⟨g, e, kernel_rate _ q S nR nPhi E (fun i j hi hj => ?_) g (by simpa [hR, hPhi] using hg)⟩
  rw [hE, ← combination_one]
  exact pixel_rate _ _ (by simpa using hv) _ R S hr nR nPhi (by omega) hPhi4 i j hi hj

/-- C72. The same for a sum of polynomials. -/
theorem sum_kernel_quadrature_error (h : List Call) (fuel : Nat) (cs : List ℝ) (os : List PolObj) (hl : cs.length = os.length) (h0 : os ≠ []) (hv : PolsOk fuel os)
    (q : KernelParams) (nR nPhi : ℕ) (hR : q.nR = nR) (hPhi : q.nPhi = nPhi) (hR2 : 2 ≤ nR) (hPhi4 : 4 ≤ nPhi) (hopt : OpticsOk q) (S : ℕ)
    (hS : OddSize q.kernelSize S) (R : ℝ) (hr : |opticalScale q.wavelength q.NA q.len2pixels| * S ≤ R) (E : ℝ)
    (hE : E = quadratureError cs (ordersOf os) R nR nPhi) :
    ∃ g, (getPsfKernelZerns fuel (cs.zip os) q (afterCalls h)).1 = .ok g ∧
      (q.normalize = false → KernelWithin E S (exactPixel (combination cs (ordersOf os)) (opticalScale q.wavelength q.NA q.len2pixels) S) g) ∧
      (q.normalize = true → ∀ top, ExactTop (combination cs (ordersOf os)) q S top → E < top →
        KernelWithin (2 * E / (top - E)) S
          (fun i j => exactPixel (combination cs (ordersOf os)) (opticalScale q.wavelength q.NA q.len2pixels) S i j / top) g) := by
  obtain ⟨g, e, hg⟩ := kernel_samples_psf_sum h fuel cs os hl h0 hv q (by omega) (by omega) hopt S hS
  refine ⟨g, e, kernel_rate _ q S nR nPhi E (fun i j hi hj => ?_) g (by simpa [hR, hPhi] using hg)⟩
  rw [hE]
  refine pixel_rate _ _ ?_ _ R S hr nR nPhi (by omega) hPhi4 i j hi hj
  intro x hx
  obtain ⟨o, ho, rfl⟩ := List.mem_map.1 hx
  exact (hv o ho).1

/-- C72. End to end, in double precision and with the default numbers of integration points: each pixel deviates from the exact diffraction integral by less than `quadratureError`
plus the rounding error (C70). -/
theorem kernel_double_vs_exact (s : List ℝ → ℝ) (hs : Sums s) (h : List Call) (fuel : Nat) (o : PolObj) (hv : ValidOrders o.m o.n) (hf : o.n.toNat + 1 < fuel)
    (hn : o.n ≤ 10) (coeff : ℝ) (q : KernelParams) (hopt : FloatOptics q) (hR : q.nR = 320) (hPhi : q.nPhi = 300) (hα : |coeff / q.wavelength| ≤ 1) (S : ℕ)
    (hS : OddSize q.kernelSize S) (R : ℝ) (hR1 : R ≤ 1000) (hr : opticalScale q.wavelength q.NA q.len2pixels * S ≤ R) (hnorm : q.normalize = false) :
    ∃ g, (fltPsfKernel (psfDoubles s) fuel o coeff q (afterCalls h)).1 = .ok g ∧
      KernelWithin (quadratureError [coeff / q.wavelength] [(o.m, o.n)] R 320 300 + 5 / 10 ^ 8) S
        (exactPixel (fun p φ => coeff / q.wavelength * zernike o.m o.n p φ) (opticalScale q.wavelength q.NA q.len2pixels) S) g := by
  obtain ⟨g, e, r, c, b⟩ := kernel_double_error s hs h fuel o hv hf hn coeff q hopt hR hPhi hα S hS (hr.trans hR1) hnorm
  refine ⟨g, e, r, c, fun i j hi hj => ?_⟩
  have h1 := (b i j hi hj _ rfl).1
  obtain ⟨o1, o2, o3, o4⟩ := hopt
  have hκ : 0 ≤ opticalScale q.wavelength q.NA q.len2pixels := by
    have k1 : (0 : ℝ) < 1 / 2 ^ 40 := by positivity
    unfold opticalScale
    exact mul_nonneg (mul_nonneg (by linarith) (by linarith)) (by linarith)
  have h2 := pixel_rate [coeff / q.wavelength] [(o.m, o.n)] (by simpa using hv) (opticalScale q.wavelength q.NA q.len2pixels) R S (by rwa [abs_of_nonneg hκ]) 320 300
    (by norm_num) (by norm_num) i j hi hj
  rw [combination_one] at h2
  have := abs_sub_le (g.entry i j) (pixelPsf (fun r φ => coeff / q.wavelength * zernike o.m o.n r φ) (opticalScale q.wavelength q.NA q.len2pixels) S 320 300 i j)
    (exactPixel (fun p φ => coeff / q.wavelength * zernike o.m o.n p φ) (opticalScale q.wavelength q.NA q.len2pixels) S i j)
  linarith

/-- The bound goes to 0 as the numbers of points grow: its terms are of the orders `1/nPhi`, `1/nPhi²` and `1/nR²`. -/
theorem quadratureError_tendsto (cs : List ℝ) (os : List (Int × Int)) (R : ℝ) :
    Filter.Tendsto (fun N : ℕ => quadratureError cs os R N N) Filter.atTop (nhds 0) := by
  have h1 : Filter.Tendsto (fun N : ℕ => (1 : ℝ) / N) Filter.atTop (nhds 0) := tendsto_const_div_atTop_nhds_zero_nat 1
  have e : (fun N : ℕ => quadratureError cs os R N N) = fun N : ℕ => 4 * ((1 : ℝ) / N)
      + 16 * Real.pi ^ 2 / 9 * ((weighted (fun m _ => (m : ℝ) ^ 2) cs os + R) + (weighted (fun m _ => |(m : ℝ)|) cs os + R) ^ 2) * ((1 : ℝ) / N) ^ 2
      + (weighted rimCurvature cs os + 2 * (weighted rimSlope cs os + R) + (weighted rimSlope cs os + R) ^ 2) / 3 * ((1 : ℝ) / N) ^ 2 := by
    funext N
    unfold quadratureError
    rw [div_mul_eq_div_div]
    ring
  rw [e]
  simpa using ((h1.const_mul 4).add ((h1.pow 2).const_mul _)).add ((h1.pow 2).const_mul _)

/-- Half a wavelength of vertical coma, 9 × 9 pixels of 110 nm, NA 0.95, 550 nm, the default numbers of points, in double precision: each pixel deviates from the exact diffraction
integral by less than 0.06. -/
example : ∃ g, (fltPsfKernel (psfDoubles (sumFromLeft binary64)) 10 ⟨-1, 3, false⟩ 0.275 ⟨0.11, 0.55, 0.95, 320, 300, false, 9⟩ (afterCalls [])).1 = .ok g ∧
    KernelWithin 0.06 9 (exactPixel (fun p φ => 0.275 / 0.55 * zernike (-1) 3 p φ) (opticalScale 0.55 0.95 0.11) 9) g := by
  have hpi := Real.pi_lt_d2
  have hpi3 := Real.pi_gt_three
  have hr : opticalScale 0.55 0.95 0.11 * (9 : ℕ) ≤ 12 := by
    unfold opticalScale
    norm_num at *
    linarith
  obtain ⟨g, e, k1, k2, k3⟩ := kernel_double_vs_exact _ sumFromLeft_sums [] 10 ⟨-1, 3, false⟩ (by decide) (by decide) (by decide) 0.275 ⟨0.11, 0.55, 0.95, 320, 300, false, 9⟩
    ⟨by norm_num, (sample_optics false).2.1, by norm_num, by norm_num⟩ rfl rfl (by norm_num) 9 ⟨by decide, Or.inl rfl⟩ 12 (by norm_num) hr rfl
  refine ⟨g, e, k1, k2, fun i j hi hj => (k3 i j hi hj).trans ?_⟩
  have hs : Spec.norm (-1) 3 ≤ 3 := by
    unfold Spec.norm
    rw [Real.sqrt_le_left (by norm_num)]
    norm_num
  have hs0 : 0 ≤ Spec.norm (-1) 3 := Real.sqrt_nonneg _
  have hp2 : Real.pi ^ 2 ≤ 9.93 := by nlinarith
  simp only [quadratureError, weighted, rimCurvature, rimSlope, List.zip_cons_cons, List.zip_nil_right, List.map_cons, List.map_nil, List.sum_cons, List.sum_nil]
  generalize Spec.norm (-1) 3 = N at *
  norm_num
  have q1 : N ^ 2 ≤ 9 := by nlinarith
  nlinarith [mul_le_mul hp2 q1 (by positivity) (by norm_num), mul_le_mul hp2 hs (by positivity) (by norm_num)]

end Verif.Props
