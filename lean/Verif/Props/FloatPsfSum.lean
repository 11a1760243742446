import Verif.Props.Energy

/-!
# C70, C72, C106: the kernels of several polynomials in double precision
-/

namespace Verif.Props
open Verif.Model Verif.Spec Verif.Proofs

/-- The size of the phase, for coefficients of at most one wavelength together. -/
theorem phaseSize_le (cs : List ℝ) (os : List PolObj) (hl : cs.length = os.length)
    (hL : os.length ≤ 66) (hc : (cs.map abs).sum ≤ 1) (η : ℝ) (hη : η ≤ 1 / 1000) (Z : ℝ) (hZ0 : 0 ≤ Z)
    (hZ : ∀ o ∈ os, 0 ≤ zernikeSize o.m o.n ∧ zernikeSize o.m o.n ≤ Z) :
    ((cs.zip os).map fun x => max |x.1| η * zernikeSize x.2.m x.2.n).sum ≤ 1.07 * Z := by
  have key : ∀ (cs : List ℝ) (os : List PolObj), cs.length = os.length → (∀ o ∈ os, 0 ≤ zernikeSize o.m o.n ∧ zernikeSize o.m o.n ≤ Z) →
      ((cs.zip os).map fun x => max |x.1| η * zernikeSize x.2.m x.2.n).sum ≤ ((cs.map abs).sum + (os.length : ℝ) / 1000) * Z := by
    intro cs
    induction cs with
    | nil =>
      intro os h _
      have : os = [] := List.length_eq_zero_iff.mp h.symm
      subst this
      simp
    | cons c cs ih =>
      intro os h hz
      cases os with
      | nil => simp at h
      | cons o os =>
        have h' : cs.length = os.length := by simpa using h
        have i := ih os h' fun x hx => hz x (List.mem_cons_of_mem _ hx)
        have z := hz o (List.mem_cons_self ..)
        simp only [List.zip_cons_cons, List.map_cons, List.sum_cons, List.length_cons]
        have hm : max |c| η ≤ |c| + 1 / 1000 := max_le (by linarith) (by have := abs_nonneg c; linarith)
        have hm0 : 0 ≤ |c| + 1 / 1000 := by positivity
        have : max |c| η * zernikeSize o.m o.n ≤ (|c| + 1 / 1000) * Z := mul_le_mul hm z.2 z.1 hm0
        push_cast
        nlinarith
  refine (key cs os hl hZ).trans (mul_le_mul_of_nonneg_right ?_ hZ0)
  have : (os.length : ℝ) ≤ 66 := by exact_mod_cast hL
  norm_num
  linarith

/-- C70. Several polynomials in double precision, with the default numbers of integration points: up to 66 polynomials (all up to the order 10), amplitudes of at most one wavelength
together, an optical radius up to 1000: each pixel has an error below 10⁻⁷. -/
theorem kernel_sum_double_error (s : List ℝ → ℝ) (hs : Sums s) (h : List Call) (fuel : Nat) (cs : List ℝ) (os : List PolObj) (hl : cs.length = os.length)
    (h0 : os ≠ []) (hv : PolsOk fuel os) (hn : ∀ o ∈ os, o.n ≤ 10) (hL : os.length ≤ 66) (hc : (cs.map abs).sum ≤ 1) (q : KernelParams) (hopt : FloatOptics q)
    (hR : q.nR = 320) (hPhi : q.nPhi = 300) (S : ℕ) (hS : OddSize q.kernelSize S) (hr : opticalScale q.wavelength q.NA q.len2pixels * S ≤ 1000)
    (hnorm : q.normalize = false) :
    ∃ g, (fltPsfKernelZerns (psfDoubles s) fuel (cs.zip os) q (afterCalls h)).1 = .ok g ∧ g.rows = S ∧ g.cols = S ∧ ∀ i j, i < S → j < S →
      |g.entry i j - pixelPsf (combination cs (ordersOf os)) (opticalScale q.wavelength q.NA q.len2pixels) S 320 300 i j| < 1 / 10 ^ 7 := by
  have hF := psfDoubles_accurate s hs.1 hs.2
  have hη1 : (2⁻¹ : ℝ) ^ 1022 ≤ 1 / 1000 :=
    (pow_le_pow_of_le_one (by norm_num) (by norm_num) (show 10 ≤ 1022 by norm_num)).trans (by norm_num)
  obtain ⟨g, e, r, c, b⟩ := kernel_sum_float_error (psfDoubles s) _ _ _ hF h fuel cs os hl h0 hv 10 (by exact_mod_cast hn) q hopt 320 300
    ⟨hR, hPhi, by norm_num, by norm_num, by norm_num, by norm_num, radial_nodes_default, nodes_unit 320 (by norm_num) (by norm_num)⟩ S hS 1000 (by norm_num) hr hnorm
  refine ⟨g, e, r, c, fun i j hi hj => ?_⟩
  have b := b i j hi hj
  have hu := hF.basic.unit
  have hZ : ∀ o ∈ os, 0 ≤ zernikeSize o.m o.n ∧ zernikeSize o.m o.n ≤ 4.7 * (7 * max ((10 : ℕ) : ℝ) 1 + (10 : ℕ)) * growth 10 := by
    intro o ho
    have hv' := (valid_iff o.m o.n).1 (hv o ho).1
    refine ⟨?_, zernikeSize_le o.m o.n (hv o ho).1 10 (by exact_mod_cast hn o ho) 4.7 (by norm_num) (by norm_num)⟩
    have := (norm_one o.m o.n hv'.1).trans (zernikeSize_ge o.m o.n hv'.1)
    linarith
  have hsz := phaseSize_le cs os hl hL hc _ hη1 _ (by positivity) hZ
  have hsz0 : 0 ≤ ((cs.zip os).map fun x => max |x.1| ((2⁻¹ : ℝ) ^ 1022) * zernikeSize x.2.m x.2.n).sum := by
    refine List.sum_nonneg fun y hy => ?_
    obtain ⟨x, hx, rfl⟩ := List.mem_map.1 hy
    exact size_nonneg x.2 (pols_zip hv cs x hx).1 _ _ hF.eta_pos
  refine (b.trans (pixelError_mono hu 1 320 300 (K' := 136) (by omega) hsz le_rfl hsz0 (by norm_num))).trans_lt ?_
  rw [growth_10]
  unfold pixelError
  exact double_error (by norm_num) (by norm_num)

/-- C70. Several polynomials, normalised: `t` is the greatest exact value, and it exceeds the error `E` of a pixel. -/
theorem kernel_sum_normalized_float_error (F : PsfArith) (u η : ℝ) (p : ℕ) (hF : PsfAccurate F u η p) (h : List Call) (fuel : Nat) (cs : List ℝ)
    (os : List PolObj) (hl : cs.length = os.length) (h0 : os ≠ []) (hv : PolsOk fuel os) (N : ℕ) (hN : ∀ o ∈ os, o.n ≤ N) (q : KernelParams)
    (hopt : FloatOptics q) (nR nPhi : ℕ) (hpt : FloatPoints F q nR nPhi) (S : ℕ) (hS : OddSize q.kernelSize S) (R : ℝ) (hR1 : 1 ≤ R)
    (hR : opticalScale q.wavelength q.NA q.len2pixels * S ≤ R) (hn : q.normalize = true) (E t : ℝ)
    (hE : E = pixelError u p nR nPhi (4 * N + 2 * p + os.length + 28) (((cs.zip os).map fun x => max |x.1| η * zernikeSize x.2.m x.2.n).sum) R)
    (w : ℕ → ℕ → ℝ) (hw : w = pixelPsf (combination cs (ordersOf os)) (opticalScale q.wavelength q.NA q.len2pixels) S nR nPhi)
    (ht : (∃ a b, a < S ∧ b < S ∧ w a b = t) ∧ ∀ i j, i < S → j < S → w i j ≤ t) (hEt : E < t) :
    ∃ g, (fltPsfKernelZerns F fuel (cs.zip os) q (afterCalls h)).1 = .ok g ∧ g.rows = S ∧ g.cols = S ∧ ∀ i j, i < S → j < S →
      |g.entry i j - w i j / t| ≤ (1 + u) * (1 + 2 * E / (t - E)) - 1 := by
  obtain ⟨⟨a, b, ha, hb, rfl⟩, hmax⟩ := ht
  have hz := pols_zip hv cs
  have hlen : (cs.zip os).length = os.length := by simp [hl]
  have hph := polsPhase_er hF fuel N (cs.zip os) (zip_ne_nil hl h0) fun x hx => ⟨(hz x hx).1, (hz x hx).2, by
    have := hN x.2 (List.of_mem_zip hx).2
    omega⟩
  have hterm : (fun (r φ : ℝ) => ((cs.zip os).map fun x => x.1 * zernike x.2.m x.2.n r φ).sum) = combination cs (ordersOf os) := by
    rw [← termSum_eq]; rfl
  rw [hterm] at hph
  have hsz : 0 ≤ ((cs.zip os).map fun x => max |x.1| η * zernikeSize x.2.m x.2.n).sum := by
    refine List.sum_nonneg fun y hy => ?_
    obtain ⟨x, hx, rfl⟩ := List.mem_map.1 hy
    exact size_nonneg x.2 (hz x hx).1 _ η hF.eta_pos
  unfold fltPsfKernelZerns
  rw [if_neg hopt.1.ne', hn]
  simp only [oddSize_makeOdd hS]
  refine afterCalls_retP ?_ h
  have h5 := hpt.2.2.2.2.1
  have h2 := hpt.2.2.1
  have hpix : ∀ i j, i < (S : Int).toNat → j < (S : Int).toNat →
      RetP (fltPsfPoint F (fltPolsPhase F fuel (cs.zip os))
        (fltKernelDist F S (F.fl (F.fl (2 * F.pi) / q.wavelength)) q.NA q.len2pixels i j) (fltKernelTheta F S i j) q.nR q.nPhi) fun v => |v - w i j| ≤ E := by
    intro i j hi hj
    rw [hw, hE]
    exact pixel_float hF hR1 hsz (K := 4 * N + 2 * p + os.length + 28) (by omega) (by omega) hph q hopt nR nPhi hpt S hS.1 hR i j (by simpa using hi) (by simpa using hj)
  have := fltKernel_normalized hF S (by omega) q.NA (lt_of_lt_of_le (by positivity) hopt.2.2.1).ne' _ w E hpix
    (fun i j => by rw [hw]; exact (pixelPsf_mem _ _ S nR nPhi i j (by omega) (by omega)).1) a b (by simpa using ha) (by simpa using hb)
    (fun i j hi hj => hmax i j (by simpa using hi) (by simpa using hj)) hEt
  simpa using this

/-- C72. Several polynomials, end to end: in double precision and with the default numbers of integration points each pixel deviates from the exact diffraction integral by at
most `quadratureError` plus the rounding error. -/
theorem sum_kernel_double_vs_exact (s : List ℝ → ℝ) (hs : Sums s) (h : List Call) (fuel : Nat) (cs : List ℝ) (os : List PolObj) (hl : cs.length = os.length)
    (h0 : os ≠ []) (hv : PolsOk fuel os) (hn : ∀ o ∈ os, o.n ≤ 10) (hL : os.length ≤ 66) (hc : (cs.map abs).sum ≤ 1) (q : KernelParams) (hopt : FloatOptics q)
    (hR : q.nR = 320) (hPhi : q.nPhi = 300) (S : ℕ) (hS : OddSize q.kernelSize S) (R : ℝ) (hR1 : R ≤ 1000)
    (hr : opticalScale q.wavelength q.NA q.len2pixels * S ≤ R) (hnorm : q.normalize = false) :
    ∃ g, (fltPsfKernelZerns (psfDoubles s) fuel (cs.zip os) q (afterCalls h)).1 = .ok g ∧
      KernelWithin (quadratureError cs (ordersOf os) R 320 300 + 1 / 10 ^ 7) S
        (exactPixel (combination cs (ordersOf os)) (opticalScale q.wavelength q.NA q.len2pixels) S) g := by
  obtain ⟨g, e, r, c, b⟩ := kernel_sum_double_error s hs h fuel cs os hl h0 hv hn hL hc q hopt hR hPhi S hS (hr.trans hR1) hnorm
  refine ⟨g, e, r, c, fun i j hi hj => ?_⟩
  have h1 := b i j hi hj
  obtain ⟨o1, o2, o3, o4⟩ := hopt
  have hκ : 0 ≤ opticalScale q.wavelength q.NA q.len2pixels := by
    have k1 : (0 : ℝ) < 1 / 2 ^ 40 := by positivity
    unfold opticalScale
    exact mul_nonneg (mul_nonneg (by linarith) (by linarith)) (by linarith)
  have h2 := pixel_rate cs (ordersOf os) (fun x hx => by
    obtain ⟨o, ho, rfl⟩ := List.mem_map.1 hx
    exact (hv o ho).1) (opticalScale q.wavelength q.NA q.len2pixels) R S (by rwa [abs_of_nonneg hκ]) 320 300 (by norm_num) (by norm_num) i j hi hj
  have := abs_sub_le (g.entry i j) (pixelPsf (combination cs (ordersOf os)) (opticalScale q.wavelength q.NA q.len2pixels) S 320 300 i j)
    (exactPixel (combination cs (ordersOf os)) (opticalScale q.wavelength q.NA q.len2pixels) S i j)
  linarith

/-- C106. Several polynomials, in double precision and with the default numbers of points: the sum of the `S × S` pixels exceeds the light through the pupil by at most `S²` times
the error of a pixel. -/
theorem sum_kernel_total_double (s : List ℝ → ℝ) (hs : Sums s) (h : List Call) (fuel : Nat) (cs : List ℝ) (os : List PolObj) (hl : cs.length = os.length)
    (h0 : os ≠ []) (hv : PolsOk fuel os) (hn : ∀ o ∈ os, o.n ≤ 10) (hL : os.length ≤ 66) (hc : (cs.map abs).sum ≤ 1) (q : KernelParams) (hopt : FloatOptics q)
    (hfine : FineEnough q.wavelength q.NA q.len2pixels) (hR : q.nR = 320) (hPhi : q.nPhi = 300) (S : ℕ) (hS : OddSize q.kernelSize S) (R : ℝ) (hR1 : R ≤ 1000)
    (hr : opticalScale q.wavelength q.NA q.len2pixels * S ≤ R) (hnorm : q.normalize = false) :
    ∃ g, (fltPsfKernelZerns (psfDoubles s) fuel (cs.zip os) q (afterCalls h)).1 = .ok g ∧
      kernelTotal S g.entry ≤ pupilEnergy q.wavelength q.NA q.len2pixels + S ^ 2 * (quadratureError cs (ordersOf os) R 320 300 + 1 / 10 ^ 7) := by
  obtain ⟨g, e, k⟩ := sum_kernel_double_vs_exact s hs h fuel cs os hl h0 hv hn hL hc q hopt hR hPhi S hS R hR1 hr hnorm
  refine ⟨g, e, ?_⟩
  have h1 := (abs_le.1 (total_close S _ g _ k)).2
  have h2 := exact_total_le cs os q.wavelength q.NA q.len2pixels hfine S hS.1
  linarith

/-- Coma with spherical aberration on the sample optics: the hypotheses are met. -/
example : ∃ g, (fltPsfKernelZerns (psfDoubles (sumFromLeft binary64)) 10 ([0.3, -0.2].zip [⟨-1, 3, false⟩, ⟨0, 4, false⟩]) (sampleParams false) (afterCalls [])).1 = .ok g ∧
    ∀ i j, i < 31 → j < 31 →
      |g.entry i j - pixelPsf (combination [0.3, -0.2] [(-1, 3), (0, 4)]) (opticalScale 0.55 0.95 0.11) 31 320 300 i j| < 1 / 10 ^ 7 := by
  obtain ⟨g, e, -, -, b⟩ := kernel_sum_double_error _ sumFromLeft_sums [] 10 [0.3, -0.2] [⟨-1, 3, false⟩, ⟨0, 4, false⟩] rfl (by simp)
    (by intro o ho; simp at ho; rcases ho with rfl | rfl <;> decide) (by intro o ho; simp at ho; rcases ho with rfl | rfl <;> decide) (by simp)
    (by norm_num [abs_of_pos, abs_of_neg]) (sampleParams false) (sample_optics _) rfl rfl 31 (sample_size _) ((sample_radius _).trans (by norm_num)) rfl
  exact ⟨g, e, b⟩

end Verif.Props
