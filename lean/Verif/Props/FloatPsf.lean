import Verif.Proofs.FloatPsfKernel
import Verif.Props.Psf
import Verif.Props.Float
import Verif.Props.FloatNodes
import Mathlib.Analysis.Real.Pi.Bounds

/-!
# C70: the PSF kernels in floating-point arithmetic

`fltPsfKernel F` and `fltPsfKernelZerns F` are the functions `get_psf_kernel` and `get_psf_kernel_zerns` in the arithmetic `F`, where each operation
rounds; `PsfAccurate F u η p` says how well. `pixelPsf` is the PSF at the position of a pixel, in exact arithmetic (C44).
-/

namespace Verif.Props
open Verif.Model Verif.Spec Verif.Proofs

theorem afterCalls_retP {β : Type} {x : CM β} {P : β → Prop} (hx : RetP x P) (h : List Call) : ∃ v, (x (afterCalls h)).1 = .ok v ∧ P v :=
  (hx _ (afterCalls_good h)).1

/-- One pixel of a kernel. -/
theorem pixel_float {F : PsfArith} {u η : ℝ} {p : ℕ} (hF : PsfAccurate F u η p) {kΦ K : ℕ} {Sz R : ℝ} (hR1 : 1 ≤ R) (hSz : 0 ≤ Sz) (hK1 : kΦ + 1 ≤ K)
    (hK2 : 7 + 2 * p + 21 ≤ K) {ph : FltPhase} {Φ : ℝ → ℝ → ℝ} (hph : FltPhaseOk u kΦ Sz ph Φ) (q : KernelParams) (hopt : FloatOptics q) (nR nPhi : ℕ)
    (hpt : FloatPoints F q nR nPhi) (S : ℕ) (hS : S % 2 = 1) (hR : opticalScale q.wavelength q.NA q.len2pixels * S ≤ R) (i j : ℕ) (hi : i < S) (hj : j < S) :
    RetP (fltPsfPoint F ph (fltKernelDist F S (F.fl (F.fl (2 * F.pi) / q.wavelength)) q.NA q.len2pixels i j) (fltKernelTheta F S i j) q.nR q.nPhi) fun v =>
      |v - pixelPsf Φ (opticalScale q.wavelength q.NA q.len2pixels) S nR nPhi i j| ≤ pixelError u p nR nPhi K Sz R := by
  obtain ⟨o1, o2, o3, o4⟩ := hopt
  obtain ⟨e1, e2, p1, p2, p3, p4, p5, p6⟩ := hpt
  rw [e1, e2, ← pixel_eq Φ S hS]
  exact psfPoint_er hF hR1 hSz hK1 hK2 hph (theta_er hF S i j)
    (dist_er hF o1 o2 o3 o4 hR1 S (by omega) (by exact_mod_cast hR) i j (by simpa using hi) (by simpa using hj)) nR nPhi p1 p2 p3 p4 p5 p6

theorem size_nonneg (o : PolObj) (hv : ValidOrders o.m o.n) (a η : ℝ) (hη : 0 < η) : 0 ≤ max |a| η * zernikeSize o.m o.n := by
  have h1 := ((valid_iff o.m o.n).1 hv).1
  have h2 := (norm_one o.m o.n h1).trans (zernikeSize_ge o.m o.n h1)
  have h3 : η ≤ max |a| η := le_max_right _ _
  exact mul_nonneg (by linarith) (by linarith)

/-- C70. One polynomial, not normalised: each pixel differs from the exact PSF at its place by at most `pixelError`, with `4n + 2p + 28` roundings, a phase of the size
`|α| zernikeSize m n` and an optical radius `R` of the kernel. -/
theorem kernel_float_error (F : PsfArith) (u η : ℝ) (p : ℕ) (hF : PsfAccurate F u η p) (h : List Call) (fuel : Nat) (o : PolObj) (hv : ValidOrders o.m o.n)
    (hf : o.n.toNat + 1 < fuel) (coeff : ℝ) (q : KernelParams) (hopt : FloatOptics q) (nR nPhi : ℕ) (hpt : FloatPoints F q nR nPhi) (S : ℕ)
    (hS : OddSize q.kernelSize S) (R : ℝ) (hR1 : 1 ≤ R) (hR : opticalScale q.wavelength q.NA q.len2pixels * S ≤ R) (hn : q.normalize = false) :
    ∃ g, (fltPsfKernel F fuel o coeff q (afterCalls h)).1 = .ok g ∧ g.rows = S ∧ g.cols = S ∧ ∀ i j, i < S → j < S →
      |g.entry i j - pixelPsf (fun r φ => coeff / q.wavelength * zernike o.m o.n r φ) (opticalScale q.wavelength q.NA q.len2pixels) S nR nPhi i j| ≤
        pixelError u p nR nPhi (4 * o.n.toNat + 2 * p + 28) (max |coeff / q.wavelength| η * zernikeSize o.m o.n) R := by
  have hα : Er ((1 + u) ^ 1) (max |coeff / q.wavelength| η) (F.fl (coeff / q.wavelength)) (coeff / q.wavelength) :=
    (Er.exactK u _ (le_max_left _ _)).roundK hF (le_max_right _ _)
  unfold fltPsfKernel
  rw [if_neg hopt.1.ne', hn]
  simp only [oddSize_makeOdd hS]
  refine afterCalls_retP ?_ h
  have := fltKernel_raw (F := F) S (by omega) q.NA (lt_of_lt_of_le (by positivity) hopt.2.2.1).ne' _ _ _ fun i j hi hj =>
    pixel_float hF hR1 (size_nonneg o hv _ η hF.eta_pos) (K := 4 * o.n.toNat + 2 * p + 28) (by omega) (by omega)
      (singlePhase_er hF fuel o hv hf hα) q hopt nR nPhi hpt S hS.1 hR i j (by simpa using hi) (by simpa using hj)
  simpa using this

/-- C70. Several polynomials, not normalised. -/
theorem kernel_sum_float_error (F : PsfArith) (u η : ℝ) (p : ℕ) (hF : PsfAccurate F u η p) (h : List Call) (fuel : Nat) (cs : List ℝ) (os : List PolObj)
    (hl : cs.length = os.length) (h0 : os ≠ []) (hv : PolsOk fuel os) (N : ℕ) (hN : ∀ o ∈ os, o.n ≤ N) (q : KernelParams) (hopt : FloatOptics q) (nR nPhi : ℕ)
    (hpt : FloatPoints F q nR nPhi) (S : ℕ) (hS : OddSize q.kernelSize S) (R : ℝ) (hR1 : 1 ≤ R)
    (hR : opticalScale q.wavelength q.NA q.len2pixels * S ≤ R) (hn : q.normalize = false) :
    ∃ g, (fltPsfKernelZerns F fuel (cs.zip os) q (afterCalls h)).1 = .ok g ∧ g.rows = S ∧ g.cols = S ∧ ∀ i j, i < S → j < S →
      |g.entry i j - pixelPsf (combination cs (ordersOf os)) (opticalScale q.wavelength q.NA q.len2pixels) S nR nPhi i j| ≤
        pixelError u p nR nPhi (4 * N + 2 * p + os.length + 28) (((cs.zip os).map fun x => max |x.1| η * zernikeSize x.2.m x.2.n).sum) R := by
  have hz := pols_zip hv cs
  have hlen : (cs.zip os).length = os.length := by simp [hl]
  have hph := polsPhase_er hF fuel N (cs.zip os) (zip_ne_nil hl h0) fun x hx => ⟨(hz x hx).1, (hz x hx).2, by
    have := hN x.2 (List.of_mem_zip hx).2
    omega⟩
  have hterm : (fun (r φ : ℝ) => ((cs.zip os).map fun x => x.1 * zernike x.2.m x.2.n r φ).sum) = combination cs (ordersOf os) := by
    rw [← termSum_eq]; rfl
  rw [hterm] at hph
  have hsz : 0 ≤ ((cs.zip os).map fun x => max |x.1| η * zernikeSize x.2.m x.2.n).sum := by
    refine List.sum_nonneg fun y hy => ?_
    obtain ⟨x, hx, rfl⟩ := List.mem_map.1 hy
    exact size_nonneg x.2 (hz x hx).1 _ η hF.eta_pos
  unfold fltPsfKernelZerns
  rw [if_neg hopt.1.ne', hn]
  simp only [oddSize_makeOdd hS]
  refine afterCalls_retP ?_ h
  have := fltKernel_raw (F := F) S (by omega) q.NA (lt_of_lt_of_le (by positivity) hopt.2.2.1).ne' _ _ _ fun i j hi hj =>
    pixel_float hF hR1 hsz (K := 4 * N + 2 * p + os.length + 28) (by omega) (by omega) hph q hopt nR nPhi hpt S hS.1 hR i j (by simpa using hi) (by simpa using hj)
  simpa using this

/-- C70. One polynomial, normalised: `t` is the greatest exact value, and it exceeds the error `E` of a pixel. -/
theorem kernel_normalized_float_error (F : PsfArith) (u η : ℝ) (p : ℕ) (hF : PsfAccurate F u η p) (h : List Call) (fuel : Nat) (o : PolObj)
    (hv : ValidOrders o.m o.n) (hf : o.n.toNat + 1 < fuel) (coeff : ℝ) (q : KernelParams) (hopt : FloatOptics q) (nR nPhi : ℕ)
    (hpt : FloatPoints F q nR nPhi) (S : ℕ) (hS : OddSize q.kernelSize S) (R : ℝ) (hR1 : 1 ≤ R)
    (hR : opticalScale q.wavelength q.NA q.len2pixels * S ≤ R) (hn : q.normalize = true) (E t : ℝ)
    (hE : E = pixelError u p nR nPhi (4 * o.n.toNat + 2 * p + 28) (max |coeff / q.wavelength| η * zernikeSize o.m o.n) R) (w : ℕ → ℕ → ℝ)
    (hw : w = pixelPsf (fun r φ => coeff / q.wavelength * zernike o.m o.n r φ) (opticalScale q.wavelength q.NA q.len2pixels) S nR nPhi)
    (ht : (∃ a b, a < S ∧ b < S ∧ w a b = t) ∧ ∀ i j, i < S → j < S → w i j ≤ t) (hEt : E < t) :
    ∃ g, (fltPsfKernel F fuel o coeff q (afterCalls h)).1 = .ok g ∧ g.rows = S ∧ g.cols = S ∧ ∀ i j, i < S → j < S →
      |g.entry i j - w i j / t| ≤ (1 + u) * (1 + 2 * E / (t - E)) - 1 := by
  obtain ⟨⟨a, b, ha, hb, rfl⟩, hmax⟩ := ht
  have hα : Er ((1 + u) ^ 1) (max |coeff / q.wavelength| η) (F.fl (coeff / q.wavelength)) (coeff / q.wavelength) :=
    (Er.exactK u _ (le_max_left _ _)).roundK hF (le_max_right _ _)
  unfold fltPsfKernel
  rw [if_neg hopt.1.ne', hn]
  simp only [oddSize_makeOdd hS]
  refine afterCalls_retP ?_ h
  have h5 := hpt.2.2.2.2.1
  have h2 := hpt.2.2.1
  have hS1 : 1 ≤ S := by have := hS.1; omega
  have hpix : ∀ i j, i < (S : Int).toNat → j < (S : Int).toNat →
      RetP (fltPsfPoint F (fltSinglePhase F fuel o (F.fl (coeff / q.wavelength)))
        (fltKernelDist F S (F.fl (F.fl (2 * F.pi) / q.wavelength)) q.NA q.len2pixels i j) (fltKernelTheta F S i j) q.nR q.nPhi) fun v => |v - w i j| ≤ E := by
    intro i j hi hj
    rw [hw, hE]
    exact pixel_float hF hR1 (size_nonneg o hv _ η hF.eta_pos) (K := 4 * o.n.toNat + 2 * p + 28) (by omega) (by omega)
      (singlePhase_er hF fuel o hv hf hα) q hopt nR nPhi hpt S hS.1 hR i j (by simpa using hi) (by simpa using hj)
  have := fltKernel_normalized hF S (by omega) q.NA (lt_of_lt_of_le (by positivity) hopt.2.2.1).ne' _ w E hpix
    (fun i j => by rw [hw]; exact (pixelPsf_mem _ _ S nR nPhi i j (by omega) (by omega)).1) a b (by simpa using ha) (by simpa using hb)
    (fun i j hi hj => hmax i j (by simpa using hi) (by simpa using hj)) hEt
  simpa using this

/-! ### Double precision -/

theorem pixelError_mono {u : ℝ} (hu : 0 ≤ u) (p nR nPhi : ℕ) {K K' : ℕ} {S S' R R' : ℝ} (hK : K ≤ K') (hS : S ≤ S') (hR : R ≤ R') (hS0 : 0 ≤ S) (hR0 : 0 ≤ R) :
    pixelError u p nR nPhi K S R ≤ pixelError u p nR nPhi K' S' R' := by
  unfold pixelError
  have h1 := one_le_pow_u hu K
  have h2 := pow_u_mono hu hK
  have h3 : ((1 + u) ^ K - 1) * (S + 15 * R) ≤ ((1 + u) ^ K' - 1) * (S' + 15 * R') := mul_le_mul (by linarith) (by linarith) (by linarith) (by linarith)
  have h4 : 0 ≤ ((1 + u) ^ K - 1) * (S + 15 * R) := mul_nonneg (by linarith) (by linarith)
  have h5 : (1 + ((1 + u) ^ K - 1) * (S + 15 * R)) ^ 4 ≤ (1 + ((1 + u) ^ K' - 1) * (S' + 15 * R')) ^ 4 := pow_le_pow_left₀ (by linarith) (by linarith) 4
  exact sub_le_sub_right (mul_le_mul_of_nonneg_left h5 (zero_le_one.trans (one_le_pow_u hu _))) 1

theorem zernikeSize_le (m n : Int) (hv : ValidOrders m n) (N : ℕ) (hN : n ≤ N) (c : ℝ) (hc : 0 ≤ c) (h : 2 * ((N : ℝ) + 1) ≤ c ^ 2) :
    zernikeSize m n ≤ c * (7 * max (N : ℝ) 1 + N) * growth N := by
  have hv' := (valid_iff m n).1 hv
  have hn : (n : ℝ) ≤ N := by exact_mod_cast hN
  have hn0 : (0 : ℝ) ≤ n := by exact_mod_cast hv'.1
  have a1 : (growth n.toNat : ℝ) ≤ growth N := by exact_mod_cast growth_mono (show n.toNat ≤ N by omega)
  have a4 : Spec.norm m n ≤ c := by
    unfold Spec.norm
    rw [Real.sqrt_le_left hc]
    split_ifs <;> linarith
  have a5 : max |(m : ℝ)| 1 ≤ max (N : ℝ) 1 := by
    refine max_le_max ?_ le_rfl
    have : |m| ≤ N := by rw [abs_le]; omega
    exact_mod_cast this
  have b1 : (1 : ℝ) ≤ max |(m : ℝ)| 1 := le_max_right _ _
  have b3 := norm_one m n hv'.1
  have b4 := growth_one n.toNat
  unfold zernikeSize
  have c1 : Spec.norm m n * (7 * max |(m : ℝ)| 1 + n) ≤ c * (7 * max (N : ℝ) 1 + N) := mul_le_mul a4 (by linarith) (by linarith) hc
  exact mul_le_mul c1 a1 (by linarith) (mul_nonneg hc (by linarith))

/-- The additions of `numpy.sum` are done in some order; its result for no elements is 0. -/
def Sums (s : List ℝ → ℝ) : Prop := s [] = 0 ∧ ∀ l, l ≠ [] → SumInSomeOrder binary64 l.length l (s l)

/-- For example from the left. -/
theorem sumFromLeft_sums : Sums (sumFromLeft binary64) := ⟨rfl, sumFromLeft_order binary64⟩

theorem growth_4 : growth 4 = 17 := by decide +kernel

theorem pow_small {x c : ℝ} (hx : 0 ≤ x) (h : x ^ 216 ≤ c) (k : ℕ) : x ^ (216 * k) ≤ c ^ k := by
  rw [pow_mul]
  exact pow_le_pow_left₀ (pow_nonneg hx _) h k

theorem double_pow : (1 + (2⁻¹ : ℝ) ^ 53) ^ (4 * 320 + 4 * 300 + 7 * 1 + 104) ≤ 1 + 3 / 10 ^ 13 := by
  have h1 : (1 + (2⁻¹ : ℝ) ^ 53) ^ 216 ≤ 1 + 24 / 10 ^ 15 := by norm_num
  have h2 := pow_small (by positivity) h1 12
  refine le_trans (pow_le_pow_right₀ (by norm_num) (by norm_num : 4 * 320 + 4 * 300 + 7 * 1 + 104 ≤ 216 * 12)) (h2.trans ?_)
  norm_num

theorem double_error {K : ℕ} {X e : ℝ} (hX : 0 ≤ ((1 + (2⁻¹ : ℝ) ^ 53) ^ K - 1) * X) (h : (1 + 3 / 10 ^ 13) * (1 + ((1 + (2⁻¹ : ℝ) ^ 53) ^ K - 1) * X) ^ 4 - 1 < e) :
    (1 + (2⁻¹ : ℝ) ^ 53) ^ (4 * 320 + 4 * 300 + 7 * 1 + 104) * (1 + ((1 + (2⁻¹ : ℝ) ^ 53) ^ K - 1) * X) ^ 4 - 1 < e := by
  refine lt_of_le_of_lt (sub_le_sub_right (mul_le_mul_of_nonneg_right double_pow (pow_nonneg ?_ 4)) 1) h
  exact add_nonneg zero_le_one hX

/-- C70. In double precision, with the default numbers of integration points (320 and 300), an amplitude up to one wavelength and an optical radius of the kernel up to 1000:
each pixel (whose exact value is in `[0, 1]`) has an error below 5·10⁻⁸ up to the order 10, and below 4·10⁻¹⁰ up to the order 4. -/
theorem kernel_double_error (s : List ℝ → ℝ) (hs : Sums s) (h : List Call) (fuel : Nat) (o : PolObj) (hv : ValidOrders o.m o.n) (hf : o.n.toNat + 1 < fuel)
    (hn : o.n ≤ 10) (coeff : ℝ) (q : KernelParams) (hopt : FloatOptics q) (hR : q.nR = 320) (hPhi : q.nPhi = 300) (hα : |coeff / q.wavelength| ≤ 1) (S : ℕ)
    (hS : OddSize q.kernelSize S) (hr : opticalScale q.wavelength q.NA q.len2pixels * S ≤ 1000) (hnorm : q.normalize = false) :
    ∃ g, (fltPsfKernel (psfDoubles s) fuel o coeff q (afterCalls h)).1 = .ok g ∧ g.rows = S ∧ g.cols = S ∧ ∀ i j, i < S → j < S → ∀ x,
      x = pixelPsf (fun r φ => coeff / q.wavelength * zernike o.m o.n r φ) (opticalScale q.wavelength q.NA q.len2pixels) S 320 300 i j →
      |g.entry i j - x| < 5 / 10 ^ 8 ∧ (o.n ≤ 4 → |g.entry i j - x| < 4 / 10 ^ 10) := by
  have hF := psfDoubles_accurate s hs.1 hs.2
  have hη1 : (2⁻¹ : ℝ) ^ 1022 ≤ 1 := pow_le_one₀ (by norm_num) (by norm_num)
  have hsz := size_nonneg o hv (coeff / q.wavelength) _ hF.eta_pos
  obtain ⟨g, e, r, c, b⟩ := kernel_float_error (psfDoubles s) _ _ _ hF h fuel o hv hf coeff q hopt 320 300
    ⟨hR, hPhi, by norm_num, by norm_num, by norm_num, by norm_num, radial_nodes_default, nodes_unit 320 (by norm_num) (by norm_num)⟩ S hS 1000 (by norm_num) hr hnorm
  refine ⟨g, e, r, c, fun i j hi hj x hx => ?_⟩
  have b := b i j hi hj
  rw [← hx] at b
  have hu := hF.basic.unit
  have hv' := (valid_iff o.m o.n).1 hv
  have hz0 : 0 ≤ zernikeSize o.m o.n := by
    have := (norm_one o.m o.n hv'.1).trans (zernikeSize_ge o.m o.n hv'.1)
    linarith
  have hm : ∀ Z, zernikeSize o.m o.n ≤ Z → max |coeff / q.wavelength| (2⁻¹ ^ 1022) * zernikeSize o.m o.n ≤ Z := fun Z hZ =>
    (mul_le_of_le_one_left hz0 (max_le hα hη1)).trans hZ
  constructor
  · refine (b.trans (pixelError_mono hu 1 320 300 (K' := 70) (by omega) (hm _ (zernikeSize_le o.m o.n hv 10 (by exact_mod_cast hn) 4.7 (by norm_num) (by norm_num))) le_rfl hsz (by norm_num))).trans_lt ?_
    rw [growth_10]
    unfold pixelError
    exact double_error (by norm_num) (by norm_num)
  · intro h4
    refine (b.trans (pixelError_mono hu 1 320 300 (K' := 46) (by omega) (hm _ (zernikeSize_le o.m o.n hv 4 (by exact_mod_cast h4) 3.2 (by norm_num) (by norm_num))) le_rfl hsz (by norm_num))).trans_lt ?_
    rw [growth_4]
    unfold pixelError
    exact double_error (by norm_num) (by norm_num)

/-! ### Examples -/

/-- An objective of NA 0.95 at 550 nm, pixels of 110 nm (the lengths in micrometres), the default numbers of points, 31 × 31 pixels. -/
noncomputable def sampleParams (normalize : Bool) : KernelParams := ⟨0.11, 0.55, 0.95, 320, 300, normalize, 31⟩

theorem sample_optics (b : Bool) : FloatOptics (sampleParams b) := by
  have := Real.pi_gt_three
  refine ⟨by norm_num [sampleParams], ?_, by norm_num [sampleParams], by norm_num [sampleParams]⟩
  have : (2 * 3 : ℝ) / 0.55 ≤ 2 * Real.pi / 0.55 := by gcongr
  refine le_trans (by norm_num) (show (2 * 3 : ℝ) / 0.55 ≤ 2 * Real.pi / (sampleParams b).wavelength from this)

theorem sample_radius (b : Bool) : opticalScale (sampleParams b).wavelength (sampleParams b).NA (sampleParams b).len2pixels * (31 : ℕ) ≤ 40 := by
  have := Real.pi_lt_d2
  unfold opticalScale sampleParams
  norm_num at *
  linarith

theorem sample_size (b : Bool) : OddSize (sampleParams b).kernelSize 31 := ⟨by decide, Or.inl rfl⟩

theorem sample_points (b : Bool) (s : List ℝ → ℝ) : FloatPoints (psfDoubles s) (sampleParams b) 320 300 :=
  ⟨rfl, rfl, by norm_num, by norm_num, by norm_num, by norm_num, radial_nodes_default, nodes_unit 320 (by norm_num) (by norm_num)⟩

/-- Half a wavelength of vertical coma, the sums from the left. -/
example : ∃ g, (fltPsfKernel (psfDoubles (sumFromLeft binary64)) 10 ⟨-1, 3, false⟩ 0.275 (sampleParams false) (afterCalls [])).1 = .ok g ∧ g.rows = 31 ∧ g.cols = 31 ∧
    ∀ i j, i < 31 → j < 31 → |g.entry i j - pixelPsf (fun r φ => 0.275 / 0.55 * zernike (-1) 3 r φ) (opticalScale 0.55 0.95 0.11) 31 320 300 i j| < 4 / 10 ^ 10 := by
  obtain ⟨g, e, r, c, b⟩ := kernel_double_error _ sumFromLeft_sums [] 10 ⟨-1, 3, false⟩ (by decide) (by decide) (by decide) 0.275 (sampleParams false) (sample_optics _)
    rfl rfl (by norm_num [sampleParams]) 31 (sample_size _) ((sample_radius _).trans (by norm_num)) rfl
  exact ⟨g, e, r, c, fun i j hi hj => (b i j hi hj _ rfl).2 (by decide)⟩

/-- Two polynomials: the hypotheses of the theorem on sums. -/
example : ∃ g, (fltPsfKernelZerns (psfDoubles (sumFromLeft binary64)) 10 ([0.3, -0.2].zip [⟨-1, 3, false⟩, ⟨0, 4, false⟩]) (sampleParams false) (afterCalls [])).1 = .ok g ∧
    g.rows = 31 := by
  obtain ⟨g, e, r, _⟩ := kernel_sum_float_error _ _ _ _ (psfDoubles_accurate _ sumFromLeft_sums.1 sumFromLeft_sums.2) [] 10 [0.3, -0.2]
    [⟨-1, 3, false⟩, ⟨0, 4, false⟩] rfl (by simp) (by intro o ho; simp at ho; rcases ho with rfl | rfl <;> decide) 4
    (by intro o ho; simp at ho; rcases ho with rfl | rfl <;> decide) (sampleParams false) (sample_optics _) 320 300 (sample_points _ _) 31 (sample_size _) 40
    (by norm_num) (sample_radius _) rfl
  exact ⟨g, e, r⟩

/-- The piston, normalised: the greatest exact value is that in the centre, 22201/22500, and the error is far below it. -/
example : ∃ g, (fltPsfKernel (psfDoubles (sumFromLeft binary64)) 10 ⟨0, 0, false⟩ 0 (sampleParams true) (afterCalls [])).1 = .ok g ∧ |g.entry 15 15 - 1| < 1 / 10 ^ 9 := by
  have hF := psfDoubles_accurate _ sumFromLeft_sums.1 sumFromLeft_sums.2
  have hfrac : angularFraction 300 = 149 / 150 := by unfold angularFraction; norm_num
  have hc : pixelPsf (fun r φ => 0 / (sampleParams true).wavelength * zernike 0 0 r φ) (opticalScale (sampleParams true).wavelength (sampleParams true).NA (sampleParams true).len2pixels)
      31 320 300 15 15 = 22201 / 22500 := by
    have e : (fun r φ => 0 / (sampleParams true).wavelength * zernike 0 0 r φ) = fun (_ _ : ℝ) => (0 : ℝ) := by
      funext r φ; simp
    rw [e]
    have := psfValue_xy (fun (_ _ : ℝ) => (0 : ℝ)) 0 0 320 300
    rw [psfValue_center 320 300 (by norm_num) (by norm_num), hfrac] at this
    unfold pixelPsf
    norm_num at this ⊢
    exact this.symm
  have hu := hF.basic.unit
  have hE : pixelError ((2⁻¹ : ℝ) ^ 53) 1 320 300 (4 * (0 : Int).toNat + 2 * 1 + 28) (max |0 / (sampleParams true).wavelength| (2⁻¹ ^ 1022) * zernikeSize 0 0) 40 < 1 / 10 ^ 10 := by
    have hη1 : (2⁻¹ : ℝ) ^ 1022 ≤ 1 := pow_le_one₀ (by norm_num) (by norm_num)
    have hz : zernikeSize 0 0 ≤ 10 := by
      refine (zernikeSize_le 0 0 (by decide) 0 (by decide) 1.42 (by norm_num) (by norm_num)).trans ?_
      have : growth 0 = 1 := by decide +kernel
      rw [this]; norm_num
    have hz0 : 0 ≤ zernikeSize 0 0 := by
      have := (norm_one 0 0 (by decide)).trans (zernikeSize_ge 0 0 (by decide))
      linarith
    refine (pixelError_mono (R' := 40) hu 1 320 300 (K' := 30) (by decide) (((mul_le_of_le_one_left hz0 (max_le (by norm_num) hη1)).trans hz)) le_rfl
      (mul_nonneg ((abs_nonneg _).trans (le_max_left _ _)) hz0) (by norm_num)).trans_lt ?_
    unfold pixelError
    exact double_error (by norm_num) (by norm_num)
  obtain ⟨g, e, _, _, b⟩ := kernel_normalized_float_error _ _ _ _ hF [] 10 ⟨0, 0, false⟩ (by decide) (by decide) 0 (sampleParams true) (sample_optics _) 320 300
    (sample_points _ _) 31 (sample_size _) 40 (by norm_num) (sample_radius _) rfl _ (22201 / 22500) rfl _ rfl
    ⟨⟨15, 15, by norm_num, by norm_num, hc⟩, fun i j _ _ => by
      have := (pixelPsf_mem (fun r φ => 0 / (sampleParams true).wavelength * zernike 0 0 r φ)
        (opticalScale (sampleParams true).wavelength (sampleParams true).NA (sampleParams true).len2pixels) 31 320 300 i j (by norm_num) (by norm_num)).2
      rw [hfrac] at this
      norm_num at this ⊢
      exact this⟩ (hE.trans (by norm_num))
  refine ⟨g, e, ?_⟩
  have b := b 15 15 (by norm_num) (by norm_num)
  rw [hc, div_self (by norm_num)] at b
  refine b.trans_lt ?_
  generalize hX : pixelError ((2⁻¹ : ℝ) ^ 53) 1 320 300 (4 * (0 : Int).toNat + 2 * 1 + 28) (max |0 / (sampleParams true).wavelength| (2⁻¹ ^ 1022) * zernikeSize 0 0) 40 = E at hE
  have h0 : 2 * E / (22201 / 22500 - E) ≤ 3 / 10 ^ 10 := by
    rw [div_le_iff₀ (by linarith)]
    linarith
  have : (1 + (2⁻¹ : ℝ) ^ 53) * (1 + 2 * E / (22201 / 22500 - E)) ≤ (1 + (2⁻¹ : ℝ) ^ 53) * (1 + 3 / 10 ^ 10) := by gcongr
  have h2 : (1 + (2⁻¹ : ℝ) ^ 53) * (1 + 3 / 10 ^ 10) - 1 < 1 / 10 ^ 9 := by norm_num
  linarith

end Verif.Props
