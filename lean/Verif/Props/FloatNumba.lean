import Verif.Proofs.FloatNumba
import Verif.Props.FloatPsf

/-!
# C93: the accelerated PSF kernels in floating-point arithmetic

`fltPsfKernelComp F` and `fltPsfKernelCompPols F` are the two cases of `get_psf_kernel_comp` in the arithmetic `F` of the compiled functions, which need not be the arithmetic
of the plain calculation (`fltPsfKernel`, `fltPsfKernelZerns`): only the accuracy `PsfAccurate` is assumed of both. `pixelPsf` is the PSF at the position of a pixel, in exact
arithmetic (C44). The polynomials are those of the orders up to 10 without `|m| = n ≥ 8`, for which the accelerated calculation is wrong (C35).
-/

namespace Verif.Props
open Verif.Model Verif.Spec Verif.Proofs

/-- The orders for which the accelerated calculation has an equation: up to 10, but not `|m| = n` for 8, 9, 10. -/
def Accelerable (o : PolObj) : Prop := ValidOrders o.m o.n ∧ o.n ≤ 10 ∧ ¬ (8 ≤ o.n ∧ |o.m| = o.n)

theorem Accelerable.supported {o : PolObj} (h : Accelerable o) : CompSupported o.m o.n := ⟨h.1, h.2.1, by have := h.2.2; omega⟩

theorem Accelerable.not_unsupported {o : PolObj} (h : Accelerable o) : compUnsupported o.m o.n = false := by
  have := h.2.1
  unfold compUnsupported
  simp; omega

/-- C93. One polynomial, not normalised: each pixel differs from the exact PSF at its place by at most `pixelError`, as for the plain calculation (C70). -/
theorem accelerated_float_error (F : PsfArith) (u η : ℝ) (p : ℕ) (hF : PsfAccurate F u η p) (h : List Call) (o : PolObj) (ho : Accelerable o) (coeff : ℝ)
    (q : KernelParams) (hopt : FloatOptics q) (nR nPhi : ℕ) (hpt : FloatPoints F q nR nPhi) (S : ℕ)
    (hS : OddSize q.kernelSize S) (R : ℝ) (hR1 : 1 ≤ R) (hR : opticalScale q.wavelength q.NA q.len2pixels * S ≤ R) (hn : q.normalize = false) :
    ∃ g, (fltPsfKernelComp F o coeff q (afterCalls h)).1 = .ok g ∧ g.rows = S ∧ g.cols = S ∧ ∀ i j, i < S → j < S →
      |g.entry i j - pixelPsf (fun r φ => coeff / q.wavelength * zernike o.m o.n r φ) (opticalScale q.wavelength q.NA q.len2pixels) S nR nPhi i j| ≤
        pixelError u p nR nPhi (4 * o.n.toNat + 2 * p + 28) (max |coeff / q.wavelength| η * zernikeSize o.m o.n) R := by
  have hα : Er ((1 + u) ^ 1) (max |coeff / q.wavelength| η) (F.fl (coeff / q.wavelength)) (coeff / q.wavelength) :=
    (Er.exactK u _ (le_max_left _ _)).roundK hF (le_max_right _ _)
  have hS0 : ¬ ((S : Int) < 0) := by omega
  unfold fltPsfKernelComp
  rw [if_neg hopt.1.ne', hn]
  simp only [oddSize_makeOdd hS, ho.not_unsupported, Bool.false_eq_true, if_false, hS0]
  refine afterCalls_retP ?_ h
  have := fltKernel_raw (F := F) S (by omega) q.NA (lt_of_lt_of_le (by positivity) hopt.2.2.1).ne' _ _ _ fun i j hi hj =>
    pixel_float hF hR1 (size_nonneg o ho.1 _ η hF.eta_pos) (K := 4 * o.n.toNat + 2 * p + 28) (by omega) (by omega)
      (compPhase_er hF ho.supported hα) q hopt nR nPhi hpt S hS.1 hR i j (by simpa using hi) (by simpa using hj)
  simpa using this

/-- C93. Several polynomials, not normalised. -/
theorem accelerated_sum_float_error (F : PsfArith) (u η : ℝ) (p : ℕ) (hF : PsfAccurate F u η p) (h : List Call) (cs : List ℝ) (os : List PolObj)
    (hl : cs.length = os.length) (h0 : os ≠ []) (ho : ∀ o ∈ os, Accelerable o) (N : ℕ) (hN : ∀ o ∈ os, o.n ≤ N) (q : KernelParams) (hopt : FloatOptics q) (nR nPhi : ℕ)
    (hpt : FloatPoints F q nR nPhi) (S : ℕ) (hS : OddSize q.kernelSize S) (R : ℝ) (hR1 : 1 ≤ R)
    (hR : opticalScale q.wavelength q.NA q.len2pixels * S ≤ R) (hn : q.normalize = false) :
    ∃ g, (fltPsfKernelCompPols F (cs.zip os) q (afterCalls h)).1 = .ok g ∧ g.rows = S ∧ g.cols = S ∧ ∀ i j, i < S → j < S →
      |g.entry i j - pixelPsf (combination cs (ordersOf os)) (opticalScale q.wavelength q.NA q.len2pixels) S nR nPhi i j| ≤
        pixelError u p nR nPhi (4 * N + 2 * p + os.length + 28) (((cs.zip os).map fun x => max |x.1| η * zernikeSize x.2.m x.2.n).sum) R := by
  have hz : ∀ x ∈ cs.zip os, Accelerable x.2 := fun x hx => ho x.2 (List.of_mem_zip hx).2
  have hlen : (cs.zip os).length = os.length := by simp [hl]
  have hph := compPolsPhase_er hF N (cs.zip os) (zip_ne_nil hl h0) fun x hx => ⟨(hz x hx).supported, by
    have := hN x.2 (List.of_mem_zip hx).2
    omega⟩
  have hterm : (fun (r φ : ℝ) => ((cs.zip os).map fun x => x.1 * zernike x.2.m x.2.n r φ).sum) = combination cs (ordersOf os) := by
    rw [← termSum_eq]; rfl
  rw [hterm] at hph
  have hsz : 0 ≤ ((cs.zip os).map fun x => max |x.1| η * zernikeSize x.2.m x.2.n).sum := by
    refine List.sum_nonneg fun y hy => ?_
    obtain ⟨x, hx, rfl⟩ := List.mem_map.1 hy
    exact size_nonneg x.2 (hz x hx).1 _ η hF.eta_pos
  have hS0 : ¬ ((S : Int) < 0) := by omega
  have hu : ((cs.zip os).any fun x => compUnsupported x.2.m x.2.n) = false := by
    rw [List.any_eq_false]
    intro x hx
    rw [(hz x hx).not_unsupported]
    simp
  unfold fltPsfKernelCompPols
  rw [if_neg hopt.1.ne', hn]
  simp only [oddSize_makeOdd hS, hu, Bool.false_eq_true, if_false, hS0]
  refine afterCalls_retP ?_ h
  have := fltKernel_raw (F := F) S (by omega) q.NA (lt_of_lt_of_le (by positivity) hopt.2.2.1).ne' _ _ _ fun i j hi hj =>
    pixel_float hF hR1 hsz (K := 4 * N + 2 * p + os.length + 28) (by omega) (by omega) hph q hopt nR nPhi hpt S hS.1 hR i j (by simpa using hi) (by simpa using hj)
  simpa using this

/-- C93. One polynomial, normalised: `t` is the greatest exact value, and it exceeds the error `E` of a pixel. -/
theorem accelerated_normalized_float_error (F : PsfArith) (u η : ℝ) (p : ℕ) (hF : PsfAccurate F u η p) (h : List Call) (o : PolObj)
    (ho : Accelerable o) (coeff : ℝ) (q : KernelParams) (hopt : FloatOptics q) (nR nPhi : ℕ)
    (hpt : FloatPoints F q nR nPhi) (S : ℕ) (hS : OddSize q.kernelSize S) (R : ℝ) (hR1 : 1 ≤ R)
    (hR : opticalScale q.wavelength q.NA q.len2pixels * S ≤ R) (hn : q.normalize = true) (E t : ℝ)
    (hE : E = pixelError u p nR nPhi (4 * o.n.toNat + 2 * p + 28) (max |coeff / q.wavelength| η * zernikeSize o.m o.n) R) (w : ℕ → ℕ → ℝ)
    (hw : w = pixelPsf (fun r φ => coeff / q.wavelength * zernike o.m o.n r φ) (opticalScale q.wavelength q.NA q.len2pixels) S nR nPhi)
    (ht : (∃ a b, a < S ∧ b < S ∧ w a b = t) ∧ ∀ i j, i < S → j < S → w i j ≤ t) (hEt : E < t) :
    ∃ g, (fltPsfKernelComp F o coeff q (afterCalls h)).1 = .ok g ∧ g.rows = S ∧ g.cols = S ∧ ∀ i j, i < S → j < S →
      |g.entry i j - w i j / t| ≤ (1 + u) * (1 + 2 * E / (t - E)) - 1 := by
  obtain ⟨⟨a, b, ha, hb, rfl⟩, hmax⟩ := ht
  have hα : Er ((1 + u) ^ 1) (max |coeff / q.wavelength| η) (F.fl (coeff / q.wavelength)) (coeff / q.wavelength) :=
    (Er.exactK u _ (le_max_left _ _)).roundK hF (le_max_right _ _)
  have hS0 : ¬ ((S : Int) < 0) := by omega
  unfold fltPsfKernelComp
  rw [if_neg hopt.1.ne', hn]
  simp only [oddSize_makeOdd hS, ho.not_unsupported, Bool.false_eq_true, if_false, hS0]
  refine afterCalls_retP ?_ h
  have h5 := hpt.2.2.2.2.1
  have h2 := hpt.2.2.1
  have hS1 : 1 ≤ S := by have := hS.1; omega
  have hpix : ∀ i j, i < (S : Int).toNat → j < (S : Int).toNat →
      RetP (fltPsfPoint F (fltCompPhase F o.m o.n (F.fl (coeff / q.wavelength)))
        (fltKernelDist F S (F.fl (F.fl (2 * F.pi) / q.wavelength)) q.NA q.len2pixels i j) (fltKernelTheta F S i j) q.nR q.nPhi) fun v => |v - w i j| ≤ E := by
    intro i j hi hj
    rw [hw, hE]
    exact pixel_float hF hR1 (size_nonneg o ho.1 _ η hF.eta_pos) (K := 4 * o.n.toNat + 2 * p + 28) (by omega) (by omega)
      (compPhase_er hF ho.supported hα) q hopt nR nPhi hpt S hS.1 hR i j (by simpa using hi) (by simpa using hj)
  have := fltKernel_normalized hF S (by omega) q.NA (lt_of_lt_of_le (by positivity) hopt.2.2.1).ne' _ w E hpix
    (fun i j => by rw [hw]; exact (pixelPsf_mem _ _ S nR nPhi i j (by omega) (by omega)).1) a b (by simpa using ha) (by simpa using hb)
    (fun i j hi hj => hmax i j (by simpa using hi) (by simpa using hj)) hEt
  simpa using this

/-- C93. The plain calculation in one arithmetic and the accelerated one in another (for one polynomial), in any states: the pixels differ by no more than the errors of both. -/
theorem accelerated_close_to_plain (F F' : PsfArith) (u η u' η' : ℝ) (p p' : ℕ) (hF : PsfAccurate F u η p) (hF' : PsfAccurate F' u' η' p') (h h' : List Call) (fuel : Nat)
    (o : PolObj) (ho : Accelerable o) (hf : o.n.toNat + 1 < fuel) (coeff : ℝ) (q : KernelParams) (hopt : FloatOptics q) (nR nPhi : ℕ) (hpt : FloatPoints F q nR nPhi)
    (hpt' : FloatPoints F' q nR nPhi) (S : ℕ) (hS : OddSize q.kernelSize S) (R : ℝ) (hR1 : 1 ≤ R) (hR : opticalScale q.wavelength q.NA q.len2pixels * S ≤ R)
    (hn : q.normalize = false) :
    ∃ g g', (fltPsfKernel F fuel o coeff q (afterCalls h)).1 = .ok g ∧ (fltPsfKernelComp F' o coeff q (afterCalls h')).1 = .ok g' ∧
      g.rows = S ∧ g.cols = S ∧ g'.rows = S ∧ g'.cols = S ∧ ∀ i j, i < S → j < S →
        |g'.entry i j - g.entry i j| ≤
          pixelError u p nR nPhi (4 * o.n.toNat + 2 * p + 28) (max |coeff / q.wavelength| η * zernikeSize o.m o.n) R +
          pixelError u' p' nR nPhi (4 * o.n.toNat + 2 * p' + 28) (max |coeff / q.wavelength| η' * zernikeSize o.m o.n) R := by
  obtain ⟨g, e, r, c, b⟩ := kernel_float_error F u η p hF h fuel o ho.1 hf coeff q hopt nR nPhi hpt S hS R hR1 hR hn
  obtain ⟨g', e', r', c', b'⟩ := accelerated_float_error F' u' η' p' hF' h' o ho coeff q hopt nR nPhi hpt' S hS R hR1 hR hn
  refine ⟨g, g', e, e', r, c, r', c', fun i j hi hj => ?_⟩
  have h1 := b i j hi hj
  rw [abs_sub_comm] at h1
  have h2 := b' i j hi hj
  have h3 := abs_sub_le (g'.entry i j) (pixelPsf (fun r φ => coeff / q.wavelength * zernike o.m o.n r φ) (opticalScale q.wavelength q.NA q.len2pixels) S nR nPhi i j) (g.entry i j)
  linarith

/-- C93. The same for several polynomials. -/
theorem accelerated_sum_close_to_plain (F F' : PsfArith) (u η u' η' : ℝ) (p p' : ℕ) (hF : PsfAccurate F u η p) (hF' : PsfAccurate F' u' η' p') (h h' : List Call)
    (fuel : Nat) (cs : List ℝ) (os : List PolObj) (hl : cs.length = os.length) (h0 : os ≠ []) (ho : ∀ o ∈ os, Accelerable o) (hf : 11 < fuel) (N : ℕ)
    (hN : ∀ o ∈ os, o.n ≤ N) (q : KernelParams) (hopt : FloatOptics q) (nR nPhi : ℕ) (hpt : FloatPoints F q nR nPhi) (hpt' : FloatPoints F' q nR nPhi) (S : ℕ)
    (hS : OddSize q.kernelSize S) (R : ℝ) (hR1 : 1 ≤ R) (hR : opticalScale q.wavelength q.NA q.len2pixels * S ≤ R) (hn : q.normalize = false) :
    ∃ g g', (fltPsfKernelZerns F fuel (cs.zip os) q (afterCalls h)).1 = .ok g ∧ (fltPsfKernelCompPols F' (cs.zip os) q (afterCalls h')).1 = .ok g' ∧
      g.rows = S ∧ g.cols = S ∧ g'.rows = S ∧ g'.cols = S ∧ ∀ i j, i < S → j < S →
        |g'.entry i j - g.entry i j| ≤
          pixelError u p nR nPhi (4 * N + 2 * p + os.length + 28) (((cs.zip os).map fun x => max |x.1| η * zernikeSize x.2.m x.2.n).sum) R +
          pixelError u' p' nR nPhi (4 * N + 2 * p' + os.length + 28) (((cs.zip os).map fun x => max |x.1| η' * zernikeSize x.2.m x.2.n).sum) R := by
  obtain ⟨g, e, r, c, b⟩ := kernel_sum_float_error F u η p hF h fuel cs os hl h0 (fun o x => ⟨(ho o x).1, by have := (ho o x).2.1; omega⟩) N hN q hopt nR nPhi hpt S hS R hR1 hR hn
  obtain ⟨g', e', r', c', b'⟩ := accelerated_sum_float_error F' u' η' p' hF' h' cs os hl h0 ho N hN q hopt nR nPhi hpt' S hS R hR1 hR hn
  refine ⟨g, g', e, e', r, c, r', c', fun i j hi hj => ?_⟩
  have h1 := b i j hi hj
  rw [abs_sub_comm] at h1
  have h2 := b' i j hi hj
  have h3 := abs_sub_le (g'.entry i j) (pixelPsf (combination cs (ordersOf os)) (opticalScale q.wavelength q.NA q.len2pixels) S nR nPhi i j) (g.entry i j)
  linarith

theorem double_pow_8 : (1 + (2⁻¹ : ℝ) ^ 53) ^ (4 * 320 + 4 * 300 + 7 * 8 + 104) ≤ 1 + 4 / 10 ^ 13 := by
  have h1 : (1 + (2⁻¹ : ℝ) ^ 53) ^ 216 ≤ 1 + 24 / 10 ^ 15 := by norm_num
  have h2 := pow_small (by positivity) h1 13
  refine le_trans (pow_le_pow_right₀ (by norm_num) (by norm_num : 4 * 320 + 4 * 300 + 7 * 8 + 104 ≤ 216 * 13)) (h2.trans ?_)
  norm_num

theorem double_error_8 {K : ℕ} {X e : ℝ} (hX : 0 ≤ ((1 + (2⁻¹ : ℝ) ^ 53) ^ K - 1) * X) (h : (1 + 4 / 10 ^ 13) * (1 + ((1 + (2⁻¹ : ℝ) ^ 53) ^ K - 1) * X) ^ 4 - 1 < e) :
    (1 + (2⁻¹ : ℝ) ^ 53) ^ (4 * 320 + 4 * 300 + 7 * 8 + 104) * (1 + ((1 + (2⁻¹ : ℝ) ^ 53) ^ K - 1) * X) ^ 4 - 1 < e := by
  refine lt_of_le_of_lt (sub_le_sub_right (mul_le_mul_of_nonneg_right double_pow_8 (pow_nonneg ?_ 4)) 1) h
  exact add_nonneg zero_le_one hX

/-- C93. Double precision (the unit roundoff is 2⁻⁵³) with functions accurate to about 8 units: with the default numbers of integration points, an amplitude up to one wavelength and an
optical radius of the kernel up to 1000, each pixel of the accelerated calculation has an error below 10⁻⁷, and below 10⁻⁹ up to the order 4. -/
theorem accelerated_double_error (F : PsfArith) (hF : PsfAccurate F ((2⁻¹ : ℝ) ^ 53) ((2⁻¹ : ℝ) ^ 1022) 8) (h : List Call) (o : PolObj) (ho : Accelerable o)
    (coeff : ℝ) (q : KernelParams) (hopt : FloatOptics q) (hpt : FloatPoints F q 320 300) (hα : |coeff / q.wavelength| ≤ 1) (S : ℕ)
    (hS : OddSize q.kernelSize S) (hr : opticalScale q.wavelength q.NA q.len2pixels * S ≤ 1000) (hnorm : q.normalize = false) :
    ∃ g, (fltPsfKernelComp F o coeff q (afterCalls h)).1 = .ok g ∧ g.rows = S ∧ g.cols = S ∧ ∀ i j, i < S → j < S → ∀ x,
      x = pixelPsf (fun r φ => coeff / q.wavelength * zernike o.m o.n r φ) (opticalScale q.wavelength q.NA q.len2pixels) S 320 300 i j →
      |g.entry i j - x| < 1 / 10 ^ 7 ∧ (o.n ≤ 4 → |g.entry i j - x| < 1 / 10 ^ 9) := by
  have hv := ho.1
  have hη1 : (2⁻¹ : ℝ) ^ 1022 ≤ 1 := pow_le_one₀ (by norm_num) (by norm_num)
  have hsz := size_nonneg o hv (coeff / q.wavelength) _ hF.eta_pos
  obtain ⟨g, e, r, c, b⟩ := accelerated_float_error F _ _ _ hF h o ho coeff q hopt 320 300 hpt S hS 1000 (by norm_num) hr hnorm
  refine ⟨g, e, r, c, fun i j hi hj x hx => ?_⟩
  have b := b i j hi hj
  rw [← hx] at b
  have hu := hF.basic.unit
  have hv' := (valid_iff o.m o.n).1 hv
  have hn := ho.2.1
  have hz0 : 0 ≤ zernikeSize o.m o.n := by
    have := (norm_one o.m o.n hv'.1).trans (zernikeSize_ge o.m o.n hv'.1)
    linarith
  have hm : ∀ Z, zernikeSize o.m o.n ≤ Z → max |coeff / q.wavelength| (2⁻¹ ^ 1022) * zernikeSize o.m o.n ≤ Z := fun Z hZ =>
    (mul_le_of_le_one_left hz0 (max_le hα hη1)).trans hZ
  constructor
  · refine (b.trans (pixelError_mono hu 8 320 300 (K' := 84) (by omega) (hm _ (zernikeSize_le o.m o.n hv 10 (by exact_mod_cast hn) 4.7 (by norm_num) (by norm_num))) le_rfl hsz (by norm_num))).trans_lt ?_
    rw [growth_10]
    unfold pixelError
    exact double_error_8 (by norm_num) (by norm_num)
  · intro h4
    refine (b.trans (pixelError_mono hu 8 320 300 (K' := 60) (by omega) (hm _ (zernikeSize_le o.m o.n hv 4 (by exact_mod_cast h4) 3.2 (by norm_num) (by norm_num))) le_rfl hsz (by norm_num))).trans_lt ?_
    rw [growth_4]
    unfold pixelError
    exact double_error_8 (by norm_num) (by norm_num)

/-- C93. Orders above 10 are rejected, in every arithmetic, and the state does not change. -/
theorem accelerated_float_rejects (F : PsfArith) (s : CoefState) (o : PolObj) (coeff : ℝ) (q : KernelParams) (hw : 0 < q.wavelength) (l : List (ℝ × PolObj)) :
    (o.n > 10 → fltPsfKernelComp F o coeff q s = (.error .valueError, s)) ∧
    ((∃ x ∈ l, x.2.n > 10) → fltPsfKernelCompPols F l q s = (.error .valueError, s)) := by
  have key : ∀ m n : Int, n > 10 → compUnsupported m n = true := by
    intro m n h
    unfold compUnsupported
    simp; omega
  constructor
  · intro h
    unfold fltPsfKernelComp
    simp only [key _ _ h, if_true, hw.ne', if_false]
    split_ifs <;> rfl
  · rintro ⟨x, hx, h⟩
    have : (l.any fun x => compUnsupported x.2.m x.2.n) = true := List.any_eq_true.2 ⟨x, hx, key _ _ h⟩
    unfold fltPsfKernelCompPols
    simp only [this, if_true, hw.ne', if_false]
    split_ifs <;> rfl

/-! ### Examples -/

/-- Half a wavelength of vertical coma: the plain and the accelerated calculation in double precision with different summations. -/
example (s s' : List ℝ → ℝ) (hs : Sums s) (hs' : Sums s') : ∃ g g', (fltPsfKernel (psfDoubles s) 10 ⟨-1, 3, false⟩ 0.275 (sampleParams false) (afterCalls [])).1 = .ok g ∧
    (fltPsfKernelComp (psfDoubles s') ⟨-1, 3, false⟩ 0.275 (sampleParams false) (afterCalls [])).1 = .ok g' ∧ g'.rows = 31 := by
  obtain ⟨g, g', e, e', _, _, r, _⟩ := accelerated_close_to_plain (psfDoubles s) (psfDoubles s') _ _ _ _ _ _ (psfDoubles_accurate s hs.1 hs.2) (psfDoubles_accurate s' hs'.1 hs'.2)
    [] [] 10 ⟨-1, 3, false⟩ ⟨by decide, by decide, by decide⟩ (by decide) 0.275 (sampleParams false) (sample_optics _) 320 300 (sample_points _ _) (sample_points _ _) 31 (sample_size _) 40
    (by norm_num) (sample_radius _) rfl
  exact ⟨g, g', e, e', r⟩

/-- An arithmetic that is accurate to one unit is accurate to 8 units. -/
theorem accurate_8 {F : PsfArith} {u η : ℝ} (hF : PsfAccurate F u η 1) : PsfAccurate F u η 8 := by
  have hu := hF.basic.unit
  have h1 : (1 + u) ^ 1 - 1 ≤ (1 + u) ^ 8 - 1 := sub_le_sub_right (pow_u_mono hu (by norm_num)) 1
  refine ⟨⟨hu, hF.basic.small, hF.basic.fl, hF.basic.sqrt, fun x k a b => (hF.basic.pow x k a b).trans h1, fun x => (hF.basic.cos x).trans h1, fun x => (hF.basic.sin x).trans h1⟩,
    hF.small, hF.eta_pos, hF.eta_small, hF.fl, hF.zero, hF.pi, fun x => (hF.expRe x).trans h1, fun x => (hF.expIm x).trans h1, hF.sum, fun a b => (hF.hypot a b).trans ?_,
    fun x => (hF.sq x).trans ?_, fun y x => (hF.atan2 y x).trans ?_⟩
  · exact mul_le_mul_of_nonneg_right h1 (le_max_of_le_right hF.eta_pos.le)
  · exact mul_le_mul_of_nonneg_right h1 (le_max_of_le_right hF.eta_pos.le)
  · linarith

/-- The same polynomial: the error in double precision. -/
example : ∃ g, (fltPsfKernelComp (psfDoubles (sumFromLeft binary64)) ⟨-1, 3, false⟩ 0.275 (sampleParams false) (afterCalls [])).1 = .ok g ∧ g.rows = 31 ∧ g.cols = 31 ∧
    ∀ i j, i < 31 → j < 31 → |g.entry i j - pixelPsf (fun r φ => 0.275 / 0.55 * zernike (-1) 3 r φ) (opticalScale 0.55 0.95 0.11) 31 320 300 i j| < 1 / 10 ^ 9 := by
  obtain ⟨g, e, r, c, b⟩ := accelerated_double_error _ (accurate_8 (psfDoubles_accurate _ sumFromLeft_sums.1 sumFromLeft_sums.2)) [] ⟨-1, 3, false⟩ ⟨by decide, by decide, by decide⟩ 0.275
    (sampleParams false) (sample_optics _) (sample_points _ _) (by norm_num [sampleParams]) 31 (sample_size _) ((sample_radius _).trans (by norm_num)) rfl
  exact ⟨g, e, r, c, fun i j hi hj => (b i j hi hj _ rfl).2 (by decide)⟩

/-- Two polynomials. -/
example : ∃ g g', (fltPsfKernelZerns (psfDoubles (sumFromLeft binary64)) 12 ([0.3, -0.2].zip [⟨-1, 3, false⟩, ⟨0, 4, false⟩]) (sampleParams false) (afterCalls [])).1 = .ok g ∧
    (fltPsfKernelCompPols (psfDoubles (sumFromLeft binary64)) ([0.3, -0.2].zip [⟨-1, 3, false⟩, ⟨0, 4, false⟩]) (sampleParams false) (afterCalls [])).1 = .ok g' := by
  have hF := psfDoubles_accurate _ sumFromLeft_sums.1 sumFromLeft_sums.2
  obtain ⟨g, g', e, e', _⟩ := accelerated_sum_close_to_plain _ _ _ _ _ _ _ _ hF hF [] [] 12 [0.3, -0.2] [⟨-1, 3, false⟩, ⟨0, 4, false⟩] rfl (by simp)
    (by intro o ho; simp at ho; rcases ho with rfl | rfl <;> exact ⟨by decide, by decide, by decide⟩) (by norm_num) 4
    (by intro o ho; simp at ho; rcases ho with rfl | rfl <;> decide) (sampleParams false) (sample_optics _) 320 300 (sample_points _ _) (sample_points _ _) 31 (sample_size _) 40
    (by norm_num) (sample_radius _) rfl
  exact ⟨g, g', e, e'⟩

end Verif.Props
