import Verif.Model.FloatImages
import Verif.Props.Images
import Verif.Props.FloatSurface
import Verif.Props.RadialSlope

/-!
# C99: generated phase images in double precision
-/

namespace Verif.Props
open Verif.Model Verif.Spec Verif.Proofs

/-- The distance of a pixel from the centre, squared, is an integer. -/
theorem dist_integer (h w i j : Nat) : ∃ D : ℕ, (((h / 2 : Nat) : ℝ) - i) ^ 2 + (((w / 2 : Nat) : ℝ) - j) ^ 2 = D := by
  refine ⟨((((h / 2 : Nat) : ℤ) - i) ^ 2 + (((w / 2 : Nat) : ℤ) - j) ^ 2).toNat, ?_⟩
  have : (0 : ℤ) ≤ (((h / 2 : Nat) : ℤ) - i) ^ 2 + (((w / 2 : Nat) : ℤ) - j) ^ 2 := by positivity
  have e : ((((((h / 2 : Nat) : ℤ) - i) ^ 2 + (((w / 2 : Nat) : ℤ) - j) ^ 2).toNat : ℤ) : ℝ) = (((((h / 2 : Nat) : ℤ) - i) ^ 2 + (((w / 2 : Nat) : ℤ) - j) ^ 2 : ℤ) : ℝ) := by
    rw [Int.toNat_of_nonneg this]
  rw [Int.cast_natCast] at e
  rw [e, Int.cast_add, Int.cast_pow, Int.cast_pow, Int.cast_sub, Int.cast_sub]
  simp only [Int.cast_natCast]

theorem sqrt_le_radius (D R : ℕ) (hR : R ≤ 2 ^ 25) : binary64 (Real.sqrt D) ≤ R ↔ Real.sqrt D ≤ R := by
  constructor
  · intro h
    by_contra hc
    push Not at hc
    have h1 : (R : ℝ) ^ 2 < D := by
      have := Real.lt_sqrt (x := (R : ℝ)) (y := (D : ℝ)) (by positivity)
      exact this.1 hc
    have h2 : R ^ 2 + 1 ≤ D := by exact_mod_cast h1
    have h3 : ((R : ℝ) ^ 2 + 1) ≤ D := by exact_mod_cast h2
    have hx : 1 ≤ Real.sqrt D := by
      rw [Real.one_le_sqrt]
      have := sq_nonneg (R : ℝ)
      linarith
    have he := binary64_error (Real.sqrt D)
    rw [abs_of_nonneg (by linarith : 0 ≤ Real.sqrt D), max_eq_left hx] at he
    have he' := (abs_le.1 he).1
    have h4 : Real.sqrt D * (1 - 2⁻¹ ^ 53) ≤ R := by linarith
    have h5 : (Real.sqrt D * (1 - 2⁻¹ ^ 53)) ^ 2 ≤ (R : ℝ) ^ 2 := by
      refine pow_le_pow_left₀ ?_ h4 2
      refine mul_nonneg (by linarith) (by norm_num)
    rw [mul_pow, Real.sq_sqrt (by positivity)] at h5
    have h6 : (R : ℝ) ^ 2 ≤ (2 ^ 25) ^ 2 := by
      have : (R : ℝ) ≤ 2 ^ 25 := by exact_mod_cast hR
      exact pow_le_pow_left₀ (by positivity) this 2
    have h7 : ((R : ℝ) ^ 2 + 1) * (1 - 2⁻¹ ^ 53) ^ 2 ≤ D * (1 - 2⁻¹ ^ 53) ^ 2 := mul_le_mul_of_nonneg_right h3 (by positivity)
    generalize (R : ℝ) ^ 2 = q at *
    generalize (D : ℝ) * (1 - 2⁻¹ ^ 53) ^ 2 = z at *
    norm_num at *
    linarith
  · intro h
    have := binary64_mono (Real.sqrt_nonneg _) h
    rwa [binary64_nat R (by omega)] at this

/-- In double precision exactly the pixels of the circle are filled. -/
theorem mask_exact (s : List ℝ → ℝ) (h w i j : Nat) (hR : min w h ≤ 2 ^ 25) : imgDistFl (psfDoubles s) h w i j ≤ imgRadius h w ↔ imgDist h w i j ≤ imgRadius h w := by
  obtain ⟨D, hD⟩ := dist_integer h w i j
  unfold imgDistFl imgDist imgRadius
  rw [hD]
  exact sqrt_le_radius D _ (by omega)

theorem imgRFl_near (s : List ℝ → ℝ) (h w i j : Nat) (hR : min w h ≤ 2 ^ 25) :
    0 ≤ imgRFl (psfDoubles s) h w i j ∧ imgRFl (psfDoubles s) h w i j ≤ 1 ∧ |imgRFl (psfDoubles s) h w i j - imgR h w i j| ≤ 2⁻¹ ^ 52 := by
  have hm := mask_exact s h w i j hR
  unfold imgRFl imgR
  by_cases hd : imgDist h w i j ≤ imgRadius h w
  · rw [if_pos (hm.2 hd), if_pos hd]
    have hd' := hm.2 hd
    obtain ⟨D, hD⟩ := dist_integer h w i j
    have e1 : imgDistFl (psfDoubles s) h w i j = binary64 (Real.sqrt D) := by unfold imgDistFl; rw [hD]; rfl
    have e2 : imgDist h w i j = Real.sqrt D := by unfold imgDist; rw [hD]
    rw [e1] at hd' ⊢
    rw [e2] at hd ⊢
    have hR1 : 1 ≤ imgRadius h w := by unfold imgRadius; push_cast; linarith [show (0 : ℝ) ≤ ((min w h / 2 : ℕ) : ℝ) by positivity]
    generalize imgRadius h w = R at *
    have hx := Real.sqrt_nonneg (D : ℝ)
    generalize Real.sqrt (D : ℝ) = x at *
    have hb := binary64_nonneg hx
    have hq0 : 0 ≤ binary64 x / R := div_nonneg hb (by linarith)
    have hq1 : binary64 x / R ≤ 1 := (div_le_one (by linarith)).2 hd'
    have b1 : binary64 1 = 1 := by have := binary64_nat 1 (by norm_num); simpa using this
    have f1 : (psfDoubles s).fl (binary64 x / R) = binary64 (binary64 x / R) := rfl
    rw [f1]
    refine ⟨binary64_nonneg hq0, ?_, ?_⟩
    · have := binary64_mono hq0 hq1
      rwa [b1] at this
    · have g1 := binary64_error (binary64 x / R)
      rw [abs_of_nonneg hq0, max_eq_right hq1, mul_one] at g1
      have g2 := binary64_error x
      rw [abs_of_nonneg hx] at g2
      have g3 : |binary64 x / R - x / R| ≤ 2⁻¹ ^ 53 := by
        rw [← sub_div, abs_div, abs_of_pos (by linarith : 0 < R), div_le_iff₀ (by linarith)]
        exact g2.trans (mul_le_mul_of_nonneg_left (max_le hd hR1) (by positivity))
      have := abs_sub_le (binary64 (binary64 x / R)) (binary64 x / R) (x / R)
      have z : (2⁻¹ : ℝ) ^ 52 = 2⁻¹ ^ 53 + 2⁻¹ ^ 53 := by norm_num
      rw [z]
      linarith
  · rw [if_neg (fun k => hd (hm.1 k)), if_neg hd]
    norm_num

/-- The angle in double precision as computed from two coordinates is in the range [0, 2·np.pi] and is near to an angle of the point. -/
theorem wrapped_angle_near (y x : ℝ) :
    ∃ v, v = (open Classical in if binary64 (arctan2 y x) < 0 then binary64 (binary64 (arctan2 y x) + twoPiFl doubles) else binary64 (arctan2 y x)) ∧ 0 ≤ v ∧ v ≤ twoPiFl doubles ∧
      ∃ t, Real.cos t = Real.cos (arctan2 y x) ∧ Real.sin t = Real.sin (arctan2 y x) ∧ |v - t| ≤ 2 ^ (-48 : ℤ) := by
  refine ⟨_, rfl, ?_⟩
  obtain ⟨a, ha⟩ : ∃ a, a = arctan2 y x := ⟨_, rfl⟩
  have hmem := arctan2_mem y x
  rw [← ha] at hmem ⊢
  have hpi := Real.pi_lt_d2
  have hpi3 := Real.pi_gt_three
  have err : |binary64 a - a| ≤ 2 ^ (-52 : ℤ) := by
    have := binary64_err (x := a) (a := 1) (by norm_num) (by rw [abs_lt]; norm_num; constructor <;> linarith [hmem.1, hmem.2])
    simpa using this
  have tp := twoPi_near
  have tidem : binary64 (twoPiFl doubles) = twoPiFl doubles := by rw [← twoPi_nearest]; exact binary64_idem _
  have err2 : 0 ≤ binary64 a + twoPiFl doubles → binary64 a < 0 → |binary64 (binary64 a + twoPiFl doubles) - (binary64 a + twoPiFl doubles)| ≤ 2 * 2 ^ (-52 : ℤ) := by
    intro hs0 hn
    have := binary64_err (x := binary64 a + twoPiFl doubles) (a := 2) (by norm_num) (by rw [abs_of_nonneg hs0]; norm_num; linarith [tp.1])
    have z : (2 : ℝ) ^ ((2 : ℤ) - 53) = 2 * 2 ^ (-52 : ℤ) := by norm_num
    rwa [z] at this
  have z1 : (2 : ℝ) ^ (-48 : ℤ) = 16 * 2 ^ (-52 : ℤ) := by norm_num
  have z2 : (2 : ℝ) ^ (-51 : ℤ) = 2 * 2 ^ (-52 : ℤ) := by norm_num
  have z3 : (0 : ℝ) < 2 ^ (-52 : ℤ) := by positivity
  have z4 : (2 : ℝ) ^ (-52 : ℤ) < 1 / 100 := by norm_num
  rw [z2] at tp
  rw [z1]
  clear z1 z2
  generalize (2 : ℝ) ^ (-52 : ℤ) = ε at *
  have err' := abs_le.1 err
  by_cases hn : binary64 a < 0
  · rw [if_pos hn]
    have hs0 : 0 ≤ binary64 a + twoPiFl doubles := by linarith [hmem.1, tp.2, err'.1]
    have hs1 : binary64 a + twoPiFl doubles ≤ twoPiFl doubles := by linarith
    have up := binary64_mono hs0 hs1
    rw [tidem] at up
    refine ⟨binary64_nonneg hs0, up, a + 2 * Real.pi, by simp, by simp, ?_⟩
    have err2 := abs_le.1 (err2 hs0 hn)
    rw [abs_le]
    constructor <;> linarith [err'.1, err'.2, err2.1, err2.2, tp.1, tp.2]
  · rw [if_neg hn]
    push Not at hn
    refine ⟨hn, ?_, a, rfl, rfl, by linarith⟩
    linarith [hmem.2, tp.2, err'.2]

/-- The angle in double precision is in the range [0, 2·np.pi] and is near to an angle of the pixel. -/
theorem imgThetaFl_near (s : List ℝ → ℝ) (h w i j : Nat) (hR : min w h ≤ 2 ^ 25) (hd : imgDist h w i j ≤ imgRadius h w) :
    0 ≤ imgThetaFl (psfDoubles s) h w i j ∧ imgThetaFl (psfDoubles s) h w i j ≤ twoPiFl doubles ∧
      ∃ t, Real.cos t = Real.cos (imgTheta h w i j) ∧ Real.sin t = Real.sin (imgTheta h w i j) ∧ |imgThetaFl (psfDoubles s) h w i j - t| ≤ 2 ^ (-48 : ℤ) := by
  have hm := (mask_exact s h w i j hR).2 hd
  obtain ⟨v, hv, v0, v1, t, tc, ts, te⟩ := wrapped_angle_near (((h / 2 : Nat) : ℝ) - i) ((j : ℝ) - ((w / 2 : Nat) : ℝ))
  have hcs : Real.cos (imgTheta h w i j) = Real.cos (arctan2 (((h / 2 : Nat) : ℝ) - i) ((j : ℝ) - ((w / 2 : Nat) : ℝ))) ∧
      Real.sin (imgTheta h w i j) = Real.sin (arctan2 (((h / 2 : Nat) : ℝ) - i) ((j : ℝ) - ((w / 2 : Nat) : ℝ))) := by
    unfold imgTheta
    rw [if_pos hd]
    dsimp only
    split_ifs
    · simp
    · exact ⟨rfl, rfl⟩
  have e : imgThetaFl (psfDoubles s) h w i j = v := by
    unfold imgThetaFl
    rw [if_pos hm, hv]
    rfl
  rw [e, hcs.1, hcs.2]
  exact ⟨v0, v1, t, tc, ts, te⟩

/-- The exact combination changes little with the radius and the angle. -/
theorem exactSum_near (l : List (ℝ × PolObj)) (hv : ∀ q ∈ l, ValidOrders q.2.m q.2.n) (h10 : ∀ q ∈ l, q.2.n ≤ 10) (x y : ℝ) (hx : 0 ≤ x ∧ x ≤ 1) (hy : 0 ≤ y ∧ y ≤ 1) (s t : ℝ) :
    |exactSum l x s - exactSum l y t| ≤ (300 * |x - y| + 50 * |s - t|) * coefficientSize l := by
  have h1 : |exactSum l x s - exactSum l y s| ≤ 300 * |x - y| * coefficientSize l := by
    unfold exactSum coefficientSize
    induction l with
    | nil => simp
    | cons q l ih =>
      simp only [List.map_cons, List.sum_cons]
      have i1 := ih (fun q hq => hv q (List.mem_cons_of_mem _ hq)) (fun q hq => h10 q (List.mem_cons_of_mem _ hq))
      have hq := hv q List.mem_cons_self
      have hn := (valid_iff q.2.m q.2.n).1 hq
      have hn10 := h10 q List.mem_cons_self
      have a := (zernike_R2_radial q.2.m q.2.n hq s).lipschitz hx hy
      have b := norm_le_five q.2.m q.2.n hn10 hn.1
      have b0 : 0 ≤ Spec.norm q.2.m q.2.n := Real.sqrt_nonneg _
      have c : rimSlope q.2.m q.2.n ≤ 60 := by
        unfold rimSlope
        have k1 : (q.2.n : ℝ) ≤ 10 := by exact_mod_cast hn10
        have k0 : (0 : ℝ) ≤ q.2.n := by exact_mod_cast hn.1
        nlinarith [sq_nonneg (q.2.m : ℝ)]
      have c0 : 0 ≤ rimSlope q.2.m q.2.n := by
        unfold rimSlope
        have k0 : (0 : ℝ) ≤ q.2.n := by exact_mod_cast hn.1
        have k1 : |(q.2.m : ℝ)| ≤ q.2.n := by have := hq.2.1; exact_mod_cast this
        have : (q.2.m : ℝ) ^ 2 ≤ (q.2.n : ℝ) ^ 2 := by rw [← sq_abs]; exact pow_le_pow_left₀ (abs_nonneg _) k1 2
        nlinarith
      have d : Spec.norm q.2.m q.2.n * rimSlope q.2.m q.2.n * |x - y| ≤ 5 * 60 * |x - y| :=
        mul_le_mul_of_nonneg_right (mul_le_mul b c c0 (by norm_num)) (abs_nonneg _)
      have e : |q.1 * zernike q.2.m q.2.n x s - q.1 * zernike q.2.m q.2.n y s| ≤ 300 * |x - y| * max |q.1| (2⁻¹ ^ 1022) := by
        rw [← mul_sub, abs_mul]
        have f : |q.1| * |zernike q.2.m q.2.n x s - zernike q.2.m q.2.n y s| ≤ max |q.1| (2⁻¹ ^ 1022) * (5 * 60 * |x - y|) :=
          mul_le_mul (le_max_left _ _) (a.trans d) (abs_nonneg _) ((abs_nonneg _).trans (le_max_left _ _))
        linarith
      generalize max |q.1| (2⁻¹ ^ 1022) = M at *
      generalize (l.map fun q => max |q.1| (2⁻¹ ^ 1022)).sum = W at *
      calc _ = |(q.1 * zernike q.2.m q.2.n x s - q.1 * zernike q.2.m q.2.n y s) + ((l.map fun q => q.1 * zernike q.2.m q.2.n x s).sum - (l.map fun q => q.1 * zernike q.2.m q.2.n y s).sum)| := by
            congr 1; ring
        _ ≤ _ := (abs_add_le _ _).trans (by linarith)
  have h2 := exactSum_angle l hv h10 y hy.1 hy.2 s t
  have := abs_sub_le (exactSum l x s) (exactSum l y s) (exactSum l y t)
  linarith

/-- At the same point of the disk the exact combination has one value. -/
theorem exactSum_point (l : List (ℝ × PolObj)) (hv : ∀ q ∈ l, ValidOrders q.2.m q.2.n) (r r' t t' : ℝ) (h0 : 0 ≤ r) (h0' : 0 ≤ r') (hx : r * Real.cos t = r' * Real.cos t')
    (hy : r * Real.sin t = r' * Real.sin t') : exactSum l r t = exactSum l r' t' := by
  unfold exactSum
  congr 1
  apply List.map_congr_left
  intro q hq
  rw [zernike_same_point _ _ (hv q hq) r t r' t' h0 h0' hx hy]

/-- What a pixel of an image in double precision must be: at most 3·10⁻⁸ times the sum of the absolute amplitudes away from the exact sum at the polar coordinates of
the pixel in the circle, and zero outside of the circle. -/
def PixelNear (height width i j : Nat) (l : List (ℝ × PolObj)) (v : ℝ) : Prop :=
  (∀ r t, GeneratorCoordinates height width (i, j) r t → |v - exactSum l r t| ≤ 3 / 10 ^ 8 * coefficientSize l) ∧
  ((1 + ((min width height / 2 : Nat) : ℝ)) ^ 2 < ((j : ℝ) - ((width / 2 : Nat) : ℝ)) ^ 2 + (((height / 2 : Nat) : ℝ) - (i : ℝ)) ^ 2 → v = 0)

theorem fltSumPoints_ret (F : PsfArith) (fuel : Nat) (c : ℝ) (o : PolObj) (l : List (ℝ × PolObj)) (h : Usable fuel ((c, o) :: l)) (ps : List (ℝ × ℝ)) :
    Ret (fltSumPoints F fuel ((c, o) :: l) ps) (ps.map fun p => restVal F fuel p.1 p.2 l (termVal F fuel c o p.1 p.2)) := by
  induction ps with
  | nil => exact ret_pure _
  | cons p ps ih =>
    unfold fltSumPoints
    exact (fltSumPoint_ret F fuel c o l h p.1 p.2).bind (ih.bind (ret_pure _))

theorem imageRowFl_ok (s : List ℝ → ℝ) (hs : Sums s) (fuel : Nat) (l : List (ℝ × PolObj)) (hne : l ≠ [])
    (hl : ∀ q ∈ l, ValidOrders q.2.m q.2.n ∧ q.2.n.toNat + 1 < fuel) (h10 : ∀ q ∈ l, q.2.n ≤ 10) (h66 : l.length ≤ 66) (h w : Nat) (hw : 0 < w) (hR : min w h ≤ 2 ^ 25) (i : Nat) :
    RetP (imageRowFl (psfDoubles s) fuel l h w i) fun row => ∀ j, j < w → PixelNear h w i j l (row j) := by
  have hV : ∀ q ∈ l, ValidOrders q.2.m q.2.n := fun q hq => (hl q hq).1
  have hW := coefficientSize_nonneg l
  obtain ⟨⟨c, o⟩, l', rfl⟩ := List.exists_cons_of_ne_nil hne
  unfold imageRowFl
  rw [if_neg]
  swap
  · rintro (h1 | ⟨j, -, h1⟩)
    · omega
    · obtain ⟨a, b, -⟩ := imgRFl_near s h w i j hR
      rcases h1 with h1 | h1 <;> linarith
  refine Ret.bindP (fltSumPoints_ret (psfDoubles s) fuel c o l' hl _) ?_
  refine retP_pure _ fun j hj => ?_
  refine ⟨?_, fun hd => ?_⟩
  · rintro r t ⟨-, -, r0, r1, hc, hsn⟩
    have hd : imgDist h w i j ≤ imgRadius h w := by
      rw [imgDist_le_iff, ← hc, ← hsn]
      generalize (1 + ((min w h / 2 : Nat) : ℝ)) = R
      have e : (R * r * Real.cos t) ^ 2 + (R * r * Real.sin t) ^ 2 = R ^ 2 * r ^ 2 * (Real.sin t ^ 2 + Real.cos t ^ 2) := by ring
      rw [e, Real.sin_sq_add_cos_sq, mul_one]
      exact mul_le_of_le_one_right (sq_nonneg _) (pow_le_one₀ r0 r1)
    obtain ⟨pc, ps⟩ := img_polar h w i j hd
    obtain ⟨m0, m1⟩ := imgR_mem h w i j
    obtain ⟨f0, f1, fe⟩ := imgRFl_near s h w i j hR
    obtain ⟨t0, t1, t', tc, ts, te⟩ := imgThetaFl_near s h w i j hR hd
    have hp := imgRadius_pos h w
    have hreq : imgRadius h w = 1 + ((min w h / 2 : Nat) : ℝ) := by unfold imgRadius; push_cast; rfl
    have same : exactSum ((c, o) :: l') r t = exactSum ((c, o) :: l') (imgR h w i j) t' := by
      apply exactSum_point _ hV _ _ _ _ r0 m0
      · rw [tc]
        have := hc.trans pc.symm
        rw [← hreq, mul_assoc, mul_assoc] at this
        exact mul_left_cancel₀ hp.ne' this
      · rw [ts]
        have := hsn.trans ps.symm
        rw [← hreq, mul_assoc, mul_assoc] at this
        exact mul_left_cancel₀ hp.ne' this
    have near := exactSum_near ((c, o) :: l') hV h10 (imgRFl (psfDoubles s) h w i j) (imgR h w i j) ⟨f0, f1⟩ ⟨m0, m1⟩ (imgThetaFl (psfDoubles s) h w i j) t'
    rw [if_neg (not_lt.2 ((mask_exact s h w i j hR).2 hd)), same]
    have tp : twoPiFl doubles ≤ 2 * Real.pi := twoPi_near.1
    obtain ⟨v, ev, hv, -⟩ := sum_double_error s hs [] fuel _ hne hl (imgRFl (psfDoubles s) h w i j) (imgThetaFl (psfDoubles s) h w i j) f0 f1
      (by rw [abs_of_nonneg t0]; linarith)
    have ev' := (fltSumPoint_ret (psfDoubles s) fuel c o l' hl (imgRFl (psfDoubles s) h w i j) (imgThetaFl (psfDoubles s) h w i j) _ (afterCalls_good [])).1
    rw [ev'] at ev
    have hv' := hv h10 h66
    rw [← Except.ok.inj ev] at hv'
    rw [List.getD_eq_getElem?_getD, List.map_map, List.getElem?_map, List.getElem?_range hj]
    have hv'' : |restVal (psfDoubles s) fuel (imgRFl (psfDoubles s) h w i j) (imgThetaFl (psfDoubles s) h w i j) l' (termVal (psfDoubles s) fuel c o (imgRFl (psfDoubles s) h w i j)
      (imgThetaFl (psfDoubles s) h w i j)) - exactSum ((c, o) :: l') (imgRFl (psfDoubles s) h w i j) (imgThetaFl (psfDoubles s) h w i j)| ≤ 2 / 10 ^ 8 * coefficientSize ((c, o) :: l') := hv'
    clear hv' hv
    simp only [Option.map_some, Option.getD_some, Function.comp_apply]
    have small : (300 * |imgRFl (psfDoubles s) h w i j - imgR h w i j| + 50 * |imgThetaFl (psfDoubles s) h w i j - t'|) ≤ 1 / 10 ^ 8 := by
      have z : (300 * 2⁻¹ ^ 52 + 50 * 2 ^ (-48 : ℤ) : ℝ) ≤ 1 / 10 ^ 8 := by norm_num
      refine le_trans ?_ z
      exact add_le_add (mul_le_mul_of_nonneg_left fe (by norm_num)) (mul_le_mul_of_nonneg_left te (by norm_num))
    have near' := near.trans (mul_le_mul_of_nonneg_right small hW)
    refine (abs_sub_le _ _ _).trans ((add_le_add hv'' near').trans (le_of_eq ?_))
    ring
  · rw [if_pos]
    rw [gt_iff_lt, ← not_le, mask_exact s h w i j hR, imgDist_le_iff]
    exact not_le.2 hd

theorem imageRowsFl_ok (s : List ℝ → ℝ) (hs : Sums s) (fuel : Nat) (l : List (ℝ × PolObj)) (hne : l ≠ [])
    (hl : ∀ q ∈ l, ValidOrders q.2.m q.2.n ∧ q.2.n.toNat + 1 < fuel) (h10 : ∀ q ∈ l, q.2.n ≤ 10) (h66 : l.length ≤ 66) (h w : Nat) (hw : 0 < w) (hR : min w h ≤ 2 ^ 25)
    (k i : Nat) (S : Grid) (hS : ∀ a, a < i → ∀ j, j < w → PixelNear h w a j l (S.entry a j)) :
    RetP (imageRowsFl (psfDoubles s) fuel l h w k i S) fun g => g.rows = S.rows ∧ g.cols = S.cols ∧ ∀ a, a < i + k → ∀ j, j < w → PixelNear h w a j l (g.entry a j) := by
  induction k generalizing i S with
  | zero => exact retP_pure _ ⟨rfl, rfl, by simpa using hS⟩
  | succ k ih =>
    refine RetP.bind (imageRowFl_ok s hs fuel l hne hl h10 h66 h w hw hR i) fun row hrow => ?_
    have := ih (i + 1) { S with entry := fun a b => if a = i then row b else S.entry a b } (by
      intro a ha j hj
      dsimp only
      split_ifs with he
      · subst he; exact hrow j hj
      · exact hS a (by omega) j hj)
    rw [show i + (k + 1) = i + 1 + k by omega]
    exact this

/-- C99. `generate_phases_image` in double precision, for every list of up to 66 polynomials up to the order 10 with any amplitudes, every width and height (the lesser
up to 2^25 pixels), after any calls: an image of the requested size, each pixel of the circle within 3·10⁻⁸ times the sum of the absolute amplitudes of the exact sum
at its polar coordinates, each pixel outside exactly zero (no pixel of the border is lost or added by rounding). -/
theorem phases_image_double (s : List ℝ → ℝ) (hs : Sums s) (h : List Call) (fuel : Nat) (l : List (ℝ × PolObj)) (hne : l ≠ [])
    (hl : ∀ q ∈ l, ValidOrders q.2.m q.2.n ∧ q.2.n.toNat + 1 < fuel) (h10 : ∀ q ∈ l, q.2.n ≤ 10) (h66 : l.length ≤ 66) (width height : Nat) (hw : 0 < width)
    (hR : min width height ≤ 2 ^ 25) :
    ∃ g, (generatePhasesImageFl (psfDoubles s) fuel l width height (afterCalls h)).1 = .ok g ∧ g.rows = height ∧ g.cols = width ∧
      ∀ i j, i < height → j < width → PixelNear height width i j l (g.entry i j) := by
  obtain ⟨⟨g, h1, h2, h3, h4⟩, _⟩ := imageRowsFl_ok s hs fuel l hne hl h10 h66 height width hw hR height 0 (Grid.zeros height width)
    (fun a ha => absurd ha (Nat.not_lt_zero a)) _ (afterCalls_good h)
  exact ⟨g, h1, h2, h3, fun i j hi hj => h4 i (by omega) j hj⟩

/-- C99. The image in double precision differs from the image in exact arithmetic by at most 3·10⁻⁸ times the sum of the absolute amplitudes at every pixel. -/
theorem phases_image_double_vs_exact (s : List ℝ → ℝ) (hs : Sums s) (h h' : List Call) (fuel : Nat) (l : List (ℝ × PolObj)) (hne : l ≠ [])
    (hl : ∀ q ∈ l, ValidOrders q.2.m q.2.n ∧ q.2.n.toNat + 1 < fuel) (h10 : ∀ q ∈ l, q.2.n ≤ 10) (h66 : l.length ≤ 66) (width height : Nat) (hw : 0 < width)
    (hR : min width height ≤ 2 ^ 25) :
    ∃ g x, (generatePhasesImageFl (psfDoubles s) fuel l width height (afterCalls h)).1 = .ok g ∧
      (generatePhasesImage fuel ((l.map Prod.snd).map .pol) (l.map Prod.fst) width height (afterCalls h')).1 = .ok x ∧
      ∀ i j, i < height → j < width → |g.entry i j - x.entry i j| ≤ 3 / 10 ^ 8 * coefficientSize l := by
  obtain ⟨g, hg, -, -, hpix⟩ := phases_image_double s hs h fuel l hne hl h10 h66 width height hw hR
  obtain ⟨x, hx, -, -, hpx⟩ := phases_image_correct h' fuel (l.map Prod.fst) (l.map Prod.snd) (by simp) (by simpa using hne)
    (by
      intro o ho
      obtain ⟨q, hq, rfl⟩ := List.mem_map.1 ho
      exact hl q hq) width height hw
  refine ⟨g, x, hg, hx, fun i j hi hj => ?_⟩
  obtain ⟨a, b⟩ := hpix i j hi hj
  obtain ⟨c, d⟩ := hpx i j hi hj
  by_cases hd : ((j : ℝ) - ((width / 2 : Nat) : ℝ)) ^ 2 + (((height / 2 : Nat) : ℝ) - (i : ℝ)) ^ 2 ≤ (1 + ((min width height / 2 : Nat) : ℝ)) ^ 2
  · obtain ⟨r, t, r0, r1, -, -, hc, hsn, hv⟩ := c hd
    have e : x.entry i j = exactSum l r t := by
      rw [hv, exactSum, combination, ordersOf]
      congr 1
      clear * -
      induction l with
      | nil => rfl
      | cons q l ih => simpa using ih
    rw [e]
    exact a r t ⟨hi, hj, r0, r1, hc, hsn⟩
  · push Not at hd
    rw [b hd, d hd, sub_zero, abs_zero]
    exact mul_nonneg (by norm_num) (coefficientSize_nonneg l)

/-- A tilt of the amplitude 0.5 on an image of 5 by 7 pixels: near 1/3 at the pixel to the right of the centre, zero in the corner. -/
example (h : List Call) : ∃ g, (generatePhasesImageFl (psfDoubles (sumFromLeft binary64)) 10 [(0.5, ⟨1, 1, false⟩)] 7 5 (afterCalls h)).1 = .ok g ∧
    |g.entry 2 4 - 1 / 3| ≤ 3 / 10 ^ 8 ∧ g.entry 0 0 = 0 := by
  obtain ⟨g, e, -, -, p⟩ := phases_image_double _ sumFromLeft_sums h 10 [(0.5, ⟨1, 1, false⟩)] (by simp) (by simp; decide) (by simp) (by simp) 7 5 (by norm_num) (by norm_num)
  refine ⟨g, e, ?_, (p 0 0 (by norm_num) (by norm_num)).2 (by norm_num)⟩
  have := (p 2 4 (by norm_num) (by norm_num)).1 (1 / 3) 0 (by unfold GeneratorCoordinates; norm_num)
  have e1 : exactSum [(0.5, ⟨1, 1, false⟩)] (1 / 3) 0 = 1 / 3 := by
    have h2 : Spec.norm 1 1 = 2 := by
      unfold Spec.norm
      rw [if_neg (by decide), show (2 * (((1 : Int) : ℝ) + 1)) = 2 ^ 2 by norm_num, Real.sqrt_sq (by norm_num)]
    unfold exactSum zernike
    simp only [List.map_cons, List.map_nil, List.sum_cons, List.sum_nil, h2]
    norm_num [Spec.radial, angular]
  rw [e1] at this
  refine this.trans ?_
  have hη1 : (2⁻¹ : ℝ) ^ 1022 ≤ 1 / 10 := by
    refine (pow_le_pow_of_le_one (by norm_num) (by norm_num) (show 4 ≤ 1022 by norm_num)).trans ?_
    norm_num
  unfold coefficientSize
  generalize (2⁻¹ : ℝ) ^ 1022 = η at *
  simp only [List.map_cons, List.map_nil, List.sum_cons, List.sum_nil]
  have e1 : max |(0.5 : ℝ)| η ≤ 0.5 := max_le (by norm_num) (by linarith)
  linarith

end Verif.Props
