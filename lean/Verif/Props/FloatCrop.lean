import Verif.Proofs.FloatCrop
import Verif.Props.FloatImages

/-!
# C100: cropping and fitting images in double precision
-/

namespace Verif.Props
open Verif.Model Verif.Spec Verif.Proofs

open Classical in
/-- What `crop_phases_img` returns in double precision: as in exact arithmetic (`CropSpec`), with tolerances for the rounding. -/
structure CropDouble (img : Grid) (crop : ℝ) (strict : Bool) (out : Cropped) : Prop where
  /-- the mask has the shape of the image and consists of 0 and 1 -/
  shape : out.mask.rows = img.rows ∧ out.mask.cols = img.cols
  binary : ∀ i j, out.mask.entry i j = 0 ∨ out.mask.entry i j = 1
  /-- a pixel of the circle of radius `crop`, or of the border around it, is selected -/
  takes : ∀ p ∈ allPixels img.rows img.cols,
    pixelDist img.rows img.cols p ≤ (crop + if LooseBorder img.rows img.cols strict then 0.0548 else 0.0008) * inscribedRadius img.rows img.cols →
    out.mask.entry p.1 p.2 = 1
  /-- nothing outside of it is selected, up to the tolerance of the border -/
  only : ∀ p, out.mask.entry p.1 p.2 = 1 → p ∈ allPixels img.rows img.cols ∧
    pixelDist img.rows img.cols p < (crop + if LooseBorder img.rows img.cols strict then 0.0552 else 0.0012) * inscribedRadius img.rows img.cols
  /-- the phases are the selected pixels of the image in row-major order, unchanged -/
  phases : out.phases = (selected out.mask).map fun p => img.entry p.1 p.2
  /-- the polar coordinates belong to the same pixels -/
  lengths : out.radii.length = (selected out.mask).length ∧ out.thetas.length = (selected out.mask).length
  /-- the angles are within 2^-48 of an angle of the pixel -/
  angles : ∀ (k : Nat) p t, (selected out.mask)[k]? = some p → out.thetas[k]? = some t → 0 ≤ t ∧ t ≤ 2 * Real.pi ∧
    ∃ t', |t - t'| ≤ 2 ^ (-48 : ℤ) ∧ pixelDist img.rows img.cols p * Real.cos t' = pixelX img.cols p ∧ pixelDist img.rows img.cols p * Real.sin t' = pixelY img.rows p
  /-- the radii are in `[0, 1]` (none exceeds 1 by rounding) and proportional to the distances, up to the rounding to 4 decimals -/
  radii_mem : ∀ x ∈ out.radii, 0 ≤ x ∧ x ≤ 1
  radii : ∃ kappa : ℝ, 1 ≤ kappa ∧ kappa ≤ (if LooseBorder img.rows img.cols strict then 1.0551 else 1.0011) ∧
    ∀ (k : Nat) p x, (selected out.mask)[k]? = some p → out.radii[k]? = some x →
    |x - pixelDist img.rows img.cols p / (inscribedRadius img.rows img.cols * kappa)| ≤ 0.00011 ∧ (pixelDist img.rows img.cols p = 0 → x = 0)
  nonempty : selected out.mask ≠ []

/-- The radius of a pixel before the rounding to 4 decimals. -/
theorem raw_near (s : List ℝ → ℝ) {D R : ℝ} (hD : 0 ≤ D) (hR : 1 ≤ R) :
    0 ≤ (psfDoubles s).fl ((psfDoubles s).sqrt D / R) ∧ |(psfDoubles s).fl ((psfDoubles s).sqrt D / R) - Real.sqrt D / R| ≤ 2⁻¹ ^ 51 * (Real.sqrt D / R + 1) := by
  show 0 ≤ binary64 (binary64 (Real.sqrt D) / R) ∧ |binary64 (binary64 (Real.sqrt D) / R) - Real.sqrt D / R| ≤ _
  have hx := Real.sqrt_nonneg D
  generalize Real.sqrt D = x at *
  have g2 := binary64_error x
  have hb := binary64_nonneg hx
  have hq0 : 0 ≤ binary64 x / R := div_nonneg hb (by linarith)
  have g1 := binary64_error (binary64 x / R)
  refine ⟨binary64_nonneg hq0, ?_⟩
  rw [abs_of_nonneg hx] at g2
  rw [abs_of_nonneg hq0] at g1
  have hq : 0 ≤ x / R := div_nonneg hx (by linarith)
  have g3 : |binary64 x / R - x / R| ≤ 2⁻¹ ^ 53 * (x / R + 1) := by
    rw [← sub_div, abs_div, abs_of_pos (by linarith : 0 < R), div_le_iff₀ (by linarith)]
    refine g2.trans ?_
    rw [mul_assoc]
    refine mul_le_mul_of_nonneg_left ?_ (by positivity)
    rw [add_mul, div_mul_cancel₀ x (by linarith : R ≠ 0)]
    exact max_le (by linarith) (by linarith)
  have g4 : max (binary64 x / R) 1 ≤ 2 * (x / R + 1) := by
    have := (abs_le.1 g3).2
    have z : (2⁻¹ : ℝ) ^ 53 * (x / R + 1) ≤ 1 * (x / R + 1) := mul_le_mul_of_nonneg_right (by norm_num) (by linarith)
    exact max_le (by linarith) (by linarith)
  have g5 := g1.trans (mul_le_mul_of_nonneg_left g4 (by positivity))
  have := abs_sub_le (binary64 (binary64 x / R)) (binary64 x / R) (x / R)
  have z : (2⁻¹ : ℝ) ^ 51 = 2⁻¹ ^ 53 * 4 := by norm_num
  rw [z]
  have : 0 ≤ (2⁻¹ : ℝ) ^ 53 * (x / R + 1) := by positivity
  generalize (2⁻¹ : ℝ) ^ 53 = ε at *
  linarith

theorem pixRadiusFl_nonneg (s : List ℝ → ℝ) (rows cols i j : Nat) (h : 3 ≤ min rows cols) : 0 ≤ pixRadiusFl (psfDoubles s) rows cols i j := by
  unfold pixRadiusFl
  refine fltRound4_nonneg s (raw_near s ?_ (cropR_pos rows cols h)).1
  exact binary64_nonneg (add_nonneg (binary64_nonneg (sq_nonneg _)) (binary64_nonneg (sq_nonneg _)))

/-- The radius of a pixel: within half a unit of the 4th decimal, up to the rounding (which grows with the radius). -/
theorem pixRadiusFl_near (s : List ℝ → ℝ) (rows cols : Nat) (h : 3 ≤ min rows cols) (hrs : rows ≤ 2 ^ 25) (hcs : cols ≤ 2 ^ 25) (p : Nat × Nat) (hp : p ∈ pixels rows cols) :
    |pixRadiusFl (psfDoubles s) rows cols p.1 p.2 - pixelDist rows cols p / inscribedRadius rows cols| ≤
      0.00005 + 1 / 10 ^ 14 * (pixelDist rows cols p / inscribedRadius rows cols + 1) := by
  have hp' := (mem_pixels rows cols p).1 hp
  unfold pixRadiusFl
  rw [pixSquare_exact s rows cols p.1 p.2 h hrs hcs hp'.1 hp'.2]
  obtain ⟨a0, a⟩ := raw_near s (D := ((p.1 : ℝ) - halfSize rows) ^ 2 + ((p.2 : ℝ) - halfSize cols) ^ 2) (by positivity) (cropR_pos rows cols h)
  rw [halfSize_pixel rows cols h, cropR_spec rows cols h] at a
  rw [cropR_spec rows cols h] at a0 ⊢
  have hq : 0 ≤ pixelDist rows cols p / inscribedRadius rows cols := by
    have := cropR_pos rows cols h
    rw [cropR_spec rows cols h] at this
    exact div_nonneg (Real.sqrt_nonneg _) (by linarith)
  generalize (psfDoubles s).fl ((psfDoubles s).sqrt (((p.1 : ℝ) - halfSize rows) ^ 2 + ((p.2 : ℝ) - halfSize cols) ^ 2) / inscribedRadius rows cols) = y at *
  generalize pixelDist rows cols p / inscribedRadius rows cols = q at *
  have b := fltRound4_near s y
  rw [abs_of_nonneg a0] at b
  have c := abs_sub_le (fltRound (psfDoubles s) 4 y) y q
  have d := (abs_le.1 a).2
  have z1 : (2⁻¹ : ℝ) ^ 51 * (q + 1) ≤ 1 / 10 ^ 15 * (q + 1) := mul_le_mul_of_nonneg_right (by norm_num) (by linarith)
  have z2 : (2⁻¹ : ℝ) ^ 53 * (3 * y + 4) ≤ 1.2 / 10 ^ 16 * (3 * y + 4) := mul_le_mul_of_nonneg_right (by norm_num) (by linarith)
  generalize (2⁻¹ : ℝ) ^ 51 * (q + 1) = A at *
  generalize (2⁻¹ : ℝ) ^ 53 * (3 * y + 4) = B at *
  norm_num at *
  linarith

theorem pixThetaFl_spec (s : List ℝ → ℝ) (rows cols : Nat) (h : 3 ≤ min rows cols) (hrs : rows ≤ 2 ^ 25) (hcs : cols ≤ 2 ^ 25) (p : Nat × Nat) (hp : p ∈ pixels rows cols) :
    0 ≤ pixThetaFl (psfDoubles s) rows cols p.1 p.2 ∧ pixThetaFl (psfDoubles s) rows cols p.1 p.2 ≤ 2 * Real.pi ∧
      ∃ t, |pixThetaFl (psfDoubles s) rows cols p.1 p.2 - t| ≤ 2 ^ (-48 : ℤ) ∧ pixelDist rows cols p * Real.cos t = pixelX cols p ∧ pixelDist rows cols p * Real.sin t = pixelY rows p := by
  obtain ⟨v, hv, v0, v1, t, tc, ts, te⟩ := wrapped_angle_near (halfSize rows - p.1) (p.2 - halfSize cols)
  have hp' := (mem_pixels rows cols p).1 hp
  have e : pixThetaFl (psfDoubles s) rows cols p.1 p.2 = v := by
    unfold pixThetaFl
    rw [show (psfDoubles s).fl (halfSize rows - p.1) = halfSize rows - p.1 from (pixDiff_exact rows p.1 (by omega) hp'.1 hrs).2,
      show (psfDoubles s).fl ((p.2 : ℝ) - halfSize cols) = (p.2 : ℝ) - halfSize cols from (pixDiff_exact cols p.2 (by omega) hp'.2 hcs).1, hv]
    rfl
  obtain ⟨hc, hs⟩ := pixTheta_spec rows cols h p
  have hcs : Real.cos (pixTheta rows cols p.1 p.2) = Real.cos (arctan2 (halfSize rows - p.1) (p.2 - halfSize cols)) ∧
      Real.sin (pixTheta rows cols p.1 p.2) = Real.sin (arctan2 (halfSize rows - p.1) (p.2 - halfSize cols)) := by
    unfold pixTheta
    dsimp only
    split_ifs
    · simp
    · exact ⟨rfl, rfl⟩
  rw [e]
  refine ⟨v0, v1.trans twoPi_near.1, t, te, ?_, ?_⟩
  · rw [tc, ← hcs.1, hc]
  · rw [ts, ← hcs.2, hs]

theorem div_round_mem_double (s : List ℝ → ℝ) (c x : ℝ) (hc : 1 ≤ c) (h0 : 0 ≤ x) (hx : x ≤ c) :
    0 ≤ fltRound (psfDoubles s) 4 ((psfDoubles s).fl (x / c)) ∧ fltRound (psfDoubles s) 4 ((psfDoubles s).fl (x / c)) ≤ 1 := by
  have h1 : 0 ≤ x / c := by positivity
  have h2 : x / c ≤ 1 := (div_le_one (by linarith)).2 hx
  have b1 : binary64 1 = 1 := by have := binary64_nat 1 (by norm_num); simpa using this
  have h3 := binary64_mono h1 h2
  rw [b1] at h3
  have := fltRound4_unit s (binary64_nonneg h1) h3
  exact ⟨this.1, this.2.1⟩

theorem div_round_near_double (s : List ℝ → ℝ) (c x d : ℝ) (hc : 1 ≤ c) (h0 : 0 ≤ x) (hx : x ≤ c) (h : |x - d| ≤ 0.000051) :
    |fltRound (psfDoubles s) 4 ((psfDoubles s).fl (x / c)) - d / c| ≤ 0.00011 := by
  have q0 : 0 ≤ x / c := by positivity
  have q1 : x / c ≤ 1 := (div_le_one (by linarith)).2 hx
  have e1 := binary64_error (x / c)
  rw [abs_of_nonneg q0, max_eq_right q1, mul_one] at e1
  have e1' : |binary64 (x / c) - x / c| ≤ 1 / 10 ^ 10 := e1.trans (by norm_num)
  have b1 : binary64 1 = 1 := by have := binary64_nat 1 (by norm_num); simpa using this
  have u0 := binary64_nonneg q0
  have u1 := binary64_mono q0 q1
  rw [b1] at u1
  have e2 := fltRound4_near s (binary64 (x / c))
  rw [abs_of_nonneg u0] at e2
  have e2' : |fltRound (psfDoubles s) 4 (binary64 (x / c)) - binary64 (x / c)| ≤ 0.00005 + 1 / 10 ^ 10 := by
    refine e2.trans (add_le_add_right ?_ _)
    calc (2⁻¹ : ℝ) ^ 53 * (3 * binary64 (x / c) + 4) ≤ 2⁻¹ ^ 53 * 7 := mul_le_mul_of_nonneg_left (by linarith) (by positivity)
      _ ≤ _ := by norm_num
  have h2 : |x / c - d / c| ≤ 0.000051 := by
    rw [← sub_div, abs_div, abs_of_pos (by linarith : (0 : ℝ) < c), div_le_iff₀ (by linarith)]
    have := abs_nonneg (x - d)
    norm_num at h ⊢; nlinarith
  show |fltRound (psfDoubles s) 4 (binary64 (x / c)) - d / c| ≤ _
  clear e1 e2
  have t1 := abs_sub_le (fltRound (psfDoubles s) 4 (binary64 (x / c))) (binary64 (x / c)) (d / c)
  have t2 := abs_sub_le (binary64 (x / c)) (x / c) (d / c)
  norm_num at *
  linarith

/-- C100. `crop_phases_img` in double precision, for every image of 3 by 3 to 2^25 by 2^25 pixels, every crop radius in `[0.5, 1]` and both border modes. -/
theorem crop_double (s : List ℝ → ℝ) (img : Grid) (crop : ℝ) (strict : Bool) (hsize : 3 ≤ min img.rows img.cols) (hrs : img.rows ≤ 2 ^ 25) (hcs : img.cols ≤ 2 ^ 25)
    (hlo : 0.5 ≤ crop) (hhi : crop ≤ 1) :
    ∃ out, cropPhasesImgFl (psfDoubles s) (.img img) crop strict = .ok out ∧ CropDouble img crop strict out := by
  classical
  obtain ⟨-, c1, c0⟩ := fltRound4_unit s (x := crop) (by norm_num at *; linarith) hhi
  replace c0 := c0 (by norm_num at *; linarith)
  have hcn : |fltRound (psfDoubles s) 4 crop - crop| ≤ 0.0000501 := by
    refine (fltRound4_near s crop).trans ?_
    rw [abs_of_nonneg (by norm_num at *; linarith)]
    calc _ ≤ (0.00005 : ℝ) + 2⁻¹ ^ 53 * 7 := add_le_add_right (mul_le_mul_of_nonneg_left (by linarith) (by positivity)) _
      _ ≤ _ := by norm_num
  obtain ⟨c, hc⟩ : ∃ c, c = fltRound (psfDoubles s) 4 crop := ⟨_, rfl⟩
  rw [← hc] at c0 c1 hcn
  have hel : LooseBorder img.rows img.cols strict → cropEps img.rows img.cols strict = 0.055 := crop_eps_loose
  have het : ¬ LooseBorder img.rows img.cols strict → cropEps img.rows img.cols strict = 0.001 := crop_eps_tight
  obtain ⟨eps, heps⟩ : ∃ eps, eps = cropEps img.rows img.cols strict := ⟨_, rfl⟩
  rw [← heps] at hel het
  have he1 : 0.001 ≤ eps ∧ eps ≤ 0.055 := by
    by_cases hb : LooseBorder img.rows img.cols strict
    · rw [hel hb]; norm_num
    · rw [het hb]; norm_num
  have inv := cropInvFl_loop (psfDoubles s) img c (binary64 eps) strict
  obtain ⟨S, hS⟩ : ∃ S, S = cropLoopFl (psfDoubles s) img c (binary64 eps) strict := ⟨_, rfl⟩
  rw [← hS] at inv
  obtain ⟨L, hL⟩ : ∃ L, L = (pixels img.rows img.cols).filter (TakenFl (psfDoubles s) img c (binary64 eps)) := ⟨_, rfl⟩
  have hR : 1 ≤ inscribedRadius img.rows img.cols := by rw [← cropR_spec _ _ hsize]; exact cropR_pos _ _ hsize
  have hdq : ∀ p, 0 ≤ pixelDist img.rows img.cols p / inscribedRadius img.rows img.cols := fun p => div_nonneg (Real.sqrt_nonneg _) (by linarith)
  -- the selected pixels
  have hsel : selected S.mask = L := by
    unfold selected
    rw [inv.rows, inv.cols, hL]
    apply List.filter_congr
    intro p hp
    rw [inv.mask p.1 p.2]
    by_cases ht : TakenFl (psfDoubles s) img c (binary64 eps) p
    · simp [ht, show p ∈ pixels img.rows img.cols from hp]
    · simp [ht]
  -- a pixel near enough is taken
  have htake : ∀ p ∈ pixels img.rows img.cols, pixelDist img.rows img.cols p / inscribedRadius img.rows img.cols ≤ c + eps - 0.0000511 → TakenFl (psfDoubles s) img c (binary64 eps) p := by
    intro p hpx hp
    have h1 := abs_le.1 (pixRadiusFl_near s img.rows img.cols hsize hrs hcs p hpx)
    have h2 := pixRadiusFl_nonneg s img.rows img.cols p.1 p.2 hsize
    have h3 := hdq p
    generalize pixelDist img.rows img.cols p / inscribedRadius img.rows img.cols = q at *
    refine lt_of_below (by norm_num at *; linarith [he1.1]) (by norm_num at *; linarith [he1.2]) (by linarith) ?_
    norm_num at *
    linarith [h1.2, he1.2]
  have hnot : ∀ p, TakenFl (psfDoubles s) img c (binary64 eps) p → pixRadiusFl (psfDoubles s) img.rows img.cols p.1 p.2 ≤ c + eps + 1 / 10 ^ 9 := by
    intro p hp
    have := below_of (z := pixRadiusFl (psfDoubles s) img.rows img.cols p.1 p.2 - c) (e := eps) (by norm_num at *; linarith [he1.1]) (by norm_num at *; linarith [he1.2]) (le_of_lt hp)
    linarith
  have hnear : ∀ p ∈ pixels img.rows img.cols, pixRadiusFl (psfDoubles s) img.rows img.cols p.1 p.2 ≤ 1.06 →
      |pixRadiusFl (psfDoubles s) img.rows img.cols p.1 p.2 - pixelDist img.rows img.cols p / inscribedRadius img.rows img.cols| ≤ 0.0000501 := by
    intro p hpx hp
    have h1 := pixRadiusFl_near s img.rows img.cols hsize hrs hcs p hpx
    have h3 := hdq p
    generalize pixelDist img.rows img.cols p / inscribedRadius img.rows img.cols = q at *
    generalize pixRadiusFl (psfDoubles s) img.rows img.cols p.1 p.2 = x at *
    have h1' := abs_le.1 h1
    refine h1.trans ?_
    norm_num at *
    linarith [h1'.1]
  have hLne : L ≠ [] := by
    have hm : ((img.rows - 1) / 2, (img.cols - 1) / 2) ∈ L := by
      rw [hL, List.mem_filter, mem_pixels]
      refine ⟨⟨?_, ?_⟩, ?_⟩
      · dsimp only; omega
      · dsimp only; omega
      · simp only [decide_eq_true_eq]
        apply htake
        · rw [mem_pixels]; dsimp only; omega
        have h1 := centre_near img.rows img.cols hsize
        have h2 := abs_le.1 (pixRadius_near img.rows img.cols hsize ((img.rows - 1) / 2, (img.cols - 1) / 2))
        dsimp only at h2
        norm_num at *
        linarith [h2.1, he1.1]
    exact List.ne_nil_of_mem hm
  have hrne : S.radii ≠ [] := by
    rw [inv.radii, ← hL]
    exact fun h => hLne (List.map_eq_nil_iff.1 h)
  have htak : ∀ p ∈ L, TakenFl (psfDoubles s) img c (binary64 eps) p := by
    intro p hp
    rw [hL] at hp
    exact of_decide_eq_true (List.mem_filter.1 hp).2
  have hr0 : ∀ x ∈ S.radii, 0 ≤ x ∧ x ≤ c + eps + 1 / 10 ^ 9 := by
    intro x hx
    rw [inv.radii, ← hL] at hx
    obtain ⟨p, hp, rfl⟩ := List.mem_map.1 hx
    exact ⟨pixRadiusFl_nonneg _ _ _ _ _ hsize, hnot p (htak p hp)⟩
  have hbey : ∀ x, ¬ Beyond (psfDoubles s) c x → x ≤ c + 0.001 + 1 / 10 ^ 9 := by
    intro x hx
    have := below_of (z := x - c) (e := 0.001) (by norm_num) (by norm_num) (not_lt.1 hx)
    linarith
  have hbey' : ∀ x y, 0 ≤ y → ¬ Beyond (psfDoubles s) c x → Beyond (psfDoubles s) c y → x ≤ y := by
    intro x y hy0 hx hy
    by_contra hxy
    push Not at hxy
    have h1 : 0 ≤ y - c := by
      by_contra hneg
      push Not at hneg
      have : binary64 (y - c) < binary64 0.001 := lt_of_below (by norm_num) (by norm_num) (by linarith) (by norm_num; linarith)
      exact absurd hy (not_lt.2 this.le)
    exact hx (lt_of_lt_of_le hy (binary64_mono h1 (by linarith)))
  -- the radii: three cases
  have main : ∃ (kappa : ℝ) (f : ℝ → ℝ), 1 ≤ kappa ∧ kappa ≤ (if LooseBorder img.rows img.cols strict then 1.0551 else 1.0011) ∧ cropPhasesImgFl (psfDoubles s) (.img img) crop strict =
      .ok ⟨S.mask, S.phases, S.radii.map f, S.thetas⟩ ∧ (∀ x ∈ S.radii, 0 ≤ f x ∧ f x ≤ 1) ∧
      f 0 = 0 ∧ ∀ x ∈ S.radii, ∀ d, |x - d| ≤ 0.000051 → |f x - d / kappa| ≤ 0.00011 := by
    have r0 : ∀ k : ℝ, fltRound (psfDoubles s) 4 ((psfDoubles s).fl (0 / k)) = 0 := by
      intro k
      show fltRound (psfDoubles s) 4 (binary64 (0 / k)) = 0
      rw [zero_div, binary64_zero, fltRound4_zero]
    have hunf : cropPhasesImgFl (psfDoubles s) (.img img) crop strict =
        match npMax (if S.recalibrate then S.radii.map (fun x => fltRound (psfDoubles s) 4 ((psfDoubles s).fl (x / S.coeff))) else S.radii) with
        | .error e => .error e
        | .ok top => .ok ⟨S.mask, S.phases, if 1 < top ∧ top < (psfDoubles s).fl 1.002 then
            (if S.recalibrate then S.radii.map (fun x => fltRound (psfDoubles s) 4 ((psfDoubles s).fl (x / S.coeff))) else S.radii).map (fun x => fltRound (psfDoubles s) 4 ((psfDoubles s).fl (x / top)))
            else (if S.recalibrate then S.radii.map (fun x => fltRound (psfDoubles s) 4 ((psfDoubles s).fl (x / S.coeff))) else S.radii), S.thetas⟩ := by
      unfold cropPhasesImgFl
      dsimp only
      rw [← hc, if_neg (by push Not; exact ⟨by norm_num at *; linarith, c1⟩), if_neg (by split_ifs <;> omega), ← heps]
      rw [show (psfDoubles s).fl eps = binary64 eps from rfl, ← hS]
      rfl
    cases hrec : S.recalibrate with
    | true =>
      rw [hrec] at hunf
      simp only [if_true] at hunf
      have hstr : strict = false := by
        cases hst : strict with
        | false => rfl
        | true => have := inv.strict_norecal hst; rw [hrec] at this; cases this
      obtain ⟨y, hy, hy1, hy2⟩ := inv.recal hrec
      have hle : ∀ x ∈ S.radii, x ≤ S.coeff := by
        intro x hx
        by_cases hx1 : Beyond (psfDoubles s) c x
        · exact inv.le_coeff x hx hstr hx1
        · exact (hbey' x y (hr0 y hy).1 hx1 hy1).trans hy2
      have hb : LooseBorder img.rows img.cols strict := by
        by_contra hb
        rw [inv.radii, ← hL] at hy
        obtain ⟨p, hp, rfl⟩ := List.mem_map.1 hy
        have h1 := htak p hp
        rw [het hb] at h1
        exact absurd hy1 (not_lt.2 (le_of_lt h1))
      have hcm : S.coeff ≤ 1.0551 := by
        rcases inv.coeff_of with h | h
        · rw [h]; norm_num
        · have := (hr0 _ h).2
          rw [hel hb] at this
          norm_num at *; linarith
      have hmem : ∀ x ∈ S.radii, 0 ≤ fltRound (psfDoubles s) 4 ((psfDoubles s).fl (x / S.coeff)) ∧ fltRound (psfDoubles s) 4 ((psfDoubles s).fl (x / S.coeff)) ≤ 1 := fun x hx =>
        div_round_mem_double s S.coeff x inv.one_le (hr0 x hx).1 (hle x hx)
      obtain ⟨top, ht1, ht2, ht3⟩ := npMax_spec (S.radii.map (fun x => fltRound (psfDoubles s) 4 ((psfDoubles s).fl (x / S.coeff)))) (by simpa using hrne)
      refine ⟨S.coeff, fun x => fltRound (psfDoubles s) 4 ((psfDoubles s).fl (x / S.coeff)), inv.one_le, by rw [if_pos hb]; exact hcm, ?_, hmem, r0 _,
        fun x hx d h => div_round_near_double s _ _ _ inv.one_le (hr0 x hx).1 (hle x hx) h⟩
      rw [hunf, ht1]
      dsimp only
      rw [if_neg]
      rintro ⟨h1, _⟩
      obtain ⟨x, hx, rfl⟩ := List.mem_map.1 ht2
      linarith [(hmem x hx).2]
    | false =>
      rw [hrec] at hunf
      simp only [Bool.false_eq_true, if_false] at hunf
      obtain ⟨top, ht1, ht2, ht3⟩ := npMax_spec S.radii hrne
      have htop : top ≤ 1.0011 := by
        cases hst : strict with
        | false => have := hbey top (inv.norecal hrec top ht2 hst); norm_num at *; linarith
        | true =>
          have := (hr0 top ht2).2
          rw [het (fun hb => by rw [hst] at hb; cases hb.1)] at this
          norm_num at *; linarith
      have hk : ∀ v : ℝ, v ≤ 1.0011 → v ≤ (if LooseBorder img.rows img.cols strict then 1.0551 else 1.0011) := by
        intro v hv
        split_ifs
        · norm_num at *; linarith
        · exact hv
      rw [ht1] at hunf
      dsimp only at hunf
      have htop2 : top < (psfDoubles s).fl 1.002 := by
        show top < binary64 1.002
        have h3 := binary64_err (x := 1.002) (a := 0) (by norm_num) (by norm_num [abs_lt])
        have z1 : (2 : ℝ) ^ ((0 : ℤ) - 53) ≤ 1 / 10 ^ 12 := by norm_num
        have h3' := abs_le.1 (h3.trans z1)
        clear z1 h3
        norm_num at *
        linarith [h3'.1]
      by_cases h1 : 1 < top
      · rw [if_pos ⟨h1, htop2⟩] at hunf
        exact ⟨top, fun x => fltRound (psfDoubles s) 4 ((psfDoubles s).fl (x / top)), h1.le, hk _ htop, hunf,
          fun x hx => div_round_mem_double s top x h1.le (hr0 x hx).1 (ht3 x hx), r0 _,
          fun x hx d h => div_round_near_double s _ _ _ h1.le (hr0 x hx).1 (ht3 x hx) h⟩
      · rw [if_neg (fun h => h1 h.1)] at hunf
        refine ⟨1, id, le_rfl, hk 1 (by norm_num), by simpa using hunf, fun x hx => ⟨(hr0 x hx).1, ?_⟩, rfl, fun x hx d h => ?_⟩
        · have := ht3 x hx; simp only [id]; linarith
        · simp only [id, div_one]; norm_num at *; linarith
  obtain ⟨kappa, f, hk1, hk2, heq, hmem, hf0, hfn⟩ := main
  have hget : ∀ {β : Type} (g : Nat × Nat → β) (k : Nat) (p : Nat × Nat) (y : β), L[k]? = some p → (L.map g)[k]? = some y →
      y = g p := by
    intro β g k p y h1 h2
    rw [List.getElem?_map, h1] at h2
    simpa using h2.symm
  refine ⟨_, heq, ?_⟩
  constructor
  · exact ⟨inv.rows, inv.cols⟩
  · intro i j
    dsimp only
    rw [inv.mask i j]
    by_cases h : (i, j) ∈ pixels img.rows img.cols ∧ TakenFl (psfDoubles s) img c (binary64 eps) (i, j)
    · right; simp [h]
    · left; simp [h]
  · intro p hp hd
    dsimp only
    have : TakenFl (psfDoubles s) img c (binary64 eps) p := by
      have h2 : pixelDist img.rows img.cols p / inscribedRadius img.rows img.cols ≤
          crop + if LooseBorder img.rows img.cols strict then 0.0548 else 0.0008 := by
        rw [div_le_iff₀ (by linarith)]; exact hd
      apply htake p hp
      rw [abs_le] at hcn
      by_cases hb : LooseBorder img.rows img.cols strict
      · rw [if_pos hb] at h2
        rw [hel hb]
        norm_num at *; linarith [hcn.1]
      · rw [if_neg hb] at h2
        rw [het hb]
        norm_num at *; linarith [hcn.1]
    rw [inv.mask p.1 p.2]
    simp [this, show p ∈ pixels img.rows img.cols from hp]
  · intro p hp
    dsimp only at hp
    rw [inv.mask p.1 p.2] at hp
    have hp : p ∈ pixels img.rows img.cols ∧ TakenFl (psfDoubles s) img c (binary64 eps) p := by
      by_contra h
      simp [h] at hp
    refine ⟨hp.1, ?_⟩
    have h2 := hnot p hp.2
    have h1 := hnear p hp.1 (by norm_num at *; linarith [he1.2])
    rw [← div_lt_iff₀ (by linarith)]
    rw [abs_le] at h1 hcn
    by_cases hb : LooseBorder img.rows img.cols strict
    · rw [if_pos hb]
      rw [hel hb] at h2
      norm_num at *; linarith [h1.1, hcn.2]
    · rw [if_neg hb]
      rw [het hb] at h2
      norm_num at *; linarith [h1.1, hcn.2]
  · dsimp only; rw [hsel, hL]; exact inv.phases
  · dsimp only; rw [hsel, List.length_map, inv.radii, inv.thetas]; simp [← hL]
  · intro k p t hp ht
    dsimp only at hp ht
    rw [hsel] at hp
    rw [inv.thetas, ← hL] at ht
    have := hget _ k p t hp ht
    subst this
    have hpL : p ∈ L := List.mem_of_getElem? hp
    rw [hL] at hpL
    exact pixThetaFl_spec s img.rows img.cols hsize hrs hcs p (List.mem_filter.1 hpL).1
  · intro x hx
    obtain ⟨y, hy, rfl⟩ := List.mem_map.1 hx
    exact hmem y hy
  · refine ⟨kappa, hk1, hk2, fun k p x hp hx => ?_⟩
    dsimp only at hp hx
    rw [hsel] at hp
    rw [inv.radii, List.map_map, ← hL] at hx
    have := hget _ k p x hp hx
    subst this
    rw [← div_div]
    have hpL : p ∈ L := List.mem_of_getElem? hp
    have hpx : p ∈ pixels img.rows img.cols := by rw [hL] at hpL; exact (List.mem_filter.1 hpL).1
    have hin : pixRadiusFl (psfDoubles s) img.rows img.cols p.1 p.2 ∈ S.radii := by
      rw [inv.radii, ← hL]; exact List.mem_map.2 ⟨p, hpL, rfl⟩
    have h2 := (hr0 _ hin).2
    refine ⟨hfn _ hin _ ((hnear p hpx (by norm_num at *; linarith [he1.2])).trans (by norm_num)), fun hd => ?_⟩
    have : pixRadiusFl (psfDoubles s) img.rows img.cols p.1 p.2 = 0 := by
      unfold pixRadiusFl
      have hp' := (mem_pixels _ _ p).1 hpx
      have e : (psfDoubles s).sqrt (pixSquareFl (psfDoubles s) img.rows img.cols p.1 p.2) = 0 := by
        rw [pixSquare_exact s _ _ p.1 p.2 hsize hrs hcs hp'.1 hp'.2]
        show binary64 (Real.sqrt _) = 0
        rw [halfSize_pixel img.rows img.cols hsize, hd, binary64_zero]
      rw [e]
      show fltRound (psfDoubles s) 4 (binary64 (0 / _)) = 0
      rw [zero_div, binary64_zero, fltRound4_zero]
    simp only [Function.comp]
    rw [this, hf0]
  · dsimp only; rw [hsel]; exact hLne

/-- C100. As in exact arithmetic, everything else is a `ValueError`: crop radii out of range (beyond the rounding), small images, other objects. -/
theorem crop_double_rejects (s : List ℝ → ℝ) (image : ImgArg) (crop : ℝ) (strict : Bool) :
    (crop < 0.4999 ∨ 1.0001 < crop → cropPhasesImgFl (psfDoubles s) image crop strict = .error .valueError) ∧
    (∀ g, image = .img g → min g.rows g.cols < 3 → cropPhasesImgFl (psfDoubles s) image crop strict = .error .valueError) ∧
    ((∀ g, image ≠ .img g) → cropPhasesImgFl (psfDoubles s) image crop strict = .error .valueError) := by
  refine ⟨fun h => ?_, ?_, fun h => ?_⟩
  · unfold cropPhasesImgFl
    dsimp only
    rw [if_pos]
    rintro ⟨h1, h2⟩
    have hcn := abs_le.1 (fltRound4_near s crop)
    have z : (2⁻¹ : ℝ) ^ 53 * (3 * |crop| + 4) ≤ 1 / 10 ^ 9 * (3 * |crop| + 4) := mul_le_mul_of_nonneg_right (by norm_num) (by positivity)
    generalize (2⁻¹ : ℝ) ^ 53 * (3 * |crop| + 4) = B at *
    generalize fltRound (psfDoubles s) 4 crop = c at *
    rcases h with h | h
    · rcases abs_cases crop with ⟨e, -⟩ | ⟨e, -⟩ <;> rw [e] at z <;> norm_num at * <;> linarith [hcn.1, hcn.2]
    · rw [abs_of_nonneg (by norm_num at *; linarith)] at z
      norm_num at *; linarith [hcn.1, hcn.2]
  · rintro g rfl h
    unfold cropPhasesImgFl
    dsimp only
    split_ifs <;> first | rfl | omega
  · unfold cropPhasesImgFl
    dsimp only
    cases image with
    | notArray => split_ifs <;> rfl
    | otherDim => split_ifs <;> rfl
    | img g => exact absurd rfl (h g)

/-- The polynomials and the solver of a fit in double precision: up to 66 different valid polynomials up to the order 10, a solver that is stable up to 10⁻¹⁰. -/
structure DoublePolynomials (lstsq : Lstsq) (fuel : Nat) (os : List PolObj) : Prop where
  nonempty : os ≠ []
  valid : PolsOk fuel os
  different : (ordersOf os).Nodup
  orders : ∀ o ∈ os, o.n ≤ 10
  number : os.length ≤ 66
  solver : BackwardStable lstsq (1 / 10 ^ 10)

theorem crop_doubleFit {lstsq : Lstsq} {fuel : Nat} {os : List PolObj} (hf : DoublePolynomials lstsq fuel os) {img : Grid} {crop : ℝ} {strict : Bool} {out : Cropped}
    (hc : CropDouble img crop strict out) (hi : Conditioned ((selected out.mask).length / 100) (ordersOf os) (out.radii.zip out.thetas)) :
    DoubleFit lstsq fuel os out.radii out.thetas ∧ samplePoints out.radii out.thetas = out.radii.zip out.thetas := by
  have hl := hc.lengths
  have e : samplePoints out.radii out.thetas = out.radii.zip out.thetas := if_pos (by omega)
  have hn := List.length_pos_of_ne_nil hc.nonempty
  refine ⟨{ nonempty := hf.nonempty, valid := hf.valid, different := hf.different, radii_nonempty := List.ne_nil_of_length_pos (by omega), thetas_nonempty := List.ne_nil_of_length_pos (by omega),
            radii_range := hc.radii_mem, orders := hf.orders, number := hf.number, solver := hf.solver, angles := ?_, independent := ?_ }, e⟩
  · intro t ht
    obtain ⟨k, hk, rfl⟩ := List.getElem_of_mem ht
    obtain ⟨a, b, -⟩ := hc.angles k ((selected out.mask)[k]'(by omega)) (out.thetas[k]) (by simp) (by simp)
    rw [abs_of_nonneg a]
    exact b
  · rw [e]
    have : (out.radii.zip out.thetas).length = (selected out.mask).length := by simp; omega
    rw [this]
    exact hi

theorem bind_pure_fst {α β γ : Type} {m : CM α} {f : α → β} {g : α → γ} {st : CoefState} {A : β} (h : ((m >>= fun x => pure (f x) : CM β) st).1 = .ok A) :
    ∃ x, A = f x ∧ ((m >>= fun x => pure (g x) : CM γ) st).1 = .ok (g x) := by
  simp only [bind] at h ⊢
  generalize m st = r at *
  obtain ⟨r, st'⟩ := r
  cases r with
  | error e => cases h
  | ok x => exact ⟨x, (Except.ok.inj h).symm, rfl⟩

/-- C100. `fit_polynomials` in double precision: the coefficients are those of the fit at the points of the crop. For phases near to a combination `cs` of the polynomials at these points
they differ from its coefficients by at most 10⁻⁶ of the amplitudes, 10.1 times the root mean square of the deviations, 10⁻⁸ of the root mean square of the phases, and the
final rounding, if the polynomials are independent at the points (mean square of a combination at least 1/100 of the sum of its squared coefficients). The cropped image,
if requested, has the pixels of the image where the mask is 1 and zeros elsewhere. -/
theorem fit_image_double (s : List ℝ → ℝ) (h : List Call) (fuel : Nat) (lstsq : Lstsq) (os : List PolObj) (hf : DoublePolynomials lstsq fuel os) (img : Grid) (crop : ℝ) (strict : Bool)
    (hsize : 3 ≤ min img.rows img.cols) (hrs : img.rows ≤ 2 ^ 25) (hcs : img.cols ≤ 2 ^ 25) (hlo : 0.5 ≤ crop) (hhi : crop ≤ 1) (digits : Int) (ret : Bool) :
    ∃ out, cropPhasesImgFl (psfDoubles s) (.img img) crop strict = .ok out ∧ CropDouble img crop strict out ∧
      (Conditioned ((selected out.mask).length / 100) (ordersOf os) (out.radii.zip out.thetas) →
        ∃ A g, (fltFitPolynomials (psfDoubles s) fuel lstsq (.img img) os crop strict digits ret (afterCalls h)).1 = .ok (A, g) ∧ A.length = os.length ∧
          (ret = false → g = none) ∧
          (ret = true → ∃ q : Grid, g = some q ∧ q.rows = img.rows ∧ q.cols = img.cols ∧
            (∀ i j, out.mask.entry i j = 1 → q.entry i j = img.entry i j) ∧ (∀ i j, out.mask.entry i j = 0 → q.entry i j = 0)) ∧
          ∀ cs : List ℝ, cs.length = os.length → ∃ E, E = Real.sqrt (energy cs) / 10 ^ 6 +
            10.1 * rms (differences out.phases ((out.radii.zip out.thetas).map fun p => combination cs (ordersOf os) p.1 p.2)) + rms out.phases / 10 ^ 8 ∧
            ∀ j, j < os.length → |A.getD j 0 - cs.getD j 0| ≤ E + 1 / 2 / 10 ^ digits + 2⁻¹ ^ 53 * (3 * (|cs.getD j 0| + E) + 4 * max 1 (1 / 10 ^ digits))) := by
  obtain ⟨out, e, hc⟩ := crop_double s img crop strict hsize hrs hcs hlo hhi
  refine ⟨out, e, hc, fun hi => ?_⟩
  obtain ⟨hd, hsp⟩ := crop_doubleFit hf hc hi
  have hp : out.phases.length = (samplePoints out.radii out.thetas).length := by
    rw [hsp, hc.phases]; have := hc.lengths; simp; omega
  obtain ⟨A, -, eA, lA, -, -⟩ := fit_double_error s h fuel lstsq os _ _ hd out.phases hp (os.map fun _ => 0) (by simp) digits
  have key : (fltFitPolynomials (psfDoubles s) fuel lstsq (.img img) os crop strict digits ret (afterCalls h)).1 =
      .ok (A, if ret then some { img with entry := fun i j => out.mask.entry i j * img.entry i j } else none) := by
    obtain ⟨x, rfl, hx⟩ := bind_pure_fst (g := fun x : List ℝ => (x.map (fltRound (psfDoubles s) digits),
      if ret then some { img with entry := fun i j => out.mask.entry i j * img.entry i j } else none)) eA
    unfold fltFitPolynomials
    rw [e]
    exact hx
  refine ⟨A, _, key, lA, fun hr => if_neg (by simp [hr]), fun hr => ⟨{ img with entry := fun i j => out.mask.entry i j * img.entry i j }, if_pos hr, rfl, rfl, fun i j hm => ?_, fun i j hm => ?_⟩, fun cs hcs' => ?_⟩
  · show out.mask.entry i j * img.entry i j = _
    rw [hm, one_mul]
  · show out.mask.entry i j * img.entry i j = _
    rw [hm, zero_mul]
  obtain ⟨A', E, eA', -, hE, b⟩ := fit_double_error s h fuel lstsq os _ _ hd out.phases hp cs hcs' digits
  rw [eA] at eA'
  cases eA'
  rw [hsp] at hE
  exact ⟨E, hE, b⟩

theorem combination_piston (a r t : ℝ) : combination [a] [(0, 0)] r t = a := by
  simp [combination, zernike, Spec.norm, Spec.radial, angular]

theorem piston_conditioned (points : List (ℝ × ℝ)) (N : ℕ) (hN : N = points.length) : Conditioned (N / 100) [(0, 0)] points := by
  intro ds hds
  obtain ⟨a, rfl⟩ : ∃ a, ds = [a] := List.length_eq_one_iff.1 hds
  have e : energy (points.map fun p => combination [a] [(0, 0)] p.1 p.2) = points.length * a ^ 2 := by
    unfold energy
    simp only [combination_piston]
    simp
  rw [e, hN]
  have : energy [a] = a ^ 2 := by simp [energy]
  rw [this]
  have : (0 : ℝ) ≤ points.length * a ^ 2 := by positivity
  linarith

/-- A constant image of 0.5 on 5 by 4 pixels (loose border): the fit of the piston in double precision returns 0.5 up to 0.0001. -/
example (h : List Call) {lstsq : Lstsq} (hl : BackwardStable lstsq (1 / 10 ^ 10)) : ∃ A g,
    (fltFitPolynomials (psfDoubles (sumFromLeft binary64)) 10 lstsq (.img ⟨5, 4, fun _ _ => 0.5⟩) [⟨0, 0, false⟩] 1 false 4 false (afterCalls h)).1 = .ok ([A], g) ∧ |A - 0.5| ≤ 0.0001 := by
  have hf : DoublePolynomials lstsq 10 [⟨0, 0, false⟩] :=
    ⟨by simp, by intro o ho; simp at ho; subst ho; decide, by decide, by simp, by simp, hl⟩
  obtain ⟨out, -, hc, k⟩ := fit_image_double (sumFromLeft binary64) h 10 lstsq _ hf ⟨5, 4, fun _ _ => 0.5⟩ 1 false (by decide) (by norm_num) (by norm_num) (by norm_num) le_rfl 4 false
  obtain ⟨A, g, e, lA, -, -, b⟩ := k (piston_conditioned _ _ (by have := hc.lengths; simp; omega))
  obtain ⟨a, rfl⟩ : ∃ a, A = [a] := List.length_eq_one_iff.1 lA
  refine ⟨a, g, e, ?_⟩
  obtain ⟨E, hE, b⟩ := b [0.5] rfl
  have b0 := b 0 (by simp)
  have hph : ∀ x ∈ out.phases, x = 0.5 := by
    intro x hx
    rw [hc.phases] at hx
    obtain ⟨p, -, rfl⟩ := List.mem_map.1 hx
    rfl
  have r1 : rms out.phases ≤ 0.5 := rms_le (by norm_num) (fun x hx => by rw [hph x hx]; norm_num)
  have r2 : rms (differences out.phases ((out.radii.zip out.thetas).map fun p => combination [0.5] (ordersOf [⟨0, 0, false⟩]) p.1 p.2)) ≤ 0 := by
    refine rms_le le_rfl fun x hx => ?_
    unfold differences at hx
    rw [List.mem_iff_getElem] at hx
    obtain ⟨k, hk, rfl⟩ := hx
    rw [List.getElem_zipWith, List.getElem_map, hph _ (List.getElem_mem _)]
    have ec : ∀ r t, combination [0.5] (ordersOf [⟨0, 0, false⟩]) r t = 0.5 := fun r t => combination_piston _ r t
    rw [ec, sub_self, abs_zero]
  have r3 : Real.sqrt (energy [0.5]) ≤ 0.5 := by
    rw [Real.sqrt_le_left (by norm_num)]; norm_num [energy]
  have hE1 : E ≤ 1 / 10 ^ 6 := by
    rw [hE]
    norm_num at *
    linarith
  have n1 := Real.sqrt_nonneg (energy [0.5])
  have hab : |([0.5] : List ℝ).getD 0 0| = 0.5 := by norm_num
  have hm : max (1 : ℝ) (1 / 10 ^ (4 : ℤ)) = 1 := by norm_num
  rw [hab, hm] at b0
  have z : (2⁻¹ : ℝ) ^ 53 * (3 * (0.5 + E) + 4 * 1) ≤ 1 / 10 ^ 6 := by
    calc (2⁻¹ : ℝ) ^ 53 * (3 * (0.5 + E) + 4 * 1) ≤ 2⁻¹ ^ 53 * 10 := mul_le_mul_of_nonneg_left (by norm_num at *; linarith) (by positivity)
      _ ≤ _ := by norm_num
  have b1 : |a - 0.5| ≤ E + 1 / 2 / 10 ^ (4 : ℤ) + 1 / 10 ^ 6 := by
    have : ([a] : List ℝ).getD 0 0 = a := rfl
    rw [this, show ([0.5] : List ℝ).getD 0 0 = 0.5 from rfl] at b0
    exact b0.trans (by linarith)
  refine b1.trans ?_
  norm_num at *
  linarith

end Verif.Props
