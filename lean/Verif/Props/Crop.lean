import Verif.Spec.Image
import Verif.Proofs.Crop

/-!
# C25: cropping a circle of phases
-/

namespace Verif.Props
open Verif.Model Verif.Spec Verif.Proofs

/-- The pixels selected by a mask, in row-major order. -/
noncomputable def selected (mask : Grid) : List (Nat × Nat) :=
  open Classical in (allPixels mask.rows mask.cols).filter fun p => mask.entry p.1 p.2 = 1

/-- The border is treated loosely: the caller did not ask for a strict border, and both sizes are even or differ by one pixel. -/
def LooseBorder (rows cols : Nat) (strict : Bool) : Prop :=
  strict = false ∧ ((rows % 2 = 0 ∧ cols % 2 = 0) ∨ ((rows : Int) - cols).natAbs = 1)

open Classical in
/-- What the documentation promises about the result of `crop_phases_img`. -/
structure CropSpec (img : Grid) (crop : ℝ) (strict : Bool) (out : Cropped) : Prop where
  /-- the mask has the shape of the image and consists of 0 and 1 -/
  shape : out.mask.rows = img.rows ∧ out.mask.cols = img.cols
  binary : ∀ i j, out.mask.entry i j = 0 ∨ out.mask.entry i j = 1
  /-- a pixel of the circle of radius `crop`, or of the border around it, is selected -/
  takes : ∀ p ∈ allPixels img.rows img.cols,
    pixelDist img.rows img.cols p ≤ (crop + if LooseBorder img.rows img.cols strict then 0.0548 else 0.0008) * inscribedRadius img.rows img.cols →
    out.mask.entry p.1 p.2 = 1
  /-- nothing outside of it is selected, up to the tolerance of the border -/
  only : ∀ p, out.mask.entry p.1 p.2 = 1 → p ∈ allPixels img.rows img.cols ∧
    pixelDist img.rows img.cols p < (crop + if LooseBorder img.rows img.cols strict then 0.0551 else 0.0011) * inscribedRadius img.rows img.cols
  /-- the phases are the selected pixels of the image in row-major order -/
  phases : out.phases = (selected out.mask).map fun p => img.entry p.1 p.2
  /-- the polar coordinates belong to the same pixels -/
  lengths : out.radii.length = (selected out.mask).length ∧ out.thetas.length = (selected out.mask).length
  angles : ∀ (k : Nat) p t, (selected out.mask)[k]? = some p → out.thetas[k]? = some t → 0 ≤ t ∧ t < 2 * Real.pi ∧
    pixelDist img.rows img.cols p * Real.cos t = pixelX img.cols p ∧ pixelDist img.rows img.cols p * Real.sin t = pixelY img.rows p
  /-- the radii are in `[0, 1]` and proportional to the distances, up to the rounding to 4 decimals -/
  radii_mem : ∀ x ∈ out.radii, 0 ≤ x ∧ x ≤ 1
  radii : ∃ kappa : ℝ, 1 ≤ kappa ∧ kappa ≤ (if LooseBorder img.rows img.cols strict then 1.055 else 1.001) ∧
    ∀ (k : Nat) p x, (selected out.mask)[k]? = some p → out.radii[k]? = some x →
    |x - pixelDist img.rows img.cols p / (inscribedRadius img.rows img.cols * kappa)| ≤ 0.0001 ∧ (pixelDist img.rows img.cols p = 0 → x = 0)
  nonempty : selected out.mask ≠ []

theorem halfSize_pixel (rows cols : Nat) (h : 3 ≤ min rows cols) (p : Nat × Nat) :
    Real.sqrt (((p.1 : ℝ) - halfSize rows) ^ 2 + ((p.2 : ℝ) - halfSize cols) ^ 2) = pixelDist rows cols p := by
  rw [halfSize_eq rows (by omega), halfSize_eq cols (by omega)]
  unfold pixelDist pixelX pixelY
  congr 1; ring

theorem cropR_spec (rows cols : Nat) (h : 3 ≤ min rows cols) : cropR rows cols = inscribedRadius rows cols := cropR_eq rows cols h

theorem pixRadius_near (rows cols : Nat) (h : 3 ≤ min rows cols) (p : Nat × Nat) :
    |pixRadius rows cols p.1 p.2 - pixelDist rows cols p / inscribedRadius rows cols| ≤ 0.00005 := by
  unfold pixRadius
  rw [halfSize_pixel rows cols h, cropR_spec rows cols h]
  have := npRound_near 4 (pixelDist rows cols p / inscribedRadius rows cols)
  calc _ ≤ _ := this
    _ = 0.00005 := by norm_num

theorem pixTheta_spec (rows cols : Nat) (h : 3 ≤ min rows cols) (p : Nat × Nat) :
    pixelDist rows cols p * Real.cos (pixTheta rows cols p.1 p.2) = pixelX cols p ∧
    pixelDist rows cols p * Real.sin (pixTheta rows cols p.1 p.2) = pixelY rows p := by
  have hc : ∀ t : ℝ, Real.cos (if t < 0 then t + 2 * Real.pi else t) = Real.cos t ∧
      Real.sin (if t < 0 then t + 2 * Real.pi else t) = Real.sin t := by
    intro t; split_ifs <;> simp
  have e : pixTheta rows cols p.1 p.2 = (open Classical in
      if Complex.arg ⟨pixelX cols p, pixelY rows p⟩ < 0 then Complex.arg ⟨pixelX cols p, pixelY rows p⟩ + 2 * Real.pi
      else Complex.arg ⟨pixelX cols p, pixelY rows p⟩) := by
    unfold pixTheta arctan2
    rw [halfSize_eq rows (by omega), halfSize_eq cols (by omega)]
    rfl
  have hz : ‖(⟨pixelX cols p, pixelY rows p⟩ : ℂ)‖ = pixelDist rows cols p := by
    rw [Complex.norm_eq_sqrt_sq_add_sq]; rfl
  have h1 := Complex.norm_mul_cos_arg ⟨pixelX cols p, pixelY rows p⟩
  have h2 := Complex.norm_mul_sin_arg ⟨pixelX cols p, pixelY rows p⟩
  rw [hz] at h1 h2
  rw [e]
  constructor
  · refine Eq.trans (congrArg _ ?_) h1
    convert (hc _).1
  · refine Eq.trans (congrArg _ ?_) h2
    convert (hc _).2

theorem foldl_max_mem (l : List ℝ) (x : ℝ) : l.foldl max x ∈ x :: l := by
  induction l generalizing x with
  | nil => simp
  | cons a t ih =>
    have := ih (max x a)
    simp only [List.foldl_cons, List.mem_cons] at this ⊢
    rcases this with h | h
    · rw [h]; rcases max_choice x a with h | h <;> simp [h]
    · simp [h]

theorem npMax_spec (l : List ℝ) (h : l ≠ []) : ∃ top, npMax l = .ok top ∧ top ∈ l ∧ ∀ x ∈ l, x ≤ top := by
  obtain ⟨a, t, rfl⟩ := List.exists_cons_of_ne_nil h
  refine ⟨_, rfl, foldl_max_mem t a, fun x hx => ?_⟩
  have := (foldl_max_le t a (t.foldl max a)).1 le_rfl
  rcases List.mem_cons.1 hx with rfl | hx
  · exact this.1
  · exact this.2 x hx

theorem div_round_mem (c x : ℝ) (hc : 1 ≤ c) (h0 : 0 ≤ x) (hx : x ≤ c) : 0 ≤ npRound 4 (x / c) ∧ npRound 4 (x / c) ≤ 1 := by
  refine ⟨npRound_nonneg _ (by positivity), ?_⟩
  have h1 : x / c ≤ ((1 : ℤ) : ℝ) := by rw [div_le_iff₀ (by linarith)]; push_cast; linarith
  have := npRound_mono 4 h1
  rw [show (4 : ℤ) = ((4 : ℕ) : ℤ) from rfl, npRound_int] at this
  simpa using this

theorem div_round_near (c x d : ℝ) (hc : 1 ≤ c) (h : |x - d| ≤ 0.00005) : |npRound 4 (x / c) - d / c| ≤ 0.0001 := by
  have h1 := npRound_near 4 (x / c)
  have h2 : |x / c - d / c| ≤ 0.00005 := by
    rw [← sub_div, abs_div, abs_of_pos (by linarith : (0 : ℝ) < c), div_le_iff₀ (by linarith)]
    have := abs_nonneg (x - d)
    norm_num at h ⊢; nlinarith
  have h3 : |npRound 4 (x / c) - x / c| ≤ 0.00005 := by
    calc _ ≤ _ := h1
      _ = 0.00005 := by norm_num
  have := abs_sub_le (npRound 4 (x / c)) (x / c) (d / c)
  norm_num at *; linarith

theorem crop_eps_loose {rows cols : Nat} {strict : Bool} (h : LooseBorder rows cols strict) : cropEps rows cols strict = 0.055 := by
  unfold cropEps
  exact if_pos h

theorem crop_eps_tight {rows cols : Nat} {strict : Bool} (h : ¬ LooseBorder rows cols strict) : cropEps rows cols strict = 0.001 := by
  unfold cropEps
  exact if_neg h

/-- C25. For every image of at least 3 by 3 pixels, every crop radius accepted by the range check (all of `[0.5, 1]`) and both border modes
the call succeeds and the result is as specified. -/
theorem crop_correct (img : Grid) (crop : ℝ) (strict : Bool) (hsize : 3 ≤ min img.rows img.cols)
    (hlo : 0.5 ≤ npRound 4 crop) (hhi : npRound 4 crop ≤ 1) :
    ∃ out, cropPhasesImg (.img img) crop strict = .ok out ∧ CropSpec img crop strict out := by
  classical
  set c := npRound 4 crop with hc
  have hcn : |c - crop| ≤ 0.00005 := by
    calc _ ≤ _ := npRound_near 4 crop
      _ = 0.00005 := by norm_num
  have hel : LooseBorder img.rows img.cols strict → cropEps img.rows img.cols strict = 0.055 := crop_eps_loose
  have het : ¬ LooseBorder img.rows img.cols strict → cropEps img.rows img.cols strict = 0.001 := crop_eps_tight
  set eps := cropEps img.rows img.cols strict with heps
  have he1 : 0.001 ≤ eps := by
    by_cases hb : LooseBorder img.rows img.cols strict
    · rw [hel hb]; norm_num
    · rw [het hb]
  have inv := cropInv_loop img c eps strict
  set s := cropLoop img c eps strict with hs
  set L := (pixels img.rows img.cols).filter (Taken img c eps) with hL
  have hR : 1 ≤ inscribedRadius img.rows img.cols := by rw [← cropR_spec _ _ hsize]; exact cropR_pos _ _ hsize
  -- the selected pixels
  have hsel : selected s.mask = L := by
    unfold selected
    rw [inv.rows, inv.cols, hL]
    apply List.filter_congr
    intro p hp
    rw [inv.mask p.1 p.2]
    by_cases ht : Taken img c eps p
    · simp [ht, show p ∈ pixels img.rows img.cols from hp]
    · simp [ht]
  have hLne : L ≠ [] := by
    have hm : ((img.rows - 1) / 2, (img.cols - 1) / 2) ∈ L := by
      rw [hL, List.mem_filter, mem_pixels]
      refine ⟨⟨?_, ?_⟩, ?_⟩
      · dsimp only; omega
      · dsimp only; omega
      · simp only [decide_eq_true_eq]
        have := centre_near img.rows img.cols hsize
        unfold Taken; dsimp only; norm_num at *; linarith
    exact List.ne_nil_of_mem hm
  have hrne : s.radii ≠ [] := by
    rw [inv.radii]
    exact fun h => hLne (List.map_eq_nil_iff.1 h)
  have htak : ∀ p ∈ L, pixRadius img.rows img.cols p.1 p.2 - c < eps := by
    intro p hp
    have := (List.mem_filter.1 hp).2
    exact of_decide_eq_true this
  have hr0 : ∀ x ∈ s.radii, 0 ≤ x ∧ x < c + eps := by
    intro x hx
    rw [inv.radii] at hx
    obtain ⟨p, hp, rfl⟩ := List.mem_map.1 hx
    exact ⟨pixRadius_nonneg _ _ _ _ hsize, by linarith [htak p hp]⟩
  -- the radii: three cases
  have main : ∃ (kappa : ℝ) (f : ℝ → ℝ), 1 ≤ kappa ∧ kappa ≤ (if LooseBorder img.rows img.cols strict then 1.055 else 1.001) ∧ cropPhasesImg (.img img) crop strict =
      .ok ⟨s.mask, s.phases, s.radii.map f, s.thetas⟩ ∧ (∀ x ∈ s.radii, 0 ≤ f x ∧ f x ≤ 1) ∧
      f 0 = 0 ∧ ∀ x d, |x - d| ≤ 0.00005 → |f x - d / kappa| ≤ 0.0001 := by
    have r0 : npRound 4 0 = 0 := by
      have := npRound_int 4 0
      simpa using this
    have hunf : cropPhasesImg (.img img) crop strict =
        match npMax (if s.recalibrate then s.radii.map (fun x => npRound 4 (x / s.coeff)) else s.radii) with
        | .error e => .error e
        | .ok top => .ok ⟨s.mask, s.phases, if 1 < top ∧ top < 1.002 then
            (if s.recalibrate then s.radii.map (fun x => npRound 4 (x / s.coeff)) else s.radii).map (fun x => npRound 4 (x / top))
            else (if s.recalibrate then s.radii.map (fun x => npRound 4 (x / s.coeff)) else s.radii), s.thetas⟩ := by
      unfold cropPhasesImg
      dsimp only
      rw [if_neg (by push Not; exact ⟨hlo, hhi⟩), if_neg (by split_ifs <;> omega)]
      rfl
    cases hrec : s.recalibrate with
    | true =>
      rw [hrec] at hunf
      simp only [if_true] at hunf
      have hstr : strict = false := by
        cases hst : strict with
        | false => rfl
        | true => have := inv.strict_norecal hst; rw [hrec] at this; cases this
      obtain ⟨y, hy, hy1, hy2⟩ := inv.recal hrec
      have hle : ∀ x ∈ s.radii, x ≤ s.coeff := by
        intro x hx
        by_cases hx1 : c + 0.001 < x
        · exact inv.le_coeff x hx hstr hx1
        · push Not at hx1; linarith
      have hb : LooseBorder img.rows img.cols strict := by
        by_contra hb
        have := (hr0 y hy).2
        rw [het hb] at this
        linarith
      have hcm : s.coeff ≤ 1.055 := by
        rcases inv.coeff_of with h | h
        · rw [h]; norm_num
        · have := (hr0 _ h).2
          rw [hel hb] at this
          norm_num at *; linarith
      have hmem : ∀ x ∈ s.radii, 0 ≤ npRound 4 (x / s.coeff) ∧ npRound 4 (x / s.coeff) ≤ 1 := fun x hx =>
        div_round_mem s.coeff x inv.one_le (hr0 x hx).1 (hle x hx)
      obtain ⟨top, ht1, ht2, ht3⟩ := npMax_spec (s.radii.map (fun x => npRound 4 (x / s.coeff))) (by simpa using hrne)
      refine ⟨s.coeff, fun x => npRound 4 (x / s.coeff), inv.one_le, by rw [if_pos hb]; exact hcm, ?_, hmem, by simp only [zero_div, r0], fun x d h => div_round_near _ _ _ inv.one_le h⟩
      rw [hunf, ht1]
      dsimp only
      rw [if_neg]
      rintro ⟨h1, _⟩
      obtain ⟨x, hx, rfl⟩ := List.mem_map.1 ht2
      linarith [(hmem x hx).2]
    | false =>
      rw [hrec] at hunf
      simp only [Bool.false_eq_true, if_false] at hunf
      obtain ⟨top, ht1, ht2, ht3⟩ := npMax_spec s.radii hrne
      have htop : top ≤ 1.001 := by
        cases hst : strict with
        | false => have := inv.norecal hrec top ht2 hst; norm_num at *; linarith
        | true =>
          have := (hr0 top ht2).2
          rw [het (fun hb => by rw [hst] at hb; cases hb.1)] at this
          norm_num at *; linarith
      have hk : ∀ v : ℝ, v ≤ 1.001 → v ≤ (if LooseBorder img.rows img.cols strict then 1.055 else 1.001) := by
        intro v hv
        split_ifs
        · norm_num at *; linarith
        · exact hv
      rw [ht1] at hunf
      dsimp only at hunf
      by_cases h1 : 1 < top
      · rw [if_pos ⟨h1, by norm_num at *; linarith⟩] at hunf
        refine ⟨top, fun x => npRound 4 (x / top), h1.le, hk _ htop, hunf,
          fun x hx => div_round_mem top x h1.le (hr0 x hx).1 (ht3 x hx), by simp only [zero_div, r0],
          fun x d h => div_round_near _ _ _ h1.le h⟩
      · rw [if_neg (fun h => h1 h.1)] at hunf
        refine ⟨1, id, le_rfl, hk 1 (by norm_num), by simpa using hunf, fun x hx => ⟨(hr0 x hx).1, ?_⟩, rfl, fun x d h => ?_⟩
        · have := ht3 x hx; simp only [id]; linarith
        · simp only [id, div_one]; norm_num at *; linarith
  obtain ⟨kappa, f, hk1, hk2, heq, hmem, hf0, hnear⟩ := main
  have hget : ∀ {β : Type} (g : Nat × Nat → β) (k : Nat) (p : Nat × Nat) (y : β), L[k]? = some p → (L.map g)[k]? = some y →
      y = g p := by
    intro β g k p y h1 h2
    rw [List.getElem?_map, h1] at h2
    simpa using h2.symm
  refine ⟨_, heq, ?_⟩
  constructor
  · exact ⟨inv.rows, inv.cols⟩
  · intro i j
    dsimp only
    rw [inv.mask i j]
    by_cases h : (i, j) ∈ pixels img.rows img.cols ∧ Taken img c eps (i, j)
    · right; simp [h]
    · left; simp [h]
  · intro p hp hd
    dsimp only
    have : Taken img c eps p := by
      have h1 := pixRadius_near img.rows img.cols hsize p
      have h2 : pixelDist img.rows img.cols p / inscribedRadius img.rows img.cols ≤
          crop + if LooseBorder img.rows img.cols strict then 0.0548 else 0.0008 := by
        rw [div_le_iff₀ (by linarith)]; exact hd
      unfold Taken
      rw [abs_le] at h1 hcn
      by_cases hb : LooseBorder img.rows img.cols strict
      · rw [if_pos hb] at h2
        rw [hel hb]
        norm_num at *; linarith [h1.2, hcn.1]
      · rw [if_neg hb] at h2
        rw [het hb]
        norm_num at *; linarith [h1.2, hcn.1]
    rw [inv.mask p.1 p.2]
    simp [this, show p ∈ pixels img.rows img.cols from hp]
  · intro p hp
    dsimp only at hp
    rw [inv.mask p.1 p.2] at hp
    have hp : p ∈ pixels img.rows img.cols ∧ Taken img c eps p := by
      by_contra h
      simp [h] at hp
    refine ⟨hp.1, ?_⟩
    have h1 := pixRadius_near img.rows img.cols hsize p
    have h2 : pixRadius img.rows img.cols p.1 p.2 - c < eps := hp.2
    rw [← div_lt_iff₀ (by linarith)]
    rw [abs_le] at h1 hcn
    by_cases hb : LooseBorder img.rows img.cols strict
    · rw [if_pos hb]
      rw [hel hb] at h2
      norm_num at *; linarith [h1.1, hcn.2]
    · rw [if_neg hb]
      rw [het hb] at h2
      norm_num at *; linarith [h1.1, hcn.2]
  · dsimp only; rw [hsel]; exact inv.phases
  · dsimp only; rw [hsel, List.length_map, inv.radii, inv.thetas]; simp [← hL]
  · intro k p t hp ht
    dsimp only at hp ht
    rw [hsel] at hp
    rw [inv.thetas] at ht
    have := hget _ k p t hp ht
    subst this
    obtain ⟨a, b⟩ := pixTheta_mem img.rows img.cols p.1 p.2
    obtain ⟨d, e⟩ := pixTheta_spec img.rows img.cols hsize p
    exact ⟨a, b, d, e⟩
  · intro x hx
    obtain ⟨y, hy, rfl⟩ := List.mem_map.1 hx
    exact hmem y hy
  · refine ⟨kappa, hk1, hk2, fun k p x hp hx => ?_⟩
    dsimp only at hp hx
    rw [hsel] at hp
    rw [inv.radii, List.map_map] at hx
    have := hget _ k p x hp hx
    subst this
    rw [← div_div]
    refine ⟨hnear _ _ (pixRadius_near img.rows img.cols hsize p), fun hd => ?_⟩
    have r0 : npRound 4 0 = 0 := by
      have := npRound_int 4 0
      simpa using this
    have : pixRadius img.rows img.cols p.1 p.2 = 0 := by
      unfold pixRadius
      rw [halfSize_pixel img.rows img.cols hsize, hd, zero_div, r0]
    simp only [Function.comp]
    rw [this, hf0]
  · dsimp only; rw [hsel]; exact hLne

/-- The hypotheses hold for all crop radii of the documented range. -/
theorem crop_range (crop : ℝ) (h0 : 0.5 ≤ crop) (h1 : crop ≤ 1) : 0.5 ≤ npRound 4 crop ∧ npRound 4 crop ≤ 1 := by
  constructor
  · have h : ((5000 : ℤ) : ℝ) / 10 ^ (4 : ℤ) ≤ crop := by norm_num at *; exact h0
    have := npRound_mono 4 h
    rw [npRound_dec] at this
    norm_num at *; exact this
  · have h : crop ≤ ((1 : ℤ) : ℝ) := by simpa using h1
    have := npRound_mono 4 h
    rw [show (4 : ℤ) = ((4 : ℕ) : ℤ) from rfl, npRound_int] at this
    simpa using this

example : ∃ out, cropPhasesImg (.img ⟨4, 5, fun i j => i + j⟩) 0.75 false = .ok out ∧
    CropSpec ⟨4, 5, fun i j => i + j⟩ 0.75 false out :=
  crop_correct _ _ _ (by decide) (crop_range 0.75 (by norm_num) (by norm_num)).1 (crop_range 0.75 (by norm_num) (by norm_num)).2

/-- C25. Everything else is rejected with `ValueError`: crop radii out of range (beyond the rounding), small images, other objects. -/
theorem crop_rejects (image : ImgArg) (crop : ℝ) (strict : Bool) :
    (crop < 0.4999 ∨ 1.0001 < crop → cropPhasesImg image crop strict = .error .valueError) ∧
    (∀ g, image = .img g → min g.rows g.cols < 3 → cropPhasesImg image crop strict = .error .valueError) ∧
    ((∀ g, image ≠ .img g) → cropPhasesImg image crop strict = .error .valueError) := by
  have hcn : |npRound 4 crop - crop| ≤ 0.00005 := by
    calc _ ≤ _ := npRound_near 4 crop
      _ = 0.00005 := by norm_num
  rw [abs_le] at hcn
  refine ⟨fun h => ?_, ?_, fun h => ?_⟩
  · unfold cropPhasesImg
    dsimp only
    rw [if_pos]
    rintro ⟨h1, h2⟩
    rcases h with h | h
    · norm_num at *; linarith
    · norm_num at *; linarith
  · rintro g rfl h
    unfold cropPhasesImg
    dsimp only
    split_ifs <;> first | rfl | omega
  · unfold cropPhasesImg
    dsimp only
    cases image with
    | notArray => split_ifs <;> rfl
    | otherDim => split_ifs <;> rfl
    | img g => exact absurd rfl (h g)

end Verif.Props
