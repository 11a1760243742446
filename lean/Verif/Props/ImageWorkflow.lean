import Verif.Props.EndToEnd
import Verif.Props.FloatWorkflow

/-!
# C112: from the calls of a user to the blurred image, in double precision
-/

namespace Verif.Props
open Verif.Model Verif.Spec Verif.Proofs

theorem raise_nonneg (e : PyErr) (P : Grid → Prop) : Returns (CM.raise e : CM Grid) P := by
  intro s v hv; cases hv

/-- No calculated kernel has a negative pixel. -/
theorem kernelCall_nonneg {F F' : PsfArith} (hF : KeepsSign F) (hF' : KeepsSign F') (env : Env) (o : PsfObj) (normalized : Bool) (accelerated : Option Bool) (x : CM Grid)
    (hx : o.kernelCallFl F F' env normalized accelerated = some x) : Returns x fun g => ∀ a b, 0 ≤ g.entry a b := by
  unfold PsfObj.kernelCallFl at hx
  cases hz : o.zernpol with
  | some z =>
    simp only [hz] at hx
    obtain rfl := Option.some.inj hx
    by_cases ha : env.accelerate accelerated = true
    · rw [if_pos ha]
      unfold fltPsfKernelComp
      split
      · exact raise_nonneg _ _
      dsimp only
      split
      · exact raise_nonneg _ _
      split
      · exact raise_nonneg _ _
      exact make_nonneg hF' _ _ _ (fun i j => point_nonneg hF' _ _ _ _ _) _
    · rw [if_neg ha]
      unfold fltGetPsfKernel
      split
      · exact raise_nonneg _ _
      refine Returns.bind fun size => ?_
      split
      · unfold fltAiryKernel
        split
        · exact raise_nonneg _ _
        refine make_nonneg hF _ _ _ (fun i j => Returns.pure _ ?_) _
        unfold fltAiryRef
        exact hF.fl _ (mul_nonneg (by norm_num) (hF.sq _))
      · unfold fltPsfKernel
        split
        · exact raise_nonneg _ _
        exact make_nonneg hF _ _ _ (fun i j => point_nonneg hF _ _ _ _ _) _
  | none =>
    simp only [hz] at hx
    cases hps : o.polynomials with
    | nil => simp only [hps] at hx; simp at hx
    | cons q qs =>
      simp only [hps] at hx
      cases ham : o.amplitudes with
      | none =>
        simp only [ham] at hx
        obtain rfl := Option.some.inj hx
        exact raise_nonneg _ _
      | some as =>
        simp only [ham] at hx
        obtain rfl := Option.some.inj hx
        by_cases hlen : as.length < (q :: qs).length
        · rw [if_pos hlen]; exact raise_nonneg _ _
        rw [if_neg hlen]
        split
        · unfold fltPsfKernelCompPols
          split
          · exact raise_nonneg _ _
          dsimp only
          split
          · exact raise_nonneg _ _
          split
          · exact raise_nonneg _ _
          exact make_nonneg hF' _ _ _ (fun i j => point_nonneg hF' _ _ _ _ _) _
        · unfold fltPsfKernelZerns
          split
          · exact raise_nonneg _ _
          exact make_nonneg hF _ _ _ (fun i j => point_nonneg hF _ _ _ _ _) _

/-- Whatever `calculate_psf_kernel` returns for an object with set properties has no negative pixel. -/
theorem calculate_nonneg {F F' : PsfArith} (hF : KeepsSign F) (hF' : KeepsSign F') (env : Env) (o : PsfObj) (hset : o.propsSet = true) (hp : psfPols o ≠ [])
    (suppress normalized : Bool) (accelerated : Option Bool) (s : CoefState) (g : Grid)
    (h : (o.calculateFl F F' env suppress normalized accelerated s).1 = .ok g) : ∀ a b, 0 ≤ g.entry a b := by
  unfold PsfObj.calculateFl at h
  dsimp only at h
  rw [if_neg (by simp [hset])] at h
  cases hx : o.kernelCallFl F F' env normalized accelerated with
  | none =>
    exfalso
    unfold PsfObj.kernelCallFl at hx
    unfold psfPols at hp
    cases hz : o.zernpol with
    | some z => simp [hz] at hx
    | none =>
      simp only [hz] at hx hp
      cases hps : o.polynomials with
      | nil => simp [hps] at hp
      | cons q qs =>
        simp only [hps] at hx
        cases ham : o.amplitudes <;> simp [ham] at hx
  | some x =>
    rw [hx] at h
    dsimp only at h
    have := kernelCall_nonneg hF hF' env o normalized accelerated x hx s
    generalize x s = p at h this
    obtain ⟨r, s'⟩ := p
    cases r with
    | error e => simp at h
    | ok v =>
      obtain rfl : v = g := Except.ok.inj h
      exact this v rfl

theorem ideal_within (img : Grid) (hn : NonEmpty img) (ext : ℤ → ℤ → ℝ) (h : Reflected img.entry img.rows img.cols ext) (w : ℕ → ℕ → ℝ) (S : ℕ)
    (hw : ∀ a b, a < S → b < S → 0 ≤ w a b) (hpos : 0 < ∑ a ∈ Finset.range S, ∑ b ∈ Finset.range S, w a b) (lo hi : ℝ) (hi' : Within img lo hi) (i j : ℕ) :
    lo ≤ idealImage w S ext i j ∧ idealImage w S ext i j ≤ hi := by
  have hk : IsPsfKernel ⟨S, S, w⟩ := by
    refine ⟨hw, ?_⟩
    by_contra hc
    push Not at hc
    exact absurd hpos (not_lt.2 (Finset.sum_nonpos fun a ha => Finset.sum_nonpos fun b hb => hc a b (Finset.mem_range.1 ha) (Finset.mem_range.1 hb)))
  rw [← ideal_blurred img hn ext h w S hk]
  exact blurred_within hk img hn lo hi hi' i j

/-- An image of integer pixels, not scaled: the pixels are integers of the same type, truncated, so that they differ from the ideal image by less than `1 + d`. -/
def LikeIdealInt (conv : Bool → Res (Option Grid)) (lo hi : Int) (img : Grid) (ideal : ℕ → ℕ → ℝ) (d : ℝ) : Prop :=
  ∃ g, conv false = .ok (some g) ∧ g.rows = img.rows ∧ g.cols = img.cols ∧ HasType (.int lo hi) g ∧ ∀ i j, i < img.rows → j < img.cols → |g.entry i j - ideal i j| < 1 + d

theorem like_ideal_int {F : PsfArith} (overflow : ℝ → ℝ) (lo hi : Int) (h0 : lo ≤ 0 ∧ 0 ≤ hi) (img k : Grid) (ideal : ℕ → ℕ → ℝ) (M d u : ℝ)
    (h : LikeIdeal (fltConvoluteImg F overflow .float img k) img ideal M d u) (hd : d < 1) (hlo : ∀ i j, (lo : ℝ) ≤ ideal i j ∧ ideal i j ≤ hi) :
    LikeIdealInt (fltConvoluteImg F overflow (.int lo hi) img k) lo hi img ideal d := by
  obtain ⟨⟨g, hg, -, -, hb⟩, -⟩ := h
  have hg' : (fltBlurred F img k).map (DType.float.cast overflow) = g := Option.some.inj (Except.ok.inj hg)
  have he : ∀ i j, (fltBlurred F img k).entry i j = g.entry i j := fun i j => by rw [← hg']; rfl
  have hrc := fltBlurred_rows F img k
  have key : ∀ i j, i < img.rows → j < img.cols → _ := fun i j hi' hj' => cast_near overflow lo hi h0 ((fltBlurred F img k).entry i j) (ideal i j) (hlo i j).1 (hlo i j).2
    (by rw [he]; exact (hb i j hi' hj').trans_lt hd)
  refine ⟨_, rfl, hrc.1, hrc.2, fun i j hi' hj' => ?_, fun i j hi' hj' => ?_⟩
  · obtain ⟨n, n', a, b, c, d, _⟩ := key i j (by rw [← hrc.1]; exact hi') (by rw [← hrc.2]; exact hj')
    exact ⟨n, a, c, d⟩
  · obtain ⟨n, n', a, b, c, d, t, hn⟩ := key i j hi' hj'
    show abs ((DType.int lo hi).cast overflow _ - ideal i j) < _
    rw [a]
    rw [he] at hn
    have := hb i j hi' hj'
    have t := abs_sub_le (n : ℝ) (g.entry i j) (ideal i j)
    linarith

/-- C112. In double precision, from the calls of a user to the image: an object (with any history) gets its properties and the numbers of integration points, calculates the kernel (plain
or accelerated, one or several polynomials, normalised or not), and convolutes an image without negative pixels. The result is like the image that the exact PSF of the given optics makes
(the image continued by reflection), with and without scaling, up to an explicit bound; images of integer pixels differ by less than 1 more. `E` is the bound of the error of the kernel in
C111, `t` the greatest value and `W` the sum of the exact kernel. -/
theorem workflow_image_double (s : List ℝ → ℝ) (hs : Sums s) (F' : PsfArith) (hF' : CompiledDoubles F') (hsign : KeepsSign F') (o : PsfObj) (hm : MadeFor o) (before : List Call)
    (env : Env) (hj : BesselAccurate env.j1) (suppress normalized : Bool) (accelerated : Option Bool) (hsup : ∀ z ∈ psfPols o, Supported env accelerated z)
    (NA wl px : ℝ) (c : CoeffArg) (size : Int) (h3 : 3 ≤ size) (S : ℕ) (hS : OddSize size S) (hS2 : S ≤ 1000) (hord : Ordinary (psfPols o) NA wl px c S)
    (E : ℝ) (hE : E = quadratureError ((coeffValues c).map fun x => x / wl) (objectOrders o) (kernelRadius wl NA px S) 320 300 + 2 / 10 ^ 7)
    (w : ℕ → ℕ → ℝ) (hw : w = exactPixel (combination ((coeffValues c).map fun x => x / wl) (objectOrders o)) (opticalScale wl NA px) S)
    (t : ℝ) (ht : normalized = true → (∃ a b, a < S ∧ b < S ∧ w a b = t) ∧ (∀ i j, i < S → j < S → w i j ≤ t) ∧ E < t)
    (W : ℝ) (hW : W = ∑ a ∈ Finset.range S, ∑ b ∈ Finset.range S, w a b / (if normalized = true then t else 1))
    (hvis : 1 / 2 ^ 50 ≤ W - S * S * kernelBound (2⁻¹ ^ 53) E t normalized)
    (overflow : ℝ → ℝ) (img : Grid) (M : ℝ) (hi : Within img 0 M) (hmax : IsMax img M) (hM : 1 / 2 ^ 50 ≤ M)
    (ext : ℤ → ℤ → ℝ) (hx : Reflected img.entry img.rows img.cols ext)
    (d : ℝ) (hd : d = imageError (2⁻¹ ^ 53) S (kernelBound (2⁻¹ ^ 53) E t normalized) W * M) :
    ∃ o₁ o₂ o₃ : PsfObj, o.setPhysicalProps64 NA wl c px = (.ok (), o₁) ∧ o₁.setCalculationProps size 320 300 = (.ok (), o₂) ∧
      (∃ g, (o₂.calculateFl (psfDoubles s) F' env suppress normalized accelerated (afterCalls before)).1 = .ok g) ∧
      (o₂.calculateFl (psfDoubles s) F' env suppress normalized accelerated (afterCalls before)).2.1 = o₃ ∧
      LikeIdeal (o₃.convoluteImgFl (psfDoubles s) overflow .float img) img (idealImage w S ext) M d (2⁻¹ ^ 53) ∧
      ∀ lo hi : Int, lo ≤ 0 → M ≤ hi → d < 1 → LikeIdealInt (o₃.convoluteImgFl (psfDoubles s) overflow (.int lo hi) img) lo hi img (idealImage w S ext) d := by
  obtain ⟨o₁, o₂, g, e1, e2, e3, e4, k1, k2⟩ := workflow_double s hs F' hF' o hm before env hj suppress normalized accelerated hsup NA wl px c size h3 S hS hord E hE w hw t ht
  have hF := psfDoubles_accurate s hs.1 hs.2
  obtain ⟨o₁', e1', st⟩ := set_physical_props_double o hm (fun z hz => ⟨(hsup z hz).1, (hord.orders z hz).trans (by norm_num)⟩) NA wl px hord.doubles hord.allowed c hord.fits hord.coeffs
  obtain rfl : o₁' = o₁ := by rw [e1] at e1'; exact (Prod.mk.inj e1').2.symm
  have e2' : o₁'.setCalculationProps size 320 300 = (.ok (), { o₁' with kernelSize := makeOdd size, nR := 320, nPhi := 300 }) := by
    unfold PsfObj.setCalculationProps
    rw [if_neg (by omega), if_neg (by omega), if_neg (by omega)]
  obtain rfl : { o₁' with kernelSize := makeOdd size, nR := 320, nPhi := 300 } = o₂ := by rw [e2] at e2'; exact (Prod.mk.inj e2').2.symm
  have hset : ({ o₁' with kernelSize := makeOdd size, nR := 320, nPhi := 300 } : PsfObj).propsSet = true := st.propsSet
  have hpols : psfPols { o₁' with kernelSize := makeOdd size, nR := 320, nPhi := 300 } ≠ [] := by
    unfold psfPols
    dsimp only
    rw [st.zernpol, st.polynomials]
    rcases hm with ⟨z, hz, -⟩ | ⟨hz, hl⟩
    · rw [hz]; simp
    · rw [hz]; dsimp only; intro h; rw [h] at hl; simp at hl
  have hg0 := calculate_nonneg (doubles_keep_sign s) hsign env _ hset hpols suppress normalized accelerated _ g e3
  have hw0 : ∀ a b, 0 ≤ w a b := fun a b => by rw [hw]; exact exactPixel_nonneg _ _ S a b
  obtain ⟨τ, hτ⟩ : ∃ τ : ℝ, τ = if normalized = true then t else 1 := ⟨_, rfl⟩
  have hτ0 : 0 < τ := by
    rw [hτ]
    split
    · rename_i hn
      obtain ⟨⟨a, b, ha, hb, e⟩, _, h⟩ := ht hn
      obtain ⟨_, _, g', _, _, _, _, hk'⟩ := workflow_double_raw s hs F' hF' o hm before env hj accelerated hsup NA wl px c size h3 S hS hord
      have hE0 : 0 ≤ E := by
        rw [hE]
        exact (abs_nonneg _).trans (hk'.2.2 a b ha hb)
      linarith
    · norm_num
  rw [← hτ] at hW
  have hk : KernelWithin (kernelBound (2⁻¹ ^ 53) E t normalized) S (fun a b => w a b / τ) g := by
    cases normalized with
    | false =>
      have := k1 rfl
      rw [hτ]
      simpa [kernelBound] using this
    | true =>
      have := k2 rfl
      rw [hτ]
      simpa [kernelBound] using this
  have hS3 : (S : ℝ) ≤ 1000 := by exact_mod_cast hS2
  have hSS : S * S ≤ 10 ^ 6 := by nlinarith
  have hrnd : (1 + (2⁻¹ : ℝ) ^ 53) ^ (S * S + 1) ≤ 5 / 4 := by
    have h0 := pow_double (S * S + 1) (by omega)
    have hc : ((S * S + 1 : ℕ) : ℝ) ≤ 10 ^ 7 := by exact_mod_cast (by omega : S * S + 1 ≤ 10 ^ 7)
    linarith
  have hW0 : 0 < W := by
    have hS0 : 0 < S := by have := hS.1; omega
    have : 0 ≤ kernelBound (2⁻¹ ^ 53) E t normalized := (abs_nonneg _).trans (hk.2.2 0 0 hS0 hS0)
    have h1 : (0 : ℝ) ≤ S * S * kernelBound (2⁻¹ ^ 53) E t normalized := by positivity
    have h2 : (0 : ℝ) < 1 / 2 ^ 50 := by positivity
    linarith
  have hide : idealImage (fun a b => w a b / τ) S ext = idealImage w S ext := by
    funext i j
    exact ideal_scale w S ext τ hτ0.ne' i j
  have main := like_ideal hF overflow img g S (fun a b => w a b / τ) _ hk (fun a b _ _ => hg0 a b) (fun a b _ _ => div_nonneg (hw0 a b) hτ0.le) W hW hvis (by omega) hrnd M hi hmax hM ext hx
  rw [hide, ← hd] at main
  refine ⟨o₁', _, _, e1, e2, ⟨g, e3⟩, e4, main, fun lo hi' hlo hhi hd1 => ?_⟩
  obtain ⟨it, jt, hit, hjt, et⟩ := hmax.2
  have hn : NonEmpty img := ⟨by omega, by omega⟩
  have h2 : (0 : ℝ) < M := lt_of_lt_of_le (by positivity) hM
  refine like_ideal_int overflow lo hi' ⟨hlo, ?_⟩ img g _ M d _ main hd1 fun i j => ?_
  · have : (0 : ℝ) ≤ hi' := by linarith
    exact_mod_cast this
  · have hr := ideal_within img hn ext hx (fun a b => w a b / τ) S (fun a b _ _ => div_nonneg (hw0 a b) hτ0.le) (hW ▸ hW0) 0 M hi i j
    rw [hide] at hr
    have : (lo : ℝ) ≤ 0 := by exact_mod_cast hlo
    exact ⟨by linarith [hr.1], by linarith [hr.2]⟩

/-- The hypotheses are met: an object for the coma with the coefficient 0, 3 x 3 pixels of 1/32, wavelength 1/2, `NA = 1`, normalised or not, and an image with one bright pixel. -/
example (normalized suppress : Bool) (overflow : ℝ → ℝ) : ∃ (o : PsfObj) (E W d : ℝ) (w : ℕ → ℕ → ℝ) (o₁ o₂ o₃ : PsfObj), psfPols o = [⟨-1, 3, 7, 7, .int 7⟩] ∧ E < 0.02 ∧ 1 ≤ W ∧
    o.setPhysicalProps64 1 (1 / 2) (.num 0) (1 / 32) = (.ok (), o₁) ∧ o₁.setCalculationProps 3 320 300 = (.ok (), o₂) ∧
    (o₂.calculateFl (psfDoubles (sumFromLeft binary64)) (psfDoubles (sumFromLeft binary64)) ⟨true, 100, besselJ1⟩ suppress normalized none (afterCalls [])).2.1 = o₃ ∧
    d = imageError (2⁻¹ ^ 53) 3 (kernelBound (2⁻¹ ^ 53) E 1 normalized) W * 15 ∧
    LikeIdeal (o₃.convoluteImgFl (psfDoubles (sumFromLeft binary64)) overflow .float spotImg) spotImg
      (idealImage w 3 fun x y => spotImg.entry (reflectIndex spotImg.rows x) (reflectIndex spotImg.cols y)) 15 d (2⁻¹ ^ 53) := by
  have b : ∀ e : ℤ, -1074 ≤ e → binary64 ((2 : ℝ) ^ e) = 2 ^ e := fun e he => by simpa using binary64_exact 1 e (by norm_num) he
  have b0 : binary64 1 = 1 := by simpa using b 0 (by norm_num)
  have b1 : binary64 (1 / 2) = 1 / 2 := by have := b (-1) (by norm_num); norm_num at this ⊢; exact this
  have b5 : binary64 (1 / 32) = 1 / 32 := by have := b (-5) (by norm_num); norm_num at this ⊢; exact this
  have big : (1 : ℝ) ≤ 2 ^ 500 := one_le_pow₀ (by norm_num)
  have small : (2 : ℝ) ^ (-500 : ℤ) ≤ 1 / 32 := (zpow_le_zpow_right₀ (by norm_num) (by norm_num : (-500 : ℤ) ≤ -5)).trans (by norm_num)
  have hpi := Real.pi_gt_three
  have hpi2 := Real.pi_lt_d2
  obtain ⟨o, ho⟩ : ∃ o : PsfObj, o = { psfDefault with zernpol := some ⟨-1, 3, 7, 7, .int 7⟩, airy := false } := ⟨_, rfl⟩
  have hm : MadeFor o := Or.inl ⟨⟨-1, 3, 7, 7, .int 7⟩, by rw [ho], by rw [ho]; rfl, by rw [ho]; decide⟩
  have hp : psfPols o = [⟨-1, 3, 7, 7, .int 7⟩] := by rw [ho]; rfl
  have hoo : objectOrders o = [(-1, 3)] := by unfold objectOrders; rw [hp]; rfl
  have hord : Ordinary (psfPols o) 1 (1 / 2) (1 / 32) (.num 0) 3 := by
    rw [hp]
    refine ⟨⟨b0, b1, b5, small.trans (by norm_num), small.trans (by norm_num), le_trans (by norm_num) big, le_trans (by norm_num) big⟩, ?_, ?_, by norm_num, by norm_num, rfl, ?_, ?_, ?_, ?_, ?_⟩
    · unfold PhysicalOk; norm_num
    · rw [le_div_iff₀ (by norm_num)]; norm_num; linarith
    · intro x hx
      obtain rfl : x = 0 := by simpa [coeffValues] using hx
      exact binary64_zero
    · simp [coeffValues]; norm_num
    · simp
    · intro z hz
      obtain rfl : z = ⟨-1, 3, 7, 7, .int 7⟩ := List.mem_singleton.1 hz
      decide
    · unfold opticalScale; norm_num at hpi2 ⊢; linarith
  have hsup : ∀ z ∈ psfPols o, Supported ⟨true, 100, besselJ1⟩ none z := by
    intro z hz
    rw [hp] at hz
    obtain rfl : z = ⟨-1, 3, 7, 7, .int 7⟩ := List.mem_singleton.1 hz
    exact ⟨by decide, by decide⟩
  obtain ⟨E, hE⟩ : ∃ E, E = quadratureError ((coeffValues (.num 0)).map fun x => x / (1 / 2)) (objectOrders o) (kernelRadius (1 / 2) 1 (1 / 32) 3) 320 300 + 2 / 10 ^ 7 := ⟨_, rfl⟩
  have hcomb : combination ((coeffValues (.num 0)).map fun x => x / (1 / 2)) (objectOrders o) = fun _ _ => (0 : ℝ) := by
    rw [hoo]; funext x y; simp [coeffValues, combination]
  obtain ⟨w, hw⟩ : ∃ w, w = exactPixel (combination ((coeffValues (.num 0)).map fun x => x / (1 / 2)) (objectOrders o)) (opticalScale (1 / 2) 1 (1 / 32)) 3 := ⟨_, rfl⟩
  have hw' : w = exactPixel (fun _ _ => (0 : ℝ)) (opticalScale (1 / 2) 1 (1 / 32)) 3 := by rw [hw, hcomb]
  have hE2 : E < 0.02 := by
    rw [hE, hoo]
    simp only [quadratureError, weighted, rimCurvature, rimSlope, coeffValues, kernelRadius, opticalScale, List.zip_cons_cons, List.zip_nil_right, List.map_cons, List.map_nil, List.sum_cons, List.sum_nil]
    norm_num
    norm_num at hpi2
    have h1 : Real.pi ^ 2 ≤ 9.93 := by nlinarith
    have h3 : Real.pi ^ 3 ≤ 32 := by nlinarith
    have h4 : Real.pi ^ 4 ≤ 99 := by nlinarith
    nlinarith
  have hE0 : 0 ≤ E := by
    rw [hE, hoo]
    simp only [quadratureError, weighted, rimCurvature, rimSlope, coeffValues, kernelRadius, opticalScale, List.zip_cons_cons, List.zip_nil_right, List.map_cons, List.map_nil, List.sum_cons, List.sum_nil]
    have := Real.pi_pos
    norm_num
    positivity
  have h11 : w 1 1 = 1 := by rw [hw']; unfold exactPixel; norm_num [exactPsf_center]
  have hwn : ∀ a c, 0 ≤ w a c := fun a c => by rw [hw']; exact exactPixel_nonneg _ _ 3 a c
  obtain ⟨W, hW⟩ : ∃ W, W = ∑ a ∈ Finset.range 3, ∑ c ∈ Finset.range 3, w a c / (if normalized = true then (1 : ℝ) else 1) := ⟨_, rfl⟩
  have hW1 : 1 ≤ W := by
    rw [hW]
    simp only [ite_self, div_one]
    refine le_trans (le_trans h11.ge ?_) (Finset.single_le_sum (f := fun a => ∑ c ∈ Finset.range 3, w a c) (fun a _ => Finset.sum_nonneg fun c _ => hwn a c) (Finset.mem_range.2 (by norm_num : 1 < 3)))
    exact Finset.single_le_sum (f := fun c => w 1 c) (fun c _ => hwn 1 c) (Finset.mem_range.2 (by norm_num : 1 < 3))
  have hkb : kernelBound (2⁻¹ ^ 53) E 1 normalized ≤ 0.05 := by
    unfold kernelBound
    split
    · have h1 : 2 * E / (1 - E) ≤ 0.041 := by
        rw [div_le_iff₀ (by norm_num at hE2; linarith)]
        norm_num at hE2 ⊢
        linarith
      norm_num at h1 ⊢
      linarith
    · norm_num at hE2 ⊢; linarith
  have hvis : 1 / 2 ^ 50 ≤ W - (3 : ℕ) * (3 : ℕ) * kernelBound (2⁻¹ ^ 53) E 1 normalized := by
    norm_num at hkb ⊢
    linarith
  obtain ⟨o₁, o₂, o₃, e1, e2, -, e3, e4, -⟩ := workflow_image_double (sumFromLeft binary64) sumFromLeft_sums (psfDoubles (sumFromLeft binary64))
    ⟨accurate_8 (psfDoubles_accurate _ sumFromLeft_sums.1 sumFromLeft_sums.2), radial_nodes_default, nodes_unit 320 (by norm_num) (by norm_num)⟩ (doubles_keep_sign _) o hm []
    ⟨true, 100, besselJ1⟩ (fun x _ => by simp; positivity) suppress normalized none hsup 1 (1 / 2) (1 / 32) (.num 0) 3 le_rfl 3 ⟨by norm_num, Or.inl rfl⟩ (by norm_num) hord E hE w hw 1
    (fun _ => ⟨⟨1, 1, by norm_num, by norm_num, h11⟩, fun i j _ _ => by rw [hw']; exact exactPsf_const_le _ _ _, by norm_num at hE2 ⊢; linarith⟩) W hW hvis overflow spotImg 15
    (fun i j _ _ => by unfold spotImg; simp only []; split_ifs <;> norm_num)
    ⟨fun i j _ _ => by unfold spotImg; simp only []; split_ifs <;> norm_num, ⟨0, 1, by decide, by decide, by simp [spotImg]⟩⟩ (by norm_num) _ spot_reflected _ rfl
  exact ⟨o, E, W, _, w, o₁, o₂, o₃, hp, hE2, hW1, e1, e2, e3, rfl, e4⟩

end Verif.Props
