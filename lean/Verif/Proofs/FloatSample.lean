import Verif.Model.FloatSample
import Verif.Props.Sample
import Verif.Proofs.FloatKernelSize
import Mathlib.Analysis.Calculus.MeanValue
import Mathlib.Analysis.SpecialFunctions.ExpDeriv
import Mathlib.Analysis.Complex.ExponentialBounds

/-! # The sample image in double precision -/

namespace Verif.Proofs
open Verif.Model

/-! ### The bump function -/

/-- The bump as a function of the eighth power. -/
noncomputable def bump (b t : ℝ) : ℝ := Real.exp (1 - b / (b - t))

theorem bump_slope (s : ℝ) (hs : 0 ≤ s) : s ^ 2 * Real.exp (1 - s) ≤ 1.4720 := by
  have h1 := Real.add_one_le_exp (s / 2 - 1)
  have h2 : (s / 2) ^ 2 ≤ Real.exp (s / 2 - 1) ^ 2 := pow_le_pow_left₀ (by linarith) (by linarith) 2
  rw [← Real.exp_nat_mul] at h2
  have h3 : Real.exp (((2 : ℕ) : ℝ) * (s / 2 - 1)) * Real.exp (1 - s) = Real.exp (-1) := by
    rw [← Real.exp_add]; congr 1; push_cast; ring
  have h4 := mul_le_mul_of_nonneg_right h2 (Real.exp_pos (1 - s)).le
  rw [h3] at h4
  have h5 := Real.exp_neg_one_lt_d9
  nlinarith

theorem bump_lip (t t' : ℝ) (h : t < 1.25 ^ 8) (h' : t' < 1.25 ^ 8) : |bump (1.25 ^ 8) t' - bump (1.25 ^ 8) t| ≤ 0.25 * |t' - t| := by
  have hd : ∀ x ∈ Set.Iio (1.25 ^ 8 : ℝ), HasDerivWithinAt (bump (1.25 ^ 8)) (Real.exp (1 - 1.25 ^ 8 / (1.25 ^ 8 - x)) * -(1.25 ^ 8 / (1.25 ^ 8 - x) ^ 2)) (Set.Iio (1.25 ^ 8)) x := by
    intro x hx
    have hx' : (1.25 ^ 8 : ℝ) - x ≠ 0 := by simp only [Set.mem_Iio] at hx; linarith
    refine HasDerivAt.hasDerivWithinAt ?_
    unfold bump
    refine HasDerivAt.exp ?_
    have h1 : HasDerivAt (fun y : ℝ => (1.25 ^ 8 : ℝ) - y) (-1) x := by simpa using (hasDerivAt_id x).const_sub (1.25 ^ 8 : ℝ)
    have h2 := (h1.inv hx').const_mul (1.25 ^ 8 : ℝ) |>.const_sub 1
    refine (h2.congr_deriv ?_)
    field_simp
  have := Convex.norm_image_sub_le_of_norm_hasDerivWithin_le (C := 0.25) hd ?_ (convex_Iio _) h h'
  · simpa [Real.norm_eq_abs] using this
  · intro x hx
    simp only [Set.mem_Iio] at hx
    have hx' : (0 : ℝ) < 1.25 ^ 8 - x := by linarith
    rw [Real.norm_eq_abs, abs_mul, abs_neg, Real.abs_exp, abs_of_nonneg (by positivity)]
    have hs := bump_slope (1.25 ^ 8 / (1.25 ^ 8 - x)) (by positivity)
    have e : (1.25 ^ 8 : ℝ) / (1.25 ^ 8 - x) ^ 2 = (1.25 ^ 8 / (1.25 ^ 8 - x)) ^ 2 / 1.25 ^ 8 := by field_simp
    rw [e]
    generalize Real.exp (1 - 1.25 ^ 8 / (1.25 ^ 8 - x)) = E at *
    generalize (1.25 ^ 8 / (1.25 ^ 8 - x)) = s at *
    rw [mul_div_assoc', div_le_iff₀ (by positivity)]
    norm_num at hs ⊢
    nlinarith

theorem bump_zero : bump (1.25 ^ 8) 0 = 1 := by
  unfold bump; rw [sub_zero, div_self (by positivity), sub_self, Real.exp_zero]

theorem bump_nonneg (b t : ℝ) : 0 ≤ bump b t := (Real.exp_pos _).le

/-- The exponential of a slightly wrong negative exponent. -/
theorem exp_perturbed (s η : ℝ) (hs : 0 ≤ s) (hη : |η| ≤ 1 / 2) : |Real.exp (-(s * (1 + η))) - Real.exp (-s)| ≤ |η| := by
  have key : ∀ a c : ℝ, a ≤ c → Real.exp c - Real.exp a ≤ (c - a) * Real.exp c := by
    intro a c _
    have h1 := Real.add_one_le_exp (a - c)
    have h2 : Real.exp a = Real.exp (a - c) * Real.exp c := by rw [← Real.exp_add]; congr 1; ring
    have := mul_le_mul_of_nonneg_right h1 (Real.exp_pos c).le
    rw [← h2] at this
    linarith
  have hse : ∀ c : ℝ, c ≤ -(s / 2) → s * Real.exp c ≤ 1 := by
    intro c hc
    have h1 := Real.add_one_le_exp (s / 2 - 1)
    have h2 : Real.exp (s / 2 - 1) * Real.exp (-(s / 2)) = Real.exp (-1) := by rw [← Real.exp_add]; congr 1; ring
    have h3 := mul_le_mul_of_nonneg_right h1 (Real.exp_pos (-(s / 2))).le
    rw [h2] at h3
    have h4 := Real.exp_neg_one_lt_d9
    have h5 := mul_le_mul_of_nonneg_left (Real.exp_le_exp.2 hc) hs
    norm_num at h4
    nlinarith
  rw [abs_le] at hη
  rcases le_total 0 η with h | h
  · rw [abs_of_nonneg h, abs_sub_comm, abs_of_nonneg (by rw [sub_nonneg]; exact Real.exp_le_exp.2 (by nlinarith))]
    refine (key _ _ (by nlinarith)).trans ?_
    have := hse (-s) (by linarith)
    have h1 : (-s - -(s * (1 + η))) * Real.exp (-s) = η * (s * Real.exp (-s)) := by ring
    rw [h1]; nlinarith
  · rw [abs_of_nonpos h, abs_of_nonneg (by rw [sub_nonneg]; exact Real.exp_le_exp.2 (by nlinarith))]
    refine (key _ _ (by nlinarith)).trans ?_
    have := hse (-(s * (1 + η))) (by nlinarith)
    have h1 : (-(s * (1 + η)) - -s) * Real.exp (-(s * (1 + η))) = -η * (s * Real.exp (-(s * (1 + η)))) := by ring
    rw [h1]; nlinarith

/-! ### The chain of rounded operations -/

/-- What is assumed of `numpy.exp` (for negative arguments) and of the eighth power (up to 5/4): errors of at most 10⁻¹⁴. -/
structure BumpAccurate (A : BumpArith) : Prop where
  exp : ∀ y, y ≤ 0 → |A.exp y - Real.exp y| ≤ 1 / 10 ^ 14
  pow8 : ∀ x, 0 ≤ x → x ≤ 5 / 4 → |A.pow8 x - x ^ 8| ≤ 1 / 10 ^ 14

theorem err64 (x B : ℝ) (h : |x| ≤ B) (hB : 1 ≤ B) : |binary64 x - x| ≤ B / 2 ^ 53 := by
  refine (binary64_error x).trans ?_
  have : max |x| 1 ≤ B := max_le h hB
  have e : (2⁻¹ : ℝ) ^ 53 = 1 / 2 ^ 53 := by norm_num
  rw [e]
  calc 1 / 2 ^ 53 * max |x| 1 ≤ 1 / 2 ^ 53 * B := mul_le_mul_of_nonneg_left this (by positivity)
    _ = B / 2 ^ 53 := by ring

/-- The value of the bump in double precision, from the computed ratio on. -/
theorem bump_chain (A : BumpArith) (hA : BumpAccurate A) (x : ℝ) (h0 : 0 ≤ x) (h1 : x ≤ 1.25 - 2.9e-7) :
    |binary64 (binary64 (Real.exp 1) * A.exp (binary64 (A.pow8 (1 + 0.25) / binary64 (A.pow8 x - A.pow8 (1 + 0.25))))) - bump (1.25 ^ 8) (x ^ 8)| ≤ 2e-13 ∧
    x ^ 8 < 1.25 ^ 8 := by
  have e125 : (1 + 0.25 : ℝ) = 1.25 := by norm_num
  rw [e125]
  have hb := hA.pow8 1.25 (by norm_num) (by norm_num)
  have hx := hA.pow8 x h0 (by norm_num at h1 ⊢; linarith)
  have hgap : x ^ 8 ≤ 1.25 ^ 8 - 1.3e-6 := by
    have h2 : x ^ 7 ≤ 1.25 ^ 7 := pow_le_pow_left₀ h0 (by norm_num at h1 ⊢; linarith) 7
    have h3 : x ^ 8 = x ^ 7 * x := by ring
    have h4 : x ^ 7 * x ≤ 1.25 ^ 7 * (1.25 - 2.9e-7) := mul_le_mul h2 h1 h0 (by positivity)
    rw [h3]
    refine h4.trans ?_
    norm_num
  have hx0 : 0 ≤ x ^ 8 := by positivity
  refine ⟨?_, by norm_num at hgap ⊢; linarith⟩
  generalize A.pow8 1.25 = B at *
  generalize A.pow8 x = X at *
  generalize x ^ 8 = t at *
  have hbv : (5.9604 : ℝ) ≤ 1.25 ^ 8 ∧ (1.25 ^ 8 : ℝ) ≤ 5.9605 := by norm_num
  have hpos : (0 : ℝ) < 1.25 ^ 8 := by positivity
  have hlip := bump_lip
  generalize (1.25 : ℝ) ^ 8 = b at *
  rw [abs_le] at hb hx
  have hz : |X - B| ≤ 6 := by rw [abs_le]; norm_num at hb hx hgap hbv ⊢; constructor <;> linarith
  have hden := err64 (X - B) 6 hz (by norm_num)
  obtain ⟨den, hden'⟩ : ∃ d, d = binary64 (X - B) := ⟨_, rfl⟩
  rw [← hden'] at hden ⊢
  rw [abs_le] at hden
  -- den = -(b - t')
  obtain ⟨t', ht'⟩ : ∃ t', t' = b + den := ⟨_, rfl⟩
  have htt : |t' - t| ≤ 2.2e-14 := by rw [abs_le]; norm_num at hb hx hden ⊢; constructor <;> linarith
  have hlt : 1.2e-6 ≤ b - t' := by rw [abs_le] at htt; norm_num at htt hgap ⊢; linarith
  have hle : b - t' ≤ 6 := by rw [abs_le] at htt; norm_num at htt hgap hbv ⊢; linarith
  have hden2 : den = -(b - t') := by rw [ht']; ring
  obtain ⟨s, hs⟩ : ∃ s, s = b / (b - t') := ⟨_, rfl⟩
  have hd0 : 0 < b - t' := lt_of_lt_of_le (by norm_num) hlt
  have hs1 : 0.99 ≤ s := by rw [hs, le_div_iff₀ hd0]; norm_num at hle hbv ⊢; linarith
  have hs0 : 0 ≤ s := by norm_num at hs1; linarith
  -- the quotient
  have hq : B / den = -(s * (B / b)) := by
    rw [hden2, hs]; field_simp
  have hBb : |B / b - 1| ≤ 1 / 10 ^ 14 := by
    have : B / b - 1 = (B - b) / b := by field_simp
    rw [this, abs_div, abs_of_pos hpos, div_le_iff₀ hpos]
    have : |B - b| ≤ 1 / 10 ^ 14 := by rw [abs_le]; exact hb
    refine this.trans ?_
    have : (1 : ℝ) ≤ b := by norm_num at hbv; linarith
    exact le_mul_of_one_le_right (by positivity) this
  have hqabs : |B / den| ≤ 1.1 * s := by
    rw [hq, abs_neg, abs_mul, abs_of_nonneg hs0]
    have : |B / b| ≤ 1.1 := by rw [abs_le] at hBb ⊢; norm_num at hBb ⊢; constructor <;> linarith
    nlinarith
  have hy := err64 (B / den) (1.1 * s) hqabs (by norm_num at hs1 ⊢; linarith)
  obtain ⟨y, hy'⟩ : ∃ y, y = binary64 (B / den) := ⟨_, rfl⟩
  rw [← hy'] at hy ⊢
  obtain ⟨η, hη⟩ : ∃ η, η = -y / s - 1 := ⟨_, rfl⟩
  have hspos : 0 < s := by norm_num at hs1; linarith
  have hyη : y = -(s * (1 + η)) := by rw [hη]; field_simp; ring
  have hηb : |η| ≤ 1.1e-14 := by
    have e : η = (B / b - 1) - (y - B / den) / s := by
      rw [hη, hq]; field_simp; ring
    have h2 : |(y - B / den) / s| ≤ 1.1 / 2 ^ 53 := by
      rw [abs_div, abs_of_pos hspos, div_le_iff₀ hspos]
      refine hy.trans (le_of_eq ?_)
      ring
    rw [e]
    refine (abs_sub _ _).trans ?_
    norm_num at h2 hBb ⊢; linarith
  have hexp := exp_perturbed s η hs0 (hηb.trans (by norm_num))
  rw [← hyη] at hexp
  have hyneg : y ≤ 0 := by
    rw [hyη]
    rw [abs_le] at hηb
    have : 0 ≤ s * (1 + η) := mul_nonneg hs0 (by norm_num at hηb; linarith)
    linarith
  have hA2 := hA.exp y hyneg
  have hes : Real.exp (-s) ≤ 1 := by rw [Real.exp_le_one_iff]; linarith
  have hes0 := Real.exp_pos (-s)
  -- the product with e
  have he := err64 (Real.exp 1) 3 (by rw [Real.abs_exp]; have := Real.exp_one_lt_d9; norm_num at this; linarith) (by norm_num)
  have heu := Real.exp_one_lt_d9
  have hel := Real.exp_one_gt_d9
  obtain ⟨E, hE⟩ : ∃ E, E = A.exp y := ⟨_, rfl⟩
  rw [← hE] at hA2 ⊢
  have hEn : |E - Real.exp (-s)| ≤ 2.1e-14 := by
    have : E - Real.exp (-s) = (E - Real.exp y) + (Real.exp y - Real.exp (-s)) := by ring
    rw [this]
    refine (abs_add_le _ _).trans ?_
    norm_num at hA2 hηb ⊢; linarith
  obtain ⟨e64, he64⟩ : ∃ e64, e64 = binary64 (Real.exp 1) := ⟨_, rfl⟩
  rw [← he64] at he ⊢
  have hprod : |e64 * E - bump b t'| ≤ 6.5e-14 := by
    have : bump b t' = Real.exp 1 * Real.exp (-s) := by unfold bump; rw [← Real.exp_add, hs]; congr 1
    rw [this]
    have e2 : e64 * E - Real.exp 1 * Real.exp (-s) = (e64 - Real.exp 1) * E + Real.exp 1 * (E - Real.exp (-s)) := by ring
    rw [e2]
    have hEabs : |E| ≤ 1.1 := by rw [abs_le] at hEn ⊢; norm_num at hEn ⊢; constructor <;> linarith
    refine (abs_add_le _ _).trans ?_
    rw [abs_mul, abs_mul, Real.abs_exp]
    have a1 : |e64 - Real.exp 1| * |E| ≤ 3 / 2 ^ 53 * 1.1 := mul_le_mul he hEabs (abs_nonneg _) (by positivity)
    have a2 : Real.exp 1 * |E - Real.exp (-s)| ≤ 2.7182818286 * 2.1e-14 := mul_le_mul heu.le hEn (abs_nonneg _) (by norm_num)
    norm_num at a1 a2 ⊢; linarith
  have hbt : bump b t' ≤ 3 := by
    unfold bump
    have : (1 : ℝ) - b / (b - t') ≤ 1 := by rw [← hs]; linarith
    have := Real.exp_le_exp.2 this
    norm_num at heu; linarith
  have hbt0 := bump_nonneg b t'
  have hfin := err64 (e64 * E) 4 (by rw [abs_le] at hprod ⊢; norm_num at hprod ⊢; constructor <;> linarith) (by norm_num)
  have hl : |bump b t' - bump b t| ≤ 0.25 * |t' - t| := hlip t t' (by norm_num at hgap ⊢; linarith) (by linarith)
  have e3 : binary64 (e64 * E) - bump b t = (binary64 (e64 * E) - e64 * E) + (e64 * E - bump b t') + (bump b t' - bump b t) := by ring
  rw [e3]
  refine (abs_add_three _ _ _).trans ?_
  norm_num at hfin hprod hl htt ⊢; linarith

/-- The computed ratio of the distance and the extended radius. -/
theorem ratio64 (r d : ℝ) (h1 : 1 ≤ r) (h2 : r ≤ 2 ^ 20) (h0 : 0 ≤ d) (h : d < binary64 (r * (1 + 0.25))) :
    |binary64 (d / binary64 (r + 0.25)) - d / (r + 0.25)| ≤ 1e-15 ∧ 0 ≤ binary64 (d / binary64 (r + 0.25)) ∧ binary64 (d / binary64 (r + 0.25)) ≤ 1.25 - 2.9e-7 := by
  have hL := err64 (r * (1 + 0.25)) (r * (1 + 0.25)) (by rw [abs_of_nonneg (by positivity)]) (by norm_num; linarith)
  have hW := err64 (r + 0.25) (r + 0.25) (by rw [abs_of_nonneg (by positivity)]) (by norm_num; linarith)
  generalize binary64 (r * (1 + 0.25)) = L at *
  generalize binary64 (r + 0.25) = W at *
  rw [abs_le] at hL hW
  have hWr : r ≤ W := by
    have : (r + 0.25) / 2 ^ 53 ≤ 0.25 := by rw [div_le_iff₀ (by positivity)]; norm_num at h2 ⊢; linarith
    linarith
  have hWp : 0 < W := by linarith
  have hRp : 0 < r + 0.25 := by norm_num; linarith
  have hd : d ≤ 1.26 * r := by norm_num at hL ⊢; linarith
  have hq : d / W ≤ 1.26 := by rw [div_le_iff₀ hWp]; nlinarith
  have hq0 : 0 ≤ d / W := by positivity
  have e1 : d / W - d / (r + 0.25) = d / W * ((r + 0.25 - W) / (r + 0.25)) := by field_simp
  have e2 : |(r + 0.25 - W) / (r + 0.25)| ≤ 1 / 2 ^ 53 := by
    rw [abs_div, abs_of_pos hRp, div_le_iff₀ hRp, abs_le]
    constructor <;> linarith
  have e3 : |d / W - d / (r + 0.25)| ≤ 1.26 * (1 / 2 ^ 53) := by
    rw [e1, abs_mul, abs_of_nonneg hq0]
    exact mul_le_mul hq e2 (abs_nonneg _) (by norm_num)
  have e4 := err64 (d / W) 1.26 (by rw [abs_of_nonneg hq0]; exact hq) (by norm_num)
  have e5 : |binary64 (d / W) - d / (r + 0.25)| ≤ 1e-15 := by
    have : binary64 (d / W) - d / (r + 0.25) = (binary64 (d / W) - d / W) + (d / W - d / (r + 0.25)) := by ring
    rw [this]
    refine (abs_add_le _ _).trans ?_
    norm_num at e3 e4 ⊢; linarith
  refine ⟨e5, binary64_nonneg hq0, ?_⟩
  have e6 : d / (r + 0.25) ≤ 1.25 - 2.95e-7 := by
    rw [div_le_iff₀ hRp]
    have : d ≤ r * 1.25 + r * 1.25 / 2 ^ 53 := by norm_num at hL h ⊢; linarith
    norm_num at this h2 ⊢; linarith
  rw [abs_le] at e5
  norm_num at e5 e6 ⊢; linarith

/-! ### The distance -/

/-- The rounded distance for a squared distance. -/
noncomputable def dist64 (D : ℝ) : ℝ := binary64 ((rint (binary64 (sqrt64 D * 10 ^ 6)) : ℝ) / 10 ^ 6)

theorem bumpDistance64_eq (S i j : Nat) : bumpDistance64 S i j = dist64 (Props.sqDistance (S / 2) i j : ℤ) := rfl

theorem bumpDistance_eq (S i j : Nat) : bumpDistance S i j = npRound 6 (Real.sqrt ((Props.sqDistance (S / 2) i j : ℤ) : ℝ)) := by
  unfold bumpDistance Props.sqDistance
  push_cast
  rfl

theorem dist64_mono {D D' : ℝ} (h0 : 0 ≤ D) (h : D ≤ D') : dist64 D ≤ dist64 D' := by
  unfold dist64 sqrt64
  have h1 := binary64_mono (Real.sqrt_nonneg D) (Real.sqrt_le_sqrt h)
  have h2 := binary64_mono (mul_nonneg (binary64_nonneg (Real.sqrt_nonneg D)) (by positivity : (0 : ℝ) ≤ 10 ^ 6)) (mul_le_mul_of_nonneg_right h1 (by positivity : (0 : ℝ) ≤ 10 ^ 6))
  have h3 := rint_mono h2
  have h4 : 0 ≤ rint (binary64 (binary64 (Real.sqrt D) * 10 ^ 6)) := rint_nonneg (binary64_nonneg (mul_nonneg (binary64_nonneg (Real.sqrt_nonneg D)) (by positivity)))
  refine binary64_mono (div_nonneg (by exact_mod_cast h4) (by positivity)) (div_le_div_of_nonneg_right (by exact_mod_cast h3) (by positivity))

theorem dist64_nonneg (D : ℝ) : 0 ≤ dist64 D := by
  unfold dist64 sqrt64
  refine binary64_nonneg (div_nonneg ?_ (by positivity))
  have := rint_nonneg (binary64_nonneg (mul_nonneg (binary64_nonneg (Real.sqrt_nonneg D)) (by positivity : (0 : ℝ) ≤ 10 ^ 6)))
  exact_mod_cast this

/-- Integer distances are exact. -/
theorem dist64_sq (h : ℕ) (hh : h ≤ 2 ^ 22) : dist64 (((h : ℤ) ^ 2 : ℤ) : ℝ) = h := by
  unfold dist64 sqrt64
  have e1 : Real.sqrt (((h : ℤ) ^ 2 : ℤ) : ℝ) = h := by push_cast; exact Real.sqrt_sq (by positivity)
  have e2 : (h : ℝ) * 10 ^ 6 = ((h * 10 ^ 6 : ℕ) : ℝ) := by push_cast; ring
  have e3 : binary64 ((h * 10 ^ 6 : ℕ) : ℝ) = ((h * 10 ^ 6 : ℕ) : ℤ) := by
    rw [binary64_nat _ (by have : h * 10 ^ 6 ≤ 2 ^ 22 * 10 ^ 6 := Nat.mul_le_mul_right _ hh
                           exact this.trans (by norm_num))]
    simp
  rw [e1, binary64_nat h (hh.trans (by norm_num)), e2, e3, rint_int]
  have e4 : (((h * 10 ^ 6 : ℕ) : ℤ) : ℝ) / 10 ^ 6 = h := by push_cast; field_simp; ring
  rw [e4, binary64_nat h (hh.trans (by norm_num))]

theorem dist64_near (D : ℝ) (h : Real.sqrt D ≤ 3 * 10 ^ 6) : |dist64 D - Real.sqrt D| ≤ 0.502e-6 := by
  unfold dist64 sqrt64
  have h0 := Real.sqrt_nonneg D
  generalize Real.sqrt D = q at *
  have a1 := err64 q (3 * 10 ^ 6) (by rw [abs_of_nonneg h0]; exact h) (by norm_num)
  have b1 := binary64_nonneg h0
  generalize binary64 q = q1 at *
  have a2 := err64 (q1 * 10 ^ 6) (4 * 10 ^ 12) (by rw [abs_le] at a1 ⊢; norm_num at a1 h ⊢; constructor <;> linarith) (by norm_num)
  generalize binary64 (q1 * 10 ^ 6) = q2 at *
  have a3 := rint_near q2
  generalize (rint q2 : ℝ) = q3 at *
  have a4 := err64 (q3 / 10 ^ 6) (5 * 10 ^ 6) (by rw [abs_le] at a1 a2 a3 ⊢; norm_num at a1 a2 a3 h ⊢; constructor <;> linarith) (by norm_num)
  generalize binary64 (q3 / 10 ^ 6) = q4 at *
  rw [abs_le] at *
  norm_num at a1 a2 a3 a4 h ⊢
  constructor <;> linarith

theorem npRound6_near (x : ℝ) : |npRound 6 x - x| ≤ 0.5e-6 := by
  unfold npRound
  have := rint_near (x * 10 ^ (6 : ℤ))
  have e : ((10 : ℝ) ^ (6 : ℤ)) = 10 ^ 6 := by norm_num
  rw [e] at this ⊢
  generalize (rint (x * 10 ^ 6) : ℝ) = k at *
  rw [abs_le] at *
  constructor <;> · norm_num at this ⊢; linarith

theorem inner64_near (r : ℝ) (h1 : 1 ≤ r) (h2 : r ≤ 2 ^ 20) : |bumpInner64 r - 0.25 * r| ≤ 0.502e-6 ∧ 0 < bumpInner64 r := by
  have key : |bumpInner64 r - 0.25 * r| ≤ 0.502e-6 := by
    unfold bumpInner64
    have a1 := err64 (0.25 * r) (2 ^ 20) (by rw [abs_of_nonneg (by positivity)]; norm_num at h2 ⊢; linarith) (by norm_num)
    generalize binary64 (0.25 * r) = q1 at *
    have a2 := npRound6_near q1
    generalize npRound 6 q1 = q2 at *
    have a3 := err64 q2 (2 ^ 20) (by rw [abs_le] at *; norm_num at a1 a2 h1 h2 ⊢; constructor <;> linarith) (by norm_num)
    generalize binary64 q2 = q3 at *
    rw [abs_le] at *
    norm_num at a1 a2 a3 h2 ⊢
    constructor <;> linarith
  refine ⟨key, ?_⟩
  rw [abs_le] at key
  norm_num at key; linarith

end Verif.Proofs
