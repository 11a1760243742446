import Verif.Proofs.FloatConvolve
import Verif.Props.Convolve
import Verif.Props.FloatPsf

/-!
# C83: convolution of images in floating-point arithmetic
-/

namespace Verif.Props
open Verif.Model Verif.Spec Verif.Proofs

theorem elems_map_sum (g : Grid) (f : ℝ → ℝ) : (g.elems.map f).sum = ∑ a ∈ Finset.range g.rows, ∑ b ∈ Finset.range g.cols, f (g.entry a b) := by
  unfold Grid.elems
  rw [List.map_flatMap, Proofs.sum_flatMap, list_sum_range]
  refine Finset.sum_congr rfl fun a _ => ?_
  rw [List.map_map, list_sum_range]
  rfl

theorem elems_length (g : Grid) : g.elems.length = g.rows * g.cols := by
  simp [Grid.elems, List.length_flatMap]

/-- The bound of the relative error of the convolution with `n` weights of the sum `K`, in the arithmetic with the unit roundoff `u`: the roundings, and the weights up to 2⁻⁵²
that `scipy` leaves out. -/
noncomputable def blurError (u : ℝ) (n : ℕ) (K : ℝ) : ℝ := 3 * ((1 + u) ^ (n + 2) - 1) + 2 * (n * (1 / 2 ^ 52) / K)

theorem blurred_float {F : PsfArith} {u η : ℝ} {p : ℕ} (hF : PsfAccurate F u η p) (img k : Grid) (hk : IsPsfKernel k) (hn : NonEmpty img) (M : ℝ) (hw : Within img (-M) M)
    (hM : 1 / 2 ^ 50 ≤ M) (hK : 1 / 2 ^ 50 ≤ k.sum) (hsize : k.rows * k.cols ≤ 2 ^ 50) (hu : (1 + u) ^ (k.rows * k.cols + 1) ≤ 5 / 4) (i j : ℕ) :
    0 < F.sum k.elems ∧ |(fltBlurred F img k).entry i j - (blurred img k).entry i j| ≤ blurError u (k.rows * k.cols) k.sum * M := by
  set n := k.rows * k.cols with hnd
  have hKp : 0 < k.sum := lt_of_lt_of_le (by norm_num) hK
  have hMp : 0 < M := lt_of_lt_of_le (by norm_num) hM
  have hη := hF.eta_small
  have hη0 := hF.eta_pos
  have hn50 : (n : ℝ) ≤ 2 ^ 50 := by exact_mod_cast hsize
  have hnη : n * η ≤ 1 / 2 ^ 150 := by
    calc (n : ℝ) * η ≤ 2 ^ 50 * (1 / 2 ^ 200) := mul_le_mul hn50 hη hη0.le (by positivity)
      _ = 1 / 2 ^ 150 := by norm_num
  have hKM : 1 / 2 ^ 100 ≤ k.sum * M := by
    calc (1 / 2 ^ 100 : ℝ) = 1 / 2 ^ 50 * (1 / 2 ^ 50) := by norm_num
      _ ≤ _ := mul_le_mul hK hM (by norm_num) hKp.le
  have hβ := u_one hF (n + 1)
  have hT : ∀ q ∈ fltAllTerms img k i j, 0 ≤ q.1 ∧ |q.2| ≤ M := by
    intro q hq
    unfold fltAllTerms at hq
    simp only [List.mem_flatMap, List.mem_reverse, List.mem_range, List.mem_map] at hq
    obtain ⟨a, ha, b, hb, rfl⟩ := hq
    exact ⟨hk.nonneg a b ha hb, abs_le.2 (hw _ _ (reflect_lt _ hn.1 _) (reflect_lt _ hn.2 _))⟩
  have hX := blurred_within hk img hn (-M) M hw i j
  rw [blurred_entry hk, ← terms_sum img k i j (fun q => q.1 * q.2)] at hX
  set T := fltAllTerms img k i j with hTd
  set X := (T.map fun q => q.1 * q.2).sum with hXd
  have hXa : |X| ≤ k.sum * M := by
    have := abs_le.2 hX
    rwa [abs_div, abs_of_pos hKp, div_le_iff₀ hKp, mul_comm] at this
  have hTK : (T.map fun q => |q.1|).sum = k.sum := by
    rw [hTd, terms_sum img k i j (fun q => |q.1|)]
    unfold Grid.sum
    exact Finset.sum_congr rfl fun a ha => Finset.sum_congr rfl fun b hb => abs_of_nonneg (hk.nonneg a b (Finset.mem_range.1 ha) (Finset.mem_range.1 hb))
  have hTl : T.length = n := terms_length img k i j
  classical
  set Tf := fltTerms img k i j with hTf
  have hTfm : ∀ q ∈ Tf, q ∈ T := fun q hq => List.mem_of_mem_filter hq
  have hTfl : Tf.length ≤ n := by rw [← hTl]; exact List.length_filter_le _ _
  have hdot := ((dot_er hF Tf M fun q hq => (hT q (hTfm q hq)).2).monoK hF (show 1 + Tf.length ≤ n + 1 by omega) le_rfl).2
  have hmaj : (Tf.map fun q => max (|q.1| * M) η).sum ≤ k.sum * M + n * η := by
    have h1 : (Tf.map fun q => max (|q.1| * M) η).sum ≤ (T.map fun q => max (|q.1| * M) η).sum := by
      refine le_of_eq_of_le ?_ (filter_sum_le T (fun q => |q.1| > 2⁻¹ ^ 52) _ fun q _ => hη0.le.trans (le_max_right _ _))
      rw [hTf]; unfold fltTerms
      congr!
    have h2 := sum_max_le (T.map fun q => |q.1| * M) η hη0.le (by
      intro x hx
      obtain ⟨q, _, rfl⟩ := List.mem_map.1 hx
      positivity)
    rw [List.map_map, List.length_map, hTl, List.sum_map_mul_right, hTK] at h2
    exact h1.trans h2
  have hfil : |(Tf.map fun q => q.1 * q.2).sum - X| ≤ n * (1 / 2 ^ 52 * M) := by
    have := filter_sum T (fun q => |q.1| > 2⁻¹ ^ 52) (fun q => q.1 * q.2) (1 / 2 ^ 52 * M) (by positivity) (by
      intro q hq hc
      rw [abs_mul]
      refine mul_le_mul ?_ (hT q hq).2 (abs_nonneg _) (by positivity)
      push Not at hc
      rwa [inv_pow, ← one_div] at hc)
    rw [hTl] at this
    refine le_of_eq_of_le ?_ this
    rw [hTf]; unfold fltTerms
    congr!
  have hD : |fltDot F.fl Tf - X| ≤ ((1 + u) ^ (n + 1) - 1) * (1.01 * (k.sum * M)) + n * (1 / 2 ^ 52) * M := by
    have t := abs_sub_le (fltDot F.fl Tf) (Tf.map fun q => q.1 * q.2).sum X
    have m : ((1 + u) ^ (n + 1) - 1) * (Tf.map fun q => max (|q.1| * M) η).sum ≤ ((1 + u) ^ (n + 1) - 1) * (1.01 * (k.sum * M)) := by
      refine mul_le_mul_of_nonneg_left (hmaj.trans ?_) (by linarith)
      norm_num at hnη hKM ⊢
      linarith
    nlinarith
  have hKf : |F.sum k.elems - k.sum| ≤ ((1 + u) ^ (n + 1) - 1) * (1.01 * k.sum) := by
    have h1 := hF.sum k.elems
    have e1 : k.elems.sum = k.sum := by
      have := elems_map_sum k id
      simpa [Grid.sum] using this
    have e2 : (k.elems.map fun x => |x|).sum = k.sum := by
      rw [elems_map_sum]
      unfold Grid.sum
      exact Finset.sum_congr rfl fun a ha => Finset.sum_congr rfl fun b hb => abs_of_nonneg (hk.nonneg a b (Finset.mem_range.1 ha) (Finset.mem_range.1 hb))
    have h2 := sum_max_le (k.elems.map fun x => |x|) η hη0.le (by
      intro x hx
      obtain ⟨q, _, rfl⟩ := List.mem_map.1 hx
      positivity)
    rw [List.map_map, List.length_map, elems_length, e2] at h2
    rw [e1, elems_length] at h1
    have h3 : (k.elems.map fun x => max |x| η).sum ≤ 1.01 * k.sum := by
      refine le_trans h2 ?_
      rw [← hnd]
      norm_num at hnη hK ⊢
      linarith
    have h4 := u_mono hF (show n ≤ n + 1 by omega)
    have h5 := u_one hF n
    refine h1.trans (mul_le_mul (by linarith) h3 ?_ (by linarith))
    refine List.sum_nonneg fun x hx => ?_
    obtain ⟨q, _, rfl⟩ := List.mem_map.1 hx
    exact (abs_nonneg q).trans (le_max_left _ _)
  have hηM : η ≤ M := by
    refine le_trans (hη.trans ?_) hM
    norm_num
  obtain ⟨q1, q2⟩ := quotient_bound hF ((1 + u) ^ (n + 1)) ((1 + u) ^ (n + 2)) k.sum (F.sum k.elems) M X (fltDot F.fl Tf) (n * (1 / 2 ^ 52)) hMp hKp hηM hβ hu
    (by positivity) hXa hD hKf (by rw [← pow_succ])
  refine ⟨q1, ?_⟩
  rw [blurred_entry hk, ← terms_sum img k i j (fun q => q.1 * q.2)]
  unfold fltBlurred
  rw [if_pos q1]
  exact q2

theorem fltBlurred_rows (F : PsfArith) (img k : Grid) : (fltBlurred F img k).rows = img.rows ∧ (fltBlurred F img k).cols = img.cols := by
  unfold fltBlurred; split_ifs <;> exact ⟨rfl, rfl⟩

/-- C83. In floating-point arithmetic with the unit roundoff `u`, the convolution of an image of floating-point pixels up to the absolute value `M` without scaling has the shape of the image,
and each pixel differs from the exact one at most by `blurError · M`: about `3 (n + 2) u` for the roundings with `n` pixels of the kernel, and `2 n 2⁻⁵²` divided by the sum of the kernel for its
pixels up to 2⁻⁵², that are left out. -/
theorem convolution_float_error (F : PsfArith) (u η : ℝ) (p : ℕ) (hF : PsfAccurate F u η p) (overflow : ℝ → ℝ) (img k : Grid) (hk : IsPsfKernel k) (hn : NonEmpty img) (M : ℝ)
    (hw : Within img (-M) M) (hM : 1 / 2 ^ 50 ≤ M) (hK : 1 / 2 ^ 50 ≤ k.sum) (hsize : k.rows * k.cols ≤ 2 ^ 50) (hu : (1 + u) ^ (k.rows * k.cols + 1) ≤ 5 / 4) :
    ∃ g e, fltConvoluteImg F overflow .float img k false = .ok (some g) ∧ convoluteImgPsf overflow .float img k false = .ok (some e) ∧
      g.rows = img.rows ∧ g.cols = img.cols ∧ ∀ i j, i < img.rows → j < img.cols → |g.entry i j - e.entry i j| ≤ blurError u (k.rows * k.cols) k.sum * M :=
  ⟨_, _, rfl, unscaled_eq _ _ _ _, (fltBlurred_rows F img k).1, (fltBlurred_rows F img k).2,
    fun i j _ _ => (blurred_float hF img k hk hn M hw hM hK hsize hu i j).2⟩

theorem pow_double (n : ℕ) (hn : n ≤ 10 ^ 7) : (1 + (2⁻¹ : ℝ) ^ 53) ^ n - 1 ≤ n * (1112 / 10 ^ 19) := by
  have h1 : 1 - n * (2⁻¹ : ℝ) ^ 53 ≤ (1 - (2⁻¹ : ℝ) ^ 53) ^ n := by
    have := one_add_mul_le_pow (show (-2 : ℝ) ≤ -(2⁻¹) ^ 53 by norm_num) n
    calc _ = 1 + n * -(2⁻¹ : ℝ) ^ 53 := by ring
      _ ≤ _ := this
      _ = _ := by rw [← sub_eq_add_neg]
  have hn' : (n : ℝ) ≤ 10 ^ 7 := by exact_mod_cast hn
  have h0 : (0 : ℝ) ≤ n := by positivity
  have h2 : (1 + (2⁻¹ : ℝ) ^ 53) ^ n * (1 - n * (2⁻¹ : ℝ) ^ 53) ≤ 1 := by
    calc _ ≤ (1 + (2⁻¹ : ℝ) ^ 53) ^ n * (1 - (2⁻¹ : ℝ) ^ 53) ^ n := mul_le_mul_of_nonneg_left h1 (by positivity)
      _ = (1 - ((2⁻¹ : ℝ) ^ 53) ^ 2) ^ n := by rw [← mul_pow]; ring
      _ ≤ 1 := pow_le_one₀ (by norm_num) (by norm_num)
  clear h1
  generalize (1 + (2⁻¹ : ℝ) ^ 53) ^ n = P at *
  generalize (n : ℝ) = x at *
  by_contra hc
  push Not at hc
  have h3 : 0 < 1 - x * (2⁻¹ : ℝ) ^ 53 := by norm_num at hn' ⊢; linarith
  have h4 : (1 + x * (1112 / 10 ^ 19)) * (1 - x * (2⁻¹ : ℝ) ^ 53) < 1 := lt_of_lt_of_le (mul_lt_mul_of_pos_right (by linarith) h3) h2
  have h5 : x * x ≤ x * 10 ^ 7 := mul_le_mul_of_nonneg_left hn' h0
  norm_num at h4 h5
  nlinarith

theorem blurError_double (n : ℕ) (h9 : 9 ≤ n) (hn : n ≤ 10 ^ 6) (K : ℝ) (hK : 1 ≤ K) : blurError (2⁻¹ ^ 53) n K ≤ n / 10 ^ 15 := by
  unfold blurError
  have h1 := pow_double (n + 2) (by omega)
  have h2 : (n : ℝ) * (1 / 2 ^ 52) / K ≤ n * (1 / 2 ^ 52) := div_le_self (by positivity) hK
  have h3 : (9 : ℝ) ≤ n := by exact_mod_cast h9
  push_cast at h1
  generalize (1 + (2⁻¹ : ℝ) ^ 53) ^ (n + 2) = P at *
  generalize (n : ℝ) * (1 / 2 ^ 52) / K = Q at *
  clear hn
  generalize (n : ℝ) = x at *
  norm_num at *
  linarith

/-- C83. In double precision, whatever the order of the additions of `numpy.sum`: with a kernel of 9 to 10⁶ pixels whose sum is at least 1 (a normalized one), each pixel of the convolved image
of floating-point pixels differs from the exact one at most by `10⁻¹⁵ n M`. -/
theorem convolution_double_error (s : List ℝ → ℝ) (hs : Sums s) (overflow : ℝ → ℝ) (img k : Grid) (hk : IsPsfKernel k) (hn : NonEmpty img) (M : ℝ) (hw : Within img (-M) M)
    (hM : 1 / 2 ^ 50 ≤ M) (hK : 1 ≤ k.sum) (h9 : 9 ≤ k.rows * k.cols) (hsize : k.rows * k.cols ≤ 10 ^ 6) :
    ∃ g e, fltConvoluteImg (psfDoubles s) overflow .float img k false = .ok (some g) ∧ convoluteImgPsf overflow .float img k false = .ok (some e) ∧
      g.rows = img.rows ∧ g.cols = img.cols ∧ ∀ i j, i < img.rows → j < img.cols → |g.entry i j - e.entry i j| ≤ (k.rows * k.cols : ℕ) / 10 ^ 15 * M := by
  have h0 := pow_double (k.rows * k.cols + 1) (by omega)
  have hc : ((k.rows * k.cols + 1 : ℕ) : ℝ) ≤ 10 ^ 7 := by exact_mod_cast (by omega : k.rows * k.cols + 1 ≤ 10 ^ 7)
  obtain ⟨g, e, h1, h2, h3, h4, h5⟩ := convolution_float_error (psfDoubles s) _ _ _ (psfDoubles_accurate s hs.1 hs.2) overflow img k hk hn M hw hM
    (le_trans (by norm_num) hK) (by omega) (by linarith)
  refine ⟨g, e, h1, h2, h3, h4, fun i j hi hj => (h5 i j hi hj).trans ?_⟩
  exact mul_le_mul_of_nonneg_right (blurError_double _ h9 hsize _ hK) (le_trans (by norm_num) hM)

/-- Truncation towards 0 of two numbers that differ by less than 1. -/
theorem trunc_near (v e : ℝ) (h : |v - e| < 1) :
    abs ((if 0 ≤ v then ⌊v⌋ else ⌈v⌉ : Int) - (if 0 ≤ e then ⌊e⌋ else ⌈e⌉ : Int)) ≤ 1 := by
  rw [abs_lt] at h
  obtain ⟨h1, h2⟩ := h
  have v1 := Int.floor_le v
  have v2 := Int.lt_floor_add_one v
  have v3 := Int.le_ceil v
  have v4 := Int.ceil_lt_add_one v
  have e1 := Int.floor_le e
  have e2 := Int.lt_floor_add_one e
  have e3 := Int.le_ceil e
  have e4 := Int.ceil_lt_add_one e
  rw [abs_le]
  split_ifs with a b b
  · constructor
    · have : (⌊e⌋ : ℝ) < ⌊v⌋ + 2 := by linarith
      have : ⌊e⌋ < ⌊v⌋ + 2 := by exact_mod_cast this
      omega
    · have : (⌊v⌋ : ℝ) < ⌊e⌋ + 2 := by linarith
      have : ⌊v⌋ < ⌊e⌋ + 2 := by exact_mod_cast this
      omega
  · push Not at b
    have a1 : (⌊v⌋ : ℝ) < 1 := by linarith
    have a2 : (-1 : ℝ) < ⌈e⌉ := by linarith
    have a3 : (⌈e⌉ : ℝ) < 1 := by linarith
    have a4 : (-1 : ℝ) < ⌊v⌋ := by linarith
    have a1 : ⌊v⌋ < 1 := by exact_mod_cast a1
    have a2 : -1 < ⌈e⌉ := by exact_mod_cast a2
    have a3 : ⌈e⌉ < 1 := by exact_mod_cast a3
    have a4 : -1 < ⌊v⌋ := by exact_mod_cast a4
    omega
  · push Not at a
    have a1 : (⌊e⌋ : ℝ) < 1 := by linarith
    have a2 : (-1 : ℝ) < ⌈v⌉ := by linarith
    have a3 : (⌈v⌉ : ℝ) < 1 := by linarith
    have a4 : (-1 : ℝ) < ⌊e⌋ := by linarith
    have a1 : ⌊e⌋ < 1 := by exact_mod_cast a1
    have a2 : -1 < ⌈v⌉ := by exact_mod_cast a2
    have a3 : ⌈v⌉ < 1 := by exact_mod_cast a3
    have a4 : -1 < ⌊e⌋ := by exact_mod_cast a4
    omega
  · constructor
    · have : (⌈e⌉ : ℝ) < ⌈v⌉ + 2 := by linarith
      have : ⌈e⌉ < ⌈v⌉ + 2 := by exact_mod_cast this
      omega
    · have : (⌈v⌉ : ℝ) < ⌈e⌉ + 2 := by linarith
      have : ⌈v⌉ < ⌈e⌉ + 2 := by exact_mod_cast this
      omega

/-- The conversion of an inaccurate value. -/
theorem cast_near (ovf : ℝ → ℝ) (lo hi : Int) (h0 : lo ≤ 0 ∧ 0 ≤ hi) (v e : ℝ) (h1 : (lo : ℝ) ≤ e) (h2 : e ≤ hi) (h : |v - e| < 1) :
    ∃ n n' : Int, (DType.int lo hi).cast ovf v = n ∧ (DType.int lo hi).cast ovf e = n' ∧ lo ≤ n ∧ n ≤ hi ∧ |n - n'| ≤ 1 ∧ |(n : ℝ) - v| < 1 := by
  have t := trunc_near v e h
  obtain ⟨g1, g2⟩ := abs_lt.1 h
  have in1 : lo ≤ (if 0 ≤ e then ⌊e⌋ else ⌈e⌉ : Int) ∧ (if 0 ≤ e then ⌊e⌋ else ⌈e⌉ : Int) ≤ hi := by
    split_ifs with c
    · exact ⟨Int.le_floor.2 h1, by have := (Int.floor_le e).trans h2; exact_mod_cast this⟩
    · exact ⟨by have := h1.trans (Int.le_ceil e); exact_mod_cast this, Int.ceil_le.2 h2⟩
  have in2 : lo ≤ (if 0 ≤ v then ⌊v⌋ else ⌈v⌉ : Int) ∧ (if 0 ≤ v then ⌊v⌋ else ⌈v⌉ : Int) ≤ hi := by
    split_ifs with c
    · refine ⟨h0.1.trans (Int.floor_nonneg.2 c), ?_⟩
      have : (⌊v⌋ : ℝ) < hi + 1 := by have := Int.floor_le v; linarith
      have : ⌊v⌋ < hi + 1 := by exact_mod_cast this
      omega
    · push Not at c
      refine ⟨?_, le_trans (Int.ceil_le.2 (by simpa using c.le)) h0.2⟩
      have : (lo : ℝ) - 1 < ⌈v⌉ := by have := Int.le_ceil v; linarith
      have : lo - 1 < ⌈v⌉ := by exact_mod_cast this
      omega
  refine ⟨_, _, if_pos in2, if_pos in1, in2.1, in2.2, t, ?_⟩
  rw [abs_lt]
  split_ifs with c
  · have := Int.floor_le v; have := Int.lt_floor_add_one v
    constructor <;> linarith
  · have := Int.le_ceil v; have := Int.ceil_lt_add_one v
    constructor <;> linarith

/-- C83. An image of integer pixels, without scaling, in the same conditions: the convolved pixels are integers of the type of the image, nothing overflows (even where the roundings pass the
ends of the range), and each differs at most by 1 from the pixel in exact arithmetic. -/
theorem convolution_integer_error (F : PsfArith) (u η : ℝ) (p : ℕ) (hF : PsfAccurate F u η p) (overflow : ℝ → ℝ) (lo hi : Int) (h0 : lo ≤ 0 ∧ 0 ≤ hi) (img k : Grid)
    (ht : HasType (.int lo hi) img) (hk : IsPsfKernel k) (hn : NonEmpty img) (M : ℝ) (hw : Within img (-M) M) (hM : 1 / 2 ^ 50 ≤ M) (hK : 1 / 2 ^ 50 ≤ k.sum)
    (hsize : k.rows * k.cols ≤ 2 ^ 50) (hu : (1 + u) ^ (k.rows * k.cols + 1) ≤ 5 / 4) (hsmall : blurError u (k.rows * k.cols) k.sum * M < 1) :
    ∃ g e, fltConvoluteImg F overflow (.int lo hi) img k false = .ok (some g) ∧ convoluteImgPsf overflow (.int lo hi) img k false = .ok (some e) ∧
      g.rows = img.rows ∧ g.cols = img.cols ∧ HasType (.int lo hi) g ∧ ∀ i j, i < img.rows → j < img.cols → |g.entry i j - e.entry i j| ≤ 1 := by
  have hw2 : Within img lo hi := by
    intro i j hi' hj'
    obtain ⟨n, e, a, b⟩ := ht i j hi' hj'
    rw [e]
    exact ⟨by exact_mod_cast a, by exact_mod_cast b⟩
  have key : ∀ i j, _ := fun i j => cast_near overflow lo hi h0 ((fltBlurred F img k).entry i j) ((blurred img k).entry i j)
    (blurred_within hk img hn lo hi hw2 i j).1 (blurred_within hk img hn lo hi hw2 i j).2
    ((blurred_float hF img k hk hn M hw hM hK hsize hu i j).2.trans_lt hsmall)
  refine ⟨_, _, rfl, unscaled_eq _ _ _ _, (fltBlurred_rows F img k).1, (fltBlurred_rows F img k).2, ?_, ?_⟩
  · intro i j _ _
    obtain ⟨n, n', a, b, c, d, _⟩ := key i j
    exact ⟨n, a, c, d⟩
  · intro i j _ _
    obtain ⟨n, n', a, b, c, d, t, _⟩ := key i j
    show |(DType.int lo hi).cast overflow _ - (DType.int lo hi).cast overflow _| ≤ 1
    rw [a, b]
    exact_mod_cast t

/-- A property of double precision images of bytes. -/
theorem convolution_bytes_double (s : List ℝ → ℝ) (hs : Sums s) (overflow : ℝ → ℝ) (img k : Grid) (ht : HasType (.int 0 255) img) (hk : IsPsfKernel k) (hn : NonEmpty img)
    (hK : 1 ≤ k.sum) (h9 : 9 ≤ k.rows * k.cols) (hsize : k.rows * k.cols ≤ 10 ^ 6) :
    ∃ g e, fltConvoluteImg (psfDoubles s) overflow (.int 0 255) img k false = .ok (some g) ∧ convoluteImgPsf overflow (.int 0 255) img k false = .ok (some e) ∧
      g.rows = img.rows ∧ g.cols = img.cols ∧ HasType (.int 0 255) g ∧ ∀ i j, i < img.rows → j < img.cols → |g.entry i j - e.entry i j| ≤ 1 := by
  have h0 := pow_double (k.rows * k.cols + 1) (by omega)
  have hc : ((k.rows * k.cols + 1 : ℕ) : ℝ) ≤ 10 ^ 7 := by exact_mod_cast (by omega : k.rows * k.cols + 1 ≤ 10 ^ 7)
  have hc2 : ((k.rows * k.cols : ℕ) : ℝ) ≤ 10 ^ 6 := by exact_mod_cast hsize
  have hb := blurError_double _ h9 hsize _ hK
  refine convolution_integer_error (psfDoubles s) _ _ _ (psfDoubles_accurate s hs.1 hs.2) overflow 0 255 ⟨le_rfl, by norm_num⟩ img k ht hk hn 255 ?_ (by norm_num)
    (le_trans (by norm_num) hK) (by omega) (by linarith) ?_
  · intro i j hi hj
    obtain ⟨n, e, a, b⟩ := ht i j hi hj
    rw [e]
    have a' : ((0 : Int) : ℝ) ≤ n := by exact_mod_cast a
    have b' : (n : ℝ) ≤ ((255 : Int) : ℝ) := by exact_mod_cast b
    push_cast at a' b'
    exact ⟨by linarith, b'⟩
  · linarith

/-- `c` is the maximum of the array. -/
def IsMax (g : Grid) (c : ℝ) : Prop := (∀ i j, i < g.rows → j < g.cols → g.entry i j ≤ c) ∧ ∃ i j, i < g.rows ∧ j < g.cols ∧ g.entry i j = c

theorem npMax_of_isMax (g : Grid) (c : ℝ) (h : IsMax g c) : npMax g.elems = .ok c := by
  obtain ⟨h1, i, j, hi, hj, e⟩ := h
  have hm : c ∈ g.elems := (mem_elems _ _).2 ⟨i, j, hi, hj, e⟩
  obtain ⟨t, e1, m, u⟩ := npMax_ok g.elems (List.ne_nil_of_mem hm)
  obtain ⟨a, b, ha, hb, e2⟩ := (mem_elems _ _).1 m
  rw [e1, le_antisymm (e2 ▸ h1 a b ha hb) (u c hm)]

/-- The scaling of two convolved images whose pixels differ at most by `d`. -/
theorem scale_bound {F : PsfArith} {u η : ℝ} {p : ℕ} (hF : PsfAccurate F u η p) (M C Cf c cf d : ℝ) (hM : 0 < M) (hηM : η ≤ M) (hη1 : η ≤ 1 / 2) (hC : 0 < C) (hCM : C ≤ M)
    (hd : 0 ≤ d) (hdC : 4 * d ≤ C) (hCf : |Cf - C| ≤ d) (hc : |cf - c| ≤ d) (hc0 : 0 ≤ c) (hcC : c ≤ C) (hcf : cf ≤ Cf) :
    |F.fl (cf * F.fl (M / Cf)) - c * (M / C)| ≤ (3 * (d / C) + 3 * u) * M := by
  have hu0 := hF.basic.unit
  have hu := hF.small
  obtain ⟨a1, a2⟩ := abs_le.1 hCf
  obtain ⟨b1, b2⟩ := abs_le.1 hc
  have hCfp : 0.75 * C ≤ Cf := by linarith
  have hCf0 : 0 < Cf := by linarith
  have hcfa : |cf| ≤ Cf := abs_le.2 ⟨by linarith, hcf⟩
  -- the exact quotient
  have q1 : |cf * (M / Cf) - c * (M / C)| ≤ 8 / 3 * (d / C) * M := by
    have e : cf * (M / Cf) - c * (M / C) = M * ((cf - c) * C + c * (C - Cf)) / (Cf * C) := by field_simp; ring
    rw [e, abs_div, abs_mul, abs_of_pos hM, abs_of_pos (mul_pos hCf0 hC), div_le_iff₀ (mul_pos hCf0 hC)]
    have t : abs ((cf - c) * C + c * (C - Cf)) ≤ 2 * d * C := by
      refine (abs_add_le _ _).trans ?_
      rw [abs_mul, abs_mul, abs_of_pos hC, abs_of_nonneg hc0, abs_sub_comm C Cf]
      nlinarith [abs_nonneg (Cf - C)]
    have e2 : 8 / 3 * (d / C) * M * (Cf * C) = M * (8 / 3 * d * Cf) := by field_simp
    rw [e2]
    refine mul_le_mul_of_nonneg_left (t.trans ?_) hM.le
    nlinarith
  have r1 : 1 / 2 ≤ M / Cf := by rw [le_div_iff₀ hCf0]; linarith
  have r2 := hF.fl (M / Cf)
  rw [abs_of_pos (by linarith : 0 < M / Cf), max_eq_left (hη1.trans r1)] at r2
  have r3 : |cf * F.fl (M / Cf) - cf * (M / Cf)| ≤ u * M := by
    rw [← mul_sub, abs_mul]
    calc _ ≤ Cf * (u * (M / Cf)) := mul_le_mul hcfa r2 (abs_nonneg _) hCf0.le
      _ = u * M := by field_simp
  have x1 : |cf * (M / Cf)| ≤ M := by
    rw [abs_mul, abs_of_pos (by linarith : 0 < M / Cf)]
    calc _ ≤ Cf * (M / Cf) := mul_le_mul_of_nonneg_right hcfa (by linarith)
      _ = M := by field_simp
  have r4 := hF.fl (cf * F.fl (M / Cf))
  generalize cf * F.fl (M / Cf) = y at *
  generalize cf * (M / Cf) = x at *
  have y1 : |y| ≤ (1 + u) * M := by
    have := abs_sub_abs_le_abs_sub y x
    linarith
  have r5 : |F.fl y - y| ≤ u * ((1 + u) * M) := r4.trans (mul_le_mul_of_nonneg_left (max_le y1 (by nlinarith)) hu0)
  have t1 := abs_sub_le (F.fl y) y (c * (M / C))
  have t2 := abs_sub_le y x (c * (M / C))
  have hdd : 0 ≤ d / C := by positivity
  have : u * ((1 + u) * M) ≤ 1.1 * u * M := by nlinarith [mul_nonneg hu0 hM.le]
  nlinarith [mul_nonneg hdd hM.le, mul_nonneg hu0 hM.le]

theorem scaled_eq (overflow : ℝ → ℝ) (dt : DType) (img k : Grid) (M C : ℝ) (h1 : IsMax img M) (h2 : IsMax (blurred img k) C) (h0 : C ≠ 0) :
    convoluteImgPsf overflow dt img k true = .ok (some (((blurred img k).map (· * (M / C))).map (dt.cast overflow))) := by
  have m1 := npMax_of_isMax _ _ h1
  have m2 := npMax_of_isMax _ _ h2
  unfold convoluteImgPsf
  simp only [if_true]
  rw [m1]
  simp only []
  unfold blurred at m2
  rw [m2]
  simp only []
  rw [if_neg h0]
  rfl

theorem fltScaled_eq (F : PsfArith) (overflow : ℝ → ℝ) (dt : DType) (img k : Grid) (M C : ℝ) (h1 : IsMax img M) (h2 : IsMax (fltBlurred F img k) C) (h0 : C ≠ 0) :
    fltConvoluteImg F overflow dt img k true = .ok (some (((fltBlurred F img k).map fun x => F.fl (x * F.fl (M / C))).map (dt.cast overflow))) := by
  have m1 := npMax_of_isMax _ _ h1
  have m2 := npMax_of_isMax _ _ h2
  unfold fltConvoluteImg
  simp only [if_true]
  rw [m1]
  simp only []
  rw [m2]
  simp only []
  rw [if_neg h0]

theorem exists_isMax (g : Grid) (h : NonEmpty g) : ∃ c, IsMax g c := by
  have : g.entry 0 0 ∈ g.elems := (mem_elems _ _).2 ⟨0, 0, h.1, h.2, rfl⟩
  obtain ⟨t, e1, m, u⟩ := npMax_ok g.elems (List.ne_nil_of_mem this)
  exact ⟨t, fun i j hi hj => u _ ((mem_elems _ _).2 ⟨i, j, hi, hj, rfl⟩), (mem_elems _ _).1 m⟩

theorem max_near (g e : Grid) (hr : g.rows = e.rows ∧ g.cols = e.cols) (c c' d : ℝ) (h : IsMax g c) (h' : IsMax e c') (hd : ∀ i j, i < e.rows → j < e.cols → |g.entry i j - e.entry i j| ≤ d) :
    |c - c'| ≤ d := by
  obtain ⟨a1, i, j, hi, hj, e1⟩ := h
  obtain ⟨a2, i', j', hi', hj', e2⟩ := h'
  have b1 := abs_le.1 (hd i j (hr.1 ▸ hi) (hr.2 ▸ hj))
  have b2 := abs_le.1 (hd i' j' hi' hj')
  have c1 := a2 i j (hr.1 ▸ hi) (hr.2 ▸ hj)
  have c2 := a1 i' j' (hr.1.symm ▸ hi') (hr.2.symm ▸ hj')
  rw [abs_le]
  constructor <;> linarith

theorem scaled_float {F : PsfArith} {u η : ℝ} {p : ℕ} (hF : PsfAccurate F u η p) (overflow : ℝ → ℝ) (dt : DType) (img k e0 : Grid) (hk : IsPsfKernel k) (M C : ℝ)
    (hw : Within img 0 M) (hmax : IsMax img M) (h0 : convoluteImgPsf overflow .float img k false = .ok (some e0)) (hC : IsMax e0 C) (hC0 : 0 < C)
    (hM : 1 / 2 ^ 50 ≤ M) (hK : 1 / 2 ^ 50 ≤ k.sum) (hsize : k.rows * k.cols ≤ 2 ^ 50) (hu : (1 + u) ^ (k.rows * k.cols + 1) ≤ 5 / 4)
    (hsmall : 4 * (blurError u (k.rows * k.cols) k.sum * M) ≤ C) :
    ∃ Cf, fltConvoluteImg F overflow dt img k true = .ok (some (((fltBlurred F img k).map fun x => F.fl (x * F.fl (M / Cf))).map (dt.cast overflow))) ∧
      convoluteImgPsf overflow dt img k true = .ok (some (((blurred img k).map (· * (M / C))).map (dt.cast overflow))) ∧ ∀ i j, i < img.rows → j < img.cols →
      (0 ≤ (blurred img k).entry i j * (M / C) ∧ (blurred img k).entry i j * (M / C) ≤ M) ∧
      |F.fl ((fltBlurred F img k).entry i j * F.fl (M / Cf)) - (blurred img k).entry i j * (M / C)| ≤
        (3 * (blurError u (k.rows * k.cols) k.sum * M / C) + 3 * u) * M := by
  obtain ⟨it, jt, hit, hjt, et⟩ := hmax.2
  have hn : NonEmpty img := ⟨by omega, by omega⟩
  obtain ⟨hr, hcl⟩ := blurred_rows img k
  obtain ⟨hr', hcl'⟩ := fltBlurred_rows F img k
  obtain rfl : e0 = blurred img k := by
    rw [unscaled_eq] at h0
    have := Option.some.inj (Except.ok.inj h0)
    rw [← this]
    rfl
  have hMp : 0 < M := lt_of_lt_of_le (by norm_num) hM
  have hη := hF.eta_small
  obtain ⟨Cf, hCf⟩ := exists_isMax (fltBlurred F img k) (by rw [NonEmpty, hr', hcl']; exact hn)
  have hb := fun i j => (blurred_float hF img k hk hn M (fun i j hi hj => ⟨by linarith [(hw i j hi hj).1], (hw i j hi hj).2⟩) hM hK hsize hu i j).2
  have hbw := blurred_within hk img hn 0 M hw
  have hd0 : 0 ≤ blurError u (k.rows * k.cols) k.sum * M := (abs_nonneg _).trans (hb 0 0)
  have hCC := max_near _ _ ⟨hr'.trans hr.symm, hcl'.trans hcl.symm⟩ Cf C _ hCf hC fun i j _ _ => hb i j
  have hCfp : 0 < Cf := by have := (abs_le.1 hCC).1; linarith
  refine ⟨Cf, fltScaled_eq F overflow dt img k M Cf hmax hCf hCfp.ne', scaled_eq overflow dt img k M C hmax hC hC0.ne', fun i j hi hj => ⟨?_, ?_⟩⟩
  · have h1 := hC.1 i j (by omega) (by omega)
    have h2 : 0 ≤ M / C := by positivity
    refine ⟨mul_nonneg (hbw i j).1 h2, ?_⟩
    calc _ ≤ C * (M / C) := mul_le_mul_of_nonneg_right h1 h2
      _ = M := by field_simp
  · obtain ⟨im, jm, _, _, em⟩ := hC.2
    refine scale_bound hF M C Cf _ _ _ hMp (hη.trans (le_trans (by norm_num) hM)) (hη.trans (by norm_num)) hC0 (em ▸ (hbw im jm).2) hd0 hsmall hCC (hb i j) (hbw i j).1
      (hC.1 i j (by omega) (by omega)) (hCf.1 i j (by omega) (by omega))

/-- C83. With the scaling (the default), for an image without negative pixels with the maximum `M`: let `C` be the maximum of the convolved image before the scaling, and
`ε = blurError · M / C ≤ 1/4`. In floating-point arithmetic each pixel of a floating-point image differs from the exact one at most by `(3 ε + 3 u) M`; the pixels of an image of integers are integers
of its type and differ at most by 1 from the exact ones, if this bound is below 1. -/
theorem scaled_convolution_float_error (F : PsfArith) (u η : ℝ) (p : ℕ) (hF : PsfAccurate F u η p) (overflow : ℝ → ℝ) (dtype : DType) (img k e0 : Grid) (hk : IsPsfKernel k) (M C : ℝ)
    (hw : Within img 0 M) (hmax : IsMax img M) (h0 : convoluteImgPsf overflow .float img k false = .ok (some e0)) (hC : IsMax e0 C) (hC0 : 0 < C)
    (hM : 1 / 2 ^ 50 ≤ M) (hK : 1 / 2 ^ 50 ≤ k.sum) (hsize : k.rows * k.cols ≤ 2 ^ 50) (hu : (1 + u) ^ (k.rows * k.cols + 1) ≤ 5 / 4)
    (hsmall : blurError u (k.rows * k.cols) k.sum * M / C ≤ 1 / 4) :
    ∃ g e, fltConvoluteImg F overflow dtype img k true = .ok (some g) ∧ convoluteImgPsf overflow dtype img k true = .ok (some e) ∧ g.rows = img.rows ∧ g.cols = img.cols ∧
      (dtype = .float → ∀ i j, i < img.rows → j < img.cols → |g.entry i j - e.entry i j| ≤ (3 * (blurError u (k.rows * k.cols) k.sum * M / C) + 3 * u) * M) ∧
      (∀ lo hi, dtype = .int lo hi → HasType dtype img → lo ≤ 0 → (3 * (blurError u (k.rows * k.cols) k.sum * M / C) + 3 * u) * M < 1 →
        HasType dtype g ∧ ∀ i j, i < img.rows → j < img.cols → |g.entry i j - e.entry i j| ≤ 1) := by
  rw [div_le_iff₀ hC0] at hsmall
  obtain ⟨Cf, e1, e2, b⟩ := scaled_float hF overflow dtype img k e0 hk M C hw hmax h0 hC hC0 hM hK hsize hu (by linarith)
  refine ⟨_, _, e1, e2, (fltBlurred_rows F img k).1, (fltBlurred_rows F img k).2, ?_, ?_⟩
  · rintro rfl i j hi hj
    exact (b i j hi hj).2
  · rintro lo hi rfl ht hlo hb1
    obtain ⟨it, jt, hit, hjt, et⟩ := hmax.2
    obtain ⟨n, en, n1, n2⟩ := ht it jt hit hjt
    have hMn : M = n := et.symm.trans en
    have hMhi : M ≤ hi := by rw [hMn]; exact_mod_cast n2
    have hM0 : 0 ≤ M := le_trans (by norm_num) hM
    have hhi : 0 ≤ hi := by exact_mod_cast hM0.trans hMhi
    have hlo' : (lo : ℝ) ≤ 0 := by exact_mod_cast hlo
    have key : ∀ i j (_ : i < img.rows) (_ : j < img.cols), _ := fun i j hi' hj' => cast_near overflow lo hi ⟨hlo, hhi⟩ (F.fl ((fltBlurred F img k).entry i j * F.fl (M / Cf)))
      ((blurred img k).entry i j * (M / C)) (hlo'.trans (b i j hi' hj').1.1) ((b i j hi' hj').1.2.trans hMhi) ((b i j hi' hj').2.trans_lt hb1)
    constructor
    · intro i j hi' hj'
      obtain ⟨n, n', a, b, c, d, _⟩ := key i j ((fltBlurred_rows F img k).1 ▸ hi') ((fltBlurred_rows F img k).2 ▸ hj')
      exact ⟨n, a, c, d⟩
    · intro i j hi' hj'
      obtain ⟨n, n', a, b, c, d, t, _⟩ := key i j hi' hj'
      show |(DType.int lo hi).cast overflow (F.fl ((fltBlurred F img k).entry i j * F.fl (M / Cf))) - (DType.int lo hi).cast overflow ((blurred img k).entry i j * (M / C))| ≤ 1
      rw [a, b]
      exact_mod_cast t

/-! ### What is not true of integers -/

theorem cast_floor (ovf : ℝ → ℝ) (lo hi n : Int) (h1 : lo ≤ n) (h2 : n ≤ hi) (h0 : 0 ≤ n) (x : ℝ) (h : (n : ℝ) ≤ x) (h' : x < n + 1) : (DType.int lo hi).cast ovf x = n := by
  unfold DType.cast
  simp only []
  have hx : (0 : ℝ) ≤ x := le_trans (by exact_mod_cast h0) h
  have hf : ⌊x⌋ = n := Int.floor_eq_iff.2 ⟨h, h'⟩
  rw [if_pos hx, hf, if_pos ⟨h1, h2⟩]

/-- A kernel with one positive element, a number of double precision. -/
noncomputable def dimKernel : Grid := ⟨3, 3, fun a b => if a = 1 ∧ b = 1 then 5629499534213125 * 2 ^ (-53 : ℤ) else 0⟩

theorem dimKernel_ok : IsPsfKernel dimKernel :=
  ⟨fun a b _ _ => by unfold dimKernel; simp only []; split_ifs <;> positivity, ⟨1, 1, by decide, by decide, by unfold dimKernel; norm_num⟩⟩

theorem sums_exact (s : List ℝ → ℝ) (hs : Sums s) (l : List ℝ) (h0 : l ≠ []) (e : ℤ) (he : -1074 ≤ e) (hl : ∀ y ∈ l, ∃ c : ℕ, y = c * 2 ^ e) (h : l.sum ≤ 2 ^ 53 * 2 ^ e) : s l = l.sum :=
  sum_exact e he (hs.2 l h0) hl h

theorem dim_terms (img : Grid) (i j : ℕ) : fltTerms img dimKernel i j = [(5629499534213125 * 2 ^ (-53 : ℤ), img.entry (reflectIndex img.rows i) (reflectIndex img.cols j))] := by
  classical
  unfold fltTerms fltAllTerms dimKernel
  simp [List.range_succ, List.filter_cons]
  norm_num

theorem dim_sum (s : List ℝ → ℝ) (hs : Sums s) : s dimKernel.elems = 5629499534213125 * 2 ^ (-53 : ℤ) := by
  have e : dimKernel.elems.sum = 5629499534213125 * 2 ^ (-53 : ℤ) := by simp [Grid.elems, dimKernel, List.range_succ]
  rw [sums_exact s hs _ (by simp [Grid.elems, dimKernel, List.range_succ]) (-53) (by norm_num) ?_ (by rw [e]; norm_num), e]
  intro y hy
  obtain ⟨a, b, _, _, rfl⟩ := (mem_elems _ _).1 hy
  unfold dimKernel
  simp only []
  split_ifs
  · exact ⟨5629499534213125, by norm_num⟩
  · exact ⟨0, by simp⟩

/-- C83. An image of bytes that are all 7 becomes an image of bytes that are all 6: the quotient is 7 - 2⁻⁵⁰, and the conversion cuts off the digits. (In exact arithmetic it
remains what it is, C37.) -/
theorem constant_image_darkens (s : List ℝ → ℝ) (hs : Sums s) (overflow : ℝ → ℝ) (img : Grid) (hn : NonEmpty img) (h7 : ∀ i j, i < img.rows → j < img.cols → img.entry i j = 7) :
    ∃ g, fltConvoluteImg (psfDoubles s) overflow (.int 0 255) img dimKernel false = .ok (some g) ∧ g.rows = img.rows ∧ g.cols = img.cols ∧ ∀ i j, g.entry i j = 6 := by
  refine ⟨_, rfl, (fltBlurred_rows _ img _).1, (fltBlurred_rows _ img _).2, fun i j => ?_⟩
  show (DType.int 0 255).cast overflow ((fltBlurred (psfDoubles s) img dimKernel).entry i j) = 6
  have hsum : (psfDoubles s).sum dimKernel.elems = 5629499534213125 * 2 ^ (-53 : ℤ) := dim_sum s hs
  have e : (fltBlurred (psfDoubles s) img dimKernel).entry i j = 7881299347898367 * 2 ^ (-50 : ℤ) := by
    unfold fltBlurred
    rw [hsum, if_pos (by positivity)]
    show binary64 (fltDot binary64 (fltTerms img dimKernel i j) / _) = _
    rw [dim_terms, h7 _ _ (reflect_lt _ hn.1 _) (reflect_lt _ hn.2 _)]
    unfold fltDot
    simp only [List.foldl_cons, List.foldl_nil, zero_add]
    rw [binary64_idem, binary64_eq (x := 5629499534213125 * 2 ^ (-53 : ℤ) * 7) 2 4925812092436484 (by norm_num) (by norm_num) (by norm_num) (by rw [abs_lt]; norm_num),
      binary64_eq 2 7881299347898367 (by norm_num) (by norm_num) (by norm_num) (by rw [abs_lt]; norm_num)]
    norm_num
  rw [e]
  exact_mod_cast cast_floor overflow 0 255 6 (by norm_num) (by norm_num) (by norm_num) _ (by norm_num) (by norm_num)

/-- One bright pixel, and a kernel with two positive elements. -/
noncomputable def spotImg : Grid := ⟨1, 3, fun _ j => if j = 1 then 15 else 0⟩
noncomputable def twoKernel : Grid := ⟨3, 3, fun a b => if a = 1 ∧ b = 1 then 1 else if a = 1 ∧ b = 0 then 3 / 8 else 0⟩

theorem twoKernel_ok : IsPsfKernel twoKernel :=
  ⟨fun a b _ _ => by unfold twoKernel; simp only []; split_ifs <;> positivity, ⟨1, 1, by decide, by decide, by unfold twoKernel; norm_num⟩⟩

theorem two_sum (s : List ℝ → ℝ) (hs : Sums s) : s twoKernel.elems = 11 / 8 := by
  have e : twoKernel.elems.sum = 11 / 8 := by simp [Grid.elems, twoKernel, List.range_succ]; norm_num
  rw [sums_exact s hs _ (by simp [Grid.elems, twoKernel, List.range_succ]) (-3) (by norm_num) ?_ (by rw [e]; norm_num), e]
  intro y hy
  obtain ⟨a, b, _, _, rfl⟩ := (mem_elems _ _).1 hy
  unfold twoKernel
  simp only []
  split_ifs
  · exact ⟨8, by norm_num⟩
  · exact ⟨3, by norm_num⟩
  · exact ⟨0, by simp⟩

theorem two_terms (img : Grid) (i j : ℕ) : fltTerms img twoKernel i j = [(1, img.entry (reflectIndex img.rows i) (reflectIndex img.cols j)),
    (3 / 8, img.entry (reflectIndex img.rows i) (reflectIndex img.cols ((j : Int) + 1)))] := by
  classical
  unfold fltTerms fltAllTerms twoKernel
  simp [List.range_succ, List.filter_cons]
  norm_num

/-- C83. With the scaling (the default), the maximum of an image of bytes is not restored: 15 becomes 14. (In exact arithmetic it is restored, C37.) -/
theorem scaled_maximum_lost (s : List ℝ → ℝ) (hs : Sums s) (overflow : ℝ → ℝ) :
    ∃ g, fltConvoluteImg (psfDoubles s) overflow (.int 0 255) spotImg twoKernel true = .ok (some g) ∧ IsMax spotImg 15 ∧ IsMax g 14 := by
  have hsum : (psfDoubles s).sum twoKernel.elems = 11 / 8 := two_sum s hs
  have hval : ∀ i j, (fltBlurred (psfDoubles s) spotImg twoKernel).entry i j = binary64 (fltDot binary64 (fltTerms spotImg twoKernel i j) / (11 / 8)) := by
    intro i j
    unfold fltBlurred
    rw [hsum, if_pos (by norm_num)]
    rfl
  have b0 := binary64_zero
  have b15 : binary64 15 = 15 := by have := binary64_exact 15 0 (by norm_num) (by norm_num); simpa using this
  have b45 : binary64 (45 / 8) = 45 / 8 := by
    have := binary64_exact 45 (-3) (by norm_num) (by norm_num)
    norm_num at this
    convert this using 2 <;> norm_num
  have v0 : fltDot binary64 (fltTerms spotImg twoKernel 0 0) = 45 / 8 := by
    rw [two_terms]
    have r0 : reflectIndex 3 0 = 0 := by decide
    have r1 : reflectIndex 3 1 = 1 := by decide
    simp [fltDot, spotImg, r0, r1, b0]
    norm_num [b45]
  have v1 : fltDot binary64 (fltTerms spotImg twoKernel 0 1) = 15 := by
    rw [two_terms]
    have r1 : reflectIndex 3 1 = 1 := by decide
    have r2 : reflectIndex 3 2 = 2 := by decide
    simp [fltDot, spotImg, r1, b0, b15]
    norm_num [r2, b0, b15]
  have v2 : fltDot binary64 (fltTerms spotImg twoKernel 0 2) = 0 := by
    rw [two_terms]
    have r2 : reflectIndex 3 2 = 2 := by decide
    have r3 : reflectIndex 3 3 = 2 := by decide
    simp [fltDot, spotImg, r2, b0]
    norm_num [r3, b0]
  have w1 : binary64 (15 / (11 / 8)) = 6141272219141585 * 2 ^ (3 - 52 : ℤ) :=
    binary64_eq 3 6141272219141585 (by norm_num) (by norm_num) (by norm_num) (by rw [abs_lt]; norm_num)
  have w0 : binary64 (45 / 8 / (11 / 8)) ≤ 5 := by
    have b5 : binary64 5 = 5 := by have := binary64_exact 5 0 (by norm_num) (by norm_num); simpa using this
    rw [← b5]
    exact binary64_mono (by norm_num) (by norm_num)
  have w0' : 0 ≤ binary64 (45 / 8 / (11 / 8)) := by
    rw [← b0]
    exact binary64_mono le_rfl (by norm_num)
  have q : binary64 (15 / (6141272219141585 * 2 ^ (3 - 52 : ℤ))) = 6192449487634432 * 2 ^ (0 - 52 : ℤ) :=
    binary64_eq 0 6192449487634432 (by norm_num) (by norm_num) (by norm_num) (by rw [abs_lt]; norm_num)
  have t1 : binary64 (6141272219141585 * 2 ^ (3 - 52 : ℤ) * (6192449487634432 * 2 ^ (0 - 52 : ℤ))) = 8444249301319679 * 2 ^ (3 - 52 : ℤ) :=
    binary64_eq 3 8444249301319679 (by norm_num) (by norm_num) (by norm_num) (by rw [abs_lt]; norm_num)
  have hi : IsMax spotImg 15 := ⟨fun i j _ _ => by unfold spotImg; simp only []; split_ifs <;> norm_num, ⟨0, 1, by decide, by decide, by simp [spotImg]⟩⟩
  have hC : IsMax (fltBlurred (psfDoubles s) spotImg twoKernel) (6141272219141585 * 2 ^ (3 - 52 : ℤ)) := by
    refine ⟨fun i j hi hj => ?_, 0, 1, by rw [(fltBlurred_rows _ _ _).1]; decide, by rw [(fltBlurred_rows _ _ _).2]; decide, by rw [hval, v1, w1]⟩
    rw [(fltBlurred_rows _ _ _).1] at hi
    rw [(fltBlurred_rows _ _ _).2] at hj
    obtain rfl : i = 0 := by have : i < 1 := hi; omega
    have : j < 3 := hj
    rw [hval]
    interval_cases j
    · rw [v0]; exact w0.trans (by norm_num)
    · rw [v1, w1]
    · rw [v2, zero_div, b0]; positivity
  refine ⟨_, fltScaled_eq (psfDoubles s) overflow _ spotImg twoKernel 15 _ hi hC (by positivity), hi, ?_⟩
  have main : ∀ j, j < 3 → ∃ n : Int, n ≤ 14 ∧ (j = 1 → n = 14) ∧
      (DType.int 0 255).cast overflow (binary64 ((fltBlurred (psfDoubles s) spotImg twoKernel).entry 0 j * binary64 (15 / (6141272219141585 * 2 ^ (3 - 52 : ℤ))))) = n := by
    intro j hj
    rw [q, hval]
    interval_cases j
    · rw [v0]
      have b8 : binary64 8 = 8 := by have := binary64_exact 8 0 (by norm_num) (by norm_num); simpa using this
      have hle : binary64 (binary64 (45 / 8 / (11 / 8)) * (6192449487634432 * 2 ^ (0 - 52 : ℤ))) ≤ 8 := by
        refine le_trans (binary64_mono (y := 8) (mul_nonneg w0' (by positivity)) ?_) b8.le
        calc _ ≤ 5 * (6192449487634432 * 2 ^ (0 - 52 : ℤ) : ℝ) := mul_le_mul_of_nonneg_right w0 (by positivity)
          _ ≤ 8 := by norm_num
      have hge : 0 ≤ binary64 (binary64 (45 / 8 / (11 / 8)) * (6192449487634432 * 2 ^ (0 - 52 : ℤ))) := by
        conv_lhs => rw [← b0]
        exact binary64_mono le_rfl (mul_nonneg w0' (by positivity))
      obtain ⟨n, e, a, b, c, _⟩ := cast_within overflow 0 255 _ (by simpa using hge) (le_trans hle (by norm_num))
      refine ⟨n, ?_, by omega, e⟩
      have := (abs_lt.1 c).2
      have h9 : (n : ℝ) < 9 := by linarith
      have : n < 9 := by exact_mod_cast h9
      omega
    · rw [v1, w1, t1]
      exact ⟨14, le_rfl, fun _ => rfl, cast_floor overflow 0 255 14 (by norm_num) (by norm_num) (by norm_num) _ (by norm_num) (by norm_num)⟩
    · rw [v2, zero_div, b0, zero_mul, b0]
      exact ⟨0, by norm_num, by omega, cast_floor overflow 0 255 0 (by norm_num) (by norm_num) (by norm_num) _ (by norm_num) (by norm_num)⟩
  constructor
  · intro i j hi hj
    have hi : i < 1 := by have := (fltBlurred_rows (psfDoubles s) spotImg twoKernel).1 ▸ hi; exact this
    have hj : j < 3 := by have := (fltBlurred_rows (psfDoubles s) spotImg twoKernel).2 ▸ hj; exact this
    obtain rfl : i = 0 := by omega
    obtain ⟨n, a, _, e⟩ := main j hj
    refine le_of_eq_of_le e ?_
    exact_mod_cast a
  · obtain ⟨n, _, a, e⟩ := main 1 (by norm_num)
    refine ⟨0, 1, ?_, ?_, ?_⟩
    · exact lt_of_lt_of_eq (by decide : 0 < spotImg.rows) (fltBlurred_rows (psfDoubles s) spotImg twoKernel).1.symm
    · exact lt_of_lt_of_eq (by decide : 1 < spotImg.cols) (fltBlurred_rows (psfDoubles s) spotImg twoKernel).2.symm
    · refine Eq.trans e ?_
      rw [a rfl]; norm_num

/-! ### Examples -/

theorem spot_typed : HasType (.int 0 255) spotImg := by
  intro i j _ _
  unfold spotImg
  simp only []
  split_ifs
  · exact ⟨15, by norm_num, by norm_num, by norm_num⟩
  · exact ⟨0, by norm_num, by norm_num, by norm_num⟩

/-- The hypotheses of the bounds hold for the spot, without scaling. -/
example (overflow : ℝ → ℝ) : ∃ g e, fltConvoluteImg (psfDoubles (sumFromLeft binary64)) overflow (.int 0 255) spotImg twoKernel false = .ok (some g) ∧
    convoluteImgPsf overflow (.int 0 255) spotImg twoKernel false = .ok (some e) ∧ HasType (.int 0 255) g ∧ ∀ i j, i < 1 → j < 3 → |g.entry i j - e.entry i j| ≤ 1 := by
  obtain ⟨g, e, h1, h2, _, _, h3, h4⟩ := convolution_bytes_double _ sumFromLeft_sums overflow spotImg twoKernel spot_typed twoKernel_ok ⟨by decide, by decide⟩
    (by simp [Grid.sum, twoKernel, Finset.sum_range_succ]; norm_num) (by decide) (by decide)
  exact ⟨g, e, h1, h2, h3, h4⟩

example (overflow : ℝ → ℝ) : ∃ g e, fltConvoluteImg (psfDoubles (sumFromLeft binary64)) overflow .float spotImg twoKernel false = .ok (some g) ∧
    convoluteImgPsf overflow .float spotImg twoKernel false = .ok (some e) ∧ ∀ i j, i < 1 → j < 3 → |g.entry i j - e.entry i j| ≤ 2 / 10 ^ 13 := by
  obtain ⟨g, e, h1, h2, _, _, h3⟩ := convolution_double_error _ sumFromLeft_sums overflow spotImg twoKernel twoKernel_ok ⟨by decide, by decide⟩ 15
    (fun i j _ _ => by unfold spotImg; simp only []; split_ifs <;> norm_num) (by norm_num)
    (by simp [Grid.sum, twoKernel, Finset.sum_range_succ]; norm_num) (by decide) (by decide)
  refine ⟨g, e, h1, h2, fun i j hi hj => (h3 i j hi hj).trans ?_⟩
  show ((3 * 3 : ℕ) : ℝ) / 10 ^ 15 * 15 ≤ _
  norm_num

theorem two_sum_exact : twoKernel.sum = 11 / 8 := by simp [Grid.sum, twoKernel, Finset.sum_range_succ]; norm_num

theorem spot_blurred_max : IsMax (blurred spotImg twoKernel) (120 / 11) := by
  have r0 : reflectIndex 3 0 = 0 := by decide
  have r1 : reflectIndex 3 1 = 1 := by decide
  have r2 : reflectIndex 3 2 = 2 := by decide
  have r3 : reflectIndex 3 3 = 2 := by decide
  have v : ∀ j, j < 3 → (blurred spotImg twoKernel).entry 0 j = if j = 0 then 45 / 11 else if j = 1 then 120 / 11 else 0 := by
    intro j hj
    rw [blurred_entry twoKernel_ok, two_sum_exact]
    interval_cases j <;> simp [twoKernel, spotImg, Finset.sum_range_succ, r0, r1, r2, r3] <;> norm_num [r0, r1, r2, r3]
  refine ⟨fun i j hi hj => ?_, 0, 1, ?_, ?_, by rw [v 1 (by norm_num)]; norm_num⟩
  · rw [(blurred_rows _ _).1] at hi
    rw [(blurred_rows _ _).2] at hj
    obtain rfl : i = 0 := by have : i < 1 := hi; omega
    rw [v j hj]
    split_ifs <;> norm_num
  · rw [(blurred_rows _ _).1]; decide
  · rw [(blurred_rows _ _).2]; decide

/-- The hypotheses of the bound with scaling hold for the spot: floats, and bytes. -/
example (overflow : ℝ → ℝ) (dtype : DType) (hd : dtype = .float ∨ dtype = .int 0 255) : ∃ g e, fltConvoluteImg (psfDoubles (sumFromLeft binary64)) overflow dtype spotImg twoKernel true = .ok (some g) ∧
    convoluteImgPsf overflow dtype spotImg twoKernel true = .ok (some e) ∧ ∀ i j, i < 1 → j < 3 → |g.entry i j - e.entry i j| ≤ 1 ∧
      (dtype = .float → |g.entry i j - e.entry i j| ≤ 1 / 10 ^ 12) := by
  have hb := blurError_double 9 le_rfl (by norm_num) twoKernel.sum (by rw [two_sum_exact]; norm_num)
  have hp := pow_double 10 (by norm_num)
  obtain ⟨g, e, h1, h2, _, _, h3, h4⟩ := scaled_convolution_float_error _ _ _ _ (psfDoubles_accurate _ sumFromLeft_sums.1 sumFromLeft_sums.2) overflow dtype spotImg twoKernel (blurred spotImg twoKernel)
    twoKernel_ok 15 (120 / 11) (fun i j _ _ => by unfold spotImg; simp only []; split_ifs <;> norm_num)
    ⟨fun i j _ _ => by unfold spotImg; simp only []; split_ifs <;> norm_num, ⟨0, 1, by decide, by decide, by simp [spotImg]⟩⟩ (unscaled_eq _ _ _ _) spot_blurred_max (by norm_num) (by norm_num)
    (by rw [two_sum_exact]; norm_num) (by show 3 * 3 ≤ _; norm_num) (by show (1 + (2⁻¹ : ℝ) ^ 53) ^ 10 ≤ _; norm_num at hp ⊢) (by
      show blurError _ 9 _ * 15 / _ ≤ _
      rw [div_le_iff₀ (by norm_num)]
      norm_num at hb ⊢; linarith)
  have hbound : (3 * (blurError (2⁻¹ ^ 53) (twoKernel.rows * twoKernel.cols) twoKernel.sum * 15 / (120 / 11)) + 3 * 2⁻¹ ^ 53) * 15 ≤ 1 / 10 ^ 12 := by
    show (3 * (blurError (2⁻¹ ^ 53) 9 twoKernel.sum * 15 / (120 / 11)) + 3 * 2⁻¹ ^ 53) * 15 ≤ _
    generalize blurError (2⁻¹ ^ 53) 9 twoKernel.sum = B at *
    norm_num at hb ⊢
    linarith
  refine ⟨g, e, h1, h2, fun i j hi hj => ?_⟩
  rcases hd with rfl | rfl
  · have := (h3 rfl i j hi hj).trans hbound
    exact ⟨this.trans (by norm_num), fun _ => this⟩
  · exact ⟨(h4 0 255 rfl spot_typed le_rfl (hbound.trans_lt (by norm_num))).2 i j hi hj, fun h => DType.noConfusion h⟩

end Verif.Props
