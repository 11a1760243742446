import Verif.Props.Convolve
import Verif.Props.Sensitivity

/-!
# C82: convolution commutes with mirroring, transposition and shifts, is local and monotone, and nearly equal kernels give nearly equal images
-/

namespace Verif.Props
open Verif.Model Verif.Spec Verif.Proofs

/-- `g'` is `g` upside down. -/
def FlippedUD (g g' : Grid) : Prop :=
  g'.rows = g.rows ∧ g'.cols = g.cols ∧ ∀ i j, i < g.rows → j < g.cols → g'.entry i j = g.entry (g.rows - 1 - i) j

/-- `g'` is `g` with left and right exchanged. -/
def FlippedLR (g g' : Grid) : Prop :=
  g'.rows = g.rows ∧ g'.cols = g.cols ∧ ∀ i j, i < g.rows → j < g.cols → g'.entry i j = g.entry i (g.cols - 1 - j)

/-- `g'` is `g` with rows and columns exchanged. -/
def Transposed (g g' : Grid) : Prop :=
  g'.rows = g.cols ∧ g'.cols = g.rows ∧ ∀ i j, i < g.cols → j < g.rows → g'.entry i j = g.entry j i

/-- Both calls return images in the relation `R`, or both the values that are not finite, or both fail in the same way. -/
def Corresponding (R : Grid → Grid → Prop) : Res (Option Grid) → Res (Option Grid) → Prop
  | .ok (some g), .ok (some g') => R g g'
  | .ok none, .ok none => True
  | .error e, .error e' => e = e'
  | _, _ => False

/-- A relation that only moves elements. -/
structure Moves (R : Grid → Grid → Prop) : Prop where
  map : ∀ g g' f, R g g' → R (g.map f) (g'.map f)
  same : ∀ g g', R g g' → ∀ x, x ∈ g.elems ↔ x ∈ g'.elems

theorem moves_UD : Moves FlippedUD := by
  refine ⟨fun g g' f ⟨h1, h2, h3⟩ => ⟨h1, h2, fun i j hi hj => ?_⟩, fun g g' ⟨h1, h2, h3⟩ x => ?_⟩
  · simp only [Grid.map]; rw [h3 i j hi hj]
  · rw [mem_elems, mem_elems]
    constructor
    · rintro ⟨i, j, hi, hj, rfl⟩
      exact ⟨g.rows - 1 - i, j, by omega, by omega, by rw [h3 _ _ (by omega) hj]; congr 1; omega⟩
    · rintro ⟨i, j, hi, hj, rfl⟩
      exact ⟨g.rows - 1 - i, j, by omega, by omega, by rw [h3 _ _ (by omega) (by omega)]⟩

theorem moves_LR : Moves FlippedLR := by
  refine ⟨fun g g' f ⟨h1, h2, h3⟩ => ⟨h1, h2, fun i j hi hj => ?_⟩, fun g g' ⟨h1, h2, h3⟩ x => ?_⟩
  · simp only [Grid.map]; rw [h3 i j hi hj]
  · rw [mem_elems, mem_elems]
    constructor
    · rintro ⟨i, j, hi, hj, rfl⟩
      exact ⟨i, g.cols - 1 - j, by omega, by omega, by rw [h3 _ _ hi (by omega)]; congr 1; omega⟩
    · rintro ⟨i, j, hi, hj, rfl⟩
      exact ⟨i, g.cols - 1 - j, by omega, by omega, by rw [h3 _ _ (by omega) (by omega)]⟩

theorem moves_T : Moves Transposed := by
  refine ⟨fun g g' f ⟨h1, h2, h3⟩ => ⟨h1, h2, fun i j hi hj => ?_⟩, fun g g' ⟨h1, h2, h3⟩ x => ?_⟩
  · simp only [Grid.map]; rw [h3 i j hi hj]
  · rw [mem_elems, mem_elems]
    constructor
    · rintro ⟨i, j, hi, hj, rfl⟩
      exact ⟨j, i, by omega, by omega, by rw [h3 _ _ hj hi]⟩
    · rintro ⟨i, j, hi, hj, rfl⟩
      exact ⟨j, i, by omega, by omega, by rw [h3 _ _ (by omega) (by omega)]⟩

theorem npMax_same (l l' : List ℝ) (h : ∀ x, x ∈ l ↔ x ∈ l') : npMax l = npMax l' := by
  by_cases h0 : l = []
  · have : l' = [] := by
      rw [List.eq_nil_iff_forall_not_mem]
      intro x hx
      have := (h x).2 hx
      rw [h0] at this; simp at this
    rw [h0, this]
  · have h0' : l' ≠ [] := by
      intro e
      apply h0
      rw [List.eq_nil_iff_forall_not_mem]
      intro x hx
      have := (h x).1 hx
      rw [e] at this; simp at this
    obtain ⟨t, e, m, u⟩ := npMax_ok l h0
    obtain ⟨t', e', m', u'⟩ := npMax_ok l' h0'
    rw [e, e', le_antisymm (u' t ((h t).1 m)) (u t' ((h t').2 m'))]

/-- From the sum and the sliding sums to the whole function. -/
theorem corresponding_of (R : Grid → Grid → Prop) (hR : Moves R) (overflow : ℝ → ℝ) (dt : DType) (img img' k k' : Grid) (scale : Bool) (hs : k.sum = k'.sum)
    (hi : R img img') (hc : R (ndConvolve img k) (ndConvolve img' k')) :
    Corresponding R (convoluteImgPsf overflow dt img k scale) (convoluteImgPsf overflow dt img' k' scale) := by
  have hb : R (blurred img k) (blurred img' k') := by
    unfold blurred
    rw [← hs]
    split_ifs
    · exact hR.map _ _ _ hc
    · exact hc
  cases scale with
  | false =>
    rw [unscaled_eq, unscaled_eq]
    exact hR.map _ _ _ hb
  | true =>
    have e : ∀ img k : Grid, convoluteImgPsf overflow dt img k true = (match npMax img.elems with
        | .error e => .error e
        | .ok maxImg => match npMax (blurred img k).elems with
          | .error e => .error e
          | .ok maxConv => if maxConv = 0 then .ok none
            else .ok (some (((blurred img k).map (· * (maxImg / maxConv))).map (dt.cast overflow)))) := by
      intro img k
      unfold convoluteImgPsf
      simp only [if_true]
      rfl
    rw [e, e, npMax_same _ _ (hR.same _ _ hi), npMax_same _ _ (hR.same _ _ hb)]
    cases npMax img'.elems with
    | error x => rfl
    | ok x =>
      cases npMax (blurred img' k').elems with
      | error y => rfl
      | ok y =>
        simp only []
        by_cases hy : y = 0
        · rw [if_pos hy, if_pos hy]; trivial
        · rw [if_neg hy, if_neg hy]
          exact hR.map _ _ _ (hR.map _ _ _ hb)

/-! ### Facts about the reflected index -/

theorem reflect_mirror (n : ℕ) (hn : 0 < n) (x : Int) : n - 1 - reflectIndex n x = reflectIndex n ((n : Int) - 1 - x) := by
  unfold reflectIndex
  simp only []
  have h1 := Int.emod_nonneg x (show ((2 * n : Nat) : Int) ≠ 0 by omega)
  have h2 := Int.emod_lt_of_pos x (show (0 : Int) < ((2 * n : Nat) : Int) by omega)
  have h3 := Int.mul_ediv_add_emod x ((2 * n : Nat) : Int)
  generalize x % ((2 * n : Nat) : Int) = r at *
  generalize x / ((2 * n : Nat) : Int) = q at *
  by_cases hr : r < n
  · have e : ((n : Int) - 1 - x) % ((2 * n : Nat) : Int) = n - 1 - r := by
      rw [show (n : Int) - 1 - x = (n - 1 - r) + ((2 * n : Nat) : Int) * (-q) by rw [← h3]; ring, Int.add_mul_emod_self_left]
      exact Int.emod_eq_of_lt (by omega) (by push_cast; omega)
    rw [e]
    split_ifs <;> omega
  · have e : ((n : Int) - 1 - x) % ((2 * n : Nat) : Int) = 3 * n - 1 - r := by
      rw [show (n : Int) - 1 - x = (3 * n - 1 - r) + ((2 * n : Nat) : Int) * (-q - 1) by rw [← h3]; push_cast; ring, Int.add_mul_emod_self_left]
      exact Int.emod_eq_of_lt (by omega) (by push_cast at *; omega)
    rw [e]
    split_ifs <;> omega

/-- The reflected pixel is not farther from a pixel of the image than the one beyond the border. -/
theorem reflect_near (n i : ℕ) (hi : i < n) (x : Int) (d : ℕ) (hx : (i : Int) - d ≤ x ∧ x ≤ i + d) :
    i ≤ reflectIndex n x + d ∧ reflectIndex n x ≤ i + d := by
  unfold reflectIndex
  simp only []
  have h1 := Int.emod_nonneg x (show ((2 * n : Nat) : Int) ≠ 0 by omega)
  have h2 := Int.emod_lt_of_pos x (show (0 : Int) < ((2 * n : Nat) : Int) by omega)
  have h3 := Int.mul_ediv_add_emod x ((2 * n : Nat) : Int)
  generalize x % ((2 * n : Nat) : Int) = r at *
  generalize x / ((2 * n : Nat) : Int) = q at *
  push_cast at *
  rcases lt_trichotomy q 0 with hq | rfl | hq
  · have : 2 * (n : Int) * q ≤ 2 * n * (-1) := mul_le_mul_of_nonneg_left (by omega) (by omega)
    split_ifs <;> constructor <;> omega
  · split_ifs <;> constructor <;> omega
  · have : 2 * (n : Int) * 1 ≤ 2 * n * q := mul_le_mul_of_nonneg_left (by omega) (by omega)
    split_ifs <;> constructor <;> omega

/-! ### Mirroring and transposition -/

/-- C82. Upside-down image and kernel give the upside-down result, for every type of pixels, with and without scaling (kernels with an odd number of rows, as those of `ZernPSF`). -/
theorem convolution_flip_ud (overflow : ℝ → ℝ) (dtype : DType) (img img' k k' : Grid) (scale : Bool) (hi : FlippedUD img img') (hk : FlippedUD k k')
    (hodd : k.rows % 2 = 1) : Corresponding FlippedUD (convoluteImgPsf overflow dtype img k scale) (convoluteImgPsf overflow dtype img' k' scale) := by
  obtain ⟨k1, k2, k3⟩ := hk
  obtain ⟨i1, i2, i3⟩ := hi
  refine corresponding_of _ moves_UD overflow dtype img img' k k' scale ?_ ⟨i1, i2, i3⟩ ⟨i1, i2, fun i j hi hj => ?_⟩
  · unfold Grid.sum
    rw [k1, k2, ← Finset.sum_range_reflect]
    exact Finset.sum_congr rfl fun a ha => Finset.sum_congr rfl fun b hb => (k3 a b (Finset.mem_range.1 ha) (Finset.mem_range.1 hb)).symm
  · simp only [ndConvolve] at hi hj ⊢
    rw [k1, k2, i1, i2, ← Finset.sum_range_reflect]
    refine Finset.sum_congr rfl fun a ha => Finset.sum_congr rfl fun b hb => ?_
    have ha' := Finset.mem_range.1 ha
    have hb' := Finset.mem_range.1 hb
    rw [k3 (k.rows - 1 - a) b (by omega) hb', i3 _ _ (reflect_lt _ (by omega) _) (reflect_lt _ (by omega) _), reflect_mirror _ (by omega)]
    congr 3
    · omega
    · omega

/-- C82. The same for left and right. -/
theorem convolution_flip_lr (overflow : ℝ → ℝ) (dtype : DType) (img img' k k' : Grid) (scale : Bool) (hi : FlippedLR img img') (hk : FlippedLR k k')
    (hodd : k.cols % 2 = 1) : Corresponding FlippedLR (convoluteImgPsf overflow dtype img k scale) (convoluteImgPsf overflow dtype img' k' scale) := by
  obtain ⟨k1, k2, k3⟩ := hk
  obtain ⟨i1, i2, i3⟩ := hi
  refine corresponding_of _ moves_LR overflow dtype img img' k k' scale ?_ ⟨i1, i2, i3⟩ ⟨i1, i2, fun i j hi hj => ?_⟩
  · unfold Grid.sum
    rw [k1, k2]
    refine Finset.sum_congr rfl fun a ha => ?_
    rw [← Finset.sum_range_reflect]
    exact Finset.sum_congr rfl fun b hb => (k3 a b (Finset.mem_range.1 ha) (Finset.mem_range.1 hb)).symm
  · simp only [ndConvolve] at hi hj ⊢
    rw [k1, k2, i1, i2]
    refine Finset.sum_congr rfl fun a ha => ?_
    rw [← Finset.sum_range_reflect]
    refine Finset.sum_congr rfl fun b hb => ?_
    have ha' := Finset.mem_range.1 ha
    have hb' := Finset.mem_range.1 hb
    rw [k3 a (k.cols - 1 - b) ha' (by omega), i3 _ _ (reflect_lt _ (by omega) _) (reflect_lt _ (by omega) _), reflect_mirror _ (by omega)]
    congr 3
    · omega
    · omega

/-- C82. Transposed image and kernel give the transposed result. -/
theorem convolution_transpose (overflow : ℝ → ℝ) (dtype : DType) (img img' k k' : Grid) (scale : Bool) (hi : Transposed img img') (hk : Transposed k k') :
    Corresponding Transposed (convoluteImgPsf overflow dtype img k scale) (convoluteImgPsf overflow dtype img' k' scale) := by
  obtain ⟨k1, k2, k3⟩ := hk
  obtain ⟨i1, i2, i3⟩ := hi
  refine corresponding_of _ moves_T overflow dtype img img' k k' scale ?_ ⟨i1, i2, i3⟩ ⟨i1, i2, fun i j hi hj => ?_⟩
  · unfold Grid.sum
    rw [k1, k2, Finset.sum_comm]
    exact Finset.sum_congr rfl fun a ha => Finset.sum_congr rfl fun b hb => (k3 a b (Finset.mem_range.1 ha) (Finset.mem_range.1 hb)).symm
  · simp only [ndConvolve] at hi hj ⊢
    rw [k1, k2, i1, i2, Finset.sum_comm]
    refine Finset.sum_congr rfl fun a ha => Finset.sum_congr rfl fun b hb => ?_
    rw [k3 b a (Finset.mem_range.1 hb) (Finset.mem_range.1 ha), i3 _ _ (reflect_lt _ (by omega) _) (reflect_lt _ (by omega) _)]

/-! ### Locality, shifts, order -/

/-- C82. Without scaling, a pixel of the result depends only on the pixels of the image within half the size of the kernel, also at the border. -/
theorem convolution_local (overflow : ℝ → ℝ) (dtype : DType) (img img' k : Grid) (hs : img'.rows = img.rows ∧ img'.cols = img.cols) (i j : Nat) (hi : i < img.rows)
    (hj : j < img.cols)
    (h : ∀ x y, x < img.rows → y < img.cols → i ≤ x + k.rows / 2 → x ≤ i + k.rows / 2 → j ≤ y + k.cols / 2 → y ≤ j + k.cols / 2 → img'.entry x y = img.entry x y) :
    ∃ g g', convoluteImgPsf overflow dtype img k false = .ok (some g) ∧ convoluteImgPsf overflow dtype img' k false = .ok (some g') ∧ g'.entry i j = g.entry i j := by
  refine ⟨_, _, unscaled_eq _ _ _ _, unscaled_eq _ _ _ _, ?_⟩
  have key : (ndConvolve img' k).entry i j = (ndConvolve img k).entry i j := by
    simp only [ndConvolve, hs.1, hs.2]
    refine Finset.sum_congr rfl fun a ha => Finset.sum_congr rfl fun b hb => ?_
    have ha' := Finset.mem_range.1 ha
    have hb' := Finset.mem_range.1 hb
    have n1 := reflect_near img.rows i hi ((i : Int) + (k.rows / 2 : Nat) - a) (k.rows / 2) (by omega)
    have n2 := reflect_near img.cols j hj ((j : Int) + (k.cols / 2 : Nat) - b) (k.cols / 2) (by omega)
    rw [h _ _ (reflect_lt _ (by omega) _) (reflect_lt _ (by omega) _) n1.1 n1.2 n2.1 n2.2]
  have : (blurred img' k).entry i j = (blurred img k).entry i j := by
    unfold blurred
    split_ifs
    · simp only [Grid.map, key]
    · exact key
  show dtype.cast overflow _ = dtype.cast overflow _
  rw [this]

/-- C82. A shifted image gives a shifted result: if around the pixel `(i, j)` the image `img'` shows, `(d, e)` pixels further, what `img` shows, and the kernel fits into both, then the results agree. -/
theorem convolution_shift (overflow : ℝ → ℝ) (dtype : DType) (img img' k : Grid) (i j d e : Nat)
    (hi : k.rows / 2 ≤ i ∧ i + k.rows / 2 < img.rows ∧ i + d + k.rows / 2 < img'.rows) (hj : k.cols / 2 ≤ j ∧ j + k.cols / 2 < img.cols ∧ j + e + k.cols / 2 < img'.cols)
    (h : ∀ x y, i ≤ x + k.rows / 2 → x ≤ i + k.rows / 2 → j ≤ y + k.cols / 2 → y ≤ j + k.cols / 2 → img'.entry (x + d) (y + e) = img.entry x y) :
    ∃ g g', convoluteImgPsf overflow dtype img k false = .ok (some g) ∧ convoluteImgPsf overflow dtype img' k false = .ok (some g') ∧
      g'.entry (i + d) (j + e) = g.entry i j := by
  refine ⟨_, _, unscaled_eq _ _ _ _, unscaled_eq _ _ _ _, ?_⟩
  have key : (ndConvolve img' k).entry (i + d) (j + e) = (ndConvolve img k).entry i j := by
    simp only [ndConvolve]
    refine Finset.sum_congr rfl fun a ha => Finset.sum_congr rfl fun b hb => ?_
    have ha' := Finset.mem_range.1 ha
    have hb' := Finset.mem_range.1 hb
    have r1 : reflectIndex img.rows ((i : Int) + (k.rows / 2 : Nat) - a) = i + k.rows / 2 - a := by
      rw [show (i : Int) + (k.rows / 2 : Nat) - a = ((i + k.rows / 2 - a : Nat) : Int) by omega, reflect_inside _ _ (by omega)]
    have r2 : reflectIndex img.cols ((j : Int) + (k.cols / 2 : Nat) - b) = j + k.cols / 2 - b := by
      rw [show (j : Int) + (k.cols / 2 : Nat) - b = ((j + k.cols / 2 - b : Nat) : Int) by omega, reflect_inside _ _ (by omega)]
    have r3 : reflectIndex img'.rows (((i + d : Nat) : Int) + (k.rows / 2 : Nat) - a) = i + k.rows / 2 - a + d := by
      rw [show ((i + d : Nat) : Int) + (k.rows / 2 : Nat) - a = ((i + k.rows / 2 - a + d : Nat) : Int) by omega, reflect_inside _ _ (by omega)]
    have r4 : reflectIndex img'.cols (((j + e : Nat) : Int) + (k.cols / 2 : Nat) - b) = j + k.cols / 2 - b + e := by
      rw [show ((j + e : Nat) : Int) + (k.cols / 2 : Nat) - b = ((j + k.cols / 2 - b + e : Nat) : Int) by omega, reflect_inside _ _ (by omega)]
    rw [r1, r2, r3, r4, h _ _ (by omega) (by omega) (by omega) (by omega)]
  have : (blurred img' k).entry (i + d) (j + e) = (blurred img k).entry i j := by
    unfold blurred
    split_ifs
    · simp only [Grid.map, key]
    · exact key
  show dtype.cast overflow _ = dtype.cast overflow _
  rw [this]

theorem trunc_mono (x y : ℝ) (h : x ≤ y) : (if 0 ≤ x then ⌊x⌋ else ⌈x⌉ : Int) ≤ if 0 ≤ y then ⌊y⌋ else ⌈y⌉ := by
  split_ifs with h1 h2 h2
  · exact Int.floor_mono h
  · linarith
  · push Not at h1
    have a : ⌈x⌉ ≤ 0 := Int.ceil_le.2 (by simpa using h1.le)
    have b : 0 ≤ ⌊y⌋ := Int.floor_nonneg.2 h2
    omega
  · exact Int.ceil_mono h

/-- C82. A brighter image gives a brighter result (without scaling), for every type of pixels. -/
theorem convolution_mono (overflow : ℝ → ℝ) (dtype : DType) (img img' k : Grid) (hk : IsPsfKernel k) (hs : img'.rows = img.rows ∧ img'.cols = img.cols)
    (ht : HasType dtype img) (ht' : HasType dtype img') (h : ∀ i j, i < img.rows → j < img.cols → img.entry i j ≤ img'.entry i j) :
    ∃ g g', convoluteImgPsf overflow dtype img k false = .ok (some g) ∧ convoluteImgPsf overflow dtype img' k false = .ok (some g') ∧
      ∀ i j, i < img.rows → j < img.cols → g.entry i j ≤ g'.entry i j := by
  refine ⟨_, _, unscaled_eq _ _ _ _, unscaled_eq _ _ _ _, fun i j hi hj => ?_⟩
  have hn : NonEmpty img := ⟨by omega, by omega⟩
  have hn' : NonEmpty img' := ⟨by omega, by omega⟩
  have key : (blurred img k).entry i j ≤ (blurred img' k).entry i j := by
    rw [blurred_entry hk, blurred_entry hk]
    refine div_le_div_of_nonneg_right ?_ (sum_pos_of_kernel hk).le
    refine Finset.sum_le_sum fun a ha => Finset.sum_le_sum fun b hb => ?_
    rw [hs.1, hs.2]
    exact mul_le_mul_of_nonneg_left (h _ _ (reflect_lt _ hn.1 _) (reflect_lt _ hn.2 _)) (hk.nonneg a b (Finset.mem_range.1 ha) (Finset.mem_range.1 hb))
  show dtype.cast overflow _ ≤ dtype.cast overflow _
  cases dtype with
  | float => exact key
  | int lo hi =>
    have w : ∀ g : Grid, HasType (.int lo hi) g → Within g lo hi := fun g hg a b ha hb => by
      obtain ⟨n, e, h1, h2⟩ := hg a b ha hb
      rw [e]; exact ⟨by exact_mod_cast h1, by exact_mod_cast h2⟩
    have range : ∀ x : ℝ, (lo : ℝ) ≤ x → x ≤ hi → lo ≤ (if 0 ≤ x then ⌊x⌋ else ⌈x⌉ : Int) ∧ (if 0 ≤ x then ⌊x⌋ else ⌈x⌉ : Int) ≤ hi := by
      intro x h1 h2
      split_ifs
      · exact ⟨Int.le_floor.2 h1, by have := (Int.floor_le x).trans h2; exact_mod_cast this⟩
      · exact ⟨by have := h1.trans (Int.le_ceil x); exact_mod_cast this, Int.ceil_le.2 h2⟩
    have w1 := blurred_within hk img hn lo hi (w img ht) i j
    have w2 := blurred_within hk img' hn' lo hi (w img' ht') i j
    unfold DType.cast
    simp only []
    rw [if_pos (range _ w1.1 w1.2), if_pos (range _ w2.1 w2.2)]
    exact_mod_cast trunc_mono _ _ key

/-! ### Nearly equal kernels -/

/-- What the kernel element `(a, b)` is multiplied with at the pixel `(i, j)`. -/
noncomputable def seen (img : Grid) (rows cols i j a b : ℕ) : ℝ :=
  img.entry (reflectIndex img.rows ((i : Int) + (rows / 2 : Nat) - a)) (reflectIndex img.cols ((j : Int) + (cols / 2 : Nat) - b))

/-- C82. Two kernels of the same shape whose elements differ by at most `e`: the images differ by at most `rows * cols * e / sum` of the range of the pixels. -/
theorem convolution_kernel_error (overflow : ℝ → ℝ) (img k k' : Grid) (hk : IsPsfKernel k) (hk' : IsPsfKernel k') (hs : k'.rows = k.rows ∧ k'.cols = k.cols)
    (hn : NonEmpty img) (lo hi : ℝ) (hw : Within img lo hi) (e : ℝ) (he : ∀ a b, a < k.rows → b < k.cols → |k.entry a b - k'.entry a b| ≤ e) :
    ∃ g g', convoluteImgPsf overflow .float img k false = .ok (some g) ∧ convoluteImgPsf overflow .float img k' false = .ok (some g') ∧
      ∀ i j, i < img.rows → j < img.cols → |g.entry i j - g'.entry i j| ≤
        k.rows * k.cols * e / (∑ a ∈ Finset.range k.rows, ∑ b ∈ Finset.range k.cols, k.entry a b) * (hi - lo) := by
  refine ⟨_, _, unscaled_eq _ _ _ _, unscaled_eq _ _ _ _, fun i j _ _ => ?_⟩
  show |(blurred img k).entry i j - (blurred img k').entry i j| ≤ k.rows * k.cols * e / k.sum * (hi - lo)
  have hK := sum_pos_of_kernel hk
  have hK' := sum_pos_of_kernel hk'
  have w' := blurred_within hk' img hn lo hi hw i j
  have m : ∀ a b, lo ≤ seen img k.rows k.cols i j a b ∧ seen img k.rows k.cols i j a b ≤ hi := fun a b => hw _ _ (reflect_lt _ hn.1 _) (reflect_lt _ hn.2 _)
  have e1 : (blurred img k).entry i j * k.sum = ∑ a ∈ Finset.range k.rows, ∑ b ∈ Finset.range k.cols, k.entry a b * seen img k.rows k.cols i j a b := by
    rw [blurred_entry hk, div_mul_cancel₀ _ hK.ne']; rfl
  have e2 : (blurred img k').entry i j * k'.sum = ∑ a ∈ Finset.range k.rows, ∑ b ∈ Finset.range k.cols, k'.entry a b * seen img k.rows k.cols i j a b := by
    rw [blurred_entry hk', div_mul_cancel₀ _ hK'.ne', hs.1, hs.2]; rfl
  generalize (blurred img k).entry i j = u at *
  generalize (blurred img k').entry i j = u' at *
  have key : (u - u') * k.sum = ∑ a ∈ Finset.range k.rows, ∑ b ∈ Finset.range k.cols, (k.entry a b - k'.entry a b) * (seen img k.rows k.cols i j a b - u') := by
    have : ∑ a ∈ Finset.range k.rows, ∑ b ∈ Finset.range k.cols, (k.entry a b - k'.entry a b) * (seen img k.rows k.cols i j a b - u') =
        (∑ a ∈ Finset.range k.rows, ∑ b ∈ Finset.range k.cols, k.entry a b * seen img k.rows k.cols i j a b)
        - (∑ a ∈ Finset.range k.rows, ∑ b ∈ Finset.range k.cols, k'.entry a b * seen img k.rows k.cols i j a b)
        - (k.sum - k'.sum) * u' := by
      have s' : k'.sum = ∑ a ∈ Finset.range k.rows, ∑ b ∈ Finset.range k.cols, k'.entry a b := by unfold Grid.sum; rw [hs.1, hs.2]
      rw [s', Grid.sum, ← Finset.sum_sub_distrib, ← Finset.sum_sub_distrib, Finset.sum_mul, ← Finset.sum_sub_distrib]
      refine Finset.sum_congr rfl fun a _ => ?_
      rw [← Finset.sum_sub_distrib, ← Finset.sum_sub_distrib, Finset.sum_mul, ← Finset.sum_sub_distrib]
      exact Finset.sum_congr rfl fun b _ => by ring
    rw [this, ← e1, ← e2]; ring
  have bound : |(u - u') * k.sum| ≤ k.rows * k.cols * e * (hi - lo) := by
    rw [key]
    calc _ ≤ ∑ a ∈ Finset.range k.rows, ∑ b ∈ Finset.range k.cols, e * (hi - lo) := by
          refine (Finset.abs_sum_le_sum_abs _ _).trans (Finset.sum_le_sum fun a ha => (Finset.abs_sum_le_sum_abs _ _).trans (Finset.sum_le_sum fun b hb => ?_))
          rw [abs_mul]
          have e0 := he a b (Finset.mem_range.1 ha) (Finset.mem_range.1 hb)
          have m0 := m a b
          exact mul_le_mul e0 (abs_le.2 ⟨by linarith, by linarith⟩) (abs_nonneg _) ((abs_nonneg _).trans e0)
      _ = _ := by simp; ring
  rw [abs_mul, abs_of_pos hK] at bound
  rw [div_mul_eq_mul_div, le_div_iff₀ hK]
  exact bound

theorem inner_sum (n t : ℕ) (f : ℕ → ℝ) : ∑ a ∈ Finset.range (n - 2 * t), f (a + t) = ∑ a ∈ Finset.range n, if t ≤ a ∧ a < n - t then f a else 0 := by
  rw [← Finset.sum_filter]
  refine Finset.sum_nbij' (fun a => a + t) (fun a => a - t) ?_ ?_ ?_ ?_ ?_
  · intro a ha; rw [Finset.mem_range] at ha; rw [Finset.mem_filter, Finset.mem_range]; omega
  · intro a ha; rw [Finset.mem_filter, Finset.mem_range] at ha; rw [Finset.mem_range]; omega
  · intro a _; simp
  · intro a ha; rw [Finset.mem_filter] at ha; show a - t + t = a; omega
  · intro a _; rfl

/-- C82. Cropping the kernel of a `ZernPSF` object (in any state, its centre positive) changes the convolved image by at most the fraction of the kernel that is removed,
times the range of the pixels. -/
theorem crop_changes_image_little (overflow : ℝ → ℝ) (o : PsfObj) (s : CoefState) (hr : PsfReachable o s)
    (hpos : 0 < o.kernel.entry (o.kernel.rows / 2) (o.kernel.cols / 2)) (part : ℝ) (hp : 0 < part) (hp' : part < 1 / 2) (hs : 3 < o.kernelSize) (img : Grid)
    (hn : NonEmpty img) (lo hi : ℝ) (hw : Within img lo hi) :
    ∃ o' g g', o.crop part = (.ok (), o') ∧ o.convoluteImg overflow .float img false = .ok (some g) ∧ o'.convoluteImg overflow .float img false = .ok (some g') ∧
      ∀ i j, i < img.rows → j < img.cols → |g.entry i j - g'.entry i j| ≤ (o.kernel.sum - o'.kernel.sum) / o.kernel.sum * (hi - lo) := by
  obtain ⟨o', top, t, h1, h2, h3, _, ⟨c1, c2, c3⟩, _⟩ := crop_kernel_exact o s hr part hp hp' hs
  obtain ⟨hk, _⟩ := reachable_kernel o s hr hpos
  have hodd := hr.inv.odd
  have hrc := hr.inv.rows_cols
  have hne := h3.nonempty
  refine ⟨o', _, _, h1, unscaled_eq _ _ _ _, unscaled_eq _ _ _ _, fun i j _ _ => ?_⟩
  generalize o.kernel = k at *
  generalize o'.kernel = k' at *
  show |(blurred img k).entry i j - (blurred img k').entry i j| ≤ (k.sum - k'.sum) / k.sum * (hi - lo)
  have hk' : IsPsfKernel k' := by
    obtain ⟨⟨a, b, ha, hb, hab⟩, hle⟩ := h2
    have htop : 0 < top := by
      obtain ⟨a', b', ha', hb', hp'⟩ := hk.pos
      exact hp'.trans_le (hle a' b' ha' (by omega))
    have hin : ¬ (a < t ∨ k.rows - t ≤ a ∨ b < t ∨ k.rows - t ≤ b) := by
      intro h
      have := h3.removed a b ha hb h
      rw [hab] at this
      nlinarith
    push Not at hin
    refine ⟨fun x y hx hy => ?_, ⟨a - t, b - t, by omega, by omega, ?_⟩⟩
    · rw [c3]; exact hk.nonneg _ _ (by omega) (by omega)
    · rw [c3, show a - t + t = a by omega, show b - t + t = b by omega, hab]; exact htop
  have hK := sum_pos_of_kernel hk
  have hK' := sum_pos_of_kernel hk'
  have w' := blurred_within hk' img hn lo hi hw i j
  have m : ∀ a b, lo ≤ seen img k.rows k.cols i j a b ∧ seen img k.rows k.cols i j a b ≤ hi := fun a b => hw _ _ (reflect_lt _ hn.1 _) (reflect_lt _ hn.2 _)
  have e1 : (blurred img k).entry i j * k.sum = ∑ a ∈ Finset.range k.rows, ∑ b ∈ Finset.range k.rows, k.entry a b * seen img k.rows k.cols i j a b := by
    rw [blurred_entry hk, div_mul_cancel₀ _ hK.ne']
    simp only [← hrc]; rfl
  have inner2 : ∀ f : ℕ → ℕ → ℝ, ∑ a ∈ Finset.range k'.rows, ∑ b ∈ Finset.range k'.cols, f (a + t) (b + t) =
      ∑ a ∈ Finset.range k.rows, ∑ b ∈ Finset.range k.rows, if (t ≤ a ∧ a < k.rows - t) ∧ (t ≤ b ∧ b < k.rows - t) then f a b else 0 := by
    intro f
    rw [c1, c2, inner_sum k.rows t (fun a => ∑ b ∈ Finset.range (k.rows - 2 * t), f a (b + t))]
    refine Finset.sum_congr rfl fun a _ => ?_
    rw [inner_sum k.rows t (fun b => f a b)]
    by_cases ha : t ≤ a ∧ a < k.rows - t
    · simp [ha]
    · rw [if_neg ha]
      symm
      refine Finset.sum_eq_zero fun b _ => if_neg (by tauto)
  have e2 : (blurred img k').entry i j * k'.sum = ∑ a ∈ Finset.range k.rows, ∑ b ∈ Finset.range k.rows,
      if (t ≤ a ∧ a < k.rows - t) ∧ (t ≤ b ∧ b < k.rows - t) then k.entry a b * seen img k.rows k.cols i j a b else 0 := by
    rw [blurred_entry hk', div_mul_cancel₀ _ hK'.ne', ← inner2 fun a b => k.entry a b * seen img k.rows k.cols i j a b]
    refine Finset.sum_congr rfl fun a _ => Finset.sum_congr rfl fun b _ => ?_
    rw [c3]
    unfold seen
    congr 3
    · omega
    · omega
  have e3 : k'.sum = ∑ a ∈ Finset.range k.rows, ∑ b ∈ Finset.range k.rows, if (t ≤ a ∧ a < k.rows - t) ∧ (t ≤ b ∧ b < k.rows - t) then k.entry a b else 0 := by
    rw [← inner2 fun a b => k.entry a b]
    exact Finset.sum_congr rfl fun a _ => Finset.sum_congr rfl fun b _ => c3 a b
  have e4 : k.sum = ∑ a ∈ Finset.range k.rows, ∑ b ∈ Finset.range k.rows, k.entry a b := by unfold Grid.sum; rw [← hrc]
  generalize (blurred img k).entry i j = u at *
  generalize (blurred img k').entry i j = u' at *
  have key : (u - u') * k.sum = ∑ a ∈ Finset.range k.rows, ∑ b ∈ Finset.range k.rows,
      (if (t ≤ a ∧ a < k.rows - t) ∧ (t ≤ b ∧ b < k.rows - t) then 0 else k.entry a b) * (seen img k.rows k.cols i j a b - u') := by
    have e5 : (u - u') * k.sum = u * k.sum - u' * k'.sum - (k.sum - k'.sum) * u' := by ring
    rw [e5, e1, e2, e4, e3, ← Finset.sum_sub_distrib, ← Finset.sum_sub_distrib, Finset.sum_mul, ← Finset.sum_sub_distrib]
    refine Finset.sum_congr rfl fun a _ => ?_
    rw [← Finset.sum_sub_distrib, ← Finset.sum_sub_distrib, Finset.sum_mul, ← Finset.sum_sub_distrib]
    refine Finset.sum_congr rfl fun b _ => ?_
    split_ifs <;> ring
  have bound : |(u - u') * k.sum| ≤ (k.sum - k'.sum) * (hi - lo) := by
    rw [key, e4, e3, ← Finset.sum_sub_distrib, Finset.sum_mul]
    refine (Finset.abs_sum_le_sum_abs _ _).trans (Finset.sum_le_sum fun a ha => (Finset.abs_sum_le_sum_abs _ _).trans ?_)
    rw [← Finset.sum_sub_distrib, Finset.sum_mul]
    refine Finset.sum_le_sum fun b hb => ?_
    have m0 := m a b
    have k0 := hk.nonneg a b (Finset.mem_range.1 ha) (by have := Finset.mem_range.1 hb; omega)
    split_ifs
    · simp
    · rw [abs_mul, abs_of_nonneg k0, sub_zero]
      exact mul_le_mul_of_nonneg_left (abs_le.2 ⟨by linarith, by linarith⟩) k0
  rw [abs_mul, abs_of_pos hK] at bound
  rw [div_mul_eq_mul_div, le_div_iff₀ hK]
  exact bound

/-- C82. Nearly equal amplitudes give nearly equal images: two kernels (not normalised, not all 0) calculated for the amplitudes `cs` and `ds` with the same optics, after any histories. -/
theorem convolution_amplitude_error (overflow : ℝ → ℝ) (h h' : List Call) (fuel : Nat) (cs ds : List ℝ) (os : List PolObj) (hl : cs.length = os.length)
    (hl' : ds.length = os.length) (h0 : os ≠ []) (hv : PolsOk fuel os) (q : KernelParams) (hR : 2 ≤ q.nR) (hPhi : 0 < q.nPhi) (hopt : OpticsOk q) (hnorm : q.normalize = false)
    (S : ℕ) (hS : OddSize q.kernelSize S) (img : Grid) (hn : NonEmpty img) (lo hi : ℝ) (hw : Within img lo hi) :
    ∃ k k' g g', (getPsfKernelZerns fuel (cs.zip os) q (afterCalls h)).1 = .ok k ∧ (getPsfKernelZerns fuel (ds.zip os) q (afterCalls h')).1 = .ok k' ∧
      convoluteImgPsf overflow .float img k false = .ok (some g) ∧ convoluteImgPsf overflow .float img k' false = .ok (some g') ∧
      ((∃ a b, a < S ∧ b < S ∧ 0 < k.entry a b) → (∃ a b, a < S ∧ b < S ∧ 0 < k'.entry a b) → ∀ i j, i < img.rows → j < img.cols →
        |g.entry i j - g'.entry i j| ≤ S * S * (2 * amplitudeDistance cs ds (ordersOf os)) / (∑ a ∈ Finset.range S, ∑ b ∈ Finset.range S, k.entry a b) * (hi - lo)) := by
  obtain ⟨k, k', e, e', hb⟩ := kernel_sensitivity h h' fuel cs ds os hl hl' h0 hv q q hR hPhi hopt hopt ⟨rfl, rfl, rfl⟩ ⟨hnorm, hnorm⟩ S hS
  obtain ⟨u, x1, r1, c1, b1, _⟩ := kernel_sum_values_bounded h fuel cs os hl h0 hv q hR hPhi hopt S hS (fun hc => by simp [hnorm] at hc)
  obtain ⟨u', x2, r2, c2, b2, _⟩ := kernel_sum_values_bounded h' fuel ds os hl' h0 hv q hR hPhi hopt S hS (fun hc => by simp [hnorm] at hc)
  obtain rfl : k = u := by rw [e] at x1; exact Except.ok.inj x1
  obtain rfl : k' = u' := by rw [e'] at x2; exact Except.ok.inj x2
  refine ⟨k, k', _, _, e, e', unscaled_eq _ _ _ _, unscaled_eq _ _ _ _, fun p p' => ?_⟩
  obtain ⟨a, b, ha, hb1, hab⟩ := p
  obtain ⟨a', b', ha', hb1', hab'⟩ := p'
  obtain ⟨g, g', f1, f2, f3⟩ := convolution_kernel_error overflow img k k' ⟨fun x y hx hy => (b1 x y hx hy).1, ⟨a, b, by omega, by omega, hab⟩⟩
    ⟨fun x y hx hy => (b2 x y hx hy).1, ⟨a', b', by omega, by omega, hab'⟩⟩ ⟨by omega, by omega⟩ hn lo hi hw (2 * amplitudeDistance cs ds (ordersOf os))
    (fun x y hx hy => by
      have := hb x y (by omega) (by omega)
      simpa using this)
  rw [unscaled_eq] at f1 f2
  obtain rfl := Option.some.inj (Except.ok.inj f1)
  obtain rfl := Option.some.inj (Except.ok.inj f2)
  rw [r1, c1] at f3
  exact f3

/-! ### With scaling, the result is not local -/

/-- Seven pixels with a bright one at the left; with `w` the two at the right are as bright. -/
noncomputable def lampImg (w : Bool) : Grid := ⟨1, 7, fun _ j => if j = 0 ∨ (w = true ∧ 5 ≤ j) then 3 else 0⟩

/-- Three equal elements in a row. -/
noncomputable def rowKernel : Grid := ⟨1, 3, fun _ _ => 1⟩

theorem rowKernel_ok : IsPsfKernel rowKernel := ⟨fun _ _ _ _ => zero_le_one, ⟨0, 0, by decide, by decide, zero_lt_one⟩⟩

theorem lamp_blurred (w : Bool) (j : ℕ) (hj : j < 7) :
    (blurred (lampImg w) rowKernel).entry 0 j = if j = 0 then 2 else if j = 1 then 1 else if w = true ∧ j = 4 then 1 else if w = true ∧ j = 5 then 2 else if w = true ∧ j = 6 then 3 else 0 := by
  rw [blurred_entry rowKernel_ok]
  have r0 : reflectIndex 1 0 = 0 := by decide
  have r1 : reflectIndex 7 (-1) = 0 := by decide
  have r2 : reflectIndex 7 0 = 0 := by decide
  have r3 : reflectIndex 7 1 = 1 := by decide
  have r4 : reflectIndex 7 2 = 2 := by decide
  have r5 : reflectIndex 7 3 = 3 := by decide
  have r6 : reflectIndex 7 4 = 4 := by decide
  have r7 : reflectIndex 7 5 = 5 := by decide
  have r8 : reflectIndex 7 6 = 6 := by decide
  have r9 : reflectIndex 7 7 = 6 := by decide
  interval_cases j <;> cases w <;> norm_num [Finset.sum_range_succ, lampImg, rowKernel, Grid.sum, r0, r1, r2, r3, r4, r5, r6, r7, r8, r9]

/-- C82 is false with the (default) scaling: a change far away changes all pixels. The two images differ only in the two pixels at the right, the kernel reaches one pixel far, and the
left pixel is 3 for the one and 2 for the other. -/
theorem scaled_convolution_not_local (overflow : ℝ → ℝ) :
    (∀ j, j ≠ 5 → j ≠ 6 → j < 7 → (lampImg true).entry 0 j = (lampImg false).entry 0 j) ∧
    ∃ g g', convoluteImgPsf overflow .float (lampImg false) rowKernel true = .ok (some g) ∧
      convoluteImgPsf overflow .float (lampImg true) rowKernel true = .ok (some g') ∧ g.entry 0 0 = 3 ∧ g'.entry 0 0 = 2 := by
  refine ⟨fun j h1 h2 h3 => ?_, ?_⟩
  · interval_cases j <;> simp_all [lampImg]
  have out : ∀ (w : Bool) (m : ℝ), m ≠ 0 → (∃ j, j < 7 ∧ (blurred (lampImg w) rowKernel).entry 0 j = m) → (∀ j, j < 7 → (blurred (lampImg w) rowKernel).entry 0 j ≤ m) →
      convoluteImgPsf overflow .float (lampImg w) rowKernel true =
        .ok (some (((blurred (lampImg w) rowKernel).map (· * (3 / m))).map (DType.float.cast overflow))) := by
    intro w m hm ⟨j, hj, ej⟩ hle
    obtain ⟨hr, hcl⟩ := blurred_rows (lampImg w) rowKernel
    have hr1 : (lampImg w).rows = 1 := rfl
    have hc1 : (lampImg w).cols = 7 := rfl
    have mem0 : (3 : ℝ) ∈ (lampImg w).elems := (mem_elems _ _).2 ⟨0, 0, by omega, by omega, by simp [lampImg]⟩
    have memj : m ∈ (blurred (lampImg w) rowKernel).elems := (mem_elems _ _).2 ⟨0, j, by omega, by omega, ej⟩
    obtain ⟨top, t1, t2, t3⟩ := npMax_ok (lampImg w).elems (List.ne_nil_of_mem mem0)
    obtain ⟨m', m1, m2, m3⟩ := npMax_ok (blurred (lampImg w) rowKernel).elems (List.ne_nil_of_mem memj)
    have htop : top = 3 := by
      obtain ⟨a, b, _, _, e⟩ := (mem_elems _ _).1 t2
      refine le_antisymm ?_ (t3 _ mem0)
      rw [← e]; simp only [lampImg]; split_ifs <;> norm_num
    have hmm : m' = m := by
      obtain ⟨a, b, ha, hb, e⟩ := (mem_elems _ _).1 m2
      refine le_antisymm ?_ (m3 _ memj)
      obtain rfl : a = 0 := by omega
      rw [← e]; exact hle b (by omega)
    unfold convoluteImgPsf
    simp only [if_true]
    rw [t1]
    simp only []
    unfold blurred at m1
    rw [m1]
    simp only []
    rw [if_neg (by rw [hmm]; exact hm), htop, hmm]
    rfl
  refine ⟨_, _, out false 2 (by norm_num) ⟨0, by norm_num, by rw [lamp_blurred _ _ (by norm_num)]; simp⟩ (fun j hj => ?_),
    out true 3 (by norm_num) ⟨6, by norm_num, by rw [lamp_blurred _ _ (by norm_num)]; norm_num⟩ (fun j hj => ?_), ?_, ?_⟩
  · rw [lamp_blurred _ _ hj]; interval_cases j <;> norm_num
  · rw [lamp_blurred _ _ hj]; interval_cases j <;> norm_num
  · show (blurred (lampImg false) rowKernel).entry 0 0 * (3 / 2) = 3
    rw [lamp_blurred _ _ (by norm_num)]; norm_num
  · show (blurred (lampImg true) rowKernel).entry 0 0 * (3 / 3) = 2
    rw [lamp_blurred _ _ (by norm_num)]; norm_num

/-! ### The hypotheses are met -/

example : FlippedUD ⟨2, 1, fun i _ => i⟩ ⟨2, 1, fun i _ => 1 - i⟩ ∧ Transposed ⟨2, 1, fun i _ => i⟩ ⟨1, 2, fun _ j => j⟩ ∧ FlippedLR rowKernel rowKernel ∧
    IsPsfKernel rowKernel ∧ rowKernel.rows % 2 = 1 ∧ rowKernel.cols % 2 = 1 := by
  refine ⟨⟨rfl, rfl, fun i j hi hj => ?_⟩, ⟨rfl, rfl, fun i j hi hj => rfl⟩, ⟨rfl, rfl, fun i j hi hj => rfl⟩, rowKernel_ok, rfl, rfl⟩
  simp only at hi ⊢
  interval_cases i <;> norm_num

/-- The images of `scaled_convolution_not_local` meet the hypotheses of `convolution_local` at the left pixel. -/
example : ∃ g g', convoluteImgPsf id .float (lampImg false) rowKernel false = .ok (some g) ∧ convoluteImgPsf id .float (lampImg true) rowKernel false = .ok (some g') ∧
    g'.entry 0 0 = g.entry 0 0 :=
  convolution_local id .float (lampImg false) (lampImg true) rowKernel ⟨rfl, rfl⟩ 0 0 (by decide) (by decide) fun x y hx hy h1 h2 h3 h4 => by
    simp only [rowKernel] at h2 h4
    have : ¬ 5 ≤ y := by omega
    simp [lampImg, this]

end Verif.Props
