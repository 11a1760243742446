import Verif.Model.Convolve
import Verif.Props.PsfCalc

/-!
# C37: convolution of images with kernels
-/

namespace Verif.Props
open Verif.Model Verif.Spec Verif.Proofs

/-- The array has at least one element. -/
def NonEmpty (g : Grid) : Prop := 0 < g.rows ∧ 0 < g.cols

/-- All elements are in `[lo, hi]`. -/
def Within (g : Grid) (lo hi : ℝ) : Prop := ∀ i j, i < g.rows → j < g.cols → lo ≤ g.entry i j ∧ g.entry i j ≤ hi

/-- A kernel: no negative elements, and a positive one. -/
structure IsPsfKernel (k : Grid) : Prop where
  nonneg : ∀ a b, a < k.rows → b < k.cols → 0 ≤ k.entry a b
  pos : ∃ a b, a < k.rows ∧ b < k.cols ∧ 0 < k.entry a b

/-- The elements belong to the type: integers in its range. -/
def HasType (dtype : DType) (g : Grid) : Prop :=
  match dtype with
  | .float => True
  | .int lo hi => ∀ i j, i < g.rows → j < g.cols → ∃ n : Int, g.entry i j = n ∧ lo ≤ n ∧ n ≤ hi

theorem reflect_lt (n : Nat) (h : 0 < n) (i : Int) : reflectIndex n i < n := by
  unfold reflectIndex
  simp only []
  have h1 := Int.emod_nonneg i (show ((2 * n : Nat) : Int) ≠ 0 by omega)
  have h2 := Int.emod_lt_of_pos i (show (0 : Int) < ((2 * n : Nat) : Int) by omega)
  split_ifs <;> omega

theorem reflect_inside (n i : Nat) (h : i < n) : reflectIndex n i = i := by
  unfold reflectIndex
  simp only []
  rw [Int.emod_eq_of_lt (by omega) (by push_cast; omega)]
  rw [if_pos (by omega)]
  omega

/-- C37. Outside, the image is continued by reflection at its borders: the pixel at distance `k + 1` beyond a border is the pixel at
distance `k` inside. -/
theorem border_reflects (n : Nat) (i : Int) :
    reflectIndex n (-1 - i) = reflectIndex n i ∧ reflectIndex n (2 * n - 1 - i) = reflectIndex n i := by
  have key : ∀ i : Int, reflectIndex n (-1 - i) = reflectIndex n i := by
    intro i
    rcases Nat.eq_zero_or_pos n with rfl | hn
    · unfold reflectIndex; simp
    unfold reflectIndex
    simp only []
    have h1 := Int.emod_nonneg i (show ((2 * n : Nat) : Int) ≠ 0 by omega)
    have h2 := Int.emod_lt_of_pos i (show (0 : Int) < ((2 * n : Nat) : Int) by omega)
    have h3 : (-1 - i) % ((2 * n : Nat) : Int) = ((2 * n : Nat) : Int) - 1 - i % ((2 * n : Nat) : Int) := by
      have e : -1 - i = (((2 * n : Nat) : Int) - 1 - i % ((2 * n : Nat) : Int)) + ((2 * n : Nat) : Int) * (-1 - i / ((2 * n : Nat) : Int)) := by
        have := Int.mul_ediv_add_emod i ((2 * n : Nat) : Int)
        linear_combination this
      rw [e, Int.add_mul_emod_self_left]
      exact Int.emod_eq_of_lt (by omega) (by omega)
    rw [h3]
    split_ifs <;> omega
  refine ⟨key i, ?_⟩
  rw [← key i]
  unfold reflectIndex
  have : (2 * (n : Int) - 1 - i) % ((2 * n : Nat) : Int) = (-1 - i) % ((2 * n : Nat) : Int) := by
    rw [show 2 * (n : Int) - 1 - i = (-1 - i) + ((2 * n : Nat) : Int) * 1 by push_cast; ring, Int.add_mul_emod_self_left]
  rw [this]

theorem sum_pos_of_kernel {k : Grid} (h : IsPsfKernel k) : 0 < k.sum := by
  obtain ⟨a, b, ha, hb, hp⟩ := h.pos
  have h1 : ∀ x ∈ Finset.range k.rows, 0 ≤ ∑ y ∈ Finset.range k.cols, k.entry x y := fun x hx =>
    Finset.sum_nonneg fun y hy => h.nonneg x y (Finset.mem_range.1 hx) (Finset.mem_range.1 hy)
  have h2 : 0 < ∑ y ∈ Finset.range k.cols, k.entry a y :=
    Finset.sum_pos' (fun y hy => h.nonneg a y ha (Finset.mem_range.1 hy)) ⟨b, Finset.mem_range.2 hb, hp⟩
  exact Finset.sum_pos' h1 ⟨a, Finset.mem_range.2 ha, h2⟩

/-- The convolved image before the conversion to the type. -/
noncomputable def blurred (img k : Grid) : Grid := if k.sum > 0 then (ndConvolve img k).map (· / k.sum) else ndConvolve img k

theorem blurred_entry {k : Grid} (h : IsPsfKernel k) (img : Grid) (i j : Nat) :
    (blurred img k).entry i j = (∑ a ∈ Finset.range k.rows, ∑ b ∈ Finset.range k.cols,
      k.entry a b * img.entry (reflectIndex img.rows ((i : Int) + (k.rows / 2 : Nat) - a)) (reflectIndex img.cols ((j : Int) + (k.cols / 2 : Nat) - b)))
      / k.sum := by
  unfold blurred
  rw [if_pos (sum_pos_of_kernel h)]
  rfl

theorem blurred_rows (img k : Grid) : (blurred img k).rows = img.rows ∧ (blurred img k).cols = img.cols := by
  unfold blurred; split_ifs <;> exact ⟨rfl, rfl⟩

theorem blurred_within {k : Grid} (h : IsPsfKernel k) (img : Grid) (hn : NonEmpty img) (lo hi : ℝ) (hw : Within img lo hi) (i j : Nat) :
    lo ≤ (blurred img k).entry i j ∧ (blurred img k).entry i j ≤ hi := by
  have hs := sum_pos_of_kernel h
  rw [blurred_entry h, le_div_iff₀ hs, div_le_iff₀ hs]
  unfold Grid.sum
  rw [Finset.mul_sum, Finset.mul_sum]
  constructor
  · refine Finset.sum_le_sum fun a ha => ?_
    rw [Finset.mul_sum]
    refine Finset.sum_le_sum fun b hb => ?_
    have h1 := h.nonneg a b (Finset.mem_range.1 ha) (Finset.mem_range.1 hb)
    have h2 := (hw _ _ (reflect_lt img.rows hn.1 ((i : Int) + (k.rows / 2 : Nat) - a)) (reflect_lt img.cols hn.2 ((j : Int) + (k.cols / 2 : Nat) - b))).1
    nlinarith
  · refine Finset.sum_le_sum fun a ha => ?_
    rw [Finset.mul_sum]
    refine Finset.sum_le_sum fun b hb => ?_
    have h1 := h.nonneg a b (Finset.mem_range.1 ha) (Finset.mem_range.1 hb)
    have h2 := (hw _ _ (reflect_lt img.rows hn.1 ((i : Int) + (k.rows / 2 : Nat) - a)) (reflect_lt img.cols hn.2 ((j : Int) + (k.cols / 2 : Nat) - b))).2
    nlinarith

theorem unscaled_eq (ovf : ℝ → ℝ) (dt : DType) (img k : Grid) :
    convoluteImgPsf ovf dt img k false = .ok (some ((blurred img k).map (dt.cast ovf))) := rfl

theorem cast_within (ovf : ℝ → ℝ) (lo hi : Int) (x : ℝ) (h1 : (lo : ℝ) ≤ x) (h2 : x ≤ hi) :
    ∃ n : Int, (DType.int lo hi).cast ovf x = n ∧ lo ≤ n ∧ n ≤ hi ∧ |(n : ℝ) - x| < 1 ∧ |(n : ℝ)| ≤ |x| := by
  unfold DType.cast
  simp only []
  by_cases h0 : 0 ≤ x
  · rw [if_pos h0]
    have a1 : lo ≤ ⌊x⌋ := Int.le_floor.2 h1
    have a2 : ⌊x⌋ ≤ hi := by have := (Int.floor_le x).trans h2; exact_mod_cast this
    rw [if_pos ⟨a1, a2⟩]
    have b1 := Int.floor_le x
    have b2 := Int.lt_floor_add_one x
    have b3 : (0 : ℝ) ≤ ⌊x⌋ := by exact_mod_cast Int.floor_nonneg.2 h0
    exact ⟨_, rfl, a1, a2, by rw [abs_lt]; constructor <;> linarith, by rw [abs_of_nonneg b3, abs_of_nonneg h0]; exact b1⟩
  · rw [if_neg h0]
    have a1 : lo ≤ ⌈x⌉ := by have := h1.trans (Int.le_ceil x); exact_mod_cast this
    have a2 : ⌈x⌉ ≤ hi := Int.ceil_le.2 h2
    rw [if_pos ⟨a1, a2⟩]
    have b1 := Int.le_ceil x
    have b2 := Int.ceil_lt_add_one x
    push Not at h0
    have b3 : (⌈x⌉ : ℝ) ≤ 0 := by exact_mod_cast Int.ceil_le.2 (by simpa using h0.le)
    exact ⟨_, rfl, a1, a2, by rw [abs_lt]; constructor <;> linarith, by rw [abs_of_nonpos b3, abs_of_nonpos h0.le]; linarith⟩

theorem cast_int (ovf : ℝ → ℝ) (lo hi n : Int) (h1 : lo ≤ n) (h2 : n ≤ hi) : (DType.int lo hi).cast ovf n = n := by
  unfold DType.cast
  simp [h1, h2]

/-- C37. The value of a pixel so far from the border that the kernel fits: the sum of the kernel elements times the image pixels around it,
divided by the sum of the kernel. -/
theorem convolution_value (overflow : ℝ → ℝ) (img k : Grid) (hk : IsPsfKernel k) (i j : Nat) (hr : k.rows % 2 = 1) (hc : k.cols % 2 = 1)
    (hi : k.rows / 2 ≤ i ∧ i + k.rows / 2 < img.rows) (hj : k.cols / 2 ≤ j ∧ j + k.cols / 2 < img.cols) :
    ∃ g, convoluteImgPsf overflow .float img k false = .ok (some g) ∧
      g.entry i j = (∑ a ∈ Finset.range k.rows, ∑ b ∈ Finset.range k.cols,
        k.entry a b * img.entry (i + k.rows / 2 - a) (j + k.cols / 2 - b)) / ∑ a ∈ Finset.range k.rows, ∑ b ∈ Finset.range k.cols, k.entry a b := by
  refine ⟨_, unscaled_eq _ _ _ _, ?_⟩
  show (blurred img k).entry i j = _
  rw [blurred_entry hk]
  congr 1
  refine Finset.sum_congr rfl fun a ha => Finset.sum_congr rfl fun b hb => ?_
  have ha := Finset.mem_range.1 ha
  have hb := Finset.mem_range.1 hb
  rw [show ((i : Int) + (k.rows / 2 : Nat) - a) = ((i + k.rows / 2 - a : Nat) : Int) by omega,
    show ((j : Int) + (k.cols / 2 : Nat) - b) = ((j + k.cols / 2 - b : Nat) : Int) by omega,
    reflect_inside _ _ (by omega), reflect_inside _ _ (by omega)]

/-- C37. Without scaling, the shape is kept and all values stay in the range of the image; for an integer type no overflow happens, and the
result is the exact one, truncated. -/
theorem convolution_range (overflow : ℝ → ℝ) (dtype : DType) (img k : Grid) (hk : IsPsfKernel k) (hn : NonEmpty img) (lo hi : ℝ)
    (hw : Within img lo hi) (ht : HasType dtype img)
    (hlim : ∀ a b, dtype = .int a b → ∃ l u : Int, lo = l ∧ hi = u ∧ a ≤ l ∧ u ≤ b) :
    ∃ g exact, convoluteImgPsf overflow dtype img k false = .ok (some g) ∧ convoluteImgPsf overflow .float img k false = .ok (some exact) ∧
      g.rows = img.rows ∧ g.cols = img.cols ∧ Within g lo hi ∧ HasType dtype g ∧
      ∀ i j, i < img.rows → j < img.cols → |g.entry i j - exact.entry i j| < 1 ∧ (dtype = .float → g.entry i j = exact.entry i j) := by
  obtain ⟨hr, hc⟩ := blurred_rows img k
  refine ⟨_, _, unscaled_eq _ _ _ _, unscaled_eq _ _ _ _, hr, hc, ?_⟩
  have hb := blurred_within hk img hn lo hi hw
  cases dtype with
  | float =>
    refine ⟨fun i j _ _ => hb i j, trivial, fun i j _ _ => ⟨?_, fun _ => rfl⟩⟩
    show |(blurred img k).entry i j - (blurred img k).entry i j| < 1
    simp
  | int a b =>
    obtain ⟨l, u, rfl, rfl, hl, hu⟩ := hlim a b rfl
    have key : ∀ i j, ∃ n : Int, (DType.int a b).cast overflow ((blurred img k).entry i j) = n ∧ l ≤ n ∧ n ≤ u ∧ |(n : ℝ) - (blurred img k).entry i j| < 1 := by
      intro i j
      obtain ⟨h1, h2⟩ := hb i j
      obtain ⟨n, e1, e2, e3, e4, e5⟩ := cast_within overflow a b _ ((Int.cast_le.2 hl).trans h1) (h2.trans (Int.cast_le.2 hu))
      refine ⟨n, e1, ?_, ?_, e4⟩
      · unfold DType.cast at e1
        simp only [] at e1
        by_contra hlt
        push Not at hlt
        have : (n : ℝ) ≤ l - 1 := by exact_mod_cast (show n ≤ l - 1 by omega)
        rw [abs_lt] at e4
        linarith [e4.1]
      · by_contra hlt
        push Not at hlt
        have : (u : ℝ) + 1 ≤ n := by exact_mod_cast (show u + 1 ≤ n by omega)
        rw [abs_lt] at e4
        linarith [e4.2]
    refine ⟨fun i j _ _ => ?_, fun i j _ _ => ?_, fun i j _ _ => ⟨?_, fun h => by cases h⟩⟩
    · obtain ⟨n, e1, e2, e3, _⟩ := key i j
      show (l : ℝ) ≤ (DType.int a b).cast overflow ((blurred img k).entry i j) ∧ (DType.int a b).cast overflow ((blurred img k).entry i j) ≤ u
      rw [e1]
      exact ⟨by exact_mod_cast e2, by exact_mod_cast e3⟩
    · obtain ⟨n, e1, e2, e3, _⟩ := key i j
      exact ⟨n, e1, hl.trans e2, e3.trans hu⟩
    · obtain ⟨n, e1, e2, e3, e4⟩ := key i j
      show |(DType.int a b).cast overflow ((blurred img k).entry i j) - (blurred img k).entry i j| < 1
      rw [e1]; exact e4

theorem cast_typed (ovf : ℝ → ℝ) (dt : DType) (img : Grid) (ht : HasType dt img) (i j : Nat) (hi : i < img.rows) (hj : j < img.cols) :
    dt.cast ovf (img.entry i j) = img.entry i j := by
  cases dt with
  | float => rfl
  | int a b =>
    obtain ⟨n, e, h1, h2⟩ := ht i j hi hj
    rw [e]; exact cast_int ovf a b n h1 h2

theorem blurred_constant {k : Grid} (hk : IsPsfKernel k) (img : Grid) (hn : NonEmpty img) (c : ℝ)
    (hc : ∀ i j, i < img.rows → j < img.cols → img.entry i j = c) (i j : Nat) : (blurred img k).entry i j = c := by
  have := blurred_within hk img hn c c (fun i j hi hj => by rw [hc i j hi hj]; exact ⟨le_refl _, le_refl _⟩) i j
  exact le_antisymm this.2 this.1

/-- C37. A constant image stays constant, for any type of pixels; with scaling too if it is not 0. -/
theorem convolution_constant (overflow : ℝ → ℝ) (dtype : DType) (img k : Grid) (hk : IsPsfKernel k) (hn : NonEmpty img) (c : ℝ)
    (hc : ∀ i j, i < img.rows → j < img.cols → img.entry i j = c) (ht : HasType dtype img) (scale : Bool) (hs : scale = true → c ≠ 0) :
    ∃ g, convoluteImgPsf overflow dtype img k scale = .ok (some g) ∧ g.rows = img.rows ∧ g.cols = img.cols ∧
      ∀ i j, i < img.rows → j < img.cols → g.entry i j = c := by
  obtain ⟨hr, hcl⟩ := blurred_rows img k
  have hb := blurred_constant hk img hn c hc
  have hcast : dtype.cast overflow c = c := by
    have := cast_typed overflow dtype img ht 0 0 hn.1 hn.2
    rwa [hc 0 0 hn.1 hn.2] at this
  cases scale with
  | false =>
    refine ⟨_, unscaled_eq _ _ _ _, hr, hcl, fun i j _ _ => ?_⟩
    show dtype.cast overflow ((blurred img k).entry i j) = c
    rw [hb, hcast]
  | true =>
    have max_const : ∀ g : Grid, NonEmpty g → (∀ i j, i < g.rows → j < g.cols → g.entry i j = c) → npMax g.elems = .ok c := by
      intro g hg hgc
      obtain ⟨top, h1, h2, _⟩ := npMax_ok g.elems (by
        have : g.entry 0 0 ∈ g.elems := (mem_elems _ _).2 ⟨0, 0, hg.1, hg.2, rfl⟩
        intro h; rw [h] at this; simp at this)
      obtain ⟨i, j, hi, hj, e⟩ := (mem_elems _ _).1 h2
      rw [h1, ← e, hgc i j hi hj]
    have e : convoluteImgPsf overflow dtype img k true = .ok (some (((blurred img k).map (· * (c / c))).map (dtype.cast overflow))) := by
      have h1 := max_const img hn hc
      have h2 := max_const (blurred img k) (by rw [NonEmpty, hr, hcl]; exact hn) (fun i j _ _ => hb i j)
      unfold convoluteImgPsf
      simp only [if_true]
      rw [h1]
      simp only []
      unfold blurred at h2
      rw [h2]
      simp only []
      rw [if_neg (hs rfl)]
      rfl
    refine ⟨_, e, hr, hcl, fun i j _ _ => ?_⟩
    show dtype.cast overflow ((blurred img k).entry i j * (c / c)) = c
    rw [hb, div_self (hs rfl), mul_one, hcast]

/-- C37 is false for a black image with scaling (the default of `ZernPSF.convolute_img`): the result is not finite (`0 / 0`). -/
theorem convolution_black_not_finite (overflow : ℝ → ℝ) (dtype : DType) (img k : Grid) (hk : IsPsfKernel k) (hn : NonEmpty img)
    (hc : ∀ i j, i < img.rows → j < img.cols → img.entry i j = 0) : convoluteImgPsf overflow dtype img k true = .ok none := by
  obtain ⟨hr, hcl⟩ := blurred_rows img k
  have hb := blurred_constant hk img hn 0 hc
  have max_const : ∀ g : Grid, NonEmpty g → (∀ i j, i < g.rows → j < g.cols → g.entry i j = 0) → npMax g.elems = .ok 0 := by
    intro g hg hgc
    obtain ⟨top, h1, h2, _⟩ := npMax_ok g.elems (by
      have : g.entry 0 0 ∈ g.elems := (mem_elems _ _).2 ⟨0, 0, hg.1, hg.2, rfl⟩
      intro h; rw [h] at this; simp at this)
    obtain ⟨i, j, hi, hj, e⟩ := (mem_elems _ _).1 h2
    rw [h1, ← e, hgc i j hi hj]
  have h1 := max_const img hn hc
  have h2 := max_const (blurred img k) (by rw [NonEmpty, hr, hcl]; exact hn) (fun i j _ _ => hb i j)
  unfold convoluteImgPsf
  simp only [if_true]
  rw [h1]
  simp only []
  unfold blurred at h2
  rw [h2]
  simp

/-- `x` times the image `f` plus `y` times the image `g`. -/
def combine (x : ℝ) (f : Grid) (y : ℝ) (g : Grid) : Grid := ⟨f.rows, f.cols, fun i j => x * f.entry i j + y * g.entry i j⟩

/-- C37. Without scaling, the convolution of floating-point images is linear. -/
theorem convolution_linear (overflow : ℝ → ℝ) (f g k : Grid) (hs : f.rows = g.rows ∧ f.cols = g.cols) (x y : ℝ) :
    ∃ F G H, convoluteImgPsf overflow .float f k false = .ok (some F) ∧ convoluteImgPsf overflow .float g k false = .ok (some G) ∧
      convoluteImgPsf overflow .float (combine x f y g) k false = .ok (some H) ∧ ∀ i j, H.entry i j = x * F.entry i j + y * G.entry i j := by
  refine ⟨_, _, _, unscaled_eq _ _ _ _, unscaled_eq _ _ _ _, unscaled_eq _ _ _ _, fun i j => ?_⟩
  show (blurred (combine x f y g) k).entry i j = x * (blurred f k).entry i j + y * (blurred g k).entry i j
  have key : (ndConvolve (combine x f y g) k).entry i j = x * (ndConvolve f k).entry i j + y * (ndConvolve g k).entry i j := by
    simp only [ndConvolve, combine, hs.1, hs.2, Finset.mul_sum, ← Finset.sum_add_distrib]
    refine Finset.sum_congr rfl fun a _ => Finset.sum_congr rfl fun b _ => ?_
    ring
  unfold blurred
  split_ifs
  · simp only [Grid.map]
    rw [key]; ring
  · exact key

/-- C37. A kernel with only the central element different from 0 changes nothing. -/
theorem convolution_identity (overflow : ℝ → ℝ) (dtype : DType) (img k : Grid) (ht : HasType dtype img)
    (hk : 0 < k.rows ∧ 0 < k.cols ∧ 0 < k.entry (k.rows / 2) (k.cols / 2) ∧
      ∀ a b, a < k.rows → b < k.cols → (a, b) ≠ (k.rows / 2, k.cols / 2) → k.entry a b = 0) :
    ∃ g, convoluteImgPsf overflow dtype img k false = .ok (some g) ∧ ∀ i j, i < img.rows → j < img.cols → g.entry i j = img.entry i j := by
  obtain ⟨h1, h2, h3, h4⟩ := hk
  have one : ∀ f : ℕ → ℕ → ℝ, ∑ a ∈ Finset.range k.rows, ∑ b ∈ Finset.range k.cols, k.entry a b * f a b =
      k.entry (k.rows / 2) (k.cols / 2) * f (k.rows / 2) (k.cols / 2) := by
    intro f
    rw [Finset.sum_eq_single (k.rows / 2), Finset.sum_eq_single (k.cols / 2)]
    · intro b hb hne
      rw [h4 _ _ (by omega) (Finset.mem_range.1 hb) (by simpa using hne), zero_mul]
    · intro h; exact absurd (Finset.mem_range.2 (by omega)) h
    · intro a ha hne
      refine Finset.sum_eq_zero fun b hb => ?_
      rw [h4 _ _ (Finset.mem_range.1 ha) (Finset.mem_range.1 hb) (by simp [hne]), zero_mul]
    · intro h; exact absurd (Finset.mem_range.2 (by omega)) h
  have hsum : k.sum = k.entry (k.rows / 2) (k.cols / 2) := by
    have := one fun _ _ => 1
    simpa [Grid.sum] using this
  have hker : IsPsfKernel k := by
    refine ⟨fun a b ha hb => ?_, ⟨k.rows / 2, k.cols / 2, by omega, by omega, h3⟩⟩
    by_cases hab : (a, b) = (k.rows / 2, k.cols / 2)
    · cases hab; exact h3.le
    · rw [h4 a b ha hb hab]
  refine ⟨_, unscaled_eq _ _ _ _, fun i j hi hj => ?_⟩
  show dtype.cast overflow ((blurred img k).entry i j) = _
  rw [blurred_entry hker, one fun a b => img.entry (reflectIndex img.rows ((i : Int) + (k.rows / 2 : Nat) - a))
    (reflectIndex img.cols ((j : Int) + (k.cols / 2 : Nat) - b)), hsum, mul_div_cancel_left₀ _ h3.ne']
  rw [show (i : Int) + (k.rows / 2 : Nat) - (k.rows / 2 : Nat) = (i : Int) by ring, show (j : Int) + (k.cols / 2 : Nat) - (k.cols / 2 : Nat) = (j : Int) by ring,
    reflect_inside _ _ hi, reflect_inside _ _ hj]
  exact cast_typed overflow dtype img ht i j hi hj

/-- C37. With scaling, for an image without negative pixels that is not black where the kernel can see it (the kernel has a positive centre,
and some pixel is positive): the maximum of the result is the maximum of the image, all values are in `[0, maximum]`, and the result is the
unscaled one multiplied by a number which is at least 1. -/
theorem convolution_scaled (overflow : ℝ → ℝ) (img k : Grid) (hk : IsPsfKernel k)
    (hcen : k.rows / 2 < k.rows ∧ k.cols / 2 < k.cols ∧ 0 < k.entry (k.rows / 2) (k.cols / 2))
    (hnn : ∀ i j, i < img.rows → j < img.cols → 0 ≤ img.entry i j) (hp : ∃ i j, i < img.rows ∧ j < img.cols ∧ 0 < img.entry i j) :
    ∃ g u c top, convoluteImgPsf overflow .float img k true = .ok (some g) ∧ convoluteImgPsf overflow .float img k false = .ok (some u) ∧
      1 ≤ c ∧ (∀ i j, g.entry i j = u.entry i j * c) ∧ g.rows = img.rows ∧ g.cols = img.cols ∧
      (∀ i j, i < img.rows → j < img.cols → img.entry i j ≤ top ∧ 0 ≤ g.entry i j ∧ g.entry i j ≤ top) ∧
      (∃ i j, i < img.rows ∧ j < img.cols ∧ img.entry i j = top) ∧ (∃ i j, i < img.rows ∧ j < img.cols ∧ g.entry i j = top) := by
  obtain ⟨i0, j0, hi0, hj0, hp⟩ := hp
  have hn : NonEmpty img := ⟨by omega, by omega⟩
  obtain ⟨hr, hcl⟩ := blurred_rows img k
  have ne : ∀ g : Grid, NonEmpty g → g.elems ≠ [] := by
    intro g hg h
    have : g.entry 0 0 ∈ g.elems := (mem_elems _ _).2 ⟨0, 0, hg.1, hg.2, rfl⟩
    rw [h] at this; simp at this
  obtain ⟨top, t1, t2, t3⟩ := npMax_ok img.elems (ne img hn)
  obtain ⟨m, m1, m2, m3⟩ := npMax_ok (blurred img k).elems (ne _ (by rw [NonEmpty, hr, hcl]; exact hn))
  obtain ⟨it, jt, hit, hjt, et⟩ := (mem_elems _ _).1 t2
  obtain ⟨im, jm, him, hjm, em⟩ := (mem_elems _ _).1 m2
  have hle : ∀ i j, i < img.rows → j < img.cols → img.entry i j ≤ top := fun i j hi hj => t3 _ ((mem_elems _ _).2 ⟨i, j, hi, hj, rfl⟩)
  have hb := blurred_within hk img hn 0 top fun i j hi hj => ⟨hnn i j hi hj, hle i j hi hj⟩
  have hmtop : m ≤ top := em ▸ (hb im jm).2
  have hmpos : 0 < m := by
    have h1 : 0 < (blurred img k).entry i0 j0 := by
      rw [blurred_entry hk]
      refine div_pos ?_ (sum_pos_of_kernel hk)
      have hterm : ∀ a b, a < k.rows → b < k.cols → 0 ≤ k.entry a b * img.entry (reflectIndex img.rows ((i0 : Int) + (k.rows / 2 : Nat) - a))
          (reflectIndex img.cols ((j0 : Int) + (k.cols / 2 : Nat) - b)) := fun a b ha hb =>
        mul_nonneg (hk.nonneg a b ha hb) (hnn _ _ (reflect_lt _ hn.1 _) (reflect_lt _ hn.2 _))
      refine Finset.sum_pos' (fun a ha => Finset.sum_nonneg fun b hb => hterm a b (Finset.mem_range.1 ha) (Finset.mem_range.1 hb))
        ⟨k.rows / 2, Finset.mem_range.2 hcen.1, Finset.sum_pos' (fun b hb => hterm _ b hcen.1 (Finset.mem_range.1 hb)) ⟨k.cols / 2, Finset.mem_range.2 hcen.2.1, ?_⟩⟩
      rw [show (i0 : Int) + (k.rows / 2 : Nat) - (k.rows / 2 : Nat) = (i0 : Int) by ring,
        show (j0 : Int) + (k.cols / 2 : Nat) - (k.cols / 2 : Nat) = (j0 : Int) by ring, reflect_inside _ _ hi0, reflect_inside _ _ hj0]
      exact mul_pos hcen.2.2 hp
    exact lt_of_lt_of_le h1 (m3 _ ((mem_elems _ _).2 ⟨i0, j0, by omega, by omega, rfl⟩))
  have e : convoluteImgPsf overflow .float img k true = .ok (some (((blurred img k).map (· * (top / m))).map (DType.float.cast overflow))) := by
    unfold convoluteImgPsf
    simp only [if_true]
    rw [t1]
    simp only []
    unfold blurred at m1
    rw [m1]
    simp only []
    rw [if_neg hmpos.ne']
    rfl
  have htm : m * (top / m) = top := by field_simp
  refine ⟨_, _, top / m, top, e, unscaled_eq _ _ _ _, (one_le_div hmpos).2 hmtop, fun i j => rfl, hr, hcl, fun i j hi hj => ⟨hle i j hi hj, ?_, ?_⟩,
    ⟨it, jt, hit, hjt, et⟩, ⟨im, jm, by omega, by omega, ?_⟩⟩
  · show 0 ≤ (blurred img k).entry i j * (top / m)
    exact mul_nonneg (hb i j).1 (div_nonneg (hmpos.le.trans hmtop) hmpos.le)
  · show (blurred img k).entry i j * (top / m) ≤ top
    have h1 : (blurred img k).entry i j ≤ m := m3 _ ((mem_elems _ _).2 ⟨i, j, by omega, by omega, rfl⟩)
    calc (blurred img k).entry i j * (top / m) ≤ m * (top / m) := mul_le_mul_of_nonneg_right h1 (div_nonneg (hmpos.le.trans hmtop) hmpos.le)
      _ = top := htm
  · show (blurred img k).entry im jm * (top / m) = top
    rw [em, htm]

/-- An image with negative pixels, and a kernel. -/
noncomputable def darkImg : Grid := ⟨3, 3, fun i j => if i = 1 ∧ j = 1 then 1 else -3⟩
noncomputable def flatKernel : Grid := ⟨3, 3, fun _ _ => 1⟩

theorem flatKernel_ok : IsPsfKernel flatKernel := ⟨fun _ _ _ _ => zero_le_one, ⟨0, 0, by decide, by decide, zero_lt_one⟩⟩

theorem darkImg_blurred (i j : Nat) (hi : i < 3) (hj : j < 3) : (blurred darkImg flatKernel).entry i j = -23 / 9 := by
  rw [blurred_entry flatKernel_ok]
  have r1 : reflectIndex 3 (-1) = 0 := by decide
  have r2 : reflectIndex 3 0 = 0 := by decide
  have r3 : reflectIndex 3 1 = 1 := by decide
  have r4 : reflectIndex 3 2 = 2 := by decide
  have r5 : reflectIndex 3 3 = 2 := by decide
  interval_cases i <;> interval_cases j <;> norm_num [Finset.sum_range_succ, darkImg, flatKernel, Grid.sum, r1, r2, r3, r4, r5]

/-- C37 is false for images with negative pixels and scaling: the result can be the convolved image multiplied by a negative number. -/
theorem convolution_scale_inverts (overflow : ℝ → ℝ) :
    ∃ g u, convoluteImgPsf overflow .float darkImg flatKernel true = .ok (some g) ∧ convoluteImgPsf overflow .float darkImg flatKernel false = .ok (some u) ∧
      ∀ i j, i < 3 → j < 3 → u.entry i j = -23 / 9 ∧ g.entry i j = 1 := by
  have ne : ∀ g : Grid, g.rows = 3 → g.cols = 3 → g.elems ≠ [] := by
    intro g h1 h2 h
    have : g.entry 0 0 ∈ g.elems := (mem_elems _ _).2 ⟨0, 0, by omega, by omega, rfl⟩
    rw [h] at this; simp at this
  obtain ⟨hr, hcl⟩ := blurred_rows darkImg flatKernel
  obtain ⟨top, t1, t2, t3⟩ := npMax_ok darkImg.elems (ne _ rfl rfl)
  obtain ⟨m, m1, m2, m3⟩ := npMax_ok (blurred darkImg flatKernel).elems (ne _ hr hcl)
  have htop : top = 1 := by
    obtain ⟨i, j, _, _, e⟩ := (mem_elems _ _).1 t2
    have h1 : (1 : ℝ) ≤ top := t3 _ ((mem_elems _ _).2 ⟨1, 1, by decide, by decide, by simp [darkImg]⟩)
    have h2 : top ≤ 1 := by rw [← e]; simp only [darkImg]; split_ifs <;> norm_num
    exact le_antisymm h2 h1
  have hm : m = -23 / 9 := by
    obtain ⟨i, j, hi, hj, e⟩ := (mem_elems _ _).1 m2
    rw [hr] at hi; rw [hcl] at hj
    rw [← e]; exact darkImg_blurred i j hi hj
  have e : convoluteImgPsf overflow .float darkImg flatKernel true =
      .ok (some (((blurred darkImg flatKernel).map (· * (top / m))).map (DType.float.cast overflow))) := by
    unfold convoluteImgPsf
    simp only [if_true]
    rw [t1]
    simp only []
    unfold blurred at m1
    rw [m1]
    simp only []
    rw [if_neg (by rw [hm]; norm_num)]
    rfl
  refine ⟨_, _, e, unscaled_eq _ _ _ _, fun i j hi hj => ⟨darkImg_blurred i j hi hj, ?_⟩⟩
  show (blurred darkImg flatKernel).entry i j * (top / m) = 1
  rw [darkImg_blurred i j hi hj, htop, hm]; norm_num

theorem reachable_kernel (o : PsfObj) (s : CoefState) (hr : PsfReachable o s)
    (hpos : 0 < o.kernel.entry (o.kernel.rows / 2) (o.kernel.cols / 2)) : IsPsfKernel o.kernel ∧
      o.kernel.rows / 2 < o.kernel.rows ∧ o.kernel.cols / 2 < o.kernel.cols ∧ 0 < o.kernel.entry (o.kernel.rows / 2) (o.kernel.cols / 2) := by
  have h1 := hr.inv.odd
  have h2 := hr.inv.rows_cols
  exact ⟨⟨fun a b _ _ => hr.inv.nn a b, ⟨_, _, by omega, by omega, hpos⟩⟩, by omega, by omega, hpos⟩

/-- C37. For a `ZernPSF` object in any state whose kernel has a positive centre, and an image without negative pixels which is not black:
`convolute_img` with the default scaling keeps the shape and the maximum, and the values are in `[0, maximum]`. -/
theorem object_convolution (overflow : ℝ → ℝ) (o : PsfObj) (s : CoefState) (hr : PsfReachable o s)
    (hpos : 0 < o.kernel.entry (o.kernel.rows / 2) (o.kernel.cols / 2)) (img : Grid)
    (hnn : ∀ i j, i < img.rows → j < img.cols → 0 ≤ img.entry i j) (hp : ∃ i j, i < img.rows ∧ j < img.cols ∧ 0 < img.entry i j) :
    ∃ g top, o.convoluteImg overflow .float img = .ok (some g) ∧ g.rows = img.rows ∧ g.cols = img.cols ∧ Within img 0 top ∧ Within g 0 top ∧
      (∃ i j, i < img.rows ∧ j < img.cols ∧ img.entry i j = top) ∧ (∃ i j, i < img.rows ∧ j < img.cols ∧ g.entry i j = top) := by
  obtain ⟨hk, hc⟩ := reachable_kernel o s hr hpos
  obtain ⟨g, u, c, top, h1, _, _, _, h5, h6, h7, h8, h9⟩ := convolution_scaled overflow img o.kernel hk hc hnn hp
  refine ⟨g, top, h1, h5, h6, fun i j hi hj => ⟨hnn i j hi hj, (h7 i j hi hj).1⟩, fun i j hi hj => ?_, h8, h9⟩
  rw [h5] at hi; rw [h6] at hj
  exact (h7 i j hi hj).2

/-- The hypotheses are met: a new object (its kernel is a single 1), an image with two pixels. -/
example : ∃ o s, PsfReachable o s ∧ 0 < o.kernel.entry (o.kernel.rows / 2) (o.kernel.cols / 2) :=
  ⟨psfDefault, afterCalls [], ⟨.other, psfDefault, [], [], rfl, rfl⟩, by simp [psfDefault]⟩

example : HasType (.int 0 255) ⟨1, 2, fun _ j => if j = 0 then 7 else 200⟩ ∧ Within ⟨1, 2, fun _ j => if j = 0 then 7 else 200⟩ 7 200 := by
  refine ⟨fun i j _ _ => ?_, fun i j _ _ => ?_⟩
  · by_cases h : j = 0
    · exact ⟨7, by simp [h], by norm_num, by norm_num⟩
    · exact ⟨200, by simp [h], by norm_num, by norm_num⟩
  · simp only; split_ifs <;> norm_num

end Verif.Props
