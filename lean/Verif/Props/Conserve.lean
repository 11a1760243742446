import Verif.Props.Convolve
import Verif.Props.PsfExact
import Mathlib.Algebra.BigOperators.Intervals

/-!
# C58: the convolution conserves the total intensity
-/

namespace Verif.Props
open Verif.Model Verif.Spec Verif.Proofs Finset

/-- Sum of all pixels. -/
noncomputable def total (g : Grid) : ℝ := ∑ i ∈ range g.rows, ∑ j ∈ range g.cols, g.entry i j

theorem period_sum (n : ℕ) (f : ℤ → ℝ) (hf : ∀ i, f (i + 2 * n) = f i) (c : ℤ) :
    ∑ i ∈ range (2 * n), f (c + i) = ∑ i ∈ range (2 * n), f i := by
  have step : ∀ c : ℤ, ∑ i ∈ range (2 * n), f (c + 1 + i) = ∑ i ∈ range (2 * n), f (c + i) := by
    intro c
    have a := sum_range_succ (fun i : ℕ => f (c + i)) (2 * n)
    have b := sum_range_succ' (fun i : ℕ => f (c + i)) (2 * n)
    have e : f (c + ((2 * n : ℕ) : ℤ)) = f (c + ((0 : ℕ) : ℤ)) := by
      push_cast
      rw [hf, add_zero]
    have e2 : ∑ i ∈ range (2 * n), f (c + 1 + i) = ∑ i ∈ range (2 * n), f (c + ((i + 1 : ℕ) : ℤ)) := by
      refine sum_congr rfl fun i _ => ?_
      congr 1; push_cast; ring
    rw [e2]
    linarith
  induction c using Int.induction_on with
  | zero => simp
  | succ c ih => rw [step, ih]
  | pred c ih => rw [← ih, ← step (-(c : ℤ) - 1)]; simp

/-- The sums over the reflected image, shifted by `d` in both directions. -/
theorem reflect_pair (n : ℕ) (hn : 0 < n) (F : ℕ → ℝ) (d : ℤ) :
    ∑ i ∈ range n, F (reflectIndex n (i + d)) + ∑ i ∈ range n, F (reflectIndex n (i - d)) = 2 * ∑ i ∈ range n, F i := by
  set f : ℤ → ℝ := fun i => F (reflectIndex n i) with hf
  have h1 : ∀ i, f (-1 - i) = f i := fun i => by simp only [hf, (border_reflects n i).1]
  have h2 : ∀ i, f (2 * n - 1 - i) = f i := fun i => by simp only [hf, (border_reflects n i).2]
  have hper : ∀ i, f (i + 2 * n) = f i := by
    intro i
    rw [← h1 i, ← h2 (-1 - i)]
    congr 1; ring
  have hin : ∀ i : ℕ, i < n → f i = F i := fun i hi => by simp only [hf, reflect_inside n i hi]
  have e1 : ∑ i ∈ range n, f (i - d) = ∑ i ∈ range n, f (d - n + i) := by
    rw [← sum_range_reflect (fun i : ℕ => f (d - n + i)) n]
    refine sum_congr rfl fun i hi => ?_
    have : i < n := mem_range.1 hi
    rw [← h1]
    congr 1
    have : ((n - 1 - i : ℕ) : ℤ) = n - 1 - i := by omega
    rw [this]; ring
  have e2 : ∑ i ∈ range n, f (i + d) = ∑ i ∈ range n, f (d - n + ((n + i : ℕ) : ℤ)) := by
    refine sum_congr rfl fun i _ => ?_
    congr 1; push_cast; ring
  have e3 : ∑ i ∈ range (2 * n), f (d - n + i) = ∑ i ∈ range n, f (d - n + i) + ∑ i ∈ range n, f (d - n + ((n + i : ℕ) : ℤ)) := by
    rw [two_mul, sum_range_add]
  have e4 : ∑ i ∈ range (2 * n), f (i : ℤ) = 2 * ∑ i ∈ range n, F i := by
    have a := sum_range_add (fun i : ℕ => f (i : ℤ)) n n
    have b : ∑ i ∈ range n, f ((n + i : ℕ) : ℤ) = ∑ i ∈ range n, F i := by
      rw [← sum_range_reflect]
      refine sum_congr rfl fun i hi => ?_
      have : i < n := mem_range.1 hi
      rw [← hin i this, ← h2 (i : ℤ)]
      congr 1
      omega
    have c : ∑ i ∈ range n, f (i : ℤ) = ∑ i ∈ range n, F i := sum_congr rfl fun i hi => hin i (mem_range.1 hi)
    rw [two_mul n]
    linarith
  show ∑ i ∈ range n, f (i + d) + ∑ i ∈ range n, f (i - d) = _
  rw [e1, e2, ← e4, ← period_sum n f hper (d - n), e3]
  ring

/-- Weighted with symmetric weights. -/
theorem reflect_weighted (n : ℕ) (hn : 0 < n) (F : ℕ → ℝ) (s : ℕ) (w : ℕ → ℝ) (hw : ∀ b, b < 2 * s + 1 → w (2 * s - b) = w b) :
    ∑ b ∈ range (2 * s + 1), w b * ∑ i ∈ range n, F (reflectIndex n ((i : ℤ) + s - b)) = (∑ b ∈ range (2 * s + 1), w b) * ∑ i ∈ range n, F i := by
  have e : ∑ b ∈ range (2 * s + 1), w b * ∑ i ∈ range n, F (reflectIndex n ((i : ℤ) + s - b)) =
      ∑ b ∈ range (2 * s + 1), w b * ∑ i ∈ range n, F (reflectIndex n ((i : ℤ) - (s - b))) := by
    rw [← sum_range_reflect]
    refine sum_congr rfl fun b hb => ?_
    have hb' : b < 2 * s + 1 := mem_range.1 hb
    rw [show 2 * s + 1 - 1 - b = 2 * s - b by omega, hw b hb']
    congr 1
    refine sum_congr rfl fun i _ => ?_
    congr 2
    omega
  have key : ∑ b ∈ range (2 * s + 1), w b * ∑ i ∈ range n, F (reflectIndex n ((i : ℤ) + s - b)) +
      ∑ b ∈ range (2 * s + 1), w b * ∑ i ∈ range n, F (reflectIndex n ((i : ℤ) - (s - b))) = 2 * ((∑ b ∈ range (2 * s + 1), w b) * ∑ i ∈ range n, F i) := by
    rw [← sum_add_distrib, sum_mul, mul_sum]
    refine sum_congr rfl fun b _ => ?_
    have := reflect_pair n hn F (s - b)
    simp only [← add_sub_assoc] at this
    rw [← mul_add, this]
    ring
  rw [← e] at key
  linarith

/-- Weighted, for functions that vanish near the borders. -/
theorem reflect_margin (n : ℕ) (F : ℕ → ℝ) (s : ℕ) (hF : ∀ i, i < n → (i < s ∨ n ≤ i + s) → F i = 0) (d : ℤ) (hd : |d| ≤ s) :
    ∑ i ∈ range n, F (reflectIndex n ((i : ℤ) + d)) = ∑ i ∈ range n, F i := by
  rw [abs_le] at hd
  set G : ℤ → ℝ := fun x => if 0 ≤ x ∧ x < n then F x.toNat else 0 with hG
  have e1 : ∀ i : ℕ, i < n → F (reflectIndex n ((i : ℤ) + d)) = G (i + d) := by
    intro i hi
    simp only [hG]
    by_cases h : 0 ≤ (i : ℤ) + d ∧ (i : ℤ) + d < n
    · rw [if_pos h]
      obtain ⟨x, hx⟩ := Int.eq_ofNat_of_zero_le h.1
      rw [hx, reflect_inside n x (by omega)]
      rfl
    · rw [if_neg h]
      by_cases hneg : (i : ℤ) + d < 0
      · rw [← (border_reflects n ((i : ℤ) + d)).1]
        obtain ⟨x, hx⟩ := Int.eq_ofNat_of_zero_le (show 0 ≤ -1 - ((i : ℤ) + d) by omega)
        by_cases hxn : x < n
        · rw [hx, reflect_inside n x hxn]
          exact hF x hxn (Or.inl (by omega))
        · exact hF _ (reflect_lt n (by omega) _) (by omega)
      · rw [← (border_reflects n ((i : ℤ) + d)).2]
        by_cases hx0 : 0 ≤ 2 * (n : ℤ) - 1 - (i + d)
        · obtain ⟨x, hx⟩ := Int.eq_ofNat_of_zero_le hx0
          rw [hx, reflect_inside n x (by omega)]
          exact hF x (by omega) (Or.inr (by omega))
        · exact hF _ (reflect_lt n (by omega) _) (by omega)
  have e2 : ∀ i : ℕ, i < n → F i = G i := by
    intro i hi
    simp only [hG]
    rw [if_pos (by omega)]
    rfl
  rw [sum_congr rfl fun i hi => e1 i (mem_range.1 hi), sum_congr rfl fun i hi => e2 i (mem_range.1 hi)]
  have hz : ∀ x : ℤ, ¬ ((s : ℤ) ≤ x ∧ x < n - s) → G x = 0 := by
    intro x hx
    simp only [hG]
    split_ifs with h
    · exact hF x.toNat (by omega) (by omega)
    · rfl
  have f1 : ∑ i ∈ range n, G (i + d) = ∑ x ∈ Ico d (n + d), G x := by
    refine sum_bij (fun i _ => (i : ℤ) + d) (fun i hi => ?_) (fun a _ b _ h => by omega) (fun x hx => ?_) (fun _ _ => rfl)
    · have := mem_range.1 hi
      rw [mem_Ico]; omega
    · rw [mem_Ico] at hx
      exact ⟨(x - d).toNat, by rw [mem_range]; omega, by omega⟩
  have f2 : ∑ i ∈ range n, G i = ∑ x ∈ Ico (0 : ℤ) n, G x := by
    refine sum_bij (fun i _ => (i : ℤ)) (fun i hi => ?_) (fun a _ b _ h => by omega) (fun x hx => ?_) (fun _ _ => rfl)
    · have := mem_range.1 hi
      rw [mem_Ico]; omega
    · rw [mem_Ico] at hx
      exact ⟨x.toNat, by rw [mem_range]; omega, by omega⟩
  rw [f1, f2]
  have g1 : ∑ x ∈ Ico (s : ℤ) (n - s), G x = ∑ x ∈ Ico d (n + d), G x :=
    sum_subset (fun x hx => by rw [mem_Ico] at *; omega) fun x _ hx => hz x (by rw [mem_Ico] at hx; exact hx)
  have g2 : ∑ x ∈ Ico (s : ℤ) (n - s), G x = ∑ x ∈ Ico (0 : ℤ) n, G x :=
    sum_subset (fun x hx => by rw [mem_Ico] at *; omega) fun x _ hx => hz x (by rw [mem_Ico] at hx; exact hx)
  rw [← g1, g2]


theorem blurred_total {k : Grid} (h : IsPsfKernel k) (img : Grid) :
    total (blurred img k) = (∑ a ∈ range k.rows, ∑ i ∈ range img.rows, ∑ b ∈ range k.cols, k.entry a b *
      ∑ j ∈ range img.cols, img.entry (reflectIndex img.rows ((i : Int) + (k.rows / 2 : Nat) - a)) (reflectIndex img.cols ((j : Int) + (k.cols / 2 : Nat) - b))) / k.sum := by
  unfold total
  rw [(blurred_rows img k).1, (blurred_rows img k).2]
  simp only [blurred_entry h]
  simp only [← sum_div]
  congr 1
  conv_rhs => rw [sum_comm]
  refine sum_congr rfl fun i _ => ?_
  rw [sum_comm]
  refine sum_congr rfl fun a _ => ?_
  rw [sum_comm]
  refine sum_congr rfl fun b _ => ?_
  rw [mul_sum]

/-- The kernel is symmetric under both mirrors. -/
structure TwoMirrors (k : Grid) : Prop where
  rows : ∀ a b, a < k.rows → b < k.cols → k.entry (k.rows - 1 - a) b = k.entry a b
  cols : ∀ a b, a < k.rows → b < k.cols → k.entry a (k.cols - 1 - b) = k.entry a b

/-- C58. A kernel with odd numbers of rows and columns which is symmetric under both mirrors keeps the total intensity of every image, however
bright its border is and however small it is. -/
theorem convolution_conserves (overflow : ℝ → ℝ) (img k : Grid) (hk : IsPsfKernel k) (hr : k.rows % 2 = 1) (hc : k.cols % 2 = 1) (hm : TwoMirrors k)
    (hn : NonEmpty img) :
    ∃ g, convoluteImgPsf overflow .float img k false = .ok (some g) ∧ total g = total img := by
  refine ⟨_, unscaled_eq _ _ _ _, ?_⟩
  show total (blurred img k) = _
  rw [blurred_total hk, div_eq_iff (sum_pos_of_kernel hk).ne']
  obtain ⟨s, hs⟩ : ∃ s, k.rows = 2 * s + 1 := ⟨k.rows / 2, by omega⟩
  obtain ⟨t, ht⟩ : ∃ t, k.cols = 2 * t + 1 := ⟨k.cols / 2, by omega⟩
  have e : ∀ a ∈ range k.rows, ∑ i ∈ range img.rows, ∑ b ∈ range k.cols, k.entry a b *
      ∑ j ∈ range img.cols, img.entry (reflectIndex img.rows ((i : Int) + (k.rows / 2 : Nat) - a)) (reflectIndex img.cols ((j : Int) + (k.cols / 2 : Nat) - b)) =
      (∑ b ∈ range k.cols, k.entry a b) * ∑ i ∈ range img.rows, (fun r => ∑ j ∈ range img.cols, img.entry r j) (reflectIndex img.rows ((i : Int) + s - a)) := by
    intro a ha
    rw [mul_sum]
    refine sum_congr rfl fun i _ => ?_
    rw [ht, show (2 * t + 1) / 2 = t by omega, hs, show (2 * s + 1) / 2 = s by omega]
    refine reflect_weighted img.cols hn.2 (fun j => img.entry (reflectIndex img.rows ((i : Int) + s - a)) j) t (fun b => k.entry a b) fun b hb => ?_
    have := hm.cols a b (mem_range.1 ha) (by omega)
    rw [ht] at this
    simpa using this
  rw [sum_congr rfl e, hs]
  have := reflect_weighted img.rows hn.1 (fun r => ∑ j ∈ range img.cols, img.entry r j) s (fun a => ∑ b ∈ range k.cols, k.entry a b) fun a ha => by
    refine sum_congr rfl fun b hb => ?_
    have := hm.rows a b (by omega) (mem_range.1 hb)
    rw [hs] at this
    simpa using this
  rw [this]
  unfold Grid.sum total
  rw [hs, mul_comm]

/-- The pixels nearer to the border than half of the kernel are black. -/
def BlackMargin (img k : Grid) : Prop :=
  ∀ i j, i < img.rows → j < img.cols → i < k.rows / 2 ∨ img.rows ≤ i + k.rows / 2 ∨ j < k.cols / 2 ∨ img.cols ≤ j + k.cols / 2 → img.entry i j = 0

/-- C58. Every kernel with odd numbers of rows and columns keeps the total intensity of the images with a black margin as broad as half of the
kernel. -/
theorem convolution_conserves_margin (overflow : ℝ → ℝ) (img k : Grid) (hk : IsPsfKernel k) (hr : k.rows % 2 = 1) (hc : k.cols % 2 = 1)
    (hn : NonEmpty img) (hb : BlackMargin img k) :
    ∃ g, convoluteImgPsf overflow .float img k false = .ok (some g) ∧ total g = total img := by
  refine ⟨_, unscaled_eq _ _ _ _, ?_⟩
  show total (blurred img k) = _
  rw [blurred_total hk, div_eq_iff (sum_pos_of_kernel hk).ne']
  have e : ∀ a ∈ range k.rows, ∑ i ∈ range img.rows, ∑ b ∈ range k.cols, k.entry a b *
      ∑ j ∈ range img.cols, img.entry (reflectIndex img.rows ((i : Int) + (k.rows / 2 : Nat) - a)) (reflectIndex img.cols ((j : Int) + (k.cols / 2 : Nat) - b)) =
      (∑ b ∈ range k.cols, k.entry a b) * total img := by
    intro a ha
    have ha := mem_range.1 ha
    rw [sum_comm, sum_mul]
    refine sum_congr rfl fun b hb' => ?_
    have hb' := mem_range.1 hb'
    rw [← mul_sum]
    congr 1
    have e1 : ∀ i ∈ range img.rows, ∑ j ∈ range img.cols, img.entry (reflectIndex img.rows ((i : Int) + (k.rows / 2 : Nat) - a)) (reflectIndex img.cols ((j : Int) + (k.cols / 2 : Nat) - b)) =
        (fun r => ∑ j ∈ range img.cols, img.entry r j) (reflectIndex img.rows ((i : Int) + ((k.rows / 2 : Nat) - a))) := by
      intro i _
      have := reflect_margin img.cols (fun j => img.entry (reflectIndex img.rows ((i : Int) + (k.rows / 2 : Nat) - a)) j) (k.cols / 2)
        (fun j hj hm => hb _ j (reflect_lt _ hn.1 _) hj (by tauto)) ((k.cols / 2 : Nat) - b) (by rw [abs_le]; omega)
      simp only [← add_sub_assoc] at this ⊢
      exact this
    rw [sum_congr rfl e1]
    refine reflect_margin img.rows (fun r => ∑ j ∈ range img.cols, img.entry r j) (k.rows / 2) ?_ ((k.rows / 2 : Nat) - a) (by rw [abs_le]; omega)
    intro i hi hm
    exact sum_eq_zero fun j hj => hb i j hi (mem_range.1 hj) (by tauto)
  rw [sum_congr rfl e, ← sum_mul, mul_comm]
  rfl

theorem kernelDist_mirror (S : ℕ) (hS : S % 2 = 1) (k NA px : ℝ) (i j : ℕ) (hi : i < S) (hj : j < S) :
    kernelDist S k NA px (S - 1 - i) j = kernelDist S k NA px i j ∧ kernelDist S k NA px i (S - 1 - j) = kernelDist S k NA px i j := by
  obtain ⟨c, rfl⟩ : ∃ c, S = 2 * c + 1 := ⟨S / 2, by omega⟩
  unfold kernelDist
  rw [show (((2 * c + 1 : ℕ) : Int) / 2 : Int) = (c : Int) by omega]
  have h1 : ((2 * c + 1 - 1 - i : ℕ) : ℝ) = 2 * c - i := by rw [Nat.cast_sub (by omega)]; push_cast; simp
  have h2 : ((2 * c + 1 - 1 - j : ℕ) : ℝ) = 2 * c - j := by rw [Nat.cast_sub (by omega)]; push_cast; simp
  rw [h1, h2]
  push_cast
  constructor <;> ring_nf

/-- C58. The Airy kernels are symmetric, so that they keep the total intensity of every image. -/
theorem airy_conserves (overflow : ℝ → ℝ) (h : List Call) (fuel : Nat) (o : PolObj) (coeff : ℝ) (q : KernelParams) (hopt : OpticsOk q) (h3 : 3 ≤ q.kernelSize)
    (S : ℕ) (hS : OddSize q.kernelSize S) (img : Grid) (hn : NonEmpty img) :
    ∃ k g, (getPsfKernel fuel besselJ1 o coeff q true (afterCalls h)).1 = .ok k ∧ convoluteImgPsf overflow .float img k false = .ok (some g) ∧
      total g = total img := by
  obtain ⟨k, e, h1, h2, h4, h5, _⟩ := airy_kernel_bounded h fuel o coeff q hopt h3 S hS
  have hS1 := hS.1
  have hpos : 0 < k.entry (S / 2) (S / 2) := lt_of_lt_of_le (by norm_num) h5
  have hk : IsPsfKernel k := ⟨fun a b ha hb => (h4 a b ha hb).1, ⟨_, _, by omega, by omega, hpos⟩⟩
  have hm : TwoMirrors k := by
    rw [airy_res _ (afterCalls_good h) fuel o coeff q hopt h3 S hS] at e
    obtain ⟨k', e', hg⟩ := pureKernel_of S (by omega)
      (fun i j => airyRef besselJ1 (kernelDist S (2 * Real.pi / q.wavelength) q.NA q.len2pixels i j)) q.normalize
    rw [e'] at e
    cases e
    have key : ∀ v : ℕ → ℕ → ℝ, IsKernel k S v → (∀ i j, i < S → j < S → v (S - 1 - i) j = v i j ∧ v i (S - 1 - j) = v i j) → TwoMirrors k := by
      intro v hv hsym
      refine ⟨fun a b ha hb => ?_, fun a b ha hb => ?_⟩
      · rw [hv.1] at ha ⊢; rw [hv.2.1] at hb
        rw [hv.2.2 _ _ (by omega) hb, hv.2.2 _ _ ha hb]
        exact (hsym a b ha hb).1
      · rw [hv.1] at ha; rw [hv.2.1] at hb ⊢
        rw [hv.2.2 _ _ ha (by omega), hv.2.2 _ _ ha hb]
        exact (hsym a b ha hb).2
    unfold KernelOf at hg
    split_ifs at hg
    · obtain ⟨a, b, _, _, _, hg⟩ := hg
      refine key _ hg fun i j hi hj => ?_
      have := kernelDist_mirror S hS1 (2 * Real.pi / q.wavelength) q.NA q.len2pixels i j hi hj
      simp only [this.1, this.2, and_self]
    · refine key _ hg fun i j hi hj => ?_
      have := kernelDist_mirror S hS1 (2 * Real.pi / q.wavelength) q.NA q.len2pixels i j hi hj
      simp only [this.1, this.2, and_self]
  obtain ⟨g, e1, e2⟩ := convolution_conserves overflow img k hk (by omega) (by omega) hm hn
  exact ⟨k, g, e, e1, e2⟩

/-- C58. Without symmetry and without a black margin the claim is false: this shifting kernel loses a bright pixel of the border. -/
theorem convolution_not_conserving (overflow : ℝ → ℝ) :
    ∃ img k g, IsPsfKernel k ∧ k.rows % 2 = 1 ∧ k.cols % 2 = 1 ∧ NonEmpty img ∧ (∀ i j, 0 ≤ img.entry i j) ∧
      convoluteImgPsf overflow .float img k false = .ok (some g) ∧ total img = 1 ∧ total g = 0 := by
  let k : Grid := ⟨1, 3, fun _ j => if j = 0 then 1 else 0⟩
  have hk : IsPsfKernel k := ⟨fun _ b _ _ => by simp only [k]; split_ifs <;> norm_num, ⟨0, 0, by decide, by decide, by simp [k]⟩⟩
  refine ⟨⟨1, 2, fun _ j => if j = 0 then 1 else 0⟩, k, _, hk, by decide, by decide, ⟨by decide, by decide⟩, fun i j => ?_, unscaled_eq _ _ _ _, ?_, ?_⟩
  · simp only; split_ifs <;> norm_num
  · simp [total, sum_range_succ]
  · show total (blurred _ k) = 0
    have r1 : reflectIndex 2 1 = 1 := by decide
    have r2 : reflectIndex 2 2 = 1 := by decide
    simp only [total, (blurred_rows _ _).1, (blurred_rows _ _).2, blurred_entry hk]
    norm_num [sum_range_succ, k, r1, r2]

/-- The hypotheses are met: the flat kernel of 3 × 3 elements, and an image of one pixel; a shifting kernel and an image with a black margin. -/
example : IsPsfKernel flatKernel ∧ flatKernel.rows % 2 = 1 ∧ flatKernel.cols % 2 = 1 ∧ TwoMirrors flatKernel ∧ NonEmpty ⟨1, 1, fun _ _ => 5⟩ :=
  ⟨flatKernel_ok, rfl, rfl, ⟨fun _ _ _ _ => rfl, fun _ _ _ _ => rfl⟩, by decide, by decide⟩
example : BlackMargin ⟨3, 3, fun i j => if i = 1 ∧ j = 1 then 5 else 0⟩ ⟨3, 3, fun i _ => if i = 0 then 1 else 0⟩ := by
  intro i j hi hj h
  simp only at hi hj h ⊢
  rw [if_neg (by omega)]
example : OpticsOk ⟨0.11, 0.55, 0.95, 100, 90, true, 5⟩ ∧ OddSize 5 5 := by
  refine ⟨⟨by norm_num, by norm_num⟩, by decide, Or.inl rfl⟩

end Verif.Props
