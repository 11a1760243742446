import Verif.Proofs.Float
import Mathlib.Analysis.SpecialFunctions.Trigonometric.Bounds

/-!
# Error analysis: the formula with factorials, normalisation, angular part, methods
-/

namespace Verif.Proofs
open Verif.Model Verif.Spec

section
variable {F : FloatArith} {u : ℝ} {p : ℕ}

theorem sum_coefT (a b N : ℕ) : ∑ k ∈ Finset.range N, |coefT a b k| ≤ (growth (a + b) : ℤ) := by
  have single : ∀ (g : ℕ → ℤ) (M : ℕ), (∀ k, g (k + 1) = 0) → |g 0| ≤ 1 → ∀ G : ℕ, 1 ≤ G → ∑ k ∈ Finset.range M, |g k| ≤ (G : ℤ) := by
    intro g M h1 h0 G hG
    have hG' : (1 : ℤ) ≤ G := by exact_mod_cast hG
    cases M with
    | zero => simp
    | succ M =>
      rw [Finset.sum_range_succ']
      simp only [h1, abs_zero, Finset.sum_const_zero, zero_add]
      linarith
  induction a generalizing b N with
  | zero =>
    exact single _ N (fun k => coefT_eq_zero (by omega)) (by simp [coefT, trino]) _ (growth_pos _)
  | succ a ih =>
    induction b generalizing N with
    | zero => exact single _ N (fun k => coefT_eq_zero (by omega)) (by simp [coefT, trino]) _ (growth_pos _)
    | succ b ihb =>
      have i1 := ih (b + 1) N
      have i2 := ihb N
      rw [show a + (b + 1) = a + b + 1 by omega] at i1
      rw [show a + 1 + b = a + b + 1 by omega] at i2
      rw [show a + 1 + (b + 1) = a + b + 2 by omega, growth]
      push_cast
      cases N with
      | zero => simp; positivity
      | succ N =>
        have i3 := ih b N
        rw [Finset.sum_range_succ'] at i1 i2 ⊢
        rw [coefT_zero]
        have e0 := abs_add_le (coefT a (b + 1) 0) (coefT (a + 1) b 0)
        have e : ∑ k ∈ Finset.range N, |coefT (a + 1) (b + 1) (k + 1)| ≤
            ∑ k ∈ Finset.range N, |coefT a (b + 1) (k + 1)| + ∑ k ∈ Finset.range N, |coefT (a + 1) b (k + 1)| + ∑ k ∈ Finset.range N, |coefT a b k| := by
          rw [← Finset.sum_add_distrib, ← Finset.sum_add_distrib]
          refine Finset.sum_le_sum fun k _ => ?_
          rw [coefT_succ]
          exact (abs_sub _ _).trans (add_le_add (abs_add_le _ _) le_rfl)
        linarith

theorem trino_pos (k x y : ℕ) : 1 ≤ trino k x y :=
  Nat.mul_pos (Nat.choose_pos (by omega)) (Nat.choose_pos (by omega))

theorem radialEqLoop_fl (hF : Accurate F u p) (m n : Int) (r : Fl F) (h0 : 0 ≤ r.val) (h1 : r.val ≤ 1) (a b : Nat) (hn : n = a + b) (hm : m = a - b)
    (j k : Nat) (l : ℕ) (hl : p + 4 ≤ l) (A : ℝ) (acc : Fl F) (v : ℝ) (h : Ap u l A acc v) (hk : k + j ≤ min a b + 1) :
    ∃ y w, radialEqLoop m n r j k acc = .ok y ∧ radialEqLoop m n r.val j k v = .ok w ∧
      Ap u (l + j) (A + ∑ i ∈ Finset.range j, |(coefT a b (k + i) : ℝ)|) y w := by
  induction j generalizing k l A acc v with
  | zero => exact ⟨acc, v, rfl, rfl, by simpa using h⟩
  | succ j ih =>
    unfold radialEqLoop
    have e1 : (n + m) / 2 = a := by omega
    have e2 : (n - m) / 2 = b := by omega
    have hka : k ≤ a ∧ k ≤ b := by omega
    simp only [e1, e2]
    rw [pyFactorial_cast (n - k) (k + (a - k) + (b - k)) (by omega), pyFactorial_cast k k rfl,
      pyFactorial_cast (a - k) (a - k) (by omega), pyFactorial_cast (b - k) (b - k) (by omega)]
    simp only [Except.bind, bind]
    have hq : ((((k + (a - k) + (b - k)).factorial : Nat) : Int) : ℚ) /
        ((((k.factorial : Nat) : Int) * (((a - k).factorial : Nat) : Int) * (((b - k).factorial : Nat) : Int) : Int) : ℚ) = (trino k (a - k) (b - k) : ℚ) := by
      have q := quot_eq (F := ℚ) k (a - k) (b - k)
      push_cast at q ⊢
      rw [q]
    rw [hq]
    have ht := trino_pos k (a - k) (b - k)
    have ht1 : (1 : ℚ) ≤ (trino k (a - k) (b - k) : ℚ) := by exact_mod_cast ht
    have ht2 : (1 : ℝ) ≤ ((trino k (a - k) (b - k) : ℚ) : ℝ) := by exact_mod_cast ht1
    have hs : ((-1) ^ (k : Int).toNat : Int) ≠ 0 := by positivity
    have hs1 : |(((-1) ^ (k : Int).toNat : Int) : ℝ)| = 1 := by push_cast; rw [abs_pow, abs_neg, abs_one, one_pow]
    have hc : |(coefT a b (k + 0) : ℝ)| = ((trino k (a - k) (b - k) : ℚ) : ℝ) := by
      simp only [coefT, add_zero, hka, and_self, if_true]
      push_cast
      rw [abs_mul, abs_pow, abs_neg, abs_one, one_pow, one_mul, abs_of_nonneg (by positivity)]
    have hA := h.nonneg
    have key := h.add hF ((Ap.int hF _ hs).mul hF ((Ap.rat hF _ ht1).mul hF (Ap.pow hF h0 h1 (n - 2 * (k : Int)).toNat) (by linarith))
      (by rw [hs1]; linarith)) (by rw [hs1]; linarith)
    have e5 : ((scal (trino k (a - k) (b - k) : ℚ) : ℝ)) = ((trino k (a - k) (b - k) : ℚ) : ℝ) := by
      simp [scal, OfRat.ofRat]
    rw [e5]
    obtain ⟨y, w, hy, hw, hyw⟩ := ih (k + 1) (l + 1) (by omega) _ _ _
      (key.mono (l := l + 1) hF.unit (by have : max l (1 + (1 + p + 1) + 1) = l := by omega
                                         omega) le_rfl) (by omega)
    refine ⟨y, w, by push_cast at hy ⊢; exact hy, by push_cast at hw ⊢; exact hw, hyw.mono hF.unit (by omega) ?_⟩
    rw [Finset.sum_range_succ', hc, hs1, one_mul, mul_one]
    have e6 : ∀ i, k + 1 + i = k + (i + 1) := fun i => by omega
    simp only [e6]
    linarith

theorem radialPolynomialEq_fl (hF : Accurate F u p) (m n : Int) (r : Fl F) (h0 : 0 ≤ r.val) (h1 : r.val ≤ 1) (hv : ValidOrders m n) :
    ∃ y, radialPolynomialEq m n r = .ok y ∧ Ap u (expo p n) (growth n.toNat) y (RR m n r.val) := by
  have hR := radialPolynomialEq_correct m n r.val hv
  obtain ⟨a, b, hn, hm, e1, e2, e3⟩ := ab_of_valid hv
  obtain ⟨y, w, hy, hw, h⟩ := radialEqLoop_fl hF m n r h0 h1 a b hn hm (min a b + 1) 0 (p + 4) le_rfl 0 0 0
    (Ap.zero.mono hF.unit (by omega) le_rfl) (by omega)
  unfold radialPolynomialEq at hR ⊢
  rw [e3] at hR ⊢
  have e4 : (((min a b : ℕ) : Int) + 1).toNat = min a b + 1 := by omega
  rw [e4] at hR ⊢
  simp only [Nat.cast_zero] at hy hw
  rw [hw] at hR
  injection hR with hR
  refine ⟨y, hy, ?_⟩
  rw [← hR]
  refine h.mono hF.unit ?_ ?_
  · simp only [expo]; omega
  · rw [zero_add]
    have := sum_coefT a b (min a b + 1)
    have e5 : n.toNat = a + b := by omega
    rw [e5]
    simp only [zero_add]
    exact_mod_cast this

/-- The radial part in any state of the tables. -/
theorem radialFl_ok (hF : Accurate F u p) (fuel : Nat) (exact : Bool) (m n : Int) (r : Fl F) (h0 : 0 ≤ r.val) (h1 : r.val ≤ 1) (s : CoefState) (hs : Good s)
    (hv : ValidOrders m n) (hf : n.toNat + 1 < fuel) (hc : ¬ (exact ∧ 40 < n)) :
    ∃ y, (radialFl F fuel exact m n r s).1 = .ok y ∧ Ap u (expo p n) (growth n.toNat) y (RR m n r.val) := by
  unfold radialFl radialValue
  cases exact
  · simp only [Bool.not_false, if_true]
    split_ifs
    · exact radialPolynomial_fl hF fuel m n r h0 h1 hv (by omega)
    · obtain ⟨_, h2, h3⟩ := (radialPolynomialCoeffs_fl hF fuel m n r h0 h1).app s hs
      obtain ⟨v, hv'⟩ := h3 ⟨hv, hf⟩
      exact ⟨v, hv', h2 v hv' hv⟩
  · simp only [Bool.not_true, Bool.false_eq_true, if_false]
    rw [show maxRadialOrderCoeffs = 40 from rfl, if_neg (by tauto)]
    exact radialPolynomialEq_fl hF m n r h0 h1 hv

/-! ### Normalisation and angular part -/

theorem sqrt_fl (hF : Accurate F u p) (N : Int) (hN : 1 ≤ N) : Ap u 2 (Real.sqrt N) (⟨F.sqrt (N : Fl F).val⟩ : Fl F) (Real.sqrt N) := by
  have hN' : (1 : ℝ) ≤ (N : ℝ) := by exact_mod_cast hN
  have hu := hF.unit
  have hu1 := hF.small
  have ha := hF.fl (N : ℝ)
  have e : (N : Fl F).val = F.fl N := rfl
  rw [e]
  generalize F.fl (N : ℝ) = a at *
  rw [abs_of_nonneg (show (0 : ℝ) ≤ (N : ℝ) by linarith), max_eq_left hN'] at ha
  have ha0 : 0 ≤ a := by
    have := (abs_le.1 ha).1
    nlinarith
  have hs1 : 1 ≤ Real.sqrt N := by rw [Real.one_le_sqrt]; exact hN'
  have hsq : Real.sqrt N * Real.sqrt N = N := Real.mul_self_sqrt (by linarith)
  have hsa : Real.sqrt a * Real.sqrt a = a := Real.mul_self_sqrt ha0
  have hsa0 := Real.sqrt_nonneg a
  have hb := hF.sqrt a ha0
  generalize Real.sqrt N = s at *
  generalize Real.sqrt a = t at *
  -- the roots are closer, relatively, than the numbers
  have h1 : |t - s| ≤ u * s := by
    have h2 : |t - s| * (t + s) = |a - N| := by
      rw [← hsq, ← hsa, ← abs_of_nonneg (show 0 ≤ t + s by linarith), ← abs_mul]
      congr 1; ring
    have h3 : |t - s| * s ≤ u * s * s := by
      calc |t - s| * s ≤ |t - s| * (t + s) := mul_le_mul_of_nonneg_left (by linarith) (abs_nonneg _)
        _ = |a - N| := h2
        _ ≤ u * N := ha
        _ = u * s * s := by rw [← hsq]; ring
    exact le_of_mul_le_mul_right h3 (by linarith)
  refine ⟨by rw [abs_of_nonneg (by linarith)], ?_⟩
  have h4 : max t 1 ≤ (1 + u) * s := by
    have := (abs_le.1 h1).2
    exact max_le (by linarith) (by nlinarith)
  have h5 := abs_sub_le (F.sqrt a) t s
  have h6 : u * max t 1 ≤ u * ((1 + u) * s) := mul_le_mul_of_nonneg_left h4 hu
  show |F.sqrt a - s| ≤ _
  calc |F.sqrt a - s| ≤ u * ((1 + u) * s) + u * s := by linarith
    _ = ((1 + u) ^ 2 - 1) * s := by ring

theorem norm_fl (hF : Accurate F u p) (m n : Int) (hn : 0 ≤ n) : Ap u 2 (Spec.norm m n) (normalizationFl F m n) (Spec.norm m n) := by
  unfold normalizationFl Spec.norm
  split_ifs
  · have := sqrt_fl hF (n + 1) (by omega)
    push_cast at this
    exact this
  · have := sqrt_fl hF (2 * (n + 1)) (by omega)
    push_cast at this
    exact this

theorem norm_one (m n : Int) (hn : 0 ≤ n) : 1 ≤ Spec.norm m n := by
  have hn' : (0 : ℝ) ≤ n := by exact_mod_cast hn
  unfold Spec.norm
  rw [Real.one_le_sqrt]
  split_ifs <;> linarith

/-- The angle `m θ`. -/
theorem angle_fl (hF : Accurate F u p) (m : Int) (t : Fl F) :
    Ap u 2 (max |(m : ℝ)| 1 * max |t.val| 1) ((m : Fl F) * t) ((m : ℝ) * t.val) := by
  have h1 : (1 : ℝ) ≤ max |(m : ℝ)| 1 := le_max_right _ _
  have h2 : (1 : ℝ) ≤ max |t.val| 1 := le_max_right _ _
  have e1 : Ap u 1 (max |(m : ℝ)| 1) (m : Fl F) (m : ℝ) := Ap.round (k := 0) hF h1 (le_max_left _ _) (by simp)
  have e2 : Ap u 0 (max |t.val| 1) t t.val := ⟨le_max_left _ _, by simp⟩
  exact (e1.mul hF e2 (by nlinarith)).mono hF.unit (by omega) le_rfl

theorem trig_fl {a b e c : ℝ} {f g : ℝ → ℝ} (hu : 0 ≤ u) (M : ℝ) (hM : 1 ≤ M) (h : |a - b| ≤ ((1 + u) ^ 2 - 1) * M)
    (hf : ∀ x, |f x - g x| ≤ (1 + u) ^ p - 1) (hg : ∀ x y, |g x - g y| ≤ |x - y|) (he : e = f a) (hc : c = g b) :
    |e - c| ≤ ((1 + u) ^ (p + 2) - 1) * M := by
  subst he hc
  have h1 := abs_sub_le (f a) (g a) (g b)
  have h2 := hf a
  have h3 := hg a b
  have h4 := one_le_pow_u hu p
  have h5 := one_le_pow_u hu 2
  rw [pow_add]
  generalize (1 + u) ^ p = A at *
  generalize (1 + u) ^ 2 = B at *
  have h6 : A - 1 ≤ (A - 1) * (B * M) := le_mul_of_one_le_right (by linarith) (by nlinarith)
  calc |f a - g b| ≤ (A - 1) * (B * M) + (B - 1) * M := by linarith
    _ = (A * B - 1) * M := by ring

theorem cos_lip (x y : ℝ) : |Real.cos x - Real.cos y| ≤ |x - y| := Real.abs_cos_sub_cos_le x y

theorem sin_lip (x y : ℝ) : |Real.sin x - Real.sin y| ≤ |x - y| := Real.abs_sin_sub_sin_le x y

theorem triangular_fl (hF : Accurate F u p) (m : Int) (t : Fl F) :
    Ap u (p + 2) (max |(m : ℝ)| 1 * max |t.val| 1) (triangularFl F m t) (angular m t.val) := by
  have h1 : (1 : ℝ) ≤ max |(m : ℝ)| 1 := le_max_right _ _
  have h2 : (1 : ℝ) ≤ max |t.val| 1 := le_max_right _ _
  have hM : (1 : ℝ) ≤ max |(m : ℝ)| 1 * max |t.val| 1 := by nlinarith
  have ha := angle_fl hF m t
  unfold triangularFl angular
  by_cases hm : 0 ≤ m
  · rw [if_pos hm, if_pos hm]
    exact ⟨(Real.abs_cos_le_one _).trans hM, trig_fl hF.unit _ hM ha.2 hF.cos cos_lip rfl rfl⟩
  · rw [if_neg hm, if_neg hm]
    refine ⟨(Real.abs_sin_le_one _).trans hM, ?_⟩
    have e : Real.sin ((|m| : ℤ) * t.val) = -Real.sin ((m : ℝ) * t.val) := by
      rw [abs_of_neg (by omega)]; push_cast; rw [neg_mul, Real.sin_neg]
    rw [e]
    have := trig_fl (p := p) (e := F.sin ((m : Fl F) * t).val) hF.unit _ hM ha.2 hF.sin sin_lip rfl rfl
    rw [show (-(⟨F.sin ((m : Fl F) * t).val⟩ : Fl F)).val - -Real.sin ((m : ℝ) * t.val) =
      -(F.sin ((m : Fl F) * t).val - Real.sin ((m : ℝ) * t.val)) by
        show -F.sin ((m : Fl F) * t).val - _ = _
        ring, abs_neg]
    exact this

theorem bind_ok {β γ : Type} {x : CM β} {f : β → CM γ} {s s' : CoefState} {v : β} (h : x s = (.ok v, s')) : (x >>= f) s = f v s' := by
  show (match x s with | (.ok v, s') => f v s' | (.error e, s') => (.error e, s')) = _
  rw [h]

/-- `polynomial_value` in any state of the tables. -/
theorem polynomialFl_ok (hF : Accurate F u p) (fuel : Nat) (exact : Bool) (m n : Int) (r t : Fl F) (h0 : 0 ≤ r.val) (h1 : r.val ≤ 1) (s : CoefState) (hs : Good s)
    (hv : ValidOrders m n) (hf : n.toNat + 1 < fuel) (hc : ¬ (exact ∧ 40 < n)) :
    ∃ y, (polynomialFl F fuel exact m n r t s).1 = .ok y ∧
      Ap u (4 * n.toNat + 2 * p + 11) (Spec.norm m n * (max |(m : ℝ)| 1 * max |t.val| 1) * growth n.toNat) y (zernike m n r.val t.val) := by
  obtain ⟨y, hy, h⟩ := radialFl_ok hF fuel exact m n r h0 h1 s hs hv hf hc
  have hn := (valid_iff m n).1 hv
  unfold polynomialFl
  rw [show maxRadialOrderCoeffs = 40 from rfl, if_neg (by simpa using hc)]
  rcases hx : radialFl F fuel exact m n r s with ⟨q, s'⟩
  rw [hx] at hy
  simp only at hy
  subst hy
  have h2 : (1 : ℝ) ≤ max |(m : ℝ)| 1 := le_max_right _ _
  have h3 : (1 : ℝ) ≤ max |t.val| 1 := le_max_right _ _
  have hM : (1 : ℝ) ≤ max |(m : ℝ)| 1 * max |t.val| 1 := by nlinarith
  have hN := norm_one m n (by omega)
  have hG := growth_one n.toNat
  have hP : (1 : ℝ) ≤ Spec.norm m n * (max |(m : ℝ)| 1 * max |t.val| 1) := by nlinarith
  refine ⟨normalizationFl F m n * triangularFl F m t * y, ?_, ?_⟩
  · rw [bind_ok hx]
    rfl
  · have := ((norm_fl hF m n (by omega)).mul hF (triangular_fl hF m t) hP).mul hF h (by nlinarith)
    have e : zernike m n r.val t.val = Spec.norm m n * angular m t.val * RR m n r.val := by
      unfold zernike
      rw [spec_radial_eq m n r.val hv]; ring
    rw [e]
    refine this.mono hF.unit ?_ le_rfl
    simp only [expo]; omega

end

end Verif.Proofs
