import Verif.Spec.Fit
import Verif.Proofs.Surface
import Verif.Props.RoundTrip
import Mathlib.Algebra.Polynomial.Roots
import Mathlib.Algebra.Polynomial.BigOperators
import Mathlib.Algebra.Polynomial.Eval.Degree

/-! # Sample points on which the polynomials are independent -/

namespace Verif.Proofs
open Verif.Model Verif.Spec Verif.Props Polynomial

/-- The radial part is a polynomial. -/
theorem radial_poly (m n : Int) : ∃ p : ℝ[X], p.natDegree ≤ n.toNat ∧ ∀ r, p.eval r = Spec.radial m n r := by
  refine ⟨∑ k ∈ Finset.range ((n.toNat - m.natAbs) / 2 + 1),
    C ((-1) ^ k * ((n.toNat - k).factorial : ℝ) /
      ((k.factorial : ℝ) * (((n.toNat + m.natAbs) / 2 - k).factorial : ℝ) * (((n.toNat - m.natAbs) / 2 - k).factorial : ℝ))) *
      X ^ (n.toNat - 2 * k), ?_, fun r => ?_⟩
  · refine natDegree_sum_le_of_forall_le _ _ fun k _ => ?_
    exact (natDegree_C_mul_X_pow_le _ _).trans (Nat.sub_le _ _)
  · rw [eval_finset_sum]
    unfold Spec.radial
    refine Finset.sum_congr rfl fun k _ => ?_
    simp

/-- Along a line through the centre a combination is a polynomial. -/
theorem combination_poly (cs : List ℝ) (os : List (Int × Int)) (N : ℕ) (hN : ∀ o ∈ os, o.2.toNat ≤ N) (t : ℝ) :
    ∃ p : ℝ[X], p.natDegree ≤ N ∧ ∀ r, p.eval r = combination cs os r t := by
  induction os generalizing cs with
  | nil => exact ⟨0, by simp, fun r => by simp [combination]⟩
  | cons o os ih =>
    cases cs with
    | nil => exact ⟨0, by simp, fun r => by simp [combination]⟩
    | cons c cs =>
      obtain ⟨p, p1, p2⟩ := ih cs fun q hq => hN q (by simp [hq])
      obtain ⟨q, q1, q2⟩ := radial_poly o.1 o.2
      refine ⟨C (c * Spec.norm o.1 o.2 * angular o.1 t) * q + p, ?_, fun r => ?_⟩
      · refine (natDegree_add_le _ _).trans (max_le ?_ p1)
        exact (natDegree_C_mul_le _ _).trans (q1.trans (hN o (by simp)))
      · rw [eval_add, eval_C_mul, q2, p2]
        simp only [combination, List.zip_cons_cons, List.map_cons, List.sum_cons, zernike]
        ring

/-- The angular part times `e^{iNθ}` is a polynomial in `e^{iθ}`. -/
theorem angular_poly (m : Int) (N : ℕ) (hm : m.natAbs ≤ N) : ∃ p : ℂ[X], p.natDegree ≤ 2 * N ∧ ∀ t : ℝ,
    p.eval (Complex.exp (t * Complex.I)) = Complex.exp (t * Complex.I) ^ N * (angular m t : ℂ) := by
  have hne : ∀ t : ℝ, Complex.exp (t * Complex.I) ≠ 0 := fun t => Complex.exp_ne_zero _
  have hadd : N + m.natAbs ≤ 2 * N := by omega
  have hp : ∀ t : ℝ, Complex.exp (((m.natAbs : ℝ) * t : ℝ) * Complex.I) = Complex.exp (t * Complex.I) ^ m.natAbs := by
    intro t; rw [← Complex.exp_nat_mul]; congr 1; push_cast; ring
  have hn : ∀ t : ℝ, Complex.exp (-(((m.natAbs : ℝ) * t : ℝ)) * Complex.I) = (Complex.exp (t * Complex.I) ^ m.natAbs)⁻¹ := by
    intro t; rw [← hp t, ← Complex.exp_neg]; congr 1; ring
  have hsub : ∀ t : ℝ, Complex.exp (t * Complex.I) ^ (N - m.natAbs) = Complex.exp (t * Complex.I) ^ N * (Complex.exp (t * Complex.I) ^ m.natAbs)⁻¹ := by
    intro t; rw [pow_sub₀ _ (hne t) hm]
  by_cases h0 : 0 ≤ m
  · refine ⟨C (1 / 2) * X ^ (N + m.natAbs) + C (1 / 2) * X ^ (N - m.natAbs), ?_, fun t => ?_⟩
    · exact (natDegree_add_le _ _).trans (max_le ((natDegree_C_mul_X_pow_le _ _).trans hadd) ((natDegree_C_mul_X_pow_le _ _).trans (by omega)))
    · have e : angular m t = Real.cos ((m.natAbs : ℝ) * t) := by
        unfold angular
        rw [if_pos h0]
        congr 2
        rw [show (m.natAbs : ℝ) = ((m.natAbs : ℤ) : ℝ) from (Int.cast_natCast _).symm, Int.natAbs_of_nonneg h0]
      rw [e, Complex.ofReal_cos, Complex.cos, hp t, hn t]
      simp only [eval_add, eval_mul, eval_C, eval_pow, eval_X]
      rw [pow_add, hsub]
      ring
  · refine ⟨C (Complex.I / 2) * X ^ (N - m.natAbs) + C (-Complex.I / 2) * X ^ (N + m.natAbs), ?_, fun t => ?_⟩
    · exact (natDegree_add_le _ _).trans (max_le ((natDegree_C_mul_X_pow_le _ _).trans (by omega)) ((natDegree_C_mul_X_pow_le _ _).trans hadd))
    · have e : angular m t = Real.sin ((m.natAbs : ℝ) * t) := by
        unfold angular
        rw [if_neg h0]
        congr 2
        rw [Int.abs_eq_natAbs]; simp
      rw [e, Complex.ofReal_sin, Complex.sin, hp t, hn t]
      simp only [eval_add, eval_mul, eval_C, eval_pow, eval_X]
      rw [pow_add, hsub]
      ring

/-- On a circle a combination times `e^{iNθ}` is a polynomial in `e^{iθ}`. -/
theorem combination_trig (cs : List ℝ) (os : List (Int × Int)) (N : ℕ) (hN : ∀ o ∈ os, o.1.natAbs ≤ N) (r : ℝ) :
    ∃ p : ℂ[X], p.natDegree ≤ 2 * N ∧ ∀ t : ℝ,
      p.eval (Complex.exp (t * Complex.I)) = Complex.exp (t * Complex.I) ^ N * (combination cs os r t : ℂ) := by
  induction os generalizing cs with
  | nil => exact ⟨0, by simp, fun r => by simp [combination]⟩
  | cons o os ih =>
    cases cs with
    | nil => exact ⟨0, by simp, fun r => by simp [combination]⟩
    | cons c cs =>
      obtain ⟨p, p1, p2⟩ := ih cs fun q hq => hN q (by simp [hq])
      obtain ⟨q, q1, q2⟩ := angular_poly o.1 N (hN o (by simp))
      refine ⟨C ((c * Spec.norm o.1 o.2 * Spec.radial o.1 o.2 r : ℝ) : ℂ) * q + p, ?_, fun t => ?_⟩
      · exact (natDegree_add_le _ _).trans (max_le ((natDegree_C_mul_le _ _).trans q1) p1)
      · rw [eval_add, eval_C_mul, q2, p2]
        simp only [combination, List.zip_cons_cons, List.map_cons, List.sum_cons, zernike]
        push_cast
        ring

/-- More zeros than the degree. -/
theorem eval_zero_of_card {K : Type} [Field K] (p : K[X]) (n : ℕ) (hd : p.natDegree ≤ n) (s : Finset K) (hs : n < s.card)
    (h : ∀ x ∈ s, p.eval x = 0) (x : K) : p.eval x = 0 := by
  have : p = 0 := Polynomial.eq_zero_of_natDegree_lt_card_of_eval_eq_zero' p s h (by omega)
  rw [this]; simp

/-- A combination that vanishes at more than `N` (signed) radii of a line vanishes on the line. -/
theorem line_zero (cs : List ℝ) (os : List (Int × Int)) (N : ℕ) (hN : ∀ o ∈ os, o.2.toNat ≤ N) (t : ℝ) (s : Finset ℝ) (hs : N < s.card)
    (h : ∀ r ∈ s, combination cs os r t = 0) (r : ℝ) : combination cs os r t = 0 := by
  obtain ⟨p, p1, p2⟩ := combination_poly cs os N hN t
  rw [← p2]
  exact eval_zero_of_card p N p1 s hs (fun x hx => by rw [p2]; exact h x hx) r

/-- A combination that vanishes at more than `2N` points of a circle vanishes on the circle. -/
theorem circle_zero (cs : List ℝ) (os : List (Int × Int)) (N : ℕ) (hN : ∀ o ∈ os, o.1.natAbs ≤ N) (r : ℝ) (s : Finset ℂ) (hs : 2 * N < s.card)
    (h : ∀ z ∈ s, ∃ t : ℝ, z = Complex.exp (t * Complex.I) ∧ combination cs os r t = 0) (t : ℝ) : combination cs os r t = 0 := by
  obtain ⟨p, p1, p2⟩ := combination_trig cs os N hN r
  have h1 := eval_zero_of_card p (2 * N) p1 s hs (fun z hz => by
    obtain ⟨t, rfl, e⟩ := h z hz
    rw [p2, e]; simp) (Complex.exp (t * Complex.I))
  rw [p2] at h1
  have h2 := mul_eq_zero.1 h1
  rcases h2 with h2 | h2
  · exact absurd h2 (pow_ne_zero _ (Complex.exp_ne_zero _))
  · exact_mod_cast h2

theorem radial_neg (m n : Int) (hv : ValidOrders m n) (r : ℝ) : Spec.radial m n (-r) = (-1) ^ m.natAbs * Spec.radial m n r := by
  unfold Spec.radial
  rw [Finset.mul_sum]
  refine Finset.sum_congr rfl fun k hk => ?_
  rw [Finset.mem_range] at hk
  obtain ⟨hn, h2, h3⟩ := hv
  rw [Int.abs_eq_natAbs] at h2 h3
  have hpar : (n.toNat - 2 * k) % 2 = m.natAbs % 2 := by omega
  have e : ((-1 : ℝ)) ^ (n.toNat - 2 * k) = (-1) ^ m.natAbs := by
    rw [neg_one_pow_eq_pow_mod_two, hpar, ← neg_one_pow_eq_pow_mod_two]
  rw [neg_pow r, e]; ring

/-- A negative radius is the opposite direction. -/
theorem combination_neg (cs : List ℝ) (os : List (Int × Int)) (hv : ∀ p ∈ os, ValidOrders p.1 p.2) (r t : ℝ) :
    combination cs os (-r) t = combination cs os r (t + Real.pi) := by
  unfold combination
  congr 1
  apply List.map_congr_left
  intro q hq
  have := hv _ (List.of_mem_zip hq).2
  unfold zernike
  rw [radial_neg _ _ this, angular_add_pi]; ring

/-- A combination of different polynomials that vanishes everywhere has no coefficients. -/
theorem zero_of_everywhere (cs : List ℝ) (os : List (Int × Int)) (hl : cs.length = os.length) (hn : os.Nodup)
    (hv : ∀ p ∈ os, ValidOrders p.1 p.2) (h : ∀ r t, combination cs os r t = 0) : ∀ x ∈ cs, x = 0 := by
  intro x hx
  obtain ⟨i, hi, rfl⟩ := List.mem_iff_getElem.1 hx
  rw [← diskMean_project cs os hl hn hv i (by omega)]
  simp only [h, zero_mul, diskMean_zero]

/-- A circle of `2N + 1` points at `⌊N/2⌋ + 1` different positive radii. -/
theorem independent_circles (os : List (Int × Int)) (hn : os.Nodup) (hv : ∀ p ∈ os, ValidOrders p.1 p.2) (N : ℕ) (hN : ∀ o ∈ os, o.2 ≤ N)
    (points : List (ℝ × ℝ)) (rs : Finset ℝ) (hrs : N / 2 < rs.card) (hpos : ∀ r ∈ rs, 0 < r)
    (hts : ∀ r ∈ rs, ∃ s : Finset ℂ, 2 * N < s.card ∧ ∀ z ∈ s, ∃ t : ℝ, z = Complex.exp (t * Complex.I) ∧ (r, t) ∈ points) :
    IndependentOn os points := by
  intro cs hl h0
  refine zero_of_everywhere cs os hl hn hv fun r t => ?_
  have hN2 : ∀ o ∈ os, o.2.toNat ≤ N := fun o ho => by have := hN o ho; omega
  have hN1 : ∀ o ∈ os, o.1.natAbs ≤ N := fun o ho => by
    have := hN o ho
    obtain ⟨_, h2, _⟩ := hv o ho
    rw [Int.abs_eq_natAbs] at h2; omega
  have hc : ∀ r ∈ rs, ∀ t, combination cs os r t = 0 := by
    intro r hr t
    obtain ⟨s, s1, s2⟩ := hts r hr
    refine circle_zero cs os N hN1 r s s1 (fun z hz => ?_) t
    obtain ⟨t, e, hp⟩ := s2 z hz
    exact ⟨t, e, h0 _ hp⟩
  classical
  refine line_zero cs os N hN2 t (rs ∪ rs.image fun r => -r) ?_ (fun x hx => ?_) r
  · rw [Finset.card_union_of_disjoint, Finset.card_image_of_injective _ neg_injective]
    · omega
    · rw [Finset.disjoint_left]
      intro x hx hx'
      rw [Finset.mem_image] at hx'
      obtain ⟨y, hy, rfl⟩ := hx'
      have := hpos _ hx
      have := hpos _ hy
      linarith
  · rw [Finset.mem_union, Finset.mem_image] at hx
    rcases hx with hx | ⟨y, hy, rfl⟩
    · exact hc x hx t
    · rw [combination_neg cs os hv]; exact hc y hy _

/-- `N + 1` different lines through the centre with `N + 1` points each. -/
theorem independent_lines (os : List (Int × Int)) (hn : os.Nodup) (hv : ∀ p ∈ os, ValidOrders p.1 p.2) (N : ℕ) (hN : ∀ o ∈ os, o.2 ≤ N)
    (points : List (ℝ × ℝ)) (hr : ∀ p ∈ points, 0 ≤ p.1) (ts : Fin (N + 1) → ℝ) (hts : ∀ i j, i ≠ j → Real.sin (ts i - ts j) ≠ 0)
    (hp : ∀ i, ∃ s : Finset ℝ, N < s.card ∧ ∀ x ∈ s, ∃ p ∈ points,
      p.1 * Real.cos p.2 = x * Real.cos (ts i) ∧ p.1 * Real.sin p.2 = x * Real.sin (ts i)) :
    IndependentOn os points := by
  intro cs hl h0
  refine zero_of_everywhere cs os hl hn hv fun r t => ?_
  have hN2 : ∀ o ∈ os, o.2.toNat ≤ N := fun o ho => by have := hN o ho; omega
  have hN1 : ∀ o ∈ os, o.1.natAbs ≤ N := fun o ho => by
    have := hN o ho
    obtain ⟨_, h2, _⟩ := hv o ho
    rw [Int.abs_eq_natAbs] at h2; omega
  have hline : ∀ i r, combination cs os r (ts i) = 0 := by
    intro i r
    obtain ⟨s, s1, s2⟩ := hp i
    refine line_zero cs os N hN2 (ts i) s s1 (fun x hx => ?_) r
    obtain ⟨p, hp, e1, e2⟩ := s2 x hx
    have hz := h0 p hp
    rcases le_total 0 x with hx0 | hx0
    · rw [← hz]
      exact (combination_same_point cs os hv _ _ _ _ (hr p hp) hx0 e1 e2).symm
    · rw [show x = -(-x) by ring, combination_neg cs os hv, ← hz]
      refine (combination_same_point cs os hv _ _ _ _ (hr p hp) (by linarith) ?_ ?_).symm
      · rw [Real.cos_add_pi, e1]; ring
      · rw [Real.sin_add_pi, e2]; ring
  have hopp : ∀ i r, combination cs os r (ts i + Real.pi) = 0 := by
    intro i r; rw [← combination_neg cs os hv]; exact hline i _
  have hsin : ∀ a b : ℝ, Complex.exp (a * Complex.I) = Complex.exp (b * Complex.I) → Real.sin (a - b) = 0 := by
    intro a b e
    have e1 : Complex.exp (((a - b : ℝ) : ℂ) * Complex.I) = 1 := by
      rw [show (((a - b : ℝ) : ℂ)) * Complex.I = a * Complex.I - b * Complex.I by push_cast; ring, Complex.exp_sub, e,
        div_self (Complex.exp_ne_zero _)]
    have := congrArg Complex.im e1
    rwa [Complex.exp_ofReal_mul_I_im] at this
  classical
  let f : Fin (N + 1) × Bool → ℂ := fun q => Complex.exp (((ts q.1 + if q.2 then Real.pi else 0 : ℝ) : ℂ) * Complex.I)
  have hf : Function.Injective f := by
    rintro ⟨i, a⟩ ⟨j, b⟩ e
    have h1 := hsin _ _ e
    have hij : i = j := by
      by_contra hne
      apply hts i j hne
      cases a <;> cases b
      · simpa using h1
      · simp only [Bool.false_eq_true, if_false, if_true] at h1
        rw [show ts i + 0 - (ts j + Real.pi) = ts i - ts j - Real.pi by ring, Real.sin_sub_pi] at h1
        linarith
      · simp only [Bool.false_eq_true, if_false, if_true] at h1
        rw [show ts i + Real.pi - (ts j + 0) = ts i - ts j + Real.pi by ring, Real.sin_add_pi] at h1
        linarith
      · simpa using h1
    subst hij
    have h2 : ∀ x : ℂ, Complex.exp (x + Real.pi * Complex.I) ≠ Complex.exp x := by
      intro x hx
      rw [Complex.exp_add, Complex.exp_pi_mul_I] at hx
      have h3 := Complex.exp_ne_zero x
      have : Complex.exp x = 0 := by linear_combination (-1 / 2 : ℂ) * hx
      exact h3 this
    cases a <;> cases b
    · rfl
    · exfalso
      simp only [f, Bool.false_eq_true, if_false, if_true] at e
      refine h2 (((ts i : ℝ) : ℂ) * Complex.I) ?_
      push_cast at e
      rw [← add_mul, ← e]; ring_nf
    · exfalso
      simp only [f, Bool.false_eq_true, if_false, if_true] at e
      refine h2 (((ts i : ℝ) : ℂ) * Complex.I) ?_
      push_cast at e
      rw [← add_mul, e]; ring_nf
    · rfl
  refine circle_zero cs os N hN1 r (Finset.univ.image f) ?_ (fun z hz => ?_) t
  · rw [Finset.card_image_of_injective _ hf, Finset.card_univ, Fintype.card_prod, Fintype.card_fin, Fintype.card_bool]; omega
  · rw [Finset.mem_image] at hz
    obtain ⟨⟨i, a⟩, _, rfl⟩ := hz
    refine ⟨_, rfl, ?_⟩
    cases a
    · simpa using hline i r
    · simpa using hopp i r

end Verif.Proofs
