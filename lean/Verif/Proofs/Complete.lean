import Verif.Proofs.Surface
import Verif.Spec.Polynomial
import Mathlib.Algebra.MvPolynomial.Degrees
import Mathlib.Algebra.MvPolynomial.Eval
import Mathlib.LinearAlgebra.Span.Basic

/-! # Zernike polynomials and polynomials in the Cartesian coordinates -/

namespace Verif.Proofs
open Verif.Spec

/-- The functions that are sums of multiples of Zernike polynomials of orders up to `N`. -/
noncomputable def zernSpan (N : ℕ) : Submodule ℝ (ℝ → ℝ → ℝ) :=
  Submodule.span ℝ {f | ∃ m n, ValidOrders m n ∧ n ≤ N ∧ f = zernike m n}

theorem zernSpan_mono {N M : ℕ} (h : N ≤ M) : zernSpan N ≤ zernSpan M := by
  apply Submodule.span_mono
  rintro f ⟨m, n, h1, h2, rfl⟩
  exact ⟨m, n, h1, by omega, rfl⟩

/-- The coefficients of the radial polynomials. -/
noncomputable def radCoef (m n : Int) (k : ℕ) : ℝ := (-1) ^ k * ((n.toNat - k).factorial : ℝ) /
  ((k.factorial : ℝ) * (((n.toNat + m.natAbs) / 2 - k).factorial : ℝ) * (((n.toNat - m.natAbs) / 2 - k).factorial : ℝ))

theorem radial_coef (m n : Int) (r : ℝ) : Spec.radial m n r = ∑ k ∈ Finset.range ((n.toNat - m.natAbs) / 2 + 1), radCoef m n k * r ^ (n.toNat - 2 * k) := rfl

theorem radCoef_zero_ne (m n : Int) : radCoef m n 0 ≠ 0 := by
  unfold radCoef
  have h1 := Nat.factorial_ne_zero (n.toNat - 0)
  have h2 := Nat.factorial_ne_zero ((n.toNat + m.natAbs) / 2 - 0)
  have h3 := Nat.factorial_ne_zero ((n.toNat - m.natAbs) / 2 - 0)
  apply div_ne_zero
  · simp only [pow_zero, one_mul]; exact_mod_cast h1
  · simp only [Nat.factorial_zero, Nat.cast_one, one_mul]
    exact mul_ne_zero (by exact_mod_cast h2) (by exact_mod_cast h3)

theorem norm_pos' (m n : Int) (h : 0 ≤ n) : 0 < Spec.norm m n := by
  have : (0 : ℝ) ≤ n := by exact_mod_cast h
  unfold Spec.norm
  apply Real.sqrt_pos.2
  split_ifs <;> linarith

/-- `r^d` times an angular part. -/
theorem power_angular_mem (m : Int) (d : ℕ) : m.natAbs ≤ d → 2 ∣ d - m.natAbs → (fun r θ => r ^ d * angular m θ) ∈ zernSpan d := by
  induction d using Nat.strong_induction_on with
  | _ d ih =>
    intro h1 h2
    have hv : ValidOrders m d := by
      refine ⟨by omega, ?_, ?_⟩ <;> rw [Int.abs_eq_natAbs] <;> omega
    have hz : zernike m d ∈ zernSpan d := Submodule.subset_span ⟨m, d, hv, le_refl _, rfl⟩
    have hrest : ∀ k ∈ Finset.range ((d - m.natAbs) / 2), (fun r θ => r ^ (d - 2 * (k + 1)) * angular m θ) ∈ zernSpan d := by
      intro k hk
      rw [Finset.mem_range] at hk
      exact zernSpan_mono (by omega) (ih (d - 2 * (k + 1)) (by omega) (by omega) (by omega))
    have hc := radCoef_zero_ne m d
    have hn := norm_pos' m d (by omega)
    have e : (fun r θ => r ^ d * angular m θ) = (Spec.norm m d * radCoef m d 0)⁻¹ • (zernike m d -
        ∑ k ∈ Finset.range ((d - m.natAbs) / 2), (Spec.norm m d * radCoef m d (k + 1)) • fun r θ => r ^ (d - 2 * (k + 1)) * angular m θ) := by
      funext r θ
      simp only [Pi.smul_apply, Pi.sub_apply, Finset.sum_apply, smul_eq_mul]
      unfold zernike
      rw [radial_coef, Int.toNat_natCast, Finset.sum_range_succ']
      have hs : ∑ k ∈ Finset.range ((d - m.natAbs) / 2), Spec.norm m d * radCoef m d (k + 1) * (r ^ (d - 2 * (k + 1)) * angular m θ) =
          Spec.norm m d * (∑ k ∈ Finset.range ((d - m.natAbs) / 2), radCoef m d (k + 1) * r ^ (d - 2 * (k + 1))) * angular m θ := by
        rw [Finset.mul_sum, Finset.sum_mul]
        exact Finset.sum_congr rfl fun k _ => by ring
      rw [hs]
      have := hn.ne'
      field_simp
      simp
      ring
    rw [e]
    exact Submodule.smul_mem _ _ (Submodule.sub_mem _ hz (Submodule.sum_mem _ fun k hk => Submodule.smul_mem _ _ (hrest k hk)))

/-- Homogeneous functions of degree `d`: `r^d cos kθ` and `r^d sin kθ`. -/
noncomputable def trigSpan (d : ℕ) : Submodule ℝ (ℝ → ℝ → ℝ) :=
  Submodule.span ℝ {f | ∃ k : ℤ, k.natAbs ≤ d ∧ 2 ∣ (d : ℤ) - k ∧ ((f = fun r θ => r ^ d * Real.cos (k * θ)) ∨ f = fun r θ => r ^ d * Real.sin (k * θ))}

theorem trigSpan_le (d : ℕ) : trigSpan d ≤ zernSpan d := by
  apply Submodule.span_le.2
  rintro f ⟨k, h1, h2, hf⟩
  have hc : ∀ θ : ℝ, angular (k.natAbs : ℤ) θ = Real.cos (k * θ) := by
    intro θ
    unfold angular
    rw [if_pos (by omega)]
    rcases Int.natAbs_eq k with h | h
    · rw [← h]
    · have : ((k.natAbs : ℤ) : ℝ) = -(k : ℝ) := by exact_mod_cast (by omega : ((k.natAbs : ℤ)) = -k)
      rw [this, neg_mul, Real.cos_neg]
  rcases hf with rfl | rfl
  · have := power_angular_mem (k.natAbs : ℤ) d (by omega) (by omega)
    simp only [hc] at this
    exact this
  · rcases eq_or_ne k 0 with h0 | h0
    · have e : (fun r θ : ℝ => r ^ d * Real.sin (k * θ)) = 0 := by funext r θ; simp [h0]
      rw [SetLike.mem_coe, e]
      exact Submodule.zero_mem _
    have hs : ∀ θ : ℝ, angular (-(k.natAbs : ℤ)) θ = Real.sin ((k.natAbs : ℤ) * θ) := by
      intro θ
      unfold angular
      rw [if_neg (by omega)]
      simp
    have hm := power_angular_mem (-(k.natAbs : ℤ)) d (by omega) (by omega)
    simp only [hs] at hm
    rcases Int.natAbs_eq k with h | h
    · rw [← h] at hm; exact hm
    · have e : (fun r θ : ℝ => r ^ d * Real.sin (k * θ)) = (-1 : ℝ) • fun r θ : ℝ => r ^ d * Real.sin ((k.natAbs : ℤ) * θ) := by
        funext r θ
        have : ((k.natAbs : ℤ) : ℝ) = -(k : ℝ) := by exact_mod_cast (by omega : ((k.natAbs : ℤ)) = -k)
        simp only [Pi.smul_apply, smul_eq_mul, this, neg_mul, Real.sin_neg]
        ring
      rw [SetLike.mem_coe, e]
      exact Submodule.smul_mem _ _ hm

theorem trigSpan_x {d : ℕ} {f : ℝ → ℝ → ℝ} (h : f ∈ trigSpan d) : (fun r θ => r * Real.cos θ * f r θ) ∈ trigSpan (d + 1) := by
  unfold trigSpan at h
  induction h using Submodule.span_induction with
  | zero => have : (fun r θ : ℝ => r * Real.cos θ * (0 : ℝ → ℝ → ℝ) r θ) = 0 := by funext r θ; simp
            rw [this]; exact Submodule.zero_mem _
  | add f g _ _ hf hg =>
    have : (fun r θ : ℝ => r * Real.cos θ * (f + g) r θ) = (fun r θ => r * Real.cos θ * f r θ) + fun r θ => r * Real.cos θ * g r θ := by
      funext r θ; simp only [Pi.add_apply]; ring
    rw [this]; exact Submodule.add_mem _ hf hg
  | smul a f _ hf =>
    have : (fun r θ : ℝ => r * Real.cos θ * (a • f) r θ) = a • fun r θ => r * Real.cos θ * f r θ := by
      funext r θ; simp only [Pi.smul_apply, smul_eq_mul]; ring
    rw [this]; exact Submodule.smul_mem _ _ hf
  | mem f hf =>
    obtain ⟨k, h1, h2, hf⟩ := hf
    have hp : ∀ (j : ℤ), j = k + 1 ∨ j = k - 1 → (j.natAbs ≤ d + 1 ∧ 2 ∣ ((d + 1 : ℕ) : ℤ) - j) := by
      intro j hj; push_cast; omega
    rcases hf with rfl | rfl
    · have e : (fun r θ : ℝ => r * Real.cos θ * (r ^ d * Real.cos (k * θ))) =
          (1 / 2 : ℝ) • (fun r θ => r ^ (d + 1) * Real.cos ((k + 1 : ℤ) * θ)) + (1 / 2 : ℝ) • fun r θ => r ^ (d + 1) * Real.cos ((k - 1 : ℤ) * θ) := by
        funext r θ
        simp only [Pi.add_apply, Pi.smul_apply, smul_eq_mul]
        push_cast
        rw [add_mul, sub_mul, one_mul, Real.cos_add, Real.cos_sub]
        ring
      rw [e]
      refine Submodule.add_mem _ (Submodule.smul_mem _ _ (Submodule.subset_span ?_)) (Submodule.smul_mem _ _ (Submodule.subset_span ?_))
      · exact ⟨k + 1, (hp _ (Or.inl rfl)).1, (hp _ (Or.inl rfl)).2, Or.inl rfl⟩
      · exact ⟨k - 1, (hp _ (Or.inr rfl)).1, (hp _ (Or.inr rfl)).2, Or.inl rfl⟩
    · have e : (fun r θ : ℝ => r * Real.cos θ * (r ^ d * Real.sin (k * θ))) =
          (1 / 2 : ℝ) • (fun r θ => r ^ (d + 1) * Real.sin ((k + 1 : ℤ) * θ)) + (1 / 2 : ℝ) • fun r θ => r ^ (d + 1) * Real.sin ((k - 1 : ℤ) * θ) := by
        funext r θ
        simp only [Pi.add_apply, Pi.smul_apply, smul_eq_mul]
        push_cast
        rw [add_mul, sub_mul, one_mul, Real.sin_add, Real.sin_sub]
        ring
      rw [e]
      refine Submodule.add_mem _ (Submodule.smul_mem _ _ (Submodule.subset_span ?_)) (Submodule.smul_mem _ _ (Submodule.subset_span ?_))
      · exact ⟨k + 1, (hp _ (Or.inl rfl)).1, (hp _ (Or.inl rfl)).2, Or.inr rfl⟩
      · exact ⟨k - 1, (hp _ (Or.inr rfl)).1, (hp _ (Or.inr rfl)).2, Or.inr rfl⟩

theorem trigSpan_y {d : ℕ} {f : ℝ → ℝ → ℝ} (h : f ∈ trigSpan d) : (fun r θ => r * Real.sin θ * f r θ) ∈ trigSpan (d + 1) := by
  unfold trigSpan at h
  induction h using Submodule.span_induction with
  | zero => have : (fun r θ : ℝ => r * Real.sin θ * (0 : ℝ → ℝ → ℝ) r θ) = 0 := by funext r θ; simp
            rw [this]; exact Submodule.zero_mem _
  | add f g _ _ hf hg =>
    have : (fun r θ : ℝ => r * Real.sin θ * (f + g) r θ) = (fun r θ => r * Real.sin θ * f r θ) + fun r θ => r * Real.sin θ * g r θ := by
      funext r θ; simp only [Pi.add_apply]; ring
    rw [this]; exact Submodule.add_mem _ hf hg
  | smul a f _ hf =>
    have : (fun r θ : ℝ => r * Real.sin θ * (a • f) r θ) = a • fun r θ => r * Real.sin θ * f r θ := by
      funext r θ; simp only [Pi.smul_apply, smul_eq_mul]; ring
    rw [this]; exact Submodule.smul_mem _ _ hf
  | mem f hf =>
    obtain ⟨k, h1, h2, hf⟩ := hf
    have hp : ∀ (j : ℤ), j = k + 1 ∨ j = k - 1 → (j.natAbs ≤ d + 1 ∧ 2 ∣ ((d + 1 : ℕ) : ℤ) - j) := by
      intro j hj; push_cast; omega
    rcases hf with rfl | rfl
    · have e : (fun r θ : ℝ => r * Real.sin θ * (r ^ d * Real.cos (k * θ))) =
          (1 / 2 : ℝ) • (fun r θ => r ^ (d + 1) * Real.sin ((k + 1 : ℤ) * θ)) - (1 / 2 : ℝ) • fun r θ => r ^ (d + 1) * Real.sin ((k - 1 : ℤ) * θ) := by
        funext r θ
        simp only [Pi.sub_apply, Pi.smul_apply, smul_eq_mul]
        push_cast
        rw [add_mul, sub_mul, one_mul, Real.sin_add, Real.sin_sub]
        ring
      rw [e]
      refine Submodule.sub_mem _ (Submodule.smul_mem _ _ (Submodule.subset_span ?_)) (Submodule.smul_mem _ _ (Submodule.subset_span ?_))
      · exact ⟨k + 1, (hp _ (Or.inl rfl)).1, (hp _ (Or.inl rfl)).2, Or.inr rfl⟩
      · exact ⟨k - 1, (hp _ (Or.inr rfl)).1, (hp _ (Or.inr rfl)).2, Or.inr rfl⟩
    · have e : (fun r θ : ℝ => r * Real.sin θ * (r ^ d * Real.sin (k * θ))) =
          (1 / 2 : ℝ) • (fun r θ => r ^ (d + 1) * Real.cos ((k - 1 : ℤ) * θ)) - (1 / 2 : ℝ) • fun r θ => r ^ (d + 1) * Real.cos ((k + 1 : ℤ) * θ) := by
        funext r θ
        simp only [Pi.sub_apply, Pi.smul_apply, smul_eq_mul]
        push_cast
        rw [add_mul, sub_mul, one_mul, Real.cos_add, Real.cos_sub]
        ring
      rw [e]
      refine Submodule.sub_mem _ (Submodule.smul_mem _ _ (Submodule.subset_span ?_)) (Submodule.smul_mem _ _ (Submodule.subset_span ?_))
      · exact ⟨k - 1, (hp _ (Or.inr rfl)).1, (hp _ (Or.inr rfl)).2, Or.inl rfl⟩
      · exact ⟨k + 1, (hp _ (Or.inl rfl)).1, (hp _ (Or.inl rfl)).2, Or.inl rfl⟩

theorem monomial_mem (a b : ℕ) : (fun r θ => (r * Real.cos θ) ^ a * (r * Real.sin θ) ^ b) ∈ trigSpan (a + b) := by
  induction a with
  | zero =>
    induction b with
    | zero =>
      refine Submodule.subset_span ⟨0, by simp, by simp, Or.inl ?_⟩
      funext r θ; simp
    | succ b ih =>
      have := trigSpan_y ih
      have e : (fun r θ : ℝ => (r * Real.cos θ) ^ 0 * (r * Real.sin θ) ^ (b + 1)) = fun r θ => r * Real.sin θ * ((r * Real.cos θ) ^ 0 * (r * Real.sin θ) ^ b) := by
        funext r θ; ring
      rw [e, ← add_assoc]; exact this
  | succ a ih =>
    have := trigSpan_x ih
    have e : (fun r θ : ℝ => (r * Real.cos θ) ^ (a + 1) * (r * Real.sin θ) ^ b) = fun r θ => r * Real.cos θ * ((r * Real.cos θ) ^ a * (r * Real.sin θ) ^ b) := by
      funext r θ; ring
    rw [e, show a + 1 + b = a + b + 1 by ring]; exact this

theorem polarEval_mem (P : MvPolynomial (Fin 2) ℝ) (N : ℕ) (hP : P.totalDegree ≤ N) : polynomialAt P ∈ zernSpan N := by
  have e : polynomialAt P = ∑ d ∈ P.support, P.coeff d • fun r θ => (r * Real.cos θ) ^ (d 0) * (r * Real.sin θ) ^ (d 1) := by
    funext r θ
    unfold polynomialAt
    rw [MvPolynomial.eval_eq']
    simp only [Finset.sum_apply, Pi.smul_apply, smul_eq_mul, Fin.prod_univ_two, Matrix.cons_val_zero, Matrix.cons_val_one]
  rw [e]
  refine Submodule.sum_mem _ fun d hd => Submodule.smul_mem _ _ ?_
  have hle := MvPolynomial.le_totalDegree hd
  rw [Finsupp.sum_fintype _ _ (fun _ => rfl), Fin.sum_univ_two] at hle
  exact zernSpan_mono (hle.trans hP) (trigSpan_le _ (monomial_mem _ _))

/-- A member of the span as a combination of a complete list of polynomials. -/
theorem span_combination (N : ℕ) (os : List (Int × Int)) (hd : os.Nodup) (hall : ∀ m n, ValidOrders m n → n ≤ N → (m, n) ∈ os) (f : ℝ → ℝ → ℝ) (hf : f ∈ zernSpan N) :
    ∃ cs : List ℝ, cs.length = os.length ∧ ∀ r θ, f r θ = combination cs os r θ := by
  have hadd : ∀ (os : List (Int × Int)) (cs ds : List ℝ) (r θ : ℝ), cs.length = os.length → ds.length = os.length →
      combination (List.zipWith (· + ·) cs ds) os r θ = combination cs os r θ + combination ds os r θ := by
    intro os
    induction os with
    | nil => intro cs ds r θ _ _; simp [combination]
    | cons o os ih =>
      intro cs ds r θ h1 h2
      cases cs with
      | nil => simp at h1
      | cons c cs =>
        cases ds with
        | nil => simp at h2
        | cons d ds =>
          have := ih cs ds r θ (by simpa using h1) (by simpa using h2)
          simp only [combination, List.zipWith_cons_cons, List.zip_cons_cons, List.map_cons, List.sum_cons] at this ⊢
          rw [this]; ring
  have hmul : ∀ (os : List (Int × Int)) (cs : List ℝ) (a r θ : ℝ), combination (cs.map (a * ·)) os r θ = a * combination cs os r θ := by
    intro os
    induction os with
    | nil => intro cs a r θ; simp [combination]
    | cons o os ih =>
      intro cs a r θ
      cases cs with
      | nil => simp [combination]
      | cons c cs =>
        have := ih cs a r θ
        simp only [combination, List.map_cons, List.zip_cons_cons, List.sum_cons] at this ⊢
        rw [this]; ring
  have hzero : ∀ (os : List (Int × Int)) (r θ : ℝ), combination (os.map fun _ => 0) os r θ = 0 := by
    intro os r θ
    induction os with
    | nil => simp [combination]
    | cons o os ih =>
      simp only [combination, List.map_cons, List.zip_cons_cons, List.sum_cons] at ih ⊢
      rw [ih]; simp
  unfold zernSpan at hf
  induction hf using Submodule.span_induction with
  | zero => exact ⟨os.map fun _ => 0, by simp, fun r θ => (hzero os r θ).symm⟩
  | add f g _ _ hf hg =>
    obtain ⟨cs, h1, h2⟩ := hf
    obtain ⟨ds, h3, h4⟩ := hg
    exact ⟨List.zipWith (· + ·) cs ds, by simp [h1, h3], fun r θ => by rw [hadd os cs ds r θ h1 h3, ← h2, ← h4]; rfl⟩
  | smul a f _ hf =>
    obtain ⟨cs, h1, h2⟩ := hf
    exact ⟨cs.map (a * ·), by simp [h1], fun r θ => by rw [hmul, ← h2]; rfl⟩
  | mem f hf =>
    obtain ⟨m, n, hv, hn, rfl⟩ := hf
    refine ⟨os.map fun o => if o = (m, n) then 1 else 0, by simp, fun r θ => ?_⟩
    have key : ∀ os : List (Int × Int), os.Nodup → combination (os.map fun o => if o = (m, n) then (1 : ℝ) else 0) os r θ = if (m, n) ∈ os then zernike m n r θ else 0 := by
      intro os hd
      induction os with
      | nil => simp [combination]
      | cons o os ih =>
        have hd' := List.nodup_cons.1 hd
        have := ih hd'.2
        simp only [combination, List.map_cons, List.zip_cons_cons, List.sum_cons] at this ⊢
        rw [this]
        by_cases ho : o = (m, n)
        · subst ho
          simp [hd'.1]
        · have ho' : ¬ (m, n) = o := fun h => ho h.symm
          simp [ho, ho']
    rw [key os hd, if_pos (hall m n hv hn)]

end Verif.Proofs
