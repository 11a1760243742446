import Verif.Proofs.Complete
import Mathlib.Topology.ContinuousMap.StoneWeierstrass
import Mathlib.Topology.MetricSpace.Bounded

/-! # Approximation of continuous surfaces by sums of Zernike polynomials -/

namespace Verif.Proofs
open Verif.Spec

/-! ### Zernike polynomials are polynomials in the Cartesian coordinates -/

/-- `f` is a polynomial of degree at most `d` in the Cartesian coordinates. -/
def IsCartesian (d : ℕ) (f : ℝ → ℝ → ℝ) : Prop := ∃ P : MvPolynomial (Fin 2) ℝ, P.totalDegree ≤ d ∧ ∀ r θ, f r θ = polynomialAt P r θ

theorem IsCartesian.mono {d e : ℕ} {f : ℝ → ℝ → ℝ} (h : IsCartesian d f) (hde : d ≤ e) : IsCartesian e f := by
  obtain ⟨P, h1, h2⟩ := h
  exact ⟨P, h1.trans hde, h2⟩

theorem IsCartesian.add {d : ℕ} {f g : ℝ → ℝ → ℝ} (hf : IsCartesian d f) (hg : IsCartesian d g) : IsCartesian d fun r θ => f r θ + g r θ := by
  obtain ⟨P, h1, h2⟩ := hf
  obtain ⟨Q, h3, h4⟩ := hg
  exact ⟨P + Q, (MvPolynomial.totalDegree_add _ _).trans (max_le h1 h3), fun r θ => by show f r θ + g r θ = _; rw [h2, h4]; simp [polynomialAt]⟩

theorem IsCartesian.mul {d e : ℕ} {f g : ℝ → ℝ → ℝ} (hf : IsCartesian d f) (hg : IsCartesian e g) : IsCartesian (d + e) fun r θ => f r θ * g r θ := by
  obtain ⟨P, h1, h2⟩ := hf
  obtain ⟨Q, h3, h4⟩ := hg
  exact ⟨P * Q, (MvPolynomial.totalDegree_mul _ _).trans (by omega), fun r θ => by show f r θ * g r θ = _; rw [h2, h4]; simp [polynomialAt]⟩

theorem IsCartesian.const (c : ℝ) : IsCartesian 0 fun _ _ => c := ⟨MvPolynomial.C c, by simp, fun r θ => by simp [polynomialAt]⟩

theorem IsCartesian.smul {d : ℕ} {f : ℝ → ℝ → ℝ} (c : ℝ) (hf : IsCartesian d f) : IsCartesian d fun r θ => c * f r θ := by
  have := (IsCartesian.const c).mul hf
  rwa [zero_add] at this

theorem IsCartesian.x : IsCartesian 1 fun r θ => r * Real.cos θ := ⟨MvPolynomial.X 0, by simp, fun r θ => by simp [polynomialAt]⟩

theorem IsCartesian.y : IsCartesian 1 fun r θ => r * Real.sin θ := ⟨MvPolynomial.X 1, by simp, fun r θ => by simp [polynomialAt]⟩

theorem IsCartesian.congr {d : ℕ} {f g : ℝ → ℝ → ℝ} (hf : IsCartesian d f) (h : ∀ r θ, g r θ = f r θ) : IsCartesian d g := by
  obtain ⟨P, h1, h2⟩ := hf
  exact ⟨P, h1, fun r θ => by rw [h, h2]⟩

theorem IsCartesian.sum {d : ℕ} {ι : Type} (s : Finset ι) (f : ι → ℝ → ℝ → ℝ) (h : ∀ i ∈ s, IsCartesian d (f i)) : IsCartesian d fun r θ => ∑ i ∈ s, f i r θ := by
  classical
  induction s using Finset.induction_on with
  | empty => simpa using (IsCartesian.const 0).mono (Nat.zero_le d)
  | insert i s hi ih =>
    have := (h i (by simp)).add (ih fun j hj => h j (by simp [hj]))
    exact this.congr fun r θ => by rw [Finset.sum_insert hi]

/-- `r^k cos kθ` and `r^k sin kθ`. -/
theorem harmonic_cartesian (k : ℕ) : (IsCartesian k fun r θ => r ^ k * Real.cos (k * θ)) ∧ IsCartesian k fun r θ => r ^ k * Real.sin (k * θ) := by
  induction k with
  | zero => exact ⟨(IsCartesian.const 1).congr fun r θ => by simp, (IsCartesian.const 0).congr fun r θ => by simp⟩
  | succ k ih =>
    obtain ⟨h1, h2⟩ := ih
    refine ⟨((h1.mul IsCartesian.x).add ((h2.mul IsCartesian.y).smul (-1))).congr fun r θ => ?_, ((h2.mul IsCartesian.x).add (h1.mul IsCartesian.y)).congr fun r θ => ?_⟩
    · push_cast
      rw [add_mul, one_mul, Real.cos_add]; ring
    · push_cast
      rw [add_mul, one_mul, Real.sin_add]; ring

theorem square_cartesian (j : ℕ) : IsCartesian (2 * j) fun r _ => r ^ (2 * j) := by
  induction j with
  | zero => exact (IsCartesian.const 1).congr fun r θ => by simp
  | succ j ih =>
    have h : IsCartesian 2 fun r θ => r * Real.cos θ * (r * Real.cos θ) + r * Real.sin θ * (r * Real.sin θ) :=
      (IsCartesian.x.mul IsCartesian.x).add (IsCartesian.y.mul IsCartesian.y)
    refine (ih.mul h).congr fun r θ => ?_
    have := Real.sin_sq_add_cos_sq θ
    rw [show r * Real.cos θ * (r * Real.cos θ) + r * Real.sin θ * (r * Real.sin θ) = r ^ 2 * (Real.sin θ ^ 2 + Real.cos θ ^ 2) by ring, this]
    ring

theorem power_angular_cartesian (m : Int) (d : ℕ) (h1 : m.natAbs ≤ d) (h2 : 2 ∣ d - m.natAbs) : IsCartesian d fun r θ => r ^ d * angular m θ := by
  obtain ⟨j, hj⟩ := h2
  have ha : IsCartesian m.natAbs fun r θ => r ^ m.natAbs * angular m θ := by
    by_cases h0 : 0 ≤ m
    · refine (harmonic_cartesian m.natAbs).1.congr fun r θ => ?_
      unfold angular
      rw [if_pos h0]
      have : (m : ℝ) = (m.natAbs : ℝ) := by
        have h : ((m.natAbs : ℤ) : ℝ) = (m : ℝ) := by rw [Int.natAbs_of_nonneg h0]
        rw [← h, Int.cast_natCast]
      rw [this]
    · refine (harmonic_cartesian m.natAbs).2.congr fun r θ => ?_
      unfold angular
      rw [if_neg h0, Int.abs_eq_natAbs]
      simp
  have := (square_cartesian j).mul ha
  rw [show 2 * j + m.natAbs = d by omega] at this
  refine this.congr fun r θ => ?_
  rw [show d = 2 * j + m.natAbs by omega, pow_add]
  ring

theorem zernike_cartesian (m n : Int) (hv : ValidOrders m n) : IsCartesian n.toNat (zernike m n) := by
  obtain ⟨h1, h2, h3⟩ := hv
  rw [Int.abs_eq_natAbs] at h2 h3
  have : IsCartesian n.toNat fun r θ => ∑ k ∈ Finset.range ((n.toNat - m.natAbs) / 2 + 1), Spec.norm m n * radCoef m n k * (r ^ (n.toNat - 2 * k) * angular m θ) := by
    refine IsCartesian.sum _ _ fun k hk => ?_
    rw [Finset.mem_range] at hk
    exact ((power_angular_cartesian m (n.toNat - 2 * k) (by omega) (by omega)).mono (by omega)).smul _
  refine this.congr fun r θ => ?_
  unfold zernike
  rw [radial_coef, Finset.mul_sum, Finset.sum_mul]
  exact Finset.sum_congr rfl fun k _ => by ring

theorem combination_cartesian (N : ℕ) (cs : List ℝ) (os : List (Int × Int)) (hv : ∀ p ∈ os, ValidOrders p.1 p.2) (hN : ∀ p ∈ os, p.2 ≤ N) :
    IsCartesian N (combination cs os) := by
  induction os generalizing cs with
  | nil => exact ((IsCartesian.const 0).mono (Nat.zero_le N)).congr fun r θ => by simp [combination]
  | cons o os ih =>
    cases cs with
    | nil => exact ((IsCartesian.const 0).mono (Nat.zero_le N)).congr fun r θ => by simp [combination]
    | cons c cs =>
      have h1 := ih cs (fun p hp => hv p (by simp [hp])) fun p hp => hN p (by simp [hp])
      have h2 := ((zernike_cartesian o.1 o.2 (hv o (by simp))).mono (by have := hN o (by simp); omega : o.2.toNat ≤ N)).smul c
      exact (h2.add h1).congr fun r θ => by simp [combination]

/-! ### Stone–Weierstrass on the disk -/

theorem unitDisk_compact : IsCompact unitDisk := by
  apply Metric.isCompact_of_isClosed_isBounded
  · exact isClosed_le (by fun_prop : Continuous fun p : ℝ × ℝ => p.1 ^ 2 + p.2 ^ 2) continuous_const
  · refine (Metric.isBounded_closedBall (x := (0 : ℝ × ℝ)) (r := 1)).subset fun p hp => ?_
    have h : p.1 ^ 2 + p.2 ^ 2 ≤ 1 := hp
    have h1 := abs_le_one_iff_mul_self_le_one.2 (by nlinarith [sq_nonneg p.2] : p.1 * p.1 ≤ 1)
    have h2 := abs_le_one_iff_mul_self_le_one.2 (by nlinarith [sq_nonneg p.1] : p.2 * p.2 ≤ 1)
    rw [Metric.mem_closedBall, dist_zero_right, Prod.norm_def]
    exact max_le h1 h2

theorem polar_in_disk (r θ : ℝ) (h0 : 0 ≤ r) (h1 : r ≤ 1) : (r * Real.cos θ, r * Real.sin θ) ∈ unitDisk := by
  show (r * Real.cos θ) ^ 2 + (r * Real.sin θ) ^ 2 ≤ 1
  rw [show (r * Real.cos θ) ^ 2 + (r * Real.sin θ) ^ 2 = r ^ 2 * (Real.sin θ ^ 2 + Real.cos θ ^ 2) by ring, Real.sin_sq_add_cos_sq]
  nlinarith

/-- The coordinates on the disk. -/
noncomputable def diskCoord (i : Fin 2) : C(unitDisk, ℝ) := if i = 0 then ⟨fun p => p.1.1, by fun_prop⟩ else ⟨fun p => p.1.2, by fun_prop⟩

theorem approximate_polynomial (F : ℝ × ℝ → ℝ) (hF : ContinuousOn F unitDisk) (ε : ℝ) (hε : 0 < ε) :
    ∃ P : MvPolynomial (Fin 2) ℝ, ∀ p ∈ unitDisk, |MvPolynomial.eval ![p.1, p.2] P - F p| < ε := by
  have : CompactSpace unitDisk := isCompact_iff_compactSpace.1 unitDisk_compact
  let A : Subalgebra ℝ C(unitDisk, ℝ) := (MvPolynomial.aeval diskCoord : MvPolynomial (Fin 2) ℝ →ₐ[ℝ] C(unitDisk, ℝ)).range
  have hsep : A.SeparatesPoints := by
    intro p q hpq
    by_cases h : p.1.1 = q.1.1
    · have h2 : p.1.2 ≠ q.1.2 := fun h2 => hpq (Subtype.ext (Prod.ext h h2))
      refine ⟨diskCoord 1, ⟨diskCoord 1, ⟨MvPolynomial.X 1, by simp⟩, rfl⟩, ?_⟩
      simpa [diskCoord] using h2
    · refine ⟨diskCoord 0, ⟨diskCoord 0, ⟨MvPolynomial.X 0, by simp⟩, rfl⟩, ?_⟩
      simpa [diskCoord] using h
  obtain ⟨⟨g, P, hP⟩, hg⟩ := ContinuousMap.exists_mem_subalgebra_near_continuous_of_separatesPoints A hsep (unitDisk.restrict F) hF.restrict ε hε
  refine ⟨P, fun p hp => ?_⟩
  have := hg ⟨p, hp⟩
  rw [Real.norm_eq_abs] at this
  have hev : ∀ P : MvPolynomial (Fin 2) ℝ, MvPolynomial.eval ![p.1, p.2] P = (MvPolynomial.aeval diskCoord P) ⟨p, hp⟩ := by
    intro P
    induction P using MvPolynomial.induction_on with
    | C a => simp [algebraMap_apply]
    | add P Q hP hQ => simp [hP, hQ]
    | mul_X P i hP =>
      simp only [map_mul, MvPolynomial.eval_X, MvPolynomial.aeval_X, ContinuousMap.mul_apply, hP]
      congr 1
      fin_cases i <;> simp [diskCoord]
  have e : g ⟨p, hp⟩ = (MvPolynomial.aeval diskCoord P) ⟨p, hp⟩ := by rw [← hP]; rfl
  rw [hev P, ← e]
  exact this

/-- Every continuous surface is approximated by combinations. -/
theorem approximate_combination (F : ℝ × ℝ → ℝ) (hF : ContinuousOn F unitDisk) (ε : ℝ) (hε : 0 < ε) :
    ∃ N : ℕ, ∀ os : List (Int × Int), os.Nodup → (∀ m n, ValidOrders m n → n ≤ N → (m, n) ∈ os) →
      ∃ cs : List ℝ, cs.length = os.length ∧ ∀ r θ, 0 ≤ r → r ≤ 1 → |combination cs os r θ - F (r * Real.cos θ, r * Real.sin θ)| < ε := by
  obtain ⟨P, hP⟩ := approximate_polynomial F hF ε hε
  refine ⟨P.totalDegree, fun os hd hall => ?_⟩
  obtain ⟨cs, h1, h2⟩ := span_combination _ os hd hall _ (polarEval_mem P _ le_rfl)
  refine ⟨cs, h1, fun r θ hr0 hr1 => ?_⟩
  have h3 : |MvPolynomial.eval ![r * Real.cos θ, r * Real.sin θ] P - F (r * Real.cos θ, r * Real.sin θ)| < ε :=
    hP (r * Real.cos θ, r * Real.sin θ) (polar_in_disk r θ hr0 hr1)
  have h4 : MvPolynomial.eval ![r * Real.cos θ, r * Real.sin θ] P = combination cs os r θ := h2 r θ
  rw [h4] at h3
  exact h3

/-! ### The projection is the best approximation -/

theorem polar_point (p : ℝ × ℝ) : (radius p * Real.cos (angle p), radius p * Real.sin (angle p)) = p := by
  have hr : radius p = ‖(⟨p.1, p.2⟩ : ℂ)‖ := by
    unfold radius
    rw [Complex.norm_def, Complex.normSq_apply]
    congr 1
    ring
  unfold angle
  rw [hr, Complex.norm_mul_cos_arg, Complex.norm_mul_sin_arg]

theorem tame_of_continuous (F : ℝ × ℝ → ℝ) (hF : Continuous F) : Tame fun r θ => F (r * Real.cos θ, r * Real.sin θ) := by
  refine ⟨?_, ?_⟩
  · simp only [polar_point]
    exact hF.measurable
  · obtain ⟨B, hB⟩ := unitDisk_compact.exists_bound_of_continuousOn hF.continuousOn
    exact ⟨B, fun r θ h0 h1 => hB _ (polar_in_disk r θ h0 h1)⟩

/-- The mean square of the difference between a surface and a combination. -/
theorem diskMean_diff_sq (F : ℝ → ℝ → ℝ) (hF : Tame F) (cs : List ℝ) (os : List (Int × Int)) (hl : cs.length = os.length) (hd : os.Nodup)
    (hv : ∀ p ∈ os, ValidOrders p.1 p.2) :
    diskMean (fun r θ => (F r θ - combination cs os r θ) ^ 2) = diskMean (fun r θ => F r θ ^ 2) -
      ((cs.zip os).map fun q => 2 * q.1 * (diskMean fun r t => F r t * zernike q.2.1 q.2.2 r t) - q.1 ^ 2).sum := by
  have ht := tame_combination cs os hv
  have e : (fun r θ => (F r θ - combination cs os r θ) ^ 2) =
      fun r θ => (F r θ * F r θ) + ((-2) * (F r θ * combination cs os r θ) + combination cs os r θ * combination cs os r θ) := by funext r θ; ring
  rw [e, diskMean_add (hF.mul hF) (((tame_const (-2)).mul (hF.mul ht)).add (ht.mul ht)), diskMean_add ((tame_const (-2)).mul (hF.mul ht)) (ht.mul ht),
    diskMean_smul, diskMean_mul_combination F hF cs os hv]
  have h2 : diskMean (fun r θ => combination cs os r θ * combination cs os r θ) = (cs.map fun c => c ^ 2).sum := by
    rw [← diskMean_sq cs os hl hd hv]
    congr 1; funext r θ; ring
  have h1 : (fun r θ => F r θ * F r θ) = fun r θ => F r θ ^ 2 := by funext r θ; ring
  rw [h2, h1]
  have h3 : (cs.map fun c => c ^ 2).sum = ((cs.zip os).map fun q => q.1 ^ 2).sum := by
    have : cs = (cs.zip os).map Prod.fst := by rw [List.map_fst_zip (by omega)]
    conv_lhs => rw [this]
    rw [List.map_map]; rfl
  rw [h3]
  generalize cs.zip os = l
  induction l with
  | nil => simp
  | cons q l ih =>
    simp only [List.map_cons, List.sum_cons]
    linarith

/-- The projections have the smallest mean square error. -/
theorem projection_best (F : ℝ → ℝ → ℝ) (hF : Tame F) (os : List (Int × Int)) (hd : os.Nodup) (hv : ∀ p ∈ os, ValidOrders p.1 p.2)
    (cs : List ℝ) (hl : cs.length = os.length) (hc : ∀ i (hi : i < os.length), cs[i]'(by omega) = diskMean fun r t => F r t * zernike os[i].1 os[i].2 r t)
    (ds : List ℝ) (hl' : ds.length = os.length) :
    diskMean (fun r θ => (F r θ - combination cs os r θ) ^ 2) ≤ diskMean (fun r θ => (F r θ - combination ds os r θ) ^ 2) := by
  rw [diskMean_diff_sq F hF cs os hl hd hv, diskMean_diff_sq F hF ds os hl' hd hv]
  apply sub_le_sub_left
  clear hd hv
  induction os generalizing cs ds with
  | nil => simp
  | cons o os ih =>
    match cs, ds, hl, hl' with
    | c :: cs, d :: ds, hl, hl' =>
      have h1 := ih cs (by simpa using hl) (fun i hi => by have := hc (i + 1) (by simpa using hi); simpa using this) ds (by simpa using hl')
      have h2 := hc 0 (by simp)
      simp only [List.getElem_cons_zero] at h2
      simp only [List.zip_cons_cons, List.map_cons, List.sum_cons]
      rw [← h2]
      nlinarith [sq_nonneg (c - d)]

end Verif.Proofs
