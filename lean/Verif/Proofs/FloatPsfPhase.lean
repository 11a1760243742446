import Verif.Proofs.FloatPsfPoint
import Verif.Proofs.RadialBound
import Verif.Proofs.FloatDr
import Verif.Proofs.PsfInv

/-!
# Error analysis of the PSF: the aberration phase
-/

namespace Verif.Proofs
open Verif.Model Verif.Spec

/-! ### The Zernike polynomials are Lipschitz -/

theorem pow_lip {x y : ℝ} (hx0 : 0 ≤ x) (hx : x ≤ 1) (hy0 : 0 ≤ y) (hy : y ≤ 1) (k : ℕ) : |x ^ k - y ^ k| ≤ k * |x - y| := by
  induction k with
  | zero => simp
  | succ k ih =>
    have e : x ^ (k + 1) - y ^ (k + 1) = x ^ k * (x - y) + (x ^ k - y ^ k) * y := by ring
    rw [e]
    refine (abs_add_le _ _).trans ?_
    rw [abs_mul, abs_mul, abs_of_nonneg (pow_nonneg hx0 k), abs_of_nonneg hy0]
    have h1 : x ^ k * |x - y| ≤ 1 * |x - y| := mul_le_mul_of_nonneg_right (pow_le_one₀ hx0 hx) (abs_nonneg _)
    have h2 : |x ^ k - y ^ k| * y ≤ |x ^ k - y ^ k| * 1 := mul_le_mul_of_nonneg_left hy (abs_nonneg _)
    push_cast
    linarith

open Polynomial in
theorem RR_sum (m n : Int) (hv : ValidOrders m n) (r : ℝ) : RR m n r = ∑ i ∈ Finset.range (n.toNat + 1), ((RP m n).coeff i : ℝ) * r ^ i := by
  rw [← ev_RP]
  unfold ev
  rw [coe_eval₂RingHom, eval₂_eq_sum_range' _ (n := n.toNat + 1)]
  · rfl
  · refine Nat.lt_succ_of_le ?_
    rw [natDegree_le_iff_coeff_eq_zero]
    exact fun i hi => RP_coeff_zero m n hv i hi

theorem RR_lip (m n : Int) (hv : ValidOrders m n) {x y : ℝ} (hx0 : 0 ≤ x) (hx : x ≤ 1) (hy0 : 0 ≤ y) (hy : y ≤ 1) :
    |RR m n x - RR m n y| ≤ n * growth n.toNat * |x - y| := by
  have hn := (valid_iff m n).1 hv
  rw [RR_sum m n hv, RR_sum m n hv, ← Finset.sum_sub_distrib]
  refine (Finset.abs_sum_le_sum_abs _ _).trans ?_
  have h1 : ∀ i ∈ Finset.range (n.toNat + 1), |((RP m n).coeff i : ℝ) * x ^ i - (RP m n).coeff i * y ^ i| ≤ |((RP m n).coeff i : ℝ)| * (n * |x - y|) := by
    intro i hi
    rw [← mul_sub, abs_mul]
    refine mul_le_mul_of_nonneg_left ((pow_lip hx0 hx hy0 hy i).trans ?_) (abs_nonneg _)
    refine mul_le_mul_of_nonneg_right ?_ (abs_nonneg _)
    have : (i : Int) ≤ n := by have := Finset.mem_range.1 hi; omega
    exact_mod_cast this
  refine (Finset.sum_le_sum h1).trans ?_
  rw [← Finset.sum_mul]
  have h2 : ∑ i ∈ Finset.range (n.toNat + 1), |((RP m n).coeff i : ℝ)| ≤ growth n.toNat := by
    have := l1_RP (n.toNat + 1) m n hv
    unfold l1 at this
    exact_mod_cast this
  have h3 : 0 ≤ (n : ℝ) * |x - y| := mul_nonneg (by exact_mod_cast hn.1) (abs_nonneg _)
  calc _ ≤ growth n.toNat * ((n : ℝ) * |x - y|) := mul_le_mul_of_nonneg_right h2 h3
    _ = _ := by ring

theorem angular_lip (m : Int) (x y : ℝ) : |angular m x - angular m y| ≤ |(m : ℝ)| * |x - y| := by
  unfold angular
  split_ifs
  · refine (cos_lip _ _).trans ?_
    rw [← mul_sub, abs_mul]
  · refine (sin_lip _ _).trans ?_
    rw [← mul_sub, abs_mul, Int.cast_abs, abs_abs]

theorem angular_le (m : Int) (x : ℝ) : |angular m x| ≤ 1 := by
  unfold angular
  split_ifs
  · exact Real.abs_cos_le_one _
  · exact Real.abs_sin_le_one _

theorem zernike_lip (m n : Int) (hv : ValidOrders m n) {x y s t : ℝ} (hx0 : 0 ≤ x) (hx : x ≤ 1) (hy0 : 0 ≤ y) (hy : y ≤ 1) :
    |zernike m n x s - zernike m n y t| ≤ Spec.norm m n * (n * growth n.toNat * |x - y| + |(m : ℝ)| * |s - t|) := by
  have hn := (valid_iff m n).1 hv
  have h1 := norm_one m n hn.1
  unfold zernike
  rw [spec_radial_eq m n x hv, spec_radial_eq m n y hv]
  have e : Spec.norm m n * RR m n x * angular m s - Spec.norm m n * RR m n y * angular m t =
      Spec.norm m n * ((RR m n x - RR m n y) * angular m s + RR m n y * (angular m s - angular m t)) := by ring
  rw [e, abs_mul, abs_of_nonneg (by linarith)]
  refine mul_le_mul_of_nonneg_left ((abs_add_le _ _).trans ?_) (by linarith)
  rw [abs_mul, abs_mul]
  have a := RR_lip m n hv hx0 hx hy0 hy
  have b := angular_lip m s t
  have c := angular_le m s
  have d := RR_abs_le m n y hy0 hy
  have e1 : |RR m n x - RR m n y| * |angular m s| ≤ |RR m n x - RR m n y| * 1 := mul_le_mul_of_nonneg_left c (abs_nonneg _)
  have e2 : |RR m n y| * |angular m s - angular m t| ≤ 1 * |angular m s - angular m t| := mul_le_mul_of_nonneg_right d (abs_nonneg _)
  linarith

theorem zernike_le (m n : Int) (hv : ValidOrders m n) {x : ℝ} (s : ℝ) (hx0 : 0 ≤ x) (hx : x ≤ 1) : |zernike m n x s| ≤ Spec.norm m n := by
  have hn := (valid_iff m n).1 hv
  have h1 := norm_one m n hn.1
  unfold zernike
  rw [spec_radial_eq m n x hv, mul_assoc, abs_mul, abs_of_nonneg (by linarith), abs_mul]
  have c := angular_le m s
  have d := RR_abs_le m n x hx0 hx
  have : |RR m n x| * |angular m s| ≤ 1 * 1 := mul_le_mul d c (abs_nonneg _) zero_le_one
  nlinarith

theorem zernikeSize_ge (m n : Int) (hn : 0 ≤ n) : Spec.norm m n ≤ zernikeSize m n := by
  have h1 := norm_one m n hn
  have h2 := growth_one n.toNat
  have h3 : (1 : ℝ) ≤ max |(m : ℝ)| 1 := le_max_right _ _
  have h4 : (0 : ℝ) ≤ n := by exact_mod_cast hn
  unfold zernikeSize
  have : 1 ≤ (7 * max |(m : ℝ)| 1 + n) * growth n.toNat := by nlinarith
  rw [mul_assoc]
  exact le_mul_of_one_le_right (by linarith) this

section
variable {F : PsfArith} {u η : ℝ} {p : ℕ}

theorem polynomialFl_retP (hF : Accurate F.toFloatArith u p) (fuel : Nat) (m n : Int) (r t : ℝ) (h0 : 0 ≤ r) (h1 : r ≤ 1)
    (hv : ValidOrders m n) (hf : n.toNat + 1 < fuel) :
    RetP (polynomialFl F.toFloatArith fuel false m n ⟨r⟩ ⟨t⟩) fun y =>
      |y.val - zernike m n r t| ≤ ((1 + u) ^ (4 * n.toNat + 2 * p + 11) - 1) * (Spec.norm m n * (max |(m : ℝ)| 1 * max |t| 1) * growth n.toNat) := by
  intro s hs
  refine ⟨?_, ?_⟩
  · obtain ⟨y, hy, e⟩ := polynomialFl_ok hF fuel false m n (⟨r⟩ : Fl F.toFloatArith) ⟨t⟩ h0 h1 s hs hv hf (by simp)
    exact ⟨y, hy, e.2⟩
  · have key : Keeps (polynomialFl F.toFloatArith fuel false m n ⟨r⟩ ⟨t⟩) := by
      unfold polynomialFl
      rw [if_neg (by simp)]
      refine Keeps.bind ?_ fun _ => Keeps.pure _
      unfold radialFl radialValue
      simp only [Bool.not_false, if_true]
      split_ifs
      · exact Keeps.lift _
      · exact fun s hs => ((radialPolynomialCoeffs_fl hF fuel m n (⟨r⟩ : Fl F.toFloatArith) h0 h1).app s hs).1
    exact key s hs

/-- An amplitude times the value of a polynomial at a rounded node and a rounded angle. -/
theorem phase_step (hF : PsfAccurate F u η p) {m n : Int} (hv : ValidOrders m n) {α' α : ℝ} {ka : ℕ} (hα : Er ((1 + u) ^ ka) (max |α| η) α' α)
    {q' q φ' φ y : ℝ} (h0' : 0 ≤ q') (h1' : q' ≤ 1) (h0 : 0 ≤ q) (h1 : q ≤ 1) (hq : Er ((1 + u) ^ 11) 1 q' q) (hφ : Er ((1 + u) ^ 4) (2 * Real.pi) φ' φ)
    (hy : |y - zernike m n q' φ'| ≤ ((1 + u) ^ (4 * n.toNat + 2 * p + 11) - 1) * (Spec.norm m n * (max |(m : ℝ)| 1 * max |φ'| 1) * growth n.toNat)) :
    Er ((1 + u) ^ (4 * n.toNat + 2 * p + 16 + ka)) (max |α| η * zernikeSize m n) (F.fl (α' * y)) (α * zernike m n q φ) := by
  have hn := (valid_iff m n).1 hv
  have hN := norm_one m n hn.1
  have hg := growth_one n.toNat
  have hm : (1 : ℝ) ≤ max |(m : ℝ)| 1 := le_max_right _ _
  have hn0 : (0 : ℝ) ≤ n := by exact_mod_cast hn.1
  have hpi := Real.pi_lt_d2
  have hpi0 := Real.pi_gt_three
  have hz : Er ((1 + u) ^ (4 * n.toNat + 2 * p + 15)) (zernikeSize m n) y (zernike m n q φ) := by
    refine ⟨(zernike_le m n hv φ h0 h1).trans (zernikeSize_ge m n hn.1), ?_⟩
    have l := zernike_lip m n hv (s := φ') (t := φ) h0' h1' h0 h1
    have tr := abs_sub_le y (zernike m n q' φ') (zernike m n q φ)
    have ht : max |φ'| 1 ≤ (1 + u) ^ 4 * (2 * Real.pi) := by
      refine max_le hφ.abs ?_
      have := u_one hF 4
      nlinarith
    have hm2 : |(m : ℝ)| ≤ max |(m : ℝ)| 1 := le_max_left _ _
    have hq2 := hq.2
    have hφ2 := hφ.2
    have b1 := u_one hF (4 * n.toNat + 2 * p + 11)
    have b2 := u_one hF 4
    have b3 := u_mono hF (show 11 ≤ 4 * n.toNat + 2 * p + 15 by omega)
    have b4 := u_one hF 11
    rw [show 4 * n.toNat + 2 * p + 15 = 4 * n.toNat + 2 * p + 11 + 4 by ring, pow_add] at b3 ⊢
    unfold zernikeSize
    generalize (1 + u) ^ (4 * n.toNat + 2 * p + 11) = B at *
    generalize (1 + u) ^ 4 = A at *
    generalize (1 + u) ^ 11 = C at *
    generalize max |(m : ℝ)| 1 = mm at *
    generalize (growth n.toNat : ℝ) = g at *
    generalize Spec.norm m n = N at *
    have c1 : (B - 1) * (N * (mm * max |φ'| 1) * g) ≤ (B - 1) * (N * (mm * (A * (2 * Real.pi))) * g) := by
      gcongr
    have c2 : N * (n * g * |q' - q| + |(m : ℝ)| * |φ' - φ|) ≤ N * (n * g * ((C - 1) * 1) + mm * ((A - 1) * (2 * Real.pi)) * g) := by
      have d1 : (n : ℝ) * g * |q' - q| ≤ n * g * ((C - 1) * 1) := mul_le_mul_of_nonneg_left hq2 (mul_nonneg hn0 (by linarith))
      have d2 : |(m : ℝ)| * |φ' - φ| ≤ mm * ((A - 1) * (2 * Real.pi)) := mul_le_mul hm2 hφ2 (abs_nonneg _) (by linarith)
      have d3 : 0 ≤ mm * ((A - 1) * (2 * Real.pi)) := mul_nonneg (by linarith) (mul_nonneg (by linarith) (by linarith))
      have d4 := le_mul_of_one_le_right d3 hg
      exact mul_le_mul_of_nonneg_left (by linarith) (by linarith)
    have c3 : (B - 1) * (N * (mm * (A * (2 * Real.pi))) * g) + N * (n * g * ((C - 1) * 1) + mm * ((A - 1) * (2 * Real.pi)) * g)
        = N * g * ((B * A - 1) * (2 * Real.pi * mm) + (C - 1) * n) := by ring
    have c4 : (B * A - 1) * (2 * Real.pi * mm) ≤ (B * A - 1) * (7 * mm) := by
      refine mul_le_mul_of_nonneg_left ?_ (by nlinarith)
      refine mul_le_mul_of_nonneg_right ?_ (by linarith)
      norm_num at hpi ⊢; linarith
    have c5 : (C - 1) * (n : ℝ) ≤ (B * A - 1) * n := mul_le_mul_of_nonneg_right (by linarith) hn0
    have c6 : N * g * ((B * A - 1) * (2 * Real.pi * mm) + (C - 1) * n) ≤ N * g * ((B * A - 1) * (7 * mm) + (B * A - 1) * n) :=
      mul_le_mul_of_nonneg_left (by linarith) (mul_nonneg (by linarith) (by linarith))
    calc _ ≤ N * g * ((B * A - 1) * (7 * mm) + (B * A - 1) * n) := by linarith
      _ = _ := by ring
  have hs1 : 1 ≤ zernikeSize m n := hN.trans (zernikeSize_ge m n hn.1)
  have hmax : η ≤ max |α| η := le_max_right _ _
  have := (hα.mulK hF hz).roundK hF (hmax.trans (le_mul_of_one_le_right (hF.eta_pos.le.trans hmax) hs1))
  exact this.monoK hF (by omega) le_rfl

/-- `alpha*polynomial_value(p, phi)` in the arithmetic, at a rounded node and a rounded angle. -/
theorem singlePhase_er (hF : PsfAccurate F u η p) (fuel : Nat) (o : PolObj) (hv : ValidOrders o.m o.n) (hf : o.n.toNat + 1 < fuel) {α' α : ℝ} {ka : ℕ}
    (hα : Er ((1 + u) ^ ka) (max |α| η) α' α) :
    FltPhaseOk u (4 * o.n.toNat + 2 * p + 16 + ka) (max |α| η * zernikeSize o.m o.n) (fltSinglePhase F fuel o α') fun q φ => α * zernike o.m o.n q φ :=
  fun q' _ φ' _ h0' h1' h0 h1 hq hφ =>
    RetP.bind (polynomialFl_retP hF.basic fuel o.m o.n q' φ' h0' h1' hv hf) fun _ hy => retP_pure _ (phase_step hF hv hα h0' h1' h0 h1 hq hφ hy)

theorem polsRest_er (hF : PsfAccurate F u η p) (fuel : Nat) (N : ℕ) (l : List (ℝ × PolObj))
    (hl : ∀ x ∈ l, ValidOrders x.2.m x.2.n ∧ x.2.n.toNat + 1 < fuel ∧ x.2.n.toNat ≤ N) {q' q φ' φ : ℝ} (h0' : 0 ≤ q') (h1' : q' ≤ 1) (h0 : 0 ≤ q) (h1 : q ≤ 1)
    (hq : Er ((1 + u) ^ 11) 1 q' q) (hφ : Er ((1 + u) ^ 4) (2 * Real.pi) φ' φ) (k : ℕ) (hk : 4 * N + 2 * p + 16 ≤ k) (S M v : ℝ)
    (h : Er ((1 + u) ^ k) M S v) :
    RetP (fltPolsRest F fuel q' φ' l S) fun x =>
      Er ((1 + u) ^ (k + l.length)) (M + (l.map fun x => max |x.1| η * zernikeSize x.2.m x.2.n).sum) x (v + (l.map fun x => x.1 * zernike x.2.m x.2.n q φ).sum) := by
  induction l generalizing k S M v with
  | nil =>
    refine retP_pure _ ?_
    simpa using h
  | cons x l ih =>
    obtain ⟨a, o⟩ := x
    obtain ⟨hv, hf, hN⟩ := hl (a, o) (by simp)
    have hα : Er ((1 + u) ^ 0) (max |a| η) a a := Er.exactK u a (le_max_left _ _)
    refine RetP.bind (singlePhase_er hF fuel o hv hf hα q' q φ' φ h0' h1' h0 h1 hq hφ) fun y hy => ?_
    have hs1 : 1 ≤ zernikeSize o.m o.n := (norm_one o.m o.n ((valid_iff o.m o.n).1 hv).1).trans (zernikeSize_ge o.m o.n ((valid_iff o.m o.n).1 hv).1)
    have hmax : η ≤ max |a| η := le_max_right _ _
    have hM := h.nonneg
    have hy' := hy.monoK (l := k) hF (by simp only at hN; omega) le_rfl
    have e := (h.add hy' (u_one hF k) le_rfl).roundK hF (by
      have := hmax.trans (le_mul_of_one_le_right (hF.eta_pos.le.trans hmax) hs1)
      linarith)
    refine RetP.mono (ih (fun x hx => hl x (by simp [hx])) (k + 1) (by omega) _ _ _ e) fun w hw => ?_
    simp only [List.length_cons, List.map_cons, List.sum_cons]
    rw [show k + (l.length + 1) = k + 1 + l.length by ring, ← add_assoc, ← add_assoc]
    exact hw

/-- The phase of several polynomials. -/
theorem polsPhase_er (hF : PsfAccurate F u η p) (fuel : Nat) (N : ℕ) (l : List (ℝ × PolObj)) (hne : l ≠ [])
    (hl : ∀ x ∈ l, ValidOrders x.2.m x.2.n ∧ x.2.n.toNat + 1 < fuel ∧ x.2.n.toNat ≤ N) :
    FltPhaseOk u (4 * N + 2 * p + 15 + l.length) ((l.map fun x => max |x.1| η * zernikeSize x.2.m x.2.n).sum) (fltPolsPhase F fuel l)
      fun q φ => (l.map fun x => x.1 * zernike x.2.m x.2.n q φ).sum := by
  obtain ⟨⟨a, o⟩, l, rfl⟩ := List.exists_cons_of_ne_nil hne
  intro q' q φ' φ h0' h1' h0 h1 hq hφ
  obtain ⟨hv, hf, hN⟩ := hl (a, o) (by simp)
  have hα : Er ((1 + u) ^ 0) (max |a| η) a a := Er.exactK u a (le_max_left _ _)
  refine RetP.bind (singlePhase_er hF fuel o hv hf hα q' q φ' φ h0' h1' h0 h1 hq hφ) fun y hy => ?_
  have hy' := hy.monoK (l := 4 * N + 2 * p + 16) hF (by simp only at hN; omega) le_rfl
  refine RetP.mono (polsRest_er hF fuel N l (fun x hx => hl x (by simp [hx])) h0' h1' h0 h1 hq hφ _ le_rfl _ _ _ hy') fun w hw => ?_
  simp only [List.length_cons, List.map_cons, List.sum_cons]
  rwa [show 4 * N + 2 * p + 15 + (l.length + 1) = 4 * N + 2 * p + 16 + l.length by ring]

end

end Verif.Proofs
