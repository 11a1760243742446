import Verif.Proofs.FloatExact

/-!
# Error analysis: derivatives
-/

namespace Verif.Proofs
open Verif.Model Verif.Spec

section
variable {F : FloatArith} {u : ℝ} {p : ℕ}

/-- Exponent for the derivatives of the order `n`. -/
abbrev expoD (p : ℕ) (n : Int) : ℕ := 5 * n.toNat + p + 8

/-- Majorant of the derivatives of the order `n`. -/
noncomputable abbrev majD (n : Int) : ℝ := n.toNat * growth n.toNat

set_option maxHeartbeats 4000000 in
theorem tableDr_fl (hF : Accurate F u p) (m n : Int) (r : Fl F) (h0 : 0 ≤ r.val) (h1 : r.val ≤ 1) (y : Fl F) (w : ℝ)
    (h : radialDerivTable m n r = some y) (h' : radialDerivTable m n r.val = some w) : Ap u (expoD p n) (majD n) y w := by
  unfold radialDerivTable at h h'
  iterate 31
    refine fl_step h h' (fun hp => ?_) (fun h h' => ?_)
    · clear h h'
      apply Ap.mono hF.unit
      · repeat any_goals first
          | with_reducible exact Ap.pow hF h0 h1 _
          | with_reducible exact Ap.self h0 h1
          | with_reducible exact Ap.one
          | with_reducible exact Ap.zero
          | with_reducible exact Ap.ofNat hF _
          | with_reducible apply Ap.mul hF
          | with_reducible apply Ap.sub hF
          | with_reducible apply Ap.add hF
        all_goals norm_num
      · casesm* _ ∨ _, _ ∧ _ <;> subst_vars <;> simp only [expoD, Int.reduceToNat] <;> omega
      · casesm* _ ∨ _, _ ∧ _ <;> subst_vars <;> simp only [majD, Int.reduceToNat, growth] <;> norm_num
    clear * - h h' h0 h1 hF
  exact absurd h (by simp)

theorem tableDr_none_fl (m n : Int) (r : Fl F) (hv : ValidOrders m n) (hn : n ≤ 10) (h : radialDerivTable m n r = none) :
    (n > 7 ∧ pyAbs m = n) ∨ (n > 8 ∧ pyAbs m = n - 2) := by
  rw [valid_iff] at hv
  obtain ⟨h0, h1, h2, h3⟩ := hv
  interval_cases n <;> interval_cases m <;> first | omega | (simp [radialDerivTable] at h; done) | (simp [pyAbs]; done)

theorem tableDr_some_fl (m n : Int) (r : Fl F) (y : Fl F) (h : radialDerivTable m n r = some y) : ∃ w, radialDerivTable m n r.val = some w := by
  unfold radialDerivTable at h ⊢
  iterate 31
    refine some_step h (fun h => ?_)
  exact absurd h (by simp)

theorem toNat_cast (n : Int) (h : 0 ≤ n) : ((n.toNat : ℕ) : ℝ) = n := by
  have : ((n.toNat : ℕ) : ℤ) = n := by omega
  exact_mod_cast congrArg (fun z : ℤ => (z : ℝ)) this

theorem majD_step (n : Int) (hn : 2 ≤ n) :
    2 * (growth (n - 1).toNat : ℝ) + 2 * majD (n - 1) + majD (n - 2) ≤ majD n := by
  unfold majD
  rw [growth_step n hn, toNat_cast n (by omega), toNat_cast (n - 1) (by omega), toNat_cast (n - 2) (by omega)]
  have g2 := growth_one (n - 2).toNat
  push_cast
  nlinarith

theorem majD_one (n : Int) (hn : 1 ≤ n) : 1 ≤ majD n := by
  have g := growth_one n.toNat
  have : (1 : ℝ) ≤ n.toNat := by exact_mod_cast (by omega : 1 ≤ n.toNat)
  unfold majD
  nlinarith

theorem majD_nonneg (n : Int) : 0 ≤ majD n := by unfold majD; positivity

theorem stepD_fl (hF : Accurate F u p) (m n : Int) (hv : ValidOrders m n) (hne : pyAbs m ≠ n) (r : Fl F) (h0 : 0 ≤ r.val) (h1 : r.val ≤ 1)
    (x y dx dy dz : Fl F)
    (hx : Ap u (expo p (n - 1)) (growth (n - 1).toNat) x (RR (m - 1) (n - 1) r.val))
    (hy : Ap u (expo p (n - 1)) (growth (n - 1).toNat) y (RR (m + 1) (n - 1) r.val))
    (hdx : Ap u (expoD p (n - 1)) (majD (n - 1)) dx (DR (m - 1) (n - 1) r.val))
    (hdy : Ap u (expoD p (n - 1)) (majD (n - 1)) dy (DR (m + 1) (n - 1) r.val))
    (hdz : Ap u (expoD p (n - 2)) (majD (n - 2)) dz (DR m (n - 2) r.val)) :
    Ap u (expoD p n) (majD n) ((x + y) + r * (dx + dy) - dz) (DR m n r.val) := by
  have hn : 2 ≤ n := by
    rw [valid_iff] at hv; unfold pyAbs at hne; split_ifs at hne <;> omega
  have g1 := growth_one (n - 1).toNat
  have g3 := majD_one (n - 1) (by omega)
  have g4 := majD_nonneg (n - 2)
  have g5 := majD_step n hn
  rw [DR_rec m n hv hne]
  refine ((((hx.add hF hy (by linarith)).add hF ((Ap.self h0 h1).mul hF (hdx.add hF hdy (by linarith)) (by linarith)) (by linarith)).sub hF hdz
    (by linarith)).mono hF.unit ?_ ?_)
  · simp only [expo, expoD]; omega
  · linarith

theorem step0D_fl (hF : Accurate F u p) (n : Int) (hv : ValidOrders 0 n) (hn0 : 0 < n) (r : Fl F) (h0 : 0 ≤ r.val) (h1 : r.val ≤ 1) (x dx dz : Fl F)
    (hx : Ap u (expo p (n - 1)) (growth (n - 1).toNat) x (RR 1 (n - 1) r.val))
    (hdx : Ap u (expoD p (n - 1)) (majD (n - 1)) dx (DR 1 (n - 1) r.val))
    (hdz : Ap u (expoD p (n - 2)) (majD (n - 2)) dz (DR 0 (n - 2) r.val)) :
    Ap u (expoD p n) (majD n) (2 * (x + r * dx) - dz) (DR 0 n r.val) := by
  have hn : 2 ≤ n := by rw [valid_iff] at hv; omega
  have g1 := growth_one (n - 1).toNat
  have g3 := majD_one (n - 1) (by omega)
  have g4 := majD_nonneg (n - 2)
  have g5 := majD_step n hn
  rw [DR_zero_rec n hv hn0]
  generalize (growth (n - 1).toNat : ℝ) = A at *
  generalize majD (n - 1) = B at *
  generalize majD (n - 2) = C at *
  have e : (1 : ℝ) ≤ (OfNat.ofNat 2 : ℝ) * (A + 1 * B) := by norm_num; linarith
  refine (((Ap.ofNat hF 2).mul hF (hx.add hF ((Ap.self h0 h1).mul hF hdx (by linarith)) (by linarith)) e).sub hF hdz (by linarith)).mono hF.unit ?_ ?_
  · simp only [expo, expoD]; omega
  · have : (OfNat.ofNat 2 : ℝ) * (A + 1 * B) = 2 * A + 2 * B := by norm_num; ring
    rw [this]; exact g5

theorem diagD_fl (hF : Accurate F u p) (m n : Int) (hv : ValidOrders m n) (he : pyAbs m = n) (hn : 0 < n) (r : Fl F) (h0 : 0 ≤ r.val) (h1 : r.val ≤ 1) :
    Ap u (expoD p n) (majD n) ((n : Fl F) * r ^ (n - 1).toNat) (DR m n r.val) := by
  rw [DR_diag m n hv he hn]
  have a1 : |(n : ℝ)| = n := abs_of_nonneg (by exact_mod_cast hn.le)
  have b1 : (1 : ℝ) ≤ n := by exact_mod_cast (by omega : (1 : Int) ≤ n)
  refine ((Ap.int hF n (by omega)).mul hF (Ap.pow hF h0 h1 _) (by rw [a1]; linarith)).mono hF.unit (by simp only [expoD]; omega) ?_
  rw [a1]
  unfold majD
  rw [toNat_cast n hn.le]
  have := growth_one n.toNat
  nlinarith

theorem subdiagD_fl (hF : Accurate F u p) (m n : Int) (hv : ValidOrders m n) (he : pyAbs m = n - 2) (h3 : 3 ≤ n) (r : Fl F) (h0 : 0 ≤ r.val)
    (h1 : r.val ≤ 1) : Ap u (expoD p n) (majD n) ((n : Fl F) * (n : Fl F) * r ^ (n - 1).toNat -
      ((n - 1 : Int) : Fl F) * ((n - 2 : Int) : Fl F) * r ^ (n - 3).toNat) (DR m n r.val) := by
  rw [DR_subdiag m n hv he]
  have a1 : |(n : ℝ)| = n := abs_of_nonneg (by exact_mod_cast (by omega : (0 : Int) ≤ n))
  have a2 : |((n - 1 : Int) : ℝ)| = ((n - 1 : Int) : ℝ) := abs_of_nonneg (by exact_mod_cast (by omega : (0 : Int) ≤ n - 1))
  have a3 : |((n - 2 : Int) : ℝ)| = ((n - 2 : Int) : ℝ) := abs_of_nonneg (by exact_mod_cast (by omega : (0 : Int) ≤ n - 2))
  have b1 : (3 : ℝ) ≤ n := by exact_mod_cast h3
  have b2 : ((n - 1 : Int) : ℝ) = (n : ℝ) - 1 := by push_cast; ring
  have b3 : ((n - 2 : Int) : ℝ) = (n : ℝ) - 2 := by push_cast; ring
  have i1 := Ap.int hF n (by omega)
  have i2 := Ap.int hF (n - 1) (by omega)
  have i3 := Ap.int hF (n - 2) (by omega)
  rw [a1] at i1
  rw [a2] at i2
  rw [a3] at i3
  rw [b2] at i2 ⊢
  rw [b3] at i3 ⊢
  have c1 : (1 : ℝ) ≤ n * n := by nlinarith
  have c2 : (1 : ℝ) ≤ ((n : ℝ) - 1) * ((n : ℝ) - 2) := by nlinarith
  refine (((i1.mul hF i1 c1).mul hF (Ap.pow hF h0 h1 _) (by linarith)).sub hF ((i2.mul hF i3 c2).mul hF (Ap.pow hF h0 h1 _) (by linarith))
    (by linarith)).mono hF.unit ?_ ?_
  · simp only [expoD]; omega
  · unfold majD
    rw [toNat_cast n (by omega)]
    have := growth_linear n.toNat (by omega)
    have e : n + (n - 1) ≤ ((growth n.toNat : ℕ) : Int) := by omega
    have e' : (n : ℝ) + (n - 1) ≤ (growth n.toNat : ℝ) := by exact_mod_cast e
    nlinarith

theorem radialDerivative_fl (hF : Accurate F u p) (fuel : Nat) (m n : Int) (r : Fl F) (h0 : 0 ≤ r.val) (h1 : r.val ≤ 1) (hv : ValidOrders m n)
    (hf : n.toNat < fuel) : ∃ y, radialDerivative fuel m n r = .ok y ∧ Ap u (expoD p n) (majD n) y (DR m n r.val) := by
  induction fuel generalizing m n with
  | zero => omega
  | succ fuel ih =>
    unfold radialDerivative
    cases ht : radialDerivTable m n r with
    | some y =>
      obtain ⟨w, hw⟩ := tableDr_some_fl m n r y ht
      refine ⟨y, rfl, ?_⟩
      rw [← radialDerivTable_correct m n r.val w hw]
      exact tableDr_fl hF m n r h0 h1 y w ht hw
    | none =>
      simp only
      have hn := (valid_iff m n).1 hv
      by_cases c1 : n > 7 ∧ pyAbs m = n
      · rw [if_pos c1]
        exact ⟨_, rfl, diagD_fl hF m n hv c1.2 (by omega) r h0 h1⟩
      · rw [if_neg c1]
        by_cases c2 : n > 8 ∧ pyAbs m = n - 2
        · rw [if_pos c2]
          exact ⟨_, rfl, subdiagD_fl hF m n hv c2.2 (by omega) r h0 h1⟩
        · rw [if_neg c2]
          have h10 : n > 10 := by
            by_contra hc
            rcases tableDr_none_fl m n r hv (by omega) ht with h | h
            · exact c1 h
            · exact c2 h
          have c1' : pyAbs m ≠ n := fun e => c1 ⟨by omega, e⟩
          obtain ⟨v1, v2, v3⟩ := valid_down hv c1'
          by_cases c3 : m = 0
          · subst c3
            rw [if_pos ⟨h10, rfl⟩]
            obtain ⟨x, ex, hx⟩ := radialPolynomial_fl hF fuel 1 (n - 1) r h0 h1 (by simpa using v2) (by omega)
            obtain ⟨dx, edx, hdx⟩ := ih 1 (n - 1) (by simpa using v2) (by omega)
            obtain ⟨dz, edz, hdz⟩ := ih 0 (n - 2) v3 (by omega)
            rw [ex, edx, edz]
            exact ⟨_, rfl, step0D_fl hF n hv (by omega) r h0 h1 x dx dz hx hdx hdz⟩
          · rw [if_neg (by tauto)]
            obtain ⟨x, ex, hx⟩ := radialPolynomial_fl hF fuel _ _ r h0 h1 (valid_pyAbs v1) (by omega)
            obtain ⟨y, ey, hy⟩ := radialPolynomial_fl hF fuel _ _ r h0 h1 v2 (by omega)
            obtain ⟨dx, edx, hdx⟩ := ih _ _ (valid_pyAbs v1) (by omega)
            obtain ⟨dy, edy, hdy⟩ := ih _ _ v2 (by omega)
            obtain ⟨dz, edz, hdz⟩ := ih _ _ v3 (by omega)
            rw [ex, ey, edx, edy, edz]
            rw [RR_abs] at hx
            rw [DR_abs] at hdx
            exact ⟨_, rfl, stepD_fl hF m n hv c1' r h0 h1 x y dx dy dz hx hy hdx hdy hdz⟩

open Polynomial in
theorem l1_derivative (N k : ℕ) (q : ℤ[X]) (hq : ∀ i, k < i → q.coeff i = 0) : l1 N (derivative q) ≤ k * l1 (N + 1) q := by
  unfold l1
  rw [Finset.sum_range_succ', mul_add, Finset.mul_sum]
  have h : ∀ i ∈ Finset.range N, |(derivative q).coeff i| ≤ k * |q.coeff (i + 1)| := by
    intro i _
    rw [coeff_derivative, abs_mul, mul_comm]
    rcases Nat.lt_or_ge k (i + 1) with c | c
    · rw [hq _ c]; simp
    · refine mul_le_mul_of_nonneg_right ?_ (abs_nonneg _)
      rw [abs_of_nonneg (by positivity)]
      exact_mod_cast c
  have := Finset.sum_le_sum h
  have : 0 ≤ (k : ℤ) * |q.coeff 0| := by positivity
  linarith

open Polynomial in
theorem RP_coeff_zero (m n : Int) (hv : ValidOrders m n) (i : ℕ) (hi : n.toNat < i) : (RP m n).coeff i = 0 := by
  have hn := (valid_iff m n).1 hv
  unfold RP RR
  rw [Rab_red, finset_sum_coeff]
  refine Finset.sum_eq_zero fun k hk => ?_
  rw [show ((coefT ((n + m) / 2).toNat ((n - m) / 2).toNat k : ℤ) : ℤ[X]) = C (coefT ((n + m) / 2).toNat ((n - m) / 2).toNat k) by simp,
    coeff_C_mul, coeff_X_pow, if_neg (by omega), mul_zero]

theorem evalD_fl (hF : Accurate F u p) (m n : Int) (hv : ValidOrders m n) (d : Coeffs) (hd : CorrectD m n d) (r : Fl F) (h0 : 0 ≤ r.val) (h1 : r.val ≤ 1) :
    Ap u (expoD p n) (majD n) (evalLoop r (itemsFrom 0 d) 0) (DR m n r.val) := by
  have h := evalLoop_fl hF r h0 h1 d 0 (p + 2) le_rfl 0 0 0 (Ap.zero.mono hF.unit (by omega) le_rfl)
  rw [eval_CorrectD hd] at h
  have hl := hd.2.1
  have hn := (valid_iff m n).1 hv
  refine h.mono hF.unit (by simp only [expoD]; omega) ?_
  rw [zero_add]
  have e := (l1_derivative d.length n.toNat (RP m n) (RP_coeff_zero m n hv)).trans
    (mul_le_mul_of_nonneg_left (l1_RP (d.length + 1) m n hv) (by positivity))
  unfold l1 at e
  have e2 : ∑ i ∈ Finset.range d.length, |(d.getD i 0 : ℝ)| =
      ((∑ i ∈ Finset.range d.length, |(Polynomial.derivative (RP m n)).coeff i| : ℤ) : ℝ) := by
    push_cast
    exact Finset.sum_congr rfl fun i _ => by rw [hd.2.2 i]
  rw [e2]
  unfold majD
  exact_mod_cast e

theorem radialPolynomialCoeffsDr_fl (hF : Accurate F u p) (fuel : Nat) (m n : Int) (r : Fl F) (h0 : 0 ≤ r.val) (h1 : r.val ≤ 1) :
    Tr (ValidOrders m n ∧ 9 ≤ n ∧ n.toNat + 1 < fuel) (radialPolynomialCoeffsDr fuel m n r)
      (fun v => ValidOrders m n → 9 ≤ n → n - pyAbs m ≤ 38 → Ap u (expoD p n) (majD n) v (DR m n r.val)) := by
  induction fuel generalizing m n with
  | zero => exact Tr.raise (by omega)
  | succ fuel ih =>
    unfold radialPolynomialCoeffsDr
    rw [show maxRadialOrderCoeffsDr = 38 from rfl]
    split_ifs with h38 c1 c0 c2
    · refine Tr.bind ((findCoeffsDr_tr fuel false m n).mono (fun h => ⟨h.1, h.2.1, by omega⟩) fun _ h => h) ?_
      intro d hd
      exact Tr.pure fun hv h9 _ => evalD_fl hF m n hv d (hd.2 h9) r h0 h1
    · exact Tr.pure fun hv h9 _ => diagD_fl hF m n hv c1 (by omega) r h0 h1
    · subst c0
      by_cases hv : ValidOrders 0 n ∧ 9 ≤ n
      · obtain ⟨hv, h9⟩ := hv
        have hn := (valid_iff 0 n).1 hv
        obtain ⟨v1, v2, v3⟩ := valid_down hv c1
        rw [zero_add] at v2
        refine Tr.bind ((ih 1 (n - 1)).mono (fun h => ⟨v2, by omega, by omega⟩) fun _ h => h) fun x _ => ?_
        refine Tr.bind ((ih 1 (n - 1)).mono (fun h => ⟨v2, by omega, by omega⟩) fun _ h => h) fun x' _ => ?_
        refine Tr.bind ((ih 0 (n - 2)).mono (fun h => ⟨v3, by omega, by omega⟩) fun _ h => h) fun y _ => ?_
        exact Tr.pure fun _ _ hd => absurd hd (by simp [pyAbs]; omega)
      · refine Tr.bind ((ih 1 (n - 1)).mono (fun h => absurd ⟨h.1, h.2.1⟩ hv) fun _ h => h) fun x _ => ?_
        refine Tr.bind ((ih 1 (n - 1)).mono (fun h => absurd ⟨h.1, h.2.1⟩ hv) fun _ h => h) fun x _ => ?_
        refine Tr.bind ((ih 0 (n - 2)).mono (fun h => absurd ⟨h.1, h.2.1⟩ hv) fun _ h => h) fun y _ => ?_
        exact Tr.pure fun h h9 => absurd ⟨h, h9⟩ hv
    · exact Tr.pure fun hv _ _ => subdiagD_fl hF m n hv c2 (by omega) r h0 h1
    · by_cases hv : ValidOrders m n ∧ 9 ≤ n
      · obtain ⟨hv, h9⟩ := hv
        have hn := (valid_iff m n).1 hv
        obtain ⟨v1, v2, v3⟩ := valid_down hv c1
        refine Tr.bind ((radialPolynomialCoeffs_fl hF fuel (pyAbs (m - 1)) (n - 1) r h0 h1).mono
          (fun h => ⟨valid_pyAbs v1, by omega⟩) fun _ h => h) ?_
        intro x hx
        refine Tr.bind ((radialPolynomialCoeffs_fl hF fuel (m + 1) (n - 1) r h0 h1).mono (fun h => ⟨v2, by omega⟩) fun _ h => h) ?_
        intro y hy
        refine Tr.bind ((ih (pyAbs (m - 1)) (n - 1)).mono (fun h => ⟨valid_pyAbs v1, by omega, by omega⟩) fun _ h => h) ?_
        intro dx hdx
        refine Tr.bind ((ih (m + 1) (n - 1)).mono (fun h => ⟨v2, by omega, by omega⟩) fun _ h => h) ?_
        intro dy hdy
        refine Tr.bind ((ih m (n - 2)).mono (fun h => ⟨v3, by omega, by omega⟩) fun _ h => h) ?_
        intro dz hdz
        refine Tr.pure fun _ _ hd => ?_
        have hx' := hx (valid_pyAbs v1)
        have hdx' := hdx (valid_pyAbs v1) (by omega) (by unfold pyAbs at *; split_ifs at * <;> omega)
        rw [RR_abs] at hx'
        rw [DR_abs] at hdx'
        exact stepD_fl hF m n hv c1 r h0 h1 x y dx dy dz hx' (hy v2) hdx'
          (hdy v2 (by omega) (by unfold pyAbs at *; split_ifs at * <;> omega)) (hdz v3 (by omega) (by omega))
      · refine Tr.bind ((radialPolynomialCoeffs_fl hF fuel (pyAbs (m - 1)) (n - 1) r h0 h1).mono (fun h => absurd ⟨h.1, h.2.1⟩ hv)
          fun _ h => h) fun x _ => ?_
        refine Tr.bind ((radialPolynomialCoeffs_fl hF fuel (m + 1) (n - 1) r h0 h1).mono (fun h => absurd ⟨h.1, h.2.1⟩ hv)
          fun _ h => h) fun y _ => ?_
        refine Tr.bind ((ih (pyAbs (m - 1)) (n - 1)).mono (fun h => absurd ⟨h.1, h.2.1⟩ hv) fun _ h => h) fun x _ => ?_
        refine Tr.bind ((ih (m + 1) (n - 1)).mono (fun h => absurd ⟨h.1, h.2.1⟩ hv) fun _ h => h) fun y _ => ?_
        refine Tr.bind ((ih m (n - 2)).mono (fun h => absurd ⟨h.1, h.2.1⟩ hv) fun _ h => h) fun z _ => ?_
        exact Tr.pure fun h h9 => absurd ⟨h, h9⟩ hv

theorem radialDerivEqLoop_fl (hF : Accurate F u p) (m n : Int) (r : Fl F) (h0 : 0 ≤ r.val) (h1 : r.val ≤ 1) (a b : Nat) (hn : n = a + b) (hm : m = a - b)
    (j k : Nat) (l : ℕ) (hl : p + 6 ≤ l) (A : ℝ) (acc : Fl F) (v : ℝ) (h : Ap u l A acc v) (hk : k + j ≤ min a b + 1) :
    ∃ y w, radialDerivEqLoop m n r j k acc = .ok y ∧ radialDerivEqLoop m n r.val j k v = .ok w ∧
      Ap u (l + j) (A + ∑ i ∈ Finset.range j, |(coefT a b (k + i) : ℝ)| * (a + b : ℕ)) y w := by
  induction j generalizing k l A acc v with
  | zero => exact ⟨acc, v, rfl, rfl, by simpa using h⟩
  | succ j ih =>
    unfold radialDerivEqLoop
    have e1 : (n + m) / 2 = a := by omega
    have e2 : (n - m) / 2 = b := by omega
    have hka : k ≤ a ∧ k ≤ b := by omega
    simp only [e1, e2]
    have ht := trino_pos k (a - k) (b - k)
    have ht1 : (1 : ℚ) ≤ (trino k (a - k) (b - k) : ℚ) := by exact_mod_cast ht
    have ht2 : (1 : ℝ) ≤ ((trino k (a - k) (b - k) : ℚ) : ℝ) := by exact_mod_cast ht1
    have hs : ((-1) ^ (k : Int).toNat : Int) ≠ 0 := by positivity
    have hs1 : |(((-1) ^ (k : Int).toNat : Int) : ℝ)| = 1 := by push_cast; rw [abs_pow, abs_neg, abs_one, one_pow]
    have hc : |(coefT a b (k + 0) : ℝ)| = ((trino k (a - k) (b - k) : ℚ) : ℝ) := by
      simp only [coefT, add_zero, hka, and_self, if_true]
      push_cast
      rw [abs_mul, abs_pow, abs_neg, abs_one, one_pow, one_mul, abs_of_nonneg (by positivity)]
    have hA := h.nonneg
    have e6 : ∀ i, k + (i + 1) = k + 1 + i := fun i => by omega
    have e9 : ∑ i ∈ Finset.range j, |(coefT a b (k + (i + 1)) : ℝ)| * (a + b : ℕ) = ∑ i ∈ Finset.range j, |(coefT a b (k + 1 + i) : ℝ)| * (a + b : ℕ) :=
      Finset.sum_congr rfl fun i _ => by rw [e6]
    rw [Finset.sum_range_succ', e9, hc]
    by_cases hpos : n - 2 * (k : Int) > 0
    · rw [if_pos hpos, if_pos hpos]
      rw [pyFactorial_cast (n - k) (k + (a - k) + (b - k)) (by omega), pyFactorial_cast k k rfl,
        pyFactorial_cast (a - k) (a - k) (by omega), pyFactorial_cast (b - k) (b - k) (by omega)]
      simp only [Except.bind, bind]
      have hq : ((((k + (a - k) + (b - k)).factorial : Nat) : Int) : ℚ) /
          ((((k.factorial : Nat) : Int) * (((a - k).factorial : Nat) : Int) * (((b - k).factorial : Nat) : Int) : Int) : ℚ) = (trino k (a - k) (b - k) : ℚ) := by
        have q := quot_eq (F := ℚ) k (a - k) (b - k)
        push_cast at q ⊢
        rw [q]
      rw [hq]
      have a1 : |((n - 2 * (k : Int) : Int) : ℝ)| = ((n - 2 * (k : Int) : Int) : ℝ) := abs_of_nonneg (by exact_mod_cast hpos.le)
      have a2 : (1 : ℝ) ≤ ((n - 2 * (k : Int) : Int) : ℝ) := by exact_mod_cast hpos
      have a3 : ((n - 2 * (k : Int) : Int) : ℝ) ≤ ((a + b : ℕ) : ℝ) := by
        have : n - 2 * (k : Int) ≤ ((a + b : ℕ) : ℤ) := by push_cast; omega
        exact_mod_cast this
      have i1 := Ap.int hF (n - 2 * (k : Int)) (by omega)
      rw [a1] at i1
      have i2 := Ap.int hF _ hs
      rw [hs1] at i2
      have i3 := Ap.rat hF _ ht1
      have e5 : ((scal (trino k (a - k) (b - k) : ℚ) : ℝ)) = ((trino k (a - k) (b - k) : ℚ) : ℝ) := by
        simp [scal, OfRat.ofRat]
      rw [e5]
      generalize ((trino k (a - k) (b - k) : ℚ) : ℝ) = T at *
      generalize ((n - 2 * (k : Int) : Int) : ℝ) = D at *
      have key := h.add hF ((i2.mul hF (i3.mul hF (Ap.pow hF h0 h1 (n - 2 * (k : Int) - 1).toNat) (by linarith)) (by linarith)).mul hF i1 (by nlinarith))
        (by nlinarith)
      obtain ⟨y, w, hy, hw, hyw⟩ := ih (k + 1) (l + 1) (by omega) _ _ _
        (key.mono (l := l + 1) hF.unit (by have : max l (1 + (1 + p + 1) + 1 + 1 + 1) = l := by omega
                                           omega) le_rfl) (by omega)
      refine ⟨y, w, by push_cast at hy ⊢; exact hy, by push_cast at hw ⊢; exact hw, hyw.mono hF.unit (by omega) ?_⟩
      have : T * D ≤ T * ((a + b : ℕ) : ℝ) := mul_le_mul_of_nonneg_left a3 (by linarith)
      linarith
    · rw [if_neg hpos, if_neg hpos]
      obtain ⟨y, w, hy, hw, hyw⟩ := ih (k + 1) l hl A acc v h (by omega)
      refine ⟨y, w, by push_cast at hy ⊢; exact hy, by push_cast at hw ⊢; exact hw, hyw.mono hF.unit (by omega) ?_⟩
      have : 0 ≤ ((trino k (a - k) (b - k) : ℚ) : ℝ) * ((a + b : ℕ) : ℝ) := by positivity
      linarith

theorem radialDerivativeEq_fl (hF : Accurate F u p) (m n : Int) (r : Fl F) (h0 : 0 ≤ r.val) (h1 : r.val ≤ 1) (hv : ValidOrders m n) :
    ∃ y, radialDerivativeEq m n r = .ok y ∧ Ap u (expoD p n) (majD n) y (DR m n r.val) := by
  have hR := radialDerivativeEq_correct m n r.val hv
  obtain ⟨a, b, hn, hm, e1, e2, e3⟩ := ab_of_valid hv
  obtain ⟨y, w, hy, hw, h⟩ := radialDerivEqLoop_fl hF m n r h0 h1 a b hn hm (min a b + 1) 0 (p + 6) le_rfl 0 0 0
    (Ap.zero.mono hF.unit (by omega) le_rfl) (by omega)
  unfold radialDerivativeEq at hR ⊢
  by_cases hp : n > 0
  · rw [if_pos hp, e3] at hR ⊢
    have e4 : (((min a b : ℕ) : Int) + 1).toNat = min a b + 1 := by omega
    rw [e4] at hR ⊢
    simp only [Nat.cast_zero] at hy hw
    rw [hw] at hR
    injection hR with hR
    refine ⟨y, hy, ?_⟩
    rw [← hR]
    refine h.mono hF.unit ?_ ?_
    · simp only [expoD]; omega
    · have hs := sum_coefT a b (min a b + 1)
      have hs' : ∑ k ∈ Finset.range (min a b + 1), |(coefT a b k : ℝ)| ≤ growth (a + b) := by exact_mod_cast hs
      have e5 : n.toNat = a + b := by omega
      unfold majD
      rw [e5]
      simp only [zero_add]
      rw [← Finset.sum_mul, mul_comm]
      exact mul_le_mul_of_nonneg_left hs' (by positivity)
  · rw [if_neg hp] at hR ⊢
    injection hR with hR
    refine ⟨0, rfl, ?_⟩
    rw [← hR]
    exact Ap.zero.mono hF.unit (by omega) (majD_nonneg n)

/-- `radial_dr` in any state of the tables. -/
theorem radialDrFl_ok (hF : Accurate F u p) (fuel : Nat) (exact : Bool) (m n : Int) (r : Fl F) (h0 : 0 ≤ r.val) (h1 : r.val ≤ 1) (s : CoefState) (hs : Good s)
    (hv : ValidOrders m n) (hf : n.toNat + 1 < fuel) (hc : if exact then n ≤ 38 else n - pyAbs m ≤ 38) :
    ∃ y, (radialDrFl F fuel exact m n r s).1 = .ok y ∧ Ap u (expoD p n) (majD n) y (DR m n r.val) := by
  unfold radialDrFl radialDrValue
  cases exact
  · simp only [Bool.not_false, if_true]
    split_ifs
    · exact radialDerivative_fl hF fuel m n r h0 h1 hv (by omega)
    · obtain ⟨_, h2, h3⟩ := (radialPolynomialCoeffsDr_fl hF fuel m n r h0 h1).app s hs
      obtain ⟨v, hv'⟩ := h3 ⟨hv, by omega, hf⟩
      exact ⟨v, hv', h2 v hv' hv (by omega) (by simpa using hc)⟩
  · simp only [Bool.not_true, Bool.false_eq_true, if_false]
    rw [show maxRadialOrderCoeffsDr = 38 from rfl, if_neg (by simpa using hc)]
    exact radialDerivativeEq_fl hF m n r h0 h1 hv

end

end Verif.Proofs
