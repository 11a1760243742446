import Verif.Model.FloatFit
import Verif.Proofs.FloatPsfPhase
import Verif.Proofs.FloatNodes
import Verif.Proofs.FitLinear
import Mathlib.Analysis.InnerProductSpace.PiL2

/-! # Fitting in floating-point arithmetic: the matrix, and perturbed least-squares problems -/

namespace Verif.Proofs
open Verif.Model Verif.Spec

/-! ### The matrix -/

/-- A bound of the error of `polynomial_value` at an angle `t`. -/
noncomputable def valueError (u : ℝ) (p : ℕ) (m n : Int) (t : ℝ) : ℝ :=
  ((1 + u) ^ (4 * n.toNat + 2 * p + 11) - 1) * (Spec.norm m n * (max |(m : ℝ)| 1 * max |t| 1) * growth n.toNat)

section
variable {F : PsfArith} {u : ℝ} {p : ℕ}

theorem fltPolValues_ok (hF : Accurate F.toFloatArith u p) (fuel : Nat) (o : PolObj) (hv : ValidOrders o.m o.n) (hf : o.n.toNat + 1 < fuel) (ε : ℝ)
    (l : List (ℝ × ℝ)) (hl : ∀ q ∈ l, 0 ≤ q.1 ∧ q.1 ≤ 1 ∧ valueError u p o.m o.n q.2 ≤ ε) :
    RetP (fltPolValues F fuel o l) fun vs => List.Forall₂ (fun (q : ℝ × ℝ) v => |v - zernike o.m o.n q.1 q.2| ≤ ε) l vs := by
  induction l with
  | nil => exact retP_pure _ List.Forall₂.nil
  | cons q l ih =>
    obtain ⟨r, t⟩ := q
    obtain ⟨h0, h1, h2⟩ := hl (r, t) (by simp)
    refine RetP.bind (polynomialFl_retP hF fuel o.m o.n r t h0 h1 hv hf) fun v hv' => ?_
    refine RetP.bind (ih fun q hq => hl q (by simp [hq])) fun vs hvs => retP_pure _ ?_
    exact List.Forall₂.cons (hv'.trans h2) hvs

theorem forall2_getD {α : Type} {R : α → ℝ → Prop} {l : List α} {vs : List ℝ} (h : List.Forall₂ R l vs) (a : Nat) (x : α) (hx : l[a]? = some x) :
    R x (vs.getD a 0) := by
  induction h generalizing a with
  | nil => simp at hx
  | cons hr _ ih =>
    cases a with
    | zero => simp at hx; subst hx; simpa using hr
    | succ a => simpa using ih a (by simpa using hx)

/-- Column `j` of `A'` has the property `P` at the first `n` rows, the rest is as in `A`. -/
def ColumnP (A A' : Grid) (j : Nat) (P : Nat → ℝ → Prop) (n : Nat) : Prop :=
  A'.rows = A.rows ∧ A'.cols = A.cols ∧ (∀ a, a < n → P a (A'.entry a j)) ∧ ∀ a b, b ≠ j → A'.entry a b = A.entry a b

theorem assignSlice_ok (A : Grid) (lo hi j : Nat) (v : List ℝ) (h1 : lo ≤ hi) (h2 : hi ≤ A.rows) (hv : v.length = hi - lo) :
    assignSlice A lo hi j (.array [v.length] v) v.length =
      .ok { A with entry := fun a b => if b = j ∧ lo ≤ a ∧ a < hi then v.getD (a - lo) 0 else A.entry a b } := by
  unfold assignSlice
  rw [if_pos (by simp [fitsSlice, Nat.min_eq_left h2, Nat.min_eq_left (h1.trans h2), hv])]
  congr 2
  funext a b
  split_ifs with c d
  · simp only [Num.item]
    rw [show a - lo = 0 by omega]
  · rfl
  · rfl

theorem fltFitMeshColumn_ok (hF : Accurate F.toFloatArith u p) (fuel : Nat) (o : PolObj) (hv : ValidOrders o.m o.n) (hf : o.n.toNat + 1 < fuel) (ε : ℝ)
    (radii thetas : List ℝ) (ht0 : thetas ≠ []) (hr : ∀ x ∈ radii, 0 ≤ x ∧ x ≤ 1) (ht : ∀ t ∈ thetas, valueError u p o.m o.n t ≤ ε)
    (j k i : Nat) (hk : i + k = radii.length) (A : Grid) (hA : A.rows = radii.length * thetas.length)
    (hd : ∀ a, a < i * thetas.length → |A.entry a j - zernike o.m o.n (radii.getD (a / thetas.length) 0) (thetas.getD (a % thetas.length) 0)| ≤ ε) :
    RetP (fltFitMeshColumn F fuel o radii thetas j k i A) fun A' =>
      ColumnP A A' j (fun a x => |x - zernike o.m o.n (radii.getD (a / thetas.length) 0) (thetas.getD (a % thetas.length) 0)| ≤ ε)
        (radii.length * thetas.length) := by
  have hT : 0 < thetas.length := List.length_pos_of_ne_nil ht0
  induction k generalizing i A with
  | zero =>
    refine retP_pure _ ⟨rfl, rfl, fun a ha => hd a (by rw [show i = radii.length by omega]; exact ha), fun _ _ _ => rfl⟩
  | succ k ih =>
    have hi : i < radii.length := by omega
    have hm : radii.getD i 0 ∈ radii := by simp [hi]
    refine RetP.bind (fltPolValues_ok hF fuel o hv hf ε (thetas.map fun t => (radii.getD i 0, t)) (by
      intro q hq
      obtain ⟨t, h, rfl⟩ := List.mem_map.1 hq
      exact ⟨(hr _ hm).1, (hr _ hm).2, ht t h⟩)) fun v hv' => ?_
    have hlen : v.length = thetas.length := by rw [← hv'.length_eq, List.length_map]
    have h1 : (i + 1) * thetas.length ≤ A.rows := by rw [hA]; exact Nat.mul_le_mul_right _ hi
    have h2 : (i + 1) * thetas.length = i * thetas.length + thetas.length := by ring
    refine Ret.bindP (ret_lift (assignSlice_ok A _ _ j v (by omega) h1 (by omega))) ?_
    refine (ih (i + 1) (by omega) _ ?_ ?_).mono ?_
    · exact hA
    · intro a ha
      dsimp only
      by_cases hc : a < i * thetas.length
      · rw [if_neg (by omega)]; exact hd a hc
      · rw [if_pos ⟨rfl, by omega, ha⟩]
        obtain ⟨b, rfl⟩ : ∃ b, a = i * thetas.length + b := ⟨a - i * thetas.length, by omega⟩
        have hb : b < thetas.length := by omega
        rw [Nat.add_sub_cancel_left, show (i * thetas.length + b) / thetas.length = i by
            rw [Nat.mul_comm, Nat.mul_add_div hT, Nat.div_eq_of_lt hb, Nat.add_zero],
          show (i * thetas.length + b) % thetas.length = b by
            rw [Nat.mul_comm, Nat.mul_add_mod, Nat.mod_eq_of_lt hb]]
        exact forall2_getD hv' b (radii.getD i 0, thetas.getD b 0) (by simp [hb])
    · rintro A' ⟨e1, e2, e3, e4⟩
      refine ⟨e1, e2, e3, fun a b hb => ?_⟩
      rw [e4 a b hb]
      dsimp only
      rw [if_neg (by tauto)]

/-- The values of the polynomials at the points with errors of at most `ε`: row `a`, column `i`. -/
def NearValues (ε : ℝ) (os : List PolObj) (points : List (ℝ × ℝ)) (A : Grid) : Prop :=
  A.rows = points.length ∧ A.cols = os.length ∧
    ∀ a p i o, points[a]? = some p → os[i]? = some o → |A.entry a i - zernike o.m o.n p.1 p.2| ≤ ε

theorem fltFitMatrix_ok (hF : Accurate F.toFloatArith u p) (fuel : Nat) (ε : ℝ) (radii thetas : List ℝ) (hr0 : radii ≠ []) (ht0 : thetas ≠ [])
    (hr : ∀ x ∈ radii, 0 ≤ x ∧ x ≤ 1) (os : List PolObj) (hv : ∀ o ∈ os, ValidOrders o.m o.n ∧ o.n.toNat + 1 < fuel)
    (hε : ∀ o ∈ os, ∀ t ∈ thetas, valueError u p o.m o.n t ≤ ε) (j : Nat) (A : Grid) (hA : A.rows = (samplePoints radii thetas).length) :
    RetP (fltFitMatrix F fuel radii thetas os j A) fun A' => A'.rows = A.rows ∧ A'.cols = A.cols ∧
      (∀ (a : Nat) p (i : Nat) o, (samplePoints radii thetas)[a]? = some p → os[i]? = some o → |A'.entry a (j + i) - zernike o.m o.n p.1 p.2| ≤ ε) ∧
      ∀ a b, b < j → A'.entry a b = A.entry a b := by
  induction os generalizing j A with
  | nil => exact retP_pure _ ⟨rfl, rfl, by simp, fun _ _ _ => rfl⟩
  | cons o os ih =>
    have hv' : ∀ o ∈ os, ValidOrders o.m o.n ∧ o.n.toNat + 1 < fuel := fun q hq => hv q (by simp [hq])
    have hε' : ∀ o ∈ os, ∀ t ∈ thetas, valueError u p o.m o.n t ≤ ε := fun q hq => hε q (by simp [hq])
    have ho := hv o (by simp)
    have he := hε o (by simp)
    have step : ∀ A', ColumnP A A' j (fun a x => |x - zernike o.m o.n ((samplePoints radii thetas).getD a (0, 0)).1
          ((samplePoints radii thetas).getD a (0, 0)).2| ≤ ε) (samplePoints radii thetas).length →
        RetP (fltFitMatrix F fuel radii thetas os (j + 1) A') fun A'' => A''.rows = A.rows ∧ A''.cols = A.cols ∧
        (∀ (a : Nat) p (i : Nat) o', (samplePoints radii thetas)[a]? = some p → (o :: os)[i]? = some o' →
          |A''.entry a (j + i) - zernike o'.m o'.n p.1 p.2| ≤ ε) ∧
        ∀ a b, b < j → A''.entry a b = A.entry a b := by
      rintro A' ⟨c1, c2, c3, c4⟩
      refine (ih hv' hε' (j + 1) A' (c1.trans hA)).mono ?_
      rintro A'' ⟨d1, d2, d3, d4⟩
      refine ⟨d1.trans c1, d2.trans c2, fun a p i o' hp hi => ?_, fun a b hb => ?_⟩
      · cases i with
        | zero =>
          simp only [List.getElem?_cons_zero, Option.some.injEq] at hi
          subst hi
          have ha : a < (samplePoints radii thetas).length := (List.getElem?_eq_some_iff.1 hp).1
          have e : (samplePoints radii thetas).getD a (0, 0) = p := by rw [List.getD_eq_getElem?_getD, hp]; rfl
          rw [Nat.add_zero, d4 a j (by omega)]
          have := c3 a ha
          simpa only [e] using this
        | succ i =>
          rw [show j + (i + 1) = j + 1 + i by omega]
          exact d3 a p i o' hp (by simpa using hi)
      · rw [d4 a b (by omega), c4 a b (by omega)]
    unfold fltFitMatrix
    split_ifs with hlen
    · have hp : samplePoints radii thetas = radii.zip thetas := by unfold samplePoints; rw [if_pos hlen]
      have hn : (samplePoints radii thetas).length = radii.length := by rw [hp]; simp [hlen]
      refine RetP.bind (fltPolValues_ok hF fuel o ho.1 ho.2 ε (radii.zip thetas) (by
        rintro ⟨x, t⟩ hq
        exact ⟨(hr _ (List.of_mem_zip hq).1).1, (hr _ (List.of_mem_zip hq).1).2, he _ (List.of_mem_zip hq).2⟩)) fun v hv' => ?_
      have hvl : v.length = radii.length := by rw [← hv'.length_eq]; simp [hlen]
      refine Ret.bindP (ret_lift (assignSlice_ok A 0 A.rows j v (Nat.zero_le _) le_rfl (by omega))) ?_
      refine step _ ⟨rfl, rfl, fun a ha => ?_, fun a b hb => ?_⟩
      · dsimp only
        rw [if_pos ⟨rfl, Nat.zero_le _, by omega⟩, Nat.sub_zero, hp]
        have : a < thetas.length := by omega
        have h' : a < radii.length := by omega
        exact forall2_getD hv' a _ (by simp [List.getD_eq_getElem?_getD, this, h'])
      · dsimp only
        rw [if_neg (by tauto)]
    · have hp : samplePoints radii thetas = radii.flatMap fun r => thetas.map fun t => (r, t) := by unfold samplePoints; rw [if_neg hlen]
      have hn : (samplePoints radii thetas).length = radii.length * thetas.length := by rw [hp]; simp [List.length_flatMap]
      refine RetP.bind (fltFitMeshColumn_ok hF fuel o ho.1 ho.2 ε radii thetas ht0 hr he j radii.length 0 (by omega) A (hA.trans hn) (by simp))
        fun A' hA' => step A' ?_
      obtain ⟨c1, c2, c3, c4⟩ := hA'
      refine ⟨c1, c2, fun a ha => ?_, c4⟩
      have e : (samplePoints radii thetas).getD a (0, 0) = (radii.getD (a / thetas.length) 0, thetas.getD (a % thetas.length) 0) := by
        rw [List.getD_eq_getElem?_getD, hp, flatMap_pt radii thetas ht0 a (by omega)]; rfl
      have := c3 a (by omega)
      simpa only [e] using this

theorem fltFitZernikes_ok (hF : Accurate F.toFloatArith u p) (fuel : Nat) (lstsq : Lstsq) (ε : ℝ) (radii thetas : List ℝ) (hr0 : radii ≠ []) (ht0 : thetas ≠ [])
    (hr : ∀ x ∈ radii, 0 ≤ x ∧ x ≤ 1) (os : List PolObj) (h0 : os ≠ []) (hv : ∀ o ∈ os, ValidOrders o.m o.n ∧ o.n.toNat + 1 < fuel)
    (hd : (os.map fun o => (o.m, o.n)).Nodup)
    (hε : ∀ o ∈ os, ∀ t ∈ thetas, valueError u p o.m o.n t ≤ ε) (phases : List ℝ) (hp : phases.length = (samplePoints radii thetas).length) :
    RetP (fltFitZernikes F fuel lstsq phases radii thetas os) fun x => ∃ A, NearValues ε os (samplePoints radii thetas) A ∧ x = lstsq A phases := by
  unfold fltFitZernikes
  rw [if_neg (by simpa using h0), if_pos hd]
  refine RetP.bind (fltFitMatrix_ok hF fuel ε radii thetas hr0 ht0 hr os hv hε 0 (Grid.zeros phases.length os.length) hp) fun A hA => retP_pure _ ⟨A, ?_, rfl⟩
  obtain ⟨a1, a2, a3, -⟩ := hA
  exact ⟨a1.trans hp, a2, fun a p i o h1 h2 => by simpa using a3 a p i o h1 h2⟩

end

/-! ### Perturbed least-squares problems -/

/-- `A v` as a vector with the Euclidean norm. -/
noncomputable def applyE {N K : ℕ} (A : Fin N → Fin K → ℝ) (v : Fin K → ℝ) : EuclideanSpace ℝ (Fin N) := WithLp.toLp 2 fun k => ∑ j, A k j * v j

theorem applyE_add {N K : ℕ} (A : Fin N → Fin K → ℝ) (v w : Fin K → ℝ) (t : ℝ) : applyE A (fun j => v j + t * w j) = applyE A v + t • applyE A w := by
  ext k
  simp only [applyE, PiLp.add_apply, PiLp.smul_apply, smul_eq_mul, Finset.mul_sum, ← Finset.sum_add_distrib]
  exact Finset.sum_congr rfl fun j _ => by ring

theorem applyE_sub {N K : ℕ} (A B : Fin N → Fin K → ℝ) (v : Fin K → ℝ) : applyE A v - applyE B v = applyE (fun k j => A k j - B k j) v := by
  ext k
  simp only [applyE, PiLp.sub_apply, ← Finset.sum_sub_distrib]
  exact Finset.sum_congr rfl fun j _ => by ring

theorem norm_toLp_sq {N : ℕ} (v : Fin N → ℝ) : ‖(WithLp.toLp 2 v : EuclideanSpace ℝ (Fin N))‖ ^ 2 = ∑ k, v k ^ 2 := by
  rw [EuclideanSpace.norm_sq_eq]
  exact Finset.sum_congr rfl fun k _ => by rw [Real.norm_eq_abs, sq_abs]

theorem applyE_le {N K : ℕ} (D : Fin N → Fin K → ℝ) (v : Fin K → ℝ) (δ : ℝ) (h0 : 0 ≤ δ) (hD : ∑ k, ∑ j, D k j ^ 2 ≤ δ ^ 2) :
    ‖applyE D v‖ ≤ δ * ‖(WithLp.toLp 2 v : EuclideanSpace ℝ (Fin K))‖ := by
  refine abs_le_of_sq_le_sq' ?_ (by positivity) |>.2
  rw [mul_pow, norm_toLp_sq]
  unfold applyE
  rw [norm_toLp_sq]
  have hv : 0 ≤ ∑ k, v k ^ 2 := Finset.sum_nonneg fun k _ => sq_nonneg _
  calc ∑ k, (∑ j, D k j * v j) ^ 2 ≤ ∑ k, (∑ j, D k j ^ 2) * ∑ j, v j ^ 2 :=
        Finset.sum_le_sum fun k _ => Finset.sum_mul_sq_le_sq_mul_sq _ _ _
    _ = (∑ k, ∑ j, D k j ^ 2) * ∑ j, v j ^ 2 := by rw [Finset.sum_mul]
    _ ≤ _ := mul_le_mul_of_nonneg_right hD hv

/-- A minimiser of `‖B y - b‖` is near `c`, if `b` is near `A c`, the matrix `B` is near `A`, and `A` is well conditioned. -/
theorem perturbed_fit {N K : ℕ} (A B : Fin N → Fin K → ℝ) (b : EuclideanSpace ℝ (Fin N)) (x c : Fin K → ℝ) (σ δ ρ : ℝ) (h0 : 0 ≤ δ) (hδ : δ < σ)
    (hmin : ∀ y, ‖applyE B x - b‖ ≤ ‖applyE B y - b‖) (hσ : ∀ d, σ * ‖(WithLp.toLp 2 d : EuclideanSpace ℝ (Fin K))‖ ≤ ‖applyE A d‖)
    (hD : ∑ k, ∑ j, (A k j - B k j) ^ 2 ≤ δ ^ 2) (hb : ‖b - applyE A c‖ ≤ ρ) :
    ‖(WithLp.toLp 2 (fun j => x j - c j) : EuclideanSpace ℝ (Fin K))‖ ≤ (δ * ‖(WithLp.toLp 2 c : EuclideanSpace ℝ (Fin K))‖ + ρ) / (σ - δ) := by
  obtain ⟨d, hd⟩ : ∃ d : Fin K → ℝ, d = fun j => x j - c j := ⟨_, rfl⟩
  rw [← hd]
  -- the residual is orthogonal to the columns
  have orth : inner ℝ (applyE B x - b) (applyE B d) = 0 := by
    have key : ∀ t : ℝ, 0 ≤ 2 * t * inner ℝ (applyE B x - b) (applyE B d) + t ^ 2 * ‖applyE B d‖ ^ 2 := by
      intro t
      have h1 := hmin (fun j => x j + t * d j)
      rw [applyE_add, show applyE B x + t • applyE B d - b = (applyE B x - b) + t • applyE B d by abel] at h1
      have h2 := pow_le_pow_left₀ (norm_nonneg _) h1 2
      rw [norm_add_sq_real, norm_smul, mul_pow, inner_smul_right, Real.norm_eq_abs, sq_abs] at h2
      linarith
    generalize (inner ℝ (applyE B x - b) (applyE B d) : ℝ) = q at key
    generalize ‖applyE B d‖ ^ 2 = w at key
    by_contra hq
    have hw : 0 < w ^ 2 + 1 := by positivity
    have k1 := key (-q / (w ^ 2 + 1))
    have e : 2 * (-q / (w ^ 2 + 1)) * q + (-q / (w ^ 2 + 1)) ^ 2 * w = q ^ 2 / (w ^ 2 + 1) ^ 2 * (w - 2 * (w ^ 2 + 1)) := by
      field_simp
      ring
    rw [e] at k1
    have hq2 : 0 < q ^ 2 := by positivity
    have p1 : 0 < q ^ 2 / (w ^ 2 + 1) ^ 2 := by positivity
    have p2 : w - 2 * (w ^ 2 + 1) < 0 := by nlinarith [sq_nonneg (w - 1), sq_nonneg w]
    nlinarith
  have hBc : applyE B c - b = (applyE B x - b) + (-1 : ℝ) • applyE B d := by
    have := applyE_add B x d (-1)
    rw [show (fun j => x j + -1 * d j) = c by funext j; rw [hd]; ring] at this
    rw [this]; abel
  have h1 : ‖applyE B d‖ ≤ ‖applyE B c - b‖ := by
    refine abs_le_of_sq_le_sq' ?_ (norm_nonneg _) |>.2
    rw [hBc, norm_add_sq_real, norm_smul, inner_smul_right, orth]
    simp
  have h2 : ‖applyE B c - b‖ ≤ δ * ‖(WithLp.toLp 2 c : EuclideanSpace ℝ (Fin K))‖ + ρ := by
    have e : applyE B c - b = -(applyE A c - applyE B c) - (b - applyE A c) := by abel
    rw [e, applyE_sub]
    refine (norm_sub_le _ _).trans (add_le_add ?_ hb)
    rw [norm_neg]
    exact applyE_le _ c δ h0 hD
  have h3 : ‖applyE A d‖ ≤ ‖applyE B d‖ + δ * ‖(WithLp.toLp 2 d : EuclideanSpace ℝ (Fin K))‖ := by
    have e : applyE A d = applyE B d + (applyE A d - applyE B d) := by abel
    rw [e]
    refine (norm_add_le _ _).trans (add_le_add ?_ ?_)
    · exact le_rfl
    · rw [applyE_sub]; exact applyE_le _ d δ h0 hD
  have h4 := hσ d
  rw [le_div_iff₀ (by linarith)]
  nlinarith

end Verif.Proofs
