import Verif.Proofs.FloatFit
import Verif.Props.FitResponse
import Verif.Props.FloatSums

/-!
# C94: fitting in floating-point arithmetic

`fltFitVectors` is `fit_polynomials_vectors` with rounded operations. `numpy.linalg.lstsq` is any backward stable solver.
-/

namespace Verif.Props
open Verif.Model Verif.Spec Verif.Proofs

/-- The root of the sum of the squared differences of the elements of two matrices of the shape of `A`. -/
noncomputable def matrixDistance (A B : Grid) : ℝ :=
  Real.sqrt ((List.range A.rows).map fun k => ((List.range A.cols).map fun j => (A.entry k j - B.entry k j) ^ 2).sum).sum

/-- The differences of the elements of two lists. -/
noncomputable def differences (u v : List ℝ) : List ℝ := List.zipWith (fun s t => s - t) u v

/-- The root of the mean of the squares. -/
noncomputable def rms (l : List ℝ) : ℝ := Real.sqrt (energy l / l.length)

/-- What is assumed of `numpy.linalg.lstsq` in floating-point arithmetic, backward stability: the result is an exact least-squares solution for a matrix and a right
side that differ from the given ones by at most `η` times their norms. -/
def BackwardStable (lstsq : Lstsq) (η : ℝ) : Prop :=
  ∀ A b, b.length = A.rows → ∃ (A' : Grid) (b' : List ℝ), A'.rows = A.rows ∧ A'.cols = A.cols ∧ b'.length = b.length ∧
    matrixDistance A A' ≤ η * matrixDistance A (Grid.zeros A.rows A.cols) ∧ Real.sqrt (energy (differences b' b)) ≤ η * Real.sqrt (energy b) ∧
    (lstsq A b).length = A.cols ∧ ∀ y : List ℝ, y.length = A.cols → sqError A' b' (lstsq A b) ≤ sqError A' b' y

theorem matrixDistance_self (A : Grid) : matrixDistance A A = 0 := by
  unfold matrixDistance
  simp

theorem energy_self (b : List ℝ) : energy (differences b b) = 0 := by
  unfold energy differences
  induction b with
  | nil => simp
  | cons x b ih => simpa using ih

/-- An exact solver is backward stable with `η = 0`. -/
theorem exact_backward_stable {lstsq : Lstsq} (h : LstsqContract lstsq) : BackwardStable lstsq 0 := by
  intro A b hb
  refine ⟨A, b, rfl, rfl, rfl, ?_, ?_, (h A b hb).1, (h A b hb).2⟩
  · rw [matrixDistance_self]; simp
  · rw [energy_self]; simp

theorem energy_fin (l : List ℝ) {n : ℕ} (h : l.length = n) : energy l = ∑ k : Fin n, l.getD k 0 ^ 2 := by
  subst h
  unfold energy
  rw [← sum_map_range l.length fun k => l.getD k 0 ^ 2]
  congr 1
  apply List.ext_getElem
  · simp
  · intro i h1 h2
    simp at h1
    simp [h1]

theorem sqrt_energy_fin (l : List ℝ) {n : ℕ} (h : l.length = n) :
    Real.sqrt (energy l) = ‖(WithLp.toLp 2 (fun k : Fin n => l.getD k 0) : EuclideanSpace ℝ (Fin n))‖ := by
  rw [energy_fin l h, ← norm_toLp_sq, Real.sqrt_sq (norm_nonneg _)]

theorem sqError_fin (A : Grid) (b x : List ℝ) :
    sqError A b x = ‖applyE (fun (k : Fin A.rows) (j : Fin A.cols) => A.entry k j) (fun j => x.getD j 0) -
      (WithLp.toLp 2 (fun k : Fin A.rows => b.getD k 0) : EuclideanSpace ℝ (Fin A.rows))‖ ^ 2 := by
  have e : applyE (fun (k : Fin A.rows) (j : Fin A.cols) => A.entry k j) (fun j => x.getD j 0) -
      (WithLp.toLp 2 (fun k : Fin A.rows => b.getD k 0) : EuclideanSpace ℝ (Fin A.rows)) =
      WithLp.toLp 2 fun k : Fin A.rows => ∑ j : Fin A.cols, A.entry k j * x.getD j 0 - b.getD k 0 := by
    ext k; simp [applyE]
  rw [e, norm_toLp_sq]
  unfold sqError
  rw [sum_map_range]
  refine Finset.sum_congr rfl fun k _ => ?_
  rw [sum_map_range]

theorem matrixDistance_fin (A B : Grid) : matrixDistance A B = ‖(WithLp.toLp 2 (fun q : Fin A.rows × Fin A.cols => A.entry q.1 q.2 - B.entry q.1 q.2) :
    EuclideanSpace ℝ (Fin A.rows × Fin A.cols))‖ := by
  have : (0 : ℝ) ≤ ‖(WithLp.toLp 2 (fun q : Fin A.rows × Fin A.cols => A.entry q.1 q.2 - B.entry q.1 q.2) : EuclideanSpace ℝ (Fin A.rows × Fin A.cols))‖ := norm_nonneg _
  rw [← Real.sqrt_sq this, EuclideanSpace.norm_sq_eq]
  unfold matrixDistance
  congr 1
  rw [sum_map_range, Fintype.sum_prod_type]
  refine Finset.sum_congr rfl fun k _ => ?_
  rw [sum_map_range]
  refine Finset.sum_congr rfl fun j _ => ?_
  simp

/-- The solution of the solver for a matrix with small errors. -/
theorem solver_error {lstsq : Lstsq} {η : ℝ} (hl : BackwardStable lstsq η) (hη : 0 ≤ η) (ε β k : ℝ) (hε : 0 ≤ ε) (os : List PolObj) (points : List (ℝ × ℝ)) (hp0 : points ≠ [])
    (A : Grid) (hA : NearValues ε os points A) (hβ : ∀ o ∈ os, ∀ p ∈ points, |zernike o.m o.n p.1 p.2| ≤ β) (hβ0 : 0 ≤ β)
    (hκ : Conditioned (k ^ 2 * points.length) (ordersOf os) points) (hk : Real.sqrt os.length * (ε + η * (β + ε)) < k)
    (phases : List ℝ) (hph : phases.length = points.length) (cs : List ℝ) (hcs : cs.length = os.length) :
    (lstsq A phases).length = os.length ∧
    Real.sqrt (energy (differences (lstsq A phases) cs)) ≤
      (Real.sqrt os.length * (ε + η * (β + ε)) * Real.sqrt (energy cs) +
        rms (differences phases (points.map fun p => combination cs (ordersOf os) p.1 p.2)) + η * rms phases) / (k - Real.sqrt os.length * (ε + η * (β + ε))) := by
  obtain ⟨a1, a2, a3⟩ := hA
  obtain ⟨A', b', r1, r2, r3, d1, d2, l1, l2⟩ := hl A phases (by rw [hph, a1])
  refine ⟨l1.trans a2, ?_⟩
  obtain ⟨x, hx⟩ : ∃ x, x = lstsq A phases := ⟨_, rfl⟩
  rw [← hx] at l1 l2 ⊢
  obtain ⟨N, hN⟩ : ∃ N, N = points.length := ⟨_, rfl⟩
  obtain ⟨K, hK⟩ : ∃ K, K = os.length := ⟨_, rfl⟩
  obtain ⟨δ, hδ⟩ : ∃ δ, δ = Real.sqrt os.length * (ε + η * (β + ε)) := ⟨_, rfl⟩
  rw [← hδ] at hk ⊢
  rw [← hN] at a1 hκ hph
  rw [← hK] at a2 hcs
  have hNpos : 0 < N := by rw [hN]; exact List.length_pos_of_ne_nil hp0
  have hNr : (0 : ℝ) < N := by exact_mod_cast hNpos
  have sN : 0 < Real.sqrt N := Real.sqrt_pos.2 hNr
  have hδ0 : 0 ≤ δ := by rw [hδ]; positivity
  -- everything as vectors
  obtain ⟨rows, cols, ent⟩ := A
  obtain ⟨rows', cols', ent'⟩ := A'
  simp only at a1 a2 a3 r1 r2 l1 l2 d1
  subst a1 a2 r1 r2
  have hpt : ∀ i : Fin rows', points[i.1]? = some (points.getD i (0, 0)) := fun i => by
    have : i.1 < points.length := by rw [← hN]; exact i.2
    simp [List.getD_eq_getElem?_getD, this]
  have hot : ∀ j : Fin cols', os[j.1]? = some (os.getD j ⟨0, 0, false⟩) := fun i => by
    have : i.1 < os.length := by rw [← hK]; exact i.2
    simp [List.getD_eq_getElem?_getD, this]
  obtain ⟨Z, hZ⟩ : ∃ Z : Fin rows' → Fin cols' → ℝ, Z = fun (i : Fin rows') (j : Fin cols') => zernike (os.getD j ⟨0, 0, false⟩).m (os.getD j ⟨0, 0, false⟩).n (points.getD i (0, 0)).1 (points.getD i (0, 0)).2 := ⟨_, rfl⟩
  have hcomb : ∀ ds : List ℝ, ds.length = cols' → ∀ i : Fin rows', combination ds (ordersOf os) (points.getD i (0, 0)).1 (points.getD i (0, 0)).2 = ∑ j : Fin cols', Z i j * ds.getD j 0 := by
    intro ds hds i
    have := combination_range ds os (hds.trans hK) (points.getD i (0, 0)).1 (points.getD i (0, 0)).2
      (fun j => zernike (os.getD j ⟨0, 0, false⟩).m (os.getD j ⟨0, 0, false⟩).n (points.getD i (0, 0)).1 (points.getD i (0, 0)).2)
      (fun j o ho => by simp [List.getD_eq_getElem?_getD, ho])
    rw [← hK, sum_map_range] at this
    rw [hZ]
    exact this.symm
  have hvals : ∀ ds : List ℝ, ds.length = cols' → Real.sqrt (energy (points.map fun p => combination ds (ordersOf os) p.1 p.2)) = ‖applyE Z fun j => ds.getD j 0‖ := by
    intro ds hds
    rw [sqrt_energy_fin _ (n := rows') (by simp [hN])]
    congr 2
    funext i
    have : i.1 < points.length := by rw [← hN]; exact i.2
    rw [← hcomb ds hds i]
    simp [List.getD_eq_getElem?_getD, this]
  have key := perturbed_fit Z (fun (i : Fin rows') (j : Fin cols') => ent' i j) (WithLp.toLp 2 fun i : Fin rows' => b'.getD i 0) (fun j => x.getD j 0) (fun j => cs.getD j 0)
    (k * Real.sqrt rows') (Real.sqrt rows' * δ) (Real.sqrt rows' * (rms (differences phases (points.map fun p => combination cs (ordersOf os) p.1 p.2)) + η * rms phases))
    (by positivity) (by nlinarith) ?_ ?_ ?_ ?_
  · have e1 : Real.sqrt (energy (differences x cs)) = ‖(WithLp.toLp 2 (fun j : Fin cols' => x.getD j 0 - cs.getD j 0) : EuclideanSpace ℝ (Fin cols'))‖ := by
      rw [sqrt_energy_fin _ (n := cols') (by simp [differences, l1, hcs])]
      congr 2
      funext j
      exact getD_zipWith _ x cs j (by omega) (by omega)
    rw [e1, sqrt_energy_fin cs hcs]
    refine key.trans (le_of_eq ?_)
    have : 0 < k - δ := by linarith
    rw [div_eq_div_iff (by nlinarith) this.ne']
    ring
  · intro y
    have h1 := l2 (List.ofFn y) (by simp)
    rw [sqError_fin, sqError_fin] at h1
    have e : (fun j : Fin cols' => (List.ofFn y).getD j 0) = y := by funext j; simp
    simp only [e] at h1
    exact (abs_le_of_sq_le_sq' h1 (norm_nonneg _)).2
  · intro d
    have h1 := hκ (List.ofFn d) (by simp [ordersOf, hK])
    have e : (fun j : Fin cols' => (List.ofFn d).getD j 0) = d := by funext j; simp
    have h2 := hvals (List.ofFn d) (by simp)
    rw [e] at h2
    rw [← h2]
    have e3 : energy (List.ofFn d) = ‖(WithLp.toLp 2 d : EuclideanSpace ℝ (Fin cols'))‖ ^ 2 := by
      rw [norm_toLp_sq, energy_fin _ (n := cols') (by simp)]
      simp
    rw [e3] at h1
    apply Real.le_sqrt_of_sq_le
    refine le_trans (le_of_eq ?_) h1
    rw [mul_pow, mul_pow, Real.sq_sqrt hNr.le]
  · -- the errors of the matrix
    rw [matrixDistance_fin, matrixDistance_fin] at d1
    simp only [Grid.zeros, sub_zero] at d1
    have near : ∀ q : Fin rows' × Fin cols', |ent q.1 q.2 - Z q.1 q.2| ≤ ε := fun q => by
      rw [hZ]; exact a3 _ _ _ _ (hpt q.1) (hot q.2)
    have size : ∀ q : Fin rows' × Fin cols', |ent q.1 q.2| ≤ β + ε := fun q => by
      have h1 := near q
      have h2 : |Z q.1 q.2| ≤ β := by
        rw [hZ]; exact hβ _ (List.mem_of_getElem? (hot q.2)) _ (List.mem_of_getElem? (hpt q.1))
      have := abs_add_le (ent q.1 q.2 - Z q.1 q.2) (Z q.1 q.2)
      rw [sub_add_cancel] at this
      linarith
    have bound : ∀ (f : Fin rows' × Fin cols' → ℝ) (M : ℝ), 0 ≤ M → (∀ q, |f q| ≤ M) →
        ‖(WithLp.toLp 2 f : EuclideanSpace ℝ (Fin rows' × Fin cols'))‖ ≤ Real.sqrt rows' * Real.sqrt cols' * M := by
      intro f M hM hf
      refine abs_le_of_sq_le_sq' ?_ (by positivity) |>.2
      rw [EuclideanSpace.norm_sq_eq, mul_pow, mul_pow, Real.sq_sqrt (by positivity), Real.sq_sqrt (by positivity)]
      calc ∑ q, ‖f q‖ ^ 2 ≤ ∑ _q : Fin rows' × Fin cols', M ^ 2 := Finset.sum_le_sum fun q _ => by
            rw [Real.norm_eq_abs]; exact pow_le_pow_left₀ (abs_nonneg _) (hf q) 2
        _ = rows' * cols' * M ^ 2 := by simp
    have n1 := bound (fun q => ent q.1 q.2 - Z q.1 q.2) ε hε near
    have n2 := bound (fun q => ent q.1 q.2) (β + ε) (by positivity) size
    have n3 : ‖(WithLp.toLp 2 (fun q : Fin rows' × Fin cols' => Z q.1 q.2 - ent' q.1 q.2) : EuclideanSpace ℝ (Fin rows' × Fin cols'))‖ ≤ Real.sqrt rows' * δ := by
      have e : (WithLp.toLp 2 (fun q : Fin rows' × Fin cols' => Z q.1 q.2 - ent' q.1 q.2) : EuclideanSpace ℝ (Fin rows' × Fin cols')) =
          -(WithLp.toLp 2 (fun q => ent q.1 q.2 - Z q.1 q.2)) + WithLp.toLp 2 (fun q => ent q.1 q.2 - ent' q.1 q.2) := by
        ext q; simp
      rw [e]
      refine (norm_add_le _ _).trans ?_
      rw [norm_neg]
      have n4 := mul_le_mul_of_nonneg_left n2 hη
      rw [hδ, ← hK]
      calc _ ≤ Real.sqrt rows' * Real.sqrt cols' * ε + η * (Real.sqrt rows' * Real.sqrt cols' * (β + ε)) := add_le_add n1 (d1.trans n4)
        _ = _ := by ring
    have n5 := pow_le_pow_left₀ (norm_nonneg _) n3 2
    rw [EuclideanSpace.norm_sq_eq, Fintype.sum_prod_type] at n5
    simpa using n5
  · -- the errors of the phases
    have hb' : b'.length = rows' := r3.trans hph
    have e1 : Real.sqrt (energy (differences b' phases)) = ‖(WithLp.toLp 2 (fun i : Fin rows' => b'.getD i 0 - phases.getD i 0) : EuclideanSpace ℝ (Fin rows'))‖ := by
      rw [sqrt_energy_fin _ (n := rows') (by simp [differences, hb', hph])]
      congr 2
      funext j
      exact getD_zipWith _ b' phases j (by omega) (by omega)
    have e2 : Real.sqrt (energy (differences phases (points.map fun p => combination cs (ordersOf os) p.1 p.2))) =
        ‖(WithLp.toLp 2 (fun i : Fin rows' => phases.getD i 0) : EuclideanSpace ℝ (Fin rows')) - applyE Z fun j => cs.getD j 0‖ := by
      rw [sqrt_energy_fin _ (n := rows') (by simp [differences, ← hN, hph])]
      congr 1
      ext i
      have : i.1 < points.length := by rw [← hN]; exact i.2
      simp only [PiLp.sub_apply, applyE]
      rw [← hcomb cs hcs i]
      refine (getD_zipWith _ phases _ i (by omega) (by simpa using this)).trans ?_
      simp [List.getD_eq_getElem?_getD, this]
    have sq : ∀ l : List ℝ, l.length = rows' → Real.sqrt rows' * rms l = Real.sqrt (energy l) := by
      intro l h
      unfold rms
      rw [← Real.sqrt_mul hNr.le, h, mul_div_cancel₀ _ hNr.ne']
    rw [mul_add, sq _ (by simp [differences, ← hN, hph]), show Real.sqrt rows' * (η * rms phases) = η * (Real.sqrt rows' * rms phases) by ring, sq _ hph, e2]
    rw [e1] at d2
    have e3 : (WithLp.toLp 2 fun i : Fin rows' => b'.getD i 0) - applyE Z (fun j => cs.getD j 0) =
        ((WithLp.toLp 2 (fun i : Fin rows' => phases.getD i 0) : EuclideanSpace ℝ (Fin rows')) - applyE Z fun j => cs.getD j 0) +
          WithLp.toLp 2 (fun i : Fin rows' => b'.getD i 0 - phases.getD i 0) := by
      ext i; simp
    rw [e3]
    exact (norm_add_le _ _).trans (add_le_add le_rfl d2)

theorem fltRound_near_pos {F : PsfArith} {u : ℝ} {p : ℕ} (hF : Accurate F.toFloatArith u p) (d : Int) (hd : 0 ≤ d) (x : ℝ) :
    |fltRound F d x - x| ≤ 1 / 2 / 10 ^ d + u * (3 * |x| + 4) := by
  unfold fltRound
  rw [if_pos hd]
  have hu := hF.unit
  have hu1 := hF.small
  have T1 : (1 : ℝ) ≤ 10 ^ d := one_le_zpow₀ (by norm_num) hd
  have r1 := hF.fl (x * 10 ^ d)
  have r2 := rint_near (F.fl (x * 10 ^ d))
  have r3 := hF.fl ((rint (F.fl (x * 10 ^ d)) : ℝ) / 10 ^ d)
  generalize (rint (F.fl (x * 10 ^ d)) : ℝ) = k at *
  generalize F.fl (x * 10 ^ d) = y at *
  generalize F.fl (k / 10 ^ d) = z at *
  generalize (10 : ℝ) ^ d = T at *
  have hT : 0 < T := by linarith
  have m1 : max |x * T| 1 ≤ (|x| + 1) * T := by
    rw [abs_mul, abs_of_pos hT]
    have := abs_nonneg x
    exact max_le (by nlinarith) (by nlinarith)
  have k1 : |k - x * T| ≤ 1 / 2 + u * ((|x| + 1) * T) := by
    have := abs_add_le (k - y) (y - x * T)
    rw [sub_add_sub_cancel] at this
    have := mul_le_mul_of_nonneg_left m1 hu
    linarith
  have k2 : |k / T - x| ≤ 1 / 2 / T + u * (|x| + 1) := by
    rw [show k / T - x = (k - x * T) / T by field_simp, abs_div, abs_of_pos hT]
    calc _ ≤ (1 / 2 + u * ((|x| + 1) * T)) / T := div_le_div_of_nonneg_right k1 hT.le
      _ = _ := by field_simp
  have hx := abs_nonneg x
  have k3 : max |k / T| 1 ≤ 2 * |x| + 3 := by
    have h1 := abs_add_le (k / T - x) x
    rw [sub_add_cancel] at h1
    have h2 : 1 / 2 / T ≤ 1 := by rw [div_le_one hT]; linarith
    have h3 : u * (|x| + 1) ≤ |x| + 1 := by nlinarith
    exact max_le (by linarith) (by linarith)
  have k4 := abs_add_le (z - k / T) (k / T - x)
  rw [sub_add_sub_cancel] at k4
  have k5 := mul_le_mul_of_nonneg_left k3 hu
  linarith

theorem fltRound_near_neg {F : PsfArith} {u : ℝ} {p : ℕ} (hF : Accurate F.toFloatArith u p) (d : Int) (hd : d < 0) (x : ℝ) :
    |fltRound F d x - x| ≤ 1 / 2 / 10 ^ d + u * (3 * |x| + 4 * (1 / 10 ^ d)) := by
  unfold fltRound
  rw [if_neg (by omega), show (10 : ℝ) ^ (-d) = 1 / 10 ^ d by rw [zpow_neg, one_div], show (1 : ℝ) / 2 / 10 ^ d = 1 / 2 * (1 / 10 ^ d) by ring]
  have hu := hF.unit
  have hu1 := hF.small
  have T1 : (1 : ℝ) ≤ 1 / 10 ^ d := by rw [one_div, ← zpow_neg]; exact one_le_zpow₀ (by norm_num) (by omega)
  generalize (1 : ℝ) / 10 ^ d = T at *
  have hT : 0 < T := by linarith
  have r1 := hF.fl (x / T)
  have r2 := rint_near (F.fl (x / T))
  have r3 := hF.fl ((rint (F.fl (x / T)) : ℝ) * T)
  generalize (rint (F.fl (x / T)) : ℝ) = k at *
  generalize F.fl (x / T) = y at *
  generalize F.fl (k * T) = z at *
  have hx := abs_nonneg x
  have m1 : max |x / T| 1 * T ≤ |x| + T := by
    rw [abs_div, abs_of_pos hT, max_mul_of_nonneg _ _ hT.le, div_mul_cancel₀ _ hT.ne']
    exact max_le (by linarith) (by linarith)
  have k2 : |k * T - x| ≤ 1 / 2 * T + u * (|x| + T) := by
    have e : k * T - x = (k - y) * T + (y - x / T) * T := by field_simp; ring
    rw [e]
    refine (abs_add_le _ _).trans ?_
    rw [abs_mul, abs_mul, abs_of_pos hT, abs_sub_comm]
    have h1 : |y - k| * T ≤ 1 / 2 * T := mul_le_mul_of_nonneg_right (by rw [abs_sub_comm]; exact r2) hT.le
    have h2 : |y - x / T| * T ≤ u * (max |x / T| 1 * T) := by rw [← mul_assoc]; exact mul_le_mul_of_nonneg_right r1 hT.le
    have h3 := mul_le_mul_of_nonneg_left m1 hu
    linarith
  have k3 : max |k * T| 1 ≤ 2 * |x| + 3 * T := by
    have h1 := abs_add_le (k * T - x) x
    rw [sub_add_cancel] at h1
    have h3 : u * (|x| + T) ≤ |x| + T := by nlinarith
    exact max_le (by linarith) (by linarith)
  have k4 := abs_add_le (z - k * T) (k * T - x)
  rw [sub_add_sub_cancel] at k4
  have k5 := mul_le_mul_of_nonneg_left k3 hu
  linarith

/-- `numpy.round` changes a number by at most half a unit of the last digit and three roundings. -/
theorem fltRound_near {F : PsfArith} {u : ℝ} {p : ℕ} (hF : Accurate F.toFloatArith u p) (d : Int) (x : ℝ) :
    |fltRound F d x - x| ≤ 1 / 2 / 10 ^ d + u * (3 * |x| + 4 * max 1 (1 / 10 ^ d)) := by
  have hu := hF.unit
  rcases le_or_gt 0 d with hd | hd
  · have h1 := fltRound_near_pos hF d hd x
    have h2 : u * (3 * |x| + 4) ≤ u * (3 * |x| + 4 * max 1 (1 / 10 ^ d)) := mul_le_mul_of_nonneg_left (by linarith [le_max_left (1 : ℝ) (1 / 10 ^ d)]) hu
    linarith
  · have h1 := fltRound_near_neg hF d hd x
    have h2 : u * (3 * |x| + 4 * (1 / 10 ^ d)) ≤ u * (3 * |x| + 4 * max 1 (1 / 10 ^ d)) := mul_le_mul_of_nonneg_left (by linarith [le_max_right (1 : ℝ) (1 / 10 ^ d)]) hu
    linarith

theorem samplePoints_mem {radii thetas : List ℝ} {q : ℝ × ℝ} (h : q ∈ samplePoints radii thetas) : q.1 ∈ radii ∧ q.2 ∈ thetas := by
  unfold samplePoints at h
  split_ifs at h
  · exact List.of_mem_zip h
  · obtain ⟨r, hr, h⟩ := List.mem_flatMap.1 h
    obtain ⟨t, ht, rfl⟩ := List.mem_map.1 h
    exact ⟨hr, ht⟩

theorem samplePoints_ne {radii thetas : List ℝ} (h : radii ≠ []) (h' : thetas ≠ []) : samplePoints radii thetas ≠ [] := by
  obtain ⟨r, radii, rfl⟩ := List.exists_cons_of_ne_nil h
  obtain ⟨t, thetas, rfl⟩ := List.exists_cons_of_ne_nil h'
  unfold samplePoints
  split_ifs <;> simp

/-- The conditions under which a fit is defined: a non-empty list of different valid polynomials, radii in `[0, 1]`. -/
structure FloatFitInput (fuel : Nat) (os : List PolObj) (radii thetas : List ℝ) : Prop where
  nonempty : os ≠ []
  valid : PolsOk fuel os
  different : (ordersOf os).Nodup
  radii_nonempty : radii ≠ []
  thetas_nonempty : thetas ≠ []
  radii_range : ∀ x ∈ radii, 0 ≤ x ∧ x ≤ 1

theorem fit_float_solution (F : PsfArith) (u : ℝ) (p : ℕ) (hF : Accurate F.toFloatArith u p) (h : List Call) (fuel : Nat) (lstsq : Lstsq) (η : ℝ) (hη : 0 ≤ η)
    (hl : BackwardStable lstsq η) (os : List PolObj) (radii thetas : List ℝ) (hf : FloatFitInput fuel os radii thetas) (ε β k : ℝ)
    (hε : ∀ o ∈ os, ∀ t ∈ thetas, ((1 + u) ^ (4 * o.n.toNat + 2 * p + 11) - 1) * (Spec.norm o.m o.n * (max |(o.m : ℝ)| 1 * max |t| 1) * growth o.n.toNat) ≤ ε)
    (hβ : ∀ o ∈ os, Spec.norm o.m o.n ≤ β) (hκ : Conditioned (k ^ 2 * (samplePoints radii thetas).length) (ordersOf os) (samplePoints radii thetas))
    (hk : Real.sqrt os.length * (ε + η * (β + ε)) < k) (phases : List ℝ) (hp : phases.length = (samplePoints radii thetas).length)
    (cs : List ℝ) (hcs : cs.length = os.length) (digits : Int) :
    ∃ (x : List ℝ) (E : ℝ), (fltFitVectors F fuel lstsq os phases radii thetas digits (afterCalls h)).1 = .ok (x.map (fltRound F digits)) ∧ x.length = os.length ∧
      E = (Real.sqrt os.length * (ε + η * (β + ε)) * Real.sqrt (energy cs) +
        rms (differences phases ((samplePoints radii thetas).map fun p => combination cs (ordersOf os) p.1 p.2)) + η * rms phases) /
          (k - Real.sqrt os.length * (ε + η * (β + ε))) ∧
      ∀ j, j < os.length → |x.getD j 0 - cs.getD j 0| ≤ E := by
  have hε0 : 0 ≤ ε := by
    obtain ⟨o, os', rfl⟩ := List.exists_cons_of_ne_nil hf.nonempty
    obtain ⟨t, ts, rfl⟩ := List.exists_cons_of_ne_nil hf.thetas_nonempty
    refine le_trans ?_ (hε o (by simp) t (by simp))
    have h1 := one_le_pow_u hF.unit (4 * o.n.toNat + 2 * p + 11)
    have hn := norm_one o.m o.n ((valid_iff _ _).1 (hf.valid o (by simp)).1).1
    have m1 : (0 : ℝ) ≤ max |(o.m : ℝ)| 1 := le_trans zero_le_one (le_max_right _ _)
    have m2 : (0 : ℝ) ≤ max |t| 1 := le_trans zero_le_one (le_max_right _ _)
    exact mul_nonneg (by linarith) (mul_nonneg (mul_nonneg (by linarith) (mul_nonneg m1 m2)) (by positivity))
  have hβ0 : 0 ≤ β := by
    obtain ⟨o, os', rfl⟩ := List.exists_cons_of_ne_nil hf.nonempty
    have hn := norm_one o.m o.n ((valid_iff _ _).1 (hf.valid o (by simp)).1).1
    linarith [hβ o (by simp)]
  have hret : RetP (fltFitVectors F fuel lstsq os phases radii thetas digits) fun y => ∃ A, NearValues ε os (samplePoints radii thetas) A ∧
      y = (lstsq A phases).map (fltRound F digits) := by
    unfold fltFitVectors
    refine RetP.bind (fltFitZernikes_ok hF fuel lstsq ε radii thetas hf.radii_nonempty hf.thetas_nonempty hf.radii_range os hf.nonempty hf.valid hf.different hε phases hp)
      fun x hx => retP_pure _ ?_
    obtain ⟨A, hA, rfl⟩ := hx
    exact ⟨A, hA, rfl⟩
  obtain ⟨⟨y, e, A, hA, rfl⟩, -⟩ := hret _ (afterCalls_good h)
  obtain ⟨hlen, hE⟩ := solver_error hl hη ε β k hε0 os _ (samplePoints_ne hf.radii_nonempty hf.thetas_nonempty) A hA
    (fun o ho q hq => (zernike_le o.m o.n (hf.valid o ho).1 q.2 (hf.radii_range _ (samplePoints_mem hq).1).1 (hf.radii_range _ (samplePoints_mem hq).1).2).trans (hβ o ho))
    hβ0 hκ hk phases hp cs hcs
  refine ⟨_, _, e, hlen, rfl, fun j hj => ?_⟩
  generalize (Real.sqrt os.length * (ε + η * (β + ε)) * Real.sqrt (energy cs) +
        rms (differences phases ((samplePoints radii thetas).map fun p => combination cs (ordersOf os) p.1 p.2)) + η * rms phases) /
          (k - Real.sqrt os.length * (ε + η * (β + ε))) = E at *
  generalize lstsq A phases = x at *
  have hm : x.getD j 0 - cs.getD j 0 ∈ differences x cs := by
    unfold differences
    rw [List.mem_iff_getElem]
    exact ⟨j, by simp; omega, by simp [List.getD_eq_getElem?_getD, show j < x.length by omega, show j < cs.length by omega]⟩
  exact (Real.abs_le_sqrt (sq_le_energy _ _ hm)).trans hE

/-- C94. The coefficients that `fit_polynomials_vectors` returns with rounded arithmetic and a backward stable solver, for any phases: they differ from those of any
combination `cs` of the polynomials by at most the bound, in which the root mean square of the deviations of the phases from the combination occurs. `ε` bounds the
errors of the computed values of the polynomials (C59), `β` the values, `k` says how independent the polynomials are on the points (see `Spec.Conditioned`). -/
theorem fit_float_error (F : PsfArith) (u : ℝ) (p : ℕ) (hF : Accurate F.toFloatArith u p) (h : List Call) (fuel : Nat) (lstsq : Lstsq) (η : ℝ) (hη : 0 ≤ η)
    (hl : BackwardStable lstsq η) (os : List PolObj) (radii thetas : List ℝ) (hf : FloatFitInput fuel os radii thetas) (ε β k : ℝ)
    (hε : ∀ o ∈ os, ∀ t ∈ thetas, ((1 + u) ^ (4 * o.n.toNat + 2 * p + 11) - 1) * (Spec.norm o.m o.n * (max |(o.m : ℝ)| 1 * max |t| 1) * growth o.n.toNat) ≤ ε)
    (hβ : ∀ o ∈ os, Spec.norm o.m o.n ≤ β) (hκ : Conditioned (k ^ 2 * (samplePoints radii thetas).length) (ordersOf os) (samplePoints radii thetas))
    (hk : Real.sqrt os.length * (ε + η * (β + ε)) < k) (phases : List ℝ) (hp : phases.length = (samplePoints radii thetas).length)
    (cs : List ℝ) (hcs : cs.length = os.length) (digits : Int) :
    ∃ A E, (fltFitVectors F fuel lstsq os phases radii thetas digits (afterCalls h)).1 = .ok A ∧ A.length = os.length ∧
      E = (Real.sqrt os.length * (ε + η * (β + ε)) * Real.sqrt (energy cs) +
        rms (differences phases ((samplePoints radii thetas).map fun p => combination cs (ordersOf os) p.1 p.2)) + η * rms phases) /
          (k - Real.sqrt os.length * (ε + η * (β + ε))) ∧
      ∀ j, j < os.length → |A.getD j 0 - cs.getD j 0| ≤ E + 1 / 2 / 10 ^ digits + u * (3 * (|cs.getD j 0| + E) + 4 * max 1 (1 / 10 ^ digits)) := by
  obtain ⟨x, E, e, hlen, hE, b⟩ := fit_float_solution F u p hF h fuel lstsq η hη hl os radii thetas hf ε β k hε hβ hκ hk phases hp cs hcs digits
  refine ⟨_, E, e, by simp [hlen], hE, fun j hj => ?_⟩
  have h1 := b j hj
  have h2 := fltRound_near hF digits (x.getD j 0)
  have e2 : (x.map (fltRound F digits)).getD j 0 = fltRound F digits (x.getD j 0) := by
    simp [List.getD_eq_getElem?_getD, show j < x.length by omega]
  rw [e2]
  have h3 := abs_add_le (fltRound F digits (x.getD j 0) - x.getD j 0) (x.getD j 0 - cs.getD j 0)
  rw [sub_add_sub_cancel] at h3
  have h4 := abs_add_le (x.getD j 0 - cs.getD j 0) (cs.getD j 0)
  rw [sub_add_cancel] at h4
  have h5 : u * (3 * |x.getD j 0| + 4 * max 1 (1 / 10 ^ digits)) ≤ u * (3 * (|cs.getD j 0| + E) + 4 * max 1 (1 / 10 ^ digits)) := mul_le_mul_of_nonneg_left (by linarith) hF.unit
  linarith

theorem value_error_doubles (m n : Int) (hv : ValidOrders m n) (hn : n ≤ 10) (t : ℝ) (ht : |t| ≤ 2 * Real.pi) :
    ((1 + (2⁻¹ : ℝ) ^ 53) ^ (4 * n.toNat + 2 * 1 + 11) - 1) * (Spec.norm m n * (max |(m : ℝ)| 1 * max |t| 1) * growth n.toNat) ≤ 1 / 10 ^ 8 := by
  have hv' := (valid_iff m n).1 hv
  have hu := doubles_accurate.unit
  have a1 : (growth n.toNat : ℝ) ≤ 3363 := by
    have := growth_mono (show n.toNat ≤ 10 by omega)
    rw [growth_10] at this
    exact_mod_cast this
  have a2 := pow_u_mono hu (show 4 * n.toNat + 2 * 1 + 11 ≤ 53 by omega)
  have a3 := one_le_pow_u hu (4 * n.toNat + 2 * 1 + 11)
  have a4 : Spec.norm m n ≤ 5 := by
    unfold Spec.norm
    have hn' : (n : ℝ) ≤ 10 := by exact_mod_cast hn
    have hn'' : (0 : ℝ) ≤ n := by exact_mod_cast hv'.1
    rw [Real.sqrt_le_left (by norm_num)]
    split_ifs <;> linarith
  have a5 : max |(m : ℝ)| 1 ≤ 10 := by
    refine max_le ?_ (by norm_num)
    have : |m| ≤ 10 := by rw [abs_le]; omega
    exact_mod_cast this
  have a6 : max |t| 1 ≤ 6.3 := by
    have := Real.pi_lt_d2
    exact max_le (by norm_num at *; linarith) (by norm_num)
  have b1 : (1 : ℝ) ≤ max |(m : ℝ)| 1 := le_max_right _ _
  have b2 : (1 : ℝ) ≤ max |t| 1 := le_max_right _ _
  have b3 := norm_one m n hv'.1
  have b4 := growth_one n.toNat
  have c1 : max |(m : ℝ)| 1 * max |t| 1 ≤ 10 * 6.3 := mul_le_mul a5 a6 (by linarith) (by norm_num)
  have c2 : Spec.norm m n * (max |(m : ℝ)| 1 * max |t| 1) ≤ 5 * (10 * 6.3) := mul_le_mul a4 c1 (by nlinarith) (by norm_num)
  have c3 : Spec.norm m n * (max |(m : ℝ)| 1 * max |t| 1) * growth n.toNat ≤ 5 * (10 * 6.3) * 3363 :=
    mul_le_mul c2 a1 (by linarith) (by norm_num)
  calc _ ≤ ((1 + (2⁻¹ : ℝ) ^ 53) ^ 53 - 1) * (5 * (10 * 6.3) * 3363) := mul_le_mul (by linarith) c3 (by
        have : (0 : ℝ) ≤ max |(m : ℝ)| 1 * max |t| 1 := by nlinarith
        exact mul_nonneg (mul_nonneg (by linarith) this) (by linarith)) (by norm_num)
    _ ≤ _ := by norm_num

/-- The conditions for double precision: up to 66 polynomials up to the order 10, angles up to `2π`, a solver that is stable up to 10⁻¹⁰, and polynomials
that are independent on the points: the mean square of a combination on the points is at least 1/100 of the sum of its squared coefficients. -/
structure DoubleFit (lstsq : Lstsq) (fuel : Nat) (os : List PolObj) (radii thetas : List ℝ) : Prop extends FloatFitInput fuel os radii thetas where
  orders : ∀ o ∈ os, o.n ≤ 10
  number : os.length ≤ 66
  angles : ∀ t ∈ thetas, |t| ≤ 2 * Real.pi
  solver : BackwardStable lstsq (1 / 10 ^ 10)
  independent : Conditioned ((samplePoints radii thetas).length / 100) (ordersOf os) (samplePoints radii thetas)

theorem rms_nonneg (l : List ℝ) : 0 ≤ rms l := Real.sqrt_nonneg _

theorem double_solution (s : List ℝ → ℝ) (h : List Call) (fuel : Nat) (lstsq : Lstsq) (os : List PolObj) (radii thetas : List ℝ) (hf : DoubleFit lstsq fuel os radii thetas)
    (phases : List ℝ) (hp : phases.length = (samplePoints radii thetas).length) (cs : List ℝ) (hcs : cs.length = os.length) (digits : Int) :
    ∃ x : List ℝ, (fltFitVectors (psfDoubles s) fuel lstsq os phases radii thetas digits (afterCalls h)).1 = .ok (x.map (fltRound (psfDoubles s) digits)) ∧ x.length = os.length ∧
      ∀ j, j < os.length → |x.getD j 0 - cs.getD j 0| ≤ Real.sqrt (energy cs) / 10 ^ 6 +
        10.1 * rms (differences phases ((samplePoints radii thetas).map fun p => combination cs (ordersOf os) p.1 p.2)) + rms phases / 10 ^ 8 := by
  have sK : Real.sqrt os.length ≤ 8.13 := by
    rw [Real.sqrt_le_left (by norm_num)]
    have : (os.length : ℝ) ≤ 66 := by exact_mod_cast hf.number
    linarith
  have sK0 := Real.sqrt_nonneg (os.length : ℝ)
  have hδ : Real.sqrt os.length * (1 / 10 ^ 8 + 1 / 10 ^ 10 * (4.7 + 1 / 10 ^ 8)) ≤ 8.6 / 10 ^ 8 := by
    refine (mul_le_mul_of_nonneg_right sK (by norm_num)).trans (by norm_num)
  have hδ0 : 0 ≤ Real.sqrt os.length * (1 / 10 ^ 8 + 1 / 10 ^ 10 * (4.7 + 1 / 10 ^ 8)) := by positivity
  obtain ⟨x, E, e, hlen, hE, b⟩ := fit_float_solution (psfDoubles s) _ _ doubles_accurate h fuel lstsq (1 / 10 ^ 10) (by norm_num) hf.solver os radii thetas hf.toFloatFitInput
    (1 / 10 ^ 8) 4.7 (1 / 10) (fun o ho t ht => value_error_doubles o.m o.n (hf.valid o ho).1 (hf.orders o ho) t (hf.angles t ht))
    (fun o ho => by
      unfold Spec.norm
      have hn' : (o.n : ℝ) ≤ 10 := by exact_mod_cast hf.orders o ho
      have hn'' : (0 : ℝ) ≤ o.n := by exact_mod_cast ((valid_iff _ _).1 (hf.valid o ho).1).1
      rw [Real.sqrt_le_left (by norm_num)]
      split_ifs <;> norm_num <;> linarith)
    (by
      have := hf.independent
      rwa [show ((1 : ℝ) / 10) ^ 2 * (samplePoints radii thetas).length = (samplePoints radii thetas).length / 100 by ring])
    (by norm_num at *; linarith) phases hp cs hcs digits
  refine ⟨x, e, hlen, fun j hj => (b j hj).trans ?_⟩
  rw [hE]
  generalize Real.sqrt os.length * (1 / 10 ^ 8 + 1 / 10 ^ 10 * (4.7 + 1 / 10 ^ 8)) = δ at *
  have n1 := Real.sqrt_nonneg (energy cs)
  have n2 := rms_nonneg (differences phases ((samplePoints radii thetas).map fun p => combination cs (ordersOf os) p.1 p.2))
  have n3 := rms_nonneg phases
  generalize rms (differences phases ((samplePoints radii thetas).map fun p => combination cs (ordersOf os) p.1 p.2)) = Y at *
  generalize rms phases = P at *
  generalize Real.sqrt (energy cs) = C at *
  rw [div_le_iff₀ (by norm_num at *; linarith)]
  have c1 : δ * C ≤ 8.6 / 10 ^ 8 * C := mul_le_mul_of_nonneg_right hδ n1
  have c2 : (C / 10 ^ 6 + 10.1 * Y + P / 10 ^ 8) * (1 / 10 - 8.6 / 10 ^ 8) ≤ (C / 10 ^ 6 + 10.1 * Y + P / 10 ^ 8) * (1 / 10 - δ) :=
    mul_le_mul_of_nonneg_left (by linarith) (by positivity)
  norm_num at *
  nlinarith

/-- C94. In double precision the returned coefficients differ from those of a combination of the polynomials by at most 10⁻⁶ of the amplitudes, 10.1 times the root mean square of the
deviations of the phases from the combination, 10⁻⁸ of the root mean square of the phases, and the final rounding. -/
theorem fit_double_error (s : List ℝ → ℝ) (h : List Call) (fuel : Nat) (lstsq : Lstsq) (os : List PolObj) (radii thetas : List ℝ) (hf : DoubleFit lstsq fuel os radii thetas)
    (phases : List ℝ) (hp : phases.length = (samplePoints radii thetas).length) (cs : List ℝ) (hcs : cs.length = os.length) (digits : Int) :
    ∃ A E, (fltFitVectors (psfDoubles s) fuel lstsq os phases radii thetas digits (afterCalls h)).1 = .ok A ∧ A.length = os.length ∧
      E = Real.sqrt (energy cs) / 10 ^ 6 +
        10.1 * rms (differences phases ((samplePoints radii thetas).map fun p => combination cs (ordersOf os) p.1 p.2)) + rms phases / 10 ^ 8 ∧
      ∀ j, j < os.length → |A.getD j 0 - cs.getD j 0| ≤ E + 1 / 2 / 10 ^ digits + 2⁻¹ ^ 53 * (3 * (|cs.getD j 0| + E) + 4 * max 1 (1 / 10 ^ digits)) := by
  obtain ⟨x, e, hlen, b⟩ := double_solution s h fuel lstsq os radii thetas hf phases hp cs hcs digits
  refine ⟨_, _, e, by simp [hlen], rfl, fun j hj => ?_⟩
  have h1 := b j hj
  generalize Real.sqrt (energy cs) / 10 ^ 6 +
        10.1 * rms (differences phases ((samplePoints radii thetas).map fun p => combination cs (ordersOf os) p.1 p.2)) + rms phases / 10 ^ 8 = E at *
  have h2 := fltRound_near (F := psfDoubles s) doubles_accurate digits (x.getD j 0)
  have e2 : (x.map (fltRound (psfDoubles s) digits)).getD j 0 = fltRound (psfDoubles s) digits (x.getD j 0) := by
    simp [List.getD_eq_getElem?_getD, show j < x.length by omega]
  rw [e2]
  have h3 := abs_add_le (fltRound (psfDoubles s) digits (x.getD j 0) - x.getD j 0) (x.getD j 0 - cs.getD j 0)
  rw [sub_add_sub_cancel] at h3
  have h4 := abs_add_le (x.getD j 0 - cs.getD j 0) (cs.getD j 0)
  rw [sub_add_cancel] at h4
  have h5 : (2⁻¹ : ℝ) ^ 53 * (3 * |x.getD j 0| + 4 * max 1 (1 / 10 ^ digits)) ≤ 2⁻¹ ^ 53 * (3 * (|cs.getD j 0| + E) + 4 * max 1 (1 / 10 ^ digits)) := mul_le_mul_of_nonneg_left (by linarith) (by positivity)
  linarith

/-- The conditions do not depend on anything but the inputs: a smaller bound of the independence is implied by a greater one. -/
theorem conditioned_mono {a b : ℝ} (hab : a ≤ b) {orders : List (Int × Int)} {points : List (ℝ × ℝ)} (h : Conditioned b orders points) : Conditioned a orders points :=
  fun ds hds => (mul_le_mul_of_nonneg_right hab (energy_nonneg ds)).trans (h ds hds)

theorem rms_le {l : List ℝ} {M : ℝ} (hM : 0 ≤ M) (h : ∀ x ∈ l, |x| ≤ M) : rms l ≤ M := by
  unfold rms
  rw [Real.sqrt_le_left hM]
  have key : energy l ≤ l.length * M ^ 2 := by
    unfold energy
    induction l with
    | nil => simp
    | cons x l ih =>
      have i1 := ih fun y hy => h y (by simp [hy])
      have i2 : x ^ 2 ≤ M ^ 2 := by rw [← sq_abs]; exact pow_le_pow_left₀ (abs_nonneg _) (h x (by simp)) 2
      simp only [List.map_cons, List.sum_cons, List.length_cons]
      push_cast
      linarith
  by_cases h0 : l.length = 0
  · rw [h0]; simp; positivity
  · have : (0 : ℝ) < l.length := by exact_mod_cast Nat.pos_of_ne_zero h0
    rw [div_le_iff₀ this]
    linarith

theorem sqrt_energy_le (cs : List ℝ) : Real.sqrt (energy cs) ≤ (cs.map fun c => |c|).sum := by
  have h0 : ∀ l : List ℝ, 0 ≤ (l.map fun c => |c|).sum := fun l => List.sum_nonneg (by
    intro x hx
    obtain ⟨y, -, rfl⟩ := List.mem_map.1 hx
    exact abs_nonneg _)
  rw [Real.sqrt_le_left (h0 cs)]
  unfold energy
  induction cs with
  | nil => simp
  | cons x l ih =>
    simp only [List.map_cons, List.sum_cons]
    have h1 := h0 l
    have h2 := abs_nonneg x
    nlinarith [sq_abs x]

theorem combination_le {fuel : Nat} (os : List PolObj) (hv : PolsOk fuel os) (β : ℝ) (hβ : ∀ o ∈ os, Spec.norm o.m o.n ≤ β) (cs : List ℝ) (hcs : cs.length = os.length)
    {r : ℝ} (t : ℝ) (h0 : 0 ≤ r) (h1 : r ≤ 1) : |combination cs (ordersOf os) r t| ≤ β * (cs.map fun c => |c|).sum := by
  unfold combination ordersOf
  induction os generalizing cs with
  | nil => cases cs <;> simp at *
  | cons o os ih =>
    cases cs with
    | nil => simp at hcs
    | cons c cs =>
      have i1 := ih (fun q hq => hv q (by simp [hq])) (fun q hq => hβ q (by simp [hq])) cs (by simpa using hcs)
      simp only [List.map_cons, List.zip_cons_cons, List.sum_cons]
      refine (abs_add_le _ _).trans ?_
      rw [abs_mul, mul_add]
      refine add_le_add ?_ i1
      rw [mul_comm]
      exact mul_le_mul_of_nonneg_right ((zernike_le o.m o.n (hv o (by simp)).1 t h0 h1).trans (hβ o (by simp))) (abs_nonneg _)

/-- The last step: a number that is near a decimal number is rounded to the double nearest to it. -/
theorem fltRound_decimal (s : List ℝ → ℝ) (hs : Sums s) (d : Int) (hd : 0 ≤ d) (k : ℤ) (y : ℝ) (hy : |y - binary64 (k / 10 ^ d)| * 10 ^ d ≤ 0.4)
    (hk : |binary64 ((k : ℝ) / 10 ^ d)| * 10 ^ d ≤ 10 ^ 9) (hd' : d ≤ 22) : fltRound (psfDoubles s) d y = binary64 (k / 10 ^ d) := by
  have hF := psfDoubles_accurate s hs.1 hs.2
  have T1 : (1 : ℝ) ≤ 10 ^ d := one_le_zpow₀ (by norm_num) hd
  have T2 : (10 : ℝ) ^ d ≤ 10 ^ (22 : ℤ) := zpow_le_zpow_right₀ (by norm_num) hd'
  have a1 : |binary64 ((k : ℝ) / 10 ^ d) - k / 10 ^ d| ≤ (2⁻¹ : ℝ) ^ 53 * max |(k : ℝ) / 10 ^ d| (2⁻¹ ^ 1022) := hF.fl (k / 10 ^ d)
  have a2 : |binary64 (y * 10 ^ d) - y * 10 ^ d| ≤ (2⁻¹ : ℝ) ^ 53 * max |y * 10 ^ d| (2⁻¹ ^ 1022) := hF.fl (y * 10 ^ d)
  unfold fltRound
  rw [if_pos hd]
  have key : rint ((psfDoubles s).fl (y * 10 ^ d)) = k := by
    apply rint_unique
    show |binary64 (y * 10 ^ d) - k| < 1 / 2
    have hη : (2⁻¹ : ℝ) ^ 1022 ≤ 2⁻¹ ^ 100 := pow_le_pow_of_le_one (by norm_num) (by norm_num) (by norm_num)
    have hη0 : (0 : ℝ) < 2⁻¹ ^ 1022 := by positivity
    generalize (2⁻¹ : ℝ) ^ 1022 = η at *
    generalize binary64 (y * 10 ^ d) = z at *
    generalize binary64 ((k : ℝ) / 10 ^ d) = c at *
    generalize (10 : ℝ) ^ d = T at *
    have hT : 0 < T := by linarith
    -- the nearest double
    have m1 : |(k : ℝ) / T| * T = |(k : ℝ)| := by rw [abs_div, abs_of_pos hT]; field_simp
    have m2 : max |(k : ℝ) / T| η ≤ |(k : ℝ) / T| + η := max_le (by linarith) (by linarith [abs_nonneg ((k : ℝ) / T)])
    have m3 : |c * T - k| ≤ 2⁻¹ ^ 53 * (|(k : ℝ)| + η * T) := by
      have e : c * T - k = (c - k / T) * T := by field_simp
      rw [e, abs_mul, abs_of_pos hT]
      calc _ ≤ (2⁻¹ ^ 53 * (|(k : ℝ) / T| + η)) * T := mul_le_mul_of_nonneg_right (a1.trans (mul_le_mul_of_nonneg_left m2 (by positivity))) hT.le
        _ = _ := by rw [mul_assoc, add_mul, m1]
    have m4 : η * T ≤ 1 := by
      calc η * T ≤ 2⁻¹ ^ 100 * 10 ^ (22 : ℤ) := mul_le_mul hη T2 hT.le (by positivity)
        _ ≤ 1 := by norm_num
    have m5 : |c * T| ≤ 10 ^ 9 := by rw [abs_mul, abs_of_pos hT]; exact hk
    have m6 : |(k : ℝ)| ≤ 2 * 10 ^ 9 := by
      have := abs_sub_abs_le_abs_sub (k : ℝ) (c * T)
      rw [abs_sub_comm] at m3
      have h1 : (2⁻¹ : ℝ) ^ 53 * (|(k : ℝ)| + η * T) ≤ 1 / 4 * (|(k : ℝ)| + 1) :=
        mul_le_mul (by norm_num) (by linarith) (by positivity) (by norm_num)
      norm_num at *
      linarith
    have m7 : |y * T - c * T| ≤ 0.4 := by rw [← sub_mul, abs_mul, abs_of_pos hT]; exact hy
    have m8 : max |y * T| η ≤ 2 * 10 ^ 9 := by
      refine max_le ?_ (hη.trans (by norm_num))
      have := abs_add_le (y * T - c * T) (c * T)
      rw [sub_add_cancel] at this
      norm_num at *
      linarith
    have m9 : |z - y * T| ≤ 0.01 := a2.trans ((mul_le_mul_of_nonneg_left m8 (by positivity)).trans (by norm_num))
    have m10 : |c * T - k| ≤ 0.01 := m3.trans ((mul_le_mul_of_nonneg_left (add_le_add m6 m4) (by positivity)).trans (by norm_num))
    have e : z - k = (z - y * T) + (y * T - c * T) + (c * T - k) := by ring
    rw [e]
    have t1 := abs_add_le ((z - y * T) + (y * T - c * T)) (c * T - k)
    have t2 := abs_add_le (z - y * T) (y * T - c * T)
    norm_num at *
    linarith
  rw [key]
  rfl

theorem forall2_map_right {α β : Type} {R : α → β → Prop} {l : List α} {vs : List β} (h : List.Forall₂ R l vs) :
    ∀ v ∈ vs, ∃ q ∈ l, R q v := by
  induction h with
  | nil => simp
  | cons hr _ ih =>
    intro v hv
    rcases List.mem_cons.1 hv with rfl | hv
    · exact ⟨_, by simp, hr⟩
    · obtain ⟨q, hq, h⟩ := ih v hv
      exact ⟨q, by simp [hq], h⟩

theorem forall2_differences {α : Type} {R : α → ℝ → Prop} {l : List α} {vs : List ℝ} (h : List.Forall₂ R l vs) (f : α → ℝ) :
    ∀ x ∈ differences vs (l.map f), ∃ q ∈ l, ∃ v, R q v ∧ x = v - f q := by
  unfold differences
  induction h with
  | nil => simp
  | cons hr _ ih =>
    intro x hx
    simp only [List.map_cons, List.zipWith_cons_cons, List.mem_cons] at hx
    rcases hx with rfl | hx
    · exact ⟨_, by simp, _, hr, rfl⟩
    · obtain ⟨q, hq, h⟩ := ih x hx
      exact ⟨q, by simp [hq], h⟩

/-- C94. The round trip in double precision: the phases are the values of `sum_zernikes` at the points, computed in double precision with amplitudes that have at most `d` decimals
(the sum of their absolute values at most 30 for `d = 4`, the default); the fit of the same polynomials with `round_digits = d` returns these amplitudes, bit for bit. -/
theorem roundtrip_doubles (s : List ℝ → ℝ) (hs : Sums s) (h h' : List Call) (fuel : Nat) (lstsq : Lstsq) (os : List PolObj) (radii thetas : List ℝ)
    (hf : DoubleFit lstsq fuel os radii thetas) (d : Int) (hd : 0 ≤ d) (hd' : d ≤ 22) (ks : List ℤ) (cs : List ℝ) (hcs : cs = ks.map fun (k : ℤ) => binary64 ((k : ℝ) / 10 ^ d))
    (hlen : cs.length = os.length) (hsum : (cs.map fun c => |c|).sum * 10 ^ d ≤ 3 * 10 ^ 5) (phases : List ℝ)
    (hph : List.Forall₂ (fun (q : ℝ × ℝ) v => (fltSumPoint (psfDoubles s) fuel q.1 q.2 (cs.zip os) (afterCalls h')).1 = .ok v) (samplePoints radii thetas) phases) :
    (fltFitVectors (psfDoubles s) fuel lstsq os phases radii thetas d (afterCalls h)).1 = .ok cs := by
  obtain ⟨x, e, xl, b⟩ := double_solution s h fuel lstsq os radii thetas hf phases hph.length_eq.symm cs hlen d
  rw [e]
  congr 1
  have hzip : ∀ q ∈ cs.zip os, q.2 ∈ os := fun q hq => (List.of_mem_zip hq).2
  have hne : cs.zip os ≠ [] := by
    intro c
    have := congrArg List.length c
    simp only [List.length_zip, List.length_nil, hlen, min_self] at this
    exact hf.nonempty (List.length_eq_zero_iff.1 this)
  have hl66 : (cs.zip os).length ≤ 66 := by simp [hf.number]
  have comb : ∀ q : ℝ × ℝ, ((cs.zip os).map fun z => z.1 * zernike z.2.m z.2.n q.1 q.2).sum = combination cs (ordersOf os) q.1 q.2 := by
    intro q
    unfold combination ordersOf
    rw [List.zip_map_right, List.map_map]
    rfl
  obtain ⟨W, hW⟩ : ∃ W, W = (cs.map fun c => |c|).sum := ⟨_, rfl⟩
  have hW0 : 0 ≤ W := by rw [hW]; exact (Real.sqrt_nonneg _).trans (sqrt_energy_le cs)
  have hWW : ((cs.zip os).map fun q => max |q.1| ((2⁻¹ : ℝ) ^ 1022)).sum ≤ W + 66 * 2⁻¹ ^ 1022 := by
    have hη0 : (0 : ℝ) < 2⁻¹ ^ 1022 := by positivity
    generalize (2⁻¹ : ℝ) ^ 1022 = η at *
    have g : ∀ (l : List ℝ) (l' : List PolObj), l.length = l'.length → ((l.zip l').map fun q => max |q.1| η).sum ≤ (l.map fun c => |c|).sum + l'.length * η := by
      intro l
      induction l with
      | nil => intro l' _; simp; positivity
      | cons c l ih =>
        intro l' hl
        cases l' with
        | nil => simp at hl
        | cons o l' =>
          have i1 := ih l' (by simpa using hl)
          simp only [List.zip_cons_cons, List.map_cons, List.sum_cons, List.length_cons]
          have i2 : max |c| η ≤ |c| + η := max_le (by linarith) (by linarith [abs_nonneg c])
          push_cast
          linarith
    have g1 := g cs os hlen
    have : (os.length : ℝ) ≤ 66 := by exact_mod_cast hf.number
    rw [hW]
    nlinarith
  have pointErr : ∀ q ∈ samplePoints radii thetas, ∀ v, (fltSumPoint (psfDoubles s) fuel q.1 q.2 (cs.zip os) (afterCalls h')).1 = .ok v →
      |v - combination cs (ordersOf os) q.1 q.2| ≤ 2 / 10 ^ 8 * (W + 66 * 2⁻¹ ^ 1022) := by
    intro q hq v hv
    obtain ⟨y, hy, b1, -⟩ := sum_double_error s hs h' fuel (cs.zip os) hne (fun z hz => hf.valid _ (hzip z hz)) q.1 q.2
      (hf.radii_range _ (samplePoints_mem hq).1).1 (hf.radii_range _ (samplePoints_mem hq).1).2 (hf.angles _ (samplePoints_mem hq).2)
    rw [hv] at hy
    cases hy
    have := b1 (fun z hz => hf.orders _ (hzip z hz)) hl66
    rw [comb] at this
    exact this.trans (mul_le_mul_of_nonneg_left hWW (by norm_num))
  have hβ : ∀ o ∈ os, Spec.norm o.m o.n ≤ 4.7 := fun o ho => by
    unfold Spec.norm
    have hn' : (o.n : ℝ) ≤ 10 := by exact_mod_cast hf.orders o ho
    have hn'' : (0 : ℝ) ≤ o.n := by exact_mod_cast ((valid_iff _ _).1 (hf.valid o ho).1).1
    rw [Real.sqrt_le_left (by norm_num)]
    split_ifs <;> norm_num <;> linarith
  have hη0 : (0 : ℝ) < 2⁻¹ ^ 1022 := by positivity
  have hη : (2⁻¹ : ℝ) ^ 1022 ≤ 2⁻¹ ^ 100 := pow_le_pow_of_le_one (by norm_num) (by norm_num) (by norm_num)
  generalize (2⁻¹ : ℝ) ^ 1022 = η at *
  have r1 : rms (differences phases ((samplePoints radii thetas).map fun p => combination cs (ordersOf os) p.1 p.2)) ≤ 2 / 10 ^ 8 * (W + 66 * η) := by
    refine rms_le (by positivity) fun y hy => ?_
    obtain ⟨q, hq, v, hv, rfl⟩ := forall2_differences hph (fun p => combination cs (ordersOf os) p.1 p.2) y hy
    exact pointErr q hq v hv
  have r2 : rms phases ≤ 4.7 * W + 2 / 10 ^ 8 * (W + 66 * η) := by
    refine rms_le (by positivity) fun y hy => ?_
    obtain ⟨q, hq, hv⟩ := forall2_map_right hph y hy
    have c1 := pointErr q hq y hv
    have c2 := combination_le os hf.valid 4.7 hβ cs hlen q.2 (hf.radii_range _ (samplePoints_mem hq).1).1 (hf.radii_range _ (samplePoints_mem hq).1).2
    rw [← hW] at c2
    have c3 := abs_add_le (y - combination cs (ordersOf os) q.1 q.2) (combination cs (ordersOf os) q.1 q.2)
    rw [sub_add_cancel] at c3
    linarith
  have r3 := sqrt_energy_le cs
  rw [← hW] at r3 hsum
  have T1 : (1 : ℝ) ≤ 10 ^ d := one_le_zpow₀ (by norm_num) hd
  have T2 : (10 : ℝ) ^ d ≤ 10 ^ (22 : ℤ) := zpow_le_zpow_right₀ (by norm_num) hd'
  apply List.ext_getElem
  · simp [xl, hlen]
  · intro j h1 h2
    rw [List.getElem_map]
    have hj : j < os.length := by omega
    have bj := b j hj
    have e1 : x.getD j 0 = x[j]'(by omega) := by simp [List.getD_eq_getElem?_getD, show j < x.length by omega]
    have e2 : cs.getD j 0 = cs[j] := by simp [List.getD_eq_getElem?_getD, h2]
    rw [e1, e2] at bj
    obtain ⟨k, hk⟩ : ∃ k : ℤ, cs[j] = binary64 (k / 10 ^ d) := by
      have hkl : j < ks.length := by rw [hcs] at h2; simpa using h2
      refine ⟨ks[j], ?_⟩
      simp only [hcs, List.getElem_map]
    have hcW : |cs[j]| ≤ W := by
      rw [hW]
      have hm : |cs[j]| ∈ cs.map fun c => |c| := List.mem_map.2 ⟨cs[j], List.getElem_mem h2, rfl⟩
      exact List.single_le_sum (by intro z hz; obtain ⟨w, -, rfl⟩ := List.mem_map.1 hz; exact abs_nonneg _) _ hm
    rw [hk] at hcW bj ⊢
    refine fltRound_decimal s hs d hd k _ ?_ ?_ hd'
    · generalize (10 : ℝ) ^ d = T at *
      have hT : 0 < T := by linarith
      have b2 : |x[j]'(by omega) - binary64 (k / T)| ≤ 1.3 / 10 ^ 6 * W + η := by
        refine bj.trans ?_
        norm_num at *
        linarith
      have m4 : η * T ≤ 1 / 1000 := by
        calc η * T ≤ 2⁻¹ ^ 100 * 10 ^ (22 : ℤ) := mul_le_mul hη T2 hT.le (by positivity)
          _ ≤ _ := by norm_num
      calc _ ≤ (1.3 / 10 ^ 6 * W + η) * T := mul_le_mul_of_nonneg_right b2 hT.le
        _ = 1.3 / 10 ^ 6 * (W * T) + η * T := by ring
        _ ≤ _ := by norm_num at *; linarith
    · generalize (10 : ℝ) ^ d = T at *
      have hT : 0 < T := by linarith
      have := mul_le_mul_of_nonneg_right hcW hT.le
      norm_num at *
      linarith

/-- The elements of a surface, row by row. -/
def flattened (g : Grid) : List ℝ := (List.range g.rows).flatMap fun i => (List.range g.cols).map fun j => g.entry i j

/-- C94. The round trip with `sum_zernikes(..., get_surface=True)` on vectors of radii and angles of different lengths, and its elements row by row as the phases. -/
theorem roundtrip_surface_doubles (s : List ℝ → ℝ) (hs : Sums s) (h h' : List Call) (fuel : Nat) (lstsq : Lstsq) (os : List PolObj) (radii thetas : List ℝ)
    (hf : DoubleFit lstsq fuel os radii thetas) (hrt : radii.length ≠ thetas.length) (d : Int) (hd : 0 ≤ d) (hd' : d ≤ 22) (ks : List ℤ) (cs : List ℝ)
    (hcs : cs = ks.map fun (k : ℤ) => binary64 ((k : ℝ) / 10 ^ d)) (hlen : cs.length = os.length) (hsum : (cs.map fun c => |c|).sum * 10 ^ d ≤ 3 * 10 ^ 5) :
    ∃ g, (fltSumSurface (psfDoubles s) fuel radii thetas (cs.zip os) (afterCalls h')).1 = .ok g ∧
      (fltFitVectors (psfDoubles s) fuel lstsq os (flattened g) radii thetas d (afterCalls h)).1 = .ok cs := by
  have hne : cs.zip os ≠ [] := by
    intro c
    have := congrArg List.length c
    simp only [List.length_zip, List.length_nil, hlen, min_self] at this
    exact hf.nonempty (List.length_eq_zero_iff.1 this)
  obtain ⟨g, g', e, -, g1, g2, -, -, hg⟩ := surface_is_points s h' h' fuel (cs.zip os) hne (fun q hq => hf.valid _ (List.of_mem_zip hq).2) radii thetas
  refine ⟨g, e, roundtrip_doubles s hs h h' fuel lstsq os radii thetas hf d hd hd' ks cs hcs hlen hsum _ ?_⟩
  unfold samplePoints flattened
  rw [if_neg hrt, g1, g2]
  have er : radii.flatMap (fun r => thetas.map fun t => (r, t)) =
      (List.range radii.length).flatMap fun i => (List.range thetas.length).map fun j => (radii.getD i 0, thetas.getD j 0) := by
    have e1 : ∀ l : List ℝ, l = (List.range l.length).map fun i => l.getD i 0 := by
      intro l
      apply List.ext_getElem
      · simp
      · intro i a b; simp [a]
    conv_lhs => rw [e1 radii, e1 thetas]
    rw [List.flatMap_map]
    simp [List.map_map, Function.comp_def]
  rw [er]
  have inner : ∀ (l : List Nat) (f : Nat → ℝ × ℝ) (k : Nat → ℝ), (∀ j ∈ l, (fltSumPoint (psfDoubles s) fuel (f j).1 (f j).2 (cs.zip os) (afterCalls h')).1 = .ok (k j)) →
      List.Forall₂ (fun (q : ℝ × ℝ) v => (fltSumPoint (psfDoubles s) fuel q.1 q.2 (cs.zip os) (afterCalls h')).1 = .ok v) (l.map f) (l.map k) := by
    intro l f k hl
    induction l with
    | nil => simp
    | cons a l ih =>
      rw [List.map_cons, List.map_cons]
      exact List.Forall₂.cons (hl a (by simp)) (ih fun j hj => hl j (by simp [hj]))
  have outer : ∀ l : List Nat, (∀ i ∈ l, i < radii.length) →
      List.Forall₂ (fun (q : ℝ × ℝ) v => (fltSumPoint (psfDoubles s) fuel q.1 q.2 (cs.zip os) (afterCalls h')).1 = .ok v)
        (l.flatMap fun i => (List.range thetas.length).map fun j => (radii.getD i 0, thetas.getD j 0))
        (l.flatMap fun i => (List.range thetas.length).map fun j => g.entry i j) := by
    intro l hl
    induction l with
    | nil => simp
    | cons a l ih =>
      rw [List.flatMap_cons, List.flatMap_cons]
      refine List.rel_append (inner _ _ _ fun j hj => ?_) (ih fun i hi => hl i (by simp [hi]))
      have ha : a < radii.length := hl a (by simp)
      have hj' : j < thetas.length := List.mem_range.1 hj
      exact (hg a j _ _ (by simp [ha]) (by simp [hj'])).1
  exact outer _ fun i hi => List.mem_range.1 hi

/-! ### A case that meets the conditions -/

theorem backwardStable_mono {lstsq : Lstsq} {a b : ℝ} (hab : a ≤ b) (h : BackwardStable lstsq a) : BackwardStable lstsq b := by
  intro A r hr
  obtain ⟨A', b', h1, h2, h3, h4, h5, h6⟩ := h A r hr
  exact ⟨A', b', h1, h2, h3, h4.trans (mul_le_mul_of_nonneg_right hab (Real.sqrt_nonneg _)), h5.trans (mul_le_mul_of_nonneg_right hab (Real.sqrt_nonneg _)), h6⟩

theorem backwardStable_exists : ∃ lstsq, BackwardStable lstsq (1 / 10 ^ 10) := by
  obtain ⟨l, hl⟩ := lstsq_exists
  exact ⟨l, backwardStable_mono (by norm_num) (exact_backward_stable hl)⟩

/-- Piston and tilt at three points: the centre, a point on the border, and one halfway. -/
theorem sample_doubleFit {lstsq : Lstsq} (hl : BackwardStable lstsq (1 / 10 ^ 10)) : DoubleFit lstsq 10 [⟨0, 0, false⟩, ⟨1, 1, false⟩] [0, 1, 1 / 2] [0, 0, 0] where
  nonempty := by simp
  valid := by intro o ho; simp at ho; rcases ho with rfl | rfl <;> decide
  different := by simp [ordersOf]
  radii_nonempty := by simp
  thetas_nonempty := by simp
  radii_range := by intro x hx; simp at hx; rcases hx with rfl | rfl | rfl <;> norm_num
  orders := by intro o ho; simp at ho; rcases ho with rfl | rfl <;> norm_num
  number := by simp
  angles := by intro t ht; simp at ht; subst ht; simpa using Real.pi_pos.le
  solver := hl
  independent := by
    intro ds hds
    obtain ⟨a, b, rfl⟩ : ∃ a b, ds = [a, b] := by
      match ds, hds with
      | [a, b], _ => exact ⟨a, b, rfl⟩
    have z0 : ∀ r : ℝ, zernike 0 0 r 0 = 1 := fun r => by
      simp [zernike, Spec.norm, Spec.radial, angular]
    have z1 : ∀ r : ℝ, zernike 1 1 r 0 = 2 * r := fun r => by
      simp [zernike, Spec.norm, Spec.radial, angular]
      left
      rw [show (1 : ℝ) + 1 = 2 by norm_num, Real.mul_self_sqrt (by norm_num)]
    simp [samplePoints, ordersOf, combination, energy, z0, z1]
    nlinarith [sq_nonneg (a + b), sq_nonneg (a - b), sq_nonneg a, sq_nonneg b, sq_nonneg (a + b * 2), sq_nonneg (2 * a + b)]

/-- Amplitudes 0.5 and -0.1234, the phases computed in double precision: the fit returns them, bit for bit. -/
example {lstsq : Lstsq} (hl : BackwardStable lstsq (1 / 10 ^ 10)) (h h' : List Call) :
    ∃ phases, List.Forall₂ (fun (q : ℝ × ℝ) v => (fltSumPoint (psfDoubles (sumFromLeft binary64)) 10 q.1 q.2
        ([binary64 (5000 / 10 ^ (4 : ℤ)), binary64 (-1234 / 10 ^ (4 : ℤ))].zip [⟨0, 0, false⟩, ⟨1, 1, false⟩]) (afterCalls h')).1 = .ok v) [(0, 0), (1, 0), (1 / 2, 0)] phases ∧
      (fltFitVectors (psfDoubles (sumFromLeft binary64)) 10 lstsq [⟨0, 0, false⟩, ⟨1, 1, false⟩] phases [0, 1, 1 / 2] [0, 0, 0] 4 (afterCalls h)).1 =
        .ok [binary64 (5000 / 10 ^ (4 : ℤ)), binary64 (-1234 / 10 ^ (4 : ℤ))] := by
  have hf := sample_doubleFit hl
  have hu : Usable 10 ([binary64 (5000 / 10 ^ (4 : ℤ)), binary64 (-1234 / 10 ^ (4 : ℤ))].zip [(⟨0, 0, false⟩ : PolObj), ⟨1, 1, false⟩]) :=
    fun q hq => hf.valid _ (List.of_mem_zip hq).2
  have e := fun r t => (fltSumPoint_ret (psfDoubles (sumFromLeft binary64)) 10 (binary64 (5000 / 10 ^ (4 : ℤ))) ⟨0, 0, false⟩
    [(binary64 (-1234 / 10 ^ (4 : ℤ)), ⟨1, 1, false⟩)] hu r t _ (afterCalls_good h')).1
  refine ⟨_, List.Forall₂.cons (e 0 0) (List.Forall₂.cons (e 1 0) (List.Forall₂.cons (e (1 / 2) 0) List.Forall₂.nil)), ?_⟩
  refine roundtrip_doubles _ sumFromLeft_sums h h' 10 lstsq _ _ _ hf 4 (by norm_num) (by norm_num) [5000, -1234] _ (by simp) (by simp) ?_ _ ?_
  · have h1 := binary64_error (5000 / 10 ^ (4 : ℤ))
    have h2 := binary64_error (-1234 / 10 ^ (4 : ℤ))
    have b1 : |binary64 (5000 / 10 ^ (4 : ℤ))| ≤ 2 := by
      have := abs_add_le (binary64 (5000 / 10 ^ (4 : ℤ)) - 5000 / 10 ^ (4 : ℤ)) (5000 / 10 ^ (4 : ℤ))
      rw [sub_add_cancel] at this
      norm_num [abs_of_pos] at *
      linarith
    have b2 : |binary64 (-1234 / 10 ^ (4 : ℤ))| ≤ 2 := by
      have := abs_add_le (binary64 (-1234 / 10 ^ (4 : ℤ)) - (-1234 / 10 ^ (4 : ℤ))) (-1234 / 10 ^ (4 : ℤ))
      rw [sub_add_cancel] at this
      norm_num [abs_of_neg, abs_of_pos] at *
      linarith
    simp only [List.map_cons, List.map_nil, List.sum_cons, List.sum_nil]
    norm_num at *
    linarith
  · exact List.Forall₂.cons (e 0 0) (List.Forall₂.cons (e 1 0) (List.Forall₂.cons (e (1 / 2) 0) List.Forall₂.nil))

/-- Piston and tilt on a surface of two radii and one angle. -/
theorem sample_surfaceFit {lstsq : Lstsq} (hl : BackwardStable lstsq (1 / 10 ^ 10)) : DoubleFit lstsq 10 [⟨0, 0, false⟩, ⟨1, 1, false⟩] [1, 1 / 2] [0] where
  nonempty := by simp
  valid := (sample_doubleFit hl).valid
  different := (sample_doubleFit hl).different
  radii_nonempty := by simp
  thetas_nonempty := by simp
  radii_range := by intro x hx; simp at hx; rcases hx with rfl | rfl <;> norm_num
  orders := (sample_doubleFit hl).orders
  number := by simp
  angles := by intro t ht; simp at ht; subst ht; simpa using Real.pi_pos.le
  solver := hl
  independent := by
    intro ds hds
    obtain ⟨a, b, rfl⟩ : ∃ a b, ds = [a, b] := by
      match ds, hds with
      | [a, b], _ => exact ⟨a, b, rfl⟩
    have z0 : ∀ r : ℝ, zernike 0 0 r 0 = 1 := fun r => by
      simp [zernike, Spec.norm, Spec.radial, angular]
    have z1 : ∀ r : ℝ, zernike 1 1 r 0 = 2 * r := fun r => by
      simp [zernike, Spec.norm, Spec.radial, angular]
      left
      rw [show (1 : ℝ) + 1 = 2 by norm_num, Real.mul_self_sqrt (by norm_num)]
    simp [samplePoints, ordersOf, combination, energy, z0, z1]
    nlinarith [sq_nonneg (3 * a + 5 * b), sq_nonneg (5 * a + 8 * b), sq_nonneg a, sq_nonneg b, sq_nonneg (a + b * 2), sq_nonneg (2 * a + 3 * b)]

example {lstsq : Lstsq} (hl : BackwardStable lstsq (1 / 10 ^ 10)) (h h' : List Call) :
    ∃ g, (fltSumSurface (psfDoubles (sumFromLeft binary64)) 10 [1, 1 / 2] [0] ([binary64 (1 / 10 ^ (0 : ℤ)), binary64 (-2 / 10 ^ (0 : ℤ))].zip [⟨0, 0, false⟩, ⟨1, 1, false⟩]) (afterCalls h')).1 = .ok g ∧
      (fltFitVectors (psfDoubles (sumFromLeft binary64)) 10 lstsq [⟨0, 0, false⟩, ⟨1, 1, false⟩] (flattened g) [1, 1 / 2] [0] 0 (afterCalls h)).1 =
        .ok [binary64 (1 / 10 ^ (0 : ℤ)), binary64 (-2 / 10 ^ (0 : ℤ))] := by
  refine roundtrip_surface_doubles _ sumFromLeft_sums h h' 10 lstsq _ _ _ (sample_surfaceFit hl) (by simp) 0 le_rfl (by norm_num) [1, -2] _ (by simp) (by simp) ?_
  have h1 : binary64 (1 / 10 ^ (0 : ℤ)) = 1 := by simpa using binary64_int 1 (by norm_num)
  have h2 : binary64 (-2 / 10 ^ (0 : ℤ)) = -2 := by simpa using binary64_int (-2) (by norm_num)
  rw [h1, h2]
  norm_num

/-- C94. As in exact arithmetic, no polynomials or repeated ones are a `ValueError`. -/
theorem fit_float_rejects (F : PsfArith) (h : List Call) (fuel : Nat) (lstsq : Lstsq) (os : List PolObj) (phases radii thetas : List ℝ) (digits : Int)
    (ho : os = [] ∨ ¬ (ordersOf os).Nodup) : (fltFitVectors F fuel lstsq os phases radii thetas digits (afterCalls h)).1 = .error .valueError := by
  have : fltFitZernikes F fuel lstsq phases radii thetas os = CM.raise .valueError := by
    unfold fltFitZernikes
    rcases ho with rfl | ho
    · rfl
    · by_cases h0 : os.length = 0
      · rw [if_pos h0]
      · rw [if_neg h0]; exact if_neg ho
  unfold fltFitVectors
  rw [this]
  rfl

end Verif.Props
