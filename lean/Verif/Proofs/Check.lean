import Verif.Model.Check
import Verif.Spec.Check
import Verif.Proofs.Kernel

/-! # The developers' reference integrations -/

namespace Verif.Proofs
open Verif.Model Verif.Spec

theorem checkDiffraction_eq (fuel : Nat) (o : PolObj) (alpha phi p theta r : ℝ) :
    checkDiffraction fuel o alpha phi p theta r = diffractionAt (singlePhase fuel o alpha) phi p theta r := by
  funext s
  unfold checkDiffraction diffractionAt singlePhase wave
  simp only [bind]
  generalize polVal fuel o (.num p) (.num phi) s = q
  obtain ⟨e, s'⟩ := q
  cases e with
  | error e => rfl
  | ok v => cases v with
    | scalar x => rfl
    | array sh d =>
      show (Except.ok _, s') = (Except.ok _, s')
      simp only [Num.item, Num.smul, Num.map]
      rcases d with _ | ⟨x, t⟩ <;> simp

theorem checkDiffractionSumR_eq (fuel : Nat) (o : PolObj) (alpha phi : ℝ) (p : List ℝ) (theta r : ℝ) :
    checkDiffractionSumR fuel o alpha phi p theta r = diffractionSum (singlePhase fuel o alpha) phi p theta r := by
  funext s
  unfold checkDiffractionSumR diffractionSum singlePhase wave
  simp only [bind]
  generalize polVal fuel o (.arr [p.length] p) (.num phi) s = q
  obtain ⟨e, s'⟩ := q
  cases e with
  | error e => rfl
  | ok v =>
    show (Except.ok _, s') = (Except.ok _, s')
    congr 2
    refine congrArg (fun f => (List.mapIdx f p).sum) ?_
    funext k x
    congr 4
    cases v with
    | scalar x => rfl
    | array sh d =>
      simp only [Num.item, Num.smul, Num.map]
      rw [List.getD_eq_getElem?_getD, List.getD_eq_getElem?_getD, List.getElem?_map]
      cases d[k]? <;> simp

theorem checkRadialIntegral_eq (fuel : Nat) (o : PolObj) (r theta phi alpha : ℝ) :
    checkRadialIntegral fuel o r theta phi alpha = radialIntegral (singlePhase fuel o alpha) r theta phi 320 := by
  unfold checkRadialIntegral radialIntegral
  rw [if_neg (by norm_num)]
  simp only [checkDiffraction_eq, checkDiffractionSumR_eq, checkPPoints]

theorem checkLoop_eq (fuel : Nat) (o : PolObj) (r theta alpha h : ℝ) (l : List Int) : ∀ acc : ℂ,
    checkLoop (fun phi => checkRadialIntegral fuel o r theta phi alpha) h l acc =
      angleSum (singlePhase fuel o alpha) r theta h 320 l acc := by
  induction l with
  | nil => intro acc; rfl
  | cons i l ih =>
    intro acc
    unfold checkLoop angleSum
    simp only [checkRadialIntegral_eq] at ih ⊢
    simp only [ih]

theorem checkPointR_eq (fuel : Nat) (o : PolObj) (r theta alpha : ℝ) :
    checkPointR fuel o r theta alpha = psfPoint (singlePhase fuel o alpha) r theta 320 300 := by
  unfold checkPointR psfPoint
  rw [if_neg (by norm_num)]
  simp only [checkLoop_eq, checkPhiPoints]
  simp only [checkRadialIntegral_eq]

theorem checkDiffraction_ok (fuel : Nat) (o : PolObj) (hv : ValidOrders o.m o.n) (hf : o.n.toNat + 1 < fuel) (alpha phi p theta r : ℝ)
    (h0 : 0 ≤ p) (h1 : p ≤ 1) :
    Ret (checkDiffraction fuel o alpha phi p theta r) (pupilField (fun p φ => alpha * zernike o.m o.n p φ) r theta p phi) := by
  rw [checkDiffraction_eq]
  refine Ret.bind ((singlePhase_ok fuel o hv hf alpha).1 p phi h0 h1) ?_
  rw [← wave_eq]
  exact ret_pure _

theorem angles_eq : npArangeFrom (Real.pi / ((300 : ℤ) : ℝ)) (2 * Real.pi) (Real.pi / ((300 : ℤ) : ℝ)) =
    (List.range 599).map fun (i : ℕ) => ((i + 1 : ℕ) : ℝ) * (2 * Real.pi / (600 : ℕ)) := by
  unfold npArangeFrom
  have e : ⌈(2 * Real.pi - Real.pi / ((300 : ℤ) : ℝ)) / (Real.pi / ((300 : ℤ) : ℝ))⌉.toNat = 599 := by
    have : (2 * Real.pi - Real.pi / ((300 : ℤ) : ℝ)) / (Real.pi / ((300 : ℤ) : ℝ)) = ((599 : ℤ) : ℝ) := by
      have := Real.pi_ne_zero
      push_cast; field_simp; norm_num
    rw [this, Int.ceil_intCast]; rfl
  rw [e]
  congr 1
  funext i
  push_cast
  ring

theorem checkDiffractionSumAng_ok (fuel : Nat) (o : PolObj) (hv : ValidOrders o.m o.n) (hf : o.n.toNat + 1 < fuel) (alpha : ℝ) (phi : List ℝ)
    (p theta r : ℝ) (hne : phi ≠ []) (h0 : 0 ≤ p) (h1 : p ≤ 1) :
    Ret (checkDiffractionSumAng fuel o alpha phi p theta r)
      (phi.map fun y => pupilField (fun p φ => alpha * zernike o.m o.n p φ) r theta p y).sum := by
  obtain ⟨w, hw, _⟩ := checkAnglesArray_ok [phi.length] phi hne
  have hw' : checkAngles (.arr [phi.length] phi) = .ok (.array [phi.length] phi, w) := hw
  refine Ret.bind (polVal_ok fuel o hv hf _ _ _ _ w (checkRadii_num p h0 h1) hw' rfl) ?_
  have e : (phi.mapIdx fun k y => Complex.exp (((alpha * (Num.pt (zernike o.m o.n) (.scalar p) (.array [phi.length] phi)).item k -
      r * p * Real.cos (y - theta) : ℝ) : ℂ) * Complex.I) * p).sum =
      (phi.map fun y => pupilField (fun p φ => alpha * zernike o.m o.n p φ) r theta p y).sum := by
    congr 1
    apply List.ext_getElem
    · simp
    · intro i a b
      have hi : i < phi.length := by simpa using b
      simp only [List.getElem_mapIdx, List.getElem_map]
      rw [← wave_eq]
      simp [wave, Num.item, Num.pt, hi]
  rw [e]
  exact ret_pure _

theorem checkAngularIntegral_ok (fuel : Nat) (o : PolObj) (hv : ValidOrders o.m o.n) (hf : o.n.toNat + 1 < fuel) (r theta p alpha : ℝ)
    (h0 : 0 ≤ p) (h1 : p ≤ 1) :
    Ret (checkAngularIntegral fuel o r theta p alpha)
      (circleTrapezoid 600 fun φ => pupilField (fun p φ => alpha * zernike o.m o.n p φ) r theta p φ) := by
  unfold checkAngularIntegral checkPhiPoints
  dsimp only
  rw [angles_eq]
  refine Ret.bind (checkDiffraction_ok fuel o hv hf alpha 0 p theta r h0 h1) ?_
  refine Ret.bind (checkDiffraction_ok fuel o hv hf alpha (2 * Real.pi) p theta r h0 h1) ?_
  refine Ret.bind (checkDiffractionSumAng_ok fuel o hv hf alpha _ p theta r (by simp) h0 h1) ?_
  generalize (fun p φ => alpha * zernike o.m o.n p φ) = Φ
  have key : ∀ a b : ℂ, a = b → Ret (pure a : CM ℂ) b := by rintro a b rfl; exact ret_pure _
  apply key
  rw [List.map_map, sum_list_range]
  have := sum_Ioo 600 fun k => pupilField Φ r theta p ((k : ℝ) * (2 * Real.pi / (600 : ℕ)))
  unfold circleTrapezoid
  rw [← this]
  have e : ((Real.pi / ((300 : ℤ) : ℝ) : ℝ) : ℂ) = ((2 * Real.pi / (600 : ℕ) : ℝ) : ℂ) := by
    rw [show Real.pi / ((300 : ℤ) : ℝ) = 2 * Real.pi / (600 : ℕ) by push_cast; ring]
  rw [e, show 600 - 1 = 599 from rfl]
  simp only [Function.comp_def]
  generalize ∑ i ∈ Finset.range 599, pupilField Φ r theta p (((i + 1 : ℕ) : ℝ) * (2 * Real.pi / (600 : ℕ))) = S
  generalize ((2 * Real.pi / (600 : ℕ) : ℝ) : ℂ) = c
  push_cast
  ring

theorem checkLoopAng_ok (fuel : Nat) (o : PolObj) (hv : ValidOrders o.m o.n) (hf : o.n.toNat + 1 < fuel) (r theta alpha h : ℝ) (l : List Int)
    (hl : ∀ i ∈ l, 0 ≤ (i : ℝ) * h ∧ (i : ℝ) * h ≤ 1) : ∀ acc : ℂ,
    Ret (checkLoop (fun p => checkAngularIntegral fuel o r theta p alpha) h l acc)
      (acc + (l.map fun (i : Int) => circleTrapezoid 600 fun φ =>
        pupilField (fun p φ => alpha * zernike o.m o.n p φ) r theta ((i : ℝ) * h) φ).sum) := by
  induction l with
  | nil => intro acc; simpa [checkLoop] using ret_pure acc
  | cons i l ih =>
    intro acc
    have hi := hl i (by simp)
    refine Ret.bind (checkAngularIntegral_ok fuel o hv hf r theta _ alpha hi.1 hi.2) ?_
    have := ih (fun j hj => hl j (by simp [hj])) (acc + circleTrapezoid 600 fun φ =>
      pupilField (fun p φ => alpha * zernike o.m o.n p φ) r theta ((i : ℝ) * h) φ)
    simpa [add_assoc] using this

theorem pyRange_bounds (a s : Int) (ha : 0 ≤ a) (i : Int) (hi : i ∈ pyRange a s 2) : 0 ≤ i ∧ i < s := by
  unfold pyRange at hi
  simp only [List.mem_map, List.mem_range] at hi
  obtain ⟨k, hk, rfl⟩ := hi
  omega

theorem checkPointAng_ok (fuel : Nat) (o : PolObj) (hv : ValidOrders o.m o.n) (hf : o.n.toNat + 1 < fuel) (r theta alpha : ℝ) :
    Ret (checkPointAng fuel o r theta alpha) (angleFirstValue (fun p φ => alpha * zernike o.m o.n p φ) r theta 320 600) := by
  unfold checkPointAng checkPPoints
  dsimp only
  have hb : ∀ a s : Int, 0 ≤ a → s ≤ 320 → ∀ i ∈ pyRange a s 2, 0 ≤ (i : ℝ) * (1 / ((320 : ℤ) : ℝ)) ∧ (i : ℝ) * (1 / ((320 : ℤ) : ℝ)) ≤ 1 := by
    intro a s ha hs i hi
    obtain ⟨p, q⟩ := pyRange_bounds a s ha i hi
    have p' : (0 : ℝ) ≤ i := by exact_mod_cast p
    have q' : (i : ℝ) ≤ 320 := by exact_mod_cast (by omega : i ≤ 320)
    constructor
    · positivity
    · push_cast; linarith
  refine Ret.bind (checkLoopAng_ok fuel o hv hf r theta alpha _ _ (hb _ _ (by norm_num) (by norm_num)) 0) ?_
  refine Ret.bind (checkLoopAng_ok fuel o hv hf r theta alpha _ _ (hb _ _ (by norm_num) (by norm_num)) 0) ?_
  refine Ret.bind (checkAngularIntegral_ok fuel o hv hf r theta 0 alpha le_rfl zero_le_one) ?_
  refine Ret.bind (checkAngularIntegral_ok fuel o hv hf r theta 1 alpha zero_le_one le_rfl) ?_
  generalize (fun p φ => alpha * zernike o.m o.n p φ) = Φ
  have key : ∀ a b : ℝ, a = b → Ret (pure a : CM ℝ) b := by rintro a b rfl; exact ret_pure _
  apply key
  have e1 := pyRange_sum 2 320 318 (by omega) le_rfl (Or.inl rfl) 318 (Or.inl rfl) (by omega)
    fun x => circleTrapezoid 600 fun φ => pupilField Φ r theta (x * (1 / ((320 : ℤ) : ℝ))) φ
  have e2 := pyRange_sum 1 320 319 (by omega) (by omega) (Or.inr rfl) 319 (Or.inr rfl) (by omega)
    fun x => circleTrapezoid 600 fun φ => pupilField Φ r theta (x * (1 / ((320 : ℤ) : ℝ))) φ
  simp only [Nat.cast_ofNat, Nat.cast_one] at e1 e2
  rw [show (320 : ℤ) - 2 = 318 from rfl, show (320 : ℤ) - 1 = 319 from rfl, e1, e2, zero_add, zero_add]
  unfold angleFirstValue radiusRule
  rw [div_pow]
  have hn : ∀ z w : ℂ, z = w → ∀ c d : ℝ, c = d → ‖z‖ ^ 2 / c = ‖w‖ ^ 2 / d := by rintro z _ rfl c _ rfl; rfl
  apply hn
  · simp only [Int.cast_ofNat, Nat.cast_ofNat]
    push_cast
    rfl
  · ring

/-! ### The bound and the central value -/

theorem circleTrapezoid_const (N : ℕ) (hN : 0 < N) (c : ℂ) : circleTrapezoid N (fun _ => c) = ((2 * Real.pi : ℝ) : ℂ) * c := by
  unfold circleTrapezoid
  have hN' : (N : ℂ) ≠ 0 := by exact_mod_cast hN.ne'
  rw [Finset.sum_const, Nat.card_Ioo, nsmul_eq_mul]
  have : ((N - 0 - 1 : ℕ) : ℂ) = (N : ℂ) - 1 := by rw [Nat.sub_zero, Nat.cast_sub hN]; simp
  rw [this]
  push_cast
  field_simp
  ring

theorem circleTrapezoid_le (N : ℕ) (hN : 0 < N) (g : ℝ → ℂ) (c : ℝ) (h : ∀ φ, ‖g φ‖ ≤ c) : ‖circleTrapezoid N g‖ ≤ 2 * Real.pi * c := by
  unfold circleTrapezoid
  have hN' : (0 : ℝ) < N := by exact_mod_cast hN
  have hp := Real.pi_pos
  rw [norm_mul, Complex.norm_real, Real.norm_of_nonneg (by positivity)]
  have hs : ‖∑ k ∈ Finset.Ioo 0 N, g ((k : ℝ) * (2 * Real.pi / N))‖ ≤ ((N : ℝ) - 1) * c := by
    refine (norm_sum_le _ _).trans ((Finset.sum_le_sum fun k _ => h _).trans ?_)
    rw [Finset.sum_const, Nat.card_Ioo, nsmul_eq_mul]
    have : ((N - 0 - 1 : ℕ) : ℝ) = (N : ℝ) - 1 := by rw [Nat.sub_zero, Nat.cast_sub hN]; simp
    rw [this]
  have h0 : ‖g 0 / 2‖ ≤ c / 2 := by rw [norm_div]; have := h 0; simpa using by linarith
  have h1 : ‖g (2 * Real.pi) / 2‖ ≤ c / 2 := by rw [norm_div]; have := h (2 * Real.pi); simpa using by linarith
  have ht := norm_add₃_le (a := g 0 / 2) (b := ∑ k ∈ Finset.Ioo 0 N, g ((k : ℝ) * (2 * Real.pi / N))) (c := g (2 * Real.pi) / 2)
  calc 2 * Real.pi / N * _ ≤ 2 * Real.pi / N * (N * c) := mul_le_mul_of_nonneg_left (by linarith) (by positivity)
    _ = 2 * Real.pi * c := by field_simp

theorem sum_even_320 : ∑ k ∈ (Finset.Ioo 0 (320 - 2)).filter (fun k => k % 2 = 0), (k : ℕ) = 25122 := by decide +kernel

theorem sum_odd_320 : ∑ k ∈ (Finset.Ioo 0 (320 - 1)).filter (fun k => k % 2 = 1), (k : ℕ) = 25281 := by decide +kernel

theorem radiusRule_id : radiusRule 320 (fun p => (p : ℂ)) = 18961 / 38400 := by
  unfold radiusRule
  have a : ∀ s : Finset ℕ, ∑ k ∈ s, ((((k : ℝ) * (1 / (320 : ℕ)) : ℝ)) : ℂ) = ((∑ k ∈ s, k : ℕ) : ℂ) * (1 / 320) := by
    intro s
    rw [Nat.cast_sum, Finset.sum_mul]
    exact Finset.sum_congr rfl fun k _ => by push_cast; ring
  rw [a, a, sum_even_320, sum_odd_320]
  push_cast
  norm_num

theorem radiusRule_le (g : ℝ → ℂ) (c : ℝ) (h : ∀ p, 0 ≤ p → ‖g p‖ ≤ c * p) : ‖radiusRule 320 g‖ ≤ c * (18961 / 38400) := by
  unfold radiusRule
  rw [norm_mul]
  have e : ‖((1 / (320 : ℕ) : ℝ) : ℂ) / 3‖ = 1 / 960 := by
    rw [norm_div, Complex.norm_real, Real.norm_of_nonneg (by positivity)]; norm_num
  rw [e]
  have hs : ∀ s : Finset ℕ, ‖∑ k ∈ s, g ((k : ℝ) * (1 / (320 : ℕ)))‖ ≤ c * (((∑ k ∈ s, k : ℕ) : ℝ) * (1 / 320)) := by
    intro s
    refine (norm_sum_le _ _).trans ((Finset.sum_le_sum fun k _ => h _ (by positivity)).trans (le_of_eq ?_))
    rw [← Finset.mul_sum, Nat.cast_sum, Finset.sum_mul]
    congr 1
  have s1 := hs ((Finset.Ioo 0 (320 - 2)).filter (fun k => k % 2 = 0))
  have s2 := hs ((Finset.Ioo 0 (320 - 1)).filter (fun k => k % 2 = 1))
  rw [sum_even_320] at s1
  rw [sum_odd_320] at s2
  have h0 := h 0 le_rfl
  have h1 := h 1 zero_le_one
  generalize ∑ k ∈ (Finset.Ioo 0 (320 - 2)).filter (fun k : ℕ => k % 2 = 0), g ((k : ℝ) * (1 / (320 : ℕ))) = A at s1 ⊢
  generalize ∑ k ∈ (Finset.Ioo 0 (320 - 1)).filter (fun k : ℕ => k % 2 = 1), g ((k : ℝ) * (1 / (320 : ℕ))) = B at s2 ⊢
  have t1 := norm_add_le (g 0 + g 1 + 2 * A) (4 * B)
  have t2 := norm_add_le (g 0 + g 1) (2 * A)
  have t3 := norm_add_le (g 0) (g 1)
  have n1 : ‖2 * A‖ = 2 * ‖A‖ := by simp
  have n2 : ‖4 * B‖ = 4 * ‖B‖ := by simp
  push_cast at s1 s2
  linarith

theorem angleFirst_le (Φ : ℝ → ℝ → ℝ) (r θ : ℝ) : angleFirstValue Φ r θ 320 600 ≤ (18961 / 38400) ^ 2 := by
  unfold angleFirstValue
  have hp := Real.pi_pos
  apply pow_le_pow_left₀ (by positivity)
  rw [div_le_iff₀ (by positivity), mul_comm]
  apply radiusRule_le
  intro p h0
  exact circleTrapezoid_le 600 (by norm_num) _ p fun φ => (norm_pupilField Φ r θ p φ h0).le

theorem angleFirst_center (a θ : ℝ) : angleFirstValue (fun _ _ => a) 0 θ 320 600 = (18961 / 38400) ^ 2 := by
  unfold angleFirstValue
  have hp := Real.pi_pos
  have e : (fun p : ℝ => circleTrapezoid 600 fun φ => pupilField (fun _ _ => a) 0 θ p φ) =
      fun p : ℝ => (((2 * Real.pi : ℝ) : ℂ) * Complex.exp (Complex.I * a)) * (p : ℂ) := by
    funext p
    have : (fun φ => pupilField (fun _ _ => a) 0 θ p φ) = fun _ => Complex.exp (Complex.I * a) * (p : ℂ) := by
      funext φ; unfold pupilField; simp
    rw [this, circleTrapezoid_const 600 (by norm_num), mul_assoc]
  have lin : ∀ c : ℂ, radiusRule 320 (fun p => c * (p : ℂ)) = c * radiusRule 320 (fun p => (p : ℂ)) := by
    intro c
    unfold radiusRule
    rw [← Finset.mul_sum, ← Finset.mul_sum]
    ring
  rw [e, lin, radiusRule_id, norm_mul, norm_mul, Complex.norm_real, mul_comm Complex.I, Complex.norm_exp_ofReal_mul_I,
    Real.norm_of_nonneg (by positivity)]
  have : ‖(18961 / 38400 : ℂ)‖ = 18961 / 38400 := by
    rw [show (18961 / 38400 : ℂ) = ((18961 / 38400 : ℝ) : ℂ) by push_cast; rfl, Complex.norm_real, Real.norm_of_nonneg (by norm_num)]
  rw [this]
  congr 1
  field_simp

end Verif.Proofs
