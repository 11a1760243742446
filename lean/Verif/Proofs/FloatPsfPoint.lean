import Verif.Proofs.FloatPsf
import Verif.Proofs.PsfBound

/-!
# Error analysis of the PSF: the radial and the angular integration
-/

namespace Verif.Proofs
open Verif.Model Verif.Spec

section
variable {F : PsfArith} {u η : ℝ} {p : ℕ}

theorem W_one (hF : PsfAccurate F u η p) {W : ℝ} (hW : 1 ≤ W) (k : ℕ) : 1 ≤ W * (1 + u) ^ k := by
  have := u_one hF k
  nlinarith

theorem W_mono (hF : PsfAccurate F u η p) {W : ℝ} (hW : 1 ≤ W) {k l : ℕ} (h : k ≤ l) : W * (1 + u) ^ k ≤ W * (1 + u) ^ l :=
  mul_le_mul_of_nonneg_left (u_mono hF h) (by linarith)

theorem Er.roundW (hF : PsfAccurate F u η p) {W : ℝ} (hW : 1 ≤ W) {k : ℕ} {M x v : ℝ} (h : Er (W * (1 + u) ^ k) M x v) (hM : η ≤ M) :
    Er (W * (1 + u) ^ (k + 1)) M (F.fl x) v := by
  rw [pow_succ, ← mul_assoc]
  exact h.round hF (W_one hF hW k) hM

theorem Er.monoW (hF : PsfAccurate F u η p) {W : ℝ} (hW : 1 ≤ W) {k l : ℕ} {M N x v : ℝ} (h : Er (W * (1 + u) ^ k) M x v) (hk : k ≤ l) (hM : M ≤ N) :
    Er (W * (1 + u) ^ l) N x v := h.mono (W_one hF hW k) (W_mono hF hW hk) hM

theorem Er.mulW (hF : PsfAccurate F u η p) {W : ℝ} (hW : 1 ≤ W) {k l : ℕ} {M N x y v w : ℝ} (hx : Er ((1 + u) ^ k) M x v) (hy : Er (W * (1 + u) ^ l) N y w) :
    Er (W * (1 + u) ^ (k + l)) (M * N) (x * y) (v * w) := by
  have := hx.mul hy (u_one hF k) (W_one hF hW l)
  rwa [show (1 + u) ^ k * (W * (1 + u) ^ l) = W * (1 + u) ^ (k + l) by rw [pow_add]; ring] at this

theorem Er.addW (hF : PsfAccurate F u η p) {W : ℝ} (hW : 1 ≤ W) {k l : ℕ} (L : ℕ) (hk : k ≤ L) (hl : l ≤ L) {M N x y v w : ℝ}
    (hx : Er (W * (1 + u) ^ k) M x v) (hy : Er (W * (1 + u) ^ l) N y w) : Er (W * (1 + u) ^ L) (M + N) (x + y) (v + w) :=
  (hx.monoW hF hW hk le_rfl).add (hy.monoW hF hW hl le_rfl) (W_one hF hW L) le_rfl

theorem Er.liftW {W : ℝ} {M x v : ℝ} (h : Er W M x v) : Er (W * (1 + u) ^ 0) M x v := by rwa [pow_zero, mul_one]

/-- The values of the waves at the nodes. -/
theorem waves_er {ph : FltPhase} {φ' θ' r' W : ℝ} (f : ℕ → ℝ) (g : ℕ → ℂ) (l : List ℝ)
    (h : ∀ i (hi : i < l.length), RetP (fltDiffraction F ph φ' l[i] θ' r') fun w => ErC W (f i) w (g i)) :
    RetP (fltWaves F ph φ' θ' r' l) fun ws => ws.length = l.length ∧ ∀ i (hi : i < ws.length), ErC W (f i) ws[i] (g i) := by
  induction l generalizing f g with
  | nil => exact retP_pure _ ⟨rfl, fun i hi => absurd hi (by simp)⟩
  | cons a t ih =>
    refine RetP.bind (h 0 (by simp)) fun w hw => ?_
    refine RetP.bind (ih (fun i => f (i + 1)) (fun i => g (i + 1)) fun i hi => h (i + 1) (by simpa using hi)) fun ws hws => ?_
    refine retP_pure _ ⟨by simp [hws.1], ?_⟩
    intro i hi
    cases i with
    | zero => exact hw
    | succ i => exact hws.2 i (by simpa using hi)

theorem sum_ofFn_list {β : Type} (l : List β) (f : β → ℝ) : (l.map f).sum = ∑ i : Fin l.length, f l[i] := by
  rw [← List.sum_ofFn]
  congr 1
  apply List.ext_getElem
  · simp
  · intro i h1 h2; simp

/-- The sum of the waves. -/
theorem sumC_er (hF : PsfAccurate F u η p) {W : ℝ} (hW : 1 ≤ W) (ws : List CFl) (N : ℕ) (hN : ws.length = N) (f : ℕ → ℝ) (g : ℕ → ℂ)
    (h : ∀ i (hi : i < ws.length), ErC W (f i) ws[i] (g i)) (hf : ∀ i, i < N → η ≤ f i) :
    ErC (W * (1 + u) ^ N) (∑ i ∈ Finset.range N, f i) (fltSum F ws) (∑ i ∈ Finset.range N, g i) := by
  have hsum : ∀ k : ℕ → ℝ, ((List.range N).map k).sum = ∑ i ∈ Finset.range N, k i := fun k => by
    rw [← List.sum_toFinset _ (List.nodup_range), List.toFinset_range]
  have hη : ∀ m ∈ (List.range N).map f, η ≤ m := by
    intro m hm
    obtain ⟨i, hi, rfl⟩ := List.mem_map.1 hm
    exact hf i (List.mem_range.1 hi)
  constructor
  · have := sum_er hF hW (ws.map CFl.re) ((List.range N).map fun i => (g i).re) ((List.range N).map f) (by simp [hN]) (by simp)
      (fun i hi => by
        simp only [List.length_map, List.length_range] at hi
        simpa using (h i (by omega)).1) hη
    rw [hsum, hsum, List.length_map, hN] at this
    rw [Complex.re_sum]
    exact this
  · have := sum_er hF hW (ws.map CFl.im) ((List.range N).map fun i => (g i).im) ((List.range N).map f) (by simp [hN]) (by simp)
      (fun i hi => by
        simp only [List.length_map, List.length_range] at hi
        simpa using (h i (by omega)).2) hη
    rw [hsum, hsum, List.length_map, hN] at this
    rw [Complex.im_sum]
    exact this

theorem sum_succ_div (n : ℕ) (hn : 2 ≤ n) : ∑ i ∈ Finset.range (n - 1), (((i : ℝ) + 1) / n) = ((n : ℝ) - 1) / 2 := by
  have key : ∀ k : ℕ, ∑ i ∈ Finset.range k, ((i : ℝ) + 1) = k * (k + 1) / 2 := by
    intro k
    induction k with
    | zero => simp
    | succ k ih => rw [Finset.sum_range_succ, ih]; push_cast; ring
  have h0 : (n : ℝ) ≠ 0 := by positivity
  rw [← Finset.sum_div, key, Nat.cast_sub (by omega)]
  push_cast
  field_simp
  ring

theorem radialPart_er (hF : PsfAccurate F u η p) {W : ℝ} (hW : 1 ≤ W) (n : ℕ) (h2 : 2 ≤ n) (hn : n < 2 ^ 50) {s fa fb vs va vb : ℝ}
    (hs : Er (W * (1 + u) ^ (n - 1)) (((n : ℝ) - 1) / 2) s vs) (ha : Er W 0 fa va) (hb : Er W 1 fb vb) :
    Er (W * (1 + u) ^ (n + 4)) (1 / 2) (fltRadialPart F (radialStep F.toFloatArith n) s fa fb) (1 / (n : ℝ) * (vs + 0.5 * (va + vb))) := by
  have hη := eta_le_inv hF n (by omega) hn
  have hn2 : (2 : ℝ) ≤ n := by exact_mod_cast h2
  have hη2 : η ≤ 1 / 2 := eta_le hF (by norm_num)
  have a := (ha.liftW.addW hF hW 0 le_rfl le_rfl hb.liftW).roundW hF hW (by linarith)
  rw [show (0 : ℝ) + 1 = 1 by norm_num] at a
  have b := ((Er.exactK u (0.5 : ℝ) (by norm_num : |(0.5 : ℝ)| ≤ 1 / 2)).mulW hF hW a).roundW hF hW (by linarith)
  have c := (hs.addW hF hW (n + 1) (by omega) (by omega) b).roundW hF hW (by linarith)
  have d := ((step_er hF n (by omega) hn).mulW hF hW c).roundW hF hW (by
    have : 1 / (n : ℝ) * (((n : ℝ) - 1) / 2 + 1 / 2 * 1) = 1 / 2 := by field_simp; ring
    rw [this]; exact hη2)
  have e : 1 / (n : ℝ) * (((n : ℝ) - 1) / 2 + 1 / 2 * 1) = 1 / 2 := by field_simp; ring
  rw [e] at d
  exact d.monoW hF hW (by omega) le_rfl

theorem trapezoid_eq (n : ℕ) (f : ℝ → ℂ) :
    trapezoid n f = ((1 / (n : ℝ) : ℝ) : ℂ) * (∑ i ∈ Finset.range (n - 1), f (((i : ℝ) + 1) / n) + ((0.5 : ℝ) : ℂ) * (f 0 + f 1)) := by
  have e : ∑ i ∈ Finset.range (n - 1), f (((i : ℝ) + 1) / n) = ∑ k ∈ Finset.Ioo 0 n, f ((k : ℝ) / n) := by
    rw [← sum_Ioo n fun k => f ((k : ℝ) / n)]
    apply Finset.sum_congr rfl
    intro i _; push_cast; rfl
  rw [e]
  unfold trapezoid
  generalize ∑ k ∈ Finset.Ioo 0 n, f ((k : ℝ) / n) = s
  push_cast
  norm_num
  left
  ring

/-- `radial_integral`. -/
theorem radial_er (hF : PsfAccurate F u η p) {kΦ kr K : ℕ} {S R : ℝ} (hR : 1 ≤ R) (hS : 0 ≤ S) (hK1 : kΦ + 1 ≤ K) (hK2 : kr + 2 * p + 21 ≤ K)
    {ph : FltPhase} {Φ : ℝ → ℝ → ℝ} (hph : FltPhaseOk u kΦ S ph Φ) {φ' φ θ' θ r' r : ℝ} (hφ : Er ((1 + u) ^ 4) (2 * Real.pi) φ' φ)
    (hθ : Er ((1 + u) ^ (p + 2)) 8 θ' θ) (hr : Er ((1 + u) ^ kr) R r' r) (n : ℕ) (h2 : 2 ≤ n) (hn : n < 2 ^ 50)
    (hlen : (radialNodes F.toFloatArith n).length = n - 1) (hunit : ∀ q ∈ radialNodes F.toFloatArith n, 0 ≤ q ∧ q ≤ 1) :
    RetP (fltRadialIntegral F ph r' θ' φ' n) fun v =>
      ErC ((1 + u) ^ (p + 12) * (1 + ((1 + u) ^ K - 1) * (S + 15 * R)) * (1 + u) ^ (n + 4)) (1 / 2) v (trapezoid n fun q => pupilField Φ r θ q φ) := by
  have hn0 : (0 : ℝ) < n := by positivity
  have hW : 1 ≤ (1 + u) ^ (p + 12) * (1 + ((1 + u) ^ K - 1) * (S + 15 * R)) := by
    have := u_one hF (p + 12)
    have h3 := u_one hF K
    have : 0 ≤ ((1 + u) ^ K - 1) * (S + 15 * R) := mul_nonneg (by linarith) (by linarith)
    nlinarith
  have dif := fun (q' q : ℝ) a b c d e f => diffraction_er hF hR hS hK1 hK2 hph hφ hθ hr (q' := q') (q := q) a b c d e f
  generalize (1 + u) ^ (p + 12) * (1 + ((1 + u) ^ K - 1) * (S + 15 * R)) = W at *
  unfold fltRadialIntegral
  rw [if_neg (by omega)]
  refine RetP.bind (dif 0 0 le_rfl zero_le_one le_rfl zero_le_one ((Er.exactK u 0 (by simp)).monoK hF (by norm_num) le_rfl) (Or.inr ⟨rfl, rfl⟩)) fun fa hfa => ?_
  refine RetP.bind (dif 1 1 zero_le_one le_rfl zero_le_one le_rfl ((Er.exactK u 1 (by simp)).monoK hF (by norm_num) le_rfl) (Or.inl (eta_le_one hF))) fun fb hfb => ?_
  have hi1 : ∀ i, i < n - 1 → (i : ℝ) + 1 ≤ n := fun i hi => by exact_mod_cast (by omega : i + 1 ≤ n)
  have hfi : ∀ i, i < n - 1 → η ≤ ((i : ℝ) + 1) / n := by
    intro i hi
    refine (eta_le_inv hF n (by omega) hn).trans (div_le_div_of_nonneg_right ?_ hn0.le)
    have : (0 : ℝ) ≤ i := by positivity
    linarith
  refine RetP.bind (waves_er (F := F) (W := W) (fun i => ((i : ℝ) + 1) / n) (fun i => pupilField Φ r θ (((i : ℝ) + 1) / n) φ) _ fun i hi => ?_) fun ws hws => ?_
  · have hm := hunit _ (List.getElem_mem hi)
    exact dif _ (((i : ℝ) + 1) / n) hm.1 hm.2 (by positivity) (by rw [div_le_one hn0]; exact hi1 i (by omega)) (node_er hF n (by omega) hn i hi)
      (Or.inl (hfi i (by omega)))
  · have hsum := sumC_er hF hW ws (n - 1) (by rw [hws.1, hlen]) _ _ hws.2 hfi
    rw [sum_succ_div n h2] at hsum
    refine retP_pure _ ?_
    rw [trapezoid_eq]
    constructor
    · rw [Complex.re_ofReal_mul, Complex.add_re, Complex.re_ofReal_mul, Complex.add_re]
      exact radialPart_er hF hW n h2 hn hsum.1 hfa.1 hfb.1
    · rw [Complex.im_ofReal_mul, Complex.add_im, Complex.im_ofReal_mul, Complex.add_im]
      exact radialPart_er hF hW n h2 hn hsum.2 hfa.2 hfb.2

/-! ### The angular integration -/

theorem angles_er {ph : FltPhase} {θ' r' h Q : ℝ} {nR : Int} (g : ℕ → ℂ) (l : List Int)
    (H : ∀ i (hi : i < l.length), RetP (fltRadialIntegral F ph r' θ' (F.fl ((l[i] : ℝ) * h)) nR) fun v => ErC Q (1 / 2) v (g i)) :
    RetP (fltAngles F ph r' θ' h nR l) fun vs => vs.length = l.length ∧ ∀ i (hi : i < vs.length), ErC Q (1 / 2) vs[i] (g i) := by
  induction l generalizing g with
  | nil => exact retP_pure _ ⟨rfl, fun i hi => absurd hi (by simp)⟩
  | cons a t ih =>
    refine RetP.bind (H 0 (by simp)) fun w hw => ?_
    refine RetP.bind (ih (fun i => g (i + 1)) fun i hi => H (i + 1) (by simpa using hi)) fun ws hws => ?_
    refine retP_pure _ ⟨by simp [hws.1], ?_⟩
    intro i hi
    cases i with
    | zero => exact hw
    | succ i => exact hws.2 i (by simpa using hi)

theorem angularPart_er (hF : PsfAccurate F u η p) {Q : ℝ} (hQ : 1 ≤ Q) (N nE nO : ℕ) (hE : 1 ≤ nE) (hO : 1 ≤ nO) (h5 : 5 ≤ N) (hN : N < 2 ^ 50)
    (hEN : nE ≤ N) (hON : nO ≤ N) {yA yB e o vA vB ve vo : ℝ}
    (hA : Er Q (1 / 2) yA vA) (hB : Er Q (1 / 2) yB vB) (he : Er (Q * (1 + u) ^ nE) (nE * (1 / 2)) e ve) (ho : Er (Q * (1 + u) ^ nO) (nO * (1 / 2)) o vo)
    (hfrac : 2 * Real.pi / N / 3 * (1 + nE + 2 * nO) ≤ Real.pi) :
    Er (Q * (1 + u) ^ (N + 8)) Real.pi (fltAngularPart F (F.fl (F.fl (F.fl (2 * F.pi) / (N : ℝ)) / 3)) yA yB e o)
      (2 * Real.pi / N / 3 * (vA + vB + 2 * ve + 4 * vo)) := by
  have hη := eta_le_inv hF N (by omega) hN
  have hN0 : (0 : ℝ) < N := by positivity
  have h1 := eta_le_one hF
  have hE1 : (1 : ℝ) ≤ nE := by exact_mod_cast hE
  have hO1 : (1 : ℝ) ≤ nO := by exact_mod_cast hO
  have hpi := Real.pi_gt_three
  have c : Er ((1 + u) ^ 4) (2 * Real.pi / N / 3) (F.fl (F.fl (F.fl (2 * F.pi) / (N : ℝ)) / 3)) (2 * Real.pi / N / 3) := by
    have := ((angleStep_er hF N (by omega) hN).mulK hF (Er.exactK u (1 / 3 : ℝ) (le_of_eq (abs_of_nonneg (by norm_num))))).roundK hF (by
      rw [mul_one_div, div_div, mul_comm (N : ℝ), ← div_div]
      exact hη.trans (div_le_div_of_nonneg_right (by linarith) hN0.le))
    rwa [mul_one_div, mul_one_div] at this
  have ab := (hA.liftW.addW hF hQ 0 le_rfl le_rfl hB.liftW).roundW hF hQ (by linarith)
  have e2 := ((Er.exactK u (2 : ℝ) (by norm_num : |(2 : ℝ)| ≤ 2)).mulW hF hQ he).roundW hF hQ (by linarith)
  have o4 := ((Er.exactK u (4 : ℝ) (by norm_num : |(4 : ℝ)| ≤ 4)).mulW hF hQ ho).roundW hF hQ (by linarith)
  have s1 := (ab.addW hF hQ (N + 1) (by omega) (by omega) e2).roundW hF hQ (by linarith)
  have s2 := (s1.addW hF hQ (N + 2) (by omega) (by omega) o4).roundW hF hQ (by linarith)
  have s3 := c.mulW hF hQ s2
  have hM : 2 * Real.pi / N / 3 * (1 / 2 + 1 / 2 + 2 * (nE * (1 / 2)) + 4 * (nO * (1 / 2))) ≤ Real.pi := by
    refine le_trans (le_of_eq ?_) hfrac
    ring
  have s4 := (s3.monoW hF hQ le_rfl hM).roundW hF hQ (by linarith)
  exact s4.monoW hF hQ (by omega) le_rfl

/-- The modulus. -/
theorem hypot_er (hF : PsfAccurate F u η p) {T M x y : ℝ} {z : ℂ} (hT : 1 ≤ T) (hx : Er T M x z.re) (hy : Er T M y z.im) (hz : ‖z‖ ≤ M) (hM : η ≤ M) :
    Er ((1 + u) ^ p * T ^ 2) M (F.hypot x y) ‖z‖ := by
  have hM0 := hx.nonneg
  refine ⟨by rw [abs_of_nonneg (norm_nonneg _)]; exact hz, ?_⟩
  have e : Real.sqrt (x ^ 2 + y ^ 2) = ‖(⟨x, y⟩ : ℂ)‖ := by
    rw [Complex.norm_def, Complex.normSq_apply]; congr 1; ring
  have h1 := hF.hypot x y
  rw [e] at h1
  have h2 : |‖(⟨x, y⟩ : ℂ)‖ - ‖z‖| ≤ 2 * (T - 1) * M := by
    refine (abs_norm_sub_norm_le _ _).trans ?_
    refine (Complex.norm_le_abs_re_add_abs_im _).trans ?_
    have := hx.2; have := hy.2
    simp only [Complex.sub_re, Complex.sub_im]
    linarith
  have hT2 : 2 * (T - 1) ≤ T ^ 2 - 1 := by nlinarith
  have h3 : ‖(⟨x, y⟩ : ℂ)‖ ≤ T ^ 2 * M := by
    have := (abs_le.1 h2).2
    nlinarith
  have h4 : max ‖(⟨x, y⟩ : ℂ)‖ η ≤ T ^ 2 * M := max_le h3 (hM.trans (le_mul_of_one_le_left hM0 (one_le_pow₀ hT)))
  have h5 := abs_sub_le (F.hypot x y) ‖(⟨x, y⟩ : ℂ)‖ ‖z‖
  have h6 := u_one hF p
  generalize (1 + u) ^ p = B at *
  have h7 : (B - 1) * max ‖(⟨x, y⟩ : ℂ)‖ η ≤ (B - 1) * (T ^ 2 * M) := mul_le_mul_of_nonneg_left h4 (by linarith)
  have h8 : 2 * (T - 1) * M ≤ (T ^ 2 - 1) * M := mul_le_mul_of_nonneg_right hT2 hM0
  calc _ ≤ (B - 1) * (T ^ 2 * M) + (T ^ 2 - 1) * M := by linarith
    _ = _ := by ring

theorem sq_er (hF : PsfAccurate F u η p) {A M x v : ℝ} (hA : 1 ≤ A) (h : Er A M x v) (hM : η ≤ M ^ 2) : Er ((1 + u) ^ p * A ^ 2) (M ^ 2) (F.sq x) (v ^ 2) := by
  have hx := h.mul h hA hA
  rw [← pow_two, ← pow_two, ← pow_two, ← pow_two] at hx
  refine ⟨hx.1, ?_⟩
  have h1 := hF.sq x
  have h2 := hx.2
  have hA2 : 1 ≤ A ^ 2 := one_le_pow₀ hA
  have h3 : max (x ^ 2) η ≤ A ^ 2 * M ^ 2 := by
    refine max_le ?_ (hM.trans (le_mul_of_one_le_left (by positivity) hA2))
    have := hx.abs
    rwa [abs_of_nonneg (by positivity)] at this
  have h5 := abs_sub_le (F.sq x) (x ^ 2) (v ^ 2)
  have h6 := u_one hF p
  generalize (1 + u) ^ p = B at *
  have h7 : (B - 1) * max (x ^ 2) η ≤ (B - 1) * (A ^ 2 * M ^ 2) := mul_le_mul_of_nonneg_left h3 (by linarith)
  calc _ ≤ (B - 1) * (A ^ 2 * M ^ 2) + (A ^ 2 - 1) * M ^ 2 := by linarith
    _ = _ := by ring

/-- `1.0/(pi*pi)`. -/
theorem normalization_er (hF : PsfAccurate F u η p) : Er ((1 + u) ^ 7) (1 / Real.pi ^ 2) (F.fl (1 / F.fl (F.pi * F.pi))) (1 / Real.pi ^ 2) := by
  have h3 := Real.pi_gt_three
  have h4 := Real.pi_lt_four
  have hη := eta_le_one hF
  have hs := hF.small
  have hu := hF.basic.unit
  have a := ((pi_er hF).mulK hF (pi_er hF)).roundK hF (by nlinarith)
  rw [← pow_two Real.pi, show 1 + 1 + 1 = 3 from rfl] at a
  set x := F.fl (F.pi * F.pi)
  have hP : (0 : ℝ) < Real.pi ^ 2 := by positivity
  have hU : (1 + u) ^ 3 ≤ 1.4 := by
    calc (1 + u) ^ 3 ≤ (1 + 1 / 10) ^ 3 := pow_le_pow_left₀ (by linarith) (by linarith) 3
      _ ≤ _ := by norm_num
  have hU1 := u_one hF 3
  have h1 := (abs_le.1 a.2).1
  have hx : (2 - (1 + u) ^ 3) * Real.pi ^ 2 ≤ x := by linarith
  have hx0 : 0 < x := by
    refine lt_of_lt_of_le (mul_pos ?_ hP) hx
    norm_num at hU; linarith
  have b : Er ((1 + u) ^ 6) (1 / Real.pi ^ 2) (1 / x) (1 / Real.pi ^ 2) := by
    refine ⟨by rw [abs_of_pos (by positivity)], ?_⟩
    have e : 1 / x - 1 / Real.pi ^ 2 = -((x - Real.pi ^ 2) / (x * Real.pi ^ 2)) := by field_simp; ring
    rw [e, abs_neg, abs_div, abs_of_pos (mul_pos hx0 hP), div_le_iff₀ (mul_pos hx0 hP)]
    have e2 : ((1 + u) ^ 6 - 1) * (1 / Real.pi ^ 2) * (x * Real.pi ^ 2) = ((1 + u) ^ 6 - 1) * x := by field_simp
    rw [e2]
    refine a.2.trans ?_
    rw [show (1 + u) ^ 6 = ((1 + u) ^ 3) ^ 2 by ring]
    generalize (1 + u) ^ 3 = A at *
    norm_num at hU
    have : (A - 1) ≤ (A ^ 2 - 1) * (2 - A) := by
      have h := mul_nonneg (show 0 ≤ A - 1 by linarith) (show 0 ≤ (A + 1) * (2 - A) - 1 by nlinarith)
      nlinarith
    calc (A - 1) * Real.pi ^ 2 ≤ (A ^ 2 - 1) * (2 - A) * Real.pi ^ 2 := mul_le_mul_of_nonneg_right this hP.le
      _ = (A ^ 2 - 1) * ((2 - A) * Real.pi ^ 2) := by ring
      _ ≤ _ := mul_le_mul_of_nonneg_left hx (by nlinarith)
  refine b.roundK hF (eta_le hF ?_)
  rw [div_le_div_iff₀ (by norm_num) hP]
  nlinarith

theorem rangeSum (a b : ℕ) (s : Int) (N : ℕ) (ha : 0 < a) (ha2 : a ≤ 2) (hb : b = N - 2 ∨ b = N - 1) (hs : s = (N : Int) - 2 ∨ s = (N : Int) - 1)
    (hbs : (b : Int) = max s 0) (G : ℝ → ℂ) :
    ∑ i ∈ Finset.range (pyRange a s 2).length, G ((a : ℝ) + 2 * i) = ∑ k ∈ (Finset.Ioo 0 b).filter (fun k => k % 2 = a % 2), G (k : ℝ) := by
  rw [← pyRange_sum a N b ha ha2 hb s hs hbs G, ← sum_list_range]
  congr 1
  apply List.ext_getElem
  · simp
  · intro i h1 h2
    simp [pyRange]

/-- `get_psf_point_r`: the error of a point of the PSF. -/
theorem psfPoint_er (hF : PsfAccurate F u η p) {kΦ kr K : ℕ} {S R : ℝ} (hR : 1 ≤ R) (hS : 0 ≤ S) (hK1 : kΦ + 1 ≤ K) (hK2 : kr + 2 * p + 21 ≤ K)
    {ph : FltPhase} {Φ : ℝ → ℝ → ℝ} (hph : FltPhaseOk u kΦ S ph Φ) {θ' θ r' r : ℝ}
    (hθ : Er ((1 + u) ^ (p + 2)) 8 θ' θ) (hr : Er ((1 + u) ^ kr) R r' r) (n N : ℕ) (h2 : 2 ≤ n) (hn : n < 2 ^ 50) (h5 : 5 ≤ N) (hN : N < 2 ^ 50)
    (hlen : (radialNodes F.toFloatArith n).length = n - 1) (hunit : ∀ q ∈ radialNodes F.toFloatArith n, 0 ≤ q ∧ q ≤ 1) :
    RetP (fltPsfPoint F ph r' θ' n N) fun v => |v - psfValue Φ r θ n N| ≤ pixelError u p n N K S R := by
  have hN0 : (0 : ℝ) < N := by positivity
  have h3 := Real.pi_gt_three
  have hη1 := eta_le_one hF
  have hε : 1 ≤ 1 + ((1 + u) ^ K - 1) * (S + 15 * R) := by
    have h3 := u_one hF K
    have : 0 ≤ ((1 + u) ^ K - 1) * (S + 15 * R) := mul_nonneg (by linarith) (by linarith)
    linarith
  have rad := fun (φ' φ : ℝ) hφ => radial_er hF hR hS hK1 hK2 hph (φ' := φ') (φ := φ) hφ hθ hr n h2 hn hlen hunit
  have hQ : 1 ≤ (1 + u) ^ (p + 12) * (1 + ((1 + u) ^ K - 1) * (S + 15 * R)) * (1 + u) ^ (n + 4) :=
    one_le_mul_of_one_le_of_one_le (one_le_mul_of_one_le_of_one_le (u_one hF _) hε) (u_one hF _)
  unfold pixelError
  generalize hX : 1 + ((1 + u) ^ K - 1) * (S + 15 * R) = X at *
  generalize hQe : (1 + u) ^ (p + 12) * X * (1 + u) ^ (n + 4) = Q at *
  set G : ℝ → ℂ := fun φ => trapezoid n fun q => pupilField Φ r θ q φ with hG
  unfold fltPsfPoint
  rw [if_neg (by omega)]
  simp only [Int.cast_natCast]
  set h := F.fl (F.fl (2 * F.pi) / (N : ℝ)) with hh
  have hlE : (pyRange 2 ((N : Int) - 2) 2).length = (N - 2 - 1) / 2 := by simp only [pyRange, List.length_map, List.length_range]; omega
  have hlO : (pyRange 1 ((N : Int) - 1) 2).length = (N - 1) / 2 := by simp only [pyRange, List.length_map, List.length_range]; omega
  have hE := angles_er (F := F) (ph := ph) (θ' := θ') (r' := r') (h := h) (Q := Q) (nR := n) (fun i => G ((((2 : ℕ) : ℝ) + 2 * i) * (2 * Real.pi / N))) (pyRange 2 ((N : Int) - 2) 2) (by
    intro i hi
    have e : (((pyRange 2 ((N : Int) - 2) 2)[i] : Int) : ℝ) = ((2 + 2 * i : ℕ) : ℝ) := by simp [pyRange]
    rw [e]
    have := rad _ _ (angle_er hF N (by omega) hN (2 + 2 * i) (by omega) (by omega))
    rw [show ((2 + 2 * i : ℕ) : ℝ) = ((2 : ℕ) : ℝ) + 2 * i by push_cast; ring] at this ⊢
    exact this)
  have hO := angles_er (F := F) (ph := ph) (θ' := θ') (r' := r') (h := h) (Q := Q) (nR := n) (fun i => G ((((1 : ℕ) : ℝ) + 2 * i) * (2 * Real.pi / N))) (pyRange 1 ((N : Int) - 1) 2) (by
    intro i hi
    have e : (((pyRange 1 ((N : Int) - 1) 2)[i] : Int) : ℝ) = ((1 + 2 * i : ℕ) : ℝ) := by simp [pyRange]
    rw [e]
    have := rad _ _ (angle_er hF N (by omega) hN (1 + 2 * i) (by omega) (by omega))
    rw [show ((1 + 2 * i : ℕ) : ℝ) = ((1 : ℕ) : ℝ) + 2 * i by push_cast; ring] at this ⊢
    exact this)
  refine RetP.bind hE fun evens hev => ?_
  refine RetP.bind hO fun odds hod => ?_
  refine RetP.bind (rad 0 0 ⟨by simp; positivity, by
    rw [sub_zero, abs_zero]
    exact mul_nonneg (by have := u_one hF 4; linarith) (by positivity)⟩) fun yA hA => ?_
  refine RetP.bind (rad _ _ ((twoPi_er hF).monoK hF (by norm_num) le_rfl)) fun yB hB => ?_
  refine retP_pure _ ?_
  have hη2 : η ≤ 1 / 2 := eta_le hF (by norm_num)
  have sE := sumC_er hF hQ evens ((N - 2 - 1) / 2) (by rw [hev.1, hlE]) (fun _ => 1 / 2) _ hev.2 (fun _ _ => hη2)
  have sO := sumC_er hF hQ odds ((N - 1) / 2) (by rw [hod.1, hlO]) (fun _ => 1 / 2) _ hod.2 (fun _ _ => hη2)
  have eE := rangeSum 2 (N - 2) ((N : Int) - 2) N (by omega) le_rfl (Or.inl rfl) (Or.inl rfl) (by omega) fun x => G (x * (2 * Real.pi / N))
  have eO := rangeSum 1 (N - 1) ((N : Int) - 1) N (by omega) (by omega) (Or.inr rfl) (Or.inr rfl) (by omega) fun x => G (x * (2 * Real.pi / N))
  rw [show ((2 : ℕ) : Int) = 2 from rfl, hlE] at eE
  rw [show ((1 : ℕ) : Int) = 1 from rfl, hlO] at eO
  rw [eE, Finset.sum_const, Finset.card_range, nsmul_eq_mul] at sE
  rw [eO, Finset.sum_const, Finset.card_range, nsmul_eq_mul] at sO
  have hfr : 2 * Real.pi / N / 3 * (1 + ((N - 2 - 1) / 2 : ℕ) + 2 * ((N - 1) / 2 : ℕ)) ≤ Real.pi := by
    have e1 := fraction_eq N (by omega)
    have e2 := fraction_lt_one N (by omega)
    have : 2 * Real.pi / N / 3 * (1 + ((N - 2 - 1) / 2 : ℕ) + 2 * ((N - 1) / 2 : ℕ)) = Real.pi * angularFraction N := by linear_combination e1 / 2
    rw [this]
    nlinarith
  have hre := angularPart_er hF hQ N _ _ (by omega) (by omega) h5 hN (by omega) (by omega) hA.1 hB.1 sE.1 sO.1 hfr
  have him := angularPart_er hF hQ N _ _ (by omega) (by omega) h5 hN (by omega) (by omega) hA.2 hB.2 sE.2 sO.2 hfr
  have hz : psfField Φ r θ n N = ((2 * Real.pi / N / 3 : ℝ) : ℂ) * (G 0 + G (2 * Real.pi)
      + ((2 : ℝ) : ℂ) * ∑ k ∈ (Finset.Ioo 0 (N - 2)).filter (fun k => k % 2 = 2 % 2), G ((k : ℝ) * (2 * Real.pi / N))
      + ((4 : ℝ) : ℂ) * ∑ k ∈ (Finset.Ioo 0 (N - 1)).filter (fun k => k % 2 = 1 % 2), G ((k : ℝ) * (2 * Real.pi / N))) := by
    unfold psfField angularRule
    push_cast
    rfl
  have hzre : (psfField Φ r θ n N).re = 2 * Real.pi / N / 3 * ((G 0).re + (G (2 * Real.pi)).re
      + 2 * (∑ k ∈ (Finset.Ioo 0 (N - 2)).filter (fun k => k % 2 = 2 % 2), G ((k : ℝ) * (2 * Real.pi / N))).re
      + 4 * (∑ k ∈ (Finset.Ioo 0 (N - 1)).filter (fun k => k % 2 = 1 % 2), G ((k : ℝ) * (2 * Real.pi / N))).re) := by
    rw [hz, Complex.re_ofReal_mul, Complex.add_re, Complex.add_re, Complex.add_re, Complex.re_ofReal_mul, Complex.re_ofReal_mul]
  have hzim : (psfField Φ r θ n N).im = 2 * Real.pi / N / 3 * ((G 0).im + (G (2 * Real.pi)).im
      + 2 * (∑ k ∈ (Finset.Ioo 0 (N - 2)).filter (fun k => k % 2 = 2 % 2), G ((k : ℝ) * (2 * Real.pi / N))).im
      + 4 * (∑ k ∈ (Finset.Ioo 0 (N - 1)).filter (fun k => k % 2 = 1 % 2), G ((k : ℝ) * (2 * Real.pi / N))).im) := by
    rw [hz, Complex.im_ofReal_mul, Complex.add_im, Complex.add_im, Complex.add_im, Complex.im_ofReal_mul, Complex.im_ofReal_mul]
  rw [← hzre] at hre
  rw [← hzim] at him
  have hnorm : ‖psfField Φ r θ n N‖ ≤ Real.pi := by
    have a := angularRule_norm_le N (by omega) G (1 / 2) fun φ => trapezoid_field_le Φ r θ φ n (by omega)
    have b := fraction_lt_one N (by omega)
    refine (show ‖psfField Φ r θ n N‖ ≤ _ from a).trans ?_
    nlinarith
  have hT : 1 ≤ Q * (1 + u) ^ (N + 8) := W_one hF hQ _
  have y := hypot_er hF hT hre him hnorm (by linarith)
  have hA1 : 1 ≤ (1 + u) ^ p * (Q * (1 + u) ^ (N + 8)) ^ 2 := one_le_mul_of_one_le_of_one_le (u_one hF p) (one_le_pow₀ hT)
  have y2 := sq_er hF hA1 y (by nlinarith)
  have hA2 : 1 ≤ (1 + u) ^ p * ((1 + u) ^ p * (Q * (1 + u) ^ (N + 8)) ^ 2) ^ 2 := one_le_mul_of_one_le_of_one_le (u_one hF p) (one_le_pow₀ hA1)
  have hpi2 : Real.pi ^ 2 ≠ 0 := by positivity
  have y3 := (y2.mul (normalization_er hF) hA2 (u_one hF 7)).round hF (one_le_mul_of_one_le_of_one_le hA2 (u_one hF 7))
    (by rw [mul_one_div_cancel hpi2]; exact hη1)
  rw [mul_one_div_cancel hpi2, mul_one_div] at y3
  have fin := y3.2
  rw [mul_one] at fin
  unfold psfValue
  refine fin.trans (le_of_eq ?_)
  rw [← hQe]
  congr 1
  ring

end

end Verif.Proofs
