import Verif.Spec.FloatPsf
import Verif.Proofs.FloatDoubles
import Verif.Proofs.NodeRule
import Mathlib.Analysis.Real.Pi.Bounds

/-!
# Error analysis of the PSF: relative errors with a majorant
-/

namespace Verif.Proofs
open Verif.Model Verif.Spec

/-- `x` approximates `v`: `M` bounds `|v|`, and the error is at most `(A - 1) M`. -/
def Er (A M x v : ℝ) : Prop := |v| ≤ M ∧ |x - v| ≤ (A - 1) * M

section
variable {F : PsfArith} {u η : ℝ} {p : ℕ}

theorem Er.nonneg {A M x v : ℝ} (h : Er A M x v) : 0 ≤ M := (abs_nonneg _).trans h.1

theorem Er.mono {A B M N x v : ℝ} (h : Er A M x v) (h1 : 1 ≤ A) (hA : A ≤ B) (hM : M ≤ N) : Er B N x v :=
  ⟨h.1.trans hM, h.2.trans (mul_le_mul (by linarith) hM h.nonneg (by linarith))⟩

theorem Er.abs {A M x v : ℝ} (h : Er A M x v) : |x| ≤ A * M := by
  have := abs_add_le (x - v) v
  rw [sub_add_cancel] at this
  have := h.1; have := h.2
  linarith

theorem Er.exact (v : ℝ) {M : ℝ} (h : |v| ≤ M) : Er 1 M v v := ⟨h, by simp⟩

theorem Er.add {A B M N x y v w : ℝ} (hx : Er A M x v) (hy : Er B N y w) (hA : 1 ≤ A) (hB : A ≤ B) : Er B (M + N) (x + y) (v + w) := by
  have hx := hx.mono hA hB le_rfl
  refine ⟨(abs_add_le _ _).trans (add_le_add hx.1 hy.1), ?_⟩
  rw [show x + y - (v + w) = (x - v) + (y - w) by ring, mul_add]
  exact (abs_add_le _ _).trans (add_le_add hx.2 hy.2)

theorem Er.neg {A M x v : ℝ} (h : Er A M x v) : Er A M (-x) (-v) := by
  refine ⟨by rw [abs_neg]; exact h.1, ?_⟩
  rw [show -x - -v = -(x - v) by ring, abs_neg]
  exact h.2

theorem Er.add' {A B M N x y v w : ℝ} (hx : Er A M x v) (hy : Er B N y w) (hB : 1 ≤ B) (hA : B ≤ A) : Er A (M + N) (x + y) (v + w) := by
  have := Er.add hy hx hB hA
  rwa [add_comm N, add_comm y, add_comm w] at this

theorem Er.mul {A B M N x y v w : ℝ} (hx : Er A M x v) (hy : Er B N y w) (hA : 1 ≤ A) (hB : 1 ≤ B) : Er (A * B) (M * N) (x * y) (v * w) :=
  mul_err hA hB hx.1 hy.1 hx.2 hy.2

/-- Rounding. -/
theorem Er.round (hF : PsfAccurate F u η p) {A M x v : ℝ} (h : Er A M x v) (hA : 1 ≤ A) (hM : η ≤ M) : Er (A * (1 + u)) M (F.fl x) v := by
  refine ⟨h.1, ?_⟩
  have hu := hF.basic.unit
  have h2 := hF.fl x
  have h3 := h.abs
  have hM0 := h.nonneg
  have h5 : max |x| η ≤ A * M := max_le h3 (hM.trans (le_mul_of_one_le_left hM0 hA))
  have h6 := abs_sub_le (F.fl x) x v
  have h7 : u * max |x| η ≤ u * (A * M) := mul_le_mul_of_nonneg_left h5 hu
  have := h.2
  calc |F.fl x - v| ≤ u * (A * M) + (A - 1) * M := by linarith
    _ = _ := by ring

/-- A smaller majorant. -/
theorem Er.shrink {A M x v : ℝ} (hA : 1 ≤ A) (c : ℕ) (h : |x - v| ≤ (A - 1) * (c * M)) (hv : |v| ≤ M) : Er (A ^ c) M x v := by
  refine ⟨hv, h.trans ?_⟩
  have hM : 0 ≤ M := (abs_nonneg _).trans hv
  have := one_add_mul_le_pow (show (-2 : ℝ) ≤ A - 1 by linarith) c
  rw [add_sub_cancel] at this
  calc _ = (c * (A - 1)) * M := by ring
    _ ≤ _ := mul_le_mul_of_nonneg_right (by linarith) hM

theorem u_one (hF : PsfAccurate F u η p) (k : ℕ) : 1 ≤ (1 + u) ^ k := one_le_pow_u hF.basic.unit k

theorem u_mono (hF : PsfAccurate F u η p) {k l : ℕ} (h : k ≤ l) : (1 + u) ^ k ≤ (1 + u) ^ l := pow_u_mono hF.basic.unit h

/-- Rounding, with powers of `1 + u`. -/
theorem Er.roundK (hF : PsfAccurate F u η p) {k : ℕ} {M x v : ℝ} (h : Er ((1 + u) ^ k) M x v) (hM : η ≤ M) : Er ((1 + u) ^ (k + 1)) M (F.fl x) v := by
  rw [pow_succ]
  exact h.round hF (u_one hF k) hM

theorem Er.monoK (hF : PsfAccurate F u η p) {k l : ℕ} {M N x v : ℝ} (h : Er ((1 + u) ^ k) M x v) (hk : k ≤ l) (hM : M ≤ N) : Er ((1 + u) ^ l) N x v :=
  h.mono (u_one hF k) (u_mono hF hk) hM

theorem Er.mulK (hF : PsfAccurate F u η p) {k l : ℕ} {M N x y v w : ℝ} (hx : Er ((1 + u) ^ k) M x v) (hy : Er ((1 + u) ^ l) N y w) :
    Er ((1 + u) ^ (k + l)) (M * N) (x * y) (v * w) := by
  rw [pow_add]
  exact hx.mul hy (u_one hF k) (u_one hF l)

theorem Er.exactK (u : ℝ) (v : ℝ) {M : ℝ} (h : |v| ≤ M) : Er ((1 + u) ^ 0) M v v := by rw [pow_zero]; exact Er.exact v h

theorem eta_le (hF : PsfAccurate F u η p) {x : ℝ} (h : 1 / 2 ^ 200 ≤ x) : η ≤ x := hF.eta_small.trans h

theorem eta_le_inv (hF : PsfAccurate F u η p) (n : ℕ) (h0 : 0 < n) (hn : n < 2 ^ 50) : η ≤ 1 / (n : ℝ) := by
  apply eta_le hF
  apply one_div_le_one_div_of_le (by exact_mod_cast h0)
  have : (n : ℝ) ≤ 2 ^ 50 := by exact_mod_cast hn.le
  exact this.trans (by norm_num)

/-! ### Nodes and angles -/

theorem step_er (hF : PsfAccurate F u η p) (n : ℕ) (h0 : 0 < n) (hn : n < 2 ^ 50) :
    Er ((1 + u) ^ 1) (1 / (n : ℝ)) (radialStep F.toFloatArith n) (1 / (n : ℝ)) := by
  unfold radialStep
  rw [Int.cast_natCast]
  exact (Er.exactK u (1 / (n : ℝ)) (by rw [abs_of_nonneg (by positivity)])).roundK hF (eta_le_inv hF n h0 hn)

theorem node_er (hF : PsfAccurate F u η p) (n : ℕ) (h0 : 0 < n) (hn : n < 2 ^ 50) (i : ℕ) (hi : i < (radialNodes F.toFloatArith n).length) :
    Er ((1 + u) ^ 11) (((i : ℝ) + 1) / n) ((radialNodes F.toFloatArith n)[i]) (((i : ℝ) + 1) / n) := by
  have hs := step_er hF n h0 hn
  have hpos : (0 : ℝ) < n := by exact_mod_cast h0
  have hη := eta_le_inv hF n h0 hn
  have e : (radialNodes F.toFloatArith n)[i] = if i = 0 then radialStep F.toFloatArith n else
      if i = 1 then F.fl (radialStep F.toFloatArith n + radialStep F.toFloatArith n) else
      F.fl (radialStep F.toFloatArith n + F.fl ((i : ℝ) * F.fl (F.fl (radialStep F.toFloatArith n + radialStep F.toFloatArith n) - radialStep F.toFloatArith n))) := by
    simp [radialNodes, npArangeFl]
  rw [e]
  clear e
  set h := radialStep F.toFloatArith n
  have h2 : Er ((1 + u) ^ 2) (2 / (n : ℝ)) (F.fl (h + h)) (2 / (n : ℝ)) := by
    have := (hs.add hs (u_one hF 1) le_rfl).roundK hF (by linarith [hF.eta_pos])
    rwa [show 1 / (n : ℝ) + 1 / n = 2 / n by ring] at this
  have hd : Er ((1 + u) ^ 9) (1 / (n : ℝ)) (F.fl (F.fl (h + h) - h)) (1 / (n : ℝ)) := by
    have a := (h2.add' hs.neg (u_one hF 1) (u_mono hF (by norm_num))).roundK hF (by
      have : 1 / (n : ℝ) ≤ 2 / n + 1 / n := by have : 0 ≤ 2 / (n : ℝ) := by positivity
                                               linarith
      linarith)
    rw [← sub_eq_add_neg, ← sub_eq_add_neg, show 2 / (n : ℝ) - 1 / n = 1 / n by ring, show 2 / (n : ℝ) + 1 / n = (3 : ℕ) * (1 / n) by push_cast; ring] at a
    have := Er.shrink (u_one hF 3) 3 a.2 (by rw [abs_of_nonneg (by positivity)])
    rwa [← pow_mul] at this
  split_ifs with c0 c1
  · subst c0
    simpa using hs.monoK (l := 11) hF (by norm_num) le_rfl
  · subst c1
    have := h2.monoK (l := 11) hF (by norm_num) le_rfl
    push_cast
    rwa [one_add_one_eq_two]
  · have hi1 : (1 : ℝ) ≤ i := by exact_mod_cast (by omega : 1 ≤ i)
    have a := ((Er.exactK u (i : ℝ) (le_of_eq (abs_of_nonneg (by positivity)))).mulK hF hd).roundK hF (by
      calc η ≤ 1 / n := hη
        _ ≤ _ := le_mul_of_one_le_left (by positivity) hi1)
    have b := (hs.add a (u_one hF 1) (u_mono hF (by norm_num))).roundK hF (by
      have : (0 : ℝ) ≤ i * (1 / n) := by positivity
      linarith)
    rw [show 1 / (n : ℝ) + i * (1 / n) = (i + 1) / n by ring] at b
    exact b.monoK hF (by norm_num) le_rfl

theorem pi_er (hF : PsfAccurate F u η p) : Er ((1 + u) ^ 1) Real.pi F.pi Real.pi :=
  ⟨(abs_of_pos Real.pi_pos).le, by rw [pow_one, add_sub_cancel_left]; exact hF.pi⟩

theorem eta_le_one (hF : PsfAccurate F u η p) : η ≤ 1 := eta_le hF (by norm_num)

theorem twoPi_er (hF : PsfAccurate F u η p) : Er ((1 + u) ^ 2) (2 * Real.pi) (F.fl (2 * F.pi)) (2 * Real.pi) := by
  have := ((Er.exactK u (2 : ℝ) (by norm_num : |(2 : ℝ)| ≤ 2)).mulK hF (pi_er hF)).roundK hF (by
    have := Real.pi_gt_three
    have := eta_le_one hF
    linarith)
  exact this.monoK hF (by norm_num) le_rfl

theorem angleStep_er (hF : PsfAccurate F u η p) (n : ℕ) (h0 : 0 < n) (hn : n < 2 ^ 50) :
    Er ((1 + u) ^ 3) (2 * Real.pi / n) (F.fl (F.fl (2 * F.pi) / (n : ℝ))) (2 * Real.pi / n) := by
  have hη := eta_le_inv hF n h0 hn
  have := Real.pi_gt_three
  have hpos : (0 : ℝ) < n := by exact_mod_cast h0
  have a := ((twoPi_er hF).mulK hF (Er.exactK u (1 / (n : ℝ)) (le_of_eq (abs_of_nonneg (by positivity))))).roundK hF (by
    refine hη.trans (le_mul_of_one_le_left (by positivity) (by linarith)))
  rw [mul_one_div, mul_one_div] at a
  exact a

theorem angle_er (hF : PsfAccurate F u η p) (n : ℕ) (h0 : 0 < n) (hn : n < 2 ^ 50) (i : ℕ) (hi : 0 < i) (hin : i ≤ n) :
    Er ((1 + u) ^ 4) (2 * Real.pi) (F.fl ((i : ℝ) * F.fl (F.fl (2 * F.pi) / (n : ℝ)))) ((i : ℝ) * (2 * Real.pi / n)) := by
  have hη := eta_le_inv hF n h0 hn
  have h3 := Real.pi_gt_three
  have hpos : (0 : ℝ) < n := by exact_mod_cast h0
  have hi1 : (1 : ℝ) ≤ i := by exact_mod_cast hi
  have hi2 : (i : ℝ) ≤ n := by exact_mod_cast hin
  have a := ((Er.exactK u (i : ℝ) (le_of_eq (abs_of_nonneg (by positivity)))).mulK hF (angleStep_er hF n h0 hn)).roundK hF (by
    calc η ≤ 1 / n := hη
      _ ≤ 2 * Real.pi / n := div_le_div_of_nonneg_right (by linarith) hpos.le
      _ ≤ _ := le_mul_of_one_le_left (by positivity) hi1)
  refine a.monoK hF (by norm_num) ?_
  rw [mul_div_assoc', div_le_iff₀ hpos, mul_comm]
  exact mul_le_mul_of_nonneg_left hi2 (by positivity)

/-! ### One wave -/

theorem trig_er (hF : PsfAccurate F u η p) {f g : ℝ → ℝ} (hf : ∀ x, |f x - g x| ≤ (1 + u) ^ p - 1) (hg : ∀ x y, |g x - g y| ≤ |x - y|)
    (hb : ∀ x, |g x| ≤ 1) {A M x v : ℝ} (hA : 1 ≤ A) (hM : 1 ≤ M) (h : |x - v| ≤ (A - 1) * M) : Er ((1 + u) ^ p * A) M (f x) (g v) := by
  refine ⟨(hb v).trans hM, ?_⟩
  have h1 := abs_sub_le (f x) (g x) (g v)
  have h2 := hf x
  have h3 := hg x v
  have h4 := u_one hF p
  generalize (1 + u) ^ p = B at *
  have h6 : B - 1 ≤ (B - 1) * (A * M) := le_mul_of_one_le_right (by linarith) (by nlinarith)
  calc |f x - g v| ≤ (B - 1) * (A * M) + (A - 1) * M := by linarith
    _ = (B * A - 1) * M := by ring

/-- The argument of the exponential function. -/
theorem arg_er (hF : PsfAccurate F u η p) {kΦ kr K : ℕ} {S R : ℝ} (hR : 1 ≤ R) (hK1 : kΦ + 1 ≤ K) (hK2 : kr + 2 * p + 21 ≤ K)
    {φ' φ θ' θ r' r x' x q' q : ℝ} (hφ : Er ((1 + u) ^ 4) (2 * Real.pi) φ' φ) (hθ : Er ((1 + u) ^ (p + 2)) 8 θ' θ) (hr : Er ((1 + u) ^ kr) R r' r)
    (hq : Er ((1 + u) ^ 11) 1 q' q) (hx : Er ((1 + u) ^ kΦ) S x' x) :
    |F.fl (x' - F.fl (F.fl (r' * q') * F.cos (F.fl (φ' - θ')))) - (x - r * q * Real.cos (φ - θ))| ≤ ((1 + u) ^ K - 1) * (S + 15 * R) := by
  have hη := eta_le_one hF
  have hS := hx.nonneg
  have hpi := Real.pi_lt_d2
  have hpi0 := Real.pi_gt_three
  have a1 : Er ((1 + u) ^ (p + 7)) 15 (F.fl (φ' - θ')) (φ - θ) := by
    have h1 := hφ.monoK (l := p + 6) hF (by omega) le_rfl
    have h2 := hθ.neg.monoK (l := p + 6) hF (by omega) le_rfl
    have := (h1.add h2 (u_one hF _) le_rfl).roundK hF (by linarith)
    rw [← sub_eq_add_neg, ← sub_eq_add_neg] at this
    exact this.monoK hF le_rfl (by norm_num at hpi ⊢; linarith)
  have a2 : Er ((1 + u) ^ (2 * p + 7)) 15 (F.cos (F.fl (φ' - θ'))) (Real.cos (φ - θ)) := by
    have := trig_er hF hF.basic.cos cos_lip Real.abs_cos_le_one (u_one hF _) (by norm_num) a1.2
    rwa [← pow_add, show p + (p + 7) = 2 * p + 7 by ring] at this
  have a3 : Er ((1 + u) ^ (kr + 12)) R (F.fl (r' * q')) (r * q) := by
    have := (hr.mulK hF hq).roundK hF (by linarith)
    rwa [mul_one] at this
  have a4 : Er ((1 + u) ^ (kr + 2 * p + 20)) (15 * R) (F.fl (F.fl (r' * q') * F.cos (F.fl (φ' - θ')))) (r * q * Real.cos (φ - θ)) := by
    have := (a3.mulK hF a2).roundK hF (by linarith)
    rw [mul_comm R] at this
    exact this.monoK hF (by omega) le_rfl
  have b1 := hx.monoK (l := K - 1) hF (by omega) le_rfl
  have b2 := a4.neg.monoK (l := K - 1) hF (by omega) le_rfl
  have := (b1.add b2 (u_one hF _) le_rfl).roundK hF (by linarith)
  rw [← sub_eq_add_neg, ← sub_eq_add_neg, show K - 1 + 1 = K by omega] at this
  exact this.2

/-- A wave, for a node that is not 0. -/
theorem wave_er (hF : PsfAccurate F u η p) {ε M a' a q' q : ℝ} (hε : 0 ≤ ε) (ha : |a' - a| ≤ ε) (hq : Er ((1 + u) ^ 11) M q' q) (hM : η ≤ M) :
    Er ((1 + u) ^ (p + 12) * (1 + ε)) M (F.fl (F.expRe a' * q')) (Real.cos a * q) ∧
    Er ((1 + u) ^ (p + 12) * (1 + ε)) M (F.fl (F.expIm a' * q')) (Real.sin a * q) := by
  have key : ∀ {f g : ℝ → ℝ}, (∀ x, |f x - g x| ≤ (1 + u) ^ p - 1) → (∀ x y, |g x - g y| ≤ |x - y|) → (∀ x, |g x| ≤ 1) →
      Er ((1 + u) ^ (p + 12) * (1 + ε)) M (F.fl (f a' * q')) (g a * q) := by
    intro f g hf hg hb
    have h1 := trig_er hF hf hg hb (A := 1 + ε) (M := 1) (x := a') (v := a) (by linarith) le_rfl (by simpa using ha)
    have h2 := (h1.mul hq (by have := u_one hF p; nlinarith) (u_one hF 11)).round hF (by
      have := u_one hF p; have := u_one hF 11
      have : 1 ≤ (1 + u) ^ p * (1 + ε) := by nlinarith
      nlinarith) (by rwa [one_mul])
    rw [one_mul] at h2
    have e : (1 + u) ^ p * (1 + ε) * (1 + u) ^ 11 * (1 + u) = (1 + u) ^ (p + 12) * (1 + ε) := by rw [pow_add]; ring
    rwa [e] at h2
  exact ⟨key hF.expRe cos_lip Real.abs_cos_le_one, key hF.expIm sin_lip Real.abs_sin_le_one⟩

theorem pupilField_parts (Φ : ℝ → ℝ → ℝ) (r θ q φ : ℝ) :
    (pupilField Φ r θ q φ).re = Real.cos (Φ q φ - r * q * Real.cos (φ - θ)) * q ∧
    (pupilField Φ r θ q φ).im = Real.sin (Φ q φ - r * q * Real.cos (φ - θ)) * q := by
  unfold pupilField
  rw [mul_comm Complex.I, Complex.re_mul_ofReal, Complex.im_mul_ofReal, Complex.exp_ofReal_mul_I_re, Complex.exp_ofReal_mul_I_im]
  exact ⟨rfl, rfl⟩

/-- Both parts approximate. -/
def ErC (A M : ℝ) (x : CFl) (v : ℂ) : Prop := Er A M x.re v.re ∧ Er A M x.im v.im

/-- A floating-point phase computes `Φ`. -/
def FltPhaseOk (u : ℝ) (kΦ : ℕ) (S : ℝ) (ph : FltPhase) (Φ : ℝ → ℝ → ℝ) : Prop :=
  ∀ q' q φ' φ, 0 ≤ q' → q' ≤ 1 → 0 ≤ q → q ≤ 1 → Er ((1 + u) ^ 11) 1 q' q → Er ((1 + u) ^ 4) (2 * Real.pi) φ' φ →
    RetP (ph q' φ') fun x => Er ((1 + u) ^ kΦ) S x (Φ q φ)

theorem diffraction_er (hF : PsfAccurate F u η p) {kΦ kr K : ℕ} {S R : ℝ} (hR : 1 ≤ R) (hS : 0 ≤ S) (hK1 : kΦ + 1 ≤ K) (hK2 : kr + 2 * p + 21 ≤ K)
    {ph : FltPhase} {Φ : ℝ → ℝ → ℝ} (hph : FltPhaseOk u kΦ S ph Φ) {φ' φ θ' θ r' r q' q : ℝ} (hφ : Er ((1 + u) ^ 4) (2 * Real.pi) φ' φ)
    (hθ : Er ((1 + u) ^ (p + 2)) 8 θ' θ) (hr : Er ((1 + u) ^ kr) R r' r) (hq0 : 0 ≤ q') (hq1 : q' ≤ 1) (h0 : 0 ≤ q) (h1 : q ≤ 1)
    (hq : Er ((1 + u) ^ 11) q q' q) (hM : η ≤ q ∨ (q = 0 ∧ q' = 0)) :
    RetP (fltDiffraction F ph φ' q' θ' r') fun w =>
      ErC ((1 + u) ^ (p + 12) * (1 + ((1 + u) ^ K - 1) * (S + 15 * R))) q w (pupilField Φ r θ q φ) := by
  have hq' := hq.monoK (l := 11) hF le_rfl h1
  refine RetP.bind (hph q' q φ' φ hq0 hq1 h0 h1 hq' hφ) fun x hx => ?_
  refine retP_pure _ ?_
  unfold ErC fltWave
  rw [(pupilField_parts Φ r θ q φ).1, (pupilField_parts Φ r θ q φ).2]
  simp only []
  rcases hM with hM | ⟨rfl, rfl⟩
  · have ha := arg_er hF hR hK1 hK2 hφ hθ hr hq' hx
    refine wave_er hF ?_ ha hq hM
    have := u_one hF K
    exact mul_nonneg (by linarith) (by linarith)
  · simp only [mul_zero, hF.zero]
    exact ⟨⟨by simp, by simp⟩, ⟨by simp, by simp⟩⟩

/-! ### Sums -/

theorem sum_er (hF : PsfAccurate F u η p) {A : ℝ} (hA : 1 ≤ A) (xs : List ℝ) (vs Ms : List ℝ) (h1 : xs.length = Ms.length) (h2 : vs.length = Ms.length)
    (h : ∀ i (hi : i < Ms.length), Er A Ms[i] xs[i] vs[i]) (hη : ∀ m ∈ Ms, η ≤ m) :
    Er (A * (1 + u) ^ xs.length) Ms.sum (F.sum xs) vs.sum := by
  have key : ∀ (Ms xs vs : List ℝ), xs.length = Ms.length → vs.length = Ms.length → (∀ i (hi : i < Ms.length) (h3 : i < xs.length) (h4 : i < vs.length), Er A Ms[i] xs[i] vs[i]) → (∀ m ∈ Ms, η ≤ m) →
      Er A Ms.sum xs.sum vs.sum ∧ (xs.map fun x => max |x| η).sum ≤ A * Ms.sum := by
    intro Ms
    induction Ms with
    | nil =>
      intro xs vs h1 h2 _ _
      rw [List.length_nil, List.length_eq_zero_iff] at h1 h2
      subst h1 h2
      simp [Er]
    | cons m Ms ih =>
      intro xs vs h1 h2 h hη
      obtain ⟨x, xs, rfl⟩ := List.exists_cons_of_length_eq_add_one h1
      obtain ⟨v, vs, rfl⟩ := List.exists_cons_of_length_eq_add_one h2
      simp only [List.length_cons, Nat.add_right_cancel_iff] at h1 h2
      have e0 : Er A m x v := h 0 (by simp) (by simp) (by simp)
      obtain ⟨i1, i2⟩ := ih xs vs h1 h2 (fun i a b c => h (i + 1) (by simpa using a) (by simpa using b) (by simpa using c)) fun m hm => hη m (by simp [hm])
      have hm := hη m (by simp)
      simp only [List.sum_cons, List.map_cons]
      refine ⟨e0.add i1 hA le_rfl, ?_⟩
      have : max |x| η ≤ A * m := max_le e0.abs (hm.trans (le_mul_of_one_le_left e0.nonneg hA))
      linarith
  obtain ⟨k1, k2⟩ := key Ms xs vs h1 h2 (fun i a _ _ => h i a) hη
  refine ⟨k1.1, ?_⟩
  have h5 := hF.sum xs
  have h6 := u_one hF xs.length
  have h7 := abs_sub_le (F.sum xs) xs.sum vs.sum
  have h8 := k1.2
  generalize (1 + u) ^ xs.length = B at *
  have : (B - 1) * (xs.map fun x => max |x| η).sum ≤ (B - 1) * (A * Ms.sum) := mul_le_mul_of_nonneg_left k2 (by linarith)
  calc _ ≤ (B - 1) * (A * Ms.sum) + (A - 1) * Ms.sum := by linarith
    _ = _ := by ring

end

end Verif.Proofs
