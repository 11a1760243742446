import Verif.Model.FloatNumba
import Verif.Proofs.FloatPsfPhase
import Verif.Proofs.FloatPsfKernel
import Verif.Proofs.PsfNumba

/-!
# Error analysis of the accelerated PSF calculation
-/

namespace Verif.Proofs
open Verif.Model Verif.Spec

section
variable {F : FloatArith} {u : ℝ} {p : ℕ}

theorem comp_step {q : Prop} [Decidable q] {f y : Fl F → Fl F} {g w : ℝ → ℝ} {t : Option (Fl F → Fl F)} {t' : Option (ℝ → ℝ)} {Q : (Fl F → Fl F) → (ℝ → ℝ) → Prop}
    (h : (if q then some f else t) = some y) (h' : (if q then some g else t') = some w) (hq : q → Q f g)
    (ht : t = some y → t' = some w → Q y w) : Q y w := by
  split_ifs at h h' with c
  · cases h; cases h'; exact hq c
  · exact ht h h'

theorem comp_some_fl (m n : Int) (f : Fl F → Fl F) (h : compRadial m n = some f) : ∃ w : ℝ → ℝ, compRadial m n = some w := by
  unfold compRadial at h ⊢
  iterate 33
    refine some_step h (fun h => ?_)
  exact absurd h (by simp)

theorem comp_some_ge (m n : Int) (w : ℝ → ℝ) (h : compRadial m n = some w) : ∃ f : Fl F → Fl F, compRadial m n = some f := by
  unfold compRadial at h ⊢
  iterate 33
    refine some_step h (fun h => ?_)
  exact absurd h (by simp)

theorem comp_none_fl (m n : Int) (h : (compRadial m n : Option (Fl F → Fl F)) = none) : (compRadial m n : Option (ℝ → ℝ)) = none := by
  cases hw : (compRadial m n : Option (ℝ → ℝ)) with
  | none => rfl
  | some w =>
    obtain ⟨f, hf⟩ := comp_some_ge (F := F) m n w hw
    rw [h] at hf
    exact absurd hf (by simp)

set_option maxHeartbeats 4000000 in
/-- The explicit equations in the arithmetic. -/
theorem comp_fl (hF : Accurate F u p) (m n : Int) (r : Fl F) (h0 : 0 ≤ r.val) (h1 : r.val ≤ 1) (f : Fl F → Fl F) (w : ℝ → ℝ)
    (h : compRadial m n = some f) (h' : compRadial m n = some w) : Ap u (expo p n) (growth n.toNat) (f r) (w r.val) := by
  unfold compRadial at h h'
  iterate 33
    refine comp_step (Q := fun f w => Ap u (expo p n) (growth n.toNat) (f r) (w r.val)) h h' (fun hp => ?_) (fun h h' => ?_)
    · clear h h'
      apply Ap.mono hF.unit
      · repeat any_goals first
          | with_reducible exact Ap.pow hF h0 h1 _
          | with_reducible exact Ap.self h0 h1
          | with_reducible exact Ap.one
          | with_reducible exact Ap.ofNat hF _
          | with_reducible apply Ap.mul hF
          | with_reducible apply Ap.sub hF
          | with_reducible apply Ap.add hF
        all_goals norm_num
      · casesm* _ ∨ _, _ ∧ _ <;> subst_vars <;> simp only [expo, Int.reduceToNat] <;> omega
      · casesm* _ ∨ _, _ ∧ _ <;> subst_vars <;> simp only [Int.reduceToNat, growth] <;> norm_num
    clear * - h h' h0 h1 hF
  exact absurd h (by simp)

theorem compNormFl_eq (m n : Int) : compNormFl F m n = normalizationFl F m n := rfl

theorem compTriFl_eq (m : Int) (t : Fl F) : compTriFl F m t = triangularFl F m t := rfl

/-- `zernpol_value` for the supported orders. -/
theorem zernpolFl_ok (hF : Accurate F u p) (m n : Int) (hs : CompSupported m n) (r t : Fl F) (h0 : 0 ≤ r.val) (h1 : r.val ≤ 1) :
    ∃ y, zernpolFl F m n r t = .ok y ∧
      Ap u (4 * n.toNat + 2 * p + 11) (Spec.norm m n * (max |(m : ℝ)| 1 * max |t.val| 1) * growth n.toNat) y (zernike m n r.val t.val) := by
  obtain ⟨hv, h10, hne⟩ := hs
  have hn := (valid_iff m n).1 hv
  unfold zernpolFl
  cases hc : (compRadial m n : Option (Fl F → Fl F)) with
  | none =>
    exfalso
    have h := compRadial_table m n 0
    rw [comp_none_fl m n hc] at h
    have := radialTable_none m n (0 : ℝ) hv h10 h.symm
    rw [pyAbs_eq] at this
    exact hne this
  | some f =>
    obtain ⟨w, hw⟩ := comp_some_fl m n f hc
    have h := comp_fl hF m n r h0 h1 f w hc hw
    have e1 := compRadial_table m n r.val
    rw [hw] at e1
    have e2 := radialTable_correct m n r.val (w r.val) e1.symm
    rw [e2] at h
    have h2 : (1 : ℝ) ≤ max |(m : ℝ)| 1 := le_max_right _ _
    have h3 : (1 : ℝ) ≤ max |t.val| 1 := le_max_right _ _
    have hM : (1 : ℝ) ≤ max |(m : ℝ)| 1 * max |t.val| 1 := by nlinarith
    have hN := norm_one m n (by omega)
    have hG := growth_one n.toNat
    have hP : (1 : ℝ) ≤ Spec.norm m n * (max |(m : ℝ)| 1 * max |t.val| 1) := by nlinarith
    refine ⟨_, rfl, ?_⟩
    rw [compNormFl_eq, compTriFl_eq]
    have := ((norm_fl hF m n (by omega)).mul hF (triangular_fl hF m t) hP).mul hF h (by nlinarith)
    have e : zernike m n r.val t.val = Spec.norm m n * angular m t.val * RR m n r.val := by
      unfold zernike
      rw [spec_radial_eq m n r.val hv]; ring
    rw [e]
    refine this.mono hF.unit ?_ le_rfl
    simp only [expo]; omega

end

section
variable {F : PsfArith} {u η : ℝ} {p : ℕ}

/-- The phase of one polynomial in the accelerated calculation. -/
theorem compPhase_er (hF : PsfAccurate F u η p) {m n : Int} (hs : CompSupported m n) {α' α : ℝ} {ka : ℕ} (hα : Er ((1 + u) ^ ka) (max |α| η) α' α) :
    FltPhaseOk u (4 * n.toNat + 2 * p + 16 + ka) (max |α| η * zernikeSize m n) (fltCompPhase F m n α') fun q φ => α * zernike m n q φ := by
  intro q' q φ' φ h0' h1' h0 h1 hq hφ
  obtain ⟨y, hy, e⟩ := zernpolFl_ok hF.basic m n hs (⟨q'⟩ : Fl F.toFloatArith) ⟨φ'⟩ h0' h1'
  unfold fltCompPhase
  rw [hy]
  exact retP_pure _ (phase_step hF hs.1 hα h0' h1' h0 h1 hq hφ e.2)

theorem compPolsRest_er (hF : PsfAccurate F u η p) (N : ℕ) (l : List (ℝ × PolObj))
    (hl : ∀ x ∈ l, CompSupported x.2.m x.2.n ∧ x.2.n.toNat ≤ N) {q' q φ' φ : ℝ} (h0' : 0 ≤ q') (h1' : q' ≤ 1) (h0 : 0 ≤ q) (h1 : q ≤ 1)
    (hq : Er ((1 + u) ^ 11) 1 q' q) (hφ : Er ((1 + u) ^ 4) (2 * Real.pi) φ' φ) (k : ℕ) (hk : 4 * N + 2 * p + 16 ≤ k) (S M v : ℝ)
    (h : Er ((1 + u) ^ k) M S v) :
    RetP (fltCompPolsRest F q' φ' l S) fun x =>
      Er ((1 + u) ^ (k + l.length)) (M + (l.map fun x => max |x.1| η * zernikeSize x.2.m x.2.n).sum) x (v + (l.map fun x => x.1 * zernike x.2.m x.2.n q φ).sum) := by
  induction l generalizing k S M v with
  | nil =>
    refine retP_pure _ ?_
    simpa using h
  | cons x l ih =>
    obtain ⟨a, o⟩ := x
    obtain ⟨hv, hN⟩ := hl (a, o) (by simp)
    have hα : Er ((1 + u) ^ 0) (max |a| η) a a := Er.exactK u a (le_max_left _ _)
    refine RetP.bind (compPhase_er hF (m := o.m) (n := o.n) hv hα q' q φ' φ h0' h1' h0 h1 hq hφ) fun y hy => ?_
    have hn := ((valid_iff o.m o.n).1 hv.1).1
    have hs1 : 1 ≤ zernikeSize o.m o.n := (norm_one o.m o.n hn).trans (zernikeSize_ge o.m o.n hn)
    have hmax : η ≤ max |a| η := le_max_right _ _
    have hM := h.nonneg
    have hy' := hy.monoK (l := k) hF (by simp only at hN; omega) le_rfl
    have e := (h.add hy' (u_one hF k) le_rfl).roundK hF (by
      have := hmax.trans (le_mul_of_one_le_right (hF.eta_pos.le.trans hmax) hs1)
      linarith)
    refine RetP.mono (ih (fun x hx => hl x (by simp [hx])) (k + 1) (by omega) _ _ _ e) fun w hw => ?_
    simp only [List.length_cons, List.map_cons, List.sum_cons]
    rw [show k + (l.length + 1) = k + 1 + l.length by ring, ← add_assoc, ← add_assoc]
    exact hw

/-- The phase of several polynomials in the accelerated calculation. -/
theorem compPolsPhase_er (hF : PsfAccurate F u η p) (N : ℕ) (l : List (ℝ × PolObj)) (hne : l ≠ [])
    (hl : ∀ x ∈ l, CompSupported x.2.m x.2.n ∧ x.2.n.toNat ≤ N) :
    FltPhaseOk u (4 * N + 2 * p + 15 + l.length) ((l.map fun x => max |x.1| η * zernikeSize x.2.m x.2.n).sum) (fltCompPolsPhase F l)
      fun q φ => (l.map fun x => x.1 * zernike x.2.m x.2.n q φ).sum := by
  obtain ⟨⟨a, o⟩, l, rfl⟩ := List.exists_cons_of_ne_nil hne
  intro q' q φ' φ h0' h1' h0 h1 hq hφ
  obtain ⟨hv, hN⟩ := hl (a, o) (by simp)
  have hα : Er ((1 + u) ^ 0) (max |a| η) a a := Er.exactK u a (le_max_left _ _)
  refine RetP.bind (compPhase_er hF (m := o.m) (n := o.n) hv hα q' q φ' φ h0' h1' h0 h1 hq hφ) fun y hy => ?_
  have hy' := hy.monoK (l := 4 * N + 2 * p + 16) hF (by simp only at hN; omega) le_rfl
  refine RetP.mono (compPolsRest_er hF N l (fun x hx => hl x (by simp [hx])) h0' h1' h0 h1 hq hφ _ le_rfl _ _ _ hy') fun w hw => ?_
  simp only [List.length_cons, List.map_cons, List.sum_cons]
  rwa [show 4 * N + 2 * p + 15 + (l.length + 1) = 4 * N + 2 * p + 16 + l.length by ring]

end

end Verif.Proofs
