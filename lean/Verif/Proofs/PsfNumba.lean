import Verif.Proofs.Kernel
import Verif.Model.PsfNumba

/-! # The accelerated phase -/

namespace Verif.Proofs
open Verif.Model Verif.Spec

theorem compRadial_table (m n : Int) (r : ℝ) : (compRadial m n).map (fun f => f r) = radialTable m n r := by
  unfold compRadial radialTable
  simp only [apply_ite (Option.map _), Option.map_some, Option.map_none, pow_zero]

theorem compNorm_eq (m n : Int) : compNorm m n = Spec.norm m n := by
  unfold compNorm Spec.norm; split_ifs <;> rfl

theorem compTri_eq (m : Int) (t : ℝ) : compTri m t = angular m t := by
  unfold compTri angular
  by_cases h : 0 ≤ m
  · rw [if_pos h, if_pos h]
  · rw [if_neg (by omega), if_neg h, abs_of_neg (by omega), ← Real.sin_neg]
    push_cast
    congr 1; ring

/-- The orders for which the accelerated calculation has an explicit equation. -/
def CompSupported (m n : Int) : Prop := ValidOrders m n ∧ n ≤ 10 ∧ ¬ (n > 7 ∧ |m| = n)

theorem zernpolValue_ok (m n : Int) (h : CompSupported m n) :
    ∃ f, zernpolValue m n = .ok f ∧ ∀ r t, f r t = zernike m n r t := by
  obtain ⟨hv, h10, hne⟩ := h
  unfold zernpolValue
  cases hc : (compRadial m n : Option (ℝ → ℝ)) with
  | none =>
    exfalso
    have := compRadial_table m n 0
    rw [hc] at this
    have := radialTable_none m n (0 : ℝ) hv h10 this.symm
    rw [pyAbs_eq] at this
    exact hne this
  | some f =>
    refine ⟨_, rfl, fun r t => ?_⟩
    have h1 := compRadial_table m n r
    rw [hc] at h1
    have h2 := radialTable_correct m n r (f r) h1.symm
    rw [h2, ← spec_radial_eq m n r hv, compNorm_eq, compTri_eq]
    unfold zernike; ring

theorem compPhase_ok (m n : Int) (h : CompSupported m n) (alpha : ℝ) :
    PhaseOk (compPhase m n alpha) fun p phi => alpha * zernike m n p phi := by
  obtain ⟨f, hf, he⟩ := zernpolValue_ok m n h
  have : f = zernike m n := by funext r t; exact he r t
  subst this
  constructor
  · intro p phi _ _
    exact Ret.bind (ret_lift hf) (ret_pure _)
  · intro ps phi _ _
    refine Ret.bind (ret_lift hf) ?_
    have : (applyArg (zernike m n) (.arr [ps.length] ps) phi).smul alpha =
        .array [ps.length] (ps.map fun p => alpha * zernike m n p phi) := by
      simp [applyArg, Num.smul, Num.map, Function.comp_def]
    rw [this]
    exact ret_pure _

/-- The terms of the sum, with the orders only. -/
noncomputable def orderSum (l : List (ℝ × Int × Int)) (r t : ℝ) : ℝ := (l.map fun q => q.1 * zernike q.2.1 q.2.2 r t).sum

theorem compRest_num (phi p : ℝ) (l : List (ℝ × Int × Int)) (h : ∀ q ∈ l, CompSupported q.2.1 q.2.2) (v : ℝ) :
    Ret (compPolsRest (.num p) phi l (.scalar v)) (.scalar (v + orderSum l p phi)) := by
  induction l generalizing v with
  | nil => simpa [compPolsRest, orderSum] using ret_pure _
  | cons q t ih =>
    obtain ⟨f, hf, he⟩ := zernpolValue_ok q.2.1 q.2.2 (h q (by simp))
    refine Ret.bind (ret_lift hf) ?_
    have := ih (fun s hs => h s (by simp [hs])) (v + q.1 * zernike q.2.1 q.2.2 p phi)
    simpa [applyArg, Num.smul, Num.map, Num.add, he, orderSum, add_assoc] using this

theorem compRest_arr (phi : ℝ) (ps : List ℝ) (l : List (ℝ × Int × Int)) (h : ∀ q ∈ l, CompSupported q.2.1 q.2.2) (g : ℝ → ℝ) :
    Ret (compPolsRest (.arr [ps.length] ps) phi l (.array [ps.length] (ps.map g)))
      (.array [ps.length] (ps.map fun p => g p + orderSum l p phi)) := by
  induction l generalizing g with
  | nil => simpa [compPolsRest, orderSum] using ret_pure _
  | cons q t ih =>
    obtain ⟨f, hf, he⟩ := zernpolValue_ok q.2.1 q.2.2 (h q (by simp))
    refine Ret.bind (ret_lift hf) ?_
    have := ih (fun s hs => h s (by simp [hs])) fun p => g p + q.1 * zernike q.2.1 q.2.2 p phi
    simpa [applyArg, Num.smul, Num.map, Num.add, he, orderSum, add_assoc, List.zipWith_map, List.zipWith_self] using this

theorem compPols_ok (l : List (ℝ × Int × Int)) (hl : l ≠ []) (h : ∀ q ∈ l, CompSupported q.2.1 q.2.2) :
    PhaseOk (compPolsPhase l) (orderSum l) := by
  cases l with
  | nil => exact absurd rfl hl
  | cons q t =>
    obtain ⟨f, hf, he⟩ := zernpolValue_ok q.2.1 q.2.2 (h q (by simp))
    constructor
    · intro p phi _ _
      refine Ret.bind (ret_lift hf) ?_
      have := compRest_num phi p t (fun s hs => h s (by simp [hs])) (q.1 * zernike q.2.1 q.2.2 p phi)
      simpa [applyArg, Num.smul, Num.map, he, orderSum] using this
    · intro ps phi _ _
      refine Ret.bind (ret_lift hf) ?_
      have := compRest_arr phi ps t (fun s hs => h s (by simp [hs])) fun p => q.1 * zernike q.2.1 q.2.2 p phi
      simpa [applyArg, Num.smul, Num.map, he, orderSum, Function.comp_def] using this

theorem orderSum_eq (l : List (ℝ × PolObj)) : orderSum (l.map fun x => (x.1, x.2.m, x.2.n)) = termSum l := by
  funext r t
  simp [orderSum, termSum, Function.comp_def]

end Verif.Proofs
