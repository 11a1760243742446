import Verif.Props.FloatImages
import Verif.Proofs.FloatKernelSize

/-!
# Lemmas for the symmetries in floating-point arithmetic
-/

namespace Verif.Proofs
open Verif.Model Verif.Spec Verif.Props

theorem Ret.unique {α : Type} {c : CM α} {x y : α} (h : Ret c x) (h' : Ret c y) : x = y := by
  have a := (h _ good_init).1
  rw [(h' _ good_init).1] at a
  cases a
  rfl

/-- The value of a polynomial times an amplitude: one number for the polynomial, whatever the amplitude, and only the angular part depends on the angle. -/
theorem termVal_radial (F : PsfArith) (fuel : Nat) (o : PolObj) (hv : ValidOrders o.m o.n) (hf : o.n.toNat + 1 < fuel) (r : ℝ) :
    ∃ w, ∀ c t, termVal F fuel c o r t = F.fl (c * ((normalizationFl F.toFloatArith o.m o.n * triangularFl F.toFloatArith o.m ⟨t⟩ * w).val)) := by
  obtain ⟨w, hw, -⟩ := radialValue_both (fl_add_comm (F := F.toFloatArith)) fuel fuel false o.m o.m o.n ⟨r⟩ rfl hv hf hf
  refine ⟨w, fun c t => ?_⟩
  have h : Ret (fltSinglePhase F fuel o c r t) (F.fl (c * ((normalizationFl F.toFloatArith o.m o.n * triangularFl F.toFloatArith o.m ⟨t⟩ * w).val))) := by
    unfold fltSinglePhase
    have e : Ret (polynomialFl F.toFloatArith fuel false o.m o.n ⟨r⟩ ⟨t⟩) (normalizationFl F.toFloatArith o.m o.n * triangularFl F.toFloatArith o.m ⟨t⟩ * w) := by
      unfold polynomialFl
      rw [if_neg (by simp)]
      exact Ret.bind hw (ret_pure _)
    exact e.bind (ret_pure _)
  exact Ret.unique (termVal_ret F fuel c o hv hf r t) h

theorem termVal_neg (F : PsfArith) (hfl : ∀ x, F.fl (-x) = -F.fl x) (fuel : Nat) (c : ℝ) (o : PolObj) (hv : ValidOrders o.m o.n) (hf : o.n.toNat + 1 < fuel) (r t : ℝ) :
    termVal F fuel (-c) o r t = -termVal F fuel c o r t := by
  obtain ⟨w, hw⟩ := termVal_radial F fuel o hv hf r
  rw [hw, hw, neg_mul, hfl]

/-- All amplitudes negated. -/
def negated (l : List (ℝ × PolObj)) : List (ℝ × PolObj) := l.map fun q => (-q.1, q.2)

theorem negated_usable {fuel : Nat} {l : List (ℝ × PolObj)} (h : Usable fuel l) : Usable fuel (negated l) := by
  intro q hq
  obtain ⟨p, hp, rfl⟩ := List.mem_map.1 hq
  exact h p hp

theorem restVal_neg (F : PsfArith) (hfl : ∀ x, F.fl (-x) = -F.fl x) (fuel : Nat) (l : List (ℝ × PolObj)) (h : Usable fuel l) (r t S : ℝ) :
    restVal F fuel r t (negated l) (-S) = -restVal F fuel r t l S := by
  induction l generalizing S with
  | nil => rfl
  | cons q l ih =>
    obtain ⟨c, o⟩ := q
    have ho := h (c, o) List.mem_cons_self
    have ih := fun S => ih h.tail S
    unfold restVal negated at ih ⊢
    simp only [List.map_cons, List.foldl_cons, abs_neg]
    by_cases hc : |c| > 0
    · rw [if_pos hc, if_pos hc, termVal_neg F hfl fuel c o ho.1 ho.2, ← neg_add, hfl]
      exact ih _
    · rw [if_neg hc, if_neg hc]
      exact ih _

/-- The pixel of an image in double precision, by the values of the sum. -/
theorem image_pixels (s : List ℝ → ℝ) (fuel : Nat) (c : ℝ) (o : PolObj) (l : List (ℝ × PolObj)) (hl : Usable fuel ((c, o) :: l)) (h w : Nat) (hw : 0 < w)
    (hR : min w h ≤ 2 ^ 25) (k i : Nat) (S : Grid) :
    RetP (imageRowsFl (psfDoubles s) fuel ((c, o) :: l) h w k i S) fun g => g.rows = S.rows ∧ g.cols = S.cols ∧ ∀ a j, j < w →
      g.entry a j = if i ≤ a ∧ a < i + k then
          (if imgDistFl (psfDoubles s) h w a j > imgRadius h w then 0
           else restVal (psfDoubles s) fuel (imgRFl (psfDoubles s) h w a j) (imgThetaFl (psfDoubles s) h w a j) l
             (termVal (psfDoubles s) fuel c o (imgRFl (psfDoubles s) h w a j) (imgThetaFl (psfDoubles s) h w a j)))
        else S.entry a j := by
  induction k generalizing i S with
  | zero => exact retP_pure _ ⟨rfl, rfl, fun a j hj => by rw [if_neg (by omega)]⟩
  | succ k ih =>
    unfold imageRowsFl
    have hr0 : RetP (imageRowFl (psfDoubles s) fuel ((c, o) :: l) h w i) fun row => ∀ j, j < w → row j =
        if imgDistFl (psfDoubles s) h w i j > imgRadius h w then 0
           else restVal (psfDoubles s) fuel (imgRFl (psfDoubles s) h w i j) (imgThetaFl (psfDoubles s) h w i j) l
             (termVal (psfDoubles s) fuel c o (imgRFl (psfDoubles s) h w i j) (imgThetaFl (psfDoubles s) h w i j)) := by
      unfold imageRowFl
      rw [if_neg]
      swap
      · rintro (h1 | ⟨j, -, h1⟩)
        · omega
        · obtain ⟨a, b, -⟩ := imgRFl_near s h w i j hR
          rcases h1 with h1 | h1 <;> linarith
      refine Ret.bindP (fltSumPoints_ret (psfDoubles s) fuel c o l hl _) ?_
      refine retP_pure _ fun j hj => ?_
      rw [List.getD_eq_getElem?_getD, List.map_map, List.getElem?_map, List.getElem?_range hj]
      rfl
    refine RetP.bind hr0 fun row hrow => ?_
    refine RetP.mono (ih (i + 1) _) fun g hg => ⟨hg.1, hg.2.1, fun a j hj => ?_⟩
    rw [hg.2.2 a j hj]
    by_cases ha : a = i
    · subst ha
      rw [if_neg (show ¬ (a + 1 ≤ a ∧ a < a + 1 + k) by omega), if_pos (show a ≤ a ∧ a < a + (k + 1) by omega)]
      show (if a = a then row j else S.entry a j) = _
      rw [if_pos rfl, hrow j hj]
    · by_cases hb : i + 1 ≤ a ∧ a < i + 1 + k
      · rw [if_pos hb, if_pos (show i ≤ a ∧ a < i + (k + 1) by omega)]
      · rw [if_neg hb, if_neg (show ¬ (i ≤ a ∧ a < i + (k + 1)) by omega)]
        exact if_neg ha

end Verif.Proofs
