import Verif.Model.Alias
import Verif.Proofs.Parametric
import Verif.Proofs.NonFinite

/-! # Proofs: object identity -/

namespace Verif.Proofs
open Verif.Model Verif.Spec

variable {N : ℕ}

/-- The values of tracked arrays. -/
noncomputable def valRel (N : ℕ) : NumRel (Tracked N) (Fin N → ℝ) where
  R t f := t.val = f
  zero := rfl
  one := rfl
  add h h' := by subst h h'; rfl
  sub h h' := by subst h h'; rfl
  mul h h' := by subst h h'; rfl
  pow h k := by subst h; rfl
  nat k := rfl
  int k := rfl
  rat q := by
    show (fun _ => (q : ℝ)) = algebraMap ℚ (Fin N → ℝ) q
    funext i
    simp

/-- All results are new arrays. -/
def NewRes (x : Res (Tracked N)) : Prop := ∀ v, x = .ok v → v.isArg = false
def NewCM (x : CM (Tracked N)) : Prop := ∀ s v, (x s).1 = .ok v → v.isArg = false

theorem NewRes.ok {v : Tracked N} (h : v.isArg = false) : NewRes (.ok v) := by
  intro w hw
  injection hw with hw
  rw [← hw]; exact h

theorem NewRes.bind {β : Type} (x : Res β) {f : β → Res (Tracked N)} (h : ∀ b, NewRes (f b)) : NewRes (x >>= f) := by
  cases x with
  | error e => intro v hv; cases hv
  | ok b => exact h b

theorem NewRes.ite {p : Prop} [Decidable p] {x y : Res (Tracked N)} (hx : NewRes x) (hy : NewRes y) : NewRes (if p then x else y) := by
  split_ifs <;> assumption

theorem NewCM.ite {p : Prop} [Decidable p] {x y : CM (Tracked N)} (hx : NewCM x) (hy : NewCM y) : NewCM (if p then x else y) := by
  split_ifs <;> assumption

theorem NewCM.pure {v : Tracked N} (h : v.isArg = false) : NewCM (Pure.pure v) := by
  intro s w hw
  have : (Except.ok v : Res (Tracked N)) = .ok w := hw
  injection this with this
  rw [← this]; exact h

theorem NewCM.lift {x : Res (Tracked N)} (h : NewRes x) : NewCM (CM.lift x) := fun _ v hv => h v hv

theorem NewCM.bind {β : Type} (x : CM β) {f : β → CM (Tracked N)} (h : ∀ b, NewCM (f b)) : NewCM (x >>= f) := by
  intro s v hv
  have e : (x >>= f) s = (match x s with | (.ok b, s') => f b s' | (.error e, s') => (.error e, s')) := rfl
  rw [e] at hv
  rcases hx : x s with ⟨_ | b, s'⟩
  · rw [hx] at hv; cases hv
  · rw [hx] at hv; exact h b s' v hv

/-- The value, if there is one, is a new array. -/
def NewOpt : Option (Tracked N) → Prop
  | some v => v.isArg = false
  | none => True

theorem NewOpt.ite {p : Prop} [Decidable p] {x y : Option (Tracked N)} (hx : NewOpt x) (hy : NewOpt y) : NewOpt (if p then x else y) := by
  by_cases h : p
  · rw [if_pos h]; exact hx
  · rw [if_neg h]; exact hy

theorem radialTable_new (m n : Int) (r v : Tracked N) (h : radialTable m n r = some v) :
    v.isArg = (decide ((m = -1 ∧ n = 1) ∨ (m = 1 ∧ n = 1)) && r.isArg) := by
  unfold radialTable at h
  by_cases h1 : (m = -1 ∧ n = 1) ∨ (m = 1 ∧ n = 1)
  · rw [if_neg (by omega), if_pos h1] at h
    injection h with h
    rw [← h]; simp [h1]
  · simp only [h1, decide_false, Bool.false_and]
    have key : NewOpt (some v) := by
      rw [← h]
      simp only [if_neg h1]
      repeat' (first | exact trivial | exact (rfl : _ = false) | refine NewOpt.ite ?_ ?_)
    exact key

theorem radialPolynomial_new (fuel : Nat) (m n : Int) (r v : Tracked N) (h : radialPolynomial fuel m n r = .ok v) :
    v.isArg = (decide ((m = -1 ∧ n = 1) ∨ (m = 1 ∧ n = 1)) && r.isArg) := by
  cases fuel with
  | zero => cases h
  | succ fuel =>
    unfold radialPolynomial at h
    cases ht : radialTable m n r with
    | some w =>
      rw [ht] at h
      injection h with h
      rw [← h]
      exact radialTable_new m n r w ht
    | none =>
      have h1 : ¬ ((m = -1 ∧ n = 1) ∨ (m = 1 ∧ n = 1)) := by
        intro h1
        unfold radialTable at ht
        rw [if_neg (by omega), if_pos h1] at ht
        cases ht
      simp only [h1, decide_false, Bool.false_and]
      rw [ht] at h
      simp only at h
      revert h
      revert v
      show NewRes _
      refine NewRes.ite (NewRes.ok rfl) (NewRes.ite ?_ (NewRes.ite (NewRes.ok rfl) ?_))
      · exact NewRes.bind _ fun _ => NewRes.bind _ fun _ => NewRes.ok rfl
      · exact NewRes.bind _ fun _ => NewRes.bind _ fun _ => NewRes.bind _ fun _ => NewRes.ok rfl

theorem radialDerivTable_new (m n : Int) (r v : Tracked N) (h : radialDerivTable m n r = some v) : v.isArg = false := by
  have key : NewOpt (some v) := by
    rw [← h]
    unfold radialDerivTable
    repeat' (first | exact trivial | exact (rfl : _ = false) | refine NewOpt.ite ?_ ?_)
  exact key

theorem radialDerivative_new (fuel : Nat) (m n : Int) (r : Tracked N) : NewRes (radialDerivative fuel m n r) := by
  cases fuel with
  | zero => intro v h; cases h
  | succ fuel =>
    unfold radialDerivative
    cases ht : radialDerivTable m n r with
    | some w => exact NewRes.ok (radialDerivTable_new m n r w ht)
    | none =>
      refine NewRes.ite (NewRes.ok rfl) (NewRes.ite (NewRes.ok rfl) (NewRes.ite ?_ ?_))
      · exact NewRes.bind _ fun _ => NewRes.bind _ fun _ => NewRes.bind _ fun _ => NewRes.ok rfl
      · exact NewRes.bind _ fun _ => NewRes.bind _ fun _ => NewRes.bind _ fun _ => NewRes.bind _ fun _ => NewRes.bind _ fun _ => NewRes.ok rfl

theorem evalLoop_new (r : Tracked N) (l : List (Int × Int)) (v : Tracked N) (hv : v.isArg = false) : (evalLoop r l v).isArg = false := by
  induction l generalizing v with
  | nil => exact hv
  | cons p l ih =>
    unfold evalLoop
    apply ih
    split_ifs
    · rfl
    · exact hv

theorem radialPolynomialCoeffs_new (fuel : Nat) (m n : Int) (r : Tracked N) : NewCM (radialPolynomialCoeffs fuel m n r) := by
  cases fuel with
  | zero => intro s v h; cases h
  | succ fuel =>
    unfold radialPolynomialCoeffs
    refine NewCM.ite ?_ (NewCM.ite (NewCM.pure rfl) (NewCM.ite ?_ (NewCM.ite (NewCM.pure rfl) ?_)))
    · exact NewCM.bind _ fun _ => NewCM.pure (evalLoop_new _ _ _ rfl)
    · exact NewCM.bind _ fun _ => NewCM.bind _ fun _ => NewCM.pure rfl
    · exact NewCM.bind _ fun _ => NewCM.bind _ fun _ => NewCM.bind _ fun _ => NewCM.pure rfl

theorem radialPolynomialCoeffsDr_new (fuel : Nat) (m n : Int) (r : Tracked N) : NewCM (radialPolynomialCoeffsDr fuel m n r) := by
  cases fuel with
  | zero => intro s v h; cases h
  | succ fuel =>
    unfold radialPolynomialCoeffsDr
    refine NewCM.ite ?_ (NewCM.ite (NewCM.pure rfl) (NewCM.ite ?_ (NewCM.ite (NewCM.pure rfl) ?_)))
    · exact NewCM.bind _ fun _ => NewCM.pure (evalLoop_new _ _ _ rfl)
    · exact NewCM.bind _ fun _ => NewCM.bind _ fun _ => NewCM.bind _ fun _ => NewCM.pure rfl
    · exact NewCM.bind _ fun _ => NewCM.bind _ fun _ => NewCM.bind _ fun _ => NewCM.bind _ fun _ => NewCM.bind _ fun _ => NewCM.pure rfl

theorem radialEqLoop_new (m n : Int) (r : Tracked N) (j : Nat) (k : Int) (v : Tracked N) (hv : v.isArg = false) : NewRes (radialEqLoop m n r j k v) := by
  induction j generalizing k v with
  | zero => exact NewRes.ok hv
  | succ j ih =>
    unfold radialEqLoop
    exact NewRes.bind _ fun _ => NewRes.bind _ fun _ => NewRes.bind _ fun _ => NewRes.bind _ fun _ => ih _ _ rfl

theorem radialDerivEqLoop_new (m n : Int) (r : Tracked N) (j : Nat) (k : Int) (v : Tracked N) (hv : v.isArg = false) :
    NewRes (radialDerivEqLoop m n r j k v) := by
  induction j generalizing k v with
  | zero => exact NewRes.ok hv
  | succ j ih =>
    unfold radialDerivEqLoop
    exact NewRes.ite (NewRes.bind _ fun _ => NewRes.bind _ fun _ => NewRes.bind _ fun _ => NewRes.bind _ fun _ => ih _ _ rfl) (ih _ _ hv)

/-- `radial` gives the argument itself exactly for the polynomials (±1, 1) by the default path. -/
theorem radialValue_new (fuel : Nat) (exact : Bool) (m n : Int) (r v : Tracked N) (s : CoefState) (h : (radialValue fuel exact m n r s).1 = .ok v) :
    v.isArg = (!exact && decide ((m = -1 ∧ n = 1) ∨ (m = 1 ∧ n = 1)) && r.isArg) := by
  unfold radialValue at h
  cases exact
  · simp only [Bool.not_false, if_true] at h
    split_ifs at h with hn
    · simpa using radialPolynomial_new fuel m n r v h
    · have : ¬ ((m = -1 ∧ n = 1) ∨ (m = 1 ∧ n = 1)) := by omega
      simp only [this, decide_false, Bool.not_false, Bool.true_and, Bool.false_and]
      exact radialPolynomialCoeffs_new fuel m n r s v h
  · simp only [Bool.not_true, Bool.false_eq_true, if_false] at h
    simp only [Bool.not_true, Bool.false_and]
    split_ifs at h with hn
    · have h : (Except.ok (0 : Tracked N) : Res (Tracked N)) = .ok v := h
      injection h with h
      rw [← h]; rfl
    · exact radialEqLoop_new m n r _ 0 0 rfl v h

theorem radialDrValue_new (fuel : Nat) (exact : Bool) (m n : Int) (r v : Tracked N) (s : CoefState) (h : (radialDrValue fuel exact m n r s).1 = .ok v) :
    v.isArg = false := by
  unfold radialDrValue at h
  cases exact
  · simp only [Bool.not_false, if_true] at h
    split_ifs at h with hn
    · exact radialDerivative_new fuel m n r v h
    · exact radialPolynomialCoeffsDr_new fuel m n r s v h
  · simp only [Bool.not_true, Bool.false_eq_true, if_false] at h
    split_ifs at h with hn
    · have h : (Except.ok (0 : Tracked N) : Res (Tracked N)) = .ok v := h
      injection h with h
      rw [← h]; rfl
    · have h : radialDerivativeEq m n r = .ok v := h
      unfold radialDerivativeEq at h
      split_ifs at h
      · exact radialDerivEqLoop_new m n r _ 0 0 rfl v h
      · injection h with h
        rw [← h]; rfl

section
variable (fuel : Nat) (exact : Bool) (m n : Int) (s : CoefState) (hs : Good s) (hv : ValidOrders m n) (hf : n.toNat + 1 < fuel)
include hs hv hf

theorem radialValue_tracked (t : Tracked N) : ∃ v, (radialValue fuel exact m n t s).1 = .ok v ∧
    v.val = (if exact ∧ 40 < n then 0 else RR m n t.val) ∧ v.isArg = (!exact && decide ((m = -1 ∧ n = 1) ∨ (m = 1 ∧ n = 1)) && t.isArg) := by
  have h := (radialValue_rel (valRel N) (r := t) (r' := t.val) rfl fuel exact m n s).1
  rw [radialValue_ok fuel exact m n _ s hs hv hf] at h
  obtain ⟨v, h1, h2⟩ := h.ok_right
  exact ⟨v, h1, h2, radialValue_new fuel exact m n t v s h1⟩

theorem radialDrValue_tracked (t : Tracked N) : ∃ v, (radialDrValue fuel exact m n t s).1 = .ok v ∧
    v.val = (if exact then (if 38 < n then 0 else DR m n t.val) else if n ≤ 12 then DR m n t.val else drVal fuel m n t.val) ∧ v.isArg = false := by
  have h := (radialDrValue_rel (valRel N) (r := t) (r' := t.val) rfl fuel exact m n s).1
  rw [radialDrValue_ok fuel exact m n _ s hs hv hf] at h
  obtain ⟨v, h1, h2⟩ := h.ok_right
  exact ⟨v, h1, h2, radialDrValue_new fuel exact m n t v s h1⟩

end

end Verif.Proofs
