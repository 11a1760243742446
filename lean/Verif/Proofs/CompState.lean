import Verif.Model.PsfNumba
import Verif.Model.PsfObj

/-! # The accelerated calculations do not use the process-wide tables -/

namespace Verif.Proofs
open Verif.Model

/-- `x` leaves the process-wide state as it is, whether it returns or raises. -/
def NoState {β : Type} (x : CM β) : Prop := ∀ s, (x s).2 = s

theorem NoState.pure {β : Type} (v : β) : NoState (Pure.pure v : CM β) := fun _ => rfl
theorem NoState.raise {β : Type} (e : PyErr) : NoState (CM.raise e : CM β) := fun _ => rfl
theorem NoState.lift {β : Type} (x : Res β) : NoState (CM.lift x) := fun _ => rfl

theorem NoState.bind {β γ : Type} {x : CM β} {f : β → CM γ} (h1 : NoState x) (h2 : ∀ v, NoState (f v)) : NoState (x >>= f) := by
  intro s
  show (match x s with
    | (.ok v, s') => f v s'
    | (.error e, s') => (.error e, s') : Res γ × CoefState).2 = s
  have := h1 s
  rcases hx : x s with ⟨r | v, s'⟩ <;> rw [hx] at this
  · exact this
  · simp only at this ⊢
    rw [h2 v s', this]

def NoStatePhase (ph : Phase) : Prop := ∀ p phi, NoState (ph p phi)

theorem compPhase_pure (m n : Int) (alpha : ℝ) : NoStatePhase (compPhase m n alpha) :=
  fun _ _ => (NoState.lift _).bind fun _ => NoState.pure _

theorem compPolsRest_pure (p : Arg) (phi : ℝ) (l : List (ℝ × Int × Int)) : ∀ S, NoState (compPolsRest p phi l S) := by
  induction l with
  | nil => exact fun S => NoState.pure _
  | cons x l ih => exact fun S => (NoState.lift _).bind fun _ => ih _

theorem compPolsPhase_pure (l : List (ℝ × Int × Int)) : NoStatePhase (compPolsPhase l) := by
  cases l with
  | nil => exact fun _ _ => NoState.raise _
  | cons x l => exact fun _ _ => (NoState.lift _).bind fun _ => compPolsRest_pure _ _ _ _

theorem radialIntegral_pure (ph : Phase) (h : NoStatePhase ph) (r theta phi : ℝ) (nR : Int) : NoState (radialIntegral ph r theta phi nR) := by
  have h1 : ∀ phi p theta r, NoState (diffractionAt ph phi p theta r) := fun _ _ _ _ => (h _ _).bind fun _ => NoState.pure _
  have h2 : ∀ phi p theta r, NoState (diffractionSum ph phi p theta r) := fun _ _ _ _ => (h _ _).bind fun _ => NoState.pure _
  unfold radialIntegral
  split_ifs
  · exact NoState.raise _
  · exact (h1 _ _ _ _).bind fun _ => (h1 _ _ _ _).bind fun _ => (h2 _ _ _ _).bind fun _ => NoState.pure _

theorem angleSum_pure (ph : Phase) (h : NoStatePhase ph) (r theta w : ℝ) (nR : Int) (l : List Int) : ∀ acc,
    NoState (angleSum ph r theta w nR l acc) := by
  induction l with
  | nil => exact fun acc => NoState.pure _
  | cons i l ih => exact fun acc => (radialIntegral_pure ph h _ _ _ _).bind fun _ => ih _

theorem psfPoint_pure (ph : Phase) (h : NoStatePhase ph) (r theta : ℝ) (nR nPhi : Int) : NoState (psfPoint ph r theta nR nPhi) := by
  unfold psfPoint
  split_ifs
  · exact NoState.raise _
  · exact (angleSum_pure ph h _ _ _ _ _ _).bind fun _ => (angleSum_pure ph h _ _ _ _ _ _).bind fun _ =>
      (radialIntegral_pure ph h _ _ _ _).bind fun _ => (radialIntegral_pure ph h _ _ _ _).bind fun _ => NoState.pure _

theorem makeKernel_pure (size : Int) (NA : ℝ) (f : Nat → Nat → CM ℝ) (nrm : Bool) (hf : ∀ i j, NoState (f i j)) :
    NoState (makeKernel size NA f nrm) := by
  have hrow : ∀ i k j S, NoState (fillRow f i k j S) := by
    intro i k
    induction k with
    | zero => exact fun j S => NoState.pure _
    | succ k ih => exact fun j S => (hf _ _).bind fun _ => ih _ _
  have hrows : ∀ cols k i S, NoState (fillRows f cols k i S) := by
    intro cols k
    induction k with
    | zero => exact fun i S => NoState.pure _
    | succ k ih => exact fun i S => (hrow _ _ _ _).bind fun _ => ih _ _
  unfold makeKernel
  split_ifs
  · exact NoState.raise _
  · exact NoState.raise _
  · exact (hrows _ _ _ _).bind fun _ => NoState.lift _
  · exact (hrows _ _ _ _).bind fun _ => NoState.pure _

theorem getPsfKernelComp_pure (o : PolObj) (coeff : ℝ) (q : KernelParams) : NoState (getPsfKernelComp o coeff q) := by
  unfold getPsfKernelComp
  simp only []
  split_ifs
  · exact NoState.raise _
  · exact NoState.raise _
  · exact NoState.raise _
  · exact makeKernel_pure _ _ _ _ fun i j => psfPoint_pure _ (compPhase_pure _ _ _) _ _ _ _

theorem getPsfKernelCompPols_pure (l : List (ℝ × PolObj)) (q : KernelParams) : NoState (getPsfKernelCompPols l q) := by
  unfold getPsfKernelCompPols
  simp only []
  split_ifs
  · exact NoState.raise _
  · exact NoState.raise _
  · exact NoState.raise _
  · exact makeKernel_pure _ _ _ _ fun i j => psfPoint_pure _ (compPolsPhase_pure _) _ _ _ _

theorem kernelCall_pure (env : Env) (o : PsfObj) (nrm : Bool) (acc : Option Bool) (ha : env.accelerate acc = true) (x : CM Grid)
    (h : o.kernelCall env nrm acc = some x) : NoState x := by
  unfold PsfObj.kernelCall at h
  split at h
  · simp only [Option.some.injEq, ha, if_true] at h
    subst h
    exact getPsfKernelComp_pure _ _ _
  · split at h
    · cases h
    · split at h
      · simp only [Option.some.injEq] at h
        subst h
        exact NoState.raise _
      · simp only [Option.some.injEq, ha, if_true] at h
        subst h
        split_ifs
        · exact NoState.raise _
        · exact getPsfKernelCompPols_pure _ _

/-- The state after an accelerated calculation is the one before it. -/
theorem calculate_pure (env : Env) (o : PsfObj) (sup nrm : Bool) (acc : Option Bool) (ha : env.accelerate acc = true) (s : CoefState) :
    (o.calculate env sup nrm acc s).2.2 = s := by
  unfold PsfObj.calculate
  simp only []
  split
  · rfl
  · rename_i x hx
    have := kernelCall_pure env _ nrm acc ha x hx s
    rcases hxs : x s with ⟨r | v, s'⟩
    · rw [hxs] at this; exact this
    · rw [hxs] at this; exact this

end Verif.Proofs
