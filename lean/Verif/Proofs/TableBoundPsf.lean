import Verif.Proofs.TableBound
import Verif.Proofs.PsfInv

/-! # PSF calculations keep the process-wide tables bounded -/

namespace Verif.Proofs
open Verif.Model Verif.Spec

/-- A phase whose evaluation keeps the bounds of the tables. -/
def KeepPhase (ph : Phase) : Prop := ∀ p phi, Keep (ph p phi)

theorem polVal_keep (fuel : Nat) (o : PolObj) (r theta : Arg) : Keep (polVal fuel o r theta) :=
  fun s hs => ⟨keep_value fuel o r theta false s hs, fun _ _ => trivial⟩

theorem singlePhase_keep (fuel : Nat) (o : PolObj) (alpha : ℝ) : KeepPhase (singlePhase fuel o alpha) :=
  fun _ _ => (polVal_keep _ _ _ _).bind fun _ => Keep.pure _

theorem polsPhaseRest_keep (fuel : Nat) (p : Arg) (phi : ℝ) (l : List (ℝ × PolObj)) : ∀ S, Keep (polsPhaseRest fuel p phi l S) := by
  induction l with
  | nil => exact fun S => Keep.pure _
  | cons x l ih => exact fun S => (polVal_keep _ _ _ _).bind fun _ => ih _

theorem polsPhase_keep (fuel : Nat) (l : List (ℝ × PolObj)) : KeepPhase (polsPhase fuel l) := by
  cases l with
  | nil => exact fun _ _ => Keep.raise _
  | cons x l => exact fun _ _ => (polVal_keep _ _ _ _).bind fun _ => polsPhaseRest_keep _ _ _ _ _

theorem compPhase_keep (m n : Int) (alpha : ℝ) : KeepPhase (compPhase m n alpha) :=
  fun _ _ => (Keep.lift _).bind fun _ => Keep.pure _

theorem compPolsRest_keep (p : Arg) (phi : ℝ) (l : List (ℝ × Int × Int)) : ∀ S, Keep (compPolsRest p phi l S) := by
  induction l with
  | nil => exact fun S => Keep.pure _
  | cons x l ih => exact fun S => (Keep.lift _).bind fun _ => ih _

theorem compPolsPhase_keep (l : List (ℝ × Int × Int)) : KeepPhase (compPolsPhase l) := by
  cases l with
  | nil => exact fun _ _ => Keep.raise _
  | cons x l => exact fun _ _ => (Keep.lift _).bind fun _ => compPolsRest_keep _ _ _ _

theorem radialIntegral_keep (ph : Phase) (h : KeepPhase ph) (r theta phi : ℝ) (nR : Int) : Keep (radialIntegral ph r theta phi nR) := by
  have h1 : ∀ phi p theta r, Keep (diffractionAt ph phi p theta r) := fun _ _ _ _ => (h _ _).bind fun _ => Keep.pure _
  have h2 : ∀ phi p theta r, Keep (diffractionSum ph phi p theta r) := fun _ _ _ _ => (h _ _).bind fun _ => Keep.pure _
  unfold radialIntegral
  split_ifs
  · exact Keep.raise _
  · exact (h1 _ _ _ _).bind fun _ => (h1 _ _ _ _).bind fun _ => (h2 _ _ _ _).bind fun _ => Keep.pure _

theorem angleSum_keep (ph : Phase) (h : KeepPhase ph) (r theta w : ℝ) (nR : Int) (l : List Int) : ∀ acc,
    Keep (angleSum ph r theta w nR l acc) := by
  induction l with
  | nil => exact fun acc => Keep.pure _
  | cons i l ih => exact fun acc => (radialIntegral_keep ph h _ _ _ _).bind fun _ => ih _

theorem psfPoint_keep (ph : Phase) (h : KeepPhase ph) (r theta : ℝ) (nR nPhi : Int) : Keep (psfPoint ph r theta nR nPhi) := by
  unfold psfPoint
  split_ifs
  · exact Keep.raise _
  · exact (angleSum_keep ph h _ _ _ _ _ _).bind fun _ => (angleSum_keep ph h _ _ _ _ _ _).bind fun _ =>
      (radialIntegral_keep ph h _ _ _ _).bind fun _ => (radialIntegral_keep ph h _ _ _ _).bind fun _ => Keep.pure _

theorem makeKernel_keep (size : Int) (NA : ℝ) (f : Nat → Nat → CM ℝ) (nrm : Bool) (hf : ∀ i j, Keep (f i j)) :
    Keep (makeKernel size NA f nrm) := by
  have hrow : ∀ i k j S, Keep (fillRow f i k j S) := by
    intro i k
    induction k with
    | zero => exact fun j S => Keep.pure _
    | succ k ih => exact fun j S => (hf _ _).bind fun _ => ih _ _
  have hrows : ∀ cols k i S, Keep (fillRows f cols k i S) := by
    intro cols k
    induction k with
    | zero => exact fun i S => Keep.pure _
    | succ k ih => exact fun i S => (hrow _ _ _ _).bind fun _ => ih _ _
  unfold makeKernel
  split_ifs
  · exact Keep.raise _
  · exact Keep.raise _
  · exact (hrows _ _ _ _).bind fun _ => Keep.lift _
  · exact (hrows _ _ _ _).bind fun _ => Keep.pure _

theorem getPsfKernel_keep (fuel : Nat) (j1 : ℝ → ℝ) (o : PolObj) (coeff : ℝ) (q : KernelParams) (airy : Bool) :
    Keep (getPsfKernel fuel j1 o coeff q airy) := by
  unfold getPsfKernel
  by_cases h1 : q.wavelength = 0
  · rw [if_pos h1]; exact Keep.raise _
  · rw [if_neg h1]
    refine (Keep.lift _).bind fun s => makeKernel_keep _ _ _ _ fun i j => ?_
    cases airy with
    | true => exact Keep.pure _
    | false => exact psfPoint_keep _ (singlePhase_keep _ _ _) _ _ _ _

theorem getPsfKernelZerns_keep (fuel : Nat) (l : List (ℝ × PolObj)) (q : KernelParams) : Keep (getPsfKernelZerns fuel l q) := by
  unfold getPsfKernelZerns
  split_ifs
  · exact Keep.raise _
  · exact makeKernel_keep _ _ _ _ fun i j => psfPoint_keep _ (polsPhase_keep _ _) _ _ _ _

theorem getPsfKernelComp_keep (o : PolObj) (coeff : ℝ) (q : KernelParams) : Keep (getPsfKernelComp o coeff q) := by
  unfold getPsfKernelComp
  simp only []
  split_ifs
  · exact Keep.raise _
  · exact Keep.raise _
  · exact Keep.raise _
  · exact makeKernel_keep _ _ _ _ fun i j => psfPoint_keep _ (compPhase_keep _ _ _) _ _ _ _

theorem getPsfKernelCompPols_keep (l : List (ℝ × PolObj)) (q : KernelParams) : Keep (getPsfKernelCompPols l q) := by
  unfold getPsfKernelCompPols
  simp only []
  split_ifs
  · exact Keep.raise _
  · exact Keep.raise _
  · exact Keep.raise _
  · exact makeKernel_keep _ _ _ _ fun i j => psfPoint_keep _ (compPolsPhase_keep _) _ _ _ _

theorem kernelCall_keep (env : Env) (o : PsfObj) (nrm : Bool) (acc : Option Bool) (x : CM Grid) (h : o.kernelCall env nrm acc = some x) :
    Keep x := by
  unfold PsfObj.kernelCall at h
  split at h
  · simp only [Option.some.injEq] at h
    subst h
    split_ifs
    · exact getPsfKernelComp_keep _ _ _
    · exact getPsfKernel_keep _ _ _ _ _ _
  · split at h
    · cases h
    · split at h
      · simp only [Option.some.injEq] at h
        subst h
        exact Keep.raise _
      · simp only [Option.some.injEq] at h
        subst h
        split_ifs
        · exact Keep.raise _
        · exact getPsfKernelCompPols_keep _ _
        · exact getPsfKernelZerns_keep _ _ _

theorem calculate_bnd (env : Env) (o : PsfObj) (sup nrm : Bool) (acc : Option Bool) (s : CoefState) (hs : Bnd s) :
    Bnd (o.calculate env sup nrm acc s).2.2 := by
  unfold PsfObj.calculate
  simp only []
  split
  · exact hs
  · rename_i x hx
    have := (kernelCall_keep _ _ _ _ _ hx s hs).1
    split
    · rename_i h; rw [h] at this; exact this
    · rename_i h; rw [h] at this; exact this

end Verif.Proofs
