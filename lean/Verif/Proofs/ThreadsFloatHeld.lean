import Verif.Proofs.ThreadsBound
import Verif.Proofs.ThreadsFloat

/-!
# Threads in floating-point arithmetic: every atomic action keeps the tables correct and bounded, whether the calls return or raise
-/

namespace Verif.Proofs
open Verif.Model Verif.Spec

/-- Every action of the program keeps the tables correct and bounded. -/
structure Held {β : Type} (x : Prog β) : Prop where
  safe : SafeT x
  keeps : KeepsT x

theorem Held.bind {β γ : Type} {x : Prog β} {f : β → Prog γ} (h1 : Held x) (h2 : ∀ v, Held (f v)) : Held (x >>= f) :=
  ⟨SafeT.bind h1.safe fun v => (h2 v).safe, KeepsT.bind h1.keeps fun v => (h2 v).keeps⟩

theorem Held.pure {β : Type} (v : β) : Held (Pure.pure v : Prog β) := ⟨SafeT.pure v, KeepsT.pure v⟩

theorem Held.lift {β : Type} (x : Res β) : Held (Prog.lift x) := ⟨TrT.any, KeepT.any x⟩

theorem Held.attempt {β : Type} {x : Prog β} (h : Held x) : Held x.attempt := ⟨h.safe.attempt, KeepT.attempt h.keeps⟩

section
variable {α : Type} [Zero α] [One α] [Add α] [Sub α] [Mul α] [NatCast α] [IntCast α] [Pow α ℕ]

theorem radialPolynomialCoeffsT_held (fuel : Nat) : ∀ (m n : Int) (r : α), Held (radialPolynomialCoeffsT fuel m n r) := by
  induction fuel with
  | zero => intro m n r; exact Held.lift _
  | succ fuel ih =>
    intro m n r
    unfold radialPolynomialCoeffsT
    split_ifs with h
    · exact ⟨SafeT.bind (findCoeffsT_tr fuel false m n).safe fun _ => SafeT.pure _, KeepsT.bind (keepT_findCoeffs _ _ _ _ h) fun _ => KeepsT.pure _⟩
    · exact Held.pure _
    · exact (ih _ _ _).bind fun _ => (ih _ _ _).bind fun _ => Held.pure _
    · exact Held.pure _
    · exact (ih _ _ _).bind fun _ => (ih _ _ _).bind fun _ => (ih _ _ _).bind fun _ => Held.pure _

theorem radialPolynomialCoeffsDrT_held (fuel : Nat) : ∀ (m n : Int) (r : α), Held (radialPolynomialCoeffsDrT fuel m n r) := by
  induction fuel with
  | zero => intro m n r; exact Held.lift _
  | succ fuel ih =>
    intro m n r
    unfold radialPolynomialCoeffsDrT
    split_ifs with h
    · exact ⟨SafeT.bind (findCoeffsDrT_tr fuel false m n).safe fun _ => SafeT.pure _, KeepsT.bind (keepT_findCoeffsDr _ _ _ _ h) fun _ => KeepsT.pure _⟩
    · exact Held.pure _
    · exact (ih _ _ _).bind fun _ => (ih _ _ _).bind fun _ => (ih _ _ _).bind fun _ => Held.pure _
    · exact Held.pure _
    · exact (radialPolynomialCoeffsT_held _ _ _ _).bind fun _ => (radialPolynomialCoeffsT_held _ _ _ _).bind fun _ => (ih _ _ _).bind fun _ =>
        (ih _ _ _).bind fun _ => (ih _ _ _).bind fun _ => Held.pure _

variable [OfRat α]

theorem radialValueT_held (fuel : Nat) (exact : Bool) (m n : Int) (r : α) : Held (radialValueT fuel exact m n r) := by
  unfold radialValueT
  split_ifs
  · exact Held.lift _
  · exact radialPolynomialCoeffsT_held _ _ _ _
  · exact Held.pure _
  · exact Held.lift _

theorem radialDrValueT_held (fuel : Nat) (exact : Bool) (m n : Int) (r : α) : Held (radialDrValueT fuel exact m n r) := by
  unfold radialDrValueT
  split_ifs
  · exact Held.lift _
  · exact radialPolynomialCoeffsDrT_held _ _ _ _
  · exact Held.pure _
  · exact Held.lift _

end

theorem polynomialFlT_held (F : FloatArith) (fuel : Nat) (exact : Bool) (m n : Int) (r t : Fl F) : Held (polynomialFlT F fuel exact m n r t) := by
  unfold polynomialFlT
  split_ifs
  · exact Held.pure _
  · exact (radialValueT_held fuel exact m n r).bind fun v => Held.pure _

section
variable (F : PsfArith) (fuel : Nat)

theorem fltSinglePhaseT_held (o : PolObj) (a p phi : ℝ) : Held (fltSinglePhaseT F fuel o a p phi) :=
  (polynomialFlT_held _ _ _ _ _ _ _).bind fun _ => Held.pure _

theorem fltPolsRestT_held (p phi : ℝ) (l : List (ℝ × PolObj)) (S : ℝ) : Held (fltPolsRestT F fuel p phi l S) := by
  induction l generalizing S with
  | nil => exact Held.pure _
  | cons x l ih =>
    exact (fltSinglePhaseT_held F fuel _ _ _ _).bind fun v => ih _

theorem fltPolsPhaseT_held (l : List (ℝ × PolObj)) (p phi : ℝ) : Held (fltPolsPhaseT F fuel l p phi) := by
  cases l with
  | nil => exact Held.lift _
  | cons x l =>
    exact (fltSinglePhaseT_held F fuel _ _ _ _).bind fun v =>
      fltPolsRestT_held F fuel _ _ _ _

variable {F} {ph : FltPhaseT} (hp : ∀ p phi, Held (ph p phi))
include hp

theorem fltDiffractionT_held (phi p theta r : ℝ) : Held (fltDiffractionT F ph phi p theta r) := (hp p phi).bind fun _ => Held.pure _

theorem fltWavesT_held (phi theta r : ℝ) (l : List ℝ) : Held (fltWavesT F ph phi theta r l) := by
  induction l with
  | nil => exact Held.pure _
  | cons p l ih => exact (fltDiffractionT_held hp _ _ _ _).bind fun w => ih.bind fun ws => Held.pure _

theorem fltRadialIntegralT_held (r theta phi : ℝ) (nR : Int) : Held (fltRadialIntegralT F ph r theta phi nR) := by
  unfold fltRadialIntegralT
  split_ifs
  · exact Held.lift _
  · exact (fltDiffractionT_held hp _ _ _ _).bind fun _ => (fltDiffractionT_held hp _ _ _ _).bind fun _ => (fltWavesT_held hp _ _ _ _).bind fun _ => Held.pure _

theorem fltAnglesT_held (r theta h : ℝ) (nR : Int) (l : List Int) : Held (fltAnglesT F ph r theta h nR l) := by
  induction l with
  | nil => exact Held.pure _
  | cons i l ih => exact (fltRadialIntegralT_held hp _ _ _ _).bind fun w => ih.bind fun ws => Held.pure _

theorem fltPsfPointT_held (r theta : ℝ) (nR nPhi : Int) : Held (fltPsfPointT F ph r theta nR nPhi) := by
  unfold fltPsfPointT
  split_ifs
  · exact Held.lift _
  · exact (fltAnglesT_held hp _ _ _ _ _).bind fun _ => (fltAnglesT_held hp _ _ _ _ _).bind fun _ => (fltRadialIntegralT_held hp _ _ _ _).bind fun _ =>
      (fltRadialIntegralT_held hp _ _ _ _).bind fun _ => Held.pure _

end

theorem fillRowT_held {f : Nat → Nat → Prog ℝ} (hf : ∀ i j, Held (f i j)) (i k j : Nat) (S : Grid) : Held (fillRowT f i k j S) := by
  induction k generalizing j S with
  | zero => exact Held.pure _
  | succ k ih => exact (hf i j).bind fun v => ih _ _

theorem fillRowsT_held {f : Nat → Nat → Prog ℝ} (hf : ∀ i j, Held (f i j)) (c k i : Nat) (S : Grid) : Held (fillRowsT f c k i S) := by
  induction k generalizing i S with
  | zero => exact Held.pure _
  | succ k ih => exact (fillRowT_held hf _ _ _ _).bind fun v => ih _ _

theorem fltMakeKernelT_held (F : PsfArith) {f : Nat → Nat → Prog ℝ} (hf : ∀ i j, Held (f i j)) (size : Int) (NA : ℝ) (b : Bool) : Held (fltMakeKernelT F size NA f b) := by
  unfold fltMakeKernelT
  by_cases h1 : size < 0
  · rw [if_pos h1]; exact Held.lift _
  rw [if_neg h1]
  by_cases h2 : NA = 0
  · rw [if_pos h2]; exact Held.lift _
  rw [if_neg h2]
  refine (fillRowsT_held hf _ _ _ _).bind fun v => ?_
  cases b
  · exact Held.pure _
  · exact Held.lift _

section
variable (F : PsfArith) (fuel : Nat)

theorem fltPsfKernelT_held (o : PolObj) (coeff : ℝ) (q : KernelParams) : Held (fltPsfKernelT F fuel o coeff q) := by
  unfold fltPsfKernelT
  by_cases h1 : q.wavelength = 0
  · rw [if_pos h1]; exact Held.lift _
  rw [if_neg h1]
  exact fltMakeKernelT_held F (fun i j => fltPsfPointT_held (fun p phi => fltSinglePhaseT_held F fuel _ _ _ _) _ _ _ _) _ _ _

theorem fltPsfKernelZernsT_held (l : List (ℝ × PolObj)) (q : KernelParams) : Held (fltPsfKernelZernsT F fuel l q) := by
  unfold fltPsfKernelZernsT
  by_cases h1 : q.wavelength = 0
  · rw [if_pos h1]; exact Held.lift _
  rw [if_neg h1]
  exact fltMakeKernelT_held F (fun i j => fltPsfPointT_held (fun p phi => fltPolsPhaseT_held F fuel _ _ _) _ _ _ _) _ _ _

theorem fltSumRestT_held (r theta : ℝ) (l : List (ℝ × PolObj)) (S : ℝ) : Held (fltSumRestT F fuel r theta l S) := by
  induction l generalizing S with
  | nil => exact Held.pure _
  | cons x l ih =>
    unfold fltSumRestT
    by_cases h1 : |x.1| > 0
    · rw [if_pos h1]
      exact (fltSinglePhaseT_held F fuel _ _ _ _).bind fun v => ih _
    · rw [if_neg h1]; exact ih _

theorem fltSumPointT_held (r theta : ℝ) (l : List (ℝ × PolObj)) : Held (fltSumPointT F fuel r theta l) := by
  cases l with
  | nil => exact Held.lift _
  | cons x l =>
    exact (fltSinglePhaseT_held F fuel _ _ _ _).bind fun v =>
      fltSumRestT_held F fuel _ _ _ _

theorem fltValuesT_held (c : ℝ) (o : PolObj) (l : List (ℝ × ℝ)) : Held (fltValuesT F fuel c o l) := by
  induction l with
  | nil => exact Held.pure _
  | cons x l ih => exact (fltSinglePhaseT_held F fuel _ _ _ _).bind fun v => ih.bind fun vs => Held.pure _

theorem fltAddRowsT_held (c : ℝ) (o : PolObj) (r theta : List ℝ) (k j : Nat) (S : Grid) : Held (fltAddRowsT F fuel c o r theta k j S) := by
  induction k generalizing j S with
  | zero => exact Held.pure _
  | succ k ih => exact (fltValuesT_held F fuel _ _ _).bind fun v => ih _ _

theorem fltAddColsT_held (c : ℝ) (o : PolObj) (r theta : List ℝ) (k j : Nat) (S : Grid) : Held (fltAddColsT F fuel c o r theta k j S) := by
  induction k generalizing j S with
  | zero => exact Held.pure _
  | succ k ih => exact (fltValuesT_held F fuel _ _ _).bind fun v => ih _ _

theorem fltSurfaceLoopT_held (r theta : List ℝ) (l : List (ℝ × PolObj)) (S : Grid) : Held (fltSurfaceLoopT F fuel r theta l S) := by
  induction l generalizing S with
  | nil => exact Held.pure _
  | cons x l ih =>
    unfold fltSurfaceLoopT
    by_cases h1 : |x.1| > 0
    · rw [if_pos h1]
      split_ifs
      · exact (fltAddRowsT_held F fuel _ _ _ _ _ _ _).bind fun v => ih _
      · exact (fltAddColsT_held F fuel _ _ _ _ _ _ _).bind fun v => ih _
    · rw [if_neg h1]; exact ih _

theorem fltSumSurfaceT_held (r theta : List ℝ) (l : List (ℝ × PolObj)) : Held (fltSumSurfaceT F fuel r theta l) := by
  unfold fltSumSurfaceT
  split_ifs
  · exact Held.lift _
  · exact fltSurfaceLoopT_held F fuel _ _ _ _

theorem fltMeshLoopT_held (r theta : List ℝ) (l : List (ℝ × PolObj)) (S : Grid) : Held (fltMeshLoopT F fuel r theta l S) := by
  induction l generalizing S with
  | nil => exact Held.pure _
  | cons x l ih =>
    unfold fltMeshLoopT
    by_cases h1 : |x.1| > 0
    · rw [if_pos h1]
      exact (fltAddRowsT_held F fuel _ _ _ _ _ _ _).bind fun v => ih _
    · rw [if_neg h1]; exact ih _

theorem fltCall_held (c : FltCall) : Held (c.prog F fuel) := by
  cases c with
  | radial m n r exact => exact (radialValueT_held _ _ _ _ _).bind fun _ => Held.pure _
  | radialDr m n r exact => exact (radialDrValueT_held _ _ _ _ _).bind fun _ => Held.pure _
  | value m n r theta exact => exact (polynomialFlT_held _ _ _ _ _ _ _).bind fun _ => Held.pure _
  | sumPoint l r theta => exact (fltSumPointT_held F fuel _ _ _).bind fun _ => Held.pure _
  | sumSurface l r theta => exact (fltSumSurfaceT_held F fuel _ _ _).bind fun _ => Held.pure _
  | sumMesh l r theta => exact (fltMeshLoopT_held F fuel _ _ _ _).bind fun _ => Held.pure _
  | kernel o coeff q => exact (fltPsfKernelT_held F fuel _ _ _).bind fun _ => Held.pure _
  | kernelZerns l q => exact (fltPsfKernelZernsT_held F fuel _ _).bind fun _ => Held.pure _

theorem fltThread_held (cs : List FltCall) : Held (fltThreadProg F fuel cs) := by
  induction cs with
  | nil => exact Held.pure _
  | cons c cs ih => exact (fltCall_held F fuel c).attempt.bind fun _ => ih.bind fun _ => Held.pure _

end

theorem flt_threads_good_bnd (F : PsfArith) (fuel : Nat) (calls : List (List FltCall)) (schedule : List Nat) (s : CoefState) (hg : Good s) (hb : Bnd s) :
    Good ((Process.mk (calls.map (fltThreadProg F fuel)) s).run schedule).st ∧ Bnd ((Process.mk (calls.map (fltThreadProg F fuel)) s).run schedule).st := by
  refine ⟨run_safe schedule _ hg fun x hx => ?_, run_bnd schedule _ hb fun x hx => ?_⟩
  · obtain ⟨cs, -, rfl⟩ := List.mem_map.1 hx
    exact (fltThread_held F fuel cs).safe _
  · obtain ⟨cs, -, rfl⟩ := List.mem_map.1 hx
    exact (fltThread_held F fuel cs).keeps

end Verif.Proofs
