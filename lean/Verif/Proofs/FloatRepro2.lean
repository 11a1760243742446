import Verif.Proofs.FloatRepro

/-! # Evaluation does not depend on the state of the tables: from the polynomials to the kernels -/

namespace Verif.Proofs
open Verif.Model Verif.Spec

theorem fl_add_comm {F : FloatArith} (x y : Fl F) : x + y = y + x := by
  show (⟨F.fl (x.val + y.val)⟩ : Fl F) = ⟨F.fl (y.val + x.val)⟩
  rw [add_comm]

theorem polynomialFl_both (F : FloatArith) (fuel fuel' : Nat) (exact : Bool) (m n : Int) (hv : ValidOrders m n) (hf : n.toNat + 1 < fuel)
    (hf' : n.toNat + 1 < fuel') (r t : Fl F) : Both (polynomialFl F fuel exact m n r t) (polynomialFl F fuel' exact m n r t) := by
  unfold polynomialFl
  split_ifs
  · exact Both.pure rfl
  · exact (radialValue_both fl_add_comm fuel fuel' exact m m n r rfl hv hf hf').bind fun v => Both.pure rfl

variable (F : PsfArith)

theorem fltSinglePhase_both (fuel fuel' : Nat) (o : PolObj) (hv : ValidOrders o.m o.n) (hf : o.n.toNat + 1 < fuel) (hf' : o.n.toNat + 1 < fuel') (alpha p phi : ℝ) :
    Both (fltSinglePhase F fuel o alpha p phi) (fltSinglePhase F fuel' o alpha p phi) :=
  (polynomialFl_both F.toFloatArith fuel fuel' false o.m o.n hv hf hf' _ _).bind fun v => Both.pure rfl

theorem fltPolsRest_both (fuel fuel' : Nat) (p phi : ℝ) (l : List (ℝ × PolObj))
    (h : ∀ q ∈ l, ValidOrders q.2.m q.2.n ∧ q.2.n.toNat + 1 < fuel ∧ q.2.n.toNat + 1 < fuel') (S : ℝ) :
    Both (fltPolsRest F fuel p phi l S) (fltPolsRest F fuel' p phi l S) := by
  induction l generalizing S with
  | nil => exact Both.pure rfl
  | cons q t ih =>
    obtain ⟨a, o⟩ := q
    have ho := h (a, o) List.mem_cons_self
    exact (fltSinglePhase_both F fuel fuel' o ho.1 ho.2.1 ho.2.2 a p phi).bind fun v => ih (fun q hq => h q (List.mem_cons_of_mem _ hq)) _

theorem fltPolsPhase_same (fuel fuel' : Nat) (l : List (ℝ × PolObj))
    (h : ∀ q ∈ l, ValidOrders q.2.m q.2.n ∧ q.2.n.toNat + 1 < fuel ∧ q.2.n.toNat + 1 < fuel') (p phi : ℝ) :
    Same (fltPolsPhase F fuel l p phi) (fltPolsPhase F fuel' l p phi) := by
  cases l with
  | nil => exact Same.raise _
  | cons q t =>
    obtain ⟨a, o⟩ := q
    have ho := h (a, o) List.mem_cons_self
    exact ((fltSinglePhase_both F fuel fuel' o ho.1 ho.2.1 ho.2.2 a p phi).bind fun v =>
      fltPolsRest_both F fuel fuel' p phi t (fun q hq => h q (List.mem_cons_of_mem _ hq)) _).same

section
variable {ph ph' : FltPhase} (hp : ∀ p phi, Same (ph p phi) (ph' p phi))
include hp

theorem fltDiffraction_same (phi p theta r : ℝ) : Same (fltDiffraction F ph phi p theta r) (fltDiffraction F ph' phi p theta r) :=
  (hp p phi).bind fun _ => Same.pure rfl

theorem fltWaves_same (phi theta r : ℝ) (l : List ℝ) : Same (fltWaves F ph phi theta r l) (fltWaves F ph' phi theta r l) := by
  induction l with
  | nil => exact Same.pure rfl
  | cons p t ih => exact (fltDiffraction_same F hp phi p theta r).bind fun w => ih.bind fun ws => Same.pure rfl

theorem fltRadialIntegral_same (r theta phi : ℝ) (nR : Int) : Same (fltRadialIntegral F ph r theta phi nR) (fltRadialIntegral F ph' r theta phi nR) := by
  unfold fltRadialIntegral
  split_ifs
  · exact Same.raise _
  · exact (fltDiffraction_same F hp _ _ _ _).bind fun fa => (fltDiffraction_same F hp _ _ _ _).bind fun fb =>
      (fltWaves_same F hp _ _ _ _).bind fun ws => Same.pure rfl

theorem fltAngles_same (r theta h : ℝ) (nR : Int) (l : List Int) : Same (fltAngles F ph r theta h nR l) (fltAngles F ph' r theta h nR l) := by
  induction l with
  | nil => exact Same.pure rfl
  | cons i t ih => exact (fltRadialIntegral_same F hp _ _ _ _).bind fun v => ih.bind fun vs => Same.pure rfl

theorem fltPsfPoint_same (r theta : ℝ) (nR nPhi : Int) : Same (fltPsfPoint F ph r theta nR nPhi) (fltPsfPoint F ph' r theta nR nPhi) := by
  unfold fltPsfPoint
  split_ifs
  · exact Same.raise _
  · exact (fltAngles_same F hp _ _ _ _ _).bind fun a => (fltAngles_same F hp _ _ _ _ _).bind fun b =>
      (fltRadialIntegral_same F hp _ _ _ _).bind fun c => (fltRadialIntegral_same F hp _ _ _ _).bind fun d => Same.pure rfl
end

section
variable {f f' : Nat → Nat → CM ℝ} (hf : ∀ i j, Same (f i j) (f' i j))
include hf

theorem fillRow_same (i k j : Nat) (S : Grid) : Same (fillRow f i k j S) (fillRow f' i k j S) := by
  induction k generalizing j S with
  | zero => exact Same.pure rfl
  | succ k ih => exact (hf i j).bind fun v => ih _ _

theorem fillRows_same (cols k i : Nat) (S : Grid) : Same (fillRows f cols k i S) (fillRows f' cols k i S) := by
  induction k generalizing i S with
  | zero => exact Same.pure rfl
  | succ k ih => exact (fillRow_same hf i cols 0 S).bind fun S' => ih _ _

theorem fltMakeKernel_same (size : Int) (NA : ℝ) (normalize : Bool) : Same (fltMakeKernel F size NA f normalize) (fltMakeKernel F size NA f' normalize) := by
  unfold fltMakeKernel
  split_ifs
  · exact Same.raise _
  · exact Same.raise _
  · exact (fillRows_same hf _ _ _ _).bind fun g => Same.lift rfl
  · exact (fillRows_same hf _ _ _ _).bind fun g => Same.pure rfl
end

theorem fltPsfKernel_same (fuel fuel' : Nat) (o : PolObj) (hv : ValidOrders o.m o.n) (hf : o.n.toNat + 1 < fuel) (hf' : o.n.toNat + 1 < fuel') (coeff : ℝ)
    (q : KernelParams) : Same (fltPsfKernel F fuel o coeff q) (fltPsfKernel F fuel' o coeff q) := by
  unfold fltPsfKernel
  split_ifs
  · exact Same.raise _
  · exact fltMakeKernel_same F (fun i j => fltPsfPoint_same F (fun p phi => (fltSinglePhase_both F fuel fuel' o hv hf hf' _ p phi).same) _ _ _ _) _ _ _

theorem fltPsfKernelZerns_same (fuel fuel' : Nat) (l : List (ℝ × PolObj))
    (h : ∀ q ∈ l, ValidOrders q.2.m q.2.n ∧ q.2.n.toNat + 1 < fuel ∧ q.2.n.toNat + 1 < fuel') (q : KernelParams) :
    Same (fltPsfKernelZerns F fuel l q) (fltPsfKernelZerns F fuel' l q) := by
  unfold fltPsfKernelZerns
  split_ifs
  · exact Same.raise _
  · exact fltMakeKernel_same F (fun i j => fltPsfPoint_same F (fltPolsPhase_same F fuel fuel' l h) _ _ _ _) _ _ _

end Verif.Proofs
