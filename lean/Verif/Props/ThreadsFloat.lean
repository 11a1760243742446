import Verif.Proofs.ThreadsFloat
import Verif.Proofs.ThreadsFloatHeld
import Verif.Props.FloatPsf

/-!
# C89: threads get bit-identical results

Nothing is assumed of the arithmetic `F`: its operations may round in any way (but a given operation on given numbers always gives the same number).
-/

namespace Verif.Props
open Verif.Model Verif.Spec Verif.Proofs

/-- All polynomials of the call exist, and the recursion limit of the interpreter allows their orders. -/
def _root_.Verif.Model.FltCall.Valid (fuel : Nat) : FltCall → Prop
  | .radial m n _ _ => ValidOrders m n ∧ n.toNat + 1 < fuel
  | .radialDr m n _ _ => ValidOrders m n ∧ n.toNat + 1 < fuel
  | .value m n _ _ _ => ValidOrders m n ∧ n.toNat + 1 < fuel
  | .sumPoint l _ _ => ∀ x ∈ l, ValidOrders x.2.m x.2.n ∧ x.2.n.toNat + 1 < fuel
  | .sumSurface l _ _ => ∀ x ∈ l, ValidOrders x.2.m x.2.n ∧ x.2.n.toNat + 1 < fuel
  | .sumMesh l _ _ => ∀ x ∈ l, ValidOrders x.2.m x.2.n ∧ x.2.n.toNat + 1 < fuel
  | .kernel o _ _ => ValidOrders o.m o.n ∧ o.n.toNat + 1 < fuel
  | .kernelZerns l _ => ∀ x ∈ l, ValidOrders x.2.m x.2.n ∧ x.2.n.toNat + 1 < fuel

/-- What the call returns or raises in a process with one thread, in the state `s` of the tables, and the state after it: the sequential model in floating-point arithmetic. -/
noncomputable def _root_.Verif.Model.FltCall.sequential (F : PsfArith) (fuel : Nat) : FltCall → CM FltOut
  | .radial m n r exact => do
    let v ← radialFl F.toFloatArith fuel exact m n ⟨r⟩
    pure (.num v.val)
  | .radialDr m n r exact => do
    let v ← radialDrFl F.toFloatArith fuel exact m n ⟨r⟩
    pure (.num v.val)
  | .value m n r theta exact => do
    let v ← polynomialFl F.toFloatArith fuel exact m n ⟨r⟩ ⟨theta⟩
    pure (.num v.val)
  | .sumPoint l r theta => do
    let v ← fltSumPoint F fuel r theta l
    pure (.num v)
  | .sumSurface l r theta => do
    let g ← fltSumSurface F fuel r theta l
    pure (.grid g)
  | .sumMesh l r theta => do
    let g ← fltSumMesh F fuel r theta l
    pure (.grid g)
  | .kernel o coeff q => do
    let g ← fltPsfKernel F fuel o coeff q
    pure (.grid g)
  | .kernelZerns l q => do
    let g ← fltPsfKernelZerns F fuel l q
    pure (.grid g)

/-- A process that has made the calls `h` before, and starts one thread for every element of `calls`. -/
noncomputable def startFltThreads (F : PsfArith) (fuel : Nat) (h : List Call) (calls : List (List FltCall)) : Process (List (Res FltOut)) :=
  ⟨calls.map (fltThreadProg F fuel), afterCalls h⟩

/-- **C89.** The programs of atomic actions are the sequential model: run without other threads, they give the same result and leave the same tables and caches. -/
theorem float_threads_refine (F : PsfArith) (fuel : Nat) (c : FltCall) (s : CoefState) : (c.prog F fuel).alone s = c.sequential F fuel s := by
  refine congrFun ?_ s
  cases c with
  | radial m n r exact => simp only [FltCall.prog, FltCall.sequential, alone_bind, alone_pure, radialValueT_alone, radialFl]; rfl
  | radialDr m n r exact => simp only [FltCall.prog, FltCall.sequential, alone_bind, alone_pure, radialDrValueT_alone, radialDrFl]; rfl
  | value m n r theta exact => simp only [FltCall.prog, FltCall.sequential, alone_bind, alone_pure, polynomialFlT_alone]; rfl
  | sumPoint l r theta => simp only [FltCall.prog, FltCall.sequential, alone_bind, alone_pure, fltSumPointT_alone]; rfl
  | sumSurface l r theta => simp only [FltCall.prog, FltCall.sequential, alone_bind, alone_pure, fltSumSurfaceT_alone]; rfl
  | sumMesh l r theta => simp only [FltCall.prog, FltCall.sequential, alone_bind, alone_pure, fltSumMeshT, fltSumMesh, fltMeshLoopT_alone]; rfl
  | kernel o coeff q => simp only [FltCall.prog, FltCall.sequential, alone_bind, alone_pure, fltPsfKernelT_alone]; rfl
  | kernelZerns l q => simp only [FltCall.prog, FltCall.sequential, alone_bind, alone_pure, fltPsfKernelZernsT_alone]; rfl

theorem float_prog_det (F : PsfArith) (fuel : Nat) (c : FltCall) (hv : c.Valid fuel) : Det (c.prog F fuel) := by
  cases c with
  | radial m n r exact => exact (radialValueT_det fuel exact m n _ hv.1 hv.2).bind fun _ => Det.pure _
  | radialDr m n r exact => exact (radialDrValueT_det fuel exact m n _ hv.1 hv.2).bind fun _ => Det.pure _
  | value m n r theta exact => exact (polynomialFlT_det _ fuel exact m n _ _ hv).bind fun _ => Det.pure _
  | sumPoint l r theta => exact (fltSumPointT_det F fuel r theta l hv).bind fun _ => Det.pure _
  | sumSurface l r theta => exact (fltSumSurfaceT_det F fuel r theta l hv).bind fun _ => Det.pure _
  | sumMesh l r theta => exact (fltMeshLoopT_det F fuel r theta l hv _).bind fun _ => Det.pure _
  | kernel o coeff q => exact (fltPsfKernelT_det F fuel o coeff q hv).bind fun _ => Det.pure _
  | kernelZerns l q => exact (fltPsfKernelZernsT_det F fuel l q hv).bind fun _ => Det.pure _

theorem float_prog_gives (F : PsfArith) (fuel : Nat) (c : FltCall) (hv : c.Valid fuel) (s : CoefState) (hs : Good s) :
    Gives (c.prog F fuel) (c.sequential F fuel s).1 := by
  rw [← float_threads_refine]
  exact (float_prog_det F fuel c hv).gives hs

theorem start_flt_safe (F : PsfArith) (fuel : Nat) (h : List Call) (calls : List (List FltCall)) :
    ∀ x ∈ (startFltThreads F fuel h calls).threads, TrAt False (fun _ => True) x (startFltThreads F fuel h calls).st := by
  intro x hx
  obtain ⟨cs, -, rfl⟩ := List.mem_map.1 hx
  exact (fltThread_held F fuel cs).safe _

/-- **C89.** Whatever was called before, whatever the other threads compute in floating-point arithmetic (values, derivatives, sums of polynomials, PSF kernels; also calls
that raise, for example because they exceed the recursion limit between two accesses to the tables), and however the interpreter switches between them: a thread that has
used polynomials that exist and has finished has got, from each of its calls, exactly the numbers (or the exception) that the call gives in a fresh process with one
thread. -/
theorem float_threads_results (F : PsfArith) (fuel : Nat) (h : List Call) (calls : List (List FltCall)) (schedule : List Nat)
    (i : Nat) (cs : List FltCall) (hi : calls[i]? = some cs) (hv : ∀ c ∈ cs, c.Valid fuel) (out : Res (List (Res FltOut)))
    (hdone : ((startFltThreads F fuel h calls).run schedule).threads[i]? = some (.done out)) :
    out = .ok (cs.map fun c => (c.sequential F fuel initState).1) := by
  obtain ⟨y, hy, ht⟩ := run_one i schedule (startFltThreads F fuel h calls) (afterCalls_good h) (start_flt_safe F fuel h calls) (fltThreadProg F fuel cs)
    (by simp [startFltThreads, hi]) (fltThreadProg_tr F fuel cs (fun c => (c.sequential F fuel initState).1) (fun c hc => float_prog_gives F fuel c (hv c hc) _ good_init) _)
  rw [hdone] at hy
  cases hy
  cases out with
  | ok v => exact congrArg _ ht
  | error e => exact (ht trivial).elim

/-- **C89.** A thread that is switched to again and again finishes after finitely many actions, with these results. -/
theorem float_threads_finish (F : PsfArith) (fuel : Nat) (h : List Call) (calls : List (List FltCall)) (schedule : Nat → Nat)
    (i : Nat) (cs : List FltCall) (hi : calls[i]? = some cs) (hv : ∀ c ∈ cs, c.Valid fuel) (hfair : ∀ N, ∃ k, N ≤ k ∧ schedule k = i) :
    ∃ K, ((startFltThreads F fuel h calls).run ((List.range K).map schedule)).threads[i]? =
      some (.done (.ok (cs.map fun c => (c.sequential F fuel initState).1))) := by
  obtain ⟨K, r, hK⟩ := fair_finishes (fltThreadProg F fuel cs) (startFltThreads F fuel h calls) schedule i (by simp [startFltThreads, hi]) hfair
  exact ⟨K, by rw [hK, float_threads_results F fuel h calls _ i cs hi hv r hK]⟩

/-- **C89.** After threads with any calls have run for any time (finished or not), any further calls in the process get the numbers that they get in a fresh process. -/
theorem after_float_threads (F : PsfArith) (fuel : Nat) (h : List Call) (calls : List (List FltCall)) (schedule : List Nat)
    (h' : List Call) (c : FltCall) (hc : c.Valid fuel) :
    (c.sequential F fuel (h'.foldl Call.run ((startFltThreads F fuel h calls).run schedule).st)).1 = (c.sequential F fuel initState).1 := by
  have g := run_safe schedule (startFltThreads F fuel h calls) (afterCalls_good h) (start_flt_safe F fuel h calls)
  generalize ((startFltThreads F fuel h calls).run schedule).st = s at g
  have g' : Good (h'.foldl Call.run s) := by
    induction h' generalizing s with
    | nil => exact g
    | cons a t ih => exact ih _ (run_good s g a)
  rw [← float_threads_refine F fuel c (h'.foldl Call.run s)]
  exact (float_prog_gives F fuel c hc _ good_init).alone g'

/-- Two threads that evaluate orders missing in the tables and a kernel meet the hypotheses. -/
example : ∀ cs ∈ [[FltCall.value 2 14 0.5 1 false, .kernel ⟨2, 14, false⟩ 0.25 (sampleParams true)], [.sumPoint [(1, ⟨0, 60, false⟩), (2, ⟨2, 14, false⟩)] 0.5 1]],
    ∀ c ∈ cs, c.Valid 1000 := by
  simp only [List.mem_cons, List.not_mem_nil, or_false]
  rintro cs (rfl | rfl) c hc <;> simp only [List.mem_cons, List.not_mem_nil, or_false] at hc
  · rcases hc with rfl | rfl <;> exact ⟨by unfold ValidOrders; decide, by decide⟩
  · subst hc
    intro x hx
    simp only [List.mem_cons, List.not_mem_nil, or_false] at hx
    rcases hx with rfl | rfl <;> exact ⟨by unfold ValidOrders; decide, by decide⟩

end Verif.Props
