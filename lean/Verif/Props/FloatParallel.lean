import Verif.Model.FloatParallel
import Verif.Proofs.FloatRepro2
import Verif.Props.Parallel

/-!
# C98: the parallel kernel calculation in floating-point arithmetic
-/

namespace Verif.Props
open Verif.Model Verif.Spec Verif.Proofs Verif.Model.Dispenser

/-- Specification: the function computed by the workers, each in its own process with its own history of calls. -/
def IsFltRadialTask (F : PsfArith) (fuel : Nat) (f : FltItem → Option FltItem) : Prop := ∀ x, ∃ h : List Call, f x = fltRadialTask F fuel (afterCalls h) x

/-- Specification: `vs` are the numbers that `compute` of a manager with `n` workers, used in any way before, returned for the tuples of the given angles,
under some interleaving. -/
def FltReturned (F : PsfArith) (fuel n : Nat) (o : PolObj) (r theta alpha : ℝ) (nR : Int) (angles : List ℝ) (vs : List CFl) : Prop :=
  ∃ (f : FltItem → Option FltItem) (pool : Nat → WState FltItem) (results : List (Option FltItem)) (acts : List Act),
    IsFltRadialTask F fuel f ∧ PoolState f n pool ∧ updateParams n (angles.map fun phi => FltItem.task phi o r theta alpha nR) = .ok results ∧
    (computeAfter f n (angles.map fun phi => FltItem.task phi o r theta alpha nR) pool results acts).pc = .done ∧
    (computeAfter f n (angles.map fun phi => FltItem.task phi o r theta alpha nR) pool results acts).results = (vs.map FltItem.value).map some

/-- Specification: `even` and `odd` are what the `n` workers returned for all pixels of the kernel of the object with the polynomial `z`. -/
def FltWorkersReturned (F : PsfArith) (fuel n : Nat) (o : PsfObj) (z : ZernPol) (even odd : Nat → Nat → List CFl) : Prop :=
  ∀ i j : ℕ, (i : Int) < o.kernelSize → (j : Int) < o.kernelSize →
    FltReturned F fuel n z.obj (fltKernelDist F o.kernelSize o.k o.NA o.pixelSize i j) (fltKernelTheta F o.kernelSize i j) o.alpha o.nR
      (fltEvenAngles F o.nPhi) (even i j) ∧
    FltReturned F fuel n z.obj (fltKernelDist F o.kernelSize o.k o.NA o.pixelSize i j) (fltKernelTheta F o.kernelSize i j) o.alpha o.nR
      (fltOddAngles F o.nPhi) (odd i j)

section
variable {F : PsfArith} {ph : FltPhase} {V : ℝ → ℝ → ℝ} (hph : ∀ p phi, Ret (ph p phi) (V p phi))
include hph

theorem fltDiffraction_ret (phi p theta r : ℝ) : Ret (fltDiffraction F ph phi p theta r) (fltWave F (V p phi) r theta phi p) :=
  Ret.bind (hph p phi) (ret_pure _)

theorem fltWaves_ret (phi theta r : ℝ) (l : List ℝ) : Ret (fltWaves F ph phi theta r l) (l.map fun p => fltWave F (V p phi) r theta phi p) := by
  induction l with
  | nil => exact ret_pure _
  | cons p l ih => exact Ret.bind (fltDiffraction_ret hph phi p theta r) (Ret.bind ih (ret_pure _))

theorem fltRadialIntegral_ret (nR : Int) (hR : nR ≠ 0) : ∃ R : ℝ → ℝ → ℝ → CFl, ∀ r theta phi, Ret (fltRadialIntegral F ph r theta phi nR) (R r theta phi) := by
  have : ∀ r theta phi, ∃ v, Ret (fltRadialIntegral F ph r theta phi nR) v := by
    intro r theta phi
    unfold fltRadialIntegral
    rw [if_neg hR]
    exact ⟨_, Ret.bind (fltDiffraction_ret hph phi 0 theta r) (Ret.bind (fltDiffraction_ret hph phi 1 theta r) (Ret.bind (fltWaves_ret hph phi theta r _) (ret_pure _)))⟩
  choose R hR using this
  exact ⟨R, hR⟩

end

theorem fltAngles_ret {F : PsfArith} {ph : FltPhase} {nR : Int} {R : ℝ → ℝ → ℝ → CFl} (hR : ∀ r theta phi, Ret (fltRadialIntegral F ph r theta phi nR) (R r theta phi))
    (r theta h : ℝ) (l : List Int) : Ret (fltAngles F ph r theta h nR l) (l.map fun (i : Int) => R r theta (F.fl ((i : ℝ) * h))) := by
  induction l with
  | nil => exact ret_pure _
  | cons i l ih => exact Ret.bind (hR r theta _) (Ret.bind ih (ret_pure _))

/-- What the workers return is the list of the values of the tuples, in their order. -/
theorem returned_eq {F : PsfArith} {fuel n : Nat} {o : PolObj} {r θ alpha : ℝ} {nR : Int} {angles : List ℝ} {vs : List CFl}
    (h : FltReturned F fuel n o r θ alpha nR angles vs) {R : ℝ → ℝ → ℝ → CFl}
    (hR : ∀ r theta phi, Ret (fltRadialIntegral F (fltSinglePhase F fuel o alpha) r theta phi nR) (R r theta phi)) :
    vs = angles.map fun phi => R r θ phi := by
  obtain ⟨f, pool, results, acts, hfun, hpool, hu, hd, he⟩ := h
  have hul : n ≤ (angles.map fun phi => FltItem.task phi o r θ alpha nR).length ∧ results.length = (angles.map fun phi => FltItem.task phi o r θ alpha nR).length := by
    generalize (angles.map fun phi => FltItem.task phi o r θ alpha nR) = params at hu
    unfold updateParams at hu
    by_cases h1 : params.length = 0
    · rw [if_pos h1] at hu; cases hu
    · rw [if_neg h1] at hu
      by_cases h2 : params.length < n
      · rw [if_pos h2] at hu; cases hu
      · rw [if_neg h2] at hu
        injection hu with hu
        rw [← hu]
        exact ⟨by omega, by simp⟩
  have := ((compute_correct f n pool hpool _ hul.1 results hul.2 acts).2 hd).1
  rw [this, List.map_map, List.map_map] at he
  have inj : Function.Injective (some ∘ FltItem.value) := by
    intro a b hab
    simp only [Function.comp_apply, Option.some.injEq, FltItem.value.injEq] at hab
    exact hab
  apply List.map_injective_iff.2 inj
  rw [← he, List.map_map]
  apply List.map_congr_left
  intro phi _
  obtain ⟨hh, e⟩ := hfun (.task phi o r θ alpha nR)
  simp only [Function.comp_apply]
  rw [e]
  unfold fltRadialTask
  simp only [(hR r θ phi _ (afterCalls_good hh)).1]

theorem pointFromSums_same {F : PsfArith} {ph : FltPhase} {nR : Int} {R : ℝ → ℝ → ℝ → CFl}
    (hR : ∀ r theta phi, Ret (fltRadialIntegral F ph r theta phi nR) (R r theta phi)) (r θ : ℝ) (nPhi : Int) (hP : nPhi ≠ 0) :
    Both (fltPointFromSums F ph r θ nR nPhi (fltSum F ((fltEvenAngles F nPhi).map fun phi => R r θ phi)) (fltSum F ((fltOddAngles F nPhi).map fun phi => R r θ phi)))
      (fltPsfPoint F ph r θ nR nPhi) := by
  unfold fltPointFromSums fltPsfPoint
  rw [if_neg hP]
  refine ⟨_, Ret.bind (hR _ _ _) (Ret.bind (hR _ _ _) (ret_pure _)), ?_⟩
  refine Ret.bind (fltAngles_ret hR _ _ _ _) (Ret.bind (fltAngles_ret hR _ _ _ _) (Ret.bind (hR _ _ _) (Ret.bind (hR _ _ _) ?_)))
  unfold fltEvenAngles fltOddAngles
  rw [List.map_map, List.map_map]
  exact ret_pure _

theorem fillRow_same_lt {f f' : Nat → Nat → CM ℝ} (i k j : Nat) (S : Grid) (hf : ∀ j', j' < j + k → Same (f i j') (f' i j')) :
    Same (fillRow f i k j S) (fillRow f' i k j S) := by
  induction k generalizing j S with
  | zero => exact Same.pure rfl
  | succ k ih => exact (hf j (by omega)).bind fun v => ih _ _ fun j' h => hf j' (by omega)

theorem fillRows_same_lt {f f' : Nat → Nat → CM ℝ} (cols k i : Nat) (S : Grid) (hf : ∀ i' j', i' < i + k → j' < cols → Same (f i' j') (f' i' j')) :
    Same (fillRows f cols k i S) (fillRows f' cols k i S) := by
  induction k generalizing i S with
  | zero => exact Same.pure rfl
  | succ k ih => exact (fillRow_same_lt i cols 0 S fun j' h => hf i j' (by omega) (by omega)).bind fun S' => ih _ _ fun i' j' h h' => hf i' j' (by omega) h'

theorem parallelLoops_same (F : PsfArith) (fuel fuel' n : Nat) (o : PsfObj) (z : ZernPol) (hv : ValidOrders z.m z.n) (hf : z.n.toNat + 1 < fuel)
    (hf' : z.n.toNat + 1 < fuel') (hNA : o.NA ≠ 0) (hR : o.nR ≠ 0) (hP : o.nPhi ≠ 0) (even odd : Nat → Nat → List CFl) (h0 : 0 ≤ o.kernelSize)
    (hw : FltWorkersReturned F fuel n o z even odd) (normalize : Bool) :
    Same (o.fltParallelLoops F fuel z (.running n) even odd normalize) (fltMakeKernel F o.kernelSize o.NA (fun i j =>
      fltPsfPoint F (fltSinglePhase F fuel' z.obj o.alpha) (fltKernelDist F o.kernelSize o.k o.NA o.pixelSize i j) (fltKernelTheta F o.kernelSize i j) o.nR o.nPhi) normalize) := by
  have hph : ∀ p phi, ∃ v, Ret (fltSinglePhase F fuel z.obj o.alpha p phi) v := fun p phi => by
    obtain ⟨v, a, _⟩ := fltSinglePhase_both F fuel fuel z.obj hv hf hf o.alpha p phi
    exact ⟨v, a⟩
  choose V hV using hph
  obtain ⟨R, hRR⟩ := fltRadialIntegral_ret (F := F) hV o.nR hR
  unfold PsfObj.fltParallelLoops fltMakeKernel
  rw [if_neg (by omega), if_neg hNA]
  refine Same.bind ?_ fun g => ?_
  · have key : ∀ i j : ℕ, i < o.kernelSize.toNat → j < o.kernelSize.toNat → Same
        (fltPointParallel F (fltSinglePhase F fuel z.obj o.alpha) (fltKernelDist F o.kernelSize o.k o.NA o.pixelSize i j)
          (fltKernelTheta F o.kernelSize i j) o.nR o.nPhi (.running n) (even i j) (odd i j))
        (fltPsfPoint F (fltSinglePhase F fuel' z.obj o.alpha) (fltKernelDist F o.kernelSize o.k o.NA o.pixelSize i j) (fltKernelTheta F o.kernelSize i j) o.nR o.nPhi) := by
      intro i j hi hj
      obtain ⟨he, ho⟩ := hw i j (by omega) (by omega)
      unfold fltPointParallel
      rw [returned_eq he hRR, returned_eq ho hRR]
      have a := (pointFromSums_same hRR (fltKernelDist F o.kernelSize o.k o.NA o.pixelSize i j) (fltKernelTheta F o.kernelSize i j) o.nPhi hP).same
      have b := fltPsfPoint_same (F := F) (ph := fltSinglePhase F fuel z.obj o.alpha) (ph' := fltSinglePhase F fuel' z.obj o.alpha)
        (fun p phi => (fltSinglePhase_both F fuel fuel' z.obj hv hf hf' o.alpha p phi).same) (fltKernelDist F o.kernelSize o.k o.NA o.pixelSize i j)
        (fltKernelTheta F o.kernelSize i j) o.nR o.nPhi
      obtain ⟨y, hy⟩ := a
      obtain ⟨y', hy'⟩ := b
      refine ⟨y, fun s hs => ⟨(hy s hs).1, ?_⟩⟩
      have : y = y' := by rw [← (hy s hs).2.1, (hy' s hs).1.1]
      rw [this]
      exact (hy' s hs).2
    exact fillRows_same_lt _ _ _ _ fun i j hi hj => key i j (by omega) hj
  · split
    · exact Same.lift rfl
    · exact Same.pure rfl

/-- C98. In any floating-point arithmetic: for an object with one polynomial and an odd kernel size of at least 3, whose wave number and relative amplitude belong to the
wavelength, `get_kernel_parallel` with running workers returns the same numbers, to the last bit, as the plain calculation of `calculate_psf_kernel`,
under every interleaving of the workers and for every history of calls in each process. -/
theorem parallel_kernel_same_bits (F : PsfArith) (fuel fuel' n : Nat) (o : PsfObj) (z : ZernPol) (hv : ValidOrders z.m z.n) (hf : z.n.toNat + 1 < fuel)
    (hf' : z.n.toNat + 1 < fuel') (h3 : 3 ≤ o.kernelSize) (hodd : o.kernelSize % 2 = 1) (hwl : o.wavelength ≠ 0) (hNA : o.NA ≠ 0) (hR : o.nR ≠ 0)
    (hP : o.nPhi ≠ 0) (hk : o.k = F.fl (F.fl (2 * F.pi) / o.wavelength)) (ha : o.alpha = F.fl (o.expansionCoeff / o.wavelength))
    (even odd : Nat → Nat → List CFl) (hw : FltWorkersReturned F fuel n o z even odd) (normalize : Bool) (h h' : List Call) :
    (o.fltKernelParallel F fuel z (.running n) even odd normalize (afterCalls h)).1 =
      (fltPsfKernel F fuel' z.obj o.expansionCoeff (o.params normalize) (afterCalls h')).1 := by
  have hS := parallelLoops_same F fuel fuel' n o z hv hf hf' hNA hR hP even odd (by omega) hw normalize
  unfold PsfObj.fltKernelParallel fltPsfKernel
  rw [if_neg (by omega), if_neg (by simpa [PsfObj.params] using hwl)]
  have hmo : makeOdd (o.params normalize).kernelSize = o.kernelSize := by
    unfold makeOdd
    simp only [PsfObj.params]
    split_ifs <;> omega
  simp only [hmo]
  rw [hS.eq (afterCalls_good h) (afterCalls_good h'), hk, ha]
  rfl

/-- C98. Under every fair schedule the workers return a number for each angle, in any arithmetic. -/
theorem parallel_workers_terminate (F : PsfArith) (fuel n : Nat) (hn1 : 1 ≤ n) (f : FltItem → Option FltItem) (hf : IsFltRadialTask F fuel f)
    (pool : Nat → WState FltItem) (hpool : PoolState f n pool) (o : PolObj) (hv : ValidOrders o.m o.n) (hfuel : o.n.toNat + 1 < fuel) (r θ alpha : ℝ) (nR : Int)
    (hR : nR ≠ 0) (angles : List ℝ) (hl : n ≤ angles.length) (sched : Nat → Act) (hfair : Fair n sched) :
    ∃ results t, updateParams n (angles.map fun phi => FltItem.task phi o r θ alpha nR) = .ok results ∧
      (computeAt f n (angles.map fun phi => FltItem.task phi o r θ alpha nR) pool results sched t).pc = .done := by
  have hu : updateParams n (angles.map fun phi => FltItem.task phi o r θ alpha nR) =
      .ok (List.replicate (angles.map fun phi => FltItem.task phi o r θ alpha nR).length none) := by
    unfold updateParams
    rw [if_neg (by rw [List.length_map]; omega), if_neg (by rw [List.length_map]; omega)]
  have hph : ∀ p phi, ∃ v, Ret (fltSinglePhase F fuel o alpha p phi) v := fun p phi => by
    obtain ⟨v, a, _⟩ := fltSinglePhase_both F fuel fuel o hv hfuel hfuel alpha p phi
    exact ⟨v, a⟩
  choose V hV using hph
  obtain ⟨R, hRR⟩ := fltRadialIntegral_ret (F := F) hV nR hR
  obtain ⟨t, ht⟩ := compute_terminates f n hn1 pool hpool (angles.map fun phi => FltItem.task phi o r θ alpha nR) (by rw [List.length_map]; exact hl) _
    (List.length_replicate ..) (by
      intro p hp
      obtain ⟨phi, _, rfl⟩ := List.mem_map.1 hp
      obtain ⟨h, e⟩ := hf (.task phi o r θ alpha nR)
      rw [e]
      unfold fltRadialTask
      simp [(hRR r θ phi _ (afterCalls_good h)).1]) sched hfair
  exact ⟨_, t, hu, ht⟩

theorem fltReturned_exists (F : PsfArith) (fuel n : Nat) (hn1 : 1 ≤ n) (o : PolObj) (hv : ValidOrders o.m o.n) (hfuel : o.n.toNat + 1 < fuel) (r θ alpha : ℝ)
    (nR : Int) (hR : nR ≠ 0) (angles : List ℝ) (hl : n ≤ angles.length) : ∃ vs, FltReturned F fuel n o r θ alpha nR angles vs := by
  have hf : IsFltRadialTask F fuel (fltRadialTask F fuel (afterCalls [])) := fun x => ⟨[], rfl⟩
  obtain ⟨results, t, hu, ht⟩ := parallel_workers_terminate F fuel n hn1 _ hf _ .started o hv hfuel r θ alpha nR hR angles hl (roundRobin n) (roundRobin_fair n)
  unfold computeAt at ht
  rw [stateAt_run] at ht
  have hu' : updateParams n (angles.map fun phi => FltItem.task phi o r θ alpha nR) =
      .ok (List.replicate (angles.map fun phi => FltItem.task phi o r θ alpha nR).length none) := by
    unfold updateParams
    rw [if_neg (by rw [List.length_map]; omega), if_neg (by rw [List.length_map]; omega)]
  have hres : results.length = (angles.map fun phi => FltItem.task phi o r θ alpha nR).length := by
    rw [hu'] at hu
    rw [← Except.ok.inj hu]
    simp
  have := ((compute_correct _ n _ .started _ (by rw [List.length_map]; exact hl) results hres _).2 ht).1
  have hph : ∀ p phi, ∃ v, Ret (fltSinglePhase F fuel o alpha p phi) v := fun p phi => by
    obtain ⟨v, a, _⟩ := fltSinglePhase_both F fuel fuel o hv hfuel hfuel alpha p phi
    exact ⟨v, a⟩
  choose V hV using hph
  obtain ⟨R, hRR⟩ := fltRadialIntegral_ret (F := F) hV nR hR
  refine ⟨angles.map fun phi => R r θ phi, _, _, results, _, hf, .started, hu, ht, ?_⟩
  unfold computeAfter at this ⊢
  rw [this, List.map_map, List.map_map, List.map_map]
  apply List.map_congr_left
  intro phi _
  simp only [Function.comp_apply]
  unfold fltRadialTask
  simp only [(hRR r θ phi _ (afterCalls_good [])).1]

/-- The hypothesis `FltWorkersReturned` can be met for every object with one polynomial and 1 to 16 workers, at least 36 angles. -/
theorem fltWorkersReturned_exists (F : PsfArith) (fuel n : Nat) (hn1 : 1 ≤ n) (hn : n ≤ 16) (o : PsfObj) (z : ZernPol) (hv : ValidOrders z.m z.n)
    (hf : z.n.toNat + 1 < fuel) (hR : o.nR ≠ 0) (hP : 36 ≤ o.nPhi) : ∃ even odd, FltWorkersReturned F fuel n o z even odd := by
  have h1 := evenAngles_length o.nPhi hP
  have h2 := oddAngles_length o.nPhi hP
  unfold evenAngles at h1
  unfold oddAngles at h2
  rw [List.length_map] at h1 h2
  choose e he using fun i j : ℕ => fltReturned_exists F fuel n hn1 z.obj hv hf (fltKernelDist F o.kernelSize o.k o.NA o.pixelSize i j)
    (fltKernelTheta F o.kernelSize i j) o.alpha o.nR hR (fltEvenAngles F o.nPhi) (by unfold fltEvenAngles; rw [List.length_map]; omega)
  choose d hd using fun i j : ℕ => fltReturned_exists F fuel n hn1 z.obj hv hf (fltKernelDist F o.kernelSize o.k o.NA o.pixelSize i j)
    (fltKernelTheta F o.kernelSize i j) o.alpha o.nR hR (fltOddAngles F o.nPhi) (by unfold fltOddAngles; rw [List.length_map]; omega)
  exact ⟨e, d, fun i j _ _ => ⟨he i j, hd i j⟩⟩

/-- The hypotheses are met in double precision: the tilt, a kernel of 7 pixels, the stored numbers of `set_physical_props` called twice, four workers. -/
example (s : List ℝ → ℝ) : ∃ (o : PsfObj) (z : ZernPol) (even odd : Nat → Nat → List CFl), ValidOrders z.m z.n ∧ 3 ≤ o.kernelSize ∧ o.kernelSize % 2 = 1 ∧
    o.wavelength ≠ 0 ∧ o.NA ≠ 0 ∧ o.nR ≠ 0 ∧ o.nPhi ≠ 0 ∧ o.k = (psfDoubles s).fl ((psfDoubles s).fl (2 * (psfDoubles s).pi) / o.wavelength) ∧
    o.alpha = (psfDoubles s).fl (o.expansionCoeff / o.wavelength) ∧ FltWorkersReturned (psfDoubles s) 3 4 o z even odd := by
  let o : PsfObj := { psfDefault with kernelSize := 7, wavelength := 0.5, NA := 0.75, nR := 320, nPhi := 300, expansionCoeff := 0.25, k := (psfDoubles s).fl ((psfDoubles s).fl (2 * (psfDoubles s).pi) / 0.5), alpha := (psfDoubles s).fl (0.25 / 0.5) }
  let z : ZernPol := ⟨-1, 1, 1, 3, .int 3⟩
  obtain ⟨e, d, h⟩ := fltWorkersReturned_exists (psfDoubles s) 3 4 (by omega) (by omega) o z (by decide) (by decide) (by norm_num [o]) (by norm_num [o])
  exact ⟨o, z, e, d, by decide, by norm_num [o], by norm_num [o], by norm_num [o], by norm_num [o], by norm_num [o], by norm_num [o], rfl, rfl, h⟩

end Verif.Props
