import Verif.Model.Parallel
import Verif.Props.Dispenser
import Verif.Props.PsfCalc
import Verif.Props.PsfAccelerated
import Verif.Props.Json
import Verif.Proofs.PsfConverge

/-!
# C53: the parallel kernel calculation
-/

namespace Verif.Props
open Verif.Model Verif.Spec Verif.Proofs Verif.Model.Dispenser

/-- Specification: the function computed by the workers, each in its own process with its own history of calls. -/
def IsRadialTask (fuel : Nat) (f : Item → Option Item) : Prop := ∀ x, ∃ h : List Call, f x = radialTask fuel (afterCalls h) x

/-- Specification: a manager with `n` workers, used in any way before, accepted `params`, and `compute` returned `out`, under some interleaving. -/
def Returned (fuel n : Nat) (params out : List Item) : Prop :=
  ∃ (f : Item → Option Item) (pool : Nat → WState Item) (results : List (Option Item)) (acts : List Act),
    IsRadialTask fuel f ∧ PoolState f n pool ∧ updateParams n params = .ok results ∧
    (computeAfter f n params pool results acts).pc = .done ∧ (computeAfter f n params pool results acts).results = out.map some

/-- Specification: `v` is the sum of the numbers returned by the workers for the given angles. -/
def SumReturned (fuel n : Nat) (o : PolObj) (r theta alpha : ℝ) (nR : Int) (angles : List ℝ) (v : ℂ) : Prop :=
  ∃ zs : List ℂ, Returned fuel n (angles.map fun phi => .task phi o r theta alpha nR) (zs.map .value) ∧ v = zs.sum

/-- Specification: `even` and `odd` are sums returned by the `n` workers for all pixels of the kernel of the object with the polynomial `z`. -/
def WorkersReturned (fuel n : Nat) (o : PsfObj) (z : ZernPol) (even odd : Nat → Nat → ℂ) : Prop :=
  ∀ i j : ℕ, (i : Int) < o.kernelSize → (j : Int) < o.kernelSize →
    SumReturned fuel n z.obj (kernelDist o.kernelSize o.k o.NA o.pixelSize i j) (kernelTheta o.kernelSize i j) o.alpha o.nR (evenAngles o.nPhi) (even i j) ∧
    SumReturned fuel n z.obj (kernelDist o.kernelSize o.k o.NA o.pixelSize i j) (kernelTheta o.kernelSize i j) o.alpha o.nR (oddAngles o.nPhi) (odd i j)

theorem radialTask_value (fuel : Nat) (o : PolObj) (hv : ValidOrders o.m o.n) (hf : o.n.toNat + 1 < fuel) (h : List Call) (phi r θ alpha : ℝ)
    (nR : ℕ) (hR : 2 ≤ nR) :
    radialTask fuel (afterCalls h) (.task phi o r θ alpha nR) =
      some (.value (trapezoid nR fun p => pupilField (fun p φ => alpha * zernike o.m o.n p φ) r θ p phi)) := by
  unfold radialTask
  have := (radialIntegral_ok _ _ (singlePhase_ok fuel o hv hf alpha) r θ phi nR hR (afterCalls h) (afterCalls_good h)).1
  simp only [this]

theorem updateParams_length {n : Nat} {params : List Item} {results : List (Option Item)} (h : updateParams n params = .ok results) :
    n ≤ params.length ∧ results.length = params.length := by
  unfold updateParams at h
  by_cases h1 : params.length = 0
  · rw [if_pos h1] at h; cases h
  · rw [if_neg h1] at h
    by_cases h2 : params.length < n
    · rw [if_pos h2] at h; cases h
    · rw [if_neg h2] at h
      injection h with h
      rw [← h]
      exact ⟨by omega, by simp⟩

theorem sum_returned {fuel n : Nat} {o : PolObj} (hv : ValidOrders o.m o.n) (hf : o.n.toNat + 1 < fuel) {r θ alpha : ℝ} {nR : ℕ} (hR : 2 ≤ nR)
    {angles : List ℝ} {v : ℂ} (h : SumReturned fuel n o r θ alpha nR angles v) :
    v = (angles.map fun phi => trapezoid nR fun p => pupilField (fun p φ => alpha * zernike o.m o.n p φ) r θ p phi).sum := by
  obtain ⟨zs, ⟨f, pool, results, acts, hfun, hpool, hu, hd, he⟩, rfl⟩ := h
  obtain ⟨hn, hl⟩ := updateParams_length hu
  have := ((compute_correct f n pool hpool _ hn results hl acts).2 hd).1
  rw [this, List.map_map, List.map_map] at he
  have hfv : ∀ phi, f (.task phi o r θ alpha nR) =
      some (.value (trapezoid nR fun p => pupilField (fun p φ => alpha * zernike o.m o.n p φ) r θ p phi)) := by
    intro phi
    obtain ⟨hh, e⟩ := hfun (.task phi o r θ alpha nR)
    rw [e]
    exact radialTask_value fuel o hv hf hh phi r θ alpha nR hR
  have hz : zs = angles.map fun phi => trapezoid nR fun p => pupilField (fun p φ => alpha * zernike o.m o.n p φ) r θ p phi := by
    have inj : Function.Injective (some ∘ Item.value) := by
      intro a b hab
      simp only [Function.comp_apply, Option.some.injEq, Item.value.injEq] at hab
      exact hab
    apply List.map_injective_iff.2 inj
    rw [← he, List.map_map]
    apply List.map_congr_left
    intro phi _
    exact hfv phi
  rw [hz]

theorem pointFromSums_ok (ph : Phase) (Φ : ℝ → ℝ → ℝ) (h : PhaseOk ph Φ) (r θ : ℝ) (nR nPhi : ℕ) (hR : 2 ≤ nR) (hPhi : 0 < nPhi) :
    Ret (pointFromSums ph r θ nR nPhi ((evenAngles nPhi).map fun phi => trapezoid nR fun p => pupilField Φ r θ p phi).sum
      ((oddAngles nPhi).map fun phi => trapezoid nR fun p => pupilField Φ r θ p phi).sum) (psfValue Φ r θ nR nPhi) := by
  have e1 := pyRange_sum 2 nPhi (nPhi - 2) (by omega) le_rfl (Or.inl rfl) ((nPhi : Int) - 2) (Or.inl rfl) (by omega)
    fun x => trapezoid nR fun p => pupilField Φ r θ p (x * (2 * Real.pi / ((nPhi : ℤ) : ℝ)))
  have e2 := pyRange_sum 1 nPhi (nPhi - 1) (by omega) (by omega) (Or.inr rfl) ((nPhi : Int) - 1) (Or.inr rfl) (by omega)
    fun x => trapezoid nR fun p => pupilField Φ r θ p (x * (2 * Real.pi / ((nPhi : ℤ) : ℝ)))
  unfold pointFromSums
  refine Ret.bind (radialIntegral_ok ph Φ h r θ 0 nR hR) ?_
  refine Ret.bind (radialIntegral_ok ph Φ h r θ (2 * Real.pi) nR hR) ?_
  have e1' := e1
  have e2' := e2
  simp only [Nat.cast_ofNat, Nat.cast_one] at e1' e2'
  unfold evenAngles oddAngles
  rw [List.map_map, List.map_map]
  unfold Function.comp
  rw [e1', e2']
  have key : ∀ a b : ℝ, a = b → Ret (pure a : CM ℝ) b := by rintro a b rfl; exact ret_pure _
  apply key
  unfold psfValue psfField angularRule
  simp only [Int.cast_natCast]
  rw [show (1 / (Real.pi * Real.pi)) = 1 / Real.pi ^ 2 by ring, mul_one_div]
  congr 3
  push_cast
  ring

theorem pixel_scale (Φ : ℝ → ℝ → ℝ) (S : ℕ) (hS : S % 2 = 1) (k NA px : ℝ) (i j : ℕ) (nR nPhi : ℕ) :
    psfValue Φ (kernelDist S k NA px i j) (kernelTheta S i j) nR nPhi = pixelPsf Φ (k * NA * px) S nR nPhi i j := by
  rw [psf_pixel]
  have : (((S : Int) / 2 : Int) : ℝ) = ((S : ℝ) - 1) / 2 := by
    obtain ⟨k, hk⟩ : ∃ k, S = 2 * k + 1 := ⟨S / 2, by omega⟩
    subst hk
    rw [show (((2 * k + 1 : ℕ) : Int) / 2 : Int) = (k : Int) by omega]
    push_cast; ring
  rw [this]
  rfl

theorem loops_res (fuel : Nat) (o : PsfObj) (z : ZernPol) (w : Workers) (even odd : Nat → Nat → ℂ) (nrm : Bool) (v : ℕ → ℕ → ℝ) (S : ℕ)
    (hS : (S : Int) = o.kernelSize)
    (h : ∀ i j, i < S → j < S → Ret (pointParallel (singlePhase fuel z.obj o.alpha) (kernelDist o.kernelSize o.k o.NA o.pixelSize i j)
      (kernelTheta o.kernelSize i j) o.nR o.nPhi w (even i j) (odd i j)) (v i j)) (s : CoefState) (hg : Good s) :
    (o.parallelLoops fuel z w even odd nrm s).1 = pureKernel S v nrm := by
  have hS' : o.kernelSize.toNat = S := by omega
  have := makeKernel_res S (by omega) 1 one_ne_zero (fun i j => pointParallel (singlePhase fuel z.obj o.alpha) (kernelDist o.kernelSize o.k o.NA o.pixelSize i j)
      (kernelTheta o.kernelSize i j) o.nR o.nPhi w (even i j) (odd i j)) v nrm (by simpa using h) s hg
  rw [Int.toNat_natCast] at this
  rw [← this]
  unfold PsfObj.parallelLoops makeKernel
  rw [if_neg (by omega), if_neg one_ne_zero, Int.toNat_natCast, hS']

theorem kernelParallel_eq (fuel : Nat) (o : PsfObj) (z : ZernPol) (hz : o.zernpol = some z) (h3 : 3 ≤ o.kernelSize) (w : Workers)
    (even odd : Nat → Nat → ℂ) (nrm : Bool) (s : CoefState) (g : Grid) (h : (o.parallelLoops fuel z w even odd nrm s).1 = .ok g) :
    (o.kernelParallel fuel w even odd nrm s).1 = .ok (.finite g) ∧ (o.kernelParallel fuel w even odd nrm s).2.1 = { o with kernel := g } := by
  unfold PsfObj.kernelParallel
  rw [hz]
  simp only [if_neg (by omega : ¬ o.kernelSize < 3)]
  rcases hl : o.parallelLoops fuel z w even odd nrm s with ⟨r, s'⟩
  rw [hl] at h
  simp only at h
  subst h
  exact ⟨rfl, rfl⟩

/-- C53. For an object with one polynomial (not the piston) in any state reached by any calls, with running workers, `get_kernel_parallel` gives
and stores the kernel with the PSF for the stored amplitude `alpha` and the stored wave number `k`, under every interleaving of the workers. -/
theorem parallel_kernel_exact (o : PsfObj) (s : CoefState) (hr : PsfReachable o s) (z : ZernPol) (hz : o.zernpol = some z) (fuel : Nat)
    (hv : ValidOrders z.m z.n) (hf : z.n.toNat + 1 < fuel) (h3 : 3 ≤ o.kernelSize) (n : Nat) (even odd : Nat → Nat → ℂ)
    (hw : WorkersReturned fuel n o z even odd) (normalize : Bool) :
    ∃ (g : Grid) (S : ℕ), (S : Int) = o.kernelSize ∧ (o.kernelParallel fuel (.running n) even odd normalize s).1 = .ok (.finite g) ∧
      (o.kernelParallel fuel (.running n) even odd normalize s).2.1 = { o with kernel := g } ∧
      pureKernel S (pixelPsf (fun p φ => o.alpha * zernike z.m z.n p φ) (o.k * o.NA * o.pixelSize) S o.nR.toNat o.nPhi.toNat) normalize = .ok g ∧
      KernelOf normalize S (pixelPsf (fun p φ => o.alpha * zernike z.m z.n p φ) (o.k * o.NA * o.pixelSize) S o.nR.toNat o.nPhi.toNat) g := by
  have hi := hr.inv
  have hp := hi.points
  have hsz := hi.size
  have hS : ((o.kernelSize.toNat : ℕ) : Int) = o.kernelSize := by omega
  have hnR : ((o.nR.toNat : ℕ) : Int) = o.nR := by omega
  have hnP : ((o.nPhi.toNat : ℕ) : Int) = o.nPhi := by omega
  obtain ⟨g, e, hg⟩ := pureKernel_of o.kernelSize.toNat (by omega)
    (pixelPsf (fun p φ => o.alpha * zernike z.m z.n p φ) (o.k * o.NA * o.pixelSize) o.kernelSize.toNat o.nR.toNat o.nPhi.toNat) normalize
  have hl := loops_res fuel o z (.running n) even odd normalize
    (pixelPsf (fun p φ => o.alpha * zernike z.m z.n p φ) (o.k * o.NA * o.pixelSize) o.kernelSize.toNat o.nR.toNat o.nPhi.toNat) o.kernelSize.toNat hS (by
    intro i j hi hj
    obtain ⟨he, ho⟩ := hw i j (by omega) (by omega)
    rw [← hnR] at he ho
    have he' := sum_returned hv hf (by omega) he
    have ho' := sum_returned hv hf (by omega) ho
    have := pointFromSums_ok _ _ (singlePhase_ok fuel z.obj hv hf o.alpha) (kernelDist o.kernelSize o.k o.NA o.pixelSize i j)
      (kernelTheta o.kernelSize i j) o.nR.toNat o.nPhi.toNat (by omega) (by omega)
    rw [hnR, hnP] at this
    rw [he', ho']
    rw [← pixel_scale _ _ (by omega), hS]
    exact this) s hr.good
  have := kernelParallel_eq fuel o z hz h3 (.running n) even odd normalize s g (hl.trans e)
  exact ⟨g, o.kernelSize.toNat, hS, this.1, this.2, e, hg⟩

/-- The kernel of `calculate_psf_kernel` (plain calculation) of an object with one polynomial that is not the piston. -/
theorem calculate_plain (o : PsfObj) (s : CoefState) (hr : PsfReachable o s) (z : ZernPol) (hz : o.zernpol = some z) (hn : ¬ (z.m = 0 ∧ z.n = 0))
    (hNA : 0 < o.NA) (env : Env) (hs : Supported env (some false) z) (h3 : 3 ≤ o.kernelSize) (hprops : o.propsSet = true) (normalize suppress : Bool)
    (S : ℕ) (hS : (S : Int) = o.kernelSize) (g : Grid)
    (hg : pureKernel S (pixelPsf (fun p φ => o.expansionCoeff / o.wavelength * zernike z.m z.n p φ) (2 * Real.pi / o.wavelength * o.NA * o.pixelSize) S
      o.nR.toNat o.nPhi.toNat) normalize = .ok g) :
    (o.calculate env suppress normalize (some false) s).1 = .ok g ∧ (o.calculate env suppress normalize (some false) s).2.1 = { o with kernel := g } := by
  have hacc : env.accelerate (some false) = false := by simp [Env.accelerate]
  unfold Supported at hs
  rw [if_neg (by simp [hacc])] at hs
  have hi := hr.inv
  have hcs : calcStart o suppress = o := by unfold calcStart; simp [hprops]
  have hcall : (calcStart o suppress).kernelCall env normalize (some false) =
      some (getPsfKernel env.fuel env.j1 z.obj o.expansionCoeff (o.params normalize) false) := by
    rw [hcs]
    unfold PsfObj.kernelCall
    rw [hz]
    simp [hacc, hr.airy hz hn]
  have hodd : OddSize (o.params normalize).kernelSize S := by
    have := hi.size
    unfold OddSize
    simp only [PsfObj.params]
    omega
  have hres := single_res s hr.good env.fuel env.j1 z.obj hs.1 hs.2 o.expansionCoeff (o.params normalize)
    ⟨by have := hi.points.1; simp only [PsfObj.params]; omega, by have := hi.points.2; simp only [PsfObj.params]; omega⟩ ⟨hi.wavelength, hNA⟩ h3 S hodd
  have hid : idealKernel (phaseOne z.obj o.expansionCoeff o.wavelength) (o.params normalize) S = .ok g := by
    rw [← hg]
    unfold idealKernel phaseOne opticalScale
    simp only [PsfObj.params, ZernPol.obj]
  have := calculate_eq env o suppress normalize (some false) s _ hcall g (hres.trans hid)
  refine ⟨this.1, ?_⟩
  rw [this.2, hcs]

/-- C53 (partial). If the wave number and the relative amplitude belong to the stored wavelength, the parallel calculation gives exactly the kernel of
`calculate_psf_kernel` (plain calculation), and leaves the same object. What is missing: the condition is false after a change of the wavelength
(`parallel_kernel_stale`). -/
theorem parallel_agrees_partial (o : PsfObj) (s s' : CoefState) (hr : PsfReachable o s) (hr' : PsfReachable o s') (z : ZernPol)
    (hz : o.zernpol = some z) (hn : ¬ (z.m = 0 ∧ z.n = 0)) (hNA : 0 < o.NA)
    (env : Env) (hs : Supported env (some false) z) (h3 : 3 ≤ o.kernelSize) (hprops : o.propsSet = true)
    (hk : o.k = 2 * Real.pi / o.wavelength) (ha : o.alpha = o.expansionCoeff / o.wavelength) (n : Nat) (even odd : Nat → Nat → ℂ)
    (hw : WorkersReturned env.fuel n o z even odd) (normalize suppress : Bool) :
    ∃ g, (o.kernelParallel env.fuel (.running n) even odd normalize s).1 = .ok (.finite g) ∧
      (o.calculate env suppress normalize (some false) s').1 = .ok g ∧
      (o.kernelParallel env.fuel (.running n) even odd normalize s).2.1 = (o.calculate env suppress normalize (some false) s').2.1 := by
  have hs' := hs
  unfold Supported at hs'
  rw [if_neg (by simp [Env.accelerate])] at hs'
  obtain ⟨g, S, hS, h1, h2, h5, _⟩ := parallel_kernel_exact o s hr z hz env.fuel hs'.1 hs'.2 h3 n even odd hw normalize
  rw [hk, ha] at h5
  obtain ⟨c1, c2⟩ := calculate_plain o s' hr' z hz hn hNA env hs h3 hprops normalize suppress S hS g h5
  exact ⟨g, h1, c1, h2.trans c2.symm⟩

/-- C53. After two calls of `set_physical_props` with the same wavelength the condition of `parallel_agrees_partial` holds: the parallel calculation
gives the kernel of `calculate_psf_kernel` for the arguments of the last call. -/
theorem parallel_agrees_after_two_calls (o o₁ o₂ : PsfObj) (s s' : CoefState) (hr : PsfReachable o s) (hr₂ : PsfReachable o₂ s') (z : ZernPol)
    (hz : o.zernpol = some z) (hn : ¬ (z.m = 0 ∧ z.n = 0)) (env : Env) (hs : Supported env (some false) z)
    (NA₁ px₁ x₁ NA wl px x : ℝ) (hp₁ : PhysicalOk NA₁ wl px₁) (hp : PhysicalOk NA wl px)
    (h₁ : o.setPhysicalProps NA₁ wl (.num x₁) px₁ = (.ok (), o₁)) (h₂ : o₁.setPhysicalProps NA wl (.num x) px = (.ok (), o₂))
    (h3 : 3 ≤ o₂.kernelSize) (n : Nat) (even odd : Nat → Nat → ℂ)
    (hw : WorkersReturned env.fuel n o₂ z even odd) (normalize suppress : Bool) :
    ∃ g, (o₂.kernelParallel env.fuel (.running n) even odd normalize s').1 = .ok (.finite g) ∧
      (o₂.calculate env suppress normalize (some false) s').1 = .ok g ∧
      (o₂.kernelParallel env.fuel (.running n) even odd normalize s').2.1 = (o₂.calculate env suppress normalize (some false) s').2.1 := by
  have hs' := hs
  unfold Supported at hs'
  rw [if_neg (by simp [Env.accelerate])] at hs'
  have hv : ValidOrders z.m z.n := hs'.1
  obtain ⟨S₁, _, e₁⟩ := setPhysical_num o z hz hv NA₁ wl px₁ x₁ hp₁
  rw [h₁] at e₁
  simp only [Prod.mk.injEq, true_and] at e₁
  have hz₁ : o₁.zernpol = some z := by rw [e₁]; exact hz
  have hwl₁ : o₁.wavelength = wl := by rw [e₁]; rfl
  obtain ⟨S₂, _, e₂⟩ := setPhysical_num o₁ z hz₁ hv NA wl px x hp
  have hk := setPhysical_k o₁ NA wl px _ o₂ h₂
  rw [h₂] at e₂
  simp only [Prod.mk.injEq, true_and] at e₂
  have hwl₂ : o₂.wavelength = wl := by rw [e₂]; rfl
  have hNA₂ : o₂.NA = NA := by rw [e₂]; rfl
  have hx : o₂.expansionCoeff = x := by rw [e₂]
  have ha : o₂.alpha = x / wl := by rw [e₂]
  exact parallel_agrees_partial o₂ s' s' hr₂ hr₂ z (by rw [e₂]; exact hz₁) hn (by rw [hNA₂]; exact hp.1) env hs h3 (by rw [e₂])
    (by rw [hk, hwl₁, hwl₂]) (by rw [ha, hx, hwl₂]) n even odd hw normalize suppress

/-! ### The workers return -/

theorem evenAngles_length (nPhi : Int) (h : 36 ≤ nPhi) : 16 ≤ (evenAngles nPhi).length := by
  unfold evenAngles pyRange
  simp only [List.length_map, List.length_range]
  omega

theorem oddAngles_length (nPhi : Int) (h : 36 ≤ nPhi) : 16 ≤ (oddAngles nPhi).length := by
  unfold oddAngles pyRange
  simp only [List.length_map, List.length_range]
  omega

/-- Under every fair schedule, workers used in any way before return a number for each of the angles (at least as many as workers). -/
theorem workers_terminate (fuel n : Nat) (hn1 : 1 ≤ n) (f : Item → Option Item) (hf : IsRadialTask fuel f) (pool : Nat → WState Item)
    (hpool : PoolState f n pool) (o : PolObj) (hv : ValidOrders o.m o.n) (hfuel : o.n.toNat + 1 < fuel) (r θ alpha : ℝ) (nR : Int) (hR : 2 ≤ nR)
    (angles : List ℝ) (hl : n ≤ angles.length) (sched : Nat → Act) (hfair : Fair n sched) :
    ∃ results t, updateParams n (angles.map fun phi => Item.task phi o r θ alpha nR) = .ok results ∧
      (computeAt f n (angles.map fun phi => Item.task phi o r θ alpha nR) pool results sched t).pc = .done := by
  have hu : updateParams n (angles.map fun phi => Item.task phi o r θ alpha nR) =
      .ok (List.replicate (angles.map fun phi => Item.task phi o r θ alpha nR).length none) := by
    unfold updateParams
    rw [if_neg (by rw [List.length_map]; omega), if_neg (by rw [List.length_map]; omega)]
  obtain ⟨t, ht⟩ := compute_terminates f n hn1 pool hpool (angles.map fun phi => Item.task phi o r θ alpha nR) (by rw [List.length_map]; exact hl) _
    (updateParams_length hu).2 (by
      intro p hp
      obtain ⟨phi, _, rfl⟩ := List.mem_map.1 hp
      obtain ⟨h, e⟩ := hf (.task phi o r θ alpha nR)
      rw [e]
      obtain ⟨N, rfl⟩ := Int.eq_ofNat_of_zero_le (by omega : 0 ≤ nR)
      have := radialTask_value fuel o hv hfuel h phi r θ alpha N (by omega)
      rw [this]
      simp) sched hfair
  exact ⟨_, t, hu, ht⟩

theorem sumReturned_exists (fuel n : Nat) (hn1 : 1 ≤ n) (o : PolObj) (hv : ValidOrders o.m o.n) (hfuel : o.n.toNat + 1 < fuel) (r θ alpha : ℝ)
    (nR : Int) (hR : 2 ≤ nR) (angles : List ℝ) (hl : n ≤ angles.length) : ∃ v, SumReturned fuel n o r θ alpha nR angles v := by
  have hf : IsRadialTask fuel (radialTask fuel (afterCalls [])) := fun x => ⟨[], rfl⟩
  obtain ⟨results, t, hu, ht⟩ := workers_terminate fuel n hn1 _ hf _ .started o hv hfuel r θ alpha nR hR angles hl (roundRobin n) (roundRobin_fair n)
  unfold computeAt at ht
  rw [stateAt_run] at ht
  obtain ⟨hn, hl'⟩ := updateParams_length hu
  have := ((compute_correct _ n _ .started _ hn results hl' _).2 ht).1
  obtain ⟨N, rfl⟩ := Int.eq_ofNat_of_zero_le (by omega : 0 ≤ nR)
  refine ⟨_, angles.map fun phi => trapezoid N fun p => pupilField (fun p φ => alpha * zernike o.m o.n p φ) r θ p phi,
    ⟨_, _, results, _, hf, .started, hu, ht, ?_⟩, rfl⟩
  unfold computeAfter at this ⊢
  rw [this, List.map_map, List.map_map, List.map_map]
  apply List.map_congr_left
  intro phi _
  exact radialTask_value fuel o hv hfuel [] phi r θ alpha N (by omega)

/-- The hypothesis `WorkersReturned` can be met for every object with one polynomial and 1 to 16 workers. -/
theorem workersReturned_exists (fuel n : Nat) (hn1 : 1 ≤ n) (hn : n ≤ 16) (o : PsfObj) (s : CoefState) (hr : PsfReachable o s) (z : ZernPol)
    (hv : ValidOrders z.m z.n) (hf : z.n.toNat + 1 < fuel) : ∃ even odd, WorkersReturned fuel n o z even odd := by
  have hp := hr.inv.points
  have h1 := evenAngles_length o.nPhi hp.2
  have h2 := oddAngles_length o.nPhi hp.2
  choose e he using fun i j : ℕ => sumReturned_exists fuel n hn1 z.obj hv hf (kernelDist o.kernelSize o.k o.NA o.pixelSize i j)
    (kernelTheta o.kernelSize i j) o.alpha o.nR (by omega) (evenAngles o.nPhi) (by omega)
  choose d hd using fun i j : ℕ => sumReturned_exists fuel n hn1 z.obj hv hf (kernelDist o.kernelSize o.k o.NA o.pixelSize i j)
    (kernelTheta o.kernelSize i j) o.alpha o.nR (by omega) (oddAngles o.nPhi) (by omega)
  exact ⟨e, d, fun i j _ _ => ⟨he i j, hd i j⟩⟩

/-- C53. `initialize_parallel_workers`: nothing for running or released workers or for an Airy pattern; otherwise 4 workers, or half of the number
of processors if there are fewer than 4 (none for a single one). -/
theorem initialize_workers_exact (o : PsfObj) (cpu : Nat) :
    (∀ n, o.initializeWorkers cpu (.running n) = .ok (.running n)) ∧ o.initializeWorkers cpu .released = .ok .released ∧
    (o.airy = true → o.initializeWorkers cpu .none = .ok .none) ∧
    (o.airy = false → 4 ≤ cpu → o.initializeWorkers cpu .none = .ok (.running 4)) ∧
    (o.airy = false → cpu < 4 → o.initializeWorkers cpu .none = .ok (.running (cpu / 2))) := by
  refine ⟨fun n => rfl, rfl, fun h => by simp [PsfObj.initializeWorkers, h], fun h hc => ?_, fun h hc => ?_⟩
  · simp only [PsfObj.initializeWorkers, h, Bool.false_eq_true, if_false, managerInit, workersNumber]
    simp [show ¬ (cpu : Int) < 4 by omega]
  · interval_cases cpu <;> simp [PsfObj.initializeWorkers, h, managerInit, workersNumber]

/-! ### Where the parallel calculation does not give the kernel -/

/-- C53 is false for several polynomials: the result is a kernel of 3 × 3 zeros (NaN if it is normalised), and it replaces the stored kernel. -/
theorem parallel_several_zeros (o : PsfObj) (hz : o.zernpol = none) (fuel : Nat) (w : Workers) (even odd : Nat → Nat → ℂ) (s : CoefState) :
    (o.kernelParallel fuel w even odd false s).1 = .ok (.finite (Grid.zeros 3 3)) ∧ (o.kernelParallel fuel w even odd true s).1 = .ok .nan ∧
      ∀ nrm, (o.kernelParallel fuel w even odd nrm s).2.1.kernel = Grid.zeros 3 3 ∧ (o.kernelParallel fuel w even odd nrm s).2.1.kernelSize = 3 := by
  unfold PsfObj.kernelParallel
  rw [hz]
  exact ⟨rfl, rfl, fun nrm => ⟨rfl, rfl⟩⟩

/-- C53 is false for a kernel size below 3 (as of a new object): a `TypeError`. -/
theorem parallel_small_size (o : PsfObj) (z : ZernPol) (hz : o.zernpol = some z) (h : o.kernelSize < 3) (fuel : Nat) (w : Workers)
    (even odd : Nat → Nat → ℂ) (nrm : Bool) (s : CoefState) : o.kernelParallel fuel w even odd nrm s = (.error .typeError, o, s) := by
  unfold PsfObj.kernelParallel
  rw [hz]
  simp only [if_pos h]

theorem fails_bind {β γ : Type} {x : CM β} {f : β → CM γ} {e : PyErr} (hx : Fails x e) : Fails (x >>= f) e := by
  intro s hs
  have := hx s hs
  rw [cm_bind]
  rcases hc : x s with ⟨r, s'⟩
  rw [hc] at this
  simp only at this
  subst this
  rfl

/-- C53 is false with released workers: a `TypeError`, and the stored kernel is lost. -/
theorem parallel_released_workers (o : PsfObj) (s : CoefState) (hr : PsfReachable o s) (z : ZernPol) (hz : o.zernpol = some z) (fuel : Nat)
    (hv : ValidOrders z.m z.n) (hf : z.n.toNat + 1 < fuel) (h3 : 3 ≤ o.kernelSize) (even odd : Nat → Nat → ℂ) (normalize : Bool) :
    (o.kernelParallel fuel .released even odd normalize s).1 = .error .typeError ∧
      (o.kernelParallel fuel .released even odd normalize s).2.1.kernel = Grid.zeros o.kernelSize.toNat o.kernelSize.toNat := by
  have hp := hr.inv.points
  obtain ⟨N, hN⟩ := Int.eq_ofNat_of_zero_le (by omega : 0 ≤ o.nR)
  have hpt : ∀ i j, Fails (pointParallel (singlePhase fuel z.obj o.alpha) (kernelDist o.kernelSize o.k o.NA o.pixelSize i j)
      (kernelTheta o.kernelSize i j) o.nR o.nPhi .released (even i j) (odd i j)) .typeError := by
    intro i j
    unfold pointParallel
    simp only [hN]
    have hok := singlePhase_ok fuel z.obj hv hf o.alpha
    refine Ret.bindFails (radialIntegral_ok _ _ hok _ _ 0 N (by omega)) ?_
    refine Ret.bindFails (radialIntegral_ok _ _ hok _ _ (2 * Real.pi) N (by omega)) ?_
    intro s _
    rfl
  have hfail : Fails (o.parallelLoops fuel z .released even odd normalize) .typeError := by
    unfold PsfObj.parallelLoops
    apply fails_bind
    obtain ⟨k, hk⟩ : ∃ k, o.kernelSize.toNat = k + 1 := ⟨o.kernelSize.toNat - 1, by omega⟩
    rw [hk]
    unfold fillRows fillRow
    exact fails_bind (fails_bind (hpt 0 0))
  have := hfail s hr.good
  unfold PsfObj.kernelParallel
  rw [hz]
  simp only [if_neg (by omega : ¬ o.kernelSize < 3)]
  rcases hl : o.parallelLoops fuel z .released even odd normalize s with ⟨r, s'⟩
  rw [hl] at this
  simp only at this
  subst this
  exact ⟨rfl, rfl⟩

/-- C53 is false after `deinitialize_workers` of any workers that were initialized (also if it is called twice, or if `initialize_parallel_workers` is
called after it): a `TypeError`, and the stored kernel is lost. -/
theorem parallel_after_deinitialize (o : PsfObj) (s : CoefState) (hr : PsfReachable o s) (z : ZernPol) (hz : o.zernpol = some z) (fuel : Nat)
    (hv : ValidOrders z.m z.n) (hf : z.n.toNat + 1 < fuel) (h3 : 3 ≤ o.kernelSize) (even odd : Nat → Nat → ℂ) (normalize : Bool) (cpu : Nat)
    (w w' : Workers) (hw : w ≠ .none)
    (hw' : w' = releaseWorkers w ∨ w' = releaseWorkers (releaseWorkers w) ∨ o.initializeWorkers cpu (releaseWorkers w) = .ok w') :
    (o.kernelParallel fuel w' even odd normalize s).1 = .error .typeError ∧
      (o.kernelParallel fuel w' even odd normalize s).2.1.kernel = Grid.zeros o.kernelSize.toNat o.kernelSize.toNat := by
  have e : w' = .released := by
    cases w with
    | none => exact absurd rfl hw
    | running n => rcases hw' with h | h | h <;> first | exact h | (cases h; rfl)
    | released => rcases hw' with h | h | h <;> first | exact h | (cases h; rfl)
  rw [e]
  exact parallel_released_workers o s hr z hz fuel hv hf h3 even odd normalize

theorem pointFromSums_zero (ph : Phase) (Φ : ℝ → ℝ → ℝ) (h : PhaseOk ph Φ) (r θ : ℝ) (nR nPhi : ℕ) (hR : 2 ≤ nR) (hPhi : 0 < nPhi) :
    ∃ v, Ret (pointFromSums ph r θ nR nPhi 0 0) v ∧ 0 ≤ v ∧ v ≤ 4 / (9 * (nPhi : ℝ) ^ 2) := by
  have hpi := Real.pi_pos
  have hN : (0 : ℝ) < nPhi := by exact_mod_cast hPhi
  unfold pointFromSums
  refine ⟨_, Ret.bind (radialIntegral_ok ph Φ h r θ 0 nR hR) (Ret.bind (radialIntegral_ok ph Φ h r θ (2 * Real.pi) nR hR) (ret_pure _)), by positivity, ?_⟩
  have a := trapezoid_field_le Φ r θ 0 nR (by omega)
  have b := trapezoid_field_le Φ r θ (2 * Real.pi) nR (by omega)
  set A := trapezoid nR fun p => pupilField Φ r θ p 0
  set B := trapezoid nR fun p => pupilField Φ r θ p (2 * Real.pi)
  have hAB : ‖A + B‖ ≤ 1 := (norm_add_le _ _).trans (by linarith)
  have e : ‖((2 * Real.pi / ((nPhi : ℤ) : ℝ) / 3 : ℝ) : ℂ) * (A + B + 2 * 0 + 4 * 0)‖ = 2 * Real.pi / nPhi / 3 * ‖A + B‖ := by
    rw [norm_mul, Complex.norm_real, Int.cast_natCast, Real.norm_of_nonneg (by positivity)]
    simp
  rw [e]
  have h1 : (2 * Real.pi / nPhi / 3 * ‖A + B‖) ^ 2 ≤ (2 * Real.pi / nPhi / 3) ^ 2 := by
    apply pow_le_pow_left₀ (by positivity)
    exact mul_le_of_le_one_right (by positivity) hAB
  calc _ ≤ (2 * Real.pi / nPhi / 3) ^ 2 * (1 / (Real.pi * Real.pi)) := by gcongr
    _ = _ := by field_simp; norm_num

/-- C53 is false without `initialize_parallel_workers` (no error is raised): no pixel of the kernel is greater than `4 / (9 nPhi²)`, whatever
the aberration. -/
theorem parallel_without_workers (o : PsfObj) (s : CoefState) (hr : PsfReachable o s) (z : ZernPol) (hz : o.zernpol = some z) (fuel : Nat)
    (hv : ValidOrders z.m z.n) (hf : z.n.toNat + 1 < fuel) (h3 : 3 ≤ o.kernelSize) (even odd : Nat → Nat → ℂ) :
    ∃ g, (o.kernelParallel fuel .none even odd false s).1 = .ok (.finite g) ∧
      ∀ i j : ℕ, (i : Int) < o.kernelSize → (j : Int) < o.kernelSize → g.entry i j ≤ 4 / (9 * (o.nPhi : ℝ) ^ 2) := by
  have hp := hr.inv.points
  obtain ⟨N, hN⟩ := Int.eq_ofNat_of_zero_le (by omega : 0 ≤ o.nR)
  obtain ⟨M, hM⟩ := Int.eq_ofNat_of_zero_le (by omega : 0 ≤ o.nPhi)
  choose v hv1 hv2 hv3 using fun i j : ℕ => pointFromSums_zero _ _ (singlePhase_ok fuel z.obj hv hf o.alpha)
    (kernelDist o.kernelSize o.k o.NA o.pixelSize i j) (kernelTheta o.kernelSize i j) N M (by omega) (by omega)
  have hl := loops_res fuel o z .none even odd false v o.kernelSize.toNat (by omega) (by
    intro i j _ _
    have := hv1 i j
    rw [← hN, ← hM] at this
    exact this) s hr.good
  refine ⟨_, (kernelParallel_eq fuel o z hz h3 .none even odd false s _ (hl.trans rfl)).1, fun i j hi hj => ?_⟩
  simp only
  rw [if_pos ⟨by omega, by omega⟩, hM]
  exact hv3 i j

/-! ### The stale wave number -/

theorem trapezoid_ring_lt (κ : ℝ) (N : ℕ) (hN : 2 ≤ N) (h0 : 0 < κ) (h1 : κ < 2 * Real.pi * N) :
    ‖trapezoid N fun p => pupilFieldXY (fun _ _ => 0) (-κ) 0 p 0‖ < 1 / 2 := by
  have hN' : (0 : ℝ) < N := by exact_mod_cast (by omega : 0 < N)
  have hf : ∀ p : ℝ, pupilFieldXY (fun _ _ => 0) (-κ) 0 p 0 = Complex.exp (((κ * p : ℝ) : ℂ) * Complex.I) * (p : ℂ) := by
    intro p
    unfold pupilFieldXY
    congr 2
    rw [mul_comm Complex.I]
    congr 2
    simp
    ring
  have hnorm : ∀ p : ℝ, 0 ≤ p → ‖pupilFieldXY (fun _ _ => 0) (-κ) 0 p 0‖ = p := fun p hp => norm_pupilFieldXY _ _ _ _ _ hp
  have hid := trapezoid_id N (by omega)
  unfold trapezoid at hid ⊢
  have hmem : N - 1 ∈ Finset.Ioo 0 N := by simp; omega
  rw [← Finset.add_sum_erase _ _ hmem] at hid ⊢
  beta_reduce at hid ⊢
  set q : ℝ := ((N - 1 : ℕ) : ℝ) / N with hq
  have hqpos : 0 < q := by
    have : (0 : ℝ) < ((N - 1 : ℕ) : ℝ) := by exact_mod_cast (by omega : 0 < N - 1)
    positivity
  have hq1 : 1 - q = 1 / N := by
    rw [hq, Nat.cast_sub (by omega)]
    field_simp
    simp
  have hpair : ‖pupilFieldXY (fun _ _ => 0) (-κ) 0 q 0 + pupilFieldXY (fun _ _ => 0) (-κ) 0 1 0 / 2‖ < q + 1 / 2 := by
    have hc : Real.cos (κ * (1 - q)) < 1 := by
      rcases (Real.cos_le_one (κ * (1 - q))).lt_or_eq with h | h
      · exact h
      · exfalso
        have hlt : κ * (1 - q) < 2 * Real.pi := by
          rw [hq1, mul_one_div, div_lt_iff₀ hN']
          exact h1
        have hgt : 0 < κ * (1 - q) := by rw [hq1]; positivity
        have := (Real.cos_eq_one_iff_of_lt_of_lt (by linarith [Real.pi_pos]) hlt).1 h
        linarith
    have e : pupilFieldXY (fun _ _ => 0) (-κ) 0 q 0 + pupilFieldXY (fun _ _ => 0) (-κ) 0 1 0 / 2 =
        Complex.exp (((κ * q : ℝ) : ℂ) * Complex.I) * ((q : ℂ) + Complex.exp (((κ * (1 - q) : ℝ) : ℂ) * Complex.I) / 2) := by
      rw [hf, hf]
      have : Complex.exp (((κ * 1 : ℝ) : ℂ) * Complex.I) = Complex.exp (((κ * q : ℝ) : ℂ) * Complex.I) * Complex.exp (((κ * (1 - q) : ℝ) : ℂ) * Complex.I) := by
        rw [← Complex.exp_add]
        congr 1
        push_cast
        ring
      rw [this]
      push_cast
      ring
    rw [e, norm_mul, Complex.norm_exp_ofReal_mul_I, one_mul, Complex.norm_def, Real.sqrt_lt' (by positivity), Complex.normSq_apply]
    have r : ((q : ℂ) + Complex.exp (((κ * (1 - q) : ℝ) : ℂ) * Complex.I) / 2).re = q + Real.cos (κ * (1 - q)) / 2 := by
      rw [Complex.add_re, Complex.div_ofNat_re, Complex.exp_ofReal_mul_I_re, Complex.ofReal_re]
    have i : ((q : ℂ) + Complex.exp (((κ * (1 - q) : ℝ) : ℂ) * Complex.I) / 2).im = Real.sin (κ * (1 - q)) / 2 := by
      rw [Complex.add_im, Complex.div_ofNat_im, Complex.exp_ofReal_mul_I_im, Complex.ofReal_im, zero_add]
    rw [r, i]
    have hsq := Real.sin_sq_add_cos_sq (κ * (1 - q))
    nlinarith [mul_pos hqpos (sub_pos.2 hc)]
  have hrest : ‖∑ k ∈ (Finset.Ioo 0 N).erase (N - 1), pupilFieldXY (fun _ _ => 0) (-κ) 0 ((k : ℝ) / N) 0‖ ≤ ∑ k ∈ (Finset.Ioo 0 N).erase (N - 1), (k : ℝ) / N := by
    refine (norm_sum_le _ _).trans (Finset.sum_le_sum fun k _ => ?_)
    rw [hnorm _ (by positivity)]
  have h00 : pupilFieldXY (fun _ _ => 0) (-κ) 0 0 0 = 0 := by simp [pupilFieldXY]
  rw [h00, norm_mul, zero_div, zero_add]
  have hsum : (1 / (N : ℝ)) * (q + ∑ k ∈ (Finset.Ioo 0 N).erase (N - 1), (k : ℝ) / N + 1 / 2) = 1 / 2 := by
    have := congrArg Complex.re hid
    have e2 : (1 / (N : ℂ)) * (((0 : ℝ) : ℂ) / 2 + (((q : ℝ) : ℂ) + ∑ k ∈ (Finset.Ioo 0 N).erase (N - 1), (((k : ℝ) / N : ℝ) : ℂ)) + ((1 : ℝ) : ℂ) / 2) =
        (((1 / (N : ℝ)) * (q + ∑ k ∈ (Finset.Ioo 0 N).erase (N - 1), (k : ℝ) / N + 1 / 2) : ℝ) : ℂ) := by
      push_cast
      ring
    rw [e2, Complex.ofReal_re] at this
    rw [this]
    norm_num
  have hnn : ‖(1 / (N : ℂ))‖ = 1 / N := by simp
  rw [hnn, ← hsum]
  apply mul_lt_mul_of_pos_left _ (by positivity)
  rw [show ∀ a b c : ℂ, a + b + c = (a + c) + b by intros; ring]
  refine lt_of_le_of_lt (norm_add_le _ _) ?_
  linarith

theorem ring_lt_center (κ : ℝ) (N M : ℕ) (hN : 2 ≤ N) (hM : 4 ≤ M) (h0 : 0 < κ) (h1 : κ < 2 * Real.pi * N) :
    psfXY (fun _ _ => 0) (-κ) 0 N M < psfXY (fun _ _ => 0) 0 0 N M := by
  have hpi := Real.pi_pos
  have hfr := fraction_pos M (by omega)
  have hle : ∀ φ, ‖trapezoid N fun p => pupilFieldXY (fun _ _ => 0) (-κ) 0 p φ‖ ≤ 1 / 2 := by
    intro φ
    have := trapezoid_norm_le N (fun p => pupilFieldXY (fun _ _ => 0) (-κ) 0 p φ) (fun p => p) fun p hp _ => (norm_pupilFieldXY _ _ _ _ _ hp).le
    rw [trapezoid_id N (by omega)] at this
    simpa using this
  have hlt : ‖angularRule M fun φ => trapezoid N fun p => pupilFieldXY (fun _ _ => 0) (-κ) 0 p φ‖ < 2 * Real.pi * angularFraction M * (1 / 2) := by
    apply angularRule_norm_lt M hM _ _ hle
    refine lt_of_le_of_lt (norm_add_le _ _) ?_
    rw [norm_mul]
    have a := trapezoid_ring_lt κ N hN h0 h1
    have b := hle (1 * (2 * Real.pi / M))
    have n4 : ‖(4 : ℂ)‖ = 4 := by norm_num
    rw [n4]
    linarith
  have hc : ‖angularRule M fun φ => trapezoid N fun p => pupilFieldXY (fun _ _ => 0) 0 0 p φ‖ = 2 * Real.pi * angularFraction M * (1 / 2) := by
    have ht : (fun φ => trapezoid N fun p => pupilFieldXY (fun _ _ => 0) 0 0 p φ) = fun _ => (1 / 2 : ℂ) := by
      funext φ
      rw [← trapezoid_id N (by omega)]
      congr 1
      funext p
      simp [pupilFieldXY]
    rw [ht, angularRule_const M (by omega), norm_mul, Complex.norm_real, Real.norm_of_nonneg (by positivity)]
    simp
  unfold psfXY
  rw [hc]
  gcongr

theorem ring_continuous (N M : ℕ) : Continuous fun κ : ℝ => psfXY (fun _ _ => 0) (-κ) 0 N M := by
  unfold psfXY angularRule trapezoid pupilFieldXY
  fun_prop

/-- C53 is false after a change of the wavelength. For every object with one polynomial (not the piston), in any state: if `set_physical_props` is
called with `NA = 1`, coefficient 0, a pixel size of a tenth of the old wavelength and any large enough new wavelength, then the (not normalised) kernel
of the parallel calculation is never the kernel of `calculate_psf_kernel`. -/
theorem parallel_kernel_stale (o : PsfObj) (s : CoefState) (hr : PsfReachable o s) (z : ZernPol) (hz : o.zernpol = some z)
    (hn : ¬ (z.m = 0 ∧ z.n = 0)) (env : Env) (hs : Supported env (some false) z) :
    ∃ W, ∀ wl, W ≤ wl → ∃ o', o.setPhysicalProps 1 wl (.num 0) (o.wavelength / 10) = (.ok (), o') ∧
      ∀ s', PsfReachable o' s' → ∀ n even odd, WorkersReturned env.fuel n o' z even odd → ∀ suppress,
        ¬ ∃ g, (o'.kernelParallel env.fuel (.running n) even odd false s').1 = .ok (.finite g) ∧
          (o'.calculate env suppress false (some false) s').1 = .ok g := by
  have hs' := hs
  unfold Supported at hs'
  rw [if_neg (by simp [Env.accelerate])] at hs'
  have hv : ValidOrders z.m z.n := hs'.1
  have hpi := Real.pi_pos
  have hp := hr.inv.points
  have hw0 := hr.inv.wavelength
  obtain ⟨N, hN⟩ := Int.eq_ofNat_of_zero_le (by omega : 0 ≤ o.nR)
  obtain ⟨M, hM⟩ := Int.eq_ofNat_of_zero_le (by omega : 0 ≤ o.nPhi)
  have hN2 : (2 : ℝ) ≤ N := by exact_mod_cast (by omega : 2 ≤ N)
  have hlt := ring_lt_center (2 * Real.pi / 10) N M (by omega) (by omega) (by positivity) (by nlinarith)
  have hcont := (ring_continuous N M).tendsto 0
  simp only [neg_zero] at hcont
  obtain ⟨δ, hδ, hball⟩ := Metric.eventually_nhds_iff.1 (hcont.eventually (lt_mem_nhds hlt))
  refine ⟨max o.wavelength (2 * Real.pi * o.wavelength / (10 * δ) + 1), fun wl hwl => ?_⟩
  have hwl1 := (le_max_left _ _).trans hwl
  have hwl2 := (le_max_right _ _).trans hwl
  have hwl0 : 0 < wl := lt_of_lt_of_le hw0 hwl1
  have hphys : PhysicalOk 1 wl (o.wavelength / 10) := ⟨by norm_num, by norm_num, hwl0, by positivity, by linarith⟩
  obtain ⟨S, _, e⟩ := setPhysical_num o z hz hv 1 wl (o.wavelength / 10) 0 hphys
  refine ⟨_, e, ?_⟩
  have hk := setPhysical_k o 1 wl _ _ _ e
  generalize ho' : ({ physBase o 1 wl (o.wavelength / 10) with expansionCoeff := 0, alpha := 0 / wl, kernelSize := S, propsSet := true } : PsfObj) = o' at *
  intro s' hr' n even odd hwr suppress
  rintro ⟨g, hg1, hg2⟩
  have hz' : o'.zernpol = some z := by rw [← ho']; exact hz
  rcases lt_or_ge o'.kernelSize 3 with h3 | h3
  · rw [parallel_small_size o' z hz' h3] at hg1
    cases hg1
  obtain ⟨g', S', hS', k1, _, k3, k4⟩ := parallel_kernel_exact o' s' hr' z hz' env.fuel hs'.1 hs'.2 h3 n even odd hwr false
  rw [k1] at hg1
  injection hg1 with hg1
  injection hg1 with hg1
  subst hg1
  have hwl' : o'.wavelength = wl := by rw [← ho']; rfl
  have hNA' : o'.NA = 1 := by rw [← ho']; rfl
  have hpx' : o'.pixelSize = o.wavelength / 10 := by rw [← ho']; rfl
  have hx' : o'.expansionCoeff = 0 := by rw [← ho']
  have ha' : o'.alpha = 0 := by rw [← ho']; simp
  have hnR' : o'.nR = N := by rw [← ho']; exact hN
  have hnP' : o'.nPhi = M := by rw [← ho']; exact hM
  obtain ⟨g2, e2, hg2'⟩ := pureKernel_of S' (by omega)
    (pixelPsf (fun p φ => o'.expansionCoeff / o'.wavelength * zernike z.m z.n p φ) (2 * Real.pi / o'.wavelength * o'.NA * o'.pixelSize) S'
      o'.nR.toNat o'.nPhi.toNat) false
  have c := (calculate_plain o' s' hr' z hz' hn (by rw [hNA']; norm_num) env hs h3 (by rw [← ho']) false suppress S' hS' g2 e2).1
  rw [c] at hg2
  injection hg2 with hg2
  subst hg2
  unfold KernelOf at k4 hg2'
  simp only [Bool.false_eq_true, if_false] at k4 hg2'
  have hodd : S' % 2 = 1 := by have := hr'.inv.size; omega
  obtain ⟨c, rfl⟩ : ∃ c, S' = 2 * c + 1 := ⟨S' / 2, by omega⟩
  have hc1 : 1 ≤ c := by omega
  have q1 := k4.2.2 c (c + 1) (by omega) (by omega)
  have q2 := hg2'.2.2 c (c + 1) (by omega) (by omega)
  rw [q1] at q2
  unfold pixelPsf at q2
  rw [hk, hwl', hNA', hpx', hx', ha', hnR', hnP', Int.toNat_natCast, Int.toNat_natCast] at q2
  have x1 : 2 * Real.pi / o.wavelength * 1 * (o.wavelength / 10) * ((((2 * c + 1 : ℕ) : ℝ) - 1) / 2 - ((c + 1 : ℕ) : ℝ)) = -(2 * Real.pi / 10) := by
    push_cast; field_simp; ring
  have x2 : 2 * Real.pi / wl * 1 * (o.wavelength / 10) * ((((2 * c + 1 : ℕ) : ℝ) - 1) / 2 - ((c + 1 : ℕ) : ℝ)) = -(2 * Real.pi * o.wavelength / (10 * wl)) := by
    push_cast; field_simp; ring
  have y : ∀ a : ℝ, a * ((((2 * c + 1 : ℕ) : ℝ) - 1) / 2 - (c : ℝ)) = 0 := by intro a; push_cast; ring
  rw [x1, x2, y, y] at q2
  simp only [zero_mul, zero_div] at q2
  have := hball (y := 2 * Real.pi * o.wavelength / (10 * wl)) (by
    rw [dist_zero_right, Real.norm_of_nonneg (by positivity), div_lt_iff₀ (by positivity)]
    have : 2 * Real.pi * o.wavelength / (10 * δ) < wl := by linarith
    rw [div_lt_iff₀ (by positivity)] at this
    linarith)
  linarith

/-- C53 is false for a second object in the same program: after the workers of one were released, `compute` of the workers of another one never
returns, under no interleaving. -/
theorem parallel_second_object_never_returns (fuel : Nat) (s : CoefState) (n₁ n₂ : Nat) (hn : 1 ≤ n₁) (params : List Item) (acts : List Act) :
    (runSchedule (computeSetup [⟨radialTask fuel s, n₁, true⟩, ⟨radialTask fuel s, n₂, false⟩] params)
      (computeStart [⟨radialTask fuel s, n₁, true⟩, ⟨radialTask fuel s, n₂, false⟩] params) acts).pc ≠ .done :=
  second_manager_never_returns _ ⟨radialTask fuel s, n₁, true⟩ (by simp) rfl hn params acts

theorem size_at_least_three (m n : Int) (hv : ValidOrders m n) (h0 : ¬ (m = 0 ∧ n = 0)) (he : n - |m| ≤ (n + 1) / 2) (px alpha wl NA : ℝ) (hpx : 0 < px)
    (hwl : 0 ≤ wl) (S : Int) (h : getKernelSize m n px alpha wl NA = .ok S) : 3 ≤ S := by
  have h1 := hv.1
  have h2 := hv.2.1
  unfold getKernelSize sizeMultiplier at h
  rw [if_neg h0, if_neg (by omega), if_neg (by omega)] at h
  simp only [if_pos he] at h
  have key : ∀ (x : ℝ) (y : Int), 0 ≤ x → 1 ≤ y → (pure (if (rint (x * wl / px) + 1 + y) % 2 = 0 then rint (x * wl / px) + 1 + y + 1
      else rint (x * wl / px) + 1 + y) : Res Int) = .ok S → 3 ≤ S := by
    intro x y hx hy hS
    have := rint_nonneg (show 0 ≤ x * wl / px by positivity)
    injection hS with hS
    split_ifs at hS <;> omega
  have hr := rint_nonneg (Real.sqrt_nonneg ((n + |m| : ℤ) : ℝ))
  refine key _ _ ?_ ?_ h
  · split_ifs <;> positivity
  · split_ifs <;> omega

/-- The hypotheses of `parallel_agrees_after_two_calls` are met: the tilt, two calls, four workers. -/
example (env : Env) (hf : 2 < env.fuel) : ∃ o o₁ o₂ s z even odd, PsfReachable o s ∧ PsfReachable o₂ s ∧ o.zernpol = some z ∧
    ¬ (z.m = 0 ∧ z.n = 0) ∧ Supported env (some false) z ∧ PhysicalOk 0.95 0.6 0.15 ∧ o.setPhysicalProps 0.95 0.6 (.num 0.5) 0.15 = (.ok (), o₁) ∧
    o₁.setPhysicalProps 0.95 0.6 (.num 0.25) 0.15 = (.ok (), o₂) ∧ 3 ≤ o₂.kernelSize ∧
    o₂.initializeWorkers 8 .none = .ok (.running 4) ∧ WorkersReturned env.fuel 4 o₂ z even odd := by
  let z : ZernPol := ⟨-1, 1, 1, 3, .int 3⟩
  obtain ⟨o, ho⟩ : ∃ o, psfInit (.pol z) = .ok o := ⟨_, rfl⟩
  have hr : PsfReachable o (afterCalls []) := ⟨.pol z, o, [], [], ho, rfl⟩
  have ho' : o = { psfDefault with zernpol := some z, airy := z.isPiston } := by unfold psfInit at ho; exact (Except.ok.inj ho).symm
  have hz : o.zernpol = some z := by rw [ho']
  have hv : ValidOrders z.m z.n := by decide
  have hp : PhysicalOk 0.95 0.6 0.15 := by unfold PhysicalOk; norm_num
  obtain ⟨S₁, _, e₁⟩ := setPhysical_num o z hz hv 0.95 0.6 0.15 0.5 hp
  have hr₁ := hr.step (.setPhysicalProps 0.95 0.6 (.num 0.5) 0.15)
  simp only [PsfCall.run, e₁] at hr₁
  generalize ho₁ : ({ physBase o 0.95 0.6 0.15 with expansionCoeff := 0.5, alpha := 0.5 / 0.6, kernelSize := S₁, propsSet := true } : PsfObj) = o₁ at *
  obtain ⟨S₂, hS₂, e₂⟩ := setPhysical_num o₁ z (by rw [← ho₁]; exact hz) hv 0.95 0.6 0.15 0.25 hp
  have hr₂ := hr₁.step (.setPhysicalProps 0.95 0.6 (.num 0.25) 0.15)
  simp only [PsfCall.run, e₂] at hr₂
  have h3 := size_at_least_three z.m z.n hv (by decide) (by decide) _ _ _ _ (by norm_num) (by norm_num) _ hS₂
  have hair : o.airy = false := by rw [ho']; rfl
  obtain ⟨even, odd, hw⟩ := workersReturned_exists env.fuel 4 (by omega) (by omega) _ _ hr₂ z hv (by simpa [z] using hf)
  refine ⟨o, o₁, _, afterCalls [], z, even, odd, hr, hr₂, hz, by decide, ?_, hp, e₁, e₂, h3,
    (initialize_workers_exact _ 8).2.2.2.1 (by rw [← ho₁]; exact hair) (by omega), hw⟩
  refine ⟨hv, ?_⟩
  rw [if_neg (by simp [Env.accelerate])]
  simpa [z] using hf

end Verif.Props
