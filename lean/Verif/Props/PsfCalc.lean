import Verif.Props.PsfObj

/-!
# C47: the kernel calculated by a `ZernPSF` object is the PSF for its current properties
# C36: cropping of the kernel
-/

namespace Verif.Props
open Verif.Model Verif.Spec Verif.Proofs

/-- The calculation is possible: for the accelerated one the orders are limited to 10 (and those of the largest azimuthal orders to 7), for the
plain one the recursion limit of Python is large enough. -/
def Supported (env : Env) (accelerated : Option Bool) (z : ZernPol) : Prop :=
  ValidOrders z.m z.n ∧ if env.accelerate accelerated then z.n ≤ 10 ∧ ¬ (8 ≤ z.n ∧ |z.m| = z.n) else z.n.toNat + 1 < env.fuel

/-- The kernel size used for the calculation: 19 if no properties were set and the warning about it is not suppressed. -/
def usedSize (o : PsfObj) (suppress : Bool) : Int := if o.propsSet || suppress then o.kernelSize else 19

theorem calcStart_size (o : PsfObj) (sup : Bool) : (calcStart o sup).kernelSize = usedSize o sup := by
  unfold calcStart usedSize
  cases o.propsSet <;> cases sup <;> simp

theorem calcStart_with (o : PsfObj) (sup : Bool) : calcStart o sup = { o with kernelSize := usedSize o sup } := by
  obtain ⟨kernel, size, NA, wl, co, z, ps, set, ny, px, al, ai, nr, np, k, cs, as⟩ := o
  unfold calcStart usedSize
  cases set <;> cases sup <;> simp

theorem single_kernel (o : PsfObj) (s : CoefState) (hr : PsfReachable o s) (z : ZernPol) (hz : o.zernpol = some z)
    (hn : ¬ (z.m = 0 ∧ z.n = 0)) (hNA : 0 < o.NA) (env : Env) (sup nrm : Bool) (acc : Option Bool) (hs : Supported env acc z) :
    ∃ (g : Grid) (S : ℕ), S % 2 = 1 ∧ CalculatedSize env (calcStart o sup) acc S ∧ (o.calculate env sup nrm acc s).1 = .ok g ∧
      (o.calculate env sup nrm acc s).2.1 = { o with kernelSize := usedSize o sup, kernel := g } ∧
      KernelOf nrm S (pixelPsf (fun p φ => o.expansionCoeff / o.wavelength * zernike z.m z.n p φ)
        (opticalScale o.wavelength o.NA o.pixelSize) S o.nR.toNat o.nPhi.toNat) g := by
  have hi := calcStart_inv o hr.inv sup
  have hcs := calcStart_with o sup
  have hai := hr.airy hz hn
  have hz' : (calcStart o sup).zernpol = some z := by rw [hcs]; exact hz
  have hq : PointsOk ((calcStart o sup).params nrm) := ⟨by have := hi.points.1; simp only [PsfObj.params]; omega, by have := hi.points.2; simp only [PsfObj.params]; omega⟩
  have hopt : OpticsOk ((calcStart o sup).params nrm) := ⟨hi.wavelength, by rw [hcs]; exact hNA⟩
  have hodd : OddSize ((calcStart o sup).params nrm).kernelSize (calcStart o sup).kernelSize.toNat := by
    have := hi.size
    unfold OddSize
    simp only [PsfObj.params]
    omega
  have fin : ∀ (x : CM Grid) (S : ℕ), S % 2 = 1 → CalculatedSize env (calcStart o sup) acc S →
      (calcStart o sup).kernelCall env nrm acc = some x →
      (x s).1 = idealKernel (phaseOne z.obj o.expansionCoeff o.wavelength) ((calcStart o sup).params nrm) S → ∃ (g : Grid) (S : ℕ), S % 2 = 1 ∧ CalculatedSize env (calcStart o sup) acc S ∧ (o.calculate env sup nrm acc s).1 = .ok g ∧
      (o.calculate env sup nrm acc s).2.1 = { o with kernelSize := usedSize o sup, kernel := g } ∧
      KernelOf nrm S (pixelPsf (fun p φ => o.expansionCoeff / o.wavelength * zernike z.m z.n p φ)
        (opticalScale o.wavelength o.NA o.pixelSize) S o.nR.toNat o.nPhi.toNat) g := by
    intro x S h1 h2 h3 h4
    obtain ⟨g, hg, hk⟩ := pureKernel_of S (by omega) (pixelPsf (phaseOne z.obj o.expansionCoeff o.wavelength)
      (opticalScale o.wavelength o.NA o.pixelSize) S o.nR.toNat o.nPhi.toNat) nrm
    have h5 : idealKernel (phaseOne z.obj o.expansionCoeff o.wavelength) ((calcStart o sup).params nrm) S = .ok g := by
      rw [hcs]; exact hg
    have h6 := calculate_eq env o sup nrm acc s x h3 g (h4.trans h5)
    refine ⟨g, S, h1, h2, h6.1, ?_, hk⟩
    rw [h6.2, hcs]
  have hcall : ∀ b, env.accelerate acc = b → (calcStart o sup).kernelCall env nrm acc =
      some (if b then getPsfKernelComp z.obj o.expansionCoeff ((calcStart o sup).params nrm)
      else getPsfKernel env.fuel env.j1 z.obj o.expansionCoeff ((calcStart o sup).params nrm) false) := by
    intro b hb
    unfold PsfObj.kernelCall
    rw [hz']
    have e1 : (calcStart o sup).airy = false := by rw [hcs]; exact hai
    have e2 : (calcStart o sup).expansionCoeff = o.expansionCoeff := by rw [hcs]
    simp only [hb, e1, e2]
  have hw : ((calcStart o sup).params nrm).wavelength = o.wavelength := by rw [hcs]; rfl
  cases hacc : env.accelerate acc with
  | true =>
    unfold Supported at hs
    rw [if_pos hacc] at hs
    refine fin _ _ hodd.1 (Or.inl ⟨?_, Or.inr (Or.inr hacc)⟩) (hcall true hacc) ?_
    · have := hi.size.2; omega
    · rw [if_pos rfl, comp_res s hr.good z.obj ⟨hs.1, hs.2.1, by have := hs.2.2; simp only [ZernPol.obj]; omega⟩ o.expansionCoeff _ hq hopt _ hodd, hw]
  | false =>
    unfold Supported at hs
    rw [if_neg (by simp [hacc])] at hs
    by_cases h3 : 3 ≤ (calcStart o sup).kernelSize
    · refine fin _ _ hodd.1 (Or.inl ⟨?_, Or.inl h3⟩) (hcall false hacc) ?_
      · have := hi.size.2; omega
      · rw [if_neg (by simp), single_res s hr.good env.fuel env.j1 z.obj hs.1 hs.2 o.expansionCoeff _ hq hopt h3 _ hodd, hw]
    · obtain ⟨S, k1, k2, k3⟩ := single_res_auto s hr.good env.fuel env.j1 z.obj hs.1 hs.2 o.expansionCoeff _ hq hopt (by simpa [PsfObj.params] using h3) hi.pixel
      refine fin _ S k1 (Or.inr ⟨z, hz', hacc, by omega, ?_⟩) (hcall false hacc) ?_
      · have e2 : (calcStart o sup).expansionCoeff = o.expansionCoeff := by rw [hcs]
        rw [e2]; exact k2
      · rw [if_neg (by simp), k3, hw]

/-- C35. Without `numba` the argument `accelerated` has no effect; with it, the default is the accelerated calculation. -/
theorem accelerated_needs_numba (env : Env) (o : PsfObj) (suppress normalized : Bool) (s : CoefState) :
    (env.numba = false → ∀ a b, o.calculate env suppress normalized a s = o.calculate env suppress normalized b s) ∧
    o.calculate env suppress normalized none s = o.calculate env suppress normalized (some env.numba) s := by
  have key : ∀ a b, env.accelerate a = env.accelerate b → o.calculate env suppress normalized a s = o.calculate env suppress normalized b s := by
    intro a b h
    have : ∀ o : PsfObj, o.kernelCall env normalized a = o.kernelCall env normalized b := by
      intro o; unfold PsfObj.kernelCall; rw [h]
    unfold PsfObj.calculate
    simp only [this]
  exact ⟨fun h a b => key a b (by simp [Env.accelerate, h]), key _ _ (by simp [Env.accelerate])⟩

/-- C47. For an object with one polynomial (not the piston) in any state reached by any calls, the calculated kernel consists of the values of
the PSF for the current wavelength, aperture, pixel size, coefficient and numbers of points, and it is stored. This holds for the plain and the
accelerated calculation. -/
theorem calculated_kernel_single (o : PsfObj) (s : CoefState) (hr : PsfReachable o s) (z : ZernPol) (hz : o.zernpol = some z)
    (hn : ¬ (z.m = 0 ∧ z.n = 0)) (hNA : 0 < o.NA) (env : Env) (suppress normalized : Bool) (accelerated : Option Bool)
    (hs : Supported env accelerated z) (hsize : 3 ≤ usedSize o suppress ∨ env.accelerate accelerated = true) :
    ∃ (g : Grid) (S : ℕ), (S : Int) = usedSize o suppress ∧ (o.calculate env suppress normalized accelerated s).1 = .ok g ∧
      (o.calculate env suppress normalized accelerated s).2.1 = { o with kernelSize := usedSize o suppress, kernel := g } ∧
      KernelOf normalized S (pixelPsf (fun p φ => o.expansionCoeff / o.wavelength * zernike z.m z.n p φ)
        (opticalScale o.wavelength o.NA o.pixelSize) S o.nR.toNat o.nPhi.toNat) g := by
  obtain ⟨g, S, h1, h2, h3, h4, h5⟩ := single_kernel o s hr z hz hn hNA env suppress normalized accelerated hs
  refine ⟨g, S, ?_, h3, h4, h5⟩
  rw [← calcStart_size]
  rcases h2 with ⟨h2, _⟩ | ⟨_, _, h6, h7, _⟩
  · exact h2
  · rw [calcStart_size] at h7
    rcases hsize with h | h
    · omega
    · rw [h] at h6; cases h6

/-- C47. The same for several polynomials, once coefficients were set. -/
theorem calculated_kernel_several (o : PsfObj) (s : CoefState) (hr : PsfReachable o s) (hz : o.zernpol = none) (as : List ℝ)
    (ha : o.amplitudes = some as) (hNA : 0 < o.NA) (env : Env) (suppress normalized : Bool) (accelerated : Option Bool)
    (hs : ∀ z ∈ o.polynomials, Supported env accelerated z) :
    ∃ (g : Grid) (S : ℕ), (S : Int) = usedSize o suppress ∧ (o.calculate env suppress normalized accelerated s).1 = .ok g ∧
      (o.calculate env suppress normalized accelerated s).2.1 = { o with kernelSize := usedSize o suppress, kernel := g } ∧
      KernelOf normalized S (pixelPsf (combination as (o.polynomials.map fun z => (z.m, z.n)))
        (opticalScale o.wavelength o.NA o.pixelSize) S o.nR.toNat o.nPhi.toNat) g := by
  have hi := calcStart_inv o hr.inv suppress
  have hcs := calcStart_with o suppress
  have hlen := hr.inv.wf.2 as ha
  have h2 := hr.several hz
  obtain ⟨S, hS⟩ : ∃ S : ℕ, (S : Int) = usedSize o suppress := ⟨(usedSize o suppress).toNat, by
    have := hi.size.2; rw [calcStart_size] at this; omega⟩
  have hodd : S % 2 = 1 := by have := hi.size.1; rw [calcStart_size] at this; omega
  have hq : PointsOk ((calcStart o suppress).params normalized) := ⟨by have := hi.points.1; simp only [PsfObj.params]; omega, by have := hi.points.2; simp only [PsfObj.params]; omega⟩
  have hopt : OpticsOk ((calcStart o suppress).params normalized) := ⟨hi.wavelength, by rw [hcs]; exact hNA⟩
  have hos : OddSize ((calcStart o suppress).params normalized).kernelSize S := ⟨hodd, Or.inl (by rw [hS, ← calcStart_size]; rfl)⟩
  have hne : as.zip (o.polynomials.map ZernPol.obj) ≠ [] := zip_ne_nil (by simpa using hlen) (by
    intro h; rw [List.map_eq_nil_iff] at h; rw [h] at h2; simp at h2)
  obtain ⟨x, hx, hres⟩ : ∃ x, (calcStart o suppress).kernelCall env normalized accelerated = some x ∧
      (x s).1 = idealKernel (termSum (as.zip (o.polynomials.map ZernPol.obj))) ((calcStart o suppress).params normalized) S := by
    refine ⟨if env.accelerate accelerated then getPsfKernelCompPols (as.zip (o.polynomials.map ZernPol.obj)) ((calcStart o suppress).params normalized)
      else getPsfKernelZerns env.fuel (as.zip (o.polynomials.map ZernPol.obj)) ((calcStart o suppress).params normalized), ?_, ?_⟩
    · rw [hcs]
      unfold PsfObj.kernelCall
      simp only [hz, ha]
      rcases hp : o.polynomials with _ | ⟨p, t⟩
      · rw [hp] at h2; simp at h2
      · rw [hp] at hlen
        simp only [hlen, lt_irrefl, if_false]
    · cases hacc : env.accelerate accelerated with
      | true =>
        rw [if_pos rfl]
        refine comp_pols_res s hr.good _ hne ?_ _ hq hopt S hos
        intro y hy
        obtain ⟨z, hz, hzy⟩ := List.mem_map.1 (List.of_mem_zip hy).2
        have := hs z hz
        unfold Supported at this
        rw [if_pos hacc] at this
        rw [← hzy]
        exact ⟨this.1, this.2.1, by have := this.2.2; simp only [ZernPol.obj]; omega⟩
      | false =>
        rw [if_neg (by simp)]
        refine several_res s hr.good env.fuel _ hne ?_ _ hq hopt S hos
        intro y hy
        obtain ⟨z, hz, hzy⟩ := List.mem_map.1 (List.of_mem_zip hy).2
        have := hs z hz
        unfold Supported at this
        rw [if_neg (by simp [hacc])] at this
        rw [← hzy]
        exact this
  obtain ⟨g, hg, hk⟩ := pureKernel_of S (by omega) (pixelPsf (termSum (as.zip (o.polynomials.map ZernPol.obj)))
      (opticalScale o.wavelength o.NA o.pixelSize) S o.nR.toNat o.nPhi.toNat) normalized
  have h5 : idealKernel (termSum (as.zip (o.polynomials.map ZernPol.obj))) ((calcStart o suppress).params normalized) S = .ok g := by
    rw [hcs]; exact hg
  have h6 := calculate_eq env o suppress normalized accelerated s x hx g (hres.trans h5)
  refine ⟨g, S, hS, h6.1, by rw [h6.2, hcs], ?_⟩
  rw [termSum_eq] at hk
  have e : ordersOf (o.polynomials.map ZernPol.obj) = o.polynomials.map fun z => (z.m, z.n) := by
    simp [ordersOf, ZernPol.obj, Function.comp_def]
  rw [e] at hk
  exact hk

/-- C47. Setting the properties and then calculating gives the PSF with exactly these properties (one polynomial, not the piston), whatever
happened to the object before; the size of the kernel is the estimated one. -/
theorem set_then_calculate_single (o : PsfObj) (s : CoefState) (hr : PsfReachable o s) (z : ZernPol) (hz : o.zernpol = some z)
    (hn : ¬ (z.m = 0 ∧ z.n = 0)) (NA wl px x : ℝ) (hp : PhysicalOk NA wl px) (env : Env) (suppress normalized : Bool) (accelerated : Option Bool)
    (hs : Supported env accelerated z) :
    ∃ (o' : PsfObj) (g : Grid) (S : ℕ), o.setPhysicalProps NA wl (.num x) px = (.ok (), o') ∧ (S : Int) = o'.kernelSize ∧
      (o'.calculate env suppress normalized accelerated s).1 = .ok g ∧
      (o'.calculate env suppress normalized accelerated s).2.1 = { o' with kernel := g } ∧
      KernelOf normalized S (pixelPsf (fun p φ => x / wl * zernike z.m z.n p φ) (opticalScale wl NA px) S o.nR.toNat o.nPhi.toNat) g := by
  have hv : ∀ w ∈ psfPols o, ValidOrders w.m w.n := by intro w hw; simp [psfPols, hz] at hw; rw [hw]; exact hs.1
  obtain ⟨o', e, hst⟩ := (set_physical_props_exact_partial o s hr hv NA wl px (.num x)).1 ⟨hp, by simp [CoeffFits, psfPols, hz]⟩
  have hr' : PsfReachable o' s := by
    have := hr.step (.setPhysicalProps NA wl (.num x) px)
    simp only [PsfCall.run, e] at this
    exact this
  have hz' : o'.zernpol = some z := hst.same.2.1.trans hz
  have hx := hst.single x (by rw [hz]; simp) rfl
  obtain ⟨g, S, h1, h2, h3, h4, h5⟩ := single_kernel o' s hr' z hz' hn (by rw [hst.NA]; exact hp.1) env suppress normalized accelerated hs
  have hcs := calculated_size_after_set o s hr hv NA wl px (.num x) o' e env suppress normalized accelerated g h3
  have hu : usedSize o' suppress = o'.kernelSize := by simp [usedSize, hst.propsSet]
  rw [hu] at h4
  refine ⟨o', g, S, e, ?_, h3, h4, ?_⟩
  · have hrows : g.rows = S := by
      unfold KernelOf at h5
      split_ifs at h5
      · obtain ⟨_, _, _, _, _, hk2⟩ := h5; exact hk2.1
      · exact h5.1
    have := hcs.2.2.1
    rw [hcs.1] at this
    rw [← hrows]; exact this
  · rw [hx.1, hst.wavelength, hst.NA, hst.pixelSize, hst.same.2.2.2.2.1, hst.same.2.2.2.2.2] at h5
    exact h5

/-- C47. The same for several polynomials. -/
theorem set_then_calculate_several (o : PsfObj) (s : CoefState) (hr : PsfReachable o s) (hz : o.zernpol = none) (NA wl px : ℝ) (cs : List ℝ)
    (hl : cs.length = o.polynomials.length) (hp : PhysicalOk NA wl px) (env : Env) (suppress normalized : Bool) (accelerated : Option Bool)
    (hs : ∀ z ∈ o.polynomials, Supported env accelerated z) :
    ∃ (o' : PsfObj) (g : Grid) (S : ℕ), o.setPhysicalProps NA wl (.seq cs) px = (.ok (), o') ∧ (S : Int) = o'.kernelSize ∧
      (o'.calculate env suppress normalized accelerated s).1 = .ok g ∧
      (o'.calculate env suppress normalized accelerated s).2.1 = { o' with kernel := g } ∧
      KernelOf normalized S (pixelPsf (combination (cs.map (· / wl)) (o.polynomials.map fun z => (z.m, z.n)))
        (opticalScale wl NA px) S o.nR.toNat o.nPhi.toNat) g := by
  have hv : ∀ w ∈ psfPols o, ValidOrders w.m w.n := by intro w hw; simp [psfPols, hz] at hw; exact (hs w hw).1
  obtain ⟨o', e, hst⟩ := (set_physical_props_exact_partial o s hr hv NA wl px (.seq cs)).1 ⟨hp, by simp [CoeffFits, psfPols, hz, hl]⟩
  have hr' : PsfReachable o' s := by
    have := hr.step (.setPhysicalProps NA wl (.seq cs) px)
    simp only [PsfCall.run, e] at this
    exact this
  have hpl := hst.same.2.2.1
  obtain ⟨g, S, h1, h3, h4, h5⟩ := calculated_kernel_several o' s hr' (hst.same.2.1.trans hz) _ (hst.several hz).2 (by rw [hst.NA]; exact hp.1)
    env suppress normalized accelerated (by rw [hpl]; exact hs)
  have hu : usedSize o' suppress = o'.kernelSize := by simp [usedSize, hst.propsSet]
  rw [hu] at h1 h4
  refine ⟨o', g, S, e, h1, h3, h4, ?_⟩
  rw [hst.wavelength, hst.NA, hst.pixelSize, hst.same.2.2.2.2.1, hst.same.2.2.2.2.2, hpl] at h5
  exact h5

/-- The hypotheses are met: a new object with the polynomial `(-1, 3)` and the properties of the README. -/
example (env : Env) (h : env.numba = false) (hf : 4 < env.fuel) : ∃ o s z, PsfReachable o s ∧ o.zernpol = some z ∧ ¬ (z.m = 0 ∧ z.n = 0) ∧
    PhysicalOk 0.95 0.635 (0.63 / 5) ∧ Supported env none z := by
  refine ⟨_, afterCalls [], ⟨-1, 3, 7, 7, .int 7⟩, ⟨.pol ⟨-1, 3, 7, 7, .int 7⟩, _, [], [], rfl, rfl⟩, rfl, by decide, ?_, ?_⟩
  · unfold PhysicalOk; norm_num
  · refine ⟨by decide, ?_⟩
    rw [if_neg (by simp [Env.accelerate, h])]
    simpa using hf

/-! ### C36: cropping -/

theorem crop_max_inner (g : Grid) (n : Nat) (hnn : ∀ i j, 0 ≤ g.entry i j) (part top : ℝ) (hp : part < 1 / 2) (t : Nat) (hm : IsMax g n top)
    (hc : CropBy g n part top t) : IsMax (g.inner t) (n - 2 * t) top ∧ CropBy (g.inner t) (n - 2 * t) part top 0 := by
  have hne := hc.nonempty
  obtain ⟨⟨a, b, ha, hb, hab⟩, hle⟩ := hm
  have h0 : 0 ≤ top := hab ▸ hnn a b
  have hin : ¬ (a < t ∨ n - t ≤ a ∨ b < t ∨ n - t ≤ b) := by
    intro h
    have := hc.removed a b ha hb h
    rw [hab] at this
    nlinarith
  push Not at hin
  refine ⟨⟨⟨a - t, b - t, by omega, by omega, ?_⟩, ?_⟩, ⟨by omega, ?_, ?_⟩⟩
  · simp only [Grid.inner]
    rw [show a - t + t = a by omega, show b - t + t = b by omega]; exact hab
  · intro i j hi hj; exact hle _ _ (by omega) (by omega)
  · intro i j hi hj h; omega
  · obtain ⟨i, j, h1, h2, h3, h4, h5, h6⟩ := hc.border
    refine ⟨i - t, j - t, by omega, by omega, by omega, by omega, by omega, ?_⟩
    simp only [Grid.inner]
    rw [show i - t + t = i by omega, show j - t + t = j by omega]; exact h6

theorem isMax_unique (g : Grid) (n : Nat) (a b : ℝ) (h : IsMax g n a) (h' : IsMax g n b) : a = b := by
  obtain ⟨⟨i, j, hi, hj, e⟩, hl⟩ := h
  obtain ⟨⟨i', j', hi', hj', e'⟩, hl'⟩ := h'
  exact le_antisymm (e ▸ hl' i j hi hj) (e' ▸ hl i' j' hi' hj')

/-- C36. For an object in any state with a kernel size above 3, and a part in `(0, 0.5)`: cropping succeeds (so the loop terminates); it
removes the same number `t` of lines on the four sides, so that everything removed is below `part` of the maximum, and the border of the rest
reaches it (`t` is unique); a second call changes nothing. -/
theorem crop_kernel_exact (o : PsfObj) (s : CoefState) (hr : PsfReachable o s) (part : ℝ) (hp : 0 < part) (hp' : part < 1 / 2) (hs : 3 < o.kernelSize) :
    ∃ o' top t, o.crop part = (.ok (), o') ∧ IsMax o.kernel o.kernel.rows top ∧ CropBy o.kernel o.kernel.rows part top t ∧
      (∀ t', CropBy o.kernel o.kernel.rows part top t' → t' = t) ∧ IsInner o.kernel o.kernel.rows t o'.kernel ∧
      (0 < t → o'.kernelSize = (o'.kernel.rows : Int)) ∧ (t = 0 → o' = o) ∧ o'.crop part = (.ok (), o') := by
  have hi := hr.inv
  have hodd := hi.odd
  have hrc := hi.rows_cols
  obtain ⟨top, t, h1, h2, h3⟩ := crop_spec o o.kernel.rows rfl hrc.symm (by omega) (fun i j _ _ => hi.nn i j) hs part hp hp'
  have hun : ∀ t', CropBy o.kernel o.kernel.rows part top t' → t' = t := fun t' h => cropBy_unique _ _ _ _ _ _ h h2
  by_cases ht : t = 0
  · rw [if_pos ht] at h3
    refine ⟨o, top, t, h3, h1, h2, hun, ?_, by omega, fun _ => rfl, h3⟩
    subst ht
    exact ⟨by omega, by omega, fun i j => rfl⟩
  · rw [if_neg ht] at h3
    refine ⟨_, top, t, h3, h1, h2, hun, ⟨rfl, ?_, fun i j => rfl⟩, fun _ => rfl, fun h => absurd h ht, ?_⟩
    · simp only [Grid.inner]; omega
    · generalize ho' : ({ o with kernel := o.kernel.inner t, kernelSize := ((o.kernel.rows - 2 * t : Nat) : Int) } : PsfObj) = o'
      have hk : o'.kernel = o.kernel.inner t := by rw [← ho']
      have hne := h2.nonempty
      have hrows : o'.kernel.rows = o.kernel.rows - 2 * t := by rw [hk]; rfl
      have hcols : o'.kernel.cols = o.kernel.rows - 2 * t := by rw [hk]; simp only [Grid.inner]; omega
      by_cases hs' : 3 < o'.kernelSize
      · obtain ⟨top', t', k1, k2, k3⟩ := crop_spec o' (o.kernel.rows - 2 * t) hrows hcols (by omega)
          (fun i j _ _ => by rw [hk]; exact hi.nn _ _) hs' part hp hp'
        have hmi := crop_max_inner o.kernel o.kernel.rows hi.nn part top hp' t h1 h2
        rw [hk] at k1 k2
        have e := isMax_unique _ _ _ _ k1 hmi.1
        subst e
        have e := cropBy_unique _ _ _ _ _ _ k2 hmi.2
        rw [k3, if_pos e]
      · unfold PsfObj.crop
        rw [if_neg hs']

/-- C36. Outside `(0, 0.5)` a `ValueError` is raised and nothing changes; for kernel sizes up to 3 nothing is done for any part. -/
theorem crop_kernel_rejects (o : PsfObj) (s : CoefState) (hr : PsfReachable o s) (part : ℝ) :
    (3 < o.kernelSize → ¬ (0 < part ∧ part < 1 / 2) → o.crop part = (.error .valueError, o)) ∧
    (o.kernelSize ≤ 3 → o.crop part = (.ok (), o)) := by
  constructor
  · intro hs hp
    have hodd := hr.inv.odd
    have hrc := hr.inv.rows_cols
    obtain ⟨top, htop⟩ := npMax_of_ne (l := o.kernel.elems) (by
      have : o.kernel.entry 0 0 ∈ o.kernel.elems := (mem_elems _ _).2 ⟨0, 0, by omega, by omega, rfl⟩
      intro h; rw [h] at this; simp at this)
    unfold PsfObj.crop
    rw [if_pos hs, htop]
    simp only []
    by_cases h1 : part ≤ 0
    · rw [if_pos h1]
    · rw [if_neg h1, if_pos]
      norm_num; by_contra hlt; push Not at hlt; exact hp ⟨by linarith, hlt⟩
  · intro hs
    unfold PsfObj.crop
    rw [if_neg (by omega)]

/-- A kernel that is really cropped: 5 × 5 with the central element 1, and 0.2 beside it. -/
example : CropBy ⟨5, 5, fun i j => if i = 2 ∧ j = 2 then 1 else if i = 2 ∧ j = 1 then 0.2 else 0⟩ 5 0.1 1 1 := by
  refine ⟨by norm_num, ?_, ⟨2, 1, by norm_num, by norm_num, by norm_num, by norm_num, by norm_num, by norm_num⟩⟩
  intro i j hi hj h
  interval_cases i <;> interval_cases j <;> first | omega | norm_num

end Verif.Props
