import Verif.Model.StrictWarn
import Verif.Props.Warn

/-!
# C109: warnings raised as exceptions

The first theorems show that the step-by-step model with the filter "show" is the model used elsewhere (results, objects, warnings), and that
the stored text is always empty there. The others are about the filter "error".
-/

namespace Verif.Props
open Verif.Model Verif.Spec

/-- An object in the usual state: no text is pending. -/
def quiet (o : PsfObj) (log : List PsfWarn) : WarnObj := ⟨o, none, log⟩

/-! ### The filter "show" -/

theorem sanity_show (x : ℝ) (o : PsfObj) (log : List PsfWarn) :
    (quiet o log).sanityStep false x = (.ok (), quiet o (log ++ sanityWarning x)) := by
  unfold WarnObj.sanityStep sanityWarning WarnObj.warnStored quiet
  split_ifs <;> simp_all

theorem npMin_of_npMax {l : List ℝ} {x : ℝ} (h : npMax l = .ok x) : ∃ y, npMin l = .ok y := by
  cases l with
  | nil => simp [npMax] at h
  | cons a l => exact ⟨_, rfl⟩

theorem storeCoeff_show (o : PsfObj) (log : List PsfWarn) (c : CoeffArg) :
    WarnObj.storeCoeff false (quiet o log) c =
      (toWRes (o.storeCoeff c).1, quiet (o.storeCoeff c).2 (log ++ o.coeffWarnings o.wavelength c)) := by
  have key : ∀ (o : PsfObj) x, WarnObj.andThen ((quiet o log).sanityStep false x) (fun s => ((.ok () : WRes Unit), s)) =
      (.ok (), quiet o (log ++ sanityWarning x)) := by
    intro o x; rw [sanity_show]; rfl
  cases c with
  | num x =>
    by_cases hz : o.zernpol = none ∧ o.polynomials.length > 1
    · simp only [WarnObj.storeCoeff, PsfObj.storeCoeff, PsfObj.coeffWarnings, quiet, hz, toWRes]
      simp
    · simp only [WarnObj.storeCoeff, PsfObj.storeCoeff, PsfObj.coeffWarnings]
      rw [if_neg hz, if_neg hz]
      rw [if_neg (show ¬ ((quiet o log).obj.zernpol = none ∧ (quiet o log).obj.polynomials.length > 1) from hz)]
      show WarnObj.andThen ((quiet o log).sanityStep false _) _ = _
      rw [sanity_show]; rfl
  | bad e =>
    by_cases hz : o.zernpol = none ∧ o.polynomials.length > 1
    · simp only [WarnObj.storeCoeff, PsfObj.storeCoeff, PsfObj.coeffWarnings, quiet, hz, toWRes]
      simp
    · simp only [WarnObj.storeCoeff, PsfObj.storeCoeff, PsfObj.coeffWarnings]
      rw [if_neg hz]
      rw [if_neg (show ¬ ((quiet o log).obj.zernpol = none ∧ (quiet o log).obj.polynomials.length > 1) from hz)]
      simp [toWRes, quiet]
  | seq l =>
    simp only [WarnObj.storeCoeff, PsfObj.storeCoeff, PsfObj.coeffWarnings]
    by_cases hl : l.length ≠ o.polynomials.length
    · rw [if_pos hl, if_pos hl, if_pos (show l.length ≠ (quiet o log).obj.polynomials.length from hl)]
      match l with
      | [] => simp [toWRes, quiet]
      | [x] =>
        dsimp only
        by_cases h0 : o.polynomials.length = 0
        · rw [if_pos h0, if_pos h0, if_pos (show (quiet o log).obj.polynomials.length = 0 from h0)]
          rw [show (quiet o log).obj.wavelength = o.wavelength from rfl, sanity_show]; rfl
        · rw [if_neg h0, if_neg h0, if_neg (show ¬ (quiet o log).obj.polynomials.length = 0 from h0)]
          simp [toWRes, quiet]
      | x :: y :: l => simp [toWRes, quiet]
    · rw [if_neg hl, if_neg hl, if_neg (show ¬ l.length ≠ (quiet o log).obj.polynomials.length from hl)]
      rcases hm : npMax l with e | hi
      · simp [toWRes, quiet, maxCoeffWarning]
      · obtain ⟨lo, hlo⟩ := npMin_of_npMax hm
        rw [hlo]
        show WarnObj.andThen ((quiet { o with coefficients := some l } log).sanityStep false _) _ = _
        rw [sanity_show]; rfl

/-- C109. With the filter "show" `set_physical_props` is the one of C30 and its warnings are those of C75, and the stored text stays empty. -/
theorem shown_set_physical_props (o : PsfObj) (log : List PsfWarn) (NA wavelength : ℝ) (coeff : CoeffArg) (px : ℝ) :
    WarnObj.setPhysicalProps false (quiet o log) NA wavelength coeff px =
      (toWRes (o.setPhysicalProps NA wavelength coeff px).1,
        quiet (o.setPhysicalProps NA wavelength coeff px).2 (log ++ o.setPhysicalPropsWarnings NA wavelength coeff px)) := by
  unfold WarnObj.setPhysicalProps PsfObj.setPhysicalProps PsfObj.setPhysicalPropsWarnings
  by_cases h1 : NA < 0 ∨ NA > 1.7
  · rw [if_pos h1, if_pos h1, if_pos h1]; simp [toWRes, quiet]
  rw [if_neg h1, if_neg h1, if_neg h1]
  by_cases h2 : wavelength ≤ 0
  · rw [if_pos h2, if_pos h2, if_pos h2]; simp [toWRes, quiet]
  rw [if_neg h2, if_neg h2, if_neg h2]
  dsimp only
  by_cases h3 : NA = 0
  · rw [if_pos h3, if_pos h3, if_pos h3]; simp [toWRes, quiet]
  rw [if_neg h3, if_neg h3, if_neg h3]
  by_cases h4 : px ≤ 0
  · rw [if_pos h4, if_pos h4, if_pos h4]; simp [toWRes, quiet]
  rw [if_neg h4, if_neg h4, if_neg h4]
  by_cases h5 : px > 0.5 * 0.5 * wavelength / NA
  · rw [if_pos h5, if_pos h5, if_pos h5]; simp [toWRes, quiet]
  rw [if_neg h5, if_neg h5, if_neg h5]
  obtain ⟨o1, ho1⟩ : ∃ o1 : PsfObj, o1 = { o with k := 2 * Real.pi / o.wavelength, NA := NA, wavelength := wavelength, nyquist := 0.5 * 0.5 * wavelength / NA, pixelSize := px } := ⟨_, rfl⟩
  have hw : o1.wavelength = wavelength := by rw [ho1]
  have hc : o.coeffWarnings wavelength coeff = o1.coeffWarnings o1.wavelength coeff := by
    rw [hw, ho1]; cases coeff <;> rfl
  rw [hc]
  show WarnObj.andThen (WarnObj.storeCoeff false (quiet { o with k := 2 * Real.pi / o.wavelength, NA := NA, wavelength := wavelength, nyquist := 0.5 * 0.5 * wavelength / NA, pixelSize := px } log) coeff) WarnObj.finishProps = _
  rw [← ho1, storeCoeff_show]
  rcases hs : o1.storeCoeff coeff with ⟨r, o2⟩
  cases r with
  | error e => simp [WarnObj.andThen, toWRes]
  | ok u =>
    simp only [WarnObj.andThen, toWRes, WarnObj.finishProps, quiet]
    cases o2.estimateSize <;> rfl

/-- C109. The same for `set_calculation_props`. -/
theorem shown_set_calculation_props (o : PsfObj) (log : List PsfWarn) (size nR nPhi : Int) :
    WarnObj.setCalculationProps false (quiet o log) size nR nPhi =
      (toWRes (o.setCalculationProps size nR nPhi).1,
        quiet (o.setCalculationProps size nR nPhi).2 (log ++ o.setCalculationPropsWarnings size nR nPhi)) := by
  unfold WarnObj.setCalculationProps PsfObj.setCalculationProps PsfObj.setCalculationPropsWarnings
  by_cases h1 : size < 3
  · rw [if_pos h1, if_pos h1, if_pos h1]; simp [toWRes, quiet]
  rw [if_neg h1, if_neg h1, if_neg h1]
  have hs : WarnObj.sizeWarning false (quiet o log) (makeOdd size) = (.ok (), quiet o (log ++
      (if o.propsSet then (if makeOdd size < o.kernelSize then [.sizeReduced] else []) else [.propsFirst]))) := by
    unfold WarnObj.sizeWarning WarnObj.warnStored quiet
    by_cases hp : o.propsSet = true
    · by_cases hk : makeOdd size < o.kernelSize <;> simp [hp, hk]
    · simp [hp]
  rw [hs]
  simp only [WarnObj.andThen, WarnObj.storePoints]
  by_cases h2 : nR < 20
  · simp only [h2, if_true, toWRes, quiet, List.append_nil]
  simp only [h2, if_false]
  by_cases h3 : nPhi < 36
  · simp only [h3, if_true, toWRes, quiet, List.append_nil]
  simp only [h3, if_false]
  by_cases h4 : nR > 500 ∧ nPhi > 400
  · rw [if_pos h4, if_pos h4]; simp [WarnObj.warnStored, toWRes, quiet]
  · rw [if_neg h4, if_neg h4]; simp [toWRes, quiet]

theorem makeKernel_ok {size : Int} {NA : ℝ} {value : Nat → Nat → CM ℝ} {normalize : Bool} {t t' : CoefState} {g : Grid}
    (h : makeKernel size NA value normalize t = (.ok g, t')) : 0 ≤ size ∧ NA ≠ 0 := by
  unfold makeKernel at h
  by_cases h1 : size < 0
  · rw [if_pos h1] at h; cases h
  rw [if_neg h1] at h
  by_cases h2 : NA = 0
  · rw [if_pos h2] at h; cases h
  exact ⟨by omega, h2⟩

theorem lift_bind_ok {α β : Type} {r : Res α} {f : α → CM β} {t t' : CoefState} {g : β} (h : (CM.lift r >>= f) t = (.ok g, t')) :
    ∃ v, r = .ok v ∧ f v t = (.ok g, t') := by
  cases r with
  | error e => cases h
  | ok v => exact ⟨v, rfl, h⟩

/-- A calculation that returns has come to the check of the pixel size. -/
theorem reaches_of_ok {env : Env} {o : PsfObj} {normalized : Bool} {accelerated : Option Bool} {x : CM Grid} {t t' : CoefState} {g : Grid}
    (hx : o.kernelCall env normalized accelerated = some x) (h : x t = (.ok g, t')) :
    o.wavelength ≠ 0 ∧ o.reachesPixelCheck env accelerated = true := by
  unfold PsfObj.kernelCall at hx
  unfold PsfObj.reachesPixelCheck
  rcases hz : o.zernpol with _ | z
  · simp only [hz] at hx
    rcases hp : o.polynomials with _ | ⟨p, ps⟩
    · simp only [hp] at hx; cases hx
    rw [hp] at hx
    dsimp only at hx
    rcases ha : o.amplitudes with _ | as
    · simp only [ha, Option.some.injEq] at hx; rw [← hx] at h; cases h
    simp only [ha, Option.some.injEq] at hx
    by_cases hl : as.length < (p :: ps).length
    · rw [if_pos hl] at hx; rw [← hx] at h; cases h
    rw [if_neg hl] at hx
    by_cases hacc : env.accelerate accelerated = true
    · rw [if_pos hacc] at hx
      rw [← hx] at h
      unfold getPsfKernelCompPols at h
      by_cases hw : (o.params normalized).wavelength = 0
      · rw [if_pos hw] at h; cases h
      rw [if_neg hw] at h
      by_cases hs : makeOdd (o.params normalized).kernelSize < 0
      · rw [if_pos hs] at h; cases h
      rw [if_neg hs] at h
      by_cases hu : ((as.zip ((p :: ps).map ZernPol.obj)).any fun x => compUnsupported x.2.m x.2.n) = true
      · rw [if_pos hu] at h; cases h
      rw [if_neg hu] at h
      obtain ⟨-, hN⟩ := makeKernel_ok h
      have hw' : o.wavelength ≠ 0 := hw
      have hN' : o.NA ≠ 0 := hN
      have hs' : 0 ≤ makeOdd o.kernelSize := not_lt.mp hs
      refine ⟨hw', ?_⟩
      rw [if_neg (by tauto), if_pos hacc]
      have : ((p :: ps).any fun z => compUnsupported z.m z.n) = false := by
        rw [List.any_eq_false]
        intro z hzm hc
        apply hu
        rw [List.any_eq_true]
        obtain ⟨i, hi, rfl⟩ := List.getElem_of_mem hzm
        have hi' : i < (as.zip ((p :: ps).map ZernPol.obj)).length := by
          simp only [List.length_zip, List.length_map]; omega
        refine ⟨_, List.getElem_mem hi', ?_⟩
        rw [List.getElem_zip]
        simp only [List.getElem_map]
        exact hc
      rw [this]
      simp [hs']
    · rw [if_neg hacc] at hx
      rw [← hx] at h
      unfold getPsfKernelZerns at h
      by_cases hw : (o.params normalized).wavelength = 0
      · rw [if_pos hw] at h; cases h
      rw [if_neg hw] at h
      obtain ⟨hs, hN⟩ := makeKernel_ok h
      have hw' : o.wavelength ≠ 0 := hw
      have hN' : o.NA ≠ 0 := hN
      refine ⟨hw', ?_⟩
      rw [if_neg (by tauto), if_neg hacc]
      exact decide_eq_true hs
  · simp only [hz, Option.some.injEq] at hx
    by_cases hacc : env.accelerate accelerated = true
    · rw [if_pos hacc] at hx
      rw [← hx] at h
      unfold getPsfKernelComp at h
      by_cases hw : (o.params normalized).wavelength = 0
      · rw [if_pos hw] at h; cases h
      rw [if_neg hw] at h
      by_cases hs : makeOdd (o.params normalized).kernelSize < 0
      · rw [if_pos hs] at h; cases h
      rw [if_neg hs] at h
      by_cases hu : compUnsupported z.obj.m z.obj.n = true
      · rw [if_pos hu] at h; cases h
      rw [if_neg hu] at h
      obtain ⟨-, hN⟩ := makeKernel_ok h
      have hw' : o.wavelength ≠ 0 := hw
      have hN' : o.NA ≠ 0 := hN
      have hs' : 0 ≤ makeOdd o.kernelSize := not_lt.mp hs
      have hu' : compUnsupported z.m z.n = false := by simpa [ZernPol.obj] using hu
      refine ⟨hw', ?_⟩
      rw [if_neg (by tauto), if_pos hacc]
      simp [hs', hu']
    · rw [if_neg hacc] at hx
      rw [← hx] at h
      unfold getPsfKernel at h
      by_cases hw : (o.params normalized).wavelength = 0
      · rw [if_pos hw] at h; cases h
      rw [if_neg hw] at h
      have hw' : o.wavelength ≠ 0 := hw
      obtain ⟨size, hk, h⟩ := lift_bind_ok h
      obtain ⟨hs, hN⟩ := makeKernel_ok h
      refine ⟨hw', ?_⟩
      have hN' : o.NA ≠ 0 := hN
      have hk' : (if o.kernelSize < 3 then getKernelSize z.m z.n o.pixelSize (o.expansionCoeff / o.wavelength) o.wavelength o.NA
          else .ok o.kernelSize) = .ok size := hk
      rw [if_neg (by tauto), if_neg hacc]
      simp only [hk']
      exact decide_eq_true hs

theorem andThen_ok {β : Type} (s : WarnObj) (f : WarnObj → WRes β × WarnObj) : WarnObj.andThen (.ok (), s) f = f s := rfl

theorem pending_quiet (b suppress : Bool) (o : PsfObj) (log : List PsfWarn) : (quiet o log).pending b suppress = (.ok (), quiet o log) := rfl

/-- The object at the beginning of a calculation. -/
def atStart (o : PsfObj) (suppress : Bool) : PsfObj := if ¬ o.propsSet ∧ ¬ suppress then { o with kernelSize := 19 } else o

theorem beforeCalculation_show (env : Env) (o : PsfObj) (log : List PsfWarn) (suppress : Bool) (accelerated : Option Bool) :
    (quiet o log).beforeCalculation false suppress env accelerated =
      (.ok (), quiet (atStart o suppress) (log ++ (if suppress then [] else
        (if o.propsSet then [] else [.defaultProps]) ++ (if accelerated = some true ∧ ¬ env.numba then [.noNumba] else [])))) := by
  unfold WarnObj.beforeCalculation WarnObj.warnStored WarnObj.andThen atStart quiet
  cases suppress <;> by_cases hp : o.propsSet = true <;> by_cases hn : env.numba = true <;> rcases accelerated with _ | _ | _ <;>
    simp [hp, hn]

/-- C109. With the filter "show" a `calculate_psf_kernel` that returns gives the kernel, the object and the tables of C31, and its warnings are
those of C75. -/
theorem shown_calculate (o : PsfObj) (log : List PsfWarn) (env : Env) (suppress normalized : Bool) (accelerated : Option Bool) (t t' : CoefState)
    (g : Grid) (o' : PsfObj) (h : o.calculate env suppress normalized accelerated t = (.ok g, o', t')) :
    WarnObj.calculate false env (quiet o log) suppress normalized accelerated t =
      ((.ok g, quiet o' (log ++ o.calculateWarnings env suppress normalized accelerated t)), t') := by
  unfold WarnObj.calculate
  rw [pending_quiet, andThen_ok, beforeCalculation_show]
  dsimp only
  have hw : o.calculateWarnings env suppress normalized accelerated t = if suppress then [] else
      (if o.zernpol = none ∧ o.polynomials = [] then
        ((if o.propsSet then [] else [.defaultProps]) ++ (if accelerated = some true ∧ ¬ env.numba then [.noNumba] else []))
      else ((if o.propsSet then [] else [.defaultProps]) ++ (if accelerated = some true ∧ ¬ env.numba then [.noNumba] else [])) ++
        (if env.accelerate accelerated then slowWarning o'.kernelSize else []) ++ coarseWarning (o'.params normalized) ++ borderWarning g) := by
    unfold PsfObj.calculateWarnings
    rw [h]
  rw [hw]
  clear hw
  obtain ⟨pre, hpre⟩ : ∃ pre : List PsfWarn, pre = ((if o.propsSet then [] else [.defaultProps]) ++
    (if accelerated = some true ∧ ¬ env.numba then [.noNumba] else [])) := ⟨_, rfl⟩
  rw [← hpre]
  clear hpre
  unfold PsfObj.calculate at h
  dsimp only at h
  have hd : (if ¬ o.propsSet = true ∧ ¬ suppress = true then ({ o with kernelSize := 19 } : PsfObj) else o) = atStart o suppress := rfl
  rw [hd] at h
  have hz : (atStart o suppress).zernpol = o.zernpol ∧ (atStart o suppress).polynomials = o.polynomials := by
    unfold atStart; split_ifs <;> exact ⟨rfl, rfl⟩
  have hnone : o.zernpol = none ∧ o.polynomials = [] ↔ (atStart o suppress).kernelCall env normalized accelerated = none := by
    rw [← hz.1, ← hz.2]
    generalize atStart o suppress = o1
    unfold PsfObj.kernelCall
    constructor
    · rintro ⟨h1, h2⟩; simp only [h1, h2]
    · intro hk
      rcases h1 : o1.zernpol with _ | z
      · simp only [h1] at hk
        rcases h2 : o1.polynomials with _ | ⟨p, ps⟩
        · exact ⟨rfl, rfl⟩
        · rw [h2] at hk
          dsimp only at hk
          cases hh : o1.amplitudes <;> simp only [hh] at hk <;> cases hk
      · simp only [h1] at hk; cases hk
  generalize atStart o suppress = o1 at h hnone
  unfold WarnObj.runKernel
  rcases hx : o1.kernelCall env normalized accelerated with _ | x
  · rw [if_pos (hnone.mpr hx)]
    simp only [hx] at h
    have hh := Prod.mk.inj h
    have h2 := Prod.mk.inj hh.2
    have h1 := Except.ok.inj hh.1
    obtain ⟨h2a, h2b⟩ := h2
    subst h2a h2b h1
    simp only [quiet, hx]
  · rw [if_neg (show ¬ (o.zernpol = none ∧ o.polynomials = []) from fun hc => by rw [hnone.mp hc] at hx; cases hx)]
    simp only [hx] at h
    simp only [quiet, hx]
    rcases hxt : x t with ⟨r, t2⟩
    rw [hxt] at h
    cases r with
    | error e => cases h
    | ok g2 =>
      obtain ⟨hwl, hre⟩ := reaches_of_ok hx hxt
      have hh := Prod.mk.inj h
      have h2 := Prod.mk.inj hh.2
      have h1 := Except.ok.inj hh.1
      subst h1
      obtain ⟨h2a, h2b⟩ := h2
      subst h2b
      subst h2a
      have hb : WarnObj.beforeLoops false suppress env accelerated ⟨o1, none, log ++ if suppress = true then [] else pre⟩ =
          (.ok (), ⟨o1, none, (log ++ if suppress = true then [] else pre) ++ if suppress then [] else
            (if env.accelerate accelerated then slowWarning o1.kernelSize else []) ++ coarseWarning (o1.params normalized)⟩) := by
        unfold WarnObj.beforeLoops slowWarning coarseWarning
        by_cases ha : env.accelerate accelerated = true <;> by_cases hs : makeOdd o1.kernelSize > 85 <;>
          by_cases hp : o1.pixelSize > 0.5 * 0.61 * o1.wavelength / o1.NA <;> cases suppress <;>
          simp [ha, hs, hp, hwl, hre, WarnObj.andThen, WarnObj.warnLocal, PsfObj.params]
      rw [hb]
      dsimp only
      unfold WarnObj.checkBorder
      cases suppress with
      | true => simp [andThen_ok]
      | false =>
        have hbw : borderWarning g2 = [] ∨ borderWarning g2 = [.border] := by
          unfold borderWarning
          split
          · split_ifs <;> simp
          · simp
        rcases hbw with hbw | hbw <;> rw [hbw] <;> simp [WarnObj.andThen, WarnObj.warnLocal, PsfObj.params]

/-! ### The filter "error" -/

/-- What the filter "error" makes of a call: if the call shows no warning it does the same, and otherwise it raises the first of them. `before` are
the warnings shown before the call; `res` and `obj` give the result and the object. -/
def RaisesFirst {α β : Type} (res : α → WRes β) (obj : α → WarnObj) (before : List PsfWarn) (strict shown : α) : Prop :=
  ∃ ws, (obj shown).log = before ++ ws ∧ (ws = [] → strict = shown) ∧ ∀ w rest, ws = w :: rest → res strict = .error (.warning w)

theorem raisesFirst_same {α β : Type} {res : α → WRes β} {obj : α → WarnObj} {before : List PsfWarn} {a : α} (h : (obj a).log = before) :
    RaisesFirst res obj before a a := ⟨[], by simp [h], fun _ => rfl, by simp⟩

theorem raisesFirst_warn {α β : Type} {res : α → WRes β} {obj : α → WarnObj} {before : List PsfWarn} {a b : α} {w : PsfWarn}
    (h : (obj b).log = before ++ [w]) (hr : res a = .error (.warning w)) : RaisesFirst res obj before a b :=
  ⟨[w], h, by simp, by rintro v rest hv; rw [hr, (List.cons.inj hv).1]⟩

/-- The same for a step of a call. -/
abbrev StepRaises {β : Type} (s : WarnObj) (f : Bool → WRes β × WarnObj) : Prop := RaisesFirst Prod.fst Prod.snd s.log (f true) (f false)

theorem stepRaises_andThen {β : Type} {s : WarnObj} {f : Bool → WRes Unit × WarnObj} {g : Bool → WarnObj → WRes β × WarnObj}
    (hf : StepRaises s f) (hg : ∀ s', StepRaises s' fun b => g b s') : StepRaises s fun b => WarnObj.andThen (f b) (g b) := by
  obtain ⟨ws, h1, h2, h3⟩ := hf
  rcases hff : f false with ⟨r, s1⟩
  rw [hff] at h1 h2
  dsimp only at h1
  cases r with
  | error e =>
    refine ⟨ws, by simp only [hff, WarnObj.andThen]; exact h1, ?_, ?_⟩
    · intro hw; show WarnObj.andThen (f true) _ = WarnObj.andThen (f false) _; rw [h2 hw, hff]; rfl
    · intro w rest hw
      have := h3 w rest hw
      rcases hft : f true with ⟨r2, s2⟩
      rw [hft] at this
      dsimp only at this
      subst this
      show (WarnObj.andThen (f true) (g true)).1 = _
      rw [hft]; rfl
  | ok u =>
    obtain ⟨ws2, k1, k2, k3⟩ := hg s1
    refine ⟨ws ++ ws2, ?_, ?_, ?_⟩
    · show (WarnObj.andThen (f false) (g false)).2.log = _
      rw [hff]
      show (g false s1).2.log = _
      rw [k1, h1, List.append_assoc]
    · intro hw
      obtain ⟨hw1, hw2⟩ := List.append_eq_nil_iff.mp hw
      show WarnObj.andThen (f true) _ = WarnObj.andThen (f false) _
      rw [h2 hw1, hff]
      exact k2 hw2
    · intro w rest hw
      show (WarnObj.andThen (f true) (g true)).1 = _
      cases ws with
      | nil => rw [h2 rfl]; exact k3 w rest hw
      | cons v vs =>
        have := h3 v vs rfl
        rcases hft : f true with ⟨r2, s2⟩
        rw [hft] at this
        dsimp only at this
        subst this
        show (.error (.warning v) : WRes β) = _
        rw [(List.cons.inj hw).1]

theorem stepRaises_const {β : Type} (s : WarnObj) (r : WRes β × WarnObj) (h : r.2.log = s.log) : StepRaises s fun _ => r := raisesFirst_same h

theorem stepRaises_stored (w : PsfWarn) (s : WarnObj) : StepRaises s fun b => s.warnStored b w := raisesFirst_warn (w := w) (by rfl) (by rfl)

theorem stepRaises_local (w : PsfWarn) (s : WarnObj) : StepRaises s fun b => s.warnLocal b w := raisesFirst_warn (w := w) (by rfl) (by rfl)

theorem stepRaises_ite {β : Type} {s : WarnObj} {p : Prop} [Decidable p] {f g : Bool → WRes β × WarnObj} (hf : StepRaises s f) (hg : StepRaises s g) :
    StepRaises s fun b => if p then f b else g b := by
  by_cases h : p
  · simpa [h] using hf
  · simpa [h] using hg

theorem stepRaises_sanity (x : ℝ) (s : WarnObj) : StepRaises s fun b => s.sanityStep b x :=
  stepRaises_ite (stepRaises_stored _ s) (stepRaises_const s _ rfl)

theorem stepRaises_storeCoeff (s : WarnObj) (c : CoeffArg) : StepRaises s fun b => WarnObj.storeCoeff b s c := by
  cases c with
  | num x =>
    exact stepRaises_ite (stepRaises_const s _ rfl) (stepRaises_andThen (stepRaises_sanity _ s) fun s' => stepRaises_const s' _ rfl)
  | bad e => exact stepRaises_ite (stepRaises_const s _ rfl) (stepRaises_const s _ rfl)
  | seq l =>
    simp only [WarnObj.storeCoeff]
    refine stepRaises_ite ?_ ?_
    · match l with
      | [] => exact stepRaises_const s _ rfl
      | [x] => exact stepRaises_ite (stepRaises_andThen (stepRaises_sanity _ s) fun s' => stepRaises_const s' _ rfl) (stepRaises_const s _ rfl)
      | x :: y :: l => exact stepRaises_const s _ rfl
    · rcases npMax l with e | hi
      · exact stepRaises_const s _ rfl
      · rcases npMin l with e | lo
        · exact stepRaises_const s _ rfl
        · exact stepRaises_andThen (f := fun b => WarnObj.sanityStep b _ { s with obj := { s.obj with coefficients := some l } })
            (stepRaises_sanity _ { s with obj := { s.obj with coefficients := some l } }) fun s' => stepRaises_const s' _ rfl

/-- `set_physical_props` in any state of the object, with or without a pending text. -/
theorem stepRaises_physical (s : WarnObj) (NA wavelength : ℝ) (coeff : CoeffArg) (px : ℝ) :
    StepRaises s fun b => WarnObj.setPhysicalProps b s NA wavelength coeff px := by
  unfold WarnObj.setPhysicalProps
  refine stepRaises_ite (stepRaises_const s _ rfl) (stepRaises_ite (stepRaises_const s _ rfl) ?_)
  dsimp only
  refine stepRaises_ite (stepRaises_const s _ rfl) (stepRaises_ite (stepRaises_const s _ rfl) (stepRaises_ite (stepRaises_const s _ rfl) ?_))
  refine stepRaises_andThen (stepRaises_storeCoeff { s with obj := _ } coeff) fun s' => stepRaises_const s' _ ?_
  unfold WarnObj.finishProps
  cases s'.obj.estimateSize <;> rfl

/-- `set_calculation_props` in any state. -/
theorem stepRaises_calculation (s : WarnObj) (size nR nPhi : Int) : StepRaises s fun b => WarnObj.setCalculationProps b s size nR nPhi := by
  unfold WarnObj.setCalculationProps
  refine stepRaises_ite (stepRaises_const s _ rfl) (stepRaises_andThen ?_ ?_)
  · exact stepRaises_ite (stepRaises_ite (stepRaises_stored _ s) (stepRaises_const s _ rfl)) (stepRaises_stored _ s)
  · intro s'
    refine stepRaises_ite (s := s') (stepRaises_const s' _ rfl) (stepRaises_ite (stepRaises_const s' _ rfl) ?_)
    exact stepRaises_ite (s := s')
      (stepRaises_stored _ { s' with obj := { s'.obj with kernelSize := makeOdd size, nR := nR, nPhi := nPhi } }) (stepRaises_const s' _ rfl)

theorem stepRaises_before (s : WarnObj) (suppress : Bool) (env : Env) (accelerated : Option Bool) :
    StepRaises s fun b => WarnObj.andThen (s.pending b suppress) (WarnObj.beforeCalculation b suppress env accelerated) := by
  refine stepRaises_andThen ?_ fun s' => ?_
  · unfold WarnObj.pending
    rcases s.message with _ | w
    · exact stepRaises_const s _ rfl
    · exact stepRaises_ite (stepRaises_const s _ rfl) (stepRaises_local w s)
  · unfold WarnObj.beforeCalculation
    refine stepRaises_andThen ?_ fun s'' => ?_
    · exact stepRaises_ite (s := s') (stepRaises_stored _ { s' with obj := { s'.obj with kernelSize := 19 } }) (stepRaises_const s' _ rfl)
    · exact stepRaises_ite (stepRaises_stored _ s'') (stepRaises_const s'' _ rfl)

theorem stepRaises_beforeLoops (s : WarnObj) (suppress : Bool) (env : Env) (accelerated : Option Bool) :
    StepRaises s fun b => s.beforeLoops b suppress env accelerated := by
  unfold WarnObj.beforeLoops
  exact stepRaises_andThen (stepRaises_ite (stepRaises_local _ s) (stepRaises_const s _ rfl)) fun s' =>
    stepRaises_ite (stepRaises_local _ s') (stepRaises_const s' _ rfl)

theorem stepRaises_border (s : WarnObj) (suppress : Bool) (g : Grid) : StepRaises s fun b => s.checkBorder b suppress g := by
  unfold WarnObj.checkBorder
  refine stepRaises_ite (stepRaises_const s _ rfl) ?_
  rcases borderWarning g with _ | ⟨w, ws⟩
  · exact stepRaises_const s _ rfl
  · exact stepRaises_local w s

/-- A step and what follows it, with the tables. -/
def thenTab {β τ : Type} (p : WRes Unit × WarnObj) (t : τ) (g : WarnObj → (WRes β × WarnObj) × τ) : (WRes β × WarnObj) × τ :=
  match p with
  | (.error e, s) => ((.error e, s), t)
  | (.ok _, s) => g s

theorem raisesFirst_then {β τ : Type} {s : WarnObj} {f : Bool → WRes Unit × WarnObj} {t : τ} {g : Bool → WarnObj → (WRes β × WarnObj) × τ}
    (hf : StepRaises s f) (hg : ∀ s', RaisesFirst (fun a => a.1.1) (fun a => a.1.2) s'.log (g true s') (g false s')) :
    RaisesFirst (fun a => a.1.1) (fun a : (WRes β × WarnObj) × τ => a.1.2) s.log
      (thenTab (f true) t (g true)) (thenTab (f false) t (g false)) := by
  unfold thenTab
  obtain ⟨ws, h1, h2, h3⟩ := hf
  rcases hff : f false with ⟨r, s1⟩
  rw [hff] at h1 h2
  dsimp only at h1
  cases r with
  | error e =>
    refine ⟨ws, h1, ?_, ?_⟩
    · intro hw; rw [h2 hw]
    · intro w rest hw
      have := h3 w rest hw
      rcases hft : f true with ⟨r2, s2⟩
      rw [hft] at this
      dsimp only at this
      subst this
      rfl
  | ok u =>
    obtain ⟨ws2, k1, k2, k3⟩ := hg s1
    refine ⟨ws ++ ws2, ?_, ?_, ?_⟩
    · dsimp only
      rw [k1, h1, List.append_assoc]
    · intro hw
      obtain ⟨hw1, hw2⟩ := List.append_eq_nil_iff.mp hw
      rw [h2 hw1]
      exact k2 hw2
    · intro w rest hw
      cases ws with
      | nil => rw [h2 rfl]; exact k3 w rest hw
      | cons v vs =>
        have := h3 v vs rfl
        rcases hft : f true with ⟨r2, s2⟩
        rw [hft] at this
        dsimp only at this
        subst this
        show (.error (.warning v) : WRes β) = _
        rw [(List.cons.inj hw).1]

/-- `calculate_psf_kernel` in any state. -/
theorem raisesFirst_calculate (s : WarnObj) (env : Env) (suppress normalized : Bool) (accelerated : Option Bool) (t : CoefState) :
    RaisesFirst (fun a => a.1.1) (fun a => a.1.2) s.log (WarnObj.calculate true env s suppress normalized accelerated t)
      (WarnObj.calculate false env s suppress normalized accelerated t) := by
  refine raisesFirst_then (f := fun b => WarnObj.andThen (s.pending b suppress) (WarnObj.beforeCalculation b suppress env accelerated)) (t := t)
    (g := fun b s' => s'.runKernel b suppress env normalized accelerated t) (stepRaises_before s suppress env accelerated) fun s' => ?_
  unfold WarnObj.runKernel
  rcases s'.obj.kernelCall env normalized accelerated with _ | x
  · exact raisesFirst_same rfl
  · refine raisesFirst_then (f := fun b => s'.beforeLoops b suppress env accelerated) (t := t)
      (g := fun b s2 => match x t with
        | (.error e, t') => ((.error (.py e), s2), t')
        | (.ok g, t') => (WarnObj.andThen (s2.checkBorder b suppress g) fun s => (.ok g, { s with obj := { s.obj with kernel := g } }), t'))
      (stepRaises_beforeLoops s' suppress env accelerated) fun s2 => ?_
    rcases x t with ⟨r, t'⟩
    cases r with
    | error e => exact raisesFirst_same rfl
    | ok g =>
      obtain ⟨ws, h1, h2, h3⟩ : StepRaises s2 fun b => WarnObj.andThen (s2.checkBorder b suppress g) fun s =>
          ((.ok g : WRes Grid), { s with obj := { s.obj with kernel := g } }) :=
        stepRaises_andThen (stepRaises_border s2 suppress g) fun s3 => stepRaises_const s3 _ rfl
      exact ⟨ws, h1, fun hw => congrArg (fun p => (p, t')) (h2 hw), h3⟩

/-- C109. `set_physical_props` with the filter "error": without a warning it does what it does otherwise; with a warning it raises it and stops: the
numerical aperture, the wavelength and the pixel size of the call are stored, the amplitude(s), the kernel size and the flag "properties set" are
the ones from before, and the text stays in the object. -/
theorem strict_set_physical_props (o : PsfObj) (log : List PsfWarn) (NA wavelength : ℝ) (coeff : CoeffArg) (px : ℝ) :
    (o.setPhysicalPropsWarnings NA wavelength coeff px = [] →
      WarnObj.setPhysicalProps true (quiet o log) NA wavelength coeff px =
        (toWRes (o.setPhysicalProps NA wavelength coeff px).1, quiet (o.setPhysicalProps NA wavelength coeff px).2 log)) ∧
    (o.setPhysicalPropsWarnings NA wavelength coeff px ≠ [] →
      ∃ c, WarnObj.setPhysicalProps true (quiet o log) NA wavelength coeff px =
        (.error (.warning .bigCoefficient), ⟨{ o with
          NA := NA, wavelength := wavelength, pixelSize := px, nyquist := 0.25 * wavelength / NA, k := 2 * Real.pi / o.wavelength, coefficients := c },
          some .bigCoefficient, log⟩) ∧
        (c = o.coefficients ∨ ∃ l, coeff = .seq l ∧ l.length = o.polynomials.length ∧ c = some l)) := by
  constructor
  · intro h
    obtain ⟨ws, h1, h2, -⟩ := stepRaises_physical (quiet o log) NA wavelength coeff px
    dsimp only at h1 h2
    rw [shown_set_physical_props, h] at h1 h2
    have : ws = [] := by
      have h1' : log ++ [] = log ++ ws := h1
      exact (List.append_cancel_left h1').symm
    rw [h2 this, List.append_nil]
  · unfold WarnObj.setPhysicalProps PsfObj.setPhysicalPropsWarnings
    intro h
    by_cases h1 : NA < 0 ∨ NA > 1.7
    · rw [if_pos h1] at h; exact absurd rfl h
    rw [if_neg h1] at h ⊢
    by_cases h2 : wavelength ≤ 0
    · rw [if_pos h2] at h; exact absurd rfl h
    rw [if_neg h2] at h ⊢
    dsimp only
    by_cases h3 : NA = 0
    · rw [if_pos h3] at h; exact absurd rfl h
    rw [if_neg h3] at h ⊢
    by_cases h4 : px ≤ 0
    · rw [if_pos h4] at h; exact absurd rfl h
    rw [if_neg h4] at h ⊢
    by_cases h5 : px > 0.5 * 0.5 * wavelength / NA
    · rw [if_pos h5] at h; exact absurd rfl h
    rw [if_neg h5] at h ⊢
    have hq : (0.5 * 0.5 * wavelength / NA : ℝ) = 0.25 * wavelength / NA := by norm_num
    rw [← hq]
    have hstep : ∀ (s : WarnObj) (x : ℝ) (f : WarnObj → WRes Unit × WarnObj), sanityWarning x ≠ [] →
        WarnObj.andThen (WarnObj.andThen (s.sanityStep true x) f) WarnObj.finishProps =
          (.error (.warning .bigCoefficient), { s with message := some .bigCoefficient }) := by
      intro s x f hx
      have hx' : x > 10 := by
        by_contra hc
        exact hx (by simp [sanityWarning, hc])
      simp [WarnObj.sanityStep, hx', WarnObj.warnStored, WarnObj.andThen]
    cases coeff with
    | num x =>
      simp only [PsfObj.coeffWarnings] at h
      by_cases hz : o.zernpol = none ∧ o.polynomials.length > 1
      · rw [if_pos hz] at h; exact absurd rfl h
      rw [if_neg hz] at h
      refine ⟨o.coefficients, ?_, .inl rfl⟩
      simp only [WarnObj.storeCoeff]
      rw [if_neg (by exact hz)]
      rw [hstep _ _ _ h]
      rfl
    | bad e => exact absurd rfl h
    | seq l =>
      simp only [PsfObj.coeffWarnings] at h
      simp only [WarnObj.storeCoeff]
      by_cases hl : l.length ≠ o.polynomials.length
      · rw [if_pos hl] at h
        rw [if_pos (by exact hl)]
        match l with
        | [] => exact absurd rfl h
        | [x] =>
          dsimp only at h ⊢
          by_cases h0 : o.polynomials.length = 0
          · rw [if_pos h0] at h
            rw [if_pos (by exact h0)]
            exact ⟨o.coefficients, hstep _ _ _ h, .inl rfl⟩
          · rw [if_neg h0] at h; exact absurd rfl h
        | x :: y :: l => exact absurd rfl h
      · rw [if_neg hl] at h
        rw [if_neg (by exact hl)]
        rcases hm : npMax l with e | hi
        · rw [hm] at h; exact absurd rfl h
        · obtain ⟨lo, hlo⟩ := npMin_of_npMax hm
          rw [hm, hlo] at h
          rw [hlo]
          dsimp only
          exact ⟨some l, hstep { obj := { o with k := 2 * Real.pi / o.wavelength, NA := NA, wavelength := wavelength, nyquist := 0.5 * 0.5 * wavelength / NA, pixelSize := px, coefficients := some l }, message := none, log := log } _ _ h,
            .inr ⟨l, rfl, not_not.mp hl, rfl⟩⟩

/-- C109. `set_calculation_props` with the filter "error". The warning about the size is raised before the size is stored, the one about the
precision after all three values have been stored. -/
theorem strict_set_calculation_props (o : PsfObj) (log : List PsfWarn) (size nR nPhi : Int) :
    (o.setCalculationPropsWarnings size nR nPhi = [] →
      WarnObj.setCalculationProps true (quiet o log) size nR nPhi =
        (toWRes (o.setCalculationProps size nR nPhi).1, quiet (o.setCalculationProps size nR nPhi).2 log)) ∧
    ∀ w rest, o.setCalculationPropsWarnings size nR nPhi = w :: rest →
      WarnObj.setCalculationProps true (quiet o log) size nR nPhi =
        (.error (.warning w),
          ⟨if w = .precision then { o with kernelSize := makeOdd size, nR := nR, nPhi := nPhi } else o, some w, log⟩) := by
  constructor
  · intro h
    obtain ⟨ws, h1, h2, -⟩ := stepRaises_calculation (quiet o log) size nR nPhi
    dsimp only at h1 h2
    rw [shown_set_calculation_props, h] at h1 h2
    have : ws = [] := by
      have h1' : log ++ [] = log ++ ws := h1
      exact (List.append_cancel_left h1').symm
    rw [h2 this, List.append_nil]
  · intro w rest h
    unfold PsfObj.setCalculationPropsWarnings at h
    unfold WarnObj.setCalculationProps
    by_cases h1 : size < 3
    · rw [if_pos h1] at h; cases h
    rw [if_neg h1] at h ⊢
    unfold WarnObj.sizeWarning WarnObj.storePoints WarnObj.warnStored
    by_cases hp : o.propsSet = true
    · rw [if_pos hp] at h
      rw [if_pos (by exact hp)]
      by_cases hk : makeOdd size < o.kernelSize
      · rw [if_pos hk] at h
        rw [if_pos (by exact hk)]
        obtain ⟨rfl, -⟩ := List.cons.inj h
        rfl
      · rw [if_neg hk, List.nil_append] at h
        rw [if_neg (by exact hk), andThen_ok]
        by_cases hr : nR < 20
        · rw [if_pos hr] at h; cases h
        rw [if_neg hr] at h ⊢
        by_cases hq : nPhi < 36
        · rw [if_pos hq] at h; cases h
        rw [if_neg hq] at h ⊢
        by_cases h4 : nR > 500 ∧ nPhi > 400
        · rw [if_pos h4] at h ⊢
          obtain ⟨rfl, -⟩ := List.cons.inj h
          rfl
        · rw [if_neg h4] at h; cases h
    · rw [if_neg hp] at h
      rw [if_neg (by exact hp)]
      obtain ⟨rfl, -⟩ := List.cons.inj h
      rfl

/-- C109. `calculate_psf_kernel` with the filter "error", where the call with shown warnings returns: without a warning it gives the same kernel, object
and tables; otherwise it raises the first warning. -/
theorem strict_calculate (o : PsfObj) (log : List PsfWarn) (env : Env) (suppress normalized : Bool) (accelerated : Option Bool) (t t' : CoefState)
    (g : Grid) (o' : PsfObj) (h : o.calculate env suppress normalized accelerated t = (.ok g, o', t')) :
    (o.calculateWarnings env suppress normalized accelerated t = [] →
      WarnObj.calculate true env (quiet o log) suppress normalized accelerated t = ((.ok g, quiet o' log), t')) ∧
    ∀ w rest, o.calculateWarnings env suppress normalized accelerated t = w :: rest →
      (WarnObj.calculate true env (quiet o log) suppress normalized accelerated t).1.1 = .error (.warning w) := by
  obtain ⟨ws, h1, h2, h3⟩ := raisesFirst_calculate (quiet o log) env suppress normalized accelerated t
  dsimp only at h1 h2
  rw [shown_calculate o log env suppress normalized accelerated t t' g o' h] at h1 h2
  have hws : ws = o.calculateWarnings env suppress normalized accelerated t := by
    have h1' : log ++ o.calculateWarnings env suppress normalized accelerated t = log ++ ws := h1
    exact (List.append_cancel_left h1').symm
  rw [hws] at h2 h3
  exact ⟨fun hw => by rw [h2 hw, hw, List.append_nil], h3⟩

theorem andThen_kernel {β : Type} {s : WarnObj} {p : WRes Unit × WarnObj} {f : WarnObj → WRes β × WarnObj} (hp : p.2.obj.kernel = s.obj.kernel)
    (hf : ∀ s' e, (f s').1 = .error e → (f s').2.obj.kernel = s'.obj.kernel) {e : WarnErr} (h : (WarnObj.andThen p f).1 = .error e) :
    (WarnObj.andThen p f).2.obj.kernel = s.obj.kernel := by
  obtain ⟨r, s1⟩ := p
  cases r with
  | error e' => exact hp
  | ok u => exact (hf s1 e h).trans hp

/-- A step that leaves the stored kernel as it is. -/
theorem warnStored_kernel (b : Bool) (w : PsfWarn) (s : WarnObj) : (s.warnStored b w).2.obj.kernel = s.obj.kernel := by
  unfold WarnObj.warnStored; split_ifs <;> rfl

theorem warnLocal_kernel (b : Bool) (w : PsfWarn) (s : WarnObj) : (s.warnLocal b w).2.obj.kernel = s.obj.kernel := by
  unfold WarnObj.warnLocal; split_ifs <;> rfl

theorem andThen_keeps {β : Type} {s : WarnObj} {p : WRes Unit × WarnObj} {f : WarnObj → WRes β × WarnObj} (hp : p.2.obj.kernel = s.obj.kernel)
    (hf : ∀ s', (f s').2.obj.kernel = s'.obj.kernel) : (WarnObj.andThen p f).2.obj.kernel = s.obj.kernel := by
  obtain ⟨r, s1⟩ := p
  cases r with
  | error e' => exact hp
  | ok u => exact (hf s1).trans hp

theorem before_kernel (b : Bool) (s : WarnObj) (suppress : Bool) (env : Env) (accelerated : Option Bool) :
    (WarnObj.andThen (s.pending b suppress) (WarnObj.beforeCalculation b suppress env accelerated)).2.obj.kernel = s.obj.kernel := by
  refine andThen_keeps ?_ fun s' => ?_
  · unfold WarnObj.pending
    split
    · split_ifs
      · rfl
      · exact warnLocal_kernel b _ s
    · rfl
  · unfold WarnObj.beforeCalculation
    refine andThen_keeps ?_ fun s2 => ?_
    · split_ifs
      · exact warnStored_kernel b _ { s' with obj := { s'.obj with kernelSize := 19 } }
      · rfl
    · split_ifs
      · exact warnStored_kernel b _ s2
      · rfl

theorem beforeLoops_kernel (b : Bool) (s : WarnObj) (suppress : Bool) (env : Env) (accelerated : Option Bool) :
    (s.beforeLoops b suppress env accelerated).2.obj.kernel = s.obj.kernel := by
  unfold WarnObj.beforeLoops
  refine andThen_keeps ?_ fun s' => ?_
  · split_ifs
    · exact warnLocal_kernel b _ s
    · rfl
  · split_ifs
    · exact warnLocal_kernel b _ s'
    · rfl

/-- C109. A `calculate_psf_kernel` that raises, an exception or a warning (also the one about the border, after the kernel has been computed), leaves
the stored kernel as it was. -/
theorem raising_calculate_keeps_kernel (strict : Bool) (env : Env) (s : WarnObj) (suppress normalized : Bool) (accelerated : Option Bool) (t : CoefState)
    (e : WarnErr) (h : (WarnObj.calculate strict env s suppress normalized accelerated t).1.1 = .error e) :
    (WarnObj.calculate strict env s suppress normalized accelerated t).1.2.obj.kernel = s.obj.kernel := by
  have hb := before_kernel strict s suppress env accelerated
  unfold WarnObj.calculate at h ⊢
  generalize WarnObj.andThen (s.pending strict suppress) (WarnObj.beforeCalculation strict suppress env accelerated) = p at h hb ⊢
  obtain ⟨r, s1⟩ := p
  cases r with
  | error e' => exact hb
  | ok u =>
    dsimp only at h hb ⊢
    rw [← hb]
    unfold WarnObj.runKernel at h ⊢
    generalize s1.obj.kernelCall env normalized accelerated = kc at h ⊢
    rcases kc with _ | x
    · cases h
    · have hl := beforeLoops_kernel strict s1 suppress env accelerated
      dsimp only at h ⊢
      generalize s1.beforeLoops strict suppress env accelerated = p at h hl ⊢
      obtain ⟨r2, s2⟩ := p
      cases r2 with
      | error e' => exact hl
      | ok u =>
        dsimp only at h hl ⊢
        rw [← hl]
        generalize x t = y at h ⊢
        obtain ⟨r3, t3⟩ := y
        cases r3 with
        | error e' => rfl
        | ok g =>
          dsimp only at h ⊢
          unfold WarnObj.checkBorder WarnObj.warnLocal at h ⊢
          by_cases hs : suppress = true
          · rw [if_pos hs] at h; cases h
          rw [if_neg hs] at h ⊢
          generalize borderWarning g = bw at h ⊢
          rcases bw with _ | ⟨w, ws⟩
          · cases h
          · dsimp only at h ⊢
            cases strict with
            | false => cases h
            | true => rfl

/-! ### The pending text -/

/-- C109. With a pending text and the filter "error" every `calculate_psf_kernel` that does not suppress the warnings raises that warning at once and
changes nothing. -/
theorem pending_blocks_calculate (env : Env) (s : WarnObj) (w : PsfWarn) (hw : s.message = some w) (normalized : Bool) (accelerated : Option Bool)
    (t : CoefState) : WarnObj.calculate true env s false normalized accelerated t = ((.error (.warning w), s), t) := by
  unfold WarnObj.calculate WarnObj.pending
  rw [hw]
  rfl

/-- C109. With the filter "show" the pending text is shown again by each such call on an object with set properties, before the other warnings, and is
still pending after it (no accelerated call without `numba`). -/
theorem pending_shown_again (env : Env) (s : WarnObj) (w : PsfWarn) (hw : s.message = some w) (hp : s.obj.propsSet = true) (normalized : Bool)
    (accelerated : Option Bool) (ha : ¬ (accelerated = some true ∧ env.numba = false)) (t : CoefState) :
    (∃ rest, (WarnObj.calculate false env s false normalized accelerated t).1.2.log = s.log ++ w :: rest) ∧
      (WarnObj.calculate false env s false normalized accelerated t).1.2.message = some w := by
  have hb : WarnObj.andThen (s.pending false false) (WarnObj.beforeCalculation false false env accelerated) =
      (.ok (), { s with log := s.log ++ [w] }) := by
    have hn : ¬ (accelerated = some true ∧ ¬ env.numba = true ∧ ¬ (false : Bool) = true) := by
      rintro ⟨h1, h2, -⟩; exact ha ⟨h1, by simpa using h2⟩
    unfold WarnObj.pending WarnObj.beforeCalculation WarnObj.warnLocal
    rw [hw]
    dsimp only [WarnObj.andThen]
    rw [if_neg (by simp), if_neg (by simp)]
    dsimp only
    rw [if_neg (by simp [hp])]
    dsimp only
    rw [if_neg hn]
  unfold WarnObj.calculate
  rw [hb]
  dsimp only
  have hlog : ∀ s1 : WarnObj, s1.message = some w → (∃ rest, s1.log = s.log ++ w :: rest) →
      ∀ v, (∃ rest, (s1.warnLocal false v).2.log = s.log ++ w :: rest) ∧ (s1.warnLocal false v).2.message = some w := by
    rintro s1 h1 ⟨rest, h2⟩ v
    exact ⟨⟨rest ++ [v], by simp [WarnObj.warnLocal, h2]⟩, h1⟩
  obtain ⟨s1, hs1⟩ : ∃ s1 : WarnObj, s1 = { s with log := s.log ++ [w] } := ⟨_, rfl⟩
  have m1 : s1.message = some w := by rw [hs1]; exact hw
  have l1 : ∃ rest, s1.log = s.log ++ w :: rest := ⟨[], by rw [hs1]⟩
  rw [← hs1]
  clear hs1 hb
  unfold WarnObj.runKernel
  rcases s1.obj.kernelCall env normalized accelerated with _ | x
  · exact ⟨l1, m1⟩
  dsimp only
  have hl : (s1.beforeLoops false false env accelerated).1 = .ok () ∧ (∃ rest, (s1.beforeLoops false false env accelerated).2.log = s.log ++ w :: rest) ∧
      (s1.beforeLoops false false env accelerated).2.message = some w := by
    unfold WarnObj.beforeLoops
    obtain ⟨s2, hs2, m2, l2⟩ : ∃ s2 : WarnObj, (if env.accelerate accelerated = true ∧ s1.obj.wavelength ≠ 0 ∧ makeOdd s1.obj.kernelSize > 85 ∧
        ¬ (false : Bool) = true then s1.warnLocal false .slowKernel else (.ok (), s1)) = (.ok (), s2) ∧ s2.message = some w ∧
        ∃ rest, s2.log = s.log ++ w :: rest := by
      split
      · exact ⟨_, rfl, (hlog s1 m1 l1 _).2, (hlog s1 m1 l1 _).1⟩
      · exact ⟨_, rfl, m1, l1⟩
    rw [hs2, andThen_ok]
    split
    · exact ⟨rfl, (hlog s2 m2 l2 _).1, (hlog s2 m2 l2 _).2⟩
    · exact ⟨rfl, l2, m2⟩
  generalize s1.beforeLoops false false env accelerated = p at hl ⊢
  obtain ⟨r, s2⟩ := p
  obtain ⟨h1, l2, m2⟩ := hl
  dsimp only at h1 l2 m2
  subst h1
  generalize x t = y
  obtain ⟨r3, t3⟩ := y
  cases r3 with
  | error e => exact ⟨l2, m2⟩
  | ok g =>
    dsimp only
    unfold WarnObj.checkBorder
    rw [if_neg (by simp)]
    rcases borderWarning g with _ | ⟨v, vs⟩
    · exact ⟨l2, m2⟩
    · exact hlog s2 m2 l2 v

/-- C109. A `set_calculation_props` that returns under the filter "error" leaves a pending text as it is: a later calculation still raises it. -/
theorem calculation_props_keep_pending (s s' : WarnObj) (size nR nPhi : Int) (h : WarnObj.setCalculationProps true s size nR nPhi = (.ok (), s')) :
    s'.message = s.message := by
  unfold WarnObj.setCalculationProps at h
  by_cases h1 : size < 3
  · rw [if_pos h1] at h; cases h
  rw [if_neg h1] at h
  have hs : s.sizeWarning true (makeOdd size) = (.ok (), s) ∨ ∃ e s1, s.sizeWarning true (makeOdd size) = (.error e, s1) := by
    unfold WarnObj.sizeWarning
    split_ifs
    · exact .inr ⟨_, _, rfl⟩
    · exact .inl rfl
    · exact .inr ⟨_, _, rfl⟩
  rcases hs with hs | ⟨e, s1, hs⟩
  · rw [hs, andThen_ok] at h
    unfold WarnObj.storePoints at h
    by_cases h2 : nR < 20
    · rw [if_pos h2] at h; cases h
    rw [if_neg h2] at h
    by_cases h3 : nPhi < 36
    · rw [if_pos h3] at h; cases h
    rw [if_neg h3] at h
    dsimp only at h
    by_cases h4 : nR > 500 ∧ nPhi > 400
    · rw [if_pos h4] at h; cases h
    rw [if_neg h4] at h
    cases h
    rfl
  · rw [hs] at h; cases h

/-- C109. An accepted `set_physical_props` leaves no pending text, under both filters. -/
theorem physical_props_clear_pending (strict : Bool) (s s' : WarnObj) (NA wavelength : ℝ) (coeff : CoeffArg) (px : ℝ)
    (h : WarnObj.setPhysicalProps strict s NA wavelength coeff px = (.ok (), s')) : s'.message = none := by
  have hsan : ∀ (s s' : WarnObj) (x : ℝ) (f : PsfObj → PsfObj),
      WarnObj.andThen (s.sanityStep strict x) (fun s => ((.ok () : WRes Unit), { s with obj := f s.obj })) = (.ok (), s') → s'.message = none := by
    intro s s' x f hh
    unfold WarnObj.sanityStep WarnObj.warnStored at hh
    split_ifs at hh
    · cases hh
    · cases hh; rfl
    · cases hh; rfl
  have hst : ∀ (s s' : WarnObj), WarnObj.storeCoeff strict s coeff = (.ok (), s') → s'.message = none := by
    intro s s' hh
    cases coeff with
    | num x =>
      simp only [WarnObj.storeCoeff] at hh
      split_ifs at hh
      · cases hh
      · exact hsan _ _ _ (fun o => o.storeOne x) hh
    | bad e =>
      simp only [WarnObj.storeCoeff] at hh
      split_ifs at hh <;> cases hh
    | seq l =>
      simp only [WarnObj.storeCoeff] at hh
      by_cases hl : l.length ≠ s.obj.polynomials.length
      · rw [if_pos hl] at hh
        match l with
        | [] => cases hh
        | [x] =>
          dsimp only at hh
          split_ifs at hh
          · exact hsan _ _ _ (fun o => o.storeOne x) hh
          · cases hh
        | x :: y :: l => cases hh
      · rw [if_neg hl] at hh
        generalize npMax l = a at hh
        generalize npMin l = b at hh
        rcases a with e | hi
        · cases hh
        · rcases b with e | lo
          · cases hh
          · exact hsan { s with obj := { s.obj with coefficients := some l } } s' _
              (fun o => { o with amplitudes := some (l.map (· / o.wavelength)) }) hh
  unfold WarnObj.setPhysicalProps at h
  dsimp only at h
  by_cases h1 : NA < 0 ∨ NA > 1.7
  · rw [if_pos h1] at h; cases h
  rw [if_neg h1] at h
  by_cases h2 : wavelength ≤ 0
  · rw [if_pos h2] at h; cases h
  rw [if_neg h2] at h
  by_cases h3 : NA = 0
  · rw [if_pos h3] at h; cases h
  rw [if_neg h3] at h
  by_cases h4 : px ≤ 0
  · rw [if_pos h4] at h; cases h
  rw [if_neg h4] at h
  by_cases h5 : px > 0.5 * 0.5 * wavelength / NA
  · rw [if_pos h5] at h; cases h
  rw [if_neg h5] at h
  rcases hc : WarnObj.storeCoeff strict { s with obj := { s.obj with k := 2 * Real.pi / s.obj.wavelength, NA := NA, wavelength := wavelength, nyquist := 0.5 * 0.5 * wavelength / NA, pixelSize := px } } coeff with ⟨r, s1⟩
  rw [show WarnObj.storeCoeff strict _ coeff = (r, s1) from hc] at h
  cases r with
  | error e => cases h
  | ok u =>
    have hm := hst _ _ hc
    simp only [WarnObj.andThen, WarnObj.finishProps] at h
    generalize s1.obj.estimateSize = es at h
    rcases es with e | size
    · cases h
    · cases h
      exact hm

/-- C109. After a refused `NA = 0` (the aperture is stored before the division raises, so the object keeps it) every calculation of an object with set
properties raises `ZeroDivisionError`, under both filters and with or without suppressed warnings: no warning is raised or shown before it. -/
theorem zero_aperture_no_warning (strict : Bool) (env : Env) (s : WarnObj) (suppress normalized : Bool) (accelerated : Option Bool)
    (t : CoefState) (hm : s.message = none) (hp : s.obj.propsSet = true) (hNA : s.obj.NA = 0) (hw : 0 < s.obj.wavelength)
    (hs : 3 ≤ s.obj.kernelSize) (ha : env.accelerate accelerated = false) (hn : ¬ (accelerated = some true ∧ env.numba = false))
    (hk : (∃ z, s.obj.zernpol = some z) ∨
      (s.obj.zernpol = none ∧ s.obj.polynomials ≠ [] ∧ ∃ as, s.obj.amplitudes = some as ∧ s.obj.polynomials.length ≤ as.length)) :
    WarnObj.calculate strict env s suppress normalized accelerated t = ((.error (.py .zeroDivisionError), s), t) := by
  have hb : WarnObj.andThen (s.pending strict suppress) (WarnObj.beforeCalculation strict suppress env accelerated) = (.ok (), s) := by
    have hn' : ¬ (accelerated = some true ∧ ¬ env.numba = true ∧ ¬ suppress = true) := by
      rintro ⟨h1, h2, -⟩; exact hn ⟨h1, by simpa using h2⟩
    unfold WarnObj.pending WarnObj.beforeCalculation
    rw [hm]
    dsimp only [WarnObj.andThen]
    rw [if_neg (by simp [hp])]
    dsimp only
    rw [if_neg hn']
  have hl : s.beforeLoops strict suppress env accelerated = (.ok (), s) := by
    unfold WarnObj.beforeLoops PsfObj.reachesPixelCheck
    rw [if_neg (by simp [ha])]
    dsimp only [WarnObj.andThen]
    rw [if_neg (by simp [hNA])]
  have hodd : ¬ makeOdd s.obj.kernelSize < 0 := by unfold makeOdd; split_ifs <;> omega
  have hmk : ∀ value b, makeKernel (makeOdd s.obj.kernelSize) s.obj.NA value b t = (.error .zeroDivisionError, t) := by
    intro value b
    unfold makeKernel
    rw [if_neg hodd, if_pos hNA]
    rfl
  have hx : ∃ x, s.obj.kernelCall env normalized accelerated = some x ∧ x t = (.error .zeroDivisionError, t) := by
    rcases hk with ⟨z, hz⟩ | ⟨hz, hps, as, has, hlen⟩
    · refine ⟨getPsfKernel env.fuel env.j1 z.obj s.obj.expansionCoeff (s.obj.params normalized) s.obj.airy, ?_, ?_⟩
      · unfold PsfObj.kernelCall
        rw [hz]
        dsimp only
        rw [if_neg (by simp [ha])]
      · unfold getPsfKernel
        rw [if_neg (show ¬ (s.obj.params normalized).wavelength = 0 from hw.ne')]
        dsimp only
        rw [if_neg (show ¬ (s.obj.params normalized).kernelSize < 3 from by show ¬ s.obj.kernelSize < 3; omega)]
        exact hmk _ _
    · refine ⟨getPsfKernelZerns env.fuel (as.zip (s.obj.polynomials.map ZernPol.obj)) (s.obj.params normalized), ?_, ?_⟩
      · unfold PsfObj.kernelCall
        rw [hz, has]
        generalize s.obj.polynomials = ps at hps hlen
        obtain ⟨a, l, rfl⟩ := List.exists_cons_of_ne_nil hps
        dsimp only
        rw [if_neg (by omega), if_neg (by simp [ha])]
      · unfold getPsfKernelZerns
        rw [if_neg (show ¬ (s.obj.params normalized).wavelength = 0 from hw.ne')]
        exact hmk _ _
  obtain ⟨x, hx1, hx2⟩ := hx
  unfold WarnObj.calculate
  rw [hb]
  dsimp only
  unfold WarnObj.runKernel
  rw [hx1]
  dsimp only
  rw [hl]
  dsimp only
  rw [hx2]

/-- The hypotheses are met: `set_physical_props` with `NA = 0` on an object with set properties raises, but leaves such an object. -/
example (z : ZernPol) (o : PsfObj) (hz : o.zernpol = some z) (hp : o.propsSet = true) (hs : 3 ≤ o.kernelSize) (strict : Bool) (env : Env) (t : CoefState) :
    ∃ s, WarnObj.setPhysicalProps strict (quiet o []) 0 0.5 (.num 0.1) 0.1 = (.error (.py .zeroDivisionError), s) ∧
      WarnObj.calculate strict env s false true (some false) t = ((.error (.py .zeroDivisionError), s), t) := by
  obtain ⟨s, hset⟩ : ∃ s, s = (WarnObj.setPhysicalProps strict (quiet o []) 0 0.5 (.num 0.1) 0.1).2 := ⟨_, rfl⟩
  have he : WarnObj.setPhysicalProps strict (quiet o []) 0 0.5 (.num 0.1) 0.1 =
      (.error (.py .zeroDivisionError), { (quiet o []) with obj := { o with k := 2 * Real.pi / o.wavelength, NA := 0, wavelength := 0.5 } }) := by
    unfold WarnObj.setPhysicalProps
    dsimp only
    rw [if_neg (by norm_num), if_neg (by norm_num), if_pos rfl]
    rfl
  refine ⟨_, he, ?_⟩
  refine zero_aperture_no_warning strict env _ false true (some false) t rfl hp rfl (by norm_num) hs ?_ (by simp) (.inl ⟨z, hz⟩)
  simp [Env.accelerate]

/-! ### The hypotheses are met -/

/-- An object for a polynomial with a coefficient of more than 10 wavelengths: the warning is raised, the wavelength is the new one, the coefficient is
still 0, and the next calculation raises the warning again. -/
example (z : ZernPol) (o : PsfObj) (ho : psfInit (.pol z) = .ok o) (env : Env) (t : CoefState) :
    ∃ s, WarnObj.setPhysicalProps true (quiet o []) 1 1 (.num 20) 0.1 = (.error (.warning .bigCoefficient), s) ∧ s.obj.wavelength = 1 ∧
      s.obj.expansionCoeff = o.expansionCoeff ∧ s.obj.propsSet = o.propsSet ∧
      WarnObj.calculate true env s false true none t = ((.error (.warning .bigCoefficient), s), t) := by
  have hz : o.zernpol = some z := by
    simp only [psfInit] at ho; cases ho; rfl
  have hw : o.setPhysicalPropsWarnings 1 1 (.num 20) 0.1 ≠ [] := by
    unfold PsfObj.setPhysicalPropsWarnings PsfObj.coeffWarnings sanityWarning
    rw [if_neg (by norm_num), if_neg (by norm_num), if_neg (by norm_num), if_neg (by norm_num), if_neg (by norm_num)]
    dsimp only
    rw [if_neg (by simp [hz]), if_pos (by norm_num)]
    simp
  obtain ⟨c, h, -⟩ := (strict_set_physical_props o [] 1 1 (.num 20) 0.1).2 hw
  exact ⟨_, h, rfl, rfl, rfl, pending_blocks_calculate env _ _ rfl true none t⟩

/-- A new object: `set_calculation_props` raises "set the physical properties first" and stores nothing. -/
example (z : ZernPol) (o : PsfObj) (ho : psfInit (.pol z) = .ok o) :
    WarnObj.setCalculationProps true (quiet o []) 31 320 300 = (.error (.warning .propsFirst), ⟨o, some .propsFirst, []⟩) := by
  have hp : o.propsSet = false := by simp only [psfInit] at ho; cases ho; rfl
  have := (strict_set_calculation_props o [] 31 320 300).2 .propsFirst [] (by simp [PsfObj.setCalculationPropsWarnings, hp])
  rw [this]; rfl

end Verif.Props
