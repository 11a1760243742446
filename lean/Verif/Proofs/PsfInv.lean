import Verif.Proofs.CropKernel
import Verif.Model.PsfCalls

/-! # The invariant of `ZernPSF` objects over histories of calls -/

namespace Verif.Proofs
open Verif.Model Verif.Spec

/-- `x` leaves the coefficient tables correct, also when it raises. -/
def Keeps {β : Type} (x : CM β) : Prop := ∀ s, Good s → Good (x s).2

theorem Keeps.bind {β γ : Type} {x : CM β} {f : β → CM γ} (hx : Keeps x) (hf : ∀ v, Keeps (f v)) : Keeps (x >>= f) := by
  intro s hs
  rw [cm_bind]
  have := hx s hs
  rcases hc : x s with ⟨r, s1⟩
  rw [hc] at this
  cases r with
  | error e => exact this
  | ok v => exact hf v s1 this

theorem Keeps.pure {β : Type} (v : β) : Keeps (pure v : CM β) := fun _ hs => hs
theorem Keeps.raise {β : Type} (e : PyErr) : Keeps (CM.raise e : CM β) := fun _ hs => hs
theorem Keeps.lift {β : Type} (r : Res β) : Keeps (CM.lift r) := fun _ hs => hs

/-- A phase whose evaluation leaves the tables correct. -/
def KeepsPhase (ph : Phase) : Prop := ∀ p phi, Keeps (ph p phi)

theorem polVal_keeps (fuel : Nat) (o : PolObj) (r theta : Arg) : Keeps (polVal fuel o r theta) :=
  fun s hs => polynomialValue_st fuel o r theta false s hs

theorem singlePhase_keeps (fuel : Nat) (o : PolObj) (alpha : ℝ) : KeepsPhase (singlePhase fuel o alpha) :=
  fun _ _ => (polVal_keeps _ _ _ _).bind fun _ => Keeps.pure _

theorem polsPhaseRest_keeps (fuel : Nat) (p : Arg) (phi : ℝ) (l : List (ℝ × PolObj)) : ∀ S, Keeps (polsPhaseRest fuel p phi l S) := by
  induction l with
  | nil => exact fun S => Keeps.pure _
  | cons x l ih => exact fun S => (polVal_keeps _ _ _ _).bind fun _ => ih _

theorem polsPhase_keeps (fuel : Nat) (l : List (ℝ × PolObj)) : KeepsPhase (polsPhase fuel l) := by
  cases l with
  | nil => exact fun _ _ => Keeps.raise _
  | cons x l => exact fun _ _ => (polVal_keeps _ _ _ _).bind fun _ => polsPhaseRest_keeps _ _ _ _ _

theorem compPhase_keeps (m n : Int) (alpha : ℝ) : KeepsPhase (compPhase m n alpha) :=
  fun _ _ => (Keeps.lift _).bind fun _ => Keeps.pure _

theorem compPolsRest_keeps (p : Arg) (phi : ℝ) (l : List (ℝ × Int × Int)) : ∀ S, Keeps (compPolsRest p phi l S) := by
  induction l with
  | nil => exact fun S => Keeps.pure _
  | cons x l ih => exact fun S => (Keeps.lift _).bind fun _ => ih _

theorem compPolsPhase_keeps (l : List (ℝ × Int × Int)) : KeepsPhase (compPolsPhase l) := by
  cases l with
  | nil => exact fun _ _ => Keeps.raise _
  | cons x l => exact fun _ _ => (Keeps.lift _).bind fun _ => compPolsRest_keeps _ _ _ _

theorem radialIntegral_keeps (ph : Phase) (h : KeepsPhase ph) (r theta phi : ℝ) (nR : Int) : Keeps (radialIntegral ph r theta phi nR) := by
  have h1 : ∀ phi p theta r, Keeps (diffractionAt ph phi p theta r) := fun _ _ _ _ => (h _ _).bind fun _ => Keeps.pure _
  have h2 : ∀ phi p theta r, Keeps (diffractionSum ph phi p theta r) := fun _ _ _ _ => (h _ _).bind fun _ => Keeps.pure _
  unfold radialIntegral
  split_ifs
  · exact Keeps.raise _
  · exact (h1 _ _ _ _).bind fun _ => (h1 _ _ _ _).bind fun _ => (h2 _ _ _ _).bind fun _ => Keeps.pure _

theorem angleSum_keeps (ph : Phase) (h : KeepsPhase ph) (r theta w : ℝ) (nR : Int) (l : List Int) : ∀ acc,
    Keeps (angleSum ph r theta w nR l acc) := by
  induction l with
  | nil => exact fun acc => Keeps.pure _
  | cons i l ih => exact fun acc => (radialIntegral_keeps ph h _ _ _ _).bind fun _ => ih _

theorem psfPoint_keeps (ph : Phase) (h : KeepsPhase ph) (r theta : ℝ) (nR nPhi : Int) : Keeps (psfPoint ph r theta nR nPhi) := by
  unfold psfPoint
  split_ifs
  · exact Keeps.raise _
  · exact (angleSum_keeps ph h _ _ _ _ _ _).bind fun _ => (angleSum_keeps ph h _ _ _ _ _ _).bind fun _ =>
      (radialIntegral_keeps ph h _ _ _ _).bind fun _ => (radialIntegral_keeps ph h _ _ _ _).bind fun _ => Keeps.pure _

theorem makeKernel_keeps (size : Int) (NA : ℝ) (f : Nat → Nat → CM ℝ) (nrm : Bool) (hf : ∀ i j, Keeps (f i j)) :
    Keeps (makeKernel size NA f nrm) := by
  have hrow : ∀ i k j S, Keeps (fillRow f i k j S) := by
    intro i k
    induction k with
    | zero => exact fun j S => Keeps.pure _
    | succ k ih => exact fun j S => (hf _ _).bind fun _ => ih _ _
  have hrows : ∀ cols k i S, Keeps (fillRows f cols k i S) := by
    intro cols k
    induction k with
    | zero => exact fun i S => Keeps.pure _
    | succ k ih => exact fun i S => (hrow _ _ _ _).bind fun _ => ih _ _
  unfold makeKernel
  split_ifs
  · exact Keeps.raise _
  · exact Keeps.raise _
  · exact (hrows _ _ _ _).bind fun _ => Keeps.lift _
  · exact (hrows _ _ _ _).bind fun _ => Keeps.pure _

theorem getPsfKernel_keeps (fuel : Nat) (j1 : ℝ → ℝ) (o : PolObj) (coeff : ℝ) (q : KernelParams) (airy : Bool) :
    Keeps (getPsfKernel fuel j1 o coeff q airy) := by
  unfold getPsfKernel
  by_cases h1 : q.wavelength = 0
  · rw [if_pos h1]; exact Keeps.raise _
  · rw [if_neg h1]
    refine (Keeps.lift _).bind fun s => makeKernel_keeps _ _ _ _ fun i j => ?_
    cases airy with
    | true => exact Keeps.pure _
    | false => exact psfPoint_keeps _ (singlePhase_keeps _ _ _) _ _ _ _

theorem getPsfKernelZerns_keeps (fuel : Nat) (l : List (ℝ × PolObj)) (q : KernelParams) : Keeps (getPsfKernelZerns fuel l q) := by
  unfold getPsfKernelZerns
  split_ifs
  · exact Keeps.raise _
  · exact makeKernel_keeps _ _ _ _ fun i j => psfPoint_keeps _ (polsPhase_keeps _ _) _ _ _ _

theorem getPsfKernelComp_keeps (o : PolObj) (coeff : ℝ) (q : KernelParams) : Keeps (getPsfKernelComp o coeff q) := by
  unfold getPsfKernelComp
  simp only []
  split_ifs
  · exact Keeps.raise _
  · exact Keeps.raise _
  · exact Keeps.raise _
  · exact makeKernel_keeps _ _ _ _ fun i j => psfPoint_keeps _ (compPhase_keeps _ _ _) _ _ _ _

theorem getPsfKernelCompPols_keeps (l : List (ℝ × PolObj)) (q : KernelParams) : Keeps (getPsfKernelCompPols l q) := by
  unfold getPsfKernelCompPols
  simp only []
  split_ifs
  · exact Keeps.raise _
  · exact Keeps.raise _
  · exact Keeps.raise _
  · exact makeKernel_keeps _ _ _ _ fun i j => psfPoint_keeps _ (compPolsPhase_keeps _) _ _ _ _

theorem kernelCall_keeps (env : Env) (o : PsfObj) (nrm : Bool) (acc : Option Bool) (x : CM Grid) (h : o.kernelCall env nrm acc = some x) :
    Keeps x := by
  unfold PsfObj.kernelCall at h
  split at h
  · simp only [Option.some.injEq] at h
    subst h
    split_ifs
    · exact getPsfKernelComp_keeps _ _ _
    · exact getPsfKernel_keeps _ _ _ _ _ _
  · split at h
    · cases h
    · split at h
      · simp only [Option.some.injEq] at h
        subst h
        exact Keeps.raise _
      · simp only [Option.some.injEq] at h
        subst h
        split_ifs
        · exact Keeps.raise _
        · exact getPsfKernelCompPols_keeps _ _
        · exact getPsfKernelZerns_keeps _ _ _

theorem calculate_good (env : Env) (o : PsfObj) (sup nrm : Bool) (acc : Option Bool) (s : CoefState) (hs : Good s) :
    Good (o.calculate env sup nrm acc s).2.2 := by
  unfold PsfObj.calculate
  simp only []
  split
  · exact hs
  · rename_i x hx
    have := kernelCall_keeps _ _ _ _ _ hx s hs
    split
    · rename_i h; rw [h] at this; exact this
    · rename_i h; rw [h] at this; exact this

/-- The polynomials of an object. -/
def psfPols (o : PsfObj) : List ZernPol := match o.zernpol with
  | some z => [z]
  | none => o.polynomials

/-- One polynomial in `zernpol`, or at least two in `polynomials`; as many amplitudes as polynomials. -/
def WellFormed (o : PsfObj) : Prop :=
  ((∃ z, o.zernpol = some z ∧ o.polynomials = []) ∨ (o.zernpol = none ∧ 2 ≤ o.polynomials.length)) ∧
  ∀ as, o.amplitudes = some as → as.length = o.polynomials.length

/-- What holds for an object at any time. -/
structure PsfInv (o : PsfObj) : Prop where
  rows_cols : o.kernel.rows = o.kernel.cols
  odd : o.kernel.rows % 2 = 1
  nn : NN o.kernel
  size : o.kernelSize % 2 = 1 ∧ 1 ≤ o.kernelSize
  wavelength : 0 < o.wavelength
  NA : 0 ≤ o.NA ∧ o.NA ≤ 1.7
  pixel : 0 < o.pixelSize
  points : 20 ≤ o.nR ∧ 36 ≤ o.nPhi
  wf : WellFormed o

theorem psfDefault_inv : PsfInv psfDefault where
  rows_cols := rfl
  odd := rfl
  nn := fun _ _ => zero_le_one
  size := by decide
  wavelength := by norm_num [psfDefault]
  NA := by norm_num [psfDefault]
  pixel := by norm_num [psfDefault]
  points := by decide
  wf := ⟨Or.inl ⟨_, rfl, rfl⟩, by simp [psfDefault]⟩

theorem psfInit_inv (arg : PsfArg) (o : PsfObj) (h : psfInit arg = .ok o) : PsfInv o := by
  have one : ∀ z : ZernPol, PsfInv { psfDefault with zernpol := some z, airy := z.isPiston } := fun z =>
    { psfDefault_inv with wf := ⟨Or.inl ⟨z, rfl, rfl⟩, by simp [psfDefault]⟩ }
  unfold psfInit at h
  split at h
  · cases h; exact one _
  · cases h
  · cases h; exact one _
  · cases h
  · rename_i l h1 h2 h3
    split at h
    · cases h
    · rename_i zs hz
      split_ifs at h
      cases h
      have hlen : zs.length = l.length := by
        have : ∀ (l : List Operand) (zs : List ZernPol), allPols l = some zs → zs.length = l.length := by
          intro l
          induction l with
          | nil => intro zs h; cases h; rfl
          | cons x l ih =>
            intro zs h
            cases x with
            | other => cases h
            | zern z =>
              simp only [allPols, Option.map_eq_some_iff] at h
              obtain ⟨w, h4, rfl⟩ := h
              simp [ih w h4]
        exact this l zs hz
      have h2l : 2 ≤ l.length := by
        match l, h1, h2, h3 with
        | [], h1, _, _ => exact absurd rfl h1
        | [.zern z], _, h2, _ => exact absurd rfl (h2 z)
        | [.other], _, _, h3 => exact absurd rfl h3
        | _ :: _ :: _, _, _, _ => simp
      exact { psfDefault_inv with wf := ⟨Or.inr ⟨rfl, by simp; omega⟩, by simp [psfDefault]⟩ }
  · cases h; exact psfDefault_inv

theorem storeCoeff_facts (o : PsfObj) (c : CoeffArg) :
    let o' := (o.storeCoeff c).2
    o'.kernel = o.kernel ∧ o'.kernelSize = o.kernelSize ∧ o'.wavelength = o.wavelength ∧ o'.NA = o.NA ∧ o'.pixelSize = o.pixelSize ∧
      o'.nR = o.nR ∧ o'.nPhi = o.nPhi ∧ o'.zernpol = o.zernpol ∧ o'.polynomials = o.polynomials ∧ o'.airy = o.airy ∧
      (o'.amplitudes = o.amplitudes ∨ ∃ as, o'.amplitudes = some as ∧ as.length = o.polynomials.length) := by
  cases c with
  | num x =>
    simp only [PsfObj.storeCoeff]
    split_ifs <;> simp [PsfObj.storeOne]
  | bad e =>
    simp only [PsfObj.storeCoeff]
    split_ifs <;> simp
  | seq l =>
    simp only [PsfObj.storeCoeff]
    by_cases h : l.length ≠ o.polynomials.length
    · rw [if_pos h]
      rcases l with _ | ⟨x, _ | ⟨y, t⟩⟩
      · simp
      · by_cases h0 : o.polynomials.length = 0
        · simp [h0, PsfObj.storeOne]
        · simp [h0]
      · simp
    · rw [if_neg h]
      have h := not_not.1 h
      cases npMax l with
      | error e => simp
      | ok a => simp [h]

/-- The object after accepting the aperture, the wavelength and the pixel size. -/
noncomputable def physBase (o : PsfObj) (NA wl px : ℝ) : PsfObj :=
  { o with k := 2 * Real.pi / o.wavelength, NA := NA, wavelength := wl, nyquist := 0.5 * 0.5 * wl / NA, pixelSize := px }

/-- The rest of `set_physical_props`. -/
noncomputable def physRest (b : PsfObj) (c : CoeffArg) : Res Unit × PsfObj :=
  match b.storeCoeff c with
  | (.error e, o) => (.error e, o)
  | (.ok _, o) =>
    match o.estimateSize with
    | .error e => (.error e, o)
    | .ok size => (.ok (), { o with kernelSize := size, propsSet := true })

theorem setPhysical_cases (o : PsfObj) (NA wl : ℝ) (c : CoeffArg) (px : ℝ) :
    ((NA < 0 ∨ NA > 1.7 ∨ wl ≤ 0) ∧ o.setPhysicalProps NA wl c px = (.error .valueError, o)) ∨
    (0 < wl ∧ NA = 0 ∧ o.setPhysicalProps NA wl c px =
      (.error .zeroDivisionError, { o with k := 2 * Real.pi / o.wavelength, NA := NA, wavelength := wl })) ∨
    (0 < wl ∧ 0 < NA ∧ NA ≤ 1.7 ∧ (px ≤ 0 ∨ px > 0.5 * 0.5 * wl / NA) ∧ o.setPhysicalProps NA wl c px =
      (.error .valueError, { o with k := 2 * Real.pi / o.wavelength, NA := NA, wavelength := wl, nyquist := 0.5 * 0.5 * wl / NA })) ∨
    (0 < wl ∧ 0 < NA ∧ NA ≤ 1.7 ∧ 0 < px ∧ px ≤ 0.5 * 0.5 * wl / NA ∧ o.setPhysicalProps NA wl c px = physRest (physBase o NA wl px) c) := by
  unfold PsfObj.setPhysicalProps
  by_cases h1 : NA < 0 ∨ NA > 1.7
  · rw [if_pos h1]; left; exact ⟨by tauto, rfl⟩
  rw [if_neg h1]
  by_cases h2 : wl ≤ 0
  · rw [if_pos h2]; left; exact ⟨by tauto, rfl⟩
  rw [if_neg h2]
  push Not at h1 h2
  right
  by_cases h3 : NA = 0
  · simp only [if_pos h3]; left; exact ⟨h2, h3, trivial⟩
  have h3' : 0 < NA := lt_of_le_of_ne h1.1 (Ne.symm h3)
  simp only [if_neg h3]
  right
  by_cases h4 : px ≤ 0
  · simp only [if_pos h4]; left; exact ⟨h2, h3', h1.2, Or.inl h4, trivial⟩
  simp only [if_neg h4]
  by_cases h5 : px > 0.5 * 0.5 * wl / NA
  · simp only [if_pos h5]; left; exact ⟨h2, h3', h1.2, Or.inr h5, trivial⟩
  simp only [if_neg h5]
  right
  exact ⟨h2, h3', h1.2, not_le.1 h4, not_lt.1 h5, rfl⟩

theorem setPhysical_inv (o : PsfObj) (h : PsfInv o) (NA wl : ℝ) (c : CoeffArg) (px : ℝ) : PsfInv (o.setPhysicalProps NA wl c px).2 := by
  rcases setPhysical_cases o NA wl c px with ⟨_, e⟩ | ⟨h2, h3, e⟩ | ⟨h2, h3, h4, _, e⟩ | ⟨h2, h3, h4, h5, _, e⟩ <;> rw [e]
  · exact h
  · exact { h with wavelength := h2, NA := ⟨h3.ge, by rw [h3]; norm_num⟩ }
  · exact { h with wavelength := h2, NA := ⟨h3.le, h4⟩ }
  have base3 : PsfInv (physBase o NA wl px) := { h with wavelength := h2, NA := ⟨h3.le, h4⟩, pixel := h5 }
  generalize physBase o NA wl px = b at base3
  unfold physRest
  have hf := storeCoeff_facts b c
  rcases hc : b.storeCoeff c with ⟨r, b'⟩
  rw [hc] at hf
  simp only at hf
  obtain ⟨f1, f2, f3, f4, f5, f6, f7, f8, f9, f10, f11⟩ := hf
  have base4 : PsfInv b' := by
    refine ⟨by rw [f1]; exact base3.rows_cols, by rw [f1]; exact base3.odd, by rw [f1]; exact base3.nn, by rw [f2]; exact base3.size,
      by rw [f3]; exact base3.wavelength, by rw [f4]; exact base3.NA, by rw [f5]; exact base3.pixel, by rw [f6, f7]; exact base3.points, ?_⟩
    refine ⟨by rw [f8, f9]; exact base3.wf.1, ?_⟩
    intro as has
    rcases f11 with e | ⟨bs, e, hl⟩
    · rw [e] at has; rw [f9]; exact base3.wf.2 as has
    · rw [e] at has; cases has; rw [f9]; exact hl
  cases r with
  | error e => exact base4
  | ok u =>
    simp only []
    rcases he : b'.estimateSize with e | size
    · exact base4
    · exact { base4 with size := estimateSize_odd b' base4.pixel base4.wavelength size he }

theorem setCalculation_inv (o : PsfObj) (h : PsfInv o) (size nR nPhi : Int) : PsfInv (o.setCalculationProps size nR nPhi).2 := by
  unfold PsfObj.setCalculationProps
  by_cases h1 : size < 3
  · rw [if_pos h1]; exact h
  rw [if_neg h1]
  have h2 : makeOdd size % 2 = 1 ∧ 1 ≤ makeOdd size := ⟨makeOdd_odd _, by have := makeOdd_ge size; omega⟩
  simp only []
  split_ifs with h3 h4
  · exact { h with size := h2 }
  · exact { h with size := h2 }
  · exact { h with size := h2, points := ⟨not_lt.1 h3, not_lt.1 h4⟩ }

/-- The size of the kernel that `calculate` gives. -/
def CalculatedSize (env : Env) (o : PsfObj) (acc : Option Bool) (S : Int) : Prop :=
  (S = o.kernelSize ∧ (3 ≤ o.kernelSize ∨ o.zernpol = none ∨ env.accelerate acc = true)) ∨
  ∃ z, o.zernpol = some z ∧ env.accelerate acc = false ∧ o.kernelSize < 3 ∧
    getKernelSize z.m z.n o.pixelSize (o.expansionCoeff / o.wavelength) o.wavelength o.NA = .ok S

theorem kernelCall_post (env : Env) (o : PsfObj) (h : PsfInv o) (nrm : Bool) (acc : Option Bool) (x : CM Grid)
    (hx : o.kernelCall env nrm acc = some x) : Post x fun g => ∃ S, CalculatedSize env o acc S ∧ S % 2 = 1 ∧ SquareNN S g := by
  have hmo := makeOdd_of_odd h.size.1
  unfold PsfObj.kernelCall at hx
  split at hx
  · rename_i z hz
    simp only [Option.some.injEq] at hx
    subst hx
    split_ifs with hacc
    · refine (getPsfKernelComp_post _ _ _).mono fun g hg => ⟨o.kernelSize, Or.inl ⟨rfl, Or.inr (Or.inr hacc)⟩, h.size.1, ?_⟩
      rwa [show (o.params nrm).kernelSize = o.kernelSize from rfl, hmo] at hg
    · refine (getPsfKernel_post _ _ _ _ _ _).mono fun g hg => ?_
      obtain ⟨S, hS, hg⟩ := hg
      rcases hS with ⟨h3, rfl⟩ | ⟨h3, s, hs, rfl⟩
      · rw [show (o.params nrm).kernelSize = o.kernelSize from rfl, hmo] at hg
        exact ⟨o.kernelSize, Or.inl ⟨rfl, Or.inl h3⟩, h.size.1, hg⟩
      · have hs' : getKernelSize z.m z.n o.pixelSize (o.expansionCoeff / o.wavelength) o.wavelength o.NA = .ok s := hs
        have hodd := getKernelSize_odd _ _ _ _ _ _ h.pixel h.wavelength.le s hs'
        rw [makeOdd_of_odd hodd.1] at hg
        exact ⟨s, Or.inr ⟨z, hz, by simpa using hacc, h3, hs'⟩, hodd.1, hg⟩
  · rename_i hz
    split at hx
    · cases hx
    · split at hx
      · simp only [Option.some.injEq] at hx
        subst hx
        exact Post.raise _
      · simp only [Option.some.injEq] at hx
        subst hx
        split_ifs
        · exact Post.raise _
        · refine (getPsfKernelCompPols_post _ _).mono fun g hg => ⟨o.kernelSize, Or.inl ⟨rfl, Or.inr (Or.inl hz)⟩, h.size.1, ?_⟩
          rwa [show (o.params nrm).kernelSize = o.kernelSize from rfl, hmo] at hg
        · refine (getPsfKernelZerns_post _ _ _).mono fun g hg => ⟨o.kernelSize, Or.inl ⟨rfl, Or.inr (Or.inl hz)⟩, h.size.1, ?_⟩
          rwa [show (o.params nrm).kernelSize = o.kernelSize from rfl, hmo] at hg

/-- The object at the beginning of the calculation. -/
def calcStart (o : PsfObj) (sup : Bool) : PsfObj := if ¬ o.propsSet ∧ ¬ sup then { o with kernelSize := 19 } else o

theorem calcStart_inv (o : PsfObj) (h : PsfInv o) (sup : Bool) : PsfInv (calcStart o sup) := by
  unfold calcStart
  split_ifs
  · exact { h with size := ⟨by norm_num, by norm_num⟩ }
  · exact h

theorem calculate_cases (env : Env) (o : PsfObj) (h : PsfInv o) (sup nrm : Bool) (acc : Option Bool) (s : CoefState) :
    (∃ e, (o.calculate env sup nrm acc s).1 = .error e ∧ (o.calculate env sup nrm acc s).2.1 = calcStart o sup) ∨
    ∃ g S, (o.calculate env sup nrm acc s).1 = .ok g ∧ (o.calculate env sup nrm acc s).2.1 = { calcStart o sup with kernel := g } ∧
      CalculatedSize env (calcStart o sup) acc S ∧ S % 2 = 1 ∧ SquareNN S g := by
  have hi := calcStart_inv o h sup
  have hu : o.calculate env sup nrm acc s = (match (calcStart o sup).kernelCall env nrm acc with
    | none => (.ok (calcStart o sup).kernel, calcStart o sup, s)
    | some x =>
      match x s with
      | (.error e, s') => (.error e, calcStart o sup, s')
      | (.ok g, s') => (.ok g, { calcStart o sup with kernel := g }, s')) := rfl
  rw [hu]
  split
  · rename_i hn
    exfalso
    unfold PsfObj.kernelCall at hn
    rcases hi.wf.1 with ⟨z, h1, h2⟩ | ⟨h1, h2⟩
    · rw [h1] at hn; cases hn
    · rw [h1] at hn
      simp only at hn
      split at hn
      · rename_i hp; rw [hp] at h2; simp at h2
      · split at hn <;> cases hn
  · rename_i x hx
    have hp := kernelCall_post env _ hi nrm acc x hx
    split
    · exact Or.inl ⟨_, rfl, rfl⟩
    · rename_i g s' hg
      obtain ⟨S, h1, h2, h3⟩ := hp _ _ _ hg
      exact Or.inr ⟨g, S, rfl, rfl, h1, h2, h3⟩

theorem calculate_inv (env : Env) (o : PsfObj) (h : PsfInv o) (sup nrm : Bool) (acc : Option Bool) (s : CoefState) :
    PsfInv (o.calculate env sup nrm acc s).2.1 := by
  have hi := calcStart_inv o h sup
  rcases calculate_cases env o h sup nrm acc s with ⟨e, _, h2⟩ | ⟨g, S, _, h2, h3, h4, h5⟩
  · rw [h2]; exact hi
  · rw [h2]
    obtain ⟨h6, h7, h8⟩ := h5
    exact { hi with rows_cols := by simp only; omega, odd := by simp only; omega, nn := h8 }

theorem crop_inv (o : PsfObj) (h : PsfInv o) (part : ℝ) : PsfInv (o.crop part).2 := by
  by_cases hs : 3 < o.kernelSize
  · have hodd := h.odd
    by_cases hp : 0 < part ∧ part < 1 / 2
    · obtain ⟨top, t, h1, h2, h3⟩ := crop_spec o o.kernel.rows rfl h.rows_cols.symm (by omega) (fun i j _ _ => h.nn i j) hs part hp.1 hp.2
      rw [h3]
      simp only
      split_ifs with ht
      · exact h
      · have h4 := h2.nonempty
        have hrc := h.rows_cols
        exact { h with
          rows_cols := by simp only [Grid.inner]; omega
          odd := by simp only [Grid.inner]; omega
          nn := fun a b => h.nn _ _
          size := by simp only; omega }
    · unfold PsfObj.crop
      rw [if_pos hs]
      split
      · exact h
      · by_cases h1 : part ≤ 0
        · rw [if_pos h1]; exact h
        · rw [if_neg h1, if_pos]
          · exact h
          · norm_num; by_contra hlt; push Not at hlt; exact hp ⟨by linarith, hlt⟩
  · unfold PsfObj.crop
    rw [if_neg (by omega)]
    exact h

/-! `get_kernel_parallel` -/

theorem pointParallel_keeps (ph : Phase) (h : KeepsPhase ph) (r theta : ℝ) (nR nPhi : Int) (w : Workers) (even odd : ℂ) :
    Keeps (pointParallel ph r theta nR nPhi w even odd) := by
  have h1 : ∀ e o, Keeps (pointFromSums ph r theta nR nPhi e o) := fun e o =>
    (radialIntegral_keeps ph h _ _ _ _).bind fun _ => (radialIntegral_keeps ph h _ _ _ _).bind fun _ => Keeps.pure _
  cases w with
  | none => exact h1 _ _
  | running n => exact h1 _ _
  | released => exact (radialIntegral_keeps ph h _ _ _ _).bind fun _ => (radialIntegral_keeps ph h _ _ _ _).bind fun _ => Keeps.raise _

theorem pointParallel_post (ph : Phase) (r theta : ℝ) (nR nPhi : Int) (w : Workers) (even odd : ℂ) :
    Post (pointParallel ph r theta nR nPhi w even odd) (0 ≤ ·) := by
  have h1 : ∀ e o, Post (pointFromSums ph r theta nR nPhi e o) (0 ≤ ·) := fun e o =>
    (Post.any _).bind fun _ _ => (Post.any _).bind fun _ _ => Post.pure _ (by positivity)
  cases w with
  | none => exact h1 _ _
  | running n => exact h1 _ _
  | released => exact (Post.any _).bind fun _ _ => (Post.any _).bind fun _ _ => Post.raise _

/-- With a pupil the loops are those of `makeKernel`. -/
theorem parallelLoops_make (fuel : Nat) (o : PsfObj) (hs : 0 ≤ o.kernelSize) (z : ZernPol) (w : Workers) (even odd : Nat → Nat → ℂ) (nrm : Bool) :
    o.parallelLoops fuel z w even odd nrm = makeKernel o.kernelSize 1 (fun i j => pointParallel (singlePhase fuel z.obj o.alpha)
      (kernelDist o.kernelSize o.k o.NA o.pixelSize i j) (kernelTheta o.kernelSize i j) o.nR o.nPhi w (even i j) (odd i j)) nrm := by
  unfold makeKernel
  rw [if_neg (not_lt.2 hs), if_neg one_ne_zero]
  rfl

/-- What `get_kernel_parallel` does to an object and the tables. -/
theorem afterParallel_cases (o : PsfObj) (hs : 1 ≤ o.kernelSize) (fuel : Nat) (w : Workers) (even odd : Nat → Nat → ℂ) (nrm : Bool) (s : CoefState) :
    (o.afterParallel fuel w even odd nrm s).1 = o ∨
    (o.zernpol ≠ none ∧ ∃ g, SquareNN o.kernelSize g ∧ (o.afterParallel fuel w even odd nrm s).1 = { o with kernel := g }) ∨
    (o.zernpol = none ∧ (o.afterParallel fuel w even odd nrm s).1 = { o with kernelSize := 3, kernel := Grid.zeros 3 3 }) := by
  classical
  unfold PsfObj.afterParallel
  split_ifs with hn
  · left; rfl
  · clear hn
    unfold PsfObj.kernelParallel
    rcases hz : o.zernpol with _ | z
    · right; right; exact ⟨rfl, rfl⟩
    · simp only
      by_cases h3 : o.kernelSize < 3
      · rw [if_pos h3]; left; rfl
      · rw [if_neg h3]
        right; left
        refine ⟨by simp, ?_⟩
        rw [parallelLoops_make fuel o (by omega) z w even odd nrm]
        have hp := makeKernel_post o.kernelSize 1 (fun i j => pointParallel (singlePhase fuel z.obj o.alpha)
          (kernelDist o.kernelSize o.k o.NA o.pixelSize i j) (kernelTheta o.kernelSize i j) o.nR o.nPhi w (even i j) (odd i j)) nrm
          (fun i j => pointParallel_post _ _ _ _ _ _ _ _)
        split
        · rename_i g s' hg
          exact ⟨g, hp _ _ _ hg, rfl⟩
        · refine ⟨Grid.zeros o.kernelSize.toNat o.kernelSize.toNat, ⟨?_, ?_, fun _ _ => le_refl _⟩, rfl⟩ <;> simp only [Grid.zeros] <;> omega

theorem afterParallel_inv (o : PsfObj) (h : PsfInv o) (fuel : Nat) (w : Workers) (even odd : Nat → Nat → ℂ) (nrm : Bool) (s : CoefState) :
    PsfInv (o.afterParallel fuel w even odd nrm s).1 := by
  rcases afterParallel_cases o h.size.2 fuel w even odd nrm s with e | ⟨_, g, ⟨h6, h7, h8⟩, e⟩ | ⟨_, e⟩ <;> rw [e]
  · exact h
  · have := h.size
    exact { h with rows_cols := by simp only; omega, odd := by simp only; omega, nn := h8 }
  · exact { h with rows_cols := rfl, odd := by simp [Grid.zeros], nn := fun _ _ => le_refl _, size := ⟨by norm_num, by norm_num⟩ }

theorem afterParallel_good (o : PsfObj) (fuel : Nat) (w : Workers) (even odd : Nat → Nat → ℂ) (nrm : Bool) (s : CoefState) (hs : Good s) :
    Good (o.afterParallel fuel w even odd nrm s).2 := by
  classical
  unfold PsfObj.afterParallel
  split_ifs
  · exact hs
  · unfold PsfObj.kernelParallel
    rcases hz : o.zernpol with _ | z
    · exact hs
    · simp only
      by_cases h3 : o.kernelSize < 3
      · rw [if_pos h3]; exact hs
      · rw [if_neg h3]
        have hk : Keeps (o.parallelLoops fuel z w even odd nrm) := by
          rw [parallelLoops_make fuel o (by omega)]
          exact makeKernel_keeps _ _ _ _ fun i j => pointParallel_keeps _ (singlePhase_keeps _ _ _) _ _ _ _ _ _ _
        have := hk s hs
        split
        · rename_i h; rw [h] at this; exact this
        · rename_i h; rw [h] at this; exact this

theorem run_inv (x : PsfObj × CoefState) (h : PsfInv x.1) (c : PsfCall) : PsfInv (c.run x).1 := by
  cases c with
  | setPhysicalProps NA wl c px => exact setPhysical_inv _ h _ _ _ _
  | setCalculationProps size nR nPhi => exact setCalculation_inv _ h _ _ _
  | calculate env sup nrm acc => exact calculate_inv _ _ h _ _ _ _
  | crop part => exact crop_inv _ h _
  | parallel fuel w even odd nrm => exact afterParallel_inv _ h _ _ _ _ _ _

theorem run_psf_good (x : PsfObj × CoefState) (h : Good x.2) (c : PsfCall) : Good (c.run x).2 := by
  cases c with
  | setPhysicalProps NA wl c px => exact h
  | setCalculationProps size nR nPhi => exact h
  | calculate env sup nrm acc => exact calculate_good _ _ _ _ _ _ h
  | crop part => exact h
  | parallel fuel w even odd nrm => exact afterParallel_good _ _ _ _ _ _ _ h

theorem afterPsf_inv (o : PsfObj) (s : CoefState) (h : PsfInv o) (calls : List PsfCall) : PsfInv (afterPsfCalls o s calls).1 := by
  unfold afterPsfCalls
  have : ∀ x : PsfObj × CoefState, PsfInv x.1 → PsfInv (calls.foldl PsfCall.run x).1 := by
    induction calls with
    | nil => exact fun x hx => hx
    | cons c t ih => exact fun x hx => ih _ (run_inv x hx c)
  exact this (o, s) h

theorem afterPsf_good (o : PsfObj) (s : CoefState) (h : Good s) (calls : List PsfCall) : Good (afterPsfCalls o s calls).2 := by
  unfold afterPsfCalls
  have : ∀ x : PsfObj × CoefState, Good x.2 → Good (calls.foldl PsfCall.run x).2 := by
    induction calls with
    | nil => exact fun x hx => hx
    | cons c t ih => exact fun x hx => ih _ (run_psf_good x hx c)
  exact this (o, s) h

/-- No call changes the polynomials or the Airy flag. -/
theorem run_pols (x : PsfObj × CoefState) (h : PsfInv x.1) (c : PsfCall) : (c.run x).1.zernpol = x.1.zernpol ∧
    (c.run x).1.polynomials = x.1.polynomials ∧ (c.run x).1.airy = x.1.airy := by
  cases c with
  | setPhysicalProps NA wl c px =>
    simp only [PsfCall.run]
    rcases setPhysical_cases x.1 NA wl c px with ⟨_, e⟩ | ⟨_, _, e⟩ | ⟨_, _, _, _, e⟩ | ⟨_, _, _, _, _, e⟩ <;> rw [e]
    · exact ⟨rfl, rfl, rfl⟩
    · exact ⟨rfl, rfl, rfl⟩
    · exact ⟨rfl, rfl, rfl⟩
    · have e0 : (physBase x.1 NA wl px).zernpol = x.1.zernpol ∧ (physBase x.1 NA wl px).polynomials = x.1.polynomials ∧
          (physBase x.1 NA wl px).airy = x.1.airy := ⟨rfl, rfl, rfl⟩
      generalize physBase x.1 NA wl px = b at e0
      unfold physRest
      have hf := storeCoeff_facts b c
      rcases hc : b.storeCoeff c with ⟨r, b'⟩
      rw [hc] at hf
      simp only at hf
      obtain ⟨f1, f2, f3, f4, f5, f6, f7, f8, f9, f10, f11⟩ := hf
      have e : b'.zernpol = x.1.zernpol ∧ b'.polynomials = x.1.polynomials ∧ b'.airy = x.1.airy := by
        rw [f8, f9, f10]; exact e0
      cases r with
      | error e' => exact e
      | ok u =>
        simp only []
        split <;> exact e
  | setCalculationProps size nR nPhi =>
    simp only [PsfCall.run]
    unfold PsfObj.setCalculationProps
    by_cases h1 : size < 3
    · rw [if_pos h1]; exact ⟨rfl, rfl, rfl⟩
    rw [if_neg h1]
    by_cases h2 : nR < 20
    · simp only [if_pos h2]; exact ⟨trivial, trivial, trivial⟩
    by_cases h3 : nPhi < 36
    · simp only [if_neg h2, if_pos h3]; exact ⟨trivial, trivial, trivial⟩
    · simp only [if_neg h2, if_neg h3]; exact ⟨trivial, trivial, trivial⟩
  | calculate env sup nrm acc =>
    simp only [PsfCall.run]
    have hcs : (calcStart x.1 sup).zernpol = x.1.zernpol ∧ (calcStart x.1 sup).polynomials = x.1.polynomials ∧
        (calcStart x.1 sup).airy = x.1.airy := by unfold calcStart; split_ifs <;> exact ⟨rfl, rfl, rfl⟩
    rcases calculate_cases env x.1 h sup nrm acc x.2 with ⟨e, _, h2⟩ | ⟨g, S, _, h2, _⟩
    · rw [h2]; exact hcs
    · rw [h2]; exact hcs
  | crop part =>
    simp only [PsfCall.run]
    unfold PsfObj.crop
    split_ifs <;> (try exact ⟨rfl, rfl, rfl⟩) <;> split <;> (try exact ⟨rfl, rfl, rfl⟩)
    split
    · exact ⟨rfl, rfl, rfl⟩
    · split <;> exact ⟨rfl, rfl, rfl⟩
  | parallel fuel w even odd nrm =>
    simp only [PsfCall.run]
    rcases afterParallel_cases x.1 h.size.2 fuel w even odd nrm x.2 with e | ⟨_, g, _, e⟩ | ⟨_, e⟩ <;> rw [e] <;> exact ⟨rfl, rfl, rfl⟩

theorem afterPsf_pols (o : PsfObj) (s : CoefState) (h : PsfInv o) (calls : List PsfCall) :
    (afterPsfCalls o s calls).1.zernpol = o.zernpol ∧ (afterPsfCalls o s calls).1.polynomials = o.polynomials ∧
      (afterPsfCalls o s calls).1.airy = o.airy := by
  unfold afterPsfCalls
  have : ∀ x : PsfObj × CoefState, PsfInv x.1 → (calls.foldl PsfCall.run x).1.zernpol = x.1.zernpol ∧
      (calls.foldl PsfCall.run x).1.polynomials = x.1.polynomials ∧ (calls.foldl PsfCall.run x).1.airy = x.1.airy := by
    induction calls with
    | nil => exact fun x _ => ⟨rfl, rfl, rfl⟩
    | cons c t ih =>
      intro x hx
      have h1 := run_pols x hx c
      have h2 := ih _ (run_inv x hx c)
      exact ⟨h2.1.trans h1.1, h2.2.1.trans h1.2.1, h2.2.2.trans h1.2.2⟩
  exact this (o, s) h

end Verif.Proofs
