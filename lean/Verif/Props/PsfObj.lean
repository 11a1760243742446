import Verif.Proofs.PsfInv
import Verif.Props.ZernPol
import Verif.Props.PsfAccelerated

/-!
# C29, C30, C31: construction and properties of `ZernPSF` objects
-/

namespace Verif.Props
open Verif.Model Verif.Spec Verif.Proofs

/-! ### C29: construction -/

theorem allPols_some (l : List Operand) (zs : List ZernPol) : allPols l = some zs ↔ l = zs.map Operand.zern := by
  induction l generalizing zs with
  | nil => cases zs <;> simp [allPols]
  | cons x l ih =>
    cases x with
    | other => cases zs <;> simp [allPols]
    | zern z =>
      cases zs with
      | nil => simp [allPols]
      | cons w zs =>
        simp only [allPols, Option.map_eq_some_iff, List.map_cons, List.cons.injEq, Operand.zern.injEq]
        constructor
        · rintro ⟨a, h1, rfl, rfl⟩; exact ⟨rfl, (ih _).1 h1⟩
        · rintro ⟨rfl, h⟩; exact ⟨zs, (ih _).2 h, rfl, rfl⟩

theorem dedup_short {l : List Int} : l.dedup.length < l.length ↔ ¬ l.Nodup := by
  constructor
  · intro h hn; rw [hn.dedup] at h; omega
  · intro h
    have := (List.dedup_sublist l).length_le
    rcases this.lt_or_eq with h' | h'
    · exact h'
    · exact absurd ((List.dedup_sublist l).eq_of_length h' ▸ List.nodup_dedup l) h

/-- Specification: the argument of the constructor consists of the polynomials `zs`: it is a polynomial, or a sequence of nothing but polynomials. -/
def ConsistsOf (arg : PsfArg) (zs : List ZernPol) : Prop := (∃ z, arg = .pol z ∧ zs = [z]) ∨ arg = .seq (zs.map .zern)

/-- A non-empty collection of polynomials with pairwise different OSA indices. -/
def AcceptablePols (zs : List ZernPol) : Prop := zs ≠ [] ∧ (zs.map ZernPol.osa).Nodup

/-- C29 (partial: see `psf_init_accepts_non_polynomial` and `psf_init_attribute_error` for what is missing). A `ZernPol` and a sequence of several
objects are accepted exactly when they are polynomials with pairwise different OSA indices, otherwise the `ValueError` is raised; an empty
sequence raises it too. The object holds the given polynomials. -/
theorem psf_init_exact_partial (arg : PsfArg) (h1 : arg ≠ .other) (h2 : arg ≠ .seq [.other]) :
    (∀ zs, ConsistsOf arg zs → AcceptablePols zs → ∃ o, psfInit arg = .ok o ∧
      (∀ z, zs = [z] → o.zernpol = some z ∧ o.polynomials = []) ∧ (2 ≤ zs.length → o.zernpol = none ∧ o.polynomials = zs) ∧
      (o.airy = true ↔ ∃ z ∈ zs, z.m = 0 ∧ z.n = 0)) ∧
    ((¬ ∃ zs, ConsistsOf arg zs ∧ AcceptablePols zs) → psfInit arg = .error .valueError) := by
  match arg, h1, h2 with
  | .pol z, _, _ =>
    refine ⟨?_, ?_⟩
    · intro zs e _
      have e : [z] = zs := by
        rcases e with ⟨w, e, rfl⟩ | e
        · cases e; rfl
        · cases e
      subst e
      refine ⟨_, rfl, ?_, by simp, ?_⟩
      · intro z' hz'; simp at hz'; subst hz'; exact ⟨rfl, rfl⟩
      · simp [ZernPol.isPiston]
    · intro h; exact absurd ⟨[z], Or.inl ⟨z, rfl, rfl⟩, by simp [AcceptablePols]⟩ h
  | .seq [], _, _ =>
    refine ⟨?_, fun _ => rfl⟩
    intro zs e h
    rcases e with ⟨w, e, _⟩ | e
    · cases e
    · cases zs with
      | nil => exact absurd rfl h.1
      | cons => simp at e
  | .seq [.zern z], _, _ =>
    refine ⟨?_, ?_⟩
    · intro zs e _
      have e : [z] = zs := by
        rcases e with ⟨w, e, _⟩ | e
        · cases e
        · match zs, e with
          | [], e => simp at e
          | [w], e => simpa using e
          | _ :: _ :: _, e => simp at e
      subst e
      refine ⟨_, rfl, ?_, by simp, ?_⟩
      · intro z' hz'; simp at hz'; subst hz'; exact ⟨rfl, rfl⟩
      · simp [ZernPol.isPiston]
    · intro h; exact absurd ⟨[z], Or.inr rfl, by simp [AcceptablePols]⟩ h
  | .seq [.other], _, h2 => exact absurd rfl h2
  | .seq (x :: y :: l), _, _ =>
    have hu : psfInit (.seq (x :: y :: l)) = (match allPols (x :: y :: l) with
      | none => .error .valueError
      | some zs =>
        if (zs.map ZernPol.osa).dedup.length < (zs.map ZernPol.osa).length then .error .valueError
        else .ok { psfDefault with polynomials := zs, zernpol := none, airy := zs.any ZernPol.isPiston }) := by
      cases x <;> rfl
    rw [hu]
    refine ⟨?_, ?_⟩
    · intro zs e h
      have e' : allPols (x :: y :: l) = some zs := by
        rcases e with ⟨w, e, _⟩ | e
        · cases e
        · exact (allPols_some _ _).2 (by simpa using e)
      rw [e']
      simp only []
      rw [if_neg (by rw [dedup_short]; exact not_not.2 h.2)]
      refine ⟨_, rfl, ?_, fun _ => ⟨rfl, rfl⟩, ?_⟩
      · rintro z rfl
        have := (allPols_some _ _).1 e'
        simp at this
      · simp [ZernPol.isPiston]
    · intro h
      rcases hc : allPols (x :: y :: l) with _ | zs
      · rfl
      · simp only []
        rw [if_pos]
        rw [dedup_short]
        intro hn
        refine h ⟨zs, Or.inr (by rw [(allPols_some _ _).1 hc]), ?_, hn⟩
        rintro rfl
        have := (allPols_some _ _).1 hc
        simp at this

/-- C29. For polynomials with valid orders, different OSA indices are the same as different orders. -/
theorem acceptable_iff_different_orders (zs : List ZernPol) (hc : ∀ z ∈ zs, Constructed z ∧ ValidOrders z.m z.n) :
    AcceptablePols zs ↔ zs ≠ [] ∧ (zs.map fun z => (z.m, z.n)).Nodup := by
  unfold AcceptablePols
  refine and_congr_right fun _ => ?_
  have e : zs.map ZernPol.osa = (zs.map fun z => (z.m, z.n)).map fun p => getOsaIndex p.1 p.2 := by
    rw [List.map_map]
    refine List.map_congr_left fun z hz => ?_
    obtain ⟨⟨kw, hd, h⟩, _⟩ := hc z hz
    exact (ctor_consistent kw hd z h).1
  rw [e]
  refine ⟨List.Nodup.of_map _, fun hn => hn.map_on ?_⟩
  intro x hx y hy hxy
  obtain ⟨z, hz, rfl⟩ := List.mem_map.1 hx
  obtain ⟨w, hw, rfl⟩ := List.mem_map.1 hy
  exact osa_index_bijective.injOn (hc z hz).2 (hc w hw).2 hxy

/-- C29 is false for an argument that is neither a `ZernPol` nor a sequence: it is accepted, and the object holds the default polynomial (the
piston) without the Airy flag. -/
theorem psf_init_accepts_non_polynomial : ∃ o, psfInit .other = .ok o ∧ o.zernpol = some pistonPol ∧ o.airy = false := ⟨_, rfl, rfl, rfl⟩

/-- C29 is false for a sequence of one object that is no `ZernPol`: an `AttributeError` is raised. -/
theorem psf_init_attribute_error : psfInit (.seq [.other]) = .error .attributeError := rfl

/-- The hypotheses are met: two polynomials with different orders. -/
example : AcceptablePols [⟨-1, 1, 1, 3, .int 3⟩, ⟨1, 1, 2, 2, .int 2⟩] := by unfold AcceptablePols; decide

/-! ### C30: physical properties -/

/-- C30. The properties of a new object, whatever it was constructed from, correspond to each other: the relative amplitude is the coefficient divided
by the wavelength, the wave number belongs to the wavelength, and the pixel is smaller than a quarter of `wavelength / NA`. -/
theorem new_object_consistent (arg : PsfArg) (o : PsfObj) (h : psfInit arg = .ok o) :
    o.alpha = o.expansionCoeff / o.wavelength ∧ o.k = 2 * Real.pi / o.wavelength ∧ o.nyquist = o.wavelength / (4 * o.NA) ∧ 0 < o.pixelSize ∧
      o.pixelSize ≤ o.nyquist ∧ 0 < o.NA ∧ o.NA ≤ 1.7 ∧ 0 < o.wavelength ∧ o.coefficients = none ∧ o.amplitudes = none := by
  have hd : ∃ p l b, o = { psfDefault with zernpol := p, polynomials := l, airy := b } := by
    unfold psfInit at h
    split at h
    · cases h; exact ⟨_, _, _, rfl⟩
    · cases h
    · cases h; exact ⟨_, _, _, rfl⟩
    · cases h
    · split at h
      · cases h
      · split_ifs at h
        cases h; exact ⟨_, _, _, rfl⟩
    · cases h; exact ⟨_, _, _, rfl⟩
  obtain ⟨p, l, b, rfl⟩ := hd
  norm_num [psfDefault]


/-- `o` is an object after its construction and any calls of its methods, `s` are the coefficient tables of the process then; before, any
calls on other objects happened. -/
def PsfReachable (o : PsfObj) (s : CoefState) : Prop :=
  ∃ arg o0 h calls, psfInit arg = .ok o0 ∧ afterPsfCalls o0 (afterCalls h) calls = (o, s)

theorem PsfReachable.inv {o : PsfObj} {s : CoefState} (h : PsfReachable o s) : PsfInv o := by
  obtain ⟨arg, o0, h, calls, h1, h2⟩ := h
  have := afterPsf_inv o0 (afterCalls h) (psfInit_inv arg o0 h1) calls
  rwa [h2] at this

theorem PsfReachable.good {o : PsfObj} {s : CoefState} (h : PsfReachable o s) : Good s := by
  obtain ⟨arg, o0, h, calls, h1, h2⟩ := h
  have := afterPsf_good o0 (afterCalls h) (afterCalls_good h) calls
  rwa [h2] at this

theorem PsfReachable.step {o : PsfObj} {s : CoefState} (h : PsfReachable o s) (c : PsfCall) : PsfReachable (c.run (o, s)).1 (c.run (o, s)).2 := by
  obtain ⟨arg, o0, h, calls, h1, h2⟩ := h
  exact ⟨arg, o0, h, calls ++ [c], h1, by unfold afterPsfCalls at h2 ⊢; rw [List.foldl_append, h2]; rfl⟩

theorem PsfReachable.single {o : PsfObj} {s : CoefState} (h : PsfReachable o s) {z : ZernPol} (hz : o.zernpol = some z) : o.polynomials = [] := by
  rcases h.inv.wf.1 with ⟨_, _, h⟩ | ⟨h, _⟩
  · exact h
  · rw [hz] at h; cases h

theorem PsfReachable.several {o : PsfObj} {s : CoefState} (h : PsfReachable o s) (hz : o.zernpol = none) : 2 ≤ o.polynomials.length := by
  rcases h.inv.wf.1 with ⟨z, h, _⟩ | ⟨_, h⟩
  · rw [hz] at h; cases h
  · exact h

/-- The given numbers. -/
def coeffValues : CoeffArg → List ℝ
  | .num x => [x]
  | .seq l => l
  | .bad _ => []

/-- The argument fits to the number of polynomials: a single number for a single polynomial, or a sequence of the same length. -/
def CoeffFits (count : ℕ) : CoeffArg → Prop
  | .num _ => count = 1
  | .seq l => l.length = count
  | .bad _ => False

/-- The accepted ranges: `0 < NA ≤ 1.7`, positive wavelength, positive pixel size up to the Nyquist limit. -/
def PhysicalOk (NA wavelength pixelSize : ℝ) : Prop :=
  0 < NA ∧ NA ≤ 1.7 ∧ 0 < wavelength ∧ 0 < pixelSize ∧ pixelSize ≤ wavelength / (4 * NA)

/-- `o'` is the object `o` with the new properties; the kernel, the polynomials and the numbers of points are the same. -/
structure Stored (o o' : PsfObj) (newNA newWl newPx : ℝ) (values : List ℝ) : Prop where
  NA : o'.NA = newNA
  wavelength : o'.wavelength = newWl
  pixelSize : o'.pixelSize = newPx
  nyquist : o'.nyquist = newWl / (4 * newNA)
  single : ∀ x, o.zernpol ≠ none → values = [x] → o'.expansionCoeff = x ∧ o'.alpha = x / newWl
  several : o.zernpol = none → o'.coefficients = some values ∧ o'.amplitudes = some (values.map (· / newWl))
  propsSet : o'.propsSet = true
  same : o'.kernel = o.kernel ∧ o'.zernpol = o.zernpol ∧ o'.polynomials = o.polynomials ∧ o'.airy = o.airy ∧ o'.nR = o.nR ∧ o'.nPhi = o.nPhi
  size : o'.kernelSize % 2 = 1 ∧ 1 ≤ o'.kernelSize

theorem npMax_of_ne {l : List ℝ} (h : l ≠ []) : ∃ t, npMax l = .ok t := by
  obtain ⟨t, h, _⟩ := npMax_ok l h
  exact ⟨t, h⟩

theorem storeCoeff_single (b : PsfObj) (z : ZernPol) (hz : b.zernpol = some z) (hp : b.polynomials = []) (c : CoeffArg) :
    (CoeffFits 1 c → ∃ x, coeffValues c = [x] ∧ b.storeCoeff c = (.ok (), b.storeOne x)) ∧
    (¬ CoeffFits 1 c → ∃ e b', b.storeCoeff c = (.error e, b') ∧ (e = .valueError ∨ c = .bad e) ∧ b'.propsSet = b.propsSet) := by
  cases c with
  | num x => exact ⟨fun _ => ⟨x, rfl, by simp [PsfObj.storeCoeff, hz]⟩, fun h => absurd rfl h⟩
  | bad e => exact ⟨fun h => absurd h (by simp [CoeffFits]), fun _ => ⟨e, b, by simp [PsfObj.storeCoeff, hz], Or.inr rfl, rfl⟩⟩
  | seq l =>
    rcases l with _ | ⟨x, _ | ⟨y, t⟩⟩
    · exact ⟨fun h => absurd h (by simp [CoeffFits]), fun _ => ⟨.valueError, { b with coefficients := some [] }, by simp [PsfObj.storeCoeff, hp, npMax], Or.inl rfl, rfl⟩⟩
    · exact ⟨fun _ => ⟨x, rfl, by simp [PsfObj.storeCoeff, hp]⟩, fun h => absurd rfl h⟩
    · exact ⟨fun h => absurd h (by simp [CoeffFits]), fun _ => ⟨.valueError, b, by simp [PsfObj.storeCoeff, hp], Or.inl rfl, rfl⟩⟩

theorem storeCoeff_several (b : PsfObj) (hz : b.zernpol = none) (hp : 2 ≤ b.polynomials.length) (c : CoeffArg) :
    (CoeffFits b.polynomials.length c → ∃ l, coeffValues c = l ∧ l.length = b.polynomials.length ∧
      b.storeCoeff c = (.ok (), { b with coefficients := some l, amplitudes := some (l.map (· / b.wavelength)) })) ∧
    (¬ CoeffFits b.polynomials.length c → b.storeCoeff c = (.error .valueError, b)) := by
  cases c with
  | num x =>
    refine ⟨fun h => ?_, fun _ => ?_⟩
    · have h : b.polynomials.length = 1 := h
      omega
    · simp only [PsfObj.storeCoeff]
      rw [if_pos ⟨hz, by omega⟩]
  | bad e =>
    refine ⟨fun h => absurd h (by simp [CoeffFits]), fun _ => ?_⟩
    simp only [PsfObj.storeCoeff]
    rw [if_pos ⟨hz, by omega⟩]
  | seq l =>
    refine ⟨fun h => ?_, fun h => ?_⟩
    · have h : l.length = b.polynomials.length := h
      obtain ⟨t, ht⟩ := npMax_of_ne (l := l) (by rintro rfl; simp at h; omega)
      refine ⟨l, rfl, h, ?_⟩
      simp only [PsfObj.storeCoeff]
      rw [if_neg (not_not.2 h), ht]
    · have h : l.length ≠ b.polynomials.length := h
      simp only [PsfObj.storeCoeff]
      rw [if_pos h]
      rcases l with _ | ⟨x, _ | ⟨y, t⟩⟩
      · rfl
      · simp only []; rw [if_neg (by omega)]
      · rfl

theorem sizeLoop_ok (px wl NA : ℝ) (hpx : 0 < px) (hwl : 0 ≤ wl) (hNA : 0 < NA) (ps : List ZernPol) (hv : ∀ z ∈ ps, ValidOrders z.m z.n) :
    ∀ (as : List ℝ) (acc : Int × ℝ), as.length = ps.length → ∃ r, sizeLoop px wl NA ps as acc = .ok r := by
  induction ps with
  | nil => exact fun as acc _ => ⟨acc, rfl⟩
  | cons p ps ih =>
    intro as acc h
    cases as with
    | nil => simp at h
    | cons a as =>
      obtain ⟨s, e, _⟩ := getKernelSize_ok p.m p.n (hv p (by simp)) px a wl NA hpx hwl hNA
      obtain ⟨size, ampl⟩ := acc
      simp only [sizeLoop, e]
      exact ih (fun z hz => hv z (by simp [hz])) as _ (by simpa using h)

theorem estimateSize_ok (b : PsfObj) (hv : ∀ z ∈ psfPols b, ValidOrders z.m z.n) (hpx : 0 < b.pixelSize) (hwl : 0 < b.wavelength)
    (hNA : 0 < b.NA) (ha : b.zernpol = none → ∃ as, b.amplitudes = some as ∧ as.length = b.polynomials.length) :
    ∃ s, b.estimateSize = .ok s ∧ s % 2 = 1 ∧ 1 ≤ s := by
  have : ∃ s, b.estimateSize = .ok s := by
    unfold PsfObj.estimateSize
    rcases hz : b.zernpol with _ | z
    · obtain ⟨as, h1, h2⟩ := ha hz
      obtain ⟨⟨size, ampl⟩, hr⟩ := sizeLoop_ok b.pixelSize b.wavelength b.NA hpx hwl.le hNA b.polynomials (fun z h => hv z (by simp [psfPols, hz, h])) as (0, 0) h2
      simp only [h1]
      rcases hb : b.polynomials with _ | ⟨p, t⟩
      · rw [hb] at hr
        simp only [Option.getD_some, hr]
        exact ⟨_, rfl⟩
      · rw [hb] at hr
        simp only [Option.getD_some, hr]
        exact ⟨_, rfl⟩
    · obtain ⟨s, e, _⟩ := getKernelSize_ok z.m z.n (hv z (by simp [psfPols, hz])) b.pixelSize b.alpha b.wavelength b.NA hpx hwl.le hNA
      exact ⟨s, e⟩
  obtain ⟨s, hs⟩ := this
  exact ⟨s, hs, estimateSize_odd b hpx hwl s hs⟩

theorem nyquist_eq (wl NA : ℝ) : 0.5 * 0.5 * wl / NA = wl / (4 * NA) := by
  rcases eq_or_ne NA 0 with rfl | h
  · simp
  · field_simp; norm_num; ring

/-- C30 (partial: see `wave_number_stale` and `rejected_call_changes_object` for what is missing). On an object in any state,
`set_physical_props` succeeds exactly for the accepted ranges and fitting coefficients; then all properties used for the calculation of the kernel
correspond to the arguments. Otherwise it raises a `ValueError` (a `ZeroDivisionError` for `NA = 0`, or the exception of `float()`), and the kernel,
its size, the polynomials and the numbers of points are not changed. -/
theorem set_physical_props_exact_partial (o : PsfObj) (s : CoefState) (hr : PsfReachable o s) (hv : ∀ z ∈ psfPols o, ValidOrders z.m z.n)
    (NA wl px : ℝ) (c : CoeffArg) :
    (PhysicalOk NA wl px ∧ CoeffFits (psfPols o).length c → ∃ o', o.setPhysicalProps NA wl c px = (.ok (), o') ∧
      Stored o o' NA wl px (coeffValues c)) ∧
    (¬ (PhysicalOk NA wl px ∧ CoeffFits (psfPols o).length c) → ∃ e o', o.setPhysicalProps NA wl c px = (.error e, o') ∧
      (e = .valueError ∨ (NA = 0 ∧ e = .zeroDivisionError) ∨ c = .bad e) ∧
      o'.kernel = o.kernel ∧ o'.kernelSize = o.kernelSize ∧ o'.zernpol = o.zernpol ∧ o'.polynomials = o.polynomials ∧ o'.airy = o.airy ∧
      o'.nR = o.nR ∧ o'.nPhi = o.nPhi ∧ o'.propsSet = o.propsSet) := by
  have hnot : ∀ {P : Prop}, (PhysicalOk NA wl px → False) → ∀ (x : PhysicalOk NA wl px ∧ CoeffFits (psfPols o).length c), P :=
    fun h x => (h x.1).elim
  rcases setPhysical_cases o NA wl c px with ⟨h1, e⟩ | ⟨h2, h3, e⟩ | ⟨h2, h3, h4, h5, e⟩ | ⟨h2, h3, h4, h5, h6, e⟩ <;> rw [e]
  · refine ⟨hnot ?_, fun _ => ⟨_, _, rfl, Or.inl rfl, rfl, rfl, rfl, rfl, rfl, rfl, rfl, rfl⟩⟩
    rintro ⟨a1, a2, a3, _⟩
    rcases h1 with h | h | h <;> linarith
  · refine ⟨hnot ?_, fun _ => ⟨_, _, rfl, Or.inr (Or.inl ⟨h3, rfl⟩), rfl, rfl, rfl, rfl, rfl, rfl, rfl, rfl⟩⟩
    rintro ⟨a1, _⟩
    linarith
  · refine ⟨hnot ?_, fun _ => ⟨_, _, rfl, Or.inl rfl, rfl, rfl, rfl, rfl, rfl, rfl, rfl, rfl⟩⟩
    rintro ⟨a1, a2, a3, a4, a5⟩
    rw [nyquist_eq] at h5
    rcases h5 with h | h <;> linarith
  · rw [nyquist_eq] at h6
    have hphys : PhysicalOk NA wl px := ⟨h3, h4, h2, h5, h6⟩
    have wf := hr.inv.wf.1
    have hpols : psfPols (physBase o NA wl px) = psfPols o := rfl
    unfold physRest
    rcases wf with ⟨z, hz, hp⟩ | ⟨hz, hp⟩
    · have hlen : (psfPols o).length = 1 := by simp [psfPols, hz]
      rw [hlen]
      obtain ⟨k1, k2⟩ := storeCoeff_single (physBase o NA wl px) z hz hp c
      refine ⟨fun ⟨_, hf⟩ => ?_, fun hn => ?_⟩
      · obtain ⟨x, hx, hs⟩ := k1 hf
        rw [hs]
        obtain ⟨S, hS, hodd⟩ := estimateSize_ok ((physBase o NA wl px).storeOne x) (by intro w hw; exact hv w hw) h5 h2 h3
          (by intro h; exact absurd (hz.symm.trans h) (by simp))
        simp only [hS]
        refine ⟨_, rfl, ⟨rfl, rfl, rfl, nyquist_eq _ _, ?_, ?_, rfl, ⟨rfl, rfl, rfl, rfl, rfl, rfl⟩, hodd⟩⟩
        · intro y _ hy
          rw [hx] at hy
          simp only [List.cons.injEq, and_true] at hy
          subst hy
          exact ⟨rfl, rfl⟩
        · intro h; rw [hz] at h; cases h
      · have hn : ¬ CoeffFits 1 c := fun h => hn ⟨hphys, h⟩
        obtain ⟨e, b', he, hc, hps⟩ := k2 hn
        have hf := storeCoeff_facts (physBase o NA wl px) c
        rw [he] at hf ⊢
        obtain ⟨f1, f2, f3, f4, f5, f6, f7, f8, f9, f10, f11⟩ := hf
        exact ⟨e, b', rfl, by tauto, f1, f2, f8, f9, f10, f6, f7, hps⟩
    · have hlen : (psfPols o).length = o.polynomials.length := by simp [psfPols, hz]
      rw [hlen]
      obtain ⟨k1, k2⟩ := storeCoeff_several (physBase o NA wl px) hz hp c
      refine ⟨fun ⟨_, hf⟩ => ?_, fun hn => ?_⟩
      · obtain ⟨l, hl, hlen, hs⟩ := k1 hf
        rw [hs]
        obtain ⟨S, hS, hodd⟩ := estimateSize_ok { physBase o NA wl px with coefficients := some l, amplitudes := some (l.map (· / wl)) }
          (by intro w hw; exact hv w hw) h5 h2 h3 (fun _ => ⟨_, rfl, by simpa using hlen⟩)
        have hS' : PsfObj.estimateSize { physBase o NA wl px with coefficients := some l, amplitudes := some (l.map (· / (physBase o NA wl px).wavelength)) } = .ok S := hS
        simp only [hS']
        refine ⟨_, rfl, ⟨rfl, rfl, rfl, nyquist_eq _ _, ?_, ?_, rfl, ⟨rfl, rfl, rfl, rfl, rfl, rfl⟩, hodd⟩⟩
        · intro y h; exact absurd hz h
        · intro _; rw [hl]; exact ⟨rfl, rfl⟩
      · have hn : ¬ CoeffFits o.polynomials.length c := fun h => hn ⟨hphys, h⟩
        rw [k2 hn]
        exact ⟨_, _, rfl, Or.inl rfl, rfl, rfl, rfl, rfl, rfl, rfl, rfl, rfl⟩

theorem storeCoeff_k (o : PsfObj) (c : CoeffArg) : (o.storeCoeff c).2.k = o.k := by
  cases c with
  | num x =>
    simp only [PsfObj.storeCoeff]
    split_ifs <;> simp [PsfObj.storeOne]
  | bad e =>
    simp only [PsfObj.storeCoeff]
    split_ifs <;> simp
  | seq l =>
    simp only [PsfObj.storeCoeff]
    by_cases h : l.length ≠ o.polynomials.length
    · rw [if_pos h]
      rcases l with _ | ⟨x, _ | ⟨y, t⟩⟩
      · simp
      · by_cases h0 : o.polynomials.length = 0
        · simp [h0, PsfObj.storeOne]
        · simp [h0]
      · simp
    · rw [if_neg h]
      cases npMax l with
      | error e => simp
      | ok a => simp

theorem setPhysical_k (o : PsfObj) (NA wl px : ℝ) (c : CoeffArg) (o' : PsfObj) (h : o.setPhysicalProps NA wl c px = (.ok (), o')) :
    o'.k = 2 * Real.pi / o.wavelength := by
  rcases setPhysical_cases o NA wl c px with ⟨h1, e⟩ | ⟨h2, h3, e⟩ | ⟨h2, h3, h4, h5, e⟩ | ⟨h2, h3, h4, h5, h6, e⟩ <;> rw [e] at h
  · simp at h
  · simp at h
  · simp at h
  · unfold physRest at h
    have hk := storeCoeff_k (physBase o NA wl px) c
    rcases hs : (physBase o NA wl px).storeCoeff c with ⟨r, b⟩
    rw [hs] at h hk
    cases r with
    | error e => simp at h
    | ok u =>
      simp only at h hk
      rcases he : b.estimateSize with e | size
      · rw [he] at h; simp at h
      · rw [he] at h
        simp only [Prod.mk.injEq, true_and] at h
        rw [← h]
        exact hk

/-- C30 is false for the wave number: after a successful call it is the one of the wavelength before the call. So it is correct exactly if the
wavelength did not change. -/
theorem wave_number_stale (o : PsfObj) (s : CoefState) (hr : PsfReachable o s) (NA wl px : ℝ) (c : CoeffArg) (o' : PsfObj)
    (h : o.setPhysicalProps NA wl c px = (.ok (), o')) (hwl : o'.wavelength = wl) (hpos : 0 < wl) :
    o'.k = 2 * Real.pi / o.wavelength ∧ (o'.k = 2 * Real.pi / o'.wavelength ↔ wl = o.wavelength) := by
  have hk := setPhysical_k o NA wl px c o' h
  refine ⟨hk, ?_⟩
  rw [hk, hwl]
  have h0 := hr.inv.wavelength
  constructor
  · intro e
    have e2 : (2 * Real.pi) * wl = (2 * Real.pi) * o.wavelength := by
      field_simp at e; linear_combination (2 * Real.pi) * e
    exact mul_left_cancel₀ (by positivity) e2
  · rintro rfl; rfl

/-- C30 is false for rejected calls: with a pixel size that is not accepted, the `ValueError` is raised after the numerical aperture and the
wavelength were replaced. -/
theorem rejected_call_changes_object (o : PsfObj) (NA wl px : ℝ) (c : CoeffArg) (h1 : 0 < NA ∧ NA ≤ 1.7) (h2 : 0 < wl) (h3 : px ≤ 0) :
    ∃ o', o.setPhysicalProps NA wl c px = (.error .valueError, o') ∧ o'.NA = NA ∧ o'.wavelength = wl ∧ o'.expansionCoeff = o.expansionCoeff ∧
      o'.pixelSize = o.pixelSize := by
  rcases setPhysical_cases o NA wl c px with ⟨h, e⟩ | ⟨_, h, e⟩ | ⟨_, _, _, _, e⟩ | ⟨_, _, _, h, _, e⟩ <;> rw [e]
  · rcases h with h | h | h <;> linarith
  · linarith
  · exact ⟨_, rfl, rfl, rfl, rfl, rfl⟩
  · linarith

/-- C30. A call rejected because of the aperture (except 0) or the wavelength changes nothing. -/
theorem rejected_call_atomic_partial (o : PsfObj) (NA wl px : ℝ) (c : CoeffArg) (h : NA < 0 ∨ NA > 1.7 ∨ wl ≤ 0) :
    o.setPhysicalProps NA wl c px = (.error .valueError, o) := by
  rcases setPhysical_cases o NA wl c px with ⟨_, e⟩ | ⟨h2, h3, e⟩ | ⟨h2, h3, h4, _, e⟩ | ⟨h2, h3, h4, _, _, e⟩
  · exact e
  · exfalso; rcases h with h | h | h <;> norm_num at * <;> linarith
  · exfalso; rcases h with h | h | h <;> linarith
  · exfalso; rcases h with h | h | h <;> linarith

/-- The hypotheses are met: a new object, `NA = 0.95`, wavelength 0.6, coefficient 0.5, pixel size 0.15. -/
example : ∃ o s o', PsfReachable o s ∧ (∀ z ∈ psfPols o, ValidOrders z.m z.n) ∧ o.setPhysicalProps 0.95 0.6 (.num 0.5) 0.15 = (.ok (), o') ∧
    o'.k ≠ 2 * Real.pi / o'.wavelength := by
  have hr : PsfReachable psfDefault (afterCalls []) := ⟨.other, psfDefault, [], [], rfl, rfl⟩
  have hv : ∀ z ∈ psfPols psfDefault, ValidOrders z.m z.n := by
    intro z hz
    simp [psfPols, psfDefault] at hz
    subst hz
    decide
  obtain ⟨o', e, h⟩ := (set_physical_props_exact_partial psfDefault (afterCalls []) hr hv 0.95 0.6 0.15 (.num 0.5)).1
    ⟨by unfold PhysicalOk; norm_num, by simp [CoeffFits, psfPols, psfDefault]⟩
  refine ⟨psfDefault, afterCalls [], o', hr, hv, e, ?_⟩
  intro hk
  have := (wave_number_stale _ _ hr _ _ _ _ o' e h.wavelength (by norm_num)).2.1 hk
  norm_num [psfDefault] at this

/-! ### C31: kernel sizes -/

/-- C31. After any history of calls (successful or not) the kernel size is odd and positive; the kernel is a square array with an odd
number of rows, without negative elements. -/
theorem kernel_size_odd (o : PsfObj) (s : CoefState) (hr : PsfReachable o s) :
    o.kernelSize % 2 = 1 ∧ 1 ≤ o.kernelSize ∧ o.kernel.rows = o.kernel.cols ∧ o.kernel.rows % 2 = 1 ∧ ∀ i j, 0 ≤ o.kernel.entry i j :=
  ⟨hr.inv.size.1, hr.inv.size.2, hr.inv.rows_cols, hr.inv.odd, hr.inv.nn⟩

/-- C31 (partial: see `kernel_size_mismatch` for what is missing). A kernel calculated with a kernel size of at least 3, or for several
polynomials, or with acceleration, has exactly the kernel size. -/
theorem calculated_size_partial (o : PsfObj) (s : CoefState) (hr : PsfReachable o s) (env : Env) (suppress normalized : Bool)
    (accelerated : Option Bool) (h : 3 ≤ (o.calculate env suppress normalized accelerated s).2.1.kernelSize ∨ o.zernpol = none ∨
      env.accelerate accelerated = true) (g : Grid) (hg : (o.calculate env suppress normalized accelerated s).1 = .ok g) :
    let o' := (o.calculate env suppress normalized accelerated s).2.1
    o'.kernel = g ∧ (g.rows : Int) = o'.kernelSize ∧ (g.cols : Int) = o'.kernelSize := by
  have hz : (calcStart o suppress).zernpol = o.zernpol := by unfold calcStart; split_ifs <;> rfl
  rcases calculate_cases env o hr.inv suppress normalized accelerated s with ⟨e, h1, _⟩ | ⟨g', S, h1, h2, h3, h4, h5⟩
  · rw [h1] at hg; cases hg
  · rw [h1] at hg
    cases hg
    rw [h2] at h ⊢
    simp only at h ⊢
    refine ⟨trivial, ?_⟩
    obtain ⟨h6, h7, h8⟩ := h5
    have : S = (calcStart o suppress).kernelSize := by
      rcases h3 with ⟨h, _⟩ | ⟨z, h9, h10, h11, _⟩
      · exact h
      · rcases h with h | h | h
        · omega
        · rw [hz, h] at h9; cases h9
        · rw [h10] at h; cases h
    have := (calcStart_inv o hr.inv suppress).size.2
    omega

/-- C31. After a successful `set_physical_props` the calculated kernel always has the kernel size. -/
theorem calculated_size_after_set (o : PsfObj) (s : CoefState) (hr : PsfReachable o s) (hv : ∀ z ∈ psfPols o, ValidOrders z.m z.n)
    (NA wl px : ℝ) (c : CoeffArg) (o' : PsfObj) (h : o.setPhysicalProps NA wl c px = (.ok (), o')) (env : Env) (suppress normalized : Bool)
    (accelerated : Option Bool) (g : Grid) (hg : (o'.calculate env suppress normalized accelerated s).1 = .ok g) :
    let o'' := (o'.calculate env suppress normalized accelerated s).2.1
    o''.kernelSize = o'.kernelSize ∧ o''.kernel = g ∧ (g.rows : Int) = o''.kernelSize ∧ (g.cols : Int) = o''.kernelSize := by
  have hr' : PsfReachable o' s := by
    have := hr.step (.setPhysicalProps NA wl c px)
    simp only [PsfCall.run, h] at this
    exact this
  obtain ⟨hp, hs⟩ : o'.propsSet = true ∧ o'.estimateSize = .ok o'.kernelSize ∧ (o'.zernpol ≠ none → o'.alpha = o'.expansionCoeff / o'.wavelength) := by
    rcases setPhysical_cases o NA wl c px with ⟨h1, e⟩ | ⟨h2, h3, e⟩ | ⟨h2, h3, h4, h5, e⟩ | ⟨h2, h3, h4, h5, h6, e⟩ <;> rw [e] at h
    · simp at h
    · simp at h
    · simp at h
    · unfold physRest at h
      have hk : (physBase o NA wl px).zernpol ≠ none → ∀ b, (physBase o NA wl px).storeCoeff c = (.ok (), b) → b.alpha = b.expansionCoeff / b.wavelength := by
        intro hz b hb
        rcases hr.inv.wf.1 with ⟨z, hz, hp⟩ | ⟨hz', hp⟩
        · have k := storeCoeff_single (physBase o NA wl px) z hz hp c
          by_cases hf : CoeffFits 1 c
          · obtain ⟨x, _, hx⟩ := k.1 hf
            rw [hx] at hb
            simp only [Prod.mk.injEq, true_and] at hb
            rw [← hb]
            rfl
          · obtain ⟨e, b', he, _⟩ := k.2 hf
            rw [he] at hb; simp at hb
        · exact absurd hz' hz
      have hf := storeCoeff_facts (physBase o NA wl px) c
      rcases hs : (physBase o NA wl px).storeCoeff c with ⟨r, b⟩
      rw [hs] at h hk hf
      obtain ⟨f1, f2, f3, f4, f5, f6, f7, f8, f9, f10, f11⟩ := hf
      cases r with
      | error e => simp at h
      | ok u =>
        simp only at h f8
        rcases he : b.estimateSize with e | size
        · rw [he] at h; simp at h
        · rw [he] at h
          simp only [Prod.mk.injEq, true_and] at h
          rw [← h]
          refine ⟨rfl, he, ?_⟩
          intro hz
          exact hk (f8 ▸ hz) b rfl
  have hcs : calcStart o' suppress = o' := by unfold calcStart; rw [if_neg (by simp [hp])]
  rcases calculate_cases env o' hr'.inv suppress normalized accelerated s with ⟨e, h1, _⟩ | ⟨g', S, h1, h2, h3, h4, h5⟩
  · rw [h1] at hg; cases hg
  · rw [h1] at hg
    cases hg
    rw [hcs] at h2 h3
    rw [h2]
    obtain ⟨h6, h7, h8⟩ := h5
    have : S = o'.kernelSize := by
      rcases h3 with ⟨h, _⟩ | ⟨z, h9, h10, h11, h12⟩
      · exact h
      · have h13 := hs.1
        unfold PsfObj.estimateSize at h13
        rw [h9, hs.2 (by rw [h9]; simp)] at h13
        simp only at h13
        rw [h12] at h13
        cases h13
        rfl
    have := hr'.inv.size.2
    refine ⟨rfl, rfl, ?_⟩
    simp only
    omega

theorem PsfReachable.airy {o : PsfObj} {s : CoefState} (hr : PsfReachable o s) {z : ZernPol} (hz : o.zernpol = some z)
    (hn : ¬ (z.m = 0 ∧ z.n = 0)) : o.airy = false := by
  obtain ⟨arg, o0, h, calls, h1, h2⟩ := hr
  have hp := afterPsf_pols o0 (afterCalls h) (psfInit_inv arg o0 h1) calls
  rw [h2] at hp
  obtain ⟨e1, e2, e3⟩ := hp
  simp only at e1 e2 e3
  rw [e3]
  rw [hz] at e1
  unfold psfInit at h1
  split at h1
  · cases h1; simp only [Option.some.injEq] at e1; subst e1; simp [ZernPol.isPiston, hn]
  · cases h1
  · cases h1; simp only [Option.some.injEq] at e1; subst e1; simp [ZernPol.isPiston, hn]
  · cases h1
  · split at h1
    · cases h1
    · split at h1
      · cases h1
      · cases h1; cases e1
  · cases h1; rfl

theorem calculate_eq (env : Env) (o : PsfObj) (sup nrm : Bool) (acc : Option Bool) (s : CoefState) (x : CM Grid)
    (hx : (calcStart o sup).kernelCall env nrm acc = some x) (g : Grid) (hg : (x s).1 = .ok g) :
    (o.calculate env sup nrm acc s).1 = .ok g ∧ (o.calculate env sup nrm acc s).2.1 = { calcStart o sup with kernel := g } := by
  have hu : o.calculate env sup nrm acc s = (match (calcStart o sup).kernelCall env nrm acc with
    | none => (.ok (calcStart o sup).kernel, calcStart o sup, s)
    | some x =>
      match x s with
      | (.error e, s') => (.error e, calcStart o sup, s')
      | (.ok g, s') => (.ok g, { calcStart o sup with kernel := g }, s')) := rfl
  rw [hu, hx]
  rcases hxs : x s with ⟨r, s'⟩
  rw [hxs] at hg
  simp only at hg
  subst hg
  simp only [hxs]
  exact ⟨trivial, trivial⟩

theorem getKernelSize_large (m n : Int) (hv : ValidOrders m n) (px alpha wl NA : ℝ) (hpx : 0 < px) (hwl : 0 ≤ wl) (hNA : 0 < NA)
    (ha : 1 / 2 ≤ |alpha|) (S : Int) (h : getKernelSize m n px alpha wl NA = .ok S) : 3 ≤ S := by
  obtain ⟨a, e, h1, h2, h3⟩ := sizeMultiplier_ok m n hv NA hNA
  unfold getKernelSize at h
  rw [h1] at h
  have ha' : |alpha| ≥ 0.5 := by norm_num; linarith
  simp only [if_pos ha'] at h
  have hr : 0 ≤ rint (a * Real.sqrt (2.5 * |alpha|) * wl / px) := rint_nonneg (by positivity)
  have h' : (if (rint (a * Real.sqrt (2.5 * |alpha|) * wl / px) + 1 + (e + 2)) % 2 = 0 then
    rint (a * Real.sqrt (2.5 * |alpha|) * wl / px) + 1 + (e + 2) + 1 else rint (a * Real.sqrt (2.5 * |alpha|) * wl / px) + 1 + (e + 2)) = S := by
    simpa using Except.ok.inj h
  split_ifs at h' <;> omega

/-- C31 is false for an object without properties set by the user, with suppressed warnings: the calculated kernel is larger than the kernel
size of the object, for every polynomial. -/
theorem kernel_size_mismatch (z : ZernPol) (hv : ValidOrders z.m z.n) (hz : ¬ (z.m = 0 ∧ z.n = 0)) (o : PsfObj) (ho : psfInit (.pol z) = .ok o)
    (h : List Call) (env : Env) (hf : z.n.toNat + 1 < env.fuel) (normalized : Bool) :
    ∃ g, (o.calculate env true normalized (some false) (afterCalls h)).1 = .ok g ∧ 3 ≤ g.rows ∧
      (o.calculate env true normalized (some false) (afterCalls h)).2.1.kernelSize = 1 := by
  have hr : PsfReachable o (afterCalls h) := ⟨.pol z, o, h, [], ho, rfl⟩
  have ho' : o = { psfDefault with zernpol := some z, airy := z.isPiston } := by unfold psfInit at ho; exact (Except.ok.inj ho).symm
  have hzp : o.zernpol = some z := by rw [ho']
  have hai := hr.airy hzp hz
  have hcs : calcStart o true = o := by unfold calcStart; rw [if_neg (by simp)]
  have hk : (calcStart o true).kernelCall env normalized (some false) = some (getPsfKernel env.fuel env.j1 z.obj o.expansionCoeff (o.params normalized) false) := by
    rw [hcs]
    unfold PsfObj.kernelCall
    rw [hzp]
    simp [Env.accelerate, hai]
  have e1 : (o.params normalized).kernelSize = 1 := by rw [ho']; rfl
  have hq : PointsOk (o.params normalized) := by rw [ho']; unfold PointsOk; constructor <;> simp [PsfObj.params, psfDefault]
  have hopt : OpticsOk (o.params normalized) := by rw [ho']; unfold OpticsOk; constructor <;> norm_num [PsfObj.params, psfDefault]
  have hpx : 0 < (o.params normalized).len2pixels := by rw [ho']; norm_num [PsfObj.params, psfDefault]
  obtain ⟨S, h1, h2, h3⟩ := single_res_auto (afterCalls h) (afterCalls_good h) env.fuel env.j1 z.obj hv hf o.expansionCoeff (o.params normalized)
    hq hopt (by rw [e1]; norm_num) hpx
  have hS := getKernelSize_large z.m z.n hv _ _ _ _ hpx hopt.1.le hopt.2 (by rw [ho']; norm_num [PsfObj.params, psfDefault, abs_div]) S h2
  obtain ⟨g, hg, hk2⟩ := pureKernel_of S (by omega) (pixelPsf (phaseOne z.obj o.expansionCoeff (o.params normalized).wavelength)
    (opticalScale (o.params normalized).wavelength (o.params normalized).NA (o.params normalized).len2pixels) S
    (o.params normalized).nR.toNat (o.params normalized).nPhi.toNat) (o.params normalized).normalize
  have h4 := calculate_eq env o true normalized (some false) (afterCalls h) _ hk g (by rw [h3]; exact hg)
  refine ⟨g, h4.1, ?_, ?_⟩
  · have : g.rows = S := by
      unfold KernelOf at hk2
      split_ifs at hk2
      · obtain ⟨_, _, _, _, _, hk2⟩ := hk2; exact hk2.1
      · exact hk2.1
    omega
  · rw [h4.2, hcs, ho']; rfl

end Verif.Props
