import Verif.Proofs.Json
import Verif.Props.PsfObj

/-!
# C38: saving and reading of calibrations
-/

namespace Verif.Props
open Verif.Model Verif.Spec Verif.Proofs

theorem PsfReachable.coeffsFit {o : PsfObj} {s : CoefState} (h : PsfReachable o s) : CoeffsFit o := by
  obtain ⟨arg, o0, h, calls, h1, h2⟩ := h
  have := afterPsf_coeffs o0 (afterCalls h) (psfInit_inv arg o0 h1) (by rw [CoeffsFit, psfInit_coeffs arg o0 h1]; simp) calls
  rwa [h2] at this

/-- The same polynomial: equal orders and indices, and equal for `==`. -/
def SamePol (a b : ZernPol) : Prop := a.getMnOrders = b.getMnOrders ∧ a.osa = b.osa ∧ a.noll = b.noll ∧ a.eq (.zern b) = .ok true

theorem SamePol.orders {a b : ZernPol} (h : SamePol a b) : a.m = b.m ∧ a.n = b.n := by
  have := h.1
  simp only [ZernPol.getMnOrders, Prod.mk.injEq] at this
  exact this

theorem read_pol (z : ZernPol) (hc : Constructed z) (hv : ValidOrders z.m z.n) :
    ∃ z', zernPolInit [("osa", .int z.osa)] = .ok z' ∧ SamePol z' z := by
  obtain ⟨kw, hd, h⟩ := id hc
  obtain ⟨e1, e2, e3, e4, e5⟩ := ctor_consistent kw hd z h
  obtain ⟨a, b, c, d, _, hb, _, _, h1, _⟩ := constructions_agree z.m z.n hv e5
  have hal : zernPolInit [("osa", .int z.osa)] = .ok b := by
    rw [(ctor_index_aliases (.int z.osa)).1 "osa" (by simp [osaKeys]), e1, hb]
  obtain ⟨o1, o2, o3, _⟩ := h1 b (by simp)
  have hbc : Constructed b := ⟨_, by simp, hb⟩
  simp only [ZernPol.getMnOrders, Prod.mk.injEq] at o1
  refine ⟨b, hal, ?_, by rw [o2, e1], by rw [o3, e2], ?_⟩
  · simp [ZernPol.getMnOrders, o1]
  · rw [eq_iff_orders b z hbc hc]; simp [o1]

theorem read_pols (zs : List ZernPol) (h : ∀ z ∈ zs, Constructed z ∧ ValidOrders z.m z.n) :
    ∃ zs', polsOfOsa (zs.map ZernPol.osa) = .ok zs' ∧ List.Forall₂ SamePol zs' zs := by
  induction zs with
  | nil => exact ⟨[], rfl, .nil⟩
  | cons z zs ih =>
    obtain ⟨z', h1, h2⟩ := read_pol z (h z (by simp)).1 (h z (by simp)).2
    obtain ⟨zs', h3, h4⟩ := ih fun w hw => h w (by simp [hw])
    refine ⟨z' :: zs', ?_, .cons h2 h4⟩
    simp only [List.map_cons, polsOfOsa, h1, h3]
    rfl

/-! ### Saving -/

/-- C38. Saving an object (with the properties set, if it has several polynomials) succeeds with no path or a `Path`, and gives the path of the file:
in the given folder if it exists. The file then holds the document of the object, if it did not exist or if overwriting is requested;
otherwise its contents are kept. No other file is changed. -/
theorem save_exact (fmt : NumberFormat) (pl : Places) (o : PsfObj) (s : CoefState) (hr : PsfReachable o s)
    (hc : o.zernpol = none → o.coefficients ≠ none) (arg : PathArg) (ha : ∀ p, arg ≠ .str p) (overwrite : Bool) (d : Disk) :
    ∃ f name doc d', o.saveJson fmt pl arg overwrite d = (.ok (some (f, name)), d') ∧ o.document = .ok doc ∧
      (∀ p, arg = .path p → d.isDir p = true → f = p) ∧ d'.isDir f = true ∧
      (overwrite = true ∨ d.file f name = none → d'.file f name = some doc) ∧
      (overwrite = false → d.file f name ≠ none → d'.file f name = d.file f name) ∧
      (∀ f' name', ¬ (f' = f ∧ name' = name) → d'.file f' name' = d.file f' name') := by
  have hdoc : ∃ doc, o.document = .ok doc := by
    unfold PsfObj.document
    rcases hz : o.zernpol with _ | z
    · rcases hcs : o.coefficients with _ | cs
      · exact absurd hcs (hc hz)
      · exact ⟨_, rfl⟩
    · exact ⟨_, rfl⟩
  obtain ⟨doc, hdoc⟩ := hdoc
  have hne : ¬ (o.zernpol = none ∧ o.polynomials = []) := by
    rintro ⟨h1, h2⟩
    have := hr.several h1
    rw [h2] at this
    simp at this
  have hf : ∃ f, saveFolder pl d arg = .ok f ∧ ∀ p, arg = .path p → d.isDir p = true → f = p := by
    cases arg with
    | none => exact ⟨_, rfl, fun p h => by cases h⟩
    | path p => exact ⟨_, rfl, fun q h hq => by cases h; simp [hq]⟩
    | str p => exact absurd rfl (ha p)
  obtain ⟨f, hf, hfp⟩ := hf
  unfold PsfObj.saveJson
  simp only [hf, if_neg hne, hdoc]
  by_cases hex : ((d.mkdir f).file f (o.fileName fmt)).isSome && !overwrite
  · rw [if_pos hex]
    rw [Bool.and_eq_true, Bool.not_eq_true'] at hex
    refine ⟨f, _, doc, _, rfl, rfl, hfp, by simp [Disk.mkdir], ?_, fun _ _ => rfl, fun _ _ _ => rfl⟩
    rintro (h | h)
    · rw [h] at hex; cases hex.2
    · have h' : (d.mkdir f).file f (o.fileName fmt) = none := h
      rw [h'] at hex; cases hex.1
  · rw [if_neg hex]
    refine ⟨f, _, doc, _, rfl, rfl, hfp, by simp [Disk.mkdir, Disk.write], fun _ => by simp [Disk.write], ?_, ?_⟩
    · intro h1 h2
      exfalso
      apply hex
      rw [h1, Bool.not_false, Bool.and_true, Option.isSome_iff_ne_none]
      exact h2
    · intro f' n' hne
      simp only [Disk.write, Disk.mkdir]
      by_cases e : f' = f
      · subst e
        rw [Function.update_self, Function.update_of_ne (fun e => hne ⟨rfl, e⟩)]
      · rw [Function.update_of_ne e]

/-- C38. The name of the saved file tells the polynomial(s) and the coefficient(s): `psf_(m, n)_c.json` for one polynomial, `psf_[i, j, ...]_cs.json` with
the OSA indices for several. -/
theorem save_file_name (fmt : NumberFormat) (pl : Places) (o : PsfObj) (s : CoefState) (hr : PsfReachable o s)
    (hc : o.zernpol = none → o.coefficients ≠ none) (arg : PathArg) (ha : ∀ p, arg ≠ .str p) (overwrite : Bool) (d : Disk) :
    ∃ f name, (o.saveJson fmt pl arg overwrite d).1 = .ok (some (f, name)) ∧
      (∀ z m n, o.zernpol = some z → z.getMnOrders = (m, n) → name = s!"psf_({m}, {n})_{fmt.num o.expansionCoeff}.json") ∧
      (∀ zs cs, o.zernpol = none → o.polynomials = zs → o.coefficients = some cs →
        name = s!"psf_[{", ".intercalate (zs.map fun z => toString z.osa)}]_{fmt.arr (some cs)}.json") := by
  obtain ⟨f, name, doc, d', h, h1, -⟩ := save_exact fmt pl o s hr hc arg ha overwrite d
  have hn : name = o.fileName fmt := by
    unfold PsfObj.saveJson at h
    split at h
    · simp at h
    · split_ifs at h
      · simp at h
      simp only [h1] at h
      split_ifs at h <;> simp only [Prod.mk.injEq, Except.ok.injEq, Option.some.injEq] at h <;> exact h.1.2.symm
  refine ⟨f, name, by rw [h], ?_, ?_⟩
  · rintro z m n hz hm
    cases hm
    rw [hn]
    simp only [PsfObj.fileName, hz]
    rfl
  · rintro zs cs hz rfl hcs
    rw [hn]
    simp only [PsfObj.fileName, hz, hcs]
    rfl

/-- C38. The folder of the saved file: the given one if it exists, the folder next to the stored path if no path is given and it exists, and
otherwise the folder in the current directory (which is created). -/
theorem save_folder (fmt : NumberFormat) (pl : Places) (o : PsfObj) (s : CoefState) (hr : PsfReachable o s)
    (hc : o.zernpol = none → o.coefficients ≠ none) (arg : PathArg) (ha : ∀ p, arg ≠ .str p) (overwrite : Bool) (d : Disk) :
    ∃ f name d', o.saveJson fmt pl arg overwrite d = (.ok (some (f, name)), d') ∧ d'.isDir f = true ∧
      (∀ p, arg = .path p → f = p ∨ (d.isDir p = false ∧ f = pl.cwd)) ∧
      (arg = .none → (f = pl.own ∧ d.isDir pl.own = true) ∨ (d.isDir pl.own = false ∧ f = pl.cwd)) := by
  obtain ⟨f, name, doc, d', h, h1, h2, h3, -⟩ := save_exact fmt pl o s hr hc arg ha overwrite d
  have hf : saveFolder pl d arg = .ok f := by
    unfold PsfObj.saveJson at h
    split at h
    · simp at h
    rename_i f0 hf
    split_ifs at h
    · simp at h
    simp only [h1] at h
    have hf0 : f0 = f := by split_ifs at h <;> simp only [Prod.mk.injEq, Except.ok.injEq, Option.some.injEq] at h <;> exact h.1.1
    rw [hf, hf0]
  refine ⟨f, name, d', h, h3, ?_, ?_⟩
  · rintro p rfl
    simp only [saveFolder, Except.ok.injEq] at hf
    split_ifs at hf with hd
    · exact Or.inl hf.symm
    · exact Or.inr ⟨by simpa using hd, hf.symm⟩
  · rintro rfl
    simp only [saveFolder, Except.ok.injEq] at hf
    split_ifs at hf with hd
    · exact Or.inl ⟨hf.symm, hd⟩
    · exact Or.inr ⟨by simpa using hd, hf.symm⟩

/-- C38 is false for a path given as a string (although announced): an `AttributeError`, nothing is saved. -/
theorem save_str_path (fmt : NumberFormat) (pl : Places) (o : PsfObj) (p : String) (overwrite : Bool) (d : Disk) :
    o.saveJson fmt pl (.str p) overwrite d = (.error .attributeError, d) := rfl

/-- C38 is false for several polynomials without coefficients: an `AttributeError`, no file is written. -/
theorem save_without_coefficients (fmt : NumberFormat) (pl : Places) (o : PsfObj) (s : CoefState) (hr : PsfReachable o s) (hz : o.zernpol = none)
    (hc : o.coefficients = none) (arg : PathArg) (overwrite : Bool) (d : Disk) :
    ∃ d', o.saveJson fmt pl arg overwrite d = (.error .attributeError, d') ∧ d'.file = d.file := by
  have hne : ¬ (o.zernpol = none ∧ o.polynomials = []) := by
    rintro ⟨h1, h2⟩
    have := hr.several h1
    rw [h2] at this
    simp at this
  have hdoc : o.document = .error .attributeError := by unfold PsfObj.document; rw [hz, hc]
  unfold PsfObj.saveJson
  cases arg with
  | none => simp only [saveFolder, if_neg hne, hdoc]; exact ⟨_, rfl, rfl⟩
  | path p => simp only [saveFolder, if_neg hne, hdoc]; exact ⟨_, rfl, rfl⟩
  | str p => exact ⟨_, rfl, rfl⟩

/-! ### Reading -/

theorem setPhysical_num (b : PsfObj) (z : ZernPol) (hz : b.zernpol = some z) (hv : ValidOrders z.m z.n) (NA wl px x : ℝ) (hp : PhysicalOk NA wl px) :
    ∃ S, getKernelSize z.m z.n px (x / wl) wl NA = .ok S ∧ b.setPhysicalProps NA wl (.num x) px = (.ok (),
      { physBase b NA wl px with expansionCoeff := x, alpha := x / wl, kernelSize := S, propsSet := true }) := by
  obtain ⟨a1, a2, a3, a4, a5⟩ := hp
  obtain ⟨S, hS, _⟩ := getKernelSize_ok z.m z.n hv px (x / wl) wl NA a4 a3.le a1
  refine ⟨S, hS, ?_⟩
  rcases setPhysical_cases b NA wl (.num x) px with ⟨h, e⟩ | ⟨_, h, e⟩ | ⟨_, _, _, h, e⟩ | ⟨_, _, _, h, _, e⟩
  · rcases h with h | h | h <;> linarith
  · linarith
  · rw [nyquist_eq] at h; rcases h with h | h <;> linarith
  · rw [e]
    unfold physRest
    have hz' : (physBase b NA wl px).zernpol = some z := hz
    have h1 : (physBase b NA wl px).storeCoeff (.num x) = (.ok (), (physBase b NA wl px).storeOne x) := by
      simp [PsfObj.storeCoeff, hz']
    have h2 : ((physBase b NA wl px).storeOne x).estimateSize = .ok S := by
      have hz'' : ((physBase b NA wl px).storeOne x).zernpol = some z := hz
      unfold PsfObj.estimateSize
      rw [hz'']
      exact hS
    rw [h1]
    simp only [h2]
    rfl

theorem setPhysical_seq (b : PsfObj) (hz : b.zernpol = none) (hb : 2 ≤ b.polynomials.length) (hv : ∀ z ∈ b.polynomials, ValidOrders z.m z.n)
    (NA wl px : ℝ) (l : List ℝ) (hl : l.length = b.polynomials.length) (hp : PhysicalOk NA wl px) :
    ∃ r, sizeLoop px wl NA b.polynomials (l.map (· / wl)) (0, 0) = .ok r ∧ b.setPhysicalProps NA wl (.seq l) px = (.ok (),
      { physBase b NA wl px with coefficients := some l, amplitudes := some (l.map (· / wl)), kernelSize := enlarge r.1 r.2 b.polynomials.length, propsSet := true }) := by
  obtain ⟨a1, a2, a3, a4, a5⟩ := hp
  obtain ⟨r, hr⟩ := sizeLoop_ok px wl NA a4 a3.le a1 b.polynomials hv (l.map (· / wl)) (0, 0) (by simpa using hl)
  refine ⟨r, hr, ?_⟩
  rcases setPhysical_cases b NA wl (.seq l) px with ⟨h, e⟩ | ⟨_, h, e⟩ | ⟨_, _, _, h, e⟩ | ⟨_, _, _, h, _, e⟩
  · rcases h with h | h | h <;> linarith
  · linarith
  · rw [nyquist_eq] at h; rcases h with h | h <;> linarith
  · rw [e]
    obtain ⟨l', h1, _, h2⟩ := (storeCoeff_several (physBase b NA wl px) hz hb (.seq l)).1 hl
    have h1 : l = l' := h1
    subst h1
    unfold physRest
    rw [h2]
    have h3 : PsfObj.estimateSize { physBase b NA wl px with coefficients := some l, amplitudes := some (l.map (· / wl)) } = .ok (enlarge r.1 r.2 b.polynomials.length) := by
      unfold PsfObj.estimateSize
      simp only [hz, physBase]
      rcases hq : b.polynomials with _ | ⟨p, t⟩
      · rw [hq] at hb; simp at hb
      · rw [hq] at hr
        simp only [Option.getD_some, hr]
        rfl
    have h3' : PsfObj.estimateSize { physBase b NA wl px with coefficients := some l, amplitudes := some (l.map (· / (physBase b NA wl px).wavelength)) } = .ok (enlarge r.1 r.2 b.polynomials.length) := h3
    simp only [h3']
    rfl

theorem readItem_kernel (r : ReadState) (g : Grid) : readItem r (.kernel g) = .ok { r with obj := { r.obj with kernel := g }, count := r.count + 1 } := rfl
theorem readItem_size (r : ReadState) (n : Int) : readItem r (.kernelSize n) = .ok { r with obj := { r.obj with kernelSize := n }, count := r.count + 1 } := rfl
theorem readItem_r (r : ReadState) (n : Int) : readItem r (.pointsR n) = .ok { r with obj := { r.obj with nR := n }, count := r.count + 1 } := rfl
theorem readItem_phi (r : ReadState) (n : Int) : readItem r (.pointsAngle n) = .ok { r with obj := { r.obj with nPhi := n }, count := r.count + 1 } := rfl
theorem readItem_na (r : ReadState) (x : ℝ) : readItem r (.na x) = .ok { r with na := some x, count := r.count + 1 } := rfl
theorem readItem_wl (r : ReadState) (x : ℝ) : readItem r (.wavelength x) = .ok { r with wavelen := some x, count := r.count + 1 } := rfl
theorem readItem_coeff (r : ReadState) (x : ℝ) : readItem r (.coefficient x) = .ok { r with a := some (.num x), count := r.count + 1 } := rfl
theorem readItem_ampl (r : ReadState) (l : List ℝ) : readItem r (.amplitudes l) = .ok { r with a := some (.seq l), count := r.count + 1 } := rfl
theorem readItem_px (r : ReadState) (x : ℝ) : readItem r (.pixelSize x) = .ok { r with ps := some x, count := r.count + 1 } := rfl

theorem sizeLoop_congr (px wl NA : ℝ) {ps ps' : List ZernPol} (h : List.Forall₂ SamePol ps ps') (as : List ℝ) (acc : Int × ℝ) :
    sizeLoop px wl NA ps as acc = sizeLoop px wl NA ps' as acc := by
  induction h generalizing as acc with
  | nil => rfl
  | cons h _ ih =>
    cases as with
    | nil => rfl
    | cons a as =>
      obtain ⟨size, ampl⟩ := acc
      simp only [sizeLoop, h.orders.1, h.orders.2, ih]

/-- The coefficients stored in an object, as an argument of `set_physical_props`. -/
def storedCoeffs (o : PsfObj) : CoeffArg := match o.zernpol with
  | some _ => .num o.expansionCoeff
  | none => .seq (o.coefficients.getD [])

/-- `t` holds the calibration of `o` (without the kernel size and the Airy flag). -/
structure Restored (o t : PsfObj) : Prop where
  kernel : t.kernel = o.kernel
  NA : t.NA = o.NA
  wavelength : t.wavelength = o.wavelength
  pixelSize : t.pixelSize = o.pixelSize
  points : t.nR = o.nR ∧ t.nPhi = o.nPhi
  polynomials : List.Forall₂ SamePol (psfPols t) (psfPols o)
  kind : t.zernpol = none ↔ o.zernpol = none
  single : o.zernpol ≠ none → t.expansionCoeff = o.expansionCoeff ∧ t.alpha = o.expansionCoeff / o.wavelength
  several : o.zernpol = none → t.coefficients = o.coefficients ∧ t.amplitudes = o.coefficients.map (·.map (· / o.wavelength))
  propsSet : t.propsSet = true
  nyquist : t.nyquist = o.wavelength / (4 * o.NA)

theorem read_restores_of (o : PsfObj) (hsev : o.zernpol = none → 2 ≤ o.polynomials.length) (hfit : CoeffsFit o) (hp : ∀ z ∈ psfPols o, Constructed z ∧ ValidOrders z.m z.n)
    (hphys : PhysicalOk o.NA o.wavelength o.pixelSize) (doc : List JsonItem) (hd : o.document = .ok doc) (t : PsfObj) :
    ∃ t' o', t.readJson (some doc) = (.ok (), t') ∧ Restored o t' ∧
      o.setPhysicalProps o.NA o.wavelength (storedCoeffs o) o.pixelSize = (.ok (), o') ∧ t'.kernelSize = o'.kernelSize ∧
      t'.airy = if o.zernpol = none then false else t.airy := by
  rcases hz : o.zernpol with _ | z
  · have hpols : psfPols o = o.polynomials := by simp [psfPols, hz]
    rw [hpols] at hp
    have h2 := hsev hz
    unfold PsfObj.document at hd
    rw [hz] at hd
    rcases hcs : o.coefficients with _ | cs
    · rw [hcs] at hd; cases hd
    · rw [hcs] at hd
      cases hd
      have hlen := hfit cs hcs
      obtain ⟨zs, h3, h4⟩ := read_pols o.polynomials hp
      have hzl : zs.length = o.polynomials.length := h4.length_eq
      have hvz : ∀ z ∈ zs, ValidOrders z.m z.n := by
        intro z hz
        obtain ⟨i, hi, rfl⟩ := List.getElem_of_mem hz
        have := (h4.get hi (by rw [← hzl]; exact hi)).orders
        rw [List.get_eq_getElem, List.get_eq_getElem] at this
        rw [this.1, this.2]
        exact (hp _ (List.getElem_mem _)).2
      have hread : ∀ r : ReadState, readItem r (.polynomials (o.polynomials.map ZernPol.osa)) =
          .ok { r with obj := { r.obj with polynomials := zs, zernpol := none, airy := false } } := by
        intro r
        rcases hq : o.polynomials with _ | ⟨p, _ | ⟨q, l⟩⟩
        · rw [hq] at h2; simp at h2
        · rw [hq] at h2; simp at h2
        · rw [hq] at h3
          simp only [List.map_cons] at h3 ⊢
          simp only [readItem, h3]
          rfl
      simp only [PsfObj.readJson, readItems, readItem_kernel, readItem_size, readItem_r, readItem_phi, readItem_na, readItem_wl, readItem_coeff, readItem_ampl, readItem_px,
      List.cons_append, List.nil_append, hread, zero_add, Nat.reduceAdd, if_true]
      obtain ⟨r1, e1, e2⟩ := setPhysical_seq ⟨o.kernel, o.kernelSize, t.NA, t.wavelength, t.expansionCoeff, none, zs, t.propsSet, t.nyquist, t.pixelSize, t.alpha,
        false, o.nR, o.nPhi, t.k, t.coefficients, t.amplitudes⟩ rfl (by simp; omega) hvz o.NA o.wavelength o.pixelSize cs (by simp; omega) hphys
      obtain ⟨r2, e3, e4⟩ := setPhysical_seq o hz h2 (fun z h => (hp z h).2) o.NA o.wavelength o.pixelSize cs hlen hphys
      have er : r1 = r2 := by
        have := sizeLoop_congr o.pixelSize o.wavelength o.NA h4 (cs.map (· / o.wavelength)) (0, 0)
        simp only at e1
        rw [e1, e3] at this
        exact Except.ok.inj this
      refine ⟨_, _, e2, ?_, by rw [storedCoeffs, hz]; simp only [hcs, Option.getD_some]; exact e4, ?_, rfl⟩
      · refine ⟨rfl, rfl, rfl, rfl, ⟨rfl, rfl⟩, ?_, by simp [hz, physBase], fun h => absurd hz h, fun _ => by simp [hcs], rfl, nyquist_eq _ _⟩
        rw [hpols]; exact h4
      · simp only [er, hzl]
  · have hpols : psfPols o = [z] := by simp [psfPols, hz]
    rw [hpols] at hp
    obtain ⟨hc, hv⟩ := hp z (by simp)
    obtain ⟨z', h3, h4⟩ := read_pol z hc hv
    unfold PsfObj.document at hd
    rw [hz] at hd
    cases hd
    have hread : ∀ r : ReadState, readItem r (.polynomial z.osa) = .ok { r with obj := { r.obj with zernpol := some z' } } := by
      intro r
      simp only [readItem, h3]
      rfl
    simp only [PsfObj.readJson, readItems, readItem_kernel, readItem_size, readItem_r, readItem_phi, readItem_na, readItem_wl, readItem_coeff, readItem_ampl, readItem_px,
      List.cons_append, List.nil_append, hread, zero_add, Nat.reduceAdd, if_true]
    obtain ⟨S, e1, e2⟩ := setPhysical_num ⟨o.kernel, o.kernelSize, t.NA, t.wavelength, t.expansionCoeff, some z', t.polynomials, t.propsSet, t.nyquist, t.pixelSize, t.alpha,
        t.airy, o.nR, o.nPhi, t.k, t.coefficients, t.amplitudes⟩ z' rfl (by rw [h4.orders.1, h4.orders.2]; exact hv) o.NA o.wavelength o.pixelSize o.expansionCoeff hphys
    obtain ⟨S', e3, e4⟩ := setPhysical_num o z hz hv o.NA o.wavelength o.pixelSize o.expansionCoeff hphys
    have er : S = S' := by
      rw [h4.orders.1, h4.orders.2, e3] at e1
      exact (Except.ok.inj e1).symm
    refine ⟨_, _, e2, ?_, by rw [storedCoeffs, hz]; exact e4, er, by simp [physBase]⟩
    refine ⟨rfl, rfl, rfl, rfl, ⟨rfl, rfl⟩, ?_, by simp [hz, physBase], fun _ => ⟨rfl, rfl⟩, fun h => absurd (h.symm.trans hz) (by simp), rfl, nyquist_eq _ _⟩
    rw [hpols]
    exact .cons h4 .nil

/-- C38 (partial: kernel size and Airy flag, see below). The document of an object with accepted properties can be read into any object, in any
state; the kernel, the properties, the polynomials and the coefficients are restored. The kernel size is the one `set_physical_props` estimates for
the saved properties; the Airy flag is not changed for a single polynomial and cleared for several. -/
theorem read_restores_partial (o : PsfObj) (s : CoefState) (hr : PsfReachable o s) (hp : ∀ z ∈ psfPols o, Constructed z ∧ ValidOrders z.m z.n)
    (hphys : PhysicalOk o.NA o.wavelength o.pixelSize) (doc : List JsonItem) (hd : o.document = .ok doc) (t : PsfObj) :
    ∃ t' o', t.readJson (some doc) = (.ok (), t') ∧ Restored o t' ∧
      o.setPhysicalProps o.NA o.wavelength (storedCoeffs o) o.pixelSize = (.ok (), o') ∧ t'.kernelSize = o'.kernelSize ∧
      t'.airy = if o.zernpol = none then false else t.airy :=
  read_restores_of o hr.several hr.coeffsFit hp hphys doc hd t

/-- C38 (partial, as `read_restores_partial`). The whole cycle: an object with accepted properties is saved to a new file, or with overwriting, and the
returned path is read by any object in any state. -/
theorem save_read_restores_partial (fmt : NumberFormat) (pl : Places) (o : PsfObj) (s : CoefState) (hr : PsfReachable o s)
    (hp : ∀ z ∈ psfPols o, Constructed z ∧ ValidOrders z.m z.n) (hphys : PhysicalOk o.NA o.wavelength o.pixelSize)
    (hc : o.zernpol = none → o.coefficients ≠ none) (arg : PathArg) (ha : ∀ p, arg ≠ .str p) (overwrite : Bool) (d : Disk) (t : PsfObj) :
    ∃ f name d', o.saveJson fmt pl arg overwrite d = (.ok (some (f, name)), d') ∧
      (overwrite = true ∨ d.file f name = none → ∃ t', t.readJson (d'.file f name) = (.ok (), t') ∧ Restored o t') := by
  obtain ⟨f, name, doc, d', h1, h2, _, _, h3, _⟩ := save_exact fmt pl o s hr hc arg ha overwrite d
  refine ⟨f, name, d', h1, fun h => ?_⟩
  obtain ⟨t', _, h4, h5, _⟩ := read_restores_partial o s hr hp hphys doc h2 t
  exact ⟨t', by rw [h3 h]; exact h4, h5⟩

/-- C38. The kernel size and the other values are all restored if the object was saved after `set_physical_props` and calculations of kernels. -/
theorem read_restores_size (o0 : PsfObj) (s0 : CoefState) (hr0 : PsfReachable o0 s0) (hp : ∀ z ∈ psfPols o0, Constructed z ∧ ValidOrders z.m z.n)
    (NA wl px : ℝ) (c : CoeffArg) (o1 : PsfObj) (hset : o0.setPhysicalProps NA wl c px = (.ok (), o1))
    (env : Env) (suppress normalized : Bool) (accelerated : Option Bool) (doc : List JsonItem) :
    let o := (o1.calculate env suppress normalized accelerated s0).2.1
    o.document = .ok doc → ∀ t : PsfObj, ∃ t', t.readJson (some doc) = (.ok (), t') ∧ Restored o t' ∧ t'.kernelSize = o.kernelSize := by
  intro o hd t
  have hv : ∀ z ∈ psfPols o0, ValidOrders z.m z.n := fun z hz => (hp z hz).2
  have hex := set_physical_props_exact_partial o0 s0 hr0 hv NA wl px c
  by_cases hok : PhysicalOk NA wl px ∧ CoeffFits (psfPols o0).length c
  swap
  · obtain ⟨e, o', h, _⟩ := hex.2 hok
    rw [h] at hset; simp at hset
  obtain ⟨o', h, hst⟩ := hex.1 hok
  have ho' : o' = o1 := by rw [h] at hset; simpa using hset
  subst ho'
  have hr1 : PsfReachable o' s0 := by
    have := hr0.step (.setPhysicalProps NA wl c px)
    simp only [PsfCall.run, h] at this
    exact this
  have hr2 : PsfReachable o (o'.calculate env suppress normalized accelerated s0).2.2 := hr1.step (.calculate env suppress normalized accelerated)
  have hsame : ∃ g, o = { o' with kernel := g } := by
    have hcs : calcStart o' suppress = o' := by unfold calcStart; rw [if_neg (by simp [hst.propsSet])]
    rcases calculate_cases env o' hr1.inv suppress normalized accelerated s0 with ⟨e, _, h2⟩ | ⟨g, S, _, h2, _⟩
    · rw [hcs] at h2; exact ⟨o'.kernel, h2⟩
    · rw [hcs] at h2; exact ⟨g, h2⟩
  obtain ⟨g, hg⟩ := hsame
  generalize o = o at hd hr2 hg
  obtain ⟨hs1, hs2, hs3, hs4, hs5, hs6⟩ := hst.same
  have e1 : o.zernpol = o0.zernpol := by rw [hg]; exact hs2
  have e2 : o.polynomials = o0.polynomials := by rw [hg]; exact hs3
  have hpo : psfPols o = psfPols o0 := by unfold psfPols; rw [e1, e2]
  have eNA : o.NA = NA := by rw [hg]; exact hst.NA
  have ewl : o.wavelength = wl := by rw [hg]; exact hst.wavelength
  have epx : o.pixelSize = px := by rw [hg]; exact hst.pixelSize
  obtain ⟨t', o2, k1, k2, k3, k4, _⟩ := read_restores_partial o _ hr2 (hpo ▸ hp) (by rw [eNA, ewl, epx]; exact hok.1) doc hd t
  refine ⟨t', k1, k2, ?_⟩
  rw [k4]
  -- both sizes are estimated from the same values
  rw [eNA, ewl, epx] at k3
  rcases hz : o0.zernpol with _ | z
  · have hlen : (psfPols o0).length = o0.polynomials.length := by simp [psfPols, hz]
    have h2 := hr0.several hz
    have hvz : ∀ z ∈ o0.polynomials, ValidOrders z.m z.n := fun z h => hv z (by simp [psfPols, hz, h])
    obtain ⟨hc1, _⟩ := hst.several hz
    have hsc : storedCoeffs o = .seq (coeffValues c) := by
      have e3 : o.coefficients = some (coeffValues c) := by rw [hg]; exact hc1
      rw [storedCoeffs, e1, hz]
      simp only [e3, Option.getD_some]
    have hcc : c = .seq (coeffValues c) := by
      cases c with
      | num x => have h1 : (psfPols o0).length = 1 := hok.2; omega
      | seq l => rfl
      | bad e => exact hok.2.elim
    have hl : (coeffValues c).length = o0.polynomials.length := by
      rw [← hlen]
      have := hok.2
      rw [hcc] at this
      exact this
    rw [hsc] at k3
    rw [hcc] at h
    obtain ⟨r1, q1, q2⟩ := setPhysical_seq o (e1.trans hz) (by rw [e2]; exact h2) (by rw [e2]; exact hvz) NA wl px (coeffValues c) (by rw [e2]; exact hl) hok.1
    obtain ⟨r2, q3, q4⟩ := setPhysical_seq o0 hz h2 hvz NA wl px (coeffValues c) hl hok.1
    rw [q2] at k3
    rw [q4] at h
    rw [e2, q3] at q1
    have er := Except.ok.inj q1
    simp only [Prod.mk.injEq, true_and] at k3 h
    rw [hg, ← k3, ← h, e2, er]
  · have hlen : (psfPols o0).length = 1 := by simp [psfPols, hz]
    have hpe := hr0.single hz
    rw [hlen] at hok
    have hvz : ValidOrders z.m z.n := hv z (by simp [psfPols, hz])
    have hx : ∃ x, coeffValues c = [x] := by
      obtain ⟨x, hx, _⟩ := (storeCoeff_single o0 z hz hpe c).1 hok.2
      exact ⟨x, hx⟩
    obtain ⟨x, hx⟩ := hx
    obtain ⟨q1, q2⟩ := hst.single x (by rw [hz]; simp) hx
    have hsc : storedCoeffs o = .num x := by
      have e3 : o.expansionCoeff = x := by rw [hg]; exact q1
      rw [storedCoeffs, e1, hz]
      simp only [e3]
    rw [hsc] at k3
    obtain ⟨S, q3, q4⟩ := setPhysical_num o z (e1.trans hz) hvz NA wl px x hok.1
    rw [q4] at k3
    simp only [Prod.mk.injEq, true_and] at k3
    have hsz : o'.estimateSize = .ok o'.kernelSize := by
      rcases setPhysical_cases o0 NA wl c px with ⟨_, e⟩ | ⟨_, _, e⟩ | ⟨_, _, _, _, e⟩ | ⟨_, _, _, _, _, e⟩ <;> rw [e] at h
      · simp at h
      · simp at h
      · simp at h
      · unfold physRest at h
        rcases hs : (physBase o0 NA wl px).storeCoeff c with ⟨r, b⟩
        rw [hs] at h
        cases r with
        | error e => simp at h
        | ok u =>
          simp only at h
          rcases he : b.estimateSize with e | size
          · rw [he] at h; simp at h
          · rw [he] at h
            simp only [Prod.mk.injEq, true_and] at h
            rw [← h]
            exact he
    have hs2' : o'.zernpol = some z := hs2.trans hz
    unfold PsfObj.estimateSize at hsz
    rw [hs2'] at hsz
    simp only [hst.NA, hst.wavelength, hst.pixelSize, q2, q3] at hsz
    rw [hg, ← k3]
    exact Except.ok.inj hsz

/-- C38 is false for the kernel size: an odd size different from the estimated one, set by `set_calculation_props`, is replaced by the estimated one. -/
theorem read_loses_kernel_size (o : PsfObj) (s : CoefState) (hr : PsfReachable o s) (hp : ∀ z ∈ psfPols o, Constructed z ∧ ValidOrders z.m z.n)
    (hphys : PhysicalOk o.NA o.wavelength o.pixelSize) (hc : o.zernpol = none → o.coefficients ≠ none) :
    ∃ size : Int, ∀ t : PsfObj, let o2 := (o.setCalculationProps size o.nR o.nPhi).2
      o2.kernelSize = size ∧ ∃ doc t', o2.document = .ok doc ∧ t.readJson (some doc) = (.ok (), t') ∧ t'.kernelSize ≠ o2.kernelSize := by
  have hdoc : ∀ n : Int, ∃ doc, PsfObj.document { o with kernelSize := n } = .ok doc := by
    intro n
    unfold PsfObj.document
    rcases hz : o.zernpol with _ | z
    · rcases hcs : o.coefficients with _ | cs
      · exact absurd hcs (hc hz)
      · exact ⟨_, rfl⟩
    · exact ⟨_, rfl⟩
  have hset : ∃ o', o.setPhysicalProps o.NA o.wavelength (storedCoeffs o) o.pixelSize = (.ok (), o') ∧ o'.kernelSize % 2 = 1 ∧ 1 ≤ o'.kernelSize := by
    obtain ⟨doc, hd⟩ := hdoc o.kernelSize
    obtain ⟨t', o', _, _, h, _⟩ := read_restores_partial o s hr hp hphys doc hd o
    have h1 := hr.step (.setPhysicalProps o.NA o.wavelength (storedCoeffs o) o.pixelSize)
    simp only [PsfCall.run, h] at h1
    exact ⟨o', h, h1.inv.size⟩
  obtain ⟨o', h1, h2, h3⟩ := hset
  refine ⟨o'.kernelSize + 2, fun t => ?_⟩
  have hpts := hr.inv.points
  have hcp : o.setCalculationProps (o'.kernelSize + 2) o.nR o.nPhi = (.ok (), { o with kernelSize := o'.kernelSize + 2 }) := by
    unfold PsfObj.setCalculationProps
    rw [if_neg (by omega), if_neg (by omega), if_neg (by omega)]
    have : makeOdd (o'.kernelSize + 2) = o'.kernelSize + 2 := by unfold makeOdd; rw [if_neg (by omega)]
    rw [this]
  have hr2 := hr.step (.setCalculationProps (o'.kernelSize + 2) o.nR o.nPhi)
  simp only [PsfCall.run] at hr2
  rw [hcp] at hr2 ⊢
  refine ⟨rfl, ?_⟩
  obtain ⟨doc, hd⟩ := hdoc (o'.kernelSize + 2)
  obtain ⟨t', o3, k1, _, k3, k4, _⟩ := read_restores_partial _ s hr2 hp hphys doc hd t
  refine ⟨doc, t', hd, k1, ?_⟩
  have : o3.kernelSize = o'.kernelSize := by
    have e : (PsfObj.setPhysicalProps { o with kernelSize := o'.kernelSize + 2 } o.NA o.wavelength (storedCoeffs o) o.pixelSize) = (.ok (), o3) := k3
    rcases hz : o.zernpol with _ | z
    · have hpols : psfPols o = o.polynomials := by simp [psfPols, hz]
      rw [hpols] at hp
      rcases hcs : o.coefficients with _ | cs
      · exact absurd hcs (hc hz)
      · have hs : storedCoeffs o = .seq cs := by unfold storedCoeffs; rw [hz, hcs]; rfl
        rw [hs] at e h1
        obtain ⟨r1, q1, q2⟩ := setPhysical_seq o hz (hr.several hz) (fun z h => (hp z h).2) o.NA o.wavelength o.pixelSize cs (hr.coeffsFit cs hcs) hphys
        obtain ⟨r2, q3, q4⟩ := setPhysical_seq { o with kernelSize := o'.kernelSize + 2 } hz (hr.several hz) (fun z h => (hp z h).2) o.NA o.wavelength o.pixelSize cs
          (hr.coeffsFit cs hcs) hphys
        rw [q4] at e; rw [q2] at h1
        simp only [Prod.mk.injEq, true_and] at e h1
        simp only [q1] at q3
        rw [← e, ← h1, Except.ok.inj q3]
    · have hv : ValidOrders z.m z.n := (hp z (by simp [psfPols, hz])).2
      have hs : storedCoeffs o = .num o.expansionCoeff := by unfold storedCoeffs; rw [hz]
      rw [hs] at e h1
      obtain ⟨r1, q1, q2⟩ := setPhysical_num o z hz hv o.NA o.wavelength o.pixelSize o.expansionCoeff hphys
      obtain ⟨r2, q3, q4⟩ := setPhysical_num { o with kernelSize := o'.kernelSize + 2 } z hz hv o.NA o.wavelength o.pixelSize o.expansionCoeff hphys
      rw [q4] at e; rw [q2] at h1
      simp only [Prod.mk.injEq, true_and] at e h1
      rw [q1] at q3
      rw [← e, ← h1]
      exact (Except.ok.inj q3).symm
  rw [k4, this]
  simp only
  omega

/-- C38 is false for the Airy flag: a target created with the piston keeps its flag when a single other polynomial is read. -/
theorem read_keeps_airy_flag (o : PsfObj) (s : CoefState) (hr : PsfReachable o s) (z : ZernPol) (hz : o.zernpol = some z) (hc : Constructed z)
    (hv : ValidOrders z.m z.n) (hn : ¬ (z.m = 0 ∧ z.n = 0)) (hphys : PhysicalOk o.NA o.wavelength o.pixelSize) (doc : List JsonItem)
    (hd : o.document = .ok doc) (t : PsfObj) (ht : psfInit (.pol pistonPol) = .ok t) :
    ∃ t', t.readJson (some doc) = (.ok (), t') ∧ o.airy = false ∧ t'.airy = true := by
  obtain ⟨t', _, h1, _, _, _, h2⟩ := read_restores_partial o s hr (by simp [psfPols, hz, hc, hv]) hphys doc hd t
  refine ⟨t', h1, hr.airy hz hn, ?_⟩
  rw [h2, hz]
  cases ht
  simp [ZernPol.isPiston, pistonPol]

/-- C38 is false for objects with properties that are not accepted together (possible after a rejected call, see C30): reading their document raises
an exception, but the kernel and the polynomials were replaced. -/
theorem read_rejected (o : PsfObj) (s : CoefState) (hr : PsfReachable o s) (z : ZernPol) (hz : o.zernpol = some z) (hc : Constructed z)
    (hv : ValidOrders z.m z.n) (hphys : ¬ PhysicalOk o.NA o.wavelength o.pixelSize) (doc : List JsonItem) (hd : o.document = .ok doc) (t : PsfObj) :
    ∃ e t', t.readJson (some doc) = (.error e, t') ∧ (e = .valueError ∨ e = .zeroDivisionError) ∧ t'.kernel = o.kernel := by
  obtain ⟨z', h3, h4⟩ := read_pol z hc hv
  unfold PsfObj.document at hd
  rw [hz] at hd
  cases hd
  have hread : ∀ r : ReadState, readItem r (.polynomial z.osa) = .ok { r with obj := { r.obj with zernpol := some z' } } := by
    intro r
    simp only [readItem, h3]
    rfl
  simp only [PsfObj.readJson, readItems, readItem_kernel, readItem_size, readItem_r, readItem_phi, readItem_na, readItem_wl, readItem_coeff, readItem_ampl, readItem_px,
      List.cons_append, List.nil_append, hread, zero_add, Nat.reduceAdd, if_true]
  generalize hb : PsfObj.mk o.kernel o.kernelSize t.NA t.wavelength t.expansionCoeff (some z') t.polynomials t.propsSet t.nyquist t.pixelSize t.alpha t.airy o.nR o.nPhi t.k
    t.coefficients t.amplitudes = b
  have hk : b.kernel = o.kernel := by rw [← hb]
  have hi := hr.inv
  rcases setPhysical_cases b o.NA o.wavelength (.num o.expansionCoeff) o.pixelSize with ⟨h, e⟩ | ⟨_, h, e⟩ | ⟨_, _, _, h, e⟩ | ⟨q1, q2, q3, q4, q5, e⟩
  · exact ⟨_, _, e, Or.inl rfl, hk⟩
  · exact ⟨_, _, e, Or.inr rfl, hk⟩
  · exact ⟨_, _, e, Or.inl rfl, hk⟩
  · exact absurd ⟨q2, q3, q1, q4, by rw [nyquist_eq] at q5; exact q5⟩ hphys

theorem samePol_obj {a b : ZernPol} (h : SamePol a b) : a.obj = b.obj := by simp [ZernPol.obj, h.orders.1, h.orders.2]

theorem samePols_obj {l l' : List ZernPol} (h : List.Forall₂ SamePol l l') : l.map ZernPol.obj = l'.map ZernPol.obj := by
  induction h with
  | nil => rfl
  | cons h _ ih => simp [samePol_obj h, ih]

/-- C38. A kernel calculated by the restored object is the one the saved object calculates, for equal kernel sizes and Airy flags (and if the amplitudes
of the saved object belong to its wavelength, as they do after `set_physical_props`). -/
theorem restored_calculates_same (o t : PsfObj) (h : Restored o t) (hp : o.propsSet = true) (hs : t.kernelSize = o.kernelSize)
    (hairy : t.airy = o.airy) (ha : o.zernpol = none → o.amplitudes = o.coefficients.map (·.map (· / o.wavelength)))
    (env : Env) (suppress normalized : Bool) (accelerated : Option Bool) (s : CoefState) :
    (t.calculate env suppress normalized accelerated s).1 = (o.calculate env suppress normalized accelerated s).1 := by
  have hpar : t.params normalized = o.params normalized := by
    simp [PsfObj.params, h.pixelSize, h.wavelength, h.NA, h.points.1, h.points.2, hs]
  have hcall : t.kernelCall env normalized accelerated = o.kernelCall env normalized accelerated := by
    have hpol := h.polynomials
    unfold PsfObj.kernelCall
    rcases hz : o.zernpol with _ | z
    · have hz' := h.kind.2 hz
      rw [hz']
      simp only [psfPols, hz, hz'] at hpol
      have e1 := samePols_obj hpol
      have e2 := hpol.length_eq
      have e3 : t.amplitudes = o.amplitudes := by rw [(h.several hz).2, ha hz]
      simp only [PsfObj.amplitudeError, e3, h.NA, hpar]
      rcases hq : o.polynomials with _ | ⟨q, l⟩
      · rw [hq] at e2
        rw [List.length_eq_zero_iff.1 e2]
      · rcases hq' : t.polynomials with _ | ⟨q', l'⟩
        · rw [hq, hq'] at e2; cases e2
        · rw [hq, hq'] at e1 e2
          simp only [e1, e2]
    · have hz' : t.zernpol ≠ none := fun e => by rw [h.kind, hz] at e; cases e
      obtain ⟨z', hz'⟩ := Option.ne_none_iff_exists'.1 hz'
      rw [hz']
      simp only [psfPols, hz, hz', List.forall₂_cons, List.forall₂_nil_right_iff, and_true] at hpol
      simp only [samePol_obj hpol, hpar, hairy, (h.single (by rw [hz]; simp)).1]
  unfold PsfObj.calculate
  simp only [h.propsSet, hp, not_true_eq_false, false_and, if_false, hcall]
  rcases o.kernelCall env normalized accelerated with _ | x
  · simp only [h.kernel]
  · simp only []
    rcases x s with ⟨r, s'⟩
    cases r <;> rfl

/-- C38. A missing file changes nothing; neither does a document without the known keys. -/
theorem read_missing (t : PsfObj) (keys : List String) : t.readJson none = (.ok (), t) ∧ t.readJson (some (keys.map .unknown)) = (.ok (), t) := by
  refine ⟨rfl, ?_⟩
  have : ∀ r, readItems r (keys.map JsonItem.unknown) = (.ok (), r) := by
    induction keys with
    | nil => exact fun r => rfl
    | cons k ks ih => exact fun r => ih r
  unfold PsfObj.readJson
  simp only [this]
  rfl

/-- The hypotheses are met: a new object for the vertical coma, read by a new object for the piston. -/
example : ∃ (o : PsfObj) (s : CoefState) (z : ZernPol) (doc : List JsonItem) (t t' : PsfObj), PsfReachable o s ∧ o.zernpol = some z ∧ Constructed z ∧ ValidOrders z.m z.n ∧ PhysicalOk o.NA o.wavelength o.pixelSize ∧
    o.document = .ok doc ∧ t.readJson (some doc) = (.ok (), t') ∧ Restored o t' ∧ t'.airy ≠ o.airy := by
  obtain ⟨a, _, _, _, ha, _, _, _, h1, _⟩ := constructions_agree (-1) 3 (by decide) (by decide)
  have hca : Constructed a := ⟨_, by simp, ha⟩
  obtain ⟨o1, _⟩ := h1 a (by simp)
  simp only [ZernPol.getMnOrders, Prod.mk.injEq] at o1
  have hv : ValidOrders a.m a.n := by rw [o1.1, o1.2]; decide
  have hr : PsfReachable { psfDefault with zernpol := some a, airy := a.isPiston } (afterCalls []) := ⟨.pol a, _, [], [], rfl, rfl⟩
  have hphys : PhysicalOk psfDefault.NA psfDefault.wavelength psfDefault.pixelSize := by unfold PhysicalOk psfDefault; norm_num
  obtain ⟨t', h2, h3, h4⟩ := read_keeps_airy_flag _ _ hr a rfl hca hv (by rw [o1.1]; simp) hphys _ rfl _ rfl
  obtain ⟨t'', _, h5, h6, _⟩ := read_restores_partial _ _ hr (by simp [psfPols, hca, hv]) hphys _ rfl { psfDefault with zernpol := some pistonPol, airy := pistonPol.isPiston }
  rw [h2] at h5
  simp only [Prod.mk.injEq, true_and] at h5
  subst h5
  exact ⟨_, _, a, _, _, t', hr, rfl, hca, hv, hphys, rfl, h2, h6, by rw [h3, h4]; simp⟩

end Verif.Props
