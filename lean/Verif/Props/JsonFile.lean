import Verif.Proofs.JsonFile
import Verif.Props.Parallel

/-!
# C84. Calibration files with entries in any order, incomplete or foreign; the warnings of `save_json` and `read_json`

Specification: `Spec/JsonFile` (`Quantity`, `slot`: the quantity given by an entry, `Once`: no quantity is given twice), `PhysicalOk`.
-/

namespace Verif.Props

open Verif.Model Verif.Spec Verif.Proofs

/-- The variables before the loop. -/
def fresh (t : PsfObj) : ReadState := ⟨t, none, none, none, none, 0⟩

/-- The end of `read_json`. -/
noncomputable def finish (r : ReadState) : Res Unit × PsfObj :=
  if r.count = 8 then
    match r.na, r.wavelen, r.a, r.ps with
    | some na, some wl, some a, some ps => r.obj.setPhysicalProps na wl a ps
    | _, _, _, _ => (.error .unboundLocalError, r.obj)
  else (.ok (), r.obj)

theorem read_of_loop (t : PsfObj) (doc : List JsonItem) (r : ReadState) (h : loop (fresh t) doc = .ok r) :
    t.readJson (some doc) = finish r ∧ t.readJsonWarnings (some doc) = r.warnings := by
  rw [loop_ok_iff] at h
  unfold fresh at h
  constructor
  · simp only [PsfObj.readJson, h]; rfl
  · simp only [PsfObj.readJsonWarnings, h]

theorem read_of_error (t : PsfObj) (doc : List JsonItem) (e : PyErr) (h : loop (fresh t) doc = .error e) :
    (t.readJson (some doc)).1 = .error e ∧ t.readJsonWarnings (some doc) = [] := by
  rw [loop_error_iff] at h
  unfold fresh at h
  rcases hr : readItems ⟨t, none, none, none, none, 0⟩ doc with ⟨_ | u, r1⟩
  · rw [hr] at h; cases h
    constructor
    · simp only [PsfObj.readJson, hr]
    · simp only [PsfObj.readJsonWarnings, hr]
  · rw [hr] at h; cases h

theorem read_ok_loop {t t' : PsfObj} {doc : List JsonItem} (h : t.readJson (some doc) = (.ok (), t')) : ∃ r, loop (fresh t) doc = .ok r ∧ finish r = (.ok (), t') := by
  rcases hl : loop (fresh t) doc with e | r
  · have := (read_of_error t doc e hl).1
    rw [h] at this; cases this
  · exact ⟨r, rfl, by rw [← (read_of_loop t doc r hl).1, h]⟩

/-- C84. The order of the entries does not matter: the outcome, the warnings and, unless an exception is raised, the object are the same. -/
theorem read_order_irrelevant (t : PsfObj) (doc doc' : List JsonItem) (hp : doc.Perm doc') (ho : Once doc) :
    (t.readJson (some doc)).1 = (t.readJson (some doc')).1 ∧ t.readJsonWarnings (some doc) = t.readJsonWarnings (some doc') ∧
      ((t.readJson (some doc)).1 = .ok () → t.readJson (some doc) = t.readJson (some doc')) := by
  have h := loop_perm hp ho (fresh t)
  rcases hl : loop (fresh t) doc with e | r
  · have h1 := read_of_error t doc e hl
    have h2 := read_of_error t doc' e (by rw [← h, hl])
    rw [h1.1, h2.1, h1.2, h2.2]
    exact ⟨rfl, rfl, fun h => by cases h⟩
  · have h1 := read_of_loop t doc r hl
    have h2 := read_of_loop t doc' r (by rw [← h, hl])
    rw [h1.1, h2.1, h1.2, h2.2]
    exact ⟨rfl, rfl, fun _ => rfl⟩

/-- C84. Entries with other keys do not matter. -/
theorem read_ignores_unknown (t : PsfObj) (a b : List JsonItem) (key : String) :
    t.readJson (some (a ++ .unknown key :: b)) = t.readJson (some (a ++ b)) ∧
    t.readJsonWarnings (some (a ++ .unknown key :: b)) = t.readJsonWarnings (some (a ++ b)) := by
  have h : ∀ r, readItems r (a ++ .unknown key :: b) = readItems r (a ++ b) := by
    induction a with
    | nil => intro r; rfl
    | cons x l ih =>
      intro r
      simp only [List.cons_append, readItems]
      split
      · rfl
      · exact ih _
  constructor
  · simp only [PsfObj.readJson, h]
  · simp only [PsfObj.readJsonWarnings, h]

/-- C84. The warning about missing keys: if nothing is raised, it is given exactly if one of the eight quantities other than the polynomial(s) is not in the file. -/
theorem missing_keys_warning (t t' : PsfObj) (doc : List JsonItem) (ho : Once doc) (h : t.readJson (some doc) = (.ok (), t')) :
    FileWarn.missingKeys ∈ t.readJsonWarnings (some doc) ↔ ∃ q : Quantity, q ≠ .polynomials ∧ ∀ x ∈ doc, slot x ≠ some q := by
  obtain ⟨s, hs, _⟩ := read_ok_loop h
  rw [(read_of_loop t doc s hs).2]
  have hc := loop_count doc _ _ hs
  simp only [fresh, zero_add] at hc
  have h8 := counted_eight doc ho
  rw [← hc] at h8
  unfold ReadState.warnings
  by_cases h : s.count = 8
  · rw [if_pos h]
    have h1 : FileWarn.missingKeys ∉ (match s.na, s.wavelen, s.a, s.ps with
      | some na, some wl, some a, some ps => (s.obj.setPhysicalPropsWarnings na wl a ps).map FileWarn.physical
      | _, _, _, _ => []) := by
      split <;> simp
    refine ⟨fun h' => absurd h' h1, ?_⟩
    rintro ⟨q, hq, hx⟩
    obtain ⟨x, hx1, hx2⟩ := h8.1 h q hq
    exact absurd hx2 (hx x hx1)
  · rw [if_neg h]
    refine ⟨fun _ => ?_, fun _ => by simp⟩
    have h' := mt h8.2 h
    push Not at h'
    exact h'

/-- The coefficient(s) `a` of a file stored in an object. -/
def HasCoeffs (t : PsfObj) : JsonItem → Prop
  | .coefficient x => t.expansionCoeff = x ∧ t.alpha = x / t.wavelength
  | .amplitudes l => (∃ x, l = [x] ∧ t.expansionCoeff = x ∧ t.alpha = x / t.wavelength) ∨
      (t.coefficients = some l ∧ t.amplitudes = some (l.map (· / t.wavelength)) ∧ t.polynomials.length = l.length)
  | _ => False

/-- The polynomial(s) of a file stored in an object. -/
def HasPols (t : PsfObj) : JsonItem → Prop
  | .polynomial i => ∃ z, zernPolInit [("osa", .int i)] = .ok z ∧ t.zernpol = some z
  | .polynomials [i] => ∃ z, zernPolInit [("osa", .int i)] = .ok z ∧ t.zernpol = some z
  | .polynomials l => ∃ zs, polsOfOsa l = .ok zs ∧ t.zernpol = none ∧ t.polynomials = zs
  | _ => True

theorem set_pols : SetBy (fun r => (r.obj.zernpol, r.obj.polynomials)) .polynomials := by
  intro r x r' h h8
  cases x <;> first | exact absurd rfl h8 | (cases h; rfl)

theorem setPhysical_stored (o o' : PsfObj) (NA wl px : ℝ) (c : CoeffArg) (h : o.setPhysicalProps NA wl c px = (.ok (), o')) :
    PhysicalOk NA wl px ∧ o'.NA = NA ∧ o'.wavelength = wl ∧ o'.pixelSize = px ∧ o'.kernel = o.kernel ∧ o'.nR = o.nR ∧ o'.nPhi = o.nPhi ∧
      o'.zernpol = o.zernpol ∧ o'.polynomials = o.polynomials ∧ o'.propsSet = true ∧
      (match c with
        | .num x => o'.expansionCoeff = x ∧ o'.alpha = x / wl
        | .seq l => (∃ x, l = [x] ∧ o'.expansionCoeff = x ∧ o'.alpha = x / wl) ∨
            (o'.coefficients = some l ∧ o'.amplitudes = some (l.map (· / wl)) ∧ o'.polynomials.length = l.length)
        | .bad _ => False) := by
  rcases setPhysical_cases o NA wl c px with ⟨_, e⟩ | ⟨_, _, e⟩ | ⟨_, _, _, _, e⟩ | ⟨h2, h3, h4, h5, h6, e⟩
  · rw [e] at h; cases h
  · rw [e] at h; cases h
  · rw [e] at h; cases h
  · rw [e] at h
    have hp : PhysicalOk NA wl px := ⟨h3, h4, h2, h5, by rw [← nyquist_eq]; exact h6⟩
    have hb : (physBase o NA wl px).NA = NA ∧ (physBase o NA wl px).wavelength = wl ∧ (physBase o NA wl px).pixelSize = px ∧
        (physBase o NA wl px).kernel = o.kernel ∧ (physBase o NA wl px).nR = o.nR ∧ (physBase o NA wl px).nPhi = o.nPhi ∧
        (physBase o NA wl px).zernpol = o.zernpol ∧ (physBase o NA wl px).polynomials = o.polynomials := by simp [physBase]
    generalize physBase o NA wl px = b at h hb
    unfold physRest at h
    have hf := storeCoeff_facts b c
    rcases hc : b.storeCoeff c with ⟨_ | u, b'⟩
    · rw [hc] at h; cases h
    · rw [hc] at h hf
      simp only at h hf
      rcases he : b'.estimateSize with e' | S
      · rw [he] at h; cases h
      · rw [he] at h
        cases h
        obtain ⟨f1, f2, f3, f4, f5, f6, f7, f8, f9, f10, f11⟩ := hf
        obtain ⟨b1, b2, b3, b4, b5, b6, b7, b8⟩ := hb
        refine ⟨hp, by simp only [f4, b1], by simp only [f3, b2], by simp only [f5, b3], by simp only [f1, b4], by simp only [f6, b5], by simp only [f7, b6],
          by simp only [f8, b7], by simp only [f9, b8], rfl, ?_⟩
        cases c with
        | num x =>
          simp only [PsfObj.storeCoeff] at hc
          split_ifs at hc
          · cases hc
          · cases hc; exact ⟨rfl, by simp only [PsfObj.storeOne, b2]⟩
        | bad e =>
          simp only [PsfObj.storeCoeff] at hc
          split_ifs at hc <;> cases hc
        | seq l =>
          simp only [PsfObj.storeCoeff] at hc
          by_cases hl : l.length = b.polynomials.length
          · rw [if_neg (by simpa using hl)] at hc
            rcases hm : npMax l with e | m
            · rw [hm] at hc; cases hc
            · rw [hm] at hc; cases hc
              exact Or.inr ⟨rfl, by simp only [b2], hl.symm⟩
          · rw [if_pos hl] at hc
            rcases l with _ | ⟨x, _ | ⟨y, l⟩⟩
            · cases hc
            · simp only at hc
              split_ifs at hc
              · cases hc; exact Or.inl ⟨x, rfl, rfl, by simp only [PsfObj.storeOne, b2]⟩
              · cases hc
            · cases hc

/-- C84 (partial: a polynomial missing in the file is not noticed, see `missing_polynomial_unnoticed`, and the kernel size of the file is not kept, see C38). A call of `read_json` that raises nothing and does not warn about missing keys has found a value of every one of the eight quantities in the file,
whatever the object and the order of the entries; these values (without the kernel size, see C38) are in the object, the polynomials too if the file
gives them, and the physical properties are acceptable. -/
theorem silent_read_complete_partial (t t' : PsfObj) (doc : List JsonItem) (ho : Once doc) (h : t.readJson (some doc) = (.ok (), t'))
    (hw : FileWarn.missingKeys ∉ t.readJsonWarnings (some doc)) :
    (∃ g, .kernel g ∈ doc ∧ t'.kernel = g) ∧ (∃ n, .pointsR n ∈ doc ∧ t'.nR = n) ∧ (∃ n, .pointsAngle n ∈ doc ∧ t'.nPhi = n) ∧
    (∃ x, .na x ∈ doc ∧ t'.NA = x) ∧ (∃ x, .wavelength x ∈ doc ∧ t'.wavelength = x) ∧ (∃ x, .pixelSize x ∈ doc ∧ t'.pixelSize = x) ∧
    (∃ n, .kernelSize n ∈ doc) ∧ (∃ x ∈ doc, HasCoeffs t' x) ∧ (∀ x ∈ doc, HasPols t' x) ∧
    PhysicalOk t'.NA t'.wavelength t'.pixelSize ∧ t'.propsSet = true := by
  obtain ⟨r, hl, hf⟩ := read_ok_loop h
  rw [(read_of_loop t doc r hl).2] at hw
  have h8 : r.count = 8 := by
    by_contra hc
    exact hw (by simp [ReadState.warnings, hc])
  have hc := loop_count doc _ _ hl
  rw [h8] at hc
  simp only [fresh, zero_add] at hc
  have hall := (counted_eight doc ho).1 hc.symm
  have get : ∀ q : Quantity, q ≠ .polynomials → ∃ x ∈ doc, slot x = some q := hall
  obtain ⟨xk, mk, sk⟩ := get .kernel (by decide)
  obtain ⟨xs, ms, ss⟩ := get .kernelSize (by decide)
  obtain ⟨xr, mr, sr⟩ := get .pointsR (by decide)
  obtain ⟨xp, mp, sp⟩ := get .pointsAngle (by decide)
  obtain ⟨xn, mn, sn⟩ := get .na (by decide)
  obtain ⟨xw, mw, sw⟩ := get .wavelength (by decide)
  obtain ⟨xx, mx, sx⟩ := get .pixelSize (by decide)
  obtain ⟨xc, mc, sc⟩ := get .coefficients (by decide)
  obtain ⟨g, rfl⟩ : ∃ g, xk = .kernel g := by cases xk <;> simp [slot] at sk ⊢
  obtain ⟨size, rfl⟩ : ∃ g, xs = .kernelSize g := by cases xs <;> simp [slot] at ss ⊢
  obtain ⟨nR, rfl⟩ : ∃ g, xr = .pointsR g := by cases xr <;> simp [slot] at sr ⊢
  obtain ⟨nPhi, rfl⟩ : ∃ g, xp = .pointsAngle g := by cases xp <;> simp [slot] at sp ⊢
  obtain ⟨na, rfl⟩ : ∃ g, xn = .na g := by cases xn <;> simp [slot] at sn ⊢
  obtain ⟨wl, rfl⟩ : ∃ g, xw = .wavelength g := by cases xw <;> simp [slot] at sw ⊢
  obtain ⟨px, rfl⟩ : ∃ g, xx = .pixelSize g := by cases xx <;> simp [slot] at sx ⊢
  have v1 : r.obj.kernel = g := by
    obtain ⟨r1, r2, e1, e2⟩ := loop_sets set_kernel doc ho _ mk sk _ _ hl
    cases e1; exact e2
  have v2 : r.obj.nR = nR := by
    obtain ⟨r1, r2, e1, e2⟩ := loop_sets set_nR doc ho _ mr sr _ _ hl
    cases e1; exact e2
  have v3 : r.obj.nPhi = nPhi := by
    obtain ⟨r1, r2, e1, e2⟩ := loop_sets set_nPhi doc ho _ mp sp _ _ hl
    cases e1; exact e2
  have v4 : r.na = some na := by
    obtain ⟨r1, r2, e1, e2⟩ := loop_sets set_na doc ho _ mn sn _ _ hl
    cases e1; exact e2
  have v5 : r.wavelen = some wl := by
    obtain ⟨r1, r2, e1, e2⟩ := loop_sets set_wl doc ho _ mw sw _ _ hl
    cases e1; exact e2
  have v6 : r.ps = some px := by
    obtain ⟨r1, r2, e1, e2⟩ := loop_sets set_ps doc ho _ mx sx _ _ hl
    cases e1; exact e2
  obtain ⟨a, v7, v7'⟩ : ∃ a, r.a = some a ∧ ((∃ x, xc = .coefficient x ∧ a = .num x) ∨ ∃ l, xc = .amplitudes l ∧ a = .seq l) := by
    obtain ⟨r1, r2, e1, e2⟩ := loop_sets set_a doc ho _ mc sc _ _ hl
    cases xc <;> simp [slot] at sc
    · cases e1; exact ⟨_, e2, Or.inl ⟨_, rfl, rfl⟩⟩
    · cases e1; exact ⟨_, e2, Or.inr ⟨_, rfl, rfl⟩⟩
  unfold finish at hf
  rw [if_pos h8, v4, v5, v6, v7] at hf
  simp only at hf
  obtain ⟨p0, p1, p2, p3, p4, p5, p6, p7, p8, p9, p10⟩ := setPhysical_stored _ _ _ _ _ _ hf
  refine ⟨⟨g, mk, by rw [p4, v1]⟩, ⟨nR, mr, by rw [p5, v2]⟩, ⟨nPhi, mp, by rw [p6, v3]⟩, ⟨na, mn, p1⟩, ⟨wl, mw, p2⟩, ⟨px, mx, p3⟩, ⟨size, ms⟩, ⟨xc, mc, ?_⟩, ?_,
    by rw [p1, p2, p3]; exact p0, p9⟩
  · rcases v7' with ⟨x, rfl, rfl⟩ | ⟨l, rfl, rfl⟩
    · simp only [HasCoeffs, p2]; exact p10
    · simp only [HasCoeffs, p2]; exact p10
  · intro x hx
    by_cases h9 : slot x = some .polynomials
    · obtain ⟨r1, r2, e1, e2⟩ := loop_sets set_pols doc ho _ hx h9 _ _ hl
      simp only [Prod.mk.injEq] at e2
      cases x with
      | polynomial i =>
        rcases hz : zernPolInit [("osa", .int i)] with e | z
        · simp only [readItem, hz] at e1; cases e1
        · simp only [readItem, hz] at e1; cases e1
          exact ⟨z, hz, by rw [p7, e2.1]⟩
      | polynomials l =>
        rcases l with _ | ⟨i, _ | ⟨j, l⟩⟩
        · cases e1
          exact ⟨[], rfl, by rw [p7, e2.1], by rw [p8, e2.2]⟩
        · rcases hz : zernPolInit [("osa", .int i)] with e | z
          · simp only [readItem, hz] at e1; cases e1
          · simp only [readItem, hz] at e1; cases e1
            exact ⟨z, hz, by rw [p7, e2.1]⟩
        · rcases hz : polsOfOsa (i :: j :: l) with e | zs
          · simp only [readItem, hz] at e1; cases e1
          · simp only [readItem, hz] at e1; cases e1
            exact ⟨zs, hz, by rw [p7, e2.1], by rw [p8, e2.2]⟩
      | _ => simp [slot] at h9
    · cases x <;> first | exact absurd rfl h9 | trivial

/-- C84. What `save_json` writes names every quantity once, so that the entries of a saved file can be in any order, and no warning about missing keys is given on reading. -/
theorem saved_file_complete (o : PsfObj) (doc : List JsonItem) (h : o.document = .ok doc) :
    Once doc ∧ ∀ q : Quantity, ∃ x ∈ doc, slot x = some q := by
  unfold PsfObj.document at h
  simp only at h
  split at h
  · cases h
    exact ⟨by simp [Once, List.filterMap, slot], fun q => by cases q <;> simp [slot]⟩
  · split at h
    · cases h
    · cases h
      exact ⟨by simp [Once, List.filterMap, slot], fun q => by cases q <;> simp [slot]⟩

/-- C84. A saved calibration with its entries in any order and any entries added under unknown keys restores the object as C38 states. -/
theorem reordered_file_restores (o : PsfObj) (s : CoefState) (hr : PsfReachable o s) (hp : ∀ z ∈ psfPols o, Constructed z ∧ ValidOrders z.m z.n)
    (hphys : PhysicalOk o.NA o.wavelength o.pixelSize) (doc doc' : List JsonItem) (hd : o.document = .ok doc) (keys : List String)
    (hperm : (doc ++ keys.map JsonItem.unknown).Perm doc') (t : PsfObj) :
    ∃ t', t.readJson (some doc') = (.ok (), t') ∧ Restored o t' ∧ FileWarn.missingKeys ∉ t.readJsonWarnings (some doc') := by
  obtain ⟨t', o', h1, h2, _⟩ := read_restores_partial o s hr hp hphys doc hd t
  obtain ⟨ho, hc⟩ := saved_file_complete o doc hd
  have hk : ∀ l : List String, t.readJson (some (doc ++ l.map .unknown)) = t.readJson (some doc) ∧ t.readJsonWarnings (some (doc ++ l.map .unknown)) = t.readJsonWarnings (some doc) := by
    intro l
    induction l with
    | nil => simp
    | cons k l ih => exact ⟨(read_ignores_unknown t doc (l.map .unknown) k).1.trans ih.1, (read_ignores_unknown t doc (l.map .unknown) k).2.trans ih.2⟩
  have ho' : Once (doc ++ keys.map .unknown) := by
    have : (keys.map JsonItem.unknown).filterMap slot = ([] : List Quantity) := by
      rw [List.filterMap_eq_nil_iff]
      intro x hx
      obtain ⟨k, _, rfl⟩ := List.mem_map.1 hx
      rfl
    unfold Once at *
    rw [List.filterMap_append, this, List.append_nil]
    exact ho
  obtain ⟨_, q2, q3⟩ := read_order_irrelevant t _ _ hperm ho'
  rw [(hk keys).1, h1] at q3
  refine ⟨t', (q3 rfl).symm, h2, ?_⟩
  rw [← q2, (hk keys).2]
  obtain ⟨r, hl, hf⟩ := read_ok_loop h1
  rw [(read_of_loop t doc r hl).2]
  have hcount := loop_count doc _ _ hl
  simp only [fresh, zero_add] at hcount
  rw [(counted_eight doc ho).2 fun q _ => hc q] at hcount
  unfold ReadState.warnings
  rw [if_pos hcount]
  split <;> simp

/-- C84. The warnings of a call of `save_json` that stores a calibration at the path `(f, name)`: about a kernel not calculated, exactly if the kernel size is 1; about an existing file, exactly if
there is one and overwriting is not requested. Without the second warning the file holds the calibration of the object afterwards; with it, the old one. -/
theorem save_warns (fmt : NumberFormat) (pl : Places) (o : PsfObj) (arg : PathArg) (overwrite : Bool) (d d' : Disk) (f name : String)
    (h : o.saveJson fmt pl arg overwrite d = (.ok (some (f, name)), d')) :
    (FileWarn.uncalculated ∈ o.saveJsonWarnings fmt pl arg overwrite d ↔ o.kernelSize = 1) ∧
    (FileWarn.notOverwritten ∈ o.saveJsonWarnings fmt pl arg overwrite d ↔ overwrite = false ∧ d.file f name ≠ none) ∧
    ∃ doc, o.document = .ok doc ∧ (FileWarn.notOverwritten ∈ o.saveJsonWarnings fmt pl arg overwrite d → d'.file f name = d.file f name) ∧
      (FileWarn.notOverwritten ∉ o.saveJsonWarnings fmt pl arg overwrite d → d'.file f name = some doc) := by
  unfold PsfObj.saveJson at h
  unfold PsfObj.saveJsonWarnings
  rcases hf : saveFolder pl d arg with e | f0
  · rw [hf] at h; cases h
  rw [hf] at h
  simp only at h ⊢
  by_cases h0 : o.zernpol = none ∧ o.polynomials = []
  · rw [if_pos h0] at h; cases h
  rw [if_neg h0] at h
  rw [if_neg h0]
  unfold PsfObj.existsWarning
  rcases hd : o.document with e | doc
  · rw [hd] at h; cases h
  rw [hd] at h
  simp only at h ⊢
  have hk : FileWarn.uncalculated ∈ (if o.kernelSize = 1 then [FileWarn.uncalculated] else []) ↔ o.kernelSize = 1 := by split_ifs <;> simp_all
  have hk' : FileWarn.notOverwritten ∉ (if o.kernelSize = 1 then [FileWarn.uncalculated] else []) := by split_ifs <;> simp
  by_cases hex : (d.file f0 (o.fileName fmt)).isSome && !overwrite
  · have hex' : ((d.mkdir f0).file f0 (o.fileName fmt)).isSome && !overwrite := hex
    rw [if_pos hex'] at h
    cases h
    rw [if_pos hex]
    rw [Bool.and_eq_true, Bool.not_eq_true', Option.isSome_iff_ne_none] at hex
    refine ⟨by simp [hk], by simp [hex.2, hex.1], doc, rfl, fun _ => rfl, fun h => absurd (by simp) h⟩
  · have hex' : ¬ (((d.mkdir f0).file f0 (o.fileName fmt)).isSome && !overwrite) = true := hex
    rw [if_neg hex'] at h
    cases h
    rw [if_neg hex]
    rw [Bool.and_eq_true, Bool.not_eq_true', Option.isSome_iff_ne_none] at hex
    refine ⟨by simp [hk], by simp only [List.append_nil]; exact ⟨fun h => absurd h hk', fun h => absurd ⟨h.2, h.1⟩ hex⟩, doc, rfl, ?_, ?_⟩
    · rw [List.append_nil]; exact fun h => absurd h hk'
    · intro _; simp [Disk.write]

/-- C84. A missing file: a warning, and the object is unchanged. -/
theorem read_missing_warns (t : PsfObj) : t.readJson none = (.ok (), t) ∧ t.readJsonWarnings none = [.noData] := ⟨rfl, rfl⟩

/-! ### What does not hold -/

/-- C84 (negative). A file without a polynomial is not noticed, and nothing is checked about the kernel in the file: the object gets the foreign kernel (any array) and
keeps its own polynomial, without a warning about the file. -/
theorem missing_polynomial_unnoticed (t : PsfObj) (z : ZernPol) (hz : t.zernpol = some z) (hv : ValidOrders z.m z.n) (g : Grid) (size nR nPhi : Int) (na wl px x : ℝ)
    (hp : PhysicalOk na wl px) :
    let doc := [.kernel g, .na na, .wavelength wl, .pixelSize px, .kernelSize size, .pointsR nR, .pointsAngle nPhi, .coefficient x]
    ∃ t', t.readJson (some doc) = (.ok (), t') ∧ t'.kernel = g ∧ t'.zernpol = some z ∧ ∀ w ∈ t.readJsonWarnings (some doc), ∃ v, w = .physical v := by
  intro doc
  obtain ⟨S, hS, e⟩ := setPhysical_num ⟨g, size, t.NA, t.wavelength, t.expansionCoeff, t.zernpol, t.polynomials, t.propsSet, t.nyquist, t.pixelSize, t.alpha,
        t.airy, nR, nPhi, t.k, t.coefficients, t.amplitudes⟩ z hz hv na wl px x hp
  refine ⟨_, e, rfl, hz, ?_⟩
  intro w hw
  obtain ⟨v, _, rfl⟩ := List.mem_map.1 (show w ∈ (PsfObj.setPhysicalPropsWarnings _ _ _ _ _).map FileWarn.physical from hw)
  exact ⟨v, rfl⟩

/-- C84 (negative). An incomplete file is not rejected but partly taken over: the new kernel with the old properties, and a warning. -/
theorem incomplete_file_mixes (t : PsfObj) (g : Grid) :
    t.readJson (some [.kernel g]) = (.ok (), { t with kernel := g }) ∧ t.readJsonWarnings (some [.kernel g]) = [.missingKeys] := ⟨rfl, rfl⟩

/-- C84 (negative). A file with a coefficient and amplitudes, but without a kernel, is not noticed: the object keeps its kernel, and gets the new properties. -/
theorem doubled_coefficient_hides_kernel (t : PsfObj) (z : ZernPol) (hz : t.zernpol = some z) (hv : ValidOrders z.m z.n) (size nR nPhi : Int) (na wl px x y : ℝ)
    (hp : PhysicalOk na wl px) :
    let doc := [.na na, .wavelength wl, .pixelSize px, .kernelSize size, .pointsR nR, .pointsAngle nPhi, .amplitudes [y], .coefficient x]
    ∃ t', t.readJson (some doc) = (.ok (), t') ∧ t'.kernel = t.kernel ∧ t'.NA = na ∧ t'.wavelength = wl ∧ t'.pixelSize = px ∧ t'.expansionCoeff = x ∧
      ∀ w ∈ t.readJsonWarnings (some doc), ∃ v, w = .physical v := by
  intro doc
  obtain ⟨S, hS, e⟩ := setPhysical_num ⟨t.kernel, size, t.NA, t.wavelength, t.expansionCoeff, t.zernpol, t.polynomials, t.propsSet, t.nyquist, t.pixelSize, t.alpha,
        t.airy, nR, nPhi, t.k, t.coefficients, t.amplitudes⟩ z hz hv na wl px x hp
  refine ⟨_, e, rfl, rfl, rfl, rfl, rfl, ?_⟩
  intro w hw
  obtain ⟨v, _, rfl⟩ := List.mem_map.1 (show w ∈ (PsfObj.setPhysicalPropsWarnings _ _ _ _ _).map FileWarn.physical from hw)
  exact ⟨v, rfl⟩

/-- C84 (negative). After a single polynomial is read into an object made for several, the old polynomials are still stored; `set_physical_props` then rejects a
sequence with one coefficient, which it accepts for an object made for the polynomial. -/
theorem stale_polynomials_after_read (o : PsfObj) (s : CoefState) (hr : PsfReachable o s) (z : ZernPol) (hz : o.zernpol = some z) (hc : Constructed z) (hv : ValidOrders z.m z.n)
    (hphys : PhysicalOk o.NA o.wavelength o.pixelSize) (doc : List JsonItem) (hd : o.document = .ok doc) (t : PsfObj) (ht : 2 ≤ t.polynomials.length) (x : ℝ) :
    ∃ t', t.readJson (some doc) = (.ok (), t') ∧ t'.polynomials = t.polynomials ∧
      (t'.setPhysicalProps o.NA o.wavelength (.seq [x]) o.pixelSize).1 = .error .valueError ∧
      (o.polynomials = [] → (o.setPhysicalProps o.NA o.wavelength (.seq [x]) o.pixelSize).1 = .ok ()) := by
  obtain ⟨z', h3, h4⟩ := read_pol z hc hv
  unfold PsfObj.document at hd
  rw [hz] at hd
  cases hd
  have hread : ∀ r : ReadState, readItem r (.polynomial z.osa) = .ok { r with obj := { r.obj with zernpol := some z' } } := by
    intro r
    simp only [readItem, h3]
    rfl
  simp only [PsfObj.readJson, readItems, readItem_kernel, readItem_size, readItem_r, readItem_phi, readItem_na, readItem_wl, readItem_coeff, readItem_ampl, readItem_px,
    List.cons_append, List.nil_append, hread, zero_add, Nat.reduceAdd, if_true]
  obtain ⟨S, e1, e2⟩ := setPhysical_num ⟨o.kernel, o.kernelSize, t.NA, t.wavelength, t.expansionCoeff, some z', t.polynomials, t.propsSet, t.nyquist, t.pixelSize, t.alpha,
      t.airy, o.nR, o.nPhi, t.k, t.coefficients, t.amplitudes⟩ z' rfl (by rw [h4.orders.1, h4.orders.2]; exact hv) o.NA o.wavelength o.pixelSize o.expansionCoeff hphys
  refine ⟨_, e2, rfl, ?_, ?_⟩
  · generalize ht' : ({ physBase _ o.NA o.wavelength o.pixelSize with expansionCoeff := o.expansionCoeff, alpha := _, kernelSize := S, propsSet := true } : PsfObj) = t'
    have hpol : t'.polynomials = t.polynomials := by rw [← ht']; rfl
    obtain ⟨a1, a2, a3, a4, a5⟩ := hphys
    rcases setPhysical_cases t' o.NA o.wavelength (.seq [x]) o.pixelSize with ⟨_, e⟩ | ⟨_, h, e⟩ | ⟨_, _, _, _, e⟩ | ⟨_, _, _, _, _, e⟩
    · rw [e]
    · linarith
    · rw [e]
    · rw [e]
      have hb : (physBase t' o.NA o.wavelength o.pixelSize).polynomials = t.polynomials := hpol
      unfold physRest PsfObj.storeCoeff
      simp only [hb]
      rw [if_pos (by simp; omega), if_neg (by omega)]
  · intro hpe
    obtain ⟨a1, a2, a3, a4, a5⟩ := hphys
    rcases setPhysical_cases o o.NA o.wavelength (.seq [x]) o.pixelSize with ⟨h, e⟩ | ⟨_, h, e⟩ | ⟨_, _, _, h, e⟩ | ⟨_, _, _, _, _, e⟩
    · rcases h with h | h | h <;> linarith
    · linarith
    · rw [nyquist_eq] at h; rcases h with h | h <;> linarith
    · rw [e]
      have hb : (physBase o o.NA o.wavelength o.pixelSize).polynomials = [] := hpe
      have hb2 : (physBase o o.NA o.wavelength o.pixelSize).zernpol = some z := hz
      obtain ⟨S', hS', _⟩ := getKernelSize_ok z.m z.n hv o.pixelSize (x / o.wavelength) o.wavelength o.NA a4 a3.le a1
      have h1 : (physBase o o.NA o.wavelength o.pixelSize).storeCoeff (.seq [x]) = (.ok (), (physBase o o.NA o.wavelength o.pixelSize).storeOne x) := by
        simp [PsfObj.storeCoeff, hb]
      have h2 : ((physBase o o.NA o.wavelength o.pixelSize).storeOne x).estimateSize = .ok S' := by
        have hb3 : ((physBase o o.NA o.wavelength o.pixelSize).storeOne x).zernpol = some z := hb2
        unfold PsfObj.estimateSize
        rw [hb3]
        exact hS'
      unfold physRest
      rw [h1]
      simp only [h2]

theorem saveWarnings_none (fmt : NumberFormat) (pl : Places) (o : PsfObj) (arg : PathArg) (d : Disk) (h : o.kernelSize ≠ 1) :
    o.saveJsonWarnings fmt pl arg true d = [] := by
  have he : ∀ f, o.existsWarning fmt f true d = [] := by
    intro f
    unfold PsfObj.existsWarning
    split
    · rfl
    · simp
  unfold PsfObj.saveJsonWarnings
  split
  · rfl
  · rw [if_neg h, he]
    simp

/-- C84 (negative). A kernel that was never calculated is saved without a warning after `set_physical_props` (which estimates the kernel size): the file has a kernel with
one pixel. For every polynomial but the piston with `n - |m| ≤ (n + 1) / 2`, such as tilt, astigmatism, coma. -/
theorem uncalculated_kernel_saved (z : ZernPol) (hv : ValidOrders z.m z.n) (h0 : ¬ (z.m = 0 ∧ z.n = 0)) (he : z.n - |z.m| ≤ (z.n + 1) / 2) (NA wl px x : ℝ) (hp : PhysicalOk NA wl px) (fmt : NumberFormat) (pl : Places)
    (arg : PathArg) (d : Disk) :
    ∃ o o' doc, psfInit (.pol z) = .ok o ∧ o.setPhysicalProps NA wl (.num x) px = (.ok (), o') ∧ o'.saveJsonWarnings fmt pl arg true d = [] ∧
      o'.document = .ok doc ∧ .kernel ⟨1, 1, fun _ _ => 1⟩ ∈ doc ∧ 3 ≤ o'.kernelSize := by
  obtain ⟨S, hS, e⟩ := setPhysical_num { psfDefault with zernpol := some z, airy := z.isPiston } z rfl hv NA wl px x hp
  have h3 := size_at_least_three z.m z.n hv h0 he _ _ _ _ hp.2.2.2.1 hp.2.2.1.le _ hS
  refine ⟨_, _, _, rfl, e, ?_, rfl, ?_, h3⟩
  · exact saveWarnings_none fmt pl _ arg d (by simp only; omega)
  · simp [physBase, psfDefault]

/-- The hypotheses are met: the file of a new object for the vertical coma with its entries in the reverse order and a comment, read by an object for two polynomials. -/
example : ∃ (o : PsfObj) (s : CoefState) (z : ZernPol) (doc : List JsonItem) (t t' : PsfObj), PsfReachable o s ∧ o.zernpol = some z ∧ Constructed z ∧ ValidOrders z.m z.n ∧
    ¬ (z.m = 0 ∧ z.n = 0) ∧ z.n - |z.m| ≤ (z.n + 1) / 2 ∧ PhysicalOk o.NA o.wavelength o.pixelSize ∧ o.document = .ok doc ∧ 2 ≤ t.polynomials.length ∧
    (doc ++ ["Comment"].map JsonItem.unknown).Perm (doc ++ [JsonItem.unknown "Comment"]).reverse ∧ Once (doc ++ [JsonItem.unknown "Comment"]).reverse ∧
    t.readJson (some (doc ++ [JsonItem.unknown "Comment"]).reverse) = (.ok (), t') ∧ FileWarn.missingKeys ∉ t.readJsonWarnings (some (doc ++ [JsonItem.unknown "Comment"]).reverse) := by
  obtain ⟨a, _, _, _, ha, _, _, _, h1, _⟩ := constructions_agree (-1) 3 (by decide) (by decide)
  have hca : Constructed a := ⟨_, by simp, ha⟩
  obtain ⟨o1, _⟩ := h1 a (by simp)
  simp only [ZernPol.getMnOrders, Prod.mk.injEq] at o1
  have hv : ValidOrders a.m a.n := by rw [o1.1, o1.2]; decide
  have hr : PsfReachable { psfDefault with zernpol := some a, airy := a.isPiston } (afterCalls []) := ⟨.pol a, _, [], [], rfl, rfl⟩
  have hphys : PhysicalOk psfDefault.NA psfDefault.wavelength psfDefault.pixelSize := by unfold PhysicalOk psfDefault; norm_num
  obtain ⟨doc, hd⟩ : ∃ doc, ({ psfDefault with zernpol := some a, airy := a.isPiston } : PsfObj).document = .ok doc := ⟨_, rfl⟩
  have hperm : (doc ++ ["Comment"].map JsonItem.unknown).Perm (doc ++ [JsonItem.unknown "Comment"]).reverse := (List.reverse_perm _).symm
  obtain ⟨t', h2, h3, h4⟩ := reordered_file_restores _ _ hr (by simp [psfPols, hca, hv]) hphys doc _ hd ["Comment"] hperm { psfDefault with zernpol := none, polynomials := [pistonPol, a] }
  refine ⟨_, _, a, doc, _, t', hr, rfl, hca, hv, by rw [o1.1]; simp, by rw [o1.1, o1.2]; decide, hphys, hd, by simp, hperm, ?_, h2, h4⟩
  refine (Once.perm hperm).1 ?_
  have := (saved_file_complete _ doc hd).1
  unfold Once at *
  rw [List.filterMap_append, show (["Comment"].map JsonItem.unknown).filterMap slot = [] from rfl, List.append_nil]
  exact this

end Verif.Props
