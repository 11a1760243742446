import Verif.Props.JsonFile
import Verif.Model.World

/-! # Invariants of objects and files -/

namespace Verif.Proofs

open Verif.Model Verif.Spec Verif.Props

/-- What holds for an object at any time, also after files were read: `PsfInv` without the form of the polynomials. -/
structure ObjInv (o : PsfObj) : Prop where
  rows_cols : o.kernel.rows = o.kernel.cols
  odd : o.kernel.rows % 2 = 1
  nn : NN o.kernel
  size : o.kernelSize % 2 = 1 ∧ 1 ≤ o.kernelSize
  wavelength : 0 < o.wavelength
  NA : 0 ≤ o.NA ∧ o.NA ≤ 1.7
  pixel : 0 < o.pixelSize
  points : 20 ≤ o.nR ∧ 36 ≤ o.nPhi

theorem PsfInv.weaken {o : PsfObj} (h : PsfInv o) : ObjInv o := ⟨h.rows_cols, h.odd, h.nn, h.size, h.wavelength, h.NA, h.pixel, h.points⟩

theorem setPhysical_objInv (o : PsfObj) (h : ObjInv o) (NA wl : ℝ) (c : CoeffArg) (px : ℝ) : ObjInv (o.setPhysicalProps NA wl c px).2 := by
  rcases setPhysical_cases o NA wl c px with ⟨_, e⟩ | ⟨h2, h3, e⟩ | ⟨h2, h3, h4, _, e⟩ | ⟨h2, h3, h4, h5, _, e⟩ <;> rw [e]
  · exact h
  · exact { h with wavelength := h2, NA := ⟨h3.ge, by rw [h3]; norm_num⟩ }
  · exact { h with wavelength := h2, NA := ⟨h3.le, h4⟩ }
  have base3 : ObjInv (physBase o NA wl px) := { h with wavelength := h2, NA := ⟨h3.le, h4⟩, pixel := h5 }
  generalize physBase o NA wl px = b at base3
  unfold physRest
  have hf := storeCoeff_facts b c
  rcases hc : b.storeCoeff c with ⟨r, b'⟩
  rw [hc] at hf
  simp only at hf
  obtain ⟨f1, f2, f3, f4, f5, f6, f7, _⟩ := hf
  have base4 : ObjInv b' := by
    refine ⟨by rw [f1]; exact base3.rows_cols, by rw [f1]; exact base3.odd, by rw [f1]; exact base3.nn, by rw [f2]; exact base3.size,
      by rw [f3]; exact base3.wavelength, by rw [f4]; exact base3.NA, by rw [f5]; exact base3.pixel, by rw [f6, f7]; exact base3.points⟩
  cases r with
  | error e => exact base4
  | ok u =>
    simp only []
    rcases he : b'.estimateSize with e | size
    · exact base4
    · exact { base4 with size := estimateSize_odd b' base4.pixel base4.wavelength size he }

theorem setCalculation_objInv (o : PsfObj) (h : ObjInv o) (size nR nPhi : Int) : ObjInv (o.setCalculationProps size nR nPhi).2 := by
  unfold PsfObj.setCalculationProps
  by_cases h1 : size < 3
  · rw [if_pos h1]; exact h
  rw [if_neg h1]
  have h2 : makeOdd size % 2 = 1 ∧ 1 ≤ makeOdd size := ⟨makeOdd_odd _, by have := makeOdd_ge size; omega⟩
  simp only []
  split_ifs with h3 h4
  · exact { h with size := h2 }
  · exact { h with size := h2 }
  · exact { h with size := h2, points := ⟨not_lt.1 h3, not_lt.1 h4⟩ }

/-- A kernel is square with an odd side, without negative values. -/
def KernelOk (g : Grid) : Prop := g.rows = g.cols ∧ g.rows % 2 = 1 ∧ NN g

theorem SquareNN.kernelOk {S : Int} {g : Grid} (h : SquareNN S g) (hS : S % 2 = 1) : KernelOk g := by
  obtain ⟨h1, h2, h3⟩ := h
  exact ⟨by omega, by omega, h3⟩

theorem kernelCall_objPost (env : Env) (o : PsfObj) (h : ObjInv o) (nrm : Bool) (acc : Option Bool) (x : CM Grid)
    (hx : o.kernelCall env nrm acc = some x) : Post x KernelOk := by
  have hmo := makeOdd_of_odd h.size.1
  unfold PsfObj.kernelCall at hx
  split at hx
  · rename_i z hz
    simp only [Option.some.injEq] at hx
    subst hx
    split_ifs with hacc
    · exact (getPsfKernelComp_post _ _ _).mono fun g hg => SquareNN.kernelOk hg (makeOdd_odd _)
    · refine (getPsfKernel_post _ _ _ _ _ _).mono fun g hg => ?_
      obtain ⟨S, hS, hg⟩ := hg
      rcases hS with ⟨h3, rfl⟩ | ⟨h3, s, hs, rfl⟩ <;> exact SquareNN.kernelOk hg (makeOdd_odd _)
  · split at hx
    · cases hx
    · split at hx
      · simp only [Option.some.injEq] at hx
        subst hx
        exact Post.raise _
      · simp only [Option.some.injEq] at hx
        subst hx
        split_ifs
        · exact Post.raise _
        · exact (getPsfKernelCompPols_post _ _).mono fun g hg => SquareNN.kernelOk hg (makeOdd_odd _)
        · exact (getPsfKernelZerns_post _ _ _).mono fun g hg => SquareNN.kernelOk hg (makeOdd_odd _)

theorem calculate_objInv (env : Env) (o : PsfObj) (h : ObjInv o) (sup nrm : Bool) (acc : Option Bool) (s : CoefState) :
    ObjInv (o.calculate env sup nrm acc s).2.1 := by
  have hi : ObjInv (calcStart o sup) := by
    unfold calcStart
    split_ifs
    · exact { h with size := ⟨by norm_num, by norm_num⟩ }
    · exact h
  have hu : o.calculate env sup nrm acc s = (match (calcStart o sup).kernelCall env nrm acc with
    | none => (.ok (calcStart o sup).kernel, calcStart o sup, s)
    | some x =>
      match x s with
      | (.error e, s') => (.error e, calcStart o sup, s')
      | (.ok g, s') => (.ok g, { calcStart o sup with kernel := g }, s')) := rfl
  rw [hu]
  split
  · exact hi
  · rename_i x hx
    have hp := kernelCall_objPost env _ hi nrm acc x hx
    split
    · exact hi
    · rename_i g s' hg
      obtain ⟨h1, h2, h3⟩ := hp _ _ _ hg
      exact { hi with rows_cols := h1, odd := h2, nn := h3 }

theorem crop_objInv (o : PsfObj) (h : ObjInv o) (part : ℝ) : ObjInv (o.crop part).2 := by
  by_cases hs : 3 < o.kernelSize
  · have hodd := h.odd
    by_cases hp : 0 < part ∧ part < 1 / 2
    · obtain ⟨top, t, h1, h2, h3⟩ := crop_spec o o.kernel.rows rfl h.rows_cols.symm (by omega) (fun i j _ _ => h.nn i j) hs part hp.1 hp.2
      rw [h3]
      simp only
      split_ifs with ht
      · exact h
      · have h4 := h2.nonempty
        have hrc := h.rows_cols
        exact { h with
          rows_cols := by simp only [Grid.inner]; omega
          odd := by simp only [Grid.inner]; omega
          nn := fun a b => h.nn _ _
          size := by simp only; omega }
    · unfold PsfObj.crop
      rw [if_pos hs]
      split
      · exact h
      · by_cases h1 : part ≤ 0
        · rw [if_pos h1]; exact h
        · rw [if_neg h1, if_pos]
          · exact h
          · norm_num; by_contra hlt; push Not at hlt; exact hp ⟨by linarith, hlt⟩
  · unfold PsfObj.crop
    rw [if_neg (by omega)]
    exact h

theorem afterParallel_objInv (o : PsfObj) (h : ObjInv o) (fuel : Nat) (w : Workers) (even odd : Nat → Nat → ℂ) (nrm : Bool) (s : CoefState) :
    ObjInv (o.afterParallel fuel w even odd nrm s).1 := by
  rcases afterParallel_cases o h.size.2 fuel w even odd nrm s with e | ⟨_, g, ⟨h6, h7, h8⟩, e⟩ | ⟨_, e⟩ <;> rw [e]
  · exact h
  · have := h.size
    exact { h with rows_cols := by simp only; omega, odd := by simp only; omega, nn := h8 }
  · exact { h with rows_cols := rfl, odd := by simp [Grid.zeros], nn := fun _ _ => le_refl _, size := ⟨by norm_num, by norm_num⟩ }

theorem run_objInv (x : PsfObj × CoefState) (h : ObjInv x.1) (c : PsfCall) : ObjInv (c.run x).1 := by
  cases c with
  | setPhysicalProps NA wl c px => exact setPhysical_objInv _ h _ _ _ _
  | setCalculationProps size nR nPhi => exact setCalculation_objInv _ h _ _ _
  | calculate env sup nrm acc => exact calculate_objInv _ _ h _ _ _ _
  | crop part => exact crop_objInv _ h _
  | parallel fuel w even odd nrm => exact afterParallel_objInv _ h _ _ _ _ _ _

/-- An entry that keeps the invariants. -/
def EntryOk : JsonItem → Prop
  | .kernel g => KernelOk g
  | .kernelSize n => n % 2 = 1 ∧ 1 ≤ n
  | .pointsR n => 20 ≤ n
  | .pointsAngle n => 36 ≤ n
  | _ => True

theorem readItem_objInv (r r' : ReadState) (x : JsonItem) (h : ObjInv r.obj) (hx : EntryOk x) (e : readItem r x = .ok r') : ObjInv r'.obj := by
  by_cases h8 : slot x = some .polynomials
  · rcases readItem_pol r x h8 with ⟨e', he⟩ | ⟨z, ps, a, he⟩
    · rw [he] at e; cases e
    · rw [he] at e; cases e
      exact { h with }
  · cases x with
    | kernel g => cases e; exact { h with rows_cols := hx.1, odd := hx.2.1, nn := hx.2.2 }
    | kernelSize n => cases e; exact { h with size := hx }
    | pointsR n => cases e; exact { h with points := ⟨hx, h.points.2⟩ }
    | pointsAngle n => cases e; exact { h with points := ⟨h.points.1, hx⟩ }
    | polynomial i => exact absurd rfl h8
    | polynomials l => exact absurd rfl h8
    | _ => cases e; exact h

theorem readItems_objInv (doc : List JsonItem) (hd : ∀ x ∈ doc, EntryOk x) : ∀ r : ReadState, ObjInv r.obj → ObjInv (readItems r doc).2.obj := by
  induction doc with
  | nil => exact fun r h => h
  | cons x l ih =>
    intro r h
    unfold readItems
    rcases hx : readItem r x with e | r'
    · exact h
    · exact ih (fun y hy => hd y (by simp [hy])) r' (readItem_objInv r r' x h (hd x (by simp)) hx)

theorem readJson_objInv (o : PsfObj) (h : ObjInv o) (file : Option (List JsonItem)) (hd : ∀ doc, file = some doc → ∀ x ∈ doc, EntryOk x) :
    ObjInv (o.readJson file).2 := by
  cases file with
  | none => exact h
  | some doc =>
    have h1 := readItems_objInv doc (hd doc rfl) ⟨o, none, none, none, none, 0⟩ h
    unfold PsfObj.readJson
    simp only
    rcases hr : readItems ⟨o, none, none, none, none, 0⟩ doc with ⟨e | u, r⟩
    · rw [hr] at h1; exact h1
    · rw [hr] at h1
      simp only at h1 ⊢
      split_ifs
      · split
        · exact setPhysical_objInv _ h1 _ _ _ _
        · exact h1
      · exact h1

theorem document_ok (o : PsfObj) (h : ObjInv o) (doc : List JsonItem) (hd : o.document = .ok doc) : ∀ x ∈ doc, EntryOk x := by
  have hk : KernelOk o.kernel := ⟨h.rows_cols, h.odd, h.nn⟩
  unfold PsfObj.document at hd
  simp only at hd
  split at hd
  · cases hd
    intro x hx
    simp only [List.cons_append, List.nil_append, List.mem_cons, List.not_mem_nil, or_false] at hx
    rcases hx with rfl | rfl | rfl | rfl | rfl | rfl | rfl | rfl | rfl
    all_goals first | exact hk | exact h.size | exact h.points.1 | exact h.points.2 | trivial
  · split at hd
    · cases hd
    · cases hd
      intro x hx
      simp only [List.cons_append, List.nil_append, List.mem_cons, List.not_mem_nil, or_false] at hx
      rcases hx with rfl | rfl | rfl | rfl | rfl | rfl | rfl | rfl | rfl
      all_goals first | exact hk | exact h.size | exact h.points.1 | exact h.points.2 | trivial

/-- Files: each file after `save_json` is an old one, or the document of the object. -/
theorem save_files (fmt : NumberFormat) (pl : Places) (o : PsfObj) (arg : PathArg) (overwrite : Bool) (d : Disk) (f n : String) :
    (o.saveJson fmt pl arg overwrite d).2.file f n = d.file f n ∨
    ∃ doc, o.document = .ok doc ∧ (o.saveJson fmt pl arg overwrite d).2.file f n = some doc ∧ (o.saveJson fmt pl arg overwrite d).1 = .ok (some (f, n)) ∧
      (overwrite = true ∨ d.file f n = none) := by
  unfold PsfObj.saveJson
  rcases saveFolder pl d arg with e | f0
  · exact Or.inl rfl
  · simp only
    by_cases h0 : o.zernpol = none ∧ o.polynomials = []
    · rw [if_pos h0]; exact Or.inl rfl
    · rw [if_neg h0]
      rcases hd : o.document with e | doc
      · exact Or.inl rfl
      · simp only
        by_cases hex : (((d.mkdir f0).file f0 (o.fileName fmt)).isSome && !overwrite) = true
        · rw [if_pos hex]; exact Or.inl rfl
        rw [if_neg hex]
        · by_cases e1 : f = f0 ∧ n = o.fileName fmt
          · obtain ⟨rfl, rfl⟩ := e1
            refine Or.inr ⟨doc, rfl, by simp [Disk.write], rfl, ?_⟩
            rw [Bool.and_eq_true, Bool.not_eq_true', Option.isSome_iff_ne_none] at hex
            have hex : ¬ (d.file f (o.fileName fmt) ≠ none ∧ overwrite = false) := hex
            cases overwrite
            · right; by_contra h; exact hex ⟨h, rfl⟩
            · left; rfl
          · left
            simp only [Disk.write, Disk.mkdir]
            by_cases e : f = f0
            · subst e
              rw [Function.update_self, Function.update_of_ne (fun e => e1 ⟨rfl, e⟩)]
            · rw [Function.update_of_ne e]

/-- The invariants of the objects and the files. -/
structure WorldInv (w : World) : Prop where
  objs : ∀ i x, w.slots i = some x → ObjInv x.obj
  files : ∀ f n doc, w.disk.file f n = some doc → ∀ x ∈ doc, EntryOk x

theorem slots_update (w : World) (i : Nat) (y : PsfSlot) (h : ∀ i x, w.slots i = some x → ObjInv x.obj) (hy : ObjInv y.obj) :
    ∀ j x, Function.update w.slots i (some y) j = some x → ObjInv x.obj := by
  intro j x hx
  by_cases e : j = i
  · subst e; rw [Function.update_self] at hx; cases hx; exact hy
  · rw [Function.update_of_ne e] at hx; exact h j x hx

theorem world_run_inv (fmt : NumberFormat) (pl : Places) (w : World) (h : WorldInv w) (c : WorldCall) : WorldInv (w.run fmt pl c) := by
  cases c with
  | create i arg =>
    rcases ho : psfInit arg with e | o
    · simp only [World.run, ho]; exact h
    · simp only [World.run, ho]; exact ⟨slots_update w i _ h.objs (PsfInv.weaken (psfInit_inv arg o ho)), h.files⟩
  | call i c =>
    rcases hx : w.slots i with _ | x
    · simp only [World.run, hx]; exact h
    · simp only [World.run, hx]
      exact ⟨slots_update w i _ h.objs (run_objInv _ (h.objs i x hx) c), h.files⟩
  | save i arg overwrite =>
    rcases hx : w.slots i with _ | x
    · simp only [World.run, hx]; exact h
    · simp only [World.run, hx]
      refine ⟨slots_update w i _ h.objs (h.objs i x hx), fun f n doc hd => ?_⟩
      rcases save_files fmt (x.places pl) x.obj arg overwrite w.disk f n with e | ⟨doc', e1, e2, _⟩
      · exact h.files f n doc (by rw [← e]; exact hd)
      · have : some doc = some doc' := by rw [← e2]; exact hd.symm
        cases this
        exact document_ok x.obj (h.objs i x hx) doc e1
  | read i f n =>
    rcases hx : w.slots i with _ | x
    · simp only [World.run, hx]; exact h
    · simp only [World.run, hx]
      exact ⟨slots_update w i _ h.objs (readJson_objInv _ (h.objs i x hx) _ fun doc e => h.files f n doc e), h.files⟩
  | readOwn i =>
    rcases hx : w.slots i with _ | x
    · simp only [World.run, hx]; exact h
    · simp only [World.run, hx]
      refine ⟨slots_update w i _ h.objs (readJson_objInv _ (h.objs i x hx) _ fun doc e => ?_), h.files⟩
      rcases hp : x.path with _ | ⟨f, n⟩
      · rw [hp] at e; cases e
      · rw [hp] at e; exact h.files f n doc e

theorem world_inv (fmt : NumberFormat) (pl : Places) (calls : List WorldCall) : ∀ w : World, WorldInv w → WorldInv (w.runAll fmt pl calls) := by
  induction calls with
  | nil => exact fun w h => h
  | cons c l ih => exact fun w h => ih _ (world_run_inv fmt pl w h c)

end Verif.Proofs
