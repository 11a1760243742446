import Verif.Proofs.World

/-!
# C85. Several objects with files, in any history

Specification: `Sound` (what a user may assume about an object), `Restored` (C38).
-/

namespace Verif.Props

open Verif.Model Verif.Spec Verif.Proofs

/-- What can be assumed about an object at any time. -/
structure Sound (o : PsfObj) : Prop where
  square : o.kernel.rows = o.kernel.cols
  odd : o.kernel.rows % 2 = 1
  nonneg : ∀ i j, 0 ≤ o.kernel.entry i j
  size : o.kernelSize % 2 = 1 ∧ 1 ≤ o.kernelSize
  wavelength : 0 < o.wavelength
  NA : 0 ≤ o.NA ∧ o.NA ≤ 1.7
  pixelSize : 0 < o.pixelSize
  points : 20 ≤ o.nR ∧ 36 ≤ o.nPhi

/-- A file that holds the calibration of an object. -/
def SoundFile (doc : List JsonItem) : Prop := ∃ o, Sound o ∧ o.document = .ok doc

theorem sound_iff (o : PsfObj) : Sound o ↔ ObjInv o := ⟨fun ⟨a, b, c, d, e, f, g, h⟩ => ⟨a, b, c, d, e, f, g, h⟩, fun ⟨a, b, c, d, e, f, g, h⟩ => ⟨a, b, c, d, e, f, g, h⟩⟩

/-- C85. After any history of constructions, calls, saving and reading by any number of objects, starting without objects and with files that hold calibrations, every object is sound, even if
calls have raised exceptions. -/
theorem objects_stay_sound (fmt : NumberFormat) (pl : Places) (w : World) (h0 : ∀ i, w.slots i = none) (hf : ∀ f n doc, w.disk.file f n = some doc → SoundFile doc)
    (calls : List WorldCall) (i : Nat) (x : PsfSlot) (hx : (w.runAll fmt pl calls).slots i = some x) : Sound x.obj := by
  refine (sound_iff _).2 ((world_inv fmt pl calls w ⟨fun i x h => (by rw [h0] at h; cases h), fun f n doc h => ?_⟩).objs i x hx)
  obtain ⟨o, h1, h2⟩ := hf f n doc h
  exact document_ok o ((sound_iff o).1 h1) doc h2

/-- The object a call is made on. -/
def WorldCall.target : WorldCall → Nat
  | .create i _ | .call i _ | .save i _ _ | .read i _ _ | .readOwn i => i

/-- C85. A call changes no other object. -/
theorem other_objects_untouched (fmt : NumberFormat) (pl : Places) (w : World) (calls : List WorldCall) (j : Nat) (h : ∀ c ∈ calls, WorldCall.target c ≠ j) :
    (w.runAll fmt pl calls).slots j = w.slots j := by
  have step : ∀ (w : World) c, WorldCall.target c ≠ j → (w.run fmt pl c).slots j = w.slots j := by
    intro w c hc
    have hc' := Ne.symm hc
    cases c with
    | create i arg =>
      rcases ho : psfInit arg with e | o <;> simp only [World.run, ho]
      exact Function.update_of_ne hc' _ _
    | call i c =>
      rcases hx : w.slots i with _ | x <;> simp only [World.run, hx]
      exact Function.update_of_ne hc' _ _
    | save i arg overwrite =>
      rcases hx : w.slots i with _ | x <;> simp only [World.run, hx]
      exact Function.update_of_ne hc' _ _
    | read i f n =>
      rcases hx : w.slots i with _ | x <;> simp only [World.run, hx]
      exact Function.update_of_ne hc' _ _
    | readOwn i =>
      rcases hx : w.slots i with _ | x <;> simp only [World.run, hx]
      exact Function.update_of_ne hc' _ _
  unfold World.runAll
  induction calls generalizing w with
  | nil => rfl
  | cons c l ih => exact (ih (w.run fmt pl c) fun c hc => h c (by simp [hc])).trans (step w c (h c (by simp)))

/-- C85. A file changes only by `save_json(overwrite=True)`: whatever other calls are made by any objects, a saved file keeps its contents. -/
theorem files_kept (fmt : NumberFormat) (pl : Places) (w : World) (calls : List WorldCall) (f n : String) (doc : List JsonItem) (hd : w.disk.file f n = some doc)
    (h : ∀ i arg, WorldCall.save i arg true ∉ calls) : (w.runAll fmt pl calls).disk.file f n = some doc := by
  have step : ∀ (w : World) c, w.disk.file f n = some doc → (∀ i arg, c ≠ WorldCall.save i arg true) → (w.run fmt pl c).disk.file f n = some doc := by
    intro w c hd hc
    cases c with
    | create i arg => rcases ho : psfInit arg with e | o <;> simp only [World.run, ho] <;> exact hd
    | call i c => rcases hx : w.slots i with _ | x <;> simp only [World.run, hx] <;> exact hd
    | read i f n => rcases hx : w.slots i with _ | x <;> simp only [World.run, hx] <;> exact hd
    | readOwn i => rcases hx : w.slots i with _ | x <;> simp only [World.run, hx] <;> exact hd
    | save i arg overwrite =>
      rcases hx : w.slots i with _ | x <;> simp only [World.run, hx]
      · exact hd
      · rcases save_files fmt (x.places pl) x.obj arg overwrite w.disk f n with e | ⟨doc', e1, e2, e3, e4⟩
        · rw [e]; exact hd
        · rcases e4 with rfl | e4
          · exact absurd rfl (hc i arg)
          · rw [hd] at e4; cases e4
  unfold World.runAll
  induction calls generalizing w with
  | nil => exact hd
  | cons c l ih => exact ih (w.run fmt pl c) (step w c hd fun i arg e => h i arg (by simp [e])) fun i arg hm => h i arg (by simp [hm])

/-- C85. A saving that raises changes no object and no file. -/
theorem failed_save_changes_nothing (fmt : NumberFormat) (pl : Places) (w : World) (i : Nat) (x : PsfSlot) (hx : w.slots i = some x) (arg : PathArg) (overwrite : Bool)
    (e : PyErr) (he : (x.obj.saveJson fmt (x.places pl) arg overwrite w.disk).1 = .error e) :
    (w.run fmt pl (.save i arg overwrite)).slots = w.slots ∧ (w.run fmt pl (.save i arg overwrite)).disk.file = w.disk.file ∧
      (w.run fmt pl (.save i arg overwrite)).tables = w.tables := by
  refine ⟨?_, ?_, ?_⟩
  · simp only [World.run, hx, he, newPath]
    rw [← hx, Function.update_eq_self]
  · funext f n
    simp only [World.run, hx]
    rcases save_files fmt (x.places pl) x.obj arg overwrite w.disk f n with h | ⟨doc, _, _, h, _⟩
    · exact h
    · rw [he] at h; cases h
  · simp only [World.run, hx]

/-- C85. The stored path of an object changes only by its own construction or saving: after all other calls `read_json()` without a path still reads
the file that was saved last; and an object that never saved a file is not changed by it. -/
theorem stored_path_kept (fmt : NumberFormat) (pl : Places) (w : World) (i : Nat) (x : PsfSlot) (hx : w.slots i = some x) (calls : List WorldCall)
    (h1 : ∀ arg, WorldCall.create i arg ∉ calls) (h2 : ∀ arg overwrite, WorldCall.save i arg overwrite ∉ calls) :
    (∃ y, (w.runAll fmt pl calls).slots i = some y ∧ y.path = x.path) ∧
    (∀ f n, x.path = some (f, n) → (w.runAll fmt pl (calls ++ [.readOwn i])).slots i = (w.runAll fmt pl (calls ++ [.read i f n])).slots i) ∧
    (x.path = none → (w.runAll fmt pl (calls ++ [.readOwn i])).slots i = (w.runAll fmt pl calls).slots i) := by
  have step : ∀ (w : World) c, (∃ y, w.slots i = some y ∧ y.path = x.path) → (∀ arg, c ≠ WorldCall.create i arg) → (∀ arg overwrite, c ≠ WorldCall.save i arg overwrite) →
      ∃ y, (w.run fmt pl c).slots i = some y ∧ y.path = x.path := by
    rintro w c ⟨y, hy, hp⟩ hc1 hc2
    by_cases ht : WorldCall.target c = i
    · cases c with
      | create j arg => cases ht; exact absurd rfl (hc1 arg)
      | save j arg overwrite => cases ht; exact absurd rfl (hc2 arg overwrite)
      | call j c =>
        obtain rfl : j = i := ht
        simp only [World.run, hy, Function.update_self]
        exact ⟨_, rfl, hp⟩
      | read j f n =>
        obtain rfl : j = i := ht
        simp only [World.run, hy, Function.update_self]
        exact ⟨_, rfl, hp⟩
      | readOwn j =>
        obtain rfl : j = i := ht
        simp only [World.run, hy, Function.update_self]
        exact ⟨_, rfl, hp⟩
    · have := other_objects_untouched fmt pl w [c] i (by simpa using ht)
      exact ⟨y, by rw [show (w.run fmt pl c) = w.runAll fmt pl [c] from rfl, this]; exact hy, hp⟩
  have all : ∀ (calls : List WorldCall) (w : World), (∃ y, w.slots i = some y ∧ y.path = x.path) → (∀ arg, WorldCall.create i arg ∉ calls) →
      (∀ arg overwrite, WorldCall.save i arg overwrite ∉ calls) → ∃ y, (w.runAll fmt pl calls).slots i = some y ∧ y.path = x.path := by
    intro calls
    induction calls with
    | nil => exact fun w h _ _ => h
    | cons c l ih =>
      intro w h h1 h2
      exact ih (w.run fmt pl c) (step w c h (fun arg e => h1 arg (by simp [e])) fun arg o e => h2 arg o (by simp [e]))
        (fun arg hm => h1 arg (by simp [hm])) fun arg o hm => h2 arg o (by simp [hm])
  obtain ⟨y, hy, hp⟩ := all calls w ⟨x, hx, rfl⟩ h1 h2
  refine ⟨⟨y, hy, hp⟩, fun f n hf => ?_, fun hn => ?_⟩
  · simp only [World.runAll, List.foldl_append, List.foldl_cons, List.foldl_nil] at hy ⊢
    simp only [World.run, hy, hp, hf, ownFile, Function.update_self]
  · simp only [World.runAll, List.foldl_append, List.foldl_cons, List.foldl_nil] at hy ⊢
    obtain ⟨o, p⟩ := y
    obtain rfl : p = none := hp.trans hn
    simp only [World.run, hy, ownFile, Function.update_self]
    rfl

/-- C85. Saving and reading across a history: an object made and used in any way (without files) is saved to a new file, or with overwriting; then any calls are made by any objects, without overwriting of
files; then any object reads the file: it holds the calibration that was saved. -/
theorem saved_calibration_survives (fmt : NumberFormat) (pl : Places) (w : World) (i : Nat) (x : PsfSlot) (hx : w.slots i = some x) (s : CoefState) (hr : PsfReachable x.obj s)
    (hp : ∀ z ∈ psfPols x.obj, Constructed z ∧ ValidOrders z.m z.n) (hphys : PhysicalOk x.obj.NA x.obj.wavelength x.obj.pixelSize)
    (hc : x.obj.zernpol = none → x.obj.coefficients ≠ none) (arg : PathArg) (ha : ∀ p, arg ≠ .str p) (overwrite : Bool) :
    ∃ f n, (∃ y, (w.run fmt pl (.save i arg overwrite)).slots i = some y ∧ y.obj = x.obj ∧ y.path = some (f, n)) ∧
      (overwrite = true ∨ w.disk.file f n = none →
        ∀ calls, (∀ i arg, WorldCall.save i arg true ∉ calls) → ∀ j y, ((w.run fmt pl (.save i arg overwrite)).runAll fmt pl calls).slots j = some y →
          ∃ y', (((w.run fmt pl (.save i arg overwrite)).runAll fmt pl calls).run fmt pl (.read j f n)).slots j = some y' ∧ Restored x.obj y'.obj) := by
  obtain ⟨f, n, doc, d', h1, h2, _, _, h3, _⟩ := save_exact fmt (x.places pl) x.obj s hr hc arg ha overwrite w.disk
  refine ⟨f, n, ⟨⟨x.obj, some (f, n)⟩, ?_, rfl, rfl⟩, ?_⟩
  · simp only [World.run, hx, h1, newPath, Function.update_self]
  · intro hnew calls hcalls j y hy
    have hfile : (w.run fmt pl (.save i arg overwrite)).disk.file f n = some doc := by
      simp only [World.run, hx, h1]
      exact h3 hnew
    have hkeep := files_kept fmt pl _ calls f n doc hfile hcalls
    generalize (w.run fmt pl (.save i arg overwrite)).runAll fmt pl calls = v at hy hkeep
    obtain ⟨t', _, e1, e2, _⟩ := read_restores_partial x.obj s hr hp hphys doc h2 y.obj
    refine ⟨⟨t', y.path⟩, ?_, e2⟩
    simp only [World.run, hy, hkeep, e1, Function.update_self]

/-! ### What does not hold -/

/-- C85 (negative). The name of a file tells only the polynomial and the coefficient: an object saved after another one with these, without overwriting, stores the path of the calibration of the other, and
`read_json()` then replaces its properties by them. -/
theorem saved_path_of_other_object (fmt : NumberFormat) (pl : Places) (w : World) (i j : Nat) (hij : i ≠ j) (x y : PsfSlot) (hx : w.slots i = some x) (hy : w.slots j = some y)
    (s : CoefState) (hr : PsfReachable x.obj s) (z : ZernPol) (hz : x.obj.zernpol = some z) (hz' : y.obj.zernpol = some z) (hco : y.obj.expansionCoeff = x.obj.expansionCoeff)
    (hcz : Constructed z) (hv : ValidOrders z.m z.n) (hphys : PhysicalOk x.obj.NA x.obj.wavelength x.obj.pixelSize)
    (p : String) (hdir : w.disk.isDir p = true) (hnew : w.disk.file p (x.obj.fileName fmt) = none) (hne : y.obj.NA ≠ x.obj.NA) :
    ∃ y', (w.runAll fmt pl [.save i (.path p) false, .save j (.path p) false, .readOwn j]).slots j = some y' ∧ Restored x.obj y'.obj ∧ y'.obj.NA ≠ y.obj.NA := by
  have hname : y.obj.fileName fmt = x.obj.fileName fmt := by simp only [PsfObj.fileName, hz, hz', hco]
  obtain ⟨doc, hdoc⟩ : ∃ doc, x.obj.document = .ok doc := by unfold PsfObj.document; rw [hz]; exact ⟨_, rfl⟩
  obtain ⟨doc', hdoc'⟩ : ∃ doc, y.obj.document = .ok doc := by unfold PsfObj.document; rw [hz']; exact ⟨_, rfl⟩
  have hsave : ∀ pl, x.obj.saveJson fmt pl (.path p) false w.disk = (.ok (some (p, x.obj.fileName fmt)), (w.disk.mkdir p).write p (x.obj.fileName fmt) doc) := by
    intro pl
    unfold PsfObj.saveJson
    have h1 : saveFolder pl w.disk (.path p) = .ok p := by simp [saveFolder, hdir]
    rw [h1]
    simp only
    rw [if_neg (by rw [hz]; simp), hdoc]
    simp only
    rw [if_neg]
    have : (w.disk.mkdir p).file p (x.obj.fileName fmt) = none := hnew
    rw [this]; simp
  set d1 := (w.disk.mkdir p).write p (x.obj.fileName fmt) doc with hd1
  have hf1 : d1.file p (x.obj.fileName fmt) = some doc := by simp [hd1, Disk.write]
  have hsave2 : ∀ pl, y.obj.saveJson fmt pl (.path p) false d1 = (.ok (some (p, x.obj.fileName fmt)), d1.mkdir p) := by
    intro pl
    unfold PsfObj.saveJson
    have h1 : saveFolder pl d1 (.path p) = .ok p := by simp [saveFolder, hd1, Disk.write, Disk.mkdir]
    rw [h1]
    simp only
    rw [if_neg (by rw [hz']; simp), hdoc']
    simp only
    rw [if_pos, hname]
    have : (d1.mkdir p).file p (y.obj.fileName fmt) = some doc := by rw [hname]; exact hf1
    rw [this]; simp
  obtain ⟨t', _, e1, e2, _⟩ := read_restores_partial x.obj s hr (by simp [psfPols, hz, hcz, hv]) hphys doc hdoc y.obj
  refine ⟨⟨t', some (p, x.obj.fileName fmt)⟩, ?_, e2, by rw [e2.NA]; exact hne.symm⟩
  have s1 : w.run fmt pl (.save i (.path p) false) = ⟨Function.update w.slots i (some ⟨x.obj, some (p, x.obj.fileName fmt)⟩), d1, w.tables⟩ := by
    simp only [World.run, hx, hsave, newPath]
  have s2 : (w.run fmt pl (.save i (.path p) false)).run fmt pl (.save j (.path p) false) =
      ⟨Function.update (Function.update w.slots i (some ⟨x.obj, some (p, x.obj.fileName fmt)⟩)) j (some ⟨y.obj, some (p, x.obj.fileName fmt)⟩), d1.mkdir p, w.tables⟩ := by
    rw [s1]
    simp only [World.run, Function.update_of_ne hij.symm, hy, hsave2, newPath]
  unfold World.runAll
  simp only [List.foldl_cons, List.foldl_nil]
  rw [s2]
  have hf2 : (d1.mkdir p).file p (x.obj.fileName fmt) = some doc := hf1
  simp only [World.run, Function.update_self, ownFile, hf2, e1]

/-- C85 (negative). Saving twice with the default path, with overwriting, stores two files if the folder "saved_psfs" exists in the package: the second one goes to the current directory, and the first one is
not replaced. -/
theorem second_default_save_elsewhere (fmt : NumberFormat) (pl : Places) (hpl : pl.own ≠ pl.cwd) (w : World) (i : Nat) (o : PsfObj) (hx : w.slots i = some ⟨o, none⟩) (z : ZernPol)
    (hz : o.zernpol = some z) (hdir : w.disk.isDir pl.own = true) (calls : List PsfCall) (doc : List JsonItem) (hdoc : o.document = .ok doc)
    (hstay : (afterPsfCalls o w.tables calls).1.zernpol = some z) :
    ∃ x name name', (w.runAll fmt pl (.save i .none true :: calls.map (WorldCall.call i) ++ [.save i .none true])).slots i = some x ∧
      x.path = some (pl.cwd, name') ∧ (w.run fmt pl (.save i .none true)).disk.file pl.own name = some doc ∧
      (w.runAll fmt pl (.save i .none true :: calls.map (WorldCall.call i) ++ [.save i .none true])).disk.file pl.own name = some doc := by
  have hsave : ∀ (o : PsfObj) (z : ZernPol) (hz : o.zernpol = some z) (pl : Places) (d : Disk) (f : String) (hf : saveFolder pl d .none = .ok f), ∃ doc, o.document = .ok doc ∧
      o.saveJson fmt pl .none true d = (.ok (some (f, o.fileName fmt)), (d.mkdir f).write f (o.fileName fmt) doc) := by
    intro o z hz pl d f hf
    obtain ⟨doc, hdoc⟩ : ∃ doc, o.document = .ok doc := by unfold PsfObj.document; rw [hz]; exact ⟨_, rfl⟩
    refine ⟨doc, hdoc, ?_⟩
    unfold PsfObj.saveJson
    rw [hf]
    simp only
    rw [if_neg (by rw [hz]; simp), hdoc]
    simp
  obtain ⟨doc1, hd1, h1⟩ := hsave o z hz pl w.disk pl.own (by simp [saveFolder, hdir])
  have : doc1 = doc := by rw [hdoc] at hd1; exact (Except.ok.inj hd1).symm
  subst this
  set d1 := (w.disk.mkdir pl.own).write pl.own (o.fileName fmt) doc1 with hdd1
  have hf1 : d1.file pl.own (o.fileName fmt) = some doc1 := by simp [hdd1, Disk.write]
  have s1 : w.run fmt pl (.save i .none true) = ⟨Function.update w.slots i (some ⟨o, some (pl.own, o.fileName fmt)⟩), d1, w.tables⟩ := by
    simp only [World.run, hx, PsfSlot.places, h1, newPath]
  have s2 : ∀ (calls : List PsfCall) (v : World) (o : PsfObj), v.slots i = some ⟨o, some (pl.own, o.fileName fmt)⟩ ∨ (∃ q, v.slots i = some ⟨o, some q⟩) →
      (∃ q, ((calls.map (WorldCall.call i)).foldl (World.run fmt pl) v).slots i = some ⟨(afterPsfCalls o v.tables calls).1, some q⟩) ∧
      ((calls.map (WorldCall.call i)).foldl (World.run fmt pl) v).disk = v.disk := by
    intro calls
    induction calls with
    | nil =>
      intro v o h
      rcases h with h | ⟨q, h⟩
      · exact ⟨⟨_, h⟩, rfl⟩
      · exact ⟨⟨q, h⟩, rfl⟩
    | cons c l ih =>
      intro v o h
      obtain ⟨q, h⟩ : ∃ q, v.slots i = some ⟨o, some q⟩ := by
        rcases h with h | h
        · exact ⟨_, h⟩
        · exact h
      have e : v.run fmt pl (.call i c) = ⟨Function.update v.slots i (some ⟨(c.run (o, v.tables)).1, some q⟩), v.disk, (c.run (o, v.tables)).2⟩ := by
        simp only [World.run, h]
      obtain ⟨a1, a2⟩ := ih (v.run fmt pl (.call i c)) (c.run (o, v.tables)).1 (Or.inr ⟨q, by rw [e]; exact Function.update_self _ _ _⟩)
      have e2 : (v.run fmt pl (.call i c)).tables = (c.run (o, v.tables)).2 := by rw [e]
      have e3 : (v.run fmt pl (.call i c)).disk = v.disk := by rw [e]
      rw [e2] at a1
      rw [e3] at a2
      exact ⟨a1, a2⟩
  obtain ⟨⟨q, a1⟩, a2⟩ := s2 calls (w.run fmt pl (.save i .none true)) o (Or.inr ⟨_, by rw [s1]; exact Function.update_self _ _ _⟩)
  have et : (w.run fmt pl (.save i .none true)).tables = w.tables := by rw [s1]
  rw [et] at a1
  have ed : (w.run fmt pl (.save i .none true)).disk = d1 := by rw [s1]
  rw [ed] at a2
  set v := (calls.map (WorldCall.call i)).foldl (World.run fmt pl) (w.run fmt pl (.save i .none true)) with hv
  set o' := (afterPsfCalls o w.tables calls).1
  obtain ⟨doc2, _, h2⟩ := hsave o' z hstay ⟨pl.cwd, pl.cwd⟩ d1 pl.cwd (by simp [saveFolder])
  have hrun : w.runAll fmt pl (.save i .none true :: calls.map (WorldCall.call i) ++ [.save i .none true]) = v.run fmt pl (.save i .none true) := by
    unfold World.runAll
    rw [List.foldl_append, List.foldl_cons, List.foldl_cons, List.foldl_nil]
  have s3 : v.run fmt pl (.save i .none true) = ⟨Function.update v.slots i (some ⟨o', some (pl.cwd, o'.fileName fmt)⟩), (d1.mkdir pl.cwd).write pl.cwd (o'.fileName fmt) doc2, v.tables⟩ := by
    simp only [World.run, a1, PsfSlot.places, a2, h2, newPath]
  refine ⟨⟨o', some (pl.cwd, o'.fileName fmt)⟩, o.fileName fmt, o'.fileName fmt, ?_, rfl, by rw [ed]; exact hf1, ?_⟩
  · rw [hrun, s3]; exact Function.update_self _ _ _
  · rw [hrun, s3]
    simp only [Disk.write, Disk.mkdir, Function.update_of_ne hpl]
    exact hf1

theorem calculate_result (o : PsfObj) (h : o.propsSet = true) (env : Env) (sup nrm : Bool) (acc : Option Bool) (s : CoefState) :
    (o.calculate env sup nrm acc s).1 = match o.kernelCall env nrm acc with
      | none => .ok o.kernel
      | some x => (x s).1 := by
  unfold PsfObj.calculate
  have : ¬ (¬ o.propsSet = true ∧ ¬ sup = true) := by simp [h]
  simp only [if_neg this]
  rcases o.kernelCall env nrm acc with _ | x
  · rfl
  · simp only []
    rcases x s with ⟨r, s'⟩
    cases r <;> rfl

/-- C85 (negative). After an object made for the piston has read the calibration of another polynomial, its (not accelerated) calculations give the kernel of the piston, the Airy pattern, and not that of the
polynomial in the file. -/
theorem recalculated_kernel_is_airy (o : PsfObj) (s : CoefState) (hr : PsfReachable o s) (z : ZernPol) (hz : o.zernpol = some z) (hc : Constructed z)
    (hv : ValidOrders z.m z.n) (hnp : ¬ (z.m = 0 ∧ z.n = 0)) (he : z.n - |z.m| ≤ (z.n + 1) / 2) (hphys : PhysicalOk o.NA o.wavelength o.pixelSize) (doc : List JsonItem) (hd : o.document = .ok doc) (t : PsfObj)
    (ht : psfInit (.pol pistonPol) = .ok t) :
    ∃ t', t.readJson (some doc) = (.ok (), t') ∧ Restored o t' ∧ ∀ (env : Env) (sup nrm : Bool) (s : CoefState),
      (t'.calculate env sup nrm (some false) s).1 = (({ t' with zernpol := some pistonPol } : PsfObj).calculate env sup nrm (some false) s).1 := by
  have hair : t.airy = true := by cases ht; rfl
  obtain ⟨t', o', h1, h2, h3, h4, h5⟩ := read_restores_partial o s hr (by simp [psfPols, hz, hc, hv]) hphys doc hd t
  rw [if_neg (by rw [hz]; simp), hair] at h5
  have hsz : 3 ≤ t'.kernelSize := by
    obtain ⟨S, hS, e⟩ := setPhysical_num o z hz hv o.NA o.wavelength o.pixelSize o.expansionCoeff hphys
    have hst : storedCoeffs o = .num o.expansionCoeff := by rw [storedCoeffs, hz]
    rw [hst, e] at h3
    have h6 := size_at_least_three z.m z.n hv hnp he _ _ _ _ hphys.2.2.2.1 hphys.2.2.1.le _ hS
    rw [h4, ← (Prod.mk.inj h3).2]
    exact h6
  refine ⟨t', h1, h2, fun env sup nrm s => ?_⟩
  have hk : t'.zernpol ≠ none := fun e => by rw [h2.kind, hz] at e; cases e
  obtain ⟨z', hz'⟩ := Option.ne_none_iff_exists'.1 hk
  have hu : ∀ u : PsfObj, u.zernpol = some pistonPol → u.airy = t'.airy → u.expansionCoeff = t'.expansionCoeff → u.params nrm = t'.params nrm →
      t'.kernelCall env nrm (some false) = u.kernelCall env nrm (some false) := by
    intro u u1 u2 u3 u4
    unfold PsfObj.kernelCall
    rw [hz', u1]
    simp only [Env.accelerate, Option.getD_some, Bool.false_and, Bool.false_eq_true, if_false, u2, h5, u3, u4]
    unfold getPsfKernel
    have h3 : ¬ (t'.params nrm).kernelSize < 3 := by show ¬ t'.kernelSize < 3; omega
    simp only [if_neg h3, if_true]
  have hcall := hu { t' with zernpol := some pistonPol } rfl rfl rfl rfl
  rw [calculate_result _ h2.propsSet, calculate_result ({ t' with zernpol := some pistonPol } : PsfObj) h2.propsSet, ← hcall]

/-- The hypotheses are met: two new objects for the vertical coma, the second with another aperture; no files, one folder. -/
example (fmt : NumberFormat) : ∃ (pl : Places) (w : World) (x y : PsfSlot) (s : CoefState) (z : ZernPol) (doc : List JsonItem), pl.own ≠ pl.cwd ∧ w.slots 0 = some x ∧ w.slots 1 = some y ∧ x.path = none ∧
    (∀ f n, w.disk.file f n = none) ∧ w.disk.isDir pl.own = true ∧
    PsfReachable x.obj s ∧ PsfReachable y.obj s ∧ x.obj.zernpol = some z ∧ y.obj.zernpol = some z ∧ y.obj.expansionCoeff = x.obj.expansionCoeff ∧ Constructed z ∧ ValidOrders z.m z.n ∧
    ¬ (z.m = 0 ∧ z.n = 0) ∧ z.n - |z.m| ≤ (z.n + 1) / 2 ∧
    PhysicalOk x.obj.NA x.obj.wavelength x.obj.pixelSize ∧ w.disk.file pl.own (x.obj.fileName fmt) = none ∧ y.obj.NA ≠ x.obj.NA ∧ x.obj.document = .ok doc ∧
    (afterPsfCalls x.obj w.tables []).1.zernpol = some z := by
  obtain ⟨a, _, _, _, ha, _, _, _, h1, _⟩ := constructions_agree (-1) 3 (by decide) (by decide)
  have hca : Constructed a := ⟨_, by simp, ha⟩
  obtain ⟨o1, _⟩ := h1 a (by simp)
  simp only [ZernPol.getMnOrders, Prod.mk.injEq] at o1
  have hv : ValidOrders a.m a.n := by rw [o1.1, o1.2]; decide
  have hr : PsfReachable { psfDefault with zernpol := some a, airy := a.isPiston } (afterCalls []) := ⟨.pol a, _, [], [], rfl, rfl⟩
  have hphys : PhysicalOk psfDefault.NA psfDefault.wavelength psfDefault.pixelSize := by unfold PhysicalOk psfDefault; norm_num
  obtain ⟨S, _, e⟩ := setPhysical_num { psfDefault with zernpol := some a, airy := a.isPiston } a rfl hv 0.9 0.532 0.1 0.5 (by unfold PhysicalOk; norm_num)
  have hr2 := hr.step (.setPhysicalProps 0.9 0.532 (.num 0.5) 0.1)
  simp only [PsfCall.run, e] at hr2
  generalize hy : ({ physBase { psfDefault with zernpol := some a, airy := a.isPiston } 0.9 0.532 0.1 with expansionCoeff := 0.5, alpha := 0.5 / 0.532, kernelSize := S, propsSet := true } : PsfObj) = y at hr2
  have y1 : y.zernpol = some a := by rw [← hy]; rfl
  have y2 : y.expansionCoeff = 0.5 := by rw [← hy]
  have y3 : y.NA = 0.9 := by rw [← hy]; rfl
  generalize hx : ({ psfDefault with zernpol := some a, airy := a.isPiston } : PsfObj) = x at hr
  have x1 : x.zernpol = some a := by rw [← hx]
  have x2 : x.expansionCoeff = 0.5 := by rw [← hx]; rfl
  have x3 : x.NA = 1 := by rw [← hx]; rfl
  obtain ⟨doc, hd⟩ : ∃ doc, x.document = .ok doc := by unfold PsfObj.document; rw [x1]; exact ⟨_, rfl⟩
  refine ⟨⟨"package", "current"⟩, ⟨fun i => if i = 0 then some ⟨x, none⟩ else if i = 1 then some ⟨y, none⟩ else none, ⟨fun _ => true, fun _ _ => none⟩, initState⟩, ⟨x, none⟩, ⟨y, none⟩, _, a, doc,
    by decide, by simp, by simp, rfl, fun _ _ => rfl, rfl, hr, hr2, x1, y1, by simp [x2, y2], hca, hv, by rw [o1.1]; simp, by rw [o1.1, o1.2]; decide, by rw [← hx]; exact hphys, rfl, ?_, hd, x1⟩
  simp only [x3, y3]; norm_num

end Verif.Props
