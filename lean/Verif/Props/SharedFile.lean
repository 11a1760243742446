import Verif.Proofs.SharedFile
import Verif.Props.JsonText

/-!
# C92: several processes that save calibrations to the same file
-/

namespace Verif.Props
open Verif.Model Verif.Spec Verif.Proofs

/-- What is assumed of a saved object: reachable, with valid polynomials, physical properties in their ranges, finite numbers and coefficients that are set. -/
structure Saveable (N : NumberText) (o : PsfObj) : Prop where
  reachable : ∃ s, PsfReachable o s
  polynomials : ∀ z ∈ psfPols o, Constructed z ∧ ValidOrders z.m z.n
  physical : PhysicalOk o.NA o.wavelength o.pixelSize
  finite : FiniteNumbers N o
  coefficients : o.zernpol = none → o.coefficients ≠ none

theorem Saveable.call {N : NumberText} {o : PsfObj} (h : Saveable N o) (ow : Bool) : ∃ doc, o.document = .ok doc ∧ o.saveCall N ow = .ok ⟨documentText N doc, ow⟩ := by
  obtain ⟨doc, hd⟩ := document_exists o h.coefficients
  refine ⟨doc, hd, ?_⟩
  unfold PsfObj.saveCall
  rw [hd]; rfl

theorem saveCall_eq {N : NumberText} {o : PsfObj} {doc : List JsonItem} (hd : o.document = .ok doc) {ow : Bool} {c : SaveCall} (hc : o.saveCall N ow = .ok c) :
    c = ⟨documentText N doc, ow⟩ := by
  unfold PsfObj.saveCall at hc
  rw [hd] at hc
  exact (Except.ok.inj hc).symm

/-- The process is not in the middle of writing. -/
def NotWriting (s : SharedFile) : Prop := ∀ i k, s.phase i ≠ .writing k

/-! ### The same calibration -/

/-- C92. Any number of processes save the same calibration (to the same file), each with its own flag `overwrite`, and act in any order; some may be stopped. At
every moment a reader gets what the file held before, or the whole calibration, or `ValueError` with the object unchanged. -/
theorem same_saves_no_wrong_data (N : NumberText) (o : PsfObj) (ho : Saveable N o) (calls : Nat → SaveCall) (hcalls : ∀ i, ∃ ow, o.saveCall N ow = .ok (calls i))
    (file : Option (List Char)) (schedule : List Nat) (t : PsfObj) :
    t.readText N ((SharedFile.before file).run calls schedule).file = t.readText N file ∨
    t.readText N ((SharedFile.before file).run calls schedule).file = (.error .valueError, t) ∨
    ∃ t', t.readText N ((SharedFile.before file).run calls schedule).file = (.ok (), t') ∧ RestoredFrom o t' := by
  obtain ⟨doc, hd, _⟩ := ho.call true
  have hT : ∀ i, (calls i).text = documentText N doc := by
    intro i
    obtain ⟨ow, hc⟩ := hcalls i
    rw [saveCall_eq hd hc]
  obtain ⟨s0, hr⟩ := ho.reachable
  obtain ⟨g1, g2, _⟩ := document_ok N o ho.finite doc hd
  rcases SameInv.run (file0 := file) hT schedule with ⟨h1, _⟩ | ⟨c, L, k, h1, h2, _⟩
  · exact .inl (by rw [h1])
  · rw [h1]
    rcases h2.cases with h0 | ⟨r, hr'⟩
    · exact .inr (.inl (readText_zero N t c h0))
    · by_cases hrn : r = []
      · subst hrn
        rw [List.append_nil] at hr'
        subst hr'
        exact .inr (.inr (readText_restores N o s0 hr ho.polynomials ho.physical ho.finite doc hd t))
      · exact .inr (.inl (readText_prefix N t doc g1 g2 c r hr' hrn))

/-- C92. When no process is in the middle of writing, and at least one has returned that was allowed to write (with `overwrite=True`, or there was no file), the file
holds the calibration: every object gets it. -/
theorem same_saves_restore (N : NumberText) (o : PsfObj) (ho : Saveable N o) (calls : Nat → SaveCall) (hcalls : ∀ i, ∃ ow, o.saveCall N ow = .ok (calls i))
    (file : Option (List Char)) (schedule : List Nat) (hq : NotWriting ((SharedFile.before file).run calls schedule)) (i : Nat)
    (hi : ((SharedFile.before file).run calls schedule).phase i = .finished) (hw : (calls i).overwrite = true ∨ file = none) (t : PsfObj) :
    ∃ t', t.readText N ((SharedFile.before file).run calls schedule).file = (.ok (), t') ∧ RestoredFrom o t' := by
  obtain ⟨doc, hd, _⟩ := ho.call true
  have hT : ∀ i, (calls i).text = documentText N doc := by
    intro i
    obtain ⟨ow, hc⟩ := hcalls i
    rw [saveCall_eq hd hc]
  obtain ⟨s0, hr⟩ := ho.reachable
  rcases (SameInv.run (file0 := file) hT schedule).quiet hq with ⟨_, h2⟩ | h1
  · obtain ⟨a, b⟩ := h2 i hi
    rcases hw with hw | hw
    · rw [hw] at a; cases a
    · exact absurd hw b
  · rw [h1]
    exact readText_restores N o s0 hr ho.polynomials ho.physical ho.finite doc hd t

/-! ### One process alone -/

/-- A process that may write acts alone. -/
theorem run_alone (calls : Nat → SaveCall) (s : SharedFile) (i : Nat) (hp : s.phase i = .start) (hw : (calls i).overwrite = true ∨ s.file = none) :
    s.run calls (List.replicate ((calls i).text.length + 3) i) = ⟨some (calls i).text, Function.update s.phase i .finished⟩ := by
  have e : List.replicate ((calls i).text.length + 3) i = i :: i :: (List.replicate (calls i).text.length i ++ [i]) := by
    rw [← List.replicate_succ', ← List.replicate_succ, ← List.replicate_succ]
  have hstep : s.step calls i = { s with phase := Function.update s.phase i .opening } := by
    unfold SharedFile.step
    simp only [hp]
    rw [if_neg]
    simp only [Bool.and_eq_true, Bool.not_eq_true']
    rintro ⟨h1, h2⟩
    rcases hw with h | h
    · rw [h] at h2; cases h2
    · rw [h] at h1; cases h1
  have hstep2 : SharedFile.step calls { s with phase := Function.update s.phase i .opening } i = ⟨some [], Function.update s.phase i (.writing 0)⟩ := by
    unfold SharedFile.step
    simp
  rw [e]
  show SharedFile.run calls ((s.step calls i).step calls i) _ = _
  rw [hstep, hstep2, saves_run_append, run_writing calls _ i 0 (calls i).text.length [] (by simp [overlay]) (by simp) (by omega)]
  show SharedFile.step calls _ i = _
  unfold SharedFile.step
  simp [overlay]

/-- C92. A process that is not disturbed leaves in the file what `save_json` leaves there (C77), whatever the file holds when it begins. -/
theorem undisturbed_save (N : NumberText) (fmt : NumberFormat) (pl : Places) (o : PsfObj) (ho : Saveable N o) (arg : PathArg) (overwrite : Bool) (d : TextDisk) (f : String)
    (hf : d.folder pl arg = .ok f) (calls : Nat → SaveCall) (i : Nat) (hc : o.saveCall N overwrite = .ok (calls i)) (s : SharedFile) (hs : s.file = d.file f (o.fileName fmt))
    (hp : s.phase i = .start) :
    (s.run calls (List.replicate ((calls i).text.length + 3) i)).file = (o.saveText N fmt pl arg overwrite d).2.file f (o.fileName fmt) ∧
    (s.run calls (List.replicate ((calls i).text.length + 3) i)).phase = Function.update s.phase i .finished := by
  obtain ⟨doc, hd, hcall⟩ := ho.call overwrite
  have hci : calls i = ⟨documentText N doc, overwrite⟩ := saveCall_eq hd hc
  obtain ⟨s0, hr⟩ := ho.reachable
  obtain ⟨h1, h2, h3, h4, h5, h6⟩ := stopped_cases N fmt pl o s0 hr arg overwrite d f hf doc hd (o.saveActions N fmt pl arg overwrite d).2.length
  have hst : o.saveStopped N fmt pl arg overwrite d (o.saveActions N fmt pl arg overwrite d).2.length = (o.saveText N fmt pl arg overwrite d).2 := by
    simp [PsfObj.saveStopped, PsfObj.saveText]
  rw [hst] at h3 h4
  by_cases hex : s.file.isSome = true ∧ overwrite = false
  · have hidle : ∀ (u : SharedFile) n, u.phase i = .finished → u.run calls (List.replicate n i) = u := by
      intro u n hu
      induction n with
      | zero => rfl
      | succ n ih =>
        have : u.step calls i = u := by unfold SharedFile.step; simp only [hu]
        rw [List.replicate_succ]
        show SharedFile.run calls (u.step calls i) _ = _
        rw [this, ih]
    have hstep : s.step calls i = { s with phase := Function.update s.phase i .finished } := by
      unfold SharedFile.step
      simp only [hp, hci]
      rw [if_pos (by simp [hex.1, hex.2])]
    have : s.run calls (List.replicate ((calls i).text.length + 3) i) = { s with phase := Function.update s.phase i .finished } := by
      rw [List.replicate_succ]
      show SharedFile.run calls (s.step calls i) _ = _
      rw [hstep]
      exact hidle _ _ (by simp)
    rw [this]
    refine ⟨?_, rfl⟩
    rw [h3 hex.2 (by rw [← hs]; exact Option.isSome_iff_ne_none.1 hex.1)]
    exact hs
  · have hw : overwrite = true ∨ d.file f (o.fileName fmt) = none := by
      rw [not_and_or] at hex
      rcases hex with hex | hex
      · right; rw [← hs]; simpa using hex
      · left; simpa using hex
    rw [run_alone calls s i hp (by rw [hci, hs]; exact hw)]
    refine ⟨?_, rfl⟩
    rw [h4 hw, h6 hw, if_neg (by have := documentText_head N doc; obtain ⟨q, hq⟩ := this; rw [hq]; simp; omega)]
    rw [show 2 + (documentText N doc).length - 2 = (documentText N doc).length from by omega, List.take_length, hci]

/-! ### Different calibrations with the same file -/

theorem document_tail (N : NumberText) (doc : List JsonItem) (k : Nat) (hk : k < (documentText N doc).length) : skipWs ((documentText N doc).drop k) ≠ [] := by
  intro h
  have hall : ∀ c ∈ (documentText N doc).drop k, isWs c = true := by
    intro c hc
    unfold skipWs at h
    have := (List.takeWhile_append_dropWhile (p := isWs) (l := (documentText N doc).drop k)).symm
    rw [h, List.append_nil] at this
    rw [this] at hc
    exact List.all_eq_true.1 List.all_takeWhile _ hc
  have hlast : '}' ∈ (documentText N doc).drop k := by
    obtain ⟨pre, hpre⟩ : ∃ pre, documentText N doc = pre ++ ['}'] := ⟨'{' :: commaText ((doc.map (JsonItem.member N)).map memberText), rfl⟩
    rw [hpre] at hk ⊢
    rw [List.length_append, List.length_singleton] at hk
    rw [List.drop_append_of_le_length (by omega)]
    simp
  have := hall _ hlast
  exact absurd this (by decide)

/-- Two processes open the file one after the other. -/
theorem open_both (calls : Nat → SaveCall) (i j : Nat) (hij : i ≠ j) (file : Option (List Char)) (hi : (calls i).overwrite = true ∨ file = none)
    (hj : (calls j).overwrite = true ∨ file = none) :
    (SharedFile.before file).run calls [i, j, i, j] = ⟨some [], Function.update (Function.update (fun _ => .start) i (.writing 0)) j (.writing 0)⟩ := by
  have t1 : ∀ b : Bool, (b = true ∨ file = none) → (file.isSome && !b) = false := by
    intro b hb
    rcases hb with rfl | rfl <;> simp
  have s1 : SharedFile.step calls (SharedFile.before file) i = ⟨file, Function.update (fun _ => .start) i .opening⟩ := by
    unfold SharedFile.step SharedFile.before
    simp [t1 _ hi]
  have s2 : SharedFile.step calls ⟨file, Function.update (fun _ => .start) i .opening⟩ j = ⟨file, Function.update (Function.update (fun _ => .start) i .opening) j .opening⟩ := by
    unfold SharedFile.step
    simp [Function.update_of_ne hij.symm, t1 _ hj]
  have s3 : SharedFile.step calls ⟨file, Function.update (Function.update (fun _ => .start) i .opening) j .opening⟩ i =
      ⟨some [], Function.update (Function.update (fun _ => .start) i (.writing 0)) j .opening⟩ := by
    unfold SharedFile.step
    simp only [Function.update_of_ne hij, Function.update_self]
    rw [Function.update_comm hij, Function.update_idem, Function.update_comm hij.symm]
  have s4 : SharedFile.step calls ⟨some [], Function.update (Function.update (fun _ => .start) i (.writing 0)) j .opening⟩ j =
      ⟨some [], Function.update (Function.update (fun _ => .start) i (.writing 0)) j (.writing 0)⟩ := by
    unfold SharedFile.step
    simp
  show SharedFile.step calls (SharedFile.step calls (SharedFile.step calls (SharedFile.step calls _ i) j) i) j = _
  rw [s1, s2, s3, s4]

/-- Both open the file, `j` writes its first `a` characters, `i` writes everything, `j` writes the rest. -/
theorem both_write (calls : Nat → SaveCall) (i j : Nat) (hij : i ≠ j) (file : Option (List Char)) (hi : (calls i).overwrite = true ∨ file = none)
    (hj : (calls j).overwrite = true ∨ file = none) (a : Nat) (ha : a ≤ (calls i).text.length) (ha' : a ≤ (calls j).text.length) :
    ∃ schedule, (SharedFile.before file).run calls schedule =
      ⟨some ((calls i).text.take a ++ (calls j).text.drop a ++ (calls i).text.drop (calls j).text.length),
        Function.update (Function.update (fun _ => .start) i .finished) j .finished⟩ := by
  refine ⟨[i, j, i, j] ++ (List.replicate a j ++ (List.replicate (calls i).text.length i ++ ([i] ++ (List.replicate ((calls j).text.length - a) j ++ [j])))), ?_⟩
  rw [saves_run_append, open_both calls i j hij file hi hj, saves_run_append]
  rw [run_writing calls _ j 0 a [] (by simp [overlay]) (by simp) (by omega), saves_run_append]
  rw [run_writing calls _ i 0 (calls i).text.length (overlay (calls j).text [] (0 + a)) (by simp [overlay]) (by simp [Function.update_of_ne hij]) (by omega), saves_run_append]
  have s5 : SharedFile.run calls ⟨some (overlay (calls i).text (overlay (calls j).text [] (0 + a)) (0 + (calls i).text.length)), Function.update
      (Function.update (Function.update (Function.update (fun _ => .start) i (.writing 0)) j (.writing 0)) j (.writing (0 + a))) i (.writing (0 + (calls i).text.length))⟩ [i] =
      ⟨some (calls i).text, Function.update (Function.update (fun _ => .start) i .finished) j (.writing a)⟩ := by
    show SharedFile.step calls _ i = _
    unfold SharedFile.step
    simp only [Function.update_self, Nat.zero_add, List.getElem?_eq_none le_rfl]
    rw [Function.update_idem, Function.update_idem, Function.update_comm hij, Function.update_idem, Function.update_comm hij.symm]
    simp only [SharedFile.mk.injEq, and_true, Option.some.injEq]
    unfold overlay
    rw [List.take_length, List.drop_eq_nil_of_le (by simp; omega), List.append_nil]
  rw [s5, saves_run_append]
  obtain ⟨F, h1, h2⟩ := run_from calls ⟨some (calls i).text, Function.update (Function.update (fun _ => .start) i .finished) j (.writing a)⟩ j a
    ((calls j).text.length - a) (calls i).text rfl (by simp) ha (by omega)
  rw [h1, Nat.add_sub_cancel' ha'] at *
  have hF : F = (calls i).text.take a ++ (calls j).text.drop a ++ (calls i).text.drop (calls j).text.length := by
    apply List.ext_getElem?
    intro m
    rw [h2]
    by_cases hm : m < a
    · rw [if_neg (by omega), List.append_assoc, List.getElem?_append_left (by rw [List.length_take]; omega), List.getElem?_take_of_lt hm]
    · by_cases hm2 : m < (calls j).text.length
      · rw [if_pos (by omega), List.append_assoc, List.getElem?_append_right (by rw [List.length_take]; omega),
          List.getElem?_append_left (by rw [List.length_take, List.length_drop]; omega), List.getElem?_drop, List.length_take]
        congr 1; omega
      · rw [if_neg (by omega), List.getElem?_append_right (by rw [List.length_append, List.length_take, List.length_drop]; omega), List.getElem?_drop,
          List.length_append, List.length_take, List.length_drop]
        congr 1; omega
  show SharedFile.step calls _ j = _
  unfold SharedFile.step
  simp [hF]

/-- C92 (negation). Two processes save different calibrations to the same file, with texts of different lengths: for some order of their actions both return, and the
file cannot be read any more, by any object. -/
theorem different_saves_destroy (N : NumberText) (o₁ o₂ : PsfObj) (h₁ : Saveable N o₁) (h₂ : Saveable N o₂) (calls : Nat → SaveCall) (ow₁ ow₂ : Bool)
    (hc₁ : o₁.saveCall N ow₁ = .ok (calls 0)) (hc₂ : o₂.saveCall N ow₂ = .ok (calls 1)) (hlen : (calls 0).text.length ≠ (calls 1).text.length)
    (file : Option (List Char)) (hw : (ow₁ = true ∧ ow₂ = true) ∨ file = none) :
    ∃ schedule, ((SharedFile.before file).run calls schedule).phase 0 = .finished ∧ ((SharedFile.before file).run calls schedule).phase 1 = .finished ∧
      ∀ t : PsfObj, t.readText N ((SharedFile.before file).run calls schedule).file = (.error .valueError, t) := by
  obtain ⟨doc₁, hd₁, e₁⟩ := h₁.call ow₁
  obtain ⟨doc₂, hd₂, e₂⟩ := h₂.call ow₂
  have c0 : calls 0 = ⟨documentText N doc₁, ow₁⟩ := saveCall_eq hd₁ hc₁
  have c1 : calls 1 = ⟨documentText N doc₂, ow₂⟩ := saveCall_eq hd₂ hc₂
  have w0 : (calls 0).overwrite = true ∨ file = none := by rw [c0]; rcases hw with h | h; exact .inl h.1; exact .inr h
  have w1 : (calls 1).overwrite = true ∨ file = none := by rw [c1]; rcases hw with h | h; exact .inl h.2; exact .inr h
  have key : ∀ (oj : PsfObj) (di dj : List JsonItem), Saveable N oj → oj.document = .ok dj → (documentText N dj).length < (documentText N di).length →
      ∀ t : PsfObj, t.readText N (some (documentText N dj ++ (documentText N di).drop (documentText N dj).length)) = (.error .valueError, t) := by
    intro oj di dj hoj hdj hl t
    obtain ⟨g1, g2, _⟩ := document_ok N oj hoj.finite dj hdj
    have : jsonLoad (documentText N dj ++ (documentText N di).drop (documentText N dj).length) = .error .valueError := by
      obtain ⟨q, hq⟩ := documentText_head N dj
      exact jsonLoad_tail _ q _ hq _ (scan_document N dj g1 g2) (document_tail N di _ hl)
    unfold PsfObj.readText
    simp only [this]
  rcases Nat.lt_or_gt_of_ne hlen with hl | hl
  · obtain ⟨σ, hσ⟩ := both_write calls 1 0 (by decide) file w1 w0 0 (by omega) (by omega)
    refine ⟨σ, by rw [hσ]; simp, by rw [hσ]; simp, fun t => ?_⟩
    rw [hσ]
    rw [c0, c1] at hl ⊢
    simpa using key o₁ doc₂ doc₁ h₁ hd₁ hl t
  · obtain ⟨σ, hσ⟩ := both_write calls 0 1 (by decide) file w0 w1 0 (by omega) (by omega)
    refine ⟨σ, by rw [hσ]; simp, by rw [hσ]; simp, fun t => ?_⟩
    rw [hσ]
    rw [c0, c1] at hl ⊢
    simpa using key o₂ doc₁ doc₂ h₂ hd₂ hl t

/-! ### Mixed calibrations -/

theorem commaText_cons (x : List Char) (l : List (List Char)) (h : l ≠ []) : commaText (x :: l) = x ++ ',' :: ' ' :: commaText l := by
  cases l with
  | nil => exact absurd rfl h
  | cons y l => rw [commaText]; simp

theorem commaText_append (a b : List (List Char)) (ha : a ≠ []) (hb : b ≠ []) : commaText (a ++ b) = commaText a ++ ',' :: ' ' :: commaText b := by
  induction a with
  | nil => exact absurd rfl ha
  | cons x a ih =>
    cases a with
    | nil => rw [List.singleton_append, commaText_cons _ _ hb]; rfl
    | cons y a => rw [List.cons_append, commaText_cons x (y :: a ++ b) (by simp), ih (by simp), commaText_cons x (y :: a) (by simp)]; simp

theorem document_split (N : NumberText) (p q : List JsonItem) (hp : p ≠ []) (hq : q ≠ []) :
    documentText N (p ++ q) = ('{' :: commaText ((p.map (JsonItem.member N)).map memberText)) ++
      (',' :: ' ' :: (commaText ((q.map (JsonItem.member N)).map memberText) ++ ['}'])) := by
  unfold documentText objText
  rw [List.map_append, List.map_append, commaText_append _ _ (by simpa using hp) (by simpa using hq)]
  simp

/-- The document: kernel and numerical aperture, and the rest. -/
theorem document_parts (o : PsfObj) (doc : List JsonItem) (hd : o.document = .ok doc) : ∃ q, q ≠ [] ∧ doc = [.kernel o.kernel, .na o.NA] ++ q ∧
    ∀ g x, ({ o with kernel := g, NA := x } : PsfObj).document = .ok ([.kernel g, .na x] ++ q) := by
  unfold PsfObj.document at hd ⊢
  cases hz : o.zernpol with
  | some z =>
    rw [hz] at hd
    cases hd
    exact ⟨[.wavelength o.wavelength, .pixelSize o.pixelSize, .kernelSize o.kernelSize, .pointsR o.nR, .pointsAngle o.nPhi, .coefficient o.expansionCoeff, .polynomial z.osa], by simp, rfl, fun g x => rfl⟩
  | none =>
    rw [hz] at hd
    cases hc : o.coefficients with
    | none => rw [hc] at hd; cases hd
    | some cs =>
      rw [hc] at hd
      cases hd
      exact ⟨[.wavelength o.wavelength, .pixelSize o.pixelSize, .kernelSize o.kernelSize, .pointsR o.nR, .pointsAngle o.nPhi, .amplitudes cs, .polynomials (o.polynomials.map ZernPol.osa)], by simp, rfl, fun g x => rfl⟩

/-- C92 (negation). Two processes save different calibrations to the same file: for some order of their actions both return, and every object that reads the file
gets, without an error, a calibration that nobody has saved: the kernel and the numerical aperture of the first with the wavelength and the pixel size of the second.
(The texts of the kernels and of the numerical apertures have equal lengths; the first text is not longer than the second.) -/
theorem different_saves_mix (N : NumberText) (o₁ o₂ : PsfObj) (h₁ : Saveable N o₁) (h₂ : Saveable N o₂) (calls : Nat → SaveCall) (ow₁ ow₂ : Bool)
    (hc₁ : o₁.saveCall N ow₁ = .ok (calls 0)) (hc₂ : o₂.saveCall N ow₂ = .ok (calls 1)) (hlen : (calls 0).text.length ≤ (calls 1).text.length)
    (hk : (((JsonItem.kernel o₁.kernel).member N).2).length = (((JsonItem.kernel o₂.kernel).member N).2).length)
    (hna : (N.repr o₁.NA).length = (N.repr o₂.NA).length) (hphys : PhysicalOk o₁.NA o₂.wavelength o₂.pixelSize)
    (file : Option (List Char)) (hw : (ow₁ = true ∧ ow₂ = true) ∨ file = none) :
    ∃ schedule, ((SharedFile.before file).run calls schedule).phase 0 = .finished ∧ ((SharedFile.before file).run calls schedule).phase 1 = .finished ∧
      ∀ t : PsfObj, ∃ t', t.readText N ((SharedFile.before file).run calls schedule).file = (.ok (), t') ∧
        SameEntries t'.kernel o₁.kernel ∧ t'.NA = o₁.NA ∧ t'.wavelength = o₂.wavelength ∧ t'.pixelSize = o₂.pixelSize := by
  obtain ⟨doc₁, hd₁, e₁⟩ := h₁.call ow₁
  obtain ⟨doc₂, hd₂, e₂⟩ := h₂.call ow₂
  have c0 : calls 0 = ⟨documentText N doc₁, ow₁⟩ := saveCall_eq hd₁ hc₁
  have c1 : calls 1 = ⟨documentText N doc₂, ow₂⟩ := saveCall_eq hd₂ hc₂
  have w0 : (calls 0).overwrite = true ∨ file = none := by rw [c0]; rcases hw with h | h; exact .inl h.1; exact .inr h
  have w1 : (calls 1).overwrite = true ∨ file = none := by rw [c1]; rcases hw with h | h; exact .inl h.2; exact .inr h
  obtain ⟨q₁, hq₁, rfl, _⟩ := document_parts o₁ doc₁ hd₁
  obtain ⟨q₂, hq₂, rfl, hmix⟩ := document_parts o₂ doc₂ hd₂
  have hm := hmix o₁.kernel o₁.NA
  have t1 := document_split N [.kernel o₁.kernel, .na o₁.NA] q₁ (by simp) hq₁
  have t2 := document_split N [.kernel o₂.kernel, .na o₂.NA] q₂ (by simp) hq₂
  have tm := document_split N [.kernel o₁.kernel, .na o₁.NA] q₂ (by simp) hq₂
  have hcut : ('{' :: commaText (([.kernel o₁.kernel, .na o₁.NA].map (JsonItem.member N)).map memberText)).length =
      ('{' :: commaText (([.kernel o₂.kernel, .na o₂.NA].map (JsonItem.member N)).map memberText)).length := by
    have hk' : (arrText (o₁.kernel.lists.map fun l => arrText (l.map N.repr))).length = (arrText (o₂.kernel.lists.map fun l => arrText (l.map N.repr))).length := hk
    simp only [List.map_cons, List.map_nil, commaText, memberText, JsonItem.member, List.length_cons, List.length_append, hk', hna]
  generalize '{' :: commaText (([.kernel o₁.kernel, .na o₁.NA].map (JsonItem.member N)).map memberText) = A1 at t1 tm hcut
  generalize '{' :: commaText (([.kernel o₂.kernel, .na o₂.NA].map (JsonItem.member N)).map memberText) = A2 at t2 hcut
  rw [c0, c1] at hlen
  obtain ⟨σ, hσ⟩ := both_write calls 0 1 (by decide) file w0 w1 A1.length (by rw [c0, t1]; simp) (by rw [c1, t2, hcut]; simp)
  refine ⟨σ, by rw [hσ]; simp, by rw [hσ]; simp, fun t => ?_⟩
  have hfile : (calls 0).text.take A1.length ++ (calls 1).text.drop A1.length ++ (calls 0).text.drop (calls 1).text.length =
      documentText N ([.kernel o₁.kernel, .na o₁.NA] ++ q₂) := by
    rw [c0, c1, List.drop_eq_nil_of_le hlen, List.append_nil]
    simp only
    rw [t1, t2, tm, List.take_left, hcut, List.drop_left]
  rw [hσ, hfile]
  obtain ⟨s2, r2⟩ := h₂.reachable
  have hfin : FiniteNumbers N ({ o₂ with kernel := o₁.kernel, NA := o₁.NA } : PsfObj) :=
    ⟨h₁.finite.NA, h₂.finite.wavelength, h₂.finite.pixelSize, h₁.finite.kernel, h₂.finite.coefficient, h₂.finite.coefficients⟩
  obtain ⟨g1, g2, g3⟩ := document_ok N _ hfin _ hm
  simp only
  rw [readText_document N t _ g1 g2 (document_keys N _ _ hm)]
  obtain ⟨t', _, e, hres, _⟩ := read_restores_of ({ o₂ with kernel := Grid.ofLists o₁.kernel.lists, NA := o₁.NA } : PsfObj) (fun hz => r2.several hz)
    (fun cs hcs => r2.coeffsFit cs hcs) h₂.polynomials hphys _ g3 t
  refine ⟨t', e, ?_, hres.NA, hres.wavelength, hres.pixelSize⟩
  rw [hres.kernel]
  exact ⟨ofLists_rows _, ofLists_cols _, fun i hi j hj => lists_get _ i j hi hj⟩

/-! ### The test for the file and its opening are two actions -/

/-- C92 (negation). `overwrite=False` does not protect a file that another process makes at the same time: there is no file, both processes are called with
`overwrite=False`; after some actions the second has returned and every object reads its calibration; one more action, of the first process, and no object can
read the file. -/
theorem overwrite_flag_race (N : NumberText) (o₁ o₂ : PsfObj) (h₁ : Saveable N o₁) (h₂ : Saveable N o₂) (calls : Nat → SaveCall)
    (hc₁ : o₁.saveCall N false = .ok (calls 0)) (hc₂ : o₂.saveCall N false = .ok (calls 1)) :
    ∃ schedule, ((SharedFile.before none).run calls schedule).phase 1 = .finished ∧
      (∀ t : PsfObj, ∃ t', t.readText N ((SharedFile.before none).run calls schedule).file = (.ok (), t') ∧ RestoredFrom o₂ t') ∧
      ∀ t : PsfObj, t.readText N ((SharedFile.before none).run calls (schedule ++ [0])).file = (.error .valueError, t) := by
  obtain ⟨doc₂, hd₂, e₂⟩ := h₂.call false
  have c1 : calls 1 = ⟨documentText N doc₂, false⟩ := saveCall_eq hd₂ hc₂
  have hrun : (SharedFile.before none).run calls (0 :: List.replicate ((calls 1).text.length + 3) 1) =
      ⟨some (calls 1).text, Function.update (Function.update (fun _ => .start) 0 .opening) 1 .finished⟩ := by
    have s1 : SharedFile.step calls (SharedFile.before none) 0 = ⟨none, Function.update (fun _ => .start) 0 .opening⟩ := by
      unfold SharedFile.step SharedFile.before
      simp
    show SharedFile.run calls (SharedFile.step calls _ 0) _ = _
    rw [s1, run_alone calls _ 1 (by simp) (.inr rfl)]
  obtain ⟨s0, hr⟩ := h₂.reachable
  obtain ⟨g1, g2, _⟩ := document_ok N o₂ h₂.finite doc₂ hd₂
  refine ⟨_, by rw [hrun]; simp, fun t => ?_, fun t => ?_⟩
  · rw [hrun, c1]
    exact readText_restores N o₂ s0 hr h₂.polynomials h₂.physical h₂.finite doc₂ hd₂ t
  · rw [saves_run_append, hrun]
    have : (SharedFile.run calls ⟨some (calls 1).text, Function.update (Function.update (fun _ => .start) 0 .opening) 1 .finished⟩ [0]).file = some [] := by
      simp [SharedFile.run, SharedFile.step]
    rw [this]
    obtain ⟨q, hq⟩ := documentText_head N doc₂
    exact readText_prefix N t doc₂ g1 g2 [] (documentText N doc₂) rfl (by rw [hq]; simp)

/-! ### The hypotheses are met -/

/-- Numbers with one digit before and one after the point, below 10, written as `1.5`. -/
noncomputable def shortText : NumberText where
  doubles := { x | ∃ k : Nat, k < 100 ∧ x = (k : ℝ) / 10 }
  repr x := [Nat.digitChar (⌊10 * x⌋₊ / 10), '.', Nat.digitChar (⌊10 * x⌋₊ % 10)]
  value tok := (natValue (tok.filter (· != '.')) : ℝ) / 10
  number := by
    rintro x ⟨k, hk, rfl⟩
    rw [show 10 * ((k : ℝ) / 10) = k by ring, Nat.floor_natCast]
    interval_cases k <;> decide
  value_repr := by
    rintro x ⟨k, hk, rfl⟩
    rw [show 10 * ((k : ℝ) / 10) = k by ring, Nat.floor_natCast]
    have : natValue ([Nat.digitChar (k / 10), '.', Nat.digitChar (k % 10)].filter (· != '.')) = k := by
      interval_cases k <;> decide
    rw [this]

theorem saveable_example (a : ZernPol) (hca : Constructed a) (hv : ValidOrders a.m a.n) (NA wl px coef : ℝ) (h1 : NA ∈ shortText.doubles) (h2 : wl ∈ shortText.doubles)
    (h3 : px ∈ shortText.doubles) (h4 : coef ∈ shortText.doubles) (hphys : PhysicalOk NA wl px) :
    ∃ o : PsfObj, Saveable shortText o ∧ o.NA = NA ∧ o.wavelength = wl ∧ o.pixelSize = px ∧ o.expansionCoeff = coef ∧ o.zernpol = some a ∧ o.kernel = psfDefault.kernel := by
  obtain ⟨S, _, e⟩ := setPhysical_num { psfDefault with zernpol := some a, airy := a.isPiston } a rfl hv NA wl px coef hphys
  refine ⟨_, ⟨⟨afterCalls [], ⟨.pol a, _, [], [.setPhysicalProps NA wl (.num coef) px], rfl, Prod.ext (congrArg Prod.snd e) rfl⟩⟩, ?_, hphys, ?_, ?_⟩,
    rfl, rfl, rfl, rfl, rfl, rfl⟩
  · simp [psfPols, hca, hv, physBase]
  · refine ⟨h1, h2, h3, ?_, h4, ?_⟩
    · intro i _ j _
      exact ⟨10, by norm_num, by norm_num [physBase, psfDefault]⟩
    · intro cs hcs
      exact absurd hcs (by simp [physBase, psfDefault])
  · simp [physBase]

/-- The hypotheses of `different_saves_mix` are met by two objects for the vertical coma with the same coefficient (and so the same file), one with NA 0.5 and
wavelength 0.8, the other with NA 0.6 and wavelength 0.9. -/
example (fmt : NumberFormat) : ∃ (o₁ o₂ : PsfObj) (calls : Nat → SaveCall), Saveable shortText o₁ ∧ Saveable shortText o₂ ∧ o₁.fileName fmt = o₂.fileName fmt ∧
    o₁.saveCall shortText true = .ok (calls 0) ∧ o₂.saveCall shortText true = .ok (calls 1) ∧ (calls 0).text.length ≤ (calls 1).text.length ∧
    (((JsonItem.kernel o₁.kernel).member shortText).2).length = (((JsonItem.kernel o₂.kernel).member shortText).2).length ∧
    (shortText.repr o₁.NA).length = (shortText.repr o₂.NA).length ∧ PhysicalOk o₁.NA o₂.wavelength o₂.pixelSize ∧ o₁.NA ≠ o₂.NA ∧ o₁.wavelength ≠ o₂.wavelength := by
  obtain ⟨a, _, _, _, ha, _, _, _, h1, _⟩ := constructions_agree (-1) 3 (by decide) (by decide)
  have hca : Constructed a := ⟨_, by simp, ha⟩
  obtain ⟨o1, _⟩ := h1 a (by simp)
  simp only [ZernPol.getMnOrders, Prod.mk.injEq] at o1
  have hv : ValidOrders a.m a.n := by rw [o1.1, o1.2]; decide
  obtain ⟨p, hp, p1, p2, p3, p4, p5, p6⟩ := saveable_example a hca hv (5 / 10) (8 / 10) (1 / 10) (3 / 10) ⟨5, by norm_num, by norm_num⟩ ⟨8, by norm_num, by norm_num⟩
    ⟨1, by norm_num, by norm_num⟩ ⟨3, by norm_num, by norm_num⟩ (by unfold PhysicalOk; norm_num)
  obtain ⟨q, hq, q1, q2, q3, q4, q5, q6⟩ := saveable_example a hca hv (6 / 10) (9 / 10) (1 / 10) (3 / 10) ⟨6, by norm_num, by norm_num⟩ ⟨9, by norm_num, by norm_num⟩
    ⟨1, by norm_num, by norm_num⟩ ⟨3, by norm_num, by norm_num⟩ (by unfold PhysicalOk; norm_num)
  obtain ⟨dp, _, cp⟩ := hp.call true
  obtain ⟨dq, _, cq⟩ := hq.call true
  rcases le_total (documentText shortText dp).length (documentText shortText dq).length with hl | hl
  · refine ⟨p, q, fun i => if i = 0 then ⟨documentText shortText dp, true⟩ else ⟨documentText shortText dq, true⟩, hp, hq, ?_, cp, cq, hl, ?_, rfl, ?_, ?_, ?_⟩
    · simp only [PsfObj.fileName, p5, q5, p4, q4]
    · rw [p6, q6]
    · rw [p1, q2, q3]; unfold PhysicalOk; norm_num
    · rw [p1, q1]; norm_num
    · rw [p2, q2]; norm_num
  · refine ⟨q, p, fun i => if i = 0 then ⟨documentText shortText dq, true⟩ else ⟨documentText shortText dp, true⟩, hq, hp, ?_, cq, cp, hl, ?_, rfl, ?_, ?_, ?_⟩
    · simp only [PsfObj.fileName, p5, q5, p4, q4]
    · rw [p6, q6]
    · rw [q1, p2, p3]; unfold PhysicalOk; norm_num
    · rw [p1, q1]; norm_num
    · rw [p2, q2]; norm_num

end Verif.Props
