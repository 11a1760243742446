import Verif.Proofs.JsonText3
import Verif.Props.Json

/-!
# C77: the text of saved calibrations, and interrupted saving
-/

namespace Verif.Props
open Verif.Model Verif.Spec Verif.Proofs

/-- All numbers of the object are finite doubles. -/
structure FiniteNumbers (N : NumberText) (o : PsfObj) : Prop where
  NA : o.NA ∈ N.doubles
  wavelength : o.wavelength ∈ N.doubles
  pixelSize : o.pixelSize ∈ N.doubles
  kernel : ∀ i < o.kernel.rows, ∀ j < o.kernel.cols, o.kernel.entry i j ∈ N.doubles
  coefficient : o.expansionCoeff ∈ N.doubles
  coefficients : ∀ cs, o.coefficients = some cs → ∀ x ∈ cs, x ∈ N.doubles

/-- Equal shapes (if there are rows) and equal elements. -/
structure SameEntries (g h : Grid) : Prop where
  rows : g.rows = h.rows
  cols : 0 < h.rows → g.cols = h.cols
  entry : ∀ i < h.rows, ∀ j < h.cols, g.entry i j = h.entry i j

/-- The object holds the calibration saved from another one (see `Restored`, C38), the kernel element by element. -/
def RestoredFrom (o t : PsfObj) : Prop := SameEntries t.kernel o.kernel ∧ Restored { o with kernel := t.kernel } t

theorem document_ok (N : NumberText) (o : PsfObj) (hN : FiniteNumbers N o) (doc : List JsonItem) (hd : o.document = .ok doc) :
    (∀ x ∈ doc, ItemOk N x) ∧ doc ≠ [] ∧ ({ o with kernel := Grid.ofLists o.kernel.lists } : PsfObj).document = .ok (doc.map cleanItem) := by
  have hk : ∀ l ∈ o.kernel.lists, ∀ x ∈ l, x ∈ N.doubles := by
    intro l hl x hx
    simp only [Grid.lists, List.mem_map, List.mem_range] at hl
    obtain ⟨i, hi, rfl⟩ := hl
    simp only [List.mem_map, List.mem_range] at hx
    obtain ⟨j, hj, rfl⟩ := hx
    exact hN.kernel i hi j hj
  unfold PsfObj.document at hd ⊢
  cases hz : o.zernpol with
  | some z =>
    rw [hz] at hd
    cases hd
    refine ⟨?_, by simp, rfl⟩
    intro x hx
    simp only [List.cons_append, List.nil_append, List.mem_cons, List.not_mem_nil, or_false] at hx
    rcases hx with rfl | rfl | rfl | rfl | rfl | rfl | rfl | rfl | rfl
    · exact hk
    · exact hN.NA
    · exact hN.wavelength
    · exact hN.pixelSize
    · trivial
    · trivial
    · trivial
    · exact hN.coefficient
    · trivial
  | none =>
    rw [hz] at hd
    cases hc : o.coefficients with
    | none => rw [hc] at hd; cases hd
    | some cs =>
      rw [hc] at hd
      cases hd
      refine ⟨?_, by simp, rfl⟩
      intro x hx
      simp only [List.cons_append, List.nil_append, List.mem_cons, List.not_mem_nil, or_false] at hx
      rcases hx with rfl | rfl | rfl | rfl | rfl | rfl | rfl | rfl | rfl
      · exact hk
      · exact hN.NA
      · exact hN.wavelength
      · exact hN.pixelSize
      · trivial
      · trivial
      · trivial
      · exact hN.coefficients cs hc
      · trivial

/-- Reading of the whole text restores the calibration in any object. -/
theorem readText_restores (N : NumberText) (o : PsfObj) (s : CoefState) (hr : PsfReachable o s) (hp : ∀ z ∈ psfPols o, Constructed z ∧ ValidOrders z.m z.n)
    (hphys : PhysicalOk o.NA o.wavelength o.pixelSize) (hN : FiniteNumbers N o) (doc : List JsonItem) (hd : o.document = .ok doc) (t : PsfObj) :
    ∃ t', t.readText N (some (documentText N doc)) = (.ok (), t') ∧ RestoredFrom o t' := by
  obtain ⟨h1, h2, h3⟩ := document_ok N o hN doc hd
  rw [readText_document N t doc h1 h2 (document_keys N o doc hd)]
  obtain ⟨t', _, e, hres, _⟩ := read_restores_of { o with kernel := Grid.ofLists o.kernel.lists } (fun hz => hr.several hz)
    (fun cs hcs => hr.coeffsFit cs hcs) hp hphys _ h3 t
  refine ⟨t', e, ?_, ?_⟩
  · rw [hres.kernel]
    exact ⟨ofLists_rows _, ofLists_cols _, fun i hi j hj => lists_get _ i j hi hj⟩
  · rw [hres.kernel]
    exact hres

theorem folder_ok (pl : Places) (d : TextDisk) (arg : PathArg) (ha : ∀ p, arg ≠ .str p) : ∃ f, d.folder pl arg = .ok f := by
  cases arg with
  | none => exact ⟨_, rfl⟩
  | path p => exact ⟨_, rfl⟩
  | str p => exact absurd rfl (ha p)

theorem folder_kept (pl : Places) (d d' : TextDisk) (arg : PathArg) (f : String) (hf : d.folder pl arg = .ok f)
    (h5 : d'.isDir = d.isDir ∨ d'.isDir = Function.update d.isDir f true) : d'.folder pl arg = .ok f := by
  rcases h5 with h5 | h5
  · rw [← hf]; unfold TextDisk.folder; rw [h5]
  · unfold TextDisk.folder at hf ⊢
    rw [h5]
    cases arg with
    | none =>
      simp only [Except.ok.injEq] at hf ⊢
      rw [← hf]
      by_cases ho : d.isDir pl.own = true
      · simp [ho]
      · simp only [ho, if_false, Bool.false_eq_true]
        by_cases he : pl.own = pl.cwd
        · simp [he]
        · rw [Function.update_of_ne he]; simp [ho]
    | path p =>
      simp only [Except.ok.injEq] at hf ⊢
      rw [← hf]
      by_cases ho : d.isDir p = true
      · simp [ho]
      · simp only [ho, if_false, Bool.false_eq_true]
        by_cases he : p = pl.cwd
        · simp [he]
        · rw [Function.update_of_ne he]; simp [ho]
    | str p => cases hf

theorem document_exists (o : PsfObj) (hc : o.zernpol = none → o.coefficients ≠ none) : ∃ doc, o.document = .ok doc := by
  unfold PsfObj.document
  cases hz : o.zernpol with
  | some z => exact ⟨_, rfl⟩
  | none =>
    cases hcc : o.coefficients with
    | none => exact absurd hcc (hc hz)
    | some cs => exact ⟨_, rfl⟩

/-- What the file system holds after the first `k` actions. -/
theorem stopped_cases (N : NumberText) (fmt : NumberFormat) (pl : Places) (o : PsfObj) (s : CoefState) (hr : PsfReachable o s)
    (arg : PathArg) (overwrite : Bool) (d : TextDisk) (f : String) (hf : d.folder pl arg = .ok f) (doc : List JsonItem) (hd : o.document = .ok doc) (k : Nat) :
    (o.saveActions N fmt pl arg overwrite d).1 = .ok (some (f, o.fileName fmt)) ∧
    (∀ f' name', ¬ (f' = f ∧ name' = o.fileName fmt) → (o.saveStopped N fmt pl arg overwrite d k).file f' name' = d.file f' name') ∧
    (overwrite = false → d.file f (o.fileName fmt) ≠ none → (o.saveStopped N fmt pl arg overwrite d k).file f (o.fileName fmt) = d.file f (o.fileName fmt)) ∧
    (overwrite = true ∨ d.file f (o.fileName fmt) = none → (o.saveStopped N fmt pl arg overwrite d k).file f (o.fileName fmt) =
      if k ≤ 1 then d.file f (o.fileName fmt) else some ((documentText N doc).take (k - 2))) ∧
    ((o.saveStopped N fmt pl arg overwrite d k).isDir = d.isDir ∨ (o.saveStopped N fmt pl arg overwrite d k).isDir = Function.update d.isDir f true) ∧
    (overwrite = true ∨ d.file f (o.fileName fmt) = none → (o.saveActions N fmt pl arg overwrite d).2.length = 2 + (documentText N doc).length) := by
  have hne : ¬ (o.zernpol = none ∧ o.polynomials = []) := by
    rintro ⟨h1, h2⟩
    have := hr.several h1
    rw [h2] at this
    simp at this
  unfold PsfObj.saveStopped
  have hact : o.saveActions N fmt pl arg overwrite d = if (d.file f (o.fileName fmt)).isSome && !overwrite then (.ok (some (f, o.fileName fmt)), [.mkdir f])
        else (.ok (some (f, o.fileName fmt)), .mkdir f :: writeActions f (o.fileName fmt) (documentText N doc)) := by
    unfold PsfObj.saveActions
    simp only [hf, if_neg hne, hd]
  rw [hact]
  by_cases hex : ((d.file f (o.fileName fmt)).isSome && !overwrite) = true
  · rw [if_pos hex]
    simp only [Bool.and_eq_true, Bool.not_eq_true', Option.isSome_iff_ne_none] at hex
    refine ⟨rfl, ?_, ?_, fun h => absurd h (by simp [hex.1, hex.2]), ?_, fun h => absurd h (by simp [hex.1, hex.2])⟩
    · intro f' name' _
      rcases k with _ | k <;> simp [TextDisk.act]
    · intro _ _
      rcases k with _ | k <;> simp [TextDisk.act]
    · rcases k with _ | k <;> simp [TextDisk.act]
  · rw [if_neg hex]
    simp only [Bool.and_eq_true, Bool.not_eq_true', Option.isSome_iff_ne_none, not_and, Bool.not_eq_false] at hex
    refine ⟨rfl, ?_⟩
    rcases k with _ | _ | k
    · exact ⟨fun _ _ _ => rfl, fun _ _ => rfl, fun _ => rfl, .inl rfl, fun _ => by simp [writeActions]; omega⟩
    · exact ⟨fun _ _ _ => rfl, fun _ _ => rfl, fun _ => rfl, .inr rfl, fun _ => by simp [writeActions]; omega⟩
    · have e : List.take (k + 1 + 1) (DiskAction.mkdir f :: writeActions f (o.fileName fmt) (documentText N doc)) =
          .mkdir f :: .openW f (o.fileName fmt) :: ((documentText N doc).take k).map (.put f (o.fileName fmt)) := by
        simp [writeActions, List.map_take]
      simp only [e, List.foldl_cons]
      obtain ⟨p1, p2, p3⟩ := put_all (d.act (.mkdir f)) f (o.fileName fmt) [] ((documentText N doc).take k)
      refine ⟨p3, ?_, ?_, .inr p1, fun _ => by simp [writeActions]; omega⟩
      · intro h1 h2
        rw [hex h2] at h1; cases h1
      · intro _
        rw [if_neg (by omega)]
        exact p2

/-! ### The theorems -/

/-- C77. Saving writes a text, from which any object, in any state, gets the calibration back: the kernel element by element, the physical properties, the polynomials
and the coefficients (kernel size and Airy flag as in C38), if the file is new or overwriting is requested. -/
theorem saved_text_restores_partial (N : NumberText) (fmt : NumberFormat) (pl : Places) (o : PsfObj) (s : CoefState) (hr : PsfReachable o s)
    (hp : ∀ z ∈ psfPols o, Constructed z ∧ ValidOrders z.m z.n) (hphys : PhysicalOk o.NA o.wavelength o.pixelSize) (hN : FiniteNumbers N o)
    (hc : o.zernpol = none → o.coefficients ≠ none) (arg : PathArg) (ha : ∀ p, arg ≠ .str p) (overwrite : Bool) (d : TextDisk) :
    ∃ f d', o.saveText N fmt pl arg overwrite d = (.ok (some (f, o.fileName fmt)), d') ∧
      (overwrite = true ∨ d.file f (o.fileName fmt) = none → ∀ t : PsfObj, ∃ t', t.readText N (d'.file f (o.fileName fmt)) = (.ok (), t') ∧ RestoredFrom o t') ∧
      (∀ f' name', ¬ (f' = f ∧ name' = o.fileName fmt) → d'.file f' name' = d.file f' name') ∧
      (overwrite = false → d.file f (o.fileName fmt) ≠ none → d'.file f (o.fileName fmt) = d.file f (o.fileName fmt)) := by
  obtain ⟨f, hf⟩ := folder_ok pl d arg ha
  obtain ⟨doc, hd⟩ := document_exists o hc
  obtain ⟨h1, h2, h3, h4, h5, h6⟩ := stopped_cases N fmt pl o s hr arg overwrite d f hf doc hd (o.saveActions N fmt pl arg overwrite d).2.length
  have hst : o.saveStopped N fmt pl arg overwrite d (o.saveActions N fmt pl arg overwrite d).2.length = (o.saveText N fmt pl arg overwrite d).2 := by
    simp [PsfObj.saveStopped, PsfObj.saveText]
  rw [hst] at h2 h3 h4
  refine ⟨f, (o.saveText N fmt pl arg overwrite d).2, Prod.ext h1 rfl, ?_, h2, h3⟩
  intro h t
  rw [h4 h, h6 h, if_neg (by have := documentText_head N doc; obtain ⟨q, hq⟩ := this; rw [hq]; simp; omega)]
  rw [show 2 + (documentText N doc).length - 2 = (documentText N doc).length from by omega, List.take_length]
  exact readText_restores N o s hr hp hphys hN doc hd t

/-- C77. A stopped saving never makes a wrong calibration: whenever the process stops, reading the file afterwards gives what it gave before, or the complete new
calibration, or it raises `ValueError` and leaves the object as it was. All other files are kept, and without overwriting an existing file is never touched. -/
theorem stopped_save_no_wrong_data (N : NumberText) (fmt : NumberFormat) (pl : Places) (o : PsfObj) (s : CoefState) (hr : PsfReachable o s)
    (hp : ∀ z ∈ psfPols o, Constructed z ∧ ValidOrders z.m z.n) (hphys : PhysicalOk o.NA o.wavelength o.pixelSize) (hN : FiniteNumbers N o)
    (hc : o.zernpol = none → o.coefficients ≠ none) (arg : PathArg) (ha : ∀ p, arg ≠ .str p) (overwrite : Bool) (d : TextDisk) :
    ∃ f, (o.saveText N fmt pl arg overwrite d).1 = .ok (some (f, o.fileName fmt)) ∧ ∀ k,
      (∀ t : PsfObj, t.readText N ((o.saveStopped N fmt pl arg overwrite d k).file f (o.fileName fmt)) = t.readText N (d.file f (o.fileName fmt)) ∨
        t.readText N ((o.saveStopped N fmt pl arg overwrite d k).file f (o.fileName fmt)) = (.error .valueError, t) ∨
        ∃ t', t.readText N ((o.saveStopped N fmt pl arg overwrite d k).file f (o.fileName fmt)) = (.ok (), t') ∧ RestoredFrom o t') ∧
      (∀ f' name', ¬ (f' = f ∧ name' = o.fileName fmt) → (o.saveStopped N fmt pl arg overwrite d k).file f' name' = d.file f' name') ∧
      (overwrite = false → d.file f (o.fileName fmt) ≠ none → (o.saveStopped N fmt pl arg overwrite d k).file f (o.fileName fmt) = d.file f (o.fileName fmt)) := by
  obtain ⟨f, hf⟩ := folder_ok pl d arg ha
  obtain ⟨doc, hd⟩ := document_exists o hc
  refine ⟨f, (stopped_cases N fmt pl o s hr arg overwrite d f hf doc hd 0).1, fun k => ?_⟩
  obtain ⟨h1, h2, h3, h4, h5, h6⟩ := stopped_cases N fmt pl o s hr arg overwrite d f hf doc hd k
  obtain ⟨g1, g2, _⟩ := document_ok N o hN doc hd
  refine ⟨fun t => ?_, h2, h3⟩
  by_cases hw : overwrite = true ∨ d.file f (o.fileName fmt) = none
  · rw [h4 hw]
    split_ifs with hk
    · exact .inl rfl
    · by_cases hl : (documentText N doc).length ≤ k - 2
      · rw [List.take_of_length_le hl]
        exact .inr (.inr (readText_restores N o s hr hp hphys hN doc hd t))
      · refine .inr (.inl (readText_prefix N t doc g1 g2 _ ((documentText N doc).drop (k - 2)) (List.take_append_drop _ _) ?_))
        intro e
        have := List.length_drop (i := k - 2) (l := documentText N doc)
        rw [e] at this
        simp at this
        omega
  · push Not at hw
    rw [h3 (by simpa using hw.1) hw.2]
    exact .inl rfl

/-- C77. Whenever a saving was stopped, saving again with overwriting stores the calibration at the same place. -/
theorem save_again_repairs (N : NumberText) (fmt : NumberFormat) (pl : Places) (o : PsfObj) (s : CoefState) (hr : PsfReachable o s)
    (hp : ∀ z ∈ psfPols o, Constructed z ∧ ValidOrders z.m z.n) (hphys : PhysicalOk o.NA o.wavelength o.pixelSize) (hN : FiniteNumbers N o)
    (hc : o.zernpol = none → o.coefficients ≠ none) (arg : PathArg) (ha : ∀ p, arg ≠ .str p) (overwrite : Bool) (d : TextDisk) (k : Nat) :
    ∃ f d', (o.saveText N fmt pl arg overwrite d).1 = .ok (some (f, o.fileName fmt)) ∧
      o.saveText N fmt pl arg true (o.saveStopped N fmt pl arg overwrite d k) = (.ok (some (f, o.fileName fmt)), d') ∧
      ∀ t : PsfObj, ∃ t', t.readText N (d'.file f (o.fileName fmt)) = (.ok (), t') ∧ RestoredFrom o t' := by
  obtain ⟨f, hf⟩ := folder_ok pl d arg ha
  obtain ⟨doc, hd⟩ := document_exists o hc
  obtain ⟨h1, _, _, _, h5, _⟩ := stopped_cases N fmt pl o s hr arg overwrite d f hf doc hd k
  have hf' : (o.saveStopped N fmt pl arg overwrite d k).folder pl arg = .ok f :=
    folder_kept pl d _ arg f hf h5
  obtain ⟨f2, d', e1, e2, _⟩ := saved_text_restores_partial N fmt pl o s hr hp hphys hN hc arg ha true (o.saveStopped N fmt pl arg overwrite d k)
  have hff : f2 = f := by
    have := (stopped_cases N fmt pl o s hr arg true _ f hf' doc hd 0).1
    have e1' := congrArg Prod.fst e1
    rw [show (o.saveText N fmt pl arg true (o.saveStopped N fmt pl arg overwrite d k)).1 = (o.saveActions N fmt pl arg true (o.saveStopped N fmt pl arg overwrite d k)).1 from rfl, this] at e1'
    simp at e1'
    exact e1'.symm
  subst hff
  exact ⟨f2, d', h1, e1, e2 (.inl rfl)⟩

/-- C77 (negation of atomic replacement). Overwriting is not atomic: for every object and every contents of the file there is a moment at which stopping the process loses
the old calibration and has not stored the new one: every object that reads the file then raises. -/
theorem overwrite_not_atomic (N : NumberText) (fmt : NumberFormat) (pl : Places) (o : PsfObj) (s : CoefState) (hr : PsfReachable o s) (hN : FiniteNumbers N o)
    (hc : o.zernpol = none → o.coefficients ≠ none) (arg : PathArg) (ha : ∀ p, arg ≠ .str p) (d : TextDisk) :
    ∃ f k, (o.saveText N fmt pl arg true d).1 = .ok (some (f, o.fileName fmt)) ∧
      ∀ t : PsfObj, t.readText N ((o.saveStopped N fmt pl arg true d k).file f (o.fileName fmt)) = (.error .valueError, t) := by
  obtain ⟨f, hf⟩ := folder_ok pl d arg ha
  obtain ⟨doc, hd⟩ := document_exists o hc
  obtain ⟨h1, _, _, h4, _, _⟩ := stopped_cases N fmt pl o s hr arg true d f hf doc hd 2
  obtain ⟨g1, g2, _⟩ := document_ok N o hN doc hd
  refine ⟨f, 2, h1, fun t => ?_⟩
  rw [h4 (.inl rfl)]
  obtain ⟨q, hq⟩ := documentText_head N doc
  exact readText_prefix N t doc g1 g2 [] (documentText N doc) rfl (by rw [hq]; simp)

/-- C77 (negation). After a first saving was stopped while writing, saving again with the default `overwrite=False` returns the path without an error, but the file still
holds no calibration: every object that reads it raises. -/
theorem save_again_default_keeps_broken (N : NumberText) (fmt : NumberFormat) (pl : Places) (o : PsfObj) (s : CoefState) (hr : PsfReachable o s) (hN : FiniteNumbers N o)
    (hc : o.zernpol = none → o.coefficients ≠ none) (arg : PathArg) (ha : ∀ p, arg ≠ .str p) (d : TextDisk) (hnew : ∀ f, d.file f (o.fileName fmt) = none) :
    ∃ f k, (o.saveText N fmt pl arg false d).1 = .ok (some (f, o.fileName fmt)) ∧
      ∃ d', o.saveText N fmt pl arg false (o.saveStopped N fmt pl arg false d k) = (.ok (some (f, o.fileName fmt)), d') ∧
        ∀ t : PsfObj, t.readText N (d'.file f (o.fileName fmt)) = (.error .valueError, t) := by
  obtain ⟨f, hf⟩ := folder_ok pl d arg ha
  obtain ⟨doc, hd⟩ := document_exists o hc
  obtain ⟨h1, _, _, h4, h5, _⟩ := stopped_cases N fmt pl o s hr arg false d f hf doc hd 2
  obtain ⟨g1, g2, _⟩ := document_ok N o hN doc hd
  obtain ⟨q, hq⟩ := documentText_head N doc
  have hfile := h4 (.inr (hnew f))
  have hf' : (o.saveStopped N fmt pl arg false d 2).folder pl arg = .ok f :=
    folder_kept pl d _ arg f hf h5
  obtain ⟨b1, _, b3, _⟩ := stopped_cases N fmt pl o s hr arg false _ f hf' doc hd (o.saveActions N fmt pl arg false (o.saveStopped N fmt pl arg false d 2)).2.length
  have hst : o.saveStopped N fmt pl arg false (o.saveStopped N fmt pl arg false d 2) (o.saveActions N fmt pl arg false (o.saveStopped N fmt pl arg false d 2)).2.length
      = (o.saveText N fmt pl arg false (o.saveStopped N fmt pl arg false d 2)).2 := by
    simp [PsfObj.saveStopped, PsfObj.saveText]
  rw [hst] at b3
  refine ⟨f, 2, h1, (o.saveText N fmt pl arg false (o.saveStopped N fmt pl arg false d 2)).2, Prod.ext b1 rfl, fun t => ?_⟩
  rw [b3 rfl (by rw [hfile]; simp), hfile]
  exact readText_prefix N t doc g1 g2 [] (documentText N doc) rfl (by rw [hq]; simp)

/-! ### The hypotheses are met -/

/-- The exponent after 'e', '-'. -/
def exponentOf (tok : List Char) : Nat := natValue ((tok.dropWhile (· != 'e')).drop 2)

theorem decimal_text (m : Int) (E : Nat) : isNumber (intText m ++ 'e' :: '-' :: natText E) = true ∧
    (intText m ++ 'e' :: '-' :: natText E).takeWhile (· != 'e') = intText m ∧ exponentOf (intText m ++ 'e' :: '-' :: natText E) = E := by
  have hdig : ∀ n c, c ∈ natText n → c.isDigit = true := by
    intro n c hc
    obtain ⟨a, r, e, h1, h2, _⟩ := natText_shape n
    rw [e] at hc
    simp only [List.mem_cons] at hc
    rcases hc with rfl | hc
    · exact h1
    · exact h2 _ hc
  have hne : ∀ c ∈ intText m, (c != 'e') = true := by
    intro c hc
    have hd : c = '-' ∨ c.isDigit = true := by
      cases m with
      | ofNat n => exact .inr (hdig n c hc)
      | negSucc n =>
        change c ∈ '-' :: natText (n + 1) at hc
        simp only [List.mem_cons] at hc
        rcases hc with rfl | hc
        · exact .inl rfl
        · exact .inr (hdig _ c hc)
    rcases hd with rfl | hd
    · decide
    · by_contra h
      simp only [bne_iff_ne, ne_eq, not_not] at h
      subst h
      exact absurd hd (by decide)
  have hint : ∀ n q, afterIntPart (natText n ++ 'e' :: q) = some ('e' :: q) := by
    intro n q
    obtain ⟨c, r, e, h1, h2, h3, h4⟩ := natText_shape n
    rw [e, List.cons_append]
    by_cases hc : c = '0'
    · have := h4 (by rw [h3 hc]; norm_num)
      subst hc this
      rfl
    · rw [afterIntPart]
      · rw [if_pos h1, List.dropWhile_append_of_pos h2, List.dropWhile_cons_of_neg (by decide)]
      · exact hc
  refine ⟨?_, ?_, ?_⟩
  · have hA : afterIntPart (dropMinus (intText m ++ 'e' :: '-' :: natText E)) = some ('e' :: '-' :: natText E) := by
      cases m with
      | ofNat n =>
        have : dropMinus (natText n ++ 'e' :: '-' :: natText E) = natText n ++ 'e' :: '-' :: natText E := by
          obtain ⟨c, r, e, h1, _⟩ := natText_shape n
          rw [e, List.cons_append, dropMinus]
          intro r' e'
          have := (List.cons.inj e').1
          subst this
          exact absurd h1 (by decide)
        change afterIntPart (dropMinus (natText n ++ _)) = _
        rw [this, hint]
      | negSucc n =>
        change afterIntPart (natText (n + 1) ++ _) = _
        rw [hint]
    unfold isNumber
    rw [hA]
    have : afterFraction ('e' :: '-' :: natText E) = some ('e' :: '-' :: natText E) := rfl
    simp only [this]
    have hE : exponentEnds ('e' :: '-' :: natText E) = onlyDigits (natText E) := rfl
    rw [hE]
    obtain ⟨c, r, e, h1, h2, _⟩ := natText_shape E
    simp only [onlyDigits, Bool.and_eq_true, List.all_eq_true]
    exact ⟨by rw [e]; simp, hdig E⟩
  · rw [List.takeWhile_append_of_pos hne, List.takeWhile_cons_of_neg (by decide), List.append_nil]
  · unfold exponentOf
    rw [List.dropWhile_append_of_pos hne, List.dropWhile_cons_of_neg (by decide)]
    exact natValue_natText E

open Classical in
/-- Numbers with finitely many decimals, written exactly as `123e-2`. -/
noncomputable def decimalText : NumberText where
  doubles := { x | ∃ (m : Int) (E : Nat), x = m / 10 ^ E }
  repr x := if h : ∃ (m : Int) (E : Nat), x = m / 10 ^ E then intText h.choose ++ 'e' :: '-' :: natText h.choose_spec.choose else []
  value tok := intValue (tok.takeWhile (· != 'e')) / 10 ^ exponentOf tok
  number := by
    intro x hx
    rw [Set.mem_setOf_eq] at hx
    rw [dif_pos hx]
    exact (decimal_text _ _).1
  value_repr := by
    intro x hx
    rw [Set.mem_setOf_eq] at hx
    rw [dif_pos hx, (decimal_text _ _).2.1, (decimal_text _ _).2.2, intValue_intText]
    exact hx.choose_spec.choose_spec.symm

/-- All floating-point numbers `m * 2 ^ e` are among the numbers of `decimalText`: the assumptions of `NumberText` are met for them. -/
theorem doubles_writable (m e : Int) : (m : ℝ) * 2 ^ e ∈ decimalText.doubles := by
  rcases e with e | e
  · refine ⟨m * 2 ^ e, 0, ?_⟩
    push_cast
    simp
  · refine ⟨m * 5 ^ (e + 1), e + 1, ?_⟩
    push_cast
    rw [zpow_negSucc, show (10 : ℝ) = 2 * 5 from by norm_num, mul_pow]
    field_simp

/-- The hypotheses are met: the vertical coma with NA 0.5, wavelength 0.8, pixel 0.1 and coefficient 0.25, in an empty file system. -/
example : ∃ (o : PsfObj) (s : CoefState), PsfReachable o s ∧ (∀ z ∈ psfPols o, Constructed z ∧ ValidOrders z.m z.n) ∧ PhysicalOk o.NA o.wavelength o.pixelSize ∧
    FiniteNumbers decimalText o ∧ (o.zernpol = none → o.coefficients ≠ none) ∧ o.NA = 1 / 2 ∧ o.expansionCoeff = 1 / 4 := by
  obtain ⟨a, _, _, _, ha, _, _, _, h1, _⟩ := constructions_agree (-1) 3 (by decide) (by decide)
  have hca : Constructed a := ⟨_, by simp, ha⟩
  obtain ⟨o1, _⟩ := h1 a (by simp)
  simp only [ZernPol.getMnOrders, Prod.mk.injEq] at o1
  have hv : ValidOrders a.m a.n := by rw [o1.1, o1.2]; decide
  have hphys : PhysicalOk (1 / 2) (8 / 10) (1 / 10) := by unfold PhysicalOk; norm_num
  obtain ⟨S, _, e⟩ := setPhysical_num { psfDefault with zernpol := some a, airy := a.isPiston } a rfl hv (1 / 2) (8 / 10) (1 / 10) (1 / 4) hphys
  refine ⟨_, afterCalls [], ⟨.pol a, _, [], [.setPhysicalProps (1 / 2) (8 / 10) (.num (1 / 4)) (1 / 10)], rfl, Prod.ext (congrArg Prod.snd e) rfl⟩, ?_, hphys, ?_, ?_, rfl, rfl⟩
  · simp [psfPols, hca, hv, physBase]
  · refine ⟨⟨5, 1, by norm_num [physBase]⟩, ⟨8, 1, by norm_num [physBase]⟩, ⟨1, 1, by norm_num [physBase]⟩, ?_, ⟨25, 2, by norm_num [physBase]⟩, ?_⟩
    · intro i _ j _
      exact ⟨1, 0, by norm_num [physBase, psfDefault]⟩
    · intro cs hcs
      exact absurd hcs (by simp [physBase, psfDefault])
  · simp [physBase]

end Verif.Props
