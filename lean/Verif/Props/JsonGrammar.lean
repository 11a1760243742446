import Verif.Proofs.JsonGrammar
import Verif.Props.JsonText

/-!
# C120: which texts can be loaded, and that their layout does not matter
-/

namespace Verif.Props
open Verif.Model Verif.Spec Verif.Proofs

/-- The reader accepts exactly the texts of the grammar, with the tree of the grammar; any other text is a `ValueError`. -/
theorem json_text_loaded (text : List Char) : (∀ v, jsonLoad text = .ok v ↔ JsonText v text) ∧ ((¬ ∃ v, JsonText v text) ↔ jsonLoad text = .error .valueError) := by
  refine ⟨JsonGrammar.load_iff text, ?_⟩
  constructor
  · intro h
    unfold jsonLoad
    cases hs : scanValue (text.length + 1) (skipWs text) with
    | none => rfl
    | some p =>
      obtain ⟨v, r⟩ := p
      simp only
      split_ifs with hr
      · exact absurd ⟨v, (JsonGrammar.load_iff text v).1 (by unfold jsonLoad; rw [hs]; simp [hr])⟩ h
      · rfl
  · rintro h ⟨v, hv⟩
    rw [(JsonGrammar.load_iff text v).2 hv] at h
    cases h

/-- A text has at most one meaning. -/
theorem json_text_unique (text : List Char) (v v' : JVal) (h : JsonText v text) (h' : JsonText v' text) : v = v' := by
  have e := (JsonGrammar.load_iff text v).2 h
  rw [(JsonGrammar.load_iff text v').2 h'] at e
  exact (Except.ok.inj e).symm

/-- Two texts with the same tokens, only laid out in another way, do the same to every object. -/
theorem layout_irrelevant (N : NumberText) (t : PsfObj) (v : JVal) (text text' : List Char) (h : JsonText v text) (h' : JsonText v text') :
    t.readText N (some text) = t.readText N (some text') := by
  unfold PsfObj.readText
  simp only [(JsonGrammar.load_iff text v).2 h, (JsonGrammar.load_iff text' v).2 h']

/-- A text out of the grammar changes nothing. -/
theorem broken_text_refused (N : NumberText) (t : PsfObj) (text : List Char) (h : ¬ ∃ v, JsonText v text) : t.readText N (some text) = (.error .valueError, t) := by
  unfold PsfObj.readText
  simp only [(json_text_loaded text).2.1 h]

/-- A saved calibration is a JSON text, and it is restored from every other layout of it (indented, with line ends of any system, on one line). -/
theorem reformatted_restores (N : NumberText) (o : PsfObj) (s : CoefState) (hr : PsfReachable o s) (hp : ∀ z ∈ psfPols o, Constructed z ∧ ValidOrders z.m z.n)
    (hphys : PhysicalOk o.NA o.wavelength o.pixelSize) (hN : FiniteNumbers N o) (doc : List JsonItem) (hd : o.document = .ok doc) :
    ∃ v, JsonText v (documentText N doc) ∧ ∀ (text : List Char) (t : PsfObj), JsonText v text →
      ∃ t', t.readText N (some text) = (.ok (), t') ∧ RestoredFrom o t' := by
  obtain ⟨h1, h2, _⟩ := document_ok N o hN doc hd
  obtain ⟨q, hq⟩ := documentText_head N doc
  have hsk : skipWs (documentText N doc) = documentText N doc := by rw [hq]; exact skipWs_of_not (by decide)
  have hl : jsonLoad (documentText N doc) = .ok (.obj (doc.map fun x => ((x.member N).1.toList, itemValue N x))) := by
    unfold jsonLoad
    rw [hsk, scan_document N doc h1 h2]
    rfl
  have hv := (JsonGrammar.load_iff _ _).1 hl
  refine ⟨_, hv, ?_⟩
  intro text t ht
  obtain ⟨t', e, hres⟩ := readText_restores N o s hr hp hphys hN doc hd t
  exact ⟨t', by rw [layout_irrelevant N t _ text _ ht hv]; exact e, hres⟩

/-- White space before and after a saved calibration does no harm; anything else after it is refused, and the object is kept. -/
theorem surroundings_of_saved (N : NumberText) (o : PsfObj) (s : CoefState) (hr : PsfReachable o s) (hp : ∀ z ∈ psfPols o, Constructed z ∧ ValidOrders z.m z.n)
    (hphys : PhysicalOk o.NA o.wavelength o.pixelSize) (hN : FiniteNumbers N o) (doc : List JsonItem) (hd : o.document = .ok doc) (before after : List Char) (t : PsfObj) :
    (White before → White after → ∃ t', t.readText N (some (before ++ documentText N doc ++ after)) = (.ok (), t') ∧ RestoredFrom o t') ∧
    (White before → ¬ White after → t.readText N (some (before ++ documentText N doc ++ after)) = (.error .valueError, t)) := by
  constructor
  · intro hb ha
    obtain ⟨v, ⟨w₁, u, w₂, h₁, h₂, hu, e⟩, h⟩ := reformatted_restores N o s hr hp hphys hN doc hd
    refine h _ t ⟨before ++ w₁, u, w₂ ++ after, JsonGrammar.white_append hb h₁, JsonGrammar.white_append h₂ ha, hu, ?_⟩
    rw [e]; simp
  · intro hb ha
    obtain ⟨h1, h2, _⟩ := document_ok N o hN doc hd
    obtain ⟨q, hq⟩ := documentText_head N doc
    have hsk : skipWs (before ++ documentText N doc ++ after) = documentText N doc ++ after := by
      rw [List.append_assoc, JsonGrammar.skip_white _ _ hb, hq, List.cons_append]
      exact skipWs_of_not (by decide)
    have hs := (scan_append _).1 _ _ _ after ((before ++ documentText N doc ++ after).length + 1) (by simp only [List.length_append]; omega)
      (scan_document N doc h1 h2) (.inr fun tok => ⟨nofun, nofun⟩)
    have hl : jsonLoad (before ++ documentText N doc ++ after) = .error .valueError := by
      unfold jsonLoad
      rw [hsk, hs]
      simp only [List.nil_append]
      rw [if_neg fun h => ha ((JsonGrammar.skip_nil_iff after).1 h)]
    unfold PsfObj.readText
    simp only [hl]

/-- The grammar on a text with tabulators and line ends of two kinds: `[1,\r\n\t-2.5e3]` and a line end. -/
example : JsonText (.arr [.num ['1'], .num ['-', '2', '.', '5', 'e', '3']])
    ['[', '1', ',', '\r', '\n', '\t', '-', '2', '.', '5', 'e', '3', ']', '\n'] := by
  refine ⟨[], ['[', '1', ',', '\r', '\n', '\t', '-', '2', '.', '5', 'e', '3', ']'], ['\n'], by simp [White], by simp [White], ?_, rfl⟩
  refine .arr (t := [] ++ (['1'] ++ ([] ++ ',' :: (['\r', '\n', '\t'] ++ (['-', '2', '.', '5', 'e', '3'] ++ []))))) ?_
  refine .more (by simp [White]) (.num ⟨[], ['1'], [], [], rfl, by simp, .inr ⟨by simp, by simp [Digits]⟩, by simp, by simp⟩) (by simp [White])
    (.one (by simp [White]) (.num ⟨['-'], ['2'], ['.', '5'], ['e', '3'], rfl, by simp, .inr ⟨by simp, by simp [Digits]⟩, .inr ⟨['5'], rfl, by simp [Digits]⟩,
      .inr ⟨'e', [], ['3'], rfl, by simp, by simp, by simp [Digits]⟩⟩) (by simp [White]))

/-- Escapes: the text `"\u00B5m\n"` is the string of the micrometre and a line end. -/
example : JsonText (.str ['µ', 'm', '\n']) ['"', '\\', 'u', '0', '0', 'B', '5', 'm', '\\', 'n', '"'] := by
  refine ⟨[], _, [], by simp [White], by simp [White], .str (.code (a := '0') (b := '0') (c := 'B') (d := '5') (i := 0) (j := 0) (k := 11) (l := 5) (by decide) (by decide)
    (by decide) (by decide) (.plain (by decide) (.escape (e := 'n') (by decide) .nil))), rfl⟩

/-- A text out of the grammar: a comma before the closing bracket. -/
example : ¬ ∃ v, JsonText v ['[', '1', ',', ']'] := by
  rw [(json_text_loaded _).2]
  rfl

/-- Objects that meet the hypotheses about saved calibrations: see the example of C77; here a calibration is read after it has been written with line ends and tabulators
around the text. -/
example (N : NumberText) (o : PsfObj) (s : CoefState) (hr : PsfReachable o s) (hp : ∀ z ∈ psfPols o, Constructed z ∧ ValidOrders z.m z.n)
    (hphys : PhysicalOk o.NA o.wavelength o.pixelSize) (hN : FiniteNumbers N o) (doc : List JsonItem) (hd : o.document = .ok doc) (t : PsfObj) :
    ∃ t', t.readText N (some (['\r', '\n'] ++ documentText N doc ++ ['\t', '\n'])) = (.ok (), t') ∧ RestoredFrom o t' :=
  (surroundings_of_saved N o s hr hp hphys hN doc hd _ _ t).1 (by simp [White]) (by simp [White])

end Verif.Props
