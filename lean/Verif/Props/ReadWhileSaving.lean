import Verif.Proofs.ReadWhileSaving
import Verif.Props.SharedFile

/-!
# C103: a calibration is read while other processes save to its file
-/

namespace Verif.Props
open Verif.Model Verif.Spec Verif.Proofs

/-! ### The reader alone -/

/-- C103. A reader that nobody disturbs gets exactly the text of the file, whatever the sizes of the pieces in which it reads: `read_json` is then the reading of C77. -/
theorem undisturbed_read (calls : Nat → SaveCall) (file : Option (List Char)) (pieces : List Nat) (hn : (file.getD []).length + 3 ≤ pieces.length) :
    ((ReadWorld.before file).run calls (pieces.map .reader)).reader = .finished file := by
  cases file with
  | some c => exact congrArg ReadWorld.reader (reader_alone calls (SharedFile.before (some c)) c rfl pieces hn)
  | none =>
    match pieces, hn with
    | a :: ns, hn =>
      clear hn
      have e : ReadWorld.run calls (ReadWorld.before none) ((a :: ns).map .reader) = ReadWorld.run calls ⟨SharedFile.before none, .finished none⟩ (ns.map .reader) := rfl
      rw [e]
      clear e
      induction ns with
      | nil => rfl
      | cons m ns ih => exact ih

/-! ### The same calibration -/

/-- C103. Any number of processes save the same calibration, with any flags `overwrite`, while a reader reads the file in pieces of any sizes; all act in any order and
may be stopped. Before, there is no file, or the file holds this calibration or the beginning of its text (an interrupted `save_json`). Then the reader finds no file
(and there was none), or gets `ValueError` and keeps its object unchanged, or gets the whole calibration: never a wrong one. (Missing: the same for different calibrations, which is false: `replaced_while_read_mixes`; and that a reader always gets a complete calibration if the
file is complete before and after, also false: `resaved_while_read_fails`.) -/
theorem read_during_same_saves_partial (N : NumberText) (o : PsfObj) (ho : Saveable N o) (calls : Nat → SaveCall) (hcalls : ∀ i, ∃ ow, o.saveCall N ow = .ok (calls i))
    (file : Option (List Char)) (hfile : ∀ c, file = some c → c <+: (calls 0).text) (schedule : List Actor) (text : Option (List Char))
    (hread : ((ReadWorld.before file).run calls schedule).reader = .finished text) (t : PsfObj) :
    text = none ∧ file = none ∨ t.readText N text = (.error .valueError, t) ∨ ∃ t', t.readText N text = (.ok (), t') ∧ RestoredFrom o t' := by
  obtain ⟨doc, hd, _⟩ := ho.call true
  have hT : ∀ i, (calls i).text = documentText N doc := by
    intro i
    obtain ⟨ow, hc⟩ := hcalls i
    rw [saveCall_eq hd hc]
  obtain ⟨s0, hr⟩ := ho.reachable
  obtain ⟨g1, g2, _⟩ := document_ok N o ho.finite doc hd
  rw [hT 0] at hfile
  have inv := ReadInv.run (file0 := file) hT (fun c hc => PartOf.of_prefix (hfile c hc)) schedule
  cases text with
  | none => exact .inl ⟨rfl, inv.absent hread⟩
  | some c =>
    right
    rcases (inv.text c hread).cases with h0 | ⟨r, hr'⟩
    · exact .inl (readText_zero N t c h0)
    · by_cases hrn : r = []
      · subst hrn
        rw [List.append_nil] at hr'
        subst hr'
        exact .inr (readText_restores N o s0 hr ho.polynomials ho.physical ho.finite doc hd t)
      · exact .inl (readText_prefix N t doc g1 g2 c r hr' hrn)

/-- C103. A reader that comes when no save is in the middle of writing, and at least one that was allowed to write has returned, gets the whole calibration. -/
theorem read_after_same_saves (N : NumberText) (o : PsfObj) (ho : Saveable N o) (calls : Nat → SaveCall) (hcalls : ∀ i, ∃ ow, o.saveCall N ow = .ok (calls i))
    (file : Option (List Char)) (schedule : List Nat) (hq : NotWriting ((SharedFile.before file).run calls schedule)) (i : Nat)
    (hi : ((SharedFile.before file).run calls schedule).phase i = .finished) (hw : (calls i).overwrite = true ∨ file = none) (pieces : List Nat)
    (hn : (calls i).text.length + 3 ≤ pieces.length) (t : PsfObj) :
    ∃ text t', ((ReadWorld.before file).run calls (schedule.map .saver ++ pieces.map .reader)).reader = .finished text ∧
      t.readText N text = (.ok (), t') ∧ RestoredFrom o t' := by
  obtain ⟨t', h1, h2⟩ := same_saves_restore N o ho calls hcalls file schedule hq i hi hw t
  have hT : ∀ j, (calls j).text = (calls i).text := by
    obtain ⟨doc, hd, _⟩ := ho.call true
    intro j
    obtain ⟨_, hc⟩ := hcalls j
    obtain ⟨_, hc'⟩ := hcalls i
    rw [saveCall_eq hd hc, saveCall_eq hd hc']
  have hfile : ((SharedFile.before file).run calls schedule).file = some (calls i).text := by
    rcases (SameInv.run (file0 := file) hT schedule).quiet hq with ⟨_, h3⟩ | h3
    · obtain ⟨a, b⟩ := h3 i hi
      rcases hw with hw | hw
      · rw [hw] at a; cases a
      · exact absurd hw b
    · exact h3
  refine ⟨some (calls i).text, t', ?_, by rw [← hfile]; exact h1, h2⟩
  rw [world_run_append, world_run_savers]
  exact congrArg ReadWorld.reader (reader_alone calls _ _ hfile pieces hn)

/-! ### A calibration is replaced by another one -/

/-- C103 (negation). The file holds a complete calibration and is replaced by another complete one with `overwrite=True`, by a single process; a reader that has begun
before and ends after gets, without an error, a calibration that nobody has saved: the kernel and the numerical aperture of the old with the wavelength and the pixel
size of the new one. (The texts of the kernels and of the numerical apertures have equal lengths.) -/
theorem replaced_while_read_mixes (N : NumberText) (old new : PsfObj) (h₁ : Saveable N old) (h₂ : Saveable N new) (calls : Nat → SaveCall) (before : SaveCall)
    (hc₁ : old.saveCall N true = .ok before) (hc₂ : new.saveCall N true = .ok (calls 0))
    (hk : (((JsonItem.kernel old.kernel).member N).2).length = (((JsonItem.kernel new.kernel).member N).2).length)
    (hna : (N.repr old.NA).length = (N.repr new.NA).length) (hphys : PhysicalOk old.NA new.wavelength new.pixelSize) :
    ∃ schedule text, ((ReadWorld.before (some before.text)).run calls schedule).reader = .finished text ∧
      ((ReadWorld.before (some before.text)).run calls schedule).saves.phase 0 = .finished ∧
      ((ReadWorld.before (some before.text)).run calls schedule).saves.file = some (calls 0).text ∧
      ∀ t : PsfObj, ∃ t', t.readText N text = (.ok (), t') ∧
        SameEntries t'.kernel old.kernel ∧ t'.NA = old.NA ∧ t'.wavelength = new.wavelength ∧ t'.pixelSize = new.pixelSize := by
  obtain ⟨doc₁, hd₁, e₁⟩ := h₁.call true
  obtain ⟨doc₂, hd₂, e₂⟩ := h₂.call true
  have c0 : before = ⟨documentText N doc₁, true⟩ := saveCall_eq hd₁ hc₁
  have c1 : calls 0 = ⟨documentText N doc₂, true⟩ := saveCall_eq hd₂ hc₂
  obtain ⟨q₁, hq₁, rfl, _⟩ := document_parts old doc₁ hd₁
  obtain ⟨q₂, hq₂, rfl, hmix⟩ := document_parts new doc₂ hd₂
  have hm := hmix old.kernel old.NA
  have t1 := document_split N [.kernel old.kernel, .na old.NA] q₁ (by simp) hq₁
  have t2 := document_split N [.kernel new.kernel, .na new.NA] q₂ (by simp) hq₂
  have tm := document_split N [.kernel old.kernel, .na old.NA] q₂ (by simp) hq₂
  have hcut : ('{' :: commaText (([.kernel old.kernel, .na old.NA].map (JsonItem.member N)).map memberText)).length =
      ('{' :: commaText (([.kernel new.kernel, .na new.NA].map (JsonItem.member N)).map memberText)).length := by
    have hk' : (arrText (old.kernel.lists.map fun l => arrText (l.map N.repr))).length = (arrText (new.kernel.lists.map fun l => arrText (l.map N.repr))).length := hk
    simp only [List.map_cons, List.map_nil, commaText, memberText, JsonItem.member, List.length_cons, List.length_append, hk', hna]
  have hpos : 0 < ('{' :: commaText (([.kernel old.kernel, .na old.NA].map (JsonItem.member N)).map memberText)).length := by simp
  generalize '{' :: commaText (([.kernel old.kernel, .na old.NA].map (JsonItem.member N)).map memberText) = A1 at t1 tm hcut hpos
  generalize '{' :: commaText (([.kernel new.kernel, .na new.NA].map (JsonItem.member N)).map memberText) = A2 at t2 hcut
  have f1 := reader_first calls (SharedFile.before (some before.text)) before.text rfl (A1.length - 1) (by rw [c0, t1]; simp; omega)
  rw [show A1.length - 1 + 1 = A1.length by omega] at f1
  have f2 := run_alone calls (SharedFile.before (some before.text)) 0 rfl (.inl (by rw [c1]))
  obtain ⟨f, hf⟩ : ∃ f, (SharedFile.before (some before.text)).run calls (List.replicate ((calls 0).text.length + 3) 0) = f := ⟨_, rfl⟩
  have hg : before.text.take A1.length = A1 := by rw [c0, t1]; exact List.take_left
  rw [hg] at f1
  have f3 := reader_rest calls f (calls 0).text (by rw [← hf, f2]) (List.replicate ((calls 0).text.length + 1) 0) A1 (by rw [List.length_replicate]; omega)
  have hnew : A1 ++ (calls 0).text.drop A1.length = documentText N ([.kernel old.kernel, .na old.NA] ++ q₂) := by
    rw [c1, tm]
    simp only
    rw [t2, hcut, List.drop_left]
  rw [hnew] at f3
  have hall : (ReadWorld.before (some before.text)).run calls ([.reader 0, .reader 0, .reader (A1.length - 1)] ++
      ((List.replicate ((calls 0).text.length + 3) 0).map .saver ++ (List.replicate ((calls 0).text.length + 1) 0).map .reader)) =
      ⟨f, .finished (some (documentText N ([.kernel old.kernel, .na old.NA] ++ q₂)))⟩ := by
    rw [world_run_append, world_run_append]
    have : ReadWorld.run calls (ReadWorld.before (some before.text)) [.reader 0, .reader 0, .reader (A1.length - 1)] = ⟨SharedFile.before (some before.text), .reading A1⟩ := f1
    rw [this, world_run_savers]
    simp only
    rw [hf]
    exact f3
  refine ⟨_, some (documentText N ([.kernel old.kernel, .na old.NA] ++ q₂)), congrArg ReadWorld.reader hall, ?_, ?_, fun t => ?_⟩
  · rw [hall]; simp only; rw [← hf, f2]; simp
  · rw [hall]; simp only; rw [← hf, f2]
  obtain ⟨s2, r2⟩ := h₂.reachable
  have hfin : FiniteNumbers N ({ new with kernel := old.kernel, NA := old.NA } : PsfObj) :=
    ⟨h₁.finite.NA, h₂.finite.wavelength, h₂.finite.pixelSize, h₁.finite.kernel, h₂.finite.coefficient, h₂.finite.coefficients⟩
  obtain ⟨g1, g2, g3⟩ := document_ok N _ hfin _ hm
  rw [readText_document N t _ g1 g2 (document_keys N _ _ hm)]
  obtain ⟨t', _, e, hres, _⟩ := read_restores_of ({ new with kernel := Grid.ofLists old.kernel.lists, NA := old.NA } : PsfObj) (fun hz => r2.several hz)
    (fun cs hcs => r2.coeffsFit cs hcs) h₂.polynomials hphys _ g3 t
  refine ⟨t', e, ?_, hres.NA, hres.wavelength, hres.pixelSize⟩
  rw [hres.kernel]
  exact ⟨ofLists_rows _, ofLists_cols _, fun i hi j hj => lists_get _ i j hi hj⟩

/-- C103 (negation). Even if the same calibration is saved again over itself, so that the file is complete before and after, a reader can get `ValueError`. -/
theorem resaved_while_read_fails (N : NumberText) (o : PsfObj) (ho : Saveable N o) (calls : Nat → SaveCall) (hc : o.saveCall N true = .ok (calls 0)) :
    ∃ schedule text, ((ReadWorld.before (some (calls 0).text)).run calls schedule).reader = .finished text ∧
      ((ReadWorld.before (some (calls 0).text)).run calls schedule).saves.phase 0 = .finished ∧
      ((ReadWorld.before (some (calls 0).text)).run calls schedule).saves.file = some (calls 0).text ∧
      ∀ t : PsfObj, t.readText N text = (.error .valueError, t) := by
  obtain ⟨doc, hd, _⟩ := ho.call true
  have c0 : calls 0 = ⟨documentText N doc, true⟩ := saveCall_eq hd hc
  obtain ⟨g1, g2, _⟩ := document_ok N o ho.finite doc hd
  have hrep : ∀ n, List.replicate (n + 2) 0 = [0, 0] ++ List.replicate n 0 := fun n => rfl
  have f2 := run_alone calls (SharedFile.before (some (calls 0).text)) 0 rfl (.inl (by rw [c0]))
  rw [show (calls 0).text.length + 3 = (calls 0).text.length + 1 + 2 by omega, hrep, saves_run_append] at f2
  obtain ⟨f, hf⟩ : ∃ f, (SharedFile.before (some (calls 0).text)).run calls [0, 0] = f := ⟨_, rfl⟩
  have hempty : f.file = some [] := by
    rw [← hf]
    simp [SharedFile.run, SharedFile.step, SharedFile.before, c0]
  rw [hf] at f2
  have hall : (ReadWorld.before (some (calls 0).text)).run calls ([0, 0].map .saver ++ ([0, 0, 0].map .reader ++ (List.replicate ((calls 0).text.length + 1) 0).map .saver)) =
      ⟨⟨some (calls 0).text, Function.update (SharedFile.before (some (calls 0).text)).phase 0 .finished⟩, .finished (some [])⟩ := by
    rw [world_run_append, world_run_savers, world_run_append]
    have : (ReadWorld.before (some (calls 0).text)).saves = SharedFile.before (some (calls 0).text) := rfl
    rw [this, hf]
    have h3 := reader_alone calls f [] hempty [0, 0, 0] (by simp)
    have h4 : (ReadWorld.before (some (calls 0).text)).reader = .start := rfl
    rw [h4, h3, world_run_savers]
    simp only
    rw [f2]
  refine ⟨_, some [], congrArg ReadWorld.reader hall, by rw [hall]; simp, by rw [hall], fun t => ?_⟩
  obtain ⟨q, hq⟩ := documentText_head N doc
  exact readText_prefix N t doc g1 g2 [] (documentText N doc) rfl (by rw [hq]; simp)

/-! ### The hypotheses are met -/

/-- Objects as in `replaced_while_read_mixes`: two calibrations for the vertical coma with the same coefficient, and so with the same file. -/
example (fmt : NumberFormat) : ∃ (old new : PsfObj) (calls : Nat → SaveCall) (before : SaveCall), Saveable shortText old ∧ Saveable shortText new ∧
    old.fileName fmt = new.fileName fmt ∧ old.saveCall shortText true = .ok before ∧ new.saveCall shortText true = .ok (calls 0) ∧
    (((JsonItem.kernel old.kernel).member shortText).2).length = (((JsonItem.kernel new.kernel).member shortText).2).length ∧
    (shortText.repr old.NA).length = (shortText.repr new.NA).length ∧ PhysicalOk old.NA new.wavelength new.pixelSize ∧ old.NA ≠ new.NA ∧
    old.wavelength ≠ new.wavelength := by
  obtain ⟨a, _, _, _, ha, _, _, _, h1, _⟩ := constructions_agree (-1) 3 (by decide) (by decide)
  have hca : Constructed a := ⟨_, by simp, ha⟩
  obtain ⟨o1, _⟩ := h1 a (by simp)
  simp only [ZernPol.getMnOrders, Prod.mk.injEq] at o1
  have hv : ValidOrders a.m a.n := by rw [o1.1, o1.2]; decide
  obtain ⟨p, hp, p1, p2, p3, p4, p5, p6⟩ := saveable_example a hca hv (5 / 10) (8 / 10) (1 / 10) (3 / 10) ⟨5, by norm_num, by norm_num⟩ ⟨8, by norm_num, by norm_num⟩
    ⟨1, by norm_num, by norm_num⟩ ⟨3, by norm_num, by norm_num⟩ (by unfold PhysicalOk; norm_num)
  obtain ⟨q, hq, q1, q2, q3, q4, q5, q6⟩ := saveable_example a hca hv (6 / 10) (9 / 10) (1 / 10) (3 / 10) ⟨6, by norm_num, by norm_num⟩ ⟨9, by norm_num, by norm_num⟩
    ⟨1, by norm_num, by norm_num⟩ ⟨3, by norm_num, by norm_num⟩ (by unfold PhysicalOk; norm_num)
  obtain ⟨dp, _, cp⟩ := hp.call true
  obtain ⟨dq, _, cq⟩ := hq.call true
  refine ⟨p, q, fun _ => ⟨documentText shortText dq, true⟩, _, hp, hq, ?_, cp, cq, ?_, rfl, ?_, ?_, ?_⟩
  · simp only [PsfObj.fileName, p5, q5, p4, q4]
  · rw [p6, q6]
  · rw [p1, q2, q3]; unfold PhysicalOk; norm_num
  · rw [p1, q1]; norm_num
  · rw [p2, q2]; norm_num

/-- Before `read_during_same_saves_partial`: a file with the beginning of the text, left by an interrupted save; two processes save, the reader reads in pieces of different
sizes and comes to an end. -/
example (N : NumberText) (o : PsfObj) (ho : Saveable N o) : ∃ (calls : Nat → SaveCall) (file : Option (List Char)) (schedule : List Actor) (text : Option (List Char)),
    (∀ i, ∃ ow, o.saveCall N ow = .ok (calls i)) ∧ (∀ c, file = some c → c <+: (calls 0).text) ∧ file ≠ none ∧ file ≠ some (calls 0).text ∧
    ((ReadWorld.before file).run calls schedule).reader = .finished text := by
  obtain ⟨doc, hd, hc⟩ := ho.call true
  obtain ⟨q, hq⟩ := documentText_head N doc
  refine ⟨fun _ => ⟨documentText N doc, true⟩, some [], [.saver 0, .saver 1, .reader 0, .reader 4, .saver 0, .reader 2], some [], fun i => ⟨true, hc⟩, ?_, by simp, ?_, ?_⟩
  · rintro c hc'; cases hc'; exact List.nil_prefix
  · simp [hq]
  · simp [ReadWorld.run, ReadWorld.step, ReadPhase.step, SharedFile.step, SharedFile.before, ReadWorld.before]

end Verif.Props
