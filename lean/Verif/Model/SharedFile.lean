import Verif.Model.JsonText

/-!
# Model of several processes that save to the same file

The name of the file depends on the polynomial and its coefficient only (`PsfObj.fileName`), so that different calibrations can have the same file. Each process
makes the test for the file, opens it (which empties it) and writes its text character by character at its own position in the file, as the operating system does for
separately opened files; a position after the end of the file (another process has emptied it) leaves a gap of zero bytes. Nobody deletes the file. The test for the
warning (line 814) has no effect on the file and is left out.
-/

namespace Verif.Model

/-- A call of `save_json`: the text of the document and the flag, /repo/src/zernpy/calculations/calc_psfs.py:738-818. -/
structure SaveCall where
  text : List Char
  overwrite : Bool

/-- The call for an object, if its document can be made, /repo/src/zernpy/calculations/calc_psfs.py:804-812. -/
def PsfObj.saveCall (N : NumberText) (o : PsfObj) (overwrite : Bool) : Res SaveCall := o.document.map fun doc => ⟨documentText N doc, overwrite⟩

/-- How far a process has come: before the test for the file, before opening it, `k` characters written, returned, /repo/src/zernpy/calculations/calc_psfs.py:815-818. -/
inductive SavePhase where
  | start
  | opening
  | writing (k : Nat)
  | finished
deriving DecidableEq

/-- The text of the file (`none`: there is no file) and how far each process has come, /repo/src/zernpy/calculations/calc_psfs.py:815-818. -/
structure SharedFile where
  file : Option (List Char)
  phase : Nat → SavePhase

/-- One character at a position of the file; a gap before it is filled with zero bytes, /repo/src/zernpy/calculations/calc_psfs.py:817. -/
def writeAt (s : List Char) (k : Nat) (c : Char) : List Char :=
  if k < s.length then s.set k c else s ++ List.replicate (k - s.length) '\x00' ++ [c]

/-- The next action of process `i`, /repo/src/zernpy/calculations/calc_psfs.py:815-818. -/
def SharedFile.step (calls : Nat → SaveCall) (s : SharedFile) (i : Nat) : SharedFile :=
  match s.phase i with
  | .start => { s with phase := Function.update s.phase i (if s.file.isSome && !(calls i).overwrite then .finished else .opening) }
  | .opening => ⟨some [], Function.update s.phase i (.writing 0)⟩
  | .writing k => match (calls i).text[k]? with
    | some c => ⟨some (writeAt (s.file.getD []) k c), Function.update s.phase i (.writing (k + 1))⟩
    | none => { s with phase := Function.update s.phase i .finished }
  | .finished => s

/-- The processes act in the order given by the schedule, /repo/src/zernpy/calculations/calc_psfs.py:815-818. -/
def SharedFile.run (calls : Nat → SaveCall) (s : SharedFile) (schedule : List Nat) : SharedFile := schedule.foldl (SharedFile.step calls) s

/-- Before the calls, /repo/src/zernpy/calculations/calc_psfs.py:813. -/
def SharedFile.before (file : Option (List Char)) : SharedFile := ⟨file, fun _ => .start⟩

end Verif.Model
