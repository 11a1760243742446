import Verif.Model.SharedFile

/-!
# Model of a process that reads the file while others save to it

The reader makes the test for the file, opens it and reads it piece by piece at its own position until nothing more comes; then it parses what it has got
(`PsfObj.readText`). The pieces may have any sizes. Nobody deletes the file, so that opening it after the test does not fail. Other readers change nothing and are
left out.
-/

namespace Verif.Model

/-- How far the reader has come: before the test for the file, before opening it, with these characters read, with the whole text (`none`: there was no file),
/repo/src/zernpy/calculations/calc_psfs.py:836-840. -/
inductive ReadPhase where
  | start
  | found
  | reading (got : List Char)
  | finished (text : Option (List Char))

/-- The file with the processes that save to it, and the reader, /repo/src/zernpy/calculations/calc_psfs.py:815-818,836-840. -/
structure ReadWorld where
  saves : SharedFile
  reader : ReadPhase

/-- Who acts next: the `i`-th process that saves, or the reader, who gets at most `n + 1` characters if it reads, /repo/src/zernpy/calculations/calc_psfs.py:817,839. -/
inductive Actor where
  | saver (i : Nat)
  | reader (n : Nat)

/-- The next action of the reader, /repo/src/zernpy/calculations/calc_psfs.py:837-839. -/
def ReadPhase.step (file : Option (List Char)) (n : Nat) : ReadPhase → ReadPhase
  | .start => if file.isSome then .found else .finished none
  | .found => .reading []
  | .reading got =>
    let piece := ((file.getD []).drop got.length).take (n + 1)
    if piece = [] then .finished (some got) else .reading (got ++ piece)
  | .finished t => .finished t

/-- The next action, /repo/src/zernpy/calculations/calc_psfs.py:815-818,836-840. -/
def ReadWorld.step (calls : Nat → SaveCall) (w : ReadWorld) : Actor → ReadWorld
  | .saver i => { w with saves := w.saves.step calls i }
  | .reader n => { w with reader := w.reader.step w.saves.file n }

/-- The actions in the order of the schedule, /repo/src/zernpy/calculations/calc_psfs.py:815-818,836-840. -/
def ReadWorld.run (calls : Nat → SaveCall) (w : ReadWorld) (schedule : List Actor) : ReadWorld := schedule.foldl (ReadWorld.step calls) w

/-- Before the calls, /repo/src/zernpy/calculations/calc_psfs.py:813,836. -/
def ReadWorld.before (file : Option (List Char)) : ReadWorld := ⟨SharedFile.before file, .start⟩

end Verif.Model
