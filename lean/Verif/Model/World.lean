import Verif.Model.JsonWarn
import Verif.Model.PsfCalls

/-!
# Model of several `ZernPSF` objects with their files

The calls of methods of several objects in any order, with the attribute `json_file_path` of each object and the file system. A call is one step (interrupted calls: `JsonText`).
The methods that change nothing are left out.
-/

namespace Verif.Model

/-- An object with its attribute `json_file_path`: `none` is the folder of the package (/repo/src/zernpy/zernpsf.py:109), `some` a file. -/
structure PsfSlot where
  obj : PsfObj
  path : Option (String × String)

/-- The objects of a program (under numbers), the files and the coefficient tables, /repo/src/zernpy/zernpsf.py:51-656. -/
structure World where
  slots : Nat → Option PsfSlot
  disk : Disk
  tables : CoefState

/-- What a program does with `ZernPSF` objects, the methods at /repo/src/zernpy/zernpsf.py:87-656; `readOwn` is `read_json()` without a path. -/
inductive WorldCall where
  | create (i : Nat) (arg : PsfArg)
  | call (i : Nat) (c : PsfCall)
  | save (i : Nat) (arg : PathArg) (overwrite : Bool)
  | read (i : Nat) (folder name : String)
  | readOwn (i : Nat)

/-- The places for the files of an object, /repo/src/zernpy/zernpsf.py:569-572: after a file was saved, `json_file_path` is the path of this file, and a folder "saved_psfs" in
it does not exist. -/
def PsfSlot.places (pl : Places) (x : PsfSlot) : Places := match x.path with
  | none => pl
  | some _ => ⟨pl.cwd, pl.cwd⟩

/-- The path stored by `save_json`, /repo/src/zernpy/zernpsf.py:579,585: unchanged if there was nothing to save or an exception. -/
def newPath (old : Option (String × String)) : Res (Option (String × String)) → Option (String × String)
  | .ok (some p) => some p
  | _ => old

/-- The contents read by `read_json()`, /repo/src/zernpy/zernpsf.py:606 and /repo/src/zernpy/calculations/calc_psfs.py:836-840: nothing if the path is a folder. -/
def ownFile (d : Disk) : Option (String × String) → Option (List JsonItem)
  | none => none
  | some (f, n) => d.file f n

/-- The world after a call, whether it returned or raised; calls on objects that do not exist do nothing, the methods at /repo/src/zernpy/zernpsf.py:87-656. -/
noncomputable def World.run (fmt : NumberFormat) (pl : Places) (w : World) : WorldCall → World
  | .create i arg =>
    match psfInit arg with
    | .error _ => w
    | .ok o => { w with slots := Function.update w.slots i (some ⟨o, none⟩) }
  | .call i c =>
    match w.slots i with
    | none => w
    | some x => { w with slots := Function.update w.slots i (some { x with obj := (c.run (x.obj, w.tables)).1 }), tables := (c.run (x.obj, w.tables)).2 }
  | .save i arg overwrite =>
    match w.slots i with
    | none => w
    | some x => { w with
        slots := Function.update w.slots i (some { x with path := newPath x.path (x.obj.saveJson fmt (x.places pl) arg overwrite w.disk).1 })
        disk := (x.obj.saveJson fmt (x.places pl) arg overwrite w.disk).2 }
  | .read i f n =>
    match w.slots i with
    | none => w
    | some x => { w with slots := Function.update w.slots i (some { x with obj := (x.obj.readJson (w.disk.file f n)).2 }) }
  | .readOwn i =>
    match w.slots i with
    | none => w
    | some x => { w with slots := Function.update w.slots i (some { x with obj := (x.obj.readJson (ownFile w.disk x.path)).2 }) }

/-- The world after a sequence of calls, the methods at /repo/src/zernpy/zernpsf.py:87-656. -/
noncomputable def World.runAll (fmt : NumberFormat) (pl : Places) (w : World) (calls : List WorldCall) : World := calls.foldl (World.run fmt pl) w

end Verif.Model
