import Verif.Model.Json
import Verif.Model.Warn

/-!
# Model of the warnings of `save_json` and `read_json` (`zernpsf.py`)

As in `Warn`: the warnings in their order, without the texts and without the filter of the `warnings` module.
-/

namespace Verif.Model

/-- The warnings of `save_json` and `read_json`, /repo/src/zernpy/zernpsf.py:575-577,/repo/src/zernpy/zernpsf.py:648-656,/repo/src/zernpy/calculations/calc_psfs.py:814-815; `physical`: those of
`set_physical_props`, called by `read_json`. -/
inductive FileWarn where
  | uncalculated
  | notOverwritten
  | missingKeys
  | noData
  | physical (w : PsfWarn)
  deriving DecidableEq

/-- The warning about an existing file, /repo/src/zernpy/calculations/calc_psfs.py:813-815; before it `None.tolist()` raises for several polynomials without coefficients. -/
def PsfObj.existsWarning (fmt : NumberFormat) (o : PsfObj) (f : String) (overwrite : Bool) (d : Disk) : List FileWarn :=
  match o.document with
  | .error _ => []
  | .ok _ => if (d.file f (o.fileName fmt)).isSome && !overwrite then [.notOverwritten] else []

/-- The warnings of `save_json`, /repo/src/zernpy/zernpsf.py:569-589, with those of `save_psf`; a path given as `str` raises before. -/
def PsfObj.saveJsonWarnings (fmt : NumberFormat) (pl : Places) (o : PsfObj) (arg : PathArg) (overwrite : Bool) (d : Disk) : List FileWarn :=
  match saveFolder pl d arg with
  | .error _ => []
  | .ok f =>
    (if o.kernelSize = 1 then [.uncalculated] else []) ++
      if o.zernpol = none ∧ o.polynomials = [] then [] else o.existsWarning fmt f overwrite d

/-- The warnings after the loop of `read_json`, /repo/src/zernpy/zernpsf.py:647-653; if there are eight values but no value for one of the variables, the
`UnboundLocalError` is raised. -/
noncomputable def ReadState.warnings (r : ReadState) : List FileWarn :=
  if r.count = 8 then
    match r.na, r.wavelen, r.a, r.ps with
    | some na, some wl, some a, some ps => (r.obj.setPhysicalPropsWarnings na wl a ps).map .physical
    | _, _, _, _ => []
  else [.missingKeys]

/-- The warnings of `read_json`, /repo/src/zernpy/zernpsf.py:605-656, for the contents of the file (`none`: there is no such file). -/
noncomputable def PsfObj.readJsonWarnings (o : PsfObj) : Option (List JsonItem) → List FileWarn
  | none => [.noData]
  | some doc =>
    match readItems ⟨o, none, none, none, none, 0⟩ doc with
    | (.error _, _) => []
    | (.ok _, r) => r.warnings

end Verif.Model
