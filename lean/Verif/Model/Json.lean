import Verif.Model.PsfObj

/-!
# Model of saving and reading of calibrations, `save_psf`, `read_psf` (`calc_psfs.py`), `save_json`, `read_json` (`zernpsf.py`)

A JSON document is the list of its entries; the text is in `JsonText` (numbers and lists survive it unchanged: Python writes
the shortest text that gives the same double). Warnings and printing are left out.
-/

namespace Verif.Model

/-- An entry of a document: the keys used by `save_psf`, /repo/src/zernpy/calculations/calc_psfs.py:805-812, with values of the types it writes, or
another key. -/
inductive JsonItem where
  | kernel (g : Grid)
  | na (x : ℝ)
  | wavelength (x : ℝ)
  | pixelSize (x : ℝ)
  | kernelSize (n : Int)
  | pointsR (n : Int)
  | pointsAngle (n : Int)
  | coefficient (x : ℝ)
  | amplitudes (l : List ℝ)
  | polynomial (osa : Int)
  | polynomials (osa : List Int)
  | unknown (key : String)

/-- The document written for an object, /repo/src/zernpy/calculations/calc_psfs.py:804-812 with the arguments from
/repo/src/zernpy/zernpsf.py:578-589. Several polynomials without coefficients: `None.tolist()` is an `AttributeError`. -/
def PsfObj.document (o : PsfObj) : Res (List JsonItem) :=
  let common := [.kernel o.kernel, .na o.NA, .wavelength o.wavelength, .pixelSize o.pixelSize, .kernelSize o.kernelSize, .pointsR o.nR,
    .pointsAngle o.nPhi]
  match o.zernpol with
  | some z => .ok (common ++ [.coefficient o.expansionCoeff, .polynomial z.osa])
  | none =>
    match o.coefficients with
    | none => .error .attributeError
    | some cs => .ok (common ++ [.amplitudes cs, .polynomials (o.polynomials.map ZernPol.osa)])

/-- How Python prints a number and an array, /repo/src/zernpy/calculations/calc_psfs.py:777-818. -/
structure NumberFormat where
  num : ℝ → String
  arr : Option (List ℝ) → String

/-- The name of the file, /repo/src/zernpy/calculations/calc_psfs.py:794-803 (without `additional_file_name`, which the class never gives). -/
def PsfObj.fileName (fmt : NumberFormat) (o : PsfObj) : String :=
  match o.zernpol with
  | some z => "psf_(" ++ toString z.m ++ ", " ++ toString z.n ++ ")_" ++ fmt.num o.expansionCoeff ++ ".json"
  | none => "psf_[" ++ ", ".intercalate (o.polynomials.map fun z => toString z.osa) ++ "]_" ++ fmt.arr o.coefficients ++ ".json"

/-- The file system: the folders and the documents in the files (folder, name), /repo/src/zernpy/calculations/calc_psfs.py:777-818. -/
structure Disk where
  isDir : String → Bool
  file : String → String → Option (List JsonItem)

/-- The argument `abs_path` of `save_json`, /repo/src/zernpy/zernpsf.py:569-589. -/
inductive PathArg where
  | none
  | path (p : String)
  | str (p : String)

/-- Where the files are stored: `own`: folder "saved_psfs" next to the path stored in the object; `cwd`: folder "saved_psfs" in the current
directory, /repo/src/zernpy/zernpsf.py:569-589,/repo/src/zernpy/calculations/calc_psfs.py:777-800. -/
structure Places where
  own : String
  cwd : String

/-- The folder, /repo/src/zernpy/zernpsf.py:569-574 and /repo/src/zernpy/calculations/calc_psfs.py:785-793. `Path.exists(abs_path)` with a `str` is an
`AttributeError` (for Python before 3.14). Simplification: a path that exists but is not a folder acts as a missing one (as in the code). -/
def saveFolder (pl : Places) (d : Disk) : PathArg → Res String
  | .none => .ok (if d.isDir pl.own then pl.own else pl.cwd)
  | .path p => .ok (if d.isDir p then p else pl.cwd)
  | .str _ => .error .attributeError

/-- Creation of the folder, /repo/src/zernpy/calculations/calc_psfs.py:787-788. -/
def Disk.mkdir (d : Disk) (f : String) : Disk := { d with isDir := Function.update d.isDir f true }

/-- Writing of a file, /repo/src/zernpy/calculations/calc_psfs.py:812-817. -/
def Disk.write (d : Disk) (f name : String) (doc : List JsonItem) : Disk :=
  { d with file := Function.update d.file f (Function.update (d.file f) name (some doc)) }

/-- `save_json`, /repo/src/zernpy/zernpsf.py:552-589, with `save_psf`, /repo/src/zernpy/calculations/calc_psfs.py:738-818: the stored path (`none` if there
is nothing to save) and the file system. -/
def PsfObj.saveJson (fmt : NumberFormat) (pl : Places) (o : PsfObj) (arg : PathArg) (overwrite : Bool) (d : Disk) :
    Res (Option (String × String)) × Disk :=
  match saveFolder pl d arg with
  | .error e => (.error e, d)
  | .ok f =>
    if o.zernpol = none ∧ o.polynomials = [] then (.ok none, d)
    else
      let d := d.mkdir f
      match o.document with
      | .error e => (.error e, d)
      | .ok doc =>
        if (d.file f (o.fileName fmt)).isSome && !overwrite then (.ok (some (f, o.fileName fmt)), d)
        else (.ok (some (f, o.fileName fmt)), d.write f (o.fileName fmt) doc)

/-- The variables of `read_json`, /repo/src/zernpy/zernpsf.py:611. -/
structure ReadState where
  obj : PsfObj
  na : Option ℝ
  wavelen : Option ℝ
  a : Option CoeffArg
  ps : Option ℝ
  count : Nat

/-- Polynomials from OSA indices, /repo/src/zernpy/zernpsf.py:644-645. -/
def polsOfOsa : List Int → Res (List ZernPol)
  | [] => .ok []
  | i :: rest => do
    let z ← zernPolInit [("osa", .int i)]
    let zs ← polsOfOsa rest
    pure (z :: zs)

/-- One entry, /repo/src/zernpy/zernpsf.py:612-646. If it raises, nothing was assigned. -/
def readItem (r : ReadState) : JsonItem → Res ReadState
  | .kernel g => .ok { r with obj := { r.obj with kernel := g }, count := r.count + 1 }
  | .kernelSize n => .ok { r with obj := { r.obj with kernelSize := n }, count := r.count + 1 }
  | .pointsR n => .ok { r with obj := { r.obj with nR := n }, count := r.count + 1 }
  | .pointsAngle n => .ok { r with obj := { r.obj with nPhi := n }, count := r.count + 1 }
  | .na x => .ok { r with na := some x, count := r.count + 1 }
  | .wavelength x => .ok { r with wavelen := some x, count := r.count + 1 }
  | .coefficient x => .ok { r with a := some (.num x), count := r.count + 1 }
  | .amplitudes l => .ok { r with a := some (.seq l), count := r.count + 1 }
  | .pixelSize x => .ok { r with ps := some x, count := r.count + 1 }
  | .polynomial i => do
    let z ← zernPolInit [("osa", .int i)]
    pure { r with obj := { r.obj with zernpol := some z } }
  | .polynomials [i] => do
    let z ← zernPolInit [("osa", .int i)]
    pure { r with obj := { r.obj with zernpol := some z, airy := decide (i = 0) } }
  | .polynomials l => do
    let zs ← polsOfOsa l
    pure { r with obj := { r.obj with polynomials := zs, zernpol := none, airy := false } }
  | .unknown _ => .ok r

/-- The loop over the entries, /repo/src/zernpy/zernpsf.py:605-656. -/
def readItems (r : ReadState) : List JsonItem → Res Unit × ReadState
  | [] => (.ok (), r)
  | x :: rest =>
    match readItem r x with
    | .error e => (.error e, r)
    | .ok r' => readItems r' rest

/-- `read_json`, /repo/src/zernpy/zernpsf.py:591-656, for the contents of the file (`none`: there is no such file); gives the object after the call. -/
noncomputable def PsfObj.readJson (o : PsfObj) : Option (List JsonItem) → Res Unit × PsfObj
  | none => (.ok (), o)
  | some doc =>
    match readItems ⟨o, none, none, none, none, 0⟩ doc with
    | (.error e, r) => (.error e, r.obj)
    | (.ok _, r) =>
      if r.count = 8 then
        match r.na, r.wavelen, r.a, r.ps with
        | some na, some wl, some a, some ps => r.obj.setPhysicalProps na wl a ps
        | _, _, _, _ => (.error .unboundLocalError, r.obj)
      else (.ok (), r.obj)

end Verif.Model
