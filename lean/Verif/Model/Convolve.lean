import Verif.Model.PsfObj

/-!
# Model of the convolution with a kernel and of the sample image, `calculations/calc_psfs.py`
-/

namespace Verif.Model

/-- The pixel that `scipy.ndimage` takes for the index `i` along an axis of length `n` with `mode='reflect'`
(`d c b a | a b c d | d c b a`), used at /repo/src/zernpy/calculations/calc_psfs.py:727. -/
def reflectIndex (n : Nat) (i : Int) : Nat :=
  let r := (i % (2 * n : Nat)).toNat
  if r < n then r else 2 * n - 1 - r

/-- `scipy.ndimage.convolve(img, kernel, mode='reflect')` of 2D arrays: the anchor of the kernel is its element `(rows // 2, cols // 2)`, used at /repo/src/zernpy/calculations/calc_psfs.py:727. -/
noncomputable def ndConvolve (img kernel : Grid) : Grid :=
  ⟨img.rows, img.cols, fun i j => ∑ a ∈ Finset.range kernel.rows, ∑ b ∈ Finset.range kernel.cols,
    kernel.entry a b * img.entry (reflectIndex img.rows ((i : Int) + (kernel.rows / 2 : Nat) - a))
      (reflectIndex img.cols ((j : Int) + (kernel.cols / 2 : Nat) - b))⟩

/-- `numpy.sum`, used at /repo/src/zernpy/calculations/calc_psfs.py:727. -/
noncomputable def Grid.sum (g : Grid) : ℝ := ∑ a ∈ Finset.range g.rows, ∑ b ∈ Finset.range g.cols, g.entry a b

/-- The type of the elements of an image: floating-point numbers, or integers in a range, /repo/src/zernpy/calculations/calc_psfs.py:726,/repo/src/zernpy/calculations/calc_psfs.py:866-869. -/
inductive DType where
  | float
  | int (lo hi : Int)

/-- The conversion by `astype`: integers are truncated towards 0; what happens outside of the range is left open (`overflow`), /repo/src/zernpy/calculations/calc_psfs.py:733. -/
noncomputable def DType.cast (overflow : ℝ → ℝ) : DType → ℝ → ℝ
  | .float, x => x
  | .int lo hi, x =>
    let t : Int := if 0 ≤ x then ⌊x⌋ else ⌈x⌉
    if lo ≤ t ∧ t ≤ hi then t else overflow x

/-- Application of a function to all elements, /repo/src/zernpy/calculations/calc_psfs.py:729-733. -/
def Grid.map (g : Grid) (f : ℝ → ℝ) : Grid := ⟨g.rows, g.cols, fun i j => f (g.entry i j)⟩

open Classical in
/-- `convolute_img_psf`, /repo/src/zernpy/calculations/calc_psfs.py:709-734, for 2D images and kernels. `none` instead of an array if the
division by the maximum 0 gives `inf` and `nan`. The arithmetic is exact. -/
noncomputable def convoluteImgPsf (overflow : ℝ → ℝ) (dtype : DType) (img kernel : Grid) (scale2original : Bool) : Res (Option Grid) :=
  let conv := ndConvolve img kernel
  let coeff := kernel.sum
  let conv := if coeff > 0 then conv.map (· / coeff) else conv
  if scale2original then
    match npMax img.elems with
    | .error e => .error e
    | .ok maxImg =>
      match npMax conv.elems with
      | .error e => .error e
      | .ok maxConv =>
        if maxConv = 0 then .ok none
        else .ok (some ((conv.map (· * (maxImg / maxConv))).map (dtype.cast overflow)))
  else .ok (some (conv.map (dtype.cast overflow)))

/-- `ZernPSF.convolute_img`, /repo/src/zernpy/zernpsf.py:462-479. -/
noncomputable def PsfObj.convoluteImg (overflow : ℝ → ℝ) (o : PsfObj) (dtype : DType) (img : Grid) (scale2original : Bool := true) : Res (Option Grid) :=
  convoluteImgPsf overflow dtype img o.kernel scale2original

/-- The radius used, /repo/src/zernpy/calculations/calc_psfs.py:862-863. -/
noncomputable def bumpRadius (radius : ℝ) : ℝ := open Classical in if radius < 1 then 1 else radius

/-- The image size `4*int(round(radius, 0)) + 1`, /repo/src/zernpy/calculations/calc_psfs.py:864; the radius is at least 1. -/
noncomputable def bumpSize (radius : ℝ) : Nat := (4 * rint (bumpRadius radius) + 1).toNat

/-- The distance of a pixel from the centre, /repo/src/zernpy/calculations/calc_psfs.py:864,874. -/
noncomputable def bumpDistance (size i j : Nat) : ℝ :=
  npRound 6 (Real.sqrt (((i : ℝ) - (size / 2 : Nat)) ^ 2 + ((j : ℝ) - (size / 2 : Nat)) ^ 2))

open Classical in
/-- The relative intensity at a distance, /repo/src/zernpy/calculations/calc_psfs.py:871,875-882 (`e` is the base of the natural logarithm);
`r` is the radius (at least 1). -/
noncomputable def bumpValue (r distance : ℝ) : ℝ :=
  if distance < npRound 6 (0.25 * r) then 1
  else if distance < r * (1 + 0.25) then
    let x := distance / (r + 0.25)
    let b := (1 + 0.25 : ℝ) ^ 8
    Real.exp 1 * Real.exp (b / (x ^ 8 - b))
  else 0

open Classical in
/-- `get_bumped_circle`, /repo/src/zernpy/calculations/calc_psfs.py:844-888. `overflow` is what `numpy` stores for an integer out of the range
of `uint8` / `uint16`. -/
noncomputable def getBumpedCircle (overflow : Int → ℝ) (radius : ℝ) (maxIntensity : Int) : Grid :=
  let size := bumpSize radius
  let hi : Int := if maxIntensity ≤ 255 then 255 else 65535
  ⟨size, size, fun i j =>
    let v := bumpValue (bumpRadius radius) (bumpDistance size i j) * maxIntensity
    if v > 0 then (if rint v ≤ hi then (rint v : ℝ) else overflow (rint v)) else 0⟩

end Verif.Model
