import Verif.Model.FloatPsf
import Verif.Model.Convolve

/-!
# Model of the convolution in floating-point arithmetic

The pixels are converted to `float64` exactly (`float64` or integers below 2^53).
-/

namespace Verif.Model

/-- The loop `tmp += pixel*weight` of `scipy.ndimage.convolve` over the weights and pixels, starting from 0, used at /repo/src/zernpy/calculations/calc_psfs.py:727. -/
def fltDot (fl : ℝ → ℝ) (l : List (ℝ × ℝ)) : ℝ := l.foldl (fun s p => fl (s + fl (p.1 * p.2))) 0

/-- All weights of the kernel with the pixels they are multiplied with, in the order of the loop: `convolve` reverses the kernel, used at /repo/src/zernpy/calculations/calc_psfs.py:727. -/
def fltAllTerms (img kernel : Grid) (i j : Nat) : List (ℝ × ℝ) :=
  (List.range kernel.rows).reverse.flatMap fun a => (List.range kernel.cols).reverse.map fun b =>
    (kernel.entry a b, img.entry (reflectIndex img.rows ((i : Int) + (kernel.rows / 2 : Nat) - a)) (reflectIndex img.cols ((j : Int) + (kernel.cols / 2 : Nat) - b)))

open Classical in
/-- The terms that are added: `scipy` leaves out weights up to `DBL_EPSILON` = 2^-52, used at /repo/src/zernpy/calculations/calc_psfs.py:727. -/
noncomputable def fltTerms (img kernel : Grid) (i j : Nat) : List (ℝ × ℝ) := (fltAllTerms img kernel i j).filter fun p => |p.1| > 2⁻¹ ^ 52

/-- `scipy.ndimage.convolve(img, kernel, mode='reflect')`, used at /repo/src/zernpy/calculations/calc_psfs.py:727, in the arithmetic `F`. -/
noncomputable def fltNdConvolve (F : PsfArith) (img kernel : Grid) : Grid := ⟨img.rows, img.cols, fun i j => fltDot F.fl (fltTerms img kernel i j)⟩

open Classical in
/-- The convolved image divided by the sum of the kernel, /repo/src/zernpy/calculations/calc_psfs.py:727-729, in the arithmetic `F`. -/
noncomputable def fltBlurred (F : PsfArith) (img kernel : Grid) : Grid :=
  if F.sum kernel.elems > 0 then (fltNdConvolve F img kernel).map (fun x => F.fl (x / F.sum kernel.elems)) else fltNdConvolve F img kernel

open Classical in
/-- `convolute_img_psf`, /repo/src/zernpy/calculations/calc_psfs.py:709-734, in the arithmetic `F`. -/
noncomputable def fltConvoluteImg (F : PsfArith) (overflow : ℝ → ℝ) (dtype : DType) (img kernel : Grid) (scale2original : Bool) : Res (Option Grid) :=
  let conv := fltBlurred F img kernel
  if scale2original then
    match npMax img.elems with
    | .error e => .error e
    | .ok maxImg =>
      match npMax conv.elems with
      | .error e => .error e
      | .ok maxConv =>
        if maxConv = 0 then .ok none
        else .ok (some ((conv.map fun x => F.fl (x * F.fl (maxImg / maxConv))).map (dtype.cast overflow)))
  else .ok (some (conv.map (dtype.cast overflow)))

end Verif.Model
