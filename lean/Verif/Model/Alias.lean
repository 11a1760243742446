import Verif.Model.PsfObj
import Verif.Model.Methods

/-!
# Model of object identity: which arrays are shared with the caller

Python passes references. Here arrays and lists are objects of a heap, and the model says which reference a method returns or stores. What the methods compute
is not modelled again: the contents are computed by the functions of Verif.Model.Radial, Verif.Model.Coeffs and Verif.Model.PsfObj.
-/

namespace Verif.Model

/-- The mutable objects of the process: one-dimensional arrays of numbers, lists of polynomials, two-dimensional arrays. No object has the identity
`next` or a larger one, objects created or stored at /repo/src/zernpy/zernikepol.py:472,/repo/src/zernpy/zernpsf.py:140,/repo/src/zernpy/zernpsf.py:215-230,/repo/src/zernpy/zernpsf.py:391-420. -/
structure PyHeap where
  vecs : ℕ → List ℝ
  lists : ℕ → List ZernPol
  mats : ℕ → Grid
  next : ℕ

/-- A new one-dimensional array, results of numpy operations, /repo/src/zernpy/calculations/calc_zernike_pol.py:107-205. -/
def PyHeap.newVec (h : PyHeap) (l : List ℝ) : PyHeap × ℕ := ({ h with vecs := Function.update h.vecs h.next l, next := h.next + 1 }, h.next)

/-- A new two-dimensional array, new kernels, /repo/src/zernpy/calculations/calc_psfs.py:401,/repo/src/zernpy/calculations/calc_psfs.py:652. -/
def PyHeap.newMat (h : PyHeap) (g : Grid) : PyHeap × ℕ := ({ h with mats := Function.update h.mats h.next g, next := h.next + 1 }, h.next)

/-! ## The evaluation methods -/

/-- A value during the evaluation: the elements of an array of `N` numbers, and whether it is the array object that was passed as an argument. Every
arithmetic operation, `numpy.power`, `numpy.ones` and `numpy.zeros` give a new array, values in /repo/src/zernpy/calculations/calc_zernike_pol.py:107-205 and /repo/src/zernpy/calculations/calc_zernike_pol.py:225-327. -/
structure Tracked (N : ℕ) where
  val : Fin N → ℝ
  isArg : Bool

namespace Tracked
variable {N : ℕ}
/-- An operation of `numpy` on tracked values (a new array), /repo/src/zernpy/calculations/calc_zernike_pol.py:107-205. -/
noncomputable instance : Zero (Tracked N) := ⟨⟨0, false⟩⟩
/-- An operation of `numpy` on tracked values (a new array), /repo/src/zernpy/calculations/calc_zernike_pol.py:107-205. -/
noncomputable instance : One (Tracked N) := ⟨⟨1, false⟩⟩
/-- An operation of `numpy` on tracked values (a new array), /repo/src/zernpy/calculations/calc_zernike_pol.py:107-205. -/
noncomputable instance : Add (Tracked N) := ⟨fun x y => ⟨x.val + y.val, false⟩⟩
/-- An operation of `numpy` on tracked values (a new array), /repo/src/zernpy/calculations/calc_zernike_pol.py:107-205. -/
noncomputable instance : Sub (Tracked N) := ⟨fun x y => ⟨x.val - y.val, false⟩⟩
/-- An operation of `numpy` on tracked values (a new array), /repo/src/zernpy/calculations/calc_zernike_pol.py:107-205. -/
noncomputable instance : Mul (Tracked N) := ⟨fun x y => ⟨x.val * y.val, false⟩⟩
/-- An operation of `numpy` on tracked values (a new array), /repo/src/zernpy/calculations/calc_zernike_pol.py:107-205. -/
noncomputable instance : NatCast (Tracked N) := ⟨fun k => ⟨k, false⟩⟩
/-- An operation of `numpy` on tracked values (a new array), /repo/src/zernpy/calculations/calc_zernike_pol.py:107-205. -/
noncomputable instance : IntCast (Tracked N) := ⟨fun k => ⟨k, false⟩⟩
/-- An operation of `numpy` on tracked values (a new array), /repo/src/zernpy/calculations/calc_zernike_pol.py:107-205. -/
noncomputable instance : Pow (Tracked N) ℕ := ⟨fun x k => ⟨x.val ^ k, false⟩⟩
/-- An operation of `numpy` on tracked values (a new array), /repo/src/zernpy/calculations/calc_zernike_pol.py:107-205. -/
noncomputable instance : OfRat (Tracked N) := ⟨fun q => ⟨fun _ => (q : ℝ), false⟩⟩
end Tracked

/-- The argument as a tracked value, /repo/src/zernpy/zernikepol.py:472-493. -/
def argOf (l : List ℝ) : Tracked l.length := ⟨fun i => l.get i, true⟩

/-- The object that is returned: the argument itself (identity `a`), or a new array, /repo/src/zernpy/zernikepol.py:472-493. -/
def PyHeap.give {N : ℕ} (h : PyHeap) (a : ℕ) (v : Tracked N) : PyHeap × ℕ := if v.isArg then (h, a) else h.newVec (List.ofFn v.val)

open Classical in
/-- `_check_radii` for an array, /repo/src/zernpy/zernikepol.py:1275-1287: an `ndarray` is returned as it is. -/
noncomputable def radiiFine (l : List ℝ) : Bool := decide (l ≠ [] ∧ ∀ x ∈ l, 0 ≤ x ∧ x ≤ 1)

/-- `ZernPol.radial` of the array with the identity `a`, /repo/src/zernpy/zernikepol.py:468-493: the heap and the identity of the returned array. -/
noncomputable def radialH (fuel : Nat) (m n : Int) (h : PyHeap) (a : ℕ) (exact : Bool) : CM (PyHeap × ℕ) :=
  if radiiFine (h.vecs a) then do
    let v ← radialValue fuel exact m n (argOf (h.vecs a))
    pure (h.give a v)
  else CM.raise .valueError

/-- `ZernPol.radial_dr`, /repo/src/zernpy/zernikepol.py:560-585. -/
noncomputable def radialDrH (fuel : Nat) (m n : Int) (h : PyHeap) (a : ℕ) (exact : Bool) : CM (PyHeap × ℕ) :=
  if radiiFine (h.vecs a) then do
    let v ← radialDrValue fuel exact m n (argOf (h.vecs a))
    pure (h.give a v)
  else CM.raise .valueError

/-- `ZernPol.polynomial_value` of the array with the identity `a` and the angle `theta`, /repo/src/zernpy/zernikepol.py:399-428: `nTr*radial(...)`. -/
noncomputable def polynomialH (fuel : Nat) (m n : Int) (h : PyHeap) (a : ℕ) (theta : ℝ) (exact : Bool) : CM (PyHeap × ℕ) :=
  if radiiFine (h.vecs a) then do
    if exact ∧ n > maxRadialOrderCoeffs then pure (h.give a (0 : Tracked (h.vecs a).length))
    else do
      let v ← radialValue fuel exact m n (argOf (h.vecs a))
      pure (h.give a (⟨fun _ => normalizationFactor m n * triangularFunction m theta, false⟩ * v))
  else CM.raise .valueError

/-! ## `ZernPSF` objects -/

/-- A `ZernPSF` object: the attributes that hold numbers (in `attrs`; its fields `kernel`, `polynomials`, `coefficients` are not used) and the references in
the attributes `kernel`, `polynomials` (`none`: the empty tuple of the class) and `coefficients`. `crop_kernel` makes `kernel` a view of an array: `margin`
is the number of lines that are left out on each side, the attributes at /repo/src/zernpy/zernpsf.py:71-85 and /repo/src/zernpy/zernpsf.py:109-148. -/
structure PsfRefs where
  attrs : PsfObj
  kernelAt : ℕ
  margin : ℕ
  polsAt : Option ℕ
  coeffAt : Option ℕ

/-- What the attributes of the object refer to now, the attributes at /repo/src/zernpy/zernpsf.py:71-85. -/
noncomputable def PsfRefs.view (o : PsfRefs) (h : PyHeap) : PsfObj :=
  { o.attrs with kernel := (h.mats o.kernelAt).inner o.margin, polynomials := (o.polsAt.map h.lists).getD [], coefficients := o.coeffAt.map h.vecs }

/-- `ZernPSF(list)` for a list object with the identity `a` that contains polynomials, /repo/src/zernpy/zernpsf.py:116-145: a list with two or more elements
is stored itself. The class attribute `kernel` is the array with the identity 0, shared by all objects. -/
noncomputable def psfInitH (h : PyHeap) (a : ℕ) : Res PsfRefs :=
  match psfInit (.seq ((h.lists a).map Operand.zern)) with
  | .error e => .error e
  | .ok o => .ok ⟨o, 0, 0, if (h.lists a).length = 1 then none else some a, none⟩

/-- The coefficients passed to `set_physical_props`: not an array, or the array with an identity, /repo/src/zernpy/zernpsf.py:205-237. -/
inductive CoeffObj where
  | value (c : CoeffArg)
  | array (a : ℕ)

/-- The numbers passed, /repo/src/zernpy/zernpsf.py:205-237. -/
def CoeffObj.arg (h : PyHeap) : CoeffObj → CoeffArg
  | .value c => c
  | .array a => .seq (h.vecs a)

open Classical in
/-- Line 219 of /repo/src/zernpy/zernpsf.py (`self.coefficients = np.asarray(expansion_coeff)`) is reached with the sequence `l`: the checks of the
lines 188-203 are passed and the lengths are the same. -/
noncomputable def PsfObj.storesSeq (o : PsfObj) (NA wl px : ℝ) (c : CoeffArg) : Bool :=
  match c with
  | .seq l => decide (¬ (NA < 0 ∨ NA > 1.7) ∧ ¬ wl ≤ 0 ∧ NA ≠ 0 ∧ ¬ px ≤ 0 ∧ ¬ px > 0.5 * 0.5 * wl / NA ∧ l.length = o.polynomials.length)
  | _ => false

/-- `np.asarray` of the argument: an array is not copied, /repo/src/zernpy/zernpsf.py:219. -/
def CoeffObj.asArray (h : PyHeap) : CoeffObj → PyHeap × ℕ
  | .array a => (h, a)
  | .value (.seq l) => h.newVec l
  | .value _ => (h, 0)

open Classical in
/-- The number of lines that `crop_kernel` removes on each side, /repo/src/zernpy/zernpsf.py:527-549. -/
noncomputable def PsfObj.cropStep (o : PsfObj) (part : ℝ) : ℕ :=
  if o.kernelSize > 3 ∧ ¬ part ≤ 0 ∧ ¬ part ≥ 0.5 then
    match npMax o.kernel.elems with
    | .error _ => 0
    | .ok top => ((cropSteps o.kernel (part * top) (o.kernel.rows + 1) 0).toOption).getD 0
  else 0

/-- What happens in the process: a call of a method of the object, or the caller writes into an array or changes a list (any object that exists), the methods at /repo/src/zernpy/zernpsf.py:151-549. -/
inductive HeapCall where
  | setPhysicalProps (NA wavelength : ℝ) (coeff : CoeffObj) (px : ℝ)
  | setCalculationProps (size nR nPhi : Int)
  | calculate (env : Env) (suppress normalized : Bool) (accelerated : Option Bool)
  | crop (part : ℝ)
  | writeVec (a : ℕ) (l : List ℝ)
  | writeList (a : ℕ) (l : List ZernPol)
  | writeMat (a : ℕ) (g : Grid)

/-- Whether it is a call of a method, the methods at /repo/src/zernpy/zernpsf.py:151-549. -/
def HeapCall.isMethod : HeapCall → Bool
  | .writeVec .. => false
  | .writeList .. => false
  | .writeMat .. => false
  | _ => true

/-- The state of the process: the heap, the object, the coefficient tables, /repo/src/zernpy/zernpsf.py:71-85 and the tables at /repo/src/zernpy/calculations/find_pols_coeffs.py:57-112. -/
structure HeapState where
  heap : PyHeap
  obj : PsfRefs
  tables : CoefState

open Classical in
/-- The state after a call; `calculate_psf_kernel` stores a new array, `crop_kernel` a view, /repo/src/zernpy/zernpsf.py:151-263,322-429,505-549. -/
noncomputable def HeapCall.run (x : HeapState) : HeapCall → HeapState
  | .setPhysicalProps NA wl c px =>
    let before := x.obj.view x.heap
    let after := (before.setPhysicalProps NA wl (c.arg x.heap) px).2
    if before.storesSeq NA wl px (c.arg x.heap) then
      let stored := c.asArray x.heap
      { x with heap := stored.1, obj := { x.obj with attrs := after, coeffAt := some stored.2 } }
    else { x with obj := { x.obj with attrs := after } }
  | .setCalculationProps size nR nPhi => { x with obj := { x.obj with attrs := ((x.obj.view x.heap).setCalculationProps size nR nPhi).2 } }
  | .calculate env suppress normalized accelerated =>
    let before := x.obj.view x.heap
    let out := before.calculate env suppress normalized accelerated x.tables
    match out.1, before.kernelCall env normalized accelerated with
    | .ok g, some _ =>
      let new := x.heap.newMat g
      { heap := new.1, obj := { x.obj with attrs := out.2.1, kernelAt := new.2, margin := 0 }, tables := out.2.2 }
    | _, _ => { x with obj := { x.obj with attrs := out.2.1 }, tables := out.2.2 }
  | .crop part =>
    let before := x.obj.view x.heap
    let after := (before.crop part).2
    { x with obj := { x.obj with attrs := after, margin := x.obj.margin + before.cropStep part } }
  | .writeVec a l => { x with heap := { x.heap with vecs := Function.update x.heap.vecs a l } }
  | .writeList a l => { x with heap := { x.heap with lists := Function.update x.heap.lists a l } }
  | .writeMat a g => { x with heap := { x.heap with mats := Function.update x.heap.mats a g } }

end Verif.Model
