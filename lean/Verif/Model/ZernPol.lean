import Verif.Model.Index

/-!
# Model of the `ZernPol` object: constructor, getters, comparison, enumeration
-/

namespace Verif.Model

/-- The state of a constructed `ZernPol`: orders and indices
(/repo/src/zernpy/zernikepol.py:47-49). The Fringe index keeps its Python type: it is the
`int` given by the user or the `numpy.int64` computed by `get_fringe_index`. -/
structure ZernPol where
  m : Int
  n : Int
  osa : Int
  noll : Int
  fringe : PyVal
  deriving DecidableEq, Repr

/-- Numerical value of a Python number used in `==` (None: not a number), /repo/src/zernpy/zernikepol.py:345-349. -/
def PyVal.num? : PyVal → Option Int
  | .int i => some i
  | .bool b => some (if b then 1 else 0)
  | .npInt64 i => some i
  | .other _ => none

/-- A keyword-argument dictionary (insertion ordered, distinct keys), /repo/src/zernpy/zernikepol.py:53,/repo/src/zernpy/zernikepol.py:86. -/
abbrev Kwargs := List (String × PyVal)

/-- `key in kwargs.keys()`, /repo/src/zernpy/zernikepol.py:86-213. -/
def Kwargs.has (kw : Kwargs) (k : String) : Bool := (kw.lookup k).isSome

/-- `kwargs.get(key)`; a missing key gives `None`, /repo/src/zernpy/zernikepol.py:86-213. -/
def Kwargs.get (kw : Kwargs) (k : String) : PyVal := (kw.lookup k).getD (.other "None")

/-- The branch for the orders, /repo/src/zernpy/zernikepol.py:90-145 (2 keywords given).
`none` means "not initialized" (the code falls through to the final check).
A `bool` given as `m` passes the checks, but `np.sign` (in `get_fringe_index`) has no loop for booleans and
raises `TypeError`. A `bool` given as `n` acts as 0 or 1. -/
def initOrders (kw : Kwargs) : Res (Option ZernPol) :=
  if kw.has "n" || kw.has "radial_order" then
    let key := if kw.has "n" then "n" else "radial_order"
    match (kw.get key).isInt? with
    | none => .error .valueError
    | some n =>
      if kw.has "m" || kw.has "l" || kw.has "azimuthal_order" || kw.has "angular_frequency" then
        let key := if kw.has "m" then "m" else if kw.has "l" then "l"
          else if kw.has "azimuthal_order" then "azimuthal_order" else "angular_frequency"
        match (kw.get key).isInt? with
        | none => .error .valueError
        | some m =>
          if ¬ ((n - pyAbs m) % 2 = 0) then .error .valueError
          else if n < 0 then .error .valueError
          else if n = 0 ∧ m ≠ 0 then .error .valueError
          else if n > 54 then .error .valueError
          else match kw.get key with
            | .bool _ => .error .typeError
            | _ => .ok (some ⟨m, n, getOsaIndex m n, getNollIndex m n, getFringeIndexPy m n⟩)
      else .ok none
  else .ok none

/-- The branch for the indices, /repo/src/zernpy/zernikepol.py:146-213 (1 keyword given). Note that for an OSA
index above 1539 and a Noll index above 1540 the `ValueError` is constructed but not raised (lines 164, 189):
the object stays uninitialized. -/
def initIndex (kw : Kwargs) : Res (Option ZernPol) :=
  if kw.has "osa_index" || kw.has "osa" || kw.has "ansi_index" || kw.has "ansi" then
    let key := if kw.has "osa_index" then "osa_index" else if kw.has "osa" then "osa"
      else if kw.has "ansi_index" then "ansi_index" else "ansi"
    match (kw.get key).isInt? with
    | none => .error .valueError
    | some i =>
      if i < 0 then .error .valueError
      else if i > 1539 then .ok none
      else
        let p := index2orders (some i) none none
        .ok (some ⟨p.1, p.2, i, getNollIndex p.1 p.2, getFringeIndexPy p.1 p.2⟩)
  else if kw.has "noll_index" || kw.has "noll" then
    let key := if kw.has "noll_index" then "noll_index" else "noll"
    match (kw.get key).isInt? with
    | none => .error .valueError
    | some i =>
      if i < 1 then .error .valueError
      else if i > 1540 then .ok none
      else
        let p := index2orders none (some i) none
        .ok (some ⟨p.1, p.2, getOsaIndex p.1 p.2, i, getFringeIndexPy p.1 p.2⟩)
  else if kw.has "fringe_index" || kw.has "fringe" then
    let key := if kw.has "fringe_index" then "fringe_index" else "fringe"
    match (kw.get key).isInt? with
    | none => .error .valueError
    | some i =>
      if i < 1 then .error .valueError
      else
        let p := index2orders none none (some i)
        if p.2 > 54 then .error .valueError
        else .ok (some ⟨p.1, p.2, getOsaIndex p.1 p.2, getNollIndex p.1 p.2, .int i⟩)
  else .ok none

/-- `ZernPol.__init__`, /repo/src/zernpy/zernikepol.py:53-227. Not modelled: the warning strings (219-227), and calling
`__init__` a second time on an initialized object. -/
def zernPolInit (kw : Kwargs) : Res ZernPol :=
  let r : Res (Option ZernPol) :=
    if kw.length = 2 then initOrders kw
    else if kw.length = 1 then initIndex kw
    else .error .valueError
  match r with
  | .error e => .error e
  | .ok none => .error .valueError
  | .ok (some z) => .ok z

/-- A Python object given to a comparison, /repo/src/zernpy/zernikepol.py:320-349. -/
inductive Operand where
  | zern (z : ZernPol)
  | other

/-- `ZernPol.get_indices`, /repo/src/zernpy/zernikepol.py:229-239. -/
def ZernPol.getIndices (z : ZernPol) : (Int × Int) × Int × Int × PyVal := ((z.m, z.n), z.osa, z.noll, z.fringe)

/-- `ZernPol.get_mn_orders`, /repo/src/zernpy/zernikepol.py:241-251. -/
def ZernPol.getMnOrders (z : ZernPol) : Int × Int := (z.m, z.n)

/-- `ZernPol.__gt__`, /repo/src/zernpy/zernikepol.py:300-323. -/
def ZernPol.gt (z : ZernPol) : Operand → Res Bool
  | .zern w => .ok (decide (z.osa > w.osa))
  | .other => .error .valueError

/-- `ZernPol.__eq__`, /repo/src/zernpy/zernikepol.py:325-349. -/
def ZernPol.eq (z : ZernPol) : Operand → Res Bool
  | .zern w => .ok (z.osa == w.osa && z.m == w.m && z.n == w.n && z.noll == w.noll
      && z.fringe.num? == w.fringe.num?)
  | .other => .error .valueError

/-- `polynomial_names`, /repo/src/zernpy/props/properties.py:16-33. -/
def polynomialNames : List ((Int × Int) × String) := [
  ((0, 0), "Piston"),
  ((-1, 1), "Vertical tilt"),
  ((1, 1), "Horizontal tilt"),
  ((-2, 2), "Oblique astigmatism"),
  ((0, 2), "Defocus"),
  ((2, 2), "Vertical astigmatism"),
  ((-3, 3), "Vertical trefoil"),
  ((-1, 3), "Vertical coma"),
  ((1, 3), "Horizontal coma"),
  ((3, 3), "Oblique trefoil"),
  ((-4, 4), "Oblique quadrafoil"),
  ((-2, 4), "Oblique secondary astigmatism"),
  ((0, 4), "Primary spherical"),
  ((2, 4), "Vertical secondary astigmatism"),
  ((4, 4), "Vertical quadrafoil"),
  ((-5, 5), "Vertical pentafoil"),
  ((-3, 5), "Vertical secondary trefoil"),
  ((-1, 5), "Vertical secondary coma"),
  ((1, 5), "Horizontal secondary coma"),
  ((3, 5), "Oblique secondary trefoil"),
  ((5, 5), "Oblique pentafoil"),
  ((-6, 6), "Oblique sexfoil"),
  ((-4, 6), "Oblique secondary quadrafoil"),
  ((-2, 6), "Oblique thirdly astigmatism"),
  ((0, 6), "Secondary spherical"),
  ((2, 6), "Vertical thirdly astigmatism"),
  ((4, 6), "Vertical secondary quadrafoil"),
  ((6, 6), "Vertical sexfoil"),
  ((-7, 7), "Vertical septfoil"),
  ((-5, 7), "Vertical secondary pentafoil"),
  ((-3, 7), "Vertical thirdly trefoil"),
  ((-1, 7), "Vertical thirdly coma"),
  ((1, 7), "Horizontal thirdly coma"),
  ((3, 7), "Oblique thirdly trefoil"),
  ((5, 7), "Oblique secondary pentafoil"),
  ((7, 7), "Oblique septfoil")]

/-- `short_polynomial_names`, /repo/src/zernpy/props/properties.py:35-51. -/
def shortPolynomialNames : List ((Int × Int) × String) := [
  ((0, 0), "Piston"),
  ((-1, 1), "Vert. tilt"),
  ((1, 1), "Hor. tilt"),
  ((-2, 2), "Obliq. astigm."),
  ((0, 2), "Defocus"),
  ((2, 2), "Vert. astigm."),
  ((-3, 3), "Vert. 3foil"),
  ((-1, 3), "Vert. coma"),
  ((1, 3), "Hor. coma"),
  ((3, 3), "Obliq. 3foil"),
  ((-4, 4), "Obliq. 4foil"),
  ((-2, 4), "Obliq. 2d ast."),
  ((0, 4), "Spherical"),
  ((2, 4), "Vert. 2d ast."),
  ((4, 4), "Vert. 4foil"),
  ((-5, 5), "Vert. 5foil"),
  ((-3, 5), "Vert. 2d 3foil"),
  ((-1, 5), "Vert. 2d coma"),
  ((1, 5), "Hor. 2d coma"),
  ((3, 5), "Obliq. 2d 3foil"),
  ((5, 5), "Obliq. 5foil"),
  ((-6, 6), "Obliq. 6foil"),
  ((-4, 6), "Obliq.2d 4foil"),
  ((-2, 6), "Obliq. 3d ast."),
  ((0, 6), "2d spherical"),
  ((2, 6), "Vert. 3d ast."),
  ((4, 6), "Vert. 2d 4foil"),
  ((6, 6), "Vert. 6foil"),
  ((-7, 7), "Vert. 7foil"),
  ((-5, 7), "Vert. 2d 5foil"),
  ((-3, 7), "Vert. 3d 3foil"),
  ((-1, 7), "Vert. 3d coma"),
  ((1, 7), "Hor. 3d coma"),
  ((3, 7), "Obliq.3d 3foil"),
  ((5, 7), "Obliq.2d 5foil"),
  ((7, 7), "Obliq. 7foil")]

/-- `ZernPol.get_polynomial_name`, /repo/src/zernpy/zernikepol.py:253-281. -/
def ZernPol.getPolynomialName (z : ZernPol) (short : Bool := false) : String :=
  if short then (shortPolynomialNames.lookup (z.m, z.n)).getD ""
  else (polynomialNames.lookup (z.m, z.n)).getD ""

/-- Printing of an integer of any type in an f-string, /repo/src/zernpy/zernikepol.py:293-298. -/
def PyVal.show : PyVal → String
  | .int i => toString i
  | .bool b => if b then "True" else "False"
  | .npInt64 i => toString i
  | .other s => s

/-- `ZernPol.__str__`, /repo/src/zernpy/zernikepol.py:283-298. -/
def ZernPol.str (z : ZernPol) : String :=
  let name := z.getPolynomialName
  let sig := ": n=" ++ toString z.n ++ ", m=" ++ toString z.m ++ ", OSA=" ++ toString z.osa ++
    ", Noll=" ++ toString z.noll ++ ", Fringe=" ++ z.fringe.show
  if name.length > 0 then name ++ sig else "Zernike polynomial"

/-- Inner loop of `generate_polynomials`, /repo/src/zernpy/zernikepol.py:1370-1372. -/
def genInner (n : Int) : Nat → Int → List ZernPol → Res (List ZernPol)
  | 0, _, acc => .ok acc
  | k + 1, m, acc =>
    match zernPolInit [("azimuthal_order", .int m), ("radial_order", .int n)] with
    | .error e => .error e
    | .ok z => genInner n k (m + 2) (acc ++ [z])

/-- Outer loop of `generate_polynomials`, /repo/src/zernpy/zernikepol.py:1367-1372. -/
def genOuter : Nat → Nat → List ZernPol → Res (List ZernPol)
  | 0, _, acc => .ok acc
  | k + 1, order, acc =>
    match genInner order (order + 1) (-(order : Int)) acc with
    | .error e => .error e
    | .ok acc' => genOuter k (order + 1) acc'

/-- `generate_polynomials`, /repo/src/zernpy/zernikepol.py:1336-1373, on an integer `max_order`.
Other arguments: Verif.Model.Generate. -/
def generatePolynomials (maxOrder : Int) : Res (List ZernPol) :=
  if maxOrder < 0 then .error .valueError
  else match zernPolInit [("m", .int 0), ("n", .int 0)] with
    | .error e => .error e
    | .ok z => genOuter maxOrder.toNat 1 [z]

end Verif.Model
