import Verif.Model.FloatPsf
import Verif.Spec.Float
import Verif.Spec.Zernike

/-!
# Specification: accuracy of the arithmetic of the PSF calculation
-/

namespace Verif.Spec
open Verif.Model

/-- What is assumed of the arithmetic, with the unit roundoff `u` and the smallest normal number `η`: relative errors `u` of the operations above `η`
and `u η` below, exact 0, functions to `(1+u)^p - 1`, about `p` units; `sum` adds the elements in any order (each partial sum is rounded once). -/
structure PsfAccurate (F : PsfArith) (u η : ℝ) (p : ℕ) : Prop where
  basic : Accurate F.toFloatArith u p
  small : u ≤ 1 / 10
  eta_pos : 0 < η
  eta_small : η ≤ 1 / 2 ^ 200
  fl : ∀ x, |F.fl x - x| ≤ u * max |x| η
  zero : F.fl 0 = 0
  pi : |F.pi - Real.pi| ≤ u * Real.pi
  expRe : ∀ x, |F.expRe x - Real.cos x| ≤ (1 + u) ^ p - 1
  expIm : ∀ x, |F.expIm x - Real.sin x| ≤ (1 + u) ^ p - 1
  sum : ∀ l : List ℝ, |F.sum l - l.sum| ≤ ((1 + u) ^ l.length - 1) * (l.map fun x => max |x| η).sum
  hypot : ∀ a b, |F.hypot a b - Real.sqrt (a ^ 2 + b ^ 2)| ≤ ((1 + u) ^ p - 1) * max (Real.sqrt (a ^ 2 + b ^ 2)) η
  sq : ∀ x, |F.sq x - x ^ 2| ≤ ((1 + u) ^ p - 1) * max (x ^ 2) η
  atan2 : ∀ y x, |F.atan2 y x - arctan2 y x| ≤ ((1 + u) ^ p - 1) * 4

/-- `s` is the result of adding the numbers of the list `l` in some order and some grouping (a binary tree of the depth `d`), each addition rounded. -/
inductive SumInSomeOrder (fl : ℝ → ℝ) : ℕ → List ℝ → ℝ → Prop
  | one (x : ℝ) : SumInSomeOrder fl 0 [x] x
  | add {d : ℕ} {l l' : List ℝ} {s s' : ℝ} : SumInSomeOrder fl d l s → SumInSomeOrder fl d l' s' → SumInSomeOrder fl (d + 1) (l ++ l') (fl (s + s'))
  | deeper {d : ℕ} {l : List ℝ} {s : ℝ} : SumInSomeOrder fl d l s → SumInSomeOrder fl (d + 1) l s
  | reorder {d : ℕ} {l l' : List ℝ} {s : ℝ} : l.Perm l' → SumInSomeOrder fl d l s → SumInSomeOrder fl d l' s

/-- A bound of the rounding errors of one Zernike polynomial, in units of `(1+u)^(4n+2p+15) - 1`. -/
noncomputable def zernikeSize (m n : Int) : ℝ := Spec.norm m n * (7 * max |(m : ℝ)| 1 + n) * growth n.toNat

/-- The bound of the error of a pixel: `K` roundings in the phase and the phase bounded by `S` (in the same units), `R` a bound of the distance of the pixel. -/
noncomputable def pixelError (u : ℝ) (p nR nPhi K : ℕ) (S R : ℝ) : ℝ :=
  (1 + u) ^ (4 * nR + 4 * nPhi + 7 * p + 104) * (1 + ((1 + u) ^ K - 1) * (S + 15 * R)) ^ 4 - 1

/-- Physical parameters for which no intermediate result underflows. -/
def FloatOptics (q : KernelParams) : Prop :=
  0 < q.wavelength ∧ 1 / 2 ^ 40 ≤ 2 * Real.pi / q.wavelength ∧ 1 / 2 ^ 40 ≤ q.NA ∧ 1 / 2 ^ 40 ≤ q.len2pixels

/-- The numbers of integration points; the number of radial nodes is right in the arithmetic, and they are on the pupil (C68). -/
def FloatPoints (F : PsfArith) (q : KernelParams) (nR nPhi : ℕ) : Prop :=
  q.nR = nR ∧ q.nPhi = nPhi ∧ 2 ≤ nR ∧ nR < 2 ^ 50 ∧ 5 ≤ nPhi ∧ nPhi < 2 ^ 50 ∧
    (radialNodes F.toFloatArith nR).length = nR - 1 ∧ ∀ x ∈ radialNodes F.toFloatArith nR, 0 ≤ x ∧ x ≤ 1

end Verif.Spec
