import Verif.Model.Methods

/-!
# The evaluation functions respect every relation that the operations respect

The functions of Verif.Model.Radial and Verif.Model.Coeffs only use the operations of the type of numbers, and their branches only depend on the orders.
-/

namespace Verif.Proofs
open Verif.Model

/-- A relation between two types of numbers that the operations respect. -/
structure NumRel (α β : Type) [Zero α] [One α] [Add α] [Sub α] [Mul α] [NatCast α] [IntCast α] [Pow α ℕ] [OfRat α]
    [Zero β] [One β] [Add β] [Sub β] [Mul β] [NatCast β] [IntCast β] [Pow β ℕ] [OfRat β] where
  R : α → β → Prop
  zero : R 0 0
  one : R 1 1
  add : ∀ {a b c d}, R a b → R c d → R (a + c) (b + d)
  sub : ∀ {a b c d}, R a b → R c d → R (a - c) (b - d)
  mul : ∀ {a b c d}, R a b → R c d → R (a * c) (b * d)
  pow : ∀ {a b}, R a b → ∀ k : ℕ, R (a ^ k) (b ^ k)
  nat : ∀ k : ℕ, R (k : α) (k : β)
  int : ∀ k : ℤ, R (k : α) (k : β)
  rat : ∀ q : ℚ, R (OfRat.ofRat q) (OfRat.ofRat q)

/-- The results are the same exception, or related values. -/
def ResRel {α β : Type} (R : α → β → Prop) : Res α → Res β → Prop
  | .ok x, .ok y => R x y
  | .error e, .error e' => e = e'
  | _, _ => False

/-- The results are related, and the tables are the same. -/
def CMRel {α β : Type} (R : α → β → Prop) (x : CM α) (y : CM β) : Prop := ∀ s, ResRel R (x s).1 (y s).1 ∧ (x s).2 = (y s).2

theorem ResRel.bind {α β γ δ : Type} {R : α → β → Prop} {S : γ → δ → Prop} {x : Res α} {y : Res β} {f : α → Res γ} {g : β → Res δ}
    (h : ResRel R x y) (hf : ∀ a b, R a b → ResRel S (f a) (g b)) : ResRel S (x >>= f) (y >>= g) := by
  cases x <;> cases y <;> first | exact h.elim | exact h | exact hf _ _ h

theorem CMRel.bind {α β γ δ : Type} {R : α → β → Prop} {S : γ → δ → Prop} {x : CM α} {y : CM β} {f : α → CM γ} {g : β → CM δ}
    (h : CMRel R x y) (hf : ∀ a b, R a b → CMRel S (f a) (g b)) : CMRel S (x >>= f) (y >>= g) := by
  intro s
  obtain ⟨h1, h2⟩ := h s
  show ResRel S ((match x s with | (.ok v, s') => f v s' | (.error e, s') => (.error e, s') : Res γ × CoefState)).1
      ((match y s with | (.ok v, s') => g v s' | (.error e, s') => (.error e, s') : Res δ × CoefState)).1 ∧
    ((match x s with | (.ok v, s') => f v s' | (.error e, s') => (.error e, s') : Res γ × CoefState)).2 =
      ((match y s with | (.ok v, s') => g v s' | (.error e, s') => (.error e, s') : Res δ × CoefState)).2
  rcases hx : x s with ⟨a, sa⟩
  rcases hy : y s with ⟨b, sb⟩
  rw [hx, hy] at h1 h2
  obtain rfl : sa = sb := h2
  cases a <;> cases b
  · exact ⟨h1, rfl⟩
  · exact h1.elim
  · exact h1.elim
  · exact hf _ _ h1 sa

theorem CMRel.pure {α β : Type} {R : α → β → Prop} {a : α} {b : β} (h : R a b) : CMRel R (Pure.pure a) (Pure.pure b) := fun _ => ⟨h, rfl⟩

theorem CMRel.lift {α β : Type} {R : α → β → Prop} {a : Res α} {b : Res β} (h : ResRel R a b) : CMRel R (CM.lift a) (CM.lift b) :=
  fun _ => ⟨h, rfl⟩

theorem CMRel.refl {α : Type} (x : CM α) : CMRel Eq x x := by
  intro s
  refine ⟨?_, rfl⟩
  cases (x s).1 <;> rfl

theorem CMRel.raise {α β : Type} {R : α → β → Prop} (e : PyErr) : CMRel R (CM.raise e) (CM.raise e) := fun _ => ⟨rfl, rfl⟩

/-- Both absent, or both present and related. -/
def OptRel {α β : Type} (R : α → β → Prop) : Option α → Option β → Prop
  | some x, some y => R x y
  | none, none => True
  | _, _ => False

theorem OptRel.ite {α β : Type} {R : α → β → Prop} {p : Prop} [Decidable p] {a c : Option α} {b d : Option β} (h : OptRel R a b)
    (h' : OptRel R c d) : OptRel R (if p then a else c) (if p then b else d) := by by_cases hp : p <;> simp [hp, h, h']

theorem ResRel.ite {α β : Type} {R : α → β → Prop} {p : Prop} [Decidable p] {a c : Res α} {b d : Res β} (h : ResRel R a b)
    (h' : ResRel R c d) : ResRel R (if p then a else c) (if p then b else d) := by by_cases hp : p <;> simp [hp, h, h']

theorem CMRel.ite {α β : Type} {R : α → β → Prop} {p : Prop} [Decidable p] {a c : CM α} {b d : CM β} (h : CMRel R a b)
    (h' : CMRel R c d) : CMRel R (if p then a else c) (if p then b else d) := by by_cases hp : p <;> simp [hp, h, h']

section
variable {α β : Type} [Zero α] [One α] [Add α] [Sub α] [Mul α] [NatCast α] [IntCast α] [Pow α ℕ] [OfRat α]
    [Zero β] [One β] [Add β] [Sub β] [Mul β] [NatCast β] [IntCast β] [Pow β ℕ] [OfRat β] (K : NumRel α β)

theorem NumRel.num (k : ℕ) [k.AtLeastTwo] : K.R (OfNat.ofNat k : α) (OfNat.ofNat k : β) := K.nat k

theorem radialTable_rel {r : α} {r' : β} (h : K.R r r') (m n : Int) : OptRel K.R (radialTable m n r) (radialTable m n r') := by
  unfold radialTable
  repeat' (first
    | exact K.one
    | exact h
    | exact K.pow h _
    | exact K.num _
    | exact trivial
    | refine OptRel.ite ?_ ?_
    | refine K.add ?_ ?_
    | refine K.sub ?_ ?_
    | refine K.mul ?_ ?_)

theorem radialDerivTable_rel {r : α} {r' : β} (h : K.R r r') (m n : Int) : OptRel K.R (radialDerivTable m n r) (radialDerivTable m n r') := by
  unfold radialDerivTable
  repeat' (first
    | exact K.one
    | exact K.zero
    | exact h
    | exact K.pow h _
    | exact K.num _
    | exact trivial
    | refine OptRel.ite ?_ ?_
    | refine K.add ?_ ?_
    | refine K.sub ?_ ?_
    | refine K.mul ?_ ?_)

theorem radialPolynomial_rel {r : α} {r' : β} (h : K.R r r') (fuel : Nat) (m n : Int) :
    ResRel K.R (radialPolynomial fuel m n r) (radialPolynomial fuel m n r') := by
  induction fuel generalizing m n with
  | zero => exact rfl
  | succ fuel ih =>
    unfold radialPolynomial
    have ht := radialTable_rel K h m n
    revert ht
    cases radialTable m n r <;> cases radialTable m n r' <;> intro ht
    · refine ResRel.ite (K.pow h _) (ResRel.ite ?_ (ResRel.ite ?_ ?_))
      · exact (ih 1 (n - 1)).bind fun _ _ a => (ih 0 (n - 2)).bind fun _ _ b => K.sub (K.mul (K.mul (K.num 2) h) a) b
      · exact K.sub (K.mul (K.int _) (K.pow h _)) (K.mul (K.int _) (K.pow h _))
      · exact (ih _ _).bind fun _ _ a => (ih _ _).bind fun _ _ b => (ih _ _).bind fun _ _ c => K.sub (K.mul h (K.add a b)) c
    · exact ht.elim
    · exact ht.elim
    · exact ht

theorem radialDerivative_rel {r : α} {r' : β} (h : K.R r r') (fuel : Nat) (m n : Int) :
    ResRel K.R (radialDerivative fuel m n r) (radialDerivative fuel m n r') := by
  induction fuel generalizing m n with
  | zero => exact rfl
  | succ fuel ih =>
    have ih' := radialPolynomial_rel K h fuel
    unfold radialDerivative
    have ht := radialDerivTable_rel K h m n
    revert ht
    cases radialDerivTable m n r <;> cases radialDerivTable m n r' <;> intro ht
    · refine ResRel.ite (K.mul (K.int _) (K.pow h _)) (ResRel.ite ?_ (ResRel.ite ?_ ?_))
      · exact K.sub (K.mul (K.mul (K.int _) (K.int _)) (K.pow h _)) (K.mul (K.mul (K.int _) (K.int _)) (K.pow h _))
      · exact (ih' _ _).bind fun _ _ a => (ih _ _).bind fun _ _ b => (ih _ _).bind fun _ _ c =>
          K.sub (K.mul (K.num 2) (K.add a (K.mul h b))) c
      · exact (ih' _ _).bind fun _ _ a => (ih' _ _).bind fun _ _ b => (ih _ _).bind fun _ _ c => (ih _ _).bind fun _ _ d =>
          (ih _ _).bind fun _ _ e => K.sub (K.add (K.add a b) (K.mul h (K.add c d))) e
    · exact ht.elim
    · exact ht.elim
    · exact ht

theorem ResRel.refl {γ : Type} (x : Res γ) : ResRel Eq x x := by cases x <;> rfl

theorem radialEqLoop_rel {r : α} {r' : β} (h : K.R r r') (m n : Int) (j : Nat) (k : Int) (v : α) (v' : β) (hv : K.R v v') :
    ResRel K.R (radialEqLoop m n r j k v) (radialEqLoop m n r' j k v') := by
  induction j generalizing k v v' with
  | zero => exact hv
  | succ j ih =>
    unfold radialEqLoop
    refine (ResRel.refl _).bind fun a _ e => e ▸ (ResRel.refl _).bind fun b _ e => e ▸ (ResRel.refl _).bind fun c _ e => e ▸
      (ResRel.refl _).bind fun d _ e => e ▸ ih _ _ _ (K.add hv (K.mul (K.int _) (K.mul (K.rat _) (K.pow h _))))

theorem radialPolynomialEq_rel {r : α} {r' : β} (h : K.R r r') (m n : Int) : ResRel K.R (radialPolynomialEq m n r) (radialPolynomialEq m n r') :=
  radialEqLoop_rel K h m n _ 0 0 0 K.zero

theorem radialDerivEqLoop_rel {r : α} {r' : β} (h : K.R r r') (m n : Int) (j : Nat) (k : Int) (v : α) (v' : β) (hv : K.R v v') :
    ResRel K.R (radialDerivEqLoop m n r j k v) (radialDerivEqLoop m n r' j k v') := by
  induction j generalizing k v v' with
  | zero => exact hv
  | succ j ih =>
    unfold radialDerivEqLoop
    refine ResRel.ite ?_ (ih _ _ _ hv)
    refine (ResRel.refl _).bind fun a _ e => e ▸ (ResRel.refl _).bind fun b _ e => e ▸ (ResRel.refl _).bind fun c _ e => e ▸
      (ResRel.refl _).bind fun d _ e => e ▸ ih _ _ _ (K.add hv (K.mul (K.mul (K.int _) (K.mul (K.rat _) (K.pow h _))) (K.int _)))

theorem radialDerivativeEq_rel {r : α} {r' : β} (h : K.R r r') (m n : Int) : ResRel K.R (radialDerivativeEq m n r) (radialDerivativeEq m n r') :=
  ResRel.ite (radialDerivEqLoop_rel K h m n _ 0 0 0 K.zero) K.zero

theorem evalLoop_rel {r : α} {r' : β} (h : K.R r r') (l : List (Int × Int)) (v : α) (v' : β) (hv : K.R v v') :
    K.R (evalLoop r l v) (evalLoop r' l v') := by
  induction l generalizing v v' with
  | nil => exact hv
  | cons x t ih =>
    unfold evalLoop
    refine ih _ _ ?_
    by_cases hx : x.2 ≠ 0
    · rw [if_pos hx, if_pos hx]; exact K.add hv (K.mul (K.int _) (K.pow h _))
    · rw [if_neg hx, if_neg hx]; exact hv

theorem radialPolynomialCoeffs_rel {r : α} {r' : β} (h : K.R r r') (fuel : Nat) (m n : Int) :
    CMRel K.R (radialPolynomialCoeffs fuel m n r) (radialPolynomialCoeffs fuel m n r') := by
  induction fuel generalizing m n with
  | zero => exact CMRel.raise _
  | succ fuel ih =>
    unfold radialPolynomialCoeffs
    refine CMRel.ite ?_ (CMRel.ite (CMRel.pure (K.pow h _)) (CMRel.ite ?_ (CMRel.ite ?_ ?_)))
    · exact (CMRel.refl _).bind fun _ _ e => e ▸ CMRel.pure (evalLoop_rel K h _ _ _ K.zero)
    · exact (ih _ _).bind fun _ _ a => (ih _ _).bind fun _ _ b => CMRel.pure (K.sub (K.mul (K.mul (K.num 2) h) a) b)
    · exact CMRel.pure (K.sub (K.mul (K.int _) (K.pow h _)) (K.mul (K.int _) (K.pow h _)))
    · exact (ih _ _).bind fun _ _ a => (ih _ _).bind fun _ _ b => (ih _ _).bind fun _ _ c => CMRel.pure (K.sub (K.mul h (K.add a b)) c)

theorem radialPolynomialCoeffsDr_rel {r : α} {r' : β} (h : K.R r r') (fuel : Nat) (m n : Int) :
    CMRel K.R (radialPolynomialCoeffsDr fuel m n r) (radialPolynomialCoeffsDr fuel m n r') := by
  induction fuel generalizing m n with
  | zero => exact CMRel.raise _
  | succ fuel ih =>
    have ih' := radialPolynomialCoeffs_rel K h fuel
    unfold radialPolynomialCoeffsDr
    refine CMRel.ite ?_ (CMRel.ite (CMRel.pure (K.mul (K.int _) (K.pow h _))) (CMRel.ite ?_ (CMRel.ite ?_ ?_)))
    · exact (CMRel.refl _).bind fun _ _ e => e ▸ CMRel.pure (evalLoop_rel K h _ _ _ K.zero)
    · exact (ih _ _).bind fun _ _ a => (ih _ _).bind fun _ _ b => (ih _ _).bind fun _ _ c =>
        CMRel.pure (K.sub (K.mul (K.num 2) (K.add a (K.mul h b))) c)
    · exact CMRel.pure (K.sub (K.mul (K.mul (K.int _) (K.int _)) (K.pow h _)) (K.mul (K.mul (K.int _) (K.int _)) (K.pow h _)))
    · exact (ih' _ _).bind fun _ _ a => (ih' _ _).bind fun _ _ b => (ih _ _).bind fun _ _ c => (ih _ _).bind fun _ _ d =>
        (ih _ _).bind fun _ _ e => CMRel.pure (K.sub (K.add (K.add a b) (K.mul h (K.add c d))) e)

theorem radialValue_rel {r : α} {r' : β} (h : K.R r r') (fuel : Nat) (exact : Bool) (m n : Int) :
    CMRel K.R (radialValue fuel exact m n r) (radialValue fuel exact m n r') := by
  unfold radialValue
  exact CMRel.ite (CMRel.ite (CMRel.lift (radialPolynomial_rel K h _ _ _)) (radialPolynomialCoeffs_rel K h _ _ _))
    (CMRel.ite (CMRel.pure K.zero) (CMRel.lift (radialPolynomialEq_rel K h _ _)))

theorem radialDrValue_rel {r : α} {r' : β} (h : K.R r r') (fuel : Nat) (exact : Bool) (m n : Int) :
    CMRel K.R (radialDrValue fuel exact m n r) (radialDrValue fuel exact m n r') := by
  unfold radialDrValue
  exact CMRel.ite (CMRel.ite (CMRel.lift (radialDerivative_rel K h _ _ _)) (radialPolynomialCoeffsDr_rel K h _ _ _))
    (CMRel.ite (CMRel.pure K.zero) (CMRel.lift (radialDerivativeEq_rel K h _ _)))

end

end Verif.Proofs
