import Verif.Model.NonFinite
import Verif.Proofs.Parametric
import Verif.Proofs.Methods
import Verif.Proofs.RadialEq

/-! # Proofs: NaN and infinities -/

namespace Verif.Proofs
open Verif.Model Verif.Spec Polynomial Finset

/-! ## Relations -/

theorem XFloat.fin_add (x y : ℝ) : XFloat.fin x + XFloat.fin y = XFloat.fin (x + y) := rfl
theorem XFloat.fin_sub (x y : ℝ) : XFloat.fin x - XFloat.fin y = XFloat.fin (x - y) := by
  show XFloat.fin (x + -y) = _; rw [sub_eq_add_neg]
theorem XFloat.fin_mul (x y : ℝ) : XFloat.fin x * XFloat.fin y = XFloat.fin (x * y) := rfl
theorem XFloat.fin_pow (x : ℝ) (k : ℕ) : XFloat.fin x ^ k = XFloat.fin (x ^ k) := rfl
theorem XFloat.nan_add (x : XFloat) : XFloat.nan + x = XFloat.nan := by cases x <;> rfl
theorem XFloat.add_nan (x : XFloat) : x + XFloat.nan = XFloat.nan := by cases x <;> rfl
theorem XFloat.nan_sub (x : XFloat) : XFloat.nan - x = XFloat.nan := XFloat.nan_add _
theorem XFloat.sub_nan (x : XFloat) : x - XFloat.nan = XFloat.nan := XFloat.add_nan x
theorem XFloat.nan_mul (x : XFloat) : XFloat.nan * x = XFloat.nan := by cases x <;> rfl
theorem XFloat.mul_nan (x : XFloat) : x * XFloat.nan = XFloat.nan := by cases x <;> rfl

theorem XFloat.fin_mul_inf (x : ℝ) (s : Bool) : XFloat.fin x * XFloat.inf s = if x = 0 then .nan else .inf (if x < 0 then !s else s) := by
  show XFloat.mul _ _ = _
  simp only [XFloat.mul]
theorem XFloat.inf_mul_fin (x : ℝ) (s : Bool) : XFloat.inf s * XFloat.fin x = if x = 0 then .nan else .inf (if x < 0 then !s else s) := by
  show XFloat.mul _ _ = _
  simp only [XFloat.mul]
theorem XFloat.pos_mul_inf (x : ℝ) (h : 0 < x) : XFloat.fin x * XFloat.inf false = .inf false := by
  rw [XFloat.fin_mul_inf, if_neg h.ne', if_neg (not_lt.2 h.le)]
theorem XFloat.inf_mul_pos (x : ℝ) (h : 0 < x) : XFloat.inf false * XFloat.fin x = .inf false := by
  rw [XFloat.inf_mul_fin, if_neg h.ne', if_neg (not_lt.2 h.le)]

/-- Finite numbers. -/
noncomputable def finRel : NumRel XFloat ℝ where
  R x y := x = .fin y
  zero := rfl
  one := rfl
  add h h' := by rw [h, h']; rfl
  sub h h' := by rw [h, h']; exact XFloat.fin_sub _ _
  mul h h' := by rw [h, h']; rfl
  pow h k := by rw [h]; rfl
  nat k := rfl
  int k := rfl
  rat q := rfl

/-- Everything is related. -/
def anyRel (α : Type) [Zero α] [One α] [Add α] [Sub α] [Mul α] [NatCast α] [IntCast α] [Pow α ℕ] [OfRat α] : NumRel α ℝ where
  R _ _ := True
  zero := trivial
  one := trivial
  add _ _ := trivial
  sub _ _ := trivial
  mul _ _ := trivial
  pow _ _ := trivial
  nat _ := trivial
  int _ := trivial
  rat _ := trivial

/-- The element with the number `i` of an array. -/
noncomputable def eltRel {N : ℕ} (i : Fin N) : NumRel (Fin N → XFloat) XFloat where
  R f x := f i = x
  zero := rfl
  one := rfl
  add h h' := by subst h h'; rfl
  sub h h' := by subst h h'; rfl
  mul h h' := by subst h h'; rfl
  pow h k := by subst h; rfl
  nat k := rfl
  int k := rfl
  rat q := rfl

/-- The result is NaN unless the polynomial is constant. -/
noncomputable def nanRel : NumRel XFloat ℚ[X] where
  R x p := p.natDegree ≠ 0 → x = .nan
  zero h := by simp at h
  one h := by simp at h
  add {a b c d} h h' hd := by
    by_cases hb : b.natDegree = 0
    · have hd' : d.natDegree ≠ 0 := by
        intro h0
        exact hd (Nat.le_zero.1 ((natDegree_add_le _ _).trans (by simp [hb, h0])))
      rw [h' hd', XFloat.add_nan]
    · rw [h hb, XFloat.nan_add]
  sub {a b c d} h h' hd := by
    by_cases hb : b.natDegree = 0
    · have hd' : d.natDegree ≠ 0 := by
        intro h0
        exact hd (Nat.le_zero.1 ((natDegree_sub_le _ _).trans (by simp [hb, h0])))
      rw [h' hd', XFloat.sub_nan]
    · rw [h hb, XFloat.nan_sub]
  mul {a b c d} h h' hd := by
    by_cases hb : b.natDegree = 0
    · have hd' : d.natDegree ≠ 0 := by
        intro h0
        exact hd (Nat.le_zero.1 ((natDegree_mul_le).trans (by simp [hb, h0])))
      rw [h' hd', XFloat.mul_nan]
    · rw [h hb, XFloat.nan_mul]
  pow {a b} h k hd := by
    have hb : b.natDegree ≠ 0 := by
      intro h0
      exact hd (Nat.le_zero.1 ((natDegree_pow_le).trans (by simp [h0])))
    have hk : k ≠ 0 := by
      rintro rfl
      simp at hd
    rw [h hb]
    show XFloat.pow .nan k = .nan
    simp [XFloat.pow, hk]
  nat k h := by simp at h
  int k h := by simp at h
  rat q h := by
    exfalso
    apply h
    show (algebraMap ℚ ℚ[X] q).natDegree = 0
    rw [← C_eq_algebraMap]
    exact natDegree_C q

/-- Not a number of the real line: NaN or an infinity. -/
def XFloat.NotFinite (x : XFloat) : Prop := ∀ a : ℝ, x ≠ .fin a

theorem XFloat.nf_cases {x : XFloat} (h : XFloat.NotFinite x) : x = .nan ∨ ∃ s, x = .inf s := by
  cases x with
  | fin a => exact absurd rfl (h a)
  | inf s => exact Or.inr ⟨s, rfl⟩
  | nan => exact Or.inl rfl

/-- Closes goals about a constructor. -/
local macro "nf_triv" : tactic => `(tactic| (intro a h; cases h))

theorem XFloat.nf_add {x : XFloat} (h : XFloat.NotFinite x) (y : XFloat) : XFloat.NotFinite (x + y) ∧ XFloat.NotFinite (y + x) := by
  classical
  rcases XFloat.nf_cases h with rfl | ⟨s, rfl⟩
  · rw [XFloat.nan_add, XFloat.add_nan]; exact ⟨by nf_triv, by nf_triv⟩
  · cases y with
    | nan => rw [XFloat.nan_add, XFloat.add_nan]; exact ⟨by nf_triv, by nf_triv⟩
    | fin b => exact ⟨by nf_triv, by nf_triv⟩
    | inf t =>
      have key : ∀ s t : Bool, XFloat.NotFinite (XFloat.inf s + XFloat.inf t) := by
        intro s t
        change XFloat.NotFinite (if s = t then XFloat.inf s else XFloat.nan)
        split_ifs <;> nf_triv
      exact ⟨key _ _, key _ _⟩

theorem XFloat.nf_neg {x : XFloat} (h : XFloat.NotFinite x) : XFloat.NotFinite (XFloat.neg x) := by
  rcases XFloat.nf_cases h with rfl | ⟨s, rfl⟩ <;> exact fun a h => by cases h

theorem XFloat.nf_sub {x : XFloat} (h : XFloat.NotFinite x) (y : XFloat) : XFloat.NotFinite (x - y) ∧ XFloat.NotFinite (y - x) :=
  ⟨(XFloat.nf_add h _).1, (XFloat.nf_add (XFloat.nf_neg h) _).2⟩

theorem XFloat.nf_mul {x : XFloat} (h : XFloat.NotFinite x) (y : XFloat) : XFloat.NotFinite (x * y) ∧ XFloat.NotFinite (y * x) := by
  classical
  rcases XFloat.nf_cases h with rfl | ⟨s, rfl⟩
  · rw [XFloat.nan_mul, XFloat.mul_nan]; exact ⟨by nf_triv, by nf_triv⟩
  · cases y with
    | nan => rw [XFloat.nan_mul, XFloat.mul_nan]; exact ⟨by nf_triv, by nf_triv⟩
    | fin b =>
      rw [XFloat.inf_mul_fin, XFloat.fin_mul_inf]
      split_ifs <;> exact ⟨by nf_triv, by nf_triv⟩
    | inf t => exact ⟨by nf_triv, by nf_triv⟩

theorem XFloat.nf_pow {x : XFloat} (h : XFloat.NotFinite x) (k : ℕ) (hk : k ≠ 0) : XFloat.NotFinite (x ^ k) := by
  intro a ha
  change XFloat.pow x k = _ at ha
  rcases XFloat.nf_cases h with rfl | ⟨s, rfl⟩
  · simp [XFloat.pow, hk] at ha
  · change (if k = 0 then XFloat.fin 1 else if k % 2 = 0 then XFloat.inf false else XFloat.inf s) = _ at ha
    rw [if_neg hk] at ha
    split_ifs at ha

/-- The result is not finite unless the polynomial is constant. -/
noncomputable def nfRel : NumRel XFloat ℚ[X] where
  R x p := p.natDegree ≠ 0 → XFloat.NotFinite x
  zero h := by simp at h
  one h := by simp at h
  add {a b c d} h h' hd := by
    by_cases hb : b.natDegree = 0
    · refine (XFloat.nf_add (h' ?_) _).2
      intro h0
      exact hd (Nat.le_zero.1 ((natDegree_add_le _ _).trans (by simp [hb, h0])))
    · exact (XFloat.nf_add (h hb) _).1
  sub {a b c d} h h' hd := by
    by_cases hb : b.natDegree = 0
    · refine (XFloat.nf_sub (h' ?_) _).2
      intro h0
      exact hd (Nat.le_zero.1 ((natDegree_sub_le _ _).trans (by simp [hb, h0])))
    · exact (XFloat.nf_sub (h hb) _).1
  mul {a b c d} h h' hd := by
    by_cases hb : b.natDegree = 0
    · refine (XFloat.nf_mul (h' ?_) _).2
      intro h0
      exact hd (Nat.le_zero.1 ((natDegree_mul_le).trans (by simp [hb, h0])))
    · exact (XFloat.nf_mul (h hb) _).1
  pow {a b} h k hd := by
    have hb : b.natDegree ≠ 0 := by
      intro h0
      exact hd (Nat.le_zero.1 ((natDegree_pow_le).trans (by simp [h0])))
    have hk : k ≠ 0 := by
      rintro rfl
      simp at hd
    exact XFloat.nf_pow (h hb) k hk
  nat k h := by simp at h
  int k h := by simp at h
  rat q h := by
    exfalso
    apply h
    show (algebraMap ℚ ℚ[X] q).natDegree = 0
    rw [← C_eq_algebraMap]
    exact natDegree_C q

theorem ResRel.ok_right {α β : Type} {R : α → β → Prop} {x : Res α} {b : β} (h : ResRel R x (.ok b)) : ∃ a, x = .ok a ∧ R a b := by
  cases x with
  | error e => exact h.elim
  | ok a => exact ⟨a, rfl, h⟩

theorem ResRel.ok_left {α β : Type} {R : α → β → Prop} {a : α} {y : Res β} (h : ResRel R (.ok a) y) : ∃ b, y = .ok b ∧ R a b := by
  cases y with
  | error e => exact h.elim
  | ok b => exact ⟨b, rfl, h⟩

/-! ## Degrees -/

theorem RR_coeff_top (m n : Int) (hv : ValidOrders m n) : 0 < ((RR m n (X : ℤ[X])).coeff n.toNat) := by
  obtain ⟨a, b, hn, hm, e1, e2, e3⟩ := ab_of_valid hv
  unfold RR
  rw [e1, e2, Rab_eq_sum _ _ (min a b + 1) (by simp only [Int.toNat_natCast]; omega), finset_sum_coeff]
  simp only [Int.toNat_natCast]
  rw [show n.toNat = a + b by omega, sum_eq_single 0]
  · have : ((coefT a b 0 : ℤ) : ℤ[X]) = C (coefT a b 0) := by simp
    rw [this, coeff_C_mul, coeff_X_pow]
    simp only [Nat.mul_zero, Nat.sub_zero, if_true, mul_one]
    unfold coefT trino
    simp only [Nat.zero_le, and_self, if_true, pow_zero, one_mul, Nat.sub_zero]
    exact_mod_cast Nat.mul_pos (Nat.choose_pos (Nat.zero_le _)) (Nat.choose_pos (by omega))
  · intro k hk h0
    have : ((coefT a b k : ℤ) : ℤ[X]) = C (coefT a b k) := by simp
    rw [this, coeff_C_mul, coeff_X_pow, if_neg (by simp at hk; omega), mul_zero]
  · simp

theorem RR_natDegree (m n : Int) (hv : ValidOrders m n) (hn : 1 ≤ n) : (RR m n (X : ℚ[X])).natDegree ≠ 0 := by
  have h := RR_coeff_top m n hv
  have e : (RR m n (X : ℚ[X])) = (RR m n (X : ℤ[X])).map (Int.castRingHom ℚ) := by
    have := map_RR (mapRingHom (Int.castRingHom ℚ)) m n (X : ℤ[X])
    simpa using this.symm
  intro h0
  have hc : (RR m n (X : ℚ[X])).coeff n.toNat = 0 := coeff_eq_zero_of_natDegree_lt (by omega)
  rw [e, coeff_map] at hc
  simp at hc
  omega

theorem DR_natDegree (m n : Int) (hv : ValidOrders m n) (hn : 2 ≤ n) : (DR m n (X : ℚ[X])).natDegree ≠ 0 := by
  have h := RR_coeff_top m n hv
  have e : DR m n (X : ℚ[X]) = (derivative (RP m n)).map (Int.castRingHom ℚ) := by
    unfold DR ev
    rw [coe_eval₂RingHom]
    have := (Polynomial.eval₂_map (p := derivative (RP m n)) (Int.castRingHom ℚ) (C : ℚ →+* ℚ[X]) X)
    rw [eval₂_C_X] at this
    rw [this]
    congr 1
  intro h0
  have hc : (DR m n (X : ℚ[X])).coeff (n.toNat - 1) = 0 := coeff_eq_zero_of_natDegree_lt (by omega)
  rw [e, coeff_map, coeff_derivative] at hc
  rw [show n.toNat - 1 + 1 = n.toNat by omega] at hc
  unfold RP at hc
  simp only [Int.coe_castRingHom, Int.cast_eq_zero, mul_eq_zero] at hc
  rcases hc with hc | hc
  · omega
  · omega

/-- A polynomial of degree `d` with a positive leading coefficient. -/
def PosTop (p : ℚ[X]) (d : ℕ) : Prop := 0 < p.coeff d ∧ p.natDegree ≤ d

theorem RRZ_natDegree_le (m n : Int) (hv : ValidOrders m n) : (RR m n (X : ℤ[X])).natDegree ≤ n.toNat := by
  obtain ⟨a, b, hn, hm, e1, e2, e3⟩ := ab_of_valid hv
  unfold RR
  rw [e1, e2, Rab_eq_sum _ _ (min a b + 1) (by simp only [Int.toNat_natCast]; omega)]
  refine natDegree_sum_le_of_forall_le _ _ fun k hk => ?_
  simp only [Int.toNat_natCast]
  have : ((coefT a b k : ℤ) : ℤ[X]) = C (coefT a b k) := by simp
  rw [this]
  exact (natDegree_C_mul_X_pow_le _ _).trans (by omega)

theorem RR_top (m n : Int) (hv : ValidOrders m n) : PosTop (RR m n (X : ℚ[X])) n.toNat := by
  have h := RR_coeff_top m n hv
  have e : (RR m n (X : ℚ[X])) = (RR m n (X : ℤ[X])).map (Int.castRingHom ℚ) := by
    have := map_RR (mapRingHom (Int.castRingHom ℚ)) m n (X : ℤ[X])
    simpa using this.symm
  constructor
  · rw [e, coeff_map]
    simpa using h
  · rw [e]
    exact natDegree_map_le.trans (RRZ_natDegree_le m n hv)

theorem DR_top (m n : Int) (hv : ValidOrders m n) (hn : 1 ≤ n) : PosTop (DR m n (X : ℚ[X])) (n.toNat - 1) := by
  have h := RR_coeff_top m n hv
  have e : DR m n (X : ℚ[X]) = (derivative (RP m n)).map (Int.castRingHom ℚ) := by
    unfold DR ev
    rw [coe_eval₂RingHom]
    have := (Polynomial.eval₂_map (p := derivative (RP m n)) (Int.castRingHom ℚ) (C : ℚ →+* ℚ[X]) X)
    rw [eval₂_C_X] at this
    rw [this]
    congr 1
  rw [e]
  constructor
  · rw [coeff_map, coeff_derivative, show n.toNat - 1 + 1 = n.toNat by omega]
    unfold RP
    simp only [Int.coe_castRingHom]
    have : 0 < (RR m n (X : ℤ[X])).coeff n.toNat * (((n.toNat - 1 : ℕ) : ℤ) + 1) := by positivity
    exact_mod_cast this
  · refine natDegree_map_le.trans ((natDegree_derivative_le _).trans ?_)
    have := RRZ_natDegree_le m n hv
    unfold RP
    omega

theorem PosTop.above {p : ℚ[X]} {d k : ℕ} (h : PosTop p d) (hk : d < k) : p.coeff k = 0 := coeff_eq_zero_of_natDegree_lt (by have := h.2; omega)

theorem drVal_top (fuel : Nat) (m n : Int) (hv : ValidOrders m n) (hn : 1 ≤ n) (hf : n.toNat < fuel) : PosTop (drVal fuel m n (X : ℚ[X])) (n.toNat - 1) := by
  induction fuel generalizing m n with
  | zero => omega
  | succ fuel ih =>
    have hw := (valid_iff m n).1 hv
    unfold drVal
    split_ifs with h38 h1 h0 h2
    · exact DR_top m n hv hn
    · exact DR_top m n hv hn
    · subst h0
      have a := ih 1 (n - 1) (by rw [valid_iff]; omega) (by omega) (by omega)
      have b := ih 0 (n - 2) (by rw [valid_iff]; omega) (by omega) (by omega)
      rw [show (n - 1).toNat - 1 = n.toNat - 2 by omega] at a
      rw [show (n - 2).toNat - 1 = n.toNat - 3 by omega] at b
      have e2 : (2 : ℚ[X]) = C 2 := rfl
      constructor
      · rw [coeff_sub, e2, coeff_C_mul, coeff_add, show n.toNat - 1 = (n.toNat - 2) + 1 by omega, coeff_X_mul, a.above (by omega), b.above (by omega)]
        have := a.1
        linarith
      · refine (natDegree_sub_le _ _).trans (max_le ?_ (b.2.trans (by omega)))
        rw [e2]
        refine (natDegree_C_mul_le _ _).trans ((natDegree_add_le _ _).trans (max_le (a.2.trans (by omega)) ?_))
        refine natDegree_mul_le.trans ?_
        rw [natDegree_X]
        have := a.2
        omega
    · exact DR_top m n hv hn
    · obtain ⟨v1, v2, v3⟩ := valid_down hv h1
      have w1 := (valid_iff _ _).1 v1
      have w3 := (valid_iff _ _).1 v3
      have a := ih _ _ (valid_pyAbs v1) (by omega) (by omega)
      have b := ih _ _ v2 (by omega) (by omega)
      have c := ih _ _ v3 (by omega) (by omega)
      have p := RR_top _ _ v1
      have q := RR_top _ _ v2
      rw [show (n - 1).toNat - 1 = n.toNat - 2 by omega] at a b
      rw [show (n - 2).toNat - 1 = n.toNat - 3 by omega] at c
      rw [show (n - 1).toNat = n.toNat - 1 by omega] at p q
      constructor
      · rw [coeff_sub, coeff_add, coeff_add, c.above (by omega)]
        have e : (X * (drVal fuel (pyAbs (m - 1)) (n - 1) (X : ℚ[X]) + drVal fuel (m + 1) (n - 1) X)).coeff (n.toNat - 1) =
            (drVal fuel (pyAbs (m - 1)) (n - 1) (X : ℚ[X])).coeff (n.toNat - 2) + (drVal fuel (m + 1) (n - 1) (X : ℚ[X])).coeff (n.toNat - 2) := by
          rw [show n.toNat - 1 = (n.toNat - 2) + 1 by omega, coeff_X_mul, coeff_add]
        rw [e]
        linarith [a.1, b.1, p.1, q.1]
      · refine (natDegree_sub_le _ _).trans (max_le ?_ (c.2.trans (by omega)))
        refine (natDegree_add_le _ _).trans (max_le ((natDegree_add_le _ _).trans (max_le p.2 q.2)) ?_)
        refine natDegree_mul_le.trans ?_
        rw [natDegree_X]
        have := (natDegree_add_le (drVal fuel (pyAbs (m - 1)) (n - 1) (X : ℚ[X])) (drVal fuel (m + 1) (n - 1) X)).trans (max_le a.2 b.2)
        omega

theorem PosTop.natDegree_ne {p : ℚ[X]} {d : ℕ} (h : PosTop p d) (hd : d ≠ 0) : p.natDegree ≠ 0 := by
  intro h0
  have : p.coeff d = 0 := coeff_eq_zero_of_natDegree_lt (by omega)
  have := h.1
  linarith

/-! ## Values -/

section
variable (fuel : Nat) (exact : Bool) (m n : Int) (s : CoefState) (hs : Good s) (hv : ValidOrders m n) (hf : n.toNat + 1 < fuel)
include hs hv hf

theorem radialValue_any (x : XFloat) : ∃ v, (radialValue fuel exact m n x s).1 = .ok v := by
  have h := (radialValue_rel (anyRel XFloat) (r := x) (r' := (0 : ℝ)) trivial fuel exact m n s).1
  rw [radialValue_ok fuel exact m n _ s hs hv hf] at h
  obtain ⟨v, h1, _⟩ := h.ok_right
  exact ⟨v, h1⟩

theorem radialDrValue_any (x : XFloat) : ∃ v, (radialDrValue fuel exact m n x s).1 = .ok v := by
  have h := (radialDrValue_rel (anyRel XFloat) (r := x) (r' := (0 : ℝ)) trivial fuel exact m n s).1
  rw [radialDrValue_ok fuel exact m n _ s hs hv hf] at h
  obtain ⟨v, h1, _⟩ := h.ok_right
  exact ⟨v, h1⟩

theorem radialValue_fin (x : ℝ) : (radialValue fuel exact m n (XFloat.fin x) s).1 = .ok (.fin (if exact ∧ 40 < n then 0 else RR m n x)) := by
  have h := (radialValue_rel finRel (r := .fin x) (r' := x) rfl fuel exact m n s).1
  rw [radialValue_ok fuel exact m n _ s hs hv hf] at h
  obtain ⟨v, h1, h2⟩ := h.ok_right
  rw [h1, h2]

theorem radialDrValue_fin (x : ℝ) : (radialDrValue fuel exact m n (XFloat.fin x) s).1 =
    .ok (.fin (if exact then (if 38 < n then 0 else DR m n x) else if n ≤ 12 then DR m n x else drVal fuel m n x)) := by
  have h := (radialDrValue_rel finRel (r := .fin x) (r' := x) rfl fuel exact m n s).1
  rw [radialDrValue_ok fuel exact m n _ s hs hv hf] at h
  obtain ⟨v, h1, h2⟩ := h.ok_right
  rw [h1, h2]

theorem radialValue_nan (hn : 1 ≤ n) (he : exact = true → n ≤ 40) : (radialValue fuel exact m n XFloat.nan s).1 = .ok .nan := by
  have h := (radialValue_rel nanRel (r := .nan) (r' := (X : ℚ[X])) (fun _ => rfl) fuel exact m n s).1
  rw [radialValue_ok fuel exact m n _ s hs hv hf, if_neg (by rintro ⟨h1, h2⟩; have := he h1; omega)] at h
  obtain ⟨v, h1, h2⟩ := h.ok_right
  rw [h1, h2 (RR_natDegree m n hv hn)]

theorem radialValue_nf (x : XFloat) (hx : XFloat.NotFinite x) (hn : 1 ≤ n) (he : exact = true → n ≤ 40) :
    ∃ v, (radialValue fuel exact m n x s).1 = .ok v ∧ XFloat.NotFinite v := by
  have h := (radialValue_rel nfRel (r := x) (r' := (X : ℚ[X])) (fun _ => hx) fuel exact m n s).1
  rw [radialValue_ok fuel exact m n _ s hs hv hf, if_neg (by rintro ⟨h1, h2⟩; have := he h1; omega)] at h
  obtain ⟨v, h1, h2⟩ := h.ok_right
  exact ⟨v, h1, h2 (RR_natDegree m n hv hn)⟩

omit hs in
theorem drResult_natDegree (hn : 2 ≤ n) (he : exact = true → n ≤ 38) :
    (if exact = true then (if 38 < n then (0 : ℚ[X]) else DR m n X) else if n ≤ 12 then DR m n X else drVal fuel m n X).natDegree ≠ 0 := by
  cases exact
  · simp only [Bool.false_eq_true, if_false]
    split_ifs
    · exact DR_natDegree m n hv hn
    · exact (drVal_top fuel m n hv (by omega) (by omega)).natDegree_ne (by omega)
  · have := he rfl
    simp only [if_true]
    rw [if_neg (by omega)]
    exact DR_natDegree m n hv hn

theorem radialDrValue_nan (hn : 2 ≤ n) (he : exact = true → n ≤ 38) : (radialDrValue fuel exact m n XFloat.nan s).1 = .ok .nan := by
  have h := (radialDrValue_rel nanRel (r := .nan) (r' := (X : ℚ[X])) (fun _ => rfl) fuel exact m n s).1
  rw [radialDrValue_ok fuel exact m n _ s hs hv hf] at h
  obtain ⟨v, h1, h2⟩ := h.ok_right
  rw [h1, h2 (drResult_natDegree fuel exact m n hv hf hn he)]

theorem radialDrValue_nf (x : XFloat) (hx : XFloat.NotFinite x) (hn : 2 ≤ n) (he : exact = true → n ≤ 38) :
    ∃ v, (radialDrValue fuel exact m n x s).1 = .ok v ∧ XFloat.NotFinite v := by
  have h := (radialDrValue_rel nfRel (r := x) (r' := (X : ℚ[X])) (fun _ => hx) fuel exact m n s).1
  rw [radialDrValue_ok fuel exact m n _ s hs hv hf] at h
  obtain ⟨v, h1, h2⟩ := h.ok_right
  exact ⟨v, h1, h2 (drResult_natDegree fuel exact m n hv hf hn he)⟩

theorem radialValue_elt {N : ℕ} (f : Fin N → XFloat) : ∃ g : Fin N → XFloat, (radialValue fuel exact m n f s).1 = .ok g ∧
    ∀ i, (radialValue fuel exact m n (f i) s).1 = .ok (g i) := by
  cases hx : (radialValue fuel exact m n f s).1 with
  | error e =>
    exfalso
    have h := (radialValue_rel (anyRel (Fin N → XFloat)) (r := f) (r' := (0 : ℝ)) trivial fuel exact m n s).1
    rw [radialValue_ok fuel exact m n _ s hs hv hf, hx] at h
    exact h
  | ok g =>
    refine ⟨g, rfl, fun i => ?_⟩
    have h := (radialValue_rel (eltRel i) (r := f) (r' := f i) rfl fuel exact m n s).1
    rw [hx] at h
    obtain ⟨v, h1, h2⟩ := h.ok_left
    rw [h1, show g i = v from h2]

theorem radialDrValue_elt {N : ℕ} (f : Fin N → XFloat) : ∃ g : Fin N → XFloat, (radialDrValue fuel exact m n f s).1 = .ok g ∧
    ∀ i, (radialDrValue fuel exact m n (f i) s).1 = .ok (g i) := by
  cases hx : (radialDrValue fuel exact m n f s).1 with
  | error e =>
    exfalso
    have h := (radialDrValue_rel (anyRel (Fin N → XFloat)) (r := f) (r' := (0 : ℝ)) trivial fuel exact m n s).1
    rw [radialDrValue_ok fuel exact m n _ s hs hv hf, hx] at h
    exact h
  | ok g =>
    refine ⟨g, rfl, fun i => ?_⟩
    have h := (radialDrValue_rel (eltRel i) (r := f) (r' := f i) rfl fuel exact m n s).1
    rw [hx] at h
    obtain ⟨v, h1, h2⟩ := h.ok_left
    rw [h1, show g i = v from h2]

end

/-! ## The check of the radii -/

theorem xMin_nan (x y : XFloat) : xMin x y = .nan ↔ x = .nan ∨ y = .nan := by
  cases x <;> cases y <;> simp only [xMin, reduceCtorEq, or_self, or_true, true_or, iff_true, iff_false] <;> split_ifs <;> simp

theorem xMax_nan (x y : XFloat) : xMax x y = .nan ↔ x = .nan ∨ y = .nan := by
  cases x <;> cases y <;> simp only [xMax, reduceCtorEq, or_self, or_true, true_or, iff_true, iff_false] <;> split_ifs <;> simp

theorem xMin_lt (x y : XFloat) (c : ℝ) (hx : x ≠ .nan) (hy : y ≠ .nan) : (xMin x y).lt (.fin c) ↔ x.lt (.fin c) ∨ y.lt (.fin c) := by
  cases x with
  | nan => exact absurd rfl hx
  | fin a =>
    cases y with
    | nan => exact absurd rfl hy
    | fin b =>
      simp only [xMin]
      split_ifs with h <;> simp only [XFloat.lt] at h ⊢
      · exact ⟨Or.inr, fun h' => h'.elim (fun h' => lt_trans h h') id⟩
      · exact ⟨Or.inl, fun h' => h'.elim id (fun h' => lt_of_le_of_lt (not_lt.1 h) h')⟩
    | inf t => cases t <;> simp [xMin, XFloat.lt]
  | inf s =>
    cases y with
    | nan => exact absurd rfl hy
    | fin b => cases s <;> simp [xMin, XFloat.lt]
    | inf t => cases s <;> cases t <;> simp [xMin, XFloat.lt]

theorem lt_xMax (x y : XFloat) (c : ℝ) (hx : x ≠ .nan) (hy : y ≠ .nan) :
    (XFloat.fin c).lt (xMax x y) ↔ (XFloat.fin c).lt x ∨ (XFloat.fin c).lt y := by
  cases x with
  | nan => exact absurd rfl hx
  | fin a =>
    cases y with
    | nan => exact absurd rfl hy
    | fin b =>
      simp only [xMax]
      split_ifs with h <;> simp only [XFloat.lt] at h ⊢
      · exact ⟨Or.inr, fun h' => h'.elim (fun h' => lt_trans h' h) id⟩
      · exact ⟨Or.inl, fun h' => h'.elim id (fun h' => lt_of_lt_of_le h' (not_lt.1 h))⟩
    | inf t => cases t <;> simp [xMax, XFloat.lt]
  | inf s =>
    cases y with
    | nan => exact absurd rfl hy
    | fin b => cases s <;> simp [xMax, XFloat.lt]
    | inf t => cases s <;> cases t <;> simp [xMax, XFloat.lt]

theorem foldl_xMin_nan (t : List XFloat) (x : XFloat) : t.foldl xMin x = .nan ↔ x = .nan ∨ .nan ∈ t := by
  induction t generalizing x with
  | nil => simp
  | cons y t ih =>
    rw [List.foldl_cons, ih, xMin_nan, List.mem_cons]
    tauto

theorem foldl_xMax_nan (t : List XFloat) (x : XFloat) : t.foldl xMax x = .nan ↔ x = .nan ∨ .nan ∈ t := by
  induction t generalizing x with
  | nil => simp
  | cons y t ih =>
    rw [List.foldl_cons, ih, xMax_nan, List.mem_cons]
    tauto

theorem foldl_xMin_lt (t : List XFloat) (x : XFloat) (c : ℝ) (hx : x ≠ .nan) (ht : .nan ∉ t) :
    (t.foldl xMin x).lt (.fin c) ↔ ∃ y ∈ x :: t, y.lt (.fin c) := by
  induction t generalizing x with
  | nil => simp
  | cons y t ih =>
    rw [List.mem_cons, not_or] at ht
    have hy : y ≠ .nan := fun h => ht.1 h.symm
    rw [List.foldl_cons, ih _ (by rw [Ne, xMin_nan]; tauto) ht.2]
    simp only [List.mem_cons, exists_eq_or_imp, xMin_lt x y c hx hy, or_assoc]

theorem lt_foldl_xMax (t : List XFloat) (x : XFloat) (c : ℝ) (hx : x ≠ .nan) (ht : .nan ∉ t) :
    (XFloat.fin c).lt (t.foldl xMax x) ↔ ∃ y ∈ x :: t, (XFloat.fin c).lt y := by
  induction t generalizing x with
  | nil => simp
  | cons y t ih =>
    rw [List.mem_cons, not_or] at ht
    have hy : y ≠ .nan := fun h => ht.1 h.symm
    rw [List.foldl_cons, ih _ (by rw [Ne, xMax_nan]; tauto) ht.2]
    simp only [List.mem_cons, exists_eq_or_imp, lt_xMax x y c hx hy, or_assoc]

theorem outside_iff (x : XFloat) : ((XFloat.fin 1).lt x ∨ x.lt (.fin 0)) ↔ x ≠ .nan ∧ ¬ ∃ y, x = .fin y ∧ 0 ≤ y ∧ y ≤ 1 := by
  cases x with
  | nan => simp [XFloat.lt]
  | inf s => cases s <;> simp [XFloat.lt]
  | fin y =>
    simp only [XFloat.lt, ne_eq, reduceCtorEq, not_false_eq_true, XFloat.fin.injEq, exists_eq_left', true_and, not_and_or, not_le]
    tauto

open Classical in
theorem checkRadiiX_array (shape : List Nat) (data : List XFloat) :
    checkRadiiX (.array shape data) = if data = [] ∨ (.nan ∉ data ∧ ∃ x ∈ data, ¬ ∃ y, x = .fin y ∧ 0 ≤ y ∧ y ≤ 1) then .error .valueError
      else .ok (.array shape data) := by
  cases data with
  | nil => simp [checkRadiiX]
  | cons x t =>
    simp only [checkRadiiX]
    by_cases hn : XFloat.nan ∈ x :: t
    · have hn' : x = .nan ∨ .nan ∈ t := by rw [List.mem_cons] at hn; exact hn.imp Eq.symm id
      rw [(foldl_xMin_nan t x).2 hn', (foldl_xMax_nan t x).2 hn', if_neg, if_neg]
      · simp [hn]
      · simp [XFloat.lt]
    · have h1 : x ≠ .nan := fun h => hn (by simp [h])
      have h2 : XFloat.nan ∉ t := fun h => hn (by simp [h])
      simp only [foldl_xMin_lt t x 0 h1 h2, lt_foldl_xMax t x 1 h1 h2]
      congr 1
      simp only [List.cons_ne_nil, false_or, hn, not_false_eq_true, true_and, eq_iff_iff]
      constructor
      · rintro (⟨y, hy, h⟩ | ⟨y, hy, h⟩)
        · exact ⟨y, hy, ((outside_iff y).1 (Or.inr h)).2⟩
        · exact ⟨y, hy, ((outside_iff y).1 (Or.inl h)).2⟩
      · rintro ⟨y, hy, h⟩
        rcases (outside_iff y).2 ⟨fun h' => hn (h' ▸ hy), h⟩ with h | h
        · exact Or.inr ⟨y, hy, h⟩
        · exact Or.inl ⟨y, hy, h⟩

open Classical in
theorem checkRadiiX_scalar (x : XFloat) :
    checkRadiiX (.scalar x) = if x ≠ .nan ∧ ¬ ∃ y, x = .fin y ∧ 0 ≤ y ∧ y ≤ 1 then .error .valueError else .ok (.scalar x) := by
  unfold checkRadiiX
  simp only [outside_iff]

end Verif.Proofs
