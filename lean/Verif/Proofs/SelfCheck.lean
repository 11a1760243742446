import Verif.Model.SelfCheck
import Verif.Proofs.CoeffsDr
import Verif.Proofs.Methods
import Verif.Proofs.Numeric
import Verif.Proofs.RadialBound

/-!
# The self-checks: lemmas
-/

namespace Verif.Proofs
open Verif.Model Verif.Spec

theorem mem_azimuthLoop (k : Nat) : ∀ (m n a b : Int), (a, b) ∈ azimuthLoop k m n ↔ b = n ∧ ∃ j : ℕ, j < k ∧ a = m + 2 * (j + 1) := by
  induction k with
  | zero => intro m n a b; simp [azimuthLoop]
  | succ k ih =>
    intro m n a b
    unfold azimuthLoop
    rw [List.mem_cons, ih]
    constructor
    · rintro (h | ⟨h1, j, h2, h3⟩)
      · cases h; exact ⟨rfl, 0, by omega, by simp⟩
      · exact ⟨h1, j + 1, by omega, by push_cast; omega⟩
    · rintro ⟨h1, j, h2, h3⟩
      cases j with
      | zero => left; subst h1; simp [h3]
      | succ j => right; exact ⟨h1, j, by omega, by push_cast at h3; omega⟩

theorem length_azimuthLoop (k : Nat) : ∀ (m n : Int), (azimuthLoop k m n).length = k := by
  induction k with
  | zero => intro m n; rfl
  | succ k ih => intro m n; simp [azimuthLoop, ih]

theorem mem_pyRange_one (a b x : Int) : x ∈ pyRange a b 1 ↔ a ≤ x ∧ x < b := by
  unfold pyRange
  simp only [List.mem_map, List.mem_range]
  constructor
  · rintro ⟨i, hi, rfl⟩; omega
  · intro h
    exact ⟨(x - a).toNat, by omega, by omega⟩

theorem mem_checkedOrders (a b : Int) (ha : 0 ≤ a) (m n : Int) : (m, n) ∈ checkedOrders a b ↔ ValidOrders m n ∧ a ≤ n ∧ n < b := by
  unfold checkedOrders
  rw [List.mem_flatMap]
  constructor
  · rintro ⟨o, ho, hm⟩
    rw [mem_pyRange_one] at ho
    rw [List.mem_cons, mem_azimuthLoop] at hm
    rcases hm with h | ⟨rfl, j, hj, rfl⟩
    · cases h
      exact ⟨(valid_iff _ _).2 (by omega), ho⟩
    · exact ⟨(valid_iff _ _).2 (by omega), ho⟩
  · rintro ⟨hv, h1, h2⟩
    obtain ⟨w1, w2, w3, w4⟩ := (valid_iff m n).1 hv
    refine ⟨n, (mem_pyRange_one _ _ _).2 ⟨h1, h2⟩, ?_⟩
    rw [List.mem_cons, mem_azimuthLoop]
    by_cases e : m = -n
    · left; rw [e]
    · right
      refine ⟨rfl, ((m + n) / 2 - 1).toNat, ?_, ?_⟩
      all_goals omega

theorem length_checkedOrders (a : Int) (ha : 0 ≤ a) (k : ℕ) : 2 * ((checkedOrders a (a + k)).length : Int) = k * (2 * a + k + 1) := by
  have key : ∀ j : ℕ, 2 * ((((List.range j).map fun (i : ℕ) => a + 1 * (i : Int)).flatMap fun order => (-order, order) :: azimuthLoop order.toNat (-order) order).length : Int) =
      j * (2 * a + j + 1) := by
    intro j
    induction j with
    | zero => simp
    | succ j ih =>
      rw [List.range_succ, List.map_append, List.flatMap_append, List.length_append]
      push_cast
      rw [mul_add, ih]
      simp only [List.map_cons, List.map_nil, List.flatMap_cons, List.flatMap_nil, List.append_nil, List.length_cons, length_azimuthLoop]
      have : (((a + 1 * (j : Int)).toNat : ℕ) : Int) = a + j := by omega
      push_cast [this]
      ring
  unfold checkedOrders pyRange
  rw [show ((a + (k : Int) - a + 1 - 1) / 1).toNat = k from by omega]
  exact key k

theorem nodup_azimuthLoop (k : Nat) : ∀ (m n : Int), (azimuthLoop k m n).Nodup := by
  induction k with
  | zero => intro m n; exact List.nodup_nil
  | succ k ih =>
    intro m n
    unfold azimuthLoop
    refine List.nodup_cons.2 ⟨fun h => ?_, ih _ _⟩
    obtain ⟨-, j, -, e⟩ := (mem_azimuthLoop k (m + 2) n _ _).1 h
    omega

theorem nodup_checkedOrders (a b : Int) : (checkedOrders a b).Nodup := by
  unfold checkedOrders
  rw [List.nodup_flatMap]
  constructor
  · intro o _
    refine List.nodup_cons.2 ⟨fun h => ?_, nodup_azimuthLoop _ _ _⟩
    obtain ⟨-, j, -, e⟩ := (mem_azimuthLoop _ _ _ _ _).1 h
    omega
  · have nd : (pyRange a b 1).Nodup := by
      unfold pyRange
      exact List.Nodup.map (fun x y h => by simpa using h) List.nodup_range
    refine List.Pairwise.imp ?_ nd
    intro x y hxy
    rw [Function.onFun, List.disjoint_left]
    rintro ⟨m, n⟩ h1 h2
    have e : ∀ z : Int, (m, n) ∈ (-z, z) :: azimuthLoop z.toNat (-z) z → n = z := by
      intro z hz
      rcases List.mem_cons.1 hz with h | h
      · exact (Prod.mk.inj h).2
      · exact ((mem_azimuthLoop _ _ _ _ _).1 h).1
    exact hxy ((e x h1).symm.trans (e y h2))

theorem rowsLoop_tr {p : ℕ} {f : Int → Int → CM (Fin p → ℝ)} {g : Int → Int → Fin p → ℝ} (l : List (Int × Int))
    (hf : ∀ x ∈ l, Tr True (f x.1 x.2) fun row => row = g x.1 x.2) : Tr True (rowsLoop f l) fun rows => rows = l.map fun x => g x.1 x.2 := by
  induction l with
  | nil => exact Tr.pure rfl
  | cons x l ih =>
    unfold rowsLoop
    refine Tr.bind (hf x (List.mem_cons_self ..)) fun row h1 => Tr.bind (ih fun y hy => hf y (List.mem_cons_of_mem _ hy)) fun rows h2 => Tr.pure ?_
    rw [h1, h2]; rfl

theorem lift_tr {β : Type} {x : Res β} {v : β} (h : x = .ok v) : Tr True (CM.lift x) fun w => w = v :=
  Tr.lift (fun w hw => by rw [h] at hw; cases hw; rfl) fun _ => ⟨v, h⟩

theorem zero_rows {p : ℕ} (l : List (Int × Int)) (bound : ℝ) (hb : 0 < bound) :
    assertBelow bound (roundRows 9 (l.map fun _ => (0 : Fin p → ℝ))) = .ok (List.replicate l.length 0) := by
  have e : roundRows 9 (l.map fun _ => (0 : Fin p → ℝ)) = List.replicate l.length (0 : Fin p → ℝ) := by
    unfold roundRows
    rw [List.map_map, ← List.map_const']
    refine List.map_congr_left fun x _ => ?_
    funext i
    exact npRound_zero 9
  rw [e]
  refine if_pos fun row hr i => ?_
  rw [List.eq_of_mem_replicate hr]
  simpa using hb

theorem tr_result {β : Type} {x : CM β} {v : β} (h : Tr True x fun w => w = v) (s : CoefState) (hs : Good s) : (x s).1 = .ok v ∧ Good (x s).2 := by
  obtain ⟨a, b, c⟩ := h s hs
  obtain ⟨w, hw⟩ := c trivial
  exact ⟨by rw [hw, b w hw], a⟩

theorem compare_tr {p : ℕ} {f : Int → Int → CM (Fin p → ℝ)} (l : List (Int × Int)) (bound : ℝ) (hb : 0 < bound)
    (hf : ∀ x ∈ l, Tr True (f x.1 x.2) fun row => row = 0) :
    Tr True (rowsLoop f l >>= fun rows => CM.lift (assertBelow bound (roundRows 9 rows))) fun rows => rows = List.replicate l.length 0 := by
  refine Tr.bind (rowsLoop_tr (g := fun _ _ => 0) l hf) fun rows hr => ?_
  subst hr
  exact lift_tr (zero_rows l bound hb)

theorem valid_zero : ValidOrders 0 0 := (valid_iff 0 0).2 (by omega)

theorem compareCalculations_tr (fuel : Nat) (a : CompareOrder) (N : Int) (ha : a.stop = .ok N) (hf : N ≤ fuel) (h0 : 0 < fuel) :
    Tr True (compareRadialCalculations fuel a) fun rows => rows = List.replicate ((0, 0) :: checkedOrders 1 N).length 0 := by
  refine Tr.bind (lift_tr ha) fun stop hs => ?_
  subst hs
  refine compare_tr _ _ (by norm_num) fun x hx => ?_
  obtain ⟨m, n⟩ := x
  have hv : ValidOrders m n ∧ n.toNat < fuel := by
    rcases List.mem_cons.1 hx with h | h
    · cases h; exact ⟨valid_zero, by omega⟩
    · obtain ⟨v, h1, h2⟩ := (mem_checkedOrders 1 stop (by omega) m n).1 h
      exact ⟨v, by omega⟩
  refine Tr.bind (lift_tr (radialPolynomial_correct fuel m n _ hv.1 hv.2)) fun u hu => Tr.bind (lift_tr (radialPolynomialEq_correct m n _ hv.1)) fun w hw => Tr.pure ?_
  rw [hu, hw, sub_self]

theorem compareDerivatives_tr (fuel : Nat) (a : CompareOrder) (N : Int) (ha : a.stop = .ok N) (hf : N ≤ fuel) (h0 : 0 < fuel) :
    Tr True (compareRadialDerivatives fuel a) fun rows => rows = List.replicate ((0, 0) :: checkedOrders 1 N).length 0 := by
  refine Tr.bind (lift_tr ha) fun stop hs => ?_
  subst hs
  refine compare_tr _ _ (by norm_num) fun x hx => ?_
  obtain ⟨m, n⟩ := x
  have hv : ValidOrders m n ∧ n.toNat < fuel := by
    rcases List.mem_cons.1 hx with h | h
    · cases h; exact ⟨valid_zero, by omega⟩
    · obtain ⟨v, h1, h2⟩ := (mem_checkedOrders 1 stop (by omega) m n).1 h
      exact ⟨v, by omega⟩
  refine Tr.bind (lift_tr (radialDerivative_correct fuel m n _ hv.1 hv.2)) fun u hu => Tr.bind (lift_tr (radialDerivativeEq_correct m n _ hv.1)) fun w hw => Tr.pure ?_
  rw [hu, hw, sub_self]

theorem compareCoeffs_tr (fuel : Nat) (hf : 43 ≤ fuel) :
    Tr True (compareRecursiveCoeffsRadials fuel) fun rows => rows = List.replicate (checkedOrders 15 42).length 0 := by
  refine compare_tr (checkedOrders 15 42) _ (by norm_num) fun x hx => ?_
  obtain ⟨m, n⟩ := x
  obtain ⟨v, h1, h2⟩ := (mem_checkedOrders 15 42 (by omega) m n).1 hx
  refine Tr.bind (lift_tr (radialPolynomialEq_correct m n _ v)) fun u hu =>
    Tr.bind ((radialPolynomialCoeffs_tr fuel m n _).mono (fun _ => ⟨v, by omega⟩) fun _ h => h) fun w hw => Tr.pure ?_
  rw [hu, hw v, sub_self]

theorem compareCoeffsDr_tr (fuel : Nat) (hf : 41 ≤ fuel) :
    Tr True (compareRecursiveCoeffsRadialsDr fuel) fun rows => rows = List.replicate (checkedOrders 15 40).length 0 := by
  refine compare_tr (checkedOrders 15 40) _ (by norm_num) fun x hx => ?_
  obtain ⟨m, n⟩ := x
  obtain ⟨v, h1, h2⟩ := (mem_checkedOrders 15 40 (by omega) m n).1 hx
  have hw' := (valid_iff m n).1 v
  refine Tr.bind (lift_tr (radialDerivativeEq_correct m n _ v)) fun u hu =>
    Tr.bind ((radialPolynomialCoeffsDr_tr fuel m n _).mono (fun _ => ⟨v, by omega, by omega⟩) fun _ h => h) fun w hw => Tr.pure ?_
  rw [hu, hw v (by omega), drVal_correct fuel m n _ v (by omega) (by unfold pyAbs; split_ifs <;> omega), sub_self]

theorem checkedRadii_mem (p : ℕ) (i : Fin p) : 0 ≤ checkedRadii p i ∧ checkedRadii p i ≤ 1 := by
  unfold checkedRadii
  have hi : (i : ℝ) ≤ (p : ℝ) - 1 := by
    have : ((i : ℕ) : ℝ) + 1 ≤ (p : ℝ) := by exact_mod_cast i.2
    linarith
  have h0 : (0 : ℝ) ≤ (i : ℝ) := Nat.cast_nonneg _
  refine ⟨npRound_nonneg 4 (div_nonneg h0 (by linarith)), ?_⟩
  calc npRound 4 ((i : ℝ) / ((p : ℝ) - 1)) ≤ npRound 4 1 := npRound_mono 4 (div_le_one_of_le₀ hi (by linarith))
    _ = 1 := by simpa using npRound_int 4 1

theorem rounded_radial_le (m n : Int) (r : ℝ) (h0 : 0 ≤ r) (h1 : r ≤ 1) : |npRound 6 (RR m n r)| ≤ 1 := by
  have hb := abs_le.1 (RR_abs_le m n _ h0 h1)
  have one : npRound 6 (1 : ℝ) = 1 := by simpa using npRound_int 6 1
  have mone : npRound 6 (-1 : ℝ) = -1 := by simpa using npRound_int 6 (-1)
  exact abs_le.2 ⟨by rw [← mone]; exact npRound_mono 6 hb.1, by rw [← one]; exact npRound_mono 6 hb.2⟩

theorem highOrders_tr (fuel : Nat) (hf : 47 ≤ fuel) :
    Tr True (checkHighOrdersRecursion fuel) fun rows => rows = (checkedOrders 41 46).map fun x i => npRound 6 (RR x.1 x.2 (checkedRadii 51 i)) := by
  unfold checkHighOrdersRecursion
  refine Tr.bind (rowsLoop_tr (g := fun m n => RR m n (checkedRadii 51)) (checkedOrders 41 46) fun x hx => ?_) fun rows hr => ?_
  · obtain ⟨m, n⟩ := x
    obtain ⟨v, h1, h2⟩ := (mem_checkedOrders 41 46 (by omega) m n).1 hx
    exact (radialPolynomialCoeffs_tr fuel m n _).mono (fun _ => ⟨v, by omega⟩) fun w hw => hw v
  · subst hr
    have e : roundRows 6 ((checkedOrders 41 46).map fun x => RR x.1 x.2 (checkedRadii 51)) =
        (checkedOrders 41 46).map fun x i => npRound 6 (RR x.1 x.2 (checkedRadii 51 i)) := by
      unfold roundRows
      rw [List.map_map]
      refine List.map_congr_left fun x _ => ?_
      funext i
      show npRound 6 (RR x.1 x.2 (checkedRadii 51) i) = _
      rw [RR_pi]
    rw [e]
    refine lift_tr (if_pos fun row hr i => ?_)
    obtain ⟨x, -, rfl⟩ := List.mem_map.1 hr
    obtain ⟨h0, h1⟩ := checkedRadii_mem 51 i
    exact rounded_radial_le _ _ _ h0 h1

/-! ### States after self-checks that may raise -/

theorem rowsLoop_safe {p : ℕ} {f : Int → Int → CM (Fin p → ℝ)} (hf : ∀ m n, Tr False (f m n) fun _ => True) (l : List (Int × Int)) :
    Tr False (rowsLoop f l) fun _ => True := by
  induction l with
  | nil => exact Tr.pure trivial
  | cons x l ih => exact Tr.bind (hf x.1 x.2) fun _ _ => Tr.bind ih fun _ _ => Tr.pure trivial

theorem compareCalculations_safe (fuel : Nat) (a : CompareOrder) : Tr False (compareRadialCalculations fuel a) fun _ => True :=
  Tr.bind Tr.any fun _ _ => Tr.bind (rowsLoop_safe (fun _ _ => Tr.bind Tr.any fun _ _ => Tr.bind Tr.any fun _ _ => Tr.pure trivial) _) fun _ _ => Tr.any

theorem compareDerivatives_safe (fuel : Nat) (a : CompareOrder) : Tr False (compareRadialDerivatives fuel a) fun _ => True :=
  Tr.bind Tr.any fun _ _ => Tr.bind (rowsLoop_safe (fun _ _ => Tr.bind Tr.any fun _ _ => Tr.bind Tr.any fun _ _ => Tr.pure trivial) _) fun _ _ => Tr.any

theorem compareCoeffs_safe (fuel : Nat) : Tr False (compareRecursiveCoeffsRadials fuel) fun _ => True :=
  Tr.bind (rowsLoop_safe (fun m n => Tr.bind Tr.any fun _ _ => Tr.bind ((radialPolynomialCoeffs_tr fuel m n _).mono False.elim fun _ _ => trivial) fun _ _ => Tr.pure trivial) _)
    fun _ _ => Tr.any

theorem compareCoeffsDr_safe (fuel : Nat) : Tr False (compareRecursiveCoeffsRadialsDr fuel) fun _ => True :=
  Tr.bind (rowsLoop_safe (fun m n => Tr.bind Tr.any fun _ _ => Tr.bind ((radialPolynomialCoeffsDr_tr fuel m n _).mono False.elim fun _ _ => trivial) fun _ _ => Tr.pure trivial) _)
    fun _ _ => Tr.any

theorem highOrders_safe (fuel : Nat) : Tr False (checkHighOrdersRecursion fuel) fun _ => True :=
  Tr.bind (rowsLoop_safe (fun m n => (radialPolynomialCoeffs_tr fuel m n _).mono False.elim fun _ _ => trivial) _) fun _ _ => Tr.any

/-! ### `check_equal_coeffs` -/

theorem equalLoop_true (d2 : List (Int × Int)) : ∀ d1, equalLoop d2 d1 = .ok true ↔ ∀ x ∈ d1, d2.lookup x.1 = some x.2 := by
  intro d1
  induction d1 with
  | nil => simp [equalLoop]
  | cons x l ih =>
    obtain ⟨k, v⟩ := x
    unfold equalLoop
    rw [List.forall_mem_cons]
    cases h : d2.lookup k with
    | none => simp [h]
    | some w =>
      simp only [h]
      by_cases e : v = w
      · subst e; simp [ih]
      · simp only [ne_eq, e, not_false_eq_true, if_true]
        constructor
        · intro h'; cases h'
        · rintro ⟨h1, -⟩; exact absurd (Option.some.inj h1).symm e

theorem equalLoop_error (d2 : List (Int × Int)) : ∀ d1, (∀ x ∈ d1, (d2.lookup x.1).isSome) → ∃ b, equalLoop d2 d1 = .ok b := by
  intro d1
  induction d1 with
  | nil => exact fun _ => ⟨true, rfl⟩
  | cons x l ih =>
    intro h
    obtain ⟨k, v⟩ := x
    have hk := h (k, v) (List.mem_cons_self ..)
    unfold equalLoop
    cases e : d2.lookup k with
    | none => simp [e] at hk
    | some w =>
      simp only
      split_ifs
      · exact ⟨false, rfl⟩
      · exact ih fun y hy => h y (List.mem_cons_of_mem _ hy)

end Verif.Proofs
