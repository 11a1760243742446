import Verif.Proofs.TestTables
import Verif.Proofs.NonFinite
import Verif.Proofs.CostCalls
import Verif.Props.SelfCheck
import Verif.Props.Radial

/-!
# C118: the dictionaries of coefficients do not depend on the history or on the mode
-/

namespace Verif.Props
open Verif.Model Verif.Spec Verif.Proofs

theorem correctV_length {m n : Int} (hv : ValidOrders m n) {d : Coeffs} (h : CorrectV m n d) : (d.length : Int) = n + 1 := by
  have ht := RR_coeff_top m n hv
  obtain ⟨h1, h2, h3⟩ := h
  have hn : 0 ≤ n := by have := (valid_iff m n).1 hv; omega
  have h4 := h3 n.toNat
  by_contra hne
  have : d.length ≤ n.toNat := by omega
  rw [getD_ge _ _ this] at h4
  unfold RP at h4
  omega

theorem correctV_unique {m n : Int} (hv : ValidOrders m n) {d e : Coeffs} (hd : CorrectV m n d) (he : CorrectV m n e) : d = e := by
  have l : d.length = e.length := by
    have a := correctV_length hv hd
    have b := correctV_length hv he
    omega
  refine List.ext_getElem l fun i h1 h2 => ?_
  have := (hd.2.2 i).trans (he.2.2 i).symm
  simpa [List.getD, h1, h2] using this

/-- **C118.** `find_coeffs_orders` returns the same dictionary after every two histories of calls, however it is called and whatever the recursion limits
(that allow the order), with the keys 0 to n and the coefficients of the textbook polynomial. -/
theorem coefficients_same (fuel fuel' : Nat) (h h' : List Call) (explicit explicit' : Bool) (m n : Int) (hv : ValidOrders m n) (hf : n.toNat < fuel) (hf' : n.toNat < fuel') :
    ∃ d : Coeffs, (findCoeffs fuel explicit m n (afterCalls h)).1 = .ok d ∧ (findCoeffs fuel' explicit' m n (afterCalls h')).1 = .ok d ∧
      (itemsFrom 0 d).map Prod.fst = (List.range (n.toNat + 1)).map (fun i : ℕ => (i : Int)) ∧
      ∀ r : ℝ, ∑ i ∈ Finset.range (n.toNat + 1), (d.getD i 0 : ℝ) * r ^ i = Spec.radial m n r := by
  obtain ⟨_, a2, a3⟩ := (findCoeffs_tr fuel explicit m n).app _ (afterCalls_good h)
  obtain ⟨d, hd⟩ := a3 ⟨hv, hf⟩
  obtain ⟨_, b2, b3⟩ := (findCoeffs_tr fuel' explicit' m n).app _ (afterCalls_good h')
  obtain ⟨e, he⟩ := b3 ⟨hv, hf'⟩
  have hde := correctV_unique hv (a2 d hd).2 (b2 e he).2
  have hl := correctV_length hv (a2 d hd).2
  have hn : 0 ≤ n := by have := (valid_iff m n).1 hv; omega
  have hl' : d.length = n.toNat + 1 := by omega
  refine ⟨d, hd, hde ▸ he, ?_, fun r => ?_⟩
  · rw [keys_itemsFrom, hl', List.range_eq_range']
  · have := eval_CorrectV (a2 d hd).2 r
    rw [evalLoop_eq] at this
    rw [spec_radial_eq _ _ _ hv, ← this, hl']
    simp

theorem correctD_length {m n : Int} (hv : ValidOrders m n) (h1n : 1 ≤ n) {d : Coeffs} (h : CorrectD m n d) : (d.length : Int) = n := by
  have ht := RR_coeff_top m n hv
  obtain ⟨h1, h2, h3⟩ := h
  have h4 := h3 (n.toNat - 1)
  by_contra hne
  have : d.length ≤ n.toNat - 1 := by omega
  rw [getD_ge _ _ this, Polynomial.coeff_derivative] at h4
  have e : n.toNat - 1 + 1 = n.toNat := by omega
  rw [e] at h4
  unfold RP at h4
  have : (0 : ℤ) < (RR m n Polynomial.X : Polynomial ℤ).coeff n.toNat * (((n.toNat - 1 : ℕ) : ℤ) + 1) := mul_pos ht (by positivity)
  omega

theorem correctD_unique {m n : Int} (hv : ValidOrders m n) (h1n : 1 ≤ n) {d e : Coeffs} (hd : CorrectD m n d) (he : CorrectD m n e) : d = e := by
  have l : d.length = e.length := by
    have a := correctD_length hv h1n hd
    have b := correctD_length hv h1n he
    omega
  refine List.ext_getElem l fun i h1 h2 => ?_
  have := (hd.2.2 i).trans (he.2.2 i).symm
  simpa [List.getD, h1, h2] using this

/-- **C118.** The same for `find_coeffs_orders_dr` from the order 9 on: the keys are 0 to n - 1. -/
theorem coefficients_dr_same (fuel fuel' : Nat) (h h' : List Call) (explicit explicit' : Bool) (m n : Int) (hv : ValidOrders m n) (h9 : 9 ≤ n)
    (hf : n.toNat < fuel) (hf' : n.toNat < fuel') :
    ∃ d : Coeffs, (findCoeffsDr fuel explicit m n (afterCalls h)).1 = .ok d ∧ (findCoeffsDr fuel' explicit' m n (afterCalls h')).1 = .ok d ∧
      (itemsFrom 0 d).map Prod.fst = (List.range n.toNat).map (fun i : ℕ => (i : Int)) ∧
      ∀ r : ℝ, HasDerivAt (Spec.radial m n) (∑ i ∈ Finset.range n.toNat, (d.getD i 0 : ℝ) * r ^ i) r := by
  obtain ⟨d, hd, hr⟩ := coefficients_dr_are_derivative h fuel explicit m n hv h9 hf
  obtain ⟨e, he, -⟩ := coefficients_dr_are_derivative h' fuel' explicit' m n hv h9 hf'
  have cd := (((findCoeffsDr_tr fuel explicit m n).app _ (afterCalls_good h)).2.1 d hd).2 h9
  have ce := (((findCoeffsDr_tr fuel' explicit' m n).app _ (afterCalls_good h')).2.1 e he).2 h9
  have hl := correctD_length hv (by omega) cd
  have hl' : d.length = n.toNat := by omega
  refine ⟨d, hd, correctD_unique hv (by omega) cd ce ▸ he, ?_, fun r => ?_⟩
  · rw [keys_itemsFrom, hl', List.range_eq_range']
  · have := hr r
    rwa [hl'] at this

theorem good_test : TestMode.Good testState := by
  refine ⟨fun m n d h => ?_, fun m n d h => ?_, fun m n b d h => by simp [testState] at h, fun m n b d h => by simp [testState] at h, fun k hk => hk⟩
  · simp only [testState] at h
    have key : ∀ e ∈ testVals, ∃ a b : Nat, e.1.1 = (a : Int) - b ∧ e.1.2 = (a : Int) + b ∧ CorrectV ((a : Int) - b) (a + b) e.2 := by
      simp only [testVals, List.forall_mem_cons, List.not_mem_nil, false_imp_iff, implies_true, and_true]
      refine ⟨⟨2, 5, ?_⟩, ⟨5, 2, ?_⟩, ⟨3, 4, ?_⟩, ⟨4, 3, ?_⟩, ⟨2, 6, ?_⟩, ⟨6, 2, ?_⟩, ⟨3, 5, ?_⟩, ⟨5, 3, ?_⟩, ⟨4, 4, ?_⟩⟩ <;>
        exact ⟨by decide, by decide, correctV_of_closed _ _ _ (by decide) (by decide) (by decide +kernel)⟩
    obtain ⟨a, b, e1, e2, e3⟩ := key _ h
    simp only at e1 e2 e3
    rw [e1, e2]; exact ⟨by rw [valid_iff]; omega, e3⟩
  · simp only [testState] at h
    have key : ∀ e ∈ testDrs, ∃ a b : Nat, e.1.1 = (a : Int) - b ∧ e.1.2 = (a : Int) + b ∧ CorrectD ((a : Int) - b) (a + b) e.2 := by
      simp only [testDrs, List.forall_mem_cons, List.not_mem_nil, false_imp_iff, implies_true, and_true]
      refine ⟨⟨2, 5, ?_⟩, ⟨5, 2, ?_⟩, ⟨3, 4, ?_⟩, ⟨4, 3, ?_⟩, ⟨2, 6, ?_⟩, ⟨6, 2, ?_⟩, ⟨3, 5, ?_⟩, ⟨5, 3, ?_⟩, ⟨4, 4, ?_⟩⟩ <;>
        exact ⟨by decide, by decide, correctD_of_closed _ _ _ (by decide) (by decide) (by decide +kernel)⟩
    obtain ⟨a, b, e1, e2, e3⟩ := key _ h
    simp only at e1 e2 e3
    rw [e1, e2]; exact ⟨by rw [valid_iff]; omega, fun _ => e3⟩

theorem good_testSteps {t : CoefState} (ht : Relation.ReflTransGen TestStep testState t) : TestMode.Good t := by
  induction ht with
  | refl => exact good_test
  | tail _ hs ih =>
    cases hs with
    | find fuel b m n => exact ((TestMode.findCoeffs_tr fuel b m n).app _ ih).1
    | findDr fuel b m n => exact ((TestMode.findCoeffsDr_tr fuel b m n).app _ ih).1
    | evict _ _ _ h h' =>
      exact ⟨ih.vals, ih.drs, fun m n b d hd => ih.lru m n b d (h.subset hd), fun m n b d hd => ih.lruDr m n b d (h'.subset hd), ih.keys⟩

/-- **C118.** The test mode, which starts from the coefficients of the orders 7 and 8, finds for every polynomial the dictionary of the normal mode, after any
histories of the two modes; likewise for the derivatives from the order 9 on. -/
theorem test_mode_agrees (fuel : Nat) (t : CoefState) (ht : Relation.ReflTransGen TestStep testState t) (h : List Call) (byName explicit : Bool) (m n : Int)
    (hv : ValidOrders m n) (hf : n.toNat < fuel) :
    (∃ d : Coeffs, (findCoeffs fuel byName m n t).1 = .ok d ∧ (findCoeffs fuel explicit m n (afterCalls h)).1 = .ok d) ∧
    (9 ≤ n → ∃ d : Coeffs, (findCoeffsDr fuel byName m n t).1 = .ok d ∧ (findCoeffsDr fuel explicit m n (afterCalls h)).1 = .ok d) := by
  constructor
  · obtain ⟨_, a2, a3⟩ := (TestMode.findCoeffs_tr fuel byName m n).app _ (good_testSteps ht)
    obtain ⟨d, hd⟩ := a3 ⟨hv, hf⟩
    obtain ⟨_, b2, b3⟩ := (findCoeffs_tr fuel explicit m n).app _ (afterCalls_good h)
    obtain ⟨e, he⟩ := b3 ⟨hv, hf⟩
    exact ⟨d, hd, correctV_unique hv (a2 d hd).2 (b2 e he).2 ▸ he⟩
  · intro h9
    obtain ⟨_, a2, a3⟩ := (TestMode.findCoeffsDr_tr fuel byName m n).app _ (good_testSteps ht)
    obtain ⟨d, hd⟩ := a3 ⟨hv, by omega, hf⟩
    obtain ⟨_, b2, b3⟩ := (findCoeffsDr_tr fuel explicit m n).app _ (afterCalls_good h)
    obtain ⟨e, he⟩ := b3 ⟨hv, h9, hf⟩
    exact ⟨d, hd, correctD_unique hv (by omega) ((a2 d hd).2 (by omega)) ((b2 e he).2 h9) ▸ he⟩

/-- **C118.** From the order 7 on the test mode also finds the coefficients of the derivative. -/
theorem test_mode_dr_low (fuel : Nat) (t : CoefState) (ht : Relation.ReflTransGen TestStep testState t) (byName : Bool) (m n : Int)
    (hv : ValidOrders m n) (h7 : 7 ≤ n) (hf : n.toNat < fuel) :
    ∃ d : Coeffs, (findCoeffsDr fuel byName m n t).1 = .ok d ∧ d.length = n.toNat ∧
      ∀ r : ℝ, HasDerivAt (Spec.radial m n) (∑ i ∈ Finset.range n.toNat, (d.getD i 0 : ℝ) * r ^ i) r := by
  obtain ⟨_, a2, a3⟩ := (TestMode.findCoeffsDr_tr fuel byName m n).app _ (good_testSteps ht)
  obtain ⟨d, hd⟩ := a3 ⟨hv, h7, hf⟩
  have cd := (a2 d hd).2 h7
  have hl := correctD_length hv (by omega) cd
  have hl' : d.length = n.toNat := by omega
  refine ⟨d, hd, hl', fun r => ?_⟩
  have := eval_CorrectD cd r
  rw [evalLoop_eq] at this
  have e : ∑ i ∈ Finset.range n.toNat, (d.getD i 0 : ℝ) * r ^ i = DR m n r := by rw [← this, hl']; simp
  rw [e]
  have e2 : Spec.radial m n = fun y => RR m n y := funext fun y => spec_radial_eq _ _ _ hv
  rw [e2]
  exact DR_hasDerivAt m n r

theorem testLift_tr {β : Type} {x : Res β} {v : β} (h : x = .ok v) : TestMode.Tr True (CM.lift x) fun w => w = v :=
  TestMode.Tr.lift (fun w hw => by rw [h] at hw; cases hw; rfl) fun _ => ⟨v, h⟩

theorem testCoeffs_tr (fuel : Nat) (h : List Call) (l : List (Int × Int))
    (hl : ∀ x ∈ l, ValidOrders x.1 x.2 ∧ x.2.toNat < fuel ∧ (initVals.lookup x).isSome) : TestMode.Tr True (testCoeffsCalc fuel (afterCalls h).vals l) fun _ => True := by
  induction l with
  | nil => exact TestMode.Tr.pure trivial
  | cons x l ih =>
    obtain ⟨m, n⟩ := x
    obtain ⟨hv, hf, hi⟩ := hl _ (List.mem_cons_self ..)
    unfold testCoeffsCalc
    refine TestMode.Tr.bind ((TestMode.findCoeffs_tr fuel true m n).mono (fun _ => ⟨hv, hf⟩) fun _ hd => hd) fun d hd => ?_
    have hk : ((afterCalls h).vals.lookup (m, n)).isSome := (afterCalls_tab h).initV (m, n) hi
    cases e : (afterCalls h).vals.lookup (m, n) with
    | none => rw [e] at hk; cases hk
    | some d' =>
      have hd' := ((afterCalls_good h).vals m n d' (lookup_mem _ _ _ e)).2
      have hde := correctV_unique hv hd.2 hd'
      subst hde
      have eq : checkEqualCoeffs (itemsFrom 0 d) (itemsFrom 0 d) = .ok true := (equal_coeffs_dicts d d).2.2 rfl
      refine TestMode.Tr.bind (testLift_tr eq) fun b hb => ?_
      subst hb
      exact ih fun y hy => hl y (List.mem_cons_of_mem _ hy)

theorem testCoeffsDr_tr (fuel : Nat) (h : List Call) (l : List (Int × Int))
    (hl : ∀ x ∈ l, ValidOrders x.1 x.2 ∧ 9 ≤ x.2 ∧ x.2.toNat < fuel ∧ (initDrs.lookup x).isSome) :
    TestMode.Tr True (testCoeffsDrCalc fuel (afterCalls h).drs l) fun _ => True := by
  induction l with
  | nil => exact TestMode.Tr.pure trivial
  | cons x l ih =>
    obtain ⟨m, n⟩ := x
    obtain ⟨hv, h9, hf, hi⟩ := hl _ (List.mem_cons_self ..)
    simp only at hv h9 hf hi
    unfold testCoeffsDrCalc
    refine TestMode.Tr.bind ((TestMode.findCoeffsDr_tr fuel true m n).mono (fun _ => ⟨hv, by omega, hf⟩) fun _ hd => hd) fun d hd => ?_
    have hk : ((afterCalls h).drs.lookup (m, n)).isSome := (afterCalls_tab h).initD (m, n) hi
    cases e : (afterCalls h).drs.lookup (m, n) with
    | none => rw [e] at hk; cases hk
    | some d' =>
      have hd' := ((afterCalls_good h).drs m n d' (lookup_mem _ _ _ e)).2 h9
      have hde := correctD_unique hv (by omega) (hd.2 (by omega)) hd'
      subst hde
      have eq : checkEqualCoeffs (itemsFrom 0 d) (itemsFrom 0 d) = .ok true := (equal_coeffs_dicts d d).2.2 rfl
      refine TestMode.Tr.bind (testLift_tr eq) fun b hb => ?_
      subst hb
      exact ih fun y hy => hl y (List.mem_cons_of_mem _ hy)

/-- **C118.** `test_coeffs_calc` and `test_coeffs_dr_calc` pass whatever was called before in the two modes. -/
theorem test_coeffs_calc_passes (fuel : Nat) (hf : 10 < fuel) (t : CoefState) (ht : Relation.ReflTransGen TestStep testState t) (h : List Call) :
    (testCoeffsCalc fuel (afterCalls h).vals testedOrders t).1 = .ok () ∧ (testCoeffsDrCalc fuel (afterCalls h).drs testedOrdersDr t).1 = .ok () := by
  have hl : ∀ x ∈ testedOrders, ValidOrders x.1 x.2 ∧ x.2.toNat ≤ 10 ∧ (initVals.lookup x).isSome := by
    unfold ValidOrders; decide +kernel
  have hd : ∀ x ∈ testedOrdersDr, ValidOrders x.1 x.2 ∧ 9 ≤ x.2 ∧ x.2.toNat ≤ 10 ∧ (initDrs.lookup x).isSome := by
    unfold ValidOrders; decide +kernel
  constructor
  · obtain ⟨_, _, c⟩ := (testCoeffs_tr fuel h testedOrders fun x hx => ⟨(hl x hx).1, by have := (hl x hx).2.1; omega, (hl x hx).2.2⟩) t (good_testSteps ht)
    obtain ⟨v, hv⟩ := c trivial
    exact hv
  · obtain ⟨_, _, c⟩ := (testCoeffsDr_tr fuel h testedOrdersDr fun x hx => ⟨(hd x hx).1, (hd x hx).2.1, by have := (hd x hx).2.2.1; omega, (hd x hx).2.2.2⟩) t
      (good_testSteps ht)
    obtain ⟨v, hv⟩ := c trivial
    exact hv

/-- A concrete case: after a call for the order (2, 14) in the test mode and an eviction, the recursion of the test mode has the tested orders, and other ones. -/
example : ∃ t, Relation.ReflTransGen TestStep testState t ∧ testState.vals.length < t.vals.length ∧ t.lru = [] := by
  refine ⟨{ (findCoeffs 16 true 2 14 testState).2 with lru := [] }, ?_, ?_, rfl⟩
  · exact .tail (.tail .refl (.find 16 true 2 14 _)) (.evict _ [] _ (List.nil_sublist _) (List.Sublist.refl _))
  · decide +kernel

example : (findCoeffs 12 true 0 10 testState).1 = .ok [-1, 0, 30, 0, -210, 0, 560, 0, -630, 0, 252] := by decide +kernel

example : (findCoeffsDr 12 true 0 10 testState).1 = .ok [0, 60, 0, -840, 0, 3360, 0, -5040, 0, 2520] := by decide +kernel

end Verif.Props
