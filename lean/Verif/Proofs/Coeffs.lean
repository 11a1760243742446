import Verif.Model.Coeffs
import Verif.Proofs.RadialDr
import Mathlib.Algebra.Polynomial.Degree.Lemmas

/-! Correctness of the coefficient dictionaries and of the caches. -/

namespace Verif.Proofs
open Verif.Spec Verif.Model Finset Polynomial

/-! ### Dictionary operations -/

theorem getD_set (l : List Int) (i j : Nat) (v : Int) (h : i < l.length) :
    (l.set i v).getD j 0 = if j = i then v else l.getD j 0 := by
  simp only [List.getD_eq_getElem?_getD, List.getElem?_set]
  by_cases hj : i = j
  · subst hj; simp [h]
  · rw [if_neg hj, if_neg (fun e => hj e.symm)]

theorem getD_replicate (k j : Nat) : (List.replicate k (0 : Int)).getD j 0 = 0 := by
  simp [List.getD_eq_getElem?_getD, List.getElem?_replicate]
  split_ifs <;> rfl

theorem getD_ge (l : List Int) (j : Nat) (h : l.length ≤ j) : l.getD j 0 = 0 := by
  simp [List.getD_eq_getElem?_getD, List.getElem?_eq_none h]

theorem makeLoop_items (mx : Int) (d : Coeffs) (k : Nat) (acc : Coeffs) (minus : Bool)
    (hmx : (acc.length : Int) = mx + 1) (hlen : k + d.length ≤ acc.length) :
    ∃ out, makeLoop mx minus (itemsFrom k d) acc = .ok out ∧ out.length = acc.length ∧
      ∀ i, out.getD i 0 = if k ≤ i ∧ i < k + d.length then (if minus then -(d.getD (i - k) 0) else d.getD (i - k) 0)
        else acc.getD i 0 := by
  induction d generalizing k acc with
  | nil => exact ⟨acc, rfl, rfl, fun i => by rw [if_neg (by simp)]⟩
  | cons v t ih =>
    simp only [List.length_cons] at hlen
    unfold itemsFrom makeLoop
    rw [if_pos (by omega)]
    obtain ⟨out, h1, h2, h3⟩ := ih (k + 1) (acc.set (k : Int).toNat (if minus then -v else v)) (by simpa using hmx)
      (by simp; omega)
    refine ⟨out, h1, by simpa using h2, fun i => ?_⟩
    rw [h3 i]
    simp only [Int.toNat_natCast, List.length_cons]
    rw [getD_set _ _ _ _ (by omega)]
    by_cases hik : i = k
    · subst hik
      rw [if_neg (by omega), if_pos rfl, if_pos (show i ≤ i ∧ i < i + (t.length + 1) by omega)]; simp
    · rw [if_neg hik]
      by_cases hc : k + 1 ≤ i ∧ i < k + 1 + t.length
      · have hc' : k ≤ i ∧ i < k + (t.length + 1) := by omega
        rw [if_pos hc, if_pos hc']
        obtain ⟨j, rfl⟩ : ∃ j, i = k + 1 + j := ⟨i - (k + 1), by omega⟩
        rw [show k + 1 + j - (k + 1) = j by omega, show k + 1 + j - k = j + 1 by omega]; simp
      · rw [if_neg hc, if_neg (show ¬ (k ≤ i ∧ i < k + (t.length + 1)) by omega)]

theorem make_items (d : Coeffs) (mx : Int) (hlen : (d.length : Int) ≤ mx + 1) :
    ∃ out, makeOrdersCoeffs (itemsFrom 0 d) mx true = .ok out ∧ (out.length : Int) ≤ mx + 1 ∧
      ∀ i, out.getD i 0 = -(d.getD i 0) := by
  obtain ⟨out, h1, h2, h3⟩ := makeLoop_items mx d 0 (List.replicate (mx + 1).toNat 0) true (by simp; omega)
    (by simp; omega)
  refine ⟨out, h1, by rw [h2]; simp; omega, fun i => ?_⟩
  rw [h3 i, getD_replicate]
  simp only [Nat.zero_le, true_and, Nat.zero_add, Nat.sub_zero, if_true]
  split_ifs with h
  · rfl
  · rw [getD_ge d i (by omega)]; rfl

theorem sumLoop_items (d : Coeffs) (k : Nat) (acc : Coeffs) (hlen : k + d.length ≤ acc.length) :
    ∃ out, sumLoop (itemsFrom k d) acc = .ok out ∧ out.length = acc.length ∧
      ∀ i, out.getD i 0 = acc.getD i 0 + (if k ≤ i then d.getD (i - k) 0 else 0) := by
  induction d generalizing k acc with
  | nil => exact ⟨acc, rfl, rfl, fun i => by simp⟩
  | cons v t ih =>
    simp only [List.length_cons] at hlen
    unfold itemsFrom sumLoop
    rw [if_pos ⟨by omega, by simp; omega⟩]
    obtain ⟨out, h1, h2, h3⟩ := ih (k + 1) (acc.set (k : Int).toNat (acc.getD (k : Int).toNat 0 + v)) (by simp; omega)
    refine ⟨out, h1, by simpa using h2, fun i => ?_⟩
    rw [h3 i]
    simp only [Int.toNat_natCast]
    rw [getD_set _ _ _ _ (by omega)]
    by_cases hik : i = k
    · subst hik
      rw [if_pos rfl, if_neg (by omega), if_pos (le_refl i)]; simp
    · rw [if_neg hik]
      by_cases hc : k + 1 ≤ i
      · rw [if_pos hc, if_pos (by omega)]
        obtain ⟨j, rfl⟩ : ∃ j, i = k + 1 + j := ⟨i - (k + 1), by omega⟩
        rw [show k + 1 + j - (k + 1) = j by omega, show k + 1 + j - k = j + 1 by omega]; simp
      · rw [if_neg hc, if_neg (by omega)]

theorem sumArgs_ok (args : List Coeffs) (acc : Coeffs) (h : ∀ d ∈ args, d.length ≤ acc.length) :
    ∃ out, sumArgs args acc = .ok out ∧ out.length = acc.length ∧
      ∀ i, out.getD i 0 = acc.getD i 0 + (args.map (fun d => d.getD i 0)).sum := by
  induction args generalizing acc with
  | nil => exact ⟨acc, rfl, rfl, fun i => by simp⟩
  | cons d t ih =>
    obtain ⟨o1, a1, a2, a3⟩ := sumLoop_items d 0 acc (by have := h d (by simp); omega)
    obtain ⟨o2, b1, b2, b3⟩ := ih o1 (fun d' hd' => by rw [a2]; exact h d' (by simp [hd']))
    refine ⟨o2, ?_, by rw [b2, a2], fun i => ?_⟩
    · unfold sumArgs; rw [a1]; exact b1
    · rw [b3, a3]; simp; ring

theorem sumOrders_ok (n : Int) (args : List Coeffs) (hn : 0 ≤ n) (h : ∀ d ∈ args, (d.length : Int) ≤ n + 1) :
    ∃ out, sumOrdersCoeffs n args = .ok out ∧ n ≤ out.length ∧ (out.length : Int) ≤ n + 1 ∧
      ((∀ d ∈ args, (d.length : Int) ≤ n) → (out.length : Int) = n) ∧
      ∀ i, out.getD i 0 = (args.map (fun d => d.getD i 0)).sum := by
  obtain ⟨o, a1, a2, a3⟩ := sumArgs_ok args (List.replicate (n + 1).toNat 0)
    (fun d hd => by have := h d hd; simp; omega)
  have hl : (o.length : Int) = n + 1 := by rw [a2]; simp; omega
  simp only [getD_replicate, zero_add] at a3
  unfold sumOrdersCoeffs
  rw [a1]
  simp only [bind, Except.bind]
  rw [if_neg (by omega)]
  split_ifs with htop
  · refine ⟨_, rfl, by simp; omega, by simp; omega, fun _ => by simp; omega, fun i => ?_⟩
    rw [← a3 i]
    by_cases hi : i < n.toNat
    · simp [List.getD_eq_getElem?_getD, hi]
    · rw [getD_ge _ _ (by simp; omega)]
      by_cases he : i = n.toNat
      · rw [he, htop]
      · rw [getD_ge _ _ (by omega)]
  · refine ⟨_, rfl, by omega, by omega, fun hs => ?_, a3⟩
    exfalso; apply htop
    rw [a3]
    have : args.map (fun d => d.getD n.toNat 0) = args.map (fun _ => (0 : Int)) :=
      List.map_congr_left fun d hd => getD_ge d _ (by have := hs d hd; omega)
    rw [this]; simp

theorem increaseLoop_items (d : Coeffs) (k : Nat) (acc : Coeffs) (hlen : acc.length = k + d.length) (hd : d ≠ [])
    (hz : ∀ i, k < i → acc.getD i 0 = 0) :
    let out := increaseLoop (itemsFrom k d) acc
    acc.length ≤ out.length ∧ out.length ≤ acc.length + 1 ∧
      ∀ i, out.getD i 0 = if k < i then d.getD (i - k - 1) 0 else acc.getD i 0 := by
  induction d generalizing k acc with
  | nil => exact absurd rfl hd
  | cons v t ih =>
    simp only [List.length_cons] at hlen
    intro out
    have hout : out = increaseLoop (itemsFrom (k + 1) t)
        (if v ≠ 0 then (if ((k : Int) + 1).toNat < acc.length then acc.set ((k : Int) + 1).toNat v else acc ++ [v])
          else acc) := by
      show increaseLoop (itemsFrom k (v :: t)) acc = _
      conv_lhs => unfold itemsFrom increaseLoop
      split_ifs <;> rfl
    rw [show ((k : Int) + 1).toNat = k + 1 by omega] at hout
    rcases t with _ | ⟨w, t⟩
    · simp only [itemsFrom, increaseLoop] at hout
      simp only [List.length_nil] at hlen
      by_cases hv : v = 0
      · rw [if_neg (by simpa using hv)] at hout
        rw [hout]
        refine ⟨by omega, by omega, fun i => ?_⟩
        split_ifs with hi
        · rw [hz i hi]
          rcases h : i - k - 1 with _ | j <;> simp [hv]
        · rfl
      · rw [if_pos hv, if_neg (by omega)] at hout
        rw [hout]
        refine ⟨by simp, by simp, fun i => ?_⟩
        by_cases h1 : i < acc.length
        · rw [if_neg (by omega)]
          simp [List.getD_eq_getElem?_getD, List.getElem?_append_left h1]
        · rw [if_pos (by omega)]
          simp only [List.getD_eq_getElem?_getD, List.getElem?_append_right (by omega : acc.length ≤ i)]
          rw [show i - k - 1 = i - acc.length by omega]
    · simp only [List.length_cons] at hlen
      rw [if_pos (by omega : k + 1 < acc.length)] at hout
      have key : ∀ acc' : Coeffs, acc'.length = acc.length → acc'.getD (k + 1) 0 = v →
          (∀ i, i ≠ k + 1 → acc'.getD i 0 = acc.getD i 0) → out = increaseLoop (itemsFrom (k + 1) (w :: t)) acc' →
          acc.length ≤ out.length ∧ out.length ≤ acc.length + 1 ∧
          ∀ i, out.getD i 0 = if k < i then (v :: w :: t).getD (i - k - 1) 0 else acc.getD i 0 := by
        intro acc' e1 e2 e3 e4
        obtain ⟨i1, i2, i3⟩ := ih (k + 1) acc' (by simp; omega) (by simp)
          (fun i hi => by rw [e3 i (by omega)]; exact hz i (by omega))
        rw [e4]
        refine ⟨by omega, by omega, fun i => ?_⟩
        rw [i3 i]
        by_cases h1 : k + 1 < i
        · rw [if_pos h1, if_pos (by omega)]
          obtain ⟨j, rfl⟩ : ∃ j, i = k + 2 + j := ⟨i - (k + 2), by omega⟩
          rw [show k + 2 + j - (k + 1) - 1 = j by omega, show k + 2 + j - k - 1 = j + 1 by omega]; simp
        · rw [if_neg h1]
          by_cases h2 : i = k + 1
          · subst h2; rw [e2, if_pos (by omega), show k + 1 - k - 1 = 0 by omega]; simp
          · rw [e3 i h2, if_neg (by omega)]
      by_cases hv : v = 0
      · rw [if_neg (by simpa using hv)] at hout
        exact key acc rfl (by rw [hz _ (by omega), hv]) (fun _ _ => rfl) hout
      · rw [if_pos hv] at hout
        refine key _ (by simp) ?_ ?_ hout
        · rw [getD_set _ _ _ _ (by omega)]; simp
        · intro i hi; rw [getD_set _ _ _ _ (by omega), if_neg hi]

theorem increase_ok (d : Coeffs) (hd : d ≠ []) :
    ∃ out, increaseOrderCoeffs d = .ok out ∧ out.length ≤ d.length + 1 ∧ d.length ≤ out.length ∧
      out.getD 0 0 = 0 ∧ ∀ i, out.getD (i + 1) 0 = d.getD i 0 := by
  have hl : d.length ≠ 0 := by simpa using hd
  obtain ⟨i1, i2, i3⟩ := increaseLoop_items d 0 (List.replicate d.length 0) (by simp) hd
    (fun i _ => getD_replicate _ _)
  refine ⟨_, by unfold increaseOrderCoeffs; rw [if_neg hl], by simpa using i2, by simpa using i1, ?_, fun i => ?_⟩
  · rw [i3 0, if_neg (by omega), getD_replicate]
  · rw [i3 (i + 1)]; simp

/-! ### Correct dictionaries -/

/-- `d` is the coefficient dictionary of the radial polynomial `(m, n)`. -/
def CorrectV (m n : Int) (d : Coeffs) : Prop :=
  d ≠ [] ∧ (d.length : Int) ≤ n + 1 ∧ ∀ i, d.getD i 0 = (RP m n).coeff i

/-- `d` is the coefficient dictionary of its derivative. -/
def CorrectD (m n : Int) (d : Coeffs) : Prop :=
  d ≠ [] ∧ (d.length : Int) ≤ n ∧ ∀ i, d.getD i 0 = (derivative (RP m n)).coeff i

theorem CorrectV.abs {m n : Int} {d : Coeffs} (h : CorrectV (pyAbs m) n d) : CorrectV m n d := by
  unfold CorrectV RP at *; rw [RR_abs] at h; exact h

theorem CorrectD.abs {m n : Int} {d : Coeffs} (h : CorrectD (pyAbs m) n d) : CorrectD m n d := by
  unfold CorrectD RP at *; rw [RR_abs] at h; exact h

theorem make_single (n k v : Int) (hk : 0 ≤ k) (hkn : k ≤ n) :
    ∃ out, makeOrdersCoeffs [(k, v)] n false = .ok out ∧ (out.length : Int) = n + 1 ∧
      ∀ i : Nat, out.getD i 0 = if (i : Int) = k then v else 0 := by
  refine ⟨_, by unfold makeOrdersCoeffs makeLoop; rw [if_pos ⟨hk, hkn⟩]; rfl, by simp; omega, fun i => ?_⟩
  rw [getD_set _ _ _ _ (by simp; omega), getD_replicate]
  by_cases h : (i : Int) = k
  · rw [if_pos h, if_pos (by omega)]; rfl
  · rw [if_neg h, if_neg (by omega)]

theorem make_pair (n k v k' v' : Int) (hk : 0 ≤ k) (hkn : k ≤ n) (hk' : 0 ≤ k') (hkn' : k' ≤ n) (hne : k ≠ k') :
    ∃ out, makeOrdersCoeffs [(k, v), (k', v')] n false = .ok out ∧ (out.length : Int) = n + 1 ∧
      ∀ i : Nat, out.getD i 0 = (if (i : Int) = k then v else 0) + (if (i : Int) = k' then v' else 0) := by
  refine ⟨_, by unfold makeOrdersCoeffs makeLoop makeLoop; rw [if_pos ⟨hk, hkn⟩, if_pos ⟨hk', hkn'⟩]; rfl,
    by simp; omega, fun i => ?_⟩
  rw [getD_set _ _ _ _ (by simp; omega), getD_set _ _ _ _ (by simp; omega), getD_replicate]
  by_cases h : (i : Int) = k <;> by_cases h' : (i : Int) = k'
  · omega
  · rw [if_neg (by omega), if_pos (by omega), if_pos h, if_neg h']; simp
  · rw [if_pos (by omega), if_neg h, if_pos h']; simp
  · rw [if_neg (by omega), if_neg (by omega), if_neg h, if_neg h']; simp

theorem special_val (m n : Int) (hv : ValidOrders m n) :
    (∃ d, checkSpecialOrders m n = .ok (some d) ∧ CorrectV m n d) ∨
      (checkSpecialOrders m n = .ok none ∧ pyAbs m ≠ n) := by
  have hn := (valid_iff m n).1 hv
  unfold checkSpecialOrders
  split_ifs with h1 h2
  · left
    obtain ⟨d, e1, e2, e3⟩ := make_single n n 1 hn.1 le_rfl
    refine ⟨d, by rw [e1]; rfl, ?_, by omega, fun i => ?_⟩
    · intro h; rw [h] at e2; simp at e2; omega
    · rw [e3]; unfold RP; rw [RR_diag m n hv h1, coeff_X_pow]
      by_cases h : (i : Int) = n
      · rw [if_pos h, if_pos (by omega)]
      · rw [if_neg h, if_neg (by omega)]
  · left
    have hn2 : 2 ≤ n := by unfold pyAbs at h2; split_ifs at h2 <;> omega
    obtain ⟨d, e1, e2, e3⟩ := make_pair n n n (n - 2) (-(n - 1)) hn.1 le_rfl (by omega) (by omega) (by omega)
    refine ⟨d, by rw [e1]; rfl, ?_, by omega, fun i => ?_⟩
    · intro h; rw [h] at e2; simp at e2; omega
    · rw [e3]; unfold RP; rw [RR_subdiag m n hv h2, coeff_sub]
      rw [← Polynomial.C_eq_intCast, ← Polynomial.C_eq_intCast, coeff_C_mul, coeff_C_mul, coeff_X_pow, coeff_X_pow]
      have q1 : ((i : Int) = n) ↔ i = n.toNat := by omega
      have q2 : ((i : Int) = n - 2) ↔ i = (n - 2).toNat := by omega
      simp only [q1, q2, mul_ite, mul_one, mul_zero, Int.cast_id]
      split_ifs <;> ring
  · right; exact ⟨rfl, h1⟩

theorem special_dr (m n : Int) (hv : ValidOrders m n) (hn9 : 9 ≤ n) :
    (∃ d, checkSpecialOrdersDr m n = .ok (some d) ∧ CorrectD m n d) ∨
      (checkSpecialOrdersDr m n = .ok none ∧ pyAbs m ≠ n ∧ pyAbs m ≠ n - 2) := by
  have hn := (valid_iff m n).1 hv
  unfold checkSpecialOrdersDr
  split_ifs with h1 h2
  · left
    obtain ⟨d, e1, e2, e3⟩ := make_single (n - 1) (n - 1) n (by omega) le_rfl
    refine ⟨d, by rw [e1]; rfl, ?_, by omega, fun i => ?_⟩
    · intro h; rw [h] at e2; simp at e2; omega
    · rw [e3]; unfold RP; rw [RR_diag m n hv h1, derivative_X_pow, coeff_C_mul, coeff_X_pow]
      by_cases h : (i : Int) = n - 1
      · rw [if_pos h, if_pos (by omega)]; simp; omega
      · rw [if_neg h, if_neg (by omega)]; simp
  · left
    obtain ⟨d, e1, e2, e3⟩ := make_pair (n - 1) (n - 1) (n * n) (n - 3) (-(n - 1) * (n - 2)) (by omega) le_rfl (by omega)
      (by omega) (by omega)
    refine ⟨d, by rw [e1]; rfl, ?_, by omega, fun i => ?_⟩
    · intro h; rw [h] at e2; simp at e2; omega
    · rw [e3]; unfold RP; rw [RR_subdiag m n hv h2, derivative_sub, derivative_mul, derivative_mul, derivative_intCast,
        derivative_intCast, derivative_X_pow, derivative_X_pow]
      rw [zero_mul, zero_mul, zero_add, zero_add, coeff_sub, ← Polynomial.C_eq_intCast, ← Polynomial.C_eq_intCast,
        coeff_C_mul, coeff_C_mul, coeff_C_mul, coeff_C_mul, coeff_X_pow, coeff_X_pow]
      have q1 : ((i : Int) = n - 1) ↔ i = n.toNat - 1 := by omega
      have q2 : ((i : Int) = n - 3) ↔ i = (n - 2).toNat - 1 := by omega
      have q3 : ((n.toNat : Nat) : Int) = n := by omega
      have q4 : (((n - 2).toNat : Nat) : Int) = n - 2 := by omega
      simp only [q1, q2, mul_ite, mul_one, mul_zero, Int.cast_id, q3, q4]
      split_ifs <;> ring
  · right; exact ⟨rfl, h1, h2⟩

theorem coeff_X_mul_cases (p : ℤ[X]) (d out : Coeffs) (h0 : out.getD 0 0 = 0) (hs : ∀ i, out.getD (i + 1) 0 = d.getD i 0)
    (hd : ∀ i, d.getD i 0 = p.coeff i) (i : Nat) : out.getD i 0 = (X * p).coeff i := by
  rcases i with _ | i
  · rw [h0]; simp
  · rw [hs, hd, coeff_X_mul]

/-- The general step of `find_coeffs_orders`. -/
theorem step_val (m n : Int) (hv : ValidOrders m n) (hne : pyAbs m ≠ n) (p1 p2 p3 : Coeffs)
    (h1 : CorrectV (pyAbs (m - 1)) (n - 1) p1) (h2 : CorrectV (m + 1) (n - 1) p2) (h3 : CorrectV m (n - 2) p3) :
    ∃ i1 i2 m3 d, increaseOrderCoeffs p1 = .ok i1 ∧ increaseOrderCoeffs p2 = .ok i2 ∧
      makeOrdersCoeffs (itemsFrom 0 p3) (n - 2) true = .ok m3 ∧ sumOrdersCoeffs n [i1, i2, m3] = .ok d ∧
      CorrectV m n d := by
  have h1 := h1.abs
  obtain ⟨v1, v2, v3⟩ := valid_down hv hne
  have w3 := (valid_iff _ _).1 v3
  obtain ⟨i1, a1, a2, a2', a3, a4⟩ := increase_ok p1 h1.1
  obtain ⟨i2, b1, b2, b2', b3, b4⟩ := increase_ok p2 h2.1
  obtain ⟨m3, c1, c2, c3⟩ := make_items p3 (n - 2) (by have := h3.2.1; omega)
  have l1 := h1.2.1
  have l2 := h2.2.1
  obtain ⟨d, d1, d2, d3, d4, d5⟩ := sumOrders_ok n [i1, i2, m3] (by omega) (by
    intro x hx
    simp only [List.mem_cons, List.not_mem_nil, or_false] at hx
    rcases hx with rfl | rfl | rfl <;> omega)
  refine ⟨i1, i2, m3, d, a1, b1, c1, d1, ?_, by omega, fun i => ?_⟩
  · intro h; rw [h] at d2; simp at d2; omega
  · rw [d5]
    have e : RP m n = X * (RP (m - 1) (n - 1) + RP (m + 1) (n - 1)) - RP m (n - 2) := by
      unfold RP; exact RR_rec m n hv hne X
    rw [e, mul_add, coeff_sub, coeff_add, ← coeff_X_mul_cases _ p1 i1 a3 a4 h1.2.2,
      ← coeff_X_mul_cases _ p2 i2 b3 b4 h2.2.2, ← h3.2.2]
    simp only [List.map_cons, List.map_nil, List.sum_cons, List.sum_nil, c3]
    ring

/-- The general step of `find_coeffs_orders_dr`. -/
theorem step_dr (m n : Int) (hv : ValidOrders m n) (hne : pyAbs m ≠ n) (p1 p2 e1 e2 e3 : Coeffs)
    (h1 : CorrectV (pyAbs (m - 1)) (n - 1) p1) (h2 : CorrectV (m + 1) (n - 1) p2)
    (g1 : CorrectD (pyAbs (m - 1)) (n - 1) e1) (g2 : CorrectD (m + 1) (n - 1) e2) (g3 : CorrectD m (n - 2) e3) :
    ∃ i1 i2 m3 d, increaseOrderCoeffs e1 = .ok i1 ∧ increaseOrderCoeffs e2 = .ok i2 ∧
      makeOrdersCoeffs (itemsFrom 0 e3) (n - 2) true = .ok m3 ∧ sumOrdersCoeffs n [p1, p2, i1, i2, m3] = .ok d ∧
      CorrectD m n d := by
  have h1 := h1.abs
  have g1 := g1.abs
  obtain ⟨v1, v2, v3⟩ := valid_down hv hne
  have w3 := (valid_iff _ _).1 v3
  obtain ⟨i1, a1, a2, a2', a3, a4⟩ := increase_ok e1 g1.1
  obtain ⟨i2, b1, b2, b2', b3, b4⟩ := increase_ok e2 g2.1
  obtain ⟨m3, c1, c2, c3⟩ := make_items e3 (n - 2) (by have := g3.2.1; omega)
  have l1 := h1.2.1
  have l2 := h2.2.1
  have k1 := g1.2.1
  have k2 := g2.2.1
  have hlen : ∀ x ∈ [p1, p2, i1, i2, m3], (List.length x : Int) ≤ n := by
    intro x hx
    simp only [List.mem_cons, List.not_mem_nil, or_false] at hx
    rcases hx with rfl | rfl | rfl | rfl | rfl <;> omega
  obtain ⟨d, d1, d2, d3, d4, d5⟩ := sumOrders_ok n [p1, p2, i1, i2, m3] (by omega)
    (fun x hx => by have := hlen x hx; omega)
  refine ⟨i1, i2, m3, d, a1, b1, c1, d1, ?_, by rw [d4 hlen], fun i => ?_⟩
  · intro h; rw [h] at d2; simp at d2; omega
  · rw [d5]
    have e : RP m n = X * (RP (m - 1) (n - 1) + RP (m + 1) (n - 1)) - RP m (n - 2) := by
      unfold RP; exact RR_rec m n hv hne X
    rw [e, derivative_sub, derivative_mul, derivative_X, one_mul, derivative_add, mul_add, coeff_sub, coeff_add, coeff_add,
      coeff_add, ← coeff_X_mul_cases _ e1 i1 a3 a4 g1.2.2,
      ← coeff_X_mul_cases _ e2 i2 b3 b4 g2.2.2, ← g3.2.2, ← h1.2.2, ← h2.2.2]
    simp only [List.map_cons, List.map_nil, List.sum_cons, List.sum_nil, c3]
    ring

/-! ### The caches -/

theorem lookup_mem {κ β : Type} [BEq κ] [LawfulBEq κ] (k : κ) (d : β) (t : List (κ × β)) (h : t.lookup k = some d) :
    (k, d) ∈ t := by
  induction t with
  | nil => simp at h
  | cons e t ih =>
    obtain ⟨k', d'⟩ := e
    rw [List.lookup_cons] at h
    split at h
    · rename_i hk
      have := eq_of_beq hk
      cases h; subst this; simp
    · exact List.mem_cons_of_mem _ (ih h)

theorem lookup_none {κ β : Type} [BEq κ] [LawfulBEq κ] (k : κ) (t : List (κ × β)) (h : t.lookup k = none) :
    k ∉ t.map Prod.fst := by
  induction t with
  | nil => simp
  | cons e t ih =>
    obtain ⟨k', d'⟩ := e
    rw [List.lookup_cons] at h
    split at h
    · cases h
    · rename_i hk
      simp only [List.map_cons, List.mem_cons, not_or]
      exact ⟨fun e => by subst e; simp at hk, ih h⟩

/-- Every stored dictionary is correct. -/
structure Good (s : CoefState) : Prop where
  vals : ∀ m n d, ((m, n), d) ∈ s.vals → ValidOrders m n ∧ CorrectV m n d
  drs : ∀ m n d, ((m, n), d) ∈ s.drs → ValidOrders m n ∧ (9 ≤ n → CorrectD m n d)
  lru : ∀ m n b d, (((m, n), b), d) ∈ s.lru → ValidOrders m n ∧ CorrectV m n d
  lruDr : ∀ m n b d, (((m, n), b), d) ∈ s.lruDr → ValidOrders m n ∧ (9 ≤ n → CorrectD m n d)
  keys : ∀ k ∈ initDrs.map Prod.fst, k ∈ s.drs.map Prod.fst

/-- From good states, `x` ends in a good state, its result satisfies `Q`, and it succeeds if `c`. -/
def Tr {β : Type} (c : Prop) (x : CM β) (Q : β → Prop) : Prop :=
  ∀ s, Good s → Good (x s).2 ∧ (∀ v, (x s).1 = .ok v → Q v) ∧ (c → ∃ v, (x s).1 = .ok v)

theorem Tr.app {β : Type} {c : Prop} {x : CM β} {Q : β → Prop} (s : CoefState) (hs : Good s) (h : Tr c x Q) :
    Good (x s).2 ∧ (∀ v, (x s).1 = .ok v → Q v) ∧ (c → ∃ v, (x s).1 = .ok v) := h s hs

theorem Tr.bind {β γ : Type} {c : Prop} {x : CM β} {f : β → CM γ} {Q : β → Prop} {Q' : γ → Prop}
    (h1 : Tr c x Q) (h2 : ∀ v, Q v → Tr c (f v) Q') : Tr c (x >>= f) Q' := by
  intro s hs
  obtain ⟨a1, a2, a3⟩ := h1 s hs
  show Good ((match x s with | (.ok v, s') => f v s' | (.error e, s') => (.error e, s')).2) ∧ _
  change _ ∧ (∀ v, (match x s with | (.ok v, s') => f v s' | (.error e, s') => (.error e, s')).1 = .ok v → Q' v) ∧
    (c → ∃ v, (match x s with | (.ok v, s') => f v s' | (.error e, s') => (.error e, s')).1 = .ok v)
  rcases hx : x s with ⟨r, s'⟩
  rw [hx] at a1 a2 a3
  cases r with
  | error e => exact ⟨a1, fun v hv => by simp at hv, fun hc => by obtain ⟨v, hv⟩ := a3 hc; simp at hv⟩
  | ok v => exact h2 v (a2 v rfl) s' a1

theorem Tr.pure {β : Type} {c : Prop} {v : β} {Q : β → Prop} (h : Q v) : Tr c (pure v : CM β) Q :=
  fun s hs => ⟨hs, fun w hw => by cases hw; exact h, fun _ => ⟨v, rfl⟩⟩

theorem Tr.lift {β : Type} {c : Prop} {x : Res β} {Q : β → Prop} (h : ∀ v, x = .ok v → Q v) (h' : c → ∃ v, x = .ok v) :
    Tr c (CM.lift x) Q := fun _ hs => ⟨hs, h, h'⟩

theorem Tr.mono {β : Type} {c c' : Prop} {x : CM β} {Q Q' : β → Prop} (h : Tr c x Q) (hc : c' → c)
    (hq : ∀ v, Q v → Q' v) : Tr c' x Q' := fun s hs =>
  ⟨(h s hs).1, fun v hv => hq v ((h s hs).2.1 v hv), fun k => (h s hs).2.2 (hc k)⟩

theorem Tr.raise {β : Type} {c : Prop} {e : PyErr} {Q : β → Prop} (h : ¬ c) : Tr c (CM.raise e : CM β) Q :=
  fun _ hs => ⟨hs, fun v hv => (by simp [CM.raise] at hv), fun k => absurd k h⟩

theorem mem_putNew {k : Int × Int} {d : Coeffs} {t : Table} {e : (Int × Int) × Coeffs} (h : e ∈ putNew k d t) :
    e ∈ t ∨ e = (k, d) := by
  unfold putNew at h
  split at h
  · exact .inl h
  · simpa using h

theorem keys_putNew {k k' : Int × Int} {d : Coeffs} {t : Table} (h : k' ∈ t.map Prod.fst) :
    k' ∈ (putNew k d t).map Prod.fst := by
  unfold putNew
  split
  · exact h
  · rw [List.map_append]; exact List.mem_append_left _ h

theorem Tr.putVal {c : Prop} {m n : Int} {d : Coeffs} (h : ValidOrders m n ∧ CorrectV m n d) :
    Tr c (putVal (m, n) d) (fun _ => True) := by
  intro s hs
  refine ⟨⟨fun m' n' d' hm => ?_, hs.drs, hs.lru, hs.lruDr, hs.keys⟩, fun _ _ => trivial, fun _ => ⟨_, rfl⟩⟩
  rcases mem_putNew hm with hm | hm
  · exact hs.vals _ _ _ hm
  · cases hm; exact h

theorem Tr.putDr {c : Prop} {m n : Int} {d : Coeffs} (h : ValidOrders m n ∧ (9 ≤ n → CorrectD m n d)) :
    Tr c (putDr (m, n) d) (fun _ => True) := by
  intro s hs
  refine ⟨⟨hs.vals, fun m' n' d' hm => ?_, hs.lru, hs.lruDr, fun k hk => keys_putNew (hs.keys k hk)⟩,
    fun _ _ => trivial, fun _ => ⟨_, rfl⟩⟩
  rcases mem_putNew hm with hm | hm
  · exact hs.drs _ _ _ hm
  · cases hm; exact h

theorem mem_lruTouch {k : LruKey} {d : Coeffs} {c : Lru} {e : LruKey × Coeffs} (h : e ∈ lruTouch k d c) :
    e = (k, d) ∨ e ∈ c := by
  unfold lruTouch at h
  rcases List.mem_cons.1 h with h | h
  · exact .inl h
  · exact .inr (List.mem_filter.1 h).1

theorem mem_lruInsert {k : LruKey} {d : Coeffs} {c : Lru} {e : LruKey × Coeffs} (h : e ∈ lruInsert k d c) :
    e = (k, d) ∨ e ∈ c := List.mem_cons.1 (List.mem_of_mem_take h)

theorem Tr.cachedVal {c : Prop} {m n : Int} {b : Bool} {body : CM Coeffs}
    (h : Tr c body (fun d => ValidOrders m n ∧ CorrectV m n d)) :
    Tr c (cachedVal ((m, n), b) body) (fun d => ValidOrders m n ∧ CorrectV m n d) := by
  intro s hs
  unfold Model.cachedVal
  cases hl : s.lru.lookup ((m, n), b) with
  | some d =>
    have hm := lookup_mem _ _ _ hl
    refine ⟨⟨hs.vals, hs.drs, fun m' n' b' d' hm' => ?_, hs.lruDr, hs.keys⟩, fun v hv => ?_, fun _ => ⟨d, rfl⟩⟩
    · rcases mem_lruTouch hm' with e | e
      · cases e; exact hs.lru _ _ _ _ hm
      · exact hs.lru _ _ _ _ e
    · cases hv; exact hs.lru _ _ _ _ hm
  | none =>
    obtain ⟨a1, a2, a3⟩ := h s hs
    rcases hx : body s with ⟨r, s'⟩
    rw [hx] at a1 a2 a3
    cases r with
    | error e => exact ⟨a1, fun v hv => by simp at hv, fun hc => by obtain ⟨v, hv⟩ := a3 hc; simp at hv⟩
    | ok d =>
      refine ⟨⟨a1.vals, a1.drs, fun m' n' b' d' hm' => ?_, a1.lruDr, a1.keys⟩, fun v hv => ?_, fun _ => ⟨d, rfl⟩⟩
      · rcases mem_lruInsert hm' with e | e
        · cases e; exact a2 d rfl
        · exact a1.lru _ _ _ _ e
      · cases hv; exact a2 d rfl

theorem Tr.cachedDr {c : Prop} {m n : Int} {b : Bool} {body : CM Coeffs}
    (h : Tr c body (fun d => ValidOrders m n ∧ (9 ≤ n → CorrectD m n d))) :
    Tr c (cachedDr ((m, n), b) body) (fun d => ValidOrders m n ∧ (9 ≤ n → CorrectD m n d)) := by
  intro s hs
  unfold Model.cachedDr
  cases hl : s.lruDr.lookup ((m, n), b) with
  | some d =>
    have hm := lookup_mem _ _ _ hl
    refine ⟨⟨hs.vals, hs.drs, hs.lru, fun m' n' b' d' hm' => ?_, hs.keys⟩, fun v hv => ?_, fun _ => ⟨d, rfl⟩⟩
    · rcases mem_lruTouch hm' with e | e
      · cases e; exact hs.lruDr _ _ _ _ hm
      · exact hs.lruDr _ _ _ _ e
    · cases hv; exact hs.lruDr _ _ _ _ hm
  | none =>
    obtain ⟨a1, a2, a3⟩ := h s hs
    rcases hx : body s with ⟨r, s'⟩
    rw [hx] at a1 a2 a3
    cases r with
    | error e => exact ⟨a1, fun v hv => by simp at hv, fun hc => by obtain ⟨v, hv⟩ := a3 hc; simp at hv⟩
    | ok d =>
      refine ⟨⟨a1.vals, a1.drs, a1.lru, fun m' n' b' d' hm' => ?_, a1.keys⟩, fun v hv => ?_, fun _ => ⟨d, rfl⟩⟩
      · rcases mem_lruInsert hm' with e | e
        · cases e; exact a2 d rfl
        · exact a1.lruDr _ _ _ _ e
      · cases hv; exact a2 d rfl

theorem Tr.any {β : Type} {x : Res β} : Tr False (CM.lift x) (fun _ => True) :=
  Tr.lift (fun _ _ => trivial) (fun h => h.elim)

theorem special_none (m n : Int) (h : ¬ ValidOrders m n) : checkSpecialOrders m n = .ok none := by
  rw [valid_iff] at h
  unfold checkSpecialOrders pyAbs
  split_ifs <;> first | rfl | omega

theorem special_none_dr (m n : Int) (h : ¬ ValidOrders m n) : checkSpecialOrdersDr m n = .ok none := by
  rw [valid_iff] at h
  unfold checkSpecialOrdersDr pyAbs
  split_ifs <;> first | rfl | omega

theorem invalid_down {m n : Int} (h : ¬ ValidOrders m n) : ¬ ValidOrders (pyAbs (m - 1)) (n - 1) := by
  rw [valid_iff] at *
  unfold pyAbs
  split_ifs <;> omega

theorem findCoeffs_tr (fuel : Nat) (b : Bool) (m n : Int) :
    Tr (ValidOrders m n ∧ n.toNat < fuel) (findCoeffs fuel b m n) (fun d => ValidOrders m n ∧ CorrectV m n d) := by
  induction fuel generalizing b m n with
  | zero => exact Tr.raise (by omega)
  | succ fuel ih =>
    unfold findCoeffs
    refine Tr.cachedVal ?_
    intro s hs
    simp only
    cases hl : s.vals.lookup (m, n) with
    | some d =>
      exact ⟨hs, fun v hv => by cases hv; exact hs.vals _ _ _ (lookup_mem _ _ _ hl), fun _ => ⟨d, rfl⟩⟩
    | none =>
      simp only
      refine Tr.app (Q := fun d => ValidOrders m n ∧ CorrectV m n d) s hs ?_
      by_cases hv : ValidOrders m n
      · rcases special_val m n hv with ⟨d, e1, e2⟩ | ⟨e1, hne⟩
        · refine Tr.bind (Q := fun o => o = some d) (Tr.lift (fun v h => by rw [e1] at h; cases h; rfl)
            (fun _ => ⟨_, e1⟩)) ?_
          rintro v rfl
          exact Tr.bind (Tr.putVal ⟨hv, e2⟩) fun _ _ => Tr.pure ⟨hv, e2⟩
        · refine Tr.bind (Q := fun o => o = none) (Tr.lift (fun v h => by rw [e1] at h; cases h; rfl)
            (fun _ => ⟨_, e1⟩)) ?_
          rintro v rfl
          obtain ⟨v1, v2, v3⟩ := valid_down hv hne
          have w3 := (valid_iff _ _).1 v3
          refine Tr.bind ((ih true (pyAbs (m - 1)) (n - 1)).mono (fun h => ⟨valid_pyAbs v1, by omega⟩) fun _ h => h) ?_
          intro p1 c1
          refine Tr.bind ((ih true (m + 1) (n - 1)).mono (fun h => ⟨v2, by omega⟩) fun _ h => h) ?_
          intro p2 c2
          obtain ⟨i1, a1, -⟩ := increase_ok p1 c1.2.1
          obtain ⟨i2, a2, -⟩ := increase_ok p2 c2.2.1
          refine Tr.bind (Q := fun o => o = i1) (Tr.lift (fun v h => by rw [a1] at h; cases h; rfl)
            (fun _ => ⟨_, a1⟩)) ?_
          rintro v rfl
          refine Tr.bind (Q := fun o => o = i2) (Tr.lift (fun v h => by rw [a2] at h; cases h; rfl)
            (fun _ => ⟨_, a2⟩)) ?_
          rintro v rfl
          refine Tr.bind ((ih true m (n - 2)).mono (fun h => ⟨v3, by omega⟩) fun _ h => h) ?_
          intro p3 c3
          obtain ⟨i1', i2', m3, d, f1, f2, f3, f4, f5⟩ := step_val m n hv hne p1 p2 p3 c1.2 c2.2 c3.2
          rw [a1] at f1; cases f1
          rw [a2] at f2; cases f2
          refine Tr.bind (Q := fun o => o = m3) (Tr.lift (fun v h => by rw [f3] at h; cases h; rfl)
            (fun _ => ⟨_, f3⟩)) ?_
          rintro v rfl
          refine Tr.bind (Q := fun o => o = d) (Tr.lift (fun v h => by rw [f4] at h; cases h; rfl)
            (fun _ => ⟨_, f4⟩)) ?_
          rintro v rfl
          exact Tr.bind (Tr.putVal c1) fun _ _ => Tr.bind (Tr.putVal c2) fun _ _ => Tr.pure ⟨hv, f5⟩
      · refine Tr.bind (Q := fun o => o = none) (Tr.lift (fun v h => by rw [special_none m n hv] at h; cases h; rfl)
          (fun _ => ⟨_, special_none m n hv⟩)) ?_
        rintro v rfl
        exact Tr.bind ((ih true (pyAbs (m - 1)) (n - 1)).mono (fun h => absurd h.1 hv) fun _ h => h)
          fun p1 c1 => absurd c1.1 (invalid_down hv)

theorem initDrs_keys (m n : Int) (hv : ValidOrders m n) (h9 : 9 ≤ n) (h10 : n ≤ 10) (h1 : pyAbs m ≠ n)
    (h2 : pyAbs m ≠ n - 2) : (m, n) ∈ initDrs.map Prod.fst := by
  rw [valid_iff] at hv
  obtain ⟨h0, g1, g2, g3⟩ := hv
  interval_cases n <;> interval_cases m <;> first | omega | (exact absurd rfl h1) | (exact absurd rfl h2) | simp [initDrs]

theorem findCoeffsDr_tr (fuel : Nat) (b : Bool) (m n : Int) :
    Tr (ValidOrders m n ∧ 9 ≤ n ∧ n.toNat < fuel) (findCoeffsDr fuel b m n)
      (fun d => ValidOrders m n ∧ (9 ≤ n → CorrectD m n d)) := by
  induction fuel generalizing b m n with
  | zero => exact Tr.raise (by omega)
  | succ fuel ih =>
    unfold findCoeffsDr
    refine Tr.cachedDr ?_
    intro s hs
    simp only
    cases hl : s.drs.lookup (m, n) with
    | some d =>
      exact ⟨hs, fun v hv => by cases hv; exact hs.drs _ _ _ (lookup_mem _ _ _ hl), fun _ => ⟨d, rfl⟩⟩
    | none =>
      simp only
      have hkey := mt (hs.keys (m, n)) (lookup_none _ _ hl)
      refine Tr.app (Q := fun d => ValidOrders m n ∧ (9 ≤ n → CorrectD m n d)) s hs ?_
      by_cases hv : ValidOrders m n ∧ 9 ≤ n
      · obtain ⟨hv, h9⟩ := hv
        rcases special_dr m n hv h9 with ⟨d, e1, e2⟩ | ⟨e1, hne, hne2⟩
        · refine Tr.bind (Q := fun o => o = some d) (Tr.lift (fun v h => by rw [e1] at h; cases h; rfl)
            (fun _ => ⟨_, e1⟩)) ?_
          rintro v rfl
          exact Tr.bind (Tr.putDr ⟨hv, fun _ => e2⟩) fun _ _ => Tr.pure ⟨hv, fun _ => e2⟩
        · have h11 : 11 ≤ n := by
            by_contra hc
            exact hkey (initDrs_keys m n hv h9 (by omega) hne hne2)
          refine Tr.bind (Q := fun o => o = none) (Tr.lift (fun v h => by rw [e1] at h; cases h; rfl)
            (fun _ => ⟨_, e1⟩)) ?_
          rintro v rfl
          obtain ⟨v1, v2, v3⟩ := valid_down hv hne
          have w3 := (valid_iff _ _).1 v3
          refine Tr.bind ((findCoeffs_tr fuel true (pyAbs (m - 1)) (n - 1)).mono (fun h => ⟨valid_pyAbs v1, by omega⟩)
            fun _ h => h) ?_
          intro p1 c1
          refine Tr.bind ((findCoeffs_tr fuel true (m + 1) (n - 1)).mono (fun h => ⟨v2, by omega⟩) fun _ h => h) ?_
          intro p2 c2
          refine Tr.bind ((ih true (pyAbs (m - 1)) (n - 1)).mono (fun h => ⟨valid_pyAbs v1, by omega, by omega⟩)
            fun _ h => h) ?_
          intro q1 k1
          refine Tr.bind ((ih true (m + 1) (n - 1)).mono (fun h => ⟨v2, by omega, by omega⟩) fun _ h => h) ?_
          intro q2 k2
          obtain ⟨i1, a1, -⟩ := increase_ok q1 (k1.2 (by omega)).1
          obtain ⟨i2, a2, -⟩ := increase_ok q2 (k2.2 (by omega)).1
          refine Tr.bind (Q := fun o => o = i1) (Tr.lift (fun v h => by rw [a1] at h; cases h; rfl)
            (fun _ => ⟨_, a1⟩)) ?_
          rintro v rfl
          refine Tr.bind (Q := fun o => o = i2) (Tr.lift (fun v h => by rw [a2] at h; cases h; rfl)
            (fun _ => ⟨_, a2⟩)) ?_
          rintro v rfl
          refine Tr.bind ((ih true m (n - 2)).mono (fun h => ⟨v3, by omega, by omega⟩) fun _ h => h) ?_
          intro q3 k3
          obtain ⟨i1', i2', m3, d, f1, f2, f3, f4, f5⟩ := step_dr m n hv hne p1 p2 q1 q2 q3 c1.2 c2.2
            (k1.2 (by omega)) (k2.2 (by omega)) (k3.2 (by omega))
          rw [a1] at f1; cases f1
          rw [a2] at f2; cases f2
          refine Tr.bind (Q := fun o => o = m3) (Tr.lift (fun v h => by rw [f3] at h; cases h; rfl)
            (fun _ => ⟨_, f3⟩)) ?_
          rintro v rfl
          refine Tr.bind (Q := fun o => o = d) (Tr.lift (fun v h => by rw [f4] at h; cases h; rfl)
            (fun _ => ⟨_, f4⟩)) ?_
          rintro v rfl
          exact Tr.bind (Tr.putVal c1) fun _ _ => Tr.bind (Tr.putVal c2) fun _ _ => Tr.bind (Tr.putDr k1) fun _ _ =>
            Tr.bind (Tr.putDr k2) fun _ _ => Tr.pure ⟨hv, fun _ => f5⟩
      by_cases hv' : ValidOrders m n
      swap
      · refine Tr.bind (Q := fun o => o = none) (Tr.lift (fun v h => by rw [special_none_dr m n hv'] at h; cases h; rfl)
          (fun _ => ⟨_, special_none_dr m n hv'⟩)) ?_
        rintro v rfl
        exact Tr.bind ((findCoeffs_tr fuel true (pyAbs (m - 1)) (n - 1)).mono (fun h => absurd h.1 hv') fun _ h => h)
          fun p1 c1 => absurd c1.1 (invalid_down hv')
      · have h9 : ¬ 9 ≤ n := fun h => hv ⟨hv', h⟩
        refine Tr.mono (c := False) (Q := fun _ => True) ?_ (fun h => hv ⟨h.1, h.2.1⟩) (fun _ _ => ⟨hv', fun h => absurd h h9⟩)
        refine Tr.bind Tr.any fun o _ => ?_
        cases o with
        | some d => exact Tr.bind (Tr.putDr ⟨hv', fun h => absurd h h9⟩) fun _ _ => Tr.pure trivial
        | none =>
          refine Tr.bind ((findCoeffs_tr fuel true (pyAbs (m - 1)) (n - 1)).mono (fun h => h.elim) fun _ h => h) ?_
          intro p1 c1
          refine Tr.bind ((findCoeffs_tr fuel true (m + 1) (n - 1)).mono (fun h => h.elim) fun _ h => h) ?_
          intro p2 c2
          refine Tr.bind ((ih true (pyAbs (m - 1)) (n - 1)).mono (fun h => h.elim) fun _ h => h) ?_
          intro q1 k1
          refine Tr.bind ((ih true (m + 1) (n - 1)).mono (fun h => h.elim) fun _ h => h) ?_
          intro q2 k2
          refine Tr.bind Tr.any fun _ _ => Tr.bind Tr.any fun _ _ => ?_
          refine Tr.bind ((ih true m (n - 2)).mono (fun h => h.elim) fun _ h => h) fun _ _ => ?_
          exact Tr.bind Tr.any fun _ _ => Tr.bind Tr.any fun _ _ => Tr.bind (Tr.putVal c1) fun _ _ =>
            Tr.bind (Tr.putVal c2) fun _ _ => Tr.bind (Tr.putDr k1) fun _ _ => Tr.bind (Tr.putDr k2) fun _ _ =>
              Tr.pure trivial

/-! ### Initial state -/

/-- Decidable form of `CorrectV`. -/
theorem correctV_of_closed (a b : Nat) (d : Coeffs) (hd : d ≠ []) (hl : d.length ≤ a + b + 1)
    (h : ∀ i < a + b + 1, d.getD i 0 = ((List.range (min a b + 1)).map
      (fun k => if i = a + b - 2 * k then coefT a b k else 0)).sum) : CorrectV ((a : Int) - b) (a + b) d := by
  refine ⟨hd, by omega, fun i => ?_⟩
  unfold RP RR
  rw [show ((((a : Int) + b) + (a - b)) / 2).toNat = a by omega,
    show ((((a : Int) + b) - (a - b)) / 2).toNat = b by omega, Rab_red, finsetSum_coeff]
  have e : ∀ k ∈ range (min a b + 1), ((coefT a b k : ℤ[X]) * X ^ (a + b - 2 * k)).coeff i =
      if i = a + b - 2 * k then coefT a b k else 0 := by
    intro k _
    rw [← Polynomial.C_eq_intCast, coeff_C_mul, coeff_X_pow]; simp
  rw [Finset.sum_congr rfl e]
  by_cases hi : i < a + b + 1
  · rw [h i hi]; rfl
  · rw [getD_ge d i (by omega)]
    symm; apply Finset.sum_eq_zero
    intro k _; rw [if_neg (by omega)]

theorem correctD_of_closed (a b : Nat) (d : Coeffs) (hd : d ≠ []) (hl : d.length ≤ a + b)
    (h : ∀ i < a + b, d.getD i 0 = ((List.range (min a b + 1)).map
      (fun k => if i + 1 = a + b - 2 * k then coefT a b k * (i + 1) else 0)).sum) : CorrectD ((a : Int) - b) (a + b) d := by
  refine ⟨hd, by omega, fun i => ?_⟩
  unfold RP RR
  rw [show ((((a : Int) + b) + (a - b)) / 2).toNat = a by omega,
    show ((((a : Int) + b) - (a - b)) / 2).toNat = b by omega, Rab_red, coeff_derivative, finsetSum_coeff]
  have e : ∀ k ∈ range (min a b + 1), ((coefT a b k : ℤ[X]) * X ^ (a + b - 2 * k)).coeff (i + 1) =
      if i + 1 = a + b - 2 * k then coefT a b k else 0 := by
    intro k _
    rw [← Polynomial.C_eq_intCast, coeff_C_mul, coeff_X_pow]; simp
  rw [Finset.sum_congr rfl e, Finset.sum_mul]
  simp only [ite_mul, zero_mul]
  by_cases hi : i < a + b
  · rw [h i hi]; rfl
  · rw [getD_ge d i (by omega)]
    symm; apply Finset.sum_eq_zero
    intro k _; rw [if_neg (by omega)]

theorem good_init : Good initState := by
  refine ⟨fun m n d h => ?_, fun m n d h => ?_, fun m n b d h => by simp [initState] at h,
    fun m n b d h => by simp [initState] at h, fun k hk => hk⟩
  · simp only [initState] at h
    have key : ∀ e ∈ initVals, ∃ a b : Nat, e.1.1 = (a : Int) - b ∧ e.1.2 = (a : Int) + b ∧
        CorrectV ((a : Int) - b) (a + b) e.2 := by
      simp only [initVals, List.forall_mem_cons, List.not_mem_nil, false_imp_iff, implies_true, and_true]
      refine ⟨⟨0, 9, ?_⟩, ⟨9, 0, ?_⟩, ⟨1, 8, ?_⟩, ⟨8, 1, ?_⟩, ⟨2, 7, ?_⟩, ⟨7, 2, ?_⟩, ⟨3, 6, ?_⟩, ⟨6, 3, ?_⟩,
        ⟨4, 5, ?_⟩, ⟨5, 4, ?_⟩, ⟨2, 8, ?_⟩, ⟨8, 2, ?_⟩, ⟨3, 7, ?_⟩, ⟨7, 3, ?_⟩, ⟨4, 6, ?_⟩, ⟨6, 4, ?_⟩, ⟨5, 5, ?_⟩⟩ <;>
        exact ⟨by decide, by decide, correctV_of_closed _ _ _ (by decide) (by decide) (by decide +kernel)⟩
    obtain ⟨a, b, e1, e2, e3⟩ := key _ h
    simp only at e1 e2 e3
    rw [e1, e2]; exact ⟨by rw [valid_iff]; omega, e3⟩
  · simp only [initState] at h
    have key : ∀ e ∈ initDrs, ∃ a b : Nat, e.1.1 = (a : Int) - b ∧ e.1.2 = (a : Int) + b ∧
        CorrectD ((a : Int) - b) (a + b) e.2 := by
      simp only [initDrs, List.forall_mem_cons, List.not_mem_nil, false_imp_iff, implies_true, and_true]
      refine ⟨⟨0, 9, ?_⟩, ⟨1, 8, ?_⟩, ⟨2, 7, ?_⟩, ⟨7, 2, ?_⟩, ⟨3, 6, ?_⟩, ⟨6, 3, ?_⟩,
        ⟨4, 5, ?_⟩, ⟨5, 4, ?_⟩, ⟨2, 8, ?_⟩, ⟨8, 2, ?_⟩, ⟨3, 7, ?_⟩, ⟨7, 3, ?_⟩, ⟨4, 6, ?_⟩, ⟨6, 4, ?_⟩, ⟨5, 5, ?_⟩⟩ <;>
        exact ⟨by decide, by decide, correctD_of_closed _ _ _ (by decide) (by decide) (by decide +kernel)⟩
    obtain ⟨a, b, e1, e2, e3⟩ := key _ h
    simp only at e1 e2 e3
    rw [e1, e2]; exact ⟨by rw [valid_iff]; omega, fun _ => e3⟩

/-! ### Evaluation -/

section
variable {α : Type} [CommRing α]

theorem evalLoop_eq (r : α) (d : Coeffs) (k : Nat) (acc : α) :
    evalLoop r (itemsFrom k d) acc = acc + ∑ i ∈ range d.length, (d.getD i 0 : α) * r ^ (k + i) := by
  induction d generalizing k acc with
  | nil => simp [itemsFrom, evalLoop]
  | cons v t ih =>
    unfold itemsFrom evalLoop
    rw [ih, List.length_cons, Finset.sum_range_succ']
    have e : (if v ≠ 0 then acc + (v : α) * r ^ (k : Int).toNat else acc) = acc + (v : α) * r ^ k := by
      split_ifs with h
      · simp
      · have : v = 0 := by simpa using h
        simp [this]
    rw [e]
    simp only [List.getD_cons_succ, List.getD_cons_zero, Nat.add_zero]
    have e2 : ∑ i ∈ range t.length, (t.getD i 0 : α) * r ^ (k + (i + 1)) =
        ∑ i ∈ range t.length, (t.getD i 0 : α) * r ^ (k + 1 + i) :=
      Finset.sum_congr rfl fun i _ => by rw [show k + (i + 1) = k + 1 + i by omega]
    rw [e2]
    ring

theorem eval_of_coeffs (r : α) (d : Coeffs) (p : ℤ[X]) (h : ∀ i, d.getD i 0 = p.coeff i) :
    evalLoop r (itemsFrom 0 d) 0 = ev r p := by
  rw [evalLoop_eq]
  have hdeg : p.natDegree < d.length + 1 := by
    rw [Nat.lt_succ_iff, natDegree_le_iff_coeff_eq_zero]
    intro i hi; rw [← h, getD_ge d i (by omega)]
  unfold ev
  rw [coe_eval₂RingHom, eval₂_eq_sum_range' _ hdeg, Finset.sum_range_succ, ← h, getD_ge d _ le_rfl]
  simp [← h]

theorem eval_CorrectV {m n : Int} {d : Coeffs} (h : CorrectV m n d) (r : α) :
    evalLoop r (itemsFrom 0 d) 0 = RR m n r := by rw [eval_of_coeffs r d _ h.2.2, ev_RP]

theorem eval_CorrectD {m n : Int} {d : Coeffs} (h : CorrectD m n d) (r : α) :
    evalLoop r (itemsFrom 0 d) 0 = DR m n r := by rw [eval_of_coeffs r d _ h.2.2]; rfl

theorem radialPolynomialCoeffs_tr (fuel : Nat) (m n : Int) (r : α) :
    Tr (ValidOrders m n ∧ n.toNat + 1 < fuel) (radialPolynomialCoeffs fuel m n r)
      (fun v => ValidOrders m n → v = RR m n r) := by
  induction fuel generalizing m n with
  | zero => exact Tr.raise (by omega)
  | succ fuel ih =>
    unfold radialPolynomialCoeffs
    split_ifs with h40 h1 h0 h2
    · refine Tr.bind ((findCoeffs_tr fuel false m n).mono (fun h => ⟨h.1, by omega⟩) fun _ h => h) ?_
      intro d hd
      exact Tr.pure fun hv => eval_CorrectV hd.2 r
    · exact Tr.pure fun hv => (RR_diag m n hv h1 r).symm
    · subst h0
      by_cases hv : ValidOrders 0 n
      · have hn := (valid_iff 0 n).1 hv
        have h40' : 40 < n := by simpa [maxRadialOrderCoeffs] using h40
        obtain ⟨v1, v2, v3⟩ := valid_down hv h1
        rw [zero_add] at v2
        refine Tr.bind ((ih 1 (n - 1)).mono (fun h => ⟨v2, by omega⟩) fun _ h => h) ?_
        intro x hx
        refine Tr.bind ((ih 0 (n - 2)).mono (fun h => ⟨v3, by omega⟩) fun _ h => h) ?_
        intro y hy
        exact Tr.pure fun _ => by rw [hx v2, hy v3, RR_zero_rec n hv (by omega)]
      · refine Tr.bind ((ih 1 (n - 1)).mono (fun h => absurd h.1 hv) fun _ h => h) fun x _ => ?_
        refine Tr.bind ((ih 0 (n - 2)).mono (fun h => absurd h.1 hv) fun _ h => h) fun y _ => ?_
        exact Tr.pure fun h => absurd h hv
    · exact Tr.pure fun hv => (RR_subdiag m n hv h2 r).symm
    · by_cases hv : ValidOrders m n
      · have hn := (valid_iff m n).1 hv
        have h40' : 40 < n := by simpa [maxRadialOrderCoeffs] using h40
        obtain ⟨v1, v2, v3⟩ := valid_down hv h1
        refine Tr.bind ((ih (pyAbs (m - 1)) (n - 1)).mono (fun h => ⟨valid_pyAbs v1, by omega⟩) fun _ h => h) ?_
        intro x hx
        refine Tr.bind ((ih (m + 1) (n - 1)).mono (fun h => ⟨v2, by omega⟩) fun _ h => h) ?_
        intro y hy
        refine Tr.bind ((ih m (n - 2)).mono (fun h => ⟨v3, by omega⟩) fun _ h => h) ?_
        intro z hz
        exact Tr.pure fun _ => by rw [hx (valid_pyAbs v1), hy v2, hz v3, RR_abs, RR_rec m n hv h1]
      · refine Tr.bind ((ih (pyAbs (m - 1)) (n - 1)).mono (fun h => absurd h.1 hv) fun _ h => h) fun x _ => ?_
        refine Tr.bind ((ih (m + 1) (n - 1)).mono (fun h => absurd h.1 hv) fun _ h => h) fun y _ => ?_
        refine Tr.bind ((ih m (n - 2)).mono (fun h => absurd h.1 hv) fun _ h => h) fun z _ => ?_
        exact Tr.pure fun h => absurd h hv

/-- The value actually computed by `radial_polynomial_coeffs_dr` for valid orders, as a function of the orders: the derivative up to the
order 38, then the recurrences of the code (with the faulty branch `m == 0`). -/
noncomputable def drVal : Nat → Int → Int → α → α
  | 0, _, _, _ => 0
  | fuel + 1, m, n, r =>
    if n ≤ 38 then DR m n r
    else if pyAbs m = n then DR m n r
    else if m = 0 then 2 * (drVal fuel 1 (n - 1) r + r * drVal fuel 1 (n - 1) r) - drVal fuel 0 (n - 2) r
    else if pyAbs m = n - 2 then DR m n r
    else (RR (m - 1) (n - 1) r + RR (m + 1) (n - 1) r) +
      r * (drVal fuel (pyAbs (m - 1)) (n - 1) r + drVal fuel (m + 1) (n - 1) r) - drVal fuel m (n - 2) r

theorem radialPolynomialCoeffsDr_tr (fuel : Nat) (m n : Int) (r : α) :
    Tr (ValidOrders m n ∧ 9 ≤ n ∧ n.toNat + 1 < fuel) (radialPolynomialCoeffsDr fuel m n r)
      (fun v => ValidOrders m n → 9 ≤ n → v = drVal fuel m n r) := by
  induction fuel generalizing m n with
  | zero => exact Tr.raise (by omega)
  | succ fuel ih =>
    unfold radialPolynomialCoeffsDr drVal
    rw [show maxRadialOrderCoeffsDr = 38 from rfl]
    split_ifs with h38 h1 h0 h2
    · refine Tr.bind ((findCoeffsDr_tr fuel false m n).mono (fun h => ⟨h.1, h.2.1, by omega⟩) fun _ h => h) ?_
      intro d hd
      exact Tr.pure fun hv h9 => eval_CorrectD (hd.2 h9) r
    · exact Tr.pure fun hv h9 => (DR_diag m n hv h1 (by omega) r).symm
    · subst h0
      by_cases hv : ValidOrders 0 n ∧ 9 ≤ n
      · obtain ⟨hv, h9⟩ := hv
        have hn := (valid_iff 0 n).1 hv
        obtain ⟨v1, v2, v3⟩ := valid_down hv h1
        rw [zero_add] at v2
        refine Tr.bind ((ih 1 (n - 1)).mono (fun h => ⟨v2, by omega, by omega⟩) fun _ h => h) ?_
        intro x hx
        refine Tr.bind ((ih 1 (n - 1)).mono (fun h => ⟨v2, by omega, by omega⟩) fun _ h => h) ?_
        intro x' hx'
        refine Tr.bind ((ih 0 (n - 2)).mono (fun h => ⟨v3, by omega, by omega⟩) fun _ h => h) ?_
        intro y hy
        exact Tr.pure fun _ _ => by rw [hx v2 (by omega), hx' v2 (by omega), hy v3 (by omega)]
      · refine Tr.bind ((ih 1 (n - 1)).mono (fun h => absurd ⟨h.1, h.2.1⟩ hv) fun _ h => h) fun x _ => ?_
        refine Tr.bind ((ih 1 (n - 1)).mono (fun h => absurd ⟨h.1, h.2.1⟩ hv) fun _ h => h) fun x _ => ?_
        refine Tr.bind ((ih 0 (n - 2)).mono (fun h => absurd ⟨h.1, h.2.1⟩ hv) fun _ h => h) fun y _ => ?_
        exact Tr.pure fun h h9 => absurd ⟨h, h9⟩ hv
    · exact Tr.pure fun hv _ => (DR_subdiag m n hv h2 r).symm
    · by_cases hv : ValidOrders m n ∧ 9 ≤ n
      · obtain ⟨hv, h9⟩ := hv
        have hn := (valid_iff m n).1 hv
        obtain ⟨v1, v2, v3⟩ := valid_down hv h1
        refine Tr.bind ((radialPolynomialCoeffs_tr fuel (pyAbs (m - 1)) (n - 1) r).mono
          (fun h => ⟨valid_pyAbs v1, by omega⟩) fun _ h => h) ?_
        intro x hx
        refine Tr.bind ((radialPolynomialCoeffs_tr fuel (m + 1) (n - 1) r).mono (fun h => ⟨v2, by omega⟩) fun _ h => h) ?_
        intro y hy
        refine Tr.bind ((ih (pyAbs (m - 1)) (n - 1)).mono (fun h => ⟨valid_pyAbs v1, by omega, by omega⟩) fun _ h => h) ?_
        intro dx hdx
        refine Tr.bind ((ih (m + 1) (n - 1)).mono (fun h => ⟨v2, by omega, by omega⟩) fun _ h => h) ?_
        intro dy hdy
        refine Tr.bind ((ih m (n - 2)).mono (fun h => ⟨v3, by omega, by omega⟩) fun _ h => h) ?_
        intro dz hdz
        exact Tr.pure fun _ _ => by
          rw [hx (valid_pyAbs v1), hy v2, hdx (valid_pyAbs v1) (by omega), hdy v2 (by omega), hdz v3 (by omega), RR_abs]
      · refine Tr.bind ((radialPolynomialCoeffs_tr fuel (pyAbs (m - 1)) (n - 1) r).mono (fun h => absurd ⟨h.1, h.2.1⟩ hv)
          fun _ h => h) fun x _ => ?_
        refine Tr.bind ((radialPolynomialCoeffs_tr fuel (m + 1) (n - 1) r).mono (fun h => absurd ⟨h.1, h.2.1⟩ hv)
          fun _ h => h) fun y _ => ?_
        refine Tr.bind ((ih (pyAbs (m - 1)) (n - 1)).mono (fun h => absurd ⟨h.1, h.2.1⟩ hv) fun _ h => h) fun x _ => ?_
        refine Tr.bind ((ih (m + 1) (n - 1)).mono (fun h => absurd ⟨h.1, h.2.1⟩ hv) fun _ h => h) fun y _ => ?_
        refine Tr.bind ((ih m (n - 2)).mono (fun h => absurd ⟨h.1, h.2.1⟩ hv) fun _ h => h) fun z _ => ?_
        exact Tr.pure fun h h9 => absurd ⟨h, h9⟩ hv

end

end Verif.Proofs
