import Verif.Proofs.FloatNodes
import Verif.Proofs.PsfBound
import Verif.Spec.Nodes

/-!
# The radial rule on the nodes of double precision
-/

namespace Verif.Proofs
open Verif.Model Verif.Spec

theorem nodes_nonempty (n : ℕ) (h2 : 2 ≤ n) (hn : n < 2 ^ 50) : radialNodes doubles n ≠ [] := by
  have := node_count n h2 hn
  intro h
  rw [h] at this
  simp only [List.length_nil] at this
  omega

theorem nodes_unit (n : ℕ) (h2 : 2 ≤ n) (hn : n < 2 ^ 50) : ∀ p ∈ radialNodes doubles n, 0 ≤ p ∧ p ≤ 1 := by
  intro p hp
  obtain ⟨i, hi, rfl⟩ := List.mem_iff_getElem.1 hp
  have := node_mem n h2 hn i hi
  exact ⟨this.1.le, this.2.1⟩

theorem radialIntegralFl_ok (F : FloatArith) (ph : Phase) (Φ : ℝ → ℝ → ℝ) (h : PhaseOk ph Φ) (r θ φ : ℝ) (N : ℕ) (hN : 0 < N) (hne : radialNodes F N ≠ [])
    (hp : ∀ p ∈ radialNodes F N, 0 ≤ p ∧ p ≤ 1) :
    Ret (radialIntegralFl F ph r θ φ N) (nodeRule (radialStep F N) (radialNodes F N) fun p => pupilField Φ r θ p φ) := by
  unfold radialIntegralFl
  rw [if_neg (by omega)]
  refine Ret.bind (v := pupilField Φ r θ 0 φ) (Ret.bind (h.1 0 φ le_rfl zero_le_one) ?_) ?_
  · rw [← wave_eq]; exact ret_pure _
  refine Ret.bind (v := pupilField Φ r θ 1 φ) (Ret.bind (h.1 1 φ zero_le_one le_rfl) ?_) ?_
  · rw [← wave_eq]; exact ret_pure _
  refine Ret.bind (v := ((radialNodes F N).map fun p => pupilField Φ r θ p φ).sum) (Ret.bind (h.2 _ φ hne hp) ?_) ?_
  · have : ((radialNodes F N).mapIdx fun k x =>
        wave ((Num.array [(radialNodes F N).length] ((radialNodes F N).map fun p => Φ p φ)).item k) r θ φ x).sum =
        ((radialNodes F N).map fun p => pupilField Φ r θ p φ).sum := by
      congr 1
      apply List.ext_getElem
      · simp
      · intro i h1 h2
        have hi : i < (radialNodes F N).length := by simpa using h2
        simp only [List.getElem_mapIdx, List.getElem_map]
        rw [← wave_eq]
        simp [Num.item, hi]
    rw [this]
    exact ret_pure _
  · have e : (radialStep F N : ℂ) * (((radialNodes F N).map fun p => pupilField Φ r θ p φ).sum +
        ((1 / 2 : ℝ) : ℂ) * (pupilField Φ r θ 0 φ + pupilField Φ r θ 1 φ)) = nodeRule (radialStep F N) (radialNodes F N) fun p => pupilField Φ r θ p φ := by
      unfold nodeRule; push_cast; ring
    rw [e]
    exact ret_pure _

theorem angleSumFl_ok (F : FloatArith) (ph : Phase) (Φ : ℝ → ℝ → ℝ) (h : PhaseOk ph Φ) (r θ hh : ℝ) (N : ℕ) (hN : 0 < N) (hne : radialNodes F N ≠ [])
    (hp : ∀ p ∈ radialNodes F N, 0 ≤ p ∧ p ≤ 1) (l : List Int) (acc : ℂ) :
    Ret (angleSumFl F ph r θ hh N l acc)
      (acc + (l.map fun (i : Int) => nodeRule (radialStep F N) (radialNodes F N) fun p => pupilField Φ r θ p ((i : ℝ) * hh)).sum) := by
  induction l generalizing acc with
  | nil => simpa [angleSumFl] using ret_pure _
  | cons i l ih =>
    refine Ret.bind (radialIntegralFl_ok F ph Φ h r θ _ N hN hne hp) ?_
    have := ih (acc + nodeRule (radialStep F N) (radialNodes F N) fun p => pupilField Φ r θ p ((i : ℝ) * hh))
    simpa [add_assoc] using this

theorem psfPointFl_ok (F : FloatArith) (ph : Phase) (Φ : ℝ → ℝ → ℝ) (h : PhaseOk ph Φ) (r θ : ℝ) (nR nPhi : ℕ) (hR : 0 < nR) (hPhi : 0 < nPhi)
    (hne : radialNodes F nR ≠ []) (hp : ∀ p ∈ radialNodes F nR, 0 ≤ p ∧ p ≤ 1) :
    Ret (psfPointFl F ph r θ nR nPhi)
      (‖angularRule nPhi fun φ => nodeRule (radialStep F nR) (radialNodes F nR) fun p => pupilField Φ r θ p φ‖ ^ 2 / Real.pi ^ 2) := by
  unfold psfPointFl
  rw [if_neg (by omega)]
  dsimp only
  have e1 := pyRange_sum 2 nPhi (nPhi - 2) (by omega) le_rfl (Or.inl rfl) ((nPhi : Int) - 2) (Or.inl rfl) (by omega)
    fun x => nodeRule (radialStep F nR) (radialNodes F nR) fun p => pupilField Φ r θ p (x * (2 * Real.pi / ((nPhi : ℤ) : ℝ)))
  have e2 := pyRange_sum 1 nPhi (nPhi - 1) (by omega) (by omega) (Or.inr rfl) ((nPhi : Int) - 1) (Or.inr rfl) (by omega)
    fun x => nodeRule (radialStep F nR) (radialNodes F nR) fun p => pupilField Φ r θ p (x * (2 * Real.pi / ((nPhi : ℤ) : ℝ)))
  refine Ret.bind (angleSumFl_ok F ph Φ h r θ _ nR hR hne hp _ 0) ?_
  refine Ret.bind (angleSumFl_ok F ph Φ h r θ _ nR hR hne hp _ 0) ?_
  refine Ret.bind (radialIntegralFl_ok F ph Φ h r θ 0 nR hR hne hp) ?_
  refine Ret.bind (radialIntegralFl_ok F ph Φ h r θ (2 * Real.pi) nR hR hne hp) ?_
  rw [zero_add, zero_add]
  have e1' := e1
  have e2' := e2
  simp only [Nat.cast_ofNat, Nat.cast_one] at e1' e2'
  rw [e1', e2']
  have key : ∀ a b : ℝ, a = b → Ret (pure a : CM ℝ) b := by rintro a b rfl; exact ret_pure _
  apply key
  unfold angularRule
  simp only [Int.cast_natCast]
  rw [show (1 / (Real.pi * Real.pi)) = 1 / Real.pi ^ 2 by ring, mul_one_div]
  congr 3
  push_cast
  ring

/-- The rule on the nodes of double precision is the trapezoidal rule, plus a third half of the weight for the rim if there is one node too many. -/
theorem nodeRule_close (n : ℕ) (h2 : 2 ≤ n) (hn : n < 2 ^ 50) (f : ℝ → ℂ) (K : ℝ) (hK : 0 ≤ K) (hb : ∀ p, 0 ≤ p → p ≤ 1 → ‖f p‖ ≤ 1)
    (hf : ∀ p q, 0 ≤ p → p ≤ 1 → 0 ≤ q → q ≤ 1 → ‖f p - f q‖ ≤ K * |p - q|) :
    ‖nodeRule (radialStep doubles n) (radialNodes doubles n) f - (trapezoid n f + if (radialNodes doubles n).length = n then f 1 / n else 0)‖
      ≤ (K + 1) * 2 ^ (-50 : ℤ) := by
  have h0 : (0 : ℝ) < n := by positivity
  obtain ⟨s1, s2, s3⟩ := node_step n h2 hn
  have hc := node_count n h2 hn
  set L := (radialNodes doubles n).length with hL
  have hLn : L ≤ n := by omega
  -- the rule with exact nodes
  have hex : trapezoid n f + (if L = n then f 1 / n else 0) =
      (1 / (n : ℂ)) * (∑ i ∈ Finset.range L, f (((i : ℝ) + 1) / n) + (f 0 + f 1) / 2) := by
    have e : ∑ i ∈ Finset.range (n - 1), f (((i : ℝ) + 1) / n) = ∑ k ∈ Finset.Ioo 0 n, f ((k : ℝ) / n) := by
      rw [← sum_Ioo n fun k => f ((k : ℝ) / n)]
      apply Finset.sum_congr rfl
      intro i _; push_cast; rfl
    unfold trapezoid
    rcases hc with h | h
    · rw [if_neg (by omega), h, e]; ring
    · rw [if_pos h, h]
      obtain ⟨m, rfl⟩ : ∃ m, n = m + 1 := ⟨n - 1, by omega⟩
      rw [Finset.sum_range_succ, ← e]
      have : ((m : ℝ) + 1) / ((m + 1 : ℕ) : ℝ) = 1 := by push_cast; exact div_self (by positivity)
      rw [this, Nat.add_sub_cancel]
      ring
  have hsum : ((radialNodes doubles n).map f).sum = ∑ i : Fin L, f ((radialNodes doubles n)[i]) := by
    rw [← List.sum_ofFn]
    congr 1
    apply List.ext_getElem
    · simp [hL]
    · intro i h1 h2; simp
  rw [hex]
  unfold nodeRule
  rw [hsum, ← Fin.sum_univ_eq_sum_range (fun i => f (((i : ℝ) + 1) / n)) L]
  set h := radialStep doubles n with hh
  have hpos : 0 < h := lt_of_lt_of_le (by positivity) s1
  set A := ∑ i : Fin L, f ((radialNodes doubles n)[i]) with hA
  set B := ∑ i : Fin L, f ((((i : ℕ) : ℝ) + 1) / n) with hB
  have hfrac : ∀ i : Fin L, 0 ≤ (((i : ℕ) : ℝ) + 1) / n ∧ (((i : ℕ) : ℝ) + 1) / n ≤ 1 := by
    intro i
    have : ((i : ℕ) : ℝ) + 1 ≤ n := by exact_mod_cast (show (i : ℕ) + 1 ≤ n by omega)
    exact ⟨by positivity, by rw [div_le_one h0]; exact this⟩
  have hAB : ‖A - B‖ ≤ n * (K * 2 ^ (-51 : ℤ)) := by
    rw [hA, hB, ← Finset.sum_sub_distrib]
    calc _ ≤ ∑ i : Fin L, ‖f ((radialNodes doubles n)[i]) - f ((((i : ℕ) : ℝ) + 1) / n)‖ := norm_sum_le _ _
      _ ≤ ∑ i : Fin L, K * 2 ^ (-51 : ℤ) := by
        apply Finset.sum_le_sum
        intro i _
        have hm := node_mem n h2 hn i i.2
        have := hf _ _ hm.1.le hm.2.1 (hfrac i).1 (hfrac i).2
        exact this.trans (mul_le_mul_of_nonneg_left hm.2.2 hK)
      _ = L * (K * 2 ^ (-51 : ℤ)) := by simp
      _ ≤ _ := by
        apply mul_le_mul_of_nonneg_right _ (by positivity)
        exact_mod_cast hLn
  have hBn : ‖B + (f 0 + f 1) / 2‖ ≤ n + 1 := by
    have b1 : ‖B‖ ≤ n := by
      calc _ ≤ ∑ i : Fin L, ‖f ((((i : ℕ) : ℝ) + 1) / n)‖ := norm_sum_le _ _
        _ ≤ ∑ i : Fin L, (1 : ℝ) := Finset.sum_le_sum fun i _ => hb _ (hfrac i).1 (hfrac i).2
        _ = L := by simp
        _ ≤ n := by exact_mod_cast hLn
    have b2 : ‖(f 0 + f 1) / 2‖ ≤ 1 := by
      rw [norm_div]
      have := norm_add_le (f 0) (f 1)
      have := hb 0 le_rfl zero_le_one
      have := hb 1 zero_le_one le_rfl
      norm_num
      linarith
    exact (norm_add_le _ _).trans (by linarith)
  have split : (h : ℂ) * (A + (f 0 + f 1) / 2) - (1 / (n : ℂ)) * (B + (f 0 + f 1) / 2) =
      (h : ℂ) * (A - B) + ((h - 1 / n : ℝ) : ℂ) * (B + (f 0 + f 1) / 2) := by
    push_cast; ring
  rw [split]
  have hn1 : n * h ≤ 2 := by
    have := (abs_le.1 s3).2
    have z : (2 : ℝ) ^ (-52 : ℤ) ≤ 1 := by norm_num
    linarith
  have hd : |h - 1 / n| * (n + 1) ≤ 2 ^ (-51 : ℤ) := by
    have e : h - 1 / n = (n * h - 1) / n := by field_simp
    rw [e, abs_div, abs_of_pos h0, div_mul_eq_mul_div, div_le_iff₀ h0]
    have : (n : ℝ) + 1 ≤ 2 * n := by
      have : (2 : ℝ) ≤ n := by exact_mod_cast h2
      linarith
    calc _ ≤ (2 : ℝ) ^ (-52 : ℤ) * (2 * n) := mul_le_mul s3 this (by positivity) (by positivity)
      _ = _ := by rw [show (-51 : ℤ) = -52 + 1 by norm_num, zpow_add_one₀ (by norm_num)]; ring
  calc _ ≤ ‖(h : ℂ) * (A - B)‖ + ‖((h - 1 / n : ℝ) : ℂ) * (B + (f 0 + f 1) / 2)‖ := norm_add_le _ _
    _ = h * ‖A - B‖ + |h - 1 / n| * ‖B + (f 0 + f 1) / 2‖ := by
      rw [norm_mul, norm_mul, Complex.norm_real, Complex.norm_real, Real.norm_of_nonneg hpos.le, Real.norm_eq_abs]
    _ ≤ h * (n * (K * 2 ^ (-51 : ℤ))) + |h - 1 / n| * (n + 1) := by
      apply add_le_add
      · exact mul_le_mul_of_nonneg_left hAB hpos.le
      · exact mul_le_mul_of_nonneg_left hBn (abs_nonneg _)
    _ ≤ 2 * (K * 2 ^ (-51 : ℤ)) + 2 ^ (-51 : ℤ) := by
      apply add_le_add _ hd
      calc h * (n * (K * 2 ^ (-51 : ℤ))) = (n * h) * (K * 2 ^ (-51 : ℤ)) := by ring
        _ ≤ _ := mul_le_mul_of_nonneg_right hn1 (by positivity)
    _ ≤ _ := by
      have e : (2 : ℝ) ^ (-50 : ℤ) = 2 ^ (-51 : ℤ) * 2 := by
        rw [show (-50 : ℤ) = -51 + 1 by norm_num, zpow_add_one₀ (by norm_num)]
      rw [e]
      have : (0 : ℝ) < 2 ^ (-51 : ℤ) := by positivity
      nlinarith

end Verif.Proofs
