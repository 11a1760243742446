import Verif.Proofs.FloatMethods

/-!
# Exact values at the centre and at the border
-/

namespace Verif.Proofs
open Verif.Model Verif.Spec

section
variable {F : FloatArith}

/-- `x` is the integer `a`, of absolute value at most `M`. -/
def Ex (M : ℤ) (x : Fl F) (a : ℤ) : Prop := x.val = a ∧ |a| ≤ M

theorem Ex.val {M : ℤ} {x : Fl F} {a : ℤ} (h : Ex M x a) : x.val = a := h.1

theorem Ex.mono {M N : ℤ} {x : Fl F} {a : ℤ} (h : Ex M x a) (hM : M ≤ N) : Ex N x a := ⟨h.1, h.2.trans hM⟩

theorem Ex.add (hF : ExactOnIntegers F) {M N : ℤ} {x y : Fl F} {a b : ℤ} (hx : Ex M x a) (hy : Ex N y b) (h : M + N < 2 ^ 53) : Ex (M + N) (x + y) (a + b) := by
  have h1 : |a + b| ≤ M + N := (abs_add_le a b).trans (add_le_add hx.2 hy.2)
  refine ⟨?_, h1⟩
  show F.fl (x.val + y.val) = _
  rw [hx.1, hy.1, ← Int.cast_add]
  exact hF.fl _ (by omega)

theorem Ex.sub (hF : ExactOnIntegers F) {M N : ℤ} {x y : Fl F} {a b : ℤ} (hx : Ex M x a) (hy : Ex N y b) (h : M + N < 2 ^ 53) : Ex (M + N) (x - y) (a - b) := by
  have h1 : |a - b| ≤ M + N := (abs_sub a b).trans (add_le_add hx.2 hy.2)
  refine ⟨?_, h1⟩
  show F.fl (x.val - y.val) = _
  rw [hx.1, hy.1, ← Int.cast_sub]
  exact hF.fl _ (by omega)

theorem Ex.mul (hF : ExactOnIntegers F) {M N : ℤ} {x y : Fl F} {a b : ℤ} (hx : Ex M x a) (hy : Ex N y b) (h : M * N < 2 ^ 53) : Ex (M * N) (x * y) (a * b) := by
  have h1 : |a * b| ≤ M * N := by
    rw [abs_mul]
    exact mul_le_mul hx.2 hy.2 (abs_nonneg _) ((abs_nonneg _).trans hx.2)
  refine ⟨?_, h1⟩
  show F.fl (x.val * y.val) = _
  rw [hx.1, hy.1, ← Int.cast_mul]
  exact hF.fl _ (by omega)

theorem Ex.int (hF : ExactOnIntegers F) (n : Int) (h : |n| < 2 ^ 53) : Ex |n| (n : Fl F) n := ⟨hF.fl n h, le_rfl⟩

theorem Ex.ofNat (hF : ExactOnIntegers F) (n : ℕ) [n.AtLeastTwo] (h : (n : ℤ) < 2 ^ 53) : Ex (OfNat.ofNat n : ℤ) (OfNat.ofNat n : Fl F) (OfNat.ofNat n : ℤ) := by
  have e : (OfNat.ofNat n : ℤ) = (n : ℤ) := rfl
  rw [e]
  refine ⟨?_, by rw [abs_of_nonneg (by omega)]⟩
  have := hF.fl (n : ℤ) (by rw [abs_of_nonneg (by omega)]; exact h)
  show F.fl (n : ℝ) = _
  simpa using this

theorem Ex.rat (hF : ExactOnIntegers F) (t : ℕ) (h : (t : ℤ) < 2 ^ 53) : Ex (t : ℤ) (scal (t : ℚ) : Fl F) (t : ℤ) := by
  refine ⟨?_, by rw [abs_of_nonneg (by omega)]⟩
  have := hF.fl (t : ℤ) (by rw [abs_of_nonneg (by omega)]; exact h)
  show F.fl ((t : ℚ) : ℝ) = _
  simpa using this

theorem Ex.one : Ex 1 (1 : Fl F) 1 := ⟨by show (1 : ℝ) = _; simp, by simp⟩

theorem Ex.zero : Ex 0 (0 : Fl F) 0 := ⟨by show (0 : ℝ) = _; simp, by simp⟩

/-- The centre or the border. -/
def End (r : Fl F) (b : ℤ) : Prop := (b = 0 ∨ b = 1) ∧ r.val = b

theorem Ex.self {r : Fl F} {b : ℤ} (h : End r b) : Ex 1 r b := ⟨h.2, by rcases h.1 with rfl | rfl <;> simp⟩

theorem Ex.pow (hF : ExactOnIntegers F) {r : Fl F} {b : ℤ} (h : End r b) (k : ℕ) : Ex 1 (r ^ k) (b ^ k) := by
  constructor
  · show F.pow r.val k = _
    rw [h.2]
    rcases h.1 with rfl | rfl
    · have := hF.zero_pow k
      push_cast
      exact this
    · have := hF.one_pow k
      push_cast
      rw [this, one_pow]
  · rcases h.1 with rfl | rfl
    · cases k <;> simp
    · simp

/-- The radial polynomials are -1, 0 or 1 there. -/
theorem RR_end (m n : Int) (b : ℤ) (hb : b = 0 ∨ b = 1) : |RR m n b| ≤ 1 := by
  have h : |RR m n ((b : ℤ) : ℝ)| ≤ 1 := by
    refine RR_abs_le m n _ ?_ ?_ <;> rcases hb with rfl | rfl <;> simp
  have e := map_RR (Int.castRingHom ℝ) m n b
  simp only [eq_intCast] at e
  rw [← e] at h
  exact_mod_cast h

theorem ex_step {q : Prop} [Decidable q] {x y : Fl F} {v w : ℤ} {t : Option (Fl F)} {t' : Option ℤ} {Q : Fl F → ℤ → Prop}
    (h : (if q then some x else t) = some y) (h' : (if q then some v else t') = some w) (hq : q → Q x v)
    (ht : t = some y → t' = some w → Q y w) : Q y w := by
  split_ifs at h h' with c
  · cases h; cases h'; exact hq c
  · exact ht h h'

set_option maxHeartbeats 4000000 in
theorem table_ex (hF : ExactOnIntegers F) (m n : Int) (r : Fl F) (b : ℤ) (hb : End r b) (y : Fl F) (w : ℤ)
    (h : radialTable m n r = some y) (h' : radialTable m n b = some w) : y.val = w := by
  unfold radialTable at h h'
  iterate 33
    refine ex_step (Q := fun y w => y.val = ((w : ℤ) : ℝ)) h h' (fun hp => ?_) (fun h h' => ?_)
    · clear h h' hp
      apply Ex.val
      · repeat any_goals first
          | with_reducible exact Ex.pow hF hb _
          | with_reducible exact Ex.self hb
          | with_reducible exact Ex.one
          | with_reducible exact Ex.ofNat hF _ (by norm_num)
          | with_reducible apply Ex.mul hF
          | with_reducible apply Ex.sub hF
          | with_reducible apply Ex.add hF
        all_goals norm_num
    clear * - h h' hb hF
  exact absurd h (by simp)

theorem table_some_ex (m n : Int) (r : Fl F) (b : ℤ) (y : Fl F) (h : radialTable m n r = some y) : ∃ w, radialTable m n b = some w := by
  unfold radialTable at h ⊢
  iterate 33
    refine some_step h (fun h => ?_)
  exact absurd h (by simp)

/-- One step of the recurrence. -/
theorem step_ex (hF : ExactOnIntegers F) (m n : Int) (hv : ValidOrders m n) (hne : pyAbs m ≠ n) (r : Fl F) (b : ℤ) (hb : End r b) (x y z : Fl F)
    (hx : x.val = RR (m - 1) (n - 1) b) (hy : y.val = RR (m + 1) (n - 1) b) (hz : z.val = RR m (n - 2) b) :
    (r * (x + y) - z).val = RR m n b := by
  rw [RR_rec m n hv hne]
  have ex : Ex 1 x (RR (m - 1) (n - 1) b) := ⟨hx, RR_end _ _ b hb.1⟩
  have ey : Ex 1 y (RR (m + 1) (n - 1) b) := ⟨hy, RR_end _ _ b hb.1⟩
  have ez : Ex 1 z (RR m (n - 2) b) := ⟨hz, RR_end _ _ b hb.1⟩
  exact (((Ex.self hb).mul hF (ex.add hF ey (by norm_num)) (by norm_num)).sub hF ez (by norm_num)).val

theorem step0_ex (hF : ExactOnIntegers F) (n : Int) (hv : ValidOrders 0 n) (hn0 : 0 < n) (r : Fl F) (b : ℤ) (hb : End r b) (x y : Fl F)
    (hx : x.val = RR 1 (n - 1) b) (hy : y.val = RR 0 (n - 2) b) : (2 * r * x - y).val = RR 0 n b := by
  rw [RR_zero_rec n hv hn0]
  have ex : Ex 1 x (RR 1 (n - 1) b) := ⟨hx, RR_end _ _ b hb.1⟩
  have ey : Ex 1 y (RR 0 (n - 2) b) := ⟨hy, RR_end _ _ b hb.1⟩
  exact ((((Ex.ofNat hF 2 (by norm_num)).mul hF (Ex.self hb) (by norm_num)).mul hF ex (by norm_num)).sub hF ey (by norm_num)).val

theorem diag_ex (hF : ExactOnIntegers F) (m n : Int) (hv : ValidOrders m n) (he : pyAbs m = n) (r : Fl F) (b : ℤ) (hb : End r b) :
    (r ^ n.toNat).val = RR m n b := by
  rw [RR_diag m n hv he]
  exact (Ex.pow hF hb _).val

theorem subdiag_ex (hF : ExactOnIntegers F) (m n : Int) (hv : ValidOrders m n) (he : pyAbs m = n - 2) (h2 : 2 ≤ n) (hN : n < 2 ^ 52) (r : Fl F) (b : ℤ)
    (hb : End r b) : ((n : Fl F) * r ^ n.toNat - ((n - 1 : Int) : Fl F) * r ^ (n - 2).toNat).val = RR m n b := by
  rw [RR_subdiag m n hv he]
  have a1 : |n| = n := abs_of_nonneg (by omega)
  have a2 : |n - 1| = n - 1 := abs_of_nonneg (by omega)
  have := (((Ex.int hF n (by omega)).mul hF (Ex.pow hF hb n.toNat) (by omega)).sub hF
    ((Ex.int hF (n - 1) (by omega)).mul hF (Ex.pow hF hb (n - 2).toNat) (by omega)) (by omega)).val
  rw [this]
  push_cast
  ring

theorem radialPolynomial_ex (hF : ExactOnIntegers F) (fuel : Nat) (m n : Int) (r : Fl F) (b : ℤ) (hb : End r b) (hv : ValidOrders m n)
    (hf : n.toNat < fuel) (hN : n < 2 ^ 52) : ∃ y, radialPolynomial fuel m n r = .ok y ∧ y.val = RR m n b := by
  induction fuel generalizing m n with
  | zero => omega
  | succ fuel ih =>
    unfold radialPolynomial
    cases ht : radialTable m n r with
    | some y =>
      obtain ⟨w, hw⟩ := table_some_ex m n r b y ht
      refine ⟨y, rfl, ?_⟩
      rw [← radialTable_correct m n b w hw]
      exact table_ex hF m n r b hb y w ht hw
    | none =>
      simp only
      have hn := (valid_iff m n).1 hv
      by_cases h10 : n ≤ 10
      · have := table_none_fl m n r hv h10 ht
        rw [if_pos this]
        exact ⟨_, rfl, diag_ex hF m n hv this.2 r b hb⟩
      · by_cases c1 : pyAbs m = n
        · rw [if_pos ⟨by omega, c1⟩]
          exact ⟨_, rfl, diag_ex hF m n hv c1 r b hb⟩
        · obtain ⟨v1, v2, v3⟩ := valid_down hv c1
          rw [if_neg (by tauto)]
          by_cases c2 : m = 0
          · subst c2
            rw [if_pos ⟨by omega, rfl⟩]
            obtain ⟨x, ex, hx⟩ := ih 1 (n - 1) (by simpa using v2) (by omega) (by omega)
            obtain ⟨y, ey, hy⟩ := ih 0 (n - 2) v3 (by omega) (by omega)
            rw [ex, ey]
            exact ⟨_, rfl, step0_ex hF n hv (by omega) r b hb x y hx hy⟩
          · rw [if_neg (by tauto)]
            by_cases c3 : pyAbs m = n - 2
            · rw [if_pos ⟨by omega, c3⟩]
              exact ⟨_, rfl, subdiag_ex hF m n hv c3 (by omega) hN r b hb⟩
            · rw [if_neg (by tauto)]
              obtain ⟨x, ex, hx⟩ := ih _ _ (valid_pyAbs v1) (by omega) (by omega)
              obtain ⟨y, ey, hy⟩ := ih _ _ v2 (by omega) (by omega)
              obtain ⟨z, ez, hz⟩ := ih _ _ v3 (by omega) (by omega)
              rw [ex, ey, ez]
              rw [RR_abs] at hx
              exact ⟨_, rfl, step_ex hF m n hv c1 r b hb x y z hx hy hz⟩

theorem evalLoop_ex (hF : ExactOnIntegers F) (r : Fl F) (b : ℤ) (hb : End r b) (d : Coeffs) (j : ℕ) (A : ℤ) (acc : Fl F) (v : ℤ) (h : Ex A acc v)
    (hA : A + ∑ i ∈ Finset.range d.length, |d.getD i 0| < 2 ^ 53) :
    Ex (A + ∑ i ∈ Finset.range d.length, |d.getD i 0|) (evalLoop r (itemsFrom j d) acc) (evalLoop b (itemsFrom j d) v) := by
  induction d generalizing j A acc v with
  | nil => simpa [itemsFrom, evalLoop] using h
  | cons c t ih =>
    unfold itemsFrom evalLoop
    rw [List.length_cons, Finset.sum_range_succ'] at hA ⊢
    simp only [List.getD_cons_succ, List.getD_cons_zero] at hA ⊢
    have hs : 0 ≤ ∑ i ∈ Finset.range t.length, |t.getD i 0| := Finset.sum_nonneg fun _ _ => abs_nonneg _
    have hA0 : 0 ≤ A := (abs_nonneg _).trans h.2
    have key : Ex (A + |c|) (if c ≠ 0 then acc + (c : Fl F) * r ^ (j : Int).toNat else acc) (if c ≠ 0 then v + (c : ℤ) * b ^ (j : Int).toNat else v) := by
      by_cases hc : c = 0
      · subst hc
        simp only [ne_eq, not_true, if_false]
        exact h.mono (by simp)
      · rw [if_pos hc, if_pos hc]
        exact (h.add hF ((Ex.int hF c (by omega)).mul hF (Ex.pow hF hb _) (by omega)) (by omega)).mono (by omega)
    exact (ih (j + 1) _ _ _ key (by omega)).mono (by omega)

theorem growth_mono {a b : ℕ} (h : a ≤ b) : growth a ≤ growth b := by
  induction b with
  | zero => rw [Nat.le_zero.1 h]
  | succ b ih =>
    rcases Nat.lt_or_ge a (b + 1) with c | c
    · refine (ih (by omega)).trans ?_
      cases b with
      | zero => simp [growth]
      | succ b => rw [growth]; omega
    · rw [show a = b + 1 by omega]

theorem growth_40 : (growth 40 : ℤ) < 2 ^ 53 := by decide +kernel

theorem eval_ex (hF : ExactOnIntegers F) (m n : Int) (hv : ValidOrders m n) (hn : n ≤ 40) (d : Coeffs) (hd : CorrectV m n d) (r : Fl F) (b : ℤ)
    (hb : End r b) : (evalLoop r (itemsFrom 0 d) 0).val = RR m n b := by
  have e := l1_RP d.length m n hv
  unfold l1 at e
  have e2 : ∑ i ∈ Finset.range d.length, |d.getD i 0| = ∑ i ∈ Finset.range d.length, |(RP m n).coeff i| :=
    Finset.sum_congr rfl fun i _ => by rw [hd.2.2 i]
  have e3 : (growth n.toNat : ℤ) ≤ growth 40 := by exact_mod_cast growth_mono (by omega : n.toNat ≤ 40)
  have e4 := growth_40
  have h := (evalLoop_ex hF r b hb d 0 0 0 0 Ex.zero (by omega)).val
  rw [h, eval_CorrectV hd]

theorem radialPolynomialCoeffs_ex (hF : ExactOnIntegers F) (fuel : Nat) (m n : Int) (r : Fl F) (b : ℤ) (hb : End r b) (hN : n < 2 ^ 52) :
    Tr (ValidOrders m n ∧ n.toNat + 1 < fuel) (radialPolynomialCoeffs fuel m n r) (fun v => ValidOrders m n → v.val = RR m n b) := by
  induction fuel generalizing m n with
  | zero => exact Tr.raise (by omega)
  | succ fuel ih =>
    unfold radialPolynomialCoeffs
    split_ifs with h40 c1 c0 c2
    · refine Tr.bind ((findCoeffs_tr fuel false m n).mono (fun h => ⟨h.1, by omega⟩) fun _ h => h) ?_
      intro d hd
      exact Tr.pure fun hv => eval_ex hF m n hv h40 d hd.2 r b hb
    · exact Tr.pure fun hv => diag_ex hF m n hv c1 r b hb
    · subst c0
      by_cases hv : ValidOrders 0 n
      · have hn := (valid_iff 0 n).1 hv
        have h40' : 40 < n := by simpa [maxRadialOrderCoeffs] using h40
        obtain ⟨v1, v2, v3⟩ := valid_down hv c1
        rw [zero_add] at v2
        refine Tr.bind ((ih 1 (n - 1) (by omega)).mono (fun h => ⟨v2, by omega⟩) fun _ h => h) ?_
        intro x hx
        refine Tr.bind ((ih 0 (n - 2) (by omega)).mono (fun h => ⟨v3, by omega⟩) fun _ h => h) ?_
        intro y hy
        exact Tr.pure fun _ => step0_ex hF n hv (by omega) r b hb x y (hx v2) (hy v3)
      · refine Tr.bind ((ih 1 (n - 1) (by omega)).mono (fun h => absurd h.1 hv) fun _ h => h) fun x _ => ?_
        refine Tr.bind ((ih 0 (n - 2) (by omega)).mono (fun h => absurd h.1 hv) fun _ h => h) fun y _ => ?_
        exact Tr.pure fun h => absurd h hv
    · refine Tr.pure fun hv => subdiag_ex hF m n hv c2 ?_ hN r b hb
      simp only [maxRadialOrderCoeffs] at h40
      omega
    · by_cases hv : ValidOrders m n
      · have hn := (valid_iff m n).1 hv
        have h40' : 40 < n := by simpa [maxRadialOrderCoeffs] using h40
        obtain ⟨v1, v2, v3⟩ := valid_down hv c1
        refine Tr.bind ((ih (pyAbs (m - 1)) (n - 1) (by omega)).mono (fun h => ⟨valid_pyAbs v1, by omega⟩) fun _ h => h) ?_
        intro x hx
        refine Tr.bind ((ih (m + 1) (n - 1) (by omega)).mono (fun h => ⟨v2, by omega⟩) fun _ h => h) ?_
        intro y hy
        refine Tr.bind ((ih m (n - 2) (by omega)).mono (fun h => ⟨v3, by omega⟩) fun _ h => h) ?_
        intro z hz
        refine Tr.pure fun _ => step_ex hF m n hv c1 r b hb x y z ?_ (hy v2) (hz v3)
        have := hx (valid_pyAbs v1)
        rwa [RR_abs] at this
      · refine Tr.bind ((ih (pyAbs (m - 1)) (n - 1) (by omega)).mono (fun h => absurd h.1 hv) fun _ h => h) fun x _ => ?_
        refine Tr.bind ((ih (m + 1) (n - 1) (by omega)).mono (fun h => absurd h.1 hv) fun _ h => h) fun y _ => ?_
        refine Tr.bind ((ih m (n - 2) (by omega)).mono (fun h => absurd h.1 hv) fun _ h => h) fun z _ => ?_
        exact Tr.pure fun h => absurd h hv

theorem radialEqLoop_ex (hF : ExactOnIntegers F) (m n : Int) (r : Fl F) (c : ℤ) (hc : End r c) (a b : Nat) (hn : n = a + b) (hm : m = a - b)
    (j k : Nat) (A : ℤ) (acc : Fl F) (v : ℤ) (h : Ex A acc v) (hk : k + j ≤ min a b + 1)
    (hA : A + ∑ i ∈ Finset.range j, |coefT a b (k + i)| < 2 ^ 53) :
    ∃ y, radialEqLoop m n r j k acc = .ok y ∧
      Ex (A + ∑ i ∈ Finset.range j, |coefT a b (k + i)|) y (v + ∑ i ∈ Finset.range j, coefT a b (k + i) * c ^ (a + b - 2 * (k + i))) := by
  induction j generalizing k A acc v with
  | zero => exact ⟨acc, rfl, by simpa using h⟩
  | succ j ih =>
    unfold radialEqLoop
    have e1 : (n + m) / 2 = a := by omega
    have e2 : (n - m) / 2 = b := by omega
    have hka : k ≤ a ∧ k ≤ b := by omega
    simp only [e1, e2]
    rw [pyFactorial_cast (n - k) (k + (a - k) + (b - k)) (by omega), pyFactorial_cast k k rfl,
      pyFactorial_cast (a - k) (a - k) (by omega), pyFactorial_cast (b - k) (b - k) (by omega)]
    simp only [Except.bind, bind]
    have hq : ((((k + (a - k) + (b - k)).factorial : Nat) : Int) : ℚ) /
        ((((k.factorial : Nat) : Int) * (((a - k).factorial : Nat) : Int) * (((b - k).factorial : Nat) : Int) : Int) : ℚ) = (trino k (a - k) (b - k) : ℚ) := by
      have q := quot_eq (F := ℚ) k (a - k) (b - k)
      push_cast at q ⊢
      rw [q]
    rw [hq]
    have hs1 : |(-1 : Int) ^ (k : Int).toNat| = 1 := by rw [abs_pow, abs_neg, abs_one, one_pow]
    have hcv : coefT a b (k + 0) = (-1) ^ k * (trino k (a - k) (b - k) : ℤ) := by
      simp only [coefT, add_zero, hka, and_self, if_true]
    have hcc : |coefT a b (k + 0)| = (trino k (a - k) (b - k) : ℤ) := by
      rw [hcv, abs_mul, abs_pow, abs_neg, abs_one, one_pow, one_mul, abs_of_nonneg (by positivity)]
    rw [Finset.sum_range_succ', hcc] at hA ⊢
    have e6 : ∀ i, k + (i + 1) = k + 1 + i := fun i => by omega
    have e9 : ∑ i ∈ Finset.range j, |coefT a b (k + (i + 1))| = ∑ i ∈ Finset.range j, |coefT a b (k + 1 + i)| :=
      Finset.sum_congr rfl fun i _ => by rw [e6]
    have e10 : ∑ i ∈ Finset.range j, coefT a b (k + (i + 1)) * c ^ (a + b - 2 * (k + (i + 1))) =
        ∑ i ∈ Finset.range j, coefT a b (k + 1 + i) * c ^ (a + b - 2 * (k + 1 + i)) :=
      Finset.sum_congr rfl fun i _ => by rw [e6]
    rw [e9] at hA ⊢
    have hs : 0 ≤ ∑ i ∈ Finset.range j, |coefT a b (k + 1 + i)| := Finset.sum_nonneg fun _ _ => abs_nonneg _
    have hA0 : 0 ≤ A := (abs_nonneg _).trans h.2
    have key := h.add hF ((Ex.int hF ((-1 : Int) ^ (k : Int).toNat) (by rw [hs1]; norm_num)).mul hF
      ((Ex.rat hF (trino k (a - k) (b - k)) (by omega)).mul hF (Ex.pow hF hc (n - 2 * (k : Int)).toNat) (by omega))
      (by rw [hs1]; omega)) (by rw [hs1]; omega)
    rw [hs1, one_mul, mul_one] at key
    obtain ⟨y, hy, hyw⟩ := ih (k + 1) _ _ _ key (by omega) (by omega)
    rw [Finset.sum_range_succ', hcv, e10]
    rw [Int.toNat_natCast, show (n - 2 * (k : Int)).toNat = a + b - 2 * (k + 0) by omega] at hyw
    refine ⟨y, by push_cast at hy ⊢; exact hy, ?_⟩
    have e8 : ∀ x y z w t : ℤ, x + (y + z * w * t) = x + z * (w * t) + y := fun x y z w t => by ring
    rw [e8]
    exact hyw.mono (by omega)

theorem radialPolynomialEq_ex (hF : ExactOnIntegers F) (m n : Int) (r : Fl F) (b : ℤ) (hb : End r b) (hv : ValidOrders m n) (h40 : n ≤ 40) :
    ∃ y, radialPolynomialEq m n r = .ok y ∧ y.val = RR m n b := by
  obtain ⟨a, c, hn, hm, e1, e2, e3⟩ := ab_of_valid hv
  have hs := sum_coefT a c (min a c + 1)
  have g1 : (growth (a + c) : ℤ) ≤ growth 40 := by exact_mod_cast growth_mono (by omega : a + c ≤ 40)
  have g2 := growth_40
  obtain ⟨y, hy, h⟩ := radialEqLoop_ex hF m n r b hb a c hn hm (min a c + 1) 0 0 0 0 Ex.zero (by omega) (by simp only [zero_add]; omega)
  unfold radialPolynomialEq
  rw [e3, show (((min a c : ℕ) : Int) + 1).toNat = min a c + 1 by omega]
  refine ⟨y, hy, h.1.trans ?_⟩
  congr 1
  unfold RR
  rw [e1, e2, Rab_red]
  simp

end

end Verif.Proofs
