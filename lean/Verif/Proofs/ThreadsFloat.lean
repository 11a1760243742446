import Verif.Model.ThreadsFloat
import Verif.Proofs.Threads3
import Verif.Proofs.FloatRepro

/-!
# Threads in floating-point arithmetic: the result of a call does not depend on the other threads
-/

namespace Verif.Proofs
open Verif.Model Verif.Spec Polynomial

/-- The result or exception of the program is the same under all schedules, and its actions keep the tables correct. -/
def Det {β : Type} (p : Prog β) : Prop := ∃ x, Gives p x

theorem gives_bindAt {β γ : Type} {p : Prog β} {f : β → Prog γ} {v : β} {y : Res γ} (h2 : Gives (f v) y) {s : CoefState}
    (h1 : TrAt True (fun z => z = .ok v) p.attempt s) : TrAt True (fun z => z = y) (p.andThen f).attempt s := by
  induction p generalizing s with
  | done r =>
    obtain rfl : r = .ok v := h1
    exact h2 s
  | step u k ih => exact fun t ht hl => ⟨(h1 t ht hl).1, (h1 t ht hl).2.1, ih t (h1 t ht hl).2.2⟩

theorem gives_bindErrorAt {β γ : Type} {p : Prog β} {f : β → Prog γ} {e : PyErr} {s : CoefState}
    (h1 : TrAt True (fun z => z = .error e) p.attempt s) : TrAt True (fun z => z = .error e) (p.andThen f).attempt s := by
  induction p generalizing s with
  | done r =>
    obtain rfl : r = .error e := h1
    exact rfl
  | step u k ih => exact fun t ht hl => ⟨(h1 t ht hl).1, (h1 t ht hl).2.1, ih t (h1 t ht hl).2.2⟩

theorem Gives.bind {β γ : Type} {p : Prog β} {f : β → Prog γ} {v : β} {y : Res γ} (h1 : Gives p (.ok v)) (h2 : Gives (f v) y) : Gives (p >>= f) y :=
  fun s => gives_bindAt h2 (h1 s)

theorem Gives.bindError {β γ : Type} {p : Prog β} {f : β → Prog γ} {e : PyErr} (h1 : Gives p (.error e)) : Gives (p >>= f) (.error e) :=
  fun s => gives_bindErrorAt (h1 s)

theorem Det.lift {β : Type} (x : Res β) : Det (Prog.lift x) := ⟨x, fun _ => rfl⟩

theorem Det.pure {β : Type} (v : β) : Det (pure v : Prog β) := Det.lift (.ok v)

theorem Det.bind {β γ : Type} {p : Prog β} {f : β → Prog γ} (h1 : Det p) (h2 : ∀ v, Det (f v)) : Det (p >>= f) := by
  obtain ⟨x, hx⟩ := h1
  cases x with
  | ok v => obtain ⟨y, hy⟩ := h2 v; exact ⟨y, hx.bind hy⟩
  | error e => exact ⟨.error e, hx.bindError⟩

/-- In a correct state the program alone gives that result, and leaves a correct state. -/
theorem aloneAt {β : Type} {p : Prog β} {x : Res β} {s : CoefState} (hs : Good s) (h : TrAt True (fun z => z = x) p.attempt s) :
    (p.alone s).1 = x ∧ Good (p.alone s).2 := by
  induction p generalizing s with
  | done r => exact ⟨h, hs⟩
  | step u k ih =>
    obtain ⟨a, _, b⟩ := h s hs (KeysLe.refl _)
    exact ih s a b

theorem Gives.alone {β : Type} {p : Prog β} {x : Res β} (h : Gives p x) {s : CoefState} (hs : Good s) : (p.alone s).1 = x := (aloneAt hs (h s)).1

theorem Det.gives {β : Type} {p : Prog β} (h : Det p) {s : CoefState} (hs : Good s) : Gives p (p.alone s).1 := by
  obtain ⟨x, hx⟩ := h
  rw [hx.alone hs]; exact hx

section
variable {α : Type} [Zero α] [One α] [Add α] [Sub α] [Mul α] [NatCast α] [IntCast α] [Pow α ℕ] [OfRat α]

theorem coeffsT_det (fuel : Nat) (m n : Int) (r : α) (hv : ValidOrders m n) (hf : n.toNat < fuel) :
    Det (do let d ← findCoeffsT fuel false m n; pure (evalLoop r (itemsFrom 0 d) 0) : Prog α) := by
  have t := findCoeffsT_tr fuel false m n
  have q := findCoeffs_tr fuel false m n
  obtain ⟨d0, e0⟩ := (q _ good_init).2.2 ⟨hv, hf⟩
  have c0 := ((q _ good_init).2.1 _ e0).2
  exact ⟨.ok (evalLoop r (itemsFrom 0 d0) 0), Gives.ok (TrT.bind (t.mono (fun _ => ⟨hv, hf⟩) fun v h => h) fun d hd =>
    TrT.pure (evalLoop_congr r _ _ _ _ fun i => by rw [hd.2.2.2, c0.2.2]))⟩

theorem coeffsDrT_det (fuel : Nat) (m n : Int) (r : α) (hv : ValidOrders m n) (h9 : 9 ≤ n) (hf : n.toNat < fuel) :
    Det (do let d ← findCoeffsDrT fuel false m n; pure (evalLoop r (itemsFrom 0 d) 0) : Prog α) := by
  have t := findCoeffsDrT_tr fuel false m n
  have q := findCoeffsDr_tr fuel false m n
  obtain ⟨d0, e0⟩ := (q _ good_init).2.2 ⟨hv, h9, hf⟩
  have c0 := ((q _ good_init).2.1 _ e0).2 h9
  exact ⟨.ok (evalLoop r (itemsFrom 0 d0) 0), Gives.ok (TrT.bind (t.mono (fun _ => ⟨hv, h9, hf⟩) fun v h => h) fun d hd =>
    TrT.pure (evalLoop_congr r _ _ _ _ fun i => by rw [(hd.2 h9).2.2, c0.2.2]))⟩

theorem radialPolynomialCoeffsT_det (fuel : Nat) (m n : Int) (r : α) (hv : ValidOrders m n) (hf : n.toNat + 1 < fuel) :
    Det (radialPolynomialCoeffsT fuel m n r) := by
  induction fuel generalizing m n with
  | zero => omega
  | succ fuel ih =>
    have hn := (valid_iff m n).1 hv
    unfold radialPolynomialCoeffsT
    by_cases h40 : n ≤ maxRadialOrderCoeffs
    · rw [if_pos h40]; exact coeffsT_det fuel m n r hv (by omega)
    rw [if_neg h40]
    have h40' : 40 < n := by simpa [maxRadialOrderCoeffs] using h40
    by_cases h1 : pyAbs m = n
    · rw [if_pos h1]; exact Det.pure _
    rw [if_neg h1]
    obtain ⟨v1, v2, v3⟩ := valid_down hv h1
    by_cases h0 : m = 0
    · rw [if_pos h0]
      subst h0
      rw [zero_add] at v2
      exact (ih 1 (n - 1) v2 (by omega)).bind fun x => (ih 0 (n - 2) v3 (by omega)).bind fun y => Det.pure _
    rw [if_neg h0]
    by_cases h2 : pyAbs m = n - 2
    · rw [if_pos h2]; exact Det.pure _
    rw [if_neg h2]
    exact (ih _ _ (valid_pyAbs v1) (by omega)).bind fun x => (ih _ _ v2 (by omega)).bind fun y => (ih _ _ v3 (by omega)).bind fun z => Det.pure _

theorem radialPolynomialCoeffsDrT_det (fuel : Nat) (m n : Int) (r : α) (hv : ValidOrders m n) (h9 : 9 ≤ n) (hf : n.toNat + 1 < fuel) :
    Det (radialPolynomialCoeffsDrT fuel m n r) := by
  induction fuel generalizing m n with
  | zero => omega
  | succ fuel ih =>
    have hn := (valid_iff m n).1 hv
    unfold radialPolynomialCoeffsDrT
    by_cases h38 : n ≤ maxRadialOrderCoeffsDr
    · rw [if_pos h38]; exact coeffsDrT_det fuel m n r hv h9 (by omega)
    rw [if_neg h38]
    have h38' : 38 < n := by simpa [maxRadialOrderCoeffsDr] using h38
    by_cases h1 : pyAbs m = n
    · rw [if_pos h1]; exact Det.pure _
    rw [if_neg h1]
    obtain ⟨v1, v2, v3⟩ := valid_down hv h1
    by_cases h0 : m = 0
    · rw [if_pos h0]
      subst h0
      rw [zero_add] at v2
      exact (ih 1 (n - 1) v2 (by omega) (by omega)).bind fun x => (ih 1 (n - 1) v2 (by omega) (by omega)).bind fun x =>
        (ih 0 (n - 2) v3 (by omega) (by omega)).bind fun y => Det.pure _
    rw [if_neg h0]
    by_cases h2 : pyAbs m = n - 2
    · rw [if_pos h2]; exact Det.pure _
    rw [if_neg h2]
    exact (radialPolynomialCoeffsT_det fuel _ _ r (valid_pyAbs v1) (by omega)).bind fun x => (radialPolynomialCoeffsT_det fuel _ _ r v2 (by omega)).bind fun y =>
      (ih _ _ (valid_pyAbs v1) (by omega) (by omega)).bind fun x => (ih _ _ v2 (by omega) (by omega)).bind fun y =>
      (ih _ _ v3 (by omega) (by omega)).bind fun z => Det.pure _

theorem radialValueT_det (fuel : Nat) (exact : Bool) (m n : Int) (r : α) (hv : ValidOrders m n) (hf : n.toNat + 1 < fuel) :
    Det (radialValueT fuel exact m n r) := by
  unfold radialValueT
  split_ifs
  · exact Det.lift _
  · exact radialPolynomialCoeffsT_det fuel m n r hv hf
  · exact Det.pure _
  · exact Det.lift _

theorem radialDrValueT_det (fuel : Nat) (exact : Bool) (m n : Int) (r : α) (hv : ValidOrders m n) (hf : n.toNat + 1 < fuel) :
    Det (radialDrValueT fuel exact m n r) := by
  unfold radialDrValueT
  split_ifs
  · exact Det.lift _
  · exact radialPolynomialCoeffsDrT_det fuel m n r hv (by omega) hf
  · exact Det.pure _
  · exact Det.lift _

end

/-! ### Det of the calls -/

/-- The polynomial exists, and the recursion limit allows its order. -/
def Fits (fuel : Nat) (m n : Int) : Prop := ValidOrders m n ∧ n.toNat + 1 < fuel

theorem polynomialFlT_det (F : FloatArith) (fuel : Nat) (exact : Bool) (m n : Int) (r t : Fl F) (h : Fits fuel m n) : Det (polynomialFlT F fuel exact m n r t) := by
  unfold polynomialFlT
  split_ifs
  · exact Det.pure _
  · exact (radialValueT_det fuel exact m n r h.1 h.2).bind fun v => Det.pure _

section
variable (F : PsfArith) (fuel : Nat)

theorem fltSinglePhaseT_det (o : PolObj) (a p phi : ℝ) (h : Fits fuel o.m o.n) : Det (fltSinglePhaseT F fuel o a p phi) :=
  (polynomialFlT_det _ _ _ _ _ _ _ h).bind fun _ => Det.pure _

theorem fltPolsRestT_det (p phi : ℝ) (l : List (ℝ × PolObj)) (h : ∀ x ∈ l, Fits fuel x.2.m x.2.n) (S : ℝ) : Det (fltPolsRestT F fuel p phi l S) := by
  induction l generalizing S with
  | nil => exact Det.pure _
  | cons x l ih =>
    exact (fltSinglePhaseT_det F fuel _ _ _ _ (h x (List.mem_cons_self ..))).bind fun v => ih (fun y hy => h y (List.mem_cons_of_mem _ hy)) _

theorem fltPolsPhaseT_det (l : List (ℝ × PolObj)) (h : ∀ x ∈ l, Fits fuel x.2.m x.2.n) (p phi : ℝ) : Det (fltPolsPhaseT F fuel l p phi) := by
  cases l with
  | nil => exact Det.lift _
  | cons x l =>
    exact (fltSinglePhaseT_det F fuel _ _ _ _ (h x (List.mem_cons_self ..))).bind fun v =>
      fltPolsRestT_det F fuel _ _ _ (fun y hy => h y (List.mem_cons_of_mem _ hy)) _

variable {F} {ph : FltPhaseT} (hp : ∀ p phi, Det (ph p phi))
include hp

theorem fltDiffractionT_det (phi p theta r : ℝ) : Det (fltDiffractionT F ph phi p theta r) := (hp p phi).bind fun _ => Det.pure _

theorem fltWavesT_det (phi theta r : ℝ) (l : List ℝ) : Det (fltWavesT F ph phi theta r l) := by
  induction l with
  | nil => exact Det.pure _
  | cons p l ih => exact (fltDiffractionT_det hp _ _ _ _).bind fun w => ih.bind fun ws => Det.pure _

theorem fltRadialIntegralT_det (r theta phi : ℝ) (nR : Int) : Det (fltRadialIntegralT F ph r theta phi nR) := by
  unfold fltRadialIntegralT
  split_ifs
  · exact Det.lift _
  · exact (fltDiffractionT_det hp _ _ _ _).bind fun _ => (fltDiffractionT_det hp _ _ _ _).bind fun _ => (fltWavesT_det hp _ _ _ _).bind fun _ => Det.pure _

theorem fltAnglesT_det (r theta h : ℝ) (nR : Int) (l : List Int) : Det (fltAnglesT F ph r theta h nR l) := by
  induction l with
  | nil => exact Det.pure _
  | cons i l ih => exact (fltRadialIntegralT_det hp _ _ _ _).bind fun w => ih.bind fun ws => Det.pure _

theorem fltPsfPointT_det (r theta : ℝ) (nR nPhi : Int) : Det (fltPsfPointT F ph r theta nR nPhi) := by
  unfold fltPsfPointT
  split_ifs
  · exact Det.lift _
  · exact (fltAnglesT_det hp _ _ _ _ _).bind fun _ => (fltAnglesT_det hp _ _ _ _ _).bind fun _ => (fltRadialIntegralT_det hp _ _ _ _).bind fun _ =>
      (fltRadialIntegralT_det hp _ _ _ _).bind fun _ => Det.pure _

end

theorem fillRowT_det {f : Nat → Nat → Prog ℝ} (hf : ∀ i j, Det (f i j)) (i k j : Nat) (S : Grid) : Det (fillRowT f i k j S) := by
  induction k generalizing j S with
  | zero => exact Det.pure _
  | succ k ih => exact (hf i j).bind fun v => ih _ _

theorem fillRowsT_det {f : Nat → Nat → Prog ℝ} (hf : ∀ i j, Det (f i j)) (c k i : Nat) (S : Grid) : Det (fillRowsT f c k i S) := by
  induction k generalizing i S with
  | zero => exact Det.pure _
  | succ k ih => exact (fillRowT_det hf _ _ _ _).bind fun v => ih _ _

theorem fltMakeKernelT_det (F : PsfArith) {f : Nat → Nat → Prog ℝ} (hf : ∀ i j, Det (f i j)) (size : Int) (NA : ℝ) (b : Bool) : Det (fltMakeKernelT F size NA f b) := by
  unfold fltMakeKernelT
  by_cases h1 : size < 0
  · rw [if_pos h1]; exact Det.lift _
  rw [if_neg h1]
  by_cases h2 : NA = 0
  · rw [if_pos h2]; exact Det.lift _
  rw [if_neg h2]
  refine (fillRowsT_det hf _ _ _ _).bind fun v => ?_
  cases b
  · exact Det.pure _
  · exact Det.lift _

section
variable (F : PsfArith) (fuel : Nat)

theorem fltPsfKernelT_det (o : PolObj) (coeff : ℝ) (q : KernelParams) (h : Fits fuel o.m o.n) : Det (fltPsfKernelT F fuel o coeff q) := by
  unfold fltPsfKernelT
  by_cases h1 : q.wavelength = 0
  · rw [if_pos h1]; exact Det.lift _
  rw [if_neg h1]
  exact fltMakeKernelT_det F (fun i j => fltPsfPointT_det (fun p phi => fltSinglePhaseT_det F fuel _ _ _ _ h) _ _ _ _) _ _ _

theorem fltPsfKernelZernsT_det (l : List (ℝ × PolObj)) (q : KernelParams) (h : ∀ x ∈ l, Fits fuel x.2.m x.2.n) : Det (fltPsfKernelZernsT F fuel l q) := by
  unfold fltPsfKernelZernsT
  by_cases h1 : q.wavelength = 0
  · rw [if_pos h1]; exact Det.lift _
  rw [if_neg h1]
  exact fltMakeKernelT_det F (fun i j => fltPsfPointT_det (fun p phi => fltPolsPhaseT_det F fuel _ h _ _) _ _ _ _) _ _ _

theorem fltSumRestT_det (r theta : ℝ) (l : List (ℝ × PolObj)) (h : ∀ x ∈ l, Fits fuel x.2.m x.2.n) (S : ℝ) : Det (fltSumRestT F fuel r theta l S) := by
  induction l generalizing S with
  | nil => exact Det.pure _
  | cons x l ih =>
    have hl : ∀ x ∈ l, Fits fuel x.2.m x.2.n := fun y hy => h y (List.mem_cons_of_mem _ hy)
    unfold fltSumRestT
    by_cases h1 : |x.1| > 0
    · rw [if_pos h1]
      exact (fltSinglePhaseT_det F fuel _ _ _ _ (h x (List.mem_cons_self ..))).bind fun v => ih hl _
    · rw [if_neg h1]; exact ih hl _

theorem fltSumPointT_det (r theta : ℝ) (l : List (ℝ × PolObj)) (h : ∀ x ∈ l, Fits fuel x.2.m x.2.n) : Det (fltSumPointT F fuel r theta l) := by
  cases l with
  | nil => exact Det.lift _
  | cons x l =>
    exact (fltSinglePhaseT_det F fuel _ _ _ _ (h x (List.mem_cons_self ..))).bind fun v =>
      fltSumRestT_det F fuel _ _ _ (fun y hy => h y (List.mem_cons_of_mem _ hy)) _

theorem fltValuesT_det (c : ℝ) (o : PolObj) (h : Fits fuel o.m o.n) (l : List (ℝ × ℝ)) : Det (fltValuesT F fuel c o l) := by
  induction l with
  | nil => exact Det.pure _
  | cons x l ih => exact (fltSinglePhaseT_det F fuel _ _ _ _ h).bind fun v => ih.bind fun vs => Det.pure _

theorem fltAddRowsT_det (c : ℝ) (o : PolObj) (h : Fits fuel o.m o.n) (r theta : List ℝ) (k j : Nat) (S : Grid) : Det (fltAddRowsT F fuel c o r theta k j S) := by
  induction k generalizing j S with
  | zero => exact Det.pure _
  | succ k ih => exact (fltValuesT_det F fuel _ _ h _).bind fun v => ih _ _

theorem fltAddColsT_det (c : ℝ) (o : PolObj) (h : Fits fuel o.m o.n) (r theta : List ℝ) (k j : Nat) (S : Grid) : Det (fltAddColsT F fuel c o r theta k j S) := by
  induction k generalizing j S with
  | zero => exact Det.pure _
  | succ k ih => exact (fltValuesT_det F fuel _ _ h _).bind fun v => ih _ _

theorem fltSurfaceLoopT_det (r theta : List ℝ) (l : List (ℝ × PolObj)) (h : ∀ x ∈ l, Fits fuel x.2.m x.2.n) (S : Grid) : Det (fltSurfaceLoopT F fuel r theta l S) := by
  induction l generalizing S with
  | nil => exact Det.pure _
  | cons x l ih =>
    have hl : ∀ x ∈ l, Fits fuel x.2.m x.2.n := fun y hy => h y (List.mem_cons_of_mem _ hy)
    have hx := h x (List.mem_cons_self ..)
    unfold fltSurfaceLoopT
    by_cases h1 : |x.1| > 0
    · rw [if_pos h1]
      split_ifs
      · exact (fltAddRowsT_det F fuel _ _ hx _ _ _ _ _).bind fun v => ih hl _
      · exact (fltAddColsT_det F fuel _ _ hx _ _ _ _ _).bind fun v => ih hl _
    · rw [if_neg h1]; exact ih hl _

theorem fltSumSurfaceT_det (r theta : List ℝ) (l : List (ℝ × PolObj)) (h : ∀ x ∈ l, Fits fuel x.2.m x.2.n) : Det (fltSumSurfaceT F fuel r theta l) := by
  unfold fltSumSurfaceT
  split_ifs
  · exact Det.lift _
  · exact fltSurfaceLoopT_det F fuel _ _ _ h _

theorem fltMeshLoopT_det (r theta : List ℝ) (l : List (ℝ × PolObj)) (h : ∀ x ∈ l, Fits fuel x.2.m x.2.n) (S : Grid) : Det (fltMeshLoopT F fuel r theta l S) := by
  induction l generalizing S with
  | nil => exact Det.pure _
  | cons x l ih =>
    have hl : ∀ x ∈ l, Fits fuel x.2.m x.2.n := fun y hy => h y (List.mem_cons_of_mem _ hy)
    unfold fltMeshLoopT
    by_cases h1 : |x.1| > 0
    · rw [if_pos h1]
      exact (fltAddRowsT_det F fuel _ _ (h x (List.mem_cons_self ..)) _ _ _ _ _).bind fun v => ih hl _
    · rw [if_neg h1]; exact ih hl _

/-! ### Without other threads -/

theorem polynomialFlT_alone (F : FloatArith) (exact : Bool) (m n : Int) (r t : Fl F) :
    (polynomialFlT F fuel exact m n r t).alone = polynomialFl F fuel exact m n r t := by
  unfold polynomialFlT polynomialFl radialFl
  split_ifs
  · rfl
  · simp only [alone_bind, alone_pure, radialValueT_alone]

theorem fltSinglePhaseT_alone (o : PolObj) (a p phi : ℝ) : (fltSinglePhaseT F fuel o a p phi).alone = fltSinglePhase F fuel o a p phi := by
  simp only [fltSinglePhaseT, fltSinglePhase, alone_bind, alone_pure, polynomialFlT_alone]

theorem fltPolsRestT_alone (p phi : ℝ) (l : List (ℝ × PolObj)) (S : ℝ) : (fltPolsRestT F fuel p phi l S).alone = fltPolsRest F fuel p phi l S := by
  induction l generalizing S with
  | nil => rfl
  | cons x l ih => simp only [fltPolsRestT, fltPolsRest, alone_bind, fltSinglePhaseT_alone, ih]

theorem fltPolsPhaseT_alone (l : List (ℝ × PolObj)) (p phi : ℝ) : (fltPolsPhaseT F fuel l p phi).alone = fltPolsPhase F fuel l p phi := by
  cases l with
  | nil => rfl
  | cons x l => simp only [fltPolsPhaseT, fltPolsPhase, alone_bind, fltSinglePhaseT_alone, fltPolsRestT_alone]

theorem fltSumRestT_alone (r theta : ℝ) (l : List (ℝ × PolObj)) (S : ℝ) : (fltSumRestT F fuel r theta l S).alone = fltSumRest F fuel r theta l S := by
  induction l generalizing S with
  | nil => rfl
  | cons x l ih =>
    unfold fltSumRestT fltSumRest
    by_cases h1 : |x.1| > 0
    · rw [if_pos h1, if_pos h1]; simp only [alone_bind, fltSinglePhaseT_alone, ih]
    · rw [if_neg h1, if_neg h1]; exact ih _

theorem fltSumPointT_alone (r theta : ℝ) (l : List (ℝ × PolObj)) : (fltSumPointT F fuel r theta l).alone = fltSumPoint F fuel r theta l := by
  cases l with
  | nil => rfl
  | cons x l => simp only [fltSumPointT, fltSumPoint, alone_bind, fltSinglePhaseT_alone, fltSumRestT_alone]

theorem fltValuesT_alone (c : ℝ) (o : PolObj) (l : List (ℝ × ℝ)) : (fltValuesT F fuel c o l).alone = fltValues F fuel c o l := by
  induction l with
  | nil => rfl
  | cons x l ih => simp only [fltValuesT, fltValues, alone_bind, alone_pure, fltSinglePhaseT_alone, ih]

theorem fltAddRowsT_alone (c : ℝ) (o : PolObj) (r theta : List ℝ) (k j : Nat) (S : Grid) :
    (fltAddRowsT F fuel c o r theta k j S).alone = fltAddRows F fuel c o r theta k j S := by
  induction k generalizing j S with
  | zero => rfl
  | succ k ih => simp only [fltAddRowsT, fltAddRows, alone_bind, fltValuesT_alone, ih]

theorem fltAddColsT_alone (c : ℝ) (o : PolObj) (r theta : List ℝ) (k j : Nat) (S : Grid) :
    (fltAddColsT F fuel c o r theta k j S).alone = fltAddCols F fuel c o r theta k j S := by
  induction k generalizing j S with
  | zero => rfl
  | succ k ih => simp only [fltAddColsT, fltAddCols, alone_bind, fltValuesT_alone, ih]

theorem fltSurfaceLoopT_alone (r theta : List ℝ) (l : List (ℝ × PolObj)) (S : Grid) : (fltSurfaceLoopT F fuel r theta l S).alone = fltSurfaceLoop F fuel r theta l S := by
  induction l generalizing S with
  | nil => rfl
  | cons x l ih =>
    unfold fltSurfaceLoopT fltSurfaceLoop
    by_cases h1 : |x.1| > 0
    · rw [if_pos h1, if_pos h1]
      split_ifs
      · simp only [alone_bind, fltAddRowsT_alone, ih]
      · simp only [alone_bind, fltAddColsT_alone, ih]
    · rw [if_neg h1, if_neg h1]; exact ih _

theorem fltSumSurfaceT_alone (r theta : List ℝ) (l : List (ℝ × PolObj)) : (fltSumSurfaceT F fuel r theta l).alone = fltSumSurface F fuel r theta l := by
  unfold fltSumSurfaceT fltSumSurface
  split_ifs
  · rfl
  · exact fltSurfaceLoopT_alone F fuel _ _ _ _

theorem fltMeshLoopT_alone (r theta : List ℝ) (l : List (ℝ × PolObj)) (S : Grid) : (fltMeshLoopT F fuel r theta l S).alone = fltMeshLoop F fuel r theta l S := by
  induction l generalizing S with
  | nil => rfl
  | cons x l ih =>
    unfold fltMeshLoopT fltMeshLoop
    by_cases h1 : |x.1| > 0
    · rw [if_pos h1, if_pos h1]; simp only [alone_bind, fltAddRowsT_alone, ih]
    · rw [if_neg h1, if_neg h1]; exact ih _

end

section
variable {F : PsfArith} {ph : FltPhaseT} {ph' : FltPhase} (hp : ∀ p phi, (ph p phi).alone = ph' p phi)
include hp

theorem fltDiffractionT_alone (phi p theta r : ℝ) : (fltDiffractionT F ph phi p theta r).alone = fltDiffraction F ph' phi p theta r := by
  simp only [fltDiffractionT, fltDiffraction, alone_bind, alone_pure, hp]

theorem fltWavesT_alone (phi theta r : ℝ) (l : List ℝ) : (fltWavesT F ph phi theta r l).alone = fltWaves F ph' phi theta r l := by
  induction l with
  | nil => rfl
  | cons p l ih => simp only [fltWavesT, fltWaves, alone_bind, alone_pure, fltDiffractionT_alone hp, ih]

theorem fltRadialIntegralT_alone (r theta phi : ℝ) (nR : Int) : (fltRadialIntegralT F ph r theta phi nR).alone = fltRadialIntegral F ph' r theta phi nR := by
  unfold fltRadialIntegralT fltRadialIntegral
  split_ifs
  · rfl
  · simp only [alone_bind, alone_pure, fltDiffractionT_alone hp, fltWavesT_alone hp]

theorem fltAnglesT_alone (r theta h : ℝ) (nR : Int) (l : List Int) : (fltAnglesT F ph r theta h nR l).alone = fltAngles F ph' r theta h nR l := by
  induction l with
  | nil => rfl
  | cons i l ih => simp only [fltAnglesT, fltAngles, alone_bind, alone_pure, fltRadialIntegralT_alone hp, ih]

theorem fltPsfPointT_alone (r theta : ℝ) (nR nPhi : Int) : (fltPsfPointT F ph r theta nR nPhi).alone = fltPsfPoint F ph' r theta nR nPhi := by
  unfold fltPsfPointT fltPsfPoint
  split_ifs
  · rfl
  · simp only [alone_bind, alone_pure, fltRadialIntegralT_alone hp, fltAnglesT_alone hp]

end

section
variable {f : Nat → Nat → Prog ℝ} {f' : Nat → Nat → CM ℝ} (hf : ∀ i j, (f i j).alone = f' i j)
include hf

theorem fillRowT_alone (i k j : Nat) (S : Grid) : (fillRowT f i k j S).alone = fillRow f' i k j S := by
  induction k generalizing j S with
  | zero => rfl
  | succ k ih => simp only [fillRowT, fillRow, alone_bind, hf, ih]

theorem fillRowsT_alone (c k i : Nat) (S : Grid) : (fillRowsT f c k i S).alone = fillRows f' c k i S := by
  induction k generalizing i S with
  | zero => rfl
  | succ k ih => simp only [fillRowsT, fillRows, alone_bind, fillRowT_alone hf, ih]

theorem fltMakeKernelT_alone (F : PsfArith) (size : Int) (NA : ℝ) (b : Bool) : (fltMakeKernelT F size NA f b).alone = fltMakeKernel F size NA f' b := by
  unfold fltMakeKernelT fltMakeKernel
  by_cases h1 : size < 0
  · rw [if_pos h1, if_pos h1]; rfl
  rw [if_neg h1, if_neg h1]
  by_cases h2 : NA = 0
  · rw [if_pos h2, if_pos h2]; rfl
  rw [if_neg h2, if_neg h2]
  rw [alone_bind, fillRowsT_alone hf]
  cases b <;> rfl

end

theorem fltPsfKernelT_alone (F : PsfArith) (fuel : Nat) (o : PolObj) (coeff : ℝ) (q : KernelParams) : (fltPsfKernelT F fuel o coeff q).alone = fltPsfKernel F fuel o coeff q := by
  unfold fltPsfKernelT fltPsfKernel
  by_cases h1 : q.wavelength = 0
  · rw [if_pos h1, if_pos h1]; rfl
  rw [if_neg h1, if_neg h1]
  exact fltMakeKernelT_alone (fun i j => fltPsfPointT_alone (fun p phi => fltSinglePhaseT_alone F fuel _ _ _ _) _ _ _ _) F _ _ _

theorem fltPsfKernelZernsT_alone (F : PsfArith) (fuel : Nat) (l : List (ℝ × PolObj)) (q : KernelParams) :
    (fltPsfKernelZernsT F fuel l q).alone = fltPsfKernelZerns F fuel l q := by
  unfold fltPsfKernelZernsT fltPsfKernelZerns
  by_cases h1 : q.wavelength = 0
  · rw [if_pos h1, if_pos h1]; rfl
  rw [if_neg h1, if_neg h1]
  exact fltMakeKernelT_alone (fun i j => fltPsfPointT_alone (fun p phi => fltPolsPhaseT_alone F fuel _ _ _) _ _ _ _) F _ _ _

theorem fltThreadProg_tr (F : PsfArith) (fuel : Nat) (cs : List FltCall) (e : FltCall → Res FltOut) (h : ∀ c ∈ cs, Gives (c.prog F fuel) (e c)) :
    TrT True (fltThreadProg F fuel cs) fun xs => xs = cs.map e := by
  induction cs with
  | nil => exact TrT.pure rfl
  | cons c rest ih =>
    refine TrT.bind (h c (List.mem_cons_self ..)) fun x hx => TrT.bind (ih fun c' h' => h c' (List.mem_cons_of_mem _ h')) fun xs hxs => TrT.pure ?_
    rw [hx, hxs]; rfl

end Verif.Proofs
