import Verif.Proofs.Threads

/-!
# Threads: results of the calls, the invariant of a process, progress
-/

namespace Verif.Proofs
open Verif.Model Verif.Spec Polynomial

section
variable {α : Type} [CommRing α] [Algebra ℚ α]

theorem radialValueT_tr (fuel : Nat) (exact : Bool) (m n : Int) (r : α) (hv : ValidOrders m n) (hf : n.toNat + 1 < fuel) :
    TrT True (radialValueT fuel exact m n r) fun v => v = if exact ∧ 40 < n then 0 else RR m n r := by
  unfold radialValueT
  cases exact
  · simp only [Bool.not_false, if_true, Bool.false_eq_true, false_and, if_false]
    split_ifs
    · have h := radialPolynomial_correct fuel m n r hv (by omega)
      rw [h]
      exact TrT.pure rfl
    · exact (radialPolynomialCoeffsT_tr fuel m n r).mono (fun _ => ⟨hv, hf⟩) fun v h => h hv
  · simp only [Bool.not_true, Bool.false_eq_true, if_false, true_and]
    rw [show maxRadialOrderCoeffs = 40 from rfl]
    by_cases h : n > 40
    · rw [if_pos h, if_pos h]; exact TrT.pure rfl
    · rw [if_neg h, if_neg h, radialPolynomialEq_correct m n r hv]; exact TrT.pure rfl

theorem radialDrValueT_tr (fuel : Nat) (exact : Bool) (m n : Int) (r : α) (hv : ValidOrders m n) (hf : n.toNat + 1 < fuel) :
    TrT True (radialDrValueT fuel exact m n r) fun v =>
      v = if exact then (if 38 < n then 0 else DR m n r) else if n ≤ 12 then DR m n r else drVal fuel m n r := by
  unfold radialDrValueT
  cases exact
  · simp only [Bool.not_false, if_true, Bool.false_eq_true, if_false]
    split_ifs
    · have h := radialDerivative_correct fuel m n r hv (by omega)
      rw [h]
      exact TrT.pure rfl
    · exact (radialPolynomialCoeffsDrT_tr fuel m n r).mono (fun _ => ⟨hv, by omega, hf⟩) fun v h => h hv (by omega)
  · simp only [Bool.not_true, Bool.false_eq_true, if_false, if_true]
    rw [show maxRadialOrderCoeffsDr = 38 from rfl]
    by_cases h : n > 38
    · rw [if_pos h, if_pos h]; exact TrT.pure rfl
    · rw [if_neg h, if_neg h, radialDerivativeEq_correct m n r hv]; exact TrT.pure rfl

end

theorem evalNumT_tr (f : (α : Type) → [CommRing α] → [Algebra ℚ α] → α → Prog α) (g : (α : Type) → [CommRing α] → [Algebra ℚ α] → α → α)
    (h : ∀ (α : Type) [CommRing α] [Algebra ℚ α] (r : α), TrT True (f α r) fun v => v = g α r)
    (hnat : ∀ (N : Nat) (r : Fin N → ℝ) (i : Fin N), g (Fin N → ℝ) r i = g ℝ (r i)) (x : Num) :
    TrT True (evalNumT f x) fun v => v = x.map (g ℝ) := by
  cases x with
  | scalar x =>
    refine TrT.bind (h ℝ x) fun v hv => TrT.pure ?_
    rw [hv]; rfl
  | array sh d =>
    refine TrT.bind (h _ _) fun v hv => TrT.pure ?_
    rw [hv]
    simp only [Num.map, Num.array.injEq, true_and]
    apply List.ext_getElem
    · simp
    · intro i h1 h2
      simp [hnat, asFun]

/-- The program makes the observable result `x`, whatever the other threads do. -/
def Gives {β : Type} (p : Prog β) (x : Res β) : Prop := TrT True p.attempt fun y => y = x

theorem attemptAt {β : Type} {p : Prog β} {Q : β → Prop} {s : CoefState} (h : TrAt True Q p s) :
    TrAt True (fun y => ∃ v, Q v ∧ y = .ok v) p.attempt s := by
  induction p generalizing s with
  | done r =>
    cases r with
    | ok v => exact ⟨v, h, rfl⟩
    | error e => exact (h trivial).elim
  | step u k ih =>
    intro t ht hl
    exact ⟨(h t ht hl).1, (h t ht hl).2.1, ih _ (h t ht hl).2.2⟩

theorem Gives.ok {β : Type} {p : Prog β} {v : β} (h : TrT True p fun y => y = v) : Gives p (.ok v) :=
  fun s => (attemptAt (h s)).mono id (by rintro y ⟨w, rfl, rfl⟩; rfl)

theorem Gives.error {β : Type} (e : PyErr) : Gives (.done (.error e) : Prog β) (.error e) := fun _ => rfl

/-! ### The calls -/

theorem radialT_gives (fuel : Nat) (m n : Int) (r : Arg) (exact : Bool) (hv : ValidOrders m n) (hf : n.toNat + 1 < fuel) (s : CoefState) (hs : Good s) :
    Gives (radialT fuel m n r exact) (Model.radial fuel ⟨m, n, false⟩ r exact s).res := by
  cases hx : checkRadii r with
  | error e =>
    have e1 : radialT fuel m n r exact = .done (.error e) := by unfold radialT; rw [hx]; rfl
    have e2 : (Model.radial fuel ⟨m, n, false⟩ r exact s).res = .error e := by unfold Model.radial; rw [hx]
    rw [e1, e2]; exact Gives.error e
  | ok x =>
    rw [radial_ok fuel ⟨m, n, false⟩ r exact s hs hv hf x hx]
    refine Gives.ok ?_
    have e1 : radialT fuel m n r exact = evalNumT (fun α _ _ y => radialValueT (α := α) fuel exact m n y) x := by unfold radialT; rw [hx]; rfl
    rw [e1]
    refine evalNumT_tr _ (fun α _ _ y => if exact ∧ 40 < n then 0 else RR m n y) (fun α _ _ r => radialValueT_tr _ _ _ _ _ hv hf) (fun N r i => ?_) x
    split_ifs
    · rfl
    · exact RR_pi N _ _ r i

theorem radialDrT_gives (fuel : Nat) (m n : Int) (r : Arg) (exact : Bool) (hv : ValidOrders m n) (hf : n.toNat + 1 < fuel) (s : CoefState) (hs : Good s) :
    Gives (radialDrT fuel m n r exact) (Model.radialDr fuel ⟨m, n, false⟩ r exact s).res := by
  cases hx : checkRadii r with
  | error e =>
    have e1 : radialDrT fuel m n r exact = .done (.error e) := by unfold radialDrT; rw [hx]; rfl
    have e2 : (Model.radialDr fuel ⟨m, n, false⟩ r exact s).res = .error e := by unfold Model.radialDr; rw [hx]
    rw [e1, e2]; exact Gives.error e
  | ok x =>
    rw [radialDr_ok fuel ⟨m, n, false⟩ r exact s hs hv hf x hx]
    refine Gives.ok ?_
    have e1 : radialDrT fuel m n r exact = evalNumT (fun α _ _ y => radialDrValueT (α := α) fuel exact m n y) x := by unfold radialDrT; rw [hx]; rfl
    rw [e1]
    refine evalNumT_tr _ (fun α _ _ y => if exact then (if 38 < n then 0 else DR m n y) else if n ≤ 12 then DR m n y else drVal fuel m n y)
      (fun α _ _ r => radialDrValueT_tr _ _ _ _ _ hv hf) (fun N r i => ?_) x
    split_ifs
    · rfl
    · exact DR_pi N _ _ r i
    · exact DR_pi N _ _ r i
    · exact drVal_pi N _ _ _ r i

theorem polynomialValueT_gives (fuel : Nat) (m n : Int) (r theta : Arg) (exact : Bool) (hv : ValidOrders m n) (hf : n.toNat + 1 < fuel)
    (s : CoefState) (hs : Good s) :
    Gives (polynomialValueT fuel m n r theta exact) (Model.polynomialValue fuel ⟨m, n, false⟩ r theta exact s).res := by
  cases hx : checkRadii r with
  | error e =>
    have e1 : polynomialValueT fuel m n r theta exact = .done (.error e) := by unfold polynomialValueT; rw [hx]; rfl
    have e2 : (Model.polynomialValue fuel ⟨m, n, false⟩ r theta exact s).res = .error e := by unfold Model.polynomialValue; rw [hx]
    rw [e1, e2]; exact Gives.error e
  | ok x =>
    cases ht : checkAngles theta with
    | error e =>
      have e1 : polynomialValueT fuel m n r theta exact = .done (.error e) := by unfold polynomialValueT; rw [hx, ht]; rfl
      have e2 : (Model.polynomialValue fuel ⟨m, n, false⟩ r theta exact s).res = .error e := by unfold Model.polynomialValue; rw [hx, ht]
      rw [e1, e2]; exact Gives.error e
    | ok tw =>
      obtain ⟨t, w⟩ := tw
      have e1 : polynomialValueT fuel m n r theta exact = (if shapesDiffer x t then Prog.lift (.error .valueError)
          else if exact ∧ n > maxRadialOrderCoeffs then pure x.zerosLike
          else do
            let v ← evalNumT (fun α _ _ y => radialValueT (α := α) fuel exact m n y) x
            pure ((t.map (fun a => normalizationFactor m n * triangularFunction m a)).mul v)) := by
        unfold polynomialValueT; rw [hx, ht]; rfl
      rw [e1]
      by_cases hsh : shapesDiffer x t = true
      · have e2 : (Model.polynomialValue fuel ⟨m, n, false⟩ r theta exact s).res = .error .valueError := by
          unfold Model.polynomialValue; rw [hx, ht]; dsimp only; rw [if_pos hsh]
        rw [e2, if_pos hsh]; exact Gives.error _
      · have hshape : ∀ sh d sh' d', x = .array sh d → t = .array sh' d' → sh = sh' := by
          rintro sh d sh' d' rfl rfl
          by_contra hne
          exact hsh (by simpa [shapesDiffer] using hne)
        rw [polynomialValue_ok fuel ⟨m, n, false⟩ r theta exact s hs hv hf x t w hx ht hshape, if_neg hsh]
        rw [show maxRadialOrderCoeffs = 40 from rfl]
        by_cases hc : exact = true ∧ n > 40
        · rw [if_pos hc, if_pos (by exact hc)]; exact Gives.ok (TrT.pure rfl)
        · rw [if_neg hc, if_neg (by exact hc)]
          refine Gives.ok (TrT.bind (evalNumT_tr _ (fun α _ _ y => RR m n y) (fun α _ _ r => ?_) (fun N r i => RR_pi N _ _ r i) x) fun v hv => TrT.pure ?_)
          · refine (radialValueT_tr fuel exact m n r hv hf).mono id fun v h => ?_
            rw [h, if_neg (by exact hc)]
          · rw [hv]

/-! ### Threads and processes -/

theorem threadProg_tr (fuel : Nat) (cs : List ThreadCall) (e : ThreadCall → Res Num) (h : ∀ c ∈ cs, Gives (c.prog fuel) (e c)) :
    TrT True (threadProg fuel cs) fun xs => xs = cs.map e := by
  induction cs with
  | nil => exact TrT.pure rfl
  | cons c rest ih =>
    refine TrT.bind (h c (List.mem_cons_self ..)) fun x hx => TrT.bind (ih fun c' h' => h c' (List.mem_cons_of_mem _ h')) fun xs hxs => TrT.pure ?_
    rw [hx, hxs]; rfl

/-- The invariant of a process whose threads have to end with the results `e`. -/
structure ProcInv {β : Type} (e : List β) (p : Process β) : Prop where
  good : Good p.st
  thr : ∀ (i : Nat) (x : Prog β), p.threads[i]? = some x → ∃ y, e[i]? = some y ∧ TrAt True (fun v => v = y) x p.st

theorem ProcInv.step {β : Type} {e : List β} {p : Process β} (h : ProcInv e p) (i : Nat) : ProcInv e (p.step i) := by
  unfold Process.step
  split
  next u k hi =>
    obtain ⟨y, hy, ht⟩ := h.thr i _ hi
    obtain ⟨g, kl, t⟩ := ht _ h.good (KeysLe.refl _)
    refine ⟨g, fun j x hj => ?_⟩
    rw [List.getElem?_set] at hj
    split_ifs at hj with h1 h2
    · subst h1; cases hj; exact ⟨y, hy, t⟩
    · obtain ⟨y', hy', ht'⟩ := h.thr j x hj
      exact ⟨y', hy', ht'.later kl⟩
  · exact h

theorem ProcInv.run {β : Type} {e : List β} {p : Process β} (h : ProcInv e p) (l : List Nat) : ProcInv e (p.run l) := by
  unfold Process.run
  induction l generalizing p with
  | nil => exact h
  | cons i l ih => exact ih (h.step i)

theorem ProcInv.start (fuel : Nat) (calls : List (List ThreadCall)) (e : ThreadCall → Res Num) (s : CoefState) (hs : Good s)
    (h : ∀ cs ∈ calls, ∀ c ∈ cs, Gives (c.prog fuel) (e c)) : ProcInv (calls.map fun cs => cs.map e) ⟨calls.map (threadProg fuel), s⟩ := by
  refine ⟨hs, fun i x hi => ?_⟩
  rw [List.getElem?_map] at hi
  cases hc : calls[i]? with
  | none => rw [hc] at hi; cases hi
  | some cs =>
    rw [hc] at hi; cases hi
    exact ⟨cs.map e, by simp [hc], threadProg_tr fuel cs e (h cs (List.mem_of_getElem? hc)) s⟩

theorem run_length {β : Type} (p : Process β) (l : List Nat) : (p.run l).threads.length = p.threads.length := by
  unfold Process.run
  induction l generalizing p with
  | nil => rfl
  | cons i l ih =>
    rw [List.foldl_cons, ih]
    unfold Process.step
    split
    · simp
    · rfl

theorem run_append {β : Type} (p : Process β) (l l' : List Nat) : p.run (l ++ l') = (p.run l).run l' := List.foldl_append

theorem step_other {β : Type} (p : Process β) (i j : Nat) (h : j ≠ i) : (p.step j).threads[i]? = p.threads[i]? := by
  unfold Process.step
  split
  · simp [List.getElem?_set, h]
  · rfl

theorem run_other {β : Type} (p : Process β) (l : List Nat) (i : Nat) (h : i ∉ l) : (p.run l).threads[i]? = p.threads[i]? := by
  unfold Process.run
  induction l generalizing p with
  | nil => rfl
  | cons j l ih =>
    rw [List.foldl_cons, ih _ fun hh => h (List.mem_cons_of_mem _ hh), step_other]
    rintro rfl; exact h (List.mem_cons_self ..)

/-- A thread that is chosen again and again finishes. -/
theorem fair_finishes {β : Type} (x : Prog β) (p : Process β) (f : Nat → Nat) (i : Nat) (hi : p.threads[i]? = some x)
    (hf : ∀ N, ∃ k, N ≤ k ∧ f k = i) : ∃ K r, (p.run ((List.range K).map f)).threads[i]? = some (.done r) := by
  classical
  induction x generalizing p f with
  | done r => exact ⟨0, r, hi⟩
  | step u k ih =>
    have hex : ∃ k, f k = i := by obtain ⟨k, _, h⟩ := hf 0; exact ⟨k, h⟩
    let a := Nat.find hex
    have ha : f a = i := Nat.find_spec hex
    have hlt : ∀ b, b < a → f b ≠ i := fun b hb => Nat.find_min hex hb
    have h1 : (p.run ((List.range a).map f)).threads[i]? = some (.step u k) := by
      rw [run_other, hi]
      rw [List.mem_map]
      rintro ⟨b, hb, e⟩
      exact hlt b (List.mem_range.1 hb) e
    generalize hq : p.run ((List.range a).map f) = q at h1
    have h2 : (q.step i).threads[i]? = some (k q.st) := by
      unfold Process.step
      simp only [h1]
      have hl : i < q.threads.length := by
        rw [List.getElem?_eq_some_iff] at h1; exact h1.1
      simp [hl]
    obtain ⟨K, r, hK⟩ := ih q.st (q.step i) (fun b => f (a + 1 + b)) h2 fun N => by
      obtain ⟨b, hb, e⟩ := hf (a + 1 + N)
      exact ⟨b - (a + 1), by omega, by rw [show a + 1 + (b - (a + 1)) = b by omega]; exact e⟩
    refine ⟨a + 1 + K, r, ?_⟩
    rw [List.range_add, List.range_succ, List.map_append, List.map_append, run_append, run_append, hq]
    have : q.run (List.map f [a]) = q.step i := by simp [Process.run, ha]
    rw [this, List.map_map]
    exact hK

end Verif.Proofs
