import Verif.Proofs.TableBound
import Verif.Proofs.Threads3

/-!
# Threads: every atomic action keeps the bounds of the tables, whatever the other threads do
-/

namespace Verif.Proofs
open Verif.Model Verif.Spec

/-- Every action of the program keeps the bounds, with any actions of other threads that keep them between its own; the result satisfies `Q`. -/
def KeepT {β : Type} (Q : β → Prop) : Prog β → Prop
  | .done (.ok v) => Q v
  | .done (.error _) => True
  | .step u k => ∀ s, Bnd s → Bnd (u s) ∧ KeepT Q (k s)

theorem KeepT.andThen {β γ : Type} {x : Prog β} {f : β → Prog γ} {P : β → Prop} {Q : γ → Prop} (h1 : KeepT P x) (h2 : ∀ v, P v → KeepT Q (f v)) :
    KeepT Q (x.andThen f) := by
  induction x with
  | done r => cases r with
    | ok v => exact h2 v h1
    | error e => trivial
  | step u k ih => exact fun s hs => ⟨(h1 s hs).1, ih s (h1 s hs).2⟩

theorem KeepT.bind {β γ : Type} {x : Prog β} {f : β → Prog γ} {P : β → Prop} {Q : γ → Prop} (h1 : KeepT P x) (h2 : ∀ v, P v → KeepT Q (f v)) :
    KeepT Q (x >>= f) := h1.andThen h2

theorem KeepT.pure {β : Type} {v : β} {Q : β → Prop} (h : Q v) : KeepT Q (Pure.pure v : Prog β) := h

theorem KeepT.lift {β : Type} {x : Res β} {Q : β → Prop} (h : ∀ v, x = .ok v → Q v) : KeepT Q (Prog.lift x) := by
  cases x with
  | ok v => exact h v rfl
  | error e => trivial

theorem KeepT.any {β : Type} (x : Res β) : KeepT (fun _ => True) (Prog.lift x) := KeepT.lift fun _ _ => trivial

theorem KeepT.attempt {β : Type} {x : Prog β} (h : KeepT (fun _ => True) x) : KeepT (fun _ => True) x.attempt := by
  induction x with
  | done r => trivial
  | step u k ih => exact fun s hs => ⟨(h s hs).1, ih s (h s hs).2⟩

theorem tableSet_bnd {k : Int × Int} {d : Coeffs} {t : Table} {P : (Int × Int) × Coeffs → Prop} (hk : P (k, d)) (h : (t.map Prod.fst).Nodup ∧ ∀ e ∈ t, P e) :
    ((tableSet k d t).map Prod.fst).Nodup ∧ ∀ e ∈ tableSet k d t, P e := by
  refine ⟨?_, fun e he => ?_⟩
  · unfold tableSet
    split
    · have : (t.map fun e => if e.1 = k then (k, d) else e).map Prod.fst = t.map Prod.fst := by
        rw [List.map_map]
        refine List.map_congr_left fun e _ => ?_
        simp only [Function.comp]
        split_ifs with h'
        · exact h'.symm
        · rfl
      rw [this]; exact h.1
    · rename_i hl
      have hn := lookup_none_not_mem hl
      rw [List.map_append, List.nodup_append]
      refine ⟨h.1, by simp, fun a ha b hb e => ?_⟩
      simp at hb
      rw [e, hb] at ha
      exact hn ha
  · rcases mem_tableSet he with he | rfl
    · exact h.2 e he
    · exact hk

theorem KeepT.hasVal (k : Int × Int) : KeepT (fun _ => True) (Model.hasVal k) := fun _ hs => ⟨hs, trivial⟩
theorem KeepT.hasDr (k : Int × Int) : KeepT (fun _ => True) (Model.hasDr k) := fun _ hs => ⟨hs, trivial⟩

theorem KeepT.getVal (k : Int × Int) : KeepT (fun d => d.length ≤ 41) (Model.getVal k) := by
  intro s hs
  refine ⟨hs, ?_⟩
  dsimp only
  cases h : s.vals.lookup k with
  | none => trivial
  | some d => exact (hs.vals.2 _ (lookup_mem _ _ _ h)).2

theorem KeepT.getDr (k : Int × Int) : KeepT (fun d => d.length ≤ 39) (Model.getDr k) := by
  intro s hs
  refine ⟨hs, ?_⟩
  dsimp only
  cases h : s.drs.lookup k with
  | none => trivial
  | some d => exact (hs.drs.2 _ (lookup_mem _ _ _ h)).2

theorem KeepT.storeVal {k : Int × Int} {d : Coeffs} (hk : k.2 ≤ 40) (hd : d.length ≤ 41) : KeepT (fun _ => True) (Model.storeVal k d) :=
  KeepT.bind (KeepT.hasVal k) fun b _ => by
    cases b
    · exact fun s hs => ⟨⟨tableSet_bnd (P := fun e => e.1.2 ≤ 40 ∧ e.2.length ≤ 41) ⟨hk, hd⟩ hs.vals, hs.drs, hs.lru, hs.lruDr⟩, trivial⟩
    · exact trivial

theorem KeepT.storeDr {k : Int × Int} {d : Coeffs} (hk : k.2 ≤ 38) (hd : d.length ≤ 39) : KeepT (fun _ => True) (Model.storeDr k d) :=
  KeepT.bind (KeepT.hasDr k) fun b _ => by
    cases b
    · exact fun s hs => ⟨⟨hs.vals, tableSet_bnd (P := fun e => e.1.2 ≤ 38 ∧ e.2.length ≤ 39) ⟨hk, hd⟩ hs.drs, hs.lru, hs.lruDr⟩, trivial⟩
    · exact trivial

theorem KeepT.cachedVal {k : LruKey} {body : Prog Coeffs} (h : KeepT (fun d => d.length ≤ 41) body) : KeepT (fun d => d.length ≤ 41) (cachedValT k body) := by
  intro s hs
  cases hl : s.lru.lookup k with
  | some d =>
    have := touch_bnd hl hs.lru
    simp only [hl]
    exact ⟨⟨hs.vals, hs.drs, this.1, hs.lruDr⟩, this.2⟩
  | none =>
    simp only [hl]
    refine ⟨hs, h.andThen fun d hd => ?_⟩
    intro t ht
    cases hk : t.lru.lookup k with
    | some d' => simp only [hk]; exact ⟨ht, hd⟩
    | none => simp only [hk]; exact ⟨⟨ht.vals, ht.drs, insert_bnd k hd ht.lru.2, ht.lruDr⟩, hd⟩

theorem KeepT.cachedDr {k : LruKey} {body : Prog Coeffs} (h : KeepT (fun d => d.length ≤ 39) body) : KeepT (fun d => d.length ≤ 39) (cachedDrT k body) := by
  intro s hs
  cases hl : s.lruDr.lookup k with
  | some d =>
    have := touch_bnd hl hs.lruDr
    simp only [hl]
    exact ⟨⟨hs.vals, hs.drs, hs.lru, this.1⟩, this.2⟩
  | none =>
    simp only [hl]
    refine ⟨hs, h.andThen fun d hd => ?_⟩
    intro t ht
    cases hk : t.lruDr.lookup k with
    | some d' => simp only [hk]; exact ⟨ht, hd⟩
    | none => simp only [hk]; exact ⟨⟨ht.vals, ht.drs, ht.lru, insert_bnd k hd ht.lruDr.2⟩, hd⟩

theorem keepT_findCoeffs (fuel : Nat) : ∀ (e : Bool) (m n : Int), n ≤ 40 → KeepT (fun d => d.length ≤ 41) (findCoeffsT fuel e m n) := by
  induction fuel with
  | zero => intro e m n _; exact trivial
  | succ fuel ih =>
    intro e m n hn
    unfold findCoeffsT
    refine KeepT.cachedVal (KeepT.bind (KeepT.hasVal _) fun b _ => ?_)
    cases b with
    | true => exact KeepT.getVal _
    | false =>
      refine KeepT.bind (P := fun o => ∀ d, o = some d → d.length ≤ 41) (KeepT.lift fun o ho d hd => ?_) (fun o ho => ?_)
      · rw [hd] at ho
        have := special_length ho
        omega
      · cases o with
        | some d => exact KeepT.bind (KeepT.storeVal hn (ho d rfl)) fun _ _ => KeepT.pure (ho d rfl)
        | none =>
          refine KeepT.bind (ih _ _ _ (by omega)) fun p1 q1 => KeepT.bind (ih _ _ _ (by omega)) fun p2 q2 => KeepT.bind (KeepT.any _) fun i1 _ =>
            KeepT.bind (KeepT.any _) fun i2 _ => KeepT.bind (ih _ _ _ (by omega)) fun p3 _ => KeepT.bind (KeepT.any _) fun m3 _ =>
            KeepT.bind (P := fun d => d.length ≤ 41) (KeepT.lift fun d hd => ?_) fun d hd => KeepT.bind (KeepT.storeVal ?_ q1) fun _ _ =>
            KeepT.bind (KeepT.storeVal ?_ q2) fun _ _ => KeepT.pure hd
          · have := sum_length hd
            omega
          · simp only; omega
          · simp only; omega

theorem keepT_findCoeffsDr (fuel : Nat) : ∀ (e : Bool) (m n : Int), n ≤ 38 → KeepT (fun d => d.length ≤ 39) (findCoeffsDrT fuel e m n) := by
  induction fuel with
  | zero => intro e m n _; exact trivial
  | succ fuel ih =>
    intro e m n hn
    unfold findCoeffsDrT
    refine KeepT.cachedDr (KeepT.bind (KeepT.hasDr _) fun b _ => ?_)
    cases b with
    | true => exact KeepT.getDr _
    | false =>
      refine KeepT.bind (P := fun o => ∀ d, o = some d → d.length ≤ 39) (KeepT.lift fun o ho d hd => ?_) (fun o ho => ?_)
      · rw [hd] at ho
        have := special_length_dr ho
        omega
      · cases o with
        | some d => exact KeepT.bind (KeepT.storeDr hn (ho d rfl)) fun _ _ => KeepT.pure (ho d rfl)
        | none =>
          refine KeepT.bind (keepT_findCoeffs fuel _ _ _ (by omega)) fun p1 q1 => KeepT.bind (keepT_findCoeffs fuel _ _ _ (by omega)) fun p2 q2 =>
            KeepT.bind (ih _ _ _ (by omega)) fun d1 w1 => KeepT.bind (ih _ _ _ (by omega)) fun d2 w2 => KeepT.bind (KeepT.any _) fun i1 _ =>
            KeepT.bind (KeepT.any _) fun i2 _ => KeepT.bind (ih _ _ _ (by omega)) fun d3 _ => KeepT.bind (KeepT.any _) fun m3 _ =>
            KeepT.bind (P := fun d => d.length ≤ 39) (KeepT.lift fun d hd => ?_) fun d hd => KeepT.bind (KeepT.storeVal ?_ q1) fun _ _ =>
            KeepT.bind (KeepT.storeVal ?_ q2) fun _ _ => KeepT.bind (KeepT.storeDr ?_ w1) fun _ _ => KeepT.bind (KeepT.storeDr ?_ w2) fun _ _ => KeepT.pure hd
          · have := sum_length hd
            omega
          all_goals (simp only; omega)

/-- The program keeps the bounds, whatever it returns. -/
abbrev KeepsT {β : Type} (x : Prog β) : Prop := KeepT (fun _ => True) x

theorem KeepsT.bind {β γ : Type} {x : Prog β} {f : β → Prog γ} {P : β → Prop} (h1 : KeepT P x) (h2 : ∀ v, KeepsT (f v)) : KeepsT (x >>= f) :=
  KeepT.bind h1 fun v _ => h2 v

theorem KeepsT.pure {β : Type} (v : β) : KeepsT (Pure.pure v : Prog β) := trivial

section
variable {α : Type} [Zero α] [One α] [Add α] [Sub α] [Mul α] [NatCast α] [IntCast α] [Pow α ℕ]

theorem keepT_radialPolynomialCoeffs (fuel : Nat) : ∀ (m n : Int) (r : α), KeepsT (radialPolynomialCoeffsT fuel m n r) := by
  induction fuel with
  | zero => intro m n r; exact trivial
  | succ fuel ih =>
    intro m n r
    unfold radialPolynomialCoeffsT
    split_ifs with h
    · exact KeepsT.bind (keepT_findCoeffs _ _ _ _ h) fun _ => KeepsT.pure _
    · exact KeepsT.pure _
    · exact KeepsT.bind (ih _ _ _) fun _ => KeepsT.bind (ih _ _ _) fun _ => KeepsT.pure _
    · exact KeepsT.pure _
    · exact KeepsT.bind (ih _ _ _) fun _ => KeepsT.bind (ih _ _ _) fun _ => KeepsT.bind (ih _ _ _) fun _ => KeepsT.pure _

theorem keepT_radialPolynomialCoeffsDr (fuel : Nat) : ∀ (m n : Int) (r : α), KeepsT (radialPolynomialCoeffsDrT fuel m n r) := by
  induction fuel with
  | zero => intro m n r; exact trivial
  | succ fuel ih =>
    intro m n r
    unfold radialPolynomialCoeffsDrT
    split_ifs with h
    · exact KeepsT.bind (keepT_findCoeffsDr _ _ _ _ h) fun _ => KeepsT.pure _
    · exact KeepsT.pure _
    · exact KeepsT.bind (ih _ _ _) fun _ => KeepsT.bind (ih _ _ _) fun _ => KeepsT.bind (ih _ _ _) fun _ => KeepsT.pure _
    · exact KeepsT.pure _
    · exact KeepsT.bind (keepT_radialPolynomialCoeffs _ _ _ _) fun _ => KeepsT.bind (keepT_radialPolynomialCoeffs _ _ _ _) fun _ =>
        KeepsT.bind (ih _ _ _) fun _ => KeepsT.bind (ih _ _ _) fun _ => KeepsT.bind (ih _ _ _) fun _ => KeepsT.pure _

variable [OfRat α]

theorem keepT_radialValue (fuel : Nat) (exact : Bool) (m n : Int) (r : α) : KeepsT (radialValueT fuel exact m n r) := by
  unfold radialValueT
  split_ifs
  · exact KeepT.any _
  · exact keepT_radialPolynomialCoeffs _ _ _ _
  · exact KeepsT.pure _
  · exact KeepT.any _

theorem keepT_radialDrValue (fuel : Nat) (exact : Bool) (m n : Int) (r : α) : KeepsT (radialDrValueT fuel exact m n r) := by
  unfold radialDrValueT
  split_ifs
  · exact KeepT.any _
  · exact keepT_radialPolynomialCoeffsDr _ _ _ _
  · exact KeepsT.pure _
  · exact KeepT.any _

end

theorem keepT_evalNum (f : (α : Type) → [CommRing α] → [Algebra ℚ α] → α → Prog α) (hf : ∀ (α : Type) [CommRing α] [Algebra ℚ α] (r : α), KeepsT (f α r)) (x : Num) :
    KeepsT (evalNumT f x) := by
  cases x with
  | scalar x => exact KeepsT.bind (hf ℝ x) fun _ => KeepsT.pure _
  | array sh d => exact KeepsT.bind (hf _ _) fun _ => KeepsT.pure _

theorem keepT_call (fuel : Nat) (c : ThreadCall) : KeepsT (c.prog fuel) := by
  cases c with
  | radial m n r exact => exact KeepsT.bind (KeepT.any _) fun x => keepT_evalNum _ (fun α _ _ r => keepT_radialValue _ _ _ _ _) _
  | radialDr m n r exact => exact KeepsT.bind (KeepT.any _) fun x => keepT_evalNum _ (fun α _ _ r => keepT_radialDrValue _ _ _ _ _) _
  | value m n r theta exact =>
    refine KeepsT.bind (KeepT.any _) fun x => KeepsT.bind (KeepT.any _) fun t => ?_
    obtain ⟨t, w⟩ := t
    dsimp only
    split_ifs
    · exact KeepT.any _
    · exact KeepsT.pure _
    · exact KeepsT.bind (keepT_evalNum _ (fun α _ _ r => keepT_radialValue _ _ _ _ _) _) fun _ => KeepsT.pure _

theorem keepT_thread (fuel : Nat) (cs : List ThreadCall) : KeepsT (threadProg fuel cs) := by
  induction cs with
  | nil => exact KeepsT.pure _
  | cons c cs ih => exact KeepsT.bind (keepT_call fuel c).attempt fun _ => KeepsT.bind ih fun _ => KeepsT.pure _

/-- The state of a process keeps the bounds at every moment. -/
theorem run_bnd {β : Type} (schedule : List Nat) : ∀ (p : Process β), Bnd p.st → (∀ x ∈ p.threads, KeepsT x) → Bnd (p.run schedule).st := by
  induction schedule with
  | nil => intro p h _; exact h
  | cons i l ih =>
    intro p h ht
    refine ih (p.step i) ?_ ?_
    · unfold Process.step
      split
      · rename_i u k hk
        exact (ht _ (List.mem_of_getElem? hk) p.st h).1
      · exact h
    · unfold Process.step
      split
      · rename_i u k hk
        intro x hx
        rcases List.mem_or_eq_of_mem_set hx with hx | rfl
        · exact ht x hx
        · exact (ht _ (List.mem_of_getElem? hk) p.st h).2
      · exact ht

/-! ### The tables stay correct, also with calls that raise -/

/-- Every action keeps the tables correct, whether the program returns or raises. -/
abbrev SafeT {β : Type} (x : Prog β) : Prop := TrT False x fun _ => True

theorem TrT.safe {β : Type} {c : Prop} {x : Prog β} {Q : β → Prop} (h : TrT c x Q) : SafeT x := h.mono (fun h => h.elim) fun _ _ => trivial

theorem SafeT.bind {β γ : Type} {x : Prog β} {f : β → Prog γ} (h1 : SafeT x) (h2 : ∀ v, SafeT (f v)) : SafeT (x >>= f) := TrT.bind h1 fun v _ => h2 v

theorem SafeT.pure {β : Type} (v : β) : SafeT (Pure.pure v : Prog β) := fun _ => trivial

theorem SafeT.attempt {β : Type} {x : Prog β} (h : SafeT x) : SafeT x.attempt := by
  have key : ∀ (y : Prog β) (s : CoefState), TrAt False (fun _ => True) y s → TrAt False (fun _ => True) y.attempt s := by
    intro y
    induction y with
    | done r => exact fun _ _ => trivial
    | step u k ih => exact fun s h t ht hl => ⟨(h t ht hl).1, (h t ht hl).2.1, ih t _ (h t ht hl).2.2⟩
  exact fun s => key x s (h s)

theorem safeT_radialValue {α : Type} [CommRing α] [Algebra ℚ α] (fuel : Nat) (exact : Bool) (m n : Int) (r : α) : SafeT (radialValueT fuel exact m n r) := by
  unfold radialValueT
  split_ifs
  · exact TrT.any
  · exact (radialPolynomialCoeffsT_tr _ _ _ _).safe
  · exact SafeT.pure _
  · exact TrT.any

theorem safeT_radialDrValue {α : Type} [CommRing α] [Algebra ℚ α] (fuel : Nat) (exact : Bool) (m n : Int) (r : α) : SafeT (radialDrValueT fuel exact m n r) := by
  unfold radialDrValueT
  split_ifs
  · exact TrT.any
  · exact (radialPolynomialCoeffsDrT_tr _ _ _ _).safe
  · exact SafeT.pure _
  · exact TrT.any

theorem safeT_evalNum (f : (α : Type) → [CommRing α] → [Algebra ℚ α] → α → Prog α) (hf : ∀ (α : Type) [CommRing α] [Algebra ℚ α] (r : α), SafeT (f α r)) (x : Num) :
    SafeT (evalNumT f x) := by
  cases x with
  | scalar x => exact SafeT.bind (hf ℝ x) fun _ => SafeT.pure _
  | array sh d => exact SafeT.bind (hf _ _) fun _ => SafeT.pure _

theorem safeT_call (fuel : Nat) (c : ThreadCall) : SafeT (c.prog fuel) := by
  cases c with
  | radial m n r exact => exact SafeT.bind TrT.any fun x => safeT_evalNum _ (fun α _ _ r => safeT_radialValue _ _ _ _ _) _
  | radialDr m n r exact => exact SafeT.bind TrT.any fun x => safeT_evalNum _ (fun α _ _ r => safeT_radialDrValue _ _ _ _ _) _
  | value m n r theta exact =>
    refine SafeT.bind TrT.any fun x => SafeT.bind TrT.any fun t => ?_
    obtain ⟨t, w⟩ := t
    dsimp only
    split_ifs
    · exact TrT.any
    · exact SafeT.pure _
    · exact SafeT.bind (safeT_evalNum _ (fun α _ _ r => safeT_radialValue _ _ _ _ _) _) fun _ => SafeT.pure _

theorem safeT_thread (fuel : Nat) (cs : List ThreadCall) : SafeT (threadProg fuel cs) := by
  induction cs with
  | nil => exact SafeT.pure _
  | cons c cs ih => exact SafeT.bind (safeT_call fuel c).attempt fun _ => SafeT.bind ih fun _ => SafeT.pure _

/-- The tables of a process stay correct at every moment, whatever its threads call. -/
theorem run_safe {β : Type} (schedule : List Nat) : ∀ (p : Process β), Good p.st → (∀ x ∈ p.threads, TrAt False (fun _ => True) x p.st) → Good (p.run schedule).st := by
  induction schedule with
  | nil => intro p h _; exact h
  | cons i l ih =>
    intro p h ht
    refine ih (p.step i) ?_ ?_
    · unfold Process.step
      split
      · rename_i u k hk
        exact (ht _ (List.mem_of_getElem? hk) p.st h (KeysLe.refl _)).1
      · exact h
    · unfold Process.step
      split
      · rename_i u k hk
        obtain ⟨-, kl, t⟩ := ht _ (List.mem_of_getElem? hk) p.st h (KeysLe.refl _)
        intro x hx
        rcases List.mem_or_eq_of_mem_set hx with hx | rfl
        · exact (ht x hx).later kl
        · exact t
      · exact ht

/-- A thread gets its own result, whatever the other threads call. -/
theorem run_one {β : Type} {Q : β → Prop} (i : Nat) (schedule : List Nat) : ∀ (p : Process β), Good p.st → (∀ x ∈ p.threads, TrAt False (fun _ => True) x p.st) →
    ∀ x, p.threads[i]? = some x → TrAt True Q x p.st → ∃ y, (p.run schedule).threads[i]? = some y ∧ TrAt True Q y (p.run schedule).st := by
  induction schedule with
  | nil => intro p _ _ x hi h; exact ⟨x, hi, h⟩
  | cons j l ih =>
    intro p hg ht x hi h
    have hst : p.run (j :: l) = (p.step j).run l := rfl
    rw [hst]
    have hsafe := run_safe [j] p hg ht
    have hs' : p.run [j] = p.step j := rfl
    rw [hs'] at hsafe
    have hall : ∀ x ∈ (p.step j).threads, TrAt False (fun _ => True) x (p.step j).st := by
      unfold Process.step
      split
      · rename_i u k hk
        obtain ⟨-, kl, t⟩ := ht _ (List.mem_of_getElem? hk) p.st hg (KeysLe.refl _)
        intro x hx
        rcases List.mem_or_eq_of_mem_set hx with hx | rfl
        · exact (ht x hx).later kl
        · exact t
      · exact ht
    have hx : ∃ y, (p.step j).threads[i]? = some y ∧ TrAt True Q y (p.step j).st := by
      unfold Process.step
      split
      · rename_i u k hk
        obtain ⟨-, kl, -⟩ := ht _ (List.mem_of_getElem? hk) p.st hg (KeysLe.refl _)
        by_cases e : j = i
        · subst e
          rw [hi] at hk; cases hk
          obtain ⟨-, -, t⟩ := h p.st hg (KeysLe.refl _)
          refine ⟨k p.st, ?_, t⟩
          have hlt : j < p.threads.length := by
            by_contra hc
            rw [List.getElem?_eq_none (by omega)] at hi
            cases hi
          simp [hlt]
        · exact ⟨x, by rw [List.getElem?_set_ne e]; exact hi, h.later kl⟩
      · exact ⟨x, hi, h⟩
    obtain ⟨y, hy, hq⟩ := hx
    exact ih _ hsafe hall y hy hq

theorem threads_good_bnd (fuel : Nat) (calls : List (List ThreadCall)) (schedule : List Nat) (s : CoefState) (hg : Good s) (hb : Bnd s) :
    Good ((Process.mk (calls.map (threadProg fuel)) s).run schedule).st ∧ Bnd ((Process.mk (calls.map (threadProg fuel)) s).run schedule).st := by
  refine ⟨run_safe schedule _ hg fun x hx => ?_, run_bnd schedule _ hb fun x hx => ?_⟩
  · obtain ⟨cs, -, rfl⟩ := List.mem_map.1 hx
    exact safeT_thread fuel cs _
  · obtain ⟨cs, -, rfl⟩ := List.mem_map.1 hx
    exact keepT_thread fuel cs

end Verif.Proofs
