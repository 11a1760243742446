import Verif.Proofs.Threads2

/-!
# Threads: a thread that runs alone does what the sequential model says
-/

namespace Verif.Proofs
open Verif.Model Verif.Spec Polynomial

theorem alone_bind {β γ : Type} (p : Prog β) (f : β → Prog γ) : (p >>= f).alone = (p.alone >>= fun v => (f v).alone : CM γ) := by
  show (p.andThen f).alone = _
  induction p with
  | done r =>
    cases r with
    | ok v => rfl
    | error e => rfl
  | step u k ih =>
    funext s
    show ((k s).andThen f).alone (u s) = _
    rw [ih]; rfl

theorem bind_of_ok {β γ : Type} {x : CM β} {f : β → CM γ} {s s' : CoefState} {v : β} (h : x s = (.ok v, s')) : (x >>= f) s = f v s' := by
  show (match x s with | (.ok v, s') => f v s' | (.error e, s') => (.error e, s')) = _
  rw [h]

theorem bind_of_error {β γ : Type} {x : CM β} {f : β → CM γ} {s s' : CoefState} {e : PyErr} (h : x s = (.error e, s')) : (x >>= f) s = (.error e, s') := by
  show (match x s with | (.ok v, s') => f v s' | (.error e, s') => (.error e, s')) = _
  rw [h]

theorem alone_pure {β : Type} (v : β) : (pure v : Prog β).alone = (pure v : CM β) := rfl

theorem alone_lift {β : Type} (x : Res β) : (Prog.lift x).alone = CM.lift x := rfl

theorem alone_storeVal (k : Int × Int) (d : Coeffs) : (storeVal k d).alone = putVal k d := by
  funext s
  show (if (s.vals.lookup k).isSome then (pure () : Prog Unit) else setVal k d).alone s = _
  cases h : s.vals.lookup k with
  | none =>
    show (Except.ok (), { s with vals := tableSet k d s.vals }) = (Except.ok (), { s with vals := putNew k d s.vals })
    unfold tableSet putNew; rw [h]
  | some x =>
    show (Except.ok (), s) = (Except.ok (), { s with vals := putNew k d s.vals })
    unfold putNew; rw [h]

theorem alone_storeDr (k : Int × Int) (d : Coeffs) : (storeDr k d).alone = putDr k d := by
  funext s
  show (if (s.drs.lookup k).isSome then (pure () : Prog Unit) else setDr k d).alone s = _
  cases h : s.drs.lookup k with
  | none =>
    show (Except.ok (), { s with drs := tableSet k d s.drs }) = (Except.ok (), { s with drs := putNew k d s.drs })
    unfold tableSet putNew; rw [h]
  | some x =>
    show (Except.ok (), s) = (Except.ok (), { s with drs := putNew k d s.drs })
    unfold putNew; rw [h]

/-- The caches get only keys with a radial order less than `N`. -/
def LruLe {β : Type} (N : Int) (x : CM β) : Prop := ∀ s,
  (∀ k ∈ (x s).2.lru.map Prod.fst, k ∈ s.lru.map Prod.fst ∨ k.1.2 < N) ∧ ∀ k ∈ (x s).2.lruDr.map Prod.fst, k ∈ s.lruDr.map Prod.fst ∨ k.1.2 < N

theorem LruLe.bind {β γ : Type} {N : Int} {x : CM β} {f : β → CM γ} (h : LruLe N x) (hf : ∀ v, LruLe N (f v)) : LruLe N (x >>= f) := by
  intro s
  have e : (x >>= f) s = match x s with | (.ok v, s') => f v s' | (.error e, s') => (.error e, s') := rfl
  rw [e]
  have h1 := h s
  rcases hx : x s with ⟨r, s'⟩
  rw [hx] at h1
  cases r with
  | error e => exact h1
  | ok v =>
    refine ⟨fun k hk => ?_, fun k hk => ?_⟩
    · rcases (hf v s').1 k hk with h' | h'
      · exact h1.1 k h'
      · exact .inr h'
    · rcases (hf v s').2 k hk with h' | h'
      · exact h1.2 k h'
      · exact .inr h'

theorem LruLe.same {β : Type} {N : Int} {x : CM β} (h : ∀ s, (x s).2.lru = s.lru ∧ (x s).2.lruDr = s.lruDr) : LruLe N x :=
  fun s => ⟨fun k hk => .inl (by rw [(h s).1] at hk; exact hk), fun k hk => .inl (by rw [(h s).2] at hk; exact hk)⟩

theorem LruLe.mono {β : Type} {N M : Int} {x : CM β} (h : LruLe N x) (hl : N ≤ M) : LruLe M x :=
  fun s => ⟨fun k hk => ((h s).1 k hk).imp id fun a => by omega, fun k hk => ((h s).2 k hk).imp id fun a => by omega⟩

theorem keys_lruTouch {k k' : LruKey} {d : Coeffs} {c : Lru} (hk : k ∈ c.map Prod.fst) (h : k' ∈ (lruTouch k d c).map Prod.fst) : k' ∈ c.map Prod.fst := by
  unfold lruTouch at h
  rw [List.map_cons, List.mem_cons] at h
  rcases h with rfl | h
  · exact hk
  · obtain ⟨x, hx, rfl⟩ := List.mem_map.1 h
    exact List.mem_map.2 ⟨x, (List.mem_filter.1 hx).1, rfl⟩

theorem keys_lruInsert {k k' : LruKey} {d : Coeffs} {c : Lru} (h : k' ∈ (lruInsert k d c).map Prod.fst) : k' = k ∨ k' ∈ c.map Prod.fst := by
  unfold lruInsert at h
  obtain ⟨x, hx, rfl⟩ := List.mem_map.1 h
  rcases List.mem_cons.1 (List.mem_of_mem_take hx) with rfl | hx
  · exact .inl rfl
  · exact .inr (List.mem_map.2 ⟨x, hx, rfl⟩)

theorem LruLe.cachedVal {N : Int} {k : LruKey} {body : CM Coeffs} (hk : k.1.2 < N) (h : LruLe N body) : LruLe N (cachedVal k body) := by
  intro s
  unfold Model.cachedVal
  cases hd : s.lru.lookup k with
  | some d =>
    exact ⟨fun k' hk' => .inl (keys_lruTouch (List.mem_map.2 ⟨_, lookup_mem _ _ _ hd, rfl⟩) hk'), fun k' hk' => .inl hk'⟩
  | none =>
    have h1 := h s
    dsimp only
    rcases hx : body s with ⟨r, s'⟩
    rw [hx] at h1
    cases r with
    | error e => exact h1
    | ok d =>
      refine ⟨fun k' hk' => ?_, h1.2⟩
      rcases keys_lruInsert hk' with rfl | h'
      · exact .inr hk
      · exact h1.1 k' h'

theorem LruLe.cachedDr {N : Int} {k : LruKey} {body : CM Coeffs} (hk : k.1.2 < N) (h : LruLe N body) : LruLe N (cachedDr k body) := by
  intro s
  unfold Model.cachedDr
  cases hd : s.lruDr.lookup k with
  | some d =>
    exact ⟨fun k' hk' => .inl hk', fun k' hk' => .inl (keys_lruTouch (List.mem_map.2 ⟨_, lookup_mem _ _ _ hd, rfl⟩) hk')⟩
  | none =>
    have h1 := h s
    dsimp only
    rcases hx : body s with ⟨r, s'⟩
    rw [hx] at h1
    cases r with
    | error e => exact h1
    | ok d =>
      refine ⟨h1.1, fun k' hk' => ?_⟩
      rcases keys_lruInsert hk' with rfl | h'
      · exact .inr hk
      · exact h1.2 k' h'

theorem LruLe.lift {β : Type} {N : Int} (x : Res β) : LruLe N (CM.lift x) := LruLe.same fun _ => ⟨rfl, rfl⟩
theorem LruLe.pure {β : Type} {N : Int} (v : β) : LruLe N (Pure.pure v : CM β) := LruLe.same fun _ => ⟨rfl, rfl⟩
theorem LruLe.putVal {N : Int} (k : Int × Int) (d : Coeffs) : LruLe N (putVal k d) := LruLe.same fun _ => ⟨rfl, rfl⟩
theorem LruLe.putDr {N : Int} (k : Int × Int) (d : Coeffs) : LruLe N (putDr k d) := LruLe.same fun _ => ⟨rfl, rfl⟩

/-- The body of `find_coeffs_orders` as one sequential program, with the test of the table first. -/
theorem LruLe.table {N : Int} {x : CM Coeffs} (t : CoefState → Table) (k : Int × Int) (h : LruLe N x) :
    LruLe N (fun s => match (t s).lookup k with | some d => (.ok d, s) | none => x s) := by
  intro s
  cases hd : (t s).lookup k with
  | some d => exact ⟨fun k' hk' => .inl (by simpa [hd] using hk'), fun k' hk' => .inl (by simpa [hd] using hk')⟩
  | none => simp only [hd]; exact h s

/-- A sequential cached computation is the threaded one run alone, if the body does not insert its own key. -/
theorem alone_cachedVal (k : LruKey) (body : Prog Coeffs) (x : CM Coeffs) (e : body.alone = x) (h : LruLe k.1.2 x) :
    (cachedValT k body).alone = cachedVal k x := by
  funext s
  unfold cachedValT cachedVal
  show (match s.lru.lookup k with | some d => Prog.done (.ok d) | none => _ : Prog Coeffs).alone _ = _
  cases hd : s.lru.lookup k with
  | some d => simp only [hd]; rfl
  | none =>
    simp only [hd]
    have := congrFun (alone_bind body fun d =>
      Prog.step (fun s => match s.lru.lookup k with | some _ => s | none => { s with lru := lruInsert k d s.lru }) fun _ => .done (.ok d)) s
    refine this.trans ?_
    rw [e]
    have h1 := (h s).1
    rcases hx : x s with ⟨r, s'⟩
    rw [hx] at h1
    cases r with
    | error e => rw [bind_of_error hx]
    | ok d =>
      rw [bind_of_ok hx]
      have hn : s'.lru.lookup k = none := by
        cases hl : s'.lru.lookup k with
        | none => rfl
        | some d' =>
          rcases h1 k (List.mem_map.2 ⟨_, lookup_mem _ _ _ hl, rfl⟩) with h' | h'
          · exact absurd h' (lookup_none _ _ hd)
          · omega
      show (Except.ok d, match s'.lru.lookup k with | some _ => s' | none => { s' with lru := lruInsert k d s'.lru }) = _
      rw [hn]

theorem alone_cachedDr (k : LruKey) (body : Prog Coeffs) (x : CM Coeffs) (e : body.alone = x) (h : LruLe k.1.2 x) :
    (cachedDrT k body).alone = cachedDr k x := by
  funext s
  unfold cachedDrT cachedDr
  show (match s.lruDr.lookup k with | some d => Prog.done (.ok d) | none => _ : Prog Coeffs).alone _ = _
  cases hd : s.lruDr.lookup k with
  | some d => simp only [hd]; rfl
  | none =>
    simp only [hd]
    have := congrFun (alone_bind body fun d =>
      Prog.step (fun s => match s.lruDr.lookup k with | some _ => s | none => { s with lruDr := lruInsert k d s.lruDr }) fun _ => .done (.ok d)) s
    refine this.trans ?_
    rw [e]
    have h1 := (h s).2
    rcases hx : x s with ⟨r, s'⟩
    rw [hx] at h1
    cases r with
    | error e => rw [bind_of_error hx]
    | ok d =>
      rw [bind_of_ok hx]
      have hn : s'.lruDr.lookup k = none := by
        cases hl : s'.lruDr.lookup k with
        | none => rfl
        | some d' =>
          rcases h1 k (List.mem_map.2 ⟨_, lookup_mem _ _ _ hl, rfl⟩) with h' | h'
          · exact absurd h' (lookup_none _ _ hd)
          · omega
      show (Except.ok d, match s'.lruDr.lookup k with | some _ => s' | none => { s' with lruDr := lruInsert k d s'.lruDr }) = _
      rw [hn]

theorem alone_valFound (k : Int × Int) (rest : Prog Coeffs) :
    (hasVal k >>= fun b => if b then getVal k else rest).alone = fun s => match s.vals.lookup k with | some d => (.ok d, s) | none => rest.alone s := by
  funext s
  show (if (s.vals.lookup k).isSome then getVal k else rest).alone s = _
  cases hd : s.vals.lookup k with
  | none => rfl
  | some d =>
    show ((match s.vals.lookup k with | some d => .ok d | none => .error .keyError : Res Coeffs), s) = _
    rw [hd]

theorem alone_drFound (k : Int × Int) (rest : Prog Coeffs) :
    (hasDr k >>= fun b => if b then getDr k else rest).alone = fun s => match s.drs.lookup k with | some d => (.ok d, s) | none => rest.alone s := by
  funext s
  show (if (s.drs.lookup k).isSome then getDr k else rest).alone s = _
  cases hd : s.drs.lookup k with
  | none => rfl
  | some d =>
    show ((match s.drs.lookup k with | some d => .ok d | none => .error .keyError : Res Coeffs), s) = _
    rw [hd]

theorem findCoeffs_lru (fuel : Nat) (b : Bool) (m n : Int) : LruLe (n + 1) (findCoeffs fuel b m n) := by
  induction fuel generalizing b m n with
  | zero => exact LruLe.same fun _ => ⟨rfl, rfl⟩
  | succ fuel ih =>
    unfold findCoeffs
    refine LruLe.cachedVal (by simp only; omega) (LruLe.table (fun s => s.vals) (m, n) (LruLe.bind (LruLe.lift _) fun o => ?_))
    cases o with
    | some d => exact LruLe.bind (LruLe.putVal _ _) fun _ => LruLe.pure _
    | none =>
      exact LruLe.bind ((ih _ _ _).mono (by omega)) fun p1 => LruLe.bind ((ih _ _ _).mono (by omega)) fun p2 => LruLe.bind (LruLe.lift _) fun i1 =>
        LruLe.bind (LruLe.lift _) fun i2 => LruLe.bind ((ih _ _ _).mono (by omega)) fun p3 => LruLe.bind (LruLe.lift _) fun m3 =>
        LruLe.bind (LruLe.lift _) fun d => LruLe.bind (LruLe.putVal _ _) fun _ => LruLe.bind (LruLe.putVal _ _) fun _ => LruLe.pure _

theorem findCoeffsDr_lru (fuel : Nat) (b : Bool) (m n : Int) : LruLe (n + 1) (findCoeffsDr fuel b m n) := by
  induction fuel generalizing b m n with
  | zero => exact LruLe.same fun _ => ⟨rfl, rfl⟩
  | succ fuel ih =>
    unfold findCoeffsDr
    refine LruLe.cachedDr (by simp only; omega) (LruLe.table (fun s => s.drs) (m, n) (LruLe.bind (LruLe.lift _) fun o => ?_))
    cases o with
    | some d => exact LruLe.bind (LruLe.putDr _ _) fun _ => LruLe.pure _
    | none =>
      exact LruLe.bind ((findCoeffs_lru _ _ _ _).mono (by omega)) fun p1 => LruLe.bind ((findCoeffs_lru _ _ _ _).mono (by omega)) fun p2 =>
        LruLe.bind ((ih _ _ _).mono (by omega)) fun d1 => LruLe.bind ((ih _ _ _).mono (by omega)) fun d2 => LruLe.bind (LruLe.lift _) fun i1 =>
        LruLe.bind (LruLe.lift _) fun i2 => LruLe.bind ((ih _ _ _).mono (by omega)) fun p3 => LruLe.bind (LruLe.lift _) fun m3 =>
        LruLe.bind (LruLe.lift _) fun d => LruLe.bind (LruLe.putVal _ _) fun _ => LruLe.bind (LruLe.putVal _ _) fun _ =>
        LruLe.bind (LruLe.putDr _ _) fun _ => LruLe.bind (LruLe.putDr _ _) fun _ => LruLe.pure _

theorem findCoeffsT_alone (fuel : Nat) (b : Bool) (m n : Int) : (findCoeffsT fuel b m n).alone = findCoeffs fuel b m n := by
  induction fuel generalizing b m n with
  | zero => rfl
  | succ fuel ih =>
    unfold findCoeffsT findCoeffs
    refine alone_cachedVal ((m, n), b) _ _ ?_ (LruLe.table (fun s => s.vals) (m, n) (LruLe.bind (LruLe.lift _) fun o => ?_))
    · rw [alone_valFound]
      funext s
      cases hd : s.vals.lookup (m, n) with
      | some d => rfl
      | none =>
      simp only []
      rw [alone_bind, alone_lift]
      refine congrFun (congrArg (fun f => (CM.lift _ >>= f : CM Coeffs)) (funext fun o => ?_)) s
      cases o with
      | some d => simp only [alone_bind, alone_storeVal, alone_pure]
      | none => simp only [alone_bind, alone_storeVal, alone_pure, alone_lift, ih]
    · cases o with
      | some d => exact LruLe.bind (LruLe.putVal _ _) fun _ => LruLe.pure _
      | none =>
        exact LruLe.bind ((findCoeffs_lru _ _ _ _).mono (by simp only; omega)) fun p1 => LruLe.bind ((findCoeffs_lru _ _ _ _).mono (by simp only; omega)) fun p2 =>
          LruLe.bind (LruLe.lift _) fun i1 => LruLe.bind (LruLe.lift _) fun i2 => LruLe.bind ((findCoeffs_lru _ _ _ _).mono (by simp only; omega)) fun p3 =>
          LruLe.bind (LruLe.lift _) fun m3 => LruLe.bind (LruLe.lift _) fun d => LruLe.bind (LruLe.putVal _ _) fun _ =>
          LruLe.bind (LruLe.putVal _ _) fun _ => LruLe.pure _

theorem findCoeffsDrT_alone (fuel : Nat) (b : Bool) (m n : Int) : (findCoeffsDrT fuel b m n).alone = findCoeffsDr fuel b m n := by
  induction fuel generalizing b m n with
  | zero => rfl
  | succ fuel ih =>
    unfold findCoeffsDrT findCoeffsDr
    refine alone_cachedDr ((m, n), b) _ _ ?_ (LruLe.table (fun s => s.drs) (m, n) (LruLe.bind (LruLe.lift _) fun o => ?_))
    · rw [alone_drFound]
      funext s
      cases hd : s.drs.lookup (m, n) with
      | some d => rfl
      | none =>
      simp only []
      rw [alone_bind, alone_lift]
      refine congrFun (congrArg (fun f => (CM.lift _ >>= f : CM Coeffs)) (funext fun o => ?_)) s
      cases o with
      | some d => simp only [alone_bind, alone_storeDr, alone_pure]
      | none => simp only [alone_bind, alone_storeVal, alone_storeDr, alone_pure, alone_lift, ih, findCoeffsT_alone]
    · cases o with
      | some d => exact LruLe.bind (LruLe.putDr _ _) fun _ => LruLe.pure _
      | none =>
        exact LruLe.bind ((findCoeffs_lru _ _ _ _).mono (by simp only; omega)) fun p1 => LruLe.bind ((findCoeffs_lru _ _ _ _).mono (by simp only; omega)) fun p2 =>
          LruLe.bind ((findCoeffsDr_lru _ _ _ _).mono (by simp only; omega)) fun d1 => LruLe.bind ((findCoeffsDr_lru _ _ _ _).mono (by simp only; omega)) fun d2 =>
          LruLe.bind (LruLe.lift _) fun i1 => LruLe.bind (LruLe.lift _) fun i2 => LruLe.bind ((findCoeffsDr_lru _ _ _ _).mono (by simp only; omega)) fun p3 =>
          LruLe.bind (LruLe.lift _) fun m3 => LruLe.bind (LruLe.lift _) fun d => LruLe.bind (LruLe.putVal _ _) fun _ =>
          LruLe.bind (LruLe.putVal _ _) fun _ => LruLe.bind (LruLe.putDr _ _) fun _ => LruLe.bind (LruLe.putDr _ _) fun _ => LruLe.pure _

section
variable {α : Type} [Zero α] [One α] [Add α] [Sub α] [Mul α] [NatCast α] [IntCast α] [Pow α ℕ]

theorem radialPolynomialCoeffsT_alone (fuel : Nat) (m n : Int) (r : α) :
    (radialPolynomialCoeffsT fuel m n r).alone = radialPolynomialCoeffs fuel m n r := by
  induction fuel generalizing m n with
  | zero => rfl
  | succ fuel ih =>
    unfold radialPolynomialCoeffsT radialPolynomialCoeffs
    split_ifs
    · simp only [alone_bind, alone_pure, findCoeffsT_alone]
    · rfl
    · simp only [alone_bind, alone_pure, ih]
    · rfl
    · simp only [alone_bind, alone_pure, ih]

theorem radialPolynomialCoeffsDrT_alone (fuel : Nat) (m n : Int) (r : α) :
    (radialPolynomialCoeffsDrT fuel m n r).alone = radialPolynomialCoeffsDr fuel m n r := by
  induction fuel generalizing m n with
  | zero => rfl
  | succ fuel ih =>
    unfold radialPolynomialCoeffsDrT radialPolynomialCoeffsDr
    split_ifs
    · simp only [alone_bind, alone_pure, findCoeffsDrT_alone]
    · rfl
    · simp only [alone_bind, alone_pure, ih]
    · rfl
    · simp only [alone_bind, alone_pure, ih, radialPolynomialCoeffsT_alone]

variable [OfRat α]

theorem radialValueT_alone (fuel : Nat) (exact : Bool) (m n : Int) (r : α) : (radialValueT fuel exact m n r).alone = radialValue fuel exact m n r := by
  unfold radialValueT radialValue
  split_ifs
  · rfl
  · exact radialPolynomialCoeffsT_alone _ _ _ _
  · rfl
  · rfl

theorem radialDrValueT_alone (fuel : Nat) (exact : Bool) (m n : Int) (r : α) : (radialDrValueT fuel exact m n r).alone = radialDrValue fuel exact m n r := by
  unfold radialDrValueT radialDrValue
  split_ifs
  · rfl
  · exact radialPolynomialCoeffsDrT_alone _ _ _ _
  · rfl
  · rfl

end

theorem evalNumT_alone (f : (α : Type) → [CommRing α] → [Algebra ℚ α] → α → Prog α) (g : PolyFun)
    (h : ∀ (α : Type) [CommRing α] [Algebra ℚ α] (r : α), (f α r).alone = g α r) (x : Num) : (evalNumT f x).alone = evalNum g x := by
  cases x with
  | scalar x => simp only [evalNumT, evalNum, alone_bind, alone_pure, h]
  | array sh d => simp only [evalNumT, evalNum, alone_bind, alone_pure, h]

theorem radialT_alone (fuel : Nat) (m n : Int) (r : Arg) (exact b : Bool) (s : CoefState) :
    (radialT fuel m n r exact).alone s = ((Model.radial fuel ⟨m, n, b⟩ r exact s).res, (Model.radial fuel ⟨m, n, b⟩ r exact s).st) := by
  cases hx : checkRadii r with
  | error e => unfold radialT Model.radial; rw [hx]; rfl
  | ok x =>
    have e1 : radialT fuel m n r exact = evalNumT (fun α _ _ y => radialValueT (α := α) fuel exact m n y) x := by unfold radialT; rw [hx]; rfl
    unfold Model.radial
    rw [e1, hx, evalNumT_alone _ (fun α _ _ y => radialValue (α := α) fuel exact m n y) (fun α _ _ r => radialValueT_alone _ _ _ _ _)]

theorem radialDrT_alone (fuel : Nat) (m n : Int) (r : Arg) (exact b : Bool) (s : CoefState) :
    (radialDrT fuel m n r exact).alone s = ((Model.radialDr fuel ⟨m, n, b⟩ r exact s).res, (Model.radialDr fuel ⟨m, n, b⟩ r exact s).st) := by
  cases hx : checkRadii r with
  | error e => unfold radialDrT Model.radialDr; rw [hx]; rfl
  | ok x =>
    have e1 : radialDrT fuel m n r exact = evalNumT (fun α _ _ y => radialDrValueT (α := α) fuel exact m n y) x := by unfold radialDrT; rw [hx]; rfl
    unfold Model.radialDr
    rw [e1, hx, evalNumT_alone _ (fun α _ _ y => radialDrValue (α := α) fuel exact m n y) (fun α _ _ r => radialDrValueT_alone _ _ _ _ _)]

theorem polynomialValueT_alone (fuel : Nat) (m n : Int) (r theta : Arg) (exact b : Bool) (s : CoefState) :
    (polynomialValueT fuel m n r theta exact).alone s =
      ((Model.polynomialValue fuel ⟨m, n, b⟩ r theta exact s).res, (Model.polynomialValue fuel ⟨m, n, b⟩ r theta exact s).st) := by
  cases hx : checkRadii r with
  | error e => unfold polynomialValueT Model.polynomialValue; rw [hx]; rfl
  | ok x =>
    cases ht : checkAngles theta with
    | error e => unfold polynomialValueT Model.polynomialValue; rw [hx, ht]; rfl
    | ok tw =>
      obtain ⟨t, w⟩ := tw
      have e1 : polynomialValueT fuel m n r theta exact = (if shapesDiffer x t then Prog.lift (.error .valueError)
          else if exact ∧ n > maxRadialOrderCoeffs then pure x.zerosLike
          else do
            let v ← evalNumT (fun α _ _ y => radialValueT (α := α) fuel exact m n y) x
            pure ((t.map (fun a => normalizationFactor m n * triangularFunction m a)).mul v)) := by
        unfold polynomialValueT; rw [hx, ht]; rfl
      rw [e1]
      unfold Model.polynomialValue
      rw [hx, ht]
      dsimp only
      by_cases hsh : shapesDiffer x t = true
      · rw [if_pos hsh, if_pos hsh]; rfl
      · rw [if_neg hsh, if_neg hsh]
        by_cases hc : exact = true ∧ n > maxRadialOrderCoeffs
        · rw [if_pos hc, if_pos hc]; rfl
        · rw [if_neg hc, if_neg hc, alone_bind,
            evalNumT_alone _ (fun α _ _ y => radialValue (α := α) fuel exact m n y) (fun α _ _ r => radialValueT_alone _ _ _ _ _)]
          simp only [alone_pure]
          rw [Prod.ext_iff]
          exact ⟨(CM.bind_pure_fst _ _ s).1, (CM.bind_pure_fst _ _ s).2⟩

end Verif.Proofs
