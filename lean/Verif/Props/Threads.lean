import Verif.Proofs.Threads3
import Verif.Proofs.ThreadsBound
import Verif.Proofs.Methods

/-!
# C76: threads that evaluate polynomials in one process do not disturb each other
-/

namespace Verif.Props
open Verif.Model Verif.Spec Verif.Proofs

/-- The polynomial of the call exists, and the recursion limit of the interpreter allows its order. -/
def _root_.Verif.Model.ThreadCall.Valid (fuel : Nat) : ThreadCall → Prop
  | .radial m n _ _ => ValidOrders m n ∧ n.toNat + 1 < fuel
  | .radialDr m n _ _ => ValidOrders m n ∧ n.toNat + 1 < fuel
  | .value m n _ _ _ => ValidOrders m n ∧ n.toNat + 1 < fuel

/-- What the call returns or raises in a process with one thread, in the state `s` of the tables: the sequential model of the methods. -/
noncomputable def _root_.Verif.Model.ThreadCall.single (fuel : Nat) (s : CoefState) : ThreadCall → Res Num
  | .radial m n r exact => (Model.radial fuel ⟨m, n, false⟩ r exact s).res
  | .radialDr m n r exact => (Model.radialDr fuel ⟨m, n, false⟩ r exact s).res
  | .value m n r theta exact => (Model.polynomialValue fuel ⟨m, n, false⟩ r theta exact s).res

/-- A process that has made the calls `h` before, and starts one thread for every element of `calls`. -/
noncomputable def startThreads (fuel : Nat) (h : List Call) (calls : List (List ThreadCall)) : Process (List (Res Num)) := ⟨calls.map (threadProg fuel), afterCalls h⟩

theorem gives_single (fuel : Nat) (c : ThreadCall) (hv : c.Valid fuel) (s : CoefState) (hs : Good s) : Gives (c.prog fuel) (c.single fuel s) := by
  cases c with
  | radial m n r exact => exact radialT_gives fuel m n r exact hv.1 hv.2 s hs
  | radialDr m n r exact => exact radialDrT_gives fuel m n r exact hv.1 hv.2 s hs
  | value m n r theta exact => exact polynomialValueT_gives fuel m n r theta exact hv.1 hv.2 s hs

theorem start_safe (fuel : Nat) (h : List Call) (calls : List (List ThreadCall)) :
    ∀ x ∈ (startThreads fuel h calls).threads, TrAt False (fun _ => True) x (startThreads fuel h calls).st := by
  intro x hx
  obtain ⟨cs, -, rfl⟩ := List.mem_map.1 hx
  exact safeT_thread fuel cs _

/-- **C76.** Whatever was called before, whatever the other threads call (also calls that raise, for example because they exceed the recursion limit between two
accesses to the tables), and however the interpreter switches between them: a thread that has called polynomials that exist and has finished has got, from each of
its calls, exactly what the call returns (or raises) in a fresh process with one thread; in particular none of the accesses to the shared tables fails. -/
theorem threads_results (fuel : Nat) (h : List Call) (calls : List (List ThreadCall)) (schedule : List Nat)
    (i : Nat) (cs : List ThreadCall) (hi : calls[i]? = some cs) (hv : ∀ c ∈ cs, c.Valid fuel) (out : Res (List (Res Num)))
    (hdone : ((startThreads fuel h calls).run schedule).threads[i]? = some (.done out)) :
    out = .ok (cs.map fun c => c.single fuel initState) := by
  obtain ⟨y, hy, ht⟩ := run_one i schedule (startThreads fuel h calls) (afterCalls_good h) (start_safe fuel h calls) (threadProg fuel cs) (by simp [startThreads, hi])
    (threadProg_tr fuel cs (fun c => c.single fuel initState) (fun c hc => gives_single fuel c (hv c hc) _ good_init) _)
  rw [hdone] at hy
  cases hy
  cases out with
  | ok v => exact congrArg _ ht
  | error e => exact (ht trivial).elim

/-- **C76.** A thread that is switched to again and again finishes after finitely many actions (there are no locks to wait for), with these results. -/
theorem threads_finish (fuel : Nat) (h : List Call) (calls : List (List ThreadCall)) (schedule : Nat → Nat)
    (i : Nat) (cs : List ThreadCall) (hi : calls[i]? = some cs) (hv : ∀ c ∈ cs, c.Valid fuel) (hfair : ∀ N, ∃ k, N ≤ k ∧ schedule k = i) :
    ∃ K, ((startThreads fuel h calls).run ((List.range K).map schedule)).threads[i]? = some (.done (.ok (cs.map fun c => c.single fuel initState))) := by
  obtain ⟨K, r, hK⟩ := fair_finishes (threadProg fuel cs) (startThreads fuel h calls) schedule i (by simp [startThreads, hi]) hfair
  exact ⟨K, by rw [hK, threads_results fuel h calls _ i cs hi hv r hK]⟩

theorem single_good (fuel : Nat) (c : ThreadCall) (hc : c.Valid fuel) (s' : CoefState) (g' : Good s') : c.single fuel s' = c.single fuel initState := by
  have key : ∀ {β : Type} (p : Prog β) (x y : Res β), Gives p x → Gives p y → x = y := by
    intro β p x y hx hy
    have : ∀ (q : Prog β) (s : CoefState), Good s → TrAt True (fun z => z = x) q.attempt s → TrAt True (fun z => z = y) q.attempt s → x = y := by
      intro q
      induction q with
      | done r => intro s _ h1 h2; exact (show r = x from h1).symm.trans h2
      | step u k ih =>
        intro s hs h1 h2
        obtain ⟨a, _, b⟩ := h1 s hs (KeysLe.refl _)
        exact ih s _ a b (h2 s hs (KeysLe.refl _)).2.2
    exact this p _ good_init (hx _) (hy _)
  exact key _ _ _ (gives_single fuel c hc s' g') (gives_single fuel c hc _ good_init)

/-- **C76.** After threads with any calls have run for any time (finished or not), any further calls in the process get what they get in a fresh process. -/
theorem after_threads (fuel : Nat) (h : List Call) (calls : List (List ThreadCall)) (schedule : List Nat)
    (h' : List Call) (c : ThreadCall) (hc : c.Valid fuel) :
    c.single fuel (h'.foldl Call.run ((startThreads fuel h calls).run schedule).st) = c.single fuel initState := by
  have g := run_safe schedule (startThreads fuel h calls) (afterCalls_good h) (start_safe fuel h calls)
  generalize ((startThreads fuel h calls).run schedule).st = s at g
  have g' : Good (h'.foldl Call.run s) := by
    induction h' generalizing s with
    | nil => exact g
    | cons a t ih => exact ih _ (run_good s g a)
  generalize h'.foldl Call.run s = s' at g'
  exact single_good fuel c hc s' g'

/-- **C76.** The programs of atomic actions are the sequential model of the methods: run without other threads, they give the same result and leave the same
tables and caches. -/
theorem threads_refine (fuel : Nat) (m n : Int) (r theta : Arg) (exact b : Bool) (s : CoefState) :
    (radialT fuel m n r exact).alone s = ((Model.radial fuel ⟨m, n, b⟩ r exact s).res, (Model.radial fuel ⟨m, n, b⟩ r exact s).st) ∧
    (radialDrT fuel m n r exact).alone s = ((Model.radialDr fuel ⟨m, n, b⟩ r exact s).res, (Model.radialDr fuel ⟨m, n, b⟩ r exact s).st) ∧
    (polynomialValueT fuel m n r theta exact).alone s =
      ((Model.polynomialValue fuel ⟨m, n, b⟩ r theta exact s).res, (Model.polynomialValue fuel ⟨m, n, b⟩ r theta exact s).st) :=
  ⟨radialT_alone fuel m n r exact b s, radialDrT_alone fuel m n r exact b s, polynomialValueT_alone fuel m n r theta exact b s⟩

/-- Two threads that evaluate orders missing in the tables, and one with a wrong argument, meet the hypotheses. -/
example : ∀ cs ∈ [[ThreadCall.value 2 14 (.num 0.5) (.num 1) false, .radialDr 1 45 (.num 2) false], [.radial 0 60 (.num 0.5) false]],
    ∀ c ∈ cs, c.Valid 1000 := by
  simp only [List.mem_cons, List.not_mem_nil, or_false]
  rintro cs (rfl | rfl) c hc <;> simp only [List.mem_cons, List.not_mem_nil, or_false] at hc
  · rcases hc with rfl | rfl <;> exact ⟨by unfold ValidOrders; decide, by decide⟩
  · subst hc; exact ⟨by unfold ValidOrders; decide, by decide⟩

/-- With the recursion limit 20 the first of these threads exceeds it, and the second meets the hypotheses. -/
example : ∃ cs, [[ThreadCall.radial 0 60 (.num 0.5) false], [.value 2 14 (.num 0.5) (.num 1) false]][1]? = some cs ∧ (∀ c ∈ cs, c.Valid 20) ∧
    ¬ (ThreadCall.radial 0 60 (.num 0.5) false).Valid 20 := by
  refine ⟨_, rfl, fun c hc => ?_, fun h => absurd h.2 (by decide)⟩
  rw [List.mem_singleton.1 hc]
  exact ⟨by unfold ValidOrders; decide, by decide⟩

/-- A fair schedule of two threads. -/
example : ∀ N, ∃ k, N ≤ k ∧ k % 2 = 1 := fun N => ⟨2 * N + 1, by omega, by omega⟩

end Verif.Props
