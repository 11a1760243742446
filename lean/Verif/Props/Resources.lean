import Verif.Proofs.TableBoundPsf
import Verif.Proofs.ThreadsFloatHeld

/-!
# C73: the coefficient tables of the process stay bounded
-/

namespace Verif.Props
open Verif.Model Verif.Spec Verif.Proofs

/-- How the calls of the public interface change the process-wide tables: evaluations of any polynomial and calculations of kernels by any PSF object, with any
arguments and any recursion limit, whether they return or raise; and any number of threads that make such evaluations, sums and
kernels at the same time (in exact or in floating-point arithmetic), one thread for each element of `calls`, at any moment of any interleaving of their accesses to the tables. -/
inductive TableStep : CoefState → CoefState → Prop
  | radial (fuel : Nat) (o : PolObj) (r : Arg) (exact : Bool) (s : CoefState) : TableStep s (Model.radial fuel o r exact s).st
  | radialDr (fuel : Nat) (o : PolObj) (r : Arg) (exact : Bool) (s : CoefState) : TableStep s (Model.radialDr fuel o r exact s).st
  | value (fuel : Nat) (o : PolObj) (r theta : Arg) (exact : Bool) (s : CoefState) : TableStep s (polynomialValue fuel o r theta exact s).st
  | calculate (env : Env) (o : PsfObj) (suppress normalized : Bool) (accelerated : Option Bool) (s : CoefState) :
    TableStep s (o.calculate env suppress normalized accelerated s).2.2
  | threads (fuel : Nat) (calls : List (List ThreadCall)) (schedule : List Nat) (s : CoefState) :
    TableStep s ((Process.mk (calls.map (threadProg fuel)) s).run schedule).st
  | fltThreads (F : PsfArith) (fuel : Nat) (calls : List (List FltCall)) (schedule : List Nat) (s : CoefState) :
    TableStep s ((Process.mk (calls.map (fltThreadProg F fuel)) s).run schedule).st

theorem table_steps {s : CoefState} (h : Relation.ReflTransGen TableStep initState s) : Good s ∧ Bnd s := by
  induction h with
  | refl => exact ⟨good_init, bnd_init⟩
  | tail _ hs ih =>
    cases hs with
    | radial fuel o r exact => exact ⟨radial_st _ _ _ _ _ ih.1, keep_radial _ _ _ _ _ ih.2⟩
    | radialDr fuel o r exact => exact ⟨radialDr_st _ _ _ _ _ ih.1, keep_radialDr _ _ _ _ _ ih.2⟩
    | value fuel o r theta exact => exact ⟨polynomialValue_st _ _ _ _ _ _ ih.1, keep_value _ _ _ _ _ _ ih.2⟩
    | calculate env o sup nrm acc => exact ⟨calculate_good _ _ _ _ _ _ ih.1, calculate_bnd _ _ _ _ _ _ ih.2⟩
    | threads fuel calls schedule => exact threads_good_bnd _ _ _ _ ih.1 ih.2
    | fltThreads F fuel calls schedule => exact flt_threads_good_bnd _ _ _ _ _ ih.1 ih.2

/-- C73. After any history of calls, also of calls made by several threads at the same time, the tables hold at most 861 polynomials (the pairs of orders up to 40) and 780 derivatives (up to 38), each once, with at most 41 and 39
coefficients; the two caches hold at most 128 dictionaries each. -/
theorem tables_bounded (s : CoefState) (h : Relation.ReflTransGen TableStep initState s) :
    (s.vals.length ≤ 861 ∧ (s.vals.map Prod.fst).Nodup ∧ ∀ e ∈ s.vals, ValidOrders e.1.1 e.1.2 ∧ e.1.2 ≤ 40 ∧ e.2.length ≤ 41) ∧
    (s.drs.length ≤ 780 ∧ (s.drs.map Prod.fst).Nodup ∧ ∀ e ∈ s.drs, ValidOrders e.1.1 e.1.2 ∧ e.1.2 ≤ 38 ∧ e.2.length ≤ 39) ∧
    (s.lru.length ≤ 128 ∧ ∀ e ∈ s.lru, e.2.length ≤ 41) ∧ (s.lruDr.length ≤ 128 ∧ ∀ e ∈ s.lruDr, e.2.length ≤ 39) := by
  obtain ⟨g, b⟩ := table_steps h
  refine ⟨⟨?_, b.vals.1, fun e he => ⟨(g.vals _ _ _ he).1, b.vals.2 e he⟩⟩, ⟨?_, b.drs.1, fun e he => ⟨(g.drs _ _ _ he).1, b.drs.2 e he⟩⟩, b.lru, b.lruDr⟩
  · have := table_length (t := s.vals) (N := 40) ⟨b.vals.1, fun k hk => by obtain ⟨e, he, rfl⟩ := List.mem_map.1 hk; exact (b.vals.2 e he).1⟩
      (fun k hk => by obtain ⟨e, he, rfl⟩ := List.mem_map.1 hk; exact (g.vals _ _ _ he).1)
    omega
  · have := table_length (t := s.drs) (N := 38) ⟨b.drs.1, fun k hk => by obtain ⟨e, he, rfl⟩ := List.mem_map.1 hk; exact (b.drs.2 e he).1⟩
      (fun k hk => by obtain ⟨e, he, rfl⟩ := List.mem_map.1 hk; exact (g.drs _ _ _ he).1)
    omega

theorem bind_pure_st {β γ : Type} (x : CM β) (f : β → γ) (s : CoefState) : ((x >>= fun v => (Pure.pure (f v) : CM γ)) s).2 = (x s).2 := by
  show (match x s with | (.ok v, s') => (Pure.pure (f v) : CM γ) s' | (.error e, s') => (.error e, s')).2 = _
  rcases x s with ⟨r, s'⟩
  cases r <;> rfl

theorem radial_7_13_st : (Model.radial 20 ⟨7, 13, false⟩ (.num 1) false initState).st = (findCoeffs 19 false 7 13 initState).2 := by
  have h : checkRadii (.num 1) = .ok (.scalar 1) := by
    simp only [checkRadii]
    rw [if_neg]
    norm_num
  generalize initState = s
  unfold Model.radial
  rw [h]
  simp only [evalNum]
  refine (bind_pure_st _ _ _).trans ?_
  unfold radialValue
  have c1 : ((!false) = true) := rfl
  have c2 : ¬ ((13 : Int) ≤ 12) := by omega
  have c3 : (13 : Int) ≤ maxRadialOrderCoeffs := by unfold maxRadialOrderCoeffs; omega
  rw [if_pos c1, if_neg c2]
  rw [radialPolynomialCoeffs, if_pos c3]
  exact bind_pure_st _ _ _

/-- A history: the polynomial of the orders (7, 13) is evaluated, and the table has grown by the polynomials its coefficients were computed from. -/
example : ∃ s, Relation.ReflTransGen TableStep initState s ∧ initState.vals.length < s.vals.length := by
  have h : initState.vals.length < (findCoeffs 19 false 7 13 initState).2.vals.length := by decide +kernel
  rw [← radial_7_13_st] at h
  exact ⟨_, Relation.ReflTransGen.single (TableStep.radial 20 ⟨7, 13, false⟩ (.num 1) false initState), h⟩

end Verif.Props
