import Verif.Model.Json
import Verif.Proofs.PsfInv

/-!
# Lemmas about saving and reading of `ZernPSF` objects
-/

namespace Verif.Proofs
open Verif.Model Verif.Spec

theorem storeCoeff_coeffs (o : PsfObj) (c : CoeffArg) :
    (o.storeCoeff c).2.coefficients = o.coefficients ∨ ∃ l, (o.storeCoeff c).2.coefficients = some l ∧ l.length = o.polynomials.length := by
  cases c with
  | num x =>
    simp only [PsfObj.storeCoeff]
    split_ifs <;> simp [PsfObj.storeOne]
  | bad e =>
    simp only [PsfObj.storeCoeff]
    split_ifs <;> simp
  | seq l =>
    simp only [PsfObj.storeCoeff]
    by_cases h : l.length ≠ o.polynomials.length
    · rw [if_pos h]
      rcases l with _ | ⟨x, _ | ⟨y, t⟩⟩
      · simp
      · by_cases h0 : o.polynomials.length = 0
        · simp [h0, PsfObj.storeOne]
        · simp [h0]
      · simp
    · rw [if_neg h]
      have h := not_not.1 h
      cases npMax l with
      | error e => simp [h]
      | ok a => simp [h]

/-- As many coefficients as polynomials. -/
def CoeffsFit (o : PsfObj) : Prop := ∀ cs, o.coefficients = some cs → cs.length = o.polynomials.length

theorem run_coeffs (x : PsfObj × CoefState) (h : PsfInv x.1) (hc : CoeffsFit x.1) (c : PsfCall) : CoeffsFit (c.run x).1 := by
  have hp := (run_pols x h c).2.1
  have key : ((c.run x).1.coefficients = x.1.coefficients ∨ ∃ l, (c.run x).1.coefficients = some l ∧ l.length = x.1.polynomials.length) → CoeffsFit (c.run x).1 := by
    rintro (e | ⟨l, e, hl⟩) cs hcs
    · rw [hp]; exact hc cs (e ▸ hcs)
    · rw [e] at hcs; cases hcs; rw [hp]; exact hl
  apply key
  cases c with
  | setPhysicalProps NA wl c px =>
    simp only [PsfCall.run]
    rcases setPhysical_cases x.1 NA wl c px with ⟨_, e⟩ | ⟨_, _, e⟩ | ⟨_, _, _, _, e⟩ | ⟨_, _, _, _, _, e⟩ <;> rw [e]
    · left; rfl
    · left; rfl
    · left; rfl
    · have hs := storeCoeff_coeffs (physBase x.1 NA wl px) c
      have e1 : (physBase x.1 NA wl px).coefficients = x.1.coefficients := rfl
      have e2 : (physBase x.1 NA wl px).polynomials = x.1.polynomials := rfl
      rw [e1, e2] at hs
      unfold physRest
      rcases hb : (physBase x.1 NA wl px).storeCoeff c with ⟨r, b'⟩
      rw [hb] at hs
      cases r with
      | error e' => exact hs
      | ok u =>
        simp only []
        split <;> exact hs
  | setCalculationProps size nR nPhi =>
    left
    simp only [PsfCall.run]
    unfold PsfObj.setCalculationProps
    split_ifs <;> rfl
  | calculate env sup nrm acc =>
    left
    simp only [PsfCall.run]
    have hcs : (calcStart x.1 sup).coefficients = x.1.coefficients := by unfold calcStart; split_ifs <;> rfl
    rcases calculate_cases env x.1 h sup nrm acc x.2 with ⟨e, _, h2⟩ | ⟨g, S, _, h2, _⟩
    · rw [h2]; exact hcs
    · rw [h2]; exact hcs
  | crop part =>
    left
    simp only [PsfCall.run]
    unfold PsfObj.crop
    split_ifs <;> (try rfl) <;> split <;> (try rfl)
    split
    · rfl
    · split <;> rfl
  | parallel fuel w even odd nrm =>
    left
    simp only [PsfCall.run]
    rcases afterParallel_cases x.1 h.size.2 fuel w even odd nrm x.2 with e | ⟨_, g, _, e⟩ | ⟨_, e⟩ <;> rw [e]

theorem afterPsf_coeffs (o : PsfObj) (s : CoefState) (h : PsfInv o) (hc : CoeffsFit o) (calls : List PsfCall) :
    CoeffsFit (afterPsfCalls o s calls).1 := by
  unfold afterPsfCalls
  have : ∀ x : PsfObj × CoefState, PsfInv x.1 → CoeffsFit x.1 → CoeffsFit (calls.foldl PsfCall.run x).1 := by
    induction calls with
    | nil => exact fun x _ hc => hc
    | cons c t ih => exact fun x hx hc => ih _ (run_inv x hx c) (run_coeffs x hx hc c)
  exact this (o, s) h hc

theorem psfInit_coeffs (arg : PsfArg) (o : PsfObj) (h : psfInit arg = .ok o) : o.coefficients = none := by
  unfold psfInit at h
  split at h
  · cases h; rfl
  · cases h
  · cases h; rfl
  · cases h
  · split at h
    · cases h
    · split_ifs at h
      cases h; rfl
  · cases h; rfl

end Verif.Proofs
