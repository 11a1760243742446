import Verif.Model.ReadWhileSaving
import Verif.Proofs.SharedFile

/-! # A process that reads the file while others save to it -/

namespace Verif.Proofs
open Verif.Model

theorem world_run_append (calls : Nat → SaveCall) (w : ReadWorld) (σ τ : List Actor) : w.run calls (σ ++ τ) = (w.run calls σ).run calls τ := by
  unfold ReadWorld.run; rw [List.foldl_append]

theorem world_run_savers (calls : Nat → SaveCall) (w : ReadWorld) (σ : List Nat) : w.run calls (σ.map .saver) = ⟨w.saves.run calls σ, w.reader⟩ := by
  induction σ generalizing w with
  | nil => rfl
  | cons i σ ih => exact ih _

/-- The file never holds anything but parts of the text. -/
theorem step_partOf {T : List Char} {calls : Nat → SaveCall} (hT : ∀ i, (calls i).text = T) (s : SharedFile) (i : Nat)
    (h : ∀ c, s.file = some c → PartOf T c) (c : List Char) (hc : (s.step calls i).file = some c) : PartOf T c := by
  unfold SharedFile.step at hc
  cases hp : s.phase i with
  | start => rw [hp] at hc; exact h c hc
  | opening => rw [hp] at hc; cases hc; exact PartOf.nil T
  | writing k =>
    rw [hp] at hc
    simp only at hc
    rw [hT i] at hc
    cases hx : T[k]? with
    | none => rw [hx] at hc; exact h c hc
    | some x =>
      rw [hx] at hc
      simp only [Option.some.injEq] at hc
      rw [← hc]
      refine PartOf.write ?_ k x hx
      cases hf : s.file with
      | none => exact PartOf.nil T
      | some d => exact h d hf
  | finished => rw [hp] at hc; exact h c hc

theorem PartOf.piece {T c got : List Char} (hc : PartOf T c) (hg : PartOf T got) (n : Nat) : PartOf T (got ++ (c.drop got.length).take n) := by
  intro j x hx
  rw [List.getElem?_append] at hx
  split_ifs at hx with h
  · exact hg j x hx
  · have hjn : j - got.length < n := by
      by_contra hn
      rw [List.getElem?_eq_none (by rw [List.length_take]; omega)] at hx; cases hx
    rw [List.getElem?_take_of_lt hjn, List.getElem?_drop, show got.length + (j - got.length) = j by omega] at hx
    exact hc j x hx

/-- The invariant for savers with the same text. -/
structure ReadInv (T : List Char) (file0 : Option (List Char)) (w : ReadWorld) : Prop where
  file : ∀ c, w.saves.file = some c → PartOf T c
  kept : file0 ≠ none → w.saves.file ≠ none
  got : ∀ g, w.reader = .reading g → PartOf T g
  text : ∀ g, w.reader = .finished (some g) → PartOf T g
  absent : w.reader = .finished none → file0 = none

theorem step_kept (calls : Nat → SaveCall) (s : SharedFile) (i : Nat) (h : s.file ≠ none) : (s.step calls i).file ≠ none := by
  unfold SharedFile.step
  cases s.phase i with
  | start => exact h
  | opening => simp
  | writing k => simp only; cases (calls i).text[k]? <;> simp [h]
  | finished => exact h

theorem ReadInv.step {T : List Char} {calls : Nat → SaveCall} {file0 : Option (List Char)} (hT : ∀ i, (calls i).text = T) {w : ReadWorld} (h : ReadInv T file0 w)
    (a : Actor) : ReadInv T file0 (w.step calls a) := by
  cases a with
  | saver i => exact ⟨step_partOf hT w.saves i h.file, fun h0 => step_kept calls _ i (h.kept h0), h.got, h.text, h.absent⟩
  | reader n =>
    have hf : PartOf T (w.saves.file.getD []) := by
      cases hf : w.saves.file with
      | none => exact PartOf.nil T
      | some d => exact h.file d hf
    refine ⟨h.file, h.kept, ?_, ?_, ?_⟩
    · intro g hg
      simp only [ReadWorld.step] at hg
      cases hr : w.reader with
      | start => rw [hr] at hg; simp only [ReadPhase.step] at hg; split_ifs at hg
      | found => rw [hr] at hg; cases hg; exact PartOf.nil T
      | reading g0 =>
        rw [hr] at hg
        simp only [ReadPhase.step] at hg
        split_ifs at hg
        cases hg
        exact hf.piece (h.got g0 hr) (n + 1)
      | finished t => rw [hr] at hg; cases hg
    · intro g hg
      simp only [ReadWorld.step] at hg
      cases hr : w.reader with
      | start => rw [hr] at hg; simp only [ReadPhase.step] at hg; split_ifs at hg; cases hg
      | found => rw [hr] at hg; cases hg
      | reading g0 =>
        rw [hr] at hg
        simp only [ReadPhase.step] at hg
        split_ifs at hg
        cases hg
        exact h.got g hr
      | finished t => rw [hr] at hg; exact h.text g (hr.trans hg)
    · intro hg
      simp only [ReadWorld.step] at hg
      cases hr : w.reader with
      | start =>
        rw [hr] at hg
        simp only [ReadPhase.step] at hg
        split_ifs at hg with hs
        by_contra h0
        exact hs (Option.isSome_iff_ne_none.2 (h.kept h0))
      | found => rw [hr] at hg; cases hg
      | reading g0 =>
        rw [hr] at hg
        simp only [ReadPhase.step] at hg
        split_ifs at hg
        cases hg
      | finished t => rw [hr] at hg; exact h.absent (hr.trans hg)

theorem ReadInv.run {T : List Char} {calls : Nat → SaveCall} {file0 : Option (List Char)} (hT : ∀ i, (calls i).text = T) (h0 : ∀ c, file0 = some c → PartOf T c)
    (σ : List Actor) : ReadInv T file0 ((ReadWorld.before file0).run calls σ) := by
  have : ∀ w, ReadInv T file0 w → ReadInv T file0 (w.run calls σ) := by
    induction σ with
    | nil => exact fun w h => h
    | cons i σ ih => exact fun w h => ih _ (h.step hT i)
  refine this _ ⟨h0, fun h => h, ?_, ?_, ?_⟩ <;> simp [ReadWorld.before]

/-- A beginning of the text is a part of it. -/
theorem PartOf.of_prefix {T c : List Char} (h : c <+: T) : PartOf T c := by
  obtain ⟨r, rfl⟩ := h
  intro j x hx
  left
  have hj : j < c.length := by
    by_contra hj
    rw [List.getElem?_eq_none (by omega)] at hx; cases hx
  rw [List.getElem?_append_left hj]; exact hx

/-! ### The reader acts alone -/

/-- The reader, with some characters read, reads what the file holds after its position, whatever the sizes of the pieces. -/
theorem reader_rest (calls : Nat → SaveCall) (s : SharedFile) (c : List Char) (hf : s.file = some c) (ns : List Nat) (g : List Char)
    (hn : c.length - g.length < ns.length) : ReadWorld.run calls ⟨s, .reading g⟩ (ns.map .reader) = ⟨s, .finished (some (g ++ c.drop g.length))⟩ := by
  induction ns generalizing g with
  | nil => simp at hn
  | cons n ns ih =>
    show ReadWorld.run calls (ReadWorld.step calls _ (.reader n)) _ = _
    simp only [ReadWorld.step, ReadPhase.step, hf, Option.getD_some]
    cases hr : c.drop g.length with
    | nil =>
      simp only [List.take_nil, if_true, List.append_nil]
      clear ih hn
      induction ns with
      | nil => rfl
      | cons m ns ih => exact ih
    | cons x r =>
      rw [if_neg (by simp)]
      have hl := congrArg List.length hr
      rw [List.length_drop, List.length_cons] at hl
      rw [ih _ (by simp only [List.length_append, List.length_take, List.length_cons] at hn ⊢; omega)]
      congr 3
      rw [List.append_assoc, List.length_append, ← List.drop_drop, hr]
      congr 1
      rw [List.length_take]
      rcases le_total (n + 1) (x :: r).length with h | h
      · rw [min_eq_left h, List.take_append_drop]
      · rw [min_eq_right h, List.take_of_length_le h, List.drop_length, List.append_nil]

/-- The reader acts alone from the beginning. -/
theorem reader_alone (calls : Nat → SaveCall) (s : SharedFile) (c : List Char) (hf : s.file = some c) (ns : List Nat) (hn : c.length + 3 ≤ ns.length) :
    ReadWorld.run calls ⟨s, .start⟩ (ns.map .reader) = ⟨s, .finished (some c)⟩ := by
  match ns, hn with
  | a :: b :: ns, hn =>
    show ReadWorld.run calls (ReadWorld.step calls (ReadWorld.step calls _ (.reader a)) (.reader b)) _ = _
    have e : ReadWorld.step calls (ReadWorld.step calls ⟨s, .start⟩ (.reader a)) (.reader b) = ⟨s, .reading []⟩ := by
      simp [ReadWorld.step, ReadPhase.step, hf]
    rw [e]
    have := reader_rest calls s c hf ns [] (by simp at hn ⊢; omega)
    simpa using this
  | [_], hn => simp at hn
  | [], hn => simp at hn

/-- The reader reads the first `a` characters in one piece. -/
theorem reader_first (calls : Nat → SaveCall) (s : SharedFile) (c : List Char) (hf : s.file = some c) (a : Nat) (ha : a < c.length) :
    ReadWorld.run calls ⟨s, .start⟩ [.reader 0, .reader 0, .reader a] = ⟨s, .reading (c.take (a + 1))⟩ := by
  have : c.take (a + 1) ≠ [] := by
    intro h
    have := congrArg List.length h
    rw [List.length_take, List.length_nil] at this
    omega
  simp [ReadWorld.run, ReadWorld.step, ReadPhase.step, hf]
  intro h; subst h; simp at ha

end Verif.Proofs
