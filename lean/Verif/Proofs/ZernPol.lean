import Verif.Model.ZernPol
import Verif.Proofs.Index

/-! Helper lemmas about the constructor and the enumeration. -/

namespace Verif.Proofs
open Verif.Spec Verif.Model

theorem lookup_perm {kw kw' : Kwargs} (hp : kw.Perm kw') (hd : (kw.map Prod.fst).Nodup) (k : String) :
    kw.lookup k = kw'.lookup k := by
  induction hp with
  | nil => rfl
  | cons x _ ih =>
    simp only [List.map_cons, List.nodup_cons] at hd
    obtain ⟨a, b⟩ := x
    simp only [List.lookup, ih hd.2]
  | swap x y l =>
    obtain ⟨a, b⟩ := x; obtain ⟨c, d⟩ := y
    simp only [List.map_cons, List.nodup_cons, List.mem_cons, not_or] at hd
    have hne := hd.1.1
    simp only [List.lookup]
    rcases h1 : k == a <;> rcases h2 : k == c <;> simp only []
    simp only [beq_iff_eq] at h1 h2
    exact absurd (h2.symm.trans h1) hne
  | trans h1 _ ih1 ih2 =>
    rw [ih1 hd, ih2 ((h1.map Prod.fst).nodup_iff.1 hd)]

theorem has_iff (kw : Kwargs) (k : String) : kw.has k = true ↔ k ∈ kw.map Prod.fst := by
  unfold Kwargs.has
  induction kw with
  | nil => simp
  | cons x l ih =>
    obtain ⟨a, b⟩ := x
    simp only [List.lookup, List.map_cons, List.mem_cons]
    by_cases h : k = a
    · simp [h]
    · have : (k == a) = false := by simpa using h
      simp [this, ih, h]

theorem init_of_lookup {kw kw' : Kwargs} (hl : kw.length = kw'.length)
    (h : ∀ k, kw.lookup k = kw'.lookup k) : zernPolInit kw = zernPolInit kw' := by
  unfold zernPolInit initOrders initIndex Kwargs.has Kwargs.get
  simp only [hl, h]

/-- The object built for orders `(m, n)`. -/
def mkZ (m n : Int) : ZernPol :=
  ⟨m, n, getOsaIndex m n, getNollIndex m n, .npInt64 (getFringeIndex m n)⟩

/-- State of the list while it is filled: element `i` has OSA index `i` and is valid. -/
def Filled (k : Int) (l : List ZernPol) : Prop :=
  ∀ i (h : i < l.length), ∃ m n, l[i] = mkZ m n ∧ ValidOrders m n ∧ n ≤ k ∧ getOsaIndex m n = i

theorem filled_append {k : Int} {l : List ZernPol} (h : Filled k l) {m n : Int} (hv : ValidOrders m n)
    (hn : n ≤ k) (hi : getOsaIndex m n = l.length) : Filled k (l ++ [mkZ m n]) := by
  intro i hi'
  by_cases hlt : i < l.length
  · rw [List.getElem_append_left hlt]; exact h i hlt
  · have : i = l.length := by simp at hi'; omega
    subst this
    exact ⟨m, n, by simp, hv, hn, hi⟩

theorem filled_mono {k k' : Int} {l : List ZernPol} (h : Filled k l) (hk : k ≤ k') : Filled k' l := by
  intro i hi
  obtain ⟨m, n, h1, h2, h3, h4⟩ := h i hi
  exact ⟨m, n, h1, h2, by omega, h4⟩

end Verif.Proofs
