import Verif.Proofs.ZernPol
import Verif.Props.Index
import Mathlib.Tactic.IntervalCases

/-!
# C07 - C14: construction, comparison, enumeration and names of polynomials
-/

namespace Verif.Props
open Verif.Spec Verif.Model Verif.Proofs

/-- Names accepted for the radial order. -/
def radialKeys : List String := ["n", "radial_order"]
/-- Names accepted for the azimuthal order. -/
def azimuthalKeys : List String := ["m", "l", "azimuthal_order", "angular_frequency"]
/-- Names accepted for the indices. -/
def osaKeys : List String := ["osa_index", "osa", "ansi_index", "ansi"]
def nollKeys : List String := ["noll_index", "noll"]
def fringeKeys : List String := ["fringe_index", "fringe"]

/-! ## C11: keywords -/

/-- C11. The order of the keywords does not matter (the keys of a dictionary are distinct). -/
theorem ctor_keyword_order (kw kw' : Kwargs) (hp : kw.Perm kw') (hd : (kw.map Prod.fst).Nodup) :
    zernPolInit kw = zernPolInit kw' :=
  init_of_lookup hp.length_eq (lookup_perm hp hd)

/-- C11. All names of the orders are interchangeable. -/
theorem ctor_order_aliases (nK mK : String) (hn : nK ∈ radialKeys) (hm : mK ∈ azimuthalKeys) (vn vm : PyVal) :
    zernPolInit [(nK, vn), (mK, vm)] = zernPolInit [("n", vn), ("m", vm)] := by
  simp only [radialKeys, azimuthalKeys, List.mem_cons, List.not_mem_nil, or_false] at hn hm
  rcases hn with rfl | rfl <;> rcases hm with rfl | rfl | rfl | rfl <;>
    simp [zernPolInit, initOrders, Kwargs.has, Kwargs.get, List.lookup]

/-- C11. All names of an index are interchangeable. -/
theorem ctor_index_aliases (v : PyVal) :
    (∀ k ∈ osaKeys, zernPolInit [(k, v)] = zernPolInit [("osa_index", v)]) ∧
    (∀ k ∈ nollKeys, zernPolInit [(k, v)] = zernPolInit [("noll_index", v)]) ∧
    (∀ k ∈ fringeKeys, zernPolInit [(k, v)] = zernPolInit [("fringe_index", v)]) := by
  refine ⟨?_, ?_, ?_⟩ <;> intro k hk <;>
    simp only [osaKeys, nollKeys, fringeKeys, List.mem_cons, List.not_mem_nil, or_false] at hk
  · rcases hk with rfl | rfl | rfl | rfl <;> simp [zernPolInit, initIndex, Kwargs.has, Kwargs.get, List.lookup]
  · rcases hk with rfl | rfl <;> simp [zernPolInit, initIndex, Kwargs.has, Kwargs.get, List.lookup]
  · rcases hk with rfl | rfl <;> simp [zernPolInit, initIndex, Kwargs.has, Kwargs.get, List.lookup]

/-- C11. Any keyword dictionary that is not exactly {radial name, azimuthal name} or exactly one index name is rejected
with `ValueError`, whatever the values are. -/
theorem ctor_rejects_other_keywords (kw : Kwargs) (hd : (kw.map Prod.fst).Nodup)
    (h2 : ¬ ∃ nK ∈ radialKeys, ∃ mK ∈ azimuthalKeys, (kw.map Prod.fst).Perm [nK, mK])
    (h1 : ¬ ∃ k ∈ osaKeys ++ nollKeys ++ fringeKeys, kw.map Prod.fst = [k]) :
    zernPolInit kw = .error .valueError := by
  unfold zernPolInit
  match kw, hd, h2, h1 with
  | [], _, _, _ => simp
  | [(a, v)], _, _, h1 =>
    have hk : ∀ k ∈ osaKeys ++ nollKeys ++ fringeKeys, Kwargs.has [(a, v)] k = false := by
      intro k hk
      rw [Bool.eq_false_iff]
      intro hc
      rw [has_iff] at hc
      simp at hc
      exact h1 ⟨k, hk, by simp [hc]⟩
    simp only [osaKeys, nollKeys, fringeKeys, List.cons_append, List.nil_append, List.forall_mem_cons] at hk
    simp [initIndex, hk.1, hk.2.1, hk.2.2.1, hk.2.2.2.1, hk.2.2.2.2.1, hk.2.2.2.2.2.1, hk.2.2.2.2.2.2.1,
      hk.2.2.2.2.2.2.2.1]
  | [(a, v), (b, w)], hd, h2, _ =>
    simp only [List.length_cons, List.length_nil, Nat.zero_add, Nat.reduceAdd, if_true]
    simp only [List.map_cons, List.map_nil, List.nodup_cons, List.mem_singleton] at hd
    have hab : a ≠ b := hd.1
    by_cases hr : Kwargs.has [(a, v), (b, w)] "n" = true ∨ Kwargs.has [(a, v), (b, w)] "radial_order" = true
    · have hz : ∀ k ∈ azimuthalKeys, Kwargs.has [(a, v), (b, w)] k = false := by
        intro k hk
        rw [Bool.eq_false_iff]
        intro hc
        apply h2
        rw [has_iff] at hc
        obtain ⟨nK, hnK, hn⟩ : ∃ nK ∈ radialKeys, nK ∈ List.map Prod.fst [(a, v), (b, w)] := by
          rcases hr with hr | hr <;> rw [has_iff] at hr
          · exact ⟨_, by simp [radialKeys], hr⟩
          · exact ⟨_, by simp [radialKeys], hr⟩
        have hne : nK ≠ k := by
          rintro rfl
          simp only [radialKeys, azimuthalKeys, List.mem_cons, List.not_mem_nil, or_false] at hnK hk
          rcases hnK with rfl | rfl <;> simp at hk
        refine ⟨nK, hnK, k, hk, ?_⟩
        simp only [List.map_cons, List.map_nil, List.mem_cons, List.not_mem_nil, or_false] at hn hc ⊢
        rcases hn with rfl | rfl <;> rcases hc with rfl | rfl
        · exact absurd rfl hne
        · exact List.Perm.refl _
        · exact List.Perm.swap _ _ _
        · exact absurd rfl hne
      simp only [azimuthalKeys, List.forall_mem_cons] at hz
      have hr' : (Kwargs.has [(a, v), (b, w)] "n" || Kwargs.has [(a, v), (b, w)] "radial_order") = true := by
        simpa using hr
      simp only [initOrders, hr', if_true, hz.1, hz.2.1, hz.2.2.1, hz.2.2.2.1, Bool.or_self, Bool.false_eq_true,
        if_false]
      rcases (Kwargs.get _ _).isInt? with _ | n <;> rfl
    · have hr' : (Kwargs.has [(a, v), (b, w)] "n" || Kwargs.has [(a, v), (b, w)] "radial_order") = false := by
        simpa using hr
      simp [initOrders, hr']
  | _ :: _ :: _ :: _, _, _, _ => simp

example : zernPolInit [("n", .int 2), ("radial_order", .int 2)] = .error .valueError ∧
    zernPolInit [] = .error .valueError ∧ zernPolInit [("index", .int 2)] = .error .valueError := by decide

/-! ## C07: construction by orders

The full property ("exactly the valid orders with n ≤ 54 are accepted") is false: `|m| ≤ n` is never checked. -/

/-- C07, the exact acceptance condition of `ZernPol(m=.., n=..)`, for every pair of Python values. Note that
`|m| ≤ n` is *not* among the conditions. -/
theorem ctor_orders_exact (vm vn : PyVal) (z : ZernPol) :
    zernPolInit [("n", vn), ("m", vm)] = .ok z ↔
      ∃ m n : Int, vm = .int m ∧ vn.isInt? = some n ∧ 0 ≤ n ∧ n ≤ 54 ∧ (2 : Int) ∣ n - |m| ∧ (n = 0 → m = 0) ∧
        z = ⟨m, n, getOsaIndex m n, getNollIndex m n, .npInt64 (getFringeIndex m n)⟩ := by
  simp only [zernPolInit, initOrders, Kwargs.has, Kwargs.get, List.lookup, getFringeIndexPy, ← pyAbs_eq]
  simp only [List.length_cons, List.length_nil, Nat.zero_add, Nat.reduceAdd, if_true]
  simp only [show ("n" == "n") = true by decide, show ("m" == "n") = false by decide,
    show ("m" == "m") = true by decide, Option.isSome_some, Bool.true_or, if_true, Option.getD_some]
  rcases hn : vn.isInt? with _ | n
  · simp
  · rcases hm : vm.isInt? with _ | m
    · have : ∀ m, vm ≠ .int m := by rintro m rfl; simp [PyVal.isInt?] at hm
      simp [this]
    · have hcases : vm = .int m ∨ ∃ b, vm = .bool b := by
        cases vm <;> simp_all [PyVal.isInt?]
      rcases hcases with rfl | ⟨b, rfl⟩
      · simp only
        constructor
        · intro h
          split_ifs at h with h1 h2 h3 h4
          · simp only [Except.ok.injEq] at h
            exact ⟨m, n, rfl, rfl, by omega, by omega, by omega, by omega, h.symm⟩
        · rintro ⟨m', n', h1, h2, h3, h4, h5, h6, rfl⟩
          cases h1; cases h2
          rw [if_neg (by omega), if_neg (by omega), if_neg (by omega), if_neg (by omega)]
      · simp only [reduceCtorEq, false_and, exists_false, iff_false]
        split_ifs <;> simp

/-- C07, partial: all valid orders with `n ≤ 54` are accepted. -/
theorem ctor_orders_accepts_valid (m n : Int) (h : ValidOrders m n) (hn : n ≤ 54) :
    zernPolInit [("n", .int n), ("m", .int m)] =
      .ok ⟨m, n, getOsaIndex m n, getNollIndex m n, .npInt64 (getFringeIndex m n)⟩ := by
  rw [ctor_orders_exact]
  refine ⟨m, n, rfl, rfl, h.1, hn, h.2.2, ?_, rfl⟩
  rintro rfl
  exact abs_nonpos_iff.1 h.2.1

/-- C07, partial: with `|m| ≤ n` (the missing check) only valid orders with `n ≤ 54` are accepted; an error is `ValueError`
when the arguments are not `bool`. -/
theorem ctor_orders_accepts_only_valid_partial (m n : Int) (hle : |m| ≤ n) :
    ((∃ z, zernPolInit [("n", .int n), ("m", .int m)] = .ok z) ↔ ValidOrders m n ∧ n ≤ 54) ∧
    (¬ (ValidOrders m n ∧ n ≤ 54) → zernPolInit [("n", .int n), ("m", .int m)] = .error .valueError) := by
  have key : (∃ z, zernPolInit [("n", .int n), ("m", .int m)] = .ok z) ↔ ValidOrders m n ∧ n ≤ 54 := by
    constructor
    · rintro ⟨z, hz⟩
      rw [ctor_orders_exact] at hz
      obtain ⟨m', n', h1, h2, h3, h4, h5, h6, -⟩ := hz
      cases h1; cases h2
      exact ⟨⟨h3, hle, h5⟩, h4⟩
    · rintro ⟨h1, h2⟩
      exact ⟨_, ctor_orders_accepts_valid m n h1 h2⟩
  refine ⟨key, fun hne => ?_⟩
  rw [← key] at hne
  simp only [zernPolInit, initOrders, Kwargs.has, Kwargs.get, List.lookup, PyVal.isInt?] at hne ⊢
  simp at hne ⊢
  split_ifs at hne ⊢ <;> simp_all

/-- C07 is false: `ZernPol(m=4, n=2)` is accepted although `(4, 2)` are not valid orders, and so is every
`ZernPol(m=n+2k, n=n)` with `1 ≤ n ≤ 54`. -/
theorem ctor_accepts_invalid_orders :
    (∃ z, zernPolInit [("n", .int 2), ("m", .int 4)] = .ok z) ∧ ¬ ValidOrders 4 2 ∧
    (∀ n k : Int, 1 ≤ n → n ≤ 54 → 1 ≤ k →
      (∃ z, zernPolInit [("n", .int n), ("m", .int (n + 2 * k))] = .ok z) ∧ ¬ ValidOrders (n + 2 * k) n) := by
  refine ⟨⟨⟨4, 2, 6, 8, .npInt64 8⟩, by decide⟩, by decide, ?_⟩
  intro n k h1 h2 h3
  refine ⟨⟨_, (ctor_orders_exact _ _ _).2 ⟨n + 2 * k, n, rfl, rfl, by omega, h2, ?_, by omega, rfl⟩⟩, ?_⟩
  · rw [abs_of_nonneg (by omega)]; omega
  · rw [valid_iff]; omega

example : ValidOrders (-53) 53 ∧ (53 : Int) ≤ 54 ∧
    zernPolInit [("n", .int 53), ("m", .int 52)] = .error .valueError ∧
    zernPolInit [("n", .int 55), ("m", .int 1)] = .error .valueError := by decide

/-! ## C08: construction by index -/

/-- C08. `ZernPol(osa_index=v)` succeeds exactly for integers `0 .. 1539` and gives the polynomial with that index;
otherwise `ValueError`. -/
theorem ctor_osa_exact (v : PyVal) :
    (∀ i : Int, v.isInt? = some i → 0 ≤ i → i ≤ 1539 →
      ∃ m n, ValidOrders m n ∧ n ≤ 54 ∧ getOsaIndex m n = i ∧
        zernPolInit [("osa_index", v)] = .ok ⟨m, n, i, getNollIndex m n, .npInt64 (getFringeIndex m n)⟩) ∧
    ((∀ i : Int, v.isInt? = some i → i < 0 ∨ 1539 < i) → zernPolInit [("osa_index", v)] = .error .valueError) := by
  constructor
  · intro i hi h0 h1
    obtain ⟨m, n, hv, hn, he, hr⟩ := (index2orders_osa_range i none none).1 h0 (by omega)
    have hb := osa_block hv
    have hn' : n ≤ 54 := by
      by_contra hc
      have : n = 55 := by omega
      subst this
      have e55 : tri 55 = 1540 := by decide
      omega
    refine ⟨m, n, hv, hn', he, ?_⟩
    simp only [zernPolInit, initIndex, Kwargs.has, Kwargs.get, List.lookup]
    simp only [show ("osa_index" == "osa_index") = true by decide, List.length_cons, List.length_nil, Nat.zero_add,
      Nat.reduceEqDiff, if_true, if_false, Option.isSome_some, Bool.true_or, Option.getD_some, hi]
    rw [if_neg (by omega), if_neg (by omega), hr]
    rfl
  · intro h
    simp only [zernPolInit, initIndex, Kwargs.has, Kwargs.get, List.lookup]
    simp only [show ("osa_index" == "osa_index") = true by decide, List.length_cons, List.length_nil, Nat.zero_add,
      Nat.reduceEqDiff, if_true, if_false, Option.isSome_some, Bool.true_or, Option.getD_some]
    rcases hi : v.isInt? with _ | i
    · rfl
    · have := h i hi
      by_cases h0 : i < 0
      · simp [h0]
      · have : i > 1539 := by omega
        simp [h0, this]

/-- C08. `ZernPol(noll_index=v)` succeeds exactly for integers `1 .. 1540`. -/
theorem ctor_noll_exact (v : PyVal) :
    (∀ i : Int, v.isInt? = some i → 1 ≤ i → i ≤ 1540 →
      ∃ m n, ValidOrders m n ∧ n ≤ 54 ∧ getNollIndex m n = i ∧
        zernPolInit [("noll_index", v)] = .ok ⟨m, n, getOsaIndex m n, i, .npInt64 (getFringeIndex m n)⟩) ∧
    ((∀ i : Int, v.isInt? = some i → i < 1 ∨ 1540 < i) → zernPolInit [("noll_index", v)] = .error .valueError) := by
  constructor
  · intro i hi h0 h1
    obtain ⟨m, n, hv, hn, he, hr⟩ := (index2orders_noll_range i none).1 h0 (by omega)
    have hb := noll_block hv
    have hn' : n ≤ 54 := by
      by_contra hc
      have : n = 55 := by omega
      subst this
      have e55 : tri 55 = 1540 := by decide
      omega
    refine ⟨m, n, hv, hn', he, ?_⟩
    simp only [zernPolInit, initIndex, Kwargs.has, Kwargs.get, List.lookup]
    simp [hi]
    rw [if_neg (by omega), if_neg (by omega), hr]
    rfl
  · intro h
    simp only [zernPolInit, initIndex, Kwargs.has, Kwargs.get, List.lookup]
    simp
    rcases hi : v.isInt? with _ | i
    · rfl
    · have := h i hi
      by_cases h0 : i < 1
      · simp [h0]
      · have : i > 1540 := by omega
        simp [h0, this]

/-- C08. `ZernPol(fringe_index=v)` succeeds exactly for the Fringe indices of the polynomials with `n ≤ 54`. -/
theorem ctor_fringe_exact (v : PyVal) :
    (∀ m n : Int, ValidOrders m n → n ≤ 54 → v.isInt? = some (getFringeIndex m n) →
        zernPolInit [("fringe_index", v)] =
          .ok ⟨m, n, getOsaIndex m n, getNollIndex m n, .int (getFringeIndex m n)⟩) ∧
    ((∀ m n : Int, ValidOrders m n → n ≤ 54 → v.isInt? ≠ some (getFringeIndex m n)) →
        zernPolInit [("fringe_index", v)] = .error .valueError) := by
  constructor
  · intro m n hv hn hi
    have h1 := fringe_pos hv
    have hr := index2orders_fringe m n hv (by omega)
    simp only [zernPolInit, initIndex, Kwargs.has, Kwargs.get, List.lookup]
    simp [hi]
    rw [if_neg (by omega), hr, if_neg (by simpa using hn)]
  · intro h
    simp only [zernPolInit, initIndex, Kwargs.has, Kwargs.get, List.lookup]
    simp
    rcases hi : v.isInt? with _ | i
    · rfl
    · by_cases h0 : i < 1
      · simp [h0]
      · obtain ⟨⟨m, n⟩, hv, he⟩ := fringe_bijOn.surjOn (show i ∈ Set.Ici (1 : Int) by simp only [Set.mem_Ici]; omega)
        simp only at he
        have hn : 54 < n := by
          by_contra hc
          exact h m n hv (by omega) (by rw [hi, he])
        by_cases h250 : n < 250
        · have hr := index2orders_fringe m n hv h250
          rw [he] at hr
          simp [h0, hr, hn]
        · have hr := (index2orders_fringe_range i).2.1 (by
            intro m' n' hv' hn' he'
            have := fringe_bijOn.injOn (x₁ := (m, n)) (x₂ := (m', n')) hv hv' (by simp only; omega)
            simp only [Prod.mk.injEq] at this
            omega)
          simp [h0, hr]

example : zernPolInit [("osa_index", .int 1540)] = .error .valueError ∧
    zernPolInit [("osa_index", .bool true)] = .ok ⟨-1, 1, 1, 3, .npInt64 3⟩ ∧
    zernPolInit [("noll_index", .npInt64 4)] = .error .valueError := by decide +kernel
example : zernPolInit [("fringe_index", .int 11)] = .ok ⟨-3, 3, 6, 9, .int 11⟩ := by decide +kernel

/-! ## C09: consistency of a constructed object -/

/-- C09. An object constructed through an index has valid orders `n ≤ 54` and their indices. -/
theorem ctor_index_cases (k : String) (v : PyVal) (z : ZernPol) (h : zernPolInit [(k, v)] = .ok z) :
    ∃ m n, ValidOrders m n ∧ n ≤ 54 ∧ ∃ f : PyVal, f.num? = some (getFringeIndex m n) ∧
      z = ⟨m, n, getOsaIndex m n, getNollIndex m n, f⟩ := by
  by_cases hk : k ∈ osaKeys ++ nollKeys ++ fringeKeys
  · simp only [List.mem_append] at hk
    rcases hk with (hk | hk) | hk
    · rw [(ctor_index_aliases v).1 k hk] at h
      by_cases hc : ∃ i : Int, v.isInt? = some i ∧ 0 ≤ i ∧ i ≤ 1539
      · obtain ⟨i, hi, h0, h1⟩ := hc
        obtain ⟨m, n, hv, hn, he, hr⟩ := (ctor_osa_exact v).1 i hi h0 h1
        rw [hr] at h; cases h; exact ⟨m, n, hv, hn, _, rfl, by rw [he]⟩
      · rw [(ctor_osa_exact v).2 (by intro i hi; by_contra hcc; exact hc ⟨i, hi, by omega, by omega⟩)] at h
        cases h
    · rw [(ctor_index_aliases v).2.1 k hk] at h
      by_cases hc : ∃ i : Int, v.isInt? = some i ∧ 1 ≤ i ∧ i ≤ 1540
      · obtain ⟨i, hi, h0, h1⟩ := hc
        obtain ⟨m, n, hv, hn, he, hr⟩ := (ctor_noll_exact v).1 i hi h0 h1
        rw [hr] at h; cases h; exact ⟨m, n, hv, hn, _, rfl, by rw [he]⟩
      · rw [(ctor_noll_exact v).2 (by intro i hi; by_contra hcc; exact hc ⟨i, hi, by omega, by omega⟩)] at h
        cases h
    · rw [(ctor_index_aliases v).2.2 k hk] at h
      by_cases hc : ∃ m n : Int, ValidOrders m n ∧ n ≤ 54 ∧ v.isInt? = some (getFringeIndex m n)
      · obtain ⟨m, n, hv, hn, hi⟩ := hc
        rw [(ctor_fringe_exact v).1 m n hv hn hi] at h; cases h; exact ⟨m, n, hv, hn, _, rfl, rfl⟩
      · rw [(ctor_fringe_exact v).2 (by intro m n hv hn hi; exact hc ⟨m, n, hv, hn, hi⟩)] at h
        cases h
  · rw [ctor_rejects_other_keywords [(k, v)] (by simp) (by
      rintro ⟨nK, _, mK, _, hp⟩; simpa using hp.length_eq) (by
      rintro ⟨k', hk', he⟩; simp at he; subst he; exact hk hk')] at h
    cases h

/-- C09. Whatever keywords were used, the indices of a constructed object are the indices of its orders. -/
theorem ctor_consistent (kw : Kwargs) (hd : (kw.map Prod.fst).Nodup) (z : ZernPol) (h : zernPolInit kw = .ok z) :
    z.osa = getOsaIndex z.m z.n ∧ z.noll = getNollIndex z.m z.n ∧ z.fringe.num? = some (getFringeIndex z.m z.n) ∧
      0 ≤ z.n ∧ z.n ≤ 54 := by
  by_cases h2 : ∃ nK ∈ radialKeys, ∃ mK ∈ azimuthalKeys, (kw.map Prod.fst).Perm [nK, mK]
  · obtain ⟨nK, hnK, mK, hmK, hp⟩ := h2
    obtain ⟨vn, vm, hp'⟩ : ∃ vn vm, kw.Perm [(nK, vn), (mK, vm)] := by
      match kw, hp with
      | [], hp => simpa using hp.length_eq
      | [_], hp => simpa using hp.length_eq
      | [(a, v), (b, w)], hp =>
        have ha : a ∈ [nK, mK] := hp.subset (by simp)
        have hb : b ∈ [nK, mK] := hp.subset (by simp)
        have hab : a ≠ b := by simpa using hd
        simp only [List.mem_cons, List.not_mem_nil, or_false] at ha hb
        rcases ha with rfl | rfl <;> rcases hb with rfl | rfl
        · exact absurd rfl hab
        · exact ⟨v, w, List.Perm.refl _⟩
        · exact ⟨w, v, List.Perm.swap _ _ _⟩
        · exact absurd rfl hab
      | _ :: _ :: _ :: _, hp => simpa using hp.length_eq
    rw [ctor_keyword_order kw _ hp' hd, ctor_order_aliases nK mK hnK hmK, ctor_orders_exact] at h
    obtain ⟨m, n, -, -, h0, h1, -, -, rfl⟩ := h
    exact ⟨rfl, rfl, rfl, h0, h1⟩
  · by_cases h1 : ∃ k ∈ osaKeys ++ nollKeys ++ fringeKeys, kw.map Prod.fst = [k]
    · obtain ⟨k, hk, he⟩ := h1
      obtain ⟨v, rfl⟩ : ∃ v, kw = [(k, v)] := by
        match kw, he with
        | [(a, v)], he => exact ⟨v, by simpa using he⟩
      obtain ⟨m, n, hv, hn, f, hf, rfl⟩ := ctor_index_cases k v z h
      exact ⟨rfl, rfl, hf, hv.1, hn⟩
    · rw [ctor_rejects_other_keywords kw hd h2 h1] at h
      cases h

/-- C09. What the object reports: `get_indices` gives `((m, n), osa, noll, fringe)` and `get_mn_orders` gives `(m, n)` with the same orders, the indices are
those of these orders. If the object was constructed from an azimuthal and a radial order (under any of the keywords), `m` is the azimuthal and `n` the
radial one. -/
theorem get_indices_exact (kw : Kwargs) (hd : (kw.map Prod.fst).Nodup) (z : ZernPol) (h : zernPolInit kw = .ok z) :
    ∃ (m n : Int) (f : PyVal), z.getMnOrders = (m, n) ∧ z.getIndices = ((m, n), getOsaIndex m n, getNollIndex m n, f) ∧
      f.num? = some (getFringeIndex m n) ∧ 0 ≤ n ∧ n ≤ 54 ∧
      ∀ nK ∈ radialKeys, ∀ mK ∈ azimuthalKeys, ∀ vn vm, kw = [(nK, vn), (mK, vm)] → vm = .int m ∧ vn.isInt? = some n := by
  obtain ⟨h1, h2, h3, h4, h5⟩ := ctor_consistent kw hd z h
  refine ⟨z.m, z.n, z.fringe, rfl, by simp only [ZernPol.getIndices, h1, h2], h3, h4, h5, ?_⟩
  rintro nK hn mK hm vn vm rfl
  rw [ctor_order_aliases nK mK hn hm, ctor_orders_exact] at h
  obtain ⟨m, n, e1, e2, -, -, -, -, rfl⟩ := h
  exact ⟨e1, e2⟩

example : ∃ z, zernPolInit [("l", .int (-3)), ("radial_order", .int 5)] = .ok z ∧ z.getIndices =
    ((-3, 5), 16, 19, .npInt64 20) := ⟨⟨-3, 5, 16, 19, .npInt64 20⟩, by decide⟩

/-! ## C10: all ways of naming a polynomial agree -/

/-- C10. For every valid `(m, n)` with `n ≤ 54` the four constructions succeed, carry the same orders and (numerically)
the same indices, and compare equal. -/
theorem constructions_agree (m n : Int) (h : ValidOrders m n) (hn : n ≤ 54) :
    ∃ a b c d, zernPolInit [("n", .int n), ("m", .int m)] = .ok a ∧
      zernPolInit [("osa_index", .int (getOsaIndex m n))] = .ok b ∧
      zernPolInit [("noll_index", .int (getNollIndex m n))] = .ok c ∧
      zernPolInit [("fringe_index", .int (getFringeIndex m n))] = .ok d ∧
      (∀ x ∈ [a, b, c, d], x.getMnOrders = (m, n) ∧ x.osa = getOsaIndex m n ∧ x.noll = getNollIndex m n ∧
        x.fringe.num? = some (getFringeIndex m n)) ∧
      (∀ x ∈ [a, b, c, d], ∀ y ∈ [a, b, c, d], x.eq (.zern y) = .ok true) := by
  have hb := osa_block h; have hb' := noll_block h
  have e55 : tri 55 = 1540 := by decide
  have hlt : tri n + n + 1 ≤ 1540 := by rw [← e55]; exact tri_lt h.1 (by omega)
  have h0 := osa_nonneg h; have h1 := noll_pos h
  obtain ⟨m1, n1, hv1, -, he1, hr1⟩ := (ctor_osa_exact (.int (getOsaIndex m n))).1 _ rfl h0 (by omega)
  obtain ⟨m2, n2, hv2, -, he2, hr2⟩ := (ctor_noll_exact (.int (getNollIndex m n))).1 _ rfl h1 (by omega)
  have hi1 := osa_bijOn.injOn (x₁ := (m1, n1)) (x₂ := (m, n)) hv1 h he1
  have hi2 := noll_bijOn.injOn (x₁ := (m2, n2)) (x₂ := (m, n)) hv2 h he2
  simp only [Prod.mk.injEq] at hi1 hi2
  obtain ⟨rfl, rfl⟩ := hi1
  obtain ⟨rfl, rfl⟩ := hi2
  refine ⟨_, _, _, _, ctor_orders_accepts_valid m2 n2 h hn, hr1, hr2,
    (ctor_fringe_exact (.int (getFringeIndex m2 n2))).1 m2 n2 h hn rfl, ?_, ?_⟩
  · simp [ZernPol.getMnOrders, PyVal.num?]
  · simp [ZernPol.eq, PyVal.num?]

example : ValidOrders 2 4 ∧ (4 : Int) ≤ 54 ∧ getOsaIndex 2 4 = 13 ∧ getNollIndex 2 4 = 12 ∧
    getFringeIndex 2 4 = 12 := by decide

/-! ## C12: comparison -/

/-- Objects obtained through the public constructor. -/
def Constructed (z : ZernPol) : Prop := ∃ kw : Kwargs, (kw.map Prod.fst).Nodup ∧ zernPolInit kw = .ok z

/-- C12. `==` holds exactly for equal orders; it is decided without error for any two polynomials. -/
theorem eq_iff_orders (a b : ZernPol) (ha : Constructed a) (hb : Constructed b) :
    a.eq (.zern b) = .ok (decide (a.m = b.m ∧ a.n = b.n)) := by
  obtain ⟨ka, da, ha⟩ := ha; obtain ⟨kb, db, hb⟩ := hb
  obtain ⟨a1, a2, a3, -⟩ := ctor_consistent ka da a ha
  obtain ⟨b1, b2, b3, -⟩ := ctor_consistent kb db b hb
  simp only [ZernPol.eq, a1, a2, a3, b1, b2, b3]
  by_cases h : a.m = b.m ∧ a.n = b.n
  · simp [h.1, h.2]
  · simp only [h, decide_false, Except.ok.injEq]
    by_contra hc
    simp at hc
    exact h ⟨hc.2.1, hc.2.2.1⟩

/-- C12. Comparing with something that is not a polynomial raises `ValueError`. -/
theorem comparison_with_other_type (a : ZernPol) : a.eq .other = .error .valueError ∧ a.gt .other = .error .valueError :=
  ⟨rfl, rfl⟩

/-- C12, partial (valid orders only): exactly one of `a == b`, `a > b`, `b > a` holds, and `>` is the order by
radial, then azimuthal order. -/
theorem comparison_trichotomy_partial (a b : ZernPol) (ha : Constructed a) (hb : Constructed b)
    (hva : ValidOrders a.m a.n) (hvb : ValidOrders b.m b.n) :
    (a.gt (.zern b) = .ok true ↔ b.n < a.n ∨ (b.n = a.n ∧ b.m < a.m)) ∧
    ((a.eq (.zern b) = .ok true ∧ a.gt (.zern b) = .ok false ∧ b.gt (.zern a) = .ok false) ∨
     (a.eq (.zern b) = .ok false ∧ a.gt (.zern b) = .ok true ∧ b.gt (.zern a) = .ok false) ∨
     (a.eq (.zern b) = .ok false ∧ a.gt (.zern b) = .ok false ∧ b.gt (.zern a) = .ok true)) := by
  have he := eq_iff_orders a b ha hb
  obtain ⟨ka, da, ha⟩ := ha; obtain ⟨kb, db, hb⟩ := hb
  obtain ⟨a1, -⟩ := ctor_consistent ka da a ha
  obtain ⟨b1, -⟩ := ctor_consistent kb db b hb
  have o1 := osa_index_order b.m b.n a.m a.n hvb hva
  have o2 := osa_index_order a.m a.n b.m b.n hva hvb
  rw [he]
  simp only [ZernPol.gt, a1, b1, Except.ok.injEq, decide_eq_true_eq, decide_eq_false_iff_not, gt_iff_lt]
  refine ⟨o1, ?_⟩
  rw [o1, o2]
  omega

/-- C12 is false for the invalid orders that the constructor accepts: `ZernPol(m=4, n=2)` and `ZernPol(m=-3, n=3)` are
different, but neither is greater. -/
theorem comparison_trichotomy_fails : ∃ a b, Constructed a ∧ Constructed b ∧
    a.eq (.zern b) = .ok false ∧ a.gt (.zern b) = .ok false ∧ b.gt (.zern a) = .ok false :=
  ⟨⟨4, 2, 6, 8, .npInt64 8⟩, ⟨-3, 3, 6, 9, .npInt64 11⟩,
    ⟨[("n", .int 2), ("m", .int 4)], by decide, by decide⟩, ⟨[("n", .int 3), ("m", .int (-3))], by decide, by decide⟩,
    by decide, by decide, by decide⟩

example : Constructed ⟨0, 2, 4, 4, .npInt64 4⟩ ∧ ValidOrders 0 2 := ⟨⟨[("osa", .int 4)], by decide, by decide +kernel⟩, by decide⟩

/-! ## C13: enumeration -/

theorem genInner_ok (n : Int) (hn0 : 1 ≤ n) (hn : n ≤ 54) (k : Nat) (j : Nat) (acc : List ZernPol)
    (hkj : (j : Int) + k = n + 1) (hf : Filled n acc) (hl : (acc.length : Int) = tri n + j) :
    ∃ acc', genInner n k (-n + 2 * j) acc = .ok acc' ∧ Filled n acc' ∧ (acc'.length : Int) = tri n + n + 1 := by
  induction k generalizing j acc with
  | zero => exact ⟨acc, rfl, hf, by push_cast at hkj; omega⟩
  | succ k ih =>
    have hv : ValidOrders (-n + 2 * j) n := by rw [valid_iff]; push_cast at hkj; omega
    have ha : zernPolInit [("azimuthal_order", .int (-n + 2 * j)), ("radial_order", .int n)] =
        .ok (mkZ (-n + 2 * j) n) := by
      rw [ctor_keyword_order _ [("radial_order", .int n), ("azimuthal_order", .int (-n + 2 * j))]
        (List.Perm.swap _ _ _) (by simp),
        ctor_order_aliases _ _ (by simp [radialKeys]) (by simp [azimuthalKeys]),
        ctor_orders_accepts_valid _ _ hv hn]
      rfl
    have ho := osa_eq hv
    have hf' : Filled n (acc ++ [mkZ (-n + 2 * j) n]) := filled_append hf hv le_rfl (by omega)
    simp only [genInner, ha]
    have := ih (j + 1) (acc ++ [mkZ (-n + 2 * j) n]) (by push_cast at hkj ⊢; omega) hf'
      (by simp; omega)
    rw [show -n + 2 * (j : Int) + 2 = -n + 2 * ((j + 1 : Nat) : Int) by push_cast; ring]
    exact this

theorem genOuter_ok (k order : Nat) (acc : List ZernPol) (ho : 1 ≤ order) (hk : order + k ≤ 55)
    (hf : Filled (order - 1) acc) (hl : (acc.length : Int) = tri order) :
    ∃ acc', genOuter k order acc = .ok acc' ∧ Filled (order + k - 1) acc' ∧
      (acc'.length : Int) = tri (order + k) := by
  induction k generalizing order acc with
  | zero => exact ⟨acc, rfl, by simpa using hf, by simpa using hl⟩
  | succ k ih =>
    obtain ⟨acc1, h1, h2, h3⟩ := genInner_ok order (by omega) (by omega) (order + 1) 0 acc (by push_cast; omega)
      (filled_mono hf (by omega)) (by simpa using hl)
    simp only [Nat.cast_zero, mul_zero, add_zero] at h1
    simp only [genOuter, h1]
    obtain ⟨acc2, g1, g2, g3⟩ := ih (order + 1) acc1 (by omega) (by omega) (by simpa using h2)
      (by push_cast; rw [tri_succ]; exact h3)
    refine ⟨acc2, g1, ?_, ?_⟩
    · convert g2 using 1; push_cast; ring
    · rw [g3]; congr 1; push_cast; ring

theorem genOuter_err (k order : Nat) (acc : List ZernPol) (ho : 1 ≤ order) (ho' : order ≤ 55) (hk : 55 < order + k)
    (hf : Filled (order - 1) acc) (hl : (acc.length : Int) = tri order) :
    genOuter k order acc = .error .valueError := by
  induction k generalizing order acc with
  | zero => omega
  | succ k ih =>
    by_cases h55 : order = 55
    · subst h55
      simp only [genOuter, genInner]
      have : zernPolInit [("azimuthal_order", .int (-((55 : Nat) : Int))), ("radial_order", .int ((55 : Nat) : Int))] =
          .error .valueError := by decide
      rw [this]
    · obtain ⟨acc1, h1, h2, h3⟩ := genInner_ok order (by omega) (by omega) (order + 1) 0 acc (by push_cast; omega)
        (filled_mono hf (by omega)) (by simpa using hl)
      simp only [Nat.cast_zero, mul_zero, add_zero] at h1
      simp only [genOuter, h1]
      exact ih (order + 1) acc1 (by omega) (by omega) (by omega) (by simpa using h2)
        (by push_cast; rw [tri_succ]; exact h3)

theorem gen_init : zernPolInit [("m", .int 0), ("n", .int 0)] = .ok (mkZ 0 0) := by decide

theorem filled_init : Filled 0 [mkZ 0 0] := by
  intro i hi
  have : i = 0 := by simpa using hi
  subst this
  exact ⟨0, 0, rfl, by decide, le_rfl, by decide⟩

/-- C13. For `0 ≤ k ≤ 54` the result has `(k+1)(k+2)/2` elements, element `i` is the polynomial with OSA index `i`
(so there are no duplicates), and every valid polynomial with `n ≤ k` occurs. -/
theorem generate_polynomials_enumerates (k : Int) (h0 : 0 ≤ k) (h1 : k ≤ 54) :
    ∃ l, generatePolynomials k = .ok l ∧ 2 * (l.length : Int) = (k + 1) * (k + 2) ∧
      (∀ i (h : i < l.length), l[i].osa = i ∧ ValidOrders l[i].m l[i].n ∧ l[i].n ≤ k ∧
        l[i].osa = getOsaIndex l[i].m l[i].n) ∧
      (∀ m n, ValidOrders m n → n ≤ k → ∃ z ∈ l, z.m = m ∧ z.n = n) := by
  obtain ⟨l, hl, hf, hlen⟩ := genOuter_ok k.toNat 1 [mkZ 0 0] le_rfl (by omega)
    (by simpa using filled_init) (by decide)
  have hk : ((1 : Nat) : Int) + k.toNat = k + 1 := by omega
  rw [hk] at hlen hf
  have hl2 : 2 * (l.length : Int) = (k + 1) * (k + 2) := by rw [hlen, two_tri]; ring
  refine ⟨l, ?_, hl2, ?_, ?_⟩
  · simp only [generatePolynomials, gen_init]
    rw [if_neg (by omega)]
    exact hl
  · intro i hi
    obtain ⟨m, n, e, hv, hn, ho⟩ := hf i hi
    rw [e]
    exact ⟨ho, hv, by simpa [mkZ] using hn, rfl⟩
  · intro m n hv hn
    have hb := osa_block hv
    have h0' := osa_nonneg hv
    have hlt : getOsaIndex m n < l.length := by
      rw [hlen, tri_succ]
      rcases lt_or_eq_of_le hn with hlt | heq
      · have := tri_lt hv.1 hlt; omega
      · subst heq; omega
    have hi : (getOsaIndex m n).toNat < l.length := by omega
    obtain ⟨m', n', e, hv', hn', ho⟩ := hf _ hi
    have hinj := osa_bijOn.injOn (x₁ := (m', n')) (x₂ := (m, n)) hv' hv (by simp only; omega)
    simp only [Prod.mk.injEq] at hinj
    exact ⟨l[(getOsaIndex m n).toNat], List.getElem_mem _, by rw [e]; exact hinj⟩

/-- C13. `k < 0` and `k > 54` raise `ValueError`. -/
theorem generate_polynomials_rejects (k : Int) (h : k < 0 ∨ 54 < k) :
    generatePolynomials k = .error .valueError := by
  unfold generatePolynomials
  by_cases h0 : k < 0
  · simp [h0]
  · rw [if_neg h0, gen_init]
    exact genOuter_err k.toNat 1 [mkZ 0 0] le_rfl (by omega) (by omega) (by simpa using filled_init) (by decide)

example : ∃ l, generatePolynomials 2 = .ok l ∧ l.map ZernPol.getMnOrders =
    [(0, 0), (-1, 1), (1, 1), (-2, 2), (0, 2), (2, 2)] := ⟨_, rfl, by decide⟩

/-! ## C14: names -/

/-- All valid orders with `n ≤ 7`. -/
def lowOrders : List (Int × Int) :=
  [(0, 0), (-1, 1), (1, 1), (-2, 2), (0, 2), (2, 2), (-3, 3), (-1, 3), (1, 3), (3, 3), (-4, 4), (-2, 4), (0, 4), (2, 4),
   (4, 4), (-5, 5), (-3, 5), (-1, 5), (1, 5), (3, 5), (5, 5), (-6, 6), (-4, 6), (-2, 6), (0, 6), (2, 6), (4, 6), (6, 6),
   (-7, 7), (-5, 7), (-3, 7), (-1, 7), (1, 7), (3, 7), (5, 7), (7, 7)]

theorem mem_lowOrders (m n : Int) (h : ValidOrders m n) (hn : n ≤ 7) : (m, n) ∈ lowOrders := by
  rw [valid_iff] at h
  obtain ⟨h0, h1, h2, h3⟩ := h
  interval_cases n <;> interval_cases m <;> first | decide | (exfalso; omega)

theorem lookup_mem {α β : Type} [BEq α] [LawfulBEq α] (l : List (α × β)) (a : α) (b : β) (h : l.lookup a = some b) :
    (a, b) ∈ l := by
  induction l with
  | nil => simp at h
  | cons x l ih =>
    obtain ⟨c, d⟩ := x
    simp only [List.lookup] at h
    by_cases hac : a == c
    · simp [hac] at h; simp at hac; simp [hac, h]
    · simp [hac] at h; exact List.mem_cons_of_mem _ (ih h)

/-- C14. A polynomial with valid orders has a name (long and short) exactly when `n ≤ 7`. -/
theorem name_exists_iff (z : ZernPol) (h : ValidOrders z.m z.n) (short : Bool) :
    z.getPolynomialName short ≠ "" ↔ z.n ≤ 7 := by
  constructor
  · intro hne
    by_contra hc
    apply hne
    have hk : ∀ t ∈ [polynomialNames, shortPolynomialNames], ∀ e ∈ t, e.1.2 ≤ 7 := by decide +kernel
    have hl : ∀ t ∈ [polynomialNames, shortPolynomialNames], t.lookup (z.m, z.n) = none := by
      intro t ht
      rcases hx : t.lookup (z.m, z.n) with _ | b
      · rfl
      · exact absurd (hk t ht _ (lookup_mem _ _ _ hx)) (by simpa using hc)
    have l1 := hl polynomialNames (by simp)
    have l2 := hl shortPolynomialNames (by simp)
    unfold ZernPol.getPolynomialName
    rw [l1, l2]
    cases short <;> rfl
  · intro hn
    have hm := mem_lowOrders z.m z.n h hn
    have hk : ∀ p ∈ lowOrders, (polynomialNames.lookup p).getD "" ≠ "" ∧
        (shortPolynomialNames.lookup p).getD "" ≠ "" := by decide +kernel
    unfold ZernPol.getPolynomialName
    cases short
    · exact (hk _ hm).1
    · exact (hk _ hm).2

/-- C14. Different named polynomials have different names. -/
theorem name_injective (a b : ZernPol) (ha : ValidOrders a.m a.n) (hb : ValidOrders b.m b.n) (hna : a.n ≤ 7)
    (hnb : b.n ≤ 7) (short : Bool) (h : a.getPolynomialName short = b.getPolynomialName short) :
    a.m = b.m ∧ a.n = b.n := by
  have hma := mem_lowOrders a.m a.n ha hna
  have hmb := mem_lowOrders b.m b.n hb hnb
  have hk : ∀ p ∈ lowOrders, ∀ q ∈ lowOrders,
      ((polynomialNames.lookup p).getD "" = (polynomialNames.lookup q).getD "" → p = q) ∧
      ((shortPolynomialNames.lookup p).getD "" = (shortPolynomialNames.lookup q).getD "" → p = q) := by
    decide +kernel
  have := hk _ hma _ hmb
  unfold ZernPol.getPolynomialName at h
  have hpq : (a.m, a.n) = (b.m, b.n) := by
    cases short
    · exact this.1 h
    · exact this.2 h
  simpa using hpq

/-- C14. `str` gives name and indices exactly for the named polynomials. -/
theorem str_named (z : ZernPol) (h : ValidOrders z.m z.n) :
    (z.n ≤ 7 → z.str = z.getPolynomialName ++ (": n=" ++ toString z.n ++ ", m=" ++ toString z.m ++ ", OSA=" ++
      toString z.osa ++ ", Noll=" ++ toString z.noll ++ ", Fringe=" ++ z.fringe.show)) ∧
    (7 < z.n → z.str = "Zernike polynomial") := by
  have hn := name_exists_iff z h false
  unfold ZernPol.str
  constructor
  · intro h7
    have : (z.getPolynomialName false).length > 0 := by
      rcases Nat.eq_zero_or_pos (z.getPolynomialName false).length with h0 | h0
      · exact absurd (by simpa using h0) (hn.2 h7)
      · exact h0
    simp only [this, if_true]
  · intro h7
    have : z.getPolynomialName false = "" := by
      by_contra hc; have := hn.1 hc; omega
    simp [this]

example : (mkZ 0 4).str = "Primary spherical: n=4, m=0, OSA=12, Noll=11, Fringe=9" ∧
    (mkZ 0 8).str = "Zernike polynomial" := by decide +kernel

end Verif.Props
