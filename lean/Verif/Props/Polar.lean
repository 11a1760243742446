import Verif.Props.Sums

/-!
# C24: generated polar coordinates, and the surfaces computed on them
-/

namespace Verif.Props
open Verif.Model Verif.Spec Verif.Proofs

/-- A list covers `[0, L]`: it starts at 0, ends exactly at `L`, is strictly increasing and its neighbours are at most `s` apart. -/
structure Covers (l : List ℝ) (L s : ℝ) : Prop where
  starts : l.head? = some 0
  ends : l.getLast? = some L
  increasing : l.Pairwise (· < ·)
  dense : ∀ i (h : i + 1 < l.length), l[i + 1] - l[i] ≤ s

theorem Covers.mem {l : List ℝ} {L s : ℝ} (h : Covers l L s) : l ≠ [] ∧ ∀ x ∈ l, 0 ≤ x ∧ x ≤ L := by
  have h0 := h.starts
  have h1 := h.ends
  have h2 := h.increasing
  have hne : l ≠ [] := by rintro rfl; simp at h0
  refine ⟨hne, fun x hx => ⟨?_, ?_⟩⟩
  · obtain ⟨a, t, rfl⟩ := List.exists_cons_of_ne_nil hne
    simp only [List.head?_cons, Option.some.injEq] at h0
    subst h0
    rcases List.mem_cons.1 hx with rfl | hx
    · exact le_rfl
    · exact ((List.pairwise_cons.1 h2).1 x hx).le
  · obtain ⟨t, a, rfl⟩ : ∃ t a, l = t ++ [a] := ⟨_, _, (List.dropLast_append_getLast hne).symm⟩
    simp only [List.getLast?_append, List.getLast?_singleton, Option.or_some, Option.some.injEq, Option.getD_some] at h1
    rw [List.pairwise_append] at h2
    rcases List.mem_append.1 hx with hx | hx
    · have := h2.2.2 x hx a (by simp)
      simp at h1; linarith
    · simp at hx h1; linarith

/-- The code of both vectors. -/
noncomputable def polarVector (L s : ℝ) : Res (List ℝ) := npArange (L + s) s >>= clipLast L

theorem ceil_add_step (L s : ℝ) (hs : 0 < s) (hL : 0 < L) : ⌈(L + s) / s⌉.toNat = ⌈L / s⌉.toNat + 1 := by
  rw [add_div, div_self hs.ne', Int.ceil_add_one]
  have : 0 ≤ ⌈L / s⌉ := Int.ceil_nonneg (by positivity)
  omega

theorem polarVector_pos (L s : ℝ) (hs : 0 < s) (hL : 0 < L) : ∃ l, polarVector L s = .ok l ∧ Covers l L s := by
  set K := ⌈L / s⌉.toNat with hK
  have hc0 : (0 : ℤ) < ⌈L / s⌉ := Int.ceil_pos.2 (by positivity)
  have hK0 : 0 < K := by omega
  have hKc : ((K : ℕ) : ℝ) = (⌈L / s⌉ : ℝ) := by
    have : (K : ℤ) = ⌈L / s⌉ := by omega
    exact_mod_cast this
  have hge : L ≤ K * s := by
    rw [hKc]; have := Int.le_ceil (L / s); rwa [div_le_iff₀ hs] at this
  have hlt : ((K : ℝ) - 1) * s < L := by
    rw [hKc]; have := Int.ceil_lt_add_one (L / s)
    have : (⌈L / s⌉ : ℝ) - 1 < L / s := by linarith
    rwa [lt_div_iff₀ hs] at this
  have ear : npArange (L + s) s = .ok ((List.range (K + 1)).map fun (i : Nat) => (i : ℝ) * s) := by
    unfold npArange; rw [if_neg hs.ne', ceil_add_step L s hs hL]
  -- the clipped vector
  set l := (List.range K).map (fun (i : Nat) => (i : ℝ) * s) ++ [L] with hl
  have ecl : clipLast L ((List.range (K + 1)).map fun (i : Nat) => (i : ℝ) * s) = .ok l := by
    unfold clipLast
    rw [List.range_succ, List.map_append]
    simp only [List.map_cons, List.map_nil, List.getLast?_append, List.getLast?_singleton, Option.some_or]
    congr 1
    split_ifs with h
    · rw [List.set_append]
      simp [hl]
    · have : (K : ℝ) * s = L := le_antisymm (not_lt.1 h) hge
      rw [hl, this]
  refine ⟨l, ?_, ?_⟩
  · unfold polarVector; rw [ear]; exact ecl
  · have hlen : l.length = K + 1 := by simp [hl]
    have hget : ∀ i (hi : i < K), l[i]'(by omega) = (i : ℝ) * s := by
      intro i hi; simp only [hl]; rw [List.getElem_append_left (by simpa using hi)]; simp
    have hlast : l[K]'(by omega) = L := by
      simp [hl]
    refine ⟨?_, by simp [hl], ?_, ?_⟩
    · rw [List.head?_eq_getElem?, List.getElem?_eq_getElem (by omega), hget 0 hK0]; simp
    · rw [hl, List.pairwise_append]
      refine ⟨?_, by simp, ?_⟩
      · rw [List.pairwise_map]
        exact List.Pairwise.imp (fun {a b} (h : a < b) => by
          have : (a : ℝ) < b := by exact_mod_cast h
          nlinarith) List.pairwise_lt_range
      · intro x hx y hy
        simp only [List.mem_singleton] at hy; subst hy
        obtain ⟨i, hi, rfl⟩ := List.mem_map.1 hx
        have hi : i + 1 ≤ K := by simpa using hi
        have : (i : ℝ) + 1 ≤ K := by exact_mod_cast hi
        nlinarith
    · intro i hi
      rcases Nat.lt_or_ge (i + 1) K with h | h
      · rw [hget _ h, hget _ (by omega)]; push_cast; linarith
      · have e : i + 1 = K := by omega
        have : l[i + 1]'(by omega) = L := by simp only [e]; exact hlast
        rw [this, hget i (by omega)]
        have : ((i : ℝ) + 1) = K := by exact_mod_cast e
        have : (i : ℝ) = K - 1 := by linarith
        rw [this]; linarith

theorem polarVector_zero (L : ℝ) : polarVector L 0 = .error .zeroDivisionError := by
  unfold polarVector npArange; rw [if_pos rfl]; rfl

theorem polarVector_neg (L s : ℝ) (hs : s < 0) (hL : -L ≤ s) : polarVector L s = .error .indexError := by
  unfold polarVector npArange; rw [if_neg hs.ne]
  have : ⌈(L + s) / s⌉.toNat = 0 := by
    have : ⌈(L + s) / s⌉ ≤ 0 := Int.ceil_le.2 (by push_cast; exact div_nonpos_of_nonneg_of_nonpos (by linarith) hs.le)
    omega
  rw [this]; rfl

theorem polarVector_very_neg (L s : ℝ) (hL : 0 < L) (hs : s < -L) : polarVector L s = .ok [0] := by
  unfold polarVector npArange; rw [if_neg (by linarith : s ≠ 0)]
  have h1 : ⌈(L + s) / s⌉ = 1 := by
    rw [Int.ceil_eq_iff]; push_cast
    constructor
    · have : 0 < (L + s) / s := div_pos_of_neg_of_neg (by linarith) (by linarith)
      linarith
    · rw [div_le_one_of_neg (by linarith)]; linarith
  rw [h1]
  show clipLast L [((0 : Nat) : ℝ) * s] = _
  simp [clipLast, hL.le]

theorem gen_polar_eq (a b : ℝ) : genPolarCoordinates a b = (do
    let rs ← npArange (1 + a) a
    let ts ← npArange (2 * Real.pi + b) b
    let rs ← clipLast 1 rs
    let ts ← clipLast (2 * Real.pi) ts
    pure (rs, ts)) := by
  unfold genPolarCoordinates
  rw [if_neg (by intro h; norm_num at h; linarith [h.1, h.2]), if_neg (by intro h; linarith [h.1, h.2, Real.pi_pos])]

/-- C24. For every positive steps (in particular for all documented ones) the radii cover `[0, 1]` and the angles `[0, 2π]`. -/
theorem gen_polar_covers (rStep thetaStep : ℝ) (hr : 0 < rStep) (ht : 0 < thetaStep) :
    ∃ rs ts, genPolarCoordinates rStep thetaStep = .ok (rs, ts) ∧ Covers rs 1 rStep ∧ Covers ts (2 * Real.pi) thetaStep := by
  obtain ⟨rs, h1, h2⟩ := polarVector_pos 1 rStep hr one_pos
  obtain ⟨ts, h3, h4⟩ := polarVector_pos (2 * Real.pi) thetaStep ht Real.two_pi_pos
  refine ⟨rs, ts, ?_, h2, h4⟩
  rw [gen_polar_eq]
  unfold polarVector at h1 h3
  cases ha : npArange (1 + rStep) rStep with
  | error e => rw [ha] at h1; cases h1
  | ok a =>
    cases hb : npArange (2 * Real.pi + thetaStep) thetaStep with
    | error e => rw [hb] at h3; cases h3
    | ok b =>
      rw [ha] at h1; rw [hb] at h3
      have h1 : clipLast 1 a = .ok rs := h1
      have h3 : clipLast (2 * Real.pi) b = .ok ts := h3
      show (do let rs ← clipLast 1 a; let ts ← clipLast (2 * Real.pi) b; pure (rs, ts)) = _
      rw [h1, h3]; rfl

example : ∃ l, Covers l 1 (3 / 10) := ⟨_, (polarVector_pos 1 (3 / 10) (by norm_num) one_pos).choose_spec.2⟩

/-- C24: all points of the grid are on the unit disk. -/
theorem gen_polar_on_disk (rStep thetaStep : ℝ) (hr : 0 < rStep) (ht : 0 < thetaStep) :
    ∃ rs ts, genPolarCoordinates rStep thetaStep = .ok (rs, ts) ∧ rs ≠ [] ∧ ts ≠ [] ∧ (∀ x ∈ rs, 0 ≤ x ∧ x ≤ 1) ∧
      ∀ y ∈ ts, 0 ≤ y ∧ y ≤ 2 * Real.pi := by
  obtain ⟨rs, ts, h1, h2, h3⟩ := gen_polar_covers rStep thetaStep hr ht
  exact ⟨rs, ts, h1, h2.mem.1, h3.mem.1, h2.mem.2, h3.mem.2⟩

/-- C24 is false as far as the rejection is concerned: the checks of the steps can never fire. No step whatsoever gives the documented
`ValueError`. -/
theorem gen_polar_never_valueError (rStep thetaStep : ℝ) : genPolarCoordinates rStep thetaStep ≠ .error .valueError := by
  rw [gen_polar_eq]
  have hA : ∀ x y, (∃ l, npArange x y = .ok l) ∨ npArange x y = .error .zeroDivisionError := by
    intro x y; unfold npArange; split_ifs
    · exact Or.inr rfl
    · exact Or.inl ⟨_, rfl⟩
  have hC : ∀ x l, (∃ l', clipLast x l = .ok l') ∨ clipLast x l = .error .indexError := by
    intro x l; unfold clipLast
    cases l.getLast? with
    | none => exact Or.inr rfl
    | some v => exact Or.inl ⟨_, rfl⟩
  rcases hA (1 + rStep) rStep with ⟨a, ha⟩ | ha
  · rw [ha]
    rcases hA (2 * Real.pi + thetaStep) thetaStep with ⟨b, hb⟩ | hb
    · rw [hb]
      show (do let rs ← clipLast 1 a; let ts ← clipLast (2 * Real.pi) b; pure (rs, ts)) ≠ Except.error PyErr.valueError
      rcases hC 1 a with ⟨c, hc⟩ | hc
      · rw [hc]
        rcases hC (2 * Real.pi) b with ⟨d, hd⟩ | hd
        · rw [hd]; intro h; cases h
        · rw [hd]; intro h; cases h
      · rw [hc]; intro h; cases h
    · rw [hb]; intro h; cases h
  · rw [ha]; intro h; cases h

/-- What happens instead for radial steps outside the documented range `(0, 0.5]`: too large steps give a vector, a zero step a
`ZeroDivisionError`, a small negative step an `IndexError`, a large negative step the vector `[0.0]`, that misses the whole disk. -/
theorem gen_polar_bad_steps (s t : ℝ) (ht : 0 < t) :
    (0.5 < s → ∃ rs ts, genPolarCoordinates s t = .ok (rs, ts)) ∧
    (s = 0 → genPolarCoordinates s t = .error .zeroDivisionError) ∧
    (-1 ≤ s → s < 0 → genPolarCoordinates s t = .error .indexError) ∧
    (s < -1 → ∃ ts, genPolarCoordinates s t = .ok ([0], ts)) := by
  obtain ⟨ts, h3, h4⟩ := polarVector_pos (2 * Real.pi) t ht Real.two_pi_pos
  have hb : ∃ b, npArange (2 * Real.pi + t) t = .ok b ∧ clipLast (2 * Real.pi) b = .ok ts := by
    unfold polarVector at h3
    cases hb : npArange (2 * Real.pi + t) t with
    | error e => rw [hb] at h3; cases h3
    | ok b => rw [hb] at h3; exact ⟨b, rfl, h3⟩
  obtain ⟨b, hb1, hb2⟩ := hb
  have sA : s ≠ 0 → ∃ a, npArange (1 + s) s = .ok a := by
    intro h; unfold npArange; rw [if_neg h]; exact ⟨_, rfl⟩
  refine ⟨fun h => ?_, ?_, fun h1 h2 => ?_, fun h => ?_⟩
  · obtain ⟨rs, ts, h1, _⟩ := gen_polar_covers s t (by norm_num at h; linarith) ht
    exact ⟨rs, ts, h1⟩
  · rintro rfl
    rw [gen_polar_eq]
    have : npArange (1 + 0) 0 = .error .zeroDivisionError := by unfold npArange; rw [if_pos rfl]
    rw [this]; rfl
  · obtain ⟨a, ha⟩ := sA h2.ne
    have := polarVector_neg 1 s h2 h1
    unfold polarVector at this
    rw [ha] at this
    have this : clipLast 1 a = _ := this
    rw [gen_polar_eq, ha, hb1]
    show (do let rs ← clipLast 1 a; let ts ← clipLast (2 * Real.pi) b; pure (rs, ts)) = Except.error PyErr.indexError
    rw [this]; rfl
  · obtain ⟨a, ha⟩ := sA (by linarith)
    have := polarVector_very_neg 1 s one_pos h
    unfold polarVector at this
    rw [ha] at this
    have this : clipLast 1 a = _ := this
    refine ⟨ts, ?_⟩
    rw [gen_polar_eq, ha, hb1]
    show (do let rs ← clipLast 1 a; let ts ← clipLast (2 * Real.pi) b; pure (rs, ts)) = _
    rw [this, hb2]; rfl

theorem linspace_covers (L : ℝ) (hL : 0 < L) (n : Nat) (hn : 2 ≤ n) : Covers (npLinspace0 L n) L (L / ((n : ℝ) - 1)) := by
  have hn' : (0 : ℝ) < (n : ℝ) - 1 := by
    have : (2 : ℝ) ≤ n := by exact_mod_cast hn
    linarith
  have hs : 0 < L / ((n : ℝ) - 1) := by positivity
  unfold npLinspace0
  refine ⟨?_, ?_, ?_, ?_⟩
  · rw [List.head?_map, List.head?_range, if_neg (by omega)]; simp
  · rw [List.getLast?_map, List.getLast?_range, if_neg (by omega)]
    simp only [Option.map_some, Option.some.injEq]
    rw [Nat.cast_sub (by omega)]; push_cast
    field_simp
  · rw [List.pairwise_map]
    exact List.Pairwise.imp (fun {a b} (h : a < b) => by
      have : (a : ℝ) < b := by exact_mod_cast h
      exact mul_lt_mul_of_pos_right this hs) List.pairwise_lt_range
  · intro i hi
    simp only [List.getElem_map, List.getElem_range]
    push_cast; linarith

/-- C24. The equal mesh: `max n 4` radii and as many angles, covering the disk with equal steps. -/
theorem gen_equal_mesh_covers (n : Int) :
    (genEqualPolarMesh n).1.length = (max n 4).toNat ∧ (genEqualPolarMesh n).2.length = (max n 4).toNat ∧
    Covers (genEqualPolarMesh n).1 1 (1 / (((max n 4 : Int) : ℝ) - 1)) ∧
    Covers (genEqualPolarMesh n).2 (2 * Real.pi) (2 * Real.pi / (((max n 4 : Int) : ℝ) - 1)) := by
  have e : (if n < 4 then 4 else n).toNat = (max n 4).toNat := by
    split_ifs <;> congr 1 <;> omega
  have e' : (((max n 4).toNat : ℕ) : ℝ) = ((max n 4 : Int) : ℝ) := by
    have : (((max n 4).toNat : ℕ) : ℤ) = max n 4 := by omega
    exact_mod_cast this
  unfold genEqualPolarMesh
  rw [e]
  refine ⟨by simp [npLinspace0], by simp [npLinspace0], ?_, ?_⟩
  · rw [← e']; exact linspace_covers 1 one_pos _ (by omega)
  · rw [← e']; exact linspace_covers _ Real.two_pi_pos _ (by omega)

/-- C23/C24. `gen_zernikes_surface` returns covering radii and angles and the surface of the linear combination on them. -/
theorem gen_surface (h : List Call) (fuel : Nat) (cs : List ℝ) (os : List PolObj) (hl : cs.length = os.length)
    (h0 : os ≠ []) (hv : PolsOk fuel os) (rStep thetaStep : ℝ) (hr : 0 < rStep) (ht : 0 < thetaStep) (equalN : Bool) (n : Int) :
    ∃ g rs ts, (genZernikesSurface fuel cs (os.map .pol) rStep thetaStep equalN n (afterCalls h)).1 = .ok (.surface g, rs, ts) ∧
      IsSurface g rs ts (combination cs (ordersOf os)) ∧
      (∃ s, Covers rs 1 s) ∧ ∃ s, Covers ts (2 * Real.pi) s := by
  obtain ⟨rs, ts, h1, h2, h3⟩ : ∃ rs ts, (if equalN then Except.ok (genEqualPolarMesh n) else genPolarCoordinates rStep thetaStep) =
      (Except.ok (rs, ts) : Res _) ∧ (∃ s, Covers rs 1 s) ∧ ∃ s, Covers ts (2 * Real.pi) s := by
    cases equalN with
    | false =>
      obtain ⟨rs, ts, h1, h2, h3⟩ := gen_polar_covers rStep thetaStep hr ht
      exact ⟨rs, ts, h1, ⟨_, h2⟩, ⟨_, h3⟩⟩
    | true =>
      obtain ⟨_, _, h2, h3⟩ := gen_equal_mesh_covers n
      exact ⟨_, _, rfl, ⟨_, h2⟩, ⟨_, h3⟩⟩
  obtain ⟨s1, c1⟩ := h2
  obtain ⟨s2, c2⟩ := h3
  obtain ⟨g, hg, hsurf⟩ := sum_surface h fuel cs os hl h0 hv rs ts c1.mem.1 c2.mem.1 c1.mem.2 rs.length ts.length
  refine ⟨g, rs, ts, ?_, hsurf, ⟨s1, c1⟩, ⟨s2, c2⟩⟩
  unfold genZernikesSurface
  rw [h1]
  simp only [cm_bind, CM.lift]
  rcases hc : sumZernikes fuel cs (os.map .pol) (.arr [rs.length] rs) (.arr [ts.length] ts) true (afterCalls h) with ⟨x, s⟩
  rw [hc] at hg
  simp only at hg
  subst hg
  rfl

end Verif.Props
