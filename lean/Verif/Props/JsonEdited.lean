import Verif.Props.JsonGrammar
import Verif.Props.JsonFile

/-!
# C122: calibration files edited by hand: other order, other entries, repeated keys
-/

namespace Verif.Props
open Verif.Model Verif.Spec Verif.Proofs

theorem mem_jsonKeys (k : String) : k ∈ jsonKeys ↔ k ∈ calibrationKeys := by
  simp only [jsonKeys, calibrationKeys, List.mem_cons, List.not_mem_nil, or_false]
  tauto

theorem readMember_unknown (N : NumberText) (kv : List Char × JVal) (h : String.ofList kv.1 ∉ jsonKeys) : readMember N kv = some (.unknown (String.ofList kv.1)) := by
  unfold readMember
  split <;> first
    | (rename_i e _; exact absurd e (fun e => h (by rw [e]; decide)))
    | exact if_neg h

theorem readMembers_map (N : NumberText) (f : List Char × JVal → JsonItem) (l : List (List Char × JVal)) (h : ∀ kv ∈ l, readMember N kv = some (f kv)) :
    readMembers N l = some (l.map f) := by
  induction l with
  | nil => rfl
  | cons a l ih => simp only [readMembers, h a (by simp), ih fun kv hk => h kv (by simp [hk]), Option.map_some, List.map_cons]

theorem filter_dictPut (p : List Char → Bool) (d : List (List Char × JVal)) (kv : List Char × JVal) :
    (dictPut d kv).filter (fun e => p e.1) = if p kv.1 then dictPut (d.filter fun e => p e.1) kv else d.filter fun e => p e.1 := by
  have hmap : ∀ d : List (List Char × JVal), (d.map fun e => if e.1 = kv.1 then kv else e).filter (fun e => p e.1) =
      (d.filter fun e => p e.1).map fun e => if e.1 = kv.1 then kv else e := by
    intro d
    induction d with
    | nil => rfl
    | cons a l ih =>
      have hp : p (if a.1 = kv.1 then kv else a).1 = p a.1 := by
        by_cases h : a.1 = kv.1
        · rw [if_pos h, h]
        · rw [if_neg h]
      rw [List.map_cons, List.filter_cons, List.filter_cons, hp, ih]
      split <;> rfl
  unfold dictPut
  by_cases hk : p kv.1 = true
  · rw [if_pos hk]
    have hiff : kv.1 ∈ d.map Prod.fst ↔ kv.1 ∈ (d.filter fun e => p e.1).map Prod.fst := by
      simp only [List.mem_map, List.mem_filter]
      constructor
      · rintro ⟨a, ha, e⟩; exact ⟨a, ⟨ha, by rw [e]; exact hk⟩, e⟩
      · rintro ⟨a, ⟨ha, _⟩, e⟩; exact ⟨a, ha, e⟩
    by_cases hm : kv.1 ∈ d.map Prod.fst
    · rw [if_pos hm, if_pos (hiff.1 hm), hmap]
    · rw [if_neg hm, if_neg fun h => hm (hiff.2 h), List.filter_append]
      simp [hk]
  · rw [if_neg hk]
    by_cases hm : kv.1 ∈ d.map Prod.fst
    · rw [if_pos hm, hmap]
      conv_rhs => rw [← List.map_id (d.filter fun e => p e.1)]
      apply List.map_congr_left
      intro e he
      rw [if_neg]
      · rfl
      · intro h
        have := (List.mem_filter.1 he).2
        rw [h] at this
        exact hk this
    · rw [if_neg hm, List.filter_append]
      simp [hk]

theorem filter_foldl_dictPut (p : List Char → Bool) (l d : List (List Char × JVal)) :
    (l.foldl dictPut d).filter (fun e => p e.1) = (l.filter fun e => p e.1).foldl dictPut (d.filter fun e => p e.1) := by
  induction l generalizing d with
  | nil => rfl
  | cons a l ih =>
    rw [List.foldl_cons, ih, filter_dictPut, List.filter_cons]
    split <;> rfl

theorem filter_pyDict (p : List Char → Bool) (l : List (List Char × JVal)) (h : ((l.filter fun e => p e.1).map Prod.fst).Nodup) :
    (pyDict l).filter (fun e => p e.1) = l.filter fun e => p e.1 := by
  unfold pyDict
  rw [filter_foldl_dictPut]
  exact pyDict_nodup _ h

/-- A document that is read is read in every other order, with entries under other keys. -/
theorem reordered_same (t t' : PsfObj) (doc doc' : List JsonItem) (keys : List String) (ho : Once doc) (hperm : (doc ++ keys.map JsonItem.unknown).Perm doc')
    (h : t.readJson (some doc) = (.ok (), t')) : t.readJson (some doc') = (.ok (), t') := by
  have hk : ∀ l : List String, t.readJson (some (doc ++ l.map .unknown)) = t.readJson (some doc) := by
    intro l
    induction l with
    | nil => simp
    | cons k l ih => exact (read_ignores_unknown t doc (l.map .unknown) k).1.trans ih
  have ho' : Once (doc ++ keys.map .unknown) := by
    have : (keys.map JsonItem.unknown).filterMap slot = ([] : List Quantity) := by
      rw [List.filterMap_eq_nil_iff]
      intro x hx
      obtain ⟨k, _, rfl⟩ := List.mem_map.1 hx
      rfl
    unfold Once at *
    rw [List.filterMap_append, this, List.append_nil]
    exact ho
  obtain ⟨_, _, q3⟩ := read_order_irrelevant t _ _ hperm ho'
  rw [hk keys, h] at q3
  exact (q3 rfl).symm

theorem member_known (N : NumberText) (x : JsonItem) (h : ItemOk N x) : (x.member N).1 ∈ jsonKeys := by
  cases x <;> first | exact absurd h id | (simp only [JsonItem.member]; decide)

/-- A saved calibration is an object of JSON with nine entries of different names; every file with the same entries under the names of a calibration, in any order and with any layout, and with any values under
any other names (repeated or not) among them, restores the calibration in every object. -/
theorem edited_file_restores (N : NumberText) (o : PsfObj) (s : CoefState) (hr : PsfReachable o s) (hp : ∀ z ∈ psfPols o, Constructed z ∧ ValidOrders z.m z.n)
    (hphys : PhysicalOk o.NA o.wavelength o.pixelSize) (hN : FiniteNumbers N o) (doc : List JsonItem) (hd : o.document = .ok doc) :
    ∃ members, JsonText (.obj members) (documentText N doc) ∧ members.length = 9 ∧ (members.map Prod.fst).Nodup ∧
      (∀ kv ∈ members, String.ofList kv.1 ∈ calibrationKeys) ∧ ∀ (text : List Char) (edited : List (List Char × JVal)) (t : PsfObj), JsonText (.obj edited) text →
      (edited.filter fun kv => String.ofList kv.1 ∈ calibrationKeys).Perm members → ∃ t', t.readText N (some text) = (.ok (), t') ∧ RestoredFrom o t' := by
  obtain ⟨h1, h2, h3⟩ := document_ok N o hN doc hd
  obtain ⟨q, hq⟩ := documentText_head N doc
  have hsk : skipWs (documentText N doc) = documentText N doc := by rw [hq]; exact skipWs_of_not (by decide)
  have hl : jsonLoad (documentText N doc) = .ok (.obj (doc.map fun x => ((x.member N).1.toList, itemValue N x))) := by
    unfold jsonLoad
    rw [hsk, scan_document N doc h1 h2]
    rfl
  refine ⟨_, (JsonGrammar.load_iff _ _).1 hl, ?_, by rw [List.map_map]; exact document_keys N o doc hd, ?_, ?_⟩
  · rw [List.length_map]
    unfold PsfObj.document at hd
    cases hz : o.zernpol with
    | some z => rw [hz] at hd; cases hd; rfl
    | none =>
      rw [hz] at hd
      simp only at hd
      cases hc : o.coefficients with
      | none => rw [hc] at hd; cases hd
      | some cs => rw [hc] at hd; cases hd; rfl
  · intro kv hkv
    obtain ⟨x, hx, rfl⟩ := List.mem_map.1 hkv
    simp only [String.ofList_toList]
    exact (mem_jsonKeys _).1 (member_known N x (h1 x hx))
  intro text edited t ht hperm
  have hread := readText_restores N o s hr hp hphys hN doc hd t
  rw [readText_document N t doc h1 h2 (document_keys N o doc hd)] at hread
  obtain ⟨t', e, hres⟩ := hread
  refine ⟨t', ?_, hres⟩
  have hkeys : (edited.filter fun kv => decide (String.ofList kv.1 ∈ calibrationKeys)).map Prod.fst |>.Nodup := by
    rw [(hperm.map Prod.fst).nodup_iff, List.map_map]
    exact document_keys N o doc hd
  have hfil := filter_pyDict (fun k => decide (String.ofList k ∈ calibrationKeys)) edited hkeys
  have hf : ∀ kv ∈ pyDict edited, readMember N kv = some ((readMember N kv).getD (.unknown "")) := by
    intro kv hkv
    by_cases hk : String.ofList kv.1 ∈ calibrationKeys
    · have : kv ∈ doc.map fun x => ((x.member N).1.toList, itemValue N x) := by
        rw [← hperm.mem_iff, ← hfil]
        exact List.mem_filter.2 ⟨hkv, by simpa using hk⟩
      obtain ⟨x, hx, rfl⟩ := List.mem_map.1 this
      rw [readMember_item N x (h1 x hx)]
      rfl
    · rw [readMember_unknown N kv fun h => hk ((mem_jsonKeys _).1 h)]
      rfl
  unfold PsfObj.readText
  simp only [(JsonGrammar.load_iff text _).2 ht, readMembers_map N _ _ hf]
  have hclean : (doc.map fun x => ((x.member N).1.toList, itemValue N x)).map (fun kv => (readMember N kv).getD (.unknown "")) = doc.map cleanItem := by
    rw [List.map_map]
    apply List.map_congr_left
    intro x hx
    simp only [Function.comp_apply, readMember_item N x (h1 x hx), Option.getD_some]
  have hunk : ((pyDict edited).filter fun kv => !decide (String.ofList kv.1 ∈ calibrationKeys)).map (fun kv => (readMember N kv).getD (.unknown "")) =
      (((pyDict edited).filter fun kv => !decide (String.ofList kv.1 ∈ calibrationKeys)).map fun kv => String.ofList kv.1).map .unknown := by
    rw [List.map_map]
    apply List.map_congr_left
    intro kv hkv
    have hk : String.ofList kv.1 ∉ calibrationKeys := by simpa using (List.mem_filter.1 hkv).2
    simp only [Function.comp_apply, readMember_unknown N kv fun h => hk ((mem_jsonKeys _).1 h), Option.getD_some]
  refine reordered_same t t' (doc.map cleanItem) _
    (((pyDict edited).filter fun kv => !decide (String.ofList kv.1 ∈ calibrationKeys)).map fun kv => String.ofList kv.1) (saved_file_complete _ _ h3).1 ?_ e
  rw [← hclean, ← hunk]
  refine List.Perm.trans (List.Perm.append_right _ (hperm.symm.map _)) ?_
  rw [← hfil, ← List.map_append]
  exact (List.filter_append_perm (fun kv => decide (String.ofList kv.1 ∈ calibrationKeys)) (pyDict edited)).map _

/-! ### Repeated keys -/

theorem keys_dictPut (d : List (List Char × JVal)) (kv : List Char × JVal) (k : List Char) : k ∈ (dictPut d kv).map Prod.fst ↔ k ∈ d.map Prod.fst ∨ k = kv.1 := by
  unfold dictPut
  by_cases hm : kv.1 ∈ d.map Prod.fst
  · rw [if_pos hm, List.map_map]
    have : d.map (Prod.fst ∘ fun e => if e.1 = kv.1 then kv else e) = d.map Prod.fst := by
      apply List.map_congr_left
      intro e _
      simp only [Function.comp_apply]
      by_cases h : e.1 = kv.1
      · rw [if_pos h, h]
      · rw [if_neg h]
    rw [this]
    constructor
    · exact .inl
    · rintro (h | rfl)
      · exact h
      · exact hm
  · rw [if_neg hm]; simp [or_comm]

theorem put_mem {d : List (List Char × JVal)} {kv : List Char × JVal} (h : kv.1 ∈ d.map Prod.fst) : dictPut d kv = d.map fun e => if e.1 = kv.1 then kv else e := if_pos h

theorem put_new {d : List (List Char × JVal)} {kv : List Char × JVal} (h : kv.1 ∉ d.map Prod.fst) : dictPut d kv = d ++ [kv] := if_neg h

theorem put_same (d : List (List Char × JVal)) (k : List Char) (v v' : JVal) : dictPut (dictPut d (k, v)) (k, v') = dictPut d (k, v') := by
  rw [put_mem (kv := (k, v')) ((keys_dictPut d (k, v) k).2 (.inr rfl))]
  by_cases hm : k ∈ d.map Prod.fst
  · rw [put_mem (kv := (k, v)) hm, put_mem (kv := (k, v')) hm, List.map_map]
    apply List.map_congr_left
    intro e _
    simp only [Function.comp_apply]
    by_cases h : e.1 = k <;> simp [h]
  · rw [put_new (kv := (k, v)) hm, put_new (kv := (k, v')) hm, List.map_append]
    congr 1
    · conv_rhs => rw [← List.map_id d]
      apply List.map_congr_left
      intro e he
      rw [if_neg fun h => hm (List.mem_map.2 ⟨e, he, h⟩)]
      rfl
    · simp

theorem put_comm (d : List (List Char × JVal)) (k : List Char) (v : JVal) (kv : List Char × JVal) (hk : k ∈ d.map Prod.fst) (hne : k ≠ kv.1) :
    dictPut (dictPut d kv) (k, v) = dictPut (dictPut d (k, v)) kv := by
  have h3 : kv.1 ∈ (dictPut d (k, v)).map Prod.fst ↔ kv.1 ∈ d.map Prod.fst := by
    rw [keys_dictPut]
    exact ⟨fun h => h.resolve_right fun h => hne h.symm, .inl⟩
  rw [put_mem (d := dictPut d kv) (kv := (k, v)) ((keys_dictPut d kv k).2 (.inl hk))]
  by_cases hm : kv.1 ∈ d.map Prod.fst
  · rw [put_mem (h3.2 hm), put_mem hm, put_mem (kv := (k, v)) hk, List.map_map, List.map_map]
    apply List.map_congr_left
    intro e _
    simp only [Function.comp_apply]
    by_cases ha : e.1 = kv.1
    · have hb : e.1 ≠ k := fun h => hne (h.symm.trans ha)
      rw [if_pos ha, if_neg fun h => hne h.symm, if_neg hb, if_pos ha]
    · by_cases hb : e.1 = k
      · rw [if_neg ha, if_pos hb, if_neg hne]
      · rw [if_neg ha, if_neg hb, if_neg ha]
  · rw [put_new fun h => hm (h3.1 h), put_new hm, put_mem (kv := (k, v)) hk, List.map_append]
    congr 1
    simp only [List.map_cons, List.map_nil, List.cons.injEq, and_true]
    exact if_neg fun h => hne h.symm

theorem foldl_put (b d : List (List Char × JVal)) (k : List Char) (v : JVal) (hk : k ∈ d.map Prod.fst) (hb : k ∉ b.map Prod.fst) :
    dictPut (b.foldl dictPut d) (k, v) = b.foldl dictPut (dictPut d (k, v)) := by
  induction b generalizing d with
  | nil => rfl
  | cons a l ih =>
    rw [List.foldl_cons, List.foldl_cons, ih _ ((keys_dictPut d a k).2 (.inl hk)) fun h => hb (by simp only [List.map_cons, List.mem_cons]; exact .inr h),
      put_comm d k v a hk fun h => hb (by simp [h])]

/-- If a key is repeated in the file, the earlier value does not matter: the file does to every object what the file with the later value in the earlier place does. -/
theorem repeated_key_last_wins (N : NumberText) (t : PsfObj) (a b c : List (List Char × JVal)) (k : List Char) (v v' : JVal) (text text' : List Char)
    (hb : k ∉ b.map Prod.fst) (h : JsonText (.obj (a ++ (k, v) :: b ++ (k, v') :: c)) text) (h' : JsonText (.obj (a ++ (k, v') :: b ++ c)) text') :
    t.readText N (some text) = t.readText N (some text') := by
  have e : pyDict (a ++ (k, v) :: b ++ (k, v') :: c) = pyDict (a ++ (k, v') :: b ++ c) := by
    unfold pyDict
    rw [List.foldl_append, List.foldl_append, List.foldl_cons, List.foldl_cons, List.foldl_append, List.foldl_append, List.foldl_cons,
      foldl_put b _ k v' ((keys_dictPut _ _ _).2 (.inr rfl)) hb, put_same]
  unfold PsfObj.readText
  simp only [(JsonGrammar.load_iff text _).2 h, (JsonGrammar.load_iff text' _).2 h', e]

/-- The hypotheses about edited files are met: an entry `"Comment":null` before the entries of a saved calibration (those of C77 meet the other hypotheses). -/
example (N : NumberText) (o : PsfObj) (s : CoefState) (hr : PsfReachable o s) (hp : ∀ z ∈ psfPols o, Constructed z ∧ ValidOrders z.m z.n)
    (hphys : PhysicalOk o.NA o.wavelength o.pixelSize) (hN : FiniteNumbers N o) (doc : List JsonItem) (hd : o.document = .ok doc) (t : PsfObj) :
    ∃ rest t', t.readText N (some ('{' :: (['"', 'C', 'o', 'm', 'm', 'e', 'n', 't', '"', ':', 'n', 'u', 'l', 'l', ','] ++ rest))) = (.ok (), t') ∧ RestoredFrom o t' := by
  obtain ⟨members, ⟨w₁, u, w₂, _, _, hu, _⟩, hlen, _, hk, h⟩ := edited_file_restores N o s hr hp hphys hN doc hd
  cases hu with
  | obj0 hw => simp at hlen
  | @obj _ tt hm =>
    have hfil : (((['C', 'o', 'm', 'm', 'e', 'n', 't'], JVal.lit ['n', 'u', 'l', 'l']) :: members).filter fun kv => String.ofList kv.1 ∈ calibrationKeys) = members := by
      rw [List.filter_cons_of_neg (by rw [show String.ofList (['C', 'o', 'm', 'm', 'e', 'n', 't'], JVal.lit ['n', 'u', 'l', 'l']).1 = "Comment" from rfl]; decide), List.filter_eq_self]
      intro kv hkv
      exact decide_eq_true (hk kv hkv)
    have hw : White [] := by simp [White]
    obtain ⟨t', e, hres⟩ := h ('{' :: (['"', 'C', 'o', 'm', 'm', 'e', 'n', 't', '"', ':', 'n', 'u', 'l', 'l', ','] ++ (tt ++ ['}']))) ((['C', 'o', 'm', 'm', 'e', 'n', 't'], JVal.lit ['n', 'u', 'l', 'l']) :: members) t
      ⟨[], _, [], hw, hw, .obj (.more (k := ['C', 'o', 'm', 'm', 'e', 'n', 't']) (v := .lit ['n', 'u', 'l', 'l']) (t := ['n', 'u', 'l', 'l']) hw (JsonGrammar.plain_string (by decide)) hw hw
        (.lit (by unfold Literal; decide)) hw hm), by simp⟩ (by rw [hfil])
    exact ⟨_, t', e, hres⟩

/-- A file with `"NA"` given twice is the file with the second value. -/
example (N : NumberText) (t : PsfObj) : t.readText N (some ['{', '"', 'N', 'A', '"', ':', '1', ',', '"', 'X', '"', ':', '2', ',', '"', 'N', 'A', '"', ':', '3', '}']) = t.readText N (some ['{', '"', 'N', 'A', '"', ':', '3', ',', '"', 'X', '"', ':', '2', '}']) := by
  have hw : White [] := by simp [White]
  have hd : ∀ c, c.isDigit = true → c ≠ '0' → ValueText (.num [c]) [c] := fun c h h0 =>
    .num ⟨[], [c], [], [], rfl, by simp, .inr ⟨by simp [h0], by simp [Digits, h]⟩, by simp, by simp⟩
  have p1 : StringText ['N', 'A'] ['N', 'A'] := JsonGrammar.plain_string (by decide)
  have p2 : StringText ['X'] ['X'] := JsonGrammar.plain_string (by decide)
  have d1 := hd '1' rfl (by decide)
  have d2 := hd '2' rfl (by decide)
  have d3 := hd '3' rfl (by decide)
  exact repeated_key_last_wins N t [] [(['X'], .num ['2'])] [] ['N', 'A'] (.num ['1']) (.num ['3']) _ _ (by simp)
    ⟨[], _, [], hw, hw, .obj (.more hw p1 hw hw d1 hw (.more hw p2 hw hw d2 hw (.one hw p1 hw hw d3 hw))), rfl⟩
    ⟨[], _, [], hw, hw, .obj (.more hw p1 hw hw d3 hw (.one hw p2 hw hw d2 hw)), rfl⟩

end Verif.Props
