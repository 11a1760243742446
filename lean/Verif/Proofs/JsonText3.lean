import Verif.Proofs.JsonText2

/-!
# Lemmas about the documents as texts
-/

namespace Verif.Proofs
open Verif.Model

/-- The value that is read for an entry. -/
def itemValue (N : NumberText) : JsonItem → JVal
  | .kernel g => .arr (g.lists.map fun l => .arr (l.map fun x => .num (N.repr x)))
  | .na x => .num (N.repr x)
  | .wavelength x => .num (N.repr x)
  | .pixelSize x => .num (N.repr x)
  | .kernelSize n => .num (intText n)
  | .pointsR n => .num (intText n)
  | .pointsAngle n => .num (intText n)
  | .coefficient x => .num (N.repr x)
  | .amplitudes l => .arr (l.map fun x => .num (N.repr x))
  | .polynomial i => .num (intText i)
  | .polynomials l => .arr (l.map fun i => .num (intText i))
  | .unknown _ => .num ['0']

/-- All numbers of the entry can be written. -/
def ItemOk (N : NumberText) : JsonItem → Prop
  | .kernel g => ∀ l ∈ g.lists, ∀ x ∈ l, x ∈ N.doubles
  | .na x => x ∈ N.doubles
  | .wavelength x => x ∈ N.doubles
  | .pixelSize x => x ∈ N.doubles
  | .coefficient x => x ∈ N.doubles
  | .amplitudes l => ∀ x ∈ l, x ∈ N.doubles
  | .unknown _ => False
  | _ => True

/-- The entry after writing and reading. -/
def cleanItem : JsonItem → JsonItem
  | .kernel g => .kernel (Grid.ofLists g.lists)
  | x => x

theorem parses_list {α : Type} (l : List α) (t : α → List Char) (h : ∀ x ∈ l, isNumber (t x) = true) :
    List.Forall₂ Parses (l.map t) (l.map fun x => JVal.num (t x)) := by
  induction l with
  | nil => exact .nil
  | cons a l ih => exact .cons (parses_num _ (h a (by simp))) (ih fun x hx => h x (by simp [hx]))

theorem parses_grid (N : NumberText) (l : List (List ℝ)) (h : ∀ r ∈ l, ∀ x ∈ r, x ∈ N.doubles) :
    List.Forall₂ Parses (l.map fun r => arrText (r.map N.repr)) (l.map fun r => JVal.arr (r.map fun x => .num (N.repr x))) := by
  induction l with
  | nil => exact .nil
  | cons a l ih => exact .cons (parses_arr _ _ (parses_list a N.repr fun x hx => N.number x (h a (by simp) x hx))) (ih fun x hx => h x (by simp [hx]))

theorem parses_item (N : NumberText) (x : JsonItem) (h : ItemOk N x) : ParsesMember (x.member N) ((x.member N).1.toList, itemValue N x) := by
  refine ⟨?_, rfl, ?_⟩
  · cases x <;> first | exact absurd h id | (simp only [JsonItem.member, PlainKey]; decide)
  · cases x with
    | kernel g => exact parses_arr _ _ (parses_grid N _ h)
    | na x => exact parses_num _ (N.number x h)
    | wavelength x => exact parses_num _ (N.number x h)
    | pixelSize x => exact parses_num _ (N.number x h)
    | kernelSize n => exact parses_num _ (intText_isNumber n)
    | pointsR n => exact parses_num _ (intText_isNumber n)
    | pointsAngle n => exact parses_num _ (intText_isNumber n)
    | coefficient x => exact parses_num _ (N.number x h)
    | amplitudes l => exact parses_arr _ _ (parses_list l N.repr fun x hx => N.number x (h x hx))
    | polynomial i => exact parses_num _ (intText_isNumber i)
    | polynomials l => exact parses_arr _ _ (parses_list l intText fun x _ => intText_isNumber x)
    | unknown k => exact absurd h id

theorem numTokens_map {α : Type} (l : List α) (t : α → List Char) : numTokens (l.map fun x => JVal.num (t x)) = some (l.map t) := by
  induction l with
  | nil => rfl
  | cons a l ih => simp [numTokens, ih]

theorem rowTokens_map (N : NumberText) (l : List (List ℝ)) :
    rowTokens (l.map fun r => JVal.arr (r.map fun x => .num (N.repr x))) = some (l.map fun r => r.map N.repr) := by
  induction l with
  | nil => rfl
  | cons a l ih => simp [rowTokens, ih, numTokens_map]

theorem values_map (N : NumberText) (l : List ℝ) (h : ∀ x ∈ l, x ∈ N.doubles) : (l.map N.repr).map N.value = l := by
  induction l with
  | nil => rfl
  | cons a l ih => simp only [List.map_cons, N.value_repr a (h a (by simp)), ih fun x hx => h x (by simp [hx])]

theorem rows_map (N : NumberText) (l : List (List ℝ)) (h : ∀ r ∈ l, ∀ x ∈ r, x ∈ N.doubles) :
    (l.map fun r => r.map N.repr).map (fun r => r.map N.value) = l := by
  induction l with
  | nil => rfl
  | cons a l ih =>
    rw [List.map_cons, List.map_cons, values_map N a (h a (by simp)), ih fun x hx => h x (by simp [hx])]

theorem ints_map (l : List Int) : (l.map intText).map intValue = l := by
  induction l with
  | nil => rfl
  | cons a l ih => simp only [List.map_cons, intValue_intText, ih]

theorem readMember_item (N : NumberText) (x : JsonItem) (h : ItemOk N x) : readMember N ((x.member N).1.toList, itemValue N x) = some (cleanItem x) := by
  cases x with
  | kernel g =>
    simp only [readMember, JsonItem.member, itemValue, String.ofList_toList, rowTokens_map, Option.map_some, cleanItem, rows_map N _ h]
  | na x => simp only [readMember, JsonItem.member, itemValue, String.ofList_toList, cleanItem, N.value_repr x h]
  | wavelength x => simp only [readMember, JsonItem.member, itemValue, String.ofList_toList, cleanItem, N.value_repr x h]
  | pixelSize x => simp only [readMember, JsonItem.member, itemValue, String.ofList_toList, cleanItem, N.value_repr x h]
  | kernelSize n => simp only [readMember, JsonItem.member, itemValue, String.ofList_toList, cleanItem, intValue_intText]
  | pointsR n => simp only [readMember, JsonItem.member, itemValue, String.ofList_toList, cleanItem, intValue_intText]
  | pointsAngle n => simp only [readMember, JsonItem.member, itemValue, String.ofList_toList, cleanItem, intValue_intText]
  | coefficient x => simp only [readMember, JsonItem.member, itemValue, String.ofList_toList, cleanItem, N.value_repr x h]
  | amplitudes l =>
    simp only [readMember, JsonItem.member, itemValue, String.ofList_toList, numTokens_map, Option.map_some, cleanItem, values_map N _ h]
  | polynomial i => simp only [readMember, JsonItem.member, itemValue, String.ofList_toList, cleanItem, intValue_intText]
  | polynomials l =>
    simp only [readMember, JsonItem.member, itemValue, String.ofList_toList, numTokens_map, Option.map_some, cleanItem, ints_map]
  | unknown k => exact absurd h id

theorem document_members (N : NumberText) (doc : List JsonItem) (h : ∀ x ∈ doc, ItemOk N x) :
    List.Forall₂ ParsesMember (doc.map (JsonItem.member N)) (doc.map fun x => ((x.member N).1.toList, itemValue N x)) ∧
      readMembers N (doc.map fun x => ((x.member N).1.toList, itemValue N x)) = some (doc.map cleanItem) := by
  induction doc with
  | nil => exact ⟨.nil, rfl⟩
  | cons a l ih =>
    obtain ⟨h1, h2⟩ := ih fun x hx => h x (by simp [hx])
    refine ⟨.cons (parses_item N a (h a (by simp))) h1, ?_⟩
    simp only [List.map_cons, readMembers, readMember_item N a (h a (by simp)), h2, Option.map_some]

theorem scan_document (N : NumberText) (doc : List JsonItem) (h : ∀ x ∈ doc, ItemOk N x) (hne : doc ≠ []) :
    scanValue ((documentText N doc).length + 1) (documentText N doc) = some (.obj (doc.map fun x => ((x.member N).1.toList, itemValue N x)), []) :=
  scan_objText _ _ (document_members N doc h).1 (by simpa using hne)

theorem documentText_head (N : NumberText) (doc : List JsonItem) : ∃ q, documentText N doc = '{' :: q := ⟨_, rfl⟩

theorem foldl_dictPut (l d : List (List Char × JVal)) (h : ((d ++ l).map Prod.fst).Nodup) : l.foldl dictPut d = d ++ l := by
  induction l generalizing d with
  | nil => simp
  | cons a l ih =>
    have ha : a.1 ∉ d.map Prod.fst := by
      rw [List.map_append, List.map_cons, List.nodup_append] at h
      exact fun hm => h.2.2 _ hm _ (by simp) rfl
    rw [List.foldl_cons, dictPut, if_neg ha, ih _ (by simpa using h)]
    simp

/-- Members with different keys are the dictionary. -/
theorem pyDict_nodup (l : List (List Char × JVal)) (h : (l.map Prod.fst).Nodup) : pyDict l = l := by
  unfold pyDict
  rw [foldl_dictPut l [] (by simpa using h), List.nil_append]

theorem document_keys (N : NumberText) (o : PsfObj) (doc : List JsonItem) (hd : o.document = .ok doc) : (doc.map fun x => (x.member N).1.toList).Nodup := by
  unfold PsfObj.document at hd
  cases hz : o.zernpol with
  | some z =>
    rw [hz] at hd
    cases hd
    simp only [List.cons_append, List.nil_append, List.map_cons, List.map_nil, JsonItem.member]
    decide
  | none =>
    rw [hz] at hd
    simp only at hd
    cases hc : o.coefficients with
    | none => rw [hc] at hd; cases hd
    | some cs =>
      rw [hc] at hd
      cases hd
      simp only [List.cons_append, List.nil_append, List.map_cons, List.map_nil, JsonItem.member]
      decide

/-- Reading of the whole text. -/
theorem readText_document (N : NumberText) (t : PsfObj) (doc : List JsonItem) (h : ∀ x ∈ doc, ItemOk N x) (hne : doc ≠ [])
    (hk : (doc.map fun x => (x.member N).1.toList).Nodup) :
    t.readText N (some (documentText N doc)) = t.readJson (some (doc.map cleanItem)) := by
  obtain ⟨q, hq⟩ := documentText_head N doc
  have hsk : skipWs (documentText N doc) = documentText N doc := by rw [hq]; exact skipWs_of_not (by decide)
  have hl : jsonLoad (documentText N doc) = .ok (.obj (doc.map fun x => ((x.member N).1.toList, itemValue N x))) := by
    unfold jsonLoad
    rw [hsk, scan_document N doc h hne]
    rfl
  unfold PsfObj.readText
  simp only [hl, pyDict_nodup (doc.map fun x => ((x.member N).1.toList, itemValue N x)) (by rw [List.map_map]; exact hk), (document_members N doc h).2]

/-- Reading of a part of the text. -/
theorem readText_prefix (N : NumberText) (t : PsfObj) (doc : List JsonItem) (h : ∀ x ∈ doc, ItemOk N x) (hne : doc ≠ []) (p r : List Char)
    (hp : p ++ r = documentText N doc) (hr : r ≠ []) : t.readText N (some p) = (.error .valueError, t) := by
  obtain ⟨q, hq⟩ := documentText_head N doc
  unfold PsfObj.readText
  simp only [jsonLoad_prefix _ p r q hq _ (scan_document N doc h hne) hp hr]

theorem lists_get (g : Grid) (i j : Nat) (hi : i < g.rows) (hj : j < g.cols) : (Grid.ofLists g.lists).entry i j = g.entry i j := by
  simp [Grid.ofLists, Grid.lists, List.getD, hi, hj]

theorem ofLists_rows (g : Grid) : (Grid.ofLists g.lists).rows = g.rows := by simp [Grid.ofLists, Grid.lists]

theorem ofLists_cols (g : Grid) (h : 0 < g.rows) : (Grid.ofLists g.lists).cols = g.cols := by
  obtain ⟨n, hn⟩ : ∃ n, g.rows = n + 1 := ⟨g.rows - 1, by omega⟩
  simp [Grid.ofLists, Grid.lists, hn, List.range_succ_eq_map]

/-! ### Actions on the file system -/

theorem put_all (d : TextDisk) (f name : String) (text l : List Char) :
    let d' := (l.map (DiskAction.put f name)).foldl TextDisk.act (d.setFile f name text)
    d'.isDir = d.isDir ∧ d'.file f name = some (text ++ l) ∧ ∀ f' name', ¬ (f' = f ∧ name' = name) → d'.file f' name' = d.file f' name' := by
  induction l generalizing d text with
  | nil =>
    refine ⟨rfl, by simp [TextDisk.setFile], ?_⟩
    intro f' name' h
    simp only [List.map_nil, List.foldl_nil, TextDisk.setFile]
    by_cases h1 : f' = f
    · subst h1
      rw [Function.update_self, Function.update_of_ne fun h2 => h ⟨rfl, h2⟩]
    · rw [Function.update_of_ne h1]
  | cons c l ih =>
    have e : (d.setFile f name text).act (.put f name c) = (d.setFile f name text).setFile f name (text ++ [c]) := by
      simp [TextDisk.act, TextDisk.setFile]
    have e2 : (d.setFile f name text).setFile f name (text ++ [c]) = d.setFile f name (text ++ [c]) := by
      simp [TextDisk.setFile]
    obtain ⟨h1, h2, h3⟩ := ih d (text ++ [c])
    simp only [List.map_cons, List.foldl_cons, e, e2]
    refine ⟨h1, ?_, h3⟩
    rw [h2]; simp

end Verif.Proofs
