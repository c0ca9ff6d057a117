import Verif.Io.JsonTextLemmas
/-!
# C49: the extra string of a force evaluation

The raw text is kept under `raw` in every extra that is accepted; a driver that sends a JSON object (`json.dumps` of a dictionary) gets all its
fields through (`dumped_extra`), any text that is not JSON is passed as it is (`plain_text_extra`). Accepted are exactly: blank texts, texts that
are not JSON, JSON objects without a field `raw` (`extra_accepted_iff`): the property fails for the rest, `number_extra_fails` etc.
-/
namespace Verif.JsonText
open Verif.Text

/-! ### `dict(pairs)` -/

/-- The value of the last pair with this name. -/
def lastOf (ps : List (Str × JV)) (k : Str) : Option JV := (ps.reverse.find? fun e => e.1 = k).map (·.2)

/-- Look-up in a dictionary. -/
def get (d : List (Str × JV)) (k : Str) : Option JV := (d.find? fun e => e.1 = k).map (·.2)

theorem get_append_not {d : List (Str × JV)} {k j : Str} {v : JV} (h : k ∉ d.map (·.1)) : get (d ++ [(k, v)]) j = if j = k then some v else get d j := by
  unfold get
  rw [List.find?_append]
  by_cases hj : j = k
  · subst hj
    have : d.find? (fun e => decide (e.1 = j)) = none := by
      rw [List.find?_eq_none]
      intro e he
      simp only [decide_eq_true_eq]
      exact fun e' => h (List.mem_map.2 ⟨e, he, e'⟩)
    rw [this, if_pos rfl]
    simp
  · rw [if_neg hj]
    cases hf : d.find? (fun e => decide (e.1 = j)) with
    | some x => rfl
    | none =>
      simp only [Option.none_or]
      rw [List.find?_cons_of_neg (by simpa using fun e => hj e.symm)]
      rfl

theorem get_map {d : List (Str × JV)} {k j : Str} {v : JV} : get (d.map fun e => if e.1 = k then (k, v) else e) j =
    if j = k ∧ k ∈ d.map (·.1) then some v else get d j := by
  induction d with
  | nil => simp [get]
  | cons e d ih =>
    unfold get at ih ⊢
    rw [List.map_cons]
    by_cases he : e.1 = k
    · rw [if_pos he]
      by_cases hj : j = k
      · subst hj
        rw [List.find?_cons_of_pos (by simp), if_pos ⟨rfl, by simp [he]⟩]
        rfl
      · rw [List.find?_cons_of_neg (by simpa using fun e => hj e.symm), ih, if_neg (fun h => hj h.1), if_neg (fun h => hj h.1),
          List.find?_cons_of_neg (by simpa [he] using fun e => hj e.symm)]
    · rw [if_neg he]
      by_cases hj : e.1 = j
      · rw [List.find?_cons_of_pos (by simpa using hj), if_neg (fun h => he (hj.trans h.1)), List.find?_cons_of_pos (by simpa using hj)]
      · rw [List.find?_cons_of_neg (by simpa using hj), ih, List.find?_cons_of_neg (by simpa using hj)]
        have : (k ∈ (e :: d).map (·.1)) ↔ k ∈ d.map (·.1) := by
          simp only [List.map_cons, List.mem_cons]
          exact ⟨fun h => h.resolve_left fun e' => he e'.symm, .inr⟩
        simp only [this]

theorem names_map {d : List (Str × JV)} {k : Str} {v : JV} : (d.map fun e => if e.1 = k then (k, v) else e).map (·.1) = d.map (·.1) := by
  rw [List.map_map]
  apply List.map_congr_left
  intro e _
  simp only [Function.comp]
  split
  · rename_i h; exact h.symm
  · rfl

theorem dictOf_names (ps d : List (Str × JV)) (k : Str) : k ∈ (dictOf ps d).map (·.1) ↔ k ∈ d.map (·.1) ∨ k ∈ ps.map (·.1) := by
  induction ps generalizing d with
  | nil => simp [dictOf]
  | cons p ps ih =>
    obtain ⟨j, v⟩ := p
    rw [dictOf, ih]
    split
    · rename_i hj
      rw [names_map]
      simp only [List.map_cons, List.mem_cons]
      constructor
      · rintro (h | h)
        · exact .inl h
        · exact .inr (.inr h)
      · rintro (h | rfl | h)
        · exact .inl h
        · exact .inl hj
        · exact .inr h
    · simp only [List.map_append, List.map_cons, List.map_nil, List.mem_append, List.mem_cons, List.not_mem_nil, or_false]
      exact or_assoc

theorem dictOf_nodup (ps d : List (Str × JV)) (h : (d.map (·.1)).Nodup) : ((dictOf ps d).map (·.1)).Nodup := by
  induction ps generalizing d with
  | nil => exact h
  | cons p ps ih =>
    obtain ⟨j, v⟩ := p
    rw [dictOf]
    apply ih
    split
    · rw [names_map]; exact h
    · rename_i hj
      rw [List.map_append, List.nodup_append]
      refine ⟨h, by simp, ?_⟩
      intro a ha b hb
      simp only [List.map_cons, List.map_nil, List.mem_singleton] at hb
      subst hb
      exact fun e => hj (e ▸ ha)

theorem get_dictOf (ps d : List (Str × JV)) (k : Str) : get (dictOf ps d) k = (lastOf ps k).or (get d k) := by
  induction ps generalizing d with
  | nil => rfl
  | cons p ps ih =>
    obtain ⟨j, v⟩ := p
    have hl : lastOf ((j, v) :: ps) k = (lastOf ps k).or (if k = j then some v else none) := by
      unfold lastOf
      rw [List.reverse_cons, List.find?_append]
      cases List.find? (fun e => decide (e.1 = k)) ps.reverse with
      | some x => rfl
      | none =>
        by_cases hk : k = j
        · subst hk; simp
        · rw [if_neg hk, List.find?_cons_of_neg (by simpa using fun e => hk e.symm)]; rfl
    have hs : get (if j ∈ d.map (·.1) then d.map fun e => if e.1 = j then (j, v) else e else d ++ [(j, v)]) k = if k = j then some v else get d k := by
      split
      · rename_i hj
        rw [get_map]
        by_cases hk : k = j
        · rw [if_pos ⟨hk, hj⟩, if_pos hk]
        · rw [if_neg (fun h => hk h.1), if_neg hk]
      · rename_i hj
        exact get_append_not hj
    rw [dictOf, ih, hs, hl]
    cases lastOf ps k with
    | some x => rfl
    | none =>
      by_cases hk : k = j
      · rw [if_pos hk, if_pos hk]; rfl
      · rw [if_neg hk, if_neg hk]; rfl

theorem dictOf_distinct (ps d : List (Str × JV)) (h : ((d ++ ps).map (·.1)).Nodup) : dictOf ps d = d ++ ps := by
  induction ps generalizing d with
  | nil => simp [dictOf]
  | cons p ps ih =>
    obtain ⟨j, v⟩ := p
    have hj : j ∉ d.map (·.1) := by
      intro hj
      rw [List.map_append, List.nodup_append] at h
      exact h.2.2 _ hj _ (by simp) rfl
    rw [dictOf, if_neg hj, ih]
    · simp
    · simpa using h

/-! ### C49 -/

/-- A text that contains nothing but white space. -/
def Blank (s : Str) : Prop := ∀ c ∈ s, isWs c = true

theorem all_iff_blank (s : Str) : s.all isWs = true ↔ Blank s := by simp [Blank, List.all_eq_true]

/-- Exactly these extras are accepted: blank texts, texts that are not JSON, and JSON objects without a field `raw`. -/
theorem extra_accepted_iff (s : Str) :
    (∃ d, parseExtra s = .ok d) ↔ Blank s ∨ loads s = none ∨ ∃ ps, loads s = some (.obj ps) ∧ ∀ v, (kRaw, v) ∉ ps := by
  unfold parseExtra
  by_cases hb : s.all isWs = true
  · rw [if_pos hb]
    exact ⟨fun _ => .inl ((all_iff_blank s).1 hb), fun _ => ⟨_, rfl⟩⟩
  rw [if_neg hb]
  have hnb : ¬ Blank s := fun h => hb ((all_iff_blank s).2 h)
  have no : ∀ {e : Err} {d : List (Str × JV)}, ¬ (Except.error e = Except.ok d) := fun h => by cases h
  cases hl : loads s with
  | none => exact ⟨fun _ => .inr (.inl rfl), fun _ => ⟨_, rfl⟩⟩
  | some v =>
    cases v with
    | obj ps =>
      have hm : kRaw ∈ (dictOf ps []).map (·.1) ↔ ∃ v, (kRaw, v) ∈ ps := by
        rw [dictOf_names]
        simp only [List.map_nil, List.not_mem_nil, false_or, List.mem_map]
        constructor
        · rintro ⟨⟨a, v⟩, h, rfl⟩; exact ⟨v, h⟩
        · rintro ⟨v, h⟩; exact ⟨_, h, rfl⟩
      by_cases hk : kRaw ∈ (dictOf ps []).map (·.1)
      · simp only [if_pos hk]
        constructor
        · rintro ⟨d, h⟩; cases h
        · rintro (h | h | ⟨ps', h, h'⟩)
          · exact absurd h hnb
          · cases h
          · simp only [Option.some.injEq, JV.obj.injEq] at h
            subst h
            obtain ⟨v, hv⟩ := hm.1 hk
            exact absurd hv (h' v)
      · simp only [if_neg hk]
        exact ⟨fun _ => .inr (.inr ⟨ps, rfl, fun v hv => hk (hm.2 ⟨v, hv⟩)⟩), fun _ => ⟨_, rfl⟩⟩
    | _ =>
      refine ⟨?_, ?_⟩
      · rintro ⟨d, h⟩
        simp only [] at h
        first
          | cases h
          | (split at h <;> cases h)
      · rintro (h | h | ⟨ps, h, _⟩)
        · exact absurd h hnb
        · cases h
        · cases h

/-- **Blank extras** give an empty dictionary. -/
theorem blank_extra {s : Str} (h : Blank s) : parseExtra s = .ok [] := by
  unfold parseExtra
  rw [if_pos ((all_iff_blank s).2 h)]

/-- **Texts that are not JSON** are passed as they are. -/
theorem plain_text_extra {s : Str} (h : ¬ Blank s) (hl : loads s = none) : parseExtra s = .ok [(kRaw, .str s)] := by
  unfold parseExtra
  rw [if_neg (fun e => h ((all_iff_blank s).1 e)), hl]

/-- **Nothing is lost**: an accepted extra that is not blank has the whole text as `raw`, and, when it is JSON, every field of the object with the
last value given for it; there are no other fields and no field twice. -/
theorem extra_contents {s : Str} {d : List (Str × JV)} (hs : ¬ Blank s) (h : parseExtra s = .ok d) :
    get d kRaw = some (.str s) ∧ (d.map (·.1)).Nodup ∧
    ∀ k, k ≠ kRaw → get d k = match loads s with
      | some (.obj ps) => lastOf ps k
      | _ => none := by
  have hb : ¬ s.all isWs = true := fun e => hs ((all_iff_blank s).1 e)
  unfold parseExtra at h
  rw [if_neg hb] at h
  cases hl : loads s with
  | none =>
    rw [hl] at h
    simp only [Except.ok.injEq] at h
    subst h
    refine ⟨by simp [get], by simp, ?_⟩
    intro k hk
    simp [get, Ne.symm hk]
  | some v =>
    rw [hl] at h
    cases v with
    | obj ps =>
      simp only [] at h ⊢
      by_cases hk : kRaw ∈ (dictOf ps []).map (·.1)
      · rw [if_pos hk] at h; cases h
      rw [if_neg hk] at h
      simp only [Except.ok.injEq] at h
      subst h
      refine ⟨?_, ?_, ?_⟩
      · rw [get_append_not hk, if_pos rfl]
      · rw [List.map_append, List.nodup_append]
        refine ⟨dictOf_nodup ps [] (by simp), by simp, ?_⟩
        intro a ha b hb'
        simp only [List.map_cons, List.map_nil, List.mem_singleton] at hb'
        subst hb'
        exact fun e => hk (e ▸ ha)
      · intro k hne
        rw [get_append_not hk, if_neg hne, get_dictOf]
        simp [get]
    | _ =>
      simp only [] at h
      first
        | cases h
        | (split at h <;> cases h)

/-- **A driver that sends `json.dumps(d)`** gets all its fields through, in order, followed by the text itself. -/
theorem dumped_extra {d : List (Str × JV)} (hn : (d.map (·.1)).Nodup) (hr : kRaw ∉ d.map (·.1)) (hv : ∀ e ∈ d, Ok e.2) :
    parseExtra (dumps (.obj d)) = .ok (d ++ [(kRaw, .str (dumps (.obj d)))]) := by
  have hok : Ok (.obj d) := by
    have : ∀ l : List (Str × JV), (∀ e ∈ l, Ok e.2) → OkD l := by
      intro l
      induction l with
      | nil => intro _; exact trivial
      | cons p l ih =>
        obtain ⟨k, v⟩ := p
        intro h
        exact ⟨h (k, v) List.mem_cons_self, ih fun e he => h e (List.mem_cons_of_mem _ he)⟩
    exact this d hv
  have hb : ¬ (dumps (.obj d)).all isWs = true := by
    cases d with
    | nil => decide
    | cons p d =>
      obtain ⟨k, v⟩ := p
      simp only [dumps, List.all_cons]
      have : isWs '{' = false := by decide
      simp [this]
  have hd : dictOf d [] = d := by
    have := dictOf_distinct d [] (by simpa using hn)
    simpa using this
  unfold parseExtra
  rw [if_neg hb, loads_dumps _ hok]
  simp only [hd, if_neg hr]

/-! ### the rest is rejected, in the thread that polls the drivers -/

def isErr : Except Err (List (Str × JV)) → Option Err
  | .error e => some e
  | .ok _ => none

/-- A number. -/
theorem number_extra_fails : isErr (parseExtra "0.5".toList) = some .typeError := by decide +kernel

/-- A list. -/
theorem list_extra_fails : isErr (parseExtra "[1, 2]".toList) = some .typeError := by decide +kernel

/-- A field named `raw`. -/
theorem raw_field_fails : isErr (parseExtra "{\"raw\": 1}".toList) = some .valueError := by decide +kernel

/-- The property "every text is accepted" is false. -/
theorem some_extra_fails : ¬ ∀ s, ∃ d, parseExtra s = .ok d := by
  intro h
  obtain ⟨d, hd⟩ := h "0.5".toList
  have := number_extra_fails
  rw [hd] at this
  cases this

/-! ### the theorems are not vacuous -/

/-- Digest of a dictionary. -/
def digest (r : Except Err (List (Str × JV))) : List (Str × Str) :=
  match r with
  | .ok d => d.map fun e => (e.1, match e.2 with | .str s => s | v => dumps v)
  | .error _ => []

example : digest (parseExtra "{\"dipole\": [0.1, -2e3, 0], \"q\": \"\\u00e9\"} ".toList) =
    [("dipole".toList, "[0.1, -2e3, 0]".toList), ("q".toList, "é".toList), (kRaw, "{\"dipole\": [0.1, -2e3, 0], \"q\": \"\\u00e9\"} ".toList)] := by decide +kernel
example : digest (parseExtra "virial ok".toList) = [(kRaw, "virial ok".toList)] := by decide +kernel
example : NumOk "-12.5e-3".toList := .neg (t := "12.5e-3".toList) (by decide +kernel)
example : Ok (.obj [("a".toList, .arr [.num (showInt (-3)), .null, .bool true]), ("b".toList, .str "x\"\\y".toList)]) :=
  ⟨⟨numOk_showInt _, trivial, trivial, trivial⟩, trivial, trivial⟩

end Verif.JsonText
