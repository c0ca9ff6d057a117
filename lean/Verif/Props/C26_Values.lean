import Verif.Io.ValuesLemmas
/-!
# C26: values survive a write and a read

Booleans, integers, tuples of integers and arrays of integers, booleans and printed numbers of any length are read back as they were
written, whatever the indentation. Strings are read back up to surrounding white space. A dictionary obtained by reading survives further
writes and reads. Arrays of strings survive when no element has surrounding blanks or quotes, a comma or a closing bracket, and none is
empty; each of these exceptions is real.
-/
namespace Verif.Values
open Verif.Text

theorem bool_round_trip (b : Bool) : readBool (writeBool b) = some b := by cases b <;> decide +kernel

theorem int_round_trip (i : Int) : parseInt (showInt i) = some i := parseInt_showInt i

theorem string_round_trip (s : Str) : readStr (writeStr s) = strip s ∧ (strip s = s → readStr (writeStr s) = s) := by
  have : readStr (writeStr s) = strip s := stripP_idem isWs s
  exact ⟨this, fun h => this.trans h⟩

/-- A printed number is read as the number that was printed: sign, nine digits and exponent. -/
theorem float_text_round_trip (d : Dec) (hm : d.m < 10 ^ 9) : readFloat (showDec d) = some (d.neg, d.m, d.e - 8) := by
  have h : strip (showDec d) = (if d.neg then ['-'] else []) ++ showU d := by
    refine strip_showDec rfl ?_ d
    rintro c (h | rfl | rfl | rfl | rfl)
    · exact isDigit_not_ws h
    all_goals rfl
  have h2 := readFloat_signed d
  have hs := stripP_idem isWs (showDec d)
  unfold readFloat at h2 ⊢
  rw [Nat.mod_eq_of_lt hm] at h2
  rw [← h] at h2
  rw [show strip (strip (showDec d)) = strip (showDec d) from hs] at h2
  exact h2

theorem showInt_listable {d2 : Char} (hd : isDigit d2 = false) (hm : d2 ≠ '-') (d1 : Char) (is : List Int) :
    Listable d1 d2 listStrip (is.map showInt) := by
  refine listable_of commaStrip_listStrip ?_ ?_ ?_
  · intro w hw
    obtain ⟨i, _, rfl⟩ := List.mem_map.1 hw
    exact showInt_notMem rfl (by decide) i
  · intro w hw
    obtain ⟨i, _, rfl⟩ := List.mem_map.1 hw
    exact showInt_notMem hd hm i
  · intro w hw
    obtain ⟨i, _, rfl⟩ := List.mem_map.1 hw
    rw [stripP_of_all (showInt_no_strip i)]
    exact showInt_ne_nil i

theorem strip_showInt (i : Int) : parseInt (stripP listStrip (showInt i)) = some i := by
  rw [stripP_of_all (showInt_no_strip i)]; exact parseInt_showInt i

theorem tuple_round_trip (is : List Int) : readTuple (writeTuple is) = some is := by
  unfold readTuple writeTuple
  rw [readList_writeList (by decide) rfl rfl (by decide) (showInt_listable rfl (by decide) '(' is)]
  exact readAll_map strip_showInt is

/-- Arrays of any kind of element, given that its printed form has no separator and is not blank, and is read back when trimmed. -/
theorem array_round_trip {V : Type} {rd : Str → Option V} {wr : V → Str} {indent : Str} (hi : ∀ c ∈ indent, c = ' ') {vs : List V}
    (hl : Listable '[' ']' listStrip (vs.map wr)) (h : ∀ v, rd (stripP listStrip (wr v)) = some v) :
    readArray rd (writeArray indent (vs.map wr)) = some vs := by
  unfold readArray
  rw [readList_writeArray hi hl]
  exact readAll_map h vs

theorem int_array_round_trip {indent : Str} (hi : ∀ c ∈ indent, c = ' ') (is : List Int) :
    readArray parseInt (writeArray indent (is.map showInt)) = some is :=
  array_round_trip hi (showInt_listable rfl (by decide) '[' is) strip_showInt

theorem bool_array_round_trip {indent : Str} (hi : ∀ c ∈ indent, c = ' ') (bs : List Bool) :
    readArray readBool (writeArray indent (bs.map writeBool)) = some bs := by
  refine array_round_trip hi (listable_of commaStrip_listStrip ?_ ?_ ?_) ?_
  · intro w hw; obtain ⟨b, _, rfl⟩ := List.mem_map.1 hw; cases b <;> decide +kernel
  · intro w hw; obtain ⟨b, _, rfl⟩ := List.mem_map.1 hw; cases b <;> decide +kernel
  · intro w hw; obtain ⟨b, _, rfl⟩ := List.mem_map.1 hw; cases b <;> decide +kernel
  · intro b; cases b <;> decide +kernel

theorem listStrip_number (c : Char) (h : isDigit c = true ∨ c = '.' ∨ c = 'e' ∨ c = '-' ∨ c = '+') : listStrip c = false := by
  rcases h with h | rfl | rfl | rfl | rfl
  · exact isDigit_not_listStrip h
  all_goals rfl

theorem float_array_round_trip {indent : Str} (hi : ∀ c ∈ indent, c = ' ') (ds : List Dec) (hm : ∀ d ∈ ds, d.m < 10 ^ 9) :
    readArray readFloat (writeArray indent (ds.map showDec)) = some (ds.map fun d => (d.neg, d.m, d.e - 8)) := by
  have hno : ∀ x : Char, isDigit x = false → x ≠ ' ' → x ≠ '.' → x ≠ 'e' → x ≠ '-' → x ≠ '+' → ∀ d, x ∉ showDec d := by
    intro x h0 h1 h2 h3 h4 h5 d hx
    rcases showDec_chars d x hx with h | h | h | h | h | h
    · exact h1 h
    · rw [h] at h0; cases h0
    · exact h2 h
    · exact h3 h
    · exact h4 h
    · exact h5 h
  unfold readArray
  rw [readList_writeArray hi (listable_of commaStrip_listStrip ?_ ?_ ?_)]
  · simp only [Option.bind_some]
    induction ds with
    | nil => rfl
    | cons d ds ih =>
      simp only [List.map_cons, readAll]
      rw [ih fun x hx => hm x (List.mem_cons_of_mem _ hx), strip_showDec rfl listStrip_number, readFloat_signed,
        Nat.mod_eq_of_lt (hm d List.mem_cons_self)]
  · intro w hw; obtain ⟨d, _, rfl⟩ := List.mem_map.1 hw
    exact hno _ rfl (by decide) (by decide) (by decide) (by decide) (by decide) d
  · intro w hw; obtain ⟨d, _, rfl⟩ := List.mem_map.1 hw
    exact hno _ rfl (by decide) (by decide) (by decide) (by decide) (by decide) d
  · intro w hw; obtain ⟨d, _, rfl⟩ := List.mem_map.1 hw
    rw [strip_showDec rfl listStrip_number]
    intro h
    have := congrArg List.length h
    simp [showU] at this

/-- A string that survives as an array element. -/
structure PlainElement (s : Str) : Prop where
  nonempty : s ≠ []
  trimmed : stripP listStrip s = s ∧ strip s = s
  comma : ',' ∉ s
  bracket : ']' ∉ s

/-- Arrays of strings, e.g. the names of the atoms (missing: elements that are not plain, see the counterexamples below). -/
theorem string_array_partial {indent : Str} (hi : ∀ c ∈ indent, c = ' ') (ss : List Str) (h : ∀ s ∈ ss, PlainElement s) :
    readArray (fun s => some (readStr s)) (writeArray indent (ss.map writeStr)) = some ss := by
  have e : ss.map writeStr = ss := by
    have : ss.map writeStr = ss.map id := List.map_congr_left fun s hs => (h s hs).trimmed.2
    rw [this, List.map_id]
  rw [e]
  unfold readArray
  rw [readList_writeArray hi (listable_of commaStrip_listStrip (fun s hs => (h s hs).comma) (fun s hs => (h s hs).bracket) (fun s hs => by
    rw [(h s hs).trimmed.1]; exact (h s hs).nonempty))]
  simp only [Option.bind_some]
  clear e
  induction ss with
  | nil => rfl
  | cons s ss ih =>
    simp only [List.map_cons, readAll]
    rw [ih fun x hx => h x (List.mem_cons_of_mem _ hx), (h s List.mem_cons_self).trimmed.1]
    show some (strip s :: ss) = _
    rw [(h s List.mem_cons_self).trimmed.2]

example : PlainElement "O".toList := ⟨by decide, by decide +kernel, by decide +kernel, by decide +kernel⟩

/-- Quotes around an element are lost: an atom named `C5'` comes back as `C5`. -/
theorem quote_lost : readArray (fun s => some (readStr s)) (writeArray [] (["C5'".toList, "O".toList].map writeStr)) = some ["C5".toList, "O".toList] := by
  decide +kernel

/-- A trailing empty string is lost. -/
theorem trailing_empty_lost : readArray (fun s => some (readStr s)) (writeArray [] (["O".toList, []].map writeStr)) = some ["O".toList] := by
  decide +kernel

/-- A comma inside an element splits it, a closing bracket ends the list. -/
theorem comma_splits : readArray (fun s => some (readStr s)) (writeArray [] (["a,b".toList].map writeStr)) = some ["a".toList, "b".toList] := by
  decide +kernel
theorem bracket_ends : readArray (fun s => some (readStr s)) (writeArray [] (["a]".toList, "b".toList].map writeStr)) = some ["a".toList] := by
  decide +kernel

/-! ### dictionaries -/

/-- What is assumed of python's conversion of floats: what `str` prints is read back exactly by `float()`, is not an integer literal,
has no separator and no blank around it; and `float()` rejects `True` and `False`. -/
structure FloatOk {F : Type} (ft : FloatText F) : Prop where
  back : ∀ x, ft.parse (ft.show_ x) = some x
  notInt : ∀ x, parseInt (ft.show_ x) = none
  plain : ∀ x, ∀ c ∈ ft.show_ x, c ≠ ',' ∧ c ≠ '}' ∧ isWs c = false
  bools : ft.parse "True".toList = none ∧ ft.parse "False".toList = none

/-- A value that `read_value` gives back when it is printed. -/
def ValOk {F : Type} (ft : FloatText F) (v : Val F) : Prop :=
  ∀ s, strip s = strip (showVal ft v) → readValue ft s = v

/-- A dictionary that survives. -/
structure DictOk {F : Type} (ft : FloatText F) (d : List (Str × Val F)) : Prop where
  keys : (d.map (·.1)).Nodup
  key : ∀ e ∈ d, stripP dictStrip e.1 = e.1 ∧ ',' ∉ e.1 ∧ '}' ∉ e.1 ∧ ':' ∉ e.1
  val : ∀ e ∈ d, ValOk ft e.2 ∧ ',' ∉ showVal ft e.2 ∧ '}' ∉ showVal ft e.2

theorem readValue_eq {F : Type} (ft : FloatText F) {s t : Str} (h : strip s = strip t) : readValue ft s = readValue ft t := by
  unfold readValue; rw [h]

theorem lower_ne_nil {s t : Str} (h : s.map lowerC = t) (ht : t ≠ []) : s ≠ [] := by
  intro e; subst e; exact ht h.symm

/-- Whatever `read_value` returns is printed in a form it reads back as the same value. -/
theorem value_stable {F : Type} {ft : FloatText F} (hf : FloatOk ft) (s : Str) : ValOk ft (readValue ft s) := by
  intro t ht
  rw [readValue_eq ft ht]
  generalize hv : readValue ft s = v
  unfold readValue at hv
  dsimp only at hv
  split at hv
  · subst hv
    simp only [showVal]
    unfold readValue
    dsimp only
    have hs : strip (showInt _) = showInt ‹Int› := strip_self_of_all fun c hc => by
      rcases showInt_chars _ c hc with h | rfl
      · exact isDigit_not_ws h
      · rfl
    rw [hs, parseInt_showInt]
  · rename_i hi
    split at hv
    · rename_i x hx
      subst hv
      simp only [showVal]
      unfold readValue
      dsimp only
      rw [show strip (ft.show_ x) = ft.show_ x from strip_self_of_all fun c hc => (hf.plain x c hc).2.2, hf.notInt, hf.back]
    · rename_i hx
      split at hv
      · subst hv
        have h1 : strip "False".toList = "False".toList := by decide +kernel
        have h2 : parseInt "False".toList = none := by decide +kernel
        unfold readValue showVal
        dsimp only
        rw [h1, h2, hf.bools.2]
        rfl
      · rename_i hnf
        split at hv
        · subst hv
          have h1 : strip "True".toList = "True".toList := by decide +kernel
          have h2 : parseInt "True".toList = none := by decide +kernel
          unfold readValue showVal
          dsimp only
          rw [h1, h2, hf.bools.1]
          rfl
        · rename_i hnt
          subst hv
          simp only [showVal]
          unfold readValue
          dsimp only
          rw [show strip (strip s) = strip s from stripP_idem isWs s, hi, hx]
          simp only
          rw [if_neg hnf, if_neg hnt]

theorem showVal_read_mem {F : Type} {ft : FloatText F} (hf : FloatOk ft) {s : Str} {x : Char} (hx : x = ',' ∨ x = '}') (h : x ∉ s) :
    x ∉ showVal ft (readValue ft s) := by
  unfold readValue
  dsimp only
  split
  · simp only [showVal]
    rcases hx with rfl | rfl
    · exact showInt_notMem rfl (by decide) _
    · exact showInt_notMem rfl (by decide) _
  · split
    · simp only [showVal]
      intro hm
      rcases hx with rfl | rfl
      · exact (hf.plain _ _ hm).1 rfl
      · exact (hf.plain _ _ hm).2.1 rfl
    · split
      · simp only [showVal]; rcases hx with rfl | rfl <;> decide +kernel
      · split
        · simp only [showVal]; rcases hx with rfl | rfl <;> decide +kernel
        · simp only [showVal]
          exact fun hm => h (mem_of_mem_stripP hm)

theorem insert_ok {F : Type} {ft : FloatText F} {d : List (Str × Val F)} (h : DictOk ft d) {k : Str} {v : Val F}
    (hk : stripP dictStrip k = k ∧ ',' ∉ k ∧ '}' ∉ k ∧ ':' ∉ k) (hv : ValOk ft v ∧ ',' ∉ showVal ft v ∧ '}' ∉ showVal ft v) : DictOk ft (insert d k v) := by
  unfold insert
  split
  · rename_i hm
    have e : (d.map fun e => if e.1 = k then (k, v) else e).map (·.1) = d.map (·.1) := by
      rw [List.map_map]
      apply List.map_congr_left
      intro e _
      simp only [Function.comp]
      split
      · rename_i h; exact h.symm
      · rfl
    refine ⟨by rw [e]; exact h.keys, ?_, ?_⟩
    · intro e he
      obtain ⟨e', he', rfl⟩ := List.mem_map.1 he
      split
      · exact hk
      · exact h.key e' he'
    · intro e he
      obtain ⟨e', he', rfl⟩ := List.mem_map.1 he
      split
      · exact hv
      · exact h.val e' he'
  · rename_i hm
    refine ⟨?_, ?_, ?_⟩
    · rw [List.map_append, List.nodup_append]
      refine ⟨h.keys, by simp, ?_⟩
      intro a ha b hb
      simp only [List.map_cons, List.map_nil, List.mem_singleton] at hb
      subst hb
      exact fun e => hm (e ▸ ha)
    · intro e he
      rcases List.mem_append.1 he with he | he
      · exact h.key e he
      · rw [List.mem_singleton.1 he]; exact hk
    · intro e he
      rcases List.mem_append.1 he with he | he
      · exact h.val e he
      · rw [List.mem_singleton.1 he]; exact hv

theorem readItems_ok {F : Type} {ft : FloatText F} (hf : FloatOk ft) : ∀ (ss : List Str) (d d' : List (Str × Val F)),
    (∀ w ∈ ss, ',' ∉ w ∧ '}' ∉ w) → DictOk ft d → readItems ft ss d = some d' → DictOk ft d' := by
  intro ss
  induction ss with
  | nil => intro d d' _ h e; simp only [readItems, Option.some.injEq] at e; exact e ▸ h
  | cons s ss ih =>
    intro d d' hs h e
    simp only [readItems] at e
    split at e
    · cases e
    · rename_i k v hp
      have hm := partition_mem hp
      have hs0 := hs s List.mem_cons_self
      refine ih _ _ (fun w hw => hs w (List.mem_cons_of_mem _ hw)) (insert_ok h ?_ ?_) e
      · exact ⟨stripP_idem _ _, fun h => hs0.1 (hm.2.1 _ (mem_of_mem_stripP h)), fun h => hs0.2 (hm.2.1 _ (mem_of_mem_stripP h)),
          fun h => hm.1 (mem_of_mem_stripP h)⟩
      · exact ⟨value_stable hf _, showVal_read_mem hf (.inl rfl) fun h => hs0.1 (hm.2.2 _ rfl _ (mem_of_mem_stripP h)),
          showVal_read_mem hf (.inr rfl) fun h => hs0.2 (hm.2.2 _ rfl _ (mem_of_mem_stripP h))⟩

/-- What reading yields is a dictionary that survives. -/
theorem readDict_ok {F : Type} {ft : FloatText F} (hf : FloatOk ft) {s : Str} {d : List (Str × Val F)} (h : readDict ft s = some d) : DictOk ft d := by
  unfold readDict at h
  cases hl : readList '{' '}' ',' dictStrip s with
  | none => rw [hl] at h; cases h
  | some l =>
    rw [hl] at h
    exact readItems_ok hf l [] d (readList_mem hl) ⟨by simp, by simp, by simp⟩ h

theorem readItems_write {F : Type} {ft : FloatText F} : ∀ (d acc : List (Str × Val F)), DictOk ft (acc ++ d) →
    readItems ft ((d.map fun e => e.1 ++ [':', ' '] ++ showVal ft e.2).map (stripP dictStrip)) acc = some (acc ++ d) := by
  intro d
  induction d with
  | nil => intro acc _; simp [readItems]
  | cons e d ih =>
    intro acc h
    obtain ⟨k, v⟩ := e
    have hk := h.key (k, v) (by simp)
    have hv := h.val (k, v) (by simp)
    simp only [List.map_cons, readItems]
    have e1 : stripP dictStrip (k ++ [':', ' '] ++ showVal ft v) = lstripP dictStrip k ++ ':' :: rstripP dictStrip (' ' :: showVal ft v) := by
      rw [← stripP_around (p := dictStrip) (x := ':') rfl]
      simp [List.append_assoc]
    have hkn : ':' ∉ lstripP dictStrip k := by
      obtain ⟨w, e, _⟩ := lstripP_decomp dictStrip k
      intro hm
      exact hk.2.2.2 (by rw [e]; exact List.mem_append_right _ hm)
    rw [e1, partition_append _ hkn]
    simp only
    rw [stripP_lstripP, stripP_rstripP, hk.1]
    have e2 : readValue ft (stripP dictStrip (' ' :: showVal ft v)) = v := by
      apply hv.1
      rw [strip_strip_sub dictStrip_ws]
      have := stripP_append_pad (p := isWs) [' '] (showVal ft v) [] (by intro c hc; rw [List.mem_singleton] at hc; subst hc; rfl)
        (by intro c hc; cases hc)
      simpa [strip] using this
    rw [e2]
    have e3 : insert acc k v = acc ++ [(k, v)] := by
      unfold insert
      rw [if_neg]
      have hn := h.keys
      rw [List.map_append, List.nodup_append] at hn
      intro hm
      exact hn.2.2 k hm k (by simp) rfl
    rw [e3]
    have := ih (acc ++ [(k, v)]) (by simpa using h)
    simpa using this

/-- A dictionary with distinct keys whose keys and values have no separators and whose values are not mistaken for others survives. -/
theorem dict_round_trip {F : Type} {ft : FloatText F} {d : List (Str × Val F)} (h : DictOk ft d) : readDict ft (writeDict ft d) = some d := by
  have e : writeDict ft d = writeList '{' '}' (d.map fun e => e.1 ++ [':', ' '] ++ showVal ft e.2) := by
    simp only [writeDict, writeList, List.map_map]; rfl
  unfold readDict
  rw [e, readList_writeList (by decide) rfl rfl (by decide) (listable_of commaStrip_dictStrip ?_ ?_ ?_)]
  · exact readItems_write d [] h
  · intro w hw
    obtain ⟨e, he, rfl⟩ := List.mem_map.1 hw
    simp only [List.mem_append, not_or]
    exact ⟨⟨(h.key e he).2.1, by decide⟩, (h.val e he).2.1⟩
  · intro w hw
    obtain ⟨e, he, rfl⟩ := List.mem_map.1 hw
    simp only [List.mem_append, not_or]
    exact ⟨⟨(h.key e he).2.2.1, by decide⟩, (h.val e he).2.2⟩
  · intro w hw hnil
    obtain ⟨e, he, rfl⟩ := List.mem_map.1 hw
    have := stripP_nil hnil ':' (by simp)
    cases this

/-- A dictionary that was read is unchanged by writing it and reading it again. -/
theorem dict_stable {F : Type} {ft : FloatText F} (hf : FloatOk ft) {s : Str} {d : List (Str × Val F)} (h : readDict ft s = some d) :
    readDict ft (writeDict ft d) = some d := dict_round_trip (readDict_ok hf h)

/-- Floats of the kind `n + 1/2`, to have a concrete instance. -/
def halves : FloatText Nat :=
  { show_ := fun n => showNat n ++ ".5".toList
    parse := fun s => match partition '.' s with
      | (a, some ['5']) => parseNat a
      | _ => none }

theorem halves_ok : FloatOk halves := by
  have hd : ∀ n, '.' ∉ showNat n := fun n h => absurd (showNat_digits n '.' h) (by decide)
  refine ⟨?_, ?_, ?_, by decide +kernel⟩
  · intro n
    show (match partition '.' (showNat n ++ '.' :: ['5']) with | (a, some ['5']) => parseNat a | _ => none) = some n
    rw [partition_append _ (hd n)]
    exact parseNat_showNat n
  · intro n
    have hs : strip (showNat n ++ ".5".toList) = showNat n ++ ".5".toList := strip_self_of_all fun c hc => by
      rcases List.mem_append.1 hc with h | h
      · exact isDigit_not_ws (showNat_digits n c h)
      · change c ∈ ['.', '5'] at h
        simp only [List.mem_cons, List.not_mem_nil, or_false] at h
        rcases h with rfl | rfl <;> rfl
    have hp : parseNat (showNat n ++ ".5".toList) = none := by
      unfold parseNat
      rw [parseNatAux_append _ _ (showNat_digits n) (showNat_ne_nil n)]
      rfl
    show parseInt (showNat n ++ ".5".toList) = none
    unfold parseInt
    rw [hs]
    have hh := showNat_digits n
    have hne := showNat_ne_nil n
    generalize showNat n = t at *
    match t, hne with
    | c :: t, _ =>
      have hc := hh c List.mem_cons_self
      split
      · rename_i h; simp only [List.cons_append, List.cons.injEq] at h; rw [h.1] at hc; cases hc
      · rename_i h; simp only [List.cons_append, List.cons.injEq] at h; rw [h.1] at hc; cases hc
      · rw [hp]; rfl
  · intro n c hc
    rcases List.mem_append.1 hc with h | h
    · have hd := showNat_digits n c h
      exact ⟨isDigit_ne hd rfl, isDigit_ne hd rfl, isDigit_not_ws hd⟩
    · change c ∈ ['.', '5'] at h
      simp only [List.mem_cons, List.not_mem_nil, or_false] at h
      rcases h with rfl | rfl <;> decide

deriving instance DecidableEq for Val

example : readDict halves " { a : 3.5, b: true , c:x y,a:7 }".toList = some [("a".toList, .int 7), ("b".toList, .bool true), ("c".toList, .str "x y".toList)] := by
  decide +kernel

/-- A string that looks like a number comes back as a number. -/
theorem number_string_changes : readDict halves (writeDict halves [("version".toList, .str "1.5".toList)]) = some [("version".toList, .float 1)] := by
  decide +kernel

/-- A string with a comma is not readable any more. -/
theorem comma_string_fails : readDict halves (writeDict halves [("a".toList, .str "x,y".toList)]) = none := by
  decide +kernel

end Verif.Values
