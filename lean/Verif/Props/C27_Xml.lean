import Verif.Io.XmlLemmas
/-!
# C27: XML written by i-PI parses to the same tree

For every tree with plain names, attributes and texts, of any depth and size, parsing what `xml_write` or `Input.write` produce gives a
tree with the same tags, attributes, order of children and texts up to surrounding blanks, and writing that tree gives the same text.
A document is accepted exactly if it is the events of a tree, in the sense of a small grammar; so unbalanced tags, several document
elements or text outside are rejected. Quotes in attributes and `<` or `&` in texts are written unescaped, so they break the file.
-/
namespace Verif.Xml
open Verif.Text

theorem lex_of_run {s buf : Str} {es e : List Event} (h : lrun (.text []) s = some (.text buf, es)) (hf : flush buf = some e) : lex s = some (es ++ e) := by
  unfold lex; rw [h]; simp [hf]

/-- `xml_write` and the parser. -/
theorem xml_round_trip {t : Node} (h : Plain t) : ∃ t', parseDoc (xmlWriteDoc t) = some t' ∧ norm t' = norm t := by
  have hsp : Sp [' ', ' '] := by intro c hc; simp at hc; exact .inl hc
  have hnl : Sp ['\n'] := by intro c hc; simp at hc; exact .inr hc
  obtain ⟨t', e0, es, h1, _, h3, h4, h5⟩ := lex_xmlWrite [' ', ' '] hsp t h ['\n'] hnl
  refine ⟨t', ?_, h5⟩
  have s0 := lrun_text ['\n'] [] (by decide)
  have s1 := lrun_comp s0 h1
  unfold parseDoc
  rw [show xmlWriteDoc t = ['\n'] ++ xmlWrite [' ', ' '] t from rfl, lex_of_run s1 (e := []) rfl]
  simp only [List.nil_append, List.append_nil, Option.bind_some]
  have := handle_flat (w1 := e0) (w2 := []) h4 h3 trivial
  simpa using this

/-- `Input.write` (the format of checkpoints) and the parser. -/
theorem input_round_trip {t : Node} (h : Plain t) : ∃ t', parseDoc (inputWrite [] t) = some t' ∧ norm t' = norm t := by
  obtain ⟨t', e0, es, h1, _, h3, h4, h5⟩ := lex_inputWrite [] (by intro c hc; cases hc) t h [] (by intro c hc; cases hc)
  refine ⟨t', ?_, h5⟩
  unfold parseDoc
  rw [lex_of_run h1 (e := [.chars ['\n']]) rfl]
  simp only [Option.bind_some]
  exact handle_flat h4 (h3 (by intro c hc; cases hc)) ⟨rfl, trivial⟩

mutual
theorem xmlWrite_norm (indent : Str) (t : Node) : xmlWrite indent (norm t) = xmlWrite indent t := by
  match t with
  | .mk n as ks t =>
    simp only [norm, xmlWrite, xmlWriteKids_norm]
    rw [show strip (strip t) = strip t from stripP_idem isWs t]
theorem xmlWriteKids_norm (indent : Str) (ks : List Node) : xmlWriteKids indent (normL ks) = xmlWriteKids indent ks := by
  match ks with
  | [] => rfl
  | k :: ks => simp only [normL, xmlWriteKids, xmlWrite_norm, xmlWriteKids_norm]
end

/-- Writing what was read gives the same text again. -/
theorem second_write_same {t : Node} (h : Plain t) : ∃ t', parseDoc (xmlWriteDoc t) = some t' ∧ xmlWriteDoc t' = xmlWriteDoc t := by
  obtain ⟨t', h1, h2⟩ := xml_round_trip h
  refine ⟨t', h1, ?_⟩
  unfold xmlWriteDoc
  rw [← xmlWrite_norm _ t', h2, xmlWrite_norm]

/-- Exactly the event sequences of trees are accepted. -/
theorem accepted_iff {es : List Event} {t : Node} :
    handle es = some t ↔ ∃ w1 es0 w2, Blank w1 ∧ Flat t es0 ∧ Blank w2 ∧ es = w1 ++ es0 ++ w2 := by
  constructor
  · exact flat_of_handle
  · rintro ⟨w1, es0, w2, h1, h2, h3, rfl⟩
    exact handle_flat h2 h1 h3

/-- Number of start tags minus number of end tags. -/
def depth : List Event → Int
  | [] => 0
  | .start _ _ :: es => 1 + depth es
  | .stop _ :: es => depth es - 1
  | .chars _ :: es => depth es

theorem depth_append (a b : List Event) : depth (a ++ b) = depth a + depth b := by
  induction a with
  | nil => simp [depth]
  | cons e a ih => cases e <;> simp only [List.cons_append, depth, ih] <;> omega

mutual
theorem flat_depth {t : Node} {es : List Event} (h : Flat t es) : depth es = 0 := by
  match h with
  | .mk hb => simp only [depth, depth_append, body_depth hb]; omega
theorem body_depth {ks : List Node} {t : Str} {es : List Event} (h : FlatBody ks t es) : depth es = 0 := by
  match h with
  | .nil => rfl
  | .chars s h0 => simp only [depth, body_depth h0]
  | .kid hk h0 => rw [depth_append, flat_depth hk, body_depth h0]; rfl
end

theorem blank_depth {es : List Event} (h : Blank es) : depth es = 0 := by
  induction es with
  | nil => rfl
  | cons e es ih =>
    cases e with
    | chars s => exact ih h.2
    | start n as => cases h
    | stop n => cases h

/-- Unbalanced documents are rejected. -/
theorem unbalanced_rejected {s : Str} {es : List Event} (hl : lex s = some es) (h : depth es ≠ 0) : parseDoc s = none := by
  unfold parseDoc
  rw [hl]
  simp only [Option.bind_some]
  cases hh : handle es with
  | none => rfl
  | some t =>
    obtain ⟨w1, es0, w2, a, b, c, d⟩ := flat_of_handle hh
    refine absurd ?_ h
    rw [d, depth_append, depth_append, blank_depth a, flat_depth b, blank_depth c]; rfl

/-- A tree for the examples. -/
def sampleTree : Node :=
  .mk "simulation".toList [("verbosity".toList, "high".toList)]
    [.mk "step".toList [] [] " 10 ".toList, .mk "x".toList [] [.mk "y".toList [("u".toList, "a b".toList)] [] []] []] "\n".toList

theorem plainName_of {n : Str} (h : (match n with | [] => false | c :: _ => isNameStart c) = true) (h' : n.all isNameChar = true) : PlainName n := by
  cases n with
  | nil => cases h
  | cons c s => exact ⟨⟨c, s, rfl, h⟩, List.all_eq_true.1 h'⟩

instance (t : Str) : Decidable (PlainText t) := by unfold PlainText; infer_instance
instance (t : Str) : Decidable (PlainValue t) := by unfold PlainValue; infer_instance

example : Plain sampleTree := by
  have hn : PlainAttrs [] := ⟨by simp, by simp⟩
  refine ⟨plainName_of rfl rfl, ⟨by decide, ?_⟩, (by decide +kernel), ⟨plainName_of rfl rfl, hn, by decide +kernel, trivial⟩,
    ⟨plainName_of rfl rfl, hn, by decide +kernel, ⟨plainName_of rfl rfl, ⟨by decide, ?_⟩, by decide +kernel, trivial⟩, trivial⟩, trivial⟩
  · intro p hp
    simp only [List.mem_singleton] at hp
    subst hp
    exact ⟨plainName_of rfl rfl, by decide +kernel⟩
  · intro p hp
    simp only [List.mem_singleton] at hp
    subst hp
    exact ⟨plainName_of rfl rfl, by decide +kernel⟩

example : xmlWriteDoc sampleTree =
    "\n  <simulation verbosity='high'>\n    <step>10</step>\n    <x>\n      <y u='a b'>\n      </y>\n    </x>\n  </simulation>".toList := by
  decide +kernel

example : parseDoc "<a><b></a></b>".toList = none := by
  have : (parseDoc "<a><b></a></b>".toList).isNone = true := by decide +kernel
  exact Option.isNone_iff_eq_none.1 this

/-- A quote in an attribute, which may be read from a double-quoted attribute, is written unescaped and the result cannot be read. -/
theorem quote_breaks : (parseDoc "<a b=\"it's\"></a>".toList).isSome = true ∧
    ∀ t, parseDoc "<a b=\"it's\"></a>".toList = some t → parseDoc (xmlWriteDoc t) = none := by
  have h : ∀ o : Option Node, (o.isSome && (match o with | some t => (parseDoc (xmlWriteDoc t)).isNone | none => false)) = true →
      o.isSome = true ∧ ∀ t, o = some t → parseDoc (xmlWriteDoc t) = none := by
    intro o ho
    cases o with
    | none => cases ho
    | some t =>
      simp only [Option.isSome_some, Bool.true_and] at ho
      exact ⟨rfl, fun t' e => by injection e with e; subst e; exact Option.isNone_iff_eq_none.1 ho⟩
  exact h _ (by decide +kernel)

/-- A text with `<` (from an escaped input) is written unescaped and the result cannot be read. -/
theorem less_than_breaks : parseDoc (xmlWriteDoc (.mk "a".toList [] [] "x < y".toList)) = none := by
  have : (parseDoc (xmlWriteDoc (.mk "a".toList [] [] "x < y".toList))).isNone = true := by decide +kernel
  exact Option.isNone_iff_eq_none.1 this

end Verif.Xml
