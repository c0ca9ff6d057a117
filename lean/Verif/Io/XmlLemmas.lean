import Verif.Io.Xml
import Verif.Text.Lemmas
/-! Lemmas on the XML layer, for C27 and C28. -/
namespace Verif.Xml
open Verif.Text

/-! ### specification of parsing -/

mutual
/-- `es` are the events of the tree: its start tag, the events of its children in order with pieces of text anywhere between them whose
concatenation is its text, its end tag. -/
inductive Flat : Node → List Event → Prop
  | mk {n as ks t es} : FlatBody ks t es → Flat (.mk n as ks t) (.start n as :: (es ++ [.stop n]))
inductive FlatBody : List Node → Str → List Event → Prop
  | nil : FlatBody [] [] []
  | chars {ks t es} (s : Str) : FlatBody ks t es → FlatBody ks (s ++ t) (.chars s :: es)
  | kid {k ks t es es'} : Flat k es → FlatBody ks t es' → FlatBody (k :: ks) t (es ++ es')
end

theorem FlatBody.append {ks ks' : List Node} {t t' : Str} {es es' : List Event} (h : FlatBody ks t es) (h' : FlatBody ks' t' es') :
    FlatBody (ks ++ ks') (t ++ t') (es ++ es') := by
  match h with
  | .nil => exact h'
  | .chars (t := t0) (es := es0) s h0 =>
    have e := FlatBody.chars s (h0.append h')
    simpa [List.append_assoc] using e
  | .kid (es := es1) hk h0 =>
    have e := FlatBody.kid hk (h0.append h')
    simpa [List.append_assoc] using e

/-- Blanks outside the document element. -/
def Blank : List Event → Prop
  | [] => True
  | .chars s :: es => s.all isXmlWs = true ∧ Blank es
  | _ :: _ => False

theorem hrun_append : ∀ (es es' : List Event) (h : HSt), hrun h (es ++ es') = (hrun h es).bind fun h' => hrun h' es' := by
  intro es
  induction es with
  | nil => intro es' h; rfl
  | cons e es ih =>
    intro es' h
    simp only [List.cons_append, hrun]
    cases hstep h e with
    | none => rfl
    | some h' => simp only [ih]

theorem hrun_blank : ∀ (es : List Event) (h : HSt), Blank es → h.stack = [] → hrun h es = some h := by
  intro es
  induction es with
  | nil => intro h _ _; rfl
  | cons e es ih =>
    intro h hb hs
    cases e with
    | chars s =>
      have hst : hstep h (.chars s) = some h := by
        unfold hstep
        simp only [hs, hb.1, if_true]
      simp only [hrun, hst]
      exact ih h hb.2 hs
    | start n as => cases hb
    | stop n => cases hb

mutual
theorem hrun_flat {k : Node} {es : List Event} (h : Flat k es) : ∀ (fs : List Frame) (d : Option Node) (g : Frame),
    hrun ⟨g :: fs, d⟩ es = some ⟨{ g with kids := g.kids ++ [k] } :: fs, d⟩ := by
  intro fs d g
  match h with
  | .mk (n := n) (as := as) (ks := ks) (t := t) (es := es0) hb =>
    simp only [hrun, hstep]
    rw [hrun_append, hrun_body hb (g :: fs) d]
    simp [hrun, hstep]
theorem hrun_body {ks : List Node} {t : Str} {es : List Event} (h : FlatBody ks t es) : ∀ (fs : List Frame) (d : Option Node) (f : Frame),
    hrun ⟨f :: fs, d⟩ es = some ⟨{ f with kids := f.kids ++ ks, buf := f.buf ++ t } :: fs, d⟩ := by
  intro fs d f
  match h with
  | .nil => simp [hrun]
  | .chars (t := t0) (es := es0) s h0 =>
    simp only [hrun, hstep]
    rw [hrun_body h0]
    simp [List.append_assoc]
  | .kid hk h0 =>
    rw [hrun_append, hrun_flat hk fs d f]
    simp only [Option.bind_some]
    rw [hrun_body h0]
    simp [List.append_assoc]
end

/-- Events of a tree, with blanks around, are parsed to the tree. -/
theorem handle_flat {t : Node} {es w1 w2 : List Event} (h : Flat t es) (h1 : Blank w1) (h2 : Blank w2) : handle (w1 ++ es ++ w2) = some t := by
  match h with
  | .mk (n := n) (as := as) (ks := ks) (t := t) (es := es0) hb =>
    unfold handle
    rw [List.append_assoc, hrun_append, hrun_blank w1 _ h1 rfl]
    simp only [Option.bind_some, List.cons_append, hrun, hstep]
    rw [List.append_assoc, hrun_append, hrun_body hb [] none]
    simp only [Option.bind_some, List.cons_append, List.nil_append, hrun, hstep, ne_eq, not_true_eq_false, if_false]
    rw [hrun_blank w2 _ h2 rfl]

/-- What the open tags say about the events so far: blanks, then for each open tag its start and the events of its children and
text. -/
def Stacked : List Frame → List Event → Prop
  | [], es => Blank es
  | f :: fs, es => ∃ es0 es1, Stacked fs es0 ∧ FlatBody f.kids f.buf es1 ∧ es = es0 ++ .start f.name f.attrs :: es1

/-- What holds of the events after they were handled. -/
def Seen (h : HSt) (es : List Event) : Prop :=
  match h.doc with
  | none => Stacked h.stack es
  | some t => h.stack = [] ∧ ∃ w1 es0 w2, Blank w1 ∧ Flat t es0 ∧ Blank w2 ∧ es = w1 ++ es0 ++ w2

theorem Blank.append {a b : List Event} (ha : Blank a) (hb : Blank b) : Blank (a ++ b) := by
  induction a with
  | nil => exact hb
  | cons e a ih =>
    cases e with
    | chars s => exact ⟨ha.1, ih ha.2⟩
    | start n as => cases ha
    | stop n => cases ha

theorem hstep_seen {h h' : HSt} {es : List Event} {e : Event} (hs : Seen h es) (hst : hstep h e = some h') : Seen h' (es ++ [e]) := by
  obtain ⟨stack, doc⟩ := h
  cases doc with
  | some t =>
    obtain ⟨h1, w1, es0, w2, a, b, c, d⟩ := hs
    simp only at h1
    subst h1
    cases e with
    | start n as => simp [hstep] at hst
    | stop n => simp [hstep] at hst
    | chars s =>
      simp only [hstep] at hst
      split at hst
      · rename_i hw
        simp only [Option.some.injEq] at hst
        subst hst
        have hb : Blank [.chars s] := ⟨hw, trivial⟩
        exact ⟨rfl, w1, es0, w2 ++ [.chars s], a, b, c.append hb, by rw [d]; simp [List.append_assoc]⟩
      · cases hst
  | none =>
    cases e with
    | start n as =>
      simp only [hstep, Option.some.injEq] at hst
      subst hst
      exact ⟨es, [], hs, .nil, rfl⟩
    | chars s =>
      cases stack with
      | nil =>
        simp only [hstep] at hst
        split at hst
        · rename_i hw
          simp only [Option.some.injEq] at hst
          subst hst
          have hb : Blank [.chars s] := ⟨hw, trivial⟩
          exact Blank.append hs hb
        · cases hst
      | cons f fs =>
        simp only [hstep, Option.some.injEq] at hst
        subst hst
        obtain ⟨es0, es1, a, b, c⟩ := hs
        refine ⟨es0, es1 ++ [.chars s], a, ?_, by rw [c]; simp [List.append_assoc]⟩
        have := b.append (FlatBody.chars s .nil)
        simpa using this
    | stop n =>
      cases stack with
      | nil => simp [hstep] at hst
      | cons f fs =>
        obtain ⟨es0, es1, a, b, c⟩ := hs
        simp only [hstep] at hst
        split at hst
        · cases hst
        · rename_i hn
          have hn : f.name = n := by simpa using hn
          cases fs with
          | nil =>
            simp only [Option.some.injEq] at hst
            subst hst
            refine ⟨rfl, es0, .start f.name f.attrs :: (es1 ++ [.stop f.name]), [], a, .mk b, trivial, ?_⟩
            rw [c, hn]; simp [List.append_assoc]
          | cons g gs =>
            simp only [Option.some.injEq] at hst
            subst hst
            obtain ⟨es2, es3, a', b', c'⟩ := a
            refine ⟨es2, es3 ++ (.start f.name f.attrs :: (es1 ++ [.stop f.name])), a', ?_, ?_⟩
            · have := b'.append (FlatBody.kid (Flat.mk (n := f.name) (as := f.attrs) b) .nil)
              simpa using this
            · rw [c, c', hn]; simp [List.append_assoc]

theorem hrun_seen : ∀ (es done : List Event) (h h' : HSt), Seen h done → hrun h es = some h' → Seen h' (done ++ es) := by
  intro es
  induction es with
  | nil => intro done h h' hs hr; simp only [hrun, Option.some.injEq] at hr; subst hr; simpa using hs
  | cons e es ih =>
    intro done h h' hs hr
    simp only [hrun] at hr
    split at hr
    · cases hr
    · rename_i h1 hst
      have := ih (done ++ [e]) h1 h' (hstep_seen hs hst) hr
      simpa [List.append_assoc] using this

/-- Whatever is accepted is the events of the tree that is returned. -/
theorem flat_of_handle {es : List Event} {t : Node} (h : handle es = some t) : ∃ w1 es0 w2, Blank w1 ∧ Flat t es0 ∧ Blank w2 ∧ es = w1 ++ es0 ++ w2 := by
  unfold handle at h
  split at h
  · rename_i t' hr
    simp only [Option.some.injEq] at h
    subst h
    have := hrun_seen es [] ⟨[], none⟩ _ (show Stacked [] [] from trivial) hr
    exact this.2
  · cases h

/-! ### the lexer on what the writers produce -/

structure PlainName (n : Str) : Prop where
  head : ∃ c s, n = c :: s ∧ isNameStart c = true
  all : ∀ c ∈ n, isNameChar c = true

def PlainValue (v : Str) : Prop := ∀ c ∈ v, c ≠ '\'' ∧ c ≠ '<' ∧ c ≠ '&' ∧ c ≠ '\r' ∧ c ≠ '\n' ∧ c ≠ '\t'
def PlainText (t : Str) : Prop := ∀ c ∈ t, c ≠ '<' ∧ c ≠ '&' ∧ c ≠ '\r' ∧ c ≠ '>'

structure PlainAttrs (as : List (Str × Str)) : Prop where
  nodup : (as.map (·.1)).Nodup
  plain : ∀ p ∈ as, PlainName p.1 ∧ PlainValue p.2

mutual
/-- Trees with plain names, attributes and texts. -/
def Plain : Node → Prop
  | .mk n as ks t => PlainName n ∧ PlainAttrs as ∧ PlainText t ∧ PlainL ks
def PlainL : List Node → Prop
  | [] => True
  | k :: ks => Plain k ∧ PlainL ks
end

mutual
/-- The tree with its texts stripped, which is what the readers of values look at. -/
def norm : Node → Node
  | .mk n as ks t => .mk n as (normL ks) (strip t)
def normL : List Node → List Node
  | [] => []
  | k :: ks => norm k :: normL ks
end

theorem lrun_append : ∀ (s s' : Str) (m : Mode), lrun m (s ++ s') =
    (lrun m s).bind fun r => (lrun r.1 s').map fun r' => (r'.1, r.2 ++ r'.2) := by
  intro s
  induction s with
  | nil => intro s' m; simp only [List.nil_append, lrun, Option.bind_some]; cases lrun m s' <;> rfl
  | cons c s ih =>
    intro s' m
    simp only [List.cons_append, lrun]
    cases lstep m c with
    | none => rfl
    | some r =>
      obtain ⟨m', e⟩ := r
      simp only [ih]
      cases lrun m' s with
      | none => rfl
      | some r =>
        obtain ⟨m'', e'⟩ := r
        simp only [Option.bind_some]
        cases lrun m'' s' with
        | none => rfl
        | some r => simp [List.append_assoc]

theorem lrun_comp {s s' : Str} {m m' m'' : Mode} {e e' : List Event} (h : lrun m s = some (m', e)) (h' : lrun m' s' = some (m'', e')) :
    lrun m (s ++ s') = some (m'', e ++ e') := by
  rw [lrun_append, h]; simp only [Option.bind_some, h', Option.map_some]

theorem lrun_cons {c : Char} {s : Str} {m m' m'' : Mode} {e e' : List Event} (h : lstep m c = some (m', e)) (h' : lrun m' s = some (m'', e')) :
    lrun m (c :: s) = some (m'', e ++ e') := by
  simp only [lrun, h, h']

theorem nameStart_char {c : Char} (h : isNameStart c = true) : isNameChar c = true := by simp [isNameChar, h]

theorem lrun_name : ∀ (s n : Str), (∀ c ∈ s, isNameChar c = true) → lrun (.name n) s = some (.name (n ++ s), []) := by
  intro s
  induction s with
  | nil => intro n _; simp [lrun]
  | cons c s ih =>
    intro n h
    have := lrun_cons (m := .name n) (c := c) (m' := .name (n ++ [c])) (e := []) (by simp [lstep, h c List.mem_cons_self])
      (ih (n ++ [c]) fun x hx => h x (List.mem_cons_of_mem _ hx))
    simpa using this

theorem lrun_close : ∀ (s n : Str), (∀ c ∈ s, isNameChar c = true) → lrun (.close n) s = some (.close (n ++ s), []) := by
  intro s
  induction s with
  | nil => intro n _; simp [lrun]
  | cons c s ih =>
    intro n h
    have := lrun_cons (m := .close n) (c := c) (m' := .close (n ++ [c])) (e := []) (by simp [lstep, h c List.mem_cons_self])
      (ih (n ++ [c]) fun x hx => h x (List.mem_cons_of_mem _ hx))
    simpa using this

theorem lrun_aname (n : Str) (as : List (Str × Str)) : ∀ (s a : Str), (∀ c ∈ s, isNameChar c = true) →
    lrun (.aname n as a) s = some (.aname n as (a ++ s), []) := by
  intro s
  induction s with
  | nil => intro a _; simp [lrun]
  | cons c s ih =>
    intro a h
    have := lrun_cons (m := .aname n as a) (c := c) (m' := .aname n as (a ++ [c])) (e := []) (by simp [lstep, h c List.mem_cons_self])
      (ih (a ++ [c]) fun x hx => h x (List.mem_cons_of_mem _ hx))
    simpa using this

theorem lrun_aval (n : Str) (as : List (Str × Str)) (a : Str) : ∀ (s v : Str), PlainValue s →
    lrun (.aval n as a '\'' v) s = some (.aval n as a '\'' (v ++ s), []) := by
  intro s
  induction s with
  | nil => intro v _; simp [lrun]
  | cons c s ih =>
    intro v h
    have hc := h c List.mem_cons_self
    have := lrun_cons (m := .aval n as a '\'' v) (c := c) (m' := .aval n as a '\'' (v ++ [c])) (e := [])
      (by simp [lstep, hc.1, hc.2.1, hc.2.2.1, hc.2.2.2.1, hc.2.2.2.2.1, hc.2.2.2.2.2])
      (ih (v ++ [c]) fun x hx => h x (List.mem_cons_of_mem _ hx))
    simpa using this

theorem lrun_text : ∀ (s buf : Str), (∀ c ∈ s, c ≠ '<' ∧ c ≠ '&' ∧ c ≠ '\r') → lrun (.text buf) s = some (.text (buf ++ s), []) := by
  intro s
  induction s with
  | nil => intro buf _; simp [lrun]
  | cons c s ih =>
    intro buf h
    have hc := h c List.mem_cons_self
    have := lrun_cons (m := .text buf) (c := c) (m' := .text (buf ++ [c])) (e := []) (by simp [lstep, hc.1, hc.2.1, hc.2.2])
      (ih (buf ++ [c]) fun x hx => h x (List.mem_cons_of_mem _ hx))
    simpa using this

theorem name_not {c : Char} (h : isNameChar c = true) {d : Char} (hd : isNameChar d = false) : c ≠ d := by
  intro e; subst e; rw [h] at hd; cases hd

/-- A mode in which a space or `>` may follow, inside a tag with attributes read so far. -/
def AfterTag (m : Mode) (n : Str) (as : List (Str × Str)) : Prop := (m = .name n ∧ as = []) ∨ m = .aend n as

theorem lrun_attrs (n : Str) : ∀ (as done : List (Str × Str)) (m : Mode), AfterTag m n done → PlainAttrs (done ++ as) →
    ∃ m', AfterTag m' n (done ++ as) ∧ lrun m (writeAttrs as) = some (m', []) := by
  intro as
  induction as with
  | nil => intro done m hm _; exact ⟨m, by simpa using hm, rfl⟩
  | cons p as ih =>
    intro done m hm hp
    obtain ⟨a, v⟩ := p
    have hpa := hp.plain (a, v) (by simp)
    obtain ⟨⟨c, s, hcs, hc⟩, hall⟩ := hpa.1
    simp only at hcs hall
    have hnot : a ∉ done.map (·.1) := by
      have := hp.nodup
      rw [List.map_append, List.nodup_append] at this
      exact fun hm => this.2.2 a hm a (by simp) rfl
    obtain ⟨m', h1, h2⟩ := ih (done ++ [(a, v)]) (.aend n (done ++ [(a, v)])) (.inr rfl) (by simpa [List.append_assoc] using hp)
    refine ⟨m', by simpa [List.append_assoc] using h1, ?_⟩
    have hgap : lstep m ' ' = some (.gap n done, []) := by
      rcases hm with ⟨rfl, rfl⟩ | rfl
      · rfl
      · rfl
    have h3 : lrun (.gap n done) a = some (.aname n done a, []) := by
      rw [hcs]
      have hw : isXmlWs c = false := by
        have h1 := name_not (nameStart_char hc) (d := ' ') (by decide)
        have h2 := name_not (nameStart_char hc) (d := '\n') (by decide)
        have h3 := name_not (nameStart_char hc) (d := '\t') (by decide)
        simp [isXmlWs, h1, h2, h3]
      have := lrun_cons (m := .gap n done) (c := c) (m' := .aname n done [c]) (e := []) (by simp [lstep, hw, hc])
        (lrun_aname n done s [c] fun x hx => hall x (by rw [hcs]; exact List.mem_cons_of_mem _ hx))
      simpa using this
    have h4 : lrun (.aname n done a) ['=', '\''] = some (.aval n done a '\'' [], []) := rfl
    have h5 := lrun_aval n done a v [] hpa.2
    have h6 : lrun (.aval n done a '\'' v) ['\''] = some (.aend n (done ++ [(a, v)]), []) := by
      simp [lrun, lstep, hnot]
    simp only [writeAttrs]
    rw [List.nil_append] at h5
    have := lrun_cons hgap (lrun_comp (lrun_comp (lrun_comp (lrun_comp h3 h4) h5) h6) h2)
    simpa [List.append_assoc] using this

theorem lrun_openTag {n : Str} {as : List (Str × Str)} (hn : PlainName n) (ha : PlainAttrs as) (buf : Str) {e : List Event} (hf : flush buf = some e) :
    lrun (.text buf) (openTag n as) = some (.text [], e ++ [.start n as]) := by
  obtain ⟨⟨c, s, hcs, hc⟩, hall⟩ := hn
  have h1 : lstep (.text buf) '<' = some (.lt, e) := by simp [lstep, hf]
  have h2 : lrun .lt n = some (.name n, []) := by
    rw [hcs]
    have hs : c ≠ '/' := name_not (nameStart_char hc) (by decide)
    have := lrun_cons (m := .lt) (c := c) (m' := .name [c]) (e := []) (by simp [lstep, hs, hc])
      (lrun_name s [c] fun x hx => hall x (by rw [hcs]; exact List.mem_cons_of_mem _ hx))
    simpa using this
  obtain ⟨m', hm', h3⟩ := lrun_attrs n as [] (.name n) (.inl ⟨rfl, rfl⟩) (by simpa using ha)
  have h4 : lrun m' ['>'] = some (.text [], [.start n as]) := by
    rcases hm' with ⟨rfl, h⟩ | rfl
    · simp only [List.nil_append] at h; subst h; rfl
    · rfl
  have := lrun_cons h1 (lrun_comp (lrun_comp h2 h3) h4)
  simpa [openTag, List.append_assoc] using this

theorem lrun_closeTag {n : Str} (hn : PlainName n) (buf : Str) {e : List Event} (hf : flush buf = some e) :
    lrun (.text buf) (closeTag n) = some (.text [], e ++ [.stop n]) := by
  obtain ⟨⟨c, s, hcs, hc⟩, hall⟩ := hn
  have h1 : lstep (.text buf) '<' = some (.lt, e) := by simp [lstep, hf]
  have h2 : lrun .closeStart n = some (.close n, []) := by
    rw [hcs]
    have := lrun_cons (m := .closeStart) (c := c) (m' := .close [c]) (e := []) (by simp [lstep, hc])
      (lrun_close s [c] fun x hx => hall x (by rw [hcs]; exact List.mem_cons_of_mem _ hx))
    simpa using this
  have h3 : lrun (.close n) ['>'] = some (.text [], [.stop n]) := rfl
  have := lrun_cons h1 (lrun_cons (m := .lt) (c := '/') (m' := .closeStart) (e := []) rfl (lrun_comp h2 h3))
  simpa [closeTag, List.append_assoc] using this

theorem hasCdataEnd_mem : ∀ s : Str, hasCdataEnd s = true → '>' ∈ s := by
  intro s
  induction s with
  | nil => intro h; cases h
  | cons c s ih =>
    intro h
    unfold hasCdataEnd at h
    split at h
    · rename_i heq
      simp only [List.cons.injEq] at heq
      rw [heq.2]
      simp
    · rename_i heq
      simp only [List.cons.injEq] at heq
      obtain ⟨rfl, rfl⟩ := heq
      exact List.mem_cons_of_mem _ (ih h)
    · cases h

/-- Text without `>` can be reported; the events are that text. -/
theorem flush_ok {buf : Str} (h : '>' ∉ buf) : ∃ e, flush buf = some e ∧ FlatBody [] buf e ∧ (buf.all isXmlWs = true → Blank e) := by
  unfold flush
  split
  · rename_i hb; subst hb; exact ⟨[], rfl, .nil, fun _ => trivial⟩
  · rw [if_neg fun hc => h (hasCdataEnd_mem _ hc)]
    refine ⟨_, rfl, ?_, fun hw => ⟨hw, trivial⟩⟩
    have := FlatBody.chars buf .nil
    simpa using this

/-- Characters the writers put between tags. -/
def Sp (s : Str) : Prop := ∀ c ∈ s, c = ' ' ∨ c = '\n'

theorem Sp.append {a b : Str} (ha : Sp a) (hb : Sp b) : Sp (a ++ b) := by
  intro c hc
  rcases List.mem_append.1 hc with h | h
  · exact ha c h
  · exact hb c h

theorem Sp.cons {c : Char} (hc : c = ' ' ∨ c = '\n') {a : Str} (ha : Sp a) : Sp (c :: a) := by
  intro d hd
  rcases List.mem_cons.1 hd with rfl | h
  · exact hc
  · exact ha d h

theorem sp_ok {s : Str} (h : Sp s) : ∀ c ∈ s, c ≠ '<' ∧ c ≠ '&' ∧ c ≠ '\r' ∧ c ≠ '>' := by
  intro c hc
  rcases h c hc with rfl | rfl <;> decide

theorem sp_lex {s : Str} (h : Sp s) : ∀ c ∈ s, c ≠ '<' ∧ c ≠ '&' ∧ c ≠ '\r' :=
  fun c hc => ⟨(sp_ok h c hc).1, (sp_ok h c hc).2.1, (sp_ok h c hc).2.2.1⟩

theorem sp_ws {s : Str} (h : Sp s) : ∀ c ∈ s, isWs c = true := by
  intro c hc
  rcases h c hc with rfl | rfl <;> rfl

theorem sp_xmlws {s : Str} (h : Sp s) : s.all isXmlWs = true := by
  rw [List.all_eq_true]
  intro c hc
  rcases h c hc with rfl | rfl <;> rfl

theorem plain_strip {t : Str} (h : PlainText t) : PlainText (strip t) := fun c hc => h c (mem_of_mem_stripP hc)

theorem plainText_lex {s : Str} (h : PlainText s) : ∀ c ∈ s, c ≠ '<' ∧ c ≠ '&' ∧ c ≠ '\r' :=
  fun c hc => ⟨(h c hc).1, (h c hc).2.1, (h c hc).2.2.1⟩

theorem sp_noGt {s : Str} (h : Sp s) : '>' ∉ s := fun hm => (sp_ok h '>' hm).2.2.2 rfl

theorem strip_sp_append {a b : Str} (ha : Sp a) (hb : Sp b) (s : Str) : strip (a ++ s ++ b) = strip s :=
  stripP_append_pad a s b (sp_ws ha) (sp_ws hb)

mutual
/-- `xml_write` read back. -/
theorem lex_xmlWrite (indent : Str) (hi : Sp indent) (k : Node) (hk : Plain k) (buf : Str) (hb : Sp buf) :
    ∃ k' e0 es, lrun (.text buf) (xmlWrite indent k) = some (.text [], e0 ++ es) ∧ FlatBody [] (buf ++ indent) e0 ∧ Blank e0 ∧ Flat k' es ∧
      norm k' = norm k := by
  match k, hk with
  | .mk n as ks t, hk =>
    obtain ⟨hn, ha, ht, hks⟩ := hk
    have hbi : Sp (buf ++ indent) := hb.append hi
    obtain ⟨e0, hf0, hfb0, hbl0⟩ := flush_ok (sp_noGt hbi)
    have s1 := lrun_text indent buf (sp_lex hi)
    have s2 := lrun_openTag hn ha (buf ++ indent) hf0
    obtain ⟨ks', b', w, es1, s3, hfb1, hw, hb', hks'⟩ := lex_xmlWriteKids (' ' :: ' ' :: indent) ((hi.cons (.inl rfl)).cons (.inl rfl)) ks hks [] (by intro c hc; cases hc)
    have s4 := lrun_text (strip t) b' (plainText_lex (plain_strip ht))
    obtain ⟨u, hu⟩ : ∃ u, u = (if strip t = [] then '\n' :: indent else []) := ⟨_, rfl⟩
    have hsu : Sp u := by
      rw [hu]; split
      · exact hi.cons (.inr rfl)
      · intro c hc; cases hc
    have s5 := lrun_text u (b' ++ strip t) (sp_lex hsu)
    have hgt : '>' ∉ b' ++ strip t ++ u := by
      simp only [List.mem_append, not_or]
      exact ⟨⟨sp_noGt hb', fun hm => (plain_strip ht '>' hm).2.2.2 rfl⟩, sp_noGt hsu⟩
    obtain ⟨e2, hf2, hfb2, _⟩ := flush_ok hgt
    have s6 := lrun_closeTag hn (b' ++ strip t ++ u) hf2
    refine ⟨.mk n as ks' (w ++ (b' ++ strip t ++ u)), e0, .start n as :: ((es1 ++ e2) ++ [.stop n]), ?_, hfb0, hbl0 (sp_xmlws hbi), ?_, ?_⟩
    · have := lrun_comp (lrun_comp (lrun_comp (lrun_comp (lrun_comp s1 s2) s3) s4) s5) s6
      simp only [xmlWrite, ← hu]
      simpa [List.append_assoc] using this
    · have := hfb1.append hfb2
      rw [List.append_nil] at this
      exact .mk this
    · simp only [norm, hks']
      have e : w ++ (b' ++ strip t ++ u) = (w ++ b') ++ strip t ++ u := by simp [List.append_assoc]
      rw [e, strip_sp_append (hw.append hb') hsu]
      rw [show strip (strip t) = strip t from stripP_idem isWs t]
theorem lex_xmlWriteKids (indent : Str) (hi : Sp indent) (ks : List Node) (hks : PlainL ks) (buf : Str) (hb : Sp buf) :
    ∃ ks' b' w es, lrun (.text buf) (xmlWriteKids indent ks) = some (.text b', es) ∧ FlatBody ks' w es ∧ Sp w ∧ Sp b' ∧ normL ks' = normL ks := by
  match ks, hks with
  | [], _ => exact ⟨[], buf, [], [], rfl, .nil, by (intro c hc; cases hc), hb, rfl⟩
  | k :: ks, hks =>
    have s1 := lrun_text ['\n'] buf (by decide)
    have hb1 : Sp (buf ++ ['\n']) := hb.append (by intro c hc; rw [List.mem_singleton] at hc; exact .inr hc)
    obtain ⟨k', e0, es0, s2, hfb0, _, hfl, hnk⟩ := lex_xmlWrite indent hi k hks.1 (buf ++ ['\n']) hb1
    obtain ⟨ks', b', w, es1, s3, hfb1, hw, hb', hnks⟩ := lex_xmlWriteKids indent hi ks hks.2 [] (by intro c hc; cases hc)
    refine ⟨k' :: ks', b', (buf ++ ['\n'] ++ indent) ++ w, (e0 ++ es0) ++ es1, ?_, ?_, (hb1.append hi).append hw, hb', by simp only [normL, hnk, hnks]⟩
    · have := lrun_comp (lrun_comp s1 s2) s3
      simpa [xmlWriteKids, List.append_assoc] using this
    · have := hfb0.append (FlatBody.kid hfl hfb1)
      simpa [List.append_assoc] using this
end

mutual
/-- The layout of `Input.write` read back. -/
theorem lex_inputWrite (indent : Str) (hi : Sp indent) (k : Node) (hk : Plain k) (buf : Str) (hb : PlainText buf) :
    ∃ k' e0 es, lrun (.text buf) (inputWrite indent k) = some (.text ['\n'], e0 ++ es) ∧ FlatBody [] (buf ++ indent) e0 ∧
      (Sp buf → Blank e0) ∧ Flat k' es ∧ norm k' = norm k := by
  match k, hk with
  | .mk n as ks t, hk =>
    obtain ⟨hn, ha, ht, hks⟩ := hk
    have hbi : '>' ∉ buf ++ indent := by
      simp only [List.mem_append, not_or]
      exact ⟨fun hm => (hb '>' hm).2.2.2 rfl, sp_noGt hi⟩
    obtain ⟨e0, hf0, hfb0, hbl0⟩ := flush_ok hbi
    have s1 := lrun_text indent buf (sp_lex hi)
    have s2 := lrun_openTag hn ha (buf ++ indent) hf0
    have s3 := lrun_text t [] (plainText_lex ht)
    obtain ⟨ks', b', w, es1, s4, hfb1, hb', hw, hks'⟩ := lex_inputWriteKids (' ' :: ' ' :: ' ' :: indent) (((hi.cons (.inl rfl)).cons (.inl rfl)).cons (.inl rfl)) ks hks ([] ++ t) ht
    obtain ⟨u, hu⟩ : ∃ u, u = (if '\n' ∈ t then indent else []) := ⟨_, rfl⟩
    have hsu : Sp u := by
      rw [hu]; split
      · exact hi
      · intro c hc; cases hc
    have s5 := lrun_text u b' (sp_lex hsu)
    have hgt : '>' ∉ b' ++ u := by
      simp only [List.mem_append, not_or]
      exact ⟨fun hm => (hb' '>' hm).2.2.2 rfl, sp_noGt hsu⟩
    obtain ⟨e2, hf2, hfb2, _⟩ := flush_ok hgt
    have s6 := lrun_closeTag hn (b' ++ u) hf2
    have s7 := lrun_text ['\n'] [] (by decide)
    obtain ⟨v, hv, hwv⟩ := hw
    refine ⟨.mk n as ks' (w ++ (b' ++ u)), e0, .start n as :: ((es1 ++ e2) ++ [.stop n]), ?_, hfb0, fun h => hbl0 (sp_xmlws (h.append hi)), ?_, ?_⟩
    · have := lrun_comp (lrun_comp (lrun_comp (lrun_comp (lrun_comp (lrun_comp s1 s2) s3) s4) s5) s6) s7
      simp only [inputWrite, ← hu]
      simpa [List.append_assoc] using this
    · have := hfb1.append hfb2
      rw [List.append_nil] at this
      exact .mk this
    · simp only [norm, hks']
      have e : w ++ (b' ++ u) = [] ++ t ++ (v ++ u) := by rw [← List.append_assoc, hwv]; simp [List.append_assoc]
      rw [e, strip_sp_append (by intro c hc; cases hc) (hv.append hsu)]
theorem lex_inputWriteKids (indent : Str) (hi : Sp indent) (ks : List Node) (hks : PlainL ks) (buf : Str) (hb : PlainText buf) :
    ∃ ks' b' w es, lrun (.text buf) (inputWriteKids indent ks) = some (.text b', es) ∧ FlatBody ks' w es ∧ PlainText b' ∧
      (∃ v, Sp v ∧ w ++ b' = buf ++ v) ∧ normL ks' = normL ks := by
  match ks, hks with
  | [], _ => exact ⟨[], buf, [], [], rfl, .nil, hb, ⟨[], by (intro c hc; cases hc), by simp⟩, rfl⟩
  | k :: ks, hks =>
    obtain ⟨k', e0, es0, s2, hfb0, _, hfl, hnk⟩ := lex_inputWrite indent hi k hks.1 buf hb
    have hnl : Sp ['\n'] := by intro c hc; rw [List.mem_singleton] at hc; exact .inr hc
    obtain ⟨ks', b', w, es1, s3, hfb1, hb', ⟨v, hv, hwv⟩, hnks⟩ := lex_inputWriteKids indent hi ks hks.2 ['\n'] (sp_ok hnl)
    refine ⟨k' :: ks', b', (buf ++ indent) ++ w, (e0 ++ es0) ++ es1, ?_, ?_, hb', ⟨indent ++ (['\n'] ++ v), hi.append (hnl.append hv), ?_⟩, by simp only [normL, hnk, hnks]⟩
    · have := lrun_comp s2 s3
      simpa [inputWriteKids, List.append_assoc] using this
    · have := hfb0.append (FlatBody.kid hfl hfb1)
      simpa [List.append_assoc] using this
    · rw [List.append_assoc, hwv]; simp [List.append_assoc]
end

end Verif.Xml
