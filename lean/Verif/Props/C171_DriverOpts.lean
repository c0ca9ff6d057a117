import Verif.Io.DriverOpts
import Verif.Text.Lemmas
import Mathlib.Data.List.Basic

/-!
# C171: the options of a driver reach its parameters
-/

namespace Verif.DriverOpts

open Verif.Text Verif.Values

variable {F : Type}

/-! ## Specification -/

/-- An option as the user writes it: a value, or a name and a value, with any white space in
the texts. -/
inductive Item
  | pos (text : Str)
  | key (name text : Str)

/-- The text of an option. -/
def Item.text : Item → Str
  | .pos t => t
  | .key n t => n ++ '=' :: t

/-- The option can be written: no commas, no equals sign where it would be taken for that of a
named option, and a value without a name is not blank. -/
def Item.Ok : Item → Prop
  | .pos t => ',' ∉ t ∧ '=' ∉ t ∧ strip t ≠ []
  | .key n t => ',' ∉ n ∧ '=' ∉ n ∧ ',' ∉ t

/-- The values without a name, in their order. -/
def positional (ft : FloatText F) : List Item → List (Val F)
  | [] => []
  | .pos t :: l => readValue ft t :: positional ft l
  | .key _ _ :: l => positional ft l

/-- The last value given for a name. -/
def lastFor (ft : FloatText F) (k : Str) : List Item → Option (Val F)
  | [] => none
  | .pos _ :: l => lastFor ft k l
  | .key n t :: l => (lastFor ft k l).orElse
      (fun _ => if strip n = k then some (readValue ft t) else none)

/-! ## Reading the text -/

theorem lookup_insert {V : Type} (d : List (Str × V)) (k k' : Str) (v : V) :
    (Values.insert d k v).lookup k' = if k = k' then some v else d.lookup k' := by
  unfold Values.insert
  split
  · rename_i hk
    induction d with
    | nil => simp at hk
    | cons e d ih =>
      obtain ⟨a, b⟩ := e
      by_cases hak : a = k
      · subst hak
        by_cases hk' : a = k'
        · subst hk'; simp
        · have h3 : (k' == a) = false := by simp [Ne.symm hk']
          simp only [List.map_cons, if_true, List.lookup_cons, h3, if_neg hk']
          by_cases hm : a ∈ d.map (·.1)
          · rw [ih hm, if_neg hk']
          · have : (d.map fun e => if e.1 = a then (a, v) else e) = d := by
              conv_rhs => rw [← List.map_id d]
              refine List.map_congr_left (fun e he => ?_)
              have hea : e.1 ≠ a := fun g => hm (List.mem_map.2 ⟨e, he, g⟩)
              rw [if_neg hea]; rfl
            rw [this]
      · have hm : k ∈ d.map (·.1) := by
          rcases List.mem_cons.1 hk with h | h
          · exact absurd h.symm hak
          · exact h
        simp only [List.map_cons, if_neg hak, List.lookup_cons]
        by_cases hk' : k' = a
        · subst hk'
          simp [Ne.symm hak]
        · simp only [show (k' == a) = false by simp [hk']]
          exact ih hm
  · rename_i hk
    induction d with
    | nil =>
      by_cases h : k = k'
      · subst h; simp [List.lookup_cons]
      · have h3 : (k' == k) = false := by simp [Ne.symm h]
        simp only [List.nil_append, List.lookup_cons, h3, if_neg h, List.lookup_nil]
    | cons e d ih =>
      obtain ⟨a, b⟩ := e
      have hk2 : k ≠ a ∧ k ∉ d.map (·.1) := by
        constructor
        · intro g; exact hk (by simp [g])
        · intro g; exact hk (List.mem_cons_of_mem _ g)
      simp only [List.cons_append, List.lookup_cons]
      by_cases h : k' = a
      · subst h
        simp [hk2.1]
      · simp only [show (k' == a) = false by simp [h]]
        exact ih hk2.2

theorem mem_strip {s : Str} {c : Char} (h : c ∉ s) : c ∉ strip s := fun g => h (mem_of_mem_stripP g)

theorem readValue_strip (ft : FloatText F) (s : Str) : readValue ft (strip s) = readValue ft s := by
  unfold readValue
  rw [show strip (strip s) = strip s from stripP_idem isWs s]

theorem step_pos (ft : FloatText F) (acc : List (Val F) × List (Str × Val F)) (t : Str)
    (h : (Item.pos t).Ok) : step ft acc t = (acc.1 ++ [readValue ft t], acc.2) := by
  obtain ⟨-, h2, h3⟩ := h
  unfold step
  dsimp only
  rw [partition_noSep (mem_strip h2)]
  dsimp only
  rw [if_pos (List.length_pos_iff.2 h3), readValue_strip]

/-- The parts of the stripped text of a named option. -/
theorem strip_key (n t : Str) (hn : '=' ∉ n) :
    ∃ n' t', strip (n ++ '=' :: t) = n' ++ '=' :: t' ∧ '=' ∉ n' ∧ strip n' = strip n ∧
      strip t' = strip t := by
  obtain ⟨w1, h1, hw1⟩ := lstripP_decomp isWs n
  obtain ⟨w2, h2, hw2⟩ := rstripP_decomp isWs t
  refine ⟨lstripP isWs n, rstripP isWs t, ?_, ?_, ?_, ?_⟩
  · have e : n ++ '=' :: t = w1 ++ (lstripP isWs n ++ '=' :: rstripP isWs t) ++ w2 := by
      conv_lhs => rw [h1, h2]
      simp
    rw [e]
    unfold strip
    rw [stripP_append_pad _ _ _ hw1 hw2]
    apply stripP_self
    · intro c hc
      cases hl : lstripP isWs n with
      | nil => rw [hl] at hc; simp at hc; subst hc; decide
      | cons a l =>
        rw [hl] at hc
        simp at hc
        subst hc
        exact dropWhile_head n a (by rw [show n.dropWhile isWs = lstripP isWs n from rfl, hl]; rfl)
    · intro c hc
      by_cases hr : rstripP isWs t = []
      · rw [hr] at hc; simp at hc; subst hc; decide
      · have : (lstripP isWs n ++ '=' :: rstripP isWs t).getLast? = (rstripP isWs t).getLast? := by
          rw [List.getLast?_append]
          rw [List.getLast?_cons]
          cases hg : (rstripP isWs t).getLast? with
          | none => exact absurd (List.getLast?_eq_none_iff.1 hg) hr
          | some x => simp
        rw [this] at hc
        exact rstripP_getLast isWs t c hc
  · intro g
    exact hn (by rw [h1]; exact List.mem_append_right _ g)
  · conv_rhs => rw [h1]
    have := stripP_append_pad (p := isWs) w1 (lstripP isWs n) [] hw1 (by simp)
    simp only [List.append_nil] at this
    exact this.symm
  · conv_rhs => rw [h2]
    have := stripP_append_pad (p := isWs) [] (rstripP isWs t) w2 (by simp) hw2
    simp only [List.nil_append] at this
    exact this.symm

theorem step_key (ft : FloatText F) (acc : List (Val F) × List (Str × Val F)) (n t : Str)
    (h : (Item.key n t).Ok) :
    step ft acc (n ++ '=' :: t) = (acc.1, Values.insert acc.2 (strip n) (readValue ft t)) := by
  obtain ⟨n', t', e, h1, h2, h3⟩ := strip_key n t h.2.1
  unfold step
  dsimp only
  rw [e, partition_append t' h1]
  dsimp only
  rw [h2, ← readValue_strip ft t', h3, readValue_strip]

theorem text_comma (i : Item) (h : i.Ok) : ',' ∉ i.text := by
  cases i with
  | pos t => exact h.1
  | key n t =>
    intro g
    rcases List.mem_append.1 g with g | g
    · exact h.1 g
    · rcases List.mem_cons.1 g with g | g
      · exact absurd g (by decide)
      · exact h.2.2 g

theorem fold_items (ft : FloatText F) (l : List Item) (h : ∀ i ∈ l, i.Ok)
    (acc : List (Val F) × List (Str × Val F)) :
    ((l.map Item.text).foldl (step ft) acc).1 = acc.1 ++ positional ft l ∧
    ∀ k, ((l.map Item.text).foldl (step ft) acc).2.lookup k
      = (lastFor ft k l).orElse (fun _ => acc.2.lookup k) := by
  induction l generalizing acc with
  | nil => simp [positional, lastFor]
  | cons i l ih =>
    have hi := h i (by simp)
    have hl := fun j hj => h j (List.mem_cons_of_mem i hj)
    rw [List.map_cons, List.foldl_cons]
    cases i with
    | pos t =>
      rw [show step ft acc (Item.pos t).text = _ from step_pos ft acc t hi]
      obtain ⟨h1, h2⟩ := ih hl (acc.1 ++ [readValue ft t], acc.2)
      refine ⟨by rw [h1]; simp [positional], fun k => ?_⟩
      rw [h2 k]; rfl
    | key n t =>
      rw [show step ft acc (Item.key n t).text = _ from step_key ft acc n t hi]
      obtain ⟨h1, h2⟩ := ih hl (acc.1, Values.insert acc.2 (strip n) (readValue ft t))
      refine ⟨by rw [h1]; simp [positional], fun k => ?_⟩
      rw [h2 k]
      dsimp only
      rw [lookup_insert]
      rw [show lastFor ft k (.key n t :: l) = (lastFor ft k l).orElse
        (fun _ => if strip n = k then some (readValue ft t) else none) from rfl]
      cases lastFor ft k l with
      | some v => rfl
      | none =>
        by_cases hk : strip n = k
        · simp [hk]
        · simp [hk]

/-- **C171.** The options are read as written, whatever the white space around the values and
names: the values without a name in their order, and for every name the last value given for
it. -/
theorem options_read (ft : FloatText F) (l : List Item) (hne : l ≠ []) (h : ∀ i ∈ l, i.Ok) :
    (readArgsKwargs ft (join [','] (l.map Item.text))).1 = positional ft l ∧
    ∀ k, (readArgsKwargs ft (join [','] (l.map Item.text))).2.lookup k = lastFor ft k l := by
  unfold readArgsKwargs
  rw [splitOn_join _ (by simpa using hne) (by
    intro w hw
    obtain ⟨i, hi, rfl⟩ := List.mem_map.1 hw
    exact text_comma i (h i hi))]
  obtain ⟨h1, h2⟩ := fold_items ft l h ([], [])
  refine ⟨by rw [h1]; rfl, fun k => ?_⟩
  rw [h2 k]
  cases lastFor ft k l <;> rfl

/-- A reader of floating point numbers that knows none, for the examples. -/
def noFloats : FloatText Unit := ⟨fun _ => [], fun _ => none⟩

example : ∀ i ∈ [Item.pos " 3".toList, .key " k2 ".toList "4".toList, .pos "a b".toList], i.Ok := by
  intro i hi
  simp only [List.mem_cons, List.not_mem_nil, or_false] at hi
  rcases hi with rfl | rfl | rfl <;> (simp only [Item.Ok]; decide +kernel)

/-- Without options there is nothing. -/
theorem no_options (ft : FloatText F) : readArgsKwargs ft [] = ([], []) := rfl

/-! ## The parameters of the driver -/

/-- What a named parameter should be: the value at its place, or the last one given for its
name, or the default. -/
def wanted (ft : FloatText F) (l : List Item) (i : Nat) (p : Str × Option (Val F)) :
    Option (Val F) :=
  ((positional ft l)[i]?).orElse fun _ => (lastFor ft p.1 l).orElse fun _ => p.2

theorem fill_ok {V : Type} (args : List V) (kw : List (Str × V)) :
    ∀ (ps : List (Str × Option V)) (i : Nat) (b : List (Str × V)), fill args kw i ps = .ok b →
      b.length = ps.length ∧ ∀ (j : Nat) (p : Str × Option V), ps[j]? = some p →
        ∃ v, b[j]? = some (p.1, v) ∧
          (args[i + j]?).orElse (fun _ => (kw.lookup p.1).orElse fun _ => p.2) = some v := by
  intro ps
  induction ps with
  | nil => intro i b h; cases h; exact ⟨rfl, by simp⟩
  | cons p ps ih =>
    intro i b h
    unfold fill at h
    cases hp : param args kw p i with
    | error e => rw [hp] at h; cases h
    | ok v =>
      rw [hp] at h
      dsimp only at h
      cases hf : fill args kw (i + 1) ps with
      | error e => rw [hf] at h; cases h
      | ok bs =>
        rw [hf] at h
        cases h
        obtain ⟨h1, h2⟩ := ih (i + 1) bs hf
        refine ⟨by simp [h1], ?_⟩
        intro j q hq
        cases j with
        | zero =>
          simp only [List.getElem?_cons_zero, Option.some.injEq] at hq
          subst hq
          unfold param at hp
          cases ha : args[i]? with
          | some x => rw [ha] at hp; cases hp; exact ⟨x, rfl, by simp [ha]⟩
          | none =>
            rw [ha] at hp
            dsimp only at hp
            cases hk : kw.lookup p.1 with
            | some x => rw [hk] at hp; cases hp; exact ⟨x, rfl, by simp [ha]⟩
            | none =>
              rw [hk] at hp
              dsimp only at hp
              cases hd : p.2 with
              | some x => rw [hd] at hp; cases hp; exact ⟨x, rfl, by simp [ha]⟩
              | none => rw [hd] at hp; cases hp
        | succ j =>
          simp only [List.getElem?_cons_succ] at hq ⊢
          obtain ⟨v', e1, e2⟩ := h2 j q hq
          exact ⟨v', e1, by rw [show i + (j + 1) = i + 1 + j by omega]; exact e2⟩

theorem fill_error {V : Type} (args : List V) (kw : List (Str × V)) :
    ∀ (ps : List (Str × Option V)) (i : Nat) (e : Err), fill args kw i ps = .error e →
      ∃ (j : Nat) (p : Str × Option V), ps[j]? = some p ∧
        (args[i + j]?).orElse (fun _ => (kw.lookup p.1).orElse fun _ => p.2) = none := by
  intro ps
  induction ps with
  | nil => intro i e h; cases h
  | cons p ps ih =>
    intro i e h
    unfold fill at h
    cases hp : param args kw p i with
    | error e' =>
      refine ⟨0, p, rfl, ?_⟩
      unfold param at hp
      cases ha : args[i]? with
      | some x => rw [ha] at hp; cases hp
      | none =>
        rw [ha] at hp
        dsimp only at hp
        cases hk : kw.lookup p.1 with
        | some x => rw [hk] at hp; cases hp
        | none =>
          rw [hk] at hp
          dsimp only at hp
          cases hd : p.2 with
          | some x => rw [hd] at hp; cases hp
          | none => simp [ha]
    | ok v =>
      rw [hp] at h
      dsimp only at h
      cases hf : fill args kw (i + 1) ps with
      | error e' =>
        obtain ⟨j, q, h1, h2⟩ := ih (i + 1) e' hf
        exact ⟨j + 1, q, by simpa using h1, by
          rw [show i + (j + 1) = i + 1 + j by omega]; exact h2⟩
      | ok bs => rw [hf] at h; cases h

/-- **C171.** If the driver starts, every named parameter has the value at its place among the
values without a name, else the last one given for its name, else its default. -/
theorem parameters_set (ft : FloatText F) (params : List (Str × Option (Val F))) (l : List Item)
    (hne : l ≠ []) (h : ∀ i ∈ l, i.Ok) (b : Bound (Val F))
    (hb : start ft params (join [','] (l.map Item.text)) = .ok b) :
    b.named.length = params.length ∧
    (∀ j p, params[j]? = some p → ∃ v, b.named[j]? = some (p.1, v) ∧ wanted ft l j p = some v) ∧
    b.args = (positional ft l).drop params.length := by
  obtain ⟨h1, h2⟩ := options_read ft l hne h
  unfold start bindCall at hb
  split at hb
  · cases hb
  · cases hf : fill (readArgsKwargs ft (join [','] (l.map Item.text))).1
        (readArgsKwargs ft (join [','] (l.map Item.text))).2 0 params with
    | error e => rw [hf] at hb; cases hb
    | ok nm =>
      rw [hf] at hb
      cases hb
      obtain ⟨g1, g2⟩ := fill_ok _ _ _ _ _ hf
      refine ⟨g1, ?_, by dsimp only; rw [h1]⟩
      intro j p hp
      obtain ⟨v, e1, e2⟩ := g2 j p hp
      refine ⟨v, e1, ?_⟩
      rw [h1, h2, Nat.zero_add] at e2
      exact e2

theorem any_lookup {V : Type} (kw : List (Str × V)) (p : Str → Bool) :
    kw.any (fun e => p e.1) = true ↔ ∃ k, kw.lookup k ≠ none ∧ p k = true := by
  induction kw with
  | nil => simp
  | cons e kw ih =>
    obtain ⟨a, v⟩ := e
    rw [List.any_cons, Bool.or_eq_true, ih]
    constructor
    · rintro (h | ⟨k, h1, h2⟩)
      · exact ⟨a, by simp [List.lookup_cons], h⟩
      · refine ⟨k, ?_, h2⟩
        rw [List.lookup_cons]
        split
        · simp
        · exact h1
    · rintro ⟨k, h1, h2⟩
      by_cases hk : k = a
      · subst hk; exact Or.inl h2
      · right
        refine ⟨k, ?_, h2⟩
        rw [List.lookup_cons, show (k == a) = false by simp [hk]] at h1
        exact h1

/-- **C171.** The driver is refused exactly if a parameter is given both by its place and by
its name, or a parameter without default is not given, or there is an option called `self`. -/
theorem refused_iff (ft : FloatText F) (params : List (Str × Option (Val F))) (l : List Item)
    (hne : l ≠ []) (h : ∀ i ∈ l, i.Ok) :
    start ft params (join [','] (l.map Item.text)) = .error .typeError ↔
      (lastFor ft "self".toList l ≠ none) ∨
      (∃ j p, params[j]? = some p ∧ j < (positional ft l).length ∧ lastFor ft p.1 l ≠ none) ∨
      (∃ j p, params[j]? = some p ∧ wanted ft l j p = none) := by
  obtain ⟨h1, h2⟩ := options_read ft l hne h
  unfold start bindCall
  generalize hA : (readArgsKwargs ft (join [','] (l.map Item.text))).1 = A at *
  generalize hK : (readArgsKwargs ft (join [','] (l.map Item.text))).2 = K at *
  subst h1
  have hclash : K.any (fun e => e.1 == "self".toList ||
      ((params.take (positional ft l).length).map (·.1)).contains e.1) = true ↔
      (lastFor ft "self".toList l ≠ none) ∨
      (∃ j p, params[j]? = some p ∧ j < (positional ft l).length ∧ lastFor ft p.1 l ≠ none) := by
    rw [any_lookup K (fun k => k == "self".toList ||
      ((params.take (positional ft l).length).map (·.1)).contains k)]
    constructor
    · rintro ⟨k, g1, g2⟩
      rw [h2] at g1
      rw [Bool.or_eq_true] at g2
      rcases g2 with g2 | g2
      · rw [beq_iff_eq] at g2; subst g2; exact Or.inl g1
      · right
        rw [List.contains_iff_mem] at g2
        obtain ⟨p, hp, rfl⟩ := List.mem_map.1 g2
        obtain ⟨j, hj, rfl⟩ := List.mem_iff_getElem.1 hp
        rw [List.length_take] at hj
        refine ⟨j, params[j], List.getElem?_eq_getElem (by omega), by omega, ?_⟩
        simpa using g1
    · rintro (g | ⟨j, p, g1, g2, g3⟩)
      · exact ⟨_, by rw [h2]; exact g, by simp⟩
      · refine ⟨p.1, by rw [h2]; exact g3, ?_⟩
        rw [Bool.or_eq_true]
        right
        rw [List.contains_iff_mem]
        refine List.mem_map.2 ⟨p, ?_, rfl⟩
        refine List.mem_iff_getElem?.2 ⟨j, ?_⟩
        rw [List.getElem?_take_of_lt g2, g1]
  by_cases hc : K.any (fun e => e.1 == "self".toList ||
      ((params.take (positional ft l).length).map (·.1)).contains e.1) = true
  · rw [if_pos hc]
    refine ⟨fun _ => ?_, fun _ => rfl⟩
    rcases hclash.1 hc with g | g
    · exact Or.inl g
    · exact Or.inr (Or.inl g)
  · rw [if_neg hc]
    have hn := fun g => hc (hclash.2 g)
    cases hf : fill (positional ft l) K 0 params with
    | error e =>
      obtain ⟨j, p, g1, g2⟩ := fill_error _ _ _ _ _ hf
      refine ⟨fun _ => Or.inr (Or.inr ⟨j, p, g1, ?_⟩), fun _ => by cases e; rfl⟩
      rw [Nat.zero_add, h2] at g2
      exact g2
    | ok nm =>
      refine ⟨fun g => (nomatch g), fun g => ?_⟩
      exfalso
      rcases g with g | g | ⟨j, p, g1, g2⟩
      · exact hn (Or.inl g)
      · exact hn (Or.inr g)
      · obtain ⟨v, -, e2⟩ := (fill_ok _ _ _ _ _ hf).2 j p g1
        rw [Nat.zero_add, h2] at e2
        unfold wanted at g2
        rw [g2] at e2
        cases e2

/-! ## What goes wrong -/

/-- The parameters of the harmonic potential (`harmonic.py` L25), with a number for `None`. -/
def harmonic : List (Str × Option (Val Unit)) :=
  [("k1".toList, none), ("k2".toList, some (.int 0)), ("k3".toList, some (.int 0))]

/-- **C171 fails for misspelt names.** An option whose name is not that of a parameter is
taken silently: the parameters are those of the driver without this option. -/
theorem unknown_option_ignored :
    (start noFloats harmonic "3, K2=4".toList).map (fun b => b.named)
      = (start noFloats harmonic "3".toList).map (fun b => b.named) ∧
    (start noFloats harmonic "3".toList).map (fun b => b.named)
      = .ok [("k1".toList, .int 3), ("k2".toList, .int 0), ("k3".toList, .int 0)] := by
  constructor <;> rfl

/-- The values of the parameters do not depend on an option with another name. -/
theorem lastFor_other (ft : FloatText F) (l : List Item) (n t k : Str) (h : strip n ≠ k) :
    lastFor ft k (.key n t :: l) = lastFor ft k l := by
  rw [show lastFor ft k (.key n t :: l) = (lastFor ft k l).orElse
    (fun _ => if strip n = k then some (readValue ft t) else none) from rfl, if_neg h]
  cases lastFor ft k l <;> rfl

/-- In general: with a further name that is neither that of a parameter nor `self`, the driver
still starts, with the same named parameters. -/
theorem unknown_name (ft : FloatText F) (params : List (Str × Option (Val F))) (l : List Item)
    (n t : Str) (hne : l ≠ []) (h : ∀ i ∈ l, i.Ok) (hk : (Item.key n t).Ok)
    (hn : strip n ∉ params.map (·.1)) (hs : strip n ≠ "self".toList) (b : Bound (Val F))
    (hb : start ft params (join [','] (l.map Item.text)) = .ok b) :
    ∃ b', start ft params (join [','] ((Item.key n t :: l).map Item.text)) = .ok b' ∧
      b'.named = b.named := by
  have hl' : ∀ i ∈ Item.key n t :: l, i.Ok := by
    intro i hi; rcases List.mem_cons.1 hi with rfl | hi; exacts [hk, h i hi]
  have hpar : ∀ (j : Nat) (p : Str × Option (Val F)), params[j]? = some p → strip n ≠ p.1 := by
    intro j p hp g
    exact hn (List.mem_map.2 ⟨p, List.mem_of_getElem? hp, g.symm⟩)
  have hw : ∀ (j : Nat) (p : Str × Option (Val F)), params[j]? = some p →
      wanted ft (.key n t :: l) j p = wanted ft l j p := by
    intro j p hp
    unfold wanted
    rw [lastFor_other ft l n t p.1 (hpar j p hp)]; rfl
  cases hb' : start ft params (join [','] ((Item.key n t :: l).map Item.text)) with
  | error e =>
    exfalso
    have hno : start ft params (join [','] (l.map Item.text)) = .error .typeError := by
      rw [refused_iff ft params l hne h]
      cases e
      rcases (refused_iff ft params _ (by simp) hl').1 hb' with g | ⟨j, p, g1, g2, g3⟩ | ⟨j, p, g1, g2⟩
      · rw [lastFor_other ft l n t _ hs] at g; exact Or.inl g
      · rw [lastFor_other ft l n t _ (hpar j p g1)] at g3
        exact Or.inr (Or.inl ⟨j, p, g1, g2, g3⟩)
      · rw [hw j p g1] at g2
        exact Or.inr (Or.inr ⟨j, p, g1, g2⟩)
    rw [hb] at hno
    cases hno
  | ok b' =>
    refine ⟨b', rfl, ?_⟩
    obtain ⟨a1, a2, -⟩ := parameters_set ft params l hne h b hb
    obtain ⟨c1, c2, -⟩ := parameters_set ft params (.key n t :: l) (by simp) hl' b' hb'
    apply List.ext_getElem?
    intro j
    by_cases hj : j < params.length
    · obtain ⟨v, e1, e2⟩ := a2 j params[j] (List.getElem?_eq_getElem hj)
      obtain ⟨v', f1, f2⟩ := c2 j params[j] (List.getElem?_eq_getElem hj)
      rw [hw _ _ (List.getElem?_eq_getElem hj), e2] at f2
      cases f2
      rw [e1, f1]
    · rw [List.getElem?_eq_none (by omega), List.getElem?_eq_none (by omega)]

/-- **C171 fails for texts that look like numbers or contain separators**: a file called `007`
arrives as the number seven, `on,off` as two values, `x=1.xyz` as a named option, and blank
values are left out, which moves the later ones. -/
theorem texts_changed :
    readArgsKwargs noFloats "007".toList = ([.int 7], []) ∧
    readArgsKwargs noFloats "on,off".toList = ([.str "on".toList, .str "off".toList], []) ∧
    readArgsKwargs noFloats "x=a.xyz".toList = ([], [("x".toList, .str "a.xyz".toList)]) ∧
    readArgsKwargs noFloats "1,,3".toList = ([.int 1, .int 3], []) :=
  ⟨rfl, rfl, rfl, rfl⟩

theorem lookup_filter {V : Type} (p : Str → Bool) : ∀ (kw : List (Str × V)) (k : Str),
    (kw.filter fun e => p e.1).lookup k = if p k then kw.lookup k else none
  | [], k => by simp
  | (a, v) :: kw, k => by
    have ih := lookup_filter p kw k
    by_cases h : k = a
    · subst h
      by_cases hp : p k = true
      · simp [List.filter_cons, hp]
      · simp only [List.filter_cons, hp, if_neg, Bool.false_eq_true, not_false_eq_true] at ih ⊢
        exact ih
    · have hb : (k == a) = false := by simpa using h
      by_cases hp : p a = true
      · simp only [List.filter_cons, hp, if_true, List.lookup_cons, hb]
        exact ih
      · simp only [List.filter_cons, hp, Bool.false_eq_true, if_false, List.lookup_cons, hb]
        exact ih

/-- **C171.** What the constructor gets besides its named parameters: the values of the names that are not among them, and no
others. -/
theorem other_names (ft : FloatText F) (params : List (Str × Option (Val F))) (l : List Item)
    (hne : l ≠ []) (h : ∀ i ∈ l, i.Ok) (b : Bound (Val F))
    (hb : start ft params (join [','] (l.map Item.text)) = .ok b) (k : Str) :
    b.kwargs.lookup k = if k ∈ params.map (·.1) then none else lastFor ft k l := by
  obtain ⟨h1, h2⟩ := options_read ft l hne h
  unfold start bindCall at hb
  split at hb
  · cases hb
  · cases hf : fill (readArgsKwargs ft (join [','] (l.map Item.text))).1
        (readArgsKwargs ft (join [','] (l.map Item.text))).2 0 params with
    | error e => rw [hf] at hb; cases hb
    | ok nm =>
      rw [hf] at hb
      cases hb
      dsimp only
      rw [lookup_filter (fun a => !(params.map (·.1)).contains a), h2]
      by_cases hk : k ∈ params.map (·.1)
      · rw [if_pos hk, if_neg (by simpa using hk)]
      · rw [if_neg hk, if_pos (by simpa using hk)]

end Verif.DriverOpts
