import Verif.Out.Keys
import Verif.Io.ValuesLemmas
/-!
# C50: property keys

`name{unit}(arg1;arg2)` is parsed into exactly these parts, for every name, unit and argument list without the special characters. An
argument list that is not closed and a unit closed before it is opened are rejected. A key with `}` but no `{` is accepted, with the name as
unit: `stray_brace_accepted`; text after the unit is ignored: `trailing_text_ignored`.
-/
namespace Verif.Keys
open Verif.Text Verif.Values

/-! ### finding and slicing -/

theorem clip_of_le {n i : Nat} (h : i ≤ n) : clip n (i : Int) = i := by
  unfold clip
  rw [if_neg (by omega), Int.toNat_natCast]
  omega

theorem findIdx_append {c : Char} {a b : Str} (h : c ∉ a) : (a ++ c :: b).findIdx? (fun x => decide (x = c)) = some a.length := by
  induction a with
  | nil => simp [List.findIdx?_cons]
  | cons x a ih =>
    simp only [List.mem_cons, not_or] at h
    rw [List.cons_append, List.findIdx?_cons]
    simp only [Ne.symm h.1, decide_false, ih h.2]
    simp

theorem findIdx_none {c : Char} {a : Str} (h : c ∉ a) : a.findIdx? (fun x => decide (x = c)) = none := by
  rw [List.findIdx?_eq_none_iff]
  intro x hx
  simp only [decide_eq_false_iff_not]
  exact fun e => h (e ▸ hx)

theorem pyFind_at {c : Char} {a b d : Str} (h : c ∉ b) : pyFind (a ++ b ++ c :: d) c (a.length : Int) = ((a.length + b.length : Nat) : Int) := by
  unfold pyFind
  have hl : a.length ≤ (a ++ b ++ c :: d).length := by simp only [List.length_append]; omega
  rw [clip_of_le hl, List.append_assoc, List.drop_left, findIdx_append h]

theorem pyFind_zero {c : Char} {b d : Str} (h : c ∉ b) : pyFind (b ++ c :: d) c 0 = (b.length : Int) := by
  have := pyFind_at (a := []) (b := b) (d := d) h
  simpa using this

theorem pyFind_none {c : Char} {p : Str} (h : c ∉ p) (i : Int) : pyFind p c i = -1 := by
  unfold pyFind
  rw [findIdx_none (fun hm => h (List.mem_of_mem_drop hm))]

theorem pyFind_tail_none {c : Char} {a b : Str} (h : c ∉ b) : pyFind (a ++ b) c (a.length : Int) = -1 := by
  unfold pyFind
  have hl : a.length ≤ (a ++ b).length := by simp only [List.length_append]; omega
  rw [clip_of_le hl, List.drop_left, findIdx_none h]

theorem slice_mid (a b d : Str) : slice (a ++ b ++ d) (a.length : Int) ((a.length + b.length : Nat) : Int) = b := by
  unfold slice
  have h1 : a.length ≤ (a ++ b ++ d).length := by simp only [List.length_append]; omega
  have h2 : a.length + b.length ≤ (a ++ b ++ d).length := by simp only [List.length_append]; omega
  rw [clip_of_le h1, clip_of_le h2]
  have : (a ++ b ++ d).take (a.length + b.length) = a ++ b := by
    rw [← List.length_append, List.take_left]
  rw [this, List.drop_left]

theorem slice_front (a d : Str) : slice (a ++ d) 0 (a.length : Int) = a := by
  have := slice_mid [] a d
  simpa using this

/-! ### composing keys -/

/-- An argument: positional or keyword. -/
inductive Arg where
  | pos (s : Str)
  | kw (k v : Str)

def Arg.text : Arg → Str
  | .pos s => s
  | .kw k v => k ++ '=' :: v

def Arg.isKw : Arg → Bool
  | .pos _ => false
  | .kw _ _ => true

/-- `{unit}` -/
def unitText : Option Str → Str
  | none => []
  | some u => '{' :: (u ++ ['}'])

/-- `(arg1;arg2)` -/
def argText : Option (List Arg) → Str
  | none => []
  | some as => '(' :: (join [';'] (as.map Arg.text) ++ [')'])

/-- None of the special characters. -/
def Free (s : Str) : Prop := ∀ c ∈ s, c ≠ '{' ∧ c ≠ '}' ∧ c ≠ '(' ∧ c ≠ ')' ∧ c ≠ ';' ∧ c ≠ '='

def Arg.Ok : Arg → Prop
  | .pos s => Free s ∧ stripP listStrip s = s
  | .kw k v => Free k ∧ Free v ∧ stripP listStrip (k ++ '=' :: v) = k ++ '=' :: v

def positional : List Arg → List Str
  | [] => []
  | .pos s :: as => s :: positional as
  | .kw _ _ :: as => positional as

/-- Keyword and value, without the blanks around them. -/
def keywords : List Arg → List (Str × Str)
  | [] => []
  | .pos _ :: as => keywords as
  | .kw k v :: as => (strip k, strip v) :: keywords as

/-! ### arguments -/

theorem Free.notMem {s : Str} (h : Free s) : '{' ∉ s ∧ '}' ∉ s ∧ '(' ∉ s ∧ ')' ∉ s ∧ ';' ∉ s ∧ '=' ∉ s :=
  ⟨fun hm => (h _ hm).1 rfl, fun hm => (h _ hm).2.1 rfl, fun hm => (h _ hm).2.2.1 rfl, fun hm => (h _ hm).2.2.2.1 rfl, fun hm => (h _ hm).2.2.2.2.1 rfl,
    fun hm => (h _ hm).2.2.2.2.2 rfl⟩

theorem text_chars {a : Arg} (h : a.Ok) : ∀ c ∈ a.text, c ≠ '{' ∧ c ≠ '}' ∧ c ≠ '(' ∧ c ≠ ')' ∧ c ≠ ';' := by
  cases a with
  | pos s => intro c hc; obtain ⟨a, b, c, d, e, _⟩ := h.1 c hc; exact ⟨a, b, c, d, e⟩
  | kw k v =>
    intro c hc
    simp only [Arg.text, List.mem_append, List.mem_cons] at hc
    rcases hc with hc | rfl | hc
    · obtain ⟨a, b, c, d, e, _⟩ := h.1 c hc; exact ⟨a, b, c, d, e⟩
    · decide
    · obtain ⟨a, b, c, d, e, _⟩ := h.2.1 c hc; exact ⟨a, b, c, d, e⟩

theorem text_strip {a : Arg} (h : a.Ok) : stripP listStrip a.text = a.text := by
  cases a with
  | pos s => exact h.2
  | kw k v => exact h.2.2

theorem join_chars {P : Char → Prop} {sep : Char} (hs : P sep) : ∀ (ws : List Str), (∀ w ∈ ws, ∀ c ∈ w, P c) → ∀ c ∈ join [sep] ws, P c
  | [], _, c, hc => by cases hc
  | [w], h, c, hc => h w List.mem_cons_self c hc
  | w :: w' :: ws, h, c, hc => by
    simp only [join, List.append_assoc, List.mem_append, List.mem_singleton] at hc
    rcases hc with hc | rfl | hc
    · exact h w List.mem_cons_self c hc
    · exact hs
    · exact join_chars hs (w' :: ws) (fun x hx => h x (List.mem_cons_of_mem _ hx)) c hc

theorem readList_args {as : List Arg} (h : ∀ a ∈ as, a.Ok) (hne : as.map Arg.text ≠ [[]]) : readList '(' ')' ';' listStrip (argText (some as)) = some (as.map Arg.text) := by
  have hc : ∀ c ∈ join [';'] (as.map Arg.text), c ≠ '(' ∧ c ≠ ')' := by
    refine join_chars (P := fun c => c ≠ '(' ∧ c ≠ ')') (by decide) _ ?_
    intro w hw c hcw
    obtain ⟨a, ha, rfl⟩ := List.mem_map.1 hw
    have := text_chars (h a ha) c hcw
    exact ⟨this.2.2.1, this.2.2.2.1⟩
  have hb : between '(' ')' (argText (some as)) = some (join [';'] (as.map Arg.text)) := by
    have := between_text (d1 := '(') (d2 := ')') (by decide) (a := []) (b := join [';'] (as.map Arg.text)) [] (by simp) (by simp) (fun hm => (hc _ hm).2 rfl)
    simpa [argText] using this
  simp only [readList, hb]
  cases as with
  | nil => simp [join, splitOn, stripP, lstripP, rstripP]
  | cons a as =>
    rw [splitOn_join _ (by simp) ?_]
    · have : ((a :: as).map Arg.text).map (stripP listStrip) = (a :: as).map Arg.text := by
        rw [List.map_map]
        refine List.map_congr_left ?_
        intro x hx
        exact text_strip (h x hx)
      rw [this, if_neg hne]
    · intro w hw
      obtain ⟨x, hx, rfl⟩ := List.mem_map.1 hw
      exact fun hm => (text_chars (h x hx) _ hm).2.2.2.2 rfl

theorem splitArgs_spec : ∀ (as : List Arg) (left : List Str) (kw : List (Str × Str)), (∀ a ∈ as, a.Ok) →
    splitArgs (as.map Arg.text) left kw =
      (left.filter (fun x => !as.any fun a => a.isKw && decide (x = a.text)), (keywords as).foldl (fun d e => insert d e.1 e.2) kw) := by
  intro as
  induction as with
  | nil =>
    intro left kw _
    simp only [List.map_nil, splitArgs, keywords, List.foldl_nil, List.any_nil, Bool.not_false]
    rw [List.filter_eq_self.2 (fun _ _ => rfl)]
  | cons a as ih =>
    intro left kw h
    have ih' := fun l k => ih l k (fun x hx => h x (List.mem_cons_of_mem _ hx))
    cases a with
    | pos s =>
      have hs : '=' ∉ s := (h _ List.mem_cons_self).1.notMem.2.2.2.2.2
      simp only [List.map_cons, Arg.text, splitArgs, partition_noSep hs, ih', keywords, List.any_cons, Arg.isKw, Bool.false_and, Bool.false_or]
    | kw k v =>
      have hk := h _ List.mem_cons_self
      have hke : '=' ∉ k := hk.1.notMem.2.2.2.2.2
      simp only [List.map_cons, Arg.text, splitArgs, partition_append v hke, ih', keywords, List.foldl_cons, List.filter_filter]
      congr 2
      funext x
      simp only [List.any_cons, Arg.isKw, Bool.true_and]
      by_cases hx : x = k ++ '=' :: v <;> simp [hx]

theorem filter_positional {all : List Arg} (hall : ∀ a ∈ all, a.Ok) : ∀ (as : List Arg), (∀ a ∈ as, a ∈ all) →
    (as.map Arg.text).filter (fun x => !all.any fun a => a.isKw && decide (x = a.text)) = positional as := by
  intro as
  induction as with
  | nil => intro _; rfl
  | cons a as ih =>
    intro h
    have ih' := ih fun x hx => h x (List.mem_cons_of_mem _ hx)
    cases a with
    | pos s =>
      have hs : '=' ∉ s := (hall _ (h _ List.mem_cons_self)).1.notMem.2.2.2.2.2
      rw [List.map_cons, List.filter_cons_of_pos]
      · rw [ih']; rfl
      · simp only [Bool.not_eq_true', List.any_eq_false, Bool.and_eq_true, decide_eq_true_eq, not_and]
        intro a _ hk e
        cases a with
        | pos _ => cases hk
        | kw k v =>
          simp only [Arg.text] at e
          rw [e] at hs
          exact hs (by simp)
    | kw k v =>
      rw [List.map_cons, List.filter_cons_of_neg]
      · rw [ih']; rfl
      · simp only [Bool.not_eq_true', List.any_eq_false, Bool.and_eq_true, decide_eq_true_eq, not_and]
        intro hh
        exact hh _ (h _ List.mem_cons_self) rfl rfl

/-- Result of the arguments. -/
def argResult : Option (List Arg) → List Str × List (Str × Str)
  | none => ([], [])
  | some as => (positional as, (keywords as).foldl (fun d e => insert d e.1 e.2) [])

/-- A list of arguments that can be written: each is plain, and it is not the single empty argument. -/
def ArgsOk : Option (List Arg) → Prop
  | none => True
  | some as => (∀ a ∈ as, a.Ok) ∧ as.map Arg.text ≠ [[]]

theorem argText_chars {as : Option (List Arg)} (h : ArgsOk as) : ∀ c ∈ argText as, c ≠ '{' ∧ c ≠ '}' := by
  match as, h with
  | none, _ => intro c hc; cases hc
  | some as, h =>
    intro c hc
    simp only [argText, List.mem_cons, List.mem_append, List.not_mem_nil, or_false] at hc
    rcases hc with rfl | hc | rfl
    · decide
    · refine join_chars (P := fun c => c ≠ '{' ∧ c ≠ '}') (by decide) _ ?_ c hc
      intro w hw c hcw
      obtain ⟨a, ha, rfl⟩ := List.mem_map.1 hw
      have := text_chars (h.1 a ha) c hcw
      exact ⟨this.1, this.2.1⟩
    · decide

/-- Where a part starts: the end of the key if it is absent. -/
def startAt {α : Type} (o : Option α) (pre total : Nat) : Int := if o.isSome then (pre : Int) else (total : Int)

theorem getUnit_text (pre : Str) (u : Option Str) (post : Str) (hpre : '{' ∉ pre ∧ '}' ∉ pre) (hu : ∀ s, u = some s → '{' ∉ s ∧ '}' ∉ s)
    (hpost : '{' ∉ post ∧ '}' ∉ post) : getUnit (pre ++ unitText u ++ post) =
      some (startAt u pre.length (pre ++ unitText u ++ post).length, u.getD []) := by
  cases u with
  | none =>
    have : '}' ∉ pre ++ unitText none ++ post := by
      simp only [unitText, List.append_nil, List.mem_append, not_or]; exact ⟨hpre.2, hpost.2⟩
    simp only [getUnit, if_neg this]; rfl
  | some s =>
    obtain ⟨h1, h2⟩ := hu s rfl
    have e : pre ++ unitText (some s) ++ post = pre ++ '{' :: (s ++ '}' :: post) := by simp [unitText]
    have hm : '}' ∈ pre ++ unitText (some s) ++ post := by simp [unitText]
    have f1 : pyFind (pre ++ unitText (some s) ++ post) '{' 0 = (pre.length : Int) := by rw [e]; exact pyFind_zero hpre.1
    have f2 : pyFind (pre ++ unitText (some s) ++ post) '}' (pre.length : Int) = ((pre.length + (s.length + 1) : Nat) : Int) := by
      have := pyFind_at (c := '}') (a := pre) (b := '{' :: s) (d := post) (by simp [h2])
      have e' : pre ++ unitText (some s) ++ post = pre ++ '{' :: s ++ '}' :: post := by simp [unitText]
      rw [e', this]; simp
    have f3 : slice (pre ++ unitText (some s) ++ post) ((pre.length : Int) + 1) ((pre.length + (s.length + 1) : Nat) : Int) = s := by
      have := slice_mid (pre ++ ['{']) s ('}' :: post)
      have e' : pre ++ unitText (some s) ++ post = pre ++ ['{'] ++ s ++ '}' :: post := by simp [unitText]
      have e1 : (pre.length : Int) + 1 = ((pre ++ ['{']).length : Int) := by simp
      have e2 : pre.length + (s.length + 1) = (pre ++ ['{']).length + s.length := by simp only [List.length_append, List.length_singleton]; omega
      rw [e', e1, e2, this]
    simp only [getUnit, if_pos hm, f1, f2]
    rw [if_neg (by omega), f3]
    rfl

theorem getArgs_text (pre : Str) (as : Option (List Arg)) (post : Str) (hpre : '(' ∉ pre) (ha : ArgsOk as) (hpost : '(' ∉ post) :
    getArgs (pre ++ argText as ++ post) =
      some (startAt as pre.length (pre ++ argText as ++ post).length, argResult as) := by
  cases as with
  | none =>
    have : '(' ∉ pre ++ argText none ++ post := by
      simp only [argText, List.append_nil, List.mem_append, not_or]; exact ⟨hpre, hpost⟩
    simp only [getArgs, if_neg this]; rfl
  | some as =>
    have hb : ')' ∉ '(' :: join [';'] (as.map Arg.text) := by
      simp only [List.mem_cons, not_or]
      refine ⟨by decide, fun hm => ?_⟩
      have := join_chars (P := fun c => c ≠ ')') (sep := ';') (by decide) (as.map Arg.text) (by
        intro w hw c hcw
        obtain ⟨a, haa, rfl⟩ := List.mem_map.1 hw
        exact (text_chars (ha.1 a haa) c hcw).2.2.2.1) _ hm
      exact this rfl
    have hm : '(' ∈ pre ++ argText (some as) ++ post := by simp [argText]
    have f1 : pyFind (pre ++ argText (some as) ++ post) '(' 0 = (pre.length : Int) := by
      have e : pre ++ argText (some as) ++ post = pre ++ '(' :: (join [';'] (as.map Arg.text) ++ ')' :: post) := by simp [argText]
      rw [e]; exact pyFind_zero hpre
    have f2 : pyFind (pre ++ argText (some as) ++ post) ')' (pre.length : Int) = ((pre.length + ((join [';'] (as.map Arg.text)).length + 1) : Nat) : Int) := by
      have := pyFind_at (c := ')') (a := pre) (b := '(' :: join [';'] (as.map Arg.text)) (d := post) hb
      have e' : pre ++ argText (some as) ++ post = pre ++ '(' :: join [';'] (as.map Arg.text) ++ ')' :: post := by simp [argText]
      rw [e', this]; simp
    have f3 : slice (pre ++ argText (some as) ++ post) (pre.length : Int) (((pre.length + ((join [';'] (as.map Arg.text)).length + 1) : Nat) : Int) + 1) = argText (some as) := by
      have := slice_mid pre (argText (some as)) post
      have e2 : ((pre.length + ((join [';'] (as.map Arg.text)).length + 1) : Nat) : Int) + 1 = ((pre.length + (argText (some as)).length : Nat) : Int) := by
        simp only [argText, List.length_cons, List.length_append, List.length_nil]; omega
      rw [e2, this]
    simp only [getArgs, if_pos hm, f1, f2]
    rw [if_neg (by omega), f3, readList_args ha.1 ha.2, Option.map_some, splitArgs_spec as _ [] ha.1, filter_positional ha.1 as fun a h => h]
    rfl

/-- A name: plain characters, no blanks around it. -/
def NameOk (s : Str) : Prop := Free s ∧ strip s = s

/-- `name{unit}(args)` is parsed into its parts. -/
theorem key_parsed {name : Str} (hn : NameOk name) {unit : Option Str} (hu : ∀ s, unit = some s → Free s) {args : Option (List Arg)} (ha : ArgsOk args) :
    getall (name ++ unitText unit ++ argText args) = some (name, unit.getD [], (argResult args).1, (argResult args).2) := by
  obtain ⟨n1, n2, n3, n4, n5, n6⟩ := hn.1.notMem
  have hac := argText_chars ha
  have h1 := getUnit_text name unit (argText args) ⟨n1, n2⟩ (fun s hs => ⟨(hu s hs).notMem.1, (hu s hs).notMem.2.1⟩) ⟨fun hm => (hac _ hm).1 rfl, fun hm => (hac _ hm).2 rfl⟩
  have hpre : '(' ∉ name ++ unitText unit := by
    rw [List.mem_append, not_or]
    refine ⟨n3, ?_⟩
    cases unit with
    | none => simp [unitText]
    | some s => simp [unitText, (hu s rfl).notMem.2.2.1]
  have h2 := getArgs_text (name ++ unitText unit) args [] hpre ha (by simp)
  rw [List.append_nil] at h2
  simp only [getall, h1, h2]
  congr 2
  have : slice (name ++ unitText unit ++ argText args) 0 (name.length : Int) = name := by
    rw [List.append_assoc]; exact slice_front name _
  cases unit with
  | some s =>
    have hmin : min (startAt (some s) name.length (name ++ unitText (some s) ++ argText args).length) (startAt args (name ++ unitText (some s)).length (name ++ unitText (some s) ++ argText args).length) = (name.length : Int) := by
      cases args <;> simp only [startAt, List.length_append, Option.isSome_some, Option.isSome_none, if_true, Bool.false_eq_true, if_false] <;> omega
    rw [hmin, this, hn.2]
  | none =>
    cases args with
    | some as =>
      have hmin : min ((name ++ unitText none ++ argText (some as)).length : Int) ((name ++ unitText none).length : Int) = (name.length : Int) := by
        simp only [unitText, List.append_nil, List.length_append]; omega
      simp only [startAt, Option.isSome_some, Option.isSome_none, if_true, Bool.false_eq_true, if_false]
      rw [hmin, this, hn.2]
    | none =>
      simp only [startAt, Option.isSome_none, Bool.false_eq_true, if_false]
      simp only [unitText, argText, List.append_nil] at this ⊢
      rw [Int.min_self, this, hn.2]

/-- Also with the argument list first. -/
theorem key_parsed_swapped {name : Str} (hn : NameOk name) {unit : Option Str} (hu : ∀ s, unit = some s → Free s) {args : Option (List Arg)} (ha : ArgsOk args) :
    getall (name ++ argText args ++ unitText unit) = some (name, unit.getD [], (argResult args).1, (argResult args).2) := by
  obtain ⟨n1, n2, n3, n4, n5, n6⟩ := hn.1.notMem
  have hac := argText_chars ha
  have h1 := getUnit_text (name ++ argText args) unit [] (by
      simp only [List.mem_append, not_or]
      exact ⟨⟨n1, fun hm => (hac _ hm).1 rfl⟩, ⟨n2, fun hm => (hac _ hm).2 rfl⟩⟩)
    (fun s hs => ⟨(hu s hs).notMem.1, (hu s hs).notMem.2.1⟩) (by simp)
  rw [List.append_nil] at h1
  have hpost : '(' ∉ unitText unit := by
    cases unit with
    | none => simp [unitText]
    | some s => simp [unitText, (hu s rfl).notMem.2.2.1]
  have h2 := getArgs_text name args (unitText unit) n3 ha hpost
  simp only [getall, h1, h2]
  congr 2
  have : slice (name ++ argText args ++ unitText unit) 0 (name.length : Int) = name := by
    rw [List.append_assoc]; exact slice_front name _
  cases args with
  | some as =>
    have hmin : min (startAt unit (name ++ argText (some as)).length (name ++ argText (some as) ++ unitText unit).length) (startAt (some as) name.length (name ++ argText (some as) ++ unitText unit).length) = (name.length : Int) := by
      cases unit <;> simp only [startAt, List.length_append, Option.isSome_some, Option.isSome_none, if_true, Bool.false_eq_true, if_false] <;> omega
    rw [hmin, this, hn.2]
  | none =>
    cases unit with
    | some s =>
      have hmin : min ((name ++ argText none).length : Int) ((name ++ argText none ++ unitText (some s)).length : Int) = (name.length : Int) := by
        simp only [argText, List.append_nil, List.length_append]; omega
      simp only [startAt, Option.isSome_some, Option.isSome_none, if_true, Bool.false_eq_true, if_false]
      rw [hmin, this, hn.2]
    | none =>
      simp only [startAt, Option.isSome_none, Bool.false_eq_true, if_false]
      simp only [unitText, argText, List.append_nil] at this ⊢
      rw [Int.min_self, this, hn.2]

/-- `getkey` gives the same name. -/
theorem getkey_parsed {name : Str} (hn : NameOk name) {unit : Option Str} (hu : ∀ s, unit = some s → Free s) {args : Option (List Arg)} (ha : ArgsOk args) :
    getkey (name ++ unitText unit ++ argText args) = name := by
  obtain ⟨n1, n2, n3, n4, n5, n6⟩ := hn.1.notMem
  have hs : slice (name ++ unitText unit ++ argText args) 0 (name.length : Int) = name := by rw [List.append_assoc]; exact slice_front name _
  have hac := argText_chars ha
  unfold getkey
  dsimp only
  cases unit with
  | some s =>
    have f1 : pyFind (name ++ unitText (some s) ++ argText args) '{' 0 = (name.length : Int) := by
      have e : name ++ unitText (some s) ++ argText args = name ++ '{' :: (s ++ '}' :: argText args) := by simp [unitText]
      rw [e]; exact pyFind_zero n1
    rw [f1]
    have f2 : (name.length : Int) ≤ (if pyFind (name ++ unitText (some s) ++ argText args) '(' 0 < 0 then ((name ++ unitText (some s) ++ argText args).length : Int)
        else pyFind (name ++ unitText (some s) ++ argText args) '(' 0) := by
      cases args with
      | none =>
        have : '(' ∉ name ++ unitText (some s) ++ argText none := by simp [unitText, argText, n3, (hu s rfl).notMem.2.2.1]
        rw [pyFind_none this, if_pos (by omega)]
        simp only [List.length_append]; omega
      | some as =>
        have : '(' ∉ name ++ unitText (some s) := by simp [unitText, n3, (hu s rfl).notMem.2.2.1]
        have e : name ++ unitText (some s) ++ argText (some as) = (name ++ unitText (some s)) ++ '(' :: (join [';'] (as.map Arg.text) ++ [')']) := by simp [argText]
        rw [e, pyFind_zero this, if_neg (by omega)]
        simp only [List.length_append]; omega
    rw [if_neg (show ¬ (name.length : Int) < 0 by omega), Int.min_eq_right f2, hs, hn.2]
  | none =>
    have hno : '{' ∉ name ++ unitText none ++ argText args := by
      simp only [unitText, List.append_nil, List.mem_append, not_or]
      exact ⟨n1, fun hm => (hac _ hm).1 rfl⟩
    rw [pyFind_none hno, if_pos (show (-1 : Int) < 0 by decide)]
    cases args with
    | some as =>
      have e : name ++ unitText none ++ argText (some as) = name ++ '(' :: (join [';'] (as.map Arg.text) ++ [')']) := by simp [argText, unitText]
      rw [e, pyFind_zero n3, if_neg (by omega)]
      rw [Int.min_eq_left (by simp only [List.length_append]; omega)]
      rw [e] at hs
      rw [hs, hn.2]
    | none =>
      have hno2 : '(' ∉ name ++ unitText none ++ argText none := by simp [unitText, argText, n3]
      rw [pyFind_none hno2, if_pos (show (-1 : Int) < 0 by decide), Int.min_self]
      simp only [unitText, argText, List.append_nil] at hs ⊢
      rw [hs, hn.2]

/-! ### malformed keys -/

/-- An argument list that is not closed is rejected. -/
theorem open_arguments_rejected {a b : Str} (ha : '(' ∉ a) (hb : ')' ∉ b) : getall (a ++ '(' :: b) = none := by
  have hm : '(' ∈ a ++ '(' :: b := by simp
  have f2 : pyFind (a ++ '(' :: b) ')' (a.length : Int) = -1 := pyFind_tail_none (by simp [hb])
  have : getArgs (a ++ '(' :: b) = none := by
    simp only [getArgs, if_pos hm, pyFind_zero ha, f2, if_true]
  simp only [getall, this]
  split
  · rename_i h; cases h
  · rfl

/-- A unit that is closed but not after it was opened is rejected. -/
theorem closed_before_opened_rejected {a b : Str} (ha : '{' ∉ a) (hc : '}' ∈ a) (hb : '}' ∉ b) : getall (a ++ '{' :: b) = none := by
  have hm : '}' ∈ a ++ '{' :: b := by simp [hc]
  have f2 : pyFind (a ++ '{' :: b) '}' (a.length : Int) = -1 := pyFind_tail_none (by simp [hb])
  have : getUnit (a ++ '{' :: b) = none := by
    simp only [getUnit, if_pos hm, pyFind_zero ha, f2, if_true]
  simp only [getall, this]

/-- A unit that is opened and not closed stays in the name, which is then no known property. -/
theorem open_unit_in_name {a b : Str} (ha : '{' ∉ a ∧ '(' ∉ a) (hb : '}' ∉ a ∧ '}' ∉ b ∧ '(' ∉ b) :
    getall (a ++ '{' :: b) = some (strip (a ++ '{' :: b), [], [], []) ∧ '{' ∈ strip (a ++ '{' :: b) := by
  have h1 : '}' ∉ a ++ '{' :: b := by simp [hb]
  have h2 : '(' ∉ a ++ '{' :: b := by simp [ha, hb]
  refine ⟨?_, ?_⟩
  · simp only [getall, getUnit, getArgs, if_neg h1, if_neg h2, Int.min_self]
    have := slice_front (a ++ '{' :: b) []
    rw [List.append_nil] at this
    rw [this]
  · rw [strip, stripP_around (by decide)]
    simp

instance : DecidableEq (List Str × List (Str × Str)) := inferInstance

/-- A key with a closing brace only is accepted: the name is also the unit. -/
theorem stray_brace_accepted : getall "energy}".toList = some ("energy".toList, "energy".toList, [], []) := by decide +kernel

/-- What follows the unit is ignored. -/
theorem trailing_text_ignored : getall "energy{eV} and more".toList = some ("energy".toList, "eV".toList, [], []) := by decide +kernel

/-! ### concrete case -/

example : NameOk "atom_x".toList ∧ Free "angstrom".toList ∧ ArgsOk (some [.pos "1".toList, .kw "bead ".toList " 2".toList]) := by
  refine ⟨⟨?_, by decide⟩, ?_, ?_, by decide⟩
  · unfold Free; decide
  · unfold Free; decide
  · intro a ha
    simp only [List.mem_cons, List.not_mem_nil, or_false] at ha
    rcases ha with rfl | rfl
    · refine ⟨?_, by decide⟩
      unfold Free; decide
    · refine ⟨?_, ?_, by decide⟩ <;> (unfold Free; decide)

example : getall "atom_x{angstrom}(1;bead = 2)".toList = some ("atom_x".toList, "angstrom".toList, ["1".toList], [("bead".toList, "2".toList)]) := by decide +kernel

end Verif.Keys
