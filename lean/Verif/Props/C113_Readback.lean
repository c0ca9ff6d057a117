import Verif.Run.Readback
import Verif.Props.C31_Xyz

/-!
# C113: the scripting functions read back what the simulation wrote
-/

namespace Verif.Readback
open Verif.Text Verif.Traj

variable {V : Type}

/-! ## Specification -/

/-- A request: name, unit, text of the arguments, with the arguments before the unit or after it, number of columns and description. -/
structure Req where
  name : Str
  unit : Option Str
  args : Option Str
  swapped : Bool
  size : Nat
  help : Str

/-- An optional part in brackets. -/
def bracket (o c : Char) : Option Str → Str
  | some s => o :: (s ++ [c])
  | none => []

/-- The request as it is written in the input. -/
def Req.what (r : Req) : Str :=
  if r.swapped then r.name ++ bracket '(' ')' r.args ++ bracket '{' '}' r.unit
  else r.name ++ bracket '{' '}' r.unit ++ bracket '(' ')' r.args

/-- The name under which the values are returned. -/
def Req.key (r : Req) : Str := r.name ++ bracket '(' ')' r.args

def Req.item (r : Req) : Item := ⟨r.what, r.size, r.help⟩

/-- Requests without blanks between their parts and without empty brackets. -/
structure Req.Plain (r : Req) : Prop where
  name : r.name ≠ [] ∧ ∀ c ∈ r.name, nameChar c = true
  unit : ∀ s, r.unit = some s → s ≠ [] ∧ '}' ∉ s ∧ '\n' ∉ s
  args : ∀ s, r.args = some s → s ≠ [] ∧ ')' ∉ s ∧ '\n' ∉ s
  size : 0 < r.size
  help : '\n' ∉ r.help ∧ ∀ c, r.help.head? = some c → isWs c = false

/-- The values of a row for each property, as they come back from the text. -/
def fields (rd : V → V) (qs : List (Columns.Quantity V)) : List (List V) := qs.map fun q => q.values.map rd

/-- Column `k` of all the rows. -/
def column (rd : V → V) (rows : List (List (Columns.Quantity V))) (k : Nat) : List (List V) :=
  rows.map fun qs => ((fields rd qs)[k]?).getD []

/-- A row has the announced numbers of values. -/
def Fits (rs : List Req) (qs : List (Columns.Quantity V)) : Prop := qs.map (fun q => q.values.length) = rs.map Req.size

/-! ## Lemmas on texts -/

theorem while_append {p : Char → Bool} {a b : Str} (ha : ∀ c ∈ a, p c = true) (hb : ∀ c, b.head? = some c → p c = false) :
    (a ++ b).takeWhile p = a ∧ (a ++ b).dropWhile p = b := by
  induction a with
  | nil =>
    cases b with
    | nil => exact ⟨rfl, rfl⟩
    | cons c b => simp [hb c rfl]
  | cons x a ih =>
    have hx := ha x (by simp)
    have := ih fun c hc => ha c (by simp [hc])
    simp [hx, this]

theorem dropPrefix_append (p s : Str) : dropPrefix? p (p ++ s) = some s := by
  unfold dropPrefix?
  rw [if_pos (by simp), List.drop_left]

theorem dropPrefix_head {p s : Str} {c d : Char} (h : c ≠ d) : dropPrefix? (c :: p) (d :: s) = none := by
  unfold dropPrefix?
  rw [if_neg (by simp [List.isPrefixOf, h])]

theorem group_some {o c : Char} {a t : Str} (hne : a ≠ []) (hc : c ∉ a) : group o c (o :: (a ++ c :: t)) = (some a, t) := by
  have := while_append (p := fun x => decide (x ≠ c)) (a := a) (b := c :: t) (fun x hx => by
    simp only [decide_eq_true_eq]; rintro rfl; exact hc hx) (fun x hx => by cases hx; simp)
  dsimp only [group]
  rw [this.1, this.2, if_pos ⟨rfl, hne⟩]

theorem group_none {o c d : Char} {s : Str} (h : d ≠ o) : group o c (d :: s) = (none, d :: s) := by
  dsimp only [group]
  rw [if_neg (by simp [h])]

/-- What comes back for the description. -/
theorem description_read {h : Str} (h1 : '\n' ∉ h) (h2 : ∀ c, h.head? = some c → isWs c = false) :
    ((' ' :: (h ++ ['\n'])).dropWhile isWs).takeWhile (fun c => c ≠ '\n') = h := by
  cases h with
  | nil => decide
  | cons x h =>
    have hx := h2 x rfl
    have e : (' ' :: (x :: h ++ ['\n'])).dropWhile isWs = x :: h ++ ['\n'] := by
      rw [List.dropWhile_cons_of_pos (by decide)]
      simp [hx]
    rw [e]
    exact (while_append (a := x :: h) (b := ['\n']) (fun c hc => by
      simp only [ne_eq, decide_eq_true_eq]; rintro rfl; exact h1 hc) (by intro c hc; cases hc; rfl)).1

theorem matchName_what {r : Req} (hr : r.Plain) (first : Str) (last : Option Str) :
    ∃ h, matchName first last (r.what ++ ' ' :: ':' :: ' ' :: (r.help ++ ['\n'])) = some h ∧
      h.first = first ∧ h.last = last ∧ h.fullName = r.key ∧ h.after.or h.before = r.unit ∧ h.description = r.help := by
  obtain ⟨name, unit, args, sw, size, help⟩ := r
  obtain ⟨⟨hn0, hn⟩, hu, ha, -, hh1, hh2⟩ := hr
  simp only at hn0 hn hu ha hh1 hh2
  have hd := description_read hh1 hh2
  have key : ∀ t : Str, (∀ c, t.head? = some c → nameChar c = false) →
      matchName first last (name ++ t) =
        match (group '{' '}' (group '(' ')' (group '{' '}' t).2).2).2.dropWhile isWs with
        | ':' :: r => some ⟨first, last, name, (group '{' '}' t).1, (group '(' ')' (group '{' '}' t).2).1,
            (group '{' '}' (group '(' ')' (group '{' '}' t).2).2).1, (r.dropWhile isWs).takeWhile fun c => c ≠ '\n'⟩
        | _ => none := by
    intro t ht
    have := while_append hn ht
    unfold matchName
    rw [this.1, this.2, if_neg hn0]
    rfl
  have hdw : ∀ s : Str, (' ' :: ':' :: s).dropWhile isWs = ':' :: s := fun s => by
    rw [List.dropWhile_cons_of_pos (by decide), List.dropWhile_cons_of_neg (by decide)]
  cases sw with
  | false =>
    cases unit with
    | none =>
      cases args with
      | none =>
        simp only [Req.what, bracket, List.append_nil, Bool.false_eq_true, if_false]
        rw [key _ (by intro c hc; cases hc; decide), group_none (by decide), group_none (by decide), group_none (by decide)]
        simp only [hdw, hd]
        exact ⟨_, rfl, rfl, rfl, by simp [Head.fullName, Req.key, bracket], rfl, rfl⟩
      | some a =>
        obtain ⟨a1, a2, -⟩ := ha a rfl
        simp only [Req.what, bracket, List.append_nil, Bool.false_eq_true, if_false, List.append_assoc, List.cons_append, List.nil_append]
        rw [key _ (by intro c hc; cases hc; decide), group_none (by decide), group_some a1 a2, group_none (by decide)]
        simp only [hdw, hd]
        exact ⟨_, rfl, rfl, rfl, by simp [Head.fullName, Req.key, bracket], rfl, rfl⟩
    | some u =>
      obtain ⟨u1, u2, -⟩ := hu u rfl
      cases args with
      | none =>
        simp only [Req.what, bracket, List.append_nil, Bool.false_eq_true, if_false, List.append_assoc, List.cons_append, List.nil_append]
        rw [key _ (by intro c hc; cases hc; decide), group_some u1 u2, group_none (by decide), group_none (by decide)]
        simp only [hdw, hd]
        exact ⟨_, rfl, rfl, rfl, by simp [Head.fullName, Req.key, bracket], rfl, rfl⟩
      | some a =>
        obtain ⟨a1, a2, -⟩ := ha a rfl
        simp only [Req.what, bracket, List.append_nil, Bool.false_eq_true, if_false, List.append_assoc, List.cons_append, List.nil_append]
        rw [key _ (by intro c hc; cases hc; decide), group_some u1 u2, group_some a1 a2, group_none (by decide)]
        simp only [hdw, hd]
        exact ⟨_, rfl, rfl, rfl, by simp [Head.fullName, Req.key, bracket], rfl, rfl⟩
  | true =>
    cases unit with
    | none =>
      cases args with
      | none =>
        simp only [Req.what, bracket, List.append_nil, if_true]
        rw [key _ (by intro c hc; cases hc; decide), group_none (by decide), group_none (by decide), group_none (by decide)]
        simp only [hdw, hd]
        exact ⟨_, rfl, rfl, rfl, by simp [Head.fullName, Req.key, bracket], rfl, rfl⟩
      | some a =>
        obtain ⟨a1, a2, -⟩ := ha a rfl
        simp only [Req.what, bracket, List.append_nil, if_true, List.append_assoc, List.cons_append, List.nil_append]
        rw [key _ (by intro c hc; cases hc; decide), group_none (by decide), group_some a1 a2, group_none (by decide)]
        simp only [hdw, hd]
        exact ⟨_, rfl, rfl, rfl, by simp [Head.fullName, Req.key, bracket], rfl, rfl⟩
    | some u =>
      obtain ⟨u1, u2, -⟩ := hu u rfl
      cases args with
      | none =>
        simp only [Req.what, bracket, List.append_nil, if_true, List.append_assoc, List.cons_append, List.nil_append]
        rw [key _ (by intro c hc; cases hc; decide), group_some u1 u2, group_none (by decide), group_none (by decide)]
        simp only [hdw, hd]
        exact ⟨_, rfl, rfl, rfl, by simp [Head.fullName, Req.key, bracket], rfl, rfl⟩
      | some a =>
        obtain ⟨a1, a2, -⟩ := ha a rfl
        simp only [Req.what, bracket, List.append_nil, if_true, List.append_assoc, List.cons_append, List.nil_append]
        rw [key _ (by intro c hc; cases hc; decide), group_none (by decide), group_some a1 a2, group_some u1 u2]
        simp only [hdw, hd]
        exact ⟨_, rfl, rfl, rfl, by simp [Head.fullName, Req.key, bracket], rfl, rfl⟩

/-- The entry that a request should give. -/
def Req.found (icol : Nat) (r : Req) : Found :=
  ⟨icol, if r.size = 1 then none else some (icol + r.size - 1), r.key, r.unit, r.help⟩

theorem blanks_ws (n : Nat) : ∀ c ∈ List.replicate n ' ', isWs c = true := fun c hc => by
  rw [List.eq_of_mem_replicate hc]; decide

theorem digits_head (n : Nat) (s : Str) : ∀ c, (showNat n ++ s).head? = some c → isWs c = false := by
  intro c hc
  cases h : showNat n with
  | nil => exact absurd h (showNat_ne_nil n)
  | cons x t =>
    rw [h] at hc
    cases hc
    exact isDigit_not_ws (showNat_digits n c (by rw [h]; simp))

/-- The columns are read from the text of the header. -/
theorem matchCols_one (icol : Nat) (t : Str) (ht : ∀ c, t.head? = some c → isWs c = false) :
    matchCols (' ' :: (padL 3 (showNat icol) ++ ("    ".toList ++ ' ' :: (kArrow ++ ' ' :: t)))) = matchName (showNat icol) none t := by
  have e1 : (' ' :: (padL 3 (showNat icol) ++ ("    ".toList ++ ' ' :: (kArrow ++ ' ' :: t)))).dropWhile isWs
      = showNat icol ++ ("    ".toList ++ ' ' :: (kArrow ++ ' ' :: t)) := by
    rw [List.dropWhile_cons_of_pos (by decide)]
    unfold padL
    rw [List.append_assoc]
    exact (while_append (blanks_ws _) (digits_head _ _)).2
  have e2 := while_append (p := isDigit) (a := showNat icol) (b := "    ".toList ++ ' ' :: (kArrow ++ ' ' :: t)) (showNat_digits icol)
    (by intro c hc; cases hc; decide)
  have e3 : ("    ".toList ++ ' ' :: (kArrow ++ ' ' :: t)).dropWhile isWs = kArrow ++ ' ' :: t :=
    (while_append (a := "     ".toList) (b := kArrow ++ ' ' :: t) (by decide) (by intro c hc; cases hc; decide)).2
  have e4 : (' ' :: t).dropWhile isWs = t := by
    rw [List.dropWhile_cons_of_pos (by decide)]
    exact (while_append (a := []) (b := t) (by simp) ht).2
  have e5 : lastCol ("    ".toList ++ ' ' :: (kArrow ++ ' ' :: t)) = (none, "    ".toList ++ ' ' :: (kArrow ++ ' ' :: t)) := rfl
  dsimp only [matchCols]
  rw [if_pos (by decide), e1, e2.1, e2.2, if_neg (showNat_ne_nil icol), e5, e3, dropPrefix_append]
  dsimp only
  rw [e4]

theorem matchCols_many (icol j : Nat) (t : Str) (ht : ∀ c, t.head? = some c → isWs c = false) :
    matchCols (' ' :: ' ' :: (padL 3 (showNat icol) ++ '-' :: (padR 3 (showNat j) ++ ' ' :: (kArrow ++ ' ' :: t))))
      = matchName (showNat icol) (some (showNat j)) t := by
  have e1 : (' ' :: ' ' :: (padL 3 (showNat icol) ++ '-' :: (padR 3 (showNat j) ++ ' ' :: (kArrow ++ ' ' :: t)))).dropWhile isWs
      = showNat icol ++ '-' :: (padR 3 (showNat j) ++ ' ' :: (kArrow ++ ' ' :: t)) := by
    rw [List.dropWhile_cons_of_pos (by decide), List.dropWhile_cons_of_pos (by decide)]
    unfold padL
    rw [List.append_assoc]
    exact (while_append (blanks_ws _) (digits_head _ _)).2
  have e2 := while_append (p := isDigit) (a := showNat icol) (b := '-' :: (padR 3 (showNat j) ++ ' ' :: (kArrow ++ ' ' :: t))) (showNat_digits icol)
    (by intro c hc; cases hc; decide)
  have hb : ∀ n, ∀ c, (List.replicate n ' ' ++ ' ' :: (kArrow ++ ' ' :: t)).head? = some c → isDigit c = false := by
    intro n c hc
    cases n with
    | zero => cases hc; decide
    | succ n => cases hc; decide
  have e5 : lastCol ('-' :: (padR 3 (showNat j) ++ ' ' :: (kArrow ++ ' ' :: t)))
      = (some (showNat j), List.replicate (3 - (showNat j).length) ' ' ++ ' ' :: (kArrow ++ ' ' :: t)) := by
    unfold padR
    rw [List.append_assoc]
    have := while_append (showNat_digits j) (hb (3 - (showNat j).length))
    have key : ∀ r : Str, lastCol ('-' :: r) = if r.takeWhile isDigit ≠ [] then (some (r.takeWhile isDigit), r.dropWhile isDigit) else (none, '-' :: r) :=
      fun r => rfl
    rw [key, this.1, this.2, if_pos (showNat_ne_nil j)]
  have e3 : ∀ n, (List.replicate n ' ' ++ ' ' :: (kArrow ++ ' ' :: t)).dropWhile isWs = kArrow ++ ' ' :: t := by
    intro n
    have := (while_append (p := isWs) (a := List.replicate n ' ' ++ [' ']) (b := kArrow ++ ' ' :: t) (by
      intro c hc
      rcases List.mem_append.1 hc with hc | hc
      · exact blanks_ws _ c hc
      · rw [List.mem_singleton.1 hc]; decide) (by intro c hc; cases hc; decide)).2
    rw [List.append_assoc] at this
    exact this
  have e4 : (' ' :: t).dropWhile isWs = t := by
    rw [List.dropWhile_cons_of_pos (by decide)]
    exact (while_append (a := []) (b := t) (by simp) ht).2
  dsimp only [matchCols]
  rw [if_pos (by decide), e1, e2.1, e2.2, if_neg (showNat_ne_nil icol), e5, e3, dropPrefix_append]
  dsimp only
  rw [e4]

theorem what_head {r : Req} (hr : r.Plain) (s : Str) : ∀ c, (r.what ++ s).head? = some c → isWs c = false := by
  intro c hc
  have : ∃ t, r.what ++ s = r.name ++ t := by
    unfold Req.what
    split
    · exact ⟨_, by simp only [List.append_assoc]; rfl⟩
    · exact ⟨_, by simp only [List.append_assoc]; rfl⟩
  obtain ⟨t, ht⟩ := this
  rw [ht] at hc
  cases h : r.name with
  | nil => exact absurd h hr.name.1
  | cons x n =>
    rw [h] at hc
    cases hc
    have := hr.name.2 c (by rw [h]; simp)
    simp only [nameChar, Bool.and_eq_true, Bool.not_eq_true'] at this
    exact this.1.1

theorem matchHeader_column (t : Str) : matchHeader ('#' :: ' ' :: (kColumn ++ t)) = matchCols t := rfl

theorem matchHeader_cols (t : Str) : matchHeader ('#' :: ' ' :: (kCols ++ t)) = matchCols t := rfl

theorem matchHeader_line {r : Req} (hr : r.Plain) (icol : Nat) :
    ∃ h, matchHeader (headText icol r.item ++ ['\n']) = some h ∧ h.found = r.found icol := by
  obtain ⟨h, hm, h1, h2, h3, h4, h5⟩ := matchName_what hr (showNat icol)
    (if r.size = 1 then none else some (showNat (icol + r.size - 1)))
  refine ⟨h, ?_, ?_⟩
  · by_cases hs : r.size = 1
    · have e := matchCols_one icol _ (what_head hr (' ' :: ':' :: ' ' :: (r.help ++ ['\n'])))
      rw [if_pos hs] at hm
      rw [hm] at e
      have e0 : headText icol r.item ++ ['\n'] = '#' :: ' ' :: (kColumn ++ ' ' :: (padL 3 (showNat icol) ++ ("    ".toList ++ ' ' ::
          (kArrow ++ ' ' :: (r.what ++ ' ' :: ':' :: ' ' :: (r.help ++ ['\n'])))))) := by
        unfold headText colText Req.item
        simp only [hs, if_true, List.cons_append, List.append_assoc]
      rw [e0]
      rw [matchHeader_column]
      exact e
    · have e := matchCols_many icol (icol + r.size - 1) _ (what_head hr (' ' :: ':' :: ' ' :: (r.help ++ ['\n'])))
      rw [if_neg hs] at hm
      rw [hm] at e
      have e0 : headText icol r.item ++ ['\n'] = '#' :: ' ' :: (kCols ++ ' ' :: ' ' :: (padL 3 (showNat icol) ++ '-' ::
          (padR 3 (showNat (icol + r.size - 1)) ++ ' ' :: (kArrow ++ ' ' :: (r.what ++ ' ' :: ':' :: ' ' :: (r.help ++ ['\n'])))))) := by
        unfold headText colText Req.item
        simp only [hs, if_false, List.cons_append, List.append_assoc]
      rw [e0]
      rw [matchHeader_cols]
      exact e
  · unfold Head.found Req.found
    rw [h1, h2, h3, h4, h5, parseNat_showNat]
    split <;> simp [parseNat_showNat]

/-! ## The whole file -/

/-- The entries that the requests should give. -/
def founds (icol : Nat) : List Req → List Found
  | [] => []
  | r :: rs => r.found icol :: founds (icol + r.size) rs

/-- The lines of the header. -/
def headLines (icol : Nat) : List Req → List Str
  | [] => []
  | r :: rs => (headText icol r.item ++ ['\n']) :: headLines (icol + r.size) rs

theorem showNat_nonl (n : Nat) : '\n' ∉ showNat n := fun h => ws_not_nl (isDigit_not_ws (showNat_digits n _ h)) rfl

theorem replicate_nonl (n : Nat) : '\n' ∉ List.replicate n ' ' := fun h => absurd (List.eq_of_mem_replicate h) (by decide)

theorem what_nonl {r : Req} (hr : r.Plain) : '\n' ∉ r.what := by
  have h1 : '\n' ∉ r.name := fun h => by
    have := hr.name.2 _ h
    revert this; decide
  have h2 : '\n' ∉ bracket '{' '}' r.unit := by
    cases h : r.unit with
    | none => simp [bracket]
    | some u => simpa [bracket] using (hr.unit u h).2.2
  have h3 : '\n' ∉ bracket '(' ')' r.args := by
    cases h : r.args with
    | none => simp [bracket]
    | some u => simpa [bracket] using (hr.args u h).2.2
  unfold Req.what
  split <;> simp [h1, h2, h3]

theorem headText_nonl {r : Req} (hr : r.Plain) (icol : Nat) : '\n' ∉ headText icol r.item := by
  have h1 := what_nonl hr
  have h2 := hr.help.1
  have h3 := showNat_nonl icol
  have h4 := showNat_nonl (icol + r.size - 1)
  have h5 : '\n' ∉ kColumn := by decide
  have h6 : '\n' ∉ kCols := by decide
  have h7 : '\n' ∉ kArrow := by decide
  unfold headText colText Req.item padL padR
  dsimp only
  split <;> simp [h1, h2, h3, h4, h5, h6, h7, replicate_nonl]

theorem lines_header : ∀ (rs : List Req) (_ : ∀ r ∈ rs, r.Plain) (icol : Nat) (t : Str),
    lines (header icol (rs.map Req.item) ++ t) = headLines icol rs ++ lines t
  | [], _, _, _ => rfl
  | r :: rs, h, icol, t => by
    have h1 := lines_header rs (fun x hx => h x (by simp [hx])) (icol + r.size) t
    show lines ((headText icol r.item ++ '\n' :: header (icol + r.size) (rs.map Req.item)) ++ t) = _
    rw [List.append_assoc, List.cons_append, lines_line (headText_nonl (h r (by simp)) icol), h1]
    rfl

theorem headLines_sharp : ∀ (rs : List Req) (icol : Nat), ∀ l ∈ headLines icol rs, l.head? = some '#'
  | [], _, _, h => (nomatch h)
  | r :: rs, icol, l, h => by
    rcases List.mem_cons.1 h with rfl | h
    · rfl
    · exact headLines_sharp rs _ l h

theorem headLines_match : ∀ (rs : List Req) (_ : ∀ r ∈ rs, r.Plain) (icol : Nat),
    ((headLines icol rs).filterMap matchHeader).map Head.found = founds icol rs
  | [], _, _ => rfl
  | r :: rs, h, icol => by
    obtain ⟨hd, e1, e2⟩ := matchHeader_line (h r (by simp)) icol
    have ih := headLines_match rs (fun x hx => h x (by simp [hx])) (icol + r.size)
    rw [headLines, List.filterMap_cons_some e1, List.map_cons, e2, ih]
    rfl

theorem founds_ge : ∀ (rs : List Req) (icol : Nat), ∀ f ∈ founds icol rs, icol ≤ f.first
  | [], _, _, h => (nomatch h)
  | r :: rs, icol, f, h => by
    rcases List.mem_cons.1 h with rfl | h
    · exact Nat.le_refl _
    · exact Nat.le_trans (Nat.le_add_right _ _) (founds_ge rs _ f h)

theorem addFound_all : ∀ (rs : List Req) (_ : ∀ r ∈ rs, r.Plain) (icol : Nat) (fs : List Found) (_ : ∀ f ∈ fs, f.first < icol),
    (founds icol rs).foldl addFound fs = fs ++ founds icol rs
  | [], _, _, fs, _ => by simp [founds]
  | r :: rs, h, icol, fs, hf => by
    have hs := (h r (by simp)).size
    have e : addFound fs (r.found icol) = fs ++ [r.found icol] := by
      unfold addFound
      rw [if_neg]
      intro hc
      simp only [List.any_eq_true, decide_eq_true_eq] at hc
      obtain ⟨g, hg, hg1, -⟩ := hc
      have := hf g hg
      rw [hg1] at this
      exact absurd this (Nat.lt_irrefl _)
    rw [founds, List.foldl_cons, e, addFound_all rs (fun x hx => h x (by simp [hx])) (icol + r.size) _ (by
      intro f hm
      rcases List.mem_append.1 hm with hm | hm
      · have := hf f hm
        omega
      · rw [List.mem_singleton.1 hm]
        show icol < icol + r.size
        omega), List.append_assoc]
    rfl

/-- A header line with the columns of an earlier one takes its place: there is one entry for the columns, the last one. -/
theorem last_header (fs : List Found) (f : Found) :
    f ∈ addFound fs f ∧ (∀ g ∈ addFound fs f, g.first = f.first → g.last = f.last → g = f) ∧
      ∀ g, ¬(g.first = f.first ∧ g.last = f.last) → (g ∈ addFound fs f ↔ g ∈ fs) := by
  unfold addFound
  by_cases h : (fs.any fun g => g.first = f.first ∧ g.last = f.last) = true
  · rw [if_pos h]
    obtain ⟨g0, hg0, e0⟩ := List.any_eq_true.mp h
    have e0 := of_decide_eq_true e0
    refine ⟨List.mem_map.mpr ⟨g0, hg0, by rw [if_pos e0]⟩, ?_, ?_⟩
    · intro g hg h1 h2
      obtain ⟨k, hk, rfl⟩ := List.mem_map.mp hg
      split at h1
      · rw [if_pos (by assumption)]
      · rename_i hn
        rw [if_neg hn] at h2
        exact absurd ⟨h1, h2⟩ hn
    · intro g hn
      constructor
      · intro hg
        obtain ⟨k, hk, e⟩ := List.mem_map.mp hg
        split at e
        · exact absurd ⟨by rw [← e], by rw [← e]⟩ hn
        · exact e ▸ hk
      · intro hg
        exact List.mem_map.mpr ⟨g, hg, by rw [if_neg hn]⟩
  · rw [if_neg h]
    refine ⟨by simp, ?_, ?_⟩
    · intro g hg h1 h2
      rcases List.mem_append.mp hg with hg | hg
      · exact absurd (List.any_eq_true.mpr ⟨g, hg, decide_eq_true ⟨h1, h2⟩⟩) h
      · simpa using hg
    · intro g hn
      have : g ≠ f := fun e => hn ⟨by rw [e], by rw [e]⟩
      simp [this]

theorem foldl_found (hs : List Head) : ∀ fs : List Found, hs.foldl (fun fs h => addFound fs h.found) fs = (hs.map Head.found).foldl addFound fs := by
  induction hs with
  | nil => intro fs; rfl
  | cons h hs ih => intro fs; exact ih _

/-! ### rows -/

variable {N : Num V} {rE rF : V → V}

/-- The words of a row. -/
def words (N : Num V) (qs : List (Columns.Quantity V)) : List Str := qs.flatMap fun q => q.values.map N.fmtE

theorem fmtE_ws (g : Good N rE rF) (v : V) : ∀ c ∈ N.fmtE v, isWs c = false := fun c hc => cellChar_not_ws (g.charE v c hc).1 (g.charE v c hc).2

theorem splitWs_quantity (g : Good N rE rF) (q : Columns.Quantity V) (t : Str) : splitWs (quantityText N q ++ t) = q.values.map N.fmtE ++ splitWs t := by
  cases q with
  | scalar v =>
    show splitWs ((N.fmtE v ++ "   ".toList) ++ t) = _
    rw [List.append_assoc, splitWs_tok (fmtE_ws g v) (g.neE v) (by intro c hc; cases hc; decide), splitWs_pad (by decide)]
    rfl
  | vec vs =>
    show splitWs ((vs.flatMap fun v => N.fmtE v ++ [' ']) ++ t) = vs.map N.fmtE ++ splitWs t
    induction vs with
    | nil => rfl
    | cons v vs ih =>
      rw [List.flatMap_cons, List.append_assoc, List.append_assoc, splitWs_tok (fmtE_ws g v) (g.neE v) (by intro c hc; cases hc; decide), splitWs_pad (by decide), ih]
      rfl

theorem splitWs_row (g : Good N rE rF) (qs : List (Columns.Quantity V)) : splitWs (rowText N qs ++ ['\n']) = words N qs := by
  have : ∀ t, splitWs (qs.flatMap (quantityText N) ++ t) = words N qs ++ splitWs t := by
    intro t
    induction qs with
    | nil => rfl
    | cons q qs ih => rw [List.flatMap_cons, List.append_assoc, splitWs_quantity g, ih]; simp only [words, List.flatMap_cons, List.append_assoc]
  show splitWs (([' ', ' '] ++ qs.flatMap (quantityText N)) ++ ['\n']) = _
  rw [List.append_assoc, splitWs_pad (by decide), this]
  have : splitWs ['\n'] = [] := by decide
  rw [this, List.append_nil]

theorem quantity_nonl (g : Good N rE rF) (q : Columns.Quantity V) : '\n' ∉ quantityText N q := by
  have h : ∀ v, '\n' ∉ N.fmtE v := fun v hc => ws_not_nl (fmtE_ws g v _ hc) rfl
  cases q with
  | scalar v =>
    show '\n' ∉ N.fmtE v ++ "   ".toList
    simp [h v]
  | vec vs =>
    show '\n' ∉ vs.flatMap fun v => N.fmtE v ++ [' ']
    simp [h]

theorem row_nonl (g : Good N rE rF) (qs : List (Columns.Quantity V)) : '\n' ∉ rowText N qs := by
  show '\n' ∉ ' ' :: ' ' :: qs.flatMap (quantityText N)
  simp only [List.mem_cons, List.mem_flatMap, not_or, not_exists, not_and]
  exact ⟨by decide, by decide, fun q _ => quantity_nonl g q⟩

theorem rdAll_words (g : Good N rE rF) (vs : List V) : rdAll N (vs.map N.fmtE) = some (vs.map rE) := by
  induction vs with
  | nil => rfl
  | cons v vs ih => simp only [List.map_cons, rdAll, g.readE, ih]

/-- A row with at least one value is not blank. -/
theorem row_not_blank (g : Good N rE rF) {qs : List (Columns.Quantity V)} (h : words N qs ≠ []) : strip (rowText N qs ++ ['\n']) ≠ [] := by
  intro e
  have := stripP_nil e
  have e2 : splitWs (rowText N qs ++ ['\n']) = [] := by
    have := splitWs_pad (s := []) this
    rw [List.append_nil] at this
    rw [this]; rfl
  rw [splitWs_row g] at e2
  exact h e2

/-- The values of the property in the given columns. -/
theorem pick_found (r : Req) (hr : 0 < r.size) (pre ws post : List Str) (hw : ws.length = r.size) :
    pick (r.found (pre.length + 1)) (pre ++ (ws ++ post)) = some ws := by
  unfold pick Req.found
  by_cases h : r.size = 1
  · obtain ⟨w, rfl⟩ := List.length_eq_one_iff.1 (hw.trans h)
    simp only [h, if_true, Nat.add_sub_cancel]
    rw [List.getElem?_append_right (Nat.le_refl _)]
    simp
  · simp only [h, if_false, Nat.add_sub_cancel]
    rw [show pre.length + 1 + r.size - 1 = pre.length + ws.length by omega, List.take_length_add_append, List.take_left, List.drop_left]

/-- The dictionary with the lists `v k` for the properties. -/
def table (rs : List Req) (v : Nat → List (List V)) : List (Str × List (List V)) := rs.zipIdx.map fun p => (p.1.key, v p.2)

theorem table_append {rs : List Req} (hn : (rs.map Req.key).Nodup) {k : Nat} {r : Req} (hk : rs[k]? = some r) (v : Nat → List (List V)) (x : List V) :
    append (table rs v) r.key x = table rs fun j => if j = k then v j ++ [x] else v j := by
  unfold append table
  rw [List.map_map]
  refine List.map_congr_left fun p hp => ?_
  have hp' := List.mem_zipIdx_iff_getElem?.1 hp
  by_cases h : p.2 = k
  · rw [h, hk] at hp'
    cases hp'
    simp [h]
  · have : p.1.key ≠ r.key := by
      intro e
      apply h
      have a1 : (rs.map Req.key)[p.2]? = some r.key := by rw [List.getElem?_map, hp', ← e]; rfl
      have a2 : (rs.map Req.key)[k]? = some r.key := by rw [List.getElem?_map, hk]; rfl
      have b := (List.getElem?_eq_some_iff.1 a1).1
      exact (List.getElem?_inj b hn).1 (a1.trans a2.symm)
    simp [this, h]

theorem addRow_from (g : Good N rE rF) {all : List Req} (hn : (all.map Req.key).Nodup) :
    ∀ (rs : List Req) (qs : List (Columns.Quantity V)) (done : List Req) (pre : List Str) (v : Nat → List (List V)),
      all = done ++ rs → (∀ r ∈ rs, 0 < r.size) → Fits rs qs →
      addRow N (pre ++ words N qs) (founds (pre.length + 1) rs) (table all v) =
        some (table all fun j => if done.length ≤ j then v j ++ [((fields rE qs)[j - done.length]?).getD []] else v j)
  | [], qs, done, pre, v, ha, _, hf => by
    show some _ = some _
    congr 1
    unfold table
    refine List.map_congr_left fun p hp => ?_
    have hp' := (List.getElem?_eq_some_iff.1 (List.mem_zipIdx_iff_getElem?.1 hp)).1
    rw [ha, List.append_nil] at hp'
    dsimp only
    rw [if_neg (by omega)]
  | r :: rs, qs, done, pre, v, ha, hs, hf => by
    cases qs with
    | nil => exact absurd hf (by simp [Fits])
    | cons q qs =>
      have hf' : q.values.length = r.size ∧ Fits rs qs := by
        have : q.values.length :: qs.map (fun q => q.values.length) = r.size :: rs.map Req.size := hf
        exact ⟨(List.cons.inj this).1, (List.cons.inj this).2⟩
      have e1 : words N (q :: qs) = q.values.map N.fmtE ++ words N qs := rfl
      have hlen : (q.values.map N.fmtE).length = r.size := by rw [List.length_map]; exact hf'.1
      have hk : all[done.length]? = some r := by rw [ha]; simp
      have ih := addRow_from g hn rs qs (done ++ [r]) (pre ++ q.values.map N.fmtE)
        (fun j => if j = done.length then v j ++ [q.values.map rE] else v j) (by rw [ha]; simp) (fun x hx => hs x (by simp [hx])) hf'.2
      rw [List.length_append, hlen, List.append_assoc] at ih
      rw [founds, addRow, e1, pick_found r (hs r (by simp)) _ _ _ hlen]
      dsimp only
      rw [rdAll_words g]
      dsimp only
      rw [show (r.found (pre.length + 1)).name = r.key from rfl, table_append hn hk, show pre.length + 1 + r.size = pre.length + r.size + 1 by omega, ih]
      congr 2
      funext j
      rw [List.length_append, List.length_singleton]
      by_cases h1 : j = done.length
      · subst h1
        rw [if_neg (by omega), if_pos rfl, if_pos (Nat.le_refl _), Nat.sub_self]
        rfl
      · by_cases h2 : done.length ≤ j
        · rw [if_pos (by omega), if_neg h1, if_pos h2, show j - done.length = (j - (done.length + 1)) + 1 by omega]
          rfl
        · rw [if_neg (by omega), if_neg h1, if_neg h2]

theorem addRows_all (g : Good N rE rF) {rs : List Req} (hn : (rs.map Req.key).Nodup) (hs : ∀ r ∈ rs, 0 < r.size) :
    ∀ (rows : List (List (Columns.Quantity V))) (_ : ∀ qs ∈ rows, Fits rs qs) (before : List (List (Columns.Quantity V))),
      addRows N (founds 1 rs) (rows.map fun qs => rowText N qs ++ ['\n']) (table rs (column rE before)) = some (table rs (column rE (before ++ rows)))
  | [], _, before => by simp [addRows]
  | qs :: rows, h, before => by
    have e := addRow_from g hn rs qs [] [] (column rE before) rfl hs (h qs (by simp))
    rw [List.nil_append] at e
    have ih := addRows_all g hn hs rows (fun x hx => h x (by simp [hx])) (before ++ [qs])
    rw [List.map_cons, addRows, splitWs_row g]
    rw [show ([] : List Str).length + 1 = 1 from rfl] at e
    rw [e]
    dsimp only
    have : (fun j => if ([] : List Req).length ≤ j then column rE before j ++ [((fields rE qs)[j - ([] : List Req).length]?).getD []] else column rE before j)
        = column rE (before ++ [qs]) := by
      funext j
      simp [column]
    rw [this, ih, List.append_assoc]
    rfl

theorem insert_new {A : Type} {d : List (Str × A)} {k : Str} (h : k ∉ d.map (·.1)) (v : A) : Values.insert d k v = d ++ [(k, v)] := by
  unfold Values.insert; rw [if_neg h]

theorem insert_all {A : Type} (F : Found → A) : ∀ (rs : List Req) (icol : Nat) (d : List (Str × A)),
    (d.map (·.1) ++ rs.map Req.key).Nodup →
    (founds icol rs).foldl (fun d f => Values.insert d f.name (F f)) d = d ++ (founds icol rs).map fun f => (f.name, F f)
  | [], _, d, _ => by simp [founds]
  | r :: rs, icol, d, h => by
    have hn : r.key ∉ d.map (·.1) := by
      intro hc
      exact (List.nodup_append.1 h).2.2 _ hc _ (by simp) rfl
    rw [founds, List.foldl_cons, show (r.found icol).name = r.key from rfl, insert_new hn, insert_all F rs _ _ (by simpa using h), List.append_assoc]
    rfl

theorem founds_map {A : Type} (F : Req → A) (G : Found → A) (h : ∀ r icol, G (r.found icol) = F r) :
    ∀ (rs : List Req) (icol : Nat), (founds icol rs).map G = rs.map F
  | [], _ => rfl
  | r :: rs, icol => by rw [founds, List.map_cons, h, founds_map F G h rs, List.map_cons]

/-- **Reading gives back what was written**: for requests without blanks and empty brackets, of which no two have the same name and arguments, every property
is found under its name and arguments, with all its values, its unit and its description. -/
theorem read_back_partial (g : Good N rE rF) (rs : List Req) (hp : ∀ r ∈ rs, r.Plain) (hne : rs ≠ []) (hn : (rs.map Req.key).Nodup)
    (rows : List (List (Columns.Quantity V))) (hf : ∀ qs ∈ rows, Fits rs qs) :
    readOutput N (writeOutput N (rs.map Req.item) rows) =
      some (rs.zipIdx.map fun p => (p.1.key, column rE rows p.2), rs.map fun r => (r.key, r.unit, r.help)) := by
  have hl : lines (writeOutput N (rs.map Req.item) rows) = headLines 1 rs ++ rows.map fun qs => rowText N qs ++ ['\n'] := by
    unfold writeOutput
    rw [lines_header rs hp]
    have := lines_flat (rowText N) rows (fun qs _ => row_nonl g qs) []
    rw [List.append_nil] at this
    rw [this]
    simp [lines]
  have hw : ∀ qs ∈ rows, words N qs ≠ [] := by
    intro qs hq e
    cases rs with
    | nil => exact hne rfl
    | cons r rs =>
      cases qs with
      | nil => exact absurd (hf _ hq) (by simp [Fits])
      | cons q qs =>
        have h1 : q.values.length = r.size := (List.cons.inj (hf _ hq)).1
        have h2 := (hp r (by simp)).size
        have h3 : q.values.map N.fmtE = [] := (List.append_eq_nil_iff.1 (show q.values.map N.fmtE ++ words N qs = [] from e)).1
        have h4 : q.values = [] := List.map_eq_nil_iff.1 h3
        rw [h4] at h1
        exact absurd h2 (by rw [← h1]; simp)
  have hh : ∀ qs : List (Columns.Quantity V), (rowText N qs ++ ['\n']).head? = some ' ' := fun _ => rfl
  have f1 : (headLines 1 rs ++ rows.map fun qs => rowText N qs ++ ['\n']).filter (fun l => l.head? = some '#') = headLines 1 rs := by
    rw [List.filter_append, List.filter_eq_self.2 (by simpa using headLines_sharp rs 1), List.filter_eq_nil_iff.2 (by simp [hh]), List.append_nil]
  have f2 : (headLines 1 rs ++ rows.map fun qs => rowText N qs ++ ['\n']).filter (fun l => l.head? ≠ some '#' ∧ strip l ≠ []) =
      rows.map fun qs => rowText N qs ++ ['\n'] := by
    rw [List.filter_append, List.filter_eq_nil_iff.2 (by
      intro l hl
      simp [headLines_sharp rs 1 l hl]), List.nil_append, List.filter_eq_self.2]
    intro l hl
    obtain ⟨qs, hq, rfl⟩ := List.mem_map.1 hl
    have := row_not_blank g (hw qs hq)
    simp only [hh, ne_eq, this, not_false_eq_true, and_true, decide_eq_true_eq]
    decide
  have f3 : properties (headLines 1 rs ++ rows.map fun qs => rowText N qs ++ ['\n']) = founds 1 rs := by
    unfold properties
    rw [f1, foldl_found, headLines_match rs hp, addFound_all rs hp 1 [] (by simp), List.nil_append]
  unfold readOutput
  rw [hl]
  dsimp only
  rw [f2, f3, insert_all (fun _ => []) rs 1 [] (by simpa using hn), insert_all (fun f => (f.units, f.description)) rs 1 [] (by simpa using hn),
    List.nil_append, List.nil_append, founds_map (fun r => (r.key, (r.unit, r.help))) _ (fun _ _ => rfl)]
  have t0 : (founds 1 rs).map (fun f => (f.name, ([] : List (List V)))) = table rs (column rE []) := by
    rw [founds_map (fun r => (r.key, ([] : List (List V)))) _ (fun _ _ => rfl)]
    unfold table
    rw [show (fun p : Req × Nat => (p.1.key, column rE [] p.2)) = (fun r : Req => (r.key, ([] : List (List V)))) ∘ Prod.fst from rfl, ← List.map_map,
      List.zipIdx_map_fst]
  rw [t0, addRows_all g hn (fun r hr => (hp r hr).size) rows hf, List.nil_append]
  rfl

/-! ## What is not read back -/

instance : DecidableEq (List (Str × List (List Int))) := inferInstance
instance : DecidableEq (List (Str × Option Str × Str)) := inferInstance
instance : DecidableEq (List (Str × List (List Int)) × List (Str × Option Str × Str)) := instDecidableEqProd

/-- The potential in two units. -/
def twice : List Req := [⟨"potential".toList, some "electronvolt".toList, none, false, 1, "energy".toList⟩, ⟨"potential".toList, some "kelvin".toList, none, false, 1, "energy".toList⟩]

theorem twice_plain : ∀ r ∈ twice, r.Plain := by
  intro r hr
  simp only [twice, List.mem_cons, List.not_mem_nil, or_false] at hr
  rcases hr with rfl | rfl
  · exact ⟨by decide, by rintro s ⟨⟩; decide, by rintro s ⟨⟩, by decide, by decide, by rintro c ⟨⟩; decide⟩
  · exact ⟨by decide, by rintro s ⟨⟩; decide, by rintro s ⟨⟩, by decide, by decide, by rintro c ⟨⟩; decide⟩

/-- **The same property in two units**: the two columns come back mixed, as one array of twice the length with the unit of the second one. -/
theorem two_units_mixed :
    readOutput intNum (writeOutput intNum (twice.map Req.item) [[.scalar 1, .scalar 100], [.scalar 2, .scalar 200]]) =
      some ([("potential".toList, [[1], [100], [2], [200]])], [("potential".toList, some "kelvin".toList, "energy".toList)]) := by decide +kernel

/-- **A blank before the unit**: the request is accepted by the simulation and written, but it is left out by the reader. -/
theorem blank_dropped :
    readOutput intNum (writeOutput intNum [⟨"step".toList, 1, "step".toList⟩, ⟨"potential {electronvolt}".toList, 1, "energy".toList⟩]
      [[.scalar 1, .scalar 100], [.scalar 2, .scalar 200]]) =
      some ([("step".toList, [[1], [2]])], [("step".toList, none, "step".toList)]) := by decide +kernel

/-- **Empty brackets** do the same. -/
theorem empty_brackets_dropped :
    readOutput intNum (writeOutput intNum [⟨"step".toList, 1, "step".toList⟩, ⟨"temperature()".toList, 1, "temperature".toList⟩]
      [[.scalar 1, .scalar 100], [.scalar 2, .scalar 200]]) =
      some ([("step".toList, [[1], [2]])], [("step".toList, none, "step".toList)]) := by decide +kernel

/-! A file with a vector, arguments and units. -/

def sample : List Req :=
  [⟨"step".toList, none, none, false, 1, "The step".toList⟩, ⟨"temperature".toList, some "kelvin".toList, some "O".toList, true, 1, "T of oxygen".toList⟩,
   ⟨"cell_h".toList, none, none, false, 3, "cell".toList⟩]

theorem sample_plain : ∀ r ∈ sample, r.Plain := by
  intro r hr
  simp only [sample, List.mem_cons, List.not_mem_nil, or_false] at hr
  rcases hr with rfl | rfl | rfl
  · exact ⟨by decide, by rintro s ⟨⟩, by rintro s ⟨⟩, by decide, by decide, by rintro c ⟨⟩; decide⟩
  · exact ⟨by decide, by rintro s ⟨⟩; decide, by rintro s ⟨⟩; decide, by decide, by decide, by rintro c ⟨⟩; decide⟩
  · exact ⟨by decide, by rintro s ⟨⟩, by rintro s ⟨⟩, by decide, by decide, by rintro c ⟨⟩; decide⟩

example : readOutput intNum (writeOutput intNum (sample.map Req.item) [[.scalar 1, .scalar 300, .vec [7, 8, 9]], [.scalar 2, .scalar 301, .vec [7, 8, 10]]]) =
    some ([("step".toList, [[1], [2]]), ("temperature(O)".toList, [[300], [301]]), ("cell_h".toList, [[7, 8, 9], [7, 8, 10]])],
      [("step".toList, none, "The step".toList), ("temperature(O)".toList, some "kelvin".toList, "T of oxygen".toList), ("cell_h".toList, none, "cell".toList)]) :=
  read_back_partial good_intNum sample sample_plain (by decide) (by decide) _ (by
    intro qs hq
    simp only [List.mem_cons, List.not_mem_nil, or_false] at hq
    rcases hq with rfl | rfl <;> rfl)

/-! ## Steps of trajectories -/

/-- The first digit of a number. -/
def lead (n : Nat) : Nat := if n < 10 then n else lead (n / 10)
termination_by n
decreasing_by omega

theorem lead_lt (n : Nat) : lead n < 10 := by
  fun_induction lead n with
  | case1 n h => exact h
  | case2 n h ih => exact ih

theorem showNat_lead (n : Nat) : ∃ t, showNat n = digitChar (lead n) :: t := by
  fun_induction lead n with
  | case1 n h => exact ⟨[], showNat_lt h⟩
  | case2 n h ih =>
    obtain ⟨t, ht⟩ := ih
    rw [showNat_ge h, ht]
    exact ⟨_, rfl⟩

theorem stepAt_none {c : Char} {s : Str} (h : c ≠ 'S') : stepAt (c :: s) = none := by
  unfold stepAt
  rw [show kStep = 'S' :: "tep:".toList from rfl, dropPrefix_head (fun e => h e.symm)]

theorem stepAll_pre : ∀ {pre : Str} (_ : 'S' ∉ pre) (t : Str), stepAll (pre ++ t) = stepAll t
  | [], _, _ => rfl
  | c :: pre, h, t => by
    simp only [List.mem_cons, not_or] at h
    rw [List.cons_append, stepAll, stepAt_none (fun e => h.1 e.symm)]
    exact stepAll_pre h.2 t

theorem stepAll_none {s : Str} (h : 'S' ∉ s) : stepAll s = [] := by
  have := stepAll_pre h []
  rwa [List.append_nil] at this

/-- The digits after `Step:` and blanks. -/
theorem stepAt_read (w n : Nat) {t : Str} (ht : ∀ c, t.head? = some c → isDigit c = false) :
    stepAt (kStep ++ ' ' :: ' ' :: (padL w (showNat n) ++ t)) = some (showNat n) := by
  have e1 : (' ' :: (padL w (showNat n) ++ t)).dropWhile isWs = showNat n ++ t := by
    rw [List.dropWhile_cons_of_pos (by decide)]
    unfold padL
    rw [List.append_assoc]
    exact (while_append (blanks_ws _) (digits_head _ _)).2
  have e2 := while_append (showNat_digits n) ht
  unfold stepAt
  rw [dropPrefix_append]
  dsimp only
  rw [e1, e2.1, if_pos ⟨by decide, showNat_ne_nil n⟩]

/-- **The step stored with a frame is the first digit of the step of the frame**, whatever is written before and after it in the comment. -/
theorem step_is_first_digit {pre post : Str} (h1 : 'S' ∉ pre) (h2 : 'S' ∉ post) (n b : Nat) :
    frameStep (pre ++ (stepTitle n b ++ post)) = some (lead n) := by
  have hs : 'S' ∉ padL 10 (showNat n) ++ ("  Bead:   ".toList ++ (padL 5 (showNat b) ++ ' ' :: post)) := by
    have hd : ∀ m, 'S' ∉ showNat m := fun m h => by
      have := showNat_digits m _ h
      revert this; decide
    have hr : ∀ m, 'S' ∉ List.replicate m ' ' := fun m h => absurd (List.eq_of_mem_replicate h) (by decide)
    unfold padL
    simp [hd, hr, h2]
  have e : stepTitle n b ++ post = kStep ++ ' ' :: ' ' :: (padL 10 (showNat n) ++ ("  Bead:   ".toList ++ (padL 5 (showNat b) ++ ' ' :: post))) := by
    unfold stepTitle
    simp only [List.append_assoc, List.cons_append, List.nil_append]
  have ha := stepAt_read 10 n (t := "  Bead:   ".toList ++ (padL 5 (showNat b) ++ ' ' :: post)) (by intro c hc; cases hc; decide)
  have hall : stepAll (stepTitle n b ++ post) = [showNat n] := by
    rw [e]
    rw [show kStep = 'S' :: "tep:".toList from rfl, List.cons_append] at ha ⊢
    rw [stepAll, ha]
    dsimp only
    rw [stepAll_none]
    simp only [List.mem_append, List.mem_cons, not_or] at hs ⊢
    exact ⟨by decide, by decide, by decide, hs⟩
  obtain ⟨t, ht⟩ := showNat_lead n
  unfold frameStep
  rw [stepAll_pre h1, hall]
  show (showNat n).head?.bind _ = _
  rw [ht]
  show parseNat [digitChar (lead n)] = _
  rw [← showNat_lt (lead_lt n), parseNat_showNat]

/-- **From step 10 on the step is wrong.** -/
theorem step_wrong {pre post : Str} (h1 : 'S' ∉ pre) (h2 : 'S' ∉ post) {n : Nat} (hn : 10 ≤ n) (b : Nat) :
    frameStep (pre ++ (stepTitle n b ++ post)) ≠ some n := by
  rw [step_is_first_digit h1 h2]
  intro e
  have := Option.some.inj e
  exact absurd (lead_lt n) (by omega)

/-- Below it is right. -/
theorem step_right_partial {pre post : Str} (h1 : 'S' ∉ pre) (h2 : 'S' ∉ post) {n : Nat} (hn : n < 10) (b : Nat) :
    frameStep (pre ++ (stepTitle n b ++ post)) = some n := by
  rw [step_is_first_digit h1 h2, lead, if_pos hn]

example : frameStep ("# CELL(abcABC): 10 10 10 90 90 90 ".toList ++ (stepTitle 1250 0 ++ "positions{angstrom}  cell{angstrom}".toList)) = some 1 := by decide +kernel

/-! ## Extras -/

theorem lines_append (a b : Str) : lines (a ++ '\n' :: b) = lines (a ++ ['\n']) ++ lines b := by
  induction a with
  | nil => simp [lines]
  | cons c a ih =>
    rw [List.cons_append, List.cons_append]
    by_cases h : c = '\n'
    · subst h
      simp [lines, ih]
    · have hne : ∀ b : Str, lines (a ++ '\n' :: b) ≠ [] := by
        intro b e
        cases a with
        | nil => simp [lines] at e
        | cons d a =>
          rw [List.cons_append, lines] at e
          split at e
          · simp at e
          · split at e <;> simp at e
      rw [lines, lines, if_neg h, if_neg h, ih]
      cases h2 : lines (a ++ ['\n']) with
      | nil => exact absurd h2 (hne [])
      | cons x xs => rfl

theorem mem_lines : ∀ (s l : Str) (_ : l ∈ lines s), ∀ c ∈ l, c ∈ s
  | [], l, h => by simp [lines] at h
  | d :: s, l, h => by
    intro c hc
    rw [lines] at h
    have ih := mem_lines s
    split at h
    · rename_i hd
      rcases List.mem_cons.1 h with rfl | h
      · rw [List.mem_singleton.1 hc, hd]; simp
      · exact List.mem_cons_of_mem _ (ih l h c hc)
    · split at h
      · rw [List.mem_singleton.1 h] at hc
        rw [List.mem_singleton.1 hc]; simp
      · rename_i x xs e
        rcases List.mem_cons.1 h with rfl | h
        · rcases List.mem_cons.1 hc with rfl | hc
          · simp
          · exact List.mem_cons_of_mem _ (ih x (by rw [e]; simp) c hc)
        · exact List.mem_cons_of_mem _ (ih l (by rw [e]; simp [h]) c hc)

theorem extrasAt_none {c : Char} {s : Str} (h : c ≠ '#') : extrasAt (c :: s) = none := by
  unfold extrasAt
  rw [show kExtras = '#' :: "EXTRAS".toList from rfl, dropPrefix_head (fun e => h e.symm)]

theorem extrasSearch_none : ∀ {s : Str} (_ : '#' ∉ s), extrasSearch s = none
  | [], _ => rfl
  | c :: s, h => by
    simp only [List.mem_cons, not_or] at h
    rw [extrasSearch, extrasAt_none (fun e => h.1 e.symm)]
    exact extrasSearch_none h.2

theorem extrasSearch_head {kind : Str} (hk : kind ≠ []) (hk2 : ')' ∉ kind) (step : Nat) :
    extrasSearch (extrasHead kind step ++ ['\n']) = some (kind, showNat step) := by
  have e : extrasHead kind step ++ ['\n'] = ' ' :: (kExtras ++ '(' :: (kind ++ ')' :: '#' :: ' ' :: (kStep ++ ' ' :: ' ' :: (padL 10 (showNat step) ++ [' ', '\n'])))) := by
    unfold extrasHead
    simp only [List.append_assoc, List.cons_append, List.nil_append]
  have w := while_append (p := fun x => decide (x ≠ ')')) (a := kind) (b := ')' :: '#' :: ' ' :: (kStep ++ ' ' :: ' ' :: (padL 10 (showNat step) ++ [' ', '\n'])))
    (fun x hx => by simp only [decide_eq_true_eq]; rintro rfl; exact hk2 hx) (fun x hx => by cases hx; simp)
  have s1 := stepAt_read 10 step (t := [' ', '\n']) (by intro c hc; cases hc; decide)
  have key : extrasAt (kExtras ++ '(' :: (kind ++ ')' :: '#' :: ' ' :: (kStep ++ ' ' :: ' ' :: (padL 10 (showNat step) ++ [' ', '\n'])))) = some (kind, showNat step) := by
    unfold extrasAt
    rw [dropPrefix_append]
    dsimp only
    rw [List.dropWhile_cons_of_neg (by decide)]
    dsimp only
    rw [w.1, w.2, if_neg hk]
    have e3 : ∀ s : Str, (' ' :: (kStep ++ s)).dropWhile (fun c => decide (c = ' ')) = kStep ++ s := fun s => rfl
    show ((stepAt ((' ' :: (kStep ++ _)).dropWhile _)).map _) = _
    rw [e3, s1]
    rfl
  rw [e, extrasSearch, extrasAt_none (by decide)]
  dsimp only
  rw [show kExtras = '#' :: "EXTRAS".toList from rfl, List.cons_append] at key ⊢
  rw [extrasSearch, key]

/-- Lines without a header are collected. -/
theorem extrasLoop_lines {A : Type} (load : List Str → Option A) : ∀ (ls : List Str) (_ : ∀ l ∈ ls, extrasSearch l = none) (rest : List Str) (steps : List Nat) (data : List (Datum A))
    (frame : List Str) (name : Str), extrasLoop load (ls ++ rest) steps data frame name = extrasLoop load rest steps data (frame ++ ls) name
  | [], _, rest, steps, data, frame, name => by rw [List.nil_append, List.append_nil]
  | l :: ls, h, rest, steps, data, frame, name => by
    rw [List.cons_append, extrasLoop, h l (by simp)]
    dsimp only
    rw [extrasLoop_lines load ls (fun x hx => h x (by simp [hx])), List.append_assoc]
    rfl

/-- The lines of the text of a frame. -/
def body (text : Str) : List Str := lines (text ++ ['\n'])

theorem lines_extras {kind : Str} (hk : '\n' ∉ kind) (step : Nat) (text t : Str) :
    lines (extrasFrame kind step text ++ t) = (extrasHead kind step ++ ['\n']) :: (body text ++ lines t) := by
  have hnl : '\n' ∉ extrasHead kind step := by
    have h3 := showNat_nonl step
    have h5 : '\n' ∉ kExtras := by decide
    have h6 : '\n' ∉ kStep := by decide
    unfold extrasHead padL
    simp [h3, h5, h6, hk]
  unfold extrasFrame
  rw [List.append_assoc, List.cons_append, lines_line hnl, List.append_assoc, List.singleton_append, lines_append]
  rfl

theorem body_search {text : Str} (h : '#' ∉ text) : ∀ l ∈ body text, extrasSearch l = none := fun l hl =>
  extrasSearch_none fun hc => by
    have := mem_lines _ l hl _ hc
    simp [h] at this

theorem body_ne (text : Str) : body text ≠ [] := by
  intro e
  unfold body at e
  cases text with
  | nil => simp [lines] at e
  | cons c s =>
    rw [List.cons_append, lines] at e
    split at e
    · simp at e
    · split at e <;> simp at e

theorem extras_loop_all {A : Type} (load : List Str → Option A) {kind : Str} (hk : kind ≠ []) (hk2 : ')' ∉ kind) (hk3 : '\n' ∉ kind) :
    ∀ (fs : List (Nat × Str)) (_ : ∀ f ∈ fs, '#' ∉ f.2) (steps : List Nat) (data : List (Datum A)) (frame : List Str) (_ : frame ≠ []),
      extrasLoop load (lines (fs.flatMap fun f => extrasFrame kind f.1 f.2)) steps data frame kind =
        some (steps ++ fs.map (·.1), kind, data ++ datum load frame :: fs.map fun f => datum load (body f.2))
  | [], _, steps, data, frame, hne => by
    show some (steps, kind, if frame = [] then data else data ++ [datum load frame]) = _
    rw [if_neg hne]
    simp
  | f :: fs, h, steps, data, frame, hne => by
    rw [List.flatMap_cons, lines_extras hk3, extrasLoop, extrasSearch_head hk hk2]
    dsimp only
    rw [if_neg hk, if_neg (by simp), if_neg hne, extrasLoop_lines load _ (body_search (h f (by simp))), List.nil_append,
      extras_loop_all load hk hk2 hk3 fs (fun x hx => h x (by simp [hx])) _ _ _ (body_ne _), parseNat_showNat]
    simp

/-- **Extras are read back**: all the steps with their full numbers, the name of the quantity and, step by step, what `np.loadtxt` makes of the lines, for texts
without the character that starts a header. -/
theorem extras_read {A : Type} (load : List Str → Option A) {kind : Str} (hk : kind ≠ []) (hk2 : ')' ∉ kind) (hk3 : '\n' ∉ kind) (fs : List (Nat × Str)) (hne : fs ≠ [])
    (h : ∀ f ∈ fs, '#' ∉ f.2) :
    readExtras load (fs.flatMap fun f => extrasFrame kind f.1 f.2) = some (fs.map (·.1), kind, fs.map fun f => datum load (body f.2)) := by
  cases fs with
  | nil => exact absurd rfl hne
  | cons f fs =>
    unfold readExtras
    rw [List.flatMap_cons, lines_extras hk3, extrasLoop, extrasSearch_head hk hk2]
    dsimp only
    rw [if_pos rfl, if_pos rfl, extrasLoop_lines load _ (body_search (h f (by simp))), List.nil_append (as := body f.2),
      extras_loop_all load hk hk2 hk3 fs (fun x hx => h x (by simp [hx])) _ _ _ (body_ne _), parseNat_showNat]
    simp

/-- **Lines before the first header become an entry of their own**, so that there is one more entry than there are steps and each belongs to the step before. -/
theorem preface_shifts {A : Type} (load : List Str → Option A) {kind : Str} (hk : kind ≠ []) (hk2 : ')' ∉ kind) (hk3 : '\n' ∉ kind) (pre : Str) (hp : '#' ∉ pre)
    (fs : List (Nat × Str)) (hne : fs ≠ []) (h : ∀ f ∈ fs, '#' ∉ f.2) :
    readExtras load (pre ++ '\n' :: fs.flatMap fun f => extrasFrame kind f.1 f.2) =
      some (fs.map (·.1), kind, datum load (body pre) :: fs.map fun f => datum load (body f.2)) := by
  cases fs with
  | nil => exact absurd rfl hne
  | cons f fs =>
    unfold readExtras
    rw [lines_append, show lines (pre ++ ['\n']) = body pre from rfl, extrasLoop_lines load _ (body_search hp), List.nil_append (as := body pre),
      List.flatMap_cons, lines_extras hk3, extrasLoop, extrasSearch_head hk hk2]
    dsimp only
    rw [if_pos rfl, if_neg (body_ne pre), extrasLoop_lines load _ (body_search (h f (by simp))), List.nil_append (as := body f.2),
      extras_loop_all load hk hk2 hk3 fs (fun x hx => h x (by simp [hx])) _ _ _ (body_ne _), parseNat_showNat]
    simp

/-- **A text comes back changed**: one of a single line gets a line end; in others every line end is doubled. -/
theorem text_not_read_back :
    readExtras (fun _ => (none : Option Unit)) (extrasFrame "raw".toList 12 "charges\nok".toList) = some ([12], "raw".toList, [.text "charges\n\nok\n".toList]) := by
  decide +kernel

example : readExtras (A := Unit) (fun _ => some ()) ([(12, "0.5 1.5".toList), (120, "2.5\n3.5".toList)].flatMap fun f => extrasFrame "dipole".toList f.1 f.2) =
    some ([12, 120], "dipole".toList, [.array (), .array ()]) :=
  extras_read _ (by decide) (by decide) (by decide) _ (by decide) (by decide)

end Verif.Readback
