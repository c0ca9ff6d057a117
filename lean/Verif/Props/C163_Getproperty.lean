import Verif.Tools.Getproperty
import Verif.Text.Lemmas
import Verif.Io.TrajLemmas

/-!
# C163: taking one property out of a property file
-/

namespace Verif.Getprop

open Verif.Text Verif.Readback Verif.Traj

/-- The columns before the property that follows `pre`. -/
def columnsBefore (pre : List Item) : Nat := (pre.map Item.size).sum

/-- What follows the arrow in the line of a property: name and description. -/
def tail (i : Item) : Str := i.what ++ ' ' :: ':' :: ' ' :: i.help

/-- The description has no arrow in it. -/
def Plain (i : Item) : Prop := ¬ "-->".toList <:+: tail i

/-! ### The pattern -/

theorem matchAt_other {c : Char} (h : c ≠ ' ') (name s : Str) : matchAt name (c :: s) = none := by
  rw [matchAt]
  intro r hr
  exact h (List.cons.inj hr).1

theorem find_other {c : Char} (h : c ≠ ' ') (name s : Str) : find name (c :: s) = find name s := by
  rw [find, matchAt_other h]

theorem find_others (name a s : Str) (h : ∀ c ∈ a, c ≠ ' ') : find name (a ++ s) = find name s := by
  induction a with
  | nil => rfl
  | cons c a ih =>
      rw [List.cons_append, find_other (h c (by simp)), ih fun c' h' => h c' (by simp [h'])]

/-- A blank after which, blanks left out, there is something else than a dash. -/
theorem find_blank {name r : Str} {c : Char} {s : Str} (hd : (r.dropWhile isDigit).dropWhile (· = ' ') = c :: s) (hc : c ≠ '-') :
    find name (' ' :: r) = find name r := by
  have : matchAt name (' ' :: r) = none := by
    simp [matchAt, hd, List.isPrefixOf, Ne.symm hc]
  rw [find, this]

theorem digit_ne_blank {c : Char} (h : isDigit c = true) : c ≠ ' ' ∧ c ≠ '-' ∧ c ≠ '>' := by
  refine ⟨?_, ?_, ?_⟩ <;> (rintro rfl; exact absurd h (by decide))

theorem drop_blanks (k : Nat) (s : Str) : (List.replicate k ' ' ++ s).dropWhile (· = ' ') = s.dropWhile (· = ' ') :=
  List.dropWhile_append_of_pos (by intro c hc; rw [List.eq_of_mem_replicate hc]; simp)

/-- Blanks before a character that is not a digit, a blank or a dash. -/
theorem find_blanks {name : Str} (k : Nat) {c : Char} {s : Str} (hd : isDigit c = false) (hb : c ≠ ' ') (hc : c ≠ '-') :
    find name (List.replicate k ' ' ++ c :: s) = find name (c :: s) := by
  induction k with
  | zero => rfl
  | succ k ih =>
      rw [List.replicate_succ, List.cons_append, find_blank (c := c) (s := s), ih]
      · cases k with
        | zero => simp [hd, hb]
        | succ k =>
            rw [List.replicate_succ, List.cons_append, List.dropWhile_cons_of_neg (by decide), ← List.cons_append,
              ← List.replicate_succ, drop_blanks]
            simp [hb]
      · exact hc

/-- Blanks before the last blank before digits. -/
theorem find_blanks_digit {name : Str} (k : Nat) {c : Char} {s : Str} (hd : isDigit c = true) :
    find name (List.replicate k ' ' ++ ' ' :: c :: s) = find name (' ' :: c :: s) := by
  induction k with
  | zero => rfl
  | succ k ih =>
      rw [List.replicate_succ, List.cons_append, find_blank (c := c) (s := s), ih]
      · have : List.replicate k ' ' ++ ' ' :: c :: s = List.replicate (k + 1) ' ' ++ c :: s := by
          rw [List.replicate_succ', List.append_assoc]; rfl
        rw [this, List.replicate_succ, List.cons_append, List.dropWhile_cons_of_neg (by decide), ← List.cons_append,
          ← List.replicate_succ, drop_blanks]
        simp [(digit_ne_blank hd).1]
      · exact (digit_ne_blank hd).2.1

theorem arrow_prefix {name a t : Str} (ha : '>' ∉ a) (hn : ¬ name <+: t) : ¬ ("--> ".toList ++ name) <+: (a ++ ("--> ".toList ++ t)) := by
  have e : "--> ".toList = ['-', '-', '>', ' '] := by decide
  rw [e]
  rcases a with _ | ⟨x, _ | ⟨y, _ | ⟨z, a⟩⟩⟩
  · simpa using hn
  · simp
  · simp
  · simp only [List.cons_append, List.cons_prefix_cons, not_and]
    rintro rfl rfl h
    simp only [List.mem_cons, not_or] at ha
    exact absurd h ha.2.2.1

theorem dropWhile_arrow (p : Char → Bool) (hp : p '-' = false) (a t : Str) : ∃ a', a' <:+ a ∧
    (a ++ ("--> ".toList ++ t)).dropWhile p = a' ++ ("--> ".toList ++ t) := by
  induction a with
  | nil => exact ⟨[], List.suffix_rfl, by
      have e : "--> ".toList = ['-', '-', '>', ' '] := by decide
      rw [e]; simp [hp]⟩
  | cons c a ih =>
      by_cases hc : p c = true
      · obtain ⟨a', h1, h2⟩ := ih
        exact ⟨a', h1.trans (List.suffix_cons c a), by rw [List.cons_append, List.dropWhile_cons_of_pos hc]; exact h2⟩
      · exact ⟨c :: a, List.suffix_rfl, by rw [List.cons_append, List.dropWhile_cons_of_neg hc]⟩

/-- Before the arrow nothing is found if the name does not follow it. -/
theorem find_before {name a t : Str} (ha : '>' ∉ a) (hn : ¬ name <+: t) :
    find name (a ++ ("--> ".toList ++ t)) = find name ("--> ".toList ++ t) := by
  induction a with
  | nil => rfl
  | cons c a ih =>
      have ha' : '>' ∉ a := fun h => ha (by simp [h])
      have : matchAt name (c :: a ++ ("--> ".toList ++ t)) = none := by
        by_cases hc : c = ' '
        · subst hc
          obtain ⟨a1, h1, h2⟩ := dropWhile_arrow isDigit (by decide) a t
          obtain ⟨a2, h3, h4⟩ := dropWhile_arrow (· = ' ') (by decide) a1 t
          rw [List.cons_append, matchAt, if_neg]
          rw [h2, h4, List.isPrefixOf_iff_prefix]
          exact arrow_prefix (fun h => ha' ((h3.trans h1).subset h)) hn
        · exact matchAt_other hc _ _
      rw [List.cons_append] at this ⊢
      rw [find, this]
      exact ih ha'

/-- Without an arrow nothing is found. -/
theorem find_plain {name s : Str} (h : ¬ "-->".toList <:+: s) : find name s = none := by
  induction s with
  | nil => rfl
  | cons c s ih =>
      have : matchAt name (c :: s) = none := by
        by_cases hc : c = ' '
        · subst hc
          rw [matchAt, if_neg]
          rw [List.isPrefixOf_iff_prefix]
          intro hp
          apply h
          have e : "--> ".toList = "-->".toList ++ [' '] := by decide
          have h1 : "-->".toList <+: (s.dropWhile isDigit).dropWhile (· = ' ') := by
            refine List.IsPrefix.trans ?_ hp
            rw [e, List.append_assoc]
            exact List.prefix_append _ _
          exact h1.isInfix.trans (((List.dropWhile_suffix _).trans (List.dropWhile_suffix _)).isInfix.trans
            (List.suffix_cons ' ' s).isInfix)
        · exact matchAt_other hc _ _
      rw [find, this]
      exact ih fun h' => h (h'.trans (List.suffix_cons c s).isInfix)

theorem find_arrow {name t : Str} (h : ¬ "-->".toList <:+: t) : find name ("--> ".toList ++ t) = none := by
  have e : "--> ".toList = ['-', '-', '>', ' '] := by decide
  rw [e]
  simp only [List.cons_append, List.nil_append]
  rw [find_other (by decide), find_other (by decide), find_other (by decide)]
  apply find_plain
  rintro ⟨a, b, hab⟩
  have e2 : "-->".toList = ['-', '-', '>'] := by decide
  cases a with
  | nil => rw [e2] at hab; simp at hab
  | cons x a =>
      simp only [List.cons_append, List.cons.injEq] at hab
      exact h ⟨a, b, hab.2⟩

/-! ### Lines of the header -/

theorem showNat_cons (n : Nat) : ∃ c s, showNat n = c :: s ∧ isDigit c = true := by
  cases h : showNat n with
  | nil => exact absurd h (showNat_ne_nil n)
  | cons c s => exact ⟨c, s, rfl, showNat_digits n c (by rw [h]; simp)⟩

theorem head_split (icol : Nat) (i : Item) : headText icol i
    = ('#' :: ' ' :: (colText icol i ++ [' '])) ++ ("--> ".toList ++ tail i) := by
  have e : kArrow = "-->".toList := rfl
  have e2 : "--> ".toList = "-->".toList ++ [' '] := by decide
  rw [headText, tail, e, e2]
  simp

theorem colText_plain (icol : Nat) (i : Item) : '>' ∉ '#' :: ' ' :: (colText icol i ++ [' ']) := by
  have hd : ∀ n : Nat, '>' ∉ showNat n := fun n h => (digit_ne_blank (showNat_digits n _ h)).2.2 rfl
  have hp : ∀ n : Nat, '>' ∉ padL 3 (showNat n) := by
    intro n hc
    rcases padL_mem hc with h | h
    · exact absurd h (by decide)
    · exact hd n h
  have hr : ∀ n : Nat, '>' ∉ padR 3 (showNat n) := by
    intro n hc
    rw [padR, List.mem_append] at hc
    rcases hc with h | h
    · exact hd n h
    · exact absurd (List.eq_of_mem_replicate h) (by decide)
  have k1 : '>' ∉ kColumn := by decide
  have k2 : '>' ∉ kCols := by decide
  have k4 : '>' ∉ "    ".toList := by decide
  intro h
  simp only [List.mem_cons, List.mem_append, List.not_mem_nil, or_false] at h
  rcases h with h | h | h | h
  · exact absurd h (by decide)
  · exact absurd h (by decide)
  · rw [colText] at h
    split at h
    · simp only [List.mem_cons, List.mem_append] at h
      rcases h with h | h | h | h
      · exact k1 h
      · exact absurd h (by decide)
      · exact hp _ h
      · exact k4 h
    · simp only [List.mem_cons, List.mem_append] at h
      rcases h with h | h | h | h | h | h
      · exact k2 h
      · exact absurd h (by decide)
      · exact absurd h (by decide)
      · exact hp _ h
      · exact absurd h (by decide)
      · exact hr _ h
  · exact absurd h (by decide)

/-- A property with another name is passed over. -/
theorem find_not {name : Str} {i : Item} (hp : Plain i) (hn : ¬ name <+: tail i) (icol : Nat) :
    find name (headText icol i) = none := by
  rw [head_split, find_before (colText_plain icol i) hn, find_arrow hp]

/-- The number of the column is found for a property of one column. -/
theorem find_one {name : Str} {i : Item} (hs : i.size = 1) (hn : name <+: tail i) (icol : Nat) :
    find name (headText icol i) = some (showNat icol) := by
  obtain ⟨c, s, hc, hd⟩ := showNat_cons icol
  have h1 : headText icol i = '#' :: ' ' :: ("column".toList
      ++ (List.replicate (3 - (showNat icol).length) ' ' ++ ' ' :: (showNat icol ++ ("     ".toList ++ ("--> ".toList ++ tail i))))) := by
    have e1 : ("     ".toList : Str) = "    ".toList ++ [' '] := by decide
    have e2 : ∀ r : Str, ' ' :: (List.replicate (3 - (showNat icol).length) ' ' ++ r)
        = List.replicate (3 - (showNat icol).length) ' ' ++ ' ' :: r := by
      intro r
      have : ' ' :: (List.replicate (3 - (showNat icol).length) ' ' ++ r)
          = List.replicate (3 - (showNat icol).length + 1) ' ' ++ r := by rw [List.replicate_succ]; rfl
      rw [this, List.replicate_succ', List.append_assoc]
      rfl
    rw [head_split, colText, if_pos hs, e1, padL, ← e2]
    simp [kColumn]
  have h0 : find name ('#' :: ' ' :: ("column".toList
      ++ (List.replicate (3 - (showNat icol).length) ' ' ++ ' ' :: (showNat icol ++ ("     ".toList ++ ("--> ".toList ++ tail i))))))
      = find name (' ' :: (showNat icol ++ ("     ".toList ++ ("--> ".toList ++ tail i)))) := by
    rw [find_other (by decide)]
    have ec : "column".toList = 'c' :: "olumn".toList := by decide
    rw [ec, List.cons_append, find_blank (c := 'c') (by rw [List.dropWhile_cons_of_neg (by decide), List.dropWhile_cons_of_neg (by decide)]) (by decide),
      ← List.cons_append, ← ec, find_others name "column".toList _ (by decide), hc]
    exact find_blanks_digit _ hd
  rw [h1, h0, find]
  have hall : ∀ c ∈ showNat icol, isDigit c = true := fun c h => showNat_digits icol c h
  have e5 : "     ".toList = ' ' :: List.replicate 4 ' ' := by decide
  have e6 : "--> ".toList = ['-', '-', '>', ' '] := by decide
  have hm : matchAt name (' ' :: (showNat icol ++ ("     ".toList ++ ("--> ".toList ++ tail i)))) = some (showNat icol) := by
    rw [matchAt, List.dropWhile_append_of_pos hall, List.takeWhile_append_of_pos hall]
    have h3 : (("     ".toList ++ ("--> ".toList ++ tail i)).dropWhile isDigit).dropWhile (· = ' ') = "--> ".toList ++ tail i := by
      have : "     ".toList ++ ("--> ".toList ++ tail i) = ' ' :: (List.replicate 4 ' ' ++ ("--> ".toList ++ tail i)) := by
        rw [e5]; rfl
      rw [this, List.dropWhile_cons_of_neg (by decide), List.dropWhile_cons_of_pos (by decide), drop_blanks, e6]
      rfl
    rw [h3, if_pos (by rw [List.isPrefixOf_iff_prefix]; exact (List.prefix_append_right_inj _).2 hn), e5]
    simp [show isDigit ' ' = false by decide]
  rw [hm]

/-- For a property of several columns nothing is left for the number. -/
theorem find_wide {name : Str} {i : Item} (hs : i.size ≠ 1) (hn : name <+: tail i) (icol : Nat) :
    find name (headText icol i) = some [] := by
  obtain ⟨c, s, hc, hd⟩ := showNat_cons icol
  obtain ⟨c2, s2, hc2, hd2⟩ := showNat_cons (icol + i.size - 1)
  have hall : ∀ c ∈ showNat icol, isDigit c = true := fun c h => showNat_digits icol c h
  have hall2 : ∀ c ∈ showNat (icol + i.size - 1), isDigit c = true := fun c h => showNat_digits _ c h
  have e6 : "--> ".toList = ['-', '-', '>', ' '] := by decide
  have e2 : ∀ (k : Nat) (r : Str), ' ' :: (List.replicate k ' ' ++ r) = List.replicate k ' ' ++ ' ' :: r := by
    intro k r
    have : ' ' :: (List.replicate k ' ' ++ r) = List.replicate (k + 1) ' ' ++ r := by rw [List.replicate_succ]; rfl
    rw [this, List.replicate_succ', List.append_assoc]
    rfl
  have h1 : headText icol i = '#' :: ' ' :: ("cols.".toList
      ++ (List.replicate (3 - (showNat icol).length + 1) ' ' ++ ' ' :: (showNat icol ++ ('-' :: (showNat (icol + i.size - 1)
        ++ ' ' :: (List.replicate (3 - (showNat (icol + i.size - 1)).length) ' ' ++ ("--> ".toList ++ tail i))))))) := by
    rw [head_split, colText, if_neg hs, padL, padR, ← e2, List.replicate_succ, e2 _ ("--> ".toList ++ tail i)]
    simp [kCols]
  rw [h1, find_other (by decide)]
  have ec : "cols.".toList = 'c' :: "ols.".toList := by decide
  rw [ec, List.cons_append, find_blank (c := 'c') (by rw [List.dropWhile_cons_of_neg (by decide), List.dropWhile_cons_of_neg (by decide)]) (by decide),
    ← List.cons_append, ← ec, find_others name "cols.".toList _ (by decide)]
  have hb : find name (List.replicate (3 - (showNat icol).length + 1) ' ' ++ ' ' :: (showNat icol ++ ('-' :: (showNat (icol + i.size - 1)
        ++ ' ' :: (List.replicate (3 - (showNat (icol + i.size - 1)).length) ' ' ++ ("--> ".toList ++ tail i))))))
      = find name (' ' :: (showNat icol ++ ('-' :: (showNat (icol + i.size - 1)
        ++ ' ' :: (List.replicate (3 - (showNat (icol + i.size - 1)).length) ' ' ++ ("--> ".toList ++ tail i)))))) := by
    rw [hc]
    exact find_blanks_digit _ hd
  rw [hb]
  generalize hX : (' ' :: (List.replicate (3 - (showNat (icol + i.size - 1)).length) ' ' ++ ("--> ".toList ++ tail i))) = X
  have hmid : matchAt name (' ' :: (showNat icol ++ ('-' :: (showNat (icol + i.size - 1) ++ X)))) = none := by
    rw [matchAt, List.dropWhile_append_of_pos hall, List.dropWhile_cons_of_neg (by decide), List.dropWhile_cons_of_neg (by decide), if_neg]
    rw [hc2, e6]
    simp [List.isPrefixOf, Ne.symm (digit_ne_blank hd2).2.1]
  rw [find, hmid]
  simp only
  rw [find_others name (showNat icol) _ (fun c h => (digit_ne_blank (hall c h)).1), find_other (by decide),
    find_others name (showNat (icol + i.size - 1)) _ (fun c h => (digit_ne_blank (hall2 c h)).1), ← hX, find]
  have hm : matchAt name (' ' :: (List.replicate (3 - (showNat (icol + i.size - 1)).length) ' ' ++ ("--> ".toList ++ tail i))) = some [] := by
    generalize 3 - (showNat (icol + i.size - 1)).length = k
    have hdg : (List.replicate k ' ' ++ ("--> ".toList ++ tail i)).dropWhile isDigit = List.replicate k ' ' ++ ("--> ".toList ++ tail i)
        ∧ (List.replicate k ' ' ++ ("--> ".toList ++ tail i)).takeWhile isDigit = [] := by
      cases k with
      | zero => rw [e6]; exact ⟨rfl, rfl⟩
      | succ k => rw [List.replicate_succ]; exact ⟨rfl, rfl⟩
    rw [matchAt, hdg.1, hdg.2, drop_blanks, if_pos]
    rw [List.isPrefixOf_iff_prefix]
    have : ("--> ".toList ++ tail i).dropWhile (· = ' ') = "--> ".toList ++ tail i := by rw [e6]; rfl
    rw [this]
    exact (List.prefix_append_right_inj _).2 hn
  rw [hm]

/-! ### The file -/

theorem loop_skip {name : Str} (skip : Nat) (icol : Int) (step k : Nat) (is : List Item) (rest : List Str)
    (h : ∀ i ∈ is, Plain i ∧ ¬ name <+: tail i) :
    loop name skip icol step (headerLines k is ++ rest) = loop name skip icol step rest := by
  induction is generalizing k with
  | nil => rfl
  | cons i is ih =>
      obtain ⟨h1, h2⟩ := h i (by simp)
      have hh : (headText k i).head? = some '#' := rfl
      rw [headerLines, List.cons_append, loop, if_pos hh, find_not h1 h2]
      exact ih (k + i.size) fun j hj => h j (by simp [hj])

theorem headerLines_append (icol : Nat) (as bs : List Item) :
    headerLines icol (as ++ bs) = headerLines icol as ++ headerLines (icol + columnsBefore as) bs := by
  induction as generalizing icol with
  | nil => simp [headerLines, columnsBefore]
  | cons a as ih => simp [headerLines, ih, columnsBefore, Nat.add_assoc]

theorem loop_rows {name : Str} (skip col : Nat) (rows : List Str) : ∀ (step : Nat),
    (∀ r ∈ rows, r.head? ≠ some '#' ∧ col < (splitWs r).length) →
    loop name skip (col : Int) step rows
      = ((rows.drop (skip - step)).map (fun r => (splitWs r).getD col []), .done) := by
  induction rows with
  | nil => intro step h; simp [loop]
  | cons r rows ih =>
      intro step h
      obtain ⟨h1, h2⟩ := h r (by simp)
      have hr := ih (step + 1) fun r' hr' => h r' (by simp [hr'])
      rw [loop, if_neg h1, if_neg (by omega)]
      by_cases hs : step ≥ skip
      · rw [if_pos hs, Int.toNat_natCast, List.getElem?_eq_getElem h2, hr]
        have e1 : skip - step = 0 := by omega
        have e2 : skip - (step + 1) = 0 := by omega
        rw [e1, e2]
        simp [List.getD, List.getElem?_eq_getElem h2]
      · rw [if_neg hs, hr]
        have e1 : skip - step = (skip - (step + 1)) + 1 := by omega
        rw [e1]
        rfl

/-- **C163, one column.**  For a property of one column, which no other property's text begins with, the values of
exactly its column are printed, from the row asked for on, wherever it stands in the file. -/
theorem prints_column {name : Str} (skip : Nat) {pre post : List Item} {p : Item} (hs : p.size = 1) (hn : name <+: tail p)
    (hpre : ∀ i ∈ pre, Plain i ∧ ¬ name <+: tail i) (hpost : ∀ i ∈ post, Plain i ∧ ¬ name <+: tail i) (rows : List Str)
    (hr : ∀ r ∈ rows, r.head? ≠ some '#' ∧ columnsBefore pre < (splitWs r).length) :
    getproperty name skip (headerLines 1 (pre ++ p :: post) ++ rows)
      = ((rows.drop skip).map (fun r => (splitWs r).getD (columnsBefore pre) []), .done) := by
  have hh : (headText (1 + columnsBefore pre) p).head? = some '#' := rfl
  rw [getproperty, headerLines_append, headerLines, List.append_assoc, loop_skip skip _ _ _ _ _ hpre, List.cons_append,
    loop, if_pos hh, find_one hs hn]
  simp only
  rw [if_neg (by decide), parseNat_showNat]
  simp only
  rw [loop_skip skip _ _ _ _ _ hpost]
  have e : ((1 + columnsBefore pre : Nat) : Int) - 1 = (columnsBefore pre : Int) := by omega
  rw [e, loop_rows skip (columnsBefore pre) rows 0 hr]
  rfl

/-- **C163, several columns.**  For a property of several columns the script fails, and prints nothing. -/
theorem wide_fails {name : Str} (skip : Nat) {pre post : List Item} {p : Item} (hs : p.size ≠ 1) (hn : name <+: tail p)
    (hpre : ∀ i ∈ pre, Plain i ∧ ¬ name <+: tail i) (rows : List Str) :
    getproperty name skip (headerLines 1 (pre ++ p :: post) ++ rows) = ([], .value) := by
  have hh : (headText (1 + columnsBefore pre) p).head? = some '#' := rfl
  rw [getproperty, headerLines_append, headerLines, List.append_assoc, loop_skip skip _ _ _ _ _ hpre, List.cons_append,
    loop, if_pos hh, find_wide hs hn]
  simp only
  rw [if_neg (by decide)]
  rfl

/-- **C163, longer names.**  If the text of another property begins with the name, nothing is printed: not even when
the name is exactly that of the first. -/
theorem prefix_refused {name : Str} (skip : Nat) {pre mid post : List Item} {p p' : Item} (hs : p.size = 1)
    (hn : name <+: tail p) (hn' : name <+: tail p') (hpre : ∀ i ∈ pre, Plain i ∧ ¬ name <+: tail i)
    (hmid : ∀ i ∈ mid, Plain i ∧ ¬ name <+: tail i) (rows : List Str) :
    getproperty name skip (headerLines 1 (pre ++ p :: (mid ++ p' :: post)) ++ rows) = ([], .multiple) := by
  have hh : (headText (1 + columnsBefore pre) p).head? = some '#' := rfl
  have hh' : ∀ k, (headText k p').head? = some '#' := fun _ => rfl
  rw [getproperty, headerLines_append, headerLines, List.append_assoc, loop_skip skip _ _ _ _ _ hpre, List.cons_append,
    loop, if_pos hh, find_one hs hn]
  simp only
  rw [if_neg (by decide), parseNat_showNat]
  simp only
  rw [headerLines_append, headerLines, List.append_assoc, loop_skip skip _ _ _ _ _ hmid, List.cons_append, loop, if_pos (hh' _)]
  have hi : (((1 + columnsBefore pre : Nat) : Int) - 1 ≥ 0) := by omega
  by_cases hs' : p'.size = 1
  · rw [find_one hs' hn']; simp only; rw [if_pos hi]
  · rw [find_wide hs' hn']; simp only; rw [if_pos hi]

/-- **C163, no such property.**  Nothing is printed, and if there are rows there is a warning. -/
theorem none_found {name : Str} (skip : Nat) (is : List Item) (h : ∀ i ∈ is, Plain i ∧ ¬ name <+: tail i) (r : Str)
    (rows : List Str) (hr : r.head? ≠ some '#') :
    getproperty name skip (headerLines 1 is ++ r :: rows) = ([], .missing) := by
  rw [getproperty, loop_skip skip _ _ _ _ _ h, loop, if_neg hr, if_pos (by decide)]

/-- The temperature of the atoms besides that of the system: `temperature` cannot be asked for. -/
def both : List Item := [⟨"temperature{kelvin}".toList, 1, "T".toList⟩, ⟨"temperature(O){kelvin}".toList, 1, "T".toList⟩]

theorem temperature_refused (rows : List Str) : getproperty "temperature".toList 0 (headerLines 1 both ++ rows) = ([], .multiple) :=
  prefix_refused 0 (pre := []) (mid := []) (post := []) (p := both[0]) (p' := both[1]) rfl (by decide) (by decide)
    (by simp) (by simp) rows

/-- The cell, of nine columns, before the potential: column ten is printed. -/
example : getproperty "potential".toList 1 (headerLines 1 [⟨"cell_h".toList, 9, "h".toList⟩, ⟨"potential".toList, 1, "V".toList⟩]
    ++ ["1 0 0 0 1 0 0 0 1 5".toList, "1 0 0 0 1 0 0 0 1 6".toList]) = (["6".toList], .done) :=
  prints_column 1 (pre := [⟨"cell_h".toList, 9, "h".toList⟩]) (p := ⟨"potential".toList, 1, "V".toList⟩) (post := []) rfl
    (by decide) (by unfold Plain; decide) (by simp) _ (by decide)

/-- A row that has too few columns ends the output with an exception, whatever follows. -/
theorem short_row (name : Str) (skip : Nat) (icol : Int) (step : Nat) (l : Str) (ls : List Str) (hl : l.head? ≠ some '#')
    (hi : 0 ≤ icol) (hs : skip ≤ step) (hw : ((splitWs l).length : Int) ≤ icol) :
    loop name skip icol step (l :: ls) = ([], .index) := by
  rw [loop, if_neg hl, if_neg (by omega), if_pos hs, List.getElem?_eq_none (by omega)]

end Verif.Getprop
