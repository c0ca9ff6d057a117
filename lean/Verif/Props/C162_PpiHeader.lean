import Verif.Tools.Ppi
import Verif.Text.Lemmas
import Verif.Io.TrajLemmas
import Mathlib.Tactic.Ring
import Mathlib.Algebra.Order.BigOperators.Group.List

/-!
# C162: the columns of the property file that the scripts read

The property file has a header with one line per property; a property of size `k` takes `k` columns.
The scripts look for the lines with `time{unit}` and `potential{unit}` and take the number of the
line for that of the column.
-/

namespace Verif.Ppi

open Verif.Text Verif.Readback Verif.Traj

/-- The columns before the property that follows `pre`. -/
def columnsBefore (pre : List Item) : ℕ := (pre.map Item.size).sum

/-- What the scripts look for. -/
def Asks (key u : Str) (i : Item) : Prop := i.what = key ++ '{' :: (u ++ ['}']) ∧ ∀ c ∈ u, lower c = true

/-! ### The pattern -/

theorem unitAt_self (key u r : Str) (hu : ∀ c ∈ u, lower c = true) :
    unitAt key (key ++ '{' :: (u ++ '}' :: r)) = some u := by
  have h : dropPrefix? (key ++ ['{']) (key ++ '{' :: (u ++ '}' :: r)) = some (u ++ '}' :: r) := by
    have hs : key ++ '{' :: (u ++ '}' :: r) = (key ++ ['{']) ++ (u ++ '}' :: r) := by simp
    rw [hs, dropPrefix?, if_pos (by simp), List.drop_left]
  have hb : lower '}' = false := by decide
  rw [unitAt, h]
  simp only
  rw [List.dropWhile_append_of_pos hu, List.takeWhile_append_of_pos hu]
  simp [hb]

theorem search_skip (k : Char) (key a s : Str) (ha : ∀ c ∈ a, c ≠ k) : search (k :: key) (a ++ s) = search (k :: key) s := by
  induction a with
  | nil => rfl
  | cons c a ih =>
      have hc : c ≠ k := ha c (by simp)
      have h : unitAt (k :: key) (c :: (a ++ s)) = none := by
        rw [unitAt, dropPrefix?, if_neg]
        simp [List.isPrefixOf, Ne.symm hc]
      rw [List.cons_append, search, h]
      exact ih fun c' h' => ha c' (by simp [h'])

theorem search_here (k : Char) (key u r : Str) (hu : ∀ c ∈ u, lower c = true) :
    search (k :: key) ((k :: key) ++ '{' :: (u ++ '}' :: r)) = some u := by
  rw [List.cons_append, search, ← List.cons_append, unitAt_self _ u r hu]

/-- Without the word and the brace there is no match. -/
theorem search_none (key s : Str) (h : ¬ (key ++ ['{']) <:+: s) : search key s = none := by
  induction s with
  | nil => rfl
  | cons c s ih =>
      have h1 : unitAt key (c :: s) = none := by
        rw [unitAt, dropPrefix?, if_neg]
        intro hp
        exact h (List.isPrefixOf_iff_prefix.1 hp).isInfix
      rw [search, h1]
      exact ih fun h' => h (h'.trans (List.suffix_cons c s).isInfix)

theorem colText_chars (icol : ℕ) (i : Item) (c : Char) (h : c ∈ '#' :: ' ' :: (colText icol i ++ ' ' :: (kArrow ++ [' ']))) :
    c ≠ 'p' ∧ c ≠ 't' := by
  have hd : ∀ n : ℕ, ∀ c ∈ showNat n, c ≠ 'p' ∧ c ≠ 't' := by
    intro n c hc
    have := showNat_digits n c hc
    constructor <;> (rintro rfl; exact absurd this (by decide))
  have hp : ∀ n : ℕ, ∀ c ∈ padL 3 (showNat n), c ≠ 'p' ∧ c ≠ 't' := by
    intro n c hc
    rcases padL_mem hc with rfl | h
    · decide
    · exact hd n c h
  have hr : ∀ n : ℕ, ∀ c ∈ padR 3 (showNat n), c ≠ 'p' ∧ c ≠ 't' := by
    intro n c hc
    rw [padR, List.mem_append] at hc
    rcases hc with h | h
    · exact hd n c h
    · rw [List.eq_of_mem_replicate h]; decide
  have k1 : ∀ c ∈ kColumn, c ≠ 'p' ∧ c ≠ 't' := by decide
  have k2 : ∀ c ∈ kCols, c ≠ 'p' ∧ c ≠ 't' := by decide
  have k3 : ∀ c ∈ kArrow, c ≠ 'p' ∧ c ≠ 't' := by decide
  have k4 : ∀ c ∈ "    ".toList, c ≠ 'p' ∧ c ≠ 't' := by decide
  have sp : ∀ c, c = ' ' → c ≠ 'p' ∧ c ≠ 't' := by rintro c rfl; decide
  simp only [List.mem_cons, List.mem_append, List.not_mem_nil, or_false] at h
  rcases h with rfl | rfl | h | rfl | h | rfl
  · decide
  · decide
  · rw [colText] at h
    split at h
    · simp only [List.mem_cons, List.mem_append] at h
      rcases h with h | rfl | h | h
      · exact k1 c h
      · decide
      · exact hp _ c h
      · exact k4 c h
    · simp only [List.mem_cons, List.mem_append] at h
      rcases h with h | rfl | rfl | h | rfl | h
      · exact k2 c h
      · decide
      · decide
      · exact hp _ c h
      · decide
      · exact hr _ c h
  · decide
  · exact k3 c h
  · decide

/-- A line in which the word is not found. -/
theorem search_other {key : Str} (hk : key = kPot ∨ key = kTime) {i : Item}
    (h : ¬ (key ++ ['{']) <:+: (i.what ++ ' ' :: ':' :: ' ' :: i.help)) (icol : ℕ) :
    search key (headText icol i) = none := by
  have hs : headText icol i = ('#' :: ' ' :: (colText icol i ++ ' ' :: (kArrow ++ [' '])))
      ++ (i.what ++ ' ' :: ':' :: ' ' :: i.help) := by
    rw [headText]
    simp
  have hn := search_none _ _ h
  rw [hs]
  rcases hk with rfl | rfl
  · have e : kPot = 'p' :: "otential".toList := by decide
    rw [e] at hn ⊢
    rw [search_skip 'p' _ _ _ fun c hc => (colText_chars icol i c hc).1]
    exact hn
  · have e : kTime = 't' :: "ime".toList := by decide
    rw [e] at hn ⊢
    rw [search_skip 't' _ _ _ fun c hc => (colText_chars icol i c hc).2]
    exact hn

/-- The line of the property is found. -/
theorem search_line {key u : Str} (hk : key = kPot ∨ key = kTime) {i : Item} (h : Asks key u i) (icol : ℕ) :
    search key (headText icol i) = some u := by
  have hs : headText icol i = ('#' :: ' ' :: (colText icol i ++ ' ' :: (kArrow ++ [' '])))
      ++ (key ++ '{' :: (u ++ '}' :: (' ' :: ':' :: ' ' :: i.help))) := by
    rw [headText, h.1]
    simp
  rw [hs]
  rcases hk with rfl | rfl
  · have e : kPot = 'p' :: "otential".toList := by decide
    rw [e, search_skip 'p' _ _ _ fun c hc => (colText_chars icol i c hc).1]
    exact search_here 'p' _ u _ h.2
  · have e : kTime = 't' :: "ime".toList := by decide
    rw [e, search_skip 't' _ _ _ fun c hc => (colText_chars icol i c hc).2]
    exact search_here 't' _ u _ h.2

/-! ### Looking up -/

theorem lookUp_none (key : Str) (ls : List Str) (h : ∀ l ∈ ls, search key l = none) (i : ℕ) : lookUp key i ls = none := by
  induction ls generalizing i with
  | nil => rfl
  | cons l ls ih =>
      rw [lookUp, ih (fun l' h' => h l' (by simp [h'])), h l (by simp)]
      rfl

theorem lookUp_last (key u : Str) (as : List Str) (l : Str) (bs : List Str) (hl : search key l = some u)
    (hb : ∀ b ∈ bs, search key b = none) (i : ℕ) : lookUp key i (as ++ l :: bs) = some (u, i + as.length) := by
  induction as generalizing i with
  | nil => rw [List.nil_append, lookUp, lookUp_none key bs hb, hl]; rfl
  | cons a as ih =>
      rw [List.cons_append, lookUp, ih]
      simp only [List.length_cons]
      rw [show i + 1 + as.length = i + (as.length + 1) by omega]

theorem headerLines_append (icol : ℕ) (as bs : List Item) :
    headerLines icol (as ++ bs) = headerLines icol as ++ headerLines (icol + columnsBefore as) bs := by
  induction as generalizing icol with
  | nil => simp [headerLines, columnsBefore]
  | cons a as ih => simp [headerLines, ih, columnsBefore, Nat.add_assoc]

theorem headerLines_length (icol : ℕ) (as : List Item) : (headerLines icol as).length = as.length := by
  induction as generalizing icol with
  | nil => rfl
  | cons a as ih => simp [headerLines, ih]

theorem headerLines_mem {icol : ℕ} {as : List Item} {l : Str} (h : l ∈ headerLines icol as) :
    ∃ a ∈ as, ∃ k, l = headText k a := by
  induction as generalizing icol with
  | nil => simp [headerLines] at h
  | cons a as ih =>
      rcases List.mem_cons.1 h with rfl | h
      · exact ⟨a, by simp, icol, rfl⟩
      · obtain ⟨b, hb, k, hk⟩ := ih h
        exact ⟨b, by simp [hb], k, hk⟩

/-- No later property is taken for it: the word does not appear before a brace. -/
def NotLater (key : Str) (post : List Item) : Prop := ∀ i ∈ post, ¬ (key ++ ['{']) <:+: (i.what ++ ' ' :: ':' :: ' ' :: i.help)

theorem lookUp_item {key u : Str} (hk : key = kPot ∨ key = kTime) {pre post : List Item} {i : Item} (h : Asks key u i)
    (hp : NotLater key post) : lookUp key 0 (headerLines 1 (pre ++ i :: post)) = some (u, pre.length) := by
  rw [headerLines_append, headerLines]
  rw [lookUp_last key u _ _ _ (search_line hk h _), headerLines_length, Nat.zero_add]
  intro b hb
  obtain ⟨a, ha, k, rfl⟩ := headerLines_mem hb
  exact search_other hk (hp a ha) k

theorem headLines_file (icol : ℕ) (is : List Item) (row : Str) (rest : List Str) {w : Str} {ws : List Str}
    (hw : splitWs row = w :: ws) (hw' : w ≠ ['#']) :
    headLines (headerLines icol is ++ row :: rest) = .ok (headerLines icol is) := by
  induction is generalizing icol with
  | nil => simp [headerLines, headLines, hw, hw']
  | cons i is ih =>
      have h : splitWs (headText icol i) = ['#'] :: splitWs (' ' :: (colText icol i ++ ' ' :: (kArrow ++ ' ' :: (i.what ++ ' ' :: ':' :: ' ' :: i.help)))) := by
        rw [headText, splitWs, if_neg (by decide)]
        rfl
      rw [headerLines, List.cons_append, headLines, h, ih]
      rfl

/-- **C162, units.**  The units of the last lines that ask for time and potential are taken, and the
numbers of these lines, for every file the simulation writes. -/
theorem extract_found {tu pu : Str} {is pre post pre' post' : List Item} {t p : Item}
    (ht : is = pre ++ t :: post) (hp : is = pre' ++ p :: post') (hta : Asks kTime tu t) (hpa : Asks kPot pu p)
    (htl : NotLater kTime post) (hpl : NotLater kPot post') (row : Str) (rest : List Str) {w : Str} {ws : List Str}
    (hw : splitWs row = w :: ws) (hw' : w ≠ ['#']) :
    extractUnits (headerLines 1 is ++ row :: rest) = .ok ((tu, pre.length), (pu, pre'.length)) := by
  rw [extractUnits, headLines_file 1 is row rest hw hw']
  have h1 := lookUp_item (.inr rfl) hta htl (pre := pre)
  have h2 := lookUp_item (.inl rfl) hpa hpl (pre := pre')
  rw [← ht] at h1
  rw [← hp] at h2
  simp only [h1, h2]

/-- **C162, columns.**  The number of the line is that of the column exactly when all properties
listed before take one column. -/
theorem column_iff (pre : List Item) (h : ∀ i ∈ pre, 1 ≤ i.size) :
    pre.length = columnsBefore pre ↔ ∀ i ∈ pre, i.size = 1 := by
  have hle : ∀ pre : List Item, (∀ i ∈ pre, 1 ≤ i.size) → pre.length ≤ columnsBefore pre := by
    intro pre h
    induction pre with
    | nil => simp [columnsBefore]
    | cons i is ih =>
        have h1 := h i (by simp)
        have h2 := ih fun j hj => h j (by simp [hj])
        simp only [columnsBefore, List.map_cons, List.sum_cons, List.length_cons] at h2 ⊢
        omega
  induction pre with
  | nil => simp [columnsBefore]
  | cons i is ih =>
      have h1 := h i (by simp)
      have h2 := ih fun j hj => h j (by simp [hj])
      have h3 := hle is fun j hj => h j (by simp [hj])
      simp only [columnsBefore, List.map_cons, List.sum_cons, List.length_cons] at h2 h3 ⊢
      constructor
      · intro he j hj
        rcases List.mem_cons.1 hj with rfl | hj
        · omega
        · exact h2.1 (by omega) j hj
      · intro ha
        have := ha i (by simp)
        have := h2.2 fun j hj => ha j (by simp [hj])
        omega

/-! ### Where it fails -/

/-- Time, the pressure tensor or another property of six columns, potential. -/
def wide : List Item := [⟨"time{picosecond}".toList, 1, "t".toList⟩, ⟨"cell_abcABC".toList, 6, "c".toList⟩,
  ⟨"potential{electronvolt}".toList, 1, "V".toList⟩]

/-- **C162, wide properties.**  With a property of several columns before it the potential is read
from one of that property's columns. -/
theorem wide_wrong (row : Str) (rest : List Str) {w : Str} {ws : List Str} (hw : splitWs row = w :: ws) (hw' : w ≠ ['#']) :
    extractUnits (headerLines 1 wide ++ row :: rest)
      = .ok (("picosecond".toList, 0), ("electronvolt".toList, 2)) ∧ columnsBefore (wide.take 2) = 7 := by
  refine ⟨?_, rfl⟩
  have h := extract_found (is := wide) (pre := []) (t := wide[0]) (post := wide.drop 1) (pre' := wide.take 2)
    (p := wide[2]) (post' := []) (tu := "picosecond".toList) (pu := "electronvolt".toList) rfl rfl
    ⟨by decide, by decide⟩ ⟨by decide, by decide⟩ (by unfold NotLater; decide +kernel) (by simp [NotLater]) row rest hw hw'
  exact h

/-- **C162, information at the head.**  With `verbosity="high"` in the output the file begins with lines of
three `#`: nothing is found, whatever follows. -/
theorem verbose_fails (l : Str) (ls : List Str) {ws : List Str} (h : splitWs l = ['#', '#', '#'] :: ws) :
    extractUnits (l :: ls) = .error .units := by
  have : headLines (l :: ls) = .ok [] := by
    rw [headLines, h]
    rfl
  rw [extractUnits, this]
  rfl

/-- **C162, units with other characters.**  A potential in atomic units, asked for by name, is not found. -/
theorem atomic_unit_fails (t : Item) (row : Str) (rest : List Str) {w : Str} {ws : List Str} (hw : splitWs row = w :: ws)
    (hw' : w ≠ ['#']) (ht : search kPot (headText 1 t) = none) :
    extractUnits (headerLines 1 [t, ⟨"potential{atomic_unit}".toList, 1, "V".toList⟩] ++ row :: rest) = .error .units := by
  rw [extractUnits, headLines_file 1 _ row rest hw hw']
  have h2 : search kPot (headText (1 + t.size) ⟨"potential{atomic_unit}".toList, 1, "V".toList⟩) = none := by
    have hs : headText (1 + t.size) ⟨"potential{atomic_unit}".toList, 1, "V".toList⟩
        = ('#' :: ' ' :: (colText (1 + t.size) ⟨"potential{atomic_unit}".toList, 1, "V".toList⟩ ++ ' ' :: (kArrow ++ [' '])))
          ++ "potential{atomic_unit} : V".toList := by
      rw [headText]
      simp
    have e : kPot = 'p' :: "otential".toList := by decide
    rw [hs, e, search_skip 'p' _ _ _ fun c hc => (colText_chars _ _ c hc).1]
    decide +kernel
  have : lookUp kPot 0 (headerLines 1 [t, ⟨"potential{atomic_unit}".toList, 1, "V".toList⟩]) = none := by
    apply lookUp_none
    intro l hl
    simp only [headerLines, List.mem_cons, List.not_mem_nil, or_false] at hl
    rcases hl with rfl | rfl
    · exact ht
    · exact h2
  simp only [this]
  cases lookUp kTime 0 (headerLines 1 [t, ⟨"potential{atomic_unit}".toList, 1, "V".toList⟩]) <;> rfl

/-- The file of the documentation, `[step, time{picosecond}, potential{kelvin}]`: columns 1 and 2. -/
example : extractUnits (headerLines 1 [⟨"step".toList, 1, "s".toList⟩, ⟨"time{picosecond}".toList, 1, "t".toList⟩,
    ⟨"potential{kelvin}".toList, 1, "V".toList⟩] ++ ["0 0 1".toList])
      = .ok (("picosecond".toList, 1), ("kelvin".toList, 2)) :=
  extract_found (pre := [⟨"step".toList, 1, "s".toList⟩]) (t := ⟨"time{picosecond}".toList, 1, "t".toList⟩)
    (post := [⟨"potential{kelvin}".toList, 1, "V".toList⟩])
    (pre' := [⟨"step".toList, 1, "s".toList⟩, ⟨"time{picosecond}".toList, 1, "t".toList⟩])
    (p := ⟨"potential{kelvin}".toList, 1, "V".toList⟩) (post' := []) rfl rfl
    ⟨by decide, by decide⟩ ⟨by decide, by decide⟩ (by unfold NotLater; decide +kernel) (by simp [NotLater]) "0 0 1".toList []
    (w := "0".toList) (ws := ["0".toList, "1".toList]) (by decide) (by decide)

end Verif.Ppi
