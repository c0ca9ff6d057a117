import Verif.Text.Model
/- Lemmas about the string operations of `Verif.Text.Model`. -/
namespace Verif.Text

theorem digitChar_toNat {d : Nat} (h : d < 10) : (digitChar d).toNat = 48 + d := by
  have : d = 0 ∨ d = 1 ∨ d = 2 ∨ d = 3 ∨ d = 4 ∨ d = 5 ∨ d = 6 ∨ d = 7 ∨ d = 8 ∨ d = 9 := by omega
  rcases this with h | h | h | h | h | h | h | h | h | h <;> subst h <;> decide

theorem isDigit_digitChar {d : Nat} (h : d < 10) : isDigit (digitChar d) = true := by
  simp [isDigit, digitChar_toNat h]; omega

theorem digitVal_digitChar {d : Nat} (h : d < 10) : digitVal (digitChar d) = d := by
  simp [digitVal, digitChar_toNat h]

theorem isDigit_not_ws {c : Char} (h : isDigit c = true) : isWs c = false := by
  simp only [isDigit, Bool.and_eq_true, decide_eq_true_eq] at h
  simp only [isWs, Bool.or_eq_false_iff, Bool.and_eq_false_iff, decide_eq_false_iff_not]
  omega

theorem showNat_lt {n : Nat} (h : n < 10) : showNat n = [digitChar n] := by rw [showNat]; simp [h]
theorem showNat_ge {n : Nat} (h : ¬ n < 10) : showNat n = showNat (n / 10) ++ [digitChar (n % 10)] := by
  rw [showNat]; simp [h]

theorem showNat_digits (n : Nat) : ∀ c ∈ showNat n, isDigit c = true := by
  induction n using Nat.strongRecOn with
  | _ n ih =>
    by_cases h : n < 10
    · rw [showNat_lt h]; simp [isDigit_digitChar h]
    · rw [showNat_ge h]
      intro c hc
      rcases List.mem_append.1 hc with hc | hc
      · exact ih _ (by omega) c hc
      · simp at hc; subst hc; exact isDigit_digitChar (by omega)

theorem showNat_ne_nil (n : Nat) : showNat n ≠ [] := by
  by_cases h : n < 10
  · rw [showNat_lt h]; simp
  · rw [showNat_ge h]; simp

theorem parseNatAux_append (a b : Str) (ha : ∀ c ∈ a, isDigit c = true) (hne : a ≠ []) : ∀ prev acc,
    parseNatAux (a ++ b) prev acc = parseNatAux b true (a.foldl (fun x c => x * 10 + digitVal c) acc) := by
  induction a with
  | nil => exact absurd rfl hne
  | cons c a ih =>
    intro prev acc
    simp only [List.cons_append, parseNatAux, ha c (by simp), if_true, List.foldl_cons]
    by_cases h : a = []
    · subst h; rfl
    · exact ih (fun x hx => ha x (by simp [hx])) h _ _

theorem foldl_showNat (n : Nat) : (showNat n).foldl (fun x c => x * 10 + digitVal c) 0 = n := by
  induction n using Nat.strongRecOn with
  | _ n ih =>
    by_cases h : n < 10
    · rw [showNat_lt h]; simp [digitVal_digitChar h]
    · rw [showNat_ge h, List.foldl_append, ih _ (by omega)]
      simp only [List.foldl_cons, List.foldl_nil]
      rw [digitVal_digitChar (by omega)]
      omega

/-- Reading back a written number. -/
theorem parseNat_showNat (n : Nat) : parseNat (showNat n) = some n := by
  have := parseNatAux_append (showNat n) [] (showNat_digits n) (showNat_ne_nil n) false 0
  simp only [List.append_nil] at this
  rw [parseNat, this, foldl_showNat]
  rfl

/-! ### strip -/

theorem dropWhile_eq_self {p : Char → Bool} {s : Str} (h : ∀ c, s.head? = some c → p c = false) : s.dropWhile p = s := by
  cases s with
  | nil => rfl
  | cons c s => rw [List.dropWhile_cons, h c rfl]; simp

theorem lstripP_append_ws {p : Char → Bool} (w s : Str) (hw : ∀ c ∈ w, p c = true) : lstripP p (w ++ s) = lstripP p s := by
  induction w with
  | nil => rfl
  | cons c w ih =>
    simp only [lstripP, List.cons_append, List.dropWhile_cons, hw c (by simp), if_true] at ih ⊢
    exact ih (fun x hx => hw x (by simp [hx]))

theorem rstripP_append_ws {p : Char → Bool} (w s : Str) (hw : ∀ c ∈ w, p c = true) : rstripP p (s ++ w) = rstripP p s := by
  have := lstripP_append_ws (p := p) w.reverse s.reverse (by simpa using hw)
  simp only [rstripP, List.reverse_append]
  rw [show (w.reverse ++ s.reverse).dropWhile p = s.reverse.dropWhile p from this]

theorem stripP_self {p : Char → Bool} {s : Str} (h1 : ∀ c, s.head? = some c → p c = false)
    (h2 : ∀ c, s.getLast? = some c → p c = false) : stripP p s = s := by
  have e1 : lstripP p s = s := dropWhile_eq_self h1
  rw [stripP, e1, rstripP, dropWhile_eq_self, List.reverse_reverse]
  intro c hc
  exact h2 c (by rw [← hc, List.head?_reverse])

/-- Stripping removes exactly the padding around a text whose ends are not strippable. -/
theorem stripP_pad {p : Char → Bool} {w1 s w2 : Str} (hw1 : ∀ c ∈ w1, p c = true) (hw2 : ∀ c ∈ w2, p c = true)
    (h1 : ∀ c, s.head? = some c → p c = false) (h2 : ∀ c, s.getLast? = some c → p c = false) :
    stripP p (w1 ++ s ++ w2) = s := by
  by_cases hs : s = []
  · subst hs
    have e : lstripP p (w1 ++ [] ++ w2) = [] := by
      rw [List.append_nil, lstripP_append_ws w1 w2 hw1]
      have := lstripP_append_ws (p := p) w2 [] hw2
      simpa [lstripP] using this
    rw [stripP, e]; rfl
  · have e : lstripP p (w1 ++ s ++ w2) = s ++ w2 := by
      rw [List.append_assoc, lstripP_append_ws w1 _ hw1]
      apply dropWhile_eq_self
      intro c hc
      cases s with
      | nil => exact absurd rfl hs
      | cons d s => exact h1 c (by simpa using hc)
    rw [stripP, e, rstripP_append_ws w2 s hw2]
    have := stripP_self h1 h2
    rwa [stripP, show lstripP p s = s from dropWhile_eq_self h1] at this

theorem dropWhile_head {p : Char → Bool} (s : Str) : ∀ c, (s.dropWhile p).head? = some c → p c = false := by
  induction s with
  | nil => intro c h; cases h
  | cons d s ih =>
    intro c h
    rw [List.dropWhile_cons] at h
    split at h
    · exact ih c h
    · rename_i hd; simp at h; subst h; simpa using hd

theorem dropWhile_nil {p : Char → Bool} {s : Str} (h : s.dropWhile p = []) : ∀ c ∈ s, p c = true := by
  induction s with
  | nil => intro c hc; cases hc
  | cons d s ih =>
    rw [List.dropWhile_cons] at h
    split at h
    · rename_i hd
      intro c hc
      rcases List.mem_cons.1 hc with rfl | hc
      · exact hd
      · exact ih h c hc
    · cases h

/-- Only strippable characters are left with nothing after stripping. -/
theorem stripP_nil {p : Char → Bool} {s : Str} (h : stripP p s = []) : ∀ c ∈ s, p c = true := by
  apply dropWhile_nil
  cases hl : s.dropWhile p with
  | nil => rfl
  | cons c t =>
    have hc := dropWhile_head s c (by rw [hl]; rfl)
    have h2 : (lstripP p s).reverse.dropWhile p = [] := by simpa [stripP, rstripP] using h
    rw [show lstripP p s = c :: t from hl] at h2
    have := dropWhile_nil h2 c (by simp)
    rw [hc] at this; cases this

theorem strip_self_of_all {s : Str} (h : ∀ c ∈ s, isWs c = false) : strip s = s := by
  apply stripP_self
  · intro c hc; exact h c (List.mem_of_mem_head? (by simpa using hc))
  · intro c hc; exact h c (List.mem_of_mem_getLast? (by simpa using hc))

theorem parseInt_of_digits {s : Str} (h : ∀ c ∈ s, isDigit c = true) : parseInt s = (parseNat s).map fun (n : Nat) => (n : Int) := by
  have e : strip s = s := strip_self_of_all fun c hc => isDigit_not_ws (h c hc)
  unfold parseInt
  rw [e]
  split
  · have := h '-' (by simp); exact absurd this (by decide)
  · have := h '+' (by simp); exact absurd this (by decide)
  · rfl

/-- `int(str(i)) = i` -/
theorem parseInt_showInt (i : Int) : parseInt (showInt i) = some i := by
  cases i with
  | ofNat n =>
    simp only [showInt]
    rw [parseInt_of_digits (showNat_digits n), parseNat_showNat]; rfl
  | negSucc n =>
    simp only [showInt]
    have e : strip ('-' :: showNat (n + 1)) = '-' :: showNat (n + 1) := by
      apply strip_self_of_all
      intro c hc
      rcases List.mem_cons.1 hc with rfl | hc
      · decide
      · exact isDigit_not_ws (showNat_digits _ c hc)
    unfold parseInt
    rw [e]
    simp only [parseNat_showNat, Option.map_some]
    rfl

/-! ### split and partition -/

theorem splitOn_ne_nil (sep : Char) (s : Str) : splitOn sep s ≠ [] := by
  cases s with
  | nil => simp [splitOn]
  | cons c s =>
    rw [splitOn]
    split
    · simp
    · split <;> simp

theorem splitOn_noSep {sep : Char} {s : Str} (h : sep ∉ s) : splitOn sep s = [s] := by
  induction s with
  | nil => rfl
  | cons c s ih =>
    simp only [List.mem_cons, not_or] at h
    rw [splitOn, if_neg (fun e => h.1 e.symm), ih h.2]

theorem splitOn_append {sep : Char} (a b : Str) : splitOn sep (a ++ sep :: b) = splitOn sep a ++ splitOn sep b := by
  induction a with
  | nil => simp [splitOn]
  | cons c a ih =>
    by_cases h : c = sep
    · simp [splitOn, h, ih]
    · simp only [List.cons_append, splitOn, if_neg h, ih]
      cases hs : splitOn sep a with
      | nil => exact absurd hs (splitOn_ne_nil _ _)
      | cons w ws => rfl

theorem splitOn_getLast {sep : Char} (a b : Str) (hb : sep ∉ b) : (splitOn sep (a ++ sep :: b)).getLast? = some b := by
  rw [splitOn_append, splitOn_noSep hb]; simp

theorem partition_noSep {sep : Char} {s : Str} (h : sep ∉ s) : partition sep s = (s, none) := by
  induction s with
  | nil => rfl
  | cons c s ih =>
    simp only [List.mem_cons, not_or] at h
    rw [partition, if_neg (fun e => h.1 e.symm), ih h.2]

theorem partition_append {sep : Char} {a : Str} (b : Str) (h : sep ∉ a) : partition sep (a ++ sep :: b) = (a, some b) := by
  induction a with
  | nil => simp [partition]
  | cons c a ih =>
    simp only [List.mem_cons, not_or] at h
    rw [List.cons_append, partition, if_neg (fun e => h.1 e.symm), ih h.2]

theorem splitOn_join {sep : Char} : ∀ ws : List Str, ws ≠ [] → (∀ w ∈ ws, sep ∉ w) → splitOn sep (join [sep] ws) = ws
  | [], h, _ => absurd rfl h
  | [w], _, h => by rw [join]; exact splitOn_noSep (h w (by simp))
  | w :: v :: ws, _, h => by
    rw [join, List.append_assoc, List.singleton_append, splitOn_append, splitOn_noSep (h w (by simp)),
      splitOn_join (v :: ws) (by simp) (fun x hx => h x (by simp [hx]))]
    rfl

end Verif.Text

namespace Verif.Text

theorem rstripP_decomp (p : Char → Bool) (s : Str) : ∃ w, s = rstripP p s ++ w ∧ ∀ c ∈ w, p c = true := by
  refine ⟨(s.reverse.takeWhile p).reverse, ?_, fun c hc => ?_⟩
  · rw [rstripP, ← List.reverse_append, List.takeWhile_append_dropWhile, List.reverse_reverse]
  · exact List.all_eq_true.1 List.all_takeWhile c (List.mem_reverse.1 hc)

theorem lstripP_decomp (p : Char → Bool) (s : Str) : ∃ w, s = w ++ lstripP p s ∧ ∀ c ∈ w, p c = true :=
  ⟨s.takeWhile p, List.takeWhile_append_dropWhile.symm, fun c hc => List.all_eq_true.1 List.all_takeWhile c hc⟩

theorem stripP_decomp (p : Char → Bool) (s : Str) :
    ∃ w1 w2, s = w1 ++ stripP p s ++ w2 ∧ (∀ c ∈ w1, p c = true) ∧ ∀ c ∈ w2, p c = true := by
  obtain ⟨w1, e1, h1⟩ := lstripP_decomp p s
  obtain ⟨w2, e2, h2⟩ := rstripP_decomp p (lstripP p s)
  refine ⟨w1, w2, ?_, h1, h2⟩
  rw [List.append_assoc, stripP, ← e2, ← e1]

theorem rstripP_getLast (p : Char → Bool) (s : Str) : ∀ c, (rstripP p s).getLast? = some c → p c = false := by
  intro c h
  rw [rstripP, List.getLast?_reverse] at h
  exact dropWhile_head _ c h

theorem stripP_getLast (p : Char → Bool) (s : Str) : ∀ c, (stripP p s).getLast? = some c → p c = false := rstripP_getLast p _

theorem stripP_head (p : Char → Bool) (s : Str) : ∀ c, (stripP p s).head? = some c → p c = false := by
  intro c h
  obtain ⟨w, e, _⟩ := rstripP_decomp p (lstripP p s)
  refine dropWhile_head s c ?_
  show (lstripP p s).head? = some c
  rw [e]
  change (rstripP p (lstripP p s)).head? = some c at h
  cases hr : rstripP p (lstripP p s) with
  | nil => rw [hr] at h; cases h
  | cons d t => rw [hr] at h; simpa using h

/-- Padding made of strippable characters does not matter. -/
theorem stripP_append_pad {p : Char → Bool} (a s b : Str) (ha : ∀ c ∈ a, p c = true) (hb : ∀ c ∈ b, p c = true) :
    stripP p (a ++ s ++ b) = stripP p s := by
  obtain ⟨w1, w2, e, h1, h2⟩ := stripP_decomp p s
  have h3 := stripP_head p s
  have h4 := stripP_getLast p s
  generalize stripP p s = t at e h3 h4
  subst e
  have : a ++ (w1 ++ t ++ w2) ++ b = (a ++ w1) ++ t ++ (w2 ++ b) := by simp only [List.append_assoc]
  rw [this, stripP_pad _ _ h3 h4]
  · intro c hc
    rcases List.mem_append.1 hc with h | h
    · exact ha c h
    · exact h1 c h
  · intro c hc
    rcases List.mem_append.1 hc with h | h
    · exact h2 c h
    · exact hb c h

theorem stripP_idem (p : Char → Bool) (s : Str) : stripP p (stripP p s) = stripP p s :=
  stripP_self (stripP_head p s) (stripP_getLast p s)

theorem mem_of_mem_stripP {p : Char → Bool} {s : Str} {c : Char} (h : c ∈ stripP p s) : c ∈ s := by
  obtain ⟨w1, w2, e, _⟩ := stripP_decomp p s
  rw [e]
  exact List.mem_append_left _ (List.mem_append_right _ h)

theorem mem_of_mem_rstripP {p : Char → Bool} {s : Str} {c : Char} (h : c ∈ rstripP p s) : c ∈ s := by
  obtain ⟨w, e, _⟩ := rstripP_decomp p s
  rw [e]
  exact List.mem_append_left _ h

theorem rstripP_append {p : Char → Bool} (a b : Str) (h : rstripP p b ≠ []) : rstripP p (a ++ b) = a ++ rstripP p b := by
  obtain ⟨w, e, hw⟩ := rstripP_decomp p b
  have hl := rstripP_getLast p b
  generalize rstripP p b = t at e h hl
  subst e
  rw [← List.append_assoc, rstripP_append_ws w _ hw]
  rw [rstripP, dropWhile_eq_self, List.reverse_reverse]
  intro c hc
  rw [List.head?_reverse, List.getLast?_append] at hc
  refine hl c ?_
  cases hg : t.getLast? with
  | none => exact absurd (List.getLast?_eq_none_iff.1 hg) h
  | some d => rw [hg] at hc; simpa using hc

theorem rstripP_ne_nil {p : Char → Bool} {s : Str} {c : Char} (hc : c ∈ s) (h : p c = false) : rstripP p s ≠ [] := by
  intro e
  obtain ⟨w, e', hw⟩ := rstripP_decomp p s
  rw [e, List.nil_append] at e'
  subst e'
  rw [hw c hc] at h
  cases h

end Verif.Text
