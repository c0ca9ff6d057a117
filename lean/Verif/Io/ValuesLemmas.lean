import Verif.Io.Values
import Verif.Text.Lemmas
/-! Lemmas on the text form of values, for C26. -/
namespace Verif.Values
open Verif.Text

/-- What `write_list` and `InputArray.write` leave of the elements: the trailing comma is gone. -/
def chunks : List Str → Str
  | [] => []
  | [x] => rstripP commaStrip x
  | x :: y :: xs => x ++ [',', ' '] ++ chunks (y :: xs)

theorem chunks_ne_nil {xs : List Str} (h : ∀ x, xs.getLast? = some x → rstripP commaStrip x ≠ []) (hne : xs ≠ []) : chunks xs ≠ [] := by
  match xs with
  | [] => exact absurd rfl hne
  | [x] => exact h x rfl
  | x :: y :: xs => simp [chunks]

theorem rstrip_body : ∀ (xs : List Str), xs ≠ [] → (∀ x, xs.getLast? = some x → rstripP commaStrip x ≠ []) → ∀ a,
    rstripP commaStrip (a ++ (xs.map (· ++ [',', ' '])).flatten) = a ++ chunks xs := by
  intro xs
  match xs with
  | [] => intro h; exact absurd rfl h
  | [x] =>
    intro _ h a
    simp only [List.map_cons, List.map_nil, List.flatten_cons, List.flatten_nil, List.append_nil, chunks]
    rw [← List.append_assoc, rstripP_append_ws [',', ' '] (a ++ x) (by intro c hc; simp at hc; rcases hc with rfl | rfl <;> rfl)]
    exact rstripP_append a x (h x rfl)
  | x :: y :: xs =>
    intro _ h a
    have := rstrip_body (y :: xs) (by simp) (fun z hz => h z (by rw [List.getLast?_cons_cons]; exact hz)) (a ++ (x ++ [',', ' ']))
    simp only [List.map_cons, List.flatten_cons, chunks] at this ⊢
    rw [← List.append_assoc, this]
    simp only [List.append_assoc]

theorem strip_rstrip {p : Char → Bool} (hp : p ' ' = true) {x : Str} (hx : ',' ∉ x) : stripP p (rstripP commaStrip x) = stripP p x := by
  obtain ⟨w, e, hw⟩ := rstripP_decomp commaStrip x
  have h := stripP_append_pad (p := p) [] (rstripP commaStrip x) w (by intro c hc; cases hc) (by
    intro c hc
    have h1 := hw c hc
    simp only [commaStrip, Bool.or_eq_true, decide_eq_true_eq] at h1
    rcases h1 with rfl | rfl
    · exact absurd (by rw [e]; exact List.mem_append_right _ hc) hx
    · exact hp)
  rw [List.nil_append, ← e] at h
  exact h.symm

theorem split_chunks {p : Char → Bool} (hp : p ' ' = true) (t : Str) (ht : ∀ c ∈ t, p c = true) (htc : ',' ∉ t) :
    ∀ (xs : List Str), xs ≠ [] → (∀ x ∈ xs, ',' ∉ x) → ∀ h : Str, (∀ c ∈ h, p c = true) → ',' ∉ h →
      (splitOn ',' (h ++ chunks xs ++ t)).map (stripP p) = xs.map (stripP p) := by
  intro xs
  match xs with
  | [] => intro h; exact absurd rfl h
  | [x] =>
    intro _ hc h hh hhc
    have hx := hc x (List.mem_cons_self)
    rw [chunks, splitOn_noSep (by
      simp only [List.mem_append, not_or]
      exact ⟨⟨hhc, fun hm => hx (mem_of_mem_rstripP hm)⟩, htc⟩)]
    simp only [List.map_cons, List.map_nil]
    rw [stripP_append_pad h _ t hh ht, strip_rstrip hp hx]
  | x :: y :: xs =>
    intro _ hc h hh hhc
    have hx := hc x (List.mem_cons_self)
    have e : h ++ chunks (x :: y :: xs) ++ t = (h ++ x) ++ ',' :: ([' '] ++ chunks (y :: xs) ++ t) := by
      simp only [chunks, List.append_assoc, List.cons_append, List.nil_append]
    rw [e, splitOn_append, splitOn_noSep (by simp only [List.mem_append, not_or]; exact ⟨hhc, hx⟩)]
    rw [List.map_append, split_chunks hp t ht htc (y :: xs) (by simp) (fun z hz => hc z (List.mem_cons_of_mem _ hz)) [' ']
      (by intro c hm; rw [List.mem_singleton] at hm; subst hm; exact hp) (by simp)]
    simp only [List.map_cons, List.map_nil, List.singleton_append]
    have := stripP_append_pad (p := p) h x [] hh (by intro c hc; cases hc)
    rw [List.append_nil] at this
    rw [this]

theorem cutAt_append {c : Char} {a : Str} (h : c ∉ a) (b : Str) : cutAt c (a ++ c :: b) = some (a, b) := by
  rw [cutAt, partition_append b h]

/-- The slice between the delimiters. -/
theorem between_text {d1 d2 : Char} (hd : d1 ≠ d2) {a b : Str} (c : Str) (ha1 : d1 ∉ a) (ha2 : d2 ∉ a) (hb : d2 ∉ b) :
    between d1 d2 (a ++ d1 :: (b ++ d2 :: c)) = some b := by
  have e : a ++ d1 :: (b ++ d2 :: c) = (a ++ d1 :: b) ++ d2 :: c := by simp
  unfold between
  rw [cutAt_append ha1, e, cutAt_append (by
    simp only [List.mem_append, List.mem_cons, not_or]
    exact ⟨ha2, Ne.symm hd, hb⟩)]
  simp

theorem mem_chunks {c : Char} : ∀ (xs : List Str), c ∈ chunks xs → (∃ x ∈ xs, c ∈ x) ∨ c = ',' ∨ c = ' ' := by
  intro xs
  match xs with
  | [] => intro h; cases h
  | [x] => intro h; exact .inl ⟨x, List.mem_cons_self, mem_of_mem_rstripP h⟩
  | x :: y :: xs =>
    intro h
    simp only [chunks, List.mem_append, List.mem_cons, List.not_mem_nil, or_false] at h
    rcases h with (h | h) | h
    · exact .inl ⟨x, List.mem_cons_self, h⟩
    · exact .inr h
    · rcases mem_chunks (y :: xs) h with ⟨z, hz, h⟩ | h
      · exact .inl ⟨z, List.mem_cons_of_mem _ hz, h⟩
      · exact .inr h

/-- Elements that can be told apart in a list: no separator, no delimiter, the last one not blank, and not a single element that is nothing
once stripped. -/
structure Listable (d1 d2 : Char) (p : Char → Bool) (ws : List Str) : Prop where
  comma : ∀ w ∈ ws, ',' ∉ w
  close : ∀ w ∈ ws, d2 ∉ w
  last : ∀ w, ws.getLast? = some w → rstripP commaStrip w ≠ []
  single : ∀ w, ws = [w] → stripP p w ≠ []

theorem readList_text {d1 d2 : Char} {p : Char → Bool} (hd : d1 ≠ d2) (hp : p ' ' = true) (h2 : d2 ≠ ',' ∧ d2 ≠ ' ')
    {xs : List Str} (hl : Listable d1 d2 p xs) (hne : xs ≠ []) {a h t c : Str} (ha1 : d1 ∉ a) (ha2 : d2 ∉ a)
    (hh : ∀ x ∈ h, p x = true) (hhc : ',' ∉ h) (hh2 : d2 ∉ h) (ht : ∀ x ∈ t, p x = true) (htc : ',' ∉ t) (ht2 : d2 ∉ t) :
    readList d1 d2 ',' p (a ++ d1 :: ((h ++ chunks xs ++ t) ++ d2 :: c)) = some (xs.map (stripP p)) := by
  unfold readList
  rw [between_text hd c ha1 ha2 (by
    simp only [List.mem_append, not_or]
    refine ⟨⟨hh2, fun hm => ?_⟩, ht2⟩
    rcases mem_chunks xs hm with ⟨x, hx, h⟩ | h | h
    · exact hl.close x hx h
    · exact h2.1 h
    · exact h2.2 h)]
  simp only
  rw [split_chunks hp t ht htc xs hne hl.comma h hh hhc]
  rw [if_neg]
  intro e
  match xs, hne with
  | [x], _ =>
    simp only [List.map_cons, List.map_nil, List.cons.injEq, and_true] at e
    exact hl.single x rfl e
  | x :: y :: xs, _ => simp at e

theorem readList_writeList {d1 d2 : Char} {p : Char → Bool} (hd : d1 ≠ d2) (hp : p ' ' = true) (h1 : commaStrip d1 = false)
    (h2 : d2 ≠ ',' ∧ d2 ≠ ' ') {ws : List Str} (hl : Listable d1 d2 p ws) :
    readList d1 d2 ',' p (writeList d1 d2 ws) = some (ws.map (stripP p)) := by
  by_cases hne : ws = []
  · subst hne
    have e : rstripP commaStrip [d1] = [d1] := by simp [rstripP, h1]
    simp only [writeList, List.map_nil, List.flatten_nil, List.append_nil, e]
    have hb := between_text (a := []) (b := []) hd [] (by simp) (by simp) (by simp)
    simp only [List.nil_append] at hb
    simp only [readList, List.singleton_append, hb]
    rfl
  · unfold writeList
    rw [rstrip_body ws hne hl.last]
    have := readList_text (c := []) (a := []) (h := []) (t := []) hd hp h2 hl hne (by simp) (by simp) (by simp) (by simp) (by simp)
      (by simp) (by simp) (by simp)
    simpa using this

/-! ### arrays -/

/-- Elements with their line breaks. -/
def withBreaks (indent : Str) (long : Bool) : Nat → List Str → List Str
  | _, [] => []
  | i, w :: ws => (lineSep indent long i ++ w) :: withBreaks indent long (i + 1) ws

theorem arrayBody_eq (indent : Str) (long : Bool) : ∀ (ws : List Str) (i : Nat),
    arrayBody indent long i ws = ((withBreaks indent long i ws).map (· ++ [',', ' '])).flatten := by
  intro ws
  induction ws with
  | nil => intro i; rfl
  | cons w ws ih => intro i; simp only [arrayBody, withBreaks, List.map_cons, List.flatten_cons, ih]

theorem lineSep_strip {indent : Str} (hi : ∀ c ∈ indent, listStrip c = true) (long : Bool) (i : Nat) :
    ∀ c ∈ lineSep indent long i, listStrip c = true := by
  intro c hc
  unfold lineSep at hc
  split at hc
  · simp only [List.cons_append, List.mem_cons, List.mem_append, List.not_mem_nil, or_false] at hc
    rcases hc with rfl | h | rfl | rfl | rfl
    · rfl
    · exact hi c h
    all_goals rfl
  · cases hc

theorem withBreaks_strip {indent : Str} (hi : ∀ c ∈ indent, listStrip c = true) (long : Bool) : ∀ (ws : List Str) (i : Nat),
    (withBreaks indent long i ws).map (stripP listStrip) = ws.map (stripP listStrip) := by
  intro ws
  induction ws with
  | nil => intro i; rfl
  | cons w ws ih =>
    intro i
    simp only [withBreaks, List.map_cons, ih]
    have := stripP_append_pad (p := listStrip) (lineSep indent long i) w [] (lineSep_strip hi long i) (by intro c hc; cases hc)
    rw [List.append_nil] at this
    rw [this]

theorem mem_withBreaks {indent : Str} {long : Bool} : ∀ (ws : List Str) (i : Nat) (x : Str), x ∈ withBreaks indent long i ws →
    ∃ w ∈ ws, ∃ j, x = lineSep indent long j ++ w := by
  intro ws
  induction ws with
  | nil => intro i x h; cases h
  | cons w ws ih =>
    intro i x h
    rcases List.mem_cons.1 h with rfl | h
    · exact ⟨w, List.mem_cons_self, i, rfl⟩
    · obtain ⟨v, hv, j, e⟩ := ih _ _ h
      exact ⟨v, List.mem_cons_of_mem _ hv, j, e⟩

theorem getLast_withBreaks {indent : Str} {long : Bool} : ∀ (ws : List Str) (i : Nat) (x : Str),
    (withBreaks indent long i ws).getLast? = some x → ∃ w j, ws.getLast? = some w ∧ x = lineSep indent long j ++ w := by
  intro ws
  match ws with
  | [] => intro i x h; cases h
  | [w] => intro i x h; simp only [withBreaks, List.getLast?_singleton, Option.some.injEq] at h; exact ⟨w, i, rfl, h.symm⟩
  | w :: v :: ws =>
    intro i x h
    simp only [withBreaks, List.getLast?_cons_cons] at h
    obtain ⟨u, j, hu, e⟩ := getLast_withBreaks (v :: ws) (i + 1) x (by simpa only [withBreaks] using h)
    exact ⟨u, j, by rw [List.getLast?_cons_cons]; exact hu, e⟩

theorem readList_writeArray {indent : Str} (hi : ∀ c ∈ indent, c = ' ') {ws : List Str} (hl : Listable '[' ']' listStrip ws) :
    readList '[' ']' ',' listStrip (writeArray indent ws) = some (ws.map (stripP listStrip)) := by
  have his : ∀ c ∈ indent, listStrip c = true := by intro c hc; rw [hi c hc]; rfl
  unfold writeArray
  dsimp only
  by_cases hne : ws = []
  · subst hne
    show readList '[' ']' ',' listStrip (rstripP commaStrip [' ', '[', ' '] ++ [' ', ']', ' ']) = some []
    decide +kernel
  · generalize hlong : decide (5 < ws.length) = long
    rw [arrayBody_eq]
    have hne' : withBreaks indent long 0 ws ≠ [] := by
      cases ws with
      | nil => exact absurd rfl hne
      | cons w ws => simp [withBreaks]
    have hsep : ∀ c, c ≠ '\n' → c ≠ ' ' → ∀ j, c ∉ lineSep indent long j := by
      intro c h1 h2 j hm
      unfold lineSep at hm
      split at hm
      · simp only [List.cons_append, List.mem_cons, List.mem_append, List.not_mem_nil, or_false] at hm
        rcases hm with h | h | h | h | h
        · exact h1 h
        · exact h2 (hi c h)
        all_goals exact h2 h
      · cases hm
    have hl' : Listable '[' ']' listStrip (withBreaks indent long 0 ws) := by
      refine ⟨?_, ?_, ?_, ?_⟩
      · intro x hx
        obtain ⟨w, hw, j, rfl⟩ := mem_withBreaks _ _ _ hx
        simp only [List.mem_append, not_or]
        exact ⟨hsep _ (by decide) (by decide) j, hl.comma w hw⟩
      · intro x hx
        obtain ⟨w, hw, j, rfl⟩ := mem_withBreaks _ _ _ hx
        simp only [List.mem_append, not_or]
        exact ⟨hsep _ (by decide) (by decide) j, hl.close w hw⟩
      · intro x hx
        obtain ⟨w, j, hw, rfl⟩ := getLast_withBreaks _ _ _ hx
        rw [rstripP_append _ _ (hl.last w hw)]
        simp only [ne_eq, List.append_eq_nil_iff, not_and]
        exact fun _ => hl.last w hw
      · intro x hx
        have hs := withBreaks_strip his long ws 0
        rw [hx] at hs
        cases ws with
        | nil => exact absurd rfl hne
        | cons w ws =>
          cases ws with
          | nil =>
            simp only [List.map_cons, List.map_nil, List.cons.injEq, and_true] at hs
            rw [hs]
            exact hl.single w rfl
          | cons v ws => simp [withBreaks] at hx
    rw [rstrip_body _ hne' hl'.last, ← withBreaks_strip his long ws 0]
    cases long with
    | true =>
      have := readList_text (d1 := '[') (d2 := ']') (p := listStrip) (c := ['\n']) (a := '\n' :: indent ++ [' ']) (h := [' ']) (t := [' '])
        (by decide) rfl (by decide) hl' hne'
        (by
          simp only [List.cons_append, List.mem_cons, List.mem_append, List.not_mem_nil, or_false, not_or]
          exact ⟨by decide, fun h => absurd (hi _ h) (by decide), by decide⟩)
        (by
          simp only [List.cons_append, List.mem_cons, List.mem_append, List.not_mem_nil, or_false, not_or]
          exact ⟨by decide, fun h => absurd (hi _ h) (by decide), by decide⟩)
        (by intro x hx; rw [List.mem_singleton] at hx; subst hx; rfl) (by decide) (by decide)
        (by intro x hx; rw [List.mem_singleton] at hx; subst hx; rfl) (by decide) (by decide)
      simpa [List.append_assoc] using this
    | false =>
      have := readList_text (d1 := '[') (d2 := ']') (p := listStrip) (c := [' ']) (a := [' ']) (h := [' ']) (t := [' '])
        (by decide) rfl (by decide) hl' hne' (by decide) (by decide)
        (by intro x hx; rw [List.mem_singleton] at hx; subst hx; rfl) (by decide) (by decide)
        (by intro x hx; rw [List.mem_singleton] at hx; subst hx; rfl) (by decide) (by decide)
      simpa [List.append_assoc] using this

theorem readAll_map {V : Type} {rd : Str → Option V} {wr : V → Str} {f : Str → Str} (h : ∀ v, rd (f (wr v)) = some v) :
    ∀ vs : List V, readAll rd ((vs.map wr).map f) = some vs := by
  intro vs
  induction vs with
  | nil => rfl
  | cons v vs ih => simp only [List.map_cons, readAll, h v, ih]

end Verif.Values

namespace Verif.Values
open Verif.Text

/-! ### characters of printed numbers -/

theorem showInt_chars (i : Int) : ∀ c ∈ showInt i, isDigit c = true ∨ c = '-' := by
  cases i with
  | ofNat n => intro c hc; exact .inl (showNat_digits n c hc)
  | negSucc n =>
    intro c hc
    simp only [showInt, List.mem_cons] at hc
    rcases hc with h | h
    · exact .inr h
    · exact .inl (showNat_digits _ c h)

theorem showInt_ne_nil (i : Int) : showInt i ≠ [] := by
  cases i with
  | ofNat n => exact showNat_ne_nil n
  | negSucc n => simp [showInt]

theorem isDigit_ne {c d : Char} (h : isDigit c = true) (hd : isDigit d = false) : c ≠ d := by
  intro e; subst e; rw [h] at hd; cases hd

theorem isDigit_not_listStrip {c : Char} (h : isDigit c = true) : listStrip c = false := by
  have h1 := isDigit_ne h (d := ' ') rfl
  have h2 := isDigit_ne h (d := '\n') rfl
  have h3 := isDigit_ne h (d := '\t') rfl
  have h4 := isDigit_ne h (d := '\'') rfl
  simp [listStrip, h1, h2, h3, h4]

/-- A text without strippable characters is left alone. -/
theorem stripP_of_all {p : Char → Bool} {s : Str} (h : ∀ c ∈ s, p c = false) : stripP p s = s := by
  apply stripP_self
  · intro c hc; exact h c (List.mem_of_mem_head? (by simpa using hc))
  · intro c hc; exact h c (List.mem_of_mem_getLast? (by simpa using hc))

/-- Sufficient conditions on a printer for `Listable`. -/
theorem listable_of {d1 d2 : Char} {p : Char → Bool} {ws : List Str} (hp : ∀ c, commaStrip c = true → c = ',' ∨ p c = true)
    (h1 : ∀ w ∈ ws, ',' ∉ w) (h2 : ∀ w ∈ ws, d2 ∉ w) (h3 : ∀ w ∈ ws, stripP p w ≠ []) : Listable d1 d2 p ws := by
  refine ⟨h1, h2, ?_, fun w hw => h3 w (by rw [hw]; exact List.mem_cons_self)⟩
  intro w hw e
  have hm : w ∈ ws := List.mem_of_mem_getLast? (by simpa using hw)
  obtain ⟨u, e', hu⟩ := rstripP_decomp commaStrip w
  rw [e, List.nil_append] at e'
  subst e'
  refine h3 w hm ?_
  have := stripP_append_pad (p := p) w [] [] (by
    intro c hc
    rcases hp c (hu c hc) with h | h
    · subst h; exact absurd hc (h1 w hm)
    · exact h) (by intro c hc; cases hc)
  simpa [stripP, lstripP, rstripP] using this

theorem commaStrip_listStrip (c : Char) (h : commaStrip c = true) : c = ',' ∨ listStrip c = true := by
  simp only [commaStrip, Bool.or_eq_true, decide_eq_true_eq] at h
  rcases h with rfl | rfl
  · exact .inl rfl
  · exact .inr rfl

theorem commaStrip_dictStrip (c : Char) (h : commaStrip c = true) : c = ',' ∨ dictStrip c = true := by
  simp only [commaStrip, Bool.or_eq_true, decide_eq_true_eq] at h
  rcases h with rfl | rfl
  · exact .inl rfl
  · exact .inr rfl

theorem showInt_no_strip (i : Int) : ∀ c ∈ showInt i, listStrip c = false := by
  intro c hc
  rcases showInt_chars i c hc with h | rfl
  · exact isDigit_not_listStrip h
  · rfl

theorem showInt_notMem {d : Char} (hd : isDigit d = false) (hm : d ≠ '-') (i : Int) : d ∉ showInt i := by
  intro h
  rcases showInt_chars i d h with h | h
  · rw [h] at hd; cases hd
  · exact hm h

/-! ### floats -/

theorem padNat_length : ∀ k n, (padNat k n).length = k := by
  intro k
  induction k with
  | zero => intro n; rfl
  | succ k ih => intro n; simp [padNat, ih]

theorem padNat_digits : ∀ k n, ∀ c ∈ padNat k n, isDigit c = true := by
  intro k
  induction k with
  | zero => intro n c hc; cases hc
  | succ k ih =>
    intro n c hc
    simp only [padNat, List.mem_append, List.mem_singleton] at hc
    rcases hc with h | rfl
    · exact ih _ c h
    · exact isDigit_digitChar (Nat.mod_lt _ (by omega))

theorem digitsVal_padNat : ∀ k n, digitsVal (padNat k n) = n % 10 ^ k := by
  intro k
  induction k with
  | zero => intro n; simp [padNat, digitsVal, Nat.mod_one]
  | succ k ih =>
    intro n
    have := ih (n / 10)
    unfold digitsVal at this ⊢
    rw [padNat, List.foldl_append, this]
    simp only [List.foldl_cons, List.foldl_nil]
    rw [digitVal_digitChar (Nat.mod_lt _ (by omega)), Nat.pow_succ, Nat.mul_comm (10 ^ k) 10, Nat.mod_mul, Nat.mul_comm, Nat.add_comm]

theorem takeWhile_digits {a : Str} (b : Str) (ha : ∀ c ∈ a, isDigit c = true) {c : Char} (hc : isDigit c = false) :
    (a ++ c :: b).takeWhile isDigit = a ∧ (a ++ c :: b).dropWhile isDigit = c :: b := by
  induction a with
  | nil => simp [hc]
  | cons d a ih =>
    have := ih fun x hx => ha x (List.mem_cons_of_mem _ hx)
    simp [ha d List.mem_cons_self, this.1, this.2]

/-- Exponent as printed. -/
def showExp (e : Int) : Str :=
  (if e < 0 then ['-'] else ['+']) ++ (if e.natAbs < 10 then ['0'] ++ showNat e.natAbs else showNat e.natAbs)

theorem expDigits (n : Nat) : ∃ t, (if n < 10 then ['0'] ++ showNat n else showNat n) = t ∧ t ≠ [] ∧ (∀ c ∈ t, isDigit c = true) ∧ digitsVal t = n := by
  refine ⟨_, rfl, ?_⟩
  split
  · refine ⟨by simp, ?_, ?_⟩
    · intro c hc
      simp only [List.singleton_append, List.mem_cons] at hc
      rcases hc with rfl | h
      · rfl
      · exact showNat_digits n c h
    · rename_i h
      simp only [digitsVal, List.singleton_append, List.foldl_cons]
      show (showNat n).foldl _ 0 = n
      exact foldl_showNat n
  · exact ⟨showNat_ne_nil n, showNat_digits n, foldl_showNat n⟩

theorem readExp_showExp (e : Int) : readExp ('e' :: showExp e) = some e := by
  obtain ⟨t, ht, h1, h2, h3⟩ := expDigits e.natAbs
  have h2' : t.all isDigit = true := List.all_eq_true.2 h2
  unfold showExp
  rw [ht]
  by_cases he : e < 0
  · rw [if_pos he]
    simp only [readExp, true_or, if_true, List.singleton_append]
    rw [if_pos ⟨h1, h2'⟩, h3]
    congr 1
    omega
  · rw [if_neg he]
    simp only [readExp, true_or, if_true, List.singleton_append]
    rw [if_pos ⟨h1, h2'⟩, h3]
    congr 1
    omega

theorem showExp_chars (e : Int) : ∀ c ∈ showExp e, isDigit c = true ∨ c = '-' ∨ c = '+' := by
  obtain ⟨t, ht, h1, h2, h3⟩ := expDigits e.natAbs
  intro c hc
  unfold showExp at hc
  rw [ht, List.mem_append] at hc
  rcases hc with h | h
  · split at h
    · exact .inr (.inl (List.mem_singleton.1 h))
    · exact .inr (.inr (List.mem_singleton.1 h))
  · exact .inl (h2 c h)

/-- Unsigned part of the printed number. -/
def showU (d : Dec) : Str := (padNat 9 d.m).take 1 ++ ['.'] ++ (padNat 9 d.m).drop 1 ++ ['e'] ++ showExp d.e

theorem showDec_eq (d : Dec) : ∃ k, showDec d = List.replicate k ' ' ++ ((if d.neg then ['-'] else []) ++ showU d) := by
  have : (if d.neg then ['-'] else []) ++ (padNat 9 d.m).take 1 ++ ['.'] ++ (padNat 9 d.m).drop 1 ++ ['e'] ++ showExp d.e =
      (if d.neg then ['-'] else []) ++ showU d := by simp only [showU, List.append_assoc]
  exact ⟨_, congrArg (fun b : Str => List.replicate (16 - b.length) ' ' ++ b) this⟩

theorem showU_chars (d : Dec) : ∀ c ∈ showU d, isDigit c = true ∨ c = '.' ∨ c = 'e' ∨ c = '-' ∨ c = '+' := by
  intro c hc
  unfold showU at hc
  simp only [List.mem_append, List.mem_singleton] at hc
  rcases hc with (((h | h) | h) | h) | h
  · exact .inl (padNat_digits _ _ c (List.mem_of_mem_take h))
  · exact .inr (.inl h)
  · exact .inl (padNat_digits _ _ c (List.mem_of_mem_drop h))
  · exact .inr (.inr (.inl h))
  · rcases showExp_chars _ c h with h | h | h
    · exact .inl h
    · exact .inr (.inr (.inr (.inl h)))
    · exact .inr (.inr (.inr (.inr h)))

theorem signed_chars (d : Dec) : ∀ c ∈ (if d.neg then ['-'] else []) ++ showU d,
    isDigit c = true ∨ c = '.' ∨ c = 'e' ∨ c = '-' ∨ c = '+' := by
  intro c hc
  rcases List.mem_append.1 hc with h | h
  · split at h
    · exact .inr (.inr (.inr (.inl (List.mem_singleton.1 h))))
    · cases h
  · exact showU_chars d c h

theorem readUFloat_showU (d : Dec) : readUFloat (showU d) = some (d.m % 10 ^ 9, d.e - 8) := by
  have hdig := padNat_digits 9 d.m
  have hlen := padNat_length 9 d.m
  have hval := digitsVal_padNat 9 d.m
  unfold showU
  generalize padNat 9 d.m = ds at hdig hlen hval
  have e1 : ds.take 1 ++ ['.'] ++ ds.drop 1 ++ ['e'] ++ showExp d.e = ds.take 1 ++ '.' :: (ds.drop 1 ++ 'e' :: showExp d.e) := by
    simp [List.append_assoc]
  have t1 := takeWhile_digits (a := ds.take 1) (ds.drop 1 ++ 'e' :: showExp d.e) (fun c hc => hdig c (List.mem_of_mem_take hc)) (c := '.') rfl
  have t2 := takeWhile_digits (a := ds.drop 1) (showExp d.e) (fun c hc => hdig c (List.mem_of_mem_drop hc)) (c := 'e') rfl
  unfold readUFloat
  rw [e1]
  rw [t1.1, t1.2]
  simp only
  rw [t2.1, t2.2, readExp_showExp, List.take_append_drop, hval]
  rw [if_neg]
  · simp [hlen]
  · intro h
    have := congrArg List.length h.2
    simp [hlen] at this

theorem readFloat_signed (d : Dec) : readFloat ((if d.neg then ['-'] else []) ++ showU d) = some (d.neg, d.m % 10 ^ 9, d.e - 8) := by
  have hs : strip ((if d.neg then ['-'] else []) ++ showU d) = (if d.neg then ['-'] else []) ++ showU d := by
    refine strip_self_of_all fun c hc => ?_
    rcases signed_chars d c hc with h | rfl | rfl | rfl | rfl
    · exact isDigit_not_ws h
    all_goals rfl
  unfold readFloat
  rw [hs]
  cases hn : d.neg with
  | true => simp [readUFloat_showU]
  | false =>
    simp only [Bool.false_eq_true, if_false, List.nil_append]
    have hdig := padNat_digits 9 d.m
    have hlen := padNat_length 9 d.m
    have hh : ∃ c r, showU d = c :: r ∧ isDigit c = true := by
      unfold showU
      match hp : padNat 9 d.m with
      | [] => rw [hp] at hlen; cases hlen
      | c :: r => exact ⟨c, _, rfl, by rw [hp] at hdig; exact hdig c List.mem_cons_self⟩
    obtain ⟨c, r, hc, hd⟩ := hh
    have hu := readUFloat_showU d
    rw [hc] at hu ⊢
    split
    · rename_i h
      simp only [List.cons.injEq] at h
      rw [h.1] at hd; cases hd
    · rename_i h
      simp only [List.cons.injEq] at h
      rw [h.1] at hd; cases hd
    · rw [hu]; rfl

theorem strip_showDec {p : Char → Bool} (hsp : p ' ' = true) (hp : ∀ c, isDigit c = true ∨ c = '.' ∨ c = 'e' ∨ c = '-' ∨ c = '+' → p c = false) (d : Dec) :
    stripP p (showDec d) = (if d.neg then ['-'] else []) ++ showU d := by
  obtain ⟨k, e⟩ := showDec_eq d
  rw [e]
  have h := stripP_append_pad (p := p) (List.replicate k ' ') ((if d.neg then ['-'] else []) ++ showU d) []
    (by intro c hc; rw [(List.mem_replicate.1 hc).2]; exact hsp) (by intro c hc; cases hc)
  rw [List.append_nil] at h
  rw [h]
  exact stripP_of_all fun c hc => hp c (signed_chars d c hc)

theorem showDec_chars (d : Dec) : ∀ c ∈ showDec d, c = ' ' ∨ isDigit c = true ∨ c = '.' ∨ c = 'e' ∨ c = '-' ∨ c = '+' := by
  obtain ⟨k, e⟩ := showDec_eq d
  intro c hc
  rw [e] at hc
  rcases List.mem_append.1 hc with h | h
  · exact .inl (List.mem_replicate.1 h).2
  · exact .inr (signed_chars d c h)

/-! ### dictionaries -/

theorem strip_strip_sub {p : Char → Bool} (hp : ∀ c, p c = true → isWs c = true) (s : Str) : strip (stripP p s) = strip s := by
  obtain ⟨w1, w2, e, h1, h2⟩ := stripP_decomp p s
  have := stripP_append_pad (p := isWs) w1 (stripP p s) w2 (fun c hc => hp c (h1 c hc)) (fun c hc => hp c (h2 c hc))
  rw [← e] at this
  exact this.symm

theorem dictStrip_ws (c : Char) (h : dictStrip c = true) : isWs c = true := by
  simp only [dictStrip, Bool.or_eq_true, decide_eq_true_eq] at h
  rcases h with (rfl | rfl) | rfl <;> rfl

/-- Stripping around a separator that is not strippable acts on the two sides separately. -/
theorem stripP_around {p : Char → Bool} {x : Char} (hx : p x = false) (a b : Str) : stripP p (a ++ x :: b) = lstripP p a ++ x :: rstripP p b := by
  have e1 : lstripP p (a ++ x :: b) = lstripP p a ++ x :: b := by
    unfold lstripP
    induction a with
    | nil => simp [hx]
    | cons c a ih =>
      simp only [List.cons_append, List.dropWhile_cons]
      split
      · exact ih
      · simp
  have e2 : rstripP p (x :: b) = x :: rstripP p b := by
    have : lstripP p (b.reverse ++ x :: []) = lstripP p b.reverse ++ x :: [] := by
      unfold lstripP
      generalize b.reverse = c
      induction c with
      | nil => simp [hx]
      | cons d c ih =>
        simp only [List.cons_append, List.dropWhile_cons]
        split
        · exact ih
        · simp
    simp only [rstripP, List.reverse_cons]
    rw [show (b.reverse ++ [x]).dropWhile p = (b.reverse).dropWhile p ++ [x] from this]
    simp
  rw [stripP, e1, rstripP_append _ _ (by rw [e2]; simp), e2]

theorem stripP_lstripP {p : Char → Bool} (s : Str) : stripP p (lstripP p s) = stripP p s := by
  obtain ⟨w, e, h⟩ := lstripP_decomp p s
  have := stripP_append_pad (p := p) w (lstripP p s) [] h (by intro c hc; cases hc)
  rw [List.append_nil, ← e] at this
  exact this.symm

theorem stripP_rstripP {p : Char → Bool} (s : Str) : stripP p (rstripP p s) = stripP p s := by
  obtain ⟨w, e, h⟩ := rstripP_decomp p s
  have := stripP_append_pad (p := p) [] (rstripP p s) w (by intro c hc; cases hc) h
  rw [List.nil_append, ← e] at this
  exact this.symm

theorem partition_mem {sep : Char} : ∀ {s a : Str} {b : Option Str}, partition sep s = (a, b) → sep ∉ a ∧ (∀ c ∈ a, c ∈ s) ∧ ∀ t, b = some t → ∀ c ∈ t, c ∈ s := by
  intro s
  induction s with
  | nil =>
    intro a b h
    simp only [partition, Prod.mk.injEq] at h
    rw [← h.1, ← h.2]
    exact ⟨by simp, by simp, by intro t h; cases h⟩
  | cons c s ih =>
    intro a b h
    simp only [partition] at h
    split at h
    · simp only [Prod.mk.injEq] at h
      rw [← h.1, ← h.2]
      refine ⟨by simp, by simp, ?_⟩
      intro t ht d hd
      simp only [Option.some.injEq] at ht
      subst ht
      exact List.mem_cons_of_mem _ hd
    · rename_i hc
      simp only [Prod.mk.injEq] at h
      obtain ⟨h1, h2, h3⟩ := ih (a := (partition sep s).1) (b := (partition sep s).2) rfl
      rw [← h.1, ← h.2]
      refine ⟨?_, ?_, ?_⟩
      · simp only [List.mem_cons, not_or]; exact ⟨fun e => hc e.symm, h1⟩
      · intro d hd
        rcases List.mem_cons.1 hd with rfl | hd
        · exact List.mem_cons_self
        · exact List.mem_cons_of_mem _ (h2 d hd)
      · intro t ht d hd
        exact List.mem_cons_of_mem _ (h3 t ht d hd)

theorem splitOn_notMem {sep : Char} : ∀ s, (∀ w ∈ splitOn sep s, sep ∉ w ∧ ∀ c ∈ w, c ∈ s) := by
  intro s
  induction s with
  | nil => intro w hw; simp only [splitOn, List.mem_singleton] at hw; subst hw; simp
  | cons c s ih =>
    intro w hw
    simp only [splitOn] at hw
    split at hw
    · rcases List.mem_cons.1 hw with rfl | hw
      · simp
      · exact ⟨(ih w hw).1, fun d hd => List.mem_cons_of_mem _ ((ih w hw).2 d hd)⟩
    · rename_i hc
      split at hw
      · rename_i he; exact absurd he (splitOn_ne_nil _ _)
      · rename_i v ws he
        rw [he] at ih
        rcases List.mem_cons.1 hw with rfl | hw
        · have := ih v List.mem_cons_self
          refine ⟨?_, ?_⟩
          · simp only [List.mem_cons, not_or]; exact ⟨fun e => hc e.symm, this.1⟩
          · intro d hd
            rcases List.mem_cons.1 hd with rfl | hd
            · exact List.mem_cons_self
            · exact List.mem_cons_of_mem _ (this.2 d hd)
        · have := ih w (List.mem_cons_of_mem _ hw)
          exact ⟨this.1, fun d hd => List.mem_cons_of_mem _ (this.2 d hd)⟩

theorem readList_mem {d1 d2 : Char} {p : Char → Bool} {s : Str} {l : List Str} (h : readList d1 d2 ',' p s = some l) :
    ∀ w ∈ l, ',' ∉ w ∧ d2 ∉ w := by
  unfold readList at h
  split at h
  · cases h
  · rename_i body hb
    have hbody : d2 ∉ body := by
      unfold between at hb
      split at hb
      · rename_i a r b r' h1 h2
        simp only [Option.some.injEq] at hb
        subst hb
        unfold cutAt at h2
        split at h2
        · cases h2
        · rename_i hp
          simp only [Option.some.injEq, Prod.mk.injEq] at h2
          obtain ⟨h2, _⟩ := h2
          subst h2
          exact fun hm => (partition_mem hp).1 (List.mem_of_mem_drop hm)
      · cases hb
    simp only [Option.some.injEq] at h
    intro w hw
    rw [← h] at hw
    split at hw
    · cases hw
    · obtain ⟨v, hv, rfl⟩ := List.mem_map.1 hw
      have := splitOn_notMem body v hv
      exact ⟨fun hm => this.1 (mem_of_mem_stripP hm), fun hm => hbody (this.2 _ (mem_of_mem_stripP hm))⟩

end Verif.Values
