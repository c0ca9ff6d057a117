import Verif.Io.JsonText
import Verif.Text.Lemmas
/-
Lemmas: `json.loads(json.dumps(v))`.
-/
namespace Verif.JsonText
open Verif.Text

/-! ### strings -/

theorem hexVal_hexChar : ∀ k : Fin 16, hexVal (hexChar k) = some k.val := by decide

theorem hexVal_hexChar' {k : Nat} (h : k < 16) : hexVal (hexChar k) = some k := hexVal_hexChar ⟨k, h⟩

theorem hex4_showUnit {n : Nat} (h : n < 65536) :
    hex4 (hexChar (n / 4096 % 16)) (hexChar (n / 256 % 16)) (hexChar (n / 16 % 16)) (hexChar (n % 16)) = some n := by
  unfold hex4
  rw [hexVal_hexChar' (Nat.mod_lt _ (by decide)), hexVal_hexChar' (Nat.mod_lt _ (by decide)), hexVal_hexChar' (Nat.mod_lt _ (by decide)),
    hexVal_hexChar' (Nat.mod_lt _ (by decide))]
  simp only [Option.some.injEq]
  omega

theorem parseStr_unit {n : Nat} (h : n < 65536) (h2 : n < 0xd800 ∨ 0xdfff < n) (r : Str) :
    parseStr (showUnit n ++ r) = (parseStr r).map fun x => (Char.ofNat n :: x.1, x.2) := by
  simp only [showUnit, List.cons_append, List.nil_append]
  conv => lhs; unfold parseStr
  simp only [hex4_showUnit h, Option.bind_some, plainUnit, if_pos h2]

theorem parseStr_pair {a b : Nat} (ha : 0xd800 ≤ a ∧ a ≤ 0xdbff) (hb : 0xdc00 ≤ b ∧ b ≤ 0xdfff) (r : Str) :
    parseStr (showUnit a ++ (showUnit b ++ r)) = (parseStr r).map fun x => (Char.ofNat (0x10000 + (a - 0xd800) * 1024 + (b - 0xdc00)) :: x.1, x.2) := by
  have h1 : ¬ (a < 0xd800 ∨ 0xdfff < a) := by omega
  have ha' := hex4_showUnit (n := a) (by omega)
  have hb' := hex4_showUnit (n := b) (by omega)
  have hp : pairUnit a b = some (Char.ofNat (0x10000 + (a - 0xd800) * 1024 + (b - 0xdc00))) := by
    unfold pairUnit
    rw [if_pos ⟨ha.1, ha.2, hb.1, hb.2⟩]
  simp only [showUnit, List.cons_append, List.nil_append]
  rw [parseStr]
  simp only [ha', hb', Option.bind_some, plainUnit, if_neg h1, hp]

theorem char_ofNat {c : Char} {n : Nat} (h : c.toNat = n) : c = Char.ofNat n := by
  subst h; exact (Char.ofNat_toNat c).symm

theorem parseStr_plain {c : Char} (h1 : c ≠ '"') (h2 : c ≠ '\\') (h3 : ¬ c.toNat < 32) (r : Str) :
    parseStr (c :: r) = (parseStr r).map fun x => (c :: x.1, x.2) := by
  rw [parseStr]
  · rw [if_neg (fun h => h.elim h2 h3)]
  · exact h1
  · intro a b c' d r' e; exact absurd e h2
  · intro e' r' e; exact absurd e h2

theorem escape_step (c : Char) (r : Str) : parseStr (escapeChar c ++ r) = (parseStr r).map fun x => (c :: x.1, x.2) := by
  unfold escapeChar
  have hv := c.valid
  split
  · rename_i h; subst h; rfl
  split
  · rename_i h; subst h; rfl
  split
  · rename_i h; subst h; rfl
  split
  · rename_i h; subst h; rfl
  split
  · rename_i h; subst h; rfl
  split
  · rename_i h; rw [char_ofNat h]; rfl
  split
  · rename_i h; rw [char_ofNat h]; rfl
  split
  · rename_i h1 h2 h3 h4 h5 h6 h7 h8
    exact parseStr_plain h1 h2 (by omega) r
  have hv' : c.toNat < 0xd800 ∨ (0xdfff < c.toNat ∧ c.toNat < 0x110000) := hv
  split
  · rename_i h
    rw [parseStr_unit h (by omega), Char.ofNat_toNat]
  · rename_i h
    rw [List.append_assoc, parseStr_pair (by omega) (by omega)]
    have e : 0x10000 + (0xd800 + (c.toNat - 0x10000) / 1024 - 0xd800) * 1024 + (0xdc00 + (c.toNat - 0x10000) % 1024 - 0xdc00) = c.toNat := by omega
    rw [e, Char.ofNat_toNat]

theorem parseStr_dump (s r : Str) : parseStr (s.flatMap escapeChar ++ '"' :: r) = some (s, r) := by
  induction s with
  | nil => rfl
  | cons c s ih =>
    rw [List.flatMap_cons, List.append_assoc, escape_step, ih]
    rfl

/-! ### numbers -/

/-- What may follow a value. -/
def Stop (r : Str) : Prop := ∀ c, r.head? = some c → c = ',' ∨ c = ']' ∨ c = '}' ∨ isJws c = true

theorem Stop.notDigit {r : Str} (h : Stop r) : ∀ c, r.head? = some c → isDigit c = false ∧ c ≠ '.' ∧ c ≠ 'e' ∧ c ≠ 'E' ∧ c ≠ '-' ∧ c ≠ '+' := by
  intro c hc
  rcases h c hc with rfl | rfl | rfl | h
  · decide
  · decide
  · decide
  · simp only [isJws, Bool.or_eq_true, decide_eq_true_eq] at h
    rcases h with ((rfl | rfl) | rfl) | rfl <;> decide

theorem takeWhile_stop {r : Str} (h : ∀ c, r.head? = some c → isDigit c = false) (s : Str) :
    (s ++ r).takeWhile isDigit = s.takeWhile isDigit ∧ (s ++ r).dropWhile isDigit = s.dropWhile isDigit ++ r := by
  induction s with
  | nil =>
    cases r with
    | nil => exact ⟨rfl, rfl⟩
    | cons c r => simp [h c rfl]
  | cons c s ih =>
    by_cases hc : isDigit c = true
    · simp [hc, ih.1, ih.2]
    · simp [hc]

theorem intPart_stop {r : Str} (h : Stop r) {s i q : Str} (hs : intPart s = some (i, q)) : intPart (s ++ r) = some (i, q ++ r) := by
  have hd := takeWhile_stop fun c hc => (h.notDigit c hc).1
  have hne : ∀ (c : Char) (t : Str), c ≠ '0' → intPart (c :: t) = if isDigit c = true then some (c :: t.takeWhile isDigit, t.dropWhile isDigit) else none := by
    intro c t hc
    unfold intPart
    split
    · rename_i heq; injection heq with e _; exact absurd e hc
    · rename_i heq; injection heq with e1 e2; subst e1 e2; rfl
    · rename_i heq; cases heq
  match s with
  | [] => cases hs
  | c :: s =>
    by_cases h0 : c = '0'
    · subst h0
      simp only [intPart, Option.some.injEq, Prod.mk.injEq] at hs
      obtain ⟨rfl, rfl⟩ := hs
      rfl
    · rw [hne c s h0] at hs
      rw [List.cons_append, hne c _ h0, (hd s).1, (hd s).2]
      split at hs
      · rename_i hdg
        rw [if_pos hdg]
        simp only [Option.some.injEq, Prod.mk.injEq] at hs ⊢
        exact ⟨hs.1, by rw [hs.2]⟩
      · cases hs

theorem fracPart_stop {r : Str} (h : Stop r) (s : Str) : fracPart (s ++ r) = ((fracPart s).1, (fracPart s).2 ++ r) := by
  have hd := takeWhile_stop fun c hc => (h.notDigit c hc).1
  match s with
  | [] =>
    cases r with
    | nil => rfl
    | cons c r =>
      have := (h.notDigit c rfl).2.1
      unfold fracPart
      simp only [List.nil_append]
      split
      · rename_i heq; injection heq with e _; exact absurd e this
      · rfl
  | c :: s =>
    by_cases hc : c = '.'
    · subst hc
      simp only [fracPart, List.cons_append, (hd s).1, (hd s).2]
      split <;> rfl
    · have e1 : fracPart (c :: s) = ([], c :: s) := by
        unfold fracPart; split
        · rename_i heq; injection heq with e _; exact absurd e hc
        · rfl
      have e2 : fracPart (c :: s ++ r) = ([], c :: s ++ r) := by
        unfold fracPart; split
        · rename_i heq; injection heq with e _; exact absurd e hc
        · rfl
      rw [e1, e2]

theorem expPart_stop {r : Str} (h : Stop r) (s : Str) : expPart (s ++ r) = ((expPart s).1, (expPart s).2 ++ r) := by
  have hd := takeWhile_stop fun c hc => (h.notDigit c hc).1
  match s with
  | [] =>
    cases r with
    | nil => rfl
    | cons c r =>
      have := (h.notDigit c rfl).2.2
      simp only [expPart, List.nil_append]
      rw [if_neg (fun e => e.elim this.1 this.2.1)]
  | c :: s =>
    simp only [expPart, List.cons_append]
    by_cases hc : c = 'e' ∨ c = 'E'
    · rw [if_pos hc, if_pos hc]
      match s with
      | [] =>
        simp only [List.nil_append, List.takeWhile_nil]
        cases r with
        | nil => rfl
        | cons x r =>
          have hx := h.notDigit x rfl
          split
          · rename_i heq; injection heq with e _; exact absurd e hx.2.2.2.2.1
          · rename_i heq; injection heq with e _; exact absurd e hx.2.2.2.2.2
          · rw [if_pos (by simp [hx.1])]
            simp
      | d :: s =>
        by_cases h1 : d = '-'
        · subst h1
          simp only [List.cons_append, (hd s).1, (hd s).2]
          split <;> rfl
        · by_cases h2 : d = '+'
          · subst h2
            simp only [List.cons_append, (hd s).1, (hd s).2]
            split <;> rfl
          · have hds := hd (d :: s)
            have key : ∀ t : Str, expPart (c :: d :: t) = if (d :: t).takeWhile isDigit = [] then ([], c :: d :: t)
                else (c :: (d :: t).takeWhile isDigit, (d :: t).dropWhile isDigit) := by
              intro t
              simp only [expPart, if_pos hc]
              split
              · rename_i heq; injection heq with e _; exact absurd e h1
              · rename_i heq; injection heq with e _; exact absurd e h2
              · rfl
            have k1 := key (s ++ r)
            have k2 := key s
            simp only [expPart, if_pos hc] at k1 k2
            simp only [List.cons_append] at hds ⊢
            rw [k1, k2, hds.1, hds.2]
            split <;> rfl
    · rw [if_neg hc, if_neg hc]
      rfl

theorem parseUnum_stop {r : Str} (h : Stop r) {s i q : Str} (hs : parseUnum s = some (i, q)) : parseUnum (s ++ r) = some (i, q ++ r) := by
  unfold parseUnum at hs ⊢
  cases hi : intPart s with
  | none => rw [hi] at hs; cases hs
  | some p =>
    obtain ⟨a, b⟩ := p
    rw [hi] at hs
    simp only [Option.some.injEq, Prod.mk.injEq] at hs
    rw [intPart_stop h hi]
    simp only [fracPart_stop h, expPart_stop h, hs.1, hs.2]

/-- Texts of numbers: read completely as a number. The constants `NaN` etc. are left out. -/
inductive NumOk : Str → Prop where
  | pos {t : Str} (h : parseUnum t = some (t, [])) : NumOk t
  | neg {t : Str} (h : parseUnum t = some (t, [])) : NumOk ('-' :: t)

theorem parseUnum_head {t i q : Str} (h : parseUnum t = some (i, q)) : ∃ c s, t = c :: s ∧ isDigit c = true := by
  unfold parseUnum at h
  cases hi : intPart t with
  | none => rw [hi] at h; cases h
  | some p =>
    unfold intPart at hi
    split at hi
    · exact ⟨'0', _, rfl, by decide⟩
    · split at hi
      · rename_i c r _ hd; exact ⟨c, r, rfl, hd⟩
      · cases hi
    · cases hi

theorem parseNum_digit {c : Char} (h : isDigit c = true) (s : Str) : parseNum (c :: s) = (parseUnum (c :: s)).map fun x => (.num x.1, x.2) := by
  have n1 : c ≠ 'N' := fun e => by subst e; revert h; decide
  have n2 : c ≠ 'I' := fun e => by subst e; revert h; decide
  have n3 : c ≠ '-' := fun e => by subst e; revert h; decide
  unfold parseNum
  split
  · rename_i heq; injection heq with e _; exact absurd e n1
  · rename_i heq; injection heq with e _; exact absurd e n2
  · rename_i heq; injection heq with e _; exact absurd e n3
  · rename_i heq; injection heq with e _; exact absurd e n3
  · rfl

theorem parseNum_neg {c : Char} (h : isDigit c = true) (s : Str) : parseNum ('-' :: c :: s) = (parseUnum (c :: s)).map fun x => (.num ('-' :: x.1), x.2) := by
  have n2 : c ≠ 'I' := fun e => by subst e; revert h; decide
  unfold parseNum
  split
  · rename_i heq; injection heq with e _; exact absurd e (by decide)
  · rename_i heq; injection heq with e _; exact absurd e (by decide)
  · rename_i heq; injection heq with _ e; injection e with e _; exact absurd e n2
  · rename_i heq; injection heq with _ e; subst e; rfl
  · rename_i _ _ hne; exact absurd rfl (hne _)

theorem parseVal_num {t : Str} (hn : NumOk t) {r : Str} (h : Stop r) (f : Nat) : parseVal (f + 1) (t ++ r) = some (.num t, r) := by
  cases hn with
  | pos ht =>
    obtain ⟨c, s, rfl, hc⟩ := parseUnum_head ht
    have hp : parseNum (c :: s ++ r) = some (.num (c :: s), r) := by
      rw [List.cons_append, parseNum_digit hc, ← List.cons_append, parseUnum_stop h ht]
      rfl
    rw [← hp]
    have n : c ≠ '"' ∧ c ≠ '{' ∧ c ≠ '[' ∧ c ≠ 'n' ∧ c ≠ 't' ∧ c ≠ 'f' := by
      refine ⟨?_, ?_, ?_, ?_, ?_, ?_⟩ <;> (intro e; subst e; revert hc; decide)
    rw [List.cons_append]
    unfold parseVal
    split
    · rename_i heq; injection heq with e _; exact absurd e n.1
    · rename_i heq; injection heq with e _; exact absurd e n.2.1
    · rename_i heq; injection heq with e _; exact absurd e n.2.2.1
    · rename_i heq; injection heq with e _; exact absurd e n.2.2.2.1
    · rename_i heq; injection heq with e _; exact absurd e n.2.2.2.2.1
    · rename_i heq; injection heq with e _; exact absurd e n.2.2.2.2.2
    · rfl
  | neg ht =>
    rename_i t
    obtain ⟨c, s, rfl, hc⟩ := parseUnum_head ht
    have hp : parseNum ('-' :: (c :: s) ++ r) = some (.num ('-' :: c :: s), r) := by
      rw [List.cons_append, List.cons_append, parseNum_neg hc, ← List.cons_append, parseUnum_stop h ht]
      rfl
    rw [← hp]
    rfl

/-! ### values -/

mutual
/-- Values whose numbers are valid. -/
def Ok : JV → Prop
  | .num t => NumOk t
  | .arr l => OkL l
  | .obj d => OkD d
  | _ => True
def OkL : List JV → Prop
  | [] => True
  | v :: l => Ok v ∧ OkL l
def OkD : List (Str × JV) → Prop
  | [] => True
  | (_, v) :: d => Ok v ∧ OkD d
end

/-- A written value starts with a character that is neither blank nor closing. -/
theorem dumps_head (v : JV) (h : Ok v) : ∃ c s, dumps v = c :: s ∧ isJws c = false ∧ c ≠ ']' ∧ c ≠ '}' := by
  cases v with
  | null => exact ⟨'n', _, rfl, by decide, by decide, by decide⟩
  | bool b => cases b <;> exact ⟨_, _, rfl, by decide, by decide, by decide⟩
  | num t =>
    cases h with
    | pos ht =>
      obtain ⟨c, s, rfl, hc⟩ := parseUnum_head ht
      refine ⟨c, s, rfl, ?_, ?_, ?_⟩
      · cases hj : isJws c with
        | false => rfl
        | true =>
          simp only [isJws, Bool.or_eq_true, decide_eq_true_eq] at hj
          rcases hj with ((rfl | rfl) | rfl) | rfl <;> (revert hc; decide)
      · intro e; subst e; revert hc; decide
      · intro e; subst e; revert hc; decide
    | neg ht => exact ⟨'-', _, rfl, by decide, by decide, by decide⟩
  | str s => exact ⟨'"', _, rfl, by decide, by decide, by decide⟩
  | arr l => cases l <;> exact ⟨'[', _, rfl, by decide, by decide, by decide⟩
  | obj d =>
    cases d with
    | nil => exact ⟨'{', _, rfl, by decide, by decide, by decide⟩
    | cons p d => obtain ⟨k, v⟩ := p; exact ⟨'{', _, rfl, by decide, by decide, by decide⟩

theorem skipWs_head {s : Str} (h : ∀ c, s.head? = some c → isJws c = false) : skipWs s = s := dropWhile_eq_self h

theorem skip_dumps (v : JV) (h : Ok v) (r : Str) : skipWs (dumps v ++ r) = dumps v ++ r := by
  obtain ⟨c, s, e, hc, _⟩ := dumps_head v h
  refine skipWs_head ?_
  rw [e]
  intro c' hc'
  simp only [List.cons_append, List.head?_cons, Option.some.injEq] at hc'
  subst hc'; exact hc

theorem stop_items (l : List JV) (r : Str) : Stop (dumpItems l ++ r) := by
  cases l with
  | nil => intro c hc; simp only [dumpItems, List.cons_append, List.head?_cons, Option.some.injEq] at hc; exact .inr (.inl hc.symm)
  | cons v l => intro c hc; simp only [dumpItems, List.cons_append, List.head?_cons, Option.some.injEq] at hc; exact .inl hc.symm

theorem stop_members (d : List (Str × JV)) (r : Str) : Stop (dumpMembers d ++ r) := by
  cases d with
  | nil => intro c hc; simp only [dumpMembers, List.cons_append, List.head?_cons, Option.some.injEq] at hc; exact .inr (.inr (.inl hc.symm))
  | cons v l => obtain ⟨k, v⟩ := v; intro c hc; simp only [dumpMembers, List.cons_append, List.head?_cons, Option.some.injEq] at hc; exact .inl hc.symm

theorem dumpItems_pos (l : List JV) : 1 ≤ (dumpItems l).length := by cases l <;> simp [dumpItems]
theorem dumpMembers_pos (d : List (Str × JV)) : 1 ≤ (dumpMembers d).length := by
  cases d with
  | nil => simp [dumpMembers]
  | cons p d => obtain ⟨k, v⟩ := p; simp [dumpMembers]

theorem skip_dumpStr (k r : Str) : skipWs (dumpStr k ++ r) = dumpStr k ++ r := by
  refine skipWs_head ?_
  intro c hc
  simp only [dumpStr, List.cons_append, List.head?_cons, Option.some.injEq] at hc
  subst hc; decide

mutual
theorem parseVal_dumps (v : JV) (h : Ok v) (f : Nat) (hf : (dumps v).length ≤ f) (r : Str) (hr : Stop r) : parseVal f (dumps v ++ r) = some (v, r) := by
  match v, f with
  | v, 0 =>
    obtain ⟨c, s, e, _⟩ := dumps_head v h
    rw [e] at hf
    simp at hf
  | .null, f + 1 => rfl
  | .bool true, f + 1 => rfl
  | .bool false, f + 1 => rfl
  | .num t, f + 1 => exact parseVal_num h hr f
  | .str s, f + 1 =>
    simp only [dumps, dumpStr, List.cons_append, List.append_assoc, List.nil_append, parseVal, parseStr_dump, Option.map_some]
  | .arr [], f + 1 => rfl
  | .arr (v :: l), f + 1 =>
    have hs := skip_dumps v h.1 (dumpItems l ++ r)
    obtain ⟨c, s, e, _, hc, _⟩ := dumps_head v h.1
    have hi := parseItems_dumps v l h.1 h.2 f (by simp only [dumps, List.length_cons, List.length_append] at hf; omega) r
    simp only [dumps, List.cons_append, List.append_assoc, parseVal, hs]
    split
    · rename_i heq
      rw [e, List.cons_append] at heq
      injection heq with e' _
      exact absurd e' hc
    · rw [hi]; rfl
  | .obj [], f + 1 => rfl
  | .obj ((k, v) :: d), f + 1 =>
    have hs := skip_dumpStr k ([':', ' '] ++ (dumps v ++ (dumpMembers d ++ r)))
    have hi := parseMembers_dumps k v d h.1 h.2 f (by simp only [dumps, List.length_cons, List.length_append] at hf; omega) r
    simp only [dumps, List.cons_append, List.append_assoc, List.nil_append, parseVal] at hs hi ⊢
    rw [hs]
    split
    · rename_i heq
      simp only [dumpStr, List.cons_append] at heq
      injection heq with e' _
      exact absurd e' (by decide)
    · rw [hi]; rfl
theorem parseItems_dumps (v : JV) (l : List JV) (h : Ok v) (hl : OkL l) (f : Nat) (hf : (dumps v).length + (dumpItems l).length ≤ f) (r : Str) :
    parseItems f (dumps v ++ (dumpItems l ++ r)) = some (v :: l, r) := by
  match f with
  | 0 => have := dumpItems_pos l; omega
  | f + 1 =>
    have hp := dumpItems_pos l
    have hv := parseVal_dumps v h f (by omega) (dumpItems l ++ r) (stop_items l r)
    simp only [parseItems, hv]
    match l with
    | [] => rfl
    | w :: l =>
      have hi := parseItems_dumps w l hl.1 hl.2 f (by simp only [dumpItems, List.length_cons, List.length_append] at hf; omega) r
      have hs := skip_dumps w hl.1 (dumpItems l ++ r)
      have e1 : skipWs (dumpItems (w :: l) ++ r) = ',' :: ' ' :: (dumps w ++ (dumpItems l ++ r)) := by
        simp [dumpItems, skipWs, isJws]
      have e2 : skipWs (' ' :: (dumps w ++ (dumpItems l ++ r))) = dumps w ++ (dumpItems l ++ r) := by
        rw [← hs]
        simp only [skipWs]
        rw [List.dropWhile_cons_of_pos (by decide)]
        exact congrArg _ hs
      simp only [e1, e2, hi, Option.map_some]
theorem parseMembers_dumps (k : Str) (v : JV) (d : List (Str × JV)) (h : Ok v) (hd : OkD d) (f : Nat)
    (hf : (dumps v).length + (dumpMembers d).length ≤ f) (r : Str) :
    parseMembers f (dumpStr k ++ ([':', ' '] ++ (dumps v ++ (dumpMembers d ++ r)))) = some ((k, v) :: d, r) := by
  match f with
  | 0 => have := dumpMembers_pos d; omega
  | f + 1 =>
    have hp := dumpMembers_pos d
    have hv := parseVal_dumps v h f (by omega) (dumpMembers d ++ r) (stop_members d r)
    have hsv := skip_dumps v h (dumpMembers d ++ r)
    have e0 : skipWs (' ' :: (dumps v ++ (dumpMembers d ++ r))) = dumps v ++ (dumpMembers d ++ r) := by
      rw [← hsv]
      simp only [skipWs]
      rw [List.dropWhile_cons_of_pos (by decide)]
      exact congrArg _ hsv
    have e00 : ∀ q, skipWs (':' :: q) = ':' :: q := fun q => skipWs_head fun c hc => by
      simp only [List.head?_cons, Option.some.injEq] at hc; subst hc; decide
    simp only [dumpStr, List.cons_append, List.append_assoc, List.nil_append, parseMembers, parseStr_dump, e00, e0, hv]
    match d with
    | [] => rfl
    | (k', w) :: d =>
      have hi := parseMembers_dumps k' w d hd.1 hd.2 f (by simp only [dumpMembers, List.length_cons, List.length_append] at hf; omega) r
      have hs := skip_dumpStr k' ([':', ' '] ++ (dumps w ++ (dumpMembers d ++ r)))
      have e1 : skipWs (dumpMembers ((k', w) :: d) ++ r) = ',' :: ' ' :: (dumpStr k' ++ ([':', ' '] ++ (dumps w ++ (dumpMembers d ++ r)))) := by
        simp [dumpMembers, skipWs, isJws]
      have e2 : skipWs (' ' :: (dumpStr k' ++ ([':', ' '] ++ (dumps w ++ (dumpMembers d ++ r))))) = dumpStr k' ++ ([':', ' '] ++ (dumps w ++ (dumpMembers d ++ r))) := by
        rw [← hs]
        simp only [skipWs]
        rw [List.dropWhile_cons_of_pos (by decide)]
        exact congrArg _ hs
      simp only [e1, e2, hi, Option.map_some]
end

/-- `json.loads(json.dumps(v))` gives `v`. -/
theorem loads_dumps (v : JV) (h : Ok v) : loads (dumps v) = some v := by
  have hs := skip_dumps v h []
  rw [List.append_nil] at hs
  have hp := parseVal_dumps v h ((dumps v).length + 1) (by omega) [] (by intro c hc; cases hc)
  rw [List.append_nil] at hp
  simp only [loads, hs, hp]
  rfl

/-- Printed integers are numbers. -/
theorem numOk_showNat (n : Nat) : parseUnum (showNat n) = some (showNat n, []) := by
  have hd := showNat_digits n
  have htw : ∀ s : Str, (∀ c ∈ s, isDigit c = true) → s.takeWhile isDigit = s ∧ s.dropWhile isDigit = [] := by
    intro s
    induction s with
    | nil => intro _; exact ⟨rfl, rfl⟩
    | cons c s ih =>
      intro h
      have := ih fun x hx => h x (List.mem_cons_of_mem _ hx)
      have hc := h c List.mem_cons_self
      simp [hc, this.1, this.2]
  have hlead : ∀ n, showNat n = ['0'] ∨ ∃ c s, showNat n = c :: s ∧ c ≠ '0' := by
    intro n
    induction n using Nat.strongRecOn with
    | _ n ih =>
      by_cases h : n < 10
      · rw [showNat_lt h]
        by_cases h0 : n = 0
        · subst h0; exact .inl rfl
        · refine .inr ⟨_, _, rfl, ?_⟩
          intro e
          have := congrArg Char.toNat e
          rw [digitChar_toNat h] at this
          have h48 : ('0' : Char).toNat = 48 := rfl
          omega
      · rw [showNat_ge h]
        rcases ih (n / 10) (by omega) with h1 | ⟨c, s, h1, h2⟩
        · have hn : n / 10 = 0 := by
            have := parseNat_showNat (n / 10)
            rw [h1] at this
            have h2 : parseNat ['0'] = some 0 := rfl
            rw [h2] at this
            injection this with this
            exact this.symm
          omega
        · exact .inr ⟨c, s ++ [digitChar (n % 10)], by rw [h1]; rfl, h2⟩
  unfold parseUnum
  rcases hlead n with h | ⟨c, s, h, hc⟩
  · rw [h]; rfl
  · rw [h] at hd ⊢
    have hcd := hd c List.mem_cons_self
    have := htw s fun x hx => hd x (List.mem_cons_of_mem _ hx)
    have hi : intPart (c :: s) = some (c :: s, []) := by
      unfold intPart
      split
      · rename_i heq; injection heq with e _; exact absurd e hc
      · rename_i heq
        injection heq with e1 e2
        subst e1 e2
        rw [if_pos hcd, this.1, this.2]
      · rename_i heq; cases heq
    rw [hi]
    simp [fracPart, expPart]

theorem numOk_showInt (i : Int) : NumOk (showInt i) := by
  cases i with
  | ofNat n => exact .pos (numOk_showNat n)
  | negSucc n => exact .neg (numOk_showNat (n + 1))

end Verif.JsonText
