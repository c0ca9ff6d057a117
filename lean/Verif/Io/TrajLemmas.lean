import Verif.Io.Traj
import Verif.Text.Lemmas
/-
Lemmas on lines, words and frames.
-/
namespace Verif.Traj
open Verif.Text
variable {V : Type}

/-! ### words -/

theorem splitWs_pad {w s : Str} (h : ∀ c ∈ w, isWs c = true) : splitWs (w ++ s) = splitWs s := by
  induction w with
  | nil => rfl
  | cons c w ih =>
    rw [List.cons_append, splitWs.eq_def]
    simp only [h c List.mem_cons_self, if_true]
    exact ih fun x hx => h x (List.mem_cons_of_mem _ hx)

theorem splitWs_tok {w s : Str} (hw : ∀ c ∈ w, isWs c = false) (hne : w ≠ []) (hs : ∀ c, s.head? = some c → isWs c = true) : splitWs (w ++ s) = w :: splitWs s := by
  induction w with
  | nil => exact absurd rfl hne
  | cons c w ih =>
    have hc := hw c List.mem_cons_self
    rw [List.cons_append, splitWs.eq_def]
    simp only [hc, Bool.false_eq_true, if_false]
    cases w with
    | nil =>
      cases s with
      | nil => rfl
      | cons d s => simp only [List.nil_append, hs d rfl, if_true]
    | cons d w =>
      have hd := hw d (List.mem_cons_of_mem _ List.mem_cons_self)
      have := ih (fun x hx => hw x (List.mem_cons_of_mem _ hx)) (by simp)
      simp only [List.cons_append] at this ⊢
      simp only [hd, Bool.false_eq_true, if_false, this]

theorem splitWs_padL {n : Nat} {w s : Str} (hw : ∀ c ∈ w, isWs c = false) (hne : w ≠ []) (hs : ∀ c, s.head? = some c → isWs c = true) : splitWs (padL n w ++ s) = w :: splitWs s := by
  unfold padL
  rw [List.append_assoc, splitWs_pad, splitWs_tok hw hne hs]
  intro c hc
  rw [List.mem_replicate] at hc
  rw [hc.2]; decide

/-! ### lines -/

theorem lines_line {a : Str} (h : '\n' ∉ a) (b : Str) : lines (a ++ '\n' :: b) = (a ++ ['\n']) :: lines b := by
  induction a with
  | nil => simp [lines]
  | cons c a ih =>
    simp only [List.mem_cons, not_or] at h
    rw [List.cons_append, lines, if_neg (fun e => h.1 e.symm), ih h.2]
    rfl

theorem lines_last {a : Str} (h : '\n' ∉ a) : lines a = if a = [] then [] else [a] := by
  induction a with
  | nil => rfl
  | cons c a ih =>
    simp only [List.mem_cons, not_or] at h
    rw [lines, if_neg (fun e => h.1 e.symm), ih h.2]
    cases a <;> simp

/-- A text of whole lines. -/
theorem lines_flat {α : Type} (f : α → Str) (l : List α) (h : ∀ a ∈ l, '\n' ∉ f a) (b : Str) :
    lines ((l.flatMap fun a => f a ++ ['\n']) ++ b) = (l.map fun a => f a ++ ['\n']) ++ lines b := by
  induction l with
  | nil => rfl
  | cons a l ih =>
    have h1 := h a List.mem_cons_self
    have h2 := ih fun x hx => h x (List.mem_cons_of_mem _ hx)
    rw [List.flatMap_cons, List.append_assoc, List.append_assoc, List.singleton_append, lines_line h1, h2]
    rfl

theorem lines_prefix_length : ∀ p q : Str, (lines p).length ≤ (lines (p ++ q)).length
  | [], q => by simp [lines]
  | c :: p, q => by
    have ih := lines_prefix_length p q
    rw [List.cons_append, lines, lines]
    split
    · simp only [List.length_cons]; omega
    · cases h1 : lines p <;> cases h2 : lines (p ++ q) <;> rw [h1, h2] at ih <;> simp_all

/-- A beginning of a text is within its first line, or goes beyond it. -/
theorem prefix_line {p q a t : Str} (h : p ++ q = a ++ '\n' :: t) (ha : '\n' ∉ a) : '\n' ∉ p ∨ ∃ p', p = a ++ '\n' :: p' ∧ p' ++ q = t := by
  induction a generalizing p with
  | nil =>
    cases p with
    | nil => exact .inl (by simp)
    | cons c p =>
      simp only [List.cons_append, List.nil_append, List.cons.injEq] at h
      exact .inr ⟨p, by rw [h.1]; rfl, h.2⟩
  | cons c a ih =>
    simp only [List.mem_cons, not_or] at ha
    cases p with
    | nil => exact .inl (by simp)
    | cons d p =>
      simp only [List.cons_append, List.cons.injEq] at h
      rcases ih h.2 ha.2 with h' | ⟨p', rfl, h'⟩
      · left
        rw [h.1]
        simp only [List.mem_cons, not_or]
        exact ⟨ha.1, h'⟩
      · exact .inr ⟨p', by rw [h.1]; rfl, h'⟩

/-! ### frames -/

/-- What is needed of the text form of numbers; `rE` and `rF` are the numbers after rounding to the printed digits. -/
structure Good (N : Num V) (rE rF : V → V) : Prop where
  charE : ∀ v, ∀ c ∈ N.fmtE v, cellChar c = true ∧ c ≠ ' '
  charF : ∀ v, ∀ c ∈ N.fmtF v, cellChar c = true ∧ c ≠ ' '
  neE : ∀ v, N.fmtE v ≠ []
  neF : ∀ v, N.fmtF v ≠ []
  readE : ∀ v, N.rd (N.fmtE v) = some (rE v)
  readF : ∀ v, N.rd (N.fmtF v) = some (rF v)

/-- Frames: six cell parameters, at least one atom, names that are single words, a title of one line. -/
structure Plain (f : Frame V) : Prop where
  cell : f.cell.length = 6
  title : '\n' ∉ f.title
  atoms : f.atoms ≠ []
  names : ∀ a ∈ f.atoms, a.1 ≠ [] ∧ ∀ c ∈ a.1, isWs c = false

/-- The frame as it is read: rounded numbers, names cut to four characters. -/
def seen (N : Num V) (rE rF : V → V) (f : Frame V) : Got V :=
  { comment := headLine N f ++ ['\n'], cell := some (f.cell.map rF), atoms := f.atoms.map fun a => (a.1.take 4, rE a.2.1, rE a.2.2.1, rE a.2.2.2) }

theorem cellChar_not_ws {c : Char} (h : cellChar c = true) (h' : c ≠ ' ') : isWs c = false := by
  simp only [cellChar, Bool.or_eq_true, decide_eq_true_eq] at h
  rcases h with (((((rfl | rfl) | h) | rfl) | rfl) | rfl) | rfl
  · decide
  · decide
  · exact isDigit_not_ws h
  · decide
  · decide
  · decide
  · exact absurd rfl h'

theorem ws_not_nl {c : Char} (h : isWs c = false) : c ≠ '\n' := fun e => by subst e; revert h; decide

theorem head_blank (s : Str) : ∀ c, (' ' :: s).head? = some c → isWs c = true := by
  intro c hc
  simp only [List.head?_cons, Option.some.injEq] at hc
  subst hc; decide

variable {N : Num V} {rE rF : V → V}

theorem readAtom_line (g : Good N rE rF) (a : Str × V × V × V) (hn : a.1 ≠ [] ∧ ∀ c ∈ a.1, isWs c = false) (t : Str) (ht : ∀ c, t.head? = some c → isWs c = true) :
    readAtom N (atomLine N a ++ t) = some (a.1.take 4, rE a.2.1, rE a.2.2.1, rE a.2.2.2) := by
  have hws : ∀ v, ∀ c ∈ N.fmtE v, isWs c = false := fun v c hc => cellChar_not_ws (g.charE v c hc).1 (g.charE v c hc).2
  have hb : ∀ s : Str, splitWs (' ' :: s) = splitWs s := fun s => splitWs_pad (w := [' ']) (by decide)
  have : splitWs (atomLine N a ++ t) = a.1 :: N.fmtE a.2.1 :: N.fmtE a.2.2.1 :: N.fmtE a.2.2.2 :: splitWs t := by
    unfold atomLine
    simp only [List.append_assoc, List.cons_append]
    rw [splitWs_padL hn.2 hn.1 (head_blank _), hb, splitWs_padL (hws _) (g.neE _) (head_blank _), hb, splitWs_padL (hws _) (g.neE _) (head_blank _), hb,
      splitWs_padL (hws _) (g.neE _) ht]
  unfold readAtom
  rw [this]
  simp only [g.readE]

theorem padL_mem {n : Nat} {s : Str} {c : Char} (h : c ∈ padL n s) : c = ' ' ∨ c ∈ s := by
  unfold padL at h
  rcases List.mem_append.1 h with h | h
  · exact .inl (List.mem_replicate.1 h).2
  · exact .inr h

theorem atomLine_nl (g : Good N rE rF) (a : Str × V × V × V) (hn : ∀ c ∈ a.1, isWs c = false) : '\n' ∉ atomLine N a := by
  intro h
  have hE : ∀ v, '\n' ∉ N.fmtE v := fun v hv => ws_not_nl (cellChar_not_ws (g.charE v _ hv).1 (g.charE v _ hv).2) rfl
  unfold atomLine at h
  simp only [List.mem_append, List.mem_cons] at h
  rcases h with h | h | h | h | h | h | h
  · rcases padL_mem h with h | h
    · exact absurd h (by decide)
    · exact ws_not_nl (hn _ h) rfl
  · exact absurd h (by decide)
  · rcases padL_mem h with h | h
    · exact absurd h (by decide)
    · exact hE _ h
  · exact absurd h (by decide)
  · rcases padL_mem h with h | h
    · exact absurd h (by decide)
    · exact hE _ h
  · exact absurd h (by decide)
  · rcases padL_mem h with h | h
    · exact absurd h (by decide)
    · exact hE _ h

theorem cellText_char (g : Good N rE rF) : ∀ (vs : List V), ∀ c ∈ cellText N vs, cellChar c = true := by
  intro vs
  induction vs with
  | nil => intro c hc; cases hc
  | cons v vs ih =>
    intro c hc
    simp only [cellText, List.mem_append, List.mem_cons] at hc
    rcases hc with h | rfl | rfl | h
    · rcases padL_mem h with rfl | h
      · decide
      · exact (g.charF v c h).1
    · decide
    · decide
    · exact ih c h

theorem headLine_nl (g : Good N rE rF) {f : Frame V} (hp : Plain f) : '\n' ∉ headLine N f := by
  intro h
  unfold headLine at h
  simp only [List.mem_append] at h
  rcases h with h | h | h
  · revert h; decide
  · have := cellText_char g f.cell _ h
    revert this; decide
  · exact hp.title h

theorem takeWhile_all {p : Char → Bool} {a b : Str} (h : ∀ c ∈ a, p c = true) : (a ++ b).takeWhile p = a ++ b.takeWhile p := by
  induction a with
  | nil => rfl
  | cons c a ih =>
    rw [List.cons_append, List.takeWhile_cons_of_pos (h c List.mem_cons_self), ih fun x hx => h x (List.mem_cons_of_mem _ hx)]
    rfl

theorem splitWs_cellText (g : Good N rE rF) (vs : List V) (t : Str) : splitWs (cellText N vs ++ t) = vs.map N.fmtF ++ splitWs t := by
  induction vs with
  | nil => rfl
  | cons v vs ih =>
    have hws : ∀ v, ∀ c ∈ N.fmtF v, isWs c = false := fun v c hc => cellChar_not_ws (g.charF v c hc).1 (g.charF v c hc).2
    simp only [cellText, List.append_assoc, List.cons_append, List.map_cons]
    rw [splitWs_padL (hws v) (g.neF v) (head_blank _)]
    congr 1

theorem rdAll_map (g : Good N rE rF) (vs : List V) : rdAll N (vs.map N.fmtF) = some (vs.map rF) := by
  induction vs with
  | nil => rfl
  | cons v vs ih => simp only [List.map_cons, rdAll, g.readF, ih]

theorem readCell_head (g : Good N rE rF) {f : Frame V} (hp : Plain f) (t : Str) : readCell N (headLine N f ++ t) = some (some (f.cell.map rF)) := by
  have hs : cellSearch (headLine N f ++ t) = some ((cellText N f.cell ++ (f.title ++ t)).takeWhile cellChar) := by
    unfold headLine kHead
    rw [List.append_assoc, List.append_assoc]
    rfl
  unfold readCell
  rw [hs]
  simp only
  rw [takeWhile_all (cellText_char g f.cell), splitWs_cellText g, List.take_append]
  have h6 : (f.cell.map N.fmtF).length = 6 := by rw [List.length_map]; exact hp.cell
  rw [List.take_of_length_le (by omega), h6]
  simp only [Nat.sub_self, List.take_zero, List.append_nil, rdAll_map g, List.length_map, hp.cell, if_true]

/-- `int()` of a count line. -/
theorem parseInt_count (n : Nat) : parseInt (showNat n ++ ['\n']) = some (n : Int) := by
  have h : strip (showNat n ++ ['\n']) = strip (showNat n) := by
    have := stripP_append_pad (p := isWs) [] (showNat n) ['\n'] (by simp) (by decide)
    simpa [strip] using this
  have h2 := parseInt_showInt (n : Int)
  unfold parseInt at h2 ⊢
  rw [h]
  exact h2

theorem showNat_nl (n : Nat) : '\n' ∉ showNat n := fun h => by
  have := showNat_digits n _ h
  revert this; decide

theorem lines_frame (g : Good N rE rF) {f : Frame V} (hp : Plain f) (t : Str) :
    lines (writeFrame N f ++ t) = (showNat f.atoms.length ++ ['\n']) :: (headLine N f ++ ['\n']) :: ((f.atoms.map fun a => atomLine N a ++ ['\n']) ++ lines t) := by
  unfold writeFrame
  simp only [List.append_assoc, List.cons_append]
  rw [lines_line (showNat_nl _), lines_line (headLine_nl g hp)]
  congr 2
  exact lines_flat (atomLine N) f.atoms (fun a ha => atomLine_nl g a (hp.names a ha).2) t

theorem readAtoms_all (g : Good N rE rF) (as : List (Str × V × V × V)) (hn : ∀ a ∈ as, a.1 ≠ [] ∧ ∀ c ∈ a.1, isWs c = false) (r : List Str) :
    readAtoms N as.length ((as.map fun a => atomLine N a ++ ['\n']) ++ r) = some (as.map fun a => (a.1.take 4, rE a.2.1, rE a.2.2.1, rE a.2.2.2), r) := by
  induction as with
  | nil => rfl
  | cons a as ih =>
    have h1 := readAtom_line g a (hn a List.mem_cons_self) ['\n'] (by intro c hc; simp only [List.head?_cons, Option.some.injEq] at hc; subst hc; decide)
    have h2 := ih fun b hb => hn b (List.mem_cons_of_mem _ hb)
    simp only [List.map_cons, List.cons_append, List.length_cons, readAtoms, h1, h2]

theorem readXyz_frame (g : Good N rE rF) {f : Frame V} (hp : Plain f) (t : Str) : readXyz N (lines (writeFrame N f ++ t)) = .ok (seen N rE rF f) (lines t) := by
  have hpos : f.atoms.length ≠ 0 := fun e => hp.atoms (List.length_eq_zero_iff.1 e)
  rw [lines_frame g hp]
  simp only [readXyz, parseInt_count, readCell_head g hp]
  rw [if_neg (by omega), if_neg (by intro h; exact hpos (by have := h.1; omega)), Int.toNat_natCast, readAtoms_all g f.atoms hp.names]
  rfl

theorem iterFile_eof {ls : List Str} (h : readXyz N ls = .eof) : iterFile N ls = ([], true) := by
  rw [iterFile]; split <;> simp_all
theorem iterFile_err {ls : List Str} (h : readXyz N ls = .err) : iterFile N ls = ([], false) := by
  rw [iterFile]; split <;> simp_all
theorem iterFile_ok {ls r : List Str} {f : Got V} (h : readXyz N ls = .ok f r) : iterFile N ls = (f :: (iterFile N r).1, (iterFile N r).2) := by
  rw [iterFile]; split <;> simp_all

theorem iterFile_all (g : Good N rE rF) : ∀ (fs : List (Frame V)), (∀ f ∈ fs, Plain f) → ∀ t, iterFile N (lines (writeAll N fs ++ t)) =
    (fs.map (seen N rE rF) ++ (iterFile N (lines t)).1, (iterFile N (lines t)).2) := by
  intro fs
  induction fs with
  | nil => intro _ t; rfl
  | cons f fs ih =>
    intro h t
    have h1 := readXyz_frame g (h f List.mem_cons_self) (writeAll N fs ++ t)
    have h2 := ih (fun x hx => h x (List.mem_cons_of_mem _ hx)) t
    have e : writeAll N (f :: fs) ++ t = writeFrame N f ++ (writeAll N fs ++ t) := by simp [writeAll, List.flatMap_cons]
    rw [e, iterFile_ok h1, h2]
    rfl

theorem readAtoms_short : ∀ (n : Nat) (ls : List Str) (as : List (Str × V × V × V)) (r : List Str), ls.length ≤ n → readAtoms N n ls = some (as, r) → r = [] := by
  intro n
  induction n with
  | zero =>
    intro ls as r hl h
    simp only [readAtoms, Option.some.injEq, Prod.mk.injEq] at h
    rw [← h.2]
    exact List.length_eq_zero_iff.1 (by omega)
  | succ n ih =>
    intro ls as r hl h
    cases ls with
    | nil => simp only [readAtoms, Option.some.injEq, Prod.mk.injEq] at h; exact h.2.symm
    | cons l ls =>
      simp only [readAtoms] at h
      split at h
      · rename_i h2
        simp only [Option.some.injEq, Prod.mk.injEq] at h
        have := ih ls _ _ (by simp only [List.length_cons] at hl; omega) h2
        rw [← h.2, this]
      · cases h

theorem readAtoms_cut (g : Good N rE rF) (as bs : List (Str × V × V × V)) (hn : ∀ a ∈ as, a.1 ≠ [] ∧ ∀ c ∈ a.1, isWs c = false) :
    readAtoms N (as.length + bs.length) (as.map fun a => atomLine N a ++ ['\n']) =
      some ((as.map fun a => (a.1.take 4, rE a.2.1, rE a.2.2.1, rE a.2.2.2)) ++ List.replicate bs.length ([], N.zero, N.zero, N.zero), []) := by
  induction as with
  | nil =>
    cases bs with
    | nil => rfl
    | cons b bs => simp [readAtoms]
  | cons a as ih =>
    have h1 := readAtom_line g a (hn a List.mem_cons_self) ['\n'] (by intro c hc; simp only [List.head?_cons, Option.some.injEq] at hc; subst hc; decide)
    have h2 := ih fun b hb => hn b (List.mem_cons_of_mem _ hb)
    have e : (a :: as).length + bs.length = (as.length + bs.length) + 1 := by simp only [List.length_cons]; omega
    rw [e]
    simp only [List.map_cons, readAtoms, h1, h2, List.cons_append]

end Verif.Traj
