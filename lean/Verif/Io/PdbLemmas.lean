import Verif.Io.Pdb
import Verif.Io.TrajLemmas
import Verif.Io.ValuesLemmas
namespace Verif.Pdb
open Verif.Text Verif.Traj Verif.Values

theorem padL_length {n : Nat} {s : Str} (h : s.length ≤ n) : (padL n s).length = n := by
  simp only [padL, List.length_append, List.length_replicate]; omega

theorem digitsVal_append (a b : Str) : digitsVal (a ++ b) = digitsVal a * 10 ^ b.length + digitsVal b := by
  have : ∀ (b : Str) (x : Nat), b.foldl (fun x c => x * 10 + digitVal c) x = x * 10 ^ b.length + digitsVal b := by
    intro b
    induction b with
    | nil => intro x; simp [digitsVal]
    | cons c b ih =>
      intro x
      simp only [digitsVal, List.foldl_cons, List.length_cons]
      rw [ih, ih (0 * 10 + digitVal c)]
      have h1 : 10 ^ (b.length + 1) = 10 ^ b.length * 10 := Nat.pow_succ ..
      rw [h1, Nat.zero_mul, Nat.zero_add, Nat.add_mul, Nat.mul_assoc, Nat.mul_comm 10, Nat.add_assoc]
  unfold digitsVal
  rw [List.foldl_append, this]
  rfl

theorem showFix_chars (k : Nat) (x : Fix) : ∀ c ∈ showFix k x, isDigit c = true ∨ c = '.' ∨ c = '-' := by
  intro c hc
  simp only [showFix, List.append_assoc, List.mem_append, List.mem_cons] at hc
  rcases hc with h | h | h | h
  · split at h
    · exact .inr (.inr (List.mem_singleton.1 h))
    · cases h
  · exact .inl (showNat_digits _ c h)
  · exact .inr (.inl h)
  · exact .inl (padNat_digits _ _ c h)

theorem showFix_ws {k : Nat} {x : Fix} : ∀ c ∈ showFix k x, isWs c = false := by
  intro c hc
  rcases showFix_chars k x c hc with h | rfl | rfl
  · exact isDigit_not_ws h
  all_goals rfl

theorem readUFloat_fix (k : Nat) (m : Nat) : readUFloat (showNat (m / 10 ^ k) ++ '.' :: padNat k (m % 10 ^ k)) = some (m, -(k : Int)) := by
  have t1 := takeWhile_digits (a := showNat (m / 10 ^ k)) (padNat k (m % 10 ^ k)) (showNat_digits _) (c := '.') rfl
  have hd := padNat_digits k (m % 10 ^ k)
  have t2 : (padNat k (m % 10 ^ k)).takeWhile isDigit = padNat k (m % 10 ^ k) := by
    have := takeWhile_all (p := isDigit) (a := padNat k (m % 10 ^ k)) (b := []) hd
    simpa using this
  have t3 : (padNat k (m % 10 ^ k)).dropWhile isDigit = [] := by
    have := List.takeWhile_append_dropWhile (p := isDigit) (l := padNat k (m % 10 ^ k))
    rw [t2] at this
    exact List.append_cancel_left (by rw [this, List.append_nil])
  unfold readUFloat
  rw [t1.1, t1.2]
  simp only
  rw [t2, t3, if_neg (fun h => showNat_ne_nil _ h.1)]
  simp only [readExp, Option.map_some, padNat_length, Option.some.injEq, Prod.mk.injEq]
  refine ⟨?_, by omega⟩
  rw [digitsVal_append, padNat_length, digitsVal_padNat]
  have : digitsVal (showNat (m / 10 ^ k)) = m / 10 ^ k := foldl_showNat _
  rw [this, Nat.mod_mod]
  exact Nat.div_add_mod' m (10 ^ k)

theorem readFloat_fix (k : Nat) (x : Fix) {a b : Str} (ha : ∀ c ∈ a, isWs c = true) (hb : ∀ c ∈ b, isWs c = true) :
    readFloat (a ++ showFix k x ++ b) = some (x.1, x.2, -(k : Int)) := by
  have hs : strip (a ++ showFix k x ++ b) = showFix k x := by
    have := stripP_append_pad (p := isWs) a (showFix k x) b ha hb
    rw [strip, this]
    exact strip_self_of_all showFix_ws
  unfold readFloat
  rw [hs]
  unfold showFix
  cases hn : x.1 with
  | true => simp [readUFloat_fix]
  | false =>
    simp only [Bool.false_eq_true, if_false, List.nil_append]
    have hu := readUFloat_fix k x.2
    have hd := showNat_digits (x.2 / 10 ^ k)
    match hq : showNat (x.2 / 10 ^ k) with
    | [] => exact absurd hq (showNat_ne_nil _)
    | c :: r =>
      rw [hq] at hd hu
      have hc := hd c List.mem_cons_self
      rw [List.cons_append] at hu ⊢
      split
      · rename_i h
        simp only [List.cons.injEq] at h
        rw [h.1] at hc; cases hc
      · rename_i h
        simp only [List.cons.injEq] at h
        rw [h.1] at hc; cases hc
      · rw [hu]; rfl

theorem padL_succ {n : Nat} {s : Str} (h : s.length ≤ n) : padL (n + 1) s = ' ' :: padL n s := by
  unfold padL
  rw [Nat.sub_add_comm h, List.replicate_succ, List.cons_append]

theorem replicate_ws (n : Nat) : ∀ c ∈ List.replicate n ' ', isWs c = true := by
  intro c hc; rw [(List.mem_replicate.1 hc).2]; rfl

theorem readFloat_padL (n k : Nat) (x : Fix) {b : Str} (hb : ∀ c ∈ b, isWs c = true) : readFloat (padL n (showFix k x) ++ b) = some (x.1, x.2, -(k : Int)) :=
  readFloat_fix k x (replicate_ws _) hb

/-! ### slices -/

theorem slice_skip {p s : Str} {a b : Nat} (h : p.length ≤ a) : slice a b (p ++ s) = slice (a - p.length) (b - p.length) s := by
  unfold slice
  rw [List.drop_append, List.drop_of_length_le h, List.nil_append]
  congr 1
  omega

theorem slice_here {p s : Str} {n : Nat} (h : p.length = n) : slice 0 n (p ++ s) = p := by
  subst h; simp [slice]

theorem field_length {n k : Nat} {x : Fix} (h : (showFix k x).length ≤ n) : (field n k x).length = n := padL_length h

/-- The columns before the numbers. -/
def atomHead (i : Nat) (a : Atom) : Str :=
  "ATOM  ".toList ++ (padL 5 (showNat i) ++ ' ' :: (padL 4 a.name ++ " ".toList ++ "  1".toList ++ ' ' :: (" ".toList ++ "   1".toList ++ " ".toList ++ List.replicate 3 ' ')))

theorem atomLine_split (i : Nat) (a : Atom) (r : Str) : atomLine 3 i a ++ r =
    atomHead i a ++ (field 8 3 a.x ++ (field 8 3 a.y ++ (field 8 3 a.z ++ ("  0.00  0.00             0".toList ++ r)))) := by
  unfold atomLine atomHead
  simp only [List.append_assoc, List.cons_append, String.toList]
  rfl

theorem atomHead_length {i : Nat} {a : Atom} (hi : (showNat i).length ≤ 5) (hn : a.name.length ≤ 4) : (atomHead i a).length = 30 := by
  unfold atomHead
  simp only [List.length_append, List.length_cons, padL_length hi, padL_length hn, List.length_replicate]
  rfl

theorem list8 {l : Str} (h : l.length = 8) : ∃ a b c d e f g i, l = [a, b, c, d, e, f, g, i] := by
  match l, h with
  | [a, b, c, d, e, f, g, i], _ => exact ⟨a, b, c, d, e, f, g, i, rfl⟩

theorem slice_name {i : Nat} {a : Atom} (hi : (showNat i).length ≤ 5) (hn : a.name.length ≤ 4) (r : Str) :
    slice 12 16 (atomHead i a ++ r) = padL 4 a.name := by
  have h6 : "ATOM  ".toList.length = 6 := rfl
  have h5 := padL_length hi
  have h4 := padL_length hn
  unfold atomHead
  rw [List.append_assoc, slice_skip (by rw [h6]; omega), List.append_assoc, slice_skip (by rw [h5, h6]; omega), h5, h6]
  simp only [List.cons_append, List.append_assoc]
  exact (slice_skip (p := [' ']) (a := 1) (b := 5) (by simp)).trans (slice_here h4)

/-- All three numbers fill at most their eight columns. -/
def Fits (a : Atom) : Prop := (showFix 3 a.x).length ≤ 8 ∧ (showFix 3 a.y).length ≤ 8 ∧ (showFix 3 a.z).length ≤ 8

/-- A name that survives the four columns. -/
def NameOk (a : Atom) : Prop := a.name.length ≤ 4 ∧ strip a.name = a.name ∧ '\n' ∉ a.name

theorem strip_padL {n : Nat} {s : Str} (h : strip s = s) : strip (padL n s) = s := by
  have := stripP_append_pad (p := isWs) (List.replicate (n - s.length) ' ') s [] (replicate_ws _) (by simp)
  rw [List.append_nil] at this
  unfold padL strip
  rw [this]; exact h

theorem readAtom_line {i : Nat} {a : Atom} (hi : (showNat i).length ≤ 5) (hn : NameOk a) (hf : Fits a) :
    readAtom (atomLine 3 i a ++ ['\n']) =
      match readFloat ((field 8 3 a.x).drop 1 ++ (field 8 3 a.y).take 1), readFloat ((field 8 3 a.y).drop 1 ++ (field 8 3 a.z).take 1),
          readFloat ((field 8 3 a.z).drop 1 ++ [' ']) with
      | some x, some y, some z => some ⟨a.name, x, y, z⟩
      | _, _, _ => none := by
  have hl := atomHead_length (a := a) hi hn.1
  unfold readAtom
  rw [atomLine_split, slice_name hi hn.1, strip_padL hn.2.1, List.take_of_length_le hn.1]
  rw [slice_skip (a := 31) (p := atomHead i a) (by rw [hl]; omega), slice_skip (a := 39) (p := atomHead i a) (by rw [hl]; omega),
    slice_skip (a := 47) (p := atomHead i a) (by rw [hl]; omega), hl]
  obtain ⟨a1, a2, a3, a4, a5, a6, a7, a8, ha⟩ := list8 (field_length hf.1)
  obtain ⟨b1, b2, b3, b4, b5, b6, b7, b8, hb⟩ := list8 (field_length hf.2.1)
  obtain ⟨c1, c2, c3, c4, c5, c6, c7, c8, hc⟩ := list8 (field_length hf.2.2)
  rw [ha, hb, hc]
  rfl

/-- All three numbers leave a blank column in front. -/
def Fits7 (a : Atom) : Prop := (showFix 3 a.x).length ≤ 7 ∧ (showFix 3 a.y).length ≤ 7 ∧ (showFix 3 a.z).length ≤ 7

def num (k : Nat) (x : Fix) : Num := (x.1, x.2, -(k : Int))

/-- The atom with its printed digits. -/
def gotAtom (a : Atom) : GotAtom := ⟨a.name, num 3 a.x, num 3 a.y, num 3 a.z⟩

theorem readAtom_good {i : Nat} {a : Atom} (hi : (showNat i).length ≤ 5) (hn : NameOk a) (hf : Fits7 a) :
    readAtom (atomLine 3 i a ++ ['\n']) = some (gotAtom a) := by
  obtain ⟨hx, hy, hz⟩ := hf
  rw [readAtom_line hi hn ⟨by omega, by omega, by omega⟩]
  unfold field
  rw [padL_succ hx, padL_succ hy, padL_succ hz]
  simp only [List.drop_succ_cons, List.drop_zero, List.take_succ_cons, List.take_zero]
  rw [readFloat_padL 7 3 a.x (by decide), readFloat_padL 7 3 a.y (by decide), readFloat_padL 7 3 a.z (by decide)]
  rfl

/-! ### lines -/

theorem field_nl {n k : Nat} {x : Fix} : '\n' ∉ field n k x := by
  intro h
  rcases padL_mem h with h | h
  · exact absurd h (by decide)
  · exact absurd (showFix_ws _ h) (by decide)

theorem padL_nl {n : Nat} {s : Str} (h : '\n' ∉ s) : '\n' ∉ padL n s := by
  intro h'
  rcases padL_mem h' with h' | h'
  · exact absurd h' (by decide)
  · exact h h'

theorem atomLine_nl {g i : Nat} {a : Atom} (hn : '\n' ∉ a.name) : '\n' ∉ atomLine g i a := by
  unfold atomLine
  simp only [List.mem_append, List.mem_cons, not_or]
  refine ⟨by decide, padL_nl (showNat_nl _), by decide, padL_nl hn, by decide, by decide, by decide, by decide, by decide, by decide, ?_,
    field_nl, field_nl, field_nl, by decide, by decide⟩
  intro h
  exact absurd (List.mem_replicate.1 h).2 (by decide)

theorem crystLine_nl {c : Cell Fix} : '\n' ∉ crystLine c := by
  unfold crystLine
  simp only [List.mem_append, not_or]
  exact ⟨by decide, field_nl, field_nl, field_nl, field_nl, field_nl, field_nl, by decide⟩

theorem titleLine_nl {t : Str} (h : '\n' ∉ t) : '\n' ∉ titleLine t := by
  unfold titleLine
  simp only [List.mem_append, not_or]
  exact ⟨by decide, padL_nl h⟩

theorem strip_atomLine {g i : Nat} {a : Atom} (r : Str) : ∃ s, strip (atomLine g i a ++ r) = 'A' :: s := by
  have hcons : atomLine g i a ++ r = 'A' :: ((atomLine g i a ++ r).drop 1) := rfl
  rw [hcons]
  generalize (atomLine g i a ++ r).drop 1 = t
  have h1 : lstripP isWs ('A' :: t) = 'A' :: t := by
    unfold lstripP
    exact dropWhile_eq_self fun c hc => by simp at hc; subst hc; rfl
  have h2 : rstripP isWs ('A' :: t) ≠ [] := rstripP_ne_nil List.mem_cons_self (by decide)
  unfold strip stripP
  obtain ⟨w, hw, _⟩ := rstripP_decomp isWs ('A' :: t)
  rw [h1]
  match hr : rstripP isWs ('A' :: t) with
  | [] => exact absurd hr h2
  | c :: s =>
    rw [hr] at hw
    simp only [List.cons_append, List.cons.injEq] at hw
    exact ⟨s, by rw [hw.1]⟩

/-- The atoms that fit, with serial numbers from `i` on. -/
def AtomsOk : Nat → List Atom → Prop
  | _, [] => True
  | i, a :: as => (showNat i).length ≤ 5 ∧ NameOk a ∧ Fits7 a ∧ AtomsOk (i + 1) as

theorem readBody_good : ∀ (as : List Atom) (i : Nat), AtomsOk i as → ∀ t, readBody (lines (atomLines 3 i as ++ (kEnd ++ '\n' :: t))) = some (as.map gotAtom, lines t) := by
  intro as
  induction as with
  | nil =>
    intro i _ t
    rw [atomLines, List.nil_append, lines_line (by decide)]
    simp only [readBody]
    rw [if_pos (.inr (by decide))]
    rfl
  | cons a as ih =>
    intro i h t
    obtain ⟨h1, h2, h3, h4⟩ := h
    rw [atomLines, List.append_assoc, List.cons_append, lines_line (atomLine_nl h2.2.2)]
    simp only [readBody]
    obtain ⟨s, hs⟩ := strip_atomLine (g := 3) (i := i) (a := a) ['\n']
    have hne : ¬ (strip (atomLine 3 i a ++ ['\n']) = [] ∨ strip (atomLine 3 i a ++ ['\n']) = kEnd) := by
      rw [hs]
      rintro (h | h)
      · cases h
      · exact absurd (List.cons.inj h).1 (by decide)
    rw [if_neg hne, readAtom_good h1 h2 h3, ih (i + 1) h4 t]
    rfl

def CellFits (c : Cell Fix) : Prop :=
  (showFix 3 c.a).length ≤ 9 ∧ (showFix 3 c.b).length ≤ 9 ∧ (showFix 3 c.c).length ≤ 9 ∧
  (showFix 2 c.alpha).length ≤ 7 ∧ (showFix 2 c.beta).length ≤ 7 ∧ (showFix 2 c.gamma).length ≤ 7

def gotCell (c : Cell Fix) : Cell Num := ⟨num 3 c.a, num 3 c.b, num 3 c.c, num 2 c.alpha, num 2 c.beta, num 2 c.gamma⟩

theorem readFloat_field (n k : Nat) (x : Fix) : readFloat (field n k x) = some (num k x) := by
  have := readFloat_padL n k x (b := []) (by simp)
  rw [List.append_nil] at this
  exact this

theorem readCell_good {c : Cell Fix} (h : CellFits c) (r : Str) : readCell (crystLine c ++ r) = some (gotCell c) := by
  obtain ⟨h1, h2, h3, h4, h5, h6⟩ := h
  have l1 := field_length h1
  have l2 := field_length h2
  have l3 := field_length h3
  have l4 := field_length h4
  have l5 := field_length h5
  have l6 := field_length h6
  have l0 : "CRYST1".toList.length = 6 := rfl
  unfold readCell crystLine
  simp only [List.append_assoc]
  have e1 : ∀ s, slice 6 15 ("CRYST1".toList ++ (field 9 3 c.a ++ s)) = field 9 3 c.a := fun s => by
    rw [slice_skip (by omega), l0]; exact slice_here l1
  have e2 : ∀ s, slice 15 24 ("CRYST1".toList ++ (field 9 3 c.a ++ (field 9 3 c.b ++ s))) = field 9 3 c.b := fun s => by
    rw [slice_skip (by omega), l0, slice_skip (by omega), l1]; exact slice_here l2
  have e3 : ∀ s, slice 24 33 ("CRYST1".toList ++ (field 9 3 c.a ++ (field 9 3 c.b ++ (field 9 3 c.c ++ s)))) = field 9 3 c.c := fun s => by
    rw [slice_skip (by omega), l0, slice_skip (by omega), l1, slice_skip (by omega), l2]; exact slice_here l3
  have e4 : ∀ s, slice 33 40 ("CRYST1".toList ++ (field 9 3 c.a ++ (field 9 3 c.b ++ (field 9 3 c.c ++ (field 7 2 c.alpha ++ s))))) = field 7 2 c.alpha := fun s => by
    rw [slice_skip (by omega), l0, slice_skip (by omega), l1, slice_skip (by omega), l2, slice_skip (by omega), l3]; exact slice_here l4
  have e5 : ∀ s, slice 40 47 ("CRYST1".toList ++ (field 9 3 c.a ++ (field 9 3 c.b ++ (field 9 3 c.c ++ (field 7 2 c.alpha ++ (field 7 2 c.beta ++ s)))))) = field 7 2 c.beta := fun s => by
    rw [slice_skip (by omega), l0, slice_skip (by omega), l1, slice_skip (by omega), l2, slice_skip (by omega), l3, slice_skip (by omega), l4]; exact slice_here l5
  have e6 : ∀ s, slice 47 54 ("CRYST1".toList ++ (field 9 3 c.a ++ (field 9 3 c.b ++ (field 9 3 c.c ++ (field 7 2 c.alpha ++ (field 7 2 c.beta ++ (field 7 2 c.gamma ++ s))))))) = field 7 2 c.gamma := fun s => by
    rw [slice_skip (by omega), l0, slice_skip (by omega), l1, slice_skip (by omega), l2, slice_skip (by omega), l3, slice_skip (by omega), l4, slice_skip (by omega), l5]; exact slice_here l6
  rw [e1, e2, e3, e4, e5, e6]
  simp only [readFloat_field]
  rfl

theorem hasInfix_mem {p s : Str} (h : hasInfix p s = true) : ∀ c ∈ p, c ∈ s := by
  induction s with
  | nil => intro c hc; simp only [hasInfix, List.isEmpty_iff] at h; rw [h] at hc; cases hc
  | cons d s ih =>
    intro c hc
    simp only [hasInfix, Bool.or_eq_true] at h
    rcases h with h | h
    · obtain ⟨t, ht⟩ := List.isPrefixOf_iff_prefix.1 h
      rw [← ht]
      exact List.mem_append_left _ hc
    · exact List.mem_cons_of_mem _ (ih h c hc)

theorem cryst_no_title (c : Cell Fix) : hasInfix "TITLE".toList (crystLine c ++ ['\n']) = false := by
  rw [Bool.eq_false_iff]
  intro h
  have hI := hasInfix_mem h 'I' (by decide)
  have hf : ∀ n k x, 'I' ∉ field n k x := by
    intro n k x h
    rcases padL_mem h with h | h
    · exact absurd h (by decide)
    · rcases showFix_chars _ _ _ h with h | h | h
      · exact absurd h (by decide)
      · exact absurd h (by decide)
      · exact absurd h (by decide)
  unfold crystLine at hI
  simp only [List.mem_append] at hI
  rcases hI with (h | h | h | h | h | h | h | h) | h
  · exact absurd h (by decide)
  · exact hf _ _ _ h
  · exact hf _ _ _ h
  · exact hf _ _ _ h
  · exact hf _ _ _ h
  · exact hf _ _ _ h
  · exact hf _ _ _ h
  · exact absurd h (by decide)
  · exact absurd h (by decide)

/-- A frame that fits the columns. -/
def FrameOk (f : Frame) : Prop := '\n' ∉ f.title ∧ CellFits f.cell ∧ AtomsOk 1 f.atoms

/-- The frame with its printed digits; the comment line is the title line with default units added. -/
def gotFrame (f : Frame) : Got := ⟨comment (if f.title = [] then kDefault else titleLine f.title ++ ['\n']), gotCell f.cell, f.atoms.map gotAtom⟩

theorem readFrom_good {f : Frame} (h : FrameOk f) (c t : Str) :
    readFrom c (lines (crystLine f.cell ++ '\n' :: (atomLines 3 1 f.atoms ++ (kEnd ++ '\n' :: t)))) = .ok ⟨comment c, gotCell f.cell, f.atoms.map gotAtom⟩ (lines t) := by
  rw [lines_line crystLine_nl]
  simp only [readFrom]
  rw [readCell_good h.2.1, readBody_good _ _ h.2.2]

theorem readPdb_good {f : Frame} (h : FrameOk f) (t : Str) : readPdb (lines (writeFrame f ++ t)) = .ok (gotFrame f) (lines t) := by
  have hw : writeFrame f ++ t = (if f.title = [] then [] else titleLine f.title ++ ['\n']) ++ (crystLine f.cell ++ '\n' :: (atomLines 3 1 f.atoms ++ (kEnd ++ '\n' :: t))) := by
    unfold writeFrame
    simp only [List.append_assoc, List.cons_append, List.nil_append]
  rw [hw]
  unfold gotFrame
  by_cases ht : f.title = []
  · rw [if_pos ht, if_pos ht, List.nil_append]
    have := readFrom_good h kDefault t
    rw [lines_line crystLine_nl] at this ⊢
    simp only [readPdb]
    rw [if_neg (by rw [cryst_no_title]; decide)]
    exact this
  · rw [if_neg ht, if_neg ht, List.append_assoc, List.singleton_append, lines_line (titleLine_nl h.1)]
    simp only [readPdb]
    have hi : hasInfix "TITLE".toList (titleLine f.title ++ ['\n']) = true := rfl
    rw [if_pos hi]
    exact readFrom_good h _ t

theorem iterFile_eof {ls : List Str} (h : readPdb ls = .eof) : iterFile ls = ([], true) := by
  rw [iterFile]; split <;> simp_all
theorem iterFile_ok {ls r : List Str} {f : Got} (h : readPdb ls = .ok f r) : iterFile ls = (f :: (iterFile r).1, (iterFile r).2) := by
  rw [iterFile]; split <;> simp_all

theorem iterFile_all : ∀ (fs : List Frame), (∀ f ∈ fs, FrameOk f) → ∀ t, iterFile (lines (writeAll fs ++ t)) =
    (fs.map gotFrame ++ (iterFile (lines t)).1, (iterFile (lines t)).2) := by
  intro fs
  induction fs with
  | nil => intro _ t; rfl
  | cons f fs ih =>
    intro h t
    have e : writeAll (f :: fs) ++ t = writeFrame f ++ (writeAll fs ++ t) := by simp [writeAll, List.append_assoc]
    rw [e, iterFile_ok (readPdb_good (h f List.mem_cons_self) _), ih (fun g hg => h g (List.mem_cons_of_mem _ hg))]
    rfl

end Verif.Pdb
