import Verif.Io.PdbLemmas
import Mathlib.Data.List.Forall2
import Mathlib.Tactic.Linarith
import Mathlib.Tactic.NormNum
/-
C32. A PDB trajectory reads back with the values it was written with, to the printed decimals.

The reader takes the coordinates one column too far to the right. The property holds exactly for frames whose coordinates all print in at most
seven characters; for longer ones a sign or a leading digit is dropped.
-/
namespace Verif.Pdb
open Verif.Text Verif.Traj Verif.Values

/-- The number read from a text: `± m × 10^e`. -/
def value (x : Num) : Rat := (if x.1 then -1 else 1) * (if x.2.2 < 0 then (x.2.1 : Rat) / 10 ^ (-x.2.2).toNat else (x.2.1 : Rat) * 10 ^ x.2.2.toNat)

/-- The number that was printed with `k` decimals. -/
def printed (k : Nat) (x : Fix) : Rat := (if x.1 then -1 else 1) * ((x.2 : Rat) / 10 ^ k)

theorem value_num {k : Nat} (hk : 0 < k) (x : Fix) : value (num k x) = printed k x := by
  have h : (-(k : Int)) < 0 := by omega
  unfold value printed num
  rw [if_pos h]
  simp

/-- An atom was read with the printed values. -/
def SameAtom (a : Atom) (g : GotAtom) : Prop := g.name = a.name ∧ value g.x = printed 3 a.x ∧ value g.y = printed 3 a.y ∧ value g.z = printed 3 a.z

def SameCell (c : Cell Fix) (g : Cell Num) : Prop :=
  value g.a = printed 3 c.a ∧ value g.b = printed 3 c.b ∧ value g.c = printed 3 c.c ∧
  value g.alpha = printed 2 c.alpha ∧ value g.beta = printed 2 c.beta ∧ value g.gamma = printed 2 c.gamma

/-- A frame was read with the printed values. -/
def SameFrame (f : Frame) (g : Got) : Prop := SameCell f.cell g.cell ∧ List.Forall₂ SameAtom f.atoms g.atoms

theorem sameAtom_got (a : Atom) : SameAtom a (gotAtom a) :=
  ⟨rfl, value_num (by omega) _, value_num (by omega) _, value_num (by omega) _⟩

/-- **C32, partial.** Trajectories whose frames fit (coordinates of at most seven characters, cell lengths of at most nine, angles of at most
seven, names of at most four characters, serial numbers of at most five digits) read back frame by frame, atom by atom. -/
theorem pdb_round_trip_partial (fs : List Frame) (h : ∀ f ∈ fs, FrameOk f) :
    ∃ gs, iterFile (lines (writeAll fs)) = (gs, true) ∧ List.Forall₂ SameFrame fs gs := by
  refine ⟨fs.map gotFrame, ?_, ?_⟩
  · have := iterFile_all fs h []
    rw [List.append_nil] at this
    rw [this, iterFile_eof (ls := lines []) rfl, List.append_nil]
  · have : ∀ fs : List Frame, List.Forall₂ SameFrame fs (fs.map gotFrame) := by
      intro fs
      induction fs with
      | nil => exact .nil
      | cons f fs ih =>
        refine .cons ⟨⟨value_num (by omega) _, value_num (by omega) _, value_num (by omega) _, value_num (by omega) _, value_num (by omega) _, value_num (by omega) _⟩, ?_⟩ ih
        show List.Forall₂ SameAtom f.atoms (f.atoms.map gotAtom)
        generalize f.atoms = as
        induction as with
        | nil => exact .nil
        | cons a as ih => exact .cons (sameAtom_got a) ih
    exact this fs

/-! ### longer coordinates -/

theorem showNat_length_ge : ∀ (k n : Nat), (showNat n).length = k + 2 → 10 ^ (k + 1) ≤ n := by
  intro k
  induction k with
  | zero =>
    intro n h
    rcases Nat.lt_or_ge n 10 with hn | hn
    · rw [showNat_lt hn] at h; cases h
    · exact hn
  | succ k ih =>
    intro n h
    rcases Nat.lt_or_ge n 10 with hn | hn
    · rw [showNat_lt hn] at h; cases h
    · rw [showNat_ge (by omega)] at h
      have := ih (n / 10) (by simpa using h)
      have e : 10 ^ (k + 1 + 1) = 10 ^ (k + 1) * 10 := Nat.pow_succ ..
      omega

theorem digitVal_le {c : Char} (h : isDigit c = true) : digitVal c ≤ 9 := by
  simp only [isDigit, digitVal, Bool.and_eq_true, decide_eq_true_eq] at h ⊢
  omega

theorem digitsVal_lt {s : Str} (h : ∀ c ∈ s, isDigit c = true) : digitsVal s < 10 ^ s.length := by
  induction s with
  | nil => simp [digitsVal]
  | cons c s ih =>
    have h1 := ih fun d hd => h d (List.mem_cons_of_mem _ hd)
    have h2 := digitVal_le (h c List.mem_cons_self)
    have h3 := digitsVal_append [c] s
    have h4 : digitsVal [c] = digitVal c := by simp [digitsVal]
    have e : 10 ^ (s.length + 1) = 10 ^ s.length * 10 := Nat.pow_succ ..
    rw [List.singleton_append, h4] at h3
    have h5 : digitVal c * 10 ^ s.length ≤ 9 * 10 ^ s.length := Nat.mul_le_mul_right _ h2
    simp only [List.length_cons]
    omega

/-- Three digits, a point, three digits and one more character read as a nonnegative number below 1000, if at all. -/
theorem short_text {d1 d2 d3 e1 e2 e3 c : Char} (hd : ∀ x ∈ [d1, d2, d3], isDigit x = true) (he : ∀ x ∈ [e1, e2, e3], isDigit x = true) {x : Num}
    (h : readFloat [d1, d2, d3, '.', e1, e2, e3, c] = some x) : x.1 = false ∧ value x < 1000 := by
  have w1 := isDigit_not_ws (hd d1 (by simp))
  have w7 := isDigit_not_ws (he e3 (by simp))
  have hu : ∀ r : Str, (r = [] ∨ r = [c]) → ∀ y, readUFloat (d1 :: d2 :: d3 :: '.' :: e1 :: e2 :: e3 :: r) = some y → value (false, y) < 1000 := by
    intro r hr y hy
    have t1 := takeWhile_digits (a := [d1, d2, d3]) (e1 :: e2 :: e3 :: r) hd (c := '.') rfl
    simp only [List.cons_append, List.nil_append] at t1
    unfold readUFloat at hy
    rw [t1.1, t1.2] at hy
    simp only [reduceCtorEq, false_and, if_false] at hy
    have h1 := he e1 (by simp)
    have h2 := he e2 (by simp)
    have h3 := he e3 (by simp)
    have key : ∀ b : Str, (∀ x ∈ b, isDigit x = true) → b ≠ [] → value (false, digitsVal ([d1, d2, d3] ++ b), (0 : Int) - b.length) < 1000 := by
      intro b hb hne
      have hl := digitsVal_lt (s := [d1, d2, d3] ++ b) (by
        intro x hx
        rcases List.mem_append.1 hx with h | h
        · exact hd x h
        · exact hb x h)
      have hpos : 0 < b.length := List.length_pos_iff.2 hne
      unfold value
      simp only [Bool.false_eq_true, if_false, one_mul]
      rw [if_pos (by omega)]
      have e : (-((0 : Int) - b.length)).toNat = b.length := by omega
      rw [e, div_lt_iff₀ (by positivity)]
      have e2 : 10 ^ ([d1, d2, d3] ++ b).length = 1000 * 10 ^ b.length := by
        simp only [List.length_append, List.length_cons, List.length_nil]
        rw [Nat.add_comm, Nat.pow_add, Nat.mul_comm]
      rw [e2] at hl
      exact_mod_cast hl
    rcases hr with rfl | rfl
    · simp only [List.takeWhile_cons, List.dropWhile_cons, h1, h2, h3, if_true, List.takeWhile_nil, List.dropWhile_nil, readExp, Option.map_some, Option.some.injEq] at hy
      rw [← hy]
      exact key [e1, e2, e3] he (by simp)
    · cases hc : isDigit c with
      | true =>
        simp only [List.takeWhile_cons, List.dropWhile_cons, h1, h2, h3, hc, if_true, List.takeWhile_nil, List.dropWhile_nil, readExp, Option.map_some, Option.some.injEq] at hy
        rw [← hy]
        refine key [e1, e2, e3, c] ?_ (by simp)
        intro x hx
        simp only [List.mem_cons, List.not_mem_nil, or_false] at hx
        rcases hx with rfl | rfl | rfl | rfl
        · exact h1
        · exact h2
        · exact h3
        · exact hc
      | false =>
        simp only [List.takeWhile_cons, List.dropWhile_cons, h1, h2, h3, hc, if_true, Bool.false_eq_true, if_false, readExp, ne_eq, not_true_eq_false, false_and, ite_self, Option.map_none] at hy
        cases hy
  have hfl : ∀ r : Str, (r = [] ∨ r = [c]) → strip [d1, d2, d3, '.', e1, e2, e3, c] = d1 :: d2 :: d3 :: '.' :: e1 :: e2 :: e3 :: r → x.1 = false ∧ value x < 1000 := by
    intro r hr hs
    unfold readFloat at h
    rw [hs] at h
    have hd1 := hd d1 (by simp)
    split at h
    · rename_i h'
      simp only [List.cons.injEq] at h'
      rw [h'.1] at hd1; cases hd1
    · rename_i h'
      simp only [List.cons.injEq] at h'
      rw [h'.1] at hd1; cases hd1
    · simp only [Option.map_eq_some_iff] at h
      obtain ⟨y, hy, rfl⟩ := h
      exact ⟨rfl, hu r hr y hy⟩
  cases hc : isWs c with
  | true =>
    refine hfl [] (.inl rfl) ?_
    have := stripP_append_pad (p := isWs) [] [d1, d2, d3, '.', e1, e2, e3] [c] (by simp) (by simpa using hc)
    rw [List.nil_append] at this
    unfold strip
    refine Eq.trans this ?_
    refine stripP_self ?_ ?_
    · intro x hx; simp at hx; rw [← hx]; exact w1
    · intro x hx; simp at hx; rw [← hx]; exact w7
  | false =>
    refine hfl [c] (.inr rfl) ?_
    refine stripP_self ?_ ?_
    · intro x hx; simp at hx; rw [← hx]; exact w1
    · intro x hx; simp at hx; rw [← hx]; exact hc

/-- A coordinate of eight characters is never read with its value, whatever the next column holds. -/
theorem long_text_wrong {v : Fix} (h8 : (showFix 3 v).length = 8) (c : Char) {x : Num} (h : readFloat ((field 8 3 v).drop 1 ++ [c]) = some x) :
    value x ≠ printed 3 v := by
  have hf : field 8 3 v = showFix 3 v := by
    unfold field padL
    rw [h8]; rfl
  rw [hf] at h
  have hp := padNat_length 3 (v.2 % 10 ^ 3)
  have hpd := padNat_digits 3 (v.2 % 10 ^ 3)
  have hq := showNat_digits (v.2 / 10 ^ 3)
  obtain ⟨neg, m⟩ := v
  simp only at *
  have hge := fun k => showNat_length_ge k (m / 10 ^ 3)
  unfold showFix at h h8
  simp only at h h8
  match hpe : padNat 3 (m % 10 ^ 3), hp with
  | [e1, e2, e3], _ =>
    rw [hpe] at h h8 hpd
    cases neg with
    | true =>
      simp only [if_true, List.length_append, List.length_cons, List.length_nil] at h8
      have hl : (showNat (m / 10 ^ 3)).length = 3 := by omega
      match hqe : showNat (m / 10 ^ 3), hl with
      | [d1, d2, d3], _ =>
        rw [hqe] at h hq
        have hm := hge 1 (by rw [hqe]; rfl)
        have h' : readFloat [d1, d2, d3, '.', e1, e2, e3, c] = some x := h
        obtain ⟨hneg, _⟩ := short_text hq hpd h'
        have h0 : 0 ≤ value x := by
          unfold value
          rw [hneg]
          simp only [Bool.false_eq_true, if_false, one_mul]
          split
          · exact div_nonneg (Nat.cast_nonneg _) (by positivity)
          · exact mul_nonneg (Nat.cast_nonneg _) (by positivity)
        have h1 : printed 3 (true, m) < 0 := by
          have : (0 : Rat) < m := by
            have : 0 < m := by omega
            exact_mod_cast this
          unfold printed
          simp only [if_true]
          have : (0 : Rat) < m / 10 ^ 3 := div_pos this (by positivity)
          linarith
        intro e
        rw [e] at h0
        linarith
    | false =>
      simp only [Bool.false_eq_true, if_false, List.nil_append, List.length_append, List.length_cons, List.length_nil] at h8 h
      have hl : (showNat (m / 10 ^ 3)).length = 4 := by omega
      match hqe : showNat (m / 10 ^ 3), hl with
      | [d0, d1, d2, d3], _ =>
        rw [hqe] at h hq
        have hm := hge 2 (by rw [hqe]; rfl)
        have h' : readFloat [d1, d2, d3, '.', e1, e2, e3, c] = some x := h
        obtain ⟨_, hlt⟩ := short_text (fun y hy => hq y (List.mem_cons_of_mem _ hy)) hpd h'
        have h1 : 1000 ≤ printed 3 (false, m) := by
          unfold printed
          simp only [Bool.false_eq_true, if_false, one_mul]
          rw [le_div_iff₀ (by positivity)]
          have : 1000 * 10 ^ 3 ≤ m := by omega
          exact_mod_cast this
        intro e
        rw [e] at hlt
        linarith

/-- **C32, what the reader does with one atom that fits the columns**: the values are right exactly when all three coordinates print in at most
seven characters, that is, lie above -100 and below 1000. -/
theorem atom_right_iff {i : Nat} {a : Atom} (hi : (showNat i).length ≤ 5) (hn : NameOk a) (hf : Fits a) :
    (∃ g, readAtom (atomLine 3 i a ++ ['\n']) = some g ∧ SameAtom a g) ↔ Fits7 a := by
  constructor
  · rintro ⟨g, hg, hs⟩
    rw [readAtom_line hi hn hf] at hg
    have one : ∀ {l : Str}, l.length = 8 → ∃ c, l.take 1 = [c] := by
      intro l hl
      obtain ⟨a1, _, _, _, _, _, _, _, rfl⟩ := list8 hl
      exact ⟨a1, rfl⟩
    obtain ⟨cy, hy⟩ := one (field_length hf.2.1)
    obtain ⟨cz, hz⟩ := one (field_length hf.2.2)
    rw [hy, hz] at hg
    split at hg
    · rename_i x y z h1 h2 h3
      simp only [Option.some.injEq] at hg
      subst hg
      obtain ⟨_, s1, s2, s3⟩ := hs
      refine ⟨?_, ?_, ?_⟩
      · have := hf.1
        rcases Nat.lt_or_ge (showFix 3 a.x).length 8 with h | h
        · omega
        · exact absurd s1 (long_text_wrong (by omega) cy h1)
      · have := hf.2.1
        rcases Nat.lt_or_ge (showFix 3 a.y).length 8 with h | h
        · omega
        · exact absurd s2 (long_text_wrong (by omega) cz h2)
      · have := hf.2.2
        rcases Nat.lt_or_ge (showFix 3 a.z).length 8 with h | h
        · omega
        · exact absurd s3 (long_text_wrong (by omega) ' ' h3)
    · cases hg
  · intro h7
    exact ⟨gotAtom a, readAtom_good hi hn h7, sameAtom_got a⟩

/-! ### cut files -/

theorem readBody_cut : ∀ (as : List Atom) (i : Nat), AtomsOk i as → readBody (lines (atomLines 3 i as)) = some (as.map gotAtom, []) := by
  intro as
  induction as with
  | nil => intro i _; rfl
  | cons a as ih =>
    intro i h
    obtain ⟨h1, h2, h3, h4⟩ := h
    rw [atomLines, lines_line (atomLine_nl h2.2.2)]
    simp only [readBody]
    obtain ⟨s, hs⟩ := strip_atomLine (g := 3) (i := i) (a := a) ['\n']
    have hne : ¬ (strip (atomLine 3 i a ++ ['\n']) = [] ∨ strip (atomLine 3 i a ++ ['\n']) = kEnd) := by
      rw [hs]
      rintro (h | h)
      · cases h
      · exact absurd (List.cons.inj h).1 (by decide)
    rw [if_neg hne, readAtom_good h1 h2 h3, ih (i + 1) h4]
    rfl

/-- Whatever number of atoms a frame is cut after, the rest is read as a complete frame with fewer atoms. -/
theorem cut_frame_accepted (f : Frame) (n : Nat) (h : FrameOk { f with atoms := f.atoms.take n }) (ht : f.title = []) :
    iterFile (lines (crystLine f.cell ++ '\n' :: atomLines 3 1 (f.atoms.take n))) = ([gotFrame { f with atoms := f.atoms.take n }], true) := by
  have hr : readPdb (lines (crystLine f.cell ++ '\n' :: atomLines 3 1 (f.atoms.take n))) = .ok (gotFrame { f with atoms := f.atoms.take n }) [] := by
    rw [lines_line crystLine_nl]
    simp only [readPdb]
    rw [if_neg (by rw [cryst_no_title]; decide)]
    simp only [readFrom]
    rw [readCell_good h.2.1, readBody_cut _ _ h.2.2]
    simp only [gotFrame]
    rw [if_pos ht]
  rw [iterFile_ok hr, iterFile_eof (ls := []) rfl]

/-! ### witnesses -/

def kO : Str := "O".toList
def kH : Str := "H".toList
def box : Cell Fix := ⟨(false, 20000), (false, 20000), (false, 20000), (false, 9000), (false, 9000), (false, 9000)⟩

/-- A water molecule in a box of 20 angstrom. -/
def water : Frame := ⟨[], box, [⟨kO, (false, 1), (true, 500), (false, 19875)⟩, ⟨kH, (true, 12345), (false, 99999), (false, 0)⟩, ⟨kH, (true, 99999), (false, 999999), (true, 1)⟩]⟩

instance (a : Atom) : Decidable (Fits7 a) := by unfold Fits7; exact inferInstance
instance (a : Atom) : Decidable (Fits a) := by unfold Fits; exact inferInstance
instance (a : Atom) : Decidable (NameOk a) := by unfold NameOk; exact inferInstance
instance decAtomsOk : ∀ (i : Nat) (as : List Atom), Decidable (AtomsOk i as)
  | _, [] => .isTrue trivial
  | i, a :: as => by
    have := decAtomsOk (i + 1) as
    unfold AtomsOk
    exact inferInstance
instance (c : Cell Fix) : Decidable (CellFits c) := by unfold CellFits; exact inferInstance
instance (f : Frame) : Decidable (FrameOk f) := by unfold FrameOk; exact inferInstance

/-- The hypotheses of `pdb_round_trip_partial` and `cut_frame_accepted` are met. -/
example : FrameOk water := by decide +kernel
example : FrameOk { water with atoms := water.atoms.take 2 } := by decide +kernel
example : FrameOk { water with title := "Step:           0  Bead:       0 positions{angstrom}  cell{angstrom}".toList } := by decide +kernel

def one (x y z : Nat × Bool) : Frame := ⟨[], box, [⟨kO, (x.2, x.1), (y.2, y.1), (z.2, z.1)⟩]⟩

/-- What is read from a file with one frame and one atom. -/
def readOne (f : Frame) : Option (Rat × Rat × Rat) :=
  match (iterFile (lines (writeFrame f))).1 with
  | [g] => match g.atoms with
    | [a] => some (value a.x, value a.y, value a.z)
    | _ => none
  | _ => none

/-- **The sign is lost** at -100.5. -/
theorem sign_lost : readOne (one (100500, true) (0, false) (0, false)) = some (201 / 2, 0, 0) := by decide +kernel

/-- **The leading digit is lost** at 1234.5. -/
theorem leading_digit_lost : readOne (one (1234500, false) (0, false) (0, false)) = some (469 / 2, 0, 0) := by decide +kernel

/-- **The neighbour's digit is added**: 1 is read as 1.0005 when the next coordinate is 5000. -/
theorem neighbour_digit_added : readOne (one (1000, false) (5000000, false) (0, false)) = some (2001 / 2000, 0, 0) := by decide +kernel

/-- **Not readable**: -150 after another coordinate. -/
theorem negative_neighbour_fails : readOne (one (1000, false) (150000, true) (0, false)) = none := by decide +kernel

/-- The hypotheses of `atom_right_iff` are met by an atom it rejects. -/
example : (showNat 1).length ≤ 5 ∧ NameOk ⟨kO, (true, 100500), (false, 0), (false, 0)⟩ ∧ Fits ⟨kO, (true, 100500), (false, 0), (false, 0)⟩ ∧
    ¬ Fits7 ⟨kO, (true, 100500), (false, 0), (false, 0)⟩ := by decide +kernel

/-- A path file with two replicas of one atom, as written by `print_pdb_path`, cannot be read. -/
theorem path_file_fails : iterFile (lines (writePath box [[⟨kO, (false, 1), (false, 2), (false, 3)⟩], [⟨kO, (false, 1), (false, 2), (false, 3)⟩]] [(1, 2), (2, 1)])) = ([], false) := by
  decide +kernel

/-- The six digits of serial number 100000 shift all columns: the last character of the name is lost. -/
theorem many_atoms_name_lost :
    (readAtom (atomLine 3 99999 ⟨kO, (false, 1), (false, 2), (false, 3)⟩ ++ ['\n'])).map (fun g => g.name) = some kO ∧
    (readAtom (atomLine 3 100000 ⟨kO, (false, 1), (false, 2), (false, 3)⟩ ++ ['\n'])).map (fun g => g.name) = some [] := by
  decide +kernel

end Verif.Pdb
