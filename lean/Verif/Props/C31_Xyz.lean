import Verif.Io.TrajLemmas
import Verif.Io.ValuesLemmas
/-!
# C31: xyz trajectories

`xyz_round_trip`: every sequence of frames is read back frame by frame. A file cut anywhere still gives all complete frames, and at most one more
(`cut_file`); but the incomplete frame is accepted silently, filled with zeros (`cut_frame_accepted`) or with a wrong number (`cut_number_wrong`), so the part of the
property about truncation is false. A line that is not a number where a count is expected ends the file silently (`bad_count_ends_silently`).
-/
namespace Verif.Traj
open Verif.Text
variable {V : Type} {N : Num V} {rE rF : V → V}

/-- **All frames, in order, with nothing skipped or merged**: names cut to four characters, numbers as printed. -/
theorem xyz_round_trip (g : Good N rE rF) (fs : List (Frame V)) (h : ∀ f ∈ fs, Plain f) : iterFile N (lines (writeAll N fs)) = (fs.map (seen N rE rF), true) := by
  have := iterFile_all g fs h []
  rw [List.append_nil] at this
  rw [this, iterFile_eof (ls := lines []) rfl]
  simp

/-- With names of at most four characters and numbers that are printed exactly, the frames come back as they were. -/
theorem xyz_exact (g : Good N rE rF) (f : Frame V) (hn : ∀ a ∈ f.atoms, a.1.length ≤ 4) (he : ∀ a ∈ f.atoms, rE a.2.1 = a.2.1 ∧ rE a.2.2.1 = a.2.2.1 ∧ rE a.2.2.2 = a.2.2.2)
    (hc : ∀ v ∈ f.cell, rF v = v) : (seen N rE rF f).atoms = f.atoms ∧ (seen N rE rF f).cell = some f.cell := by
  have _ := g
  constructor
  · show f.atoms.map _ = f.atoms
    have : ∀ as : List (Str × V × V × V), (∀ a ∈ as, a.1.length ≤ 4) → (∀ a ∈ as, rE a.2.1 = a.2.1 ∧ rE a.2.2.1 = a.2.2.1 ∧ rE a.2.2.2 = a.2.2.2) →
        as.map (fun a => (a.1.take 4, rE a.2.1, rE a.2.2.1, rE a.2.2.2)) = as := by
      intro as
      induction as with
      | nil => intro _ _; rfl
      | cons a as ih =>
        intro h1 h2
        obtain ⟨e1, e2, e3⟩ := h2 a List.mem_cons_self
        rw [List.map_cons, ih (fun x hx => h1 x (List.mem_cons_of_mem _ hx)) (fun x hx => h2 x (List.mem_cons_of_mem _ hx)), e1, e2, e3,
          List.take_of_length_le (h1 a List.mem_cons_self)]
    exact this f.atoms hn he
  · show some (f.cell.map rF) = some f.cell
    congr 1
    have : ∀ vs : List V, (∀ v ∈ vs, rF v = v) → vs.map rF = vs := by
      intro vs
      induction vs with
      | nil => intro _; rfl
      | cons v vs ih => intro h; rw [List.map_cons, h v List.mem_cons_self, ih fun x hx => h x (List.mem_cons_of_mem _ hx)]
    exact this f.cell hc

/-- **A file cut anywhere** inside a frame: all complete frames are read, and at most one more is reported. -/
theorem cut_file (g : Good N rE rF) (fs : List (Frame V)) (h : ∀ f ∈ fs, Plain f) {f : Frame V} (hf : Plain f) {p q : Str} (hpq : p ++ q = writeFrame N f) :
    ∃ extra ok, iterFile N (lines (writeAll N fs ++ p)) = (fs.map (seen N rE rF) ++ extra, ok) ∧ extra.length ≤ 1 := by
  refine ⟨_, _, iterFile_all g fs h p, ?_⟩
  have hlen : (lines p).length ≤ f.atoms.length + 2 := by
    have h1 := lines_prefix_length p q
    have h2 := lines_frame g hf []
    rw [List.append_nil] at h2
    rw [hpq, h2] at h1
    simpa [lines] using h1
  unfold writeFrame at hpq
  rcases prefix_line hpq (showNat_nl _) with hp | ⟨p', rfl, _⟩
  · rw [lines_last hp]
    split
    · rw [iterFile_eof (ls := []) rfl]; simp
    · cases hi : parseInt p with
      | none => rw [iterFile_eof (by simp [readXyz, hi])]; simp
      | some n => rw [iterFile_err (by simp [readXyz, hi])]; simp
  · rw [lines_line (showNat_nl _)] at hlen ⊢
    simp only [List.length_cons] at hlen
    cases hx : readXyz N ((showNat f.atoms.length ++ ['\n']) :: lines p') with
    | eof => rw [iterFile_eof hx]; simp
    | err => rw [iterFile_err hx]; simp
    | ok got r =>
      rw [iterFile_ok hx]
      have hr : r = [] := by
        simp only [readXyz, parseInt_count] at hx
        cases hl : lines p' with
        | nil => rw [hl] at hx; cases hx
        | cons c ls =>
          rw [hl] at hx hlen
          simp only [List.length_cons] at hlen
          simp only at hx
          split at hx
          · cases hx
          · split at hx
            · cases hx
            · split at hx
              · cases hx
              · split at hx
                · cases hx
                · rename_i h2
                  simp only [Res.ok.injEq] at hx
                  rw [← hx.2]
                  exact readAtoms_short _ _ _ _ (by rw [Int.toNat_natCast]; omega) h2
      subst hr
      rw [iterFile_eof (ls := []) rfl]
      simp

/-- **An incomplete frame is accepted silently**: cut after any number of atoms, the missing ones are returned with empty names and zeros, and no error is reported. -/
theorem cut_frame_accepted (g : Good N rE rF) (fs : List (Frame V)) (h : ∀ f ∈ fs, Plain f) {f : Frame V} (hf : Plain f) {as bs : List (Str × V × V × V)} (hab : f.atoms = as ++ bs) :
    iterFile N (lines (writeAll N fs ++ (showNat f.atoms.length ++ '\n' :: (headLine N f ++ '\n' :: (as.flatMap fun a => atomLine N a ++ ['\n']))))) =
      (fs.map (seen N rE rF) ++ [{ (seen N rE rF f) with atoms := (as.map fun a => (a.1.take 4, rE a.2.1, rE a.2.2.1, rE a.2.2.2)) ++ List.replicate bs.length ([], N.zero, N.zero, N.zero) }], true) := by
  rw [iterFile_all g fs h]
  have hn : ∀ a ∈ as, a.1 ≠ [] ∧ ∀ c ∈ a.1, isWs c = false := fun a ha => hf.names a (by rw [hab]; exact List.mem_append_left _ ha)
  have hl : lines (showNat f.atoms.length ++ '\n' :: (headLine N f ++ '\n' :: (as.flatMap fun a => atomLine N a ++ ['\n']))) =
      (showNat f.atoms.length ++ ['\n']) :: (headLine N f ++ ['\n']) :: (as.map fun a => atomLine N a ++ ['\n']) := by
    rw [lines_line (showNat_nl _), lines_line (headLine_nl g hf)]
    congr 2
    have := lines_flat (atomLine N) as (fun a ha => atomLine_nl g a (hn a ha).2) []
    simpa [lines] using this
  have hpos : f.atoms.length ≠ 0 := fun e => hf.atoms (List.length_eq_zero_iff.1 e)
  have hx : readXyz N ((showNat f.atoms.length ++ ['\n']) :: (headLine N f ++ ['\n']) :: (as.map fun a => atomLine N a ++ ['\n'])) =
      .ok { (seen N rE rF f) with atoms := (as.map fun a => (a.1.take 4, rE a.2.1, rE a.2.2.1, rE a.2.2.2)) ++ List.replicate bs.length ([], N.zero, N.zero, N.zero) } [] := by
    simp only [readXyz, parseInt_count, readCell_head g hf]
    rw [if_neg (by omega), if_neg (by intro h; exact hpos (by have := h.1; omega)), Int.toNat_natCast, hab, List.length_append, readAtoms_cut g as bs hn]
    rfl
  rw [hl, iterFile_ok hx, iterFile_eof (ls := []) rfl]

/-- **A line that is not a number where a count is expected** (a blank line, for instance) ends the file as if it were complete: everything after it is lost. -/
theorem bad_count_ends_silently (g : Good N rE rF) (fs : List (Frame V)) (h : ∀ f ∈ fs, Plain f) {l : Str} (hl : '\n' ∉ l) (hi : parseInt (l ++ ['\n']) = none) (t : Str) :
    iterFile N (lines (writeAll N fs ++ (l ++ '\n' :: t))) = (fs.map (seen N rE rF), true) := by
  rw [iterFile_all g fs h, lines_line hl, iterFile_eof (by simp [readXyz, hi])]
  simp

/-! ### a concrete instance -/

/-- Integers as numbers. -/
def intNum : Num Int := { fmtE := showInt, fmtF := showInt, rd := parseInt, zero := 0 }

theorem good_intNum : Good intNum id id := by
  have hc : ∀ i : Int, ∀ c ∈ showInt i, cellChar c = true ∧ c ≠ ' ' := by
    intro i c hc
    rcases Verif.Values.showInt_chars i c hc with h | rfl
    · refine ⟨by simp [cellChar, h], fun e => ?_⟩
      subst e; revert h; decide
    · decide
  exact ⟨hc, hc, Verif.Values.showInt_ne_nil, Verif.Values.showInt_ne_nil, fun v => parseInt_showInt v, fun v => parseInt_showInt v⟩

def water : Frame Int where
  cell := [10, 10, 10, 90, 90, 90]
  title := "Step: 1 positions{angstrom}  cell{angstrom}".toList
  atoms := [("O".toList, 0, 0, 0), ("H".toList, 1, -12, 3), ("H".toList, 4, 5, -16)]

theorem plain_water : Plain water := ⟨rfl, by decide, by decide, by decide⟩

example : iterFile intNum (lines (writeAll intNum [water, water])) = ([seen intNum id id water, seen intNum id id water], true) :=
  xyz_round_trip good_intNum _ (by intro f hf; simp only [List.mem_cons, List.not_mem_nil, or_false] at hf; rcases hf with rfl | rfl <;> exact plain_water)

/-- **Cut inside a number**: the last coordinate -16 is read as -1, without error. -/
theorem cut_number_wrong : iterFile intNum (lines ((writeFrame intNum water).take ((writeFrame intNum water).length - 2))) =
    ([{ (seen intNum id id water) with atoms := [("O".toList, 0, 0, 0), ("H".toList, 1, -12, 3), ("H".toList, 4, 5, -1)] }], true) := by decide +kernel

/-- **A frame without atoms** before another frame ends reading with an exception. -/
theorem empty_frame_fails : (iterFile intNum (lines (writeAll intNum [{ water with atoms := [] }, water]))) = ([], false) := by decide +kernel

/-- **Names longer than four characters** are cut, although atoms have up to six. -/
theorem long_name_cut : ((iterFile intNum (lines (writeAll intNum [{ water with atoms := [("Carbon".toList, 0, 0, 0)] }]))).1.map fun g => g.atoms.map (·.1)) = [["Carb".toList]] := by
  decide +kernel

end Verif.Traj
