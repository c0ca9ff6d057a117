import Verif.Run.Replay

/-
# C80: replay shows the frames of the trajectory in order, one block per step, also after a restart

Specification: with one file for `nb` beads, simulation step `s` shows frames `s nb … s nb + nb - 1`; with one file per bead, step `s` shows
frame `s` of every file.  Neither depends on where the simulation was restarted.
-/
namespace Verif.Replay
open Verif.Text Verif.Units Verif.TrajUnits

variable {Q C : Type}

/-- `k` rounds, or fewer if the file ends. -/
def passes : Nat → State Q C → State Q C
  | 0, s => s
  | k + 1, s => if s.finished then s else passes k (pass s)

theorem passes_finished {k : Nat} {s : State Q C} (h : s.finished = true) : passes k s = s := by
  cases k with
  | zero => rfl
  | succ k => simp [passes, h]

theorem passes_succ {k : Nat} {s : State Q C} (h : s.finished = false) : passes (k + 1) s = passes k (pass s) := by
  simp [passes, h]

theorem passes_add (j k : Nat) (s : State Q C) : passes (j + k) s = passes k (passes j s) := by
  induction j generalizing s with
  | zero => simp [passes]
  | succ j ih =>
    cases h : s.finished with
    | true => rw [passes_finished h, passes_finished h, passes_finished h]
    | false => rw [Nat.succ_add, passes_succ h, passes_succ h, ih]

theorem passes_rstep {k : Nat} {s : State Q C} (h : (passes k s).finished = false) : (passes k s).rstep = s.rstep + k := by
  induction k generalizing s with
  | zero => rfl
  | succ k ih =>
    cases hs : s.finished with
    | true => rw [passes_finished hs] at h; rw [hs] at h; cases h
    | false =>
      rw [passes_succ hs] at h ⊢
      rw [ih h, pass_rstep]
      omega

/-- A step runs through the file up to its own frame. -/
theorem loop_passes {n : Nat} {s : State Q C} (h : s.rstep ≤ n) (hf : s.finished = false) : loop n s = passes (n + 1 - s.rstep) s := by
  generalize hk : n - s.rstep = k
  induction k generalizing s with
  | zero =>
    have e : n + 1 - s.rstep = 1 := by omega
    rw [loop, e, passes_succ hf, passes]
    have := pass_rstep s
    split
    · rfl
    · rw [if_pos (by omega)]
  | succ k ih =>
    have e : n + 1 - s.rstep = (k + 1) + 1 := by omega
    have hp := pass_rstep s
    rw [loop, e, passes_succ hf]
    split
    · next h1 => rw [passes_finished h1]
    · next h1 =>
      rw [if_neg (by omega), ih (by omega) (by simpa using h1) (by omega)]
      congr 1
      omega

theorem readOne_length (bs : List Q) (last : Option (Frame Q C)) (fs : List (Frame Q C)) : (readOne bs last fs).1.length = bs.length := by
  induction bs generalizing last fs with
  | nil => simp [readOne]
  | cons b bs ih => cases fs with
    | nil => simp [readOne]
    | cons f fs => simp [readOne, ih]

theorem readEach_length (bs : List Q) (last : Option (Frame Q C)) (fs : List (List (Frame Q C))) :
    (readEach bs last fs).1.length = bs.length ∧ (readEach bs last fs).2.2.1.length = fs.length := by
  induction bs generalizing last fs with
  | nil => simp [readEach]
  | cons b bs ih => cases fs with
    | nil => simp [readEach]
    | cons f fs => cases f with
      | nil => simp [readEach]
      | cons f g =>
        have := ih (some f) fs
        simp [readEach, this]

/-- The number of files is right. -/
def Fits (s : State Q C) : Prop := ∀ fs, s.src = .each fs → fs.length = s.beads.length

theorem pass_fits {s : State Q C} (h : Fits s) : Fits (pass s) := by
  unfold pass
  cases hs : s.src with
  | one fs =>
    simp only []
    split <;> (intro gs hg; cases hg)
  | each fs =>
    have hl := readEach_length s.beads none fs
    have := h fs hs
    simp only []
    split
    · intro gs hg
      cases hg
      rw [hl.2, hl.1, this]
    · intro gs hg
      cases hg
      rw [hl.2, hl.1, this]

theorem passes_fits {k : Nat} {s : State Q C} (h : Fits s) : Fits (passes k s) := by
  induction k generalizing s with
  | zero => exact h
  | succ k ih =>
    rw [passes]
    split
    · exact h
    · exact ih (pass_fits h)

theorem step_loop {n : Nat} {s : State Q C} (h : Fits s) : step n s = some (loop n s) := by
  unfold step
  split
  · rfl
  · next fs hs => rw [if_neg (by simp [h fs hs])]

/-- A simulation shows at step `n + k` what that many rounds from the beginning of the file give, wherever it was started. -/
theorem run_passes {n k : Nat} {s : State Q C} (hfit : Fits s) (h : s.rstep ≤ n) (hf : s.finished = false) :
    run n (k + 1) s = some (passes (n + k + 1 - s.rstep) s) := by
  induction k generalizing n s with
  | zero =>
    rw [run, if_neg (by simp [hf]), step_loop hfit, loop_passes h hf]
    rfl
  | succ k ih =>
    rw [run, if_neg (by simp [hf]), step_loop hfit, loop_passes h hf, Option.bind_some]
    have e : n + (k + 1) + 1 - s.rstep = (n + 1 - s.rstep) + (k + 1) := by omega
    rw [e, passes_add]
    cases hp : (passes (n + 1 - s.rstep) s).finished with
    | true =>
      rw [passes_finished hp, run, if_pos hp]
    | false =>
      have hr := passes_rstep hp
      rw [ih (passes_fits hfit) (by omega) hp]
      congr 2
      omega

/-- The replay as created at the start of a simulation or by a restart (replay.py:53-93). -/
def fresh (src : Source Q C) (beads : List Q) (cell : C) : State Q C := ⟨0, src, beads, cell, false⟩

/-- **C80.**  A simulation restarted at any step shows the same beads at step `s` as one run from the beginning. -/
theorem restart_same {src : Source Q C} {beads : List Q} {cell : C} (hfit : Fits (fresh src beads cell)) {s0 s : Nat} (h : s0 ≤ s) :
    run s0 (s + 1 - s0) (fresh src beads cell) = run 0 (s + 1) (fresh src beads cell) := by
  have e : s + 1 - s0 = (s - s0) + 1 := by omega
  rw [e, run_passes hfit (Nat.zero_le _) rfl, run_passes hfit (Nat.zero_le _) rfl]
  congr 2
  simp only [fresh]
  omega

/-! ### one file -/

theorem readOne_spec {bs : List Q} {last : Option (Frame Q C)} {fs : List (Frame Q C)} (h : bs.length ≤ fs.length) :
    readOne bs last fs = ((fs.take bs.length).map (·.q), (fs.take bs.length).getLast?.or last, fs.drop bs.length, false) := by
  induction bs generalizing last fs with
  | nil => simp [readOne]
  | cons b bs ih => cases fs with
    | nil => simp at h
    | cons f fs =>
      have h' : bs.length ≤ fs.length := by simpa using h
      simp only [readOne, ih h', List.length_cons, List.take_succ_cons, List.map_cons, List.drop_succ_cons, List.getLast?_cons]
      cases (fs.take bs.length).getLast? <;> rfl

/-- The frames shown at step `s`. -/
def block (nb s : Nat) (F : List (Frame Q C)) : List (Frame Q C) := (F.drop (s * nb)).take nb

theorem passes_one {F : List (Frame Q C)} {beads : List Q} {cell : C} {k : Nat} (h : k * beads.length ≤ F.length) :
    ∃ bs c, passes k (fresh (.one F) beads cell) = ⟨k, .one (F.drop (k * beads.length)), bs, c, false⟩ ∧ bs.length = beads.length
      ∧ (∀ j, k = j + 1 → bs = (block beads.length j F).map (·.q)
        ∧ ∀ f c', (block beads.length j F).getLast? = some f → f.cell = some c' → c = c') := by
  induction k with
  | zero => exact ⟨beads, cell, by simp [passes, fresh], rfl, fun j hj => by omega⟩
  | succ k ih =>
    have hm : (k + 1) * beads.length = k * beads.length + beads.length := Nat.succ_mul _ _
    obtain ⟨bs, c, h1, h2, -⟩ := ih (by omega)
    have hr : bs.length ≤ (F.drop (k * beads.length)).length := by rw [List.length_drop]; omega
    have e : passes (k + 1) (fresh (.one F) beads cell) = pass (passes k (fresh (.one F) beads cell)) := by
      rw [passes_add, h1]
      rfl
    rw [e, h1]
    refine ⟨((F.drop (k * beads.length)).take bs.length).map (·.q),
      newCell c (((F.drop (k * beads.length)).take bs.length).getLast?.or none), ?_, ?_, ?_⟩
    · simp only [pass, readOne_spec hr]
      rw [List.drop_drop, h2, hm]
      rfl
    · rw [List.length_map, List.length_take]
      omega
    · intro j hj
      have : j = k := by omega
      subst this
      refine ⟨by rw [h2]; rfl, ?_⟩
      intro f c' hf hc
      unfold block at hf
      rw [h2, hf]
      obtain ⟨q, cl⟩ := f
      simp only at hc
      subst hc
      rfl

theorem fits_one (F : List (Frame Q C)) (beads : List Q) (cell : C) : Fits (fresh (.one F) beads cell) := by
  intro fs h
  cases h

/-- **C80 (one file).**  At step `s` of a simulation started or restarted at step `s0` the beads are those of the block of frames `s`, the cell is
the one of its last frame if that has one, and the simulation goes on. -/
theorem one_frames {F : List (Frame Q C)} {beads : List Q} {cell : C} {s0 s : Nat} (h0 : s0 ≤ s) (h : (s + 1) * beads.length ≤ F.length) :
    ∃ st, run s0 (s + 1 - s0) (fresh (.one F) beads cell) = some st ∧ st.finished = false
      ∧ st.beads = (block beads.length s F).map (·.q)
      ∧ ∀ f c, (block beads.length s F).getLast? = some f → f.cell = some c → st.cell = c := by
  obtain ⟨bs, c, h1, -, h3⟩ := passes_one (F := F) (beads := beads) (cell := cell) h
  refine ⟨⟨s + 1, .one (F.drop ((s + 1) * beads.length)), bs, c, false⟩, ?_, ?_⟩
  · rw [restart_same (fits_one _ _ _) h0, run_passes (fits_one _ _ _) (Nat.zero_le _) rfl]
    have e : 0 + s + 1 - (fresh (Source.one F) beads cell).rstep = s + 1 := by simp only [fresh]; omega
    rw [e, h1]
  · exact ⟨rfl, (h3 s rfl).1, (h3 s rfl).2⟩

/-- **C80 (end of the file, partial).**  If the file holds whole blocks the step after the last block ends the simulation and leaves the last block
in place.  Missing: false of the code if the last block is incomplete, see `one_cut`. -/
theorem one_ends_partial {F : List (Frame Q C)} {b : Q} {bs : List Q} {cell : C} {k n : Nat} (h : F.length = (k + 1) * (b :: bs).length)
    (hn : k + 1 ≤ n) :
    ∃ st, run 0 (n + 1) (fresh (.one F) (b :: bs) cell) = some st ∧ st.finished = true
      ∧ st.beads = (block (b :: bs).length k F).map (·.q) := by
  obtain ⟨bs', c, h1, h2, h3⟩ := passes_one (F := F) (beads := b :: bs) (cell := cell) (k := k + 1) (by omega)
  have e : 0 + n + 1 - (fresh (Source.one F) (b :: bs) cell).rstep = (k + 1) + ((n - (k + 1)) + 1) := by simp only [fresh]; omega
  refine ⟨passes (n - (k + 1)) (pass ⟨k + 1, .one (F.drop ((k + 1) * (b :: bs).length)), bs', c, false⟩), ?_, ?_⟩
  · rw [run_passes (fits_one _ _ _) (Nat.zero_le _) rfl, e, passes_add, h1, passes_succ rfl]
  · have hd : F.drop ((k + 1) * (b :: bs).length) = [] := List.drop_eq_nil_of_le (by omega)
    rw [hd]
    cases bs' with
    | nil => simp at h2
    | cons b' bs' =>
      have hp : pass (⟨k + 1, .one [], b' :: bs', c, false⟩ : State Q C) = ⟨k + 2, .one [], b' :: bs', c, true⟩ := by simp [pass, readOne]
      rw [hp, passes_finished rfl]
      exact ⟨rfl, (h3 k rfl).1⟩

/-- **C80 fails for an incomplete last block**: with two beads and three frames the simulation ends with a mixture of two blocks. -/
theorem one_cut :
    (run 0 2 (fresh (.one [⟨10, some ()⟩, ⟨11, some ()⟩, ⟨12, some ()⟩]) [0, 0] ())).map (fun s : State Nat Unit => (s.beads, s.finished)) = some ([12, 11], true) := by
  rw [run_passes (fits_one _ _ _) (Nat.zero_le _) rfl]
  rfl

/-! ### one file for each bead -/

theorem readEach_spec {bs : List Q} {last : Option (Frame Q C)} {fs : List (List (Frame Q C))} (hl : fs.length = bs.length) (h : ∀ f ∈ fs, f ≠ []) :
    (readEach bs last fs).2.2.2 = false ∧ (readEach bs last fs).2.2.1 = fs.map List.tail
      ∧ (readEach bs last fs).1.map some = fs.map (fun f => f.head?.map (·.q)) := by
  induction bs generalizing last fs with
  | nil =>
    have : fs = [] := by simpa using hl
    subst this
    simp [readEach]
  | cons b bs ih => cases fs with
    | nil => simp at hl
    | cons f fs => cases f with
      | nil => exact absurd rfl (h [] (by simp))
      | cons f g =>
        have := ih (last := some f) (fs := fs) (by simpa using hl) (fun x hx => h x (by simp [hx]))
        simp [readEach, this]

theorem passes_each {F : List (List (Frame Q C))} {beads : List Q} {cell : C} (hl : F.length = beads.length) {k : Nat} (h : ∀ f ∈ F, k ≤ f.length) :
    ∃ bs c, passes k (fresh (.each F) beads cell) = ⟨k, .each (F.map (List.drop k)), bs, c, false⟩ ∧ bs.length = beads.length
      ∧ (∀ j, k = j + 1 → bs.map some = F.map (fun f => (f[j]?).map (·.q))) := by
  induction k with
  | zero =>
    refine ⟨beads, cell, ?_, rfl, fun j hj => by omega⟩
    have : F.map (List.drop 0) = F := by
      rw [show (List.drop 0 : List (Frame Q C) → List (Frame Q C)) = id from funext fun f => by simp, List.map_id]
    rw [this]
    rfl
  | succ k ih =>
    obtain ⟨bs, c, h1, h2, -⟩ := ih (fun f hf => by have := h f hf; omega)
    have hr := readEach_spec (bs := bs) (last := none) (fs := F.map (List.drop k)) (by rw [List.length_map, hl, h2])
      (by
        intro f hf
        obtain ⟨g, hg, rfl⟩ := List.mem_map.1 hf
        have := h g hg
        intro h0
        have := congrArg List.length h0
        rw [List.length_drop] at this
        simp at this
        omega)
    have e : passes (k + 1) (fresh (.each F) beads cell) = pass (passes k (fresh (.each F) beads cell)) := by
      rw [passes_add, h1]
      rfl
    rw [e, h1]
    refine ⟨(readEach bs none (F.map (List.drop k))).1, newCell c (readEach bs none (F.map (List.drop k))).2.1, ?_, ?_, ?_⟩
    · simp only [pass, hr.1, hr.2.1]
      rw [if_neg (by simp)]
      congr 2
      rw [List.map_map]
      congr 1
      funext f
      simp
    · rw [(readEach_length _ _ _).1, h2]
    · intro j hj
      have : j = k := by omega
      subst this
      rw [hr.2.2, List.map_map]
      congr 1
      funext f
      simp

/-- **C80 (one file for each bead).**  At step `s` every bead has frame `s` of its own file. -/
theorem each_frames {F : List (List (Frame Q C))} {beads : List Q} {cell : C} (hl : F.length = beads.length) {s0 s : Nat} (h0 : s0 ≤ s)
    (h : ∀ f ∈ F, s < f.length) :
    ∃ st, run s0 (s + 1 - s0) (fresh (.each F) beads cell) = some st ∧ st.finished = false
      ∧ st.beads.map some = F.map (fun f => (f[s]?).map (·.q)) := by
  have hfit : Fits (fresh (.each F) beads cell) := by
    intro fs hf
    cases hf
    exact hl
  obtain ⟨bs, c, h1, -, h3⟩ := passes_each (cell := cell) hl (k := s + 1) h
  refine ⟨⟨s + 1, .each (F.map (List.drop (s + 1))), bs, c, false⟩, ?_, ?_⟩
  · rw [restart_same hfit h0, run_passes hfit (Nat.zero_le _) rfl]
    have e : 0 + s + 1 - (fresh (Source.each F) beads cell).rstep = s + 1 := by simp only [fresh]; omega
    rw [e, h1]
  · exact ⟨rfl, h3 s rfl⟩

theorem readEach_stops {bs : List Q} {last : Option (Frame Q C)} {fs : List (List (Frame Q C))} (hl : fs.length = bs.length) (h : [] ∈ fs) :
    (readEach bs last fs).2.2.2 = true := by
  induction bs generalizing last fs with
  | nil =>
    have : fs = [] := by simpa using hl
    subst this
    simp at h
  | cons b bs ih => cases fs with
    | nil => simp at hl
    | cons f fs => cases f with
      | nil => rfl
      | cons f g =>
        have := ih (last := some f) (fs := fs) (by simpa using hl) (by simpa using h)
        simp [readEach, this]

/-- **C80 (one file for each bead, end).**  As soon as one of the files has no frame left the simulation ends. -/
theorem each_ends {F : List (List (Frame Q C))} {beads : List Q} {cell : C} (hl : F.length = beads.length) {k n : Nat}
    (hk : ∀ f ∈ F, k ≤ f.length) {f : List (Frame Q C)} (hf : f ∈ F) (he : f.length = k) (hn : k ≤ n) :
    ∃ st, run 0 (n + 1) (fresh (.each F) beads cell) = some st ∧ st.finished = true := by
  have hfit : Fits (fresh (.each F) beads cell) := by
    intro fs hf
    cases hf
    exact hl
  obtain ⟨bs, c, h1, h2, -⟩ := passes_each (cell := cell) hl hk
  have e : 0 + n + 1 - (fresh (Source.each F) beads cell).rstep = k + ((n - k) + 1) := by simp only [fresh]; omega
  refine ⟨passes (n - k) (pass ⟨k, .each (F.map (List.drop k)), bs, c, false⟩), ?_, ?_⟩
  · rw [run_passes hfit (Nat.zero_le _) rfl, e, passes_add, h1, passes_succ rfl]
  · have hs := readEach_stops (bs := bs) (last := none) (fs := F.map (List.drop k)) (by rw [List.length_map, hl, h2])
      (List.mem_map.2 ⟨f, hf, List.drop_eq_nil_of_le (by omega)⟩)
    have hp : (pass (⟨k, .each (F.map (List.drop k)), bs, c, false⟩ : State Q C)).finished = true := by
      simp [pass, hs]
    rw [passes_finished hp]
    exact hp

/-- Two files of different lengths: the end of the shorter one ends the simulation, with the beads read before it
already moved on. -/
example : (run 0 2 (fresh (.each [[⟨10, some 1⟩, ⟨11, none⟩], [⟨12, some 2⟩]]) [0, 0] 0)).map (fun s : State Nat Nat => (s.beads, s.finished))
    = some ([11, 12], true) := by
  rw [run_passes (by intro fs h; cases h; rfl) (Nat.zero_le _) rfl]
  rfl

/-- The wrong number of files is an error, at every step. -/
theorem wrong_count {F : List (List (Frame Q C))} {beads : List Q} {cell : C} (hl : F.length ≠ beads.length) (n k : Nat) :
    run n (k + 1) (fresh (.each F) beads cell) = none := by
  simp [run, fresh, step, hl]

/-! ### units -/

def kPlain : Str := "a comment".toList
def kTagged : Str := "positions{angstrom} cell{angstrom}".toList

/-- **C80 (units, partial).**  Without a `units` attribute (or `automatic`) the positions are converted as the file says.  Missing: see
`units_twice`. -/
theorem units_partial (m : Mode) (comment : Str) {units : Str} (hu : units = [] ∨ units = kAuto) {a c : Rat}
    (h : processUnits m comment kAuto kAuto kAuto = .ok (a, c)) : posFactor m comment units = some a := by
  have h1 : toInternal kLength units 1 = .ok 1 := by
    rcases hu with rfl | rfl <;> decide +kernel
  simp only [posFactor, h, h1]
  rw [Rat.mul_one]

/-- A plain xyz file with a `units` attribute is converted by it. -/
theorem units_plain : posFactor .other kPlain kAngstrom = (toInternal kLength kAngstrom 1).toOption := by decide +kernel

/-- **C80 fails for units given twice**: if the file and the input agree that positions are in Angstrom they are converted twice; the same holds
for every pdb file. -/
theorem units_twice : posFactor .other kTagged kAngstrom = (toInternal kLength kAngstrom 1).toOption.map (fun f => f * f)
    ∧ posFactor .pdb kPlain kAngstrom = (toInternal kLength kAngstrom 1).toOption.map (fun f => f * f)
    ∧ (toInternal kLength kAngstrom 1).toOption.map (fun f => f * f) ≠ (toInternal kLength kAngstrom 1).toOption := by decide +kernel

/-- Two beads, four frames, restarted at step 1. -/
example : (run 1 1 (fresh (.one [⟨10, some 1⟩, ⟨11, none⟩, ⟨12, some 2⟩, ⟨13, some 3⟩]) [0, 0] 0)).map (fun s : State Nat Nat => (s.beads, s.cell, s.finished))
    = some ([12, 13], 3, false) := by
  rw [run_passes (fits_one _ _ _) (Nat.zero_le _) rfl]
  rfl

example : (run 1 1 (fresh (.each [[⟨10, some 1⟩, ⟨11, none⟩], [⟨12, some 2⟩, ⟨13, some 3⟩]]) [0, 0] 0)).map (fun s : State Nat Nat => (s.beads, s.cell, s.finished))
    = some ([11, 13], 3, false) := by
  rw [run_passes (by intro fs h; cases h; rfl) (Nat.zero_le _) rfl]
  rfl

end Verif.Replay
