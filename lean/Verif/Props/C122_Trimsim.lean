import Verif.Tools.Trimsim
import Verif.Props.C121_Remdsort

/-!
# C122: trimmed outputs end at the checkpoint

Small specification: an output of a run of `N` steps has lines for the steps `0, stride, 2 stride, …`
up to `N`.  Trimmed to a checkpoint at the step `T` it has exactly those of the steps up to `T`, so
that the run continued from the checkpoint completes it.
-/

namespace Verif.Trim

open Verif.Text Verif.Sort

variable {nsys N : Nat}

/-- The lines an output has for the system `i` at the steps `a, …, a + n - 1`. -/
def lines (o : Out nsys N) (i a n : Nat) : List Line :=
  ((List.range' a n).filter fun L => decide (L % o.stride = 0)).flatMap (o.frame i)

/-- The files to be trimmed: an output and a system each. -/
structure Src (nsys N : Nat) where
  out : Out nsys N
  sys : Fin nsys

/-- The file when the script starts. -/
def Src.file (s : Src nsys N) : File := ⟨s.out.kind, s.out.stride, lines s.out s.sys 0 (N + 1), []⟩

/-- The file after the steps below `L`. -/
def Src.after (s : Src nsys N) (L : Nat) : File :=
  ⟨s.out.kind, s.out.stride, lines s.out s.sys L (N + 1 - L), lines s.out s.sys 0 L⟩

theorem read_good {k : Kind} {f : List Line} (h : Good k f) (r : List Line) :
    read k (f ++ r) = ⟨f, r, none⟩ := by
  cases k
  · obtain ⟨cs, l, rfl, hc, hl⟩ := h
    have := comments_good hc hl r
    simpa [read] using this
  · exact Sort.read_good (k := .extras) h r
  · exact Sort.read_good (k := .xyz) h r
  · exact Sort.read_good (k := .pdb) h r
  · exact h.elim

theorem file_step (s : Src nsys N) {L : Nat} (hL : L ≤ N) :
    (s.after L).step L = (s.after (L + 1), none) := by
  have hr : List.range' L (N + 1 - L) = L :: List.range' (L + 1) (N + 1 - (L + 1)) := by
    have : N + 1 - L = (N + 1 - (L + 1)) + 1 := by omega
    rw [this, List.range'_succ]
  have hw : List.range' 0 (L + 1) = List.range' 0 L ++ [L] := by
    rw [List.range'_concat]; simp
  unfold File.step
  by_cases hs : L % s.out.stride = 0
  · have hs' : L % (s.after L).stride = 0 := hs
    rw [if_pos hs']
    have hf : (s.after L).ifile = s.out.frame s.sys L ++ lines s.out s.sys (L + 1) (N + 1 - (L + 1)) := by
      simp only [Src.after, lines, hr]
      simp [hs]
    have hg := read_good (s.out.good s.sys s.sys.2 L hL hs) (lines s.out s.sys (L + 1) (N + 1 - (L + 1)))
    rw [← hf] at hg
    have hk : (s.after L).kind = s.out.kind := rfl
    rw [hk, hg]
    simp only [Src.after, Prod.mk.injEq, File.mk.injEq, true_and, and_true]
    simp only [lines]
    rw [hw]
    simp [hs]
  · have hs' : ¬ L % (s.after L).stride = 0 := hs
    rw [if_neg hs']
    simp only [Src.after, Prod.mk.injEq, File.mk.injEq, true_and, and_true]
    simp only [lines]
    rw [hw, hr]
    simp [hs]

theorem files_step {L : Nat} (hL : L ≤ N) : ∀ ss : List (Src nsys N),
    files L (ss.map fun s => s.after L) = (ss.map fun s => s.after (L + 1), none)
  | [] => rfl
  | s :: ss => by simp only [List.map_cons, files, file_step s hL, files_step hL ss]

theorem loop_steps : ∀ (n L : Nat) (ss : List (Src nsys N)), L + n ≤ N + 1 →
    loop (List.range' L n) (ss.map fun s => s.after L) = (ss.map fun s => s.after (L + n), none)
  | 0, L, ss, _ => rfl
  | n + 1, L, ss, h => by
      rw [List.range'_succ, loop, files_step (by omega)]
      simp only
      rw [loop_steps n (L + 1) ss (by omega)]
      have : L + 1 + n = L + (n + 1) := by omega
      rw [this]

/-- **C122, trimming.**  Trimmed to a step that the run reached, the script ends without an error and
each file has exactly the lines of the steps up to this one. -/
theorem trim_files {T : Nat} (hT : T ≤ N) (ss : List (Src nsys N)) :
    (trim T (ss.map Src.file)).2 = none
      ∧ (trim T (ss.map Src.file)).1.map File.ofile
        = ss.map fun s => lines s.out s.sys 0 (T + 1) := by
  have h0 : ss.map Src.file = ss.map fun s => s.after 0 := by
    apply List.map_congr_left
    intro s _
    simp [Src.file, Src.after, lines]
  have h := loop_steps (N := N) (T + 1) 0 ss (by omega)
  unfold trim
  rw [List.range_eq_range', h0, h]
  refine ⟨rfl, ?_⟩
  rw [List.map_map]
  apply List.map_congr_left
  intro s _
  simp [Src.after]

/-- **C122, continuing.**  With the lines the continued run appends, those of the steps `T + 1` to
`M`, the trimmed file is that of a run of `M` steps. -/
theorem trim_continue (o : Out nsys N) (i : Nat) {T M : Nat} (h : T ≤ M) :
    lines o i 0 (T + 1) ++ lines o i (T + 1) (M - T) = lines o i 0 (M + 1) := by
  unfold lines
  rw [← List.flatMap_append, ← List.filter_append]
  congr 2
  have : M + 1 = (T + 1) + (M - T) := by omega
  rw [this]
  have e := List.range'_append_1 (s := 0) (m := T + 1) (n := M - T)
  rw [Nat.zero_add] at e
  exact e

/-- The file of an output of a run is that of all its steps. -/
theorem file_lines (o : Out nsys N) (i : Nat) : o.file i = lines o i 0 (N + 1) := rfl

/-- **C122, errors are seen.**  A property file that lacks lines of the steps to be kept ends the
script with an error. -/
theorem short_fails (o : Out nsys N) (i : Fin nsys) (hk : o.kind = .prop) {T : Nat} (hT : N < T)
    (hd : T % o.stride = 0) (hs : ∀ t, N < t → t < T → t % o.stride ≠ 0) :
    (trim T [Src.file ⟨o, i⟩]).2 = some .index := by
  have h := loop_steps (N := N) (N + 1) 0 [(⟨o, i⟩ : Src nsys N)] (by omega)
  have h0 : [Src.file (⟨o, i⟩ : Src nsys N)] = [(⟨o, i⟩ : Src nsys N)].map fun s => s.after 0 := by
    simp [Src.file, Src.after, lines]
  unfold trim
  rw [List.range_eq_range', h0]
  -- split the loop after the last step of the run
  have loop_append : ∀ (a b : List Nat) (fs fs' : List File), loop a fs = (fs', none) →
      loop (a ++ b) fs = loop b fs' := by
    intro a
    induction a with
    | nil => intro b fs fs' h; simp only [loop, Prod.mk.injEq, and_true] at h; rw [← h]; rfl
    | cons t ts ih =>
        intro b fs fs' h
        rw [List.cons_append, loop]
        rw [loop] at h
        cases hf : files t fs with
        | mk g st =>
            rw [hf] at h
            cases st with
            | some e => simp at h
            | none => exact ih b g fs' h
  have e1 : T + 1 = (N + 1) + (T - N) := by omega
  rw [e1, ← List.range'_append_1]
  rw [loop_append _ _ _ _ h]
  simp only [List.map_cons, List.map_nil, Nat.zero_add]
  -- the steps up to `T` do nothing, then the line is missing
  have idle : ∀ (n a : Nat), N < a → a + n = T →
      loop (List.range' a (n + 1)) [Src.after ⟨o, i⟩ (N + 1)]
        = ([{ (Src.after (⟨o, i⟩ : Src nsys N) (N + 1)) with ifile := [] }], some .index) := by
    intro n
    have hempty : (Src.after (⟨o, i⟩ : Src nsys N) (N + 1)).ifile = [] := by
      simp [Src.after, lines]
    induction n with
    | zero =>
        intro a _ ha
        have ha' : a = T := by omega
        have hd' : a % (Src.after (⟨o, i⟩ : Src nsys N) (N + 1)).stride = 0 := by rw [ha']; exact hd
        have hst : File.step a (Src.after (⟨o, i⟩ : Src nsys N) (N + 1))
            = ({ (Src.after (⟨o, i⟩ : Src nsys N) (N + 1)) with ifile := [] }, some .index) := by
          unfold File.step
          rw [if_pos hd', hempty]
          have hk' : (Src.after (⟨o, i⟩ : Src nsys N) (N + 1)).kind = .prop := hk
          rw [hk']
          simp [read, comments, Src.after, hk]
        rw [List.range'_succ, loop, files, hst]
    | succ n ih =>
        intro a hN ha
        have hd' : ¬ a % (Src.after (⟨o, i⟩ : Src nsys N) (N + 1)).stride = 0 := hs a hN (by omega)
        have hst : File.step a (Src.after (⟨o, i⟩ : Src nsys N) (N + 1))
            = (Src.after ⟨o, i⟩ (N + 1), none) := by
          unfold File.step
          rw [if_neg hd']
        rw [List.range'_succ, loop, files, hst]
        simp only [files]
        exact ih (a + 1) (by omega) (by omega)
  obtain ⟨n, hn⟩ : ∃ n, T - N = n + 1 := ⟨T - N - 1, by omega⟩
  rw [hn, idle n (N + 1) (by omega) (by omega)]

/-! ### The list of exchanges -/

theorem trimSwaps_range (f : Nat → Nat × List Nat) (hf : ∀ s, (f s).1 = s) (p : Nat → Bool) (T : Nat) :
    ∀ (n a : Nat), trimSwaps T (((List.range' a n).filter p).map f)
      = ((List.range' a (min n (T - a))).filter p).map f
  | 0, a => by simp [trimSwaps]
  | n + 1, a => by
      rw [List.range'_succ]
      have ih := trimSwaps_range f hf p T n (a + 1)
      by_cases ha : a < T
      · have hm : min (n + 1) (T - a) = min n (T - (a + 1)) + 1 := by omega
        rw [hm, List.range'_succ]
        cases hp : p a
        · rw [List.filter_cons_of_neg (by simp [hp]), List.filter_cons_of_neg (by simp [hp]), ih]
        · rw [List.filter_cons_of_pos (by simp [hp]), List.filter_cons_of_pos (by simp [hp])]
          simp only [List.map_cons, trimSwaps, hf, ha, if_true]
          rw [ih]
      · have hm : min (n + 1) (T - a) = 0 := by omega
        rw [hm]
        have key : ∀ l : List Nat, (∀ x ∈ l, T ≤ x) → trimSwaps T (l.map f) = [] := by
          intro l hl
          cases l with
          | nil => rfl
          | cons x xs =>
              have : ¬ (f x).1 < T := by rw [hf]; have := hl x (by simp); omega
              simp [trimSwaps, this]
        simp only [List.range'_zero, List.filter_nil, List.map_nil]
        apply key
        intro x hx
        have hx' := (List.mem_filter.1 hx).1
        rw [List.mem_cons, List.mem_range'] at hx'
        rcases hx' with h | ⟨k, hk, h⟩ <;> omega

/-- **C122, exchanges.**  The trimmed list has the exchanges that the rows up to the checkpoint have
seen, and with the lines the continued run appends it is that of an uninterrupted run. -/
theorem trim_swaps (H : History nsys) {T N M : Nat} (h : T ≤ N) (hM : T ≤ M) :
    trimSwaps T (H.lines N) = H.lines T
      ∧ H.lines T ++ ((List.range' T (M - T)).filter H.exch).map
          (fun s => (s, (List.range nsys).map (H.rep (s + 1)))) = H.lines M := by
  constructor
  · unfold History.lines
    rw [trimSwaps_range _ (fun _ => rfl)]
    have : min N (T - 0) = T := by omega
    rw [this]
  · unfold History.lines
    rw [← List.map_append, ← List.filter_append]
    congr 2
    have : M = T + (M - T) := by omega
    conv_rhs => rw [this, ← List.range'_append_1]
    simp

/-- **C122, exchanges, the other cases.**  They are not copied for a list of super-motions, nor
without a prefix. -/
theorem swaps_lost (p : Str) : copiesSwaps true p = false ∧ copiesSwaps false [] = false := ⟨rfl, rfl⟩

/-! ### The files -/

/-- **C122, files.**  The files are found for positions, velocities, forces and extras, of all beads
or one, and for trajectories with one file, extras and the ase format excepted. -/
theorem names_agree_partial (name key format : Str) (ibead : Int) (nbeads : Nat)
    (h : (trimPerBead.contains key = true ∧ -1 ≤ ibead)
      ∨ (simPerBead.contains key = false ∧ isExtras key = false ∧ format ≠ "ase".toList)) :
    trimFiles name key format ibead nbeads = simFiles name key format ibead nbeads := by
  rcases h with ⟨h, hb⟩ | ⟨h, he, hf⟩
  · have hsim : simPerBead.contains key = true := by
      have : ∀ k ∈ trimPerBead, simPerBead.contains k = true := by decide +kernel
      exact this key (by simpa using h)
    have hex : (decide (key = "extras".toList)) = isExtras key := by
      have : ∀ k ∈ trimPerBead, (decide (k = "extras".toList)) = isExtras k := by
        decide +kernel
      exact this key (by simpa using h)
    have hex' : ∀ b, (if key = "extras".toList then [] else b : Str) = if isExtras key then [] else b := by
      intro b
      rw [← hex]
      simp
    unfold trimFiles simFiles
    rw [if_pos h, if_pos hsim]
    simp only [hex']
    refine congrArg (List.map _) (List.filter_congr ?_)
    intro b _
    by_cases h0 : ibead < 0
    · have : ibead = -1 := by omega
      subst this
      simp
    · simp [h0]
  · have hs : trimPerBead.contains key = false := by
      have : ∀ k ∈ trimPerBead, simPerBead.contains k = true := by decide +kernel
      cases hc : trimPerBead.contains key
      · rfl
      · rw [this key (by simpa using hc)] at h
        exact (nomatch h)
    unfold trimFiles simFiles
    rw [hs, h, he, extension, if_neg hf]
    rfl

/-- **C122, files, the other cases.**  Momenta, the extras of a bias and centroids in the ase format
are not found. -/
theorem names_differ (name : Str) :
    (∃ f ∈ trimFiles name "momenta".toList "xyz".toList 0 1,
      f ∉ simFiles name "momenta".toList "xyz".toList 0 1)
    ∧ (∃ f ∈ trimFiles name "extras_bias".toList "xyz".toList 0 1,
      f ∉ simFiles name "extras_bias".toList "xyz".toList 0 1)
    ∧ ∃ f ∈ trimFiles name "x_centroid".toList "ase".toList 0 1,
      f ∉ simFiles name "x_centroid".toList "ase".toList 0 1 := by
  have pad : padBead 1 0 = "0".toList := by
    unfold padBead
    rw [showNat_lt (by decide), showNat_lt (by decide)]
    decide
  refine ⟨⟨name ++ ".xyz".toList, List.mem_singleton.2 rfl, ?_⟩,
    ⟨name ++ ".xyz".toList, List.mem_singleton.2 rfl, ?_⟩,
    ⟨name ++ ".ase".toList, List.mem_singleton.2 rfl, ?_⟩⟩
  · have : simFiles name "momenta".toList "xyz".toList 0 1
        = [0].map fun b => name ++ '_' :: padBead 1 b ++ ".xyz".toList := by rfl
    rw [this]
    simp only [List.map_cons, List.map_nil, pad, List.append_assoc, List.mem_cons, List.not_mem_nil,
      List.append_cancel_left_eq]
    decide
  · have : simFiles name "extras_bias".toList "xyz".toList 0 1
        = [0].map fun b => name ++ '_' :: padBead 1 b ++ [] := by rfl
    rw [this]
    simp only [List.map_cons, List.map_nil, pad, List.append_assoc, List.mem_cons, List.not_mem_nil,
      List.append_cancel_left_eq]
    decide
  · have : simFiles name "x_centroid".toList "ase".toList 0 1 = [name ++ ".extxyz".toList] := by rfl
    rw [this]
    simp only [List.mem_cons, List.not_mem_nil, List.append_cancel_left_eq]
    decide

/-! ### The hypotheses can be met -/

example : (trim 1 [Src.file ⟨exOut, 0⟩]).1.map File.ofile
    = [[row "# header", row " 0", row " a"]] := by rfl

example : (trim 1 ([⟨exOut, 0⟩].map Src.file)).2 = none :=
  (trim_files (N := 3) (T := 1) (by decide) [⟨exOut, 0⟩]).1

example : (trim 4 [Src.file ⟨exOut, 0⟩]).2 = some .index :=
  short_fails exOut 0 rfl (by decide) (by decide) (by omega)

example : trimSwaps 2 (exHist.lines 3) = [(0, [1, 0])] := by rfl

end Verif.Trim
