import Verif.Props.C23_KillRestart
import Verif.Run.Columns
import Verif.Util
/-!
# C24: which rows are written, and in which columns

Rows: in a run from step `j` to the end, a file with stride `s` receives exactly the labels that `s` divides, in order, once each; a fresh
run also prints label 0.

Columns: the values of each property are found in the columns announced by the header whenever every value has the declared length. This
holds for the property table for all numbers of beads and atoms, except `atom_x_path` and `atom_f_path`, announced as one column but written
as three per bead, and negative atom indices, for which nothing is written in three announced columns.
-/
namespace Verif.Run
variable {X : Type}

/-- Labels due for a stride: those in `(j, j + n]`. -/
def dueAfter (stride j n : Nat) : List Nat := (List.range' (j + 1) n).filter (fun l => l % stride = 0)

theorem labels_append (f : Nat) (l1 l2 : List (Row X)) : labels f (l1 ++ l2) = labels f l1 ++ labels f l2 := by
  simp only [labels, List.filter_append, List.map_append]

theorem filter_file_eq (f : Nat) (l : List (Row X)) (r : Row X) (h : r.file = f) :
    labels f (l.filter (·.file == r.file)) = labels f l ∧ labels f (l.filter (·.file != r.file)) = [] := by
  subst h
  constructor
  · simp only [labels, List.filter_filter, Bool.and_self]
  · simp only [labels, List.filter_filter, List.map_eq_nil_iff, List.filter_eq_nil_iff]
    intro a _
    cases h : a.file == r.file <;> simp [bne, h]

theorem filter_file_ne (f : Nat) (l : List (Row X)) (r : Row X) (h : r.file ≠ f) :
    labels f (l.filter (·.file == r.file)) = [] ∧ labels f (l.filter (·.file != r.file)) = labels f l := by
  constructor
  · simp only [labels, List.filter_filter, List.map_eq_nil_iff, List.filter_eq_nil_iff]
    intro a _ h'
    simp only [Bool.and_eq_true, beq_iff_eq] at h'
    exact h (h'.2.symm.trans h'.1)
  · simp only [labels, List.filter_filter]
    congr 1
    refine List.filter_congr fun a _ => ?_
    by_cases h1 : a.file = f
    · simp [bne, h1, Ne.symm h]
    · simp [h1]

theorem labels_writeRow (f fl : Nat) (r : Row X) (s : St X) :
    labels f (log (writeRow fl r s)) = labels f (log s) ++ if r.file = f then [r.label] else [] := by
  have hone : labels f [r] = if r.file = f then [r.label] else [] := by
    by_cases h : r.file = f <;> simp [labels, h]
  unfold writeRow log
  dsimp only
  split
  · dsimp only
    by_cases h : r.file = f
    · rw [labels_append, labels_append, (filter_file_eq f _ r h).1, (filter_file_eq f _ r h).2, List.append_nil, labels_append,
        labels_append, hone, List.append_assoc]
    · rw [labels_append, labels_append, (filter_file_ne f _ r h).1, (filter_file_ne f _ r h).2, List.append_nil, labels_append,
        labels_append, hone, List.append_assoc]
  · dsimp only
    rw [labels_append, labels_append, labels_append, hone, List.append_assoc]

theorem labels_outs_other (f l : Nat) (outs : List Out) (h : ∀ o ∈ outs, ∀ st fl, o ≠ .rows f st fl) (s : St X) :
    labels f (log (execs s (outs.flatMap (outActs l)))) = labels f (log s) := by
  induction outs generalizing s with
  | nil => rfl
  | cons o outs ih =>
    rw [List.flatMap_cons, execs_append, ih (fun o ho => h o (List.mem_cons_of_mem _ ho))]
    cases o with
    | rows g st fl =>
      have : g ≠ f := fun e => h _ List.mem_cons_self st fl (by rw [e])
      simp only [outActs, execs, exec]
      split
      · rw [labels_writeRow, if_neg this, List.append_nil]
      · rfl
    | checkpoint st =>
      simp only [outActs, execs, exec]
      split <;> rfl

theorem labels_outs (f st fl l : Nat) (o1 o2 : List Out) (h1 : ∀ o ∈ o1 ++ o2, ∀ st fl, o ≠ .rows f st fl) (s : St X) :
    labels f (log (execs s ((o1 ++ .rows f st fl :: o2).flatMap (outActs l)))) = labels f (log s) ++ if l % st = 0 then [l] else [] := by
  rw [List.flatMap_append, execs_append, List.flatMap_cons, execs_append,
    labels_outs_other f l o2 (fun o ho => h1 o (List.mem_append_right _ ho))]
  have := labels_outs_other f l o1 (fun o ho => h1 o (List.mem_append_left _ ho)) s
  simp only [outActs, execs, exec]
  split
  · rw [labels_writeRow, this, if_pos rfl]
  · rw [this, List.append_nil]

theorem labels_step {cfg : Cfg X} {f st fl : Nat} {o1 o2 : List Out} (ho : cfg.outs = o1 ++ .rows f st fl :: o2)
    (h1 : ∀ o ∈ o1 ++ o2, ∀ st fl, o ≠ .rows f st fl) (k : Nat) (s : St X) :
    labels f (log (execs s (stepActs cfg k))) = labels f (log s) ++ if (k + 1) % st = 0 then [k + 1] else [] := by
  unfold stepActs
  rw [execs_append, execs_append, execs_move, ho, labels_outs f st fl (k + 1) o1 o2 h1]
  congr 1
  split <;> rfl

theorem labels_steps {cfg : Cfg X} {f st fl : Nat} {o1 o2 : List Out} (ho : cfg.outs = o1 ++ .rows f st fl :: o2)
    (h1 : ∀ o ∈ o1 ++ o2, ∀ st fl, o ≠ .rows f st fl) (n : Nat) : ∀ (k : Nat) (s : St X),
    labels f (log (execs s (stepsActs cfg k n))) = labels f (log s) ++ dueAfter st k n := by
  induction n with
  | zero => intro k s; simp [stepsActs, execs, dueAfter]
  | succ n ih =>
    intro k s
    rw [stepsActs, execs_append, ih, labels_step ho h1, List.append_assoc]
    congr 1
    rw [dueAfter, dueAfter, List.range'_succ, List.filter_cons]
    by_cases h : (k + 1) % st = 0 <;> simp [h]

/-- **C24 (rows, restarted run).** A run restarted at step `j` adds to each file exactly the labels due after `j`, in order, once each. -/
theorem restart_rows_exact {cfg : Cfg X} {f st fl : Nat} {o1 o2 : List Out} (ho : cfg.outs = o1 ++ .rows f st fl :: o2)
    (h1 : ∀ o ∈ o1 ++ o2, ∀ st fl, o ≠ .rows f st fl) (start : Nat × X) (hj : 0 < start.1) (disk : List (Row X)) (file) :
    labels f (finish cfg start disk file).disk = labels f disk ++ dueAfter st start.1 (cfg.total - start.1) := by
  have : (finish cfg start disk file).disk = log (execs (boot start disk file) (runActs cfg start.1)) := rfl
  have hne : ¬ start.1 = 0 := by omega
  rw [this]
  simp only [runActs, initActs, if_neg hne, List.nil_append]
  rw [labels_steps ho h1]
  simp only [boot, log, if_neg hne, List.append_nil]

/-- **C24 (rows, fresh run).** A run from the beginning writes exactly the labels `0, s, 2s, ...` up to the number of steps. -/
theorem fresh_rows_exact {cfg : Cfg X} {f st fl : Nat} {o1 o2 : List Out} (ho : cfg.outs = o1 ++ .rows f st fl :: o2)
    (h1 : ∀ o ∈ o1 ++ o2, ∀ st fl, o ≠ .rows f st fl) (x0 : X) (disk : List (Row X)) (file) :
    labels f (finish cfg (0, x0) disk file).disk = (List.range (cfg.total + 1)).filter (fun l => l % st = 0) := by
  have : (finish cfg (0, x0) disk file).disk = log (execs (boot (0, x0) disk file) (runActs cfg 0)) := rfl
  rw [this]
  simp only [runActs, initActs, if_true]
  rw [execs_append, labels_steps ho h1, ho, labels_outs f st fl 0 o1 o2 h1]
  simp only [Nat.zero_mod, if_true, boot, log, labels, dueAfter, List.append_nil, List.filter_nil, List.map_nil, List.nil_append]
  rw [List.range_eq_range', List.range'_succ, List.filter_cons]
  simp

/-- Non-vacuity: five steps, stride two, started at 0 and at 3. -/
example : labels 7 (finish (counter [.checkpoint 3, .rows 7 2 1] 1 5) (0, 0) [] none).disk = [0, 2, 4] ∧
    labels 7 (finish (counter [.checkpoint 3, .rows 7 2 1] 1 6) (3, 3) [] none).disk = [4, 6] := by decide +kernel

end Verif.Run

namespace Verif.Columns

/-- **C24 (columns).** If every value has the length declared for it, the header is accepted and the values of each property are found
exactly in the columns announced for it. -/
theorem columns_right {V : Type} (ps : List (Decl × Quantity V))
    (h : ∀ p ∈ ps, (p.1 = .absent ∧ p.2.values.length = 1) ∨ (p.1 = .num p.2.values.length ∧ 0 < p.2.values.length)) :
    ∃ cs, header 1 (ps.map (·.1)) = .ok cs ∧ cs.length = ps.length ∧
      (∀ (i : Nat) (p : Decl × Quantity V) (c : Nat × Nat), ps[i]? = some p → cs[i]? = some c →
        ((row (ps.map (·.2))).drop (c.1 - 1)).take c.2 = p.2.values) ∧
      (row (ps.map (·.2))).length = (cs.map (·.2)).sum := by
  suffices H : ∀ (ps : List (Decl × Quantity V)) (pre : List V),
      (∀ p ∈ ps, (p.1 = .absent ∧ p.2.values.length = 1) ∨ (p.1 = .num p.2.values.length ∧ 0 < p.2.values.length)) →
      ∃ cs, header (pre.length + 1) (ps.map (·.1)) = .ok cs ∧ cs.length = ps.length ∧
        (∀ (i : Nat) (p : Decl × Quantity V) (c : Nat × Nat), ps[i]? = some p → cs[i]? = some c →
          ((pre ++ row (ps.map (·.2))).drop (c.1 - 1)).take c.2 = p.2.values) ∧
        (row (ps.map (·.2))).length = (cs.map (·.2)).sum from H ps [] h
  clear h ps
  intro ps
  induction ps with
  | nil => intro pre _; exact ⟨[], rfl, rfl, (fun i p c h => by cases h), rfl⟩
  | cons p ps ih =>
    intro pre h
    have hone : headerOne (pre.length + 1) p.1 = .ok (pre.length + 1, p.2.values.length) := by
      rcases h p List.mem_cons_self with ⟨e, e2⟩ | ⟨e, e2⟩
      · rw [e, e2]; rfl
      · rw [e]
        simp only [headerOne]
        split
        · rename_i h1
          have : p.2.values.length = 1 := by omega
          rw [this]
        · rw [if_neg (by omega), Int.toNat_natCast]
    obtain ⟨cs, h1, h2, h3, h4⟩ := ih (pre ++ p.2.values) (fun q hq => h q (List.mem_cons_of_mem _ hq))
    refine ⟨(pre.length + 1, p.2.values.length) :: cs, ?_, by simp [h2], ?_, ?_⟩
    · simp only [List.map_cons, header, hone]
      rw [List.length_append, Nat.add_right_comm] at h1
      rw [h1]
    · intro i q c hq hc
      cases i with
      | zero =>
        simp only [List.getElem?_cons_zero, Option.some.injEq] at hq hc
        subst hq; subst hc
        simp only [Nat.add_sub_cancel, row, List.map_cons, List.flatMap_cons]
        rw [List.drop_left, List.take_left]
      | succ i =>
        simp only [List.getElem?_cons_succ] at hq hc
        have := h3 i q c hq hc
        rw [List.append_assoc] at this
        simpa only [row, List.map_cons, List.flatMap_cons] using this
    · simp only [List.map_cons, row, List.flatMap_cons, List.length_append, List.sum_cons] at h4 ⊢
      omega

/-- A table entry is honest if the value always has the declared length. -/
def Honest (natoms nbeads : Nat) (atom bead : Int) (e : String × Decl × Shape) : Prop :=
  ∀ n, e.2.2.len natoms nbeads atom bead = .ok n →
    (e.2.1.bound nbeads = .absent ∧ n = 1) ∨ (e.2.1.bound nbeads = .num n ∧ 0 < n)

theorem slice_atom (natoms : Nat) (atom : Int) (h0 : 0 ≤ atom) (h : atom < natoms) : sliceLen (3 * natoms) (3 * atom) (3 * (atom + 1)) = 3 := by
  unfold sliceLen
  dsimp only
  rw [if_neg (by omega), if_neg (by omega)]
  omega

/-- **C24 (table, partial).** For every number of atoms and beads and every non-negative atom index, every property except the two path
properties returns as many values as the header announces. -/
theorem table_honest_partial (natoms nbeads : Nat) (hb : 0 < nbeads) (atom bead : Int) (ha : 0 ≤ atom) :
    ∀ e ∈ table, e.1 ≠ "atom_x_path" → e.1 ≠ "atom_f_path" → Honest natoms nbeads atom bead e := by
  have hcls : ∀ e ∈ table, (e.1 = "atom_x_path" ∨ e.1 = "atom_f_path") ∨ (e.2 = (.absent, .scalar)) ∨ (e.2 = (.num 1, .scalar)) ∨
      (e.2 = (.beads, .beads)) ∨ (e.2 = (.num 3, .atom)) ∨ (e.2.1 = .num 2 ∧ e.2.2 = .vec 2) ∨ (e.2.1 = .num 3 ∧ e.2.2 = .vec 3) ∨
      (e.2.1 = .num 5 ∧ e.2.2 = .vec 5) ∨ (e.2.1 = .num 6 ∧ e.2.2 = .vec 6) ∨ (e.2.1 = .num 7 ∧ e.2.2 = .vec 7) := by decide +kernel
  intro e he h1 h2 n hn
  rcases hcls e he with (h | h) | h | h | h | h | h | h | h | h | h
  · exact absurd h h1
  · exact absurd h h2
  · rw [h] at hn ⊢; simp only [Shape.len, Except.ok.injEq] at hn; subst hn; exact .inl ⟨rfl, rfl⟩
  · rw [h] at hn ⊢; simp only [Shape.len, Except.ok.injEq] at hn; subst hn; exact .inr ⟨rfl, by decide⟩
  · rw [h] at hn ⊢; simp only [Shape.len, Except.ok.injEq] at hn; subst hn; exact .inr ⟨rfl, hb⟩
  · rw [h] at hn ⊢
    simp only [Shape.len, atomLen] at hn
    split at hn
    · cases hn
    · split at hn
      · cases hn
      · rw [slice_atom natoms atom ha (by omega)] at hn
        simp only [if_true, ite_self, Except.ok.injEq] at hn
        subst hn; exact .inr ⟨rfl, by decide⟩
  all_goals
    rw [h.2] at hn; rw [h.1]; simp only [Shape.len, Except.ok.injEq] at hn; subst hn; exact .inr ⟨rfl, by decide⟩

/-- Non-vacuity: the table has such entries with several columns, and `bead_potentials` is one of them. -/
example : ("bead_potentials", Decl.beads, Shape.beads) ∈ table ∧ ("stress_md", Decl.num 6, Shape.vec 6) ∈ table ∧
    Shape.atom.len 4 2 3 1 = .ok 3 := by decide +kernel

/-- **C24 fails for path properties.** Announced as one column, they write three numbers per bead. -/
theorem path_columns_wrong (natoms nbeads : Nat) (atom bead : Int) :
    ∃ e ∈ table, e.1 = "atom_x_path" ∧ ¬ Honest natoms nbeads atom bead e := by
  refine ⟨("atom_x_path", .absent, .path), by decide +kernel, rfl, fun h => ?_⟩
  have := h (3 * nbeads) rfl
  rcases this with ⟨_, h⟩ | ⟨h, _⟩
  · omega
  · cases h

/-- The columns of a property listed after a path property are wrong: with two beads the value 7 is announced in column 2 but written in
column 7. -/
theorem path_shifts_columns : header 1 [.absent, .absent] = .ok [(1, 1), (2, 1)] ∧
    (row [Quantity.vec [1, 2, 3, 4, 5, 6], .scalar 7])[1]? = some 2 ∧ (row [Quantity.vec [1, 2, 3, 4, 5, 6], .scalar 7])[6]? = some 7 := by
  decide +kernel

/-- **C24 fails for atom index −1.** Three columns are announced and nothing is written. -/
theorem negative_atom_wrong (natoms nbeads : Nat) (hb : 0 < nbeads) :
    ∃ e ∈ table, e.1 = "atom_x" ∧ e.2.2.len natoms nbeads (-1) 0 = .ok 0 ∧ e.2.1.bound nbeads = .num 3 := by
  refine ⟨("atom_x", .num 3, .atom), by decide +kernel, rfl, ?_, rfl⟩
  have h : sliceLen (3 * natoms) (3 * (-1)) (3 * (-1 + 1)) = 0 := by
    unfold sliceLen
    simp only [show (3 : Int) * (-1) = -3 by decide, show (3 : Int) * (-1 + 1) = 0 by decide]
    rw [if_neg (by omega), if_pos (by omega)]
    omega
  simp only [Shape.len, atomLen, if_neg (show ¬ (natoms : Int) ≤ -1 by omega), if_neg (show ¬ (nbeads : Int) ≤ 0 by omega), h]
  rfl

/-- **C24 (trajectories).** Each write goes to exactly the streams that were opened; an index beyond the last bead is an error. -/
theorem beads_written (ibead : Int) (nbeads : Nat) :
    (ibead < nbeads → ∃ bs, written ibead nbeads = .ok bs ∧
      ∀ b, b ∈ bs ↔ b < nbeads ∧ ((ibead < 0 ∧ (b : Int) % (-ibead) = 0) ∨ ibead = b)) ∧
    ((nbeads : Int) ≤ ibead → written ibead nbeads = .error "ValueError") := by
  have hlen : (opened ibead nbeads).length = nbeads := by simp [opened]
  have hget : ∀ b, b < nbeads → (opened ibead nbeads).getD b false =
      ((decide (ibead < 0) && decide ((b : Int) % (-ibead) = 0)) || decide (ibead = (b : Int))) := by
    intro b hb
    rw [List.getD_eq_getElem?_getD]
    simp [opened, List.getElem?_range hb]
  constructor
  · intro h
    unfold written
    dsimp only
    rw [hlen]
    split
    · refine ⟨_, rfl, fun b => ?_⟩
      rw [List.mem_filter, List.mem_range]
      constructor
      · rintro ⟨h1, h2⟩
        rw [hget b h1] at h2
        simp only [Bool.or_eq_true, Bool.and_eq_true, decide_eq_true_eq] at h2
        exact ⟨h1, h2⟩
      · rintro ⟨h1, h2⟩
        refine ⟨h1, ?_⟩
        rw [hget b h1]
        simp only [Bool.or_eq_true, Bool.and_eq_true, decide_eq_true_eq]
        exact h2
    · rename_i hn
      have hb : ibead.toNat < nbeads := by omega
      rw [hget _ hb]
      have : ibead = (ibead.toNat : Int) := by omega
      simp only [decide_eq_true this, Bool.or_true, if_true]
      refine ⟨_, rfl, fun b => ?_⟩
      rw [List.mem_singleton]
      constructor
      · intro e; subst e; exact ⟨hb, .inr this⟩
      · rintro ⟨_, (⟨h, _⟩ | h)⟩ <;> omega
  · intro h
    unfold written
    dsimp only
    rw [hlen, if_neg (by omega), if_neg (by omega)]

/-- Non-vacuity. -/
example : written (-2) 5 = .ok [0, 2, 4] ∧ written 3 5 = .ok [3] := by decide +kernel

end Verif.Columns
