import Verif.Run.Interactive
import Verif.Run.Lemmas
/-! C127: a simulation driven from a script is the same simulation. -/
namespace Verif.Run
variable {X : Type}

/-! ## Specification -/

/-- What a user can see of a simulation: the physical state, the rows of the outputs (on disk and not flushed yet), the checkpoint file,
the number of the step, the RESTART file. -/
def Sim.seen (s : Sim X) : (X × List (Row X) × List (Row X) × Option (Nat × X)) × Nat × Option (Nat × X) :=
  ((s.st.x, s.st.disk, s.st.buf, s.st.file), s.step, s.restart)

/-- The physical state after steps `k`, `k + 1`, ... (`n` of them). -/
def advance (cfg : Cfg X) (k : Nat) : Nat → X → X
  | 0, x => x
  | n + 1, x => advance cfg (k + 1) n ((cfg.parts k).foldl (fun x f => f x) x)

/-- A command that runs is written as single steps. -/
def single : Cmd X → List (Cmd X)
  | .run n w => List.replicate n (.run 1 w)
  | .edit f => [.edit f]

/-- The commands that run make at least one step. -/
def Proper : Cmd X → Prop
  | .run n _ => 0 < n
  | .edit _ => True

/-! ## Auxiliary facts -/

/-- Everything but the state kept for the RESTART file. -/
def core (s : St X) : X × List (Row X) × List (Row X) × Option (Nat × X) := (s.x, s.disk, s.buf, s.file)

theorem core_exec {s t : St X} (h : core s = core t) (a : Act X) : core (exec s a) = core (exec t a) := by
  obtain ⟨x, st, d, b, f⟩ := s
  obtain ⟨x', st', d', b', f'⟩ := t
  simp only [core, Prod.mk.injEq] at h
  obtain ⟨rfl, rfl, rfl, rfl⟩ := h
  cases a with
  | store k => rfl
  | move f => rfl
  | row file stride flush label =>
    simp only [exec]
    split
    · unfold writeRow; dsimp only; split <;> rfl
    · rfl
  | trunc stride label => simp only [exec]; split <;> rfl
  | ckpt stride label => simp only [exec]; split <;> rfl

theorem core_execs (as : List (Act X)) : ∀ {s t : St X}, core s = core t → core (execs s as) = core (execs t as) := by
  induction as with
  | nil => intro s t h; exact h
  | cons a as ih => intro s t h; exact ih (core_exec h a)

theorem stepsActs_add (cfg : Cfg X) (m : Nat) : ∀ n k, stepsActs cfg k (n + m) = stepsActs cfg k n ++ stepsActs cfg (k + n) m := by
  intro n
  induction n with
  | zero => intro k; rw [Nat.zero_add]; rfl
  | succ n ih =>
    intro k
    rw [show n + 1 + m = (n + m) + 1 by omega]
    simp only [stepsActs, ih, List.append_assoc]
    rw [show k + 1 + n = k + (n + 1) by omega]

theorem stepsActs_total (cfg : Cfg X) (T : Nat) : ∀ n k, stepsActs { cfg with total := T } k n = stepsActs cfg k n := by
  intro n
  induction n with
  | zero => intro k; rfl
  | succ n ih => intro k; simp only [stepsActs, ih]; rfl

/-- The outputs wanted. -/
def mute (cfg : Cfg X) (w : Bool) : Cfg X := { cfg with outs := if w then cfg.outs else [] }

theorem pieceActs (cfg : Cfg X) (j n : Nat) (w : Bool) :
    runActs (pieceCfg cfg j n w) j = initActs (mute cfg w) j ++ stepsActs (mute cfg w) j n := by
  unfold runActs
  have : pieceCfg cfg j n w = { mute cfg w with total := j + n } := rfl
  rw [this, stepsActs_total]
  simp only [Nat.add_sub_cancel_left]
  rfl

theorem initActs_pos (cfg : Cfg X) {j : Nat} (h : 0 < j) : initActs cfg j = [] := by
  unfold initActs
  rw [if_neg (by omega)]

theorem lastStep_pos {j n : Nat} (h : 0 < n) : lastStep j n + 1 = j + n := by
  unfold lastStep
  rw [if_neg (by omega)]
  omega

theorem run_step (cfg : Cfg X) {n : Nat} (h : 0 < n) (w : Bool) (s : Sim X) : (s.run cfg n w).step = s.step + n := lastStep_pos h

theorem seen_eq {s t : Sim X} (h1 : core s.st = core t.st) (h2 : s.step = t.step) (h3 : s.restart = t.restart) : s.seen = t.seen := by
  unfold Sim.seen
  simp only [core, Prod.mk.injEq] at h1
  rw [h1.1, h1.2.1, h1.2.2.1, h1.2.2.2, h2, h3]

theorem seen_core {s t : Sim X} (h : s.seen = t.seen) : core s.st = core t.st ∧ s.step = t.step ∧ s.restart = t.restart := by
  simp only [Sim.seen, Prod.mk.injEq] at h
  obtain ⟨⟨h1, h2, h3, h4⟩, h5, h6⟩ := h
  exact ⟨by unfold core; rw [h1, h2, h3, h4], h5, h6⟩

theorem run_core (cfg : Cfg X) (n : Nat) (w : Bool) (s : Sim X) :
    core (s.run cfg n w).st = core (execs s.st (initActs (mute cfg w) s.step ++ stepsActs (mute cfg w) s.step n)) := by
  unfold Sim.run
  dsimp only
  rw [pieceActs]
  rfl

theorem run_restart (cfg : Cfg X) (n : Nat) (w : Bool) (s : Sim X) :
    (s.run cfg n w).restart = some ((s.run cfg n w).step, (s.run cfg n w).st.x) := rfl

theorem cmd_congr (cfg : Cfg X) (c : Cmd X) {s t : Sim X} (h : s.seen = t.seen) : (s.cmd cfg c).seen = (t.cmd cfg c).seen := by
  obtain ⟨h1, h2, h3⟩ := seen_core h
  cases c with
  | run n w =>
    have hc : core (s.run cfg n w).st = core (t.run cfg n w).st := by
      rw [run_core, run_core, h2]; exact core_execs _ h1
    have hs : (s.run cfg n w).step = (t.run cfg n w).step := by
      show lastStep s.step n + 1 = lastStep t.step n + 1; rw [h2]
    refine seen_eq hc hs ?_
    show (s.run cfg n w).restart = (t.run cfg n w).restart
    rw [run_restart, run_restart, hs, show (s.run cfg n w).st.x = (t.run cfg n w).st.x from congrArg Prod.fst hc]
  | edit f =>
    refine seen_eq ?_ h2 h3
    simp only [core, Prod.mk.injEq] at h1
    show (f s.st.x, s.st.disk, s.st.buf, s.st.file) = (f t.st.x, t.st.disk, t.st.buf, t.st.file)
    rw [h1.1, h1.2.1, h1.2.2.1, h1.2.2.2]

theorem script_congr (cfg : Cfg X) (cs : List (Cmd X)) : ∀ {s t : Sim X}, s.seen = t.seen → (s.script cfg cs).seen = (t.script cfg cs).seen := by
  induction cs with
  | nil => intro s t h; exact h
  | cons c cs ih => intro s t h; exact ih (cmd_congr cfg c h)

theorem script_append (cfg : Cfg X) (as bs : List (Cmd X)) : ∀ s : Sim X, s.script cfg (as ++ bs) = (s.script cfg as).script cfg bs := by
  induction as with
  | nil => intro s; rfl
  | cons a as ih => intro s; exact ih _

/-! ## Runs in pieces -/

/-- **C127.** Running `n + m` steps is the same as running `n` and then `m`: same state, rows, checkpoints, number of the step and RESTART. -/
theorem run_split (cfg : Cfg X) {n m : Nat} (hn : 0 < n) (hm : 0 < m) (w : Bool) (s : Sim X) :
    ((s.run cfg n w).run cfg m w).seen = (s.run cfg (n + m) w).seen := by
  have hs : (s.run cfg n w).step = s.step + n := run_step cfg hn w s
  have hc : core ((s.run cfg n w).run cfg m w).st = core (s.run cfg (n + m) w).st := by
    rw [run_core, run_core, hs, initActs_pos _ (by omega), List.nil_append, stepsActs_add, ← List.append_assoc, execs_append _ (_ ++ _)]
    exact core_execs _ (run_core cfg n w s)
  have ht : ((s.run cfg n w).run cfg m w).step = (s.run cfg (n + m) w).step := by
    rw [run_step cfg hm, hs, run_step cfg (by omega : 0 < n + m)]; omega
  refine seen_eq hc ht ?_
  rw [run_restart, run_restart, ht, show ((s.run cfg n w).run cfg m w).st.x = (s.run cfg (n + m) w).st.x from congrArg Prod.fst hc]

theorem run_singles (cfg : Cfg X) (w : Bool) : ∀ (n : Nat) (s : Sim X), 0 < n →
    (s.run cfg n w).seen = (s.script cfg (List.replicate n (.run 1 w))).seen := by
  intro n
  induction n with
  | zero => intro s h; omega
  | succ n ih =>
    intro s _
    rcases Nat.eq_zero_or_pos n with rfl | h
    · rfl
    · rw [Nat.add_comm, ← run_split cfg (by omega) h, Nat.add_comm, List.replicate_succ]
      exact ih _ h

/-- **C127.** How many steps each call makes is of no importance: a script gives what it gives step by step, with any changes made by
the script in between. -/
theorem script_single (cfg : Cfg X) (cs : List (Cmd X)) : ∀ (s : Sim X), (∀ c ∈ cs, Proper c) →
    (s.script cfg cs).seen = (s.script cfg (cs.flatMap single)).seen := by
  induction cs with
  | nil => intro s _; rfl
  | cons c cs ih =>
    intro s h
    rw [List.flatMap_cons, script_append]
    refine (ih (s.cmd cfg c) (fun c' h' => h c' (List.mem_cons_of_mem _ h'))).trans ?_
    apply script_congr
    cases c with
    | run n w => exact run_singles cfg w n s (h _ List.mem_cons_self)
    | edit f => rfl

/-- **C127.** A simulation run in pieces from the beginning shows the same state, rows and checkpoints as one that is run in one go by the program
`i-pi` with as many steps in total. -/
theorem script_is_run (cfg : Cfg X) (x0 : X) (file : Option (Nat × X)) (ns : List Nat) (hp : ∀ n ∈ ns, 0 < n) (hne : ns ≠ []) :
    let s := (Sim.load (0, x0) [] file).script cfg (ns.map (fun n => .run n true))
    let r := execs (boot (0, x0) [] file) (runActs { cfg with total := ns.sum } 0)
    (s.st.x, s.st.disk, s.st.buf, s.st.file) = (r.x, r.disk, r.buf, r.file) ∧ s.step = ns.sum ∧ s.restart = some (ns.sum, r.x) := by
  have key : ∀ (ns : List Nat) (s : Sim X), (∀ n ∈ ns, 0 < n) → ns ≠ [] →
      (s.script cfg (ns.map (fun n => .run n true))).seen = (s.run cfg ns.sum true).seen := by
    intro ns
    induction ns with
    | nil => intro s _ h; exact absurd rfl h
    | cons n ns ih =>
      intro s h _
      by_cases hns : ns = []
      · subst hns; simp only [List.map_cons, List.map_nil, List.sum_cons, List.sum_nil, Nat.add_zero]; rfl
      · have h' : ∀ m ∈ ns, 0 < m := fun m hm => h m (List.mem_cons_of_mem _ hm)
        rw [List.sum_cons, List.map_cons]
        have hsum : 0 < ns.sum := by
          obtain ⟨m, l, rfl⟩ := List.exists_cons_of_ne_nil hns
          have := h' m List.mem_cons_self
          rw [List.sum_cons]; omega
        rw [← run_split cfg (h n List.mem_cons_self) hsum]
        exact ih _ h' hns
  intro s r
  have hsum : 0 < ns.sum := by
    obtain ⟨m, l, rfl⟩ := List.exists_cons_of_ne_nil hne
    have := hp m List.mem_cons_self
    rw [List.sum_cons]; omega
  obtain ⟨h1, h2, h3⟩ := seen_core (key ns (Sim.load (0, x0) [] file) hp hne)
  have hr : core ((Sim.load (0, x0) [] file).run cfg ns.sum true).st = core r := by
    unfold Sim.run
    dsimp only
    show core (execs (boot (0, x0) [] file) (runActs (pieceCfg cfg 0 ns.sum true) 0)) = _
    unfold pieceCfg
    rw [Nat.zero_add]
    rfl
  refine ⟨h1.trans hr, h2.trans ?_, h3.trans ?_⟩
  · rw [run_step cfg hsum]; exact Nat.zero_add _
  · rw [run_restart, run_step cfg hsum, show ((Sim.load (0, x0) [] file).run cfg ns.sum true).st.x = r.x from congrArg Prod.fst hr]
    show some (0 + ns.sum, r.x) = _
    rw [Nat.zero_add]

/-! ## The physical state, and runs without output -/

theorem execs_steps_x (cfg : Cfg X) : ∀ (n k : Nat) (s : St X), (execs s (stepsActs cfg k n)).x = advance cfg k n s.x := by
  intro n
  induction n with
  | zero => intro k s; rfl
  | succ n ih =>
    intro k s
    simp only [stepsActs, execs_append, ih]
    show advance cfg (k + 1) n _ = advance cfg (k + 1) n _
    congr 1
    unfold stepActs
    rw [execs_append, execs_append, (execs_out _ (isOut_outActs _ _) _).1, execs_move]
    split <;> rfl

theorem advance_mute (cfg : Cfg X) (w : Bool) : ∀ (n k : Nat) (x : X), advance (mute cfg w) k n x = advance cfg k n x := by
  intro n
  induction n with
  | zero => intro k x; rfl
  | succ n ih => intro k x; exact ih _ _

/-- **C127.** A call makes exactly the steps it is asked for, whether or not outputs are written. -/
theorem run_state (cfg : Cfg X) (n : Nat) (w : Bool) (s : Sim X) : (s.run cfg n w).st.x = advance cfg s.step n s.st.x := by
  have h := congrArg Prod.fst (run_core cfg n w s)
  refine h.trans ?_
  show (execs _ _).x = _
  rw [execs_append, execs_steps_x, advance_mute]
  congr 1
  unfold initActs
  split
  · exact (execs_out _ (isOut_outActs _ _) _).1
  · rfl

theorem execs_quiet (cfg : Cfg X) (h : cfg.outs = []) : ∀ (n k : Nat) (s : St X),
    (execs s (stepsActs cfg k n)).disk = s.disk ∧ (execs s (stepsActs cfg k n)).buf = s.buf ∧ (execs s (stepsActs cfg k n)).file = s.file := by
  intro n
  induction n with
  | zero => intro k s; exact ⟨rfl, rfl, rfl⟩
  | succ n ih =>
    intro k s
    simp only [stepsActs, execs_append]
    obtain ⟨h1, h2, h3⟩ := ih (k + 1) (execs s (stepActs cfg k))
    have : (execs s (stepActs cfg k)).disk = s.disk ∧ (execs s (stepActs cfg k)).buf = s.buf ∧ (execs s (stepActs cfg k)).file = s.file := by
      unfold stepActs
      rw [h, List.flatMap_nil, List.append_nil, execs_append, execs_move]
      split <;> exact ⟨rfl, rfl, rfl⟩
    exact ⟨h1.trans this.1, h2.trans this.2.1, h3.trans this.2.2⟩

/-- **C127.** With `write_outputs=False` nothing is added to any output. -/
theorem run_quiet (cfg : Cfg X) (n : Nat) (s : Sim X) :
    (s.run cfg n false).st.disk = s.st.disk ∧ (s.run cfg n false).st.buf = s.st.buf ∧ (s.run cfg n false).st.file = s.st.file := by
  have h := run_core cfg n false s
  have hi : initActs (mute cfg false) s.step = [] := by unfold initActs; split <;> rfl
  rw [hi, List.nil_append] at h
  obtain ⟨h1, h2, h3⟩ := execs_quiet (mute cfg false) rfl n s.step s.st
  simp only [core, Prod.mk.injEq] at h
  exact ⟨h.2.1.trans h1, h.2.2.1.trans h2, h.2.2.2.trans h3⟩

/-! ## Going on from the RESTART file -/

/-- **C127.** After a call the RESTART file holds the number of steps made and the state of the simulation. -/
theorem restart_current (cfg : Cfg X) {n : Nat} (h : 0 < n) (w : Bool) (s : Sim X) :
    (s.run cfg n w).restart = some (s.step + n, advance cfg s.step n s.st.x) := by
  rw [run_restart, run_step cfg h, run_state]

/-- **C127.** A script that goes on from the RESTART file of an earlier one has the states and steps of a script that was never left. -/
theorem restart_continues (cfg : Cfg X) (n : Nat) (w : Bool) (s : Sim X) (disk : List (Row X)) (file : Option (Nat × X)) (r : Nat × X)
    (hr : (s.run cfg n w).restart = some r) (cs : List (Cmd X)) :
    let a := (s.run cfg n w).script cfg cs
    let b := (Sim.load r disk file).script cfg cs
    a.st.x = b.st.x ∧ a.step = b.step := by
  have key : ∀ (cs : List (Cmd X)) (a b : Sim X), a.st.x = b.st.x → a.step = b.step →
      (a.script cfg cs).st.x = (b.script cfg cs).st.x ∧ (a.script cfg cs).step = (b.script cfg cs).step := by
    intro cs
    induction cs with
    | nil => intro a b h1 h2; exact ⟨h1, h2⟩
    | cons c cs ih =>
      intro a b h1 h2
      cases c with
      | edit f => exact ih _ _ (congrArg f h1) h2
      | run n w =>
        have e1 : (a.run cfg n w).st.x = (b.run cfg n w).st.x := by rw [run_state, run_state, h1, h2]
        have e2 : (a.run cfg n w).step = (b.run cfg n w).step := congrArg (fun j => lastStep j n + 1) h2
        exact ih _ _ e1 e2
  rw [run_restart] at hr
  cases hr
  exact key cs _ _ rfl rfl

/-- **C127.** A signal right after a call leaves the right RESTART file. -/
theorem exit_current_partial (cfg : Cfg X) (n : Nat) (w : Bool) (s : Sim X) (total : Nat) :
    (s.run cfg n w).exit total = ((s.run cfg n w).step, (s.run cfg n w).st.x) := rfl

/-! ## What fails -/

/-- **C127 fails.** After a change made by the script, a signal leaves a RESTART file with the state before that change. -/
theorem exit_forgets_edit (cfg : Cfg X) (n : Nat) (w : Bool) (s : Sim X) (total : Nat) (f : X → X) :
    ((s.run cfg n w).edit f).exit total = ((s.run cfg n w).step, (s.run cfg n w).st.x) ∧
      ((s.run cfg n w).edit f).st.x = f (s.run cfg n w).st.x := ⟨rfl, rfl⟩

/-- **C127 fails.** A call with no steps counts one: the state is the same, the number of the step is not, in memory and in the RESTART
file. -/
theorem run_zero (cfg : Cfg X) (w : Bool) (s : Sim X) :
    (s.run cfg 0 w).st.x = s.st.x ∧ (s.run cfg 0 w).step = s.step + 1 ∧ (s.run cfg 0 w).restart = some (s.step + 1, s.st.x) := by
  have h := run_state cfg 0 w s
  refine ⟨h, rfl, ?_⟩
  rw [run_restart, h]
  rfl

/-- **C127 fails.** So step `j` is left out: what follows is made with step `j + 1`. -/
theorem run_zero_skips (cfg : Cfg X) (n : Nat) (w : Bool) (s : Sim X) :
    ((s.run cfg 0 w).run cfg n w).st.x = advance cfg (s.step + 1) n s.st.x := by
  rw [run_state, (run_zero cfg w s).1, (run_zero cfg w s).2.1]

/-- **C127 fails.** A simulation in which step `k` adds `k`, written at every step: the row after the first step is missing. -/
theorem run_zero_row_missing :
    let cfg : Cfg Nat := { parts := fun k => [fun x => x + k + 1], outs := [.rows 0 1 1], safe := 1, total := 10 }
    let s := (Sim.load (0, 0) [] none).script cfg [.run 0 true, .run 2 true]
    let t := (Sim.load (0, 0) [] none).script cfg [.run 2 true]
    s.st.disk.map (fun r => (r.label, r.state)) = [(0, 0), (2, 2), (3, 5)] ∧
      t.st.disk.map (fun r => (r.label, r.state)) = [(0, 0), (1, 1), (2, 3)] := by
  refine ⟨rfl, rfl⟩

/-- **C127 fails.** If the first steps are made without outputs, the initial configuration is never written, although outputs are on
afterwards. -/
theorem initial_row_missing :
    let cfg : Cfg Nat := { parts := fun k => [fun x => x + k + 1], outs := [.rows 0 2 1], safe := 1, total := 10 }
    let s := (Sim.load (0, 0) [] none).script cfg [.run 1 false, .run 3 true]
    s.st.disk.map (fun r => (r.label, r.state)) = [(2, 3), (4, 10)] := rfl

/-! ## The hypotheses can be met -/

/-- A simulation in which step `k` adds `k + 1`. -/
def counting : Cfg Nat := { parts := fun k => [fun x => x + k + 1], outs := [.rows 0 2 3, .checkpoint 2], safe := 2, total := 10 }

example := run_split counting (n := 2) (m := 3) (by decide) (by decide) true (Sim.load (0, 7) [] none)
example := script_single counting [.run 2 true, .edit (· * 10), .run 3 false] (Sim.load (0, 7) [] none)
  (by intro c hc; simp only [List.mem_cons, List.not_mem_nil, or_false] at hc; rcases hc with rfl | rfl | rfl <;> simp [Proper])
example := script_is_run counting 7 none [2, 3] (by decide) (by decide)
example : ((Sim.load (0, 7) [] none).script counting [.run 2 true, .run 3 true]).st.x = 22 := rfl
example : (((Sim.load (0, 7) [] none).script counting [.run 2 true, .run 3 true]).st.disk ++
    ((Sim.load (0, 7) [] none).script counting [.run 2 true, .run 3 true]).st.buf).map (fun r => (r.label, r.state)) = [(0, 7), (2, 10), (4, 17)] := rfl
example : ((Sim.load (0, 7) [] none).script counting [.run 2 true, .run 3 true]).restart = some (5, 22) := rfl
example := run_state counting 3 false (Sim.load (0, 7) [] none)
example := run_quiet counting 3 (Sim.load (0, 7) [] none)
example := restart_current counting (n := 3) (by decide) true (Sim.load (0, 7) [] none)
example := restart_continues counting 3 true (Sim.load (0, 7) [] none) [] none (3, 13) rfl [.run 2 true, .edit (· + 1)]
example := exit_current_partial counting 3 true (Sim.load (0, 7) [] none) 10
example : ((Sim.load (0, 7) [] none).script counting [.run 3 true, .edit (fun _ => 0)]).exit 10 = (3, 13) := rfl
example := run_zero counting true (Sim.load (0, 7) [] none)
example := run_zero_skips counting 2 true (Sim.load (0, 7) [] none)

end Verif.Run
