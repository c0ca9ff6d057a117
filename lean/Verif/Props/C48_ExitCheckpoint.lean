import Verif.Props.C23_KillRestart
/-!
# C48: the checkpoint written at a soft exit

Specification: the restart file is right if its state is the one of the uninterrupted run at its step number (`ideal`).

True when the exit is served in the main thread outside `store()`, at any point of the run. False when the request arrives inside
`store()` (the step number is one too large), and when the monitor thread serves it while the main thread leaves the loop: the number may be
one too large, a step may be saved whose outputs were never written, and with several systems a half-made step may be saved.
-/
namespace Verif.Run
variable {X : Type}

/-- **C48 (main thread).** After any clean history, a soft exit at any point writes a right restart file. -/
theorem exit_in_main_partial (cfg : Cfg X) (x0 : X) (sts : List Stop) (hc : ∀ st ∈ sts, st.clean) {start : Nat × X}
    {disk : List (Row X)} {file} (hr : sessions cfg (0, x0) [] none sts = some (start, disk, file)) (n : Nat) {r}
    (h : session cfg start disk file (.soft n) = some r) : r.1.2 = ideal cfg x0 r.1.1 := by
  have h0 : GoodStart cfg x0 (0, x0) [] := ⟨rfl, (fun r hr => by cases hr), fun hp => absurd hp (Nat.lt_irrefl 0)⟩
  exact (session_clean (st := .soft n) (sessions_clean sts h0 hc hr) trivial h).1

/-- **C48 (end of the loop).** Leaving the loop after a complete step saves that step, with its number. -/
theorem exit_after_step (cfg : Cfg X) (x0 : X) (sts : List Stop) (hc : ∀ st ∈ sts, st.clean) {start : Nat × X}
    {disk : List (Row X)} {file} (hr : sessions cfg (0, x0) [] none sts = some (start, disk, file)) (n : Nat) {r}
    (h : session cfg start disk file (.afterStep n) = some r) : r.1 = (start.1 + n + 1, ideal cfg x0 (start.1 + n + 1)) := by
  have h0 : GoodStart cfg x0 (0, x0) [] := ⟨rfl, (fun r hr => by cases hr), fun hp => absurd hp (Nat.lt_irrefl 0)⟩
  have h1 := (session_clean (st := .afterStep n) (sessions_clean sts h0 hc hr) trivial h).1
  have h2 : r.1.1 = start.1 + n + 1 := by
    simp only [session] at h
    split at h
    · cases h
    · simp only [saveRestart, Option.some.injEq] at h
      subst h
      exact if_pos (by omega)
  rw [h2] at h1
  exact Prod.ext h2 h1

/-- **C48 (rolled back by at most one stride).** After `m` complete steps and any part of the next one, a soft exit rolls back to a stored
step at most `safe_stride` before. -/
theorem rollback_bounded (cfg : Cfg X) (hs : 0 < cfg.safe) (start : Nat × X) (disk : List (Row X)) (file) (m n : Nat) :
    start.1 + m < (execs (boot start disk file) (stepsActs cfg start.1 m ++ (stepActs cfg (start.1 + m)).take n)).stored.1 + cfg.safe + 1 := by
  have key : ∀ (m : Nat) (k : Nat) (s : St X), Fresh cfg.safe k s → Fresh cfg.safe (k + m) (execs s (stepsActs cfg k m)) := by
    intro m
    induction m with
    | zero => intro k s h; exact h
    | succ m ih =>
      intro k s h
      simp only [stepsActs, execs_append]
      have := fresh_step h _ (Nat.le_refl _)
      rw [List.take_length] at this
      have := ih _ _ this
      rwa [show k + 1 + m = k + (m + 1) by omega] at this
  have h1 := key m start.1 (boot start disk file) ⟨Nat.le_refl _, fun a h1 h2 => absurd (Nat.lt_trans h1 h2) (Nat.lt_irrefl _)⟩
  rw [execs_append]
  generalize execs (boot start disk file) (stepsActs cfg start.1 m) = s at h1
  have hst : ∀ as : List (Act X), (∀ a ∈ as, a ∈ stepActs cfg (start.1 + m)) →
      (execs s as).stored.1 = s.stored.1 ∨ (execs s as).stored.1 = start.1 + m := by
    intro as
    suffices H : ∀ s' : St X, (s'.stored.1 = s.stored.1 ∨ s'.stored.1 = start.1 + m) → (∀ a ∈ as, a ∈ stepActs cfg (start.1 + m)) →
        (execs s' as).stored.1 = s.stored.1 ∨ (execs s' as).stored.1 = start.1 + m from H s (.inl rfl)
    induction as with
    | nil => intro s' h _; exact h
    | cons a as ih =>
      intro s' h ha
      refine ih _ ?_ (fun b hb => ha b (List.mem_cons_of_mem _ hb))
      have := ha a List.mem_cons_self
      simp only [stepActs, List.mem_append, List.mem_map] at this
      rcases this with (h' | ⟨f, _, rfl⟩) | h'
      · split at h'
        · rw [List.mem_singleton] at h'; subst h'; exact .inr rfl
        · cases h'
      · exact h
      · rw [(exec_out (isOut_outActs _ _ a h') s').2.1]; exact h
  rcases hst _ (fun a ha => List.mem_of_mem_take ha) with h | h
  · rw [h]
    rcases Nat.lt_or_ge s.stored.1 (start.1 + m) with hlt | hge
    · have := fresh_near (k := start.1 + m - 1) (j := s.stored.1) hs (by omega) (fun a h2 h3 => h1.2 a h2 (by omega))
      omega
    · omega
  · rw [h]; omega

/-- Non-vacuity: interrupted in the middle of step 3 with a stride of two, the restart file holds step 2. -/
example : (session (counter [.rows 0 1 1] 2 9) (0, 0) [] none (.soft 10)).map (·.1) = some (2, 2) := by decide +kernel

/-- **C48 fails inside `store()`.** For every configuration, the state stored at the beginning of step `k` is saved with number `k + 1`. -/
theorem exit_in_store_wrong (cfg : Cfg X) (start : Nat × X) (disk : List (Row X)) (file) (n k : Nat) (hlt : start.1 < cfg.total)
    (hk : k < cfg.total) (h : (runActs cfg start.1)[n]? = some (.store k)) :
    (session cfg start disk file (.inStore n)).map (·.1) =
      some (k + 1, (execs (boot start disk file) ((runActs cfg start.1).take n)).x) := by
  simp only [session, h, saveRestart, if_neg (Nat.not_le.2 hlt), if_pos hk, if_true, Option.map_some]

/-- The consequence: the step is lost and the trajectory is one step behind its numbers; row 2 never appears. -/
theorem exit_in_store_loses_row :
    (sessions (counter [.rows 0 1 1] 1 4) (0, 0) [] none [.inStore 4]).map
      (fun r => (r.1, labels 0 (finish (counter [.rows 0 1 1] 1 4) r.1 r.2.1 r.2.2).disk,
        (finish (counter [.rows 0 1 1] 1 4) r.1 r.2.1 r.2.2).x)) = some ((2, 1), [0, 1, 3, 4], 3) := by decide +kernel

/-! ### exit served by the monitor thread -/

/-- Specification: trajectory from a start `(j, x)`. -/
def traj (f : Nat → X → X) (j : Nat) (x : X) : Nat → X
  | 0 => x
  | n + 1 => f (j + n) (traj f j x n)

/-- What holds as long as the main thread has not left the loop. -/
structure RInv (f : Nat → X → X) (j : Nat) (x0 : X) (s : Race X × MPc) : Prop where
  ge : ∃ n, s.1.it = j + n
  stored : ∃ n, s.1.stored = (j + n, traj f j x0 n) ∧ j + n ≤ s.1.it
  rows : ∀ n, j + n < s.1.it → (j + n + 1, traj f j x0 (n + 1)) ∈ s.1.rows
  top : s.2 = .top → ∀ n, s.1.it = j + n → s.1.x = traj f j x0 n
  mid : s.2 = .store ∨ s.2 = .move → s.1.step = s.1.it ∧ ∀ n, s.1.it = j + n → s.1.x = traj f j x0 n
  out : s.2 = .out → s.1.step = s.1.it ∧ (s.1.triggered = false → ∀ n, s.1.it = j + n → s.1.x = traj f j x0 (n + 1))
  left : s.2 = .left → s.1.rollback = false
  back : s.2 ≠ .left → s.1.rollback = true

theorem rinv_step {f g : Nat → X → X} {j : Nat} {x0 : X} {s : Race X × MPc} (h : RInv f j x0 s) (a : RAct) :
    RInv f j x0 (rexec f g s a) := by
  obtain ⟨s, pc⟩ := s
  cases a with
  | mainTop =>
    simp only [rexec]
    split
    · rename_i hpc; subst hpc
      split
      · exact ⟨h.ge, h.stored, h.rows, (by intro e; cases e), (by rintro (e | e) <;> cases e), (by intro e; cases e), fun _ => rfl,
          fun e => absurd rfl e⟩
      · exact ⟨h.ge, h.stored, h.rows, (by intro e; cases e), (fun _ => ⟨rfl, h.top rfl⟩), (by intro e; cases e), (by intro e; cases e),
          fun _ => h.back (by intro e; cases e)⟩
    · exact h
  | mainStore =>
    simp only [rexec]
    split
    · rename_i hpc; subst hpc
      obtain ⟨n, hn⟩ := h.ge
      obtain ⟨h1, h2⟩ := h.mid (.inl rfl)
      exact ⟨h.ge, ⟨n, Prod.ext (h1.trans hn) (h2 n hn), Nat.le_of_eq hn.symm⟩, h.rows, (by intro e; cases e), (fun _ => ⟨h1, h2⟩),
        (by intro e; cases e), (by intro e; cases e), fun _ => h.back (by intro e; cases e)⟩
    · exact h
  | mainMove =>
    simp only [rexec]
    split
    · rename_i hpc; subst hpc
      obtain ⟨h1, h2⟩ := h.mid (.inr rfl)
      refine ⟨h.ge, h.stored, h.rows, (by intro e; cases e), (by rintro (e | e) <;> cases e), (fun _ => ⟨h1, ?_⟩), (by intro e; cases e),
        fun _ => h.back (by intro e; cases e)⟩
      intro ht n hn
      have ht : s.triggered = false := ht
      have hn : s.it = j + n := hn
      have h1 : s.step = s.it := h1
      simp only [ht, Bool.false_eq_true, if_false]
      rw [traj, h1, hn]
      congr 1
      exact h2 n hn
    · exact h
  | mainOut =>
    simp only [rexec]
    split
    · rename_i hpc; subst hpc
      obtain ⟨h1, h2⟩ := h.out rfl
      split
      · exact ⟨h.ge, h.stored, h.rows, (by intro e; cases e), (by rintro (e | e) <;> cases e), (by intro e; cases e), fun _ => rfl,
          fun e => absurd rfl e⟩
      · rename_i ht
        replace ht : s.triggered = false := by simpa using ht
        obtain ⟨n, hn⟩ := h.ge
        have hn : s.it = j + n := hn
        have h1 : s.step = s.it := h1
        obtain ⟨k, hk, hle⟩ := h.stored
        have hx := h2 ht n hn
        refine ⟨⟨n + 1, by show s.it + 1 = _; omega⟩, ⟨k, hk, Nat.le_succ_of_le hle⟩, ?_, ?_, (by rintro (e | e) <;> cases e),
          (by intro e; cases e), (by intro e; cases e), fun _ => h.back (by intro e; cases e)⟩
        · intro m hm
          have hm : j + m < s.it + 1 := hm
          refine List.mem_append.2 ?_
          rcases Nat.lt_or_ge (j + m) s.it with h' | h'
          · exact .inl (h.rows m h')
          · right
            have : m = n := by omega
            subst this
            rw [List.mem_singleton, ← hx, h1, hn]
        · intro _ m hm
          have hm : s.it + 1 = j + m := hm
          have : m = n + 1 := by omega
          subst this
          exact hx
    · exact h
  | exitFlag =>
    exact ⟨h.ge, h.stored, h.rows, h.top, h.mid, (fun e => ⟨(h.out e).1, fun ht => by cases ht⟩), h.left, h.back⟩
  | exitSave => exact ⟨h.ge, h.stored, h.rows, h.top, h.mid, h.out, h.left, h.back⟩

/-- **C48 (monitor thread).** Under every interleaving, if the main thread is still inside its loop when the restart file is written, that
file holds a state of the uninterrupted run with its number, and all rows up to that number have been written. -/
theorem exit_thread_partial (f g : Nat → X → X) (j total : Nat) (x0 : X) (acts : List RAct)
    (hin : (rrun f g ({ step := j, it := j, total := total, x := x0, stored := (j, x0) }, .top) acts).2 ≠ .left) :
    ∃ n, (rrun f g ({ step := j, it := j, total := total, x := x0, stored := (j, x0) }, .top) (acts ++ [.exitSave])).1.restart =
        some (j + n, traj f j x0 n) ∧
      ∀ m, m < n → (j + m + 1, traj f j x0 (m + 1)) ∈
        (rrun f g ({ step := j, it := j, total := total, x := x0, stored := (j, x0) }, .top) (acts ++ [.exitSave])).1.rows := by
  have happ : ∀ (l1 l2 : List RAct) (s : Race X × MPc), rrun f g s (l1 ++ l2) = rrun f g (rrun f g s l1) l2 := by
    intro l1 l2
    induction l1 with
    | nil => intro s; rfl
    | cons a l1 ih => intro s; exact ih _
  have hinv : ∀ (acts : List RAct) (s : Race X × MPc), RInv f j x0 s → RInv f j x0 (rrun f g s acts) := by
    intro acts
    induction acts with
    | nil => intro s h; exact h
    | cons a acts ih => intro s h; exact ih _ (rinv_step h a)
  have h0 : RInv f j x0 ({ step := j, it := j, total := total, x := x0, stored := (j, x0) }, .top) :=
    ⟨⟨0, rfl⟩, ⟨0, rfl, Nat.le_refl _⟩, (fun n hn => absurd hn (by show ¬ j + n < j; omega)),
      (fun _ n hn => by
        have hn : j = j + n := hn
        have : n = 0 := by omega
        subst this; rfl),
      (by rintro (e | e) <;> cases e), (by intro e; cases e), (by intro e; cases e), fun _ => rfl⟩
  have h := hinv acts _ h0
  rw [happ]
  generalize rrun f g ({ step := j, it := j, total := total, x := x0, stored := (j, x0) }, .top) acts = s at h hin
  obtain ⟨n, hn, hle⟩ := h.stored
  refine ⟨n, ?_, fun m hm => h.rows m (by omega)⟩
  simp only [rrun, rexec, saveRestart, h.back hin]
  exact congrArg some hn

/-- Non-vacuity, two steps of a counter. -/
example : (rrun (fun _ => (· + 1)) (fun _ => id) (({ step := 0, it := 0, total := 9, x := 0, stored := (0, 0) } : Race Nat), .top)
    [.mainTop, .mainStore, .mainMove, .mainOut, .mainTop, .mainStore, .exitFlag, .mainMove, .exitSave]).1.restart = some (1, 1) := by
  decide +kernel

/-- **C48 and C23 fail for the monitor thread (1).** The main thread finishes its step, sees the request, skips the output and leaves; the
restart file then says step 1 is done, but its row was never written. -/
theorem exit_thread_loses_row :
    let s := (rrun (fun _ => (· + 1)) (fun _ => (· + 1)) (({ step := 0, it := 0, total := 9, x := 0, stored := (0, 0) } : Race Nat), .top)
      [.mainTop, .mainStore, .mainMove, .exitFlag, .mainOut, .exitSave]).1
    s.restart = some (1, 1) ∧ s.rows = [] := by decide +kernel

/-- **C48 fails for the monitor thread (2).** The request is seen at the top of the loop: the number saved is one too large. -/
theorem exit_thread_mislabels :
    (rrun (fun _ => (· + 1)) (fun _ => (· + 1)) (({ step := 0, it := 0, total := 9, x := 0, stored := (0, 0) } : Race Nat), .top)
      [.mainTop, .mainStore, .mainMove, .mainOut, .exitFlag, .mainTop, .exitSave]).1.restart = some (2, 1) := by decide +kernel

/-- **C48 fails for the monitor thread (3).** With two systems `run_step` returns after the first one, and the half-made step is saved. -/
theorem exit_thread_saves_half_step :
    (rrun (fun _ (x : Nat × Nat) => (x.1 + 1, x.2 + 1)) (fun _ (x : Nat × Nat) => (x.1 + 1, x.2))
      (({ step := 0, it := 0, total := 9, x := (0, 0), stored := (0, (0, 0)) } : Race (Nat × Nat)), .top)
      [.mainTop, .mainStore, .exitFlag, .mainMove, .mainOut, .exitSave]).1.restart = some (1, (1, 0)) := by decide +kernel

end Verif.Run
