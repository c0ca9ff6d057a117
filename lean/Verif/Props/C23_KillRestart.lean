import Verif.Run.Lemmas
/-!
# C23: kill and restart

Specification: `ideal cfg x0 k` is the state after `k` steps of a run that is never interrupted; `Sound` says that every row printed shows
the state of that run at its label; `Covers` says that all rows due up to a label are there.

Interruptions by a signal served in the main thread between two elementary actions, and regular ends of the loop, lose nothing, however
often they happen. A hard kill loses nothing if every output flushes each row and the checkpoint is the last output; otherwise rows are
lost, and a kill while the checkpoint is being rewritten leaves none. Rows are also lost when the exit request falls inside `store()`,
when the exit is served by the monitor thread, and at the step at which a motion reports that it is finished.
-/
namespace Verif.Run
variable {X : Type}

/-- Ends served by the main thread outside `store()`. -/
def Stop.clean : Stop → Prop
  | .soft _ => True
  | .afterStep _ => True
  | _ => False

theorem session_clean {cfg : Cfg X} {x0 : X} {start : Nat × X} {disk : List (Row X)} {file} (h : GoodStart cfg x0 start disk)
    {st : Stop} (hc : st.clean) {r} (hr : session cfg start disk file st = some r) : GoodStart cfg x0 r.1 r.2.1 := by
  cases st with
  | soft n =>
    simp only [session] at hr
    split at hr
    · cases hr
    · simp only [saveRestart, Option.some.injEq] at hr
      subst hr
      have := safe_run_prefix h file n
      exact ⟨this.2.1, this.1, this.2.2⟩
  | afterStep n =>
    simp only [session] at hr
    split at hr
    · cases hr
    · rename_i hlt
      simp only [saveRestart, Option.some.injEq] at hr
      subst hr
      have hb := between_steps (n := n + 1) (between_init h file)
      rw [execs_append]
      have e : (if start.1 + n < cfg.total then start.1 + n + 1 else start.1 + n) = start.1 + (n + 1) := by
        rw [if_pos (by omega)]; omega
      simp only [e]
      exact ⟨hb.2.1, hb.1.1, fun _ => hb.2.2⟩
  | inStore n => exact hc.elim
  | finished n => exact hc.elim
  | kill n => exact hc.elim

theorem sessions_clean {cfg : Cfg X} {x0 : X} (sts : List Stop) : ∀ {start : Nat × X} {disk : List (Row X)} {file},
    GoodStart cfg x0 start disk → (∀ st ∈ sts, st.clean) → ∀ {r}, sessions cfg start disk file sts = some r → GoodStart cfg x0 r.1 r.2.1 := by
  induction sts with
  | nil =>
    intro start disk file h _ r hr
    simp only [sessions, Option.some.injEq] at hr
    subst hr; exact h
  | cons st sts ih =>
    intro start disk file h hc r hr
    simp only [sessions] at hr
    split at hr
    · cases hr
    · rename_i e
      exact ih (session_clean h (hc st List.mem_cons_self) e) (fun s hs => hc s (List.mem_cons_of_mem _ hs)) hr

/-- **C23 (soft interruptions).** After any number of soft interruptions, each at any point outside `store()`, the restart file holds the
state of the uninterrupted run at its step, and a last session run to the end leaves every row due, each with the right state. -/
theorem soft_restarts_partial (cfg : Cfg X) (x0 : X) (sts : List Stop) (hc : ∀ st ∈ sts, st.clean) {start : Nat × X}
    {disk : List (Row X)} {file} (hr : sessions cfg (0, x0) [] none sts = some (start, disk, file)) :
    start.2 = ideal cfg x0 start.1 ∧
      (start.1 ≤ cfg.total → (finish cfg start disk file).x = ideal cfg x0 cfg.total ∧ Sound cfg x0 (finish cfg start disk file).disk ∧
        Covers cfg (finish cfg start disk file).disk cfg.total) := by
  have h0 : GoodStart cfg x0 (0, x0) [] := ⟨rfl, (fun r hr => by cases hr), fun hp => absurd hp (Nat.lt_irrefl 0)⟩
  have h := sessions_clean sts h0 hc hr
  refine ⟨h.1, fun hle => ?_⟩
  have hb := between_steps (n := cfg.total - start.1) (between_init h file)
  rw [← execs_append, show start.1 + (cfg.total - start.1) = cfg.total by omega] at hb
  exact ⟨hb.2.1, hb.1.1, hb.2.2⟩

/-! ### how much is repeated -/

/-- No row goes further than the stored step plus the safe stride. -/
def Near (safe : Nat) (s : St X) : Prop := ∀ r ∈ log s, r.label ≤ s.stored.1 + safe

/-- No multiple of the safe stride between the stored step and `k`. -/
def Fresh (safe k : Nat) (s : St X) : Prop := s.stored.1 ≤ k ∧ ∀ m, s.stored.1 < m → m < k → m % safe ≠ 0

theorem fresh_near {safe k j : Nat} (hs : 0 < safe) (h : j ≤ k) (hm : ∀ m, j < m → m ≤ k → m % safe ≠ 0) : k < j + safe := by
  rcases Nat.lt_or_ge k (j + safe) with h' | h'
  · exact h'
  · exfalso
    have h1 := Nat.div_add_mod j safe
    have h2 := Nat.mod_lt j hs
    refine hm (safe * (j / safe + 1)) ?_ ?_ (Nat.mul_mod_right ..)
    · rw [Nat.mul_add]; omega
    · rw [Nat.mul_add]; omega

theorem near_out {safe l : Nat} {s : St X} (h : Near safe s) (hl : l ≤ s.stored.1 + safe) (as : List (Act X)) (ha : ∀ a ∈ as, IsOut l a) :
    Near safe (execs s as) := by
  obtain ⟨_, i2, _, i4⟩ := execs_out as ha s
  intro r hr
  rw [i2]
  rcases i4 r hr with h' | h'
  · exact h r h'
  · omega

theorem near_store {cfg : Cfg X} {k : Nat} {s : St X} (h : Near cfg.safe s) (hf : Fresh cfg.safe k s) :
    Near cfg.safe (exec s (.store k)) := by
  intro r hr
  have := h r hr
  have := hf.1
  show r.label ≤ k + cfg.safe
  omega

theorem fresh_step {cfg : Cfg X} {k : Nat} {s : St X} (hf : Fresh cfg.safe k s) (n : Nat) (hn : (stepActs cfg k).length ≤ n) :
    Fresh cfg.safe (k + 1) (execs s ((stepActs cfg k).take n)) := by
  rw [List.take_of_length_le hn]
  unfold stepActs
  rw [execs_append, execs_append, execs_move]
  obtain ⟨_, i2, _, _⟩ := execs_out (cfg.outs.flatMap (outActs (k + 1))) (isOut_outActs _ _)
    ({ execs s (if k % cfg.safe = 0 then [.store k] else []) with
        x := (cfg.parts k).foldl (fun x f => f x) (execs s (if k % cfg.safe = 0 then [.store k] else [])).x } : St X)
  unfold Fresh
  rw [i2]
  split
  · refine ⟨?_, ?_⟩
    · show k ≤ k + 1; omega
    · intro m h1 h2
      have : k < m := h1
      omega
  · rename_i hk
    refine ⟨?_, ?_⟩
    · have := hf.1
      show s.stored.1 ≤ k + 1
      omega
    · intro m h1 h2
      rcases Nat.lt_or_ge m k with h | h
      · exact hf.2 m h1 h
      · have : m = k := by omega
        subst this; exact hk

theorem near_step_prefix {cfg : Cfg X} (hs : 0 < cfg.safe) {k : Nat} {s : St X} (h : Near cfg.safe s) (hf : Fresh cfg.safe k s) (n : Nat) :
    Near cfg.safe (execs s ((stepActs cfg k).take n)) := by
  unfold stepActs
  rw [List.take_append, List.take_append, execs_append, execs_append]
  by_cases hlen : n < ((if k % cfg.safe = 0 then [Act.store k] else []) ++ (cfg.parts k).map Act.move).length
  · rw [Nat.sub_eq_zero_of_le (Nat.le_of_lt hlen), List.take_zero]
    have h1 : Near cfg.safe (execs s (List.take n (if k % cfg.safe = 0 then [.store k] else []))) := by
      split
      · cases n with
        | zero => exact h
        | succ n => simp only [List.take_succ_cons, List.take_nil]; exact near_store h hf
      · rw [List.take_nil]; exact h
    obtain ⟨y, hy⟩ := execs_take_move (cfg.parts k) (n - (if k % cfg.safe = 0 then [Act.store (X := X) k] else []).length)
      (execs s (List.take n (if k % cfg.safe = 0 then [.store k] else [])))
    rw [hy]
    exact h1
  · have hge := Nat.le_of_not_lt hlen
    rw [List.length_append] at hge
    have e1 : List.take n (if k % cfg.safe = 0 then [Act.store (X := X) k] else []) = (if k % cfg.safe = 0 then [Act.store k] else []) :=
      List.take_of_length_le (by omega)
    have e2 : List.take (n - (if k % cfg.safe = 0 then [Act.store (X := X) k] else []).length) ((cfg.parts k).map Act.move) =
        (cfg.parts k).map Act.move := List.take_of_length_le (by omega)
    rw [e1, e2, execs_move]
    refine near_out ?_ ?_ _ (fun a ha => isOut_outActs (k + 1) cfg.outs a (List.mem_of_mem_take ha))
    · split
      · exact near_store (s := s) h hf
      · exact h
    · split
      · show k + 1 ≤ k + cfg.safe; omega
      · rename_i hk
        have := fresh_near (k := k) hs hf.1 (fun m h1 h2 => by
          rcases Nat.lt_or_ge m k with h' | h'
          · exact hf.2 m h1 h'
          · have : m = k := by omega
            subst this; exact hk)
        show k + 1 ≤ s.stored.1 + cfg.safe
        omega

theorem near_steps_prefix {cfg : Cfg X} (hs : 0 < cfg.safe) {m : Nat} : ∀ {k : Nat} {s : St X}, Near cfg.safe s → Fresh cfg.safe k s →
    ∀ n, Near cfg.safe (execs s ((stepsActs cfg k m).take n)) := by
  induction m with
  | zero => intro k s h _ n; rw [stepsActs, List.take_nil]; exact h
  | succ m ih =>
    intro k s h hf n
    simp only [stepsActs, List.take_append, execs_append]
    by_cases hl : n < (stepActs cfg k).length
    · rw [Nat.sub_eq_zero_of_le (Nat.le_of_lt hl), List.take_zero]
      exact near_step_prefix hs h hf n
    · exact ih (near_step_prefix hs h hf n) (fresh_step hf n (Nat.le_of_not_lt hl)) _

/-- **C23 (repetition).** A soft interruption at any point throws away at most `safe_stride` steps: no row on disk goes beyond the stored
step plus the stride, and a restarted session writes only rows later than its start. -/
theorem repetition_bounded (cfg : Cfg X) (hs : 0 < cfg.safe) (start : Nat × X) (disk : List (Row X)) (file) (hst : 0 < start.1)
    (hd : ∀ r ∈ disk, r.label ≤ start.1 + cfg.safe) (n : Nat) {r} (hr : session cfg start disk file (.soft n) = some r) :
    ∀ row ∈ r.2.1, row.label ≤ r.1.1 + cfg.safe := by
  simp only [session] at hr
  split at hr
  · cases hr
  · simp only [saveRestart, Option.some.injEq] at hr
    subst hr
    dsimp only
    simp only [runActs, initActs, if_neg (show ¬ start.1 = 0 by omega), List.nil_append]
    refine near_steps_prefix hs ?_ ?_ n
    · intro row hrow
      simp only [boot, log, if_neg (show ¬ start.1 = 0 by omega), List.append_nil] at hrow ⊢
      exact hd row hrow
    · exact ⟨Nat.le_refl _, fun m h1 h2 => absurd (Nat.lt_trans h1 h2) (Nat.lt_irrefl _)⟩

theorem steps_rows_later {cfg : Cfg X} {m : Nat} : ∀ {k : Nat} {s : St X} (n : Nat),
    ∀ r ∈ log (execs s ((stepsActs cfg k m).take n)), r ∈ log s ∨ k < r.label := by
  have aux : ∀ (k : Nat) (as : List (Act X)), (∀ a ∈ as, ∃ l, k < l ∧ (IsOut l a ∨ (∀ s, log (exec s a) = log s))) →
      ∀ s, ∀ r ∈ log (execs s as), r ∈ log s ∨ k < r.label := by
    intro k as
    induction as with
    | nil => intro _ s r hr; exact .inl hr
    | cons a as ih =>
      intro h s r hr
      rcases ih (fun b hb => h b (List.mem_cons_of_mem _ hb)) _ r hr with h' | h'
      · obtain ⟨l, hl, h1 | h1⟩ := h a List.mem_cons_self
        · rcases (exec_out h1 s).2.2.2 r h' with h2 | h2
          · exact .inl h2
          · right; omega
        · rw [h1] at h'; exact .inl h'
      · exact .inr h'
  intro k s n
  refine aux k _ (fun a ha => ?_) s
  replace ha := List.mem_of_mem_take ha
  clear aux n s
  induction m generalizing k with
  | zero => cases ha
  | succ m ih =>
    simp only [stepsActs, List.mem_append] at ha
    rcases ha with ha | ha
    · simp only [stepActs, List.mem_append, List.mem_map] at ha
      rcases ha with (ha | ⟨f, _, rfl⟩) | ha
      · refine ⟨k + 1, by omega, .inr ?_⟩
        split at ha
        · rw [List.mem_singleton] at ha; subst ha; exact fun s => rfl
        · cases ha
      · exact ⟨k + 1, by omega, .inr fun s => rfl⟩
      · exact ⟨k + 1, by omega, .inl (isOut_outActs _ _ a ha)⟩
    · obtain ⟨l, hl, h⟩ := ih ha
      exact ⟨l, by omega, h⟩

/-- **C23 (repetition).** A restarted session only adds rows later than the step it starts from. -/
theorem restart_adds_later_rows (cfg : Cfg X) (start : Nat × X) (disk : List (Row X)) (file) (hst : 0 < start.1) (n : Nat) {r}
    (hr : session cfg start disk file (.soft n) = some r) : ∀ row ∈ r.2.1, row ∈ disk ∨ start.1 < row.label := by
  simp only [session] at hr
  split at hr
  · cases hr
  · simp only [saveRestart, Option.some.injEq] at hr
    subst hr
    dsimp only
    simp only [runActs, initActs, if_neg (show ¬ start.1 = 0 by omega), List.nil_append]
    intro row hrow
    have := steps_rows_later n row hrow
    simpa only [boot, log, if_neg (show ¬ start.1 = 0 by omega), List.append_nil] using this

/-! ### hard kills -/

/-- Rows go to disk at once, and the checkpoint is the last output. -/
structure Disciplined (cfg : Cfg X) : Prop where
  split : ∃ rs c, cfg.outs = rs ++ [.checkpoint c] ∧ ∀ o ∈ rs, ∃ f st, o = .rows f st 1

/-- What a kill finds: nothing in buffers, and a checkpoint that is good if complete. -/
def Killable (cfg : Cfg X) (x0 : X) (s : St X) : Prop :=
  s.buf = [] ∧ Sound cfg x0 s.disk ∧ ∀ c, s.file = some c → c.2 = ideal cfg x0 c.1 ∧ (0 < c.1 → Covers cfg s.disk c.1)

theorem writeRow_one (r : Row X) (s : St X) (hb : s.buf = []) : writeRow 1 r s = { s with disk := s.disk ++ [r] } := by
  simp [writeRow, hb, nbuf]

theorem killable_rows {cfg : Cfg X} {x0 : X} {l : Nat} (rs : List Out) (hrs : ∀ o ∈ rs, ∃ f st, o = .rows f st 1) :
    ∀ {s : St X}, Killable cfg x0 s → s.x = ideal cfg x0 l → ∀ n, Killable cfg x0 (execs s ((rs.flatMap (outActs l)).take n)) := by
  induction rs with
  | nil => intro s h _ n; rw [List.flatMap_nil, List.take_nil]; exact h
  | cons o rs ih =>
    intro s h hx n
    obtain ⟨f, st, rfl⟩ := hrs o List.mem_cons_self
    cases n with
    | zero => exact h
    | succ n =>
      simp only [List.flatMap_cons, outActs, List.singleton_append, List.take_succ_cons, execs, exec]
      split
      · rw [writeRow_one _ _ h.1]
        refine ih (fun o ho => hrs o (List.mem_cons_of_mem _ ho)) (s := { s with disk := s.disk ++ [⟨f, l, s.x⟩] }) ?_ hx n
        refine ⟨h.1, ?_, fun c hc => ⟨(h.2.2 c hc).1, fun hp => ((h.2.2 c hc).2 hp).mono fun r hr => List.mem_append_left _ hr⟩⟩
        intro r hr
        rcases List.mem_append.1 hr with h' | h'
        · exact h.2.1 r h'
        · rw [List.mem_singleton] at h'; subst h'; exact hx
      · exact ih (fun o ho => hrs o (List.mem_cons_of_mem _ ho)) h hx n

theorem killable_outs {cfg : Cfg X} (hd : Disciplined cfg) {x0 : X} {l : Nat} {s : St X} (h : Killable cfg x0 s) (hx : s.x = ideal cfg x0 l)
    (hcov : Covers cfg (log s) (l - 1)) (n : Nat) : Killable cfg x0 (execs s ((cfg.outs.flatMap (outActs l)).take n)) := by
  obtain ⟨rs, c, ho, hrs⟩ := hd.split
  have hall := hcov
  rw [ho, List.flatMap_append, List.take_append, execs_append]
  have h1 := killable_rows rs hrs h hx n
  by_cases hn : n ≤ (rs.flatMap (outActs (X := X) l)).length
  · rw [Nat.sub_eq_zero_of_le hn, List.take_zero]; exact h1
  · rw [List.take_of_length_le (by omega)] at h1 ⊢
    obtain ⟨i1, i2, i3, i4⟩ := execs_out (rs.flatMap (outActs (X := X) l)) (isOut_outActs _ _) s
    have hx1 := i1.trans hx
    have hcov1 : Covers cfg (log (execs s (rs.flatMap (outActs l)))) l := by
      intro f st fl hm m hml hmd
      rcases Nat.lt_or_ge m l with h' | h'
      · obtain ⟨r, hr, h2⟩ := hcov f st fl hm m (by omega) hmd
        exact ⟨r, i3 r hr, h2⟩
      · have : m = l := by omega
        subst this
        rw [ho] at hm
        rcases List.mem_append.1 hm with hm | hm
        · exact execs_out_cover rs s f st fl hm hmd
        · simp at hm
    generalize execs s (rs.flatMap (outActs (X := X) l)) = s1 at *
    have hlog : log s1 = s1.disk := by rw [log, h1.1, List.append_nil]
    rw [hlog] at hcov1
    have hfile : Killable cfg x0 { s1 with file := none } := ⟨h1.1, h1.2.1, fun c hc => by cases hc⟩
    simp only [List.flatMap_cons, List.flatMap_nil, List.append_nil, outActs]
    generalize n - (rs.flatMap (outActs (X := X) l)).length = k
    match k with
    | 0 => exact h1
    | 1 =>
      simp only [List.take_succ_cons, List.take_zero, execs, exec]
      split
      · exact hfile
      · exact h1
    | k + 2 =>
      simp only [List.take_succ_cons, List.take_nil, execs, exec]
      split
      · refine ⟨h1.1, h1.2.1, fun c hc => ?_⟩
        simp only [Option.some.injEq] at hc
        subst hc
        exact ⟨hx1, fun _ => hcov1⟩
      · exact h1

theorem killable_step_prefix {cfg : Cfg X} (hd : Disciplined cfg) {x0 : X} {k : Nat} {s : St X} (h : Killable cfg x0 s)
    (hb : Between cfg x0 k s) (n : Nat) : Killable cfg x0 (execs s ((stepActs cfg k).take n)) := by
  unfold stepActs
  rw [List.take_append, execs_append]
  have hst : ∃ y z, execs s (List.take n ((if k % cfg.safe = 0 then [Act.store k] else []) ++ (cfg.parts k).map Act.move)) =
      { s with x := y, stored := z } := by
    rw [List.take_append, execs_append]
    obtain ⟨y, hy⟩ := execs_take_move (cfg.parts k) (n - (if k % cfg.safe = 0 then [Act.store (X := X) k] else []).length)
      (execs s (List.take n (if k % cfg.safe = 0 then [.store k] else [])))
    rw [hy]
    split
    · cases n with
      | zero => exact ⟨y, s.stored, rfl⟩
      | succ n => exact ⟨y, (k, s.x), by simp only [List.take_succ_cons, List.take_nil]; rfl⟩
    · rw [List.take_nil]; exact ⟨y, s.stored, rfl⟩
  by_cases hn : n ≤ ((if k % cfg.safe = 0 then [Act.store (X := X) k] else []) ++ (cfg.parts k).map Act.move).length
  · rw [Nat.sub_eq_zero_of_le hn, List.take_zero]
    obtain ⟨y, z, hy⟩ := hst
    rw [hy]
    exact h
  · rw [List.take_of_length_le (by omega)] at hst ⊢
    have hx : (execs s ((if k % cfg.safe = 0 then [Act.store k] else []) ++ (cfg.parts k).map Act.move)).x = ideal cfg x0 (k + 1) := by
      rw [execs_append, execs_move]
      show (cfg.parts k).foldl (fun x f => f x) _ = (cfg.parts k).foldl (fun x f => f x) _
      rw [← hb.2.1]
      split <;> rfl
    obtain ⟨y, z, hy⟩ := hst
    rw [hy] at hx ⊢
    exact killable_outs hd (l := k + 1) (s := { s with x := y, stored := z }) h hx hb.2.2 _

theorem killable_steps_prefix {cfg : Cfg X} (hd : Disciplined cfg) {x0 : X} {m : Nat} : ∀ {k : Nat} {s : St X}, Killable cfg x0 s →
    Between cfg x0 k s → ∀ n, Killable cfg x0 (execs s ((stepsActs cfg k m).take n)) := by
  induction m with
  | zero => intro k s h _ n; rw [stepsActs, List.take_nil]; exact h
  | succ m ih =>
    intro k s h hb n
    simp only [stepsActs, List.take_append, execs_append]
    by_cases hl : n < (stepActs cfg k).length
    · rw [Nat.sub_eq_zero_of_le (Nat.le_of_lt hl), List.take_zero]
      exact killable_step_prefix hd h hb n
    · have := killable_step_prefix hd h hb n
      rw [List.take_of_length_le (Nat.le_of_not_lt hl)] at this ⊢
      exact ih this (between_step hb) _

theorem killable_run_prefix {cfg : Cfg X} (hd : Disciplined cfg) {x0 : X} {start : Nat × X} {disk : List (Row X)} {file}
    (h : GoodStart cfg x0 start disk) (hf : ∀ c, file = some c → c = start) (n : Nat) :
    Killable cfg x0 (execs (boot start disk file) ((runActs cfg start.1).take n)) := by
  have hsb := safe_boot h file
  have hlog : log (boot start disk file) = (boot start disk file).disk := by rw [log]; exact List.append_nil _
  have hk : Killable cfg x0 (boot start disk file) := by
    refine ⟨rfl, by rw [← hlog]; exact hsb.1, fun c hc => ?_⟩
    have : c = start := hf c hc
    subst this
    exact ⟨h.1, fun hp => by rw [← hlog]; exact hsb.2.2 hp⟩
  unfold runActs
  rw [List.take_append, execs_append]
  have hki : Killable cfg x0 (execs (boot start disk file) ((initActs cfg start.1).take n)) := by
    unfold initActs
    split
    · rename_i h0
      obtain ⟨rs, c, ho, hrs⟩ := hd.split
      have hx : (boot start disk file).x = ideal cfg x0 0 := by rw [← h0]; exact h.1
      -- label 0: nothing has to be covered before the checkpoint
      rw [ho, List.flatMap_append, List.take_append, execs_append]
      have h1 := killable_rows rs hrs hk hx n
      by_cases hn : n ≤ (rs.flatMap (outActs (X := X) 0)).length
      · rw [Nat.sub_eq_zero_of_le hn, List.take_zero]; exact h1
      · rw [List.take_of_length_le (by omega)] at h1 ⊢
        obtain ⟨i1, _, _, _⟩ := execs_out (rs.flatMap (outActs (X := X) 0)) (isOut_outActs _ _) (boot start disk file)
        have hx1 := i1.trans hx
        generalize execs (boot start disk file) (rs.flatMap (outActs (X := X) 0)) = s1 at *
        have hfile : Killable cfg x0 { s1 with file := none } := ⟨h1.1, h1.2.1, fun c hc => by cases hc⟩
        simp only [List.flatMap_cons, List.flatMap_nil, List.append_nil, outActs]
        generalize n - (rs.flatMap (outActs (X := X) 0)).length = k
        match k with
        | 0 => exact h1
        | 1 =>
          simp only [List.take_succ_cons, List.take_zero, execs, exec]
          split
          · exact hfile
          · exact h1
        | k + 2 =>
          simp only [List.take_succ_cons, List.take_nil, execs, exec]
          split
          · refine ⟨h1.1, h1.2.1, fun c hc => ?_⟩
            simp only [Option.some.injEq] at hc
            subst hc
            exact ⟨hx1, fun hp => absurd hp (Nat.lt_irrefl _)⟩
          · exact h1
    · rw [List.take_nil]; exact hk
  by_cases hl : n < (initActs cfg start.1).length
  · rw [Nat.sub_eq_zero_of_le (Nat.le_of_lt hl), List.take_zero]
    exact hki
  · rw [List.take_of_length_le (Nat.le_of_not_lt hl)] at hki ⊢
    exact killable_steps_prefix hd hki (between_init h file) _

/-- **C23 (hard kills).** If every property and trajectory output flushes each row and the checkpoint is the last output, then after any
number of kills, each at any point, as long as a complete checkpoint is found: it holds the state of the uninterrupted run, and a last
session run to the end leaves every row due, each with the right state. -/
theorem hard_kills_partial (cfg : Cfg X) (hd : Disciplined cfg) (x0 : X) (ns : List Nat) {start : Nat × X} {disk : List (Row X)} {file}
    (hr : sessions cfg (0, x0) [] none (ns.map .kill) = some (start, disk, file)) :
    start.2 = ideal cfg x0 start.1 ∧
      (start.1 ≤ cfg.total → (finish cfg start disk file).x = ideal cfg x0 cfg.total ∧ Sound cfg x0 (finish cfg start disk file).disk ∧
        Covers cfg (finish cfg start disk file).disk cfg.total) := by
  have key : ∀ (ns : List Nat) {s0 : Nat × X} {d0 : List (Row X)} {f0}, GoodStart cfg x0 s0 d0 → (∀ c, f0 = some c → c = s0) →
      sessions cfg s0 d0 f0 (ns.map .kill) = some (start, disk, file) → GoodStart cfg x0 start disk := by
    intro ns
    induction ns with
    | nil =>
      intro s0 d0 f0 h _ hr
      simp only [List.map_nil, sessions, Option.some.injEq, Prod.mk.injEq] at hr
      obtain ⟨rfl, rfl, rfl⟩ := hr
      exact h
    | cons n ns ih =>
      intro s0 d0 f0 h hf hr
      simp only [List.map_cons, sessions] at hr
      split at hr
      · cases hr
      · rename_i e
        simp only [session] at e
        split at e
        · cases e
        · split at e
          · cases e
          · rename_i c ec
            simp only [Option.some.injEq, Prod.mk.injEq] at e
            obtain ⟨rfl, rfl, rfl⟩ := e
            have hk := killable_run_prefix hd h hf n
            refine ih ⟨(hk.2.2 _ ec).1, hk.2.1, (hk.2.2 _ ec).2⟩ ?_ hr
            intro c hc
            simp only [Option.some.injEq] at hc
            exact hc.symm
  have h := key ns (s0 := (0, x0)) (d0 := []) (f0 := none) ⟨rfl, (fun r hr => by cases hr), fun hp => absurd hp (Nat.lt_irrefl 0)⟩
    (fun c hc => by cases hc) hr
  refine ⟨h.1, fun hle => ?_⟩
  have hb := between_steps (n := cfg.total - start.1) (between_init h file)
  rw [← execs_append, show start.1 + (cfg.total - start.1) = cfg.total by omega] at hb
  exact ⟨hb.2.1, hb.1.1, hb.2.2⟩

/-! ### where rows are lost

Counting dynamics: the state is the number of steps done. -/

/-- One system whose state counts the steps. -/
def counter (outs : List Out) (safe total : Nat) : Cfg Nat := { parts := fun _ => [(· + 1)], outs, safe, total }

/-- Labels found in a file. -/
def labels (file : Nat) (d : List (Row X)) : List Nat := (d.filter (fun (r : Row X) => r.file == file)).map (fun (r : Row X) => r.label)

/-- Non-vacuity of `soft_restarts_partial`: two interruptions, one of them in the middle of a step. -/
example : (sessions (counter [.rows 0 1 1, .rows 1 2 3, .checkpoint 2] 2 5) (0, 0) [] none [.soft 19, .soft 4]).map
      (fun r => (r.1, labels 0 (finish (counter [.rows 0 1 1, .rows 1 2 3, .checkpoint 2] 2 5) r.1 r.2.1 r.2.2).disk,
        labels 1 (finish (counter [.rows 0 1 1, .rows 1 2 3, .checkpoint 2] 2 5) r.1 r.2.1 r.2.2).disk)) =
    some ((2, 2), [0, 1, 2, 3, 3, 3, 4, 5], [0, 2, 4]) := by decide +kernel

/-- Non-vacuity of `hard_kills_partial`. -/
example : Disciplined (counter [.rows 0 1 1, .checkpoint 2] 1 5) ∧
    (sessions (counter [.rows 0 1 1, .checkpoint 2] 1 5) (0, 0) [] none [.kill 16, .kill 5]).map
      (fun r => (r.1, labels 0 (finish (counter [.rows 0 1 1, .checkpoint 2] 1 5) r.1 r.2.1 r.2.2).disk)) =
    some ((2, 2), [0, 1, 2, 3, 3, 3, 4, 5]) :=
  ⟨⟨[.rows 0 1 1], 2, rfl, by intro o h; rw [List.mem_singleton] at h; exact ⟨0, 1, h⟩⟩, by decide +kernel⟩

/-- A kill loses rows of an output that does not flush every row: row 2 never appears. -/
theorem kill_loses_buffered_rows :
    (sessions (counter [.rows 0 1 2, .checkpoint 1] 1 5) (0, 0) [] none [.kill 14]).map
      (fun r => (r.1, labels 0 (finish (counter [.rows 0 1 2, .checkpoint 1] 1 5) r.1 r.2.1 r.2.2).disk)) =
    some ((2, 2), [0, 1, 3, 4, 5]) := by decide +kernel

/-- A kill loses a row when the checkpoint comes before the output: row 2 never appears. -/
theorem kill_loses_row_after_checkpoint :
    (sessions (counter [.checkpoint 1, .rows 0 1 1] 1 4) (0, 0) [] none [.kill 12]).map
      (fun r => (r.1, labels 0 (finish (counter [.checkpoint 1, .rows 0 1 1] 1 4) r.1 r.2.1 r.2.2).disk)) =
    some ((2, 2), [0, 1, 3, 4]) := by decide +kernel

/-- A kill while the checkpoint is rewritten leaves nothing to resume from. -/
theorem kill_during_checkpoint :
    sessions (counter [.rows 0 1 1, .checkpoint 1] 1 4) (0, 0) [] none [.kill 12] = none ∧
    (sessions (counter [.rows 0 1 1, .checkpoint 1] 1 4) (0, 0) [] none [.kill 13]).isSome = true := by decide +kernel

/-- The step at which the motion reports that it is finished is not printed: row 3 never appears although the run is resumed at 3. -/
theorem finished_step_not_printed :
    (sessions (counter [.rows 0 1 1] 1 4) (0, 0) [] none [.finished 2]).map
      (fun r => (r.1, labels 0 (finish (counter [.rows 0 1 1] 1 4) r.1 r.2.1 r.2.2).disk)) =
    some ((3, 3), [0, 1, 2, 4]) := by decide +kernel

end Verif.Run
