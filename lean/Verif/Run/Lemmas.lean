import Verif.Run.Model
/-! Invariants of the run model, for C23 and C48. -/
namespace Verif.Run
variable {X : Type}

/-- Specification: state after `k` complete steps of an uninterrupted simulation. -/
def ideal (cfg : Cfg X) (x0 : X) : Nat → X
  | 0 => x0
  | k + 1 => (cfg.parts k).foldl (fun x f => f x) (ideal cfg x0 k)

/-- Specification: every row shows the state of the uninterrupted simulation at its label. -/
def Sound (cfg : Cfg X) (x0 : X) (log : List (Row X)) : Prop := ∀ r ∈ log, r.state = ideal cfg x0 r.label

/-- Specification: every output file has all the rows due up to label `n`. -/
def Covers (cfg : Cfg X) (log : List (Row X)) (n : Nat) : Prop :=
  ∀ file stride flush, Out.rows file stride flush ∈ cfg.outs → ∀ l, l ≤ n → l % stride = 0 → ∃ r ∈ log, r.file = file ∧ r.label = l

def log (s : St X) : List (Row X) := s.disk ++ s.buf

theorem mem_log_writeRow (fl : Nat) (r r' : Row X) (s : St X) : r' ∈ log (writeRow fl r s) ↔ r' ∈ log s ∨ r' = r := by
  unfold writeRow log
  dsimp only
  split
  · simp only [List.mem_append, List.mem_filter, List.mem_singleton]
    by_cases h : r'.file = r.file <;> by_cases h2 : r' = r <;> simp [h, h2]
  · simp only [List.mem_append, List.mem_singleton]
    exact (or_assoc).symm

theorem execs_append (s : St X) (l1 l2 : List (Act X)) : execs s (l1 ++ l2) = execs (execs s l1) l2 := by
  induction l1 generalizing s with
  | nil => rfl
  | cons a as ih => exact ih _

/-- Output actions with a given label. -/
def IsOut (l : Nat) : Act X → Prop
  | .row _ _ _ k => k = l
  | .trunc _ k => k = l
  | .ckpt _ k => k = l
  | _ => False

theorem isOut_outActs (l : Nat) (outs : List Out) : ∀ a ∈ outs.flatMap (outActs (X := X) l), IsOut l a := by
  intro a h
  obtain ⟨o, _, h⟩ := List.mem_flatMap.1 h
  cases o with
  | rows f st fl => simp only [outActs, List.mem_singleton] at h; subst h; rfl
  | checkpoint st =>
    simp only [outActs, List.mem_cons, List.not_mem_nil, or_false] at h
    rcases h with h | h <;> subst h <;> rfl

theorem exec_out {l : Nat} {a : Act X} (h : IsOut l a) (s : St X) :
    (exec s a).x = s.x ∧ (exec s a).stored = s.stored ∧ (∀ r ∈ log s, r ∈ log (exec s a)) ∧
      ∀ r ∈ log (exec s a), r ∈ log s ∨ (r.label = l ∧ r.state = s.x) := by
  cases a with
  | store k => exact h.elim
  | move f => exact h.elim
  | row f st fl k =>
    have hk : k = l := h
    subst hk
    simp only [exec]
    split
    · refine ⟨?_, ?_, fun r hr => (mem_log_writeRow ..).2 (.inl hr), fun r hr => ?_⟩
      · unfold writeRow; dsimp only; split <;> rfl
      · unfold writeRow; dsimp only; split <;> rfl
      · rcases (mem_log_writeRow ..).1 hr with h | h
        · exact .inl h
        · subst h; exact .inr ⟨rfl, rfl⟩
    · exact ⟨rfl, rfl, fun r h => h, fun r h => .inl h⟩
  | trunc st k =>
    simp only [exec]
    split <;> exact ⟨rfl, rfl, fun r h => h, fun r h => .inl h⟩
  | ckpt st k =>
    simp only [exec]
    split <;> exact ⟨rfl, rfl, fun r h => h, fun r h => .inl h⟩

theorem execs_out {l : Nat} (as : List (Act X)) (h : ∀ a ∈ as, IsOut l a) (s : St X) :
    (execs s as).x = s.x ∧ (execs s as).stored = s.stored ∧ (∀ r ∈ log s, r ∈ log (execs s as)) ∧
      ∀ r ∈ log (execs s as), r ∈ log s ∨ (r.label = l ∧ r.state = s.x) := by
  induction as generalizing s with
  | nil => exact ⟨rfl, rfl, fun r h => h, fun r h => .inl h⟩
  | cons a as ih =>
    obtain ⟨h1, h2, h3, h4⟩ := exec_out (h a List.mem_cons_self) s
    obtain ⟨i1, i2, i3, i4⟩ := ih (fun b hb => h b (List.mem_cons_of_mem _ hb)) (exec s a)
    refine ⟨i1.trans h1, i2.trans h2, fun r hr => i3 r (h3 r hr), fun r hr => ?_⟩
    rcases i4 r hr with h | h
    · exact h4 r h
    · exact .inr ⟨h.1, h.2.trans h1⟩

theorem execs_out_cover {l : Nat} (outs : List Out) (s : St X) (file stride flush : Nat) (hm : Out.rows file stride flush ∈ outs)
    (hl : l % stride = 0) : ∃ r ∈ log (execs s (outs.flatMap (outActs l))), r.file = file ∧ r.label = l := by
  induction outs generalizing s with
  | nil => cases hm
  | cons o outs ih =>
    rw [List.flatMap_cons, execs_append]
    rcases List.mem_cons.1 hm with h | h
    · subst h
      have := (execs_out (outs.flatMap (outActs l)) (isOut_outActs l outs) (execs s (outActs l (.rows file stride flush)))).2.2.1
      refine ⟨⟨file, l, s.x⟩, this _ ?_, rfl, rfl⟩
      simp only [outActs, execs, exec, if_pos hl]
      exact (mem_log_writeRow ..).2 (.inr rfl)
    · exact ih _ h

theorem execs_move (fs : List (X → X)) (s : St X) :
    execs s (fs.map .move) = { s with x := fs.foldl (fun x f => f x) s.x } := by
  induction fs generalizing s with
  | nil => rfl
  | cons f fs ih => simp only [List.map_cons, execs, exec, ih, List.foldl_cons]

theorem execs_take_move (fs : List (X → X)) (n : Nat) (s : St X) :
    ∃ y, execs s ((fs.map .move).take n) = { s with x := y } := by
  rw [← List.map_take]
  exact ⟨_, execs_move _ _⟩

theorem Sound.out {cfg : Cfg X} {x0 : X} {s s' : St X} {l : Nat} (h : Sound cfg x0 (log s)) (hx : s.x = ideal cfg x0 l)
    (h4 : ∀ r ∈ log s', r ∈ log s ∨ (r.label = l ∧ r.state = s.x)) : Sound cfg x0 (log s') := by
  intro r hr
  rcases h4 r hr with h' | ⟨h1, h2⟩
  · exact h r h'
  · rw [h2, hx, h1]

theorem Covers.mono {cfg : Cfg X} {l1 l2 : List (Row X)} {n : Nat} (h : Covers cfg l1 n) (hs : ∀ r ∈ l1, r ∈ l2) : Covers cfg l2 n := by
  intro f st fl hm l hl hd
  obtain ⟨r, hr, h'⟩ := h f st fl hm l hl hd
  exact ⟨r, hs r hr, h'⟩

/-- What holds at any moment: rows are right, and the stored state is that of a step whose due rows are all written. -/
def Safe (cfg : Cfg X) (x0 : X) (s : St X) : Prop :=
  Sound cfg x0 (log s) ∧ s.stored.2 = ideal cfg x0 s.stored.1 ∧ (0 < s.stored.1 → Covers cfg (log s) s.stored.1)

/-- What holds between steps. -/
def Between (cfg : Cfg X) (x0 : X) (k : Nat) (s : St X) : Prop :=
  Safe cfg x0 s ∧ s.x = ideal cfg x0 k ∧ Covers cfg (log s) k

theorem Safe.out {cfg : Cfg X} {x0 : X} {s : St X} {l : Nat} (h : Safe cfg x0 s) (hx : s.x = ideal cfg x0 l)
    (as : List (Act X)) (ha : ∀ a ∈ as, IsOut l a) : Safe cfg x0 (execs s as) := by
  obtain ⟨i1, i2, i3, i4⟩ := execs_out as ha s
  obtain ⟨h1, h2, h3⟩ := h
  exact ⟨h1.out hx i4, by rw [i2]; exact h2, fun hp => by rw [i2] at hp ⊢; exact (h3 hp).mono i3⟩

/-- The beginning of a step. -/
theorem between_store {cfg : Cfg X} {x0 : X} {k : Nat} {s : St X} (h : Between cfg x0 k s) :
    Between cfg x0 k (exec s (.store k)) :=
  ⟨⟨h.1.1, h.2.1, fun _ => h.2.2⟩, h.2.1, h.2.2⟩

theorem between_step {cfg : Cfg X} {x0 : X} {k : Nat} {s : St X} (h : Between cfg x0 k s) :
    Between cfg x0 (k + 1) (execs s (stepActs cfg k)) := by
  unfold stepActs
  rw [execs_append, execs_append]
  have h1 : Between cfg x0 k (execs s (if k % cfg.safe = 0 then [.store k] else [])) := by
    split
    · exact between_store h
    · exact h
  generalize execs s (if k % cfg.safe = 0 then [.store k] else []) = s1 at h1
  rw [execs_move]
  have hx : ({ s1 with x := (cfg.parts k).foldl (fun x f => f x) s1.x } : St X).x = ideal cfg x0 (k + 1) := by
    show _ = (cfg.parts k).foldl (fun x f => f x) (ideal cfg x0 k)
    rw [← h1.2.1]
  have h2 : Safe cfg x0 { s1 with x := (cfg.parts k).foldl (fun x f => f x) s1.x } := h1.1
  have h3 : Covers cfg (log { s1 with x := (cfg.parts k).foldl (fun x f => f x) s1.x }) k := h1.2.2
  generalize ({ s1 with x := (cfg.parts k).foldl (fun x f => f x) s1.x } : St X) = s2 at hx h2 h3
  obtain ⟨i1, i2, i3, i4⟩ := execs_out (cfg.outs.flatMap (outActs (k + 1))) (isOut_outActs _ _) s2
  refine ⟨h2.out hx _ (isOut_outActs _ _), i1.trans hx, ?_⟩
  intro f st fl hm l hl hd
  rcases Nat.lt_or_ge l (k + 1) with h | h
  · obtain ⟨r, hr, h'⟩ := h3 f st fl hm l (by omega) hd
    exact ⟨r, i3 r hr, h'⟩
  · have : l = k + 1 := by omega
    subst this
    exact execs_out_cover cfg.outs s2 f st fl hm hd

theorem safe_step_prefix {cfg : Cfg X} {x0 : X} {k : Nat} {s : St X} (h : Between cfg x0 k s) (n : Nat) :
    Safe cfg x0 (execs s ((stepActs cfg k).take n)) := by
  unfold stepActs
  rw [List.take_append, List.take_append, execs_append, execs_append]
  by_cases hlen : n < ((if k % cfg.safe = 0 then [Act.store k] else []) ++ (cfg.parts k).map Act.move).length
  · rw [Nat.sub_eq_zero_of_le (Nat.le_of_lt hlen)]
    rw [List.take_zero]
    have h1 : Between cfg x0 k (execs s (List.take n (if k % cfg.safe = 0 then [.store k] else []))) := by
      split
      · cases n with
        | zero => exact h
        | succ n => simp only [List.take_succ_cons, List.take_nil]; exact between_store h
      · rw [List.take_nil]; exact h
    obtain ⟨y, hy⟩ := execs_take_move (cfg.parts k) (n - (if k % cfg.safe = 0 then [Act.store (X := X) k] else []).length)
      (execs s (List.take n (if k % cfg.safe = 0 then [.store k] else [])))
    rw [hy]
    exact h1.1
  · have hge := Nat.le_of_not_lt hlen
    rw [List.length_append] at hge
    have e1 : List.take n (if k % cfg.safe = 0 then [Act.store (X := X) k] else []) = (if k % cfg.safe = 0 then [Act.store k] else []) :=
      List.take_of_length_le (by omega)
    have e2 : List.take (n - (if k % cfg.safe = 0 then [Act.store (X := X) k] else []).length) ((cfg.parts k).map Act.move) =
        (cfg.parts k).map Act.move := List.take_of_length_le (by omega)
    rw [e1, e2, execs_move]
    have h1 : Between cfg x0 k (execs s (if k % cfg.safe = 0 then [.store k] else [])) := by
      split
      · exact between_store h
      · exact h
    generalize execs s (if k % cfg.safe = 0 then [.store k] else []) = s1 at h1
    have hx : ({ s1 with x := (cfg.parts k).foldl (fun x f => f x) s1.x } : St X).x = ideal cfg x0 (k + 1) := by
      show _ = (cfg.parts k).foldl (fun x f => f x) (ideal cfg x0 k)
      rw [← h1.2.1]
    have h2 : Safe cfg x0 { s1 with x := (cfg.parts k).foldl (fun x f => f x) s1.x } := h1.1
    exact h2.out hx _ (fun a ha => isOut_outActs _ _ a (List.mem_of_mem_take ha))

theorem between_steps {cfg : Cfg X} {x0 : X} {n : Nat} : ∀ {k : Nat} {s : St X}, Between cfg x0 k s →
    Between cfg x0 (k + n) (execs s (stepsActs cfg k n)) := by
  induction n with
  | zero => intro k s h; exact h
  | succ n ih =>
    intro k s h
    simp only [stepsActs, execs_append]
    have := ih (between_step h)
    rwa [show k + 1 + n = k + (n + 1) by omega] at this

theorem safe_steps_prefix {cfg : Cfg X} {x0 : X} {m : Nat} : ∀ {k : Nat} {s : St X}, Between cfg x0 k s → ∀ n,
    Safe cfg x0 (execs s ((stepsActs cfg k m).take n)) := by
  induction m with
  | zero => intro k s h n; rw [stepsActs, List.take_nil]; exact h.1
  | succ m ih =>
    intro k s h n
    simp only [stepsActs, List.take_append, execs_append]
    by_cases hl : n < (stepActs cfg k).length
    · rw [Nat.sub_eq_zero_of_le (Nat.le_of_lt hl), List.take_zero]
      exact safe_step_prefix h n
    · rw [List.take_of_length_le (Nat.le_of_not_lt hl)]
      exact ih (between_step h) _

/-- A start that is good: the right state, and the rows due so far are on disk (unless the files start afresh). -/
def GoodStart (cfg : Cfg X) (x0 : X) (start : Nat × X) (disk : List (Row X)) : Prop :=
  start.2 = ideal cfg x0 start.1 ∧ Sound cfg x0 disk ∧ (0 < start.1 → Covers cfg disk start.1)

theorem safe_boot {cfg : Cfg X} {x0 : X} {start : Nat × X} {disk : List (Row X)} (h : GoodStart cfg x0 start disk) (file) :
    Safe cfg x0 (boot start disk file) := by
  obtain ⟨h1, h2, h3⟩ := h
  refine ⟨?_, h1, ?_⟩
  · unfold boot log
    dsimp only
    rw [List.append_nil]
    split
    · intro r hr; cases hr
    · exact h2
  · intro hp
    have hp : 0 < start.1 := hp
    unfold boot log
    dsimp only
    rw [List.append_nil, if_neg (by omega)]
    exact h3 hp

theorem between_init {cfg : Cfg X} {x0 : X} {start : Nat × X} {disk : List (Row X)} (h : GoodStart cfg x0 start disk) (file) :
    Between cfg x0 start.1 (execs (boot start disk file) (initActs cfg start.1)) := by
  have hb := safe_boot h file
  have hx : (boot start disk file).x = ideal cfg x0 start.1 := h.1
  unfold initActs
  split
  · rename_i h0
    rw [h0] at hx ⊢
    obtain ⟨i1, i2, i3, i4⟩ := execs_out (cfg.outs.flatMap (outActs 0)) (isOut_outActs _ _) (boot start disk file)
    refine ⟨hb.out hx _ (isOut_outActs _ _), i1.trans hx, ?_⟩
    intro f st fl hm l hl hd
    have : l = 0 := by omega
    subst this
    exact execs_out_cover cfg.outs _ f st fl hm hd
  · exact ⟨hb, hx, hb.2.2 (by show 0 < start.1; omega)⟩

theorem safe_run_prefix {cfg : Cfg X} {x0 : X} {start : Nat × X} {disk : List (Row X)} (h : GoodStart cfg x0 start disk) (file)
    (n : Nat) : Safe cfg x0 (execs (boot start disk file) ((runActs cfg start.1).take n)) := by
  unfold runActs
  rw [List.take_append, execs_append]
  by_cases hl : n < (initActs cfg start.1).length
  · rw [Nat.sub_eq_zero_of_le (Nat.le_of_lt hl), List.take_zero]
    unfold initActs
    split
    · rename_i h0
      have hx : (boot start disk file).x = ideal cfg x0 0 := by rw [← h0]; exact h.1
      exact (safe_boot h file).out hx _ (fun a ha => isOut_outActs _ _ a (List.mem_of_mem_take ha))
    · rw [List.take_nil]; exact safe_boot h file
  · rw [List.take_of_length_le (Nat.le_of_not_lt hl)]
    exact safe_steps_prefix (between_init h file) _

end Verif.Run
