import Verif.Props.C09_NoLoss
/-
C54: a driver that sends a malformed reply is dropped and its request is evaluated by another client. The code violates this.
-/
namespace Verif.Pool
variable {V : Type}

/-- Whatever the state, if the reply of a client with a job raises anything but `Disconnected` while it is read (wrong atom
count, undecodable extras, ...) the exception leaves the collect loop. `_poll_loop` (ipi/engine/forcefields.py:233-247) does not
catch it: the polling thread ends and no request is ever evaluated again. -/
theorem malformed_reply_kills (cfg : Cfg V) (s : St V) (hp : s.phase = .collecting) (ans : Cid → Option RecvAns)
    (expired : Cid → Bool) (j : List Key × Cid) (hj : j ∈ s.jobs) (hr : ans j.2 = some .raises) (rest : List Op) :
    run cfg s (.collect ans expired :: rest) = .error .badReply := by
  unfold run
  simp only [step, if_pos hp, collectIter]
  rw [collectJobs_raises s.jobs s ⟨j, hj, hr⟩]

/-- A reachable instance: two clients, two requests, one malformed reply; the other client and its request go down with it. -/
theorem malformed_reply_reachable (rest : List Op) :
    run (exCfg 1 .auto) {} ([.queue, .queue, .update [ready, ready], .dispatch [],
      .collect (fun c => if c = 0 then some .raises else none) (fun _ => false)] ++ rest) = .error .badReply := by
  have hpre : ∃ s, run (exCfg 1 .auto) {} [.queue, .queue, .update [ready, ready], .dispatch []] = .ok s ∧
      s.phase = .collecting ∧ ([0], 0) ∈ s.jobs := ⟨_, rfl, by decide +kernel, by decide +kernel⟩
  obtain ⟨s, h1, h2, h3⟩ := hpre
  have happ : ∀ (a b : List Op) (s0 s1 : St Nat), run (exCfg 1 .auto) s0 a = .ok s1 →
      run (exCfg 1 .auto) s0 (a ++ b) = run (exCfg 1 .auto) s1 b := by
    intro a b
    induction a with
    | nil => intro s0 s1 h; simp [run] at h; subst h; rfl
    | cons o a ih =>
      intro s0 s1 h
      simp only [List.cons_append]
      rw [run] at h ⊢
      split at h
      · exact ih _ _ h
      · cases h
  have := happ [.queue, .queue, .update [ready, ready], .dispatch []]
    (.collect (fun c => if c = 0 then some .raises else none) (fun _ => false) :: rest) {} s h1
  simp only [List.cons_append, List.nil_append] at this ⊢
  rw [this]
  exact malformed_reply_kills _ s h2 _ _ _ h3 (by simp) rest

/-- What also takes the polling thread down: `select` fails while jobs are outstanding and a client is flagged as dead; the
next `pool_update` calls `.result()` on `None` (sockets.py:1401). -/
theorem select_error_kills :
    run (exCfg 1 .auto) {} [.queue, .queue, .update [ready, ready], .dispatch [true, false], .selectError, .update []] =
      .error .attributeError := by
  have : (match run (exCfg 1 .auto) {} [.queue, .queue, .update [ready, ready], .dispatch [true, false], .selectError, .update []] with
    | .ok _ => none
    | .error e => some e) = some .attributeError := by decide +kernel
  cases h : run (exCfg 1 .auto) {} [.queue, .queue, .update [ready, ready], .dispatch [true, false], .selectError, .update []] with
  | ok s => rw [h] at this; cases this
  | error e => rw [h] at this; simp at this; rw [this]

/-- Partial result: a driver that disconnects instead (reads return nothing) is handled, at any point and any number of
times: see `death_requeues` and `never_crashes`. Restated here for one step. -/
theorem disconnect_handled_partial (cfg : Cfg V) (ops : List Op) (s : St V) (hr : run cfg {} ops = .ok s)
    (ans : Cid → Option RecvAns) (expired : Cid → Bool) (hans : ∀ c, ans c ≠ some .raises) :
    ∃ s', step cfg s (.collect ans expired) = .ok s' ∧ (s.phase = .collecting → ∀ k c, RunningOn s k c →
      ans c.cid = some .dead → Waiting s' k) := by
  have h1 : ∃ s', step cfg s (.collect ans expired) = .ok s' := by
    simp only [step, collectIter]
    obtain ⟨⟨a, b⟩, h⟩ := collectJobs_ok (cfg := cfg) hans s.jobs s
    split
    · rw [h]; exact ⟨_, rfl⟩
    · exact ⟨_, rfl⟩
  obtain ⟨s', h1⟩ := h1
  exact ⟨s', h1, fun hp k c hrun hd => death_requeues cfg ops s s' hr k c hrun ans expired hp h1 (.inl hd)⟩

end Verif.Pool
