import Verif.Pool.Policy
import Verif.Props.C12_Matching
/-
C55: a client that connects and then vanishes (or answers the status query with something unexpected) does not stall the
scheduler. Holds in consolidated mode, fails in threaded mode.
-/
namespace Verif.Pool
variable {V : Type}

/-- `pool_update` accepts every connection, whatever the outcome of the hand-shake: the test is `driver.status | Status.Up`,
which is never zero (sockets.py:1432). -/
theorem dead_client_accepted (s : St V) (hj : s.jobs = []) (st : CStatus) :
    ∃ s', poolUpdate [st] s = .ok s' ∧ ⟨s.nextCid, st, none, false, []⟩ ∈ s'.clients := by
  unfold poolUpdate
  rw [if_neg (fun h => h.2 hj)]
  exact ⟨_, rfl, by simp⟩

/-- One iteration of the `while len(freec) > 0 and len(self.prlist) > 0` loop in threaded mode (sockets.py:1487-1506): like
the consolidated one, but without the `dispatched_this_round` test. Sends cannot fail here: jobs are handed to an executor. -/
def threadedIter (cfg : Cfg V) (x : St V × List Cid) : St V × List Cid :=
  let rd := round cfg cfg.mode.seq ⟨x.1, x.2, false⟩
  (if rd.freec = [] then rd.s else { rd.s with prlist := pending rd.s }, rd.freec)

/-- The body is run (again): the loop condition holds and the loop was not left by the `break` of lock mode. -/
def threadedGoesOn (cfg : Cfg V) (x : St V × List Cid) : Prop := cfg.mode ≠ .lock ∧ x.2 ≠ [] ∧ x.1.prlist ≠ []

/-- `n` iterations of the loop body. -/
def threadedLoop (cfg : Cfg V) : Nat → St V × List Cid → St V × List Cid
  | 0, x => x
  | n + 1, x => threadedLoop cfg n (threadedIter cfg x)

theorem dispatchFree_notFree {cfg : Cfg V} {mid : MatchId} {cid : Cid} {s : St V}
    (h : ∀ fc, s.clients.find? (fun x => x.cid == cid) = some fc → fc.st.isFree = false) :
    dispatchFree cfg mid cid s = (s, false) := by
  unfold dispatchFree
  cases hf : s.clients.find? (fun c => c.cid == cid) with
  | none => rfl
  | some fc => simp [h fc hf]

theorem round_notFree {cfg : Cfg V} (mids : List MatchId) (rd : Rd V)
    (h : ∀ c ∈ rd.freec, ∀ fc, rd.s.clients.find? (fun x => x.cid == c) = some fc → fc.st.isFree = false) :
    round cfg mids rd = rd := by
  have hpass : ∀ mid (l : List Cid), (∀ c ∈ l, c ∈ rd.freec) → passClients cfg mid l rd = rd := by
    intro mid l
    induction l with
    | nil => intro _; rfl
    | cons x rest ih =>
      intro hl
      unfold passClients
      rw [dispatchFree_notFree (h x (hl x (by simp)))]
      simp only [Bool.false_eq_true, if_false]
      split
      · rfl
      · exact ih (fun c hc => hl c (by simp [hc]))
  induction mids with
  | nil => rfl
  | cons m mids ih =>
    show round cfg mids (passClients cfg m rd.freec rd) = rd
    rw [hpass m rd.freec (fun _ h => h), ih]

/-- The property fails in threaded mode: if the only clients left are not ready while requests are pending, the loop never
ends (outside lock mode, where it is left after one round). The scheduler thread then never returns to accept new clients. -/
theorem threaded_loop_never_ends (cfg : Cfg V) (hm : cfg.mode ≠ .lock) (s : St V) (freec : List Cid) (hne : freec ≠ []) (hp : pending s ≠ [])
    (hpr : s.prlist ≠ [])
    (h : ∀ c ∈ freec, ∀ fc, s.clients.find? (fun x => x.cid == c) = some fc → fc.st.isFree = false) (n : Nat) :
    threadedGoesOn cfg (threadedLoop cfg n (s, freec)) := by
  induction n generalizing s with
  | zero => exact ⟨hm, hne, hpr⟩
  | succ n ih =>
    have : threadedIter cfg (s, freec) = ({ s with prlist := pending s }, freec) := by
      unfold threadedIter
      simp only
      rw [round_notFree cfg.mode.seq ⟨s, freec, false⟩ h]
      simp only
      rw [if_neg hne]
    simp only [threadedLoop, this]
    exact ih { s with prlist := pending s } hp hp h

/-- A concrete instance: one request, one client that connected and vanished. -/
theorem vanished_client_stalls (n : Nat) : ∃ s, run (exCfg 1 .auto) {} [.queue, .update [.disconnected]] = .ok s ∧
    threadedGoesOn (exCfg 1 .auto) (threadedLoop (exCfg 1 .auto) n ({ s with prlist := pending s }, freeClients s)) := by
  refine ⟨_, rfl, ?_⟩
  apply threaded_loop_never_ends
  · decide
  · decide
  · decide
  · decide
  · decide

/-- Consolidated mode: the dispatch loop leaves a round in which nothing was dispatched, and every other round uses up a
client, so it runs at most once per free client (this is `round_progress`, on which the termination of the model's loop
rests); and the vanished client does not keep ready clients from being used. -/
theorem consolidated_rounds_bounded_partial (cfg : Cfg V) (ops : List Op) (s : St V) (hr : run cfg {} ops = .ok s) :
    ∀ rd, rd = round cfg cfg.mode.seq ⟨s, freeClients s, false⟩ → rd.d = true → rd.freec.length < (freeClients s).length := by
  rintro rd rfl hd
  have hinv := run_inv ops (inv_init cfg) hr
  obtain ⟨hn, hf⟩ := freeClients_ok hinv
  exact round_progress ⟨hinv, hn, hf, rfl⟩ hd

/-- In consolidated mode one vanished and one ready client: the request is sent to the ready one. -/
example : view (run (exCfg 1 .auto) {} [.queue, .update [.disconnected, ready], .dispatch []]) =
    some ([(.running, none)], [([0], 1)], [0, 1]) := by decide +kernel

end Verif.Pool
