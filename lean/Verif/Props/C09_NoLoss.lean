import Verif.Pool.Facts
/-
C09: no request is lost or evaluated twice at once by the consolidated socket scheduler.
-/
namespace Verif.Pool
variable {V : Type}

/-- Whatever happened so far, every request on the list is exactly one of: waiting (and nobody works on it), being evaluated
by exactly one connected client, or answered with the answer for its own structure. -/
theorem no_request_lost (cfg : Cfg V) (ops : List Op) (s : St V) (hr : run cfg {} ops = .ok s) (k : Key)
    (hk : k ∈ s.requests) :
    (Waiting s k ∨ (∃ c, RunningOn s k c ∧ ∀ c', RunningOn s k c' → c' = c) ∨ Answered cfg s k) ∧
    ¬(Waiting s k ∧ ∃ c, RunningOn s k c) ∧ ¬(Waiting s k ∧ Answered cfg s k) ∧ ¬((∃ c, RunningOn s k c) ∧ Answered cfg s k) := by
  refine ⟨(run_inv ops (inv_init cfg) hr).classify hk, ?_, ?_, ?_⟩
  · rintro ⟨⟨h1, _⟩, c, h2, _⟩; rw [h1] at h2; cases h2
  · rintro ⟨⟨h1, _⟩, h2, _⟩; rw [h1] at h2; cases h2
  · rintro ⟨⟨c, h1, _⟩, h2, _⟩; rw [h1] at h2; cases h2

/-- Every request handed to the interface (numbered in order of arrival) stays on the list until it is released. -/
theorem requests_stay (cfg : Cfg V) (ops : List Op) (s : St V) (hr : run cfg {} ops = .ok s) (k : Key)
    (hk : k < ops.countP (· matches .queue)) (hrel : .release k ∉ ops) : k ∈ s.requests :=
  run_keeps ops hr k hrel (.inr ⟨Nat.zero_le _, by rw [show ({} : St V).nextKey = 0 from rfl, Nat.zero_add]; exact hk⟩)

/-- A request whose client disconnects while replying, or runs past the time limit, waits again (and nobody works on it). -/
theorem death_requeues (cfg : Cfg V) (ops : List Op) (s s' : St V) (hr : run cfg {} ops = .ok s) (k : Key) (c : Client)
    (hrun : RunningOn s k c) (ans : Cid → Option RecvAns) (expired : Cid → Bool)
    (hphase : s.phase = .collecting) (hs : step cfg s (.collect ans expired) = .ok s')
    (hdead : ans c.cid = some .dead ∨ ans c.cid = none ∧ expired c.cid = true) : Waiting s' k := by
  have hinv := run_inv ops (inv_init cfg) hr
  have hinv' := step_inv hinv hs
  simp only [step, if_pos hphase] at hs
  obtain ⟨_, _, _, _, ks, hj, hk⟩ := hrun
  have hst := collectIter_status hinv hs hj hk
  have hq : s'.status k = .queued := by
    rw [hst]
    rcases hdead with h | ⟨h1, h2⟩
    · rw [h]; rfl
    · simp [h1, h2]
  exact ⟨hq, hinv'.not_sent (by rw [hq]; simp)⟩

/-- A request whose client replies is answered. -/
theorem reply_answers (cfg : Cfg V) (ops : List Op) (s s' : St V) (hr : run cfg {} ops = .ok s) (k : Key) (c : Client)
    (hrun : RunningOn s k c) (ans : Cid → Option RecvAns) (expired : Cid → Bool)
    (hphase : s.phase = .collecting) (hs : step cfg s (.collect ans expired) = .ok s') (st : CStatus)
    (hok : ans c.cid = some (.ok st)) : Answered cfg s' k := by
  have hinv := run_inv ops (inv_init cfg) hr
  have hinv' := step_inv hinv hs
  simp only [step, if_pos hphase] at hs
  obtain ⟨_, _, _, _, ks, hj, hk⟩ := hrun
  have hst := collectIter_status hinv hs hj hk
  rw [hok] at hst
  have hd : s'.status k = .done := by rw [hst]; rfl
  refine ⟨hd, hinv'.done k ?_ hd, hinv'.not_sent (by rw [hd]; simp)⟩
  rw [(collectIter_reqs hs).1]
  exact (hinv.jobReq k (List.mem_flatMap.2 ⟨_, hj, hk⟩)).1

/-- As long as `select` works and replies are well formed the polling thread never stops on an exception. -/
theorem never_crashes (cfg : Cfg V) (ops : List Op)
    (h : ∀ op ∈ ops, op ≠ .selectError ∧ ∀ ans ex, op = .collect ans ex → ∀ c, ans c ≠ some .raises) :
    ∃ s, run cfg {} ops = .ok s := run_ok ops (fun _ => rfl) h

/-! Non-vacuity: three requests, two clients; the second send fails, the first client answers one request, takes another,
dies, and a new client finishes. -/

def exCfg (batch : Nat) (mode : Mode) : Cfg Nat := ⟨batch, mode, fun k => k, fun k => 100 + k⟩

def ready : CStatus := { up := true, ready := true }

def exOps : List Op :=
  [.queue, .queue, .queue, .update [ready, ready], .dispatch [true, false], .collect (fun _ => some (.ok ready)) (fun _ => false),
   .update [], .dispatch [], .collect (fun _ => some .dead) (fun _ => false), .update [ready], .dispatch [],
   .collect (fun _ => none) (fun _ => false)]

/-- Statuses and results of the requests, the jobs, and the clients' ids at the end of a run. -/
def view (r : Except Crash (St Nat)) : Option (List (RStatus × Option Nat) × List (List Nat × Nat) × List Nat) :=
  match r with
  | .ok s => some (s.requests.map fun k => (s.status k, s.result k), s.jobs, s.clients.map (·.cid))
  | .error _ => none

example : view (run (exCfg 1 .auto) {} exOps) =
    some ([(.done, some 100), (.queued, none), (.running, none)], [([2], 2)], [2]) := by decide +kernel

/-- A run with batches of two. -/
example : view (run (exCfg 2 .auto) {} [.queue, .queue, .queue, .update [ready, ready], .dispatch [],
      .collect (fun _ => some (.ok ready)) (fun _ => false)]) =
    some ([(.done, some 100), (.done, some 101), (.done, some 102)], [], [0, 1]) := by decide +kernel

end Verif.Pool
