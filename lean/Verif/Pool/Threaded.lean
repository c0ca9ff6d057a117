import Verif.Pool.Policy
/-
Model of the threaded dispatch mode (`consolidate_messages = False`): `pool_distribute` after its early exit
(ipi/interfaces/sockets.py:1470-1545), `check_job_finished` (sockets.py:1780-1814), `Driver.dispatch` run in a worker thread
(sockets.py:507-569) and `pool_update` (sockets.py:1374-1449).

Simplifications: which free client gets which request is left open (`assign` may pick any), so that every matching policy is
covered; exceptions raised inside worker threads are left out (see C54).
-/
namespace Verif.Threaded
open Verif.Pool (Key Cid RStatus)

structure St where
  requests : List Key := []
  status : Key → RStatus := fun _ => .queued
  /-- clients and whether their `Status.Up` flag is set -/
  clients : List (Cid × Bool) := []
  /-- `self.jobs` -/
  jobs : List (Key × Cid) := []
  /-- `Driver.dispatch` calls still running in the executor -/
  threads : List (Key × Cid) := []
  nextKey : Nat := 0
  nextCid : Nat := 0

def setStatus (k : Key) (v : RStatus) (f : Key → RStatus) : Key → RStatus := fun x => if x = k then v else f x

/-- Clears the `Up` flag of a client. -/
def down (cid : Cid) (cs : List (Cid × Bool)) : List (Cid × Bool) := cs.map fun c => if c.1 = cid then (c.1, false) else c

inductive Op where
  | queue
  | release (k : Key)
  | connect
  /-- `dispatch_free_client` submits `fc.dispatch` to the executor (sockets.py:1744-1747) -/
  | assign (k : Key) (cid : Cid)
  /-- a worker stores the result and marks the request "Done" (sockets.py:545-569) -/
  | finish (k : Key) (cid : Cid)
  /-- a worker finds its client disconnected and returns (sockets.py:514-550) -/
  | fail (k : Key) (cid : Cid)
  /-- the check for finished jobs (sockets.py:1518-1535); `expired` tells which jobs have run past the time limit -/
  | check (expired : Cid → Bool)
  /-- `pool_update` -/
  | update

/-- One job of the check loop: is it dropped from the list, and is its client disconnected (sockets.py:1780-1814). -/
def checkJobs (expired : Cid → Bool) : List (Key × Cid) → St → St × List (Key × Cid)
  | [], s => (s, [])
  | (k, cid) :: js, s =>
    if s.status k = .done then checkJobs expired js s
    else if expired cid then checkJobs expired js { s with clients := down cid s.clients }
    else
      let (s', kept) := checkJobs expired js s
      (s', (k, cid) :: kept)

/-- Requests of jobs whose client is dead are put back (sockets.py:1399-1408). -/
def requeueDead (dead : List Cid) : List (Key × Cid) → St → St × List (Key × Cid)
  | [], s => (s, [])
  | (k, cid) :: js, s =>
    if cid ∈ dead then requeueDead dead js { s with status := setStatus k .queued s.status }
    else
      let (s', kept) := requeueDead dead js s
      (s', (k, cid) :: kept)

/-- One step; operations that are not possible leave the state unchanged. With a dead client in the pool `pool_update` first
waits for the workers of all jobs (`tc.result()`, sockets.py:1401). -/
def step (s : St) : Op → St
  | .queue => { s with requests := s.requests ++ [s.nextKey], status := setStatus s.nextKey .queued s.status,
                       nextKey := s.nextKey + 1 }
  | .release k => if s.status k = .done then { s with requests := s.requests.erase k } else s
  | .connect => { s with clients := s.clients ++ [(s.nextCid, true)], nextCid := s.nextCid + 1 }
  | .assign k cid =>
    if k ∈ s.requests ∧ s.status k = .queued ∧ (cid, true) ∈ s.clients ∧ cid ∉ s.jobs.map (·.2) then
      { s with status := setStatus k .running s.status, jobs := s.jobs ++ [(k, cid)], threads := s.threads ++ [(k, cid)] }
    else s
  | .finish k cid =>
    if (k, cid) ∈ s.threads then { s with status := setStatus k .done s.status, threads := s.threads.erase (k, cid) } else s
  | .fail k cid =>
    if (k, cid) ∈ s.threads then { s with clients := down cid s.clients, threads := s.threads.erase (k, cid) } else s
  | .check expired =>
    let (s', kept) := checkJobs expired s.jobs s
    { s' with jobs := kept }
  | .update =>
    let dead := (s.clients.filter fun c => !c.2).map (·.1)
    if dead = [] ∨ (∃ j ∈ s.jobs, j ∈ s.threads) then s
    else
      let (s', kept) := requeueDead dead s.jobs s
      { s' with jobs := kept, clients := s'.clients.filter (·.2) }

def run (s : St) (ops : List Op) : St := ops.foldl step s

/-- The request is marked as running but nobody is, or ever will be, working on it: it is in no job and no worker has it. -/
def Abandoned (s : St) (k : Key) : Prop :=
  k ∈ s.requests ∧ s.status k = .running ∧ k ∉ s.jobs.map (·.1) ∧ k ∉ s.threads.map (·.1)

theorem checkJobs_spec (ex : Cid → Bool) (js : List (Key × Cid)) : ∀ s, (checkJobs ex js s).1.requests = s.requests ∧
    (checkJobs ex js s).1.status = s.status ∧ (checkJobs ex js s).1.threads = s.threads ∧
    (checkJobs ex js s).1.nextKey = s.nextKey ∧
    (checkJobs ex js s).2 = js.filter fun j => s.status j.1 ≠ .done ∧ ex j.2 = false := by
  induction js with
  | nil => intro s; exact ⟨rfl, rfl, rfl, rfl, rfl⟩
  | cons j js ih =>
    obtain ⟨k, cid⟩ := j
    intro s
    unfold checkJobs
    split
    · rename_i h
      obtain ⟨a, b, c, d, e⟩ := ih s
      exact ⟨a, b, c, d, by rw [e, List.filter_cons_of_neg (by simp [h])]⟩
    · rename_i h
      split
      · rename_i h2
        obtain ⟨a, b, c, d, e⟩ := ih { s with clients := down cid s.clients }
        exact ⟨a, b, c, d, by rw [e, List.filter_cons_of_neg (by simp [h2])]⟩
      · rename_i h2
        obtain ⟨a, b, c, d, e⟩ := ih s
        exact ⟨a, b, c, d, by simp only [e]; rw [List.filter_cons_of_pos (by simp [h, h2])]⟩

open Classical in
theorem requeueDead_spec (dead : List Cid) (js : List (Key × Cid)) : ∀ s, (requeueDead dead js s).1.requests = s.requests ∧
    (requeueDead dead js s).1.threads = s.threads ∧ (requeueDead dead js s).1.nextKey = s.nextKey ∧
    (requeueDead dead js s).1.clients = s.clients ∧ (requeueDead dead js s).1.nextCid = s.nextCid ∧
    (∀ k, (requeueDead dead js s).1.status k = if ∃ c, (k, c) ∈ js ∧ c ∈ dead then .queued else s.status k) ∧
    (requeueDead dead js s).2 = js.filter fun j => j.2 ∉ dead := by
  induction js with
  | nil => intro s; exact ⟨rfl, rfl, rfl, rfl, rfl, by simp [requeueDead], rfl⟩
  | cons j js ih =>
    obtain ⟨k, cid⟩ := j
    intro s
    unfold requeueDead
    split
    · rename_i h
      obtain ⟨a, b, c, d, d', e, f⟩ := ih { s with status := setStatus k .queued s.status }
      refine ⟨a, b, c, d, d', fun x => ?_, by rw [f, List.filter_cons_of_neg (by simp [h])]⟩
      rw [e]
      by_cases hx : ∃ c, (x, c) ∈ js ∧ c ∈ dead
      · rw [if_pos hx, if_pos]
        obtain ⟨c, h1, h2⟩ := hx
        exact ⟨c, List.mem_cons_of_mem _ h1, h2⟩
      · rw [if_neg hx]
        simp only [setStatus]
        by_cases hk : x = k
        · rw [if_pos hk, if_pos]
          exact ⟨cid, by simp [hk], h⟩
        · rw [if_neg hk, if_neg]
          rintro ⟨c, h1, h2⟩
          rcases List.mem_cons.1 h1 with h1 | h1
          · injection h1 with h1 _; exact hk h1
          · exact hx ⟨c, h1, h2⟩
    · rename_i h
      obtain ⟨a, b, c, d, d', e, f⟩ := ih s
      refine ⟨a, b, c, d, d', fun x => ?_, by simp only [f]; rw [List.filter_cons_of_pos (by simp [h])]⟩
      simp only
      rw [e]
      have : (∃ c, (x, c) ∈ (k, cid) :: js ∧ c ∈ dead) ↔ ∃ c, (x, c) ∈ js ∧ c ∈ dead := by
        constructor
        · rintro ⟨c, h1, h2⟩
          rcases List.mem_cons.1 h1 with h1 | h1
          · injection h1 with _ h1; exact absurd (h1 ▸ h2) h
          · exact ⟨c, h1, h2⟩
        · rintro ⟨c, h1, h2⟩; exact ⟨c, List.mem_cons_of_mem _ h1, h2⟩
      simp only [this]

end Verif.Threaded
