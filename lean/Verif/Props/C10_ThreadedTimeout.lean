import Verif.Pool.Threaded
/-
C10: in threaded mode a request whose client times out should go back to the queue. The code violates this.
-/
namespace Verif.Threaded
open Verif.Pool (Key Cid RStatus)

/-- An abandoned request stays abandoned: whatever happens afterwards, it is never queued, sent or answered again. -/
theorem abandoned_forever (ops : List Op) : ∀ (s : St) (k : Key), (∀ x ∈ s.requests, x < s.nextKey) → Abandoned s k →
    Abandoned (run s ops) k := by
  induction ops with
  | nil => intro s k _ h; exact h
  | cons op ops ih =>
    intro s k hlt h
    have hk : k ≠ s.nextKey := fun e => Nat.lt_irrefl _ (e ▸ hlt k h.1)
    have key : (∀ x ∈ (step s op).requests, x < (step s op).nextKey) ∧ Abandoned (step s op) k := by
      obtain ⟨h1, h2, h3, h4⟩ := h
      cases op with
      | queue =>
        refine ⟨?_, by simp [step, h1], by simp [step, setStatus, hk, h2], h3, h4⟩
        intro x hx
        simp only [step, List.mem_append, List.mem_singleton] at hx ⊢
        rcases hx with hx | hx
        · exact Nat.lt_succ_of_lt (hlt x hx)
        · rw [hx]; exact Nat.lt_succ_self _
      | release k' =>
        simp only [step]
        split
        · rename_i hd
          have hne : k ≠ k' := fun e => by rw [e, hd] at h2; cases h2
          exact ⟨fun x hx => hlt x (List.mem_of_mem_erase hx), (List.mem_erase_of_ne hne).2 h1, h2, h3, h4⟩
        · exact ⟨hlt, h1, h2, h3, h4⟩
      | connect => exact ⟨hlt, h1, h2, h3, h4⟩
      | assign k' cid =>
        simp only [step]
        split
        · rename_i hc
          have hne : k ≠ k' := fun e => by rw [e, hc.2.1] at h2; cases h2
          refine ⟨hlt, h1, by simp [setStatus, hne, h2], ?_, ?_⟩
          · simp only [List.map_append, List.mem_append, not_or]; exact ⟨h3, by simpa using hne⟩
          · simp only [List.map_append, List.mem_append, not_or]; exact ⟨h4, by simpa using hne⟩
        · exact ⟨hlt, h1, h2, h3, h4⟩
      | finish k' cid =>
        simp only [step]
        split
        · rename_i hc
          have hne : k ≠ k' := fun e => h4 (List.mem_map.2 ⟨_, hc, e.symm⟩)
          refine ⟨hlt, h1, by simp [setStatus, hne, h2], h3, fun hm => ?_⟩
          obtain ⟨j, hj, e⟩ := List.mem_map.1 hm
          exact h4 (List.mem_map.2 ⟨j, List.mem_of_mem_erase hj, e⟩)
        · exact ⟨hlt, h1, h2, h3, h4⟩
      | fail k' cid =>
        simp only [step]
        split
        · refine ⟨hlt, h1, h2, h3, fun hm => ?_⟩
          obtain ⟨j, hj, e⟩ := List.mem_map.1 hm
          exact h4 (List.mem_map.2 ⟨j, List.mem_of_mem_erase hj, e⟩)
        · exact ⟨hlt, h1, h2, h3, h4⟩
      | check ex =>
        obtain ⟨a, b, c, d, e⟩ := checkJobs_spec ex s.jobs s
        simp only [step]
        refine ⟨by simp only [a, d]; exact hlt, by simp only [a]; exact h1, by simp only [b]; exact h2, fun hm => ?_,
          by simp only [c]; exact h4⟩
        simp only [e] at hm
        obtain ⟨j, hj, ej⟩ := List.mem_map.1 hm
        exact h3 (List.mem_map.2 ⟨j, (List.mem_filter.1 hj).1, ej⟩)
      | update =>
        simp only [step]
        split
        · exact ⟨hlt, h1, h2, h3, h4⟩
        · obtain ⟨a, b, c, d, d', e, f⟩ := requeueDead_spec ((s.clients.filter fun c => !c.2).map (·.1)) s.jobs s
          refine ⟨by simp only [a, c]; exact hlt, by simp only [a]; exact h1, ?_, fun hm => ?_, by simp only [b]; exact h4⟩
          · simp only [e]
            rw [if_neg]
            · exact h2
            · rintro ⟨x, hx, _⟩; exact h3 (List.mem_map.2 ⟨_, hx, rfl⟩)
          · simp only [f] at hm
            obtain ⟨j, hj, ej⟩ := List.mem_map.1 hm
            exact h3 (List.mem_map.2 ⟨j, (List.mem_filter.1 hj).1, ej⟩)
    exact ih _ k key.1 key.2

/-- The history "a request is sent to a client, the client runs past the time limit, the worker notices the closed
connection", from an empty pool. -/
def timeoutOps : List Op := [.queue, .connect, .assign 0 0, .check (fun _ => true), .fail 0 0]

/-- The property fails: after a timeout the request is abandoned for good, whatever happens next — other clients may connect
and `pool_update` may run any number of times. -/
theorem timeout_abandons (ops : List Op) : Abandoned (run (run {} timeoutOps) ops) 0 := by
  apply abandoned_forever
  · decide
  · refine ⟨?_, ?_, ?_, ?_⟩ <;> decide

/-- The same in any state: a job that expires while its client still works on it, and whose worker then finds the connection
closed, leaves an abandoned request. -/
theorem timeout_abandons_any (s : St) (k : Key) (cid : Cid) (expired : Cid → Bool)
    (hk : k ∈ s.requests) (hr : s.status k = .running) (hj : s.jobs.filter (fun j => j.1 = k) = [(k, cid)])
    (ht : ∀ c, (k, c) ∈ s.threads → c = cid) (htc : s.threads.count (k, cid) = 1) (hx : expired cid = true) :
    Abandoned (run s [.check expired, .fail k cid]) k := by
  obtain ⟨a, b, c, d, e⟩ := checkJobs_spec expired s.jobs s
  have hthr : (k, cid) ∈ (checkJobs expired s.jobs s).1.threads := by
    rw [c]; exact List.one_le_count_iff.1 (by omega)
  simp only [run, List.foldl_cons, List.foldl_nil, step]
  rw [if_pos hthr]
  refine ⟨by simp only [a]; exact hk, by simp only [b]; exact hr, fun hm => ?_, fun hm => ?_⟩
  · simp only [e] at hm
    obtain ⟨⟨k', c'⟩, hj', rfl⟩ := List.mem_map.1 hm
    have h1 := List.mem_filter.1 hj'
    have : (k', c') ∈ s.jobs.filter (fun j => j.1 = k') := List.mem_filter.2 ⟨h1.1, by simp⟩
    rw [hj] at this
    simp at this
    subst this
    simp [hx] at h1
  · simp only [c] at hm
    obtain ⟨⟨k', c'⟩, hj', rfl⟩ := List.mem_map.1 hm
    have := ht c' (List.mem_of_mem_erase hj')
    subst this
    have h1 := List.count_erase_self (a := (k', c')) (l := s.threads)
    rw [htc] at h1
    exact absurd (List.one_le_count_iff.2 hj') (by rw [h1]; omega)

/-! ### the part that holds -/

/-- No job runs past the time limit. -/
def NoExpiry (op : Op) : Prop := ∀ ex, op = .check ex → ∀ c, ex c = false

structure Ok (s : St) : Prop where
  lt : ∀ x ∈ s.requests, x < s.nextKey
  jobs : ∀ j ∈ s.jobs, j.1 ∈ s.requests ∨ s.status j.1 = .done
  jobStat : ∀ j ∈ s.jobs, s.status j.1 ≠ .queued
  jobLt : ∀ j ∈ s.jobs, j.1 < s.nextKey
  running : ∀ k ∈ s.requests, s.status k = .running → k ∈ s.jobs.map (·.1)
  nodup : (s.jobs.map (·.1)).Nodup
  thr : ∀ j ∈ s.threads, j ∈ s.jobs
  thrNodup : s.threads.Nodup
  thrRun : ∀ j ∈ s.threads, s.status j.1 = .running

theorem mem_fst_unique {js : List (Key × Cid)} (h : (js.map (·.1)).Nodup) {a b : Key × Cid} (ha : a ∈ js) (hb : b ∈ js)
    (e : a.1 = b.1) : a = b := Pool.nodup_map_inj h ha hb e

theorem step_ok {s : St} {op : Op} (h : Ok s) (hop : NoExpiry op) : Ok (step s op) := by
  cases op with
  | queue =>
    have hst : ∀ k, k < s.nextKey → setStatus s.nextKey .queued s.status k = s.status k := fun k hk =>
      if_neg (fun e => Nat.lt_irrefl _ (e ▸ hk))
    refine
      { lt := ?_, jobs := ?_, jobStat := ?_, jobLt := fun j hj => Nat.lt_succ_of_lt (h.jobLt j hj), running := ?_, nodup := h.nodup, thr := h.thr,
        thrNodup := h.thrNodup, thrRun := ?_ }
    · intro x hx
      simp only [step, List.mem_append, List.mem_singleton] at hx ⊢
      rcases hx with hx | hx
      · exact Nat.lt_succ_of_lt (h.lt x hx)
      · rw [hx]; exact Nat.lt_succ_self _
    · intro j hj
      simp only [step]
      rw [hst _ (h.jobLt j hj)]
      rcases h.jobs j hj with h1 | h1
      · exact .inl (List.mem_append_left _ h1)
      · exact .inr h1
    · intro j hj
      simp only [step]
      rw [hst _ (h.jobLt j hj)]
      exact h.jobStat j hj
    · intro k hk hr
      simp only [step, List.mem_append, List.mem_singleton] at hk hr ⊢
      rcases hk with hk | hk
      · rw [hst _ (h.lt k hk)] at hr; exact h.running k hk hr
      · rw [hk] at hr; simp [setStatus] at hr
    · intro j hj
      simp only [step]
      rw [hst _ (h.jobLt j (h.thr j hj))]
      exact h.thrRun j hj
  | release k =>
    simp only [step]
    split
    · rename_i hd
      refine { h with lt := fun x hx => h.lt x (List.mem_of_mem_erase hx), jobs := ?_, running := ?_ }
      · intro j hj
        by_cases e : j.1 = k
        · right; rw [e]; exact hd
        · rcases h.jobs j hj with h1 | h1
          · exact .inl ((List.mem_erase_of_ne e).2 h1)
          · exact .inr h1
      · intro x hx hr; exact h.running x (List.mem_of_mem_erase hx) hr
    · exact h
  | connect => exact { h with }
  | assign k cid =>
    simp only [step]
    split
    · rename_i hc
      have hnj : k ∉ s.jobs.map (·.1) := by
        intro hm
        obtain ⟨j, hj, e⟩ := List.mem_map.1 hm
        exact h.jobStat j hj (by rw [e]; exact hc.2.1)
      have hst : ∀ x, x ≠ k → setStatus k .running s.status x = s.status x := fun x hx => if_neg hx
      have hj' : ∀ j ∈ s.jobs, j.1 ≠ k := fun j hj e => hnj (List.mem_map.2 ⟨j, hj, e⟩)
      refine { lt := h.lt, jobs := ?_, jobStat := ?_, jobLt := ?_, running := ?_, nodup := ?_, thr := ?_, thrNodup := ?_, thrRun := ?_ }
      · intro j hj
        rcases List.mem_append.1 hj with hj | hj
        · simp only [hst _ (hj' j hj)]; exact h.jobs j hj
        · simp at hj; subst hj; exact .inl hc.1
      · intro j hj
        rcases List.mem_append.1 hj with hj | hj
        · simp only [hst _ (hj' j hj)]; exact h.jobStat j hj
        · simp at hj; subst hj; simp [setStatus]
      · intro j hj
        rcases List.mem_append.1 hj with hj | hj
        · exact h.jobLt j hj
        · simp at hj; subst hj; exact h.lt k hc.1
      · intro x hx hr
        simp only [List.map_append, List.mem_append]
        by_cases e : x = k
        · right; simp [e]
        · left; simp only [hst _ e] at hr; exact h.running x hx hr
      · simp only [List.map_append]
        rw [List.nodup_append]
        refine ⟨h.nodup, by simp, ?_⟩
        intro a ha b hb e
        simp at hb
        exact hnj (by rw [← hb, ← e]; exact ha)
      · intro j hj
        rcases List.mem_append.1 hj with hj | hj
        · exact List.mem_append_left _ (h.thr j hj)
        · exact List.mem_append_right _ hj
      · simp only
        rw [List.nodup_append]
        refine ⟨h.thrNodup, by simp, ?_⟩
        intro a ha b hb e
        simp at hb
        subst hb; subst e
        exact hj' _ (h.thr _ ha) rfl
      · intro j hj
        rcases List.mem_append.1 hj with hj | hj
        · simp only [hst _ (hj' j (h.thr j hj))]; exact h.thrRun j hj
        · simp at hj; subst hj; simp [setStatus]
    · exact h
  | finish k cid =>
    simp only [step]
    split
    · rename_i hc
      have hst : ∀ x, x ≠ k → setStatus k .done s.status x = s.status x := fun x hx => if_neg hx
      refine
        { lt := h.lt, jobs := ?_, jobStat := ?_, jobLt := h.jobLt, running := ?_, nodup := h.nodup,
          thr := fun j hj => h.thr j (List.mem_of_mem_erase hj), thrNodup := h.thrNodup.erase _, thrRun := ?_ }
      · intro j hj
        by_cases e : j.1 = k
        · right; simp [setStatus, e]
        · simp only [hst _ e]; exact h.jobs j hj
      · intro j hj
        by_cases e : j.1 = k
        · simp [setStatus, e]
        · simp only [hst _ e]; exact h.jobStat j hj
      · intro x hx hr
        by_cases e : x = k
        · simp [setStatus, e] at hr
        · simp only [hst _ e] at hr; exact h.running x hx hr
      · intro j hj
        have hj2 := (h.thrNodup.mem_erase_iff).1 hj
        have e : j.1 ≠ k := fun e => hj2.1 (mem_fst_unique h.nodup (h.thr j hj2.2) (h.thr _ hc) e)
        simp only [hst _ e]
        exact h.thrRun j hj2.2
    · exact h
  | fail k cid =>
    simp only [step]
    split
    · exact { h with thr := fun j hj => h.thr j (List.mem_of_mem_erase hj), thrNodup := h.thrNodup.erase _,
                     thrRun := fun j hj => h.thrRun j (List.mem_of_mem_erase hj) }
    · exact h
  | check ex =>
    obtain ⟨a, b, c, d, e⟩ := checkJobs_spec ex s.jobs s
    have hex := hop ex rfl
    simp only [step]
    have hsub : ∀ j ∈ (checkJobs ex s.jobs s).2, j ∈ s.jobs := fun j hj => by rw [e] at hj; exact (List.mem_filter.1 hj).1
    have hkeep : ∀ j ∈ s.jobs, s.status j.1 ≠ .done → j ∈ (checkJobs ex s.jobs s).2 := by
      intro j hj hd
      rw [e]
      exact List.mem_filter.2 ⟨hj, by simp [hd, hex]⟩
    refine
      { lt := by simp only [a, d]; exact h.lt, jobs := ?_, jobStat := ?_, jobLt := ?_, running := ?_, nodup := ?_, thr := ?_,
        thrNodup := by simp only [c]; exact h.thrNodup, thrRun := by simp only [c, b]; exact h.thrRun }
    · intro j hj; simp only [a, b]; exact h.jobs j (hsub j hj)
    · intro j hj; simp only [b]; exact h.jobStat j (hsub j hj)
    · intro j hj; simp only [d]; exact h.jobLt j (hsub j hj)
    · intro k hk hr
      simp only [a, b] at hk hr
      obtain ⟨j, hj, ej⟩ := List.mem_map.1 (h.running k hk hr)
      exact List.mem_map.2 ⟨j, hkeep j hj (by rw [ej, hr]; simp), ej⟩
    · simp only
      rw [e]
      exact (List.filter_sublist.map _).nodup h.nodup
    · intro j hj
      simp only [c] at hj
      exact hkeep j (h.thr j hj) (by rw [h.thrRun j hj]; simp)
  | update =>
    simp only [step]
    split
    · exact h
    · rename_i hno
      obtain ⟨a, b, c, d, d', e, f⟩ := requeueDead_spec ((s.clients.filter fun c => !c.2).map (·.1)) s.jobs s
      simp only [not_or] at hno
      generalize (s.clients.filter fun c => !c.2).map (·.1) = dead at *
      have hthr : s.threads = [] := by
        cases ht : s.threads with
        | nil => rfl
        | cons j js =>
          have hj : j ∈ s.threads := by rw [ht]; simp
          exact absurd ⟨j, h.thr j hj, hj⟩ hno.2
      have hsub : ∀ j ∈ (requeueDead dead s.jobs s).2, j ∈ s.jobs ∧ j.2 ∉ dead := fun j hj => by
        rw [f] at hj; have := List.mem_filter.1 hj; exact ⟨this.1, by simpa using this.2⟩
      have hst : ∀ j ∈ (requeueDead dead s.jobs s).2, (requeueDead dead s.jobs s).1.status j.1 = s.status j.1 := by
        intro j hj
        rw [e, if_neg]
        rintro ⟨x, hx, hd⟩
        have := mem_fst_unique h.nodup hx (hsub j hj).1 rfl
        exact (hsub j hj).2 (by rw [← this]; exact hd)
      refine
        { lt := by simp only [a, c]; exact h.lt, jobs := ?_, jobStat := ?_, jobLt := ?_, running := ?_, nodup := ?_,
          thr := by simp [b, hthr], thrNodup := by simp [b, hthr], thrRun := by simp [b, hthr] }
      · intro j hj; simp only [a]; rw [hst j hj]; exact h.jobs j (hsub j hj).1
      · intro j hj; simp only; rw [hst j hj]; exact h.jobStat j (hsub j hj).1
      · intro j hj; simp only [c]; exact h.jobLt j (hsub j hj).1
      · intro k hk hr
        simp only [a] at hk
        simp only [e] at hr
        split at hr
        · cases hr
        · rename_i hnd
          obtain ⟨j, hj, ej⟩ := List.mem_map.1 (h.running k hk hr)
          refine List.mem_map.2 ⟨j, ?_, ej⟩
          simp only [f]
          refine List.mem_filter.2 ⟨hj, ?_⟩
          simp only [decide_eq_true_eq]
          intro hin
          exact hnd ⟨j.2, by rw [← ej]; exact hj, hin⟩
      · simp only [f]
        exact (List.filter_sublist.map _).nodup h.nodup

theorem run_ok (ops : List Op) : ∀ s, Ok s → (∀ op ∈ ops, NoExpiry op) → Ok (run s ops) := by
  induction ops with
  | nil => intro s h _; exact h
  | cons op ops ih => intro s h ho; exact ih _ (step_ok h (ho op (by simp))) (fun o h1 => ho o (List.mem_cons_of_mem _ h1))

theorem ok_init : Ok {} := by constructor <;> simp

/-- Partial result: as long as no job runs past the time limit no request is ever abandoned, and a request whose client died
(worker returned, client flagged) is back in the queue after the next `pool_update` that does not have to wait for a worker. -/
theorem threaded_no_loss_partial (ops : List Op) (hno : ∀ op ∈ ops, NoExpiry op) (k : Key) (hk : k ∈ (run {} ops).requests) :
    ¬ Abandoned (run {} ops) k ∧
    ((run {} ops).status k = .running → ∀ cid, (k, cid) ∈ (run {} ops).jobs → (cid, false) ∈ (run {} ops).clients →
      (run {} ops).threads = [] →
      (step (run {} ops) .update).status k = .queued ∧ k ∉ (step (run {} ops) .update).jobs.map (·.1)) := by
  have h := run_ok ops {} ok_init hno
  generalize run {} ops = s at *
  refine ⟨fun ha => ha.2.2.1 (h.running k hk ha.2.1), ?_⟩
  intro hr cid hj hc ht
  have hdead : cid ∈ (s.clients.filter fun c => !c.2).map (·.1) :=
    List.mem_map.2 ⟨(cid, false), List.mem_filter.2 ⟨hc, rfl⟩, rfl⟩
  obtain ⟨a, b, c, d, d', e, f⟩ := requeueDead_spec ((s.clients.filter fun c => !c.2).map (·.1)) s.jobs s
  simp only [step]
  rw [if_neg]
  · refine ⟨by simp only [e]; rw [if_pos ⟨cid, hj, hdead⟩], fun hm => ?_⟩
    simp only [f] at hm
    obtain ⟨j, hj', ej⟩ := List.mem_map.1 hm
    have h1 := List.mem_filter.1 hj'
    have := mem_fst_unique h.nodup h1.1 hj ej
    rw [this] at h1
    simp only [decide_eq_true_eq] at h1
    exact h1.2 hdead
  · rintro (hx | ⟨j, _, hx⟩)
    · rw [hx] at hdead; cases hdead
    · rw [ht] at hx; cases hx

/-- Non-vacuity: a client dies without a timeout; the request is queued again and a second client evaluates it. -/
example : let s := run {} [.queue, .connect, .assign 0 0, .check (fun _ => false), .fail 0 0, .update, .connect, .assign 0 1, .finish 0 1,
    .check (fun _ => false)]
    s.status 0 = .done ∧ s.jobs = [] ∧ s.clients = [(1, true)] := by decide

/-- **In threaded mode too a client never holds two jobs**, whatever happens. -/
theorem threaded_one_job (ops : List Op) : ∀ s : St, (s.jobs.map (·.2)).Nodup → ((run s ops).jobs.map (·.2)).Nodup := by
  induction ops with
  | nil => intro s h; exact h
  | cons op ops ih =>
    intro s h
    refine ih _ ?_
    cases op with
    | queue => exact h
    | release k => simp only [step]; split <;> exact h
    | connect => exact h
    | assign k cid =>
      simp only [step]
      split
      · rename_i hc
        simp only [List.map_append]
        rw [List.nodup_append]
        refine ⟨h, by simp, ?_⟩
        intro a ha b hb e
        simp at hb
        exact hc.2.2.2 (by rw [← hb, ← e]; exact ha)
      · exact h
    | finish k cid => simp only [step]; split <;> exact h
    | fail k cid => simp only [step]; split <;> exact h
    | check ex =>
      obtain ⟨_, _, _, _, e⟩ := checkJobs_spec ex s.jobs s
      simp only [step]
      rw [e]
      exact (List.filter_sublist.map _).nodup h
    | update =>
      simp only [step]
      split
      · exact h
      · obtain ⟨_, _, _, _, _, _, f⟩ := requeueDead_spec ((s.clients.filter fun c => !c.2).map (·.1)) s.jobs s
        simp only [f]
        exact (List.filter_sublist.map _).nodup h

/-- Non-vacuity: with two requests and one client the second request waits. -/
example : (run {} [.queue, .queue, .connect, .assign 0 0, .assign 1 0]).jobs = [(0, 0)] := by decide

end Verif.Threaded
