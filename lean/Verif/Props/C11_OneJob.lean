import Verif.Props.C09_NoLoss
/-
C11: one job (or batch) per client, and each reply goes to the request that asked.
-/
namespace Verif.Pool
variable {V : Type}

/-- At every moment a client has at most one outstanding job, a request is part of at most one job, and what the driver at
the other end was sent is exactly that job, padded with copies of its last structure up to the batch size. -/
theorem one_job_per_client (cfg : Cfg V) (ops : List Op) (s : St V) (hr : run cfg {} ops = .ok s) :
    (∀ ks ks' cid, (ks, cid) ∈ s.jobs → (ks', cid) ∈ s.jobs → ks = ks') ∧
    (∀ j ∈ s.jobs, ∀ j' ∈ s.jobs, ∀ k, k ∈ j.1 → k ∈ j'.1 → j = j') ∧
    (∀ ks cid, (ks, cid) ∈ s.jobs → ks ≠ [] ∧ ∃ c ∈ s.clients, c.cid = cid ∧ c.st.up = true ∧
      c.sent = ks ++ List.replicate (cfg.batch - ks.length) (ks.getLastD 0)) ∧
    (∀ c ∈ s.clients, c.sent ≠ [] → ∃ ks, (ks, c.cid) ∈ s.jobs) := by
  have h := run_inv ops (inv_init cfg) hr
  refine ⟨?_, fun j hj j' hj' k hk hk' => flatMap_key_unique h.keysNodup hj hj' hk hk', ?_, ?_⟩
  · intro ks ks' cid h1 h2
    have := nodup_map_inj h.cidNodup h1 h2 rfl
    injection this
  · intro ks cid hj
    obtain ⟨h1, c, hc, h2, h3, h4⟩ := h.job _ hj
    exact ⟨h1, c, hc, h2, h3, h4⟩
  · intro c hc hne
    obtain ⟨k, hk⟩ := List.exists_mem_of_ne_nil _ hne
    obtain ⟨ks, hj, _⟩ := h.sent_job hc hk
    exact ⟨ks, hj⟩

/-- When the reply of a client to the job `ks` is read, the `i`-th request of the job gets the `i`-th result, the padding is
discarded, and no other request is touched. (`eval` is what a driver computes for a structure; a driver answers for the
structures it was sent, in order.) -/
theorem reply_to_the_right_request (cfg : Cfg V) (ops : List Op) (s : St V) (hr : run cfg {} ops = .ok s) (ks : List Key)
    (cid : Cid) (hj : (ks, cid) ∈ s.jobs) (st : CStatus) :
    (∀ k ∈ ks, (recvOk cfg ks cid st s).status k = .done ∧ (recvOk cfg ks cid st s).result k = some (cfg.eval k)) ∧
    (∀ k, k ∉ ks → (recvOk cfg ks cid st s).status k = s.status k ∧ (recvOk cfg ks cid st s).result k = s.result k) := by
  have h := run_inv ops (inv_init cfg) hr
  obtain ⟨h1, h2⟩ := recvOk_eq h hj st
  refine ⟨fun k hk => ⟨by rw [h1]; simp [setStatus, hk], by rw [h2, if_pos hk]⟩, fun k hk => ⟨by rw [h1]; simp [setStatus, hk], ?_⟩⟩
  rw [h2, if_neg hk]

/-- At every moment, a request marked as done holds the result for its own structure. -/
theorem results_are_own (cfg : Cfg V) (ops : List Op) (s : St V) (hr : run cfg {} ops = .ok s) (k : Key) (hk : k ∈ s.requests)
    (hd : s.status k = .done) : s.result k = some (cfg.eval k) := (run_inv ops (inv_init cfg) hr).done k hk hd

/-- Non-vacuity: a job of two requests with batch size three has been sent with one padding structure. -/
example : (match run (exCfg 3 .auto) {} [.queue, .queue, .update [ready, ready], .dispatch []] with
    | .ok s => (s.jobs, s.clients.map (·.sent))
    | .error _ => ([], [])) = ([([0, 1], 0)], [[0, 1, 1], []]) := by decide +kernel

/-! ### only idle clients get work -/

/-- A client that can be given work: connected, with no result waiting to be fetched, and saying it is ready, needs
initialisation or is busy initialising. -/
def Idle (st : CStatus) : Prop :=
  st.up = true ∧ st.hasData = false ∧ (st.ready = true ∨ st.needsInit = true ∨ st.busy = true)

/-- What holds all along a dispatch started in the state `s0`: new jobs are with clients that were idle in `s0`, and a client
that is idle now was so in `s0`. -/
def FromIdle (s0 : St V) (s : St V) : Prop :=
  (∀ j ∈ s.jobs, j ∈ s0.jobs ∨ ∃ c ∈ s0.clients, c.cid = j.2 ∧ Idle c.st) ∧
  ∀ c ∈ s.clients, Idle c.st → ∃ c0 ∈ s0.clients, c0.cid = c.cid ∧ Idle c0.st

theorem fromIdle_refl (s : St V) : FromIdle s s := ⟨fun _ h => .inl h, fun c h hi => ⟨c, h, rfl, hi⟩⟩

theorem fromIdle_assign {cfg : Cfg V} {s0 s : St V} (h : FromIdle s0 s) {ks : List Key} {cid : Cid} {locked : Bool} {fc : Client}
    (hfc : fc ∈ s.clients) (hcid : fc.cid = cid) (hi : Idle fc.st) : FromIdle s0 (assign cfg ks cid locked s).1 := by
  have hcl : ∀ (f : Client → Client) (g : Client → Client), (∀ c, (g c).cid = c.cid ∧ (g c).st = c.st) →
      (∀ c, (f c).cid = c.cid ∧ ¬ Idle (f c).st) →
      ∀ c ∈ updClient cid f (updClient cid g s.clients), Idle c.st → ∃ c0 ∈ s0.clients, c0.cid = c.cid ∧ Idle c0.st := by
    intro f g hg hf c hc hci
    simp only [updClient, List.map_map, List.mem_map, Function.comp] at hc
    obtain ⟨d, hd, rfl⟩ := hc
    by_cases e : d.cid = cid
    · rw [if_pos e, if_pos (by rw [(hg d).1]; exact e)] at hci
      exact absurd hci (hf _).2
    · rw [if_neg e, if_neg e] at hci ⊢
      exact h.2 d hd hci
  obtain ⟨c0, hc0, h1, h2⟩ := h.2 fc hfc hi
  unfold assign popSend
  cases s.orc with
  | nil =>
    refine ⟨fun j hj => ?_, ?_⟩
    · rcases List.mem_append.1 hj with hj | hj
      · exact h.1 j hj
      · simp at hj
        exact .inr ⟨c0, hc0, by rw [hj]; exact h1.trans hcid, h2⟩
    · exact hcl _ _ (fun c => ⟨rfl, rfl⟩) (fun c => ⟨rfl, fun hc => by simp [Idle, CStatus.sentJob] at hc⟩)
  | cons b t =>
    cases b with
    | true =>
      refine ⟨fun j hj => ?_, ?_⟩
      · rcases List.mem_append.1 hj with hj | hj
        · exact h.1 j hj
        · simp at hj
          exact .inr ⟨c0, hc0, by rw [hj]; exact h1.trans hcid, h2⟩
      · exact hcl _ _ (fun c => ⟨rfl, rfl⟩) (fun c => ⟨rfl, fun hc => by simp [Idle, CStatus.sentJob] at hc⟩)
    | false =>
      refine ⟨fun j hj => h.1 j hj, ?_⟩
      exact hcl _ _ (fun c => ⟨rfl, rfl⟩) (fun c => ⟨rfl, fun hc => by simp [Idle, CStatus.disconnected] at hc⟩)

theorem isFree_idle {st : CStatus} (h : st.isFree = true) : Idle st := by
  simp [CStatus.isFree] at h
  exact ⟨h.1.1, h.1.2, by rcases h.2 with (h | h) | h <;> simp [h]⟩

theorem fromIdle_dispatch {cfg : Cfg V} {s0 s : St V} (h : FromIdle s0 s) (mid : MatchId) (cid : Cid) :
    FromIdle s0 (dispatchFree cfg mid cid s).1 := by
  unfold dispatchFree
  cases hf : s.clients.find? (fun c => c.cid == cid) with
  | none => exact h
  | some fc =>
    have hmem := List.mem_of_find?_eq_some hf
    have hcid : fc.cid = cid := by simpa using List.find?_some hf
    cases hfree : fc.st.isFree with
    | false => simpa [hfree] using h
    | true =>
      simp only [hfree, Bool.not_true, Bool.false_eq_true, if_false]
      split
      · split
        · exact h
        · exact fromIdle_assign h hmem hcid (isFree_idle hfree)
      · split
        · exact h
        · exact fromIdle_assign h hmem hcid (isFree_idle hfree)

theorem fromIdle_pass {cfg : Cfg V} {s0 : St V} (mid : MatchId) : ∀ (l : List Cid) (rd : Rd V), FromIdle s0 rd.s →
    FromIdle s0 (passClients cfg mid l rd).s
  | [], rd, h => h
  | c :: l, rd, h => by
    have h1 := fromIdle_dispatch (cfg := cfg) h mid c
    unfold passClients
    generalize dispatchFree cfg mid c rd.s = x at *
    obtain ⟨s', ok⟩ := x
    cases ok <;> simp only [if_true, Bool.false_eq_true, if_false] <;> split
    · exact h1
    · exact fromIdle_pass mid l _ h1
    · exact h1
    · exact fromIdle_pass mid l _ h1

theorem fromIdle_round {cfg : Cfg V} {s0 : St V} : ∀ (mids : List MatchId) (rd : Rd V), FromIdle s0 rd.s →
    FromIdle s0 (round cfg mids rd).s
  | [], _, h => h
  | m :: mids, rd, h => fromIdle_round mids _ (fromIdle_pass m rd.freec rd h)

theorem fromIdle_loop {cfg : Cfg V} {s0 : St V} (s : St V) (freec : List Cid) (h : FromIdle s0 s) :
    FromIdle s0 (dispatchLoop cfg s freec).1 := by
  induction hl : freec.length using Nat.strongRecOn generalizing s freec with
  | _ n ih =>
    rw [dispatchLoop]
    split
    · exact h
    · have h1 := fromIdle_round (cfg := cfg) cfg.mode.seq ⟨s, freec, false⟩ h
      have h2 : FromIdle s0 (if (round cfg cfg.mode.seq ⟨s, freec, false⟩).freec = [] then
          (round cfg cfg.mode.seq ⟨s, freec, false⟩).s
          else { (round cfg cfg.mode.seq ⟨s, freec, false⟩).s with
            prlist := pending (round cfg cfg.mode.seq ⟨s, freec, false⟩).s }) := by
        split <;> exact h1
      simp only
      split
      · exact h1
      · split
        · rename_i hlt
          exact ih _ (by omega) _ _ h2 rfl
        · exact h2

/-- **Work is only ever handed to a client that is connected, has no result waiting, and has said that it can take work**,
for every state, every mode and batch size, and whatever the outcome of the sends. -/
theorem only_idle_clients (cfg : Cfg V) (s s' : St V) (sends : List Bool) (h : step cfg s (.dispatch sends) = .ok s') :
    ∀ j ∈ s'.jobs, j ∈ s.jobs ∨ ∃ c ∈ s.clients, c.cid = j.2 ∧ Idle c.st := by
  simp only [step, Except.ok.injEq] at h
  subst h
  split
  · have h0 : FromIdle s { s with orc := sends } := fromIdle_refl s
    unfold dispatchPhase
    split
    · exact h0.1
    · refine (fromIdle_loop _ _ ?_).1
      split <;> exact h0
  · exact fun j hj => .inl hj

/-- Non-vacuity: of two clients, one with a result waiting, only the other one gets work. -/
example : (match run (exCfg 1 .auto) {} [.queue, .queue, .update [⟨true, false, false, true, true, false⟩, ready], .dispatch []] with
    | .ok s => s.jobs
    | .error _ => []) = [([0], 1)] := by decide +kernel

end Verif.Pool
