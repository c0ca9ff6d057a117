import Verif.Pool.Spec
namespace Verif.Pool
variable {V : Type}

/-- The scheduler invariant, with the list of jobs still on record given separately (the collect loop deletes jobs from the
list only after having gone through all of them). -/
structure InvJ (cfg : Cfg V) (s : St V) (jobs : List (List Key × Cid)) : Prop where
  reqNodup : s.requests.Nodup
  prNodup : s.prlist.Nodup
  pr : ∀ k ∈ s.prlist, k ∈ s.requests ∧ s.status k = .queued
  keysNodup : (jobs.flatMap (·.1)).Nodup
  jobReq : ∀ k ∈ jobs.flatMap (·.1), k ∈ s.requests ∧ s.status k = .running
  runJob : ∀ k ∈ s.requests, s.status k = .running → k ∈ jobs.flatMap (·.1)
  cidNodup : (jobs.map (·.2)).Nodup
  job : ∀ j ∈ jobs, j.1 ≠ [] ∧ ∃ c ∈ s.clients, c.cid = j.2 ∧ c.st.up = true ∧ c.sent = pad cfg.batch j.1
  idle : ∀ c ∈ s.clients, c.cid ∉ jobs.map (·.2) → c.sent = []
  clNodup : (s.clients.map (·.cid)).Nodup
  done : ∀ k ∈ s.requests, s.status k = .done → s.result k = some (cfg.eval k)
  keyLt : ∀ k ∈ s.requests, k < s.nextKey
  cidLt : ∀ c ∈ s.clients, c.cid < s.nextCid

abbrev Inv (cfg : Cfg V) (s : St V) : Prop := InvJ cfg s s.jobs

theorem nodup_map_inj {β γ : Type} {f : β → γ} {l : List β} (h : (l.map f).Nodup) {a b : β} (ha : a ∈ l) (hb : b ∈ l)
    (e : f a = f b) : a = b := by
  induction l with
  | nil => cases ha
  | cons x l ih =>
    simp only [List.map_cons, List.nodup_cons] at h
    rcases List.mem_cons.1 ha with ha | ha <;> rcases List.mem_cons.1 hb with hb | hb
    · rw [ha, hb]
    · exact absurd (List.mem_map.2 ⟨b, hb, by rw [← e, ha]⟩) h.1
    · exact absurd (List.mem_map.2 ⟨a, ha, by rw [e, hb]⟩) h.1
    · exact ih h.2 ha hb

theorem InvJ.client_eq {cfg : Cfg V} {s : St V} {jobs} (h : InvJ cfg s jobs) {a b : Client} (ha : a ∈ s.clients)
    (hb : b ∈ s.clients) (e : a.cid = b.cid) : a = b := nodup_map_inj h.clNodup ha hb e

theorem mem_updClient {cid : Cid} {f : Client → Client} {cs : List Client} {c : Client} :
    c ∈ updClient cid f cs ↔ ∃ c0 ∈ cs, c = if c0.cid = cid then f c0 else c0 := by
  simp only [updClient, List.mem_map]
  exact ⟨fun ⟨a, h1, h2⟩ => ⟨a, h1, h2.symm⟩, fun ⟨a, h1, h2⟩ => ⟨a, h1, h2.symm⟩⟩

theorem updClient_cids {cid : Cid} {f : Client → Client} (hf : ∀ c, (f c).cid = c.cid) (cs : List Client) :
    (updClient cid f cs).map (·.cid) = cs.map (·.cid) := by
  induction cs with
  | nil => rfl
  | cons c cs ih =>
    simp only [updClient, List.map_cons] at *
    rw [ih]
    split <;> simp [hf]

theorem mem_foldl_erase {ks l : List Key} (hl : l.Nodup) {k : Key} : k ∈ ks.foldl List.erase l ↔ k ∈ l ∧ k ∉ ks := by
  induction ks generalizing l with
  | nil => simp
  | cons x ks ih =>
    simp only [List.foldl_cons]
    rw [ih (hl.erase x), hl.mem_erase_iff]
    simp only [List.mem_cons, not_or]
    exact ⟨fun ⟨⟨a, b⟩, c⟩ => ⟨b, a, c⟩, fun ⟨b, a, c⟩ => ⟨⟨a, b⟩, c⟩⟩

theorem nodup_foldl_erase {ks l : List Key} (hl : l.Nodup) : (ks.foldl List.erase l).Nodup := by
  induction ks generalizing l with
  | nil => exact hl
  | cons x ks ih => exact ih (hl.erase x)

theorem mem_pad {batch : Nat} {ks : List Key} (h : ks ≠ []) {k : Key} : k ∈ pad batch ks ↔ k ∈ ks := by
  unfold pad
  rw [List.mem_append, List.mem_replicate]
  constructor
  · rintro (h1 | ⟨_, rfl⟩)
    · exact h1
    · rw [List.getLastD_eq_getLast?, List.getLast?_eq_some_getLast h]
      exact List.getLast_mem h
  · exact .inl

/-- Sending a job to a free client succeeds. -/
theorem InvJ.assigned {cfg : Cfg V} {s : St V} (h : Inv cfg s) {ks : List Key} {cid : Cid} (hne : ks ≠ []) (hnd : ks.Nodup)
    (hks : ∀ k ∈ ks, k ∈ s.prlist) (hc : cid ∈ s.clients.map (·.cid)) (hfree : cid ∉ s.jobs.map (·.2)) (s' : St V)
    (hreq : s'.requests = s.requests) (hst : s'.status = setStatus ks .running s.status) (hres : s'.result = s.result)
    (hpr : s'.prlist = ks.foldl List.erase s.prlist)
    (hcl : ∃ f : Client → Client, (∀ c, (f c).cid = c.cid ∧ (f c).st = .sentJob ∧ (f c).sent = pad cfg.batch ks) ∧
      s'.clients = updClient cid f s.clients)
    (hj : s'.jobs = s.jobs ++ [(ks, cid)]) (hk : s'.nextKey = s.nextKey) (hci : s'.nextCid = s.nextCid) : Inv cfg s' := by
  obtain ⟨f, hf, hcl⟩ := hcl
  have hflat : s'.jobs.flatMap (·.1) = s.jobs.flatMap (·.1) ++ ks := by simp [hj]
  have hq : ∀ k ∈ ks, s.status k = .queued := fun k hk => (h.pr k (hks k hk)).2
  refine
    { reqNodup := hreq ▸ h.reqNodup, prNodup := ?_, pr := ?_, keysNodup := ?_, jobReq := ?_, runJob := ?_, cidNodup := ?_,
      job := ?_, idle := ?_, clNodup := ?_, done := ?_, keyLt := ?_, cidLt := ?_ }
  · rw [hpr]; exact nodup_foldl_erase h.prNodup
  · intro k hk'
    rw [hpr, mem_foldl_erase h.prNodup] at hk'
    rw [hreq, hst]
    exact ⟨(h.pr k hk'.1).1, by simp [setStatus, hk'.2, (h.pr k hk'.1).2]⟩
  · rw [hflat, List.nodup_append]
    refine ⟨h.keysNodup, hnd, fun a ha b hb hab => ?_⟩
    subst hab
    have := (h.jobReq a ha).2
    rw [hq a hb] at this
    cases this
  · intro k hk'
    rw [hflat, List.mem_append] at hk'
    rw [hreq, hst]
    rcases hk' with hk' | hk'
    · refine ⟨(h.jobReq k hk').1, ?_⟩
      simp only [setStatus]; split
      · rfl
      · exact (h.jobReq k hk').2
    · exact ⟨(h.pr k (hks k hk')).1, by simp [setStatus, hk']⟩
  · intro k hk' hrun
    rw [hflat, List.mem_append]
    rw [hreq] at hk'
    by_cases hin : k ∈ ks
    · exact .inr hin
    · rw [hst] at hrun
      simp only [setStatus, hin, if_false] at hrun
      exact .inl (h.runJob k hk' hrun)
  · rw [hj, List.map_append, List.nodup_append]
    refine ⟨h.cidNodup, by simp, fun a ha b hb hab => ?_⟩
    subst hab
    simp at hb
    subst hb
    exact hfree ha
  · intro j hj'
    rw [hj, List.mem_append] at hj'
    rcases hj' with hj' | hj'
    · obtain ⟨h1, c, hc', h2, h3, h4⟩ := h.job j hj'
      refine ⟨h1, c, ?_, h2, h3, h4⟩
      rw [hcl, mem_updClient]
      refine ⟨c, hc', ?_⟩
      rw [if_neg]
      intro e
      exact hfree (by rw [← e, h2]; exact List.mem_map_of_mem hj')
    · simp at hj'
      subst hj'
      obtain ⟨c, hc', he⟩ := List.mem_map.1 hc
      refine ⟨hne, f c, ?_, (hf c).1.trans he, by rw [(hf c).2.1]; rfl, (hf c).2.2⟩
      rw [hcl, mem_updClient]
      exact ⟨c, hc', by rw [if_pos he]⟩
  · intro c hc' hn
    rw [hcl, mem_updClient] at hc'
    obtain ⟨c0, h0, rfl⟩ := hc'
    rw [hj] at hn
    by_cases he : c0.cid = cid
    · rw [if_pos he, (hf c0).1, he] at hn
      simp at hn
    · rw [if_neg he] at hn ⊢
      exact h.idle c0 h0 (fun hm => hn (by rw [List.map_append]; exact List.mem_append_left _ hm))
  · rw [hcl, updClient_cids (fun c => (hf c).1)]; exact h.clNodup
  · intro k hk' hd
    rw [hreq] at hk'
    rw [hst] at hd
    simp only [setStatus] at hd
    split at hd
    · cases hd
    · rw [hres]; exact h.done k hk' hd
  · rw [hreq, hk]; exact h.keyLt
  · intro c hc'
    rw [hcl, mem_updClient] at hc'
    obtain ⟨c0, h0, rfl⟩ := hc'
    rw [hci]
    split
    · rw [(hf c0).1]; exact h.cidLt c0 h0
    · exact h.cidLt c0 h0

/-- Sending fails: the requests are back in the queue and the client is out. -/
theorem InvJ.failed {cfg : Cfg V} {s : St V} (h : Inv cfg s) {ks : List Key} {cid : Cid}
    (hks : ∀ k ∈ ks, k ∈ s.prlist) (hfree : cid ∉ s.jobs.map (·.2)) (s' : St V)
    (hreq : s'.requests = s.requests) (hst : ∀ k, s'.status k = s.status k) (hres : s'.result = s.result)
    (hpr : s'.prlist = ks.foldl List.erase s.prlist)
    (hcl : ∃ f : Client → Client, (∀ c, (f c).cid = c.cid ∧ (f c).sent = []) ∧ s'.clients = updClient cid f s.clients)
    (hj : s'.jobs = s.jobs) (hk : s'.nextKey = s.nextKey) (hci : s'.nextCid = s.nextCid) : Inv cfg s' := by
  obtain ⟨f, hf, hcl⟩ := hcl
  have := hks
  refine
    { reqNodup := hreq ▸ h.reqNodup, prNodup := ?_, pr := ?_, keysNodup := hj ▸ h.keysNodup, jobReq := ?_, runJob := ?_,
      cidNodup := hj ▸ h.cidNodup, job := ?_, idle := ?_, clNodup := ?_, done := ?_, keyLt := ?_, cidLt := ?_ }
  · rw [hpr]; exact nodup_foldl_erase h.prNodup
  · intro k hk'
    rw [hpr, mem_foldl_erase h.prNodup] at hk'
    rw [hreq, hst]
    exact h.pr k hk'.1
  · intro k hk'; rw [hj] at hk'; rw [hreq, hst]; exact h.jobReq k hk'
  · intro k hk' hr; rw [hreq] at hk'; rw [hst] at hr; rw [hj]; exact h.runJob k hk' hr
  · intro j hj'
    rw [hj] at hj'
    obtain ⟨h1, c, hc', h2, h3, h4⟩ := h.job j hj'
    refine ⟨h1, c, ?_, h2, h3, h4⟩
    rw [hcl, mem_updClient]
    refine ⟨c, hc', ?_⟩
    rw [if_neg]
    intro e
    exact hfree (by rw [← e, h2]; exact List.mem_map_of_mem hj')
  · intro c hc' hn
    rw [hcl, mem_updClient] at hc'
    obtain ⟨c0, h0, rfl⟩ := hc'
    rw [hj] at hn
    by_cases he : c0.cid = cid
    · rw [if_pos he]; exact (hf c0).2
    · rw [if_neg he] at hn ⊢
      exact h.idle c0 h0 hn
  · rw [hcl, updClient_cids (fun c => (hf c).1)]; exact h.clNodup
  · intro k hk' hd; rw [hreq] at hk'; rw [hst] at hd; rw [hres]; exact h.done k hk' hd
  · rw [hreq, hk]; exact h.keyLt
  · intro c hc'
    rw [hcl, mem_updClient] at hc'
    obtain ⟨c0, h0, rfl⟩ := hc'
    rw [hci]
    split
    · rw [(hf c0).1]; exact h.cidLt c0 h0
    · exact h.cidLt c0 h0

theorem updClient_updClient {cid : Cid} {f g : Client → Client} (hf : ∀ c, (f c).cid = c.cid) (cs : List Client) :
    updClient cid g (updClient cid f cs) = updClient cid (fun c => g (f c)) cs := by
  simp only [updClient, List.map_map]
  apply List.map_congr_left
  intro c _
  simp only [Function.comp]
  by_cases h : c.cid = cid
  · simp [h, hf]
  · simp [h]

/-- What `assign` does to the parts of the state the invariant talks about. -/
theorem assign_inv {cfg : Cfg V} {s : St V} (h : Inv cfg s) {ks : List Key} {cid : Cid} {lk : Bool} (hne : ks ≠ [])
    (hnd : ks.Nodup) (hks : ∀ k ∈ ks, k ∈ s.prlist) (hc : cid ∈ s.clients.map (·.cid)) (hfree : cid ∉ s.jobs.map (·.2)) :
    Inv cfg (assign cfg ks cid lk s).1 ∧ (assign cfg ks cid lk s).1.clients.map (·.cid) = s.clients.map (·.cid) ∧
      (assign cfg ks cid lk s).1.jobs =
        if (assign cfg ks cid lk s).2 then s.jobs ++ [(ks, cid)] else s.jobs := by
  have hq : ∀ k ∈ ks, s.status k = .queued := fun k hk => (h.pr k (hks k hk)).2
  cases ho : s.orc with
  | nil =>
    simp only [assign, popSend, ho]
    refine ⟨InvJ.assigned h hne hnd hks hc hfree _ rfl rfl rfl rfl ⟨_, ?_, updClient_updClient (by simp) _⟩ rfl rfl rfl,
      ?_, ?_⟩
    · intro c; simp
    · simp only [updClient_updClient (f := fun c => { c with locked := lk }) (by simp)]
      exact updClient_cids (by simp) _
    · simp
  | cons b t =>
    cases b with
    | true =>
      simp only [assign, popSend, ho]
      refine ⟨InvJ.assigned h hne hnd hks hc hfree _ rfl rfl rfl rfl ⟨_, ?_, updClient_updClient (by simp) _⟩ rfl rfl rfl,
        ?_, ?_⟩
      · intro c; simp
      · simp only [updClient_updClient (f := fun c => { c with locked := lk }) (by simp)]
        exact updClient_cids (by simp) _
      · simp
    | false =>
      simp only [assign, popSend, ho, requeue]
      refine ⟨InvJ.failed h hks hfree _ rfl ?_ rfl rfl ⟨_, ?_, updClient_updClient (by simp) _⟩ rfl rfl rfl, ?_, ?_⟩
      · intro k
        simp only [setStatus]
        split
        · rename_i hk; exact (hq k hk).symm
        · rfl
      · intro c; simp
      · simp only [updClient_updClient (f := fun c => { c with locked := lk }) (by simp)]
        exact updClient_cids (by simp) _
      · simp

theorem dispatchFree_inv {cfg : Cfg V} {s : St V} (h : Inv cfg s) {mid : MatchId} {cid : Cid}
    (hfree : cid ∉ s.jobs.map (·.2)) :
    Inv cfg (dispatchFree cfg mid cid s).1 ∧
      (dispatchFree cfg mid cid s).1.clients.map (·.cid) = s.clients.map (·.cid) ∧
      ∃ ks, (dispatchFree cfg mid cid s).1.jobs =
        if (dispatchFree cfg mid cid s).2 then s.jobs ++ [(ks, cid)] else s.jobs := by
  unfold dispatchFree
  split
  · exact ⟨h, rfl, [], by simp⟩
  · rename_i fc hfc
    have hc : cid ∈ s.clients.map (·.cid) := by
      have h1 := List.mem_of_find?_eq_some hfc
      have h2 := List.find?_some hfc
      exact List.mem_map.2 ⟨fc, h1, by simpa using h2⟩
    split
    · exact ⟨h, rfl, [], by simp⟩
    · split
      · rename_i hb
        split
        · exact ⟨h, rfl, [], by simp⟩
        · rename_i hp
          have hne : s.prlist.take cfg.batch ≠ [] := by
            intro e
            rw [List.take_eq_nil_iff] at e
            rcases e with e | e
            · omega
            · exact hp e
          obtain ⟨h1, h2, h3⟩ := assign_inv h (lk := false) hne ((List.take_sublist _ _).nodup h.prNodup)
            (fun k hk => List.mem_of_mem_take hk) hc hfree
          exact ⟨h1, h2, _, h3⟩
      · split
        · exact ⟨h, rfl, [], by simp⟩
        · rename_i r hr
          obtain ⟨h1, h2, h3⟩ := assign_inv h (ks := [r]) (lk := fc.lastreq == some (cfg.rid r)) (by simp) (by simp)
            (fun k hk => by simp at hk; subst hk; exact List.mem_of_find?_eq_some hr) hc hfree
          exact ⟨h1, h2, _, h3⟩

/-- Invariant of the dispatch loop. -/
structure RdOk (cfg : Cfg V) (cids : List Cid) (rd : Rd V) : Prop where
  inv : Inv cfg rd.s
  nodup : rd.freec.Nodup
  free : ∀ c ∈ rd.freec, c ∉ rd.s.jobs.map (·.2)
  cids : rd.s.clients.map (·.cid) = cids

theorem passClients_ok {cfg : Cfg V} {cids : List Cid} {mid : MatchId} (l : List Cid) : ∀ (rd : Rd V), RdOk cfg cids rd →
    l.Nodup → (∀ c ∈ l, c ∈ rd.freec) →
    RdOk cfg cids (passClients cfg mid l rd) ∧
      ((passClients cfg mid l rd).d = rd.d ∧ (passClients cfg mid l rd).freec = rd.freec ∨
        (passClients cfg mid l rd).d = true ∧ (passClients cfg mid l rd).freec.length < rd.freec.length) := by
  induction l with
  | nil => intro rd h _ _; exact ⟨h, .inl ⟨rfl, rfl⟩⟩
  | cons fc rest ih =>
    intro rd h hnd hsub
    have hfc := hsub fc (by simp)
    obtain ⟨h1, h2, ks, h3⟩ := dispatchFree_inv h.inv (mid := mid) (h.free fc hfc)
    unfold passClients
    generalize hx : dispatchFree cfg mid fc rd.s = x at *
    obtain ⟨s', ok⟩ := x
    simp only at h1 h2 h3 ⊢
    have hnd' := List.nodup_cons.1 hnd
    cases ok with
    | false =>
      simp only [Bool.false_eq_true, if_false] at h3 ⊢
      have hrd : RdOk cfg cids ⟨s', rd.freec, rd.d⟩ := ⟨h1, h.nodup, by simpa [h3] using h.free, by simpa [h2] using h.cids⟩
      split
      · exact ⟨hrd, .inl ⟨rfl, rfl⟩⟩
      · exact ih _ hrd hnd'.2 (fun c hc => hsub c (by simp [hc]))
    | true =>
      simp only [if_true] at h3 ⊢
      have hlen : (rd.freec.erase fc).length < rd.freec.length := by
        rw [List.length_erase_of_mem hfc]
        have := List.length_pos_of_mem hfc
        omega
      have hrd : RdOk cfg cids ⟨s', rd.freec.erase fc, true⟩ := by
        refine ⟨h1, h.nodup.erase fc, ?_, by simpa [h2] using h.cids⟩
        intro c hc
        rw [h.nodup.mem_erase_iff] at hc
        simp only [h3, List.map_append, List.mem_append, not_or]
        exact ⟨h.free c hc.2, by simpa using hc.1⟩
      split
      · exact ⟨hrd, .inr ⟨rfl, hlen⟩⟩
      · obtain ⟨a, b⟩ := ih _ hrd hnd'.2 (fun c hc => by
          show c ∈ rd.freec.erase fc
          rw [h.nodup.mem_erase_iff]
          exact ⟨fun e => hnd'.1 (e ▸ hc), hsub c (by simp [hc])⟩)
        refine ⟨a, .inr ?_⟩
        rcases b with ⟨b1, b2⟩ | ⟨b1, b2⟩
        · exact ⟨b1, by rw [b2]; exact hlen⟩
        · exact ⟨b1, by simp only at b2; omega⟩

theorem round_ok {cfg : Cfg V} {cids : List Cid} (mids : List MatchId) : ∀ (rd : Rd V), RdOk cfg cids rd →
    RdOk cfg cids (round cfg mids rd) ∧
      ((round cfg mids rd).d = rd.d ∧ (round cfg mids rd).freec = rd.freec ∨
        (round cfg mids rd).d = true ∧ (round cfg mids rd).freec.length < rd.freec.length) := by
  induction mids with
  | nil => intro rd h; exact ⟨h, .inl ⟨rfl, rfl⟩⟩
  | cons m mids ih =>
    intro rd h
    obtain ⟨h1, h2⟩ := passClients_ok (mid := m) rd.freec rd h h.nodup (fun _ hc => hc)
    obtain ⟨h3, h4⟩ := ih _ h1
    refine ⟨h3, ?_⟩
    show (round cfg mids (passClients cfg m rd.freec rd)).d = rd.d ∧ _ ∨ _
    rcases h2 with ⟨a, b⟩ | ⟨a, b⟩ <;> rcases h4 with ⟨c, d⟩ | ⟨c, d⟩
    · exact .inl ⟨c.trans a, d.trans b⟩
    · exact .inr ⟨c, by rw [b] at d; exact d⟩
    · exact .inr ⟨c.trans a, by show (round cfg mids (passClients cfg m rd.freec rd)).freec.length < _; rw [d]; exact b⟩
    · exact .inr ⟨c, Nat.lt_trans d b⟩

/-- The guard added to the loop for termination never matters: a round that dispatched something used up a client. -/
theorem round_progress {cfg : Cfg V} {s : St V} {freec : List Cid} (h : RdOk cfg (s.clients.map (·.cid)) ⟨s, freec, false⟩)
    (hd : (round cfg cfg.mode.seq ⟨s, freec, false⟩).d = true) :
    (round cfg cfg.mode.seq ⟨s, freec, false⟩).freec.length < freec.length := by
  rcases (round_ok cfg.mode.seq _ h).2 with ⟨a, _⟩ | ⟨_, b⟩
  · rw [a] at hd; cases hd
  · exact b

theorem InvJ.refresh {cfg : Cfg V} {s : St V} (h : Inv cfg s) : Inv cfg { s with prlist := pending s } :=
  { h with
    prNodup := h.reqNodup.filter _
    pr := by
      intro k hk
      simp only [pending, List.mem_filter] at hk
      exact ⟨hk.1, by simpa using hk.2⟩ }

theorem dispatchLoop_inv {cfg : Cfg V} {cids : List Cid} (s : St V) (freec : List Cid)
    (h : RdOk cfg cids ⟨s, freec, false⟩) : Inv cfg (dispatchLoop cfg s freec).1 ∧
      (dispatchLoop cfg s freec).1.clients.map (·.cid) = cids := by
  induction hn : freec.length using Nat.strongRecOn generalizing s freec with
  | _ n ih =>
    rw [dispatchLoop]
    split
    · exact ⟨h.inv, h.cids⟩
    · obtain ⟨h1, _⟩ := round_ok cfg.mode.seq _ h
      simp only
      split
      · exact ⟨h1.inv, h1.cids⟩
      · generalize hrd : round cfg cfg.mode.seq ⟨s, freec, false⟩ = rd at *
        have h2 : RdOk cfg cids ⟨if rd.freec = [] then rd.s else { rd.s with prlist := pending rd.s }, rd.freec, false⟩ := by
          split
          · exact ⟨h1.inv, h1.nodup, h1.free, h1.cids⟩
          · exact ⟨h1.inv.refresh, h1.nodup, h1.free, h1.cids⟩
        split
        · rename_i hlt
          exact ih _ (by omega) _ _ h2 rfl
        · exact ⟨h2.inv, h2.cids⟩

theorem freeClients_ok {cfg : Cfg V} {s : St V} (h : Inv cfg s) :
    (freeClients s).Nodup ∧ ∀ c ∈ freeClients s, c ∉ s.jobs.map (·.2) := by
  refine ⟨h.clNodup.filter _, fun c hc => ?_⟩
  simp only [freeClients, List.mem_filter] at hc
  simpa using hc.2

theorem dispatchPhase_inv {cfg : Cfg V} {s : St V} (h : Inv cfg s) : Inv cfg (dispatchPhase cfg s) := by
  unfold dispatchPhase
  split
  · exact h
  · obtain ⟨h1, h2⟩ := freeClients_ok h
    have key : ∀ s' : St V, Inv cfg s' → s'.jobs = s.jobs → s'.clients = s.clients →
        Inv cfg (dispatchLoop cfg s' (freeClients s)).1 := by
      intro s' hi hj hc
      exact (dispatchLoop_inv (cids := s'.clients.map (·.cid)) s' _ ⟨hi, h1, fun c hc => by show c ∉ s'.jobs.map (·.2); rw [hj]; exact h2 c hc, rfl⟩).1
    have : Inv cfg (dispatchLoop cfg (if s.prlist = [] ∨ (freeClients s).length > s.prlist.length then
        { s with prlist := pending s } else s) (freeClients s)).1 := by
      split
      · exact key _ h.refresh rfl rfl
      · exact key _ h rfl rfl
    exact { this with }

/-! ### collecting -/

theorem lookup_zip_map {ks : List Key} {f : Key → V} (hnd : ks.Nodup) {k : Key} (hk : k ∈ ks) :
    (List.zip ks (ks.map f)).lookup k = some (f k) := by
  induction ks with
  | nil => cases hk
  | cons x ks ih =>
    simp only [List.map_cons, List.zip_cons_cons, List.lookup_cons]
    by_cases h : k = x
    · subst h; simp
    · rcases List.mem_cons.1 hk with h' | h'
      · exact absurd h' h
      · have : (k == x) = false := by simpa using h
        rw [this]
        exact ih (List.nodup_cons.1 hnd).2 h'

theorem zip_map_fst {ks : List Key} {f : Key → V} : (List.zip ks (ks.map f)).map (·.1) = ks := by
  induction ks with
  | nil => rfl
  | cons x ks ih => simp [ih]

theorem find_client {cfg : Cfg V} {s : St V} {jobs} (h : InvJ cfg s jobs) {c : Client} (hc : c ∈ s.clients) :
    s.clients.find? (fun x => x.cid == c.cid) = some c := by
  cases hf : s.clients.find? (fun x => x.cid == c.cid) with
  | none =>
    have := List.find?_eq_none.1 hf c hc
    simp at this
  | some c' =>
    have h1 := List.mem_of_find?_eq_some hf
    have h2 := List.find?_some hf
    simp at h2
    rw [h.client_eq h1 hc h2]

/-- The reply of a client, read for the job it was sent, gives each request the answer for its own structure. -/
theorem recvOk_eq {cfg : Cfg V} {s : St V} {jobs} (h : InvJ cfg s jobs) {ks : List Key} {cid : Cid}
    (hj : (ks, cid) ∈ jobs) (st : CStatus) :
    (recvOk cfg ks cid st s).status = setStatus ks .done s.status ∧
    ∀ k, (recvOk cfg ks cid st s).result k = if k ∈ ks then some (cfg.eval k) else s.result k := by
  obtain ⟨hne, c, hc, hcid, hup, hsent⟩ := h.job _ hj
  simp only at hcid hsent hne
  have hnd : ks.Nodup := by
    obtain ⟨l1, l2, rfl⟩ := List.append_of_mem hj
    have := h.keysNodup
    rw [List.flatMap_append, List.flatMap_cons, List.nodup_append] at this
    exact (List.nodup_append.1 this.2.1).1
  have hfind : s.clients.find? (fun x => x.cid == cid) = some c := by rw [← hcid]; exact find_client h hc
  have hrep : (((s.clients.find? (fun x => x.cid == cid)).map (·.sent)).getD [] |>.map cfg.eval).take ks.length =
      ks.map cfg.eval := by
    rw [hfind]
    simp only [Option.map_some, Option.getD_some, hsent, pad, List.map_append]
    rw [List.take_append_of_le_length (by simp), List.take_of_length_le (by simp)]
  constructor
  · simp only [recvOk]
    rw [hrep, zip_map_fst]
  · intro k
    simp only [recvOk]
    rw [hrep]
    by_cases hk : k ∈ ks
    · rw [lookup_zip_map hnd hk, if_pos hk]; rfl
    · rw [if_neg hk]
      have : (List.zip ks (ks.map cfg.eval)).lookup k = none := by
        rw [List.lookup_eq_none_iff]
        intro p hp
        have : p.1 ∈ ks := (List.of_mem_zip hp).1
        simp
        intro e
        exact hk (e ▸ this)
      rw [this]; rfl

/-- Finishing the job at the head of the list, whatever the new status of its requests, as long as it is not `running`. -/
theorem InvJ.finish {cfg : Cfg V} {s : St V} {pre js} {ks : List Key} {cid : Cid} (h : InvJ cfg s (pre ++ (ks, cid) :: js))
    (s' : St V) (v : RStatus) (hv : v ≠ .running)
    (hreq : s'.requests = s.requests) (hst : s'.status = setStatus ks v s.status) (hpr : s'.prlist = s.prlist)
    (hres : ∀ k, s'.status k = .done → k ∈ s.requests → s'.result k = some (cfg.eval k))
    (hcl : ∃ f : Client → Client, (∀ c, (f c).cid = c.cid ∧ (f c).sent = []) ∧ s'.clients = updClient cid f s.clients)
    (hk : s'.nextKey = s.nextKey) (hci : s'.nextCid = s.nextCid) : InvJ cfg s' (pre ++ js) := by
  obtain ⟨f, hf, hcl⟩ := hcl
  have hmem : ∀ k, k ∈ (pre ++ (ks, cid) :: js).flatMap (·.1) ↔ k ∈ ks ∨ k ∈ (pre ++ js).flatMap (·.1) := by
    intro k
    simp only [List.flatMap_append, List.flatMap_cons, List.mem_append]
    constructor
    · rintro (h | h | h)
      · exact .inr (.inl h)
      · exact .inl h
      · exact .inr (.inr h)
    · rintro (h | h | h)
      · exact .inr (.inl h)
      · exact .inl h
      · exact .inr (.inr h)
  have hkn := h.keysNodup
  have hperm : (pre ++ (ks, cid) :: js).Perm ((ks, cid) :: (pre ++ js)) := List.perm_middle
  have hkn2 : (((ks, cid) :: (pre ++ js)).flatMap (·.1)).Nodup := (hperm.flatMap_right (·.1)).nodup_iff.1 hkn
  rw [List.flatMap_cons, List.nodup_append] at hkn2
  have hdisj : ∀ k ∈ ks, k ∉ (pre ++ js).flatMap (·.1) := fun k h1 h2 => hkn2.2.2 k h1 k h2 rfl
  have hcn2 : (((ks, cid) :: (pre ++ js)).map (·.2)).Nodup := (hperm.map (·.2)).nodup_iff.1 h.cidNodup
  rw [List.map_cons, List.nodup_cons] at hcn2
  have hrun : ∀ k ∈ ks, s.status k = .running := fun k hk => (h.jobReq k ((hmem k).2 (.inl hk))).2
  refine
    { reqNodup := hreq ▸ h.reqNodup, prNodup := hpr ▸ h.prNodup, pr := ?_, keysNodup := hkn2.2.1, jobReq := ?_, runJob := ?_,
      cidNodup := hcn2.2, job := ?_, idle := ?_, clNodup := ?_, done := ?_, keyLt := ?_, cidLt := ?_ }
  · intro k hk'
    rw [hpr] at hk'
    have h1 := h.pr k hk'
    rw [hreq, hst]
    refine ⟨h1.1, ?_⟩
    simp only [setStatus]
    split
    · rename_i hin
      have := hrun k hin
      rw [h1.2] at this; cases this
    · exact h1.2
  · intro k hk'
    have h1 := h.jobReq k ((hmem k).2 (.inr hk'))
    rw [hreq, hst]
    refine ⟨h1.1, ?_⟩
    simp only [setStatus]
    rw [if_neg (fun hin => hdisj k hin hk')]
    exact h1.2
  · intro k hk' hr
    rw [hreq] at hk'
    rw [hst] at hr
    simp only [setStatus] at hr
    split at hr
    · exact absurd hr hv
    · rename_i hin
      rcases (hmem k).1 (h.runJob k hk' hr) with h2 | h2
      · exact absurd h2 hin
      · exact h2
  · intro j hj'
    obtain ⟨h1, c, hc', h2, h3, h4⟩ := h.job j (hperm.mem_iff.2 (List.mem_cons_of_mem _ hj'))
    refine ⟨h1, c, ?_, h2, h3, h4⟩
    rw [hcl, mem_updClient]
    refine ⟨c, hc', ?_⟩
    rw [if_neg]
    intro e
    exact hcn2.1 (by show cid ∈ _; rw [← e, h2]; exact List.mem_map_of_mem hj')
  · intro c hc' hn
    rw [hcl, mem_updClient] at hc'
    obtain ⟨c0, h0, rfl⟩ := hc'
    by_cases he : c0.cid = cid
    · rw [if_pos he]; exact (hf c0).2
    · rw [if_neg he] at hn ⊢
      refine h.idle c0 h0 (fun hm => ?_)
      rw [(hperm.map (·.2)).mem_iff, List.map_cons, List.mem_cons] at hm
      rcases hm with hm | hm
      · exact he hm
      · exact hn hm
  · rw [hcl, updClient_cids (fun c => (hf c).1)]; exact h.clNodup
  · intro k hk' hd; rw [hreq] at hk'; exact hres k hd hk'
  · rw [hreq, hk]; exact h.keyLt
  · intro c hc'
    rw [hcl, mem_updClient] at hc'
    obtain ⟨c0, h0, rfl⟩ := hc'
    rw [hci]
    split
    · rw [(hf c0).1]; exact h.cidLt c0 h0
    · exact h.cidLt c0 h0

theorem requeue_finish {cfg : Cfg V} {s : St V} {pre js} {ks : List Key} {cid : Cid}
    (h : InvJ cfg s (pre ++ (ks, cid) :: js)) : InvJ cfg (requeue ks cid s) (pre ++ js) := by
  refine InvJ.finish h _ .queued (by simp) rfl rfl rfl ?_ ⟨_, ?_, rfl⟩ rfl rfl
  · intro k hd hk
    simp only [requeue, setStatus] at hd ⊢
    split at hd
    · cases hd
    · exact h.done k hk hd
  · intro c; simp

theorem recv_finish {cfg : Cfg V} {s : St V} {pre js} {ks : List Key} {cid : Cid} (st : CStatus)
    (h : InvJ cfg s (pre ++ (ks, cid) :: js)) : InvJ cfg (recvOk cfg ks cid st s) (pre ++ js) := by
  obtain ⟨h1, h2⟩ := recvOk_eq h (ks := ks) (cid := cid) (by simp) st
  refine InvJ.finish h _ .done (by simp) rfl h1 rfl ?_ ⟨_, ?_, rfl⟩ rfl rfl
  · intro k hd hk
    rw [h2]
    split
    · rfl
    · rename_i hin
      rw [h1] at hd
      simp only [setStatus, hin, if_false] at hd
      exact h.done k hk hd
  · intro c; simp

theorem collectJobs_inv {cfg : Cfg V} {ans : Cid → Option RecvAns} (js : List (List Key × Cid)) :
    ∀ (s : St V) (pre : List (List Key × Cid)), InvJ cfg s (pre ++ js) → ∀ s' kept,
      collectJobs cfg ans js s = .ok (s', kept) → InvJ cfg s' (pre ++ kept) := by
  induction js with
  | nil => intro s pre h s' kept he; simp [collectJobs] at he; obtain ⟨rfl, rfl⟩ := he; exact h
  | cons j js ih =>
    obtain ⟨ks, cid⟩ := j
    intro s pre h s' kept he
    unfold collectJobs at he
    split at he
    · split at he
      · rename_i s1 k1 hr
        simp at he
        obtain ⟨rfl, rfl⟩ := he
        have := ih s (pre ++ [(ks, cid)]) (by simpa using h) _ _ hr
        simpa using this
      · cases he
    · exact ih _ pre (recv_finish _ h) _ _ he
    · exact ih _ pre (requeue_finish h) _ _ he
    · cases he

theorem dropExpired_inv {cfg : Cfg V} {ex : Cid → Bool} (js : List (List Key × Cid)) :
    ∀ (s : St V) (pre : List (List Key × Cid)), InvJ cfg s (pre ++ js) →
      InvJ cfg (dropExpired ex js s).1 (pre ++ (dropExpired ex js s).2) := by
  induction js with
  | nil => intro s pre h; simpa [dropExpired] using h
  | cons j js ih =>
    obtain ⟨ks, cid⟩ := j
    intro s pre h
    unfold dropExpired
    split
    · exact ih _ pre (requeue_finish h)
    · have := ih s (pre ++ [(ks, cid)]) (by simpa using h)
      simpa using this

theorem collectIter_inv {cfg : Cfg V} {ans : Cid → Option RecvAns} {ex : Cid → Bool} {s s' : St V} (h : Inv cfg s)
    (he : collectIter cfg ans ex s = .ok s') : Inv cfg s' := by
  unfold collectIter at he
  split at he
  · cases he
  · rename_i s1 kept hr
    have h1 := collectJobs_inv s.jobs s [] (by simpa using h) _ _ hr
    have h2 := dropExpired_inv (ex := ex) kept s1 [] (by simpa using h1)
    simp only [List.nil_append] at h2
    generalize hd : dropExpired ex kept s1 = d at *
    obtain ⟨s2, k2⟩ := d
    simp at he
    subst he
    exact { h2 with }

/-! ### the rest -/

theorem poolUpdate_inv {cfg : Cfg V} {news : List CStatus} {s s' : St V} (h : Inv cfg s) (he : poolUpdate news s = .ok s') :
    Inv cfg s' := by
  unfold poolUpdate at he
  split at he
  · cases he
  · rename_i hn
    simp at he
    subst he
    have hnew : ∀ c ∈ (news.zipIdx.map fun (p : CStatus × Nat) => (⟨s.nextCid + p.2, p.1, none, false, []⟩ : Client)),
        c.sent = [] ∧ s.nextCid ≤ c.cid ∧ c.cid < s.nextCid + news.length := by
      intro c hc
      obtain ⟨⟨st, i⟩, hp, rfl⟩ := List.mem_map.1 hc
      have := List.snd_lt_of_mem_zipIdx hp
      simp at this ⊢
      omega
    refine { h with job := ?_, idle := ?_, clNodup := ?_, cidLt := ?_ }
    · intro j hj
      obtain ⟨h1, c, hc, h2, h3, h4⟩ := h.job j hj
      exact ⟨h1, c, List.mem_append_left _ (List.mem_filter.2 ⟨hc, h3⟩), h2, h3, h4⟩
    · intro c hc hn'
      rcases List.mem_append.1 hc with hc | hc
      · exact h.idle c (List.mem_filter.1 hc).1 hn'
      · exact (hnew c hc).1
    · simp only [List.map_append]
      rw [List.nodup_append]
      refine ⟨(List.filter_sublist.map _).nodup h.clNodup, ?_, ?_⟩
      · rw [List.map_map]
        have : ((fun c : Client => c.cid) ∘ fun (p : CStatus × Nat) => (⟨s.nextCid + p.2, p.1, none, false, []⟩ : Client)) =
            fun p => s.nextCid + p.2 := rfl
        rw [this]
        have h2 : (news.zipIdx.map fun p => s.nextCid + p.2) = (List.range news.length).map (s.nextCid + ·) := by
          have : (fun p : CStatus × Nat => s.nextCid + p.2) = (s.nextCid + ·) ∘ (fun p : CStatus × Nat => p.2) := rfl
          rw [this, ← List.map_map]
          rw [List.zipIdx_map_snd, List.range_eq_range']
        rw [h2]
        rw [List.nodup_iff_pairwise_ne, List.pairwise_map]
        exact List.Pairwise.imp (fun hlt e => by have := Nat.add_left_cancel e; omega) List.pairwise_lt_range
      · intro a ha b hb hab
        obtain ⟨c, hc, rfl⟩ := List.mem_map.1 ha
        obtain ⟨c', hc', rfl⟩ := List.mem_map.1 hb
        have h1 := h.cidLt c (List.mem_filter.1 hc).1
        have h2 := (hnew c' hc').2.1
        rw [← hab] at h2
        exact Nat.lt_irrefl _ (Nat.lt_of_lt_of_le h1 h2)
    · intro c hc
      rcases List.mem_append.1 hc with hc | hc
      · exact Nat.lt_of_lt_of_le (h.cidLt c (List.mem_filter.1 hc).1) (Nat.le_add_right _ _)
      · exact (hnew c hc).2.2

theorem step_inv {cfg : Cfg V} {s s' : St V} {op : Op} (h : Inv cfg s) (he : step cfg s op = .ok s') : Inv cfg s' := by
  cases op with
  | queue =>
    simp only [step, Except.ok.injEq] at he
    subst he
    have hn : s.nextKey ∉ s.requests := fun hm => Nat.lt_irrefl _ (h.keyLt _ hm)
    have hst : ∀ k ∈ s.requests, setStatus [s.nextKey] .queued s.status k = s.status k := by
      intro k hk
      simp only [setStatus, List.mem_singleton]
      exact if_neg (fun (e : k = s.nextKey) => hn (e ▸ hk))
    refine { h with reqNodup := ?_, pr := ?_, jobReq := ?_, runJob := ?_, done := ?_, keyLt := ?_ }
    · simp only [List.nodup_append]
      refine ⟨h.reqNodup, by simp, fun a ha b hb hab => ?_⟩
      simp at hb; subst hb; subst hab; exact hn ha
    · intro k hk
      have := h.pr k hk
      exact ⟨List.mem_append_left _ this.1, by simp only [hst k this.1]; exact this.2⟩
    · intro k hk
      have := h.jobReq k hk
      exact ⟨List.mem_append_left _ this.1, by simp only [hst k this.1]; exact this.2⟩
    · intro k hk hr
      rcases List.mem_append.1 hk with hk | hk
      · simp only [hst k hk] at hr; exact h.runJob k hk hr
      · simp at hk; subst hk; simp [setStatus] at hr
    · intro k hk hd
      rcases List.mem_append.1 hk with hk | hk
      · simp only [hst k hk] at hd; exact h.done k hk hd
      · simp at hk; subst hk; simp [setStatus] at hd
    · intro k hk
      rcases List.mem_append.1 hk with hk | hk
      · exact Nat.lt_succ_of_lt (h.keyLt k hk)
      · simp at hk; subst hk; exact Nat.lt_succ_self _
  | release k =>
    simp only [step, Except.ok.injEq] at he
    subst he
    split
    · rename_i hd
      have hsub : ∀ k' ∈ s.requests, s.status k' ≠ .done → k' ∈ s.requests.erase k := by
        intro k' hk' hnd
        rw [h.reqNodup.mem_erase_iff]
        exact ⟨fun e => hnd (e ▸ hd), hk'⟩
      have hin : ∀ k' ∈ s.requests.erase k, k' ∈ s.requests := fun k' hk' => List.mem_of_mem_erase hk'
      refine { h with reqNodup := h.reqNodup.erase k, pr := ?_, jobReq := ?_, runJob := ?_, done := ?_, keyLt := ?_ }
      · intro k' hk'
        have := h.pr k' hk'
        exact ⟨hsub k' this.1 (by rw [this.2]; simp), this.2⟩
      · intro k' hk'
        have := h.jobReq k' hk'
        exact ⟨hsub k' this.1 (by rw [this.2]; simp), this.2⟩
      · intro k' hk' hr; exact h.runJob k' (hin k' hk') hr
      · intro k' hk' hr; exact h.done k' (hin k' hk') hr
      · intro k' hk'; exact h.keyLt k' (hin k' hk')
    · exact h
  | update news =>
    simp only [step] at he
    split at he
    · exact poolUpdate_inv h he
    · simp at he; subst he; exact h
  | dispatch sends =>
    simp only [step, Except.ok.injEq] at he
    subst he
    split
    · have h0 : Inv cfg { s with orc := sends } := { h with }
      exact dispatchPhase_inv h0
    · exact h
  | collect ans ex =>
    simp only [step] at he
    split at he
    · exact collectIter_inv h he
    · simp at he; subst he; exact h
  | selectError =>
    simp only [step, Except.ok.injEq] at he
    subst he
    exact { h with }

theorem inv_init (cfg : Cfg V) : Inv cfg ({} : St V) := by
  constructor <;> simp

theorem run_inv {cfg : Cfg V} (ops : List Op) : ∀ {s s' : St V}, Inv cfg s → run cfg s ops = .ok s' → Inv cfg s' := by
  induction ops with
  | nil => intro s s' h he; simp [run] at he; subst he; exact h
  | cons op ops ih =>
    intro s s' h he
    unfold run at he
    split at he
    · rename_i s1 h1; exact ih (step_inv h h1) he
    · cases he

end Verif.Pool
