import Verif.Pool.Lemmas
/-
Consequences of the scheduler invariant.
-/
namespace Verif.Pool
variable {V : Type}

theorem flatMap_key_unique {jobs : List (List Key × Cid)} (h : (jobs.flatMap (·.1)).Nodup) {j j' : List Key × Cid} {k : Key}
    (hj : j ∈ jobs) (hj' : j' ∈ jobs) (hk : k ∈ j.1) (hk' : k ∈ j'.1) : j = j' := by
  induction jobs with
  | nil => cases hj
  | cons x js ih =>
    rw [List.flatMap_cons, List.nodup_append] at h
    rcases List.mem_cons.1 hj with e | hj <;> rcases List.mem_cons.1 hj' with e' | hj'
    · rw [e, e']
    · exact absurd rfl (h.2.2 k (e ▸ hk) k (List.mem_flatMap.2 ⟨_, hj', hk'⟩))
    · exact absurd rfl (h.2.2 k (e' ▸ hk') k (List.mem_flatMap.2 ⟨_, hj, hk⟩))
    · exact ih h.2.1 hj hj'

/-- What a connected driver has been sent is exactly the job on record for it. -/
theorem InvJ.sent_job {cfg : Cfg V} {s : St V} (h : Inv cfg s) {c : Client} (hc : c ∈ s.clients) {k : Key} (hk : k ∈ c.sent) :
    ∃ ks, (ks, c.cid) ∈ s.jobs ∧ k ∈ ks ∧ c.sent = pad cfg.batch ks := by
  by_cases hj : c.cid ∈ s.jobs.map (·.2)
  · obtain ⟨⟨ks, cid⟩, hjm, he⟩ := List.mem_map.1 hj
    obtain ⟨h1, c', hc', h2, h3, h4⟩ := h.job _ hjm
    simp only at he h2 h1
    have := h.client_eq hc' hc (by rw [h2, he])
    subst this
    rw [h4, mem_pad h1] at hk
    subst he
    exact ⟨ks, hjm, hk, h4⟩
  · rw [h.idle c hc hj] at hk; cases hk

theorem InvJ.not_sent {cfg : Cfg V} {s : St V} (h : Inv cfg s) {k : Key} (hk : s.status k ≠ .running) :
    ∀ c ∈ s.clients, k ∉ c.sent := by
  intro c hc hks
  obtain ⟨ks, hj, hin, _⟩ := h.sent_job hc hks
  exact hk (h.jobReq k (List.mem_flatMap.2 ⟨_, hj, hin⟩)).2

theorem InvJ.classify {cfg : Cfg V} {s : St V} (h : Inv cfg s) {k : Key} (hk : k ∈ s.requests) :
    Waiting s k ∨ (∃ c, RunningOn s k c ∧ ∀ c', RunningOn s k c' → c' = c) ∨ Answered cfg s k := by
  cases hs : s.status k with
  | queued => exact .inl ⟨hs, h.not_sent (by rw [hs]; simp)⟩
  | done => exact .inr (.inr ⟨hs, h.done k hk hs, h.not_sent (by rw [hs]; simp)⟩)
  | running =>
    obtain ⟨⟨ks, cid⟩, hj, hin⟩ := List.mem_flatMap.1 (h.runJob k hk hs)
    obtain ⟨h1, c, hc, h2, h3, h4⟩ := h.job _ hj
    simp only at h1 h2 h4 hin
    subst h2
    refine .inr (.inl ⟨c, ⟨hs, hc, h3, by rw [h4, mem_pad h1]; exact hin, ks, hj, hin⟩, ?_⟩)
    rintro c' ⟨_, hc', _, _, ks', hj', hin'⟩
    have := flatMap_key_unique h.keysNodup hj hj' hin hin'
    exact h.client_eq hc' hc (by injection this with _ e; exact e.symm)

/-! ### which requests are on the list -/

theorem setStatus_same {ks : List Key} {v : RStatus} {f : Key → RStatus} {k : Key} (h : k ∉ ks) : setStatus ks v f k = f k :=
  if_neg h

theorem assign_reqs {cfg : Cfg V} {ks : List Key} {cid : Cid} {lk : Bool} {s : St V} :
    (assign cfg ks cid lk s).1.requests = s.requests ∧ (assign cfg ks cid lk s).1.nextKey = s.nextKey := by
  simp only [assign, popSend]
  cases s.orc with
  | nil => exact ⟨rfl, rfl⟩
  | cons b t => cases b <;> exact ⟨rfl, rfl⟩

theorem dispatchFree_reqs {cfg : Cfg V} {mid : MatchId} {cid : Cid} {s : St V} :
    (dispatchFree cfg mid cid s).1.requests = s.requests ∧ (dispatchFree cfg mid cid s).1.nextKey = s.nextKey := by
  unfold dispatchFree
  split
  · exact ⟨rfl, rfl⟩
  · split
    · exact ⟨rfl, rfl⟩
    · split
      · split
        · exact ⟨rfl, rfl⟩
        · exact assign_reqs
      · split
        · exact ⟨rfl, rfl⟩
        · exact assign_reqs

theorem passClients_reqs {cfg : Cfg V} {mid : MatchId} (l : List Cid) : ∀ rd : Rd V,
    (passClients cfg mid l rd).s.requests = rd.s.requests ∧ (passClients cfg mid l rd).s.nextKey = rd.s.nextKey := by
  induction l with
  | nil => intro rd; exact ⟨rfl, rfl⟩
  | cons fc rest ih =>
    intro rd
    have h := dispatchFree_reqs (cfg := cfg) (mid := mid) (cid := fc) (s := rd.s)
    unfold passClients
    generalize dispatchFree cfg mid fc rd.s = x at *
    obtain ⟨s', ok⟩ := x
    simp only at h ⊢
    cases ok
    · simp only [Bool.false_eq_true, if_false]
      split
      · exact h
      · exact ⟨(ih _).1.trans h.1, (ih _).2.trans h.2⟩
    · simp only [if_true]
      split
      · exact h
      · exact ⟨(ih _).1.trans h.1, (ih _).2.trans h.2⟩

theorem round_reqs {cfg : Cfg V} (mids : List MatchId) : ∀ rd : Rd V,
    (round cfg mids rd).s.requests = rd.s.requests ∧ (round cfg mids rd).s.nextKey = rd.s.nextKey := by
  induction mids with
  | nil => intro rd; exact ⟨rfl, rfl⟩
  | cons m mids ih =>
    intro rd
    have h := passClients_reqs (cfg := cfg) (mid := m) rd.freec rd
    exact ⟨(ih _).1.trans h.1, (ih _).2.trans h.2⟩

theorem dispatchLoop_reqs {cfg : Cfg V} (s : St V) (freec : List Cid) :
    (dispatchLoop cfg s freec).1.requests = s.requests ∧ (dispatchLoop cfg s freec).1.nextKey = s.nextKey := by
  induction hn : freec.length using Nat.strongRecOn generalizing s freec with
  | _ n ih =>
    rw [dispatchLoop]
    split
    · exact ⟨rfl, rfl⟩
    · have h := round_reqs (cfg := cfg) cfg.mode.seq ⟨s, freec, false⟩
      simp only
      split
      · exact h
      · generalize hrd : round cfg cfg.mode.seq ⟨s, freec, false⟩ = rd at *
        have h2 : (if rd.freec = [] then rd.s else { rd.s with prlist := pending rd.s }).requests = s.requests ∧
            (if rd.freec = [] then rd.s else { rd.s with prlist := pending rd.s }).nextKey = s.nextKey := by
          split <;> exact h
        split
        · rename_i hlt
          have := ih _ (by omega) (if rd.freec = [] then rd.s else { rd.s with prlist := pending rd.s }) rd.freec rfl
          exact ⟨this.1.trans h2.1, this.2.trans h2.2⟩
        · exact h2

theorem dispatchPhase_reqs {cfg : Cfg V} (s : St V) :
    (dispatchPhase cfg s).requests = s.requests ∧ (dispatchPhase cfg s).nextKey = s.nextKey := by
  unfold dispatchPhase
  split
  · exact ⟨rfl, rfl⟩
  · simp only
    have := dispatchLoop_reqs (cfg := cfg) (if s.prlist = [] ∨ (freeClients s).length > s.prlist.length then
        { s with prlist := pending s } else s) (freeClients s)
    refine ⟨this.1.trans ?_, this.2.trans ?_⟩ <;> split <;> rfl

theorem collectJobs_reqs {cfg : Cfg V} {ans : Cid → Option RecvAns} (js : List (List Key × Cid)) : ∀ (s : St V) s' kept,
    collectJobs cfg ans js s = .ok (s', kept) → s'.requests = s.requests ∧ s'.nextKey = s.nextKey := by
  induction js with
  | nil => intro s s' kept he; simp [collectJobs] at he; obtain ⟨rfl, rfl⟩ := he; exact ⟨rfl, rfl⟩
  | cons j js ih =>
    obtain ⟨ks, cid⟩ := j
    intro s s' kept he
    unfold collectJobs at he
    split at he
    · split at he
      · rename_i s1 k1 hr
        simp at he
        obtain ⟨rfl, rfl⟩ := he
        exact ih _ _ _ hr
      · cases he
    · have := ih _ _ _ he; exact this
    · have := ih _ _ _ he; exact this
    · cases he

theorem dropExpired_reqs {ex : Cid → Bool} (js : List (List Key × Cid)) : ∀ (s : St V),
    (dropExpired ex js s).1.requests = s.requests ∧ (dropExpired ex js s).1.nextKey = s.nextKey := by
  induction js with
  | nil => intro s; exact ⟨rfl, rfl⟩
  | cons j js ih =>
    obtain ⟨ks, cid⟩ := j
    intro s
    unfold dropExpired
    split
    · exact ih _
    · exact ih _

theorem collectIter_reqs {cfg : Cfg V} {ans : Cid → Option RecvAns} {ex : Cid → Bool} {s s' : St V}
    (he : collectIter cfg ans ex s = .ok s') : s'.requests = s.requests ∧ s'.nextKey = s.nextKey := by
  unfold collectIter at he
  split at he
  · cases he
  · rename_i s1 kept hr
    have h1 := collectJobs_reqs _ _ _ _ hr
    have h2 := dropExpired_reqs (ex := ex) kept s1
    generalize hd : dropExpired ex kept s1 = d at *
    obtain ⟨s2, k2⟩ := d
    simp at he
    subst he
    exact ⟨h2.1.trans h1.1, h2.2.trans h1.2⟩

/-- How the list of requests changes. -/
theorem step_reqs {cfg : Cfg V} {s s' : St V} {op : Op} (he : step cfg s op = .ok s') :
    (op = .queue ∧ s'.requests = s.requests ++ [s.nextKey] ∧ s'.nextKey = s.nextKey + 1) ∨
    (∃ k, op = .release k ∧ s'.nextKey = s.nextKey ∧ (s'.requests = s.requests ∨ s'.requests = s.requests.erase k)) ∨
    ((op ≠ .queue ∧ ∀ k, op ≠ .release k) ∧ s'.requests = s.requests ∧ s'.nextKey = s.nextKey) := by
  cases op with
  | queue => simp only [step, Except.ok.injEq] at he; subst he; exact .inl ⟨rfl, rfl, rfl⟩
  | release k =>
    simp only [step, Except.ok.injEq] at he; subst he
    refine .inr (.inl ⟨k, rfl, ?_⟩)
    split
    · exact ⟨rfl, .inr rfl⟩
    · exact ⟨rfl, .inl rfl⟩
  | update news =>
    refine .inr (.inr ⟨by simp, ?_⟩)
    simp only [step, poolUpdate] at he
    split at he
    · split at he
      · cases he
      · simp at he; subst he; exact ⟨rfl, rfl⟩
    · simp at he; subst he; exact ⟨rfl, rfl⟩
  | dispatch sends =>
    refine .inr (.inr ⟨by simp, ?_⟩)
    simp only [step, Except.ok.injEq] at he; subst he
    split
    · exact dispatchPhase_reqs (cfg := cfg) { s with orc := sends }
    · exact ⟨rfl, rfl⟩
  | collect ans ex =>
    refine .inr (.inr ⟨by simp, ?_⟩)
    simp only [step] at he
    split at he
    · exact collectIter_reqs he
    · simp at he; subst he; exact ⟨rfl, rfl⟩
  | selectError => simp only [step, Except.ok.injEq] at he; subst he; exact .inr (.inr ⟨by simp, rfl, rfl⟩)

theorem run_keeps {cfg : Cfg V} (ops : List Op) : ∀ {s s' : St V}, run cfg s ops = .ok s' → ∀ k, Op.release k ∉ ops →
    (k ∈ s.requests ∨ s.nextKey ≤ k ∧ k < s.nextKey + ops.countP (· matches .queue)) → k ∈ s'.requests := by
  induction ops with
  | nil =>
    intro s s' he k _ h
    simp [run] at he; subst he
    rcases h with h | h
    · exact h
    · simp at h; exact absurd (Nat.lt_of_lt_of_le h.2 h.1) (Nat.lt_irrefl _)
  | cons op ops ih =>
    intro s s' he k hrel h
    unfold run at he
    split at he
    · rename_i s1 h1
      refine ih he k (fun hm => hrel (List.mem_cons_of_mem _ hm)) ?_
      rcases step_reqs h1 with ⟨rfl, hr, hn⟩ | ⟨k', rfl, hn, hr⟩ | ⟨hne, hr, hn⟩
      · rw [hr, hn]
        rcases h with h | ⟨ha, hb⟩
        · exact .inl (List.mem_append_left _ h)
        · rw [List.countP_cons_of_pos (by rfl)] at hb
          by_cases e : k = s.nextKey
          · exact .inl (by simp [e])
          · refine .inr ⟨?_, ?_⟩
            · exact Nat.lt_of_le_of_ne ha (fun e' => e e'.symm)
            · rw [Nat.add_assoc, Nat.add_comm 1]; exact hb
      · have hkk : k ≠ k' := fun e => hrel (by simp [e])
        rw [hn]
        rcases h with h | ⟨ha, hb⟩
        · rcases hr with hr | hr
          · exact .inl (hr ▸ h)
          · exact .inl (by rw [hr]; exact (List.mem_erase_of_ne hkk).2 h)
        · rw [List.countP_cons_of_neg (by simp)] at hb
          exact .inr ⟨ha, hb⟩
      · rw [hr, hn]
        rw [List.countP_cons_of_neg] at h
        · exact h
        · cases op <;> simp_all
    · cases he

/-! ### what one iteration of the collect loop does to a job -/

theorem recvOk_status_ne {cfg : Cfg V} {ks : List Key} {cid : Cid} {st : CStatus} {s : St V} {k : Key} (hk : k ∉ ks) :
    (recvOk cfg ks cid st s).status k = s.status k := by
  simp only [recvOk]
  refine setStatus_same (fun hm => hk ?_)
  obtain ⟨p, hp, rfl⟩ := List.mem_map.1 hm
  exact (List.of_mem_zip hp).1

theorem collectJobs_frame {cfg : Cfg V} {ans : Cid → Option RecvAns} (js : List (List Key × Cid)) : ∀ (s : St V) s' kept,
    collectJobs cfg ans js s = .ok (s', kept) → (kept = js.filter fun j => ans j.2 = none) ∧
      ∀ k, k ∉ js.flatMap (·.1) → s'.status k = s.status k := by
  induction js with
  | nil => intro s s' kept he; simp [collectJobs] at he; obtain ⟨rfl, rfl⟩ := he; exact ⟨rfl, fun _ _ => rfl⟩
  | cons j js ih =>
    obtain ⟨ks, cid⟩ := j
    intro s s' kept he
    have hsp : ∀ k, k ∉ ((ks, cid) :: js).flatMap (·.1) → k ∉ ks ∧ k ∉ js.flatMap (·.1) := by
      intro k hk; rw [List.flatMap_cons, List.mem_append, not_or] at hk; exact hk
    unfold collectJobs at he
    split at he
    · rename_i ha
      split at he
      · rename_i s1 k1 hr
        simp at he
        obtain ⟨rfl, rfl⟩ := he
        obtain ⟨h1, h2⟩ := ih _ _ _ hr
        exact ⟨by rw [h1, List.filter_cons_of_pos (by simp [ha])], fun k hk => h2 k (hsp k hk).2⟩
      · cases he
    · rename_i ha
      obtain ⟨h1, h2⟩ := ih _ _ _ he
      exact ⟨by rw [h1, List.filter_cons_of_neg (by simp [ha])],
        fun k hk => (h2 k (hsp k hk).2).trans (recvOk_status_ne (hsp k hk).1)⟩
    · rename_i ha
      obtain ⟨h1, h2⟩ := ih _ _ _ he
      exact ⟨by rw [h1, List.filter_cons_of_neg (by simp [ha])],
        fun k hk => (h2 k (hsp k hk).2).trans (setStatus_same (hsp k hk).1)⟩
    · cases he

/-- Status of the requests of a job after the pass over the readable clients. -/
def afterRecv : Option RecvAns → RStatus
  | none => .running
  | some (.ok _) => .done
  | some .dead => .queued
  | some .raises => .running

theorem collectJobs_status {cfg : Cfg V} {ans : Cid → Option RecvAns} (js : List (List Key × Cid)) : ∀ (s : St V) pre s' kept,
    InvJ cfg s (pre ++ js) → collectJobs cfg ans js s = .ok (s', kept) → ∀ j ∈ js, ∀ k ∈ j.1,
      s'.status k = afterRecv (ans j.2) := by
  induction js with
  | nil => intro s pre s' kept _ _ j hj; cases hj
  | cons j js ih =>
    obtain ⟨ks, cid⟩ := j
    intro s pre s' kept h he j hj k hk
    have hfr := collectJobs_frame _ _ _ _ he
    have hkn : ((ks, cid) :: js).flatMap (·.1) |>.Nodup := by
      have := h.keysNodup
      rw [List.flatMap_append, List.nodup_append] at this
      exact this.2.1
    rw [List.flatMap_cons, List.nodup_append] at hkn
    have hnot : k ∈ ks → k ∉ js.flatMap (·.1) := fun h1 h2 => hkn.2.2 k h1 k h2 rfl
    have hrun : k ∈ ks → s.status k = .running := fun h1 =>
      (h.jobReq k (List.mem_flatMap.2 ⟨(ks, cid), by simp, h1⟩)).2
    unfold collectJobs at he
    split at he
    · rename_i ha
      split at he
      · rename_i s1 k1 hr
        simp at he
        obtain ⟨rfl, rfl⟩ := he
        rcases List.mem_cons.1 hj with rfl | hj
        · rw [(collectJobs_frame _ _ _ _ hr).2 k (hnot hk), hrun hk, ha]; rfl
        · exact ih _ (pre ++ [(ks, cid)]) _ _ (by simpa using h) hr j hj k hk
      · cases he
    · rename_i ha
      rcases List.mem_cons.1 hj with rfl | hj
      · rw [(collectJobs_frame _ _ _ _ he).2 k (hnot hk), (recvOk_eq h (ks := ks) (cid := cid) (by simp) _).1, ha]
        simp [setStatus, show k ∈ ks from hk, afterRecv]
      · exact ih _ pre _ _ (recv_finish _ h) he j hj k hk
    · rename_i ha
      rcases List.mem_cons.1 hj with rfl | hj
      · rw [(collectJobs_frame _ _ _ _ he).2 k (hnot hk), ha]
        simp [requeue, setStatus, show k ∈ ks from hk, afterRecv]
      · exact ih _ pre _ _ (requeue_finish h) he j hj k hk
    · cases he

theorem dropExpired_frame {ex : Cid → Bool} (js : List (List Key × Cid)) : ∀ (s : St V) k, k ∉ js.flatMap (·.1) →
    (dropExpired ex js s).1.status k = s.status k := by
  induction js with
  | nil => intro s k _; rfl
  | cons j js ih =>
    obtain ⟨ks, cid⟩ := j
    intro s k hk
    rw [List.flatMap_cons, List.mem_append, not_or] at hk
    unfold dropExpired
    split
    · exact (ih _ k hk.2).trans (setStatus_same hk.1)
    · exact ih _ k hk.2

theorem dropExpired_status {ex : Cid → Bool} (js : List (List Key × Cid)) : ∀ (s : St V), (js.flatMap (·.1)).Nodup →
    ∀ j ∈ js, ∀ k ∈ j.1, (dropExpired ex js s).1.status k = if ex j.2 then .queued else s.status k := by
  induction js with
  | nil => intro s _ j hj; cases hj
  | cons j js ih =>
    obtain ⟨ks, cid⟩ := j
    intro s hnd j hj k hk
    rw [List.flatMap_cons, List.nodup_append] at hnd
    have hnot : k ∈ ks → k ∉ js.flatMap (·.1) := fun h1 h2 => hnd.2.2 k h1 k h2 rfl
    have hnot' : k ∈ js.flatMap (·.1) → k ∉ ks := fun h1 h2 => hnd.2.2 k h2 k h1 rfl
    unfold dropExpired
    rcases List.mem_cons.1 hj with rfl | hj
    · split
      · rename_i hx
        rw [dropExpired_frame _ _ _ (hnot hk)]
        simp [requeue, setStatus, show k ∈ ks from hk]
      · exact dropExpired_frame _ _ _ (hnot hk)
    · split
      · rw [ih _ hnd.2.1 j hj k hk]
        simp only [requeue]
        rw [setStatus_same (hnot' (List.mem_flatMap.2 ⟨j, hj, hk⟩))]
      · exact ih _ hnd.2.1 j hj k hk

/-- Status of the requests of a job after one iteration of the collect loop. -/
theorem collectIter_status {cfg : Cfg V} {ans : Cid → Option RecvAns} {ex : Cid → Bool} {s s' : St V} (h : Inv cfg s)
    (he : collectIter cfg ans ex s = .ok s') {ks : List Key} {cid : Cid} (hj : (ks, cid) ∈ s.jobs) {k : Key} (hk : k ∈ ks) :
    s'.status k = if ans cid = none ∧ ex cid then .queued else afterRecv (ans cid) := by
  unfold collectIter at he
  split at he
  · cases he
  · rename_i s1 kept hr
    have h0 : InvJ cfg s ([] ++ s.jobs) := by simpa using h
    have hs1 := collectJobs_status s.jobs s [] s1 kept h0 hr _ hj k hk
    have hkept := (collectJobs_frame _ _ _ _ hr).1
    have hinv := collectJobs_inv s.jobs s [] h0 _ _ hr
    have hst : s'.status k = (dropExpired ex kept s1).1.status k := by
      generalize hd : dropExpired ex kept s1 = d at *
      obtain ⟨s2, k2⟩ := d
      simp at he
      subst he
      rfl
    rw [hst]
    by_cases ha : ans cid = none
    · have hin : (ks, cid) ∈ kept := by rw [hkept]; exact List.mem_filter.2 ⟨hj, by simp [ha]⟩
      rw [dropExpired_status kept s1 (by simpa using hinv.keysNodup) _ hin k hk, hs1]
      simp [ha]
    · have hnin : k ∉ kept.flatMap (·.1) := by
        intro hm
        obtain ⟨j', hj', hk'⟩ := List.mem_flatMap.1 hm
        rw [hkept] at hj'
        have h1 := List.mem_filter.1 hj'
        have := flatMap_key_unique h.keysNodup hj h1.1 hk hk'
        rw [← this] at h1
        exact ha (by simpa using h1.2)
      rw [dropExpired_frame _ _ _ hnin, hs1]
      simp [ha]

/-! ### no crash -/

theorem collectJobs_ok {cfg : Cfg V} {ans : Cid → Option RecvAns} (hans : ∀ c, ans c ≠ some .raises)
    (js : List (List Key × Cid)) : ∀ (s : St V), ∃ r, collectJobs cfg ans js s = .ok r := by
  induction js with
  | nil => intro s; exact ⟨_, rfl⟩
  | cons j js ih =>
    obtain ⟨ks, cid⟩ := j
    intro s
    unfold collectJobs
    split
    · obtain ⟨⟨a, b⟩, h⟩ := ih s
      rw [h]; exact ⟨_, rfl⟩
    · exact ih _
    · exact ih _
    · rename_i ha; exact absurd ha (hans cid)

theorem collectJobs_raises {cfg : Cfg V} {ans : Cid → Option RecvAns} (js : List (List Key × Cid)) : ∀ (s : St V),
    (∃ j ∈ js, ans j.2 = some .raises) → collectJobs cfg ans js s = .error .badReply := by
  induction js with
  | nil => rintro s ⟨j, hj, _⟩; cases hj
  | cons j js ih =>
    obtain ⟨ks, cid⟩ := j
    rintro s ⟨j, hj, ha⟩
    unfold collectJobs
    rcases List.mem_cons.1 hj with rfl | hj
    · simp only at ha
      simp [ha]
    · have := fun s => ih s ⟨j, hj, ha⟩
      split <;> simp [this]

theorem dispatchPhase_phase {cfg : Cfg V} {s : St V} (h : s.phase = .idle → s.jobs = []) :
    (dispatchPhase cfg s).phase = .idle → (dispatchPhase cfg s).jobs = [] := by
  unfold dispatchPhase
  split
  · exact h
  · simp only
    generalize (dispatchLoop cfg _ (freeClients s)).1 = d
    split
    · intro _; assumption
    · intro e; cases e

theorem step_phase {cfg : Cfg V} {s s' : St V} {op : Op} (h : s.phase = .idle → s.jobs = []) (hop : op ≠ .selectError)
    (he : step cfg s op = .ok s') : s'.phase = .idle → s'.jobs = [] := by
  cases op with
  | queue => simp only [step, Except.ok.injEq] at he; subst he; exact h
  | release k => simp only [step, Except.ok.injEq] at he; subst he; split <;> exact h
  | update news =>
    simp only [step, poolUpdate] at he
    split at he
    · split at he
      · cases he
      · simp at he; subst he; exact h
    · simp at he; subst he; exact h
  | dispatch sends =>
    simp only [step, Except.ok.injEq] at he; subst he
    split
    · exact dispatchPhase_phase (s := { s with orc := sends }) h
    · exact h
  | collect ans ex =>
    simp only [step] at he
    split at he
    · unfold collectIter at he
      split at he
      · cases he
      · simp at he
        subst he
        simp only
        split
        · intro _; assumption
        · intro e; cases e
    · simp at he; subst he; exact h
  | selectError => exact absurd rfl hop

theorem run_ok {cfg : Cfg V} (ops : List Op) : ∀ {s : St V}, (s.phase = .idle → s.jobs = []) →
    (∀ op ∈ ops, op ≠ .selectError ∧ ∀ ans ex, op = .collect ans ex → ∀ c, ans c ≠ some .raises) →
    ∃ s', run cfg s ops = .ok s' := by
  induction ops with
  | nil => intro s _ _; exact ⟨s, rfl⟩
  | cons op ops ih =>
    intro s h hops
    have hop := hops op (by simp)
    have : ∃ s1, step cfg s op = .ok s1 := by
      cases op with
      | queue => exact ⟨_, rfl⟩
      | release k => exact ⟨_, rfl⟩
      | update news =>
        simp only [step, poolUpdate]
        split
        · rename_i hp
          rw [if_neg (fun hx => hx.2 (h hp))]
          exact ⟨_, rfl⟩
        · exact ⟨_, rfl⟩
      | dispatch sends => exact ⟨_, rfl⟩
      | collect ans ex =>
        simp only [step, collectIter]
        obtain ⟨⟨a, b⟩, hr⟩ := collectJobs_ok (cfg := cfg) (hop.2 ans ex rfl) s.jobs s
        split
        · rw [hr]; exact ⟨_, rfl⟩
        · exact ⟨_, rfl⟩
      | selectError => exact ⟨_, rfl⟩
    obtain ⟨s1, h1⟩ := this
    unfold run
    rw [h1]
    exact ih (step_phase h hop.1 h1) (fun o ho => hops o (List.mem_cons_of_mem _ ho))

end Verif.Pool
