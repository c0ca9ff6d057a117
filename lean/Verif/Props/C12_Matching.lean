import Verif.Pool.Policy
import Verif.Props.C09_NoLoss
/-
C12: the request-to-client matching policy.
`hist s` lists for each client the replica it last evaluated, as (client id, replica) pairs.
-/
namespace Verif.Pool
variable {V : Type}

/-- Lock mode: a request only goes to a client that last evaluated the same replica, or to a client without history provided
no client has evaluated that replica. Holds whether or not sends succeed. -/
theorem lock_respected (cfg : Cfg V) (hb : cfg.batch ≤ 1) (hm : cfg.mode = .lock) (s s' : St V) (sends : List Bool)
    (hs : step cfg s (.dispatch sends) = .ok s') (j : List Key × Cid) (hj : j ∈ s'.jobs) (hnew : j ∉ s.jobs) :
    ∃ r, j.1 = [r] ∧ ((j.2, some (cfg.rid r)) ∈ hist s ∨
      ((j.2, none) ∈ hist s ∧ ∀ c, (c, some (cfg.rid r)) ∉ hist s)) := by
  simp only [step, Except.ok.injEq] at hs
  subst hs
  split at hj
  · by_cases he : s.requests = [] ∧ s.jobs = []
    · unfold dispatchPhase at hj
      rw [if_pos (by exact he)] at hj
      exact absurd hj hnew
    · obtain ⟨p, hp⟩ := dispatchPhase_eq (cfg := cfg) (s := { s with orc := sends }) he
      rw [hp] at hj
      simp only at hj
      rw [dispatchLoop] at hj
      split at hj
      · exact absurd hj hnew
      · simp only [hm, if_true] at hj
        have := (round_lock hb hm s cfg.mode.seq (fun _ h => h)
          ⟨{ { s with orc := sends } with prlist := workList { s with orc := sends } },
            freeClients { s with orc := sends }, false⟩ ⟨rfl, fun j hj => .inl hj⟩).2
        rw [hm] at this
        rcases this j hj with h | ⟨r, cid, rfl, h⟩
        · exact absurd h hnew
        · exact ⟨r, rfl, h⟩
  · exact absurd hj hnew

/-- Auto mode and any mode, single requests or batches: after a dispatch pass in which the sends succeed no request is left
waiting while a connected, ready client has nothing to do. -/
theorem waiting_request_dispatched (cfg : Cfg V) (hm : cfg.mode ≠ .lock) (ops : List Op) (s s' : St V)
    (hr : run cfg {} ops = .ok s) (hphase : s.phase = .idle) (hs : step cfg s (.dispatch []) = .ok s') :
    (∀ k ∈ s'.requests, s'.status k ≠ .queued) ∨
    ∀ c ∈ s'.clients, c.st.isFree = true → c.cid ∈ s'.jobs.map (·.2) := by
  have hinv := run_inv ops (inv_init cfg) hr
  have hinv' := step_inv hinv hs
  simp only [step, if_pos hphase, Except.ok.injEq] at hs
  subst hs
  by_cases he : s.requests = [] ∧ s.jobs = []
  · left
    unfold dispatchPhase
    rw [if_pos (by exact he)]
    simp [he.1]
  · obtain ⟨p, hp⟩ := dispatchPhase_eq (cfg := cfg) (s := { s with orc := [] }) he
    rw [hp] at hinv' ⊢
    have hi0 : Inv cfg { s with orc := [] } := { hinv with }
    have hi1 : Inv cfg { { s with orc := [] } with prlist := workList { s with orc := [] } } := by
      unfold workList
      split
      · exact hi0.refresh
      · exact hi0
    obtain ⟨hn, hf⟩ := freeClients_ok hi0
    have hrd : RdOk cfg (s.clients.map (·.cid))
        ⟨{ { s with orc := [] } with prlist := workList { s with orc := [] } }, freeClients { s with orc := [] }, false⟩ :=
      ⟨hi1, hn, hf, rfl⟩
    have hany : .any ∈ cfg.mode.seq := by
      cases hc : cfg.mode with
      | auto => simp [Mode.seq]
      | any => simp [Mode.seq]
      | lock => exact absurd hc hm
    have hcons := dispatchLoop_conserve hany hm _ _ hrd rfl (by
      intro e
      show pending { s with orc := [] } = []
      have e : workList { s with orc := [] } = [] := e
      unfold workList at e
      split at e
      · exact e
      · rename_i hno
        exact absurd (.inl e) hno)
    have hgone := dispatchLoop_gone (f0 := s.clients.map (·.cid)) _ _ hrd (by
      intro c hc hno
      simp only [freeClients, List.mem_filter, not_and] at hno
      simpa using hno hc)
    have hcids := (dispatchLoop_inv _ _ hrd).2
    generalize dispatchLoop cfg _ _ = d at *
    rcases hcons with h | h
    · left
      intro k hk hq
      have : k ∈ pending d.1 := List.mem_filter.2 ⟨hk, by simpa using hq⟩
      rw [h] at this
      cases this
    · right
      intro c hc hfree
      have hcid : c.cid ∈ s.clients.map (·.cid) := by rw [← hcids]; exact List.mem_map_of_mem hc
      by_cases hold : c.cid ∈ d.2
      · have := h c.cid hold c (find_client hinv' hc)
        rw [hfree] at this
        cases this
      · exact hgone c.cid hcid hold

/-- Auto mode, sends succeeding: if a client that last evaluated replica `x` is sent a request of another replica, then every
request of replica `x` the dispatcher had to place has gone to a client that last evaluated replica `x`. -/
theorem own_replica_first (cfg : Cfg V) (hb : cfg.batch ≤ 1) (hm : cfg.mode = .auto) (ops : List Op) (s s' : St V)
    (hr : run cfg {} ops = .ok s) (hphase : s.phase = .idle) (hs : step cfg s (.dispatch []) = .ok s') (r : Key) (cid : Cid)
    (hj : ([r], cid) ∈ s'.jobs) (hnew : ([r], cid) ∉ s.jobs) (x : Nat) (hx : (cid, some x) ∈ hist s) (hne : x ≠ cfg.rid r)
    (r' : Key) (hr' : r' ∈ workList s) (hrx : cfg.rid r' = x) :
    ∃ cid', ([r'], cid') ∈ s'.jobs ∧ (cid', some x) ∈ hist s := by
  have hinv := run_inv ops (inv_init cfg) hr
  simp only [step, if_pos hphase, Except.ok.injEq] at hs
  subst hs
  by_cases he : s.requests = [] ∧ s.jobs = []
  · unfold dispatchPhase at hj
    rw [if_pos (by exact he)] at hj
    exact absurd hj hnew
  · obtain ⟨p, hp⟩ := dispatchPhase_eq (cfg := cfg) (s := { s with orc := [] }) he
    rw [hp] at hj ⊢
    have hi0 : Inv cfg { s with orc := [] } := { hinv with }
    have hi1 : Inv cfg { { s with orc := [] } with prlist := workList { s with orc := [] } } := by
      unfold workList
      split
      · exact hi0.refresh
      · exact hi0
    obtain ⟨hn, hf⟩ := freeClients_ok hi0
    have hmain := match_first hb hm (s0 := { { s with orc := [] } with prlist := workList { s with orc := [] } })
      (f0 := freeClients { s with orc := [] }) rfl hn (by
        intro k hk c hc
        have h1 := (hi1.pr k hk).2
        have h2 := (hinv.jobReq k (List.mem_flatMap.2 ⟨_, hc, by simp⟩)).2
        simp only at h1
        rw [h1] at h2
        cases h2) _ hj
    have hclient : ∀ fc : Client, s.clients.find? (fun x => x.cid == fc.cid) = some fc → (fc.cid, fc.lastreq) ∈ hist s :=
      fun fc h => List.mem_map.2 ⟨fc, List.mem_of_find?_eq_some h, rfl⟩
    rcases hmain with h | ⟨r1, fc, hje, hfind, hor⟩
    · exact absurd h hnew
    · simp only [Prod.mk.injEq, List.cons.injEq, and_true] at hje
      obtain ⟨rfl, rfl⟩ := hje
      have hlast : fc.lastreq = some x := by
        obtain ⟨c', hc', e⟩ := List.mem_map.1 hx
        injection e with e1 e2
        have := hinv.client_eq hc' (List.mem_of_find?_eq_some hfind) e1
        rw [← this, e2]
      rcases hor with h | h
      · rw [hlast] at h
        injection h with h
        exact absurd h hne
      · obtain ⟨fc', h1, h2, h3⟩ := h r' hr' (by rw [hlast, hrx])
        refine ⟨fc'.cid, h1, ?_⟩
        rw [← hrx, ← h3]
        exact hclient fc' h2

/-- The clients of the final state that were left without a job are as they were before. -/
theorem pref_final (cfg : Cfg V) (hb : cfg.batch ≤ 1) (ops : List Op) (s s' : St V)
    (hr : run cfg {} ops = .ok s) (hphase : s.phase = .idle) (hs : step cfg s (.dispatch []) = .ok s')
    (Good : Client → Key → Prop) (Better : Client → Prop) (pre post : List MatchId) (m : MatchId)
    (hseq : cfg.mode.seq = pre ++ m :: post)
    (hG : ∀ mid ∈ pre ++ [m], ∀ c r, skips cfg mid s.clients c r = false → Good c r)
    (hB : ∀ c r, Better c → skips cfg m s.clients c r = false) (r : Key) (c : Client) (hc : c ∈ s.clients)
    (hj : ([r], c.cid) ∈ s'.jobs) (hnew : ([r], c.cid) ∉ s.jobs) (hbad : ¬ Good c r) :
    ∀ c' ∈ s'.clients, c'.st.isFree = true → Better c' → c'.cid ∈ s'.jobs.map (·.2) := by
  have hinv := run_inv ops (inv_init cfg) hr
  have hinv' := step_inv hinv hs
  simp only [step, if_pos hphase, Except.ok.injEq] at hs
  subst hs
  by_cases he : s.requests = [] ∧ s.jobs = []
  · unfold dispatchPhase at hj
    rw [if_pos (by exact he)] at hj
    exact absurd hj hnew
  · obtain ⟨p, hp⟩ := dispatchPhase_eq (cfg := cfg) (s := { s with orc := [] }) he
    rw [hp] at hj hinv' ⊢
    have hi0 : Inv cfg { s with orc := [] } := { hinv with }
    obtain ⟨hn, hf⟩ := freeClients_ok hi0
    have hi1 : Inv cfg { { s with orc := [] } with prlist := workList { s with orc := [] } } := by
      unfold workList
      split
      · exact hi0.refresh
      · exact hi0
    have hrd : RdOk cfg (s.clients.map (·.cid))
        ⟨{ { s with orc := [] } with prlist := workList { s with orc := [] } }, freeClients { s with orc := [] }, false⟩ :=
      ⟨hi1, hn, hf, rfl⟩
    have hgone := dispatchLoop_gone (f0 := s.clients.map (·.cid)) _ _ hrd (by
      intro c hc hno
      simp only [freeClients, List.mem_filter, not_and] at hno
      simpa using hno hc)
    have hcids := (dispatchLoop_inv _ _ hrd).2
    have hpref := Pref.loop hb (s0 := { { s with orc := [] } with prlist := workList { s with orc := [] } })
      (f0 := freeClients { s with orc := [] }) (Good := Good) (Better := Better) pre post m hseq hG hB
      { { s with orc := [] } with prlist := workList { s with orc := [] } } (freeClients { s with orc := [] }) false
      ⟨Track.init rfl, fun j hj => .inl hj⟩ hn
    generalize dispatchLoop cfg _ _ = d at *
    intro c' hc' hfree hbet
    have hcid : c'.cid ∈ s.clients.map (·.cid) := by rw [← hcids]; exact List.mem_map_of_mem hc'
    by_cases hold : c'.cid ∈ d.2
    · exfalso
      rcases hpref.pref _ hj with h | ⟨fc, r1, hje, hfind, hg⟩ | h
      · exact hnew h
      · simp only [Prod.mk.injEq, List.cons.injEq, and_true] at hje
        obtain ⟨rfl, e2⟩ := hje
        have := hinv.client_eq hc (List.mem_of_find?_eq_some hfind) e2
        exact hbad (this ▸ hg)
      · have hsame := hpref.track.same c'.cid hold
        have hfind : d.1.clients.find? (fun x => x.cid == c'.cid) = some c' := find_client hinv' hc'
        exact h c'.cid hold c' (by rw [← hsame]; exact hfind) hfree hbet
    · exact hgone c'.cid hcid hold

/-- Auto mode, sends succeeding: if a client that last evaluated another replica is sent a request, every ready client without
history is in use. -/
theorem new_clients_before_others (cfg : Cfg V) (hb : cfg.batch ≤ 1) (hm : cfg.mode = .auto) (ops : List Op) (s s' : St V)
    (hr : run cfg {} ops = .ok s) (hphase : s.phase = .idle) (hs : step cfg s (.dispatch []) = .ok s') (r : Key) (c : Client)
    (hc : c ∈ s.clients) (hj : ([r], c.cid) ∈ s'.jobs) (hnew : ([r], c.cid) ∉ s.jobs) (x : Nat) (hx : c.lastreq = some x)
    (hne : x ≠ cfg.rid r) :
    ∀ c' ∈ s'.clients, c'.st.isFree = true → c'.lastreq = none → c'.cid ∈ s'.jobs.map (·.2) :=
  pref_final cfg hb ops s s' hr hphase hs (fun c r => c.lastreq = some (cfg.rid r) ∨ c.lastreq = none) (fun c => c.lastreq = none)
    [.matchLast] [.free, .any] .noneLast (by rw [hm]; rfl)
    (by
      intro mid hmid c r hs
      simp only [List.cons_append, List.nil_append, List.mem_cons, List.not_mem_nil, or_false] at hmid
      rcases hmid with rfl | rfl
      · left; simpa [skips] using hs
      · right; simpa [skips, hm] using hs)
    (by intro c r h; simp [skips, h, hm]) r c hc hj hnew
    (by rw [hx]; simp; exact hne)

/-- Auto mode, sends succeeding: a client that is settled on a replica (it has evaluated the same one twice in a row) is sent
a request of another replica only if every ready client that is not settled is in use. -/
theorem settled_clients_last (cfg : Cfg V) (hb : cfg.batch ≤ 1) (hm : cfg.mode = .auto) (ops : List Op) (s s' : St V)
    (hr : run cfg {} ops = .ok s) (hphase : s.phase = .idle) (hs : step cfg s (.dispatch []) = .ok s') (r : Key) (c : Client)
    (hc : c ∈ s.clients) (hj : ([r], c.cid) ∈ s'.jobs) (hnew : ([r], c.cid) ∉ s.jobs) (x : Nat) (hx : c.lastreq = some x)
    (hne : x ≠ cfg.rid r) (hl : c.locked = true) :
    ∀ c' ∈ s'.clients, c'.st.isFree = true → c'.locked = false → c'.cid ∈ s'.jobs.map (·.2) :=
  pref_final cfg hb ops s s' hr hphase hs
    (fun c r => c.lastreq = some (cfg.rid r) ∨ c.lastreq = none ∨ c.locked = false) (fun c => c.locked = false)
    [.matchLast, .noneLast] [.any] .free (by rw [hm]; rfl)
    (by
      intro mid hmid c r hs
      simp only [List.cons_append, List.nil_append, List.mem_cons, List.not_mem_nil, or_false] at hmid
      rcases hmid with rfl | rfl | rfl
      · left; simpa [skips] using hs
      · right; left; simpa [skips, hm] using hs
      · right; right; simpa [skips] using hs)
    (by intro c r h; simp [skips, h]) r c hc hj hnew
    (by rw [hx, hl]; simp; exact hne)

/-! ### where the last clause fails -/

/-- Lock mode, stale pending list: two replicas have been evaluated by two clients, the second client disconnects; request 2
(of its replica) is pending and can only go to a new client; request 3, of the replica of the first client, arrives
afterwards, the first client is ready, and still no pass sends it: the pending list is refreshed only when there are more free
clients than entries. -/
def lockCfg : Cfg Nat := ⟨1, .lock, fun k => if k = 0 then 0 else if k = 1 then 1 else if k = 2 then 1 else 0, fun k => 100 + k⟩

def stalePre : List Op :=
  [.queue, .queue, .update [ready, ready], .dispatch [], .collect (fun _ => some (.ok ready)) (fun _ => false),
   .queue, .dispatch [], .collect (fun c => if c = 1 then some .dead else none) (fun _ => false), .update [],
   .dispatch [], .queue]

/-- The four requests belong to replicas 0, 1, 1, 0; client 0 evaluated replica 0 last and is ready; requests 2 and 3 wait. -/
example : view (run lockCfg {} stalePre) =
    some ([(.done, some 100), (.done, some 101), (.queued, none), (.queued, none)], [], [0]) := by decide +kernel

/-- The parts of the state that matter here. -/
structure Core where
  prlist : List Nat
  jobs : List (List Nat × Nat)
  clients : List Client
  phase : Phase
  orc : List Bool
  status3 : RStatus
  requests : List Nat
deriving DecidableEq

def staleView (r : Except Crash (St Nat)) : Option Core :=
  match r with
  | .ok s => some ⟨s.prlist, s.jobs, s.clients, s.phase, s.orc, s.status 3, s.requests⟩
  | .error _ => none

theorem stale_view : staleView (run lockCfg {} stalePre) =
    some ⟨[2], [], [⟨0, ready, some 0, false, []⟩], .idle, [], .queued, [0, 1, 2, 3]⟩ := by decide +kernel

theorem stale_fixed (s : St Nat) (h1 : s.prlist = [2]) (h2 : s.jobs = []) (h3 : s.clients = [⟨0, ready, some 0, false, []⟩])
    (h4 : s.phase = .idle) (h5 : s.orc = []) (h6 : s.requests = [0, 1, 2, 3]) : step lockCfg s (.dispatch []) = .ok s := by
  obtain ⟨a, b, c, d, e, f, g, h, i, j⟩ := s
  simp only at h1 h2 h3 h4 h5 h6
  subst h1 h2 h3 h4 h5 h6
  simp only [step, if_true, dispatchPhase]
  rw [dispatchLoop]
  simp [freeClients, lockCfg, Mode.seq, round, passClients, dispatchFree, ready, CStatus.isFree, pick, skips]

/-- In that state any number of further passes leaves request 3 waiting although it is acceptable for the idle client 0:
the clause "a waiting request is always dispatched when some free client is eligible" fails in lock mode. -/
theorem lock_starves : ∃ s, run lockCfg {} stalePre = .ok s ∧ 3 ∈ s.requests ∧ s.status 3 = .queued ∧
    (∃ c ∈ s.clients, c.st.isFree = true ∧ c.lastreq = some (lockCfg.rid 3)) ∧
    ∀ n, ∃ s', run lockCfg s (List.replicate n (.dispatch [])) = .ok s' ∧ s'.status 3 = .queued ∧ s'.jobs = [] := by
  have hv := stale_view
  cases hr : run lockCfg {} stalePre with
  | error e => rw [hr] at hv; cases hv
  | ok s =>
    rw [hr] at hv
    simp only [staleView, Option.some.injEq, Core.mk.injEq] at hv
    obtain ⟨h1, h2, h3, h4, h5, h6, h7⟩ := hv
    refine ⟨s, rfl, by rw [h7]; simp, h6, ⟨_, by rw [h3]; exact List.mem_singleton.2 rfl, by decide, by decide⟩, ?_⟩
    intro n
    refine ⟨s, ?_, h6, h2⟩
    induction n with
    | zero => rfl
    | succ n ih =>
      rw [List.replicate_succ]
      unfold run
      rw [stale_fixed s h1 h2 h3 h4 h5 h7]
      exact ih

/-- A failed send: one request, two ready clients, the send to the first fails; the request waits although the second client
is ready. The next pass sends it. -/
theorem failed_send_delays :
    view (run (exCfg 1 .auto) {} [.queue, .update [ready, ready], .dispatch [false]]) = some ([(.queued, none)], [], [0, 1]) ∧
    view (run (exCfg 1 .auto) {} [.queue, .update [ready, ready], .dispatch [false], .update [], .dispatch []]) =
      some ([(.running, none)], [([0], 1)], [1]) := by
  constructor <;> decide +kernel

/-- Non-vacuity for the auto-mode theorems: clients 0 and 1 have evaluated replicas 0 and 1 (client 0 twice in a row); requests
of replicas 1 and 2 arrive, and a third client without history connects. Client 1 gets its replica, the new client gets the
other, client 0 stays idle. With one more request, client 0 is used too. -/
def autoCfg : Cfg Nat := ⟨1, .auto, fun k => if k = 0 then 0 else if k = 1 then 1 else if k = 2 then 0 else if k = 3 then 1 else 2,
  fun k => 100 + k⟩

def autoOps (n : Nat) : List Op :=
  [.queue, .queue, .update [ready, ready], .dispatch [], .collect (fun _ => some (.ok ready)) (fun _ => false),
   .queue, .dispatch [], .collect (fun _ => some (.ok ready)) (fun _ => false), .update [ready]] ++
  List.replicate n .queue ++ [.dispatch []]

example : (view (run autoCfg {} (autoOps 2))).map (·.2.1) = some [([3], 1), ([4], 2)] := by decide +kernel

example : (view (run autoCfg {} (autoOps 3))).map (·.2.1) = some [([3], 1), ([4], 2), ([5], 0)] := by decide +kernel

end Verif.Pool
