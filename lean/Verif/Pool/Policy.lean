import Verif.Pool.Dispatch
/-
Matching policy and work conservation of the dispatch phase.
-/
namespace Verif.Pool
variable {V : Type}

/-! ### work conservation (single requests and batches) -/

theorem assign_ok {cfg : Cfg V} {ks : List Key} {cid : Cid} {lk : Bool} {s : St V} (ho : s.orc = []) :
    (assign cfg ks cid lk s).2 = true ∧ (assign cfg ks cid lk s).1.orc = [] := by
  simp only [assign, popSend, ho]
  exact ⟨by trivial, by trivial⟩

/-- With successful sends, a dispatch that returns false changes nothing. -/
theorem dispatchFree_false {cfg : Cfg V} {mid : MatchId} {cid : Cid} {s : St V} (ho : s.orc = [])
    (h : (dispatchFree cfg mid cid s).2 = false) : (dispatchFree cfg mid cid s).1 = s := by
  revert h
  unfold dispatchFree
  split
  · intro _; rfl
  · split
    · intro _; rfl
    · split
      · split
        · intro _; rfl
        · rw [(assign_ok ho).1]; intro h; cases h
      · split
        · intro _; rfl
        · rw [(assign_ok ho).1]; intro h; cases h

theorem dispatchFree_orc {cfg : Cfg V} {mid : MatchId} {cid : Cid} {s : St V} (ho : s.orc = []) :
    (dispatchFree cfg mid cid s).1.orc = [] := by
  unfold dispatchFree
  split
  · exact ho
  · split
    · exact ho
    · split
      · split
        · exact ho
        · exact (assign_ok ho).2
      · split
        · exact ho
        · exact (assign_ok ho).2

/-- In the last pass a client that is ready is always given something, if something is pending. -/
theorem dispatchFree_any {cfg : Cfg V} {cid : Cid} {s : St V} {fc : Client}
    (hf : s.clients.find? (fun c => c.cid == cid) = some fc) (hfree : fc.st.isFree = true) (hp : s.prlist ≠ [])
    (ho : s.orc = []) : (dispatchFree cfg .any cid s).2 = true := by
  unfold dispatchFree
  rw [hf]
  simp only
  rw [if_neg (by simp [hfree])]
  split
  · try rw [if_neg hp]
    exact (assign_ok ho).1
  · cases hpr : s.prlist with
    | nil => exact absurd hpr hp
    | cons r rs =>
      have : pick cfg .any s.clients fc (r :: rs) = some r := by simp [pick, skips]
      rw [this]
      exact (assign_ok ho).1

theorem passClients_false {cfg : Cfg V} {mid : MatchId} (l : List Cid) : ∀ rd : Rd V, rd.s.orc = [] →
    (passClients cfg mid l rd).d = false → rd.s.prlist ≠ [] →
      passClients cfg mid l rd = rd ∧ ∀ c ∈ l, (dispatchFree cfg mid c rd.s).2 = false := by
  induction l with
  | nil => intro rd _ _ _; exact ⟨rfl, by simp⟩
  | cons x rest ih =>
    intro rd ho hd hp
    unfold passClients at hd ⊢
    cases hok : (dispatchFree cfg mid x rd.s).2 with
    | true =>
      exfalso
      have hT : ∀ l (rd : Rd V), rd.d = true → (passClients cfg mid l rd).d = true := by
        intro l rd h
        refine passClients_induct (fun rd => rd.d = true) ?_ l rd h
        intro fc rd h; split <;> simp [h]
      simp only [hok, if_true] at hd
      split at hd
      · cases hd
      · rw [hT _ _ rfl] at hd; cases hd
    | false =>
      have hs := dispatchFree_false ho hok
      simp only [hok, hs, Bool.false_eq_true, if_false] at hd ⊢
      rw [if_neg hp] at hd ⊢
      obtain ⟨h1, h2⟩ := ih ⟨rd.s, rd.freec, rd.d⟩ ho hd hp
      refine ⟨h1, fun c hc => ?_⟩
      rcases List.mem_cons.1 hc with rfl | hc
      · exact hok
      · exact h2 c hc

theorem passClients_d {cfg : Cfg V} {mid : MatchId} (l : List Cid) (rd : Rd V) (h : rd.d = true) :
    (passClients cfg mid l rd).d = true := by
  refine passClients_induct (fun rd => rd.d = true) ?_ l rd h
  intro fc rd h; split <;> simp [h]

theorem round_d {cfg : Cfg V} (mids : List MatchId) : ∀ (rd : Rd V), rd.d = true → (round cfg mids rd).d = true := by
  induction mids with
  | nil => intro rd h; exact h
  | cons m mids ih => intro rd h; exact ih _ (passClients_d _ _ h)

theorem round_false {cfg : Cfg V} (mids : List MatchId) : ∀ (rd : Rd V), rd.s.orc = [] → (round cfg mids rd).d = false →
    rd.s.prlist ≠ [] → round cfg mids rd = rd ∧ ∀ m ∈ mids, ∀ c ∈ rd.freec, (dispatchFree cfg m c rd.s).2 = false := by
  induction mids with
  | nil => intro rd _ _ _; exact ⟨rfl, by simp⟩
  | cons m mids ih =>
    intro rd ho hd hp
    have hd1 : (passClients cfg m rd.freec rd).d = false := by
      cases h : (passClients cfg m rd.freec rd).d with
      | false => rfl
      | true =>
        have := round_d (cfg := cfg) mids _ h
        rw [show round cfg (m :: mids) rd = round cfg mids (passClients cfg m rd.freec rd) from rfl, this] at hd
        cases hd
    obtain ⟨h1, h2⟩ := passClients_false _ _ ho hd1 hp
    have hd2 : (round cfg mids rd).d = false := by
      rw [show round cfg (m :: mids) rd = round cfg mids (passClients cfg m rd.freec rd) from rfl, h1] at hd
      exact hd
    obtain ⟨h3, h4⟩ := ih rd ho hd2 hp
    refine ⟨by rw [show round cfg (m :: mids) rd = round cfg mids (passClients cfg m rd.freec rd) from rfl, h1, h3], ?_⟩
    intro m' hm' c hc
    rcases List.mem_cons.1 hm' with rfl | hm'
    · exact h2 c hc
    · exact h4 m' hm' c hc

theorem round_orc {cfg : Cfg V} (mids : List MatchId) : ∀ (rd : Rd V), rd.s.orc = [] → (round cfg mids rd).s.orc = [] := by
  induction mids with
  | nil => intro rd h; exact h
  | cons m mids ih =>
    intro rd h
    refine ih _ (passClients_induct (fun rd => rd.s.orc = []) ?_ _ _ h)
    intro fc rd h
    split <;> exact dispatchFree_orc h

/-- When the loop stops, every ready client that was free has been given something, or nothing is pending. -/
theorem dispatchLoop_conserve {cfg : Cfg V} (hm : .any ∈ cfg.mode.seq) (hlock : cfg.mode ≠ .lock) {cids : List Cid} (s : St V)
    (freec : List Cid) (h : RdOk cfg cids ⟨s, freec, false⟩) (ho : s.orc = []) (hp : s.prlist = [] → pending s = []) :
    pending (dispatchLoop cfg s freec).1 = [] ∨ ∀ c ∈ (dispatchLoop cfg s freec).2, ∀ fc,
      (dispatchLoop cfg s freec).1.clients.find? (fun x => x.cid == c) = some fc → fc.st.isFree = false := by
  induction hn : freec.length using Nat.strongRecOn generalizing s freec with
  | _ n ih =>
    rw [dispatchLoop]
    split
    · rename_i hor
      rcases hor with hor | hor
      · right; simp [hor]
      · left; exact hp hor
    · rename_i hor
      simp only [not_or] at hor
      have hrok := round_ok cfg.mode.seq _ h
      have hor' := round_orc (cfg := cfg) cfg.mode.seq ⟨s, freec, false⟩ ho
      simp only
      split
      · rename_i hlt
        by_cases hfe : (round cfg cfg.mode.seq ⟨s, freec, false⟩).freec = []
        · rw [if_pos hfe, hfe, dispatchLoop]
          simp
        · rw [if_neg hfe]
          refine ih _ (by omega) _ _ ⟨hrok.1.inv.refresh, hrok.1.nodup, hrok.1.free, hrok.1.cids⟩ hor' ?_ rfl
          intro e; exact e
      · rename_i hlt
        have hd : (round cfg cfg.mode.seq ⟨s, freec, false⟩).d = false := by
          rcases hrok.2 with ⟨a, _⟩ | ⟨a, b⟩
          · exact a
          · exact absurd ⟨a, b⟩ hlt
        obtain ⟨h1, h2⟩ := round_false cfg.mode.seq ⟨s, freec, false⟩ ho hd hor.2
        rw [h1]
        simp only
        rw [if_neg hor.1]
        right
        intro c hc fc hfc
        cases hfree : fc.st.isFree with
        | false => rfl
        | true =>
          have := dispatchFree_any (cfg := cfg) (s := s) hfc hfree hor.2 ho
          rw [show (dispatchFree cfg .any c s).2 = false from h2 .any hm c hc] at this
          cases this

/-- Clients leave the free list only with a job. -/
theorem round_gone {cfg : Cfg V} (mids : List MatchId) (f0 : List Cid) : ∀ (rd : Rd V) {cids}, RdOk cfg cids rd →
    (∀ c ∈ f0, c ∉ rd.freec → c ∈ rd.s.jobs.map (·.2)) →
    ∀ c ∈ f0, c ∉ (round cfg mids rd).freec → c ∈ (round cfg mids rd).s.jobs.map (·.2) := by
  induction mids with
  | nil => intro rd _ _ h; exact h
  | cons m mids ih =>
    intro rd cids hrd h
    have h1 := (passClients_ok (mid := m) rd.freec rd hrd hrd.nodup (fun _ h => h)).1
    have h2 := (passClients_induct' (cfg := cfg) (mid := m)
      (fun rd => RdOk cfg cids rd ∧ ∀ c ∈ f0, c ∉ rd.freec → c ∈ rd.s.jobs.map (·.2)) (by
        rintro fc rd ⟨hrd, hg⟩ hn hfc
        obtain ⟨a, b, ks, e⟩ := dispatchFree_inv hrd.inv (mid := m) (hrd.free fc hfc)
        generalize hx : dispatchFree cfg m fc rd.s = x at *
        obtain ⟨s', ok⟩ := x
        cases ok with
        | false =>
          simp only [Bool.false_eq_true, if_false] at e ⊢
          simp only at a b
          exact ⟨⟨a, hrd.nodup, by simpa [e] using hrd.free, by simpa [b] using hrd.cids⟩, by simpa [e] using hg⟩
        | true =>
          simp only [if_true] at e ⊢
          simp only at a b
          refine ⟨⟨a, hrd.nodup.erase fc, ?_, by simpa [b] using hrd.cids⟩, ?_⟩
          · intro c hc
            have hc := (hrd.nodup.mem_erase_iff).1 hc
            simp only [e, List.map_append, List.mem_append, not_or]
            exact ⟨hrd.free c hc.2, by simpa using hc.1⟩
          · intro c hc hnc
            simp only [e, List.map_append, List.mem_append]
            by_cases hcf : c = fc
            · right; simp [hcf]
            · left
              exact hg c hc (fun hin => hnc ((hrd.nodup.mem_erase_iff).2 ⟨hcf, hin⟩)))
      rd.freec rd ⟨hrd, h⟩ hrd.nodup hrd.nodup (fun _ h => h)).1.2
    exact ih _ h1 h2

theorem dispatchLoop_gone {cfg : Cfg V} {f0 : List Cid} {cids : List Cid} (s : St V)
    (freec : List Cid) (h : RdOk cfg cids ⟨s, freec, false⟩) (hg : ∀ c ∈ f0, c ∉ freec → c ∈ s.jobs.map (·.2)) :
    ∀ c ∈ f0, c ∉ (dispatchLoop cfg s freec).2 → c ∈ (dispatchLoop cfg s freec).1.jobs.map (·.2) := by
  induction hn : freec.length using Nat.strongRecOn generalizing s freec with
  | _ n ih =>
    rw [dispatchLoop]
    split
    · exact hg
    · have h1 := (round_ok cfg.mode.seq _ h).1
      have h2 := round_gone cfg.mode.seq f0 _ h hg
      simp only
      split
      · exact h2
      · generalize hrd : round cfg cfg.mode.seq ⟨s, freec, false⟩ = rd at *
        have h3 : RdOk cfg cids ⟨if rd.freec = [] then rd.s else { rd.s with prlist := pending rd.s }, rd.freec, false⟩ := by
          split
          · exact ⟨h1.inv, h1.nodup, h1.free, h1.cids⟩
          · exact ⟨h1.inv.refresh, h1.nodup, h1.free, h1.cids⟩
        have h4 : ∀ c ∈ f0, c ∉ rd.freec →
            c ∈ (if rd.freec = [] then rd.s else { rd.s with prlist := pending rd.s }).jobs.map (·.2) := by
          split <;> exact h2
        split
        · exact ih _ (by omega) _ _ h3 h4 rfl
        · exact h4

/-! ### lock mode -/

/-- The pairs (client id, replica last evaluated) of the clients. -/
def hist (s : St V) : List (Cid × Option Nat) := s.clients.map fun c => (c.cid, c.lastreq)

theorem updClient_hist {cid : Cid} {f : Client → Client} (hf : ∀ c, (f c).cid = c.cid ∧ (f c).lastreq = c.lastreq)
    (cs : List Client) : (updClient cid f cs).map (fun c => (c.cid, c.lastreq)) = cs.map (fun c => (c.cid, c.lastreq)) := by
  simp only [updClient, List.map_map]
  apply List.map_congr_left
  intro c _
  simp only [Function.comp]
  split
  · rw [(hf c).1, (hf c).2]
  · rfl

theorem assign_hist {cfg : Cfg V} {ks : List Key} {cid : Cid} {lk : Bool} {s : St V} :
    hist (assign cfg ks cid lk s).1 = hist s ∧
    ∀ j ∈ (assign cfg ks cid lk s).1.jobs, j ∈ s.jobs ∨ j = (ks, cid) := by
  simp only [assign, popSend, hist]
  cases ho : s.orc with
  | nil =>
    simp only
    refine ⟨?_, ?_⟩
    · rw [updClient_hist (by simp), updClient_hist (by simp)]
    · intro j hj; simpa using hj
  | cons b t =>
    cases b
    · simp only [requeue]
      refine ⟨?_, fun j hj => .inl hj⟩
      rw [updClient_hist (by simp), updClient_hist (by simp)]
    · simp only
      refine ⟨?_, ?_⟩
      · rw [updClient_hist (by simp), updClient_hist (by simp)]
      · intro j hj; simpa using hj

/-- In lock mode, what each (client, request) pair dispatched satisfies. -/
def LockAllowed (cfg : Cfg V) (h : List (Cid × Option Nat)) (r : Key) (cid : Cid) : Prop :=
  (cid, some (cfg.rid r)) ∈ h ∨ ((cid, none) ∈ h ∧ ∀ c, (c, some (cfg.rid r)) ∉ h)

theorem dispatchFree_lock {cfg : Cfg V} (hb : cfg.batch ≤ 1) (hm : cfg.mode = .lock) {mid : MatchId} (hmid : mid ∈ cfg.mode.seq)
    {cid : Cid} {s : St V} : hist (dispatchFree cfg mid cid s).1 = hist s ∧
      ∀ j ∈ (dispatchFree cfg mid cid s).1.jobs, j ∈ s.jobs ∨ ∃ r, j = ([r], cid) ∧ LockAllowed cfg (hist s) r cid := by
  unfold dispatchFree
  split
  · exact ⟨rfl, fun j hj => .inl hj⟩
  · rename_i fc hfc
    have hfm := List.mem_of_find?_eq_some hfc
    have hfi : fc.cid = cid := by simpa using List.find?_some hfc
    split
    · exact ⟨rfl, fun j hj => .inl hj⟩
    · rw [if_neg (by omega)]
      split
      · exact ⟨rfl, fun j hj => .inl hj⟩
      · rename_i r hr
        have hsk := List.find?_some hr
        refine ⟨assign_hist.1, fun j hj => ?_⟩
        rcases assign_hist.2 j hj with h | h
        · exact .inl h
        · refine .inr ⟨r, h, ?_⟩
          have hin : ∀ c ∈ s.clients, (c.cid, c.lastreq) ∈ hist s := fun c hc => List.mem_map.2 ⟨c, hc, rfl⟩
          rw [hm] at hmid
          simp only [Mode.seq, List.mem_cons, List.not_mem_nil, or_false] at hmid
          rcases hmid with rfl | rfl
          · left
            simp only [skips, Bool.not_eq_true', bne_eq_false_iff_eq] at hsk
            rw [← hfi, ← hsk]
            exact hin fc hfm
          · right
            simp only [skips, hm, Bool.not_eq_true', Bool.or_eq_false_iff, bne_eq_false_iff_eq, beq_self_eq_true,
              Bool.true_and, List.any_eq_false, beq_iff_eq] at hsk
            refine ⟨by rw [← hfi, ← hsk.1]; exact hin fc hfm, fun c hc => ?_⟩
            obtain ⟨c', hc', e⟩ := List.mem_map.1 hc
            injection e with _ e2
            exact hsk.2 c' hc' e2

theorem round_lock {cfg : Cfg V} (hb : cfg.batch ≤ 1) (hm : cfg.mode = .lock) (s0 : St V) (mids : List MatchId) :
    (∀ m ∈ mids, m ∈ cfg.mode.seq) → ∀ (rd : Rd V), (hist rd.s = hist s0 ∧
      ∀ j ∈ rd.s.jobs, j ∈ s0.jobs ∨ ∃ r cid, j = ([r], cid) ∧ LockAllowed cfg (hist s0) r cid) →
    (hist (round cfg mids rd).s = hist s0 ∧
      ∀ j ∈ (round cfg mids rd).s.jobs, j ∈ s0.jobs ∨ ∃ r cid, j = ([r], cid) ∧ LockAllowed cfg (hist s0) r cid) := by
  induction mids with
  | nil => intro _ rd h; exact h
  | cons m mids ih =>
    intro hms rd h
    refine ih (fun m' hm' => hms m' (by simp [hm'])) _ ?_
    refine passClients_induct (fun rd => hist rd.s = hist s0 ∧
      ∀ j ∈ rd.s.jobs, j ∈ s0.jobs ∨ ∃ r cid, j = ([r], cid) ∧ LockAllowed cfg (hist s0) r cid) ?_ _ _ h
    rintro fc rd ⟨h1, h2⟩
    obtain ⟨h3, h4⟩ := dispatchFree_lock hb hm (hms m (by simp)) (cid := fc) (s := rd.s)
    have : hist (dispatchFree cfg m fc rd.s).1 = hist s0 ∧ ∀ j ∈ (dispatchFree cfg m fc rd.s).1.jobs,
        j ∈ s0.jobs ∨ ∃ r cid, j = ([r], cid) ∧ LockAllowed cfg (hist s0) r cid := by
      refine ⟨h3.trans h1, fun j hj => ?_⟩
      rcases h4 j hj with h5 | ⟨r, h5, h6⟩
      · exact h2 j h5
      · exact .inr ⟨r, fc, h5, h1 ▸ h6⟩
    split <;> exact this

/-! ### preferences in auto mode -/

/-- A round made of passes in which only acceptable pairs are dispatched, up to a pass that accepts every request for a
client of the better kind, followed by any other passes: an unacceptable pair is dispatched only when no better client is
left. -/
structure Pref (s0 : St V) (f0 : List Cid) (Good : Client → Key → Prop) (Better : Client → Prop) (rd : Rd V) : Prop where
  track : Track s0 f0 (fun _ _ => True) rd
  pref : ∀ j ∈ rd.s.jobs, j ∈ s0.jobs ∨ (∃ fc r, j = ([r], fc.cid) ∧ s0.clients.find? (fun x => x.cid == fc.cid) = some fc ∧
    Good fc r) ∨ ∀ c ∈ rd.freec, ∀ fc, s0.clients.find? (fun x => x.cid == c) = some fc → fc.st.isFree = true → ¬ Better fc

theorem Pref.step {cfg : Cfg V} (hb : cfg.batch ≤ 1) {s0 : St V} {f0 : List Cid} {Good : Client → Key → Prop}
    {Better : Client → Prop} {mid : MatchId} {fc : Cid} {rd : Rd V} (h : Pref s0 f0 Good Better rd) (hn : rd.freec.Nodup)
    (hfc : fc ∈ rd.freec) (hG : (∀ c r, skips cfg mid s0.clients c r = false → Good c r) ∨ rd.s.prlist = [] ∨
      ∀ c ∈ rd.freec, ∀ fc, s0.clients.find? (fun x => x.cid == c) = some fc → fc.st.isFree = true → ¬ Better fc) :
    Pref s0 f0 Good Better (if (dispatchFree cfg mid fc rd.s).2 then
      ⟨(dispatchFree cfg mid fc rd.s).1, rd.freec.erase fc, true⟩
      else ⟨(dispatchFree cfg mid fc rd.s).1, rd.freec, rd.d⟩) := by
  have ht := h.track.step hb (mid := mid) hn hfc (fun _ _ _ _ _ => trivial)
  refine ⟨ht, ?_⟩
  rcases dispatchFree_single hb (cid := fc) (mid := mid) h.track.orc with
    ⟨he, _⟩ | ⟨c, r, s', he, hfind, hfree, hr, hsk, hj, hp, ho, hreq, hh, hst, hsame⟩
  · rw [he]; exact h.pref
  · rw [he]
    simp only [if_true]
    have hcid : c.cid = fc := by simpa using List.find?_some hfind
    have hfind0 : s0.clients.find? (fun x => x.cid == c.cid) = some c := by
      rw [hcid, ← h.track.same fc hfc]; exact hfind
    have hsub : ∀ x ∈ rd.freec.erase fc, x ∈ rd.freec := fun x hx => List.mem_of_mem_erase hx
    intro j hj'
    rw [hj] at hj'
    rcases List.mem_append.1 hj' with hj' | hj'
    · rcases h.pref j hj' with h1 | h1 | h1
      · exact .inl h1
      · exact .inr (.inl h1)
      · exact .inr (.inr (fun x hx => h1 x (hsub x hx)))
    · rcases hG with hG | hG | hG
      · refine .inr (.inl ⟨c, r, by rw [hcid]; simpa using hj', hfind0, hG c r ?_⟩)
        rw [← skips_congr h.track.hist]; exact hsk
      · rw [hG] at hr; cases hr
      · exact .inr (.inr (fun x hx => hG x (hsub x hx)))

theorem Pref.pass {cfg : Cfg V} (hb : cfg.batch ≤ 1) {s0 : St V} {f0 : List Cid} {Good : Client → Key → Prop}
    {Better : Client → Prop} {mid : MatchId} {rd : Rd V} (h : Pref s0 f0 Good Better rd) (hn : rd.freec.Nodup)
    (hG : (∀ c r, skips cfg mid s0.clients c r = false → Good c r) ∨ rd.s.prlist = [] ∨
      ∀ c ∈ rd.freec, ∀ fc, s0.clients.find? (fun x => x.cid == c) = some fc → fc.st.isFree = true → ¬ Better fc) :
    Pref s0 f0 Good Better (passClients cfg mid rd.freec rd) ∧ (passClients cfg mid rd.freec rd).freec.Nodup ∧
      ((∀ c r, skips cfg mid s0.clients c r = false → Good c r) ∨ (passClients cfg mid rd.freec rd).s.prlist = [] ∨
        ∀ c ∈ (passClients cfg mid rd.freec rd).freec, ∀ fc, s0.clients.find? (fun x => x.cid == c) = some fc →
          fc.st.isFree = true → ¬ Better fc) := by
  have := passClients_induct' (cfg := cfg) (mid := mid) (fun rd => Pref s0 f0 Good Better rd ∧
    ((∀ c r, skips cfg mid s0.clients c r = false → Good c r) ∨ rd.s.prlist = [] ∨
      ∀ c ∈ rd.freec, ∀ fc, s0.clients.find? (fun x => x.cid == c) = some fc → fc.st.isFree = true → ¬ Better fc))
    (by
      rintro fc rd ⟨h1, h2⟩ hn hfc
      refine ⟨h1.step hb hn hfc h2, ?_⟩
      rcases h2 with h2 | h2 | h2
      · exact .inl h2
      · right; left
        rcases dispatchFree_single hb (cid := fc) (mid := mid) h1.track.orc with
          ⟨he, _⟩ | ⟨c, r, s', he, hfind, hfree, hr, -⟩
        · rw [he]; exact h2
        · rw [h2] at hr; cases hr
      · right; right
        split
        · intro c hc; exact h2 c (List.mem_of_mem_erase hc)
        · exact h2)
    rd.freec rd ⟨h, hG⟩ hn hn (fun _ h => h)
  exact ⟨this.1.1, this.2, this.1.2⟩

theorem Pref.round_pre {cfg : Cfg V} (hb : cfg.batch ≤ 1) {s0 : St V} {f0 : List Cid} {Good : Client → Key → Prop}
    {Better : Client → Prop} (mids : List MatchId)
    (hG : ∀ mid ∈ mids, ∀ c r, skips cfg mid s0.clients c r = false → Good c r) : ∀ rd : Rd V, Pref s0 f0 Good Better rd →
    rd.freec.Nodup → Pref s0 f0 Good Better (round cfg mids rd) ∧ (round cfg mids rd).freec.Nodup := by
  induction mids with
  | nil => intro rd h hn; exact ⟨h, hn⟩
  | cons m mids ih =>
    intro rd h hn
    obtain ⟨h1, h2, _⟩ := h.pass hb hn (.inl (hG m (by simp)))
    exact ih (fun mid hm => hG mid (by simp [hm])) _ h1 h2

theorem Pref.round_post {cfg : Cfg V} (hb : cfg.batch ≤ 1) {s0 : St V} {f0 : List Cid} {Good : Client → Key → Prop}
    {Better : Client → Prop} (mids : List MatchId) : ∀ rd : Rd V, Pref s0 f0 Good Better rd →
    rd.freec.Nodup → (rd.s.prlist = [] ∨ ∀ c ∈ rd.freec, ∀ fc, s0.clients.find? (fun x => x.cid == c) = some fc →
      fc.st.isFree = true → ¬ Better fc) →
    Pref s0 f0 Good Better (round cfg mids rd) ∧ (round cfg mids rd).freec.Nodup := by
  induction mids with
  | nil => intro rd h hn _; exact ⟨h, hn⟩
  | cons m mids ih =>
    intro rd h hn hp
    obtain ⟨h1, h2, _⟩ := h.pass hb (mid := m) hn (.inr hp)
    refine ih _ h1 h2 ?_
    rcases hp with hp | hp
    · left
      have := (passClients_induct (cfg := cfg) (mid := m) (fun rd => rd.s.orc = [] ∧ rd.s.prlist = []) (by
        rintro fc rd ⟨a, b⟩
        rcases dispatchFree_single hb (cid := fc) (mid := m) a with ⟨he, _⟩ | ⟨c, r, s', he, hfind, hfree, hr, -⟩
        · rw [he]; exact ⟨a, b⟩
        · rw [b] at hr; cases hr) rd.freec rd ⟨h.track.orc, hp⟩).2
      exact this
    · right
      intro c hc
      have : c ∈ rd.freec := by
        refine (passClients_induct (cfg := cfg) (mid := m) (fun rd' => ∀ c ∈ rd'.freec, c ∈ rd.freec) (by
          intro fc rd' h
          split
          · intro c hc; exact h c (List.mem_of_mem_erase hc)
          · exact h) rd.freec rd (fun _ h => h)) c hc
      exact hp c this

theorem round_append {cfg : Cfg V} (a b : List MatchId) : ∀ rd : Rd V, round cfg (a ++ b) rd = round cfg b (round cfg a rd) := by
  induction a with
  | nil => intro rd; rfl
  | cons m a ih => intro rd; exact ih _

theorem Pref.round {cfg : Cfg V} (hb : cfg.batch ≤ 1) {s0 : St V} {f0 : List Cid} {Good : Client → Key → Prop}
    {Better : Client → Prop} (pre post : List MatchId) (m : MatchId) (hseq : cfg.mode.seq = pre ++ m :: post)
    (hG : ∀ mid ∈ pre ++ [m], ∀ c r, skips cfg mid s0.clients c r = false → Good c r)
    (hB : ∀ c r, Better c → skips cfg m s0.clients c r = false) (rd : Rd V) (h : Pref s0 f0 Good Better rd)
    (hn : rd.freec.Nodup) :
    Pref s0 f0 Good Better (round cfg cfg.mode.seq rd) ∧ (Pool.round cfg cfg.mode.seq rd).freec.Nodup := by
  rw [hseq, round_append]
  obtain ⟨h1, h2⟩ := Pref.round_pre hb pre (fun mid hm => hG mid (by simp [hm])) rd h hn
  generalize Pool.round cfg pre rd = rd1 at *
  show Pref s0 f0 Good Better (Pool.round cfg post (passClients cfg m rd1.freec rd1)) ∧ _
  obtain ⟨h3, h4, _⟩ := h1.pass hb h2 (.inl (hG m (by simp)))
  refine Pref.round_post hb post _ h3 h4 ?_
  by_cases hp : (passClients cfg m rd1.freec rd1).s.prlist = []
  · exact .inl hp
  · right
    intro c hc fc hfc hfree hbet
    have hex := passClients_exhausts hb (mid := m) rd1.freec rd1 h1.track.orc h2 h2 (fun _ h => h) c hc fc
      (by rw [h3.track.same c hc]; exact hfc) hfree (.inl (by
        refine (passClients_induct (cfg := cfg) (mid := m) (fun rd' => ∀ c ∈ rd'.freec, c ∈ rd1.freec) (by
          intro fc rd' h
          split
          · intro c hc; exact h c (List.mem_of_mem_erase hc)
          · exact h) rd1.freec rd1 (fun _ h => h)) c hc))
    obtain ⟨r, hr⟩ := List.exists_mem_of_ne_nil _ hp
    have := hex r hr
    rw [skips_congr h3.track.hist, hB fc r hbet] at this
    cases this

theorem Pref.loop {cfg : Cfg V} (hb : cfg.batch ≤ 1) {s0 : St V} {f0 : List Cid} {Good : Client → Key → Prop}
    {Better : Client → Prop} (pre post : List MatchId) (m : MatchId) (hseq : cfg.mode.seq = pre ++ m :: post)
    (hG : ∀ mid ∈ pre ++ [m], ∀ c r, skips cfg mid s0.clients c r = false → Good c r)
    (hB : ∀ c r, Better c → skips cfg m s0.clients c r = false) (s : St V) (freec : List Cid) (d : Bool)
    (h : Pref s0 f0 Good Better ⟨s, freec, d⟩) (hn : freec.Nodup) :
    Pref s0 f0 Good Better ⟨(dispatchLoop cfg s freec).1, (dispatchLoop cfg s freec).2, d⟩ := by
  induction hl : freec.length using Nat.strongRecOn generalizing s freec with
  | _ n ih =>
    rw [dispatchLoop]
    split
    · exact h
    · obtain ⟨h1, h2⟩ := Pref.round hb pre post m hseq hG hB ⟨s, freec, false⟩ ⟨{ h.track with }, h.pref⟩ hn
      simp only
      split
      · exact ⟨{ h1.track with }, h1.pref⟩
      · have h3 : Pref s0 f0 Good Better
            ⟨if (Pool.round cfg cfg.mode.seq ⟨s, freec, false⟩).freec = [] then
              (Pool.round cfg cfg.mode.seq ⟨s, freec, false⟩).s
              else { (Pool.round cfg cfg.mode.seq ⟨s, freec, false⟩).s with
                prlist := pending (Pool.round cfg cfg.mode.seq ⟨s, freec, false⟩).s },
              (Pool.round cfg cfg.mode.seq ⟨s, freec, false⟩).freec, d⟩ := by
          refine ⟨h1.track.refresh d, ?_⟩
          split <;> exact h1.pref
        split
        · exact ih _ (by omega) _ _ h3 h2 rfl
        · exact h3

end Verif.Pool
namespace Verif.Pool
variable {V : Type}

/-- Auto mode: a client is given a request of a replica other than its own only if no request of its own replica is left
for it. -/
theorem match_first {cfg : Cfg V} (hb : cfg.batch ≤ 1) (hm : cfg.mode = .auto) {s0 : St V} {f0 : List Cid} (ho : s0.orc = [])
    (hn : f0.Nodup) (hq : ∀ r ∈ s0.prlist, ∀ c, ([r], c) ∉ s0.jobs) :
    ∀ j ∈ (dispatchLoop cfg s0 f0).1.jobs, j ∈ s0.jobs ∨ ∃ r fc, j = ([r], fc.cid) ∧
      s0.clients.find? (fun x => x.cid == fc.cid) = some fc ∧ (fc.lastreq = some (cfg.rid r) ∨
        ∀ r' ∈ s0.prlist, fc.lastreq = some (cfg.rid r') → ∃ fc', ([r'], fc'.cid) ∈ (dispatchLoop cfg s0 f0).1.jobs ∧
          s0.clients.find? (fun x => x.cid == fc'.cid) = some fc' ∧ fc'.lastreq = some (cfg.rid r')) := by
  have hseq : cfg.mode.seq = .matchLast :: [.noneLast, .free, .any] := by rw [hm]; rfl
  obtain ⟨rd1, hrd1⟩ : ∃ rd1, rd1 = passClients cfg .matchLast f0 (⟨s0, f0, false⟩ : Rd V) := ⟨_, rfl⟩
  by_cases hstop : f0 = [] ∨ s0.prlist = []
  · intro j hj
    rw [dispatchLoop, if_pos hstop] at hj
    exact .inl hj
  · have htr : Track s0 f0 (fun c r => c.lastreq = some (cfg.rid r)) rd1 ∧ rd1.freec.Nodup := by
      have := Track.pass hb (mid := .matchLast) (Track.init (s0 := s0) (f0 := f0) (d := false)
        (Q := fun c r => c.lastreq = some (cfg.rid r)) ho) hn (by
          intro c r _ _ hs
          simpa [skips] using hs)
      rw [hrd1]; exact this
    have hex := passClients_exhausts hb (mid := .matchLast) f0 ⟨s0, f0, false⟩ ho hn hn (fun _ h => h)
    have hpl := passClients_prlist hb (mid := .matchLast) (p0 := s0.prlist) f0 ⟨s0, f0, false⟩ ho (fun r hr => .inl hr)
    rw [← hrd1] at hex hpl
    -- everything after the first pass, relative to its outcome
    have hrest : Track rd1.s rd1.freec (fun _ _ => True)
        ⟨(dispatchLoop cfg s0 f0).1, (dispatchLoop cfg s0 f0).2, false⟩ := by
      have h0 : Track rd1.s rd1.freec (fun _ _ => True) rd1 := by
        have := Track.init (s0 := rd1.s) (f0 := rd1.freec) (Q := fun (_ : Client) (_ : Key) => True) (d := rd1.d) htr.1.orc
        exact { this with }
      obtain ⟨h1, h2⟩ := Track.round (cfg := cfg) hb [.noneLast, .free, .any] (fun _ _ _ _ _ _ _ => trivial) rd1 h0 htr.2
      have hround : round cfg cfg.mode.seq ⟨s0, f0, false⟩ = round cfg [.noneLast, .free, .any] rd1 := by
        rw [hseq, hrd1]; rfl
      rw [dispatchLoop, if_neg hstop, hround]
      simp only
      rw [if_neg (by rw [hm]; simp)]
      split
      · exact (Track.loop hb (fun _ _ _ _ _ _ _ => trivial) _ _ false (h1.refresh false) h2).1
      · exact h1.refresh false
    intro j hj
    rcases hrest.jobs j hj with hj1 | ⟨fc, r, rfl, hcf, hfind, hfree, _⟩
    · rcases htr.1.jobs j hj1 with hj0 | ⟨fc, r, rfl, _, hfind, _, hq⟩
      · exact .inl hj0
      · exact .inr ⟨r, fc, rfl, hfind, .inl hq⟩
    · refine .inr ⟨r, fc, rfl, by rw [← htr.1.same _ hcf]; exact hfind, .inr ?_⟩
      intro r' hr' hlast
      have hex' := hex fc.cid hcf fc hfind hfree (.inl (htr.1.sub _ hcf))
      rcases hpl r' hr' with hin | ⟨c, hc⟩
      · have := hex' r' hin
        simp [skips, hlast] at this
      · rcases htr.1.jobs _ hc with hc0 | ⟨fc', r'', he, _, hfind', _, hq'⟩
        · exact absurd hc0 (hq r' hr' c)
        · simp only [Prod.mk.injEq, List.cons.injEq, and_true] at he
          obtain ⟨rfl, rfl⟩ := he
          exact ⟨fc', hrest.old _ hc, hfind', hq'⟩

/-- The list of requests the dispatcher works with in the coming pass (sockets.py:1564-1565). -/
def workList (s : St V) : List Key :=
  if s.prlist = [] ∨ (freeClients s).length > s.prlist.length then pending s else s.prlist

theorem dispatchPhase_eq {cfg : Cfg V} {s : St V} (h : ¬(s.requests = [] ∧ s.jobs = [])) :
    ∃ p, dispatchPhase cfg s = { (dispatchLoop cfg { s with prlist := workList s } (freeClients s)).1 with phase := p } := by
  unfold dispatchPhase
  rw [if_neg h]
  simp only
  have : (if s.prlist = [] ∨ (freeClients s).length > s.prlist.length then { s with prlist := pending s } else s) =
      { s with prlist := workList s } := by
    unfold workList
    split <;> rfl
  rw [this]
  exact ⟨_, rfl⟩

end Verif.Pool
