import Verif.Pool.Facts
/-
The dispatch phase when every send succeeds: which requests go to which clients.
-/
namespace Verif.Pool
variable {V : Type}

/-- What a single dispatch does when requests are sent one by one and the send succeeds. -/
theorem dispatchFree_single {cfg : Cfg V} (hb : cfg.batch ≤ 1) {mid : MatchId} {cid : Cid} {s : St V} (ho : s.orc = []) :
    (dispatchFree cfg mid cid s = (s, false) ∧ ∀ fc, s.clients.find? (fun c => c.cid == cid) = some fc → fc.st.isFree = true →
      ∀ r ∈ s.prlist, skips cfg mid s.clients fc r = true) ∨
    ∃ fc r s', dispatchFree cfg mid cid s = (s', true) ∧ s.clients.find? (fun c => c.cid == cid) = some fc ∧
      fc.st.isFree = true ∧ r ∈ s.prlist ∧ skips cfg mid s.clients fc r = false ∧ s'.jobs = s.jobs ++ [([r], cid)] ∧
      s'.prlist = s.prlist.erase r ∧ s'.orc = [] ∧ s'.requests = s.requests ∧
      s'.clients.map (fun c => (c.cid, c.lastreq)) = s.clients.map (fun c => (c.cid, c.lastreq)) ∧
      s'.status = setStatus [r] .running s.status ∧
      ∀ x, x ≠ cid → s'.clients.find? (fun c => c.cid == x) = s.clients.find? (fun c => c.cid == x) := by
  unfold dispatchFree
  cases hf : s.clients.find? (fun c => c.cid == cid) with
  | none => exact .inl ⟨rfl, by simp⟩
  | some fc =>
    simp only
    by_cases hfree : fc.st.isFree
    · rw [if_neg (by simp [hfree]), if_neg (by omega)]
      cases hp : pick cfg mid s.clients fc s.prlist with
      | none =>
        refine .inl ⟨rfl, ?_⟩
        intro fc' he _ r hr
        simp only [Option.some.injEq] at he
        subst he
        have := List.find?_eq_none.1 hp r hr
        simpa using this
      | some r =>
        have h1 := List.mem_of_find?_eq_some hp
        have h2 := List.find?_some hp
        refine .inr ⟨fc, r, (assign cfg [r] cid (fc.lastreq == some (cfg.rid r)) s).1, ?_⟩
        simp only [assign, popSend, ho]
        refine ⟨by trivial, by trivial, hfree, h1, by simpa using h2, by trivial, by trivial, by trivial, by trivial, ?_,
          by trivial, ?_⟩
        · simp only [updClient, List.map_map]
          apply List.map_congr_left
          intro c _
          simp only [Function.comp]
          by_cases e : c.cid = cid <;> simp [e]
        · intro x hx
          simp only [updClient, List.map_map, List.find?_map]
          have key : ∀ l : List Client, (l.find? ((fun c : Client => c.cid == x) ∘ (fun c => if c.cid = cid then
              { c with st := .sentJob, sent := pad cfg.batch [r] } else c) ∘
              fun c => if c.cid = cid then { c with locked := fc.lastreq == some (cfg.rid r) } else c)) =
              l.find? (fun c => c.cid == x) := by
            intro l
            congr 1
            funext c
            simp only [Function.comp]
            by_cases e : c.cid = cid <;> simp [e]
          rw [key]
          cases hq : s.clients.find? (fun c => c.cid == x) with
          | none => rfl
          | some c =>
            have := List.find?_some hq
            have hcx : c.cid ≠ cid := by
              have h3 : c.cid = x := by simpa using this
              rw [h3]; exact hx
            simp [hcx]
    · refine .inl ⟨by simp [hfree], ?_⟩
      intro fc' he hfr
      simp only [Option.some.injEq] at he
      subst he
      exact absurd hfr hfree

/-- A condition on the state of the dispatch loop that every single dispatch preserves holds at the end of a pass. -/
theorem passClients_induct {cfg : Cfg V} {mid : MatchId} (P : Rd V → Prop)
    (hstep : ∀ fc rd, P rd → P (if (dispatchFree cfg mid fc rd.s).2 then
      ⟨(dispatchFree cfg mid fc rd.s).1, rd.freec.erase fc, true⟩ else ⟨(dispatchFree cfg mid fc rd.s).1, rd.freec, rd.d⟩))
    (l : List Cid) : ∀ rd, P rd → P (passClients cfg mid l rd) := by
  induction l with
  | nil => intro rd h; exact h
  | cons fc rest ih =>
    intro rd h
    have h1 := hstep fc rd h
    unfold passClients
    simp only
    generalize (if (dispatchFree cfg mid fc rd.s).2 then
      (⟨(dispatchFree cfg mid fc rd.s).1, rd.freec.erase fc, true⟩ : Rd V)
      else ⟨(dispatchFree cfg mid fc rd.s).1, rd.freec, rd.d⟩) = x at *
    split
    · exact h1
    · exact ih _ h1

/-- Like `passClients_induct`, for clients that are still free when they are tried. -/
theorem passClients_induct' {cfg : Cfg V} {mid : MatchId} (P : Rd V → Prop)
    (hstep : ∀ fc rd, P rd → rd.freec.Nodup → fc ∈ rd.freec → P (if (dispatchFree cfg mid fc rd.s).2 then
      ⟨(dispatchFree cfg mid fc rd.s).1, rd.freec.erase fc, true⟩ else ⟨(dispatchFree cfg mid fc rd.s).1, rd.freec, rd.d⟩))
    (l : List Cid) : ∀ rd, P rd → rd.freec.Nodup → l.Nodup → (∀ c ∈ l, c ∈ rd.freec) →
      P (passClients cfg mid l rd) ∧ (passClients cfg mid l rd).freec.Nodup := by
  induction l with
  | nil => intro rd h hn _ _; exact ⟨h, hn⟩
  | cons fc rest ih =>
    intro rd h hn hl hs
    have h1 := hstep fc rd h hn (hs fc (by simp))
    have hl' := List.nodup_cons.1 hl
    unfold passClients
    simp only
    split
    · rename_i hok
      rw [if_pos hok] at h1
      split
      · exact ⟨h1, hn.erase fc⟩
      · refine ih _ h1 (hn.erase fc) hl'.2 (fun c hc => ?_)
        show c ∈ rd.freec.erase fc
        rw [hn.mem_erase_iff]
        exact ⟨fun e => hl'.1 (e ▸ hc), hs c (by simp [hc])⟩
    · rename_i hok
      rw [if_neg hok] at h1
      split
      · exact ⟨h1, hn⟩
      · exact ih _ h1 hn hl'.2 (fun c hc => hs c (by simp [hc]))

/-- Bookkeeping of a sequence of successful dispatches starting from the state `s0` with free clients `f0`, `Q` being
satisfied by every (client, request) pair dispatched. -/
structure Track (s0 : St V) (f0 : List Cid) (Q : Client → Key → Prop) (rd : Rd V) : Prop where
  orc : rd.s.orc = []
  reqs : rd.s.requests = s0.requests
  sub : ∀ c ∈ rd.freec, c ∈ f0
  same : ∀ c ∈ rd.freec, rd.s.clients.find? (fun x => x.cid == c) = s0.clients.find? (fun x => x.cid == c)
  hist : rd.s.clients.map (fun c => (c.cid, c.lastreq)) = s0.clients.map (fun c => (c.cid, c.lastreq))
  old : ∀ j ∈ s0.jobs, j ∈ rd.s.jobs
  jobs : ∀ j ∈ rd.s.jobs, j ∈ s0.jobs ∨ ∃ fc r, j = ([r], fc.cid) ∧ fc.cid ∈ f0 ∧
    s0.clients.find? (fun x => x.cid == fc.cid) = some fc ∧ fc.st.isFree = true ∧ Q fc r
  gone : ∀ c ∈ f0, c ∉ rd.freec → ∃ r, ([r], c) ∈ rd.s.jobs

theorem lastreq_any {l l' : List Client} (h : l.map (fun c => (c.cid, c.lastreq)) = l'.map (fun c => (c.cid, c.lastreq)))
    (x : Option Nat) : l.any (fun c => c.lastreq == x) = l'.any (fun c => c.lastreq == x) := by
  have : ∀ l : List Client, l.any (fun c => c.lastreq == x) = (l.map (fun c => (c.cid, c.lastreq))).any (fun p => p.2 == x) := by
    intro l; simp [List.any_map, Function.comp_def]
  rw [this, this, h]

theorem skips_congr {cfg : Cfg V} {mid : MatchId} {l l' : List Client}
    (h : l.map (fun c => (c.cid, c.lastreq)) = l'.map (fun c => (c.cid, c.lastreq))) (fc : Client) (r : Key) :
    skips cfg mid l fc r = skips cfg mid l' fc r := by
  cases mid <;> simp [skips, lastreq_any h]

theorem Track.step {cfg : Cfg V} (hb : cfg.batch ≤ 1) {s0 : St V} {f0 : List Cid} {Q : Client → Key → Prop} {mid : MatchId}
    {fc : Cid} {rd : Rd V} (h : Track s0 f0 Q rd) (hn : rd.freec.Nodup) (hfc : fc ∈ rd.freec)
    (hQ : ∀ c r, s0.clients.find? (fun x => x.cid == c.cid) = some c → c.cid ∈ rd.freec →
      skips cfg mid s0.clients c r = false → Q c r) :
    Track s0 f0 Q (if (dispatchFree cfg mid fc rd.s).2 then
      ⟨(dispatchFree cfg mid fc rd.s).1, rd.freec.erase fc, true⟩
      else ⟨(dispatchFree cfg mid fc rd.s).1, rd.freec, rd.d⟩) := by
  rcases dispatchFree_single hb (cid := fc) (mid := mid) h.orc with
    ⟨he, _⟩ | ⟨c, r, s', he, hfind, hfree, hr, hsk, hj, hp, ho, hreq, hh, hst, hsame⟩
  · rw [he]; exact { h with }
  · rw [he]
    simp only [if_true]
    have hcid : c.cid = fc := by simpa using List.find?_some hfind
    have hfind0 : s0.clients.find? (fun x => x.cid == c.cid) = some c := by rw [hcid, ← h.same fc hfc]; exact hfind
    have hmem : ∀ x, x ∈ rd.freec.erase fc ↔ x ≠ fc ∧ x ∈ rd.freec := fun x => hn.mem_erase_iff
    refine
      { orc := ho, reqs := hreq.trans h.reqs, sub := fun x hx => h.sub x ((hmem x).1 hx).2, same := ?_, hist := hh.trans h.hist,
        old := ?_, jobs := ?_, gone := ?_ }
    · intro x hx
      have := (hmem x).1 hx
      rw [show (Rd.mk s' (rd.freec.erase fc) true).s = s' from rfl, hsame x this.1, h.same x this.2]
    · intro j hj'
      rw [show (Rd.mk s' (rd.freec.erase fc) true).s = s' from rfl, hj]
      exact List.mem_append_left _ (h.old j hj')
    · intro j hj'
      rw [show (Rd.mk s' (rd.freec.erase fc) true).s = s' from rfl, hj] at hj'
      rcases List.mem_append.1 hj' with hj' | hj'
      · exact h.jobs j hj'
      · refine .inr ⟨c, r, by rw [hcid]; simpa using hj', by rw [hcid]; exact h.sub fc hfc, hfind0, hfree, ?_⟩
        exact hQ c r hfind0 (by rw [hcid]; exact hfc) (by rw [← skips_congr h.hist]; exact hsk)
    · intro x hx hnx
      rw [show (Rd.mk s' (rd.freec.erase fc) true).s = s' from rfl, hj]
      by_cases e : x = fc
      · exact ⟨r, by simp [e]⟩
      · obtain ⟨r', hr'⟩ := h.gone x hx (fun hin => hnx ((hmem x).2 ⟨e, hin⟩))
        exact ⟨r', List.mem_append_left _ hr'⟩

theorem Track.init {s0 : St V} {f0 : List Cid} {Q : Client → Key → Prop} {d : Bool} (ho : s0.orc = []) :
    Track s0 f0 Q ⟨s0, f0, d⟩ := by
  exact
    { orc := ho, reqs := rfl, sub := fun _ h => h, same := fun _ _ => rfl, hist := rfl, old := fun _ h => h
      jobs := fun _ h => .inl h, gone := fun _ h hn => absurd h hn }

theorem Track.pass {cfg : Cfg V} (hb : cfg.batch ≤ 1) {s0 : St V} {f0 : List Cid} {Q : Client → Key → Prop} {mid : MatchId}
    {rd : Rd V} (h : Track s0 f0 Q rd) (hn : rd.freec.Nodup)
    (hQ : ∀ c r, s0.clients.find? (fun x => x.cid == c.cid) = some c → c.cid ∈ f0 →
      skips cfg mid s0.clients c r = false → Q c r) :
    Track s0 f0 Q (passClients cfg mid rd.freec rd) ∧ (passClients cfg mid rd.freec rd).freec.Nodup :=
  passClients_induct' (Track s0 f0 Q)
    (fun _ _ h1 hn1 hfc => h1.step hb hn1 hfc (fun c r h2 h3 h4 => hQ c r h2 (h1.sub _ h3) h4)) _ rd h hn hn
    (fun _ h => h)

theorem Track.round {cfg : Cfg V} (hb : cfg.batch ≤ 1) {s0 : St V} {f0 : List Cid} {Q : Client → Key → Prop}
    (mids : List MatchId) :
    (∀ mid ∈ mids, ∀ c r, s0.clients.find? (fun x => x.cid == c.cid) = some c → c.cid ∈ f0 →
      skips cfg mid s0.clients c r = false → Q c r) → ∀ rd, Track s0 f0 Q rd → rd.freec.Nodup →
    Track s0 f0 Q (round cfg mids rd) ∧ (Pool.round cfg mids rd).freec.Nodup := by
  induction mids with
  | nil => intro _ rd h hn; exact ⟨h, hn⟩
  | cons m mids ih =>
    intro hQ rd h hn
    obtain ⟨h1, h2⟩ := h.pass hb hn (hQ m (by simp))
    exact ih (fun mid hm => hQ mid (by simp [hm])) _ h1 h2

theorem Track.refresh {s0 : St V} {f0 : List Cid} {Q : Client → Key → Prop} {rd : Rd V} (h : Track s0 f0 Q rd) (d : Bool) :
    Track s0 f0 Q ⟨if rd.freec = [] then rd.s else { rd.s with prlist := pending rd.s }, rd.freec, d⟩ := by
  split <;> exact { h with }

theorem Track.loop {cfg : Cfg V} (hb : cfg.batch ≤ 1) {s0 : St V} {f0 : List Cid} {Q : Client → Key → Prop}
    (hQ : ∀ mid ∈ cfg.mode.seq, ∀ c r, s0.clients.find? (fun x => x.cid == c.cid) = some c → c.cid ∈ f0 →
      skips cfg mid s0.clients c r = false → Q c r) (s : St V) (freec : List Cid) (d : Bool) (h : Track s0 f0 Q ⟨s, freec, d⟩)
    (hn : freec.Nodup) :
    Track s0 f0 Q ⟨(dispatchLoop cfg s freec).1, (dispatchLoop cfg s freec).2, d⟩ ∧ (dispatchLoop cfg s freec).2.Nodup := by
  induction hl : freec.length using Nat.strongRecOn generalizing s freec with
  | _ n ih =>
    rw [dispatchLoop]
    split
    · exact ⟨h, hn⟩
    · obtain ⟨h1, h2⟩ := Track.round hb cfg.mode.seq hQ ⟨s, freec, false⟩ { h with } hn
      simp only
      split
      · exact ⟨{ h1 with }, h2⟩
      · split
        · rename_i hlt
          exact ih _ (by omega) _ _ (h1.refresh d) h2 rfl
        · exact ⟨h1.refresh d, h2⟩

/-! ### nothing dispatchable is left -/

/-- Nothing is lost from the pending list: what disappears has been sent. -/
theorem passClients_prlist {cfg : Cfg V} (hb : cfg.batch ≤ 1) {mid : MatchId} {p0 : List Key} (l : List Cid) (rd : Rd V)
    (ho : rd.s.orc = []) (h : ∀ r ∈ p0, r ∈ rd.s.prlist ∨ ∃ c, ([r], c) ∈ rd.s.jobs) :
    ∀ r ∈ p0, r ∈ (passClients cfg mid l rd).s.prlist ∨ ∃ c, ([r], c) ∈ (passClients cfg mid l rd).s.jobs := by
  refine (passClients_induct (fun rd => rd.s.orc = [] ∧ ∀ r ∈ p0, r ∈ rd.s.prlist ∨ ∃ c, ([r], c) ∈ rd.s.jobs) ?_ l rd
    ⟨ho, h⟩).2
  rintro fc rd ⟨ho, h⟩
  rcases dispatchFree_single hb (cid := fc) (mid := mid) ho with
    ⟨he, _⟩ | ⟨c, r, s', he, -, -, hr, -, hj, hp, ho', -⟩
  · rw [he]; exact ⟨ho, h⟩
  · rw [he]
    refine ⟨ho', fun x hx => ?_⟩
    show x ∈ s'.prlist ∨ ∃ c, ([x], c) ∈ s'.jobs
    rw [hp, hj]
    rcases h x hx with h1 | ⟨c, h1⟩
    · by_cases e : x = r
      · exact .inr ⟨fc, by simp [e]⟩
      · exact .inl ((List.mem_erase_of_ne e).2 h1)
    · exact .inr ⟨c, List.mem_append_left _ h1⟩

/-- After a pass no free client is left for which a pending request is acceptable in that pass. -/
theorem passClients_exhausts {cfg : Cfg V} (hb : cfg.batch ≤ 1) {mid : MatchId} (l : List Cid) : ∀ (rd : Rd V), rd.s.orc = [] →
    rd.freec.Nodup → l.Nodup → (∀ c ∈ l, c ∈ rd.freec) →
    ∀ c ∈ (passClients cfg mid l rd).freec, ∀ fc, (passClients cfg mid l rd).s.clients.find? (fun x => x.cid == c) = some fc →
      fc.st.isFree = true →
      (c ∈ l ∨ ∀ r ∈ rd.s.prlist, skips cfg mid rd.s.clients fc r = true) →
      ∀ r ∈ (passClients cfg mid l rd).s.prlist, skips cfg mid (passClients cfg mid l rd).s.clients fc r = true := by
  induction l with
  | nil =>
    intro rd _ _ _ _ c hc fc hfc hfree hor r hr
    rcases hor with h | h
    · cases h
    · exact h r hr
  | cons x rest ih =>
    intro rd ho hn hl hs
    have hl' := List.nodup_cons.1 hl
    have hx := hs x (by simp)
    rcases dispatchFree_single hb (cid := x) (mid := mid) ho with
      ⟨he, hno⟩ | ⟨fc0, r0, s', he, hfind, hfree0, hr0, hsk, hj, hp, ho', hreq, hh, hst, hsame⟩
    · unfold passClients
      rw [he]
      simp only [Bool.false_eq_true, if_false]
      split
      · rename_i hnil
        intro c _ fc _ _ _ r hr
        rw [hnil] at hr; cases hr
      · intro c hc fc hfc hfree hor
        refine ih ⟨rd.s, rd.freec, rd.d⟩ ho hn hl'.2 (fun y hy => hs y (by simp [hy])) c hc fc hfc hfree ?_
        rcases hor with h | h
        · rcases List.mem_cons.1 h with rfl | h
          · right
            have htr := (passClients_induct' (cfg := cfg) (mid := mid) (fun rd' => rd'.s.orc = [] ∧
              (∀ y ∈ rd'.freec, rd'.s.clients.find? (fun z => z.cid == y) = rd.s.clients.find? (fun z => z.cid == y)))
              (by
                rintro y rd' ⟨ho1, hs1⟩ hn1 hy
                rcases dispatchFree_single hb (cid := y) (mid := mid) ho1 with
                  ⟨he1, _⟩ | ⟨_, _, s1, he1, -, -, -, -, -, -, ho2, -, -, -, hsame1⟩
                · rw [he1]; exact ⟨ho1, hs1⟩
                · rw [he1]
                  refine ⟨ho2, fun z hz => ?_⟩
                  have hz' := (hn1.mem_erase_iff).1 hz
                  exact (hsame1 z hz'.1).trans (hs1 z hz'.2))
              rest ⟨rd.s, rd.freec, rd.d⟩ ⟨ho, fun _ _ => rfl⟩ hn hl'.2 (fun y hy => hs y (by simp [hy]))).1.2 c hc
            rw [hfc] at htr
            exact hno fc htr.symm hfree
          · exact .inl h
        · exact .inr h
    · unfold passClients
      rw [he]
      simp only [if_true]
      split
      · rename_i hnil
        intro c _ fc _ _ _ r hr
        rw [hnil] at hr; cases hr
      · intro c hc fc hfc hfree hor
        have hsub : ∀ y ∈ rest, y ∈ rd.freec.erase x := fun y hy => by
          rw [hn.mem_erase_iff]
          exact ⟨fun e => hl'.1 (e ▸ hy), hs y (by simp [hy])⟩
        refine ih ⟨s', rd.freec.erase x, true⟩ ho' (hn.erase x) hl'.2 hsub c hc fc hfc hfree ?_
        rcases hor with h | h
        · rcases List.mem_cons.1 h with rfl | h
          · exfalso
            have hsubf := (passClients_induct' (cfg := cfg) (mid := mid) (fun rd' => ∀ y ∈ rd'.freec, y ∈ rd.freec.erase c)
              (by
                rintro y rd' hs1 hn1 hy
                split
                · intro z hz; exact hs1 z ((hn1.mem_erase_iff).1 hz).2
                · exact hs1)
              rest ⟨s', rd.freec.erase c, true⟩ (fun _ h => h) (hn.erase c) hl'.2 hsub).1 c hc
            exact ((hn.mem_erase_iff).1 hsubf).1 rfl
          · exact .inl h
        · right
          intro r hr
          rw [skips_congr hh]
          refine h r ?_
          have hr' : r ∈ s'.prlist := hr
          rw [hp] at hr'
          exact List.mem_of_mem_erase hr'

end Verif.Pool
