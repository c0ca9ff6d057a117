import Verif.Mpi.Pool
import Verif.Util
/-
C16: no MPI request is lost, duplicated or delivered to the wrong slot.
-/
namespace Verif.MpiPool
open Verif.Pool (Key RStatus)
variable {P R : Type}

/-- After every history that does not crash, every request on the list is in exactly one of three situations: it is queued and no
driver has it; it is running and exactly one busy driver has it, once; it is done, no driver has it any more, and its result
is that of its own structure. Requests that are not done are never dropped from the list. -/
theorem mpi_no_loss (cfg : Cfg P R) (n : Nat) (ops : List (Op P)) (s : St P R) (h : run cfg (init n) ops = .ok s) :
    (∀ k ∈ s.requests,
      (s.status k = .queued ∧ ∀ sl ∈ s.slots, sl.busy = true → k ∉ sl.reqs) ∨
      (s.status k = .running ∧ (held s.slots).count k = 1) ∨
      (s.status k = .done ∧ (∀ sl ∈ s.slots, sl.busy = true → k ∉ sl.reqs) ∧
        ∃ p, s.pos k = some p ∧ s.result k = some (cfg.eval p))) ∧
    (∀ k, k < s.nextKey → s.status k ≠ .done → k ∈ s.requests) := by
  have hi := run_inv ops (inv_init cfg n) h
  refine ⟨fun k hk => ?_, hi.inReq⟩
  have hlt := hi.ltReq k hk
  have hnot : s.status k ≠ .running → ∀ sl ∈ s.slots, sl.busy = true → k ∉ sl.reqs := by
    intro hr sl hsl hb hm
    exact hr ((hi.running k hlt).2 (List.mem_flatMap.2 ⟨sl, List.mem_filter.2 ⟨hsl, hb⟩, hm⟩))
  cases hst : s.status k with
  | queued => exact .inl ⟨rfl, hnot (by rw [hst]; simp)⟩
  | running => exact .inr (.inl ⟨rfl, by rw [hi.nodupHeld.count, if_pos ((hi.running k hlt).1 hst)]⟩)
  | done =>
    obtain ⟨p, hp⟩ := Option.isSome_iff_exists.1 (hi.hasPos k hlt)
    exact .inr (.inr ⟨rfl, hnot (by rw [hst]; simp), p, hp, by rw [hi.result k hlt hst, hp]; rfl⟩)

/-- How far a request has got. -/
def progress : RStatus → Nat
  | .queued => 0
  | .running => 1
  | .done => 2

theorem collect_facts {cfg : Cfg P R} {ready : Nat → Bool} (sls : List (Slot P)) : ∀ (i : Nat) (s : St P R),
    (collect cfg ready i sls s).1.pos = s.pos ∧ (collect cfg ready i sls s).1.nextKey = s.nextKey ∧
    (collect cfg ready i sls s).1.requests = s.requests ∧
    ∀ k, (collect cfg ready i sls s).1.status k = s.status k ∨ (collect cfg ready i sls s).1.status k = .done := by
  have hdel : ∀ (l : List (Key × R)) (s : St P R), let s' := l.foldl (fun s x => { s with
        result := fun k => if k = x.1 then some x.2 else s.result k
        status := fun k => if k = x.1 then RStatus.done else s.status k }) s
      s'.pos = s.pos ∧ s'.nextKey = s.nextKey ∧ s'.requests = s.requests ∧ ∀ k, s'.status k = s.status k ∨ s'.status k = .done := by
    intro l
    induction l with
    | nil => intro s; exact ⟨rfl, rfl, rfl, fun k => .inl rfl⟩
    | cons x l ih =>
      intro s
      obtain ⟨a, b, c, d⟩ := ih { s with
        result := fun k => if k = x.1 then some x.2 else s.result k
        status := fun k => if k = x.1 then RStatus.done else s.status k }
      refine ⟨a, b, c, fun k => ?_⟩
      rcases d k with h | h
      · by_cases e : k = x.1
        · right; rw [List.foldl_cons, h]; simp [e]
        · left; rw [List.foldl_cons, h]; simp [e]
      · exact .inr h
  induction sls with
  | nil => intro i s; exact ⟨rfl, rfl, rfl, fun k => .inl rfl⟩
  | cons sl sls ih =>
    intro i s
    unfold collect
    split
    · obtain ⟨a, b, c, d⟩ := ih (i + 1) (deliver sl.reqs (sl.work.map cfg.eval) s)
      obtain ⟨a', b', c', d'⟩ := hdel (sl.reqs.zip (sl.work.map cfg.eval)) s
      refine ⟨a.trans a', b.trans b', c.trans c', fun k => ?_⟩
      rcases d k with h | h
      · rcases d' k with h' | h'
        · exact .inl (h.trans h')
        · exact .inr (h.trans h')
      · exact .inr h
    · obtain ⟨a, b, c, d⟩ := ih (i + 1) s
      exact ⟨a, b, c, d⟩

theorem dispatch_facts {cfg : Cfg P R} (sls : List (Slot P)) : ∀ (queued : List Key) (s s' : St P R) (sls' : List (Slot P)),
    dispatch cfg queued sls s = .ok (s', sls') →
    s'.pos = s.pos ∧ s'.nextKey = s.nextKey ∧ s'.requests = s.requests ∧
    (∀ k, k ∉ queued → s'.status k = s.status k) ∧
    (∀ k, s'.status k = s.status k ∨ s'.status k = .running) ∧
    ((∃ sl ∈ sls', sl.busy = false) → 0 < cfg.batch → ∀ k ∈ queued, s'.status k = .running) := by
  induction sls with
  | nil =>
    intro queued s s' sls' h
    simp [dispatch] at h
    obtain ⟨rfl, rfl⟩ := h
    exact ⟨rfl, rfl, rfl, fun _ _ => rfl, fun _ => .inl rfl, fun ⟨sl, h, _⟩ => by cases h⟩
  | cons sl sls ih =>
    intro queued s s' sls' h
    unfold dispatch at h
    split at h
    · rename_i hc
      split at h
      · cases h
      · rename_i s1 rest hrest
        simp at h
        obtain ⟨rfl, rfl⟩ := h
        obtain ⟨a, b, c, d, e, f⟩ := ih queued s _ _ hrest
        refine ⟨a, b, c, d, e, ?_⟩
        rintro ⟨x, hx, hb⟩ hpos k hk
        rcases List.mem_cons.1 hx with rfl | hx
        · simp only [hb, Bool.false_or, List.isEmpty_iff] at hc
          rw [hc] at hk; cases hk
        · exact f ⟨x, hx, hb⟩ hpos k hk
    · rename_i hc
      dsimp only at h
      split at h
      · split at h
        · cases h
        · rename_i s1 rest hrest
          simp at h
          obtain ⟨rfl, rfl⟩ := h
          obtain ⟨a, b, c, d, e, f⟩ := ih _ _ _ _ hrest
          refine ⟨a, b, c, ?_, ?_, ?_⟩
          · intro k hk
            rw [d k (fun hm => hk (List.mem_of_mem_drop hm))]
            have : k ∉ queued.take cfg.batch := fun hm => hk (List.mem_of_mem_take hm)
            simp [this]
          · intro k
            rcases e k with h | h
            · by_cases hm : k ∈ queued.take cfg.batch
              · right; rw [h]; simp [hm]
              · left; rw [h]; simp [hm]
            · exact .inr h
          · rintro ⟨x, hx, hb⟩ hpos k hk
            rcases List.mem_cons.1 hx with e1 | hx
            · subst e1; cases hb
            · rw [← List.take_append_drop cfg.batch queued] at hk
              rcases List.mem_append.1 hk with hk | hk
              · rcases e k with h | h
                · rw [h]; simp [hk]
                · exact h
              · exact f ⟨x, hx, hb⟩ hpos k hk
      · cases h

/-- A request only moves forward: queued, then running, then done. In particular it is handed to a driver only once. -/
theorem mpi_forward (cfg : Cfg P R) (s s' : St P R) (op : Op P) (hs : step cfg s op = .ok s') (k : Key) (hk : k < s.nextKey) :
    progress (s.status k) ≤ progress (s'.status k) ∧ s'.pos k = s.pos k := by
  have hne : k ≠ s.nextKey := fun e => Nat.lt_irrefl _ (e ▸ hk)
  cases op with
  | queue p =>
    simp only [step, Except.ok.injEq] at hs
    subst hs
    simp [hne]
  | release k' =>
    simp only [step, Except.ok.injEq] at hs
    subst hs
    split
    · exact ⟨Nat.le_refl _, rfl⟩
    · exact ⟨Nat.le_refl _, rfl⟩
  | poll ready =>
    simp only [step, poll] at hs
    obtain ⟨a, b, c, d⟩ := collect_facts (cfg := cfg) (ready := ready) s.slots 0 s
    generalize collect cfg ready 0 s.slots s = cc at hs a b c d
    obtain ⟨s1, sls1⟩ := cc
    dsimp only at hs a b c d
    split at hs
    · cases hs
    · rename_i s2 sls2 hd
      injection hs with hs
      subst hs
      obtain ⟨a', b', c', d', e', _⟩ := dispatch_facts sls1 _ s1 _ _ hd
      refine ⟨?_, by simp only [a', a]⟩
      have h1 : progress (s.status k) ≤ progress (s1.status k) := by
        rcases d k with h | h
        · rw [h]; exact Nat.le_refl _
        · rw [h]; cases s.status k <;> decide
      refine Nat.le_trans h1 ?_
      by_cases hq : k ∈ s1.requests.filter (fun k => s1.status k = .queued)
      · have : s1.status k = .queued := by simpa using (List.mem_filter.1 hq).2
        rw [this]; exact Nat.zero_le _
      · simp only [d' k hq]; exact Nat.le_refl _

/-- No driver stays idle while requests wait: after a poll either every driver is busy or nothing is queued. -/
theorem mpi_no_idle (cfg : Cfg P R) (hb : 0 < cfg.batch) (s s' : St P R) (ready : Nat → Bool)
    (hs : step cfg s (.poll ready) = .ok s') :
    (∀ sl ∈ s'.slots, sl.busy = true) ∨ ∀ k ∈ s'.requests, s'.status k ≠ .queued := by
  simp only [step, poll] at hs
  generalize collect cfg ready 0 s.slots s = cc at hs
  obtain ⟨s1, sls1⟩ := cc
  dsimp only at hs
  split at hs
  · cases hs
  · rename_i s2 sls2 hd
    injection hs with hs
    subst hs
    obtain ⟨a', b', c', d', e', f'⟩ := dispatch_facts sls1 _ s1 _ _ hd
    by_cases hall : ∀ sl ∈ sls2, sl.busy = true
    · exact .inl hall
    · right
      have : ∃ sl ∈ sls2, sl.busy = false := by
        simpa using hall
      intro k hk hq
      have hr := f' this hb k
      by_cases hqk : k ∈ s1.requests.filter (fun k => s1.status k = .queued)
      · rw [hr hqk] at hq; cases hq
      · have h1 : s1.status k = .queued := by rw [← d' k hqk]; exact hq
        exact hqk (List.mem_filter.2 ⟨by simp only [c'] at hk; exact hk, by simp [h1]⟩)

theorem packable_uniform {cfg : Cfg P R} {ps : List P} (h : ∀ p ∈ ps, ∀ q ∈ ps, cfg.size p = cfg.size q) : packable cfg ps = true := by
  cases ps with
  | nil => rfl
  | cons p ps =>
    simp only [packable, List.all_eq_true, beq_iff_eq]
    intro q hq
    exact h q (by simp [hq]) p (by simp)

theorem dispatch_ok {cfg : Cfg P R} {p0 : P → Prop} (hp0 : (∀ p q, p0 p → p0 q → cfg.size p = cfg.size q) ∨ cfg.batch ≤ 1)
    (sls : List (Slot P)) : ∀ (queued : List Key) (s : St P R), (∀ k p, s.pos k = some p → p0 p) →
    ∃ x, dispatch cfg queued sls s = .ok x := by
  induction sls with
  | nil => intro queued s _; exact ⟨_, rfl⟩
  | cons sl sls ih =>
    intro queued s hpos
    unfold dispatch
    split
    · obtain ⟨x, hx⟩ := ih queued s hpos
      rw [hx]; exact ⟨_, rfl⟩
    · dsimp only
      rw [if_pos]
      · obtain ⟨x, hx⟩ := ih (queued.drop cfg.batch) { s with status := fun k => if k ∈ queued.take cfg.batch then .running else s.status k } hpos
        rw [hx]; exact ⟨_, rfl⟩
      · rcases hp0 with hp0 | hb
        · apply packable_uniform
          intro p hp q hq
          obtain ⟨k, _, hk⟩ := List.mem_filterMap.1 hp
          obtain ⟨k', _, hk'⟩ := List.mem_filterMap.1 hq
          exact hp0 p q (hpos k p hk) (hpos k' q hk')
        · have hl : ((queued.take cfg.batch).filterMap s.pos).length ≤ 1 :=
            Nat.le_trans (List.length_filterMap_le _ _) (by rw [List.length_take]; omega)
          match h : (queued.take cfg.batch).filterMap s.pos with
          | [] => rfl
          | [p] => rfl
          | p :: q :: l => rw [h] at hl; simp at hl

/-- The pool never crashes if all structures have one size, or if batches hold one structure. -/
theorem mpi_never_crashes_partial (cfg : Cfg P R) (n : Nat) (p0 : P → Prop)
    (hp0 : (∀ p q, p0 p → p0 q → cfg.size p = cfg.size q) ∨ cfg.batch ≤ 1) (ops : List (Op P)) (hops : ∀ p, Op.queue p ∈ ops → p0 p) :
    ∃ s, run cfg (init n) ops = .ok s := by
  have key : ∀ (ops : List (Op P)) (s : St P R), (∀ p, Op.queue p ∈ ops → p0 p) → (∀ k p, s.pos k = some p → p0 p) →
      ∃ s', run cfg s ops = .ok s' := by
    intro ops
    induction ops with
    | nil => intro s _ _; exact ⟨s, rfl⟩
    | cons op ops ih =>
      intro s ho hpos
      have hstep : ∃ s', step cfg s op = .ok s' ∧ ∀ k p, s'.pos k = some p → p0 p := by
        cases op with
        | queue p =>
          refine ⟨_, rfl, fun k q hq => ?_⟩
          simp only at hq
          split at hq
          · injection hq with hq; rw [← hq]; exact ho p (by simp)
          · exact hpos k q hq
        | release k =>
          refine ⟨_, rfl, fun k q hq => ?_⟩
          split at hq <;> exact hpos _ q hq
        | poll ready =>
          simp only [step, poll]
          obtain ⟨a, b, c, d⟩ := collect_facts (cfg := cfg) (ready := ready) s.slots 0 s
          generalize collect cfg ready 0 s.slots s = cc at a b c d
          obtain ⟨s1, sls1⟩ := cc
          dsimp only at a b c d ⊢
          obtain ⟨⟨s2, sls2⟩, hd⟩ := dispatch_ok hp0 sls1 (s1.requests.filter fun k => s1.status k = .queued) s1 (by rw [a]; exact hpos)
          rw [hd]
          obtain ⟨a', _⟩ := dispatch_facts sls1 _ s1 _ _ hd
          exact ⟨_, rfl, by simp only [a', a]; exact hpos⟩
      obtain ⟨s', h1, h2⟩ := hstep
      obtain ⟨s'', h3⟩ := ih s' (fun p hp => ho p (by simp [hp])) h2
      exact ⟨s'', by rw [run, h1]; exact h3⟩
  exact key ops (init n) hops (by intro k p h; simp [init] at h)

/-- Sizes are the structures themselves, results are doubled. -/
def exCfg (b : Nat) : Cfg Nat Nat := ⟨b, id, fun p => 2 * p⟩

/-- The clause fails when systems of different size share the force field and batches are used: packing raises in the polling
thread, which is not restarted; all requests are lost. -/
theorem mixed_sizes_crash (rest : List (Op Nat)) :
    run (exCfg 2) (init 1) (.queue 5 :: .queue 6 :: .poll (fun _ => false) :: rest) = .error .valueError := by rfl

/-- Non-vacuity: three requests, two drivers, batches of two; the second driver replies first. -/
example : (run (exCfg 2) (init 2) [.queue 5, .queue 5, .queue 5, .poll (fun _ => false), .poll (fun i => i == 1), .queue 5,
    .poll (fun _ => false), .poll (fun _ => true)]).map (fun s => (List.range 4).map fun k => (s.status k, s.result k)) =
    .ok [(.done, some 10), (.done, some 10), (.done, some 10), (.done, some 10)] := by decide +kernel
example : (run (exCfg 1) (init 2) [.queue 5, .queue 6, .queue 7, .poll (fun _ => false), .poll (fun i => i == 1)]).map
    (fun s => (List.range 3).map fun k => (s.status k, s.result k)) =
    .ok [(.running, none), (.done, some 12), (.running, none)] := by decide +kernel

end Verif.MpiPool
