import Verif.Run.Softexit
/-
C22: exit callbacks run exactly once, in registration order, however many exit requests arrive.
-/
namespace Verif.Softexit

theorem run_append (cbs : List Cb) : ∀ (a b : List Ev) (s : St), run cbs s (a ++ b) = run cbs (run cbs s a) b := by
  intro a
  induction a with
  | nil => intro b s; rfl
  | cons e a ih => intro b s; exact ih b _

/-- Facts about every state in which `triggered` is set and every thread other than `t0` is before one of the two
tests or has returned. -/
structure Owned (cbs : List Cb) (t0 : Nat) (s : St) : Prop where
  trig : s.triggered = true
  others : ∀ t, t ≠ t0 → s.pc t = .start ∨ s.pc t = .test ∨ s.pc t = .done
  /-- thread `t0` is at callback `k` having run the ones before, or has finished, or has died at some callback -/
  owner : (∃ k, k ≤ cbs.length ∧ s.pc t0 = .call k ∧ s.log = (List.range k).map (t0, ·) ∧ ∀ j, j < k → cbs[j]? ≠ some .otherError) ∨
    (s.pc t0 = .done ∧ s.exiting = false ∧ s.log = (List.range cbs.length).map (t0, ·)) ∨
    (s.pc t0 = .dead ∧ ∃ k, k ≤ cbs.length ∧ s.log = (List.range k).map (t0, ·))
  exiting : s.pc t0 ≠ .done → s.exiting = true

theorem owned_step (cbs : List Cb) (t0 : Nat) (s : St) (h : Owned cbs t0 s) (e : Ev) : Owned cbs t0 (step cbs s e) := by
  have hcall : ∀ t, (∃ k, s.pc t = .call k) → t = t0 := by
    rintro t ⟨k, hk⟩
    refine Decidable.byContradiction fun hne => ?_
    rcases h.others t hne with h' | h' | h' <;> rw [hk] at h' <;> cases h'
  cases e with
  | signal t =>
    simp only [step]
    split
    · rename_i k hk
      have := hcall t ⟨k, hk⟩
      subst this
      refine ⟨h.trig, ?_, ?_, ?_⟩
      · intro u hu; simp only [setPc, if_neg hu]; exact h.others u hu
      · right; right
        refine ⟨by simp [setPc], ?_⟩
        rcases h.owner with ⟨j, hj, hp, hl, _⟩ | ⟨hp, _⟩ | ⟨hp, _⟩
        · exact ⟨j, hj, hl⟩
        · rw [hk] at hp; cases hp
        · rw [hk] at hp; cases hp
      · intro _
        have := h.exiting (by rw [hk]; intro e; cases e)
        exact this
    · exact h
  | step t =>
    by_cases ht : t = t0
    · subst ht
      rcases h.owner with ⟨k, hk, hp, hl, hno⟩ | ⟨hp, h1, h2⟩ | ⟨hp, h2⟩
      · have hex := h.exiting (by rw [hp]; intro e; cases e)
        simp only [step, hp]
        split
        · rename_i hn
          have : k = cbs.length := by
            have := List.getElem?_eq_none_iff.1 hn
            omega
          subst this
          refine ⟨h.trig, ?_, .inr (.inl ⟨by simp [setPc], rfl, hl⟩), ?_⟩
          · intro u hu; simp only [setPc, if_neg hu]; exact h.others u hu
          · intro hc; simp [setPc] at hc
        · rename_i hn
          have hlt := (List.getElem?_eq_some_iff.1 hn).1
          refine ⟨h.trig, ?_, .inr (.inr ⟨by simp [setPc], k + 1, hlt, ?_⟩), fun _ => hex⟩
          · intro u hu; simp only [setPc, if_neg hu]; exact h.others u hu
          · simp [setPc, hl, List.range_succ]
        · rename_i c hc hn
          have hlt := (List.getElem?_eq_some_iff.1 hn).1
          refine ⟨h.trig, ?_, .inl ⟨k + 1, hlt, by simp [setPc], ?_, ?_⟩, fun _ => hex⟩
          · intro u hu; simp only [setPc, if_neg hu]; exact h.others u hu
          · simp [setPc, hl, List.range_succ]
          · intro j hj
            by_cases e : j = k
            · subst e
              rw [hn]
              intro e
              injection e with e
              exact hc e
            · exact hno j (by omega)
      · simp only [step, hp]; exact h
      · simp only [step, hp]; exact h
    · have hdone : Owned cbs t0 (setPc s t .done) := by
        refine ⟨h.trig, ?_, ?_, ?_⟩
        · intro u hu
          simp only [setPc]
          split
          · exact .inr (.inr rfl)
          · exact h.others u hu
        · have : (setPc s t .done).pc t0 = s.pc t0 := by simp [setPc, Ne.symm ht]
          rw [this]; exact h.owner
        · have : (setPc s t .done).pc t0 = s.pc t0 := by simp [setPc, Ne.symm ht]
          rw [this]; exact h.exiting
      rcases h.others t ht with hp | hp | hp
      · simp only [step, hp, h.trig, if_true]; exact hdone
      · simp only [step, hp, h.trig, if_true]; exact hdone
      · simp only [step, hp]; exact h

theorem owned_run (cbs : List Cb) (t0 : Nat) : ∀ (es : List Ev) (s : St), Owned cbs t0 s → Owned cbs t0 (run cbs s es) := by
  intro es
  induction es with
  | nil => intro s h; exact h
  | cons e es ih => intro s h; exact ih _ (owned_step cbs t0 s h e)

/-- When the first exit request is not interrupted before it has set the flag, then for every later interleaving of any number of
requests and signals: only that request runs callbacks, it runs them in order and none twice; once it has returned all of them have
run, and it returns unless a callback raised something other than `RuntimeError` or a second signal arrived. -/
theorem callbacks_once_partial (cbs : List Cb) (t0 : Nat) (es : List Ev) :
    let s := run cbs {} (List.replicate 4 (.step t0) ++ es)
    (∃ k, k ≤ cbs.length ∧ s.log = (List.range k).map (t0, ·)) ∧
    (s.pc t0 = .done → s.log = (List.range cbs.length).map (t0, ·) ∧ s.exiting = false) := by
  rw [run_append]
  have h0 : Owned cbs t0 (run cbs {} (List.replicate 4 (.step t0))) := by
    have e : run cbs {} (List.replicate 4 (.step t0)) =
        { triggered := true, exiting := true, pc := fun u => if u = t0 then .call 0 else .start, log := [] } := by
      simp only [List.replicate, run, step, setPc, if_true, Bool.false_eq_true, if_false]
      congr 1
      funext u
      by_cases h : u = t0 <;> simp [h]
    rw [e]
    refine ⟨rfl, ?_, .inl ⟨0, Nat.zero_le _, by simp, by simp, by intro j hj; omega⟩, fun _ => rfl⟩
    intro t ht
    simp [ht]
  have h := owned_run cbs t0 es _ h0
  generalize run cbs (run cbs {} (List.replicate 4 (.step t0))) es = s at h
  refine ⟨?_, ?_⟩
  · rcases h.owner with ⟨k, hk, _, hl, _⟩ | ⟨_, _, hl⟩ | ⟨_, k, hk, hl⟩
    · exact ⟨k, hk, hl⟩
    · exact ⟨_, Nat.le_refl _, hl⟩
    · exact ⟨k, hk, hl⟩
  · intro hd
    rcases h.owner with ⟨k, _, hp, _⟩ | ⟨_, h1, h2⟩ | ⟨hp, _⟩
    · rw [hd] at hp; cases hp
    · exact ⟨h2, h1⟩
    · rw [hd] at hp; cases hp

/-- The same when other requests have already passed the first test of the flag (in `trigger`) while the first one was on its
way, as long as none has passed the second one (in `cleanup`): from any state in which thread `t0` is about to set the flag and
the others are before one of the two tests. -/
theorem callbacks_once_race_partial (cbs : List Cb) (t0 : Nat) (s0 : St) (hlog : s0.log = []) (hex : s0.exiting = true)
    (h0 : s0.pc t0 = .setTriggered) (hoth : ∀ t, t ≠ t0 → s0.pc t = .start ∨ s0.pc t = .test) (es : List Ev) :
    let s := run cbs s0 (.step t0 :: es)
    (∃ k, k ≤ cbs.length ∧ s.log = (List.range k).map (t0, ·)) ∧
    (s.pc t0 = .done → s.log = (List.range cbs.length).map (t0, ·) ∧ s.exiting = false) := by
  have h1 : Owned cbs t0 (step cbs s0 (.step t0)) := by
    simp only [step, h0]
    refine ⟨rfl, ?_, .inl ⟨0, Nat.zero_le _, by simp [setPc], by simp [setPc, hlog], by intro j hj; omega⟩, fun _ => hex⟩
    intro t ht
    simp only [setPc, if_neg ht]
    rcases hoth t ht with h | h
    · exact .inl h
    · exact .inr (.inl h)
  have h := owned_run cbs t0 es _ h1
  show (∃ k, k ≤ cbs.length ∧ (run cbs (step cbs s0 (.step t0)) es).log = (List.range k).map (t0, ·)) ∧ _
  simp only [run]
  generalize run cbs (step cbs s0 (.step t0)) es = s at h
  refine ⟨?_, ?_⟩
  · rcases h.owner with ⟨k, hk, _, hl, _⟩ | ⟨_, _, hl⟩ | ⟨_, k, hk, hl⟩
    · exact ⟨k, hk, hl⟩
    · exact ⟨_, Nat.le_refl _, hl⟩
    · exact ⟨k, hk, hl⟩
  · intro hd
    rcases h.owner with ⟨k, _, hp, _⟩ | ⟨_, h1, h2⟩ | ⟨hp, _⟩
    · rw [hd] at hp; cases hp
    · exact ⟨h2, h1⟩
    · rw [hd] at hp; cases hp

/-- Non-vacuity: a second thread has passed the first test. -/
example : let s0 := run [.ok, .ok] {} [.step 0, .step 1, .step 0, .step 0]
    s0.pc 0 = .setTriggered ∧ s0.pc 1 = .test ∧ s0.log = [] ∧ s0.exiting = true ∧
    (run [.ok, .ok] s0 [.step 0, .step 1, .step 0, .step 1, .step 0, .step 0]).log = [(0, 0), (0, 1)] := by decide

/-- It does return, if no callback raises anything but `RuntimeError` and no further signal arrives: after its own steps, whatever the
other requests do in between. -/
theorem callbacks_complete_partial (cbs : List Cb) (hcb : Cb.otherError ∉ cbs) (t0 : Nat) (es : List Ev) (hsig : ∀ t, Ev.signal t ∉ es)
    (hn : es.count (.step t0) ≥ cbs.length + 1) : (run cbs {} (List.replicate 4 (.step t0) ++ es)).pc t0 = .done := by
  rw [run_append]
  have key : ∀ (es : List Ev) (s : St) (k : Nat), (∀ t, Ev.signal t ∉ es) →
      ((s.pc t0 = .call k ∧ k ≤ cbs.length ∧ es.count (.step t0) ≥ cbs.length + 1 - k) ∨ s.pc t0 = .done) → (run cbs s es).pc t0 = .done := by
    intro es
    induction es with
    | nil =>
      rintro s k _ (⟨_, hk, hc⟩ | h)
      · simp at hc; omega
      · exact h
    | cons e es ih =>
      rintro s k hs hd
      rw [run]
      have hs' : ∀ t, Ev.signal t ∉ es := fun t h => hs t (by simp [h])
      cases e with
      | signal t => exact absurd (by simp) (hs t)
      | step t =>
        by_cases ht : t = t0
        · subst ht
          rcases hd with ⟨hp, hk, hc⟩ | hp
          · rw [List.count_cons_self] at hc
            have hst : (step cbs s (.step t)).pc t = if k < cbs.length then .call (k + 1) else .done := by
              simp only [step, hp]
              split
              · rename_i hn
                have := List.getElem?_eq_none_iff.1 hn
                rw [if_neg (by omega)]
                simp [setPc]
              · rename_i hn
                exact absurd (List.mem_of_getElem? hn) hcb
              · rename_i hn
                have := (List.getElem?_eq_some_iff.1 hn).1
                rw [if_pos this]
                simp [setPc]
            by_cases hlt : k < cbs.length
            · rw [if_pos hlt] at hst
              exact ih _ (k + 1) hs' (.inl ⟨hst, hlt, by omega⟩)
            · rw [if_neg hlt] at hst
              exact ih _ 0 hs' (.inr hst)
          · exact ih _ 0 hs' (.inr (by simp only [step, hp]))
        · have hcount : (Ev.step t :: es).count (.step t0) = es.count (.step t0) := by
            rw [List.count_cons]
            have : (Ev.step t == Ev.step t0) = false := by simpa using ht
            simp [this]
          rw [hcount] at hd
          have hpc : (step cbs s (.step t)).pc t0 = s.pc t0 := by
            simp only [step]
            repeat' split
            all_goals first | rfl | simp [setPc, Ne.symm ht]
          rcases hd with ⟨hp, hk, hc⟩ | hp
          · exact ih _ k hs' (.inl ⟨by rw [hpc]; exact hp, hk, hc⟩)
          · exact ih _ 0 hs' (.inr (by rw [hpc]; exact hp))
  refine key es _ 0 hsig (.inl ⟨?_, Nat.zero_le _, hn⟩)
  simp [run, step, setPc]

example : (run [.ok, .runtimeError, .ok] {} (List.replicate 4 (.step 7) ++ [.step 2, .step 7, .step 7, .step 3, .step 7, .step 2, .step 7])).log =
    [(7, 0), (7, 1), (7, 2)] := by decide +kernel

/-- The property fails when two requests overlap: there is no lock around the test of the flag, so both threads can pass it, and then
every callback is run twice. -/
theorem callbacks_run_twice : (run [.ok, .ok] {} [.step 0, .step 0, .step 1, .step 1, .step 0, .step 0, .step 0, .step 1, .step 1, .step 1, .step 0, .step 1]).log =
    [(0, 0), (1, 0), (0, 1), (1, 1)] := by decide +kernel

/-- A second signal while the callbacks run ends the clean-up: the remaining callbacks are never run, and threads that wait for the end
of the exit phase (`while softexit.exiting`) wait for ever. This holds for every list of callbacks and every continuation. -/
theorem second_signal_aborts (cbs : List Cb) (t0 : Nat) (es : List Ev) :
    let s := run cbs {} (List.replicate 4 (.step t0) ++ [.signal t0] ++ es)
    s.log = [] ∧ s.exiting = true := by
  rw [run_append, run_append]
  have e : run cbs (run cbs {} (List.replicate 4 (.step t0))) [.signal t0] =
      { triggered := true, exiting := true, pc := fun u => if u = t0 then .dead else .start, log := [] } := by
    simp only [List.replicate, run, step, setPc, if_true, Bool.false_eq_true, if_false]
    congr 1
    funext u
    by_cases h : u = t0 <;> simp [h]
  rw [e]
  have key : ∀ (es : List Ev) (s : St), s.triggered = true → s.exiting = true → (∀ t, s.pc t = .start ∨ s.pc t = .done ∨ s.pc t = .dead) →
      s.log = [] → (run cbs s es).log = [] ∧ (run cbs s es).exiting = true := by
    intro es
    induction es with
    | nil => intro s _ h2 _ h4; exact ⟨h4, h2⟩
    | cons ev es ih =>
      intro s h1 h2 h3 h4
      rw [run]
      cases ev with
      | signal t =>
        have : step cbs s (.signal t) = s := by
          rcases h3 t with h | h | h <;> simp [step, h]
        rw [this]; exact ih s h1 h2 h3 h4
      | step t =>
        rcases h3 t with h | h | h
        · have : step cbs s (.step t) = setPc s t .done := by simp [step, h, h1]
          rw [this]
          refine ih _ h1 h2 ?_ h4
          intro u
          simp only [setPc]
          split
          · exact .inr (.inl rfl)
          · exact h3 u
        · have : step cbs s (.step t) = s := by simp [step, h]
          rw [this]; exact ih s h1 h2 h3 h4
        · have : step cbs s (.step t) = s := by simp [step, h]
          rw [this]; exact ih s h1 h2 h3 h4
  refine key es _ rfl rfl ?_ rfl
  intro t
  by_cases h : t = t0 <;> simp [h]

/-- A callback that raises something other than `RuntimeError` has the same effect on the ones registered after it. -/
theorem fatal_callback_stops (cbs : List Cb) (k : Nat) (hk : cbs[k]? = some .otherError) (t0 : Nat) (es : List Ev) (j : Nat) (hj : k < j) :
    (t0, j) ∉ (run cbs {} (List.replicate 4 (.step t0) ++ es)).log := by
  rw [run_append]
  have h0 : run cbs {} (List.replicate 4 (.step t0)) =
      { triggered := true, exiting := true, pc := fun u => if u = t0 then .call 0 else .start, log := [] } := by
    simp only [List.replicate, run, step, setPc, if_true, Bool.false_eq_true, if_false]
    congr 1
    funext u
    by_cases h : u = t0 <;> simp [h]
  have key : ∀ (es : List Ev) (s : St), s.triggered = true → (∀ t, t ≠ t0 → s.pc t = .start ∨ s.pc t = .done) →
      ((∃ i, i ≤ k ∧ s.pc t0 = .call i) ∨ s.pc t0 = .dead) → (∀ x ∈ s.log, x.2 ≤ k) → ∀ x ∈ (run cbs s es).log, x.2 ≤ k := by
    intro es
    induction es with
    | nil => intro s _ _ _ h; exact h
    | cons ev es ih =>
      intro s h1 h2 h3 h4
      rw [run]
      cases ev with
      | signal t =>
        simp only [step]
        split
        · rename_i i hi
          have : t = t0 := by
            refine Decidable.byContradiction fun hne => ?_
            rcases h2 t hne with h | h <;> rw [hi] at h <;> cases h
          subst this
          exact ih _ h1 (fun u hu => by simp only [setPc, if_neg hu]; exact h2 u hu) (.inr (by simp [setPc])) h4
        · exact ih s h1 h2 h3 h4
      | step t =>
        by_cases ht : t = t0
        · subst ht
          rcases h3 with ⟨i, hi, hp⟩ | hp
          · simp only [step, hp]
            have hlen := (List.getElem?_eq_some_iff.1 hk).1
            split
            · rename_i hn
              have := List.getElem?_eq_none_iff.1 hn
              omega
            · refine ih _ h1 (fun u hu => by simp only [setPc, if_neg hu]; exact h2 u hu) (.inr (by simp [setPc])) ?_
              intro x hx
              simp only [setPc, List.mem_append, List.mem_singleton] at hx
              rcases hx with hx | rfl
              · exact h4 x hx
              · exact hi
            · rename_i c hc hn
              have hne : i ≠ k := fun e => by subst e; rw [hk] at hn; injection hn with hn; exact hc hn.symm
              refine ih _ h1 (fun u hu => by simp only [setPc, if_neg hu]; exact h2 u hu) (.inl ⟨i + 1, by omega, by simp [setPc]⟩) ?_
              intro x hx
              simp only [setPc, List.mem_append, List.mem_singleton] at hx
              rcases hx with hx | rfl
              · exact h4 x hx
              · exact hi
          · have : step cbs s (.step t) = s := by simp [step, hp]
            rw [this]; exact ih s h1 h2 (.inr hp) h4
        · rcases h2 t ht with h | h
          · have : step cbs s (.step t) = setPc s t .done := by simp [step, h, h1]
            rw [this]
            refine ih _ h1 ?_ ?_ h4
            · intro u hu
              simp only [setPc]
              split
              · exact .inr rfl
              · exact h2 u hu
            · have : (setPc s t .done).pc t0 = s.pc t0 := by simp [setPc, Ne.symm ht]
              rw [this]; exact h3
          · have : step cbs s (.step t) = s := by simp [step, h]
            rw [this]; exact ih s h1 h2 h3 h4
  intro hmem
  have := key es _ (by rw [h0]) (by rw [h0]; intro t ht; simp [ht]) (by rw [h0]; exact .inl ⟨0, Nat.zero_le _, by simp⟩) (by rw [h0]; simp) _ hmem
  exact absurd this (by simpa using hj)

end Verif.Softexit
