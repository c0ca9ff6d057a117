import Verif.FF.Direct
/-
C58: every request made to a rotation-averaging force field is answered once its sub-requests are.
Fails for one schedule of caller and polling thread (the request is then lost for ever); holds otherwise, although one pass of the
polling thread skips requests.
-/
namespace Verif.Direct

/-! ### the race between `queue` and `poll` -/

/-- The sub-requests are finished by the time the request enters the list, and the polling thread runs before the caller marks the
request as running: the answer is overwritten by "running", the request is no longer in the list, and the caller waits for ever. -/
theorem rotation_request_lost (es : List RotEv) :
    let s := rotRun {} ([.finish, .caller, .poll, .caller] ++ es)
    s.pc = .wait ∧ s.inList = false ∧ s.st = .running := by
  have h : ∀ (es : List RotEv) (s : RotSt), s.pc = .wait ∧ s.inList = false ∧ s.st = .running →
      (rotRun s es).pc = .wait ∧ (rotRun s es).inList = false ∧ (rotRun s es).st = .running := by
    intro es
    induction es with
    | nil => intro s h; exact h
    | cons e es ih =>
      intro s h
      rw [rotRun]
      apply ih
      cases e with
      | caller =>
        have : rotStep s .caller = s := by simp [rotStep, h.1]
        rw [this]; exact h
      | finish => exact h
      | poll =>
        simp only [rotStep, h.2.1]
        simpa using h
  exact h es _ ⟨rfl, rfl, rfl⟩

/-- If the polling thread does not run between the two statements of the caller, then, whatever the rest of the schedule, once the
sub-requests are finished and one more pass has been made the request is answered, and it stays answered. -/
theorem rotation_request_answered_partial (before after : List RotEv) (hb : RotEv.caller ∉ before) (es : List RotEv)
    (hfin : RotEv.finish ∈ before ++ after) :
    (rotRun {} (before ++ [.caller, .caller] ++ after ++ [.poll] ++ es)).st = .done := by
  have happ : ∀ (a b : List RotEv) (s : RotSt), rotRun s (a ++ b) = rotRun (rotRun s a) b := by
    intro a
    induction a with
    | nil => intro b s; rfl
    | cons e a ih => intro b s; exact ih b _
  have hbefore : ∀ (l : List RotEv) (s : RotSt), RotEv.caller ∉ l → s.pc = .append → s.inList = false →
      (rotRun s l).pc = .append ∧ (rotRun s l).inList = false ∧ (rotRun s l).subDone = (s.subDone || decide (RotEv.finish ∈ l)) := by
    intro l
    induction l with
    | nil => intro s _ h1 h2; simp [rotRun, h1, h2]
    | cons e l ih =>
      intro s hl h1 h2
      rw [rotRun]
      have hl' : RotEv.caller ∉ l := fun h => hl (by simp [h])
      cases e with
      | caller => simp at hl
      | finish =>
        obtain ⟨a, b, c⟩ := ih (rotStep s .finish) hl' h1 h2
        exact ⟨a, b, by rw [c]; simp [rotStep]⟩
      | poll =>
        have : rotStep s .poll = s := by simp [rotStep, h2]
        rw [this]
        obtain ⟨a, b, c⟩ := ih s hl' h1 h2
        exact ⟨a, b, by rw [c]; simp⟩
  have hafter : ∀ (l : List RotEv) (s : RotSt), s.pc = .wait → (s.st = .done ∨ s.inList = true) →
      (rotRun s l).pc = .wait ∧ ((rotRun s l).st = .done ∨ (rotRun s l).inList = true) ∧
      (rotRun s l).subDone = (s.subDone || decide (RotEv.finish ∈ l)) ∧ (s.st = .done → (rotRun s l).st = .done) := by
    intro l
    induction l with
    | nil => intro s h1 h2; simp [rotRun, h1, h2]
    | cons e l ih =>
      intro s h1 h2
      rw [rotRun]
      cases e with
      | caller =>
        have : rotStep s .caller = s := by simp [rotStep, h1]
        rw [this]
        obtain ⟨a, b, c, d⟩ := ih s h1 h2
        exact ⟨a, b, by rw [c]; simp, d⟩
      | finish =>
        obtain ⟨a, b, c, d⟩ := ih (rotStep s .finish) h1 h2
        exact ⟨a, b, by rw [c]; simp [rotStep], d⟩
      | poll =>
        simp only [rotStep]
        split
        · obtain ⟨a, b, c, d⟩ := ih { s with st := .done, inList := false } h1 (.inl rfl)
          exact ⟨a, b, by rw [c]; simp, fun _ => d rfl⟩
        · obtain ⟨a, b, c, d⟩ := ih s h1 h2
          exact ⟨a, b, by rw [c]; simp, d⟩
  simp only [happ]
  obtain ⟨b1, b2, b3⟩ := hbefore before {} hb rfl rfl
  generalize rotRun {} before = s0 at b1 b2 b3
  have hm : rotRun s0 [.caller, .caller] = { s0 with pc := .wait, inList := true, st := .running } := by
    simp [rotRun, rotStep, b1]
  rw [hm]
  obtain ⟨a1, a2, a3, _⟩ := hafter after { s0 with pc := .wait, inList := true, st := .running } rfl (.inr rfl)
  generalize rotRun { s0 with pc := .wait, inList := true, st := .running } after = s1 at a1 a2 a3
  have hsub : s1.subDone = true := by
    rw [a3]
    show (s0.subDone || _) = true
    rw [b3]
    rcases List.mem_append.1 hfin with h | h <;> simp [h]
  have hp : (rotRun s1 [.poll]).pc = .wait ∧ (rotRun s1 [.poll]).st = .done := by
    simp only [rotRun, rotStep]
    split
    · exact ⟨a1, rfl⟩
    · rename_i hc
      refine ⟨a1, ?_⟩
      rcases a2 with h | h
      · exact h
      · refine Decidable.byContradiction fun hst => hc ⟨h, hst, hsub⟩
  obtain ⟨_, _, _, d⟩ := hafter es (rotRun s1 [.poll]) hp.1 (.inl hp.2)
  exact d hp.2

example : (rotRun {} [.finish, .poll, .caller, .caller, .poll]).st = .done := by decide

/-! ### the loop over the list -/

/-- One pass removes exactly what it answers, in particular it answers only finished requests, and it keeps the order of the rest. -/
theorem rotPoll_spec (fin : Nat → Bool) : ∀ (fuel i : Nat) (reqs ans : List Nat), reqs.Nodup →
    (∀ r ∈ (rotPoll fin fuel i reqs ans).2, r ∈ ans ∨ (r ∈ reqs ∧ fin r = true)) ∧
    (∀ r ∈ reqs, r ∈ (rotPoll fin fuel i reqs ans).1 ∨ r ∈ (rotPoll fin fuel i reqs ans).2) ∧
    (rotPoll fin fuel i reqs ans).1.Sublist reqs ∧ (∀ r ∈ ans, r ∈ (rotPoll fin fuel i reqs ans).2) := by
  intro fuel
  induction fuel with
  | zero => intro i reqs ans _; exact ⟨fun r h => .inl h, fun r h => .inl h, List.Sublist.refl _, fun r h => h⟩
  | succ fuel ih =>
    intro i reqs ans hn
    rw [rotPoll]
    split
    · exact ⟨fun r h => .inl h, fun r h => .inl h, List.Sublist.refl _, fun r h => h⟩
    · rename_i r hr
      have hmem : r ∈ reqs := List.mem_of_getElem? hr
      split
      · rename_i hf
        obtain ⟨h1, h2, h3, h4⟩ := ih (i + 1) (reqs.erase r) (ans ++ [r]) (hn.erase r)
        refine ⟨?_, ?_, h3.trans List.erase_sublist, fun x hx => h4 x (by simp [hx])⟩
        · intro x hx
          rcases h1 x hx with h | ⟨h, h'⟩
          · rcases List.mem_append.1 h with h | h
            · exact .inl h
            · simp at h; subst h; exact .inr ⟨hmem, hf⟩
          · exact .inr ⟨List.mem_of_mem_erase h, h'⟩
        · intro x hx
          by_cases e : x = r
          · subst e; exact .inr (h4 x (by simp))
          · exact h2 x ((List.mem_erase_of_ne e).2 hx)
      · exact ih _ _ _ hn

theorem rotPoll_first (fin : Nat → Bool) : ∀ (fuel i : Nat) (reqs ans : List Nat), reqs.Nodup →
    (∃ (k : Nat) (r : Nat), i ≤ k ∧ reqs[k]? = some r ∧ fin r = true) → reqs.length < fuel + i →
    (rotPoll fin fuel i reqs ans).1.length < reqs.length := by
  intro fuel
  induction fuel with
  | zero =>
    rintro i reqs ans _ ⟨k, r, hk, hr, _⟩ hf
    have := (List.getElem?_eq_some_iff.1 hr).1
    omega
  | succ fuel ih =>
    rintro i reqs ans hn ⟨k, r, hk, hr, hfr⟩ hf
    rw [rotPoll]
    split
    · rename_i h
      have h1 := List.getElem?_eq_none_iff.1 h
      have h2 := (List.getElem?_eq_some_iff.1 hr).1
      omega
    · rename_i x hx
      split
      · have hs := (rotPoll_spec fin fuel (i + 1) (reqs.erase x) (ans ++ [x]) (hn.erase x)).2.2.1.length_le
        have : (reqs.erase x).length = reqs.length - 1 := List.length_erase_of_mem (List.mem_of_getElem? hx)
        have h2 := (List.getElem?_eq_some_iff.1 hx).1
        omega
      · rename_i hfx
        refine ih (i + 1) reqs ans hn ⟨k, r, ?_, hr, hfr⟩ (by omega)
        by_cases e : k = i
        · subst e; rw [hr] at hx; injection hx with hx; subst hx; exact absurd hfr hfx
        · omega

/-- A pass may skip finished requests (here the second of two), -/
theorem pass_skips : rotPass (fun _ => true) [10, 11] = ([11], [10]) := by decide

/-- but it always answers at least one of them, -/
theorem pass_progress (fin : Nat → Bool) (reqs : List Nat) (hn : reqs.Nodup) (h : ∃ r ∈ reqs, fin r = true) :
    (rotPass fin reqs).1.length < reqs.length := by
  obtain ⟨r, hr, hf⟩ := h
  obtain ⟨k, hk⟩ := List.mem_iff_getElem?.1 hr
  exact rotPoll_first fin _ 0 reqs [] hn ⟨k, r, Nat.zero_le _, hk, hf⟩ (by omega)

/-- `n` passes: what is left in the list and everything answered. -/
def rotPasses (fin : Nat → Bool) : Nat → List Nat → List Nat × List Nat
  | 0, reqs => (reqs, [])
  | n + 1, reqs => ((rotPasses fin n (rotPass fin reqs).1).1, (rotPass fin reqs).2 ++ (rotPasses fin n (rotPass fin reqs).1).2)

/-- so after as many passes as there are requests every finished one has been answered, and only finished ones. -/
theorem passes_answer_all (fin : Nat → Bool) : ∀ (n : Nat) (reqs : List Nat), reqs.Nodup → reqs.length ≤ n →
    ∀ r ∈ reqs, (r ∈ (rotPasses fin n reqs).2 ↔ fin r = true) := by
  intro n
  induction n with
  | zero =>
    intro reqs _ hl r hr
    have := List.length_pos_of_mem hr
    omega
  | succ n ih =>
    intro reqs hn hl r hr
    obtain ⟨h1, h2, h3, _⟩ := rotPoll_spec fin (reqs.length + 1) 0 reqs [] hn
    have hn' : (rotPass fin reqs).1.Nodup := h3.nodup hn
    rw [rotPasses]
    by_cases hex : ∃ r ∈ reqs, fin r = true
    · have hprog := pass_progress fin reqs hn hex
      simp only [List.mem_append]
      constructor
      · rintro (h | h)
        · rcases h1 r h with h | h
          · cases h
          · exact h.2
        · by_cases hrr : r ∈ (rotPass fin reqs).1
          · exact (ih _ hn' (by omega) r hrr).1 h
          · rcases h2 r hr with h' | h'
            · exact absurd h' hrr
            · rcases h1 r h' with h | h
              · cases h
              · exact h.2
      · intro hf
        rcases h2 r hr with h | h
        · exact .inr ((ih _ hn' (by omega) r h).2 hf)
        · exact .inl h
    · have hno : fin r ≠ true := fun h => hex ⟨r, hr, h⟩
      constructor
      · intro h
        exfalso
        rcases List.mem_append.1 h with h | h
        · rcases h1 r h with h | h
          · cases h
          · exact hno h.2
        · -- nothing is ever answered
          have : ∀ (m : Nat) (l : List Nat), l.Nodup → (∀ x ∈ l, fin x ≠ true) → (rotPasses fin m l).2 = [] := by
            intro m
            induction m with
            | zero => intro l _ _; rfl
            | succ m ihm =>
              intro l hl' hx
              obtain ⟨g1, _, g3, _⟩ := rotPoll_spec fin (l.length + 1) 0 l [] hl'
              rw [rotPasses]
              have e : (rotPass fin l).2 = [] := by
                refine List.eq_nil_iff_forall_not_mem.2 fun x hxm => ?_
                rcases g1 x hxm with h | h
                · cases h
                · exact hx x h.1 h.2
              rw [e, ihm (rotPass fin l).1 (g3.nodup hl') (fun x hxm => hx x (g3.subset hxm)), List.append_nil]
          rw [this n _ hn' (fun x hxm hf => hex ⟨x, h3.subset hxm, hf⟩)] at h
          cases h
      · exact fun h => absurd h hno

example : (rotPasses (fun r => r % 2 = 0) 4 [2, 4, 3, 6]).2 = [2, 6, 4] := by decide

end Verif.Direct
