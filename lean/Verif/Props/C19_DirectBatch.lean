import Verif.Props.C20_Requests
/-
C19: every request queued to a direct force field is eventually evaluated, exactly once.
-/
namespace Verif.Direct

theorem markDone_apply : ∀ (l : List Nat) (st : Nat → Status) (i : Nat), markDone st l i = if i ∈ l then .done else st i := by
  intro l
  induction l with
  | nil => intro st i; simp [markDone]
  | cons a l ih =>
    intro st i
    rw [markDone, ih]
    by_cases h : i ∈ l
    · simp [h]
    · by_cases h' : i = a <;> simp [h, h', setSt]

/-- Bookkeeping is exact: done are the requests already given to the potential, running those waiting in the batch, nobody twice; the
batch is never full. -/
structure Inv (bs : Nat) (s : St) : Prop where
  nodup : (s.calls.flatten ++ s.batch).Nodup
  done : ∀ i, s.st i = .done ↔ i ∈ s.calls.flatten
  running : ∀ i, s.st i = .running ↔ i ∈ s.batch
  room : s.batch.length < bs ∨ s.batch = []
  small : bs ≤ 1 → s.batch = []
  fresh : ∀ i, s.next ≤ i → s.st i = .queued

theorem Inv.launch {bs : Nat} {s : St} (h : Inv bs s) : Inv bs (Direct.launch s) := by
  refine ⟨?_, ?_, ?_, .inr rfl, fun _ => rfl, ?_⟩
  · have := h.nodup
    simp only [Direct.launch, List.flatten_cons, List.append_nil]
    rw [List.nodup_append] at this ⊢
    exact ⟨this.2.1, this.1, fun a ha b hb e => this.2.2 b hb a ha e.symm⟩
  · intro i
    simp only [Direct.launch, markDone_apply, List.flatten_cons, List.mem_append]
    by_cases hi : i ∈ s.batch
    · simp [hi]
    · simp only [hi, if_false, false_or]; exact h.done i
  · intro i
    simp only [Direct.launch, markDone_apply, List.not_mem_nil, iff_false]
    by_cases hi : i ∈ s.batch
    · simp [hi]
    · simp only [hi, if_false]; exact fun e => hi ((h.running i).1 e)
  · intro i hi
    simp only [Direct.launch, markDone_apply] at hi ⊢
    have hq := h.fresh i hi
    have : i ∉ s.batch := fun hb => by rw [(h.running i).2 hb] at hq; cases hq
    simp [this, hq]

/-- One turn of the loop on a queued request. -/
theorem Inv.evaluate {bs : Nat} {s : St} (h : Inv bs s) (i : Nat) (hi : s.st i = .queued) (hn : i < s.next) :
    Inv bs (Direct.evaluate bs { s with st := setSt s.st i .running } i) := by
  have hnd : i ∉ s.calls.flatten := fun hm => by rw [(h.done i).2 hm] at hi; cases hi
  have hnb : i ∉ s.batch := fun hm => by rw [(h.running i).2 hm] at hi; cases hi
  have hfr : ∀ (x : Status) (j : Nat), s.next ≤ j → setSt s.st i x j = .queued := by
    intro x j hj
    have : j ≠ i := fun e => by subst e; exact absurd hn (Nat.not_lt.2 hj)
    simp [setSt, this, h.fresh j hj]
  unfold Direct.evaluate
  split
  · rename_i h1
    have hb : s.batch = [] := h.small (Nat.le_of_eq h1)
    refine ⟨?_, ?_, ?_, h.room, h.small, ?_⟩
    · have := h.nodup
      rw [hb, List.append_nil] at this ⊢
      simp only [List.flatten_cons, List.singleton_append, List.nodup_cons]
      exact ⟨hnd, this⟩
    · intro j
      by_cases hj : j = i
      · subst hj; simp [setSt]
      · simp only [setSt, hj, if_false, List.flatten_cons, List.singleton_append, List.mem_cons, false_or]; exact h.done j
    · intro j
      by_cases hj : j = i
      · subst hj; simp [setSt, hnb]
      · simp only [setSt, hj, if_false]; exact h.running j
    · intro j hj
      have : j ≠ i := fun e => by subst e; exact absurd hn (Nat.not_lt.2 hj)
      simp [setSt, this, h.fresh j hj]
  · rename_i h1
    -- the request joins the batch
    have hbig : ∀ (s' : St), s' = { s with st := setSt s.st i .running, batch := s.batch ++ [i] } →
        (s'.calls.flatten ++ s'.batch).Nodup ∧ (∀ j, s'.st j = .done ↔ j ∈ s'.calls.flatten) ∧
        (∀ j, s'.st j = .running ↔ j ∈ s'.batch) ∧ (∀ j, s'.next ≤ j → s'.st j = .queued) := by
      rintro s' rfl
      refine ⟨?_, ?_, ?_, hfr _⟩
      · dsimp only
        rw [← List.append_assoc]
        refine List.nodup_append.2 ⟨h.nodup, by simp, ?_⟩
        intro a ha b hb e
        simp at hb; subst hb; subst e
        rcases List.mem_append.1 ha with ha | ha
        · exact hnd ha
        · exact hnb ha
      · intro j
        by_cases hj : j = i
        · subst hj; simp only [setSt, if_true]; constructor
          · intro e; cases e
          · intro e; exact absurd e hnd
        · simp only [setSt, hj, if_false]; exact h.done j
      · intro j
        by_cases hj : j = i
        · subst hj; simp [setSt]
        · simp only [setSt, hj, if_false, List.mem_append, List.mem_singleton, or_false]; exact h.running j
    obtain ⟨b1, b2, b3, b4⟩ := hbig _ rfl
    dsimp only
    split
    · rename_i hlen
      -- launching: the same computation as in `Inv.launch`, without the size hypotheses
      refine ⟨?_, ?_, ?_, .inr rfl, fun _ => rfl, ?_⟩
      · simp only [Direct.launch, List.flatten_cons, List.append_nil]
        rw [List.nodup_append] at b1 ⊢
        exact ⟨b1.2.1, b1.1, fun a ha b hb e => b1.2.2 b hb a ha e.symm⟩
      · intro j
        simp only [Direct.launch, markDone_apply, List.flatten_cons, List.mem_append (s := s.batch ++ [i])]
        by_cases hj : j ∈ s.batch ++ [i]
        · simp only [hj, if_true, true_or]
        · simp only [hj, if_false, false_or]; exact b2 j
      · intro j
        simp only [Direct.launch, markDone_apply, List.not_mem_nil, iff_false]
        by_cases hj : j ∈ s.batch ++ [i]
        · simp only [hj, if_true]; intro e; cases e
        · simp only [hj, if_false]; exact fun e => hj ((b3 j).1 e)
      · intro j hj
        simp only [Direct.launch, markDone_apply] at hj ⊢
        have hq := b4 j hj
        dsimp only at hq
        have : j ∉ s.batch ++ [i] := fun hb => by
          have := (b3 j).2 hb
          dsimp only at this
          rw [this] at hq; cases hq
        simp only [this, if_false, hq]
    · rename_i hlen
      refine ⟨b1, b2, b3, .inl (Nat.not_le.1 hlen), ?_, b4⟩
      intro hle
      exfalso
      apply hlen
      show bs ≤ (s.batch ++ [i]).length
      rw [List.length_append]
      simp
      omega

theorem Inv.pollLoop {bs : Nat} : ∀ (l : List Nat) (s : St) (b : Bool), Inv bs s → (∀ i ∈ l, i < s.next) →
    Inv bs (Direct.pollLoop bs s b l).1 := by
  intro l
  induction l with
  | nil => intro s b h _; exact h
  | cons i l ih =>
    intro s b h hl
    rw [Direct.pollLoop]
    split
    · rename_i hi
      refine ih _ _ (h.evaluate i hi (hl i (by simp))) ?_
      intro j hj
      rw [(evaluate_reqs _ _ _).2]
      exact hl j (by simp [hj])
    · exact ih _ _ h (fun j hj => hl j (by simp [hj]))

theorem Inv.poll {bs : Nat} {s : St} (h : Inv bs s) (hl : ∀ i ∈ s.reqs, i < s.next) : Inv bs (Direct.poll bs s) := by
  have h1 := h.pollLoop s.reqs s false hl
  unfold Direct.poll
  generalize Direct.pollLoop bs s false s.reqs = p at h1
  obtain ⟨s', new⟩ := p
  dsimp only at h1 ⊢
  have h2 : ∀ k, Inv bs { s' with idle := k } := fun k => ⟨h1.nodup, h1.done, h1.running, h1.room, h1.small, h1.fresh⟩
  generalize (if new = true then 0 else s'.idle + 1) = k
  split
  · split
    · exact (h2 _).launch
    · exact h2 _
  · exact h1

/-- Reachable states satisfy the invariant. -/
theorem reachable (bs : Nat) (threaded : Bool) (os : List Op) :
    Inv bs (run bs threaded {} os) ∧ ∀ i ∈ (run bs threaded {} os).reqs, i < (run bs threaded {} os).next := by
  have key : ∀ (os : List Op) (s : St), Inv bs s → (∀ i ∈ s.reqs, i < s.next) →
      Inv bs (run bs threaded s os) ∧ ∀ i ∈ (run bs threaded s os).reqs, i < (run bs threaded s os).next := by
    intro os
    induction os with
    | nil => intro s h1 h2; exact ⟨h1, h2⟩
    | cons o os ih =>
      intro s h1 h2
      rw [run]
      cases o with
      | queue =>
        have hm : Inv bs { s with next := s.next + 1, reqs := s.reqs ++ [s.next], st := setSt s.st s.next .queued } := by
          have e : setSt s.st s.next .queued = s.st := by
            funext j
            by_cases hj : j = s.next
            · subst hj; simp [setSt, h1.fresh _ (Nat.le_refl _)]
            · simp [setSt, hj]
          rw [e]
          exact ⟨h1.nodup, h1.done, h1.running, h1.room, h1.small, fun i hi => h1.fresh i (Nat.le_of_succ_le hi)⟩
        have hr : ∀ i ∈ s.reqs ++ [s.next], i < s.next + 1 := by
          intro i hi
          rcases List.mem_append.1 hi with hi | hi
          · exact Nat.lt_succ_of_lt (h2 i hi)
          · simp at hi; subst hi; exact Nat.lt_succ_self _
        simp only [step, queue]
        split
        · exact ih _ hm hr
        · refine ih _ (hm.poll hr) ?_
          rw [(poll_reqs _ _).1, (poll_reqs _ _).2]
          exact hr
      | release i =>
        refine ih _ ⟨h1.nodup, h1.done, h1.running, h1.room, h1.small, h1.fresh⟩ ?_
        intro j hj
        exact h2 j (List.mem_of_mem_erase hj)
      | tick =>
        simp only [step, tick]
        split
        · split
          · refine ih _ (h1.poll h2) ?_
            rw [(poll_reqs _ _).1, (poll_reqs _ _).2]
            exact h2
          · exact ih _ h1 h2
        · exact ih _ h1 h2
  exact key os {} ⟨by simp, by simp, by simp, .inr rfl, fun _ => rfl, fun _ _ => rfl⟩ (by intro i h; cases h)

/-- No request is ever given to the potential twice, done are exactly those given to it, and no group is larger than the batch size
(shown for the pending group, from which all calls are made). -/
theorem evaluated_at_most_once (bs : Nat) (threaded : Bool) (os : List Op) :
    (run bs threaded {} os).calls.flatten.Nodup ∧
    ∀ i, (run bs threaded {} os).st i = .done ↔ i ∈ (run bs threaded {} os).calls.flatten :=
  ⟨(List.nodup_append.1 (reachable bs threaded os).1.nodup).1, (reachable bs threaded os).1.done⟩

/-! ### threaded force fields -/

theorem evaluate_not_queued (bs : Nat) (s : St) (i j : Nat) (hj : s.st j ≠ .queued ∨ j = i) :
    (evaluate bs { s with st := setSt s.st i .running } i).st j ≠ .queued := by
  have hr : ∀ x, x ≠ Status.queued → setSt s.st i x j ≠ .queued := by
    intro x hx
    unfold setSt
    split
    · exact hx
    · rename_i h
      rcases hj with hj | hj
      · exact hj
      · exact absurd hj h
  unfold evaluate
  split
  · show setSt (setSt s.st i .running) i .done j ≠ .queued
    by_cases h : j = i
    · simp [setSt, h]
    · have := hr .done (by simp)
      simpa [setSt, h] using this
  · dsimp only
    split
    · simp only [launch, markDone_apply]
      split
      · simp
      · exact hr _ (by simp)
    · exact hr _ (by simp)

theorem pollLoop_not_queued (bs : Nat) : ∀ (l : List Nat) (s : St) (b : Bool) (j : Nat), (s.st j ≠ .queued ∨ j ∈ l) →
    (pollLoop bs s b l).1.st j ≠ .queued := by
  intro l
  induction l with
  | nil => intro s b j h; exact h.resolve_right (by simp)
  | cons i l ih =>
    intro s b j h
    rw [pollLoop]
    split
    · apply ih
      by_cases hji : s.st j ≠ .queued ∨ j = i
      · exact .inl (evaluate_not_queued bs s i j hji)
      · rcases h with h | h
        · exact absurd (.inl h) hji
        · rcases List.mem_cons.1 h with h | h
          · exact absurd (.inr h) hji
          · exact .inr h
    · rename_i hi
      apply ih
      rcases h with h | h
      · exact .inl h
      · rcases List.mem_cons.1 h with h | h
        · subst h; exact .inl hi
        · exact .inr h

theorem poll_not_queued (bs : Nat) (s : St) (j : Nat) (h : s.st j ≠ .queued ∨ j ∈ s.reqs) : (poll bs s).st j ≠ .queued := by
  have h1 := pollLoop_not_queued bs s.reqs s false j h
  unfold poll
  generalize pollLoop bs s false s.reqs = p at h1
  obtain ⟨s', new⟩ := p
  dsimp only at h1 ⊢
  generalize (if new = true then 0 else s'.idle + 1) = k
  split
  · split
    · simp only [launch, markDone_apply]
      split
      · simp
      · exact h1
    · exact h1
  · exact h1

theorem pollLoop_settled (bs : Nat) (s : St) : ∀ (l : List Nat) (b : Bool), (∀ i ∈ l, s.st i ≠ .queued) → pollLoop bs s b l = (s, b) := by
  intro l
  induction l with
  | nil => intro b _; rfl
  | cons i l ih =>
    intro b h
    rw [pollLoop, if_neg (h i (by simp))]
    exact ih b (fun j hj => h j (by simp [hj]))

/-- Once nothing is queued, a poll only advances the idle counter or launches the incomplete batch. -/
theorem poll_settled (bs : Nat) (s : St) (h : ∀ i ∈ s.reqs, s.st i ≠ .queued) (k : Nat) (hk : s.batch = [] ∨ s.idle ≥ k) :
    (poll bs s).batch = [] ∨ ((poll bs s).idle ≥ k + 1 ∧ (poll bs s).idle < bs) ∨ (bs ≤ 1 ∧ (poll bs s).batch = s.batch) := by
  unfold poll
  rw [pollLoop_settled bs s s.reqs false h]
  simp only [Bool.false_eq_true, if_false]
  split
  · rename_i hb
    split
    · exact .inl rfl
    · rename_i hlt
      right; left
      rcases hk with hk | hk
      · rw [hk] at hb; simp at hb
      · simp at hlt ⊢
        omega
  · rename_i hb
    by_cases h1 : bs > 1
    · left
      have : ¬ s.batch.length > 0 := fun h => hb ⟨h1, h⟩
      cases hs : s.batch with
      | nil => rfl
      | cons a l => rw [hs] at this; simp at this
    · exact .inr (.inr ⟨by omega, rfl⟩)

/-- A threaded force field: after any history, `batch_size + 1` further passes of the polling thread suffice for every request that is
still in the list to be done. -/
theorem threaded_all_done (bs : Nat) (os : List Op) (i : Nat) (hi : i ∈ (run bs true {} os).reqs) :
    (run bs true (run bs true {} os) (List.replicate (bs + 1) .tick)).st i = .done := by
  obtain ⟨hinv, hlt⟩ := reachable bs true os
  generalize run bs true {} os = s at hi hinv hlt
  have hne : s.reqs.length > 0 := List.length_pos_of_mem hi
  have hrun : ∀ (n : Nat) (s : St), s.reqs.length > 0 → run bs true s (List.replicate (n + 1) .tick) = poll bs (run bs true s (List.replicate n .tick)) := by
    intro n
    induction n with
    | zero => intro s hs; simp [run, step, tick, hs]
    | succ n ih =>
      intro s hs
      rw [List.replicate_succ, run, ih _ (by simp only [step, tick, if_pos hs, if_true]; rw [(poll_reqs bs s).1]; exact hs)]
      rw [List.replicate_succ, run]
  have key : ∀ n, n ≤ bs → Inv bs (run bs true s (List.replicate (n + 1) .tick)) ∧
      (run bs true s (List.replicate (n + 1) .tick)).reqs = s.reqs ∧ (run bs true s (List.replicate (n + 1) .tick)).next = s.next ∧
      (∀ j ∈ s.reqs, (run bs true s (List.replicate (n + 1) .tick)).st j ≠ .queued) ∧
      ((run bs true s (List.replicate (n + 1) .tick)).batch = [] ∨ ((run bs true s (List.replicate (n + 1) .tick)).idle ≥ n ∧
        (n > 0 → (run bs true s (List.replicate (n + 1) .tick)).idle < bs))) := by
    intro n
    induction n with
    | zero =>
      intro _
      rw [hrun 0 s hne]
      simp only [List.replicate_zero, run]
      exact ⟨hinv.poll hlt, (poll_reqs bs s).1, (poll_reqs bs s).2, fun j hj => poll_not_queued bs s j (.inr hj), .inr ⟨Nat.zero_le _, fun h => absurd h (by decide)⟩⟩
    | succ n ih =>
      intro hn
      rw [hrun (n + 1) s hne]
      obtain ⟨h1, h2, h3, h4, h5⟩ := ih (by omega)
      generalize run bs true s (List.replicate (n + 1) .tick) = t at h1 h2 h3 h4 h5
      refine ⟨h1.poll (by rw [h2, h3]; exact hlt), by rw [(poll_reqs bs t).1, h2], by rw [(poll_reqs bs t).2, h3],
        fun j hj => poll_not_queued bs t j (.inl (h4 j hj)), ?_⟩
      have := poll_settled bs t (by rw [h2]; exact h4) n (h5.imp id (·.1))
      rcases this with h | h | ⟨h, h'⟩
      · exact .inl h
      · exact .inr ⟨h.1, fun _ => h.2⟩
      · exact .inl (by rw [h', h1.small h])
  obtain ⟨h1, h2, _, h4, h5⟩ := key bs (Nat.le_refl _)
  generalize run bs true s (List.replicate (bs + 1) .tick) = t at h1 h2 h4 h5
  have hb : t.batch = [] := by
    rcases h5 with h | ⟨ha, hb⟩
    · exact h
    · by_cases h0 : bs > 0
      · have := hb h0; omega
      · exact h1.small (by omega)
  have h6 := h4 i hi
  have h7 : t.st i ≠ .running := fun e => by have := (h1.running i).1 e; rw [hb] at this; cases this
  cases e : t.st i with
  | done => rfl
  | queued => exact absurd e h6
  | running => exact absurd e h7

/-- Seven requests in batches of three, two of them released early, then passes of the polling thread. -/
example : let s := run 3 true {} [.queue, .queue, .tick, .queue, .queue, .tick, .queue, .release 1, .queue, .queue]
    s.reqs = [0, 2, 3, 4, 5, 6] ∧ s.st 4 = .queued ∧
    (run 3 true s (List.replicate 4 .tick)).calls.reverse = [[0, 1, 2], [3, 4, 5], [6]] := by decide +kernel

/-! ### force fields that are not threaded -/

theorem markDone_range (st : Nat → Status) (l : List Nat) (i : Nat) (h : i ∉ l) : markDone st l i = st i := by
  rw [markDone_apply, if_neg h]

theorem pollLoop_append (bs : Nat) : ∀ (l m : List Nat) (s : St) (b : Bool),
    pollLoop bs s b (l ++ m) = pollLoop bs (pollLoop bs s b l).1 (pollLoop bs s b l).2 m := by
  intro l
  induction l with
  | nil => intro m s b; rfl
  | cons i l ih =>
    intro m s b
    rw [List.cons_append, pollLoop, pollLoop]
    split
    · exact ih _ _ _
    · exact ih _ _ _

/-- After queueing `n` structures, exactly the complete batches have been evaluated. -/
theorem not_threaded_state (bs : Nat) (hbs : bs ≥ 2) : ∀ n, 
    let s := run bs false {} (List.replicate n .queue)
    s.next = n ∧ s.reqs = List.range n ∧ s.idle = 0 ∧ s.batch.length = n % bs ∧
    (∀ i, i < n → ((s.st i = .done ↔ i < n - n % bs) ∧ (i ∈ s.batch ↔ n - n % bs ≤ i))) := by
  have happ : ∀ (n : Nat) (s : St), run bs false s (List.replicate (n + 1) .queue) = queue bs false (run bs false s (List.replicate n .queue)) := by
    intro n
    induction n with
    | zero => intro s; rfl
    | succ n ih => intro s; rw [List.replicate_succ, run, ih]; rfl
  intro n
  induction n with
  | zero => simp [run]
  | succ n ih =>
    obtain ⟨hinv, hlt⟩ := reachable bs false (List.replicate n .queue)
    dsimp only at ih ⊢
    rw [happ]
    generalize run bs false {} (List.replicate n .queue) = s at ih hinv hlt
    obtain ⟨h1, h2, h3, h4, h5⟩ := ih
    have hmod : n % bs < bs := Nat.mod_lt _ (by omega)
    have e0 : setSt s.st s.next .queued = s.st := by
      funext j
      by_cases hj : j = s.next
      · subst hj; simp [setSt, hinv.fresh _ (Nat.le_refl _)]
      · simp [setSt, hj]
    have hnq : ∀ i ∈ s.reqs, s.st i ≠ .queued := by
      intro i hi e
      rw [h2, List.mem_range] at hi
      by_cases hd : i < n - n % bs
      · rw [((h5 i hi).1).2 hd] at e; cases e
      · have := ((h5 i hi).2).2 (by omega)
        rw [(hinv.running i).2 this] at e; cases e
    have hq : s.st s.next = .queued := hinv.fresh _ (Nat.le_refl _)
    have e2 : ∀ i, i < n → i ≠ s.next := fun i hi => by rw [h1]; omega
    have e3 : n ∉ s.batch := fun hm => by have := (hinv.running n).2 hm; rw [h1] at hq; rw [hq] at this; cases this
    -- the loop of the poll
    have hloop : pollLoop bs { s with next := s.next + 1, reqs := s.reqs ++ [s.next] } false (s.reqs ++ [s.next]) =
        (evaluate bs { s with next := s.next + 1, reqs := s.reqs ++ [s.next], st := setSt s.st s.next .running } s.next, true) := by
      rw [pollLoop_append, pollLoop_settled bs { s with next := s.next + 1, reqs := s.reqs ++ [s.next] } s.reqs false hnq]
      rw [pollLoop, if_pos hq]
      rfl
    have hb1 : ¬ bs = 1 := by omega
    have hqueue : queue bs false s =
        if (s.batch ++ [s.next]).length ≥ bs then
          { s with
            next := s.next + 1
            reqs := s.reqs ++ [s.next]
            st := markDone (setSt s.st s.next .running) (s.batch ++ [s.next])
            calls := (s.batch ++ [s.next]) :: s.calls
            batch := []
            idle := 0 }
        else
          { s with
            next := s.next + 1
            reqs := s.reqs ++ [s.next]
            st := setSt s.st s.next .running
            batch := s.batch ++ [s.next]
            idle := 0 } := by
      unfold queue
      simp only [Bool.false_eq_true, if_false]
      rw [e0]
      unfold poll
      rw [hloop]
      unfold evaluate
      rw [if_neg hb1]
      dsimp only
      by_cases hl : (s.batch ++ [s.next]).length ≥ bs
      · rw [if_pos hl, if_pos hl]
        simp [launch]
      · rw [if_neg hl, if_neg hl]
        have : bs > 1 ∧ (s.batch ++ [s.next]).length > 0 := ⟨by omega, by simp⟩
        rw [if_pos this]
        simp
        omega
    rw [hqueue]
    have hlen : (s.batch ++ [s.next]).length = n % bs + 1 := by simp [h4]
    rw [hlen]
    split
    · rename_i hge
      have hm : (n + 1) % bs = 0 := by
        have : n % bs = bs - 1 := by omega
        rw [Nat.add_mod, this]
        have : 1 % bs = 1 := Nat.mod_eq_of_lt (by omega)
        rw [this, show bs - 1 + 1 = bs by omega, Nat.mod_self]
      refine ⟨by simp [h1], by simp [h2, h1, List.range_succ], rfl, by simp [hm], ?_⟩
      intro i hi
      rw [hm]
      refine ⟨?_, ?_⟩
      · simp only [markDone_apply]
        constructor
        · intro _; omega
        · intro _
          by_cases hib : i ∈ s.batch ++ [s.next]
          · rw [if_pos hib]
          · rw [if_neg hib]
            have hne : i ≠ s.next := fun e => hib (by simp [e])
            have hin : i < n := by rw [h1] at hne; omega
            have hib' : i ∉ s.batch := fun h => hib (by simp [h])
            simp only [setSt, hne, if_false]
            refine ((h5 i hin).1).2 ?_
            have := (h5 i hin).2
            rcases Nat.lt_or_ge i (n - n % bs) with h | h
            · exact h
            · exact absurd (this.2 h) hib'
      · simp; omega
    · rename_i hlt'
      have hm : (n + 1) % bs = n % bs + 1 := by
        rw [Nat.add_mod, Nat.mod_eq_of_lt (show 1 < bs by omega)]
        exact Nat.mod_eq_of_lt (by omega)
      have hle : n % bs ≤ n := Nat.mod_le _ _
      refine ⟨by simp [h1], by simp [h2, h1, List.range_succ], rfl, by simp [h4, hm], ?_⟩
      intro i hi
      rw [hm]
      dsimp only
      by_cases hne : i = s.next
      · subst hne
        refine ⟨?_, ?_⟩
        · simp only [setSt, if_true]
          constructor
          · intro e; cases e
          · intro e; omega
        · simp; omega
      · have hin : i < n := by rw [h1] at hne; omega
        refine ⟨?_, ?_⟩
        · simp only [setSt, hne, if_false]
          rw [(h5 i hin).1]; omega
        · rw [List.mem_append, List.mem_singleton]
          simp only [hne, or_false]
          rw [(h5 i hin).2]; omega

/-- A force field that is not threaded evaluates a request only while some later request is being queued. The structures of an
incomplete last batch are never evaluated, however long one waits. -/
theorem not_threaded_hangs (bs : Nat) (hbs : bs ≥ 2) (n i : Nat) (hi : i < n) (hlast : n - n % bs ≤ i) (os : List Op) (hos : Op.queue ∉ os) :
    (run bs false (run bs false {} (List.replicate n .queue)) os).st i ≠ .done := by
  have h := not_threaded_state bs hbs n
  dsimp only at h
  generalize run bs false {} (List.replicate n .queue) = s at h
  have key : ∀ (os : List Op) (s : St), Op.queue ∉ os → (run bs false s os).st = s.st := by
    intro os
    induction os with
    | nil => intro s _; rfl
    | cons o os ih =>
      intro s ho
      rw [run, ih _ (fun h => ho (by simp [h]))]
      cases o with
      | queue => simp at ho
      | release i => rfl
      | tick => rfl
  rw [key os s hos]
  intro e
  have := ((h.2.2.2.2 i hi).1).1 e
  omega

/-- The complete batches are. -/
theorem not_threaded_partial (bs : Nat) (hbs : bs ≥ 2) (n i : Nat) (hi : i < n - n % bs) :
    (run bs false {} (List.replicate n .queue)).st i = .done := by
  have h := not_threaded_state bs hbs n
  dsimp only at h
  exact ((h.2.2.2.2 i (by omega)).1).2 hi

example : (run 4 false {} (List.replicate 6 .queue)).st 5 ≠ .done := by decide +kernel

end Verif.Direct
