import Verif.FF.Direct
/-
C20: queue and release keep the list of pending requests exact, for every interleaving.
-/
namespace Verif.Direct

/-- The requests created and not yet released, in order of creation, read off the history alone: `n` counts the creations. -/
def pending : List Op → List Nat → Nat → List Nat
  | [], l, _ => l
  | .queue :: os, l, n => pending os (l ++ [n]) (n + 1)
  | .release i :: os, l, n => pending os (l.filter (· ≠ i)) n
  | .tick :: os, l, n => pending os l n

theorem evaluate_reqs (bs : Nat) (s : St) (i : Nat) : (evaluate bs s i).reqs = s.reqs ∧ (evaluate bs s i).next = s.next := by
  unfold evaluate
  split
  · exact ⟨rfl, rfl⟩
  · dsimp only
    split
    · exact ⟨rfl, rfl⟩
    · exact ⟨rfl, rfl⟩

theorem pollLoop_reqs (bs : Nat) : ∀ (l : List Nat) (s : St) (b : Bool),
    (pollLoop bs s b l).1.reqs = s.reqs ∧ (pollLoop bs s b l).1.next = s.next := by
  intro l
  induction l with
  | nil => intro s b; exact ⟨rfl, rfl⟩
  | cons i l ih =>
    intro s b
    rw [pollLoop]
    split
    · have := ih (evaluate bs { s with st := setSt s.st i .running } i) true
      have h2 := evaluate_reqs bs { s with st := setSt s.st i .running } i
      exact ⟨this.1.trans h2.1, this.2.trans h2.2⟩
    · exact ih s b

theorem poll_reqs (bs : Nat) (s : St) : (poll bs s).reqs = s.reqs ∧ (poll bs s).next = s.next := by
  have h := pollLoop_reqs bs s.reqs s false
  unfold poll
  generalize pollLoop bs s false s.reqs = p at h
  obtain ⟨s', new⟩ := p
  dsimp only at h ⊢
  repeat' split
  all_goals exact h

/-- After any history of queue, release (also of requests already released, or never queued) and polling, threaded or not, with any
batch size, the list holds exactly the pending requests, in order. -/
theorem requests_exact (bs : Nat) (threaded : Bool) (os : List Op) : (run bs threaded {} os).reqs = pending os [] 0 ∧
    (run bs threaded {} os).reqs.Nodup := by
  have key : ∀ (os : List Op) (s : St), s.reqs.Nodup → (∀ i ∈ s.reqs, i < s.next) →
      (run bs threaded s os).reqs = pending os s.reqs s.next ∧ (run bs threaded s os).reqs.Nodup := by
    intro os
    induction os with
    | nil => intro s h1 _; exact ⟨rfl, h1⟩
    | cons o os ih =>
      intro s h1 h2
      rw [run]
      cases o with
      | queue =>
        have hr : (step bs threaded s .queue).reqs = s.reqs ++ [s.next] ∧ (step bs threaded s .queue).next = s.next + 1 := by
          simp only [step, queue]
          split
          · exact ⟨rfl, rfl⟩
          · exact poll_reqs _ _
        have := ih (step bs threaded s .queue) (by
          rw [hr.1]
          refine List.nodup_append.2 ⟨h1, by simp, ?_⟩
          intro a ha b hb
          simp at hb; subst hb
          exact Nat.ne_of_lt (h2 a ha)) (by
          rw [hr.1, hr.2]
          intro i hi
          rcases List.mem_append.1 hi with hi | hi
          · exact Nat.lt_succ_of_lt (h2 i hi)
          · simp at hi; subst hi; exact Nat.lt_succ_self _)
        rw [hr.1, hr.2] at this
        exact this
      | release i =>
        have hr : (step bs threaded s (.release i)).reqs = s.reqs.filter (· ≠ i) := by
          simp only [step, release]
          rw [List.Nodup.erase_eq_filter h1]
          apply List.filter_congr
          intro a _
          by_cases h : a = i <;> simp [h]
        have := ih (step bs threaded s (.release i)) (by rw [hr]; exact h1.filter _) (by
          rw [hr]; intro j hj; exact h2 j ((List.mem_filter.1 hj).1))
        rw [hr] at this
        exact this
      | tick =>
        have hr : (step bs threaded s .tick).reqs = s.reqs ∧ (step bs threaded s .tick).next = s.next := by
          simp only [step, tick]
          split
          · split
            · exact poll_reqs bs s
            · exact ⟨rfl, rfl⟩
          · exact ⟨rfl, rfl⟩
        have := ih (step bs threaded s .tick) (by rw [hr.1]; exact h1) (by rw [hr.1, hr.2]; exact h2)
        rw [hr.1, hr.2] at this
        exact this
  exact key os {} List.nodup_nil (by intro i h; cases h)

/-- Releasing a second time changes nothing. -/
theorem release_twice (bs : Nat) (threaded : Bool) (os : List Op) (i : Nat) :
    run bs threaded {} (os ++ [.release i, .release i]) = run bs threaded {} (os ++ [.release i]) := by
  have happ : ∀ (a b : List Op) (s : St), run bs threaded s (a ++ b) = run bs threaded (run bs threaded s a) b := by
    intro a
    induction a with
    | nil => intro b s; rfl
    | cons o a ih => intro b s; exact ih b _
  rw [happ, happ]
  have hn := (requests_exact bs threaded os).2
  generalize run bs threaded {} os = s at hn
  simp only [run, step, release]
  have : ((s.reqs.erase i).erase i) = s.reqs.erase i := by
    apply List.erase_of_not_mem
    rw [List.Nodup.mem_erase_iff hn]
    simp
  rw [this]

example : (run 3 true {} [.queue, .queue, .tick, .release 0, .queue, .release 0, .release 7, .tick, .queue]).reqs = [1, 2, 3] := by
  decide +kernel

end Verif.Direct
