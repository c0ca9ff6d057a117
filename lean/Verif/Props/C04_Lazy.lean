import Verif.Props.C01_FreshReads
/-
C04. Nothing is recomputed unless an input changed.  Evaluations are counted per object (`State.evals`).
-/
namespace Verif.Depend

variable {V : Type}

/-- After any history `ops` followed by a read of `j`, operations that do not assign anything `j` depends on - other
reads included - never evaluate `j` again. -/
theorem evaluated_once_per_change (net : Net V) (wf : net.WF) (cov : net.Covered) (v0 : Nat → V) (man0 : Nat → Nat)
    (hm : net.ManualOk man0) (ops rest : List (Op V)) (hops : ∀ op ∈ ops, op.Accepted net)
    (hrest : ∀ op ∈ rest, op.Accepted net) (j : Nat) (hj : j < net.size)
    (hun : ∀ x v, Op.set x v ∈ rest → ¬ net.Affects x j) :
    (run net (initState net v0 man0) (ops ++ [.get j] ++ rest)).2.evals j =
      (run net (initState net v0 man0) (ops ++ [.get j])).2.evals j := by
  rw [run_append]
  have hops' : ∀ op ∈ ops ++ [Op.get j], op.Accepted net := by
    intro op hop; rcases List.mem_append.1 hop with h | h
    · exact hops op h
    · simp at h; subst h; exact hj
  have hinv := (run_good' wf cov _ (inv_init v0 man0 hm) hops').2
  have hclean : (run net (initState net v0 man0) (ops ++ [.get j])).2.tainted j = false := by
    rw [run_append]
    have hinv0 := (run_good' wf cov _ (inv_init v0 man0 hm) hops).2
    obtain ⟨_, _, _, h4, _⟩ := get_good wf cov _ j hj _ hinv0
    simpa [run, step] using h4
  exact (run_keeps wf cov rest hinv hrest hun hclean).2

/-- Any number of reads of any objects, in any order, after any history, evaluates each object at most once. -/
theorem reads_evaluate_at_most_once (net : Net V) (wf : net.WF) (cov : net.Covered) (v0 : Nat → V) (man0 : Nat → Nat)
    (hm : net.ManualOk man0) (ops : List (Op V)) (hops : ∀ op ∈ ops, op.Accepted net)
    (is : List Nat) (his : ∀ i ∈ is, i < net.size) (j : Nat) :
    (run net (initState net v0 man0) (ops ++ is.map Op.get)).2.evals j ≤
      (run net (initState net v0 man0) ops).2.evals j + 1 := by
  rw [run_append]
  have hinv := (run_good' wf cov _ (inv_init v0 man0 hm) hops).2
  rcases (run_reads_once wf cov is hinv his).evals j with h | ⟨_, _, h⟩ <;> simp only [h] <;> omega

/-- An immediate second read does nothing at all. -/
theorem second_read_free (net : Net V) (wf : net.WF) (cov : net.Covered) (v0 : Nat → V) (man0 : Nat → Nat)
    (hm : net.ManualOk man0) (ops : List (Op V)) (hops : ∀ op ∈ ops, op.Accepted net) (j : Nat) (hj : j < net.size) :
    (run net (initState net v0 man0) (ops ++ [.get j, .get j])).2 =
      (run net (initState net v0 man0) (ops ++ [.get j])).2 := by
  rw [run_append, run_append]
  have hinv := (run_good' wf cov _ (inv_init v0 man0 hm) hops).2
  obtain ⟨_, _, _, h4, _⟩ := get_good wf cov _ j hj _ hinv
  simp only [run, step]
  conv => lhs; rw [get]
  simp [h4]

/-! ### A case meeting the hypotheses: positions (1) are reassigned, the scaled mass (3) is not re-evaluated. -/

example : (run exNet (initState exNet (fun _ => 1) (fun _ => 1))
    ([.set 0 4] ++ [.get 3] ++ [.set 1 7, .get 5, .get 4, .get 3])).2.evals 3 = 1 := by decide +kernel

theorem exNet_reach3 {x j : Nat} (h : exNet.Reach x j) (hj : j = 3) : x = 0 := by
  cases h with
  | direct _ _ hd => subst hj; simpa [exNet] using hd
  | step k _ hk _ hd =>
    subst hj
    have hk0 : k = 0 := by simpa [exNet] using hd
    subst hk0
    exact absurd (Reach.lt exNet_wf hk).1 (by omega)

example : (run exNet (initState exNet (fun _ => 1) (fun _ => 1))
      ([.set 0 4] ++ [.get 3] ++ [.set 1 7, .get 5, .get 4, .get 3])).2.evals 3 =
    (run exNet (initState exNet (fun _ => 1) (fun _ => 1)) ([.set 0 4] ++ [.get 3])).2.evals 3 := by
  refine evaluated_once_per_change exNet exNet_wf (exNet_exact.covered exNet_wf) _ _ exNet_manual _ _ ?_ ?_ 3
    (by decide) ?_
  · intro op hop; simp at hop; subst hop; simp [Op.Accepted, exNet]
  · intro op hop; simp at hop; rcases hop with rfl | rfl | rfl | rfl <;> simp [Op.Accepted, exNet]
  · intro x v hx
    simp at hx
    obtain ⟨rfl, rfl⟩ := hx
    rintro (h | ⟨g, c, q, c', _, _, hq, h⟩)
    · have := exNet_reach3 h rfl; omega
    · rcases h with rfl | h
      · simp [exNet] at hq
      · have := exNet_reach3 h rfl
        subst this
        simp [exNet] at hq

end Verif.Depend
