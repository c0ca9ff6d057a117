import Verif.Props.C01_FreshReads
/-
C51. Taking a reshaped view of a held array does not change what is read.  False of the code when the array is out of
date: the constructor of the view clears the shared flag without recomputing (`view_makes_stale`).  True when the array
is up to date (`view_harmless_partial`).
-/
namespace Verif.Depend

variable {V : Type}

/-- The property. -/
def ViewHarmless (net : Net V) : Prop :=
  ∀ (v0 : Nat → V) (man0 : Nat → Nat) (ops rest : List (Op V)) (i : Nat),
    net.ManualOk man0 → (∀ op ∈ ops, op.Accepted net) → (∀ op ∈ rest, op.Accepted net) → i < net.size →
    (run net (reshape net i (run net (initState net v0 man0) ops).2) rest).1 =
      (run net (run net (initState net v0 man0) ops).2 rest).1

theorem view_makes_stale : ¬ ViewHarmless exNet := by
  intro h
  have := h (fun _ => 1) (fun _ => 1) [.get 3, .set 0 5] [.get 3] 3 exNet_manual
    (by intro op hop; simp at hop; rcases hop with rfl | rfl <;> simp [Op.Accepted, exNet])
    (by intro op hop; simp at hop; subst hop; simp [Op.Accepted, exNet]) (by decide)
  revert this
  decide +kernel

/-- Missing: views of out-of-date arrays, where it is false. -/
theorem view_harmless_partial (net : Net V) (v0 : Nat → V) (man0 : Nat → Nat) (ops rest : List (Op V)) (i : Nat)
    (hfresh : (run net (initState net v0 man0) ops).2.tainted i = false) :
    (run net (reshape net i (run net (initState net v0 man0) ops).2) rest).1 =
      (run net (run net (initState net v0 man0) ops).2 rest).1 := by
  simp [reshape, hfresh]

/-- A view taken right after a read through the attribute is harmless: this is how the code base uses views. -/
theorem view_after_read (net : Net V) (wf : net.WF) (cov : net.Covered) (v0 : Nat → V) (man0 : Nat → Nat)
    (hm : net.ManualOk man0) (ops rest : List (Op V)) (hops : ∀ op ∈ ops, op.Accepted net)
    (hrest : ∀ op ∈ rest, op.Accepted net) (i : Nat) (hi : i < net.size) :
    (run net (reshape net i (run net (initState net v0 man0) (ops ++ [.get i])).2) rest).1 =
      (Spec.run net (Spec.run net ⟨v0, man0⟩ ops).2 rest).1 := by
  have hinv := (run_good' wf cov _ (inv_init v0 man0 hm) hops).2
  obtain ⟨_, h2, _, h4, _⟩ := get_good wf cov _ i hi _ hinv
  rw [run_append]
  simp only [run, step, reshape, h4]
  exact (run_good' wf cov rest h2 hrest).1

example : (run exNet (initState exNet (fun _ => 1) (fun _ => 1)) [.get 3, .set 0 5, .get 3]).2.tainted 3 = false := by
  decide +kernel

end Verif.Depend
