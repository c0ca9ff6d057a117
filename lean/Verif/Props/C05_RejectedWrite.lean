import Verif.Props.C01_FreshReads
/-
C05. A rejected assignment to a computed quantity has no effect.  False of the code: the value is overwritten before the
assignment is rejected (`rejected_write_corrupts`).  It is true when the quantity happens to be out of date at that
moment (`rejected_write_harmless_partial`).
-/
namespace Verif.Depend

variable {V : Type}

/-- The property: a rejected assignment is reported and changes no later result. -/
def RejectedWriteHarmless (net : Net V) : Prop :=
  ∀ (v0 : Nat → V) (man0 : Nat → Nat) (ops rest : List (Op V)) (i : Nat) (v : V) (p : Prog V),
    net.ManualOk man0 → (∀ op ∈ ops, op.Accepted net) → (∀ op ∈ rest, op.Accepted net) → i < net.size →
    net.kind i = .computed p →
    (run net (initState net v0 man0) (ops ++ [.set i v] ++ rest)).1 =
      (run net (initState net v0 man0) ops).1 ++ [.setRes .nameError] ++
        (run net (run net (initState net v0 man0) ops).2 rest).1

/-- The code violates it, on a well-formed network with exact declarations. -/
theorem rejected_write_corrupts : ¬ RejectedWriteHarmless exNet := by
  intro h
  have := h (fun _ => 1) (fun _ => 1) [.get 3] [.get 3] 3 77 _ exNet_manual
    (by intro op hop; simp at hop; subst hop; simp [Op.Accepted, exNet])
    (by intro op hop; simp at hop; subst hop; simp [Op.Accepted, exNet]) (by decide) rfl
  revert this
  decide +kernel

/-- What the later read returns is the rejected value. -/
theorem rejected_write_is_read : (run exNet (initState exNet (fun _ => 1) (fun _ => 1)) [.get 3, .set 3 77, .get 3]).1 =
    [.got 2, .setRes .nameError, .got 77] := by decide +kernel

/-- Partial: the rejected assignment is always reported, and is harmless whenever the quantity is out of date when it is
attempted.  Missing: the case of an up-to-date quantity, where it is false. -/
theorem rejected_write_harmless_partial (net : Net V) (wf : net.WF) (cov : net.Covered) (v0 : Nat → V)
    (man0 : Nat → Nat) (hm : net.ManualOk man0) (ops rest : List (Op V)) (hops : ∀ op ∈ ops, op.Accepted net)
    (hrest : ∀ op ∈ rest, op.Accepted net) (i : Nat) (v : V) (p : Prog V) (hk : net.kind i = .computed p)
    (hstale : (run net (initState net v0 man0) ops).2.tainted i = true) :
    (run net (initState net v0 man0) (ops ++ [.set i v] ++ rest)).1 =
      (run net (initState net v0 man0) ops).1 ++ [.setRes .nameError] ++
        (run net (run net (initState net v0 man0) ops).2 rest).1 := by
  have hinv := (run_good' wf cov _ (inv_init v0 man0 hm) hops).2
  rw [run_append, run_append]
  have hstep : run net (run net (initState net v0 man0) ops).2 [.set i v] =
      ([.setRes .nameError], (run net (initState net v0 man0) ops).2.setVal i v) := by
    simp [run, step, set, hk]
  rw [hstep]
  simp only
  rw [(run_good' wf cov rest (inv_reject hinv v hstale) hrest).1, (run_good' wf cov rest hinv hrest).1]

example : (run exNet (initState exNet (fun _ => 1) (fun _ => 1)) [.get 3, .set 0 4]).2.tainted 3 = true := by
  decide +kernel

end Verif.Depend
