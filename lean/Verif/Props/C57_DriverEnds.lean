import Verif.Driver.Lemmas
/-
C57: the driver process ends when i-PI goes away. Holds after an EXIT message, fails when the connection is just closed.
-/
namespace Verif.Driver
variable {P R : Type}

/-- An EXIT message ends the loop at once, in every state; nothing is read or sent after it. -/
theorem exit_ends_partial (cfg : Cfg P R) (s : St P R) (hs : s.exited = false) (ms : List (Msg P)) :
    run cfg s (.exit :: ms) = .ok ({ s with exited := true }, []) := by
  cases ms <;> simp [run, hs, step]

/-- When the connection is closed every read returns an empty header at once. The driver never stops reading: for every number
of reads it is still in its loop, in the same state (a busy loop). -/
theorem closed_connection_spins (cfg : Cfg P R) (s : St P R) (hs : s.exited = false) (n : Nat) :
    run cfg s (List.replicate n .other) = .ok (s, []) ∧ s.exited = false := by
  refine ⟨?_, hs⟩
  induction n with
  | zero => rfl
  | succ n ih => rw [List.replicate_succ, run]; simp [hs, step, ih]

end Verif.Driver
