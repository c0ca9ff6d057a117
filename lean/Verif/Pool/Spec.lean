import Verif.Pool.Model
/-
What users rely on, stated on the state of the scheduler.
-/
namespace Verif.Pool
variable {V : Type}

/-- Request `k` waits to be sent: nobody is working on it. -/
def Waiting (s : St V) (k : Key) : Prop :=
  s.status k = .queued ∧ ∀ c ∈ s.clients, k ∉ c.sent

/-- Request `k` is being evaluated by client `c`: the scheduler has it on record for `c`, the client is connected, and the
driver at the other end was sent the structure of `k`. -/
def RunningOn (s : St V) (k : Key) (c : Client) : Prop :=
  s.status k = .running ∧ c ∈ s.clients ∧ c.st.up = true ∧ k ∈ c.sent ∧ ∃ ks, (ks, c.cid) ∈ s.jobs ∧ k ∈ ks

/-- Request `k` has been answered, with the answer for its own structure. -/
def Answered (cfg : Cfg V) (s : St V) (k : Key) : Prop :=
  s.status k = .done ∧ s.result k = some (cfg.eval k) ∧ ∀ c ∈ s.clients, k ∉ c.sent

end Verif.Pool
