import Verif.Wire.Model
namespace Verif.Wire

variable {α : Type}

/-- Pieces delivered are not empty (an empty receive means the peer closed). -/
def Pieces (c : Conn α) : Prop := ∀ bs, Ev.data bs ∈ c → bs ≠ []

/-- Number of timeouts that occur before `n` bytes have been delivered. -/
def timeoutsBefore : Nat → Conn α → Nat
  | _, [] => 0
  | n, .timeout :: c => if n = 0 then 0 else timeoutsBefore n c + 1
  | n, .data bs :: c => if n = 0 then 0 else timeoutsBefore (n - bs.length) c

/-- Number of timeouts in all. -/
def timeouts : Conn α → Nat
  | [] => 0
  | .timeout :: c => timeouts c + 1
  | .data _ :: c => timeouts c

end Verif.Wire
