import Verif.Util
/-
Model of the receive loops of `ipi/interfaces/sockets.py` and of the byte-level protocol between i-PI and a socket driver.
-/
namespace Verif.Wire

/-- What the operating system does at successive `recv_into` calls of one side: deliver a piece of the stream, or time
out.  The end of the list is the end of the stream (peer closed).  How the stream is cut into pieces and where timeouts
fall is arbitrary. -/
inductive Ev (α : Type) where
  | data (bs : List α)
  | timeout
deriving DecidableEq, Repr

abbrev Conn (α : Type) := List (Ev α)

variable {α : Type}

/-- The whole stream still to be received. -/
def bytes : Conn α → List α
  | [] => []
  | .data bs :: c => bs ++ bytes c
  | .timeout :: c => bytes c

/-- Outcome of one `recv_into(buf, max)`. -/
inductive Got (α : Type) where
  | got (bs : List α)
  | timeout

/-- `recv_into(buf, max)`: at most `max` bytes of the next piece; a closed peer gives zero bytes. -/
def recvInto (max : Nat) : Conn α → Got α × Conn α
  | [] => (.got [], [])
  | .timeout :: c => (.timeout, c)
  | .data bs :: c => if bs.length ≤ max then (.got bs, c) else (.got (bs.take max), .data (bs.drop max) :: c)

/-- Exceptions of the receiving side: `Disconnected` (sockets.py:63), `InvalidSize` (sockets.py:69),
`UnicodeDecodeError` raised by `bytes.decode`, the driver's `RuntimeError` (driver.py:29,193), and `hang` for a loop that never
ends. -/
inductive Err where
  | disconnected
  | invalidSize
  | unicodeDecode
  | runtimeError
  | hang
deriving DecidableEq, Repr

/-- `NTIMEOUT` (sockets.py:36). -/
def NTIMEOUT : Nat := 20

theorem recvInto_got_len {max : Nat} {c : Conn α} {bs : List α} (h : (recvInto max c).1 = .got bs) :
    bs.length ≤ max := by
  match c with
  | [] => simp [recvInto] at h; subst h; simp
  | .timeout :: c => simp [recvInto] at h
  | .data b :: c =>
    simp only [recvInto] at h
    split at h
    · simp at h; subst h; assumption
    · simp at h; subst h; simp; omega

theorem recvInto_len (max : Nat) (c : Conn α) : (recvInto max c).2.length ≤ c.length := by
  match c with
  | [] => simp [recvInto]
  | .timeout :: c => simp [recvInto]
  | .data b :: c => simp only [recvInto]; split <;> simp

/-- The loop `while bpos < blen` of `recvall` (sockets.py:177-198) and of `_recv_forces_bulk` (sockets.py:695-710,
744-754), which is the same loop; `need = blen - bpos`, `nt = ntimeout`, `acc` the part of the buffer filled so far.
Simplification: the reused scratch buffer is represented by the bytes stored in it. -/
def recvLoop (need nt : Nat) (acc : List α) (c : Conn α) : Except Err (List α) × Conn α :=
  if need = 0 then (.ok acc, c)
  else
    match h : recvInto need c with
    | (.timeout, c') => if nt + 1 > NTIMEOUT then (.error .disconnected, c') else recvLoop need (nt + 1) acc c'
    | (.got bs, c') =>
      if bs.length = 0 then (.error .disconnected, c') else recvLoop (need - bs.length) nt (acc ++ bs) c'
termination_by need + c.length
decreasing_by
  · have h2 : c'.length < c.length := by
      match c with
      | [] => simp [recvInto] at h
      | .timeout :: c => simp [recvInto] at h; subst h; simp
      | .data b :: c => simp only [recvInto] at h; split at h <;> simp at h
    omega
  · have h1 := recvInto_got_len (max := need) (c := c) (bs := bs) (by rw [h])
    have h2 := recvInto_len need c
    rw [h] at h2
    simp only at h2
    omega

/-- `recvall` for a destination of `n` bytes (sockets.py:158-204). -/
def recvall (n : Nat) (c : Conn α) : Except Err (List α) × Conn α := recvLoop n 0 [] c

end Verif.Wire
