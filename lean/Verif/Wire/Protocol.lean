import Verif.Wire.Codec
/-
The messages exchanged between i-PI and the python driver, as they are written and as they are read.
-/
namespace Verif.Wire

abbrev Bytes := List UInt8

/-- A receiving operation on one side of a connection. -/
def Reader (β : Type) := Conn UInt8 → Except Err β × Conn UInt8

namespace Reader

def pure {β : Type} (x : β) : Reader β := fun c => (.ok x, c)

def fail {β : Type} (e : Err) : Reader β := fun c => (.error e, c)

def bind {β γ : Type} (r : Reader β) (f : β → Reader γ) : Reader γ := fun c =>
  match r c with
  | (.ok x, c') => f x c'
  | (.error e, c') => (.error e, c')

instance : Monad Reader where
  pure := pure
  bind := bind

end Reader

/-- What a driver returns for one structure: `pot, force, vir, extras` (driver.py:198), arrays flattened. -/
structure Result where
  pot : F64
  force : List F64
  vir : List F64
  extra : String
deriving DecidableEq

/-! ### What is written -/

/-- The reply to GETFORCE of the python driver (driver.py:230-257), for a result that passes the size checks.
`np.int32(len(extras))` is the length in characters. Simplification: `sock.send` of `send_data` is taken to send
everything, as `sendall` does. -/
def driverReply (nat : Nat) (r : Result) : Bytes :=
  message "forceready" ++ (encF64 r.pot ++ (encI32 nat ++ (encF64s r.force ++ (encF64s r.vir ++
    (encI32 r.extra.length ++ utf8 r.extra)))))

/-- The length-prefixed extra strings of a batched reply (driver.py:224-227). -/
def batchExtras (rs : List Result) : Bytes := rs.flatMap fun r => encI32 r.extra.length ++ utf8 r.extra

/-- The reply to GETFORCE for a batch (driver.py:209-228). -/
def driverReplyBatch (nat : Nat) (rs : List Result) : Bytes :=
  message "forceready" ++ (encF64s (rs.map (·.pot)) ++ (encI32 nat ++ (encF64s (rs.flatMap (·.force)) ++
    (encF64s (rs.flatMap (·.vir)) ++ batchExtras rs))))

/-- A structure sent to a driver: cell, inverse cell (nine numbers each) and positions (three per atom). -/
structure Structure where
  h : List F64
  ih : List F64
  pos : List F64
deriving DecidableEq

/-- `sendpos` (sockets.py:404-412), without the header, which the driver reads separately. -/
def posData (s : Structure) : Bytes :=
  encF64s s.h ++ (encF64s s.ih ++ (encI32 (s.pos.length / 3 : Nat) ++ encF64s s.pos))

/-- Payload of `dispatch_send_batch` (sockets.py:801-811) without the headers, after padding with the last request
(sockets.py:796-798). -/
def posDataBatch (batch : Nat) (ss : List Structure) : Bytes :=
  let padded := ss ++ List.replicate (batch - ss.length) (ss.getLastD ⟨[], [], []⟩)
  encI32 ((padded.head?.map (·.pos.length / 3)).getD 0 : Nat) ++
    (encF64s (padded.flatMap fun s => s.h ++ s.ih) ++ encF64s (padded.flatMap (·.pos)))

/-- Payload of `initialize` (sockets.py:371-384) without the header: replica index, length of the parameter string in
characters, and the string. Simplification: the batch announcement appended to the string is part of `pars`. -/
def initData (rid : Int) (pars : String) : Bytes := encI32 rid ++ (encI32 pars.length ++ utf8 pars)

/-! ### What is read by i-PI -/

/-- `recvall(np.float64())`. -/
def recvF64 : Reader F64 := .bind (recvall 8) fun b => .pure (decF64 b)

/-- `recvall(np.zeros(k, np.float64))`. -/
def recvF64s (k : Nat) : Reader (List F64) := .bind (recvall (8 * k)) fun b => .pure (decF64s k b)

/-- `recvall(np.int32())`. -/
def recvI32 : Reader Int := .bind (recvall 4) fun b => .pure (decI32 b)

/-- The extra string (sockets.py:474-485, 733-757, 898-905): nothing is read if the announced length is not positive. -/
def recvExtra (len : Int) : Reader String :=
  if len > 0 then
    .bind (recvall len.toNat) fun b => match utf8? b with
      | some s => .pure s
      | none => .fail .unicodeDecode
  else .pure ""

/-- `_recv_force_data` (sockets.py:459-486), before `parse_extra`.  Simplification: a negative atom count (numpy then raises
`ValueError`) is treated as zero. -/
def recvForceData : Reader Result :=
  .bind recvF64 fun pot =>
  .bind recvI32 fun mlen =>
  .bind (recvF64s (3 * mlen).toNat) fun f =>
  .bind (recvF64s 9) fun vir =>
  .bind recvI32 fun elen =>
  .bind (recvExtra elen) fun x =>
  .pure ⟨pot, f, vir, x⟩

/-- `_recv_forceready` (sockets.py:430-457): `recv(12)` until a piece equal to the FORCEREADY header arrives; timeouts are
retried without limit.  At the end of the stream `recv` returns `b""`, which is not equal to `""`, so the loop goes on
forever. -/
def recvForceReady (c : Conn UInt8) : Except Err Unit × Conn UInt8 :=
  match c with
  | [] => (.error .hang, [])
  | .timeout :: c => recvForceReady c
  | .data bs :: c =>
    if bs.length ≤ 12 then
      if bs = message "forceready" then (.ok (), c) else recvForceReady c
    else if bs.take 12 = message "forceready" then (.ok (), .data (bs.drop 12) :: c)
    else recvForceReady (.data (bs.drop 12) :: c)
termination_by (bytes c).length + c.length
decreasing_by all_goals simp_all [bytes] <;> omega

/-- `getforce` after GETFORCE has been sent (sockets.py:499-505). -/
def getForce : Reader Result := .bind recvForceReady fun _ => recvForceData

/-- `_recv_forces_bulk` (sockets.py:670-759), before `parse_extra`. -/
def recvForcesBulk (natoms : Nat) : Reader Result :=
  .bind (recvall (12 + 8 + 4 + 24 * natoms + 72 + 4)) fun buf =>
  if buf.take 12 ≠ message "forceready" then .fail .disconnected
  else
    let mu := decF64 ((buf.drop 12).take 8)
    let mlen := decI32 ((buf.drop 20).take 4)
    if mlen ≠ natoms then .fail .invalidSize
    else
      let mf := decF64s (3 * natoms) (buf.drop 24)
      let mvir := decF64s 9 (buf.drop (24 + 24 * natoms))
      let elen := decI32 ((buf.drop (24 + 24 * natoms + 72)).take 4)
      .bind (recvExtra elen) fun x => .pure ⟨mu, mf, mvir, x⟩

/-- Cut a flat array of `k * n` numbers into `k` rows of `n`. -/
def rows {β : Type} (n : Nat) : Nat → List β → List (List β)
  | 0, _ => []
  | k + 1, xs => xs.take n :: rows n k (xs.drop n)

/-- The loop over the structures of a batched reply (sockets.py:895-911): all extras are read, the first `nreal`
structures are returned. -/
def recvBatchLoop (nreal : Nat) : Nat → List F64 → List (List F64) → List (List F64) → Reader (List Result)
  | i, p :: ps, f :: fs, v :: vs =>
    .bind recvI32 fun elen =>
    .bind (recvExtra elen) fun x =>
    .bind (recvBatchLoop nreal (i + 1) ps fs vs) fun rest =>
    .pure (if i < nreal then ⟨p, f, v, x⟩ :: rest else rest)
  | _, _, _, _ => .pure []

/-- `_recv_forces_bulk_batch` (sockets.py:863-911), before `parse_extra`. -/
def recvForcesBatch (nbatch natoms nreal : Nat) : Reader (List Result) :=
  .bind (recvall 12) fun hdr =>
  if hdr ≠ message "forceready" then .fail .disconnected
  else
    .bind (recvF64s nbatch) fun pots =>
    .bind recvI32 fun mlen =>
    if mlen ≠ natoms then .fail .invalidSize
    else
      .bind (recvF64s (nbatch * (3 * natoms))) fun fs =>
      .bind (recvF64s (nbatch * 9)) fun vs =>
      recvBatchLoop nreal 0 pots (rows (3 * natoms) nbatch fs) (rows 9 nbatch vs)

/-! ### What is read by the driver -/

/-- The loop of `recv_data` (driver.py:14-35).  After a timeout `bpart` is still 1, so the position advances by one over a
byte that was not received (the buffer was zeroed). -/
def drvLoop (need : Nat) (acc : Bytes) (c : Conn UInt8) : Except Err Bytes × Conn UInt8 :=
  if need = 0 then (.ok acc, c)
  else
    match h : recvInto need c with
    | (.timeout, c') => drvLoop (need - 1) (acc ++ [0]) c'
    | (.got bs, c') =>
      if bs.length = 0 then (.error .runtimeError, c') else drvLoop (need - bs.length) (acc ++ bs) c'
termination_by need
decreasing_by
  · omega
  · have h1 := recvInto_got_len (max := need) (c := c) (bs := bs) (by rw [h])
    omega

def drvRecv (n : Nat) : Reader Bytes := drvLoop n []

def drvF64s (k : Nat) : Reader (List F64) := .bind (drvRecv (8 * k)) fun b => .pure (decF64s k b)

def drvI32 : Reader Int := .bind (drvRecv 4) fun b => .pure (decI32 b)

/-- POSDATA branch (driver.py:183-198): `expect` is the number of atoms of earlier calls, if any.  Simplification:
`len(pos) == 0` before the first call, so zero atoms is treated as no earlier call, as in the code. -/
def drvPosData (expect : Nat) : Reader (List F64 × List F64) :=
  .bind (drvF64s 9) fun cell =>
  .bind (drvF64s 9) fun _ =>
  .bind drvI32 fun nat =>
  if expect ≠ 0 ∧ (expect : Int) ≠ nat then .fail .runtimeError
  else .bind (drvF64s (nat.toNat * 3)) fun pos => .pure (cell, pos)

/-- Batched POSDATA branch (driver.py:168-182): the structures handed to the driver as (cell, positions). -/
def drvPosDataBatch (batch : Nat) : Reader (List (List F64 × List F64)) :=
  .bind drvI32 fun nat =>
  .bind (drvF64s (batch * 18)) fun cells =>
  .bind (drvF64s (batch * (nat.toNat * 3))) fun pos =>
  .pure (List.zip ((rows 18 batch cells).map (·.take 9)) (rows (nat.toNat * 3) batch pos))

/-- INIT branch (driver.py:107-124): replica index and the bytes of the parameter string. -/
def drvInit : Reader (Int × Bytes) :=
  .bind drvI32 fun rid =>
  .bind drvI32 fun len =>
  .bind (drvRecv len.toNat) fun b => .pure (rid, b)

end Verif.Wire
