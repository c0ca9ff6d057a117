import Verif.Wire.Replies
/-
C07. Forces arrive exactly as the driver computed them.
-/
namespace Verif.Wire

/-- Bulk path: the reply for `n` atoms is decoded into the same values and exactly its bytes are consumed, for every way
the stream is cut; the only other outcome is a disconnection after more than 20 timeouts. -/
theorem bulk_roundtrip (n : Nat) (r : Result) (hr : r.Fits n) (hx : Ascii r.extra) (c : Conn UInt8) (hp : Pieces c)
    (rest : Bytes) (hb : bytes c = driverReply n r ++ rest) :
    (∃ c', recvForcesBulk n c = (.ok r, c') ∧ bytes c' = rest) ∨
      ((recvForcesBulk n c).1 = .error .disconnected ∧ 20 < timeouts c) := by
  rcases (ireads_bulk n r hr hx c hp).1 rest hb with ⟨c', h1, h2, _⟩ | ⟨h1, h2⟩
  · exact .inl ⟨c', h1, h2⟩
  · exact .inr ⟨h2 trivial, h1⟩

/-- A driver that dies after sending a proper prefix of its reply is reported as disconnected: no partial result. -/
theorem bulk_truncated (n : Nat) (r : Result) (hr : r.Fits n) (hx : Ascii r.extra) (c : Conn UInt8) (hp : Pieces c)
    (missing : Bytes) (hm : missing ≠ []) (hb : bytes c ++ missing = driverReply n r) :
    (recvForcesBulk n c).1 = .error .disconnected :=
  (ireads_bulk n r hr hx c hp).2 missing hm hb (.inr trivial)

/-- Message-by-message path, when the 12 bytes of the header are delivered together (see C53). -/
theorem getforce_roundtrip (n : Nat) (r : Result) (hr : r.Fits n) (hx : Ascii r.extra) (c : Conn UInt8) (hp : Pieces c)
    (hw : HeaderWhole c) (rest : Bytes) (hb : bytes c = driverReply n r ++ rest) :
    (∃ c', getForce c = (.ok r, c') ∧ bytes c' = rest) ∨
      ((getForce c).1 = .error .disconnected ∧ 20 < timeouts c) := by
  obtain ⟨c1, h1, h2, h3, h4⟩ := recvForceReady_whole c hp hw _ (by rw [hb, driverReply, List.append_assoc])
  have hg : getForce c = recvForceData c1 := by simp [getForce, Reader.bind, h1]
  rw [hg]
  rcases (ireads_forceData n r hr hx c1 h3).1 rest (by simpa using h2) with ⟨c', h5, h6, _⟩ | ⟨h5, h6⟩
  · exact .inl ⟨c', h5, h6⟩
  · exact .inr ⟨h6 trivial, by omega⟩

/-- Batched path: the k-th result of the reply is the k-th result returned, those of the padding are dropped, and exactly
the bytes of the reply are consumed. -/
theorem batch_roundtrip (n nreal : Nat) (rs : List Result) (hn : n < 2 ^ 31) (hr : ∀ r ∈ rs, r.Fits n ∧ Ascii r.extra)
    (c : Conn UInt8) (hp : Pieces c) (rest : Bytes) (hb : bytes c = driverReplyBatch n rs ++ rest) :
    (∃ c', recvForcesBatch rs.length n nreal c = (.ok (rs.take nreal), c') ∧ bytes c' = rest) ∨
      ((recvForcesBatch rs.length n nreal c).1 = .error .disconnected ∧ 20 < timeouts c) := by
  rcases (ireads_batch rs.length n nreal rs rfl hn hr c hp).1 rest hb with ⟨c', h1, h2, _⟩ | ⟨h1, h2⟩
  · exact .inl ⟨c', h1, h2⟩
  · exact .inr ⟨h2 trivial, h1⟩

/-- Successive exchanges on one connection: read one reply per request. -/
def recvMany : List Nat → Reader (List Result)
  | [] => .pure []
  | n :: ns => .bind (recvForcesBulk n) fun r => .bind (recvMany ns) fun rs => .pure (r :: rs)

/-- Any sequence of exchanges stays in sync: each result is the one the driver computed for that exchange, and nothing is
left over at the end. -/
theorem exchanges_in_sync (rs : List (Nat × Result)) (hr : ∀ p ∈ rs, p.2.Fits p.1 ∧ Ascii p.2.extra) (c : Conn UInt8)
    (hp : Pieces c) (rest : Bytes) (hb : bytes c = (rs.flatMap fun p => driverReply p.1 p.2) ++ rest) :
    (∃ c', recvMany (rs.map (·.1)) c = (.ok (rs.map (·.2)), c') ∧ bytes c' = rest) ∨
      ((recvMany (rs.map (·.1)) c).1 = .error .disconnected ∧ 20 < timeouts c) := by
  have key : IReads (recvMany (rs.map (·.1))) (rs.flatMap fun p => driverReply p.1 p.2) (rs.map (·.2)) := by
    clear hb hp
    induction rs with
    | nil => exact Reads.pure _
    | cons p rs ih =>
      have h := hr p (by simp)
      exact (ireads_bulk p.1 p.2 h.1 h.2).bind ((ih (fun q hq => hr q (by simp [hq]))).map rfl)
  rcases (key c hp).1 rest hb with ⟨c', h1, h2, _⟩ | ⟨h1, h2⟩
  · exact .inl ⟨c', h1, h2⟩
  · exact .inr ⟨h2 trivial, h1⟩

/-- The other direction: the driver evaluates exactly the cell and positions i-PI sent. -/
theorem positions_roundtrip (n expect : Nat) (s : Structure) (hs : s.Fits n) (he : expect = 0 ∨ expect = n)
    (c : Conn UInt8) (hp : Pieces c) (ht : timeouts c = 0) (rest : Bytes) (hb : bytes c = posData s ++ rest) :
    ∃ c', drvPosData expect c = (.ok (s.h, s.pos), c') ∧ bytes c' = rest := by
  rcases (dreads_posData n expect s hs he c hp).1 rest hb with ⟨c', h1, h2, _⟩ | ⟨h1, _⟩
  · exact ⟨c', h1, h2⟩
  · omega

/-- Batched positions: the k-th structure evaluated is that of the k-th request, followed by copies of the last one. -/
theorem batch_positions_roundtrip (n batch : Nat) (ss : List Structure) (hne : ss ≠ []) (hl : ss.length ≤ batch)
    (hs : ∀ s ∈ ss, s.Fits n) (hn : n < 2 ^ 31) (c : Conn UInt8) (hp : Pieces c) (ht : timeouts c = 0) (rest : Bytes)
    (hb : bytes c = posDataBatch batch ss ++ rest) :
    ∃ c', drvPosDataBatch batch c =
        (.ok ((ss ++ List.replicate (batch - ss.length) (ss.getLast hne)).map fun s => (s.h, s.pos)), c') ∧
      bytes c' = rest := by
  rcases (dreads_posDataBatch n batch ss hne hl hs hn c hp).1 rest hb with ⟨c', h1, h2, _⟩ | ⟨h1, _⟩
  · exact ⟨c', h1, h2⟩
  · omega

/-! ### Cases meeting the hypotheses -/

def exResult : Result := ⟨0x3ff0000000000000#64, [1, 2, 3], [1, 2, 3, 4, 5, 6, 7, 8, 9], "{\"q\": 1}"⟩

theorem exResult_fits : exResult.Fits 1 := ⟨rfl, rfl, by decide, by decide⟩

theorem exResult_ascii : Ascii exResult.extra := by
  unfold Ascii exResult
  decide

example : ∃ c', recvForcesBulk 1 [.data ((driverReply 1 exResult).take 20), .timeout,
      .data ((driverReply 1 exResult).drop 20 ++ [7])] = (.ok exResult, c') ∧ bytes c' = [7] :=
  ⟨[.data [7]], by decide +kernel, rfl⟩

def exStructure : Structure := ⟨[1, 0, 0, 0, 1, 0, 0, 0, 1], [1, 0, 0, 0, 1, 0, 0, 0, 1], [4, 5, 6]⟩

example : exStructure.Fits 1 := ⟨rfl, rfl, rfl, by decide⟩

end Verif.Wire
