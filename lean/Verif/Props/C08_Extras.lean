import Verif.Props.C07_ForceReply
/-
C08. The extra string may contain any text: false of the code, because the driver announces the length in characters and
sends the UTF-8 bytes (driver.py:254-255), while i-PI reads as many bytes as announced.
-/
namespace Verif.Wire

/-- For every extra string with a character outside ASCII, the reply is never decoded with exactly its bytes consumed:
either an exception is raised, or bytes of this reply are left in front of the next one. -/
theorem extras_nonascii_desync (n : Nat) (r : Result) (hr : r.Fits n) (hx : ¬ Ascii r.extra) (c : Conn UInt8)
    (hp : Pieces c) (rest : Bytes) (hb : bytes c = driverReply n r ++ rest) :
    (∃ e, (recvForcesBulk n c).1 = .error e) ∨
    ∃ r' c' left, recvForcesBulk n c = (.ok r', c') ∧ left ≠ [] ∧ bytes c' = left ++ rest :=
  bulk_nonascii n r hr hx c hp rest hb

/-- "é" is cut in the middle of the character: decoding fails. -/
theorem extras_decode_error :
    (recvForcesBulk 0 [.data (driverReply 0 ⟨0, [], List.replicate 9 0, "é"⟩)]).1 = .error .unicodeDecode := by
  decide +kernel

/-- With "éa" the first exchange silently returns a truncated string and the next exchange fails. -/
theorem extras_next_exchange_lost :
    ∃ c', recvForcesBulk 0 [.data (driverReply 0 ⟨0, [], List.replicate 9 0, "éa"⟩ ++
          driverReply 0 ⟨0, [], List.replicate 9 0, ""⟩)] = (.ok ⟨0, [], List.replicate 9 0, "é"⟩, c') ∧
      (recvForcesBulk 0 c').1 = .error .disconnected :=
  ⟨[.data (97 :: driverReply 0 ⟨0, [], List.replicate 9 0, ""⟩)], by decide +kernel, by decide +kernel⟩

/-- What does hold: ASCII strings. Missing for the full property: any character outside ASCII. -/
theorem extras_ascii_partial (n : Nat) (r : Result) (hr : r.Fits n) (hx : Ascii r.extra) (c : Conn UInt8) (hp : Pieces c)
    (ht : timeouts c ≤ 20) (rest : Bytes) (hb : bytes c = driverReply n r ++ rest) :
    ∃ r' c', recvForcesBulk n c = (.ok r', c') ∧ r'.extra = r.extra ∧ bytes c' = rest := by
  rcases bulk_roundtrip n r hr hx c hp rest hb with ⟨c', h1, h2⟩ | ⟨_, h⟩
  · exact ⟨r, c', h1, rfl, h2⟩
  · omega

example : ¬ Ascii "é" := by unfold Ascii; decide

end Verif.Wire
