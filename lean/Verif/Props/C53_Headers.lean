import Verif.Props.C07_ForceReply
/-
C53. Message headers are recognised however the network cuts them: false of the code, which reads headers with a single
`recv(12)` (sockets.py:148-156, 438-457; driver.py:100).
-/
namespace Verif.Wire

/-- `_getstatus_select` after the socket became readable (sockets.py:275-303): one `recv(12)`; the status flags are those
of sockets.py:102-108. `none` means a socket exception or timeout inside `recv`. -/
inductive StatusReply where
  | disconnected | ready | needsInit | hasData | up | busyTimeout
deriving DecidableEq

def readStatus (c : Conn UInt8) : StatusReply × Conn UInt8 :=
  match recvInto 12 c with
  | (.timeout, c') => (.busyTimeout, c')
  | (.got reply, c') =>
    (if reply.length ≠ 12 then .disconnected
     else if reply = message "ready" then .ready
     else if reply = message "needinit" then .needsInit
     else if reply = message "havedata" then .hasData
     else .up, c')

/-- A FORCEREADY header cut in two is thrown away and the reply is never found: i-PI waits forever although the driver
sent its whole reply. -/
theorem header_cut_hangs :
    getForce [.data ((driverReply 0 ⟨0, [], List.replicate 9 0, ""⟩).take 5),
      .data ((driverReply 0 ⟨0, [], List.replicate 9 0, ""⟩).drop 5)] = (.error .hang, []) := by decide +kernel

/-- A status reply cut in two disconnects a healthy client. -/
theorem status_cut_disconnects :
    (readStatus [.data ((message "ready").take 5), .data ((message "ready").drop 5)]).1 = .disconnected := by
  decide +kernel

/-- If the driver dies before answering GETFORCE, the message-by-message path never returns (the end of the stream is
compared with a string instead of bytes). -/
theorem eof_hangs (c : Conn UInt8) (h : bytes c = []) : (recvForceReady c).1 = .error .hang := by
  induction c with
  | nil => rw [recvForceReady]
  | cons e c ih =>
    cases e with
    | timeout => rw [recvForceReady]; exact ih h
    | data bs =>
      simp only [bytes, List.append_eq_nil_iff] at h
      obtain ⟨rfl, h⟩ := h
      have : ([] : Bytes) ≠ message "forceready" := by decide +kernel
      rw [recvForceReady]
      simp only [List.length_nil, Nat.zero_le, if_true, this, if_false]
      exact ih h

/-- What does hold: a header delivered in one piece is recognised, and what follows it is left unread. Missing for the
full property: headers delivered in several pieces. -/
theorem header_whole_partial (c : Conn UInt8) (hp : Pieces c) (hw : HeaderWhole c) (rest : Bytes)
    (hb : bytes c = message "forceready" ++ rest) :
    ∃ c', recvForceReady c = (.ok (), c') ∧ bytes c' = rest := by
  obtain ⟨c', h1, h2, _⟩ := recvForceReady_whole c hp hw rest hb
  exact ⟨c', h1, h2⟩

/-- The three status replies are told apart when delivered in one piece. -/
theorem status_whole_partial (bs : Bytes) (c : Conn UInt8) :
    (bs = message "ready" → readStatus (.data bs :: c) = (.ready, c)) ∧
    (bs = message "needinit" → readStatus (.data bs :: c) = (.needsInit, c)) ∧
    (bs = message "havedata" → readStatus (.data bs :: c) = (.hasData, c)) := by
  have h1 : (message "ready").length = 12 := by decide +kernel
  have h2 : (message "needinit").length = 12 := by decide +kernel
  have h3 : (message "havedata").length = 12 := by decide +kernel
  have n1 : message "needinit" ≠ message "ready" := by decide +kernel
  have n2 : message "havedata" ≠ message "ready" := by decide +kernel
  have n3 : message "havedata" ≠ message "needinit" := by decide +kernel
  refine ⟨?_, ?_, ?_⟩ <;> rintro rfl <;> unfold readStatus recvInto <;> simp [h1, h2, h3, n1, n2, n3]

example : HeaderWhole [.timeout, .data (message "forceready" ++ [1, 2])] := by
  show 12 ≤ (message "forceready" ++ [1, 2]).length
  decide +kernel

end Verif.Wire
