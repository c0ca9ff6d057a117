import Verif.Wire.Lemmas
import Verif.Wire.Reads
/-
C06. Message framing does not depend on how the network cuts the stream.
-/
namespace Verif.Wire

variable {α : Type}

/-- If the stream holds `n` bytes and at most 20 timeouts occur before they have all arrived, receiving `n` bytes returns
exactly the first `n` bytes of the stream, and what is left unread is exactly the rest, however the stream is cut. -/
theorem recvall_exact (n : Nat) (c : Conn α) (hp : Pieces c) (hlen : n ≤ (bytes c).length)
    (ht : timeoutsBefore n c ≤ 20) :
    ∃ c', recvall n c = (.ok ((bytes c).take n), c') ∧ bytes c' = (bytes c).drop n := by
  rcases recvLoop_spec c hp n 0 [] (by decide) with ⟨_, _, c', h3, h4, _⟩ | ⟨h1, _⟩
  · exact ⟨c', by simpa [recvall] using h3, h4⟩
  · exact absurd ⟨hlen, by simpa [NTIMEOUT] using ht⟩ h1

/-- If the peer closes before `n` bytes have been sent, or more than 20 timeouts occur, a disconnection is reported. -/
theorem recvall_disconnected (n : Nat) (c : Conn α) (hp : Pieces c)
    (h : (bytes c).length < n ∨ 20 < timeoutsBefore n c) : (recvall n c).1 = .error .disconnected := by
  rcases recvLoop_spec c hp n 0 [] (by decide) with ⟨h1, h2, _⟩ | ⟨_, h2⟩
  · simp [NTIMEOUT] at h2; omega
  · exact h2

/-- Whatever happens, data that is returned is the first `n` bytes of the stream: never truncated, never shifted. -/
theorem recvall_never_wrong (n : Nat) (c c' : Conn α) (hp : Pieces c) (d : List α)
    (h : recvall n c = (.ok d, c')) : d.length = n ∧ bytes c = d ++ bytes c' := by
  rcases recvLoop_spec c hp n 0 [] (by decide) with ⟨h1, h2, c'', h3, h4, _⟩ | ⟨_, h2⟩
  · have h3' : recvall n c = (.ok ((bytes c).take n), c'') := by simpa [recvall] using h3
    rw [h] at h3'
    simp at h3'
    obtain ⟨rfl, rfl⟩ := h3'
    exact ⟨by simp; omega, by rw [h4, List.take_append_drop]⟩
  · have : (recvall n c).1 = .error .disconnected := h2
    rw [h] at this; cases this

/-- Two ways of cutting the same stream, with timeouts below the limit, are indistinguishable. -/
theorem recvall_cut_independent (n : Nat) (c₁ c₂ : Conn α) (h₁ : Pieces c₁) (h₂ : Pieces c₂)
    (hb : bytes c₁ = bytes c₂) (ht₁ : timeoutsBefore n c₁ ≤ 20) (ht₂ : timeoutsBefore n c₂ ≤ 20) :
    (recvall n c₁).1 = (recvall n c₂).1 := by
  by_cases hlen : n ≤ (bytes c₁).length
  · obtain ⟨_, h1, _⟩ := recvall_exact n c₁ h₁ hlen ht₁
    obtain ⟨_, h2, _⟩ := recvall_exact n c₂ h₂ (hb ▸ hlen) ht₂
    rw [h1, h2, hb]
  · rw [recvall_disconnected n c₁ h₁ (.inl (by omega)), recvall_disconnected n c₂ h₂ (.inl (by rw [← hb]; omega))]

/-- The receive loop of the python driver returns exactly the first `n` bytes, on a socket that does not time out (the
driver never sets a timeout). -/
theorem driver_recv_exact (n : Nat) (c : Conn UInt8) (hp : Pieces c) (ht : timeouts c = 0) (hlen : n ≤ (bytes c).length) :
    ∃ c', drvRecv n c = (.ok ((bytes c).take n), c') ∧ bytes c' = (bytes c).drop n := by
  obtain ⟨c', h1, h2, _⟩ := (drvLoop_eq hp ht n []).1 hlen
  exact ⟨c', by simpa [drvRecv] using h1, h2⟩

/-- The driver reports a peer that closes early. -/
theorem driver_recv_closed (n : Nat) (c : Conn UInt8) (hp : Pieces c) (ht : timeouts c = 0) (hlen : (bytes c).length < n) :
    (drvRecv n c).1 = .error .runtimeError :=
  (drvLoop_eq hp ht n []).2 hlen

/-- If a timeout were set on the driver's socket (for instance through `socket.setdefaulttimeout`), its receive loop would
return wrong data: one timeout makes it skip a byte. -/
theorem driver_recv_timeout_corrupts :
    drvRecv 2 [.data [1], .timeout, .data [2, 3]] = (.ok [1, 0], [Ev.data [2, 3]]) := by decide +kernel

/-! ### Cases meeting the hypotheses -/

example : recvall 4 [.data [1, 2], .timeout, .data [3], .timeout, .data [4, 5, 6]] =
    (.ok [1, 2, 3, 4], [Ev.data [5, 6]]) := by decide +kernel

example : (recvall 4 [.data [1, 2], .timeout, .data [3]]).1 = .error .disconnected := by decide +kernel

example : Pieces [Ev.data [1, 2], .timeout, .data [3], .timeout, .data [4, 5, 6]] ∧
    timeoutsBefore 4 [Ev.data [1, 2], .timeout, .data [3], .timeout, .data [4, 5, 6]] = 2 := by
  refine ⟨?_, rfl⟩
  intro bs h
  simp at h
  rcases h with rfl | rfl | rfl <;> simp

end Verif.Wire
