import Verif.Wire.Spec
namespace Verif.Wire

variable {α : Type}

theorem Pieces.tail {e : Ev α} {c : Conn α} (h : Pieces (e :: c)) : Pieces c :=
  fun bs hb => h bs (by simp [hb])

theorem timeoutsBefore_zero (c : Conn α) : timeoutsBefore 0 c = 0 := by
  match c with
  | [] => rfl
  | .timeout :: c => simp [timeoutsBefore]
  | .data _ :: c => simp [timeoutsBefore]

theorem timeoutsBefore_le (n : Nat) (c : Conn α) : timeoutsBefore n c ≤ timeouts c := by
  induction c generalizing n with
  | nil => simp [timeoutsBefore]
  | cons e c ih =>
    cases e with
    | timeout => simp only [timeoutsBefore, timeouts]; split <;> have := ih n <;> omega
    | data bs => simp only [timeoutsBefore, timeouts]; split <;> have := ih (n - bs.length) <;> omega

/-- Complete description of the loop. -/
theorem recvLoop_spec (c : Conn α) (hp : Pieces c) : ∀ (need nt : Nat) (acc : List α), nt ≤ NTIMEOUT →
    (need ≤ (bytes c).length ∧ nt + timeoutsBefore need c ≤ NTIMEOUT ∧
      ∃ c', recvLoop need nt acc c = (.ok (acc ++ (bytes c).take need), c') ∧ bytes c' = (bytes c).drop need ∧
        Pieces c' ∧ timeouts c = timeoutsBefore need c + timeouts c') ∨
    ((¬ (need ≤ (bytes c).length ∧ nt + timeoutsBefore need c ≤ NTIMEOUT)) ∧
      (recvLoop need nt acc c).1 = .error .disconnected) := by
  induction c with
  | nil =>
    intro need nt acc hnt
    by_cases h0 : need = 0
    · left
      subst h0
      refine ⟨by simp, by simpa [timeoutsBefore] using hnt, [], ?_, by simp [bytes], hp, by simp [timeouts, timeoutsBefore]⟩
      rw [recvLoop]; simp
    · right
      refine ⟨fun h => ?_, ?_⟩
      · have := h.1; simp [bytes] at this; omega
      · rw [recvLoop]; simp [h0, recvInto]
  | cons e c ih =>
    intro need nt acc hnt
    by_cases h0 : need = 0
    · left
      subst h0
      refine ⟨by simp, by simpa [timeoutsBefore_zero] using hnt, e :: c, ?_, by simp, hp, by simp [timeoutsBefore_zero]⟩
      rw [recvLoop]; simp
    · cases e with
      | timeout =>
        have hb : bytes (Ev.timeout :: c) = bytes c := rfl
        have ht : timeoutsBefore need (Ev.timeout :: c) = timeoutsBefore need c + 1 := by
          simp [timeoutsBefore, h0]
        by_cases hn : nt + 1 > NTIMEOUT
        · right
          refine ⟨fun h => ?_, ?_⟩
          · have := h.2; rw [ht] at this; omega
          · rw [recvLoop]; simp [h0, recvInto, hn]
        · have hstep : recvLoop need nt acc (Ev.timeout :: c) = recvLoop need (nt + 1) acc c := by
            conv => lhs; rw [recvLoop]
            simp [h0, recvInto, hn]
          rw [hstep, hb, ht]
          rcases ih hp.tail need (nt + 1) acc (by omega) with ⟨h1, h2, c', h3, h4, h5, h6⟩ | ⟨h1, h2⟩
          · left; exact ⟨h1, by omega, c', h3, h4, h5, by simp only [timeouts]; omega⟩
          · right; exact ⟨fun h => h1 ⟨h.1, by omega⟩, h2⟩
      | data bs =>
        have hne : bs ≠ [] := hp bs (by simp)
        have hlen : 0 < bs.length := List.length_pos_iff.2 hne
        have hb : bytes (Ev.data bs :: c) = bs ++ bytes c := rfl
        have ht : timeoutsBefore need (Ev.data bs :: c) = timeoutsBefore (need - bs.length) c := by
          simp [timeoutsBefore, h0]
        by_cases hle : bs.length ≤ need
        · have hstep : recvLoop need nt acc (Ev.data bs :: c) = recvLoop (need - bs.length) nt (acc ++ bs) c := by
            conv => lhs; rw [recvLoop]
            simp only [h0, if_false]
            split
            · rename_i h; simp [recvInto, hle] at h
            · rename_i h; simp [recvInto, hle] at h
              obtain ⟨rfl, rfl⟩ := h
              simp [hne]
          rw [hstep, hb, ht]
          rcases ih hp.tail (need - bs.length) nt (acc ++ bs) hnt with ⟨h1, h2, c', h3, h4, h5, h6⟩ | ⟨h1, h2⟩
          · left
            refine ⟨by simp; omega, h2, c', ?_, ?_, h5, by simp only [timeouts]; omega⟩
            · rw [h3, List.take_append, List.take_of_length_le hle]; simp
            · rw [h4, List.drop_append, List.drop_of_length_le hle]; simp
          · right; exact ⟨fun h => h1 ⟨by have := h.1; simp at this; omega, h.2⟩, h2⟩
        · left
          have hlt : need < bs.length := by omega
          have hz : need - bs.length = 0 := by omega
          have htk : (bs.take need).length = need := by simp; omega
          refine ⟨by simp [hb]; omega, by rw [ht, hz, timeoutsBefore_zero]; omega, .data (bs.drop need) :: c,
            ?_, ?_, ?_, ?_⟩
          · conv => lhs; rw [recvLoop]
            simp only [h0, if_false]
            split
            · rename_i h; simp [recvInto, hle] at h
            · rename_i h; simp only [recvInto, hle, if_false] at h
              simp at h
              obtain ⟨rfl, rfl⟩ := h
              simp only [htk, h0, if_false]
              rw [show need - need = 0 by omega, recvLoop]
              simp only [if_true]
              rw [hb, List.take_append, hz, List.take_zero, List.append_nil]
          · simp only [bytes]
            rw [List.drop_append, hz]; simp
          · intro b hb'
            rcases List.mem_cons.1 hb' with h | h
            · cases h
              intro hnil
              have := congrArg List.length hnil
              simp at this; omega
            · exact hp b (by simp [h])
          · rw [ht, hz, timeoutsBefore_zero]; simp [timeouts]

end Verif.Wire
