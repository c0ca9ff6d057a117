import Verif.Props.C06_Framing
import Verif.Props.C07_ForceReply
/-
C07, the other direction: whatever arrives, a result that is accepted is the one written in the bytes that were read, for the
right number of atoms.
-/
namespace Verif.Wire

theorem le_unle : ∀ (bs : List UInt8) (k : Nat), bs.length = k → le k (unle bs) = bs
  | [], k, h => by subst h; rfl
  | b :: bs, k, h => by
    subst h
    have hb := b.toNat_lt
    have h1 : (b.toNat + 256 * unle bs) % 256 = b.toNat := by omega
    have h2 : (b.toNat + 256 * unle bs) / 256 = unle bs := by omega
    simp only [List.length_cons, le, unle, h1, h2]
    rw [le_unle bs bs.length rfl]
    simp

theorem unle_lt : ∀ bs : List UInt8, unle bs < 256 ^ bs.length
  | [] => by simp [unle]
  | b :: bs => by
    have hb := b.toNat_lt
    have := unle_lt bs
    simp only [unle, List.length_cons, Nat.pow_succ]
    omega

theorem encF64_decF64 (bs : List UInt8) (h : bs.length = 8) : encF64 (decF64 bs) = bs := by
  have hl := unle_lt bs
  rw [h] at hl
  have : (BitVec.ofNat 64 (unle bs)).toNat = unle bs := by
    rw [BitVec.toNat_ofNat]
    exact Nat.mod_eq_of_lt (by simpa using hl)
  rw [encF64, decF64, this, le_unle bs 8 h]

theorem encI32_decI32 (bs : List UInt8) (h : bs.length = 4) : encI32 (decI32 bs) = bs := by
  have hl := unle_lt bs
  rw [h] at hl
  have : (BitVec.ofNat 32 (unle bs)).toNat = unle bs := by
    rw [BitVec.toNat_ofNat]
    exact Nat.mod_eq_of_lt (by simpa using hl)
  rw [encI32, decI32, BitVec.ofInt_toInt, this, le_unle bs 4 h]

theorem decF64s_length : ∀ (k : Nat) (bs : List UInt8), (decF64s k bs).length = k
  | 0, _ => rfl
  | k + 1, bs => by simp [decF64s, decF64s_length k]

theorem encF64s_decF64s : ∀ (k : Nat) (bs : List UInt8), 8 * k ≤ bs.length → encF64s (decF64s k bs) = bs.take (8 * k)
  | 0, bs, _ => by simp [decF64s, encF64s]
  | k + 1, bs, h => by
    have h1 : encF64s (decF64s (k + 1) bs) = encF64 (decF64 (bs.take 8)) ++ encF64s (decF64s k (bs.drop 8)) := rfl
    rw [h1, encF64_decF64 _ (by simp; omega), encF64s_decF64s k (bs.drop 8) (by simp; omega)]
    have : 8 * (k + 1) = 8 + 8 * k := by omega
    rw [this, List.take_add]

theorem utf8_utf8? {bs : List UInt8} {s : String} (h : utf8? bs = some s) : utf8 s = bs := by
  unfold utf8? String.fromUTF8? at h
  split at h
  · cases h
    unfold utf8
    simp [String.toUTF8_eq_toByteArray, String.fromUTF8]
  · cases h

/-- A reader that succeeds has consumed exactly `w`. -/
theorem bind_ok {β γ : Type} {r : Reader β} {f : β → Reader γ} {c c' : Conn UInt8} {y : γ}
    (h : Reader.bind r f c = (.ok y, c')) : ∃ x c1, r c = (.ok x, c1) ∧ f x c1 = (.ok y, c') := by
  unfold Reader.bind at h
  split at h
  · rename_i x c1 hx
    exact ⟨x, c1, hx, h⟩
  · cases h

theorem recvall_pieces {n : Nat} {c c' : Conn UInt8} {d : List UInt8} (hp : Pieces c) (h : recvall n c = (.ok d, c')) :
    d.length = n ∧ bytes c = d ++ bytes c' ∧ Pieces c' := by
  have h1 := recvall_never_wrong n c c' hp d h
  refine ⟨h1.1, h1.2, ?_⟩
  rcases recvLoop_spec c hp n 0 [] (by decide) with ⟨_, _, c'', h3, _, h5⟩ | ⟨_, h2⟩
  · have h3' : recvall n c = (.ok ((bytes c).take n), c'') := by simpa [recvall] using h3
    rw [h] at h3'
    simp at h3'
    rw [h3'.2]
    exact h5.1
  · have : (recvall n c).1 = .error .disconnected := h2
    rw [h] at this; cases this

/-- The extra string accepted after an announced length. -/
def ExtraBytes (len : Int) (x : String) (w : Bytes) : Prop :=
  w = utf8 x ∧ (0 < len → ((utf8 x).length : Int) = len) ∧ (len ≤ 0 → x = "")

theorem recvExtra_ok {len : Int} {c c' : Conn UInt8} {x : String} (hp : Pieces c) (h : recvExtra len c = (.ok x, c')) :
    ∃ w, ExtraBytes len x w ∧ bytes c = w ++ bytes c' ∧ Pieces c' := by
  unfold recvExtra at h
  split at h
  · rename_i hpos
    obtain ⟨b, c1, h1, h2⟩ := bind_ok h
    obtain ⟨h3, h4, h5⟩ := recvall_pieces hp h1
    cases hs : utf8? b with
    | some s =>
      simp only [hs] at h2
      cases h2
      refine ⟨b, ⟨(utf8_utf8? hs).symm, fun _ => ?_, fun hl => by omega⟩, h4, h5⟩
      rw [utf8_utf8? hs, h3]
      omega
    | none =>
      simp only [hs] at h2
      cases h2
  · rename_i hpos
    cases h
    exact ⟨[], ⟨by simp [utf8], fun h => absurd h hpos, fun _ => rfl⟩, by simp, hp⟩

/-- **Whatever bytes arrive and however they are cut, a result that is accepted for a structure of `n` atoms was written in
the bytes read, with the atom count `n`, three forces per atom and nine virial entries**, and nothing else has been read. -/
theorem bulk_sound (n : Nat) (c c' : Conn UInt8) (hp : Pieces c) (r : Result) (h : recvForcesBulk n c = (.ok r, c')) :
    r.force.length = 3 * n ∧ r.vir.length = 9 ∧ ∃ len w, ExtraBytes len r.extra w ∧
      bytes c = message "forceready" ++ (encF64 r.pot ++ (encI32 n ++ (encF64s r.force ++ (encF64s r.vir ++
        (encI32 len ++ (w ++ bytes c')))))) := by
  unfold recvForcesBulk at h
  obtain ⟨buf, c1, h1, h2⟩ := bind_ok h
  obtain ⟨hl, hb, hp1⟩ := recvall_pieces hp h1
  simp only at h2
  split at h2
  · cases h2
  · rename_i hm
    split at h2
    · cases h2
    · rename_i hn
      obtain ⟨x, c2, h3, h4⟩ := bind_ok h2
      obtain ⟨w, hw, hb2, _⟩ := recvExtra_ok hp1 h3
      cases h4
      simp only [ne_eq, Decidable.not_not] at hm hn
      refine ⟨decF64s_length _ _, decF64s_length _ _, _, w, hw, ?_⟩
      rw [hb, hb2, ← hm, ← hn]
      rw [encF64_decF64 _ (by simp; omega), encI32_decI32 _ (by simp; omega), encI32_decI32 _ (by simp; omega),
        encF64s_decF64s _ _ (by simp; omega), encF64s_decF64s _ _ (by simp; omega)]
      have e0 : buf = buf.take 12 ++ buf.drop 12 := (List.take_append_drop _ _).symm
      have e1 : buf.drop 12 = (buf.drop 12).take 8 ++ buf.drop 20 := by
        conv => lhs; rw [← List.take_append_drop 8 (buf.drop 12)]
        rw [List.drop_drop]
      have e2 : buf.drop 20 = (buf.drop 20).take 4 ++ buf.drop 24 := by
        conv => lhs; rw [← List.take_append_drop 4 (buf.drop 20)]
        rw [List.drop_drop]
      have e3 : buf.drop 24 = (buf.drop 24).take (8 * (3 * n)) ++ buf.drop (24 + 24 * n) := by
        conv => lhs; rw [← List.take_append_drop (8 * (3 * n)) (buf.drop 24)]
        rw [List.drop_drop]
        congr 2
        omega
      have e4 : buf.drop (24 + 24 * n) = (buf.drop (24 + 24 * n)).take (8 * 9) ++ buf.drop (24 + 24 * n + 72) := by
        conv => lhs; rw [← List.take_append_drop (8 * 9) (buf.drop (24 + 24 * n))]
        rw [List.drop_drop]
      have e5 : (buf.drop (24 + 24 * n + 72)).take 4 = buf.drop (24 + 24 * n + 72) :=
        List.take_of_length_le (by simp; omega)
      have e : buf = buf.take 12 ++ ((buf.drop 12).take 8 ++ ((buf.drop 20).take 4 ++ ((buf.drop 24).take (8 * (3 * n)) ++
          ((buf.drop (24 + 24 * n)).take (8 * 9) ++ (buf.drop (24 + 24 * n + 72)).take 4)))) := by
        rw [e5, ← e4, ← e3, ← e2, ← e1, ← e0]
      conv => lhs; rw [e]
      simp only [List.append_assoc]

/-- **A reply for another number of atoms is never accepted.** -/
theorem bulk_wrong_count (n m : Nat) (hn : n < 2 ^ 31) (hm : m < 2 ^ 31) (hne : m ≠ n) (r : Result) (c : Conn UInt8)
    (hp : Pieces c) (rest : Bytes) (hb : bytes c = driverReply m r ++ rest) (r' : Result) (c' : Conn UInt8) :
    recvForcesBulk n c ≠ (.ok r', c') := by
  intro h
  obtain ⟨_, _, len, w, _, h1⟩ := bulk_sound n c c' hp r' h
  rw [hb, driverReply, List.append_assoc] at h1
  have h2 := List.append_cancel_left h1
  rw [List.append_assoc] at h2
  have h3 := (List.append_inj h2 (by rw [encF64_length, encF64_length])).2
  rw [List.append_assoc] at h3
  have h4 := (List.append_inj h3 (by rw [encI32_length, encI32_length])).1
  have h5 := congrArg decI32 h4
  rw [decI32_encI32 _ (by omega) (by omega), decI32_encI32 _ (by omega) (by omega)] at h5
  omega

theorem recvI32_ok {c c' : Conn UInt8} {i : Int} (hp : Pieces c) (h : recvI32 c = (.ok i, c')) :
    bytes c = encI32 i ++ bytes c' ∧ Pieces c' := by
  obtain ⟨b, c1, h1, h2⟩ := bind_ok h
  obtain ⟨h3, h4, h5⟩ := recvall_pieces hp h1
  cases h2
  rw [encI32_decI32 _ h3]
  exact ⟨h4, h5⟩

theorem recvF64s_ok {k : Nat} {c c' : Conn UInt8} {xs : List F64} (hp : Pieces c) (h : recvF64s k c = (.ok xs, c')) :
    xs.length = k ∧ bytes c = encF64s xs ++ bytes c' ∧ Pieces c' := by
  obtain ⟨b, c1, h1, h2⟩ := bind_ok h
  obtain ⟨h3, h4, h5⟩ := recvall_pieces hp h1
  cases h2
  refine ⟨decF64s_length _ _, ?_, h5⟩
  rw [encF64s_decF64s _ _ (by omega), List.take_of_length_le (by omega)]
  exact h4

theorem recvBatchLoop_ok (nreal : Nat) : ∀ (i : Nat) (ps : List F64) (fs vs : List (List F64)) (c c' : Conn UInt8)
    (rs : List Result), recvBatchLoop nreal i ps fs vs c = (.ok rs, c') →
      ∀ r ∈ rs, r.pot ∈ ps ∧ r.force ∈ fs ∧ r.vir ∈ vs
  | i, p :: ps, f :: fs, v :: vs, c, c', rs, h => by
    unfold recvBatchLoop at h
    obtain ⟨elen, c1, _, h2⟩ := bind_ok h
    obtain ⟨x, c2, _, h3⟩ := bind_ok h2
    obtain ⟨rest, c3, h4, h5⟩ := bind_ok h3
    have ih := recvBatchLoop_ok nreal (i + 1) ps fs vs c2 c3 rest h4
    cases h5
    intro r hr
    split at hr
    · rcases List.mem_cons.1 hr with rfl | hr
      · simp
      · obtain ⟨h1, h2, h3⟩ := ih r hr
        exact ⟨by simp [h1], by simp [h2], by simp [h3]⟩
    · obtain ⟨h1, h2, h3⟩ := ih r hr
      exact ⟨by simp [h1], by simp [h2], by simp [h3]⟩
  | i, [], fs, vs, c, c', rs, h => by
    simp [recvBatchLoop, Reader.pure] at h
    rw [h.1]; simp
  | i, p :: ps, [], vs, c, c', rs, h => by
    simp [recvBatchLoop, Reader.pure] at h
    rw [h.1]; simp
  | i, p :: ps, f :: fs, [], c, c', rs, h => by
    simp [recvBatchLoop, Reader.pure] at h
    rw [h.1]; simp

theorem rows_length {β : Type} (n : Nat) : ∀ (k : Nat) (xs : List β), xs.length = k * n → ∀ r ∈ rows n k xs, r.length = n
  | 0, _, _, r, hr => by simp [rows] at hr
  | k + 1, xs, h, r, hr => by
    rw [Nat.succ_mul] at h
    rcases List.mem_cons.1 hr with rfl | hr
    · simp; omega
    · exact rows_length n k (xs.drop n) (by simp; omega) r hr

/-- Batched replies: every result accepted has three forces per atom and nine virial entries, and the atom count in the
reply is `n`. -/
theorem batch_sound (nbatch n nreal : Nat) (c c' : Conn UInt8) (hp : Pieces c) (rs : List Result)
    (h : recvForcesBatch nbatch n nreal c = (.ok rs, c')) :
    (∀ r ∈ rs, r.force.length = 3 * n ∧ r.vir.length = 9) ∧
      ∃ pots rest, pots.length = nbatch ∧ bytes c = message "forceready" ++ (encF64s pots ++ (encI32 n ++ rest)) := by
  unfold recvForcesBatch at h
  obtain ⟨hdr, c1, h1, h2⟩ := bind_ok h
  obtain ⟨_, b1, p1⟩ := recvall_pieces hp h1
  split at h2
  · cases h2
  · rename_i hm
    obtain ⟨pots, c2, h3, h4⟩ := bind_ok h2
    obtain ⟨l2, b2, p2⟩ := recvF64s_ok p1 h3
    obtain ⟨mlen, c3, h5, h6⟩ := bind_ok h4
    obtain ⟨b3, p3⟩ := recvI32_ok p2 h5
    split at h6
    · cases h6
    · rename_i hn
      obtain ⟨fs, c4, h7, h8⟩ := bind_ok h6
      obtain ⟨l4, _, p4⟩ := recvF64s_ok p3 h7
      obtain ⟨vs, c5, h9, h10⟩ := bind_ok h8
      obtain ⟨l5, _, p5⟩ := recvF64s_ok p4 h9
      have key := recvBatchLoop_ok nreal 0 _ _ _ _ _ _ h10
      simp only [ne_eq, Decidable.not_not] at hm hn
      refine ⟨fun r hr => ?_, pots, bytes c3, l2, ?_⟩
      · obtain ⟨_, hf, hv⟩ := key r hr
        exact ⟨rows_length _ _ _ l4 _ hf, rows_length _ _ _ l5 _ hv⟩
      · rw [b1, b2, b3, hm, hn]

/-- **A batched reply for another number of atoms is never accepted.** -/
theorem batch_wrong_count (n m nreal : Nat) (rs : List Result) (hn : n < 2 ^ 31) (hm : m < 2 ^ 31) (hne : m ≠ n)
    (c : Conn UInt8) (hp : Pieces c) (rest : Bytes) (hb : bytes c = driverReplyBatch m rs ++ rest) (rs' : List Result)
    (c' : Conn UInt8) : recvForcesBatch rs.length n nreal c ≠ (.ok rs', c') := by
  intro h
  obtain ⟨_, pots, rest', hl, h1⟩ := batch_sound rs.length n nreal c c' hp rs' h
  rw [hb, driverReplyBatch, List.append_assoc] at h1
  have h2 := List.append_cancel_left h1
  rw [List.append_assoc] at h2
  have h3 := (List.append_inj h2 (by rw [encF64s_length, encF64s_length, hl]; simp)).2
  rw [List.append_assoc] at h3
  have h4 := (List.append_inj h3 (by rw [encI32_length, encI32_length])).1
  have h5 := congrArg decI32 h4
  rw [decI32_encI32 _ (by omega) (by omega), decI32_encI32 _ (by omega) (by omega)] at h5
  omega

theorem drvRecv_ok {n : Nat} {c c' : Conn UInt8} {d : Bytes} (hp : Pieces c) (ht : timeouts c = 0)
    (h : drvRecv n c = (.ok d, c')) : d.length = n ∧ bytes c = d ++ bytes c' ∧ Pieces c' ∧ timeouts c' = 0 := by
  by_cases hlen : n ≤ (bytes c).length
  · obtain ⟨c1, h1, h2, h3⟩ := (drvLoop_eq hp ht n []).1 hlen
    have h1' : drvRecv n c = (.ok ((bytes c).take n), c1) := by simpa [drvRecv] using h1
    rw [h] at h1'
    cases h1'
    exact ⟨by simp; omega, by rw [h2, List.take_append_drop], h3.1, h3.2⟩
  · have := driver_recv_closed n c hp ht (by omega)
    rw [h] at this
    cases this

/-- **The driver evaluates what it read, for the number of atoms of the earlier calls.** -/
theorem positions_sound (expect : Nat) (c c' : Conn UInt8) (hp : Pieces c) (ht : timeouts c = 0) (cell pos : List F64)
    (h : drvPosData expect c = (.ok (cell, pos), c')) :
    cell.length = 9 ∧ (expect = 0 ∨ pos.length = 3 * expect) ∧ ∃ (ih : List F64) (nat : Int), ih.length = 9 ∧
      pos.length = nat.toNat * 3 ∧
      bytes c = encF64s cell ++ (encF64s ih ++ (encI32 nat ++ (encF64s pos ++ bytes c'))) := by
  have f64s : ∀ {k : Nat} {c c' : Conn UInt8} {xs : List F64}, Pieces c → timeouts c = 0 → drvF64s k c = (.ok xs, c') →
      xs.length = k ∧ bytes c = encF64s xs ++ bytes c' ∧ Pieces c' ∧ timeouts c' = 0 := by
    intro k c c' xs hp ht h
    obtain ⟨b, c1, h1, h2⟩ := bind_ok h
    obtain ⟨h3, h4, h5, h6⟩ := drvRecv_ok hp ht h1
    cases h2
    refine ⟨decF64s_length _ _, ?_, h5, h6⟩
    rw [encF64s_decF64s _ _ (by omega), List.take_of_length_le (by omega)]
    exact h4
  unfold drvPosData at h
  obtain ⟨x1, c1, h1, h2⟩ := bind_ok h
  obtain ⟨l1, b1, p1, t1⟩ := f64s hp ht h1
  obtain ⟨x2, c2, h3, h4⟩ := bind_ok h2
  obtain ⟨l2, b2, p2, t2⟩ := f64s p1 t1 h3
  obtain ⟨nat, c3, h5, h6⟩ := bind_ok h4
  obtain ⟨bb, c3', h5a, h5b⟩ := bind_ok h5
  obtain ⟨l3, b3, p3, t3⟩ := drvRecv_ok p2 t2 h5a
  cases h5b
  split at h6
  · cases h6
  · rename_i hn
    obtain ⟨x4, c4, h7, h8⟩ := bind_ok h6
    obtain ⟨l4, b4, _, _⟩ := f64s p3 t3 h7
    cases h8
    refine ⟨l1, ?_, x2, decI32 bb, l2, l4, ?_⟩
    · rw [l4]
      by_cases he : expect = 0
      · exact .inl he
      · refine .inr ?_
        have : (expect : Int) = decI32 bb := Classical.byContradiction fun hc => hn ⟨he, hc⟩
        omega
    · rw [encI32_decI32 _ l3, b1, b2, b3, b4]

/-! ### Cases meeting the hypotheses -/

/-- A reply for two atoms, of which the count is then read as wrong for one. -/
def exTwo : Result := ⟨0, [1, 2, 3, 4, 5, 6], [1, 2, 3, 4, 5, 6, 7, 8, 9], ""⟩

example : (recvForcesBulk 1 [.data (driverReply 2 exTwo)]).1 = .error .invalidSize := by decide +kernel

example : ∃ c', recvForcesBulk 2 [.data (driverReply 2 exTwo)] = (.ok exTwo, c') := ⟨[], by decide +kernel⟩

end Verif.Wire
