import Verif.Wire.Lemmas
import Verif.Wire.Protocol
/-
A small calculus: `Reads lim strict r b x` says that reader `r` turns the bytes `b` into `x`, for every way the bytes are cut
into pieces, and consumes exactly `b`.
-/
namespace Verif.Wire

/-- Outcome "ok with `x`, exactly `rest` left". -/
def OkWith {β : Type} (r : Reader β) (c : Conn UInt8) (x : β) (rest : Bytes) : Prop :=
  ∃ c', r c = (.ok x, c') ∧ bytes c' = rest ∧ Pieces c' ∧ timeouts c' ≤ timeouts c

/-- `lim` is the number of timeouts tolerated; beyond it, if `strict`, the only other outcome is `e`. -/
def Reads {β : Type} (lim : Nat) (strict : Prop) (e : Err) (r : Reader β) (b : Bytes) (x : β) : Prop :=
  ∀ c, Pieces c →
    (∀ rest, bytes c = b ++ rest → OkWith r c x rest ∨ (lim < timeouts c ∧ (strict → (r c).1 = .error e))) ∧
    (∀ t, t ≠ [] → bytes c ++ t = b → timeouts c ≤ lim ∨ strict → (r c).1 = .error e)

theorem Reads.pure {β : Type} {lim : Nat} {strict : Prop} {e : Err} (x : β) : Reads lim strict e (Reader.pure x) [] x := by
  intro c hp
  refine ⟨fun rest h => .inl ⟨c, rfl, by simpa using h, hp, Nat.le_refl _⟩, fun t ht h => ?_⟩
  simp at h; exact absurd h.2 ht

theorem Reads.bind {β γ : Type} {lim : Nat} {strict : Prop} {e : Err} {r : Reader β} {f : β → Reader γ} {b b' : Bytes}
    {x : β} {y : γ} (h1 : Reads lim strict e r b x) (h2 : Reads lim strict e (f x) b' y) :
    Reads lim strict e (Reader.bind r f) (b ++ b') y := by
  intro c hp
  obtain ⟨h1a, h1b⟩ := h1 c hp
  refine ⟨fun rest hb => ?_, fun t ht hb hl => ?_⟩
  · rcases h1a (b' ++ rest) (by rw [hb]; simp) with ⟨c', hr, hb', hp', ht'⟩ | ⟨hl, hs⟩
    · rcases (h2 c' hp').1 rest hb' with ⟨c'', hr2, hb2, hp2, ht2⟩ | ⟨hl, hs⟩
      · left; exact ⟨c'', by simp [Reader.bind, hr, hr2], hb2, hp2, by omega⟩
      · right; exact ⟨by omega, fun hst => by simp [Reader.bind, hr, hs hst]⟩
    · right
      refine ⟨hl, fun hst => ?_⟩
      have := hs hst
      unfold Reader.bind
      split
      · rename_i heq; rw [heq] at this; cases this
      · rename_i heq; rw [heq] at this; cases this; rfl
  · have key : ∀ a, bytes c = b ++ a → b' = a ++ t → ((Reader.bind r f) c).1 = .error e := by
      intro a ha hb'
      rcases h1a a ha with ⟨c', hr, hbc, hp', ht'⟩ | ⟨hl', hs⟩
      · have := (h2 c' hp').2 t ht (by rw [hbc, hb']) (by rcases hl with h | h; exact .inl (by omega); exact .inr h)
        simp [Reader.bind, hr, this]
      · have hst : strict := by rcases hl with h | h; omega; exact h
        have := hs hst
        unfold Reader.bind
        split
        · rename_i heq; rw [heq] at this; cases this
        · rename_i heq; rw [heq] at this; cases this; rfl
    rcases List.append_eq_append_iff.1 hb with ⟨a, ha1, ha2⟩ | ⟨a, ha1, ha2⟩
    · by_cases hn : a = []
      · subst hn
        exact key [] (by simpa using ha1.symm) (by simpa using ha2.symm)
      · have := h1b a hn ha1.symm hl
        unfold Reader.bind
        split
        · rename_i heq; rw [heq] at this; cases this
        · rename_i heq; rw [heq] at this; cases this; rfl
    · exact key a ha1 ha2

theorem Reads.map {β γ : Type} {lim : Nat} {strict : Prop} {e : Err} {r : Reader β} {b : Bytes} {x : β} {y : γ}
    {f : β → Reader γ} (h1 : Reads lim strict e r b x) (h2 : f x = Reader.pure y) :
    Reads lim strict e (Reader.bind r f) b y := by
  have := Reads.bind (f := f) (b' := []) (y := y) h1 (h2 ▸ Reads.pure y)
  simpa using this

/-! ### i-PI's `recvall`: 20 timeouts tolerated, otherwise a disconnection -/

abbrev IReads {β : Type} (r : Reader β) (b : Bytes) (x : β) : Prop := Reads 20 True .disconnected r b x

theorem ireads_recvall (b : Bytes) {n : Nat} (hn : b.length = n) : IReads (recvall n) b b := by
  subst hn
  intro c hp
  refine ⟨fun rest hb => ?_, fun t ht hb _ => ?_⟩
  · rcases recvLoop_spec c hp b.length 0 [] (by decide) with ⟨_, _, c', h3, h4, h5, h6⟩ | ⟨h1, h2⟩
    · left
      refine ⟨c', ?_, ?_, h5, by omega⟩
      · show recvLoop b.length 0 [] c = _
        rw [h3, hb]; simp
      · rw [h4, hb]; simp
    · right
      refine ⟨?_, fun _ => h2⟩
      have := timeoutsBefore_le b.length c
      have hl : b.length ≤ (bytes c).length := by rw [hb]; simp
      have : ¬ (0 + timeoutsBefore b.length c ≤ NTIMEOUT) := fun h => h1 ⟨hl, h⟩
      simp [NTIMEOUT] at this
      omega
  · rcases recvLoop_spec c hp b.length 0 [] (by decide) with ⟨h1, _⟩ | ⟨_, h2⟩
    · have := congrArg List.length hb
      have ht' : 0 < t.length := List.length_pos_iff.2 ht
      simp at this; omega
    · exact h2

theorem ireads_f64 (x : F64) : IReads recvF64 (encF64 x) x :=
  (ireads_recvall _ (encF64_length x)).map (by rw [decF64_encF64])

theorem ireads_f64s (xs : List F64) {k : Nat} (hk : xs.length = k) : IReads (recvF64s k) (encF64s xs) xs := by
  subst hk
  exact (ireads_recvall _ (encF64s_length xs)).map (by rw [decF64s_encF64s])

theorem ireads_i32 (i : Int) (h1 : -2 ^ 31 ≤ i) (h2 : i < 2 ^ 31) : IReads recvI32 (encI32 i) i :=
  (ireads_recvall _ (encI32_length i)).map (by rw [decI32_encI32 i h1 h2])

theorem utf8_empty : utf8 "" = [] := by decide

theorem length_zero {s : String} (h : s.length = 0) : s = "" := by
  rw [← String.length_toList] at h
  have := List.eq_nil_of_length_eq_zero h
  apply String.toList_inj.1
  simpa using this

theorem ireads_extra (s : String) (h : Ascii s) : IReads (recvExtra s.length) (utf8 s) s := by
  unfold recvExtra
  by_cases h0 : s.length = 0
  · have := length_zero h0
    subst this
    simp only [show ¬ ((("".length : Nat) : Int) > 0) by decide, if_false]
    rw [utf8_empty]; exact Reads.pure _
  · simp only [show ((s.length : Nat) : Int) > 0 by omega, if_true]
    refine (ireads_recvall _ ?_).map ?_
    · rw [(utf8_length_iff s).2 h]; simp
    · rw [utf8?_utf8]

/-! ### the driver's `recv_data`: exact on a socket without timeouts -/

abbrev DReads {β : Type} (r : Reader β) (b : Bytes) (x : β) : Prop := Reads 0 False .runtimeError r b x

theorem drvLoop_eq {c : Conn UInt8} (hp : Pieces c) (ht : timeouts c = 0) : ∀ (need : Nat) (acc : Bytes),
    (need ≤ (bytes c).length → ∃ c', drvLoop need acc c = (.ok (acc ++ (bytes c).take need), c') ∧
      bytes c' = (bytes c).drop need ∧ Pieces c' ∧ timeouts c' = 0) ∧
    ((bytes c).length < need → (drvLoop need acc c).1 = .error .runtimeError) := by
  induction c with
  | nil =>
    intro need acc
    refine ⟨fun h => ?_, fun h => ?_⟩
    · have : need = 0 := by simpa [bytes] using h
      subst this
      exact ⟨[], by rw [drvLoop]; simp, by simp [bytes], hp, rfl⟩
    · have : need ≠ 0 := by omega
      rw [drvLoop]; simp [this, recvInto]
  | cons e c ih =>
    cases e with
    | timeout => simp [timeouts] at ht
    | data bs =>
      have ht' : timeouts c = 0 := ht
      have hne : bs ≠ [] := hp bs (by simp)
      have hlen : 0 < bs.length := List.length_pos_iff.2 hne
      intro need acc
      by_cases h0 : need = 0
      · subst h0
        exact ⟨fun _ => ⟨.data bs :: c, by rw [drvLoop]; simp, by simp, hp, ht⟩, fun h => by omega⟩
      · by_cases hle : bs.length ≤ need
        · have hstep : drvLoop need acc (Ev.data bs :: c) = drvLoop (need - bs.length) (acc ++ bs) c := by
            conv => lhs; rw [drvLoop]
            simp only [h0, if_false]
            split
            · rename_i h; simp [recvInto, hle] at h
            · rename_i h; simp [recvInto, hle] at h
              obtain ⟨rfl, rfl⟩ := h
              simp [hne]
          obtain ⟨i1, i2⟩ := ih hp.tail ht' (need - bs.length) (acc ++ bs)
          rw [hstep]
          simp only [bytes, List.length_append]
          refine ⟨fun h => ?_, fun h => i2 (by omega)⟩
          obtain ⟨c', h1, h2, h3, h4⟩ := i1 (by omega)
          refine ⟨c', ?_, ?_, h3, h4⟩
          · rw [h1, List.take_append, List.take_of_length_le hle]; simp
          · rw [h2, List.drop_append, List.drop_of_length_le hle]; simp
        · have htk : (bs.take need).length = need := by simp; omega
          refine ⟨fun _ => ⟨.data (bs.drop need) :: c, ?_, ?_, ?_, ht⟩, fun h => ?_⟩
          · conv => lhs; rw [drvLoop]
            simp only [h0, if_false]
            split
            · rename_i h; simp [recvInto, hle] at h
            · rename_i h; simp only [recvInto, hle, if_false] at h
              simp at h
              obtain ⟨rfl, rfl⟩ := h
              simp only [htk, h0, if_false]
              rw [show need - need = 0 by omega, drvLoop]
              simp only [if_true, bytes]
              rw [List.take_append, show need - bs.length = 0 by omega, List.take_zero, List.append_nil]
          · simp only [bytes]
            rw [List.drop_append, show need - bs.length = 0 by omega]; simp
          · intro b hb'
            rcases List.mem_cons.1 hb' with h | h
            · cases h
              intro hnil
              have := congrArg List.length hnil
              simp at this; omega
            · exact hp b (by simp [h])
          · simp [bytes] at h; omega

theorem dreads_recv (b : Bytes) {n : Nat} (hn : b.length = n) : DReads (drvRecv n) b b := by
  subst hn
  intro c hp
  refine ⟨fun rest hb => ?_, fun t ht hb hl => ?_⟩
  · by_cases h0 : timeouts c = 0
    · left
      obtain ⟨c', h1, h2, h3, h4⟩ := (drvLoop_eq hp h0 b.length []).1 (by rw [hb]; simp)
      refine ⟨c', ?_, ?_, h3, by omega⟩
      · show drvLoop b.length [] c = _
        rw [h1, hb]; simp
      · rw [h2, hb]; simp
    · right; exact ⟨by omega, fun h => h.elim⟩
  · have h0 : timeouts c = 0 := by rcases hl with h | h; omega; exact h.elim
    refine (drvLoop_eq hp h0 b.length []).2 ?_
    have := congrArg List.length hb
    have ht' : 0 < t.length := List.length_pos_iff.2 ht
    simp at this; omega

theorem dreads_f64s (xs : List F64) {k : Nat} (hk : xs.length = k) : DReads (drvF64s k) (encF64s xs) xs := by
  subst hk
  exact (dreads_recv _ (encF64s_length xs)).map (by rw [decF64s_encF64s])

theorem dreads_i32 (i : Int) (h1 : -2 ^ 31 ≤ i) (h2 : i < 2 ^ 31) : DReads drvI32 (encI32 i) i :=
  (dreads_recv _ (encI32_length i)).map (by rw [decI32_encI32 i h1 h2])

end Verif.Wire
