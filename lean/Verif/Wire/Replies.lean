import Verif.Wire.Reads
namespace Verif.Wire

theorem message_forceready_length : (message "forceready").length = 12 := by decide +kernel

/-- A result the driver accepts to send for `n` atoms (driver.py:232-249) whose counts fit in an int32. -/
structure Result.Fits (r : Result) (n : Nat) : Prop where
  force : r.force.length = 3 * n
  vir : r.vir.length = 9
  nat : n < 2 ^ 31
  extra : r.extra.length < 2 ^ 31

theorem ireads_nat (n : Nat) (h : n < 2 ^ 31) : IReads recvI32 (encI32 n) (n : Int) :=
  ireads_i32 _ (by omega) (by omega)

theorem ireads_extras (r : Result) (hx : Ascii r.extra) (hl : r.extra.length < 2 ^ 31) {γ : Type} {f : String → Reader γ}
    {b : Bytes} {y : γ} (h : IReads (f r.extra) b y) :
    IReads (.bind recvI32 fun elen => .bind (recvExtra elen) f) (encI32 r.extra.length ++ (utf8 r.extra ++ b)) y :=
  (ireads_nat _ hl).bind ((ireads_extra _ hx).bind h)

theorem ireads_forceData (n : Nat) (r : Result) (hr : r.Fits n) (hx : Ascii r.extra) :
    IReads recvForceData (encF64 r.pot ++ (encI32 n ++ (encF64s r.force ++ (encF64s r.vir ++
      (encI32 r.extra.length ++ utf8 r.extra))))) r := by
  refine (ireads_f64 _).bind ((ireads_nat _ hr.nat).bind ((ireads_f64s _ ?_).bind ((ireads_f64s _ hr.vir).bind ?_)))
  · rw [hr.force]; omega
  · have := ireads_extras r hx hr.extra (f := fun x => Reader.pure (⟨r.pot, r.force, r.vir, x⟩ : Result)) (Reads.pure _)
    simpa using this

/-! ### bulk reply -/

theorem slice {a b c : Bytes} {i k : Nat} (h1 : a.length = i) (h2 : b.length = k) :
    ((a ++ (b ++ c)).drop i).take k = b := by
  subst h1; subst h2; simp

theorem drop_exact {a b : Bytes} {i : Nat} (h1 : a.length = i) : (a ++ b).drop i = b := by
  subst h1; simp

/-- The fixed-size part of the reply. -/
def replyHead (n : Nat) (r : Result) : Bytes :=
  message "forceready" ++ (encF64 r.pot ++ (encI32 n ++ (encF64s r.force ++ (encF64s r.vir ++ encI32 r.extra.length))))

theorem driverReply_eq (n : Nat) (r : Result) : driverReply n r = replyHead n r ++ utf8 r.extra := by
  simp [driverReply, replyHead]

/-- The bulk path reads the fixed-size part and continues with the extra string. -/
theorem bulk_head (n : Nat) (r : Result) (hr : r.Fits n) :
    ∃ k f, recvForcesBulk n = Reader.bind (recvall k) f ∧ (replyHead n r).length = k ∧
      f (replyHead n r) = Reader.bind (recvExtra r.extra.length) fun x => .pure ⟨r.pot, r.force, r.vir, x⟩ := by
  have hm := message_forceready_length
  unfold replyHead recvForcesBulk
  generalize message "forceready" = m at *
  have hf := encF64s_length r.force
  have hv := encF64s_length r.vir
  rw [hr.force] at hf
  rw [hr.vir] at hv
  have e1 := encF64_length r.pot
  have e2 := encI32_length n
  have e3 := encI32_length r.extra.length
  obtain ⟨buf, hbuf⟩ : ∃ b, b = m ++ (encF64 r.pot ++ (encI32 n ++ (encF64s r.force ++ (encF64s r.vir ++
    encI32 r.extra.length)))) := ⟨_, rfl⟩
  rw [← hbuf]
  have hlen : buf.length = 12 + 8 + 4 + 24 * n + 72 + 4 := by
    simp only [hbuf, List.length_append, hm, hf, hv, e1, e2, e3]; omega
  refine ⟨_, _, rfl, hlen, ?_⟩
  have d0 : buf.take 12 = m := by
    have : 12 = m.length := hm.symm
    rw [this]; simp [hbuf]
  have d1 : (buf.drop 12).take 8 = encF64 r.pot := by rw [hbuf]; exact slice hm e1
  have d2 : (buf.drop 20).take 4 = encI32 n := by
    have : buf = (m ++ encF64 r.pot) ++ (encI32 n ++ (encF64s r.force ++ (encF64s r.vir ++
      encI32 r.extra.length))) := by simp [hbuf]
    rw [this]
    exact slice (by simp [hm, e1]) e2
  have d3 : buf.drop 24 = encF64s r.force ++ (encF64s r.vir ++ encI32 r.extra.length) := by
    have : buf = (m ++ encF64 r.pot ++ encI32 n) ++ (encF64s r.force ++ (encF64s r.vir ++
      encI32 r.extra.length)) := by simp [hbuf]
    rw [this]
    exact drop_exact (by simp [hm, e1, e2])
  have d4 : buf.drop (24 + 24 * n) = encF64s r.vir ++ encI32 r.extra.length := by
    have : buf = (m ++ encF64 r.pot ++ encI32 n ++ encF64s r.force) ++ (encF64s r.vir ++
      encI32 r.extra.length) := by simp [hbuf]
    rw [this]
    exact drop_exact (by simp only [List.length_append, hm, hf, e1, e2]; omega)
  have d5 : (buf.drop (24 + 24 * n + 72)).take 4 = encI32 r.extra.length := by
    have : buf = (m ++ encF64 r.pot ++ encI32 n ++ encF64s r.force ++ encF64s r.vir) ++
      (encI32 r.extra.length ++ []) := by simp [hbuf]
    rw [this]
    exact slice (by simp only [List.length_append, hm, hf, e1, e2, hv]; omega) e3
  have hd2 : decI32 (encI32 n) = n := decI32_encI32 _ (by omega) (by have := hr.nat; omega)
  have hd5 : decI32 (encI32 r.extra.length) = r.extra.length := decI32_encI32 _ (by omega) (by have := hr.extra; omega)
  have hd3 : decF64s (3 * n) (encF64s r.force ++ (encF64s r.vir ++ encI32 r.extra.length)) = r.force := by
    rw [← hr.force]; exact decF64s_encF64s_append _ _
  have hd4 : decF64s 9 (encF64s r.vir ++ encI32 r.extra.length) = r.vir := by
    rw [← hr.vir]; exact decF64s_encF64s_append _ _
  simp only [d0, d1, d2, d3, d4, d5, hd2, hd3, hd4, hd5, decF64_encF64, ne_eq, not_true_eq_false, if_false]

theorem ireads_bulk (n : Nat) (r : Result) (hr : r.Fits n) (hx : Ascii r.extra) :
    IReads (recvForcesBulk n) (driverReply n r) r := by
  obtain ⟨k, f, h1, h2, h3⟩ := bulk_head n r hr
  rw [h1, driverReply_eq]
  refine (ireads_recvall _ h2).bind ?_
  rw [h3]
  exact (ireads_extra _ hx).map rfl

/-- Whatever the extra string, only the bytes it has as characters are consumed. -/
theorem bulk_nonascii (n : Nat) (r : Result) (hr : r.Fits n) (hx : ¬ Ascii r.extra) (c : Conn UInt8) (hp : Pieces c)
    (rest : Bytes) (hb : bytes c = driverReply n r ++ rest) :
    (∃ e, (recvForcesBulk n c).1 = .error e) ∨
    ∃ r' c' left, recvForcesBulk n c = (.ok r', c') ∧ left ≠ [] ∧ bytes c' = left ++ rest := by
  obtain ⟨k, f, h1, h2, h3⟩ := bulk_head n r hr
  rw [driverReply_eq, List.append_assoc] at hb
  have hlt : r.extra.length < (utf8 r.extra).length := by
    have h1 := utf8_length_le r.extra
    have h2 : (utf8 r.extra).length ≠ r.extra.length := fun h => hx ((utf8_length_iff _).1 h)
    omega
  have hpos : 0 < r.extra.length := by
    rcases Nat.eq_zero_or_pos r.extra.length with h | h
    · rw [length_zero h, utf8_empty] at hlt; simp at hlt
    · exact h
  rw [h1]
  unfold Reader.bind
  rcases (ireads_recvall _ h2 c hp).1 _ hb with ⟨c1, e1, b1, p1, _⟩ | ⟨_, he⟩
  · rw [e1]
    simp only [h3]
    unfold Reader.bind recvExtra
    rw [if_pos (by omega)]
    have hsplit : utf8 r.extra ++ rest = (utf8 r.extra).take r.extra.length ++
        ((utf8 r.extra).drop r.extra.length ++ rest) := by
      rw [← List.append_assoc, List.take_append_drop]
    rw [hsplit] at b1
    rcases (ireads_recvall _ (n := r.extra.length) (by simp; omega) c1 p1).1 _ b1 with ⟨c2, e2, b2, _, _⟩ | ⟨_, he⟩
    · unfold Reader.bind
      rw [show ((r.extra.length : Nat) : Int).toNat = r.extra.length by simp, e2]
      simp only
      cases utf8? (List.take r.extra.length (utf8 r.extra)) with
      | none => left; exact ⟨_, rfl⟩
      | some s =>
        right
        refine ⟨_, c2, _, rfl, ?_, b2⟩
        intro h
        have := congrArg List.length h
        simp at this
        omega
    · left
      unfold Reader.bind
      rw [show ((r.extra.length : Nat) : Int).toNat = r.extra.length by simp]
      have he' := he trivial
      generalize hg : recvall r.extra.length c1 = g at *
      obtain ⟨g1, g2⟩ := g
      simp only at he'
      subst he'
      exact ⟨_, rfl⟩
  · left
    have he' := he trivial
    generalize hg : recvall k c = g at *
    obtain ⟨g1, g2⟩ := g
    simp only at he'
    subst he'
    exact ⟨_, rfl⟩

/-! ### batched reply -/

theorem rows_flatMap {β : Type} {n : Nat} (xs : List (List β)) (h : ∀ x ∈ xs, x.length = n) :
    rows n xs.length xs.flatten = xs := by
  induction xs with
  | nil => rfl
  | cons x xs ih =>
    have hx := h x (by simp)
    have := ih (fun y hy => h y (by simp [hy]))
    simp [rows, ← hx]
    rw [hx]; exact this

theorem flatten_length {β : Type} {n : Nat} (xs : List (List β)) (h : ∀ x ∈ xs, x.length = n) :
    xs.flatten.length = xs.length * n := by
  induction xs with
  | nil => simp
  | cons x xs ih =>
    have := ih (fun y hy => h y (by simp [hy]))
    simp only [List.flatten_cons, List.length_append, List.length_cons, this, h x (by simp)]
    rw [Nat.succ_mul]; omega

theorem ireads_batchLoop (nreal : Nat) (rs : List Result) (hx : ∀ r ∈ rs, Ascii r.extra ∧ r.extra.length < 2 ^ 31) :
    ∀ i, IReads (recvBatchLoop nreal i (rs.map (·.pot)) (rs.map (·.force)) (rs.map (·.vir))) (batchExtras rs)
      (rs.take (nreal - i)) := by
  induction rs with
  | nil => intro i; simpa [recvBatchLoop, batchExtras] using Reads.pure ([] : List Result)
  | cons r rs ih =>
    intro i
    have h := hx r (by simp)
    have hb : batchExtras (r :: rs) = encI32 r.extra.length ++ (utf8 r.extra ++ batchExtras rs) := by
      simp [batchExtras]
    rw [hb]
    simp only [List.map_cons, recvBatchLoop]
    refine ireads_extras r h.1 h.2 ((ih (fun r' h' => hx r' (by simp [h'])) (i + 1)).map ?_)
    congr 1
    by_cases hi : i < nreal
    · rw [if_pos hi, show nreal - i = (nreal - (i + 1)) + 1 by omega, List.take_succ_cons]
    · rw [if_neg hi, show nreal - i = 0 by omega, show nreal - (i + 1) = 0 by omega]; rfl

theorem ireads_batch (nbatch n nreal : Nat) (rs : List Result) (hb : rs.length = nbatch) (hn : n < 2 ^ 31)
    (hr : ∀ r ∈ rs, r.Fits n ∧ Ascii r.extra) :
    IReads (recvForcesBatch nbatch n nreal) (driverReplyBatch n rs) (rs.take nreal) := by
  refine (ireads_recvall _ message_forceready_length).bind ?_
  simp only [ne_eq, not_true_eq_false, if_false]
  refine (ireads_f64s _ (by simpa using hb)).bind ((ireads_nat n hn).bind ?_)
  simp only [not_true_eq_false, if_false]
  have hf : ∀ x ∈ rs.map (·.force), x.length = 3 * n := by
    intro x hx; obtain ⟨r, hr', rfl⟩ := List.mem_map.1 hx; exact (hr r hr').1.force
  have hv : ∀ x ∈ rs.map (·.vir), x.length = 9 := by
    intro x hx; obtain ⟨r, hr', rfl⟩ := List.mem_map.1 hx; exact (hr r hr').1.vir
  have hf' := flatten_length _ hf
  have hv' := flatten_length _ hv
  rw [List.length_map, hb, ← List.flatMap_def] at hf' hv'
  refine (ireads_f64s _ hf').bind ((ireads_f64s _ hv').bind ?_)
  have h1 := rows_flatMap _ hf
  have h2 := rows_flatMap _ hv
  rw [List.length_map, hb, ← List.flatMap_def] at h1 h2
  rw [h1, h2]
  have := ireads_batchLoop nreal rs (fun r h => ⟨(hr r h).2, (hr r h).1.extra⟩) 0
  simpa using this

/-! ### header path -/

/-- The next piece delivered (after timeouts) holds the whole 12-byte header. -/
def HeaderWhole : Conn UInt8 → Prop
  | [] => False
  | .timeout :: c => HeaderWhole c
  | .data bs :: _ => 12 ≤ bs.length

theorem recvForceReady_whole (c : Conn UInt8) (hp : Pieces c) (hw : HeaderWhole c) (rest : Bytes)
    (hb : bytes c = message "forceready" ++ rest) :
    ∃ c', recvForceReady c = (.ok (), c') ∧ bytes c' = rest ∧ Pieces c' ∧ timeouts c' ≤ timeouts c := by
  have hm := message_forceready_length
  induction c with
  | nil => exact hw.elim
  | cons e c ih =>
    cases e with
    | timeout =>
      obtain ⟨c', h1, h2, h3, h4⟩ := ih hp.tail hw hb
      exact ⟨c', by rw [recvForceReady]; exact h1, h2, h3, by simp [timeouts]; omega⟩
    | data bs =>
      simp only [HeaderWhole] at hw
      simp only [bytes] at hb
      have htk : bs.take 12 = message "forceready" := by
        have := congrArg (List.take 12) hb
        rw [List.take_append_of_le_length hw, List.take_append_of_le_length (by omega)] at this
        rw [this, List.take_of_length_le (by omega)]
      by_cases hle : bs.length ≤ 12
      · have hbs : bs = message "forceready" := by rw [← htk, List.take_of_length_le hle]
        refine ⟨c, by rw [recvForceReady, if_pos hle, if_pos hbs], ?_, hp.tail, by simp [timeouts]⟩
        rw [hbs] at hb; exact List.append_cancel_left hb
      · refine ⟨.data (bs.drop 12) :: c, by rw [recvForceReady]; simp [hle, htk], ?_, ?_, by simp [timeouts]⟩
        · simp only [bytes]
          have := congrArg (List.drop 12) hb
          rw [List.drop_append_of_le_length hw, List.drop_append_of_le_length (by omega)] at this
          rw [this, List.drop_of_length_le (by omega)]; simp
        · intro b hb'
          rcases List.mem_cons.1 hb' with h | h
          · cases h
            intro hnil
            have := congrArg List.length hnil
            simp at this; omega
          · exact hp b (by simp [h])

/-! ### positions -/

/-- A structure of `n` atoms with 3x3 cell matrices. -/
structure Structure.Fits (s : Structure) (n : Nat) : Prop where
  h : s.h.length = 9
  ih : s.ih.length = 9
  pos : s.pos.length = 3 * n
  nat : n < 2 ^ 31

theorem dreads_posData (n expect : Nat) (s : Structure) (hs : s.Fits n) (he : expect = 0 ∨ expect = n) :
    DReads (drvPosData expect) (posData s) (s.h, s.pos) := by
  have hn : s.pos.length / 3 = n := by rw [hs.pos]; omega
  unfold posData drvPosData
  rw [hn]
  have hnat := hs.nat
  refine (dreads_f64s _ hs.h).bind ((dreads_f64s _ hs.ih).bind ((dreads_i32 n (by omega) (by omega)).bind ?_))
  rw [if_neg (by omega)]
  exact (dreads_f64s _ (by rw [hs.pos]; simp; omega)).map rfl

theorem dreads_posDataBatch (n batch : Nat) (ss : List Structure) (hne : ss ≠ []) (hl : ss.length ≤ batch)
    (hs : ∀ s ∈ ss, s.Fits n) (hn : n < 2 ^ 31) :
    DReads (drvPosDataBatch batch) (posDataBatch batch ss)
      ((ss ++ List.replicate (batch - ss.length) (ss.getLast hne)).map fun s => (s.h, s.pos)) := by
  unfold posDataBatch drvPosDataBatch
  have hg : ss.getLastD ⟨[], [], []⟩ = ss.getLast hne := by
    rw [List.getLastD_eq_getLast?, List.getLast?_eq_some_getLast hne]; rfl
  rw [hg]
  generalize hpd : ss ++ List.replicate (batch - ss.length) (ss.getLast hne) = padded
  have hlen : padded.length = batch := by rw [← hpd]; simp; omega
  have hfit : ∀ s ∈ padded, s.Fits n := by
    intro s h
    rw [← hpd] at h
    rcases List.mem_append.1 h with h | h
    · exact hs s h
    · rw [List.eq_of_mem_replicate h]; exact hs _ (List.getLast_mem hne)
  have hhead : (padded.head?.map (·.pos.length / 3)).getD 0 = n := by
    have hpne : padded ≠ [] := by rw [← hpd]; simp [hne]
    rw [List.head?_eq_some_head hpne]
    simp only [Option.map_some, Option.getD_some]
    rw [(hfit _ (List.head_mem hpne)).pos]; omega
  simp only [hhead]
  refine (dreads_i32 n (by omega) (by omega)).bind ?_
  have hc : ∀ x ∈ padded.map (fun s => s.h ++ s.ih), x.length = 18 := by
    intro x hx; obtain ⟨r, hr', rfl⟩ := List.mem_map.1 hx; simp [(hfit r hr').h, (hfit r hr').ih]
  have hp : ∀ x ∈ padded.map (·.pos), x.length = n * 3 := by
    intro x hx; obtain ⟨r, hr', rfl⟩ := List.mem_map.1 hx; simp [(hfit r hr').pos]; omega
  have hc' := flatten_length _ hc
  have hp' := flatten_length _ hp
  rw [List.length_map, hlen, ← List.flatMap_def] at hc' hp'
  refine (dreads_f64s _ hc').bind ((dreads_f64s _ (by simpa using hp')).map ?_)
  have h1 := rows_flatMap _ hc
  have h2 := rows_flatMap _ hp
  rw [List.length_map, hlen, ← List.flatMap_def] at h1 h2
  simp only [Int.toNat_natCast]
  rw [h1, h2]
  congr 1
  have : ∀ l : List Structure, (∀ s ∈ l, s.Fits n) →
      ((l.map fun s => s.h ++ s.ih).map (·.take 9)).zip (l.map (·.pos)) = l.map fun s => (s.h, s.pos) := by
    intro l
    induction l with
    | nil => intro _; rfl
    | cons s l ih =>
      intro h
      have h9 := (h s (by simp)).h
      simp only [List.map_cons, List.zip_cons_cons]
      rw [ih (fun s' h' => h s' (by simp [h'])), List.take_append_of_le_length (by omega),
        List.take_of_length_le (by omega)]
  exact this padded hfit

end Verif.Wire
