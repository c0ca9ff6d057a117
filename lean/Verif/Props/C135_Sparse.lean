import Mathlib.Data.List.GetD
import Mathlib.Logic.Function.Basic
import Mathlib.Tactic.Linarith
import Verif.Io.Sparse
import Verif.Text.Lemmas

/-!
# C135: matrices stored in compressed form are read back as they were
-/

namespace Verif.Sparse

open Verif.Text

variable {α : Type}

/-! ## The pointers -/

theorem counts_aux (rows : List ℕ) : ∀ (ia : List ℕ) (k : ℕ), (∀ r ∈ rows, r + 1 < ia.length) →
    (rows.foldl (fun ia row => ia.modify (row + 1) (· + 1)) ia).length = ia.length ∧
    (rows.foldl (fun ia row => ia.modify (row + 1) (· + 1)) ia).getD k 0 =
      ia.getD k 0 + rows.countP (fun r => r + 1 == k) := by
  induction rows with
  | nil => intro ia k _; simp
  | cons r rows ih =>
    intro ia k h
    have hr : r + 1 < ia.length := h r (by simp)
    have h2 := ih (ia.modify (r + 1) (· + 1)) k (by
      intro x hx; rw [List.length_modify]; exact h x (by simp [hx]))
    refine ⟨by rw [List.foldl_cons, h2.1, List.length_modify], ?_⟩
    rw [List.foldl_cons, h2.2]
    have h3 : (ia.modify (r + 1) (· + 1)).getD k 0 = ia.getD k 0 + if r + 1 = k then 1 else 0 := by
      rw [List.getD_eq_getElem?_getD, List.getD_eq_getElem?_getD, List.getElem?_modify]
      by_cases hk : r + 1 = k
      · subst hk; simp [List.getElem?_eq_getElem hr]
      · simp [hk]
    rw [h3, List.countP_cons]
    by_cases hk : r + 1 = k <;> simp [hk] <;> omega

theorem cumsum_getD (l : List ℕ) : ∀ (s k : ℕ), k < l.length →
    (cumsumFrom s l).getD k 0 = s + (l.take (k + 1)).sum := by
  induction l with
  | nil => intro s k h; simp at h
  | cons x l ih =>
    intro s k h
    cases k with
    | zero => simp [cumsumFrom]
    | succ k =>
      rw [cumsumFrom, List.getD_cons_succ, ih _ _ (by simpa using h)]
      simp; omega

theorem take_sum_getD (l : List ℕ) (k : ℕ) (h : k ≤ l.length) :
    (l.take (k + 1)).sum = (l.take k).sum + l.getD k 0 := by
  induction l generalizing k with
  | nil => simp
  | cons x l ih =>
    cases k with
    | zero => simp
    | succ k =>
      have := ih k (by simpa using h)
      simp only [List.take_succ_cons, List.sum_cons, List.getD_cons_succ]
      omega

/-- The pointer of line `k` is the number of stored entries in the lines before it. -/
theorem ptr (len : ℕ) (rows : List ℕ) (h : ∀ r ∈ rows, r < len) (k : ℕ) (hk : k ≤ len) :
    (cumsumFrom 0 (counts len rows)).getD k 0 = rows.countP (fun r => decide (r < k)) := by
  have hc : ∀ k, (counts len rows).length = len + 1 ∧ (counts len rows).getD k 0 =
      rows.countP (fun r => r + 1 == k) := by
    intro k
    have := counts_aux rows (List.replicate (len + 1) 0) k (by
      intro r hr; have := h r hr; simp; omega)
    refine ⟨by unfold counts; rw [this.1]; simp, ?_⟩
    unfold counts
    rw [this.2]
    have : (List.replicate (len + 1) 0).getD k 0 = 0 := by
      rw [List.getD_eq_getElem?_getD, List.getElem?_replicate]; split <;> rfl
    omega
  rw [cumsum_getD _ _ _ (by rw [(hc 0).1]; omega), Nat.zero_add]
  induction k with
  | zero =>
    rw [take_sum_getD _ _ (by omega), (hc 0).2]
    simp
  | succ k ih =>
    rw [take_sum_getD _ _ (by rw [(hc 0).1]; omega), ih (by omega), (hc (k + 1)).2]
    clear h hc ih
    induction rows with
    | nil => rfl
    | cons r rows ih =>
      simp only [List.countP_cons]
      by_cases h1 : r < k
      · have : ¬ (r + 1 == k + 1) = true := by simp; omega
        simp [h1, this, show r < k + 1 by omega] at *; omega
      · by_cases h2 : r = k
        · simp [h2] at *; omega
        · simp [h1, h2, show ¬ r < k + 1 by omega] at *; omega

/-! ## The blocks -/

/-- The entries of one line. -/
def block (nz : α → Bool) (M : Dense α) (i : ℕ) : List (ℕ × ℕ) :=
  ((List.range M.n).filter fun j => nz (M.at' i j)).map fun j => (i, j)

theorem flatMap_split (f : ℕ → List (ℕ × ℕ)) (m k : ℕ) (hk : k < m) :
    (List.range m).flatMap f =
      (List.range k).flatMap f ++ (f k ++ (List.range' (k + 1) (m - k - 1)).flatMap f) := by
  have : List.range m = List.range k ++ (k :: List.range' (k + 1) (m - k - 1)) := by
    have h := List.range'_append_1 (s := 0) (m := k) (n := m - k)
    rw [List.range_eq_range', List.range_eq_range', show m = k + (m - k) by omega, ← h]
    congr 1
    rw [show k + (m - k) - k - 1 = m - k - 1 by omega,
      show m - k = (m - k - 1) + 1 by omega, List.range'_succ]
    simp
  rw [this, List.flatMap_append, List.flatMap_cons]

theorem countP_split (f : ℕ → List (ℕ × ℕ)) (hf : ∀ i, ∀ p ∈ f i, p.1 = i) (m k : ℕ) (hk : k ≤ m) :
    (((List.range m).flatMap f).map Prod.fst).countP (fun r => decide (r < k)) =
      ((List.range k).flatMap f).length := by
  have : List.range m = List.range k ++ List.range' k (m - k) := by
    have h := List.range'_append_1 (s := 0) (m := k) (n := m - k)
    rw [List.range_eq_range', List.range_eq_range', show m = k + (m - k) by omega, ← h]
    simp
  rw [this, List.flatMap_append, List.map_append, List.countP_append]
  have h1 : (((List.range k).flatMap f).map Prod.fst).countP (fun r => decide (r < k)) =
      ((List.range k).flatMap f).length := by
    rw [← List.length_map (f := Prod.fst) (as := (List.range k).flatMap f), List.countP_eq_length]
    intro r hr
    simp only [List.mem_map, List.mem_flatMap, List.mem_range] at hr
    obtain ⟨p, ⟨i, hi, hp⟩, rfl⟩ := hr
    rw [hf i p hp]; simpa using hi
  have h2 : (((List.range' k (m - k)).flatMap f).map Prod.fst).countP (fun r => decide (r < k)) = 0 := by
    rw [List.countP_eq_zero]
    intro r hr
    simp only [List.mem_map, List.mem_flatMap, List.mem_range'_1] at hr
    obtain ⟨p, ⟨i, hi, hp⟩, rfl⟩ := hr
    rw [hf i p hp]; simp; omega
  rw [h1, h2]; rfl

theorem slice_block {β : Type} (x y z : List β) :
    slice (x ++ (y ++ z)) x.length (x ++ y).length = y := by
  unfold slice
  rw [List.drop_left, List.length_append, Nat.add_sub_cancel_left, List.take_left]

theorem nonzero_fst_lt (nz : α → Bool) (M : Dense α) :
    ∀ r ∈ (nonzero nz M).map Prod.fst, r < M.m := by
  intro r hr
  simp only [nonzero, List.mem_map, List.mem_flatMap, List.mem_range] at hr
  obtain ⟨p, ⟨i, hi, x, hx, rfl⟩, rfl⟩ := hr
  exact hi

/-- The piece of any array attached to the stored entries that the pointers cut out for line `k`
belongs to the entries of line `k`. -/
theorem cut {β : Type} (nz : α → Bool) (M : Dense α) (g : ℕ × ℕ → β) (k : ℕ) (hk : k < M.m) :
    let ia := cumsumFrom 0 (counts M.m ((nonzero nz M).map Prod.fst))
    slice ((nonzero nz M).map g) (ia.getD k 0) (ia.getD (k + 1) 0) = (block nz M k).map g := by
  intro ia
  have hb : ∀ i, ∀ p ∈ block nz M i, p.1 = i := by
    intro i p hp
    simp only [block, List.mem_map] at hp
    obtain ⟨_, _, rfl⟩ := hp; rfl
  have e : nonzero nz M = (List.range M.m).flatMap (block nz M) := rfl
  have h1 : ia.getD k 0 = ((List.range k).flatMap (block nz M)).length := by
    change (cumsumFrom 0 _).getD k 0 = _
    rw [ptr _ _ (nonzero_fst_lt nz M) k (by omega), e, countP_split _ hb _ _ (by omega)]
  have h2 : ia.getD (k + 1) 0 = ((List.range (k + 1)).flatMap (block nz M)).length := by
    change (cumsumFrom 0 _).getD (k + 1) 0 = _
    rw [ptr _ _ (nonzero_fst_lt nz M) (k + 1) (by omega), e, countP_split _ hb _ _ (by omega)]
  rw [h1, h2, List.range_succ, List.flatMap_append, e, flatMap_split _ _ _ hk, List.map_append,
    List.map_append]
  have := slice_block (((List.range k).flatMap (block nz M)).map g) ((block nz M k).map g)
    (((List.range' (k + 1) (M.m - k - 1)).flatMap (block nz M)).map g)
  simpa using this

theorem assign_map (zero : α) (f : ℕ → α) (l : List ℕ) (j : ℕ) : ∀ (init : ℕ → α),
    assign init l (l.map f) j = if j ∈ l then f j else init j := by
  induction l with
  | nil => intro init; simp [assign]
  | cons x l ih =>
    intro init
    have : assign init (x :: l) ((x :: l).map f) = assign (Function.update init x (f x)) l (l.map f) := rfl
    rw [this, ih]
    by_cases h : j ∈ l
    · simp [h]
    · by_cases hx : j = x
      · subst hx; simp [h]
      · simp [h, hx]

/-- The line `k` that is rebuilt from the stored arrays. -/
theorem line_eq (nz : α → Bool) (zero : α) (M : Dense α) (S : Mat α)
    (ha : S.a = (nonzero nz M).map fun p => M.at' p.1 p.2)
    (hia : S.ia = cumsumFrom 0 (counts M.m ((nonzero nz M).map Prod.fst)))
    (hja : S.ja = (nonzero nz M).map Prod.snd) (k j : ℕ) (hk : k < M.m) (hj : j < M.n) :
    line zero S k j = if nz (M.at' k j) then M.at' k j else zero := by
  unfold line
  rw [ha, hia, hja]
  have c1 := cut nz M Prod.snd k hk
  have c2 := cut nz M (fun p => M.at' p.1 p.2) k hk
  simp only at c1 c2
  rw [c1, c2]
  have e1 : (block nz M k).map Prod.snd = (List.range M.n).filter fun j => nz (M.at' k j) := by
    unfold block; rw [List.map_map]; exact List.map_id _
  have e2 : ((block nz M k).map fun p => M.at' p.1 p.2) =
      ((List.range M.n).filter fun j => nz (M.at' k j)).map (M.at' k) := by
    unfold block; rw [List.map_map]; rfl
  rw [e1, e2, assign_map zero]
  by_cases h : nz (M.at' k j)
  · simp [h, hj]
  · simp [h]

/-! ## The property -/

/-- Two arrays have the same shape and the same entries. -/
def Same (A B : Dense α) : Prop :=
  A.m = B.m ∧ A.n = B.n ∧ ∀ i j, i < A.m → j < A.n → A.at' i j = B.at' i j

/-- Whatever the matrix, the shape and every entry come back from the compressed rows; an entry
that compares equal to zero comes back as zero. -/
theorem csr_entries (nz : α → Bool) (zero : α) (M : Dense α) (i j : ℕ) (hi : i < M.m) (hj : j < M.n) :
    (toarray zero (csr nz M)).at' i j = if nz (M.at' i j) then M.at' i j else zero :=
  line_eq nz zero M (csr nz M) rfl rfl rfl i j hi hj

theorem csc_entries (nz : α → Bool) (zero : α) (M : Dense α) (i j : ℕ) (hi : i < M.m) (hj : j < M.n) :
    (toarray zero (csc nz M)).at' i j = if nz (M.at' i j) then M.at' i j else zero :=
  line_eq nz zero M.tr (csc nz M) rfl rfl rfl j i hj hi

variable [DecidableEq α] [Zero α]

/-- The comparison with zero. -/
def neZero : α → Bool := fun x => decide (x ≠ 0)

/-- A matrix is recovered from its compressed rows and from its compressed columns. -/
theorem csr_roundtrip (M : Dense α) : Same (toarray 0 (csr neZero M)) M := by
  refine ⟨rfl, rfl, fun i j hi hj => ?_⟩
  rw [csr_entries neZero 0 M i j hi hj]
  by_cases h : M.at' i j = 0 <;> simp [neZero, h]

theorem csc_roundtrip (M : Dense α) : Same (toarray 0 (csc neZero M)) M := by
  refine ⟨rfl, rfl, fun i j hi hj => ?_⟩
  rw [csc_entries neZero 0 M i j hi hj]
  by_cases h : M.at' i j = 0 <;> simp [neZero, h]

omit [DecidableEq α] [Zero α] in
/-- A matrix that is saved and loaded is the same object, rows as rows and columns as columns. -/
theorem save_load (S : Mat α) : load (save S) = S := by
  cases S with
  | mk kind a ia ja m n => cases kind <;> rfl

/-- A matrix compressed in either way, saved, loaded and expanded has all its entries. -/
theorem file_roundtrip (M : Dense α) :
    Same (toarray 0 (load (save (csr neZero M)))) M ∧ Same (toarray 0 (load (save (csc neZero M)))) M := by
  rw [save_load, save_load]
  exact ⟨csr_roundtrip M, csc_roundtrip M⟩

/-- Sums, differences and products of compressed matrices are those of the matrices, in whatever
way the two were compressed. -/
theorem elementwise_entries (op : α → α → α) (A B : Dense α) (hm : A.m = B.m) (hn : A.n = B.n)
    (SA SB : Mat α) (hA : SA = csr neZero A ∨ SA = csc neZero A)
    (hB : SB = csr neZero B ∨ SB = csc neZero B) :
    Same (toarray 0 (elementwise neZero 0 op SA SB)) ⟨A.m, A.n, fun i j => op (A.at' i j) (B.at' i j)⟩ := by
  have a : Same (toarray 0 SA) A := by
    rcases hA with rfl | rfl
    · exact csr_roundtrip A
    · exact csc_roundtrip A
  have b : Same (toarray 0 SB) B := by
    rcases hB with rfl | rfl
    · exact csr_roundtrip B
    · exact csc_roundtrip B
  have c := csr_roundtrip (⟨(toarray 0 SA).m, (toarray 0 SA).n,
    fun i j => op ((toarray 0 SA).at' i j) ((toarray 0 SB).at' i j)⟩ : Dense α)
  refine ⟨c.1.trans a.1, c.2.1.trans a.2.1, fun i j hi hj => ?_⟩
  have hi' : i < (toarray 0 SA).m := by rw [← c.1]; exact hi
  have hj' : j < (toarray 0 SA).n := by rw [← c.2.1]; exact hj
  refine (c.2.2 i j hi hj).trans ?_
  dsimp only
  rw [a.2.2 i j hi' hj', b.2.2 i j (by rw [b.1, ← hm, ← a.1]; exact hi')
    (by rw [b.2.1, ← hn, ← a.2.1]; exact hj')]

/-- Only the entries that differ from zero are stored, each once. -/
theorem stored_count (M : Dense α) :
    (csr neZero M).a.length =
      ((List.range M.m).map fun i => (List.range M.n).countP fun j => decide (M.at' i j ≠ 0)).sum ∧
    ∀ x ∈ (csr neZero M).a, x ≠ 0 := by
  constructor
  · change ((nonzero neZero M).map _).length = _
    rw [List.length_map, nonzero, List.length_flatMap]
    congr 1
    apply List.map_congr_left
    intro i _
    rw [List.length_map, ← List.countP_eq_length_filter]
    rfl
  · intro x hx
    simp only [csr, nonzero, List.mem_map, List.mem_flatMap, List.mem_range, List.mem_filter] at hx
    obtain ⟨p, ⟨i, _, j, ⟨_, hj⟩, rfl⟩, rfl⟩ := hx
    simpa [neZero] using hj

/-- A 3 × 4 matrix with an empty row, an empty column and a full row. -/
def exM : Dense ℤ := ⟨3, 4, fun i j => if i = 1 then 0 else if i = 0 then j else if j = 2 then 5 else 0⟩

example : (csr neZero exM).ia = [0, 3, 3, 4] ∧ (csr neZero exM).ja = [1, 2, 3, 2] ∧
    (csr neZero exM).a = [1, 2, 3, 5] := by decide +kernel
example : (csc neZero exM).ia = [0, 0, 1, 3, 4] ∧ (csc neZero exM).ja = [0, 0, 2, 0] ∧
    (csc neZero exM).a = [1, 2, 5, 3] := by decide +kernel
example : (toarray 0 (csc neZero exM)).at' 2 2 = 5 :=
  ((csc_roundtrip exM).2.2 2 2 (by decide) (by decide)).trans rfl
example := elementwise_entries (· + ·) exM exM rfl rfl _ _ (Or.inl rfl) (Or.inr rfl)

/-! ## Frames -/

theorem readDigits_append (d s : Str) (hd : ∀ c ∈ d, isDigit c = true)
    (hs : ∀ c, s.head? = some c → isDigit c = false) : readDigits (d ++ s) = (d, s) := by
  induction d with
  | nil =>
    cases s with
    | nil => rfl
    | cons c s => simp [readDigits, hs c rfl]
  | cons x d ih =>
    rw [List.cons_append, readDigits, if_pos (hd x (by simp)), ih fun c hc => hd c (by simp [hc])]

theorem expect_cons (c : Char) (s : Str) : expect c (c :: s) = .ok s := if_pos rfl

theorem showNat_head_ne_zero (n : ℕ) (h : 0 < n) : (showNat n).head? ≠ some '0' := by
  induction n using Nat.strongRecOn with
  | ind n ih =>
    by_cases hn : n < 10
    · rw [showNat_lt hn]
      intro hh
      have : digitChar n = '0' := by simpa using hh
      have h1 := digitChar_toNat hn
      rw [this] at h1
      have : ('0' : Char).toNat = 48 := rfl
      omega
    · rw [showNat_ge hn]
      have hne := showNat_ne_nil (n / 10)
      have := ih (n / 10) (by omega) (by omega)
      cases hsn : showNat (n / 10) with
      | nil => exact absurd hsn hne
      | cons c s => rw [hsn] at this; simpa using this

/-- Whatever is written in a frame is read back exactly, colons, commas and digits in it
included, and the file is left where the frame ends. -/
theorem unframe_frame (content rest : Str) (h : content ≠ []) :
    unframe (frame content ++ rest) = .ok (content, rest) := by
  have hl : 0 < content.length := List.length_pos_iff.mpr h
  have e : frame content ++ rest =
      showNat content.length ++ (':' :: (content ++ ',' :: rest)) := by
    simp [frame]
  have hd : readDigits (frame content ++ rest) =
      (showNat content.length, ':' :: (content ++ ',' :: rest)) := by
    rw [e]
    refine readDigits_append _ _ (showNat_digits _) ?_
    intro c hc
    have : c = ':' := by simpa using hc.symm
    rw [this]; rfl
  have h0 : (frame content ++ rest).head? ≠ some '0' := by
    rw [e]
    have := showNat_head_ne_zero content.length hl
    cases hsn : showNat content.length with
    | nil => exact absurd hsn (showNat_ne_nil _)
    | cons c s => rw [hsn] at this; simpa using this
  unfold unframe
  rw [if_neg h0, hd]
  have hv : digitsVal (showNat content.length) = content.length := foldl_showNat _
  dsimp only
  rw [expect_cons]
  dsimp only
  rw [if_neg (showNat_ne_nil _), hv, List.drop_left, List.take_left, expect_cons]

/-- A file with any number of frames is read frame by frame. -/
theorem unframeAll_frames (cs : List Str) (h : ∀ c ∈ cs, c ≠ []) :
    unframeAll (cs.length + 1) (cs.flatMap frame) = .ok cs := by
  induction cs with
  | nil => rfl
  | cons c cs ih =>
    rw [List.flatMap_cons, List.length_cons, unframeAll]
    have hne : frame c ++ cs.flatMap frame ≠ [] := by simp [frame]
    rw [if_neg hne, unframe_frame _ _ (h c (by simp))]
    dsimp only
    rw [ih fun x hx => h x (by simp [hx])]
    rfl

/-- A frame that was cut off, as by a crash during the writing, is never taken for a whole
one. -/
theorem cut_frame_fails (content : Str) (h : content ≠ []) (k : ℕ) (hk : k < (frame content).length) :
    ∃ e, unframe ((frame content).take k) = .error e := by
  have hl : 0 < content.length := List.length_pos_iff.mpr h
  have e : frame content = showNat content.length ++ (':' :: (content ++ [','])) := rfl
  have hlen : (frame content).length = (showNat content.length).length + (content.length + 2) := by
    rw [e]; simp
  by_cases h1 : k ≤ (showNat content.length).length
  · have ht : (frame content).take k = (showNat content.length).take k := by
      rw [e, List.take_append_of_le_length h1]
    have hd : readDigits ((showNat content.length).take k) = ((showNat content.length).take k, []) := by
      have := readDigits_append ((showNat content.length).take k) []
        (fun c hc => showNat_digits _ c (List.mem_of_mem_take hc)) (by simp)
      simpa using this
    unfold unframe
    rw [ht, hd]
    split
    · exact ⟨_, rfl⟩
    · exact ⟨_, rfl⟩
  · push Not at h1
    have ht : (frame content).take k = showNat content.length ++
        (':' :: (content ++ [',']).take (k - (showNat content.length).length - 1)) := by
      rw [e, List.take_append, List.take_of_length_le h1.le]
      congr 1
      obtain ⟨r, hr⟩ : ∃ r, k - (showNat content.length).length = r + 1 := ⟨k - (showNat content.length).length - 1, by omega⟩
      rw [hr, List.take_succ_cons]
      rfl
    have hd : readDigits ((frame content).take k) = (showNat content.length,
        ':' :: (content ++ [',']).take (k - (showNat content.length).length - 1)) := by
      rw [ht]
      refine readDigits_append _ _ (showNat_digits _) ?_
      intro c hc
      have : c = ':' := by simpa using hc.symm
      rw [this]; rfl
    unfold unframe
    rw [hd]
    split
    · exact ⟨_, rfl⟩
    · dsimp only
      rw [expect_cons]
      dsimp only
      rw [if_neg (showNat_ne_nil _)]
      have hv : digitsVal (showNat content.length) = content.length := foldl_showNat _
      rw [hv]
      have : ((content ++ [',']).take (k - (showNat content.length).length - 1)).drop content.length = [] := by
        apply List.drop_eq_nil_of_le
        rw [List.length_take]
        simp; omega
      rw [this]
      exact ⟨_, rfl⟩

/-- The frame of an empty content cannot be read back. -/
theorem empty_frame_fails (rest : Str) :
    unframe (frame [] ++ rest) = .error (.valueError "Reading an empty netstring") := by
  have : frame [] = "0:,".toList := by decide +kernel
  rw [this]; rfl

example : unframe (frame "1:2,".toList ++ "3:x".toList) = .ok ("1:2,".toList, "3:x".toList) :=
  unframe_frame _ _ (by decide)
example := cut_frame_fails "abc".toList (by decide) 5 (by decide +kernel)

end Verif.Sparse
