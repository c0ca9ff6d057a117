import Verif.FF.Active
import Verif.Util
/-
C17: forces on inactive atoms are zero and active forces land on the right atoms.
-/
namespace Verif.Active
variable {F : Type}

theorem activeIdx_valid (active : List Nat) (nat : Nat) (hne : active ≠ []) (hnd : active.Nodup) (hlt : ∀ a ∈ active, a < nat) :
    activeIdx (active.map fun (a : Nat) => (a : Int)) (3 * nat) = .ok ((active.flatMap coordsN).map fun (i : Nat) => (i : Int)) := by
  cases active with
  | nil => exact absurd rfl hne
  | cons a l =>
    have hle : (a :: l).length ≤ nat := by
      have h1 := hnd.length_le_of_subset (l₂ := List.range nat) (fun x hx => List.mem_range.2 (hlt x hx))
      simpa using h1
    obtain ⟨b, hb, hlast⟩ := coordsN_last hne
    have e : (((a : Nat) : Int) :: l.map fun (a : Nat) => (a : Int)).flatMap coords = ((a :: l).flatMap coordsN).map fun (i : Nat) => (i : Int) :=
      coords_nat (a :: l)
    simp only [List.map_cons, activeIdx]
    have hm1 : ¬ ((a : Nat) : Int) = -1 := by omega
    simp only [if_neg hm1, e, List.getLast?_map, hlast, Option.map_some]
    rw [if_neg]
    have := hlt b hb
    rw [List.length_map, coordsN_length]
    omega

/-- For every selection of distinct atoms of the system, given in any order, not all of them, and a force field that has not
been used before: the driver is sent exactly the coordinates of the selected atoms, in the order of the selection; its
forces end up on these atoms and every other atom gets zero. -/
theorem selection_partial [Zero F] (active : List Nat) (nat : Nat) (hne : active ≠ []) (hnd : active.Nodup)
    (hlt : ∀ a ∈ active, a < nat) (hproper : active.length ≠ nat) (drv : List F → List F)
    (hdrv : ∀ p, (drv p).length = p.length) (pos : List F) (hpos : pos.length = 3 * nat) :
    ∃ sent res ff', gather pos (active.flatMap fun (a : Nat) => coords a) = some sent ∧
      forces ⟨active.map fun (a : Nat) => (a : Int), none⟩ drv pos = .ok (ff', res) ∧ res.length = pos.length ∧
      sent.length = 3 * active.length ∧
      (∀ k c (hk : k < active.length), c < 3 → sent[3 * k + c]? = pos[3 * active[k] + c]?) ∧
      (∀ k c (hk : k < active.length), c < 3 → res[3 * active[k] + c]? = (drv sent)[3 * k + c]?) ∧
      (∀ a c, a < nat → a ∉ active → c < 3 → res[3 * a + c]? = some 0) := by
  have e0 : (active.flatMap fun (a : Nat) => coords (a : Int)) = (active.flatMap coordsN).map fun (i : Nat) => (i : Int) := by
    rw [← coords_nat, List.flatMap_map]
  have hltc : ∀ i ∈ active.flatMap coordsN, i < pos.length := by
    intro i hi
    have := hlt _ (mem_coordsN.1 hi)
    omega
  obtain ⟨sent, h1, h2, h3⟩ := gather_nat pos (active.flatMap coordsN) hltc
  have hsl : sent.length = 3 * active.length := by rw [h2, coordsN_length]
  obtain ⟨s1, s2, s3⟩ := scatter_spec pos.length (active.flatMap coordsN) (coordsN_nodup hnd) hltc (drv sent) (by rw [hdrv, h2])
  refine ⟨sent, scatter pos.length ((active.flatMap coordsN).map fun (i : Nat) => (i : Int)) (drv sent),
    ⟨active.map fun (a : Nat) => (a : Int), some ((active.flatMap coordsN).map fun (i : Nat) => (i : Int))⟩,
    by rw [e0]; exact h1, ?_, s1, hsl, ?_, ?_, ?_⟩
  · unfold forces queue
    simp only [hpos, activeIdx_valid active nat hne hnd hlt]
    unfold evaluate
    rw [h1]
    simp only [hdrv, ne_eq, not_true, if_false]
    rw [if_pos (by rw [List.length_map, coordsN_length, hpos]; omega), hpos]
    rfl
  · intro k c hk hc
    have hj : 3 * k + c < (active.flatMap coordsN).length := by rw [coordsN_length]; omega
    rw [h3 _ hj, coordsN_get active k c hk hc hj]
  · intro k c hk hc
    have hj : 3 * k + c < (active.flatMap coordsN).length := by rw [coordsN_length]; omega
    rw [← s2 _ hj, coordsN_get active k c hk hc hj]
  · intro a c ha hna hc
    apply s3 _ (by omega)
    intro hm
    have := mem_coordsN.1 hm
    rw [show (3 * a + c) / 3 = a by omega] at this
    exact hna this

/-- The default selection sends everything and returns the driver's forces unchanged. -/
theorem whole_system [Zero F] (rest : List Int) (drv : List F → List F) (hdrv : ∀ p, (drv p).length = p.length) (pos : List F)
    (hpos : pos ≠ []) : ∃ ff', forces ⟨-1 :: rest, none⟩ drv pos = .ok (ff', drv pos) := by
  have hl : 0 < pos.length := List.length_pos_iff.2 hpos
  obtain ⟨xs, h1, h2, h3⟩ := gather_nat pos (List.range pos.length) (fun i hi => List.mem_range.1 hi)
  have hxs : xs = pos := by
    apply List.ext_getElem?
    intro i
    by_cases hi : i < pos.length
    · have := h3 i (by simpa using hi)
      rw [List.getElem_range] at this; exact this
    · rw [List.getElem?_eq_none (by rw [h2]; simp; omega), List.getElem?_eq_none (by omega)]
  have hlast : (((List.range pos.length).map fun (i : Nat) => (i : Int)).getLast?) = some (((pos.length - 1 : Nat)) : Int) := by
    rw [List.getLast?_map, List.getLast?_range, if_neg (by omega)]; rfl
  refine ⟨⟨-1 :: rest, some ((List.range pos.length).map fun (i : Nat) => (i : Int))⟩, ?_⟩
  unfold forces queue activeIdx
  simp only [if_true, hlast]
  rw [if_neg (by simp; omega)]
  simp only [evaluate, h1, hxs]
  simp [hdrv, Except.map]

theorem gather_length (pos : List F) : ∀ (idx : List Int) (xs : List F), gather pos idx = some xs → xs.length = idx.length
  | [], xs, h => by simp [gather] at h; subst h; rfl
  | i :: is, xs, h => by
    unfold gather at h
    split at h
    · cases h
    · split at h
      · rename_i x ys _ hy
        cases h
        simp [gather_length pos is ys hy]
      · cases h

/-- **For any selection and any driver, also one that misbehaves: forces that are accepted cover the whole system, and the
driver has returned one number per coordinate it was sent.** -/
theorem forces_sized [Zero F] (ff ff' : FF) (drv : List F → List F) (pos f : List F) (h : forces ff drv pos = .ok (ff', f)) :
    f.length = pos.length ∧ ∃ idx sent, queue ff pos.length = .ok (ff', idx) ∧ gather pos idx = some sent ∧
      (drv sent).length = sent.length := by
  unfold forces at h
  split at h
  · cases h
  · rename_i g idx hq
    unfold evaluate at h
    cases hs : gather pos idx with
    | none => simp [hs, Except.map] at h
    | some sent =>
      have hl := gather_length pos idx sent hs
      simp only [hs] at h
      by_cases h1 : (drv sent).length = sent.length
      · rw [if_neg (by simpa using h1)] at h
        by_cases h2 : idx.length = pos.length
        · rw [if_neg (by simpa using h2)] at h
          simp only [Except.map, Except.ok.injEq, Prod.mk.injEq] at h
          obtain ⟨rfl, rfl⟩ := h
          exact ⟨by omega, idx, sent, hq, hs, h1⟩
        · rw [if_pos (by simpa using h2)] at h
          simp only [Except.map, Except.ok.injEq, Prod.mk.injEq] at h
          obtain ⟨rfl, rfl⟩ := h
          refine ⟨?_, idx, sent, hq, hs, h1⟩
          unfold scatter
          rw [foldl_set_length]
          simp
      · rw [if_pos (by simpa using h1)] at h
        simp [Except.map] at h

/-! ### what fails -/

/-- A driver whose force on each coordinate is ten times the coordinate. -/
def tenfold (p : List Nat) : List Nat := p.map (· * 10)


/-- A selection that lists all atoms in another order: the forces are returned in the order of the selection, so each atom gets
the force of another one. Here atoms at 1 and 2 get forces 20 and 10. -/
theorem permuted_selection_wrong :
    (forces ⟨[1, 0], none⟩ tenfold [1, 1, 1, 2, 2, 2]).map (·.2) = .ok [20, 20, 20, 10, 10, 10] := by decide +kernel

/-- Only the last index is checked: this selection of a missing atom is accepted by `queue` and fails later, in the
scheduler's thread. -/
theorem invalid_selection_accepted : (∃ x, queue ⟨[5, 0], none⟩ 6 = .ok x) ∧
    (forces ⟨[5, 0], none⟩ tenfold [1, 1, 1, 2, 2, 2]).map (·.2) = .error .indexError := ⟨⟨_, rfl⟩, by decide +kernel⟩

/-- The indexes are computed for the first system that uses the force field and kept. A later, larger system gets zero force on
its additional atoms, without any error, although no selection was made. -/
theorem second_system_truncated [Zero F] (rest : List Int) (drv : List F → List F) (hdrv : ∀ p, (drv p).length = p.length)
    (pos1 pos2 : List F) (h1 : pos1 ≠ []) (h2 : pos1.length < pos2.length) :
    ∃ ff' ff'' f1 f2, forces ⟨-1 :: rest, none⟩ drv pos1 = .ok (ff', f1) ∧ forces ff' drv pos2 = .ok (ff'', f2) ∧
      f2.length = pos2.length ∧ (∀ i, i < pos1.length → f2[i]? = (drv (pos2.take pos1.length))[i]?) ∧
      ∀ i, pos1.length ≤ i → i < pos2.length → f2[i]? = some 0 := by
  have hl : 0 < pos1.length := List.length_pos_iff.2 h1
  obtain ⟨xs, g1, g2, g3⟩ := gather_nat pos1 (List.range pos1.length) (fun i hi => List.mem_range.1 hi)
  obtain ⟨ys, k1, k2, k3⟩ := gather_nat pos2 (List.range pos1.length) (fun i hi => by have := List.mem_range.1 hi; omega)
  have hys : ys = pos2.take pos1.length := by
    apply List.ext_getElem?
    intro i
    by_cases hi : i < pos1.length
    · have := k3 i (by simpa using hi)
      rw [List.getElem_range] at this
      rw [this, List.getElem?_take, if_pos hi]
    · rw [List.getElem?_eq_none (by rw [k2]; simp; omega), List.getElem?_eq_none (by simp; omega)]
  have hlast : (((List.range pos1.length).map fun (i : Nat) => (i : Int)).getLast?) = some (((pos1.length - 1 : Nat)) : Int) := by
    rw [List.getLast?_map, List.getLast?_range, if_neg (by omega)]; rfl
  obtain ⟨s1, s2, s3⟩ := scatter_spec pos2.length (List.range pos1.length) List.nodup_range
    (fun i hi => by have := List.mem_range.1 hi; omega) (drv ys) (by rw [hdrv, k2])
  refine ⟨⟨-1 :: rest, some ((List.range pos1.length).map fun (i : Nat) => (i : Int))⟩, ⟨-1 :: rest, some ((List.range pos1.length).map fun (i : Nat) => (i : Int))⟩, drv xs, scatter pos2.length ((List.range pos1.length).map fun (i : Nat) => (i : Int)) (drv ys), ?_, ?_, s1, ?_, ?_⟩
  · unfold forces queue activeIdx
    simp only [if_true, hlast]
    rw [if_neg (by simp; omega)]
    simp only [evaluate, g1]
    simp [hdrv, Except.map, g2]
  · unfold forces queue
    simp only [evaluate, k1]
    rw [if_neg (by simp [hdrv]), if_pos (by simp; omega)]
    rfl
  · intro i hi
    have := s2 i (by simpa using hi)
    rw [List.getElem_range] at this
    rw [this, hys]
  · intro i hi1 hi2
    exact s3 i hi2 (by simp; omega)

/-- Non-vacuity of the positive part: three atoms, the last and the first are selected in this order. -/
example : (forces ⟨[2, 0], none⟩ tenfold [1, 1, 1, 2, 2, 2, 3, 3, 3]).map (·.2) = .ok [10, 10, 10, 0, 0, 0, 30, 30, 30] := by
  decide +kernel
example : (2 : Nat) ≠ 3 ∧ [2, 0].Nodup ∧ ∀ a ∈ [2, 0], a < 3 := by decide
/-- The second, larger system of `second_system_truncated`. -/
example : (match forces ⟨[-1], none⟩ tenfold [1, 1, 1] with
    | .ok (ff, _) => (forces ff tenfold [1, 1, 1, 2, 2, 2]).map fun (x : FF × List Nat) => x.2
    | .error e => .error e) = .ok [10, 10, 10, 0, 0, 0] := by decide +kernel

/-- A driver that answers for one atom less is refused. -/
example : (forces ⟨[2, 0], none⟩ (fun p => (tenfold p).drop 3) [1, 1, 1, 2, 2, 2, 3, 3, 3]).map (·.2) = .error .invalidSize := by
  decide +kernel

end Verif.Active
