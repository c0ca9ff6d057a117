import Verif.FF.Fortran
import Mathlib.Data.List.GetD
import Mathlib.Data.List.Flatten
import Mathlib.Algebra.Order.BigOperators.Ring.Finset
import Mathlib.Analysis.InnerProductSpace.PiL2
import Mathlib.Tactic.Ring
import Mathlib.Tactic.FieldSimp
import Mathlib.Tactic.Positivity
import Mathlib.Tactic.NormNum
import Mathlib.Tactic.Linarith

/-!
# C175: the neighbour lists of the Fortran driver

With neighbour lists the driver computes exactly the pairs of atoms that are closer than the cut-off,
whatever it has computed before.
-/

namespace Verif.F90

open Matrix

/-! ### Specification -/

/-- The vector is between the faces of a cell around the origin; half the distance between
opposite faces is at least `R`. -/
def HalfWidth (ih : M3) (R : ℝ) : Prop := ∀ k, 4 * R ^ 2 * ∑ l, ih k l ^ 2 ≤ 1

/-- All pairs of atoms, each once. -/
def allPairs (natoms : ℕ) : List (ℕ × ℕ) :=
  (List.range (natoms - 1)).flatMap fun i => (List.range' (i + 1) (natoms - 1 - i)).map fun j => (i, j)

theorem mem_allPairs (natoms i j : ℕ) : (i, j) ∈ allPairs natoms ↔ i < j ∧ j < natoms := by
  simp only [allPairs, List.mem_flatMap, List.mem_range, List.mem_map, List.mem_range'_1, Prod.mk.injEq]
  constructor
  · rintro ⟨a, ha, b, hb, rfl, rfl⟩
    omega
  · intro h
    exact ⟨i, by omega, j, by omega, rfl, rfl⟩

/-! ### The lists -/

/-- The lists after the first `m` atoms: the end of the part of atom `i`, and all parts. -/
theorem build_spec (part : ℕ → List ℕ) (m : ℕ) :
    (List.range m).foldl (fun (acc : List ℕ × List ℕ) i => (acc.1 ++ [(acc.2 ++ part i).length], acc.2 ++ part i))
        ([], [])
      = ((List.range m).map fun i => ((List.range (i + 1)).flatMap part).length, (List.range m).flatMap part) := by
  induction m with
  | zero => rfl
  | succ m ih =>
    rw [List.range_succ, List.foldl_append, ih]
    simp [List.range_succ]

/-- Every part is found between the ends. -/
theorem part_found (part : ℕ → List ℕ) (m i : ℕ) (hi : i < m) :
    ((((List.range m).flatMap part).take
        (((List.range m).map fun i => ((List.range (i + 1)).flatMap part).length).getD i 0)).drop
        (if i = 0 then 0 else
          ((List.range m).map fun i => ((List.range (i + 1)).flatMap part).length).getD (i - 1) 0))
      = part i := by
  have hg : ∀ k < m, ((List.range m).map fun i => ((List.range (i + 1)).flatMap part).length).getD k 0
      = ((List.range (k + 1)).flatMap part).length := by
    intro k hk
    rw [List.getD_eq_getElem _ _ (by simpa using hk)]
    simp
  have hsplit : (List.range m).flatMap part
      = (List.range (i + 1)).flatMap part ++ ((List.range' (i + 1) (m - (i + 1))).flatMap part) := by
    have : List.range m = List.range (i + 1) ++ List.range' (i + 1) (m - (i + 1)) := by
      rw [List.range_eq_range', List.range_eq_range']
      have := List.range'_append_1 (s := 0) (m := i + 1) (n := m - (i + 1))
      rw [zero_add] at this
      rw [this]
      congr 1
      omega
    rw [this, List.flatMap_append]
  have hstart : (if i = 0 then 0 else
      ((List.range m).map fun i => ((List.range (i + 1)).flatMap part).length).getD (i - 1) 0)
      = ((List.range i).flatMap part).length := by
    split_ifs with h0
    · simp [h0]
    · rw [hg (i - 1) (by omega), show i - 1 + 1 = i by omega]
  rw [hstart, hg i hi, hsplit, List.take_left, List.range_succ, List.flatMap_append, List.drop_left]
  simp

/-- The pairs that are gone through are those closer than the radius when the lists were made. -/
theorem pairs_eq (rn : ℝ) (natoms : ℕ) (atoms : ℕ → V3) (h ih : M3) :
    pairs natoms (nearestNeighbours rn natoms atoms h ih)
      = (allPairs natoms).filter fun p => decide (separation h ih (atoms p.1) (atoms p.2) < rn * rn) := by
  unfold nearestNeighbours
  rw [build_spec (fun i => (List.range' (i + 1) (natoms - 1 - i)).filter
        fun j => decide (separation h ih (atoms i) (atoms j) < rn * rn))]
  simp only [pairs, allPairs, List.filter_flatMap]
  refine List.flatMap_congr fun i hi => ?_
  rw [part_found _ _ _ (List.mem_range.1 hi), List.filter_map]
  rfl

/-! ### The minimum image -/

theorem dnint_eq {x : ℝ} {n : ℤ} (h : |x - n| < 1 / 2) : dnint x = n := by
  rw [abs_lt] at h
  unfold dnint
  split_ifs
  · rw [Int.floor_eq_iff]
    constructor <;> linarith
  · have : ⌊-x + 1 / 2⌋ = -n := by
      rw [Int.floor_eq_iff]
      push_cast
      constructor <;> linarith
    rw [this, neg_neg]

/-- A vector shorter than half the width of the cell is in the cell around the origin. -/
theorem half_lt {ih : M3} {R : ℝ} (hw : HalfWidth ih R) (hR : 0 ≤ R) {v : V3} (hv : v ⬝ᵥ v < R ^ 2) (k : Fin 3) :
    |(ih *ᵥ v) k| < 1 / 2 := by
  have hcs : ((ih *ᵥ v) k) ^ 2 ≤ (∑ l, ih k l ^ 2) * (v ⬝ᵥ v) := by
    have := Finset.sum_mul_sq_le_sq_mul_sq Finset.univ (ih k) v
    simpa [mulVec, dotProduct, sq] using this
  have h0 : 0 ≤ ∑ l, ih k l ^ 2 := Finset.sum_nonneg fun l _ => sq_nonneg _
  have h1 : 4 * ((ih *ᵥ v) k) ^ 2 < 1 := by
    rcases h0.eq_or_lt with e | hp
    · rw [← e, zero_mul] at hcs
      nlinarith
    · have := hw k
      nlinarith [mul_lt_mul_of_pos_left hv hp]
  rw [abs_lt]
  constructor <;> nlinarith

/-- If the vector between two atoms is a short vector plus a vector of the lattice, that short vector
is the result. -/
theorem sep_unique {h ih : M3} (hi : h * ih = 1) {R : ℝ} (hw : HalfWidth ih R) (hR : 0 ≤ R) {ri rj v : V3}
    {n : Fin 3 → ℤ} (hd : ri - rj = v + h *ᵥ fun k => (n k : ℝ)) (hv : v ⬝ᵥ v < R ^ 2) :
    vectorSeparation h ih ri rj = v := by
  have hi' : ih * h = 1 := mul_eq_one_comm.1 hi
  have hs : ∀ k, (ih *ᵥ (ri - rj)) k = (ih *ᵥ v) k + n k := by
    intro k
    rw [hd, mulVec_add, mulVec_mulVec, hi', one_mulVec]
    rfl
  have hn : ∀ k, dnint ((ih *ᵥ (ri - rj)) k) = n k := fun k => dnint_eq (by
    rw [hs k, add_sub_cancel_right]
    exact half_lt hw hR hv k)
  unfold vectorSeparation
  simp only [hn]
  have : (fun k => (ih *ᵥ (ri - rj)) k - (n k : ℝ)) = ih *ᵥ v := by
    funext k
    rw [hs k, add_sub_cancel_right]
  rw [this, mulVec_mulVec, hi, one_mulVec]

/-- The result is the vector between the two atoms, up to a vector of the lattice. -/
theorem sep_lattice {h ih : M3} (hi : h * ih = 1) (ri rj : V3) :
    ∃ n : Fin 3 → ℤ, ri - rj = vectorSeparation h ih ri rj + h *ᵥ fun k => (n k : ℝ) := by
  refine ⟨fun k => dnint ((ih *ᵥ (ri - rj)) k), ?_⟩
  unfold vectorSeparation
  rw [← mulVec_add]
  have : ((fun k => (ih *ᵥ (ri - rj)) k - (dnint ((ih *ᵥ (ri - rj)) k) : ℝ))
      + fun k => (dnint ((ih *ᵥ (ri - rj)) k) : ℝ)) = ih *ᵥ (ri - rj) := by
    funext k
    simp
  rw [this, mulVec_mulVec, hi, one_mulVec]

/-- The length of a vector. -/
noncomputable def len (v : V3) : ℝ := √(v ⬝ᵥ v)

theorem len_eq (v : V3) : len v = ‖WithLp.toLp 2 v‖ := by
  rw [len, EuclideanSpace.norm_eq]
  simp [dotProduct, sq]

theorem len_add (v w : V3) : len (v + w) ≤ len v + len w := by
  rw [len_eq, len_eq, len_eq, WithLp.toLp_add]
  exact norm_add_le _ _

theorem len_neg (v : V3) : len (-v) = len v := by simp [len]

theorem dot_nonneg (v : V3) : 0 ≤ v ⬝ᵥ v := by
  simp only [dotProduct]
  exact Finset.sum_nonneg fun _ _ => mul_self_nonneg _

theorem len_sq (v : V3) : len v ^ 2 = v ⬝ᵥ v := Real.sq_sqrt (dot_nonneg v)

/-- **The lists hold what they must.** If no atom has moved by more than half the difference of the two
radii since the lists were made, two atoms that are now closer than the smaller radius were closer than the larger
one. -/
theorem moved_little {h ih : M3} (hi : h * ih = 1) {rc rn : ℝ} (hrc : 0 ≤ rc) (hcn : rc ≤ rn)
    (hw : HalfWidth ih rn) {ri rj oi oj : V3}
    (h1 : 4 * separation h ih ri oi ≤ (rn - rc) * (rn - rc))
    (h2 : 4 * separation h ih rj oj ≤ (rn - rc) * (rn - rc))
    (hd : separation h ih ri rj < rc * rc) : separation h ih oi oj < rn * rn := by
  obtain ⟨n0, e0⟩ := sep_lattice hi ri rj
  obtain ⟨n1, e1⟩ := sep_lattice hi ri oi
  obtain ⟨n2, e2⟩ := sep_lattice hi rj oj
  have hlen : ∀ {u v : V3}, 4 * separation h ih u v ≤ (rn - rc) * (rn - rc) →
      len (vectorSeparation h ih u v) ≤ (rn - rc) / 2 := by
    intro u v huv
    refine Real.sqrt_le_iff.2 ⟨by linarith, ?_⟩
    have : vectorSeparation h ih u v ⬝ᵥ vectorSeparation h ih u v = separation h ih u v := rfl
    rw [this]
    nlinarith
  set v0 := vectorSeparation h ih ri rj
  set v1 := vectorSeparation h ih ri oi
  set v2 := vectorSeparation h ih rj oj
  have hl0 : len v0 < rc := by
    have hlt : v0 ⬝ᵥ v0 < rc * rc := hd
    have h0 := dot_nonneg v0
    have : 0 < rc := by
      rcases hrc.eq_or_lt with e | e
      · rw [← e] at hlt; linarith
      · exact e
    exact (Real.sqrt_lt' this).2 (by nlinarith)
  have hlw : len (v0 + (-v1 + v2)) < rn := by
    have a := len_add v0 (-v1 + v2)
    have b := len_add (-v1) v2
    rw [len_neg] at b
    have := hlen h1
    have := hlen h2
    linarith
  have hw2 : (v0 + (-v1 + v2)) ⬝ᵥ (v0 + (-v1 + v2)) < rn ^ 2 := by
    rw [← len_sq]
    have : 0 ≤ len (v0 + (-v1 + v2)) := Real.sqrt_nonneg _
    nlinarith
  have e : oi - oj = (v0 + (-v1 + v2)) + h *ᵥ fun k => ((n0 k - n1 k + n2 k : ℤ) : ℝ) := by
    have hm : (h *ᵥ fun k => ((n0 k - n1 k + n2 k : ℤ) : ℝ))
        = (h *ᵥ fun k => (n0 k : ℝ)) - (h *ᵥ fun k => (n1 k : ℝ)) + h *ᵥ fun k => (n2 k : ℝ) := by
      rw [← mulVec_sub, ← mulVec_add]
      congr 1
      funext k
      simp
    rw [hm]
    have : oi - oj = (ri - rj) - (ri - oi) + (rj - oj) := by abel
    rw [this, e0, e1, e2]
    abel
  have := sep_unique hi hw (by linarith) e hw2
  unfold separation
  rw [this]
  nlinarith

/-! ### Histories -/

theorem cellVolume_det (h : M3) : cellVolume h = |h.det| := by
  rw [cellVolume, Matrix.det_fin_three]
  congr 1
  ring

theorem cellVolume_ne {h ih : M3} (hi : h * ih = 1) : cellVolume h ≠ 0 := by
  rw [cellVolume_det]
  have : h.det * ih.det = 1 := by rw [← Matrix.det_mul, hi, Matrix.det_one]
  intro e
  rw [abs_eq_zero] at e
  rw [e, zero_mul] at this
  exact zero_ne_one this

theorem sep_self (h ih : M3) (r : V3) : separation h ih r r = 0 := by
  have : dnint 0 = 0 := dnint_eq (by norm_num)
  have hz : (fun _ : Fin 3 => (0 : ℝ)) = 0 := rfl
  unfold separation vectorSeparation
  simp [this, hz]

/-- The state of the driver after some structures in the same cell. -/
structure Fixed (rn rc : ℝ) (natoms : ℕ) (h ih : M3) (nb : Nb) : Prop where
  rcEq : nb.initRc = rc
  volEq : nb.initVolume = cellVolume h
  rnEq : nb.rn = rn
  lists : nb.lists = nearestNeighbours rn natoms nb.last h ih

theorem Fixed.scaledRc {rn rc : ℝ} {natoms : ℕ} {h ih : M3} {nb : Nb} (hf : Fixed rn rc natoms h ih nb)
    (hi : h * ih = 1) : scaledRc nb h = rc := by
  rw [F90.scaledRc, hf.rcEq, hf.volEq, div_self (cellVolume_ne hi), Real.one_rpow, mul_one]

theorem Fixed.refresh {rc : ℝ} {natoms : ℕ} {h ih : M3} {nb : Nb} (hf : Fixed (1.2 * rc) rc natoms h ih nb)
    (hi : h * ih = 1) (atoms : ℕ → V3) : Fixed (1.2 * rc) rc natoms h ih (refresh nb natoms atoms h ih)
    ∧ ∀ i < natoms, 4 * separation h ih (atoms i) ((F90.refresh nb natoms atoms h ih).last i)
        ≤ (1.2 * rc - rc) * (1.2 * rc - rc) := by
  unfold F90.refresh
  dsimp only
  rw [hf.scaledRc hi]
  split_ifs with hm
  · refine ⟨⟨hf.rcEq, hf.volEq, rfl, by rw [hf.rnEq]⟩, fun i _ => ?_⟩
    rw [sep_self, mul_zero]
    exact mul_self_nonneg _
  · refine ⟨hf, fun i hi => ?_⟩
    by_contra hc
    rw [hf.rnEq] at hm
    exact hm ⟨i, hi, not_le.1 hc⟩

theorem runNb_fixed {rc : ℝ} {natoms : ℕ} {h ih : M3} (hi : h * ih = 1) (hist : List (ℕ → V3)) (atoms : ℕ → V3) :
    ∃ nb, runNb (1.2 * rc) rc natoms ((hist ++ [atoms]).map fun x => ⟨h, ih, x⟩) = some nb
      ∧ Fixed (1.2 * rc) rc natoms h ih nb
      ∧ ∀ i < natoms, 4 * separation h ih (atoms i) (nb.last i) ≤ (1.2 * rc - rc) * (1.2 * rc - rc) := by
  have h0 : ∀ x : ℕ → V3, Fixed (1.2 * rc) rc natoms h ih (initNb (1.2 * rc) rc natoms x h ih) :=
    fun x => ⟨rfl, rfl, rfl, rfl⟩
  cases hist with
  | nil => exact ⟨_, rfl, (h0 atoms).refresh hi atoms⟩
  | cons x l =>
    refine ⟨_, rfl, ?_⟩
    have hl : ∀ (l : List (ℕ → V3)) (nb : Nb), Fixed (1.2 * rc) rc natoms h ih nb →
        Fixed (1.2 * rc) rc natoms h ih ((l.map fun x => (⟨h, ih, x⟩ : Str)).foldl
          (fun nb s => F90.refresh nb natoms s.atoms s.h s.ih) nb) := by
      intro l
      induction l with
      | nil => exact fun nb hn => hn
      | cons y l ihl => exact fun nb hn => ihl _ (hn.refresh hi y).1
    have e : List.map (fun x => (⟨h, ih, x⟩ : Str)) (l.append [atoms])
        = List.map (fun x => (⟨h, ih, x⟩ : Str)) l ++ [⟨h, ih, atoms⟩] := by
      change List.map _ (l ++ [atoms]) = _
      simp
    rw [e, List.foldl_append]
    exact (hl l _ ((h0 x).refresh hi x).1).refresh hi atoms

/-- **C175, for a fixed cell.** Whatever structures have been computed before, the pairs that the lists
give within the cut-off are all pairs of atoms within the cut-off, and the cut-off is the one that was asked for. -/
theorem complete_fixed {rc : ℝ} (hrc : 0 ≤ rc) {natoms : ℕ} {h ih : M3} (hi : h * ih = 1)
    (hw : HalfWidth ih (1.2 * rc)) (hist : List (ℕ → V3)) (atoms : ℕ → V3) :
    ∃ nb, runNb (1.2 * rc) rc natoms ((hist ++ [atoms]).map fun x => ⟨h, ih, x⟩) = some nb
      ∧ scaledRc nb h = rc
      ∧ (pairs natoms nb.lists).filter (fun p => decide (separation h ih (atoms p.1) (atoms p.2) < rc * rc))
        = (allPairs natoms).filter fun p => decide (separation h ih (atoms p.1) (atoms p.2) < rc * rc) := by
  obtain ⟨nb, hr, hf, hm⟩ := runNb_fixed (rc := rc) (natoms := natoms) hi hist atoms
  refine ⟨nb, hr, hf.scaledRc hi, ?_⟩
  rw [hf.lists, pairs_eq, List.filter_filter]
  refine List.filter_congr fun p hp => ?_
  obtain ⟨h1, h2⟩ := (mem_allPairs natoms p.1 p.2).1 hp
  by_cases hd : separation h ih (atoms p.1) (atoms p.2) < rc * rc
  · have := moved_little hi hrc (by linarith) hw (hm p.1 (by omega)) (hm p.2 h2) hd
    simp [hd, this]
  · simp [hd]

/-- Pairs beyond the cut-off are without effect. -/
theorem foldl_near (pair : ℕ → ℕ → ℝ → ℝ × ℝ) (rc : ℝ) (atoms : ℕ → V3) (h ih : M3) (l : List (ℕ × ℕ)) (s : Res) :
    l.foldl (addPair pair rc atoms h ih) s
      = (l.filter fun p => decide (separation h ih (atoms p.1) (atoms p.2) < rc * rc)).foldl
          (addPair pair rc atoms h ih) s := by
  induction l generalizing s with
  | nil => rfl
  | cons p l ihl =>
    by_cases hd : separation h ih (atoms p.1) (atoms p.2) < rc * rc
    · rw [List.filter_cons_of_pos (by simpa using hd), List.foldl_cons, List.foldl_cons, ihl]
    · rw [List.filter_cons_of_neg (by simpa using hd), List.foldl_cons, ← ihl]
      congr 1
      unfold addPair
      exact if_neg hd

/-- **C175, for a fixed cell.** Energy, forces and virial do not depend on what has been computed before: they are
those of the sum over all pairs. -/
theorem history_fixed {rc : ℝ} (hrc : 0 ≤ rc) {natoms : ℕ} {h ih : M3} (hi : h * ih = 1)
    (hw : HalfWidth ih (1.2 * rc)) (hist : List (ℕ → V3)) (atoms : ℕ → V3) (pair : ℕ → ℕ → ℝ → ℝ × ℝ)
    (tail : ℝ → ℝ → ℝ × ℝ) (vol : M3 → ℝ) :
    ∃ nb, runNb (1.2 * rc) rc natoms ((hist ++ [atoms]).map fun x => ⟨h, ih, x⟩) = some nb
      ∧ getall pair tail vol (scaledRc nb h) natoms atoms h ih nb.lists
        = (let s := (allPairs natoms).foldl (addPair pair rc atoms h ih) ⟨0, fun _ _ => 0, 0⟩
          let t := tail rc (vol h)
          ⟨s.pot + t.1, s.forces, Matrix.of fun k l => if k = l then s.virial k l + t.2 else s.virial k l⟩) := by
  obtain ⟨nb, hr, hc, hp⟩ := complete_fixed hrc (natoms := natoms) hi hw hist atoms
  refine ⟨nb, hr, ?_⟩
  rw [hc, getall, foldl_near, hp, ← foldl_near]

/-! ### Cells that change -/

/-- A cubic cell and its inverse. -/
noncomputable def cube (a : ℝ) : M3 := Matrix.of fun i j => if i = j then a else 0

theorem cube_inv {a : ℝ} (ha : a ≠ 0) : cube a * cube a⁻¹ = 1 := by
  ext i j
  simp only [cube, Matrix.mul_apply, Matrix.of_apply, Matrix.one_apply, ite_mul, mul_ite, zero_mul, mul_zero,
    Finset.sum_ite_eq', Finset.mem_univ, if_true]
  split_ifs with hij
  · exact mul_inv_cancel₀ ha
  · rfl

theorem cube_width {a R : ℝ} (ha : 0 < a) (h : 4 * R ^ 2 ≤ a ^ 2) : HalfWidth (cube a⁻¹) R := by
  intro k
  have : ∑ l, cube a⁻¹ k l ^ 2 = (a⁻¹) ^ 2 := by
    simp [cube]
  rw [this, inv_pow, ← div_eq_mul_inv, div_le_one (by positivity)]
  exact h

theorem cube_vol {a : ℝ} (ha : 0 < a) : cellVolume (cube a) = a ^ 3 := by
  simp only [cellVolume, cube, Matrix.of_apply]
  simp
  rw [abs_of_pos (by positivity)]
  ring

/-- Two atoms at a distance of four along the first axis. -/
noncomputable def twoAtoms : ℕ → V3 := fun i => if i = 0 then ![4, 0, 0] else 0

theorem twoAtoms_sep {a : ℝ} (ha : 10 ≤ a) : separation (cube a) (cube a⁻¹) (twoAtoms 0) (twoAtoms 1) = 16 := by
  have hv : vectorSeparation (cube a) (cube a⁻¹) (twoAtoms 0) (twoAtoms 1) = ![4, 0, 0] := by
    refine sep_unique (n := fun _ => 0) (R := 5) (cube_inv (by linarith)) (cube_width (by linarith) (by nlinarith))
      (by norm_num) ?_ ?_
    · have : (fun _ : Fin 3 => ((0 : ℤ) : ℝ)) = 0 := by funext k; simp
      rw [this, mulVec_zero, add_zero]
      simp [twoAtoms]
    · simp [dotProduct, Fin.sum_univ_three]
      norm_num
  rw [separation, hv]
  simp [dotProduct, Fin.sum_univ_three]
  norm_num

/-- **C175, negated.** When the cell grows, the cut-off grows with it, but the lists are not made again: a pair
within the cut-off is missing. -/
theorem missing_pair : ∃ nb,
    runNb (1.2 * 3) 3 2 [⟨cube 20, cube 20⁻¹, twoAtoms⟩, ⟨cube 40, cube 40⁻¹, twoAtoms⟩] = some nb
    ∧ separation (cube 40) (cube 40⁻¹) (twoAtoms 0) (twoAtoms 1)
        < scaledRc nb (cube 40) * scaledRc nb (cube 40)
    ∧ pairs 2 nb.lists = [] := by
  set nb0 := initNb (1.2 * 3) 3 2 twoAtoms (cube 20) (cube 20⁻¹) with hnb0
  have r0 : refresh nb0 2 twoAtoms (cube 20) (cube 20⁻¹) = nb0 := by
    unfold refresh
    dsimp only
    rw [if_neg]
    rintro ⟨i, -, hlt⟩
    rw [hnb0] at hlt
    simp only [initNb] at hlt
    rw [sep_self, mul_zero] at hlt
    exact absurd hlt (not_lt.2 (mul_self_nonneg _))
  have r1 : refresh nb0 2 twoAtoms (cube 40) (cube 40⁻¹) = nb0 := by
    unfold refresh
    dsimp only
    rw [if_neg]
    rintro ⟨i, -, hlt⟩
    rw [hnb0] at hlt
    simp only [initNb] at hlt
    rw [sep_self, mul_zero] at hlt
    exact absurd hlt (not_lt.2 (mul_self_nonneg _))
  have hrc : scaledRc nb0 (cube 40) = 6 := by
    rw [hnb0]
    simp only [scaledRc, initNb]
    rw [cube_vol (by norm_num), cube_vol (by norm_num)]
    have : ((40 : ℝ) ^ 3 / 20 ^ 3) = (2 : ℝ) ^ (3 : ℝ) := by
      have h3 : (2 : ℝ) ^ (3 : ℝ) = (2 : ℝ) ^ (3 : ℕ) := by exact_mod_cast Real.rpow_natCast 2 3
      rw [h3]
      norm_num
    rw [this, ← Real.rpow_mul (by norm_num)]
    norm_num
  refine ⟨nb0, ?_, ?_, ?_⟩
  · simp only [runNb, List.foldl_cons, List.foldl_nil]
    rw [← hnb0, r0, r1]
  · rw [hrc, twoAtoms_sep (by norm_num)]
    norm_num
  · rw [hnb0]
    simp only [initNb]
    rw [pairs_eq]
    have : allPairs 2 = [(0, 1)] := by decide
    rw [this]
    simp only [List.filter_cons, List.filter_nil]
    rw [twoAtoms_sep (by norm_num)]
    norm_num

/-- The same atoms at a distance of eight. -/
noncomputable def farAtoms : ℕ → V3 := fun i => if i = 0 then ![8, 0, 0] else 0

/-- **C175, negated.** Also when the lists are made again they are made with the radius of the smaller cell, which is
changed only afterwards: the pair is missing, now and in the next calculation. -/
theorem missing_after_refresh :
    let nb0 := initNb (1.2 * 3) 3 2 farAtoms (cube 20) (cube 20⁻¹)
    let nb1 := refresh nb0 2 twoAtoms (cube 40) (cube 40⁻¹)
    nb1.last = twoAtoms ∧ refresh nb1 2 twoAtoms (cube 40) (cube 40⁻¹) = nb1
    ∧ separation (cube 40) (cube 40⁻¹) (twoAtoms 0) (twoAtoms 1)
        < scaledRc nb1 (cube 40) * scaledRc nb1 (cube 40)
    ∧ pairs 2 nb1.lists = [] := by
  intro nb0 nb1
  have hrc : ∀ nb : Nb, nb.initRc = 3 → nb.initVolume = 20 ^ 3 → scaledRc nb (cube 40) = 6 := by
    intro nb e1 e2
    rw [scaledRc, e1, e2, cube_vol (by norm_num)]
    have : ((40 : ℝ) ^ 3 / 20 ^ 3) = (2 : ℝ) ^ (3 : ℝ) := by
      have h3 : (2 : ℝ) ^ (3 : ℝ) = (2 : ℝ) ^ (3 : ℕ) := by exact_mod_cast Real.rpow_natCast 2 3
      rw [h3]
      norm_num
    rw [this, ← Real.rpow_mul (by norm_num)]
    norm_num
  have hv0 : nb0.initVolume = 20 ^ 3 := cube_vol (by norm_num)
  have hmv : separation (cube 40) (cube 40⁻¹) (twoAtoms 0) (farAtoms 0) = 16 := by
    have hv : vectorSeparation (cube 40) (cube 40⁻¹) (twoAtoms 0) (farAtoms 0) = ![-4, 0, 0] := by
      refine sep_unique (n := fun _ => 0) (R := 5) (cube_inv (by norm_num)) (cube_width (by norm_num) (by norm_num))
        (by norm_num) ?_ ?_
      · have : (fun _ : Fin 3 => ((0 : ℤ) : ℝ)) = 0 := by funext k; simp
        rw [this, mulVec_zero, add_zero]
        funext k
        fin_cases k <;> simp [twoAtoms, farAtoms] <;> norm_num
      · simp [dotProduct, Fin.sum_univ_three]
        norm_num
    rw [separation, hv]
    simp [dotProduct, Fin.sum_univ_three]
    norm_num
  have e1 : nb1 = { nb0 with lists := nearestNeighbours (1.2 * 3) 2 twoAtoms (cube 40) (cube 40⁻¹), last := twoAtoms,
                             rn := 1.2 * 6 } := by
    change refresh nb0 2 twoAtoms (cube 40) (cube 40⁻¹) = _
    unfold refresh
    dsimp only
    rw [hrc nb0 rfl hv0, if_pos ⟨0, by norm_num, by
      change (1.2 * 3 - 6) * (1.2 * 3 - 6) < 4 * separation (cube 40) (cube 40⁻¹) (twoAtoms 0) (farAtoms 0)
      rw [hmv]
      norm_num⟩]
    rfl
  have hr1 : scaledRc nb1 (cube 40) = 6 := by
    rw [e1]
    exact hrc _ rfl hv0
  refine ⟨by rw [e1], ?_, ?_, ?_⟩
  · unfold refresh
    dsimp only
    rw [if_neg]
    rintro ⟨i, -, hlt⟩
    rw [show nb1.last = twoAtoms by rw [e1], sep_self, mul_zero] at hlt
    exact absurd hlt (not_lt.2 (mul_self_nonneg _))
  · rw [hr1, twoAtoms_sep (by norm_num)]
    norm_num
  · rw [e1]
    dsimp only
    rw [pairs_eq, show allPairs 2 = [(0, 1)] by decide]
    simp only [List.filter_cons, List.filter_nil]
    rw [twoAtoms_sep (by norm_num)]
    norm_num

/-- A fixed cell that satisfies the conditions. -/
example : cube 20 * cube 20⁻¹ = 1 ∧ HalfWidth (cube 20⁻¹) (1.2 * 3) :=
  ⟨cube_inv (by norm_num), cube_width (by norm_num) (by norm_num)⟩

end Verif.F90
