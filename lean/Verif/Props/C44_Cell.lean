import Verif.Phys.Cell
import Mathlib.LinearAlgebra.Matrix.Determinant.Basic
import Mathlib.Algebra.BigOperators.Fin
import Mathlib.Algebra.Order.BigOperators.Group.Finset
import Mathlib.Algebra.Order.BigOperators.Ring.Finset
import Mathlib.Algebra.Order.Chebyshev
import Mathlib.Analysis.Real.Sqrt
import Mathlib.Tactic.FieldSimp
import Mathlib.Tactic.Ring
import Mathlib.Tactic.Linarith
import Mathlib.Tactic.FinCases
import Mathlib.Tactic.NormNum
import Mathlib.Tactic.Positivity

/-!
# C44, C70: wrapping into the cell and nearest images
-/

namespace Verif.Cell

open Matrix Finset

/-! ## Rounding -/

theorem roundEven_near (x : ℝ) : |x - roundEven x| ≤ 1 / 2 := by
  have h1 := Int.floor_le x
  have h2 := Int.lt_floor_add_one x
  unfold roundEven
  split
  · rw [abs_of_nonneg (by linarith)]; linarith
  · split
    · push_cast; rw [abs_le]; constructor <;> linarith
    · split
      · rw [abs_of_nonneg (by linarith)]; linarith
      · push_cast; rw [abs_le]; constructor <;> linarith

theorem roundEven_small (x : ℝ) (h : |x| ≤ 1 / 2) : roundEven x = 0 := by
  rw [abs_le] at h
  unfold roundEven
  by_cases hx : 0 ≤ x
  · have hf : ⌊x⌋ = 0 := by rw [Int.floor_eq_iff]; constructor <;> push_cast <;> linarith
    rw [hf]
    push_cast
    split
    · rfl
    · rw [if_neg (by linarith)]
  · have hf : ⌊x⌋ = -1 := by rw [Int.floor_eq_iff]; constructor <;> push_cast <;> linarith
    rw [hf]
    push_cast
    rw [if_neg (by linarith)]
    split <;> rfl

/-- The nearest integer is the rounding, when it is nearer than one half. -/
theorem roundEven_unique (x : ℝ) (k : ℤ) (h : |x - k| < 1 / 2) : roundEven x = k := by
  have h1 := roundEven_near x
  rw [abs_le] at h1
  rw [abs_lt] at h
  have h2 : ((roundEven x - k : ℤ) : ℝ) < 1 := by push_cast; linarith
  have h3 : (-1 : ℝ) < ((roundEven x - k : ℤ) : ℝ) := by push_cast; linarith
  have h4 : roundEven x - k < 1 := by exact_mod_cast h2
  have h5 : -1 < roundEven x - k := by exact_mod_cast h3
  omega

/-! ## Inverse and volume -/

/-- **C44, inverse.**  For an upper triangular cell with nonzero diagonal the computed inverse is the
inverse. -/
theorem invUt_mul (h : Mat) (h10 : h 1 0 = 0) (h20 : h 2 0 = 0) (h21 : h 2 1 = 0) (h0 : h 0 0 ≠ 0)
    (h1 : h 1 1 ≠ 0) (h2 : h 2 2 ≠ 0) : invUt h * h = 1 ∧ h * invUt h = 1 := by
  constructor
  · ext i j
    fin_cases i <;> fin_cases j <;>
      simp [invUt, Matrix.mul_apply, Fin.sum_univ_three, h10, h20, h21, h0, h1, h2] <;>
      first | done | (field_simp; done) | (field_simp; ring)
  · ext i j
    fin_cases i <;> fin_cases j <;>
      simp [invUt, Matrix.mul_apply, Fin.sum_univ_three, h10, h20, h21, h0, h1, h2] <;>
      first | done | (field_simp; done) | (field_simp; ring)

/-- **C44, volume.**  The volume is the determinant. -/
theorem detUt_det (h : Mat) (h10 : h 1 0 = 0) (h20 : h 2 0 = 0) (h21 : h 2 1 = 0) :
    detUt h = h.det := by
  rw [Matrix.det_fin_three, h10, h20, h21]
  unfold detUt
  ring

/-! ## Wrapping -/

/-- Two positions are images of each other: they differ by a whole number of cell vectors. -/
def Images (h : Mat) (q q' : Vec) : Prop := ∃ k : Fin 3 → ℤ, q' = q + h *ᵥ (fun i => (k i : ℝ))

variable {h ih : Mat}

theorem frac_eq (s : Vec) : frac s = s + fun i => ((-roundEven (s i) : ℤ) : ℝ) := by
  funext i
  simp only [frac, Pi.add_apply]
  push_cast
  ring

/-- **C44, same position.**  The wrapped position is an image of the original one. -/
theorem wrap_image (hr : h * ih = 1) (q : Vec) : Images h q (wrap h ih q) := by
  refine ⟨fun i => -roundEven ((ih *ᵥ q) i), ?_⟩
  unfold wrap
  rw [frac_eq, Matrix.mulVec_add, Matrix.mulVec_mulVec, hr, Matrix.one_mulVec]

/-- **C44, inside.**  The fractional coordinates of the wrapped position are between `-1/2` and
`1/2`. -/
theorem wrap_inside (hl : ih * h = 1) (q : Vec) (i : Fin 3) : |(ih *ᵥ wrap h ih q) i| ≤ 1 / 2 := by
  unfold wrap
  rw [Matrix.mulVec_mulVec, hl, Matrix.one_mulVec]
  exact roundEven_near _

/-- **C44, once is enough.**  Wrapping a wrapped position does nothing, also on the boundary. -/
theorem wrap_wrap (hl : ih * h = 1) (q : Vec) : wrap h ih (wrap h ih q) = wrap h ih q := by
  have hi := wrap_inside (h := h) hl q
  have hs : frac (ih *ᵥ wrap h ih q) = ih *ᵥ wrap h ih q := by
    funext i
    simp only [frac]
    rw [roundEven_small _ (hi i)]
    simp
  have : wrap h ih (wrap h ih q) = h *ᵥ frac (ih *ᵥ wrap h ih q) := rfl
  rw [this, hs, Matrix.mulVec_mulVec]
  have hr : h * ih = 1 := mul_eq_one_comm.1 hl
  rw [hr, Matrix.one_mulVec]

/-- **C44, images.**  Images of each other are wrapped to the same position, unless they lie on the
boundary of a cell. -/
theorem wrap_of_image (hl : ih * h = 1) (q q' : Vec) (hq : Images h q q')
    (hb : ∀ i, |(ih *ᵥ q) i - roundEven ((ih *ᵥ q) i)| < 1 / 2) : wrap h ih q' = wrap h ih q := by
  obtain ⟨k, rfl⟩ := hq
  unfold wrap
  congr 1
  rw [Matrix.mulVec_add, Matrix.mulVec_mulVec, hl, Matrix.one_mulVec]
  funext i
  simp only [frac, Pi.add_apply]
  rw [roundEven_unique ((ih *ᵥ q) i + k i) (roundEven ((ih *ᵥ q) i) + k i)
    (by push_cast; rw [show (ih *ᵥ q) i + (k i : ℝ) - ((roundEven ((ih *ᵥ q) i) : ℝ) + k i)
      = (ih *ᵥ q) i - roundEven ((ih *ᵥ q) i) by ring]; exact hb i)]
  push_cast
  ring

/-- **C44, many atoms.**  Wrapping a list of positions wraps each one. -/
theorem arrayPbc_eq {N : ℕ} (pos : Fin N → Vec) (a : Fin N) :
    arrayPbc h ih pos a = wrap h ih (pos a) := rfl

/-- **C44** for the cells of the code: upper triangular with nonzero diagonal. -/
theorem cell_wrap (h : Mat) (h10 : h 1 0 = 0) (h20 : h 2 0 = 0) (h21 : h 2 1 = 0) (h0 : h 0 0 ≠ 0)
    (h1 : h 1 1 ≠ 0) (h2 : h 2 2 ≠ 0) (q : Vec) :
    Images h q (wrap h (invUt h) q) ∧ (∀ i, |(invUt h *ᵥ wrap h (invUt h) q) i| ≤ 1 / 2) ∧
    wrap h (invUt h) (wrap h (invUt h) q) = wrap h (invUt h) q := by
  obtain ⟨hl, hr⟩ := invUt_mul h h10 h20 h21 h0 h1 h2
  exact ⟨wrap_image hr q, wrap_inside hl q, wrap_wrap hl q⟩

/-! ## Nearest images -/

/-- Squared length. -/
def len2 (v : Vec) : ℝ := ∑ i, v i ^ 2

theorem minimumDistance_eq (q1 q2 : Vec) : minimumDistance h ih q1 q2 = wrap h ih (q1 - q2) := rfl

/-- **C70, an image.**  The reported vector joins some image of one atom to the other. -/
theorem min_is_image (hr : h * ih = 1) (q1 q2 : Vec) :
    Images h (q1 - q2) (minimumDistance h ih q1 q2) := wrap_image hr _

/-- **C70, orthorhombic cells.**  No image is nearer than the reported one. -/
theorem min_orthorhombic (d : Vec) (hd : ∀ i, d i ≠ 0) (q1 q2 v : Vec)
    (hv : Images (diagonal d) (q1 - q2) v) :
    len2 (minimumDistance (diagonal d) (diagonal fun i => 1 / d i) q1 q2) ≤ len2 v := by
  obtain ⟨k, rfl⟩ := hv
  unfold len2 minimumDistance
  refine sum_le_sum fun i _ => ?_
  rw [Matrix.mulVec_diagonal, Pi.add_apply, Matrix.mulVec_diagonal]
  simp only [frac, Matrix.mulVec_diagonal]
  set x := (q1 - q2) i with hx
  set s := 1 / d i * x with hs
  have hxs : x = d i * s := by rw [hs]; field_simp [hd i]
  have e1 : (d i * (s - roundEven s)) ^ 2 = d i ^ 2 * (s - roundEven s) ^ 2 := by ring
  have e2 : (x + d i * (k i : ℝ)) ^ 2 = d i ^ 2 * (s + k i) ^ 2 := by rw [hxs]; ring
  rw [e1, e2]
  refine mul_le_mul_of_nonneg_left ?_ (sq_nonneg _)
  rw [sq_le_sq]
  by_cases hh : |s - ((-k i : ℤ) : ℝ)| < 1 / 2
  · rw [roundEven_unique s (-k i) hh]
    push_cast
    rw [sub_neg_eq_add]
  · refine le_trans (roundEven_near s) (le_trans (not_lt.1 hh) (le_of_eq ?_))
    push_cast
    rw [sub_neg_eq_add]

/-- The squared distance between the faces normal to the reciprocal vector `i` is
`1 / ∑ⱼ ih i j ^ 2`: the cell is wider than `w` in all three directions. -/
def WiderThan (ih : Mat) (w : ℝ) : Prop := ∀ i, w ^ 2 * ∑ j, ih i j ^ 2 ≤ 1

theorem frac_of_short {w : ℝ} (hw : WiderThan ih w) (v : Vec) (hv : 4 * len2 v < w ^ 2)
    (i : Fin 3) : |(ih *ᵥ v) i| < 1 / 2 := by
  have hcs : ((ih *ᵥ v) i) ^ 2 ≤ (∑ j, ih i j ^ 2) * len2 v := by
    unfold Matrix.mulVec dotProduct len2
    exact sum_mul_sq_le_sq_mul_sq univ _ _
  have hl0 : 0 ≤ len2 v := sum_nonneg fun j _ => sq_nonneg _
  have hS : 0 ≤ ∑ j, ih i j ^ 2 := sum_nonneg fun j _ => sq_nonneg _
  have hw' := hw i
  have h4 : 4 * ((ih *ᵥ v) i) ^ 2 < 1 := by
    rcases hS.eq_or_lt with h0 | h0
    · rw [← h0, zero_mul] at hcs; linarith
    · have : (∑ j, ih i j ^ 2) * (4 * len2 v) < (∑ j, ih i j ^ 2) * w ^ 2 :=
        mul_lt_mul_of_pos_left hv h0
      linarith
  refine abs_lt_of_sq_lt_sq (by linarith) (by norm_num)

/-- **C70, triclinic cells.**  If some image is nearer than half the smallest distance between
opposite faces then it is the reported one, and no other image is as near. -/
theorem min_within_half_width (hl : ih * h = 1) {w : ℝ} (hw : WiderThan ih w) (q1 q2 v : Vec)
    (hv : Images h (q1 - q2) v) (hs : 4 * len2 v < w ^ 2) : minimumDistance h ih q1 q2 = v := by
  have hr : h * ih = 1 := mul_eq_one_comm.1 hl
  have hsym : Images h v (q1 - q2) := by
    obtain ⟨k, rfl⟩ := hv
    refine ⟨fun i => -k i, ?_⟩
    rw [add_assoc, ← Matrix.mulVec_add]
    have : ((fun i => ((k i : ℤ) : ℝ)) + fun i => ((-k i : ℤ) : ℝ)) = 0 := by
      funext i; simp
    rw [this, Matrix.mulVec_zero, add_zero]
  have hz : ∀ i, roundEven ((ih *ᵥ v) i) = 0 := fun i =>
    roundEven_small _ (frac_of_short hw v hs i).le
  have h1 : wrap h ih (q1 - q2) = wrap h ih v := by
    refine wrap_of_image hl v _ hsym fun i => ?_
    rw [hz]
    simpa using frac_of_short hw v hs i
  have h2 : wrap h ih v = v := by
    unfold wrap
    have : frac (ih *ᵥ v) = ih *ᵥ v := by
      funext i; simp only [frac]; rw [hz]; simp
    rw [this, Matrix.mulVec_mulVec, hr, Matrix.one_mulVec]
  rw [minimumDistance_eq, h1, h2]

/-- **C70, the shortest.**  In that case every other image is farther away. -/
theorem min_is_shortest (hl : ih * h = 1) {w : ℝ} (hw : WiderThan ih w) (q1 q2 v v' : Vec)
    (hv : Images h (q1 - q2) v) (hs : 4 * len2 v < w ^ 2) (hv' : Images h (q1 - q2) v') :
    len2 (minimumDistance h ih q1 q2) ≤ len2 v' := by
  by_cases h' : 4 * len2 v' < w ^ 2
  · rw [min_within_half_width hl hw q1 q2 v' hv' h']
  · rw [min_within_half_width hl hw q1 q2 v hv hs]
    linarith

/-- A skewed cell. -/
noncomputable def skew : Mat := !![1, 2 / 5, 0; 0, 1, 0; 0, 0, 1]

/-- Its inverse. -/
noncomputable def iskew : Mat := !![1, -2 / 5, 0; 0, 1, 0; 0, 0, 1]

/-- The difference of two positions, in the plane of the skew. -/
noncomputable def offc : Vec := ![1 / 2 + 9 / 50 - 1 / 100, 9 / 20, 0]

theorem iskew_skew : iskew * skew = 1 ∧ skew * iskew = 1 := by
  constructor <;>
  · ext i j
    fin_cases i <;> fin_cases j <;>
      (simp [skew, iskew, Matrix.mul_apply, Fin.sum_univ_three]; try norm_num)

theorem invUt_skew : invUt skew = iskew := by
  ext i j
  fin_cases i <;> fin_cases j <;> (simp [invUt, skew, iskew]; try norm_num)

/-- **C70 fails as documented.**  In a skewed cell wider than `9/10` in all directions there is an
image nearer than `9/10`, but the reported one is farther away: half the width is needed, not the
width. -/
theorem min_not_shortest : ∃ q1 q2 v : Vec, Images skew (q1 - q2) v ∧
    WiderThan (invUt skew) (9 / 10) ∧ len2 v < (9 / 10) ^ 2 ∧
    len2 v < len2 (minimumDistance skew (invUt skew) q1 q2) := by
  refine ⟨offc, 0, fun i => offc i - skew i 0, ⟨![-1, 0, 0], ?_⟩, ?_, ?_, ?_⟩
  · funext i
    fin_cases i <;> (simp [offc, skew, dotProduct, Fin.sum_univ_three]; try norm_num)
  · rw [invUt_skew]
    intro i
    fin_cases i <;> (simp [iskew, Fin.sum_univ_three]; try norm_num)
  · simp [len2, offc, skew, Fin.sum_univ_three]; norm_num
  · rw [invUt_skew, minimumDistance_eq, sub_zero]
    have hs : ∀ i, roundEven ((iskew *ᵥ offc) i) = 0 := by
      intro i
      refine roundEven_small _ ?_
      fin_cases i <;>
        (simp [iskew, offc, Matrix.mulVec, dotProduct, Fin.sum_univ_three, abs_le]; try norm_num)
    have hw : wrap skew iskew offc = offc := by
      unfold wrap
      have : frac (iskew *ᵥ offc) = iskew *ᵥ offc := by
        funext i; simp only [frac]; rw [hs]; simp
      rw [this, Matrix.mulVec_mulVec, iskew_skew.2, Matrix.one_mulVec]
    rw [hw]
    (simp [len2, offc, skew, Fin.sum_univ_three]; try norm_num)

/-! ## The hypotheses are met -/

/-- A triclinic cell, a position outside it on the boundary of a neighbouring cell. -/
example : skew 1 0 = 0 ∧ skew 2 0 = 0 ∧ skew 2 1 = 0 ∧ skew 0 0 ≠ 0 ∧ skew 1 1 ≠ 0 ∧ skew 2 2 ≠ 0 ∧
    skew 0 1 ≠ 0 := by
  refine ⟨?_, ?_, ?_, ?_, ?_, ?_, ?_⟩ <;> (simp [skew]; try norm_num)

example : roundEven (1 / 2) = 0 ∧ roundEven (3 / 2) = 2 ∧ roundEven (-1 / 2) = 0 := by
  refine ⟨roundEven_small _ (by norm_num), ?_, roundEven_small _ (by norm_num [abs_le])⟩
  have : ⌊(3 / 2 : ℝ)⌋ = 1 := by rw [Int.floor_eq_iff]; norm_num
  unfold roundEven
  rw [this]
  norm_num

/-- Two atoms nearer than half the width of the skewed cell, given far apart. -/
example : WiderThan iskew (9 / 10) ∧ 4 * len2 (![1 / 10, 1 / 10, 0] : Vec) < (9 / 10) ^ 2 ∧
    Images skew (![31 / 10, 1 / 10, 0] - 0) (![1 / 10, 1 / 10, 0]) := by
  refine ⟨fun i => ?_, ?_, ⟨![-3, 0, 0], ?_⟩⟩
  · fin_cases i <;> (simp [iskew, Fin.sum_univ_three]; try norm_num)
  · (simp [len2, Fin.sum_univ_three]; try norm_num)
  · funext i
    fin_cases i <;> (simp [skew, dotProduct, Fin.sum_univ_three]; try norm_num)

end Verif.Cell
