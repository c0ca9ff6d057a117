import Verif.Phys.StringMep
import Verif.Props.C126_Neb
import Mathlib.Tactic.Linarith
import Mathlib.Tactic.FieldSimp
import Mathlib.Tactic.Ring
import Mathlib.Tactic.NormNum

/-!
# C134: the string method
-/

namespace Verif.StringMep

open Finset RealInnerProductSpace

variable {ι : Type} [Fintype ι]

/-! ### Binding -/

/-- No calculation with the string method gets past its preparation: an attribute is read that does not exist. -/
theorem never_starts (fixed : Bool) : run (climbBind fixed) [] = .error (if fixed then "ffixatoms_mask" else "fixatoms") := by
  cases fixed <;> decide +kernel

/-! ### The parameter of the path -/

theorem param_start (n : ℕ) (q : ℕ → EuclideanSpace ℝ ι) : param n q 0 = 0 := by simp [param, len]

theorem param_end (n : ℕ) (q : ℕ → EuclideanSpace ℝ ι) (h : len q (n + 1) ≠ 0) : param n q (n + 1) = 1 := div_self h

lemma len_mono (q : ℕ → EuclideanSpace ℝ ι) : Monotone (len q) := by
  refine monotone_nat_of_le_succ fun i => ?_
  unfold len
  rw [sum_range_succ]
  have := norm_nonneg (q (i + 1) - q i)
  linarith

theorem param_mono (n : ℕ) (q : ℕ → EuclideanSpace ℝ ι) : Monotone (param n q) := by
  intro i j h
  have h0 : 0 ≤ len q (n + 1) := by unfold len; positivity
  exact div_le_div_of_nonneg_right (len_mono q h) h0

/-- What is used of the interpolation: it goes through the points. -/
def Through (S : Interp) (n : ℕ) (t : ℕ → ℝ) : Prop := ∀ v i, i ≤ n + 1 → S t v (t i) = v i

/-- The ends of the path are not moved by the resampling. -/
theorem ends_stay (S : Interp) (n : ℕ) (q : ℕ → EuclideanSpace ℝ ι) (hS : Through S n (param n q)) (h : len q (n + 1) ≠ 0) :
    resample S n q 0 = q 0 ∧ resample S n q (n + 1) = q (n + 1) := by
  constructor
  · ext c
    have h0 : newT n 0 = param n q 0 := by rw [param_start]; simp [newT]
    change S (param n q) (fun j => q j c) (newT n 0) = _
    rw [h0, hS _ 0 (by omega)]
  · ext c
    have h1 : newT n (n + 1) = param n q (n + 1) := by
      rw [param_end n q h]
      unfold newT
      push_cast
      exact div_self (by positivity)
    change S (param n q) (fun j => q j c) (newT n (n + 1)) = _
    rw [h1, hS _ (n + 1) (by omega)]

/-- Beads at equal distances stay where they are. -/
theorem equidistant_stay (S : Interp) (n : ℕ) (q : ℕ → EuclideanSpace ℝ ι) (hS : Through S n (param n q)) (d : ℝ) (hd : 0 < d)
    (h : ∀ j ≤ n, ‖q (j + 1) - q j‖ = d) (i : ℕ) (hi : i ≤ n + 1) : resample S n q i = q i := by
  have hl : ∀ i ≤ n + 1, len q i = i * d := by
    intro i hi
    unfold len
    rw [sum_congr rfl fun j hj => h j (by have := mem_range.1 hj; omega), sum_const, card_range, nsmul_eq_mul]
  ext c
  have h1 : newT n i = param n q i := by
    unfold newT param
    rw [hl i hi, hl (n + 1) le_rfl]
    push_cast
    have : (n : ℝ) + 1 ≠ 0 := by positivity
    field_simp
  change S (param n q) (fun j => q j c) (newT n i) = _
  rw [h1, hS _ i hi]

/-- On a straight path the new beads are at equal distances; splines reproduce straight lines. -/
theorem straight_equidistant (S : Interp) (n : ℕ) (q : ℕ → EuclideanSpace ℝ ι) (hS : ∀ a b s, S (param n q) (fun j => a + param n q j * b) s = a + s * b)
    (a b : EuclideanSpace ℝ ι) (h : ∀ j, q j = a + param n q j • b) (i : ℕ) :
    resample S n q i = a + newT n i • b ∧ ‖resample S n q (i + 1) - resample S n q i‖ = ‖b‖ / (n + 1) := by
  have key : ∀ i, resample S n q i = a + newT n i • b := by
    intro i
    ext c
    change S (param n q) (fun j => q j c) (newT n i) = _
    have e : (fun j => q j c) = fun j => a c + param n q j * b c := by
      funext j
      conv_lhs => rw [h j]
      simp
    rw [e, hS]
    simp
  refine ⟨key i, ?_⟩
  rw [key, key]
  have e : a + newT n (i + 1) • b - (a + newT n i • b) = (1 / ((n : ℝ) + 1)) • b := by
    rw [add_sub_add_left_eq_sub, ← sub_smul]
    congr 1
    unfold newT
    push_cast
    ring
  rw [e, norm_smul, Real.norm_of_nonneg (by positivity)]
  ring

/-! ### Natural splines through three points -/

theorem natural3_through (t : ℕ → ℝ) (h0 : t 0 < t 1) (h1 : t 1 < t 2) : Through natural3 1 t := by
  intro v i hi
  have a0 : t 1 - t 0 ≠ 0 := by linarith
  have a1 : t 2 - t 1 ≠ 0 := by linarith
  have a2 : t 1 - t 0 + (t 2 - t 1) ≠ 0 := by linarith
  unfold natural3
  dsimp only
  interval_cases i
  · rw [if_pos h0.le]
    field_simp
    ring
  · rw [if_pos le_rfl]
    generalize 3 * ((v 2 - v 1) / (t 2 - t 1) - (v 1 - v 0) / (t 1 - t 0)) / (t 1 - t 0 + (t 2 - t 1)) = M
    field_simp
    ring
  · rw [if_neg (by linarith)]
    generalize 3 * ((v 2 - v 1) / (t 2 - t 1) - (v 1 - v 0) / (t 1 - t 0)) / (t 1 - t 0 + (t 2 - t 1)) = M
    field_simp
    ring

theorem natural3_affine (t : ℕ → ℝ) (h0 : t 0 < t 1) (h1 : t 1 < t 2) (a b s : ℝ) : natural3 t (fun j => a + t j * b) s = a + s * b := by
  have a0 : t 1 - t 0 ≠ 0 := by linarith
  have a1 : t 2 - t 1 ≠ 0 := by linarith
  unfold natural3
  dsimp only
  have hM : (a + t 2 * b - (a + t 1 * b)) / (t 2 - t 1) - (a + t 1 * b - (a + t 0 * b)) / (t 1 - t 0) = 0 := by
    field_simp
    ring
  rw [hM]
  split
  · field_simp
    ring
  · field_simp
    ring

/-- The corner: three beads at a right angle, at distances three and four. -/
noncomputable def corner : ℕ → EuclideanSpace ℝ (Fin 2) := fun i => match i with
  | 0 => !₂[0, 3]
  | 1 => !₂[0, 0]
  | _ => !₂[4, 0]

lemma corner_d0 : ‖corner 1 - corner 0‖ = 3 := by
  rw [EuclideanSpace.norm_eq, Fin.sum_univ_two]
  simp [corner]

lemma corner_d1 : ‖corner 2 - corner 1‖ = 4 := by
  rw [EuclideanSpace.norm_eq, Fin.sum_univ_two]
  simp [corner]

lemma corner_param : param 1 corner 0 = 0 ∧ param 1 corner 1 = 3 / 7 ∧ param 1 corner 2 = 1 := by
  have l0 : len corner 0 = 0 := rfl
  have l1 : len corner 1 = 3 := by unfold len; rw [sum_range_one]; exact corner_d0
  have l2 : len corner 2 = 7 := by
    unfold len
    rw [sum_range_succ, sum_range_one]
    change ‖corner 1 - corner 0‖ + ‖corner 2 - corner 1‖ = 7
    rw [corner_d0, corner_d1]
    norm_num
  unfold param
  rw [l0, l1, show (1 + 1 : ℕ) = 2 from rfl, l2]
  norm_num

/-- In general the new beads are not at equal distances: the parameter follows the broken line, the beads the spline. -/
theorem not_equidistant : ∃ q : ℕ → EuclideanSpace ℝ (Fin 2), Through natural3 1 (param 1 q) ∧
    ‖resample natural3 1 q 1 - resample natural3 1 q 0‖ ≠ ‖resample natural3 1 q 2 - resample natural3 1 q 1‖ := by
  obtain ⟨p0, p1, p2⟩ := corner_param
  have ht : Through natural3 1 (param 1 corner) := natural3_through _ (by rw [p0, p1]; norm_num) (by rw [p1, p2]; norm_num)
  refine ⟨corner, ht, ?_⟩
  have hl : len corner (1 + 1) ≠ 0 := by
    intro h
    have : param 1 corner 2 = 0 := by unfold param; rw [h, div_zero]
    rw [p2] at this
    exact one_ne_zero this
  obtain ⟨e0, e2⟩ := ends_stay natural3 1 corner ht hl
  have hn : newT 1 1 = 1 / 2 := by unfold newT; norm_num
  have h0 : (resample natural3 1 corner 1) 0 = 17 / 64 := by
    change natural3 (param 1 corner) (fun j => corner j 0) (newT 1 1) = _
    rw [hn]
    unfold natural3
    dsimp only
    rw [p0, p1, p2, if_neg (by norm_num)]
    simp [corner]
    norm_num
  have h1 : (resample natural3 1 corner 1) 1 = -15 / 64 := by
    change natural3 (param 1 corner) (fun j => corner j 1) (newT 1 1) = _
    rw [hn]
    unfold natural3
    dsimp only
    rw [p0, p1, p2, if_neg (by norm_num)]
    simp [corner]
    norm_num
  intro h
  have h2 : ‖resample natural3 1 corner 1 - resample natural3 1 corner 0‖ ^ 2 = ‖resample natural3 1 corner 2 - resample natural3 1 corner 1‖ ^ 2 := by rw [h]
  rw [e0, e2, EuclideanSpace.norm_sq_eq, EuclideanSpace.norm_sq_eq, Fin.sum_univ_two, Fin.sum_univ_two] at h2
  simp [h0, h1, corner] at h2
  norm_num at h2

/-! ### The forces -/

/-- The force that moves the path has no component along it. -/
theorem across_orthogonal {tangent : EuclideanSpace ℝ ι} (h : ‖tangent‖ = 1) (f : EuclideanSpace ℝ ι) : ⟪across tangent f, tangent⟫ = 0 := by
  unfold across
  rw [inner_sub_left, real_inner_smul_left, real_inner_self_eq_norm_sq, h]
  ring

/-- It vanishes exactly where the force is along the path. -/
theorem across_zero_iff {tangent : EuclideanSpace ℝ ι} (h : ‖tangent‖ = 1) (f : EuclideanSpace ℝ ι) : across tangent f = 0 ↔ ∃ r : ℝ, f = r • tangent := by
  unfold across
  rw [sub_eq_zero]
  constructor
  · intro e
    exact ⟨_, e⟩
  · rintro ⟨r, rfl⟩
    rw [real_inner_smul_left, real_inner_self_eq_norm_sq, h]
    simp

example : across (EuclideanSpace.single (0 : Fin 2) (1 : ℝ)) (EuclideanSpace.single 0 2) = 0 :=
  (across_zero_iff (by simp) _).2 ⟨2, by ext c; simp⟩

/-- The forces of the first step belong to the positions if the beads were at equal distances. -/
theorem first_step_equidistant (S : Interp) (n : ℕ) (force : EuclideanSpace ℝ ι → EuclideanSpace ℝ ι) (q : ℕ → EuclideanSpace ℝ ι)
    (hS : Through S n (param n q)) (d : ℝ) (hd : 0 < d) (h : ∀ j ≤ n, ‖q (j + 1) - q j‖ = d) (i : ℕ) (hi : i ≤ n + 1) :
    (firstStep S n force q i).2 = force (firstStep S n force q i).1 := by
  unfold firstStep
  rw [equidistant_stay S n q hS d hd h i hi]

/-- Otherwise they are the forces at other positions. -/
theorem first_step_wrong : ∃ (q : ℕ → EuclideanSpace ℝ (Fin 2)) (force : EuclideanSpace ℝ (Fin 2) → EuclideanSpace ℝ (Fin 2)),
    Through natural3 1 (param 1 q) ∧ (firstStep natural3 1 force q 1).2 ≠ force (firstStep natural3 1 force q 1).1 := by
  obtain ⟨p0, p1, p2⟩ := corner_param
  refine ⟨corner, fun x => x, natural3_through _ (by rw [p0, p1]; norm_num) (by rw [p1, p2]; norm_num), ?_⟩
  have hn : newT 1 1 = 1 / 2 := by unfold newT; norm_num
  intro h
  have h0 := congrFun (congrArg (fun v : EuclideanSpace ℝ (Fin 2) => (v : Fin 2 → ℝ)) h) 0
  have e : (resample natural3 1 corner 1) 0 = 17 / 64 := by
    change natural3 (param 1 corner) (fun j => corner j 0) (newT 1 1) = _
    rw [hn]
    unfold natural3
    dsimp only
    rw [p0, p1, p2, if_neg (by norm_num)]
    simp [corner]
    norm_num
  change corner 1 0 = (resample natural3 1 corner 1) 0 at h0
  rw [e] at h0
  norm_num [corner] at h0

end Verif.StringMep
