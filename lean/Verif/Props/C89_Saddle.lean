/-
C89: the search for a transition state.  The step climbs along the lowest mode and descends
along all others; the minimising variant descends along every mode; the update of the Hessian
reproduces the observed change of the gradient.
-/
import Verif.Props.C86_Bfgs

namespace Verif.QN

open Matrix

variable {ι κ : Type*} [Fintype ι] [Fintype κ]

/-- The shift lies strictly between the two lowest eigenvalues, and its factor is positive,
except on one boundary. -/
theorem shift_between {d0 d1 : ℝ} (h : d0 < d1) (hb : ¬ (d1 < 0 ∧ d1 = d0 / 2)) :
    0 < (shift d0 d1).1 ∧ d0 < (shift d0 d1).2 ∧ (shift d0 d1).2 < d1 := by
  unfold shift
  split
  · next h0 =>
    have h1 : 0 < d1 := h0.trans h
    split
    · refine ⟨one_pos, ?_, ?_⟩ <;> simp only <;> linarith
    · exact ⟨div_pos (by linarith) h1, by simp only; linarith, by simp only; linarith⟩
  · next h0 =>
    split
    · next h1 =>
      split
      · next h2 =>
        have : d0 / 2 ≠ d1 := fun e => hb ⟨h1, e.symm⟩
        have h3 : d0 / 2 < d1 := lt_of_le_of_ne h2 this
        refine ⟨one_pos, ?_, ?_⟩ <;> simp only <;> linarith
      · exact ⟨div_pos_of_neg_of_neg (by linarith) h1, by simp only; linarith,
          by simp only; linarith⟩
    · next h1 =>
      refine ⟨one_pos, ?_, ?_⟩ <;> simp only <;> linarith

/-- **The transition-state step climbs along the lowest mode and descends along all others.**
For any number of modes, any gradient and any eigenvalues of which one is lowest, except on the
boundary `d1 = d0 / 2 < 0`. -/
theorem saddle_direction {d g : Vec κ} {i k : κ} (h0 : d i < d k)
    (hk : ∀ j, j ≠ i → d k ≤ d j) (hb : ¬ (d k < 0 ∧ d k = d i / 2)) :
    (g i ≠ 0 → 0 < g i * saddleSteps d g i k i) ∧
    ∀ j, j ≠ i → g j ≠ 0 → g j * saddleSteps d g i k j < 0 := by
  obtain ⟨ha, hl, hu⟩ := shift_between h0 hb
  unfold saddleSteps modeStep
  constructor
  · intro hg
    have h1 : 0 < (shift (d i) (d k)).2 - d i := by linarith
    have h2 := mul_self_pos.2 hg
    have e : g i * ((shift (d i) (d k)).1 * g i / ((shift (d i) (d k)).2 - d i))
        = (shift (d i) (d k)).1 * (g i * g i) / ((shift (d i) (d k)).2 - d i) := by ring
    rw [e]
    positivity
  · intro j hj hg
    have h1 : (shift (d i) (d k)).2 - d j < 0 := by linarith [hk j hj]
    have h2 := mul_self_pos.2 hg
    have e : g j * ((shift (d i) (d k)).1 * g j / ((shift (d i) (d k)).2 - d j))
        = (shift (d i) (d k)).1 * (g j * g j) / ((shift (d i) (d k)).2 - d j) := by ring
    rw [e]
    exact div_neg_of_pos_of_neg (by positivity) h1

/-- **On the boundary the code divides by zero**: with two negative eigenvalues, the second
half the first, the shift is the second eigenvalue; and a double lowest eigenvalue is its own
shift. -/
theorem shift_singular :
    (∀ d1 : ℝ, d1 < 0 → (shift (2 * d1) d1).2 = d1) ∧ ∀ d : ℝ, (shift d d).2 = d := by
  constructor
  · intro d1 h
    unfold shift
    rw [if_neg (by linarith), if_pos h, if_pos (by linarith)]
    simp only
    ring
  · intro d
    unfold shift
    split
    · split
      · linarith
      · simp only; ring
    · split
      · split
        · linarith
        · simp only; ring
      · simp only; linarith

/-- **The minimising step descends along every mode.**  Negative eigenvalues, or a Newton step
that is too long, move the shift below the spectrum. -/
theorem min_direction {d g : Vec κ} {i : κ} {big : ℝ} (hb : 0 < big)
    (hi : ∀ j, d i ≤ d j) (hg : g i ≠ 0) (hd : d i ≠ 0) (j : κ) (hj : g j ≠ 0) :
    g j * minSteps d g i big j < 0 := by
  have h2 := mul_self_pos.2 hj
  have key : minShift d g i big - d j < 0 := by
    unfold minShift
    split
    · have : 0 < |g i / big| := abs_pos.2 (div_ne_zero hg hb.ne')
      linarith [hi j]
    · next h =>
      push Not at h
      have : 0 < d i := lt_of_le_of_ne h.1 (Ne.symm hd)
      linarith [hi j]
  unfold minSteps
  rw [mul_div_assoc']
  exact div_neg_of_pos_of_neg h2 key

/-- The step along the lowest mode is cut to the limit when the shift is used. -/
theorem min_lowest {d g : Vec κ} {i : κ} {big : ℝ} (hb : 0 < big) (hg : g i ≠ 0)
    (h : d i < 0 ∨ big ^ 2 < ∑ j, (g j / (0 - d j)) ^ 2) : |minSteps d g i big i| = big := by
  unfold minSteps minShift
  rw [if_pos h, sub_sub_cancel_left, abs_div, abs_neg, abs_abs, abs_div, abs_of_pos hb]
  have : 0 < |g i| := abs_pos.2 hg
  field_simp

/-- **The step limit holds for the lowest mode only**: the shifted step can be longer than the
limit. -/
theorem min_overlong : ∃ (d g : Vec (Fin 2)), (∀ j, d 0 ≤ d j) ∧ 0 < d 0 ∧
    (1 : ℝ) ^ 2 < ∑ j, minSteps d g 0 1 j ^ 2 := by
  refine ⟨![1, 1], ![2, 8], fun j => by fin_cases j <;> simp, by simp, ?_⟩
  have h : minShift ![1, 1] ![2, 8] (0 : Fin 2) 1 = -1 := by
    unfold minShift
    rw [if_pos]
    · norm_num
    · right
      rw [Fin.sum_univ_two]
      norm_num
  unfold minSteps
  rw [h, Fin.sum_univ_two]
  norm_num

/-- Without a negative eigenvalue and within the limit the step is Newton's. -/
theorem min_newton {d g : Vec κ} {i : κ} {big : ℝ}
    (h : ¬ (d i < 0 ∨ big ^ 2 < ∑ j, (g j / (0 - d j)) ^ 2)) (j : κ) (hj : d j ≠ 0) :
    d j * minSteps d g i big j = -g j ∧ ∑ j, minSteps d g i big j ^ 2 ≤ big ^ 2 := by
  unfold minSteps minShift
  rw [if_neg h]
  push Not at h
  exact ⟨by rw [zero_sub]; field_simp, h.2⟩

/-- The work along the cartesian displacement is the work along the modes. -/
theorem mode_work (f m : Vec ι) (w : Matrix ι κ ℝ) (x : Vec κ) :
    (-f) ⬝ᵥ modeMove m w x = modeGrad f m w ⬝ᵥ x := by
  unfold modeGrad
  rw [neg_dotProduct, neg_dotProduct, ← dotProduct_mulVec]
  congr 1
  unfold modeMove dotProduct
  refine Finset.sum_congr rfl fun i _ => ?_
  simp only
  ring

/-- **The cartesian minimising step is downhill**, for any masses and modes. -/
theorem min_downhill {f m : Vec ι} {w : Matrix ι κ ℝ} {d : Vec κ} {i : κ} {big : ℝ}
    (hb : 0 < big) (hi : ∀ j, d i ≤ d j) (hg : modeGrad f m w i ≠ 0) (hd : d i ≠ 0) :
    (-f) ⬝ᵥ modeMove m w (minSteps d (modeGrad f m w) i big) < 0 := by
  rw [mode_work]
  unfold dotProduct
  have : 0 < ∑ j, -(modeGrad f m w j * minSteps d (modeGrad f m w) i big j) := by
    refine Finset.sum_pos' (fun j _ => ?_) ⟨i, Finset.mem_univ _, ?_⟩
    · by_cases hj : modeGrad f m w j = 0
      · rw [hj, zero_mul, neg_zero]
      · linarith [min_direction hb hi hg hd j hj]
    · linarith [min_direction hb hi hg hd i hg]
  rw [Finset.sum_neg_distrib] at this
  linarith

/-- **The update of the Hessian** along a path keeps it symmetric and reproduces the observed
change of the gradient. -/
theorem powell_spec {H : Matrix ι ι ℝ} (h : H.IsSymm) {d : Vec ι} (hd : d ≠ 0) (dg : Vec ι) :
    (powell d dg H).IsSymm ∧ powell d dg H *ᵥ d = dg := by
  have hdd := dot_self_pos hd
  constructor
  · unfold powell
    refine h.add (IsSymm.smul (IsSymm.sub ?_ ((outer_symm _).smul _)) _)
    unfold Matrix.IsSymm outer
    rw [transpose_add, transpose_vecMulVec, transpose_vecMulVec, add_comm]
  · unfold powell
    simp only [add_mulVec, sub_mulVec, smul_mulVec, outer_mulVec]
    set y := dg - H *ᵥ d with hy
    have e : (1 / (d ⬝ᵥ d)) • ((d ⬝ᵥ d) • y + (y ⬝ᵥ d) • d
        - (y ⬝ᵥ d * (1 / (d ⬝ᵥ d))) • (d ⬝ᵥ d) • d) = y := by
      funext k
      simp only [Pi.smul_apply, Pi.add_apply, Pi.sub_apply, smul_eq_mul]
      field_simp
      ring
    rw [e, hy]
    abel

/-- The premises of `saddle_direction`: two modes, one negative eigenvalue. -/
example : (![-1, 2] : Vec (Fin 2)) 0 < (![-1, 2] : Vec (Fin 2)) 1 ∧
    ¬ ((![-1, 2] : Vec (Fin 2)) 1 < 0 ∧
      (![-1, 2] : Vec (Fin 2)) 1 = (![-1, 2] : Vec (Fin 2)) 0 / 2) := by
  constructor <;> norm_num

end Verif.QN
