/-
C88: the trust-radius, damped BFGS and FIRE optimisers.  The trust-radius step is the best one
of its length for the quadratic model and predicts a lower energy; an accepted long step lowers
the energy; the updated Hessians stay symmetric and positive definite; the step limits hold.
-/
import Verif.Props.C86_Bfgs

namespace Verif.QN

open Matrix

variable {ι : Type*} [Fintype ι]

/-! ### The trust-radius step -/

/-- The predicted change of energy in the basis of the eigenvectors. -/
noncomputable def predicted (d g z : Vec ι) : ℝ := ∑ i, (-(g i * z i) + 1 / 2 * d i * z i ^ 2)

/-- The predicted change is the one the optimiser computes, for the step taken along the
eigenvectors `w`. -/
theorem expected_predicted [DecidableEq ι] {w h : Matrix ι ι ℝ} {d f : Vec ι}
    (hw : wᵀ * w = 1) (hh : h = w * diagonal d * wᵀ) (z : Vec ι) :
    expected f h (w *ᵥ z) = predicted d (f ᵥ* w) z := by
  have h1 : f ⬝ᵥ (w *ᵥ z) = (f ᵥ* w) ⬝ᵥ z := by rw [dotProduct_mulVec]
  have h2 : (w *ᵥ z) ⬝ᵥ (h *ᵥ (w *ᵥ z)) = z ⬝ᵥ (diagonal d *ᵥ z) := by
    have e : h *ᵥ (w *ᵥ z) = w *ᵥ (diagonal d *ᵥ z) := by
      rw [mulVec_mulVec, hh, Matrix.mul_assoc, hw, Matrix.mul_one, ← mulVec_mulVec]
    rw [e, dotProduct_mulVec, ← mulVec_transpose, mulVec_mulVec, hw, one_mulVec]
  unfold expected predicted
  rw [h1, h2]
  unfold dotProduct
  rw [Finset.mul_sum, ← Finset.sum_neg_distrib, ← Finset.sum_add_distrib]
  refine Finset.sum_congr rfl fun i _ => ?_
  rw [mulVec_diagonal]
  ring

/-- A shift that makes every eigenvalue positive gives the best step of its length. -/
theorem shifted_best {d g : Vec ι} {l : ℝ} (h0 : 0 ≤ l) (hl : ∀ i, 0 < d i + l) (z : Vec ι)
    (hz : z ⬝ᵥ z ≤ trmShifted d g l ⬝ᵥ trmShifted d g l) :
    predicted d g (trmShifted d g l) ≤ predicted d g z := by
  have key : predicted d g (trmShifted d g l)
      + 1 / 2 * l * (trmShifted d g l ⬝ᵥ trmShifted d g l)
      ≤ predicted d g z + 1 / 2 * l * (z ⬝ᵥ z) := by
    unfold predicted dotProduct
    rw [Finset.mul_sum, Finset.mul_sum, ← Finset.sum_add_distrib, ← Finset.sum_add_distrib]
    refine Finset.sum_le_sum fun i _ => ?_
    have hp := hl i
    have e : g i = trmShifted d g l i * (d i + l) := by
      unfold trmShifted; field_simp
    have h2 : 0 ≤ (d i + l) * (z i - trmShifted d g l i) ^ 2 := by positivity
    rw [e]
    generalize trmShifted d g l i = x at *
    nlinarith
  nlinarith

/-- The predicted change of a shifted step. -/
theorem shifted_lower {d g : Vec ι} {l : ℝ} (h0 : 0 ≤ l) (hl : ∀ i, 0 < d i + l)
    (hg : g ≠ 0) : predicted d g (trmShifted d g l) < 0 ∧ 0 < g ⬝ᵥ trmShifted d g l := by
  have hne : ∃ i, g i ≠ 0 := Function.ne_iff.1 hg
  obtain ⟨j, hj⟩ := hne
  constructor
  · unfold predicted
    have ht : ∀ i, -(g i * trmShifted d g l i) + 1 / 2 * d i * trmShifted d g l i ^ 2
        = -((1 / 2 * (d i + l) + 1 / 2 * l) * trmShifted d g l i ^ 2) := by
      intro i
      have hp := hl i
      unfold trmShifted
      field_simp
      ring
    simp only [ht]
    rw [Finset.sum_neg_distrib, neg_lt_zero]
    refine Finset.sum_pos' (fun i _ => ?_) ⟨j, Finset.mem_univ _, ?_⟩
    · have hp := hl i; positivity
    · have hp := hl j
      have : trmShifted d g l j ≠ 0 := by
        unfold trmShifted; exact div_ne_zero hj hp.ne'
      positivity
  · unfold dotProduct
    refine Finset.sum_pos' (fun i _ => ?_) ⟨j, Finset.mem_univ _, ?_⟩
    · have hp := hl i
      unfold trmShifted
      rw [mul_div_assoc']
      exact div_nonneg (mul_self_nonneg _) hp.le
    · have hp := hl j
      unfold trmShifted
      rw [mul_div_assoc']
      exact div_pos (mul_self_pos.2 hj) hp

/-- The search keeps its shift between its bounds, above the first lower one. -/
theorem trmSearch_bounds (d gE : Vec ι) (tr : ℝ) (n : Nat) : ∀ lmin lmax lamb : ℝ,
    lmin < lamb → lamb < lmax → lmin < trmSearch d gE tr n lmin lmax lamb := by
  induction n with
  | zero => intro lmin lmax lamb h1 _; exact h1
  | succ n ih =>
    intro lmin lmax lamb h1 h2
    cases n with
    | zero => exact h1
    | succ n =>
      simp only [trmSearch]
      cases e : trmShift d gE tr lmin lmax lamb with
      | none => exact h1
      | some t =>
        obtain ⟨a, b, c⟩ := t
        simp only
        have hab : lmin ≤ a ∧ a < c ∧ c < b := by
          unfold trmShift at e
          simp only at e
          split at e
          · exact absurd e (by simp)
          · simp only [Option.some.injEq, Prod.mk.injEq] at e
            obtain ⟨rfl, rfl, rfl⟩ := e
            split
            · rw [min_eq_left h2.le]
              refine ⟨le_rfl, ?_⟩
              split
              · constructor <;> linarith
              · next h => push Not at h; exact h
            · rw [max_eq_left h1.le]
              refine ⟨h1.le, ?_⟩
              split
              · constructor <;> linarith
              · next h => push Not at h; exact h
        exact lt_of_le_of_lt hab.1 (ih a b c hab.2.1 hab.2.2)

/-- There is no step along modes with a curvature of zero. -/
theorem minTrm_zero_modes (d g : Vec ι) (tr : ℝ) (i : ι) (h1 : -(1 / 10 ^ 7) ≤ d i)
    (h2 : d i < 1 / 10 ^ 7) : minTrm d g tr i = 0 := by
  have e : trmForce d g i = 0 := by
    unfold trmForce
    rw [if_pos ⟨h1, h2⟩]
  unfold minTrm
  simp only
  split
  · unfold trmNewton
    simp [e]
  · unfold trmShifted
    simp [e]

/-- The shift used makes every eigenvalue positive. -/
theorem minTrm_shift {d g : Vec ι} {tr : ℝ} [Nonempty ι] (hd : ∀ i, -(10 ^ 29 : ℝ) < d i)
    (h : ¬ (0 < (⨅ i, d i) ∧ norm (trmNewton d (trmForce d g)) < tr)) :
    ∃ l : ℝ, 0 ≤ l ∧ (∀ i, 0 < d i + l) ∧ minTrm d g tr = trmShifted d (trmForce d g) l := by
  have hlow : ∀ i, (⨅ i, d i) ≤ d i := fun i => ciInf_le (Set.finite_range d).bddBelow i
  obtain ⟨j, hj⟩ := exists_eq_ciInf_of_finite (f := d)
  have hlow' : -(10 ^ 29 : ℝ) < ⨅ i, d i := by rw [← hj]; exact hd j
  set low := ⨅ i, d i with hl
  have hmax : max 0 (-low) < (10 ^ 29 : ℝ) := by
    rw [max_lt_iff]; exact ⟨by norm_num, by linarith⟩
  have hb := trmSearch_bounds d (trmForce d g) tr 100 (max 0 (-low)) (10 ^ 30)
    (min (max 0 (-low) + 1 / 2) (1 / 2 * (max 0 (-low) + 10 ^ 30)))
    (lt_min (by linarith) (by linarith [show (10 : ℝ) ^ 30 = 10 * 10 ^ 29 by norm_num,
      show (0 : ℝ) < 10 ^ 29 by norm_num]))
    (lt_of_le_of_lt (min_le_left _ _) (by
      have : (10 : ℝ) ^ 29 + 1 < 10 ^ 30 := by norm_num
      linarith))
  refine ⟨_, (le_max_left 0 (-low)).trans hb.le, fun i => ?_, ?_⟩
  · have h1 := hlow i
    have h2 := le_max_right 0 (-low)
    linarith
  · unfold minTrm
    simp only
    rw [if_neg (by rw [← hl]; exact h)]

/-- **The trust-radius step predicts a lower energy**, and points along the forces, for every
Hessian and every radius, however the search for the shift ends, unless the forces (without
those along the zero modes, and the stiff part of a step inside the radius) vanish. -/
theorem minTrm_lower [Nonempty ι] {d g : Vec ι} {tr : ℝ} (hd : ∀ i, -(10 ^ 29 : ℝ) < d i)
    (hn : minTrm d g tr ≠ 0) :
    predicted d (trmForce d g) (minTrm d g tr) < 0 ∧
      0 < trmForce d g ⬝ᵥ minTrm d g tr := by
  by_cases h : 0 < (⨅ i, d i) ∧ norm (trmNewton d (trmForce d g)) < tr
  · have e : minTrm d g tr = trmNewton d (trmForce d g) := by
      unfold minTrm; simp only; rw [if_pos h]
    rw [e] at hn ⊢
    have hlow : ∀ i, 0 < d i := fun i => lt_of_lt_of_le h.1
      (ciInf_le (Set.finite_range d).bddBelow i)
    set gE := trmForce d g
    have hx : ∀ i, gE i * trmNewton d gE i = d i * trmNewton d gE i ^ 2 := by
      intro i
      have hp := hlow i
      unfold trmNewton
      split
      · field_simp
      · simp
    obtain ⟨j, hj⟩ := Function.ne_iff.1 hn
    have hpos : 0 < ∑ i, d i * trmNewton d gE i ^ 2 := by
      refine Finset.sum_pos' (fun i _ => ?_) ⟨j, Finset.mem_univ _, ?_⟩
      · have hp := hlow i; positivity
      · have hp := hlow j
        have : trmNewton d gE j ≠ 0 := hj
        positivity
    constructor
    · unfold predicted
      have : ∀ i, -(gE i * trmNewton d gE i) + 1 / 2 * d i * trmNewton d gE i ^ 2
          = -(1 / 2) * (d i * trmNewton d gE i ^ 2) := by
        intro i; rw [hx i]; ring
      simp only [this]
      rw [← Finset.mul_sum]
      linarith
    · unfold dotProduct
      simp only [hx]
      exact hpos
  · obtain ⟨l, h0, hl, e⟩ := minTrm_shift hd h
    rw [e] at hn ⊢
    refine shifted_lower h0 hl ?_
    intro hz
    apply hn
    rw [hz]
    funext i
    simp [trmShifted]

/-- **The trust-radius step is the best of its length** for the quadratic model without its
zero modes, unless it is the plain Newton step. -/
theorem minTrm_best [Nonempty ι] {d g : Vec ι} {tr : ℝ} (hd : ∀ i, -(10 ^ 29 : ℝ) < d i)
    (h : ¬ (0 < (⨅ i, d i) ∧ norm (trmNewton d (trmForce d g)) < tr)) (z : Vec ι)
    (hz : norm z ≤ norm (minTrm d g tr)) :
    predicted d (trmForce d g) (minTrm d g tr) ≤ predicted d (trmForce d g) z := by
  obtain ⟨l, h0, hl, e⟩ := minTrm_shift hd h
  rw [e] at hz ⊢
  refine shifted_best h0 hl z ?_
  rw [← norm_sq, ← norm_sq]
  exact pow_le_pow_left₀ (norm_nonneg' z) hz 2

/-- The Newton step is the best of all when no eigenvalue is small. -/
theorem minTrm_newton [Nonempty ι] {d g : Vec ι} {tr : ℝ} (hd : ∀ i, 1 / 10 ^ 5 < d i)
    (h : norm (trmNewton d (trmForce d g)) < tr) :
    (∀ i, d i * minTrm d g tr i = g i) ∧ norm (minTrm d g tr) < tr ∧
      ∀ z, predicted d g (minTrm d g tr) ≤ predicted d g z := by
  obtain ⟨j, hj⟩ := exists_eq_ciInf_of_finite (f := d)
  have hpos : ∀ i, 0 < d i := fun i => lt_trans (by norm_num) (hd i)
  have h0 : 0 < ⨅ i, d i := hj ▸ hpos j
  have e : minTrm d g tr = trmNewton d (trmForce d g) := by
    unfold minTrm; simp only; rw [if_pos ⟨h0, h⟩]
  have hx : ∀ i, d i * minTrm d g tr i = g i := by
    intro i
    have hp := hpos i
    rw [e]
    unfold trmNewton trmForce
    rw [if_pos (by rw [abs_of_pos hp]; exact hd i), if_neg]
    · field_simp
    · have := hd i
      rintro ⟨-, h2⟩
      norm_num at this h2
      linarith
  refine ⟨hx, e ▸ h, fun z => ?_⟩
  unfold predicted
  refine Finset.sum_le_sum fun i _ => ?_
  have hp := hpos i
  have h2 : 0 ≤ d i * (z i - minTrm d g tr i) ^ 2 := by positivity
  rw [← hx i]
  nlinarith

/-! ### Accepting a step -/

/-- What an accepted pass has found. -/
theorem trmPass_accept {map : Vec ι → ℝ × Vec ι} {find : ℝ → Vec ι} {x0 f0 : Vec ι} {u0 : ℝ}
    {h0 : Matrix ι ι ℝ} {big tr : ℝ}
    (ha : (trmPass map find x0 u0 f0 h0 big tr).1) (hexp : expected f0 h0 (find tr) < 0) :
    gain (map (x0 + find tr)).1 u0 (map (x0 + find tr)).2 f0 (find tr)
      < 1 / 10 * expected f0 h0 (find tr) := by
  unfold trmPass quotGt at ha
  simp only at ha
  rcases ha with ⟨-, h⟩ | ⟨h, -⟩
  · rwa [lt_div_iff_of_neg hexp] at h
  · exact absurd h hexp.ne

/-- **An accepted trust-radius step lowers the energy.**  However many trials the loop needed:
the displacement it ends on is the one proposed for some radius and, if longer than 0.05 and
predicted to lower the energy, it lowers it by at least a tenth of the prediction.  Missing for
the full property: shorter steps are accepted on the work of the averaged forces, without
looking at the energy. -/
theorem trmLoop_lowers_partial {map : Vec ι → ℝ × Vec ι} {find : ℝ → Vec ι} {x0 f0 : Vec ι}
    {u0 : ℝ} {h0 : Matrix ι ι ℝ} {big : ℝ}
    (hexp : ∀ tr, find tr ≠ 0 → expected f0 h0 (find tr) < 0) (n : Nat) :
    ∀ {tr : ℝ} {dx : Vec ι} {tr' : ℝ},
      trmLoop map find x0 u0 f0 h0 big n tr = some (dx, tr') →
      (∃ t, dx = find t) ∧ (1 / 20 < norm dx →
        (map (x0 + dx)).1 < u0 + 1 / 10 * expected f0 h0 dx ∧ (map (x0 + dx)).1 < u0) ∧
      (¬ 1 / 20 < norm dx → dx ≠ 0 → 0 < dx ⬝ᵥ (f0 + (map (x0 + dx)).2)) := by
  induction n with
  | zero => intro tr dx tr' h; exact absurd h (by simp [trmLoop])
  | succ n ih =>
    intro tr dx tr' h
    unfold trmLoop at h
    simp only at h
    split at h
    · next ha =>
      simp only [Option.some.injEq, Prod.mk.injEq] at h
      have e : dx = find tr := h.1.symm
      refine ⟨⟨tr, e⟩, fun hn => ?_, fun hn hne => ?_⟩
      · have hne : find tr ≠ 0 := by
          intro h0'
          rw [e, h0'] at hn
          simp [norm] at hn
          norm_num at hn
        have hx := hexp tr hne
        have := trmPass_accept ha hx
        rw [← e] at this hx
        unfold gain at this
        rw [if_pos hn] at this
        constructor <;> linarith
      · rw [e] at hne
        have hx := hexp tr hne
        have := trmPass_accept ha hx
        rw [← e] at this hx
        unfold gain at this
        rw [if_neg hn] at this
        linarith
    · exact ih h

/-- **The loop with the step of `min_trm`.**  Along the eigenvectors of the Hessian the
premise about the prediction is met, so that every accepted step longer than 0.05 lowers the
energy, provided the forces have no part along the zero modes. -/
theorem trmLoop_minTrm [DecidableEq ι] [Nonempty ι] {map : Vec ι → ℝ × Vec ι} {x0 f0 : Vec ι}
    {u0 : ℝ} {w h0 : Matrix ι ι ℝ} {d : Vec ι} {big : ℝ} (hw : wᵀ * w = 1)
    (hh : h0 = w * diagonal d * wᵀ) (hd : ∀ i, -(10 ^ 29 : ℝ) < d i)
    (hz : trmForce d (f0 ᵥ* w) = f0 ᵥ* w) (n : Nat) {tr : ℝ} {dx : Vec ι} {tr' : ℝ}
    (h : trmLoop map (fun t => w *ᵥ minTrm d (f0 ᵥ* w) t) x0 u0 f0 h0 big n tr
      = some (dx, tr')) (hn : 1 / 20 < norm dx) : (map (x0 + dx)).1 < u0 := by
  refine ((trmLoop_lowers_partial (fun t ht => ?_) n h).2.1 hn).2
  rw [expected_predicted hw hh]
  have hne : minTrm d (f0 ᵥ* w) t ≠ 0 := by
    intro e
    apply ht
    rw [e, mulVec_zero]
  have := (minTrm_lower hd hne).1
  rwa [hz] at this

/-- A rejected trial halves the step: the next radius is half the length of the one tried,
unless the comparison was not a number. -/
theorem trm_reject_halves {map : Vec ι → ℝ × Vec ι} {find : ℝ → Vec ι} {x0 f0 : Vec ι} {u0 : ℝ}
    {h0 : Matrix ι ι ℝ} {big tr : ℝ} (ha : ¬ (trmPass map find x0 u0 f0 h0 big tr).1)
    (hexp : expected f0 h0 (find tr) ≠ 0) :
    (trmPass map find x0 u0 f0 h0 big tr).2.2 = norm (find tr) / 2 := by
  unfold trmPass at ha ⊢
  simp only at ha ⊢
  unfold newRadius
  rw [if_pos]
  unfold quotGt at ha
  push Not at ha
  exact .inl ⟨hexp, lt_of_le_of_lt (ha.1 hexp) (by norm_num)⟩

/-- The trust radius stays positive and within the limit. -/
theorem newRadius_spec {num den dxn tr big : ℝ} (h0 : 0 < dxn) (h1 : 0 < tr) (h2 : tr ≤ big)
    (h3 : dxn ≤ 2 * big) :
    0 < newRadius num den dxn tr big ∧ newRadius num den dxn tr big ≤ big := by
  unfold newRadius
  split
  · constructor <;> linarith
  · split
    · split
      · next h => exact ⟨by linarith, le_rfl⟩
      · next h => exact ⟨by linarith, not_lt.1 h⟩
    · exact ⟨h1, h2⟩

/-- **At a stationary point the trust-radius loop never ends.**  With zero forces the step is
zero, its quality `0 / 0` is never above the threshold, and the radius is not changed by it:
no number of passes is enough. -/
theorem trmLoop_endless (map : Vec ι → ℝ × Vec ι) (x0 : Vec ι) (h0 : Matrix ι ι ℝ)
    (big tr : ℝ) (u0 : ℝ) (hf : (map x0).2 = 0) (n : Nat) :
    trmLoop map (fun _ => 0) x0 u0 0 h0 big n tr = none := by
  have hp : trmPass map (fun _ => 0) x0 u0 0 h0 big tr = (False, 0, tr) := by
    have he : expected 0 h0 (0 : Vec ι) = 0 := by simp [expected]
    have hn : norm (0 : Vec ι) = 0 := by simp [norm]
    have hg : gain (map (x0 + 0)).1 u0 (map (x0 + 0)).2 0 (0 : Vec ι) = 0 := by
      unfold gain
      rw [if_neg (by rw [hn]; norm_num)]
      simp
    unfold trmPass
    simp only
    rw [he, hg, hn]
    have h1 : ¬ quotGt 0 0 (1 / 10) := by unfold quotGt; simp
    have h2 : newRadius 0 0 0 tr big = tr := by
      unfold newRadius quotGt quotLt
      simp
    rw [h2]
    exact Prod.ext (propext ⟨fun h => h1 h, fun h => h.elim⟩) rfl
  induction n with
  | zero => rfl
  | succ n ih =>
    unfold trmLoop
    simp only [hp, if_false]
    exact ih

/-- The step of `min_trm` is zero when the forces are, which is the case above. -/
theorem minTrm_zero (d : Vec ι) (tr : ℝ) : minTrm d 0 tr = 0 := by
  have e : trmForce d 0 = 0 := by funext i; simp [trmForce]
  unfold minTrm
  simp only
  rw [e]
  split
  · funext i; simp [trmNewton]
  · funext i; simp [trmShifted]

/-! ### Updates of the Hessian -/

/-- The update common to the trust-radius and the damped method is a BFGS update of the
Hessian: positive definite, and it maps the step to the change of gradient. -/
theorem direct_update {B : Matrix ι ι ℝ} (h : PosDef B) {s y : Vec ι} (hc : 0 < s ⬝ᵥ y) :
    PosDef (B + ((1 / (s ⬝ᵥ y)) • outer y y
      - (1 / (s ⬝ᵥ (B *ᵥ s))) • outer (B *ᵥ s) (B *ᵥ s))) ∧
    (B + ((1 / (s ⬝ᵥ y)) • outer y y
      - (1 / (s ⬝ᵥ (B *ᵥ s))) • outer (B *ᵥ s) (B *ᵥ s))) *ᵥ s = y := by
  have hs : s ≠ 0 := by rintro rfl; simp at hc
  have hp := h.2 s hs
  refine ⟨⟨h.1.add (((outer_symm _).smul _).sub ((outer_symm _).smul _)), fun z hz => ?_⟩, ?_⟩
  · have e : z ⬝ᵥ ((B + ((1 / (s ⬝ᵥ y)) • outer y y
        - (1 / (s ⬝ᵥ (B *ᵥ s))) • outer (B *ᵥ s) (B *ᵥ s))) *ᵥ z)
        = z ⬝ᵥ (B *ᵥ z) - (z ⬝ᵥ (B *ᵥ s)) ^ 2 / (s ⬝ᵥ (B *ᵥ s))
          + (z ⬝ᵥ y) ^ 2 / (s ⬝ᵥ y) := by
      simp only [add_mulVec, sub_mulVec, smul_mulVec, outer_mulVec, dotProduct_add,
        dotProduct_sub, dotProduct_smul, smul_eq_mul]
      rw [dotProduct_comm y z, dotProduct_comm (B *ᵥ s) z]
      ring
    rw [e]
    obtain ⟨h1, h2⟩ := h.gap hs z
    have h4 : 0 ≤ (z ⬝ᵥ y) ^ 2 / (s ⬝ᵥ y) := by positivity
    by_cases hzt : z = ((z ⬝ᵥ (B *ᵥ s)) / (s ⬝ᵥ (B *ᵥ s))) • s
    · set t := (z ⬝ᵥ (B *ᵥ s)) / (s ⬝ᵥ (B *ᵥ s)) with ht
      have ht0 : t ≠ 0 := fun e => hz (by rw [hzt, e, zero_smul])
      have h5 : 0 < (z ⬝ᵥ y) ^ 2 / (s ⬝ᵥ y) := by
        have : z ⬝ᵥ y = t * (s ⬝ᵥ y) := by
          conv_lhs => rw [hzt]
          rw [smul_dotProduct, smul_eq_mul]
        rw [this]
        positivity
      linarith
    · have := h2 hzt
      linarith
  · simp only [add_mulVec, sub_mulVec, smul_mulVec, outer_mulVec]
    rw [dotProduct_comm y s, dotProduct_comm (B *ᵥ s) s, smul_smul, smul_smul,
      one_div_mul_cancel hc.ne', one_div_mul_cancel hp.ne', one_smul, one_smul]
    abel

/-- **The trust-radius update.** -/
theorem trmUpdate_spec {h : Matrix ι ι ℝ} (hp : PosDef h) {dx dg : Vec ι}
    (hc : 0 < dg ⬝ᵥ dx) : PosDef (trmUpdate h dx dg) ∧ trmUpdate h dx dg *ᵥ dx = dg := by
  have e : trmUpdate h dx dg = h + ((1 / (dx ⬝ᵥ dg)) • outer dg dg
      - (1 / (dx ⬝ᵥ (h *ᵥ dx))) • outer (h *ᵥ dx) (h *ᵥ dx)) := by
    unfold trmUpdate
    rw [← mulVec_transpose, hp.1.eq, dotProduct_comm dg dx]
  rw [e]
  exact direct_update hp (by rwa [dotProduct_comm])

/-- **The trust-radius update has no guard.**  With negative curvature along the step it makes
the Hessian indefinite. -/
theorem trmUpdate_indefinite {h : Matrix ι ι ℝ} (hp : PosDef h) {dx dg : Vec ι} (hx : dx ≠ 0)
    (hc : dg ⬝ᵥ dx < 0) : dx ⬝ᵥ (trmUpdate h dx dg *ᵥ dx) < 0 := by
  have hpx := hp.2 dx hx
  have e : trmUpdate h dx dg *ᵥ dx = dg := by
    unfold trmUpdate
    rw [← mulVec_transpose, hp.1.eq]
    simp only [add_mulVec, sub_mulVec, smul_mulVec, outer_mulVec]
    rw [dotProduct_comm (h *ᵥ dx) dx, smul_smul, smul_smul,
      one_div_mul_cancel hc.ne, one_div_mul_cancel hpx.ne', one_smul, one_smul]
    abel
  rw [e, dotProduct_comm]
  exact hc

/-- The damped change of gradient always has positive curvature along the step. -/
theorem damped_curvature {B : Matrix ι ι ℝ} (h : PosDef B) {s : Vec ι} (hs : s ≠ 0)
    (y : Vec ι) : 1 / 5 * (s ⬝ᵥ (B *ᵥ s)) ≤ s ⬝ᵥ damped B s y ∧ 0 < s ⬝ᵥ damped B s y := by
  have hp := h.2 s hs
  have key : 1 / 5 * (s ⬝ᵥ (B *ᵥ s)) ≤ s ⬝ᵥ damped B s y := by
    unfold damped
    simp only
    split
    · next hc =>
      have hD : 0 < s ⬝ᵥ (B *ᵥ s) - s ⬝ᵥ y := by linarith
      rw [dotProduct_add, dotProduct_smul, dotProduct_smul, smul_eq_mul, smul_eq_mul]
      generalize s ⬝ᵥ (B *ᵥ s) = b at *
      generalize s ⬝ᵥ y = c at *
      refine le_of_eq ?_
      field_simp
      ring
    · next hc => exact not_lt.1 hc
  exact ⟨key, lt_of_lt_of_le (by linarith) key⟩

/-- **The damped update stays positive definite whatever the gradients are**, and so does the
matrix with its diagonal raised. -/
theorem damped_posdef [DecidableEq ι] {B : Matrix ι ι ℝ} (h : PosDef B) {s : Vec ι}
    (hs : s ≠ 0) (y : Vec ι) (low : Bool) : PosDef (stabilised low (dampedUpdate B s y)) := by
  have h1 := (direct_update h (damped_curvature h hs y).2).1
  unfold stabilised
  split
  · refine ⟨h1.1.add (isSymm_one.smul _), fun z hz => ?_⟩
    rw [add_mulVec, smul_mulVec, one_mulVec, dotProduct_add, dotProduct_smul, smul_eq_mul]
    have h2 := h1.2 z hz
    have h3 := dot_self_pos hz
    unfold dampedUpdate
    simp only
    linarith
  · exact h1

/-- Undamped, the update reproduces the observed change of gradient. -/
theorem damped_secant {B : Matrix ι ι ℝ} (h : PosDef B) {s : Vec ι} (hs : s ≠ 0) {y : Vec ι}
    (hc : 1 / 5 * (s ⬝ᵥ (B *ᵥ s)) ≤ s ⬝ᵥ y) : dampedUpdate B s y *ᵥ s = y := by
  have e : damped B s y = y := by unfold damped; simp only; rw [if_neg (not_lt.2 hc)]
  have h1 := (direct_update h (damped_curvature h hs y).2).2
  rw [e] at h1
  unfold dampedUpdate
  simp only
  rw [e]
  exact h1

/-- **No atom moves further than the limit** in a damped step, and the step keeps its
direction. -/
theorem dampLimit_spec {n : Nat} {big : ℝ} (hb : 0 < big) (s : Vec (Fin n × Fin 3)) :
    (∀ i, norm (atom (dampLimit big s) i) ≤ big) ∧
      ∃ c : ℝ, 0 < c ∧ c ≤ 1 ∧ dampLimit big s = c • s := by
  have hmax : ∀ i, norm (atom s i) ≤ maxDispl s := fun i =>
    le_ciSup (f := fun i => norm (atom s i)) (Set.finite_range _).bddAbove i
  unfold dampLimit
  split
  · next h =>
    have hM : 0 < maxDispl s := hb.trans h
    refine ⟨fun i => ?_, big / maxDispl s, by positivity, (div_le_one hM).2 h.le, rfl⟩
    have e : atom ((big / maxDispl s) • s) i = (big / maxDispl s) • atom s i := rfl
    rw [e, norm_smul', abs_of_pos (by positivity)]
    calc big / maxDispl s * norm (atom s i) ≤ big / maxDispl s * maxDispl s :=
          mul_le_mul_of_nonneg_left (hmax i) (by positivity)
      _ = big := by field_simp
  · next h =>
    exact ⟨fun i => (hmax i).trans (not_lt.1 h), 1, one_pos, le_rfl, (one_smul _ _).symm⟩

/-! ### FIRE -/

/-- Parameters for which FIRE makes sense; the defaults are such. -/
structure FirePar.Sane (c : FirePar) : Prop where
  maxstep : 0 < c.maxstep
  dtmin : 0 < c.dtmin
  order : c.dtmin ≤ c.dtmax
  finc : 1 ≤ c.finc
  fdec0 : 0 ≤ c.fdec
  fdec1 : c.fdec ≤ 1
  a0 : 0 ≤ c.astart
  a1 : c.astart ≤ 1
  f0 : 0 ≤ c.fa
  f1 : c.fa ≤ 1

/-- What holds of the time step and the mixing. -/
structure FireOk (c : FirePar) (s : Fire ι) : Prop where
  lo : c.dtmin ≤ s.dt
  hi : s.dt ≤ c.dtmax
  a0 : 0 ≤ s.a
  a1 : s.a ≤ 1

theorem fireAdjust_ok {c : FirePar} (hc : c.Sane) {force : Vec ι} {s : Fire ι}
    (h : FireOk c s) : FireOk c (fireAdjust c force s) := by
  have hd : 0 < s.dt := hc.dtmin.trans_le h.lo
  unfold fireAdjust
  split
  · split
    · refine ⟨le_min ?_ hc.order, min_le_right _ _, mul_nonneg h.a0 hc.f0, ?_⟩
      · nlinarith [h.lo, hc.finc]
      · exact mul_le_one₀ h.a1 hc.f0 hc.f1
    · exact ⟨h.lo, h.hi, h.a0, h.a1⟩
  · refine ⟨le_max_right _ _, max_le ?_ hc.order, hc.a0, hc.a1⟩
    have := h.hi
    nlinarith [hc.fdec1]

/-- **The time step of FIRE stays within its bounds**, and the mixing between 0 and 1, for
every force and any number of steps. -/
theorem fireRun_ok {c : FirePar} (hc : c.Sane) (grad : Vec ι → Vec ι) (n : Nat) :
    ∀ {s : Fire ι}, FireOk c s → FireOk c (fireRun c grad n s) := by
  induction n with
  | zero => intro s h; exact h
  | succ n ih =>
    intro s h
    obtain ⟨h1, h2, h3, h4⟩ := fireAdjust_ok (force := -grad s.x) hc h
    exact ih ⟨h1, h2, h3, h4⟩

/-- The displacement is within the limit and along the velocity. -/
theorem fireMove_spec {c : FirePar} (hc : 0 < c.maxstep) {dt : ℝ} (hd : 0 < dt) (v : Vec ι) :
    norm (fireMove c dt v) ≤ c.maxstep ∧ ∃ k : ℝ, 0 < k ∧ fireMove c dt v = k • v := by
  unfold fireMove
  split
  · next h =>
    have hn : 0 < norm (dt • v) := hc.trans h
    refine ⟨?_, c.maxstep / norm (dt • v) * dt, by positivity, by rw [smul_smul]⟩
    rw [norm_smul', abs_of_pos (by positivity)]
    field_simp
    exact le_rfl
  · next h => exact ⟨not_lt.1 h, dt, hd, rfl⟩

/-- The velocity after a step points along the forces. -/
theorem fireVel_down {c : FirePar} (hc : c.Sane) {force : Vec ι} (hf : force ≠ 0) {s : Fire ι}
    (h : FireOk c s) :
    0 < force ⬝ᵥ fireVel force (0 < force ⬝ᵥ s.v) (fireAdjust c force s) := by
  have hok := fireAdjust_ok (force := force) hc h
  have hdt : 0 < (fireAdjust c force s).dt := hc.dtmin.trans_le hok.lo
  have hff := dot_self_pos hf
  have hn := norm_pos' hf
  unfold fireVel
  simp only
  split
  · next hp =>
    have hv : (fireAdjust c force s).v = s.v := by
      unfold fireAdjust; rw [if_pos hp]; split <;> rfl
    rw [hv, dotProduct_add, dotProduct_smul, dotProduct_smul, dotProduct_add, dotProduct_smul]
    simp only [smul_eq_mul]
    set w := s.v + (fireAdjust c force s).dt • force with hw
    have hwf : 0 < force ⬝ᵥ w := by
      rw [hw, dotProduct_add, dotProduct_smul, smul_eq_mul]; positivity
    have hwn : 0 < norm w := norm_pos' (by intro e; rw [e] at hwf; simp at hwf)
    have h0 := hok.a0
    have h1 := hok.a1
    have h2 : 0 ≤ (fireAdjust c force s).a * norm w / norm force * (force ⬝ᵥ force) := by
      positivity
    have h3 : 0 < force ⬝ᵥ s.v + (fireAdjust c force s).dt * (force ⬝ᵥ force) := by
      positivity
    rcases eq_or_lt_of_le h1 with e | hlt
    · rw [e]
      have : 0 < 1 * norm w / norm force * (force ⬝ᵥ force) := by positivity
      linarith
    · have : 0 < (1 - (fireAdjust c force s).a)
          * (force ⬝ᵥ s.v + (fireAdjust c force s).dt * (force ⬝ᵥ force)) :=
        mul_pos (by linarith) h3
      linarith
  · next hp =>
    have hv : (fireAdjust c force s).v = 0 := by
      unfold fireAdjust; rw [if_neg hp]
    rw [hv, zero_add, dotProduct_smul, smul_eq_mul]
    positivity

/-- **A FIRE step.**  Apart from the correction of an uphill velocity, the atoms move along
the forces and by no more than the limit: for every force and state. -/
theorem fireStep_spec {c : FirePar} (hc : c.Sane) (grad : Vec ι → Vec ι) {s : Fire ι}
    (h : FireOk c s) (hf : grad s.x ≠ 0) :
    ∃ dx : Vec ι, norm dx ≤ c.maxstep ∧ 0 < (-grad s.x) ⬝ᵥ dx ∧
      ((fireStep c grad s).x = s.x + dx ∨
        (-grad s.x) ⬝ᵥ s.v ≤ 0 ∧
        (fireStep c grad s).x = s.x - (1 / 2 * (fireStep c grad s).dt) • s.v + dx) := by
  have hok := fireAdjust_ok (force := -grad s.x) hc h
  have hdt : 0 < (fireAdjust c (-grad s.x) s).dt := hc.dtmin.trans_le hok.lo
  have hdown := fireVel_down hc (neg_ne_zero.2 hf) h
  obtain ⟨h1, k, hk, e⟩ := fireMove_spec hc.maxstep hdt
    (fireVel (-grad s.x) (0 < (-grad s.x) ⬝ᵥ s.v) (fireAdjust c (-grad s.x) s))
  refine ⟨_, h1, ?_, ?_⟩
  · rw [e, dotProduct_smul, smul_eq_mul]
    exact mul_pos hk hdown
  · by_cases hp : 0 < (-grad s.x) ⬝ᵥ s.v
    · left
      have hx : (fireAdjust c (-grad s.x) s).x = s.x := by
        unfold fireAdjust; rw [if_pos hp]; split <;> rfl
      unfold fireStep
      simp only
      rw [hx]
    · right
      refine ⟨not_lt.1 hp, ?_⟩
      have hx : (fireAdjust c (-grad s.x) s).x
          = s.x - (1 / 2 * (fireAdjust c (-grad s.x) s).dt) • s.v := by
        unfold fireAdjust; rw [if_neg hp]
      unfold fireStep
      simp only
      rw [hx]

/-- **The step limit does not cover the correction.**  One FIRE step can move an atom by any
distance, whatever the limit. -/
theorem fire_unlimited (M : ℝ) :
    ∃ (c : FirePar) (s : Fire (Fin 1)) (grad : Vec (Fin 1) → Vec (Fin 1)),
      c.Sane ∧ FireOk c s ∧ c.maxstep = 1 / 2 ∧
      M < |(fireStep c grad s).x 0 - s.x 0| := by
  let c : FirePar := ⟨1 / 2, 1, 1 / 10 ^ 5, 5, 2000, 11 / 10, 1 / 2, 1 / 10, 99 / 100⟩
  let s : Fire (Fin 1) := ⟨0, fun _ => 4 * (|M| + 1), 1 / 10, 0, 0, 1⟩
  have hc : c.Sane := by constructor <;> norm_num [c]
  have hok : FireOk c s := by constructor <;> norm_num [c, s]
  refine ⟨c, s, fun _ => fun _ => 1, hc, hok, rfl, ?_⟩
  obtain ⟨dx, h1, h2, h3⟩ := fireStep_spec hc (fun _ => fun _ => 1) hok (by
    intro e; have := congrFun e 0; norm_num at this)
  have hneg : ¬ 0 < (-(fun _ => 1 : Vec (Fin 1))) ⬝ᵥ s.v := by
    rw [dot_one]; simp [s]; positivity
  have hdt : (fireStep c (fun _ => fun _ => 1) s).dt = 1 / 2 := by
    unfold fireStep fireAdjust
    simp only
    rw [if_neg hneg]
    norm_num [c, s]
  have hd : |dx 0| ≤ 1 / 2 := by
    have : norm dx = |dx 0| := by
      unfold norm; rw [dot_one, Real.sqrt_mul_self_eq_abs]
    rw [← this]; exact h1
  have hdneg : dx 0 < 0 := by
    rw [dot_one] at h2; simp at h2; exact h2
  have hx : (fireStep c (fun _ => fun _ => 1) s).x 0 - s.x 0
      = -(|M| + 1) + dx 0 := by
    have hxx : (fireStep c (fun _ => fun _ => 1) s).x
        = s.x - (1 / 2 * (fireStep c (fun _ => fun _ => 1) s).dt) • s.v + dx := by
      have hx' : (fireAdjust c (-(fun _ => 1 : Vec (Fin 1))) s).x
          = s.x - (1 / 2 * (fireAdjust c (-(fun _ => 1 : Vec (Fin 1))) s).dt) • s.v := by
        unfold fireAdjust; rw [if_neg hneg]
      rcases h3 with h3 | h3
      · exfalso
        -- the uphill branch was taken, so the first alternative would need zero velocity
        have e1 : (fireStep c (fun _ => fun _ => 1) s).x 0 = s.x 0 + dx 0 := by rw [h3]; rfl
        have e2 : (fireStep c (fun _ => fun _ => 1) s).x 0
            = s.x 0 - 1 / 4 * (4 * (|M| + 1))
              + fireMove c (fireAdjust c (-(fun _ => 1 : Vec (Fin 1))) s).dt
                (fireVel (-(fun _ => 1 : Vec (Fin 1)))
                  (0 < (-(fun _ => 1 : Vec (Fin 1))) ⬝ᵥ s.v)
                  (fireAdjust c (-(fun _ => 1 : Vec (Fin 1))) s)) 0 := by
          have hdt' : (fireAdjust c (-(fun _ => 1 : Vec (Fin 1))) s).dt = 1 / 2 := hdt
          change ((fireAdjust c (-(fun _ => 1 : Vec (Fin 1))) s).x + _) 0 = _
          rw [hx', hdt']
          simp only [Pi.add_apply, Pi.sub_apply, Pi.smul_apply, smul_eq_mul, s]
          ring
        have e3 : fireMove c (fireAdjust c (-(fun _ => 1 : Vec (Fin 1))) s).dt
                (fireVel (-(fun _ => 1 : Vec (Fin 1)))
                  (0 < (-(fun _ => 1 : Vec (Fin 1))) ⬝ᵥ s.v)
                  (fireAdjust c (-(fun _ => 1 : Vec (Fin 1))) s)) 0 < 0 := by
          obtain ⟨-, k, hk, e⟩ := fireMove_spec (c := c) hc.maxstep
            (show 0 < (fireAdjust c (-(fun _ => 1 : Vec (Fin 1))) s).dt by
              have : (fireAdjust c (-(fun _ => 1 : Vec (Fin 1))) s).dt = 1 / 2 := hdt
              rw [this]; norm_num)
            (fireVel (-(fun _ => 1 : Vec (Fin 1)))
                  (0 < (-(fun _ => 1 : Vec (Fin 1))) ⬝ᵥ s.v)
                  (fireAdjust c (-(fun _ => 1 : Vec (Fin 1))) s))
          have hv := fireVel_down (force := (-(fun _ => 1 : Vec (Fin 1)))) hc (by
            intro e; have := congrFun e 0; norm_num at this) hok
          rw [dot_one] at hv
          rw [e]
          simp only [Pi.neg_apply, Pi.smul_apply, smul_eq_mul] at hv ⊢
          nlinarith
        rw [abs_le] at hd
        have := abs_nonneg M
        linarith [hd.1]
      · exact h3.2
    rw [hxx, hdt]
    simp only [Pi.add_apply, Pi.sub_apply, Pi.smul_apply, smul_eq_mul, s]
    ring
  rw [hx, abs_of_neg (by have := abs_nonneg M; linarith)]
  have := le_abs_self M
  linarith

/-! ### Concrete cases -/

/-- The premises of `minTrm_newton` and the shifted case are met. -/
example : (∀ i, (1 : ℝ) / 10 ^ 5 < (![1, 2] : Vec (Fin 2)) i) ∧
    ¬ (0 < (⨅ i, (![-1, 2] : Vec (Fin 2)) i) ∧
      norm (trmNewton (![-1, 2] : Vec (Fin 2)) (trmForce ![-1, 2] ![1, 1])) < 1) := by
  constructor
  · intro i; fin_cases i <;> norm_num
  · rintro ⟨h, -⟩
    have := lt_of_lt_of_le h (ciInf_le (Set.finite_range (![-1, 2] : Vec (Fin 2))).bddBelow 0)
    norm_num at this

/-- The default parameters are sane. -/
example : (⟨1 / 2, 1, 1 / 10 ^ 5, 5, 2000, 11 / 10, 1 / 2, 1 / 10, 99 / 100⟩ : FirePar).Sane := by
  constructor <;> norm_num

end Verif.QN
