/-
C86: the BFGS optimiser.  For every energy and gradient function, every start and every
number of steps: its inverse Hessian stays symmetric and positive definite and maps the last
change of gradient to the last change of position, every search direction is downhill, and a
line search that ends on sufficient decrease lowers the energy.
-/
import Verif.Phys.QuasiNewton
import Mathlib.LinearAlgebra.Matrix.DotProduct
import Mathlib.Tactic.Linarith
import Mathlib.Tactic.Ring
import Mathlib.Tactic.FieldSimp
import Mathlib.Tactic.NormNum
import Mathlib.Tactic.Positivity
import Mathlib.Tactic.Module
import Mathlib.Tactic.LinearCombination
import Mathlib.Algebra.BigOperators.Fin
import Mathlib.Order.ConditionallyCompleteLattice.Finset

namespace Verif.QN

open Matrix

variable {ι : Type*} [Fintype ι]

/-- Symmetric and positive definite, spelled out. -/
def PosDef (H : Matrix ι ι ℝ) : Prop := H.IsSymm ∧ ∀ y, y ≠ 0 → 0 < y ⬝ᵥ (H *ᵥ y)

/-! ### Algebra -/

theorem outer_mulVec (u v w : Vec ι) : outer u v *ᵥ w = (v ⬝ᵥ w) • u := by
  unfold outer
  rw [vecMulVec_mulVec]
  simp

omit [Fintype ι] in
theorem outer_symm (u : Vec ι) : (outer u u).IsSymm := by
  unfold outer Matrix.IsSymm
  rw [transpose_vecMulVec]

theorem dot_symm {H : Matrix ι ι ℝ} (h : H.IsSymm) (u v : Vec ι) :
    u ⬝ᵥ (H *ᵥ v) = v ⬝ᵥ (H *ᵥ u) := by
  rw [dotProduct_mulVec, dotProduct_comm, ← mulVec_transpose, h.eq]

theorem dot_self_pos {v : Vec ι} (h : v ≠ 0) : 0 < v ⬝ᵥ v := by
  refine lt_of_le_of_ne ?_ (fun e => h (dotProduct_self_eq_zero.1 e.symm))
  unfold dotProduct
  exact Finset.sum_nonneg fun i _ => mul_self_nonneg _

theorem dot_self_nonneg (v : Vec ι) : 0 ≤ v ⬝ᵥ v := by
  unfold dotProduct
  exact Finset.sum_nonneg fun i _ => mul_self_nonneg _

theorem PosDef.nonneg {H : Matrix ι ι ℝ} (h : PosDef H) (y : Vec ι) :
    0 ≤ y ⬝ᵥ (H *ᵥ y) := by
  by_cases hy : y = 0
  · simp [hy]
  · exact (h.2 y hy).le

theorem PosDef.one [DecidableEq ι] : PosDef (1 : Matrix ι ι ℝ) :=
  ⟨isSymm_one, fun y hy => by rw [one_mulVec]; exact dot_self_pos hy⟩

/-- The Cauchy-Schwarz inequality of a positive definite form, with its case of equality. -/
theorem PosDef.gap {H : Matrix ι ι ℝ} (h : PosDef H) {w : Vec ι} (hw : w ≠ 0) (y : Vec ι) :
    0 ≤ y ⬝ᵥ (H *ᵥ y) - (y ⬝ᵥ (H *ᵥ w)) ^ 2 / (w ⬝ᵥ (H *ᵥ w)) ∧
    (y ≠ ((y ⬝ᵥ (H *ᵥ w)) / (w ⬝ᵥ (H *ᵥ w))) • w →
      0 < y ⬝ᵥ (H *ᵥ y) - (y ⬝ᵥ (H *ᵥ w)) ^ 2 / (w ⬝ᵥ (H *ᵥ w))) := by
  have hp := h.2 w hw
  set t := (y ⬝ᵥ (H *ᵥ w)) / (w ⬝ᵥ (H *ᵥ w)) with ht
  have e : (y - t • w) ⬝ᵥ (H *ᵥ (y - t • w))
      = y ⬝ᵥ (H *ᵥ y) - (y ⬝ᵥ (H *ᵥ w)) ^ 2 / (w ⬝ᵥ (H *ᵥ w)) := by
    simp only [mulVec_sub, mulVec_smul, sub_dotProduct, dotProduct_sub, smul_dotProduct,
      dotProduct_smul, smul_eq_mul]
    rw [dot_symm h.1 w y, ht]
    field_simp
    ring
  rw [← e]
  exact ⟨h.nonneg _, fun hne => h.2 _ (sub_ne_zero.2 hne)⟩

/-! ### The update -/

/-- The quadratic form of the updated matrix. -/
theorem bfgs_form {H : Matrix ι ι ℝ} (dx dg y : Vec ι) :
    y ⬝ᵥ (bfgsUpdate H dx dg *ᵥ y)
      = y ⬝ᵥ (H *ᵥ y) + (y ⬝ᵥ dx) ^ 2 / (dg ⬝ᵥ dx)
        - (y ⬝ᵥ (H *ᵥ dg)) ^ 2 / (dg ⬝ᵥ (H *ᵥ dg))
        + (dg ⬝ᵥ (H *ᵥ dg)) * ((y ⬝ᵥ dx) / (dg ⬝ᵥ dx)
          - (y ⬝ᵥ (H *ᵥ dg)) / (dg ⬝ᵥ (H *ᵥ dg))) ^ 2 := by
  unfold bfgsUpdate
  simp only [add_mulVec, sub_mulVec, smul_mulVec, outer_mulVec, dotProduct_add,
    dotProduct_sub, dotProduct_smul, sub_dotProduct, smul_dotProduct, smul_eq_mul]
  rw [dotProduct_comm dx y, dotProduct_comm (H *ᵥ dg) y]
  ring

/-- **The update stays symmetric.** -/
theorem bfgs_symm {H : Matrix ι ι ℝ} (h : H.IsSymm) (dx dg : Vec ι) :
    (bfgsUpdate H dx dg).IsSymm := by
  unfold bfgsUpdate
  exact h.add ((((outer_symm _).smul _).sub ((outer_symm _).smul _)).add
    ((outer_symm _).smul _))

/-- **The secant condition.**  The updated inverse Hessian maps the change of gradient to the
change of position. -/
theorem bfgs_secant {H : Matrix ι ι ℝ} (h : PosDef H) {dx dg : Vec ι} (hc : 0 < dg ⬝ᵥ dx) :
    bfgsUpdate H dx dg *ᵥ dg = dx := by
  have hg : dg ≠ 0 := by rintro rfl; simp at hc
  have hp := h.2 dg hg
  unfold bfgsUpdate
  simp only [add_mulVec, sub_mulVec, smul_mulVec, outer_mulVec, sub_dotProduct,
    smul_dotProduct, smul_eq_mul]
  rw [dotProduct_comm dx dg, dotProduct_comm (H *ᵥ dg) dg]
  have h1 : 1 / (dg ⬝ᵥ dx) * (dg ⬝ᵥ dx) = 1 := by field_simp
  have h2 : 1 / (dg ⬝ᵥ (H *ᵥ dg)) * (dg ⬝ᵥ (H *ᵥ dg)) = 1 := by field_simp
  rw [smul_smul, smul_smul, h1, h2]
  simp

/-- **The update stays positive definite** whenever the curvature along the step is positive. -/
theorem bfgs_posdef {H : Matrix ι ι ℝ} (h : PosDef H) {dx dg : Vec ι} (hc : 0 < dg ⬝ᵥ dx) :
    PosDef (bfgsUpdate H dx dg) := by
  refine ⟨bfgs_symm h.1 dx dg, fun y hy => ?_⟩
  have hg : dg ≠ 0 := by rintro rfl; simp at hc
  have hp := h.2 dg hg
  obtain ⟨h1, h2⟩ := h.gap hg y
  rw [bfgs_form]
  have h3 : 0 ≤ (dg ⬝ᵥ (H *ᵥ dg)) * ((y ⬝ᵥ dx) / (dg ⬝ᵥ dx)
      - (y ⬝ᵥ (H *ᵥ dg)) / (dg ⬝ᵥ (H *ᵥ dg))) ^ 2 := by positivity
  have h4 : 0 ≤ (y ⬝ᵥ dx) ^ 2 / (dg ⬝ᵥ dx) := by positivity
  set t := (y ⬝ᵥ (H *ᵥ dg)) / (dg ⬝ᵥ (H *ᵥ dg)) with ht
  by_cases hyt : y = t • dg
  · have ht0 : t ≠ 0 := fun e => hy (by rw [hyt, e, zero_smul])
    have h5 : 0 < (y ⬝ᵥ dx) ^ 2 / (dg ⬝ᵥ dx) := by
      have : y ⬝ᵥ dx = t * (dg ⬝ᵥ dx) := by
        conv_lhs => rw [hyt]
        rw [smul_dotProduct, smul_eq_mul]
      rw [this]
      positivity
    linarith
  · have := h2 hyt
    linarith

theorem curved_pos {zeps : ℝ} {dx dg : Vec ι} (h : curved zeps dx dg) : 0 < dg ⬝ᵥ dx :=
  lt_of_le_of_lt (Real.sqrt_nonneg _) h

/-- The matrix kept after a step is positive definite whether or not it was updated. -/
theorem bfgsHess_posdef {H : Matrix ι ι ℝ} (h : PosDef H) (dx dg : Vec ι) :
    PosDef (bfgsHess H dx dg) := by
  unfold bfgsHess
  split
  · next hc => exact bfgs_posdef h (curved_pos hc)
  · exact h

/-! ### The line search -/

theorem norm_nonneg' (v : Vec ι) : 0 ≤ norm v := Real.sqrt_nonneg _

theorem norm_sq (v : Vec ι) : norm v ^ 2 = v ⬝ᵥ v := Real.sq_sqrt (dot_self_nonneg v)

theorem norm_pos' {v : Vec ι} (h : v ≠ 0) : 0 < norm v := Real.sqrt_pos.2 (dot_self_pos h)

theorem norm_smul' (c : ℝ) (v : Vec ι) : norm (c • v) = |c| * norm v := by
  unfold norm
  rw [smul_dotProduct, dotProduct_smul, smul_eq_mul, smul_eq_mul, ← mul_assoc,
    Real.sqrt_mul (mul_self_nonneg c), Real.sqrt_mul_self_eq_abs]

/-- **The step limit.**  The direction searched is the given one, shortened to the limit when
it is longer. -/
theorem limit_spec {big : ℝ} (hb : 0 < big) (d : Vec ι) :
    norm (limit big d) ≤ big ∧ ∃ c : ℝ, 0 < c ∧ c ≤ 1 ∧ limit big d = c • d := by
  unfold limit
  split
  · next h =>
    have hn : 0 < norm d := hb.trans h
    refine ⟨?_, big / norm d, by positivity, (div_le_one hn).2 h.le, rfl⟩
    rw [norm_smul', abs_of_pos (by positivity)]
    field_simp
    exact le_refl _
  · next h => exact ⟨not_lt.1 h, 1, one_pos, le_rfl, (one_smul _ _).symm⟩

/-- What a finished line search has done. -/
structure LineOk (fdf : Vec ι → ℝ × Vec ι) (x0 d : Vec ι) (f0 slope lamin : ℝ)
    (r : Line ι) : Prop where
  pos : 0 < r.lam
  at_eq : r.at_ = x0 + r.lam • d
  f_eq : r.f = (fdf r.at_).1
  g_eq : r.g = (fdf r.at_).2
  decrease : r.why = .decrease → r.x = r.at_ ∧ r.f ≤ f0 + 1 / 10000 * r.lam * slope
  position : r.why = .position → r.x = x0 ∧ r.lam < lamin
  spent : r.why = .spent → r.x = r.at_

omit [Fintype ι] in
theorem approxLoop_ok {fdf : Vec ι → ℝ × Vec ι} {x0 d : Vec ι} {f0 slope lamin : ℝ} (k : Nat) :
    ∀ (alam f2 alam2 : ℝ) (last : Line ι), 0 < alam →
    (k = 0 → LineOk fdf x0 d f0 slope lamin last) →
    LineOk fdf x0 d f0 slope lamin
      (approxLoop fdf x0 d f0 slope lamin k alam f2 alam2 last) := by
  induction k with
  | zero => intro alam f2 alam2 last _ h; exact h rfl
  | succ k ih =>
    intro alam f2 alam2 last ha _
    unfold approxLoop
    simp only
    split
    · next h =>
      exact ⟨ha, rfl, rfl, rfl, fun e => (nomatch e), fun _ => ⟨rfl, h⟩,
        fun e => (nomatch e)⟩
    · split
      · next h =>
        exact ⟨ha, rfl, rfl, rfl, fun _ => ⟨rfl, h⟩, fun e => (nomatch e),
          fun e => (nomatch e)⟩
      · exact ih _ _ _ _ (lt_of_lt_of_le (by linarith) (le_max_right _ _)) fun _ =>
          ⟨ha, rfl, rfl, rfl, fun e => (nomatch e), fun e => (nomatch e),
            fun _ => rfl⟩

/-- **The line search.**  Whatever the energy, the atoms are left on the searched line, at a
positive multiple of the (shortened) direction, with the energy and gradient of that place;
and a search that reports sufficient decrease has got it. -/
theorem minApprox_spec {fdf : Vec ι → ℝ × Vec ι} {x0 g0 d0 : Vec ι} {f0 big tol : ℝ}
    {itmax : Nat} {r : Line ι} (h : minApprox fdf x0 f0 g0 d0 big tol itmax = some r) :
    LineOk fdf x0 (limit big d0) f0 (g0 ⬝ᵥ limit big d0)
      (tol / relSize x0 (limit big d0)) r := by
  unfold minApprox at h
  simp only at h
  split at h
  · exact absurd h (by simp)
  · next hk =>
    simp only [Option.some.injEq] at h
    rw [← h]
    exact approxLoop_ok _ _ _ _ _ one_pos fun e => by omega

theorem cap_le (x t : ℝ) [Decidable (x < t)] : (if x < t then x else t) ≤ x := by
  split
  · exact le_rfl
  · next h => exact not_lt.1 h

/-- The first new step is the lowest point of the parabola through the start, with its slope, and the
failed trial. -/
theorem backtrack_parabola {f0 slope fx f2 alam2 : ℝ} (hs : slope < 0)
    (hf : f0 + 1 / 10000 * slope < fx) (t : ℝ) :
    let p := fun t : ℝ => f0 + slope * t + (fx - f0 - slope) * t ^ 2
    p 0 = f0 ∧ p 1 = fx ∧ p (backtrack f0 slope 1 fx f2 alam2) ≤ p t := by
  have hD : 0 < fx - f0 - slope := by linarith
  refine ⟨by simp, by simp, ?_⟩
  unfold backtrack
  rw [if_pos rfl]
  have : f0 + slope * t + (fx - f0 - slope) * t ^ 2
      - (f0 + slope * (-slope / (2 * (fx - f0 - slope)))
        + (fx - f0 - slope) * (-slope / (2 * (fx - f0 - slope))) ^ 2)
      = (fx - f0 - slope) * (t + slope / (2 * (fx - f0 - slope))) ^ 2 := by
    field_simp
    ring
  have h2 : 0 ≤ (fx - f0 - slope) * (t + slope / (2 * (fx - f0 - slope))) ^ 2 := by positivity
  show f0 + slope * (-slope / (2 * (fx - f0 - slope)))
    + (fx - f0 - slope) * (-slope / (2 * (fx - f0 - slope))) ^ 2
    ≤ f0 + slope * t + (fx - f0 - slope) * t ^ 2
  linarith

/-- Later steps that are not cut are stationary points of the cubic through the start, with its slope,
and the last two trials. -/
theorem backtrack_cubic {f0 slope alam fx f2 alam2 : ℝ} (h1 : alam ≠ 1) (ha : alam ≠ 0)
    (ha2 : alam2 ≠ 0) (hne : alam ≠ alam2) :
    ∃ a b : ℝ, (let p := fun t : ℝ => f0 + slope * t + b * t ^ 2 + a * t ^ 3
      p alam = fx ∧ p alam2 = f2) ∧
      ((a ≠ 0 → 0 ≤ b * b - 3 * a * slope ∧ 0 < b + Real.sqrt (b * b - 3 * a * slope)
          ∧ backtrack f0 slope alam fx f2 alam2 < alam / 2) → (a = 0 → b ≠ 0) →
        slope + 2 * b * backtrack f0 slope alam fx f2 alam2
          + 3 * a * backtrack f0 slope alam fx f2 alam2 ^ 2 = 0) := by
  have hd : alam - alam2 ≠ 0 := sub_ne_zero.2 hne
  refine ⟨((fx - f0 - alam * slope) / (alam * alam) - (f2 - f0 - alam2 * slope) / (alam2 * alam2))
      / (alam - alam2),
    (-alam2 * (fx - f0 - alam * slope) / (alam * alam)
      + alam * (f2 - f0 - alam2 * slope) / (alam2 * alam2)) / (alam - alam2), ⟨?_, ?_⟩, ?_⟩
  · field_simp
    ring
  · field_simp
    ring
  · unfold backtrack
    rw [if_neg h1]
    simp only
    generalize ((fx - f0 - alam * slope) / (alam * alam) - (f2 - f0 - alam2 * slope) / (alam2 * alam2))
      / (alam - alam2) = a
    generalize (-alam2 * (fx - f0 - alam * slope) / (alam * alam)
      + alam * (f2 - f0 - alam2 * slope) / (alam2 * alam2)) / (alam - alam2) = b
    intro hc hl
    by_cases h0 : a = 0
    · rw [if_pos h0, h0]
      have := hl h0
      field_simp
      ring
    · obtain ⟨hdisc, hpos, hcut⟩ := hc h0
      rw [if_neg h0] at hcut ⊢
      rw [if_neg (not_lt.2 hdisc)] at hcut ⊢
      have hsq := Real.sq_sqrt hdisc
      set r := Real.sqrt (b * b - 3 * a * slope)
      by_cases hcut2 : alam / 2 < if b ≤ 0 then (-b + r) / (3 * a) else -slope / (b + r)
      · rw [if_pos hcut2] at hcut
        exact absurd hcut (lt_irrefl _)
      · rw [if_neg hcut2]
        by_cases hb : b ≤ 0
        · rw [if_pos hb]
          field_simp
          linear_combination hsq
        · rw [if_neg hb]
          have := hpos.ne'
          field_simp
          linear_combination slope * hsq

/-- A failed trial makes the next step between a tenth and 51 hundredths of the last, when the
direction is downhill. -/
theorem backtrack_range {f0 slope alam fx f2 alam2 : ℝ} (hs : slope < 0) (ha : 0 < alam)
    (hf : f0 + 1 / 10000 * alam * slope < fx) :
    alam / 10 ≤ max (backtrack f0 slope alam fx f2 alam2) (alam / 10) ∧
    max (backtrack f0 slope alam fx f2 alam2) (alam / 10) ≤ 51 / 100 * alam := by
  refine ⟨le_max_right _ _, max_le ?_ (by linarith)⟩
  unfold backtrack
  split
  · next h1 =>
    subst h1
    have hD : 0 < fx - f0 - slope := by nlinarith
    rw [div_le_iff₀ (by positivity)]
    nlinarith
  · next h1 =>
    simp only
    set r1 := fx - f0 - alam * slope with hr1
    set r2 := f2 - f0 - alam2 * slope with hr2
    split
    · next h2 =>
      by_cases h3 : alam = alam2
      · rw [h3, sub_self, div_zero, mul_zero, div_zero]
        have : 0 < alam2 := h3 ▸ ha
        linarith
      · have h3' : alam - alam2 ≠ 0 := sub_ne_zero.2 h3
        have h4 : r1 / (alam * alam) - r2 / (alam2 * alam2) = 0 := by
          rcases div_eq_zero_iff.1 h2 with h | h
          · exact h
          · exact absurd h h3'
        have h5 : (-alam2 * r1 / (alam * alam) + alam * r2 / (alam2 * alam2)) / (alam - alam2)
            = r1 / (alam * alam) := by
          rw [div_eq_iff h3']
          linear_combination -alam * h4
        rw [h5]
        have hr : 0 < r1 := by rw [hr1]; nlinarith
        have hb : 0 < r1 / (alam * alam) := by positivity
        rw [div_le_iff₀ (by positivity)]
        have h6 : 51 / 100 * alam * (2 * (r1 / (alam * alam))) = 51 / 50 * (r1 / alam) := by
          field_simp
          ring
        rw [h6]
        have h7 : -slope * (9999 / 10000) ≤ r1 / alam := by
          rw [le_div_iff₀ ha]; rw [hr1]; nlinarith
        linarith
    · exact (cap_le _ _).trans (by linarith)

omit [Fintype ι] in
/-- The loop with its bound on the step factor. -/
theorem approxLoop_lam {fdf : Vec ι → ℝ × Vec ι} {x0 d : Vec ι} {f0 slope lamin : ℝ}
    (hs : slope < 0) (k : Nat) : ∀ (alam f2 alam2 : ℝ) (last : Line ι), 0 < alam → k ≠ 0 →
    let r := approxLoop fdf x0 d f0 slope lamin k alam f2 alam2 last
    r.lam ≤ alam ∧ (r.why = .spent → lamin ≤ (51 / 100) ^ (k - 1) * alam) := by
  induction k with
  | zero => intro alam f2 alam2 last _ h; exact absurd rfl h
  | succ k ih =>
    intro alam f2 alam2 last ha _
    unfold approxLoop
    simp only
    split
    · exact ⟨le_rfl, fun e => (nomatch e)⟩
    · next hl =>
      split
      · exact ⟨le_rfl, fun e => (nomatch e)⟩
      · next hf =>
        obtain ⟨h1, h2⟩ := backtrack_range (f2 := f2) (alam2 := alam2) hs ha (not_le.1 hf)
        rcases Nat.eq_zero_or_pos k with rfl | hk
        · refine ⟨le_rfl, fun _ => ?_⟩
          simpa using not_lt.1 hl
        · obtain ⟨i1, i2⟩ := ih (max (backtrack f0 slope alam (fdf (x0 + alam • d)).1 f2 alam2)
            (alam / 10)) (fdf (x0 + alam • d)).1 alam
            ⟨.spent, x0 + alam • d, (fdf (x0 + alam • d)).1, (fdf (x0 + alam • d)).2, alam,
              x0 + alam • d⟩ (lt_of_lt_of_le (by linarith) h1) (by omega)
          refine ⟨i1.trans (h2.trans (by linarith)), fun e => (i2 e).trans ?_⟩
          have e1 : k + 1 - 1 = k - 1 + 1 := by omega
          rw [e1, pow_succ, mul_assoc]
          exact mul_le_mul_of_nonneg_left h2 (by positivity)

/-- **The line search ends.**  Along a downhill direction the steps tried never exceed the
given one and shrink geometrically: with enough passes allowed the search does not run out of
them. -/
theorem minApprox_ends {fdf : Vec ι → ℝ × Vec ι} {x0 g0 d0 : Vec ι} {f0 big tol : ℝ}
    {itmax : Nat} {r : Line ι} (h : minApprox fdf x0 f0 g0 d0 big tol itmax = some r)
    (hs : g0 ⬝ᵥ limit big d0 < 0) :
    r.lam ≤ 1 ∧ ((51 / 100 : ℝ) ^ (itmax - 2) < tol / relSize x0 (limit big d0) →
      r.why ≠ .spent) := by
  unfold minApprox at h
  simp only at h
  split at h
  · exact absurd h (by simp)
  · next hk =>
    simp only [Option.some.injEq] at h
    obtain ⟨h1, h2⟩ := approxLoop_lam (fdf := fdf) (x0 := x0) (d := limit big d0) (f0 := f0)
      (lamin := tol / relSize x0 (limit big d0)) hs (itmax - 1) 1 0 0
      ⟨.spent, x0, f0, g0, 1, x0⟩ one_pos (by omega)
    rw [h] at h1 h2
    refine ⟨h1, fun hl e => ?_⟩
    have := h2 e
    rw [mul_one, show itmax - 1 - 1 = itmax - 2 by omega] at this
    linarith

/-- On the ending "small step" the atoms have nevertheless been moved, each coordinate by no
more than the tolerance relative to its size. -/
theorem minApprox_small [Nonempty ι] {fdf : Vec ι → ℝ × Vec ι} {x0 g0 d0 : Vec ι}
    {f0 big tol : ℝ} (ht : 0 ≤ tol) {itmax : Nat} {r : Line ι}
    (h : minApprox fdf x0 f0 g0 d0 big tol itmax = some r) (hw : r.why = .position) (i : ι) :
    |r.at_ i - x0 i| ≤ tol * max |x0 i| 1 := by
  have ok := minApprox_spec h
  set d := limit big d0
  have hl := (ok.position hw).2
  rw [ok.at_eq]
  have e : (x0 + r.lam • d) i - x0 i = r.lam * d i := by simp
  rw [e, abs_mul, abs_of_pos ok.pos]
  have hm : (0 : ℝ) < max |x0 i| 1 := lt_of_lt_of_le one_pos (le_max_right _ _)
  have hR : |d i| / max |x0 i| 1 ≤ relSize x0 d := by
    unfold relSize amax
    exact le_ciSup (f := fun i => |d i| / max |x0 i| 1) (Set.finite_range _).bddAbove i
  by_cases hd : d i = 0
  · rw [hd, abs_zero, mul_zero]; positivity
  · have hdp : 0 < |d i| := abs_pos.2 hd
    have hRp : 0 < relSize x0 d := lt_of_lt_of_le (by positivity) hR
    have h1 : |d i| ≤ relSize x0 d * max |x0 i| 1 := (div_le_iff₀ hm).1 hR
    calc r.lam * |d i| ≤ tol / relSize x0 d * |d i| :=
          mul_le_mul_of_nonneg_right hl.le hdp.le
      _ ≤ tol / relSize x0 d * (relSize x0 d * max |x0 i| 1) :=
          mul_le_mul_of_nonneg_left h1 (by positivity)
      _ = tol * max |x0 i| 1 := by field_simp

/-- **A full step without looking at the energy.**  A direction below the tolerance is
followed to its end whatever the energy there. -/
theorem minApprox_blind {fdf : Vec ι → ℝ × Vec ι} {x0 g0 d0 : Vec ι} {f0 big tol : ℝ}
    {itmax : Nat} (hi : 1 < itmax) (hb : norm d0 ≤ big) (ht : 1 < tol / relSize x0 d0) :
    ∃ r, minApprox fdf x0 f0 g0 d0 big tol itmax = some r ∧ r.why = .position ∧
      r.at_ = x0 + d0 := by
  have hl : limit big d0 = d0 := by unfold limit; rw [if_neg (not_lt.2 hb)]
  obtain ⟨k, hk⟩ : ∃ k, itmax - 1 = k + 1 := ⟨itmax - 2, by omega⟩
  refine ⟨_, by unfold minApprox; simp only; rw [if_neg (by omega)], ?_, ?_⟩
  · rw [hl, hk]; unfold approxLoop; simp only; rw [if_pos ht]
  · rw [hl, hk]; unfold approxLoop; simp only; rw [if_pos ht]; simp

/-! ### The optimiser -/

/-- What holds before every step: the inverse Hessian is positive definite, and the direction
is downhill unless the gradient vanishes. -/
def Ready (fdf : Vec ι → ℝ × Vec ι) (s : Bfgs ι) : Prop :=
  PosDef s.H ∧ ((fdf s.q).2 ≠ 0 → (fdf s.q).2 ⬝ᵥ s.d < 0)

theorem firstDir_down {g : Vec ι} (h : g ≠ 0) : g ⬝ᵥ firstDir g < 0 := by
  unfold firstDir
  rw [dotProduct_smul, dotProduct_neg, smul_eq_mul]
  have h1 := norm_pos' h
  have h2 := dot_self_pos h
  have : 0 < 1 / norm g * (g ⬝ᵥ g) := by positivity
  linarith

theorem bfgsInit_ready [DecidableEq ι] (fdf : Vec ι → ℝ × Vec ι) (q : Vec ι) :
    Ready fdf (bfgsInit fdf q) :=
  ⟨PosDef.one, fun h => firstDir_down h⟩

theorem bfgsStep_ready {fdf : Vec ι → ℝ × Vec ι} {big tol : ℝ} {itmax : Nat} {s s' : Bfgs ι}
    {r : Line ι} (h : Ready fdf s) (hs : bfgsStep fdf big tol itmax s = some (r, s')) :
    Ready fdf s' := by
  unfold bfgsStep at hs
  rw [Option.map_eq_some_iff] at hs
  obtain ⟨l, hl, e⟩ := hs
  simp only [Prod.mk.injEq] at e
  obtain ⟨rfl, rfl⟩ := e
  have ok := minApprox_spec hl
  have hp := bfgsHess_posdef h.1 (l.x - s.q) (l.g - (fdf s.q).2)
  refine ⟨hp, fun hne => ?_⟩
  simp only
  rw [ok.g_eq, mulVec_neg, dotProduct_neg]
  have := hp.2 _ hne
  rw [ok.g_eq] at this
  linarith

/-- **Every BFGS direction is downhill.**  For every energy and gradient function, every start
and any number of steps, whatever way the line searches ended: the inverse Hessian is symmetric
and positive definite, and the direction of the next search makes an angle of more than 90
degrees with the gradient at the present positions. -/
theorem bfgs_downhill [DecidableEq ι] (fdf : Vec ι → ℝ × Vec ι) (big tol : ℝ)
    (itmax k : Nat) (q : Vec ι) {s : Bfgs ι}
    (h : bfgsRun fdf big tol itmax k (bfgsInit fdf q) = some s) :
    s.H.IsSymm ∧ (∀ y, y ≠ 0 → 0 < y ⬝ᵥ (s.H *ᵥ y)) ∧
      ((fdf s.q).2 ≠ 0 → (fdf s.q).2 ⬝ᵥ s.d < 0) := by
  have key : ∀ (k : Nat) (a b : Bfgs ι), Ready fdf a →
      bfgsRun fdf big tol itmax k a = some b → Ready fdf b := by
    intro k
    induction k with
    | zero => intro a b ha hb; simp only [bfgsRun, Option.some.injEq] at hb; exact hb ▸ ha
    | succ k ih =>
      intro a b ha hb
      simp only [bfgsRun, Option.bind_eq_some_iff] at hb
      obtain ⟨⟨r, a'⟩, h1, h2⟩ := hb
      exact ih _ _ (bfgsStep_ready ha h1) h2
  have := key k _ _ (bfgsInit_ready fdf q) h
  exact ⟨this.1.1, this.1.2, this.2⟩

/-- **A BFGS step that ends on sufficient decrease lowers the energy**, strictly when the
gradient is not zero.  Missing for the full property: the other two endings, see
`bfgs_step_rises`. -/
theorem bfgs_lowers_partial {fdf : Vec ι → ℝ × Vec ι} {big tol : ℝ} {itmax : Nat}
    {s s' : Bfgs ι} {r : Line ι} (h : Ready fdf s) (hb : 0 < bigStep big s.q)
    (hg : (fdf s.q).2 ≠ 0) (hs : bfgsStep fdf big tol itmax s = some (r, s'))
    (hw : r.why = .decrease) : (fdf s'.q).1 < (fdf s.q).1 := by
  unfold bfgsStep at hs
  rw [Option.map_eq_some_iff] at hs
  obtain ⟨l, hl, e⟩ := hs
  simp only [Prod.mk.injEq] at e
  obtain ⟨rfl, rfl⟩ := e
  have ok := minApprox_spec hl
  obtain ⟨-, h2⟩ := ok.decrease hw
  obtain ⟨-, c, hc, -, e⟩ := limit_spec hb s.d
  rw [ok.f_eq, e, dotProduct_smul] at h2
  change _ ≤ _ + 1 / 10000 * l.lam * (c * ((fdf s.q).2 ⬝ᵥ s.d)) at h2
  have h3 := h.2 hg
  have h4 : l.lam * (c * ((fdf s.q).2 ⬝ᵥ s.d)) < 0 :=
    mul_neg_of_pos_of_neg ok.pos (mul_neg_of_pos_of_neg hc h3)
  simp only
  linarith

/-- After a step with positive curvature the inverse Hessian reproduces what was seen: it maps
the change of the gradient to the change of the positions. -/
theorem bfgs_step_secant {fdf : Vec ι → ℝ × Vec ι} {big tol : ℝ} {itmax : Nat}
    {s s' : Bfgs ι} {r : Line ι} (h : Ready fdf s)
    (hs : bfgsStep fdf big tol itmax s = some (r, s')) (hw : r.why ≠ .position)
    (hc : curved (1 / 10 ^ 13) (s'.q - s.q) ((fdf s'.q).2 - (fdf s.q).2)) :
    s'.H *ᵥ ((fdf s'.q).2 - (fdf s.q).2) = s'.q - s.q := by
  unfold bfgsStep at hs
  rw [Option.map_eq_some_iff] at hs
  obtain ⟨l, hl, e⟩ := hs
  simp only [Prod.mk.injEq] at e
  obtain ⟨rfl, rfl⟩ := e
  have ok := minApprox_spec hl
  have hx : l.x = l.at_ := by
    cases hy : l.why with
    | position => exact absurd hy hw
    | decrease => exact (ok.decrease hy).1
    | spent => exact ok.spent hy
  simp only at hc ⊢
  rw [← ok.g_eq, ← hx] at hc
  rw [hx] at hc ⊢
  rw [← ok.g_eq]
  unfold bfgsHess
  rw [if_pos hc]
  exact bfgs_secant h.1 (curved_pos hc)

/-- On the ending "small step" the recorded change of position is zero although the atoms
have moved, and the inverse Hessian is left as it was. -/
theorem bfgs_small_keeps {fdf : Vec ι → ℝ × Vec ι} {big tol : ℝ} {itmax : Nat}
    {s s' : Bfgs ι} {r : Line ι} (hs : bfgsStep fdf big tol itmax s = some (r, s'))
    (hw : r.why = .position) : s'.H = s.H := by
  unfold bfgsStep at hs
  rw [Option.map_eq_some_iff] at hs
  obtain ⟨l, hl, e⟩ := hs
  simp only [Prod.mk.injEq] at e
  obtain ⟨rfl, rfl⟩ := e
  have ok := minApprox_spec hl
  simp only
  rw [(ok.position hw).1, sub_self]
  unfold bfgsHess
  rw [if_neg]
  intro hc
  have := curved_pos hc
  simp at this

/-! ### Concrete cases -/

/-- The energy `x²` of one coordinate, with its gradient. -/
def parabola (x : Vec (Fin 1)) : ℝ × Vec (Fin 1) := (x 0 ^ 2, fun _ => 2 * x 0)

theorem dot_one (u v : Vec (Fin 1)) : u ⬝ᵥ v = u 0 * v 0 := by
  simp [dotProduct]

/-- **A downhill BFGS step can end uphill.**  Near the minimum of `x²`, with an inverse Hessian
four times too large, the downhill step is below the tolerance and is taken without looking:
the energy becomes nine times what it was. -/
theorem bfgs_step_rises :
    ∃ (s s' : Bfgs (Fin 1)) (r : Line (Fin 1)), Ready parabola s ∧
      bfgsStep parabola 1 (1 / 1000) 100 s = some (r, s') ∧
      (parabola s'.q).1 = 9 * (parabola s.q).1 ∧ 0 < (parabola s.q).1 := by
  let s : Bfgs (Fin 1) := ⟨fun _ => 1 / 10 ^ 6, fun _ => -(4 / 10 ^ 6), 2⟩
  have hpd : PosDef (2 : Matrix (Fin 1) (Fin 1) ℝ) := by
    have e : (2 : Matrix (Fin 1) (Fin 1) ℝ) = (2 : ℝ) • 1 := by
      ext i j; fin_cases i; fin_cases j; simp [Matrix.ofNat_apply]
    rw [e]
    refine ⟨isSymm_one.smul _, fun y hy => ?_⟩
    rw [smul_mulVec, one_mulVec, dotProduct_smul, smul_eq_mul]
    have := dot_self_pos hy
    positivity
  have hready : Ready parabola s := by
    refine ⟨hpd, fun _ => ?_⟩
    rw [dot_one]
    simp [parabola, s]
  have hn : norm s.d ≤ bigStep 1 s.q := by
    unfold norm bigStep
    rw [dot_one, dot_one]
    have h1 : Real.sqrt (s.d 0 * s.d 0) = 4 / 10 ^ 6 := by
      rw [Real.sqrt_mul_self_eq_abs]; simp [s]; norm_num [abs_of_pos]
    rw [h1, Fintype.card_fin]
    refine le_trans ?_ (le_of_eq (one_mul _).symm)
    exact le_trans (by norm_num) (le_max_right _ _)
  have hrel : relSize s.q s.d = 4 / 10 ^ 6 := by
    unfold relSize amax
    have : (fun i : Fin 1 => |s.d i| / max |s.q i| 1) = fun _ => (4 / 10 ^ 6 : ℝ) := by
      funext i
      have h1 : |s.q i| ≤ 1 := by simp only [s]; rw [abs_of_pos] <;> norm_num
      rw [max_eq_right h1]
      simp only [s, abs_neg, div_one]
      rw [abs_of_pos]; norm_num
    rw [this, ciSup_const]
  obtain ⟨r, hr, -, hat⟩ := minApprox_blind (fdf := parabola) (x0 := s.q) (d0 := s.d)
    (g0 := (parabola s.q).2) (f0 := (parabola s.q).1) (tol := 1 / 1000) (itmax := 100)
    (by norm_num) hn (by rw [hrel]; norm_num)
  refine ⟨s, _, r, hready, by unfold bfgsStep; rw [hr]; rfl, ?_, ?_⟩
  · simp only [hat, parabola, s, Pi.add_apply]
    norm_num
  · simp only [parabola, s]
    norm_num

/-- The premises of `bfgs_posdef` and `bfgs_secant` are met. -/
example : PosDef (1 : Matrix (Fin 2) (Fin 2) ℝ) ∧
    0 < (![1, 3] : Vec (Fin 2)) ⬝ᵥ ![2, 1] :=
  ⟨PosDef.one, by norm_num [dotProduct, Fin.sum_univ_two]⟩

end Verif.QN
