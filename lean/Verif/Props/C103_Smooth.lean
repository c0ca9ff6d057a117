import Verif.Props.C103_Param
import Mathlib.Analysis.Calculus.ContDiff.Operations
import Mathlib.Analysis.Calculus.FDeriv.Bilinear

/-!
# C103: smooth potentials on scaled paths
-/

namespace Verif.Estim

open Finset MeasureTheory Topology

section
variable {n N : ℕ} {h h1 h2 g g1 g2 : ℝ → Conf n N → ℝ}

/-! ### Sums and products -/

theorem pow_mono_bound {C C' : ℝ} (hC : 0 ≤ C) (h : C ≤ C') {k k' : ℕ} (hk : k ≤ k') (q : Conf n N) :
    C * (1 + ‖q‖) ^ k ≤ C' * (1 + ‖q‖) ^ k' := by
  have h0 : 0 ≤ ‖q‖ := norm_nonneg q
  have h1 : (1 + ‖q‖) ^ k ≤ (1 + ‖q‖) ^ k' := pow_le_pow_right₀ (by linarith) hk
  exact mul_le_mul h h1 (by positivity) (hC.trans h)

theorem Nice.add (hh : Nice h h1 h2) (hg : Nice g g1 g2) :
    Nice (fun s q => h s q + g s q) (fun s q => h1 s q + g1 s q) (fun s q => h2 s q + g2 s q) where
  d1 s hs q := (hh.d1 s hs q).fun_add (hg.d1 s hs q)
  d2 s hs q := (hh.d2 s hs q).fun_add (hg.d2 s hs q)
  c0 s hs := (hh.c0 s hs).add (hg.c0 s hs)
  c1 s hs := (hh.c1 s hs).add (hg.c1 s hs)
  c2 s hs := (hh.c2 s hs).add (hg.c2 s hs)
  bound := by
    obtain ⟨C, hC, k, hb⟩ := hh.bound
    obtain ⟨C', hC', k', hb'⟩ := hg.bound
    refine ⟨C + C', by positivity, k + k', fun s hs q => ?_⟩
    have e1 := pow_mono_bound hC le_rfl (Nat.le_add_right k k') q
    have e2 := pow_mono_bound hC' le_rfl (Nat.le_add_left k' k) q
    obtain ⟨a0, a1, a2⟩ := hb s hs q
    obtain ⟨b0, b1, b2⟩ := hb' s hs q
    have key : ∀ x y : ℝ, |x| ≤ C * (1 + ‖q‖) ^ k → |y| ≤ C' * (1 + ‖q‖) ^ k' →
        |x + y| ≤ (C + C') * (1 + ‖q‖) ^ (k + k') := by
      intro x y hx hy
      have := abs_add_le x y
      rw [add_mul]
      linarith
    exact ⟨key _ _ a0 b0, key _ _ a1 b1, key _ _ a2 b2⟩

/-- A factor that depends on the parameter only. -/
theorem Nice.scale (hh : Nice h h1 h2) {p p1 p2 : ℝ → ℝ} {B : ℝ} (hB : 0 ≤ B)
    (hp : ∀ s ∈ Set.Ioo (-1 / 2 : ℝ) (1 / 2), HasDerivAt p (p1 s) s)
    (hp1 : ∀ s ∈ Set.Ioo (-1 / 2 : ℝ) (1 / 2), HasDerivAt p1 (p2 s) s)
    (hb : ∀ s ∈ Set.Ioo (-1 / 2 : ℝ) (1 / 2), |p s| ≤ B ∧ |p1 s| ≤ B ∧ |p2 s| ≤ B) :
    Nice (fun s q => p s * h s q) (fun s q => p1 s * h s q + p s * h1 s q)
      (fun s q => p2 s * h s q + 2 * p1 s * h1 s q + p s * h2 s q) where
  d1 s hs q := (hp s hs).fun_mul (hh.d1 s hs q)
  d2 s hs q := (((hp1 s hs).fun_mul (hh.d1 s hs q)).fun_add
    ((hp s hs).fun_mul (hh.d2 s hs q))).congr_deriv (by ring)
  c0 s hs := (hh.c0 s hs).const_mul _
  c1 s hs := ((hh.c0 s hs).const_mul _).add ((hh.c1 s hs).const_mul _)
  c2 s hs := (((hh.c0 s hs).const_mul _).add ((hh.c1 s hs).const_mul _)).add ((hh.c2 s hs).const_mul _)
  bound := by
    obtain ⟨C, hC, k, hbd⟩ := hh.bound
    refine ⟨4 * B * C, by positivity, k, fun s hs q => ?_⟩
    obtain ⟨a0, a1, a2⟩ := hbd s hs q
    obtain ⟨b0, b1, b2⟩ := hb s hs
    have h0 : 0 ≤ ‖q‖ := norm_nonneg q
    have hX : 0 ≤ (1 + ‖q‖) ^ k := by positivity
    have key : ∀ x y : ℝ, |x| ≤ B → |y| ≤ C * (1 + ‖q‖) ^ k → |x * y| ≤ B * C * (1 + ‖q‖) ^ k := by
      intro x y hx hy
      rw [abs_mul, mul_assoc]
      exact mul_le_mul hx hy (abs_nonneg _) hB
    have hBC : 0 ≤ B * C * (1 + ‖q‖) ^ k := by positivity
    refine ⟨?_, ?_, ?_⟩
    · have := key _ _ b0 a0
      linarith
    · have e1 := key _ _ b1 a0
      have e2 := key _ _ b0 a1
      have e3 := abs_add_le (p1 s * h s q) (p s * h1 s q)
      linarith
    · have e1 := key _ _ b2 a0
      have e2 := key _ _ b1 a1
      have e3 := key _ _ b0 a2
      have e4 := abs_add_le (p2 s * h s q + 2 * p1 s * h1 s q) (p s * h2 s q)
      have e5 := abs_add_le (p2 s * h s q) (2 * p1 s * h1 s q)
      have e6 : |2 * p1 s * h1 s q| = 2 * |p1 s * h1 s q| := by
        rw [mul_assoc, abs_mul]
        norm_num
      linarith

/-! ### Smooth functions on scaled paths -/

/-- Specification: a function of the configuration with two continuous derivatives that grow at most
like a power of the size of the configuration. -/
structure Smooth (A : Conf n N → ℝ) : Prop where
  diff : ContDiff ℝ 2 A
  bound : ∃ C : ℝ, 0 ≤ C ∧ ∃ k : ℕ, ∀ q, |A q| ≤ C * (1 + ‖q‖) ^ k ∧
    ‖fderiv ℝ A q‖ ≤ C * (1 + ‖q‖) ^ k ∧ ‖fderiv ℝ (fderiv ℝ A) q‖ ≤ C * (1 + ‖q‖) ^ k

/-- The distances of all replicas from their centroids. -/
noncomputable def fromC (q : Conf n N) : Conf n N := fun x => q x - qc q x.2.1 x.2.2

theorem scaled_fromC (q : Conf n N) (r : ℝ) : scaled q r = q + (r - 1) • fromC q := by
  ext x
  simp only [scaled, fromC, Pi.add_apply, Pi.smul_apply, smul_eq_mul]
  ring

theorem fromC_cont : Continuous (fromC : Conf n N → Conf n N) := by
  unfold fromC qc
  fun_prop

theorem qc_le (q : Conf n N) (a : Fin N) (d : Fin 3) : |qc q a d| ≤ ‖q‖ := by
  have hP : (0 : ℝ) < ((n + 1 : ℕ) : ℝ) := by positivity
  unfold qc
  rw [abs_div, abs_of_pos hP, div_le_iff₀ hP]
  calc |∑ b, q (b, a, d)| ≤ ∑ b : Fin (n + 1), |q (b, a, d)| := Finset.abs_sum_le_sum_abs _ _
    _ ≤ ∑ _b : Fin (n + 1), ‖q‖ := Finset.sum_le_sum fun b _ => norm_le_pi_norm q (b, a, d)
    _ = ‖q‖ * ((n + 1 : ℕ) : ℝ) := by
      rw [Finset.sum_const, Finset.card_univ, Fintype.card_fin, nsmul_eq_mul, mul_comm]

theorem fromC_le (q : Conf n N) : ‖fromC q‖ ≤ 2 * ‖q‖ := by
  rw [pi_norm_le_iff_of_nonneg (by positivity)]
  intro x
  have h1 := norm_le_pi_norm q x
  have h2 := qc_le q x.2.1 x.2.2
  have h3 := norm_sub_le (q x) (qc q x.2.1 x.2.2)
  rw [Real.norm_eq_abs (qc _ _ _)] at h3
  unfold fromC
  linarith

theorem sqrt_range {s : ℝ} (hs : s ∈ Set.Ioo (-1 / 2 : ℝ) (1 / 2)) :
    0 < 1 + s ∧ 1 / 2 ≤ √(1 + s) ∧ √(1 + s) ≤ 3 / 2 := by
  have h1 : (1 / 2 : ℝ) < 1 + s := by linarith [hs.1]
  have h2 : 1 + s < 3 / 2 := by linarith [hs.2]
  refine ⟨by linarith, Real.le_sqrt_of_sq_le (by norm_num; linarith), ?_⟩
  rw [Real.sqrt_le_left (by norm_num)]
  norm_num
  linarith

theorem scaled_le {r : ℝ} (h1 : 1 / 2 ≤ r) (h2 : r ≤ 3 / 2) (q : Conf n N) : ‖scaled q r‖ ≤ 2 * ‖q‖ := by
  rw [scaled_fromC]
  have e1 := norm_add_le q ((r - 1) • fromC q)
  have e2 := fromC_le q
  have e3 : ‖r - 1‖ ≤ 1 / 2 := by
    rw [Real.norm_eq_abs, abs_le]
    constructor <;> linarith
  rw [norm_smul] at e1
  nlinarith [norm_nonneg (fromC q), norm_nonneg q]

theorem scaled_scaled (q : Conf n N) {r : ℝ} (hr : r ≠ 0) : scaled (scaled q r) (1 / r) = q := by
  have h : ∀ a d, qc (scaled q r) a d = qc q a d := by
    intro a d
    have hP : ((n + 1 : ℕ) : ℝ) ≠ 0 := by positivity
    have e : ∑ b, scaled q r (b, a, d) = ((n + 1 : ℕ) : ℝ) * (qc q a d * (1 - r))
        + r * ∑ b, q (b, a, d) := by
      simp only [scaled, Finset.sum_add_distrib, Finset.sum_const, Finset.card_univ, Fintype.card_fin,
        nsmul_eq_mul, Finset.mul_sum]
    rw [qc, e, qc]
    field_simp
    ring
  ext x
  unfold scaled at h ⊢
  rw [h]
  field_simp
  ring

theorem scaled_ge {r : ℝ} (h1 : 1 / 2 ≤ r) (h2 : r ≤ 3 / 2) (q : Conf n N) : ‖q‖ ≤ 3 * ‖scaled q r‖ := by
  have hr : r ≠ 0 := by linarith
  have e0 := scaled_scaled q hr
  rw [scaled_fromC] at e0
  have e1 := norm_add_le (scaled q r) ((1 / r - 1) • fromC (scaled q r))
  rw [e0, norm_smul] at e1
  have e2 := fromC_le (scaled q r)
  have e3 : ‖1 / r - 1‖ ≤ 1 := by
    have : 1 / r ≤ 2 := by
      rw [div_le_iff₀ (by linarith)]
      linarith
    have : 0 < 1 / r := by
      have : 0 < r := by linarith
      positivity
    rw [Real.norm_eq_abs, abs_le]
    constructor <;> linarith
  nlinarith [norm_nonneg (fromC (scaled q r)), norm_nonneg (scaled q r)]

/-- The scaled path and its derivatives with respect to the relative inverse temperature. -/
noncomputable def along (A : Conf n N → ℝ) (s : ℝ) (q : Conf n N) : ℝ := A (scaled q √(1 + s))

noncomputable def along1 (A : Conf n N → ℝ) (s : ℝ) (q : Conf n N) : ℝ :=
  1 / (2 * √(1 + s)) * fderiv ℝ A (scaled q √(1 + s)) (fromC q)

noncomputable def along2 (A : Conf n N → ℝ) (s : ℝ) (q : Conf n N) : ℝ :=
  (1 / (2 * √(1 + s))) ^ 2 * fderiv ℝ (fderiv ℝ A) (scaled q √(1 + s)) (fromC q) (fromC q)
    - 1 / (4 * √(1 + s) ^ 3) * fderiv ℝ A (scaled q √(1 + s)) (fromC q)

theorem scaled_deriv {s : ℝ} (hs : 0 < 1 + s) (q : Conf n N) :
    HasDerivAt (fun s => scaled q √(1 + s)) ((1 / (2 * √(1 + s))) • fromC q) s := by
  simp only [scaled_fromC]
  have h1 : HasDerivAt (fun s : ℝ => √(1 + s) - 1) (1 / (2 * √(1 + s))) s :=
    (((hasDerivAt_id s).const_add 1).sqrt hs.ne').sub_const 1
  exact (h1.smul_const (fromC q)).const_add q

theorem smooth_nice {A : Conf n N → ℝ} (hA : Smooth A) : Nice (along A) (along1 A) (along2 A) := by
  have hd : Differentiable ℝ A := hA.diff.differentiable (by norm_num)
  have hd1 : ContDiff ℝ 1 (fderiv ℝ A) := hA.diff.fderiv_right (by norm_num)
  have hdd : Differentiable ℝ (fderiv ℝ A) := hd1.differentiable (by norm_num)
  have hc0 : Continuous A := hA.diff.continuous
  have hc1 : Continuous (fderiv ℝ A) := hd1.continuous
  have hc2 : Continuous (fderiv ℝ (fderiv ℝ A)) := hd1.continuous_fderiv (by norm_num)
  have hsc : ∀ r : ℝ, Continuous fun q : Conf n N => scaled q r := by
    intro r
    simp only [scaled_fromC]
    have := fromC_cont (n := n) (N := N)
    fun_prop
  have hf := fromC_cont (n := n) (N := N)
  refine ⟨?_, ?_, ?_, ?_, ?_, ?_⟩
  · intro s hs q
    have h0 := (sqrt_range hs).1
    have := (hd (scaled q √(1 + s))).hasFDerivAt.comp_hasDerivAt s (scaled_deriv h0 q)
    refine this.congr_deriv ?_
    rw [map_smul, smul_eq_mul, along1]
  · intro s hs q
    have h0 := (sqrt_range hs).1
    have hr : √(1 + s) ≠ 0 := (Real.sqrt_pos.2 h0).ne'
    have d1 := (hdd (scaled q √(1 + s))).hasFDerivAt.comp_hasDerivAt s (scaled_deriv h0 q)
    have d2 := d1.clm_apply (hasDerivAt_const s (fromC q))
    have d3 : HasDerivAt (fun s : ℝ => 1 / (2 * √(1 + s))) (-1 / (4 * √(1 + s) ^ 3)) s := by
      have e := (((hasDerivAt_id s).const_add 1).sqrt h0.ne').const_mul 2
      have e2 := e.inv (by simpa using hr)
      simp only [one_div]
      refine e2.congr_deriv ?_
      simp only [id]
      field_simp
      norm_num
    have := d3.fun_mul d2
    refine this.congr_deriv ?_
    simp only [map_smul, map_zero, add_zero, Function.comp, along2, ContinuousLinearMap.smul_apply, smul_eq_mul]
    ring
  · intro s hs
    exact hc0.comp (hsc _)
  · intro s hs
    exact ((hc1.comp (hsc _)).clm_apply hf).const_mul _
  · intro s hs
    exact ((((hc2.comp (hsc _)).clm_apply hf).clm_apply hf).const_mul _).sub
      (((hc1.comp (hsc _)).clm_apply hf).const_mul _)
  · obtain ⟨C, hC, k, hb⟩ := hA.bound
    refine ⟨C * 2 ^ k * 8, by positivity, k + 2, fun s hs q => ?_⟩
    obtain ⟨h0, hr1, hr2⟩ := sqrt_range hs
    obtain ⟨b0, b1, b2⟩ := hb (scaled q √(1 + s))
    have hq : 0 ≤ ‖q‖ := norm_nonneg q
    have hX : C * (1 + ‖scaled q √(1 + s)‖) ^ k ≤ C * 2 ^ k * (1 + ‖q‖) ^ k := by
      rw [mul_assoc, ← mul_pow]
      refine mul_le_mul_of_nonneg_left (pow_le_pow_left₀ (by positivity) ?_ k) hC
      have := scaled_le hr1 hr2 q
      linarith
    set X := C * 2 ^ k * (1 + ‖q‖) ^ k with hXd
    have hX0 : 0 ≤ X := by positivity
    have hL := fromC_le q
    have hL' : ‖fromC q‖ ≤ 2 * (1 + ‖q‖) := by linarith
    have hL0 := norm_nonneg (fromC q)
    have hgoal : C * 2 ^ k * 8 * (1 + ‖q‖) ^ (k + 2) = 8 * X * (1 + ‖q‖) ^ 2 := by
      rw [hXd, pow_add]
      ring
    rw [hgoal]
    have h1q : (1 : ℝ) ≤ 1 + ‖q‖ := by linarith
    have t1 : |fderiv ℝ A (scaled q √(1 + s)) (fromC q)| ≤ 2 * X * (1 + ‖q‖) := by
      have := ContinuousLinearMap.le_opNorm (fderiv ℝ A (scaled q √(1 + s))) (fromC q)
      rw [Real.norm_eq_abs] at this
      calc |fderiv ℝ A (scaled q √(1 + s)) (fromC q)| ≤ ‖fderiv ℝ A (scaled q √(1 + s))‖ * ‖fromC q‖ := this
        _ ≤ X * (2 * (1 + ‖q‖)) := mul_le_mul (b1.trans hX) hL' hL0 hX0
        _ = _ := by ring
    have t2 : |fderiv ℝ (fderiv ℝ A) (scaled q √(1 + s)) (fromC q) (fromC q)| ≤ 4 * X * (1 + ‖q‖) ^ 2 := by
      have := ContinuousLinearMap.le_opNorm₂ (fderiv ℝ (fderiv ℝ A) (scaled q √(1 + s))) (fromC q) (fromC q)
      rw [Real.norm_eq_abs] at this
      calc _ ≤ ‖fderiv ℝ (fderiv ℝ A) (scaled q √(1 + s))‖ * ‖fromC q‖ * ‖fromC q‖ := this
        _ ≤ X * (2 * (1 + ‖q‖)) * (2 * (1 + ‖q‖)) :=
          mul_le_mul (mul_le_mul (b2.trans hX) hL' hL0 hX0) hL' hL0 (by positivity)
        _ = _ := by ring
    have r1 : 0 < 1 / (2 * √(1 + s)) ∧ 1 / (2 * √(1 + s)) ≤ 1 := by
      refine ⟨by positivity, ?_⟩
      rw [div_le_one (by positivity)]
      linarith
    have r2 : 0 < 1 / (4 * √(1 + s) ^ 3) ∧ 1 / (4 * √(1 + s) ^ 3) ≤ 2 := by
      have : (1 / 2 : ℝ) ^ 3 ≤ √(1 + s) ^ 3 := pow_le_pow_left₀ (by norm_num) hr1 3
      refine ⟨by positivity, ?_⟩
      rw [div_le_iff₀ (by positivity)]
      norm_num at this ⊢
      linarith
    have hsq : (1 + ‖q‖) ≤ (1 + ‖q‖) ^ 2 := by nlinarith
    have hXs : X * (1 + ‖q‖) ≤ X * (1 + ‖q‖) ^ 2 := mul_le_mul_of_nonneg_left hsq hX0
    have hX1 : X ≤ X * (1 + ‖q‖) ^ 2 := by nlinarith
    refine ⟨?_, ?_, ?_⟩
    · have := b0.trans hX
      unfold along
      nlinarith
    · unfold along1
      rw [abs_mul, abs_of_pos r1.1]
      have := mul_le_mul r1.2 t1 (abs_nonneg _) zero_le_one
      nlinarith
    · unfold along2
      refine (abs_sub _ _).trans ?_
      rw [abs_mul, abs_mul, abs_of_pos r2.1, abs_of_nonneg (sq_nonneg _)]
      have e1 := mul_le_mul (pow_le_one₀ r1.1.le r1.2 (n := 2)) t2 (abs_nonneg _) zero_le_one
      have e2 := mul_le_mul r2.2 t1 (abs_nonneg _) (by norm_num)
      nlinarith

end

end Verif.Estim
