import Verif.Props.C72_IsoBarostat
import Mathlib.Analysis.Normed.Algebra.MatrixExponential
import Mathlib.LinearAlgebra.Matrix.NonsingularInverse
import Mathlib.Tactic.FinCases
import Mathlib.Analysis.SpecialFunctions.Trigonometric.DerivHyp

/-!
# C74: the flexible-cell barostats move atoms and cell along the exact solution of their equations

This holds as long as one of the diagonal velocities of the cell is not zero; when all three are,
the centroids are moved by the wrong amount.
-/

namespace Verif.Baro

open Finset

variable {nb N : ℕ}

/-- The equations of motion in a cell that is strained at the rate `v`: `dq/dt = p/m + v q`,
`dp/dt = -v p`, `dh/dt = v h`, where `v` is now a matrix. -/
structure AniFlow (m : Fin N → ℝ) (v : M3) (q p : ℝ → Cen N) (h : ℝ → M3) : Prop where
  pos : ∀ t a i, HasDerivAt (fun t => q t a i) (p t a i / m a + ∑ j, v i j * q t a j) t
  mom : ∀ t a i, HasDerivAt (fun t => p t a i) (-∑ j, v i j * p t a j) t
  cell : ∀ t i j, HasDerivAt (fun t => h t i j) (∑ k, v i k * h t k j) t

/-- The numerical library has returned an eigendecomposition of `v`. -/
structure EigOk (v : M3) (e : Eig) : Prop where
  inv : ∀ i j, mul3 e.vec e.ivec i j = one3 i j
  dec : ∀ i j, v i j = ∑ k, e.vec i k * e.val k * e.ivec k j

/-- A function of a matrix through its eigenvalues. -/
noncomputable def specFun (e : Eig) (f : ℝ → ℝ) : M3 :=
  fun i j => ∑ k, e.vec i k * f (e.val k) * e.ivec k j

theorem eig_inv' {v : M3} {e : Eig} (h : EigOk v e) (i j : Fin 3) :
    mul3 e.ivec e.vec i j = one3 i j := by
  have h1 : (Matrix.of e.vec : Matrix (Fin 3) (Fin 3) ℝ) * Matrix.of e.ivec = 1 := by
    ext i j
    rw [Matrix.mul_apply, Matrix.one_apply]
    exact h.inv i j
  have h2 := mul_eq_one_comm.mp h1
  have := congrFun (congrFun h2 i) j
  rw [Matrix.mul_apply, Matrix.one_apply] at this
  exact this

theorem specFun_mul {v : M3} {e : Eig} (h : EigOk v e) (f g : ℝ → ℝ) (i j : Fin 3) :
    ∑ k, specFun e f i k * specFun e g k j = specFun e (fun x => f x * g x) i j := by
  have hi := eig_inv' h
  simp only [mul3, one3] at hi
  have : ∀ k l, ∑ m, e.ivec k m * e.vec m l = if k = l then 1 else 0 := hi
  simp only [specFun, sum_mul_sum]
  rw [sum_comm]
  refine sum_congr rfl fun k _ => ?_
  rw [sum_comm]
  have e1 : ∀ l, ∑ m, e.vec i k * f (e.val k) * e.ivec k m * (e.vec m l * g (e.val l) * e.ivec l j)
      = e.vec i k * f (e.val k) * g (e.val l) * e.ivec l j * (if k = l then 1 else 0) := by
    intro l
    rw [← this k l, mul_sum]
    refine sum_congr rfl fun m _ => ?_
    ring
  simp only [e1, mul_ite, mul_one, mul_zero, sum_ite_eq, mem_univ, if_true]
  ring

theorem specFun_id {v : M3} {e : Eig} (h : EigOk v e) : specFun e (fun x => x) = v := by
  funext i j; rw [h.dec]; rfl

theorem mexp_eig {v : M3} {e : Eig} (h : EigOk v e) (t : ℝ) :
    mexp (fun i j => v i j * t) = specFun e fun x => Real.exp (x * t) := by
  have h1 : (Matrix.of e.vec : Matrix (Fin 3) (Fin 3) ℝ) * Matrix.of e.ivec = 1 := by
    ext i j
    rw [Matrix.mul_apply, Matrix.one_apply]
    exact h.inv i j
  have h2 : (Matrix.of e.ivec : Matrix (Fin 3) (Fin 3) ℝ) * Matrix.of e.vec = 1 :=
    mul_eq_one_comm.mp h1
  let u : (Matrix (Fin 3) (Fin 3) ℝ)ˣ := ⟨Matrix.of e.vec, Matrix.of e.ivec, h1, h2⟩
  have hd : (Matrix.of fun i j => v i j * t : Matrix (Fin 3) (Fin 3) ℝ)
      = (u : Matrix (Fin 3) (Fin 3) ℝ) * Matrix.diagonal (fun k => e.val k * t)
        * ((u⁻¹ : (Matrix (Fin 3) (Fin 3) ℝ)ˣ) : Matrix (Fin 3) (Fin 3) ℝ) := by
    ext i j
    rw [Matrix.mul_apply]
    simp only [Matrix.mul_diagonal]
    change v i j * t = ∑ k, e.vec i k * (e.val k * t) * e.ivec k j
    rw [h.dec, sum_mul]
    refine sum_congr rfl fun k _ => ?_
    ring
  funext i j
  rw [mexp, hd, Matrix.exp_units_conj, Matrix.exp_diagonal]
  rw [Matrix.mul_apply]
  simp only [Matrix.mul_diagonal]
  change ∑ k, e.vec i k * (NormedSpace.exp fun k => e.val k * t) k * e.ivec k j = _
  refine sum_congr rfl fun k _ => ?_
  rw [Pi.coe_exp, ← Real.exp_eq_exp_ℝ]

theorem specFun_deriv (e : Eig) {f : ℝ → ℝ → ℝ} {f' : ℝ → ℝ} {t : ℝ}
    (h : ∀ x, HasDerivAt (fun t => f t x) (f' x) t) (i j : Fin 3) :
    HasDerivAt (fun t => specFun e (f t) i j) (specFun e f' i j) t := by
  simp only [specFun]
  exact HasDerivAt.fun_sum fun k _ => ((h (e.val k)).const_mul _).mul_const _

/-- `sinh(x t)/x`, and `t` at zero. -/
theorem dt_sinch (t x : ℝ) : t * sinch (t * x) = if x = 0 then t else Real.sinh (t * x) / x := by
  by_cases hx : x = 0
  · simp [sinch, hx]
  · by_cases ht : t = 0
    · simp [sinch, ht]
    · rw [sinch, if_neg (mul_ne_zero ht hx), if_neg hx]
      field_simp

theorem dt_sinch_deriv (t x : ℝ) : HasDerivAt (fun t => t * sinch (t * x)) (Real.cosh (t * x)) t := by
  simp only [dt_sinch]
  by_cases hx : x = 0
  · simpa [hx] using hasDerivAt_id' t
  · simp only [if_neg hx]
    have h1 : HasDerivAt (fun t => t * x) x t := by simpa using (hasDerivAt_id t).mul_const x
    refine (h1.sinh.div_const x).congr_deriv ?_
    field_simp

/-- Some diagonal velocity is not zero. -/
def DiagMoves (v : M3) : Prop := ¬(v 0 0 = 0 ∧ v 1 1 = 0 ∧ v 2 2 = 0)

theorem aniSinh_eig (eig : M3 → Eig) (v : M3) (hd : DiagMoves v) (t : ℝ) :
    aniSinh eig v t = specFun (eig v) fun x => t * sinch (t * x) := by
  funext i j
  rw [aniSinh, if_neg hd]
  simp only [specFun, mul3, ite_mul, zero_mul, sum_ite_eq, mem_univ, if_true, mul_sum]
  refine sum_congr rfl fun k _ => ?_
  ring

theorem ani_mean_x [NeZero nb] (par : Par N) (eig : M3 → Eig) (t : ℝ) (s : Ani nb N) (a : Fin N)
    (i : Fin 3) : mean (aniQcstep par eig t s).x a i
      = (∑ j, mean s.x a j * mexp (fun i j => s.pe i j / par.M * t) i j)
        + ∑ j, mean s.p a j / par.m a * aniSinh eig (fun i j => s.pe i j / par.M) t i j := by
  simp only [aniQcstep]
  rw [mean_setMean]

theorem ani_mean_p [NeZero nb] (par : Par N) (eig : M3 → Eig) (t : ℝ) (s : Ani nb N) (a : Fin N)
    (i : Fin 3) : mean (aniQcstep par eig t s).p a i
      = ∑ j, mean s.p a j * mexp (fun i j => -(s.pe i j / par.M) * t) i j := by
  simp only [aniQcstep]
  rw [mean_setMean]

theorem mexp_neg_eig {v : M3} {e : Eig} (h : EigOk v e) (t : ℝ) :
    mexp (fun i j => -v i j * t) = specFun e fun x => Real.exp (-x * t) := by
  have := mexp_eig h (-t)
  simp only [mul_neg] at this
  simp only [neg_mul]
  exact this

theorem specFun_one {v : M3} {e : Eig} (h : EigOk v e) {f : ℝ → ℝ} (hf : ∀ x, f x = 1) :
    specFun e f = one3 := by
  funext i j
  simp only [specFun, hf, mul_one]
  exact h.inv i j

theorem specFun_zero (e : Eig) {f : ℝ → ℝ} (hf : ∀ x, f x = 0) (i j : Fin 3) :
    specFun e f i j = 0 := by
  simp [specFun, hf]

/-- **C74.** When some diagonal velocity of the cell is not zero (and the numerical library finds
its eigenvectors), the step of the flexible-cell barostats takes centroids, momenta and cell exactly
where their equations of motion take them, for a time step of any size; the beads move with their
centroid. -/
theorem ani_step_exact_partial [NeZero nb] (par : Par N) (eig : M3 → Eig) (s : Ani nb N)
    (hd : DiagMoves fun i j => s.pe i j / par.M)
    (he : EigOk (fun i j => s.pe i j / par.M) (eig fun i j => s.pe i j / par.M)) :
    aniQcstep par eig 0 s = s ∧
    AniFlow par.m (fun i j => s.pe i j / par.M) (fun t => mean (aniQcstep par eig t s).x)
      (fun t => mean (aniQcstep par eig t s).p) (fun t => (aniQcstep par eig t s).h) ∧
    (∀ dt, (aniQcstep par eig dt s).pe = s.pe ∧ (aniQcstep par eig dt s).eth = s.eth) ∧
    ∀ dt b a d,
      (aniQcstep par eig dt s).x b a d - mean (aniQcstep par eig dt s).x a d
        = s.x b a d - mean s.x a d ∧
      (aniQcstep par eig dt s).p b a d - mean (aniQcstep par eig dt s).p a d
        = s.p b a d - mean s.p a d := by
  have hX := fun t => mexp_eig he t
  have hP := fun t => mexp_neg_eig he t
  have hS := fun t => aniSinh_eig eig _ hd t
  set v : M3 := fun i j => s.pe i j / par.M with hv
  set e := eig v
  have hvid := specFun_id he
  refine ⟨?_, ⟨?_, ?_, ?_⟩, fun _ => ⟨rfl, rfl⟩, ?_⟩
  · have e1 : ∀ c : Cen N, (fun a i => ∑ j, c a j * one3 i j) = c := by
      intro c; funext a i; simp [one3]
    have o1 : mexp (fun i j => v i j * 0) = one3 := by
      rw [hX]; exact specFun_one he fun x => by simp
    have o2 : mexp (fun i j => -v i j * 0) = one3 := by
      rw [hP]; exact specFun_one he fun x => by simp
    have o3 : aniSinh eig v 0 = fun _ _ => 0 := by
      rw [hS]; funext i j; exact specFun_zero _ (fun x => by simp) i j
    have hx : (aniQcstep par eig 0 s).x = s.x := by
      simp only [aniQcstep]
      change setMean s.x (fun a i => (∑ j, mean s.x a j * mexp (fun i j => v i j * 0) i j)
        + ∑ j, mean s.p a j / par.m a * aniSinh eig v 0 i j) = _
      rw [o1, o3]
      simp only [mul_zero, sum_const_zero, add_zero]
      rw [e1, setMean_mean]
    have hp : (aniQcstep par eig 0 s).p = s.p := by
      simp only [aniQcstep]
      change setMean s.p (fun a i => ∑ j, mean s.p a j * mexp (fun i j => -v i j * 0) i j) = _
      rw [o2, e1, setMean_mean]
    have hh : (aniQcstep par eig 0 s).h = s.h := by
      simp only [aniQcstep]
      change mul3 (mexp fun i j => v i j * 0) s.h = _
      rw [o1]
      funext i j
      simp [mul3, one3]
    have ext : ∀ a b : Ani nb N, a.x = b.x → a.p = b.p → a.h = b.h → a.pe = b.pe → a.eth = b.eth →
        a = b := by
      rintro ⟨⟩ ⟨⟩ h1 h2 h3 h4 h5
      simp_all
    exact ext _ _ hx hp hh rfl rfl
  · intro t a i
    have hx : ∀ t i, mean (aniQcstep par eig t s).x a i
        = (∑ j, mean s.x a j * specFun e (fun x => Real.exp (x * t)) i j)
          + ∑ j, mean s.p a j / par.m a * specFun e (fun x => t * sinch (t * x)) i j := fun t i => by
      rw [ani_mean_x]
      change (∑ j, mean s.x a j * mexp (fun i j => v i j * t) i j)
        + ∑ j, mean s.p a j / par.m a * aniSinh eig v t i j = _
      rw [hX, hS]
    have hp : mean (aniQcstep par eig t s).p a i
        = ∑ j, mean s.p a j * specFun e (fun x => Real.exp (-x * t)) i j := by
      rw [ani_mean_p]
      change ∑ j, mean s.p a j * mexp (fun i j => -v i j * t) i j = _
      rw [hP]
    rw [funext fun t => hx t i, hp]
    simp only [hx]
    have d1 := fun j => (specFun_deriv e (t := t) (f := fun t x => Real.exp (x * t))
      (fun x => exp_lin x t) i j).const_mul (mean s.x a j)
    have d2 := fun j => (specFun_deriv e (t := t) (f := fun t x => t * sinch (t * x))
      (fun x => dt_sinch_deriv t x) i j).const_mul (mean s.p a j / par.m a)
    refine ((HasDerivAt.fun_sum fun j _ => d1 j).add (HasDerivAt.fun_sum fun j _ => d2 j)).congr_deriv ?_
    have m1 : ∀ j, ∑ k, v i k * specFun e (fun x => Real.exp (x * t)) k j
        = specFun e (fun x => x * Real.exp (x * t)) i j := fun j => by
      conv_lhs => rw [← hvid]
      exact specFun_mul he _ _ i j
    have m2 : ∀ j, ∑ k, v i k * specFun e (fun x => t * sinch (t * x)) k j
        = specFun e (fun x => x * (t * sinch (t * x))) i j := fun j => by
      conv_lhs => rw [← hvid]
      exact specFun_mul he _ _ i j
    have m3 : ∀ j, specFun e (fun x => Real.cosh (t * x)) i j
        = specFun e (fun x => x * (t * sinch (t * x))) i j
          + specFun e (fun x => Real.exp (-x * t)) i j := fun j => by
      simp only [specFun, ← sum_add_distrib]
      refine sum_congr rfl fun k _ => ?_
      rw [dt_sinch]
      by_cases hk : e.val k = 0
      · simp [hk]
      · rw [if_neg hk, mul_div_cancel₀ _ hk, ← add_mul, ← mul_add]
        have := Real.cosh_sub_sinh (t * e.val k)
        rw [show -(t * e.val k) = -e.val k * t by ring] at this
        rw [← this]
        ring
    have s1 : ∑ j, v i j * ((∑ l, mean s.x a l * specFun e (fun x => Real.exp (x * t)) j l)
          + ∑ l, mean s.p a l / par.m a * specFun e (fun x => t * sinch (t * x)) j l)
        = (∑ l, mean s.x a l * specFun e (fun x => x * Real.exp (x * t)) i l)
          + ∑ l, mean s.p a l / par.m a * specFun e (fun x => x * (t * sinch (t * x))) i l := by
      simp only [mul_add, sum_add_distrib, mul_sum]
      congr 1
      · rw [sum_comm]
        refine sum_congr rfl fun l _ => ?_
        rw [← m1, mul_sum]
        exact sum_congr rfl fun j _ => by ring
      · rw [sum_comm]
        refine sum_congr rfl fun l _ => ?_
        rw [← m2, mul_sum]
        exact sum_congr rfl fun j _ => by ring
    rw [s1]
    simp only [m3, mul_add, sum_add_distrib, sum_div]
    have : ∀ l, mean s.p a l / par.m a * specFun e (fun x => Real.exp (-x * t)) i l
        = mean s.p a l * specFun e (fun x => Real.exp (-x * t)) i l / par.m a := fun l => by ring
    simp only [this]
    ring
  · intro t a i
    have hp : ∀ t i, mean (aniQcstep par eig t s).p a i
        = ∑ j, mean s.p a j * specFun e (fun x => Real.exp (-x * t)) i j := fun t i => by
      rw [ani_mean_p]
      change ∑ j, mean s.p a j * mexp (fun i j => -v i j * t) i j = _
      rw [hP]
    rw [funext fun t => hp t i]
    simp only [hp]
    have d1 := fun j => (specFun_deriv e (t := t) (f := fun t x => Real.exp (-x * t))
      (fun x => exp_lin (-x) t) i j).const_mul (mean s.p a j)
    refine (HasDerivAt.fun_sum fun j _ => d1 j).congr_deriv ?_
    have m1 : ∀ j, ∑ k, v i k * specFun e (fun x => Real.exp (-x * t)) k j
        = -specFun e (fun x => -x * Real.exp (-x * t)) i j := fun j => by
      conv_lhs => rw [← hvid]
      rw [specFun_mul he]
      simp only [specFun, ← sum_neg_distrib]
      exact sum_congr rfl fun k _ => by ring
    have : ∑ j, v i j * ∑ l, mean s.p a l * specFun e (fun x => Real.exp (-x * t)) j l
        = -∑ l, mean s.p a l * specFun e (fun x => -x * Real.exp (-x * t)) i l := by
      simp only [mul_sum]
      rw [sum_comm, ← sum_neg_distrib]
      refine sum_congr rfl fun l _ => ?_
      rw [← mul_neg, ← m1, mul_sum]
      exact sum_congr rfl fun j _ => by ring
    rw [this, neg_neg]
  · intro t i j
    have hh : ∀ t i, (aniQcstep par eig t s).h i j
        = ∑ k, specFun e (fun x => Real.exp (x * t)) i k * s.h k j := fun t i => by
      change mul3 (mexp fun i j => v i j * t) s.h i j = _
      rw [hX]; rfl
    beta_reduce
    rw [funext fun t => hh t i]
    simp only [hh]
    have d1 := fun k => (specFun_deriv e (t := t) (f := fun t x => Real.exp (x * t))
      (fun x => exp_lin x t) i k).mul_const (s.h k j)
    refine (HasDerivAt.fun_sum fun k _ => d1 k).congr_deriv ?_
    have m1 : ∀ j, ∑ k, v i k * specFun e (fun x => Real.exp (x * t)) k j
        = specFun e (fun x => x * Real.exp (x * t)) i j := fun j => by
      conv_lhs => rw [← hvid]
      exact specFun_mul he _ _ i j
    simp only [mul_sum]
    rw [sum_comm]
    refine sum_congr rfl fun l _ => ?_
    rw [← m1, sum_mul]
    exact sum_congr rfl fun k _ => by ring
  · intro dt b a d
    simp only [aniQcstep]
    exact ⟨setMean_sub _ _ _ _ _, setMean_sub _ _ _ _ _⟩

/-- The series used for a cell without diagonal velocities is the one of `sinh x / x`, up to the
ninth power; with an upper triangular velocity all terms left out vanish. -/
theorem taylor_terms (x : M3) (i j : Fin 3) :
    matTaylor x i j = ∑ k ∈ range 5,
      ((2 * k + 1).factorial : ℝ)⁻¹ * ((Matrix.of x : Matrix (Fin 3) (Fin 3) ℝ) ^ (2 * k)) i j := by
  have hm : ∀ a b : M3, mul3 a b = ((Matrix.of a : Matrix (Fin 3) (Fin 3) ℝ) * Matrix.of b : _) :=
    fun a b => rfl
  have h1 : one3 = ((1 : Matrix (Fin 3) (Fin 3) ℝ) : _) := by
    funext i j
    exact (Matrix.one_apply).symm
  have key : Matrix.of (matTaylor x) = (1 : Matrix (Fin 3) (Fin 3) ℝ)
      + (1 / 6 : ℝ) • ((Matrix.of x) ^ 2) * (1 + (1 / 20 : ℝ) • ((Matrix.of x) ^ 2)
        * (1 + (1 / 42 : ℝ) • ((Matrix.of x) ^ 2) * (1 + (1 / 72 : ℝ) • ((Matrix.of x) ^ 2)))) := by
    ext i j
    simp only [matTaylor, hm, h1, pow_two]
    simp only [Matrix.of_apply, Matrix.add_apply, Matrix.mul_apply, Matrix.smul_apply, smul_eq_mul]
    ring
  have := congrFun (congrFun key i) j
  rw [Matrix.of_apply] at this
  rw [this]
  generalize (Matrix.of x : Matrix (Fin 3) (Fin 3) ℝ) = X
  have hx : (1 : Matrix (Fin 3) (Fin 3) ℝ) + (1 / 6 : ℝ) • X ^ 2 * (1 + (1 / 20 : ℝ) • X ^ 2
        * (1 + (1 / 42 : ℝ) • X ^ 2 * (1 + (1 / 72 : ℝ) • X ^ 2)))
      = ∑ k ∈ range 5, ((2 * k + 1).factorial : ℝ)⁻¹ • X ^ (2 * k) := by
    simp only [sum_range_succ, range_zero, sum_empty]
    simp only [mul_add, mul_one, smul_mul_assoc, mul_smul_comm, ← pow_add, smul_add]
    norm_num [Nat.factorial]
    module
  rw [hx]
  simp [Matrix.sum_apply, Matrix.smul_apply]

/-- **Disagreement.** When the cell does not move — for instance because all its entries are held
fixed — the centroids are moved by `p/m` times one atomic unit of time, whatever the time step. -/
theorem ani_step_zero_velocity [NeZero nb] (par : Par N) (eig : M3 → Eig) (s : Ani nb N)
    (h0 : s.pe = fun _ _ => 0) (dt : ℝ) (b : Fin nb) (a : Fin N) (d : Fin 3) :
    (aniQcstep par eig dt s).x b a d = s.x b a d + mean s.p a d / par.m a := by
  have e0 : mexp (fun _ _ => 0) = one3 := by
    funext i j
    rw [mexp]
    have : (Matrix.of fun _ _ => (0 : ℝ) : Matrix (Fin 3) (Fin 3) ℝ) = 0 := rfl
    rw [this, NormedSpace.exp_zero]
    exact Matrix.one_apply
  have t0 : matTaylor (fun _ _ => 0) = one3 := by
    funext i j
    simp [matTaylor, mul3]
  have hs : aniSinh eig (fun i j => s.pe i j / par.M) dt = one3 := by
    rw [aniSinh, if_pos (by simp [h0])]
    simp only [h0, zero_div, zero_mul]
    exact t0
  have hx : mexp (fun i j => s.pe i j / par.M * dt) = one3 := by
    simp only [h0, zero_div, zero_mul]
    exact e0
  simp only [aniQcstep, setMean]
  rw [hs, hx]
  simp [one3]

/-- In particular a step of no time at all moves the atoms, so the step is not a solution of any
equation of motion. -/
theorem ani_step_not_exact : ¬ ∀ (par : Par 1) (eig : M3 → Eig) (s : Ani 1 1),
    aniQcstep par eig 0 s = s := by
  intro h
  have h1 := h ⟨fun _ => 1, 1, 1⟩ (fun _ => ⟨one3, one3, fun _ => 0⟩)
    ⟨fun _ _ _ => 0, fun _ _ _ => 1, one3, fun _ _ => 0, 0⟩
  have h2 := ani_step_zero_velocity ⟨fun _ => 1, 1, 1⟩ (fun _ => ⟨one3, one3, fun _ => 0⟩)
    (⟨fun _ _ _ => 0, fun _ _ _ => 1, one3, fun _ _ => 0, 0⟩ : Ani 1 1) rfl 0 0 0 0
  rw [h1] at h2
  simp [mean] at h2

/-- Not vacuous: a cell that grows along one direction only. -/
example : DiagMoves (fun i j : Fin 3 => if i = 0 ∧ j = 0 then (1 : ℝ) else 0) ∧
    EigOk (fun i j : Fin 3 => if i = 0 ∧ j = 0 then (1 : ℝ) else 0)
      ⟨one3, one3, fun k => if k = 0 then 1 else 0⟩ := by
  refine ⟨fun h => by simpa using h.1, fun i j => ?_, fun i j => ?_⟩
  · simp [mul3, one3]
  · fin_cases i <;> fin_cases j <;> simp [one3]

end Verif.Baro
