import Verif.Phys.Estim
import Mathlib.Analysis.Calculus.LineDeriv.IntegrationByParts
import Mathlib.Analysis.SpecialFunctions.JapaneseBracket
import Mathlib.Analysis.SpecialFunctions.ExpDeriv
import Mathlib.MeasureTheory.Measure.Haar.OfBasis
import Mathlib.Tactic.FieldSimp
import Mathlib.Tactic.LinearCombination
import Mathlib.Tactic.FinCases

/-!
# C100: the kinetic energy estimators agree

Specification: the Boltzmann weight of the ring polymers, `exp (-(V + springs) / (kB (n+1) T))`.  The
centroid virial estimator needs the forces, the primitive one the lengths of the springs; their
averages are equal for every selection of atoms.
-/

namespace Verif.Estim

open Finset MeasureTheory

section
variable {n N : ℕ}

/-- Specification: the Boltzmann weight of the beads, at `n + 1` times the temperature; the springs
have the constants `m omegan2`. -/
noncomputable def boltz (kB T omegan2 : ℝ) (m : Fin N → ℝ) (V : Conf n N → ℝ) (q : Conf n N) : ℝ :=
  Real.exp (-(V q + ∑ a, ∑ d, ∑ b : Fin (n + 1),
    1 / 2 * m a * omegan2 * (q (b + 1, a, d) - q (b, a, d)) ^ 2) / (kB * T * ((n + 1 : ℕ) : ℝ)))

/-- Specification: `f` are the forces of the potential `V`. -/
def IsForceOf (V : Conf n N → ℝ) (f : Conf n N → Conf n N) : Prop :=
  ∀ q x, HasDerivAt (fun t : ℝ => V (Function.update q x (q x + t))) (-f q x) 0

/-- Specification: the averages that occur exist. -/
structure Averages (W : Conf n N → ℝ) (f : Conf n N → Conf n N) : Prop where
  one : Integrable W
  pos : ∀ x, Integrable fun q => q x * W q
  pos2 : ∀ x y, Integrable fun q => q x * q y * W q
  vir : ∀ x y, Integrable fun q => q x * f q y * W q

theorem springs_cyc (q : Conf n N) (a : Fin N) :
    springs q a = ∑ d, ∑ b : Fin (n + 1), (q (b + 1, a, d) - q (b, a, d)) ^ 2 := by
  unfold springs
  rw [Finset.sum_comm, ← Finset.sum_add_distrib]
  refine Finset.sum_congr rfl fun d _ => ?_
  rw [Fin.sum_univ_castSucc]
  congr 1
  · refine Finset.sum_congr rfl fun b _ => ?_
    rw [Fin.coeSucc_eq_succ]
  · rw [Fin.last_add_one]
    ring

theorem update_eq (q : Conf n N) (x : Fin (n + 1) × Fin N × Fin 3) (t : ℝ) :
    Function.update q x (q x + t) = q + t • Pi.single x 1 := by
  funext y
  by_cases h : y = x
  · subst h; simp
  · simp [Function.update_of_ne h, Pi.single_eq_of_ne h]

theorem single_apply' (x y : Fin (n + 1) × Fin N × Fin 3) :
    (Pi.single x (1 : ℝ) : Conf n N) y = if y = x then 1 else 0 := by
  rw [Pi.single_apply]

/-- The derivative of twice the spring energy. -/
def springDer (omegan2 : ℝ) (m : Fin N → ℝ) (q : Conf n N) (x : Fin (n + 1) × Fin N × Fin 3) : ℝ :=
  ∑ a, ∑ d, ∑ b : Fin (n + 1), m a * omegan2 * (q (b + 1, a, d) - q (b, a, d))
    * ((if (b + 1, a, d) = x then 1 else 0) - if (b, a, d) = x then 1 else 0)

theorem spring_deriv (omegan2 : ℝ) (m : Fin N → ℝ) (q : Conf n N) (x : Fin (n + 1) × Fin N × Fin 3) :
    HasLineDerivAt ℝ (fun q : Conf n N => ∑ a, ∑ d, ∑ b : Fin (n + 1),
      1 / 2 * m a * omegan2 * (q (b + 1, a, d) - q (b, a, d)) ^ 2) (springDer omegan2 m q x) q
      (Pi.single x 1) := by
  unfold HasLineDerivAt springDer
  refine HasDerivAt.fun_sum fun a _ => HasDerivAt.fun_sum fun d _ => HasDerivAt.fun_sum fun b _ => ?_
  have h : ∀ y, HasDerivAt (fun t : ℝ => (q + t • (Pi.single x 1 : Conf n N)) y)
      (if y = x then 1 else 0) 0 := by
    intro y
    simp only [Pi.add_apply, Pi.smul_apply, smul_eq_mul, single_apply']
    simpa using ((hasDerivAt_id (0 : ℝ)).mul_const (if y = x then (1 : ℝ) else 0)).const_add (q y)
  refine ((((h (b + 1, a, d)).sub (h (b, a, d))).fun_pow 2).const_mul
    (1 / 2 * m a * omegan2)).congr_deriv ?_
  simp
  ring

/-- The virial of the springs about the centroid. -/
theorem spring_virial (omegan2 : ℝ) (m : Fin N → ℝ) (q : Conf n N) (a : Fin N) :
    ∑ d, ∑ b : Fin (n + 1), (q (b, a, d) - qc q a d) * springDer omegan2 m q (b, a, d)
      = m a * omegan2 * springs q a := by
  rw [springs_cyc, Finset.mul_sum]
  refine Finset.sum_congr rfl fun d _ => ?_
  have h1 : ∀ b : Fin (n + 1), springDer omegan2 m q (b, a, d)
      = ∑ c : Fin (n + 1), m a * omegan2 * (q (c + 1, a, d) - q (c, a, d))
        * ((if c + 1 = b then 1 else 0) - if c = b then 1 else 0) := by
    intro b
    unfold springDer
    rw [Finset.sum_eq_single a]
    · rw [Finset.sum_eq_single d]
      · refine Finset.sum_congr rfl fun c _ => ?_
        simp
      · intro e _ he
        refine Finset.sum_eq_zero fun c _ => ?_
        simp [he]
      · simp
    · intro e _ he
      refine Finset.sum_eq_zero fun c _ => Finset.sum_eq_zero fun c' _ => ?_
      simp [he]
    · simp
  simp only [h1, Finset.mul_sum]
  rw [Finset.sum_comm]
  refine Finset.sum_congr rfl fun c _ => ?_
  have h2 : ∀ b : Fin (n + 1), (q (b, a, d) - qc q a d)
      * (m a * omegan2 * (q (c + 1, a, d) - q (c, a, d)) * ((if c + 1 = b then 1 else 0) - if c = b then 1 else 0))
      = (if c + 1 = b then (q (b, a, d) - qc q a d) * (m a * omegan2 * (q (c + 1, a, d) - q (c, a, d))) else 0)
        - (if c = b then (q (b, a, d) - qc q a d) * (m a * omegan2 * (q (c + 1, a, d) - q (c, a, d))) else 0) := by
    intro b
    split <;> split <;> ring
  simp only [h2, Finset.sum_sub_distrib, Finset.sum_ite_eq, Finset.mem_univ, if_true]
  ring

/-- The derivative of a position measured from its centroid. -/
theorem centred_deriv (q : Conf n N) (b a d) :
    HasLineDerivAt ℝ (fun q : Conf n N => q (b, a, d) - qc q a d) (1 - 1 / ((n + 1 : ℕ) : ℝ)) q
      (Pi.single (b, a, d) 1) := by
  unfold HasLineDerivAt qc
  have h : ∀ y, HasDerivAt (fun t : ℝ => (q + t • (Pi.single (b, a, d) 1 : Conf n N)) y)
      (if y = (b, a, d) then 1 else 0) 0 := by
    intro y
    simp only [Pi.add_apply, Pi.smul_apply, smul_eq_mul, single_apply']
    simpa using ((hasDerivAt_id (0 : ℝ)).mul_const (if y = (b, a, d) then (1 : ℝ) else 0)).const_add (q y)
  refine ((h (b, a, d)).sub ((HasDerivAt.fun_sum fun c _ => h (c, a, d)).div_const _)).congr_deriv ?_
  simp

variable {kB T omegan2 : ℝ} {m : Fin N → ℝ} {V : Conf n N → ℝ} {f : Conf n N → Conf n N}

theorem boltz_deriv (hf : IsForceOf V f) (q : Conf n N) (x) :
    HasLineDerivAt ℝ (boltz kB T omegan2 m V)
      ((f q x - springDer omegan2 m q x) / (kB * T * ((n + 1 : ℕ) : ℝ)) * boltz kB T omegan2 m V q) q
      (Pi.single x 1) := by
  have hV : HasDerivAt (fun t : ℝ => V (q + t • (Pi.single x 1 : Conf n N))) (-f q x) 0 := by
    have := hf q x
    simpa only [update_eq] using this
  have hS := spring_deriv omegan2 m q x
  unfold HasLineDerivAt at hS ⊢
  have h := (((hV.add hS).neg).div_const (kB * T * ((n + 1 : ℕ) : ℝ))).exp
  refine h.congr_deriv ?_
  unfold boltz
  simp only [Pi.add_apply, Pi.neg_apply, zero_smul, Pi.zero_apply, add_zero]
  ring

theorem spring_lin (omegan2 : ℝ) (m : Fin N → ℝ) (q : Conf n N) (x) :
    springDer omegan2 m q x = ∑ a, ∑ d, ∑ b : Fin (n + 1),
      (m a * omegan2 * ((if (b + 1, a, d) = x then 1 else 0) - if (b, a, d) = x then 1 else 0))
        * (q (b + 1, a, d) - q (b, a, d)) := by
  unfold springDer
  exact Finset.sum_congr rfl fun a _ => Finset.sum_congr rfl fun d _ =>
    Finset.sum_congr rfl fun b _ => by ring

section
variable (hA : Averages (boltz kB T omegan2 m V) f)
include hA

theorem int_centred_pos (b a d y) :
    Integrable fun q => (q (b, a, d) - qc q a d) * q y * boltz kB T omegan2 m V q := by
  have h : (fun q => (q (b, a, d) - qc q a d) * q y * boltz kB T omegan2 m V q)
      = fun q => q (b, a, d) * q y * boltz kB T omegan2 m V q
        - (∑ c, q (c, a, d) * q y * boltz kB T omegan2 m V q) / ((n + 1 : ℕ) : ℝ) := by
    funext q
    unfold qc
    rw [← Finset.sum_mul, ← Finset.sum_mul]
    ring
  rw [h]
  exact (hA.pos2 _ _).sub ((integrable_finsetSum _ fun c _ => hA.pos2 _ _).div_const _)

theorem int_centred_one (b a d) :
    Integrable fun q => (q (b, a, d) - qc q a d) * boltz kB T omegan2 m V q := by
  have h : (fun q => (q (b, a, d) - qc q a d) * boltz kB T omegan2 m V q)
      = fun q => q (b, a, d) * boltz kB T omegan2 m V q
        - (∑ c, q (c, a, d) * boltz kB T omegan2 m V q) / ((n + 1 : ℕ) : ℝ) := by
    funext q
    unfold qc
    rw [← Finset.sum_mul]
    ring
  rw [h]
  exact (hA.pos _).sub ((integrable_finsetSum _ fun c _ => hA.pos _).div_const _)

theorem int_centred_vir (b a d y) :
    Integrable fun q => (q (b, a, d) - qc q a d) * f q y * boltz kB T omegan2 m V q := by
  have h : (fun q => (q (b, a, d) - qc q a d) * f q y * boltz kB T omegan2 m V q)
      = fun q => q (b, a, d) * f q y * boltz kB T omegan2 m V q
        - (∑ c, q (c, a, d) * f q y * boltz kB T omegan2 m V q) / ((n + 1 : ℕ) : ℝ) := by
    funext q
    unfold qc
    rw [← Finset.sum_mul, ← Finset.sum_mul]
    ring
  rw [h]
  exact (hA.vir _ _).sub ((integrable_finsetSum _ fun c _ => hA.vir _ _).div_const _)

theorem int_centred_spring (b a d y) :
    Integrable fun q => (q (b, a, d) - qc q a d) * springDer omegan2 m q y
      * boltz kB T omegan2 m V q := by
  have h : (fun q => (q (b, a, d) - qc q a d) * springDer omegan2 m q y * boltz kB T omegan2 m V q)
      = fun q => ∑ a', ∑ d', ∑ c : Fin (n + 1),
        (m a' * omegan2 * ((if (c + 1, a', d') = y then 1 else 0) - if (c, a', d') = y then 1 else 0))
        * ((q (b, a, d) - qc q a d) * q (c + 1, a', d') * boltz kB T omegan2 m V q
          - (q (b, a, d) - qc q a d) * q (c, a', d') * boltz kB T omegan2 m V q) := by
    funext q
    rw [spring_lin, Finset.mul_sum, Finset.sum_mul]
    refine Finset.sum_congr rfl fun a' _ => ?_
    rw [Finset.mul_sum, Finset.sum_mul]
    refine Finset.sum_congr rfl fun d' _ => ?_
    rw [Finset.mul_sum, Finset.sum_mul]
    refine Finset.sum_congr rfl fun c _ => ?_
    ring
  rw [h]
  exact integrable_finsetSum _ fun a' _ => integrable_finsetSum _ fun d' _ =>
    integrable_finsetSum _ fun c _ =>
      ((int_centred_pos hA b a d _).sub (int_centred_pos hA b a d _)).const_mul _

/-- Integration by parts for one coordinate. -/
theorem virial_coordinate (hf : IsForceOf V f) (hk : 0 < kB * T) (b a d) :
    (∫ q, (q (b, a, d) - qc q a d) * f q (b, a, d) * boltz kB T omegan2 m V q)
      - ∫ q, (q (b, a, d) - qc q a d) * springDer omegan2 m q (b, a, d) * boltz kB T omegan2 m V q
      = -(kB * T * n) * ∫ q, boltz kB T omegan2 m V q := by
  have hP : (0 : ℝ) < ((n + 1 : ℕ) : ℝ) := by positivity
  have i1 := int_centred_vir hA b a d (b, a, d)
  have i2 := int_centred_spring hA b a d (b, a, d)
  have e1 : (fun q : Conf n N => (q (b, a, d) - qc q a d) *
      ((f q (b, a, d) - springDer omegan2 m q (b, a, d)) / (kB * T * ((n + 1 : ℕ) : ℝ))
        * boltz kB T omegan2 m V q))
      = fun q => ((q (b, a, d) - qc q a d) * f q (b, a, d) * boltz kB T omegan2 m V q
        - (q (b, a, d) - qc q a d) * springDer omegan2 m q (b, a, d) * boltz kB T omegan2 m V q)
        / (kB * T * ((n + 1 : ℕ) : ℝ)) := by
    funext q
    ring
  have key := integral_bilinear_hasLineDerivAt_right_eq_neg_left_of_integrable
    (μ := (volume : Measure (Conf n N))) (B := ContinuousLinearMap.mul ℝ ℝ)
    (f := fun q : Conf n N => q (b, a, d) - qc q a d) (f' := fun _ => 1 - 1 / ((n + 1 : ℕ) : ℝ))
    (g := boltz kB T omegan2 m V)
    (g' := fun q => (f q (b, a, d) - springDer omegan2 m q (b, a, d)) / (kB * T * ((n + 1 : ℕ) : ℝ))
      * boltz kB T omegan2 m V q) (v := Pi.single (b, a, d) 1)
    (by
      simp only [ContinuousLinearMap.mul_apply']
      exact hA.one.const_mul _)
    (by
      simp only [ContinuousLinearMap.mul_apply']
      rw [e1]
      exact (i1.sub i2).div_const _)
    (by
      simp only [ContinuousLinearMap.mul_apply']
      exact int_centred_one hA b a d)
    (fun q _ => centred_deriv q b a d)
    (fun q _ => boltz_deriv hf q (b, a, d))
  simp only [ContinuousLinearMap.mul_apply'] at key
  rw [e1] at key
  rw [integral_div, integral_sub i1 i2, integral_const_mul] at key
  rw [div_eq_iff (by positivity)] at key
  rw [key]
  have : ((n + 1 : ℕ) : ℝ) ≠ 0 := hP.ne'
  field_simp
  push_cast
  ring

/-- The same for an atom. -/
theorem virial_atom (hf : IsForceOf V f) (hk : 0 < kB * T) (a : Fin N) :
    Integrable (fun q => (∑ b, ∑ d, (q (b, a, d) - qc q a d) * f q (b, a, d))
      * boltz kB T omegan2 m V q) ∧
    Integrable (fun q => springs q a * (m a * omegan2) * boltz kB T omegan2 m V q) ∧
    ∫ q, (∑ b, ∑ d, (q (b, a, d) - qc q a d) * f q (b, a, d)) * boltz kB T omegan2 m V q
      = (∫ q, springs q a * (m a * omegan2) * boltz kB T omegan2 m V q)
        - 3 * ((n + 1 : ℕ) : ℝ) * (kB * T * n) * ∫ q, boltz kB T omegan2 m V q := by
  have e1 : ∀ q : Conf n N, (∑ b, ∑ d, (q (b, a, d) - qc q a d) * f q (b, a, d))
      * boltz kB T omegan2 m V q
      = ∑ b, ∑ d, (q (b, a, d) - qc q a d) * f q (b, a, d) * boltz kB T omegan2 m V q := by
    intro q
    simp only [Finset.sum_mul]
  have e2 : ∀ q : Conf n N, springs q a * (m a * omegan2) * boltz kB T omegan2 m V q
      = ∑ b, ∑ d, (q (b, a, d) - qc q a d) * springDer omegan2 m q (b, a, d)
        * boltz kB T omegan2 m V q := by
    intro q
    rw [mul_comm (springs q a), ← spring_virial]
    rw [Finset.sum_comm]
    simp only [Finset.sum_mul]
  have j1 : ∀ b ∈ (univ : Finset (Fin (n + 1))), Integrable fun q : Conf n N =>
      ∑ d, (q (b, a, d) - qc q a d) * f q (b, a, d) * boltz kB T omegan2 m V q :=
    fun b _ => integrable_finsetSum _ fun d _ => int_centred_vir hA b a d _
  have j2 : ∀ b ∈ (univ : Finset (Fin (n + 1))), Integrable fun q : Conf n N =>
      ∑ d, (q (b, a, d) - qc q a d) * springDer omegan2 m q (b, a, d) * boltz kB T omegan2 m V q :=
    fun b _ => integrable_finsetSum _ fun d _ => int_centred_spring hA b a d _
  simp only [e1, e2]
  refine ⟨integrable_finsetSum _ j1, integrable_finsetSum _ j2, ?_⟩
  rw [integral_finsetSum _ j1, integral_finsetSum _ j2]
  simp only [integral_finsetSum _ fun d _ => int_centred_vir hA _ a d _,
    integral_finsetSum _ fun d _ => int_centred_spring hA _ a d _]
  have h : ∀ b d, ∫ q, (q (b, a, d) - qc q a d) * f q (b, a, d) * boltz kB T omegan2 m V q
      = (∫ q, (q (b, a, d) - qc q a d) * springDer omegan2 m q (b, a, d) * boltz kB T omegan2 m V q)
        + -(kB * T * n) * ∫ q, boltz kB T omegan2 m V q := by
    intro b d
    have := virial_coordinate hA hf hk b a d
    linarith
  simp only [h, Finset.sum_add_distrib]
  simp only [Finset.sum_const, Finset.card_univ, Fintype.card_fin, nsmul_eq_mul]
  push_cast
  ring

end

/-- The value of the centroid virial estimator. -/
theorem kincv_ok (names : Fin N → String) (s : Sel) (hs : s.check N = .ok ()) (q f : Conf n N) :
    kincv kB T names s q f = .ok (∑ a ∈ s.atoms names,
      ((∑ b, ∑ d, (q (b, a, d) - qc q a d) * f (b, a, d)) * (-0.5 / ((n + 1 : ℕ) : ℝ)) + 1.5 * kB * T)) := by
  unfold kincv
  rw [hs]
  change Except.ok _ = Except.ok _
  congr 1
  rw [Finset.sum_add_distrib, ← Finset.sum_mul, Finset.sum_const, nsmul_eq_mul]
  congr 1
  · congr 1
    rw [Finset.sum_comm]
    unfold Sel.atoms
    rw [Finset.sum_filter]
    refine Finset.sum_congr rfl fun a _ => ?_
    split
    · rfl
    · simp
  · ring

/-- The value of the primitive estimator. -/
theorem kintd_ok (names : Fin N → String) (s : Sel) (hs : s.check N = .ok ()) (q : Conf n N) :
    kintd kB T omegan2 m names s q = .ok (∑ a ∈ s.atoms names,
      (springs q a * (-0.5 * m a * omegan2 / ((n + 1 : ℕ) : ℝ)) + 1.5 * kB * T * ((n + 1 : ℕ) : ℝ))) := by
  unfold kintd
  rw [hs]
  rfl

/-- **The centroid virial and the primitive kinetic energy have the same average** over the Boltzmann
distribution of the beads, for every selection of atoms, potential and number of beads. -/
theorem kinetic_agree (hf : IsForceOf V f) (hA : Averages (boltz kB T omegan2 m V) f) (hk : 0 < kB * T)
    (names : Fin N → String) (s : Sel) (hs : s.check N = .ok ()) :
    ∃ x y : Conf n N → ℝ, (∀ q, kincv kB T names s q (f q) = .ok (x q)) ∧
      (∀ q, kintd kB T omegan2 m names s q = .ok (y q)) ∧
      Integrable (fun q => x q * boltz kB T omegan2 m V q) ∧
      Integrable (fun q => y q * boltz kB T omegan2 m V q) ∧
      ∫ q, x q * boltz kB T omegan2 m V q = ∫ q, y q * boltz kB T omegan2 m V q := by
  refine ⟨_, _, fun q => kincv_ok names s hs q (f q), fun q => kintd_ok names s hs q, ?_⟩
  have e1 : ∀ q : Conf n N, (∑ a ∈ s.atoms names,
      ((∑ b, ∑ d, (q (b, a, d) - qc q a d) * f q (b, a, d)) * (-0.5 / ((n + 1 : ℕ) : ℝ)) + 1.5 * kB * T))
      * boltz kB T omegan2 m V q
      = ∑ a ∈ s.atoms names, ((-0.5 / ((n + 1 : ℕ) : ℝ)) *
        ((∑ b, ∑ d, (q (b, a, d) - qc q a d) * f q (b, a, d)) * boltz kB T omegan2 m V q)
        + 1.5 * kB * T * boltz kB T omegan2 m V q) := by
    intro q
    rw [Finset.sum_mul]
    exact Finset.sum_congr rfl fun a _ => by ring
  have e2 : ∀ q : Conf n N, (∑ a ∈ s.atoms names,
      (springs q a * (-0.5 * m a * omegan2 / ((n + 1 : ℕ) : ℝ)) + 1.5 * kB * T * ((n + 1 : ℕ) : ℝ)))
      * boltz kB T omegan2 m V q
      = ∑ a ∈ s.atoms names, ((-0.5 / ((n + 1 : ℕ) : ℝ)) *
        (springs q a * (m a * omegan2) * boltz kB T omegan2 m V q)
        + 1.5 * kB * T * ((n + 1 : ℕ) : ℝ) * boltz kB T omegan2 m V q) := by
    intro q
    rw [Finset.sum_mul]
    exact Finset.sum_congr rfl fun a _ => by ring
  simp only [e1, e2]
  have j1 : ∀ a ∈ s.atoms names, Integrable fun q : Conf n N => (-0.5 / ((n + 1 : ℕ) : ℝ)) *
        ((∑ b, ∑ d, (q (b, a, d) - qc q a d) * f q (b, a, d)) * boltz kB T omegan2 m V q)
        + 1.5 * kB * T * boltz kB T omegan2 m V q :=
    fun a _ => ((virial_atom hA hf hk a).1.const_mul _).add (hA.one.const_mul _)
  have j2 : ∀ a ∈ s.atoms names, Integrable fun q : Conf n N => (-0.5 / ((n + 1 : ℕ) : ℝ)) *
        (springs q a * (m a * omegan2) * boltz kB T omegan2 m V q)
        + 1.5 * kB * T * ((n + 1 : ℕ) : ℝ) * boltz kB T omegan2 m V q :=
    fun a _ => ((virial_atom hA hf hk a).2.1.const_mul _).add (hA.one.const_mul _)
  refine ⟨integrable_finsetSum _ j1, integrable_finsetSum _ j2, ?_⟩
  rw [integral_finsetSum _ j1, integral_finsetSum _ j2]
  refine Finset.sum_congr rfl fun a _ => ?_
  obtain ⟨h1, h2, h3⟩ := virial_atom hA hf hk a
  rw [integral_add (h1.const_mul _) (hA.one.const_mul _), integral_add (h2.const_mul _) (hA.one.const_mul _),
    integral_const_mul, integral_const_mul, integral_const_mul, integral_const_mul, h3]
  generalize ∫ q, springs q a * (m a * omegan2) * boltz kB T omegan2 m V q = A
  generalize ∫ q, boltz kB T omegan2 m V q = B
  have : ((n : ℝ) + 1) ≠ 0 := by positivity
  push_cast
  rw [show (0.5 : ℝ) = 1 / 2 by norm_num, show (1.5 : ℝ) = 3 / 2 by norm_num]
  field_simp
  ring

/-! ### The averages exist for confining potentials -/

theorem poly_exp_bound {c : ℝ} (hc : 0 < c) (k : ℕ) :
    ∃ C : ℝ, 0 ≤ C ∧ ∀ t : ℝ, 0 ≤ t → (1 + t) ^ k * Real.exp (-(c * t ^ 2)) ≤ C := by
  refine ⟨(k.factorial : ℝ) * Real.exp (1 + 1 / c), by positivity, fun t ht => ?_⟩
  have h1 : 1 + t ≤ c * t ^ 2 + (1 + 1 / c) := by
    have : 0 ≤ c * (t - 1 / c) ^ 2 + t := by positivity
    have e : c * (t - 1 / c) ^ 2 + t = c * t ^ 2 - t + 1 / c := by
      field_simp
      ring
    linarith
  have h0 : 0 ≤ c * t ^ 2 + (1 + 1 / c) := by positivity
  have h2 : (1 + t) ^ k ≤ (c * t ^ 2 + (1 + 1 / c)) ^ k := by
    apply pow_le_pow_left₀ (by linarith) h1
  have h3 := Real.pow_div_factorial_le_exp _ h0 k
  rw [div_le_iff₀ (by positivity)] at h3
  calc (1 + t) ^ k * Real.exp (-(c * t ^ 2))
      ≤ (Real.exp (c * t ^ 2 + (1 + 1 / c)) * k.factorial) * Real.exp (-(c * t ^ 2)) :=
        mul_le_mul_of_nonneg_right (h2.trans h3) (Real.exp_pos _).le
    _ = (k.factorial : ℝ) * (Real.exp (c * t ^ 2 + (1 + 1 / c)) * Real.exp (-(c * t ^ 2))) := by ring
    _ = (k.factorial : ℝ) * Real.exp (1 + 1 / c) := by
        rw [← Real.exp_add]
        congr 2
        ring

theorem integrable_gauss {c A C : ℝ} (hc : 0 < c) {W g : Conf n N → ℝ} (hW : Continuous W)
    (hWb : ∀ q, |W q| ≤ A * Real.exp (-(c * ‖q‖ ^ 2))) (hg : Continuous g) (k : ℕ)
    (hgb : ∀ q, |g q| ≤ C * (1 + ‖q‖) ^ k) : Integrable fun q => g q * W q := by
  set r := Module.finrank ℝ (Conf n N) + 1 with hr
  obtain ⟨D, hD0, hD⟩ := poly_exp_bound hc (k + r)
  have hint : Integrable fun q : Conf n N => (1 + ‖q‖) ^ (-(r : ℝ)) :=
    integrable_one_add_norm (by rw [hr]; push_cast; linarith)
  refine (hint.const_mul (C * A * D)).mono' (hg.mul hW).aestronglyMeasurable
    (Filter.Eventually.of_forall fun q => ?_)
  have hq : 0 ≤ ‖q‖ := norm_nonneg q
  have hp : 0 < (1 + ‖q‖) := by linarith
  have hA : 0 ≤ A := by
    have := (abs_nonneg _).trans (hWb q)
    exact le_of_mul_le_mul_right (by rwa [zero_mul]) (Real.exp_pos _)
  have hC : 0 ≤ C := by
    have := (abs_nonneg _).trans (hgb q)
    exact le_of_mul_le_mul_right (by rwa [zero_mul]) (pow_pos hp k)
  rw [Real.norm_eq_abs, abs_mul, Real.rpow_neg hp.le, Real.rpow_natCast]
  have h1 : |g q| * |W q| ≤ (C * (1 + ‖q‖) ^ k) * (A * Real.exp (-(c * ‖q‖ ^ 2))) :=
    mul_le_mul (hgb q) (hWb q) (abs_nonneg _) (by positivity)
  refine h1.trans ?_
  rw [← div_eq_mul_inv, le_div_iff₀ (pow_pos hp r)]
  have h2 := hD ‖q‖ hq
  calc C * (1 + ‖q‖) ^ k * (A * Real.exp (-(c * ‖q‖ ^ 2))) * (1 + ‖q‖) ^ r
      = C * A * ((1 + ‖q‖) ^ (k + r) * Real.exp (-(c * ‖q‖ ^ 2))) := by rw [pow_add]; ring
    _ ≤ C * A * D := mul_le_mul_of_nonneg_left h2 (by positivity)

/-- The averages exist for continuous potentials that grow at least quadratically, with forces that
grow at most like a power. -/
theorem averages_confining (hk : 0 < kB * T) (hw : 0 ≤ omegan2) (hm : ∀ a, 0 ≤ m a)
    (hV : Continuous V) (hfc : ∀ x, Continuous fun q => f q x) {c C D : ℝ} (hc : 0 < c) {k : ℕ}
    (hlow : ∀ q, c * ‖q‖ ^ 2 - D ≤ V q) (hup : ∀ q x, |f q x| ≤ C * (1 + ‖q‖) ^ k) :
    Averages (boltz kB T omegan2 m V) f := by
  have hP : 0 < kB * T * ((n + 1 : ℕ) : ℝ) := by positivity
  have hWc : Continuous (boltz kB T omegan2 m V) := by
    unfold boltz
    fun_prop
  have hWb : ∀ q, |boltz kB T omegan2 m V q| ≤ Real.exp (D / (kB * T * ((n + 1 : ℕ) : ℝ)))
      * Real.exp (-(c / (kB * T * ((n + 1 : ℕ) : ℝ)) * ‖q‖ ^ 2)) := by
    intro q
    unfold boltz
    rw [← Real.exp_add, abs_of_pos (Real.exp_pos _)]
    apply Real.exp_le_exp.2
    have hs : 0 ≤ ∑ a, ∑ d, ∑ b : Fin (n + 1),
        1 / 2 * m a * omegan2 * (q (b + 1, a, d) - q (b, a, d)) ^ 2 :=
      Finset.sum_nonneg fun a _ => Finset.sum_nonneg fun d _ => Finset.sum_nonneg fun b _ => by
        have := hm a
        positivity
    have := hlow q
    rw [div_mul_eq_mul_div, ← neg_div, ← add_div]
    apply div_le_div_of_nonneg_right _ hP.le
    linarith
  have hq : ∀ (q : Conf n N) x, |q x| ≤ 1 + ‖q‖ := by
    intro q x
    have := norm_le_pi_norm q x
    rw [Real.norm_eq_abs] at this
    linarith
  have hc' : 0 < c / (kB * T * ((n + 1 : ℕ) : ℝ)) := by positivity
  refine ⟨?_, ?_, ?_, ?_⟩
  · have := integrable_gauss (g := fun _ => 1) (C := 1) hc' hWc hWb continuous_const 0 (by simp)
    simpa using this
  · intro x
    exact integrable_gauss (C := 1) hc' hWc hWb (continuous_apply x) 1 (fun q => by simpa using hq q x)
  · intro x y
    refine integrable_gauss (g := fun q => q x * q y) (C := 1) hc' hWc hWb (by fun_prop) 2 (fun q => ?_)
    rw [abs_mul, one_mul, pow_two]
    exact mul_le_mul (hq q x) (hq q y) (abs_nonneg _) (by linarith [norm_nonneg q])
  · intro x y
    refine integrable_gauss (g := fun q => q x * f q y) (C := C) hc' hWc hWb
      ((continuous_apply x).mul (hfc y)) (k + 1) (fun q => ?_)
    rw [abs_mul, pow_succ]
    calc |q x| * |f q y| ≤ (1 + ‖q‖) * (C * (1 + ‖q‖) ^ k) :=
          mul_le_mul (hq q x) (hup q y) (abs_nonneg _) (by linarith [norm_nonneg q])
      _ = C * ((1 + ‖q‖) ^ k * (1 + ‖q‖)) := by ring

/-- Atoms in a harmonic trap. -/
theorem trap_force : IsForceOf (n := n) (N := N) (fun q => ∑ x, 1 / 2 * q x ^ 2) (fun q x => -q x) := by
  intro q x
  have h : ∀ y, HasDerivAt (fun t : ℝ => Function.update q x (q x + t) y) (if y = x then 1 else 0) 0 := by
    intro y
    by_cases h : y = x
    · subst h
      simpa using (hasDerivAt_id (0 : ℝ)).const_add (q y)
    · simp only [Function.update_of_ne h, if_neg h]
      exact hasDerivAt_const _ _
  refine (HasDerivAt.fun_sum fun y _ => ((h y).fun_pow 2).const_mul (1 / 2)).congr_deriv ?_
  simp

theorem trap_averages (hk : 0 < kB * T) (hw : 0 ≤ omegan2) (hm : ∀ a, 0 ≤ m a) :
    Averages (boltz kB T omegan2 m (fun q : Conf n N => ∑ x, 1 / 2 * q x ^ 2)) (fun q x => -q x) := by
  refine averages_confining hk hw hm (by fun_prop) (fun x => by fun_prop)
    (c := 1 / 2) (C := 1) (D := 0) (by norm_num) (k := 1) ?_ ?_
  · intro q
    rw [sub_zero, ← Finset.mul_sum]
    refine mul_le_mul_of_nonneg_left ?_ (by norm_num)
    have h2 : ‖q‖ ≤ √(∑ x, q x ^ 2) := by
      rw [pi_norm_le_iff_of_nonneg (Real.sqrt_nonneg _)]
      intro x
      rw [Real.norm_eq_abs]
      exact Real.abs_le_sqrt (Finset.single_le_sum (f := fun x => q x ^ 2)
        (fun y _ => sq_nonneg _) (Finset.mem_univ x))
    calc ‖q‖ ^ 2 ≤ √(∑ x, q x ^ 2) ^ 2 := pow_le_pow_left₀ (norm_nonneg q) h2 2
      _ = ∑ x, q x ^ 2 := Real.sq_sqrt (Finset.sum_nonneg fun _ _ => sq_nonneg _)
  · intro q x
    have := norm_le_pi_norm q x
    rw [Real.norm_eq_abs] at this
    simp only [abs_neg, pow_one, one_mul]
    linarith

/-- The theorem applies to atoms of any positive mass in a harmonic trap. -/
example (hk : 0 < kB * T) (hw : 0 ≤ omegan2) (hm : ∀ a, 0 ≤ m a) (names : Fin N → String) :=
  kinetic_agree (n := n) (m := m) (omegan2 := omegan2) trap_force (trap_averages hk hw hm) hk names .all rfl

/-! ### Parts and sums -/

/-- An index is refused exactly if there is no such atom, apart from negative ones. -/
theorem index_refused (k : ℤ) (names : Fin N → String) (q f : Conf n N) :
    (kincv kB T names (.idx k) q f = .error .index ↔ (N : ℤ) ≤ k) ∧
    (kintd kB T omegan2 m names (.idx k) q = .error .index ↔ (N : ℤ) ≤ k) := by
  by_cases h : (N : ℤ) ≤ k
  · have hc : Sel.check N (.idx k) = .error .index := by simp only [Sel.check]; rw [if_pos h]
    constructor
    · unfold kincv; rw [hc]; exact ⟨fun _ => h, fun _ => rfl⟩
    · unfold kintd; rw [hc]; exact ⟨fun _ => h, fun _ => rfl⟩
  · have hc : Sel.check N (.idx k) = .ok () := by simp only [Sel.check]; rw [if_neg h]
    constructor
    · unfold kincv; rw [hc]; exact ⟨fun e => (nomatch e), fun e => absurd e h⟩
    · unfold kintd; rw [hc]; exact ⟨fun e => (nomatch e), fun e => absurd e h⟩

/-- The kinetic energy of the system is the sum over its atoms, and that of a kind of atoms the sum
over the atoms of this kind. -/
theorem kincv_parts (names : Fin N → String) (hn : ∀ a, names a ≠ "") (s : Sel)
    (hs : s.check N = .ok ()) (q f : Conf n N) :
    ∃ x : Fin N → ℝ, (∀ a : Fin N, kincv kB T names (.idx (a : ℕ)) q f = .ok (x a)) ∧
      kincv kB T names s q f = .ok (∑ a ∈ s.atoms names, x a) := by
  refine ⟨_, fun a => ?_, kincv_ok names s hs q f⟩
  have hc : Sel.check N (.idx ((a : ℕ) : ℤ)) = .ok () := by
    simp only [Sel.check]
    rw [if_neg (by omega)]
  rw [kincv_ok names _ hc]
  have : Sel.atoms names (.idx ((a : ℕ) : ℤ)) = {a} := by
    ext i
    simp only [Sel.atoms, Sel.takes, Finset.mem_filter, Finset.mem_univ, true_and,
      Finset.mem_singleton, Bool.or_eq_true, decide_eq_true_eq, beq_iff_eq, hn i, or_false]
    rw [Fin.ext_iff]
    omega
  rw [this, Finset.sum_singleton]

/-- The trace of the kinetic tensor is the kinetic energy. -/
theorem ktens_trace (hm : ∀ a, 0 < m a) (names : Fin N → String) (s : Sel)
    (hs : s.check N = .ok ()) (q f : Conf n N) :
    ∃ t : Fin 6 → ℝ, ktens kB T m names s q f = .ok t ∧
      kincv kB T names s q f = .ok (t 0 + t 1 + t 2) := by
  refine ⟨fun c => ∑ a ∈ s.atoms names, kij kB T m q f a a c, ?_, ?_⟩
  · unfold ktens
    rw [hs]
    rfl
  · rw [kincv_ok names s hs, ← Finset.sum_add_distrib, ← Finset.sum_add_distrib]
    congr 1
    refine Finset.sum_congr rfl fun a _ => ?_
    have h1 : √(m a * m a) = m a := Real.sqrt_mul_self (hm a).le
    have h2 : ∀ (c : Fin 6) (d : Fin 3), voigt c = (d, d) → c.1 < 3 → kij kB T m q f a a c
        = (∑ b, (q (b, a, d) - qc q a d) * f (b, a, d)) * (-0.5 / ((n + 1 : ℕ) : ℝ)) + 0.5 * kB * T := by
      intro c d hv hlt
      unfold kij
      rw [hv, h1, if_pos ⟨rfl, hlt⟩]
      simp only
      congr 1
      have h3 := (hm a).ne'
      have h4 : ∀ b, m a * (q (b, a, d) - qc q a d) * f (b, a, d) + m a * (q (b, a, d) - qc q a d) * f (b, a, d)
          = 2 * m a * ((q (b, a, d) - qc q a d) * f (b, a, d)) := fun b => by ring
      simp only [h4]
      rw [← Finset.mul_sum]
      have h5 : ((n + 1 : ℕ) : ℝ) ≠ 0 := by positivity
      field_simp
    rw [h2 0 0 rfl (by decide), h2 1 1 rfl (by decide), h2 2 2 rfl (by decide), Finset.sum_comm,
      Fin.sum_univ_three]
    rw [show (1.5 : ℝ) = 0.5 + 0.5 + 0.5 by norm_num]
    ring

/-- The kinetic energies per coordinate written with the trajectory add up to those of the atoms. -/
theorem akcv_sum (names : Fin N → String) (s : Sel) (hs : s.check N = .ok ()) (q f : Conf n N) :
    kincv kB T names s q f = .ok (∑ a ∈ s.atoms names, ∑ d, akcv kB T q f (a, d)) := by
  rw [kincv_ok names s hs]
  congr 1
  refine Finset.sum_congr rfl fun a _ => ?_
  unfold akcv
  rw [Fin.sum_univ_three, Finset.sum_comm, Fin.sum_univ_three]
  rw [show (1.5 : ℝ) = 0.5 + 0.5 + 0.5 by norm_num]
  ring

/-- The trace of the kinetic stress is twice the kinetic energy times the number of beads, apart from
the centroid, whose kinetic energy comes from its momenta. -/
theorem kstress_trace (names : Fin N → String) (q f : Conf n N) (pc : Fin N × Fin 3 → ℝ) :
    ∃ x : ℝ, kincv kB T names .all q f = .ok x ∧
      ∑ i, kstressCv m q f pc i i = 2 * ((n + 1 : ℕ) : ℝ) * (x - 3 / 2 * N * kB * T
        + ∑ a, ∑ d, pc (a, d) ^ 2 / (2 * m a)) := by
  refine ⟨_, kincv_ok names .all rfl q f, ?_⟩
  have ha : Sel.atoms names Sel.all = univ := by
    ext i; simp [Sel.atoms, Sel.takes]
  rw [ha]
  unfold kstressCv
  simp only [le_refl, if_true, Finset.sum_add_distrib, Finset.sum_neg_distrib, ← Finset.sum_mul,
    ← Finset.mul_sum, Finset.sum_const, Finset.card_univ, Fintype.card_fin, nsmul_eq_mul]
  have e1 : ∑ i : Fin 3, ∑ b, ∑ a, (q (b, a, i) - qc q a i) * f (b, a, i)
      = ∑ a, ∑ b, ∑ d, (q (b, a, d) - qc q a d) * f (b, a, d) := by
    rw [Finset.sum_comm]
    conv_lhs => enter [2, b]; rw [Finset.sum_comm]
    rw [Finset.sum_comm]
  have e2 : ∑ i : Fin 3, ∑ a, pc (a, i) * (pc (a, i) / m a) = 2 * ∑ a, ∑ d, pc (a, d) ^ 2 / (2 * m a) := by
    rw [Finset.sum_comm, Finset.mul_sum]
    refine Finset.sum_congr rfl fun a _ => ?_
    rw [Finset.mul_sum]
    refine Finset.sum_congr rfl fun d _ => ?_
    by_cases h : m a = 0
    · simp [h]
    · field_simp
  rw [e1, e2]
  have h5 : ((n + 1 : ℕ) : ℝ) ≠ 0 := by positivity
  rw [show (0.5 : ℝ) = 1 / 2 by norm_num, show (1.5 : ℝ) = 3 / 2 by norm_num]
  field_simp
  ring

end

end Verif.Estim
