import Verif.Phys.Pes
import Mathlib.Tactic.IntervalCases
import Mathlib.Analysis.SpecialFunctions.ExpDeriv
import Mathlib.Analysis.SpecialFunctions.Trigonometric.DerivHyp
import Mathlib.Analysis.SpecialFunctions.Sqrt
import Mathlib.Analysis.Calculus.Deriv.Prod
import Mathlib.Analysis.Calculus.MeanValue
import Mathlib.Algebra.BigOperators.Field
import Mathlib.Tactic.FieldSimp
import Mathlib.Tactic.LinearCombination
import Mathlib.Tactic.FinCases

/-!
# C84: the forces of the built-in potentials are minus the gradient of their energy
-/

namespace Verif.Pes

open Finset Verif.Cell

variable {N : ℕ}

/-- `f` is the force belonging to the energy `V` at `q`: along every path through `q` the energy
changes at the rate minus force times velocity. -/
def IsForce {ι : Type} [Fintype ι] (V : (ι → ℝ) → ℝ) (f q : ι → ℝ) : Prop :=
  ∀ (γ : ℝ → ι → ℝ) (v : ι → ℝ), γ 0 = q → (∀ i, HasDerivAt (fun t => γ t i) (v i) 0) →
    HasDerivAt (fun t => V (γ t)) (-∑ i, f i * v i) 0

/-- A force is determined by the energy. -/
theorem IsForce.unique {ι : Type} [Fintype ι] [DecidableEq ι] {V : (ι → ℝ) → ℝ} {f g q : ι → ℝ}
    (hf : IsForce V f q) (hg : IsForce V g q) : f = g := by
  funext k
  have hd : ∀ i, HasDerivAt (fun t : ℝ => q i + t * Pi.single (M := fun _ => ℝ) k 1 i) (Pi.single (M := fun _ => ℝ) k 1 i) 0 := fun i => by
    simpa using ((hasDerivAt_id (0 : ℝ)).mul_const _).const_add (q i)
  have h0 : (fun i => q i + (0 : ℝ) * Pi.single (M := fun _ => ℝ) k 1 i) = q := by funext i; simp
  have h := (hf _ _ h0 hd).unique (hg _ _ h0 hd)
  simpa [Pi.single_apply] using h

/-! ## harmonic -/

theorem harmonic_force (s : Spring) (q : Cfg N) : IsForce (harmPot s) (harmForce s q) q := by
  intro γ v h0 hv
  have hsq : ∀ x, HasDerivAt (fun t => γ t x ^ 2) (2 * q x * v x) 0 := fun x => by
    have := (hv x).fun_pow 2
    rw [← h0]; simpa using this
  cases s with
  | iso k =>
    simp only [harmPot, harmForce]
    refine ((HasDerivAt.fun_sum fun x _ => hsq x).const_mul (0.5 * k)).congr_deriv ?_
    rw [mul_sum, ← sum_neg_distrib]
    refine sum_congr rfl fun x _ => by norm_num; ring
  | aniso k =>
    simp only [harmPot, harmForce]
    have hd : ∀ d : Fin 3, HasDerivAt (fun t => 0.5 * k d * ∑ a, γ t (a, d) ^ 2) (0.5 * k d * ∑ a, 2 * q (a, d) * v (a, d)) 0 :=
      fun d => (HasDerivAt.fun_sum fun a _ => hsq (a, d)).const_mul _
    refine ((((hd 0).const_add 0).add (hd 1)).add (hd 2)).congr_deriv ?_
    rw [Fintype.sum_prod_type]
    simp only [Fin.sum_univ_three, mul_sum, ← sum_add_distrib, ← sum_neg_distrib]
    refine sum_congr rfl fun a _ => by norm_num; ring

/-- Evaluating a batch gives for every structure what evaluating it alone gives. -/
theorem harmonic_batch (s : Spring) (qs : List (Cfg N)) :
    harmBatchPot s qs = qs.map (harmPot s) ∧ harmBatchForce s qs = qs.map (harmForce s) := by
  constructor
  · cases s with
    | iso k =>
      simp only [harmBatchPot]
      refine List.map_congr_left fun q _ => ?_
      simp only [harmPot, Fintype.sum_prod_type]
    | aniso k =>
      simp only [harmBatchPot]
      refine List.map_congr_left fun q _ => ?_
      simp only [harmPot, Fin.sum_univ_three, mul_sum, sum_add_distrib, mul_add, zero_add, mul_assoc]
  · cases s <;> rfl

/-- **Disagreement.** With two of the three spring constants given the second one is ignored. -/
theorem harmonic_second_ignored (k1 k2 : ℝ) : Spring.make k1 (some k2) none = .iso k1 := rfl

theorem harmonic_three (k1 k2 k3 : ℝ) (q : Cfg N) (a : Fin N) :
    harmForce (Spring.make k1 (some k2) (some k3)) q (a, 0) = -k1 * q (a, 0) ∧
    harmForce (Spring.make k1 (some k2) (some k3)) q (a, 1) = -k2 * q (a, 1) ∧
    harmForce (Spring.make k1 (some k2) (some k3)) q (a, 2) = -k3 * q (a, 2) := by
  simp [Spring.make, harmForce]

/-! ## double well -/

theorem well_force_partial (w : Well) (q : Cfg 1) :
    IsForce (fun q => wellPotArray w q 0) (wellForce w q) q ∧ wellPot w q = some (wellPotArray w q 0) := by
  refine ⟨?_, rfl⟩
  intro γ v h0 hv
  have hp : ∀ x (n : ℕ), HasDerivAt (fun t => γ t x ^ n) (n * q x ^ (n - 1) * v x) 0 := fun x n => by
    have := (hv x).fun_pow n
    rw [← h0]; simpa using this
  have h1 : HasDerivAt (fun t => (γ t (0, 0) - w.delta) ^ 2) (2 * (q (0, 0) - w.delta) * v (0, 0)) 0 := by
    have := ((hv (0, 0)).sub_const w.delta).fun_pow 2
    rw [← h0]; simpa using this
  simp only [wellPotArray, univ_unique, Fin.default_eq_zero, sum_singleton]
  refine ((((h1.const_mul w.A).add ((hp (0, 0) 4).const_mul w.B)).const_add 0).add
    ((hp (0, 1) 2).const_mul _)).add ((hp (0, 2) 2).const_mul _) |>.congr_deriv ?_
  rw [Fintype.sum_prod_type]
  simp only [univ_unique, Fin.default_eq_zero, sum_singleton, Fin.sum_univ_three, wellForce]
  norm_num
  ring

/-- **Disagreement.** With more than one atom the energy is an array, not a number, and every entry
counts the springs of all the atoms. -/
theorem well_many_atoms (w : Well) (q : Cfg (N + 2)) : wellPot w q = none := rfl

/-- The documented barrier: without the shift `delta` the energy is zero at the top, nowhere below
minus `v0`, and equal to minus `v0` at two points. -/
theorem well_barrier (w v0 m : ℝ) (hw : w ≠ 0) (hv : 0 < v0) (hm : 0 < m) :
    (∀ x, 0 - v0 ≤ (Well.make w v0 m 0).A * x ^ 2 + (Well.make w v0 m 0).B * x ^ 4) ∧
    ∀ x, x ^ 2 = 4 * v0 / (m * w ^ 2) → (Well.make w v0 m 0).A * x ^ 2 + (Well.make w v0 m 0).B * x ^ 4 = -v0 := by
  have hw2 : 0 < w ^ 2 := by positivity
  constructor
  · intro x
    have : (Well.make w v0 m 0).A * x ^ 2 + (Well.make w v0 m 0).B * x ^ 4 + v0 =
        (m * w ^ 2 * x ^ 2 / 4 - v0) ^ 2 / v0 := by
      simp only [Well.make]; field_simp; ring
    have h2 : 0 ≤ (m * w ^ 2 * x ^ 2 / 4 - v0) ^ 2 / v0 := by positivity
    linarith
  · intro x hx
    have h4 : x ^ 4 = (x ^ 2) ^ 2 := by ring
    simp only [Well.make, h4, hx]; field_simp; ring

/-- **Disagreement.** The potential with friction does not depend on the parameters of the well. -/
theorem friction_well_ignored (c : Conv) (w v0 m delta w' v0' m' delta' : ℝ) :
    Well.initFriction c w v0 m delta = Well.initFriction c w' v0' m' delta' ∧
    Well.initFriction c w v0 m delta = Well.default c := ⟨rfl, rfl⟩

theorem friction_not_given : ∃ (c : Conv) (w v0 m delta : ℝ),
    Well.initFriction c w v0 m delta ≠ Well.init c (some w) (some v0) (some m) (some delta) := by
  refine ⟨⟨1, 1⟩, 500, 2085, 1837.36223469, 1, fun h => ?_⟩
  have := congrArg Well.delta h
  simp [Well.initFriction, Well.init, Well.default, Well.make] at this

/-! ## coupling functions -/

theorem tanh_deriv (x : ℝ) : HasDerivAt Real.tanh (1 - Real.tanh x ^ 2) x := by
  have h : Real.tanh = fun x => Real.sinh x / Real.cosh x := by funext x; exact Real.tanh_eq_sinh_div_cosh x
  rw [h]
  refine ((Real.hasDerivAt_sinh x).div (Real.hasDerivAt_cosh x) (Real.cosh_pos x).ne').congr_deriv ?_
  have := (Real.cosh_pos x).ne'
  field_simp

/-- The reported friction is `eta0` times the square of the derivative of `q SD(q)`. -/
theorem sfun_deriv (c : Coup) (q : ℝ) : HasDerivAt (sfun c) (dsd c q) q := by
  have hx : HasDerivAt (fun q => q / c.deltaQ) (1 / c.deltaQ) q := (hasDerivAt_id q).div_const _
  have he : HasDerivAt (fun q => Real.exp (-0.5 * (q / c.deltaQ) ^ 2))
      (Real.exp (-0.5 * (q / c.deltaQ) ^ 2) * (-0.5 * (2 * (q / c.deltaQ) * (1 / c.deltaQ)))) q := by
    have := ((hx.fun_pow 2).const_mul (-0.5)).exp
    simpa using this
  have ht : HasDerivAt (fun q => Real.tanh (q / c.deltaQ)) ((1 - Real.tanh (q / c.deltaQ) ^ 2) * (1 / c.deltaQ)) q :=
    HasDerivAt.comp q (tanh_deriv _) hx
  have hs : HasDerivAt (sd c) _ q := ((he.const_mul c.eps1).const_add 1.0).add (ht.const_mul c.eps2)
  refine ((hasDerivAt_id q).mul hs).congr_deriv ?_
  simp only [dsd, id]
  norm_num
  ring

theorem friction_eq (c : Coup) (eta0 x : ℝ) : friction c eta0 x = eta0 * deriv (sfun c) x ^ 2 := by
  rw [(sfun_deriv c x).deriv]; rfl

/-! ## bath -/

theorem bath_force {n : ℕ} (b : Bath n) (c : Coup) (hb : ∀ i, b.m * b.omega2 i ≠ 0) (q : ℝ) (x : Fin n → ℝ) :
    IsForce (ι := Option (Fin n)) (fun r => bathPot b c (r none) (fun i => r (some i)))
      (fun o => o.elim (bathFq b c q x) (bathFx b c q x)) (fun o => o.elim q x) := by
  intro γ v h0 hv
  simp only [bathPot, bathFq, bathFx, Fintype.sum_option, Option.elim]
  have hn : γ 0 none = q := by rw [h0]; rfl
  have hs : ∀ i, γ 0 (some i) = x i := fun i => by rw [h0]; rfl
  split
  · have hS : HasDerivAt (fun t => sfun c (γ t none)) (dsd c q * v none) 0 := by
      have := HasDerivAt.comp (0 : ℝ) (hn ▸ sfun_deriv c q : HasDerivAt (sfun c) (dsd c q) (γ 0 none)) (hv none)
      exact this
    have ha : ∀ i, HasDerivAt (fun t => bathAux b c (γ t none) (fun i => γ t (some i)) i)
        (v (some i) - b.coef i * (dsd c q * v none) / (b.m * b.omega2 i)) 0 := fun i =>
      (hv (some i)).sub ((hS.const_mul (b.coef i)).div_const _)
    have hA : ∀ i, HasDerivAt (fun t => 0.5 * b.m * b.omega2 i * bathAux b c (γ t none) (fun i => γ t (some i)) i ^ 2)
        (0.5 * b.m * b.omega2 i * (2 * bathAux b c q x i * (v (some i) - b.coef i * (dsd c q * v none) / (b.m * b.omega2 i)))) 0 :=
      fun i => by
        have := ((ha i).fun_pow 2).const_mul (0.5 * b.m * b.omega2 i)
        have hx : (fun i => γ 0 (some i)) = x := funext hs
        simp only [hn, hx] at this
        simpa using this
    refine (HasDerivAt.fun_sum fun i _ => hA i).congr_deriv ?_
    rw [sum_mul, ← sum_add_distrib, ← sum_neg_distrib]
    refine sum_congr rfl fun i _ => ?_
    have h1 : b.m ≠ 0 := left_ne_zero_of_mul (hb i)
    have h2 : b.omega2 i ≠ 0 := right_ne_zero_of_mul (hb i)
    field_simp
    norm_num
    ring
  · simpa using hasDerivAt_const (0 : ℝ) (0 : ℝ)

/-! ## Morse -/

theorem morse_force (p : Morse) (q : Cfg N) : IsForce (morsePot p) (morseForce p q) q := by
  intro γ v h0 hv
  have hp : ∀ x, HasDerivAt (fun t => γ t x ^ 2) (2 * q x * v x) 0 := fun x => by
    have := (hv x).fun_pow 2
    rw [← h0]; simpa using this
  have hz : ∀ a (n : ℕ), HasDerivAt (fun t => morseZ p (γ t) a ^ n) (n * morseZ p q a ^ (n - 1) * (v (a, 2) * p.a)) 0 := fun a n => by
    have := (((hv (a, 2)).sub_const p.z0).mul_const p.a).fun_pow n
    rw [← h0]; exact this
  simp only [morsePot]
  refine (HasDerivAt.fun_sum fun a _ => (((((hz a 2).sub (hz a 3)).add ((hz a 4).const_mul (7.0 / 12.0))).const_mul p.De).add
    (((hp (a, 0)).add (hp (a, 1))).const_mul (p.k / 2)))).congr_deriv ?_
  rw [Fintype.sum_prod_type, ← sum_neg_distrib]
  refine sum_congr rfl fun a _ => ?_
  simp only [Fin.sum_univ_three, morseForce]
  norm_num
  ring

/-! ## Debye -/

theorem debye_force {n : ℕ} (H : Fin n → Fin n → ℝ) (hH : ∀ i j, H i j = H j i) (xref : Fin n → ℝ) (vref : ℝ)
    (q : Fin n → ℝ) : IsForce (debyePot H xref vref) (debyeForce H xref q) q := by
  intro γ v h0 hv
  have hd : ∀ i, HasDerivAt (fun t => γ t i - xref i) (v i) 0 := fun i => (hv i).sub_const _
  have hm : ∀ i, HasDerivAt (fun t => ∑ j, H i j * (γ t j - xref j)) (∑ j, H i j * v j) 0 := fun i =>
    HasDerivAt.fun_sum fun j _ => (hd j).const_mul _
  simp only [debyePot, debyeForce]
  refine (((HasDerivAt.fun_sum fun i _ => (hd i).mul (hm i)).const_mul 0.5).const_add vref).congr_deriv ?_
  rw [h0, sum_add_distrib]
  have hs : ∑ i, (q i - xref i) * ∑ j, H i j * v j = ∑ i, v i * ∑ j, H i j * (q j - xref j) := by
    simp only [mul_sum]
    rw [sum_comm]
    refine sum_congr rfl fun i _ => sum_congr rfl fun j _ => ?_
    rw [hH j i]; ring
  rw [hs]
  simp only [neg_mul, sum_neg_distrib, neg_neg]
  rw [← two_mul, ← mul_assoc]
  norm_num
  refine sum_congr rfl fun i _ => by ring

/-- The force is right only for symmetric matrices. -/
theorem debye_force_iff {n : ℕ} (H : Fin n → Fin n → ℝ) (xref : Fin n → ℝ) (vref : ℝ) :
    (∀ q, IsForce (debyePot H xref vref) (debyeForce H xref q) q) ↔ ∀ i j, H i j = H j i := by
  refine ⟨fun h => ?_, fun h q => debye_force H h xref vref q⟩
  have hp : debyePot H xref vref = debyePot (fun i j => (H i j + H j i) / 2) xref vref := by
    funext q
    simp only [debyePot, mul_sum]
    have e : ∑ i, ∑ j, 0.5 * ((q i - xref i) * ((H i j + H j i) / 2 * (q j - xref j))) =
        (∑ i, ∑ j, 0.5 * ((q i - xref i) * (H i j * (q j - xref j)))) / 2 +
        (∑ i, ∑ j, 0.5 * ((q j - xref j) * (H j i * (q i - xref i)))) / 2 := by
      simp only [sum_div, ← sum_add_distrib]
      refine sum_congr rfl fun i _ => sum_congr rfl fun j _ => by ring
    rw [e, sum_comm (f := fun i j => 0.5 * ((q j - xref j) * (H j i * (q i - xref i))))]
    ring
  intro i j
  have hu := (h (fun k => xref k + Pi.single (M := fun _ => ℝ) j 1 k)).unique (hp ▸ debye_force (fun i j => (H i j + H j i) / 2) (fun i j => by rw [add_comm]) xref vref _)
  have := congrFun hu i
  simp [debyeForce, Pi.single_apply] at this
  linarith

/-! ## spline -/

/-- For tabulated energies that the interpolation and the finite difference reproduce exactly, the
component of the force along x has to be multiplied by five to be right. -/
theorem spline_force_partial (c0 c1 c2 k : ℝ) (q : Cfg 1) :
    IsForce (splinePot (fun x => c0 + c1 * x + c2 * x ^ 2) k)
      (fun x => if x.2 = 0 then 5 * splineForce (fun x => c0 + c1 * x + c2 * x ^ 2) k q x
        else splineForce (fun x => c0 + c1 * x + c2 * x ^ 2) k q x) q := by
  intro γ v h0 hv
  have hp : ∀ x, HasDerivAt (fun t => γ t x ^ 2) (2 * q x * v x) 0 := fun x => by
    have := (hv x).fun_pow 2
    rw [← h0]; simpa using this
  have h1 : HasDerivAt (fun t => (5 * γ t (0, 0)) ^ 2) (2 * (5 * q (0, 0)) * (5 * v (0, 0))) 0 := by
    have := ((hv (0, 0)).const_mul 5).fun_pow 2
    rw [← h0]; simpa using this
  simp only [splinePot]
  refine ((((((hv (0, 0)).const_mul 5).const_mul c1).const_add c0).add (h1.const_mul c2)).add
    (((hp (0, 1)).add (hp (0, 2))).const_mul (0.5 * k))).congr_deriv ?_
  rw [Fintype.sum_prod_type]
  simp only [univ_unique, Fin.default_eq_zero, sum_singleton, Fin.sum_univ_three, splineForce, if_neg (show (2 : Fin 3) ≠ 0 by decide)]
  norm_num
  ring

/-- **Disagreement.** The forces of the spline potential are not the gradient of its energy. -/
theorem spline_force_wrong : ∃ (e : ℝ → ℝ) (k : ℝ) (q : Cfg 1), ¬ IsForce (splinePot e k) (splineForce e k q) q := by
  refine ⟨fun x => 0 + 1 * x + 0 * x ^ 2, 1, 0, fun h => ?_⟩
  have := congrFun (h.unique (spline_force_partial 0 1 0 1 0)) (0, 0)
  norm_num [splineForce] at this

/-! ## spherical Lennard-Jones -/

theorem inv_pow_deriv (s r : ℝ) (hr : r ≠ 0) (p : ℕ) :
    HasDerivAt (fun r => (s / r) ^ p) (-(p : ℝ) * s ^ p / r ^ (p + 1)) r := by
  have h := (((hasDerivAt_inv hr).const_mul s).fun_pow p)
  simp only [← div_eq_mul_inv] at h
  refine h.congr_deriv ?_
  cases p with
  | zero => simp
  | succ k =>
    simp only [Nat.add_sub_cancel, div_pow]
    field_simp
    ring

theorem sphere_force (s : Sphere N) (q : Cfg N)
    (hq : ∀ a, s.on a = true → sphereDist s q a ≠ 0 ∧ sphereR s q a ≠ 0) :
    IsForce (spherePot s) (sphereForce s q) q := by
  intro γ v h0 hv
  simp only [spherePot, sphereForce]
  rw [Fintype.sum_prod_type, ← sum_neg_distrib]
  refine HasDerivAt.fun_sum fun a _ => ?_
  dsimp only
  split
  · next hon =>
    obtain ⟨hd, hr⟩ := hq a hon
    have hsq : HasDerivAt (fun t => ∑ d, (γ t (a, d) - s.center d) ^ 2) (∑ d, 2 * (q (a, d) - s.center d) * v (a, d)) 0 :=
      HasDerivAt.fun_sum fun d _ => by
        have := ((hv (a, d)).sub_const (s.center d)).fun_pow 2
        rw [← h0]; simpa using this
    have hne : (∑ d, (q (a, d) - s.center d) ^ 2) ≠ 0 := fun h => hd (by simp [sphereDist, h])
    have hD : HasDerivAt (fun t => sphereDist s (γ t) a) ((∑ d, (q (a, d) - s.center d) * v (a, d)) / sphereDist s q a) 0 := by
      have := hsq.sqrt (by rw [h0]; exact hne)
      refine this.congr_deriv ?_
      rw [h0]
      simp only [sphereDist, mul_assoc]
      rw [← mul_sum, mul_div_mul_left _ _ two_ne_zero]
    have hR : HasDerivAt (fun t => sphereR s (γ t) a) (-((∑ d, (q (a, d) - s.center d) * v (a, d)) / sphereDist s q a)) 0 := by
      simpa [sphereR] using hD.const_sub s.radius
    have hR0 : sphereR s (γ 0) a = sphereR s q a := by rw [h0]
    have hp : ∀ p : ℕ, HasDerivAt (fun t => (s.sigma / sphereR s (γ t) a) ^ p) _ 0 := fun p =>
      HasDerivAt.comp (h₂ := fun r => (s.sigma / r) ^ p) (0 : ℝ) (hR0 ▸ inv_pow_deriv s.sigma _ hr p :
        HasDerivAt (fun r => (s.sigma / r) ^ p) (-(p : ℝ) * s.sigma ^ p / sphereR s q a ^ (p + 1)) (sphereR s (γ 0) a)) hR
    refine ((((hp s.p1).const_mul (2.0 / 15.0)).sub (hp s.p2)).const_mul s.epsilon).congr_deriv ?_
    simp only [sphereD]
    have e : ∑ d, -(-s.epsilon * (-(s.p1 : ℝ) * (2.0 / 15.0) * s.sigma ^ s.p1 / sphereR s q a ^ (s.p1 + 1) +
        s.p2 * s.sigma ^ s.p2 / sphereR s q a ^ (s.p2 + 1))) * ((q (a, d) - s.center d) / sphereDist s q a) * v (a, d) =
        (s.epsilon * (-(s.p1 : ℝ) * (2.0 / 15.0) * s.sigma ^ s.p1 / sphereR s q a ^ (s.p1 + 1) +
        s.p2 * s.sigma ^ s.p2 / sphereR s q a ^ (s.p2 + 1))) * ((∑ d, (q (a, d) - s.center d) * v (a, d)) / sphereDist s q a) := by
      generalize (2.0 / 15.0 : ℝ) = c
      rw [sum_div, mul_sum]
      refine sum_congr rfl fun d _ => by ring
    rw [e]
    generalize (2.0 / 15.0 : ℝ) = c
    ring
  · simpa using hasDerivAt_const (0 : ℝ) (0 : ℝ)

/-! ## sums over pairs -/

theorem pairLoop_fold (u : Fin N → Fin N → ℝ) (g : Fin N → Fin N → Fin 3 → ℝ) (l : List (Fin N)) (s : ℝ × Cfg N) :
    l.foldl (pairRow u g) s = (s.1 + (l.map fun i => ∑ j with j < i, u i j).sum,
      fun x => s.2 x + (l.map fun i => if x.1 = i then ∑ j with j < i, g i j x.2
        else if x.1 < i then -g i x.1 x.2 else 0).sum) := by
  induction l generalizing s with
  | nil => simp
  | cons i l ih =>
    rw [List.foldl_cons, ih]
    simp only [pairRow, List.map_cons, List.sum_cons, Prod.mk.injEq]
    refine ⟨by ring, ?_⟩
    funext x
    split_ifs <;> ring

theorem pairLoop_energy (u : Fin N → Fin N → ℝ) (g : Fin N → Fin N → Fin 3 → ℝ) :
    (pairLoop u g).1 = ∑ i, ∑ j with j < i, u i j := by
  rw [pairLoop, pairLoop_fold, zero_add]
  rw [Fin.sum_univ_def]

theorem pairLoop_force (u : Fin N → Fin N → ℝ) (g : Fin N → Fin N → Fin 3 → ℝ) (x : Fin N × Fin 3) :
    (pairLoop u g).2 x = ∑ i, if x.1 = i then ∑ j with j < i, g i j x.2 else if x.1 < i then -g i x.1 x.2 else 0 := by
  rw [pairLoop, pairLoop_fold, Fin.sum_univ_def]
  exact zero_add _

theorem pair_work (g : Fin N → Fin N → Fin 3 → ℝ) (u : Fin N → Fin N → ℝ) (v : Cfg N) :
    ∑ x, (pairLoop u g).2 x * v x = ∑ i, ∑ j with j < i, ∑ d, g i j d * (v (i, d) - v (j, d)) := by
  simp only [pairLoop_force, sum_mul]
  rw [sum_comm]
  refine sum_congr rfl fun i _ => ?_
  rw [Fintype.sum_prod_type, sum_comm]
  have e : ∀ d : Fin 3, (∑ a, (if a = i then ∑ j with j < i, g i j d else if a < i then -g i a d else 0) * v (a, d)) =
      ∑ j with j < i, g i j d * (v (i, d) - v (j, d)) := by
    intro d
    have h1 : ∀ a, (if a = i then ∑ j with j < i, g i j d else if a < i then -g i a d else 0) * v (a, d) =
        (if a = i then (∑ j with j < i, g i j d) * v (i, d) else 0) + (if a < i then -g i a d * v (a, d) else 0) := by
      intro a
      by_cases h : a = i
      · subst h; simp
      · simp [h]
    simp only [h1, sum_add_distrib, sum_ite_eq', mem_univ, if_true, ← sum_filter]
    rw [sum_mul, ← sum_add_distrib]
    refine sum_congr rfl fun j _ => by ring
  simp only [e]
  rw [sum_comm]

/-- Forces of a sum over pairs: enough that the force of every pair is right. -/
theorem pair_force (φ : Fin N → Fin N → (Fin 3 → ℝ) → ℝ) (g : Fin N → Fin N → Fin 3 → ℝ) (u : Fin N → Fin N → ℝ) (q : Cfg N)
    (h : ∀ i j, j < i → IsForce (φ i j) (g i j) (sep q i j)) :
    IsForce (fun q => ∑ i, ∑ j with j < i, φ i j (sep q i j)) (pairLoop u g).2 q := by
  intro γ v h0 hv
  refine (HasDerivAt.fun_sum (u := univ) fun i _ => HasDerivAt.fun_sum fun j hj =>
    h i j (mem_filter.1 hj).2 (fun t => sep (γ t) i j) (fun d => v (i, d) - v (j, d)) (by simp only [h0])
      (fun d => (hv (i, d)).sub (hv (j, d)))).congr_deriv ?_
  rw [pair_work]
  simp only [sum_neg_distrib]

theorem norm2_deriv {γ : ℝ → Fin 3 → ℝ} {v d : Fin 3 → ℝ} (h0 : γ 0 = d) (hv : ∀ i, HasDerivAt (fun t => γ t i) (v i) 0) :
    HasDerivAt (fun t => norm2 (γ t)) (2 * ∑ k, d k * v k) 0 := by
  rw [mul_sum]
  refine HasDerivAt.fun_sum fun k _ => ?_
  have := (hv k).fun_pow 2
  rw [← h0]; simpa [mul_assoc] using this

theorem lj_pair (eps s2 : ℝ) (d : Fin 3 → ℝ) (hd : norm2 d ≠ 0) :
    IsForce (fun d => eps * 4 * (x6 s2 d ^ 2 - x6 s2 d))
      (fun k => d k * (6 * (eps * 4) * (2.0 * x6 s2 d ^ 2 - x6 s2 d) / norm2 d)) d := by
  intro γ v h0 hv
  have hn := norm2_deriv h0 hv
  have hn0 : norm2 (γ 0) = norm2 d := by rw [h0]
  have h6 : HasDerivAt (fun t => x6 s2 (γ t)) (-(3 : ℕ) * s2 ^ 3 / norm2 d ^ (3 + 1) * (2 * ∑ k, d k * v k)) 0 :=
    HasDerivAt.comp (h₂ := fun r => (s2 / r) ^ 3) (0 : ℝ) (by rw [hn0]; exact inv_pow_deriv s2 _ hd 3) hn
  refine ((((h6.fun_pow 2).sub h6)).const_mul (eps * 4)).congr_deriv ?_
  have e : ∑ k, d k * (6 * (eps * 4) * (2.0 * x6 s2 d ^ 2 - x6 s2 d) / norm2 d) * v k =
      6 * (eps * 4) * (2.0 * x6 s2 d ^ 2 - x6 s2 d) / norm2 d * ∑ k, d k * v k := by
    generalize (2.0 : ℝ) = c
    rw [mul_sum]
    refine sum_congr rfl fun k _ => by ring
  rw [e, h0, show (2.0 : ℝ) = 2 by norm_num]
  simp only [x6, div_pow, Nat.cast_ofNat, pow_one, Nat.add_one_sub_one]
  field_simp
  ring

/-- The forces of `FFLennardJones`, for atoms at different places. -/
theorem lj_force (eps sigma : ℝ) (q : Cfg N) (hq : ∀ i j, j < i → norm2 (sep q i j) ≠ 0) :
    IsForce (fun q => (lj eps sigma q).1) (lj eps sigma q).2 q := by
  have h := pair_force (fun _ _ d => eps * 4 * (x6 (sigma * sigma) d ^ 2 - x6 (sigma * sigma) d))
    (fun i j d => sep q i j d *
      (6 * (eps * 4) * (2.0 * x6 (sigma * sigma) (sep q i j) ^ 2 - x6 (sigma * sigma) (sep q i j)) / norm2 (sep q i j)))
    (fun i j => x6 (sigma * sigma) (sep q i j) ^ 2 - x6 (sigma * sigma) (sep q i j)) q
    (fun i j hij => lj_pair eps (sigma * sigma) _ (hq i j hij))
  simp only [lj, pairLoop_energy]
  convert h using 2 with r
  rw [sum_mul]
  refine sum_congr rfl fun i _ => ?_
  rw [sum_mul]
  refine sum_congr rfl fun j _ => by ring

/-! ## driven molecular dynamics -/

open Matrix

theorem roundEven_of_near {y : ℝ} {n : ℤ} (h : |y - n| < 1 / 2) : roundEven y = n := by
  rw [abs_lt] at h
  unfold roundEven
  have h1 := Int.floor_le y
  have h2 := Int.lt_floor_add_one y
  have h3 : ⌊y⌋ = n ∨ ⌊y⌋ = n - 1 := by
    have a : (⌊y⌋ : ℝ) < n + 1 := by linarith
    have b : (n : ℝ) - 2 < ⌊y⌋ := by linarith
    have a' : ⌊y⌋ < n + 1 := by exact_mod_cast a
    have b' : n - 2 < ⌊y⌋ := by exact_mod_cast b
    omega
  rcases h3 with h3 | h3
  · rw [h3, if_pos (by linarith)]
  · have : ((n - 1 : ℤ) : ℝ) = (n : ℝ) - 1 := by push_cast; ring
    rw [h3, this, if_neg (by linarith), if_pos (by linarith)]
    ring

theorem roundEven_near (x : ℝ) (hx : ∀ n : ℤ, x ≠ n + 1 / 2) : |x - roundEven x| < 1 / 2 := by
  have h1 := Int.floor_le x
  have h2 := Int.lt_floor_add_one x
  have h3 := hx ⌊x⌋
  unfold roundEven
  rw [abs_lt]
  split_ifs with a b c
  · constructor <;> linarith
  · push_cast; constructor <;> linarith
  · exact absurd (by linarith [not_lt.1 a, not_lt.1 b]) h3
  · exact absurd (by linarith [not_lt.1 a, not_lt.1 b]) h3

theorem roundEven_locally (x : ℝ) (hx : ∀ n : ℤ, x ≠ n + 1 / 2) :
    ∀ᶠ y in nhds x, roundEven y = roundEven x := by
  have hc : Filter.Tendsto (fun y : ℝ => |y - roundEven x|) (nhds x) (nhds |x - roundEven x|) :=
    (continuous_abs.comp (continuous_id.sub continuous_const)).tendsto x
  filter_upwards [hc.eventually (gt_mem_nhds (roundEven_near x hx))] with y hy
  exact roundEven_of_near hy

theorem dist_force (c p : ℝ) (d : Fin 3 → ℝ) (hd : norm2 d ≠ 0) :
    IsForce (fun d => c * √(norm2 d) * p) (fun k => d k * -(c / √(norm2 d)) * p) d := by
  intro γ v h0 hv
  have hn := (norm2_deriv h0 hv).sqrt (by rw [h0]; exact hd)
  refine ((hn.const_mul c).mul_const p).congr_deriv ?_
  rw [h0, mul_div_mul_left _ _ two_ne_zero, ← sum_neg_distrib, sum_div, mul_sum, sum_mul]
  refine sum_congr rfl fun k _ => by ring

/-- The potential of a pair at the nearest image. -/
theorem image_force (c p : ℝ) (h ih : Mat) (hi : h * ih = 1) (d : Fin 3 → ℝ)
    (hd : norm2 (h *ᵥ frac (ih *ᵥ d)) ≠ 0) (hh : ∀ k (n : ℤ), (ih *ᵥ d) k ≠ n + 1 / 2) :
    IsForce (fun d => c * √(norm2 (h *ᵥ frac (ih *ᵥ d))) * p)
      (fun k => (h *ᵥ frac (ih *ᵥ d)) k * -(c / √(norm2 (h *ᵥ frac (ih *ᵥ d)))) * p) d := by
  intro γ v h0 hv
  set w : Fin 3 → ℝ := fun k => (roundEven ((ih *ᵥ d) k) : ℝ) with hw
  have key : ∀ x : Fin 3 → ℝ, (∀ k, roundEven ((ih *ᵥ x) k) = roundEven ((ih *ᵥ d) k)) →
      h *ᵥ frac (ih *ᵥ x) = x - h *ᵥ w := by
    intro x hx
    have : frac (ih *ᵥ x) = ih *ᵥ x - w := by
      funext k
      simp only [frac, hw, Pi.sub_apply, hx k]
    rw [this, mulVec_sub, mulVec_mulVec, hi, one_mulVec]
  have hcont : ∀ k, ∀ᶠ t in nhds (0 : ℝ), roundEven ((ih *ᵥ γ t) k) = roundEven ((ih *ᵥ d) k) := by
    intro k
    have ht : Filter.Tendsto (fun t => (ih *ᵥ γ t) k) (nhds 0) (nhds ((ih *ᵥ d) k)) := by
      have : HasDerivAt (fun t => (ih *ᵥ γ t) k) (∑ l, ih k l * v l) 0 :=
        HasDerivAt.fun_sum (A := fun l t => ih k l * γ t l) (u := univ) fun l _ => (hv l).const_mul (ih k l)
      simpa [h0] using this.continuousAt.tendsto
    exact ht.eventually (roundEven_locally _ (hh k))
  have hev : ∀ᶠ t in nhds (0 : ℝ), ∀ k, roundEven ((ih *ᵥ γ t) k) = roundEven ((ih *ᵥ d) k) :=
    Filter.eventually_all.2 hcont
  have hd' := key d fun _ => rfl
  have hb := dist_force c p (h *ᵥ frac (ih *ᵥ d)) hd (fun t => γ t - h *ᵥ w) v (by simp only [h0, hd'])
    (fun k => by simpa using (hv k).sub_const ((h *ᵥ w) k))
  refine hb.congr_of_eventuallyEq ?_
  filter_upwards [hev] with t ht
  simp only [key _ ht]

/-- The forces of `FFdmd`, for a cell and its inverse, atoms at different places and no separation
exactly half a cell vector. -/
theorem dmd_force (c : ℕ → ℝ) (p : ℝ) (h ih : Mat) (hi : h * ih = 1) (q : Cfg N)
    (hd : ∀ i j, j < i → norm2 (minimumDistance h ih (fun d => q (i, d)) (fun d => q (j, d))) ≠ 0)
    (hh : ∀ i j, j < i → ∀ k (n : ℤ), (ih *ᵥ sep q i j) k ≠ n + 1 / 2) :
    IsForce (fun q => (dmd c p h ih q).1) (dmd c p h ih q).2 q := by
  have := pair_force (fun i j d => c ((i : ℕ) * (i - 1) / 2 + j) * √(norm2 (h *ᵥ frac (ih *ᵥ d))) * p)
    (fun i j k => (h *ᵥ frac (ih *ᵥ sep q i j)) k *
      -(c ((i : ℕ) * (i - 1) / 2 + j) / √(norm2 (h *ᵥ frac (ih *ᵥ sep q i j)))) * p)
    (fun i j => c ((i : ℕ) * (i - 1) / 2 + j) * √(norm2 (h *ᵥ frac (ih *ᵥ sep q i j))) * p) q
    (fun i j hij => image_force _ p h ih hi _ (hd i j hij) (hh i j hij))
  simp only [dmd, pairLoop_energy]
  exact this

/-- The virial of `FFdmd` is minus the derivative of the energy when positions and cell are
deformed together. -/
theorem dmd_virial (c : ℕ → ℝ) (p : ℝ) (h ih : Mat) (q : Cfg N)
    (hd : ∀ i j, j < i → norm2 (minimumDistance h ih (fun d => q (i, d)) (fun d => q (j, d))) ≠ 0)
    (D Di : ℝ → Mat) (E : Mat) (hD : ∀ t, Di t * D t = 1) (h0 : D 0 = 1)
    (hE : ∀ k l, HasDerivAt (fun t => D t k l) (E k l) 0) :
    HasDerivAt (fun t => (dmd c p (D t * h) (ih * Di t) (fun x => (D t *ᵥ fun d => q (x.1, d)) x.2)).1)
      (-∑ k, ∑ l, dmdVir c p h ih q k l * E k l) 0 := by
  set s : Fin N → Fin N → Fin 3 → ℝ := fun i j => minimumDistance h ih (fun d => q (i, d)) (fun d => q (j, d)) with hs
  have hmin : ∀ t i j, minimumDistance (D t * h) (ih * Di t) (fun d => (D t *ᵥ fun d => q (i, d)) d)
      (fun d => (D t *ᵥ fun d => q (j, d)) d) = D t *ᵥ s i j := by
    intro t i j
    simp only [minimumDistance, hs]
    have e : (ih * Di t) *ᵥ ((fun d => (D t *ᵥ fun d => q (i, d)) d) - fun d => (D t *ᵥ fun d => q (j, d)) d) =
        ih *ᵥ ((fun d => q (i, d)) - fun d => q (j, d)) := by
      have : ((fun d => (D t *ᵥ fun d => q (i, d)) d) - fun d => (D t *ᵥ fun d => q (j, d)) d) =
          D t *ᵥ ((fun d => q (i, d)) - fun d => q (j, d)) := by rw [mulVec_sub]
      rw [this, mulVec_mulVec, Matrix.mul_assoc, hD, Matrix.mul_one]
    rw [e, ← mulVec_mulVec]
  simp only [dmd, pairLoop_energy, hmin]
  have hpair : ∀ i j : Fin N, j < i → HasDerivAt (fun t => c ((i : ℕ) * (i - 1) / 2 + j) * √(norm2 (D t *ᵥ s i j)) * p)
      (-∑ k, s i j k * -(c ((i : ℕ) * (i - 1) / 2 + j) / √(norm2 (s i j))) * p * ∑ l, E k l * s i j l) 0 := by
    intro i j hij
    exact dist_force _ p (s i j) (hd i j hij) (fun t => D t *ᵥ s i j) (fun k => ∑ l, E k l * s i j l)
      (by simp only [h0, one_mulVec]) (fun k => HasDerivAt.fun_sum (A := fun l t => D t k l * s i j l) (u := univ) fun l _ => (hE k l).mul_const (s i j l))
  refine (HasDerivAt.fun_sum (u := univ) fun i _ => HasDerivAt.fun_sum fun j hj =>
    hpair i j (mem_filter.1 hj).2).congr_deriv ?_
  simp only [sum_neg_distrib, neg_inj, dmdVir, Fin.sum_univ_three, sum_mul, ← sum_add_distrib]
  refine sum_congr rfl fun i _ => sum_congr rfl fun j _ => by ring

/-! ## cavity -/

/-- Molecules and photons coupled through any dipole whose derivatives are right. -/
theorem cavity_force_der (c : Cavity) (mol : Cfg N → ℝ) (dip : Cfg N → Fin 3 → ℝ) (r : (Fin N × Fin 3) ⊕ Fin c.dim → ℝ)
    (fmol : Cfg N) (der : Fin N → Fin 3 → Fin 3 → ℝ) (hm : IsForce mol fmol fun x => r (.inl x))
    (hder : ∀ k, IsForce (fun q => dip q k) (fun x => -der x.1 k x.2) fun x => r (.inl x)) :
    IsForce (c.total mol dip)
      (c.forces fmol (c.nucForceDer der (dip (fun x => r (.inl x)) 0) (dip (fun x => r (.inl x)) 1) fun i => r (.inr i))
        (dip (fun x => r (.inl x)) 0) (dip (fun x => r (.inl x)) 1) fun i => r (.inr i)) r := by
  intro γ v h0 hv
  have hM := hm (fun t x => γ t (.inl x)) (fun x => v (.inl x)) (by simp only [h0]) (fun x => hv _)
  have hd : ∀ k, HasDerivAt (fun t => dip (fun x => γ t (.inl x)) k) (∑ x, der x.1 k x.2 * v (.inl x)) 0 := fun k => by
    have := hder k (fun t x => γ t (.inl x)) (fun x => v (.inl x)) (by simp only [h0]) (fun x => hv _)
    simpa using this
  have hd2 : ∀ k, HasDerivAt (fun t => dip (fun x => γ t (.inl x)) k ^ 2)
      (2 * dip (fun x => r (.inl x)) k * ∑ x, der x.1 k x.2 * v (.inl x)) 0 := fun k => by
    have := (hd k).fun_pow 2
    rw [← h0]; simpa using this
  have hp2 : ∀ i, HasDerivAt (fun t => 0.5 * c.omega ^ 2 * γ t (.inr i) ^ 2) (0.5 * c.omega ^ 2 * (2 * r (.inr i) * v (.inr i))) 0 := fun i => by
    have := ((hv (.inr i)).fun_pow 2).const_mul (0.5 * c.omega ^ 2)
    rw [← h0]; simpa using this
  have hi : ∀ k j, HasDerivAt (fun t => c.E0 * dip (fun x => γ t (.inl x)) k * γ t (.inr j))
      (c.E0 * (∑ x, der x.1 k x.2 * v (.inl x)) * r (.inr j) + c.E0 * dip (fun x => r (.inl x)) k * v (.inr j)) 0 := fun k j => by
    have := ((hd k).const_mul c.E0).fun_mul (hv (.inr j))
    rw [h0] at this; exact this
  simp only [Cavity.total, Cavity.energy]
  refine (hM.add ((((HasDerivAt.fun_sum fun i _ => hp2 i).add (hi 0 c.ix)).add (hi 1 c.iy)).add
    (((hd2 0).add (hd2 1)).const_mul (c.E0 ^ 2 / 2.0 / c.omega ^ 2)))).congr_deriv ?_
  rw [Fintype.sum_sum_type]
  simp only [Cavity.forces, Cavity.phForce, Cavity.nucForceDer, Cavity.coeff, add_mul, sub_mul, sum_add_distrib, sum_sub_distrib,
    neg_mul, sum_neg_distrib, ite_mul, zero_mul, sum_ite_eq', mem_univ, if_true]
  have e1 : ∀ (a : ℝ) k, ∑ x : Fin N × Fin 3, a * der x.1 k x.2 * v (.inl x) = a * ∑ x, der x.1 k x.2 * v (.inl x) := fun a k => by
    rw [mul_sum]; exact sum_congr rfl fun x _ => by ring
  have e2 : ∑ i, 0.5 * c.omega ^ 2 * (2 * r (.inr i) * v (.inr i)) = ∑ i, c.omega ^ 2 * r (.inr i) * v (.inr i) :=
    sum_congr rfl fun i _ => by rw [show (0.5 : ℝ) = 1 / 2 by norm_num]; ring
  simp only [e1, e2]
  rw [show (2.0 : ℝ) = 2 by norm_num]
  ring

/-- The derivatives of the dipole of point charges. -/
def chargeDer (z : Fin N → ℝ) : Fin N → Fin 3 → Fin 3 → ℝ := fun a k d => if d = k then z a else 0

theorem dipole_force (z : Fin N → ℝ) (k : Fin 3) (q : Cfg N) :
    IsForce (fun q => dipole z q k) (fun x => -chargeDer z x.1 k x.2) q := by
  intro γ v _ hv
  refine (HasDerivAt.fun_sum fun a _ => (hv (a, k)).mul_const (z a)).congr_deriv ?_
  rw [Fintype.sum_prod_type, ← sum_neg_distrib]
  refine sum_congr rfl fun a _ => ?_
  simp [chargeDer, mul_comm]

theorem nucForce_eq (c : Cavity) (z : Fin N → ℝ) (dx dy : ℝ) (ph : Fin c.dim → ℝ) :
    c.nucForce z dx dy ph = c.nucForceDer (chargeDer z) dx dy ph := by
  funext ⟨a, d⟩
  fin_cases d <;> simp [Cavity.nucForce, Cavity.nucForceDer, chargeDer]

/-- Molecules with point charges and photons. -/
theorem cavity_force (c : Cavity) (mol : Cfg N → ℝ) (z : Fin N → ℝ) (r : (Fin N × Fin 3) ⊕ Fin c.dim → ℝ)
    (fmol : Cfg N) (hm : IsForce mol fmol fun x => r (.inl x)) :
    IsForce (c.total mol (dipole z))
      (c.forces fmol (c.nucForce z (dipole z (fun x => r (.inl x)) 0) (dipole z (fun x => r (.inl x)) 1) fun i => r (.inr i))
        (dipole z (fun x => r (.inl x)) 0) (dipole z (fun x => r (.inl x)) 1) fun i => r (.inr i)) r := by
  rw [nucForce_eq]
  exact cavity_force_der c mol (dipole z) r fmol (chargeDer z) hm fun k => dipole_force z k _

/-- Which light is coupled: photons given as two atoms carry light polarised along x on the first
and along y on the second, photons given as one atom carry both. -/
theorem cavity_coupled (c : Cavity) (dx dy : ℝ) (i : Fin c.dim) :
    c.phForce dx dy (fun _ => 0) i
      = if c.dense then (![-(c.E0 * dx), -(c.E0 * dy), 0] : Fin 3 → ℝ) (Fin.ofNat 3 i)
        else (![-(c.E0 * dx), 0, 0, 0, -(c.E0 * dy), 0] : Fin 6 → ℝ) (Fin.ofNat 6 i) := by
  simp only [Cavity.phForce, Fin.ext_iff, Cavity.ix, Cavity.iy]
  obtain ⟨E0, w, dense⟩ := c
  cases dense
  · obtain ⟨i, hi⟩ := i
    change i < 6 at hi
    interval_cases i <;> simp [Fin.ofNat]
  · obtain ⟨i, hi⟩ := i
    change i < 3 at hi
    interval_cases i <;> simp [Fin.ofNat]

/-! ## What it means for the dynamics -/

/-- With forces that belong to an energy, the total energy is constant along every exact solution of
the equations of motion. -/
theorem energy_conserved {ι : Type} [Fintype ι] (V : (ι → ℝ) → ℝ) (F : (ι → ℝ) → ι → ℝ) (m : ι → ℝ)
    (x p : ℝ → ι → ℝ) (hF : ∀ t, IsForce V (F (x t)) (x t)) (hm : ∀ i, m i ≠ 0)
    (hx : ∀ t i, HasDerivAt (fun t => x t i) (p t i / m i) t) (hp : ∀ t i, HasDerivAt (fun t => p t i) (F (x t) i) t) (t : ℝ) :
    (∑ i, p t i ^ 2 / (2 * m i)) + V (x t) = (∑ i, p 0 i ^ 2 / (2 * m i)) + V (x 0) := by
  have hd : ∀ t, HasDerivAt (fun t => (∑ i, p t i ^ 2 / (2 * m i)) + V (x t)) 0 t := by
    intro t
    have hV : HasDerivAt (fun s => V (x s)) (-∑ i, F (x t) i * (p t i / m i)) t := by
      have h := hF t (fun s => x (t + s)) (fun i => p t i / m i) (by simp) (fun i => by
        have h1 : HasDerivAt (fun t => x t i) (p t i / m i) (t + 0) := by simpa using hx t i
        exact h1.comp_const_add t 0)
      have h2 : HasDerivAt (fun s => V (x (t + s))) (-∑ i, F (x t) i * (p t i / m i)) (t - t) := by simpa using h
      have h3 := h2.comp_sub_const t t
      simpa using h3
    have hK := HasDerivAt.fun_sum (u := univ) fun i _ => ((hp t i).fun_pow 2).div_const (2 * m i)
    refine (hK.add hV).congr_deriv ?_
    rw [← sum_neg_distrib, ← sum_add_distrib]
    refine sum_eq_zero fun i _ => ?_
    have := hm i
    field_simp
    simp
  exact is_const_of_deriv_eq_zero (fun t => (hd t).differentiableAt) (fun t => (hd t).deriv) t 0

/-! ## Instances -/

/-- Two atoms a distance one apart satisfy the condition of `lj_force`, with a force that is not zero. -/
example : ∃ q : Cfg 2, (∀ i j, j < i → norm2 (sep q i j) ≠ 0) ∧ (lj 1 1 q).2 (1, 0) = 24 := by
  refine ⟨fun x => if x.1 = 1 ∧ x.2 = 0 then 1 else 0, ?_, ?_⟩
  · intro i j hij
    fin_cases i <;> fin_cases j <;> simp_all [norm2, sep, Fin.sum_univ_three]
  · simp [lj, pairLoop_force, sep, norm2, x6, Fin.sum_univ_three, Fin.sum_univ_two]
    have : (Finset.univ.filter fun j : Fin 2 => j = 0) = {0} := by decide
    rw [this]
    norm_num

example : ∃ (s : Sphere 1) (q : Cfg 1), (∀ a, s.on a = true → sphereDist s q a ≠ 0 ∧ sphereR s q a ≠ 0) ∧
    s.on 0 = true := by
  refine ⟨⟨0, 2, 1, 1, 9, 3, fun _ => true⟩, fun x => if x.2 = 0 then 1 else 0, fun a _ => ?_, rfl⟩
  simp [sphereDist, sphereR, Fin.sum_univ_three]
  norm_num

/-- Two atoms in a cubic cell of length ten, across the boundary. -/
example : ∃ q : Cfg 2, (∀ i j : Fin 2, j < i →
      norm2 (minimumDistance ((10 : ℝ) • (1 : Mat)) ((1 / 10 : ℝ) • (1 : Mat)) (fun d => q (i, d)) (fun d => q (j, d))) ≠ 0) ∧
    (∀ i j : Fin 2, j < i → ∀ k (n : ℤ), (((1 / 10 : ℝ) • (1 : Mat)) *ᵥ sep q i j) k ≠ n + 1 / 2) ∧
    ((10 : ℝ) • (1 : Mat)) * ((1 / 10 : ℝ) • (1 : Mat)) = 1 := by
  have hr9 : roundEven (9 / 10) = 1 := roundEven_of_near (by norm_num [abs_lt])
  have hr0 : roundEven 0 = 0 := roundEven_of_near (by norm_num)
  refine ⟨fun x => if x.1 = 1 ∧ x.2 = 0 then 9 else 0, ?_, ?_, ?_⟩
  · intro i j hij
    fin_cases i <;> fin_cases j <;> simp_all
    simp [norm2, minimumDistance, frac, smul_mulVec, Fin.sum_univ_three]
    norm_num [hr9, hr0]
  · intro i j hij k n
    fin_cases i <;> fin_cases j <;> simp_all
    fin_cases k <;> simp [sep, smul_mulVec]
    · intro h
      have : ((20 * n + 10 : ℤ) : ℝ) = 18 := by push_cast; linarith
      have : 20 * n + 10 = 18 := by exact_mod_cast this
      omega
    all_goals
      intro h
      have : ((2 * n + 1 : ℤ) : ℝ) = 0 := by push_cast; linarith
      have : 2 * n + 1 = 0 := by exact_mod_cast this
      omega
  · simp [smul_smul]

example : ∃ (b : Bath 2), b.on = true ∧ ∀ i, b.m * b.omega2 i ≠ 0 := ⟨⟨1, fun _ => 1, fun _ => 1, true⟩, rfl, by simp⟩

end Verif.Pes
