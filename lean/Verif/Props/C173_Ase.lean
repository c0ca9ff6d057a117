import Verif.FF.Ase
import Mathlib.Analysis.Calculus.Deriv.Mul
import Mathlib.Analysis.Calculus.Deriv.Pow
import Mathlib.Analysis.Calculus.Deriv.Add
import Mathlib.Tactic.NormNum
import Mathlib.Tactic.FieldSimp
import Mathlib.Tactic.Ring
import Mathlib.Tactic.FinCases
import Mathlib.Algebra.BigOperators.Field

/-!
# C173: calculators of the atomic simulation environment
-/

namespace Verif.Ase

variable {N : ℕ}

/-! ## Specification -/

/-- The stress tensor that a result stands for: six numbers are its elements xx, yy, zz, yz, xz
and xy. -/
def IsTensor : Stress → M3 → Prop
  | .voigt s, t => t 0 0 = s 0 ∧ t 1 1 = s 1 ∧ t 2 2 = s 2 ∧ t 1 2 = s 3 ∧ t 0 2 = s 4 ∧
      t 0 1 = s 5 ∧ ∀ i j, t i j = t j i
  | .full s, t => t = s ∧ ∀ i j, s i j = s j i
  | .vec _, _ => False

/-- Positions after a deformation. -/
def strainPos {n : ℕ} (t : ℝ) (e : M3) (q : Fin n → V3) : Fin n → V3 :=
  fun a i => q a i + t * ∑ j, e i j * q a j

/-- A cell, with the cell vectors as columns, after a deformation. -/
def strainCols (t : ℝ) (e : M3) (h : M3) : M3 := fun i k => h i k + t * ∑ j, e i j * h j k

/-- The volume of a cell. -/
noncomputable def vol (h : M3) : ℝ := |(Matrix.of h).det|

/-- The calculator gives the forces and the stress that belong to its energy, whatever the
structure: the forces are minus the derivative, and the stress times the volume is the
derivative with respect to a deformation. -/
structure Consistent (mdl : (Fin N → V3) → M3 → Props N) : Prop where
  force : ∀ (q : Fin N → V3) (h : M3) (d : Fin N → V3),
    HasDerivAt (fun t : ℝ => (mdl (fun a k => q a k + t * d a k) h).energy)
      (-∑ a, ∑ k, (mdl q h).forces a k * d a k) 0
  tensor : ∀ (q : Fin N → V3) (h : M3), ∃ s, IsTensor (mdl q h).stress s
  stress : ∀ (q : Fin N → V3) (h : M3) (s : M3), vol h ≠ 0 → IsTensor (mdl q h).stress s →
    ∀ e : M3, HasDerivAt (fun t : ℝ => (mdl (strainPos t e q)
      (fun i j => strainCols t e (fun i j => h j i) j i)).energy)
      (vol h * ∑ i, ∑ j, s i j * e i j) 0

/-- All results are available. -/
def allCaps : Caps := ⟨true, true, true⟩

/-! ## The results -/

theorem checked_tensor (s : Stress) (t : M3) (h : IsTensor s t) :
    checked s = .ok t ∧ ∀ i j, t i j = t j i := by
  cases s with
  | voigt s =>
    obtain ⟨h0, h1, h2, h3, h4, h5, h6⟩ := h
    refine ⟨?_, h6⟩
    have g := h6
    change Except.ok (fun i j => s (unvoigt i j) : M3) = _
    congr 1
    funext i j
    fin_cases i <;> fin_cases j
    · exact h0.symm
    · exact h5.symm
    · exact h4.symm
    · exact h5.symm.trans (g 0 1)
    · exact h1.symm
    · exact h3.symm
    · exact h4.symm.trans (g 0 2)
    · exact h3.symm.trans (g 1 2)
    · exact h2.symm
  | full s =>
    obtain ⟨rfl, h⟩ := h
    refine ⟨?_, h⟩
    have g := h
    have e : asym t = 0 := by
      unfold asym
      refine Finset.sum_eq_zero (fun i _ => Finset.sum_eq_zero (fun j _ => ?_))
      rw [g i j, sub_self, abs_zero]
    change (if asym t > 1e-6 then _ else _) = _
    rw [if_neg (by rw [e]; norm_num)]
  | vec n => exact absurd h (by simp [IsTensor])

/-- **C173.** For as many atoms as in the template, the energy and the forces are those of the
calculator in internal units, and the virial is minus the stress times the volume. -/
theorem results (u : Conv) (mdl : (Fin N → V3) → M3 → Props N) (cell : M3) (pos : Fin N → V3)
    (s : M3)
    (hs : IsTensor (mdl (fun a k => pos a k / u.ang) (fun i j => cell j i / u.ang)).stress s) :
    compute u allCaps mdl cell pos = .ok
      (u.ev * (mdl (fun a k => pos a k / u.ang) (fun i j => cell j i / u.ang)).energy,
       fun a k => u.evang *
        (mdl (fun a k => pos a k / u.ang) (fun i j => cell j i / u.ang)).forces a k,
       fun i j => u.ev * (-s i j * vol (fun i j => cell j i / u.ang))) := by
  obtain ⟨h1, g⟩ := checked_tensor _ _ hs
  unfold compute convertUnits
  dsimp only
  have e : assign N (fun (a : Fin N) k => pos a k / u.ang) = .ok (fun a k => pos a k / u.ang) := by
    unfold assign; rw [dif_pos rfl]; rfl
  rw [e]
  dsimp only
  unfold postProcess
  generalize mdl (fun a k => pos a k / u.ang) (fun i j => cell j i / u.ang) = p at *
  simp only [allCaps, if_true]
  rw [h1]
  dsimp only
  congr 2
  congr 1
  funext i j
  cases p.stress with
  | voigt _ => rfl
  | full _ => dsimp only; rw [g i j]; rfl
  | vec _ => dsimp only; rw [g i j]; rfl

/-- The energy that the driver gives. -/
noncomputable def energy {n : ℕ} (u : Conv) (mdl : (Fin N → V3) → M3 → Props N) (cell : M3)
    (pos : Fin n → V3) : ℝ :=
  match compute u allCaps mdl cell pos with
  | .ok r => r.1
  | .error _ => 0

theorem energy_eq (u : Conv) (mdl : (Fin N → V3) → M3 → Props N) (hc : Consistent mdl)
    (cell : M3) (pos : Fin N → V3) : energy u mdl cell pos
      = u.ev * (mdl (fun a k => pos a k / u.ang) (fun i j => cell j i / u.ang)).energy := by
  obtain ⟨s, hs⟩ := hc.tensor (fun a k => pos a k / u.ang) (fun i j => cell j i / u.ang)
  unfold energy
  rw [results u mdl cell pos s hs]

/-- **C173.** If the unit of the force is that of the energy divided by that of the length, the
forces are minus the derivative of the energy, in internal units. -/
theorem forces_are_gradient (u : Conv) (hu : u.evang * u.ang = u.ev) (ha : u.ang ≠ 0)
    (mdl : (Fin N → V3) → M3 → Props N) (hc : Consistent mdl) (cell : M3) (pos : Fin N → V3)
    (r : ℝ × (Fin N → V3) × M3) (hr : compute u allCaps mdl cell pos = .ok r) (d : Fin N → V3) :
    HasDerivAt (fun t : ℝ => energy u mdl cell (fun a k => pos a k + t * d a k))
      (-∑ a, ∑ k, r.2.1 a k * d a k) 0 := by
  obtain ⟨s, hs⟩ := hc.tensor (fun a k => pos a k / u.ang) (fun i j => cell j i / u.ang)
  rw [results u mdl cell pos s hs] at hr
  cases hr
  have h := (hc.force (fun a k => pos a k / u.ang) (fun i j => cell j i / u.ang)
    (fun a k => d a k / u.ang)).const_mul u.ev
  have e : (fun t : ℝ => energy u mdl cell (fun a k => pos a k + t * d a k))
      = fun t : ℝ => u.ev * (mdl (fun a k => pos a k / u.ang + t * (d a k / u.ang))
          (fun i j => cell j i / u.ang)).energy := by
    funext t
    rw [energy_eq u mdl hc]
    congr 3
    funext a k
    ring
  rw [e]
  refine h.congr_deriv ?_
  dsimp only
  rw [mul_neg, Finset.mul_sum]
  congr 1
  refine Finset.sum_congr rfl (fun a _ => ?_)
  rw [Finset.mul_sum]
  refine Finset.sum_congr rfl (fun k _ => ?_)
  rw [← hu]
  field_simp

/-- **C173.** The virial is minus the derivative of the energy with respect to a deformation of
the positions and of the cell vectors. -/
theorem virial_is_derivative (u : Conv) (ha : u.ang ≠ 0)
    (mdl : (Fin N → V3) → M3 → Props N) (hc : Consistent mdl) (cell : M3) (pos : Fin N → V3)
    (r : ℝ × (Fin N → V3) × M3) (hr : compute u allCaps mdl cell pos = .ok r)
    (hv : vol cell ≠ 0) (e : M3) :
    HasDerivAt (fun t : ℝ => energy u mdl (strainCols t e cell) (strainPos t e pos))
      (-∑ i, ∑ j, r.2.2 i j * e i j) 0 := by
  obtain ⟨s, hs⟩ := hc.tensor (fun a k => pos a k / u.ang) (fun i j => cell j i / u.ang)
  have hv' : vol (fun i j => cell j i / u.ang) ≠ 0 := by
    have e0 : (Matrix.of (fun i j => cell j i / u.ang) : Matrix (Fin 3) (Fin 3) ℝ)
        = u.ang⁻¹ • (Matrix.of cell).transpose := by
      ext i j
      simp [div_eq_inv_mul]
    unfold vol at hv ⊢
    rw [e0, Matrix.det_smul, Matrix.det_transpose, abs_mul]
    exact mul_ne_zero (abs_ne_zero.2 (pow_ne_zero _ (inv_ne_zero ha))) hv
  have hd := hc.stress _ _ s hv' hs
  rw [results u mdl cell pos s hs] at hr
  cases hr
  have h := (hd e).const_mul u.ev
  have ee : (fun t : ℝ => energy u mdl (strainCols t e cell) (strainPos t e pos))
      = fun t : ℝ => u.ev * (mdl (strainPos t e (fun a k => pos a k / u.ang))
        (fun i j => strainCols t e (fun i j => (fun i j => cell j i / u.ang : M3) j i) j i)).energy := by
    funext t
    rw [energy_eq u mdl hc]
    have e1 : (fun a k => strainPos t e pos a k / u.ang)
        = strainPos t e (fun a k => pos a k / u.ang) := by
      funext a k
      unfold strainPos
      rw [add_div, mul_div_assoc, Finset.sum_div]
      simp only [mul_div_assoc]
    have e2 : (fun i j => strainCols t e cell j i / u.ang : M3)
        = (fun i j => strainCols t e (fun i j => (fun i j => cell j i / u.ang : M3) j i) j i) := by
      funext i j
      unfold strainCols
      rw [add_div, mul_div_assoc, Finset.sum_div]
      simp only [mul_div_assoc]
    rw [e1, e2]
  rw [ee]
  refine h.congr_deriv ?_
  dsimp only
  generalize vol (fun i j => cell j i / u.ang) = V
  rw [← Finset.sum_neg_distrib, ← mul_assoc, Finset.mul_sum]
  refine Finset.sum_congr rfl (fun i _ => ?_)
  rw [← Finset.sum_neg_distrib, Finset.mul_sum]
  exact Finset.sum_congr rfl (fun j _ => by ring)

/-- Two atoms joined by a spring, as a calculator. -/
noncomputable def spring (k : ℝ) (q : Fin 2 → V3) (h : M3) : Props 2 where
  energy := k / 2 * ∑ i, (q 0 i - q 1 i) ^ 2
  forces := fun a i => if a = 0 then -k * (q 0 i - q 1 i) else k * (q 0 i - q 1 i)
  stress := .full fun i j => k * (q 0 i - q 1 i) * (q 0 j - q 1 j) / vol h

theorem sq_deriv (a b : ℝ) : HasDerivAt (fun t : ℝ => (a + t * b) ^ 2) (2 * a * b) 0 := by
  have h := ((((hasDerivAt_id (0 : ℝ)).mul_const b).const_add a).pow 2)
  refine h.congr_deriv ?_
  simp

/-- The hypotheses are met by a spring between two atoms. -/
example (k : ℝ) : Consistent (spring k) where
  force q h d := by
    have h1 := (HasDerivAt.fun_sum (u := Finset.univ) (fun (i : Fin 3) _ =>
      sq_deriv (q 0 i - q 1 i) (d 0 i - d 1 i))).const_mul (k / 2)
    refine (h1.congr_deriv ?_).congr_of_eventuallyEq (Filter.Eventually.of_forall fun t => ?_)
    · simp only [spring, Fin.sum_univ_two, Fin.sum_univ_three, if_true,
        if_neg (show (1 : Fin 2) ≠ 0 by decide)]
      ring
    · simp only [spring, Fin.sum_univ_three]
      ring
  tensor q h := ⟨_, rfl, fun i j => by ring⟩
  stress q h s hv hs e := by
    obtain ⟨rfl, -⟩ := hs
    have h1 := (HasDerivAt.fun_sum (u := Finset.univ) (fun (i : Fin 3) _ =>
      sq_deriv (q 0 i - q 1 i) (∑ j, e i j * (q 0 j - q 1 j)))).const_mul (k / 2)
    refine (h1.congr_deriv ?_).congr_of_eventuallyEq (Filter.Eventually.of_forall fun t => ?_)
    · simp only [Fin.sum_univ_three]
      field_simp
    · simp only [spring, strainPos, Fin.sum_univ_three]
      ring

/-! ## What goes wrong -/

/-- **C173 fails without a stress.** A calculator that is said to have no stress cannot be used
at all: the nine zeros used instead are refused. -/
theorem no_stress_refused {n : ℕ} (u : Conv) (c : Caps) (hc : c.stress = false)
    (mdl : (Fin N → V3) → M3 → Props N) (cell : M3) (pos : Fin n → V3) :
    compute u c mdl cell pos = .error .valueError := by
  unfold compute
  dsimp only
  cases h : assign N (convertUnits u cell pos).2 with
  | error e => cases e; rfl
  | ok q =>
    dsimp only
    unfold postProcess
    rw [hc]
    rfl

/-- Without energy or forces, zeros are used. -/
theorem no_energy_no_forces (u : Conv) (mdl : (Fin N → V3) → M3 → Props N) (cell : M3)
    (pos : Fin N → V3) (s : M3)
    (hs : IsTensor (mdl (fun a k => pos a k / u.ang) (fun i j => cell j i / u.ang)).stress s) :
    ∃ r, compute u ⟨false, false, true⟩ mdl cell pos = .ok r ∧ r.1 = 0 ∧ r.2.1 = fun _ _ => 0 := by
  obtain ⟨h1, -⟩ := checked_tensor _ _ hs
  unfold compute convertUnits
  dsimp only
  have e : assign N (fun (a : Fin N) k => pos a k / u.ang) = .ok (fun a k => pos a k / u.ang) := by
    unfold assign; rw [dif_pos rfl]; rfl
  rw [e]
  dsimp only
  unfold postProcess
  simp only [if_true, Bool.false_eq_true, if_false]
  rw [h1]
  exact ⟨_, rfl, by simp, by simp⟩

/-- **C173 fails for a single atom with a larger template.** All atoms of the template are put
where the atom is; other numbers of atoms are refused. -/
theorem wrong_template {n : ℕ} (u : Conv) (c : Caps) (mdl : (Fin N → V3) → M3 → Props N)
    (cell : M3) (pos : Fin n → V3) (h : n ≠ N) :
    (n ≠ 1 → compute u c mdl cell pos = .error .valueError) ∧
    ∀ h1 : n = 1, compute u c mdl cell pos = postProcess u c (convertUnits u cell pos).1
      (mdl (fun _ k => pos (Fin.cast h1.symm 0) k / u.ang) (convertUnits u cell pos).1) := by
  unfold compute
  constructor
  · intro h1
    have : assign N (convertUnits u cell pos).2 = .error .valueError := by
      unfold assign; rw [dif_neg h, dif_neg h1]
    dsimp only
    rw [this]
  · intro h1
    have : assign N (convertUnits u cell pos).2
        = .ok (fun _ k => pos (Fin.cast h1.symm 0) k / u.ang) := by
      unfold assign convertUnits; rw [dif_neg h, dif_pos h1]
    dsimp only
    rw [this]

/-- The condition on the units holds for the values of the table to seven digits, not
exactly. -/
theorem table_units : table.evang * table.ang ≠ table.ev ∧
    |table.evang * table.ang / table.ev - 1| < 2e-7 := by
  unfold table
  constructor
  · norm_num
  · rw [abs_lt]; constructor <;> norm_num

end Verif.Ase
