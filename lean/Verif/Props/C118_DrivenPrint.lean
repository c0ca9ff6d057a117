import Mathlib.Analysis.Calculus.Deriv.Mul
import Mathlib.Analysis.Calculus.Deriv.Add
import Mathlib.Tactic.Linarith
import Mathlib.Tactic.LinearCombination
import Mathlib.Tactic.FieldSimp
import Verif.Phys.Driven

/-!
# C118: what is printed about the dipole and the field agrees with the forces applied

The dipole printed is the one the driver reported; its printed time derivative is the rate of change of the dipole; the
interaction energy is the potential of the force of the field, so that in a static field the total energy including it is
conserved.
-/

namespace Verif.Driven

open Finset

/-- A dipole that is linear in the positions, as it is for fixed charges. -/
noncomputable def linearDipole {ι : Type} [Fintype ι] (mu0 : Fin 3 → ℝ) (Z : ι → Fin 3 → ℝ) (q : ι → ℝ) (k : Fin 3) : ℝ :=
  mu0 k + ∑ i, Z i k * q i

/-- **The printed derivative is that of the dipole**: along every motion with the velocities `p / m`, the dipole changes at
the printed rate. -/
theorem dipole_derivative {ι : Type} [Fintype ι] (mu0 : Fin 3 → ℝ) (Z : ι → Fin 3 → ℝ) (p m : ι → ℝ) (q : ℝ → ι → ℝ) (t : ℝ)
    (hq : ∀ i, HasDerivAt (fun s => q s i) (p i / m i) t) (k : Fin 3) :
    HasDerivAt (fun s => linearDipole mu0 Z (q s) k) (dipoleDt Z p m k) t := by
  unfold linearDipole dipoleDt
  have h := HasDerivAt.fun_sum (u := univ) (A := fun i s => Z i k * q s i) (A' := fun i => Z i k * (p i / m i)) (x := t)
    fun i _ => (hq i).const_mul (Z i k)
  rw [one_mul]
  exact h.const_add (mu0 k)

example := dipole_derivative (ι := Fin 1) (fun _ => 0) (fun _ _ => 1) (fun _ => 2) (fun _ => 1) (fun t _ => t * 2) 0
  (fun _ => by simpa using (hasDerivAt_id (0 : ℝ)).mul_const 2) 0

/-- **The force of the field is minus the gradient of minus the dipole times the field**: along every direction. -/
theorem force_is_gradient {ι : Type} [Fintype ι] (mu0 : Fin 3 → ℝ) (Z : ι → Fin 3 → ℝ) (E : Fin 3 → ℝ) (q v : ι → ℝ) :
    HasDerivAt (fun s : ℝ => - ∑ k, linearDipole mu0 Z (fun i => q i + s * v i) k * E k)
      (- ∑ i, edaForces Z E i * v i) 0 := by
  have h1 : ∀ k, HasDerivAt (fun s : ℝ => linearDipole mu0 Z (fun i => q i + s * v i) k) (∑ i, Z i k * v i) 0 := by
    intro k
    unfold linearDipole
    have h := HasDerivAt.fun_sum (u := univ) (A := fun i (s : ℝ) => Z i k * (q i + s * v i)) (A' := fun i => Z i k * v i) (x := (0 : ℝ))
      fun i _ => by
        have := (((hasDerivAt_id (0 : ℝ)).mul_const (v i)).const_add (q i)).const_mul (Z i k)
        rw [one_mul] at this
        exact this
    exact h.const_add (mu0 k)
  have h2 := (HasDerivAt.fun_sum (u := univ) fun k _ => (h1 k).mul_const (E k)).fun_neg
  refine h2.congr_deriv ?_
  congr 1
  simp only [edaForces, one_mul, sum_mul]
  rw [sum_comm]
  exact sum_congr rfl fun i _ => sum_congr rfl fun k _ => by ring

example := force_is_gradient (ι := Fin 1) (fun _ => 0) (fun _ _ => 1) (fun _ => 1) (fun _ => 2) (fun _ => 1)

/-- **Violation.**  The printed interaction energy has the opposite sign: displaced along the force of the field, it rises
at the rate at which the potential of that force falls. -/
theorem interaction_energy_sign {ι : Type} [Fintype ι] (mu0 : Fin 3 → ℝ) (Z : ι → Fin 3 → ℝ) (E : Fin 3 → ℝ) (q v : ι → ℝ) :
    HasDerivAt (fun s : ℝ => interactionEnergy (linearDipole mu0 Z (fun i => q i + s * v i)) E)
      (∑ i, edaForces Z E i * v i) 0 := by
  have h := (force_is_gradient mu0 Z E q v).fun_neg
  simpa only [neg_neg, interactionEnergy] using h

example := interaction_energy_sign (ι := Fin 1) (fun _ => 0) (fun _ _ => 1) (fun _ => 1) (fun _ => 2) (fun _ => 1)

/-- The kinetic energy. -/
noncomputable def kinetic {ι : Type} [Fintype ι] (m p : ι → ℝ) : ℝ := ∑ i, p i ^ 2 / (2 * m i)

/-- One step of free atoms: they move with their velocities. -/
noncomputable def drift {ι : Type} (m : ι → ℝ) (dt : ℝ) (s : St ι) : St ι := { s with q := fun i => s.q i + dt * s.p i / m i }

/-- **Energy in a static field**: for free atoms every step (with one substep at the outermost level) conserves the kinetic
energy minus the printed interaction energy exactly, whatever the time step. -/
theorem static_field_energy {ι : Type} [Fintype ι] (mu0 : Fin 3 → ℝ) (Z : ι → Fin 3 → ℝ) (E : Fin 3 → ℝ) (m : ι → ℝ)
    (hm : ∀ i, m i ≠ 0) (rest : List ℕ) (dt t : ℝ) (s : St ι) :
    let s' := step (fun _ => Z) (fun _ => E) id (drift m dt) (1 :: rest) dt t s
    kinetic m s'.p - interactionEnergy (linearDipole mu0 Z s'.q) E = kinetic m s.p - interactionEnergy (linearDipole mu0 Z s.q) E := by
  intro s'
  have hI : ∀ q : ι → ℝ, interactionEnergy (linearDipole mu0 Z q) E = ∑ k, mu0 k * E k + ∑ i, edaForces Z E i * q i := by
    intro q
    simp only [interactionEnergy, linearDipole, edaForces, one_mul, add_mul, sum_add_distrib, sum_mul]
    congr 1
    rw [sum_comm]
    exact sum_congr rfl fun i _ => sum_congr rfl fun k _ => by ring
  rw [hI, hI]
  have hpdt : (Verif.Mts.pdt dt (1 :: rest)).headD 0 = dt / 2 := by
    simp only [Verif.Mts.pdt, Verif.Mts.pdtFrom, List.headD_cons, Nat.cast_one, div_one]
  have hp : ∀ i, s'.p i = s.p i + dt * edaForces Z E i := by
    intro i
    simp only [s', step, tdPstep, hpdt, drift, id]
    ring
  have hq : ∀ i, s'.q i = s.q i + dt * (s.p i + edaForces Z E i * (dt / 2)) / m i := by
    intro i
    simp only [s', step, tdPstep, hpdt, drift, id]
  have e : kinetic m s'.p - kinetic m s.p = ∑ i, edaForces Z E i * s'.q i - ∑ i, edaForces Z E i * s.q i := by
    simp only [kinetic]
    rw [← sum_sub_distrib, ← sum_sub_distrib]
    refine sum_congr rfl fun i _ => ?_
    rw [hp, hq]
    have := hm i
    generalize edaForces Z E i = F
    field_simp
    ring
  linarith

example := static_field_energy (ι := Fin 1) (fun _ => 0) (fun _ _ => 1) (fun _ => 1) (fun _ => 1) (fun _ => one_ne_zero) [] 0.5 0 ⟨0, 0⟩

/-- **Violation.**  The kinetic energy plus the printed interaction energy is not conserved: a charge starting at rest in a
static field gains twice its kinetic energy. -/
theorem static_field_energy_printed : ∃ s : St (Fin 1),
    let s' := step (fun _ _ _ => (1 : ℝ)) (fun _ k => if k = 0 then 1 else 0) id (drift (fun _ => 1) 1) [1] 1 0 s
    kinetic (fun _ => 1) s'.p + interactionEnergy (linearDipole (fun _ => 0) (fun _ _ => 1) s'.q) (fun k => if k = 0 then 1 else 0)
      ≠ kinetic (fun _ => 1) s.p + interactionEnergy (linearDipole (fun _ => 0) (fun _ _ => 1) s.q) (fun k => if k = 0 then 1 else 0) := by
  refine ⟨⟨fun _ => 0, fun _ => 0⟩, ?_⟩
  simp [step, tdPstep, edaForces, drift, kinetic, interactionEnergy, linearDipole, Verif.Mts.pdt, Verif.Mts.pdtFrom]
  norm_num

section Dipole
variable (labelled : String → Bool) (findall : String → List String) (inAng : String → Bool) (angstrom : ℝ)

/-- **A dipole reported under its own name is printed unchanged**, for every bead (*missing*: dipoles reported in a text,
see `text_dipole_lost`). -/
theorem dipole_read_partial (nbeads : ℕ) (d : List (List ℝ)) (hl : d.length = nbeads) (h3 : ∀ r ∈ d, r.length = 3) :
    getDipole labelled findall inAng angstrom nbeads (.dipole d) = some (d.map some) := by
  have ht : d.take nbeads = d := by rw [← hl, List.take_length]
  simp only [getDipole, ht]
  rw [if_pos ⟨hl, by simpa using h3⟩]

example := dipole_read_partial (fun _ => true) (fun _ => []) (fun _ => false) 2 2 [[1, 2, 3], [4, 5, 6]] rfl (by simp)

/-- **Violation.**  A dipole reported in a text is never printed, whatever the text and however the numbers in it are
found: the values are not numbers. -/
theorem text_dipole_lost (nbeads : ℕ) (texts : List String) : getDipole labelled findall inAng angstrom nbeads (.raw texts) = none := by
  unfold getDipole
  dsimp only
  split
  · split
    · unfold textRow scale
      dsimp only
      split <;> rfl
    · rfl
  · rfl

example := text_dipole_lost (fun _ => true) (fun _ => ["1.0", "2.0", "3.0"]) (fun _ => true) 2 1
  ["Total dipole moment [eAng]: 1.0 2.0 3.0"]

/-- A dipole printed came under its own name, with three components for every bead: nothing else is ever printed. -/
theorem dipole_printed_sound (nbeads : ℕ) (x : Extras) (r : List (Option (List ℝ)))
    (h : getDipole labelled findall inAng angstrom nbeads x = some r) :
    ∃ d, x = .dipole d ∧ r = (d.take nbeads).map some ∧ r.length = nbeads ∧ ∀ v ∈ d.take nbeads, v.length = 3 := by
  cases x with
  | dipole d =>
    simp only [getDipole] at h
    split at h
    · rename_i hc
      cases h
      exact ⟨d, rfl, rfl, by rw [List.length_map]; exact hc.1, by simpa using hc.2⟩
    · cases h
  | raw t => rw [text_dipole_lost] at h; cases h
  | other => cases h

example := dipole_printed_sound (fun _ => true) (fun _ => []) (fun _ => false) 2 1 (.dipole [[1, 2, 3]]) [some [1, 2, 3]]
  (dipole_read_partial _ _ _ _ 1 [[1, 2, 3]] rfl (by simp))

end Dipole

end Verif.Driven
