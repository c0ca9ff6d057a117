import Verif.Tools.Beads
import Mathlib.Algebra.BigOperators.Field
import Mathlib.Tactic.FieldSimp
import Mathlib.Tactic.Ring
import Mathlib.Tactic.Linarith
import Mathlib.Tactic.FinCases
import Mathlib.Tactic.NormNum

/-!
# C155: kinetic energies and centres of mass from trajectories

What the tools compute from files of positions and forces is what the simulation would have printed.
-/

namespace Verif.BeadTools

open Finset Verif.Estim

section
variable {n N : ℕ}

/-- **C155.** The diagonal of the tensor is the property `kinetic_cv` of the trajectories. -/
theorem kcv_diag (kB T : ℝ) (q f : Conf n N) (a : Fin N) (d : Fin 3) :
    kcv kB T q f a (Fin.castLE (by norm_num) d) = akcv kB T q f (a, d) := by
  unfold kcv akcv kcvTerm
  fin_cases d <;> rfl

/-- **C155.** The other entries are the property `kinetic_od`. -/
theorem kcv_od (kB T : ℝ) (q f : Conf n N) (a : Fin N) (c : Fin 3) :
    kcv kB T q f a (Fin.natAdd 3 c) = akcvOd q f a c := by
  unfold kcv akcvOd kcvTerm
  have h : ¬((Fin.natAdd 3 c : Fin 6) : ℕ) < 3 := by simp
  simp only [h, if_false]
  rw [mul_right_comm]
  congr 2
  fin_cases c <;> rfl

/-- **C155.** For a positive mass the tensor is the property `kinetic_ij` of the atom with itself. -/
theorem kcv_tens (kB T : ℝ) (m : Fin N → ℝ) (q f : Conf n N) (a : Fin N) (ha : 0 < m a) (c : Fin 6) :
    kcv kB T q f a c = kij kB T m q f a a c := by
  have hs : √(m a * m a) = m a := Real.sqrt_mul_self ha.le
  unfold kcv kij kcvTerm
  rw [hs]
  have hm := ha.ne'
  have hn : ((n + 1 : ℕ) : ℝ) ≠ 0 := by positivity
  have key : ∀ x y : Fin 3, ∑ b : Fin (n + 1), (m a * (q (b, a, x) - qc q a x) * f (b, a, y)
      + m a * (q (b, a, y) - qc q a y) * f (b, a, x))
      = m a * ∑ b : Fin (n + 1), ((q (b, a, x) - qc q a x) * f (b, a, y)
        + (q (b, a, y) - qc q a y) * f (b, a, x)) := by
    intro x y
    rw [mul_sum]
    exact sum_congr rfl fun b _ => by ring
  by_cases h : c.1 < 3
  · have hv : (voigt c).2 = (voigt c).1 := by
      revert h
      fin_cases c <;> simp [voigt]
    simp only [h, if_true, true_and, hv, key]
    have : ∑ b : Fin (n + 1), ((q (b, a, (voigt c).1) - qc q a (voigt c).1) * f (b, a, (voigt c).1)
        + (q (b, a, (voigt c).1) - qc q a (voigt c).1) * f (b, a, (voigt c).1))
        = 2 * ∑ b : Fin (n + 1), (q (b, a, (voigt c).1) - qc q a (voigt c).1)
          * f (b, a, (voigt c).1) := by
      rw [mul_sum]
      exact sum_congr rfl fun b _ => by ring
    rw [this]
    generalize ∑ b : Fin (n + 1), (q (b, a, (voigt c).1) - qc q a (voigt c).1)
      * f (b, a, (voigt c).1) = S
    field_simp
  · simp only [h, if_false, and_false, key, add_zero]
    generalize ∑ b : Fin (n + 1), ((q (b, a, (voigt c).1) - qc q a (voigt c).1) * f (b, a, (voigt c).2)
      + (q (b, a, (voigt c).2) - qc q a (voigt c).2) * f (b, a, (voigt c).1)) = S
    field_simp
    ring

/-- **C155.** The diagonal entries add up to the property `kinetic_cv` of the system. -/
theorem kcv_trace (kB T : ℝ) (names : Fin N → String) (q f : Conf n N) :
    kincv kB T names .all q f
      = .ok (∑ a, ∑ d : Fin 3, kcv kB T q f a (Fin.castLE (by norm_num) d)) := by
  simp only [kcv_diag]
  unfold kincv akcv Sel.check Sel.atoms
  simp only [Sel.takes, if_true, filter_true, card_univ, Fintype.card_fin]
  refine congrArg Except.ok ?_
  simp only [sum_add_distrib, ← sum_mul]
  rw [sum_comm]
  congr 1
  · congr 1
    refine sum_congr rfl fun a _ => ?_
    rw [sum_comm]
  · simp only [sum_const, card_univ, Fintype.card_fin, nsmul_eq_mul]
    push_cast
    ring

/-- **C155.** Moving all the beads together, or all forces of the beads by the same amount, changes no
kinetic energy. -/
theorem kcv_shift (kB T : ℝ) (q f : Conf n N) (u v : Fin N → Fin 3 → ℝ) (a : Fin N) (c : Fin 6) :
    kcv kB T (fun x => q x + u x.2.1 x.2.2) (fun x => f x + v x.2.1 x.2.2) a c = kcv kB T q f a c := by
  have hn : ((n + 1 : ℕ) : ℝ) ≠ 0 := by positivity
  have hq : ∀ b d, (q (b, a, d) + u a d) - qc (fun x => q x + u x.2.1 x.2.2) a d
      = q (b, a, d) - qc q a d := by
    intro b d
    unfold qc
    simp only [sum_add_distrib, sum_const, card_univ, Fintype.card_fin, nsmul_eq_mul]
    field_simp
    ring
  have hz : ∀ d, ∑ b, (q (b, a, d) - qc q a d) = 0 := by
    intro d
    unfold qc
    rw [sum_sub_distrib, sum_const, card_univ, Fintype.card_fin, nsmul_eq_mul,
      mul_div_cancel₀ _ hn, sub_self]
  have hs : ∀ x y, ∑ b, (q (b, a, x) - qc q a x) * (f (b, a, y) + v a y)
      = ∑ b, (q (b, a, x) - qc q a x) * f (b, a, y) := by
    intro x y
    simp only [mul_add, sum_add_distrib, ← sum_mul, hz, zero_mul, add_zero]
  unfold kcv kcvTerm
  simp only [hq]
  by_cases h : c.1 < 3
  · simp only [h, if_true, hs]
  · simp only [h, if_false, sum_add_distrib, hs]

end

/-! ## Centre of mass -/

section
variable {P N : ℕ}

/-- **C155.** After `fixcom` the centre of mass of the centroids is at the origin, if the masses are the
same in all files and do not add up to zero. -/
theorem fixcom_zero (m : Fin N → ℝ) (hP : 0 < P) (hm : ∑ a, m a ≠ 0) (q : Fin P → Fin N → Fin 3 → ℝ)
    (d : Fin 3) : ∑ a, m a * ∑ b, fixcom (fun _ => m) q b a d = 0 := by
  have hP' : (P : ℝ) ≠ 0 := by exact_mod_cast hP.ne'
  have hc : com (fun _ : Fin P => m) q d = (∑ a, m a * ((∑ b, q b a d) / P)) / ∑ a, m a := by
    unfold com
    simp only [sum_const, card_univ, Fintype.card_fin, nsmul_eq_mul]
    simp only [mul_div_cancel_left₀ _ hP']
  unfold fixcom
  simp only [sum_sub_distrib, sum_const, card_univ, Fintype.card_fin, nsmul_eq_mul, mul_sub]
  rw [hc]
  have : ∑ a, m a * ((P : ℝ) * ((∑ a, m a * ((∑ b, q b a d) / P)) / ∑ a, m a))
      = (∑ a, m a) * ((P : ℝ) * ((∑ a, m a * ((∑ b, q b a d) / P)) / ∑ a, m a)) := by
    rw [sum_mul]
  rw [this, mul_left_comm, mul_div_cancel₀ _ hm, mul_sum, sub_eq_zero]
  exact sum_congr rfl fun a _ => by field_simp

/-- **C155.** All distances between atoms and beads are kept. -/
theorem fixcom_rel (m : Fin P → Fin N → ℝ) (q : Fin P → Fin N → Fin 3 → ℝ) (b b' : Fin P)
    (a a' : Fin N) (d : Fin 3) :
    fixcom m q b a d - fixcom m q b' a' d = q b a d - q b' a' d := by
  unfold fixcom; ring

/-- **C155.** A second application changes nothing. -/
theorem fixcom_twice (m : Fin N → ℝ) (hP : 0 < P) (hm : ∑ a, m a ≠ 0)
    (q : Fin P → Fin N → Fin 3 → ℝ) :
    fixcom (fun _ => m) (fixcom (fun _ => m) q) = fixcom (fun _ => m) q := by
  have hP' : (P : ℝ) ≠ 0 := by exact_mod_cast hP.ne'
  funext b a d
  have h := fixcom_zero m hP hm q d
  have hc : com (fun _ : Fin P => m) (fixcom (fun _ => m) q) d = 0 := by
    unfold com
    simp only [sum_const, card_univ, Fintype.card_fin, nsmul_eq_mul, mul_div_cancel_left₀ _ hP',
      ← mul_div_assoc, ← sum_div, h, zero_div]
  rw [fixcom, hc, sub_zero]

/-- Two beads of two atoms of masses 1 and 3. -/
example : ∑ a : Fin 2, (![1, 3] : Fin 2 → ℝ) a ≠ 0 := by
  simp [Fin.sum_univ_two]; norm_num

end

end Verif.BeadTools
