import Verif.Phys.EstimMore
import Mathlib.Analysis.Calculus.Deriv.Inv
import Mathlib.Analysis.Calculus.Deriv.Mul
import Mathlib.Analysis.Calculus.Deriv.Add
import Mathlib.Algebra.BigOperators.Field
import Mathlib.Tactic.FinCases
import Mathlib.Tactic.Linarith
import Mathlib.Tactic.Ring
import Mathlib.Tactic.FieldSimp
import Mathlib.Tactic.NormNum

/-!
# C160: estimators that say the same thing in different ways agree

The trajectory versions of the kinetic energy tensor and of the radius of gyration against the properties, the
Takahashi-Imada potential against the reweighting exponent, the primitive fourth order kinetic energy as the derivative
with respect to the mass, contributions of atoms that add up; and a reference that is remembered from another output.
-/

namespace Verif.Estim

open Finset

section
variable {n N : ℕ}

/-! ## Trajectories and properties -/

/-- The entry of the kinetic tensor of a selection off the diagonal is the sum of the atoms' entries in the trajectory
`kinetic_od`. -/
theorem od_sums (kB T : ℝ) (m : Fin N → ℝ) (hm : ∀ a, 0 < m a) (names : Fin N → String) (s : Sel) (q f : Conf n N) (t : Fin 6 → ℝ)
    (h : ktens kB T m names s q f = .ok t) (c : Fin 3) : ∑ a ∈ s.atoms names, akcvOd q f a c = t ⟨c + 3, by omega⟩ := by
  unfold ktens at h
  cases hc : s.check N with
  | error e => rw [hc] at h; cases h
  | ok u =>
    rw [hc] at h
    cases h
    refine sum_congr rfl fun a _ => ?_
    have hma := hm a
    have hs : √(m a * m a) = m a := Real.sqrt_mul_self hma.le
    have hlt : ¬ (a = a ∧ ((⟨c + 3, by omega⟩ : Fin 6) : ℕ) < 3) := by rintro ⟨-, h⟩; simp at h
    unfold kij akcvOd
    rw [if_neg hlt, hs, add_zero]
    have e : ∀ (i j : Fin 3), (∑ b, (m a * (q (b, a, i) - qc q a i) * f (b, a, j) + m a * (q (b, a, j) - qc q a j) * f (b, a, i)))
        = m a * ∑ b, ((q (b, a, i) - qc q a i) * f (b, a, j) + (q (b, a, j) - qc q a j) * f (b, a, i)) := by
      intro i j; rw [mul_sum]; exact sum_congr rfl fun b _ => by ring
    have v : voigt ⟨c + 3, by omega⟩ = (![0, 0, 1] c, ![1, 2, 2] c) := by fin_cases c <;> rfl
    rw [v, e]
    dsimp only
    generalize (∑ b, ((q (b, a, ![0, 0, 1] c) - qc q a (![0, 0, 1] c)) * f (b, a, ![1, 2, 2] c)
      + (q (b, a, ![1, 2, 2] c) - qc q a (![1, 2, 2] c)) * f (b, a, ![0, 0, 1] c))) = S
    have hn : ((n + 1 : ℕ) : ℝ) ≠ 0 := by positivity
    field_simp
    ring

/-- The entries on the diagonal are the sums of the trajectory `kinetic_cv`. -/
theorem diagonal_sums (kB T : ℝ) (m : Fin N → ℝ) (hm : ∀ a, 0 < m a) (names : Fin N → String) (s : Sel) (q f : Conf n N) (t : Fin 6 → ℝ)
    (h : ktens kB T m names s q f = .ok t) (d : Fin 3) : ∑ a ∈ s.atoms names, akcv kB T q f (a, d) = t ⟨d, by omega⟩ := by
  unfold ktens at h
  cases hc : s.check N with
  | error e => rw [hc] at h; cases h
  | ok u =>
    rw [hc] at h
    cases h
    refine sum_congr rfl fun a _ => ?_
    have hma := hm a
    have hs : √(m a * m a) = m a := Real.sqrt_mul_self hma.le
    have hlt : a = a ∧ ((⟨d, by omega⟩ : Fin 6) : ℕ) < 3 := ⟨rfl, d.2⟩
    unfold kij akcv
    rw [if_pos hlt, hs]
    have v : voigt ⟨d, by omega⟩ = (d, d) := by fin_cases d <;> rfl
    rw [v]
    dsimp only
    have e : (∑ b, (m a * (q (b, a, d) - qc q a d) * f (b, a, d) + m a * (q (b, a, d) - qc q a d) * f (b, a, d)))
        = 2 * m a * ∑ b, (q (b, a, d) - qc q a d) * f (b, a, d) := by
      rw [mul_sum]; exact sum_congr rfl fun b _ => by ring
    rw [e]
    generalize (∑ b, (q (b, a, d) - qc q a d) * f (b, a, d)) = S
    have hn : ((n + 1 : ℕ) : ℝ) ≠ 0 := by positivity
    field_simp

/-- The three columns of an atom in the trajectory `r_gyration` give its radius of gyration. -/
theorem gyration_components (q : Conf n N) (a : Fin N) :
    √(∑ d, trajRg q a d ^ 2) = √((∑ b, ∑ d, (q (b, a, d) - qc q a d) ^ 2) / ((n + 1 : ℕ) : ℝ)) := by
  congr 1
  unfold trajRg
  have : ∀ d, √((∑ b, (q (b, a, d) - qc q a d) * (q (b, a, d) - qc q a d)) / ((n + 1 : ℕ) : ℝ)) ^ 2
      = (∑ b, (q (b, a, d) - qc q a d) ^ 2) / ((n + 1 : ℕ) : ℝ) := by
    intro d
    rw [Real.sq_sqrt (div_nonneg (sum_nonneg fun b _ => mul_self_nonneg _) (by positivity))]
    congr 1
    exact sum_congr rfl fun b _ => by ring
  rw [sum_congr rfl fun d _ => this d, ← sum_div, sum_comm]

/-- The property for one atom is that of its three columns. -/
theorem gyration_property (names : Fin N → String) (hn : ∀ a, names a ≠ "") (q : Conf n N) (a : Fin N) :
    rg names (.idx (a : ℕ)) q = .ok √(∑ d, trajRg q a d ^ 2) := by
  have hA : (Sel.idx (a : ℕ)).atoms names = {a} := by
    ext i
    unfold Sel.atoms Sel.takes
    simp only [mem_filter, mem_univ, true_and, Bool.or_eq_true, decide_eq_true_eq, beq_iff_eq, mem_singleton]
    constructor
    · rintro (h | h)
      · exact Fin.ext (by exact_mod_cast h.symm)
      · exact absurd h (hn i)
    · rintro rfl; exact Or.inl rfl
  have hc : (Sel.idx (a : ℕ)).check N = .ok () := if_neg (by have := a.2; push Not; exact_mod_cast this)
  unfold rg
  rw [hc, hA, gyration_components, if_neg (by simp), sum_singleton, card_singleton, Nat.cast_one, div_one]
  rfl

/-! ## Fourth order -/

/-- The Takahashi-Imada weight is the Boltzmann factor of the Takahashi-Imada potential. -/
theorem ti_consistent (kB T omegan2 : ℝ) (m : Fin N → ℝ) (names : Fin N → String) (f : Conf n N) (v : ℝ)
    (h : tiTerm omegan2 m names .all f = .ok v) : tiWeight kB T omegan2 m f = Real.exp (-v / (kB * T)) := by
  unfold tiTerm at h
  cases h
  have hA : (Sel.all).atoms names = univ := by ext i; simp [Sel.atoms, Sel.takes]
  rw [hA]
  unfold tiWeight
  dsimp only
  congr 1
  generalize (∑ a, ∑ d, ∑ b, f (b, a, d) ^ 2 / m a) = S
  have hn : ((n + 1 : ℕ) : ℝ) ≠ 0 := by positivity
  rw [neg_div, mul_neg]
  congr 1
  simp only [div_eq_mul_inv, one_mul, mul_inv]
  ring

/-- The correction is the sum over the atoms of their parts. -/
theorem ti_additive (omegan2 : ℝ) (m : Fin N → ℝ) (names : Fin N → String) (hn : ∀ a, names a ≠ "") (f : Conf n N) (v : ℝ) (w : Fin N → ℝ)
    (h : tiTerm omegan2 m names .all f = .ok v) (hw : ∀ a : Fin N, tiTerm omegan2 m names (.idx (a : ℕ)) f = .ok (w a)) : ∑ a, w a = v := by
  have hA : (Sel.all).atoms names = univ := by ext i; simp [Sel.atoms, Sel.takes]
  have h1 : ∀ a : Fin N, w a = (∑ d, ∑ b, f (b, a, d) ^ 2 / m a) * (1 / 24 / omegan2 / ((n + 1 : ℕ) : ℝ)) := by
    intro a
    have hc : (Sel.idx (a : ℕ)).check N = .ok () := if_neg (by have := a.2; push Not; exact_mod_cast this)
    have hB : (Sel.idx (a : ℕ)).atoms names = {a} := by
      ext i
      unfold Sel.atoms Sel.takes
      simp only [mem_filter, mem_univ, true_and, Bool.or_eq_true, decide_eq_true_eq, beq_iff_eq, mem_singleton]
      constructor
      · rintro (h | h)
        · exact Fin.ext (by exact_mod_cast h.symm)
        · exact absurd h (hn i)
      · rintro rfl; exact Or.inl rfl
    have := hw a
    unfold tiTerm at this
    rw [hc, hB, sum_singleton] at this
    exact (Except.ok.inj this).symm
  unfold tiTerm at h
  rw [hA] at h
  cases h
  rw [sum_congr rfl fun a _ => h1 a, ← sum_mul]

/-- The terms that remain of the fourth order potential: those with the squared force. -/
theorem sc_square_part (alpha omegan2 : ℝ) (m : Fin N → ℝ) (pots : Fin (n + 1) → ℝ) (f : Conf n N) (b : Fin (n + 1)) :
    (if (b : ℕ) % 2 = 0 then potssc alpha omegan2 m pots f b + pots b / 3 else potssc alpha omegan2 m pots f b - pots b / 3)
      = SC.coeff2 alpha omegan2 b * ∑ a, ∑ d, f (b, a, d) / m a * f (b, a, d) := by
  unfold potssc SC.coeff1
  by_cases h : (b : ℕ) % 2 = 0
  · rw [if_pos h, if_pos h]; ring
  · rw [if_neg h, if_neg h]; ring

/-- The primitive fourth order kinetic energy is the derivative with respect to the masses: with all masses scaled by `l`, the
energy of springs and fourth order potential per replica has, at `l = 1`, the derivative `3/2 N P k T - K`. -/
theorem sckinpr_mass_derivative (kB T alpha omegan2 : ℝ) (m : Fin N → ℝ) (q f : Conf n N) (pots : Fin (n + 1) → ℝ) :
    HasDerivAt (fun l : ℝ => (vspring omegan2 (fun a => l * m a) q + ∑ b, potssc alpha omegan2 (fun a => l * m a) pots f b) / ((n + 1 : ℕ) : ℝ))
      (1.5 * kB * T * ((n + 1 : ℕ) : ℝ) * (N : ℝ) - sckinpr kB T omegan2 m q pots (potssc alpha omegan2 m pots f)) 1 := by
  set A := vspring omegan2 m q with hA
  set B := ∑ b : Fin (n + 1), SC.coeff2 alpha omegan2 b * ∑ a, ∑ d, f (b, a, d) / m a * f (b, a, d) with hB
  set C := ∑ b : Fin (n + 1), SC.coeff1 b * pots b with hC
  have e : (fun l : ℝ => (vspring omegan2 (fun a => l * m a) q + ∑ b, potssc alpha omegan2 (fun a => l * m a) pots f b) / ((n + 1 : ℕ) : ℝ))
      = fun l : ℝ => (l * A + (C + l⁻¹ * B)) / ((n + 1 : ℕ) : ℝ) := by
    funext l
    have h1 : vspring omegan2 (fun a => l * m a) q = l * A := by
      rw [hA]; unfold vspring; rw [mul_sum]; exact sum_congr rfl fun a _ => by ring
    have h2 : ∑ b, potssc alpha omegan2 (fun a => l * m a) pots f b = C + l⁻¹ * B := by
      unfold potssc
      rw [sum_add_distrib, hB, mul_sum]
      congr 1
      refine sum_congr rfl fun b _ => ?_
      have : ∑ a, ∑ d, f (b, a, d) / (l * m a) * f (b, a, d) = l⁻¹ * ∑ a, ∑ d, f (b, a, d) / m a * f (b, a, d) := by
        rw [mul_sum]; refine sum_congr rfl fun a _ => ?_
        rw [mul_sum]; exact sum_congr rfl fun d _ => by rw [div_eq_mul_inv, mul_inv, div_eq_mul_inv]; ring
      rw [this]; ring
    rw [h1, h2]
  have hd : HasDerivAt (fun l : ℝ => (l * A + (C + l⁻¹ * B)) / ((n + 1 : ℕ) : ℝ)) ((1 * A + (0 + -(1 ^ 2)⁻¹ * B)) / ((n + 1 : ℕ) : ℝ)) 1 := by
    have hi : HasDerivAt (fun l : ℝ => l⁻¹) (-(1 ^ 2)⁻¹) 1 := hasDerivAt_inv one_ne_zero
    exact ((((hasDerivAt_id (1 : ℝ)).mul_const A).add ((hasDerivAt_const (1 : ℝ) C).add (hi.mul_const B))).div_const _)
  rw [e]
  refine hd.congr_deriv ?_
  unfold sckinpr
  rw [sum_congr rfl fun b _ => sc_square_part alpha omegan2 m pots f b, ← hA, ← hB]
  ring

/-- The operator estimator uses the even replicas; with free particles it is the classical value, for every selection. -/
theorem sckinop_free (kB T : ℝ) (names : Fin N → String) (s : Sel) (q : Conf n N) (v : ℝ) (h : sckinop kB T names s q (fun _ => 0) = .ok v) :
    v = (s.atoms names).card * (1.5 * kB * T) := by
  unfold sckinop at h
  cases hc : s.check N with
  | error e => rw [hc] at h; cases h
  | ok u =>
    rw [hc] at h
    cases h
    simp

/-- Moving all replicas together changes nothing. -/
theorem sckinop_translation (kB T : ℝ) (names : Fin N → String) (s : Sel) (q f : Conf n N) (u : Fin 3 → ℝ) :
    sckinop kB T names s (fun x => q x + u x.2.2) f = sckinop kB T names s q f := by
  have hqc : ∀ a d, qc (fun x => q x + u x.2.2) a d = qc q a d + u d := by
    intro a d
    unfold qc
    simp only [sum_add_distrib, sum_const, card_univ, Fintype.card_fin, nsmul_eq_mul, add_div]
    congr 1
    field_simp
  unfold sckinop
  simp only [hqc, add_sub_add_right_eq_sub]

theorem card_even (k : ℕ) : ∑ b : Fin (2 * k), (if (b : ℕ) % 2 = 0 then (1 : ℝ) else 0) = k := by
  rw [Fin.sum_univ_eq_sum_range (fun i => if i % 2 = 0 then (1 : ℝ) else 0)]
  induction k with
  | zero => simp
  | succ k ih =>
    rw [show 2 * (k + 1) = 2 * k + 1 + 1 by ring, sum_range_succ, sum_range_succ, ih, if_pos (by omega), if_neg (by omega)]
    push_cast
    ring

/-- With an even number of replicas the operator estimator is, for every atom, the classical value and half the mean
over the even replicas of the virial relative to the centroid. -/
theorem sckinop_even (kB T : ℝ) (names : Fin N → String) (s : Sel) (q f : Conf n N) (v : ℝ) (k : ℕ) (hk : n + 1 = 2 * k)
    (h : sckinop kB T names s q f = .ok v) :
    v = ∑ a ∈ s.atoms names, (3 / 2 * kB * T - 1 / 2 *
      ((∑ b ∈ univ.filter (fun b : Fin (n + 1) => (b : ℕ) % 2 = 0), ∑ d, (q (b, a, d) - qc q a d) * f (b, a, d))
        / ∑ b ∈ univ.filter (fun b : Fin (n + 1) => (b : ℕ) % 2 = 0), 1)) := by
  unfold sckinop at h
  cases hc : s.check N with
  | error e => rw [hc] at h; cases h
  | ok u =>
    rw [hc] at h
    cases h
    have h2 : ∑ b : Fin (n + 1), (if (b : ℕ) % 2 = 0 then (1 : ℝ) else 0) = k := by rw [hk]; exact card_even k
    have hk0 : (k : ℝ) ≠ 0 := by
      have : k ≠ 0 := by omega
      exact_mod_cast this
    refine sum_congr rfl fun a _ => ?_
    rw [sum_filter, sum_filter, h2]
    generalize (∑ b : Fin (n + 1), if (b : ℕ) % 2 = 0 then ∑ d, (q (b, a, d) - qc q a d) * f (b, a, d) else 0) = S
    have hc : ((n + 1 : ℕ) : ℝ) = 2 * k := by exact_mod_cast hk
    rw [hc]
    field_simp
    ring

/-- Without fourth order terms the primitive estimator is the thermodynamic one, which has the same springs. -/
theorem sckinpr_primitive (kB T omegan2 : ℝ) (m : Fin N → ℝ) (q : Conf n N) :
    sckinpr kB T omegan2 m q (fun _ => 0) (fun _ => 0)
      = ∑ a, (springs q a * (-0.5 * m a * omegan2 / ((n + 1 : ℕ) : ℝ)) + 1.5 * kB * T * ((n + 1 : ℕ) : ℝ)) := by
  unfold sckinpr vspring
  simp only [zero_div, add_zero, sub_zero, ite_self, sum_const_zero, sum_add_distrib, sum_const, card_univ, Fintype.card_fin,
    nsmul_eq_mul, sum_div]
  rw [sub_eq_add_neg, ← sum_neg_distrib, add_comm]
  congr 1
  · exact sum_congr rfl fun a _ => by ring
  · ring

/-! ## Velocity of the centre of mass -/

/-- The velocities of the species, weighted with their masses, give that of the system: for two species. -/
theorem vcom_species (m : Fin N → ℝ) (hm : ∀ a, 0 < m a) (names : Fin N → String) (A B : String) (hAB : A ≠ B) (h : ∀ a, names a = A ∨ names a = B)
    (hA0 : A ≠ "") (hB0 : B ≠ "") (pc : Fin N → Fin 3 → ℝ) (v va vb : Fin 3 → ℝ) (hv : vcom m names "" none pc = .ok (some v))
    (hva : vcom m names A none pc = .ok (some va)) (hvb : vcom m names B none pc = .ok (some vb)) (d : Fin 3) :
    (∑ a, m a) * v d = (∑ a with names a = A, m a) * va d + (∑ a with names a = B, m a) * vb d := by
  have get : ∀ (L : String) (w : Fin 3 → ℝ), vcom m names L none pc = .ok (some w) →
      (∑ a with (L = "" ∨ L = names a), m a) * w d = ∑ a with (L = "" ∨ L = names a), pc a d := by
    intro L w hw
    unfold vcom at hw
    dsimp only at hw
    by_cases hE : (univ.filter fun a => L = "" ∨ L = names a) = ∅
    · rw [if_pos hE] at hw; injection hw with hw; cases hw
    · rw [if_neg hE] at hw
      injection hw with hw
      injection hw with hw
      rw [← hw]
      have : 0 < ∑ a with (L = "" ∨ L = names a), m a := sum_pos (fun a _ => hm a) (nonempty_iff_ne_empty.mpr hE)
      rw [mul_div_cancel₀ _ this.ne']
  have fa : (univ.filter fun a => A = "" ∨ A = names a) = univ.filter fun a => names a = A := by
    ext a; simp [hA0, eq_comm]
  have fb : (univ.filter fun a => B = "" ∨ B = names a) = univ.filter fun a => names a = B := by
    ext a; simp [hB0, eq_comm]
  have f0 : (univ.filter fun a => "" = "" ∨ "" = names a) = univ := by ext a; simp
  have e0 := get "" v hv
  have ea := get A va hva
  have eb := get B vb hvb
  rw [f0] at e0
  rw [fa] at ea
  rw [fb] at eb
  have split : ∀ g : Fin N → ℝ, ∑ a, g a = ∑ a with names a = A, g a + ∑ a with names a = B, g a := by
    intro g
    rw [← sum_filter_add_sum_filter_not univ (fun a => names a = A)]
    congr 1
    refine sum_congr ?_ fun _ _ => rfl
    ext a
    simp only [mem_filter, mem_univ, true_and]
    constructor
    · intro hn; exact (h a).resolve_left hn
    · intro hb ha; exact hAB (ha.symm.trans hb)
  rw [e0, ea, eb, split fun a => pc a d]

/-- A replica cannot be asked for, although the manual says so. -/
theorem vcom_bead_refused (m : Fin N → ℝ) (names : Fin N → String) (l bead : String) (pc : Fin N → Fin 3 → ℝ) :
    vcom m names l (some bead) pc = .error () := rfl

/-! ## The virial with a reference -/

/-- The first output: half the product of force and displacement from the reference, averaged over the replicas. -/
theorem virial_first (ref : Fin N → Fin 3 → ℝ) (q f : Conf n N) : (fqvirial (some ref) q f none).1
    = (∑ b, (∑ a, ∑ d, f (b, a, d) * (q (b, a, d) - ref a d)) / 2) / ((n + 1 : ℕ) : ℝ) := by
  unfold fqvirial
  simp only [Option.getD_none, Option.getD_some]
  rw [← sum_div]; ring

/-- For a harmonic potential around the reference it is minus its energy. -/
theorem virial_harmonic (k : Fin N → Fin 3 → ℝ) (ref : Fin N → Fin 3 → ℝ) (q : Conf n N) :
    (fqvirial (some ref) q (fun x => -k x.2.1 x.2.2 * (q x - ref x.2.1 x.2.2)) none).1
      = -(∑ b, ∑ a, ∑ d, k a d / 2 * (q (b, a, d) - ref a d) ^ 2) / ((n + 1 : ℕ) : ℝ) := by
  rw [virial_first]
  congr 1
  rw [← sum_neg_distrib]
  refine sum_congr rfl fun b _ => ?_
  dsimp only
  rw [sum_div, ← sum_neg_distrib]
  refine sum_congr rfl fun a _ => ?_
  rw [sum_div, ← sum_neg_distrib]
  exact sum_congr rfl fun d _ => by ring

/-- Later outputs do not look at the reference that is given: with two outputs with different references, both use that of
the one that was computed first. -/
theorem reference_ignored (ref ref' : Option (Fin N → Fin 3 → ℝ)) (q f q' f' : Conf n N) (kept : Option (Fin N → Fin 3 → ℝ)) :
    fqvirial ref' q' f' (fqvirial ref q f kept).2 = fqvirial ref q' f' (fqvirial ref q f kept).2 := rfl

/-- This is visible: one atom at the origin with a force. -/
theorem reference_matters : ∃ (ref ref' : Fin 1 → Fin 3 → ℝ) (q f : Conf 0 1),
    (fqvirial (some ref') q f (fqvirial (some ref) q f none).2).1 ≠ (fqvirial (some ref') q f none).1 := by
  refine ⟨fun _ _ => 0, fun _ _ => 1, fun _ => 0, fun _ => 1, ?_⟩
  unfold fqvirial
  simp only [Option.getD_none, Option.getD_some]
  norm_num [Fin.sum_univ_succ]

/-- The hypotheses above can be met. -/
example : ∃ v, vcom (N := 2) (fun _ => 1) (fun i => if i = 0 then "O" else "H") "H" none (fun _ _ => 3) = .ok (some v) := by
  unfold vcom
  dsimp only
  rw [if_neg (nonempty_iff_ne_empty.mp ⟨1, by simp⟩)]
  exact ⟨_, rfl⟩

end

end Verif.Estim
