import Mathlib.Analysis.Calculus.FDeriv.Basic
import Mathlib.Analysis.Calculus.FDeriv.Prod
import Mathlib.Analysis.Calculus.FDeriv.Linear
import Mathlib.Analysis.Calculus.Deriv.Comp
import Mathlib.Analysis.Calculus.Deriv.Inv
import Mathlib.Analysis.Calculus.Deriv.Pow
import Mathlib.Analysis.Calculus.Deriv.Prod
import Mathlib.Analysis.SpecialFunctions.Pow.Deriv
import Mathlib.Algebra.BigOperators.Field
import Mathlib.Tactic.Linarith
import Mathlib.Tactic.LinearCombination
import Mathlib.Tactic.FieldSimp
import Mathlib.Tactic.FinCases
import Verif.Phys.Stress

/-!
# C119: the printed stress and pressure are derivatives of the energy

The pressure is minus the derivative of the energy with respect to the volume.  For a ring polymer the energy per bead is
the mean of the potentials of the beads plus the kinetic energy of the centroids; when the volume changes the centroids are
scaled with the cell while the shape of every ring polymer stays (so do the springs), and the momenta of the centroids are
scaled inversely.
-/

namespace Verif.Estim

open Finset

variable {n N : ℕ}

/-- The cell and the positions of the atoms of one bead. -/
abbrev CellPos (N : ℕ) := (Fin 3 → Fin 3 → ℝ) × (Fin N × Fin 3 → ℝ)

/-- The positions of one bead. -/
def beadPos (q : Conf n N) (b : Fin (n + 1)) : Fin N × Fin 3 → ℝ := fun x => q (b, x.1, x.2)

/-- A strain that adds `s` times coordinate `i` to coordinate `j`: its direction. -/
def shear (i j : Fin 3) (x : CellPos N) : CellPos N :=
  (fun k l => if k = j then x.1 i l else 0, fun y => if y.2 = j then x.2 (y.1, i) else 0)

/-- What the forces and virials of the beads have to be: the derivatives of the potentials `U b` with respect to the positions
and to the strains, `L b` being the derivative of `U b` at the cell `h` and the positions of the bead. -/
structure Exact (U : Fin (n + 1) → CellPos N → ℝ) (h : Fin 3 → Fin 3 → ℝ) (q f : Conf n N) (v : Virs n)
    (L : Fin (n + 1) → CellPos N →L[ℝ] ℝ) : Prop where
  deriv : ∀ b, HasFDerivAt (U b) (L b) (h, beadPos q b)
  force : ∀ b a i, f (b, a, i) = - L b (0, Pi.single (a, i) 1)
  virial : ∀ b i j, i ≤ j → v b i j = - L b (shear i j (h, beadPos q b))

/-- The displacements from the centroids. -/
noncomputable def disp (q : Conf n N) (b : Fin (n + 1)) : Fin N × Fin 3 → ℝ := fun x => q (b, x.1, x.2) - qc q x.1 x.2

theorem lin_disp {U : Fin (n + 1) → CellPos N → ℝ} {h : Fin 3 → Fin 3 → ℝ} {q f : Conf n N} {v : Virs n}
    {L : Fin (n + 1) → CellPos N →L[ℝ] ℝ} (E : Exact U h q f v L) (b : Fin (n + 1)) (x : Fin N × Fin 3 → ℝ) :
    L b (0, x) = - ∑ a, ∑ i, x (a, i) * f (b, a, i) := by
  have e : ((0, x) : CellPos N) = ∑ y : Fin N × Fin 3, x y • ((0, Pi.single y 1) : CellPos N) := by
    ext
    · simp [Prod.fst_sum]
    · rename_i y
      simp only [Prod.snd_sum, Prod.smul_mk, Finset.sum_apply, Pi.smul_apply, smul_eq_mul, Pi.single_apply, mul_ite, mul_one, mul_zero]
      rw [Finset.sum_ite_eq]; simp
  rw [e, map_sum, Fintype.sum_prod_type, ← sum_neg_distrib]
  refine sum_congr rfl fun a _ => ?_
  rw [← sum_neg_distrib]
  refine sum_congr rfl fun i _ => ?_
  rw [map_smul, smul_eq_mul, E.force]; ring

theorem shear_sum (x : CellPos N) : ∑ i, shear i i x = x := by
  ext k
  · rename_i l
    simp [shear, Prod.fst_sum, Finset.sum_apply]
  · simp [shear, Prod.snd_sum, Finset.sum_apply]

theorem tr_vir (v : Virs n) : tr (vir v) = ∑ b, ∑ i, v b i i := by
  unfold tr vir
  rw [sum_comm]
  simp [upper]

theorem kin_deriv (p M : ℝ) : HasDerivAt (fun s : ℝ => (p / s) ^ 2 / (2 * M)) (-(p * (p / M))) 1 := by
  have h3 := ((((hasDerivAt_inv (one_ne_zero (α := ℝ))).const_mul p).fun_pow 2).div_const (2 * M))
  have e : (fun s : ℝ => (p / s) ^ 2 / (2 * M)) = fun s => (p * s⁻¹) ^ 2 / (2 * M) := by
    funext s; rw [div_eq_mul_inv p s]
  rw [e]
  refine h3.congr_deriv ?_
  by_cases hm : M = 0
  · simp [hm]
  · norm_num
    field_simp

/-- The energy per bead as a function of the scale `s` of the cell. -/
noncomputable def scaledEnergy (U : Fin (n + 1) → CellPos N → ℝ) (h : Fin 3 → Fin 3 → ℝ) (q : Conf n N) (m : Fin N → ℝ)
    (pc : Fin N × Fin 3 → ℝ) (s : ℝ) : ℝ :=
  (∑ b, U b (fun k l => s * h k l, fun x => s * qc q x.1 x.2 + disp q b x)) / ((n + 1 : ℕ) : ℝ)
    + ∑ a, ∑ i, (pc (a, i) / s) ^ 2 / (2 * m a)

/-- **The derivative of the energy with respect to the scale of the cell** is minus three volumes times the printed
pressure. -/
theorem pressure_cv_scale {U : Fin (n + 1) → CellPos N → ℝ} {h : Fin 3 → Fin 3 → ℝ} {q f : Conf n N} {v : Virs n}
    {L : Fin (n + 1) → CellPos N →L[ℝ] ℝ} (E : Exact U h q f v L) (m : Fin N → ℝ) (pc : Fin N × Fin 3 → ℝ)
    (V : ℝ) (hV : V ≠ 0) :
    HasDerivAt (scaledEnergy U h q m pc) (-(3 * V * pressureCv V m v q f pc)) 1 := by
  have hn : ((n + 1 : ℕ) : ℝ) ≠ 0 := by positivity
  have h1 : ∀ b, HasDerivAt (fun s : ℝ => U b (fun k l => s * h k l, fun x => s * qc q x.1 x.2 + disp q b x))
      (-(∑ i, v b i i) + ∑ a, ∑ i, disp q b (a, i) * f (b, a, i)) 1 := by
    intro b
    have hc : HasDerivAt (fun s : ℝ => ((fun k l => s * h k l, fun x => s * qc q x.1 x.2 + disp q b x) : CellPos N))
        ((h, fun x => qc q x.1 x.2) : CellPos N) 1 := by
      refine HasDerivAt.prodMk ?_ ?_
      · refine hasDerivAt_pi.2 fun k => hasDerivAt_pi.2 fun l => ?_
        simpa using (hasDerivAt_id (1 : ℝ)).mul_const (h k l)
      · refine hasDerivAt_pi.2 fun x => ?_
        simpa using ((hasDerivAt_id (1 : ℝ)).mul_const (qc q x.1 x.2)).add_const (disp q b x)
    have hp : ((fun k l => 1 * h k l, fun x => 1 * qc q x.1 x.2 + disp q b x) : CellPos N) = (h, beadPos q b) := by
      ext <;> simp [disp, beadPos]
    have hd := E.deriv b
    rw [← hp] at hd
    refine (hd.comp_hasDerivAt (1 : ℝ) hc).congr_deriv ?_
    have e : ((h, fun x => qc q x.1 x.2) : CellPos N) = (∑ i, shear i i (h, beadPos q b)) - (0, disp q b) := by
      rw [shear_sum]
      ext <;> simp [disp, beadPos]
    rw [e, map_sub, map_sum, lin_disp E]
    have : ∀ i, L b (shear i i (h, beadPos q b)) = - v b i i := fun i => by rw [E.virial b i i le_rfl, neg_neg]
    simp only [this, sum_neg_distrib]
    ring
  have h2 : HasDerivAt (fun s : ℝ => ∑ a, ∑ i, (pc (a, i) / s) ^ 2 / (2 * m a)) (-∑ i, ∑ a, pc (a, i) * (pc (a, i) / m a)) 1 := by
    rw [sum_comm, ← sum_neg_distrib]
    refine HasDerivAt.fun_sum fun a _ => ?_
    rw [← sum_neg_distrib]
    refine HasDerivAt.fun_sum fun i _ => ?_
    exact kin_deriv _ _
  refine (((HasDerivAt.fun_sum fun b _ => h1 b).div_const _).fun_add h2).congr_deriv ?_
  unfold pressureCv
  have e1 : tr (fun i j => vir v i j + kstressCv m q f pc i j) = ∑ b, ∑ i, v b i i - ∑ b, ∑ a, ∑ i, disp q b (a, i) * f (b, a, i)
      + ((n + 1 : ℕ) : ℝ) * ∑ i, ∑ a, pc (a, i) * (pc (a, i) / m a) := by
    rw [← tr_vir]
    unfold tr kstressCv
    simp only [le_refl, if_true, sum_add_distrib, sum_neg_distrib, ← mul_sum]
    have : ∑ i : Fin 3, ∑ b, ∑ a, (q (b, a, i) - qc q a i) * f (b, a, i) = ∑ b, ∑ a, ∑ i, disp q b (a, i) * f (b, a, i) := by
      rw [sum_comm]
      refine sum_congr rfl fun b _ => ?_
      rw [sum_comm]
      rfl
    rw [this]; ring
  rw [e1, sum_add_distrib, sum_neg_distrib]
  generalize ∑ b, ∑ i, v b i i = A
  generalize ∑ b, ∑ a, ∑ i, disp q b (a, i) * f (b, a, i) = B
  generalize ∑ i, ∑ a, pc (a, i) * (pc (a, i) / m a) = C
  field_simp
  ring

/-- **The printed pressure is minus the derivative of the energy with respect to the volume**: the scale is the third root
of the ratio of the volumes. -/
theorem pressure_cv_volume {U : Fin (n + 1) → CellPos N → ℝ} {h : Fin 3 → Fin 3 → ℝ} {q f : Conf n N} {v : Virs n}
    {L : Fin (n + 1) → CellPos N →L[ℝ] ℝ} (E : Exact U h q f v L) (m : Fin N → ℝ) (pc : Fin N × Fin 3 → ℝ)
    (V : ℝ) (hV : 0 < V) :
    HasDerivAt (fun vol : ℝ => scaledEnergy U h q m pc ((vol / V) ^ (1 / 3 : ℝ))) (-pressureCv V m v q f pc) V := by
  have h1 : HasDerivAt (fun vol : ℝ => (vol / V) ^ (1 / 3 : ℝ)) (1 / (3 * V)) V := by
    have h2 : HasDerivAt (fun vol : ℝ => vol / V) (1 / V) V := (hasDerivAt_id V).div_const V
    have h3 := h2.rpow_const (p := 1 / 3) (Or.inl (by rw [div_self hV.ne']; exact one_ne_zero))
    refine h3.congr_deriv ?_
    rw [div_self hV.ne', Real.one_rpow]
    field_simp
  have h4 := pressure_cv_scale E m pc V hV.ne'
  have h5 : (V / V) ^ (1 / 3 : ℝ) = 1 := by rw [div_self hV.ne', Real.one_rpow]
  rw [← h5] at h4
  refine (h4.comp V h1).congr_deriv ?_
  field_simp

/-- An ideal gas: no potential. -/
theorem exact_zero (h : Fin 3 → Fin 3 → ℝ) (q : Conf n N) :
    Exact (fun _ _ => 0) h q (fun _ => 0) (fun _ _ _ => 0) (fun _ => 0) where
  deriv _ := hasFDerivAt_const _ _
  force _ _ _ := by simp
  virial _ _ _ _ := by simp

/-- A linear potential. -/
theorem exact_linear (h : Fin 3 → Fin 3 → ℝ) (q : Conf n N) (l : CellPos N →L[ℝ] ℝ) :
    Exact (fun _ => l) h q (fun x => - l (0, Pi.single (x.2.1, x.2.2) 1)) (fun b i j => - l (shear i j (h, beadPos q b))) (fun _ => l) where
  deriv _ := l.hasFDerivAt
  force _ _ _ := rfl
  virial _ _ _ _ := rfl

example := pressure_cv_volume (n := 3) (N := 2) (exact_linear (fun i j => if i = j then 2 else 0) (fun x => x.1)
  (ContinuousLinearMap.fst ℝ _ _ |>.comp (ContinuousLinearMap.id ℝ _) |> fun g => (ContinuousLinearMap.proj (R := ℝ) (0 : Fin 3)).comp
    ((ContinuousLinearMap.proj (R := ℝ) (φ := fun _ : Fin 3 => Fin 3 → ℝ) 0).comp g))) (fun _ => 1) (fun _ => 1) 8 (by norm_num)

/-- **The Suzuki-Chin pressure** is likewise minus the derivative with respect to the volume, of the energy with the potentials
of the factorisation. -/
theorem pressure_tdsc_volume {U Usc : Fin (n + 1) → CellPos N → ℝ} {h : Fin 3 → Fin 3 → ℝ} {q f fsc : Conf n N} {v vsc : Virs n}
    {L Lsc : Fin (n + 1) → CellPos N →L[ℝ] ℝ} (E : Exact U h q f v L) (Esc : Exact Usc h q fsc vsc Lsc) (m : Fin N → ℝ)
    (pc : Fin N × Fin 3 → ℝ) (V : ℝ) (hV : 0 < V) :
    HasDerivAt (fun vol : ℝ => scaledEnergy (fun b x => U b x + Usc b x) h q m pc ((vol / V) ^ (1 / 3 : ℝ)))
      (-pressureTdsc V m v vsc q f fsc pc) V := by
  have E' : Exact (fun b x => U b x + Usc b x) h q (fun x => f x + fsc x) (fun b i j => v b i j + vsc b i j) (fun b => L b + Lsc b) := by
    constructor
    · intro b; exact (E.deriv b).add (Esc.deriv b)
    · intro b a i
      rw [E.force, Esc.force, ContinuousLinearMap.add_apply]; ring
    · intro b i j hij
      rw [E.virial b i j hij, Esc.virial b i j hij, ContinuousLinearMap.add_apply]; ring
  refine (pressure_cv_volume E' m pc V hV).congr_deriv ?_
  congr 1
  unfold pressureCv pressureTdsc
  congr 2
  funext i j
  congr 1
  unfold vir
  rw [← sum_add_distrib]
  refine sum_congr rfl fun b _ => ?_
  unfold upper
  split <;> ring

example := pressure_tdsc_volume (n := 3) (N := 2) (exact_zero (fun i j => if i = j then 2 else 0) (fun x => x.1))
  (exact_zero (fun i j => if i = j then 2 else 0) (fun x => x.1)) (fun _ => 1) (fun _ => 1) 8 (by norm_num)

/-- The energy per bead under a strain that adds `s` times coordinate `i` of cell and centroids to coordinate `j`; the
momenta are transformed inversely. -/
noncomputable def strainedEnergy (U : Fin (n + 1) → CellPos N → ℝ) (h : Fin 3 → Fin 3 → ℝ) (q : Conf n N) (m : Fin N → ℝ)
    (pc : Fin N × Fin 3 → ℝ) (i j : Fin 3) (s : ℝ) : ℝ :=
  (∑ b, U b (fun k l => h k l + s * (if k = j then h i l else 0),
      fun x => q (b, x.1, x.2) + s * (if x.2 = j then qc q x.1 i else 0))) / ((n + 1 : ℕ) : ℝ)
    + ∑ a, ∑ k, (pc (a, k) - s * (if k = i then pc (a, j) else 0)) ^ 2 / (2 * m a)

/-- **What the entries of the printed stress are**: minus the derivative of the energy with respect to the strain, per volume,
except that entries off the diagonal lack the momenta. -/
theorem stress_cv_strain {U : Fin (n + 1) → CellPos N → ℝ} {h : Fin 3 → Fin 3 → ℝ} {q f : Conf n N} {v : Virs n}
    {L : Fin (n + 1) → CellPos N →L[ℝ] ℝ} (E : Exact U h q f v L) (m : Fin N → ℝ) (pc : Fin N × Fin 3 → ℝ)
    (V : ℝ) (hV : V ≠ 0) (c : Fin 6) :
    HasDerivAt (strainedEnergy U h q m pc (voigt c).1 (voigt c).2)
      (-(V * (stressCv V m v q f pc c
        + if (voigt c).1 = (voigt c).2 then 0 else (∑ a, pc (a, (voigt c).1) * (pc (a, (voigt c).2) / m a)) / V))) 0 := by
  have hij : (voigt c).1 ≤ (voigt c).2 := by fin_cases c <;> simp [voigt]
  unfold stressCv tensor2vec
  generalize (voigt c).1 = i at hij
  generalize (voigt c).2 = j at hij
  have hn : ((n + 1 : ℕ) : ℝ) ≠ 0 := by positivity
  have h1 : ∀ b, HasDerivAt (fun s : ℝ => U b (fun k l => h k l + s * (if k = j then h i l else 0),
      fun x => q (b, x.1, x.2) + s * (if x.2 = j then qc q x.1 i else 0)))
      (- v b i j + ∑ a, disp q b (a, i) * f (b, a, j)) 0 := by
    intro b
    have hc : HasDerivAt (fun s : ℝ => ((fun k l => h k l + s * (if k = j then h i l else 0),
      fun x => q (b, x.1, x.2) + s * (if x.2 = j then qc q x.1 i else 0)) : CellPos N))
        ((fun k l => if k = j then h i l else 0, fun x => if x.2 = j then qc q x.1 i else 0) : CellPos N) 0 := by
      refine HasDerivAt.prodMk ?_ ?_
      · refine hasDerivAt_pi.2 fun k => hasDerivAt_pi.2 fun l => ?_
        simpa using ((hasDerivAt_id (0 : ℝ)).mul_const (if k = j then h i l else 0)).const_add (h k l)
      · refine hasDerivAt_pi.2 fun x => ?_
        simpa using ((hasDerivAt_id (0 : ℝ)).mul_const (if x.2 = j then qc q x.1 i else 0)).const_add (q (b, x.1, x.2))
    have hp : ((fun k l => h k l + 0 * (if k = j then h i l else 0),
      fun x => q (b, x.1, x.2) + 0 * (if x.2 = j then qc q x.1 i else 0)) : CellPos N) = (h, beadPos q b) := by
      ext <;> simp [beadPos]
    have hd := E.deriv b
    rw [← hp] at hd
    refine (hd.comp_hasDerivAt (0 : ℝ) hc).congr_deriv ?_
    have e : ((fun k l => if k = j then h i l else 0, fun x => if x.2 = j then qc q x.1 i else 0) : CellPos N)
        = shear i j (h, beadPos q b) - (0, fun x => if x.2 = j then disp q b (x.1, i) else 0) := by
      ext k
      · simp [shear]
      · by_cases hk : k.2 = j <;> simp [shear, disp, beadPos, hk]
    rw [e, map_sub, lin_disp E, ← neg_eq_iff_eq_neg.2 (E.virial b i j hij)]
    have : ∑ a, ∑ k, (if k = j then disp q b (a, i) else 0) * f (b, a, k) = ∑ a, disp q b (a, i) * f (b, a, j) := by
      refine sum_congr rfl fun a _ => ?_
      simp
    dsimp only
    rw [this]; ring
  have h2 : HasDerivAt (fun s : ℝ => ∑ a, ∑ k, (pc (a, k) - s * (if k = i then pc (a, j) else 0)) ^ 2 / (2 * m a))
      (-∑ a, pc (a, i) * (pc (a, j) / m a)) 0 := by
    rw [← sum_neg_distrib]
    refine HasDerivAt.fun_sum fun a _ => ?_
    have h3 : ∀ k, HasDerivAt (fun s : ℝ => (pc (a, k) - s * (if k = i then pc (a, j) else 0)) ^ 2 / (2 * m a))
        (if k = i then - (pc (a, i) * (pc (a, j) / m a)) else 0) 0 := by
      intro k
      have h4 := (((((hasDerivAt_id (0 : ℝ)).mul_const (if k = i then pc (a, j) else 0)).const_sub (pc (a, k))).fun_pow 2).div_const (2 * m a))
      refine h4.congr_deriv ?_
      by_cases hk : k = i
      · subst hk
        simp only [if_true, id, zero_mul, sub_zero, one_mul]
        by_cases hm : m a = 0
        · simp [hm]
        · norm_num
          field_simp
      · simp [hk]
    refine (HasDerivAt.fun_sum fun k _ => h3 k).congr_deriv ?_
    simp
  refine (((HasDerivAt.fun_sum fun b _ => h1 b).div_const _).fun_add h2).congr_deriv ?_
  have e1 : vir v i j = ∑ b, v b i j := by
    unfold vir upper
    simp [not_lt.2 hij]
  dsimp only
  rw [e1, sum_add_distrib, sum_neg_distrib]
  unfold kstressCv
  rw [if_pos hij]
  have e2 : ∑ b, ∑ a, disp q b (a, i) * f (b, a, j) = ∑ b, ∑ a, (q (b, a, i) - qc q a i) * f (b, a, j) := rfl
  rw [e2]
  generalize ∑ b, ∑ a, (q (b, a, i) - qc q a i) * f (b, a, j) = B
  generalize ∑ b, v b i j = A
  by_cases hij' : i = j
  · subst hij'
    simp only [if_true]
    generalize ∑ a, pc (a, i) * (pc (a, i) / m a) = C
    field_simp
    ring
  · simp only [hij', if_false]
    generalize ∑ a, pc (a, i) * (pc (a, j) / m a) = C
    field_simp
    ring

example := stress_cv_strain (n := 3) (N := 2) (exact_zero (fun i j => if i = j then 2 else 0) (fun x => x.1))
  (fun _ => 1) (fun _ => 1) 8 (by norm_num) 3

/-- **Violation.**  The stress of the quantum estimator lacks the momenta off the diagonal: for one bead, where both describe
the same system, it differs from the classical stress. -/
theorem stress_cv_not_classical :
    ∃ (m : Fin 1 → ℝ) (v : Virs 0) (q f p : Conf 0 1),
      stressCv 1 m v q f (fun x => p (0, x.1, x.2)) 3 ≠ stressMd 1 m (fun _ => 1) v p 3 := by
  refine ⟨fun _ => 1, fun _ _ _ => 0, fun _ => 0, fun _ => 0, fun _ => 1, ?_⟩
  simp [stressCv, stressMd, tensor2vec, kstressCv, kstressMd, vir, upper, voigt, qc]

/-- For one bead the diagonal entries, and with them the pressure, agree. -/
theorem one_bead_pressure (V : ℝ) (m : Fin N → ℝ) (hm : ∀ a, 0 < m a) (v : Virs 0) (q f p : Conf 0 N) :
    pressureCv V m v q f (fun x => p (0, x.1, x.2)) = pressureMd V m (fun _ => 1) v p ∧
    ∀ c : Fin 6, c.1 < 3 → stressCv V m v q f (fun x => p (0, x.1, x.2)) c = stressMd V m (fun _ => 1) v p c := by
  have hk : ∀ i, kstressCv m q f (fun x => p (0, x.1, x.2)) i i = kstressMd m (fun _ => 1) p i i := by
    intro i
    unfold kstressCv kstressMd qc
    simp only [le_refl, if_true, Fin.sum_univ_succ (n := 0), Fin.sum_univ_zero, univ_eq_empty, sum_empty, add_zero, Nat.cast_one, Nat.cast_zero, zero_add, div_one,
      sub_self, zero_mul, sum_const_zero, neg_zero, one_mul, Real.sqrt_one]
    refine sum_congr rfl fun a _ => ?_
    rw [div_mul_div_comm, Real.mul_self_sqrt (hm a).le, mul_div_assoc]
  refine ⟨?_, ?_⟩
  · unfold pressureCv pressureMd tr
    simp only [hk, Nat.cast_one, Nat.cast_zero, zero_add, mul_one, ← Finset.sum_div]
  · intro c hc
    have : (voigt c).1 = (voigt c).2 := by fin_cases c <;> first | rfl | (exfalso; revert hc; decide)
    unfold stressCv stressMd tensor2vec
    rw [← this]
    dsimp only
    rw [hk]
    simp

example := one_bead_pressure (N := 2) 8 (fun _ => 1) (fun _ => one_pos) (fun _ _ _ => 1) (fun _ => 0) (fun _ => 0) (fun _ => 1)

/-- The printed pressures are a third of the trace of the printed stresses, and the printed stress is the sum of the printed
virial and kinetic stress. -/
theorem pressure_trace (V : ℝ) (m : Fin N → ℝ) (factor : Fin (n + 1) → ℝ) (v : Virs n) (q f pnm : Conf n N) (pc : Fin N × Fin 3 → ℝ) :
    pressureMd V m factor v pnm = (stressMd V m factor v pnm 0 + stressMd V m factor v pnm 1 + stressMd V m factor v pnm 2) / 3 ∧
    pressureCv V m v q f pc = (stressCv V m v q f pc 0 + stressCv V m v q f pc 1 + stressCv V m v q f pc 2) / 3 ∧
    ∀ c, stressCv V m v q f pc c = virialCv V v c + kstressCvOut V m q f pc c := by
  refine ⟨?_, ?_, ?_⟩
  · simp only [pressureMd, stressMd, tr, tensor2vec, Fin.sum_univ_three]
    simp only [voigt, Matrix.cons_val_zero, Matrix.cons_val_one, Matrix.cons_val, mul_comm (3 : ℝ) V, ← div_div]
    ring
  · simp only [pressureCv, stressCv, tr, tensor2vec, Fin.sum_univ_three]
    simp only [voigt, Matrix.cons_val_zero, Matrix.cons_val_one, Matrix.cons_val, mul_assoc, mul_comm (3 : ℝ), ← div_div]
    ring
  · intro c
    simp only [stressCv, virialCv, kstressCvOut, tensor2vec, add_div]

example := pressure_trace (n := 3) (N := 2) 8 (fun _ => 1) (fun _ => 1) (fun _ _ _ => 1) (fun x => x.1) (fun x => x.1) (fun _ => 1) (fun _ => 1)

/-- The energy of the extended system without its springs, as a function of the scale of the cell: all beads are scaled, and
all momenta inversely; the masses of the modes are the dynamical ones. -/
noncomputable def extendedEnergy (U : Fin (n + 1) → CellPos N → ℝ) (h : Fin 3 → Fin 3 → ℝ) (q : Conf n N) (m : Fin N → ℝ)
    (factor : Fin (n + 1) → ℝ) (pnm : Conf n N) (s : ℝ) : ℝ :=
  ∑ b, U b (fun k l => s * h k l, fun x => s * q (b, x.1, x.2)) + ∑ k, ∑ a, ∑ i, (pnm (k, a, i) / s) ^ 2 / (2 * (m a * factor k))

/-- The pressure of the extended classical system without its springs is the printed one. -/
theorem pressure_md_scale {U : Fin (n + 1) → CellPos N → ℝ} {h : Fin 3 → Fin 3 → ℝ} {q f : Conf n N} {v : Virs n}
    {L : Fin (n + 1) → CellPos N →L[ℝ] ℝ} (E : Exact U h q f v L) (m : Fin N → ℝ) (hm : ∀ a, 0 < m a) (factor : Fin (n + 1) → ℝ)
    (hf : ∀ k, 0 < factor k) (pnm : Conf n N) (V : ℝ) (hV : V ≠ 0) :
    HasDerivAt (extendedEnergy U h q m factor pnm) (-(3 * V * pressureMd V m factor v pnm)) 1 := by
  have h1 : ∀ b, HasDerivAt (fun s : ℝ => U b (fun k l => s * h k l, fun x => s * q (b, x.1, x.2))) (-(∑ i, v b i i)) 1 := by
    intro b
    have hc : HasDerivAt (fun s : ℝ => ((fun k l => s * h k l, fun x => s * q (b, x.1, x.2)) : CellPos N))
        ((h, beadPos q b) : CellPos N) 1 := by
      refine HasDerivAt.prodMk ?_ ?_
      · refine hasDerivAt_pi.2 fun k => hasDerivAt_pi.2 fun l => ?_
        simpa using (hasDerivAt_id (1 : ℝ)).mul_const (h k l)
      · refine hasDerivAt_pi.2 fun x => ?_
        have h3 := (hasDerivAt_id (1 : ℝ)).mul_const (q (b, x.1, x.2))
        rw [one_mul] at h3
        exact h3
    have hp : ((fun k l => 1 * h k l, fun x => 1 * q (b, x.1, x.2)) : CellPos N) = (h, beadPos q b) := by
      ext <;> simp [beadPos]
    have hd := E.deriv b
    rw [← hp] at hd
    refine (hd.comp_hasDerivAt (1 : ℝ) hc).congr_deriv ?_
    have e : L b (h, beadPos q b) = L b (∑ i, shear i i (h, beadPos q b)) := by rw [shear_sum]
    rw [e, map_sum, ← sum_neg_distrib]
    refine sum_congr rfl fun i _ => ?_
    rw [E.virial b i i le_rfl, neg_neg]
  have h2 : HasDerivAt (fun s : ℝ => ∑ k, ∑ a, ∑ i, (pnm (k, a, i) / s) ^ 2 / (2 * (m a * factor k)))
      (-∑ i, kstressMd m factor pnm i i) 1 := by
    have e : -∑ i, kstressMd m factor pnm i i = ∑ k, ∑ a, ∑ i, -(pnm (k, a, i) ^ 2 / (m a * factor k)) := by
      unfold kstressMd
      rw [sum_comm, ← sum_neg_distrib]
      refine sum_congr rfl fun k _ => ?_
      rw [sum_comm, ← sum_neg_distrib]
      refine sum_congr rfl fun a _ => ?_
      rw [← sum_neg_distrib]
      refine sum_congr rfl fun i _ => ?_
      rw [div_div, div_mul_div_comm]
      congr 1
      have h3 := Real.mul_self_sqrt (hf k).le
      have h4 := Real.mul_self_sqrt (hm a).le
      rw [show √(factor k) * √(m a) * (√(factor k) * √(m a)) = (√(factor k) * √(factor k)) * (√(m a) * √(m a)) by ring, h3, h4,
        mul_comm (factor k), sq]
    rw [e]
    refine HasDerivAt.fun_sum fun k _ => HasDerivAt.fun_sum fun a _ => HasDerivAt.fun_sum fun i _ => ?_
    refine (kin_deriv _ _).congr_deriv ?_
    rw [sq, mul_div_assoc]
  refine ((HasDerivAt.fun_sum fun b _ => h1 b).fun_add h2).congr_deriv ?_
  unfold pressureMd
  have e1 : tr (fun i j => (vir v i j + kstressMd m factor pnm i j) / (3 * V))
      = (∑ b, ∑ i, v b i i + ∑ i, kstressMd m factor pnm i i) / (3 * V) := by
    rw [← tr_vir]
    unfold tr
    rw [← sum_add_distrib, Finset.sum_div]
  rw [e1, sum_neg_distrib]
  field_simp
  ring

example := pressure_md_scale (n := 3) (N := 2) (exact_zero (fun i j => if i = j then 2 else 0) (fun x => x.1))
  (fun _ => 1) (fun _ => one_pos) (fun _ => 1) (fun _ => one_pos) (fun _ => 1) 8 (by norm_num)

/-- The energy of the springs. -/
noncomputable def springEnergy (omegan2 : ℝ) (m : Fin N → ℝ) (q : Conf n N) : ℝ := ∑ a, 0.5 * m a * omegan2 * springs q a

/-- **Violation.**  The extended classical system contains the springs of the ring polymers, whose energy changes with
the volume as well; the pressure printed for it leaves them out: the pressure of the extended system is the printed one minus
two thirds of the energy of the springs over the volume. -/
theorem pressure_md_misses_springs {U : Fin (n + 1) → CellPos N → ℝ} {h : Fin 3 → Fin 3 → ℝ} {q f : Conf n N} {v : Virs n}
    {L : Fin (n + 1) → CellPos N →L[ℝ] ℝ} (E : Exact U h q f v L) (m : Fin N → ℝ) (hm : ∀ a, 0 < m a) (factor : Fin (n + 1) → ℝ)
    (hf : ∀ k, 0 < factor k) (pnm : Conf n N) (omegan2 V : ℝ) (hV : V ≠ 0) :
    HasDerivAt (fun s => extendedEnergy U h q m factor pnm s + springEnergy omegan2 m (fun x => s * q x))
      (-(3 * V * (pressureMd V m factor v pnm - 2 * springEnergy omegan2 m q / (3 * V)))) 1 := by
  have hs : ∀ s : ℝ, springEnergy omegan2 m (fun x => s * q x) = s ^ 2 * springEnergy omegan2 m q := by
    intro s
    unfold springEnergy springs
    rw [mul_sum]
    refine sum_congr rfl fun a _ => ?_
    rw [mul_left_comm (s ^ 2)]
    congr 1
    dsimp only
    rw [mul_add, mul_sum, mul_sum]
    congr 1
    · refine sum_congr rfl fun b _ => ?_
      rw [mul_sum]
      exact sum_congr rfl fun d _ => by ring
    · exact sum_congr rfl fun d _ => by ring
  have h1 : HasDerivAt (fun s : ℝ => springEnergy omegan2 m (fun x => s * q x)) (2 * springEnergy omegan2 m q) 1 := by
    simp only [hs]
    have := ((hasDerivAt_id (1 : ℝ)).fun_pow 2).mul_const (springEnergy omegan2 m q)
    refine this.congr_deriv ?_
    simp
  refine ((pressure_md_scale E m hm factor hf pnm V hV).fun_add h1).congr_deriv ?_
  field_simp
  ring

example := pressure_md_misses_springs (n := 3) (N := 2) (exact_zero (fun i j => if i = j then 2 else 0) (fun x => x.1))
  (fun _ => 1) (fun _ => one_pos) (fun _ => 1) (fun _ => one_pos) (fun _ => 1) 1 8 (by norm_num)

/-- The springs left out do not vanish: two beads of one atom at different places. -/
theorem springs_left_out : ∃ q : Conf 1 1, springEnergy 1 (fun _ => 1) q ≠ 0 := by
  refine ⟨fun x => x.1, ?_⟩
  simp [springEnergy, springs, Fin.sum_univ_succ]
  norm_num

end Verif.Estim
