import Verif.Phys.ThermoDof
import Verif.Props.C71_WrongDof
import Mathlib.LinearAlgebra.FiniteDimensional.Lemmas

/-!
# C71: global thermostats know the number of free momenta

Specification: the dimension of the space of mass scaled momenta that satisfy the constraints.
-/

namespace Verif.Thermo

open MeasureTheory ProbabilityTheory

section
variable {ι : Type} [Fintype ι]

/-- Specification: the total momentum in each direction.  `dir` gives the direction of a component,
mass scaled momenta are multiplied with the root of the mass. -/
noncomputable def comMap (m : ι → ℝ) (dir : ι → Fin 3) : EuclideanSpace ℝ ι →ₗ[ℝ] (Fin 3 → ℝ) where
  toFun x d := ∑ i, if dir i = d then √(m i) * x i else 0
  map_add' x y := by
    funext d
    rw [Pi.add_apply, ← Finset.sum_add_distrib]
    refine Finset.sum_congr rfl fun i _ => ?_
    split <;> simp [mul_add]
  map_smul' a x := by
    funext d
    simp only [PiLp.smul_apply, smul_eq_mul, RingHom.id_apply, Pi.smul_apply, Finset.mul_sum]
    refine Finset.sum_congr rfl fun i _ => ?_
    split <;> ring

/-- Specification: momenta of systems with a fixed centre of mass. -/
noncomputable def comSpace (m : ι → ℝ) (dir : ι → Fin 3) : Submodule ℝ (EuclideanSpace ℝ ι) :=
  LinearMap.ker (comMap m dir)

/-- Specification: momenta with the components in `F` at rest. -/
def fixSpace (F : Finset ι) : Submodule ℝ (EuclideanSpace ℝ ι) where
  carrier := {x | ∀ i ∈ F, x i = 0}
  add_mem' := by
    intro x y hx hy i hi
    simp [hx i hi, hy i hi]
  zero_mem' := by
    intro i _
    rfl
  smul_mem' := by
    intro a x hx i hi
    simp [hx i hi]

theorem finrank_comSpace [DecidableEq ι] {m : ι → ℝ} (hm : ∀ i, 0 < m i) {dir : ι → Fin 3}
    (hd : Function.Surjective dir) :
    Module.finrank ℝ (comSpace m dir) + 3 = Fintype.card ι := by
  have hs : Function.Surjective (comMap m dir) := by
    intro y
    choose c hc using hd
    refine ⟨WithLp.toLp 2 fun i => if c (dir i) = i then y (dir i) / √(m i) else 0, ?_⟩
    funext d
    have : ∀ i, (if dir i = d then √(m i) * (if c (dir i) = i then y (dir i) / √(m i) else 0) else 0)
        = if i = c d then y d else 0 := by
      intro i
      have hne := Real.sqrt_ne_zero'.2 (hm i)
      by_cases h1 : dir i = d
      · subst h1
        by_cases h2 : c (dir i) = i
        · rw [if_pos rfl, if_pos h2, if_pos h2.symm]
          field_simp
        · rw [if_pos rfl, if_neg h2, if_neg (fun h => h2 h.symm), mul_zero]
      · rw [if_neg h1, if_neg]
        rintro rfl
        exact h1 (hc d)
    change ∑ i, _ = _
    rw [Finset.sum_congr rfl fun i _ => this i]
    simp
  have h := LinearMap.finrank_range_add_finrank_ker (comMap m dir)
  rw [LinearMap.range_eq_top.2 hs, finrank_top] at h
  simp only [Module.finrank_fintype_fun_eq_card, Fintype.card_fin, finrank_euclideanSpace] at h
  unfold comSpace
  omega

theorem finrank_fixSpace [DecidableEq ι] (F : Finset ι) :
    Module.finrank ℝ (fixSpace F) + F.card = Fintype.card ι := by
  let f : EuclideanSpace ℝ ι →ₗ[ℝ] (F → ℝ) :=
    { toFun := fun x i => x i.1
      map_add' := fun x y => rfl
      map_smul' := fun a x => rfl }
  have hk : LinearMap.ker f = fixSpace F := by
    ext x
    simp only [LinearMap.mem_ker]
    constructor
    · intro h i hi
      exact congrFun h ⟨i, hi⟩
    · intro h
      funext i
      exact h i.1 i.2
  have hs : Function.Surjective f := by
    intro y
    refine ⟨WithLp.toLp 2 fun i => if h : i ∈ F then y ⟨i, h⟩ else 0, ?_⟩
    funext i
    change (if h : i.1 ∈ F then y ⟨i.1, h⟩ else 0) = y i
    rw [dif_pos i.2]
  have h := LinearMap.finrank_range_add_finrank_ker f
  rw [LinearMap.range_eq_top.2 hs, finrank_top, hk] at h
  simp only [Module.finrank_fintype_fun_eq_card, Fintype.card_coe, finrank_euclideanSpace] at h
  omega

end

/-- The direction of a component: index `i` of the vector of one bead is atom `i/3`, direction
`i%3`. -/
def dirOf {n : ℕ} (i : Fin (3 * n)) : Fin 3 := ⟨i.1 % 3, Nat.mod_lt _ (by norm_num)⟩

theorem dirOf_surj {n : ℕ} (h : 0 < n) : Function.Surjective (dirOf (n := n)) := by
  intro d
  refine ⟨⟨d.1, by omega⟩, ?_⟩
  ext
  simp [dirOf, Nat.mod_eq_of_lt d.2]

/-- The fixed components of all beads. -/
def fixAll {nb n : ℕ} (fix : List (Fin n)) : Finset (Fin nb × Fin n) :=
  Finset.univ ×ˢ fix.toFinset

/-- **C71 (`svr`), fixed centre of mass.**  The thermostat of all the beads uses the dimension of the
space of allowed momenta. -/
theorem svr_dof_com {natoms nb : ℕ} (hn : 0 < natoms) (hb : 0 < nb)
    {m : Fin nb × Fin (3 * natoms) → ℝ} (hm : ∀ i, 0 < m i) :
    ndofSvr natoms nb [] true
      = Module.finrank ℝ (comSpace m (fun i => dirOf i.2)) := by
  have h := finrank_comSpace hm (dir := fun i : Fin nb × Fin (3 * natoms) => dirOf i.2) (by
    intro d
    obtain ⟨i, hi⟩ := dirOf_surj hn d
    exact ⟨(⟨0, hb⟩, i), hi⟩)
  simp only [Fintype.card_prod, Fintype.card_fin] at h
  simp only [ndofSvr, ndof, getFixdof, List.length_nil, if_true]
  push_cast [← h]
  ring

/-- **C71 (`svr`), fixed atoms.** -/
theorem svr_dof_fix {natoms nb : ℕ} (fix : List (Fin (3 * natoms))) (hf : fix.Nodup) :
    ndofSvr natoms nb (fix.map Fin.val) false
      = Module.finrank ℝ (fixSpace (fixAll (nb := nb) fix)) := by
  have h := finrank_fixSpace (fixAll (nb := nb) fix)
  simp only [Fintype.card_prod, Fintype.card_fin, fixAll, Finset.card_product, Finset.card_univ,
    List.toFinset_card_of_nodup hf] at h
  simp only [ndofSvr, ndof, getFixdof, List.length_map, Bool.false_eq_true, if_false]
  have h2 : (Module.finrank ℝ (fixSpace (fixAll (nb := nb) fix)) : ℤ) + nb * fix.length
      = nb * (3 * natoms) := by exact_mod_cast h
  push_cast
  linarith

/-- **C71 (`pile_g`), fixed centre of mass.**  The thermostat of the centroid. -/
theorem pileG_dof_com {natoms nb : ℕ} (hn : 0 < natoms)
    {m : Fin (3 * natoms) → ℝ} (hm : ∀ i, 0 < m i) :
    ndofPileGDyn natoms nb [] true = Module.finrank ℝ (comSpace m dirOf) := by
  have h := finrank_comSpace hm (dirOf_surj hn)
  simp only [Fintype.card_fin] at h
  simp only [ndofPileGDyn, ndofPileG, ndof, getFixdof, List.length_nil, if_true]
  push_cast [← h]
  simp

/-- **C71 (`pile_g`), fixed atoms.** -/
theorem pileG_dof_fix {natoms nb : ℕ} (hb : 0 < nb) (fix : List (Fin (3 * natoms)))
    (hf : fix.Nodup) :
    ndofPileGDyn natoms nb (fix.map Fin.val) false = Module.finrank ℝ (fixSpace fix.toFinset) := by
  have h := finrank_fixSpace fix.toFinset
  simp only [Fintype.card_fin, List.toFinset_card_of_nodup hf] at h
  have hb' : (nb : ℤ) ≠ 0 := by omega
  simp only [ndofPileGDyn, ndofPileG, ndof, getFixdof, List.length_map, Bool.false_eq_true, if_false,
    add_zero, sub_zero, Int.mul_ediv_cancel _ hb']
  push_cast [← h]
  ring

/-- **C71, the two halves together.**  `pile_g` with a fixed centre of mass keeps the canonical
distribution of the centroid. -/
theorem pileG_com_canonical {natoms nb : ℕ} (hn : 1 < natoms)
    {m : Fin (3 * natoms) → ℝ} (hm : ∀ i, 0 < m i) {kb temp dt tau : ℝ} (hk : 0 < kb * temp)
    (hd : 0 ≤ dt) (htau : 0 < tau) (e : ℝ) :
    ((canonicalOn (kb * temp) m (comSpace m dirOf)).prod ((gaussianReal 0 1).prod
        (chiSq (ndofPileGDyn natoms nb [] true - 1).toNat))).map
        (fun z => (svr m (expT dt tau) (svrK kb temp) z.2.1 z.2.2 ⟨z.1, e⟩).p)
      = canonicalOn (kb * temp) m (comSpace m dirOf) := by
  have h := pileG_dof_com (nb := nb) (by omega : 0 < natoms) hm
  have h2 := finrank_comSpace hm (dirOf_surj (by omega : 0 < natoms))
  simp only [Fintype.card_fin] at h2
  exact svr_canonical_on hm hk hd htau _ (by omega) e

/-- **C71 fails for `nm_gle_g`**: the constraints are ignored, so the canonical distribution of a
system with a fixed centre of mass is not kept. -/
theorem nmgleg_com_fails {natoms : ℕ} (hn : 1 < natoms) {m : Fin (3 * natoms) → ℝ}
    (hm : ∀ i, 0 < m i) {kb temp dt tau : ℝ} (hk : 0 < kb * temp) (hd : 0 < dt) (htau : 0 < tau)
    (e : ℝ) :
    ((canonicalOn (kb * temp) m (comSpace m dirOf)).prod ((gaussianReal 0 1).prod
        (chiSq (ndofNmgleg natoms - 1).toNat))).map
        (fun z => (svr m (expT dt tau) (svrK kb temp) z.2.1 z.2.2 ⟨z.1, e⟩).p)
      ≠ canonicalOn (kb * temp) m (comSpace m dirOf) := by
  have h2 := finrank_comSpace hm (dirOf_surj (by omega : 0 < natoms))
  simp only [Fintype.card_fin] at h2
  have hnt : Nontrivial (comSpace m dirOf) := Module.nontrivial_of_finrank_pos (R := ℝ) (by omega)
  intro h
  have h3 := (svr_canonical_iff hm hk hd htau (comSpace m dirOf)
    (ndofNmgleg natoms - 1).toNat e).1 h
  simp only [ndofNmgleg, ndof] at h3
  omega

/-- **C71 fails for `pile_g` inside `multi`**: with more than one bead and a fixed centre of mass the
number of degrees of freedom is wrong, and the canonical distribution is not kept. -/
theorem multi_com_fails {natoms nb : ℕ} (hn : 1 < natoms) (hb : 1 < nb) {m : Fin (3 * natoms) → ℝ}
    (hm : ∀ i, 0 < m i) {kb temp dt tau : ℝ} (hk : 0 < kb * temp) (hd : 0 < dt) (htau : 0 < tau)
    (e : ℝ) :
    ((canonicalOn (kb * temp) m (comSpace m dirOf)).prod ((gaussianReal 0 1).prod
        (chiSq (ndofPileGMulti natoms nb [] true - 1).toNat))).map
        (fun z => (svr m (expT dt tau) (svrK kb temp) z.2.1 z.2.2 ⟨z.1, e⟩).p)
      ≠ canonicalOn (kb * temp) m (comSpace m dirOf) := by
  have h2 := finrank_comSpace hm (dirOf_surj (by omega : 0 < natoms))
  simp only [Fintype.card_fin] at h2
  have hnt : Nontrivial (comSpace m dirOf) := Module.nontrivial_of_finrank_pos (R := ℝ) (by omega)
  intro h
  have h3 := (svr_canonical_iff hm hk hd htau (comSpace m dirOf)
    (ndofPileGMulti natoms nb [] true - 1).toNat e).1 h
  simp only [ndofPileGMulti, ndofPileG, ndof, getFixdof, List.length_nil, if_true,
    Bool.false_eq_true, if_false] at h3
  have h4 : (3 : ℤ) / nb ≤ 1 := by
    have hb' : (0 : ℤ) < nb := by omega
    have : (3 : ℤ) / nb < 2 := by
      rw [Int.ediv_lt_iff_lt_mul hb']
      omega
    omega
  have h5 : 0 ≤ (3 : ℤ) / nb := by positivity
  simp only [Nat.cast_zero, zero_mul, zero_add, sub_zero, add_zero] at h3
  push_cast at h3
  omega

/-- **C71 fails for repeated indices**: a degree of freedom listed twice is counted twice. -/
theorem svr_dof_twice : ndofSvr 1 1 [0, 0] false
    ≠ Module.finrank ℝ (fixSpace (fixAll (nb := 1) ([0, 0] : List (Fin (3 * 1))))) := by
  have h := finrank_fixSpace (fixAll (nb := 1) ([0, 0] : List (Fin (3 * 1))))
  have hc : (fixAll (nb := 1) ([0, 0] : List (Fin (3 * 1)))).card = 1 := by decide
  have h1 : ndofSvr 1 1 [0, 0] false = 1 := by decide
  rw [hc] at h
  simp only [Fintype.card_prod, Fintype.card_fin] at h
  rw [h1]
  omega

/-- Non-vacuity: two atoms, four beads, fixed centre of mass: 3 free momenta of the centroid; `multi`
uses 6. -/
example : ndofPileGDyn 2 4 [] true = 3 ∧ ndofPileGMulti 2 4 [] true = 6 ∧ ndofNmgleg 2 = 6 := by
  decide

end Verif.Thermo
