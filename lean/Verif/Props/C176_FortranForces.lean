import Verif.Props.C175_FortranLists
import Mathlib.Analysis.Calculus.Deriv.Add
import Mathlib.Analysis.Calculus.Deriv.Mul
import Mathlib.Analysis.Calculus.Deriv.Pow
import Mathlib.Analysis.Calculus.Deriv.Inv
import Mathlib.Analysis.SpecialFunctions.Sqrt
import Mathlib.Analysis.SpecialFunctions.ExpDeriv
import Mathlib.Analysis.SpecialFunctions.Pow.Deriv
import Mathlib.Data.Matrix.Basis
import Mathlib.Algebra.BigOperators.Group.List.Basic

/-!
# C176: forces and virial of the Fortran driver are derivatives of its energy

The pair potentials of Lennard-Jones and of Silvera and Goldman, with their corrections for the part beyond
the cut-off.
-/

namespace Verif.F90

open Matrix

/-- What the driver computes from complete lists (`history_fixed`). -/
noncomputable def sumAll (pair : ℕ → ℕ → ℝ → ℝ × ℝ) (tail : ℝ → ℝ → ℝ × ℝ) (vol : M3 → ℝ) (rc : ℝ) (natoms : ℕ)
    (atoms : ℕ → V3) (h ih : M3) : Res :=
  let s := (allPairs natoms).foldl (addPair pair rc atoms h ih) ⟨0, fun _ _ => 0, 0⟩
  let t := tail rc (vol h)
  ⟨s.pot + t.1, s.forces, Matrix.of fun k l => if k = l then s.virial k l + t.2 else s.virial k l⟩

/-! ### Sums over pairs -/

section
variable (pair : ℕ → ℕ → ℝ → ℝ × ℝ) (rc : ℝ) (atoms : ℕ → V3) (h ih : M3)

/-- The energy of a pair. -/
noncomputable def pairE (ij : ℕ × ℕ) : ℝ :=
  if separation h ih (atoms ij.1) (atoms ij.2) < rc * rc then
    (pair ij.1 ij.2 (√(separation h ih (atoms ij.1) (atoms ij.2)))).1 else 0

/-- The force of a pair on its first atom. -/
noncomputable def pairF (ij : ℕ × ℕ) : V3 := fun k =>
  if separation h ih (atoms ij.1) (atoms ij.2) < rc * rc then
    (pair ij.1 ij.2 (√(separation h ih (atoms ij.1) (atoms ij.2)))).2
      * vectorSeparation h ih (atoms ij.1) (atoms ij.2) k / √(separation h ih (atoms ij.1) (atoms ij.2))
  else 0

theorem fold_pot (l : List (ℕ × ℕ)) (s : Res) :
    (l.foldl (addPair pair rc atoms h ih) s).pot = s.pot + (l.map (pairE pair rc atoms h ih)).sum := by
  induction l generalizing s with
  | nil => simp
  | cons p l ihl =>
    rw [List.foldl_cons, ihl, List.map_cons, List.sum_cons, ← add_assoc]
    congr 1
    unfold addPair pairE separation
    dsimp only
    split_ifs <;> simp

theorem fold_forces (l : List (ℕ × ℕ)) (s : Res) (natoms : ℕ) (hl : ∀ p ∈ l, p.1 < p.2 ∧ p.2 < natoms) (u : ℕ → V3) :
    ∑ a ∈ Finset.range natoms, (l.foldl (addPair pair rc atoms h ih) s).forces a ⬝ᵥ u a
      = ∑ a ∈ Finset.range natoms, s.forces a ⬝ᵥ u a
        + (l.map fun p => pairF pair rc atoms h ih p ⬝ᵥ (u p.1 - u p.2)).sum := by
  induction l generalizing s with
  | nil => simp
  | cons p l ihl =>
    rw [List.foldl_cons, ihl _ fun q hq => hl q (List.mem_cons_of_mem _ hq), List.map_cons, List.sum_cons, ← add_assoc]
    congr 1
    obtain ⟨h1, h2⟩ := hl p List.mem_cons_self
    by_cases hc : separation h ih (atoms p.1) (atoms p.2) < rc * rc
    · have e : (addPair pair rc atoms h ih s p).forces = fun a =>
          s.forces a + ((if a = p.1 then pairF pair rc atoms h ih p else 0)
            - if a = p.2 then pairF pair rc atoms h ih p else 0) := by
        funext a
        have hF : pairF pair rc atoms h ih p = fun k =>
            (pair p.1 p.2 (√(separation h ih (atoms p.1) (atoms p.2)))).2
              * vectorSeparation h ih (atoms p.1) (atoms p.2) k / √(separation h ih (atoms p.1) (atoms p.2)) := by
          funext k
          exact if_pos hc
        rw [hF]
        unfold addPair
        dsimp only
        rw [if_pos (show vectorSeparation h ih (atoms p.1) (atoms p.2) ⬝ᵥ vectorSeparation h ih (atoms p.1) (atoms p.2)
          < rc * rc from hc)]
        dsimp only
        unfold separation
        dsimp only
        by_cases e1 : a = p.1
        · have e2 : a ≠ p.2 := by omega
          rw [if_neg e2, if_pos e1, if_pos e1, if_neg e2, sub_zero]
        · by_cases e2 : a = p.2
          · rw [if_pos e2, if_neg e1, if_neg e1, if_pos e2, zero_sub, sub_eq_add_neg]
          · rw [if_neg e2, if_neg e1, if_neg e1, if_neg e2, sub_zero, add_zero]
      rw [e]
      simp only [add_dotProduct, sub_dotProduct, Finset.sum_add_distrib, Finset.sum_sub_distrib, dotProduct_sub]
      congr 1
      congr 1
      · rw [Finset.sum_eq_single p.1]
        · rw [if_pos rfl]
        · intro b _ hb
          rw [if_neg hb, zero_dotProduct]
        · intro hn
          exact absurd (Finset.mem_range.2 (by omega)) hn
      · rw [Finset.sum_eq_single p.2]
        · rw [if_pos rfl]
        · intro b _ hb
          rw [if_neg hb, zero_dotProduct]
        · intro hn
          exact absurd (Finset.mem_range.2 (by omega)) hn
    · have e : addPair pair rc atoms h ih s p = s := by
        unfold addPair
        exact if_neg hc
      have hF : pairF pair rc atoms h ih p = 0 := by
        funext k
        exact if_neg hc
      rw [e, hF, zero_dotProduct, add_zero]

theorem fold_virial (l : List (ℕ × ℕ)) (s : Res) (k m : Fin 3) :
    (l.foldl (addPair pair rc atoms h ih) s).virial k m
      = s.virial k m + if k ≤ m then
          (l.map fun p => pairF pair rc atoms h ih p k * vectorSeparation h ih (atoms p.1) (atoms p.2) m).sum
        else 0 := by
  induction l generalizing s with
  | nil => simp
  | cons p l ihl =>
    rw [List.foldl_cons, ihl, List.map_cons, List.sum_cons]
    have e : (addPair pair rc atoms h ih s p).virial k m
        = s.virial k m + if k ≤ m then pairF pair rc atoms h ih p k * vectorSeparation h ih (atoms p.1) (atoms p.2) m
          else 0 := by
      by_cases hc : separation h ih (atoms p.1) (atoms p.2) < rc * rc
      · have hF : pairF pair rc atoms h ih p k =
            (pair p.1 p.2 (√(separation h ih (atoms p.1) (atoms p.2)))).2
              * vectorSeparation h ih (atoms p.1) (atoms p.2) k / √(separation h ih (atoms p.1) (atoms p.2)) := if_pos hc
        rw [hF]
        unfold addPair
        dsimp only
        rw [if_pos (show vectorSeparation h ih (atoms p.1) (atoms p.2) ⬝ᵥ vectorSeparation h ih (atoms p.1) (atoms p.2)
          < rc * rc from hc)]
        simp only [Matrix.of_apply]
        unfold separation
        dsimp only
        split_ifs <;> simp
      · have e : addPair pair rc atoms h ih s p = s := by
          unfold addPair
          exact if_neg hc
        have hF : pairF pair rc atoms h ih p k = 0 := if_neg hc
        rw [e, hF]
        simp
    rw [e]
    split_ifs <;> ring

end

/-! ### One pair -/

/-- The derivative of the length of a vector that moves. -/
theorem hasDerivAt_pair (v : ℝ → ℝ × ℝ) (hv : ∀ r, 0 < r → HasDerivAt (fun r => (v r).1) (-(v r).2) r) (x w : V3)
    (hx : 0 < x ⬝ᵥ x) : HasDerivAt (fun t : ℝ => (v (√((x + t • w) ⬝ᵥ (x + t • w)))).1)
      (-((fun k => (v (√(x ⬝ᵥ x))).2 * x k / √(x ⬝ᵥ x)) ⬝ᵥ w)) 0 := by
  have h1 : HasDerivAt (fun t : ℝ => (x + t • w) ⬝ᵥ (x + t • w)) (2 * (x ⬝ᵥ w)) 0 := by
    have e : (fun t : ℝ => (x + t • w) ⬝ᵥ (x + t • w)) = fun t : ℝ => x ⬝ᵥ x + (t * (2 * (x ⬝ᵥ w)) + t ^ 2 * (w ⬝ᵥ w)) := by
      funext t
      simp only [add_dotProduct, dotProduct_add, smul_dotProduct, dotProduct_smul, smul_eq_mul, dotProduct_comm w x]
      ring
    rw [e]
    have := (((hasDerivAt_id (0 : ℝ)).mul_const (2 * (x ⬝ᵥ w))).add
      (((hasDerivAt_id (0 : ℝ)).pow 2).mul_const (w ⬝ᵥ w))).const_add (x ⬝ᵥ x)
    refine this.congr_deriv ?_
    simp
  have e0 : (x + (0 : ℝ) • w) ⬝ᵥ (x + (0 : ℝ) • w) = x ⬝ᵥ x := by simp
  have h2 : HasDerivAt (fun t : ℝ => √((x + t • w) ⬝ᵥ (x + t • w))) (2 * (x ⬝ᵥ w) / (2 * √(x ⬝ᵥ x))) 0 := by
    have := h1.sqrt (by rw [e0]; exact hx.ne')
    rw [e0] at this
    exact this
  have hs : 0 < √(x ⬝ᵥ x) := Real.sqrt_pos.2 hx
  have h3 := hv _ hs
  rw [← e0] at h3
  have := HasDerivAt.comp (0 : ℝ) h3 h2
  refine this.congr_deriv ?_
  rw [e0]
  have e : ((fun k => (v (√(x ⬝ᵥ x))).2 * x k / √(x ⬝ᵥ x)) ⬝ᵥ w) = (v (√(x ⬝ᵥ x))).2 / √(x ⬝ᵥ x) * (x ⬝ᵥ w) := by
    simp only [dotProduct, Finset.mul_sum]
    exact Finset.sum_congr rfl fun k _ => by ring
  rw [e]
  field_simp

/-- **One pair.** Away from the cut-off the energy of a pair has the derivative that its force says. -/
theorem pair_derivative {pair : ℕ → ℕ → ℝ → ℝ × ℝ}
    (hv : ∀ i j r, 0 < r → HasDerivAt (fun r => (pair i j r).1) (-(pair i j r).2) r) {rc R : ℝ} (hrc : 0 ≤ rc) (hR : rc < R)
    {h ih : M3} (hi : h * ih = 1) (hw : HalfWidth ih R) (atoms u : ℕ → V3) (p : ℕ × ℕ)
    (h0 : separation h ih (atoms p.1) (atoms p.2) ≠ 0) (hc : separation h ih (atoms p.1) (atoms p.2) ≠ rc * rc) :
    HasDerivAt (fun t : ℝ => pairE pair rc (fun a => atoms a + t • u a) h ih p)
      (-(pairF pair rc atoms h ih p ⬝ᵥ (u p.1 - u p.2))) 0 := by
  obtain ⟨n, hn⟩ := sep_lattice hi (atoms p.1) (atoms p.2)
  set x := vectorSeparation h ih (atoms p.1) (atoms p.2) with hx
  set w := u p.1 - u p.2 with hwd
  have hs : separation h ih (atoms p.1) (atoms p.2) = x ⬝ᵥ x := rfl
  have hdiff : ∀ t : ℝ, (atoms p.1 + t • u p.1) - (atoms p.2 + t • u p.2) = (atoms p.1 - atoms p.2) + t • w := by
    intro t
    rw [hwd, smul_sub]
    abel
  rcases lt_or_gt_of_ne hc with hlt | hgt
  · -- inside
    have hcont : Continuous fun t : ℝ => (x + t • w) ⬝ᵥ (x + t • w) := by
      simp only [dotProduct, Pi.add_apply, Pi.smul_apply, smul_eq_mul]
      fun_prop
    have hev : ∀ᶠ t in nhds (0 : ℝ), (x + t • w) ⬝ᵥ (x + t • w) < rc * rc := by
      refine (hcont.tendsto 0).eventually_lt_const ?_
      rw [zero_smul, add_zero]
      exact hlt
    have heq : (fun t : ℝ => pairE pair rc (fun a => atoms a + t • u a) h ih p)
        =ᶠ[nhds 0] fun t => (pair p.1 p.2 (√((x + t • w) ⬝ᵥ (x + t • w)))).1 := by
      filter_upwards [hev] with t ht
      have hv1 : vectorSeparation h ih (atoms p.1 + t • u p.1) (atoms p.2 + t • u p.2) = x + t • w := by
        refine sep_unique hi hw (by linarith) (n := n) ?_ (by nlinarith)
        rw [hdiff, hn]
        abel
      unfold pairE separation
      dsimp only
      rw [hv1, if_pos ht]
    refine HasDerivAt.congr_of_eventuallyEq ?_ heq
    have hx0 : 0 < x ⬝ᵥ x := lt_of_le_of_ne (dot_nonneg x) (Ne.symm h0)
    have := hasDerivAt_pair (pair p.1 p.2) (hv p.1 p.2) x w hx0
    refine this.congr_deriv ?_
    congr 2
    funext k
    exact (if_pos hlt).symm
  · -- outside
    have hlen : rc < len x := by
      have h1 : rc ^ 2 < len x ^ 2 := by
        rw [len_sq, ← hs]
        nlinarith
      exact lt_of_pow_lt_pow_left₀ 2 (Real.sqrt_nonneg _) h1
    have hev : ∀ᶠ t in nhds (0 : ℝ), |t| * len w < min (R - rc) (len x - rc) := by
      have hcont : Continuous fun t : ℝ => |t| * len w := by fun_prop
      refine (hcont.tendsto 0).eventually_lt_const ?_
      rw [abs_zero, zero_mul]
      exact lt_min (by linarith) (by linarith)
    have heq : (fun t : ℝ => pairE pair rc (fun a => atoms a + t • u a) h ih p) =ᶠ[nhds 0] fun _ => 0 := by
      filter_upwards [hev] with t ht
      unfold pairE
      refine if_neg fun hlt => ?_
      dsimp only at hlt
      obtain ⟨n', hn'⟩ := sep_lattice hi (atoms p.1 + t • u p.1) (atoms p.2 + t • u p.2)
      set y := vectorSeparation h ih (atoms p.1 + t • u p.1) (atoms p.2 + t • u p.2) with hy
      have hyl : len y ≤ rc := by
        refine Real.sqrt_le_iff.2 ⟨hrc, ?_⟩
        have : y ⬝ᵥ y = separation h ih (atoms p.1 + t • u p.1) (atoms p.2 + t • u p.2) := rfl
        rw [this]
        nlinarith
      have hl2 : len (y + -(t • w)) ≤ rc + |t| * len w := by
        refine (len_add _ _).trans (add_le_add hyl ?_)
        rw [len_neg]
        have : len (t • w) = |t| * len w := by
          rw [len_eq, len_eq, WithLp.toLp_smul, norm_smul, Real.norm_eq_abs]
        rw [this]
      have hlt2 : len (y + -(t • w)) < R := by
        have := lt_min_iff.1 ht
        linarith [this.1]
      have hx' : x = y + -(t • w) := by
        refine sep_unique hi hw (by linarith) (n := n') ?_ ?_
        · have := hdiff t
          rw [hn'] at this
          have h2 : atoms p.1 - atoms p.2 = (y + h *ᵥ fun k => (n' k : ℝ)) - t • w := by
            rw [this]
            abel
          rw [h2]
          abel
        · rw [← len_sq]
          have : 0 ≤ len (y + -(t • w)) := Real.sqrt_nonneg _
          nlinarith
      rw [← hx'] at hl2
      have := (lt_min_iff.1 ht).2
      linarith
    have hF : pairF pair rc atoms h ih p = 0 := by
      funext k
      exact if_neg (not_lt.2 hgt.le)
    rw [hF, zero_dotProduct, neg_zero]
    exact (hasDerivAt_const (0 : ℝ) (0 : ℝ)).congr_of_eventuallyEq heq

theorem hasDerivAt_list_sum {α : Type} (l : List α) (f : α → ℝ → ℝ) (f' : α → ℝ) (x : ℝ)
    (h : ∀ a ∈ l, HasDerivAt (f a) (f' a) x) :
    HasDerivAt (fun t => (l.map fun a => f a t).sum) (l.map f').sum x := by
  induction l with
  | nil => simpa using hasDerivAt_const x (0 : ℝ)
  | cons a l ihl =>
    simp only [List.map_cons, List.sum_cons]
    exact (h a List.mem_cons_self).add (ihl fun b hb => h b (List.mem_cons_of_mem _ hb))

theorem list_sum_neg {α : Type} (l : List α) (f : α → ℝ) : (l.map fun a => -f a).sum = -(l.map f).sum := by
  induction l with
  | nil => simp
  | cons a l ihl => rw [List.map_cons, List.map_cons, List.sum_cons, List.sum_cons, ihl]; ring

/-! ### Forces -/

/-- **C176.** The forces are minus the gradient of the energy: along every direction `u`, wherever no two atoms coincide and
no pair is exactly at the cut-off, in cells wider than two cut-offs. -/
theorem forces_gradient {pair : ℕ → ℕ → ℝ → ℝ × ℝ}
    (hv : ∀ i j r, 0 < r → HasDerivAt (fun r => (pair i j r).1) (-(pair i j r).2) r) (tail : ℝ → ℝ → ℝ × ℝ) (vol : M3 → ℝ)
    {rc R : ℝ} (hrc : 0 ≤ rc) (hR : rc < R) {h ih : M3} (hi : h * ih = 1) (hw : HalfWidth ih R) (natoms : ℕ) (atoms u : ℕ → V3)
    (hap : ∀ i j, i < j → j < natoms → separation h ih (atoms i) (atoms j) ≠ 0)
    (hcut : ∀ i j, i < j → j < natoms → separation h ih (atoms i) (atoms j) ≠ rc * rc) :
    HasDerivAt (fun t : ℝ => (sumAll pair tail vol rc natoms (fun a => atoms a + t • u a) h ih).pot)
      (-∑ a ∈ Finset.range natoms, (sumAll pair tail vol rc natoms atoms h ih).forces a ⬝ᵥ u a) 0 := by
  have e : (fun t : ℝ => (sumAll pair tail vol rc natoms (fun a => atoms a + t • u a) h ih).pot)
      = fun t => ((allPairs natoms).map fun p => pairE pair rc (fun a => atoms a + t • u a) h ih p).sum
        + (tail rc (vol h)).1 := by
    funext t
    unfold sumAll
    dsimp only
    rw [fold_pot]
    simp
  rw [e]
  have hf : ∑ a ∈ Finset.range natoms, (sumAll pair tail vol rc natoms atoms h ih).forces a ⬝ᵥ u a
      = ((allPairs natoms).map fun p => pairF pair rc atoms h ih p ⬝ᵥ (u p.1 - u p.2)).sum := by
    unfold sumAll
    dsimp only
    rw [fold_forces pair rc atoms h ih _ _ natoms (fun p hp => (mem_allPairs natoms p.1 p.2).1 hp) u]
    simp [dotProduct]
  rw [hf, ← list_sum_neg]
  refine (hasDerivAt_list_sum (allPairs natoms)
    (fun p t => pairE pair rc (fun a => atoms a + t • u a) h ih p) _ 0 fun p hp => ?_).add_const _
  obtain ⟨h1, h2⟩ := (mem_allPairs natoms p.1 p.2).1 hp
  exact pair_derivative hv hrc hR hi hw atoms u p (hap _ _ h1 h2) (hcut _ _ h1 h2)

/-- **C176.** The forces on all atoms add up to zero. -/
theorem forces_sum_zero (pair : ℕ → ℕ → ℝ → ℝ × ℝ) (tail : ℝ → ℝ → ℝ × ℝ) (vol : M3 → ℝ) (rc : ℝ) (natoms : ℕ)
    (atoms : ℕ → V3) (h ih : M3) (k : Fin 3) :
    ∑ a ∈ Finset.range natoms, (sumAll pair tail vol rc natoms atoms h ih).forces a k = 0 := by
  have hf := fold_forces pair rc atoms h ih (allPairs natoms) ⟨0, fun _ _ => 0, 0⟩ natoms
    (fun p hp => (mem_allPairs natoms p.1 p.2).1 hp) (fun _ => Pi.single k 1)
  simp only [sub_self, dotProduct_zero, dotProduct_single, mul_one, List.map_const', List.sum_replicate, smul_zero,
    add_zero, Finset.sum_const_zero] at hf
  exact hf

/-! ### Virial -/

/-- A cell or a vector strained by `t` in the entry `k, l`. -/
noncomputable def strain (k l : Fin 3) (t : ℝ) : M3 := 1 + t • Matrix.single k l 1

theorem strain_mulVec (k l : Fin 3) (t : ℝ) (x : V3) : strain k l t *ᵥ x = x + t • (Pi.single k (x l) : V3) := by
  unfold strain
  rw [add_mulVec, one_mulVec, smul_mulVec]
  congr 2
  funext i
  rw [Matrix.single_mulVec]
  simp [Function.update, Pi.single_apply]

/-- With the strained cell and positions, the vector between two atoms is strained. -/
theorem sep_strain (k l : Fin 3) (t : ℝ) {h ih ih' : M3} (hi' : ih' * strain k l t = ih) (ri rj : V3) :
    vectorSeparation (strain k l t * h) ih' (strain k l t *ᵥ ri) (strain k l t *ᵥ rj)
      = strain k l t *ᵥ vectorSeparation h ih ri rj := by
  unfold vectorSeparation
  dsimp only
  rw [← mulVec_sub, mulVec_mulVec, hi', mulVec_mulVec]

theorem det_strain (k l : Fin 3) (t : ℝ) : (strain k l t).det = 1 + if k = l then t else 0 := by
  rw [Matrix.det_fin_three]
  unfold strain
  fin_cases k <;> fin_cases l <;> simp [Matrix.single, Matrix.one_apply]

/-- The volume changes with the trace of the strain. -/
theorem volume_strain (k l : Fin 3) (h : M3) :
    HasDerivAt (fun t : ℝ => cellVolume (strain k l t * h)) (if k = l then cellVolume h else 0) 0 := by
  have hev : ∀ᶠ t in nhds (0 : ℝ), -1 < t := Filter.Tendsto.eventually_const_lt (by norm_num) Filter.tendsto_id
  have heq : (fun t : ℝ => cellVolume (strain k l t * h)) =ᶠ[nhds 0] fun t => (1 + if k = l then t else 0) * cellVolume h := by
    filter_upwards [hev] with t ht
    rw [cellVolume_det, cellVolume_det, det_mul, abs_mul, det_strain, abs_of_pos]
    split_ifs <;> linarith
  refine HasDerivAt.congr_of_eventuallyEq ?_ heq
  split_ifs
  · simpa using ((hasDerivAt_id (0 : ℝ)).const_add 1).mul_const (cellVolume h)
  · simpa using hasDerivAt_const (0 : ℝ) ((1 + 0) * cellVolume h)

/-- The energy of a pair under strain, with a cut-off that changes continuously. -/
theorem pair_strain {pair : ℕ → ℕ → ℝ → ℝ × ℝ}
    (hv : ∀ i j r, 0 < r → HasDerivAt (fun r => (pair i j r).1) (-(pair i j r).2) r) {rc : ℝ → ℝ} (hrc : ContinuousAt rc 0)
    {h ih : M3} {ih' : ℝ → M3} (k l : Fin 3) (hi' : ∀ᶠ t in nhds (0 : ℝ), ih' t * strain k l t = ih) (atoms : ℕ → V3) (p : ℕ × ℕ)
    (h0 : separation h ih (atoms p.1) (atoms p.2) ≠ 0)
    (hc : separation h ih (atoms p.1) (atoms p.2) ≠ rc 0 * rc 0) :
    HasDerivAt (fun t : ℝ => pairE pair (rc t) (fun a => strain k l t *ᵥ atoms a) (strain k l t * h) (ih' t) p)
      (-(pairF pair (rc 0) atoms h ih p k * vectorSeparation h ih (atoms p.1) (atoms p.2) l)) 0 := by
  set x := vectorSeparation h ih (atoms p.1) (atoms p.2) with hx
  set w : V3 := Pi.single k (x l) with hwd
  have hs : separation h ih (atoms p.1) (atoms p.2) = x ⬝ᵥ x := rfl
  have hcont : Continuous fun t : ℝ => (x + t • w) ⬝ᵥ (x + t • w) := by
    simp only [dotProduct, Pi.add_apply, Pi.smul_apply, smul_eq_mul]
    fun_prop
  have hd : ContinuousAt (fun t : ℝ => (x + t • w) ⬝ᵥ (x + t • w) - rc t * rc t) 0 :=
    hcont.continuousAt.sub (hrc.mul hrc)
  have hd0 : (x + (0 : ℝ) • w) ⬝ᵥ (x + (0 : ℝ) • w) - rc 0 * rc 0 = x ⬝ᵥ x - rc 0 * rc 0 := by simp
  have hsep : ∀ᶠ t in nhds (0 : ℝ), separation (strain k l t * h) (ih' t) (strain k l t *ᵥ atoms p.1) (strain k l t *ᵥ atoms p.2)
      = (x + t • w) ⬝ᵥ (x + t • w) := by
    filter_upwards [hi'] with t ht
    unfold separation
    dsimp only
    rw [sep_strain k l t ht, strain_mulVec]
  have hfw : ∀ f : V3, f ⬝ᵥ w = f k * x l := by
    intro f
    rw [hwd, dotProduct_single]
  rcases lt_or_gt_of_ne hc with hlt | hgt
  · have hev : ∀ᶠ t in nhds (0 : ℝ), (x + t • w) ⬝ᵥ (x + t • w) - rc t * rc t < 0 := by
      refine hd.eventually_lt_const ?_
      dsimp only
      rw [hd0]
      linarith
    have heq : (fun t : ℝ => pairE pair (rc t) (fun a => strain k l t *ᵥ atoms a) (strain k l t * h) (ih' t) p)
        =ᶠ[nhds 0] fun t => (pair p.1 p.2 (√((x + t • w) ⬝ᵥ (x + t • w)))).1 := by
      filter_upwards [hev, hsep] with t ht ht2
      unfold pairE
      dsimp only
      rw [ht2, if_pos (by linarith)]
    refine HasDerivAt.congr_of_eventuallyEq ?_ heq
    have hx0 : 0 < x ⬝ᵥ x := lt_of_le_of_ne (dot_nonneg x) (Ne.symm h0)
    refine (hasDerivAt_pair (pair p.1 p.2) (hv p.1 p.2) x w hx0).congr_deriv ?_
    rw [← hfw]
    congr 2
    funext k
    exact (if_pos hlt).symm
  · have hev : ∀ᶠ t in nhds (0 : ℝ), 0 < (x + t • w) ⬝ᵥ (x + t • w) - rc t * rc t := by
      refine hd.eventually_const_lt ?_
      dsimp only
      rw [hd0]
      linarith
    have heq : (fun t : ℝ => pairE pair (rc t) (fun a => strain k l t *ᵥ atoms a) (strain k l t * h) (ih' t) p)
        =ᶠ[nhds 0] fun _ => 0 := by
      filter_upwards [hev, hsep] with t ht ht2
      unfold pairE
      dsimp only
      rw [ht2, if_neg (by linarith)]
    have hF : pairF pair (rc 0) atoms h ih p k = 0 := if_neg (not_lt.2 hgt.le)
    rw [hF, zero_mul, neg_zero]
    exact (hasDerivAt_const (0 : ℝ) (0 : ℝ)).congr_of_eventuallyEq heq

/-- The correction for the part beyond the cut-off is consistent: its second number is minus the derivative of the first with
respect to the logarithm of the volume, if the cut-off changes like the third root of the volume. -/
def TailConsistent (tail : ℝ → ℝ → ℝ × ℝ) : Prop :=
  ∀ (ρ : ℝ → ℝ) (V : ℝ), 0 < V → 0 < ρ V → HasDerivAt ρ (ρ V / (3 * V)) V →
    HasDerivAt (fun v => (tail (ρ v) v).1) (-(tail (ρ V) V).2 / V) V

theorem hasDerivAt_cut {c V0 V : ℝ} (hV0 : 0 < V0) (hV : 0 < V) :
    HasDerivAt (fun v : ℝ => c * (v / V0) ^ (1 / 3 : ℝ)) (c * (V / V0) ^ (1 / 3 : ℝ) / (3 * V)) V := by
  have h1 : HasDerivAt (fun v : ℝ => v / V0) (1 / V0) V := (hasDerivAt_id V).div_const V0
  have hq : V / V0 ≠ 0 := (div_pos hV hV0).ne'
  refine ((h1.rpow_const (p := (1 / 3 : ℝ)) (Or.inl hq)).const_mul c).congr_deriv ?_
  have e : (V / V0) ^ (1 / 3 - 1 : ℝ) = (V / V0) ^ (1 / 3 : ℝ) / (V / V0) := by
    rw [Real.rpow_sub (div_pos hV hV0), Real.rpow_one]
  rw [e]
  field_simp

/-- **C176.** The upper triangle of the virial is minus the derivative of the energy with respect to the strain of cell and
positions, when the cut-off is scaled with the volume as the driver does, wherever no two atoms coincide and no pair is
exactly at the cut-off; the rest of the virial is zero. -/
theorem virial_strain {pair : ℕ → ℕ → ℝ → ℝ × ℝ}
    (hv : ∀ i j r, 0 < r → HasDerivAt (fun r => (pair i j r).1) (-(pair i j r).2) r) {tail : ℝ → ℝ → ℝ × ℝ}
    (ht : TailConsistent tail) {vol : M3 → ℝ} (nb : Nb) (hnb : 0 < nb.initVolume) (hnr : 0 < nb.initRc)
    {h ih : M3} (hi : h * ih = 1) {ih' : ℝ → M3} (k l : Fin 3)
    (hvol : ∀ᶠ t in nhds (0 : ℝ), vol (strain k l t * h) = cellVolume (strain k l t * h))
    (hi' : ∀ᶠ t in nhds (0 : ℝ), (strain k l t * h) * ih' t = 1) (natoms : ℕ) (atoms : ℕ → V3)
    (hap : ∀ i j, i < j → j < natoms → separation h ih (atoms i) (atoms j) ≠ 0)
    (hcut : ∀ i j, i < j → j < natoms → separation h ih (atoms i) (atoms j) ≠ scaledRc nb h * scaledRc nb h) :
    (k ≤ l → HasDerivAt (fun t : ℝ => (sumAll pair tail vol (scaledRc nb (strain k l t * h)) natoms
        (fun a => strain k l t *ᵥ atoms a) (strain k l t * h) (ih' t)).pot)
      (-(sumAll pair tail vol (scaledRc nb h) natoms atoms h ih).virial k l) 0)
    ∧ (l < k → (sumAll pair tail vol (scaledRc nb h) natoms atoms h ih).virial k l = 0) := by
  have hF : (sumAll pair tail vol (scaledRc nb h) natoms atoms h ih).virial k l
      = (if k ≤ l then ((allPairs natoms).map fun p => pairF pair (scaledRc nb h) atoms h ih p k
          * vectorSeparation h ih (atoms p.1) (atoms p.2) l).sum else 0)
        + if k = l then (tail (scaledRc nb h) (vol h)).2 else 0 := by
    unfold sumAll
    dsimp only
    rw [Matrix.of_apply, fold_virial]
    split_ifs <;> simp
  have hs0 : strain k l 0 = 1 := by simp [strain]
  have hvol0 : vol h = cellVolume h := by
    have := hvol.self_of_nhds
    rwa [hs0, one_mul] at this
  have hVp : 0 < cellVolume h := lt_of_le_of_ne (by rw [cellVolume_det]; exact abs_nonneg _) (cellVolume_ne hi).symm
  refine ⟨fun hkl => ?_, fun hlk => ?_⟩
  · rw [hF, if_pos hkl, hvol0]
    have hVd := volume_strain k l h
    have hV0 : cellVolume (strain k l 0 * h) = cellVolume h := by rw [hs0, one_mul]
    have hcut' : HasDerivAt (fun v : ℝ => nb.initRc * (v / nb.initVolume) ^ (1 / 3 : ℝ))
        (scaledRc nb h / (3 * cellVolume h)) (cellVolume h) := hasDerivAt_cut hnb hVp
    have hrcd : HasDerivAt (fun t : ℝ => scaledRc nb (strain k l t * h))
        (scaledRc nb h / (3 * cellVolume h) * if k = l then cellVolume h else 0) 0 := by
      rw [← hV0] at hcut'
      have := HasDerivAt.comp (0 : ℝ) hcut' hVd
      rw [hV0] at this
      exact this
    have hrc0 : scaledRc nb (strain k l 0 * h) = scaledRc nb h := by rw [hs0, one_mul]
    have hrcp : 0 < scaledRc nb h := mul_pos hnr (Real.rpow_pos_of_pos (div_pos hVp hnb) _)
    have hih : ∀ᶠ t in nhds (0 : ℝ), ih' t * strain k l t = ih := by
      filter_upwards [hi'] with t ht
      have h1 : ih' t * (strain k l t * h) = 1 := mul_eq_one_comm.1 ht
      calc ih' t * strain k l t = ih' t * strain k l t * (h * ih) := by rw [hi, mul_one]
        _ = ih' t * (strain k l t * h) * ih := by simp only [mul_assoc]
        _ = ih := by rw [h1, one_mul]
    have htl := ht (fun v : ℝ => nb.initRc * (v / nb.initVolume) ^ (1 / 3 : ℝ)) (cellVolume h) hVp hrcp hcut'
    have htd : HasDerivAt (fun t : ℝ => (tail (scaledRc nb (strain k l t * h)) (cellVolume (strain k l t * h))).1)
        (-(tail (scaledRc nb h) (cellVolume h)).2 / cellVolume h * if k = l then cellVolume h else 0) 0 := by
      have htl' : HasDerivAt (fun v : ℝ => (tail (nb.initRc * (v / nb.initVolume) ^ (1 / 3 : ℝ)) v).1)
        (-(tail (scaledRc nb h) (cellVolume h)).2 / cellVolume h) (cellVolume (strain k l 0 * h)) := by
        rw [hV0]
        exact htl
      exact HasDerivAt.comp (0 : ℝ) htl' hVd
    have e : (fun t : ℝ => (sumAll pair tail vol (scaledRc nb (strain k l t * h)) natoms
        (fun a => strain k l t *ᵥ atoms a) (strain k l t * h) (ih' t)).pot)
        =ᶠ[nhds 0] fun t => ((allPairs natoms).map fun p => pairE pair (scaledRc nb (strain k l t * h))
            (fun a => strain k l t *ᵥ atoms a) (strain k l t * h) (ih' t) p).sum
          + (tail (scaledRc nb (strain k l t * h)) (cellVolume (strain k l t * h))).1 := by
      filter_upwards [hvol] with t ht
      unfold sumAll
      dsimp only
      rw [fold_pot, ht]
      simp
    refine HasDerivAt.congr_of_eventuallyEq ?_ e
    have hsum := hasDerivAt_list_sum (allPairs natoms)
      (fun p t => pairE pair (scaledRc nb (strain k l t * h)) (fun a => strain k l t *ᵥ atoms a) (strain k l t * h) (ih' t) p)
      (fun p => -(pairF pair (scaledRc nb h) atoms h ih p k * vectorSeparation h ih (atoms p.1) (atoms p.2) l)) 0 fun p hp => by
        obtain ⟨h1, h2⟩ := (mem_allPairs natoms p.1 p.2).1 hp
        have := pair_strain hv (rc := fun t => scaledRc nb (strain k l t * h)) hrcd.continuousAt k l hih atoms p (hap _ _ h1 h2)
          (by rw [hrc0]; exact hcut _ _ h1 h2)
        rw [hrc0] at this
        exact this
    refine (hsum.add htd).congr_deriv ?_
    rw [list_sum_neg]
    split_ifs
    · field_simp
      ring
    · ring
  · rw [hF, if_neg (by omega), if_neg (by omega), add_zero]

/-! ### Lennard-Jones -/

/-- The potential as it is usually written. -/
theorem lj_potential (sigma eps : ℝ) (r : ℝ) :
    (ljFunctions sigma eps r).1 = 4 * eps * ((sigma / r) ^ 12 - (sigma / r) ^ 6) := by
  simp only [ljFunctions]
  ring

/-- **C176.** The pair force of Lennard-Jones is minus the derivative of the potential. -/
theorem lj_derivative (sigma eps : ℝ) {r : ℝ} (hr : 0 < r) :
    HasDerivAt (fun r => (ljFunctions sigma eps r).1) (-(ljFunctions sigma eps r).2) r := by
  have e : (fun r => (ljFunctions sigma eps r).1) = fun r => 4 * eps * ((sigma * r⁻¹) ^ 12 - (sigma * r⁻¹) ^ 6) := by
    funext r
    rw [lj_potential, div_eq_mul_inv]
  rw [e]
  have hi := (hasDerivAt_inv hr.ne').const_mul sigma
  refine (((hi.fun_pow 12).fun_sub (hi.fun_pow 6)).const_mul (4 * eps)).congr_deriv ?_
  simp only [ljFunctions, Nat.cast_ofNat, Nat.reduceSub]
  field_simp
  ring

theorem ljLongrange_consistent (sigma eps : ℝ) (natoms : ℕ) : TailConsistent (ljLongrange sigma eps natoms) := by
  intro ρ V hV hρ hd
  have e : (fun v => (ljLongrange sigma eps natoms (ρ v) v).1)
      = fun v => fourTauBy3 * natoms * natoms * eps * sigma ^ 3 * (v⁻¹ * (sigma ^ 9 / 3 * (ρ v)⁻¹ ^ 9 - sigma ^ 3 * (ρ v)⁻¹ ^ 3)) := by
    funext v
    simp only [ljLongrange]
    ring
  rw [e]
  have hi := hd.fun_inv hρ.ne'
  refine (((hasDerivAt_inv hV.ne').fun_mul (((hi.fun_pow 9).const_mul (sigma ^ 9 / 3)).fun_sub
    ((hi.fun_pow 3).const_mul (sigma ^ 3)))).const_mul _).congr_deriv ?_
  have hρ' := hρ.ne'
  simp only [ljLongrange, Nat.cast_ofNat, Nat.reduceSub]
  field_simp
  ring

/-- **C176, Lennard-Jones.** -/
theorem lj_forces (sigma eps : ℝ) {rc R : ℝ} (hrc : 0 ≤ rc) (hR : rc < R) {h ih : M3} (hi : h * ih = 1) (hw : HalfWidth ih R)
    (natoms : ℕ) (atoms u : ℕ → V3)
    (hap : ∀ i j, i < j → j < natoms → separation h ih (atoms i) (atoms j) ≠ 0)
    (hcut : ∀ i j, i < j → j < natoms → separation h ih (atoms i) (atoms j) ≠ rc * rc) :
    let E := fun atoms => sumAll (fun _ _ => ljFunctions sigma eps) (ljLongrange sigma eps natoms) cellVolume rc natoms atoms h ih
    HasDerivAt (fun t : ℝ => (E fun a => atoms a + t • u a).pot)
      (-∑ a ∈ Finset.range natoms, (E atoms).forces a ⬝ᵥ u a) 0 :=
  forces_gradient (fun _ _ _ hr => lj_derivative sigma eps hr) _ _ hrc hR hi hw natoms atoms u hap hcut

/-! ### Silvera and Goldman -/

theorem sgExp_derivative (r : ℝ) : HasDerivAt (fun r => (sgExp r).1) (-(sgExp r).2) r := by
  have h1 : HasDerivAt (fun r : ℝ => 1.713 - r * (1.5671 + 0.00993 * r)) (-(1 * (1.5671 + 0.00993 * r) + r * (0.00993 * 1))) r :=
    ((hasDerivAt_id r).mul (((hasDerivAt_id r).const_mul (0.00993 : ℝ)).const_add (1.5671 : ℝ))).const_sub (1.713 : ℝ)
  refine h1.exp.congr_deriv ?_
  simp only [sgExp]
  ring

/-- The damping function has one derivative everywhere, also where it ends. -/
theorem sgDamp_derivative {r : ℝ} (hr : 0 < r) : HasDerivAt (fun r => (sgDamp r).1) (sgDamp r).2 r := by
  have hin : ∀ r : ℝ, 0 < r → HasDerivAt (fun r : ℝ => Real.exp (-(8.32 / r - 1) ^ 2))
      (2 * (8.32 / r - 1) * 8.32 * Real.exp (-(8.32 / r - 1) ^ 2) / (r * r)) r := by
    intro r hr
    have h1 : HasDerivAt (fun r : ℝ => (8.32 : ℝ) * r⁻¹ - 1) (8.32 * -(r ^ 2)⁻¹) r :=
      ((hasDerivAt_inv hr.ne').const_mul (8.32 : ℝ)).sub_const 1
    have h2 := (h1.fun_pow 2).fun_neg.exp
    have e : (fun r : ℝ => Real.exp (-(8.32 / r - 1) ^ 2)) = fun r => Real.exp (-(8.32 * r⁻¹ - 1) ^ 2) := by
      funext r
      rw [div_eq_mul_inv]
    rw [e]
    refine h2.congr_deriv ?_
    simp only [div_eq_mul_inv, Nat.cast_ofNat, Nat.reduceSub, pow_one]
    generalize Real.exp (-(8.32 * r⁻¹ - 1) ^ 2) = E
    rw [mul_inv]
    ring
  rcases lt_trichotomy r 8.32 with hlt | heq | hgt
  · have hev : (fun r => (sgDamp r).1) =ᶠ[nhds r] fun r : ℝ => Real.exp (-(8.32 / r - 1) ^ 2) := by
      filter_upwards [gt_mem_nhds hlt] with x hx
      unfold sgDamp
      rw [if_neg (not_lt.2 hx.le)]
    refine ((hin r hr).congr_of_eventuallyEq hev).congr_deriv ?_
    unfold sgDamp
    rw [if_neg (not_lt.2 hlt.le)]
  · have hz : (sgDamp r).2 = 0 := by
      unfold sgDamp
      rw [if_neg (not_lt.2 heq.le), heq]
      norm_num
    rw [hz]
    have h1 : (sgDamp r).1 = 1 := by
      unfold sgDamp
      rw [if_neg (not_lt.2 heq.le), heq]
      norm_num
    have hl : HasDerivWithinAt (fun r => (sgDamp r).1) 0 (Set.Iic r) r := by
      have := (hin r hr).hasDerivWithinAt (s := Set.Iic r)
      have h0 : (2 * (8.32 / r - 1) * 8.32 * Real.exp (-(8.32 / r - 1) ^ 2) / (r * r)) = 0 := by
        rw [heq]
        norm_num
      rw [h0] at this
      refine this.congr (fun x hx => ?_) ?_
      · unfold sgDamp
        rw [if_neg (not_lt.2 (le_trans hx heq.le))]
      · unfold sgDamp
        rw [if_neg (not_lt.2 heq.le)]
    have hr' : HasDerivWithinAt (fun r => (sgDamp r).1) 0 (Set.Ici r) r := by
      refine (hasDerivWithinAt_const r (Set.Ici r) (1 : ℝ)).congr (fun x hx => ?_) h1
      rcases (Set.mem_Ici.1 hx).eq_or_lt with e | e
      · rw [← e]
        exact h1
      · unfold sgDamp
        rw [if_pos (by rw [← heq]; exact e)]
    have := hl.union hr'
    rw [Set.Iic_union_Ici] at this
    exact hasDerivWithinAt_univ.1 this
  · have hev : (fun r => (sgDamp r).1) =ᶠ[nhds r] fun _ : ℝ => (1 : ℝ) := by
      filter_upwards [lt_mem_nhds hgt] with x hx
      unfold sgDamp
      rw [if_pos hx]
    have hz : (sgDamp r).2 = 0 := by
      unfold sgDamp
      rw [if_pos hgt]
    rw [hz]
    exact (hasDerivAt_const r (1 : ℝ)).congr_of_eventuallyEq hev

/-- **C176.** The pair force of Silvera and Goldman is minus the derivative of the potential. -/
theorem sg_derivative {r : ℝ} (hr : 0 < r) : HasDerivAt (fun r => (sgFunctions r).1) (-(sgFunctions r).2) r := by
  set D : ℝ → ℝ := fun r => -(12.14 * r⁻¹ ^ 6 + 215.2 * r⁻¹ ^ 8 - 143.1 * r⁻¹ ^ 9 + 4813.9 * r⁻¹ ^ 10) with hD
  have hev : (fun r => (sgFunctions r).1) =ᶠ[nhds r] fun r => (sgExp r).1 + D r * (sgDamp r).1 := by
    filter_upwards [lt_mem_nhds hr] with x hx
    simp only [sgFunctions, hD]
    field_simp
  have hi := hasDerivAt_inv hr.ne'
  have hDd : HasDerivAt D (12.14 * 6 * r⁻¹ ^ 7 + 215.2 * 8 * r⁻¹ ^ 9 - 143.1 * 9 * r⁻¹ ^ 10 + 4813.9 * 10 * r⁻¹ ^ 11) r := by
    refine (((((hi.fun_pow 6).const_mul (12.14 : ℝ)).fun_add ((hi.fun_pow 8).const_mul (215.2 : ℝ))).fun_sub
      ((hi.fun_pow 9).const_mul (143.1 : ℝ))).fun_add ((hi.fun_pow 10).const_mul (4813.9 : ℝ))).fun_neg.congr_deriv ?_
    simp only [Nat.cast_ofNat, Nat.reduceSub]
    ring
  refine HasDerivAt.congr_of_eventuallyEq ?_ hev
  refine ((sgExp_derivative r).add (hDd.mul (sgDamp_derivative hr))).congr_deriv ?_
  simp only [sgFunctions, hD]
  field_simp
  ring

theorem sgLongrange_consistent (natoms : ℕ) : TailConsistent (sgLongrange natoms) := by
  intro ρ V hV hρ hd
  have hev : (fun v => (sgLongrange natoms (ρ v) v).1) =ᶠ[nhds V]
      fun v => 2 * Real.pi * natoms * natoms * (v⁻¹ * (-(12.14 / 3) * (ρ v)⁻¹ ^ 3 - 215.2 / 5 * (ρ v)⁻¹ ^ 5
        + 143.1 / 6 * (ρ v)⁻¹ ^ 6 - 4813.9 / 7 * (ρ v)⁻¹ ^ 7)) := by
    filter_upwards [hd.continuousAt.eventually_const_lt hρ] with v hv
    simp only [sgLongrange]
    field_simp
  have hi := hd.fun_inv hρ.ne'
  refine HasDerivAt.congr_of_eventuallyEq ?_ hev
  refine (((hasDerivAt_inv hV.ne').fun_mul (((((hi.fun_pow 3).const_mul (-(12.14 / 3) : ℝ)).fun_sub
    ((hi.fun_pow 5).const_mul (215.2 / 5 : ℝ))).fun_add ((hi.fun_pow 6).const_mul (143.1 / 6 : ℝ))).fun_sub
    ((hi.fun_pow 7).const_mul (4813.9 / 7 : ℝ)))).const_mul _).congr_deriv ?_
  have hρ' := hρ.ne'
  simp only [sgLongrange, Nat.cast_ofNat, Nat.reduceSub]
  field_simp
  ring

/-- **C176, Silvera and Goldman.** -/
theorem sg_forces {rc R : ℝ} (hrc : 0 ≤ rc) (hR : rc < R) {h ih : M3} (hi : h * ih = 1) (hw : HalfWidth ih R)
    (natoms : ℕ) (atoms u : ℕ → V3)
    (hap : ∀ i j, i < j → j < natoms → separation h ih (atoms i) (atoms j) ≠ 0)
    (hcut : ∀ i j, i < j → j < natoms → separation h ih (atoms i) (atoms j) ≠ rc * rc) :
    let E := fun atoms => sumAll (fun _ _ => sgFunctions) (sgLongrange natoms) (fun h => h 0 0 * h 1 1 * h 2 2) rc natoms atoms h ih
    HasDerivAt (fun t : ℝ => (E fun a => atoms a + t • u a).pot)
      (-∑ a ∈ Finset.range natoms, (E atoms).forces a ⬝ᵥ u a) 0 :=
  forces_gradient (fun _ _ _ hr => sg_derivative hr) _ _ hrc hR hi hw natoms atoms u hap hcut

/-- The product of the diagonal is the volume of upper triangular cells. -/
theorem sg_volume {h : M3} (hu : ∀ i j, j < i → h i j = 0) (hp : ∀ i, 0 < h i i) :
    h 0 0 * h 1 1 * h 2 2 = cellVolume h := by
  unfold cellVolume
  rw [hu 1 0 (by decide), hu 2 0 (by decide), hu 2 1 (by decide)]
  have := mul_pos (mul_pos (hp 0) (hp 1)) (hp 2)
  rw [abs_of_pos (by linarith)]
  ring

theorem strain_mul_apply (k l : Fin 3) (t : ℝ) (h : M3) (i j : Fin 3) :
    (strain k l t * h) i j = h i j + t * if i = k then h l j else 0 := by
  unfold strain
  rw [add_mul, one_mul, smul_mul, Matrix.add_apply, Matrix.smul_apply, smul_eq_mul]
  congr 2
  split_ifs with e
  · rw [e, single_mul_apply_same, one_mul]
  · exact single_mul_apply_of_ne _ _ _ _ _ e _

theorem sg_volume_strain {h : M3} (hu : ∀ i j, j < i → h i j = 0) (hp : ∀ i, 0 < h i i) {k l : Fin 3} (hkl : k ≤ l) :
    ∀ᶠ t in nhds (0 : ℝ), (strain k l t * h) 0 0 * (strain k l t * h) 1 1 * (strain k l t * h) 2 2
      = cellVolume (strain k l t * h) := by
  have hev : ∀ᶠ t in nhds (0 : ℝ), -1 < t := Filter.Tendsto.eventually_const_lt (by norm_num) Filter.tendsto_id
  filter_upwards [hev] with t ht
  refine sg_volume (fun i j hij => ?_) fun i => ?_
  · rw [strain_mul_apply, hu i j hij]
    split_ifs with e
    · rw [hu l j (by omega), mul_zero, add_zero]
    · rw [mul_zero, add_zero]
  · rw [strain_mul_apply]
    split_ifs with e
    · rcases hkl.eq_or_lt with e2 | e2
      · rw [← e2, ← e]
        nlinarith [hp i]
      · rw [hu l i (by omega), mul_zero, add_zero]
        exact hp i
    · rw [mul_zero, add_zero]
      exact hp i

/-- **C176.** The virial of Lennard-Jones with the correction for the part beyond the cut-off. -/
theorem lj_virial (sigma eps : ℝ) (nb : Nb) (hnb : 0 < nb.initVolume) (hnr : 0 < nb.initRc) {h ih : M3} (hi : h * ih = 1)
    {ih' : ℝ → M3} {k l : Fin 3} (hkl : k ≤ l) (hi' : ∀ᶠ t in nhds (0 : ℝ), (strain k l t * h) * ih' t = 1) (natoms : ℕ)
    (atoms : ℕ → V3) (hap : ∀ i j, i < j → j < natoms → separation h ih (atoms i) (atoms j) ≠ 0)
    (hcut : ∀ i j, i < j → j < natoms → separation h ih (atoms i) (atoms j) ≠ scaledRc nb h * scaledRc nb h) :
    let E := sumAll (fun _ _ => ljFunctions sigma eps) (ljLongrange sigma eps natoms) cellVolume
    HasDerivAt (fun t : ℝ => (E (scaledRc nb (strain k l t * h)) natoms (fun a => strain k l t *ᵥ atoms a)
        (strain k l t * h) (ih' t)).pot) (-(E (scaledRc nb h) natoms atoms h ih).virial k l) 0 :=
  (virial_strain (fun _ _ _ hr => lj_derivative sigma eps hr) (ljLongrange_consistent sigma eps natoms) nb hnb hnr hi k l
    (Filter.Eventually.of_forall fun _ => rfl) hi' natoms atoms hap hcut).1 hkl

/-- **C176.** The virial of Silvera and Goldman, for upper triangular cells. -/
theorem sg_virial (nb : Nb) (hnb : 0 < nb.initVolume) (hnr : 0 < nb.initRc) {h ih : M3} (hi : h * ih = 1)
    (hu : ∀ i j, j < i → h i j = 0) (hp : ∀ i, 0 < h i i)
    {ih' : ℝ → M3} {k l : Fin 3} (hkl : k ≤ l) (hi' : ∀ᶠ t in nhds (0 : ℝ), (strain k l t * h) * ih' t = 1) (natoms : ℕ)
    (atoms : ℕ → V3) (hap : ∀ i j, i < j → j < natoms → separation h ih (atoms i) (atoms j) ≠ 0)
    (hcut : ∀ i j, i < j → j < natoms → separation h ih (atoms i) (atoms j) ≠ scaledRc nb h * scaledRc nb h) :
    let E := sumAll (fun _ _ => sgFunctions) (sgLongrange natoms) (fun h => h 0 0 * h 1 1 * h 2 2)
    HasDerivAt (fun t : ℝ => (E (scaledRc nb (strain k l t * h)) natoms (fun a => strain k l t *ᵥ atoms a)
        (strain k l t * h) (ih' t)).pot) (-(E (scaledRc nb h) natoms atoms h ih).virial k l) 0 :=
  (virial_strain (fun _ _ _ hr => sg_derivative hr) (sgLongrange_consistent natoms) nb hnb hnr hi k l
    (sg_volume_strain hu hp hkl) hi' natoms atoms hap hcut).1 hkl

/-- **C176.** What the driver returns in a fixed cell is this sum, whatever it has computed before. -/
theorem driver_sumAll {rc : ℝ} (hrc : 0 ≤ rc) {natoms : ℕ} {h ih : M3} (hi : h * ih = 1) (hw : HalfWidth ih (1.2 * rc))
    (hist : List (ℕ → V3)) (atoms : ℕ → V3) (sigma eps : ℝ) :
    ∃ nb, runNb (1.2 * rc) rc natoms ((hist ++ [atoms]).map fun x => ⟨h, ih, x⟩) = some nb
      ∧ ljGetall sigma eps (scaledRc nb h) natoms atoms h ih nb.lists
        = sumAll (fun _ _ => ljFunctions sigma eps) (ljLongrange sigma eps natoms) cellVolume rc natoms atoms h ih
      ∧ sgGetall (scaledRc nb h) natoms atoms h ih nb.lists
        = sumAll (fun _ _ => sgFunctions) (sgLongrange natoms) (fun h => h 0 0 * h 1 1 * h 2 2) rc natoms atoms h ih := by
  obtain ⟨nb, h1, h2⟩ := history_fixed hrc hi hw hist atoms (fun _ _ => ljFunctions sigma eps) (ljLongrange sigma eps natoms) cellVolume
  obtain ⟨nb', h1', h2'⟩ := history_fixed hrc hi hw hist atoms (fun _ _ => sgFunctions) (sgLongrange natoms)
    (fun h => h 0 0 * h 1 1 * h 2 2)
  rw [h1] at h1'
  cases h1'
  exact ⟨nb, h1, h2, h2'⟩

/-! ### Mixtures -/

/-- The documented scale of an atom: the first `ntype2` atoms are smaller. -/
noncomputable def typeScale (ntype2 i : ℕ) : ℝ := if i < ntype2 then 0.6 else 1

/-- **C177, for atoms of the same type.** The factor is the geometric mean of those of the two atoms. -/
theorem mix_like_partial (ntype2 i j : ℕ) (h : i < ntype2 ↔ j < ntype2) :
    mixFactor ntype2 i = √(typeScale ntype2 i * typeScale ntype2 j) := by
  unfold mixFactor typeScale
  dsimp only
  by_cases h1 : i < ntype2
  · rw [if_pos h1, if_pos h1, if_pos (h.1 h1)]
  · rw [if_neg h1, if_neg h1, if_neg fun h2 => h1 (h.2 h2), mul_one]

/-- **C177, negated.** Two atoms of different types interact like two of the second type: the factor is not the mean. -/
theorem mix_unlike {ntype2 i j : ℕ} (h1 : i < ntype2) (h2 : ntype2 ≤ j) :
    mixFactor ntype2 i ≠ √(typeScale ntype2 i * typeScale ntype2 j)
    ∧ ∀ i' < ntype2, ∀ sigma eps r : ℝ,
      ljFunctions (sigma * mixFactor ntype2 i) (eps * mixFactor ntype2 i) r
        = ljFunctions (sigma * mixFactor ntype2 i') (eps * mixFactor ntype2 i') r := by
  have hm : ∀ i' < ntype2, mixFactor ntype2 i' = 0.6 := by
    intro i' h'
    unfold mixFactor
    dsimp only
    rw [if_pos h', if_pos h', show (0.6 * 0.6 : ℝ) = 0.6 ^ 2 by norm_num, Real.sqrt_sq (by norm_num)]
  refine ⟨?_, fun i' h' sigma eps r => by rw [hm i h1, hm i' h']⟩
  rw [hm i h1]
  unfold typeScale
  rw [if_pos h1, if_neg (not_lt.2 h2), mul_one]
  intro e
  have := congrArg (· ^ 2) e
  simp only [Real.sq_sqrt (show (0 : ℝ) ≤ 0.6 by norm_num)] at this
  norm_num at this

/-- **C177.** Forces of a mixture are minus the gradient of its energy. -/
theorem mix_forces (ntype2 : ℕ) (sigma eps : ℝ) {rc R : ℝ} (hrc : 0 ≤ rc) (hR : rc < R) {h ih : M3} (hi : h * ih = 1)
    (hw : HalfWidth ih R) (natoms : ℕ) (atoms u : ℕ → V3) (tail : ℝ → ℝ → ℝ × ℝ)
    (hap : ∀ i j, i < j → j < natoms → separation h ih (atoms i) (atoms j) ≠ 0)
    (hcut : ∀ i j, i < j → j < natoms → separation h ih (atoms i) (atoms j) ≠ rc * rc) :
    let E := fun atoms => sumAll (fun i _ => ljFunctions (sigma * mixFactor ntype2 i) (eps * mixFactor ntype2 i)) tail cellVolume rc
      natoms atoms h ih
    HasDerivAt (fun t : ℝ => (E fun a => atoms a + t • u a).pot)
      (-∑ a ∈ Finset.range natoms, (E atoms).forces a ⬝ᵥ u a) 0 :=
  forces_gradient (fun _ _ _ hr => lj_derivative _ _ hr) _ _ hrc hR hi hw natoms atoms u hap hcut

/-- A case that meets the conditions: two atoms in a cube. -/
example (u : ℕ → V3) := lj_forces 1 1 (rc := 5) (R := 6) (by norm_num) (by norm_num) (cube_inv (a := 20) (by norm_num))
  (cube_width (by norm_num) (by norm_num)) 2 twoAtoms u
  (fun i j h1 h2 => by
    obtain rfl : i = 0 := by omega
    obtain rfl : j = 1 := by omega
    rw [twoAtoms_sep (by norm_num)]
    norm_num)
  (fun i j h1 h2 => by
    obtain rfl : i = 0 := by omega
    obtain rfl : j = 1 := by omega
    rw [twoAtoms_sep (by norm_num)]
    norm_num)

end Verif.F90
