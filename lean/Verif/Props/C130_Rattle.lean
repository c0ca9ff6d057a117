import Verif.Phys.Rattle
import Mathlib.Analysis.SpecialFunctions.Trigonometric.Inverse
import Mathlib.Algebra.BigOperators.Field
import Mathlib.Analysis.Calculus.Deriv.Add
import Mathlib.Analysis.Calculus.Deriv.Mul
import Mathlib.Analysis.Calculus.Deriv.Pow
import Mathlib.Analysis.Calculus.Deriv.Inv
import Mathlib.Tactic.Linarith
import Mathlib.Tactic.LinearCombination
import Mathlib.Tactic.FieldSimp
import Mathlib.Tactic.Ring
import Mathlib.Tactic.NormNum

/-!
# C130: holonomic constraints
-/

namespace Verif.Rattle

open Finset Matrix

section Proj

variable {ι κ κ' : Type} [Fintype ι] [Fintype κ] [DecidableEq κ] [Fintype κ'] [DecidableEq κ']
variable (m : ι → ℝ) (D : Matrix κ ι ℝ) (p : ι → ℝ)

/-- The momenta keep the constraints fulfilled: the derivative of every constraint along the velocities is zero. -/
def Tangent (D : Matrix κ ι ℝ) (p : ι → ℝ) : Prop := ∀ k, ∑ i, D k i * (p i / m i) = 0

/-- Two blocks of constraints do not act on each other. -/
def Independent (D : Matrix κ ι ℝ) (D' : Matrix κ' ι ℝ) : Prop := ∀ k l, ∑ i, D k i * (D' l i / m i) = 0

omit [DecidableEq κ] in
lemma rate_zero_iff : rate m D p = 0 ↔ Tangent m D p := by
  constructor
  · intro h k
    exact congrFun h k
  · intro h
    funext k
    exact h k

omit [DecidableEq κ] in
lemma transpose_dot (x : κ → ℝ) (v : ι → ℝ) : ∑ i, Dᵀ.mulVec x i * v i = ∑ k, x k * D.mulVec v k := by
  simp only [mulVec, dotProduct, transpose_apply, Finset.sum_mul, Finset.mul_sum]
  rw [Finset.sum_comm]
  refine Finset.sum_congr rfl fun k _ => Finset.sum_congr rfl fun i _ => ?_
  ring

omit [DecidableEq κ] in
lemma gram_mulVec (x : κ → ℝ) : (gram m D).mulVec x = rate m D (Dᵀ.mulVec x) := by
  unfold gram rate
  rw [← mulVec_mulVec]
  congr 1
  funext i
  simp only [mulVec, dotProduct, of_apply, transpose_apply, Finset.sum_div]
  refine Finset.sum_congr rfl fun k _ => ?_
  ring

omit [Fintype κ] [DecidableEq κ] in
lemma rate_sub (u v : ι → ℝ) : rate m D (fun i => u i - v i) = rate m D u - rate m D v := by
  unfold rate
  rw [← mulVec_sub]
  congr 1
  funext i
  simp only [Pi.sub_apply]
  ring

omit [Fintype ι] [DecidableEq κ] in
lemma kin_nonneg [Fintype ι] (hm : ∀ i, 0 < m i) (p : ι → ℝ) : 0 ≤ kin m p := by
  unfold kin
  refine mul_nonneg (by norm_num) (Finset.sum_nonneg fun i _ => ?_)
  rw [← mul_div_assoc]
  exact div_nonneg (mul_self_nonneg _) (hm i).le

omit [DecidableEq κ] in
lemma kin_eq_zero (hm : ∀ i, 0 < m i) (p : ι → ℝ) (h : kin m p = 0) : p = 0 := by
  unfold kin at h
  have h1 : ∑ i, p i * (p i / m i) = 0 := by linarith
  have h2 := (Finset.sum_eq_zero_iff_of_nonneg (s := Finset.univ) (f := fun i => p i * (p i / m i)) (fun i _ => by
    rw [← mul_div_assoc]; exact div_nonneg (mul_self_nonneg _) (hm i).le)).1 h1
  funext i
  have h3 := h2 i (Finset.mem_univ i)
  have := (hm i).ne'
  rcases mul_eq_zero.1 h3 with h4 | h4
  · exact h4
  · rcases div_eq_zero_iff.1 h4 with h5 | h5
    · exact h5
    · exact absurd h5 this

/-- The linear systems have a solution whenever no constraint follows from the others. -/
theorem gram_solvable (hm : ∀ i, 0 < m i) (hD : ∀ x : κ → ℝ, Dᵀ.mulVec x = 0 → x = 0) : IsUnit (gram m D).det := by
  rw [isUnit_iff_ne_zero]
  intro h
  obtain ⟨v, hv, hv'⟩ := Matrix.exists_mulVec_eq_zero_iff.2 h
  refine hv (hD v (kin_eq_zero m hm _ ?_))
  unfold kin
  have := transpose_dot D v (fun i => Dᵀ.mulVec v i / m i)
  rw [this]
  have h2 : D.mulVec (fun i => Dᵀ.mulVec v i / m i) = 0 := by
    rw [gram_mulVec] at hv'
    exact hv'
  rw [h2]
  simp

/-- The projected momenta keep the constraints fulfilled. -/
theorem projCot_tangent (hG : IsUnit (gram m D).det) : Tangent m D (projCot m D p) := by
  rw [← rate_zero_iff]
  unfold projCot
  rw [rate_sub, ← gram_mulVec, mulVec_mulVec, mul_nonsing_inv _ hG, one_mulVec, sub_self]

/-- Momenta that keep the constraints fulfilled are not changed. -/
theorem projCot_id (h : Tangent m D p) : projCot m D p = p := by
  rw [← rate_zero_iff] at h
  unfold projCot
  rw [h]
  simp

/-- The removed part of the momenta is orthogonal, with the inverse masses as weights, to all momenta that keep the constraints fulfilled: the energies add. -/
theorem projCot_pythagoras (hG : IsUnit (gram m D).det) (r : ι → ℝ) (hr : Tangent m D r) :
    kin m (fun i => p i - r i) = kin m (fun i => p i - projCot m D p i) + kin m (fun i => projCot m D p i - r i) := by
  set x := (gram m D)⁻¹.mulVec (rate m D p) with hx
  have h1 : ∀ s : ι → ℝ, Tangent m D s → ∑ i, Dᵀ.mulVec x i * (s i / m i) = 0 := by
    intro s hs
    rw [transpose_dot]
    refine Finset.sum_eq_zero fun k _ => ?_
    have : D.mulVec (fun i => s i / m i) k = 0 := hs k
    rw [this, mul_zero]
  have h2 := h1 _ (projCot_tangent m D p hG)
  have h3 := h1 r hr
  have h4 : ∀ i, p i - projCot m D p i = Dᵀ.mulVec x i := by
    intro i
    unfold projCot
    ring
  unfold kin
  rw [← mul_add, ← Finset.sum_add_distrib]
  congr 1
  have h5 : ∑ i, (p i - r i) * ((p i - r i) / m i) =
      ∑ i, ((p i - projCot m D p i) * ((p i - projCot m D p i) / m i) + (projCot m D p i - r i) * ((projCot m D p i - r i) / m i))
      + 2 * (∑ i, Dᵀ.mulVec x i * (projCot m D p i / m i) - ∑ i, Dᵀ.mulVec x i * (r i / m i)) := by
    rw [← Finset.sum_sub_distrib, Finset.mul_sum, ← Finset.sum_add_distrib]
    refine Finset.sum_congr rfl fun i _ => ?_
    rw [← h4 i]
    ring
  rw [h5, h2, h3]
  ring

/-- Of all momenta that keep the constraints fulfilled the projected ones are the nearest. -/
theorem projCot_nearest (hm : ∀ i, 0 < m i) (hG : IsUnit (gram m D).det) (r : ι → ℝ) (hr : Tangent m D r) :
    kin m (fun i => p i - projCot m D p i) ≤ kin m (fun i => p i - r i) := by
  rw [projCot_pythagoras m D p hG r hr]
  have := kin_nonneg m hm (fun i => projCot m D p i - r i)
  linarith

/-- The kinetic energy is reduced by the energy of the removed part. -/
theorem projCot_energy (hG : IsUnit (gram m D).det) : kin m (projCot m D p) = kin m p - kin m (fun i => p i - projCot m D p i) := by
  have h := projCot_pythagoras m D p hG (fun _ => 0) (fun k => by simp)
  simp only [sub_zero] at h
  linarith

/-- Movements that do not change the constraints, such as translations of the whole molecule, keep their momentum. -/
theorem projCot_conserves (u : ι → ℝ) (hu : D.mulVec u = 0) : ∑ i, projCot m D p i * u i = ∑ i, p i * u i := by
  unfold projCot
  simp only [sub_mul, Finset.sum_sub_distrib]
  rw [transpose_dot, hu]
  simp

omit [Fintype κ] [DecidableEq κ] in
/-- Removing the velocity of the centre of mass does not violate constraints that translations do not change. -/
theorem com_removal_tangent (hm : ∀ i, 0 < m i) (u : ι → ℝ) (hu : D.mulVec u = 0) (h : Tangent m D p) (v : ℝ) :
    Tangent m D (fun i => p i - m i * (v * u i)) := by
  intro k
  have h2 : ∑ i, D k i * u i = 0 := congrFun hu k
  have h3 : ∑ i, D k i * ((p i - m i * (v * u i)) / m i) = ∑ i, D k i * (p i / m i) - v * ∑ i, D k i * u i := by
    rw [Finset.mul_sum, ← Finset.sum_sub_distrib]
    refine Finset.sum_congr rfl fun i _ => ?_
    have := (hm i).ne'
    field_simp
  rw [h3, h2, h k]
  ring

lemma projCot_other (D' : Matrix κ' ι ℝ) (h : Independent m D D') (hp : Tangent m D p) : Tangent m D (projCot m D' p) := by
  set x := (gram m D')⁻¹.mulVec (rate m D' p) with hx
  intro k
  have h1 : ∀ i, projCot m D' p i = p i - ∑ l, D' l i * x l := fun i => rfl
  have h2 : ∑ i, D k i * (projCot m D' p i / m i) = ∑ i, D k i * (p i / m i) - ∑ l, x l * ∑ i, D k i * (D' l i / m i) := by
    simp only [Finset.mul_sum]
    rw [Finset.sum_comm, ← Finset.sum_sub_distrib]
    refine Finset.sum_congr rfl fun i _ => ?_
    rw [h1, sub_div, mul_sub, Finset.sum_div, Finset.mul_sum]
    congr 1
    refine Finset.sum_congr rfl fun l _ => ?_
    ring
  rw [h2, hp k]
  simp [h k]

end Proj

section Blocks

variable {ι : Type} [Fintype ι] (m : ι → ℝ)

lemma foldl_tangent (base : ι → ℝ) : ∀ (bs : List (Block ι)) (p : ι → ℝ) (c : ℕ) (D : Matrix (Fin c) ι ℝ), Tangent m D p →
    (∀ b ∈ bs, Independent m D (b.D base)) → Tangent m D (bs.foldl (fun p b => projCot m (b.D base) p) p)
  | [], _, _, _, h, _ => h
  | b :: bs, p, c, D, h, hi => foldl_tangent base bs _ c D (projCot_other m D p (b.D base) (hi b (by simp)) h) fun b' hb' => hi b' (by simp [hb'])

lemma foldl_all (base : ι → ℝ) : ∀ (bs : List (Block ι)) (p : ι → ℝ), (∀ b ∈ bs, IsUnit (gram m (b.D base)).det) →
    bs.Pairwise (fun b b' => Independent m (b.D base) (b'.D base)) →
    ∀ b ∈ bs, Tangent m (b.D base) (bs.foldl (fun p b => projCot m (b.D base) p) p)
  | [], _, _, _, b, hb => by simp at hb
  | b0 :: bs, p, hG, hi, b, hb => by
    rw [List.pairwise_cons] at hi
    rw [List.foldl_cons]
    rcases List.mem_cons.1 hb with h | h
    · subst h
      exact foldl_tangent m base bs _ _ _ (projCot_tangent m _ p (hG b (by simp))) hi.1
    · exact foldl_all base bs _ (fun b' hb' => hG b' (by simp [hb'])) hi.2 b h

/-- Groups that do not share atoms: after the projection the momenta are compatible with the constraints of all groups. -/
theorem all_groups_tangent (bs : List (Block ι)) (s : St ι) (hG : ∀ b ∈ bs, IsUnit (gram m (b.D s.base)).det)
    (hi : bs.Pairwise fun b b' => Independent m (b.D s.base) (b'.D s.base)) :
    ∀ b ∈ bs, Tangent m (b.D s.base) (projCotangent m bs s).p := foldl_all m s.base bs s.p hG hi

omit [Fintype ι] in
/-- Rows that have no column in common belong to independent groups. -/
theorem disjoint_independent [Fintype ι] {c c' : ℕ} (D : Matrix (Fin c) ι ℝ) (D' : Matrix (Fin c') ι ℝ)
    (h : ∀ i, (∀ k, D k i = 0) ∨ (∀ l, D' l i = 0)) : Independent m D D' := by
  intro k l
  refine Finset.sum_eq_zero fun i _ => ?_
  rcases h i with h1 | h1
  · rw [h1 k, zero_mul]
  · rw [h1 l, zero_div, mul_zero]

end Blocks

/-! ### Groups that share an atom -/

/-- Two bonds of a chain of three atoms on the x axis, given as separate groups; only the x components are shown. -/
noncomputable def chain1 : Block (Fin 3) := ⟨1, fun _ _ => 0, fun _ => !![-2, 2, 0], fun _ => 0⟩
noncomputable def chain2 : Block (Fin 3) := ⟨1, fun _ _ => 0, fun _ => !![0, -2, 2], fun _ => 0⟩

lemma projCot_row {ι : Type} [Fintype ι] (m : ι → ℝ) (D : Matrix (Fin 1) ι ℝ) (p : ι → ℝ) (i : ι) :
    projCot m D p i = p i - D 0 i * ((∑ j, D 0 j * (D 0 j / m j))⁻¹ * ∑ j, D 0 j * (p j / m j)) := by
  have hg : (gram m D) 0 0 = ∑ j, D 0 j * (D 0 j / m j) := rfl
  unfold projCot
  simp only [mulVec, dotProduct, Fin.sum_univ_one, transpose_apply, Matrix.inv_def, Matrix.adjugate_fin_one, Matrix.det_fin_one,
    Ring.inverse_eq_inv', Matrix.smul_apply, Matrix.one_apply_eq, smul_eq_mul, mul_one, hg, rate]

lemma gram_row_unit {ι : Type} [Fintype ι] (m : ι → ℝ) (D : Matrix (Fin 1) ι ℝ) (h : ∑ j, D 0 j * (D 0 j / m j) ≠ 0) : IsUnit (gram m D).det := by
  rw [Matrix.det_fin_one, isUnit_iff_ne_zero]
  exact h

/-- Groups that share an atom: the projection of the second group spoils the first one. -/
theorem shared_atom_not_tangent : ∃ (m : Fin 3 → ℝ) (bs : List (Block (Fin 3))) (s : St (Fin 3)), (∀ i, 0 < m i) ∧
    (∀ b ∈ bs, IsUnit (gram m (b.D s.base)).det) ∧ ∃ b ∈ bs, ¬ Tangent m (b.D s.base) (projCotangent m bs s).p := by
  refine ⟨fun _ => 1, [chain1, chain2], ⟨fun _ => 0, ![1, 0, 0], fun _ => 0⟩, fun _ => one_pos, ?_, chain1, by simp, ?_⟩
  · intro b hb
    simp only [List.mem_cons, List.not_mem_nil, or_false] at hb
    rcases hb with rfl | rfl
    · refine gram_row_unit (fun _ => 1) !![-2, 2, 0] ?_
      simp [Fin.sum_univ_three]
    · refine gram_row_unit (fun _ => 1) !![0, -2, 2] ?_
      simp [Fin.sum_univ_three]
  · intro h
    have h0 := h (0 : Fin 1)
    change ∑ i, (!![-2, 2, 0] : Matrix (Fin 1) (Fin 3) ℝ) 0 i * (projCot (fun _ => (1 : ℝ)) (!![0, -2, 2] : Matrix (Fin 1) (Fin 3) ℝ)
      (projCot (fun _ => (1 : ℝ)) (!![-2, 2, 0] : Matrix (Fin 1) (Fin 3) ℝ) ![1, 0, 0]) i / 1) = 0 at h0
    rw [Fin.sum_univ_three] at h0
    simp only [projCot_row, Fin.sum_univ_three] at h0
    simp at h0
    norm_num at h0

section Manifold

variable {ι κ : Type} [Fintype ι] [Fintype κ] [DecidableEq κ]
variable (m : ι → ℝ) (dt tol : ℝ) (g : (ι → ℝ) → κ → ℝ) (nrm : (κ → ℝ) → ℝ) (D : Matrix κ ι ℝ)

/-- The iteration ends with fulfilled constraints, or in the last pass. -/
theorem newton_end : ∀ (n i : ℕ) (x : (ι → ℝ) × (ι → ℝ)),
    nrm (g (newton m dt tol g nrm D n i x).1.1) < tol ∨ (newton m dt tol g nrm D n i x).2 = i + n - 1
  | 0, i, x => Or.inr rfl
  | n + 1, i, x => by
    unfold newton
    by_cases h : nrm (g x.1) < tol
    · rw [if_pos h]
      exact Or.inl h
    · rw [if_neg h]
      rcases newton_end n (i + 1) _ with h1 | h1
      · exact Or.inl h1
      · right
        rw [h1]
        omega

/-- Ending before the last pass means that the constraints are fulfilled within the tolerance. -/
theorem newton_converged (maxit : ℕ) (x : (ι → ℝ) × (ι → ℝ)) (h : (newton m dt tol g nrm D maxit 0 x).2 + 1 < maxit) :
    nrm (g (newton m dt tol g nrm D maxit 0 x).1.1) < tol := by
  rcases newton_end m dt tol g nrm D maxit 0 x with h1 | h1
  · exact h1
  · omega

lemma newton_last : ∀ (n i : ℕ) (x : (ι → ℝ) × (ι → ℝ)), 0 < i + n → (newton m dt tol g nrm D n i x).2 < i + n
  | 0, i, x, h => by
    unfold newton
    show i - 1 < i + 0
    omega
  | n + 1, i, x, h => by
    unfold newton
    by_cases h1 : nrm (g x.1) < tol
    · rw [if_pos h1]
      show i < _
      omega
    · rw [if_neg h1]
      have := newton_last n (i + 1) (fun j => x.1 j - delta m D (g x.1) j / m j, fun j => x.2 j - delta m D (g x.1) j / dt) (by omega)
      omega

/-- The warning that the iteration has not converged is never given. -/
theorem never_warned (maxit : ℕ) (hm : 0 < maxit) (x : (ι → ℝ) × (ι → ℝ)) : warned maxit (newton m dt tol g nrm D maxit 0 x).2 = false := by
  have := newton_last m dt tol g nrm D maxit 0 x (by omega)
  unfold warned
  rw [beq_eq_false_iff_ne]
  omega

/-- The positions are those reached from the same point with the corrected momenta. -/
theorem newton_consistent (hdt : dt ≠ 0) : ∀ (n i : ℕ) (x : (ι → ℝ) × (ι → ℝ)) (j : ι),
    (newton m dt tol g nrm D n i x).1.1 j - (newton m dt tol g nrm D n i x).1.2 j / m j * dt = x.1 j - x.2 j / m j * dt
  | 0, i, x, j => rfl
  | n + 1, i, x, j => by
    unfold newton
    by_cases h1 : nrm (g x.1) < tol
    · rw [if_pos h1]
    · rw [if_neg h1, newton_consistent hdt n (i + 1) _ j]
      dsimp only
      by_cases hj : m j = 0
      · simp [hj]
      · field_simp
        ring

/-- Movements that do not change the constraints keep their momentum. -/
theorem newton_conserves (u : ι → ℝ) (hu : D.mulVec u = 0) : ∀ (n i : ℕ) (x : (ι → ℝ) × (ι → ℝ)),
    ∑ j, (newton m dt tol g nrm D n i x).1.2 j * u j = ∑ j, x.2 j * u j
  | 0, i, x => rfl
  | n + 1, i, x => by
    unfold newton
    by_cases h1 : nrm (g x.1) < tol
    · rw [if_pos h1]
    · rw [if_neg h1, newton_conserves u hu n (i + 1) _]
      dsimp only
      have h2 : ∑ j, delta m D (g x.1) j * u j = 0 := by
        unfold delta
        rw [transpose_dot, hu]
        simp
      have h3 : ∑ j, (x.2 j - delta m D (g x.1) j / dt) * u j = ∑ j, x.2 j * u j - (∑ j, delta m D (g x.1) j * u j) / dt := by
        rw [Finset.sum_div, ← Finset.sum_sub_distrib]
        refine Finset.sum_congr rfl fun j _ => ?_
        ring
      rw [h3, h2]
      simp

/-- Constraints that are linear in the positions are fulfilled exactly after one pass. -/
theorem newton_linear (hG : IsUnit (gram m D).det) (hg : ∀ q v, g (fun j => q j + v j) = g q + D.mulVec v) (q : ι → ℝ) :
    g (fun j => q j - delta m D (g q) j / m j) = 0 := by
  have h := hg q (fun j => -(delta m D (g q) j / m j))
  have h1 : (fun j => q j + -(delta m D (g q) j / m j)) = fun j => q j - delta m D (g q) j / m j := by
    funext j
    ring
  rw [h1] at h
  rw [h]
  have h2 : D.mulVec (fun j => -(delta m D (g q) j / m j)) = - rate m D (delta m D (g q)) := by
    unfold rate
    rw [← mulVec_neg]
    rfl
  rw [h2]
  unfold delta
  rw [← gram_mulVec, mulVec_mulVec, mul_nonsing_inv _ hG, one_mulVec, add_neg_cancel]

theorem newton_linear_end (hG : IsUnit (gram m D).det) (hg : ∀ q v, g (fun j => q j + v j) = g q + D.mulVec v)
    (hn : nrm 0 < tol) (maxit : ℕ) (h2 : 2 ≤ maxit) (x : (ι → ℝ) × (ι → ℝ)) : nrm (g (newton m dt tol g nrm D maxit 0 x).1.1) < tol := by
  obtain ⟨n, rfl⟩ := Nat.exists_eq_add_of_le h2
  rw [show 2 + n = (n + 1) + 1 from by omega]
  unfold newton
  by_cases h1 : nrm (g x.1) < tol
  · rw [if_pos h1]
    exact h1
  · rw [if_neg h1]
    unfold newton
    have h3 := newton_linear m g D hG hg x.1
    rw [if_pos (by dsimp only; rw [h3]; exact hn)]
    dsimp only
    rw [h3]
    exact hn

end Manifold

section Steps

variable {ι : Type} [Fintype ι] (m : ι → ℝ) (dt tol : ℝ) (maxit : ℕ)

lemma manifold_consistent (hdt : dt ≠ 0) (base : ι → ℝ) : ∀ (bs : List (Block ι)) (x : (ι → ℝ) × (ι → ℝ)) (j : ι),
    (manifold m dt tol maxit base bs x).1 j - (manifold m dt tol maxit base bs x).2 j / m j * dt = x.1 j - x.2 j / m j * dt
  | [], _, _ => rfl
  | b :: bs, x, j => by
    unfold manifold
    rw [manifold_consistent hdt base bs _ j]
    exact newton_consistent m dt tol b.g b.nrm (b.D base) hdt maxit 0 x j

/-- A step of the geodesic integrator before the last projection: the particles have moved with the momenta they have now. -/
theorem step_consistent (hdt : dt ≠ 0) (bs : List (Block ι)) (s : St ι) (j : ι) :
    (projManifold m dt tol maxit bs (stepA m dt s)).q j = s.q j + (projManifold m dt tol maxit bs (stepA m dt s)).p j / m j * dt := by
  have h := manifold_consistent m dt tol maxit hdt s.base bs ((stepA m dt s).q, (stepA m dt s).p) j
  have h1 : (stepA m dt s).q j = s.q j + s.p j / m j * dt := rfl
  have h2 : (stepA m dt s).p j = s.p j := rfl
  dsimp only at h
  rw [h1, h2] at h
  unfold projManifold
  show (manifold m dt tol maxit s.base bs ((stepA m dt s).q, (stepA m dt s).p)).1 j
    = s.q j + (manifold m dt tol maxit s.base bs ((stepA m dt s).q, (stepA m dt s).p)).2 j / m j * dt
  linarith

lemma projCotangent_q (bs : List (Block ι)) (s : St ι) : (projCotangent m bs s).q = s.q := rfl

lemma projCotangent_base (bs : List (Block ι)) (s : St ι) : (projCotangent m bs s).base = s.base := rfl

/-- The Jacobians are taken at the current positions at the end of every step. -/
theorem base_current (bs : List (Block ι)) : ∀ (n : ℕ) (s : St ι), s.base = s.q → (geodesic m dt tol maxit bs n s).base = (geodesic m dt tol maxit bs n s).q
  | 0, _, h => h
  | n + 1, _, _ => base_current bs n _ rfl

/-- After a step of the geodesic integrator the velocities are compatible with the constraints at the new positions. -/
theorem stepAg_tangent (nsteps : ℕ) (bs : List (Block ι)) (s : St ι) (hb : s.base = s.q) (hG : ∀ b ∈ bs, ∀ q, IsUnit (gram m (b.D q)).det)
    (hi : ∀ q, bs.Pairwise fun b b' => Independent m (b.D q) (b'.D q)) :
    ∀ b ∈ bs, Tangent m (b.D (stepAg m dt tol maxit nsteps bs s).q) (stepAg m dt tol maxit nsteps bs s).p := by
  have key : ∀ (n : ℕ) (s : St ι), s.base = s.q → (∀ b ∈ bs, Tangent m (b.D s.q) s.p) →
      ∀ b ∈ bs, Tangent m (b.D (geodesic m dt tol maxit bs n s).q) (geodesic m dt tol maxit bs n s).p := by
    intro n
    induction n with
    | zero => intro s _ h; exact h
    | succ n ih =>
      intro s _ _
      refine ih _ rfl ?_
      intro b hbb
      exact all_groups_tangent m bs (projManifold m dt tol maxit bs (stepA m dt s)) (fun b hb => hG b hb _) (hi _) b hbb
  refine key nsteps _ (by rw [projCotangent_base, projCotangent_q, hb]) ?_
  intro b hbb
  rw [projCotangent_q, ← hb]
  exact all_groups_tangent m bs s (fun b hb => hG b hb _) (hi _) b hbb

lemma manifold_conserves (base u : ι → ℝ) : ∀ (bs : List (Block ι)) (x : (ι → ℝ) × (ι → ℝ)), (∀ b ∈ bs, (b.D base).mulVec u = 0) →
    ∑ j, (manifold m dt tol maxit base bs x).2 j * u j = ∑ j, x.2 j * u j
  | [], _, _ => rfl
  | b :: bs, x, h => by
    unfold manifold
    rw [manifold_conserves base u bs _ fun b' hb' => h b' (by simp [hb'])]
    exact newton_conserves m dt tol b.g b.nrm (b.D base) u (h b (by simp)) maxit 0 x

lemma foldl_conserves (base u : ι → ℝ) : ∀ (bs : List (Block ι)) (p : ι → ℝ), (∀ b ∈ bs, (b.D base).mulVec u = 0) →
    ∑ j, (bs.foldl (fun p b => projCot m (b.D base) p) p) j * u j = ∑ j, p j * u j
  | [], _, _ => rfl
  | b :: bs, p, h => by
    rw [List.foldl_cons, foldl_conserves base u bs _ fun b' hb' => h b' (by simp [hb'])]
    exact projCot_conserves m (b.D base) p u (h b (by simp))

/-- A step of the geodesic integrator keeps the momentum of a movement that changes none of the constraints. -/
theorem stepAg_conserves (nsteps : ℕ) (bs : List (Block ι)) (s : St ι) (u : ι → ℝ) (hu : ∀ b ∈ bs, ∀ q, (b.D q).mulVec u = 0) :
    ∑ j, (stepAg m dt tol maxit nsteps bs s).p j * u j = ∑ j, s.p j * u j := by
  have key : ∀ (n : ℕ) (s : St ι), ∑ j, (geodesic m dt tol maxit bs n s).p j * u j = ∑ j, s.p j * u j := by
    intro n
    induction n with
    | zero => intro s; rfl
    | succ n ih =>
      intro s
      unfold geodesic
      rw [ih]
      unfold projCotangent
      dsimp only
      rw [foldl_conserves m _ u bs _ fun b hb => hu b hb _]
      unfold projManifold
      dsimp only
      rw [manifold_conserves m dt tol maxit _ u bs _ fun b hb => hu b hb _]
      rfl
  unfold stepAg
  rw [key]
  unfold projCotangent
  exact foldl_conserves m _ u bs _ fun b hb => hu b hb _

/-- The projection after the thermostat does not change the conserved quantity. -/
theorem stepOc_conserved (bs : List (Block ι)) (s : St ι) (eens : ℝ) :
    kin m (stepOc m bs (s, eens)).1.p + (stepOc m bs (s, eens)).2 = kin m s.p + eens := by
  unfold stepOc
  dsimp only
  ring

/-- Without a thermostat the energy that the projection removes from the initial momenta is missing from the conserved quantity. -/
theorem stepBc_loses_energy (hm : ∀ i, 0 < m i) (b : Block ι) (s : St ι) (eens : ℝ) (hG : IsUnit (gram m (b.D s.base)).det)
    (h : ¬ Tangent m (b.D s.base) s.p) :
    kin m (stepBc m [b] (fun _ => 0) dt (s, eens)).1.p + (stepBc m [b] (fun _ => 0) dt (s, eens)).2 < kin m s.p + eens := by
  have h1 : (stepBc m [b] (fun _ => 0) dt (s, eens)).1.p = projCot m (b.D s.base) s.p := by
    unfold stepBc projCotangent
    simp
  have h2 : (stepBc m [b] (fun _ => 0) dt (s, eens)).2 = eens := rfl
  rw [h1, h2, projCot_energy m _ _ hG]
  have h3 := kin_nonneg m hm (fun i => s.p i - projCot m (b.D s.base) s.p i)
  have h4 : kin m (fun i => s.p i - projCot m (b.D s.base) s.p i) ≠ 0 := by
    intro h5
    have h6 := kin_eq_zero m hm _ h5
    apply h
    have h7 : projCot m (b.D s.base) s.p = s.p := by
      funext i
      have := congrFun h6 i
      simp only [Pi.zero_apply] at this
      linarith
    rw [← h7]
    exact projCot_tangent m _ _ hG
  have h5 := lt_of_le_of_ne h3 (Ne.symm h4)
  linarith

/-- The force acts for the time step: what is conserved by the projection changes by the force times the time step. -/
theorem stepBc_impulse (bs : List (Block ι)) (f : ι → ℝ) (s : St ι) (eens : ℝ) (u : ι → ℝ)
    (hu : ∀ b ∈ bs, ∀ q, (b.D q).mulVec u = 0) :
    ∑ i, (stepBc m bs f dt (s, eens)).1.p i * u i = ∑ i, s.p i * u i + dt * ∑ i, f i * u i := by
  have key : ∀ (bs : List (Block ι)) (s : St ι), (∀ b ∈ bs, ∀ q, (b.D q).mulVec u = 0) →
      ∑ i, (projCotangent m bs s).p i * u i = ∑ i, s.p i * u i := by
    intro bs s h
    unfold projCotangent
    exact foldl_conserves m _ u bs _ fun b hb => h b hb _
  unfold stepBc
  dsimp only
  rw [key bs _ hu]
  dsimp only
  rw [Finset.mul_sum, ← Finset.sum_add_distrib]
  exact Finset.sum_congr rfl fun i _ => by ring

/-- The constraints of a block only involve the coordinates in `S`. -/
def Local (b : Block ι) (S : ι → Prop) : Prop :=
  (∀ base k i, ¬ S i → b.D base k i = 0) ∧ ∀ q q' : ι → ℝ, (∀ i, S i → q i = q' i) → b.g q = b.g q'

/-- The iterations of all blocks end because their constraints are fulfilled within the tolerance. -/
def Converged (base : ι → ℝ) : List (Block ι) → (ι → ℝ) × (ι → ℝ) → Prop
  | [], _ => True
  | b :: bs, x => b.nrm (b.g (newton m dt tol b.g b.nrm (b.D base) maxit 0 x).1.1) < tol ∧
      Converged base bs (newton m dt tol b.g b.nrm (b.D base) maxit 0 x).1

lemma newton_outside {κ : Type} [Fintype κ] [DecidableEq κ] (g : (ι → ℝ) → κ → ℝ) (nrm : (κ → ℝ) → ℝ) (D : Matrix κ ι ℝ) (j : ι)
    (hj : ∀ k, D k j = 0) : ∀ (n i : ℕ) (x : (ι → ℝ) × (ι → ℝ)), (newton m dt tol g nrm D n i x).1.1 j = x.1 j
  | 0, i, x => rfl
  | n + 1, i, x => by
    unfold newton
    by_cases h1 : nrm (g x.1) < tol
    · rw [if_pos h1]
    · rw [if_neg h1, newton_outside g nrm D j hj n (i + 1) _]
      have : delta m D (g x.1) j = 0 := by
        unfold delta
        simp [mulVec, dotProduct, hj]
      dsimp only
      rw [this]
      simp

lemma manifold_outside (base : ι → ℝ) (j : ι) : ∀ (bs : List (Block ι)) (x : (ι → ℝ) × (ι → ℝ)), (∀ b ∈ bs, ∀ k, b.D base k j = 0) →
    (manifold m dt tol maxit base bs x).1 j = x.1 j
  | [], _, _ => rfl
  | b :: bs, x, h => by
    unfold manifold
    rw [manifold_outside base j bs _ fun b' hb' => h b' (by simp [hb'])]
    exact newton_outside m dt tol b.g b.nrm (b.D base) j (h b (by simp)) maxit 0 x

/-- Groups that do not share atoms: if all iterations converge, the final positions fulfil the constraints of all groups. -/
theorem manifold_all (base : ι → ℝ) (S : Block ι → ι → Prop) : ∀ (bs : List (Block ι)) (x : (ι → ℝ) × (ι → ℝ)), (∀ b ∈ bs, Local b (S b)) →
    bs.Pairwise (fun b b' => ∀ i, ¬ (S b i ∧ S b' i)) → Converged m dt tol maxit base bs x →
    ∀ b ∈ bs, b.nrm (b.g (manifold m dt tol maxit base bs x).1) < tol
  | [], _, _, _, _, b, hb => by simp at hb
  | b0 :: bs, x, hl, hd, hc, b, hb => by
    rw [List.pairwise_cons] at hd
    unfold manifold
    rcases List.mem_cons.1 hb with h | h
    · subst h
      have e : b.g (manifold m dt tol maxit base bs (newton m dt tol b.g b.nrm (b.D base) maxit 0 x).1).1
          = b.g (newton m dt tol b.g b.nrm (b.D base) maxit 0 x).1.1 := by
        refine (hl b (by simp)).2 _ _ fun i hi => ?_
        refine manifold_outside m dt tol maxit base i bs _ fun b' hb' k => ?_
        exact (hl b' (by simp [hb'])).1 base k i fun h' => hd.1 b' hb' i ⟨hi, h'⟩
      rw [e]
      exact hc.1
    · exact manifold_all base S bs _ (fun b' hb' => hl b' (by simp [hb'])) hd.2 hc.2 b h

end Steps

/-- An iteration that has not converged ends without a warning. -/
theorem silent_failure : ∃ (g : (Fin 1 → ℝ) → Fin 1 → ℝ) (D : Matrix (Fin 1) (Fin 1) ℝ) (x : (Fin 1 → ℝ) × (Fin 1 → ℝ)),
    (1 / 10000 : ℝ) ≤ |g (newton (fun _ => 1) 1 (1 / 10000) g (fun v => |v 0|) D 1 0 x).1.1 0| ∧
    warned 1 (newton (fun _ => 1) 1 (1 / 10000) g (fun v => |v 0|) D 1 0 x).2 = false := by
  refine ⟨fun q _ => q 0 ^ 2 - 4, 1, (fun _ => 1, fun _ => 0), ?_, ?_⟩
  · have hg : gram (fun _ : Fin 1 => (1 : ℝ)) (1 : Matrix (Fin 1) (Fin 1) ℝ) = 1 := by
      ext i j
      fin_cases i
      fin_cases j
      simp [gram, Matrix.mul_apply]
    have hn : ¬ |((1 : ℝ) ^ 2 - 4)| < 1 / 10000 := by norm_num
    unfold newton
    rw [if_neg hn]
    unfold newton delta
    rw [hg]
    simp
    norm_num
  · exact never_warned (fun _ => 1) 1 (1 / 10000) _ _ _ 1 (by omega) _

/-! ### The constraints and their Jacobians -/

section Jac

variable {N : ℕ}

lemma quad (A B C : ℝ) : HasDerivAt (fun t : ℝ => A + t * B + t ^ 2 * C) B 0 := by
  have h1 := ((hasDerivAt_id (0 : ℝ)).mul_const B).const_add A
  have h2 := ((hasDerivAt_id (0 : ℝ)).pow 2).mul_const C
  refine (h1.add h2).congr_deriv ?_
  simp

lemma dot_line (u w v z : Fin 3 → ℝ) :
    HasDerivAt (fun t : ℝ => dot (fun k => u k + t * w k) (fun k => v k + t * z k)) (dot w v + dot u z) 0 := by
  have h : (fun t : ℝ => dot (fun k => u k + t * w k) (fun k => v k + t * z k)) =
      fun t => dot u v + t * (dot w v + dot u z) + t ^ 2 * dot w z := by
    funext t
    unfold dot
    simp only [Fin.sum_univ_three]
    ring
  rw [h]
  exact quad _ _ _

lemma diff_line (q v : Fin N × Fin 3 → ℝ) (i j : Fin N) (t : ℝ) :
    diff (fun x => q x + t * v x) i j = fun k => diff q i j k + t * diff v i j k := by
  funext k
  unfold diff
  ring

lemma sum_atoms (f : Fin N × Fin 3 → ℝ) : ∑ x, f x = ∑ a, ∑ k, f (a, k) := Fintype.sum_prod_type f

lemma bondRow_sum (i j : Fin N) (q v : Fin N × Fin 3 → ℝ) : ∑ x, bondRow i j q x * v x = 2 * dot (diff q i j) (diff v i j) := by
  rw [sum_atoms]
  by_cases hij : i = j
  · subst hij
    have h0 : ∀ k, diff q i i k = 0 := fun k => by unfold diff; ring
    simp [bondRow, dot, h0]
  · have h1 : ∀ a : Fin N, ∑ k, bondRow i j q (a, k) * v (a, k) =
        (if a = j then ∑ k, -2 * diff q i j k * v (j, k) else 0) + (if a = i then ∑ k, 2 * diff q i j k * v (i, k) else 0) := by
      intro a
      unfold bondRow
      dsimp only
      by_cases h2 : a = j
      · subst h2
        simp [show ¬ a = i from fun h => hij h.symm]
      · by_cases h3 : a = i
        · subst h3
          simp [h2]
        · simp [h2, h3]
    simp only [h1, Finset.sum_add_distrib, Finset.sum_ite_eq', Finset.mem_univ, if_true]
    unfold dot
    simp only [Fin.sum_univ_three]
    unfold diff
    ring

/-- The rows for the bonds are the derivatives of the constraints along any movement of the atoms. -/
theorem bond_derivative (i j : Fin N) (d : ℝ) (q v : Fin N × Fin 3 → ℝ) :
    HasDerivAt (fun t : ℝ => bondG i j d (fun x => q x + t * v x)) (∑ x, bondRow i j q x * v x) 0 := by
  rw [bondRow_sum]
  have h := (dot_line (diff q i j) (diff v i j) (diff q i j) (diff v i j)).sub_const (d ^ 2)
  have h2 : (fun t : ℝ => bondG i j d (fun x => q x + t * v x)) =
      fun t => dot (fun k => diff q i j k + t * diff v i j k) (fun k => diff q i j k + t * diff v i j k) - d ^ 2 := by
    funext t
    unfold bondG
    rw [diff_line]
  rw [h2]
  refine h.congr_deriv ?_
  unfold dot
  simp only [Fin.sum_univ_three]
  ring

lemma angleRow_sum (c a b : Fin N) (hca : c ≠ a) (hcb : c ≠ b) (hab : a ≠ b) (q v : Fin N × Fin 3 → ℝ) :
    ∑ x, angleRow c a b q x * v x = dot (anglePart (diff q a c) (diff q b c)) (diff v a c) + dot (anglePart (diff q b c) (diff q a c)) (diff v b c) := by
  rw [sum_atoms]
  have h1 : ∀ e : Fin N, ∑ k, angleRow c a b q (e, k) * v (e, k) =
      (if e = c then ∑ k, -(anglePart (diff q a c) (diff q b c) k + anglePart (diff q b c) (diff q a c) k) * v (c, k) else 0)
      + (if e = b then ∑ k, anglePart (diff q b c) (diff q a c) k * v (b, k) else 0)
      + (if e = a then ∑ k, anglePart (diff q a c) (diff q b c) k * v (a, k) else 0) := by
    intro e
    unfold angleRow
    dsimp only
    by_cases h2 : e = c
    · subst h2
      simp [hca, hcb]
    · by_cases h3 : e = b
      · subst h3
        simp [h2, show ¬ e = a from fun h => hab h.symm]
      · by_cases h4 : e = a
        · subst h4
          simp [h2, h3]
        · simp [h2, h3, h4]
  simp only [h1, Finset.sum_add_distrib, Finset.sum_ite_eq', Finset.mem_univ, if_true]
  generalize anglePart (diff q a c) (diff q b c) = A
  generalize anglePart (diff q b c) (diff q a c) = B
  unfold dot diff
  simp only [Fin.sum_univ_three]
  ring

lemma anglePart_dot (u v w : Fin 3 → ℝ) : dot (anglePart u v) w =
    (dot v w / √(dot v v) - dot u v / (√(dot u u) * √(dot v v)) * (dot u w / √(dot u u))) / √(dot u u) := by
  unfold anglePart
  generalize √(dot u u) = ru
  generalize √(dot v v) = rv
  unfold dot
  simp only [Fin.sum_univ_three]
  simp only [div_eq_mul_inv, mul_inv]
  ring

/-- The rows for the angles are the derivatives of the constraints along any movement of the atoms. -/
theorem angle_derivative (c a b : Fin N) (hca : c ≠ a) (hcb : c ≠ b) (hab : a ≠ b) (θ : ℝ) (q v : Fin N × Fin 3 → ℝ)
    (ha : 0 < dot (diff q a c) (diff q a c)) (hb : 0 < dot (diff q b c) (diff q b c)) :
    HasDerivAt (fun t : ℝ => angleG c a b θ (fun x => q x + t * v x)) (∑ x, angleRow c a b q x * v x) 0 := by
  rw [angleRow_sum c a b hca hcb hab, anglePart_dot, anglePart_dot]
  have h2 : (fun t : ℝ => angleG c a b θ (fun x => q x + t * v x)) = fun t =>
      dot (fun k => diff q a c k + t * diff v a c k) (fun k => diff q b c k + t * diff v b c k)
      / √(dot (fun k => diff q a c k + t * diff v a c k) (fun k => diff q a c k + t * diff v a c k))
      / √(dot (fun k => diff q b c k + t * diff v b c k) (fun k => diff q b c k + t * diff v b c k)) - Real.cos θ := by
    funext t
    unfold angleG
    rw [diff_line, diff_line]
  rw [h2]
  generalize diff q a c = x at *
  generalize diff q b c = y at *
  generalize diff v a c = w at *
  generalize diff v b c = z at *
  have e0 : ∀ s r : Fin 3 → ℝ, (fun k => s k + (0 : ℝ) * r k) = s := fun s r => by funext k; ring
  have hxy := dot_line x w y z
  have hx := (dot_line x w x w).sqrt (by rw [e0]; exact ha.ne')
  have hy := (dot_line y z y z).sqrt (by rw [e0]; exact hb.ne')
  have hx0 : √(dot x x) ≠ 0 := (Real.sqrt_pos.2 ha).ne'
  have hy0 : √(dot y y) ≠ 0 := (Real.sqrt_pos.2 hb).ne'
  have h := ((hxy.fun_div hx (by rw [e0]; exact hx0)).fun_div hy (by rw [e0]; exact hy0)).sub_const (Real.cos θ)
  refine h.congr_deriv ?_
  simp only [e0]
  have c1 : dot w x = dot x w := by unfold dot; simp only [Fin.sum_univ_three]; ring
  have c2 : dot z y = dot y z := by unfold dot; simp only [Fin.sum_univ_three]; ring
  have c3 : dot w y = dot y w := by unfold dot; simp only [Fin.sum_univ_three]; ring
  have c4 : dot y x = dot x y := by unfold dot; simp only [Fin.sum_univ_three]; ring
  rw [c1, c2, c3, c4]
  generalize √(dot x x) = rx at *
  generalize √(dot y y) = ry at *
  field_simp
  ring

/-- Translations change neither bonds nor angles: the reactions of these constraints add no momentum. -/
theorem bond_translation (i j : Fin N) (q : Fin N × Fin 3 → ℝ) (e : Fin 3 → ℝ) : ∑ x, bondRow i j q x * e x.2 = 0 := by
  rw [bondRow_sum i j q (fun x => e x.2)]
  unfold dot diff
  simp

theorem angle_translation (c a b : Fin N) (hca : c ≠ a) (hcb : c ≠ b) (hab : a ≠ b) (q : Fin N × Fin 3 → ℝ) (e : Fin 3 → ℝ) :
    ∑ x, angleRow c a b q x * e x.2 = 0 := by
  rw [angleRow_sum c a b hca hcb hab q (fun x => e x.2)]
  unfold dot diff
  simp

/-- Rotations about the origin change no bond: the reactions add no angular momentum. -/
theorem bond_rotation (i j : Fin N) (q : Fin N × Fin 3 → ℝ) (R : Fin 3 → Fin 3 → ℝ) (hR : ∀ k l, R k l = - R l k) :
    ∑ x, bondRow i j q x * (∑ l, R x.2 l * q (x.1, l)) = 0 := by
  rw [bondRow_sum i j q (fun x => ∑ l, R x.2 l * q (x.1, l))]
  unfold dot diff
  simp only [Fin.sum_univ_three]
  have h0 : R 0 0 = 0 := by have := hR 0 0; linarith
  have h1 : R 1 1 = 0 := by have := hR 1 1; linarith
  have h2 : R 2 2 = 0 := by have := hR 2 2; linarith
  rw [hR 1 0, hR 2 0, hR 2 1, h0, h1, h2]
  ring

/-- If no length is given the initial structure fulfils the constraint. -/
theorem bond_initial (i j : Fin N) (q : Fin N × Fin 3 → ℝ) : bondG i j (bondValue i j q) q = 0 := by
  have h : 0 ≤ bondG i j 0 q := by
    unfold bondG dot
    have := Finset.sum_nonneg (s := Finset.univ) fun k (_ : k ∈ (Finset.univ : Finset (Fin 3))) => mul_self_nonneg (diff q i j k)
    simpa using this
  have hd : bondG i j 0 q = dot (diff q i j) (diff q i j) := by unfold bondG; ring
  unfold bondValue
  show dot (diff q i j) (diff q i j) - √(bondG i j 0 q) ^ 2 = 0
  rw [Real.sq_sqrt h, hd, sub_self]

lemma cauchy (u v : Fin 3 → ℝ) : dot u v ^ 2 ≤ dot u u * dot v v := by
  unfold dot
  simp only [Fin.sum_univ_three]
  nlinarith [sq_nonneg (u 0 * v 1 - u 1 * v 0), sq_nonneg (u 0 * v 2 - u 2 * v 0), sq_nonneg (u 1 * v 2 - u 2 * v 1)]

/-- If no angle is given the initial structure fulfils the constraint. -/
theorem angle_initial (c a b : Fin N) (q : Fin N × Fin 3 → ℝ) (ha : 0 < dot (diff q a c) (diff q a c))
    (hb : 0 < dot (diff q b c) (diff q b c)) : angleG c a b (angleValue c a b q) q = 0 := by
  unfold angleValue angleG
  rw [Real.cos_pi_div_two, sub_zero]
  have h := cauchy (diff q a c) (diff q b c)
  generalize diff q a c = x at *
  generalize diff q b c = y at *
  have h1 : (dot x y / √(dot x x) / √(dot y y)) ^ 2 ≤ 1 := by
    rw [div_pow, div_pow, Real.sq_sqrt ha.le, Real.sq_sqrt hb.le, div_div, div_le_one (mul_pos ha hb)]
    exact h
  have h2 := abs_le.1 ((sq_le_one_iff_abs_le_one _).1 h1)
  rw [Real.cos_arccos h2.1 h2.2, sub_self]

/-! ### The Eckart conditions -/

/-- The Eckart conditions are linear: their Jacobian gives the exact change for any movement. -/
theorem eckart_affine (M : Fin N → ℝ) (r q v : Fin N × Fin 3 → ℝ) :
    eckartG M r (fun x => q x + v x) = eckartG M r q + (eckartD M r).mulVec v := by
  funext k
  simp only [Pi.add_apply, mulVec, dotProduct]
  rw [sum_atoms]
  fin_cases k <;>
  · simp only [eckartG, eckartD, Fin.sum_univ_three, Fin.zero_eta, Fin.mk_one, Fin.reduceFinMk, Fin.isValue]
    simp only [Finset.sum_div]
    rw [← Finset.sum_add_distrib]
    refine Finset.sum_congr rfl fun a _ => ?_
    ring

/-- The reference structure fulfils the Eckart conditions; by default it is the initial structure. -/
theorem eckart_initial (M : Fin N → ℝ) (r : Fin N × Fin 3 → ℝ) : eckartG M r r = 0 := by
  funext k
  fin_cases k <;> simp [eckartG]

/-- Momenta compatible with the Eckart conditions have no total momentum. -/
theorem eckart_momentum (M : Fin N → ℝ) (hM : ∀ a, 0 < M a) (r p : Fin N × Fin 3 → ℝ) (ht : mtot M ≠ 0)
    (h : Tangent (fun x : Fin N × Fin 3 => M x.1) (eckartD M r) p) (k : Fin 3) : ∑ a, p (a, k) = 0 := by
  have key : ∀ l : Fin 6, ∑ a, ∑ j, eckartD M r l (a, j) * (p (a, j) / M a) = 0 := fun l => by
    rw [← sum_atoms (fun x => eckartD M r l x * (p x / M x.1))]
    exact h l
  have e : ∀ a j, M a / mtot M * (p (a, j) / M a) = p (a, j) / mtot M := fun a j => by
    have := (hM a).ne'
    field_simp
  fin_cases k
  · have := key 0
    simp only [eckartD, Fin.sum_univ_three, zero_mul, add_zero, e] at this
    rw [← Finset.sum_div, div_eq_zero_iff] at this
    exact this.resolve_right ht
  · have := key 1
    simp only [eckartD, Fin.sum_univ_three, zero_mul, add_zero, zero_add, e] at this
    rw [← Finset.sum_div, div_eq_zero_iff] at this
    exact this.resolve_right ht
  · have := key 2
    simp only [eckartD, Fin.sum_univ_three, zero_mul, zero_add, e] at this
    rw [← Finset.sum_div, div_eq_zero_iff] at this
    exact this.resolve_right ht

/-- The reference is relative to its centre of mass. -/
theorem refRel_centred (M : Fin N → ℝ) (r : Fin N × Fin 3 → ℝ) (ht : mtot M ≠ 0) (k : Fin 3) :
    ∑ a, M a * refRel M r (a, k) = 0 := by
  unfold refRel
  simp only [mul_sub, Finset.sum_sub_distrib]
  rw [← Finset.sum_mul]
  have : ∑ a, M a = mtot M := rfl
  rw [this, mul_div_cancel₀ _ ht, sub_eq_zero]
  exact Finset.sum_congr rfl fun a _ => mul_comm _ _

/-- Momenta compatible with the Eckart conditions have no angular momentum with respect to the reference structure. -/
theorem eckart_angular_momentum (M : Fin N → ℝ) (hM : ∀ a, 0 < M a) (r p : Fin N × Fin 3 → ℝ) (ht : mtot M ≠ 0)
    (h : Tangent (fun x : Fin N × Fin 3 => M x.1) (eckartD M r) p) :
    ∑ a, (refRel M r (a, 1) * p (a, 2) - refRel M r (a, 2) * p (a, 1)) = 0 ∧
    ∑ a, (refRel M r (a, 2) * p (a, 0) - refRel M r (a, 0) * p (a, 2)) = 0 ∧
    ∑ a, (refRel M r (a, 0) * p (a, 1) - refRel M r (a, 1) * p (a, 0)) = 0 := by
  have key : ∀ l : Fin 6, ∑ a, ∑ j, eckartD M r l (a, j) * (p (a, j) / M a) = 0 := fun l => by
    rw [← sum_atoms (fun x => eckartD M r l x * (p x / M x.1))]
    exact h l
  have fin : ∀ f : Fin N → ℝ, (∑ a, f a / mtot M) = 0 → ∑ a, f a = 0 := fun f hf => by
    rw [← Finset.sum_div, div_eq_zero_iff] at hf
    exact hf.resolve_right ht
  refine ⟨fin _ ?_, fin _ ?_, fin _ ?_⟩
  · rw [← key 3]
    refine Finset.sum_congr rfl fun a _ => ?_
    have := (hM a).ne'
    simp only [eckartD, Fin.sum_univ_three]
    field_simp
    ring
  · rw [← key 4]
    refine Finset.sum_congr rfl fun a _ => ?_
    have := (hM a).ne'
    simp only [eckartD, Fin.sum_univ_three]
    field_simp
    ring
  · rw [← key 5]
    refine Finset.sum_congr rfl fun a _ => ?_
    have := (hM a).ne'
    simp only [eckartD, Fin.sum_univ_three]
    field_simp
    ring

/-- For a linear molecule, here along the x axis, the conditions are not independent and the linear system has no solution. -/
theorem eckart_linear_singular (M : Fin N → ℝ) (r : Fin N × Fin 3 → ℝ) (h1 : ∀ a, r (a, 1) = 0) (h2 : ∀ a, r (a, 2) = 0) :
    (gram (fun x : Fin N × Fin 3 => M x.1) (eckartD M r)).det = 0 := by
  refine Matrix.det_eq_zero_of_row_eq_zero 3 fun l => ?_
  have e1 : ∀ a, refRel M r (a, 1) = 0 := fun a => by simp [refRel, h1]
  have e2 : ∀ a, refRel M r (a, 2) = 0 := fun a => by simp [refRel, h2]
  unfold gram
  rw [Matrix.mul_apply]
  refine Finset.sum_eq_zero fun x _ => ?_
  have : eckartD M r 3 x = 0 := by
    obtain ⟨a, k⟩ := x
    fin_cases k <;> simp [eckartD, e1, e2]
  rw [this, zero_mul]

/-- Repeated atoms are refused, but so are the atoms of a molecule given in another order. -/
theorem eckart_accepts_nodup (l : List ℕ) (h : eckartAccepts l = true) : l.Nodup := by
  unfold eckartAccepts npUnique at h
  rw [beq_iff_eq] at h
  rw [h]
  exact (List.perm_insertionSort _ _).nodup_iff.2 (List.nodup_dedup l)

theorem eckart_refuses_unsorted : ∃ l : List ℕ, l.Nodup ∧ eckartAccepts l = false := ⟨[1, 0], by decide, by decide +kernel⟩

/-- The order of the norm of a solver with the maximum norm cannot be read back from a checkpoint. -/
theorem max_norm_not_read_back : readBack (solverOrder (-1)) = none := rfl

theorem norm_read_back (k : ℤ) (h : k ≠ -1) : readBack (solverOrder k) = some k := by
  unfold solverOrder
  rw [if_neg h]
  rfl

/-- A rigid bond between two atoms at distance one along the x axis meets the hypotheses of the theorems above. -/
noncomputable def dimer : Fin 2 × Fin 3 → ℝ := fun x => if x = (0, 0) then 1 else 0

noncomputable def dimerBond : Block (Fin 2 × Fin 3) := ⟨1, fun q _ => bondG 0 1 1 q, fun q _ x => bondRow 0 1 q x, fun v => |v 0|⟩

lemma dimer_unit : IsUnit (gram (fun _ : Fin 2 × Fin 3 => (1 : ℝ)) (dimerBond.D dimer)).det := by
  refine gram_row_unit (fun _ => 1) (fun _ x => bondRow 0 1 dimer x) ?_
  rw [sum_atoms]
  simp [Fin.sum_univ_three, Fin.sum_univ_two, bondRow, diff, dimer]

example := all_groups_tangent (fun _ => 1) [dimerBond] ⟨dimer, dimer, dimer⟩ (by
  intro b hb
  simp only [List.mem_cons, List.not_mem_nil, or_false] at hb
  subst hb
  exact dimer_unit) (by simp)

example := stepBc_loses_energy (fun _ : Fin 2 × Fin 3 => (1 : ℝ)) 1 (fun _ => one_pos) dimerBond ⟨dimer, dimer, dimer⟩ 0 dimer_unit (by
  intro h
  have h0 := h (0 : Fin 1)
  change ∑ x, bondRow 0 1 dimer x * (dimer x / 1) = 0 at h0
  rw [sum_atoms] at h0
  simp [Fin.sum_univ_three, Fin.sum_univ_two, bondRow, diff, dimer] at h0)

example : bondG 0 1 1 dimer = 0 := by simp [bondG, dot, diff, dimer, Fin.sum_univ_three]

end Jac

end Verif.Rattle
