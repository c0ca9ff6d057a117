/-
C91: the force constants printed by a phonon calculation.
-/
import Verif.Phys.Phonons
import Mathlib.Analysis.Calculus.Deriv.Basic
import Mathlib.Analysis.Calculus.Deriv.Slope
import Mathlib.Analysis.Calculus.Deriv.Comp
import Mathlib.Analysis.Calculus.Deriv.Add
import Mathlib.LinearAlgebra.Matrix.Notation
import Mathlib.Tactic.FinCases
import Mathlib.Tactic.FieldSimp
import Mathlib.Tactic.Ring
import Mathlib.Tactic.Linarith

namespace Verif.Phonon

open Matrix

/-! ### Rows -/

section Rows

variable {n : ℕ} (force : Vec (Fin n) → Vec (Fin n)) (ism q : Vec (Fin n)) (dx : ℝ)
  (fixed : Fin n → Bool)

/-- After `m` steps from step `k`, the rows of the free coordinates met are the ones computed,
and all others are as before. -/
theorem fdRows_eq : ∀ (m k : ℕ) (s : Dyn (Fin n)) (i : Fin n),
    (fdRows force ism q dx fixed k m s).dyn i
      = if k ≤ i ∧ (i : ℕ) < k + m ∧ fixed i = false then fdRow force ism q dx i else s.dyn i
  | 0, k, s, i => by
    rw [if_neg (by omega)]; rfl
  | m + 1, k, s, i => by
    rw [fdRows, fdRows_eq m]
    by_cases h : k < n
    · rw [dif_pos h]
      unfold fdStep
      by_cases hi : (i : ℕ) = k
      · have e : i = ⟨k, h⟩ := Fin.ext hi
        subst e
        by_cases hf : fixed ⟨k, h⟩
        · simp [hf]
        · have u : Function.update s.dyn ⟨k, h⟩ (fdRow force ism q dx ⟨k, h⟩) ⟨k, h⟩
              = fdRow force ism q dx ⟨k, h⟩ := Function.update_self ..
          simp [hf, u]
      · have ne : i ≠ ⟨k, h⟩ := fun e => hi (congrArg Fin.val e)
        have iff : (k + 1 ≤ (i : ℕ) ∧ (i : ℕ) < k + 1 + m ∧ fixed i = false)
            ↔ (k ≤ (i : ℕ) ∧ (i : ℕ) < k + (m + 1) ∧ fixed i = false) := by
          constructor
          · rintro ⟨a, b, c⟩; exact ⟨by omega, by omega, c⟩
          · rintro ⟨a, b, c⟩; exact ⟨by omega, by omega, c⟩
        simp only [iff]
        by_cases hf : fixed ⟨k, h⟩
        · simp [hf]
        · have u : Function.update s.dyn ⟨k, h⟩ (fdRow force ism q dx ⟨k, h⟩) i = s.dyn i :=
            Function.update_of_ne ne ..
          simp [hf, u]
    · rw [dif_neg h]
      have := i.isLt
      rw [if_neg (by omega), if_neg (by omega)]

/-- Steps taken in two goes are the same steps. -/
theorem fdRows_add (a b : ℕ) : ∀ (k : ℕ) (s : Dyn (Fin n)),
    fdRows force ism q dx fixed k (a + b) s
      = fdRows force ism q dx fixed (k + a) b (fdRows force ism q dx fixed k a s) := by
  induction a with
  | zero => intro k s; simp [fdRows]
  | succ a ih =>
    intro k s
    have e : a + 1 + b = (a + b) + 1 := by omega
    rw [e, fdRows, ih (k + 1), fdRows]
    congr 1
    omega

/-- **C91, interrupted calculations.**  A calculation stopped after any step and continued from
the checkpoint of that step prints the matrix of an uninterrupted one. -/
theorem fd_restart (k : ℕ) (h : k ≤ n) :
    fdRun force ism q dx fixed
        (some (fdRows force ism q dx fixed 0 k (fdBind none))) k
      = fdRun force ism q dx fixed none 0 := by
  unfold fdRun
  have e : n - 0 = k + (n - k) := by omega
  rw [e, fdRows_add, Nat.zero_add]
  rfl

/-- The matrix printed: the mean of the two rows which know about a pair of coordinates, zero
rows for the held ones. -/
theorem fdRun_apply (i j : Fin n) :
    fdRun force ism q dx fixed none 0 i j
      = ((if fixed i then 0 else fdRow force ism q dx i j)
          + (if fixed j then 0 else fdRow force ism q dx j i)) / 2 := by
  have row : ∀ a b : Fin n, (fdRows force ism q dx fixed 0 (n - 0) (fdBind none)).dyn a b
      = if fixed a then 0 else fdRow force ism q dx a b := by
    intro a b
    rw [fdRows_eq]
    have := a.isLt
    by_cases h : fixed a
    · simp [h, fdBind]
    · simp [h]
  change (1 / 2 : ℝ) * (_ + _) = _
  rw [row, transpose_apply, row]
  ring

end Rows

/-! ### What the rows are -/

section Exact

variable {n : ℕ} (force : Vec (Fin n) → Vec (Fin n)) (ism q : Vec (Fin n)) (dx : ℝ)
  (fixed : Fin n → Bool)

/-- The force is linear up to terms even in the displacement (so for every potential of at most
third order): the row is a column of force constants. -/
theorem fdRow_exact (K : Matrix (Fin n) (Fin n) ℝ) (even : Vec (Fin n) → Vec (Fin n))
    (he : ∀ u, even (-u) = even u) (hf : ∀ u, force (q + u) = even u - K *ᵥ u) (hx : dx ≠ 0)
    (i j : Fin n) : fdRow force ism q dx i j = K j i * ism i * ism j := by
  unfold fdRow gradDiff
  rw [hf, sub_eq_add_neg q, hf, he]
  simp only [Pi.sub_apply, Pi.neg_apply, mulVec_neg]
  rw [mulVec_single]
  simp only [Pi.smul_apply, MulOpposite.smul_eq_mul_unop, MulOpposite.unop_op, col_apply]
  field_simp
  ring

/-- **C91, exactness.**  For every potential of at most third order around the structure, the
printed dynamical matrix and Hessian of the free coordinates are the exact ones, whatever the
displacement. -/
theorem fd_exact (K : Matrix (Fin n) (Fin n) ℝ) (hK : K.IsSymm)
    (even : Vec (Fin n) → Vec (Fin n)) (he : ∀ u, even (-u) = even u)
    (hf : ∀ u, force (q + u) = even u - K *ᵥ u) (hx : dx ≠ 0) (hm : ∀ i, ism i ≠ 0)
    (shift : ℝ) (i j : {i // fixed i = false}) :
    (printEnd (fdRun force ism q dx fixed none 0) ism fixed shift).hess i j = K i j ∧
    (printEnd (fdRun force ism q dx fixed none 0) ism fixed shift).dynmat i j
      = ism i * K i j * ism j := by
  have key : fdRun force ism q dx fixed none 0 i j = ism i * K i j * ism j := by
    rw [fdRun_apply, fdRow_exact force ism q dx K even he hf hx,
      fdRow_exact force ism q dx K even he hf hx, i.2, j.2, hK.apply]
    simp only [Bool.false_eq_true, if_false]
    ring
  have h0 : ∀ a b, shifted (fdRun force ism q dx fixed none 0) 0 a b
      = fdRun force ism q dx fixed none 0 a b := by intro a b; simp [shifted]
  refine ⟨?_, ?_⟩
  · change shifted _ 0 _ _ / _ = _
    rw [h0, key]
    have := hm i; have := hm j
    field_simp
  · change shifted _ 0 _ _ = _
    rw [h0, key]

/-- **C91, the full Hessian with held atoms (disagreement).**  The file with the full Hessian,
meant to have zeros for the held coordinates, has half of the force constant between a free and
a held coordinate. -/
theorem full_half (K : Matrix (Fin n) (Fin n) ℝ) (hK : K.IsSymm)
    (even : Vec (Fin n) → Vec (Fin n)) (he : ∀ u, even (-u) = even u)
    (hf : ∀ u, force (q + u) = even u - K *ᵥ u) (hx : dx ≠ 0) (hm : ∀ i, ism i ≠ 0)
    (shift : ℝ) (i j : Fin n) :
    (printEnd (fdRun force ism q dx fixed none 0) ism fixed shift).fullHess i j
      = if fixed i then (if fixed j then 0 else K i j / 2)
        else (if fixed j then K i j / 2 else K i j) := by
  have h0 : ∀ a b, shifted (fdRun force ism q dx fixed none 0) 0 a b
      = fdRun force ism q dx fixed none 0 a b := by intro a b; simp [shifted]
  change shifted _ 0 _ _ / _ = _
  rw [h0, fdRun_apply, fdRow_exact force ism q dx K even he hf hx,
    fdRow_exact force ism q dx K even he hf hx, hK.apply]
  have := hm i; have := hm j
  by_cases a : fixed i <;> by_cases b : fixed j <;> simp [a, b] <;> field_simp
  all_goals norm_num

/-- **C91, the limit of small displacements.**  For every force field with first derivatives at
the structure, the Hessian printed for two free coordinates tends to the negative derivative of
the forces, averaged over the two orders. -/
theorem fd_limit (G : Matrix (Fin n) (Fin n) ℝ)
    (hG : ∀ i j, HasDerivAt (fun t => force (q + Pi.single i t) j) (G i j) 0)
    (hm : ∀ i, ism i ≠ 0) (shift : ℝ) (i j : {i // fixed i = false}) :
    Filter.Tendsto
      (fun dx => (printEnd (fdRun force ism q dx fixed none 0) ism fixed shift).hess i j)
      (nhdsWithin 0 {0}ᶜ) (nhds (-(G i j + G j i) / 2)) := by
  -- the symmetric difference quotient
  have quot : ∀ a b, Filter.Tendsto (fun t : ℝ =>
      (force (q + Pi.single a t) b - force (q - Pi.single a t) b) / (2 * t))
      (nhdsWithin 0 {0}ᶜ) (nhds (G a b)) := by
    intro a b
    have h1 := hG a b
    have h2 : HasDerivAt (fun t => force (q - Pi.single a t) b) (-G a b) 0 := by
      have hc : HasDerivAt (fun t : ℝ => -t) (-1) 0 := (hasDerivAt_id (0 : ℝ)).neg
      have h1' : HasDerivAt (fun t => force (q + Pi.single a t) b) (G a b) (-0 : ℝ) := by
        simpa using h1
      have := h1'.comp (0 : ℝ) hc
      have e : (fun t => force (q - Pi.single a t) b)
          = (fun t => force (q + Pi.single a t) b) ∘ fun t : ℝ => -t := by
        funext t
        simp [Pi.single_neg, sub_eq_add_neg]
      rw [e]
      exact this.congr_deriv (by ring)
    have h3 := (h1.sub h2).tendsto_slope
    have e : nhds (G a b) = nhds ((G a b - -G a b) * (1 / 2)) := by ring_nf
    rw [e]
    refine (h3.mul_const (1 / 2)).congr' ?_
    refine Filter.eventually_of_mem self_mem_nhdsWithin fun t ht => ?_
    have ht' : t ≠ 0 := ht
    simp only [slope, Pi.sub_apply, vsub_eq_sub, smul_eq_mul, Pi.single_zero, add_zero, sub_zero,
      sub_self]
    field_simp
  have e : (fun dx => (printEnd (fdRun force ism q dx fixed none 0) ism fixed shift).hess i j)
      = fun t : ℝ => -(((force (q + Pi.single (i : Fin n) t) j
          - force (q - Pi.single (i : Fin n) t) j) / (2 * t)
        + (force (q + Pi.single (j : Fin n) t) i
          - force (q - Pi.single (j : Fin n) t) i) / (2 * t)) / 2) := by
    funext t
    have h0 : ∀ a b, shifted (fdRun force ism q t fixed none 0) 0 a b
      = fdRun force ism q t fixed none 0 a b := by intro a b; simp [shifted]
    change shifted _ 0 _ _ / _ = _
    rw [h0, fdRun_apply, i.2, j.2]
    simp only [fdRow, gradDiff, Bool.false_eq_true, if_false, Pi.sub_apply, Pi.neg_apply]
    have := hm i; have := hm j
    field_simp
    ring
  rw [e]
  have lim := (((quot i j).add (quot j i)).div_const 2).neg
  have e2 : -(G i j + G j i) / 2 = -((G i j + G j i) / 2) := by ring
  rw [e2]
  exact lim

end Exact

/-- **C91, output_shift (disagreement).**  The option has no effect on any file. -/
theorem output_shift_ignored {ι : Type*} [DecidableEq ι] (dm : Matrix ι ι ℝ) (ism : Vec ι)
    (fixed : ι → Bool) (shift : ℝ) :
    printEnd dm ism fixed shift = printEnd dm ism fixed 0 := rfl

/-- What the option is documented to do is not done: a shift by one is not in the file. -/
theorem output_shift_lost : ∃ (dm : Matrix (Fin 1) (Fin 1) ℝ) (ism : Vec (Fin 1)),
    (printEnd dm ism (fun _ => false) 1).dynmat ⟨0, rfl⟩ ⟨0, rfl⟩
      ≠ dm 0 0 + 1 * (1 : Matrix (Fin 1) (Fin 1) ℝ) 0 0 := by
  refine ⟨0, fun _ => 1, ?_⟩
  change (0 : ℝ) + 0 * _ ≠ 0 + 1 * _
  simp

/-! ### Modes -/

/-- **C91, modes.**  A column of the file with the modes is normalised and solves the vibrational
equation of the Hessian and the masses with the printed eigenvalue. -/
theorem mode_equation {ι : Type*} [Fintype ι] [DecidableEq ι] (K w : Matrix ι ι ℝ)
    (ism : Vec ι) (hm : ∀ i, ism i ≠ 0) (k : ι) (ev : ℝ)
    (hev : massWeigh ism K *ᵥ wᵀ k = ev • wᵀ k) (hw : wᵀ k ≠ 0) (i : ι) :
    (K *ᵥ eigmode w ism k) i = ev * ((1 / ism i ^ 2) * eigmode w ism k i) ∧
    eigmode w ism k ⬝ᵥ eigmode w ism k = 1 := by
  set v : Vec ι := fun i => w i k * ism i with hv
  have hpos : 0 < v ⬝ᵥ v := by
    obtain ⟨a, ha⟩ : ∃ a, w a k ≠ 0 := by
      by_contra hc
      push Not at hc
      exact hw (funext hc)
    have h1 : 0 < v a * v a := mul_self_pos.mpr (mul_ne_zero ha (hm a))
    exact lt_of_lt_of_le h1 (Finset.single_le_sum (f := fun x => v x * v x)
      (fun x _ => mul_self_nonneg _) (Finset.mem_univ a))
  have hs : Real.sqrt (v ⬝ᵥ v) ≠ 0 := (Real.sqrt_pos.mpr hpos).ne'
  have e : eigmode w ism k = (1 / Real.sqrt (v ⬝ᵥ v)) • v := by
    funext x
    change w x k * ism x / Real.sqrt (v ⬝ᵥ v) = 1 / Real.sqrt (v ⬝ᵥ v) * (w x k * ism x)
    ring
  refine ⟨?_, ?_⟩
  · have h1 := congrFun hev i
    have h2 : (K *ᵥ v) i = ev * ((1 / ism i ^ 2) * v i) := by
      have h3 : ism i * (K *ᵥ v) i = ev * w i k := by
        have : (massWeigh ism K *ᵥ wᵀ k) i = ism i * (K *ᵥ v) i := by
          simp only [mulVec, dotProduct, massWeigh, Finset.mul_sum, hv, transpose_apply]
          exact Finset.sum_congr rfl fun x _ => by ring
        rw [← this, h1]
        rfl
      have := hm i
      rw [hv]
      field_simp
      linarith
    rw [e, mulVec_smul]
    simp only [Pi.smul_apply, smul_eq_mul]
    rw [h2]
    ring
  · rw [e, smul_dotProduct, dotProduct_smul]
    simp only [smul_eq_mul]
    have := Real.mul_self_sqrt hpos.le
    field_simp
    rw [sq, this]

/-! ### The refined modes -/

section Refined

variable {ι : Type*} [Fintype ι] [DecidableEq ι]

omit [DecidableEq ι] in
/-- **C91, modes nmfd and enmfd (disagreement).**  Whatever the forces, the matrix printed is the
symmetric part of the matrix of the input: what was computed is thrown away. -/
theorem nm_discards (force : Vec ι → Vec ι) (U dyn : Matrix ι ι ℝ) (ism q : Vec ι)
    (delta : ι → ℝ) : nmRun force U ism q delta dyn = symm dyn := rfl

omit [DecidableEq ι] in
/-- The rows computed in the modes `nmfd` and `enmfd`. -/
theorem nmRow_exact (force : Vec ι → Vec ι) (ism q : Vec ι) (K U : Matrix ι ι ℝ)
    (even : Vec ι → Vec ι) (he : ∀ u, even (-u) = even u)
    (hf : ∀ u, force (q + u) = even u - K *ᵥ u) (delta : ℝ) (hd : delta ≠ 0) (k : ι)
    (hV : colNorm (nmV U ism) k ≠ 0) :
    nmRow force U ism q delta k = (nmV U ism)ᵀ *ᵥ (K *ᵥ (nmV U ism)ᵀ k) := by
  unfold nmRow
  simp only
  congr 1
  funext j
  unfold gradDiff
  rw [hf, sub_eq_add_neg q, hf, he]
  have e : (fun i => nmV U ism i k / colNorm (nmV U ism) k * delta)
      = (delta / colNorm (nmV U ism) k) • (nmV U ism)ᵀ k := by
    funext i
    simp only [Pi.smul_apply, smul_eq_mul, transpose_apply]
    ring
  rw [e, mulVec_neg, mulVec_smul]
  simp only [Pi.sub_apply, Pi.neg_apply, Pi.smul_apply, smul_eq_mul]
  field_simp
  ring

/-- **C91, modes nmfd and enmfd, the part which holds.**  What is computed before it is thrown
away is the exact dynamical matrix, for every potential of at most third order and every set of
displacements. -/
theorem nm_exact_partial (force : Vec ι → Vec ι) (ism q : Vec ι) (K U : Matrix ι ι ℝ)
    (even : Vec ι → Vec ι) (he : ∀ u, even (-u) = even u)
    (hf : ∀ u, force (q + u) = even u - K *ᵥ u) (hK : K.IsSymm) (delta : ι → ℝ)
    (hd : ∀ k, delta k ≠ 0) (hV : ∀ k, colNorm (nmV U ism) k ≠ 0) (hU : U * Uᵀ = 1) :
    nmBack U (nmRows force U ism q delta) = massWeigh ism K := by
  have h1 : nmRows force U ism q delta = ((nmV U ism)ᵀ * K * nmV U ism)ᵀ := by
    ext k l
    change nmRow force U ism q (delta k) k l = _
    rw [nmRow_exact force ism q K U even he hf (delta k) (hd k) k (hV k), mulVec_mulVec]
    rfl
  have h2 : ((nmV U ism)ᵀ * K * nmV U ism)ᵀ = (nmV U ism)ᵀ * K * nmV U ism := by
    rw [transpose_mul, transpose_mul, transpose_transpose, hK.eq, Matrix.mul_assoc]
  have h3 : nmV U ism = diagonal ism * U := by
    ext i k
    rw [diagonal_mul, nmV, mul_comm]
  rw [h1, h2, h3, nmBack, transpose_mul, diagonal_transpose]
  have h4 : U * (Uᵀ * diagonal ism * K * (diagonal ism * U) * Uᵀ)
      = (U * Uᵀ) * (diagonal ism * K * diagonal ism) * (U * Uᵀ) := by
    simp only [Matrix.mul_assoc]
  rw [h4, hU, Matrix.one_mul, Matrix.mul_one]
  ext i j
  rw [mul_diagonal, diagonal_mul, massWeigh]
  ring

omit [DecidableEq ι] in
/-- The displacement along a mode has the length that was asked for. -/
theorem nm_length (U : Matrix ι ι ℝ) (ism : Vec ι) (delta : ℝ) (k : ι)
    (hV : colNorm (nmV U ism) k ≠ 0) :
    ∑ i, (nmV U ism i k / colNorm (nmV U ism) k * delta) ^ 2 = delta ^ 2 := by
  have h0 : 0 ≤ (nmV U ism)ᵀ k ⬝ᵥ (nmV U ism)ᵀ k :=
    Finset.sum_nonneg fun i _ => mul_self_nonneg _
  have h1 : colNorm (nmV U ism) k ^ 2 = ∑ i, nmV U ism i k ^ 2 := by
    rw [colNorm, Real.sq_sqrt h0]
    exact Finset.sum_congr rfl fun i _ => (pow_two _).symm
  have h2 : ∀ i, (nmV U ism i k / colNorm (nmV U ism) k * delta) ^ 2
      = nmV U ism i k ^ 2 * (delta ^ 2 / colNorm (nmV U ism) k ^ 2) := fun i => by ring
  rw [Finset.sum_congr rfl fun i _ => h2 i, ← Finset.sum_mul, ← h1]
  field_simp

omit [DecidableEq ι] in
/-- **C91, modes nmfd and enmfd**: the rows are made from forces at the given distance only. -/
theorem nm_distance (f g : Vec ι → Vec ι) (U : Matrix ι ι ℝ) (ism q : Vec ι) (delta : ℝ) (k : ι)
    (hV : colNorm (nmV U ism) k ≠ 0) (h : ∀ x, ∑ i, (x i - q i) ^ 2 = delta ^ 2 → f x = g x) :
    nmRow f U ism q delta k = nmRow g U ism q delta k := by
  have hl := nm_length U ism delta k hV
  unfold nmRow gradDiff
  dsimp only
  rw [h _ (by simpa using hl), h _ (by simpa [sub_sub_cancel_left] using hl)]

/-- **C91, mode enmfd**: for a harmonic potential the displacement along a mode changes the energy
by the amount that was asked for, unless that takes more than a hundred times the length. -/
theorem enm_energy (pot : Vec ι → ℝ) (K U : Matrix ι ι ℝ) (ism q : Vec ι) (w2 deltae deltax : ℝ)
    (k : ι) (hp : ∀ u, pot (q + u) - pot q = (u ⬝ᵥ (K *ᵥ u)) / 2) (hU : Uᵀ * U = 1)
    (hm : massWeigh ism K *ᵥ Uᵀ k = w2 • Uᵀ k) (hV : colNorm (nmV U ism) k ≠ 0)
    (he : 0 ≤ deltae) (hw : w2 ≠ 0)
    (hc : colNorm (nmV U ism) k * Real.sqrt (deltae * 2 / |w2|) ≤ 100 * deltax) :
    |pot (q + fun i => nmV U ism i k / colNorm (nmV U ism) k
      * enmDelta deltae deltax w2 (colNorm (nmV U ism) k)) - pot q| = deltae := by
  have e1 : enmDelta deltae deltax w2 (colNorm (nmV U ism) k)
      = colNorm (nmV U ism) k * Real.sqrt (deltae * 2 / |w2|) := by
    unfold enmDelta
    rw [if_neg]
    rintro (h | h)
    · exact hw h
    · exact absurd hc (not_le.2 h)
  have e2 : (fun i => nmV U ism i k / colNorm (nmV U ism) k
      * enmDelta deltae deltax w2 (colNorm (nmV U ism) k))
      = Real.sqrt (deltae * 2 / |w2|) • (nmV U ism)ᵀ k := by
    rw [e1]
    funext i
    simp only [Pi.smul_apply, smul_eq_mul, transpose_apply]
    field_simp
  have e3 : (nmV U ism)ᵀ k ⬝ᵥ (K *ᵥ (nmV U ism)ᵀ k) = w2 := by
    have a1 : (nmV U ism)ᵀ k ⬝ᵥ (K *ᵥ (nmV U ism)ᵀ k)
        = Uᵀ k ⬝ᵥ (massWeigh ism K *ᵥ Uᵀ k) := by
      simp only [dotProduct, mulVec, transpose_apply, nmV, massWeigh, Finset.mul_sum]
      exact Finset.sum_congr rfl fun i _ => Finset.sum_congr rfl fun j _ => by ring
    have a2 : Uᵀ k ⬝ᵥ Uᵀ k = 1 := by
      have := congrFun (congrFun hU k) k
      rw [one_apply_eq] at this
      exact this
    rw [a1, hm, dotProduct_smul, a2, smul_eq_mul, mul_one]
  rw [hp, e2, mulVec_smul, smul_dotProduct, dotProduct_smul, e3, smul_eq_mul, smul_eq_mul,
    ← mul_assoc, ← pow_two, Real.sq_sqrt (by positivity), abs_div, abs_mul, abs_div, abs_abs,
    abs_of_nonneg (by positivity : (0:ℝ) ≤ deltae * 2), abs_of_pos (by norm_num : (0:ℝ) < 2)]
  have : |w2| ≠ 0 := abs_ne_zero.2 hw
  field_simp

omit [Fintype ι] [DecidableEq ι] in
/-- The displacement is the one that changes the energy by the given amount, or the largest one allowed, whichever is smaller. -/
theorem enm_min (deltae deltax w2 vk : ℝ) (hw : w2 ≠ 0) :
    enmDelta deltae deltax w2 vk = min (100 * deltax) (vk * Real.sqrt (deltae * 2 / |w2|)) := by
  unfold enmDelta
  by_cases h : 100 * deltax < vk * Real.sqrt (deltae * 2 / |w2|)
  · rw [if_pos (Or.inr h), min_eq_left h.le]
  · rw [if_neg (by rintro (h' | h'); exacts [hw h', h h']), min_eq_right (not_lt.1 h)]

omit [Fintype ι] [DecidableEq ι] in
/-- The length of the displacement is bounded. -/
theorem enm_bound (deltae deltax w2 vk : ℝ) : enmDelta deltae deltax w2 vk ≤ 100 * deltax := by
  unfold enmDelta
  split
  · exact le_rfl
  · rename_i h
    push Not at h
    exact h.2

end Refined

/-! ### The hypotheses are met -/

/-- The force of a chain of two unit masses and one spring with a quadratic correction. -/
example : ∃ (force : Vec (Fin 2) → Vec (Fin 2)) (K : Matrix (Fin 2) (Fin 2) ℝ)
    (even : Vec (Fin 2) → Vec (Fin 2)), K.IsSymm ∧ K 0 1 ≠ 0 ∧ (∀ u, even (-u) = even u)
      ∧ (∃ u, even u ≠ 0) ∧ ∀ u, force (0 + u) = even u - K *ᵥ u := by
  refine ⟨fun u => (fun _ => u 0 ^ 2) - !![1, -1; -1, 1] *ᵥ u, !![1, -1; -1, 1],
    fun u _ => u 0 ^ 2, ?_, by simp, ?_, ⟨fun _ => 1, ?_⟩, ?_⟩
  · ext i j; fin_cases i <;> fin_cases j <;> rfl
  · intro u; funext _; simp
  · intro h; have := congrFun h 0; simp at this
  · intro u; rw [zero_add]

/-- A single oscillator, displaced to the energy 1/2. -/
example : ∃ (pot : Vec (Fin 1) → ℝ) (K U : Matrix (Fin 1) (Fin 1) ℝ),
    (∀ u, pot (0 + u) - pot 0 = (u ⬝ᵥ (K *ᵥ u)) / 2) ∧ Uᵀ * U = 1
      ∧ massWeigh (fun _ => 1) K *ᵥ Uᵀ 0 = (4 : ℝ) • Uᵀ 0 ∧ colNorm (nmV U fun _ => 1) 0 = 1
      ∧ (1 : ℝ) * Real.sqrt (1 / 2 * 2 / |4|) ≤ 100 * 1 := by
  refine ⟨fun u => 2 * u 0 ^ 2, !![4], 1, ?_, by simp, ?_, ?_, ?_⟩
  · intro u; simp [mulVec, dotProduct]; ring
  · ext i; fin_cases i; simp [massWeigh, mulVec, dotProduct]
  · simp [colNorm, nmV, dotProduct]
  · rw [one_mul, Real.sqrt_le_left (by norm_num)]
    norm_num

/-- Held atoms: the mixed entry of the full Hessian is neither zero nor the force constant. -/
example : (printEnd (fdRun (fun u : Vec (Fin 2) => -(!![1, -1; -1, 1] *ᵥ u)) (fun _ => 1) 0 1
    (fun i => decide (i = 0)) none 0) (fun _ => 1) (fun i => decide (i = 0)) 0).fullHess 0 1
    = -1 / 2 := by
  rw [full_half _ (fun _ => 1) 0 1 _ (K := !![1, -1; -1, 1]) (even := fun _ => 0)]
  · simp
  · ext i j; fin_cases i <;> fin_cases j <;> rfl
  · intro _; rfl
  · intro u; simp
  · norm_num
  · intro _; norm_num

end Verif.Phonon
