import Verif.Phys.CellAngles
import Mathlib.LinearAlgebra.Matrix.Determinant.Basic
import Mathlib.Tactic.LinearCombination
import Mathlib.Tactic.FieldSimp
import Mathlib.Tactic.Positivity
import Mathlib.Tactic.NormNum

/-!
# C114: a cell keeps its lattice in every description
-/

namespace Verif.Cell

open Matrix

/-! ## Specification -/

/-- An upper triangular cell with positive diagonal. -/
structure Upper (h : Mat) : Prop where
  z10 : h 1 0 = 0
  z20 : h 2 0 = 0
  z21 : h 2 1 = 0
  p0 : 0 < h 0 0
  p1 : 0 < h 1 1
  p2 : 0 < h 2 2

/-- The products of three vectors with the given lengths and angles. -/
noncomputable def gram (x : Abc) : Mat :=
  !![x.a ^ 2, x.a * x.b * Real.cos x.gamma, x.a * x.c * Real.cos x.beta;
    x.a * x.b * Real.cos x.gamma, x.b ^ 2, x.b * x.c * Real.cos x.alpha;
    x.a * x.c * Real.cos x.beta, x.b * x.c * Real.cos x.alpha, x.c ^ 2]

/-- Positive lengths, angles between 0 and 180 degrees. -/
structure Proper (x : Abc) : Prop where
  a : 0 < x.a
  b : 0 < x.b
  c : 0 < x.c
  alpha : 0 < x.alpha ∧ x.alpha < Real.pi
  beta : 0 < x.beta ∧ x.beta < Real.pi
  gamma : 0 < x.gamma ∧ x.gamma < Real.pi

/-! ## From lengths and angles to a matrix -/

theorem abc2h_some {x : Abc} {h : Mat} (e : abc2h x = some h) :
    x.b * Real.sin x.gamma ≠ 0 ∧
    0 ≤ x.c ^ 2 - (x.c * Real.cos x.beta) ^ 2
      - ((x.b * x.c * Real.cos x.alpha - x.b * Real.cos x.gamma * (x.c * Real.cos x.beta)) / (x.b * Real.sin x.gamma)) ^ 2 ∧
    h = !![x.a, x.b * Real.cos x.gamma, x.c * Real.cos x.beta;
      0, x.b * Real.sin x.gamma,
        (x.b * x.c * Real.cos x.alpha - x.b * Real.cos x.gamma * (x.c * Real.cos x.beta)) / (x.b * Real.sin x.gamma);
      0, 0, Real.sqrt (x.c ^ 2 - (x.c * Real.cos x.beta) ^ 2
        - ((x.b * x.c * Real.cos x.alpha - x.b * Real.cos x.gamma * (x.c * Real.cos x.beta)) / (x.b * Real.sin x.gamma)) ^ 2)] := by
  unfold abc2h at e
  dsimp only at e
  by_cases h1 : x.b * Real.sin x.gamma = 0
  · rw [if_pos h1] at e; cases e
  · rw [if_neg h1] at e
    split at e
    · cases e
    · rename_i h2
      exact ⟨h1, not_lt.1 h2, (Option.some.inj e).symm⟩

/-- **The columns of the matrix have the given lengths and angles.** -/
theorem abc2h_gram {x : Abc} {h : Mat} (e : abc2h x = some h) : hᵀ * h = gram x := by
  obtain ⟨h1, h2, rfl⟩ := abc2h_some e
  have hb : x.b ≠ 0 := left_ne_zero_of_mul h1
  have hs : Real.sin x.gamma ≠ 0 := right_ne_zero_of_mul h1
  have h3 := Real.sq_sqrt h2
  have h4 := Real.sin_sq_add_cos_sq x.gamma
  generalize Real.sqrt _ = s at h3 ⊢
  ext i j
  fin_cases i <;> fin_cases j <;>
    simp [Matrix.mul_apply, Fin.sum_univ_three, gram] <;> first | ring | skip
  · linear_combination (x.b ^ 2) * h4
  · field_simp
    ring
  · field_simp
    ring
  · linear_combination h3

theorem abc2h_upper {x : Abc} {h : Mat} (hx : Proper x) (e : abc2h x = some h) :
    h 1 0 = 0 ∧ h 2 0 = 0 ∧ h 2 1 = 0 ∧ 0 < h 0 0 ∧ 0 < h 1 1 ∧ 0 ≤ h 2 2 := by
  obtain ⟨h1, h2, rfl⟩ := abc2h_some e
  have := Real.sin_pos_of_pos_of_lt_pi hx.gamma.1 hx.gamma.2
  exact ⟨rfl, rfl, rfl, hx.a, mul_pos hx.b this, Real.sqrt_nonneg _⟩

/-- The condition on the angles. -/
noncomputable def angleDet (x : Abc) : ℝ :=
  1 + 2 * Real.cos x.alpha * Real.cos x.beta * Real.cos x.gamma
    - Real.cos x.alpha ^ 2 - Real.cos x.beta ^ 2 - Real.cos x.gamma ^ 2

theorem radicand {x : Abc} (hx : Proper x) :
    x.c ^ 2 - (x.c * Real.cos x.beta) ^ 2
      - ((x.b * x.c * Real.cos x.alpha - x.b * Real.cos x.gamma * (x.c * Real.cos x.beta)) / (x.b * Real.sin x.gamma)) ^ 2
      = x.c ^ 2 / Real.sin x.gamma ^ 2 * angleDet x := by
  have hs := (Real.sin_pos_of_pos_of_lt_pi hx.gamma.1 hx.gamma.2).ne'
  have hb := hx.b.ne'
  have h4 := Real.sin_sq_add_cos_sq x.gamma
  unfold angleDet
  field_simp
  linear_combination (1 - Real.cos x.beta ^ 2) * h4 * x.c ^ 2

/-- **A matrix is made for exactly those angles that three vectors can have.** -/
theorem abc2h_exists {x : Abc} (hx : Proper x) : (∃ h, abc2h x = some h) ↔ 0 ≤ angleDet x := by
  have hs := Real.sin_pos_of_pos_of_lt_pi hx.gamma.1 hx.gamma.2
  have hb := hx.b
  have hc := hx.c
  have h1 : x.b * Real.sin x.gamma ≠ 0 := (mul_pos hb hs).ne'
  have hk : 0 < x.c ^ 2 / Real.sin x.gamma ^ 2 := by positivity
  constructor
  · rintro ⟨h, e⟩
    have h2 := (abc2h_some e).2.1
    rw [radicand hx] at h2
    exact nonneg_of_mul_nonneg_right h2 hk
  · intro h
    unfold abc2h
    dsimp only
    rw [if_neg h1, radicand hx, if_neg (not_lt.2 (mul_nonneg hk.le h))]
    exact ⟨_, rfl⟩

/-- The volume. -/
theorem abc2h_det {x : Abc} (hx : Proper x) {h : Mat} (e : abc2h x = some h) :
    detUt h = x.a * x.b * x.c * Real.sqrt (angleDet x) := by
  have hs := Real.sin_pos_of_pos_of_lt_pi hx.gamma.1 hx.gamma.2
  obtain ⟨h1, h2, rfl⟩ := abc2h_some e
  have hc := hx.c
  rw [radicand hx, Real.sqrt_mul (by positivity), Real.sqrt_div' _ (by positivity), Real.sqrt_sq hc.le, Real.sqrt_sq hs.le]
  simp only [detUt, Matrix.of_apply, Matrix.cons_val]
  have := hs.ne'
  field_simp

/-! ## Round trips -/

/-- An upper triangular matrix with positive diagonal is determined by the products of its columns. -/
theorem upper_unique {h k : Mat} (hh : h 1 0 = 0 ∧ h 2 0 = 0 ∧ h 2 1 = 0 ∧ 0 < h 0 0 ∧ 0 < h 1 1 ∧ 0 ≤ h 2 2)
    (hk : k 1 0 = 0 ∧ k 2 0 = 0 ∧ k 2 1 = 0 ∧ 0 < k 0 0 ∧ 0 < k 1 1 ∧ 0 ≤ k 2 2) (e : hᵀ * h = kᵀ * k) : h = k := by
  obtain ⟨a1, a2, a3, a4, a5, a6⟩ := hh
  obtain ⟨b1, b2, b3, b4, b5, b6⟩ := hk
  have E : ∀ i j, (hᵀ * h) i j = (kᵀ * k) i j := fun i j => by rw [e]
  simp only [Matrix.mul_apply, transpose_apply, Fin.sum_univ_three] at E
  have e00 := E 0 0
  have e01 := E 0 1
  have e02 := E 0 2
  have e11 := E 1 1
  have e12 := E 1 2
  have e22 := E 2 2
  rw [a1, a2, b1, b2] at e00 e01 e02
  rw [a3, b3] at e11 e12
  simp only [mul_zero, zero_mul, add_zero] at e00 e01 e02 e11 e12
  have c00 : h 0 0 = k 0 0 := by
    rw [← pow_two, ← pow_two] at e00
    exact (sq_eq_sq₀ a4.le b4.le).1 e00
  have c01 : h 0 1 = k 0 1 := by rw [c00] at e01; exact mul_left_cancel₀ b4.ne' e01
  have c02 : h 0 2 = k 0 2 := by rw [c00] at e02; exact mul_left_cancel₀ b4.ne' e02
  have c11 : h 1 1 = k 1 1 := by
    rw [c01] at e11
    refine (sq_eq_sq₀ a5.le b5.le).1 ?_
    linear_combination e11
  have c12 : h 1 2 = k 1 2 := by
    rw [c01, c02, c11] at e12
    exact mul_left_cancel₀ b5.ne' (add_left_cancel e12)
  have c22 : h 2 2 = k 2 2 := by
    rw [c02, c12] at e22
    refine (sq_eq_sq₀ a6 b6).1 ?_
    linear_combination e22
  ext i j
  fin_cases i <;> fin_cases j <;> simp_all

/-- **Lengths and angles of a matrix made from lengths and angles are the given ones.** -/
theorem angles_back {x : Abc} (hx : Proper x) {h : Mat} (e : abc2h x = some h) : h2abc h = x := by
  have G := abc2h_gram e
  obtain ⟨z10, z20, z21, -⟩ := abc2h_upper hx e
  have E : ∀ i j, (hᵀ * h) i j = gram x i j := fun i j => by rw [G]
  simp only [Matrix.mul_apply, transpose_apply, Fin.sum_univ_three] at E
  have e11 := E 1 1
  have e12 := E 1 2
  have e22 := E 2 2
  simp only [gram, Matrix.of_apply, Matrix.cons_val] at e11 e12 e22
  rw [z21] at e11
  have h0 : h 0 0 = x.a ∧ h 0 1 = x.b * Real.cos x.gamma ∧ h 0 2 = x.c * Real.cos x.beta := by
    obtain ⟨-, -, rfl⟩ := abc2h_some e
    exact ⟨rfl, rfl, rfl⟩
  have hb : Real.sqrt (h 0 1 ^ 2 + h 1 1 ^ 2) = x.b := by
    rw [show h 0 1 ^ 2 + h 1 1 ^ 2 = x.b ^ 2 by linear_combination e11, Real.sqrt_sq hx.b.le]
  have hc : Real.sqrt (h 0 2 ^ 2 + h 1 2 ^ 2 + h 2 2 ^ 2) = x.c := by
    rw [show h 0 2 ^ 2 + h 1 2 ^ 2 + h 2 2 ^ 2 = x.c ^ 2 by linear_combination e22, Real.sqrt_sq hx.c.le]
  have hd : hᵀ 1 ⬝ᵥ hᵀ 2 = x.b * x.c * Real.cos x.alpha := by
    simp only [dotProduct, transpose_apply, Fin.sum_univ_three]
    exact e12
  have nb := hx.b.ne'
  have nc := hx.c.ne'
  unfold h2abc
  simp only [hb, hc, hd]
  simp only [h0]
  ext
  · rfl
  · rfl
  · rfl
  · dsimp only
    rw [mul_div_cancel_left₀ _ (mul_ne_zero nb nc), Real.arccos_cos hx.alpha.1.le hx.alpha.2.le]
  · dsimp only
    rw [mul_div_cancel_left₀ _ nc, Real.arccos_cos hx.beta.1.le hx.beta.2.le]
  · dsimp only
    rw [mul_div_cancel_left₀ _ nb, Real.arccos_cos hx.gamma.1.le hx.gamma.2.le]

theorem angle_of {A B d : ℝ} (hA : 0 < A) (hB : 0 < B) (h : d ^ 2 < A ^ 2 * B ^ 2) :
    Real.cos (Real.arccos (d / (A * B))) = d / (A * B) ∧ 0 < Real.arccos (d / (A * B)) ∧ Real.arccos (d / (A * B)) < Real.pi := by
  have hAB := mul_pos hA hB
  have h1 : |d| < A * B := abs_lt_of_sq_lt_sq (by rw [mul_pow]; exact h) hAB.le
  obtain ⟨h2, h3⟩ := abs_lt.1 h1
  have l1 : -1 < d / (A * B) := by rw [lt_div_iff₀ hAB]; linarith
  have l2 : d / (A * B) < 1 := by rw [div_lt_one hAB]; exact h3
  refine ⟨Real.cos_arccos l1.le l2.le, Real.arccos_pos.2 l2, lt_of_le_of_ne (Real.arccos_le_pi _) fun e => ?_⟩
  exact absurd (Real.arccos_eq_pi.1 e) (not_le.2 l1)

/-- Two of three independent vectors are not parallel. -/
theorem not_parallel {u0 u1 u2 v0 v1 v2 w0 w1 w2 : ℝ}
    (hd : (u1 * v2 - u2 * v1) * w0 + (u2 * v0 - u0 * v2) * w1 + (u0 * v1 - u1 * v0) * w2 ≠ 0) :
    (u0 * v0 + u1 * v1 + u2 * v2) ^ 2 < (u0 * u0 + u1 * u1 + u2 * u2) * (v0 * v0 + v1 * v1 + v2 * v2) := by
  have e : (u0 * u0 + u1 * u1 + u2 * u2) * (v0 * v0 + v1 * v1 + v2 * v2) - (u0 * v0 + u1 * v1 + u2 * v2) ^ 2
      = (u1 * v2 - u2 * v1) ^ 2 + (u2 * v0 - u0 * v2) ^ 2 + (u0 * v1 - u1 * v0) ^ 2 := by ring
  have hp : 0 < (u1 * v2 - u2 * v1) ^ 2 + (u2 * v0 - u0 * v2) ^ 2 + (u0 * v1 - u1 * v0) ^ 2 := by
    by_contra h
    have a := sq_nonneg (u1 * v2 - u2 * v1)
    have b := sq_nonneg (u2 * v0 - u0 * v2)
    have c := sq_nonneg (u0 * v1 - u1 * v0)
    have a' : u1 * v2 - u2 * v1 = 0 := pow_eq_zero_iff two_ne_zero |>.1 (by linarith)
    have b' : u2 * v0 - u0 * v2 = 0 := pow_eq_zero_iff two_ne_zero |>.1 (by linarith)
    have c' : u0 * v1 - u1 * v0 = 0 := pow_eq_zero_iff two_ne_zero |>.1 (by linarith)
    exact hd (by rw [a', b', c']; ring)
  linarith

/-- Three independent vectors, the rows of a matrix: their lengths and angles are proper, their products are those of the rows, and the angles are those of a cell. -/
theorem genh_proper {g : Mat} (hg : g.det ≠ 0) :
    Proper (genh2abc g) ∧ gram (genh2abc g) = g * gᵀ ∧ 0 < angleDet (genh2abc g) := by
  have dets := Matrix.det_fin_three g
  have p01 := not_parallel (u0 := g 0 0) (u1 := g 0 1) (u2 := g 0 2) (v0 := g 1 0) (v1 := g 1 1) (v2 := g 1 2) (w0 := g 2 0) (w1 := g 2 1) (w2 := g 2 2)
    (fun e => hg (by rw [dets]; linear_combination e))
  have p02 := not_parallel (u0 := g 0 0) (u1 := g 0 1) (u2 := g 0 2) (v0 := g 2 0) (v1 := g 2 1) (v2 := g 2 2) (w0 := g 1 0) (w1 := g 1 1) (w2 := g 1 2)
    (fun e => hg (by rw [dets]; linear_combination -e))
  have p21 := not_parallel (u0 := g 2 0) (u1 := g 2 1) (u2 := g 2 2) (v0 := g 1 0) (v1 := g 1 1) (v2 := g 1 2) (w0 := g 0 0) (w1 := g 0 1) (w2 := g 0 2)
    (fun e => hg (by rw [dets]; linear_combination -e))
  have D : ∀ i j, g i ⬝ᵥ g j = g i 0 * g j 0 + g i 1 * g j 1 + g i 2 * g j 2 := fun i j => by
    simp only [dotProduct, Fin.sum_univ_three]
  have P : ∀ i, 0 ≤ g i 0 * g i 0 + g i 1 * g i 1 + g i 2 * g i 2 := fun i =>
    add_nonneg (add_nonneg (mul_self_nonneg _) (mul_self_nonneg _)) (mul_self_nonneg _)
  have pos : ∀ {a b d : ℝ}, 0 ≤ a → 0 ≤ b → d ^ 2 < a * b → 0 < a ∧ 0 < b := by
    intro a b d ha hb h
    have hab := lt_of_le_of_lt (sq_nonneg d) h
    exact ⟨lt_of_le_of_ne ha fun e => by rw [← e, zero_mul] at hab; exact lt_irrefl _ hab,
      lt_of_le_of_ne hb fun e => by rw [← e, mul_zero] at hab; exact lt_irrefl _ hab⟩
  have n0 := (pos (P 0) (P 1) p01).1
  have n1 := (pos (P 0) (P 1) p01).2
  have n2 := (pos (P 0) (P 2) p02).2
  have s0 := Real.sq_sqrt n0.le
  have s1 := Real.sq_sqrt n1.le
  have s2 := Real.sq_sqrt n2.le
  have q0 := Real.sqrt_pos.2 n0
  have q1 := Real.sqrt_pos.2 n1
  have q2 := Real.sqrt_pos.2 n2
  have c01 := angle_of (d := g 0 0 * g 1 0 + g 0 1 * g 1 1 + g 0 2 * g 1 2) q0 q1 (by rw [s0, s1]; exact p01)
  have c02 := angle_of (d := g 0 0 * g 2 0 + g 0 1 * g 2 1 + g 0 2 * g 2 2) q0 q2 (by rw [s0, s2]; exact p02)
  have c21 := angle_of (d := g 2 0 * g 1 0 + g 2 1 * g 1 1 + g 2 2 * g 1 2) q1 q2 (by rw [s1, s2, mul_comm (g 1 0 * g 1 0 + _ + _)]; exact p21)
  have key : ∀ (A B C : ℝ), A ^ 2 = g 0 0 * g 0 0 + g 0 1 * g 0 1 + g 0 2 * g 0 2 → B ^ 2 = g 1 0 * g 1 0 + g 1 1 * g 1 1 + g 1 2 * g 1 2 →
      C ^ 2 = g 2 0 * g 2 0 + g 2 1 * g 2 1 + g 2 2 * g 2 2 → 0 < A → 0 < B → 0 < C →
      A ^ 2 * B ^ 2 * C ^ 2 * (1 + 2 * ((g 2 0 * g 1 0 + g 2 1 * g 1 1 + g 2 2 * g 1 2) / (B * C))
        * ((g 0 0 * g 2 0 + g 0 1 * g 2 1 + g 0 2 * g 2 2) / (A * C)) * ((g 0 0 * g 1 0 + g 0 1 * g 1 1 + g 0 2 * g 1 2) / (A * B))
        - ((g 2 0 * g 1 0 + g 2 1 * g 1 1 + g 2 2 * g 1 2) / (B * C)) ^ 2 - ((g 0 0 * g 2 0 + g 0 1 * g 2 1 + g 0 2 * g 2 2) / (A * C)) ^ 2
        - ((g 0 0 * g 1 0 + g 0 1 * g 1 1 + g 0 2 * g 1 2) / (A * B)) ^ 2) = g.det ^ 2 := by
    intro A B C a b c hA hB hC
    have e : A ^ 2 * B ^ 2 * C ^ 2 * (1 + 2 * ((g 2 0 * g 1 0 + g 2 1 * g 1 1 + g 2 2 * g 1 2) / (B * C))
        * ((g 0 0 * g 2 0 + g 0 1 * g 2 1 + g 0 2 * g 2 2) / (A * C)) * ((g 0 0 * g 1 0 + g 0 1 * g 1 1 + g 0 2 * g 1 2) / (A * B))
        - ((g 2 0 * g 1 0 + g 2 1 * g 1 1 + g 2 2 * g 1 2) / (B * C)) ^ 2 - ((g 0 0 * g 2 0 + g 0 1 * g 2 1 + g 0 2 * g 2 2) / (A * C)) ^ 2
        - ((g 0 0 * g 1 0 + g 0 1 * g 1 1 + g 0 2 * g 1 2) / (A * B)) ^ 2)
        = A ^ 2 * B ^ 2 * C ^ 2 + 2 * (g 2 0 * g 1 0 + g 2 1 * g 1 1 + g 2 2 * g 1 2) * (g 0 0 * g 2 0 + g 0 1 * g 2 1 + g 0 2 * g 2 2)
          * (g 0 0 * g 1 0 + g 0 1 * g 1 1 + g 0 2 * g 1 2) - A ^ 2 * (g 2 0 * g 1 0 + g 2 1 * g 1 1 + g 2 2 * g 1 2) ^ 2
          - B ^ 2 * (g 0 0 * g 2 0 + g 0 1 * g 2 1 + g 0 2 * g 2 2) ^ 2 - C ^ 2 * (g 0 0 * g 1 0 + g 0 1 * g 1 1 + g 0 2 * g 1 2) ^ 2 := by
      generalize g 2 0 * g 1 0 + g 2 1 * g 1 1 + g 2 2 * g 1 2 = x
      generalize g 0 0 * g 2 0 + g 0 1 * g 2 1 + g 0 2 * g 2 2 = y
      generalize g 0 0 * g 1 0 + g 0 1 * g 1 1 + g 0 2 * g 1 2 = z
      field_simp
    rw [e, a, b, c, dets]
    ring
  have hkey := key _ _ _ s0 s1 s2 q0 q1 q2
  have hdet : 0 < g.det ^ 2 := by positivity
  unfold genh2abc
  simp only [D]
  refine ⟨⟨q0, q1, q2, c21.2, c02.2, c01.2⟩, ?_, ?_⟩
  · unfold gram
    simp only [c01.1, c02.1, c21.1, s0, s1, s2]
    have k01 := mul_div_cancel₀ (g 0 0 * g 1 0 + g 0 1 * g 1 1 + g 0 2 * g 1 2) (mul_pos q0 q1).ne'
    have k02 := mul_div_cancel₀ (g 0 0 * g 2 0 + g 0 1 * g 2 1 + g 0 2 * g 2 2) (mul_pos q0 q2).ne'
    have k21 := mul_div_cancel₀ (g 2 0 * g 1 0 + g 2 1 * g 1 1 + g 2 2 * g 1 2) (mul_pos q1 q2).ne'
    rw [k01, k02, k21]
    ext i j
    fin_cases i <;> fin_cases j <;> simp [Matrix.mul_apply, Fin.sum_univ_three] <;> ring
  · unfold angleDet
    simp only [c01.1, c02.1, c21.1]
    rw [← hkey] at hdet
    exact (mul_pos_iff_of_pos_left (by positivity)).1 hdet

/-- **A full matrix of lattice vectors** gives an upper triangular cell whose columns have the same lengths and angles. -/
theorem genh_cell {g : Mat} (hg : g.det ≠ 0) : ∃ h, readGenh g = some h ∧ Upper h ∧ hᵀ * h = g * gᵀ := by
  obtain ⟨h1, h2, h3⟩ := genh_proper hg
  obtain ⟨h, e⟩ := (abc2h_exists h1).2 h3.le
  obtain ⟨z10, z20, z21, p0, p1, p2⟩ := abc2h_upper h1 e
  have hd := abc2h_det h1 e
  have : 0 < detUt h := by
    rw [hd]
    have := Real.sqrt_pos.2 h3
    have := h1.a
    have := h1.b
    have := h1.c
    positivity
  refine ⟨h, e, ⟨z10, z20, z21, p0, p1, lt_of_le_of_ne p2 fun e => ?_⟩, (abc2h_gram e).trans h2⟩
  unfold detUt at this
  rw [← e, mul_zero] at this
  exact lt_irrefl _ this

/-- **Positions are moved with the cell**: distances and products are kept and lattice translations become lattice translations. -/
theorem genh_positions {g h : Mat} (hg : g.det ≠ 0) (e : readGenh g = some h) :
    (∀ u v, genhPos h g u ⬝ᵥ genhPos h g v = u ⬝ᵥ v) ∧ (∀ u v, genhPos h g u - genhPos h g v = genhPos h g (u - v)) ∧
      ∀ u n, genhPos h g (u + n ᵥ* g) = genhPos h g u + h *ᵥ n := by
  obtain ⟨h', e', -, hh⟩ := genh_cell hg
  rw [e] at e'
  cases e'
  have hu : IsUnit g.det := isUnit_iff_ne_zero.2 hg
  refine ⟨fun u v => ?_, fun u v => ?_, fun u n => ?_⟩
  · have hx : ∀ u : Vec, (u ᵥ* g⁻¹) ᵥ* g = u := fun u => by rw [vecMul_vecMul, nonsing_inv_mul _ hu, vecMul_one]
    unfold genhPos
    have h1 : ∀ x y : Vec, (h *ᵥ x) ⬝ᵥ (h *ᵥ y) = (x ᵥ* g) ⬝ᵥ (y ᵥ* g) := by
      intro x y
      rw [← mulVec_transpose g y, dotProduct_mulVec (x ᵥ* g), vecMul_vecMul, ← hh, ← vecMul_vecMul, vecMul_transpose, dotProduct_mulVec]
    rw [h1, hx, hx]
  · unfold genhPos
    rw [sub_vecMul, mulVec_sub]
  · unfold genhPos
    rw [add_vecMul, mulVec_add, vecMul_vecMul, mul_nonsing_inv _ hu, vecMul_one]

/-- **An upper triangular cell is recovered from its lengths and angles.** -/
theorem cell_back {h : Mat} (hh : Upper h) : abc2h (h2abc h) = some h := by
  have hd : hᵀ.det ≠ 0 := by
    rw [det_transpose, det_fin_three, hh.z10, hh.z20, hh.z21]
    have := hh.p0
    have := hh.p1
    have := hh.p2
    have : 0 < h 0 0 * h 1 1 * h 2 2 := by positivity
    intro e
    apply this.ne'
    linear_combination e
  have e1 : h2abc h = genh2abc hᵀ := by
    unfold h2abc genh2abc
    simp only [dotProduct, transpose_apply, Fin.sum_univ_three, hh.z10, hh.z20, hh.z21, pow_two, mul_zero, zero_mul, add_zero, Real.sqrt_mul_self hh.p0.le]
    have p0 := hh.p0.ne'
    ext
    · rfl
    · rfl
    · rfl
    · dsimp only
      congr 2
      ring
    · dsimp only
      rw [mul_div_mul_left _ _ p0]
    · dsimp only
      rw [mul_div_mul_left _ _ p0]
  obtain ⟨k, e, hk, hg⟩ := genh_cell hd
  unfold readGenh at e
  rw [e1, e]
  rw [transpose_transpose] at hg
  rw [upper_unique ⟨hk.z10, hk.z20, hk.z21, hk.p0, hk.p1, hk.p2.le⟩ ⟨hh.z10, hh.z20, hh.z21, hh.p0, hh.p1, hh.p2.le⟩ hg]

/-- **The cell written in degrees to a file and read again**, in any unit. -/
theorem file_back {h : Mat} (hh : Upper h) {conv : ℝ} (hc : 0 < conv) : readAbc (h2abcDeg (conv • h)) = some (conv • h) := by
  have hk : Upper (conv • h) := by
    obtain ⟨a, b, c, d, e, f⟩ := hh
    exact ⟨by simp [a], by simp [b], by simp [c], mul_pos hc d, mul_pos hc e, mul_pos hc f⟩
  have hpi := Real.pi_ne_zero
  rw [← cell_back hk]
  unfold readAbc h2abcDeg
  dsimp only
  congr 1
  ext
  · rfl
  · rfl
  · rfl
  · dsimp only; field_simp
  · dsimp only; field_simp
  · dsimp only; field_simp

/-! ## What is lost -/

/-- **A negative entry on the diagonal**, which is accepted in the input, is lost: another lattice is written. -/
theorem negative_diagonal_lost :
    ∃ h k : Mat, h.det ≠ 0 ∧ h 1 0 = 0 ∧ h 2 0 = 0 ∧ h 2 1 = 0 ∧ abc2h (h2abc h) = some k ∧
      ¬ ∃ n : Fin 3 → ℤ, (fun i => h i 1) = k *ᵥ fun i => (n i : ℝ) := by
  have hk : Upper !![10, 3, 0; 0, 4, 0; 0, 0, 1] := ⟨rfl, rfl, rfl, by simp, by simp, by simp⟩
  refine ⟨!![10, 3, 0; 0, -4, 0; 0, 0, 1], !![10, 3, 0; 0, 4, 0; 0, 0, 1], ?_, rfl, rfl, rfl, ?_, ?_⟩
  · rw [det_fin_three]; simp
  · rw [← cell_back hk]
    congr 1
    simp [h2abc, dotProduct, Fin.sum_univ_three]
  · rintro ⟨n, hn⟩
    have h0 := congrFun hn 0
    have h1 := congrFun hn 1
    simp [mulVec, dotProduct, Fin.sum_univ_three] at h0 h1
    have e1 : n 1 = -1 := by
      have : (n 1 : ℝ) = -1 := by linarith
      exact_mod_cast this
    rw [e1] at h0
    push_cast at h0
    have e0 : (10 : ℝ) * n 0 = 6 := by linarith
    have : (10 : ℤ) * n 0 = 6 := by exact_mod_cast e0
    omega

/-- **A full matrix in a comment with `CELL{H}`** is accepted; the wrapped position is then not equivalent to the given one. -/
theorem full_matrix_wrong :
    ∃ (h : Mat) (q : Vec), h.det ≠ 0 ∧ ¬ ∃ n : Fin 3 → ℤ, wrap h (invUt h) q = q + h *ᵥ fun i => (n i : ℝ) := by
  refine ⟨!![1, 0, 0; 1, 1, 0; 0, 0, 1], ![3 / 5, 0, 0], ?_, ?_⟩
  · rw [det_fin_three]; simp
  · rintro ⟨n, hn⟩
    have r0 : roundEven 0 = 0 := by norm_num [roundEven]
    have r1 : roundEven (3 / 5) = 1 := by
      have : ⌊(3 / 5 : ℝ)⌋ = 0 := by norm_num
      rw [roundEven, this, if_neg (by norm_num), if_pos (by norm_num)]
      rfl
    have e : wrap !![1, 0, 0; 1, 1, 0; 0, 0, 1] (invUt !![1, 0, 0; 1, 1, 0; 0, 0, 1]) ![3 / 5, 0, 0] = ![-2 / 5, -2 / 5, 0] := by
      have e1 : invUt !![1, 0, 0; 1, 1, 0; 0, 0, 1] = 1 := by
        ext i j; fin_cases i <;> fin_cases j <;> simp [invUt]
      unfold wrap
      rw [e1, one_mulVec]
      have e2 : frac ![3 / 5, 0, 0] = ![-2 / 5, 0, 0] := by
        funext i
        fin_cases i
        · simp only [frac, Fin.zero_eta, Matrix.cons_val_zero, r1]; norm_num
        · simp [frac, r0]
        · simp [frac, r0]
      rw [e2]
      funext i
      fin_cases i <;> simp [mulVec, dotProduct, Fin.sum_univ_three]
    rw [e] at hn
    have h0 := congrFun hn 0
    have h1 := congrFun hn 1
    simp [mulVec, dotProduct, Fin.sum_univ_three] at h0 h1
    have e0 : (n 0 : ℝ) = -1 := by linarith
    rw [e0] at h1
    have e1 : (5 : ℝ) * n 1 = 3 := by linarith
    have : (5 : ℤ) * n 1 = 3 := by exact_mod_cast e1
    omega

/-! ## Cases -/

/-- A cell of sides 2, 3, 4 and right angles. -/
example : Upper !![2, 0, 0; 0, 3, 0; 0, 0, 4] := ⟨rfl, rfl, rfl, by simp, by simp, by simp⟩

example : Proper ⟨2, 3, 4, Real.pi / 2, Real.pi / 3, Real.pi / 2⟩ ∧ 0 ≤ angleDet ⟨2, 3, 4, Real.pi / 2, Real.pi / 3, Real.pi / 2⟩ := by
  have := Real.pi_pos
  refine ⟨⟨by norm_num, by norm_num, by norm_num, ⟨by positivity, by linarith⟩, ⟨by positivity, by linarith⟩, ⟨by positivity, by linarith⟩⟩, ?_⟩
  simp only [angleDet, Real.cos_pi_div_two, Real.cos_pi_div_three]
  norm_num

example : (!![0, 2, 0; 1, 0, 1; 0, 0, 3] : Mat).det ≠ 0 := by rw [det_fin_three]; simp

end Verif.Cell
