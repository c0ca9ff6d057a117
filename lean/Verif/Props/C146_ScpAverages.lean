import Verif.Phys.ScPhonons
import Mathlib.Data.Real.StarOrdered
import Mathlib.Tactic.Linarith
import Mathlib.Tactic.FieldSimp
import Mathlib.Tactic.Positivity

/-!
# C146: correlations, weights and averages of self-consistent phonon calculations

The samples have the correlations of the harmonic reference, the weights are ratios of the densities,
and for harmonic potentials the averages are exact.
-/

namespace Verif.Scp

open Finset Matrix

variable {d M : ℕ}

/-! ## Correlations -/

/-- The diagonalisation of a matrix: orthogonal, and the matrix is rebuilt from it. -/
structure EighOk (A : Mat d) (r : Vec d × Mat d) : Prop where
  orth : r.2ᵀ * r.2 = 1
  rebuild : A = r.2 * diagonal r.1 * r.2ᵀ

theorem build_eq (U : Mat d) (z : Fin d → Bool) (g : Vec d) :
    build U z g = U * diagonal (fun i => if z i then 0 else g i) * Uᵀ := by
  ext a b
  simp only [build, Matrix.sum_apply, Matrix.mul_apply, Matrix.transpose_apply, Matrix.diagonal_apply,
    mul_ite, mul_zero, Finset.sum_ite_eq', Finset.mem_univ, if_true]
  refine sum_congr rfl fun i _ => ?_
  cases z i <;> simp [vecMulVec_apply]
  ring

theorem build_mul {U : Mat d} (hU : Uᵀ * U = 1) (z : Fin d → Bool) (g h : Vec d) :
    build U z g * build U z h = build U z fun i => g i * h i := by
  rw [build_eq, build_eq, build_eq]
  calc U * diagonal _ * Uᵀ * (U * diagonal _ * Uᵀ)
      = U * diagonal (fun i => if z i then 0 else g i) * (Uᵀ * U)
        * diagonal (fun i => if z i then 0 else h i) * Uᵀ := by simp only [Matrix.mul_assoc]
    _ = _ := by
      rw [hU, Matrix.mul_one, Matrix.mul_assoc U, diagonal_mul_diagonal]
      congr 3
      funext i
      cases z i <;> simp

theorem build_congr (U : Mat d) {z : Fin d → Bool} {g h : Vec d} (e : ∀ i, z i = false → g i = h i) :
    build U z g = build U z h := by
  unfold build
  refine sum_congr rfl fun i _ => ?_
  cases hz : z i
  · simp [e i hz]
  · simp

theorem build_transpose (U : Mat d) (z : Fin d → Bool) (g : Vec d) :
    (build U z g)ᵀ = build U z g := by
  rw [build_eq]
  simp [Matrix.transpose_mul, Matrix.mul_assoc]

theorem sqM_isqM (p : Par d) (hm : ∀ a, 0 < p.m3 a) : sqM p * isqM p = 1 ∧ isqM p * sqM p = 1 := by
  have h : ∀ a, √(p.m3 a) * √(1 / p.m3 a) = 1 := fun a => by
    rw [← Real.sqrt_mul (hm a).le, mul_one_div_cancel (hm a).ne', Real.sqrt_one]
  constructor
  · rw [sqM, isqM, diagonal_mul_diagonal]
    simp only [h, diagonal_one]
  · rw [sqM, isqM, diagonal_mul_diagonal]
    simp only [mul_comm _ (√(p.m3 _)), h, diagonal_one]

theorem td_pos (s : Stat) {temp w : ℝ} (ht : 0 < temp) (hw : 0 < w) : 0 < td s temp w := by
  cases s
  · have : 0 < Real.tanh (1 / 2 * w / temp) := by
      rw [Real.tanh_eq_sinh_div_cosh]
      exact div_pos (Real.sinh_pos_iff.mpr (by positivity)) (Real.cosh_pos _)
    simp only [td]
    positivity
  · simp only [td]
    positivity

/-- Specification: the mean square displacement of a quantum harmonic oscillator of unit mass and
frequency `w` at temperature `temp`, from the mean occupation number. -/
noncomputable def qho (temp w : ℝ) : ℝ := (1 / (Real.exp (w / temp) - 1) + 1 / 2) / w

/-- **C146.** In the quantum mode the correlations are those of quantum harmonic oscillators, in the
classical mode equipartition holds. -/
theorem td_right {temp w : ℝ} (ht : 0 < temp) (hw : 0 < w) :
    td .qn temp w = qho temp w ∧ w ^ 2 * td .cl temp w = temp := by
  constructor
  · have hx : 0 < w / temp := div_pos hw ht
    have h1 : 1 < Real.exp (w / temp) := Real.one_lt_exp_iff.mpr hx
    have h2 : Real.exp (w / temp) = Real.exp (1 / 2 * w / temp) * Real.exp (1 / 2 * w / temp) := by
      rw [← Real.exp_add]; congr 1; ring
    have h3 : Real.exp (-(1 / 2 * w / temp)) = 1 / Real.exp (1 / 2 * w / temp) := by
      rw [Real.exp_neg]; exact (one_div _).symm
    simp only [td, qho, Real.tanh_eq_sinh_div_cosh, Real.sinh_eq, Real.cosh_eq, h3]
    rw [h2]
    have hE := Real.exp_pos (1 / 2 * w / temp)
    generalize Real.exp (1 / 2 * w / temp) = E at *
    have h4 : E * E - 1 ≠ 0 := by rw [h2] at h1; linarith
    have h5 : E - 1 / E ≠ 0 := by
      intro h
      apply h4
      field_simp at h
      linear_combination h
    have h6 : E ^ 2 - 1 ≠ 0 := by rw [pow_two]; exact h4
    field_simp
    have h7 : E * E - 1 = E ^ 2 - 1 := by ring
    first
      | ring
      | (rw [div_add_div _ _ h6 two_ne_zero]; field_simp; ring)
  · simp only [td]
    field_simp

/-- What the second diagonalisation gives is a diagonalisation, with positive frequencies for the
modes that are not chopped. -/
structure ModesOk (p : Par d) (dyn : Mat d) : Prop where
  eig : EighOk (hpf p dyn).1 ((hpf p dyn).2.1, (hpf p dyn).2.2.1)
  mass : ∀ a, 0 < p.m3 a
  temp : 0 < p.temp
  atol : 0 < p.atol

theorem nz_pos {p : Par d} {dyn : Mat d} (h : ModesOk p dyn) {i : Fin d}
    (hz : (hpf p dyn).2.2.2 i = false) : 0 < (hpf p dyn).2.1 i := by
  have : ¬ (hpf p dyn).2.1 i < p.atol := by
    simpa [hpf] using hz
  linarith [h.atol]

/-- Specification: the projector on the modes that are not chopped, in mass weighted coordinates. -/
noncomputable def proj (U : Mat d) (z : Fin d → Bool) : Mat d := build U z fun _ => 1

/-- **C146.** The matrix that makes the samples has the correlations `D` as its square; `iD` is the
inverse of `D`, and `iK` the inverse of the force constants, on the modes that are not chopped. -/
theorem correlations {p : Par d} {dyn : Mat d} (h : ModesOk p dyn) :
    let md := (modes p dyn).2
    md.A * md.Aᵀ = md.D ∧
    md.D * md.iD = isqM p * (proj md.U md.z * sqM p) ∧
    md.iD * md.D * md.iD = md.iD ∧ md.D * md.iD * md.D = md.D := by
  intro md
  have hU : (hpf p dyn).2.2.1ᵀ * (hpf p dyn).2.2.1 = 1 := h.eig.orth
  obtain ⟨s1, s2⟩ := sqM_isqM p h.mass
  have hs : (isqM p)ᵀ = isqM p := by simp [isqM]
  have ht : ∀ i, (hpf p dyn).2.2.2 i = false →
      0 < td p.stat p.temp (√((hpf p dyn).2.1 i)) := fun i hz =>
    td_pos _ h.temp (Real.sqrt_pos.mpr (nz_pos h hz))
  have e1 : md.A * md.Aᵀ = md.D := by
    simp only [md, modes]
    rw [Matrix.transpose_mul, build_transpose, hs, Matrix.mul_assoc (isqM p), ← Matrix.mul_assoc
      (build _ _ _) (build _ _ _), build_mul hU]
    congr 2
    exact build_congr _ fun i hz => Real.mul_self_sqrt (ht i hz).le
  have hd : ∀ B C : Mat d, isqM p * (B * isqM p) * (sqM p * (C * sqM p))
      = isqM p * (B * C * sqM p) := by
    intro B C
    calc isqM p * (B * isqM p) * (sqM p * (C * sqM p))
        = isqM p * B * (isqM p * sqM p) * C * sqM p := by simp only [Matrix.mul_assoc]
      _ = _ := by rw [s2]; simp only [Matrix.mul_assoc, Matrix.one_mul]
  have hd' : ∀ B C : Mat d, sqM p * (B * sqM p) * (isqM p * (C * isqM p))
      = sqM p * (B * C * isqM p) := by
    intro B C
    calc sqM p * (B * sqM p) * (isqM p * (C * isqM p))
        = sqM p * B * (sqM p * isqM p) * C * isqM p := by simp only [Matrix.mul_assoc]
      _ = _ := by rw [s1]; simp only [Matrix.mul_assoc, Matrix.one_mul]
  have hd2 : ∀ B C : Mat d, sqM p * (B * isqM p) * (sqM p * (C * sqM p))
      = sqM p * (B * C * sqM p) := by
    intro B C
    calc sqM p * (B * isqM p) * (sqM p * (C * sqM p))
        = sqM p * B * (isqM p * sqM p) * C * sqM p := by simp only [Matrix.mul_assoc]
      _ = _ := by rw [s2]; simp only [Matrix.mul_assoc, Matrix.one_mul]
  have hd3 : ∀ B C : Mat d, isqM p * (B * sqM p) * (isqM p * (C * isqM p))
      = isqM p * (B * C * isqM p) := by
    intro B C
    calc isqM p * (B * sqM p) * (isqM p * (C * isqM p))
        = isqM p * B * (sqM p * isqM p) * C * isqM p := by simp only [Matrix.mul_assoc]
      _ = _ := by rw [s1]; simp only [Matrix.mul_assoc, Matrix.one_mul]
  refine ⟨e1, ?_, ?_, ?_⟩
  · simp only [md, modes]
    rw [hd, build_mul hU]
    congr 2
    exact build_congr _ fun i hz => mul_one_div_cancel (ht i hz).ne'
  · simp only [md, modes]
    rw [hd', build_mul hU, hd2, build_mul hU]
    congr 2
    refine build_congr _ fun i hz => ?_
    have := (ht i hz).ne'
    field_simp
  · simp only [md, modes]
    rw [hd, build_mul hU, hd3, build_mul hU]
    congr 2
    refine build_congr _ fun i hz => ?_
    have := (ht i hz).ne'
    field_simp

/-- The modes that are chopped have frequency zero exactly (for instance the translations). -/
def ChopExact (p : Par d) (dyn : Mat d) : Prop :=
  ∀ i, (hpf p dyn).2.2.2 i = true → (hpf p dyn).2.1 i = 0

theorem dyn_build {p : Par d} {dyn : Mat d} (h : ModesOk p dyn) (hc : ChopExact p dyn) :
    (hpf p dyn).1 = build (hpf p dyn).2.2.1 (hpf p dyn).2.2.2 (hpf p dyn).2.1 := by
  rw [build_eq]
  conv_lhs => rw [h.eig.rebuild]
  congr 3
  funext i
  cases hz : (hpf p dyn).2.2.2 i
  · simp
  · simp [hc i hz]

/-- **C146.** In the classical mode the samples have the Boltzmann distribution of the force
constants: the inverse correlation is the force constants over the temperature. -/
theorem classical {p : Par d} {dyn : Mat d} (h : ModesOk p dyn) (hc : ChopExact p dyn)
    (hs : p.stat = .cl) : p.temp • (modes p dyn).2.iD = (modes p dyn).2.K := by
  simp only [modes, hs]
  conv_rhs => rw [dyn_build h hc]
  rw [← Matrix.mul_smul, ← Matrix.smul_mul]
  congr 2
  have hb : ∀ (c : ℝ) (U : Mat d) (z : Fin d → Bool) (g : Vec d),
      c • build U z g = build U z fun i => c * g i := by
    intro c U z g
    unfold build
    rw [smul_sum]
    refine sum_congr rfl fun i _ => ?_
    split
    · simp
    · rw [smul_smul]
  rw [hb]
  refine build_congr _ fun i hz => ?_
  have h1 := nz_pos h hz
  have h2 := h.temp.ne'
  simp only [td]
  rw [div_pow, Real.sq_sqrt h1.le]
  field_simp

/-- **C146.** `K iK K = K`: the inverse force constants undo the force constants up to the chopped
modes. -/
theorem iK_inverse {p : Par d} {dyn : Mat d} (h : ModesOk p dyn) (hc : ChopExact p dyn) :
    (modes p dyn).2.K * (modes p dyn).2.iK * (modes p dyn).2.K = (modes p dyn).2.K := by
  obtain ⟨s1, s2⟩ := sqM_isqM p h.mass
  have hU : (hpf p dyn).2.2.1ᵀ * (hpf p dyn).2.2.1 = 1 := h.eig.orth
  have hK : (modes p dyn).2.K
      = sqM p * (build (hpf p dyn).2.2.1 (hpf p dyn).2.2.2 (hpf p dyn).2.1 * sqM p) := by
    rw [← dyn_build h hc]
    rfl
  rw [hK]
  simp only [modes]
  generalize hB : build (hpf p dyn).2.2.1 (hpf p dyn).2.2.2 (hpf p dyn).2.1 = B
  generalize hC : build (hpf p dyn).2.2.1 (hpf p dyn).2.2.2 (fun i => 1 / (hpf p dyn).2.1 i) = C
  calc sqM p * (B * sqM p) * (isqM p * (C * isqM p)) * (sqM p * (B * sqM p))
      = sqM p * B * (sqM p * isqM p) * C * (isqM p * sqM p) * B * sqM p := by
        simp only [Matrix.mul_assoc]
    _ = sqM p * ((B * C * B) * sqM p) := by
        rw [s1, s2]; simp only [Matrix.mul_assoc, Matrix.one_mul]
    _ = _ := by
        rw [← hB, ← hC, build_mul hU, build_mul hU]
        congr 2
        refine build_congr _ fun i hz => ?_
        have := (nz_pos h hz).ne'
        field_simp

/-! ## Weights -/

/-- Specification: the density of displacements with inverse correlation `iD` about `q`, up to
normalisation. -/
noncomputable def dens (q : Vec d) (iD : Mat d) (x : Vec d) : ℝ :=
  Real.exp (-(1 / 2 * ((x - q) ⬝ᵥ (iD *ᵥ (x - q)))))

/-- **C146.** The weight of a sample is the ratio of the density it is wanted for to the density it
was drawn from. -/
theorem rw_ratio (q : Vec d) (iD : Mat d) (b : Batch d M) (s : Fin M) :
    rw q iD b s = dens q iD (b.x s) / dens b.q0 b.iD0 (b.x s) := by
  have key : ∀ (A : Mat d) (y : Vec d), ∑ a, 1 / 2 * (A *ᵥ y) a * y a = 1 / 2 * (y ⬝ᵥ (A *ᵥ y)) := by
    intro A y
    simp only [dotProduct, mul_sum]
    exact sum_congr rfl fun a _ => by ring
  have hneg : q - b.x s = -(b.x s - q) := by simp
  unfold rw dens
  rw [key, key, ← Real.exp_sub, hneg, mulVec_neg, neg_dotProduct_neg]
  congr 1
  ring

theorem rw_pos (q : Vec d) (iD : Mat d) (b : Batch d M) (s : Fin M) : 0 < rw q iD b s :=
  Real.exp_pos _

/-- A batch used for the distribution it was drawn from. -/
def Own (q : Vec d) (iD : Mat d) (b : Batch d M) : Prop := b.q0 = q ∧ b.iD0 = iD

theorem rw_own {q : Vec d} {iD : Mat d} {b : Batch d M} (h : Own q iD b) (s : Fin M) :
    rw q iD b s = 1 := by
  rw [rw_ratio, h.1, h.2]
  exact div_self (Real.exp_pos _).ne'

/-- **C146.** Samples used for the distribution they were drawn from all have the same weight, and
their batch has full weight. -/
theorem batchW_own [NeZero M] (expo : ℕ) {q : Vec d} {iD : Mat d} {b : Batch d M}
    (h : Own q iD b) : batchW expo q iD b = 1 := by
  have hM : (1 : ℝ) ≤ M := by exact_mod_cast Nat.one_le_iff_ne_zero.mpr (NeZero.ne M)
  unfold batchW
  simp only [rw_own h, sum_const, card_univ, Fintype.card_fin, nsmul_eq_mul, mul_one]
  rw [if_neg (by norm_num; linarith)]
  have : var (fun _ : Fin M => Real.log (1 / (M : ℝ))) = 0 := by
    unfold var
    have hM0 : (M : ℝ) ≠ 0 := by linarith
    simp only [sum_const, card_univ, Fintype.card_fin, nsmul_eq_mul]
    simp only [mul_div_cancel_left₀ _ hM0, sub_self]
    simp
  rw [this]
  simp

/-- The weight of a batch is at most one. -/
theorem batchW_le_one {expo : ℕ} (q : Vec d) (iD : Mat d) (b : Batch d M) :
    0 ≤ batchW expo q iD b ∧ batchW expo q iD b ≤ 1 := by
  unfold batchW
  split
  · constructor
    · positivity
    · exact pow_le_one₀ le_rfl zero_le_one
  · constructor
    · positivity
    · refine pow_le_one₀ (Real.exp_pos _).le ?_
      rw [Real.exp_le_one_iff, neg_nonpos]
      unfold var
      positivity

/-! ## Averages -/

/-- The samples are placed symmetrically about the centre: there is a pairing of each sample with the
opposite one (`sample_opposite`, `samples_even` of C145). -/
def Symmetric (q : Vec d) (x : Fin M → Vec d) : Prop :=
  ∃ e : Fin M ≃ Fin M, ∀ s, x (e s) - q = -(x s - q)

theorem sum_symmetric {q : Vec d} {x : Fin M → Vec d} (h : Symmetric q x) (a : Fin d) :
    ∑ s, (x s a - q a) = 0 := by
  obtain ⟨e, he⟩ := h
  have h1 : ∑ s, (x s a - q a) = ∑ s, (x (e s) a - q a) :=
    (Equiv.sum_comp e fun s => x s a - q a).symm
  have h2 : ∑ s, (x (e s) a - q a) = -∑ s, (x s a - q a) := by
    rw [← sum_neg_distrib]
    refine sum_congr rfl fun s _ => ?_
    have := congrFun (he s) a
    simpa using this
  linarith

/-- The forces of a batch are those of a harmonic potential with force constants `K0` and minimum
`x0`. -/
def HarmForces (K0 : Mat d) (x0 : Vec d) (b : Batch d M) : Prop := ∀ s, b.f s = -(K0 *ᵥ (b.x s - x0))

theorem harm_eq (q : Vec d) {K : Mat d} (hK : Kᵀ = K) (x : Vec d) :
    harm q K x = -(K *ᵥ (x - q)) := by
  rw [harm, ← mulVec_transpose, hK]

/-- **C146.** For a harmonic potential the average force of samples used for their own distribution
is exactly the force at the centre, whatever the harmonic reference and however few the samples. -/
theorem avg_force_harmonic [NeZero M] {q : Vec d} {K iD : Mat d} (hK : Kᵀ = K) {b : Batch d M}
    (ho : Own q iD b) (hs : Symmetric q b.x) {K0 : Mat d} {x0 : Vec d} (hf : HarmForces K0 x0 b) :
    avgF q K iD b = -(K0 *ᵥ (q - x0)) := by
  have hM : (M : ℝ) ≠ 0 := Nat.cast_ne_zero.mpr (NeZero.ne M)
  funext a
  simp only [avgF, rw_own ho, one_mul, sum_const, card_univ, Fintype.card_fin, nsmul_eq_mul, mul_one]
  have h1 : ∀ s, b.f s a - harm q K (b.x s) a
      = -(K0 *ᵥ (q - x0)) a - ((K0 - K) *ᵥ (b.x s - q)) a := by
    intro s
    rw [hf s, harm_eq q hK, sub_mulVec]
    have : b.x s - x0 = (b.x s - q) + (q - x0) := by abel
    rw [this, mulVec_add]
    simp only [Pi.neg_apply, Pi.add_apply, Pi.sub_apply]
    ring
  simp only [h1, sum_sub_distrib, sum_const, card_univ, Fintype.card_fin, nsmul_eq_mul]
  have h2 : ∑ s, ((K0 - K) *ᵥ (b.x s - q)) a = 0 := by
    simp only [mulVec, dotProduct]
    rw [sum_comm]
    simp only [← mul_sum, Pi.sub_apply, sum_symmetric hs, mul_zero, sum_const_zero]
  rw [h2, sub_zero, mul_div_cancel_left₀ _ hM]
  rfl

/-- If the harmonic reference has the right force constants the error is zero. -/
theorem var_force_harmonic [NeZero M] {q : Vec d} {iD : Mat d} {b : Batch d M} (ho : Own q iD b)
    (hs : Symmetric q b.x) {K0 : Mat d} (hK : K0ᵀ = K0) {x0 : Vec d} (hf : HarmForces K0 x0 b) :
    varF q K0 iD b = 0 := by
  funext a
  simp only [varF, Pi.zero_apply]
  have : ∀ s, b.f s a - harm q K0 (b.x s) a - avgF q K0 iD b a = 0 := by
    intro s
    rw [avg_force_harmonic hK ho hs hf, hf s, harm_eq q hK]
    have : b.x s - x0 = (b.x s - q) + (q - x0) := by abel
    rw [this, mulVec_add]
    simp
  simp [this]

/-- **C146.** A harmonic reference with the right force constants is kept: the averaged force
constants are the same again, without any statistical error. -/
theorem hessian_kept [NeZero M] (expo : ℕ) {q : Vec d} {iD : Mat d} {b : Batch d M}
    (ho : Own q iD b) (hs : Symmetric q b.x) {K0 : Mat d} (hK : K0ᵀ = K0) {x0 : Vec d}
    (hf : HarmForces K0 x0 b) : weightedHessian expo q K0 iD [b] = K0 := by
  have h0 : avgDK q K0 iD b = 0 := by
    have hz : (Matrix.of fun j a => ∑ s, (b.f s a - harm q K0 (b.x s) a) * rw q iD b s
        * (b.x s - q) j) = (0 : Mat d) := by
      ext j a
      simp only [of_apply, Matrix.zero_apply, rw_own ho, mul_one]
      have h1 : ∀ s, b.f s a - harm q K0 (b.x s) a = -(K0 *ᵥ (q - x0)) a := by
        intro s
        rw [hf s, harm_eq q hK]
        have : b.x s - x0 = (b.x s - q) + (q - x0) := by abel
        rw [this, mulVec_add]
        simp
      simp only [h1, ← mul_sum, Pi.sub_apply, sum_symmetric hs, mul_zero]
    rw [avgDK, hz]
    simp
  simp only [weightedHessian, List.map_cons, List.map_nil, List.sum_cons, List.sum_nil, add_zero,
    batchW_own expo ho, h0]
  simp

/-- Two samples about the origin in a harmonic well: the hypotheses are met. -/
example : ∃ b : Batch 1 2, Own 0 1 b ∧ Symmetric 0 b.x ∧ HarmForces (d := 1) 3 1 b ∧ b.x 0 ≠ b.x 1 := by
  refine ⟨⟨0, 1, fun s _ => if s = 0 then 1 else -1,
    fun s => -((3 : Mat 1) *ᵥ ((fun _ => if s = 0 then 1 else -1) - 1))⟩, ⟨rfl, rfl⟩,
    ⟨Equiv.swap 0 1, ?_⟩, fun s => rfl, ?_⟩
  · intro s
    funext a
    fin_cases s <;> simp
  · intro h
    have := congrFun h 0
    norm_num at this

end Verif.Scp
