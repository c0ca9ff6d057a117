import Verif.Phys.GleInit
import Verif.Props.C47_Gle

/-!
# C115: the auxiliary momenta of a generalised Langevin thermostat start in equilibrium
-/

namespace Verif.GleInit

open Matrix MeasureTheory ProbabilityTheory Verif.Gauss Verif.Thermo

/-! ### The decomposition -/

/-- What is left of a matrix after the first `j` columns have been eliminated. -/
noncomputable def schur (M : ℕ → ℕ → ℝ) : ℕ → ℕ → ℕ → ℝ
  | 0 => M
  | j + 1 => fun i l => schur M j i l - schur M j i j * schur M j l j / schur M j j j

/-- The entry of `L`. -/
noncomputable def lEnt (M : ℕ → ℕ → ℝ) (i j : ℕ) : ℝ :=
  if schur M j j j = 0 then schur M j i j else schur M j i j / schur M j j j

theorem schur_sum (M : ℕ → ℕ → ℝ) (j i l : ℕ) :
    schur M j i l = M i l - ∑ k : Fin j, lEnt M i k * lEnt M l k * schur M k k k := by
  induction j with
  | zero => simp [schur]
  | succ j ih =>
    rw [schur, Fin.sum_univ_castSucc]
    simp only [Fin.val_castSucc, Fin.val_last]
    rw [ih]
    have : schur M j i j * schur M j l j / schur M j j j = lEnt M i j * lEnt M l j * schur M j j j := by
      unfold lEnt
      by_cases h : schur M j j j = 0
      · simp [h]
      · rw [if_neg h, if_neg h]
        field_simp
    rw [this]
    ring

theorem ldl_eq (M : ℕ → ℕ → ℝ) (i : ℕ) : ∀ j ≤ i, ldl M i j = if j = i then schur M i i i else lEnt M i j := by
  induction i using Nat.strong_induction_on with
  | _ i ih =>
    have key : ∀ j < i, ldl M i j = lEnt M i j := by
      intro j
      induction j using Nat.strong_induction_on with
      | _ j jh =>
        intro hj
        have dj : ldl M j j = schur M j j j := by rw [ih j hj j le_rfl, if_pos rfl]
        rw [ldl, dif_pos hj.le, dif_neg hj.ne]
        dsimp only
        have hs : (M i j - ∑ k : Fin j, ldl M i k * ldl M j k * ldl M k k) = schur M j i j := by
          rw [schur_sum]
          congr 1
          refine Finset.sum_congr rfl fun k _ => ?_
          rw [jh k k.2 (k.2.trans hj), ih j hj k k.2.le, if_neg k.2.ne, ih k (k.2.trans hj) k le_rfl, if_pos rfl]
        rw [hs, dj]
        rfl
    intro j hj
    by_cases e : j = i
    · subst e
      rw [if_pos rfl, ldl, dif_pos le_rfl, dif_pos rfl, schur_sum]
      congr 1
      refine Finset.sum_congr rfl fun k _ => ?_
      rw [key k k.2, ih k k.2 k le_rfl, if_pos rfl]
    · rw [if_neg e, key j (lt_of_le_of_ne hj e)]

/-- The entries of a matrix, zero outside. -/
noncomputable def ext {n : ℕ} (M : Matrix (Fin n) (Fin n) ℝ) : ℕ → ℕ → ℝ :=
  fun i j => if h : i < n ∧ j < n then M ⟨i, h.1⟩ ⟨j, h.2⟩ else 0

theorem ext_apply {n : ℕ} (M : Matrix (Fin n) (Fin n) ℝ) (i j : Fin n) : ext M i j = M i j := by
  simp [ext]

theorem psd_col {n : ℕ} {A : Matrix (Fin n) (Fin n) ℝ} (hA : A.PosSemidef) {j : Fin n} (h : A j j = 0) (i : Fin n) :
    A i j = 0 := by
  have hs : ∀ a b, A a b = A b a := fun a b => by
    have := hA.isHermitian.apply b a
    simpa using this
  by_contra hne
  have hij : i ≠ j := fun e => hne (by rw [e, h])
  have q : ∀ t : ℝ, 0 ≤ A i i + 2 * t * A i j := by
    intro t
    have := hA.dotProduct_mulVec_nonneg (Pi.single i 1 + t • Pi.single j 1)
    simp only [star_trivial, mulVec_add, mulVec_smul, dotProduct_add, add_dotProduct, smul_dotProduct, dotProduct_smul,
      mulVec_single_one, single_one_dotProduct, col_apply, smul_eq_mul] at this
    rw [h, hs j i] at this
    linarith
  have := q (-(A i i + 1) / (2 * A i j))
  have e : A i i + 2 * (-(A i i + 1) / (2 * A i j)) * A i j = -1 := by
    field_simp
    ring
  linarith

theorem schur_psd {n : ℕ} {M : Matrix (Fin n) (Fin n) ℝ} (hM : M.PosSemidef) (j : ℕ) (hj : j ≤ n) :
    (Matrix.of fun a b : Fin n => schur (ext M) j a b).PosSemidef := by
  induction j with
  | zero =>
    convert hM
    ext a b
    exact ext_apply M a b
  | succ j ih =>
    have hA := ih (by omega)
    set A := Matrix.of fun a b : Fin n => schur (ext M) j a b with hAd
    let jj : Fin n := ⟨j, hj⟩
    have hs : ∀ a b, A a b = A b a := fun a b => by
      have := hA.isHermitian.apply b a
      simpa using this
    have e : (Matrix.of fun a b : Fin n => schur (ext M) (j + 1) a b)
        = Matrix.of fun a b : Fin n => A a b - A a jj * A b jj / A jj jj := rfl
    rw [e]
    refine PosSemidef.of_dotProduct_mulVec_nonneg ?_ fun x => ?_
    · ext a b
      simp only [conjTranspose_apply, of_apply, star_trivial]
      rw [hs b a]
      ring
    · rw [star_trivial]
      by_cases h : A jj jj = 0
      · have := hA.dotProduct_mulVec_nonneg x
        rw [star_trivial] at this
        convert this using 3
        ext a b
        simp [h]
      · let c := (∑ b, A b jj * x b) / A jj jj
        have := hA.dotProduct_mulVec_nonneg (x - c • Pi.single jj 1)
        rw [star_trivial] at this
        have hx : (A *ᵥ x) jj = ∑ b, A b jj * x b := by
          simp only [mulVec, dotProduct]
          exact Finset.sum_congr rfl fun b _ => by rw [hs jj b]
        have hx2 : x ⬝ᵥ A.col jj = ∑ b, A b jj * x b := by
          simp only [dotProduct, col_apply]
          exact Finset.sum_congr rfl fun b _ => mul_comm _ _
        simp only [mulVec_sub, mulVec_smul, dotProduct_sub, sub_dotProduct, smul_dotProduct, dotProduct_smul,
          mulVec_single_one, single_one_dotProduct, col_apply, smul_eq_mul, hx, hx2] at this
        have e2 : x ⬝ᵥ (Matrix.of fun a b : Fin n => A a b - A a jj * A b jj / A jj jj) *ᵥ x
            = x ⬝ᵥ A *ᵥ x - (∑ b, A b jj * x b) * (∑ b, A b jj * x b) / A jj jj := by
          have : (Matrix.of fun a b : Fin n => A a b - A a jj * A b jj / A jj jj) *ᵥ x
              = A *ᵥ x - fun a => A a jj * ((∑ b, A b jj * x b) / A jj jj) := by
            funext a
            simp only [mulVec, dotProduct, of_apply, Pi.sub_apply, sub_mul, Finset.sum_sub_distrib, Finset.sum_div,
              Finset.mul_sum]
            congr 1
            exact Finset.sum_congr rfl fun b _ => by ring
          rw [this, dotProduct_sub]
          have e5 : (x ⬝ᵥ fun a => A a jj * ((∑ b, A b jj * x b) / A jj jj))
              = (∑ a, A a jj * x a) * ((∑ b, A b jj * x b) / A jj jj) := by
            rw [Finset.sum_mul]
            exact Finset.sum_congr rfl fun b _ => by ring
          rw [e5, mul_div_assoc]
        rw [e2]
        have e3 : c * A jj jj = ∑ b, A b jj * x b := div_mul_cancel₀ _ h
        have e4 : (∑ b, A b jj * x b) * (∑ b, A b jj * x b) / A jj jj = c * ∑ b, A b jj * x b := by
          simp only [c]
          ring
        rw [e4]
        rw [e3] at this
        linarith

/-- The entries of the result. -/
theorem chol_entry {n : ℕ} (M : Matrix (Fin n) (Fin n) ℝ) (i j : Fin n) :
    stabCholesky M i j = if (j : ℕ) = i then rootD (ext M) j else
      if (j : ℕ) < i then ldl (ext M) i j * rootD (ext M) j else 0 := by
  change (if (j : ℕ) = i then 1 * rootD (ext M) j else
      if (j : ℕ) < i then ldl (ext M) i j * rootD (ext M) j else 0) = _
  rw [one_mul]

theorem rootD_sq {n : ℕ} {M : Matrix (Fin n) (Fin n) ℝ} (hM : M.PosSemidef) (k : Fin n) :
    rootD (ext M) k * rootD (ext M) k = schur (ext M) k k k := by
  have h0 : 0 ≤ schur (ext M) k k k := (schur_psd hM k k.2.le).diag_nonneg (i := k)
  unfold rootD
  rw [ldl_eq _ _ _ le_rfl, if_pos rfl]
  split
  · exact Real.mul_self_sqrt h0
  · rw [mul_zero]; linarith

theorem chol_lower_entry {n : ℕ} {M : Matrix (Fin n) (Fin n) ℝ} (hM : M.PosSemidef) {i l : Fin n} (hl : (l : ℕ) ≤ i) :
    (stabCholesky M * (stabCholesky M)ᵀ) i l = M i l := by
  simp only [mul_apply, transpose_apply]
  have hn : ∀ k : Fin n, stabCholesky M i k * stabCholesky M l k
      = if (k : ℕ) < l then lEnt (ext M) i k * lEnt (ext M) l k * schur (ext M) k k k
        else if k = l then schur (ext M) l i l else 0 := by
    intro k
    rw [chol_entry, chol_entry]
    have hr := rootD_sq hM k
    by_cases h1 : (k : ℕ) < l
    · rw [if_pos h1, if_neg (by omega), if_pos (by omega), if_neg (by omega), if_pos h1, ldl_eq _ _ _ (by omega),
        ldl_eq _ _ _ h1.le, if_neg (by omega), if_neg (by omega), ← hr]
      ring
    · simp only [h1, if_false]
      by_cases h2 : k = l
      · subst h2
        rw [if_pos rfl, if_pos rfl]
        by_cases h3 : (k : ℕ) = i
        · have : k = i := Fin.ext h3
          subst this
          rw [if_pos rfl, hr]
        · rw [if_neg h3, if_pos (by omega), mul_assoc, hr, ldl_eq _ _ _ hl, if_neg h3]
          unfold lEnt
          by_cases h4 : schur (ext M) k k k = 0
          · rw [if_pos h4, h4, mul_zero]
            exact (psd_col (schur_psd hM k k.2.le) (j := k) h4 i).symm
          · rw [if_neg h4, div_mul_cancel₀ _ h4]
      · have : (k : ℕ) ≠ l := fun e => h2 (Fin.ext e)
        rw [if_neg h2, if_neg (show ¬ (k : ℕ) = l from this), mul_zero]
  rw [Finset.sum_congr rfl fun k _ => hn k]
  have hsplit : ∀ k : Fin n, (if (k : ℕ) < l then lEnt (ext M) i k * lEnt (ext M) l k * schur (ext M) k k k
        else if k = l then schur (ext M) l i l else 0)
      = (if (k : ℕ) < l then lEnt (ext M) i k * lEnt (ext M) l k * schur (ext M) k k k else 0)
        + if k = l then schur (ext M) l i l else 0 := by
    intro k
    by_cases h1 : (k : ℕ) < l
    · have : k ≠ l := fun e => by rw [e] at h1; exact lt_irrefl _ h1
      rw [if_pos h1, if_pos h1, if_neg this, add_zero]
    · rw [if_neg h1, if_neg h1, zero_add]
  rw [Finset.sum_congr rfl fun k _ => hsplit k, Finset.sum_add_distrib, Finset.sum_ite_eq' Finset.univ l,
    if_pos (Finset.mem_univ _), schur_sum]
  have : (∑ k : Fin n, if (k : ℕ) < l then lEnt (ext M) i k * lEnt (ext M) l k * schur (ext M) k k k else 0)
      = ∑ k : Fin (l : ℕ), lEnt (ext M) i k * lEnt (ext M) l k * schur (ext M) k k k := by
    let f : ℕ → ℝ := fun k => lEnt (ext M) i k * lEnt (ext M) l k * schur (ext M) k k k
    change (∑ k : Fin n, if (k : ℕ) < l then f k else 0) = ∑ k : Fin (l : ℕ), f k
    rw [Fin.sum_univ_eq_sum_range (fun k => if k < (l : ℕ) then f k else 0) n, Fin.sum_univ_eq_sum_range f,
      ← Finset.sum_filter]
    congr 1
    ext k
    simp only [Finset.mem_filter, Finset.mem_range]
    have := l.2
    omega
  rw [this, ext_apply]
  ring

/-- **The decomposition is exact for exactly the covariances**, singular ones included. -/
theorem chol_exact {n : ℕ} (M : Matrix (Fin n) (Fin n) ℝ) :
    stabCholesky M * (stabCholesky M)ᵀ = M ↔ M.PosSemidef := by
  constructor
  · intro h
    rw [← h]
    have := posSemidef_self_mul_conjTranspose (stabCholesky M)
    rwa [conjTranspose_eq_transpose_of_trivial] at this
  · intro hM
    ext i l
    rcases le_total (l : ℕ) i with h | h
    · exact chol_lower_entry hM h
    · have h1 := chol_lower_entry hM h
      have hs : M i l = M l i := by
        have := hM.isHermitian.apply l i
        simpa using this
      rw [hs, ← h1]
      simp only [mul_apply, transpose_apply]
      exact Finset.sum_congr rfl fun k _ => mul_comm _ _

/-- The result is lower triangular with a diagonal that is not negative, for every matrix. -/
theorem chol_lower {n : ℕ} (M : Matrix (Fin n) (Fin n) ℝ) (i j : Fin n) :
    (i < j → stabCholesky M i j = 0) ∧ 0 ≤ stabCholesky M i i := by
  constructor
  · intro h
    have : (i : ℕ) < j := h
    rw [chol_entry, if_neg (by omega), if_neg (by omega)]
  · rw [chol_entry, if_pos rfl]
    unfold rootD
    split
    · exact Real.sqrt_nonneg _
    · exact le_rfl

/-! ### The first values -/

/-- Linear images of independent Gaussian vectors. -/
theorem gaussian_lin {n : ℕ} {C T S : Matrix (Fin n) (Fin n) ℝ} (hC : C.PosSemidef) :
    ((multivariateGaussian 0 C).prod (stdGaussian (EuclideanSpace ℝ (Fin n)))).map
        (fun z => toEuclideanCLM (𝕜 := ℝ) T z.1 + toEuclideanCLM (𝕜 := ℝ) S z.2)
      = multivariateGaussian 0 (T * C * Tᵀ + S * Sᵀ) := by
  have h1 : (T * C * Tᵀ).PosSemidef := by
    have := hC.mul_mul_conjTranspose_same T
    rwa [conjTranspose_eq_transpose_of_trivial] at this
  have h2 : (S * Sᵀ).PosSemidef := by
    have := posSemidef_self_mul_conjTranspose S
    rwa [conjTranspose_eq_transpose_of_trivial] at this
  have hp : IsProbabilityMeasure
      (((multivariateGaussian 0 C).prod (stdGaussian (EuclideanSpace ℝ (Fin n)))).map
        (fun z => toEuclideanCLM (𝕜 := ℝ) T z.1 + toEuclideanCLM (𝕜 := ℝ) S z.2)) :=
    Measure.isProbabilityMeasure_map (by fun_prop)
  refine Measure.ext_of_charFun ?_
  funext t
  rw [gaussian_matrix_charFun hC, charFun_multivariateGaussian (h1.add h2), inner_zero_right]
  congr 1
  push_cast
  ring

theorem gleCol_gen {n : ℕ} {C T S : Matrix (Fin n) (Fin n) ℝ} (hC : C.PosSemidef) :
    ((multivariateGaussian 0 C).prod (normals (Fin n))).map (gleCol T S) = multivariateGaussian 0 (T * C * Tᵀ + S * Sᵀ) := by
  rw [← gaussian_lin hC]
  have h2 := Measure.map_prod_map (multivariateGaussian 0 C) (normals (Fin n))
    (f := id) (g := WithLp.toLp 2) measurable_id
    (show Measurable (WithLp.toLp 2 : (Fin n → ℝ) → EuclideanSpace ℝ (Fin n)) by fun_prop)
  have h3 : (normals (Fin n)).map (WithLp.toLp 2)
      = stdGaussian (EuclideanSpace ℝ (Fin n)) := map_pi_eq_stdGaussian
  rw [Measure.map_id, h3] at h2
  rw [h2, Measure.map_map (by fun_prop) (by fun_prop)]
  rfl

/-- Gaussian distributions are told apart by their covariances. -/
theorem gaussian_inj {n : ℕ} {A B : Matrix (Fin n) (Fin n) ℝ} (hA : A.PosSemidef) (hB : B.PosSemidef)
    (h : multivariateGaussian 0 A = multivariateGaussian (0 : EuclideanSpace ℝ (Fin n)) B) : A = B := by
  ext i j
  rw [← covariance_eval_multivariateGaussian (μ := 0) hA i j, h, covariance_eval_multivariateGaussian hB]

/-- The extended momenta on which the first step of the thermostat acts: the mass scaled momenta of the atoms and
the auxiliary momenta. -/
noncomputable def startVec {ns : ℕ} {ι : Type} (m p : ι → ℝ) (s : Fin (ns + 1) → ι → ℝ) (i : ι) :
    EuclideanSpace ℝ (Fin (ns + 1)) := WithLp.toLp 2 fun k => if k = 0 then p i / √(m i) else s k i

/-- The first step acts on these vectors only. -/
theorem step_start {ns : ℕ} {ι : Type} [Fintype ι] {m : ι → ℝ} (hm : ∀ i, 0 < m i)
    (T S : Matrix (Fin (ns + 1)) (Fin (ns + 1)) ℝ) (xi : Fin (ns + 1) → ι → ℝ) (p : ι → ℝ) (s : Fin (ns + 1) → ι → ℝ) (e : ℝ) :
    gle m T S xi ⟨p, s, e⟩ = gle m T S xi (gleState m e (startVec m p s)) := by
  have h : ∀ (k : Fin (ns + 1)) (i : ι), (if k = 0 then p i / sm m i else s k i)
      = if k = 0 then (gleState m e (startVec m p s)).p i / sm m i else (gleState m e (startVec m p s)).s k i := by
    intro k i
    by_cases hk : k = 0
    · rw [if_pos hk, if_pos hk]
      have : √(m i) ≠ 0 := Real.sqrt_ne_zero'.2 (hm i)
      simp only [gleState, startVec, sm, if_true]
      rw [div_mul_cancel₀ _ this]
    · rw [if_neg hk, if_neg hk]
      simp only [gleState, startVec, if_neg hk]
  have h2 : (fun (k : Fin (ns + 1)) (i : ι) => if k = 0 then p i / sm m i else s k i)
      = fun k i => if k = 0 then (gleState m e (startVec m p s)).p i / sm m i else (gleState m e (startVec m p s)).s k i := by
    funext k i
    exact h k i
  unfold gle
  dsimp -zeta only
  rw [h2]
  rfl

/-- The vector drawn for one degree of freedom. -/
theorem chol_law {n : ℕ} {M : Matrix (Fin n) (Fin n) ℝ} (hM : M.PosSemidef) :
    (normals (Fin n)).map (fun x => (WithLp.toLp 2 (stabCholesky M *ᵥ x) : EuclideanSpace ℝ (Fin n)))
      = multivariateGaussian 0 M := by
  have h := (gleCol_law (T := 0) (S := stabCholesky M) hM).2 (by rw [(chol_exact M).2 hM]; simp)
  have e : gleCol (0 : Matrix (Fin n) (Fin n) ℝ) (stabCholesky M)
      = (fun x => (WithLp.toLp 2 (stabCholesky M *ᵥ x) : EuclideanSpace ℝ (Fin n))) ∘ Prod.snd := by
    funext y
    ext k
    simp only [gleCol, map_zero, _root_.zero_apply, zero_add, ofLp_toEuclideanCLM, Function.comp_apply]
  rw [e, ← Measure.map_map (by fun_prop) measurable_snd, Measure.map_snd_prod, measure_univ, one_smul] at h
  exact h

/-- **Auxiliary momenta that the input does not give** are drawn, independently for the degrees of freedom, from the
stationary distribution, whenever `C` is a covariance. -/
theorem fresh_law {ns n : ℕ} {kb : ℝ} {C : Matrix (Fin (ns + 1)) (Fin (ns + 1)) ℝ} {s : Arr}
    (hs : s.shape ≠ [ns + 1, n]) (hC : (kb • C).PosSemidef) :
    (Measure.pi fun _ : Fin n => normals (Fin (ns + 1))).map
        (fun z i => (WithLp.toLp 2 fun k => gleBind kb C s (fun l i => z i l) k i : EuclideanSpace ℝ (Fin (ns + 1))))
      = Measure.pi fun _ : Fin n => multivariateGaussian 0 (kb • C) := by
  have h := Measure.pi_map_pi (μ := fun _ : Fin n => normals (Fin (ns + 1)))
    (f := fun _ (x : Fin (ns + 1) → ℝ) =>
      (WithLp.toLp 2 (stabCholesky (kb • C) *ᵥ x) : EuclideanSpace ℝ (Fin (ns + 1)))) (fun i => by fun_prop)
  rw [chol_law hC] at h
  rw [← h]
  congr 1
  funext z i
  ext k
  simp only [gleBind, if_pos hs, mulVec, dotProduct]

/-- **Auxiliary momenta of the input are kept.** -/
theorem restart_kept {ns n : ℕ} (kb : ℝ) (C : Matrix (Fin (ns + 1)) (Fin (ns + 1)) ℝ) (s : Arr)
    (xi : Fin (ns + 1) → Fin n → ℝ) (hs : s.shape = [ns + 1, n]) (k : Fin (ns + 1)) (i : Fin n) :
    gleBind kb C s xi k i = s.data.getD (k * n + i) 0 := by
  unfold gleBind
  rw [if_neg (not_not.2 hs)]

/-- The covariance of momenta drawn at temperature `temp` together with independent auxiliary momenta. -/
noncomputable def startCov {ns : ℕ} (temp : ℝ) (C : Matrix (Fin (ns + 1)) (Fin (ns + 1)) ℝ) :
    Matrix (Fin (ns + 1)) (Fin (ns + 1)) ℝ :=
  fun k l => if k = 0 ∧ l = 0 then temp else if k = 0 ∨ l = 0 then 0 else C k l

theorem start_col {ns : ℕ} {v : ℝ} (hv : 0 ≤ v) {M : Matrix (Fin (ns + 1)) (Fin (ns + 1)) ℝ} (hM : M.PosSemidef) :
    ((gaussianReal 0 v.toNNReal).prod (normals (Fin (ns + 1)))).map
        (fun w => (WithLp.toLp 2 fun k => if k = 0 then w.1 else (stabCholesky M *ᵥ w.2) k :
          EuclideanSpace ℝ (Fin (ns + 1))))
      = multivariateGaussian 0 (startCov v M) ∧ (startCov v M).PosSemidef := by
  let E : Matrix (Fin (ns + 1)) (Fin (ns + 1)) ℝ := fun k l => if k = 0 ∧ l = 0 then 1 else 0
  let P : Matrix (Fin (ns + 1)) (Fin (ns + 1)) ℝ := fun k l => if k ≠ 0 ∧ k = l then 1 else 0
  have hI : (v • (1 : Matrix (Fin (ns + 1)) (Fin (ns + 1)) ℝ)).PosSemidef := PosSemidef.one.smul hv
  have hE : ∀ x : Fin (ns + 1) → ℝ, E *ᵥ x = fun k => if k = 0 then x 0 else 0 := by
    intro x
    funext k
    by_cases hk : k = 0 <;> simp [E, mulVec, dotProduct, hk]
  have hP : ∀ x : Fin (ns + 1) → ℝ, P *ᵥ x = fun k => if k = 0 then 0 else x k := by
    intro x
    funext k
    by_cases hk : k = 0 <;> simp [P, mulVec, dotProduct, hk]
  have hcov : E * (v • (1 : Matrix (Fin (ns + 1)) (Fin (ns + 1)) ℝ)) * Eᵀ
      + (P * stabCholesky M) * (P * stabCholesky M)ᵀ = startCov v M := by
    have e1 : (P * stabCholesky M) * (P * stabCholesky M)ᵀ = P * M * Pᵀ := by
      rw [transpose_mul, Matrix.mul_assoc, ← Matrix.mul_assoc (stabCholesky M), (chol_exact M).2 hM, Matrix.mul_assoc]
    rw [e1]
    ext k l
    have a1 : (E * (v • (1 : Matrix (Fin (ns + 1)) (Fin (ns + 1)) ℝ)) * Eᵀ) k l = if k = 0 ∧ l = 0 then v else 0 := by
      rw [Matrix.mul_smul, Matrix.mul_one, Matrix.smul_mul, Matrix.smul_apply, mul_apply]
      simp only [transpose_apply]
      by_cases hk : k = 0 <;> by_cases hl : l = 0 <;> simp [E, hk, hl]
    have a2 : (P * M * Pᵀ) k l = if k = 0 ∨ l = 0 then 0 else M k l := by
      have b1 : ∀ a, (P * M) k a = if k = 0 then 0 else M k a := by
        intro a
        rw [mul_apply]
        by_cases hk : k = 0 <;> simp [P, hk]
      rw [mul_apply]
      simp only [b1, transpose_apply]
      by_cases hk : k = 0 <;> by_cases hl : l = 0 <;> simp [P, hk, hl]
    rw [Matrix.add_apply, a1, a2]
    unfold startCov
    by_cases hk : k = 0 <;> by_cases hl : l = 0 <;> simp [hk, hl]
  have hL := gaussian_lin (T := E) (S := P * stabCholesky M) hI
  rw [hcov] at hL
  refine ⟨?_, ?_⟩
  · rw [← hL]
    have hmeas : Measurable fun w : ℝ × (Fin (ns + 1) → ℝ) =>
        (WithLp.toLp 2 fun k => if k = 0 then w.1 else (stabCholesky M *ᵥ w.2) k : EuclideanSpace ℝ (Fin (ns + 1))) := by
      refine (WithLp.measurable_toLp 2 _).comp (measurable_pi_iff.2 fun k => ?_)
      by_cases hk : k = 0
      · simp only [hk, if_true]; fun_prop
      · simp only [hk, if_false]; fun_prop
    have g0 : (multivariateGaussian 0 (v • (1 : Matrix (Fin (ns + 1)) (Fin (ns + 1)) ℝ))).map (fun x => x 0)
        = gaussianReal 0 v.toNNReal := by
      have h1 := (measurePreserving_eval_multivariateGaussian (μ := 0) hI (i := 0)).map_eq
      rw [h1]
      simp
    have h3 : (normals (Fin (ns + 1))).map (WithLp.toLp 2)
        = stdGaussian (EuclideanSpace ℝ (Fin (ns + 1))) := map_pi_eq_stdGaussian
    have h4 : (stdGaussian (EuclideanSpace ℝ (Fin (ns + 1)))).map (fun x => x.ofLp) = normals (Fin (ns + 1)) := by
      rw [← h3, Measure.map_map (by fun_prop) (by fun_prop)]
      exact Measure.map_id
    rw [← g0, ← h4, Measure.map_prod_map _ _ (by fun_prop) (by fun_prop), Measure.map_map hmeas (by fun_prop)]
    congr 1
    funext z
    ext k
    simp only [Function.comp_apply, PiLp.add_apply, ofLp_toEuclideanCLM, hE, ← mulVec_mulVec, hP]
    by_cases hk : k = 0 <;> simp [hk]
  · rw [← hcov]
    have h1 : (E * (v • (1 : Matrix (Fin (ns + 1)) (Fin (ns + 1)) ℝ)) * Eᵀ).PosSemidef := by
      have := hI.mul_mul_conjTranspose_same E
      rwa [conjTranspose_eq_transpose_of_trivial] at this
    have h2 : ((P * stabCholesky M) * (P * stabCholesky M)ᵀ).PosSemidef := by
      have := posSemidef_self_mul_conjTranspose (P * stabCholesky M)
      rwa [conjTranspose_eq_transpose_of_trivial] at this
    exact h1.add h2

/-- The distribution of the extended momenta at the first step, when the momenta of the atoms have the temperature
`temp`. -/
theorem start_law {ns n : ℕ} {m : Fin n → ℝ} (hm : ∀ i, 0 < m i) {kb temp : ℝ} (hk : 0 ≤ kb) (ht : 0 ≤ temp)
    {C : Matrix (Fin (ns + 1)) (Fin (ns + 1)) ℝ} {s : Arr} (hs : s.shape ≠ [ns + 1, n]) (hC : C.PosSemidef) :
    ((canonical (kb * temp) m).prod (Measure.pi fun _ : Fin n => normals (Fin (ns + 1)))).map
        (fun z => startVec m z.1 (gleBind kb C s fun l i => z.2 i l))
      = Measure.pi fun _ : Fin n => multivariateGaussian 0 (kb • startCov temp C) := by
  have hkC : (kb • C).PosSemidef := hC.smul hk
  have hv : 0 ≤ kb * temp := mul_nonneg hk ht
  have hcol := (start_col hv hkC).1
  have e : startCov (kb * temp) (kb • C) = kb • startCov temp C := by
    ext k l
    by_cases hk : k = 0 <;> by_cases hl : l = 0 <;> simp [startCov, hk, hl]
  rw [e] at hcol
  let g : Fin n → ℝ × (Fin (ns + 1) → ℝ) → EuclideanSpace ℝ (Fin (ns + 1)) := fun i w =>
    WithLp.toLp 2 fun k => if k = 0 then w.1 / √(m i) else (stabCholesky (kb • C) *ᵥ w.2) k
  have hg : ∀ i, Measurable (g i) := by
    intro i
    refine (WithLp.measurable_toLp 2 _).comp (measurable_pi_iff.2 fun k => ?_)
    by_cases hk : k = 0
    · simp only [hk, if_true]; fun_prop
    · simp only [hk, if_false]; fun_prop
  have hpi := pi_prod_map (fun i => gaussianReal 0 (kb * temp * m i).toNNReal) (fun _ => normals (Fin (ns + 1))) hg
  have hfun : (fun z : (Fin n → ℝ) × (Fin n → Fin (ns + 1) → ℝ) => startVec m z.1 (gleBind kb C s fun l i => z.2 i l))
      = fun z i => g i (z.1 i, z.2 i) := by
    funext z i
    simp only [startVec, gleBind, if_pos hs, g, mulVec, dotProduct]
  rw [hfun]
  unfold canonical
  rw [hpi]
  congr 1
  funext i
  have hi : (gaussianReal 0 (kb * temp * m i).toNNReal).map (fun x => x / √(m i)) = gaussianReal 0 (kb * temp).toNNReal := by
    rw [gaussianReal_map_div_const]
    congr 1
    · simp
    · ext
      simp only [NNReal.coe_div, NNReal.coe_mk, Real.sq_sqrt (hm i).le, Real.coe_toNNReal _ hv,
        Real.coe_toNNReal _ (mul_nonneg hv (hm i).le)]
      have := (hm i).ne'
      field_simp
  rw [← hcol, ← hi]
  have hq : (normals (Fin (ns + 1))) = (normals (Fin (ns + 1))).map id := Measure.map_id.symm
  conv_rhs => rw [hq, Measure.map_prod_map _ _ (by fun_prop) measurable_id]
  rw [Measure.map_map ?_ (by fun_prop)]
  · rfl
  · refine (WithLp.measurable_toLp 2 _).comp (measurable_pi_iff.2 fun k => ?_)
    by_cases hk : k = 0
    · simp only [hk, if_true]; fun_prop
    · simp only [hk, if_false]; fun_prop

/-- **The thermostat starts in equilibrium if and only if `C` has no correlation of the momenta of the atoms with the
auxiliary ones** and its first entry is the temperature. -/
theorem start_equilibrium_iff {ns n : ℕ} (hn : 0 < n) {m : Fin n → ℝ} (hm : ∀ i, 0 < m i) {kb temp : ℝ} (hk : 0 < kb) (ht : 0 ≤ temp)
    {C : Matrix (Fin (ns + 1)) (Fin (ns + 1)) ℝ} {s : Arr} (hs : s.shape ≠ [ns + 1, n]) (hC : C.PosSemidef) :
    ((canonical (kb * temp) m).prod (Measure.pi fun _ : Fin n => normals (Fin (ns + 1)))).map
        (fun z => startVec m z.1 (gleBind kb C s fun l i => z.2 i l))
      = (Measure.pi fun _ : Fin n => multivariateGaussian 0 (kb • C))
      ↔ C 0 0 = temp ∧ ∀ k ≠ 0, C 0 k = 0 := by
  rw [start_law hm hk.le ht hs hC]
  have hst : (startCov temp C).PosSemidef := (start_col ht hC).2
  have hsym : ∀ a b, C a b = C b a := fun a b => by
    have := hC.isHermitian.apply b a
    simpa using this
  constructor
  · intro h
    have h1 := congrArg (Measure.map (Function.eval (⟨0, hn⟩ : Fin n))) h
    rw [(measurePreserving_eval _ _).map_eq, (measurePreserving_eval _ _).map_eq] at h1
    have h2 := gaussian_inj (hst.smul hk.le) (hC.smul hk.le) h1
    have h3 : ∀ a b, startCov temp C a b = C a b := by
      intro a b
      have := congrFun (congrFun h2 a) b
      simp only [Matrix.smul_apply, smul_eq_mul] at this
      exact mul_left_cancel₀ hk.ne' this
    refine ⟨?_, fun k hk0 => ?_⟩
    · rw [← h3]; simp [startCov]
    · rw [← h3]; simp [startCov, hk0]
  · rintro ⟨h0, h1⟩
    have : startCov temp C = C := by
      ext a b
      unfold startCov
      by_cases ha : a = 0
      · by_cases hb : b = 0
        · rw [if_pos ⟨ha, hb⟩, ha, hb, h0]
        · rw [if_neg (fun h => hb h.2), if_pos (Or.inl ha), ha, h1 b hb]
      · by_cases hb : b = 0
        · rw [if_neg (fun h => ha h.1), if_pos (Or.inr hb), hb, hsym, h1 a ha]
        · rw [if_neg (fun h => ha h.1), if_neg (by simp [ha, hb])]
    rw [this]

/-- **With the default `C` the thermostat starts in equilibrium**, at every temperature. -/
theorem start_default {ns n : ℕ} {m : Fin n → ℝ} (hm : ∀ i, 0 < m i) {kb temp : ℝ} (hk : 0 < kb) (ht : 0 ≤ temp)
    {s : Arr} (hs : s.shape ≠ [ns + 1, n]) :
    ((canonical (kb * temp) m).prod (Measure.pi fun _ : Fin n => normals (Fin (ns + 1)))).map
        (fun z => startVec m z.1 (gleBind kb (temp • (1 : Matrix (Fin (ns + 1)) (Fin (ns + 1)) ℝ)) s fun l i => z.2 i l))
      = Measure.pi fun _ : Fin n => multivariateGaussian 0 (kb • temp • (1 : Matrix (Fin (ns + 1)) (Fin (ns + 1)) ℝ)) := by
  rcases Nat.eq_zero_or_pos n with rfl | hn
  · rw [start_law hm hk.le ht hs (PosSemidef.one.smul ht)]
    congr 1
    funext i
    exact i.elim0
  · rw [start_equilibrium_iff hn hm hk ht hs (PosSemidef.one.smul ht)]
    refine ⟨by simp, fun k hk0 => ?_⟩
    simp [one_apply_ne hk0.symm]

/-- **A covariance with a correlation**: the momenta of the atoms are drawn at the temperature of `C` and the
auxiliary momenta with their part of `C`, but the first step takes the momenta away from the temperature. -/
theorem correlated_start_leaves :
    ∃ C T S : Matrix (Fin 2) (Fin 2) ℝ, C.PosSemidef ∧ (C - T * C * Tᵀ).PosSemidef ∧ S * Sᵀ = C - T * C * Tᵀ ∧
      C 0 0 = 2 ∧ ∀ s : Arr, s.shape ≠ [2, 1] →
        (((canonical 2 fun _ : Fin 1 => 1).prod (Measure.pi fun _ : Fin 1 => normals (Fin 2))).prod
            (Measure.pi fun _ : Fin 1 => normals (Fin 2))).map
          (fun z => (gle (fun _ => 1) T S (fun l i => z.2 i l) ⟨z.1.1, gleBind 1 C s (fun l i => z.1.2 i l), 0⟩).p)
        = canonical (3 / 2) fun _ : Fin 1 => 1 := by
  have hC : (!![2, 1; 1, 2] : Matrix (Fin 2) (Fin 2) ℝ).PosSemidef := by
    refine PosSemidef.of_dotProduct_mulVec_nonneg ?_ fun x => ?_
    · ext i j
      fin_cases i <;> fin_cases j <;> simp
    · simp [mulVec, dotProduct, Fin.sum_univ_two]
      nlinarith [sq_nonneg (x 0 + x 1), sq_nonneg (x 0), sq_nonneg (x 1)]
  have hD : (!![2, 1; 1, 2] : Matrix (Fin 2) (Fin 2) ℝ) - !![1 / 2, 1 / 2; 0, 1 / 2] * !![2, 1; 1, 2] * (!![1 / 2, 1 / 2; 0, 1 / 2])ᵀ
      = !![1 / 2, 1 / 4; 1 / 4, 3 / 2] := by
    rw [show (!![1 / 2, 1 / 2; 0, 1 / 2] : Matrix (Fin 2) (Fin 2) ℝ)ᵀ = !![1 / 2, 0; 1 / 2, 1 / 2] from by
      ext i j; fin_cases i <;> fin_cases j <;> rfl, mul_fin_two, mul_fin_two]
    ext i j
    fin_cases i <;> fin_cases j <;> simp <;> norm_num
  have hDp : (!![1 / 2, 1 / 4; 1 / 4, 3 / 2] : Matrix (Fin 2) (Fin 2) ℝ).PosSemidef := by
    refine PosSemidef.of_dotProduct_mulVec_nonneg ?_ fun x => ?_
    · ext i j
      fin_cases i <;> fin_cases j <;> simp
    · simp [mulVec, dotProduct, Fin.sum_univ_two]
      nlinarith [sq_nonneg (x 0 + x 1), sq_nonneg (x 0), sq_nonneg (x 1)]
  refine ⟨!![2, 1; 1, 2], !![1 / 2, 1 / 2; 0, 1 / 2], stabCholesky !![1 / 2, 1 / 4; 1 / 4, 3 / 2], hC, ?_, ?_, rfl, ?_⟩
  · rw [hD]; exact hDp
  · rw [hD]; exact (chol_exact _).2 hDp
  intro s hs
  set T : Matrix (Fin 2) (Fin 2) ℝ := !![1 / 2, 1 / 2; 0, 1 / 2] with hT
  set D : Matrix (Fin 2) (Fin 2) ℝ := !![1 / 2, 1 / 4; 1 / 4, 3 / 2] with hDd
  set C : Matrix (Fin 2) (Fin 2) ℝ := !![2, 1; 1, 2] with hCd
  have hm : ∀ i : Fin 1, (0 : ℝ) < (fun _ : Fin 1 => (1 : ℝ)) i := fun _ => one_pos
  have hstart := start_law (ns := 1) (n := 1) hm (kb := 1) (temp := 2) zero_le_one zero_le_two hs hC
  rw [one_mul, one_smul] at hstart
  have hst : (startCov 2 C).PosSemidef := (start_col (ns := 1) zero_le_two hC).2
  -- the step as a function of the vectors
  have hfun : (fun z : ((Fin 1 → ℝ) × (Fin 1 → Fin 2 → ℝ)) × (Fin 1 → Fin 2 → ℝ) =>
        (gle (fun _ => 1) T (stabCholesky D) (fun l i => z.2 i l) ⟨z.1.1, gleBind 1 C s (fun l i => z.1.2 i l), 0⟩).p)
      = (fun (y : Fin 1 → EuclideanSpace ℝ (Fin 2)) i => y i 0) ∘
        (fun w : (Fin 1 → EuclideanSpace ℝ (Fin 2)) × (Fin 1 → Fin 2 → ℝ) => fun i => gleCol T (stabCholesky D) (w.1 i, w.2 i)) ∘
        Prod.map (fun z : (Fin 1 → ℝ) × (Fin 1 → Fin 2 → ℝ) => startVec (fun _ => 1) z.1 (gleBind 1 C s fun l i => z.2 i l)) id := by
    funext z i
    rw [step_start hm]
    have hc := congrFun (gle_cols hm T (stabCholesky D) 0
      (startVec (fun _ => 1) z.1.1 (gleBind 1 C s fun l i => z.1.2 i l), z.2)) i
    change _ = gleCol T (stabCholesky D) (startVec (fun _ => 1) z.1.1 (gleBind 1 C s fun l i => z.1.2 i l) i, z.2 i) 0
    rw [← hc]
    simp only [gleVec, gle, sm, Real.sqrt_one, mul_one]
  have hgm : Measurable (gleCol T (stabCholesky D)) := by unfold gleCol; fun_prop
  have hF : Measurable fun z : (Fin 1 → ℝ) × (Fin 1 → Fin 2 → ℝ) =>
      startVec (fun _ => 1) z.1 (gleBind 1 C s fun l i => z.2 i l) := by
    refine measurable_pi_iff.2 fun i => (WithLp.measurable_toLp 2 _).comp (measurable_pi_iff.2 fun k => ?_)
    by_cases hk : k = 0
    · simp only [hk, if_true]; fun_prop
    · simp only [hk, if_false, gleBind, if_pos hs]; fun_prop
  have hG : Measurable fun w : (Fin 1 → EuclideanSpace ℝ (Fin 2)) × (Fin 1 → Fin 2 → ℝ) =>
      fun i => gleCol T (stabCholesky D) (w.1 i, w.2 i) :=
    measurable_pi_iff.2 fun i => hgm.comp (by fun_prop)
  have hH : Measurable fun (y : Fin 1 → EuclideanSpace ℝ (Fin 2)) i => y i 0 := by fun_prop
  rw [hfun, ← Measure.map_map hH (hG.comp (hF.prodMap measurable_id)), ← Measure.map_map hG (hF.prodMap measurable_id),
    ← Measure.map_prod_map _ _ hF measurable_id, hstart, Measure.map_id,
    pi_prod_map (fun _ : Fin 1 => multivariateGaussian 0 (startCov 2 C)) (fun _ => normals (Fin 2)) (fun _ => hgm),
    gleCol_gen hst, (chol_exact D).2 hDp]
  have hM : (T * startCov 2 C * Tᵀ + D).PosSemidef := by
    have := hst.mul_mul_conjTranspose_same T
    rw [conjTranspose_eq_transpose_of_trivial] at this
    exact this.add hDp
  rw [Measure.pi_map_pi (μ := fun _ : Fin 1 => multivariateGaussian 0 (T * startCov 2 C * Tᵀ + D))
      (f := fun _ (x : EuclideanSpace ℝ (Fin 2)) => x 0) (fun i => by fun_prop),
    (measurePreserving_eval_multivariateGaussian (μ := 0) hM (i := 0)).map_eq]
  unfold canonical
  congr 1
  funext i
  have e00 : (T * startCov 2 C * Tᵀ + D) 0 0 = 3 / 2 := by
    have : startCov 2 C = !![2, 0; 0, 2] := by
      ext i j; fin_cases i <;> fin_cases j <;> simp [startCov, hCd]
    rw [this, hT, show (!![1 / 2, 1 / 2; 0, 1 / 2] : Matrix (Fin 2) (Fin 2) ℝ)ᵀ = !![1 / 2, 0; 1 / 2, 1 / 2] from by
      ext i j; fin_cases i <;> fin_cases j <;> rfl, mul_fin_two, mul_fin_two, hDd]
    simp
    norm_num
  rw [e00]
  simp

/-! ### One thermostat for each normal mode -/

/-- **A different number of matrices than beads is refused.** -/
theorem nm_refused {ns n nb : ℕ} (nbeads : ℕ) (kb : ℝ) (C : Fin nb → Matrix (Fin (ns + 1)) (Fin (ns + 1)) ℝ) (s : Arr)
    (xi : Fin nb → Fin (ns + 1) → Fin n → ℝ) : nmGleBind nbeads kb C s xi = none ↔ nbeads ≠ nb := by
  unfold nmGleBind
  by_cases h : nbeads ≠ nb
  · simp [h]
  · simp only [h, if_false, iff_false]
    split <;> simp

/-- **The modes are independent and each has the stationary distribution of its own matrix.** -/
theorem nm_fresh_law {ns n nb : ℕ} {kb : ℝ} {C : Fin nb → Matrix (Fin (ns + 1)) (Fin (ns + 1)) ℝ} {s : Arr}
    (hs : s.shape ≠ [nb, ns + 1, n]) (hC : ∀ b, (kb • C b).PosSemidef) :
    ∃ F : (Fin nb → Fin n → Fin (ns + 1) → ℝ) → Fin nb → Fin n → EuclideanSpace ℝ (Fin (ns + 1)),
      (∀ z, (nmGleBind nb kb C s fun b l i => z b i l) = some fun b k i => F z b i k) ∧
      (Measure.pi fun _ : Fin nb => Measure.pi fun _ : Fin n => normals (Fin (ns + 1))).map F
        = Measure.pi fun b => Measure.pi fun _ : Fin n => multivariateGaussian 0 (kb • C b) := by
  refine ⟨fun z b i => WithLp.toLp 2 (stabCholesky (kb • C b) *ᵥ z b i), fun z => ?_, ?_⟩
  · unfold nmGleBind
    rw [if_neg (by simp), if_pos hs]
    rfl
  · have h : ∀ b, (Measure.pi fun _ : Fin n => normals (Fin (ns + 1))).map
        (fun x i => (WithLp.toLp 2 (stabCholesky (kb • C b) *ᵥ x i) : EuclideanSpace ℝ (Fin (ns + 1))))
        = Measure.pi fun _ : Fin n => multivariateGaussian 0 (kb • C b) := by
      intro b
      rw [← chol_law (hC b)]
      exact Measure.pi_map_pi (μ := fun _ : Fin n => normals (Fin (ns + 1)))
        (f := fun _ (x : Fin (ns + 1) → ℝ) =>
          (WithLp.toLp 2 (stabCholesky (kb • C b) *ᵥ x) : EuclideanSpace ℝ (Fin (ns + 1)))) (fun i => by fun_prop)
    simp only [← h]
    exact Measure.pi_map_pi (μ := fun _ : Fin nb => Measure.pi fun _ : Fin n => normals (Fin (ns + 1)))
      (f := fun b (x : Fin n → Fin (ns + 1) → ℝ) i =>
        (WithLp.toLp 2 (stabCholesky (kb • C b) *ᵥ x i) : EuclideanSpace ℝ (Fin (ns + 1))))
      (fun b => (show Measurable _ by fun_prop).aemeasurable)

/-- The auxiliary momenta of the input are kept, each at its own mode. -/
theorem nm_restart_kept {ns n nb : ℕ} (kb : ℝ) (C : Fin nb → Matrix (Fin (ns + 1)) (Fin (ns + 1)) ℝ) (s : Arr)
    (xi : Fin nb → Fin (ns + 1) → Fin n → ℝ) (hs : s.shape = [nb, ns + 1, n]) :
    nmGleBind nb kb C s xi = some fun (b : Fin nb) (k : Fin (ns + 1)) (i : Fin n) => s.data.getD (b * ((ns + 1) * n) + k * n + i) 0 := by
  unfold nmGleBind
  rw [if_neg (by simp), if_neg (not_not.2 hs)]

/-- A singular covariance, and an empty array in the input. -/
example : (!![4, 2; 2, 1] : Matrix (Fin 2) (Fin 2) ℝ).PosSemidef ∧ (⟨[0], []⟩ : Arr).shape ≠ [1 + 1, 3] := by
  refine ⟨PosSemidef.of_dotProduct_mulVec_nonneg ?_ fun x => ?_, by simp⟩
  · ext i j
    fin_cases i <;> fin_cases j <;> simp
  · simp [mulVec, dotProduct, Fin.sum_univ_two]
    nlinarith [sq_nonneg (2 * x 0 + x 1)]

end Verif.GleInit
