/-
C92: the sum rules imposed on a dynamical matrix.
-/
import Verif.Phys.Phonons
import Mathlib.LinearAlgebra.Matrix.Notation
import Mathlib.LinearAlgebra.Matrix.NonsingularInverse
import Mathlib.Algebra.BigOperators.Fin
import Mathlib.Tactic.FinCases
import Mathlib.Tactic.FieldSimp
import Mathlib.Tactic.Ring
import Mathlib.Tactic.Linarith
import Mathlib.Tactic.LinearCombination
import Mathlib.Tactic.NormNum

namespace Verif.Phonon

open Matrix

/-! ### Specification -/

/-- The small displacement `t + A q` of every atom — a translation and, for an antisymmetric
`A`, a rotation — in mass-weighted coordinates. -/
noncomputable def rigid {α : Type*} (m : α → ℝ) (q : α → Fin 3 → ℝ) (t : Fin 3 → ℝ)
    (A : Matrix (Fin 3) (Fin 3) ℝ) : Vec (α × Fin 3) :=
  fun x => Real.sqrt (m x.1) * (t x.2 + ∑ e, A x.2 e * q x.1 e)

/-- `r` is `dm` with the displacements in `rigids` removed: they cost nothing, everything
orthogonal to them costs what it did, and symmetry is kept. -/
structure Removes {ι : Type*} [Fintype ι] (rigids : Set (Vec ι)) (dm r : Matrix ι ι ℝ) :
    Prop where
  symm : dm.IsSymm → r.IsSymm
  zero : ∀ v ∈ rigids, r *ᵥ v = 0
  zero_left : ∀ v ∈ rigids, v ᵥ* r = 0
  keep : ∀ v w : Vec ι, (∀ z ∈ rigids, z ⬝ᵥ v = 0) → (∀ z ∈ rigids, z ⬝ᵥ w = 0) →
    v ⬝ᵥ r *ᵥ w = v ⬝ᵥ dm *ᵥ w
  same : dm.IsSymm → (∀ z ∈ rigids, dm *ᵥ z = 0) → r = dm

/-- All atoms are on a line. -/
def Collinear {α : Type*} (q : α → Fin 3 → ℝ) : Prop :=
  ∃ p e : Fin 3 → ℝ, ∃ s : α → ℝ, ∀ a, q a = p + s a • e

/-! ### Projections -/

section Projection

variable {ι κ : Type*} [Fintype ι] [DecidableEq ι] [Fintype κ] [DecidableEq κ]

omit [Fintype ι] [DecidableEq κ] in
theorem transf_symm (D : κ → Vec ι) : (transf D)ᵀ = transf D := by
  unfold transf
  rw [transpose_sub, transpose_one, transpose_mul, transpose_transpose]

omit [DecidableEq κ] in
/-- The projected out part. -/
theorem transf_mulVec (D : κ → Vec ι) (v : Vec ι) :
    transf D *ᵥ v = v - ∑ k, (D k ⬝ᵥ v) • D k := by
  unfold transf
  rw [sub_mulVec, one_mulVec, ← mulVec_mulVec]
  congr 1
  funext i
  rw [mulVec, dotProduct, Finset.sum_apply]
  refine Finset.sum_congr rfl fun k _ => ?_
  simp only [transpose_apply, of_apply, Pi.smul_apply, smul_eq_mul, mulVec]
  rw [mul_comm]

theorem transf_row (D : κ → Vec ι) (hD : ∀ k l, D k ⬝ᵥ D l = if k = l then 1 else 0) (l : κ) :
    transf D *ᵥ D l = 0 := by
  rw [transf_mulVec]
  simp only [hD]
  simp

omit [DecidableEq κ] in
theorem transf_perp (D : κ → Vec ι) (v : Vec ι) (hv : ∀ k, D k ⬝ᵥ v = 0) :
    transf D *ᵥ v = v := by
  rw [transf_mulVec]
  simp [hv]

/-- Projecting out orthonormal rows removes their span. -/
theorem project_removes (D : κ → Vec ι) (hD : ∀ k l, D k ⬝ᵥ D l = if k = l then 1 else 0)
    (rigids : Set (Vec ι)) (hr : ∀ v ∈ rigids, ∃ c : κ → ℝ, v = ∑ k, c k • D k)
    (hs : ∀ k, ∃ v ∈ rigids, ∃ c : ℝ, D k = c • v)
    (dm : Matrix ι ι ℝ) : Removes rigids dm (project (transf D) dm) := by
  have kill : ∀ v ∈ rigids, transf D *ᵥ v = 0 := by
    intro v hv
    obtain ⟨c, rfl⟩ := hr v hv
    rw [mulVec_sum]
    refine Finset.sum_eq_zero fun k _ => ?_
    rw [mulVec_smul, transf_row D hD, smul_zero]
  have perp : ∀ v : Vec ι, (∀ z ∈ rigids, z ⬝ᵥ v = 0) → transf D *ᵥ v = v := by
    intro v hv
    refine transf_perp D v fun k => ?_
    obtain ⟨z, hz, c, e⟩ := hs k
    rw [e, smul_dotProduct, hv z hz, smul_zero]
  refine ⟨?_, ?_, ?_, ?_, ?_⟩
  · intro h
    unfold project
    rw [IsSymm, transpose_mul, transpose_mul, transpose_transpose, h.eq, transf_symm,
      Matrix.mul_assoc]
  · intro v hv
    unfold project
    rw [← mulVec_mulVec, ← mulVec_mulVec, kill v hv, mulVec_zero, mulVec_zero]
  · intro v hv
    unfold project
    rw [← vecMul_vecMul, vecMul_transpose, kill v hv, zero_vecMul]
  · intro v w hv hw
    unfold project
    rw [← mulVec_mulVec, ← mulVec_mulVec, perp w hw, dotProduct_mulVec, vecMul_transpose,
      perp v hv]
  · intro hsym hz
    have z : ∀ k, dm *ᵥ D k = 0 := by
      intro k
      obtain ⟨v, hv, c, e⟩ := hs k
      rw [e, mulVec_smul, hz v hv, smul_zero]
    have h1 : dm * (of D)ᵀ = 0 := by
      ext i k
      have := congrFun (z k) i
      simpa [Matrix.mul_apply, mulVec, dotProduct] using this
    have h2 : dm * transf D = dm := by
      unfold transf
      rw [Matrix.mul_sub, Matrix.mul_one, ← Matrix.mul_assoc, h1, Matrix.zero_mul, sub_zero]
    unfold project
    rw [h2]
    have h3 := congrArg transpose h2
    rw [transpose_mul, hsym.eq] at h3
    exact h3

omit [DecidableEq ι] [Fintype κ] in
/-- Rows which are orthogonal and not zero are orthonormal once divided by their lengths. -/
theorem normalise_orthonormal (D : κ → Vec ι) (hne : ∀ k, norm (D k) ≠ 0)
    (ho : ∀ k l, k ≠ l → D k ⬝ᵥ D l = 0) (k l : κ) :
    (fun j => D k j / norm (D k)) ⬝ᵥ (fun j => D l j / norm (D l)) = if k = l then 1 else 0 := by
  have e : ∀ k, (fun j => D k j / norm (D k)) = (1 / norm (D k)) • D k := by
    intro k; funext j; simp only [Pi.smul_apply, smul_eq_mul]; ring
  rw [e, e, smul_dotProduct, dotProduct_smul]
  simp only [smul_eq_mul]
  by_cases h : k = l
  · subst h
    have pos : (0 : ℝ) ≤ D k ⬝ᵥ D k := Finset.sum_nonneg fun x _ => mul_self_nonneg _
    have := hne k
    have sq : norm (D k) * norm (D k) = D k ⬝ᵥ D k := Real.mul_self_sqrt pos
    rw [if_pos rfl, ← sq]
    field_simp
  · rw [if_neg h, ho k l h]
    ring

/-- `applyRows` for orthogonal rows. -/
theorem applyRows_removes (D : κ → Vec ι) (hne : ∀ k, norm (D k) ≠ 0)
    (ho : ∀ k l, k ≠ l → D k ⬝ᵥ D l = 0) (rigids : Set (Vec ι))
    (hr : ∀ v ∈ rigids, ∃ c : κ → ℝ, v = ∑ k, c k • D k)
    (hs : ∀ k, D k ∈ rigids) (dm : Matrix ι ι ℝ) :
    ∃ r, applyRows D dm = .ok r ∧ Removes rigids dm r := by
  have hn : normalise D = some fun k j => D k j / norm (D k) := by
    unfold normalise
    rw [if_neg]
    rintro ⟨k, hk⟩
    exact hne k hk
  refine ⟨project (transf fun k j => D k j / norm (D k)) dm, ?_, ?_⟩
  · unfold applyRows
    rw [hn]
  · refine project_removes _ (normalise_orthonormal D hne ho) rigids ?_ ?_ dm
    · intro v hv
      obtain ⟨c, rfl⟩ := hr v hv
      refine ⟨fun k => c k * norm (D k), Finset.sum_congr rfl fun k _ => ?_⟩
      funext j
      simp only [Pi.smul_apply, smul_eq_mul]
      have := hne k
      field_simp
    · intro k
      refine ⟨D k, hs k, 1 / norm (D k), ?_⟩
      funext j
      simp only [Pi.smul_apply, smul_eq_mul]
      ring

omit [DecidableEq ι] in
theorem norm_eq_zero {v : Vec ι} (h : norm v = 0) : v = 0 := by
  have h1 : v ⬝ᵥ v ≤ 0 := Real.sqrt_eq_zero'.mp h
  funext i
  have h2 : v i * v i ≤ v ⬝ᵥ v :=
    Finset.single_le_sum (f := fun x => v x * v x) (fun x _ => mul_self_nonneg _)
      (Finset.mem_univ i)
  exact mul_self_eq_zero.mp (le_antisymm (h2.trans h1) (mul_self_nonneg _))

end Projection

/-! ### Translations -/

section Molecule

variable {α : Type*} [Fintype α] [DecidableEq α] (m : α → ℝ) (q : α → Fin 3 → ℝ)
  (ism : Vec (α × Fin 3))

/-- The translations. -/
def translations : Set (Vec (α × Fin 3)) := {v | ∃ t, v = rigid m q t 0}

/-- Translations and rotations. -/
def rigids : Set (Vec (α × Fin 3)) := {v | ∃ t A, Aᵀ = -A ∧ v = rigid m q t A}

omit [Fintype α] [DecidableEq α] in
theorem transVec_eq (hi : ∀ x, ism x = 1 / Real.sqrt (m x.1)) (k : Fin 3) :
    transVec ism k = rigid m q (Pi.single k 1) 0 := by
  funext x
  unfold transVec rigid
  rw [hi]
  by_cases h : x.2 = k
  · simp [h]
  · simp [h]

omit [Fintype α] [DecidableEq α] in
theorem rigid_trans (hi : ∀ x, ism x = 1 / Real.sqrt (m x.1)) (t : Fin 3 → ℝ) :
    rigid m q t 0 = ∑ k, t k • transVec ism k := by
  funext x
  rw [Finset.sum_apply]
  simp only [transVec_eq m q ism hi, Pi.smul_apply, smul_eq_mul, rigid, Matrix.zero_apply,
    zero_mul, Finset.sum_const_zero, add_zero]
  have : t x.2 = ∑ k, t k * (Pi.single k 1 : Fin 3 → ℝ) x.2 := by
    simp [Pi.single_apply]
  rw [this, Finset.mul_sum]
  exact Finset.sum_congr rfl fun k _ => by ring

omit [DecidableEq α] in
theorem trans_dot (hi : ∀ x, ism x = 1 / Real.sqrt (m x.1)) (hm : ∀ a, 0 < m a) (k l : Fin 3) :
    transVec ism k ⬝ᵥ transVec ism l = if k = l then ∑ a, m a else 0 := by
  have e : ∀ x : α × Fin 3, transVec ism k x * transVec ism l x
      = m x.1 * ((if x.2 = k then 1 else 0) * (if x.2 = l then 1 else 0)) := by
    intro x
    unfold transVec
    rw [hi]
    have h := Real.mul_self_sqrt (hm x.1).le
    have hs := (Real.sqrt_pos.mpr (hm x.1)).ne'
    field_simp
    rw [sq, h]
    ring
  rw [dotProduct, Finset.sum_congr rfl fun x _ => e x, Fintype.sum_prod_type]
  simp only [← Finset.mul_sum]
  by_cases h : k = l
  · subst h; simp
  · rw [if_neg h]
    refine Finset.sum_eq_zero fun a _ => ?_
    rw [Finset.sum_eq_zero, mul_zero]
    intro x _
    by_cases hx : x = k
    · subst hx; simp [h]
    · simp [hx]

omit [DecidableEq α] in
theorem mass_pos [Nonempty α] (hm : ∀ a, 0 < m a) : 0 < ∑ a, m a :=
  Finset.sum_pos (fun a _ => hm a) Finset.univ_nonempty

/-- **C92, crystals.**  The sum rule `crystal` removes the translations and nothing else. -/
theorem crystal_removes [Nonempty α] (hi : ∀ x, ism x = 1 / Real.sqrt (m x.1))
    (hm : ∀ a, 0 < m a) (U : Matrix (Fin 3) (Fin 3) ℝ)
    (dm : Matrix (α × Fin 3) (α × Fin 3) ℝ) :
    ∃ r, applyAsr .crystal m q U ism dm = .ok r ∧ Removes (translations m q) dm r := by
  refine applyRows_removes (transVec ism) ?_ ?_ _ ?_ ?_ dm
  · intro k
    unfold norm
    rw [trans_dot m ism hi hm, if_pos rfl]
    exact (Real.sqrt_pos.mpr (mass_pos m hm)).ne'
  · intro k l h
    rw [trans_dot m ism hi hm, if_neg h]
  · rintro v ⟨t, rfl⟩
    exact ⟨t, rigid_trans m q ism hi t⟩
  · intro k
    exact ⟨Pi.single k 1, transVec_eq m q ism hi k⟩

/-- The printed Hessian then obeys the sum rule: the forces on any coordinate for a
displacement of all atoms by the same amount are zero. -/
theorem crystal_sum [Nonempty α] (hi : ∀ x, ism x = 1 / Real.sqrt (m x.1))
    (hm : ∀ a, 0 < m a) (U : Matrix (Fin 3) (Fin 3) ℝ)
    (dm : Matrix (α × Fin 3) (α × Fin 3) ℝ) :
    ∃ r, applyAsr .crystal m q U ism dm = .ok r ∧
      ∀ x d, ∑ b, r x (b, d) / (ism x * ism (b, d)) = 0 := by
  obtain ⟨r, h, hr⟩ := crystal_removes m q ism hi hm U dm
  refine ⟨r, h, fun x d => ?_⟩
  have h1 := congrFun (hr.zero _ ⟨Pi.single d 1, rfl⟩) x
  rw [mulVec, dotProduct, Fintype.sum_prod_type] at h1
  have h2 : ∀ b, ∑ e, r x (b, e) * rigid m q (Pi.single d 1) 0 (b, e)
      = r x (b, d) * Real.sqrt (m b) := by
    intro b
    unfold rigid
    simp [Pi.single_apply]
  rw [Finset.sum_congr rfl fun b _ => h2 b] at h1
  have h3 : ∀ b, r x (b, d) / (ism x * ism (b, d)) = (1 / ism x) * (r x (b, d) * Real.sqrt (m b)) := by
    intro b
    rw [hi (b, d)]
    have hs := (Real.sqrt_pos.mpr (hm b)).ne'
    have : ism x ≠ 0 := by
      rw [hi]
      exact one_div_ne_zero (Real.sqrt_pos.mpr (hm x.1)).ne'
    field_simp
  rw [Finset.sum_congr rfl fun b _ => h3 b, ← Finset.mul_sum, h1]
  simp

/-! ### Rotations -/

omit [DecidableEq α] in
theorem rel_mass [Nonempty α] (hm : ∀ a, 0 < m a) (d : Fin 3) :
    ∑ a, m a * rel m q a d = 0 := by
  have h := (mass_pos m hm).ne'
  have e : ∀ a, m a * rel m q a d = q a d * m a - com m q d * m a := by
    intro a; unfold rel; ring
  rw [Finset.sum_congr rfl fun a _ => e a, Finset.sum_sub_distrib, ← Finset.mul_sum]
  unfold com
  field_simp
  ring

omit [DecidableEq α] in
/-- The inertia tensor as it is usually written. -/
theorem moi_apply (i j : Fin 3) :
    moi m q i j = ∑ a, m a * ((if i = j then ∑ d, rel m q a d ^ 2 else 0)
      - rel m q a i * rel m q a j) := by
  unfold moi
  rw [Matrix.neg_apply, Matrix.sum_apply, ← Finset.sum_neg_distrib]
  refine Finset.sum_congr rfl fun a _ => ?_
  generalize rel m q a = r
  rw [Matrix.smul_apply, Matrix.mul_apply]
  simp only [Fin.sum_univ_three, crossId, smul_eq_mul]
  fin_cases i <;> fin_cases j <;> simp <;> ring_nf <;> simp

omit [DecidableEq α] in
theorem axes_mass [Nonempty α] (hm : ∀ a, 0 < m a) (U : Matrix (Fin 3) (Fin 3) ℝ) (k : Fin 3) :
    ∑ a, m a * axes m q U a k = 0 := by
  unfold axes
  simp only [Finset.mul_sum]
  rw [Finset.sum_comm]
  refine Finset.sum_eq_zero fun d _ => ?_
  have e : ∀ a, m a * (rel m q a d * U d k) = m a * rel m q a d * U d k := fun a => by ring
  rw [Finset.sum_congr rfl fun a _ => e a, ← Finset.sum_mul, rel_mass m q hm, zero_mul]

omit [DecidableEq α] in
/-- The products of inertia vanish on the axes. -/
theorem axes_products (U : Matrix (Fin 3) (Fin 3) ℝ) (hU : Uᵀ * U = 1) (ev : Fin 3 → ℝ)
    (hev : ∀ k, moi m q *ᵥ Uᵀ k = ev k • Uᵀ k) (k l : Fin 3) (hkl : k ≠ l) :
    ∑ a, m a * (axes m q U a k * axes m q U a l) = 0 := by
  have orth : Uᵀ k ⬝ᵥ Uᵀ l = 0 := by
    have := congrFun (congrFun hU k) l
    rw [Matrix.mul_apply, Matrix.one_apply_ne hkl] at this
    exact this
  have h1 : Uᵀ k ⬝ᵥ moi m q *ᵥ Uᵀ l = 0 := by
    rw [hev l, dotProduct_smul, orth, smul_zero]
  have h2 : Uᵀ k ⬝ᵥ moi m q *ᵥ Uᵀ l
      = ∑ a, m a * ((∑ d, rel m q a d ^ 2) * (Uᵀ k ⬝ᵥ Uᵀ l)
          - axes m q U a k * axes m q U a l) := by
    have e : ∀ i j, moi m q i j = ∑ a, m a * ((if i = j then ∑ d, rel m q a d ^ 2 else 0)
      - rel m q a i * rel m q a j) := moi_apply m q
    simp only [mulVec, dotProduct, e, Finset.sum_mul, Finset.mul_sum]
    rw [Finset.sum_congr rfl fun i _ => Finset.sum_comm, Finset.sum_comm]
    refine Finset.sum_congr rfl fun a _ => ?_
    unfold axes
    simp only [Fin.sum_univ_three, transpose_apply]
    simp
    ring
  rw [h2, orth] at h1
  simp only [mul_zero, zero_sub, mul_neg, Finset.sum_neg_distrib, neg_eq_zero] at h1
  exact h1

omit [DecidableEq α] in
/-- The rows of the rotations without the square roots. -/
theorem rot_apply (hi : ∀ x, ism x = 1 / Real.sqrt (m x.1)) (U : Matrix (Fin 3) (Fin 3) ℝ)
    (k : Fin 3) (x : α × Fin 3) : rotVec m q U ism k x
      = Real.sqrt (m x.1) * (axes m q U x.1 (k + 1) * U x.2 (k + 2)
        - axes m q U x.1 (k + 2) * U x.2 (k + 1)) := by
  unfold rotVec
  rw [hi]
  by_cases h : Real.sqrt (m x.1) = 0
  · simp [h]
  · field_simp

omit [DecidableEq α] in
theorem trans_rot [Nonempty α] (hi : ∀ x, ism x = 1 / Real.sqrt (m x.1)) (hm : ∀ a, 0 < m a)
    (U : Matrix (Fin 3) (Fin 3) ℝ) (k l : Fin 3) :
    transVec ism k ⬝ᵥ rotVec m q U ism l = 0 := by
  have e : ∀ a, ∑ d, transVec ism k (a, d) * rotVec m q U ism l (a, d)
      = (m a * axes m q U a (l + 1)) * U k (l + 2) - (m a * axes m q U a (l + 2)) * U k (l + 1) := by
    intro a
    have h := Real.mul_self_sqrt (hm a).le
    have hs := (Real.sqrt_pos.mpr (hm a)).ne'
    have h1 : ∀ d, transVec ism k (a, d) * rotVec m q U ism l (a, d)
        = if d = k then m a * (axes m q U a (l + 1) * U d (l + 2)
          - axes m q U a (l + 2) * U d (l + 1)) else 0 := by
      intro d
      rw [rot_apply m q ism hi]
      unfold transVec
      rw [hi]
      by_cases hd : d = k
      · simp only [hd, if_true, one_div_one_div]
        rw [← mul_assoc, h]
      · simp [hd]
    rw [Finset.sum_congr rfl fun d _ => h1 d, Finset.sum_ite_eq' Finset.univ k,
      if_pos (Finset.mem_univ _)]
    ring
  rw [dotProduct, Fintype.sum_prod_type, Finset.sum_congr rfl fun a _ => e a,
    Finset.sum_sub_distrib, ← Finset.sum_mul, ← Finset.sum_mul, axes_mass m q hm,
    axes_mass m q hm]
  ring

/-- What the orthogonality of the axes says, entry by entry. -/
theorem orth_entries (U : Matrix (Fin 3) (Fin 3) ℝ) (hU : Uᵀ * U = 1) (k l : Fin 3) :
    U 0 k * U 0 l + U 1 k * U 1 l + U 2 k * U 2 l = if k = l then 1 else 0 := by
  have := congrFun (congrFun hU k) l
  rw [Matrix.mul_apply, Fin.sum_univ_three, Matrix.one_apply] at this
  exact this

omit [DecidableEq α] in
theorem rot_rot (hi : ∀ x, ism x = 1 / Real.sqrt (m x.1)) (hm : ∀ a, 0 < m a)
    (U : Matrix (Fin 3) (Fin 3) ℝ) (hU : Uᵀ * U = 1) (ev : Fin 3 → ℝ)
    (hev : ∀ k, moi m q *ᵥ Uᵀ k = ev k • Uᵀ k) (k l : Fin 3) (hkl : k ≠ l) :
    rotVec m q U ism k ⬝ᵥ rotVec m q U ism l = 0 := by
  have e : ∀ a, ∑ d, rotVec m q U ism k (a, d) * rotVec m q U ism l (a, d)
      = -(m a * (axes m q U a k * axes m q U a l)) := by
    intro a
    have h := Real.mul_self_sqrt (hm a).le
    have h1 : ∀ d, rotVec m q U ism k (a, d) * rotVec m q U ism l (a, d)
        = m a * ((axes m q U a (k + 1) * U d (k + 2) - axes m q U a (k + 2) * U d (k + 1))
          * (axes m q U a (l + 1) * U d (l + 2) - axes m q U a (l + 2) * U d (l + 1))) := by
      intro d
      rw [rot_apply m q ism hi, rot_apply m q ism hi]
      simp only
      linear_combination ((axes m q U a (k + 1) * U d (k + 2) - axes m q U a (k + 2) * U d (k + 1))
          * (axes m q U a (l + 1) * U d (l + 2) - axes m q U a (l + 2) * U d (l + 1))) * h
    rw [Finset.sum_congr rfl fun d _ => h1 d, Fin.sum_univ_three]
    have o := orth_entries U hU
    generalize axes m q U a = r
    have o00 := o 0 0; have o11 := o 1 1; have o22 := o 2 2
    have o01 := o 0 1; have o12 := o 1 2; have o02 := o 0 2
    simp at o00 o11 o22 o01 o12 o02
    fin_cases k <;> fin_cases l <;> simp at hkl ⊢
    · linear_combination m a * (-(r 1 * r 0) * o22 + r 1 * r 2 * o02 + r 2 * r 0 * o12
        - r 2 * r 2 * o01)
    · linear_combination m a * (r 1 * r 0 * o12 - r 1 * r 1 * o02 - r 2 * r 0 * o11
        + r 2 * r 1 * o01)
    · linear_combination m a * (-(r 1 * r 0) * o22 + r 1 * r 2 * o02 + r 2 * r 0 * o12
        - r 2 * r 2 * o01)
    · linear_combination m a * (r 2 * r 0 * o01 - r 2 * r 1 * o00 - r 0 * r 0 * o12
        + r 0 * r 1 * o02)
    · linear_combination m a * (r 1 * r 0 * o12 - r 1 * r 1 * o02 - r 2 * r 0 * o11
        + r 2 * r 1 * o01)
    · linear_combination m a * (r 2 * r 0 * o01 - r 2 * r 1 * o00 - r 0 * r 0 * o12
        + r 0 * r 1 * o02)
  rw [dotProduct, Fintype.sum_prod_type, Finset.sum_congr rfl fun a _ => e a,
    Finset.sum_neg_distrib, axes_products m q U hU ev hev k l hkl, neg_zero]


omit [DecidableEq α] in
/-- A rotation is a combination of the rows of the rotations. -/
theorem rigid_rot (hi : ∀ x, ism x = 1 / Real.sqrt (m x.1)) (U : Matrix (Fin 3) (Fin 3) ℝ)
    (hU : Uᵀ * U = 1) (A : Matrix (Fin 3) (Fin 3) ℝ) (hA : Aᵀ = -A) (x : α × Fin 3) :
    Real.sqrt (m x.1) * (∑ e, A x.2 e * rel m q x.1 e)
      = ∑ k, (Uᵀ * A * U) (k + 2) (k + 1) * rotVec m q U ism k x := by
  have hU' : U * Uᵀ = 1 := mul_eq_one_comm.mp hU
  -- the matrix in the axes
  obtain ⟨B, hB⟩ : ∃ B, B = Uᵀ * A * U := ⟨_, rfl⟩
  have hBt : Bᵀ = -B := by
    rw [hB, transpose_mul, transpose_mul, transpose_transpose, hA, Matrix.neg_mul,
      Matrix.mul_neg, Matrix.mul_assoc]
  have hs : ∀ i j, B j i = -B i j := fun i j => congrFun (congrFun hBt i) j
  have hAB : A = U * B * Uᵀ := by
    rw [hB]
    have : U * (Uᵀ * A * U) * Uᵀ = (U * Uᵀ) * A * (U * Uᵀ) := by simp only [Matrix.mul_assoc]
    rw [this, hU', Matrix.one_mul, Matrix.mul_one]
  have hx : ∑ e, A x.2 e * rel m q x.1 e
      = ∑ i, ∑ j, U x.2 i * B i j * axes m q U x.1 j := by
    rw [hAB]
    simp only [Matrix.mul_apply, transpose_apply, axes, Fin.sum_univ_three]
    ring
  rw [hx, ← hB]
  simp only [rot_apply m q ism hi]
  generalize axes m q U x.1 = r
  generalize x.2 = d
  have h00 := hs 0 0; have h11 := hs 1 1; have h22 := hs 2 2
  have h01 := hs 1 0; have h12 := hs 2 1; have h20 := hs 0 2
  have z0 : B 0 0 = 0 := by linarith
  have z1 : B 1 1 = 0 := by linarith
  have z2 : B 2 2 = 0 := by linarith
  simp only [Fin.sum_univ_three]
  simp [z0, z1, z2]
  rw [h01, h12, h20]
  ring

omit [DecidableEq α] in
/-- An axis around which nothing turns is the line of all atoms. -/
theorem rot_zero_collinear (hi : ∀ x, ism x = 1 / Real.sqrt (m x.1)) (hm : ∀ a, 0 < m a)
    (U : Matrix (Fin 3) (Fin 3) ℝ) (hU : Uᵀ * U = 1) (k : Fin 3)
    (h : norm (rotVec m q U ism k) = 0) : Collinear q := by
  have hU' : U * Uᵀ = 1 := mul_eq_one_comm.mp hU
  have h0 := norm_eq_zero h
  have o := orth_entries U hU
  have R : ∀ a, axes m q U a (k + 1) = 0 ∧ axes m q U a (k + 2) = 0 := by
    intro a
    have hs := (Real.sqrt_pos.mpr (hm a)).ne'
    have z : ∀ d, axes m q U a (k + 1) * U d (k + 2) - axes m q U a (k + 2) * U d (k + 1) = 0 := by
      intro d
      have := congrFun h0 (a, d)
      rw [rot_apply m q ism hi] at this
      exact (mul_eq_zero.mp this).resolve_left hs
    have ne : k + 1 ≠ k + 2 := by fin_cases k <;> decide
    have p1 := o (k + 1) (k + 1); have p2 := o (k + 2) (k + 2); have p3 := o (k + 1) (k + 2)
    simp only [if_true, if_neg ne] at p1 p2 p3
    constructor
    · linear_combination -(axes m q U a (k + 1)) * p2 + axes m q U a (k + 2) * p3
        + U 0 (k + 2) * z 0 + U 1 (k + 2) * z 1 + U 2 (k + 2) * z 2
    · linear_combination -(axes m q U a (k + 2)) * p1 + axes m q U a (k + 1) * p3
        - U 0 (k + 1) * z 0 - U 1 (k + 1) * z 1 - U 2 (k + 1) * z 2
  refine ⟨com m q, Uᵀ k, fun a => axes m q U a k, fun a => ?_⟩
  have back : ∀ d, rel m q a d = ∑ l, axes m q U a l * U d l := by
    intro d
    have e : ∑ l, axes m q U a l * U d l = ∑ e, rel m q a e * (U * Uᵀ) e d := by
      simp only [Matrix.mul_apply, transpose_apply, axes, Fin.sum_univ_three]
      ring
    rw [e, hU']
    simp [Matrix.one_apply]
  funext d
  have hd : q a d = com m q d + rel m q a d := by unfold rel; ring
  obtain ⟨r1, r2⟩ := R a
  rw [hd, back d]
  simp only [Pi.add_apply, Pi.smul_apply, smul_eq_mul, transpose_apply, Fin.sum_univ_three]
  congr 1
  fin_cases k <;> simp at r1 r2 ⊢ <;> rw [r1, r2] <;> ring

omit [DecidableEq α] in
/-- Eigenvectors of unit length for three different moments are orthogonal. -/
theorem axes_orthogonal (U : Matrix (Fin 3) (Fin 3) ℝ) (ev : Fin 3 → ℝ)
    (hev : ∀ k, moi m q *ᵥ Uᵀ k = ev k • Uᵀ k) (hn : ∀ k, Uᵀ k ⬝ᵥ Uᵀ k = 1)
    (hd : Function.Injective ev) : Uᵀ * U = 1 := by
  have hsym : (moi m q).IsSymm := by
    ext i j
    rw [transpose_apply, moi_apply, moi_apply]
    refine Finset.sum_congr rfl fun a _ => ?_
    by_cases h : i = j
    · subst h; rfl
    · rw [if_neg h, if_neg (Ne.symm h)]; ring
  ext k l
  have e : (Uᵀ * U) k l = Uᵀ k ⬝ᵥ Uᵀ l := rfl
  rw [e]
  by_cases h : k = l
  · subst h; rw [hn, Matrix.one_apply_eq]
  · rw [Matrix.one_apply_ne h]
    have h1 : Uᵀ k ⬝ᵥ moi m q *ᵥ Uᵀ l = ev l * (Uᵀ k ⬝ᵥ Uᵀ l) := by
      rw [hev, dotProduct_smul]; rfl
    have h2 : Uᵀ k ⬝ᵥ moi m q *ᵥ Uᵀ l = ev k * (Uᵀ k ⬝ᵥ Uᵀ l) := by
      rw [dotProduct_mulVec, ← mulVec_transpose, hsym.eq, hev, smul_dotProduct]; rfl
    have h3 : (ev k - ev l) * (Uᵀ k ⬝ᵥ Uᵀ l) = 0 := by linarith
    exact (mul_eq_zero.mp h3).resolve_left (sub_ne_zero.mpr fun c => h (hd c))

/-- **C92, molecules.**  With orthogonal principal axes and atoms not all on a line, the sum rule
`poly` removes the translations and rotations and nothing else. -/
theorem poly_removes_partial [Nonempty α] (hi : ∀ x, ism x = 1 / Real.sqrt (m x.1))
    (hm : ∀ a, 0 < m a) (U : Matrix (Fin 3) (Fin 3) ℝ) (ev : Fin 3 → ℝ)
    (hev : ∀ k, moi m q *ᵥ Uᵀ k = ev k • Uᵀ k) (hU : Uᵀ * U = 1) (hl : ¬ Collinear q)
    (dm : Matrix (α × Fin 3) (α × Fin 3) ℝ) :
    ∃ r, applyAsr .poly m q U ism dm = .ok r ∧ Removes (rigids m q) dm r := by
  have hU' : U * Uᵀ = 1 := mul_eq_one_comm.mp hU
  refine applyRows_removes (polyRows m q U ism) ?_ ?_ _ ?_ ?_ dm
  · rintro (k | k)
    · change norm (transVec ism k) ≠ 0
      unfold norm
      rw [trans_dot m ism hi hm, if_pos rfl]
      exact (Real.sqrt_pos.mpr (mass_pos m hm)).ne'
    · intro h
      exact hl (rot_zero_collinear m q ism hi hm U hU k h)
  · rintro (k | k) (l | l) h
    · change transVec ism k ⬝ᵥ transVec ism l = 0
      rw [trans_dot m ism hi hm, if_neg fun c => h (congrArg _ c)]
    · exact trans_rot m q ism hi hm U k l
    · change rotVec m q U ism k ⬝ᵥ transVec ism l = 0
      rw [dotProduct_comm]
      exact trans_rot m q ism hi hm U l k
    · exact rot_rot m q ism hi hm U hU ev hev k l fun c => h (congrArg _ c)
  · rintro v ⟨t, A, hA, rfl⟩
    refine ⟨Sum.elim (fun k => t k + ∑ e, A k e * com m q e)
      (fun k => (Uᵀ * A * U) (k + 2) (k + 1)), ?_⟩
    rw [Fintype.sum_sum_type]
    simp only [Sum.elim_inl, Sum.elim_inr, polyRows]
    rw [← rigid_trans m q ism hi fun k => t k + ∑ e, A k e * com m q e]
    funext x
    have h1 := rigid_rot m q ism hi U hU A hA x
    rw [Pi.add_apply, Finset.sum_apply]
    simp only [Pi.smul_apply, smul_eq_mul]
    rw [← h1]
    unfold rigid
    simp only [Matrix.zero_apply, zero_mul, Finset.sum_const_zero, add_zero]
    rw [← mul_add]
    congr 1
    rw [add_assoc, ← Finset.sum_add_distrib]
    congr 1
    refine Finset.sum_congr rfl fun e _ => ?_
    unfold rel
    ring
  · rintro (k | k)
    · exact ⟨Pi.single k 1, 0, by simp, transVec_eq m q ism hi k⟩
    · -- the rotation around one axis
      obtain ⟨A, hA⟩ : ∃ A : Matrix (Fin 3) (Fin 3) ℝ, ∀ i j,
          A i j = U i (k + 2) * U j (k + 1) - U i (k + 1) * U j (k + 2) :=
        ⟨fun i j => U i (k + 2) * U j (k + 1) - U i (k + 1) * U j (k + 2), fun _ _ => rfl⟩
      refine ⟨fun d => -∑ e, A d e * com m q e, A, ?_, ?_⟩
      · ext i j
        rw [transpose_apply, Matrix.neg_apply, hA, hA]
        ring
      · funext x
        change rotVec m q U ism k x = _
        rw [rot_apply m q ism hi]
        unfold rigid
        congr 1
        simp only
        rw [← Finset.sum_neg_distrib, ← Finset.sum_add_distrib]
        have e : ∀ e, -(A x.2 e * com m q e) + A x.2 e * q x.1 e = A x.2 e * rel m q x.1 e := by
          intro e; unfold rel; ring
        rw [Finset.sum_congr rfl fun i _ => e i]
        simp only [hA, axes, Fin.sum_univ_three]
        ring

/-- For three different moments of inertia the axes need no further hypothesis: any unit
eigenvectors will do. -/
theorem poly_removes_distinct [Nonempty α] (hi : ∀ x, ism x = 1 / Real.sqrt (m x.1))
    (hm : ∀ a, 0 < m a) (U : Matrix (Fin 3) (Fin 3) ℝ) (ev : Fin 3 → ℝ)
    (hev : ∀ k, moi m q *ᵥ Uᵀ k = ev k • Uᵀ k) (hn : ∀ k, Uᵀ k ⬝ᵥ Uᵀ k = 1)
    (hd : Function.Injective ev) (hl : ¬ Collinear q)
    (dm : Matrix (α × Fin 3) (α × Fin 3) ℝ) :
    ∃ r, applyAsr .poly m q U ism dm = .ok r ∧ Removes (rigids m q) dm r :=
  poly_removes_partial m q ism hi hm U ev hev (axes_orthogonal m q U ev hev hn hd) hl dm

/-- **C92, linear molecules (disagreement).**  With all atoms on a line the sum rule `poly` gives
no numbers, whatever independent eigenvectors the library returns. -/
theorem poly_linear [Nonempty α] (hi : ∀ x, ism x = 1 / Real.sqrt (m x.1))
    (hm : ∀ a, 0 < m a) (U : Matrix (Fin 3) (Fin 3) ℝ) (ev : Fin 3 → ℝ)
    (hev : ∀ k, moi m q *ᵥ Uᵀ k = ev k • Uᵀ k) (hU : IsUnit U) (hl : Collinear q)
    (dm : Matrix (α × Fin 3) (α × Fin 3) ℝ) : applyAsr .poly m q U ism dm = .nan := by
  obtain ⟨p, e, s, hq⟩ := hl
  -- one rotation row is zero
  have key : ∃ k, rotVec m q U ism k = 0 := by
    -- positions relative to the centre of mass
    obtain ⟨t, ht⟩ : ∃ t : α → ℝ, ∀ a d, rel m q a d = t a * e d := by
      have hM := (mass_pos m hm).ne'
      refine ⟨fun a => s a - (∑ b, s b * m b) / ∑ b, m b, fun a d => ?_⟩
      unfold rel com
      have e1 : ∀ b, q b d * m b = p d * m b + (s b * m b) * e d := by
        intro b; rw [hq b]; simp only [Pi.add_apply, Pi.smul_apply, smul_eq_mul]; ring
      rw [Finset.sum_congr rfl fun b _ => e1 b, Finset.sum_add_distrib, ← Finset.mul_sum,
        ← Finset.sum_mul, hq a]
      simp only [Pi.add_apply, Pi.smul_apply, smul_eq_mul]
      field_simp
      ring
    have hR : ∀ a k, axes m q U a k = t a * (e ⬝ᵥ Uᵀ k) := by
      intro a k
      unfold axes
      rw [dotProduct, Finset.mul_sum]
      refine Finset.sum_congr rfl fun d _ => ?_
      rw [ht, transpose_apply]; ring
    have zero_of : ∀ k, e ⬝ᵥ Uᵀ (k + 1) = 0 → e ⬝ᵥ Uᵀ (k + 2) = 0 → rotVec m q U ism k = 0 := by
      intro k h1 h2
      funext x
      rw [rot_apply m q ism hi, hR, hR, h1, h2]
      simp
    by_cases hs : ∑ a, m a * t a ^ 2 = 0
    · -- all atoms at the same place
      have hz : ∀ a, t a = 0 := by
        intro a
        have h1 : m a * t a ^ 2 ≤ ∑ b, m b * t b ^ 2 :=
          Finset.single_le_sum (f := fun b => m b * t b ^ 2)
            (fun b _ => mul_nonneg (hm b).le (sq_nonneg _)) (Finset.mem_univ a)
        have h2 : m a * t a ^ 2 = 0 :=
          le_antisymm (h1.trans hs.le) (mul_nonneg (hm a).le (sq_nonneg _))
        have h3 := (mul_eq_zero.mp h2).resolve_left (hm a).ne'
        exact pow_eq_zero_iff (by norm_num) |>.mp h3
      refine ⟨0, ?_⟩
      funext x
      rw [rot_apply m q ism hi, hR, hR, hz]
      simp
    · set S := ∑ a, m a * t a ^ 2 with hS
      -- the inertia tensor of a line
      have hmoi : ∀ v : Fin 3 → ℝ, moi m q *ᵥ v = S • ((e ⬝ᵥ e) • v - (e ⬝ᵥ v) • e) := by
        intro v
        have hij : ∀ i j, moi m q i j = S * ((if i = j then e ⬝ᵥ e else 0) - e i * e j) := by
          intro i j
          rw [moi_apply, hS, Finset.sum_mul]
          refine Finset.sum_congr rfl fun a _ => ?_
          simp only [ht]
          by_cases h : i = j
          · rw [if_pos h, if_pos h, dotProduct]
            simp only [Fin.sum_univ_three]; ring
          · rw [if_neg h, if_neg h]; ring
        funext i
        simp only [mulVec, dotProduct, hij, Pi.smul_apply, Pi.sub_apply, smul_eq_mul,
          Fin.sum_univ_three]
        fin_cases i <;> simp <;> ring
      by_cases he : e = 0
      · exact ⟨0, zero_of 0 (by simp [he]) (by simp [he])⟩
      have hee : e ⬝ᵥ e ≠ 0 := by
        intro h
        apply he
        have : norm e = 0 := by unfold norm; rw [h, Real.sqrt_zero]
        exact norm_eq_zero this
      -- a column which is not perpendicular to the line is along it
      have along : ∀ k, e ⬝ᵥ Uᵀ k ≠ 0 → (e ⬝ᵥ e) • Uᵀ k = (e ⬝ᵥ Uᵀ k) • e := by
        intro k hk
        have h1 := hev k
        rw [hmoi] at h1
        have h2 := congrArg (fun w => e ⬝ᵥ w) h1
        simp only [dotProduct_smul, dotProduct_sub, smul_eq_mul] at h2
        have h3 : ev k = 0 := by
          have : ev k * (e ⬝ᵥ Uᵀ k) = 0 := by rw [← h2]; ring
          exact (mul_eq_zero.mp this).resolve_right hk
        rw [h3, zero_smul] at h1
        exact sub_eq_zero.mp ((smul_eq_zero.mp h1).resolve_left hs)
      have inj : ∀ v : Fin 3 → ℝ, U *ᵥ v = 0 → v = 0 := by
        intro v hv
        obtain ⟨W, hW⟩ := hU.exists_left_inv
        have := congrArg (fun w => W *ᵥ w) hv
        simp only [mulVec_mulVec, hW, one_mulVec, mulVec_zero] at this
        exact this
      -- some column is along the line
      have some_k : ∃ k, e ⬝ᵥ Uᵀ k ≠ 0 := by
        by_contra hc
        push Not at hc
        obtain ⟨W, hW⟩ := hU.exists_right_inv
        have h1 : e ᵥ* U = 0 := by
          funext k
          exact hc k
        have h2 := congrArg (fun w => w ᵥ* W) h1
        simp only [vecMul_vecMul, hW, vecMul_one, zero_vecMul] at h2
        exact he h2
      obtain ⟨k, hk⟩ := some_k
      have others : ∀ l, l ≠ k → e ⬝ᵥ Uᵀ l = 0 := by
        intro l hlk
        by_contra hl
        have a1 := along k hk
        have a2 := along l hl
        have h1 : U *ᵥ ((e ⬝ᵥ Uᵀ l) • Pi.single k 1 - (e ⬝ᵥ Uᵀ k) • Pi.single l 1) = 0 := by
          rw [mulVec_sub, mulVec_smul, mulVec_smul, mulVec_single_one, mulVec_single_one]
          have c1 : (e ⬝ᵥ e) • ((e ⬝ᵥ Uᵀ l) • U.col k - (e ⬝ᵥ Uᵀ k) • U.col l) = 0 := by
            have b1 : (e ⬝ᵥ e) • U.col k = (e ⬝ᵥ Uᵀ k) • e := a1
            have b2 : (e ⬝ᵥ e) • U.col l = (e ⬝ᵥ Uᵀ l) • e := a2
            rw [smul_sub, smul_comm, b1, smul_comm (e ⬝ᵥ e), b2, smul_smul, smul_smul, mul_comm,
              sub_self]
          exact (smul_eq_zero.mp c1).resolve_left hee
        have h2 := congrFun (inj _ h1) k
        simp [Ne.symm hlk] at h2
        exact hl h2
      exact ⟨k, zero_of k (others _ (by fin_cases k <;> decide))
        (others _ (by fin_cases k <;> decide))⟩
  obtain ⟨k, hk⟩ := key
  have hn : normalise (polyRows m q U ism) = none := by
    unfold normalise
    rw [if_pos]
    refine ⟨.inr k, ?_⟩
    change norm (rotVec m q U ism k) = 0
    rw [hk]
    simp [norm]
  change applyRows _ _ = _
  unfold applyRows
  rw [hn]

omit [DecidableEq α] in
/-- **C92, the option lin (disagreement).**  It is accepted by the input and gives `None`, so the
calculation ends with an exception before anything is printed. -/
theorem lin_nothing [DecidableEq α] (U : Matrix (Fin 3) (Fin 3) ℝ)
    (dm : Matrix (α × Fin 3) (α × Fin 3) ℝ) : applyAsr .lin m q U ism dm = .nothing := rfl

end Molecule

/-! ### Axes which are not orthogonal -/

/-- The effect of the matrix on a vector, without the lengths. -/
theorem transf_raw {ι κ : Type*} [Fintype ι] [DecidableEq ι] [Fintype κ] (D : κ → Vec ι)
    (hne : ∀ k, D k ⬝ᵥ D k ≠ 0) (v : Vec ι) :
    transf (fun k j => D k j / norm (D k)) *ᵥ v
      = v - ∑ k, ((D k ⬝ᵥ v) / (D k ⬝ᵥ D k)) • D k := by
  classical
  rw [transf_mulVec]
  congr 1
  refine Finset.sum_congr rfl fun k _ => ?_
  have e : (fun j => D k j / norm (D k)) = (1 / norm (D k)) • D k := by
    funext j; simp only [Pi.smul_apply, smul_eq_mul]; ring
  have pos : (0 : ℝ) ≤ D k ⬝ᵥ D k := Finset.sum_nonneg fun x _ => mul_self_nonneg _
  have sq : norm (D k) * norm (D k) = D k ⬝ᵥ D k := Real.mul_self_sqrt pos
  have hn : norm (D k) ≠ 0 := by
    intro h; apply hne k; rw [← sq, h, mul_zero]
  rw [e, smul_dotProduct, smul_smul, ← sq]
  congr 1
  simp only [smul_eq_mul]
  field_simp

/-- Four equal atoms in a square. -/
noncomputable def square : Fin 4 → Fin 3 → ℝ := ![![1, 0, 0], ![-1, 0, 0], ![0, 1, 0], ![0, -1, 0]]

/-- Unit eigenvectors of its inertia tensor, two of them for the same moment and not
orthogonal. -/
noncomputable def oblique : Matrix (Fin 3) (Fin 3) ℝ :=
  !![1, 3 / 5, 0; 0, 4 / 5, 0; 0, 0, 1]

theorem square_rel : rel (fun _ => 1) square = square := by
  funext a d
  unfold rel com
  simp only [Fin.sum_univ_four]
  fin_cases a <;> fin_cases d <;> simp [square]

theorem square_eigen (k : Fin 3) :
    moi (fun _ => 1) square *ᵥ obliqueᵀ k = (![2, 2, 4] : Fin 3 → ℝ) k • obliqueᵀ k := by
  have h : ∀ i j, moi (fun _ => 1) square i j = (!![2, 0, 0; 0, 2, 0; 0, 0, 4] : Matrix _ _ ℝ) i j := by
    intro i j
    rw [moi_apply, square_rel]
    simp only [Fin.sum_univ_four, Fin.sum_univ_three]
    fin_cases i <;> fin_cases j <;> simp [square] <;> norm_num
  funext i
  simp only [mulVec, dotProduct, h, Fin.sum_univ_three]
  fin_cases k <;> fin_cases i <;> simp [oblique]

/-- The rows of the square with these axes. -/
noncomputable def squareRow : Fin 3 ⊕ Fin 3 → Vec (Fin 4 × Fin 3)
  | .inl k => fun x => if x.2 = k then 1 else 0
  | .inr 0 => fun x => if x.2 = 2 then 3 / 5 * square x.1 0 + 4 / 5 * square x.1 1 else 0
  | .inr 1 => fun x => if x.2 = 2 then -square x.1 0 else 0
  | .inr 2 => fun x => if x.2 = 0 then -(4 / 5) * square x.1 1
      else if x.2 = 1 then 4 / 5 * square x.1 0 else 0

theorem square_rows : polyRows (fun _ => 1) square oblique (fun _ => 1) = squareRow := by
  have hz : ∀ a, square a 2 = 0 := by intro a; fin_cases a <;> rfl
  funext k x
  obtain ⟨a, d⟩ := x
  have ax : ∀ a k, axes (fun _ => 1) square oblique a k
      = ![square a 0, 3 / 5 * square a 0 + 4 / 5 * square a 1, 0] k := by
    intro a k
    unfold axes
    rw [square_rel, Fin.sum_univ_three, hz]
    fin_cases k <;> simp [oblique]
    ring
  rcases k with k | k
  · simp [polyRows, transVec, squareRow]
  · change rotVec (fun _ => 1) square oblique (fun _ => 1) k (a, d) = _
    unfold rotVec
    rw [ax, ax]
    fin_cases k <;> fin_cases d <;> simp [oblique, squareRow] <;> ring

/-- **C92, symmetric molecules (disagreement).**  `np.linalg.eig` only promises unit
eigenvectors.  For equal moments these need not be orthogonal, and then the sum rule `poly` does
not remove the rotations. -/
theorem poly_oblique : ∃ (r : Matrix (Fin 4 × Fin 3) (Fin 4 × Fin 3) ℝ)
    (v : Vec (Fin 4 × Fin 3)),
    (∀ k, moi (fun _ => 1) square *ᵥ obliqueᵀ k = (![2, 2, 4] : Fin 3 → ℝ) k • obliqueᵀ k) ∧
    (∀ k, obliqueᵀ k ⬝ᵥ obliqueᵀ k = 1) ∧
    applyAsr .poly (fun _ => 1) square oblique (fun _ => 1) 1 = .ok r ∧
    v ∈ rigids (fun _ => 1) square ∧ r *ᵥ v ≠ 0 := by
  have dots : ∀ k, squareRow k ⬝ᵥ squareRow k
      = Sum.elim ![4, 4, 4] ![2, 2, 64 / 25] k := by
    rintro (k | k)
    · simp only [dotProduct, Fintype.sum_prod_type, Fin.sum_univ_four, Fin.sum_univ_three]
      fin_cases k <;> simp [squareRow] <;> norm_num
    · simp only [dotProduct, Fintype.sum_prod_type, Fin.sum_univ_four, Fin.sum_univ_three]
      fin_cases k <;> simp [squareRow, square] <;> norm_num
  have hne : ∀ k, squareRow k ⬝ᵥ squareRow k ≠ 0 := by
    intro k
    rw [dots]
    rcases k with k | k <;> fin_cases k <;> simp
  have hn : normalise squareRow = some fun k j => squareRow k j / norm (squareRow k) := by
    unfold normalise
    rw [if_neg]
    rintro ⟨k, hk⟩
    apply hne k
    rw [norm_eq_zero hk]
    simp
  refine ⟨project (transf fun k j => squareRow k j / norm (squareRow k)) 1,
    fun x => if x.2 = 2 then square x.1 0 else 0, square_eigen, ?_, ?_, ?_, ?_⟩
  · intro k
    simp only [dotProduct, Fin.sum_univ_three]
    fin_cases k <;> simp [oblique] <;> norm_num
  · change applyRows _ _ = _
    rw [square_rows, applyRows, hn]
  · refine ⟨0, !![0, 0, -1; 0, 0, 0; 1, 0, 0], ?_, ?_⟩
    · ext i j; fin_cases i <;> fin_cases j <;> simp
    · funext x
      obtain ⟨a, d⟩ := x
      unfold rigid
      simp only [Fin.sum_univ_three, Real.sqrt_one]
      fin_cases a <;> fin_cases d <;> simp [square]
  · intro h
    unfold project at h
    rw [transf_symm, Matrix.one_mul, ← mulVec_mulVec] at h
    have h1 : transf (fun k j => squareRow k j / norm (squareRow k))
        *ᵥ (fun x : Fin 4 × Fin 3 => if x.2 = 2 then square x.1 0 else 0)
        = (-(3 / 5) : ℝ) • squareRow (.inr 0) := by
      rw [transf_raw squareRow hne]
      simp only [dots, Fintype.sum_sum_type, Fin.sum_univ_three]
      have d0 : ∀ k, squareRow k ⬝ᵥ (fun x : Fin 4 × Fin 3 => if x.2 = 2 then square x.1 0 else 0)
          = Sum.elim ![0, 0, 0] ![6 / 5, -2, 0] k := by
        rintro (k | k)
        · simp only [dotProduct, Fintype.sum_prod_type, Fin.sum_univ_four, Fin.sum_univ_three]
          fin_cases k <;> simp [squareRow, square]
        · simp only [dotProduct, Fintype.sum_prod_type, Fin.sum_univ_four, Fin.sum_univ_three]
          fin_cases k <;> simp [squareRow, square] <;> norm_num
      simp only [d0]
      funext x
      obtain ⟨a, d⟩ := x
      simp
      fin_cases a <;> fin_cases d <;> simp [squareRow, square] <;> norm_num
    rw [h1, mulVec_smul, transf_raw squareRow hne] at h
    have d1 : ∀ k, squareRow k ⬝ᵥ squareRow (.inr 0)
        = Sum.elim ![0, 0, 0] ![2, -(6 / 5), 0] k := by
      rintro (k | k)
      · simp only [dotProduct, Fintype.sum_prod_type, Fin.sum_univ_four, Fin.sum_univ_three]
        fin_cases k <;> simp [squareRow, square]
      · simp only [dotProduct, Fintype.sum_prod_type, Fin.sum_univ_four, Fin.sum_univ_three]
        fin_cases k <;> simp [squareRow, square] <;> norm_num
    have h2 := congrFun h (0, 2)
    simp only [dots, d1, Fintype.sum_sum_type, Fin.sum_univ_three] at h2
    simp [squareRow, square] at h2

/-! ### The hypotheses are met -/

/-- A rhombus: three different moments, not on a line. -/
example : ∃ (q : Fin 4 → Fin 3 → ℝ) (U : Matrix (Fin 3) (Fin 3) ℝ) (ev : Fin 3 → ℝ),
    (∀ k, moi (fun _ => 1) q *ᵥ Uᵀ k = ev k • Uᵀ k) ∧ (∀ k, Uᵀ k ⬝ᵥ Uᵀ k = 1) ∧
    Function.Injective ev ∧ ¬ Collinear q := by
  let q : Fin 4 → Fin 3 → ℝ := ![![1, 0, 0], ![-1, 0, 0], ![0, 2, 0], ![0, -2, 0]]
  have hr : rel (fun _ => 1) q = q := by
    funext a d
    unfold rel com
    simp only [Fin.sum_univ_four]
    fin_cases a <;> fin_cases d <;> simp [q]
  have h : ∀ i j, moi (fun _ => 1) q i j = (!![8, 0, 0; 0, 2, 0; 0, 0, 10] : Matrix _ _ ℝ) i j := by
    intro i j
    rw [moi_apply, hr]
    simp only [Fin.sum_univ_four, Fin.sum_univ_three]
    fin_cases i <;> fin_cases j <;> simp [q] <;> norm_num
  refine ⟨q, 1, ![8, 2, 10], ?_, ?_, ?_, ?_⟩
  · intro k
    funext i
    simp only [mulVec, dotProduct, h, Fin.sum_univ_three]
    fin_cases k <;> fin_cases i <;> simp
  · intro k
    simp only [dotProduct, Fin.sum_univ_three]
    fin_cases k <;> simp
  · intro a b hab
    fin_cases a <;> fin_cases b <;> first | rfl | (norm_num at hab)
  · rintro ⟨p, e, s, hp⟩
    have f : ∀ a d, q a d = p d + s a * e d := fun a d => congrFun (hp a) d
    have a0 := f 0 0; have a1 := f 1 0; have a2 := f 2 0
    have b0 := f 0 1; have b1 := f 1 1; have b2 := f 2 1
    simp [q] at a0 a1 a2 b0 b1 b2
    -- the first two atoms fix the direction, the third is not on it
    have e1 : (s 0 - s 1) * e 0 = 2 := by linarith
    have e2 : (s 0 - s 1) * e 1 = 0 := by linarith
    have e3 : e 1 = 0 := by
      rcases mul_eq_zero.mp e2 with c | c
      · rw [c] at e1; norm_num at e1
      · exact c
    rw [e3] at b0 b2
    linarith

end Verif.Phonon
