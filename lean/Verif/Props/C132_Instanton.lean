import Verif.Phys.Instanton
import Verif.Props.C36_NormalModes
import Mathlib.Algebra.BigOperators.Field
import Mathlib.Analysis.Calculus.Deriv.Add
import Mathlib.Analysis.Calculus.Deriv.Mul
import Mathlib.Analysis.Calculus.Deriv.Pow
import Mathlib.Tactic.Linarith
import Mathlib.Tactic.FieldSimp
import Mathlib.Tactic.Ring

/-!
# C132: the energy, the gradient and the Hessian of an instanton belong together
-/

namespace Verif.Instanton

open Finset

/-! ### Springs -/

section Springs

variable {m : ℕ} {δ : Type} [Fintype δ]

omit [Fintype δ] in
lemma modes_line (q v : Fin (m + 1) → δ → ℝ) (t : ℝ) (k : Fin (m + 1)) (c : δ) :
    modes (fun i c => q i c + t * v i c) k c = modes q k c + t * modes v k c := by
  unfold modes Nm.apply
  rw [Finset.mul_sum, ← Finset.sum_add_distrib]
  exact Finset.sum_congr rfl fun j _ => by ring

lemma quad (A B C : ℝ) : HasDerivAt (fun t : ℝ => A + t * B + t ^ 2 * C) B 0 := by
  have h1 := ((hasDerivAt_id (0 : ℝ)).mul_const B).const_add A
  have h2 := ((hasDerivAt_id (0 : ℝ)).pow 2).mul_const C
  refine (h1.add h2).congr_deriv ?_
  simp

lemma springE_line (ω : ℝ) (μ : δ → ℝ) (q v : Fin (m + 1) → δ → ℝ) (t : ℝ) :
    springE ω μ (fun i c => q i c + t * v i c) = springE ω μ q + t * (∑ i, ∑ c, springG ω μ q i c * v i c) + t ^ 2 * springE ω μ v := by
  have h1 : ∑ i, ∑ c, springG ω μ q i c * v i c = ∑ k, ∑ c, omegak ω m k ^ 2 * (μ c * (modes q k c * modes v k c)) := by
    have e : ∀ i c, springG ω μ q i c * v i c = ∑ k, omegak ω m k ^ 2 * (μ c * (modes q k c * (Nm.mkONm (m + 1) k i * v i c))) := by
      intro i c
      unfold springG
      rw [Finset.mul_sum, Finset.sum_mul]
      exact Finset.sum_congr rfl fun k _ => by ring
    simp only [e]
    rw [Finset.sum_comm]
    conv_rhs => rw [Finset.sum_comm]
    refine Finset.sum_congr rfl fun c _ => ?_
    rw [Finset.sum_comm]
    refine Finset.sum_congr rfl fun k _ => ?_
    conv_rhs => rw [show modes v k c = ∑ i, Nm.mkONm (m + 1) k i * v i c from rfl]
    simp only [Finset.mul_sum]
  rw [h1]
  unfold springE
  simp only [modes_line]
  rw [Finset.mul_sum, Finset.mul_sum, Finset.mul_sum, Finset.mul_sum, Finset.mul_sum, ← Finset.sum_add_distrib, ← Finset.sum_add_distrib]
  refine Finset.sum_congr rfl fun k _ => ?_
  rw [Finset.mul_sum, Finset.mul_sum, Finset.mul_sum, Finset.mul_sum, Finset.mul_sum, ← Finset.sum_add_distrib, ← Finset.sum_add_distrib]
  exact Finset.sum_congr rfl fun c _ => by ring

/-- The gradient of the springs is the derivative of their energy along every movement of the beads. -/
theorem spring_gradient (ω : ℝ) (μ : δ → ℝ) (q v : Fin (m + 1) → δ → ℝ) :
    HasDerivAt (fun t : ℝ => springE ω μ (fun i c => q i c + t * v i c)) (∑ i, ∑ c, springG ω μ q i c * v i c) 0 := by
  have h : (fun t : ℝ => springE ω μ (fun i c => q i c + t * v i c)) =
      fun t => springE ω μ q + t * (∑ i, ∑ c, springG ω μ q i c * v i c) + t ^ 2 * springE ω μ v := by
    funext t
    exact springE_line ω μ q v t
  rw [h]
  exact quad _ _ _

/-- The energy is that of springs between neighbouring beads of the half path. -/
theorem spring_energy (ω : ℝ) (μ : δ → ℝ) (q : Fin (m + 1) → δ → ℝ) :
    springE ω μ q = 1 / 2 * ω ^ 2 * ∑ c, μ c * ∑ i : Fin m, (q i.succ c - q i.castSucc c) ^ 2 := by
  have h : ∀ c, ∑ i : Fin m, (q i.succ c - q i.castSucc c) ^ 2 = ∑ k : Fin (m + 1), (Nm.oNmEva (m + 1) k * modes q k c) ^ 2 :=
    fun c => Nm.chain_spring_diagonal (fun j => q j c)
  simp only [h]
  unfold springE
  rw [Finset.sum_comm, Finset.mul_sum, Finset.mul_sum]
  refine Finset.sum_congr rfl fun c _ => ?_
  rw [Finset.mul_sum, Finset.mul_sum, Finset.mul_sum]
  refine Finset.sum_congr rfl fun k _ => ?_
  unfold omegak
  ring

lemma chainForce_modes (q : Fin (m + 1) → ℝ) (j : Fin (m + 1)) :
    Nm.chainForce q j = ∑ k, Nm.mkONm (m + 1) k j * (Nm.apply (Nm.mkONm (m + 1)) q k * Nm.oNmEva (m + 1) k ^ 2) := by
  have hq : q = fun j => ∑ k, Nm.mkONm (m + 1) k j * Nm.apply (Nm.mkONm (m + 1)) q k := by
    have := Nm.apply_apply (Nm.mkONm (m + 1)).transpose (Nm.mkONm (m + 1)) q
    rw [Nm.mkONm_orth' (m + 1), Nm.apply_one] at this
    exact this.symm
  have hL : ∀ x : Fin (m + 1) → ℝ, Nm.chainForce (fun j => ∑ k, Nm.mkONm (m + 1) k j * x k) j = ∑ k, x k * Nm.chainForce (Nm.mkONm (m + 1) k) j := by
    intro x
    unfold Nm.chainForce
    by_cases h1 : (j : ℕ) < m
    · by_cases h2 : 0 < (j : ℕ)
      · simp only [h1, h2, dif_pos, if_true, ← Finset.sum_sub_distrib, ← Finset.sum_add_distrib]
        exact sum_congr rfl (fun k _ => by ring)
      · simp only [h1, h2, dif_pos, if_false, ← Finset.sum_sub_distrib, add_zero]
        exact sum_congr rfl (fun k _ => by ring)
    · by_cases h2 : 0 < (j : ℕ)
      · simp only [h1, h2, dif_neg, not_false_eq_true, if_true, ← Finset.sum_sub_distrib, zero_add]
        exact sum_congr rfl (fun k _ => by ring)
      · simp only [h1, h2, dif_neg, not_false_eq_true, if_false, add_zero, mul_zero, Finset.sum_const_zero]
  calc Nm.chainForce q j = Nm.chainForce (fun j => ∑ k, Nm.mkONm (m + 1) k j * Nm.apply (Nm.mkONm (m + 1)) q k) j := by rw [← hq]
    _ = _ := by
      rw [hL]
      refine Finset.sum_congr rfl fun k _ => ?_
      rw [Nm.chain_eigen]
      ring

omit [Fintype δ] in
lemma springG_chain (ω : ℝ) (μ : δ → ℝ) (q : Fin (m + 1) → δ → ℝ) (i : Fin (m + 1)) (c : δ) :
    springG ω μ q i c = μ c * ω ^ 2 * Nm.chainForce (fun j => q j c) i := by
  rw [chainForce_modes (fun j => q j c) i]
  unfold springG
  rw [mul_assoc, Finset.mul_sum (a := ω ^ 2)]
  congr 1
  refine Finset.sum_congr rfl fun k _ => ?_
  unfold omegak modes
  ring

lemma lap_uniform (x : Fin (m + 1) → ℝ) (i : Fin (m + 1)) : ∑ j : Fin (m + 1), lap (m + 1) (fun _ => 1) i j * x j = Nm.chainForce x i := by
  let f : ℕ → ℝ := fun j => if h : j < m + 1 then x ⟨j, h⟩ else 0
  have hf : ∀ j : Fin (m + 1), x j = f j := by intro j; simp only [f]; rw [dif_pos j.2]
  have h1 : ∑ j : Fin (m + 1), lap (m + 1) (fun _ => 1) i j * x j = ∑ j ∈ range (m + 1), lap (m + 1) (fun _ => 1) i j * f j := by
    rw [← Fin.sum_univ_eq_sum_range (fun j => lap (m + 1) (fun _ => 1) i j * f j) (m + 1)]
    exact Finset.sum_congr rfl fun j _ => by rw [hf]
  rw [h1]
  have hi := i.2
  by_cases hm : m = 0
  · subst hm
    simp [lap, Nm.chainForce]
  have key : ∀ j ∈ range (m + 1), lap (m + 1) (fun _ => 1) i j * f j =
      (if (i : ℕ) = j then ((if (i : ℕ) < m then 1 else 0) + (if 0 < (i : ℕ) then 1 else 0)) * f j else 0)
      + (if j = (i : ℕ) + 1 then -f j else 0) + (if (i : ℕ) = j + 1 then -f j else 0) := by
    intro j _
    unfold lap
    have hne : ¬ m + 1 = 1 := by omega
    rw [if_neg hne]
    rcases Nat.lt_trichotomy j i with h | h | h
    · have a1 : ¬ (i : ℕ) = j := by omega
      have a2 : ¬ j = (i : ℕ) + 1 := by omega
      simp only [a1, a2, if_false]
      by_cases h3 : (i : ℕ) = j + 1
      · simp [h3]
      · simp [h3]
    · rw [h]
      have a2 : ¬ (i : ℕ) = (i : ℕ) + 1 := by omega
      simp only [a2, if_false, if_true, Nat.add_sub_cancel]
      by_cases b1 : (i : ℕ) = 0
      · have c1 : ¬ (i : ℕ) = m := by omega
        have c2 : (i : ℕ) < m := by omega
        have c3 : ¬ 1 ≤ (i : ℕ) := by omega
        have c4 : ¬ 0 < (i : ℕ) := by omega
        simp only [c1, c2, c3, c4, if_false, if_true, if_pos b1, false_and]
        ring
      · have c4 : 0 < (i : ℕ) := by omega
        by_cases b2 : (i : ℕ) = m
        · have c2 : ¬ (i : ℕ) < m := by omega
          simp only [b1, c2, c4, if_false, if_true, if_pos b2, and_false]
          ring
        · have c2 : (i : ℕ) < m := by omega
          have c3 : 1 ≤ (i : ℕ) ∧ (i : ℕ) < m := by omega
          simp only [b1, b2, c2, c3, c4, and_self, if_false, if_true]
          ring
    · have a1 : ¬ (i : ℕ) = j := by omega
      have a2 : ¬ (i : ℕ) = j + 1 := by omega
      simp only [a1, a2, if_false]
      by_cases h3 : j = (i : ℕ) + 1
      · simp [h3]
      · simp [h3]
  rw [Finset.sum_congr rfl key, Finset.sum_add_distrib, Finset.sum_add_distrib, Finset.sum_ite_eq, if_pos (mem_range.2 hi), Finset.sum_ite_eq']
  have h3 : ∑ j ∈ range (m + 1), (if (i : ℕ) = j + 1 then -f j else 0) = if 0 < (i : ℕ) then -f (i - 1) else 0 := by
    by_cases h0 : 0 < (i : ℕ)
    · rw [if_pos h0]
      have e : ∀ j ∈ range (m + 1), (if (i : ℕ) = j + 1 then -f j else 0) = if j = (i : ℕ) - 1 then -f j else 0 := by
        intro j _
        by_cases h : (i : ℕ) = j + 1
        · rw [if_pos h, if_pos (by omega)]
        · rw [if_neg h, if_neg (by omega)]
      rw [Finset.sum_congr rfl e, Finset.sum_ite_eq', if_pos (mem_range.2 (by omega))]
    · rw [if_neg h0]
      refine Finset.sum_eq_zero fun j _ => if_neg (by omega)
  rw [h3]
  unfold Nm.chainForce
  have hfi := hf i
  by_cases c1 : (i : ℕ) < m
  · have hfs : x ⟨i + 1, by omega⟩ = f (i + 1) := hf ⟨i + 1, by omega⟩
    rw [dif_pos c1, if_pos c1, if_pos (mem_range.2 (by omega)), hfs, hfi]
    by_cases c2 : 0 < (i : ℕ)
    · have hfp : x ⟨i - 1, by omega⟩ = f (i - 1) := hf ⟨i - 1, by omega⟩
      rw [if_pos c2, if_pos c2, if_pos c2, hfp]
      ring
    · rw [if_neg c2, if_neg c2, if_neg c2]
      ring
  · rw [dif_neg c1, if_neg c1, if_neg (fun hh : (i : ℕ) + 1 ∈ range (m + 1) => c1 (by rw [mem_range] at hh; omega))]
    by_cases c2 : 0 < (i : ℕ)
    · have hfp : x ⟨i - 1, by omega⟩ = f (i - 1) := hf ⟨i - 1, by omega⟩
      rw [if_pos c2, if_pos c2, if_pos c2, hfp, hfi]
      ring
    · omega

/-- With the default discretisation the spring Hessian gives exactly the change of the gradient for every movement. -/
theorem spring_hessian_exact {D : ℕ} (ω : ℝ) (μ : ℕ → ℝ) (q v : Fin (m + 1) → Fin D → ℝ) (i : Fin (m + 1)) (c : Fin D) :
    springG ω (fun c : Fin D => μ c) (fun i c => q i c + v i c) i c = springG ω (fun c : Fin D => μ c) q i c
      + ∑ j : Fin (m + 1), ∑ d : Fin D, springH (m + 1) (ω ^ 2) μ (fun _ => 1) i c j d * v j d := by
  have h1 : ∑ j : Fin (m + 1), ∑ d : Fin D, springH (m + 1) (ω ^ 2) μ (fun _ => 1) i c j d * v j d =
      μ c * ω ^ 2 * ∑ j : Fin (m + 1), lap (m + 1) (fun _ => 1) i j * v j c := by
    rw [Finset.mul_sum]
    refine Finset.sum_congr rfl fun j _ => ?_
    rw [Finset.sum_eq_single c]
    · unfold springH
      rw [if_pos rfl]
      ring
    · intro d _ hd
      unfold springH
      rw [if_neg (fun h => hd (Fin.ext h.symm)), zero_mul]
    · intro h
      exact absurd (Finset.mem_univ c) h
  rw [h1, lap_uniform, ← springG_chain ω (fun c : Fin D => μ c) v i c]
  unfold springG
  rw [← mul_add, ← Finset.sum_add_distrib]
  congr 1
  refine Finset.sum_congr rfl fun k _ => ?_
  have := modes_line q v 1 k c
  simp only [one_mul] at this
  rw [this]
  ring

/-- With other coefficients the spring Hessian is not the derivative of the gradient, which does not contain them. -/
theorem spring_hessian_nonuniform : ∃ (coef : ℕ → ℝ) (v : Fin 2 → Fin 1 → ℝ), (∀ i, 0 < coef i) ∧
    springG 1 (fun _ : Fin 1 => 1) v 0 0 ≠ ∑ j : Fin 2, ∑ d : Fin 1, springH 2 1 (fun _ => 1) coef 0 0 j d * v j d := by
  refine ⟨fun _ => 2, ![fun _ => 1, fun _ => 0], fun _ => two_pos, ?_⟩
  rw [springG_chain]
  simp [Nm.chainForce, springH, lap]

end Springs

/-! ### The physical part -/

/-- With the default discretisation a harmonic potential gives its force constant, as the derivative of the gradient requires. -/
theorem physical_hessian_exact (k b d x : ℝ) (hd : d ≠ 0) (i : ℕ) :
    physH (fun _ => 1) (fun _ _ _ => hessEntry (fun _ => 1) (fun x => k * x + b) i d x) i 0 i 0 = k ∧
    ∀ y, physG (fun _ => 1) (fun x => k * x + b) i (x + y) = physG (fun _ => 1) (fun x => k * x + b) i x + k * y := by
  constructor
  · unfold physH hessEntry physG scale
    rw [if_pos rfl]
    field_simp
    ring
  · intro y
    unfold physG scale
    ring

/-- With other coefficients the physical part is scaled twice: the gradient has the slope `k * scale`, the Hessian the entry `k * scale ^ 2`. -/
theorem physical_scaled_twice (coef : ℕ → ℝ) (k b d x : ℝ) (hd : d ≠ 0) (i : ℕ) :
    physH coef (fun _ _ _ => hessEntry coef (fun x => k * x + b) i d x) i 0 i 0 = k * scale coef i ^ 2 ∧
    ∀ y, physG coef (fun x => k * x + b) i (x + y) = physG coef (fun x => k * x + b) i x + k * scale coef i * y := by
  constructor
  · unfold physH hessEntry physG scale
    rw [if_pos rfl]
    field_simp
    ring
  · intro y
    unfold physG scale
    ring

theorem physical_hessian_nonuniform : ∃ coef : ℕ → ℝ, (∀ i, 0 < coef i) ∧
    physH coef (fun _ _ _ => hessEntry coef (fun x => 1 * x + 0) 0 1 0) 0 0 0 0 ≠ 1 * scale coef 0 := by
  refine ⟨fun _ => 2, fun _ => two_pos, ?_⟩
  rw [(physical_scaled_twice (fun _ => 2) 1 0 1 0 one_ne_zero 0).1]
  unfold scale
  norm_num

/-! ### Band storage -/

/-- The complete Hessian of `Nichols`, with the number added to the diagonal in the band version. -/
noncomputable def complete (n : ℕ) (ω2 : ℝ) (μ coef : ℕ → ℝ) (h : ℕ → ℕ → ℕ → ℝ) (shift : ℝ) (i c j d : ℕ) : ℝ :=
  springH n ω2 μ coef i c j d + physH coef h i c j d + if i = j ∧ c = d then shift else 0

/-- The band holds the entries of the complete Hessian, for any discretisation and at least three beads: the entry of row `i, c` and column `j, d` on or above
the diagonal is in the row `D` minus their distance. -/
theorem band_entry (n D : ℕ) (hn : 3 ≤ n) (ω2 : ℝ) (μ coef : ℕ → ℝ) (h : ℕ → ℕ → ℕ → ℝ) (shift : ℝ) (i c j d : ℕ) (hj : j < n) (hc : c < D) (hd : d < D)
    (hle : i * D + c ≤ j * D + d) (hD : j * D + d - (i * D + c) ≤ D) :
    band n D ω2 μ coef h shift (D - (j * D + d - (i * D + c))) j d = complete n ω2 μ coef h shift i c j d := by
  have hij : i = j ∨ j = i + 1 := by
    by_contra hcon
    push Not at hcon
    rcases Nat.lt_trichotomy i j with hlt | heq | hgt
    · have h2 : i + 2 ≤ j := by omega
      have h3 : (i + 2) * D ≤ j * D := Nat.mul_le_mul_right D h2
      have h4 : (i + 2) * D = i * D + D + D := by ring
      omega
    · exact hcon.1 heq
    · have h3 : (j + 1) * D ≤ i * D := Nat.mul_le_mul_right D hgt
      have h4 : (j + 1) * D = j * D + D := by ring
      omega
  have hn1 : 1 < n := by omega
  have hnn : ¬ n = 1 := by omega
  unfold band complete
  simp only [hn1, if_true]
  rcases hij with hij | hij
  · subst hij
    have hcd : c ≤ d := by omega
    have ho : i * D + d - (i * D + c) = d - c := by omega
    rw [ho]
    have hr0 : ¬ D - (d - c) = 0 := by omega
    have hr1 : 1 ≤ D - (d - c) ∧ D - (D - (d - c)) ≤ d := by omega
    have hdd : d - (D - (D - (d - c))) = c := by omega
    rw [if_neg hr0, if_pos hr1, hdd]
    unfold physH
    rw [if_pos rfl]
    by_cases hcd' : c = d
    · subst hcd'
      have : D - (c - c) = D := by omega
      rw [if_pos this, if_pos ⟨rfl, rfl⟩]
      unfold springH lap bandDiag
      have a1 : ¬ i = i + 1 := by omega
      simp only [if_true, hnn, if_false, a1, add_zero]
      by_cases b1 : i = 0
      · subst b1
        have : ¬ 0 = n - 1 := by omega
        simp [this]
        ring
      · by_cases b2 : i = n - 1
        · have b3 : ¬ (1 ≤ i ∧ i < n - 1) := by omega
          simp only [b1, b3, if_false, zero_add, add_zero]
          rw [if_pos b2, if_pos b2]
          ring
        · have b3 : 1 ≤ i ∧ i < n - 1 := by omega
          simp only [b1, b2, b3, and_self, if_true, if_false, zero_add]
          ring
    · have : ¬ D - (d - c) = D := by omega
      rw [if_neg this, if_neg (fun h => hcd' h.2)]
      unfold springH
      rw [if_neg hcd']
      ring
  · subst hij
    have hm : (i + 1) * D = i * D + D := by ring
    rw [hm] at hle hD ⊢
    have hdc : d ≤ c := by omega
    have ho : i * D + D + d - (i * D + c) = D + d - c := by omega
    rw [ho]
    have hij' : ¬ i = i + 1 := by omega
    unfold physH
    have hij2 : ¬ (i = i + 1 ∧ c = d) := fun h => hij' h.1
    simp only [if_neg hij', if_neg hij2]
    by_cases hcd : c = d
    · subst hcd
      have hr : D - (D + c - c) = 0 := by omega
      rw [if_pos hr, if_neg (by omega)]
      unfold springH lap
      have a1 : ¬ i = i + 1 + 1 := by omega
      simp only [if_true, hnn, hij', if_false, a1, add_zero, zero_add]
      ring
    · have hr : ¬ D - (D + d - c) = 0 := by omega
      have hr2 : ¬ D - (D + d - c) = D := by omega
      have hr3 : ¬ (1 ≤ D - (D + d - c) ∧ D - (D - (D + d - c)) ≤ d) := by omega
      rw [if_neg hr, if_neg hr2, if_neg hr3]
      unfold springH
      rw [if_neg hcd]
      ring

/-- The complete Hessian has no entries outside the band. -/
theorem band_complete (n D : ℕ) (ω2 : ℝ) (μ coef : ℕ → ℝ) (h : ℕ → ℕ → ℕ → ℝ) (shift : ℝ) (i c j d : ℕ) (hd : d < D)
    (hlt : i * D + c + D < j * D + d) : complete n ω2 μ coef h shift i c j d = 0 := by
  have h1 : i ≠ j := by
    intro e
    subst e
    omega
  have h4 : ¬ i = j + 1 := by
    intro e
    subst e
    have : (j + 1) * D = j * D + D := by ring
    omega
  unfold complete springH physH lap
  have h1' : ¬ (i = j ∧ c = d) := fun h => h1 h.1
  rw [if_neg h1, if_neg h1']
  by_cases hcd : c = d
  · have h3 : ¬ j = i + 1 := by
      intro e
      subst e
      have : (i + 1) * D = i * D + D := by ring
      omega
    simp [h1, h3, h4]
  · simp [hcd, h1]

/-- The complete Hessian is symmetric if the physical one is, so that the upper half is enough. -/
theorem complete_symm (n : ℕ) (ω2 : ℝ) (μ coef : ℕ → ℝ) (h : ℕ → ℕ → ℕ → ℝ) (hh : ∀ a i b, h a i b = h b i a) (shift : ℝ) (i c j d : ℕ) :
    complete n ω2 μ coef h shift i c j d = complete n ω2 μ coef h shift j d i c := by
  have l : lap n coef i j = lap n coef j i := by
    unfold lap
    by_cases hn : n = 1
    · simp [hn]
    · by_cases e : i = j
      · subst e; rfl
      · have e' : ¬ j = i := fun h => e h.symm
        simp only [hn, e, e', if_false]
        ring
  unfold complete springH physH
  by_cases e : i = j
  · subst e
    by_cases e2 : c = d
    · subst e2; rfl
    · have e2' : ¬ d = c := fun h => e2 h.symm
      simp only [e2, e2', if_true, if_false, and_false, hh c i d]
  · have e' : ¬ j = i := fun h => e h.symm
    by_cases e2 : c = d
    · subst e2
      simp only [e, e', if_true, if_false, false_and, l]
    · have e2' : ¬ d = c := fun h => e2 h.symm
      simp only [e, e', e2, e2', if_false, false_and]

/-- The full band used for the solution of the equations: the entry of row `a` and column `b` is in the row `u + a - b`, as the library requires, for a
symmetric matrix `M` whose upper half is in the band `A`. -/
theorem sym_band_entry (u : ℕ) (A : ℕ → ℕ → ℝ) (M : ℕ → ℕ → ℝ) (hM : ∀ a b, M a b = M b a) (hA : ∀ a b, a ≤ b → b - a ≤ u → A (u - (b - a)) b = M a b)
    (a b : ℕ) (h1 : b ≤ a + u) (h2 : a ≤ b + u) : symBand u A (u + a - b) b = M a b := by
  unfold symBand
  by_cases h : u + a - b ≤ u
  · rw [if_pos h]
    have : u + a - b = u - (b - a) := by omega
    rw [this]
    exact hA a b (by omega) (by omega)
  · rw [if_neg h]
    have e1 : u - (u + a - b - u) = u - (a - b) := by omega
    have e2 : b + (u + a - b - u) = a := by omega
    rw [e1, e2, hA b a (by omega) (by omega)]
    exact hM b a

/-- The construction of the band fails for two beads, and for no other number. -/
theorem band_two_beads (n : ℕ) : bandRaises n = true ↔ n = 2 := by
  unfold bandRaises diagPieces
  simp only [Bool.and_eq_true, decide_eq_true_eq, bne_iff_ne, ne_eq]
  omega

example : band 3 1 1 (fun _ => 1) (fun _ => 1) (fun _ _ _ => 5) 0 1 1 0 = 7 := by
  simp [band, bandDiag]; norm_num

/-! ### Friction -/

section Friction

variable {m : ℕ}

lemma fricPath_line (s : ℝ) (q v : Fin (m + 1) → ℝ) (t : ℝ) (k : Fin (m + 1)) :
    Nm.apply (Nm.mkONm (m + 1)) (fricPath s fun i => q i + t * v i) k
      = Nm.apply (Nm.mkONm (m + 1)) (fricPath s q) k + t * Nm.apply (Nm.mkONm (m + 1)) (fricPath s v) k := by
  unfold Nm.apply fricPath
  rw [Finset.mul_sum, ← Finset.sum_add_distrib]
  exact Finset.sum_congr rfl fun j _ => by ring

/-- The rows of the other modes have no component along the movement of all the beads. -/
lemma row_sum (k : Fin (m + 1)) (hk : k ≠ 0) : ∑ i, Nm.mkONm (m + 1) k i = 0 := by
  have horth : Nm.mkONm (m + 1) * (Nm.mkONm (m + 1)).transpose = 1 := (Nm.o_nm_orthogonal (m + 1)).1
  have h := congrFun (congrFun horth k) 0
  rw [Matrix.mul_apply, Matrix.one_apply_ne hk] at h
  have e : ∀ i, Nm.mkONm (m + 1) k i * (Nm.mkONm (m + 1)).transpose i 0 = Nm.mkONm (m + 1) k i * (1 / √((m + 1 : ℕ) : ℝ)) := by
    intro i
    congr 1
  rw [Finset.sum_congr rfl fun i _ => e i, ← Finset.sum_mul] at h
  rcases mul_eq_zero.1 h with h1 | h1
  · exact h1
  · exfalso
    have : (0 : ℝ) < 1 / √((m + 1 : ℕ) : ℝ) := by positivity
    exact this.ne' h1

lemma fric_dir (lt : Fin (m + 1) → ℝ) (h0 : lt 0 = 0) (s : ℝ) (q v : Fin (m + 1) → ℝ) :
    ∑ i, fricG lt s q i * v i = ∑ k, lt k * (Nm.apply (Nm.mkONm (m + 1)) (fricPath s q) k * Nm.apply (Nm.mkONm (m + 1)) (fricPath s v) k) := by
  have e : ∀ i, fricG lt s q i * v i = ∑ k, lt k * (Nm.apply (Nm.mkONm (m + 1)) (fricPath s q) k * (s * (Nm.mkONm (m + 1) k i * v i))) := by
    intro i
    unfold fricG
    rw [Finset.mul_sum, Finset.sum_mul]
    exact Finset.sum_congr rfl fun k _ => by ring
  rw [Finset.sum_congr rfl fun i _ => e i, Finset.sum_comm]
  refine Finset.sum_congr rfl fun k _ => ?_
  by_cases hk : k = 0
  · subst hk
    simp [h0]
  · rw [← Finset.mul_sum, ← Finset.mul_sum]
    congr 2
    have e2 : Nm.apply (Nm.mkONm (m + 1)) (fricPath s v) k = ∑ i, s * (Nm.mkONm (m + 1) k i * v i) - s * v 0 * ∑ i, Nm.mkONm (m + 1) k i := by
      unfold Nm.apply fricPath
      rw [Finset.mul_sum, ← Finset.sum_sub_distrib]
      exact Finset.sum_congr rfl fun i _ => by ring
    rw [e2, row_sum k hk]
    ring

/-- The friction gradient is the derivative of the friction energy along every movement; the mode of frequency zero has no friction. -/
theorem friction_gradient (lt : Fin (m + 1) → ℝ) (h0 : lt 0 = 0) (s : ℝ) (q v : Fin (m + 1) → ℝ) :
    HasDerivAt (fun t : ℝ => fricE lt s (fun i => q i + t * v i)) (∑ i, fricG lt s q i * v i) 0 := by
  have h : (fun t : ℝ => fricE lt s (fun i => q i + t * v i)) =
      fun t => fricE lt s q + t * (∑ i, fricG lt s q i * v i) + t ^ 2 * fricE lt s v := by
    funext t
    rw [fric_dir lt h0]
    unfold fricE
    simp only [fricPath_line]
    rw [Finset.mul_sum, Finset.mul_sum, Finset.mul_sum, Finset.mul_sum, Finset.mul_sum, ← Finset.sum_add_distrib, ← Finset.sum_add_distrib]
    exact Finset.sum_congr rfl fun k _ => by ring
  rw [h]
  exact quad _ _ _

/-- The energy of the optimiser contains the friction once for every bead. -/
theorem friction_energy_counted (V : ℝ → ℝ) (lt : Fin (m + 1) → ℝ) (s : ℝ) (q : Fin (m + 1) → ℝ) :
    mapperE V lt s q = ∑ i, V (q i) + (m + 1 : ℝ) * fricE lt s q := by
  unfold mapperE
  rw [Finset.sum_add_distrib, Finset.sum_const, Finset.card_univ, Fintype.card_fin, nsmul_eq_mul]
  push_cast
  rfl

/-- So its gradient is not the derivative of its energy. -/
theorem friction_energy_inconsistent (lt : Fin (m + 1) → ℝ) (h0 : lt 0 = 0) (s : ℝ) (q v : Fin (m + 1) → ℝ) (hm : m ≠ 0)
    (hv : ∑ i, fricG lt s q i * v i ≠ 0) :
    ¬ HasDerivAt (fun t : ℝ => mapperE (fun _ => 0) lt s (fun i => q i + t * v i)) (∑ i, mapperG (fun _ => 0) lt s q i * v i) 0 := by
  intro h
  have h1 := (friction_gradient lt h0 s q v).const_mul (m + 1 : ℝ)
  have h2 : (fun t : ℝ => mapperE (fun _ => 0) lt s (fun i => q i + t * v i)) = fun t => (m + 1 : ℝ) * fricE lt s (fun i => q i + t * v i) := by
    funext t
    rw [friction_energy_counted]
    simp
  rw [h2] at h
  have h3 := h.unique h1
  have h4 : ∑ i, mapperG (fun _ => 0) lt s q i * v i = ∑ i, fricG lt s q i * v i := by
    unfold mapperG
    simp
  rw [h4] at h3
  have h5 : (m : ℝ) * ∑ i, fricG lt s q i * v i = 0 := by linarith
  rcases mul_eq_zero.1 h5 with h6 | h6
  · exact hm (by exact_mod_cast h6)
  · exact hv h6

/-- There are such paths: two beads at different positions. -/
example : ∑ i, fricG (m := 1) (fun k => if k = 0 then 0 else 1) 1 ![0, 1] i * (![0, 1] : Fin 2 → ℝ) i ≠ 0 := by
  rw [fric_dir _ (by simp)]
  have h : Nm.mkONm 2 1 1 ≠ 0 := by
    unfold Nm.mkONm Nm.oEntry
    have e : Real.pi * (((1 : Fin 2) : ℕ) + 1 / 2 : ℝ) * ((1 : Fin 2) : ℕ) / (2 : ℕ) = Real.pi - Real.pi / 4 := by
      push_cast
      simp
      ring
    rw [if_neg (by decide), e, Real.cos_pi_sub, Real.cos_pi_div_four]
    have : (0 : ℝ) < √2 := by positivity
    have h2 : (0 : ℝ) < √((2 : ℕ) : ℝ) := by positivity
    have : √2 * -(√2 / 2) / √((2 : ℕ) : ℝ) < 0 := by
      apply div_neg_of_neg_of_pos _ h2
      nlinarith
    exact this.ne
  simp [Fin.sum_univ_two, Nm.apply, fricPath, h]

/-- The contributions from the derivatives of the friction have no effect on the Hessian: they are overwritten. -/
theorem friction_derivatives_lost (beads : List ℕ) (diag diag' : ℕ → ℝ) (cross : ℕ → ℕ → ℝ) :
    fricHessian beads diag cross = fricHessian beads diag' cross := by
  have key : ∀ (l : List (ℕ × ℕ)) (h h' : ℕ × ℕ → ℝ) (b : ℕ × ℕ), (b ∈ l ∨ h b = h' b) →
      l.foldl (fun h b => Function.update h b (cross b.1 b.2)) h b = l.foldl (fun h b => Function.update h b (cross b.1 b.2)) h' b := by
    intro l
    induction l with
    | nil =>
      intro h h' b hb
      simpa using hb
    | cons a l ih =>
      intro h h' b hb
      rw [List.foldl_cons, List.foldl_cons]
      apply ih
      by_cases hba : b = a
      · right
        subst hba
        simp
      · rcases hb with hb | hb
        · left
          simpa [hba] using hb
        · right
          simp [hba, hb]
  have out : ∀ (l : List ℕ) (d : ℕ → ℝ) (h : ℕ × ℕ → ℝ) (b : ℕ × ℕ), (∀ n ∈ l, b ≠ (n, n)) →
      l.foldl (fun h n => Function.update h (n, n) (d n)) h b = h b := by
    intro l d
    induction l with
    | nil => intro h b _; rfl
    | cons a l ih =>
      intro h b hb
      rw [List.foldl_cons, ih _ b fun n hn => hb n (by simp [hn])]
      simp [hb a (by simp)]
  funext b
  unfold fricHessian
  apply key
  by_cases hb : ∀ n ∈ beads, b ≠ (n, n)
  · right
    rw [out beads diag _ b hb, out beads diag' _ b hb]
  · left
    push Not at hb
    obtain ⟨n, hn, rfl⟩ := hb
    simp [hn]

end Friction

end Verif.Instanton
