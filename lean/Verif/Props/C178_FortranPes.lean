import Verif.FF.FortranPes
import Mathlib.Analysis.Calculus.Deriv.Add
import Mathlib.Analysis.Calculus.Deriv.Mul
import Mathlib.Analysis.Calculus.Deriv.Pow
import Mathlib.Analysis.Calculus.Deriv.Inv
import Mathlib.Analysis.SpecialFunctions.Sqrt
import Mathlib.Analysis.SpecialFunctions.ExpDeriv
import Mathlib.Algebra.BigOperators.Fin
import Mathlib.Algebra.BigOperators.Intervals

/-!
# C178: the model potentials of the Fortran driver return the forces of their energies
-/

namespace Verif.F90

/-- The forces `F` are minus the gradient of the energy `V` of `natoms` atoms at `q`: along every direction `u`. -/
def MinusGradient (natoms : ℕ) (V : (ℕ → V3) → ℝ) (F : ℕ → V3) (q : ℕ → V3) : Prop :=
  ∀ u : ℕ → V3, HasDerivAt (fun t : ℝ => V fun a k => q a k + t * u a k)
    (-∑ a ∈ Finset.range natoms, ∑ k, F a k * u a k) 0

/-- The virial `W` is minus the derivative of the energy `V` when the atoms are strained: `q + t e` with
`e` taking component `l` to component `k`. -/
def MinusStrain (V : (ℕ → V3) → ℝ) (W : M3) (q : ℕ → V3) (k l : Fin 3) : Prop :=
  HasDerivAt (fun t : ℝ => V fun a m => q a m + t * (if m = k then q a l else 0)) (-W k l) 0

/-! ### Tools -/

theorem line (x u : ℝ) : HasDerivAt (fun t : ℝ => x + t * u) u 0 :=
  ((hasDerivAt_id (0 : ℝ)).mul_const u |>.const_add x).congr_deriv (by simp)

theorem line_comp {f : ℝ → ℝ} {f' : ℝ} (x u : ℝ) (hf : HasDerivAt f f' x) :
    HasDerivAt (fun t : ℝ => f (x + t * u)) (f' * u) 0 := by
  have h : HasDerivAt f f' (x + 0 * u) := by simpa using hf
  exact h.comp 0 (line x u)

theorem loop_eq (n : ℕ) (c : ℝ) (f : ℕ → ℝ) : loop n c f = c + ∑ i ∈ Finset.range n, f i := by
  unfold loop
  induction n with
  | zero => simp
  | succ n ih => rw [List.range_succ, List.foldl_append, ih, Finset.sum_range_succ]; simp [add_assoc]

/-- A loop over the atoms that adds to the energy and sets the forces. -/
theorem fold_separable (n : ℕ) (v : ℕ → ℝ) (f : ℕ → V3) (step : ℝ × (ℕ → V3) → ℕ → ℝ × (ℕ → V3))
    (hs : ∀ s i, step s i = (s.1 + v i, fun j => if j = i then f i else s.2 j)) :
    (List.range n).foldl step (0, fun _ _ => 0)
      = (∑ i ∈ Finset.range n, v i, fun j => if j < n then f j else fun _ => 0) := by
  induction n with
  | zero => simp
  | succ n ih =>
    rw [List.range_succ, List.foldl_append, ih, Finset.sum_range_succ]
    simp only [List.foldl_cons, List.foldl_nil, hs, Prod.mk.injEq, true_and]
    funext j
    by_cases h : j = n
    · subst h; simp
    · have : (j < n + 1) = (j < n) := by simp only [eq_iff_iff]; omega
      simp only [h, if_false, this]

/-- An energy that is a sum over atoms. -/
theorem gradient_sum {n : ℕ} {V : (ℕ → V3) → ℝ} {F : ℕ → V3} {v : ℕ → V3 → ℝ} {q : ℕ → V3}
    (hV : ∀ q, V q = ∑ i ∈ Finset.range n, v i (q i))
    (hd : ∀ i < n, ∀ u : V3, HasDerivAt (fun t : ℝ => v i fun k => q i k + t * u k) (-∑ k, F i k * u k) 0) :
    MinusGradient n V F q := by
  intro u
  have e : (fun t : ℝ => V fun a k => q a k + t * u a k)
      = fun t => ∑ i ∈ Finset.range n, v i fun k => q i k + t * u i k := by funext t; rw [hV]
  rw [e, ← Finset.sum_neg_distrib]
  exact HasDerivAt.fun_sum fun i hi => hd i (Finset.mem_range.1 hi) (u i)

/-! ### `harm`, `harm3d`, `linear` -/

/-- **C178.** The harmonic potential of one coordinate. -/
theorem harm_gradient (ks : ℝ) {natoms : ℕ} (hn : 0 < natoms) (q : ℕ → V3) :
    MinusGradient natoms (fun q => (harm ks q).pot) (harm ks q).forces q := by
  intro u
  have h := (line_comp (q 0 0) (u 0 0) (((hasDerivAt_id (q 0 0)).fun_pow 2).const_mul (0.5 * ks)))
  refine h.congr_deriv ?_
  rw [Finset.sum_eq_single_of_mem 0 (Finset.mem_range.2 hn)
    (by intro a _ ha; simp [harm, ha]), Fin.sum_univ_three]
  simp [harm, -mul_eq_mul_right_iff, -mul_eq_mul_left_iff]
  ring

/-- **C178.** The diagonal of its virial. -/
theorem harm_virial_partial (ks : ℝ) (q : ℕ → V3) (k : Fin 3) :
    MinusStrain (fun q => (harm ks q).pot) (harm ks q).virial q k k := by
  unfold MinusStrain
  have h := (line_comp (q 0 0) (if (0 : Fin 3) = k then q 0 k else 0)
    (((hasDerivAt_id (q 0 0)).fun_pow 2).const_mul (0.5 * ks)))
  refine h.congr_deriv ?_
  by_cases hk : k = 0
  · subst hk
    simp [harm, -mul_eq_mul_right_iff, -mul_eq_mul_left_iff]; ring
  · have : ¬ (0 : Fin 3) = k := fun h => hk h.symm
    simp [harm, hk, this]

/-- The code disagrees with the property: the part of the virial that belongs to a shear is left out. -/
theorem harm_virial_shear {ks : ℝ} (hk : ks ≠ 0) {q : ℕ → V3} (hx : q 0 0 ≠ 0) (hy : q 0 1 ≠ 0) :
    ¬ MinusStrain (fun q => (harm ks q).pot) (harm ks q).virial q 0 1 := by
  intro h
  have h' := (line_comp (q 0 0) (q 0 1) (((hasDerivAt_id (q 0 0)).fun_pow 2).const_mul (0.5 * ks)))
  have e := HasDerivAt.unique h (h'.congr_of_eventuallyEq (Filter.Eventually.of_forall fun t => by simp [harm]))
  simp [harm] at e
  norm_num at e
  exact e.elim (fun e => e.elim (fun e => hk e) hx) hy

/-- **C178.** The harmonic potential of all coordinates. -/
theorem harm3d_eq (ks : ℝ) (natoms : ℕ) (q : ℕ → V3) :
    harm3d ks natoms q = ⟨∑ i ∈ Finset.range natoms, ∑ k, 0.5 * ks * q i k ^ 2,
      fun i k => if i < natoms then -ks * q i k else 0,
      Matrix.of fun k l => ∑ i ∈ Finset.range natoms, -ks * q i k * q i l⟩ := by
  unfold harm3d
  induction natoms with
  | zero => simp; rfl
  | succ n ih =>
    rw [List.range_succ, List.foldl_append, ih]
    simp only [List.foldl_cons, List.foldl_nil, Finset.sum_range_succ, Fin.sum_univ_three, Res.mk.injEq, Matrix.of_apply]
    refine ⟨by ring, ?_, trivial⟩
    funext j k
    by_cases h : j = n
    · subst h; simp
    · have : (j < n + 1) = (j < n) := by simp only [eq_iff_iff]; omega
      simp only [h, if_false, this]

/-- **C178.** Its forces. -/
theorem harm3d_gradient (ks : ℝ) (natoms : ℕ) (q : ℕ → V3) :
    MinusGradient natoms (fun q => (harm3d ks natoms q).pot) (harm3d ks natoms q).forces q := by
  refine gradient_sum (v := fun _ x => ∑ k, 0.5 * ks * x k ^ 2) (fun q => by rw [harm3d_eq]) fun i hi u => ?_
  refine (HasDerivAt.fun_sum (u := Finset.univ) fun k _ =>
    line_comp (q i k) (u k) (((hasDerivAt_id (q i k)).fun_pow 2).const_mul (0.5 * ks))).congr_deriv ?_
  rw [harm3d_eq, ← Finset.sum_neg_distrib]
  refine Finset.sum_congr rfl fun k _ => ?_
  simp [hi, -mul_eq_mul_right_iff, -mul_eq_mul_left_iff]
  ring

/-- **C178.** Its virial, for every strain. -/
theorem harm3d_virial (ks : ℝ) (natoms : ℕ) (q : ℕ → V3) (k l : Fin 3) :
    MinusStrain (fun q => (harm3d ks natoms q).pot) (harm3d ks natoms q).virial q k l := by
  have h := harm3d_gradient ks natoms q (fun a m => if m = k then q a l else 0)
  refine h.congr_deriv ?_
  rw [harm3d_eq]
  simp only [Matrix.of_apply, neg_inj]
  refine Finset.sum_congr rfl fun i hi => ?_
  simp [Finset.mem_range.1 hi]

/-- **C178.** The linear potential. -/
theorem linear_gradient (ks : ℝ) {natoms : ℕ} (hn : 0 < natoms) (q : ℕ → V3) :
    MinusGradient natoms (fun q => (linear ks q).pot) (linear ks q).forces q := by
  intro u
  have h := (line_comp (q 0 0) (u 0 0) ((hasDerivAt_id (q 0 0)).const_mul ks))
  refine h.congr_deriv ?_
  rw [Finset.sum_eq_single_of_mem 0 (Finset.mem_range.2 hn)
    (by intro a _ ha; simp [linear, ha]), Fin.sum_univ_three]
  simp [linear]

/-! ### Morse -/

theorem morseV_derivative (r0 D a r : ℝ) :
    HasDerivAt (morseV r0 D a) (2 * a * D * (Real.exp (-a * (r - r0)) - Real.exp (-2 * a * (r - r0)))) r := by
  have h1 := (((hasDerivAt_id r).sub_const r0).const_mul (-2 * a)).exp
  have h2 := (((hasDerivAt_id r).sub_const r0).const_mul (-a)).exp
  refine ((h1.fun_sub (h2.const_mul 2)).const_mul D).congr_deriv ?_
  simp only [id]
  ring

/-- The length of a vector along a line. -/
theorem hasDerivAt_norm (d u : V3) (hd : d ≠ 0) :
    HasDerivAt (fun t : ℝ => √((d 0 + t * u 0) ^ 2 + (d 1 + t * u 1) ^ 2 + (d 2 + t * u 2) ^ 2))
      ((∑ k, d k * u k) / √(d 0 ^ 2 + d 1 ^ 2 + d 2 ^ 2)) 0 := by
  have hp : d 0 ^ 2 + d 1 ^ 2 + d 2 ^ 2 ≠ 0 := by
    intro h
    apply hd
    funext k
    have h0 : d 0 = 0 := by nlinarith [sq_nonneg (d 0), sq_nonneg (d 1), sq_nonneg (d 2)]
    have h1 : d 1 = 0 := by nlinarith [sq_nonneg (d 0), sq_nonneg (d 1), sq_nonneg (d 2)]
    have h2 : d 2 = 0 := by nlinarith [sq_nonneg (d 0), sq_nonneg (d 1), sq_nonneg (d 2)]
    fin_cases k <;> assumption
  have h := (((line (d 0) (u 0)).fun_pow 2).fun_add ((line (d 1) (u 1)).fun_pow 2)).fun_add ((line (d 2) (u 2)).fun_pow 2)
  have h' := h.sqrt (by simpa using hp)
  refine h'.congr_deriv ?_
  rw [Fin.sum_univ_three]
  simp only [zero_mul, add_zero, Nat.cast_ofNat, Nat.reduceSub, pow_one]
  have hs : √(d 0 ^ 2 + d 1 ^ 2 + d 2 ^ 2) ≠ 0 := by
    rw [Real.sqrt_ne_zero (by positivity)]; exact hp
  field_simp

/-- **C178.** Morse potential about the origin. -/
theorem morse_gradient (r0 D a : ℝ) (q : ℕ → V3) (hq : q 0 ≠ 0) :
    MinusGradient 1 (fun q => (morse r0 D a (q 0)).1) (fun _ => (morse r0 D a (q 0)).2) q := by
  intro u
  have hn := hasDerivAt_norm (q 0) (u 0) hq
  have h := (morseV_derivative r0 D a (√((q 0 0 + 0 * u 0 0) ^ 2 + (q 0 1 + 0 * u 0 1) ^ 2 + (q 0 2 + 0 * u 0 2) ^ 2))).comp 0 hn
  refine h.congr_deriv ?_
  simp only [Finset.range_one, Finset.sum_singleton, Fin.sum_univ_three, morse, zero_mul, add_zero]
  ring

/-- **C178.** Morse potential between two atoms. -/
theorem morsedia_gradient (r0 D a : ℝ) (q : ℕ → V3) (hq : q 0 ≠ q 1) :
    MinusGradient 2 (fun q => (morsedia r0 D a q).1) (morsedia r0 D a q).2 q := by
  intro u
  have hn := hasDerivAt_norm (fun k => q 0 k - q 1 k) (fun k => u 0 k - u 1 k)
    (fun h => hq (funext fun k => sub_eq_zero.1 (congrFun h k)))
  have h := (morseV_derivative r0 D a (√((q 0 0 - q 1 0 + 0 * (u 0 0 - u 1 0)) ^ 2
    + (q 0 1 - q 1 1 + 0 * (u 0 1 - u 1 1)) ^ 2 + (q 0 2 - q 1 2 + 0 * (u 0 2 - u 1 2)) ^ 2))).comp 0 hn
  refine (h.congr_of_eventuallyEq (Filter.Eventually.of_forall fun t => ?_)).congr_deriv ?_
  · simp only [morsedia, Function.comp]
    congr 2
    ring
  · simp only [Finset.sum_range_succ, Finset.range_zero, Finset.sum_empty, Fin.sum_univ_three, morsedia, zero_mul, add_zero,
      if_true, one_ne_zero, if_false]
    ring

/-! ### Double wells -/

theorem dw_term (x u : ℝ) : HasDerivAt (fun t : ℝ => dwA * (x + t * u) ^ 2 + dwB * (x + t * u) ^ 4) (-(dwF x * u)) 0 := by
  refine (line_comp x u ((((hasDerivAt_id x).fun_pow 2).const_mul dwA).fun_add
    (((hasDerivAt_id x).fun_pow 4).const_mul dwB))).congr_deriv ?_
  simp only [id, dwF, Nat.cast_ofNat, Nat.reduceSub]
  ring

theorem kH_term (x u : ℝ) : HasDerivAt (fun t : ℝ => 0.5 * kH * (x + t * u) ^ 2) (-(-kH * x * u)) 0 := by
  refine (line_comp x u (((hasDerivAt_id x).fun_pow 2).const_mul (0.5 * kH))).congr_deriv ?_
  simp only [id, Nat.cast_ofNat, Nat.reduceSub]
  ring

/-- **C178.** The double well. -/
theorem doublewell_gradient (natoms : ℕ) (q : ℕ → V3) :
    MinusGradient natoms (fun q => (doublewell natoms q).1) (doublewell natoms q).2 q := by
  have e : ∀ q, doublewell natoms q = (∑ i ∈ Finset.range natoms, ((dwA * q i 0 ^ 2 + dwB * q i 0 ^ 4)
      + (dwA * q i 1 ^ 2 + dwB * q i 1 ^ 4) + (dwA * q i 2 ^ 2 + dwB * q i 2 ^ 4)),
      fun j => if j < natoms then ![dwF (q j 0), dwF (q j 1), dwF (q j 2)] else fun _ => 0) := by
    intro q
    exact fold_separable natoms _ (fun i => ![dwF (q i 0), dwF (q i 1), dwF (q i 2)]) _
      (fun s i => by simp only [Prod.mk.injEq, and_true]; ring)
  refine gradient_sum (v := fun _ x => (dwA * x 0 ^ 2 + dwB * x 0 ^ 4) + (dwA * x 1 ^ 2 + dwB * x 1 ^ 4)
    + (dwA * x 2 ^ 2 + dwB * x 2 ^ 4)) (fun q => by rw [e]) fun i hi u => ?_
  refine (((dw_term (q i 0) (u 0)).fun_add (dw_term (q i 1) (u 1))).fun_add (dw_term (q i 2) (u 2))).congr_deriv ?_
  rw [e, Fin.sum_univ_three]
  simp only [hi, if_true, Matrix.cons_val_zero, Matrix.cons_val_one, Matrix.cons_val]
  ring

/-- **C178.** The double well along one component, for one atom. -/
theorem doublewell1D_gradient_partial (q : ℕ → V3) :
    MinusGradient 1 (fun q => (doublewell1D 1 q).1) (doublewell1D 1 q).2 q := by
  intro u
  refine ((((kH_term (q 0 1) (u 0 1)).const_add 0).fun_add (kH_term (q 0 2) (u 0 2))).fun_add
    (dw_term (q 0 0) (u 0 0))).congr_deriv ?_
  simp only [doublewell1D, List.range_one, List.foldl_cons, List.foldl_nil, Finset.range_one, Finset.sum_singleton,
    Fin.sum_univ_three, if_true, Matrix.cons_val_zero, Matrix.cons_val_one, Matrix.cons_val]
  ring

/-- The energy for several atoms is that of the last one. -/
theorem doublewell1D_last (n : ℕ) (q : ℕ → V3) :
    (doublewell1D (n + 1) q).1 = 0 + 0.5 * kH * q n 1 ^ 2 + 0.5 * kH * q n 2 ^ 2 + (dwA * q n 0 ^ 2 + dwB * q n 0 ^ 4) := by
  unfold doublewell1D
  rw [List.range_succ, List.foldl_append]
  rfl

/-- The forces for several atoms. -/
theorem doublewell1D_forces (n : ℕ) (q : ℕ → V3) (i : ℕ) (hi : i < n) :
    (doublewell1D n q).2 i = ![dwF (q i 0), -kH * q i 1, -kH * q i 2] := by
  unfold doublewell1D
  induction n with
  | zero => omega
  | succ n ih =>
    rw [List.range_succ, List.foldl_append]
    simp only [List.foldl_cons, List.foldl_nil]
    by_cases h : i = n
    · simp [h]
    · rw [if_neg h]; exact ih (by omega)

/-- The code disagrees with the property: with two atoms or more, an atom that is not the last one and is off the axis has a
force, but the energy does not depend on its position. -/
theorem doublewell1D_several {n : ℕ} (hn : 2 ≤ n) {q : ℕ → V3} (hq : q 0 1 ≠ 0) :
    ¬ MinusGradient n (fun q => (doublewell1D n q).1) (doublewell1D n q).2 q := by
  intro h
  obtain ⟨n, rfl⟩ : ∃ m, n = m + 2 := ⟨n - 2, by omega⟩
  have h1 := h fun a k => if a = 0 ∧ k = 1 then 1 else 0
  simp only [doublewell1D_last] at h1
  simp only [Nat.add_eq_zero_iff, one_ne_zero, and_false, false_and, if_false, mul_zero, add_zero] at h1
  have h2 := HasDerivAt.unique h1 (hasDerivAt_const _ _)
  rw [Finset.sum_eq_single_of_mem 0 (Finset.mem_range.2 (by omega)) (by intro a _ ha; simp [ha]),
    Fin.sum_univ_three, doublewell1D_forces _ _ _ (by omega)] at h2
  simp at h2
  rcases h2 with h2 | h2
  · unfold kH at h2; norm_num at h2
  · exact hq h2

/-! ### Eckart barrier -/

theorem eckart_term {A : ℝ} (hA : A ≠ 0) (AA BB x : ℝ) :
    HasDerivAt (fun x : ℝ => AA / (1 + Real.exp (-2 * x / A)) + BB / Real.cosh (x / A) ^ 2)
      ((AA * Real.exp (-2 * x / A) / (1 + Real.exp (-2 * x / A)) ^ 2
        + -BB * Real.sinh (x / A) / Real.cosh (x / A) ^ 3) * (2 / A)) x := by
  have he : HasDerivAt (fun x : ℝ => 1 + Real.exp (-2 * x / A)) (Real.exp (-2 * x / A) * (-2 / A)) x := by
    have := ((((hasDerivAt_id x).const_mul (-2)).div_const A).exp).const_add 1
    simpa using this
  have hc : HasDerivAt (fun x : ℝ => Real.cosh (x / A)) (Real.sinh (x / A) * (1 / A)) x := by
    exact (Real.hasDerivAt_cosh (x / A)).comp x ((hasDerivAt_id x).div_const A)
  have h1 : (1 + Real.exp (-2 * x / A)) ≠ 0 := by positivity
  have h2 : Real.cosh (x / A) ≠ 0 := (Real.cosh_pos _).ne'
  have h := ((hasDerivAt_const x AA).fun_div he h1).fun_add
    ((hasDerivAt_const x BB).fun_div (hc.fun_pow 2) (pow_ne_zero 2 h2))
  refine h.congr_deriv ?_
  generalize Real.exp (-2 * x / A) = E at *
  generalize Real.cosh (x / A) = C at *
  generalize Real.sinh (x / A) = S at *
  simp only [Nat.cast_ofNat, Nat.reduceSub, pow_one]
  field_simp
  ring

/-- **C178.** The Eckart barrier, with a harmonic potential for the other coordinates. -/
theorem eckart_gradient {A : ℝ} (hA : A ≠ 0) (AA BB k : ℝ) (natoms : ℕ) (q : ℕ → V3) :
    MinusGradient natoms (fun q => (eckart AA A BB k natoms q).1) (eckart AA A BB k natoms q).2 q := by
  have e : ∀ q, eckart AA A BB k natoms q = (∑ i ∈ Finset.range natoms,
      ((if i = 0 then AA / (1 + Real.exp (-2 * q i 0 / A)) + BB / Real.cosh (q i 0 / A) ^ 2 else 0.5 * k * q i 0 ^ 2)
        + 0.5 * k * q i 1 ^ 2 + 0.5 * k * q i 2 ^ 2),
      fun j => if j < natoms then ![if j = 0 then -(AA * Real.exp (-2 * q j 0 / A) / (1 + Real.exp (-2 * q j 0 / A)) ^ 2
        + -BB * Real.sinh (q j 0 / A) / Real.cosh (q j 0 / A) ^ 3) * (2 / A) else -k * q j 0, -k * q j 1, -k * q j 2]
        else fun _ => 0) := by
    intro q
    unfold eckart
    induction natoms with
    | zero => simp
    | succ n ih =>
      rw [List.range_succ, List.foldl_append, ih, Finset.sum_range_succ]
      simp only [List.foldl_cons, List.foldl_nil, Prod.mk.injEq]
      constructor
      · by_cases h : n = 0
        · subst h; simp
        · simp only [h, if_false]; ring
      · funext j
        by_cases h : j = n
        · subst h
          by_cases h0 : j = 0
          · subst h0; simp
          · simp [h0]
        · have : (j < n + 1) = (j < n) := by simp only [eq_iff_iff]; omega
          simp only [h, if_false, this]
  refine gradient_sum (v := fun i x => (if i = 0 then AA / (1 + Real.exp (-2 * x 0 / A)) + BB / Real.cosh (x 0 / A) ^ 2
    else 0.5 * k * x 0 ^ 2) + 0.5 * k * x 1 ^ 2 + 0.5 * k * x 2 ^ 2) (fun q => by rw [e]) fun i hi u => ?_
  have hh : ∀ x u : ℝ, HasDerivAt (fun t : ℝ => 0.5 * k * (x + t * u) ^ 2) (-(-k * x * u)) 0 := by
    intro x u
    refine (line_comp x u (((hasDerivAt_id x).fun_pow 2).const_mul (0.5 * k))).congr_deriv ?_
    simp only [id, Nat.cast_ofNat, Nat.reduceSub]
    ring
  rw [e, Fin.sum_univ_three]
  by_cases h0 : i = 0
  · subst h0
    refine (((line_comp (q 0 0) (u 0) (eckart_term hA AA BB (q 0 0))).fun_add (hh (q 0 1) (u 1))).fun_add
      (hh (q 0 2) (u 2))).congr_deriv ?_
    simp only [hi, if_true, Matrix.cons_val_zero, Matrix.cons_val_one, Matrix.cons_val]
    ring
  · simp only [h0, if_false]
    refine (((hh (q i 0) (u 0)).fun_add (hh (q i 1) (u 1))).fun_add (hh (q i 2) (u 2))).congr_deriv ?_
    simp only [hi, if_true, Matrix.cons_val_zero, Matrix.cons_val_one, Matrix.cons_val]
    ring

/-! ### Mueller-Brown surface -/

theorem mbTerm_derivative (s : ℝ) (w : Fin 4) (x y u v : ℝ) :
    HasDerivAt (fun t : ℝ => (mbTerm s w (x + t * u) (y + t * v)).1)
      ((mbTerm s w x y).2.1 * u + (mbTerm s w x y).2.2 * v) 0 := by
  unfold mbTerm
  rcases mbPars w with ⟨A0, a, b, c, x0, y0⟩
  dsimp only
  have hx := (line x u).sub_const x0
  have hy := (line y v).sub_const y0
  have h := ((((hx.fun_pow 2).const_mul a).fun_add ((hx.const_mul b).fun_mul hy)).fun_add ((hy.fun_pow 2).const_mul c)).exp.const_mul (A0 * s)
  refine h.congr_deriv ?_
  simp only [zero_mul, add_zero, Nat.cast_ofNat, Nat.reduceSub, pow_one]
  ring

/-- **C178.** The Mueller-Brown surface. -/
theorem muellerBrown_gradient (s : ℝ) (q : ℕ → V3) :
    MinusGradient 1 (fun q => (muellerBrown s (q 0)).1) (fun _ => (muellerBrown s (q 0)).2) q := by
  intro u
  have h := fun w => mbTerm_derivative 0.004737803248674678 w (q 0 0) (q 0 1) (u 0 0) (u 0 1)
  refine (((((kH_term (q 0 2) (u 0 2)).fun_add (h 0)).fun_add (h 1)).fun_add (h 2)).fun_add (h 3)).congr_deriv ?_
  simp only [Finset.range_one, Finset.sum_singleton, Fin.sum_univ_three, muellerBrown, Matrix.cons_val_zero,
    Matrix.cons_val_one, Matrix.cons_val]
  ring

/-- The code disagrees with what the options say: the scaling given by the user has no effect. -/
theorem muellerBrown_scaling (s s' : ℝ) (q : V3) : muellerBrown s q = muellerBrown s' q := rfl

/-! ### Potential that depends on the orientation of water molecules -/

theorem noo3Pot_derivative (d u : V3) (hd : d ≠ 0) :
    HasDerivAt (fun t : ℝ => noo3Pot fun k => d k + t * u k) (-∑ k, noo3Grad d k * u k) 0 := by
  have hn := hasDerivAt_norm d u hd
  have hs : √(d 0 ^ 2 + d 1 ^ 2 + d 2 ^ 2) ≠ 0 := by
    intro h
    rw [Real.sqrt_eq_zero (by positivity)] at h
    apply hd
    funext k
    have h0 : d 0 = 0 := by nlinarith [sq_nonneg (d 0), sq_nonneg (d 1), sq_nonneg (d 2)]
    have h1 : d 1 = 0 := by nlinarith [sq_nonneg (d 0), sq_nonneg (d 1), sq_nonneg (d 2)]
    have h2 : d 2 = 0 := by nlinarith [sq_nonneg (d 0), sq_nonneg (d 1), sq_nonneg (d 2)]
    fin_cases k <;> assumption
  have hs2 : √(d 0 ^ 2 + d 1 ^ 2 + d 2 ^ 2) ^ 2 = d 0 ^ 2 + d 1 ^ 2 + d 2 ^ 2 := Real.sq_sqrt (by positivity)
  have hk : ∀ (k : Fin 3) (c : ℝ), HasDerivAt
      (fun t : ℝ => Real.exp ((d k + t * u k) / √((d 0 + t * u 0) ^ 2 + (d 1 + t * u 1) ^ 2 + (d 2 + t * u 2) ^ 2) * c))
      (Real.exp (d k / √(d 0 ^ 2 + d 1 ^ 2 + d 2 ^ 2) * c) * c
        * (u k * (d 0 ^ 2 + d 1 ^ 2 + d 2 ^ 2) - d k * ∑ k, d k * u k) / √(d 0 ^ 2 + d 1 ^ 2 + d 2 ^ 2) ^ 3) 0 := by
    intro k c
    have h := (((line (d k) (u k)).fun_div hn (by simpa using hs)).mul_const c).exp
    refine h.congr_deriv ?_
    simp only [zero_mul, add_zero]
    clear h hn
    generalize d 0 ^ 2 + d 1 ^ 2 + d 2 ^ 2 = N at *
    generalize √N = n at *
    subst hs2
    generalize ∑ k, d k * u k = S
    generalize Real.exp (d k / n * c) = E
    field_simp
  refine ((((hk 0 1).fun_add (hk 1 0.5)).fun_add (hk 2 2)).const_mul 2e-2).congr_deriv ?_
  simp only [Fin.sum_univ_three, noo3Grad, Matrix.cons_val_zero, Matrix.cons_val_one, Matrix.cons_val]
  generalize √(d 0 ^ 2 + d 1 ^ 2 + d 2 ^ 2) = n at *
  generalize Real.exp (d 0 / n * 1) = E0
  generalize Real.exp (d 1 / n * 0.5) = E1
  generalize Real.exp (d 2 / n * 2) = E2
  field_simp
  ring

/-- The forces of the loop over molecules. -/
theorem noo3_fold (nmol : ℕ) (q u : ℕ → V3) :
    (noo3 nmol q).1 = ∑ m ∈ Finset.range nmol, noo3Pot (noo3Dip q (3 * m))
    ∧ ∑ a ∈ Finset.range (3 * nmol), ∑ k, (noo3 nmol q).2 a k * u a k
      = ∑ m ∈ Finset.range nmol, ∑ k, noo3Grad (noo3Dip q (3 * m)) k * noo3Dip u (3 * m) k
    ∧ ∀ a, 3 * nmol ≤ a → (noo3 nmol q).2 a = fun _ => 0 := by
  induction nmol with
  | zero => simp [noo3]
  | succ n ih =>
    obtain ⟨h1, h2, h3⟩ := ih
    have e : noo3 (n + 1) q = ((noo3 n q).1 + noo3Pot (noo3Dip q (3 * n)), fun j k =>
        if j = 3 * n then (noo3 n q).2 j k - noo3Grad (noo3Dip q (3 * n)) k
        else if j = 3 * n + 1 then (noo3 n q).2 j k + noo3Grad (noo3Dip q (3 * n)) k * 0.5
        else if j = 3 * n + 2 then (noo3 n q).2 j k + noo3Grad (noo3Dip q (3 * n)) k * 0.5
        else (noo3 n q).2 j k) := by
      unfold noo3
      rw [List.range_succ, List.foldl_append]
      rfl
    rw [e]
    refine ⟨by rw [Finset.sum_range_succ, h1], ?_, ?_⟩
    · have hr : 3 * (n + 1) = 3 * n + 1 + 1 + 1 := by ring
      rw [hr, Finset.sum_range_succ, Finset.sum_range_succ, Finset.sum_range_succ, Finset.sum_range_succ, ← h2]
      have hz : ∀ a, 3 * n ≤ a → ∀ k, (noo3 n q).2 a k = 0 := fun a ha k => congrFun (h3 a ha) k
      have hc : ∑ a ∈ Finset.range (3 * n), ∑ k, (if a = 3 * n then (noo3 n q).2 a k - noo3Grad (noo3Dip q (3 * n)) k
          else if a = 3 * n + 1 then (noo3 n q).2 a k + noo3Grad (noo3Dip q (3 * n)) k * 0.5
          else if a = 3 * n + 2 then (noo3 n q).2 a k + noo3Grad (noo3Dip q (3 * n)) k * 0.5
          else (noo3 n q).2 a k) * u a k = ∑ a ∈ Finset.range (3 * n), ∑ k, (noo3 n q).2 a k * u a k := by
        refine Finset.sum_congr rfl fun a ha => Finset.sum_congr rfl fun k _ => ?_
        have := Finset.mem_range.1 ha
        rw [if_neg (by omega), if_neg (by omega), if_neg (by omega)]
      rw [hc]
      have hd : ∀ k, noo3Dip u (3 * n) k = 0.5 * (u (3 * n + 1) k + u (3 * n + 1 + 1) k) - u (3 * n) k := fun k => rfl
      simp only [Fin.sum_univ_three, hd, if_true, hz (3 * n) le_rfl, hz (3 * n + 1) (by omega), hz (3 * n + 1 + 1) (by omega),
        show ¬ 3 * n + 1 = 3 * n by omega, show ¬ 3 * n + 1 + 1 = 3 * n by omega, show ¬ 3 * n + 1 + 1 = 3 * n + 1 by omega,
        if_false]
      ring
    · intro a ha
      funext k
      dsimp only
      rw [if_neg (by omega), if_neg (by omega), if_neg (by omega), h3 a (by omega)]

/-- **C178.** The potential that depends on the orientation of water molecules. -/
theorem noo3_gradient (nmol : ℕ) (q : ℕ → V3) (hd : ∀ m < nmol, noo3Dip q (3 * m) ≠ 0) :
    MinusGradient (3 * nmol) (fun q => (noo3 nmol q).1) (noo3 nmol q).2 q := by
  intro u
  have e : (fun t : ℝ => (noo3 nmol fun a k => q a k + t * u a k).1)
      = fun t => ∑ m ∈ Finset.range nmol, noo3Pot fun k => noo3Dip q (3 * m) k + t * noo3Dip u (3 * m) k := by
    funext t
    rw [(noo3_fold nmol _ u).1]
    refine Finset.sum_congr rfl fun m _ => congrArg _ (funext fun k => ?_)
    unfold noo3Dip
    ring
  rw [e, (noo3_fold nmol q u).2.1, ← Finset.sum_neg_distrib]
  exact HasDerivAt.fun_sum fun m hm => noo3Pot_derivative _ _ (hd m (Finset.mem_range.1 hm))

/-! ### Electric field -/

theorem efield_pot (E : V3) (nmol : ℕ) (q : ℕ → V3) :
    (efield E nmol q).pot = ∑ m ∈ Finset.range nmol, ∑ k, E k * (1.1128 * efAlpha * q (3 * m) k
      + (1.1128 * efAlpha2 - 0.5 * 1.1128) * (q (3 * m + 1) k + q (3 * m + 2) k)) := by
  unfold efield
  dsimp only
  rw [loop_eq, zero_add]
  induction nmol with
  | zero => simp
  | succ n ih =>
    have hr : 3 * (n + 1) = 3 * n + 1 + 1 + 1 := by ring
    rw [hr, Finset.sum_range_succ, Finset.sum_range_succ, Finset.sum_range_succ, ih, Finset.sum_range_succ]
    have m0 : 3 * n % 3 = 0 := by omega
    have m1 : (3 * n + 1) % 3 ≠ 0 := by omega
    have m2 : (3 * n + 1 + 1) % 3 ≠ 0 := by omega
    simp only [dotProduct, Fin.sum_univ_three, efCharge, efSite, m0, m1, m2, if_true, if_false, Pi.smul_apply, smul_eq_mul,
      show 3 * n + 1 + 1 = 3 * n + 2 from rfl]
    ring

/-- Shifting all atoms together does not change the energy in the field: the molecules are neutral. -/
theorem efield_neutral (E c : V3) (nmol : ℕ) (q : ℕ → V3) :
    (efield E nmol fun a k => q a k + c k).pot = (efield E nmol q).pot := by
  rw [efield_pot, efield_pot]
  refine Finset.sum_congr rfl fun m _ => Finset.sum_congr rfl fun k _ => ?_
  unfold efAlpha2
  ring

theorem efield_forces (E : V3) (nmol : ℕ) (q u : ℕ → V3) :
    ∑ a ∈ Finset.range (3 * nmol), ∑ k, (efield E nmol q).forces a k * u a k = (efield E nmol u).pot := by
  rw [efield_pot]
  have e : ∀ a k, (efield E nmol q).forces a k = -efDvdr E a k := fun a k => rfl
  simp only [e]
  induction nmol with
  | zero => simp
  | succ n ih =>
    have hr : 3 * (n + 1) = 3 * n + 1 + 1 + 1 := by ring
    rw [hr, Finset.sum_range_succ, Finset.sum_range_succ, Finset.sum_range_succ, ih (fun _ _ => rfl), Finset.sum_range_succ]
    have m0 : 3 * n % 3 = 0 := by omega
    have m1 : (3 * n + 1) % 3 = 1 := by omega
    have m2 : (3 * n + 2) % 3 = 2 := by omega
    simp only [Fin.sum_univ_three, efCharge, efDvdr, m0, m1, m2, if_true, if_false, one_ne_zero, OfNat.ofNat_ne_zero,
      show 3 * n + 1 + 1 = 3 * n + 2 from rfl, Nat.add_sub_cancel]
    ring

/-- The code disagrees with the property: the forces of the electric field are the gradient of the energy, not minus the
gradient. -/
theorem efield_flipped (E : V3) (nmol : ℕ) (q u : ℕ → V3) :
    HasDerivAt (fun t : ℝ => (efield E nmol fun a k => q a k + t * u a k).pot)
      (∑ a ∈ Finset.range (3 * nmol), ∑ k, (efield E nmol q).forces a k * u a k) 0 := by
  rw [efield_forces]
  have e : ∀ t : ℝ, (efield E nmol fun a k => q a k + t * u a k).pot = (efield E nmol q).pot + t * (efield E nmol u).pot := by
    intro t
    simp only [efield_pot, Finset.mul_sum, ← Finset.sum_add_distrib]
    refine Finset.sum_congr rfl fun m _ => Finset.sum_congr rfl fun k _ => ?_
    ring
  simp only [e]
  exact line _ _

/-- So they are wrong whenever there is a field and a molecule. -/
theorem efield_gradient_false {E : V3} (hE : E ≠ 0) {nmol : ℕ} (hn : 0 < nmol) (q : ℕ → V3) :
    ¬ MinusGradient (3 * nmol) (fun q => (efield E nmol q).pot) (efield E nmol q).forces q := by
  intro h
  have h1 := HasDerivAt.unique (h fun a k => if a = 0 then E k else 0) (efield_flipped E nmol q _)
  rw [efield_forces, efield_pot, Finset.sum_eq_single_of_mem 0 (Finset.mem_range.2 hn)
    (by intro m _ hm; simp [hm])] at h1
  have h2 : E 0 ^ 2 + E 1 ^ 2 + E 2 ^ 2 = 0 := by
    simp only [Fin.sum_univ_three, mul_zero, zero_add, if_true, one_ne_zero, OfNat.ofNat_ne_zero, if_false, add_zero, efAlpha] at h1
    linarith
  apply hE
  funext k
  have h0 : E 0 = 0 := by nlinarith [sq_nonneg (E 0), sq_nonneg (E 1), sq_nonneg (E 2)]
  have h1 : E 1 = 0 := by nlinarith [sq_nonneg (E 0), sq_nonneg (E 1), sq_nonneg (E 2)]
  have h2 : E 2 = 0 := by nlinarith [sq_nonneg (E 0), sq_nonneg (E 1), sq_nonneg (E 2)]
  fin_cases k <;> assumption

/-- The virial of the electric field has its components exchanged: the one in row `k` and column `l` is that of the strain
`l`, `k`. -/
theorem efield_virial (E : V3) (nmol : ℕ) (q : ℕ → V3) (k l : Fin 3) :
    MinusStrain (fun q => (efield E nmol q).pot) (efield E nmol q).virial.transpose q k l := by
  unfold MinusStrain
  have h := efield_flipped E nmol q fun a m => if m = k then q a l else 0
  rw [efield_forces] at h
  refine h.congr_deriv ?_
  unfold efield
  simp only [Matrix.transpose_apply, Matrix.of_apply, loop_eq, zero_add, neg_mul, one_mul, neg_neg, ← Finset.sum_neg_distrib]
  refine Finset.sum_congr rfl fun i _ => ?_
  have hs : efSite (fun a m => if m = k then q a l else 0) i = fun m => if m = k then efSite q i l else 0 := by
    funext m
    unfold efSite
    by_cases hm : m = k <;> simp [hm]
  rw [hs]
  simp only [dotProduct, Pi.smul_apply, smul_eq_mul]
  rw [Finset.sum_eq_single k (by intro b _ hb; simp [hb]) (by simp)]
  simp
  ring

/-! ### Friction of the double wells -/

theorem foldl_writes_of_not_mem (l : List (ℕ × ℕ × ℝ)) (m : ℕ → ℕ → ℝ) (r c : ℕ) (h : ∀ w ∈ l, ¬ (r = w.1 ∧ c = w.2.1)) :
    l.foldl (fun m w => fun r c => if r = w.1 ∧ c = w.2.1 then w.2.2 else m r c) m r c = m r c := by
  induction l generalizing m with
  | nil => rfl
  | cons w l ih =>
    rw [List.foldl_cons, ih _ (fun w hw => h w (List.mem_cons_of_mem _ hw))]
    exact if_neg (h w (List.mem_cons_self ..))

theorem foldl_writes_of_mem (l : List (ℕ × ℕ × ℝ)) (m : ℕ → ℕ → ℝ) (r c : ℕ) (x : ℝ) (h : (r, c, x) ∈ l)
    (hx : ∀ w ∈ l, r = w.1 ∧ c = w.2.1 → w.2.2 = x) :
    l.foldl (fun m w => fun r c => if r = w.1 ∧ c = w.2.1 then w.2.2 else m r c) m r c = x := by
  induction l generalizing m with
  | nil => simp at h
  | cons w l ih =>
    rw [List.foldl_cons]
    by_cases hm : (r, c, x) ∈ l
    · exact ih _ hm fun w hw => hx w (List.mem_cons_of_mem _ hw)
    · by_cases ha : ∃ w ∈ l, r = w.1 ∧ c = w.2.1
      · obtain ⟨w', hw', e1, e2⟩ := ha
        have := hx w' (List.mem_cons_of_mem _ hw') ⟨e1, e2⟩
        exact absurd (by rw [e1, e2, ← this]; exact hw') hm
      · push Not at ha
        rw [foldl_writes_of_not_mem _ _ _ _ (fun w hw hc => ha w hw hc.1 hc.2)]
        rcases List.mem_cons.1 h with h | h
        · subst h; simp
        · exact absurd h hm

theorem mem_frictionWrites {natoms : ℕ} {q : ℕ → V3} {w : ℕ × ℕ × ℝ} :
    w ∈ frictionWrites natoms q ↔ ∃ i < natoms, ∃ j < natoms, ∃ qi qj : Fin 3,
      w = (i * natoms + (qi : ℕ), j * natoms + (qj : ℕ), q i qi * q j qj) := by
  simp only [frictionWrites, List.mem_flatMap, List.mem_range, List.mem_map, List.mem_finRange, true_and, eq_comm]

/-- **C178.** With one atom or with three, the friction between two coordinates is the product of the two coordinates. -/
theorem friction_partial {natoms : ℕ} (hn : natoms = 1 ∨ natoms = 3) (q : ℕ → V3) (old : ℕ → ℕ → ℝ) {i j : ℕ} (hi : i < natoms)
    (hj : j < natoms) (qi qj : Fin 3) :
    dwFriction natoms q old (3 * i + qi) (3 * j + qj) = q i qi * q j qj := by
  have hm : ∀ {a : ℕ}, a < natoms → a * natoms = 3 * a := by
    intro a ha
    rcases hn with rfl | rfl
    · have : a = 0 := by omega
      subst this; rfl
    · omega
  refine foldl_writes_of_mem _ _ _ _ _ (mem_frictionWrites.2 ⟨i, hi, j, hj, qi, qj, by rw [hm hi, hm hj]⟩) ?_
  intro w hw hc
  obtain ⟨i', hi', j', hj', qi', qj', rfl⟩ := mem_frictionWrites.1 hw
  dsimp only at hc ⊢
  rw [hm hi', hm hj'] at hc
  have e1 : i = i' := by omega
  have e2 : j = j' := by omega
  have e3 : qi = qi' := Fin.ext (by omega)
  have e4 : qj = qj' := Fin.ext (by omega)
  rw [e1, e2, e3, e4]

/-- The code disagrees with the property: with two atoms, the friction of the last coordinate is not set at all, … -/
theorem friction_two_unset (q : ℕ → V3) (old : ℕ → ℕ → ℝ) (c : ℕ) : dwFriction 2 q old 5 c = old 5 c := by
  refine foldl_writes_of_not_mem _ _ _ _ fun w hw hc => ?_
  obtain ⟨i, hi, j, hj, qi, qj, rfl⟩ := mem_frictionWrites.1 hw
  have := hc.1
  dsimp only at this
  omega

/-- … and with more than three atoms the routine writes outside the array. -/
theorem friction_outside {natoms : ℕ} (hn : 3 < natoms) (q : ℕ → V3) :
    ∃ w ∈ frictionWrites natoms q, 3 * natoms ≤ w.1 := by
  refine ⟨_, mem_frictionWrites.2 ⟨natoms - 1, by omega, 0, by omega, 2, 0, rfl⟩, ?_⟩
  obtain ⟨m, rfl⟩ : ∃ m, natoms = m + 4 := ⟨natoms - 4, by omega⟩
  have : m + 4 - 1 = m + 3 := by omega
  rw [this]
  show 3 * (m + 4) ≤ (m + 3) * (m + 4) + 2
  nlinarith

/-! ### London-Eyring-Polanyi-Sato potential -/

/-- One atom shifted along the first axis. -/
noncomputable def shiftX (atoms : Fin 3 → V3) (i : Fin 3) (step : ℝ) : Fin 3 → V3 :=
  Function.update atoms i ![atoms i 0 + step, atoms i 1, atoms i 2]

theorem moved_eq (atoms : Fin 3 → V3) (i : Fin 3) (step : ℝ) : lepsMoved atoms i step = shiftX atoms i step := by
  funext a k
  unfold lepsMoved shiftX
  by_cases h : a = i
  · subst h
    rw [Function.update_self]
    fin_cases k <;> simp
  · rw [Function.update_of_ne h]
    simp [h]

/-- The force along the first axis from the energies on both sides. -/
noncomputable def centralForce (V : (Fin 3 → V3) → ℝ) (atoms : Fin 3 → V3) (i : Fin 3) (step : ℝ) : ℝ :=
  -(V (shiftX atoms i step) - V (shiftX atoms i (-step))) / (2 * step)

/-- The first atom feels no force, and no atom one along the other axes. -/
theorem leps_no_force (atoms : Fin 3 → V3) (i k : Fin 3) (h : i = 0 ∨ k ≠ 0) : (lepsM1 atoms).2 i k = 0 := by
  simp only [lepsM1]
  rw [if_neg]
  rintro ⟨h1, h2⟩
  rcases h with h | h
  · exact h1 h
  · exact h h2

/-- Renaming the atoms around the ring, with the parameters of the pairs, leaves the energy as it is. -/
theorem leps_ring (acb d : Fin 3 → ℝ) (r0 alpha : ℝ) (r : Fin 3 → ℝ) :
    vLeps (fun i => acb (i + 1)) (fun i => d (i + 1)) r0 alpha (fun i => r (i + 1)) = vLeps acb d r0 alpha r := by
  have e : (2 : Fin 3) + 1 = 0 := rfl
  have e1 : (1 : Fin 3) + 1 = 2 := rfl
  have e0 : (0 : Fin 3) + 1 = 1 := rfl
  unfold vLeps
  simp only [e, e1, e0]
  congr 1
  · ring
  · congr 1
    ring

/-- The code disagrees with the property: the force of `lepsm1` has the wrong sign and half the size. -/
theorem leps_flipped (atoms : Fin 3 → V3) {i : Fin 3} (hi : i ≠ 0) :
    (lepsM1 atoms).2 i 0 = -(1 / 2) * centralForce (fun a => (lepsM1 a).1) atoms i 1e-4 := by
  simp only [lepsM1, centralForce, hi, ne_eq, not_false_eq_true, and_self, if_true, moved_eq]
  ring

/-- It drives the second and the third atom towards higher energies. -/
theorem leps_uphill (atoms : Fin 3 → V3) {i : Fin 3} (hi : i ≠ 0)
    (h : (lepsM1 (shiftX atoms i (-1e-4))).1 < (lepsM1 (shiftX atoms i 1e-4)).1) : 0 < (lepsM1 atoms).2 i 0 := by
  rw [leps_flipped atoms hi]
  unfold centralForce
  have : 0 < (lepsM1 (shiftX atoms i 1e-4)).1 - (lepsM1 (shiftX atoms i (-1e-4))).1 := sub_pos.2 h
  have h2 : 0 < ((lepsM1 (shiftX atoms i 1e-4)).1 - (lepsM1 (shiftX atoms i (-1e-4))).1) / (2 * 1e-4) := by positivity
  have e : ∀ x y : ℝ, -(1 / 2) * (-x / y) = 1 / 2 * (x / y) := by intro x y; ring
  rw [e]
  linarith

/-! ### Concrete cases -/

example : MinusGradient 2 (fun q => (morsedia 1 2 3 q).1) (morsedia 1 2 3 fun a _ => a).2 fun a _ => a :=
  morsedia_gradient 1 2 3 _ (fun h => by have := congrFun h 0; simp at this)

example : noo3Dip (fun a _ => (a : ℝ)) (3 * 1) ≠ 0 := fun h => by
  have := congrFun h 0
  simp [noo3Dip] at this
  norm_num at this

example : ¬ MinusGradient 3 (fun q => (efield (fun _ => 1) 1 q).pot) (efield (fun _ => 1) 1 fun _ _ => 0).forces fun _ _ => 0 :=
  efield_gradient_false (nmol := 1) (fun h => by have := congrFun h 0; simp at this) one_pos _

end Verif.F90
