import Verif.FF.Committee
import Mathlib.Tactic.Ring
import Mathlib.Tactic.FieldSimp
import Mathlib.Tactic.LinearCombination
import Mathlib.Tactic.FinCases
import Mathlib.Algebra.BigOperators.Field
import Mathlib.Algebra.BigOperators.Fin
import Mathlib.Analysis.Calculus.Deriv.Add
import Mathlib.Analysis.Calculus.Deriv.Mul
/-
C61: averaging over rotations leaves the results of a rotationally equivariant force field unchanged, whatever the grid, the random
rotation and the weights; and for any force field energy and forces of the average are consistent.
-/
namespace Verif.Committee
variable {K : Type}

/-- `R` is orthogonal: `Rᵀ R = 1` and `R Rᵀ = 1`. -/
structure Ortho [Field K] (R : Fin 3 → Fin 3 → K) : Prop where
  tr : ∀ i j, R 0 i * R 0 j + R 1 i * R 1 j + R 2 i * R 2 j = if i = j then 1 else 0
  rt : ∀ i j, R i 0 * R j 0 + R i 1 * R j 1 + R i 2 * R j 2 = if i = j then 1 else 0

/-- Products of orthogonal matrices and their inversions are orthogonal. -/
theorem Ortho.mulM [Field K] {A B : Fin 3 → Fin 3 → K} (hA : Ortho A) (hB : Ortho B) : Ortho (Committee.mulM A B) := by
  constructor
  · intro i j
    have h00 := hA.tr 0 0; have h01 := hA.tr 0 1; have h02 := hA.tr 0 2; have h11 := hA.tr 1 1; have h12 := hA.tr 1 2; have h22 := hA.tr 2 2
    have hb := hB.tr i j
    simp only [if_true, show (0 : Fin 3) ≠ 1 by decide, show (0 : Fin 3) ≠ 2 by decide, show (1 : Fin 3) ≠ 2 by decide, if_false] at h00 h01 h02 h11 h12 h22
    rw [← hb]
    unfold Committee.mulM
    linear_combination B 0 i * B 0 j * h00 + B 1 i * B 1 j * h11 + B 2 i * B 2 j * h22 + (B 0 i * B 1 j + B 1 i * B 0 j) * h01 +
      (B 0 i * B 2 j + B 2 i * B 0 j) * h02 + (B 1 i * B 2 j + B 2 i * B 1 j) * h12
  · intro i j
    have h00 := hB.rt 0 0; have h01 := hB.rt 0 1; have h02 := hB.rt 0 2; have h11 := hB.rt 1 1; have h12 := hB.rt 1 2; have h22 := hB.rt 2 2
    have ha := hA.rt i j
    simp only [if_true, show (0 : Fin 3) ≠ 1 by decide, show (0 : Fin 3) ≠ 2 by decide, show (1 : Fin 3) ≠ 2 by decide, if_false] at h00 h01 h02 h11 h12 h22
    rw [← ha]
    unfold Committee.mulM
    linear_combination A i 0 * A j 0 * h00 + A i 1 * A j 1 * h11 + A i 2 * A j 2 * h22 + (A i 0 * A j 1 + A i 1 * A j 0) * h01 +
      (A i 0 * A j 2 + A i 2 * A j 0) * h02 + (A i 1 * A j 2 + A i 2 * A j 1) * h12

theorem Ortho.neg [Field K] {A : Fin 3 → Fin 3 → K} (hA : Ortho A) : Ortho (fun i j => - A i j) :=
  ⟨fun i j => by rw [← hA.tr i j]; ring, fun i j => by rw [← hA.rt i j]; ring⟩

theorem evaluations_ortho [Field K] (inversion : Bool) (Rr : Fin 3 → Fin 3 → K) (grid : List ((Fin 3 → Fin 3 → K) × K)) (hr : Ortho Rr)
    (hg : ∀ x ∈ grid, Ortho x.1) : ∀ x ∈ evaluations inversion Rr grid, Ortho x.1 := by
  intro x hx
  unfold evaluations at hx
  obtain ⟨y, hy, hx⟩ := List.mem_flatMap.1 hx
  have := (hg y hy).mulM hr
  cases inversion
  · simp at hx; subst hx; exact this
  · simp at hx
    rcases hx with rfl | rfl
    · exact this
    · exact this.neg

theorem rotateBack_rotate [Field K] {α : Type} {R : Fin 3 → Fin 3 → K} (h : Ortho R) (f : α → Fin 3 → K) : rotateBack R (rotate R f) = f := by
  funext a i
  have h0 := h.tr i 0; have h1 := h.tr i 1; have h2 := h.tr i 2
  unfold rotateBack rotate tmulV mulV
  have : f a i = (if i = 0 then 1 else 0) * f a 0 + (if i = 1 then 1 else 0) * f a 1 + (if i = 2 then 1 else 0) * f a 2 := by
    fin_cases i <;> simp
  rw [this]
  linear_combination f a 0 * h0 + f a 1 * h1 + f a 2 * h2

/-- A symmetric-free statement for the virial: a tensor rotated forth, `R W Rᵀ`, and back is unchanged. -/
def rotateVirForth [Field K] (R : Fin 3 → Fin 3 → K) (v : Fin 3 → Fin 3 → K) : Fin 3 → Fin 3 → K := fun i j => ∑ k : Fin 3, ∑ l : Fin 3, R i k * v k l * R j l

theorem rotateVir_forth [Field K] {R : Fin 3 → Fin 3 → K} (h : Ortho R) (v : Fin 3 → Fin 3 → K) : rotateVir R (rotateVirForth R v) = v := by
  funext i j
  have key : rotateVir R (rotateVirForth R v) i j = ∑ m : Fin 3, ∑ n : Fin 3,
      (R 0 i * R 0 m + R 1 i * R 1 m + R 2 i * R 2 m) * v m n * (R 0 n * R 0 j + R 1 n * R 1 j + R 2 n * R 2 j) := by
    unfold rotateVir rotateVirForth
    simp only [Fin.sum_univ_three]
    ring
  have key' : ∑ m : Fin 3, ∑ n : Fin 3,
      (R 0 i * R 0 m + R 1 i * R 1 m + R 2 i * R 2 m) * v m n * (R 0 n * R 0 j + R 1 n * R 1 j + R 2 n * R 2 j) =
      ∑ m : Fin 3, ∑ n : Fin 3, (if i = m then 1 else 0) * v m n * (if n = j then 1 else 0) := by
    apply Finset.sum_congr rfl; intro m _
    apply Finset.sum_congr rfl; intro n _
    rw [h.tr i m, h.tr n j]
  rw [key, key']
  simp

theorem wmean_const [Field K] {α : Type} (c : K) (l : List (α × K)) (hw : (l.map (·.2)).sum ≠ 0) : wmean (l.map fun x => (c, x.2)) = c := by
  unfold wmean
  rw [List.map_map, List.map_map]
  have : ∀ l : List (α × K), (l.map ((fun xw : K × K => xw.1 * xw.2) ∘ fun x => (c, x.2))).sum = c * (l.map (·.2)).sum := by
    intro l
    induction l with
    | nil => simp
    | cons a l ih => simp only [List.map_cons, List.sum_cons, ih, Function.comp_apply]; ring
  rw [this]
  have h2 : (l.map ((fun xw : K × K => xw.2) ∘ fun x => (c, x.2))).sum = (l.map (·.2)).sum := rfl
  rw [h2]
  field_simp

/-- For a force field that respects rotations (positions and cell rotated together: same energy, rotated forces, rotated virial), the
average over any grid of rotations, with or without random rotation and inversion and with any weights of non-zero sum, returns the
force field's own energy, forces and virial. -/
theorem equivariant_unchanged [Field K] {α : Type} (V : (α → Fin 3 → K) → (Fin 3 → Fin 3 → K) → K)
    (F : (α → Fin 3 → K) → (Fin 3 → Fin 3 → K) → α → Fin 3 → K) (W : (α → Fin 3 → K) → (Fin 3 → Fin 3 → K) → Fin 3 → Fin 3 → K)
    (hV : ∀ R q h, Ortho R → V (rotate R q) (mulM R h) = V q h) (hF : ∀ R q h, Ortho R → F (rotate R q) (mulM R h) = rotate R (F q h))
    (hW : ∀ R q h, Ortho R → W (rotate R q) (mulM R h) = rotateVirForth R (W q h))
    (inversion : Bool) (Rr : Fin 3 → Fin 3 → K) (grid : List ((Fin 3 → Fin 3 → K) × K)) (hr : Ortho Rr) (hg : ∀ x ∈ grid, Ortho x.1)
    (hw : (grid.map (·.2)).sum ≠ 0) (h2 : (2 : K) ≠ 0) (q : α → Fin 3 → K) (h : Fin 3 → Fin 3 → K) :
    rotAverage V F W (evaluations inversion Rr grid) q h = (V q h, F q h, W q h) := by
  have ho := evaluations_ortho inversion Rr grid hr hg
  have hw' : ((evaluations inversion Rr grid).map (·.2)).sum ≠ 0 := by
    have : ((evaluations inversion Rr grid).map (·.2)).sum = (if inversion then 2 else 1) * (grid.map (·.2)).sum := by
      unfold evaluations
      clear hw hg ho
      induction grid with
      | nil => simp
      | cons x l ih =>
        rw [List.flatMap_cons, List.map_append, List.sum_append, ih, List.map_cons, List.sum_cons]
        cases inversion
        · simp
        · simp; ring
    rw [this]
    cases inversion
    · simpa using hw
    · simpa using ⟨h2, hw⟩
  generalize evaluations inversion Rr grid = evs at ho hw'
  unfold rotAverage
  have congr' : ∀ (g : (Fin 3 → Fin 3 → K) → K) (c : K), (∀ R, Ortho R → g R = c) → wmean (evs.map fun x => (g x.1, x.2)) = c := by
    intro g c hgc
    rw [← wmean_const c evs hw']
    congr 1
    apply List.map_congr_left
    intro x hx
    rw [hgc x.1 (ho x hx)]
  refine Prod.ext ?_ (Prod.ext ?_ ?_)
  · exact congr' (fun R => V (rotate R q) (mulM R h)) _ fun R hR => hV R q h hR
  · funext a i
    exact congr' (fun R => rotateBack R (F (rotate R q) (mulM R h)) a i) _ fun R hR => by rw [hF R q h hR, rotateBack_rotate hR]
  · funext i j
    exact congr' (fun R => rotateVir R (W (rotate R q) (mulM R h)) i j) _ fun R hR => by rw [hW R q h hR, rotateVir_forth hR]

/-- A rotation by a quarter turn is orthogonal, so the hypotheses on the grid can be met by something other than the identity. -/
example : Ortho (K := ℚ) (fun i j => if i = 0 ∧ j = 1 then -1 else if i = 1 ∧ j = 0 then 1 else if i = 2 ∧ j = 2 then 1 else 0) := by
  constructor <;> decide +kernel

/-- A force field meeting the invariance hypothesis on the energy: the sum of squared positions of one atom. -/
example (R q : Fin 3 → Fin 3 → ℚ) (hR : Ortho R) : ∑ i, (rotate R q 0 i) ^ 2 = ∑ i, (q 0 i) ^ 2 := by
  have h00 := hR.tr 0 0; have h01 := hR.tr 0 1; have h02 := hR.tr 0 2; have h11 := hR.tr 1 1; have h12 := hR.tr 1 2; have h22 := hR.tr 2 2
  simp only [if_true, show (0 : Fin 3) ≠ 1 by decide, show (0 : Fin 3) ≠ 2 by decide, show (1 : Fin 3) ≠ 2 by decide, if_false] at h00 h01 h02 h11 h12 h22
  simp only [Fin.sum_univ_three, rotate, mulV]
  linear_combination q 0 0 ^ 2 * h00 + q 0 1 ^ 2 * h11 + q 0 2 ^ 2 * h22 + 2 * q 0 0 * q 0 1 * h01 + 2 * q 0 0 * q 0 2 * h02 + 2 * q 0 1 * q 0 2 * h12

/-- For any force field whose forces are minus the gradient of its energy, equivariant or not, the averaged force is minus the gradient
of the averaged energy. `d` is an arbitrary direction of displacement; the forces act on finitely many atoms `Fin n`. -/
theorem average_force_is_gradient {n : ℕ} (V : (Fin n → Fin 3 → ℝ) → (Fin 3 → Fin 3 → ℝ) → ℝ)
    (F : (Fin n → Fin 3 → ℝ) → (Fin 3 → Fin 3 → ℝ) → Fin n → Fin 3 → ℝ) (W : (Fin n → Fin 3 → ℝ) → (Fin 3 → Fin 3 → ℝ) → Fin 3 → Fin 3 → ℝ)
    (hF : ∀ q h (d : Fin n → Fin 3 → ℝ), HasDerivAt (fun t : ℝ => V (fun a i => q a i + t * d a i) h) (-∑ a, ∑ i, F q h a i * d a i) 0)
    (evs : List ((Fin 3 → Fin 3 → ℝ) × ℝ)) (q d : Fin n → Fin 3 → ℝ) (h : Fin 3 → Fin 3 → ℝ) :
    HasDerivAt (fun t : ℝ => (rotAverage V F W evs (fun a i => q a i + t * d a i) h).1)
      (-∑ a, ∑ i, (rotAverage V F W evs q h).2.1 a i * d a i) 0 := by
  have hlin : ∀ (R : Fin 3 → Fin 3 → ℝ) (t : ℝ), rotate R (fun a i => q a i + t * d a i) = fun a i => rotate R q a i + t * rotate R d a i := by
    intro R t; funext a i; unfold rotate mulV; ring
  have hone : ∀ R, HasDerivAt (fun t : ℝ => V (rotate R fun a i => q a i + t * d a i) (mulM R h))
      (-∑ a, ∑ i, rotateBack R (F (rotate R q) (mulM R h)) a i * d a i) 0 := by
    intro R
    simp only [hlin R]
    refine HasDerivAt.congr_deriv (hF (rotate R q) (mulM R h) (rotate R d)) ?_
    congr 1
    apply Finset.sum_congr rfl
    intro a _
    simp only [Fin.sum_univ_three, rotateBack, tmulV, rotate, mulV]
    ring
  simp only [rotAverage, wmean, List.map_map, Function.comp_def]
  have hsum : ∀ l : List ((Fin 3 → Fin 3 → ℝ) × ℝ), HasDerivAt (fun t : ℝ => (l.map fun x => V (rotate x.1 fun a i => q a i + t * d a i) (mulM x.1 h) * x.2).sum)
      (-∑ a, ∑ i, (l.map fun x => rotateBack x.1 (F (rotate x.1 q) (mulM x.1 h)) a i * x.2).sum * d a i) 0 := by
    intro l
    induction l with
    | nil => simpa using hasDerivAt_const (0 : ℝ) (0 : ℝ)
    | cons x l ih =>
      simp only [List.map_cons, List.sum_cons]
      refine HasDerivAt.congr_deriv (((hone x.1).mul_const x.2).add ih) ?_
      rw [neg_mul, ← neg_add, Finset.sum_mul, ← Finset.sum_add_distrib]
      congr 1
      apply Finset.sum_congr rfl
      intro a _
      rw [Finset.sum_mul, ← Finset.sum_add_distrib]
      apply Finset.sum_congr rfl
      intro i _
      ring
  refine HasDerivAt.congr_deriv ((hsum evs).div_const _) ?_
  rw [neg_div, Finset.sum_div]
  congr 1
  apply Finset.sum_congr rfl
  intro a _
  rw [Finset.sum_div]
  apply Finset.sum_congr rfl
  intro i _
  ring

end Verif.Committee
