import Verif.Phys.Rotations
import Verif.Phys.TrigSums
import Verif.Props.C61_RotationAverage
import Mathlib.Tactic.FinCases
import Mathlib.Tactic.Positivity
import Mathlib.Tactic.NormNum

/-
C139: the matrices of the grids and the random matrices are rotations, and the average over a grid does not depend on the
orientation.
-/
namespace Verif.Rot3
open Real Committee

/-- `R` is a proper rotation. -/
def Proper (R : Fin 3 → Fin 3 → ℝ) : Prop := Ortho R ∧ det R = 1
/-- `R` is a rotation followed by an inversion. -/
def Improper (R : Fin 3 → Fin 3 → ℝ) : Prop := Ortho R ∧ det R = -1

theorem det_mulM (A B : Fin 3 → Fin 3 → ℝ) : det (mulM A B) = det A * det B := by
  unfold det mulM; ring

theorem det_neg (A : Fin 3 → Fin 3 → ℝ) : det (fun i j => - A i j) = - det A := by
  unfold det; ring

theorem Proper.mul {A B : Fin 3 → Fin 3 → ℝ} (hA : Proper A) (hB : Proper B) : Proper (mulM A B) :=
  ⟨hA.1.mulM hB.1, by rw [det_mulM, hA.2, hB.2]; ring⟩

theorem one_proper : Proper one := by
  refine ⟨⟨?_, ?_⟩, ?_⟩
  · intro i j; fin_cases i <;> fin_cases j <;> simp [one]
  · intro i j; fin_cases i <;> fin_cases j <;> simp [one]
  · simp [det, one]

theorem rz_proper (t : ℝ) : Proper (rz t) := by
  have h := sin_sq_add_cos_sq t
  refine ⟨⟨?_, ?_⟩, ?_⟩
  · intro i j; fin_cases i <;> fin_cases j <;> simp [rz, rows] <;> nlinarith
  · intro i j; fin_cases i <;> fin_cases j <;> simp [rz, rows] <;> nlinarith
  · simp [det, rz, rows]; nlinarith

theorem rx_proper (t : ℝ) : Proper (rx t) := by
  have h := sin_sq_add_cos_sq t
  refine ⟨⟨?_, ?_⟩, ?_⟩
  · intro i j; fin_cases i <;> fin_cases j <;> simp [rx, rows] <;> nlinarith
  · intro i j; fin_cases i <;> fin_cases j <;> simp [rx, rows] <;> nlinarith
  · simp [det, rx, rows]; nlinarith

/-- Every matrix made of Euler angles is a proper rotation. -/
theorem euler_proper (a b c : ℝ) : Proper (euler a b c) := ((rz_proper c).mul (rx_proper b)).mul (rz_proper a)

/-- A unit quaternion gives a proper rotation. -/
theorem quat_proper (q : Fin 4 → ℝ) (h : q 0 ^ 2 + q 1 ^ 2 + q 2 ^ 2 + q 3 ^ 2 = 1) : Proper (quat2rot q) := by
  have h0 : q 0 ^ 2 = 1 - q 1 ^ 2 - q 2 ^ 2 - q 3 ^ 2 := by linarith
  refine ⟨⟨?_, ?_⟩, ?_⟩
  · intro i j
    fin_cases i <;> fin_cases j <;> simp [quat2rot, rows] <;> ring_nf <;> (try simp only [h0]) <;> ring
  · intro i j
    fin_cases i <;> fin_cases j <;> simp [quat2rot, rows] <;> ring_nf <;> (try simp only [h0]) <;> ring
  · simp [det, quat2rot, rows]
    ring_nf
    have h4 : q 0 ^ 4 = (1 - q 1 ^ 2 - q 2 ^ 2 - q 3 ^ 2) ^ 2 := by rw [← h0]; ring
    (try simp only [h4]); simp only [h0]; ring

/-- The random matrix is a proper rotation, or with `improper` and a small number the inversion of one. -/
theorem random_spec (g : Fin 4 → ℝ) (hg : ∃ i, g i ≠ 0) (u : ℝ) (imp : Bool) :
    (¬ (imp = true ∧ u < 1 / 2) → Proper (randomRotation g u imp)) ∧ ((imp = true ∧ u < 1 / 2) → Improper (randomRotation g u imp)) := by
  have hpos : 0 < g 0 ^ 2 + g 1 ^ 2 + g 2 ^ 2 + g 3 ^ 2 := by
    obtain ⟨i, hi⟩ := hg
    have := sq_nonneg (g 0); have := sq_nonneg (g 1); have := sq_nonneg (g 2); have := sq_nonneg (g 3)
    have hp : 0 < g i ^ 2 := by positivity
    fin_cases i <;> simp at hp ⊢ <;> nlinarith
  have hs := Real.sq_sqrt hpos.le
  have hs0 : sqrt (g 0 ^ 2 + g 1 ^ 2 + g 2 ^ 2 + g 3 ^ 2) ≠ 0 := (Real.sqrt_pos.2 hpos).ne'
  have hP : Proper (quat2rot fun i => g i / sqrt (g 0 ^ 2 + g 1 ^ 2 + g 2 ^ 2 + g 3 ^ 2)) := by
    apply quat_proper
    generalize sqrt (g 0 ^ 2 + g 1 ^ 2 + g 2 ^ 2 + g 3 ^ 2) = s at hs hs0 ⊢
    field_simp
    linarith
  constructor
  · intro h; unfold randomRotation; dsimp only; rw [if_neg h]; exact hP
  · intro h; unfold randomRotation; dsimp only; rw [if_pos h]
    have e : (fun i j => quat2rot (fun i => g i / sqrt (g 0 ^ 2 + g 1 ^ 2 + g 2 ^ 2 + g 3 ^ 2)) i j * (-1))
        = fun i j => - quat2rot (fun i => g i / sqrt (g 0 ^ 2 + g 1 ^ 2 + g 2 ^ 2 + g 3 ^ 2)) i j := by
      funext i j; ring
    rw [e]
    exact ⟨hP.1.neg, by rw [det_neg, hP.2]⟩

theorem legendre_proper (L : ℕ) (roots : List (ℝ × ℝ)) : ∀ x ∈ legendreGrid L roots, Proper x.1 := by
  intro x hx
  unfold legendreGrid at hx
  split at hx
  · simp at hx; subst hx; exact one_proper
  · simp only [List.mem_flatMap, List.mem_map] at hx
    obtain ⟨t, _, w, _, r, _, rfl⟩ := hx
    exact euler_proper _ _ _

theorem lebedev_proper (table : ℕ → Option (List (ℝ × ℝ × ℝ))) (L : ℕ) (g) (h : lebedevGrid table L = .ok g) :
    ∀ x ∈ g, Proper x.1 := by
  intro x hx
  unfold lebedevGrid at h
  split at h
  · cases h
  · cases h
    simp only [List.mem_flatMap, List.mem_map] at hx
    obtain ⟨t, _, r, _, rfl⟩ := hx
    exact euler_proper _ _ _

/-- Every matrix of a grid is a proper rotation. -/
theorem grid_proper (mode : String) (table : ℕ → Option (List (ℝ × ℝ × ℝ))) (roots : ℕ → List (ℝ × ℝ)) (L : ℕ) (g)
    (h : grid mode table roots L = .ok g) : ∀ x ∈ g, Proper x.1 := by
  unfold grid at h
  split at h
  · exact lebedev_proper table L g h
  · split at h
    · cases h; exact legendre_proper L _
    · cases h

/-- The numbers of rotations: `(2L-1)²` times the number of roots, and `L` times the number of points of the sphere. -/
theorem legendre_length (L : ℕ) (hL : L ≠ 1) (roots : List (ℝ × ℝ)) :
    (legendreGrid L roots).length = (2 * L - 1) * ((2 * L - 1) * roots.length) := by
  unfold legendreGrid
  rw [if_neg hL]
  simp [List.length_flatMap]

theorem lebedev_length (table : ℕ → Option (List (ℝ × ℝ × ℝ))) (L : ℕ) (q) (hq : table L = some q) :
    ∃ g, lebedevGrid table L = .ok g ∧ g.length = L * q.length := by
  refine ⟨(List.range L).flatMap fun t : ℕ => q.map fun p => (euler p.1 p.2.1 (2 * π * t / L), p.2.2), ?_, ?_⟩
  · unfold lebedevGrid; rw [hq]
  · simp [List.length_flatMap]

/-- The frame of an evaluation is orthogonal, so that the hypotheses of C61 hold for every grid and every draw. -/
theorem frame_ortho (random : Bool) (g : Fin 4 → ℝ) (hg : ∃ i, g i ≠ 0) (u : ℝ) : Ortho (frame random g u) := by
  unfold frame
  cases random
  · exact one_proper.1
  · obtain ⟨h1, h2⟩ := random_spec g hg u true
    by_cases h : (true = true ∧ u < 1 / 2)
    · exact (h2 h).1
    · exact (h1 h).1

theorem all_ortho (mode : String) (table : ℕ → Option (List (ℝ × ℝ × ℝ))) (roots : ℕ → List (ℝ × ℝ)) (L : ℕ) (gr)
    (h : grid mode table roots L = .ok gr) (random inversion : Bool) (g : Fin 4 → ℝ) (hg : ∃ i, g i ≠ 0) (u : ℝ) :
    ∀ x ∈ evaluations inversion (frame random g u) gr, Ortho x.1 :=
  evaluations_ortho inversion _ gr (frame_ortho random g hg u) fun x hx => (grid_proper mode table roots L gr h x hx).1

/-- Without random rotations and inversion only proper rotations are evaluated. -/
theorem proper_only_partial (mode : String) (table : ℕ → Option (List (ℝ × ℝ × ℝ))) (roots : ℕ → List (ℝ × ℝ)) (L : ℕ) (gr)
    (h : grid mode table roots L = .ok gr) (g : Fin 4 → ℝ) (u : ℝ) :
    ∀ x ∈ evaluations false (frame false g u) gr, Proper x.1 := by
  intro x hx
  unfold evaluations at hx
  obtain ⟨y, hy, hx⟩ := List.mem_flatMap.1 hx
  simp at hx; subst hx
  exact (grid_proper mode table roots L gr h y hy).mul one_proper

/-- With random rotations and without inversion, every structure that is evaluated is a mirror image for half of the draws. -/
theorem random_mirrors (mode : String) (table : ℕ → Option (List (ℝ × ℝ × ℝ))) (roots : ℕ → List (ℝ × ℝ)) (L : ℕ) (gr)
    (h : grid mode table roots L = .ok gr) (g : Fin 4 → ℝ) (hg : ∃ i, g i ≠ 0) (u : ℝ) (hu : u < 1 / 2) :
    ∀ x ∈ evaluations false (frame true g u) gr, Improper x.1 := by
  intro x hx
  unfold evaluations at hx
  obtain ⟨y, hy, hx⟩ := List.mem_flatMap.1 hx
  simp at hx; subst hx
  have hp := grid_proper mode table roots L gr h y hy
  have hi := (random_spec g hg u true).2 ⟨rfl, hu⟩
  exact ⟨hp.1.mulM hi.1, by rw [det_mulM]; unfold frame; rw [hp.2, if_pos rfl, hi.2]; ring⟩

/-- So "random" without "inversion" does not evaluate rotations of the system only. -/
theorem not_proper_only : ¬ ∀ (g : Fin 4 → ℝ) (_ : ∃ i, g i ≠ 0) (u : ℝ) (gr),
    grid "legendre" (fun _ => none) (fun _ => []) 1 = .ok gr → ∀ x ∈ evaluations false (frame true g u) gr, Proper x.1 := by
  intro h
  have hgr : grid "legendre" (fun _ => none) (fun _ => []) 1 = .ok [(one, 2)] := by
    unfold grid legendreGrid; rw [if_neg (by decide), if_pos rfl, if_pos rfl]
  have hx : (mulM one (frame true (fun _ => 1) 0), (2 : ℝ)) ∈ evaluations false (frame true (fun _ => 1) 0) [(one, 2)] := by
    simp [evaluations]
  have h1 := h (fun _ => 1) ⟨0, one_ne_zero⟩ 0 _ hgr _ hx
  have h2 := random_mirrors "legendre" _ _ 1 _ hgr (fun _ => 1) ⟨0, one_ne_zero⟩ 0 (by norm_num) _ hx
  have := h1.2.symm.trans h2.2
  norm_num at this

/-! ## Averages -/

/-- Weighted sum of a function over a list of matrices. -/
def wsum {α : Type} (l : List (α × ℝ)) (f : α → ℝ) : ℝ := (l.map fun x => f x.1 * x.2).sum

/-- The moments of the list up to the second order are those of the uniform distribution of rotations. -/
structure Iso (l : List ((Fin 3 → Fin 3 → ℝ) × ℝ)) (W : ℝ) : Prop where
  m0 : wsum l (fun _ => 1) = W
  m1 : ∀ i j, wsum l (fun R => R i j) = 0
  m2 : ∀ i j k l', wsum l (fun R => R i j * R k l') = if i = k ∧ j = l' then W / 3 else 0

theorem wsum_add {α : Type} (l : List (α × ℝ)) (f g : α → ℝ) : wsum l (fun x => f x + g x) = wsum l f + wsum l g := by
  unfold wsum
  induction l with
  | nil => simp
  | cons a l ih => simp only [List.map_cons, List.sum_cons] at ih ⊢; rw [ih]; ring

theorem wsum_mul {α : Type} (l : List (α × ℝ)) (c : ℝ) (f : α → ℝ) : wsum l (fun x => c * f x) = c * wsum l f := by
  unfold wsum
  induction l with
  | nil => simp
  | cons a l ih => simp only [List.map_cons, List.sum_cons] at ih ⊢; rw [ih]; ring

theorem wsum_zero {α : Type} (l : List (α × ℝ)) : wsum l (fun _ => 0) = 0 := by
  unfold wsum; simp

theorem wsum_finset {α ι : Type} (l : List (α × ℝ)) (s : Finset ι) (f : ι → α → ℝ) :
    wsum l (fun x => ∑ i ∈ s, f i x) = ∑ i ∈ s, wsum l (f i) := by
  classical
  induction s using Finset.induction_on with
  | empty => simp [wsum]
  | insert a s ha ih =>
    rw [Finset.sum_insert ha, ← ih, ← wsum_add]
    congr 1; funext x; rw [Finset.sum_insert ha]

theorem wsum_flatMap {α β : Type} (l : List β) (g : β → List (α × ℝ)) (f : α → ℝ) :
    wsum (l.flatMap g) f = (l.map fun b => wsum (g b) f).sum := by
  unfold wsum
  induction l with
  | nil => simp
  | cons a l ih => simp [List.flatMap_cons, ih]

theorem sum_range (n : ℕ) (f : ℕ → ℝ) : ((List.range n).map f).sum = ∑ j ∈ Finset.range n, f j := rfl

theorem wsum_map {α β : Type} (l : List β) (g : β → α × ℝ) (f : α → ℝ) :
    wsum (l.map g) f = (l.map fun b => f (g b).1 * (g b).2).sum := by
  unfold wsum; rw [List.map_map]; rfl

/-- An energy that depends on the orientation through polynomials of degree up to two in the elements of the rotation matrix. -/
def quadratic (c : ℝ) (a : Fin 3 → Fin 3 → ℝ) (b : Fin 3 → Fin 3 → Fin 3 → Fin 3 → ℝ) (R : Fin 3 → Fin 3 → ℝ) : ℝ :=
  c + ∑ i, ∑ j, a i j * R i j + ∑ i, ∑ j, ∑ k, ∑ l, b i j k l * (R i j * R k l)

theorem iso_quadratic (l : List ((Fin 3 → Fin 3 → ℝ) × ℝ)) (W : ℝ) (h : Iso l W) (c a b) :
    wsum l (quadratic c a b) = (c + (∑ i, ∑ j, b i j i j) / 3) * W := by
  have e : quadratic c a b = fun R => (c * 1 + ∑ i, ∑ j, a i j * R i j) + ∑ i, ∑ j, ∑ k, ∑ l, b i j k l * (R i j * R k l) := by
    funext R; unfold quadratic; ring
  rw [e, wsum_add, wsum_add, wsum_mul, h.m0, wsum_finset, wsum_finset]
  simp only [wsum_finset, wsum_mul, h.m1, h.m2]
  have e2 : (∑ i : Fin 3, ∑ j : Fin 3, ∑ k : Fin 3, ∑ l : Fin 3, b i j k l * (if i = k ∧ j = l then W / 3 else 0))
      = (∑ i, ∑ j, b i j i j) / 3 * W := by
    simp only [Fin.sum_univ_three, Fin.isValue]
    simp
    ring
  rw [e2]
  simp
  ring

theorem wsum_eval (inv : Bool) (Rr : Fin 3 → Fin 3 → ℝ) (l : List ((Fin 3 → Fin 3 → ℝ) × ℝ)) (f : (Fin 3 → Fin 3 → ℝ) → ℝ) :
    wsum (evaluations inv Rr l) f
      = if inv then wsum l (fun R => f (mulM R Rr) + f (fun i j => - mulM R Rr i j)) else wsum l (fun R => f (mulM R Rr)) := by
  unfold evaluations
  rw [wsum_flatMap]
  cases inv
  · simp [wsum]
  · simp only [if_true]
    unfold wsum
    congr 1
    apply List.map_congr_left
    intro x _
    simp
    ring

/-- Multiplication with an orthogonal matrix and adding the inversions keeps the moments. -/
theorem iso_mul (l : List ((Fin 3 → Fin 3 → ℝ) × ℝ)) (W : ℝ) (h : Iso l W) (S : Fin 3 → Fin 3 → ℝ) (hS : Ortho S) :
    wsum l (fun _ => 1) = W ∧ (∀ i j, wsum l (fun R => mulM R S i j) = 0) ∧
    ∀ i j k m, wsum l (fun R => mulM R S i j * mulM R S k m) = if i = k ∧ j = m then W / 3 else 0 := by
  refine ⟨h.m0, ?_, ?_⟩
  · intro i j
    have e : (fun R : Fin 3 → Fin 3 → ℝ => mulM R S i j) = fun R => (S 0 j * R i 0 + S 1 j * R i 1) + S 2 j * R i 2 := by
      funext R; unfold mulM; ring
    rw [e, wsum_add, wsum_add, wsum_mul, wsum_mul, wsum_mul, h.m1, h.m1, h.m1]; ring
  · intro i j k m
    have e : (fun R : Fin 3 → Fin 3 → ℝ => mulM R S i j * mulM R S k m)
        = fun R => ∑ p : Fin 3, ∑ q : Fin 3, (S p j * S q m) * (R i p * R k q) := by
      funext R; unfold mulM; simp only [Fin.sum_univ_three]; ring
    rw [e, wsum_finset]
    simp only [wsum_finset, wsum_mul, h.m2]
    have ht := hS.tr j m
    by_cases hik : i = k
    · simp only [hik, true_and]
      simp only [Fin.sum_univ_three]
      simp
      by_cases hjm : j = m
      · rw [if_pos hjm] at ht ⊢; linear_combination (W / 3) * ht
      · rw [if_neg hjm] at ht ⊢; linear_combination (W / 3) * ht
    · simp [hik]

theorem iso_eval (l : List ((Fin 3 → Fin 3 → ℝ) × ℝ)) (W : ℝ) (h : Iso l W) (inv : Bool) (S : Fin 3 → Fin 3 → ℝ) (hS : Ortho S) :
    Iso (evaluations inv S l) (if inv then 2 * W else W) := by
  obtain ⟨a0, a1, a2⟩ := iso_mul l W h S hS
  constructor
  · rw [wsum_eval]
    cases inv
    · simpa using a0
    · simp only [if_true]
      rw [wsum_add, a0]; ring
  · intro i j
    rw [wsum_eval]
    cases inv
    · simpa using a1 i j
    · simp only [if_true]
      unfold wsum; simp
  · intro i j k m
    rw [wsum_eval]
    cases inv
    · simpa using a2 i j k m
    · simp only [if_true]
      have e : (fun R => mulM R S i j * mulM R S k m + -mulM R S i j * -mulM R S k m)
          = fun R => 2 * (mulM R S i j * mulM R S k m) := by funext R; ring
      rw [e, wsum_mul, a2]
      split <;> ring

/-! ### Both kinds of grids -/

/-- A set of points of the sphere, given by two angles and a weight, integrates polynomials up to degree two. -/
structure SphereRule (q : List ((ℝ × ℝ) × ℝ)) (W : ℝ) : Prop where
  s0 : wsum q (fun _ => 1) = W
  x1 : wsum q (fun p => sin p.2 * sin p.1) = 0
  y1 : wsum q (fun p => sin p.2 * cos p.1) = 0
  z1 : wsum q (fun p => cos p.2) = 0
  xx : wsum q (fun p => (sin p.2 * sin p.1) * (sin p.2 * sin p.1)) = W / 3
  yy : wsum q (fun p => (sin p.2 * cos p.1) * (sin p.2 * cos p.1)) = W / 3
  zz : wsum q (fun p => cos p.2 * cos p.2) = W / 3
  xy : wsum q (fun p => (sin p.2 * sin p.1) * (sin p.2 * cos p.1)) = 0
  xz : wsum q (fun p => (sin p.2 * sin p.1) * cos p.2) = 0
  yz : wsum q (fun p => (sin p.2 * cos p.1) * cos p.2) = 0

/-- Sums over equally spaced angles. -/
theorem angle1 (N : ℕ) (hN : 3 ≤ N) (A B : ℝ) :
    ∑ n ∈ Finset.range N, (A * cos (2 * π * n / N) + B * sin (2 * π * n / N)) = 0 := by
  have hc := Trig.cos_sum N (by omega) 1 0
  have hs := Trig.sin_sum N (by omega) 1
  rw [if_neg (by intro h; have := Int.le_of_dvd one_pos h; omega)] at hc
  have e : ∀ n : ℕ, (n : ℝ) * (2 * π * (1 : ℤ) / N) = 2 * π * n / N := by intro n; push_cast; ring
  simp only [e, add_zero] at hc hs
  rw [Finset.sum_add_distrib, ← Finset.mul_sum, ← Finset.mul_sum, hc, hs]; ring

theorem angle2 (N : ℕ) (hN : 3 ≤ N) (A B C D : ℝ) :
    ∑ n ∈ Finset.range N, (A * cos (2 * π * n / N) + B * sin (2 * π * n / N)) * (C * cos (2 * π * n / N) + D * sin (2 * π * n / N))
      = N / 2 * (A * C + B * D) := by
  have hcc := Trig.cos_cos N (by omega) 1 1
  have hss := Trig.sin_sin N (by omega) 1 1
  have hcs := Trig.cos_sin N (by omega) 1 1
  have h2 : Trig.per N (1 + 1) = 0 := by
    unfold Trig.per; rw [if_neg (by intro h; have := Int.le_of_dvd (by norm_num) h; omega)]
  have h0 : Trig.per N (1 - 1) = N := by unfold Trig.per; simp
  rw [h2, h0] at hcc hss
  have e : ∀ n : ℕ, (n : ℝ) * (2 * π * (1 : ℤ) / N) = 2 * π * n / N := by intro n; push_cast; ring
  simp only [e] at hcc hss hcs
  have e2 : ∀ n ∈ Finset.range N, (A * cos (2 * π * n / N) + B * sin (2 * π * n / N)) * (C * cos (2 * π * n / N) + D * sin (2 * π * n / N))
      = ((A * C) * (cos (2 * π * n / N) * cos (2 * π * n / N)) + (B * D) * (sin (2 * π * n / N) * sin (2 * π * n / N)))
        + (A * D + B * C) * (cos (2 * π * n / N) * sin (2 * π * n / N)) := by intro n _; ring
  rw [Finset.sum_congr rfl e2, Finset.sum_add_distrib, Finset.sum_add_distrib, ← Finset.mul_sum, ← Finset.mul_sum, ← Finset.mul_sum,
    hcc, hss, hcs]
  ring

/-- The matrix without its last rotation. -/
noncomputable def mid (p : ℝ × ℝ) : Fin 3 → Fin 3 → ℝ := mulM (rx p.2) (rz p.1)

theorem mid_proper (p : ℝ × ℝ) : Proper (mid p) := (rx_proper _).mul (rz_proper _)

theorem mid_20 (p : ℝ × ℝ) : mid p 2 0 = sin p.2 * sin p.1 := by simp [mid, mulM, rx, rz, rows]
theorem mid_21 (p : ℝ × ℝ) : mid p 2 1 = sin p.2 * cos p.1 := by simp [mid, mulM, rx, rz, rows]
theorem mid_22 (p : ℝ × ℝ) : mid p 2 2 = cos p.2 := by simp [mid, mulM, rx, rz, rows]

/-- The minors of the first two rows. -/
theorem mid_cross (p : ℝ × ℝ) :
    mid p 0 0 * mid p 1 1 - mid p 1 0 * mid p 0 1 = mid p 2 2 ∧ mid p 0 1 * mid p 1 2 - mid p 1 1 * mid p 0 2 = mid p 2 0 ∧
    mid p 0 2 * mid p 1 0 - mid p 1 2 * mid p 0 0 = mid p 2 1 := by
  have h := sin_sq_add_cos_sq p.1
  refine ⟨?_, ?_, ?_⟩
  · simp [mid, mulM, rx, rz, rows]; linear_combination cos p.2 * h
  · simp [mid, mulM, rx, rz, rows]; ring
  · simp [mid, mulM, rx, rz, rows]

theorem euler_row0 (p : ℝ × ℝ) (w : ℝ) (j : Fin 3) : euler p.1 p.2 w 0 j = mid p 0 j * cos w + (- mid p 1 j) * sin w := by
  fin_cases j <;> simp [euler, mid, mulM, rx, rz, rows] <;> ring
theorem euler_row1 (p : ℝ × ℝ) (w : ℝ) (j : Fin 3) : euler p.1 p.2 w 1 j = mid p 1 j * cos w + mid p 0 j * sin w := by
  fin_cases j <;> simp [euler, mid, mulM, rx, rz, rows] <;> ring
theorem euler_row2 (p : ℝ × ℝ) (w : ℝ) (j : Fin 3) : euler p.1 p.2 w 2 j = mid p 2 j := by
  fin_cases j <;> simp [euler, mid, mulM, rx, rz, rows]

theorem rule1 (q : List ((ℝ × ℝ) × ℝ)) (W : ℝ) (h : SphereRule q W) (j : Fin 3) : wsum q (fun p => mid p 2 j) = 0 := by
  fin_cases j
  · simpa [mid_20] using h.x1
  · simpa [mid_21] using h.y1
  · simpa [mid_22] using h.z1

theorem rule2 (q : List ((ℝ × ℝ) × ℝ)) (W : ℝ) (h : SphereRule q W) (j l : Fin 3) :
    wsum q (fun p => mid p 2 j * mid p 2 l) = if j = l then W / 3 else 0 := by
  have sw : ∀ (f g : ℝ × ℝ → ℝ), wsum q (fun p => f p * g p) = wsum q (fun p => g p * f p) := by
    intro f g; congr 1; funext p; ring
  fin_cases j <;> fin_cases l
  · simpa [mid_20] using h.xx
  · simpa [mid_20, mid_21] using h.xy
  · simpa [mid_20, mid_22] using h.xz
  · simpa [mid_20, mid_21] using (sw _ _).trans h.xy
  · simpa [mid_21] using h.yy
  · simpa [mid_21, mid_22] using h.yz
  · simpa [mid_20, mid_22] using (sw _ _).trans h.xz
  · simpa [mid_21, mid_22] using (sw _ _).trans h.yz
  · simpa [mid_22] using h.zz

/-- The symmetric part of the first two rows. -/
theorem rule_sym (q : List ((ℝ × ℝ) × ℝ)) (W : ℝ) (h : SphereRule q W) (j l : Fin 3) :
    wsum q (fun p => mid p 0 j * mid p 0 l + mid p 1 j * mid p 1 l) = if j = l then 2 * W / 3 else 0 := by
  have e : (fun p => mid p 0 j * mid p 0 l + mid p 1 j * mid p 1 l)
      = fun p => (if j = l then (1 : ℝ) else 0) * 1 + (-1) * (mid p 2 j * mid p 2 l) := by
    funext p; have := (mid_proper p).1.tr j l; linear_combination this
  rw [e, wsum_add, wsum_mul, wsum_mul, rule2 q W h, h.s0]
  split <;> ring

/-- The antisymmetric part. -/
theorem rule_anti (q : List ((ℝ × ℝ) × ℝ)) (W : ℝ) (h : SphereRule q W) (j l : Fin 3) :
    wsum q (fun p => mid p 0 j * mid p 1 l - mid p 1 j * mid p 0 l) = 0 := by
  have neg : ∀ (f : ℝ × ℝ → ℝ) (k : Fin 3), (∀ p, f p = -1 * mid p 2 k) → wsum q f = 0 := by
    intro f k hf
    rw [show f = fun p => -1 * mid p 2 k from funext hf, wsum_mul, rule1 q W h]; ring
  have pos : ∀ (f : ℝ × ℝ → ℝ) (k : Fin 3), (∀ p, f p = mid p 2 k) → wsum q f = 0 := by
    intro f k hf
    rw [show f = fun p => mid p 2 k from funext hf, rule1 q W h]
  have zero : ∀ (f : ℝ × ℝ → ℝ), (∀ p, f p = 0) → wsum q f = 0 := by
    intro f hf; rw [show f = fun p => 0 from funext hf]; simp [wsum]
  fin_cases j <;> fin_cases l
  · exact zero _ fun p => by ring
  · exact pos _ 2 fun p => by have := (mid_cross p).1; dsimp; linear_combination this
  · exact neg _ 1 fun p => by have := (mid_cross p).2.2; dsimp; linear_combination -this
  · exact neg _ 2 fun p => by have := (mid_cross p).1; dsimp; linear_combination -this
  · exact zero _ fun p => by ring
  · exact pos _ 0 fun p => by have := (mid_cross p).2.1; dsimp; linear_combination this
  · exact pos _ 1 fun p => by have := (mid_cross p).2.2; dsimp; linear_combination this
  · exact neg _ 0 fun p => by have := (mid_cross p).2.1; dsimp; linear_combination -this
  · exact zero _ fun p => by ring

/-- A rule for the sphere and at least three equally spaced angles make a rule for rotations. -/
theorem iso_of_rule (N : ℕ) (hN : 3 ≤ N) (q : List ((ℝ × ℝ) × ℝ)) (W : ℝ) (h : SphereRule q W) (g : List ((Fin 3 → Fin 3 → ℝ) × ℝ))
    (hg : ∀ f, wsum g f = wsum q fun p => ∑ n ∈ Finset.range N, f (euler p.1 p.2 (2 * π * n / N))) : Iso g (N * W) := by
  constructor
  · rw [hg, wsum_finset]; simp [h.s0]
  · intro i j
    rw [hg]
    fin_cases i
    · simp only [Fin.zero_eta, euler_row0, angle1 N hN]; simp [wsum]
    · simp only [Fin.mk_one, euler_row1, angle1 N hN]; simp [wsum]
    · simp only [Fin.reduceFinMk, euler_row2, Finset.sum_const, Finset.card_range, nsmul_eq_mul, wsum_mul, rule1 q W h]; ring
  · intro i j k l
    rw [hg]
    fin_cases i <;> fin_cases k
    · simp only [Fin.zero_eta, euler_row0, angle2 N hN, true_and]
      have := rule_sym q W h j l
      rw [wsum_mul, show (fun p => mid p 0 j * mid p 0 l + -mid p 1 j * -mid p 1 l) = fun p => mid p 0 j * mid p 0 l + mid p 1 j * mid p 1 l by
        funext p; ring, this]
      split <;> ring
    · simp only [Fin.zero_eta, Fin.mk_one, euler_row0, euler_row1, angle2 N hN]
      rw [wsum_mul, show (fun p => mid p 0 j * mid p 1 l + -mid p 1 j * mid p 0 l) = fun p => mid p 0 j * mid p 1 l - mid p 1 j * mid p 0 l by
        funext p; ring, rule_anti q W h]
      simp
    · simp only [Fin.zero_eta, Fin.reduceFinMk, euler_row0, euler_row2, ← Finset.sum_mul, angle1 N hN]
      simp [wsum]
    · simp only [Fin.zero_eta, Fin.mk_one, euler_row0, euler_row1, angle2 N hN]
      rw [wsum_mul, show (fun p => mid p 1 j * mid p 0 l + mid p 0 j * -mid p 1 l) = fun p => mid p 0 l * mid p 1 j - mid p 1 l * mid p 0 j by
        funext p; ring, rule_anti q W h]
      simp
    · simp only [Fin.mk_one, euler_row1, angle2 N hN, true_and]
      have := rule_sym q W h j l
      rw [wsum_mul, show (fun p => mid p 1 j * mid p 1 l + mid p 0 j * mid p 0 l) = fun p => mid p 0 j * mid p 0 l + mid p 1 j * mid p 1 l by
        funext p; ring, this]
      split <;> ring
    · simp only [Fin.mk_one, Fin.reduceFinMk, euler_row1, euler_row2, ← Finset.sum_mul, angle1 N hN]
      simp [wsum]
    · simp only [Fin.zero_eta, Fin.reduceFinMk, euler_row0, euler_row2, ← Finset.mul_sum, angle1 N hN]
      simp [wsum]
    · simp only [Fin.mk_one, Fin.reduceFinMk, euler_row1, euler_row2, ← Finset.mul_sum, angle1 N hN]
      simp [wsum]
    · simp only [Fin.reduceFinMk, euler_row2, Finset.sum_const, Finset.card_range, nsmul_eq_mul, wsum_mul, rule2 q W h, true_and]
      split <;> ring

/-- The Lebedev points of the table as points of the sphere. -/
def pts (q : List (ℝ × ℝ × ℝ)) : List ((ℝ × ℝ) × ℝ) := q.map fun p => ((p.1, p.2.1), p.2.2)

theorem lebedev_iso (table : ℕ → Option (List (ℝ × ℝ × ℝ))) (L : ℕ) (hL : 3 ≤ L) (q) (hq : table L = some q) (W : ℝ)
    (hs : SphereRule (pts q) W) (g) (hg : lebedevGrid table L = .ok g) : Iso g (L * W) := by
  unfold lebedevGrid at hg
  rw [hq] at hg
  cases hg
  refine iso_of_rule L hL (pts q) W hs _ ?_
  intro f
  rw [wsum_flatMap, sum_range, wsum_finset]
  apply Finset.sum_congr rfl
  intro n _
  rw [wsum_map, pts, wsum_map]

/-- The roots and weights integrate polynomials up to degree `2L-1`. -/
def GaussExact (L : ℕ) (roots : List (ℝ × ℝ)) : Prop :=
  ∀ k, k ≤ 2 * L - 1 → (roots.map fun x => x.1 ^ k * legWeight x.1 x.2).sum = (1 - (-1) ^ (k + 1)) / (k + 1)

/-- The points of the sphere of a Legendre grid. -/
noncomputable def legPts (N : ℕ) (roots : List (ℝ × ℝ)) : List ((ℝ × ℝ) × ℝ) :=
  (List.range N).flatMap fun t : ℕ => roots.map fun x => ((2 * π * t / N, arccos x.1), legWeight x.1 x.2)

theorem legPts_sum (N : ℕ) (roots : List (ℝ × ℝ)) (f : ℝ × ℝ → ℝ) :
    wsum (legPts N roots) f
      = wsum (roots.map fun x => (x.1, legWeight x.1 x.2)) fun x => ∑ n ∈ Finset.range N, f (2 * π * n / N, arccos x) := by
  unfold legPts
  rw [wsum_flatMap, sum_range, wsum_finset]
  apply Finset.sum_congr rfl
  intro n _
  rw [wsum_map, wsum_map]

theorem legendre_rule (L : ℕ) (hL : 2 ≤ L) (roots : List (ℝ × ℝ)) (hr : ∀ x ∈ roots, -1 ≤ x.1 ∧ x.1 ≤ 1) (hx : GaussExact L roots) :
    SphereRule (legPts (2 * L - 1) roots) ((2 * L - 1 : ℕ) * 2) := by
  have h3 : 3 ≤ 2 * L - 1 := by omega
  have h0 := hx 0 (by omega); have h1 := hx 1 (by omega); have h2 := hx 2 (by omega)
  norm_num at h0 h1 h2
  generalize 2 * L - 1 = N at h3 ⊢
  -- sums over the roots
  have c0 : wsum (roots.map fun x => (x.1, legWeight x.1 x.2)) (fun _ => 1) = 2 := by
    rw [wsum_map]; simpa using h0
  have cc : ∀ x ∈ roots, cos (arccos x.1) = x.1 := fun x h => cos_arccos (hr x h).1 (hr x h).2
  have c1 : wsum (roots.map fun x => (x.1, legWeight x.1 x.2)) (fun x => cos (arccos x)) = 0 := by
    rw [wsum_map, ← h1]
    congr 1; apply List.map_congr_left; intro x hx; rw [cc x hx]
  have c2 : wsum (roots.map fun x => (x.1, legWeight x.1 x.2)) (fun x => cos (arccos x) * cos (arccos x)) = 2 / 3 := by
    rw [wsum_map, ← h2]
    congr 1; apply List.map_congr_left; intro x hx; rw [cc x hx]; ring
  have s2 : wsum (roots.map fun x => (x.1, legWeight x.1 x.2)) (fun x => sin (arccos x) * sin (arccos x)) = 4 / 3 := by
    rw [show (fun x => sin (arccos x) * sin (arccos x)) = fun x => 1 + (-1) * (cos (arccos x) * cos (arccos x)) by
      funext x; have := sin_sq_add_cos_sq (arccos x); linear_combination this, wsum_add, wsum_mul, c0, c2]
    norm_num
  have lin : ∀ (F : ℝ → ℝ → ℝ) , (∀ v, ∑ n ∈ Finset.range N, F (2 * π * n / N) v = 0) →
      wsum (legPts N roots) (fun p => F p.1 p.2) = 0 := by
    intro F hF; rw [legPts_sum]; dsimp only; simp only [hF, wsum_zero]
  constructor
  · rw [legPts_sum]; simp only [Finset.sum_const, Finset.card_range, nsmul_eq_mul, wsum_mul, c0]
  · refine lin (fun a v => sin v * sin a) fun v => ?_
    have := angle1 N h3 0 (sin v); simpa using this
  · refine lin (fun a v => sin v * cos a) fun v => ?_
    have := angle1 N h3 (sin v) 0; simpa using this
  · rw [legPts_sum]; simp only [Finset.sum_const, Finset.card_range, nsmul_eq_mul, wsum_mul, c1]; ring
  · rw [legPts_sum]
    have := fun v => angle2 N h3 0 (sin v) 0 (sin v)
    simp only [zero_mul, zero_add] at this
    simp only [this, wsum_mul, s2]; ring
  · rw [legPts_sum]
    have := fun v => angle2 N h3 (sin v) 0 (sin v) 0
    simp only [zero_mul, add_zero] at this
    simp only [this, wsum_mul, s2]; ring
  · rw [legPts_sum]; simp only [Finset.sum_const, Finset.card_range, nsmul_eq_mul, wsum_mul, c2]; ring
  · refine lin (fun a v => (sin v * sin a) * (sin v * cos a)) fun v => ?_
    have := angle2 N h3 0 (sin v) (sin v) 0; simpa using this
  · refine lin (fun a v => (sin v * sin a) * cos v) fun v => ?_
    have := angle1 N h3 0 (sin v); rw [← Finset.sum_mul]; simp at this; rw [this]; ring
  · refine lin (fun a v => (sin v * cos a) * cos v) fun v => ?_
    have := angle1 N h3 (sin v) 0; rw [← Finset.sum_mul]; simp at this; rw [this]; ring

theorem legendre_iso (L : ℕ) (hL : 2 ≤ L) (roots : List (ℝ × ℝ)) (hr : ∀ x ∈ roots, -1 ≤ x.1 ∧ x.1 ≤ 1) (hx : GaussExact L roots) :
    Iso (legendreGrid L roots) ((2 * L - 1 : ℕ) * ((2 * L - 1 : ℕ) * 2)) := by
  refine iso_of_rule (2 * L - 1) (by omega) (legPts (2 * L - 1) roots) _ (legendre_rule L hL roots hr hx) _ ?_
  intro f
  unfold legendreGrid
  rw [if_neg (by omega), wsum_flatMap, sum_range, legPts_sum, wsum_finset]
  apply Finset.sum_congr rfl
  intro t _
  rw [wsum_flatMap, sum_range, wsum_finset]
  apply Finset.sum_congr rfl
  intro w _
  rw [wsum_map, wsum_map]

/-- The average as the force field computes it. -/
theorem wmean_wsum (l : List ((Fin 3 → Fin 3 → ℝ) × ℝ)) (f : (Fin 3 → Fin 3 → ℝ) → ℝ) :
    wmean (l.map fun x => (f x.1, x.2)) = wsum l f / wsum l (fun _ => 1) := by
  unfold wmean wsum
  simp only [List.map_map]
  congr 2
  apply List.map_congr_left; intro x _; simp

/-- An average over a list with the moments of the uniform distribution does not depend on the frame, the inversions or the orientation. -/
theorem mean_iso (gr : List ((Fin 3 → Fin 3 → ℝ) × ℝ)) (W : ℝ) (hW : W ≠ 0) (h : Iso gr W) (inv : Bool) (S : Fin 3 → Fin 3 → ℝ)
    (hS : Ortho S) (c a b) :
    wmean ((evaluations inv S gr).map fun x => (quadratic c a b x.1, x.2)) = c + (∑ i, ∑ j, b i j i j) / 3 := by
  have hi := iso_eval gr W h inv S hS
  rw [wmean_wsum, iso_quadratic _ _ hi, hi.m0]
  have : (if inv = true then 2 * W else W) ≠ 0 := by split <;> simp [hW]
  field_simp

/-- With a Legendre grid of order two or more, an energy that is quadratic in the elements of the rotation is averaged to the value that
an average over all rotations gives, whatever the random rotation and the orientation of the system. -/
theorem legendre_average (L : ℕ) (hL : 2 ≤ L) (roots : List (ℝ × ℝ)) (hr : ∀ x ∈ roots, -1 ≤ x.1 ∧ x.1 ≤ 1) (hx : GaussExact L roots)
    (inv random : Bool) (g : Fin 4 → ℝ) (hg : ∃ i, g i ≠ 0) (u : ℝ) (S : Fin 3 → Fin 3 → ℝ) (hS : Ortho S) (c a b) :
    wmean ((evaluations inv (mulM (frame random g u) S) (legendreGrid L roots)).map fun x => (quadratic c a b x.1, x.2))
      = c + (∑ i, ∑ j, b i j i j) / 3 := by
  refine mean_iso _ _ ?_ (legendre_iso L hL roots hr hx) inv _ ((frame_ortho random g hg u).mulM hS) c a b
  have : ((2 * L - 1 : ℕ) : ℝ) ≠ 0 := by exact_mod_cast (by omega : 2 * L - 1 ≠ 0)
  positivity

/-- The same for the Lebedev grids, if the table integrates polynomials of degree two over the sphere. -/
theorem lebedev_average (table : ℕ → Option (List (ℝ × ℝ × ℝ))) (L : ℕ) (hL : 3 ≤ L) (q) (hq : table L = some q) (W : ℝ) (hW : W ≠ 0)
    (hs : SphereRule (pts q) W) (gr) (hgr : lebedevGrid table L = .ok gr)
    (inv random : Bool) (g : Fin 4 → ℝ) (hg : ∃ i, g i ≠ 0) (u : ℝ) (S : Fin 3 → Fin 3 → ℝ) (hS : Ortho S) (c a b) :
    wmean ((evaluations inv (mulM (frame random g u) S) gr).map fun x => (quadratic c a b x.1, x.2))
      = c + (∑ i, ∑ j, b i j i j) / 3 := by
  refine mean_iso _ _ ?_ (lebedev_iso table L hL q hq W hs gr hgr) inv _ ((frame_ortho random g hg u).mulM hS) c a b
  have : (L : ℝ) ≠ 0 := by exact_mod_cast (by omega : L ≠ 0)
  positivity

/-- The grid of order one is the identity: without random rotations nothing is averaged, and the energy follows the orientation. -/
theorem order_one (S : Fin 3 → Fin 3 → ℝ) (roots : List (ℝ × ℝ)) (g : Fin 4 → ℝ) (u : ℝ) (f : (Fin 3 → Fin 3 → ℝ) → ℝ) :
    wmean ((evaluations false (mulM (frame false g u) S) (legendreGrid 1 roots)).map fun x => (f x.1, x.2)) = f S := by
  have e : mulM one (mulM one S) = S := by
    funext i j; fin_cases i <;> simp [mulM, one]
  unfold legendreGrid
  rw [if_pos rfl]
  simp [evaluations, wmean, frame, e]

/-- Equally spaced angles integrate all lower orders exactly: a function of the rotation that oscillates `k` times in the first angle,
`k` no multiple of `2L - 1`, has the average zero over the grid, as over all rotations, whatever its dependence on the other angles. -/
theorem legendre_no_alias (L : ℕ) (hL : 2 ≤ L) (roots : List (ℝ × ℝ)) (k : ℤ) (hk : ¬ ((2 * L - 1 : ℕ) : ℤ) ∣ k) (φ : ℝ)
    (G : ℝ → ℝ → ℝ) (f : (Fin 3 → Fin 3 → ℝ) → ℝ) (hf : ∀ t v w, f (euler t v w) = G v w * cos (k * t + φ)) :
    wsum (legendreGrid L roots) f = 0 := by
  have key : ∀ v w, ∑ t ∈ Finset.range (2 * L - 1), f (euler (2 * π * t / (2 * L - 1 : ℕ)) v w) = 0 := by
    intro v w
    simp only [hf]
    rw [← Finset.mul_sum]
    have := Trig.cos_sum (2 * L - 1) (by omega) k φ
    rw [if_neg hk] at this
    have e : ∀ t ∈ Finset.range (2 * L - 1), cos (k * (2 * π * t / (2 * L - 1 : ℕ)) + φ) = cos (t * (2 * π * k / (2 * L - 1 : ℕ)) + φ) := by
      intro t _; congr 1; ring
    rw [Finset.sum_congr rfl e, this]; ring
  unfold legendreGrid
  rw [if_neg (by omega), wsum_flatMap, sum_range]
  simp only [wsum_flatMap, sum_range]
  rw [Finset.sum_comm]
  apply Finset.sum_eq_zero
  intro w _
  have e : ∀ t ∈ Finset.range (2 * L - 1), wsum (roots.map fun x =>
      (euler (2 * π * t / (2 * L - 1 : ℕ)) (arccos x.1) (2 * π * w / (2 * L - 1 : ℕ)), legWeight x.1 x.2)) f
      = wsum (roots.map fun x => (x.1, legWeight x.1 x.2))
        (fun x => f (euler (2 * π * t / (2 * L - 1 : ℕ)) (arccos x) (2 * π * w / (2 * L - 1 : ℕ)))) := by
    intro t _; rw [wsum_map, wsum_map]
  rw [Finset.sum_congr rfl e, ← wsum_finset]
  simp only [key, wsum_zero]

/-- The same in the last angle. -/
theorem legendre_no_alias_last (L : ℕ) (hL : 2 ≤ L) (roots : List (ℝ × ℝ)) (k : ℤ) (hk : ¬ ((2 * L - 1 : ℕ) : ℤ) ∣ k) (φ : ℝ)
    (G : ℝ → ℝ → ℝ) (f : (Fin 3 → Fin 3 → ℝ) → ℝ) (hf : ∀ t v w, f (euler t v w) = G t v * cos (k * w + φ)) :
    wsum (legendreGrid L roots) f = 0 := by
  have key : ∀ t v, ∑ w ∈ Finset.range (2 * L - 1), f (euler t v (2 * π * w / (2 * L - 1 : ℕ))) = 0 := by
    intro v w
    simp only [hf]
    rw [← Finset.mul_sum]
    have := Trig.cos_sum (2 * L - 1) (by omega) k φ
    rw [if_neg hk] at this
    have e : ∀ t ∈ Finset.range (2 * L - 1), cos (k * (2 * π * t / (2 * L - 1 : ℕ)) + φ) = cos (t * (2 * π * k / (2 * L - 1 : ℕ)) + φ) := by
      intro t _; congr 1; ring
    rw [Finset.sum_congr rfl e, this]; ring
  unfold legendreGrid
  rw [if_neg (by omega), wsum_flatMap, sum_range]
  simp only [wsum_flatMap, sum_range]
  apply Finset.sum_eq_zero
  intro t _
  have e : ∀ w ∈ Finset.range (2 * L - 1), wsum (roots.map fun x =>
      (euler (2 * π * t / (2 * L - 1 : ℕ)) (arccos x.1) (2 * π * w / (2 * L - 1 : ℕ)), legWeight x.1 x.2)) f
      = wsum (roots.map fun x => (x.1, legWeight x.1 x.2))
        (fun x => f (euler (2 * π * t / (2 * L - 1 : ℕ)) (arccos x) (2 * π * w / (2 * L - 1 : ℕ)))) := by
    intro t _; rw [wsum_map, wsum_map]
  rw [Finset.sum_congr rfl e, ← wsum_finset]
  simp only [key, wsum_zero]

/-- What depends on the middle angle only is integrated exactly up to degree `2L - 1`. -/
theorem legendre_middle (L : ℕ) (hL : 2 ≤ L) (roots : List (ℝ × ℝ)) (hr : ∀ x ∈ roots, -1 ≤ x.1 ∧ x.1 ≤ 1) (hx : GaussExact L roots)
    (k : ℕ) (hk : k ≤ 2 * L - 1) :
    wsum (legendreGrid L roots) (fun R => R 2 2 ^ k) = (2 * L - 1 : ℕ) * ((2 * L - 1 : ℕ) * ((1 - (-1) ^ (k + 1)) / (k + 1))) := by
  unfold legendreGrid
  rw [if_neg (by omega), wsum_flatMap, sum_range]
  simp only [wsum_flatMap, sum_range, wsum_map]
  have e : ∀ (t w : ℝ), (roots.map fun b => euler t (arccos b.1) w 2 2 ^ k * legWeight b.1 b.2).sum = (1 - (-1) ^ (k + 1)) / (k + 1) := by
    intro t w
    rw [← hx k hk]
    congr 1
    apply List.map_congr_left
    intro x hx'
    have := euler_row2 (t, arccos x.1) w 2
    rw [mid_22] at this
    dsimp only at this
    rw [this, cos_arccos (hr x hx').1 (hr x hx').2]
  simp only [e, Finset.sum_const, Finset.card_range, nsmul_eq_mul]

/-! ### Non-vacuity: the grid of order two -/

/-- The two roots of the second Legendre polynomial, whose derivative is `3 x`. -/
noncomputable def roots2 : List (ℝ × ℝ) := [(-(1 / sqrt 3), -(3 / sqrt 3)), (1 / sqrt 3, 3 / sqrt 3)]

theorem weight2 : legWeight (1 / sqrt 3) (3 / sqrt 3) = 1 := by
  have h3 : sqrt 3 ^ 2 = 3 := Real.sq_sqrt (by norm_num)
  unfold legWeight
  rw [div_pow, div_pow, h3]; norm_num

theorem weight2' : legWeight (-(1 / sqrt 3)) (-(3 / sqrt 3)) = 1 := by
  have h := weight2
  unfold legWeight at h ⊢
  rw [neg_sq, neg_sq]; exact h

theorem exact2 : GaussExact 2 roots2 := by
  have h3 : sqrt 3 ^ 2 = 3 := Real.sq_sqrt (by norm_num)
  intro k hk
  have h : k = 0 ∨ k = 1 ∨ k = 2 ∨ k = 3 := by omega
  unfold roots2
  simp only [List.map_cons, List.map_nil, List.sum_cons, List.sum_nil, weight2, weight2']
  rcases h with rfl | rfl | rfl | rfl
  · norm_num
  · norm_num
  · rw [neg_sq, div_pow, h3]; norm_num
  · norm_num
    ring

theorem range2 : ∀ x ∈ roots2, -1 ≤ x.1 ∧ x.1 ≤ 1 := by
  have h3 : sqrt 3 ^ 2 = 3 := Real.sq_sqrt (by norm_num)
  have h0 : 0 < sqrt 3 := by positivity
  have h1 : (1 : ℝ) ≤ sqrt 3 := by nlinarith
  have h2 : 1 / sqrt 3 ≤ 1 := by rw [div_le_one h0]; exact h1
  have h4 : 0 < 1 / sqrt 3 := by positivity
  intro x hx
  unfold roots2 at hx
  simp only [List.mem_cons, List.not_mem_nil, or_false] at hx
  rcases hx with rfl | rfl <;> constructor <;> dsimp only <;> linarith

example : (legendreGrid 2 roots2).length = 18 := legendre_length 2 (by norm_num) roots2
example (c a b) : wmean ((evaluations true (mulM (frame true (fun _ => 1) 0) (rz 1)) (legendreGrid 2 roots2)).map
    fun x => (quadratic c a b x.1, x.2)) = c + (∑ i, ∑ j, b i j i j) / 3 :=
  legendre_average 2 (le_refl 2) roots2 range2 exact2 true true _ ⟨0, one_ne_zero⟩ 0 _ (rz_proper 1).1 c a b
/-- Six points of the sphere, in the way they are stored. -/
noncomputable def six : List (ℝ × ℝ × ℝ) :=
  [(0, 0, 1), (0, π, 1), (0, π / 2, 1), (π, π / 2, 1), (π / 2, π / 2, 1), (-(π / 2), π / 2, 1)]
theorem six_rule : SphereRule (pts six) 6 := by
  constructor <;> simp [pts, six, wsum] <;> norm_num
example (c a b) (gr) (h : lebedevGrid (fun L => if L = 3 then some six else none) 3 = .ok gr) :
    wmean ((evaluations false (mulM (frame false (fun _ => 1) 0) (rz 1)) gr).map
    fun x => (quadratic c a b x.1, x.2)) = c + (∑ i, ∑ j, b i j i j) / 3 :=
  lebedev_average _ 3 (le_refl 3) six rfl 6 (by norm_num) six_rule gr h false false _ ⟨0, one_ne_zero⟩ 0 _ (rz_proper 1).1 c a b
example : wsum (legendreGrid 2 roots2) (fun R => R 2 0) = 0 :=
  legendre_no_alias 2 (le_refl 2) roots2 1 (by decide) (-(π / 2)) (fun v _ => sin v) _ (by
    intro t v w
    have h := euler_row2 (t, v) w 0
    rw [mid_20] at h; dsimp only at h
    rw [h, Int.cast_one, one_mul, ← sub_eq_add_neg, cos_sub_pi_div_two])
example : ¬ Proper (frame true (fun _ => 1) 0) := by
  intro h; have := ((random_spec (fun _ => 1) ⟨0, one_ne_zero⟩ 0 true).2 ⟨rfl, by norm_num⟩).2
  have := h.2.symm.trans this; norm_num at this

end Verif.Rot3
