import Verif.Phys.InstPost
import Mathlib.RingTheory.RootsOfUnity.Lemmas
import Mathlib.RingTheory.RootsOfUnity.Complex
import Mathlib.FieldTheory.KummerExtension
import Mathlib.Analysis.SpecialFunctions.Arsinh
import Mathlib.Analysis.SpecialFunctions.Trigonometric.DerivHyp
import Mathlib.Tactic.FinCases
import Mathlib.Tactic.Linarith
import Mathlib.Tactic.Ring
import Mathlib.Tactic.FieldSimp
import Mathlib.Tactic.NormNum

/-!
# C157: the quantities for an instanton rate

What the post-processing prints for a rate: the whole ring polymer is rebuilt from its half, the action of its
springs is that of the closed ring, the frequencies of the reactant are those of the closed ring polymer, its
vibrational partition function is the exact one of `N` beads and tends to the quantum mechanical one, and the
powers of the number of beads in the instanton's partition functions are those that make the two agree when
all beads coincide.
-/

namespace Verif.InstPost

open Finset Filter Topology

/-! ## The whole ring from its half -/

section
variable {A : Type}

/-- The rebuilt ring reads the same in both directions. -/
theorem double_symm (n0 : ℕ) (q : ℕ → A) (i : ℕ) (hi : i < 2 * n0) : doubleQ n0 q (2 * n0 - 1 - i) = doubleQ n0 q i := by
  unfold doubleQ
  by_cases h : i < n0
  · rw [if_pos h, if_neg (by omega)]; congr 1; omega
  · rw [if_neg h, if_pos (by omega)]; congr 1; omega

/-- Each bead of the ring comes with its own Hessian: the rebuilt Hessian has on its diagonal the Hessian at the
position of that bead and nothing elsewhere. -/
theorem double_hessian [Zero A] {B : Type} (n0 : ℕ) (q : ℕ → B) (hess : B → A) (i j : ℕ) :
    doubleH n0 (blocks fun k => hess (q k)) i j = blocks (fun k => hess (doubleQ n0 q k)) i j := by
  unfold doubleH blocks doubleQ
  by_cases hij : i = j
  · subst hij
    by_cases h : i < n0 <;> simp [h]
  · by_cases h : i < n0 ∧ j < n0 <;> simp [h, hij]

end

section
variable {X : Type} [Fintype X]

theorem dist2_comm (m : X → ℝ) (a b : X → ℝ) : dist2 m a b = dist2 m b a := by
  unfold dist2; exact sum_congr rfl fun c _ => by ring

theorem dist2_self (m : X → ℝ) (a : X → ℝ) : dist2 m a a = 0 := by unfold dist2; simp

theorem path2_double (n0 : ℕ) (q : ℕ → X → ℝ) (m : X → ℝ) : path2 (2 * n0) (doubleQ n0 q) m = 2 * path2 n0 q m := by
  rcases n0 with _ | n
  · simp [path2]
  · unfold path2
    have e : 2 * (n + 1) - 1 = n + (1 + n) := by omega
    rw [e, sum_range_add, sum_range_add, two_mul]
    have h1 : ∑ i ∈ range n, dist2 m (doubleQ (n + 1) q i) (doubleQ (n + 1) q (i + 1)) = ∑ i ∈ range n, dist2 m (q i) (q (i + 1)) := by
      refine sum_congr rfl fun i hi => ?_
      have := mem_range.mp hi
      rw [doubleQ, doubleQ, if_pos (by omega), if_pos (by omega)]
    have h2 : ∑ i ∈ range 1, dist2 m (doubleQ (n + 1) q (n + i)) (doubleQ (n + 1) q (n + i + 1)) = 0 := by
      rw [sum_range_one, doubleQ, doubleQ, if_pos (by omega), if_neg (by omega)]
      have : n + 1 - 1 - (n + 0 + 1 - (n + 1)) = n := by omega
      rw [this]; exact dist2_self _ _
    have h3 : ∑ i ∈ range n, dist2 m (doubleQ (n + 1) q (n + (1 + i))) (doubleQ (n + 1) q (n + (1 + i) + 1))
        = ∑ i ∈ range n, dist2 m (q i) (q (i + 1)) := by
      rw [← sum_range_reflect (fun i => dist2 m (q i) (q (i + 1)))]
      refine sum_congr rfl fun i hi => ?_
      have := mem_range.mp hi
      rw [doubleQ, doubleQ, if_neg (by omega), if_neg (by omega), dist2_comm]
      congr 2 <;> omega
    simp only [Nat.add_sub_cancel]
    rw [h1, h2, h3]; ring

/-- The spring energy of the rebuilt polymer, summed along the chain, is that of the closed ring: the two ends
of the chain coincide. -/
theorem spring_ring (n0 : ℕ) (hn : 0 < n0) (q : ℕ → X → ℝ) (ω2 : ℝ) (m : X → ℝ) : springPot (2 * n0) (doubleQ n0 q) ω2 m
    = ω2 / 2 * ∑ i ∈ range (2 * n0), dist2 m (doubleQ n0 q i) (doubleQ n0 q ((i + 1) % (2 * n0))) := by
  obtain ⟨k, hk⟩ : ∃ k, 2 * n0 = k + 1 := ⟨2 * n0 - 1, by omega⟩
  unfold springPot
  rw [hk, Nat.add_sub_cancel, sum_range_succ, Nat.mod_self]
  have hl : dist2 m (doubleQ n0 q k) (doubleQ n0 q 0) = 0 := by
    have := double_symm n0 q 0 (by omega)
    rw [show 2 * n0 - 1 - 0 = k by omega] at this
    rw [this]; exact dist2_self _ _
  rw [hl, add_zero, mul_sum]
  refine sum_congr rfl fun i hi => ?_
  have := mem_range.mp hi
  rw [Nat.mod_eq_of_lt (by omega)]; ring

/-- The part of the action that comes from the springs is half of the printed `BN` over `betaP`, with `betaP` that
of the whole ring. -/
theorem action2_BN (n0 : ℕ) (q : ℕ → X → ℝ) (m : X → ℝ) (T : ℝ) (hT : 0 < T) (hn : 0 < n0) :
    action2 n0 q m T = BN n0 q m / (2 * (1 / (T * (2 * n0 : ℕ)))) := by
  have hs : springPot (2 * n0) (doubleQ n0 q) ((T * (2 * n0 : ℕ)) ^ 2) m = (T * (2 * n0 : ℕ)) ^ 2 / 2 * path2 (2 * n0) (doubleQ n0 q) m := by
    unfold springPot path2; rw [mul_sum]; exact sum_congr rfl fun i _ => by ring
  have h2 : (0 : ℝ) < (2 * n0 : ℕ) := by exact_mod_cast (by omega : 0 < 2 * n0)
  unfold action2 BN
  rw [hs, path2_double]
  field_simp

omit [Fintype X] in
/-- The part of the action that comes from the potential is the average over the whole ring of the potential
above the reference, over the temperature. -/
theorem action1_ring (n0 : ℕ) (V : (X → ℝ) → ℝ) (q : ℕ → X → ℝ) (V0 T : ℝ) (hT : 0 < T) (hn : 0 < n0) : action1 n0 (fun i => V (q i)) V0 T
    = (∑ i ∈ range (2 * n0), (V (doubleQ n0 q i) - V0)) / (2 * n0 : ℕ) / T := by
  have h2 : (0 : ℝ) < (2 * n0 : ℕ) := by exact_mod_cast (by omega : 0 < 2 * n0)
  have hv : ∑ i ∈ range (2 * n0), V (doubleQ n0 q i) = 2 * ∑ i ∈ range n0, V (q i) := by
    rw [two_mul n0, sum_range_add, two_mul]
    congr 1
    · exact sum_congr rfl fun i hi => by rw [doubleQ, if_pos (mem_range.mp hi)]
    · rw [← sum_range_reflect (fun i => V (q i))]
      refine sum_congr rfl fun i hi => ?_
      have := mem_range.mp hi
      rw [doubleQ, if_neg (by omega)]
      congr 2; omega
  unfold action1
  rw [sum_sub_distrib, hv, sum_const, card_range, nsmul_eq_mul]
  field_simp

/-- The half and its mirror image: three beads give six. -/
example : (List.range 6).map (doubleQ 3 fun i : ℕ => i) = [0, 1, 2, 2, 1, 0] := by decide

end

/-! ## Modes of the springs -/

theorem lap_sum (full : Bool) (n : ℕ) (hn : 2 ≤ n) (v : ℕ → ℝ) (i : ℕ) (hi : i < n) : ∑ j ∈ range n, lapRing full n i j * v j
    = 2 * v i - (if i + 1 < n then v (i + 1) else if full then v 0 else 0)
      - (if 0 < i then v (i - 1) else if full then v (n - 1) else 0) := by
  have hd : ∀ a, a < n → ∀ c : ℝ, ∑ j ∈ range n, (if j = a then c else 0) * v j = c * v a := by
    intro a ha c
    rw [sum_eq_single a]
    · simp
    · intro b _ hb; simp [hb]
    · intro h; exact absurd (mem_range.mpr ha) h
  have e : ∀ j ∈ range n, lapRing full n i j * v j = (if j = i then 2 else 0) * v j + (if j = i + 1 then -1 else 0) * v j
      + (if 0 < i then (if j = i - 1 then -1 else 0) * v j else 0)
      + (if full ∧ i = 0 then (if j = n - 1 then -1 else 0) * v j else 0)
      + (if full ∧ i = n - 1 then (if j = 0 then -1 else 0) * v j else 0) := by
    intro j hj
    have := mem_range.mp hj
    unfold lapRing
    rw [if_neg (by omega)]
    have a1 : (if i = j then (2 : ℝ) else 0) = if j = i then 2 else 0 := if_congr eq_comm rfl rfl
    have a2 : (if i = j + 1 then (-1 : ℝ) else 0) * v j = if 0 < i then (if j = i - 1 then -1 else 0) * v j else 0 := by
      by_cases h : i = j + 1
      · rw [if_pos h, if_pos (by omega), if_pos (by omega)]
      · rw [if_neg h]
        by_cases h0 : 0 < i
        · rw [if_pos h0, if_neg (by omega)]
        · rw [if_neg h0, zero_mul]
    have a3 : (if full = true ∧ i = 0 ∧ j = n - 1 then (-1 : ℝ) else 0) * v j
        = if full ∧ i = 0 then (if j = n - 1 then -1 else 0) * v j else 0 := by
      by_cases h : full = true ∧ i = 0 <;> by_cases h' : j = n - 1
      · rw [if_pos ⟨h.1, h.2, h'⟩, if_pos h, if_pos h']
      · rw [if_neg (fun x => h' x.2.2), if_pos h, if_neg h']
      · rw [if_neg (fun x => h ⟨x.1, x.2.1⟩), if_neg h, zero_mul]
      · rw [if_neg (fun x => h' x.2.2), if_neg h, zero_mul]
    have a4 : (if full = true ∧ j = 0 ∧ i = n - 1 then (-1 : ℝ) else 0) * v j
        = if full ∧ i = n - 1 then (if j = 0 then -1 else 0) * v j else 0 := by
      by_cases h : full = true ∧ i = n - 1 <;> by_cases h' : j = 0
      · rw [if_pos ⟨h.1, h', h.2⟩, if_pos h, if_pos h']
      · rw [if_neg (fun x => h' x.2.1), if_pos h, if_neg h']
      · rw [if_neg (fun x => h ⟨x.1, x.2.2⟩), if_neg h, zero_mul]
      · rw [if_neg (fun x => h' x.2.1), if_neg h, zero_mul]
    rw [add_mul, add_mul, add_mul, add_mul, a1, a2, a3, a4]
  rw [sum_congr rfl e]
  simp only [sum_add_distrib]
  have s1 : ∑ j ∈ range n, (if j = i + 1 then (-1 : ℝ) else 0) * v j = if i + 1 < n then -v (i + 1) else 0 := by
    by_cases h : i + 1 < n
    · rw [hd _ h, if_pos h]; ring
    · rw [if_neg h]
      refine sum_eq_zero fun j hj => ?_
      have := mem_range.mp hj
      rw [if_neg (by omega), zero_mul]
  have s2 : ∑ j ∈ range n, (if 0 < i then (if j = i - 1 then (-1 : ℝ) else 0) * v j else 0) = if 0 < i then -v (i - 1) else 0 := by
    by_cases h : 0 < i
    · simp only [if_pos h]; rw [hd _ (by omega)]; ring
    · simp only [if_neg h, sum_const_zero]
  have s3 : ∑ j ∈ range n, (if full = true ∧ i = 0 then (if j = n - 1 then (-1 : ℝ) else 0) * v j else 0)
      = if full = true ∧ i = 0 then -v (n - 1) else 0 := by
    by_cases h : full = true ∧ i = 0
    · simp only [if_pos h]; rw [hd _ (by omega)]; ring
    · simp only [if_neg h, sum_const_zero]
  have s4 : ∑ j ∈ range n, (if full = true ∧ i = n - 1 then (if j = 0 then (-1 : ℝ) else 0) * v j else 0)
      = if full = true ∧ i = n - 1 then -v 0 else 0 := by
    by_cases h : full = true ∧ i = n - 1
    · simp only [if_pos h]; rw [hd _ (by omega)]; ring
    · simp only [if_neg h, sum_const_zero]
  rw [hd i hi, s1, s2, s3, s4]
  by_cases f : full = true <;> by_cases h1 : i + 1 < n <;> by_cases h0 : 0 < i
  all_goals
    simp only [f, h1, h0, if_true, if_false, true_and, false_and, Bool.false_eq_true]
    first
      | (rw [if_neg (by omega : ¬ i = 0), if_neg (by omega : ¬ i = n - 1)]; ring; done)
      | (rw [if_pos (by omega : i = 0), if_neg (by omega : ¬ i = n - 1)]; ring; done)
      | (rw [if_neg (by omega : ¬ i = 0), if_pos (by omega : i = n - 1)]; ring; done)
      | (exfalso; omega)
      | ring

theorem cos_step (x δ : ℝ) : 2 * Real.cos x - Real.cos (x + δ) - Real.cos (x - δ) = 4 * Real.sin (δ / 2) ^ 2 * Real.cos x := by
  have h : Real.cos δ = 1 - 2 * Real.sin (δ / 2) ^ 2 := by
    have := Real.cos_two_mul (δ / 2)
    rw [show 2 * (δ / 2) = δ by ring] at this
    have := Real.sin_sq_add_cos_sq (δ / 2)
    linarith
  rw [Real.cos_add, Real.cos_sub, h]; ring

/-- The springs of the whole ring have the frequencies that the partition function of the reactant is made of: waves
around the ring, of any phase, are its modes, with `4 sin²(kπ/N)`. -/
theorem ring_modes (n : ℕ) (hn : 2 ≤ n) (k : ℕ) (φ : ℝ) (i : ℕ) (hi : i < n) :
    ∑ j ∈ range n, lapRing true n i j * Real.cos (2 * Real.pi * k / n * j + φ)
      = 4 * Real.sin (k * Real.pi / n) ^ 2 * Real.cos (2 * Real.pi * k / n * i + φ) := by
  have hn0 : (n : ℝ) ≠ 0 := by exact_mod_cast (by omega : n ≠ 0)
  set v : ℕ → ℝ := fun j => Real.cos (2 * Real.pi * k / n * j + φ) with hv
  have up : (if i + 1 < n then v (i + 1) else if (true : Bool) = true then v 0 else 0) = Real.cos ((2 * Real.pi * k / n * i + φ) + 2 * Real.pi * k / n) := by
    by_cases h : i + 1 < n
    · rw [if_pos h, hv]; dsimp only; congr 1; push_cast; ring
    · rw [if_neg h, if_pos rfl, hv]; dsimp only
      have hi' : (i : ℝ) = n - 1 := by
        have : n = i + 1 := by omega
        rw [this]; push_cast; ring
      have : (2 * Real.pi * k / n * i + φ) + 2 * Real.pi * k / n = (2 * Real.pi * k / n * (0 : ℕ) + φ) + k * (2 * Real.pi) := by
        rw [hi']; push_cast; field_simp; ring
      rw [this, Real.cos_add_nat_mul_two_pi]
  have down : (if 0 < i then v (i - 1) else if (true : Bool) = true then v (n - 1) else 0) = Real.cos ((2 * Real.pi * k / n * i + φ) - 2 * Real.pi * k / n) := by
    by_cases h : 0 < i
    · rw [if_pos h, hv]; dsimp only; congr 1; rw [Nat.cast_sub (by omega)]; push_cast; ring
    · rw [if_neg h, if_pos rfl, hv]; dsimp only
      have h0 : i = 0 := by omega
      subst h0
      have : (2 * Real.pi * k / n * ((n - 1 : ℕ) : ℝ) + φ) = (2 * Real.pi * k / n * (0 : ℕ) + φ) - 2 * Real.pi * k / n + k * (2 * Real.pi) := by
        rw [Nat.cast_sub (by omega)]; push_cast; field_simp; ring
      rw [this, Real.cos_add_nat_mul_two_pi]
  have := lap_sum true n hn v i hi
  rw [up, down] at this
  rw [this, cos_step]
  congr 3
  field_simp

/-- For one bead there are no springs. -/
theorem ring_one (full : Bool) (i j : ℕ) : lapRing full 1 i j = 0 := if_pos rfl

/-! ## The partition function of the ring -/

theorem poly_prod (N : ℕ) (hN : 0 < N) (x : ℝ) :
    ∏ k ∈ range N, (x ^ 2 - 2 * x * Real.cos (2 * Real.pi * k / N) + 1) = (x ^ N - 1) ^ 2 := by
  have hN0 : (N : ℂ) ≠ 0 := by exact_mod_cast hN.ne'
  set ζ : ℂ := Complex.exp (2 * Real.pi * Complex.I / N) with hζ
  have hp : IsPrimitiveRoot ζ N := Complex.isPrimitiveRoot_exp N hN.ne'
  have hq : IsPrimitiveRoot ζ⁻¹ N := hp.inv
  have e : ∀ μ : ℂ, IsPrimitiveRoot μ N → ((x : ℂ) ^ N - 1) = ∏ k ∈ range N, ((x : ℂ) - μ ^ k) := by
    intro μ hμ
    have := congrArg (Polynomial.eval (x : ℂ)) (X_pow_sub_C_eq_prod hμ hN (a := 1) (α := 1) (by simp))
    simpa [Polynomial.eval_prod] using this
  have hk : ∀ k : ℕ, ((x : ℂ) - ζ ^ k) * ((x : ℂ) - ζ⁻¹ ^ k) = ((x ^ 2 - 2 * x * Real.cos (2 * Real.pi * k / N) + 1 : ℝ) : ℂ) := by
    intro k
    have h1 : ζ ^ k = Complex.exp ((2 * Real.pi * k / N : ℂ) * Complex.I) := by
      rw [hζ, ← Complex.exp_nat_mul]; congr 1; ring
    have h2 : ζ⁻¹ ^ k = Complex.exp (-(2 * Real.pi * k / N : ℂ) * Complex.I) := by
      rw [inv_pow, h1, ← Complex.exp_neg]; congr 1; ring
    have h3 : ζ ^ k * ζ⁻¹ ^ k = 1 := by rw [← mul_pow, mul_inv_cancel₀ (hp.ne_zero hN.ne'), one_pow]
    have h4 : ζ ^ k + ζ⁻¹ ^ k = 2 * Complex.cos (2 * Real.pi * k / N : ℂ) := by rw [h1, h2, Complex.two_cos]
    push_cast
    linear_combination h3 - (x : ℂ) * h4
  have : ((∏ k ∈ range N, (x ^ 2 - 2 * x * Real.cos (2 * Real.pi * k / N) + 1) : ℝ) : ℂ) = (((x ^ N - 1) ^ 2 : ℝ) : ℂ) := by
    rw [Complex.ofReal_prod, ← prod_congr rfl fun k _ => hk k, prod_mul_distrib, ← e ζ hp, ← e ζ⁻¹ hq]
    push_cast; ring
  exact_mod_cast this

theorem ring_prod (N : ℕ) (hN : 0 < N) (θ : ℝ) :
    ∏ k ∈ range N, (4 * Real.sin (k * Real.pi / N) ^ 2 + (2 * Real.sinh (θ / 2)) ^ 2) = (2 * Real.sinh (N * θ / 2)) ^ 2 := by
  have hx : Real.exp θ ≠ 0 := Real.exp_ne_zero _
  have sq : ∀ y : ℝ, (2 * Real.sinh (y / 2)) ^ 2 = Real.exp y + Real.exp (-y) - 2 := by
    intro y
    rw [Real.sinh_eq]
    have h1 : Real.exp y = Real.exp (y / 2) * Real.exp (y / 2) := by rw [← Real.exp_add]; congr 1; ring
    have h2 : Real.exp (-y) = Real.exp (-(y / 2)) * Real.exp (-(y / 2)) := by rw [← Real.exp_add]; congr 1; ring
    have h3 : Real.exp (y / 2) * Real.exp (-(y / 2)) = 1 := by rw [← Real.exp_add]; simp
    rw [h1, h2]; linear_combination (-2) * h3
  have fac : ∀ k : ℕ, Real.exp θ * (4 * Real.sin (k * Real.pi / N) ^ 2 + (2 * Real.sinh (θ / 2)) ^ 2)
      = Real.exp θ ^ 2 - 2 * Real.exp θ * Real.cos (2 * Real.pi * k / N) + 1 := by
    intro k
    have hc : Real.cos (2 * Real.pi * k / N) = 1 - 2 * Real.sin (k * Real.pi / N) ^ 2 := by
      have := Real.cos_two_mul (k * Real.pi / N)
      rw [show 2 * (k * Real.pi / N) = 2 * Real.pi * k / N by ring] at this
      have := Real.sin_sq_add_cos_sq (k * Real.pi / N)
      linarith
    have h3 : Real.exp θ * Real.exp (-θ) = 1 := by rw [← Real.exp_add]; simp
    rw [sq, hc]; linear_combination h3
  have hp := poly_prod N hN (Real.exp θ)
  rw [← prod_congr rfl fun k _ => fac k, prod_mul_distrib, prod_const, card_range] at hp
  have hN' : Real.exp θ ^ N = Real.exp (N * θ) := by rw [← Real.exp_nat_mul]
  rw [hN'] at hp
  have h3 : Real.exp (N * θ) * Real.exp (-(N * θ)) = 1 := by rw [← Real.exp_add]; simp
  refine mul_left_cancel₀ (Real.exp_ne_zero (N * θ)) ?_
  rw [hp, sq]; linear_combination (-1 : ℝ) * h3

theorem ring_prod_zero (N : ℕ) : ∏ k ∈ range N, (4 * Real.sin ((k + 1 : ℕ) * Real.pi / (N + 1 : ℕ)) ^ 2) = ((N : ℝ) + 1) ^ 2 := by
  have hp : IsPrimitiveRoot (Complex.exp (2 * Real.pi * Complex.I / (N + 1 : ℕ))) (N + 1) := Complex.isPrimitiveRoot_exp _ N.succ_ne_zero
  have h := congrArg Complex.normSq hp.prod_one_sub_pow_eq_order
  rw [map_prod] at h
  have hk : ∀ k : ℕ, Complex.normSq (1 - Complex.exp (2 * Real.pi * Complex.I / (N + 1 : ℕ)) ^ (k + 1))
      = 4 * Real.sin ((k + 1 : ℕ) * Real.pi / (N + 1 : ℕ)) ^ 2 := by
    intro k
    have h1 : Complex.exp (2 * Real.pi * Complex.I / (N + 1 : ℕ)) ^ (k + 1)
        = Complex.exp (((2 * ((k + 1 : ℕ) * Real.pi / (N + 1 : ℕ)) : ℝ) : ℂ) * Complex.I) := by
      rw [← Complex.exp_nat_mul]; congr 1; push_cast; ring
    rw [h1, Complex.normSq_apply]
    simp only [Complex.sub_re, Complex.sub_im, Complex.one_re, Complex.one_im, Complex.exp_ofReal_mul_I_re, Complex.exp_ofReal_mul_I_im]
    rw [Real.cos_two_mul, Real.sin_two_mul]
    generalize (↑(k + 1) * Real.pi / ↑(N + 1) : ℝ) = y
    have := Real.sin_sq_add_cos_sq y
    have hc : Real.cos y ^ 2 = 1 - Real.sin y ^ 2 := by linarith
    ring_nf
    rw [show Real.cos y ^ 4 = (Real.cos y ^ 2) ^ 2 by ring, hc]; ring
  rw [prod_congr rfl fun k _ => hk k] at h
  rw [h]
  have : ((N : ℂ) + 1) = (((N : ℝ) + 1 : ℝ) : ℂ) := by push_cast; rfl
  rw [this, Complex.normSq_ofReal]; ring

theorem ringTerm_sq (betaP : ℝ) (hb : 0 < betaP) (N : ℕ) (w : ℝ) (hw : 0 ≤ w) (k : ℕ) :
    ringTerm betaP N w k ^ 2 = 4 * Real.sin (k * Real.pi / N) ^ 2 + (betaP * √w) ^ 2 := by
  have h0 : 0 ≤ 4 / betaP ^ 2 * Real.sin (k * Real.pi / N) ^ 2 + w := by positivity
  rw [ringTerm, mul_pow, Real.sq_sqrt h0, mul_pow, Real.sq_sqrt hw]
  field_simp

theorem ringTerm_pos (betaP : ℝ) (hb : 0 < betaP) (N : ℕ) (w : ℝ) (hw : 0 < w) (k : ℕ) : 0 < ringTerm betaP N w k := by
  unfold ringTerm
  have h0 : 0 < 4 / betaP ^ 2 * Real.sin (k * Real.pi / N) ^ 2 + w := by positivity
  exact mul_pos hb (Real.sqrt_pos.mpr h0)

theorem log_prod_sq {ι : Type} (s : Finset ι) (f : ι → ℝ) (hf : ∀ i ∈ s, 0 < f i) (c : ℝ) (hc : 0 < c)
    (h : ∏ i ∈ s, f i ^ 2 = c ^ 2) : ∑ i ∈ s, Real.log (f i) = Real.log c := by
  rw [← Real.log_prod fun i hi => (hf i hi).ne']
  congr 1
  rw [prod_pow] at h
  exact (pow_left_inj₀ (prod_pos hf).le hc.le two_ne_zero).mp h

/-- One vibration of the reactant contributes the logarithm of `2 sinh (N θ / 2)`, where `2 sinh (θ / 2) = betaP ω`. -/
theorem ring_log (betaP : ℝ) (hb : 0 < betaP) (N : ℕ) (hN : 0 < N) (w : ℝ) (hw : 0 < w) :
    ∑ k ∈ range N, Real.log (ringTerm betaP N w k) = Real.log (2 * Real.sinh (N * Real.arsinh (betaP * √w / 2))) := by
  have hθ : 0 < Real.arsinh (betaP * √w / 2) := Real.arsinh_pos_iff.mpr (by have := Real.sqrt_pos.mpr hw; positivity)
  have hN' : (0 : ℝ) < N := by exact_mod_cast hN
  refine log_prod_sq _ _ (fun k _ => ringTerm_pos betaP hb N w hw k) _ (by have := Real.sinh_pos_iff.mpr (mul_pos hN' hθ); positivity) ?_
  rw [prod_congr rfl fun k _ => ringTerm_sq betaP hb N w hw.le k]
  have := ring_prod N hN (2 * Real.arsinh (betaP * √w / 2))
  rw [show 2 * Real.arsinh (betaP * √w / 2) / 2 = Real.arsinh (betaP * √w / 2) by ring, Real.sinh_arsinh,
    show (N : ℝ) * (2 * Real.arsinh (betaP * √w / 2)) / 2 = N * Real.arsinh (betaP * √w / 2) by ring,
    show 2 * (betaP * √w / 2) = betaP * √w by ring] at this
  exact this

/-- A free direction contributes the logarithm of the number of beads: its mode without springs is left out. -/
theorem ring_log_zero (betaP : ℝ) (hb : 0 < betaP) (N : ℕ) : ∑ k ∈ range (N + 1), (if k = 0 then 0 else Real.log (ringTerm betaP (N + 1) 0 k))
    = Real.log (N + 1 : ℕ) := by
  rw [sum_range_succ']
  simp only [Nat.add_eq_zero_iff, one_ne_zero, and_false, if_false, if_true, add_zero]
  have hs : ∀ k ∈ range N, 0 < Real.sin ((k + 1 : ℕ) * Real.pi / (N + 1 : ℕ)) := by
    intro k hk
    have hk' := mem_range.mp hk
    have hN : (0 : ℝ) < (N + 1 : ℕ) := by positivity
    refine Real.sin_pos_of_pos_of_lt_pi (by positivity) ?_
    rw [div_lt_iff₀ hN, mul_comm Real.pi]
    exact mul_lt_mul_of_pos_right (by exact_mod_cast (by omega)) Real.pi_pos
  refine log_prod_sq _ _ (fun k hk => ?_) _ (by positivity) ?_
  · unfold ringTerm
    have := hs k hk
    exact mul_pos hb (Real.sqrt_pos.mpr (by positivity))
  · have e : ∀ k ∈ range N, ringTerm betaP (N + 1) 0 (k + 1) ^ 2 = 4 * Real.sin ((k + 1 : ℕ) * Real.pi / (N + 1 : ℕ)) ^ 2 := by
      intro k _
      rw [ringTerm_sq betaP hb _ _ le_rfl]; simp
    rw [prod_congr rfl e, ring_prod_zero]; push_cast; ring

open Classical in
/-- The vibrational partition function printed for the reactant is that of `N` beads in the harmonic potential with
the given eigenvalues: for each, `1 / (2 sinh (N θ / 2))` with `2 sinh (θ / 2) = betaP ω`, and `1 / N` for each zero. -/
theorem reactant_exact {D : ℕ} (betaP : ℝ) (hb : 0 < betaP) (N : ℕ) (hN : 0 < N) (w : Fin D → ℝ) (hw : ∀ n, 0 ≤ w n) :
    rpRate betaP N w = ∑ n, if w n = 0 then Real.log N else Real.log (2 * Real.sinh (N * Real.arsinh (betaP * √(w n) / 2))) := by
  unfold rpRate
  refine sum_congr rfl fun n _ => ?_
  by_cases h : w n = 0
  · rw [if_pos h]
    obtain ⟨M, rfl⟩ : ∃ M, N = M + 1 := ⟨N - 1, by omega⟩
    rw [← ring_log_zero betaP hb M]
    refine sum_congr rfl fun k _ => ?_
    simp only [h, true_and]
  · rw [if_neg h, ← ring_log betaP hb N hN _ (lt_of_le_of_ne (hw n) (Ne.symm h))]
    refine sum_congr rfl fun k _ => if_neg fun x => h x.1

theorem arsinh_limit (a : ℝ) : Tendsto (fun N : ℕ => (N : ℝ) * Real.arsinh (a / N)) atTop (𝓝 a) := by
  by_cases ha : a = 0
  · subst ha; simp
  have hd := Real.hasDerivAt_arsinh 0
  have h1 : (√(1 + (0 : ℝ) ^ 2))⁻¹ = 1 := by simp
  rw [h1, hasDerivAt_iff_tendsto_slope_zero] at hd
  have hz : Tendsto (fun N : ℕ => a / (N : ℝ)) atTop (𝓝[≠] 0) := by
    rw [tendsto_nhdsWithin_iff]
    refine ⟨tendsto_const_div_atTop_nhds_zero_nat a, ?_⟩
    filter_upwards [eventually_gt_atTop 0] with N hN
    have : (N : ℝ) ≠ 0 := by exact_mod_cast hN.ne'
    exact div_ne_zero ha this
  have h2 := (hd.comp hz).const_mul a
  rw [mul_one] at h2
  refine h2.congr' ?_
  filter_upwards [eventually_gt_atTop 0] with N hN
  have : (N : ℝ) ≠ 0 := by exact_mod_cast hN.ne'
  simp only [Function.comp, zero_add, Real.arsinh_zero, sub_zero, smul_eq_mul]
  field_simp

/-- With more and more beads the reactant's partition function tends to the quantum mechanical one, `1 / (2 sinh (β ω / 2))`
for each vibration: the formula used for the transition state. -/
theorem reactant_limit {D : ℕ} (beta : ℝ) (hb : 0 < beta) (w : Fin D → ℝ) (hw : ∀ n, 0 < w n) :
    Tendsto (fun N : ℕ => rpRate (beta / N) N w) atTop (𝓝 (∑ n, Real.log (2 * Real.sinh (beta * √(w n) / 2)))) := by
  have hc : ∀ n, Tendsto (fun N : ℕ => Real.log (2 * Real.sinh (N * Real.arsinh (beta * √(w n) / 2 / N)))) atTop
      (𝓝 (Real.log (2 * Real.sinh (beta * √(w n) / 2)))) := by
    intro n
    have h := arsinh_limit (beta * √(w n) / 2)
    have hp : 0 < 2 * Real.sinh (beta * √(w n) / 2) := by
      have := Real.sinh_pos_iff.mpr (show 0 < beta * √(w n) / 2 by have := Real.sqrt_pos.mpr (hw n); positivity)
      positivity
    exact ((Real.continuousAt_log hp.ne').tendsto.comp ((Real.continuous_sinh.tendsto _ |>.comp h).const_mul 2))
  refine (tendsto_finsetSum _ fun n _ => hc n).congr' ?_
  filter_upwards [eventually_gt_atTop 0] with N hN
  have hN' : (0 : ℝ) < N := by exact_mod_cast hN
  rw [reactant_exact (beta / N) (by positivity) N hN w fun n => (hw n).le]
  refine sum_congr rfl fun n _ => ?_
  rw [if_neg (hw n).ne']
  congr 4; ring

/-- The same for the printed numbers: the value for a transition state, whose first mode is left out, is the limit of the
value for a reactant with the other modes. -/
theorem ts_limit {D : ℕ} (beta : ℝ) (hb : 0 < beta) (w : Fin D → ℝ) (hw : ∀ n, 0 < w n) (a : ℝ) :
    Tendsto (fun N : ℕ => -rpRate (beta / N) N w) atTop (𝓝 (logQvibTS beta (a :: List.ofFn w))) := by
  have h : logQvibTS beta (a :: List.ofFn w) = -∑ n, Real.log (2 * Real.sinh (beta * √(w n) / 2)) := by
    rw [logQvibTS, List.eraseIdx_cons_zero, List.map_ofFn, List.sum_ofFn]; rfl
  rw [h]
  exact (reactant_limit beta hb w hw).neg

/-! ## The instanton's partition functions -/

theorem sum_flat {α β : Type} (f : α → List β) (g : β → ℝ) : ∀ l : List α, ((l.flatMap f).map g).sum = (l.map fun x => ((f x).map g).sum).sum
  | [] => rfl
  | x :: l => by rw [List.flatMap_cons, List.map_append, List.sum_append, sum_flat f g l, List.map_cons, List.sum_cons]

theorem sum_list_range (f : ℕ → ℝ) : ∀ n : ℕ, ((List.range n).map f).sum = ∑ k ∈ range n, f k
  | 0 => rfl
  | n + 1 => by rw [List.range_succ, List.map_append, List.sum_append, sum_list_range f n, sum_range_succ]; simp

/-- The number of beads enters the instanton's vibrational partition function as it should.  Where all beads coincide, the
modes of the ring polymer are those of the reactant formula, and `Z` of them, the free directions, are removed: then the
formula for the instanton, up to the mode it leaves out and the logarithm that replaces this mode, gives what the formula for
the reactant gives. -/
theorem collapsed_consistent {D : ℕ} (betaP : ℝ) (hb : 0 < betaP) (M Z : ℕ) (w : Fin D → ℝ) (hw : ∀ n, 0 < w n) (a x : ℝ) (d : List ℝ)
    (hd : (a :: d).Perm (((List.finRange D).flatMap fun n => (List.range (M + 1)).map fun k : ℕ => 4 / betaP ^ 2 * Real.sin (k * Real.pi / (M + 1 : ℕ)) ^ 2 + w n)
      ++ (List.replicate Z ()).flatMap fun _ => (List.range M).map fun k : ℕ => 4 / betaP ^ 2 * Real.sin ((k + 1 : ℕ) * Real.pi / (M + 1 : ℕ)) ^ 2)) :
    logQvib betaP (M + 1) Z (a :: x :: d) = -rpRate betaP (M + 1) w + Real.log (M + 1 : ℕ) := by
  have hs : ((a :: d).map fun x => Real.log (betaP * √|x|)).sum = rpRate betaP (M + 1) w + Z * Real.log (M + 1 : ℕ) := by
    rw [(hd.map _).sum_eq, List.map_append, List.sum_append, sum_flat, sum_flat]
    congr 1
    · unfold rpRate
      rw [← List.ofFn_eq_map, List.sum_ofFn]
      refine sum_congr rfl fun n _ => ?_
      rw [List.map_map, sum_list_range]
      refine sum_congr rfl fun k _ => ?_
      rw [if_neg fun h => (hw n).ne' h.1, Function.comp, ringTerm, abs_of_nonneg]
      have := (hw n).le
      positivity
    · rw [List.map_replicate, List.sum_replicate, nsmul_eq_mul, ← ring_log_zero betaP hb M, sum_range_succ']
      simp only [Nat.add_eq_zero_iff, one_ne_zero, and_false, if_false, if_true, add_zero]
      congr 1
      rw [List.map_map, sum_list_range]
      refine sum_congr rfl fun k _ => ?_
      rw [Function.comp, ringTerm, abs_of_nonneg (by positivity), add_zero]
  have he : (a :: x :: d).eraseIdx 1 = a :: d := rfl
  rw [logQvib, he, hs]; ring

/-- The eigenvalue that is second is left out, whatever it is. -/
theorem second_left_out (betaP : ℝ) (N Z : ℕ) (a x y : ℝ) (d : List ℝ) : logQvib betaP N Z (a :: x :: d) = logQvib betaP N Z (a :: y :: d) := rfl

/-- If the mode that permutes the beads was already removed with the overall motions, a vibration is lost: the true
partition function, without that mode, differs. -/
theorem vibration_lost : ∃ (betaP : ℝ) (a v : ℝ) (d : List ℝ), 0 < betaP ∧ a < 0 ∧ 0 < v ∧
    logQvib betaP 4 6 (a :: v :: d) ≠ logQvib betaP 4 6 (a :: 0 :: v :: d) := by
  refine ⟨1, -1, Real.exp 2, [], one_pos, by norm_num, Real.exp_pos _, fun h => ?_⟩
  have h2 : √|Real.exp 2| = Real.exp 1 := by
    rw [abs_of_pos (Real.exp_pos _), show Real.exp 2 = Real.exp 1 ^ 2 by rw [← Real.exp_nat_mul]; norm_num]
    exact Real.sqrt_sq (Real.exp_pos _).le
  unfold logQvib at h
  simp only [List.eraseIdx_cons_succ, List.eraseIdx_cons_zero, List.map_cons, List.map_nil, List.sum_cons, List.sum_nil, h2, one_mul,
    Real.log_exp] at h
  linarith

/-- The rotational partition function of the instanton is that of the reactant when all `N` beads coincide: then the tensor
of inertia of the ring polymer is `N` times that of one bead. -/
theorem rotation_consistent (beta : ℝ) (hb : 0 < beta) (N : ℕ) (hN : 0 < N) (I : Matrix (Fin 3) (Fin 3) ℝ) :
    qrotInst (beta / N) ((N : ℝ) • I).det N = qrot beta I.det := by
  have hN' : (0 : ℝ) < N := by exact_mod_cast hN
  unfold qrotInst qrot
  rw [Matrix.det_smul, Fintype.card_fin]
  have : 8 * Real.pi * ((N : ℝ) ^ 3 * I.det) / (beta / N) ^ 3 = ((N : ℝ) ^ 3) ^ 2 * (8 * Real.pi * I.det / beta ^ 3) := by field_simp
  rw [this, Real.sqrt_mul (by positivity), Real.sqrt_sq (by positivity)]
  field_simp

/-- A calculation whose beads are not equally spaced in imaginary time is evaluated as if they were: the potential enters
the optimised action with the weights of the discretisation, and the printed action without. -/
theorem discretization_ignored : ∃ (coef pots : ℕ → ℝ), (∀ i, 0 < coef i) ∧
    action1 2 pots 0 1 ≠ (2 * ∑ i ∈ range 2, pots i * ((coef i + coef (i + 1)) / 2)) / (1 * (2 * 2 : ℕ)) := by
  refine ⟨fun i => if i = 1 then 1 else 3, fun i => if i = 0 then 1 else 0, fun i => by dsimp only; split <;> norm_num, ?_⟩
  unfold action1
  simp only [sum_range_succ, sum_range_zero]
  norm_num

/-- Equal spacings. -/
theorem discretization_equal (n0 : ℕ) (coef pots : ℕ → ℝ) (h : ∀ i, coef i = 1) (T : ℝ) :
    action1 n0 pots 0 T = (2 * ∑ i ∈ range n0, pots i * ((coef i + coef (i + 1)) / 2)) / (T * (2 * n0 : ℕ)) := by
  unfold action1
  simp only [h]
  norm_num

/-- The hypotheses of `collapsed_consistent` can be met: one vibration and one free direction, two beads. -/
example : ∃ (a : ℝ) (d : List ℝ), (a :: d).Perm (((List.finRange 1).flatMap fun _ => (List.range (1 + 1)).map fun k : ℕ =>
    4 / (1 : ℝ) ^ 2 * Real.sin (k * Real.pi / (1 + 1 : ℕ)) ^ 2 + 1) ++ (List.replicate 1 ()).flatMap fun _ => (List.range 1).map fun k : ℕ =>
    4 / (1 : ℝ) ^ 2 * Real.sin ((k + 1 : ℕ) * Real.pi / (1 + 1 : ℕ)) ^ 2) := ⟨_, _, List.Perm.refl _⟩

example : ∃ w : Fin 2 → ℝ, ∀ n, 0 < w n := ⟨fun _ => 1, fun _ => one_pos⟩

/-- The squared distance is that of mass-weighted coordinates. -/
theorem dist2_weighted {X : Type} [Fintype X] (m : X → ℝ) (hm : ∀ c, 0 ≤ m c) (a b : X → ℝ) :
    dist2 m a b = ∑ c, (√(m c) * b c - √(m c) * a c) ^ 2 := by
  unfold dist2
  refine sum_congr rfl fun c _ => ?_
  rw [← mul_sub, mul_pow, Real.sq_sqrt (hm c)]
  ring

end Verif.InstPost
