import Verif.Tools.PpiFortran
import Mathlib.Tactic.Ring
import Mathlib.Tactic.FieldSimp

/-! C184: compiling the module of the scripts for perturbed path integrals does not change them. -/

namespace Verif.Ppi

open Finset Verif.Estim

variable {n N : ℕ}

theorem sum_one (k : ℕ) (g : ℕ → ℝ) : ∑ i ∈ Icc 1 k, g i = ∑ i : Fin k, g (i + 1) := by
  rw [← Finset.sum_range (fun i => g (i + 1))]
  induction k with
  | zero => simp
  | succ k ih => rw [Finset.sum_Icc_succ_top (by omega), ih, Finset.sum_range_succ]

theorem one_flat (q : Conf n N) (b : Fin (n + 1)) (a : Fin N) (d : Fin 3) (i j : ℕ)
    (hi : i = b + 1) (hj : j = 3 * a + d + 1) : one (flat q) i j = q (b, a, d) := by
  subst hi hj
  have h1 : (3 * (a : ℕ) + d) / 3 = a := by omega
  have h2 : (3 * (a : ℕ) + d) % 3 = d := by omega
  have hb : (b : ℕ) < n + 1 := b.2
  simp [one, flat, h1, h2, hb]

theorem masses_at (m : Fin N → ℝ) (a : Fin N) : masses m (a + 1) = m a := by
  simp [masses]

/-- The sum of squared forces over masses is the same. -/
theorem f2_fast (m : Fin N → ℝ) (x : Frame n N) : f2Fast m x = f2 m x := by
  unfold f2Fast f2divM f2
  rw [sum_one]
  refine Finset.sum_congr rfl fun b _ => ?_
  rw [sum_one]
  refine Finset.sum_congr rfl fun a _ => ?_
  rw [masses_at, Fin.sum_univ_three,
    one_flat x.f b a 0 _ _ rfl (by show 3 * ((a : ℕ) + 1) - 2 = 3 * a + 0 + 1; omega),
    one_flat x.f b a 1 _ _ rfl (by show 3 * ((a : ℕ) + 1) - 1 = 3 * a + 1 + 1; omega),
    one_flat x.f b a 2 _ _ rfl (by show 3 * ((a : ℕ) + 1) = 3 * a + 2 + 1; omega)]

/-- The thermodynamic estimator is the same: the constant differs because the subroutine takes the
temperature. -/
theorem kPa_fast (S : Setup N) (x : Frame n N) : kPaFast S x = kPa S.beta S.hbar S.m x := by
  have hc : findCoupling (one (flat x.q)) (masses S.m) S.temp N (n + 1) =
      (0 - (∑ a, (∑ d, (x.q (0, a, d) - x.q (Fin.last n, a, d))
          * (x.q (0, a, d) - x.q (Fin.last n, a, d))) * S.m a)
        - ∑ b : Fin n, ∑ a, (∑ d, (x.q (b.succ, a, d) - x.q (b.castSucc, a, d))
          * (x.q (b.succ, a, d) - x.q (b.castSucc, a, d))) * S.m a)
        * (0.5 * ((n + 1 : ℕ) : ℝ) * S.temp ^ 2) := by
    unfold findCoupling
    rw [sum_one, Finset.sum_comm (s := (univ : Finset (Fin n)))]
    have : ∀ a : Fin N,
        ((∑ ib ∈ Icc 1 (n + 1 - 1),
          ((one (flat x.q) ib (3 * ((a : ℕ) + 1) - 2) - one (flat x.q) (ib + 1) (3 * ((a : ℕ) + 1) - 2)) ^ 2
          + (one (flat x.q) ib (3 * ((a : ℕ) + 1) - 1) - one (flat x.q) (ib + 1) (3 * ((a : ℕ) + 1) - 1)) ^ 2
          + (one (flat x.q) ib (3 * ((a : ℕ) + 1)) - one (flat x.q) (ib + 1) (3 * ((a : ℕ) + 1))) ^ 2))
        + (one (flat x.q) (n + 1) (3 * ((a : ℕ) + 1) - 2) - one (flat x.q) 1 (3 * ((a : ℕ) + 1) - 2)) ^ 2
        + (one (flat x.q) (n + 1) (3 * ((a : ℕ) + 1) - 1) - one (flat x.q) 1 (3 * ((a : ℕ) + 1) - 1)) ^ 2
        + (one (flat x.q) (n + 1) (3 * ((a : ℕ) + 1)) - one (flat x.q) 1 (3 * ((a : ℕ) + 1))) ^ 2)
          * masses S.m (a + 1)
        = (∑ d, (x.q (0, a, d) - x.q (Fin.last n, a, d)) * (x.q (0, a, d) - x.q (Fin.last n, a, d))) * S.m a
          + ∑ b : Fin n, (∑ d, (x.q (b.succ, a, d) - x.q (b.castSucc, a, d))
            * (x.q (b.succ, a, d) - x.q (b.castSucc, a, d))) * S.m a := by
      intro a
      have e0 : 3 * ((a : ℕ) + 1) - 2 = 3 * a + ((0 : Fin 3) : ℕ) + 1 := by
        show 3 * ((a : ℕ) + 1) - 2 = 3 * a + 0 + 1; omega
      have e1 : 3 * ((a : ℕ) + 1) - 1 = 3 * a + ((1 : Fin 3) : ℕ) + 1 := by
        show 3 * ((a : ℕ) + 1) - 1 = 3 * a + 1 + 1; omega
      have e2 : 3 * ((a : ℕ) + 1) = 3 * a + ((2 : Fin 3) : ℕ) + 1 := by
        show 3 * ((a : ℕ) + 1) = 3 * a + 2 + 1; omega
      have hl : n + 1 = ((Fin.last n : Fin (n + 1)) : ℕ) + 1 := by simp
      have hz : 1 = ((0 : Fin (n + 1)) : ℕ) + 1 := by simp
      rw [masses_at, Nat.add_sub_cancel, sum_one,
        one_flat x.q (Fin.last n) a 0 _ _ hl e0, one_flat x.q (Fin.last n) a 1 _ _ hl e1,
        one_flat x.q (Fin.last n) a 2 _ _ hl e2, one_flat x.q 0 a 0 _ _ hz e0,
        one_flat x.q 0 a 1 _ _ hz e1, one_flat x.q 0 a 2 _ _ hz e2, ← Finset.sum_mul,
        Fin.sum_univ_three]
      have hs : ∀ b : Fin n,
          ((one (flat x.q) (b + 1) (3 * ((a : ℕ) + 1) - 2)
              - one (flat x.q) (b + 1 + 1) (3 * ((a : ℕ) + 1) - 2)) ^ 2
          + (one (flat x.q) (b + 1) (3 * ((a : ℕ) + 1) - 1)
              - one (flat x.q) (b + 1 + 1) (3 * ((a : ℕ) + 1) - 1)) ^ 2
          + (one (flat x.q) (b + 1) (3 * ((a : ℕ) + 1))
              - one (flat x.q) (b + 1 + 1) (3 * ((a : ℕ) + 1))) ^ 2)
          = ∑ d, (x.q (b.succ, a, d) - x.q (b.castSucc, a, d)) * (x.q (b.succ, a, d) - x.q (b.castSucc, a, d)) := by
        intro b
        have hc : (b : ℕ) + 1 = (b.castSucc : ℕ) + 1 := by simp
        have hd : (b : ℕ) + 1 + 1 = (b.succ : ℕ) + 1 := by simp
        rw [one_flat x.q b.castSucc a 0 _ _ hc e0, one_flat x.q b.castSucc a 1 _ _ hc e1,
          one_flat x.q b.castSucc a 2 _ _ hc e2, one_flat x.q b.succ a 0 _ _ hd e0,
          one_flat x.q b.succ a 1 _ _ hd e1, one_flat x.q b.succ a 2 _ _ hd e2, Fin.sum_univ_three]
        ring
      rw [Finset.sum_congr rfl fun b _ => hs b]
      ring
    rw [Finset.sum_congr rfl fun a _ => this a, Finset.sum_add_distrib]
    ring
  have hb : 1 / (S.beta * S.hbar) ^ 2 = S.kb ^ 2 * S.temp ^ 2 / S.hbar ^ 2 := by
    unfold Setup.beta
    rw [mul_pow, div_pow, one_pow, one_div, mul_inv, ← div_eq_mul_inv, one_div, inv_inv, mul_pow]
  unfold kPaFast kPa
  dsimp only
  rw [hc]
  rw [show 0.5 * ((n + 1 : ℕ) : ℝ) / (S.beta * S.hbar) ^ 2
      = 0.5 * ((n + 1 : ℕ) : ℝ) * (1 / (S.beta * S.hbar) ^ 2) by ring, hb]
  ring

/-- The sum over the beads of `(mean A - A) * F` does not change when `A` and `F` are exchanged. -/
theorem exchange {P : ℕ} (A F : Fin P → ℝ) :
    ∑ b, ((∑ b', A b') / (P : ℝ) - A b) * F b = ∑ b, ((∑ b', F b') / (P : ℝ) - F b) * A b := by
  have h : ∀ A F : Fin P → ℝ, ∑ b, ((∑ b', A b') / (P : ℝ) - A b) * F b
      = (∑ b, A b) * (∑ b, F b) / P - ∑ b, A b * F b := by
    intro A F
    rw [Finset.sum_congr rfl fun b _ => sub_mul _ _ _, Finset.sum_sub_distrib, ← Finset.mul_sum]
    ring
  rw [h, h, mul_comm (∑ b, F b)]
  congr 1
  exact Finset.sum_congr rfl fun b _ => mul_comm _ _

/-- The centroid virial estimator is the same although the arguments are in the wrong order. -/
theorem kVir_fast (S : Setup N) (x : Frame n N) : kVirFast S x = kVir S.beta x := by
  unfold kVirFast kVir findCentroidVirial
  dsimp only
  rw [sum_one]
  congr 2
  refine Finset.sum_congr rfl fun a _ => ?_
  rw [Finset.sum_comm (s := (univ : Finset (Fin (n + 1)))), sum_one]
  refine Finset.sum_congr rfl fun d _ => ?_
  have e : (d : ℕ) + 1 + 3 * ((a : ℕ) + 1) - 3 = 3 * a + d + 1 := by omega
  rw [sum_one, sum_one]
  rw [Finset.sum_congr rfl fun b _ => one_flat x.f b a d _ _ rfl e]
  rw [← exchange (fun b => x.f (b, a, d)) (fun b => x.q (b, a, d))]
  refine Finset.sum_congr rfl fun b _ => ?_
  rw [one_flat x.f b a d _ _ rfl e, one_flat x.q b a d _ _ rfl e]

/-- A frame changes all sums in the same way. -/
theorem add_fast (S : Setup N) (s : Sums) (x : Frame n N) : s.addFast S x = s.add S x := by
  unfold Sums.addFast Sums.add
  rw [f2_fast, kPa_fast, kVir_fast]

/-- Every row of the output is the same with and without the compiled module, for the energies and for
the heat capacity alike. -/
theorem rows_fast {R : Type} (S : Setup N) (row : ℝ → Sums → ℝ → R) (ifr : ℕ) (time0 : ℝ) (s : Sums)
    (xs : List (Frame n N)) : loopFast S row ifr time0 s xs = loop S row ifr time0 s xs := by
  induction xs generalizing ifr time0 s with
  | nil => rfl
  | cons x xs ih =>
    rw [loopFast, loop]
    split_ifs
    · exact ih _ _ _
    · rw [add_fast]
      dsimp only
      rw [ih]

/-- The two programs. -/
theorem scripts_fast (S : Setup N) (xs : List (Frame n N)) :
    loopFast S (eRow n S) 0 0 Sums.zero xs = energies S xs ∧
      loopFast S (cRow n S) 0 0 Sums.zero xs = heatCapacity S xs :=
  ⟨rows_fast _ _ _ _ _ _, rows_fast _ _ _ _ _ _⟩

/-- A subroutine called with arguments in the right order would give the same too. -/
theorem order_irrelevant (q f : Conf n N) :
    findCentroidVirial (one (flat f)) (one (flat q)) N (n + 1)
      = findCentroidVirial (one (flat q)) (one (flat f)) N (n + 1) := by
  unfold findCentroidVirial
  dsimp only
  congr 1
  refine Finset.sum_congr rfl fun a _ => Finset.sum_congr rfl fun d _ => ?_
  rw [sum_one, sum_one, sum_one, sum_one]
  exact exchange (fun b => one (flat f) (b + 1) (d + 3 * a - 3)) (fun b => one (flat q) (b + 1) (d + 3 * a - 3))

/-- Two beads of one atom: the sums are not trivial. -/
example : f2Fast (n := 1) (N := 1) (fun _ => 2)
    ⟨fun _ => 0, fun i => if i.1 = 0 ∧ i.2.2 = 1 then 4 else 0, 0, 0⟩ = 8 := by
  rw [f2_fast]
  simp [f2, Fin.sum_univ_succ]
  norm_num

end Verif.Ppi
