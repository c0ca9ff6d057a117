import Verif.Phys.ExchangeLemmas
import Mathlib.Tactic.NormNum

/-!
# C37: energies of the bosonic exchange

Small specification: a cycle of the particles `u … v` is one long ring polymer that goes through
all the beads of `u`, then all the beads of `u + 1`, and so on up to `v`, and then closes.
`ringBead` lists its beads and `ringEnergy` is the sum of the squares of its `P (v - u + 1)`
links.  The exchange potential is defined by the sum over all the cuttings of the particles
into consecutive cycles (`Verif.Cut.cuttings`), each cycle weighted by its Boltzmann factor
divided by the number of particles up to its last one.
-/

namespace Verif.Exchange

open Finset Verif.Cut

/-- Bead `t` of the ring polymer that starts at the first bead of particle `u`. -/
def ringBead (P : ℕ) (q : Pos) (u t : ℕ) : Fin 3 → ℝ := q (t % P) (u + t / P)

/-- Squared lengths of the links of the closed ring polymer through the particles `u … v`. -/
def ringEnergy (P : ℕ) (q : Pos) (u v : ℕ) : ℝ :=
  ∑ t ∈ range (P * (v - u + 1)),
    ∑ c, (ringBead P q u ((t + 1) % (P * (v - u + 1))) c - ringBead P q u t c) ^ 2

/-- The cycle energy by links: inside the particles, between neighbours, and the closing one. -/
theorem cycle_closed (P : ℕ) (q : Pos) (pre : ℝ) : ∀ k s,
    cycleFrom P q pre k s = pre * (∑ i ∈ range (k + 1), intra P q (s + i)
      + ∑ i ∈ range k, inter P q (s + i + 1) (s + i) + inter P q s (s + k)) := by
  intro k
  induction k with
  | zero => intro s; rw [cycleFrom]; simp
  | succ k ih =>
    intro s
    rw [cycleFrom, ih (s + 1), sum_range_succ' (fun i => intra P q (s + i)) (k + 1),
      sum_range_succ' (fun i => inter P q (s + i + 1) (s + i)) k]
    have e1 : ∀ i, s + 1 + i = s + (i + 1) := by intro i; omega
    simp only [e1, Nat.add_zero]
    ring

theorem sum_blocks (f : ℕ → ℝ) (P : ℕ) : ∀ K,
    ∑ t ∈ range (P * K), f t = ∑ i ∈ range K, ∑ j ∈ range P, f (P * i + j) := by
  intro K
  induction K with
  | zero => simp
  | succ K ih => rw [Nat.mul_succ, sum_range_add, ih, sum_range_succ]

/-- **C37, cycle energies.**  For every number of beads and every pair of particles, the
recurrence gives the spring energy of the ring polymer through the particles `u … v`. -/
theorem cycle_energy_is_ring_energy (P : ℕ) (hP : 0 < P) (q : Pos) (pre : ℝ) (u v : ℕ) (h : u ≤ v) :
    cycleE P q pre u v = pre * ringEnergy P q u v := by
  unfold cycleE
  rw [if_pos h, cycle_closed]
  obtain ⟨k, rfl⟩ := Nat.exists_eq_add_of_le h
  have hk : u + k - u = k := by omega
  rw [hk]
  congr 1
  unfold ringEnergy
  rw [hk, sum_blocks _ P (k + 1)]
  obtain ⟨p, rfl⟩ : ∃ p, P = p + 1 := ⟨P - 1, by omega⟩
  -- links inside a particle
  have hin : ∀ i < k + 1, ∀ j < p, ∑ c, (ringBead (p + 1) q u
        (((p + 1) * i + j + 1) % ((p + 1) * (k + 1))) c - ringBead (p + 1) q u ((p + 1) * i + j) c) ^ 2
      = ∑ c, diffIntra q j (u + i) c ^ 2 := by
    intro i hi j hj
    have hlt : (p + 1) * i + j + 1 < (p + 1) * (k + 1) := by
      have : (p + 1) * (i + 1) ≤ (p + 1) * (k + 1) := Nat.mul_le_mul_left _ hi
      rw [Nat.mul_succ] at this
      omega
    rw [Nat.mod_eq_of_lt hlt]
    unfold ringBead diffIntra
    rw [Nat.add_assoc, Nat.mul_add_mod, Nat.mul_add_mod, Nat.mul_add_div (by omega),
      Nat.mul_add_div (by omega), Nat.mod_eq_of_lt (by omega : j + 1 < p + 1),
      Nat.mod_eq_of_lt (by omega : j < p + 1), Nat.div_eq_of_lt (by omega : j + 1 < p + 1),
      Nat.div_eq_of_lt (by omega : j < p + 1), Nat.add_zero i]
  -- links from one particle to the next
  have hout : ∀ i < k, ∑ c, (ringBead (p + 1) q u
        (((p + 1) * i + p + 1) % ((p + 1) * (k + 1))) c - ringBead (p + 1) q u ((p + 1) * i + p) c) ^ 2
      = inter (p + 1) q (u + i + 1) (u + i) := by
    intro i hi
    have hlt : (p + 1) * (i + 1) < (p + 1) * (k + 1) :=
      Nat.mul_lt_mul_of_pos_left (by omega) (by omega)
    have e : (p + 1) * i + p + 1 = (p + 1) * (i + 1) := by rw [Nat.mul_succ]; omega
    rw [e, Nat.mod_eq_of_lt hlt]
    unfold ringBead inter diffInter
    rw [Nat.mul_mod_right, Nat.mul_div_cancel_left _ (by omega), Nat.mul_add_mod,
      Nat.mul_add_div (by omega), Nat.mod_eq_of_lt (by omega : p < p + 1),
      Nat.div_eq_of_lt (by omega : p < p + 1), Nat.add_zero i, Nat.add_sub_cancel, Nat.add_assoc]
  -- the link that closes the ring
  have hlast : ∑ c, (ringBead (p + 1) q u
        (((p + 1) * k + p + 1) % ((p + 1) * (k + 1))) c - ringBead (p + 1) q u ((p + 1) * k + p) c) ^ 2
      = inter (p + 1) q u (u + k) := by
    have e : (p + 1) * k + p + 1 = (p + 1) * (k + 1) := by rw [Nat.mul_succ]; omega
    rw [e, Nat.mod_self]
    unfold ringBead inter diffInter
    rw [Nat.zero_mod, Nat.zero_div, Nat.mul_add_mod,
      Nat.mul_add_div (by omega), Nat.mod_eq_of_lt (by omega : p < p + 1),
      Nat.div_eq_of_lt (by omega : p < p + 1), Nat.add_zero k, Nat.add_sub_cancel, Nat.add_zero u]
  have e1 : ∀ i ∈ range (k + 1), ∑ j ∈ range (p + 1), ∑ c, (ringBead (p + 1) q u
        (((p + 1) * i + j + 1) % ((p + 1) * (k + 1))) c - ringBead (p + 1) q u ((p + 1) * i + j) c) ^ 2
      = intra (p + 1) q (u + i) + ∑ c, (ringBead (p + 1) q u
        (((p + 1) * i + p + 1) % ((p + 1) * (k + 1))) c - ringBead (p + 1) q u ((p + 1) * i + p) c) ^ 2 := by
    intro i hi
    rw [mem_range] at hi
    rw [sum_range_succ]
    congr 1
    unfold intra
    rw [Nat.add_sub_cancel]
    exact sum_congr rfl (fun j hj => hin i hi j (mem_range.1 hj))
  rw [sum_congr rfl e1, sum_add_distrib, add_assoc]
  congr 1
  rw [sum_range_succ, hlast]
  congr 1
  exact sum_congr rfl (fun i hi => (hout i (mem_range.1 hi)).symm)

/-- The weight of one cutting: the product over its cycles of the Boltzmann factor divided by the
number of particles up to the last of the cycle. -/
noncomputable def cuttingWeight (β : ℝ) (E : ℕ → ℕ → ℝ) (bs : List (ℕ × ℕ)) : ℝ :=
  (bs.map (fun b => Real.exp (-β * E b.1 b.2) / ((b.2 + 1 : ℕ) : ℝ))).prod

/-- **C37, exchange potential.**  For every number of particles, every table of cycle energies and
every inverse temperature that is not zero, entry `m` of the potentials is minus the logarithm of
the sum over all the cuttings of the first `m` particles, divided by the inverse temperature. -/
theorem potential_is_sum_over_cuttings (β : ℝ) (hβ : β ≠ 0) (E : ℕ → ℕ → ℝ) (N m : ℕ) (h : m ≤ N) :
    V β E N m = - Real.log ((cuttings 0 m).map (cuttingWeight β E)).sum / β := by
  have h1 := exp_V hβ E N m h
  have h2 : ((cuttings 0 m).map (cuttingWeight β E)).sum = Real.exp (-β * V β E N m) := by
    rw [h1]; rfl
  rw [h2, Real.log_exp]
  field_simp

/-- The backward recurrence: the sum over all the cuttings of the particles from `l` on. -/
theorem suffix_is_sum_over_cuttings (β : ℝ) (hβ : β ≠ 0) (E : ℕ → ℕ → ℝ) (N l : ℕ) (h : l ≤ N)
    (hN : 0 < N) :
    RV β E N l = - Real.log ((cuttings l (N - l)).map (cuttingWeight β E)).sum / β := by
  have h1 := exp_RV hβ E N l h hN
  have h2 : ((cuttings l (N - l)).map (cuttingWeight β E)).sum = Real.exp (-β * RV β E N l) := by
    rw [h1]; rfl
  rw [h2, Real.log_exp]
  field_simp

/-- **C37, both directions agree.**  The backward recurrence continued to the first particle gives
the exchange potential of the forward recurrence. -/
theorem backward_eq_forward (β : ℝ) (hβ : β ≠ 0) (E : ℕ → ℕ → ℝ) (N : ℕ) :
    (suffixV β E N N).getD 0 0 = V β E N N := by
  have h1 := exp_suffix hβ E N N (le_refl _) 0 (Nat.zero_le _)
  rw [Nat.sub_self, Nat.zero_add, ← exp_V hβ E N N (le_refl _)] at h1
  have h2 := Real.exp_injective h1
  have h3 : (-β) ≠ 0 := neg_ne_zero.2 hβ
  exact mul_left_cancel₀ h3 h2

/-- **C37, the shift.**  Whatever number is subtracted before the exponentials are taken, the
result is the same. -/
theorem shift_irrelevant (β : ℝ) (hβ : β ≠ 0) (sub : List ℝ) (hs : sub ≠ []) (m : ℕ) (hm : 0 < m)
    (e e' : ℝ) :
    e - Real.log ((sub.map (fun s => Real.exp (-β * (s - e)))).sum / m) / β
      = e' - Real.log ((sub.map (fun s => Real.exp (-β * (s - e')))).sum / m) / β := by
  have key : ∀ x : ℝ, (sub.map (fun s => Real.exp (-β * (s - x)))).sum
      = Real.exp (β * x) * (sub.map (fun s => Real.exp (-β * s))).sum := by
    intro x
    rw [← List.sum_map_mul_left]
    congr 1
    refine List.map_congr_left (fun s _ => ?_)
    rw [← Real.exp_add]; congr 1; ring
  have hpos : 0 < (sub.map (fun s => Real.exp (-β * s))).sum := by
    cases sub with
    | nil => exact absurd rfl hs
    | cons a t =>
      rw [List.map_cons, List.sum_cons]
      have : 0 ≤ (t.map (fun s => Real.exp (-β * s))).sum :=
        List.sum_nonneg (by intro x hx; obtain ⟨s, -, rfl⟩ := List.mem_map.1 hx; exact (Real.exp_pos _).le)
      linarith [Real.exp_pos (-β * a)]
  have hm' : (0 : ℝ) < (m : ℝ) := by exact_mod_cast hm
  have h1 : ∀ x : ℝ, x - Real.log ((sub.map (fun s => Real.exp (-β * (s - x)))).sum / m) / β
      = - Real.log ((sub.map (fun s => Real.exp (-β * s))).sum / m) / β := by
    intro x
    rw [key, mul_div_assoc, Real.log_mul (Real.exp_pos _).ne' (div_pos hpos hm').ne', Real.log_exp]
    field_simp; ring
  rw [h1, h1]

/-- The weights of the cuttings are normalised: without springs the exchange potential is zero. -/
theorem free_potential_zero (β : ℝ) (hβ : β ≠ 0) (N : ℕ) : ∀ m ≤ N, V β (fun _ _ => 0) N m = 0 := by
  intro m hm
  have key : ∀ m ≤ N, Real.exp (-β * V β (fun _ _ => 0) N m) = 1 := by
    intro m
    induction m using Nat.strong_induction_on with
    | _ m ih =>
      intro hm
      cases m with
      | zero => rw [V_zero]; simp
      | succ m =>
        rw [exp_V_succ hβ _ N m (by omega)]
        have e : ∀ u ∈ range (m + 1), Real.exp (-β * V β (fun _ _ => 0) N u)
            * gw β (fun _ _ => 0) u m = 1 / ((m + 1 : ℕ) : ℝ) := by
          intro u hu
          rw [mem_range] at hu
          rw [ih u (by omega) (by omega)]
          simp [gw]
        rw [sum_congr rfl e, sum_const, card_range, nsmul_eq_mul]
        have : ((m + 1 : ℕ) : ℝ) ≠ 0 := by positivity
        field_simp
  have h1 := key m hm
  have h2 := (Real.exp_eq_one_iff _).1 h1
  rcases mul_eq_zero.1 h2 with h3 | h3
  · exact absurd (neg_eq_zero.1 h3) hβ
  · exact h3

/-- **C37.**  All together for the potential the simulation uses: for every number of particles
and beads, all positions and all temperatures, the exchange potential is given by the sum over all
the cuttings of the product over the cycles of the Boltzmann factors of the ring polymers. -/
theorem exchange_potential (P N : ℕ) (hP : 0 < P) (q : Pos) (pre β : ℝ) (hβ : 0 < β) :
    Real.exp (-β * V β (cycleE P q pre) N N)
      = ((cuttings 0 N).map (fun bs => (bs.map (fun b =>
          Real.exp (-β * (pre * ringEnergy P q b.1 b.2)) / ((b.2 + 1 : ℕ) : ℝ))).prod)).sum := by
  rw [exp_V hβ.ne' _ N N (le_refl _)]
  unfold W
  rw [Nat.sub_zero]
  congr 1
  refine List.map_congr_left (fun bs hbs => ?_)
  have hbs' : IsCutting 0 (0 + N) bs := (mem_cuttings N 0 bs).1 hbs
  unfold weight
  congr 1
  refine List.map_congr_left (fun b hb => ?_)
  have hle : ∀ {l m bs}, IsCutting l m bs → ∀ b ∈ bs, b.1 ≤ b.2 := by
    intro l m bs hc
    induction hc with
    | nil => intro b hb; cases hb
    | cons h hv t ih =>
      intro b hb
      rcases List.mem_cons.1 hb with rfl | hb
      · exact h
      · exact ih b hb
  unfold gw
  rw [cycle_energy_is_ring_energy P hP q pre b.1 b.2 (hle hbs' b hb)]

/-- Two particles: half the sum of the two separate rings and the joint ring. -/
example (P : ℕ) (hP : 0 < P) (q : Pos) :
    Real.exp (-1 * V 1 (cycleE P q 2) 2 2)
      = (Real.exp (-1 * (2 * ringEnergy P q 0 0)) * Real.exp (-1 * (2 * ringEnergy P q 1 1))
        + Real.exp (-1 * (2 * ringEnergy P q 0 1))) / 2 := by
  rw [exchange_potential P 2 hP q 2 1 one_pos]
  have : cuttings 0 2 = [[(0, 0), (1, 1)], [(0, 1)]] := by decide +kernel
  rw [this]
  simp
  ring

/-- Positions on which the energies do not vanish. -/
example : ringEnergy 2 (fun j l _ => (j : ℝ) + 3 * l) 0 1 = 3 * (1 + 4 + 1 + 16) := by
  unfold ringEnergy ringBead
  simp [sum_range_succ]
  norm_num

end Verif.Exchange
