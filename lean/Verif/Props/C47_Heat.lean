import Verif.Phys.Thermostat
import Mathlib.Tactic.FieldSimp
import Mathlib.Tactic.Ring
import Mathlib.Tactic.Linarith
import Mathlib.Tactic.Positivity
import Mathlib.Tactic.NormNum
import Mathlib.Tactic.FinCases
import Mathlib.Algebra.BigOperators.Field
import Mathlib.Algebra.Order.BigOperators.Group.Finset

/-!
# C47, first half: thermostats account for the heat they exchange

Specification: kinetic energy of the momenta plus energy given to the bath is the same before and
after a step, whatever the momenta and the random numbers are.
-/

namespace Verif.Thermo

open Finset

/-- Specification: the kinetic energy `Σ p²/2m`. -/
noncomputable def kinetic {ι : Type} [Fintype ι] (m p : ι → ℝ) : ℝ := ∑ i, p i ^ 2 / (2 * m i)

variable {ι : Type} [Fintype ι]

/-- The kinetic energy in mass scaled momenta. -/
theorem kinetic_scaled {m : ι → ℝ} (hm : ∀ i, 0 < m i) (q : ι → ℝ) :
    kinetic m (fun i => q i * sm m i) = dot q q * 0.5 := by
  unfold kinetic dot sm
  rw [sum_mul]
  refine sum_congr rfl fun i _ => ?_
  rw [mul_pow, Real.sq_sqrt (hm i).le]
  have := (hm i).ne'
  field_simp
  ring

theorem kinetic_divided {m : ι → ℝ} (hm : ∀ i, 0 < m i) (p : ι → ℝ) :
    dot (fun i => p i / sm m i) (fun i => p i / sm m i) * 0.5 = kinetic m p := by
  rw [← kinetic_scaled hm]
  congr 1
  funext i
  exact div_mul_cancel₀ _ (Real.sqrt_ne_zero'.2 (hm i))

theorem kinE_eq (m p : ι → ℝ) : kinE m p = kinetic m p := by
  unfold kinE kinetic dot
  rw [sum_mul]
  refine sum_congr rfl fun i _ => ?_
  rcases eq_or_ne (m i) 0 with h | h
  · simp [h]
  · field_simp; ring

/-- Langevin, for arbitrary coefficients. -/
theorem langevin_heat_TS {m : ι → ℝ} (hm : ∀ i, 0 < m i) {T : ℝ} (hT : T ≠ 0) (S : ℝ)
    (xi : ι → ℝ) (s : Bath ι) :
    kinetic m (langevin m T S xi s).p + (langevin m T S xi s).ethermo
      = kinetic m s.p + s.ethermo := by
  simp only [langevin]
  rw [kinetic_scaled hm, ← kinetic_divided hm s.p]
  have : dot (fun i => s.p i * (T / sm m i)) (fun i => s.p i * (T / sm m i)) / T ^ 2
      = dot (fun i => s.p i / sm m i) (fun i => s.p i / sm m i) := by
    unfold dot
    rw [sum_div]
    refine sum_congr rfl fun i _ => ?_
    field_simp
  rw [this]
  ring

/-- **C47 (Langevin).** -/
theorem langevin_heat {m : ι → ℝ} (hm : ∀ i, 0 < m i) (kb temp dt tau : ℝ) (xi : ι → ℝ)
    (s : Bath ι) :
    kinetic m (langevinStep m kb temp dt tau xi s).p + (langevinStep m kb temp dt tau xi s).ethermo
      = kinetic m s.p + s.ethermo :=
  langevin_heat_TS hm (Real.exp_ne_zero _) _ xi s

/-- **C47 (GLE)**, for any matrices and any extended momenta. -/
theorem gle_heat {ns : ℕ} {m : ι → ℝ} (hm : ∀ i, 0 < m i)
    (T S : Matrix (Fin (ns + 1)) (Fin (ns + 1)) ℝ) (xi : Fin (ns + 1) → ι → ℝ) (g : GBath ns ι) :
    kinetic m (gle m T S xi g).p + (gle m T S xi g).ethermo = kinetic m g.p + g.ethermo := by
  simp only [gle]
  rw [kinetic_scaled hm, ← kinetic_divided hm g.p]
  simp only [if_true]
  ring

/-- **C47 (compensating Langevin).** -/
theorem cl_heat {m : ι → ℝ} (hm : ∀ i, 0 < m i) (kb temp dt tau intau idtau : ℝ) (xi : ι → ℝ)
    (s : Bath ι) :
    kinetic m (clStep m kb temp dt tau intau idtau xi s).p
        + (clStep m kb temp dt tau intau idtau xi s).ethermo
      = kinetic m s.p + s.ethermo := by
  simp only [clStep, cl]
  rw [kinetic_scaled hm, ← kinetic_divided hm s.p]
  ring

/-! ### Stochastic velocity rescaling -/

/-- The square of the scaling factor is a sum of squares. -/
theorem svrAlpha2_eq {et Kb K : ℝ} (h0 : 0 ≤ et) (h1 : et ≤ 1) (hb : 0 ≤ Kb / K) (r1 rg : ℝ) :
    svrAlpha2 et Kb K r1 rg
      = (√et + r1 * √(Kb / K * (1 - et))) ^ 2 + Kb / K * (1 - et) * rg := by
  unfold svrAlpha2
  have e1 : √(Kb / K * et * (1 - et)) = √et * √(Kb / K * (1 - et)) := by
    rw [← Real.sqrt_mul h0]; congr 1; ring
  have e2 : √et ^ 2 = et := Real.sq_sqrt h0
  have e3 : √(Kb / K * (1 - et)) ^ 2 = Kb / K * (1 - et) :=
    Real.sq_sqrt (mul_nonneg hb (by linarith))
  rw [e1, add_sq, mul_pow, e2, e3]
  ring

theorem svrAlpha2_nonneg {et Kb K : ℝ} (h0 : 0 ≤ et) (h1 : et ≤ 1) (hb : 0 ≤ Kb / K) (r1 : ℝ)
    {rg : ℝ} (hg : 0 ≤ rg) : 0 ≤ svrAlpha2 et Kb K r1 rg := by
  rw [svrAlpha2_eq h0 h1 hb]
  have : 0 ≤ Kb / K * (1 - et) := mul_nonneg hb (by linarith)
  positivity

theorem svrAlpha_sq {et Kb K : ℝ} (h0 : 0 ≤ et) (h1 : et ≤ 1) (hb : 0 ≤ Kb / K) (r1 : ℝ)
    {rg : ℝ} (hg : 0 ≤ rg) : svrAlpha et Kb K r1 rg ^ 2 = svrAlpha2 et Kb K r1 rg := by
  have := Real.sq_sqrt (svrAlpha2_nonneg h0 h1 hb r1 hg)
  unfold svrAlpha
  split
  · rw [neg_sq, this]
  · exact this

theorem kinetic_mul (m p : ι → ℝ) (a : ℝ) :
    kinetic m (fun i => p i * a) = kinetic m p * a ^ 2 := by
  unfold kinetic
  rw [sum_mul]
  refine sum_congr rfl fun i _ => ?_
  ring

theorem kinetic_nonneg {m : ι → ℝ} (hm : ∀ i, 0 < m i) (p : ι → ℝ) : 0 ≤ kinetic m p :=
  sum_nonneg fun i _ => div_nonneg (sq_nonneg _) (by have := hm i; positivity)

theorem svr_heat_et {m : ι → ℝ} (hm : ∀ i, 0 < m i) {et Kb : ℝ} (h0 : 0 ≤ et) (h1 : et ≤ 1)
    (hb : 0 ≤ Kb) (r1 : ℝ) {rg : ℝ} (hg : 0 ≤ rg) (s : Bath ι) :
    kinetic m (svr m et Kb r1 rg s).p + (svr m et Kb r1 rg s).ethermo
      = kinetic m s.p + s.ethermo := by
  unfold svr
  split
  · rfl
  · simp only
    rw [kinetic_mul, kinE_eq,
      svrAlpha_sq h0 h1 (div_nonneg hb (kinetic_nonneg hm _)) r1 hg]
    ring

theorem svrRg_nonneg (ndof : ℕ) {gam : ℝ} (hg : 0 ≤ gam) (g : ℝ) : 0 ≤ svrRg ndof gam g := by
  unfold svrRg
  split <;> positivity

theorem expT_pos (dt tau : ℝ) : 0 < expT dt tau := Real.exp_pos _

theorem expT_le {dt tau : ℝ} (hd : 0 ≤ dt) (ht : 0 < tau) : expT dt tau ≤ 1 := by
  unfold expT
  rw [Real.exp_le_one_iff]
  exact div_nonpos_of_nonpos_of_nonneg (by linarith) ht.le

/-- **C47 (velocity rescaling).**  `gam`, `g` and `r1` are the drawn numbers. -/
theorem svr_heat {m : ι → ℝ} (hm : ∀ i, 0 < m i) {kb temp dt tau : ℝ} (hk : 0 ≤ kb)
    (ht : 0 ≤ temp) (hd : 0 ≤ dt) (htau : 0 < tau) (ndof : ℕ) (r1 g : ℝ) {gam : ℝ} (hg : 0 ≤ gam)
    (s : Bath ι) :
    kinetic m (svr m (expT dt tau) (svrK kb temp) r1 (svrRg ndof gam g) s).p
        + (svr m (expT dt tau) (svrK kb temp) r1 (svrRg ndof gam g) s).ethermo
      = kinetic m s.p + s.ethermo :=
  svr_heat_et hm (expT_pos _ _).le (expT_le hd htau) (by unfold svrK; positivity) r1
    (svrRg_nonneg ndof hg g) s

/-! ### Fast-forward Langevin -/

/-- **C47 (fast-forward Langevin).**  Whenever the step yields numbers, for all flips. -/
theorem ffl_heat {N : ℕ} (f : Flip) {m : Fin N → Fin 3 → ℝ} (hm : ∀ a k, 0 < m a k) (T S : ℝ)
    (xi p : Fin N → Fin 3 → ℝ) (e : ℝ) {p' : Fin N → Fin 3 → ℝ} {e' : ℝ}
    (h : ffl f m T S xi p e = some (p', e')) :
    ∑ a, kinetic (m a) (p' a) + e' = ∑ a, kinetic (m a) (p a) + e := by
  unfold ffl at h
  simp only at h
  split at h
  case isFalse => simp at h
  case isTrue hs =>
    simp only [Option.some.injEq, Prod.mk.injEq] at h
    obtain ⟨rfl, rfl⟩ := h
    have e1 : ∀ a, kinetic (m a) (p a) = dot (fun k => p a k / √(m a k))
        (fun k => p a k / √(m a k)) * 0.5 := fun a => (kinetic_divided (hm a) (p a)).symm
    have e2 : ∀ (q : Fin N → Fin 3 → ℝ) a, kinetic (m a) (fun k => q a k * √(m a k))
        = dot (q a) (q a) * 0.5 := fun q a => kinetic_scaled (hm a) (q a)
    rw [sum_congr rfl fun a _ => e1 a,
      sum_congr rfl fun a _ => e2 (fun a => (flipRow f (fun k => p a k / √(m a k))
        (fun k => p a k / √(m a k) * T + S * xi a k)).getD 0) a, ← sum_mul, ← sum_mul]
    ring

/-- The step yields numbers when no atom is at rest, for all flips; for the hard flip and without
flip always. -/
theorem ffl_defined {N : ℕ} (f : Flip) {m : Fin N → Fin 3 → ℝ} (hm : ∀ a k, 0 < m a k) (T S : ℝ)
    (xi p : Fin N → Fin 3 → ℝ) (e : ℝ)
    (h : f = .hard ∨ f = .none ∨ ∀ a, ∃ k, p a k ≠ 0) : (ffl f m T S xi p e).isSome := by
  unfold ffl
  simp only
  rw [if_pos]
  · rfl
  intro a
  unfold flipRow
  have hne : (∃ k, p a k ≠ 0) → dot (fun k => p a k / √(m a k)) (fun k => p a k / √(m a k)) ≠ 0 := by
    rintro ⟨k, hk⟩
    have h0 := kinetic_divided (hm a) (p a)
    intro hz
    unfold sm at h0
    rw [hz, zero_mul] at h0
    have : kinetic (m a) (p a) = 0 := h0.symm
    unfold kinetic at this
    rw [sum_eq_zero_iff_of_nonneg (fun i _ => div_nonneg (sq_nonneg _)
      (by have := hm a i; positivity))] at this
    have := this k (mem_univ _)
    have hmk := hm a k
    rw [div_eq_zero_iff] at this
    rcases this with h | h
    · exact hk (pow_eq_zero_iff (two_ne_zero) |>.1 h)
    · linarith
  rcases h with rfl | rfl | h
  · rfl
  · rfl
  · cases f <;> simp only [Option.isSome_some]
    · rw [if_neg (hne (h a))]; rfl
    · rw [if_neg (hne (h a))]; rfl

/-- **Finding.**  With the default flip an atom at rest (fixed atoms, or a run started without
velocities) gives NaN momenta. -/
theorem ffl_at_rest (f : Flip) (hf : f = .soft ∨ f = .rescale) (T S : ℝ) (xi : Fin 1 → Fin 3 → ℝ) :
    ffl f (fun _ _ => 1) T S xi 0 0 = Option.none := by
  unfold ffl
  simp only
  rw [if_neg]
  intro h
  have := h 0
  rcases hf with rfl | rfl <;> simp [flipRow, dot] at this

/-! ### Composite thermostats -/

/-- Restarting loses nothing: the shares add up to the stored energy. -/
theorem split_sum {nb : ℕ} (h : 0 < nb) (prev : ℝ) : getEthermo (splitEthermo nb prev) = prev := by
  unfold getEthermo splitEthermo
  have : (nb : ℝ) ≠ 0 := by positivity
  simp [sum_const, card_univ]
  field_simp

/-- **C47 (PILE-L).**  Kinetic energy of all normal modes with their dynamical masses. -/
theorem pileL_heat {nb n : ℕ} {dynm : Fin nb → Fin n → ℝ} (hm : ∀ k i, 0 < dynm k i) (kb dt : ℝ)
    (temp tau : Fin nb → ℝ) (xi : Fin nb → Fin n → ℝ) (s : Fin nb → Bath (Fin n)) :
    ∑ k, kinetic (dynm k) ((pileL dynm kb dt temp tau xi s) k).p
        + getEthermo (fun k => ((pileL dynm kb dt temp tau xi s) k).ethermo)
      = ∑ k, kinetic (dynm k) (s k).p + getEthermo (fun k => (s k).ethermo) := by
  unfold getEthermo
  rw [← sum_add_distrib, ← sum_add_distrib]
  exact sum_congr rfl fun k _ => langevin_heat (hm k) ..

/-- **C47 (PILE-G).** -/
theorem pileG_heat {nb n : ℕ} {dynm : Fin (nb + 1) → Fin n → ℝ} (hm : ∀ k i, 0 < dynm k i)
    {kb dt : ℝ} {temp tau : Fin (nb + 1) → ℝ} (hk : 0 ≤ kb) (hd : 0 ≤ dt) (ht : ∀ k, 0 ≤ temp k)
    (htau : ∀ k, 0 < tau k) (r1 : ℝ) {rg : ℝ} (hg : 0 ≤ rg)
    (xi : Fin (nb + 1) → Fin n → ℝ) (s : Fin (nb + 1) → Bath (Fin n)) :
    ∑ k, kinetic (dynm k) ((pileG dynm kb dt temp tau r1 rg xi s) k).p
        + getEthermo (fun k => ((pileG dynm kb dt temp tau r1 rg xi s) k).ethermo)
      = ∑ k, kinetic (dynm k) (s k).p + getEthermo (fun k => (s k).ethermo) := by
  unfold getEthermo
  rw [← sum_add_distrib, ← sum_add_distrib]
  refine sum_congr rfl fun k _ => ?_
  unfold pileG
  split
  · next h =>
    subst h
    exact svr_heat_et (hm 0) (expT_pos _ _).le (expT_le hd (htau 0))
      (by have := ht 0; unfold svrK; positivity) r1 hg _
  · exact langevin_heat (hm k) ..

/-- **C47 (several thermostats on the same momenta).**  If each of them keeps the balance, so does
the list. -/
theorem multi_heat {P : Type} (kin : P → ℝ) (l : List (ℝ × (P × ℝ → P × ℝ)))
    (h : ∀ t ∈ l, ∀ p e, kin (t.2 (p, e)).1 + (t.2 (p, e)).2 = kin p + e) (p : P) :
    kin (multi l p).1 + (multi l p).2.sum = kin p + (l.map Prod.fst).sum := by
  induction l generalizing p with
  | nil => simp [multi]
  | cons t r ih =>
    obtain ⟨e, f⟩ := t
    have h1 := h (e, f) (by simp) p e
    have h2 := ih (fun t ht => h t (by simp [ht])) (f (p, e)).1
    simp only [multi, List.sum_cons, List.map_cons] at h1 h2 ⊢
    linarith

/-! ### No friction, no change -/

theorem expT_zero (tau : ℝ) : expT 0 tau = 1 := by simp [expT]

theorem bath_ext {s t : Bath ι} (hp : s.p = t.p) (he : s.ethermo = t.ethermo) : s = t := by
  cases s; cases t; simp_all

/-- **C47 (no friction).**  With damping factor one (time step zero, or the limit of an infinite
damping time) the Langevin step changes nothing, whatever the random numbers are. -/
theorem langevin_identity {m : ι → ℝ} (hm : ∀ i, 0 < m i) (kb temp : ℝ) (xi : ι → ℝ)
    (s : Bath ι) : langevin m 1 (lanS kb temp 1) xi s = s := by
  have hS : lanS kb temp 1 = 0 := by simp [lanS]
  have hp : (langevin m 1 (lanS kb temp 1) xi s).p = s.p := by
    funext i
    have := Real.sqrt_ne_zero'.2 (hm i)
    simp only [langevin, hS, zero_mul, add_zero, sm]
    field_simp
  refine bath_ext hp ?_
  have he := langevin_heat_TS hm one_ne_zero (lanS kb temp 1) xi s
  rw [hp] at he
  exact add_left_cancel he

/-- The same for velocity rescaling. -/
theorem svr_identity (m : ι → ℝ) (Kb r1 rg : ℝ) (s : Bath ι) : svr m 1 Kb r1 rg s = s := by
  unfold svr
  split
  · rfl
  · have h2 : ∀ K, svrAlpha2 1 Kb K r1 rg = 1 := fun K => by simp [svrAlpha2]
    have h1 : ∀ K, svrAlpha 1 Kb K r1 rg = 1 := fun K => by simp [svrAlpha, svrNeg, h2]
    exact bath_ext (by simp [h1]) (by simp [h2])

/-- A compensating Langevin thermostat with all time scales zero (the defaults) is switched off. -/
theorem cl_identity {m : ι → ℝ} (hm : ∀ i, 0 < m i) (kb temp dt : ℝ) (xi : ι → ℝ) (s : Bath ι) :
    clStep m kb temp dt 0 0 0 xi s = s := by
  have hp : (clStep m kb temp dt 0 0 0 xi s).p = s.p := by
    funext i
    have := Real.sqrt_ne_zero'.2 (hm i)
    simp [clStep, cl, clT, sm]
    field_simp
  refine bath_ext hp ?_
  have he := cl_heat hm kb temp dt 0 0 0 xi s
  rw [hp] at he
  exact add_left_cancel he

/-- The damping factor tends to one: it differs from it by at most `dt/tau`. -/
theorem expT_near {dt tau : ℝ} (hd : 0 ≤ dt) (ht : 0 < tau) :
    1 - dt / tau ≤ expT dt tau ∧ expT dt tau ≤ 1 := by
  refine ⟨?_, expT_le hd ht⟩
  have := Real.add_one_le_exp (-dt / tau)
  unfold expT
  rw [neg_div] at this ⊢
  linarith

/-! ### Which masses -/

/-- **Finding.**  The energy balance needs the masses that enter the kinetic energy.  Thermostats
bound to the beads (`langevin`, `svr`, `gle`, `cl`, `ffl`) use the physical masses, while the
conserved quantity uses the dynamical masses of the normal modes; when these differ (mass `1`,
dynamical mass `4`, factor `T = 1/2`, no noise) the balance fails. -/
theorem langevin_other_mass :
    ∃ (s : Bath (Fin 1)) (xi : Fin 1 → ℝ),
      kinetic (fun _ => 4) (langevin (fun _ => 1) (1 / 2) 1 xi s).p
          + (langevin (fun _ => 1) (1 / 2) 1 xi s).ethermo
        ≠ kinetic (fun _ => 4) s.p + s.ethermo := by
  refine ⟨⟨fun _ => 2, 0⟩, fun _ => 0, ?_⟩
  simp [kinetic, langevin, dot, sm]
  norm_num

/-! ### The hypotheses are met -/

/-- A concrete Langevin step: two atoms, masses 1 and 4; the kinetic energy changes from `1` to
`1/4` and the bath receives `3/4`. -/
example : let s : Bath (Fin 2) := ⟨![1, 2], 0⟩
    let t := langevin ![1, 4] (1 / 2) 1 ![0, 0] s
    kinetic ![1, 4] s.p = 1 ∧ kinetic ![1, 4] t.p = 1 / 4 ∧ t.ethermo = 3 / 4 := by
  have h4 : √(4 : ℝ) = 2 := by
    rw [show (4 : ℝ) = 2 ^ 2 by norm_num]; exact Real.sqrt_sq (by norm_num)
  refine ⟨?_, ?_, ?_⟩
  · simp [kinetic, Fin.sum_univ_two]; try norm_num
  · simp [kinetic, langevin, sm, Fin.sum_univ_two, h4]; try norm_num
  · simp [langevin, sm, dot, Fin.sum_univ_two, h4]; try norm_num

/-- A concrete velocity rescaling: `et = 1/4`, kinetic energy `1/2`, `r1 = 0`, `rg = 5`; the momentum
is doubled. -/
example : svrAlpha2 (1 / 4) (1 / 2) (1 / 2) 0 5 = 4 := by
  simp [svrAlpha2]; norm_num

end Verif.Thermo
