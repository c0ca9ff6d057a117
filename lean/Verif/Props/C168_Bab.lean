import Verif.Phys.Bosons
import Verif.Props.C36_NormalModes
import Verif.Props.C35_Contract
import Mathlib.Analysis.Calculus.Deriv.Pow
import Mathlib.Analysis.Calculus.Deriv.Add
import Mathlib.Analysis.Calculus.Deriv.Mul

/-!
# C168: the propagation of the free ring polymer in Cartesian coordinates
-/

namespace Verif.Boson

open Finset

variable {P : ℕ} {ι : Type*} (m : ι → ℝ) (F : (Fin P → ι → ℝ) → Fin P → ι → ℝ)

theorem revert_qcstep (dt : ℝ) (s : St P ι) : revert m dt (qcstep m dt s) = s := by
  unfold revert qcstep
  ext b i
  · simp only
    ring
  · rfl

/-- **C168.** The centroid drifts once: moving the centroid and then the ring polymer is the sequence of small velocity Verlet
steps, started from where the beads were. -/
theorem drift_once (hP : P ≠ 1) (dt : ℝ) (n : ℕ) (hn : 0 < n) (s : St P ι) :
    babstep m F dt n (qcstep m dt s) = some ((verlet m F (dt / n))^[n] s) := by
  rw [babstep, if_neg hP, if_neg (by omega), revert_qcstep, Int.toNat_natCast, Int.cast_natCast]

/-! ### Reversal of time -/

/-- The momenta reversed. -/
def flip (s : St P ι) : St P ι := ⟨s.q, fun b i => - s.p b i⟩

omit m F in
theorem flip_flip (s : St P ι) : flip (flip s) = s := by
  unfold flip
  ext b i
  · rfl
  · simp only [neg_neg]

theorem verlet_reversible (dt : ℝ) (s : St P ι) : verlet m F dt (flip (verlet m F dt s)) = flip s := by
  have hq : (verlet m F dt (flip (verlet m F dt s))).q = s.q := by
    ext b i
    simp only [verlet, flip]
    ring
  ext b i
  · rw [hq]; rfl
  · have h1 : (verlet m F dt (flip (verlet m F dt s))).p b i
        = (flip (verlet m F dt s)).p b i + 0.5 * dt * F (verlet m F dt s).q b i
          + 0.5 * dt * F (verlet m F dt (flip (verlet m F dt s))).q b i := rfl
    rw [h1, hq]
    simp only [verlet, flip]
    ring

theorem iterate_reversible (dt : ℝ) (s : St P ι) : ∀ n : ℕ, (verlet m F dt)^[n] (flip ((verlet m F dt)^[n] s)) = flip s
  | 0 => rfl
  | n + 1 => by
    rw [Function.iterate_succ_apply' _ n s, Function.iterate_succ_apply _ n, verlet_reversible,
      iterate_reversible dt s n]

/-- **C168.** Moving centroid and ring polymer, reversing the momenta and moving again leads back, whatever the forces and the
number of small steps. -/
theorem block_reversible (hP : P ≠ 1) (dt : ℝ) (n : ℕ) (hn : 0 < n) (s : St P ι) :
    (babstep m F dt n (qcstep m dt s)).bind (fun t => babstep m F dt n (qcstep m dt (flip t))) = some (flip s) := by
  rw [drift_once m F hP dt n hn, Option.bind_some, drift_once m F hP dt n hn, iterate_reversible]

/-! ### Modes -/

/-- The component of positions, momenta or forces along a mode of the beads. -/
def along (c : Fin P → ℝ) (x : Fin P → ι → ℝ) (i : ι) : ℝ := ∑ b, c b * x b i

/-- The forces pull the mode back like a spring of frequency `w`. -/
def IsMode (c : Fin P → ℝ) (w : ℝ) (i : ι) : Prop := ∀ q, along c (F q) i = -(m i * w ^ 2) * along c q i

omit m F in
theorem along_add (c : Fin P → ℝ) (x y : Fin P → ι → ℝ) (i : ι) (a : ℝ) :
    along c (fun b i => x b i + a * y b i) i = along c x i + a * along c y i := by
  simp only [along, mul_sum, ← sum_add_distrib]
  exact sum_congr rfl fun b _ => by ring

theorem along_verlet (c : Fin P → ℝ) (w : ℝ) (i : ι) (h : IsMode m F c w i) (dt : ℝ) (s : St P ι) :
    along c (verlet m F dt s).q i = along c s.q i + dt / m i * (along c s.p i - 0.5 * dt * (m i * w ^ 2) * along c s.q i)
    ∧ along c (verlet m F dt s).p i = along c s.p i - 0.5 * dt * (m i * w ^ 2) * along c s.q i
        - 0.5 * dt * (m i * w ^ 2) * along c (verlet m F dt s).q i := by
  have h1 : along c (verlet m F dt s).q i = along c s.q i + dt / m i * (along c s.p i + 0.5 * dt * along c (F s.q) i) := by
    simp only [along, verlet, mul_sum, ← sum_add_distrib]
    exact sum_congr rfl fun b _ => by ring
  have h2 : along c (verlet m F dt s).p i = along c s.p i + 0.5 * dt * along c (F s.q) i
      + 0.5 * dt * along c (F (verlet m F dt s).q) i := by
    simp only [along, verlet, mul_sum, ← sum_add_distrib]
    exact sum_congr rfl fun b _ => by ring
  rw [h] at h1 h2
  rw [h] at h2
  refine ⟨by rw [h1]; ring, by rw [h2]; ring⟩

/-- Twice the energy that the small steps conserve exactly. -/
noncomputable def shadow (c : Fin P → ℝ) (w : ℝ) (i : ι) (dt : ℝ) (s : St P ι) : ℝ :=
  along c s.p i ^ 2 / m i + m i * w ^ 2 * (1 - (w * dt) ^ 2 / 4) * along c s.q i ^ 2

theorem shadow_verlet (c : Fin P → ℝ) (w : ℝ) (i : ι) (hm : m i ≠ 0) (h : IsMode m F c w i) (dt : ℝ) (s : St P ι) :
    shadow m c w i dt (verlet m F dt s) = shadow m c w i dt s := by
  obtain ⟨h1, h2⟩ := along_verlet m F c w i h dt s
  unfold shadow
  rw [h2, h1]
  field_simp
  ring

theorem shadow_iterate (c : Fin P → ℝ) (w : ℝ) (i : ι) (hm : m i ≠ 0) (h : IsMode m F c w i) (dt : ℝ) (s : St P ι) :
    ∀ n : ℕ, shadow m c w i dt ((verlet m F dt)^[n] s) = shadow m c w i dt s
  | 0 => rfl
  | n + 1 => by rw [Function.iterate_succ_apply', shadow_verlet m F c w i hm h, shadow_iterate c w i hm h dt s n]

theorem along_revert (c : Fin P → ℝ) (hc : ∑ b, c b = 0) (dt : ℝ) (s : St P ι) (i : ι) :
    along c (revert m dt s).q i = along c s.q i := by
  have : along c (revert m dt s).q i = along c s.q i - (∑ b, c b) * (mean s.p i / m i * dt) := by
    simp only [along, revert, mul_sub, sum_sub_distrib, sum_mul]
  rw [this, hc, zero_mul, sub_zero]

/-- **C168.** Every internal mode of the ring polymer conserves, exactly and for every number of steps, an energy that differs from
that of the springs by the factor `1 - (w dt / 2 nmts)^2` in the potential. -/
theorem internal_energy_kept (hP : P ≠ 1) (c : Fin P → ℝ) (hc : ∑ b, c b = 0) (w : ℝ) (i : ι) (hm : m i ≠ 0) (h : IsMode m F c w i)
    (dt : ℝ) (n : ℕ) (hn : 0 < n) (s t : St P ι) (ht : babstep m F dt n s = some t) :
    shadow m c w i (dt / n) t = shadow m c w i (dt / n) s := by
  rw [babstep, if_neg hP, if_neg (by omega), Int.toNat_natCast, Int.cast_natCast, Option.some.injEq] at ht
  rw [← ht, shadow_iterate m F c w i hm h]
  unfold shadow
  rw [along_revert m c hc]
  rfl

/-- **C168.** The internal modes stay bounded as long as the small time step resolves them: `w dt / nmts < 2`. -/
theorem internal_bounded (hP : P ≠ 1) (c : Fin P → ℝ) (hc : ∑ b, c b = 0) (w : ℝ) (i : ι) (hm : 0 < m i) (h : IsMode m F c w i)
    (hw : w ≠ 0) (dt : ℝ) (n : ℕ) (hn : 0 < n) (hr : (w * (dt / n)) ^ 2 < 4) (s t : St P ι) (ht : babstep m F dt n s = some t) :
    along c t.q i ^ 2 ≤ shadow m c w i (dt / n) s / (m i * w ^ 2 * (1 - (w * (dt / n)) ^ 2 / 4)) := by
  have h1 : 0 < m i * w ^ 2 * (1 - (w * (dt / n)) ^ 2 / 4) := by
    have : 0 < w ^ 2 := by positivity
    have : 0 < 1 - (w * (dt / n)) ^ 2 / 4 := by linarith
    positivity
  rw [le_div_iff₀ h1, ← internal_energy_kept m F hP c hc w i hm.ne' h dt n hn s t ht, shadow]
  have : 0 ≤ along c t.p i ^ 2 / m i := by positivity
  linarith [mul_comm (along c t.q i ^ 2) (m i * w ^ 2 * (1 - (w * (dt / n)) ^ 2 / 4))]

/-! ### The springs of a ring polymer -/

/-- The force of the springs of closed paths. -/
def ringForce (ω : ℝ) : (Fin P → ι → ℝ) → Fin P → ι → ℝ := fun q b i =>
  -(m i * ω ^ 2) * (2 * q b i - q (Nm.next b) i - q (Nm.prev b) i)

/-- **C168.** The hypotheses of the theorems above hold for the springs of distinguishable particles: the rows of the
transformation to normal modes are modes with the frequencies of the ring polymer. -/
theorem ring_modes (ω : ℝ) (k : Fin P) (i : ι) : IsMode m (ringForce m ω) (Nm.mkNm P k) (ω * Nm.nmEva P k) i := by
  intro q
  have key : ∑ b, Nm.mkNm P k b * (2 * q b i - q (Nm.next b) i - q (Nm.prev b) i)
      = ∑ b, (2 * Nm.mkNm P k b - Nm.mkNm P k (Nm.next b) - Nm.mkNm P k (Nm.prev b)) * q b i := by
    have e1 : ∑ b, Nm.mkNm P k b * q (Nm.next b) i = ∑ b, Nm.mkNm P k (Nm.prev b) * q b i := by
      rw [← Equiv.sum_comp (Nm.ring (n := P)) fun b => Nm.mkNm P k (Nm.prev b) * q b i]
      exact sum_congr rfl fun b _ => by rw [show Nm.ring b = Nm.next b from rfl, Nm.prev_next]
    have e2 : ∑ b, Nm.mkNm P k b * q (Nm.prev b) i = ∑ b, Nm.mkNm P k (Nm.next b) * q b i := by
      rw [← Equiv.sum_comp (Nm.ring (n := P)) fun b => Nm.mkNm P k b * q (Nm.prev b) i]
      exact sum_congr rfl fun b _ => by rw [show Nm.ring b = Nm.next b from rfl, Nm.prev_next]
    simp only [mul_sub, sub_mul, sum_sub_distrib, e1, e2]
    have e3 : ∑ b, Nm.mkNm P k b * (2 * q b i) = ∑ b, 2 * Nm.mkNm P k b * q b i :=
      sum_congr rfl fun b _ => by ring
    rw [e3]
    ring
  have h2 : along (Nm.mkNm P k) (ringForce m ω q) i
      = -(m i * ω ^ 2) * ∑ b, Nm.mkNm P k b * (2 * q b i - q (Nm.next b) i - q (Nm.prev b) i) := by
    simp only [along, ringForce, mul_sum]
    exact sum_congr rfl fun b _ => by ring
  rw [h2, key]
  simp only [Nm.ring_eigen, along, mul_sum]
  exact sum_congr rfl fun b _ => by ring

/-- **C168.** Every internal normal mode of a closed path conserves its energy, up to the factor in the potential. -/
theorem ring_energy_kept (hP : P ≠ 1) (ω : ℝ) (k : Fin P) (hk : (k : ℕ) ≠ 0) (i : ι) (hm : m i ≠ 0) (dt : ℝ) (n : ℕ) (hn : 0 < n)
    (s t : St P ι) (ht : babstep m (ringForce m ω) dt n s = some t) :
    shadow m (Nm.mkNm P k) (ω * Nm.nmEva P k) i (dt / n) t = shadow m (Nm.mkNm P k) (ω * Nm.nmEva P k) i (dt / n) s := by
  refine internal_energy_kept m _ hP _ ?_ _ i hm (ring_modes m ω k i) dt n hn s t ht
  rw [Contract.modes_closed.rowsum k.pos, if_neg hk]

/-! ### Centroids and momenta -/

/-- **C168.** Where the spring forces on the beads of an atom balance, the step leaves its centroid and the momentum of the centroid
as they are: the drift of the centroid is that of the centroid step. -/
theorem centroid_kept (hP : 0 < P) (hP1 : P ≠ 1) (i : ι) (hF : ∀ q, ∑ b, F q b i = 0) (dt : ℝ) (n : ℕ) (hn : 0 < n) (s t : St P ι)
    (ht : babstep m F dt n s = some t) :
    mean t.q i = mean s.q i ∧ mean t.p i = mean s.p i := by
  have hp0 : (P : ℝ) ≠ 0 := by positivity
  have hn0 : (n : ℝ) ≠ 0 := by positivity
  have hv : ∀ s : St P ι, mean (verlet m F (dt / n) s).p i = mean s.p i
      ∧ mean (verlet m F (dt / n) s).q i = mean s.q i + dt / n / m i * mean s.p i := by
    intro s
    have hp : ∑ b, (verlet m F (dt / n) s).p b i = ∑ b, s.p b i := by
      simp only [verlet, sum_add_distrib, ← mul_sum, hF, mul_zero, add_zero]
    have hq : ∑ b, (verlet m F (dt / n) s).q b i = ∑ b, s.q b i + dt / n / m i * ∑ b, s.p b i := by
      have : ∑ b, (verlet m F (dt / n) s).q b i
          = ∑ b, s.q b i + dt / n / m i * (∑ b, s.p b i + 0.5 * (dt / n) * ∑ b, F s.q b i) := by
        simp only [verlet, mul_sum, ← sum_add_distrib]
        exact sum_congr rfl fun b _ => by ring
      rw [this, hF, mul_zero, add_zero]
    refine ⟨by rw [mean, hp]; rfl, ?_⟩
    unfold mean
    rw [hq]
    ring
  have hi : ∀ k : ℕ, ∀ s : St P ι, mean ((verlet m F (dt / n))^[k] s).p i = mean s.p i
      ∧ mean ((verlet m F (dt / n))^[k] s).q i = mean s.q i + k * (dt / n / m i * mean s.p i) := by
    intro k
    induction k with
    | zero => intro s; simp
    | succ k ih =>
      intro s
      rw [Function.iterate_succ_apply']
      obtain ⟨a1, a2⟩ := hv ((verlet m F (dt / n))^[k] s)
      obtain ⟨b1, b2⟩ := ih s
      refine ⟨by rw [a1, b1], ?_⟩
      rw [a2, b1, b2]
      push_cast
      ring
  rw [babstep, if_neg hP1, if_neg (by omega), Int.toNat_natCast, Int.cast_natCast, Option.some.injEq] at ht
  obtain ⟨a1, a2⟩ := hi n (revert m dt s)
  have hr : mean (revert m dt s).q i = mean s.q i - mean s.p i / m i * dt := by
    have : mean (revert m dt s).q i = (∑ b, s.q b i - P * (mean s.p i / m i * dt)) / P := by
      unfold mean revert
      simp only [sum_sub_distrib, sum_const, card_univ, Fintype.card_fin, nsmul_eq_mul]
      rfl
    rw [this, sub_div, mul_div_cancel_left₀ _ hp0]
    rfl
  refine ⟨?_, by rw [← ht, a1]; rfl⟩
  rw [← ht, a2, hr, show (revert m dt s).p = s.p from rfl]
  have : (n : ℝ) * (dt / n / m i * mean s.p i) = mean s.p i / m i * dt := by
    field_simp
  rw [this]
  ring

/-- **C168.** Any sum of momenta on which the spring forces do not act, such as the total momentum of identical particles, is
conserved. -/
theorem momentum_kept (hP : P ≠ 1) [Fintype ι] (c : ι → ℝ) (hF : ∀ q, ∑ b, ∑ i, c i * F q b i = 0) (dt : ℝ) (nmts : ℤ) (s t : St P ι)
    (ht : babstep m F dt nmts s = some t) :
    ∑ b, ∑ i, c i * t.p b i = ∑ b, ∑ i, c i * s.p b i := by
  have hv : ∀ τ : ℝ, ∀ s : St P ι, ∑ b, ∑ i, c i * (verlet m F τ s).p b i = ∑ b, ∑ i, c i * s.p b i := by
    intro τ s
    have : ∑ b, ∑ i, c i * (verlet m F τ s).p b i
        = ∑ b, ∑ i, c i * s.p b i + 0.5 * τ * (∑ b, ∑ i, c i * F s.q b i)
          + 0.5 * τ * ∑ b, ∑ i, c i * F (verlet m F τ s).q b i := by
      simp only [verlet, mul_sum, ← sum_add_distrib]
      exact sum_congr rfl fun b _ => sum_congr rfl fun i _ => by ring
    rw [this, hF, hF, mul_zero, add_zero, add_zero]
  have hi : ∀ τ : ℝ, ∀ k : ℕ, ∀ s : St P ι, ∑ b, ∑ i, c i * ((verlet m F τ)^[k] s).p b i = ∑ b, ∑ i, c i * s.p b i := by
    intro τ k
    induction k with
    | zero => intro s; rfl
    | succ k ih => intro s; rw [Function.iterate_succ_apply', hv, ih]
  rw [babstep, if_neg hP] at ht
  split_ifs at ht with h0
  rw [Option.some.injEq] at ht
  rw [← ht, hi]
  rfl

/-! ### Where the claim fails -/

/-- **C168 fails for a negative number of small steps**, which is accepted: centroid and ring polymer do not move at all. -/
theorem negative_freezes (hP : P ≠ 1) (dt : ℝ) (nmts : ℤ) (hn : nmts < 0) (s : St P ι) :
    babstep m F dt nmts (qcstep m dt s) = some s := by
  rw [babstep, if_neg hP, if_neg hn.ne, revert_qcstep, Int.toNat_of_nonpos hn.le]
  rfl

/-- The energy of a mode as `get_kin` and `get_vspring_and_fspring` compute it: the kinetic energy has the dynamical mass
`fac * m`. -/
noncomputable def reported (c : Fin P → ℝ) (w fac : ℝ) (i : ι) (s : St P ι) : ℝ :=
  0.5 * along c s.p i ^ 2 / (m i * fac) + 0.5 * (m i * w ^ 2 * along c s.q i ^ 2)

/-- **C168 fails for dynamical masses.** The positions move with the physical masses, so the energy of a mode whose mass is scaled
changes at first order in the time step. -/
theorem scaled_mass_ignored (c : Fin P → ℝ) (w fac : ℝ) (i : ι) (hm : m i ≠ 0) (hf : fac ≠ 0) (h : IsMode m F c w i) (s : St P ι) :
    HasDerivAt (fun t => reported m c w fac i (verlet m F t s)) (w ^ 2 * along c s.q i * along c s.p i * (1 - 1 / fac)) 0 := by
  generalize hQ : along c s.q i = Q
  generalize hR : along c s.p i = R
  have hfun : (fun t => reported m c w fac i (verlet m F t s)) = fun t : ℝ =>
      0.5 * (R - 0.5 * t * (m i * w ^ 2) * Q - 0.5 * t * (m i * w ^ 2) * (Q + t / m i * (R - 0.5 * t * (m i * w ^ 2) * Q))) ^ 2 / (m i * fac)
      + 0.5 * (m i * w ^ 2 * (Q + t / m i * (R - 0.5 * t * (m i * w ^ 2) * Q)) ^ 2) := by
    ext t
    obtain ⟨h1, h2⟩ := along_verlet m F c w i h t s
    rw [hQ, hR] at h1 h2
    unfold reported
    rw [h2, h1]
  rw [hfun]
  generalize m i = M at hm ⊢
  have d0 : HasDerivAt (fun t : ℝ => t) 1 0 := hasDerivAt_id 0
  have da : HasDerivAt (fun t : ℝ => R - 0.5 * t * (M * w ^ 2) * Q) (-(0.5 * (M * w ^ 2) * Q)) 0 := by
    refine ((((d0.const_mul 0.5).mul_const (M * w ^ 2)).mul_const Q).const_sub R).congr_deriv ?_
    ring
  have dq : HasDerivAt (fun t : ℝ => Q + t / M * (R - 0.5 * t * (M * w ^ 2) * Q)) (R / M) 0 := by
    refine (((d0.div_const M).fun_mul da).const_add Q).congr_deriv ?_
    simp only [zero_div, mul_zero, zero_mul, add_zero, sub_zero]
    ring
  have dp : HasDerivAt (fun t : ℝ => R - 0.5 * t * (M * w ^ 2) * Q
      - 0.5 * t * (M * w ^ 2) * (Q + t / M * (R - 0.5 * t * (M * w ^ 2) * Q))) (-(M * w ^ 2 * Q)) 0 := by
    refine (da.fun_sub (((d0.const_mul 0.5).mul_const (M * w ^ 2)).fun_mul dq)).congr_deriv ?_
    simp only [zero_div, mul_zero, zero_mul, add_zero, sub_zero]
    ring
  refine ((((dp.fun_pow 2).const_mul 0.5).div_const (M * fac)).fun_add (((dq.fun_pow 2).const_mul (M * w ^ 2)).const_mul 0.5)).congr_deriv ?_
  simp only [zero_div, mul_zero, zero_mul, add_zero, sub_zero]
  field_simp
  ring

/-- The derivative above is not zero for a moving, stretched mode unless the factor is one. -/
theorem drift_nonzero (w fac Q R : ℝ) (hw : w ≠ 0) (hQ : Q ≠ 0) (hR : R ≠ 0) (hf : fac ≠ 0) (h1 : fac ≠ 1) :
    w ^ 2 * Q * R * (1 - 1 / fac) ≠ 0 := by
  have : 1 - 1 / fac ≠ 0 := by
    intro h
    rw [sub_eq_zero, eq_div_iff hf, one_mul] at h
    exact h1 h
  positivity

/-- Two beads at a distance, moving apart: a step exists and moves them. -/
example : ∃ t : St 2 Unit, babstep (fun _ => 1) (ringForce (fun _ => 1) 1) 1 1 ⟨fun b _ => if b = 0 then 0 else 1, fun _ _ => 0⟩ = some t
    ∧ t.q 0 () ≠ 0 := by
  refine ⟨_, rfl, ?_⟩
  norm_num [verlet, revert, ringForce, mean, Nm.next, Nm.prev]

end Verif.Boson
