import Mathlib.MeasureTheory.Integral.IntervalIntegral.TrapezoidalRule
import Mathlib.Analysis.SpecialFunctions.Trigonometric.Deriv
import Mathlib.Analysis.SpecialFunctions.ExpDeriv
import Mathlib.Analysis.Calculus.ContDiff.Operations
import Mathlib.Topology.Order.Compact
import Mathlib.Tactic.Linarith
import Mathlib.Tactic.LinearCombination
import Mathlib.Tactic.FieldSimp
import Verif.Phys.Driven

/-!
# C117: the atoms are driven by the field that was asked for

A user gives the amplitude, angular frequency, phase, peak time and duration of a pulse.  The field is then
`amp cos(freq t + phase) exp(-(t - peak)^2 / (2 sigma^2))`, the force on an atom is its charge tensor times the field, and
over a run the atoms receive the time integral of this force.
-/

namespace Verif.Driven

open Finset

/-- The pulse of the specification: a plane wave under a Gaussian envelope. -/
noncomputable def pulse (amp : Fin 3 → ℝ) (freq phase peak sigma t : ℝ) (k : Fin 3) : ℝ :=
  amp k * Real.cos (freq * t + phase) * Real.exp (-(t - peak) ^ 2 / (2 * sigma ^ 2))

/-- The force of a field on fixed charges. -/
noncomputable def fieldForce {ι : Type} (Z : ι → Fin 3 → ℝ) (E : ℝ → Fin 3 → ℝ) (t : ℝ) (i : ι) : ℝ := ∑ k, Z i k * E t k

/-- A pulse whose peak comes after time zero is the one that was asked for (*missing*: a peak at time zero or before, see
`early_pulse_lost`). -/
theorem field_as_specified_partial (f : Field) (s : ℝ) (hs : f.sigma = some s) (hp : 0 < f.peak) (t : ℝ) (k : Fin 3) :
    efield f t k = pulse f.amp f.freq f.phase f.peak s t k := by
  simp only [efield, envelope, ecos, pulse, hs, gt_iff_lt, hp, if_true]
  have : (-0.5 * ((t - f.peak) / s) ^ 2 : ℝ) = -(t - f.peak) ^ 2 / (2 * s ^ 2) := by
    rw [div_pow, neg_div, mul_comm 2 (s ^ 2), ← div_div]; ring
  rw [this]; ring

example := field_as_specified_partial ⟨fun _ => 1, 2, 0, 5, some 1⟩ 1 rfl (by norm_num) 3 0

/-- Without a duration the field is the plane wave. -/
theorem plane_wave_as_specified (f : Field) (hs : f.sigma = none) (t : ℝ) (k : Fin 3) :
    efield f t k = f.amp k * Real.cos (f.freq * t + f.phase) := by
  simp only [efield, envelope, ecos, hs]; ring

example := plane_wave_as_specified ⟨fun _ => 1, 2, 0, 0, none⟩ rfl 3 0

/-- **Violation.**  The duration of a pulse centred at time zero (the default) or before is ignored: at every time other
than the peak at which the field does not vanish, the field differs from the pulse asked for. -/
theorem early_pulse_lost (f : Field) (s : ℝ) (hs : f.sigma = some s) (h0 : s ≠ 0) (hp : f.peak ≤ 0) (t : ℝ) (k : Fin 3)
    (ht : t ≠ f.peak) (hE : efield f t k ≠ 0) : efield f t k ≠ pulse f.amp f.freq f.phase f.peak s t k := by
  have h1 : efield f t k = f.amp k * Real.cos (f.freq * t + f.phase) := by
    simp only [efield, envelope, ecos, hs, gt_iff_lt, not_lt.2 hp, if_false]; ring
  rw [h1] at hE ⊢
  unfold pulse
  intro h
  have h2 : Real.exp (-(t - f.peak) ^ 2 / (2 * s ^ 2)) = 1 := by
    apply mul_left_cancel₀ hE; linarith
  rw [Real.exp_eq_one_iff, div_eq_zero_iff] at h2
  rcases h2 with h2 | h2
  · have := sub_ne_zero.2 ht
    simp [this] at h2
  · simp [h0] at h2

example := early_pulse_lost ⟨fun _ => 1, 0, 0, 0, some 1⟩ 1 rfl one_ne_zero le_rfl 3 0 (by norm_num)
  (by simp [efield, envelope, ecos])

/-- **Over any number of steps** the clock advances by the time step, and a combination of momenta that neither the
undriven step nor the constraints change (the momentum of a free atom, the total momentum of interacting ones) receives,
for each step, the force of the field at its two ends, each for `dt / (2 n)` where `n` is the number of substeps of the
outermost level. -/
theorem run_impulse {ι : Type} [Fintype ι] (Z : ι → Fin 3 → ℝ) (E : ℝ → Fin 3 → ℝ) (con inner : St ι → St ι) (w : ι → ℝ)
    (hcon : ∀ s, ∑ i, w i * (con s).p i = ∑ i, w i * s.p i) (hin : ∀ s, ∑ i, w i * (inner s).p i = ∑ i, w i * s.p i)
    (n : ℕ) (rest : List ℕ) (dt : ℝ) (N : ℕ) (t0 : ℝ) (s : St ι) :
    (run (fun _ => Z) E con inner (n :: rest) dt N (t0, s)).1 = t0 + N * dt ∧
    ∑ i, w i * (run (fun _ => Z) E con inner (n :: rest) dt N (t0, s)).2.p i =
      ∑ i, w i * s.p i + ∑ k ∈ range N, dt / (2 * n) *
        (∑ i, w i * fieldForce Z E (t0 + k * dt) i + ∑ i, w i * fieldForce Z E (t0 + (k + 1) * dt) i) := by
  have one : ∀ (h time : ℝ) (s : St ι), ∑ i, w i * (tdPstep (fun _ => Z) E con h time s).p i
      = ∑ i, w i * s.p i + h * ∑ i, w i * fieldForce Z E time i := by
    intro h time s
    rw [tdPstep, hcon, Finset.mul_sum, ← sum_add_distrib]
    refine sum_congr rfl fun i _ => ?_
    simp only [edaForces, fieldForce]; ring
  induction N generalizing t0 s with
  | zero => simp [run]
  | succ N ih =>
    have h := ih (t0 + dt) (step (fun _ => Z) E con inner (n :: rest) dt t0 s)
    refine ⟨by rw [run, h.1]; push_cast; ring, ?_⟩
    rw [run, h.2, sum_range_succ', step]
    rw [one, hin, one]
    have : (Verif.Mts.pdt dt (n :: rest)).headD 0 = dt / (2 * n) := by
      simp only [Verif.Mts.pdt, Verif.Mts.pdtFrom, List.headD_cons, div_div]
    rw [this]
    have e : ∀ k ∈ range N, dt / (2 * n) * (∑ i, w i * fieldForce Z E (t0 + dt + k * dt) i
          + ∑ i, w i * fieldForce Z E (t0 + dt + (k + 1) * dt) i)
        = dt / (2 * n) * (∑ i, w i * fieldForce Z E (t0 + (k + 1 : ℕ) * dt) i
          + ∑ i, w i * fieldForce Z E (t0 + ((k + 1 : ℕ) + 1) * dt) i) := by
      intro k _
      rw [show t0 + dt + k * dt = t0 + (k + 1 : ℕ) * dt by push_cast; ring,
        show t0 + dt + (k + 1) * dt = t0 + ((k + 1 : ℕ) + 1) * dt by push_cast; ring]
    rw [sum_congr rfl e]
    simp only [Nat.cast_zero, zero_mul, add_zero, zero_add, one_mul]
    ring

/-- Free atoms of unit mass, one of them charged. -/
noncomputable def freeStep (dt : ℝ) (s : St (Fin 2)) : St (Fin 2) := { s with q := fun i => s.q i + dt * s.p i }

example := run_impulse (fun i _ => if i = (0 : Fin 2) then 1 else 0) (fun t _ => Real.cos t) id (freeStep 1) (fun i => if i = 0 then 1 else 0)
  (fun _ => rfl) (fun _ => rfl) 1 [] 1 5 0 ⟨0, 0⟩

/-- **With one substep at the outermost level the impulse converges to the time integral of the force**, with an error
that falls with the square of the number of steps (*missing*: several substeps, see `impulse_divided`). -/
theorem impulse_converges_partial {ι : Type} [Fintype ι] (Z : ι → Fin 3 → ℝ) (E : ℝ → Fin 3 → ℝ) (hE : ∀ k, ContDiff ℝ 2 (fun t => E t k))
    (con : St ι → St ι) (inner : ℝ → St ι → St ι) (w : ι → ℝ)
    (hcon : ∀ s, ∑ i, w i * (con s).p i = ∑ i, w i * s.p i) (hin : ∀ dt s, ∑ i, w i * (inner dt s).p i = ∑ i, w i * s.p i)
    (rest : List ℕ) (t0 T : ℝ) (hT : 0 < T) (s : St ι) :
    ∃ C : ℝ, ∀ N : ℕ, 0 < N →
      |∑ i, w i * (run (fun _ => Z) E con (inner (T / N)) (1 :: rest) (T / N) N (t0, s)).2.p i
        - (∑ i, w i * s.p i + ∫ t in t0..(t0 + T), ∑ i, w i * fieldForce Z E t i)| ≤ C / N ^ 2 := by
  set G : ℝ → ℝ := fun t => ∑ i, w i * fieldForce Z E t i with hG
  have hGc : ContDiff ℝ 2 G := by
    rw [hG]
    refine ContDiff.sum fun i _ => contDiff_const.mul ?_
    unfold fieldForce
    exact ContDiff.sum fun k _ => contDiff_const.mul (hE k)
  have hlt : t0 < t0 + T := by linarith
  have hud : UniqueDiffOn ℝ (Set.uIcc t0 (t0 + T)) := uniqueDiffOn_uIcc hlt.ne
  have hcont : ContinuousOn (iteratedDerivWithin 2 G (Set.uIcc t0 (t0 + T))) (Set.uIcc t0 (t0 + T)) :=
    hGc.contDiffOn.continuousOn_iteratedDerivWithin le_rfl hud
  obtain ⟨ζ, hζ⟩ := isCompact_uIcc.exists_bound_of_continuousOn hcont
  have hζ0 : 0 ≤ ζ := le_trans (norm_nonneg _) (hζ t0 Set.left_mem_uIcc)
  have hbound : ∀ x, |iteratedDerivWithin 2 G (Set.uIcc t0 (t0 + T)) x| ≤ ζ := by
    intro x
    by_cases hx : x ∈ Set.uIcc t0 (t0 + T)
    · exact hζ x hx
    · rw [iteratedDerivWithin_succ, derivWithin_zero_of_notMem_closure (by
        rwa [isCompact_uIcc.isClosed.closure_eq]), abs_zero]
      exact hζ0
  refine ⟨T ^ 3 * ζ / 12, fun N hN => ?_⟩
  have hN' : (N : ℝ) ≠ 0 := Nat.cast_ne_zero.2 hN.ne'
  have key := trapezoidal_error_le_of_c2 (hGc.contDiffOn (s := Set.uIcc t0 (t0 + T))) hbound hN
  have h1 := (run_impulse Z E con (inner (T / N)) w hcon (hin _) 1 rest (T / N) N t0 s).2
  have h2 : ∑ k ∈ range N, T / N / (2 * (1 : ℕ)) * (G (t0 + k * (T / N)) + G (t0 + (k + 1) * (T / N)))
      = trapezoidal_integral G N t0 (t0 + T) := by
    have e : t0 + T = t0 + N * (T / N) := by field_simp
    rw [e, ← sum_trapezoidal_integral_adjacent_intervals hN]
    refine sum_congr rfl fun k _ => ?_
    rw [trapezoidal_integral_one]
    push_cast; ring
  rw [h1, h2]
  rw [trapezoidal_error, add_sub_cancel_left, abs_of_pos hT] at key
  rw [add_sub_add_left_eq_sub]
  refine key.trans (le_of_eq ?_)
  rw [div_div]

/-- A pulse is smooth, so the preceding theorem applies to it. -/
theorem efield_smooth (f : Field) (k : Fin 3) : ContDiff ℝ 2 (fun t => efield f t k) := by
  unfold efield ecos envelope
  refine ContDiff.mul (ContDiff.mul ?_ ?_) contDiff_const
  · exact Real.contDiff_cos.comp ((contDiff_const.mul contDiff_id).add contDiff_const)
  · cases f.sigma with
    | none => exact contDiff_const
    | some s =>
      by_cases h : f.peak > 0
      · simp only [h, if_true]
        exact Real.contDiff_exp.comp (contDiff_const.mul (((contDiff_id.sub contDiff_const).div_const _).pow 2))
      · simp only [h, if_false]; exact contDiff_const

example := impulse_converges_partial (fun i _ => if i = (0 : Fin 2) then 1 else 0) (efield ⟨fun _ => 1, 2, 0, 5, some 1⟩)
  (efield_smooth _) id freeStep (fun i => if i = 0 then 1 else 0) (fun _ => rfl) (fun _ _ => rfl) [] 0 10 (by norm_num) ⟨0, 0⟩

/-- **Violation.**  With `n` substeps at the outermost level the atoms receive only one part in `n` of the impulse: in a
static field the error does not fall with the number of steps but is the part `1 - 1/n` of the whole. -/
theorem impulse_divided {ι : Type} [Fintype ι] (Z : ι → Fin 3 → ℝ) (E0 : Fin 3 → ℝ) (con inner : St ι → St ι) (w : ι → ℝ)
    (hcon : ∀ s, ∑ i, w i * (con s).p i = ∑ i, w i * s.p i) (hin : ∀ s, ∑ i, w i * (inner s).p i = ∑ i, w i * s.p i)
    (n : ℕ) (hn : 2 ≤ n) (rest : List ℕ) (dt : ℝ) (hdt : 0 < dt) (N : ℕ) (hN : 0 < N) (t0 : ℝ) (s : St ι)
    (hF : ∑ i, w i * fieldForce Z (fun _ => E0) 0 i ≠ 0) :
    ∑ i, w i * (run (fun _ => Z) (fun _ => E0) con inner (n :: rest) dt N (t0, s)).2.p i
      = ∑ i, w i * s.p i + N * dt * (∑ i, w i * fieldForce Z (fun _ => E0) 0 i) / n ∧
    ∑ i, w i * (run (fun _ => Z) (fun _ => E0) con inner (n :: rest) dt N (t0, s)).2.p i
      ≠ ∑ i, w i * s.p i + ∫ t in t0..(t0 + N * dt), ∑ i, w i * fieldForce Z (fun _ => E0) t i := by
  have h := (run_impulse Z (fun _ => E0) con inner w hcon hin n rest dt N t0 s).2
  have hc : ∀ t i, fieldForce Z (fun _ => E0) t i = fieldForce Z (fun _ => E0) 0 i := fun _ _ => rfl
  simp only [hc] at h ⊢
  have hn0 : (n : ℝ) ≠ 0 := Nat.cast_ne_zero.2 (by omega)
  have h1 : ∑ i, w i * (run (fun _ => Z) (fun _ => E0) con inner (n :: rest) dt N (t0, s)).2.p i
      = ∑ i, w i * s.p i + N * dt * (∑ i, w i * fieldForce Z (fun _ => E0) 0 i) / n := by
    rw [h, sum_const, card_range, nsmul_eq_mul]; field_simp; ring
  refine ⟨h1, ?_⟩
  rw [h1, intervalIntegral.integral_const]
  intro h2
  generalize ∑ i, w i * fieldForce Z (fun _ => E0) 0 i = F at hF h2
  have h3 : N * dt * F / n = N * dt * F := by
    have := add_left_cancel h2
    rw [this, smul_eq_mul]; ring
  have hx : (N : ℝ) * dt * F ≠ 0 := mul_ne_zero (mul_ne_zero (Nat.cast_ne_zero.2 hN.ne') hdt.ne') hF
  rw [div_eq_iff hn0] at h3
  have : (n : ℝ) = 1 := by
    apply mul_left_cancel₀ hx; linarith
  have : n = 1 := by exact_mod_cast this
  omega

example := impulse_divided (fun i _ => if i = (0 : Fin 2) then 1 else 0) (fun _ => 1) id (freeStep 1) (fun i => if i = 0 then 1 else 0)
  (fun _ => rfl) (fun _ => rfl) 10 (by norm_num) [] 1 one_pos 5 (by norm_num) 0 ⟨0, 0⟩ (by simp [fieldForce])

/-- Reversing the velocities. -/
def flip {ι : Type} (s : St ι) : St ι := { s with p := fun i => - s.p i }

/-- **A driven step can be undone**: when the undriven step can, reversing the velocities and stepping through the field
played backwards leads to the start, whatever the charges (they may depend on the positions) and the substeps. -/
theorem driven_step_reversible {ι : Type} (bec : (ι → ℝ) → ι → Fin 3 → ℝ) (E : ℝ → Fin 3 → ℝ) (inner : St ι → St ι)
    (hrev : ∀ s, flip (inner (flip (inner s))) = s) (nmts : List ℕ) (dt t t' : ℝ) (s : St ι) :
    flip (step bec (fun u => E (t + dt - (u - t'))) id inner nmts dt t' (flip (step bec E id inner nmts dt t s))) = s := by
  unfold step
  dsimp only
  generalize (Verif.Mts.pdt dt nmts).headD 0 = h
  have a : ∀ (E' : ℝ → Fin 3 → ℝ) (u u' : ℝ) (x : St ι), E' u' = E u →
      tdPstep bec E' id h u' (flip (tdPstep bec E id h u x)) = flip x := by
    intro E' u u' x hE
    simp only [tdPstep, flip, hE, id]
    cases x
    simp only [St.mk.injEq, true_and]
    funext i; ring
  have f2 : ∀ x : St ι, flip (flip x) = x := by intro x; simp [flip]
  have b := a (fun u => E (t + dt - (u - t'))) (t + dt) t' (inner (tdPstep bec E id h t s)) (by simp)
  rw [b]
  have c := hrev (tdPstep bec E id h t s)
  have d : inner (flip (inner (tdPstep bec E id h t s))) = flip (tdPstep bec E id h t s) := by
    rw [← f2 (inner (flip (inner (tdPstep bec E id h t s)))), c]
  rw [d, a (fun u => E (t + dt - (u - t'))) t (t' + dt) s (by
    congr 1; ring), f2]

example := driven_step_reversible (fun q i _ => q i) (fun t _ => Real.cos t) (freeStep 1)
  (fun s => by simp [flip, freeStep]) [2, 3] 1 0 1 ⟨0, 0⟩

/-- **Charges from a driver that are accepted are close to neutral**: the field changes the total momentum of the atoms by
at most the threshold times the square of the number of atoms times the strength of the field, per unit of time. -/
theorem accepted_charges_net_force (natoms : ℕ) (hN : 0 < natoms) (thr : ℝ) (rows cols : ℕ)
    (Z : Fin natoms → Fin 3 → Fin 3 → ℝ) (h : becAccepted natoms thr rows cols Z = true) (E : Fin 3 → ℝ) (i : Fin 3) :
    rows = 3 * natoms ∧ cols = 3 ∧
    |∑ a, edaForces (fun x : Fin natoms × Fin 3 => Z x.1 x.2) E (a, i)| ≤ thr * natoms ^ 2 * ∑ k, |E k| := by
  unfold becAccepted at h
  by_cases h1 : rows ≠ 3 * natoms
  · rw [if_pos h1] at h; cases h
  rw [if_neg h1] at h
  by_cases h2 : cols ≠ 3
  · rw [if_pos h2] at h; cases h
  rw [if_neg h2, decide_eq_true_iff] at h
  refine ⟨not_not.1 h1, not_not.1 h2, ?_⟩
  have hN' : (0 : ℝ) < natoms := Nat.cast_pos.2 hN
  have hs : ∀ k, |∑ a, Z a i k| ≤ thr * natoms ^ 2 := by
    intro k
    have := h i k
    rw [abs_div, abs_of_pos hN', div_le_iff₀ hN'] at this
    linarith [this]
  have e : ∑ a, edaForces (fun x : Fin natoms × Fin 3 => Z x.1 x.2) E (a, i) = ∑ k, (∑ a, Z a i k) * E k := by
    simp only [edaForces, one_mul]
    rw [sum_comm]
    exact sum_congr rfl fun k _ => (sum_mul _ _ _).symm
  rw [e, mul_sum]
  refine (abs_sum_le_sum_abs _ _).trans (sum_le_sum fun k _ => ?_)
  rw [abs_mul]
  exact mul_le_mul_of_nonneg_right (hs k) (abs_nonneg _)

example := accepted_charges_net_force 2 (by norm_num) 0 6 3 (fun a _ _ => if a = 0 then 1 else -1)
  (by simp [becAccepted]) (fun _ => 1) 0

/-- Exactly neutral charges are accepted with any threshold that is not negative. -/
theorem neutral_charges_accepted (natoms : ℕ) (thr : ℝ) (ht : 0 ≤ thr) (Z : Fin natoms → Fin 3 → Fin 3 → ℝ)
    (h : ∀ i k, ∑ a, Z a i k = 0) : becAccepted natoms thr (3 * natoms) 3 Z = true := by
  simp only [becAccepted, ne_eq, not_true_eq_false, if_false, decide_eq_true_iff, h]
  intro i k
  rw [zero_div, abs_zero]
  positivity

example := neutral_charges_accepted 2 0 le_rfl (fun a _ _ => if a = 0 then 1 else -1) (by simp)

/-- **Violation.**  The documented tolerance on the sum over the atoms is the threshold times the number of atoms; because
the mean is compared with it, a sum as large as the threshold times the square of the number of atoms is accepted. -/
theorem sum_rule_tolerance_too_large (natoms : ℕ) (hN : 2 ≤ natoms) (thr : ℝ) (ht : 0 < thr) :
    ∃ Z : Fin natoms → Fin 3 → Fin 3 → ℝ, becAccepted natoms thr (3 * natoms) 3 Z = true ∧
      ∀ i k, |∑ a, Z a i k| > thr * natoms := by
  have hN' : (0 : ℝ) < natoms := Nat.cast_pos.2 (by omega)
  have h2 : (2 : ℝ) ≤ natoms := by exact_mod_cast hN
  refine ⟨fun _ _ _ => thr * natoms, ?_, ?_⟩
  · simp only [becAccepted, ne_eq, not_true_eq_false, if_false, decide_eq_true_iff, sum_const, card_univ, Fintype.card_fin,
      nsmul_eq_mul]
    intro _ _
    rw [mul_div_assoc, mul_div_cancel₀ _ hN'.ne', abs_of_pos (by positivity)]
  · intro _ _
    simp only [sum_const, card_univ, Fintype.card_fin, nsmul_eq_mul]
    rw [abs_of_pos (by positivity)]
    nlinarith [mul_pos ht hN']

example := sum_rule_tolerance_too_large 2 le_rfl (1e-8) (by norm_num)

/-- Fixed charges are accepted exactly when there is one tensor for each atom of each bead. -/
theorem fixed_charges_count (nbeads natoms numbers : ℕ) :
    fixedAccepted nbeads natoms numbers = true ↔ numbers = nbeads * natoms * 9 := by
  simp only [fixedAccepted, beq_iff_eq]
  rw [show nbeads * (3 * natoms) * 3 = nbeads * natoms * 9 by ring]

example : fixedAccepted 4 2 72 = true := (fixed_charges_count 4 2 72).2 rfl

end Verif.Driven
