import Verif.Props.C42_Propagator
import Mathlib.Algebra.BigOperators.Field

/-!
# C67: the energy reported for the ring polymer is the one its propagation conserves
# C68: the propagators follow the equations of motion of the dynamical masses

The conserved quantity of a run contains the kinetic energy of the normal modes and the spring
energy, as reported.  With scaled dynamical masses they must be those of the propagation.
-/

namespace Verif.Prop

open Real Finset

/-- The energy of all modes, each with the mass and the frequency that belong to it. -/
noncomputable def trueEnergy (g : Par) (s : Modes) : ℝ :=
  ∑ k ∈ range g.nbeads, ∑ a ∈ range g.ncoord,
    modeEnergy (g.freq k a) (g.factor k a) (g.m a) (s.p k a) (s.q k a)

/-- The propagation conserves the energy of the modes, for all systems. -/
theorem true_energy_kept {g : Par} (h : g.Ok) (dt : ℝ) (s : Modes) :
    trueEnergy g (freeQstep g dt s) = trueEnergy g s := by
  unfold trueEnergy
  exact sum_congr rfl fun k _ => sum_congr rfl fun a _ => free_energy h dt s k a

/-- The reported spring energy is the one of the modes: with closed and with open paths. -/
theorem vspring_eq {g : Par} (h : g.Ok) (hn : g.nbeads ≠ 1) (s : Modes) :
    vspring g s = ∑ k ∈ range g.nbeads, ∑ a ∈ range g.ncoord,
      g.m a * g.freq k a ^ 2 * s.q k a ^ 2 / 2 := by
  unfold vspring
  rw [if_neg hn]
  have h1 : ∑ a ∈ range g.ncoord, (if g.isOpen a then
          ∑ k ∈ range g.nbeads, g.m a * (g.oω k ^ 2 - g.ω k ^ 2) * s.q k a ^ 2 else 0)
      = ∑ k ∈ range g.nbeads, ∑ a ∈ range g.ncoord,
        (if g.isOpen a then g.m a * (g.oω k ^ 2 - g.ω k ^ 2) * s.q k a ^ 2 else 0) := by
    rw [sum_comm]
    refine sum_congr rfl fun a _ => ?_
    split
    · rfl
    · simp
  rw [h1, ← sum_add_distrib, sum_mul]
  refine sum_congr rfl fun k _ => ?_
  rw [mul_sum, ← sum_add_distrib, sum_mul]
  refine sum_congr rfl fun a _ => ?_
  rw [mul_pow, sq_sqrt (h.m a).le]
  unfold Par.freq
  split <;> ring

/-- The reported kinetic energy, mode by mode. -/
theorem kin_eq {g : Par} (h : g.Ok) (s : Modes) :
    kin g s = ∑ k ∈ range g.nbeads, ∑ a ∈ range g.ncoord,
      s.p k a ^ 2 / (2 * (g.m a * g.fac k)) := by
  unfold kin
  refine sum_congr rfl fun k _ => ?_
  rw [mul_sum, sum_div]
  refine sum_congr rfl fun a _ => ?_
  rw [div_pow, sq_sqrt (h.m a).le]
  have := (h.m a).ne'
  have := (h.fac k).ne'
  field_simp
  norm_num
  ring

/-- **C67** (partial: not for open paths with scaled masses).  If no path is open, or the mass
factors of open paths are those of closed ones (as in the mode without scaling), then for every
ring polymer and time step the reported kinetic energy plus the reported spring energy is the same
before and after the propagation. -/
theorem reported_energy_partial {g : Par} (h : g.Ok)
    (ho : ∀ a < g.ncoord, g.isOpen a → ∀ k < g.nbeads, g.ofac k = g.fac k) (dt : ℝ) (s : Modes) :
    kin g (freeQstep g dt s) + vspring g (freeQstep g dt s) = kin g s + vspring g s := by
  by_cases hn : g.nbeads = 1
  · have : freeQstep g dt s = s := by unfold freeQstep; rw [if_pos hn]
    rw [this]
  · have key : ∀ s, kin g s + vspring g s = trueEnergy g s := by
      intro s
      rw [kin_eq h, vspring_eq h hn, ← sum_add_distrib]
      refine sum_congr rfl fun k hk => ?_
      rw [← sum_add_distrib]
      refine sum_congr rfl fun a ha => ?_
      unfold modeEnergy
      have hf : g.factor k a = g.fac k := by
        unfold Par.factor
        split
        · next hi => exact ho a (mem_range.1 ha) hi k (mem_range.1 hk)
        · rfl
      rw [hf]
    rw [key, key, true_energy_kept h]

/-- An open path of two beads with the masses of partially adiabatic dynamics: both modes are
moved to frequency one, so that the factors are the squares of the frequencies. -/
noncomputable def openPar : Par :=
  { nbeads := 2, ncoord := 1, m := fun _ => 1, isOpen := fun _ => true,
    ω := fun k => if k = 0 then 0 else 2, oω := fun k => if k = 0 then 0 else √2,
    fac := fun k => if k = 0 then 1 else 4, ofac := fun k => if k = 0 then 1 else 2,
    variant := .exact }

theorem openPar_ok : openPar.Ok where
  m := fun a => by show (0 : ℝ) < 1; norm_num
  ω := fun k hk => by show (0 : ℝ) < if k = 0 then 0 else 2; rw [if_neg hk]; norm_num
  oω := fun k hk => by show (0 : ℝ) < if k = 0 then 0 else √2; rw [if_neg hk]; positivity
  fac := fun k => by show (0 : ℝ) < if k = 0 then 1 else 4; split <;> norm_num
  ofac := fun k => by show (0 : ℝ) < if k = 0 then 1 else 2; split <;> norm_num

/-- The open path stretched, at rest. -/
def stretched : Modes := { p := fun _ _ => 0, q := fun k _ => if k = 0 then 0 else 1 }

/-- **C67 fails for open paths with scaled masses.**  A quarter of a period turns the spring energy
one of a stretched open path into the reported kinetic energy one half: the kinetic energy is
computed with the mass factors of closed paths. -/
theorem open_energy_lost :
    kin openPar stretched + vspring openPar stretched = 1
    ∧ kin openPar (freeQstep openPar (π / 2) stretched)
        + vspring openPar (freeQstep openPar (π / 2) stretched) = 1 / 2 := by
  constructor
  · rw [kin_eq openPar_ok, vspring_eq openPar_ok (by decide)]
    simp [openPar, stretched, sum_range_succ, Par.freq]
  · rw [kin_eq openPar_ok, vspring_eq openPar_ok (by decide)]
    simp [openPar, stretched, sum_range_succ, Par.freq, freeQstep, Par.mat, withMass, propPq,
      Mat2.act]
    norm_num

/-- **C67, negation.** -/
theorem reported_energy_fails :
    ¬ ∀ (g : Par) (dt : ℝ) (s : Modes), g.Ok →
      kin g (freeQstep g dt s) + vspring g (freeQstep g dt s) = kin g s + vspring g s := by
  intro h
  have h1 := h openPar (π / 2) stretched openPar_ok
  rw [open_energy_lost.1, open_energy_lost.2] at h1
  norm_num at h1

/-- The example of `C42` with closed paths only. -/
noncomputable def closedPar : Par := { exPar with isOpen := fun _ => false }

theorem closedPar_ok : closedPar.Ok :=
  ⟨exPar_ok.m, exPar_ok.ω, exPar_ok.oω, exPar_ok.fac, exPar_ok.ofac⟩

/-- The partial theorem applies to a closed polymer with scaled masses. -/
example (s : Modes) : kin closedPar (freeQstep closedPar 0.3 s)
      + vspring closedPar (freeQstep closedPar 0.3 s) = kin closedPar s + vspring closedPar s :=
  reported_energy_partial closedPar_ok (fun _ _ h => absurd h Bool.false_ne_true) 0.3 s

/-! ## C68 -/

/-- A family of propagators follows Hamilton's equations to first order: at time zero it is the
identity, and its rates there are `q' = p / (m fac)` and `p' = - m ω² q`. -/
def FollowsHamilton (ω fac m : ℝ) (P : ℝ → Mat2) : Prop :=
  ∀ p q : ℝ, (P 0).act p q = (p, q)
    ∧ HasDerivAt (fun t => ((P t).act p q).2) (p / (m * fac)) 0
    ∧ HasDerivAt (fun t => ((P t).act p q).1) (-(m * ω ^ 2 * q)) 0

/-- **C68, exact propagator**, for every mass factor. -/
theorem exact_follows (ω fac m : ℝ) (hω : 0 < ω) (hf : 0 < fac) (hm : 0 < m) :
    FollowsHamilton ω fac m (mode .exact ω fac m) := by
  intro p q
  obtain ⟨h1, h2, h3⟩ := exact_solves ω fac m 0 hω hf hm p q
  rw [h3] at h1 h2
  exact ⟨h3, h1, h2⟩

/-- **C68, Cayley propagator** (partial: without mass scaling). -/
theorem cayley_follows_partial (ω m : ℝ) (hω : 0 < ω) (hm : 0 < m) :
    FollowsHamilton ω 1 m (mode .cayley ω 1 m) := by
  intro p q
  obtain ⟨h1, h2⟩ := cayley_rate ω 1 m hω one_pos hm p q
  refine ⟨?_, ?_, ?_⟩
  · simp [mode, withMass, propPq, Mat2.act]
  · simpa using h1
  · simpa using h2

/-- **C68 fails for the Cayley propagator with scaled masses**: for every mass factor but one the
rates are those of a mode that is slower or faster by the square root of the factor. -/
theorem cayley_not_follows (ω fac m : ℝ) (hω : 0 < ω) (hf : 0 < fac) (hm : 0 < m) (h1 : fac ≠ 1) :
    ¬ FollowsHamilton ω fac m (mode .cayley ω fac m) := by
  intro h
  have ha := (h 1 0).2.1
  have hb := (cayley_rate ω fac m hω hf hm 1 0).1
  have e := ha.unique hb
  have hs : 0 < √fac := sqrt_pos.2 hf
  have hsq : √fac ^ 2 = fac := sq_sqrt hf.le
  rw [div_eq_div_iff (by positivity) (by positivity), one_mul, one_mul] at e
  have e1 : √fac = fac := mul_left_cancel₀ hm.ne' e
  have e2 : √fac * (√fac - 1) = 0 := by linear_combination hsq - e1
  rcases mul_eq_zero.1 e2 with e3 | e3
  · exact hs.ne' e3
  · apply h1
    rw [← e1]; linarith

end Verif.Prop
