import Verif.Props.C39_Mts

/-!
# C66: every ensemble advances the system by the time step

Total times of all the integrators: forces, positions, thermostat and, for Suzuki-Chin, the
second part of the force.
-/

namespace Verif.Mts

open Op

section
variable {K : Type} [Field K] [CharZero K]

/-- The updates of one step of the ensemble. -/
inductive Ensemble where
  | nve
  | nvt
  | nvtcc
  | sc
  deriving DecidableEq, Repr

/-- One step (constant pressure uses the sequence of `nvt`, Suzuki-Chin at constant pressure that
of `sc`). -/
def stepOf (e : Ensemble) (sp : Splitting) (nmts : List ℕ) : List Op :=
  match e with
  | .nve => nveStep nmts
  | .nvt => nvtStep sp nmts
  | .nvtcc => nvtccStep
  | .sc => scStep sp nmts

/-- The time for which `p i` acts: `pdt[i]`, except for `nvt-cc`, which uses half a step. -/
def kickTime (e : Ensemble) (dt : K) (nmts : List ℕ) (i : ℕ) : K :=
  match e with
  | .nvtcc => dt / 2
  | _ => (pdt dt nmts).getD i 0

/-- The specification: the forces of every level act for `dt`, the internal modes move for `dt`,
and the thermostat, if there is one, acts for `dt`. -/
def FullStep (e : Ensemble) (sp : Splitting) (nmts : List ℕ) (dt : K) : Prop :=
  (∀ i < nmts.length, ((stepOf e sp nmts).count (p i) : K) * kickTime e dt nmts i = dt)
  ∧ ((stepOf e sp nmts).count f : K) * qdt dt nmts = dt
  ∧ (e ≠ .nve → ((stepOf e sp nmts).count t : K) * tdt dt sp = dt)

omit [Field K] [CharZero K] in
theorem sc_count (sp : Splitting) (nmts : List ℕ) (x : Op) (hx : x ≠ s) :
    (scStep sp nmts).count x = (nvtStep sp nmts).count x := by
  have hz : ([s] : List Op).count x = 0 := by
    rw [List.count_eq_zero]; simp [hx]
  have e1 : ([t, c, s] : List Op) = [t, c] ++ [s] := rfl
  have e2 : ([s, t, c] : List Op) = [s] ++ [t, c] := rfl
  cases sp with
  | obabo => simp only [scStep, nvtStep, e1, e2, List.count_append, hz]; omega
  | baoab => simp only [scStep, nvtStep, List.count_append, hz]; omega

/-- **C66.**  For constant energy, constant temperature (or pressure) and Suzuki-Chin, for both
splittings and every list of positive multipliers, a step advances everything by `dt`.
Missing: the constrained centroid (`nvt-cc`), where it is false. -/
theorem full_step_partial (e : Ensemble) (he : e ≠ .nvtcc) (sp : Splitting) (nmts : List ℕ)
    (hne : nmts ≠ []) (hpos : ∀ m ∈ nmts, 0 < m) (dt : K) : FullStep e sp nmts dt := by
  have hnvt : ∀ i < nmts.length, ((nvtStep sp nmts).count (p i) : K) * (pdt dt nmts).getD i 0 = dt := by
    intro i hi
    rw [nvt_count sp nmts (p i) (by simp) (by simp)]
    exact kick_time dt nmts hpos i hi
  have hq : ((nvtStep sp nmts).count f : K) * qdt dt nmts = dt := by
    rw [nvt_count sp nmts f (by simp) (by simp)]
    exact drift_time dt nmts hne hpos f (Or.inr rfl)
  cases e with
  | nve =>
    exact ⟨fun i hi => kick_time dt nmts hpos i hi, drift_time dt nmts hne hpos f (Or.inr rfl),
      fun h => absurd rfl h⟩
  | nvt => exact ⟨hnvt, hq, fun _ => thermostat_time dt sp nmts⟩
  | nvtcc => exact absurd rfl he
  | sc =>
    refine ⟨?_, ?_, ?_⟩
    · intro i hi
      show ((scStep sp nmts).count (p i) : K) * (pdt dt nmts).getD i 0 = dt
      rw [sc_count sp nmts (p i) (by simp)]; exact hnvt i hi
    · show ((scStep sp nmts).count f : K) * qdt dt nmts = dt
      rw [sc_count sp nmts f (by simp)]; exact hq
    · intro _
      show ((scStep sp nmts).count t : K) * tdt dt sp = dt
      rw [sc_count sp nmts t (by simp)]; exact thermostat_time dt sp nmts

/-- The second part of the Suzuki-Chin force acts twice for half a step. -/
theorem sc_second_part (sp : Splitting) (nmts : List ℕ) (dt : K) :
    ((scStep sp nmts).count s : K) * (dt / 2) = dt := by
  have h := count_t_respa s (Or.inr rfl) nmts 0
  rw [← mtsprop_is_respa] at h
  have hz1 : ([t, c, s] : List Op).count s = 1 := rfl
  have hz2 : ([s, t, c] : List Op).count s = 1 := rfl
  have hz3 : ([s] : List Op).count s = 1 := rfl
  have hz4 : ([t, c] : List Op).count s = 0 := rfl
  have e2 : (scStep sp nmts).count s = 2 := by
    cases sp with
    | obabo => simp only [scStep, List.count_append, hz1, hz2, h]
    | baoab =>
      unfold mtsprop at h
      rw [List.count_append] at h
      simp only [scStep, List.count_append, hz3, hz4]
      omega
  rw [e2]
  push_cast
  field_simp

/-- With a constrained centroid, one level and multiplier one, the OBABO splitting is right. -/
theorem nvtcc_obabo_partial (dt : K) : FullStep .nvtcc .obabo [1] dt := by
  refine ⟨?_, ?_, ?_⟩
  · intro i hi
    obtain rfl : i = 0 := by simpa using hi
    show (((2 : ℕ) : K)) * (dt / 2) = dt
    push_cast; field_simp
  · show (((2 : ℕ) : K)) * qdt dt [1] = dt
    unfold qdt
    simp
    field_simp
  · intro _
    show (((2 : ℕ) : K)) * tdt dt .obabo = dt
    unfold tdt
    push_cast; field_simp

/-- The constrained centroid with the BAOAB splitting: the thermostat acts for twice the time
step. -/
theorem nvtcc_baoab_thermostat (nmts : List ℕ) (dt : K) :
    ((stepOf .nvtcc .baoab nmts).count t : K) * tdt dt .baoab = 2 * dt := by
  show (((2 : ℕ) : K)) * dt = 2 * dt
  push_cast; rfl

/-- The constrained centroid with multiplier `n`: the ring polymer moves for the `n`-th part of the
time step only. -/
theorem nvtcc_drift (sp : Splitting) (n : ℕ) (hn : 0 < n) (dt : K) :
    ((stepOf .nvtcc sp [n]).count f : K) * qdt dt [n] = dt / n := by
  show (((2 : ℕ) : K)) * qdt dt [n] = dt / n
  unfold qdt
  have : ((n : ℕ) : K) ≠ 0 := by exact_mod_cast hn.ne'
  simp
  field_simp

end

/-- **C66 is false for the constrained centroid**: neither with the BAOAB splitting nor with a
multiplier of two. -/
theorem nvtcc_not_full :
    ¬ FullStep (K := ℚ) .nvtcc .baoab [1] 1 ∧ ¬ FullStep (K := ℚ) .nvtcc .obabo [2] 1 := by
  constructor
  · intro h
    have := h.2.2 (by decide)
    rw [nvtcc_baoab_thermostat] at this
    norm_num at this
  · intro h
    have := h.2.1
    rw [nvtcc_drift .obabo 2 (by norm_num)] at this
    norm_num at this

/-- The theorem covers nested levels. -/
example : FullStep (K := ℚ) .sc .baoab [2, 3] 5 :=
  full_step_partial .sc (by decide) .baoab [2, 3] (by simp) (by simp) 5

end Verif.Mts
