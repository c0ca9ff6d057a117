import Verif.Phys.Propagator
import Mathlib.Analysis.SpecialFunctions.Trigonometric.Deriv
import Mathlib.Analysis.Calculus.Deriv.Add
import Mathlib.Analysis.Calculus.Deriv.Mul
import Mathlib.Analysis.Calculus.Deriv.Inv
import Mathlib.Analysis.Calculus.Deriv.Pow
import Mathlib.Tactic.FieldSimp
import Mathlib.Tactic.Ring
import Mathlib.Tactic.NormNum
import Mathlib.Tactic.LinearCombination
import Mathlib.Tactic.Linarith

/-!
# C42: the propagator of the free ring polymer

Small specification: one mode of frequency `ω`, mass `m` and mass factor `fac` has the energy
`p² / (2 m fac) + m ω² q² / 2`, and Hamilton's equations are `q' = p / (m fac)`,
`p' = - m ω² q`.
-/

namespace Verif.Prop

open Real Finset

/-- Energy of one mode. -/
noncomputable def modeEnergy (ω fac m p q : ℝ) : ℝ := p ^ 2 / (2 * (m * fac)) + m * ω ^ 2 * q ^ 2 / 2

/-- The matrix of one mode with the mass. -/
noncomputable def mode (v : Variant) (ω fac m dt : ℝ) : Mat2 := withMass (propPq v ω fac dt) m

/-- Determinant. -/
def Mat2.det (P : Mat2) : ℝ := P.pp * P.qq - P.pq * P.qp

theorem cayley_pq (ω fac dt : ℝ) :
    (propPq .cayley ω fac dt).pq = -(ω ^ 2 * dt * √fac) / (1 + (ω * dt / 2) ^ 2) := by
  have e : 4 * (ω * dt / 2) ^ 2 / dt = ω ^ 2 * dt := by
    by_cases h : dt = 0
    · subst h; simp
    · field_simp
      ring
  show -(4 * (ω * dt / 2) ^ 2 / dt * √fac) / (1 + (ω * dt / 2) ^ 2) = _
  rw [e]

section
variable (v : Variant) (ω fac m dt : ℝ) (hω : 0 < ω) (hf : 0 < fac) (hm : 0 < m)
include hω hf hm

/-- **C42, determinant.**  For every frequency, mass, mass factor and time step, both propagators
have determinant one. -/
theorem det_one : (mode v ω fac m dt).det = 1 := by
  have hs : 0 < √fac := sqrt_pos.2 hf
  have hsq : √fac ^ 2 = fac := sq_sqrt hf.le
  cases v with
  | exact =>
    show cos (ω * dt / √fac) * cos (ω * dt / √fac)
      - (-sin (ω * dt / √fac) * ω * √fac * m) * (sin (ω * dt / √fac) / (ω * √fac) / m) = 1
    have h := sin_sq_add_cos_sq (ω * dt / √fac)
    generalize sin (ω * dt / √fac) = s at *
    generalize cos (ω * dt / √fac) = c at *
    have : (-s * ω * √fac * m) * (s / (ω * √fac) / m) = - s ^ 2 := by field_simp
    rw [this]; linarith
  | cayley =>
    have hd : (1 + (ω * dt / 2) ^ 2) ≠ 0 := by positivity
    show (1 - (ω * dt / 2) ^ 2) / (1 + (ω * dt / 2) ^ 2) * ((1 - (ω * dt / 2) ^ 2) / (1 + (ω * dt / 2) ^ 2))
      - ((propPq .cayley ω fac dt).pq * m) * (dt / √fac / (1 + (ω * dt / 2) ^ 2) / m) = 1
    rw [cayley_pq]
    have : (-(ω ^ 2 * dt * √fac) / (1 + (ω * dt / 2) ^ 2) * m)
        * (dt / √fac / (1 + (ω * dt / 2) ^ 2) / m)
        = -(ω ^ 2 * dt ^ 2) / (1 + (ω * dt / 2) ^ 2) ^ 2 := by field_simp
    rw [this]
    have h4 : (1 + (ω * dt / 2) ^ 2) ^ 2 ≠ 0 := pow_ne_zero 2 hd
    rw [div_mul_div_comm, ← sq, ← sq, ← sub_div, div_eq_one_iff_eq h4]
    ring

/-- **C42, energy.**  Both propagators conserve the harmonic energy of the mode. -/
theorem energy_kept (p q : ℝ) :
    modeEnergy ω fac m ((mode v ω fac m dt).act p q).1 ((mode v ω fac m dt).act p q).2
      = modeEnergy ω fac m p q := by
  have hs : 0 < √fac := sqrt_pos.2 hf
  have hsq : √fac ^ 2 = fac := sq_sqrt hf.le
  have hE : ∀ p q, modeEnergy ω fac m p q = p ^ 2 / (2 * (m * √fac ^ 2)) + m * ω ^ 2 * q ^ 2 / 2 := by
    intro p q; rw [hsq]; rfl
  rw [hE, hE]
  generalize √fac = r at *
  cases v with
  | exact =>
    obtain ⟨x, hx⟩ : ∃ x, x = ω * dt / √fac := ⟨_, rfl⟩
    show (p * cos (ω * dt / √fac) + q * (-sin (ω * dt / √fac) * ω * √fac * m)) ^ 2 / (2 * (m * r ^ 2))
      + m * ω ^ 2 * (p * (sin (ω * dt / √fac) / (ω * √fac) / m) + q * cos (ω * dt / √fac)) ^ 2 / 2 = _
    have hr : √fac = r := by
      rw [← hsq]; exact sqrt_sq hs.le
    rw [hr]
    have h := sin_sq_add_cos_sq (ω * dt / r)
    generalize sin (ω * dt / r) = s at *
    generalize cos (ω * dt / r) = c at *
    field_simp
    linear_combination (p ^ 2 + m ^ 2 * r ^ 2 * ω ^ 2 * q ^ 2) * h
  | cayley =>
    have hd : (1 + (ω * dt / 2) ^ 2) ≠ 0 := by positivity
    have hr : √fac = r := by
      rw [← hsq]; exact sqrt_sq hs.le
    show (p * ((1 - (ω * dt / 2) ^ 2) / (1 + (ω * dt / 2) ^ 2))
        + q * ((propPq .cayley ω fac dt).pq * m)) ^ 2 / (2 * (m * r ^ 2))
      + m * ω ^ 2 * (p * (dt / √fac / (1 + (ω * dt / 2) ^ 2) / m)
        + q * ((1 - (ω * dt / 2) ^ 2) / (1 + (ω * dt / 2) ^ 2))) ^ 2 / 2 = _
    rw [cayley_pq, hr]
    have e1 : p * ((1 - (ω * dt / 2) ^ 2) / (1 + (ω * dt / 2) ^ 2))
        + q * (-(ω ^ 2 * dt * r) / (1 + (ω * dt / 2) ^ 2) * m)
        = (p * (1 - (ω * dt / 2) ^ 2) - q * (ω ^ 2 * dt * r * m)) / (1 + (ω * dt / 2) ^ 2) := by
      field_simp
      ring
    have e2 : p * (dt / r / (1 + (ω * dt / 2) ^ 2) / m)
        + q * ((1 - (ω * dt / 2) ^ 2) / (1 + (ω * dt / 2) ^ 2))
        = (p * (dt / (r * m)) + q * (1 - (ω * dt / 2) ^ 2)) / (1 + (ω * dt / 2) ^ 2) := by
      field_simp
    rw [e1, e2, div_pow, div_pow]
    field_simp
    ring

/-- **C42, time steps add up.**  For the exact propagator, a step of `dt'` after a step of `dt` is
a step of `dt + dt'`; in particular two half steps are one full step. -/
theorem exact_add (dt' p q : ℝ) :
    let s := (mode .exact ω fac m dt).act p q
    (mode .exact ω fac m dt').act s.1 s.2 = (mode .exact ω fac m (dt + dt')).act p q := by
  have hs : 0 < √fac := sqrt_pos.2 hf
  have ea : ω * (dt + dt') / √fac = ω * dt / √fac + ω * dt' / √fac := by ring
  simp only [mode, withMass, propPq, Mat2.act, ea]
  rw [cos_add, sin_add]
  generalize √fac = r at *
  generalize sin (ω * dt / r) = s at *
  generalize cos (ω * dt / r) = c at *
  generalize sin (ω * dt' / r) = s' at *
  generalize cos (ω * dt' / r) = c' at *
  refine Prod.ext ?_ ?_
  · simp only
    field_simp
    ring
  · simp only
    field_simp
    ring

/-- **C42, reversal.**  Both propagators are undone by the opposite time step. -/
theorem inverse (p q : ℝ) :
    let s := (mode v ω fac m dt).act p q
    (mode v ω fac m (-dt)).act s.1 s.2 = (p, q) := by
  have hs : 0 < √fac := sqrt_pos.2 hf
  cases v with
  | exact =>
    have h := exact_add ω fac m dt hω hf hm (-dt) p q
    simp only at h ⊢
    rw [h, add_neg_cancel]
    simp [mode, withMass, propPq, Mat2.act]
  | cayley =>
    have hd : (1 + (ω * dt / 2) ^ 2) ≠ 0 := by positivity
    have hn : (ω * -dt / 2) ^ 2 = (ω * dt / 2) ^ 2 := by ring
    have h1 := cayley_pq ω fac dt
    have h2 := cayley_pq ω fac (-dt)
    simp only [mode, withMass, Mat2.act, h1, h2]
    simp only [propPq, hn]
    generalize √fac = r at *
    have hx : (ω * dt / 2) ^ 2 = ω ^ 2 * dt ^ 2 / 4 := by ring
    rw [hx] at hd ⊢
    generalize hD : 1 + ω ^ 2 * dt ^ 2 / 4 = D at *
    have hC : 1 - ω ^ 2 * dt ^ 2 / 4 = 2 - D := by rw [← hD]; ring
    have hW : ω ^ 2 * dt ^ 2 = 4 * (D - 1) := by rw [← hD]; ring
    rw [hC]
    refine Prod.ext ?_ ?_
    · simp only
      field_simp
      linear_combination (p + 0 * q) * hW
    · simp only
      field_simp
      linear_combination (q * r * m) * hW

/-- Reversing the momenta, stepping and reversing again is the step back. -/
theorem flip_step (p q : ℝ) :
    let s := (mode v ω fac m dt).act p q
    (mode v ω fac m dt).act (-s.1) s.2 = (-p, q) := by
  have h := inverse v ω fac m dt hω hf hm p q
  simp only at h ⊢
  have e1 : (mode v ω fac m (-dt)).pp = (mode v ω fac m dt).pp := by
    cases v <;> simp [mode, withMass, propPq, neg_div]
  have e2 : (mode v ω fac m (-dt)).qq = (mode v ω fac m dt).qq := by
    cases v <;> simp [mode, withMass, propPq, neg_div]
  have e3 : (mode v ω fac m (-dt)).pq = - (mode v ω fac m dt).pq := by
    cases v
    · simp [mode, withMass, propPq, neg_div]
    · show (propPq .cayley ω fac (-dt)).pq * m = - ((propPq .cayley ω fac dt).pq * m)
      rw [cayley_pq, cayley_pq]
      have hn : (ω * -dt / 2) ^ 2 = (ω * dt / 2) ^ 2 := by ring
      rw [hn]
      ring
  have e4 : (mode v ω fac m (-dt)).qp = - (mode v ω fac m dt).qp := by
    cases v <;> simp [mode, withMass, propPq, neg_div]
  unfold Mat2.act at h ⊢
  rw [e1, e2, e3, e4] at h
  obtain ⟨h1, h2⟩ := Prod.mk.inj h
  refine Prod.ext ?_ ?_
  · simp only at h1 ⊢; linear_combination -h1
  · simp only at h2 ⊢; linear_combination h2

omit v in
/-- **C42, exactness.**  The exact propagator solves Hamilton's equations at every time. -/
theorem exact_solves (p q : ℝ) :
    HasDerivAt (fun t => ((mode .exact ω fac m t).act p q).2)
      (((mode .exact ω fac m dt).act p q).1 / (m * fac)) dt
    ∧ HasDerivAt (fun t => ((mode .exact ω fac m t).act p q).1)
      (-(m * ω ^ 2 * ((mode .exact ω fac m dt).act p q).2)) dt
    ∧ (mode .exact ω fac m 0).act p q = (p, q) := by
  have hs : 0 < √fac := sqrt_pos.2 hf
  have hsq : √fac ^ 2 = fac := sq_sqrt hf.le
  have hx : HasDerivAt (fun t : ℝ => ω * t / √fac) (ω / √fac) dt := by
    have := ((hasDerivAt_id dt).const_mul ω).div_const (√fac)
    simpa using this
  have hc := hx.cos
  have hsn := hx.sin
  refine ⟨?_, ?_, ?_⟩
  · have h1 : HasDerivAt (fun t : ℝ => p * (sin (ω * t / √fac) / (ω * √fac) / m)
        + q * cos (ω * t / √fac)) _ dt :=
      ((((hsn.div_const (ω * √fac)).div_const m).const_mul p).add (hc.const_mul q))
    refine HasDerivAt.congr_deriv h1 ?_
    show _ = (p * cos (ω * dt / √fac) + q * (-sin (ω * dt / √fac) * ω * √fac * m)) / (m * fac)
    rw [← hsq]
    have hr : √(√fac ^ 2) = √fac := by rw [hsq]
    rw [hr]
    generalize √fac = r at *
    field_simp
  · have h1 : HasDerivAt (fun t : ℝ => p * cos (ω * t / √fac)
        + q * (-sin (ω * t / √fac) * ω * √fac * m)) _ dt :=
      ((hc.const_mul p).add (((((hsn.neg).mul_const ω).mul_const (√fac)).mul_const m).const_mul q))
    refine HasDerivAt.congr_deriv h1 ?_
    show _ = -(m * ω ^ 2 * (p * (sin (ω * dt / √fac) / (ω * √fac) / m) + q * cos (ω * dt / √fac)))
    generalize √fac = r at *
    field_simp
    ring
  · simp [mode, withMass, propPq, Mat2.act]

omit v dt in
/-- For small time steps the Cayley propagator moves positions with the velocity
`p / (m √fac)` and momenta with the force `- m ω² √fac q`. -/
theorem cayley_rate (p q : ℝ) :
    HasDerivAt (fun t => ((mode .cayley ω fac m t).act p q).2) (p / (m * √fac)) 0
    ∧ HasDerivAt (fun t => ((mode .cayley ω fac m t).act p q).1) (-(m * ω ^ 2 * √fac * q)) 0 := by
  have hs : 0 < √fac := sqrt_pos.2 hf
  have hx : HasDerivAt (fun t : ℝ => (ω * t / 2) ^ 2) 0 0 := by
    have h0 : HasDerivAt (fun t : ℝ => ω * t / 2) (ω / 2) 0 := by
      have := ((hasDerivAt_id (0 : ℝ)).const_mul ω).div_const 2
      simpa using this
    have := h0.pow 2
    refine HasDerivAt.congr_deriv this ?_
    simp
  have hD := hx.const_add 1
  have hN := hx.const_sub 1
  have hne : (1 + (ω * 0 / 2) ^ 2 : ℝ) ≠ 0 := by norm_num
  have hpp := hN.div hD hne
  have hid := hasDerivAt_id (0 : ℝ)
  constructor
  · have h1 : HasDerivAt (fun t : ℝ => p * (t / √fac / (1 + (ω * t / 2) ^ 2) / m)
        + q * ((1 - (ω * t / 2) ^ 2) / (1 + (ω * t / 2) ^ 2))) _ 0 :=
      (((((hid.div_const (√fac)).div hD hne).div_const m).const_mul p).add (hpp.const_mul q))
    refine HasDerivAt.congr_deriv h1 ?_
    simp
    field_simp
  · have h1 : HasDerivAt (fun t : ℝ => p * ((1 - (ω * t / 2) ^ 2) / (1 + (ω * t / 2) ^ 2))
        + q * (-(ω ^ 2 * t * √fac) / (1 + (ω * t / 2) ^ 2) * m)) _ 0 :=
      ((hpp.const_mul p).add ((((((hid.const_mul (ω ^ 2)).mul_const (√fac)).neg).div hD hne).mul_const m).const_mul q))
    have e : (fun t => ((mode .cayley ω fac m t).act p q).1)
        = fun t : ℝ => p * ((1 - (ω * t / 2) ^ 2) / (1 + (ω * t / 2) ^ 2))
          + q * (-(ω ^ 2 * t * √fac) / (1 + (ω * t / 2) ^ 2) * m) := by
      funext t
      show p * ((1 - (ω * t / 2) ^ 2) / (1 + (ω * t / 2) ^ 2)) + q * ((propPq .cayley ω fac t).pq * m) = _
      rw [cayley_pq]
    rw [e]
    refine HasDerivAt.congr_deriv h1 ?_
    simp
    ring

end

/-! ## The whole ring polymer -/

/-- Meaningful parameters: masses and mass factors are positive, and so are the frequencies of
all modes but the centroid. -/
structure Par.Ok (g : Par) : Prop where
  m : ∀ a, 0 < g.m a
  ω : ∀ k, k ≠ 0 → 0 < g.ω k
  oω : ∀ k, k ≠ 0 → 0 < g.oω k
  fac : ∀ k, 0 < g.fac k
  ofac : ∀ k, 0 < g.ofac k

/-- The frequency that belongs to mode `k` of coordinate `a`. -/
def Par.freq (g : Par) (k a : ℕ) : ℝ := if g.isOpen a then g.oω k else g.ω k

/-- The mass factor that belongs to mode `k` of coordinate `a`. -/
def Par.factor (g : Par) (k a : ℕ) : ℝ := if g.isOpen a then g.ofac k else g.fac k

theorem mat_eq (g : Par) (dt : ℝ) (k a : ℕ) :
    g.mat dt k a = mode g.variant (g.freq k a) (g.factor k a) (g.m a) dt := by
  unfold Par.mat Par.freq Par.factor mode
  cases g.isOpen a <;> rfl

theorem freq_pos {g : Par} (h : g.Ok) {k : ℕ} (hk : k ≠ 0) (a : ℕ) : 0 < g.freq k a := by
  unfold Par.freq
  split
  · exact h.oω k hk
  · exact h.ω k hk

theorem factor_pos {g : Par} (h : g.Ok) (k a : ℕ) : 0 < g.factor k a := by
  unfold Par.factor
  split
  · exact h.ofac k
  · exact h.fac k

/-- Momenta reversed. -/
def Modes.flip (s : Modes) : Modes := { s with p := fun k a => - s.p k a }

theorem Modes.ext {s t : Modes} (hp : ∀ k a, s.p k a = t.p k a) (hq : ∀ k a, s.q k a = t.q k a) :
    s = t := by
  cases s; cases t
  congr
  · funext k a; exact hp k a
  · funext k a; exact hq k a

/-- **C42, the whole ring polymer.**  Every mode of every coordinate keeps the energy that belongs
to its dynamical mass and frequency, with closed and with open paths. -/
theorem free_energy {g : Par} (h : g.Ok) (dt : ℝ) (s : Modes) (k a : ℕ) :
    modeEnergy (g.freq k a) (g.factor k a) (g.m a) ((freeQstep g dt s).p k a)
        ((freeQstep g dt s).q k a)
      = modeEnergy (g.freq k a) (g.factor k a) (g.m a) (s.p k a) (s.q k a) := by
  unfold freeQstep
  split
  · rfl
  · by_cases hk : k = 0
    · simp only [if_pos hk]
    · simp only [if_neg hk, mat_eq]
      exact energy_kept g.variant _ _ _ dt (freq_pos h hk a) (factor_pos h k a) (h.m a) _ _

/-- **C42, reversal of the whole ring polymer.** -/
theorem free_inverse {g : Par} (h : g.Ok) (dt : ℝ) (s : Modes) :
    freeQstep g (-dt) (freeQstep g dt s) = s := by
  unfold freeQstep
  split
  · rfl
  · refine Modes.ext (fun k a => ?_) (fun k a => ?_)
    · by_cases hk : k = 0
      · simp only [if_pos hk]
      · simp only [if_neg hk, mat_eq]
        exact congrArg Prod.fst
          (inverse g.variant _ _ _ dt (freq_pos h hk a) (factor_pos h k a) (h.m a) (s.p k a) (s.q k a))
    · by_cases hk : k = 0
      · simp only [if_pos hk]
      · simp only [if_neg hk, mat_eq]
        exact congrArg Prod.snd
          (inverse g.variant _ _ _ dt (freq_pos h hk a) (factor_pos h k a) (h.m a) (s.p k a) (s.q k a))

/-- **C42, time reversal.**  Stepping, reversing the momenta, stepping and reversing the momenta
gives the state back. -/
theorem free_reversible {g : Par} (h : g.Ok) (dt : ℝ) (s : Modes) :
    (freeQstep g dt (freeQstep g dt s).flip).flip = s := by
  unfold freeQstep Modes.flip
  split
  · refine Modes.ext (fun k a => ?_) (fun k a => rfl)
    simp
  · refine Modes.ext (fun k a => ?_) (fun k a => ?_)
    · by_cases hk : k = 0
      · simp [hk]
      · simp only [if_neg hk, mat_eq]
        have := congrArg Prod.fst
          (flip_step g.variant _ _ _ dt (freq_pos h hk a) (factor_pos h k a) (h.m a) (s.p k a) (s.q k a))
        simp only at this
        rw [this, neg_neg]
    · by_cases hk : k = 0
      · simp only [if_pos hk]
      · simp only [if_neg hk, mat_eq]
        exact congrArg Prod.snd
          (flip_step g.variant _ _ _ dt (freq_pos h hk a) (factor_pos h k a) (h.m a) (s.p k a) (s.q k a))

/-- **C42, half steps.**  With the exact propagator, steps of the whole ring polymer add up. -/
theorem free_add {g : Par} (h : g.Ok) (hv : g.variant = .exact) (dt dt' : ℝ) (s : Modes) :
    freeQstep g dt' (freeQstep g dt s) = freeQstep g (dt + dt') s := by
  unfold freeQstep
  split
  · rfl
  · refine Modes.ext (fun k a => ?_) (fun k a => ?_)
    · by_cases hk : k = 0
      · simp only [if_pos hk]
      · simp only [if_neg hk, mat_eq, hv]
        exact congrArg Prod.fst
          (exact_add _ _ _ dt (freq_pos h hk a) (factor_pos h k a) (h.m a) dt' (s.p k a) (s.q k a))
    · by_cases hk : k = 0
      · simp only [if_pos hk]
      · simp only [if_neg hk, mat_eq, hv]
        exact congrArg Prod.snd
          (exact_add _ _ _ dt (freq_pos h hk a) (factor_pos h k a) (h.m a) dt' (s.p k a) (s.q k a))

/-- **C42.**  The drift of the centroid and the propagation of the other modes act on different
modes: their order does not matter, as the integrators assume. -/
theorem drift_order (g : Par) (dt dt' : ℝ) (s : Modes) :
    qcstep g dt (freeQstep g dt' s) = freeQstep g dt' (qcstep g dt s) := by
  unfold qcstep freeQstep
  split
  · rfl
  · refine Modes.ext (fun k a => ?_) (fun k a => ?_)
    · by_cases hk : k = 0 <;> simp [hk]
    · by_cases hk : k = 0 <;> simp [hk]

/-- Two half steps of the Cayley propagator are *not* one step: the same frequency, mass, factor. -/
theorem cayley_not_add :
    ¬ ∀ ω fac m dt dt' p q : ℝ, 0 < ω → 0 < fac → 0 < m →
      let s := (mode .cayley ω fac m dt).act p q
      (mode .cayley ω fac m dt').act s.1 s.2 = (mode .cayley ω fac m (dt + dt')).act p q := by
  intro h
  have := h 2 1 1 1 1 1 0 (by norm_num) (by norm_num) (by norm_num)
  have h1 := congrArg Prod.fst this
  simp [mode, withMass, propPq, Mat2.act] at h1
  norm_num at h1

/-- Parameters of a ring polymer with a closed and an open path of two beads. -/
noncomputable def exPar : Par :=
  { nbeads := 2, ncoord := 6, m := fun a => 1 + a, isOpen := fun a => decide (3 ≤ a),
    ω := fun _ => 2, oω := fun _ => 1, fac := fun _ => 4, ofac := fun _ => 2, variant := .exact }

theorem exPar_ok : exPar.Ok where
  m := fun a => by show (0 : ℝ) < 1 + a; positivity
  ω := fun _ _ => by show (0 : ℝ) < 2; norm_num
  oω := fun _ _ => by show (0 : ℝ) < 1; norm_num
  fac := fun _ => by show (0 : ℝ) < 4; norm_num
  ofac := fun _ => by show (0 : ℝ) < 2; norm_num

/-- The centroid moves freely: constant momentum, velocity `p / m`, and the other modes stay. -/
theorem centroid_free (g : Par) (s : Modes) :
    qcstep g 0 s = s ∧ (∀ dt, (qcstep g dt s).p = s.p) ∧
      (∀ t a, HasDerivAt (fun dt => (qcstep g dt s).q 0 a) (s.p 0 a / g.m a) t) ∧
      ∀ dt k a, k ≠ 0 → (qcstep g dt s).q k a = s.q k a := by
  refine ⟨?_, fun _ => rfl, fun t a => ?_, fun dt k a hk => by simp [qcstep, hk]⟩
  · refine Modes.ext (fun _ _ => rfl) fun k a => ?_
    simp [qcstep]
  · simp only [qcstep, if_true]
    have h := (((hasDerivAt_id t).div_const (g.m a)).const_mul (s.p 0 a)).const_add (s.q 0 a)
    refine h.congr_deriv ?_
    ring

/-- The theorems apply, and the step moves something. -/
example (s : Modes) : (freeQstep exPar 0.3 (freeQstep exPar 0.3 s).flip).flip = s
    ∧ freeQstep exPar 0.2 (freeQstep exPar 0.1 s) = freeQstep exPar (0.1 + 0.2) s :=
  ⟨free_reversible exPar_ok _ _, free_add exPar_ok rfl _ _ _⟩

end Verif.Prop
