import Verif.Phys.Baro
import Mathlib.Analysis.Calculus.Deriv.Pi
import Mathlib.Analysis.SpecialFunctions.ExpDeriv
import Mathlib.Tactic.FieldSimp
import Mathlib.Tactic.Ring
import Mathlib.Tactic.Linarith
import Mathlib.Tactic.LinearCombination
import Mathlib.Tactic.Positivity

/-!
# C72: the isotropic barostat moves atoms and cell along the exact solution of its equations
-/

namespace Verif.Baro

open Finset

variable {nb N : ℕ}

theorem mean_setMean [NeZero nb] (x : Cfg nb N) (c : Cen N) : mean (setMean x c) = c := by
  funext a d
  have hn : (nb : ℝ) ≠ 0 := Nat.cast_ne_zero.mpr (NeZero.ne nb)
  simp only [mean, setMean, sum_add_distrib, sum_const, card_univ, Fintype.card_fin, nsmul_eq_mul]
  field_simp
  ring

theorem setMean_setMean [NeZero nb] (x : Cfg nb N) (c c' : Cen N) :
    setMean (setMean x c) c' = setMean x c' := by
  funext b a d
  rw [setMean, mean_setMean]
  simp only [setMean]
  ring

theorem setMean_mean (x : Cfg nb N) : setMean x (mean x) = x := by
  funext b a d; simp [setMean]

/-- The bead positions relative to their average never change when the average is moved. -/
theorem setMean_sub [NeZero nb] (x : Cfg nb N) (c : Cen N) (b : Fin nb) (a : Fin N) (d : Fin 3) :
    setMean x c b a d - mean (setMean x c) a d = x b a d - mean x a d := by
  rw [mean_setMean]; simp only [setMean]; ring

/-- The equations of motion of the centroids `q`, their momenta `p` and the cell `h` in a cell whose
size grows at the rate `v`: `dq/dt = p/m + v q`, `dp/dt = -v p`, `dh/dt = v h`. -/
structure IsoFlow (m : Fin N → ℝ) (v : ℝ) (q p : ℝ → Cen N) (h : ℝ → M3) : Prop where
  pos : ∀ t a d, HasDerivAt (fun t => q t a d) (p t a d / m a + v * q t a d) t
  mom : ∀ t a d, HasDerivAt (fun t => p t a d) (-v * p t a d) t
  cell : ∀ t i j, HasDerivAt (fun t => h t i j) (v * h t i j) t

theorem exp_lin (v t : ℝ) : HasDerivAt (fun t => Real.exp (v * t)) (v * Real.exp (v * t)) t := by
  have h : HasDerivAt (fun t => v * t) v t := by simpa using (hasDerivAt_id t).const_mul v
  have := h.exp
  rw [mul_comm] at this
  exact this

/-- **C72.** With a moving piston, the step of the isotropic barostat takes centroids, momenta and
cell exactly where their equations of motion take them, for a time step of any size. The beads move
with their centroid, and the piston keeps its velocity. -/
theorem iso_step_exact [NeZero nb] (par : Par N) (s : Iso nb N) (hv : s.pe / par.M ≠ 0) :
    (∀ dt, isoQcstep par dt s = some (bzpQ par dt s)) ∧
    bzpQ par 0 s = s ∧
    IsoFlow par.m (s.pe / par.M) (fun t => mean (bzpQ par t s).x) (fun t => mean (bzpQ par t s).p)
      (fun t => (bzpQ par t s).h) ∧
    (∀ dt, (bzpQ par dt s).pe = s.pe) ∧
    ∀ dt b a d, (bzpQ par dt s).x b a d - mean (bzpQ par dt s).x a d = s.x b a d - mean s.x a d ∧
      (bzpQ par dt s).p b a d - mean (bzpQ par dt s).p a d = s.p b a d - mean s.p a d := by
  refine ⟨fun dt => by rw [isoQcstep, if_neg hv], ?_, ⟨?_, ?_, ?_⟩, fun _ => rfl, ?_⟩
  · simp only [bzpQ, mul_zero, Real.exp_zero, sub_self, zero_div, zero_mul, add_zero, mul_one,
      one_mul]
    rw [show (fun a d => mean s.x a d) = mean s.x from rfl,
      show (fun a d => mean s.p a d) = mean s.p from rfl, setMean_mean, setMean_mean]
  · intro t a d
    have hx : ∀ t, mean (bzpQ par t s).x a d = mean s.x a d * Real.exp (s.pe / par.M * t)
        + ((Real.exp (s.pe / par.M * t) - Real.exp (-(s.pe / par.M) * t)) / (2 * (s.pe / par.M)))
          * (mean s.p a d / par.m a) := fun t => by simp only [bzpQ]; rw [mean_setMean]
    have hp : mean (bzpQ par t s).p a d = Real.exp (-(s.pe / par.M) * t) * mean s.p a d := by
      simp only [bzpQ]; rw [mean_setMean]
    beta_reduce
    rw [hp, hx t, funext hx]
    generalize s.pe / par.M = v at hv
    have e1 := (exp_lin v t).const_mul (mean s.x a d)
    have e2 := (((exp_lin v t).sub (exp_lin (-v) t)).div_const (2 * v)).mul_const
      (mean s.p a d / par.m a)
    refine (e1.add e2).congr_deriv ?_
    beta_reduce
    field_simp
    ring
  · intro t a d
    have hp : ∀ t, mean (bzpQ par t s).p a d = Real.exp (-(s.pe / par.M) * t) * mean s.p a d :=
      fun t => by simp only [bzpQ]; rw [mean_setMean]
    beta_reduce
    rw [hp t, funext hp]
    refine ((exp_lin (-(s.pe / par.M)) t).mul_const (mean s.p a d)).congr_deriv ?_
    ring
  · intro t i j
    refine ((exp_lin (s.pe / par.M) t).const_mul (s.h i j)).congr_deriv ?_
    simp only [bzpQ]
    ring
  · intro dt b a d
    simp only [bzpQ]
    exact ⟨setMean_sub _ _ _ _ _, setMean_sub _ _ _ _ _⟩

/-- Two steps in a row are one step of the summed length; in particular a step of `-dt` undoes a
step of `dt`. -/
theorem iso_step_group [NeZero nb] (par : Par N) (s : Iso nb N) (hv : s.pe / par.M ≠ 0)
    (t u : ℝ) : bzpQ par u (bzpQ par t s) = bzpQ par (t + u) s := by
  have e1 : ∀ w : ℝ, Real.exp (w * (t + u)) = Real.exp (w * t) * Real.exp (w * u) := fun w => by
    rw [mul_add, Real.exp_add]
  have e2 : ∀ w x : ℝ, Real.exp (w * x) * Real.exp (-w * x) = 1 := fun w x => by
    rw [← Real.exp_add]; simp
  have hx : (bzpQ par u (bzpQ par t s)).x = (bzpQ par (t + u) s).x := by
    simp only [bzpQ]
    rw [setMean_setMean, mean_setMean, mean_setMean]
    congr 1
    funext a d
    rw [e1, e1]
    have h1 := e2 (s.pe / par.M) t
    have h2 := e2 (s.pe / par.M) u
    generalize s.pe / par.M = v at *
    generalize Real.exp (v * t) = A at *
    generalize Real.exp (-v * t) = B at *
    generalize Real.exp (v * u) = C at *
    generalize Real.exp (-v * u) = D at *
    field_simp
    ring
  have hp : (bzpQ par u (bzpQ par t s)).p = (bzpQ par (t + u) s).p := by
    simp only [bzpQ]
    rw [setMean_setMean, mean_setMean]
    congr 1
    funext a d
    rw [e1]
    ring
  have hh : (bzpQ par u (bzpQ par t s)).h = (bzpQ par (t + u) s).h := by
    simp only [bzpQ]
    funext i j
    rw [e1]
    ring
  have : ∀ a b : Iso nb N, a.x = b.x → a.p = b.p → a.h = b.h → a.pe = b.pe → a = b := by
    rintro ⟨⟩ ⟨⟩ h1 h2 h3 h4
    simp_all
  exact this _ _ hx hp hh rfl

theorem iso_step_reversible [NeZero nb] (par : Par N) (s : Iso nb N) (hv : s.pe / par.M ≠ 0)
    (t : ℝ) : bzpQ par (-t) (bzpQ par t s) = s := by
  rw [iso_step_group par s hv, add_neg_cancel]
  exact (iso_step_exact par s hv).2.1

/-- The volume grows at three times the rate, and the shape of the cell does not change. -/
theorem iso_volume (par : Par N) (s : Iso nb N) (dt : ℝ) :
    vol (bzpQ par dt s).h = vol s.h * Real.exp (3 * (s.pe / par.M) * dt) ∧
    ∀ i j k l, (bzpQ par dt s).h i j * s.h k l = s.h i j * (bzpQ par dt s).h k l := by
  refine ⟨?_, fun i j k l => by simp only [bzpQ]; ring⟩
  have : Real.exp (3 * (s.pe / par.M) * dt) = Real.exp (s.pe / par.M * dt)
      * Real.exp (s.pe / par.M * dt) * Real.exp (s.pe / par.M * dt) := by
    rw [← Real.exp_add, ← Real.exp_add]; congr 1; ring
  rw [this]
  simp only [bzpQ, vol]
  ring

/-- **Disagreement.** With the piston at rest — the value at which a run starts, unless the input
gives another one — the step divides zero by zero: no positions come out of it. It is only because
the pressure has changed the piston's momentum beforehand that runs survive. -/
theorem iso_step_at_rest (par : Par N) (s : Iso nb N) (hv : s.pe = 0) (dt : ℝ) :
    isoQcstep par dt s = none := by
  simp [isoQcstep, hv]

/-- Not vacuous: a piston with momentum. -/
example : (⟨fun _ _ _ => 1, fun _ _ _ => 1, one3, 2⟩ : Iso 2 1).pe
    / (⟨fun _ => 1, 1, 4⟩ : Par 1).M ≠ 0 := by norm_num

/-! ## The momentum step -/

/-- The joint equations of motion of the momenta at fixed positions and cell: the beads feel their
forces, the piston feels three times the volume times the difference between the internal pressure
(virial of the centroids and the instantaneous kinetic energy of the centroids) and the external
one, and `3 kT`. -/
structure IsoKick (par : Par N) (pext : ℝ) (f : Cfg nb N) (W : ℝ) (V : ℝ) (p : ℝ → Cfg nb N)
    (pe : ℝ → ℝ) : Prop where
  beads : ∀ t b a d, HasDerivAt (fun t => p t b a d) (f b a d) t
  piston : ∀ t, HasDerivAt pe
    (W + nb * (∑ a, ∑ d, mean (p t) a d ^ 2 / par.m a) - 3 * nb * V * pext + 3 * par.kT) t

/-- Trace of the virial of the centroids: that of the force field minus the part due to the beads'
displacements from their centroid. -/
noncomputable def cenVirial (x : Cfg nb N) (F : FF nb N) : ℝ :=
  (∑ i, F.vir i i) - ∑ b, ∑ a, ∑ d, (x b a d - mean x a d) * F.f b a d

theorem mean_kick [NeZero nb] (F bias : FF nb N) (l : Lev) (t : ℝ) (p : Cfg nb N) (a : Fin N)
    (d : Fin 3) : mean (kick F bias l t p) a d
      = mean p a d + t * mean F.f a d + onlyIf (l.outer && l.hasBias) (t * mean bias.f a d) := by
  have hn : (nb : ℝ) ≠ 0 := Nat.cast_ne_zero.mpr (NeZero.ne nb)
  simp only [mean, kick, sum_add_distrib, onlyIf]
  split
  · rw [← sum_mul, ← sum_mul]; field_simp
  · rw [← sum_mul]; simp; field_simp

theorem trace_stress [NeZero nb] (par : Par N) (F bias : FF nb N) (l : Lev) (x p : Cfg nb N)
    (h : M3) (hV : vol h ≠ 0) :
    vol h * (∑ i, stressMts par F bias l x p h i i)
      = cenVirial x F + onlyIf l.outer (cenVirial x bias)
        + onlyIf l.inner (nb * ∑ a, ∑ d, mean p a d ^ 2 / par.m a) := by
  simp only [stressMts]
  rw [← sum_div, mul_div_assoc', mul_div_cancel_left₀ _ hV]
  simp only [sum_add_distrib]
  have h1 : ∑ i, kstressMts par F bias l x p i i
      = -(∑ b, ∑ a, ∑ d, (x b a d - mean x a d) * F.f b a d)
        - onlyIf l.outer (∑ b, ∑ a, ∑ d, (x b a d - mean x a d) * bias.f b a d)
        + onlyIf l.inner (nb * ∑ a, ∑ d, mean p a d ^ 2 / par.m a) := by
    simp only [kstressMts, sum_add_distrib, sum_neg_distrib]
    congr 1
    · rw [sum_comm]
      simp_rw [sum_comm (s := univ (α := Fin 3))]
      cases l.outer <;> simp [onlyIf, mul_add, sum_add_distrib]
      ring
    · cases l.inner <;> simp [onlyIf]
      rw [← sum_mul, mul_comm, sum_comm]
      congr 1
      refine sum_congr rfl fun a _ => sum_congr rfl fun d _ => ?_
      ring
  rw [h1]
  cases l.outer <;> simp [onlyIf, cenVirial] <;> ring

/-- **C72.** At the innermost level the momentum step of the isotropic barostat and of the beads is
the exact solution of the joint equations, whatever the size of the step (without a bias: the
barostat takes the kinetic part with the forces of the force field only). -/
theorem iso_kick_exact [NeZero nb] (par : Par N) (pext : ℝ) (F : FF nb N) (l : Lev)
    (hl : l.inner = true) (s : Iso nb N) (hV : vol s.h ≠ 0) :
    isoPstep par pext F (FF.zero nb N) l 0 s = s ∧
    IsoKick par pext F.f (cenVirial s.x F) (vol s.h)
      (fun t => (isoPstep par pext F (FF.zero nb N) l t s).p)
      (fun t => (isoPstep par pext F (FF.zero nb N) l t s).pe) := by
  have hz : ∀ t b a d, (isoPstep par pext F (FF.zero nb N) l t s).p b a d
      = s.p b a d + F.f b a d * t := fun t b a d => by
    simp [isoPstep, kick, FF.zero, onlyIf]
  have hc : cenVirial s.x (FF.zero nb N) = 0 := by simp [cenVirial, FF.zero]
  have hpe : ∀ t, (isoPstep par pext F (FF.zero nb N) l t s).pe
      = s.pe + t * (cenVirial s.x F + nb * (∑ a, ∑ d, mean s.p a d ^ 2 / par.m a)
          - 3 * nb * vol s.h * pext + 3 * par.kT)
        + t ^ 2 * nb * (∑ a, ∑ d, mean s.p a d * (fcen F a d / par.m a))
        + t ^ 3 / 3 * nb * (∑ a, ∑ d, fcen F a d * (fcen F a d / par.m a)) := fun t => by
    simp only [isoPstep, bzpP, hl, if_true]
    have := trace_stress par F (FF.zero nb N) l s.x s.p s.h hV
    rw [hc, hl] at this
    simp only [onlyIf, if_true, ite_self, add_zero] at this
    linear_combination t * this
  refine ⟨?_, ?_, ?_⟩
  · have hp : (isoPstep par pext F (FF.zero nb N) l 0 s).p = s.p := by
      funext b a d; rw [hz]; ring
    have hpe0 : (isoPstep par pext F (FF.zero nb N) l 0 s).pe = s.pe := by rw [hpe]; ring
    have : ∀ a b : Iso nb N, a.x = b.x → a.p = b.p → a.h = b.h → a.pe = b.pe → a = b := by
      rintro ⟨⟩ ⟨⟩ h1 h2 h3 h4
      simp_all
    exact this _ _ rfl hp rfl hpe0
  · intro t b a d
    rw [funext fun t => hz t b a d]
    simpa using ((hasDerivAt_id t).const_mul (F.f b a d)).const_add (s.p b a d)
  · intro t
    rw [funext hpe]
    have d1 := ((hasDerivAt_id t).mul_const (cenVirial s.x F
      + nb * (∑ a, ∑ d, mean s.p a d ^ 2 / par.m a) - 3 * nb * vol s.h * pext
      + 3 * par.kT)).const_add s.pe
    have d2 := ((hasDerivAt_pow 2 t).mul_const (nb : ℝ)).mul_const
      (∑ a, ∑ d, mean s.p a d * (fcen F a d / par.m a))
    have d3 := (((hasDerivAt_pow 3 t).div_const 3).mul_const (nb : ℝ)).mul_const
      (∑ a, ∑ d, fcen F a d * (fcen F a d / par.m a))
    refine ((d1.add d2).add d3).congr_deriv ?_
    have hm : ∀ a d, mean (isoPstep par pext F (FF.zero nb N) l t s).p a d
        = mean s.p a d + t * fcen F a d := fun a d => by
      simp only [isoPstep]
      rw [mean_kick]
      simp [FF.zero, onlyIf, fcen, mean]
    have hs : ∑ a, ∑ d, mean (isoPstep par pext F (FF.zero nb N) l t s).p a d ^ 2 / par.m a
        = (∑ a, ∑ d, mean s.p a d ^ 2 / par.m a)
          + 2 * t * (∑ a, ∑ d, mean s.p a d * (fcen F a d / par.m a))
          + t ^ 2 * (∑ a, ∑ d, fcen F a d * (fcen F a d / par.m a)) := by
      simp only [mul_sum, ← sum_add_distrib]
      refine sum_congr rfl fun a _ => sum_congr rfl fun d _ => ?_
      rw [hm]
      ring
    rw [hs]
    push_cast
    ring

end Verif.Baro
