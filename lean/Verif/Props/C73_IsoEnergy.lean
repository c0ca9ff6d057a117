import Verif.Props.C72_IsoBarostat
import Mathlib.Analysis.Calculus.FDeriv.Add
import Mathlib.Analysis.SpecialFunctions.Log.Deriv
import Mathlib.Analysis.Calculus.Deriv.Prod

/-!
# C73: the conserved quantity of constant pressure runs is conserved

As the time step goes to zero, the energy changes caused by the pieces of one step — the momentum
steps of all levels, the step of the centroids and the cell, and the free motion of the beads around
their centroids — add up to zero.
-/

namespace Verif.Baro

open Finset

variable {nb N : ℕ}

/-- The level `l` of `n + 1`. -/
def lev {n : ℕ} (hasBias : Bool) (l : Fin (n + 1)) : Lev := ⟨l == 0, l == Fin.last n, hasBias⟩

/-- The forces and virials returned are those of the potential energy `U`, at the positions `x` and
in the cell `h`: forces are minus the derivative with respect to the positions, and the virial is
minus the derivative when positions and cell are strained together. -/
structure Consistent {n : ℕ} (U : Cfg nb N × M3 → ℝ) (F : Fin (n + 1) → FF nb N) (bias : FF nb N)
    (x : Cfg nb N) (h : M3) (U' : Cfg nb N × M3 →L[ℝ] ℝ) : Prop where
  deriv : HasFDerivAt U U' (x, h)
  force : ∀ dx, U' (dx, 0) = -∑ b, ∑ a, ∑ d, ((∑ l, (F l).f b a d) + bias.f b a d) * dx b a d
  virial : ∀ e : M3, (∀ i j, j < i → e i j = 0) →
    U' (fun b a i => ∑ j, e i j * x b a j, mul3 e h)
      = -∑ i, ∑ j, e i j * ((∑ l, (F l).vir i j) + bias.vir i j)

/-- The free motion of the beads around their centroids: it moves them with their velocities
relative to the centroid, and keeps kinetic plus spring energy (C67). -/
structure Internal (par : Par N) (sp : Cfg nb N → ℝ) (x p : Cfg nb N)
    (cx cp : ℝ → Cfg nb N) : Prop where
  start : cx 0 = x
  vel : HasDerivAt cx (fun b a d => (p b a d - mean p a d) / par.m a) 0
  ener : ∀ t, kinE par (cp t) + sp (cx t) = kinE par p + sp x

/-- The spring energy does not change when all the beads of an atom are moved together. -/
def SpringInv (sp : Cfg nb N → ℝ) : Prop := ∀ x c, sp (setMean x c) = sp x

theorem kin_kick (par : Par N) (F bias : FF nb N) (l : Lev) (p : Cfg nb N) :
    HasDerivAt (fun t => kinE par (kick F bias l t p))
      (∑ b, ∑ a, ∑ d, p b a d * (F.f b a d + onlyIf (l.outer && l.hasBias) (bias.f b a d))
        / par.m a) 0 := by
  simp only [kinE, kick]
  refine HasDerivAt.fun_sum fun b _ => HasDerivAt.fun_sum fun a _ => HasDerivAt.fun_sum fun d _ => ?_
  have h1 : HasDerivAt (fun t => p b a d + F.f b a d * t
      + onlyIf (l.outer && l.hasBias) (bias.f b a d * t))
      (F.f b a d + onlyIf (l.outer && l.hasBias) (bias.f b a d)) 0 := by
    have e1 : HasDerivAt (fun t : ℝ => p b a d + F.f b a d * t) (F.f b a d) 0 := by
      simpa using ((hasDerivAt_id (0 : ℝ)).const_mul (F.f b a d)).const_add (p b a d)
    refine e1.add ?_
    cases (l.outer && l.hasBias)
    · simpa [onlyIf] using hasDerivAt_const (0 : ℝ) (0 : ℝ)
    · simpa [onlyIf] using (hasDerivAt_id (0 : ℝ)).const_mul (bias.f b a d)
  have h2 := (h1.pow 2).div_const (2 * par.m a)
  refine h2.congr_deriv ?_
  have : onlyIf (l.outer && l.hasBias) (bias.f b a d * 0) = 0 := by simp [onlyIf]
  rw [this]
  push_cast
  by_cases hm : par.m a = 0
  · simp [hm]
  · field_simp
    ring

theorem pot_internal {n : ℕ} {U : Cfg nb N × M3 → ℝ} {F : Fin (n + 1) → FF nb N}
    {bias : FF nb N} {x p : Cfg nb N} {h : M3} {U'} (hU : Consistent U F bias x h U')
    {par : Par N} {sp} {cx cp} (hc : Internal par sp x p cx cp) :
    HasDerivAt (fun t => kinE par (cp t) + sp (cx t) + U (cx t, h))
      (-∑ b, ∑ a, ∑ d, ((∑ l, (F l).f b a d) + bias.f b a d)
        * ((p b a d - mean p a d) / par.m a)) 0 := by
  simp only [hc.ener]
  have h1 := HasDerivAt.prodMk hc.vel (hasDerivAt_const (0 : ℝ) h)
  have hU0 : HasFDerivAt U U' (cx 0, h) := by rw [hc.start]; exact hU.deriv
  have h2 := hU0.comp_hasDerivAt (0 : ℝ) h1
  rw [hU.force] at h2
  exact h2.const_add _

theorem iso_pstep_rate [NeZero nb] (par : Par N) (pext : ℝ) (F bias : FF nb N) (l : Lev)
    (sp : Cfg nb N → ℝ) (U : Cfg nb N × M3 → ℝ) (s : Iso nb N) (hV : vol s.h ≠ 0)
    (hb : l.hasBias = true ∨ bias = FF.zero nb N) :
    HasDerivAt (fun t => isoE par pext sp U (isoPstep par pext F bias l t s))
      ((∑ b, ∑ a, ∑ d, s.p b a d * (F.f b a d + onlyIf l.outer (bias.f b a d)) / par.m a)
        + s.pe / par.M * (cenVirial s.x F + onlyIf l.outer (cenVirial s.x bias)
          + onlyIf l.inner (nb * (∑ a, ∑ d, mean s.p a d ^ 2 / par.m a)
            - 3 * nb * vol s.h * pext + 3 * par.kT))) 0 := by
  have hk := kin_kick par F bias l s.p
  have hb' : ∀ b a d, onlyIf (l.outer && l.hasBias) (bias.f b a d) = onlyIf l.outer (bias.f b a d) := by
    intro b a d
    rcases hb with h | h
    · rw [h, Bool.and_true]
    · simp [h, FF.zero, onlyIf]
  simp only [hb'] at hk
  have hpe : ∃ c2 c3, ∀ t, bzpP par pext F bias l t s = s.pe
      + t * (cenVirial s.x F + onlyIf l.outer (cenVirial s.x bias)
          + onlyIf l.inner (nb * (∑ a, ∑ d, mean s.p a d ^ 2 / par.m a)
            - 3 * nb * vol s.h * pext + 3 * par.kT)) + t ^ 2 * c2 + t ^ 3 * c3 := by
    have ht := trace_stress par F bias l s.x s.p s.h hV
    refine ⟨onlyIf l.inner (nb * ∑ a, ∑ d, mean s.p a d * (fcen F a d / par.m a)),
      onlyIf l.inner (nb * (∑ a, ∑ d, fcen F a d * (fcen F a d / par.m a)) / 3), fun t => ?_⟩
    simp only [bzpP]
    cases hl : l.inner
    · rw [hl] at ht
      simp only [onlyIf, Bool.false_eq_true, if_false] at ht ⊢
      linear_combination t * ht
    · rw [hl] at ht
      simp only [onlyIf, if_true] at ht ⊢
      linear_combination t * ht
  obtain ⟨c2, c3, hpe⟩ := hpe
  generalize (cenVirial s.x F + onlyIf l.outer (cenVirial s.x bias)
          + onlyIf l.inner (nb * (∑ a, ∑ d, mean s.p a d ^ 2 / par.m a)
            - 3 * nb * vol s.h * pext + 3 * par.kT)) = r at hpe ⊢
  have hd : HasDerivAt (fun t => bzpP par pext F bias l t s) r 0 := by
    rw [funext hpe]
    have d1 := ((hasDerivAt_id (0 : ℝ)).mul_const r).const_add s.pe
    have d2 := (hasDerivAt_pow 2 (0 : ℝ)).mul_const c2
    have d3 := (hasDerivAt_pow 3 (0 : ℝ)).mul_const c3
    refine ((d1.add d2).add d3).congr_deriv ?_
    norm_num
  have h0 : bzpP par pext F bias l 0 s = s.pe := by rw [hpe]; ring
  have he : HasDerivAt (fun t => 1 / 2 * bzpP par pext F bias l t s ^ 2 / par.M)
      (s.pe / par.M * r) 0 := by
    refine (((hd.pow 2).const_mul (1 / 2)).div_const par.M).congr_deriv ?_
    rw [h0]
    push_cast
    ring
  simp only [isoE, isoPstep, isoBaroE]
  have := ((hk.add_const (sp s.x)).add_const (U (s.x, s.h))).add
    ((he.add_const (vol s.h * pext * nb)).sub_const (Real.log (vol s.h) * par.kT))
  exact this

theorem iso_qcstep_rate [NeZero nb] {n : ℕ} (par : Par N) (pext : ℝ) {F : Fin (n + 1) → FF nb N}
    {bias : FF nb N} {sp : Cfg nb N → ℝ} (hsp : SpringInv sp) {U : Cfg nb N × M3 → ℝ}
    {U'} (s : Iso nb N) (hU : Consistent U F bias s.x s.h U') (hV : 0 < vol s.h)
    (hv : s.pe / par.M ≠ 0) :
    HasDerivAt (fun t => isoE par pext sp U (bzpQ par t s))
      (-(s.pe / par.M) * (nb * ∑ a, ∑ d, mean s.p a d ^ 2 / par.m a)
        + (-(∑ b, ∑ a, ∑ d, ((∑ l, (F l).f b a d) + bias.f b a d) * (mean s.p a d / par.m a))
          - s.pe / par.M * ((∑ l, cenVirial s.x (F l)) + cenVirial s.x bias))
        + (3 * (s.pe / par.M) * vol s.h * pext * nb - 3 * (s.pe / par.M) * par.kT)) 0 := by
  have hn : (nb : ℝ) ≠ 0 := Nat.cast_ne_zero.mpr (NeZero.ne nb)
  obtain ⟨_, h0, hfl, _, _⟩ := iso_step_exact par s hv
  set v := s.pe / par.M with hvdef
  -- derivative of the kinetic energy
  have hp : ∀ b a d, HasDerivAt (fun t => (bzpQ par t s).p b a d) (-v * mean s.p a d) 0 := by
    intro b a d
    have e := (hfl.mom 0 a d)
    beta_reduce at e
    rw [h0] at e
    have : (fun t => (bzpQ par t s).p b a d)
        = fun t => s.p b a d + (mean (bzpQ par t s).p a d - mean s.p a d) := by
      funext t
      simp only [bzpQ]
      rw [mean_setMean]
      rfl
    rw [this]
    exact (e.sub_const _).const_add _
  have hkin : HasDerivAt (fun t => kinE par (bzpQ par t s).p)
      (-v * (nb * ∑ a, ∑ d, mean s.p a d ^ 2 / par.m a)) 0 := by
    simp only [kinE]
    have : HasDerivAt (fun t => ∑ b, ∑ a, ∑ d, (bzpQ par t s).p b a d ^ 2 / (2 * par.m a))
        (∑ b, ∑ a, ∑ d, s.p b a d * (-v * mean s.p a d) / par.m a) 0 := by
      refine HasDerivAt.fun_sum fun b _ => HasDerivAt.fun_sum fun a _ =>
        HasDerivAt.fun_sum fun d _ => ?_
      refine (((hp b a d).pow 2).div_const (2 * par.m a)).congr_deriv ?_
      rw [h0]
      push_cast
      by_cases hm : par.m a = 0
      · simp [hm]
      · field_simp
    refine this.congr_deriv ?_
    rw [sum_comm, mul_sum, mul_sum]
    refine sum_congr rfl fun a _ => ?_
    rw [sum_comm, mul_sum, mul_sum]
    refine sum_congr rfl fun d _ => ?_
    have hm : ∑ b, s.p b a d = nb * mean s.p a d := by simp only [mean]; field_simp
    rw [← sum_div, ← sum_mul, hm]
    ring
  -- derivative of the potential
  have hx : HasDerivAt (fun t => (bzpQ par t s).x)
      (fun _ a d => mean s.p a d / par.m a + v * mean s.x a d) 0 := by
    refine hasDerivAt_pi.mpr fun b => hasDerivAt_pi.mpr fun a => hasDerivAt_pi.mpr fun d => ?_
    have e := (hfl.pos 0 a d)
    beta_reduce at e
    rw [h0] at e
    have : (fun t => (bzpQ par t s).x b a d)
        = fun t => s.x b a d + (mean (bzpQ par t s).x a d - mean s.x a d) := by
      funext t
      simp only [bzpQ]
      rw [mean_setMean]
      rfl
    rw [this]
    exact (e.sub_const _).const_add _
  have hh : HasDerivAt (fun t => (bzpQ par t s).h) (fun i j => v * s.h i j) 0 := by
    refine hasDerivAt_pi.mpr fun i => hasDerivAt_pi.mpr fun j => ?_
    have e := hfl.cell 0 i j
    beta_reduce at e
    rw [h0] at e
    exact e
  have hpot : HasDerivAt (fun t => U ((bzpQ par t s).x, (bzpQ par t s).h))
      (-(∑ b, ∑ a, ∑ d, ((∑ l, (F l).f b a d) + bias.f b a d) * (mean s.p a d / par.m a))
          - v * ((∑ l, cenVirial s.x (F l)) + cenVirial s.x bias)) 0 := by
    have hU0 : HasFDerivAt U U' ((bzpQ par 0 s).x, (bzpQ par 0 s).h) := by rw [h0]; exact hU.deriv
    have h2 := hU0.comp_hasDerivAt (0 : ℝ) (HasDerivAt.prodMk hx hh)
    refine h2.congr_deriv ?_
    -- split the displacement
    have hs : ((fun _ a d => mean s.p a d / par.m a + v * mean s.x a d : Cfg nb N),
        (fun i j => v * s.h i j : M3))
        = (fun b a i => ∑ j, (v * one3 i j) * s.x b a j, mul3 (fun i j => v * one3 i j) s.h)
          + ((fun b a d => mean s.p a d / par.m a - v * (s.x b a d - mean s.x a d) : Cfg nb N),
            (0 : M3)) := by
      refine Prod.ext ?_ ?_
      · funext b a d
        simp [one3]
        ring
      · funext i j
        simp [mul3, one3]
    rw [hs, map_add, hU.force, hU.virial _ (fun i j hij => by
      simp [one3, (ne_of_lt hij).symm])]
    have e1 : ∑ i, ∑ j, v * one3 i j * ((∑ l, (F l).vir i j) + bias.vir i j)
        = v * ((∑ l, ∑ i, (F l).vir i i) + ∑ i, bias.vir i i) := by
      simp only [one3, mul_ite, mul_one, mul_zero, ite_mul, zero_mul, sum_ite_eq, mem_univ, if_true]
      rw [← mul_sum, sum_add_distrib, sum_comm]
    have e2 : ∑ b, ∑ a, ∑ d, ((∑ l, (F l).f b a d) + bias.f b a d)
          * (mean s.p a d / par.m a - v * (s.x b a d - mean s.x a d))
        = (∑ b, ∑ a, ∑ d, ((∑ l, (F l).f b a d) + bias.f b a d) * (mean s.p a d / par.m a))
          - v * ((∑ l, ∑ b, ∑ a, ∑ d, (s.x b a d - mean s.x a d) * (F l).f b a d)
            + ∑ b, ∑ a, ∑ d, (s.x b a d - mean s.x a d) * bias.f b a d) := by
      have : ∑ l, ∑ b, ∑ a, ∑ d, (s.x b a d - mean s.x a d) * (F l).f b a d
          = ∑ b, ∑ a, ∑ d, (s.x b a d - mean s.x a d) * ∑ l, (F l).f b a d := by
        rw [sum_comm]
        refine sum_congr rfl fun b _ => ?_
        rw [sum_comm]
        refine sum_congr rfl fun a _ => ?_
        rw [sum_comm]
        refine sum_congr rfl fun d _ => ?_
        rw [mul_sum]
      rw [this]
      obtain ⟨g, hg⟩ : ∃ g : Cfg nb N, ∀ b a d, ∑ l, (F l).f b a d = g b a d :=
        ⟨_, fun _ _ _ => rfl⟩
      simp only [hg]
      simp only [mul_sum, ← sum_add_distrib, ← sum_sub_distrib]
      refine sum_congr rfl fun b _ => sum_congr rfl fun a _ => sum_congr rfl fun d _ => ?_
      ring
    rw [e1, e2]
    simp only [cenVirial, sum_sub_distrib]
    ring
  -- derivative of the cell terms
  have hvol : HasDerivAt (fun t => vol (bzpQ par t s).h) (3 * v * vol s.h) 0 := by
    have : (fun t => vol (bzpQ par t s).h) = fun t => vol s.h * Real.exp (3 * v * t) :=
      funext fun t => (iso_volume par s t).1
    rw [this]
    refine ((exp_lin (3 * v) 0).const_mul (vol s.h)).congr_deriv ?_
    simp
    ring
  have hlog : HasDerivAt (fun t => Real.log (vol (bzpQ par t s).h)) (3 * v) 0 := by
    have h1 : vol (bzpQ par 0 s).h ≠ 0 := by rw [h0]; exact hV.ne'
    refine (hvol.log h1).congr_deriv ?_
    rw [h0, mul_div_assoc, div_self hV.ne', mul_one]
  have hspc : ∀ t, sp (bzpQ par t s).x = sp s.x := fun t => hsp _ _
  simp only [isoE, isoBaroE, hspc]
  have hpec : ∀ t, (bzpQ par t s).pe = s.pe := fun _ => rfl
  simp only [hpec]
  have := ((hkin.add_const (sp s.x)).add hpot).add
    ((((hvol.mul_const pext).mul_const (nb : ℝ)).const_add (1 / 2 * s.pe ^ 2 / par.M)).sub
      (hlog.mul_const par.kT))
  exact this

/-- **C73.** The energy changes of the pieces of a constant pressure step add up to zero to first
order in the time step, for any number of levels, beads and atoms, any potential, with a bias or
without. -/
theorem iso_conserved [NeZero nb] {n : ℕ} (par : Par N) (pext : ℝ) (F : Fin (n + 1) → FF nb N)
    (bias : FF nb N) (hasBias : Bool) {sp : Cfg nb N → ℝ} (hsp : SpringInv sp)
    {U : Cfg nb N × M3 → ℝ} {U'} (s : Iso nb N) (hU : Consistent U F bias s.x s.h U')
    (hV : 0 < vol s.h) (hv : s.pe / par.M ≠ 0) (hb : hasBias = true ∨ bias = FF.zero nb N)
    {cx cp : ℝ → Cfg nb N} (hc : Internal par sp s.x s.p cx cp) :
    HasDerivAt (fun t =>
      (∑ l, isoE par pext sp U (isoPstep par pext (F l) bias (lev hasBias l) t s))
        + isoE par pext sp U (bzpQ par t s)
        + isoE par pext sp U { s with x := cx t, p := cp t }) 0 0 := by
  have h1 := HasDerivAt.fun_sum (u := univ) fun (l : Fin (n + 1)) _ =>
    iso_pstep_rate par pext (F l) bias (lev hasBias l) sp U s hV.ne' hb
  have h2 := iso_qcstep_rate par pext hsp s hU hV hv
  have h3 := (pot_internal hU hc).add_const (isoBaroE par pext s)
  refine ((h1.add h2).add h3).congr_deriv ?_
  have ho : ∀ y : ℝ, ∑ l : Fin (n + 1), onlyIf (lev hasBias l).outer y = y := by
    intro y
    simp [onlyIf, lev]
  have hi : ∀ y : ℝ, ∑ l : Fin (n + 1), onlyIf (lev hasBias l).inner y = y := by
    intro y
    simp [onlyIf, lev]
  rw [sum_add_distrib, ← mul_sum, sum_add_distrib, sum_add_distrib, ho, hi]
  have hk : ∑ l, ∑ b, ∑ a, ∑ d, s.p b a d
        * ((F l).f b a d + onlyIf (lev hasBias l).outer (bias.f b a d)) / par.m a
      = ∑ b, ∑ a, ∑ d, ((∑ l, (F l).f b a d) + bias.f b a d) * (s.p b a d / par.m a) := by
    rw [sum_comm]
    refine sum_congr rfl fun b _ => ?_
    rw [sum_comm]
    refine sum_congr rfl fun a _ => ?_
    rw [sum_comm]
    refine sum_congr rfl fun d _ => ?_
    rw [← sum_div, ← mul_sum, sum_add_distrib, ho]
    ring
  rw [hk]
  have hsplit : ∑ b, ∑ a, ∑ d, ((∑ l, (F l).f b a d) + bias.f b a d)
        * ((s.p b a d - mean s.p a d) / par.m a)
      = (∑ b, ∑ a, ∑ d, ((∑ l, (F l).f b a d) + bias.f b a d) * (s.p b a d / par.m a))
        - ∑ b, ∑ a, ∑ d, ((∑ l, (F l).f b a d) + bias.f b a d) * (mean s.p a d / par.m a) := by
    simp only [← sum_sub_distrib]
    refine sum_congr rfl fun b _ => sum_congr rfl fun a _ => sum_congr rfl fun d _ => ?_
    ring
  rw [hsplit]
  ring

/-! ## A concrete case: two beads of one atom in a harmonic well along the first direction -/

/-- The energy of the well. -/
noncomputable def wellU : Cfg 2 1 × M3 → ℝ := fun z => ∑ b, 1 / 2 * z.1 b 0 0 ^ 2

/-- Its force and virial. -/
noncomputable def wellF (x : Cfg 2 1) : FF 2 1 :=
  ⟨fun b _ d => if d = 0 then -x b 0 0 else 0, fun i j => if i = 0 then -∑ b, x b 0 0 * x b 0 j else 0⟩

/-- One coordinate of one bead. -/
noncomputable def coord (b : Fin 2) : Cfg 2 1 × M3 →L[ℝ] ℝ :=
  (ContinuousLinearMap.proj (R := ℝ) (φ := fun _ : Fin 3 => ℝ) 0).comp
    ((ContinuousLinearMap.proj (R := ℝ) (φ := fun _ : Fin 1 => Fin 3 → ℝ) 0).comp
      ((ContinuousLinearMap.proj (R := ℝ) (φ := fun _ : Fin 2 => Fin 1 → Fin 3 → ℝ) b).comp
        (ContinuousLinearMap.fst ℝ (Cfg 2 1) M3)))

theorem well_consistent (x : Cfg 2 1) (h : M3) :
    Consistent (n := 0) wellU (fun _ => wellF x) (FF.zero 2 1) x h (∑ b, x b 0 0 • coord b) where
  deriv := by
    refine HasFDerivAt.fun_sum fun b _ => ?_
    have h1 : HasFDerivAt (fun z : Cfg 2 1 × M3 => z.1 b 0 0) (coord b) (x, h) :=
      (coord b).hasFDerivAt
    have h2 := (h1.pow 2).const_mul (1 / 2 : ℝ)
    refine h2.congr_fderiv ?_
    ext <;> simp <;> ring
  force := by
    intro dx
    simp [wellF, FF.zero, coord, Fin.sum_univ_three]
  virial := by
    intro e _
    simp [wellF, FF.zero, coord, Fin.sum_univ_three]
    ring

/-- A state with different beads, momenta and a moving piston. -/
noncomputable def wellS : Iso 2 1 :=
  ⟨fun b _ d => b.val + d.val + 1, fun b _ d => b.val * 2 + d.val, fun i j => if i ≤ j then 2 else 0, 3⟩

example : HasDerivAt (fun t =>
      (∑ l : Fin 1, isoE ⟨fun _ => 2, 1, 5⟩ 7 (fun _ => 0) wellU
        (isoPstep ⟨fun _ => 2, 1, 5⟩ 7 (wellF wellS.x) (FF.zero 2 1) (lev true l) t wellS))
        + isoE ⟨fun _ => 2, 1, 5⟩ 7 (fun _ => 0) wellU (bzpQ ⟨fun _ => 2, 1, 5⟩ t wellS)
        + isoE ⟨fun _ => 2, 1, 5⟩ 7 (fun _ => 0) wellU { wellS with
            x := fun b a d => wellS.x b a d + t * ((wellS.p b a d - mean wellS.p a d) / 2)
            p := wellS.p }) 0 0 := by
  refine iso_conserved (n := 0) ⟨fun _ => 2, 1, 5⟩ 7 (fun _ => wellF wellS.x) (FF.zero 2 1) true
    (sp := fun _ => 0) (fun _ _ => rfl) wellS (well_consistent wellS.x wellS.h) ?_ ?_ (Or.inl rfl)
    (cx := fun t b a d => wellS.x b a d + t * ((wellS.p b a d - mean wellS.p a d) / 2))
    (cp := fun _ => wellS.p) ⟨?_, ?_, fun _ => rfl⟩
  · simp [vol, wellS]
  · simp [wellS]
  · simp
  · refine hasDerivAt_pi.mpr fun b => hasDerivAt_pi.mpr fun a => hasDerivAt_pi.mpr fun d => ?_
    simpa using ((hasDerivAt_id (0 : ℝ)).mul_const
      ((wellS.p b a d - mean wellS.p a d) / 2)).const_add (wellS.x b a d)

end Verif.Baro
