import Verif.Phys.ScBaro
import Verif.Props.C73_IsoEnergy

/-!
# C143: constant pressure with the Suzuki-Chin factorisation

The momentum steps are the exact joint solution for piston and beads with the rescaled forces, and
one step is undone by a step of the opposite sign.
-/

namespace Verif.Baro

open Finset

variable {nb N : ℕ}

/-- Specification: a force field whose bead `b` counts `1 + c b` times. -/
noncomputable def scaled (c : Fin nb → ℝ) (F : FFb nb N) : FF nb N :=
  ⟨fun b a d => F.f b a d * (1 + c b), fun i j => ∑ b, F.virs b i j * (1 + c b)⟩

/-- Specification: the forces of all the beads, and the sum of their virials. -/
def plain (S : FFb nb N) : FF nb N := ⟨S.f, fun i j => ∑ b, S.virs b i j⟩

theorem iso_ext {a b : Iso nb N} (h1 : a.x = b.x) (h2 : a.p = b.p) (h3 : a.h = b.h)
    (h4 : a.pe = b.pe) : a = b := by
  cases a; cases b; simp_all

theorem sc_stress_diag (par : Par N) (F : FFb nb N) (bias : FF nb N) (l : Lev) (x p : Cfg nb N)
    (h : M3) (i : Fin 3) :
    stressMtsSc par F bias l x p h i i = stressMts par (scaled c1 F) bias l x p h i i := by
  simp [stressMtsSc, stressMts, kstressMtsSc, kstressMts, scaled]

/-- The momentum step with the Suzuki-Chin weights is the one of the ordinary isotropic barostat
with the rescaled forces and virials: so C72 and C73 hold for it. -/
theorem sc_pstep_eq (par : Par N) (pext : ℝ) (F : FFb nb N) (bias : FF nb N) (o i hb : Bool)
    (hB : hb = true ∨ bias = FF.zero nb N) (dt : ℝ) (s : Iso nb N) :
    scPstep par pext F bias ⟨o, i, hb⟩ dt s = isoPstep par pext (scaled c1 F) bias ⟨o, i, hb⟩ dt s := by
  have hfc : fcenSc F = fcen (scaled c1 F) := rfl
  refine iso_ext rfl ?_ rfl ?_
  · funext b a d
    rcases hB with rfl | rfl
    · simp only [scPstep, isoPstep, scKick, kick, scaled, Bool.and_true]
      ring
    · simp only [scPstep, isoPstep, scKick, kick, scaled, FF.zero, onlyIf]
      simp
  · simp only [scPstep, isoPstep, scP, bzpP, sc_stress_diag, hfc]
    cases i <;> simp
    ring

/-- **C143.** At the innermost level the momentum step of piston and beads is the exact solution of
the joint equations with the rescaled forces, whatever the size of the step. -/
theorem sc_kick_exact [NeZero nb] (par : Par N) (pext : ℝ) (F : FFb nb N) (l : Lev)
    (hl : l.inner = true) (s : Iso nb N) (hV : vol s.h ≠ 0) :
    scPstep par pext F (FF.zero nb N) l 0 s = s ∧
    IsoKick par pext (fun b a d => F.f b a d * (1 + c1 b)) (cenVirial s.x (scaled c1 F)) (vol s.h)
      (fun t => (scPstep par pext F (FF.zero nb N) l t s).p)
      (fun t => (scPstep par pext F (FF.zero nb N) l t s).pe) := by
  obtain ⟨o, i, hb⟩ := l
  simp only [fun t => sc_pstep_eq par pext F (FF.zero nb N) o i hb (Or.inr rfl) t s]
  exact iso_kick_exact par pext (scaled c1 F) ⟨o, i, hb⟩ hl s hV

theorem trace_stress_sc (S : FFb nb N) (x : Cfg nb N) (h : M3) (hV : vol h ≠ 0) :
    vol h * (∑ i, stressSc S x h i i) = cenVirial x (plain S) := by
  simp only [stressSc]
  rw [← sum_div, mul_div_assoc', mul_div_cancel_left₀ _ hV]
  simp only [sum_add_distrib, kstressSc, le_refl, if_true, sum_neg_distrib, cenVirial, plain]
  rw [sum_comm]
  simp_rw [sum_comm (s := univ (α := Fin 3))]
  ring

theorem slow_p (S : FFb nb N) (dt : ℝ) (s : Iso nb N) (b : Fin nb) (a : Fin N) (d : Fin 3) :
    (scSlow S dt s).p b a d = s.p b a d + dt / 2 * S.f b a d := by
  simp only [scSlow, scKick2, pscstep]
  ring

theorem slow_pe (S : FFb nb N) (dt : ℝ) (s : Iso nb N) (hV : vol s.h ≠ 0) :
    (scSlow S dt s).pe = s.pe + dt / 2 * cenVirial s.x (plain S) := by
  simp only [scSlow, scKick2, pscstep]
  linear_combination dt / 2 * trace_stress_sc S s.x s.h hV

/-- **C143.** The high order kick gives beads and piston the momentum of constant forces over half
a time step: it leaves the positions and the cell, successive kicks add up, and it does not matter
that the piston goes first both at the beginning and at the end of the step. -/
theorem slow_kick (S : FFb nb N) (s : Iso nb N) (hV : vol s.h ≠ 0) (t u : ℝ) :
    (scSlow S t s).x = s.x ∧ (scSlow S t s).h = s.h ∧
    (∀ b a d, (scSlow S t s).p b a d - s.p b a d = t / 2 * S.f b a d) ∧
    (scSlow S t s).pe - s.pe = t / 2 * cenVirial s.x (plain S) ∧
    scSlow S u (scSlow S t s) = scSlow S (t + u) s ∧
    scSlow S t s = pscstep S t (scKick2 S t s) := by
  refine ⟨rfl, rfl, fun b a d => ?_, ?_, ?_, rfl⟩
  · rw [slow_p]; ring
  · rw [slow_pe S t s hV]; ring
  · refine iso_ext rfl ?_ rfl ?_
    · funext b a d
      rw [slow_p, slow_p, slow_p]
      ring
    · rw [slow_pe S u (scSlow S t s) hV, slow_pe S (t + u) s hV, slow_pe S t s hV]
      change _ + u / 2 * cenVirial s.x (plain S) = _
      ring

theorem slow_back (S : FFb nb N) (s : Iso nb N) (hV : vol s.h ≠ 0) (t : ℝ) :
    scSlow S (-t) (scSlow S t s) = s := by
  rw [(slow_kick S s hV t (-t)).2.2.2.2.1]
  refine iso_ext rfl ?_ rfl ?_
  · funext b a d; rw [slow_p]; ring
  · rw [slow_pe _ _ _ hV]; ring

/-! ## Reversibility of a whole step -/

theorem iso_pstep_pe [NeZero nb] (par : Par N) (pext : ℝ) (F : FF nb N) (l : Lev)
    (hl : l.inner = true) (s : Iso nb N) (hV : vol s.h ≠ 0) (t : ℝ) :
    (isoPstep par pext F (FF.zero nb N) l t s).pe
      = s.pe + t * (cenVirial s.x F + nb * (∑ a, ∑ d, mean s.p a d ^ 2 / par.m a)
          - 3 * nb * vol s.h * pext + 3 * par.kT)
        + t ^ 2 * nb * (∑ a, ∑ d, mean s.p a d * (fcen F a d / par.m a))
        + t ^ 3 / 3 * nb * (∑ a, ∑ d, fcen F a d * (fcen F a d / par.m a)) := by
  have hc : cenVirial s.x (FF.zero nb N) = 0 := by simp [cenVirial, FF.zero]
  simp only [isoPstep, bzpP, hl, if_true]
  have := trace_stress par F (FF.zero nb N) l s.x s.p s.h hV
  rw [hc, hl] at this
  simp only [onlyIf, if_true, ite_self, add_zero] at this
  linear_combination t * this

/-- The momentum step of the isotropic barostat is undone by a step of the opposite sign. -/
theorem iso_pstep_back [NeZero nb] (par : Par N) (pext : ℝ) (F : FF nb N) (l : Lev)
    (hl : l.inner = true) (s : Iso nb N) (hV : vol s.h ≠ 0) (t : ℝ) :
    isoPstep par pext F (FF.zero nb N) l (-t) (isoPstep par pext F (FF.zero nb N) l t s) = s := by
  have hp : ∀ (u : ℝ) (r : Iso nb N) b a d, (isoPstep par pext F (FF.zero nb N) l u r).p b a d
      = r.p b a d + F.f b a d * u := fun u r b a d => by
    simp [isoPstep, kick, FF.zero, onlyIf]
  refine iso_ext rfl ?_ rfl ?_
  · funext b a d
    rw [hp, hp]; ring
  · rw [iso_pstep_pe par pext F l hl (isoPstep par pext F (FF.zero nb N) l t s) hV,
      iso_pstep_pe par pext F l hl s hV]
    have hm : ∀ a d, mean (isoPstep par pext F (FF.zero nb N) l t s).p a d
        = mean s.p a d + t * fcen F a d := fun a d => by
      simp only [isoPstep]
      rw [mean_kick]
      simp [FF.zero, onlyIf, fcen, mean]
    have h1 : ∑ a, ∑ d, mean (isoPstep par pext F (FF.zero nb N) l t s).p a d ^ 2 / par.m a
        = (∑ a, ∑ d, mean s.p a d ^ 2 / par.m a)
          + 2 * t * (∑ a, ∑ d, mean s.p a d * (fcen F a d / par.m a))
          + t ^ 2 * (∑ a, ∑ d, fcen F a d * (fcen F a d / par.m a)) := by
      simp only [mul_sum, ← sum_add_distrib]
      refine sum_congr rfl fun a _ => sum_congr rfl fun d _ => ?_
      rw [hm]; ring
    have h2 : ∑ a, ∑ d, mean (isoPstep par pext F (FF.zero nb N) l t s).p a d
          * (fcen F a d / par.m a)
        = (∑ a, ∑ d, mean s.p a d * (fcen F a d / par.m a))
          + t * (∑ a, ∑ d, fcen F a d * (fcen F a d / par.m a)) := by
      simp only [mul_sum, ← sum_add_distrib]
      refine sum_congr rfl fun a _ => sum_congr rfl fun d _ => ?_
      rw [hm]; ring
    rw [h1, h2]
    change _ + -t * (cenVirial s.x F + _ - 3 * nb * vol s.h * pext + _) + _ + _ = _
    ring

/-- The free motion around the centroid: it can be undone, and keeps the average of the differences
from the centroid at zero. -/
structure FreeOk (g : ℝ → Cfg nb N × Cfg nb N → Cfg nb N × Cfg nb N) : Prop where
  back : ∀ t z, g (-t) (g t z) = z
  mean : ∀ t z, (∀ a d, Baro.mean z.1 a d = 0) → (∀ a d, Baro.mean z.2 a d = 0) →
    (∀ a d, Baro.mean (g t z).1 a d = 0) ∧ ∀ a d, Baro.mean (g t z).2 a d = 0

/-- The differences from the centroid. -/
noncomputable def dev (x : Cfg nb N) : Cfg nb N := fun b a d => x b a d - mean x a d

theorem mean_dev [NeZero nb] (x : Cfg nb N) (a : Fin N) (d : Fin 3) : mean (dev x) a d = 0 := by
  have hn : (nb : ℝ) ≠ 0 := Nat.cast_ne_zero.mpr (NeZero.ne nb)
  simp only [dev, mean, sum_sub_distrib, sum_const, card_univ, Fintype.card_fin, nsmul_eq_mul]
  rw [mul_div_cancel₀ _ hn, sub_self, zero_div]

theorem mean_add_const [NeZero nb] (c : Cen N) (x : Cfg nb N) (a : Fin N) (d : Fin 3) :
    mean (fun b a d => c a d + x b a d) a d = c a d + mean x a d := by
  have hn : (nb : ℝ) ≠ 0 := Nat.cast_ne_zero.mpr (NeZero.ne nb)
  simp only [mean, sum_add_distrib, sum_const, card_univ, Fintype.card_fin, nsmul_eq_mul]
  rw [add_div, mul_div_cancel_left₀ _ hn]

theorem free_parts [NeZero nb] {g : ℝ → Cfg nb N × Cfg nb N → Cfg nb N × Cfg nb N} (hg : FreeOk g)
    (t : ℝ) (s : Iso nb N) :
    mean (freeStep g t s).x = mean s.x ∧ mean (freeStep g t s).p = mean s.p ∧
    dev (freeStep g t s).x = (g t (dev s.x, dev s.p)).1 ∧
    dev (freeStep g t s).p = (g t (dev s.x, dev s.p)).2 := by
  obtain ⟨h1, h2⟩ := hg.mean t (dev s.x, dev s.p) (mean_dev s.x) (mean_dev s.p)
  have e1 : mean (freeStep g t s).x = mean s.x := by
    funext a d
    exact (mean_add_const (mean s.x) _ a d).trans
      ((congrArg (mean s.x a d + ·) (h1 a d)).trans (add_zero _))
  have e2 : mean (freeStep g t s).p = mean s.p := by
    funext a d
    exact (mean_add_const (mean s.p) _ a d).trans
      ((congrArg (mean s.p a d + ·) (h2 a d)).trans (add_zero _))
  refine ⟨e1, e2, ?_, ?_⟩
  · funext b a d
    simp only [dev]
    rw [e1]
    simp only [freeStep]
    exact add_sub_cancel_left _ _
  · funext b a d
    simp only [dev]
    rw [e2]
    simp only [freeStep]
    exact add_sub_cancel_left _ _

theorem eq_of_mean_dev {x y : Cfg nb N} (h1 : mean x = mean y) (h2 : dev x = dev y) : x = y := by
  funext b a d
  have e1 := congrFun (congrFun h1 a) d
  have e2 := congrFun (congrFun (congrFun h2 b) a) d
  simp only [dev] at e2
  linarith

theorem free_back [NeZero nb] {g : ℝ → Cfg nb N × Cfg nb N → Cfg nb N × Cfg nb N} (hg : FreeOk g)
    (t : ℝ) (s : Iso nb N) : freeStep g (-t) (freeStep g t s) = s := by
  obtain ⟨a1, a2, a3, a4⟩ := free_parts hg t s
  obtain ⟨b1, b2, b3, b4⟩ := free_parts hg (-t) (freeStep g t s)
  rw [a3, a4] at b3 b4
  have hz : ((g t (dev s.x, dev s.p)).1, (g t (dev s.x, dev s.p)).2) = g t (dev s.x, dev s.p) := rfl
  rw [hz, hg.back] at b3 b4
  exact iso_ext (eq_of_mean_dev (b1.trans a1) b3) (eq_of_mean_dev (b2.trans a2) b4) rfl rfl

theorem dev_setMean [NeZero nb] (x : Cfg nb N) (c : Cen N) : dev (setMean x c) = dev x := by
  funext b a d
  simp only [dev]
  rw [mean_setMean]
  simp only [setMean]
  ring

/-- The free motion and the motion of centroids and cell do not interfere. -/
theorem free_comm [NeZero nb] {g : ℝ → Cfg nb N × Cfg nb N → Cfg nb N × Cfg nb N} (hg : FreeOk g)
    (par : Par N) (t u : ℝ) (s : Iso nb N) :
    bzpQ par u (freeStep g t s) = freeStep g t (bzpQ par u s) := by
  obtain ⟨a1, a2, a3, a4⟩ := free_parts hg t s
  obtain ⟨b1, b2, b3, b4⟩ := free_parts hg t (bzpQ par u s)
  have d1 : dev (bzpQ par u s).x = dev s.x := dev_setMean _ _
  have d2 : dev (bzpQ par u s).p = dev s.p := dev_setMean _ _
  refine iso_ext (eq_of_mean_dev ?_ ?_) (eq_of_mean_dev ?_ ?_) rfl rfl
  · rw [b1]
    simp only [bzpQ]
    rw [mean_setMean, mean_setMean, a1, a2]
    rfl
  · rw [b3, d1, d2, ← a3]
    exact dev_setMean _ _
  · rw [b2]
    simp only [bzpQ]
    rw [mean_setMean, mean_setMean, a2]
    rfl
  · rw [b4, d1, d2, ← a4]
    exact dev_setMean _ _

theorem qcstep_some {par : Par N} {t : ℝ} {s s' : Iso nb N} (h : isoQcstep par t s = some s') :
    s.pe / par.M ≠ 0 ∧ s' = bzpQ par t s := by
  unfold isoQcstep at h
  split at h
  · exact absurd h (by simp)
  · next hv => exact ⟨hv, (Option.some.inj h).symm⟩

theorem qcstep_of {par : Par N} {t : ℝ} {s : Iso nb N} (h : s.pe / par.M ≠ 0) :
    isoQcstep par t s = some (bzpQ par t s) := if_neg h

theorem vol_bzpQ (par : Par N) (t : ℝ) (s : Iso nb N) (h : vol s.h ≠ 0) :
    vol (bzpQ par t s).h ≠ 0 := by
  rw [(iso_volume par s t).1]
  exact mul_ne_zero h (Real.exp_pos _).ne'

/-- **C143.** A step of the constant pressure Suzuki-Chin integrator is undone by a step of the
opposite sign: although piston and beads are kicked in the same order at both ends. For one level,
no bias, and any forces, virials and high order forces that depend on positions and cell. -/
theorem sc_step_reversible_partial [NeZero nb] (par : Par N) (pext : ℝ)
    (F : Cfg nb N → M3 → FFb nb N) (S : Cfg nb N → M3 → FFb nb N)
    {g : ℝ → Cfg nb N × Cfg nb N → Cfg nb N × Cfg nb N} (hg : FreeOk g) (dt : ℝ) (s s' : Iso nb N)
    (hV : vol s.h ≠ 0) (h : scStep par pext F (fun _ _ => FF.zero nb N) S g dt s = some s') :
    scStep par pext F (fun _ _ => FF.zero nb N) S g (-dt) s' = some s := by
  unfold scStep at h
  dsimp only at h
  simp only [fun F t (s : Iso nb N) => sc_pstep_eq par pext F (FF.zero nb N) true true true (Or.inl rfl)
    t s] at h
  set s1 := scSlow (S s.x s.h) dt s with hs1
  set s2 := isoPstep par pext (scaled c1 (F s1.x s1.h)) (FF.zero nb N) ⟨true, true, true⟩ (dt / 2) s1
    with hs2
  split at h
  · exact absurd h (by simp)
  next s3 h3 =>
  split at h
  · exact absurd h (by simp)
  next s5 h5 =>
  obtain ⟨v2, rfl⟩ := qcstep_some h3
  obtain ⟨v4, rfl⟩ := qcstep_some h5
  rw [free_comm hg] at h
  set q1 := bzpQ par (dt / 2) (bzpQ par (dt / 2) s2) with hq1
  set s6 := freeStep g (dt / 2) (freeStep g (dt / 2) q1) with hs6
  have hVq : vol q1.h ≠ 0 := vol_bzpQ _ _ _ (vol_bzpQ _ _ _ hV)
  have hV6 : vol s6.h ≠ 0 := hVq
  have h' := Option.some.inj h
  clear h
  subst h'
  set s7 := isoPstep par pext (scaled c1 (F s6.x s6.h)) (FF.zero nb N) ⟨true, true, true⟩ (dt / 2) s6
    with hs7
  unfold scStep
  dsimp only
  simp only [fun F t (s : Iso nb N) => sc_pstep_eq par pext F (FF.zero nb N) true true true (Or.inl rfl)
    t s]
  have e1 : scSlow (S (scSlow (S s7.x s7.h) dt s7).x (scSlow (S s7.x s7.h) dt s7).h) (-dt)
      (scSlow (S s7.x s7.h) dt s7) = s7 := slow_back (S s7.x s7.h) s7 hV6 dt
  rw [e1]
  have e2 : isoPstep par pext (scaled c1 (F s7.x s7.h)) (FF.zero nb N) ⟨true, true, true⟩ (-dt / 2)
      s7 = s6 := by
    rw [neg_div]
    exact iso_pstep_back par pext (scaled c1 (F s6.x s6.h)) ⟨true, true, true⟩ rfl s6 hV6 (dt / 2)
  rw [e2]
  have c1' : bzpQ par (-dt / 2) s6
      = freeStep g (dt / 2) (freeStep g (dt / 2) (bzpQ par (dt / 2) s2)) := by
    rw [hs6, free_comm hg, free_comm hg, hq1, neg_div, iso_step_reversible]
    exact v2
  have v6 : s6.pe / par.M ≠ 0 := v2
  rw [qcstep_of v6, c1']
  dsimp only
  rw [show -dt / 2 = -(dt / 2) by ring, free_back hg]
  have v3 : (freeStep g (dt / 2) (bzpQ par (dt / 2) s2)).pe / par.M ≠ 0 := v2
  rw [qcstep_of v3, free_comm hg, iso_step_reversible _ _ v2]
  dsimp only
  rw [free_back hg]
  have e3 : isoPstep par pext (scaled c1 (F s2.x s2.h)) (FF.zero nb N) ⟨true, true, true⟩ (-(dt / 2))
      s2 = s1 := iso_pstep_back par pext (scaled c1 (F s1.x s1.h)) ⟨true, true, true⟩ rfl s1 hV (dt / 2)
  rw [e3]
  exact congrArg some (slow_back (S s.x s.h) s hV dt)

/-- Free motion that turns positions and momenta about the centroid into each other: the ring
polymer of two beads at unit frequency and mass, up to units. -/
example : FreeOk (nb := nb) (N := N) fun t z =>
    (fun b a d => z.1 b a d * Real.cos t + z.2 b a d * Real.sin t,
     fun b a d => z.1 b a d * -Real.sin t + z.2 b a d * Real.cos t) where
  back := by
    intro t z
    have := Real.sin_sq_add_cos_sq t
    refine Prod.ext ?_ ?_ <;> funext b a d <;> simp only [Real.cos_neg, Real.sin_neg] <;>
      [linear_combination z.1 b a d * this; linear_combination z.2 b a d * this]
  mean := by
    intro t z h1 h2
    constructor <;> intro a d <;> have h1 := h1 a d <;> have h2 := h2 a d <;>
      simp only [mean, sum_add_distrib, add_div, ← sum_mul, mul_div_right_comm] at * <;>
      rw [h1, h2] <;> ring

/-! ## With a bias -/

/-- One atom, one bead, moving with unit momentum. -/
noncomputable def oneS : Iso 1 1 := ⟨fun _ _ _ => 0, fun _ _ _ => 1, one3, 1⟩

/-- **Disagreement.** With a bias and one level the momentum step is neither the exact solution nor
reversible: the piston takes the change of the kinetic energy from the forces without the bias
(`fc` is made of `forces.mts_forces[level].f`), the beads are kicked by the bias too. The same in
the ordinary isotropic barostat. -/
theorem bias_not_reversible : ∃ bias : FF 1 1, ∀ t : ℝ, 0 < t →
    let l : Lev := ⟨true, true, true⟩
    isoPstep ⟨fun _ => 1, 0, 1⟩ 0 (FF.zero 1 1) bias l (-t)
      (isoPstep ⟨fun _ => 1, 0, 1⟩ 0 (FF.zero 1 1) bias l t oneS) ≠ oneS := by
  refine ⟨⟨fun _ _ _ => 1, fun _ _ => 0⟩, fun t ht => ?_⟩
  intro l h
  have h := congrArg Iso.pe h
  simp [l, isoPstep, bzpP, FF.zero, oneS, stressMts, kstressMts, kick, onlyIf, mean, vol, one3, fcen,
    Fin.sum_univ_three] at h
  have h2 : t * (t * (2 + t)) = 0 := by nlinarith
  have : 0 < t * (t * (2 + t)) := by positivity
  linarith

/-- The weights are those of the Suzuki-Chin factorisation: the odd beads weigh twice as much as the even ones, and for an even
number of beads the weights add up to the number of beads. -/
theorem sc_weights (P : ℕ) : (∀ b c : Fin (2 * P), (b : ℕ) % 2 = 0 → (c : ℕ) % 2 = 1 → 1 + c1 c = 2 * (1 + c1 b))
    ∧ ∑ b : Fin (2 * P), (1 + c1 b) = ((2 * P : ℕ) : ℝ) := by
  refine ⟨fun b c hb hc => ?_, ?_⟩
  · unfold c1
    rw [if_pos hb, if_neg (by omega)]
    norm_num
  · have e : ∀ P : ℕ, ∑ b ∈ range (2 * P), (1 + if b % 2 = 0 then (-1 / 3 : ℝ) else 1 / 3) = ((2 * P : ℕ) : ℝ) := by
      intro P
      induction P with
      | zero => simp
      | succ P ih =>
        rw [show 2 * (P + 1) = 2 * P + 1 + 1 by ring, sum_range_succ, sum_range_succ, ih, if_pos (by omega), if_neg (by omega)]
        push_cast
        ring
    rw [← e P, ← Fin.sum_univ_eq_sum_range (fun b => 1 + if b % 2 = 0 then (-1 / 3 : ℝ) else 1 / 3)]
    rfl

end Verif.Baro
