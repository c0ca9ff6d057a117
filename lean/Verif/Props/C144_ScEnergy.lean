import Verif.Props.C143_ScBarostat
import Mathlib.Analysis.Calculus.ContDiff.Basic
import Mathlib.Analysis.Calculus.FDeriv.Symmetric
import Mathlib.Analysis.Calculus.Deriv.Slope

/-!
# C144: the conserved quantity of constant pressure Suzuki-Chin runs

It is conserved exactly when the virial of the high order part is the derivative of the high order
energy. The virial used by the program is another quantity: it lacks twice the square of the forces
over the masses. So the reported conserved quantity drifts, and the pressure that is kept is wrong.
-/

namespace Verif.Baro

open Finset Filter
open scoped Topology

variable {nb N : ℕ}

/-! ## The balance of energy -/

/-- Specification: forces and virials of two sources together. -/
def FF.add (F G : FF nb N) : FF nb N :=
  ⟨fun b a d => F.f b a d + G.f b a d, fun i j => F.vir i j + G.vir i j⟩

/-- Specification: the energy changes of the pieces of one step of length `t`, added up: the
momentum steps of all the levels, the high order kicks (two of them, each for half the step), the
motion of centroids and cell, the motion of the beads around their centroids. -/
noncomputable def scPieces {n : ℕ} (par : Par N) (pext : ℝ) (F : Fin (n + 1) → FFb nb N)
    (bias : FF nb N) (S : FFb nb N) (sp : Cfg nb N → ℝ) (U : Cfg nb N × M3 → ℝ) (s : Iso nb N)
    (cx cp : ℝ → Cfg nb N) (t : ℝ) : ℝ :=
  (∑ l, isoE par pext sp U (scPstep par pext (F l) bias (lev true l) t s))
    + isoE par pext sp U (scSlow S (2 * t) s)
    + isoE par pext sp U (bzpQ par t s)
    + isoE par pext sp U { s with x := cx t, p := cp t }

theorem slow_rate [NeZero nb] (par : Par N) (pext : ℝ) (S : FFb nb N) (sp : Cfg nb N → ℝ)
    (U : Cfg nb N × M3 → ℝ) (s : Iso nb N) (hV : vol s.h ≠ 0) :
    HasDerivAt (fun t => isoE par pext sp U (scSlow S (2 * t) s))
      ((∑ b, ∑ a, ∑ d, s.p b a d * S.f b a d / par.m a)
        + s.pe / par.M * cenVirial s.x (plain S)) 0 := by
  have h := iso_pstep_rate par pext (plain S) (FF.zero nb N) ⟨false, false, false⟩ sp U s hV
    (Or.inr rfl)
  have he : ∀ t, scSlow S (2 * t) s
      = isoPstep par pext (plain S) (FF.zero nb N) ⟨false, false, false⟩ t s := by
    intro t
    refine iso_ext rfl ?_ rfl ?_
    · funext b a d
      rw [slow_p]
      simp only [isoPstep, kick, plain, onlyIf]
      simp
      ring
    · rw [slow_pe S _ s hV]
      simp only [isoPstep, bzpP]
      have := trace_stress par (plain S) (FF.zero nb N) ⟨false, false, false⟩ s.x s.p s.h hV
      simp only [onlyIf] at this
      simp at this
      simp
      linear_combination -t * this
  simp only [he]
  refine h.congr_deriv ?_
  simp [onlyIf]
  rfl

/-- **C144.** To first order in the time step, the energies of all the pieces of a step change
together by the velocity of the piston times the error of the high order virial (its trace). `W` is
the true virial of the high order energy; forces, the other virials and the bias are derivatives of
the energy. Any number of levels, beads and atoms. -/
theorem sc_rate [NeZero nb] {n : ℕ} (par : Par N) (pext : ℝ) (F : Fin (n + 1) → FFb nb N)
    (bias : FF nb N) (S : FFb nb N) (W : M3) {sp : Cfg nb N → ℝ} (hsp : SpringInv sp)
    {U : Cfg nb N × M3 → ℝ} {U'} (s : Iso nb N)
    (hU : Consistent U (fun l => scaled c1 (F l)) (bias.add ⟨S.f, W⟩) s.x s.h U')
    (hV : 0 < vol s.h) (hv : s.pe / par.M ≠ 0)
    {cx cp : ℝ → Cfg nb N} (hc : Internal par sp s.x s.p cx cp) :
    HasDerivAt (scPieces par pext F bias S sp U s cx cp)
      (s.pe / par.M * ((∑ i, ∑ b, S.virs b i i) - ∑ i, W i i)) 0 := by
  have h0 := iso_conserved par pext (fun l => scaled c1 (F l)) (bias.add ⟨S.f, W⟩) true hsp s hU hV hv
    (Or.inl rfl) hc
  have h1 := HasDerivAt.fun_sum (u := univ) fun (l : Fin (n + 1)) _ =>
    iso_pstep_rate par pext (scaled c1 (F l)) (bias.add ⟨S.f, W⟩) (lev true l) sp U s hV.ne'
      (Or.inl rfl)
  have h2 := HasDerivAt.fun_sum (u := univ) fun (l : Fin (n + 1)) _ =>
    iso_pstep_rate par pext (scaled c1 (F l)) bias (lev true l) sp U s hV.ne' (Or.inl rfl)
  have h3 := slow_rate par pext S sp U s hV.ne'
  have hf : scPieces par pext F bias S sp U s cx cp = fun t =>
      ((((∑ l, isoE par pext sp U (isoPstep par pext (scaled c1 (F l)) (bias.add ⟨S.f, W⟩)
          (lev true l) t s))
        + isoE par pext sp U (bzpQ par t s)
        + isoE par pext sp U { s with x := cx t, p := cp t })
        - ∑ l, isoE par pext sp U (isoPstep par pext (scaled c1 (F l)) (bias.add ⟨S.f, W⟩)
          (lev true l) t s))
        + ∑ l, isoE par pext sp U (isoPstep par pext (scaled c1 (F l)) bias (lev true l) t s))
        + isoE par pext sp U (scSlow S (2 * t) s) := by
    funext t
    simp only [scPieces, lev, fun l => sc_pstep_eq par pext (F l) bias (l == 0) (l == Fin.last n) true
      (Or.inl rfl) t s]
    ring
  rw [hf]
  refine ((((h0.sub h1).add h2).add h3)).congr_deriv ?_
  have ho : ∀ y : ℝ, ∑ l : Fin (n + 1), onlyIf (lev true l).outer y = y := by
    intro y
    simp [onlyIf, lev]
  have hk : ∀ B : FF nb N, ∑ l, ∑ b, ∑ a, ∑ d, s.p b a d
        * ((scaled c1 (F l)).f b a d + onlyIf (lev true l).outer (B.f b a d)) / par.m a
      = (∑ b, ∑ a, ∑ d, (∑ l, (scaled c1 (F l)).f b a d) * (s.p b a d / par.m a))
        + ∑ b, ∑ a, ∑ d, B.f b a d * (s.p b a d / par.m a) := by
    intro B
    rw [sum_comm, ← sum_add_distrib]
    refine sum_congr rfl fun b _ => ?_
    rw [sum_comm, ← sum_add_distrib]
    refine sum_congr rfl fun a _ => ?_
    rw [sum_comm, ← sum_add_distrib]
    refine sum_congr rfl fun d _ => ?_
    rw [← sum_div, ← mul_sum, sum_add_distrib, ho]
    ring
  rw [sum_add_distrib, sum_add_distrib, hk, hk, ← mul_sum, ← mul_sum]
  simp only [sum_add_distrib, ho]
  have ha : ∑ b, ∑ a, ∑ d, (bias.add ⟨S.f, W⟩).f b a d * (s.p b a d / par.m a)
      = (∑ b, ∑ a, ∑ d, bias.f b a d * (s.p b a d / par.m a))
        + ∑ b, ∑ a, ∑ d, s.p b a d * S.f b a d / par.m a := by
    simp only [← sum_add_distrib]
    refine sum_congr rfl fun b _ => sum_congr rfl fun a _ => sum_congr rfl fun d _ => ?_
    simp only [FF.add]
    ring
  have hc' : cenVirial s.x (bias.add ⟨S.f, W⟩)
      = cenVirial s.x bias + ((∑ i, W i i) - ∑ i, ∑ b, S.virs b i i) + cenVirial s.x (plain S) := by
    simp only [cenVirial, FF.add, plain, mul_add, sum_add_distrib]
    ring
  rw [ha, hc']
  ring

/-- **C144.** So the conserved quantity is conserved if and only if the trace of the high order
virial is right. -/
theorem sc_conserved_iff [NeZero nb] {n : ℕ} (par : Par N) (pext : ℝ) (F : Fin (n + 1) → FFb nb N)
    (bias : FF nb N) (S : FFb nb N) (W : M3) {sp : Cfg nb N → ℝ} (hsp : SpringInv sp)
    {U : Cfg nb N × M3 → ℝ} {U'} (s : Iso nb N)
    (hU : Consistent U (fun l => scaled c1 (F l)) (bias.add ⟨S.f, W⟩) s.x s.h U')
    (hV : 0 < vol s.h) (hv : s.pe / par.M ≠ 0)
    {cx cp : ℝ → Cfg nb N} (hc : Internal par sp s.x s.p cx cp) :
    HasDerivAt (scPieces par pext F bias S sp U s cx cp) 0 0 ↔
      ∑ i, ∑ b, S.virs b i i = ∑ i, W i i := by
  have h := sc_rate par pext F bias S W hsp s hU hV hv hc
  constructor
  · intro h0
    have := h.unique h0
    rcases mul_eq_zero.mp this with h1 | h1
    · exact absurd h1 hv
    · linarith
  · intro e
    rw [e, sub_self, mul_zero] at h
    exact h

/-! ## The virial of the high order energy -/

/-- The force field returns the forces and the virial of the potential `V` of one replica. -/
structure Field.Ok (G : Field N) (V : Cen N × M3 → ℝ) : Prop where
  smooth : ContDiff ℝ 2 V
  force : ∀ x h a d, G.force x h a d = -fderiv ℝ V (x, h) (Pi.single a (Pi.single d 1), 0)
  virial : ∀ x h (e : M3), (∀ i j, j < i → e i j = 0) →
    fderiv ℝ V (x, h) (fun a i => ∑ j, e i j * x a j, mul3 e h) = -∑ i, ∑ j, e i j * G.vir x h i j

/-- Specification: the square of the forces over the masses, of one replica. -/
noncomputable def square (par : Par N) (G : Field N) (x : Cen N) (h : M3) : ℝ :=
  ∑ a, ∑ d, G.force x h a d ^ 2 / par.m a

/-- Specification: the trace of the virial, of one replica. -/
noncomputable def trVir (G : Field N) (x : Cen N) (h : M3) : ℝ := ∑ i, G.vir x h i i

theorem cen_expand (u : Cen N) :
    u = ∑ a, ∑ d, u a d • (Pi.single a (Pi.single d (1 : ℝ)) : Cen N) := by
  funext a d
  simp only [Finset.sum_apply, Pi.smul_apply, smul_eq_mul]
  rw [Finset.sum_eq_single a]
  · rw [Finset.sum_eq_single d]
    · simp
    · intro d' _ hd
      simp [Pi.single_eq_of_ne hd.symm]
    · simp
  · intro a' _ ha
    simp [Pi.single_eq_of_ne ha.symm]
  · simp

theorem Field.Ok.along {G : Field N} {V : Cen N × M3 → ℝ} (hG : G.Ok V) (x u : Cen N) (h : M3) :
    fderiv ℝ V (x, h) (u, 0) = -∑ a, ∑ d, G.force x h a d * u a d := by
  have e : ((u, 0) : Cen N × M3)
      = ∑ a, ∑ d, u a d • ((Pi.single a (Pi.single d (1 : ℝ)) : Cen N), (0 : M3)) := by
    refine Prod.ext ?_ ?_
    · simp only [Prod.fst_sum, Prod.smul_fst]
      exact cen_expand u
    · simp [Prod.snd_sum]
  rw [e]
  simp only [map_sum, map_smul, smul_eq_mul, hG.force, neg_mul, sum_neg_distrib, neg_neg]
  exact sum_congr rfl fun a _ => sum_congr rfl fun d _ => mul_comm _ _

theorem Field.Ok.trace {G : Field N} {V : Cen N × M3 → ℝ} (hG : G.Ok V) (x : Cen N) (h : M3) :
    trVir G x h = -fderiv ℝ V (x, h) (x, h) := by
  have := hG.virial x h one3 (by intro i j hij; simp [one3, hij.ne'])
  have e1 : (fun a i => ∑ j, one3 i j * x a j) = x := by
    funext a i; simp [one3]
  have e2 : mul3 one3 h = h := by
    funext i j; simp [mul3, one3]
  rw [e1, e2] at this
  rw [this, neg_neg]
  simp [trVir, one3]

/-- The direction of the displacements: the forces over the masses. -/
noncomputable def accel (par : Par N) (G : Field N) (x : Cen N) (h : M3) : Cen N :=
  fun a d => G.force x h a d / par.m a

/-- The rate of change of the trace of the virial along the displacements, and the rate of change of
the square of the forces when positions and cell are scaled together: the second is twice the first
minus twice the square. -/
theorem square_strain (par : Par N) {G : Field N} {V : Cen N × M3 → ℝ} (hG : G.Ok V) (x : Cen N)
    (h : M3) : ∃ D : ℝ,
      HasDerivAt (fun t : ℝ => trVir G (fun a d => x a d + t * accel par G x h a d) h) D 0 ∧
      HasDerivAt (fun e : ℝ => square par G (fun a d => (1 + e) * x a d) fun i j => (1 + e) * h i j)
        (2 * D - 2 * square par G x h) 0 := by
  have d1 : ∀ z, HasFDerivAt V (fderiv ℝ V z) z :=
    fun z => (hG.smooth.differentiable (by norm_num) z).hasFDerivAt
  have c1 : ContDiff ℝ 1 (fderiv ℝ V) := hG.smooth.fderiv_right (by norm_num)
  set H := fderiv ℝ (fderiv ℝ V) (x, h) with hH
  have d2 : HasFDerivAt (fderiv ℝ V) H (x, h) := (c1.differentiable (by norm_num) _).hasFDerivAt
  have sym := second_derivative_symmetric d1 d2
  set u : Cen N := accel par G x h with hu
  have hfu : fderiv ℝ V (x, h) (u, 0) = -square par G x h := by
    rw [hG.along]
    simp only [square, hu, accel]
    congr 1
    refine sum_congr rfl fun a _ => sum_congr rfl fun d _ => ?_
    ring
  refine ⟨-H (u, 0) (x, h) + square par G x h, ?_, ?_⟩
  · have hl : HasDerivAt (fun t : ℝ => ((fun a d => x a d + t * u a d, h) : Cen N × M3)) (u, 0) 0 := by
      refine HasDerivAt.prodMk ?_ (hasDerivAt_const _ _)
      refine hasDerivAt_pi.mpr fun a => hasDerivAt_pi.mpr fun d => ?_
      simpa using ((hasDerivAt_id (0 : ℝ)).mul_const (u a d)).const_add (x a d)
    have hz : ((fun a d => x a d + (0 : ℝ) * u a d, h) : Cen N × M3) = (x, h) := by simp
    have d2' : HasFDerivAt (fderiv ℝ V) H ((fun a d => x a d + (0 : ℝ) * u a d, h) : Cen N × M3) := by
      rw [hz]; exact d2
    have h1 := d2'.comp_hasDerivAt (0 : ℝ) hl
    have h2 := (h1.clm_apply hl).neg
    have : (fun t : ℝ => trVir G (fun a d => x a d + t * u a d) h)
        = -fun t : ℝ => ((fderiv ℝ V ∘ fun t : ℝ => ((fun a d => x a d + t * u a d, h) : Cen N × M3)) t)
          (fun a d => x a d + t * u a d, h) := by
      funext t
      exact hG.trace _ _
    rw [this]
    refine h2.congr_deriv ?_
    simp only [Function.comp_apply, zero_mul, add_zero]
    rw [hfu]
    ring
  · have hl : HasDerivAt (fun e : ℝ => ((fun a d => (1 + e) * x a d, fun i j => (1 + e) * h i j)
        : Cen N × M3)) (x, h) 0 := by
      refine HasDerivAt.prodMk ?_ ?_
      · refine hasDerivAt_pi.mpr fun a => hasDerivAt_pi.mpr fun d => ?_
        simpa using ((hasDerivAt_id (0 : ℝ)).const_add 1).mul_const (x a d)
      · refine hasDerivAt_pi.mpr fun a => hasDerivAt_pi.mpr fun d => ?_
        simpa using ((hasDerivAt_id (0 : ℝ)).const_add 1).mul_const (h a d)
    have hz : ((fun a d => (1 + (0 : ℝ)) * x a d, fun i j => (1 + (0 : ℝ)) * h i j) : Cen N × M3)
        = (x, h) := by simp
    have d2' : HasFDerivAt (fderiv ℝ V) H
        ((fun a d => (1 + (0 : ℝ)) * x a d, fun i j => (1 + (0 : ℝ)) * h i j) : Cen N × M3) := by
      rw [hz]; exact d2
    have h1 := d2'.comp_hasDerivAt (0 : ℝ) hl
    have hF : ∀ a d, HasDerivAt (fun e : ℝ => G.force (fun a d => (1 + e) * x a d)
        (fun i j => (1 + e) * h i j) a d) (-H (x, h) (Pi.single a (Pi.single d 1), 0)) 0 := by
      intro a d
      simp only [hG.force]
      have := (h1.clm_apply (hasDerivAt_const (0 : ℝ)
        ((Pi.single a (Pi.single d 1), 0) : Cen N × M3))).neg
      refine this.congr_deriv ?_
      simp
    have h3 : HasDerivAt (fun e : ℝ => square par G (fun a d => (1 + e) * x a d)
        fun i j => (1 + e) * h i j) (∑ a, ∑ d, 2 * G.force x h a d
          * -H (x, h) (Pi.single a (Pi.single d 1), 0) / par.m a) 0 := by
      unfold square
      refine HasDerivAt.fun_sum fun a _ => HasDerivAt.fun_sum fun d _ => ?_
      refine (((hF a d).pow 2).div_const (par.m a)).congr_deriv ?_
      simp
    refine h3.congr_deriv ?_
    have hHu : H (x, h) (u, 0) = ∑ a, ∑ d, u a d * H (x, h) (Pi.single a (Pi.single d 1), 0) := by
      have e : ((u, 0) : Cen N × M3)
          = ∑ a, ∑ d, u a d • ((Pi.single a (Pi.single d (1 : ℝ)) : Cen N), (0 : M3)) := by
        refine Prod.ext ?_ ?_
        · simp only [Prod.fst_sum, Prod.smul_fst]
          exact cen_expand u
        · simp [Prod.snd_sum]
      conv_lhs => rw [e]
      simp only [map_sum, map_smul, smul_eq_mul]
    rw [sym (u, 0) (x, h), hHu]
    have : ∑ a, ∑ d, 2 * G.force x h a d * -H (x, h) (Pi.single a (Pi.single d 1), 0) / par.m a
        = -2 * ∑ a, ∑ d, u a d * H (x, h) (Pi.single a (Pi.single d 1), 0) := by
      simp only [mul_sum]
      refine sum_congr rfl fun a _ => sum_congr rfl fun d _ => ?_
      simp only [hu, accel]
      ring
    rw [this]
    ring

/-- **Disagreement (C144).** For every force field with smooth potential, every bead that has a high
order term and every kind of finite differences: as the displacement goes to zero, the trace of the
high order virial the program uses goes to the true one, minus the derivative of the square of the
forces over the masses when positions and cell are scaled together, less twice that square. -/
theorem v4_wrong (par : Par N) {G : Field N} {V : Cen N × M3 → ℝ} (hG : G.Ok V) (x : Cfg nb N)
    (h : M3) (k : Diff) (alpha : ℝ) (b : Fin nb) (hb : alpha = 0 → (b : ℕ) % 2 ≠ 0) :
    ∃ W : ℝ, HasDerivAt
        (fun e : ℝ => square par G (fun a d => (1 + e) * x b a d) fun i j => (1 + e) * h i j) (-W) 0 ∧
      Tendsto (fun delta => ∑ i, v4 par G k alpha delta x h b i i) (𝓝[≠] 0)
        (𝓝 (W - 2 * square par G (x b) h)) := by
  obtain ⟨D, h1, h2⟩ := square_strain par hG (x b) h
  refine ⟨-2 * D + 2 * square par G (x b) h, h2.congr_deriv (by ring), ?_⟩
  have e : -2 * D + 2 * square par G (x b) h - 2 * square par G (x b) h = -2 * D := by ring
  rw [e]
  set f : ℝ → ℝ := fun t => trVir G (fun a d => x b a d + t * accel par G (x b) h a d) h with hf
  have hdisp : ∀ t, disp par G t (x b) h = fun a d => x b a d + t * accel par G (x b) h a d := by
    intro t
    funext a d
    simp only [disp, accel]
    ring
  have hplus : Tendsto (fun t => (f t - f 0) / t) (𝓝[≠] 0) (𝓝 D) := by
    have := hasDerivAt_iff_tendsto_slope_zero.mp h1
    refine this.congr fun t => ?_
    simp only [zero_add, smul_eq_mul, hf]
    rw [inv_mul_eq_div]
  have hminus : Tendsto (fun t => (f (-t) - f 0) / t) (𝓝[≠] 0) (𝓝 (-D)) := by
    have h1' : HasDerivAt f D (-0) := by rw [neg_zero]; exact h1
    have h3 : HasDerivAt (fun t => f (-t)) (-D) 0 := by
      have := h1'.scomp (0 : ℝ) (hasDerivAt_neg (0 : ℝ))
      refine this.congr_deriv ?_
      simp
    have := hasDerivAt_iff_tendsto_slope_zero.mp h3
    refine this.congr fun t => ?_
    simp only [zero_add, smul_eq_mul, neg_zero]
    rw [inv_mul_eq_div]
  have hb0 : trVir G (x b) h = f 0 := by simp [hf]
  have key : ∀ t, (∑ i, v4 par G k alpha t x h b i i)
      = quot k alpha t b (f 0) (f t) (f (-t)) := by
    intro t
    have ht : f t = ∑ i, G.vir (disp par G t (x b) h) h i i := by rw [hdisp]; rfl
    have ht' : f (-t) = ∑ i, G.vir (disp par G (-t) (x b) h) h i i := by rw [hdisp]; rfl
    rw [ht, ht', ← hb0, trVir]
    simp only [v4]
    cases k <;> by_cases ha : alpha = 0 <;> simp [quot, ha, hb, ← sum_div, ← mul_sum, sum_sub_distrib]
  simp only [key]
  cases k <;> by_cases ha : alpha = 0
  · simp only [quot, ha, if_true, hb ha, if_false]
    have := hminus.const_mul 2
    refine (this.congr fun t => ?_).trans (by rw [show 2 * -D = -2 * D by ring])
    ring
  · simp only [quot, ha, if_false]
    have := hplus.const_mul (-2)
    exact this.congr fun t => by ring
  · simp only [quot, ha, if_true, hb ha, if_false]
    have := hminus.sub hplus
    refine (this.congr fun t => ?_).trans (by rw [show -D - D = -2 * D by ring])
    ring
  · simp only [quot, ha, if_false]
    have := hminus.sub hplus
    refine (this.congr fun t => ?_).trans (by rw [show -D - D = -2 * D by ring])
    ring

/-! ## A concrete case: atoms in a harmonic trap -/

/-- Every atom in a harmonic well of unit force constant. -/
noncomputable def trapG : Field N :=
  ⟨fun x _ a d => -x a d, fun x _ i j => -∑ a, x a i * x a j⟩

/-- Its energy. -/
noncomputable def trapV : Cen N × M3 → ℝ := fun z => ∑ a, ∑ d, 1 / 2 * z.1 a d ^ 2

/-- One coordinate. -/
noncomputable def coordC (a : Fin N) (d : Fin 3) : Cen N × M3 →L[ℝ] ℝ :=
  (ContinuousLinearMap.proj (R := ℝ) (φ := fun _ : Fin 3 => ℝ) d).comp
    ((ContinuousLinearMap.proj (R := ℝ) (φ := fun _ : Fin N => Fin 3 → ℝ) a).comp
      (ContinuousLinearMap.fst ℝ (Cen N) M3))

theorem trapV_deriv (z : Cen N × M3) :
    HasFDerivAt trapV (∑ a, ∑ d, z.1 a d • coordC a d) z := by
  refine HasFDerivAt.fun_sum fun a _ => HasFDerivAt.fun_sum fun d _ => ?_
  have h1 : HasFDerivAt (fun z : Cen N × M3 => z.1 a d) (coordC a d) z := (coordC a d).hasFDerivAt
  refine ((h1.pow 2).const_mul (1 / 2 : ℝ)).congr_fderiv ?_
  ext <;> simp <;> ring

/-- The trap is a force field with smooth potential. -/
theorem trap_ok : (trapG : Field N).Ok trapV where
  smooth := by
    unfold trapV
    refine ContDiff.sum fun a _ => ContDiff.sum fun d _ => ?_
    have h1 : ContDiff ℝ 2 (fun z : Cen N × M3 => z.1 a d) := (coordC a d).contDiff
    exact contDiff_const.mul (h1.pow 2)
  force := by
    intro x h a d
    rw [(trapV_deriv (x, h)).fderiv]
    simp only [ContinuousLinearMap.sum_apply, ContinuousLinearMap.smul_apply, smul_eq_mul, trapG]
    congr 1
    rw [Finset.sum_eq_single a, Finset.sum_eq_single d]
    · simp [coordC]
    · intro d' _ hd
      simp [coordC, Pi.single_eq_of_ne hd]
    · simp
    · intro a' _ ha
      simp [coordC, Pi.single_eq_of_ne ha]
    · simp
  virial := by
    intro x h e _
    rw [(trapV_deriv (x, h)).fderiv]
    simp only [ContinuousLinearMap.sum_apply, ContinuousLinearMap.smul_apply, smul_eq_mul, trapG]
    simp only [coordC, ContinuousLinearMap.comp_apply, ContinuousLinearMap.proj_apply,
      ContinuousLinearMap.coe_fst']
    simp only [mul_neg, sum_neg_distrib, neg_neg, mul_sum]
    rw [sum_comm]
    refine sum_congr rfl fun i _ => ?_
    rw [sum_comm]
    refine sum_congr rfl fun j _ => sum_congr rfl fun a _ => ?_
    ring

/-- In the trap the high order forces come out exactly, and so does the wrong virial: its trace is
twice what it should be. -/
theorem trap_sc2 (par : Par N) (alpha omegan2 : ℝ) {delta : ℝ} (hd : delta ≠ 0) (x : Cfg nb N)
    (h : M3) (ha : alpha ≠ 0) :
    (∀ b a d, (sc2 par trapG .centred alpha omegan2 delta x h).f b a d
      = -(c2 alpha omegan2 b * (2 * x b a d / par.m a))) ∧
    ∑ i, ∑ b, (sc2 par trapG .centred alpha omegan2 delta x h).virs b i i
      = -∑ b, c2 alpha omegan2 b * (4 * ∑ a, ∑ d, x b a d ^ 2 / par.m a) := by
  constructor
  · intro b a d
    simp only [sc2, f4, quot, ha, if_false, trapG, disp]
    field_simp
    ring
  · rw [sum_comm, ← sum_neg_distrib]
    refine sum_congr rfl fun b _ => ?_
    simp only [sc2, ← mul_sum]
    rw [← mul_neg]
    congr 1
    rw [sum_comm (s := univ (α := Fin N)), mul_sum, ← sum_neg_distrib]
    refine sum_congr rfl fun i _ => ?_
    simp only [v4, quot, ha, if_false, trapG, disp]
    rw [← neg_add_eq_sub, neg_neg, ← sub_eq_add_neg, ← sum_sub_distrib, mul_sum, sum_div, sum_div,
      mul_sum, ← sum_neg_distrib]
    refine sum_congr rfl fun a _ => ?_
    by_cases hm : par.m a = 0
    · simp [hm]
    · field_simp
      ring

/-- The trap evaluated on all the beads. -/
noncomputable def trapF (x : Cfg nb N) (h : M3) : FFb nb N :=
  ⟨fun b => trapG.force (x b) h, fun b => trapG.vir (x b) h⟩

/-- Specification: the Suzuki-Chin potential of the trap: weights `1 + c1` on the potential and `c2`
on the square of the forces over the masses. -/
noncomputable def trapU (par : Par N) (alpha omegan2 : ℝ) : Cfg nb N × M3 → ℝ := fun z =>
  ∑ b, ((1 + c1 b) * trapV (z.1 b, z.2) + c2 alpha omegan2 b * square par trapG (z.1 b) z.2)

/-- One coordinate of one bead. -/
noncomputable def coordB (b : Fin nb) (a : Fin N) (d : Fin 3) : Cfg nb N × M3 →L[ℝ] ℝ :=
  (ContinuousLinearMap.proj (R := ℝ) (φ := fun _ : Fin 3 => ℝ) d).comp
    ((ContinuousLinearMap.proj (R := ℝ) (φ := fun _ : Fin N => Fin 3 → ℝ) a).comp
      ((ContinuousLinearMap.proj (R := ℝ) (φ := fun _ : Fin nb => Fin N → Fin 3 → ℝ) b).comp
        (ContinuousLinearMap.fst ℝ (Cfg nb N) M3)))

theorem trapU_eq (par : Par N) (alpha omegan2 : ℝ) (z : Cfg nb N × M3) :
    trapU par alpha omegan2 z
      = ∑ b, ∑ a, ∑ d, ((1 + c1 b) / 2 + c2 alpha omegan2 b / par.m a) * z.1 b a d ^ 2 := by
  simp only [trapU, trapV, square, trapG, mul_sum, ← sum_add_distrib]
  refine sum_congr rfl fun b _ => sum_congr rfl fun a _ => sum_congr rfl fun d _ => ?_
  ring

theorem trapU_deriv (par : Par N) (alpha omegan2 : ℝ) (z : Cfg nb N × M3) :
    HasFDerivAt (trapU par alpha omegan2) (∑ b, ∑ a, ∑ d,
      (((1 + c1 b) + 2 * c2 alpha omegan2 b / par.m a) * z.1 b a d) • coordB b a d) z := by
  rw [funext (trapU_eq par alpha omegan2)]
  refine HasFDerivAt.fun_sum fun b _ => HasFDerivAt.fun_sum fun a _ => HasFDerivAt.fun_sum fun d _ => ?_
  have h1 : HasFDerivAt (fun z : Cfg nb N × M3 => z.1 b a d) (coordB b a d) z :=
    (coordB b a d).hasFDerivAt
  refine ((h1.pow 2).const_mul ((1 + c1 b) / 2 + c2 alpha omegan2 b / par.m a)).congr_fderiv ?_
  ext <;> simp <;> ring

/-- The true virial of the high order energy of the trap. -/
noncomputable def trapW (par : Par N) (alpha omegan2 : ℝ) (x : Cfg nb N) : M3 := fun i j =>
  -∑ b, c2 alpha omegan2 b * (2 * ∑ a, x b a i * x b a j / par.m a)

theorem trap_consistent (par : Par N) (alpha omegan2 : ℝ) {delta : ℝ} (hd : delta ≠ 0)
    (ha : alpha ≠ 0) (x : Cfg nb N) (h : M3) :
    Consistent (n := 0) (trapU par alpha omegan2) (fun _ => scaled c1 (trapF x h))
      ((FF.zero nb N).add ⟨(sc2 par trapG .centred alpha omegan2 delta x h).f,
        trapW par alpha omegan2 x⟩) x h
      (∑ b, ∑ a, ∑ d, (((1 + c1 b) + 2 * c2 alpha omegan2 b / par.m a) * x b a d) • coordB b a d)
    where
  deriv := trapU_deriv par alpha omegan2 (x, h)
  force := by
    intro dx
    simp only [ContinuousLinearMap.sum_apply, ContinuousLinearMap.smul_apply, smul_eq_mul, coordB,
      ContinuousLinearMap.comp_apply, ContinuousLinearMap.proj_apply, ContinuousLinearMap.coe_fst',
      ← sum_neg_distrib]
    refine sum_congr rfl fun b _ => sum_congr rfl fun a _ => sum_congr rfl fun d _ => ?_
    simp only [FF.add, FF.zero, (trap_sc2 par alpha omegan2 hd x h ha).1]
    simp only [scaled, trapF, trapG, Fin.sum_univ_succ, Fin.sum_univ_zero]
    ring
  virial := by
    intro e _
    simp only [ContinuousLinearMap.sum_apply, ContinuousLinearMap.smul_apply, smul_eq_mul, coordB,
      ContinuousLinearMap.comp_apply, ContinuousLinearMap.proj_apply, ContinuousLinearMap.coe_fst',
      FF.add, FF.zero, scaled, trapF, trapG, trapW, sum_const, card_univ, Fintype.card_fin, one_smul,
      ← sum_neg_distrib, mul_sum, sum_mul, zero_add, ← sum_add_distrib]
    simp_rw [sum_comm (s := univ (α := Fin 3)) (t := univ (α := Fin nb)),
      sum_comm (s := univ (α := Fin 3)) (t := univ (α := Fin N))]
    refine sum_congr rfl fun b _ => sum_congr rfl fun a _ => sum_congr rfl fun i _ =>
      sum_congr rfl fun j _ => ?_
    ring

/-- **Disagreement (C144).** Atoms in a harmonic trap, even number of beads or not: whenever the
piston moves and some bead with a high order term is away from the bottom of the trap, the conserved
quantity changes, at a rate proportional to the velocity of the piston, however small the time step
and the finite displacement. -/
theorem sc_not_conserved [NeZero nb] (par : Par N) (pext alpha omegan2 : ℝ) {delta : ℝ}
    (hd : delta ≠ 0) (ha0 : 0 < alpha) (ha1 : alpha < 1) (ho : 0 < omegan2) (hm : ∀ a, 0 < par.m a)
    {sp : Cfg nb N → ℝ} (hsp : SpringInv sp) (s : Iso nb N) (hV : 0 < vol s.h)
    (hv : s.pe / par.M ≠ 0) {cx cp : ℝ → Cfg nb N} (hc : Internal par sp s.x s.p cx cp)
    (hx : s.x ≠ 0) :
    ¬ HasDerivAt (scPieces (n := 0) par pext (fun _ => trapF s.x s.h) (FF.zero nb N)
      (sc2 par trapG .centred alpha omegan2 delta s.x s.h) sp (trapU par alpha omegan2) s cx cp)
      0 0 := by
  rw [sc_conserved_iff par pext _ _ _ (trapW par alpha omegan2 s.x) hsp s
    (trap_consistent par alpha omegan2 hd ha0.ne' s.x s.h) hV hv hc,
    (trap_sc2 par alpha omegan2 hd s.x s.h ha0.ne').2]
  have hW : ∑ i, trapW par alpha omegan2 s.x i i
      = -∑ b, c2 alpha omegan2 b * (2 * ∑ a, ∑ d, s.x b a d ^ 2 / par.m a) := by
    simp only [trapW, sum_neg_distrib]
    congr 1
    rw [sum_comm]
    refine sum_congr rfl fun b _ => ?_
    rw [← mul_sum, ← mul_sum, sum_comm]
    simp only [pow_two]
  rw [hW]
  have hc2 : ∀ b : Fin nb, 0 < c2 alpha omegan2 b := by
    intro b
    unfold c2
    split
    · positivity
    · have : 0 < 1 - alpha := by linarith
      positivity
  have hq : ∀ b, 0 ≤ ∑ a, ∑ d, s.x b a d ^ 2 / par.m a := fun b =>
    sum_nonneg fun a _ => sum_nonneg fun d _ => div_nonneg (sq_nonneg _) (hm a).le
  have hpos : 0 < ∑ b, c2 alpha omegan2 b * (2 * ∑ a, ∑ d, s.x b a d ^ 2 / par.m a) := by
    obtain ⟨b, hb⟩ := Function.ne_iff.mp hx
    obtain ⟨a, hb⟩ := Function.ne_iff.mp hb
    obtain ⟨d, hb⟩ := Function.ne_iff.mp hb
    refine sum_pos' (fun b _ => mul_nonneg (hc2 b).le (by linarith [hq b])) ⟨b, mem_univ _, ?_⟩
    refine mul_pos (hc2 b) (mul_pos two_pos ?_)
    refine sum_pos' (fun a _ => sum_nonneg fun d _ => div_nonneg (sq_nonneg _) (hm a).le)
      ⟨a, mem_univ _, ?_⟩
    refine sum_pos' (fun d _ => div_nonneg (sq_nonneg _) (hm a).le) ⟨d, mem_univ _, ?_⟩
    exact div_pos (by have : s.x b a d ≠ 0 := hb; positivity) (hm a)
  intro h
  have h4 : ∑ b, c2 alpha omegan2 b * (4 * ∑ a, ∑ d, s.x b a d ^ 2 / par.m a)
      = 2 * ∑ b, c2 alpha omegan2 b * (2 * ∑ a, ∑ d, s.x b a d ^ 2 / par.m a) := by
    rw [mul_sum]
    exact sum_congr rfl fun b _ => by ring
  rw [h4] at h
  linarith

/-- The hypotheses are met: two beads of one atom. -/
example : ¬ HasDerivAt (scPieces (n := 0) ⟨fun _ => 2, 1, 5⟩ 7 (fun _ => trapF wellS.x wellS.h)
    (FF.zero 2 1) (sc2 ⟨fun _ => 2, 1, 5⟩ trapG .centred (1 / 3) 1 (1 / 100) wellS.x wellS.h)
    (fun _ => 0) (trapU ⟨fun _ => 2, 1, 5⟩ (1 / 3) 1) wellS
    (fun t b a d => wellS.x b a d + t * ((wellS.p b a d - mean wellS.p a d) / 2))
    fun _ => wellS.p) 0 0 := by
  refine sc_not_conserved _ _ _ _ (by norm_num) (by norm_num) (by norm_num) (by norm_num)
    (fun _ => by norm_num) (fun _ _ => rfl) _ ?_ ?_ ⟨?_, ?_, fun _ => rfl⟩ ?_
  · simp [vol, wellS]
  · simp [wellS]
  · simp
  · refine hasDerivAt_pi.mpr fun b => hasDerivAt_pi.mpr fun a => hasDerivAt_pi.mpr fun d => ?_
    simpa using ((hasDerivAt_id (0 : ℝ)).mul_const
      ((wellS.p b a d - mean wellS.p a d) / 2)).const_add (wellS.x b a d)
  · intro h
    have := congrFun (congrFun (congrFun h 0) 0) 0
    simp [wellS] at this

/-! ## Forces and virials of the high order part, one by one -/

/-- For every kind of finite differences the quotient goes to minus twice the derivative along the
displacement, except that even beads are left at zero when `alpha` is zero. -/
theorem quot_limit (k : Diff) (alpha : ℝ) (b : Fin nb) {f : ℝ → ℝ} {D : ℝ} (h1 : HasDerivAt f D 0) :
    Tendsto (fun t => quot k alpha t b (f 0) (f t) (f (-t))) (𝓝[≠] 0)
      (𝓝 (if alpha = 0 ∧ (b : ℕ) % 2 = 0 then 0 else -2 * D)) := by
  have hplus : Tendsto (fun t => (f t - f 0) / t) (𝓝[≠] 0) (𝓝 D) := by
    have := hasDerivAt_iff_tendsto_slope_zero.mp h1
    refine this.congr fun t => ?_
    simp only [zero_add, smul_eq_mul]
    rw [inv_mul_eq_div]
  have hminus : Tendsto (fun t => (f (-t) - f 0) / t) (𝓝[≠] 0) (𝓝 (-D)) := by
    have h1' : HasDerivAt f D (-0) := by rw [neg_zero]; exact h1
    have h3 : HasDerivAt (fun t => f (-t)) (-D) 0 := by
      have := h1'.scomp (0 : ℝ) (hasDerivAt_neg (0 : ℝ))
      refine this.congr_deriv ?_
      simp
    have := hasDerivAt_iff_tendsto_slope_zero.mp h3
    refine this.congr fun t => ?_
    simp only [zero_add, smul_eq_mul, neg_zero]
    rw [inv_mul_eq_div]
  by_cases ha : alpha = 0
  · by_cases hb : (b : ℕ) % 2 = 0
    · rw [if_pos ⟨ha, hb⟩]
      cases k <;> simp [quot, ha, hb]
    · rw [if_neg (fun q => hb q.2)]
      cases k
      · simp only [quot, ha, if_true, hb, if_false]
        have := hminus.const_mul 2
        refine (this.congr fun t => ?_).trans (by rw [show 2 * -D = -2 * D by ring])
        ring
      · simp only [quot, ha, if_true, hb, if_false]
        have := hminus.sub hplus
        refine (this.congr fun t => ?_).trans (by rw [show -D - D = -2 * D by ring])
        ring
  · rw [if_neg (fun q => ha q.1)]
    cases k
    · simp only [quot, ha, if_false]
      have := hplus.const_mul (-2)
      exact this.congr fun t => by ring
    · simp only [quot, ha, if_false]
      have := hminus.sub hplus
      refine (this.congr fun t => ?_).trans (by rw [show -D - D = -2 * D by ring])
      ring

theorem disp_accel (par : Par N) (G : Field N) (t : ℝ) (x : Cen N) (h : M3) :
    disp par G t x h = fun a d => x a d + t * accel par G x h a d := by
  funext a d
  simp only [disp, accel]
  ring

/-- Each force and each component of the virial of the high order part goes to minus twice the
derivative of the same component along the forces over the masses. -/
theorem high_order_limit (par : Par N) (G : Field N) (x : Cfg nb N) (h : M3) (k : Diff) (alpha : ℝ)
    (b : Fin nb) :
    (∀ a d D, HasDerivAt (fun t : ℝ => G.force (fun a d => x b a d + t * accel par G (x b) h a d) h a d) D 0 →
      Tendsto (fun delta => f4 par G k alpha delta x h b a d) (𝓝[≠] 0)
        (𝓝 (if alpha = 0 ∧ (b : ℕ) % 2 = 0 then 0 else -2 * D))) ∧
    ∀ i j D, HasDerivAt (fun t : ℝ => G.vir (fun a d => x b a d + t * accel par G (x b) h a d) h i j) D 0 →
      Tendsto (fun delta => v4 par G k alpha delta x h b i j) (𝓝[≠] 0)
        (𝓝 (if alpha = 0 ∧ (b : ℕ) % 2 = 0 then 0 else -2 * D)) := by
  constructor
  · intro a d D hD
    have := quot_limit k alpha b hD
    refine this.congr fun t => ?_
    simp only [f4, disp_accel, zero_mul, add_zero]
  · intro i j D hD
    have := quot_limit k alpha b hD
    refine this.congr fun t => ?_
    simp only [v4, disp_accel, zero_mul, add_zero]

/-- The weights of the high order part: even and odd beads share one ninth of the inverse squared
frequency in the ratio `alpha` to `1 - alpha`. -/
theorem high_order_weights (alpha omegan2 : ℝ) (b c : Fin nb) (hb : (b : ℕ) % 2 = 0)
    (hc : (c : ℕ) % 2 = 1) :
    c2 alpha omegan2 b + c2 alpha omegan2 c = 1 / (9 * omegan2) ∧
      (1 - alpha) * c2 alpha omegan2 b = alpha * c2 alpha omegan2 c := by
  unfold c2
  rw [if_pos hb, if_neg (by omega), mul_comm 9, ← div_div]
  constructor <;> ring

end Verif.Baro
