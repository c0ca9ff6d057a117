import Verif.Props.C72_IsoBarostat
import Mathlib.MeasureTheory.Measure.Lebesgue.EqHaar
import Mathlib.MeasureTheory.Constructions.BorelSpace.Basic

/-!
# C72: the isotropic barostat preserves the volume of phase space

The phase space is that of the piston momentum, the logarithm of the volume, and the momenta and
positions of all the beads; the shape `hs` of the cell is fixed.
-/

namespace Verif.Baro

open Finset MeasureTheory

variable {nb N : ℕ}

instance cenHaar : (volume : Measure (Cen N)).IsAddHaarMeasure := Measure.pi.isAddHaarMeasure _

instance cfgHaar : (volume : Measure (Cfg nb N)).IsAddHaarMeasure := Measure.pi.isAddHaarMeasure _

instance cfg2Haar : (volume : Measure (Cfg nb N × Cfg nb N)).IsAddHaarMeasure :=
  Measure.prod.instIsAddHaarMeasure _ _

instance cfgSFinite : SFinite (volume : Measure (Cfg nb N)) := inferInstance

instance cfg2SFinite : SFinite (volume : Measure (Cfg nb N × Cfg nb N)) :=
  inferInstanceAs (SFinite ((volume : Measure (Cfg nb N)).prod volume))

instance cfg3SFinite : SFinite (volume : Measure (ℝ × Cfg nb N × Cfg nb N)) :=
  inferInstanceAs (SFinite ((volume : Measure ℝ).prod (volume : Measure (Cfg nb N × Cfg nb N))))

/-- Piston momentum, logarithm of the volume, momenta, positions. -/
abbrev Phase (nb N : ℕ) := ℝ × ℝ × Cfg nb N × Cfg nb N

/-- The state with given coordinates, for a cell of the shape of `hs`. -/
noncomputable def ofPhase (hs : M3) (z : Phase nb N) : Iso nb N :=
  ⟨z.2.2.2, z.2.2.1, fun i j => Real.exp (z.2.1 / 3) * hs i j, z.1⟩

/-- The coordinates of a state. -/
noncomputable def toPhase (s : Iso nb N) : Phase nb N := (s.pe, Real.log (vol s.h), s.p, s.x)

theorem vol_ofPhase {hs : M3} (h1 : vol hs = 1) (z : Phase nb N) :
    vol (ofPhase hs z).h = Real.exp z.2.1 := by
  have : Real.exp z.2.1 = Real.exp (z.2.1 / 3) * Real.exp (z.2.1 / 3) * Real.exp (z.2.1 / 3) := by
    rw [← Real.exp_add, ← Real.exp_add]; congr 1; ring
  rw [this]
  simp only [vol, ofPhase] at h1 ⊢
  linear_combination Real.exp (z.2.1 / 3) * Real.exp (z.2.1 / 3) * Real.exp (z.2.1 / 3) * h1

/-- The coordinates determine the state and the other way around. -/
theorem toPhase_ofPhase {hs : M3} (h1 : vol hs = 1) (z : Phase nb N) :
    toPhase (ofPhase hs z) = z := by
  rw [toPhase, vol_ofPhase h1, Real.log_exp]
  rfl

/-- The steps stay among the cells of the same shape. -/
theorem ofPhase_step {hs : M3} (h1 : vol hs = 1) (par : Par N) (t : ℝ) (z : Phase nb N) :
    ofPhase hs (toPhase (bzpQ par t (ofPhase hs z))) = bzpQ par t (ofPhase hs z) := by
  have hv := (iso_volume par (ofPhase hs z) t).1
  rw [vol_ofPhase h1] at hv
  have : (ofPhase hs (toPhase (bzpQ par t (ofPhase hs z)))).h = (bzpQ par t (ofPhase hs z)).h := by
    funext i j
    simp only [ofPhase, toPhase] at hv ⊢
    rw [hv, Real.log_mul (Real.exp_ne_zero _) (Real.exp_ne_zero _), Real.log_exp, Real.log_exp]
    simp only [bzpQ]
    rw [mul_right_comm (Real.exp (z.2.1 / 3)), ← Real.exp_add]
    congr 2
    ring
  have ext : ∀ a b : Iso nb N, a.x = b.x → a.p = b.p → a.h = b.h → a.pe = b.pe → a = b := by
    rintro ⟨⟩ ⟨⟩ h1 h2 h3 h4
    simp_all
  exact ext _ _ rfl rfl this rfl

/-- Scaling the average by `c`. -/
noncomputable def scaleMean (c : ℝ) : Cfg nb N →ₗ[ℝ] Cfg nb N where
  toFun x := fun b a d => x b a d + (c - 1) * mean x a d
  map_add' x y := by
    funext b a d
    simp only [mean, Pi.add_apply, sum_add_distrib]
    ring
  map_smul' r x := by
    funext b a d
    simp only [mean, Pi.smul_apply, smul_eq_mul, ← mul_sum, RingHom.id_apply]
    ring

theorem mean_scaleMean [NeZero nb] (c : ℝ) (x : Cfg nb N) (a : Fin N) (d : Fin 3) :
    mean (scaleMean c x) a d = c * mean x a d := by
  have hn : (nb : ℝ) ≠ 0 := Nat.cast_ne_zero.mpr (NeZero.ne nb)
  simp only [mean, scaleMean, LinearMap.coe_mk, AddHom.coe_mk, sum_add_distrib, sum_const,
    card_univ, Fintype.card_fin, nsmul_eq_mul]
  field_simp
  ring

theorem scaleMean_comp [NeZero nb] (c d : ℝ) (h : c * d = 1) :
    (scaleMean c : Cfg nb N →ₗ[ℝ] Cfg nb N) ∘ₗ scaleMean d = LinearMap.id := by
  refine LinearMap.ext fun x => ?_
  funext b a i
  change scaleMean d x b a i + (c - 1) * mean (scaleMean d x) a i = x b a i
  rw [mean_scaleMean]
  change x b a i + (d - 1) * mean x a i + (c - 1) * (d * mean x a i) = x b a i
  generalize mean x a i = y
  linear_combination y * h

theorem det_scaleMean [NeZero nb] (c d : ℝ) (h : c * d = 1) :
    LinearMap.det (scaleMean (nb := nb) (N := N) c) * LinearMap.det (scaleMean (nb := nb) (N := N) d)
      = 1 := by
  rw [← LinearMap.det_comp, scaleMean_comp c d h, LinearMap.det_id]

/-- Scaling the average momenta down and the average positions up by the same factor preserves the
volume. -/
theorem scale_preserving [NeZero nb] (c : ℝ) (hc : c ≠ 0) :
    MeasurePreserving (fun z : Cfg nb N × Cfg nb N => (scaleMean c⁻¹ z.1, scaleMean c z.2)) := by
  have hd := det_scaleMean (nb := nb) (N := N) c⁻¹ c (inv_mul_cancel₀ hc)
  have hdet : LinearMap.det ((scaleMean (nb := nb) (N := N) c⁻¹).prodMap
      (scaleMean (nb := nb) (N := N) c)) = 1 := by
    rw [LinearMap.det_prodMap, hd]
  have := Measure.map_linearMap_addHaar_eq_smul_addHaar (volume : Measure (Cfg nb N × Cfg nb N))
    (f := (scaleMean c⁻¹).prodMap (scaleMean c)) (by rw [hdet]; norm_num)
  rw [hdet] at this
  refine ⟨?_, ?_⟩
  · exact (LinearMap.continuous_of_finiteDimensional
      ((scaleMean (nb := nb) (N := N) c⁻¹).prodMap (scaleMean c))).measurable
  · rw [inv_one, abs_one, ENNReal.ofReal_one, one_smul] at this
    exact this

/-- Moving the positions by an amount that only depends on the momenta. -/
theorem shear_preserving (g : Cfg nb N → Cfg nb N) (hg : Measurable g) :
    MeasurePreserving (fun z : Cfg nb N × Cfg nb N => (z.1, z.2 + g z.1)) := by
  refine (MeasurePreserving.id (volume : Measure (Cfg nb N))).skew_product
    (g := fun p x => x + g p) ?_ (Filter.Eventually.of_forall fun p => ?_)
  · exact measurable_snd.add (hg.comp measurable_fst)
  · exact (measurePreserving_add_right volume (g p)).map_eq

theorem measurable_mean {α : Type*} [MeasurableSpace α] {f : α → Cfg nb N} (hf : Measurable f)
    (a : Fin N) (d : Fin 3) : Measurable fun z => mean (f z) a d := by
  simp only [mean]
  refine Measurable.div_const (Finset.measurable_sum _ fun b _ => ?_) _
  exact (measurable_pi_apply d).comp ((measurable_pi_apply a).comp ((measurable_pi_apply b).comp hf))

/-- The step on the coordinates other than the piston momentum `pe`. -/
noncomputable def qFib (par : Par N) (t pe : ℝ) (w : ℝ × Cfg nb N × Cfg nb N) :
    ℝ × Cfg nb N × Cfg nb N :=
  (w.1 + 3 * (pe / par.M) * t,
    setMean w.2.1 (fun a d => Real.exp (-(pe / par.M) * t) * mean w.2.1 a d),
    setMean w.2.2 (fun a d => mean w.2.2 a d * Real.exp (pe / par.M * t)
      + ((Real.exp (pe / par.M * t) - Real.exp (-(pe / par.M) * t)) / (2 * (pe / par.M)))
        * (mean w.2.1 a d / par.m a)))

/-- **C72.** The step of centroids and cell preserves the volume element of piston momentum,
logarithm of the cell volume, and all momenta and positions, for a time step of any size. -/
theorem iso_step_preserves [NeZero nb] {hs : M3} (h1 : vol hs = 1) (par : Par N) (t : ℝ) :
    MeasurePreserving (fun z : Phase nb N => toPhase (bzpQ par t (ofPhase hs z))) := by
  have key : (fun z : Phase nb N => toPhase (bzpQ par t (ofPhase hs z)))
      = fun z : Phase nb N => (id z.1, qFib par t z.1 z.2) := by
    funext z
    have hv := (iso_volume par (ofPhase hs z) t).1
    rw [vol_ofPhase h1] at hv
    rw [toPhase, hv, Real.log_mul (Real.exp_ne_zero _) (Real.exp_ne_zero _), Real.log_exp,
      Real.log_exp]
    rfl
  rw [key]
  refine (MeasurePreserving.id (volume : Measure ℝ)).skew_product
    (μc := (volume : Measure (ℝ × Cfg nb N × Cfg nb N)))
    (μd := (volume : Measure (ℝ × Cfg nb N × Cfg nb N))) (g := qFib par t) ?_
    (Filter.Eventually.of_forall fun pe => ?_)
  · have hp : Measurable fun z : ℝ × ℝ × Cfg nb N × Cfg nb N => z.2.2.1 := by fun_prop
    have hx : Measurable fun z : ℝ × ℝ × Cfg nb N × Cfg nb N => z.2.2.2 := by fun_prop
    have mp := fun a d => measurable_mean hp a d
    have mx := fun a d => measurable_mean hx a d
    have m1 : Measurable fun z : ℝ × ℝ × Cfg nb N × Cfg nb N => z.1 := measurable_fst
    refine Measurable.prodMk ?_ (Measurable.prodMk ?_ ?_)
    · change Measurable fun z : ℝ × ℝ × Cfg nb N × Cfg nb N => z.2.1 + 3 * (z.1 / par.M) * t
      fun_prop
    · refine measurable_pi_lambda _ fun b => measurable_pi_lambda _ fun a =>
        measurable_pi_lambda _ fun d => ?_
      have e : Measurable fun z : ℝ × ℝ × Cfg nb N × Cfg nb N => z.2.2.1 b a d := by fun_prop
      have := mp a d
      change Measurable fun z : ℝ × ℝ × Cfg nb N × Cfg nb N => z.2.2.1 b a d
        + (Real.exp (-(z.1 / par.M) * t) * mean z.2.2.1 a d - mean z.2.2.1 a d)
      fun_prop
    · refine measurable_pi_lambda _ fun b => measurable_pi_lambda _ fun a =>
        measurable_pi_lambda _ fun d => ?_
      have e : Measurable fun z : ℝ × ℝ × Cfg nb N × Cfg nb N => z.2.2.2 b a d := by fun_prop
      have := mp a d
      have := mx a d
      change Measurable fun z : ℝ × ℝ × Cfg nb N × Cfg nb N => z.2.2.2 b a d
        + (mean z.2.2.2 a d * Real.exp (z.1 / par.M * t)
              + ((Real.exp (z.1 / par.M * t) - Real.exp (-(z.1 / par.M) * t)) / (2 * (z.1 / par.M)))
                * (mean z.2.2.1 a d / par.m a) - mean z.2.2.2 a d)
      fun_prop
  · unfold qFib
    generalize pe / par.M = v
    have h1 : MeasurePreserving (fun y : ℝ => y + 3 * v * t) :=
      measurePreserving_add_right volume _
    have hg : Measurable fun p : Cfg nb N => (fun _ a d => Real.exp (-v * t)
        * ((Real.exp (v * t) - Real.exp (-v * t)) / (2 * v)) * (mean p a d / par.m a) : Cfg nb N) := by
      refine measurable_pi_lambda _ fun b => measurable_pi_lambda _ fun a =>
        measurable_pi_lambda _ fun d => ?_
      have := measurable_mean (f := fun p : Cfg nb N => p) measurable_id a d
      fun_prop
    have h2 := (scale_preserving (nb := nb) (N := N) (Real.exp (v * t)) (Real.exp_ne_zero _)).comp
      (shear_preserving _ hg)
    have h3 := (h1.prod h2).map_eq
    rw [← Measure.volume_eq_prod] at h3
    refine Eq.trans ?_ h3
    congr 1
    funext w
    have e0 : Real.exp (v * t) * Real.exp (-v * t) = 1 := by rw [← Real.exp_add]; simp
    have e1 : (Real.exp (v * t))⁻¹ = Real.exp (-v * t) := by
      rw [← Real.exp_neg]; congr 1; ring
    have hn : (nb : ℝ) ≠ 0 := Nat.cast_ne_zero.mpr (NeZero.ne nb)
    refine Prod.ext rfl (Prod.ext ?_ ?_)
    · funext b a d
      change w.2.1 b a d + (Real.exp (-v * t) * mean w.2.1 a d - mean w.2.1 a d)
        = w.2.1 b a d + ((Real.exp (v * t))⁻¹ - 1) * mean w.2.1 a d
      rw [e1]
      ring
    · funext b a d
      let g : Cfg nb N := fun _ a d => Real.exp (-v * t)
        * ((Real.exp (v * t) - Real.exp (-v * t)) / (2 * v)) * (mean w.2.1 a d / par.m a)
      change w.2.2 b a d + (mean w.2.2 a d * Real.exp (v * t)
          + (Real.exp (v * t) - Real.exp (-v * t)) / (2 * v) * (mean w.2.1 a d / par.m a)
          - mean w.2.2 a d)
        = (w.2.2 + g) b a d + (Real.exp (v * t) - 1) * mean (w.2.2 + g) a d
      have hm : mean (w.2.2 + g) a d = mean w.2.2 a d + g b a d := by
        simp only [mean, Pi.add_apply, sum_add_distrib]
        simp only [g, sum_const, card_univ, Fintype.card_fin, nsmul_eq_mul]
        rw [add_div, mul_div_cancel_left₀ _ hn]
      rw [hm]
      simp only [Pi.add_apply, g]
      linear_combination -((Real.exp (v * t) - Real.exp (-v * t)) / (2 * v)
        * (mean w.2.1 a d / par.m a)) * e0

theorem measurable_bzpP {hs : M3} (par : Par N) (pext : ℝ)
    (F bias : ℝ × Cfg nb N → FF nb N) (l : Lev)
    (hF : ∀ b a d, Measurable fun z => (F z).f b a d) (hFv : ∀ i j, Measurable fun z => (F z).vir i j)
    (hB : ∀ b a d, Measurable fun z => (bias z).f b a d)
    (hBv : ∀ i j, Measurable fun z => (bias z).vir i j) (t : ℝ) :
    Measurable fun w : ℝ × Cfg nb N × Cfg nb N =>
      bzpP par pext (F (w.1, w.2.2)) (bias (w.1, w.2.2)) l t (ofPhase hs (0, w)) := by
  have hp : Measurable fun z : ℝ × Cfg nb N × Cfg nb N => z.2.1 := by fun_prop
  have hx : Measurable fun z : ℝ × Cfg nb N × Cfg nb N => z.2.2 := by fun_prop
  have hzx : Measurable fun z : ℝ × Cfg nb N × Cfg nb N => (z.1, z.2.2) := by fun_prop
  have mp := fun a d => measurable_mean hp a d
  have mx := fun a d => measurable_mean hx a d
  have cx : ∀ b a d, Measurable fun z : ℝ × Cfg nb N × Cfg nb N => z.2.2 b a d := by
    intros; fun_prop
  have cF := fun b a d => (hF b a d).comp hzx
  have cFv := fun i j => (hFv i j).comp hzx
  have cB := fun b a d => (hB b a d).comp hzx
  have cBv := fun i j => (hBv i j).comp hzx
  simp only [Function.comp_def] at cF cFv cB cBv
  have cO : ∀ (q : Bool) (f : ℝ × Cfg nb N × Cfg nb N → ℝ), Measurable f →
      Measurable fun z => onlyIf q (f z) := by
    intro q f hf
    cases q
    · simp [onlyIf]
    · simpa [onlyIf] using hf
  have mfc : ∀ a d, Measurable fun z : ℝ × Cfg nb N × Cfg nb N => fcen (F (z.1, z.2.2)) a d := by
    intro a d
    simp only [fcen, mean]
    exact Measurable.div_const (Finset.measurable_sum _ fun b _ => cF b a d) _
  have mv : Measurable fun w : ℝ × Cfg nb N × Cfg nb N => vol (ofPhase hs ((0 : ℝ), w)).h := by
    simp only [vol, ofPhase]
    fun_prop
  have ms : ∀ i, Measurable fun w : ℝ × Cfg nb N × Cfg nb N =>
      stressMts par (F (w.1, w.2.2)) (bias (w.1, w.2.2)) l w.2.2 w.2.1
        (ofPhase hs ((0 : ℝ), w)).h i i := by
    intro i
    simp only [stressMts, kstressMts]
    refine Measurable.div (Measurable.add (Measurable.add (Measurable.add (Measurable.neg ?_) ?_) ?_) ?_) mv
    · refine Finset.measurable_sum _ fun b _ => Finset.measurable_sum _ fun a _ => ?_
      exact ((cx b a i).sub (mx a i)).mul ((cF b a i).add (cO _ _ (cB b a i)))
    · refine cO _ _ (Measurable.mul_const (Finset.measurable_sum _ fun a _ => ?_) _)
      exact (mp a i).mul ((mp a i).div_const _)
    · exact cFv i i
    · exact cO _ _ (cBv i i)
  have e1 : Measurable fun w : ℝ × Cfg nb N × Cfg nb N =>
      (0 : ℝ) + t * 3 * (vol (ofPhase hs ((0 : ℝ), w)).h
        * ((∑ i, stressMts par (F (w.1, w.2.2)) (bias (w.1, w.2.2)) l w.2.2 w.2.1
        (ofPhase hs ((0 : ℝ), w)).h i i) / 3)) :=
    ((mv.mul ((Finset.measurable_sum _ fun i _ => ms i).div_const 3)).const_mul _).const_add _
  have e2 : Measurable fun w : ℝ × Cfg nb N × Cfg nb N =>
      3 * t * (vol (ofPhase hs ((0 : ℝ), w)).h * (0 - nb * pext) + par.kT) :=
    ((mv.mul_const _).add_const _).const_mul _
  have e3 : Measurable fun w : ℝ × Cfg nb N × Cfg nb N =>
      ∑ a, ∑ d, mean w.2.1 a d * (fcen (F (w.1, w.2.2)) a d / par.m a) :=
    Finset.measurable_sum _ fun a _ => Finset.measurable_sum _ fun d _ =>
      (mp a d).mul ((mfc a d).div_const _)
  have e4 : Measurable fun w : ℝ × Cfg nb N × Cfg nb N =>
      ∑ a, ∑ d, fcen (F (w.1, w.2.2)) a d * (fcen (F (w.1, w.2.2)) a d / par.m a) :=
    Finset.measurable_sum _ fun a _ => Finset.measurable_sum _ fun d _ =>
      (mfc a d).mul ((mfc a d).div_const _)
  cases hl : l.inner
  · simp only [bzpP, hl]
    exact e1
  · simp only [bzpP, hl, if_true]
    exact (e1.add e2).add ((e3.add (e4.const_mul _)).mul_const _)

/-- **C72.** So does the momentum step, at every level and with any forces and virials that depend
measurably on positions and volume. -/
theorem iso_kick_preserves {hs : M3} (par : Par N) (pext : ℝ) (h1 : vol hs = 1)
    (F bias : ℝ × Cfg nb N → FF nb N) (l : Lev)
    (hF : ∀ b a d, Measurable fun z => (F z).f b a d) (hFv : ∀ i j, Measurable fun z => (F z).vir i j)
    (hB : ∀ b a d, Measurable fun z => (bias z).f b a d)
    (hBv : ∀ i j, Measurable fun z => (bias z).vir i j) (t : ℝ) :
    MeasurePreserving (fun z : Phase nb N => toPhase
      (isoPstep par pext (F (z.2.1, z.2.2.2)) (bias (z.2.1, z.2.2.2)) l t (ofPhase hs z))) := by
  -- the piston first, then the beads
  let G : ℝ × Cfg nb N × Cfg nb N → ℝ := fun w =>
    bzpP par pext (F (w.1, w.2.2)) (bias (w.1, w.2.2)) l t (ofPhase hs (0, w))
  have hG : Measurable G := by
    exact measurable_bzpP par pext F bias l hF hFv hB hBv t
  have hGpe : ∀ z : Phase nb N, bzpP par pext (F (z.2.1, z.2.2.2)) (bias (z.2.1, z.2.2.2)) l t
      (ofPhase hs z) = z.1 + G z.2 := by
    intro z
    simp only [G, bzpP, ofPhase]
    split <;> ring
  -- piston
  have hB1 : MeasurePreserving (fun z : Phase nb N => (z.1 + G z.2, z.2)) := by
    have hs1 : MeasurePreserving (fun w : (ℝ × Cfg nb N × Cfg nb N) × ℝ => (w.1, w.2 + G w.1))
        (volume.prod volume) (volume.prod volume) := by
      refine (MeasurePreserving.id _).skew_product (g := fun w y => y + G w) ?_
        (Filter.Eventually.of_forall fun w => ?_)
      · exact measurable_snd.add (hG.comp measurable_fst)
      · exact (measurePreserving_add_right volume (G w)).map_eq
    have sw := Measure.measurePreserving_swap (μ := (volume : Measure ℝ))
      (ν := (volume : Measure (ℝ × Cfg nb N × Cfg nb N)))
    have sw' := Measure.measurePreserving_swap (ν := (volume : Measure ℝ))
      (μ := (volume : Measure (ℝ × Cfg nb N × Cfg nb N)))
    exact (sw'.comp (hs1.comp sw))
  -- beads
  let K : ℝ → Cfg nb N × Cfg nb N → Cfg nb N × Cfg nb N := fun y w =>
    (w.1 + kick (F (y, w.2)) (bias (y, w.2)) l t 0, w.2)
  have hk0 : ∀ (A B : FF nb N) (p : Cfg nb N), kick A B l t p = p + kick A B l t 0 := by
    intro A B p
    funext b a d
    simp only [kick, Pi.add_apply, Pi.zero_apply]
    ring
  have hkm : Measurable fun z : ℝ × Cfg nb N => kick (F z) (bias z) l t 0 := by
    refine measurable_pi_lambda _ fun b => measurable_pi_lambda _ fun a =>
      measurable_pi_lambda _ fun d => ?_
    simp only [kick]
    refine Measurable.add (((hF b a d).mul_const t).const_add _) ?_
    cases (l.outer && l.hasBias)
    · simp [onlyIf]
    · simpa [onlyIf] using (hB b a d).mul_const t
  have hK : MeasurePreserving (fun z : ℝ × Cfg nb N × Cfg nb N => (z.1, K z.1 z.2)) := by
    refine (MeasurePreserving.id (volume : Measure ℝ)).skew_product (g := K) ?_
      (Filter.Eventually.of_forall fun y => ?_)
    · have e1 : Measurable fun z : ℝ × Cfg nb N × Cfg nb N => z.2.1 := by fun_prop
      have e2 : Measurable fun z : ℝ × Cfg nb N × Cfg nb N => (z.1, z.2.2) := by fun_prop
      exact (e1.add (hkm.comp e2)).prodMk (by fun_prop)
    · have hsh : MeasurePreserving (fun w : Cfg nb N × Cfg nb N =>
          (w.1, w.2 + kick (F (y, w.1)) (bias (y, w.1)) l t 0)) :=
        shear_preserving (fun x => kick (F (y, x)) (bias (y, x)) l t 0)
          (hkm.comp (by fun_prop : Measurable fun x : Cfg nb N => (y, x)))
      have sw := Measure.measurePreserving_swap (μ := (volume : Measure (Cfg nb N)))
        (ν := (volume : Measure (Cfg nb N)))
      exact (sw.comp (hsh.comp sw)).map_eq
  have hA := (MeasurePreserving.id (volume : Measure ℝ)).prod hK
  have := hA.comp hB1
  have e : (fun z : Phase nb N => toPhase
      (isoPstep par pext (F (z.2.1, z.2.2.2)) (bias (z.2.1, z.2.2.2)) l t (ofPhase hs z)))
      = Prod.map id (fun z : ℝ × Cfg nb N × Cfg nb N => (z.1, K z.1 z.2))
        ∘ fun z : Phase nb N => (z.1 + G z.2, z.2) := by
    funext z
    have hv := vol_ofPhase h1 z
    simp only [toPhase, isoPstep, hGpe, hv, Real.log_exp, Function.comp_apply, Prod.map, id, K]
    rw [hk0]
    rfl
  rw [e]
  exact this

/-- Not vacuous: a cubic cell of unit volume. -/
example : vol one3 = 1 := by simp [vol, one3]

end Verif.Baro
