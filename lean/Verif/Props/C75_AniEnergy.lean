import Verif.Props.C73_IsoEnergy
import Verif.Props.C74_AniBarostat

/-!
# C75: the conserved quantity with a flexible cell

The energy changes of the pieces of a step do not add up to zero: `ani_rate` gives what is left, and
`ani_not_conserved`, `ani_not_conserved_fixed` show that it is not zero.
-/

namespace Verif.Baro

open Finset

variable {nb N : ℕ}

/-- What the conserved quantity gains per unit of time: a term for each diagonal velocity, because
the momentum steps count the entries that are not held fixed in each row (`L`) while the energy
always counts three, two and one; and a term for each velocity above the diagonal, because the
kinetic part of the stress has no entries there, and because the virial of the beads' displacements
is taken with its two indices exchanged. -/
noncomputable def drift (par : Par N) (L : Fin 3 → ℝ) (v : M3) (f x p : Cfg nb N) : ℝ :=
  par.kT * (v 0 0 * (L 0 - 3) + v 1 1 * (L 1 - 2) + v 2 2 * (L 2 - 1))
    + ∑ i, ∑ j, if i < j then
        v i j * ((∑ b, ∑ a, ((x b a j - mean x a j) * f b a i - (x b a i - mean x a i) * f b a j))
          - nb * ∑ a, mean p a i * mean p a j / par.m a)
      else 0

/-- Entries of the velocity, one by one. -/
theorem sum33 (g : Fin 3 → Fin 3 → ℝ) : ∑ i, ∑ j, g i j = g 0 0 + g 0 1 + g 0 2 + (g 1 0 + g 1 1 + g 1 2)
    + (g 2 0 + g 2 1 + g 2 2) := by
  simp only [Fin.sum_univ_three]

/-- Upper triangular. -/
def Upper (a : M3) : Prop := ∀ i j, j < i → a i j = 0

theorem aniKin_eq (M : ℝ) (pe : M3) : aniKin M pe = (∑ i, ∑ j, pe i j ^ 2) / (2 * M) := by
  simp only [aniKin, trace3, mul3, tr3]
  rw [sum_comm]
  have : ∑ j, ∑ i, pe j i * pe j i = ∑ i, ∑ j, pe i j ^ 2 :=
    sum_congr rfl fun i _ => sum_congr rfl fun j _ => by ring
  rw [this]
  ring

/-- What a momentum step adds to the cell momentum per unit of time. -/
noncomputable def aniForce (par : Par N) (e : Ext) (hm : M3) (F bias : FF nb N) (l : Lev)
    (s : Ani nb N) : M3 := fun i j =>
  vol s.h * triu (stressMts par F bias l s.x s.p s.h) i j
    + onlyIf l.inner (vol s.h * triu (fun i j => -nb * piExt e s.h i j) i j
      + par.kT * (if i = j then lrow hm i else 0))

theorem ani_pstep_rate (par : Par N) (e : Ext) (hm : M3) (volc : Bool) (F bias : FF nb N)
    (l : Lev) (sp : Cfg nb N → ℝ) (U : Cfg nb N × M3 → ℝ) (s : Ani nb N)
    (hb : l.hasBias = true ∨ bias = FF.zero nb N) :
    HasDerivAt (fun t => aniE par e sp U (aniPstep par e hm volc F bias l t s))
      ((∑ b, ∑ a, ∑ d, s.p b a d * (F.f b a d + onlyIf l.outer (bias.f b a d)) / par.m a)
        + ∑ i, ∑ j, s.pe i j / par.M * aniForce par e hm F bias l s i j) 0 := by
  have hk := kin_kick par F bias l s.p
  have hb' : ∀ b a d, onlyIf (l.outer && l.hasBias) (bias.f b a d) = onlyIf l.outer (bias.f b a d) := by
    intro b a d
    rcases hb with h | h
    · rw [h, Bool.and_true]
    · simp [h, FF.zero, onlyIf]
  simp only [hb'] at hk
  have hpe : ∀ i j, HasDerivAt (fun t => aniP par e hm F bias l t s i j)
      (aniForce par e hm F bias l s i j) 0 ∧ aniP par e hm F bias l 0 s i j = s.pe i j := by
    intro i j
    have : ∃ c2 c3, ∀ t, aniP par e hm F bias l t s i j = s.pe i j
        + t * aniForce par e hm F bias l s i j + t ^ 2 * c2 + t ^ 3 * c3 := by
      refine ⟨onlyIf (l.inner && decide (i ≤ j)) (nb * ∑ a, fcen F a i / par.m a * mean s.p a j),
        onlyIf (l.inner && decide (i ≤ j)) (nb * (∑ a, fcen F a i / par.m a * fcen F a j) / 3),
        fun t => ?_⟩
      simp only [aniP, aniForce, triu]
      cases l.inner <;> by_cases hij : i ≤ j <;> simp [onlyIf, hij] <;> ring
    obtain ⟨c2, c3, h⟩ := this
    refine ⟨?_, by rw [h]; ring⟩
    rw [funext h]
    have d1 := ((hasDerivAt_id (0 : ℝ)).mul_const (aniForce par e hm F bias l s i j)).const_add
      (s.pe i j)
    have d2 := (hasDerivAt_pow 2 (0 : ℝ)).mul_const c2
    have d3 := (hasDerivAt_pow 3 (0 : ℝ)).mul_const c3
    refine ((d1.add d2).add d3).congr_deriv ?_
    norm_num
  have he : HasDerivAt (fun t => aniKin par.M (aniP par e hm F bias l t s))
      (∑ i, ∑ j, s.pe i j / par.M * aniForce par e hm F bias l s i j) 0 := by
    simp only [aniKin_eq]
    have : HasDerivAt (fun t => ∑ i, ∑ j, aniP par e hm F bias l t s i j ^ 2)
        (∑ i, ∑ j, 2 * s.pe i j * aniForce par e hm F bias l s i j) 0 := by
      refine HasDerivAt.fun_sum fun i _ => HasDerivAt.fun_sum fun j _ => ?_
      refine ((hpe i j).1.pow 2).congr_deriv ?_
      rw [(hpe i j).2]
      push_cast
      ring
    refine (this.div_const (2 * par.M)).congr_deriv ?_
    rw [sum_div]
    refine sum_congr rfl fun i _ => ?_
    rw [sum_div]
    refine sum_congr rfl fun j _ => ?_
    by_cases hM : par.M = 0
    · simp [hM]
    · field_simp
  have key : (fun t => aniE par e sp U (aniPstep par e hm volc F bias l t s))
      = fun t => kinE par (kick F bias l t s.p) + sp s.x + U (s.x, s.h)
        + (aniKin par.M (aniP par e hm F bias l t s)
          + (s.eth + extPot nb e s.h + aniJac par.kT s.h)) := by
    funext t
    simp only [aniE, aniPstep]
    ring
  rw [key]
  exact ((hk.add_const (sp s.x)).add_const (U (s.x, s.h))).add
    (he.add_const (s.eth + extPot nb e s.h + aniJac par.kT s.h))

/-- The external stress tensor is symmetric. -/
def ExtSym : Ext → Prop
  | .rgb st _ _ => ∀ i j, st i j = st j i
  | .mtk _ => True

theorem ext_rate (nb : ℕ) (e : Ext) (hsym : ExtSym e) (v : M3) (hvu : Upper v) {h : ℝ → M3}
    (hu : Upper (h 0)) (hV : vol (h 0) ≠ 0)
    (hh : ∀ i j, HasDerivAt (fun t => h t i j) (∑ k, v i k * h 0 k j) 0) :
    HasDerivAt (fun t => extPot nb e (h t))
      (nb * vol (h 0) * ∑ i, ∑ j, v i j * piExt e (h 0) i j) 0 := by
  have z10 := hvu 1 0 (by decide)
  have z20 := hvu 2 0 (by decide)
  have z21 := hvu 2 1 (by decide)
  cases e with
  | mtk pext =>
    have y10 := hu 1 0 (by decide)
    have y20 := hu 2 0 (by decide)
    have y21 := hu 2 1 (by decide)
    simp only [extPot, vol, piExt]
    refine (((((hh 0 0).mul (hh 1 1)).mul (hh 2 2)).mul_const pext).mul_const (nb : ℝ)).congr_deriv ?_
    simp [Fin.sum_univ_three, one3, z10, z20, z21, y10, y20, y21]
    ring
  | rgb st h0 ih0 =>
    simp only [extPot, piExt]
    have heps : ∀ i j, HasDerivAt (fun t => mul3 (h t) ih0 i j)
        (∑ k, v i k * mul3 (h 0) ih0 k j) 0 := by
      intro i j
      simp only [mul3]
      refine (HasDerivAt.fun_sum (u := univ) fun k _ => (hh i k).mul_const (ih0 k j)).congr_deriv ?_
      simp only [sum_mul, mul_sum]
      rw [sum_comm]
      exact sum_congr rfl fun k _ => sum_congr rfl fun l _ => by ring
    have hc : ∀ i j, vol (h 0) * (mul3 (mul3 (h 0) ih0) (mul3 st (tr3 (mul3 (h 0) ih0))) i j * vol h0
        / vol (h 0)) = mul3 (mul3 (h 0) ih0) (mul3 st (tr3 (mul3 (h 0) ih0))) i j * vol h0 := by
      intro i j
      field_simp
    have hrhs : nb * vol (h 0) * ∑ i, ∑ j, v i j * (mul3 (mul3 (h 0) ih0)
        (mul3 st (tr3 (mul3 (h 0) ih0))) i j * vol h0 / vol (h 0))
        = nb * ∑ i, ∑ j, v i j * (mul3 (mul3 (h 0) ih0)
        (mul3 st (tr3 (mul3 (h 0) ih0))) i j * vol h0) := by
      rw [mul_assoc]
      congr 1
      rw [mul_sum]
      refine sum_congr rfl fun i _ => ?_
      rw [mul_sum]
      refine sum_congr rfl fun j _ => ?_
      rw [mul_left_comm, hc]
    rw [hrhs]
    generalize hE : (fun t => mul3 (h t) ih0) = E
    have hE0 : mul3 (h 0) ih0 = E 0 := by rw [← hE]
    have hEt : ∀ t, mul3 (h t) ih0 = E t := fun t => by rw [← hE]
    simp only [hEt] at heps ⊢
    simp only [trace3, mul3, tr3]
    have hd : HasDerivAt (fun t => ∑ i, ∑ k, st i k * (1 / 2 * ((∑ l, E t l k * E t l i) - one3 k i)))
        (∑ i, ∑ k, st i k * (1 / 2 * (∑ l, ((∑ m, v l m * E 0 m k) * E 0 l i
          + E 0 l k * (∑ m, v l m * E 0 m i))))) 0 := by
      refine HasDerivAt.fun_sum fun i _ => HasDerivAt.fun_sum fun k _ => ?_
      refine HasDerivAt.const_mul _ (HasDerivAt.const_mul _ (HasDerivAt.sub_const _ ?_))
      exact HasDerivAt.fun_sum fun l _ => (heps l k).mul (heps l i)
    refine ((hd.const_mul (vol h0)).mul_const (nb : ℝ)).congr_deriv ?_
    have s01 := hsym 0 1
    have s02 := hsym 0 2
    have s12 := hsym 1 2
    simp only [Fin.sum_univ_three, s01, s02, s12]
    ring

theorem ani_qcstep_rate [NeZero nb] {n : ℕ} (par : Par N) (eig : M3 → Eig) (e : Ext)
    (hsym : ExtSym e) {F : Fin (n + 1) → FF nb N}
    {bias : FF nb N} {sp : Cfg nb N → ℝ} (hsp : SpringInv sp) {U : Cfg nb N × M3 → ℝ}
    {U'} (s : Ani nb N) (hU : Consistent U F bias s.x s.h U') (hh : Upper s.h) (hp : Upper s.pe)
    (h0 : 0 < s.h 0 0) (h1 : 0 < s.h 1 1) (h2 : 0 < s.h 2 2)
    (hd : DiagMoves fun i j => s.pe i j / par.M)
    (he : EigOk (fun i j => s.pe i j / par.M) (eig fun i j => s.pe i j / par.M)) :
    HasDerivAt (fun t => aniE par e sp U (aniQcstep par eig t s))
      (-(nb * ∑ i, ∑ j, s.pe i j / par.M * ∑ a, mean s.p a i * mean s.p a j / par.m a)
        + (-(∑ b, ∑ a, ∑ d, ((∑ l, (F l).f b a d) + bias.f b a d) * (mean s.p a d / par.m a))
          - ∑ i, ∑ j, s.pe i j / par.M * ((∑ l, (F l).vir i j) + bias.vir i j
            - ∑ b, ∑ a, (s.x b a j - mean s.x a j) * ((∑ l, (F l).f b a i) + bias.f b a i)))
        + (nb * vol s.h * (∑ i, ∑ j, s.pe i j / par.M * piExt e s.h i j)
          - par.kT * (3 * (s.pe 0 0 / par.M) + 2 * (s.pe 1 1 / par.M) + s.pe 2 2 / par.M))) 0 := by
  have hn : (nb : ℝ) ≠ 0 := Nat.cast_ne_zero.mpr (NeZero.ne nb)
  obtain ⟨hz, hfl, _, _⟩ := ani_step_exact_partial par eig s hd he
  have hvu : Upper fun i j => s.pe i j / par.M := fun i j hij => by simp [hp i j hij]
  obtain ⟨v, hv⟩ : ∃ v : M3, v = fun i j => s.pe i j / par.M := ⟨_, rfl⟩
  have hvij : ∀ i j, s.pe i j / par.M = v i j := fun i j => by rw [hv]
  rw [← hv] at hfl hvu
  simp only [hvij]
  -- derivative of the kinetic energy
  have hpd : ∀ b a i, HasDerivAt (fun t => (aniQcstep par eig t s).p b a i)
      (-∑ j, v i j * mean s.p a j) 0 := by
    intro b a i
    have e1 := hfl.mom 0 a i
    beta_reduce at e1
    rw [hz] at e1
    have : (fun t => (aniQcstep par eig t s).p b a i)
        = fun t => s.p b a i + (mean (aniQcstep par eig t s).p a i - mean s.p a i) := by
      funext t
      rw [ani_mean_p]
      rfl
    rw [this]
    exact (e1.sub_const _).const_add _
  have hkin : HasDerivAt (fun t => kinE par (aniQcstep par eig t s).p)
      (-(nb * ∑ i, ∑ j, v i j * ∑ a, mean s.p a i * mean s.p a j / par.m a)) 0 := by
    simp only [kinE]
    have : HasDerivAt (fun t => ∑ b, ∑ a, ∑ i, (aniQcstep par eig t s).p b a i ^ 2 / (2 * par.m a))
        (∑ b, ∑ a, ∑ i, s.p b a i * (-∑ j, v i j * mean s.p a j) / par.m a) 0 := by
      refine HasDerivAt.fun_sum fun b _ => HasDerivAt.fun_sum fun a _ =>
        HasDerivAt.fun_sum fun d _ => ?_
      refine (((hpd b a d).pow 2).div_const (2 * par.m a)).congr_deriv ?_
      rw [hz]
      push_cast
      by_cases hm : par.m a = 0
      · simp [hm]
      · field_simp
    refine this.congr_deriv ?_
    have e1 : ∀ a i, ∑ b, s.p b a i * (-∑ j, v i j * mean s.p a j) / par.m a
        = -(nb * ∑ j, v i j * (mean s.p a i * mean s.p a j / par.m a)) := by
      intro a i
      have hm : ∑ b, s.p b a i = nb * mean s.p a i := by simp only [mean]; field_simp
      rw [← sum_div, ← sum_mul, hm]
      have : ∑ j, v i j * (mean s.p a i * mean s.p a j / par.m a)
          = mean s.p a i / par.m a * ∑ j, v i j * mean s.p a j := by
        rw [mul_sum]
        exact sum_congr rfl fun j _ => by ring
      rw [this]
      ring
    rw [sum_comm]
    have e2 : ∀ a, ∑ b, ∑ i, s.p b a i * (-∑ j, v i j * mean s.p a j) / par.m a
        = ∑ i, -(nb * ∑ j, v i j * (mean s.p a i * mean s.p a j / par.m a)) := by
      intro a
      rw [sum_comm]
      exact sum_congr rfl fun i _ => e1 a i
    simp only [e2]
    rw [sum_comm, mul_sum, ← sum_neg_distrib]
    refine sum_congr rfl fun i _ => ?_
    rw [sum_neg_distrib, ← mul_sum, sum_comm]
    congr 2
    refine sum_congr rfl fun j _ => ?_
    rw [mul_sum]
  -- derivative of the potential
  have hx : HasDerivAt (fun t => (aniQcstep par eig t s).x)
      (fun _ a i => mean s.p a i / par.m a + ∑ j, v i j * mean s.x a j) 0 := by
    refine hasDerivAt_pi.mpr fun b => hasDerivAt_pi.mpr fun a => hasDerivAt_pi.mpr fun i => ?_
    have e1 := hfl.pos 0 a i
    beta_reduce at e1
    rw [hz] at e1
    have : (fun t => (aniQcstep par eig t s).x b a i)
        = fun t => s.x b a i + (mean (aniQcstep par eig t s).x a i - mean s.x a i) := by
      funext t
      rw [ani_mean_x]
      rfl
    rw [this]
    exact (e1.sub_const _).const_add _
  have hcell : ∀ i j, HasDerivAt (fun t => (aniQcstep par eig t s).h i j)
      (∑ k, v i k * s.h k j) 0 := by
    intro i j
    have e1 := hfl.cell 0 i j
    beta_reduce at e1
    rw [hz] at e1
    exact e1
  have hhd : HasDerivAt (fun t => (aniQcstep par eig t s).h) (mul3 v s.h) 0 :=
    hasDerivAt_pi.mpr fun i => hasDerivAt_pi.mpr fun j => hcell i j
  have hpot : HasDerivAt (fun t => U ((aniQcstep par eig t s).x, (aniQcstep par eig t s).h))
      (-(∑ b, ∑ a, ∑ d, ((∑ l, (F l).f b a d) + bias.f b a d) * (mean s.p a d / par.m a))
          - ∑ i, ∑ j, v i j * ((∑ l, (F l).vir i j) + bias.vir i j
            - ∑ b, ∑ a, (s.x b a j - mean s.x a j) * ((∑ l, (F l).f b a i) + bias.f b a i))) 0 := by
    have hU0 : HasFDerivAt U U' ((aniQcstep par eig 0 s).x, (aniQcstep par eig 0 s).h) := by
      rw [hz]; exact hU.deriv
    have h2 := hU0.comp_hasDerivAt (0 : ℝ) (HasDerivAt.prodMk hx hhd)
    refine h2.congr_deriv ?_
    have hs : ((fun _ a i => mean s.p a i / par.m a + ∑ j, v i j * mean s.x a j : Cfg nb N),
        mul3 v s.h)
        = (fun b a i => ∑ j, v i j * s.x b a j, mul3 v s.h)
          + ((fun b a i => mean s.p a i / par.m a
              - ∑ j, v i j * (s.x b a j - mean s.x a j) : Cfg nb N), (0 : M3)) := by
      refine Prod.ext ?_ ?_
      · funext b a i
        simp only [Prod.fst_add, Pi.add_apply, mul_sub, sum_sub_distrib]
        ring
      · simp
    rw [hs, map_add, hU.force, hU.virial _ hvu]
    obtain ⟨g, hg⟩ : ∃ g : Cfg nb N, ∀ b a d, (∑ l, (F l).f b a d) + bias.f b a d = g b a d :=
      ⟨_, fun _ _ _ => rfl⟩
    simp only [hg]
    have e2 : ∑ b, ∑ a, ∑ i, g b a i * (mean s.p a i / par.m a
          - ∑ j, v i j * (s.x b a j - mean s.x a j))
        = (∑ b, ∑ a, ∑ i, g b a i * (mean s.p a i / par.m a))
          - ∑ i, ∑ j, v i j * ∑ b, ∑ a, (s.x b a j - mean s.x a j) * g b a i := by
      have : ∀ i j, v i j * ∑ b, ∑ a, (s.x b a j - mean s.x a j) * g b a i
          = ∑ b, ∑ a, g b a i * (v i j * (s.x b a j - mean s.x a j)) := by
        intro i j
        rw [mul_sum]
        refine sum_congr rfl fun b _ => ?_
        rw [mul_sum]
        exact sum_congr rfl fun a _ => by ring
      have e3 : ∀ i, ∑ j, v i j * ∑ b, ∑ a, (s.x b a j - mean s.x a j) * g b a i
          = ∑ b, ∑ a, g b a i * ∑ j, v i j * (s.x b a j - mean s.x a j) := by
        intro i
        rw [sum_congr rfl fun j _ => this i j, sum_comm]
        refine sum_congr rfl fun b _ => ?_
        rw [sum_comm]
        refine sum_congr rfl fun a _ => ?_
        rw [mul_sum]
      have e4 : ∑ i, ∑ j, v i j * ∑ b, ∑ a, (s.x b a j - mean s.x a j) * g b a i
          = ∑ b, ∑ a, ∑ i, g b a i * ∑ j, v i j * (s.x b a j - mean s.x a j) := by
        rw [sum_congr rfl fun i _ => e3 i, sum_comm]
        refine sum_congr rfl fun b _ => ?_
        rw [sum_comm]
      rw [e4, ← sum_sub_distrib]
      refine sum_congr rfl fun b _ => ?_
      rw [← sum_sub_distrib]
      refine sum_congr rfl fun a _ => ?_
      rw [← sum_sub_distrib]
      exact sum_congr rfl fun i _ => by ring
    rw [e2]
    simp only [mul_sub, sum_sub_distrib]
    ring
  -- derivative of the cell terms
  have hV : vol s.h ≠ 0 := mul_ne_zero (mul_ne_zero h0.ne' h1.ne') h2.ne'
  have hext : HasDerivAt (fun t => extPot nb e (aniQcstep par eig t s).h)
      (nb * vol s.h * ∑ i, ∑ j, v i j * piExt e s.h i j) 0 := by
    have := ext_rate nb e hsym v hvu (h := fun t => (aniQcstep par eig t s).h) (by
      rw [hz]; exact hh) (by rw [hz]; exact hV) (by rw [hz]; exact hcell)
    rw [hz] at this
    exact this
  have hdiag : ∀ i, 0 < s.h i i → HasDerivAt (fun t => Real.log ((aniQcstep par eig t s).h i i))
      (v i i) 0 := by
    intro i hi
    have e1 := (hcell i i).log (by rw [hz]; exact hi.ne')
    refine e1.congr_deriv ?_
    rw [hz]
    have : ∑ k, v i k * s.h k i = v i i * s.h i i := by
      refine sum_eq_single i (fun k _ hk => ?_) (by simp)
      rcases lt_or_gt_of_ne hk with hlt | hlt
      · rw [hvu i k hlt, zero_mul]
      · rw [hh k i hlt, mul_zero]
    rw [this, mul_div_assoc, div_self hi.ne', mul_one]
  have hjac : HasDerivAt (fun t => aniJac par.kT (aniQcstep par eig t s).h)
      (-(par.kT * (3 * v 0 0 + 2 * v 1 1 + v 2 2))) 0 := by
    simp only [aniJac]
    refine ((((hdiag 0 h0).const_mul 3).add ((hdiag 1 h1).const_mul 2)).add
      ((hdiag 2 h2).const_mul 1)).const_mul (-1 * par.kT) |>.congr_deriv ?_
    ring
  have hspc : ∀ t, sp (aniQcstep par eig t s).x = sp s.x := fun t => hsp _ _
  have hpec : ∀ t, (aniQcstep par eig t s).pe = s.pe := fun _ => rfl
  have hetc : ∀ t, (aniQcstep par eig t s).eth = s.eth := fun _ => rfl
  simp only [aniE, hspc, hpec, hetc]
  refine (((hkin.add_const (sp s.x)).add hpot).add
    ((hext.const_add (s.eth + aniKin par.M s.pe)).add hjac)).congr_deriv ?_
  ring

/-- What happens to the conserved quantity when the cell is flexible: the energy changes of the
pieces of a step add up to `drift`. -/
theorem ani_rate [NeZero nb] {n : ℕ} (par : Par N) (eig : M3 → Eig) (e : Ext) (hsym : ExtSym e)
    (hm : M3) (volc : Bool) (F : Fin (n + 1) → FF nb N) (bias : FF nb N) (hasBias : Bool)
    {sp : Cfg nb N → ℝ} (hsp : SpringInv sp) {U : Cfg nb N × M3 → ℝ}
    {U'} (s : Ani nb N) (hU : Consistent U F bias s.x s.h U') (hh : Upper s.h) (hp : Upper s.pe)
    (h0 : 0 < s.h 0 0) (h1 : 0 < s.h 1 1) (h2 : 0 < s.h 2 2)
    (hd : DiagMoves fun i j => s.pe i j / par.M)
    (he : EigOk (fun i j => s.pe i j / par.M) (eig fun i j => s.pe i j / par.M))
    (hb : hasBias = true ∨ bias = FF.zero nb N)
    {cx cp : ℝ → Cfg nb N} (hc : Internal par sp s.x s.p cx cp) :
    HasDerivAt (fun t =>
      (∑ l, aniE par e sp U (aniPstep par e hm volc (F l) bias (lev hasBias l) t s))
        + aniE par e sp U (aniQcstep par eig t s)
        + aniE par e sp U { s with x := cx t, p := cp t })
      (drift par (lrow hm) (fun i j => s.pe i j / par.M)
        (fun b a d => (∑ l, (F l).f b a d) + bias.f b a d) s.x s.p) 0 := by
  have r1 := HasDerivAt.fun_sum (u := univ) fun (l : Fin (n + 1)) _ =>
    ani_pstep_rate par e hm volc (F l) bias (lev hasBias l) sp U s hb
  have r2 := ani_qcstep_rate par eig e hsym hsp s hU hh hp h0 h1 h2 hd he
  have r3 := (pot_internal hU hc).add_const
    (s.eth + aniKin par.M s.pe + extPot nb e s.h + aniJac par.kT s.h)
  refine ((r1.add r2).add r3).congr_deriv ?_
  have hV : vol s.h ≠ 0 := mul_ne_zero (mul_ne_zero h0.ne' h1.ne') h2.ne'
  have ho : ∀ y : ℝ, ∑ l : Fin (n + 1), onlyIf (lev hasBias l).outer y = y := by
    intro y
    simp [onlyIf, lev]
  have hi : ∀ y : ℝ, ∑ l : Fin (n + 1), onlyIf (lev hasBias l).inner y = y := by
    intro y
    simp [onlyIf, lev]
  have hk : ∑ l, ∑ b, ∑ a, ∑ d, s.p b a d
        * ((F l).f b a d + onlyIf (lev hasBias l).outer (bias.f b a d)) / par.m a
      = ∑ b, ∑ a, ∑ d, ((∑ l, (F l).f b a d) + bias.f b a d) * (s.p b a d / par.m a) := by
    rw [sum_comm]
    refine sum_congr rfl fun b _ => ?_
    rw [sum_comm]
    refine sum_congr rfl fun a _ => ?_
    rw [sum_comm]
    refine sum_congr rfl fun d _ => ?_
    rw [← sum_div, ← mul_sum, sum_add_distrib, ho]
    ring
  have hsplit : ∑ b, ∑ a, ∑ d, ((∑ l, (F l).f b a d) + bias.f b a d)
        * ((s.p b a d - mean s.p a d) / par.m a)
      = (∑ b, ∑ a, ∑ d, ((∑ l, (F l).f b a d) + bias.f b a d) * (s.p b a d / par.m a))
        - ∑ b, ∑ a, ∑ d, ((∑ l, (F l).f b a d) + bias.f b a d) * (mean s.p a d / par.m a) := by
    simp only [← sum_sub_distrib]
    refine sum_congr rfl fun b _ => sum_congr rfl fun a _ => sum_congr rfl fun d _ => ?_
    ring
  -- the force on the cell, summed over the levels
  have hforce : ∀ i j, i ≤ j → ∑ l, aniForce par e hm (F l) bias (lev hasBias l) s i j
      = (∑ l, (F l).vir i j) + bias.vir i j
        - (∑ b, ∑ a, (s.x b a i - mean s.x a i) * ((∑ l, (F l).f b a j) + bias.f b a j))
        + (if i = j then nb * ∑ a, mean s.p a i * mean s.p a j / par.m a else 0)
        - nb * vol s.h * piExt e s.h i j + par.kT * (if i = j then lrow hm i else 0) := by
    intro i j hij
    simp only [aniForce, triu, if_pos hij, sum_add_distrib, hi]
    have e1 : ∀ l, vol s.h * stressMts par (F l) bias (lev hasBias l) s.x s.p s.h i j
        = kstressMts par (F l) bias (lev hasBias l) s.x s.p i j + (F l).vir i j
          + onlyIf (lev hasBias l).outer (bias.vir i j) := by
      intro l
      simp only [stressMts]
      field_simp
    have e2 : ∑ l, kstressMts par (F l) bias (lev hasBias l) s.x s.p i j
        = -(∑ b, ∑ a, (s.x b a i - mean s.x a i) * ((∑ l, (F l).f b a j) + bias.f b a j))
          + (if i = j then nb * ∑ a, mean s.p a i * mean s.p a j / par.m a else 0) := by
      simp only [kstressMts, sum_add_distrib, sum_neg_distrib]
      congr 2
      · rw [sum_comm]
        refine sum_congr rfl fun b _ => ?_
        rw [sum_comm]
        refine sum_congr rfl fun a _ => ?_
        rw [← mul_sum, sum_add_distrib, ho]
      · have : ∀ l : Fin (n + 1), onlyIf ((lev hasBias l).inner && i == j)
            ((∑ a, mean s.p a i * (mean s.p a i / par.m a)) * nb)
            = onlyIf (lev hasBias l).inner
              (if i = j then nb * ∑ a, mean s.p a i * mean s.p a j / par.m a else 0) := by
          intro l
          by_cases hij : i = j
          · subst hij
            have : (∑ a, mean s.p a i * (mean s.p a i / par.m a)) * nb
                = nb * ∑ a, mean s.p a i * mean s.p a i / par.m a := by
              rw [mul_comm]
              congr 1
              exact sum_congr rfl fun a _ => by ring
            simp [this]
          · simp [onlyIf, hij]
        simp only [this, hi]
    simp only [e1, sum_add_distrib, ho]
    rw [e2]
    ring
  have hlow : ∀ i j, j < i → s.pe i j / par.M = 0 := fun i j hij => by rw [hp i j hij, zero_div]
  rw [sum_add_distrib, hk, hsplit]
  have hsum : ∑ l, ∑ i, ∑ j, s.pe i j / par.M * aniForce par e hm (F l) bias (lev hasBias l) s i j
      = ∑ i, ∑ j, s.pe i j / par.M * ∑ l, aniForce par e hm (F l) bias (lev hasBias l) s i j := by
    rw [sum_comm]
    refine sum_congr rfl fun i _ => ?_
    rw [sum_comm]
    refine sum_congr rfl fun j _ => ?_
    rw [mul_sum]
  rw [hsum]
  obtain ⟨g, hg⟩ : ∃ g : Cfg nb N, ∀ b a d, (∑ l, (F l).f b a d) + bias.f b a d = g b a d :=
    ⟨_, fun _ _ _ => rfl⟩
  obtain ⟨w, hw⟩ : ∃ w : M3, ∀ i j, (∑ l, (F l).vir i j) + bias.vir i j = w i j :=
    ⟨_, fun _ _ => rfl⟩
  simp only [hg, hw] at hforce ⊢
  simp only [drift]
  simp only [sum33]
  rw [hlow 1 0 (by decide), hlow 2 0 (by decide), hlow 2 1 (by decide)]
  rw [hforce 0 0 (by decide), hforce 0 1 (by decide), hforce 0 2 (by decide),
    hforce 1 1 (by decide), hforce 1 2 (by decide), hforce 2 2 (by decide)]
  simp only [sum_sub_distrib]
  simp
  ring

theorem lrow_free (i : Fin 3) : lrow (mask []) i = 3 - i.val := by
  simp only [lrow, Fin.sum_univ_three]
  fin_cases i <;> simp [mask] <;> norm_num

/-- **C75, what does hold.** No entry of the cell is held fixed, and at the moment the cell is only
moving along its diagonal. -/
theorem ani_conserved_partial [NeZero nb] {n : ℕ} (par : Par N) (eig : M3 → Eig) (e : Ext)
    (hsym : ExtSym e) (F : Fin (n + 1) → FF nb N) (bias : FF nb N) (hasBias : Bool)
    {sp : Cfg nb N → ℝ} (hsp : SpringInv sp) {U : Cfg nb N × M3 → ℝ}
    {U'} (s : Ani nb N) (hU : Consistent U F bias s.x s.h U') (hh : Upper s.h)
    (hdiag : ∀ i j, i ≠ j → s.pe i j = 0)
    (h0 : 0 < s.h 0 0) (h1 : 0 < s.h 1 1) (h2 : 0 < s.h 2 2)
    (hd : DiagMoves fun i j => s.pe i j / par.M)
    (he : EigOk (fun i j => s.pe i j / par.M) (eig fun i j => s.pe i j / par.M))
    (hb : hasBias = true ∨ bias = FF.zero nb N)
    {cx cp : ℝ → Cfg nb N} (hc : Internal par sp s.x s.p cx cp) :
    HasDerivAt (fun t =>
      (∑ l, aniE par e sp U (aniPstep par e (mask []) false (F l) bias (lev hasBias l) t s))
        + aniE par e sp U (aniQcstep par eig t s)
        + aniE par e sp U { s with x := cx t, p := cp t }) 0 0 := by
  have := ani_rate par eig e hsym (mask []) false F bias hasBias hsp s hU hh
    (fun i j hij => hdiag i j (ne_of_gt hij)) h0 h1 h2 hd he hb hc
  refine this.congr_deriv ?_
  simp only [drift, lrow_free]
  have : ∀ i j : Fin 3, (if i < j then s.pe i j / par.M * ((∑ b, ∑ a,
      ((s.x b a j - mean s.x a j) * ((∑ l, (F l).f b a i) + bias.f b a i)
        - (s.x b a i - mean s.x a i) * ((∑ l, (F l).f b a j) + bias.f b a j)))
      - nb * ∑ a, mean s.p a i * mean s.p a j / par.m a) else 0) = 0 := by
    intro i j
    split
    · rename_i hij
      rw [hdiag i j (ne_of_lt hij), zero_div, zero_mul]
    · rfl
  simp only [this, sum_const_zero]
  simp
  right
  ring

/-- Not vacuous: the two beads in a harmonic well of C73, in a cell that grows along one direction. -/
example : HasDerivAt (fun t =>
      (∑ l : Fin 1, aniE ⟨fun _ => 2, 1, 1⟩ (.mtk 7) (fun _ => 0) wellU
        (aniPstep ⟨fun _ => 2, 1, 1⟩ (.mtk 7) (mask []) false (wellF wellS.x) (FF.zero 2 1)
          (lev true l) t ⟨wellS.x, fun _ _ d => d.val, one3, fun i j => if i = 0 ∧ j = 0 then 1 else 0, 0⟩))
        + aniE ⟨fun _ => 2, 1, 1⟩ (.mtk 7) (fun _ => 0) wellU (aniQcstep ⟨fun _ => 2, 1, 1⟩
          (fun _ => ⟨one3, one3, fun k => if k = 0 then 1 else 0⟩) t
          ⟨wellS.x, fun _ _ d => d.val, one3, fun i j => if i = 0 ∧ j = 0 then 1 else 0, 0⟩)
        + aniE ⟨fun _ => 2, 1, 1⟩ (.mtk 7) (fun _ => 0) wellU
          ⟨wellS.x, fun _ _ d => d.val, one3, fun i j => if i = 0 ∧ j = 0 then 1 else 0, 0⟩) 0 0 := by
  have hv : (fun i j : Fin 3 => (if i = 0 ∧ j = 0 then (1 : ℝ) else 0) / 1)
      = fun i j => if i = 0 ∧ j = 0 then 1 else 0 := by
    funext i j; simp
  refine ani_conserved_partial (n := 0) ⟨fun _ => 2, 1, 1⟩
    (fun _ => ⟨one3, one3, fun k => if k = 0 then 1 else 0⟩) (.mtk 7) trivial
    (fun _ => wellF wellS.x) (FF.zero 2 1) true (sp := fun _ => 0) (fun _ _ => rfl)
    ⟨wellS.x, fun _ _ d => d.val, one3, fun i j => if i = 0 ∧ j = 0 then 1 else 0, 0⟩
    (well_consistent wellS.x one3) (fun i j hij => by simp [one3, ne_of_gt hij])
    (fun i j hij => ?_) (by simp [one3]) (by simp [one3]) (by simp [one3])
    ?_ ?_ (Or.inl rfl) (cx := fun _ => wellS.x) (cp := fun _ _ _ d => d.val) ⟨rfl, ?_, fun _ => rfl⟩
  · have : ¬(i = 0 ∧ j = 0) := fun h => hij (h.1.trans h.2.symm)
    simp [this]
  · simp only [hv]
    intro h
    simpa using h.1
  · simp only [hv]
    refine ⟨fun i j => ?_, fun i j => ?_⟩
    · simp [mul3, one3]
    · fin_cases i <;> fin_cases j <;> simp [one3]
  · have : (fun b a d => ((d.val : ℝ) - mean (fun (_ : Fin 2) (_ : Fin 1) (d : Fin 3) => (d.val : ℝ)) a d)
        / 2 : Cfg 2 1) = 0 := by
      funext b a d
      simp [mean]
    rw [this]
    exact hasDerivAt_const _ _

/-! ## Counterexamples: a particle of an ideal gas -/

/-- One classical particle in a cubic cell, no forces at all. -/
noncomputable def gasS (p : Fin 3 → ℝ) (pe : M3) : Ani 1 1 :=
  ⟨fun _ _ _ => 0, fun _ _ d => p d, one3, pe, 0⟩

theorem gas_consistent (x : Cfg 1 1) (h : M3) :
    Consistent (n := 0) (fun _ => 0) (fun _ => FF.zero 1 1) (FF.zero 1 1) x h 0 where
  deriv := hasFDerivAt_const _ _
  force := by intro dx; simp [FF.zero]
  virial := by intro e _; simp [FF.zero]

theorem gas_internal (p : Fin 3 → ℝ) (par : Par 1) (pe : M3) :
    Internal par (fun _ => 0) (gasS p pe).x (gasS p pe).p (fun _ => (gasS p pe).x)
      (fun _ => (gasS p pe).p) where
  start := rfl
  vel := by
    have : (fun b a d => ((gasS p pe).p b a d - mean (gasS p pe).p a d) / par.m a : Cfg 1 1) = 0 := by
      funext b a d
      simp [mean, gasS]
    rw [this]
    exact hasDerivAt_const _ _
  ener := fun _ => rfl

/-- The energy changes of the pieces of a step for the ideal gas particle. -/
noncomputable def gasChange (par : Par 1) (eig : M3 → Eig) (pext : ℝ) (hm : M3) (s : Ani 1 1)
    (t : ℝ) : ℝ :=
  (∑ l : Fin 1, aniE par (.mtk pext) (fun _ => 0) (fun _ => 0)
      (aniPstep par (.mtk pext) hm false (FF.zero 1 1) (FF.zero 1 1) (lev true l) t s))
    + aniE par (.mtk pext) (fun _ => 0) (fun _ => 0) (aniQcstep par eig t s)
    + aniE par (.mtk pext) (fun _ => 0) (fun _ => 0) { s with x := s.x, p := s.p }

/-- Sheared cell: the velocity has a diagonal entry and one above the diagonal. -/
def shearV : M3 := fun i j => if i = 0 ∧ (j = 0 ∨ j = 1) then 1 else 0

/-- Its eigendecomposition. -/
def shearEig : Eig :=
  ⟨fun i j => if i = j then 1 else if i = 0 ∧ j = 1 then -1 else 0,
   fun i j => if i = j then 1 else if i = 0 ∧ j = 1 then 1 else 0,
   fun k => if k = 0 then 1 else 0⟩

/-- **Disagreement.** The conserved quantity of a flexible cell is not conserved: the kinetic part
of the internal stress lacks its entries above the diagonal, although the momenta of the atoms are
turned by those entries of the cell velocity. Here one particle without forces moves along the
diagonal of a plane of a cell that is being sheared in that plane. -/
theorem ani_not_conserved :
    ¬ HasDerivAt (gasChange ⟨fun _ => 1, 1, 1⟩ (fun _ => shearEig) 1 (mask [])
      (gasS (fun d => if d = 2 then 0 else 1) shearV)) 0 0 := by
  intro h
  have hv : (fun i j => (gasS (fun d => if d = 2 then 0 else 1) shearV).pe i j
      / (⟨fun _ => 1, 1, 1⟩ : Par 1).M) = shearV := by
    funext i j; simp [gasS]
  have := ani_rate (nb := 1) (N := 1) (n := 0) ⟨fun _ => 1, 1, 1⟩ (fun _ => shearEig) (.mtk 1) trivial
    (mask []) false (fun _ => FF.zero 1 1) (FF.zero 1 1) true (sp := fun _ => 0) (fun _ _ => rfl)
    (U := fun _ => 0) (gasS (fun d => if d = 2 then 0 else 1) shearV)
    (gas_consistent _ _) (fun i j hij => by simp [gasS, one3, ne_of_gt hij])
    (fun i j hij => by
      have hi : i ≠ 0 := fun h => by subst h; exact absurd hij (by simp)
      simp [gasS, shearV, hi])
    (by simp [gasS, one3]) (by simp [gasS, one3]) (by simp [gasS, one3])
    (by rw [hv]; intro h; simpa [shearV] using h.1)
    (by
      rw [hv]
      refine ⟨fun i j => ?_, fun i j => ?_⟩
      · fin_cases i <;> fin_cases j <;> simp [mul3, one3, shearEig, Fin.sum_univ_three]
      · fin_cases i <;> fin_cases j <;> simp [shearEig, shearV, Fin.sum_univ_three])
    (Or.inl rfl) (gas_internal _ _ _)
  have hu := this.unique h
  rw [hv] at hu
  simp [drift, lrow_free, shearV, sum33, gasS, mean, FF.zero] at hu

/-- **Disagreement.** Nor is it when the angles of the cell are held fixed: the momentum steps then
count one free entry in each row, and the energy still three, two and one. Here a particle at rest
in a cell that grows in one direction. -/
theorem ani_not_conserved_fixed :
    ¬ HasDerivAt (gasChange ⟨fun _ => 1, 1, 1⟩
      (fun _ => ⟨one3, one3, fun k => if k = 0 then 1 else 0⟩) 1 (mask [.offdiagonal])
      (gasS (fun _ => 0) (fun i j => if i = 0 ∧ j = 0 then 1 else 0))) 0 0 := by
  intro h
  have hv : (fun i j => (gasS (fun _ => 0) (fun i j => if i = 0 ∧ j = 0 then 1 else 0)).pe i j
      / (⟨fun _ => 1, 1, 1⟩ : Par 1).M) = fun i j => if i = 0 ∧ j = 0 then 1 else 0 := by
    funext i j; simp [gasS]
  have := ani_rate (nb := 1) (N := 1) (n := 0) ⟨fun _ => 1, 1, 1⟩
    (fun _ => ⟨one3, one3, fun k => if k = 0 then 1 else 0⟩) (.mtk 1) trivial
    (mask [.offdiagonal]) false (fun _ => FF.zero 1 1) (FF.zero 1 1) true (sp := fun _ => 0)
    (fun _ _ => rfl) (U := fun _ => 0)
    (gasS (fun _ => 0) (fun i j => if i = 0 ∧ j = 0 then 1 else 0))
    (gas_consistent _ _) (fun i j hij => by simp [gasS, one3, ne_of_gt hij])
    (fun i j hij => by
      have hi : i ≠ 0 := fun h => by subst h; exact absurd hij (by simp)
      simp [gasS, hi])
    (by simp [gasS, one3]) (by simp [gasS, one3]) (by simp [gasS, one3])
    (by rw [hv]; intro h; simpa using h.1)
    (by
      rw [hv]
      refine ⟨fun i j => ?_, fun i j => ?_⟩
      · simp [mul3, one3]
      · fin_cases i <;> fin_cases j <;> simp [one3])
    (Or.inl rfl) (gas_internal _ _ _)
  have hu := this.unique h
  rw [hv] at hu
  simp [drift, gasS, mean, FF.zero, lrow, mask, Fix.hits, Fin.sum_univ_three] at hu
  norm_num at hu

end Verif.Baro
