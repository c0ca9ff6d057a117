import Verif.Phys.NmMass
import Mathlib.Analysis.SpecialFunctions.Trigonometric.Deriv
import Mathlib.Analysis.Calculus.Deriv.Add
import Mathlib.Analysis.Calculus.Deriv.Mul
import Mathlib.Analysis.SpecialFunctions.Trigonometric.Sinc
import Mathlib.Analysis.SpecificLimits.Basic
import Mathlib.Tactic.FieldSimp
import Mathlib.Tactic.Ring
import Mathlib.Tactic.NormNum
import Mathlib.Tactic.Linarith
import Mathlib.Tactic.LinearCombination

/-!
# C120: the internal modes move with the frequencies asked for

Small specification: a mode of mass `M` moves with the frequency `w` when its position and momentum
after the time `t` are `q cos (w t) + p / (M w) sin (w t)` and `p cos (w t) - M w q sin (w t)`.
-/

namespace Verif.NmMass

open Real

/-- `P` moves a mode of mass `M` for the time `t` with the frequency `w`. -/
def MovesWith (P : Prop.Mat2) (M w t : ℝ) : Prop :=
  ∀ p q : ℝ, P.act p q
    = (p * cos (w * t) - M * w * q * sin (w * t), q * cos (w * t) + p / (M * w) * sin (w * t))

/-- The frequencies of a path: positive for the internal modes, and none is below the first. -/
structure PathFreqs (n : ℕ) (ω : ℕ → ℝ) : Prop where
  pos : ∀ b, 1 ≤ b → b < n → 0 < ω b
  lowest : ∀ b, 1 ≤ b → b < n → ω 1 ≤ ω b

/-- The frequencies of the closed path are of this kind. -/
theorem closed_freqs {ωn : ℝ} (h : 0 < ωn) (n : ℕ) : PathFreqs n (omegak ωn n) := by
  have key : ∀ b : ℕ, 1 ≤ b → b < n → sin (1 * π / n) ≤ sin (b * π / n) ∧ 0 < sin (b * π / n) := by
    intro b h1 h2
    have hn : (0 : ℝ) < n := by exact_mod_cast (by omega : 0 < n)
    have hb1 : (1 : ℝ) ≤ b := by exact_mod_cast h1
    have hb2 : (b : ℝ) + 1 ≤ n := by exact_mod_cast h2
    have hpos : 0 < sin (b * π / n) := by
      apply sin_pos_of_pos_of_lt_pi
      · have := pi_pos; positivity
      · rw [div_lt_iff₀ hn]; nlinarith [pi_pos]
    refine ⟨?_, hpos⟩
    by_cases hle : (b : ℝ) * π / n ≤ π / 2
    · apply sin_le_sin_of_le_of_le_pi_div_two
      · have : 0 ≤ 1 * π / (n : ℝ) := by have := pi_pos; positivity
        linarith [pi_pos]
      · exact hle
      · apply div_le_div_of_nonneg_right _ hn.le
        nlinarith [pi_pos]
    · push Not at hle
      rw [← sin_pi_sub ((b : ℝ) * π / n)]
      apply sin_le_sin_of_le_of_le_pi_div_two
      · have : 0 ≤ 1 * π / (n : ℝ) := by have := pi_pos; positivity
        linarith [pi_pos]
      · linarith
      · rw [div_le_iff₀ hn, sub_mul, div_mul_cancel₀ _ hn.ne']
        nlinarith [pi_pos]
  refine ⟨fun b h1 h2 => ?_, fun b h1 h2 => ?_⟩
  · have := (key b h1 h2).2
    unfold omegak Nm.nmEva
    positivity
  · have := (key b h1 h2).1
    unfold omegak Nm.nmEva
    push_cast
    apply mul_le_mul_of_nonneg_left _ h.le
    linarith

/-- So are those of the open path. -/
theorem open_freqs {ωn : ℝ} (h : 0 < ωn) (n : ℕ) : PathFreqs n (oOmegak ωn n) := by
  have key : ∀ b : ℕ, 1 ≤ b → b < n →
      sin (1 * π / (2 * n)) ≤ sin (b * π / (2 * n)) ∧ 0 < sin (b * π / (2 * n)) := by
    intro b h1 h2
    have hn : (0 : ℝ) < n := by exact_mod_cast (by omega : 0 < n)
    have hb1 : (1 : ℝ) ≤ b := by exact_mod_cast h1
    have hb2 : (b : ℝ) + 1 ≤ n := by exact_mod_cast h2
    refine ⟨?_, ?_⟩
    · apply sin_le_sin_of_le_of_le_pi_div_two
      · have : 0 ≤ 1 * π / (2 * (n : ℝ)) := by have := pi_pos; positivity
        linarith [pi_pos]
      · rw [div_le_iff₀ (by positivity)]; nlinarith [pi_pos]
      · apply div_le_div_of_nonneg_right _ (by positivity)
        nlinarith [pi_pos]
    · apply sin_pos_of_pos_of_lt_pi
      · have := pi_pos; positivity
      · rw [div_lt_iff₀ (by positivity)]; nlinarith [pi_pos]
  refine ⟨fun b h1 h2 => ?_, fun b h1 h2 => ?_⟩
  · have := (key b h1 h2).2
    unfold oOmegak Nm.oNmEva
    positivity
  · have := (key b h1 h2).1
    unfold oOmegak Nm.oNmEva
    push_cast
    apply mul_le_mul_of_nonneg_left _ h.le
    linarith

variable {n : ℕ} {ω : ℕ → ℝ} {freqs : List ℝ} {fac : ℕ → ℝ}

/-- **C120, errors.**  Only a wrong number of frequencies is refused. -/
theorem nmm_error (n : ℕ) (style : Style) (freqs : List ℝ) (ω : ℕ → ℝ) :
    (∃ e, nmm n style freqs ω = .error e)
      ↔ (style = .manual ∧ freqs.length ≠ n - 1) ∨ (style = .paCmd ∧ freqs = [])
        ∨ (style = .wmaxCmd ∧ freqs.length < 2) := by
  cases style
  · simp [nmm]
  · by_cases h : freqs.length ≠ n - 1
    · simp [nmm, h]
    · simp only [nmm, h, if_false]
      simp
  · by_cases h : freqs.length = 0
    · simp [nmm, List.length_eq_zero_iff.1 h]
    · have h' : freqs ≠ [] := fun e => h (by rw [e]; rfl)
      simp only [nmm, h, if_false]
      simp [h']
  · by_cases h : freqs.length < 2
    · simp [nmm, h]
    · simp only [nmm, h, if_false]
      simp

/-- A mode with the factor `(ω / w)²` moves with the frequency `w` under the exact propagator. -/
theorem moves_of_factor {ωb w f m : ℝ} (hω : 0 < ωb) (hw : 0 < w) (hf : f = (ωb / w) ^ 2) (t : ℝ) :
    MovesWith (Prop.withMass (Prop.propPq .exact ωb f t) m) (m * f) w t := by
  have hs : √f = ωb / w := by rw [hf]; exact sqrt_sq (by positivity)
  have hx : ωb * t / √f = w * t := by rw [hs]; field_simp
  intro p q
  unfold Prop.Mat2.act Prop.withMass Prop.propPq
  simp only
  rw [hx, hs, hf]
  refine Prod.ext ?_ ?_
  · simp only
    field_simp
    ring
  · simp only
    by_cases hm : m = 0
    · subst hm; simp
    · field_simp
      ring

/-- **C120, manual.**  Each internal mode moves with the frequency given for it. -/
theorem manual_moves (hω : PathFreqs n ω) (h : nmm n .manual freqs ω = .ok fac) {b : ℕ} (hb : 1 ≤ b)
    (hn : b < n) {w : ℝ} (hw : freqs[b - 1]? = some w) (hpos : 0 < w) (m t : ℝ) :
    MovesWith (Prop.withMass (Prop.propPq .exact (ω b) (fac b) t) m) (dynm m fac b) w t := by
  refine moves_of_factor (hω.pos b hb hn) hpos ?_ t
  unfold nmm at h
  by_cases hl : freqs.length ≠ n - 1
  · rw [if_pos hl] at h
    exact (nomatch h)
  · simp only [hl, if_false] at h
    injection h with h
    subst h
    simp [hb, hn, hw]

/-- **C120, one frequency.**  All internal modes move with it. -/
theorem pacmd_moves (hω : PathFreqs n ω) {w : ℝ} {rest : List ℝ}
    (h : nmm n .paCmd (w :: rest) ω = .ok fac) {b : ℕ} (hb : 1 ≤ b) (hn : b < n) (hpos : 0 < w)
    (m t : ℝ) :
    MovesWith (Prop.withMass (Prop.propPq .exact (ω b) (fac b) t) m) (dynm m fac b) w t := by
  refine moves_of_factor (hω.pos b hb hn) hpos ?_ t
  simp only [nmm, List.length_cons, Nat.add_one_ne_zero, if_false] at h
  injection h with h
  subst h
  simp [hb, hn]

/-- **C120, plain.**  Without scaling the internal modes move with the frequencies of the path. -/
theorem rpmd_moves (hω : PathFreqs n ω) (h : nmm n .rpmd freqs ω = .ok fac) {b : ℕ} (hb : 1 ≤ b)
    (hn : b < n) (m t : ℝ) :
    MovesWith (Prop.withMass (Prop.propPq .exact (ω b) (fac b) t) m) m (ω b) t := by
  have hp := hω.pos b hb hn
  simp only [nmm] at h
  injection h with h
  subst h
  have := moves_of_factor (m := m) hp hp (f := 1) (by rw [div_self hp.ne']; norm_num) t
  rw [mul_one] at this
  exact this

/-- The factor chosen with `[wmax, wtarget]`. -/
theorem wmax_factor (hω : PathFreqs n ω) {wmax wt : ℝ} {rest : List ℝ}
    (h : nmm n .wmaxCmd (wmax :: wt :: rest) ω = .ok fac) {b : ℕ} (hb : 1 ≤ b) (hn : b < n)
    (hpos : 0 < wt) :
    fac b = (wmax ^ 2 + ω b ^ 2) / (wt ^ 2 * (1 + (wmax / ω 1) ^ 2)) := by
  have hp := hω.pos b hb hn
  have hl : ¬ (rest.length + 1 + 1 < 2) := by omega
  simp only [nmm, List.length_cons, hl, if_false] at h
  injection h with h
  subst h
  simp only [hb, hn, and_self, if_true]
  simp only [List.getD_cons_zero, List.getD_cons_succ]
  rw [one_div, inv_pow, sq_sqrt (by positivity), inv_div]

/-- **C120, two frequencies, free particle.**  The first internal mode moves with `wtarget`, and the
other internal modes with frequencies between this and `wtarget √(1 + (wmax / ω₁)²)`. -/
theorem wmax_moves (hω : PathFreqs n ω) {wmax wt : ℝ} {rest : List ℝ}
    (h : nmm n .wmaxCmd (wmax :: wt :: rest) ω = .ok fac) {b : ℕ} (hb : 1 ≤ b) (hn : b < n)
    (hpos : 0 < wt) :
    ∃ w, (∀ m t, MovesWith (Prop.withMass (Prop.propPq .exact (ω b) (fac b) t) m) (dynm m fac b) w t)
      ∧ (b = 1 → w = wt) ∧ wt ≤ w ∧ w ^ 2 ≤ wt ^ 2 * (1 + (wmax / ω 1) ^ 2) := by
  have hp := hω.pos b hb hn
  have h1 := hω.pos 1 le_rfl (by omega)
  have hlow := hω.lowest b hb hn
  have hf := wmax_factor hω h hb hn hpos
  have hfp : 0 < fac b := by rw [hf]; positivity
  have hsp : 0 < √(fac b) := sqrt_pos.2 hfp
  have hsq : (ω b / √(fac b)) ^ 2
      = wt ^ 2 * (ω b ^ 2 * (ω 1 ^ 2 + wmax ^ 2) / (ω 1 ^ 2 * (wmax ^ 2 + ω b ^ 2))) := by
    rw [div_pow, sq_sqrt hfp.le, hf]
    have : wmax ^ 2 + ω b ^ 2 ≠ 0 := by positivity
    field_simp
  refine ⟨ω b / √(fac b), fun m t => ?_, fun e => ?_, ?_, ?_⟩
  · refine moves_of_factor hp (div_pos hp hsp) ?_ t
    rw [div_div_eq_mul_div, mul_div_cancel_left₀ _ hp.ne', sq_sqrt hfp.le]
  · subst e
    have : (ω 1 / √(fac 1)) ^ 2 = wt ^ 2 := by
      rw [hsq]
      have : wmax ^ 2 + ω 1 ^ 2 ≠ 0 := by positivity
      have : ω 1 ^ 2 + wmax ^ 2 ≠ 0 := by positivity
      rw [add_comm (wmax ^ 2)]
      field_simp
    exact (sq_eq_sq₀ (div_pos hp hsp).le hpos.le).1 this
  · refine (sq_le_sq₀ hpos.le (div_pos hp hsp).le).1 ?_
    rw [hsq]
    refine le_mul_of_one_le_right (by positivity) ?_
    rw [one_le_div (by positivity)]
    have : ω 1 ^ 2 ≤ ω b ^ 2 := by gcongr
    nlinarith [mul_nonneg (sq_nonneg wmax) (sub_nonneg.2 this)]
  · rw [hsq]
    refine mul_le_mul_of_nonneg_left ?_ (by positivity)
    rw [div_le_iff₀ (by positivity)]
    have e : (1 + (wmax / ω 1) ^ 2) * (ω 1 ^ 2 * (wmax ^ 2 + ω b ^ 2))
        = (ω 1 ^ 2 + wmax ^ 2) * (wmax ^ 2 + ω b ^ 2) := by
      field_simp
    rw [e]
    nlinarith [mul_nonneg (sq_nonneg wmax) (by positivity : 0 ≤ ω 1 ^ 2 + wmax ^ 2)]

/-- **C120, two frequencies, in a harmonic well.**  In a well of frequency `wmax` all internal modes
move with one and the same frequency: these are solutions of Hamilton's equations for the mass
`m fac` and the springs of the path and of the well. -/
theorem wmax_coincide (hω : PathFreqs n ω) {wmax wt : ℝ} {rest : List ℝ}
    (h : nmm n .wmaxCmd (wmax :: wt :: rest) ω = .ok fac) (hpos : 0 < wt) :
    ∃ w : ℝ, 0 < w ∧ ∀ b, 1 ≤ b → b < n → ∀ m : ℝ, 0 < m → ∀ p q t : ℝ,
      let M := dynm m fac b
      let Q := fun t => q * cos (w * t) + p / (M * w) * sin (w * t)
      let P := fun t => p * cos (w * t) - M * w * q * sin (w * t)
      HasDerivAt Q (P t / M) t
        ∧ HasDerivAt P (-(m * ω b ^ 2 * Q t) - m * wmax ^ 2 * Q t) t ∧ Q 0 = q ∧ P 0 = p := by
  refine ⟨wt * √(1 + (wmax / ω 1) ^ 2), mul_pos hpos (sqrt_pos.2 (by positivity)), ?_⟩
  intro b hb hn m hm p q t
  have hp := hω.pos b hb hn
  have hf := wmax_factor hω h hb hn hpos
  have hfp : 0 < fac b := by rw [hf]; positivity
  have hw2 : (wt * √(1 + (wmax / ω 1) ^ 2)) ^ 2 = wt ^ 2 * (1 + (wmax / ω 1) ^ 2) := by
    rw [mul_pow, sq_sqrt (by positivity)]
  have hw : 0 < wt * √(1 + (wmax / ω 1) ^ 2) := mul_pos hpos (sqrt_pos.2 (by positivity))
  have key : fac b * (wt * √(1 + (wmax / ω 1) ^ 2)) ^ 2 = wmax ^ 2 + ω b ^ 2 := by
    rw [hw2, hf]
    exact div_mul_cancel₀ _ (by positivity)
  generalize wt * √(1 + (wmax / ω 1) ^ 2) = w at hw key
  dsimp only [dynm]
  have hx : HasDerivAt (fun t : ℝ => w * t) w t := by
    have := (hasDerivAt_id t).const_mul w
    simpa using this
  refine ⟨?_, ?_, by simp, by simp⟩
  · refine ((hx.cos.const_mul q).fun_add (hx.sin.const_mul (p / (m * fac b * w)))).congr_deriv ?_
    field_simp
    ring
  · refine ((hx.cos.const_mul p).fun_sub (hx.sin.const_mul (m * fac b * w * q))).congr_deriv ?_
    have e : ω b ^ 2 = fac b * w ^ 2 - wmax ^ 2 := by linarith
    rw [e]
    field_simp
    ring

/-- **C120, centroid.**  The centroid always has the physical mass. -/
theorem centroid_mass {style : Style} (h : nmm n style freqs ω = .ok fac) (m : ℝ) :
    dynm m fac 0 = m := by
  have : fac 0 = 1 := by
    cases style
    · simp only [nmm] at h
      injection h with h
      subst h; rfl
    · by_cases hl : freqs.length ≠ n - 1
      · simp only [nmm] at h
        rw [if_pos hl] at h
        exact (nomatch h)
      · simp only [nmm, hl, if_false] at h
        injection h with h
        subst h; simp
    · by_cases hl : freqs.length = 0
      · simp only [nmm, hl, if_true] at h
        exact (nomatch h)
      · simp only [nmm, hl, if_false] at h
        injection h with h
        subst h; simp
    · by_cases hl : freqs.length < 2
      · simp only [nmm, hl, if_true] at h
        exact (nomatch h)
      · simp only [nmm, hl, if_false] at h
        injection h with h
        subst h; simp
  unfold dynm
  rw [this, mul_one]

/-- **C120, frequencies handed to the thermostat.**  They are the frequencies the modes move with. -/
theorem handed_out (w m : ℝ) {b : ℕ} (hω : 0 < ω b) (hf : 0 < fac b) (hw : 0 < w)
    (h : ∀ t, MovesWith (Prop.withMass (Prop.propPq .exact (ω b) (fac b) t) m) (dynm m fac b) w t) :
    dynwk ω fac b = w := by
  have hs : 0 < √(fac b) := sqrt_pos.2 hf
  have hv : 0 < ω b / √(fac b) := div_pos hω hs
  -- the two cosines agree at all times; compare where the faster one reaches its minimum
  have hc : ∀ t, cos (ω b / √(fac b) * t) = cos (w * t) := by
    intro t
    have h2 := congrArg Prod.snd (h t 0 1)
    simp only [Prop.Mat2.act, Prop.withMass, Prop.propPq] at h2
    have e : ω b * t / √(fac b) = ω b / √(fac b) * t := by ring
    rw [e] at h2
    simpa using h2
  have hle : ∀ u v : ℝ, 0 < u → 0 < v → (∀ t, cos (u * t) = cos (v * t)) → v ≤ u := by
    intro u v hu hv hh
    by_contra hlt
    push Not at hlt
    have h1 := hh (π / v)
    rw [mul_div_cancel₀ _ hv.ne', cos_pi] at h1
    have : cos π < cos (u * (π / v)) := by
      apply cos_lt_cos_of_nonneg_of_le_pi
      · have := pi_pos; positivity
      · exact le_rfl
      · rw [mul_div_assoc', div_lt_iff₀ hv]; nlinarith [pi_pos]
    rw [cos_pi, h1] at this
    exact lt_irrefl _ this
  exact le_antisymm (hle w _ hw hv fun t => (hc t).symm) (hle _ w hv hw hc)

/-! ### The hypotheses can be met -/

example : PathFreqs 4 (omegak 1 4) := closed_freqs one_pos 4

/-- Four beads, the frequencies 5, 6, 7: the mode 2 moves with 6. -/
example : ∃ fac, nmm 4 .manual [5, 6, 7] (omegak 1 4) = .ok fac
    ∧ MovesWith (Prop.withMass (Prop.propPq .exact (omegak 1 4 2) (fac 2) 3) 1) (dynm 1 fac 2) 6 3 := by
  have hne : ¬ ([5, 6, 7] : List ℝ).length ≠ 4 - 1 := by simp
  obtain ⟨fac, hf⟩ : ∃ fac, nmm 4 .manual [5, 6, 7] (omegak 1 4) = .ok fac := by
    simp only [nmm, hne, if_false]
    exact ⟨_, rfl⟩
  exact ⟨fac, hf, manual_moves (closed_freqs one_pos 4) hf (b := 2) (by norm_num) (by norm_num)
    (by rfl) (by norm_num) 1 3⟩

example : ∃ fac, nmm 4 .wmaxCmd [5, 6] (oOmegak 1 4) = .ok fac
    ∧ ∃ w : ℝ, (∀ m t, MovesWith (Prop.withMass (Prop.propPq .exact (oOmegak 1 4 1) (fac 1) t) m)
        (dynm m fac 1) w t) ∧ w = 6 := by
  have hne : ¬ ([5, 6] : List ℝ).length < 2 := by simp
  obtain ⟨fac, hf⟩ : ∃ fac, nmm 4 .wmaxCmd [5, 6] (oOmegak 1 4) = .ok fac := by
    simp only [nmm, hne, if_false]
    exact ⟨_, rfl⟩
  obtain ⟨w, h1, h2, _⟩ := wmax_moves (open_freqs one_pos 4) hf (b := 1) le_rfl (by norm_num)
    (by norm_num)
  exact ⟨fac, hf, w, h1, h2 rfl⟩

/-! ### The bead frequency -/

/-- The force constant between beads is such that with more and more beads the internal modes of the
free path get the Matsubara frequencies `2 π k kB T / ħ`. -/
theorem matsubara (temp kb hbar : ℝ) (k : ℕ) :
    Filter.Tendsto (fun n : ℕ => omegak (omegan temp kb hbar n) n k) Filter.atTop
      (nhds (2 * π * k * (kb * temp / hbar))) := by
  have h1 : Filter.Tendsto (fun n : ℕ => (k : ℝ) * π / n) Filter.atTop (nhds 0) :=
    tendsto_const_div_atTop_nhds_zero_nat _
  have h2 := (Real.continuous_sinc.tendsto 0).comp h1
  rw [Real.sinc_zero] at h2
  have h3 := h2.const_mul (2 * π * k * (kb * temp / hbar))
  rw [mul_one] at h3
  refine h3.congr' ?_
  filter_upwards [Filter.eventually_gt_atTop 0] with n hn
  have hn' : (n : ℝ) ≠ 0 := by exact_mod_cast hn.ne'
  simp only [Function.comp, omegak, omegan, Nm.nmEva]
  rcases Nat.eq_zero_or_pos k with rfl | hk
  · simp
  · have hk' : (k : ℝ) ≠ 0 := by exact_mod_cast hk.ne'
    rw [Real.sinc_of_ne_zero (div_ne_zero (mul_ne_zero hk' pi_ne_zero) hn')]
    field_simp

/-- Those of the open path get the frequencies `π k kB T / ħ`, half of these. -/
theorem open_matsubara (temp kb hbar : ℝ) (k : ℕ) :
    Filter.Tendsto (fun n : ℕ => oOmegak (omegan temp kb hbar n) n k) Filter.atTop
      (nhds (π * k * (kb * temp / hbar))) := by
  have h1 : Filter.Tendsto (fun n : ℕ => (k : ℝ) * π / 2 / n) Filter.atTop (nhds 0) :=
    tendsto_const_div_atTop_nhds_zero_nat _
  have h2 := (Real.continuous_sinc.tendsto 0).comp h1
  rw [Real.sinc_zero] at h2
  have h3 := h2.const_mul (π * k * (kb * temp / hbar))
  rw [mul_one] at h3
  refine h3.congr' ?_
  filter_upwards [Filter.eventually_gt_atTop 0] with n hn
  have hn' : (n : ℝ) ≠ 0 := by exact_mod_cast hn.ne'
  simp only [Function.comp, oOmegak, omegan, Nm.oNmEva]
  rcases Nat.eq_zero_or_pos k with rfl | hk
  · simp
  · have hk' : (k : ℝ) ≠ 0 := by exact_mod_cast hk.ne'
    rw [Real.sinc_of_ne_zero (div_ne_zero (div_ne_zero (mul_ne_zero hk' pi_ne_zero) two_ne_zero) hn'),
      show (k : ℝ) * π / (2 * n) = k * π / 2 / n by rw [div_div]]
    field_simp

end Verif.NmMass
