/-
C126: the nudged elastic band ends on a path of minimum energy and a saddle point.
-/
import Mathlib.Tactic.Linarith
import Mathlib.Tactic.Ring
import Mathlib.Tactic.FieldSimp
import Mathlib.Tactic.NormNum
import Mathlib.Tactic.Positivity
import Mathlib.Analysis.SpecificLimits.Basic
import Verif.Phys.Neb

open scoped InnerProductSpace

namespace Verif.Neb

section Vectors

variable {E : Type} [NormedAddCommGroup E] [InnerProductSpace ℝ E]

theorem norm_unit {v : E} (h : v ≠ 0) : ‖unit v‖ = 1 := by
  unfold unit
  rw [norm_smul, norm_inv, norm_norm, inv_mul_cancel₀ (norm_ne_zero_iff.2 h)]

theorem unit_neg (v : E) : unit (-v) = -unit v := by
  unfold unit
  rw [norm_neg, smul_neg]

theorem inner_self_unit {t : E} (h : ‖t‖ = 1) : ⟪t, t⟫_ℝ = 1 := by
  rw [real_inner_self_eq_norm_sq, h]; norm_num

/-- Across the path the band feels the physical force. -/
theorem band_across (kappa : ℝ) {tau : E} (h : ‖tau‖ = 1) (f d1 d2 : E) {w : E} (hw : ⟪w, tau⟫_ℝ = 0) :
    ⟪w, band kappa tau f d1 d2⟫_ℝ = ⟪w, f⟫_ℝ := by
  unfold band
  simp only [inner_add_right, inner_sub_right, inner_smul_right, hw]
  ring

/-- Along the path it feels only the springs. -/
theorem band_along (kappa : ℝ) {tau : E} (h : ‖tau‖ = 1) (f d1 d2 : E) :
    ⟪tau, band kappa tau f d1 d2⟫_ℝ = kappa * (‖d2‖ - ‖d1‖) := by
  unfold band
  simp only [inner_add_right, inner_sub_right, inner_smul_right, inner_self_unit h]
  rw [real_inner_comm]
  ring

/-- The size of the force of the band: that of the force across the path and that of the springs. -/
theorem band_norm_sq (kappa : ℝ) {tau : E} (h : ‖tau‖ = 1) (f d1 d2 : E) :
    ‖band kappa tau f d1 d2‖ ^ 2 = ‖f - ⟪f, tau⟫_ℝ • tau‖ ^ 2 + (kappa * (‖d2‖ - ‖d1‖)) ^ 2 := by
  unfold band
  set w := f - ⟪f, tau⟫_ℝ • tau with hw
  have hort : ⟪w, tau⟫_ℝ = 0 := by
    rw [hw, inner_sub_left, real_inner_smul_left, inner_self_unit h]
    ring
  rw [norm_add_sq_real, real_inner_smul_right, hort, norm_smul, h, Real.norm_eq_abs, mul_one, sq_abs]
  ring

/-- **The band is at rest exactly if the force is along the path and the images are equally spaced.** -/
theorem band_zero_iff {kappa : ℝ} (hk : kappa ≠ 0) {tau : E} (h : ‖tau‖ = 1) (f d1 d2 : E) :
    band kappa tau f d1 d2 = 0 ↔ (f = ⟪f, tau⟫_ℝ • tau ∧ ‖d1‖ = ‖d2‖) := by
  rw [← norm_eq_zero, ← sq_eq_zero_iff, band_norm_sq kappa h]
  constructor
  · intro h0
    have h1 : ‖f - ⟪f, tau⟫_ℝ • tau‖ ^ 2 = 0 := by
      have := sq_nonneg (‖f - ⟪f, tau⟫_ℝ • tau‖); have := sq_nonneg (kappa * (‖d2‖ - ‖d1‖)); linarith
    have h2 : (kappa * (‖d2‖ - ‖d1‖)) ^ 2 = 0 := by linarith
    refine ⟨sub_eq_zero.1 (norm_eq_zero.1 (pow_eq_zero_iff (two_ne_zero) |>.1 h1)), ?_⟩
    have h3 := (mul_eq_zero.1 (pow_eq_zero_iff (two_ne_zero) |>.1 h2)).resolve_left hk
    linarith
  · rintro ⟨h1, h2⟩
    rw [← h1, h2]
    simp

/-- Inverting the force along the path does not change its size. -/
theorem climb_norm {tau : E} (h : ‖tau‖ = 1) (f : E) : ‖climb tau f‖ = ‖f‖ := by
  have : ‖climb tau f‖ ^ 2 = ‖f‖ ^ 2 := by
    unfold climb
    rw [norm_sub_sq_real, real_inner_smul_right, norm_smul, h, Real.norm_eq_abs, mul_one, sq_abs]
    ring
  exact (sq_eq_sq₀ (norm_nonneg _) (norm_nonneg _)).1 this

/-- **The climbing image is at rest exactly at a stationary point of the potential.** -/
theorem climb_zero_iff {tau : E} (h : ‖tau‖ = 1) (f : E) : climb tau f = 0 ↔ f = 0 := by
  rw [← norm_eq_zero, climb_norm h, norm_eq_zero]

/-- Along the path the climbing image goes up, across the path it goes down. -/
theorem climb_along {tau : E} (h : ‖tau‖ = 1) (f : E) : ⟪tau, climb tau f⟫_ℝ = -⟪tau, f⟫_ℝ := by
  unfold climb
  simp only [inner_sub_right, inner_smul_right, inner_self_unit h]
  rw [real_inner_comm]
  ring

theorem climb_across {tau : E} (f : E) {w : E} (hw : ⟪w, tau⟫_ℝ = 0) :
    ⟪w, climb tau f⟫_ℝ = ⟪w, f⟫_ℝ := by
  unfold climb
  simp only [inner_sub_right, inner_smul_right, hw]
  ring

/-- Uphill the improved tangent points to the next image, downhill it comes from the image before. -/
theorem improved_up {em e ep : ℝ} (d1 d2 : E) (h1 : em ≤ e) (h2 : e ≤ ep) : improved em e ep d1 d2 = unit d2 := by
  unfold improved improvedRaw
  rw [if_neg (by rintro ⟨h3, h4⟩; linarith), if_pos ⟨h1, h2⟩]

theorem unit_smul {a : ℝ} (ha : 0 < a) (v : E) : unit (a • v) = unit v := by
  unfold unit
  rw [norm_smul, Real.norm_eq_abs, abs_of_pos ha, smul_smul, mul_inv, mul_comm a⁻¹, mul_assoc, inv_mul_cancel₀ ha.ne',
    mul_one]

theorem improved_down {em e ep : ℝ} (d1 d2 : E) (h1 : ep < e) (h2 : e ≤ em) : improved em e ep d1 d2 = unit d1 := by
  unfold improved improvedRaw
  by_cases h3 : e < em
  · rw [if_pos ⟨h1, h3⟩]
  · have h4 : e = em := le_antisymm h2 (not_lt.1 h3)
    subst h4
    rw [if_neg (by rintro ⟨_, h5⟩; exact h3 h5), if_neg (by rintro ⟨_, h5⟩; linarith), if_neg (by linarith)]
    have : min |ep - e| |e - e| = 0 := by simp
    rw [this, zero_smul, zero_add]
    refine unit_smul ?_ d1
    have h6 : 0 < |ep - e| := abs_pos.2 (by linarith)
    exact lt_of_lt_of_le h6 (le_max_left _ _)

theorem improvedRaw_extremum {em e ep : ℝ} (h : (e < em ∧ e < ep) ∨ (em < e ∧ ep < e)) (d1 d2 : E) :
    improvedRaw em e ep d1 d2 = if em ≤ ep then max |ep - e| |em - e| • d2 + min |ep - e| |em - e| • d1
      else min |ep - e| |em - e| • d2 + max |ep - e| |em - e| • d1 := by
  unfold improvedRaw
  rw [if_neg, if_neg]
  · rintro ⟨h1, h2⟩; rcases h with h | h <;> linarith [h.1, h.2]
  · rintro ⟨h1, h2⟩; rcases h with h | h <;> linarith [h.1, h.2]

/-- At a maximum or a minimum the tangent is a mean of the two, in which the higher neighbour has the weight of
the larger difference of energy. -/
theorem improved_extremum_reverse {em e ep : ℝ} (h : (e < em ∧ e < ep) ∨ (em < e ∧ ep < e)) (d1 d2 : E) :
    improved ep e em (-d2) (-d1) = -improved em e ep d1 d2 := by
  unfold improved
  rw [improvedRaw_extremum h, improvedRaw_extremum (by tauto), ← unit_neg]
  congr 1
  rw [max_comm |em - e|, min_comm |em - e|]
  rcases lt_trichotomy em ep with h5 | h5 | h5
  · rw [if_neg (not_le.2 h5), if_pos h5.le]
    simp only [smul_neg]; abel
  · subst h5
    simp only [le_refl, if_true, max_self, min_self, smul_neg]; abel
  · rw [if_pos h5.le, if_neg (not_le.2 h5)]
    simp only [smul_neg]; abel

/-- An image as low as the image after, and lower than the image before. -/
theorem improved_level {em e : ℝ} (d1 d2 : E) (h : e < em) : improved em e e d1 d2 = unit d1 := by
  unfold improved improvedRaw
  rw [if_neg (by rintro ⟨h4, _⟩; linarith), if_neg (by rintro ⟨h4, _⟩; linarith), if_neg (by linarith)]
  have : min |e - e| |em - e| = 0 := by simp
  rw [this, zero_smul, zero_add]
  exact unit_smul (lt_of_lt_of_le (abs_pos.2 (by linarith)) (le_max_right _ _)) d1

/-- **The direction in which the path is numbered does not matter**, unless the energies of an image and of its
two neighbours are all the same. -/
theorem improved_reverse {em e ep : ℝ} (d1 d2 : E) (h : ¬ (em = e ∧ e = ep)) :
    improved ep e em (-d2) (-d1) = -improved em e ep d1 d2 := by
  rcases lt_trichotomy e em with h1 | h1 | h1
  · rcases lt_trichotomy e ep with h2 | h2 | h2
    · exact improved_extremum_reverse (Or.inl ⟨h1, h2⟩) d1 d2
    · subst h2
      rw [improved_up (-d2) (-d1) le_rfl h1.le, improved_level d1 d2 h1, unit_neg]
    · rw [improved_down d1 d2 h2 h1.le, improved_up (-d2) (-d1) h2.le h1.le, unit_neg]
  · subst h1
    rcases lt_trichotomy e ep with h2 | h2 | h2
    · rw [improved_up d1 d2 le_rfl h2.le, improved_level (-d2) (-d1) h2, unit_neg]
    · exact absurd ⟨rfl, h2⟩ h
    · rw [improved_down d1 d2 h2 le_rfl, improved_up (-d2) (-d1) h2.le le_rfl, unit_neg]
  · rcases lt_trichotomy e ep with h2 | h2 | h2
    · rw [improved_up d1 d2 h1.le h2.le, improved_down (-d2) (-d1) h1 h2.le, unit_neg]
    · subst h2
      rw [improved_up d1 d2 h1.le le_rfl, improved_down (-d2) (-d1) h1 le_rfl, unit_neg]
    · exact improved_extremum_reverse (Or.inr ⟨h1, h2⟩) d1 d2

/-- If the three energies are the same, it does matter. -/
theorem improved_flat (e : ℝ) (d1 d2 : E) :
    improved e e e (-d2) (-d1) = -unit d1 ∧ improved e e e d1 d2 = unit d2 := by
  rw [improved_up _ _ le_rfl le_rfl, improved_up _ _ le_rfl le_rfl, unit_neg]
  exact ⟨rfl, rfl⟩

/-- The force of the band is the same if the tangent is reversed with the path. -/
theorem band_reverse (kappa : ℝ) (tau f d1 d2 : E) :
    band kappa (-tau) f (-d2) (-d1) = band kappa tau f d1 d2 := by
  unfold band
  rw [inner_neg_right, norm_neg, norm_neg]
  simp only [smul_neg, neg_smul, neg_neg]
  congr 1
  rw [← neg_smul]
  congr 1
  ring

end Vectors

/-! ### The whole calculation -/

variable {ι : Type} [Fintype ι] {F : Type} (s : Sys ι F)

theorem argmax_le (v : ℕ → ℝ) (k : ℕ) : argmax v k ≤ k := by
  induction k with
  | zero => exact le_rfl
  | succ k ih =>
    unfold argmax
    split
    · exact le_rfl
    · omega

/-- The image that is chosen has the highest energy. -/
theorem argmax_max (v : ℕ → ℝ) (k : ℕ) : ∀ i ≤ k, v i ≤ v (argmax v k) := by
  induction k with
  | zero => intro i hi; have : i = 0 := by omega
            subst this; exact le_rfl
  | succ k ih =>
    intro i hi
    unfold argmax
    split
    · rename_i hlt
      rcases Nat.lt_or_ge i (k + 1) with h | h
      · exact (ih i (by omega)).trans hlt.le
      · have : i = k + 1 := by omega
        subst this; exact le_rfl
    · rename_i hge
      rcases Nat.lt_or_ge i (k + 1) with h | h
      · exact ih i (by omega)
      · have : i = k + 1 := by omega
        subst this; exact not_lt.1 hge

/-- The band fulfils the criterion: for every image the force across the path and the force of the springs are
small. -/
def BandSmall (q : ℕ → Act ι × F) : Prop :=
  ∀ i, s.inner i → ‖s.tau q i‖ = 1 →
    ‖(s.force (q i)).1 - ⟪(s.force (q i)).1, s.tau q i⟫_ℝ • s.tau q i‖ ≤ √(Fintype.card ι) * s.ftol ∧
    |s.kappa * (‖(q (i + 1)).1 - (q i).1‖ - ‖(q i).1 - (q (i - 1)).1‖)| ≤ √(Fintype.card ι) * s.ftol

/-- The climbing image fulfils it: the whole force is small. -/
def ClimbSmall (st : St ι F) : Prop :=
  s.inner st.cl ∧ (‖plain ((st.q st.cl).1 - st.qprev) (st.qnext - (st.q st.cl).1)‖ = 1 →
    ‖(s.force (st.q st.cl)).1‖ ≤ √(Fintype.card ι) * s.ftol)

/-- What holds at every moment. -/
structure Inv (q0 : ℕ → Act ι × F) (st : St ι F) : Prop where
  ends : ∀ i, ¬ s.inner i → st.q i = q0 i
  fixed : ∀ i, (st.q i).2 = (q0 i).2
  pots : ∀ i, st.fullV i = s.pot (st.q i)
  forces : st.stage = .neb → ∀ i, st.fullF i = s.force (st.q i)
  cl : (st.qprev = 0 ∨ st.qnext = 0) ∨ s.inner st.cl
  conv : st.stage = .converged → st.done.isSome
  good : st.done = some true → (s.useClimb = false ∧ BandSmall s st.q) ∨ (s.useClimb = true ∧ ClimbSmall s st)
  climb : st.stage = .climb → s.useClimb = true

theorem norm_le_of_abs_le {v : Act ι} {t : ℝ} (h : ∀ k, |v k| ≤ t) (ht : 0 ≤ t) : ‖v‖ ≤ √(Fintype.card ι) * t := by
  rw [EuclideanSpace.norm_eq, ← Real.sqrt_sq ht, ← Real.sqrt_mul (by positivity)]
  refine Real.sqrt_le_sqrt ?_
  calc ∑ i, ‖v i‖ ^ 2 ≤ ∑ _i : ι, t ^ 2 := by
        refine Finset.sum_le_sum fun i _ => ?_
        rw [Real.norm_eq_abs]
        exact pow_le_pow_left₀ (abs_nonneg _) (h i) 2
    _ = (Fintype.card ι : ℝ) * t ^ 2 := by rw [Finset.sum_const, Finset.card_univ, nsmul_eq_mul]

theorem bandSmall_of (hf : 0 ≤ s.ftol) (q : ℕ → Act ι × F) (h : ∀ i, s.inner i → ∀ k, |s.grad q i k| ≤ s.ftol) :
    BandSmall s q := by
  intro i hi ht
  have h1 := norm_le_of_abs_le (h i hi) hf
  unfold Sys.grad at h1
  rw [norm_neg] at h1
  have h2 := band_norm_sq s.kappa ht (s.force (q i)).1 (dm q i) (dp q i)
  have h3 : 0 ≤ √(Fintype.card ι) * s.ftol := by positivity
  have h4 := pow_le_pow_left₀ (norm_nonneg _) h1 2
  rw [h2] at h4
  constructor
  · refine abs_le_of_sq_le_sq' ?_ h3 |>.2
    have := sq_nonneg (s.kappa * (‖dp q i‖ - ‖dm q i‖))
    linarith
  · refine abs_le_of_sq_le_sq ?_ h3
    have := sq_nonneg (‖(s.force (q i)).1 - ⟪(s.force (q i)).1, s.tau q i⟫_ℝ • s.tau q i‖)
    unfold dm dp at h4
    linarith

theorem Inv.start (q0 : ℕ → Act ι × F) : Inv s q0 (s.start q0) where
  ends := fun _ _ => rfl
  fixed := fun _ => rfl
  pots := fun _ => rfl
  forces := fun _ _ => rfl
  cl := Or.inl (Or.inl rfl)
  conv := fun h => by simp [Sys.start] at h
  good := fun h => by simp [Sys.start] at h
  climb := fun h => by simp [Sys.start] at h

theorem bandNext_cases (st : St ι F) (q' : ℕ → Act ι × F) :
    (s.bandOk st q' ∧ s.useClimb = true ∧ s.bandNext st q' = (.climb, none)) ∨
    (s.bandOk st q' ∧ s.useClimb = false ∧ s.bandNext st q' = (.converged, some true)) ∨
    s.bandNext st q' = (.neb, none) := by
  unfold Sys.bandNext
  split
  · rename_i h
    cases hu : s.useClimb
    · exact Or.inr (Or.inl ⟨h, rfl, by simp⟩)
    · exact Or.inl ⟨h, rfl, by simp⟩
  · exact Or.inr (Or.inr rfl)

theorem Inv.bandStep (hf : 0 ≤ s.ftol) {q0 : ℕ → Act ι × F} {st : St ι F} (h : Inv s q0 st) (hs : st.stage = .neb)
    (x : ℕ → Act ι) : Inv s q0 (s.bandStep st x) where
  ends := fun i hi => by
    simp only [Sys.bandStep, Sys.moved, if_neg hi]
    exact h.ends i hi
  fixed := fun i => by
    simp only [Sys.bandStep, Sys.moved]
    split <;> exact h.fixed i
  pots := fun i => by
    simp only [Sys.bandStep]
    by_cases hi : s.inner i
    · rw [if_pos hi]
    · rw [if_neg hi, h.pots i]
      simp only [Sys.moved, if_neg hi]
  forces := fun _ i => by
    simp only [Sys.bandStep]
    by_cases hi : s.inner i
    · rw [if_pos hi]
    · rw [if_neg hi, h.forces hs i]
      simp only [Sys.moved, if_neg hi]
  cl := h.cl
  conv := fun h1 => by
    simp only [Sys.bandStep] at h1 ⊢
    rcases bandNext_cases s st (s.moved st.q x) with ⟨_, _, h2⟩ | ⟨_, _, h2⟩ | h2
    · rw [h2] at h1; simp at h1
    · rw [h2]; rfl
    · rw [h2] at h1; simp at h1
  good := fun h1 => by
    simp only [Sys.bandStep] at h1 ⊢
    rcases bandNext_cases s st (s.moved st.q x) with ⟨_, _, h2⟩ | ⟨h2, h3, _⟩ | h2
    · rw [h2] at h1; simp at h1
    · exact Or.inl ⟨h3, bandSmall_of s hf _ h2.2.1⟩
    · rw [h2] at h1; simp at h1
  climb := fun h1 => by
    simp only [Sys.bandStep] at h1
    rcases bandNext_cases s st (s.moved st.q x) with ⟨_, h3, h2⟩ | ⟨_, _, h2⟩ | h2
    · exact h3
    · rw [h2] at h1; simp at h1
    · rw [h2] at h1; simp at h1

theorem climbNext_cases (st : St ι F) (y : Act ι × F) :
    (s.climbOk st y ∧ s.climbNext st y = (.converged, some true)) ∨ s.climbNext st y = (.climb, none) := by
  unfold Sys.climbNext
  split
  · rename_i h; exact Or.inl ⟨h, rfl⟩
  · exact Or.inr rfl

theorem Inv.climbMove (hf : 0 ≤ s.ftol) {q0 : ℕ → Act ι × F} {st : St ι F} (h : Inv s q0 st)
    (hc : s.inner st.cl) (hs : st.stage = .climb) (x : Act ι) : Inv s q0 (s.climbMove st x) where
  ends := fun i hi => by
    have : i ≠ st.cl := fun h1 => hi (h1 ▸ hc)
    simp only [Sys.climbMove, ne_eq, this, not_false_eq_true, Function.update_of_ne]
    exact h.ends i hi
  fixed := fun i => by
    simp only [Sys.climbMove]
    by_cases hi : i = st.cl
    · subst hi; simpa using h.fixed _
    · simpa [hi] using h.fixed i
  pots := fun i => by
    simp only [Sys.climbMove]
    by_cases hi : i = st.cl
    · subst hi; simp
    · simpa [hi] using h.pots i
  forces := fun h1 => by
    simp only [Sys.climbMove] at h1
    rcases climbNext_cases s st (x, (st.q st.cl).2) with ⟨_, h2⟩ | h2 <;> rw [h2] at h1 <;> simp at h1
  cl := Or.inr hc
  conv := fun h1 => by
    simp only [Sys.climbMove] at h1 ⊢
    rcases climbNext_cases s st (x, (st.q st.cl).2) with ⟨_, h2⟩ | h2
    · rw [h2]; rfl
    · rw [h2] at h1; simp at h1
  good := fun h1 => by
    simp only [Sys.climbMove] at h1 ⊢
    rcases climbNext_cases s st (x, (st.q st.cl).2) with ⟨h2, _⟩ | h2
    · refine Or.inr ⟨h.climb hs, hc, fun ht => ?_⟩
      have h3 := norm_le_of_abs_le h2.2.1 hf
      simp only [Function.update_self] at ht ⊢
      unfold Sys.climbGrad at h3
      rw [norm_neg, climb_norm ht] at h3
      exact h3
    · rw [h2] at h1; simp at h1
  climb := fun _ => h.climb hs

theorem Inv.climbStep (hf : 0 ≤ s.ftol) {q0 : ℕ → Act ι × F} {st : St ι F} (h : Inv s q0 st)
    (hs : st.stage = .climb) (hd : st.done = none) (x : ℕ → Act ι) : Inv s q0 (s.climbStep st x) := by
  unfold Sys.climbStep
  split
  · dsimp only
    unfold Sys.initClimb
    dsimp only
    set j := argmax (fun i => s.pot (st.q i)) (s.n + 1) with hj
    have hle : j ≤ s.n + 1 := argmax_le _ _
    by_cases hb : j = 0 ∨ j = s.n + 1
    · rw [if_pos hb]
      simp only [Option.isSome_some, if_true]
      exact ⟨h.ends, h.fixed, h.pots, h.forces, h.cl, fun _ => rfl, fun h1 => by simp at h1, h.climb⟩
    · rw [if_neg hb]
      simp only [hd, Option.isSome_none, Bool.false_eq_true, if_false]
      have hin : s.inner j := ⟨by omega, by omega⟩
      refine Inv.climbMove s hf (st := { st with cl := j, qprev := _, qnext := _, oldE := _, done := none }) ?_ hin hs _
      exact ⟨h.ends, h.fixed, h.pots, h.forces, Or.inr hin, fun h1 => by rw [hs] at h1; simp at h1,
        fun h1 => by simp at h1, h.climb⟩
  · rename_i hn
    exact h.climbMove s hf (h.cl.resolve_left hn) hs _

theorem Inv.step (hf : 0 ≤ s.ftol) {q0 : ℕ → Act ι × F} {st : St ι F} (h : Inv s q0 st) (x : ℕ → Act ι) :
    Inv s q0 (s.step st x) := by
  unfold Sys.step
  split
  · exact h
  · rename_i hd
    have hd' : st.done = none := by simpa using hd
    split
    · rename_i hs; exact h.bandStep s hf hs x
    · rename_i hs; exact h.climbStep s hf hs hd' x
    · rename_i hs; exact absurd (h.conv hs) hd

theorem Inv.run (hf : 0 ≤ s.ftol) {q0 : ℕ → Act ι × F} {st : St ι F} (h : Inv s q0 st) (xs : List (ℕ → Act ι)) :
    Inv s q0 (s.run st xs) := by
  induction xs generalizing st with
  | nil => exact h
  | cons x xs ih => exact ih (h.step s hf x)

/-- **The end points never move and fixed atoms never move**, whatever the optimiser does. -/
theorem ends_and_fixed_stay (hf : 0 ≤ s.ftol) (q0 : ℕ → Act ι × F) (xs : List (ℕ → Act ι)) :
    (s.run (s.start q0) xs).q 0 = q0 0 ∧ (s.run (s.start q0) xs).q (s.n + 1) = q0 (s.n + 1) ∧
    ∀ i, ((s.run (s.start q0) xs).q i).2 = (q0 i).2 := by
  have h := (Inv.start s q0).run s hf xs
  refine ⟨h.ends 0 ?_, h.ends _ ?_, h.fixed⟩
  · rintro ⟨h1, _⟩; omega
  · rintro ⟨_, h1⟩; omega

/-- **Success of the calculation without climbing means** that across the path the force, and along it the
difference of the distances to the neighbours times the spring constant, are below the tolerance in every
image; **with climbing** that the whole force on the climbing image is. -/
theorem success_means (hf : 0 ≤ s.ftol) (q0 : ℕ → Act ι × F) (xs : List (ℕ → Act ι))
    (h : (s.run (s.start q0) xs).done = some true) :
    (s.useClimb = false ∧ BandSmall s (s.run (s.start q0) xs).q) ∨
    (s.useClimb = true ∧ ClimbSmall s (s.run (s.start q0) xs)) :=
  ((Inv.start s q0).run s hf xs).good h

/-- **The potentials that are printed are those of the images**, in every stage. -/
theorem potentials_printed (hf : 0 ≤ s.ftol) (q0 : ℕ → Act ι × F) (xs : List (ℕ → Act ι)) (i : ℕ) :
    (s.run (s.start q0) xs).fullV i = s.pot ((s.run (s.start q0) xs).q i) :=
  ((Inv.start s q0).run s hf xs).pots i

/-- The forces that are printed are those of the images as long as the band is optimised. -/
theorem forces_printed_partial (hf : 0 ≤ s.ftol) (q0 : ℕ → Act ι × F) (xs : List (ℕ → Act ι))
    (h : (s.run (s.start q0) xs).stage = .neb) (i : ℕ) :
    (s.run (s.start q0) xs).fullF i = s.force ((s.run (s.start q0) xs).q i) :=
  ((Inv.start s q0).run s hf xs).forces h i

/-- **For the climbing image minus the inverted force is printed**: across the path it has the wrong sign. -/
theorem climbing_force_printed (st : St ι F) (x : Act ι) :
    ((s.climbMove st x).fullF st.cl).1 =
      -climb (plain (x - st.qprev) (st.qnext - x)) (s.force (x, (st.q st.cl).2)).1 := by
  simp [Sys.climbMove, Sys.climbGrad]

/-- It is the force only if the force is along the path. -/
theorem climbing_force_right_iff (st : St ι F) (x : Act ι) :
    ((s.climbMove st x).fullF st.cl).1 = (s.force ((s.climbMove st x).q st.cl)).1 ↔
      (s.force (x, (st.q st.cl).2)).1 =
        ⟪(s.force (x, (st.q st.cl).2)).1, plain (x - st.qprev) (st.qnext - x)⟫_ℝ • plain (x - st.qprev) (st.qnext - x) := by
  rw [climbing_force_printed]
  have hq : (s.climbMove st x).q st.cl = (x, (st.q st.cl).2) := by simp [Sys.climbMove]
  rw [hq]
  unfold climb
  generalize (s.force (x, (st.q st.cl).2)).1 = f
  generalize plain (x - st.qprev) (st.qnext - x) = t at *
  rw [mul_smul]
  constructor
  · intro h
    have h2 : (2 : ℝ) • (⟪f, t⟫_ℝ • t) = (2 : ℝ) • f := by
      rw [neg_sub, sub_eq_iff_eq_add] at h
      rw [h, two_smul]
    exact (smul_right_injective _ (two_ne_zero) h2).symm
  · intro h
    rw [← h, two_smul]
    abel

/-- The image that climbs is the highest, and it is never an end point. -/
theorem climbing_image_highest (st : St ι F) (h : (s.initClimb st).done = none) :
    s.inner (s.initClimb st).cl ∧ ∀ i ≤ s.n + 1, s.pot (st.q i) ≤ s.pot (st.q (s.initClimb st).cl) := by
  unfold Sys.initClimb at *
  dsimp only at *
  set j := argmax (fun i => s.pot (st.q i)) (s.n + 1) with hj
  have hle : j ≤ s.n + 1 := argmax_le _ _
  by_cases hb : j = 0 ∨ j = s.n + 1
  · rw [if_pos hb] at h; simp at h
  · rw [if_neg hb]
    have h1 : 1 ≤ j := by omega
    have h2 : j ≤ s.n := by omega
    exact ⟨⟨h1, h2⟩, fun i hi => argmax_max (fun i => s.pot (st.q i)) (s.n + 1) i hi⟩

/-- Only the climbing image moves. -/
theorem others_stay (st : St ι F) (x : Act ι) (i : ℕ) (h : i ≠ st.cl) :
    (s.climbMove st x).q i = st.q i ∧ (s.climbMove st x).fullF i = st.fullF i := by
  simp [Sys.climbMove, h]

/-! ### The length of steps -/

/-- The largest step stays positive. -/
theorem adjust_pos {big : ℝ} (h : 0 < big) (quality : ℝ) : 0 < adjust big quality := by
  unfold adjust
  split
  · positivity
  · split
    · positivity
    · split
      · norm_num
      · positivity

/-- It never falls below one hundredth, or where it began. -/
theorem adjust_ge (big : ℝ) (qs : List ℝ) (h : 0 < big) : min big 0.01 ≤ qs.foldl adjust big := by
  have key : ∀ (qs : List ℝ) (b lo : ℝ), 0 < lo → lo ≤ 0.01 → lo ≤ b → lo ≤ qs.foldl adjust b := by
    intro qs
    induction qs with
    | nil => intro b lo _ _ h; exact h
    | cons q qs ih =>
      intro b lo h0 h1 h2
      refine ih _ lo h0 h1 ?_
      unfold adjust
      split
      · nlinarith
      · split
        · nlinarith
        · split
          · norm_num at h1 ⊢; linarith
          · rename_i h3
            push Not at h3
            linarith
  exact key qs big _ (lt_min h (by norm_num)) (min_le_right _ _) (min_le_left _ _)

theorem adjust_good_steps (big : ℝ) (k : ℕ) : (List.replicate k (1 : ℝ)).foldl adjust big = big * 1.3 ^ k := by
  induction k generalizing big with
  | zero => simp
  | succ k ih =>
    rw [List.replicate_succ, List.foldl_cons, ih]
    unfold adjust
    rw [if_pos (by norm_num), pow_succ]
    ring

/-- **The largest displacement is not limited by the number in the input**: it grows above every bound. -/
theorem biggest_step_not_kept (big bound : ℝ) (h : 0 < big) : ∃ qs : List ℝ, bound < qs.foldl adjust big := by
  obtain ⟨k, hk⟩ := pow_unbounded_of_one_lt (bound / big) (show (1 : ℝ) < 1.3 by norm_num)
  refine ⟨List.replicate k 1, ?_⟩
  rw [adjust_good_steps]
  rwa [div_lt_iff₀ h, mul_comm] at hk

/-! ### Restarting -/

/-- **A calculation that was climbing cannot be restarted**: a Hessian that fits is refused. -/
theorem climb_restart_fails (act all : ℕ) (h : 0 < act) : bindClimb (act * act) act all = .valueError := by
  unfold bindClimb
  rw [if_pos rfl, if_neg (by positivity)]

/-- Only a calculation that has no Hessian can go on. -/
theorem climb_restart_iff (size act all : ℕ) :
    bindClimb size act all = .fresh ∨ bindClimb size act all = .kept ∨ bindClimb size act all = .masked →
      size = 0 := by
  unfold bindClimb
  split
  · split
    · intro _; assumption
    · simp
  · split
    · simp
    · split
      · intro _; assumption
      · simp

/-- The Hessian of the band is kept. -/
theorem band_restart (act all n : ℕ) : bindBand ((act * n) ^ 2) act all n = .kept := by
  simp [bindBand]

/-- The Hessian of all atoms and images can never be given. -/
theorem band_full_fails (act all n : ℕ) (h0 : 0 < all) (h : act ≤ all) :
    bindBand ((all * (n + 2)) * (all * (n + 2))) act all n = .attributeError := by
  unfold bindBand
  have h1 : act * n < all * (n + 2) := by nlinarith
  rw [if_neg, if_pos rfl]
  intro h2
  rw [pow_two] at h2
  exact absurd h2 (Nat.mul_lt_mul'' h1 h1).ne'

/-- The stages that the input accepts (/repo/ipi/inputs/motion/neb.py: `options` of `stage`); the checkpoint of a
calculation that has ended contains another one. -/
def accepted : List String := ["endpoints", "neb", "climb"]

theorem converged_refused : "converged" ∉ accepted := by decide

/-! ### A saddle -/

/-- The potential `-x² - y` of one particle in two dimensions, three images and loose tolerances. -/
noncomputable def hill : Sys (Fin 2) Unit where
  n := 1
  natoms := 1
  pot := fun p => -(p.1 0) ^ 2 - p.1 1
  force := fun p => (!₂[2 * p.1 0, 1], ())
  kappa := 1
  tangent := .plain
  useClimb := true
  etol := 10
  ftol := 10
  ptol := 10

/-- Images on the axis. -/
noncomputable def onAxis : ℕ → Act (Fin 2) × Unit := fun i => (!₂[(i : ℝ) - 1, 0], ())

theorem hill_argmax : argmax (fun i => hill.pot (onAxis i)) 2 = 1 := by
  simp [argmax, hill, onAxis]

theorem plain_axis : plain (!₂[(1 : ℝ), 0]) (!₂[(1 : ℝ), 0]) = !₂[(1 : ℝ), 0] := by
  have h1 : ‖(!₂[(1 : ℝ), 0] : Act (Fin 2))‖ = 1 := by
    rw [EuclideanSpace.norm_eq]; simp
  have h2 : unit (!₂[(1 : ℝ), 0] : Act (Fin 2)) = !₂[(1 : ℝ), 0] := by
    unfold unit; rw [h1]; simp
  unfold plain
  rw [h2, ← two_smul ℝ, unit_smul (by norm_num), h2]

theorem onAxis_sub (i : ℕ) : (onAxis (i + 1)).1 - (onAxis i).1 = !₂[(1 : ℝ), 0] := by
  ext k
  fin_cases k <;> simp [onAxis]

theorem hill_moved : hill.moved onAxis (fun i => (onAxis i).1) = onAxis := by
  funext i
  unfold Sys.moved
  split <;> rfl

theorem hill_ok : hill.bandOk (hill.start onAxis) onAxis := by
  refine ⟨by simp [Sys.start, hill], fun i hi k => ?_, fun i _ k => by simp [Sys.start, hill]⟩
  have hi1 : i = 1 := by have := hi.1; have := hi.2; simp [hill] at this; omega
  subst hi1
  have h1 : dm onAxis 1 = !₂[(1 : ℝ), 0] := onAxis_sub 0
  have h2 : dp onAxis 1 = !₂[(1 : ℝ), 0] := onAxis_sub 1
  have h3 : hill.tau onAxis 1 = !₂[(1 : ℝ), 0] := by
    change plain (dm onAxis 1) (dp onAxis 1) = _
    rw [h1, h2, plain_axis]
  unfold Sys.grad band
  rw [h1, h2, h3]
  fin_cases k <;> simp [hill, onAxis, inner]

/-- **A whole calculation in which the force that is printed for the climbing image is wrong.** -/
theorem not_forces_printed :
    let st := hill.run (hill.start onAxis) [fun i => (onAxis i).1, fun i => (onAxis i).1]
    ((st.fullF 1).1 1, (hill.force (st.q 1)).1 1) = (-1, 1) := by
  intro st
  have hst1 : hill.step (hill.start onAxis) (fun i => (onAxis i).1) =
      hill.bandStep (hill.start onAxis) (fun i => (onAxis i).1) := rfl
  have hq : (hill.bandStep (hill.start onAxis) (fun i => (onAxis i).1)).q = onAxis := hill_moved
  have hn : hill.bandNext (hill.start onAxis) onAxis = (.climb, none) := by
    unfold Sys.bandNext
    rw [if_pos hill_ok]
    rfl
  set b := hill.bandStep (hill.start onAxis) (fun i => (onAxis i).1) with hb
  have hbs : b.stage = .climb := by
    change (hill.bandNext (hill.start onAxis) (hill.moved onAxis _)).1 = _
    rw [hill_moved, hn]
  have hbd : b.done = none := by
    change (hill.bandNext (hill.start onAxis) (hill.moved onAxis _)).2 = _
    rw [hill_moved, hn]
  have hbp : b.qprev = 0 := rfl
  have hinit : hill.initClimb b = { b with cl := 1, qprev := (onAxis 0).1, qnext := (onAxis 2).1, oldE := hill.pot (onAxis 1) } := by
    unfold Sys.initClimb
    dsimp only
    rw [hq]
    have h2 : argmax (fun i => hill.pot (onAxis i)) (hill.n + 1) = 1 := hill_argmax
    rw [h2, if_neg (by simp [hill])]
  have hst : st = hill.climbMove (hill.initClimb b) (onAxis 1).1 := by
    change hill.step (hill.step (hill.start onAxis) _) _ = _
    rw [hst1]
    unfold Sys.step
    rw [hbd, hbs]
    simp only [Option.isSome_none, Bool.false_eq_true, if_false]
    unfold Sys.climbStep
    rw [if_pos (Or.inl hbp)]
    dsimp only
    rw [hinit]
    simp only [hbd, Option.isSome_none, Bool.false_eq_true, if_false]
  have hcl : (hill.initClimb b).cl = 1 := by rw [hinit]
  have hf := climbing_force_printed hill (hill.initClimb b) (onAxis 1).1
  rw [hcl, ← hst] at hf
  have hqp : (onAxis 1).1 - (hill.initClimb b).qprev = !₂[(1 : ℝ), 0] := by rw [hinit]; exact onAxis_sub 0
  have hqn : (hill.initClimb b).qnext - (onAxis 1).1 = !₂[(1 : ℝ), 0] := by rw [hinit]; exact onAxis_sub 1
  rw [hqp, hqn, plain_axis] at hf
  rw [hf]
  simp [climb, hill]

example : ‖(!₂[(1 : ℝ), 0] : Act (Fin 2))‖ = 1 := by rw [EuclideanSpace.norm_eq]; simp

/-- The force on the hill across its axis: the band is not at rest. -/
example : ¬ band 1 (!₂[(1 : ℝ), 0] : Act (Fin 2)) (!₂[0, 1]) (!₂[1, 0]) (!₂[1, 0]) = 0 := by
  rw [band_zero_iff one_ne_zero (by rw [EuclideanSpace.norm_eq]; simp)]
  rintro ⟨h, _⟩
  have := congrFun (congrArg WithLp.ofLp h) 1
  simp at this

example : improved (3 : ℝ) 2 1 (-(5 : ℝ)) (-(4 : ℝ)) = -improved (1 : ℝ) 2 3 (4 : ℝ) 5 :=
  improved_reverse (4 : ℝ) 5 (by norm_num)

example : bindClimb 36 6 9 = .valueError := climb_restart_fails 6 9 (by norm_num)

example : bindBand 576 4 6 2 = .attributeError := band_full_fails 4 6 2 (by norm_num) (by norm_num)

example := success_means hill (by norm_num [hill]) onAxis []
example := ends_and_fixed_stay hill (by norm_num [hill]) onAxis [fun i => (onAxis i).1]

/-- A band that is found converged ends with the next step, without moving. -/
theorem converged_ends {ι : Type} [Fintype ι] {F : Type} (s : Sys ι F) (st : St ι F) (x : ℕ → Act ι)
    (h : st.stage = .converged) (hd : st.done = none) :
    (s.step st x).done = some true ∧ (s.step st x).q = st.q := by
  unfold Sys.step
  rw [hd, h]
  exact ⟨rfl, rfl⟩

end Verif.Neb
