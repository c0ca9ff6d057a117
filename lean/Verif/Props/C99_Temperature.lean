import Verif.Phys.Estim
import Mathlib.MeasureTheory.Integral.Bochner.Basic
import Mathlib.Probability.Distributions.Uniform
import Mathlib.Probability.ProbabilityMassFunction.Integrals
import Mathlib.Tactic.FinCases
import Mathlib.MeasureTheory.Integral.Bochner.Set
import Mathlib.Tactic.FieldSimp
import Mathlib.Tactic.LinearCombination

/-!
# C99: the average of the printed temperature is the temperature of the ensemble

Specification: in a canonical ensemble at temperature `T` the beads are simulated at `(n+1) T`, so the
mean of `p²/m` of every free normal mode coordinate is `kB (n+1) T`.  Held coordinates have none, the
centroid of a centroid-constrained simulation has none, and with a fixed centre of mass the centroid
of atom `a` has the fraction `1 - m_a / M` (`com_mean`).
-/

namespace Verif.Estim

open Finset MeasureTheory

section
variable {n N : ℕ}

/-- Specification: the share of a normal mode coordinate in the equipartition of energy. -/
noncomputable def share (S : MD n N) (b : Fin (n + 1)) (a : Fin N) (d : Fin 3) : ℝ :=
  if (a, d) ∈ S.mov.fix then 0
  else if b = 0 ∧ S.mov.enstype = some (some "nvt-cc") then 0
  else if b = 0 ∧ S.mov.fixcom = true then 1 - S.m a / ∑ a, S.m a
  else 1

/-- Specification: normal mode momenta in equilibrium. -/
structure Equil {Ω : Type} [MeasurableSpace Ω] (S : MD n N) (μ : Measure Ω) (pnm : Ω → Conf n N) :
    Prop where
  int : ∀ x, Integrable (fun w => pnm w x ^ 2) μ
  mean : ∀ b a d, ∫ w, pnm w (b, a, d) ^ 2 ∂μ
    = share S b a d * (S.dynm b a * (S.kB * ((n + 1 : ℕ) : ℝ) * S.T))

/-- Specification: different normal modes are uncorrelated. -/
def Uncorr {Ω : Type} [MeasurableSpace Ω] (μ : Measure Ω) (pnm : Ω → Conf n N) : Prop :=
  ∀ a d b b', b ≠ b' → Integrable (fun w => pnm w (b, a, d) * pnm w (b', a, d)) μ ∧
    ∫ w, pnm w (b, a, d) * pnm w (b', a, d) ∂μ = 0

/-- Momenta of a system without its centre of mass motion: if the momenta of all atoms are
independent with variance `m kT`, removing the common velocity leaves atom `a` with the fraction
`1 - m_a / M` of its mean square. -/
theorem com_mean {Ω : Type} [MeasurableSpace Ω] (μ : Measure Ω) (m : Fin N → ℝ)
    (hM : ∑ a, m a ≠ 0) (kT : ℝ) (p : Ω → Fin N → ℝ)
    (hi : ∀ a c, Integrable (fun w => p w a * p w c) μ)
    (hp : ∀ a c, ∫ w, p w a * p w c ∂μ = if a = c then m a * kT else 0) (a : Fin N) :
    ∫ w, (p w a - m a * ((∑ c, p w c) / ∑ c, m c)) ^ 2 ∂μ = (1 - m a / ∑ c, m c) * (m a * kT) := by
  generalize hMd : ∑ c, m c = M at *
  have e : ∀ w, (p w a - m a * ((∑ c, p w c) / M)) ^ 2
      = p w a * p w a + (∑ c, (-2 * m a / M) * (p w a * p w c))
        + ∑ c, ∑ c', (m a / M) ^ 2 * (p w c * p w c') := by
    intro w
    simp only [← Finset.mul_sum, ← Finset.sum_mul]
    field_simp
    ring
  have hc : ∀ c ∈ (univ : Finset (Fin N)), Integrable (fun w => (-2 * m a / M) * (p w a * p w c)) μ :=
    fun c _ => (hi a c).const_mul _
  have hd : ∀ c ∈ (univ : Finset (Fin N)), Integrable (fun w => ∑ c', (m a / M) ^ 2 * (p w c * p w c')) μ :=
    fun c _ => integrable_finsetSum _ fun c' _ => (hi c c').const_mul _
  simp only [e]
  have h0 : Integrable (fun w => p w a * p w a + ∑ c, (-2 * m a / M) * (p w a * p w c)) μ :=
    (hi a a).add (integrable_finsetSum _ hc)
  rw [integral_add h0 (integrable_finsetSum _ hd),
    integral_add (hi a a) (integrable_finsetSum _ hc), integral_finsetSum _ hc,
    integral_finsetSum _ hd]
  have h3 : ∀ c, ∫ w, ∑ c', (m a / M) ^ 2 * (p w c * p w c') ∂μ = (m a / M) ^ 2 * (m c * kT) := by
    intro c
    rw [integral_finsetSum _ fun c' _ => (hi c c').const_mul _]
    simp only [integral_const_mul, hp]
    simp
  simp only [h3, integral_const_mul, hp]
  simp only [if_true, mul_ite, mul_zero, Finset.sum_ite_eq, Finset.mem_univ]
  rw [← Finset.mul_sum, ← Finset.sum_mul, hMd]
  field_simp
  ring

/-- The number of held coordinates of the selected atoms. -/
theorem sum_free (ids : Finset (Fin N)) (fix : List (Fin N × Fin 3)) :
    ∑ a ∈ ids, ∑ d : Fin 3, (if (a, d) ∈ fix then (0 : ℝ) else 1)
      = 3 * (ids.card : ℝ) - (((ids ×ˢ univ).filter fun x : Fin N × Fin 3 => x ∈ fix).card : ℝ) := by
  have h1 : ∀ x : Fin N × Fin 3, (if x ∈ fix then (0 : ℝ) else 1) = 1 - if x ∈ fix then 1 else 0 := by
    intro x; split <;> norm_num
  rw [← Finset.sum_product (f := fun x : Fin N × Fin 3 => if x ∈ fix then (0 : ℝ) else 1)]
  simp only [h1]
  rw [Finset.sum_sub_distrib, Finset.sum_boole]
  simp [mul_comm]

theorem share_cc {S : MD n N} (h : S.mov.enstype = some (some "nvt-cc")) (b a d) :
    share S b a d = (if b = 0 then 0 else 1) * if (a, d) ∈ S.mov.fix then 0 else 1 := by
  unfold share
  by_cases h1 : (a, d) ∈ S.mov.fix <;> by_cases h2 : b = 0 <;> simp [h1, h2, h]

theorem share_com {S : MD n N} (h : S.mov.enstype ≠ some (some "nvt-cc")) (hc : S.mov.fixcom = true)
    (hf : S.mov.fix = []) (b a d) :
    share S b a d = 1 - if b = 0 then S.m a / ∑ a, S.m a else 0 := by
  unfold share
  by_cases h2 : b = 0 <;> simp [h2, h, hc, hf]

theorem share_plain {S : MD n N} (h : S.mov.enstype ≠ some (some "nvt-cc")) (hc : S.mov.fixcom = false)
    (b a d) : share S b a d = if (a, d) ∈ S.mov.fix then 0 else 1 := by
  unfold share
  by_cases h1 : (a, d) ∈ S.mov.fix <;> simp [h1, h, hc]

/-- The modes other than the centroid have the same share. -/
theorem share_tail (S : MD n N) (b : Fin n) (a d) :
    share S b.succ a d = if (a, d) ∈ S.mov.fix then 0 else 1 := by
  unfold share
  simp [Fin.succ_ne_zero]

/-- Simulations that a single motion of the input can set up: the kind of ensemble is known and the
centre of mass is not fixed together with atoms. -/
structure Single (S : MD n N) : Prop where
  ens : S.mov.enstype ≠ none
  com : S.mov.fixcom = true → S.mov.fix = []

/-- The combination for which the count of held coordinates is wrong: a fixed centroid, fixed
coordinates and a normal mode. -/
def BadCount (S : MD n N) (nm : Option ℤ) : Prop :=
  S.mov.enstype = some (some "nvt-cc") ∧ S.mov.fix ≠ [] ∧ ∃ k, nm = some k ∧ 0 ≤ k

theorem held_all {S : MD n N} (hS : Single S) (s : Sel) (nm : Option ℤ) (h : ∀ k, nm = some k → k < 0) :
    ∃ e, heldDof S s nm = some e ∧
      ∑ a ∈ s.atoms S.names, ∑ d, ∑ b, share S b a d
        = 3 * ((s.atoms S.names).card : ℝ) * ((n + 1 : ℕ) : ℝ) - e := by
  have hnm : ∀ e0 : ℝ, heldMode (n + 1) e0 nm = e0 := by
    intro e0
    cases nm with
    | none => rfl
    | some k =>
        have := h k rfl
        simp only [heldMode]
        rw [if_neg (by omega), if_neg (by omega)]
  obtain ⟨t, ht⟩ := Option.ne_none_iff_exists'.1 hS.ens
  unfold heldDof
  simp only [hnm]
  have hfree := sum_free (s.atoms S.names) S.mov.fix
  by_cases hcc : S.mov.enstype = some (some "nvt-cc")
  · have hsum : ∑ a ∈ s.atoms S.names, ∑ d, ∑ b, share S b a d
        = (n : ℝ) * (3 * ((s.atoms S.names).card : ℝ)
          - (((s.atoms S.names ×ˢ univ).filter fun x : Fin N × Fin 3 => x ∈ S.mov.fix).card : ℝ)) := by
      rw [← hfree, Finset.mul_sum]
      refine Finset.sum_congr rfl fun a _ => ?_
      rw [Finset.mul_sum]
      refine Finset.sum_congr rfl fun d _ => ?_
      simp only [share_cc hcc, ← Finset.sum_mul]
      congr 1
      rw [Fin.sum_univ_succ]
      simp [Fin.succ_ne_zero]
    rw [hsum]
    by_cases hf : S.mov.fix = []
    · rw [if_pos hf]
      refine ⟨_, rfl, ?_⟩
      rw [if_pos hcc, hf]
      push_cast
      simp
      ring
    · rw [if_neg hf, hcc]
      refine ⟨_, rfl, ?_⟩
      simp only [if_true]
      push_cast
      ring
  · by_cases hc : S.mov.fixcom = true
    · have hf := hS.com hc
      rw [if_pos hf]
      refine ⟨_, rfl, ?_⟩
      rw [if_neg hcc, if_pos hc]
      simp only [share_com hcc hc hf, Finset.sum_sub_distrib]
      simp only [Finset.sum_ite_eq', Finset.mem_univ, if_true, Finset.sum_const, Finset.card_univ,
        Fintype.card_fin, nsmul_eq_mul, mul_one, ← Finset.mul_sum, ← Finset.sum_div]
      push_cast
      ring
    · have hc' : S.mov.fixcom = false := by simpa using hc
      have hsum : ∑ a ∈ s.atoms S.names, ∑ d, ∑ b, share S b a d
          = ((n + 1 : ℕ) : ℝ) * (3 * ((s.atoms S.names).card : ℝ)
            - (((s.atoms S.names ×ˢ univ).filter fun x : Fin N × Fin 3 => x ∈ S.mov.fix).card : ℝ)) := by
        rw [← hfree, Finset.mul_sum]
        refine Finset.sum_congr rfl fun a _ => ?_
        rw [Finset.mul_sum]
        refine Finset.sum_congr rfl fun d _ => ?_
        simp only [share_plain hcc hc']
        simp
      rw [hsum]
      by_cases hf : S.mov.fix = []
      · rw [if_pos hf]
        refine ⟨_, rfl, ?_⟩
        rw [if_neg hcc, if_neg hc, hf]
        simp
        ring
      · rw [if_neg hf, ht]
        refine ⟨_, rfl, ?_⟩
        rw [ht] at hcc
        simp only [if_neg hcc]
        rw [if_neg hc, if_neg (fun h => hcc (by rw [h]))]
        ring

theorem held_mode {S : MD n N} (hS : Single S) (s : Sel) (k : Fin (n + 1))
    (hb : ¬ BadCount S (some (k : ℤ))) :
    ∃ e, heldDof S s (some (k : ℤ)) = some e ∧
      ((n + 1 : ℕ) : ℝ) * ∑ a ∈ s.atoms S.names, ∑ d, share S k a d
        = 3 * ((s.atoms S.names).card : ℝ) * ((n + 1 : ℕ) : ℝ) - e := by
  obtain ⟨t, ht⟩ := Option.ne_none_iff_exists'.1 hS.ens
  have hfree := sum_free (s.atoms S.names) S.mov.fix
  have hk0 : ((k : ℕ) : ℤ) = 0 ↔ k = 0 := by
    rw [Fin.ext_iff]; simp
  have hk1 : 0 < ((k : ℕ) : ℤ) ↔ k ≠ 0 := by
    rw [Ne, ← hk0]; omega
  unfold heldDof heldMode
  simp only [hk0, hk1]
  by_cases hcc : S.mov.enstype = some (some "nvt-cc")
  · have hf : S.mov.fix = [] := by
      by_contra hf
      exact hb ⟨hcc, hf, _, rfl, by positivity⟩
    rw [if_pos hf]
    refine ⟨_, rfl, ?_⟩
    simp only [share_cc hcc, hf, if_pos hcc]
    by_cases h : k = 0
    · simp only [h, if_true]
      simp
      ring
    · simp [h]
      ring
  · by_cases hc : S.mov.fixcom = true
    · have hf := hS.com hc
      rw [if_pos hf]
      refine ⟨_, rfl, ?_⟩
      simp only [share_com hcc hc hf, if_neg hcc, if_pos hc]
      by_cases h : k = 0
      · simp only [h, if_true, Finset.sum_sub_distrib]
        simp only [Finset.sum_const, Finset.card_univ,
          Fintype.card_fin, nsmul_eq_mul, mul_one, ← Finset.mul_sum, ← Finset.sum_div]
        push_cast
        ring
      · simp [h]
        ring
    · have hc' : S.mov.fixcom = false := by simpa using hc
      have he : ∀ c : ℝ, (if k = 0 then (0 : ℝ) * c else if k ≠ 0 then 0 else 0) = 0 := by
        intro c; split <;> simp
      by_cases hf : S.mov.fix = []
      · rw [if_pos hf]
        refine ⟨_, rfl, ?_⟩
        simp only [share_plain hcc hc', if_neg hcc, if_neg hc, he, hf]
        simp
        ring
      · rw [if_neg hf, ht]
        refine ⟨_, rfl, ?_⟩
        simp only [share_plain hcc hc']
        rw [ht] at hcc
        simp only [if_neg hcc, if_neg hc, he]
        rw [hfree, if_neg (fun h => hcc (by rw [h]))]
        ring

/-! ### What is printed -/

theorem kinmd_avg (S : MD n N) (s : Sel) (hs : s.check N = .ok ()) (bead nm : Option ℤ)
    (h1 : bead = none ∨ nm = none) (hb : ∀ k, bead = some k → k < 0) (hn : ∀ k, nm = some k → k < 0)
    (hm : ∀ a, 0 < S.m a)
    (ho : s = .all → ∀ b a, S.dynm b a = S.m a * S.nmf b) (pnm p : Conf n N) :
    kinmd S s bead nm pnm p = .ok ((∑ a ∈ s.atoms S.names, ∑ b, (∑ d, pnm (b, a, d) ^ 2)
      / (2 * S.dynm b a)) / ((n + 1 : ℕ) : ℝ)) := by
  have g1 : bead.getD (-1) < 0 := by
    cases bead with
    | none => simp
    | some k => simpa using hb k rfl
  have g2 : nm.getD (-1) < 0 := by
    cases nm with
    | none => simp
    | some k => simpa using hn k rfl
  have g3 : ¬ (bead.isSome = true ∧ nm.isSome = true) := by
    rcases h1 with h | h <;> simp [h]
  unfold kinmd
  rw [if_neg g3, hs]
  have c1 : ¬ ((n + 1 : ℕ) : ℤ) ≤ bead.getD (-1) := by omega
  have c2 : ¬ ((n + 1 : ℕ) : ℤ) ≤ nm.getD (-1) := by omega
  have c3 : ¬ 0 ≤ bead.getD (-1) := by omega
  have c4 : ¬ 0 ≤ nm.getD (-1) := by omega
  simp only [c1, c2, c3, c4, if_false]
  cases s with
  | all =>
      change Except.ok _ = Except.ok _
      congr 2
      unfold MD.kin
      rw [Finset.sum_comm]
      have ha : Sel.atoms S.names Sel.all = univ := by
        ext i; simp [Sel.atoms, Sel.takes]
      rw [ha]
      refine Finset.sum_congr rfl fun b _ => ?_
      rw [Finset.mul_sum, Finset.sum_div]
      refine Finset.sum_congr rfl fun a _ => ?_
      rw [ho rfl b a]
      simp only [div_pow, Real.sq_sqrt (hm a).le]
      rw [← Finset.sum_div]
      by_cases hz : S.nmf b = 0
      · simp [hz]
      · have := (hm a).ne'
        rw [show (0.5 : ℝ) = 1 / 2 by norm_num]
        field_simp
  | idx k => rfl
  | label l => rfl

theorem kinmd_mode (S : MD n N) (s : Sel) (hs : s.check N = .ok ()) (k : Fin (n + 1))
    (pnm p : Conf n N) :
    kinmd S s none (some (k : ℤ)) pnm p
      = .ok (∑ a ∈ s.atoms S.names, (∑ d, pnm (k, a, d) ^ 2) / (2 * S.dynm k a)) := by
  unfold kinmd
  rw [if_neg (by simp), hs]
  have c2 : ¬ ((n + 1 : ℕ) : ℤ) ≤ (k : ℤ) := by omega
  have c4 : (0 : ℤ) ≤ (k : ℤ) := by omega
  have c5 : Fin.ofNat (n + 1) ((k : ℕ) : ℤ).toNat = k := by
    ext; simp [Fin.ofNat, Nat.mod_eq_of_lt k.2]
  have c1 : ¬ ((n + 1 : ℕ) : ℤ) ≤ -1 := by omega
  simp only [Option.getD_none, Option.getD_some, c1, c2, c4, if_false, if_true, c5]
  simp only [show ¬ (0 : ℤ) ≤ -1 by omega, if_false, div_one]
  rfl

theorem kinmd_bead (S : MD n N) (s : Sel) (hs : s.check N = .ok ()) (k : Fin (n + 1))
    (hd : ∀ a ∈ s.atoms S.names, ∀ b, S.dynm b a = S.dynm 0 a) (pnm p : Conf n N) :
    kinmd S s (some (k : ℤ)) none pnm p
      = .ok (∑ a ∈ s.atoms S.names, (∑ d, p (k, a, d) ^ 2) / (2 * S.m a)) := by
  unfold kinmd
  rw [if_neg (by simp), hs]
  have c2 : ¬ ((n + 1 : ℕ) : ℤ) ≤ (k : ℤ) := by omega
  have c4 : (0 : ℤ) ≤ (k : ℤ) := by omega
  have c5 : Fin.ofNat (n + 1) ((k : ℕ) : ℤ).toNat = k := by
    ext; simp [Fin.ofNat, Nat.mod_eq_of_lt k.2]
  have c1 : ¬ ((n + 1 : ℕ) : ℤ) ≤ -1 := by omega
  have c6 : ¬ ∃ a ∈ s.atoms S.names, ∃ b, S.dynm b a ≠ S.dynm 0 a := by
    rintro ⟨a, ha, b, hb⟩
    exact hb (hd a ha b)
  simp only [Option.getD_none, Option.getD_some, c1, c2, c4, c6, if_false, if_true, c5, div_one]
  rfl

/-- The temperature printed for a kinetic energy with the mean of `x` coordinates when `e` are
counted as held. -/
theorem temp_of_count {Ω : Type} [MeasurableSpace Ω] (μ : Measure Ω) [IsProbabilityMeasure μ]
    (S : MD n N) (s : Sel) (bead nm : Option ℤ) (pnm p : Ω → Conf n N) (hk : 0 < S.kB) (hT : 0 < S.T)
    (hne : (s.atoms S.names).Nonempty) (ke : Ω → ℝ) (hi : Integrable ke μ)
    (hke : ∀ w, kinmd S s bead nm (pnm w) (p w) = .ok (ke w)) (e x : ℝ)
    (he : heldDof S s nm = some e) (hmean : ∫ w, ke w ∂μ = 0.5 * S.kB * S.T * x) :
    ∃ τ : Ω → ℝ, (∀ w, temp S s bead nm (pnm w) (p w) = .ok (τ w)) ∧
      ∫ w, τ w ∂μ = S.T * ((x + e) / (3 * ((s.atoms S.names).card : ℝ) * ((n + 1 : ℕ) : ℝ))) := by
  have hc : (s.atoms S.names).card ≠ 0 := Finset.card_ne_zero.2 hne
  refine ⟨fun w => 2 * (ke w + 0.5 * S.kB * S.T * e)
    / (S.kB * 3 * ((s.atoms S.names).card : ℝ) * ((n + 1 : ℕ) : ℝ)), ?_, ?_⟩
  · intro w
    unfold temp
    rw [hke w]
    simp only [bind, Except.bind, if_pos hT, he, if_neg hc, pure, Except.pure]
  · simp only [div_eq_mul_inv]
    rw [integral_mul_const, integral_const_mul, integral_add hi (integrable_const _), hmean]
    have h1 : ((s.atoms S.names).card : ℝ) ≠ 0 := by exact_mod_cast hc
    have h2 : ((n + 1 : ℕ) : ℝ) ≠ 0 := by positivity
    simp only [integral_const, probReal_univ, one_smul]
    rw [show (0.5 : ℝ) = 1 / 2 by norm_num]
    field_simp

/-- The temperature from a kinetic energy whose mean is that of all but `e` coordinates. -/
theorem temp_of_kin {Ω : Type} [MeasurableSpace Ω] (μ : Measure Ω) [IsProbabilityMeasure μ]
    (S : MD n N) (s : Sel) (bead nm : Option ℤ) (pnm p : Ω → Conf n N) (hk : 0 < S.kB) (hT : 0 < S.T)
    (hne : (s.atoms S.names).Nonempty) (ke : Ω → ℝ) (hi : Integrable ke μ)
    (hke : ∀ w, kinmd S s bead nm (pnm w) (p w) = .ok (ke w)) (e : ℝ)
    (he : heldDof S s nm = some e)
    (hmean : ∫ w, ke w ∂μ = 0.5 * S.kB * S.T
      * (3 * ((s.atoms S.names).card : ℝ) * ((n + 1 : ℕ) : ℝ) - e)) :
    ∃ τ : Ω → ℝ, (∀ w, temp S s bead nm (pnm w) (p w) = .ok (τ w)) ∧ ∫ w, τ w ∂μ = S.T := by
  obtain ⟨τ, h1, h2⟩ := temp_of_count μ S s bead nm pnm p hk hT hne ke hi hke e _ he hmean
  refine ⟨τ, h1, h2.trans ?_⟩
  have h1 : ((s.atoms S.names).card : ℝ) ≠ 0 := by exact_mod_cast Finset.card_ne_zero.2 hne
  have h2 : ((n + 1 : ℕ) : ℝ) ≠ 0 := by positivity
  rw [sub_add_cancel, div_self (by positivity), mul_one]

/-- The mean kinetic energy of a normal mode of an atom. -/
theorem mode_mean {Ω : Type} [MeasurableSpace Ω] {μ : Measure Ω} {S : MD n N}
    (hd : ∀ b a, 0 < S.dynm b a) {pnm : Ω → Conf n N} (hE : Equil S μ pnm) (b a) :
    ∫ w, (∑ d, pnm w (b, a, d) ^ 2) / (2 * S.dynm b a) ∂μ
      = 0.5 * S.kB * S.T * (((n + 1 : ℕ) : ℝ) * ∑ d, share S b a d) := by
  simp only [div_eq_mul_inv]
  rw [integral_mul_const, integral_finsetSum _ fun d _ => hE.int _]
  simp only [hE.mean]
  rw [← Finset.sum_mul]
  have := (hd b a).ne'
  rw [show (0.5 : ℝ) = 1 / 2 by norm_num]
  field_simp

/-- The mean kinetic energy of the selected atoms. -/
theorem avg_mean {Ω : Type} [MeasurableSpace Ω] {μ : Measure Ω} {S : MD n N}
    (hd : ∀ b a, 0 < S.dynm b a) {pnm : Ω → Conf n N} (hE : Equil S μ pnm) (ids : Finset (Fin N)) :
    Integrable (fun w => (∑ a ∈ ids, ∑ b, (∑ d, pnm w (b, a, d) ^ 2) / (2 * S.dynm b a))
      / ((n + 1 : ℕ) : ℝ)) μ ∧
    ∫ w, (∑ a ∈ ids, ∑ b, (∑ d, pnm w (b, a, d) ^ 2) / (2 * S.dynm b a)) / ((n + 1 : ℕ) : ℝ) ∂μ
      = 0.5 * S.kB * S.T * ∑ a ∈ ids, ∑ d, ∑ b, share S b a d := by
  have hterm : ∀ b a, Integrable (fun w => (∑ d, pnm w (b, a, d) ^ 2) / (2 * S.dynm b a)) μ :=
    fun b a => (integrable_finsetSum _ fun d _ => hE.int _).div_const _
  refine ⟨(integrable_finsetSum _ fun a _ => integrable_finsetSum _ fun b _ => hterm b a).div_const _,
    ?_⟩
  have hmean := mode_mean hd hE
  simp only [div_eq_mul_inv] at hterm hmean ⊢
  rw [integral_mul_const, integral_finsetSum _ fun a _ => integrable_finsetSum _ fun b _ => hterm b a]
  simp only [integral_finsetSum _ fun b _ => hterm b _, hmean]
  simp only [← Finset.mul_sum]
  have h2 : ((n + 1 : ℕ) : ℝ) ≠ 0 := by positivity
  have h3 : ∀ a, ∑ d, ∑ b, share S b a d = ∑ b, ∑ d, share S b a d := fun a => Finset.sum_comm
  simp only [h3]
  field_simp

/-- **The average of the printed temperature is the temperature of the ensemble**, for any selection
of atoms, of the whole ring polymer or of a normal mode. -/
theorem temp_mean_partial {Ω : Type} [MeasurableSpace Ω] (μ : Measure Ω) [IsProbabilityMeasure μ]
    (S : MD n N) (hS : Single S) (hk : 0 < S.kB) (hT : 0 < S.T) (hm : ∀ a, 0 < S.m a)
    (hd : ∀ b a, 0 < S.dynm b a) (pnm p : Ω → Conf n N) (hE : Equil S μ pnm)
    (s : Sel) (hs : s.check N = .ok ()) (hne : (s.atoms S.names).Nonempty)
    (nm : Option ℤ) (hnm : ∀ k, nm = some k → k < ((n + 1 : ℕ) : ℤ)) (hb : ¬ BadCount S nm)
    (ho : s = .all → (∀ k, nm = some k → k < 0) → ∀ b a, S.dynm b a = S.m a * S.nmf b) :
    ∃ τ : Ω → ℝ, (∀ w, temp S s none nm (pnm w) (p w) = .ok (τ w)) ∧ ∫ w, τ w ∂μ = S.T := by
  have hterm : ∀ b a, Integrable (fun w => (∑ d, pnm w (b, a, d) ^ 2) / (2 * S.dynm b a)) μ :=
    fun b a => (integrable_finsetSum _ fun d _ => hE.int _).div_const _
  have hmean := mode_mean hd hE
  by_cases hpos : ∃ k, nm = some k ∧ 0 ≤ k
  · obtain ⟨k, rfl, hk0⟩ := hpos
    have hkn := hnm k rfl
    obtain ⟨j, rfl⟩ : ∃ j : Fin (n + 1), k = (j : ℤ) :=
      ⟨⟨k.toNat, by omega⟩, by simp [hk0]⟩
    obtain ⟨e, he, hsum⟩ := held_mode hS s j hb
    refine temp_of_kin μ S s none _ pnm p hk hT hne _
      (integrable_finsetSum _ fun a _ => hterm j a) (fun w => kinmd_mode S s hs j _ _) e he ?_
    rw [integral_finsetSum _ fun a _ => hterm j a, ← hsum]
    simp only [hmean, ← Finset.mul_sum]
  · have hneg : ∀ k, nm = some k → k < 0 := by
      intro k hk'
      by_contra h
      exact hpos ⟨k, hk', by omega⟩
    obtain ⟨e, he, hsum⟩ := held_all hS s nm hneg
    obtain ⟨hi, hav⟩ := avg_mean hd hE (s.atoms S.names)
    exact temp_of_kin μ S s none nm pnm p hk hT hne _ hi
      (fun w => kinmd_avg S s hs none nm (.inl rfl) (by simp) hneg hm (fun h => ho h hneg) _ _) e he
      (by rw [hav, hsum])

/-- The same for a single bead, for modes with the physical masses.  The momenta of the beads are
those of the normal modes transformed by an orthogonal matrix whose first column is constant. -/
theorem temp_bead_mean {Ω : Type} [MeasurableSpace Ω] (μ : Measure Ω) [IsProbabilityMeasure μ]
    (S : MD n N) (hS : Single S) (hk : 0 < S.kB) (hT : 0 < S.T) (hm : ∀ a, 0 < S.m a)
    (hd : ∀ b a, S.dynm b a = S.m a) (pnm p : Ω → Conf n N) (hE : Equil S μ pnm)
    (hU : Uncorr μ pnm) (C : Fin (n + 1) → Fin (n + 1) → ℝ)
    (hp : ∀ w b a d, p w (b, a, d) = ∑ k, C b k * pnm w (k, a, d))
    (hC : ∀ b, ∑ k, C b k ^ 2 = 1) (hC0 : ∀ b, C b 0 ^ 2 = 1 / ((n + 1 : ℕ) : ℝ))
    (s : Sel) (hs : s.check N = .ok ()) (hne : (s.atoms S.names).Nonempty) (b : Fin (n + 1)) :
    ∃ τ : Ω → ℝ, (∀ w, temp S s (some (b : ℤ)) none (pnm w) (p w) = .ok (τ w))
      ∧ ∫ w, τ w ∂μ = S.T := by
  have hprod : ∀ a d k l, Integrable (fun w => pnm w (k, a, d) * pnm w (l, a, d)) μ := by
    intro a d k l
    by_cases h : k = l
    · subst h
      simpa only [pow_two] using hE.int (k, a, d)
    · exact (hU a d k l h).1
  have hval : ∀ a d k l, ∫ w, pnm w (k, a, d) * pnm w (l, a, d) ∂μ
      = if k = l then share S k a d * (S.m a * (S.kB * ((n + 1 : ℕ) : ℝ) * S.T)) else 0 := by
    intro a d k l
    by_cases h : k = l
    · subst h
      have := hE.mean k a d
      rw [hd] at this
      rw [if_pos rfl, ← this]
      simp only [pow_two]
    · rw [if_neg h]
      exact (hU a d k l h).2
  have hexp : ∀ a d w, p w (b, a, d) ^ 2
      = ∑ k, ∑ l, C b k * C b l * (pnm w (k, a, d) * pnm w (l, a, d)) := by
    intro a d w
    rw [pow_two, hp, Finset.sum_mul_sum]
    exact Finset.sum_congr rfl fun k _ => Finset.sum_congr rfl fun l _ => by ring
  have hI : ∀ a d k, Integrable (fun w => ∑ l, C b k * C b l * (pnm w (k, a, d) * pnm w (l, a, d))) μ :=
    fun a d k => integrable_finsetSum _ fun l _ => (hprod a d k l).const_mul _
  have hint : ∀ a d, Integrable (fun w => p w (b, a, d) ^ 2) μ := by
    intro a d
    simp only [hexp]
    exact integrable_finsetSum _ fun k _ => hI a d k
  have hshare : ∀ a d, ∑ k, C b k ^ 2 * share S k a d
      = (∑ k, share S k a d) / ((n + 1 : ℕ) : ℝ) := by
    intro a d
    have h1 := hC b
    rw [Fin.sum_univ_succ] at h1 ⊢
    rw [Fin.sum_univ_succ (f := fun k => share S k a d)]
    simp only [share_tail, ← Finset.sum_mul, hC0] at h1 ⊢
    have h2 : ∑ i : Fin n, C b i.succ ^ 2 = 1 - 1 / ((n + 1 : ℕ) : ℝ) := by linarith
    rw [h2]
    have h3 : ((n + 1 : ℕ) : ℝ) ≠ 0 := by positivity
    simp only [Finset.sum_const, Finset.card_univ, Fintype.card_fin, nsmul_eq_mul]
    field_simp
    push_cast
    ring
  have hmean : ∀ a d, ∫ w, p w (b, a, d) ^ 2 ∂μ
      = (∑ k, share S k a d) * (S.m a * (S.kB * S.T)) := by
    intro a d
    simp only [hexp]
    rw [integral_finsetSum _ fun k _ => hI a d k]
    have : ∀ k, ∫ w, ∑ l, C b k * C b l * (pnm w (k, a, d) * pnm w (l, a, d)) ∂μ
        = C b k ^ 2 * share S k a d * (S.m a * (S.kB * ((n + 1 : ℕ) : ℝ) * S.T)) := by
      intro k
      rw [integral_finsetSum _ fun l _ => (hprod a d k l).const_mul _]
      simp only [integral_const_mul, hval, mul_ite, mul_zero, Finset.sum_ite_eq, Finset.mem_univ,
        if_true]
      ring
    simp only [this]
    rw [← Finset.sum_mul, hshare]
    have h3 : ((n + 1 : ℕ) : ℝ) ≠ 0 := by positivity
    field_simp
  obtain ⟨e, he, hsum⟩ := held_all hS s none (by simp)
  have hterm : ∀ a, Integrable (fun w => (∑ d, p w (b, a, d) ^ 2) / (2 * S.m a)) μ :=
    fun a => (integrable_finsetSum _ fun d _ => hint a d).div_const _
  refine temp_of_kin μ S s _ none pnm p hk hT hne _ (integrable_finsetSum _ fun a _ => hterm a)
    (fun w => kinmd_bead S s hs b (fun a _ c => by rw [hd, hd]) _ _) e he ?_
  rw [integral_finsetSum _ fun a _ => hterm a, ← hsum, Finset.mul_sum]
  refine Finset.sum_congr rfl fun a _ => ?_
  simp only [div_eq_mul_inv]
  rw [integral_mul_const, integral_finsetSum _ fun d _ => hint a d]
  simp only [hmean]
  rw [← Finset.sum_mul]
  have := (hm a).ne'
  rw [show (0.5 : ℝ) = 1 / 2 by norm_num]
  field_simp

/-! ### Where it fails -/

/-- A fixed centroid, fixed coordinates and the centroid mode: the held coordinates are counted
again, and the average is too high. -/
theorem temp_cc_centroid {Ω : Type} [MeasurableSpace Ω] (μ : Measure Ω) [IsProbabilityMeasure μ]
    (S : MD n N) (hcc : S.mov.enstype = some (some "nvt-cc")) (hf : S.mov.fix ≠ [])
    (hk : 0 < S.kB) (hT : 0 < S.T) (hd : ∀ b a, 0 < S.dynm b a) (pnm p : Ω → Conf n N)
    (hE : Equil S μ pnm) (s : Sel) (hs : s.check N = .ok ()) (hne : (s.atoms S.names).Nonempty) :
    ∃ τ : Ω → ℝ, (∀ w, temp S s none (some 0) (pnm w) (p w) = .ok (τ w)) ∧
      ∫ w, τ w ∂μ = S.T * (1 + (((s.atoms S.names ×ˢ univ).filter
        fun x : Fin N × Fin 3 => x ∈ S.mov.fix).card : ℝ) * n
          / (3 * ((s.atoms S.names).card : ℝ) * ((n + 1 : ℕ) : ℝ))) := by
  have hterm : ∀ a, Integrable (fun w => (∑ d, pnm w (0, a, d) ^ 2) / (2 * S.dynm 0 a)) μ :=
    fun a => (integrable_finsetSum _ fun d _ => hE.int _).div_const _
  have hm : ∫ w, ∑ a ∈ s.atoms S.names, (∑ d, pnm w (0, a, d) ^ 2) / (2 * S.dynm 0 a) ∂μ
      = 0.5 * S.kB * S.T * 0 := by
    rw [integral_finsetSum _ fun a _ => hterm a]
    simp only [mode_mean hd hE, share_cc hcc]
    simp
  have hh : heldDof S s (some 0) = some (((s.atoms S.names).card : ℝ) * 3 * ((n + 1 : ℕ) : ℝ)
      + (((s.atoms S.names ×ˢ univ).filter fun x : Fin N × Fin 3 => x ∈ S.mov.fix).card : ℝ)
        * (((n + 1 : ℕ) : ℝ) - 1)) := by
    unfold heldDof heldMode
    simp only [hcc, if_true, if_neg hf]
  obtain ⟨τ, h1, h2⟩ := temp_of_count μ S s none (some 0) pnm p hk hT hne _
    (integrable_finsetSum _ fun a _ => hterm a)
    (fun w => by simpa using kinmd_mode S s hs 0 (pnm w) (p w)) _ 0 hh hm
  refine ⟨τ, h1, h2.trans ?_⟩
  have g1 : ((s.atoms S.names).card : ℝ) ≠ 0 := by exact_mod_cast Finset.card_ne_zero.2 hne
  have g2 : ((n : ℝ) + 1) ≠ 0 := by positivity
  push_cast
  field_simp
  ring

/-- For the other modes it is too low: a held coordinate is counted with one bead too few. -/
theorem temp_cc_mode {Ω : Type} [MeasurableSpace Ω] (μ : Measure Ω) [IsProbabilityMeasure μ]
    (S : MD n N) (hcc : S.mov.enstype = some (some "nvt-cc")) (hf : S.mov.fix ≠ [])
    (hk : 0 < S.kB) (hT : 0 < S.T) (hd : ∀ b a, 0 < S.dynm b a) (pnm p : Ω → Conf n N)
    (hE : Equil S μ pnm) (s : Sel) (hs : s.check N = .ok ()) (hne : (s.atoms S.names).Nonempty)
    (k : Fin (n + 1)) (h0 : k ≠ 0) :
    ∃ τ : Ω → ℝ, (∀ w, temp S s none (some (k : ℤ)) (pnm w) (p w) = .ok (τ w)) ∧
      ∫ w, τ w ∂μ = S.T * (1 - (((s.atoms S.names ×ˢ univ).filter
        fun x : Fin N × Fin 3 => x ∈ S.mov.fix).card : ℝ)
          / (3 * ((s.atoms S.names).card : ℝ) * ((n + 1 : ℕ) : ℝ))) := by
  have hterm : ∀ a, Integrable (fun w => (∑ d, pnm w (k, a, d) ^ 2) / (2 * S.dynm k a)) μ :=
    fun a => (integrable_finsetSum _ fun d _ => hE.int _).div_const _
  have hfree := sum_free (s.atoms S.names) S.mov.fix
  have hm : ∫ w, ∑ a ∈ s.atoms S.names, (∑ d, pnm w (k, a, d) ^ 2) / (2 * S.dynm k a) ∂μ
      = 0.5 * S.kB * S.T * (((n + 1 : ℕ) : ℝ) * (3 * ((s.atoms S.names).card : ℝ)
        - (((s.atoms S.names ×ˢ univ).filter fun x : Fin N × Fin 3 => x ∈ S.mov.fix).card : ℝ))) := by
    rw [integral_finsetSum _ fun a _ => hterm a]
    simp only [mode_mean hd hE, share_cc hcc, ← Finset.mul_sum, if_neg h0, one_mul]
    rw [hfree]
  have hk0 : ¬ ((k : ℕ) : ℤ) = 0 := by
    intro h; apply h0; ext; simpa using h
  have hk1 : 0 < ((k : ℕ) : ℤ) := by omega
  have hh : heldDof S s (some (k : ℤ)) = some (0
      + (((s.atoms S.names ×ˢ univ).filter fun x : Fin N × Fin 3 => x ∈ S.mov.fix).card : ℝ)
        * (((n + 1 : ℕ) : ℝ) - 1)) := by
    unfold heldDof heldMode
    simp only [hcc, if_true, if_neg hf, if_neg hk0, if_pos hk1]
  obtain ⟨τ, h1, h2⟩ := temp_of_count μ S s none (some (k : ℤ)) pnm p hk hT hne _
    (integrable_finsetSum _ fun a _ => hterm a)
    (fun w => kinmd_mode S s hs k (pnm w) (p w)) _ _ hh hm
  refine ⟨τ, h1, h2.trans ?_⟩
  have g1 : ((s.atoms S.names).card : ℝ) ≠ 0 := by exact_mod_cast Finset.card_ne_zero.2 hne
  have g2 : ((n : ℝ) + 1) ≠ 0 := by positivity
  push_cast
  field_simp
  ring

/-- A list of motions does not know the kind of ensemble: with coordinates held by all of them the
temperature cannot be printed. -/
theorem temp_multi_fails (S : MD n N) (m : Mover N) (ms : List (Mover N)) (hm : S.mov = m.multi ms)
    (hf : S.mov.fix ≠ []) (hT : 0 < S.T) (s : Sel) (nm : Option ℤ) (pnm p : Conf n N) (ke : ℝ)
    (hk : kinmd S s none nm pnm p = .ok ke) : temp S s none nm pnm p = .error .attribute := by
  have hh : heldDof S s nm = none := by
    unfold heldDof
    simp only [if_neg hf]
    rw [hm]
    rfl
  unfold temp
  rw [hk]
  simp only [bind, Except.bind, if_pos hT, hh]
  rfl

/-- Molecular dynamics with a fixed centre of mass in a list with a motion that does not fix it (a
temperature ramp): the average is too low. -/
theorem temp_multi_com {Ω : Type} [MeasurableSpace Ω] (μ : Measure Ω) [IsProbabilityMeasure μ]
    (S : MD n N) (hS : Single S) (hcom : S.mov.fixcom = true)
    (hcc : S.mov.enstype ≠ some (some "nvt-cc")) (other : Mover N) (ho : other.fixcom = false)
    (hk : 0 < S.kB) (hT : 0 < S.T) (hm : ∀ a, 0 < S.m a) (hd : ∀ b a, 0 < S.dynm b a)
    (hmass : ∀ b a, S.dynm b a = S.m a * S.nmf b) (pnm p : Ω → Conf n N)
    (hE : Equil S μ pnm) (s : Sel) (hs : s.check N = .ok ()) (hne : (s.atoms S.names).Nonempty) :
    ∃ τ : Ω → ℝ, (∀ w, temp { S with mov := S.mov.multi [other] } s none none (pnm w) (p w)
        = .ok (τ w)) ∧
      ∫ w, τ w ∂μ = S.T * (1 - ((∑ a ∈ s.atoms S.names, S.m a) / ∑ a, S.m a)
          / (((s.atoms S.names).card : ℝ) * ((n + 1 : ℕ) : ℝ))) := by
  have hf := hS.com hcom
  obtain ⟨hi, hav⟩ := avg_mean hd hE (s.atoms S.names)
  have hx : ∑ a ∈ s.atoms S.names, ∑ d, ∑ b, share S b a d
      = 3 * ((s.atoms S.names).card : ℝ) * ((n + 1 : ℕ) : ℝ)
        - 3 * ((∑ a ∈ s.atoms S.names, S.m a) / ∑ a, S.m a) := by
    simp only [share_com hcc hcom hf, Finset.sum_sub_distrib]
    simp only [Finset.sum_ite_eq', Finset.mem_univ, if_true, Finset.sum_const, Finset.card_univ,
      Fintype.card_fin, nsmul_eq_mul, mul_one, ← Finset.mul_sum, ← Finset.sum_div]
    push_cast
    ring
  have hh : heldDof { S with mov := S.mov.multi [other] } s none = some 0 := by
    unfold heldDof heldMode Mover.multi
    simp [ho, hf]
  obtain ⟨τ, h1, h2⟩ := temp_of_count μ { S with mov := S.mov.multi [other] } s none none pnm p hk hT
    hne _ hi (fun w => by
      exact kinmd_avg { S with mov := S.mov.multi [other] } s hs none none (.inl rfl) (by simp)
        (by simp) hm (fun _ => hmass) (pnm w) (p w)) 0 _ hh hav
  refine ⟨τ, h1, h2.trans ?_⟩
  rw [hx]
  have g1 : ((s.atoms S.names).card : ℝ) ≠ 0 := by exact_mod_cast Finset.card_ne_zero.2 hne
  have g2 : ((n + 1 : ℕ) : ℝ) ≠ 0 := by positivity
  simp only
  field_simp
  ring

/-- With open paths and scaled masses the kinetic energy of the system is not the sum of those of
its atoms: `nm.kin` uses the scaling of the ring polymers. -/
theorem kin_open : ∃ (S : MD 1 1) (pnm : Conf 1 1) (x y : ℝ), (∀ b a, 0 < S.dynm b a) ∧
    kinmd S .all none none pnm pnm = .ok x ∧ kinmd S (.idx 0) none none pnm pnm = .ok y ∧
    x ≠ y := by
  refine ⟨{ kB := 1, T := 1, m := fun _ => 1, names := fun _ => "H", mov := ⟨some (some "nvt"), false, []⟩,
            nmf := fun _ => 1, onmf := fun _ => 2, openp := {0} }, fun x => if x = (1, 0, 0) then 1 else 0,
    _, _, ?_, rfl, rfl, ?_⟩
  · intro b a
    simp only [MD.dynm]
    split <;> norm_num
  · have ha : Sel.atoms (fun _ : Fin 1 => "H") (.idx 0) = {0} := by decide
    simp only [MD.kin, ha, MD.dynm, Finset.sum_singleton, Fin.sum_univ_two, Fin.sum_univ_three,
      Finset.univ_unique, Fin.default_eq_zero]
    simp
    norm_num

/-! ### Equilibria exist -/

theorem uniform_integral (g : Fin (n + 1) → ℝ) :
    ∫ w, g w ∂(PMF.uniformOfFintype (Fin (n + 1))).toMeasure = (∑ w, g w) / ((n + 1 : ℕ) : ℝ) := by
  rw [PMF.integral_eq_sum, Finset.sum_div]
  refine Finset.sum_congr rfl fun w _ => ?_
  simp only [PMF.uniformOfFintype_apply, Fintype.card_fin, ENNReal.toReal_inv,
    ENNReal.toReal_natCast, smul_eq_mul]
  ring

/-- For every simulation with shares that are not negative there are momenta in equilibrium with
uncorrelated normal modes. -/
theorem equil_exists (S : MD n N) (hk : 0 < S.kB) (hT : 0 < S.T) (hd : ∀ b a, 0 < S.dynm b a)
    (hs : ∀ b a d, 0 ≤ share S b a d) :
    ∃ pnm : Fin (n + 1) → Conf n N,
      Equil S (PMF.uniformOfFintype (Fin (n + 1))).toMeasure pnm ∧
      Uncorr (PMF.uniformOfFintype (Fin (n + 1))).toMeasure pnm := by
  refine ⟨fun w x => if w = x.1 then √(((n + 1 : ℕ) : ℝ) * (share S x.1 x.2.1 x.2.2
      * (S.dynm x.1 x.2.1 * (S.kB * ((n + 1 : ℕ) : ℝ) * S.T)))) else 0, ⟨?_, ?_⟩, ?_⟩
  · intro x
    exact Integrable.of_finite
  · intro b a d
    rw [uniform_integral]
    have h0 : 0 ≤ ((n + 1 : ℕ) : ℝ) * (share S b a d * (S.dynm b a * (S.kB * ((n + 1 : ℕ) : ℝ) * S.T))) := by
      have := hs b a d
      have := (hd b a).le
      positivity
    simp only [ite_pow, Real.sq_sqrt h0]
    simp only [ne_eq, OfNat.ofNat_ne_zero, not_false_eq_true, zero_pow, Finset.sum_ite_eq',
      Finset.mem_univ, if_true]
    have h3 : ((n + 1 : ℕ) : ℝ) ≠ 0 := by positivity
    field_simp
  · intro a d b c h
    refine ⟨Integrable.of_finite, ?_⟩
    rw [uniform_integral]
    rw [Finset.sum_eq_zero, zero_div]
    intro w _
    by_cases h1 : w = b
    · have : w ≠ c := fun h2 => h (h1.symm.trans h2)
      simp [this]
    · simp [h1]

end

/-- Two beads of two atoms of different mass with a fixed centre of mass. -/
noncomputable def exMD : MD 1 2 :=
  { kB := 1, T := 1, m := ![1, 3], names := ![ "H", "O"], mov := ⟨some (some "nvt"), true, []⟩,
    nmf := fun _ => 1, onmf := fun _ => 1, openp := ∅ }

theorem exMD_dynm (b a) : exMD.dynm b a = exMD.m a := by
  simp [MD.dynm, exMD]

theorem exMD_m (a) : 0 < exMD.m a := by
  fin_cases a <;> simp [exMD]

example : ∃ pnm : Fin 2 → Conf 1 2, ∃ τ : Fin 2 → ℝ,
    (∀ w, temp exMD (.label "H") none (some 0) (pnm w) (pnm w) = .ok (τ w)) ∧
    ∫ w, τ w ∂(PMF.uniformOfFintype (Fin 2)).toMeasure = 1 := by
  have hsh : ∀ b a d, 0 ≤ share exMD b a d := by
    intro b a d
    unfold share
    have : ∑ a, exMD.m a = 4 := by simp [exMD]; norm_num
    rw [this]
    fin_cases a <;> (simp [exMD]; split <;> norm_num)
  have hS : Single exMD := ⟨by simp [exMD], fun _ => rfl⟩
  have hd : ∀ b a, 0 < exMD.dynm b a := fun b a => by rw [exMD_dynm]; exact exMD_m a
  obtain ⟨pnm, hE, _⟩ := equil_exists exMD (by simp [exMD]) (by simp [exMD]) hd hsh
  obtain ⟨τ, h1, h2⟩ := temp_mean_partial _ exMD hS (by simp [exMD]) (by simp [exMD]) exMD_m hd pnm pnm hE
    (.label "H") rfl ⟨0, by simp [Sel.atoms, Sel.takes, exMD]⟩ (some 0)
    (fun k hk => by cases hk; norm_num) (fun h => h.2.1 rfl)
    (fun h => (nomatch h))
  exact ⟨pnm, τ, h1, h2⟩

end Verif.Estim
