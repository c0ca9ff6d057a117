import Verif.Phys.Vscf
import Mathlib.Analysis.Calculus.Deriv.Add
import Mathlib.Analysis.Calculus.Deriv.Mul
import Mathlib.Analysis.Calculus.Deriv.Pow
import Mathlib.Analysis.Calculus.Deriv.Comp
import Mathlib.Algebra.Order.Archimedean.Basic
import Mathlib.Tactic.FieldSimp
import Mathlib.Tactic.Ring
import Mathlib.Tactic.Linarith
import Mathlib.Tactic.NormNum

/-!
# C149: the table of energies along a normal mode

Which displacements are visited, and what is recorded there.
-/

namespace Verif.Vscf

open Finset

/-! ## Specification -/

/-- The potential per primitive cell as a function of the displacement `q` per primitive cell, counted
from the minimum and without its harmonic part. -/
noncomputable def Surf.anh (S : Surf) (q : ℝ) : ℝ :=
  S.U (Real.sqrt S.nprim * q) / S.nprim - S.U 0 / S.nprim - 1 / 2 * S.w2 * q ^ 2

/-! ## The loops -/

/-- The counters of a direction: the start and all multiples of the step up to the first at which the
test holds. -/
theorem sweep_eq {stop : ℤ → Prop} {δ : ℤ} : ∀ {fuel : ℕ} {c : ℤ} {acc l : List ℤ},
    sweep stop δ fuel c acc = some l →
    ∃ n : ℕ, l = acc ++ (List.range (n + 1)).map (fun i : ℕ => c + δ * i) ∧ stop (c + δ * n) ∧
      ∀ i < n, ¬stop (c + δ * i)
  | 0, _, _, _, h => by simp [sweep] at h
  | fuel + 1, c, acc, l, h => by
    rw [sweep] at h
    split at h
    · next hs =>
      refine ⟨0, ?_, by simpa using hs, by simp⟩
      simp only [Option.some.injEq] at h
      simp [← h]
    · next hs =>
      obtain ⟨n, hl, hn, hi⟩ := sweep_eq h
      refine ⟨n + 1, ?_, ?_, ?_⟩
      · rw [hl, List.range_succ_eq_map (n := n + 1), List.append_assoc]
        congr 1
        simp only [List.map_cons, List.map_map, Nat.cast_zero, mul_zero, add_zero,
          List.singleton_append]
        congr 1
        apply List.map_congr_left
        intro i _
        simp only [Function.comp, Nat.succ_eq_add_one, Nat.cast_add, Nat.cast_one]
        ring
      · have : c + δ * ((n + 1 : ℕ) : ℤ) = c + δ + δ * n := by push_cast; ring
        rw [this]; exact hn
      · intro i hi'
        cases i with
        | zero => simpa using hs
        | succ i =>
          have : c + δ * ((i + 1 : ℕ) : ℤ) = c + δ + δ * i := by push_cast; ring
          rw [this]; exact hi i (by omega)

/-- A direction ends exactly if the test holds at one of the counters. -/
theorem sweep_ends (stop : ℤ → Prop) (δ c : ℤ) (acc : List ℤ) :
    (∃ fuel, (sweep stop δ fuel c acc).isSome) ↔ ∃ n : ℕ, stop (c + δ * n) := by
  constructor
  · rintro ⟨fuel, h⟩
    obtain ⟨l, hl⟩ := Option.isSome_iff_exists.mp h
    obtain ⟨n, -, hn, -⟩ := sweep_eq hl
    exact ⟨n, hn⟩
  · rintro ⟨n, hn⟩
    induction n generalizing c acc with
    | zero => exact ⟨1, by simp only [Nat.cast_zero, mul_zero, add_zero] at hn; simp [sweep, hn]⟩
    | succ n ih =>
      by_cases hc : stop c
      · exact ⟨1, by simp [sweep, hc]⟩
      · have : c + δ * ((n + 1 : ℕ) : ℤ) = c + δ + δ * n := by push_cast; ring
        rw [this] at hn
        obtain ⟨fuel, hf⟩ := ih (c + δ) (acc ++ [c]) hn
        exact ⟨fuel + 1, by rw [sweep, if_neg hc]; exact hf⟩

/-! ## No displacement twice -/

/-- The counters of a pass. -/
def Counters (k : ℕ) (l : List ℤ) : Prop :=
  l.Nodup ∧ ∀ c ∈ l, c ≠ 0 ∧ (k ≠ 0 → c % 2 = 1)

theorem pass_counters {S : Surf} {emax fn rms : ℝ} {fuel k : ℕ} {m : List Sample}
    (h : pass S emax fn rms fuel k = some m) :
    ∃ l, Counters k l ∧ m = l.map (S.sample (spacing fn rms k)) := by
  rw [pass] at h
  split at h
  · simp at h
  next cp hp =>
  split at h
  · simp at h
  next cn hn =>
  simp only [Option.some.injEq] at h
  refine ⟨cp ++ cn, ?_, h.symm⟩
  obtain ⟨a, ha, -, -⟩ := sweep_eq hp
  obtain ⟨b, hb, -, -⟩ := sweep_eq hn
  simp only [List.nil_append] at ha hb
  have hd : delta k = 1 ∧ k = 0 ∨ delta k = 2 ∧ k ≠ 0 := by
    unfold delta
    by_cases hk : k = 0 <;> simp [hk]
  have hpos : 0 < delta k := by rcases hd with h | h <;> omega
  have hP : ∀ c ∈ cp, 0 < c ∧ (k ≠ 0 → c % 2 = 1) := by
    intro c hc
    rw [ha] at hc
    obtain ⟨i, -, rfl⟩ := List.mem_map.mp hc
    constructor
    · positivity
    · intro hk
      rcases hd with h | h
      · exact absurd h.2 hk
      · rw [h.1]; omega
  have hN : ∀ c ∈ cn, c < 0 ∧ (k ≠ 0 → c % 2 = 1) := by
    intro c hc
    rw [hb] at hc
    obtain ⟨i, -, rfl⟩ := List.mem_map.mp hc
    constructor
    · have : 0 ≤ delta k * (i : ℤ) := by positivity
      simp only [neg_mul]; omega
    · intro hk
      rcases hd with h | h
      · exact absurd h.2 hk
      · rw [h.1]; omega
  refine ⟨?_, ?_⟩
  · refine List.nodup_append.mpr ⟨?_, ?_, ?_⟩
    · rw [ha]
      refine (List.nodup_map_iff ?_).mpr List.nodup_range
      intro i j hij
      simp only [add_right_inj, mul_eq_mul_left_iff, Nat.cast_inj] at hij
      rcases hij with h | h
      · exact h
      · omega
    · rw [hb]
      refine (List.nodup_map_iff ?_).mpr List.nodup_range
      intro i j hij
      simp only [add_right_inj, mul_eq_mul_left_iff, Nat.cast_inj] at hij
      rcases hij with h | h
      · exact h
      · omega
    · intro x hx y hy e
      have := (hP x hx).1
      have := (hN y hy).1
      omega
  · intro c hc
    rcases List.mem_append.mp hc with h | h
    · exact ⟨(hP c h).1.ne', (hP c h).2⟩
    · exact ⟨(hN c h).1.ne, (hN c h).2⟩

/-- Displacements of different passes are different. -/
theorem spacing_ne {fn rms : ℝ} (hs : fn * rms ≠ 0) {k k' : ℕ} (hk : k < k') {c c' : ℤ}
    (hc' : c' % 2 = 1) : spacing fn rms k * c ≠ spacing fn rms k' * c' := by
  intro h
  obtain ⟨e, rfl⟩ := Nat.exists_eq_add_of_lt hk
  have h2 : (2 : ℝ) ^ (e + 1) * c = c' := by
    unfold spacing at h
    have hf : fn ≠ 0 := left_ne_zero_of_mul hs
    have hr : rms ≠ 0 := right_ne_zero_of_mul hs
    rw [show k + e + 1 = k + (e + 1) from rfl, pow_add, one_div, inv_pow, inv_pow] at h
    have h2k : (2 : ℝ) ^ k ≠ 0 := by positivity
    have h2e : (2 : ℝ) ^ (e + 1) ≠ 0 := by positivity
    field_simp at h
    linarith
  have h3 : (2 : ℤ) ^ (e + 1) * c = c' := by exact_mod_cast h2
  rw [← h3, pow_succ, mul_assoc] at hc'
  have : (2 ^ e * (2 * c)) % 2 = 0 := by
    rw [show (2 : ℤ) ^ e * (2 * c) = 2 * (2 ^ e * c) by ring]
    omega
  omega

/-- **C149.** However often the density of the samples is doubled, no displacement occurs twice in the
table of a mode. -/
theorem table_nodup {S : Surf} {emax fn rms : ℝ} (hs : fn * rms ≠ 0) {fuel : ℕ} :
    ∀ {n : ℕ} {l : List Sample}, table S emax fn rms fuel n = some l → (l.map Sample.q).Nodup := by
  have key : ∀ {n : ℕ} {l : List Sample}, table S emax fn rms fuel n = some l →
      (l.map Sample.q).Nodup ∧
      ∀ q ∈ l.map Sample.q, q = 0 ∨ ∃ k < n, ∃ c : ℤ, c ≠ 0 ∧ q = spacing fn rms k * c := by
    intro n
    induction n with
    | zero =>
      intro l h
      simp only [table, Option.some.injEq] at h
      simp [← h]
    | succ n ih =>
      intro l h
      rw [table] at h
      split at h
      · simp at h
      next l0 hl0 =>
      split at h
      · simp at h
      next m hm =>
      simp only [Option.some.injEq] at h
      obtain ⟨h1, h2⟩ := ih hl0
      obtain ⟨cs, ⟨hc1, hc2⟩, hc3⟩ := pass_counters hm
      have hne : spacing fn rms n ≠ 0 := by
        unfold spacing
        have := left_ne_zero_of_mul hs
        have := right_ne_zero_of_mul hs
        positivity
      have hq : m.map Sample.q = cs.map fun c : ℤ => spacing fn rms n * c := by
        rw [hc3, List.map_map]; rfl
      rw [← h, List.map_append]
      refine ⟨List.nodup_append.mpr ⟨h1, ?_, ?_⟩, ?_⟩
      · rw [hq]
        refine (List.nodup_map_iff ?_).mpr hc1
        intro a b hab
        have := mul_left_cancel₀ hne hab
        exact_mod_cast this
      · intro x hx y hy e
        rw [hq] at hy
        obtain ⟨c, hc, rfl⟩ := List.mem_map.mp hy
        obtain ⟨hc0, hodd⟩ := hc2 c hc
        rcases h2 x hx with h | ⟨k, hk, c0, -, h⟩
        · rw [h] at e
          have : (c : ℝ) ≠ 0 := by exact_mod_cast hc0
          exact mul_ne_zero hne this e.symm
        · rw [h] at e
          exact spacing_ne hs hk (hodd (by omega)) e
      · intro q hq'
        rcases List.mem_append.mp hq' with h | h
        · rcases h2 q h with h | ⟨k, hk, c, hc⟩
          · exact Or.inl h
          · exact Or.inr ⟨k, by omega, c, hc⟩
        · rw [hq] at h
          obtain ⟨c, hc, rfl⟩ := List.mem_map.mp h
          exact Or.inr ⟨n, by omega, c, (hc2 c hc).1, rfl⟩
  intro n l h
  exact (key h).1

/-! ## What is recorded -/

/-- **C149.** The energy recorded at any displacement is the anharmonic potential per primitive cell
there. -/
theorem dv_right (S : Surf) (nmd : ℝ) (c : ℤ) :
    (S.sample nmd c).v = S.anh (S.sample nmd c).q := by
  simp only [Surf.sample, Surf.dv, Surf.anh, Surf.v0]
  rw [show nmd * Real.sqrt S.nprim * (c : ℝ) = Real.sqrt S.nprim * (nmd * c) by ring]
  ring

/-- **C149.** Every line of a table has the energy of its displacement. -/
theorem table_right {S : Surf} {emax fn rms : ℝ} {fuel : ℕ} :
    ∀ {n : ℕ} {l : List Sample}, table S emax fn rms fuel n = some l →
      ∀ s ∈ l, s.v = S.anh s.q := by
  intro n
  induction n with
  | zero =>
    intro l h s hs
    simp only [table, Option.some.injEq] at h
    rw [← h, List.mem_singleton] at hs
    rw [hs]
    simp [Surf.anh]
  | succ n ih =>
    intro l h s hs
    rw [table] at h
    split at h
    · simp at h
    next l0 hl0 =>
    split at h
    · simp at h
    next m hm =>
    simp only [Option.some.injEq] at h
    rw [← h] at hs
    rcases List.mem_append.mp hs with h1 | h1
    · exact ih hl0 s h1
    · obtain ⟨cs, -, hc⟩ := pass_counters hm
      rw [hc] at h1
      obtain ⟨c, -, rfl⟩ := List.mem_map.mp h1
      exact dv_right S _ c

/-- **C149.** With one primitive cell the force recorded is the derivative of the anharmonic
potential. -/
theorem df_right (S : Surf) (h1 : S.nprim = 1) (hd : ∀ x, HasDerivAt S.U (-S.G x) x) (nmd : ℝ)
    (c : ℤ) : HasDerivAt S.anh (-(S.sample nmd c).f) (S.sample nmd c).q := by
  have e : S.anh = fun q => S.U q - S.U 0 - 1 / 2 * S.w2 * q ^ 2 := by
    funext q
    simp [Surf.anh, h1]
  rw [e]
  simp only [Surf.sample, Surf.df, h1, Real.sqrt_one, mul_one, div_one]
  have := (((hd (nmd * c)).sub_const (S.U 0)).sub
    ((hasDerivAt_pow 2 (nmd * (c : ℝ))).const_mul (1 / 2 * S.w2)))
  refine this.congr_deriv ?_
  push_cast
  ring

/-- **C149, negated.** With several primitive cells the force recorded is not the derivative of the
energy recorded: on a harmonic surface of four cells the energy column is zero and the force column is
not. -/
theorem df_wrong : ∃ S : Surf, S.nprim = 4 ∧ (∀ x, HasDerivAt S.U (-S.G x) x) ∧
    (∀ nmd c, (S.sample nmd c).v = 0) ∧ (S.sample 1 1).f = 1 / 2 := by
  refine ⟨⟨fun x => 1 / 2 * x ^ 2, fun x => -x, 4, 1⟩, rfl, ?_, ?_, ?_⟩
  · intro x
    refine ((hasDerivAt_pow 2 x).const_mul (1 / 2)).congr_deriv ?_
    push_cast
    ring
  all_goals
    have h4 : Real.sqrt 4 = 2 := by
      rw [show (4 : ℝ) = 2 ^ 2 by norm_num, Real.sqrt_sq (by norm_num)]
  · intro nmd c
    simp only [Surf.sample, Surf.dv, Surf.v0, h4]
    ring
  · simp only [Surf.sample, Surf.df, h4]
    norm_num

/-- **C149.** With any number of primitive cells, on a harmonic surface with the frequency of the mode
the force recorded is this. -/
theorem df_harmonic (S : Surf) (hn : 0 < S.nprim) (hG : ∀ x, S.G x = -(S.w2 * x)) (nmd : ℝ) (c : ℤ) :
    (S.sample nmd c).f = S.w2 * (S.sample nmd c).q * (1 - 1 / Real.sqrt S.nprim) := by
  have hs : Real.sqrt S.nprim ≠ 0 := (Real.sqrt_pos.mpr hn).ne'
  have hq : S.nprim = Real.sqrt S.nprim * Real.sqrt S.nprim := (Real.mul_self_sqrt hn.le).symm
  simp only [Surf.sample, Surf.df, hG]
  generalize Real.sqrt S.nprim = r at hs hq
  rw [hq]
  field_simp
  ring

/-! ## When the sampling ends -/

/-- **C149.** The test is about the whole potential, whatever its harmonic part. -/
theorem stop_iff (S : Surf) (emax nmd : ℝ) (c : ℤ) :
    S.stop emax nmd c ↔
      emax < |S.U (Real.sqrt S.nprim * (nmd * c)) / S.nprim - S.U 0 / S.nprim| := by
  unfold Surf.stop Surf.dv Surf.v0
  rw [show nmd * Real.sqrt S.nprim * (c : ℝ) = Real.sqrt S.nprim * (nmd * c) by ring]
  ring_nf

/-- **C149.** On a surface that grows beyond every bound in both directions, all passes end. -/
theorem pass_ends (S : Surf) (emax fn rms : ℝ) (hs : 0 < fn * rms) (hn : 0 < S.nprim)
    (hp : ∃ x0, ∀ x, x0 ≤ |x| → emax < |S.U x / S.nprim - S.U 0 / S.nprim|) (k : ℕ) :
    ∃ fuel, (pass S emax fn rms fuel k).isSome := by
  obtain ⟨x0, hx0⟩ := hp
  have hsp : 0 < spacing fn rms k := by
    have : spacing fn rms k = (fn * rms) * ((1 / 2) ^ k * 2) := by unfold spacing; ring
    rw [this]; positivity
  have hr : 0 < Real.sqrt S.nprim * spacing fn rms k := by
    have := Real.sqrt_pos.mpr hn
    positivity
  obtain ⟨N, hN⟩ := exists_nat_gt (x0 / (Real.sqrt S.nprim * spacing fn rms k))
  rw [div_lt_iff₀ hr] at hN
  have hd : 1 ≤ delta k := by unfold delta; split <;> omega
  have far : ∀ c : ℤ, (N : ℤ) ≤ |c| → S.stop emax (spacing fn rms k) c := by
    intro c hc
    rw [stop_iff]
    apply hx0
    rw [show Real.sqrt S.nprim * (spacing fn rms k * (c : ℝ))
      = (Real.sqrt S.nprim * spacing fn rms k) * c by ring, abs_mul, abs_of_pos hr]
    have : (N : ℝ) ≤ |(c : ℝ)| := by exact_mod_cast hc
    nlinarith
  have hdN : (N : ℤ) ≤ delta k * N := by nlinarith [Int.natCast_nonneg N]
  obtain ⟨f1, h1⟩ := (sweep_ends (S.stop emax (spacing fn rms k)) (delta k) 1 []).mpr
    ⟨N, far _ (by rw [abs_of_nonneg] <;> nlinarith [Int.natCast_nonneg N])⟩
  obtain ⟨f2, h2⟩ := (sweep_ends (S.stop emax (spacing fn rms k)) (-delta k) (-1) []).mpr
    ⟨N, far _ (by rw [abs_of_nonpos] <;> nlinarith [Int.natCast_nonneg N])⟩
  have mono : ∀ (st : ℤ → Prop) (δ : ℤ) (f g : ℕ) (c : ℤ) (acc : List ℤ), f ≤ g →
      (sweep st δ f c acc).isSome → (sweep st δ g c acc).isSome := by
    intro st δ f
    induction f with
    | zero => intro g c acc _ h; simp [sweep] at h
    | succ f ih =>
      intro g c acc hfg h
      obtain ⟨g, rfl⟩ : ∃ g', g = g' + 1 := ⟨g - 1, by omega⟩
      rw [sweep] at h ⊢
      split
      · rfl
      · next hc =>
        rw [if_neg hc] at h
        exact ih g _ _ (by omega) h
  refine ⟨max f1 f2, ?_⟩
  have h1' := mono _ _ _ _ _ _ (le_max_left f1 f2) h1
  have h2' := mono _ _ _ _ _ _ (le_max_right f1 f2) h2
  obtain ⟨a, ha⟩ := Option.isSome_iff_exists.mp h1'
  obtain ⟨b, hb⟩ := Option.isSome_iff_exists.mp h2'
  simp [pass, ha, hb]

/-- **C149.** In particular on every harmonic surface, where the table is zero. -/
theorem harmonic_ends (S : Surf) (emax fn rms : ℝ) (hs : 0 < fn * rms) (hn : 0 < S.nprim)
    (hw : 0 < S.w2) (hU : ∀ x, S.U x = S.U 0 + 1 / 2 * S.w2 * x ^ 2) (k : ℕ) :
    (∃ fuel, (pass S emax fn rms fuel k).isSome) ∧ ∀ q, S.anh q = 0 := by
  constructor
  · apply pass_ends S emax fn rms hs hn
    refine ⟨1 + 2 * S.nprim * |emax| / S.w2, fun x hx => ?_⟩
    rw [hU x]
    have e : (S.U 0 + 1 / 2 * S.w2 * x ^ 2) / S.nprim - S.U 0 / S.nprim
        = 1 / 2 * S.w2 * x ^ 2 / S.nprim := by ring
    rw [e, abs_of_nonneg (by positivity), lt_div_iff₀ hn]
    have h0 : 0 ≤ 2 * S.nprim * |emax| / S.w2 := by positivity
    have h1 : 2 * S.nprim * |emax| / S.w2 < |x| := by linarith
    have h2 : 1 ≤ |x| := by linarith
    have h3 : |x| ≤ x ^ 2 := by rw [← sq_abs]; nlinarith
    rw [div_lt_iff₀ hw] at h1
    have h4 := le_abs_self emax
    nlinarith
  · intro q
    have hq : Real.sqrt S.nprim ^ 2 = S.nprim := Real.sq_sqrt hn.le
    rw [Surf.anh, hU (Real.sqrt S.nprim * q), mul_pow, hq]
    field_simp
    ring

/-- **C149, negated.** On a surface that stays below the limit on one side — a bond that can break —
the sampling never ends. -/
theorem bounded_never_ends (S : Surf) (emax fn rms : ℝ) (k : ℕ)
    (hb : ∀ c : ℤ, 0 < c →
      |S.U (Real.sqrt S.nprim * (spacing fn rms k * c)) / S.nprim - S.U 0 / S.nprim| ≤ emax)
    (fuel : ℕ) : pass S emax fn rms fuel k = none := by
  have hd : 1 ≤ delta k := by unfold delta; split <;> omega
  have : sweep (S.stop emax (spacing fn rms k)) (delta k) fuel 1 [] = none := by
    by_contra h
    obtain ⟨n, hn⟩ := (sweep_ends _ _ _ _).mp ⟨fuel, Option.isSome_iff_ne_none.mpr h⟩
    rw [stop_iff] at hn
    have hpos : (0 : ℤ) < 1 + delta k * n := by positivity
    exact absurd (hb _ hpos) (not_le.mpr hn)
  rw [pass, this]

/-- A harmonic surface of four cells meets the hypotheses: its first pass gives a table. -/
example : ∃ fuel l, table ⟨fun x => x ^ 2, fun x => -2 * x, 4, 2⟩ 1 1 1 fuel 1 = some l := by
  obtain ⟨⟨fuel, h⟩, -⟩ := harmonic_ends ⟨fun x => x ^ 2, fun x => -2 * x, 4, 2⟩ 1 1 1 (by norm_num)
    (by norm_num) (by norm_num) (by intro x; simp) 0
  obtain ⟨m, hm⟩ := Option.isSome_iff_exists.mp h
  exact ⟨fuel, _, by rw [table, table, hm]⟩

end Verif.Vscf
