import Verif.Phys.Remd
import Mathlib.Logic.Equiv.Defs
import Mathlib.Logic.Equiv.Basic
import Mathlib.Tactic.FieldSimp
import Mathlib.Tactic.Ring
import Mathlib.Tactic.Linarith
import Mathlib.Tactic.NormNum

/-!
# C40, C69: replica exchange
-/

namespace Verif.Remd

open Finset

variable {X : Type}

theorem far_symm (a b : ℕ → ℝ) : Far a b ↔ Far b a := by
  unfold Far
  have : ∀ k, (a k - b k) ^ 2 = (b k - a k) ^ 2 := fun k => by ring
  simp only [this]

theorem sqrt_pair {x y : ℝ} (hx : 0 < x) (hxy : x * y = 1) : √x * √y = 1 := by
  rw [← Real.sqrt_mul hx.le, hxy, Real.sqrt_one]

theorem smul_smul (x y : ℝ) (v : ℕ → ℝ) (h : x * y = 1) : smul y (smul x v) = v := by
  funext k
  simp only [smul, mul_assoc, h, mul_one]

theorem farB_swap (a b : ℕ → ℝ) (f : Bool) (h : f = farB a b) :
    farB (if f then b else a) (if f then a else b) = f := by
  cases f with
  | true =>
    have h1 : Far a b := by
      by_contra hn
      rw [farB, if_neg hn] at h
      cases h
    simp only [if_true]
    rw [farB, if_pos ((far_symm _ _).1 h1)]
  | false => exact h.symm

/-- The trial exchange undone by the trial exchange with the inverse factors. -/
theorem trial_undo (kr : Bool) {x y : ℝ} (hx : 0 < x) (hy : 0 < y) (hxy : x * y = 1)
    {s s' : Rep X × Rep X} (h : trial kr x y s = some s') : trial kr y x s' = some s := by
  obtain ⟨a, b⟩ := s
  unfold trial ensembleSwap at h ⊢
  simp only at h ⊢
  by_cases hb : a.bw.length ≠ b.bw.length
  · rw [if_pos hb] at h; cases h
  rw [if_neg hb] at h
  by_cases hw : a.hw.length ≠ b.hw.length
  · rw [if_pos hw] at h; cases h
  rw [if_neg hw] at h
  obtain ⟨f, hf⟩ : ∃ f, f = farB a.stress b.stress := ⟨_, rfl⟩
  have hfd' := farB_swap _ _ _ hf
  rw [← hf] at h
  simp only [Option.map_some, Option.some.injEq] at h
  have hb' : b.bw.length = a.bw.length := (not_ne_iff.1 hb).symm
  have hw' : b.hw.length = a.hw.length := (not_ne_iff.1 hw).symm
  have hs1 := fun v => smul_smul (√x) (√y) v (sqrt_pair hx hxy)
  have hs2 := fun v => smul_smul (√y) (√x) v (sqrt_pair hy (by rw [mul_comm]; exact hxy))
  have hs3 := fun v => smul_smul x y v hxy
  have hs4 := fun v => smul_smul y x v (by rw [mul_comm]; exact hxy)
  cases a with
  | mk ta pa sa ba wa ma ra ha ga ea xa =>
  cases b with
  | mk tb pb sb bb wb mb rb hb2 gb eb xb =>
  simp only at hfd' hb' hw' hf
  cases kr <;> cases ra <;> cases rb <;> cases ha <;> cases hb2 <;>
    (subst h
     simp only [rescale, swapH0, takeEns, if_true, Bool.false_eq_true, if_false, hb', hw',
       ne_eq, not_true_eq_false]
     rw [hfd']
     cases f <;> simp [hs1, hs2, hs3, hs4])

/-- **C40, rejection.**  A rejected exchange restores temperatures, pressures, stresses, weights,
momenta, barostat momenta, reference cells, GLE momenta and accumulated energies exactly (over the
reals), for all replicas at positive temperatures and every random number. -/
theorem rejected_restores (E : Energies X) (kr : Bool) (u : ℝ) (s t : Rep X × Rep X)
    (h1 : 0 < s.1.temp) (h2 : 0 < s.2.temp) (h : attempt E kr u s = some (.rejected, t)) : t = s := by
  unfold attempt at h
  simp only at h
  have hx : 0 < s.2.temp / s.1.temp := div_pos h2 h1
  have hy : 0 < s.1.temp / s.2.temp := div_pos h1 h2
  have hxy : s.2.temp / s.1.temp * (s.1.temp / s.2.temp) = 1 := by field_simp
  cases ht : trial kr (s.2.temp / s.1.temp) (s.1.temp / s.2.temp) s with
  | none => rw [ht] at h; cases h
  | some s' =>
    rw [ht] at h
    simp only at h
    split at h
    · cases h
    · rw [trial_undo kr hx hy hxy ht] at h
      simp only [Option.map_some, Option.some.injEq, Prod.mk.injEq, true_and] at h
      exact h.symm

/-- What a trial exchange does to each field. -/
theorem trial_spec (kr : Bool) (x y : ℝ) {s s' : Rep X × Rep X} (h : trial kr x y s = some s') :
    (s'.1.temp = s.2.temp ∧ s'.2.temp = s.1.temp) ∧ (s'.1.pext = s.2.pext ∧ s'.2.pext = s.1.pext) ∧
    (s'.1.bw = s.2.bw ∧ s'.2.bw = s.1.bw) ∧ (s'.1.hw = s.2.hw ∧ s'.2.hw = s.1.hw) ∧
    (Far s.1.stress s.2.stress → s'.1.stress = s.2.stress ∧ s'.2.stress = s.1.stress) ∧
    (¬ Far s.1.stress s.2.stress → s'.1.stress = s.1.stress ∧ s'.2.stress = s.2.stress) ∧
    (s'.1.mom = (if kr then smul (√x) s.1.mom else s.1.mom) ∧
      s'.2.mom = (if kr then smul (√y) s.2.mom else s.2.mom)) ∧
    (s'.1.gle = s.1.gle ∧ s'.2.gle = s.2.gle) ∧ (s'.1.eens = s.1.eens ∧ s'.2.eens = s.2.eens) ∧
    (s'.1.rest = s.1.rest ∧ s'.2.rest = s.2.rest) ∧
    (s.1.h0.isSome = s.2.h0.isSome → s'.1.h0 = s.2.h0 ∧ s'.2.h0 = s.1.h0) ∧
    (kr = true → s.1.baro.isSome = s.2.baro.isSome →
      s'.1.baro = s.1.baro.map (smul x) ∧ s'.2.baro = s.2.baro.map (smul y)) := by
  obtain ⟨a, b⟩ := s
  unfold trial ensembleSwap at h
  simp only at h
  by_cases hb : a.bw.length ≠ b.bw.length
  · rw [if_pos hb] at h; cases h
  rw [if_neg hb] at h
  by_cases hw : a.hw.length ≠ b.hw.length
  · rw [if_pos hw] at h; cases h
  rw [if_neg hw] at h
  simp only [Option.map_some, Option.some.injEq] at h
  have hf1 : Far a.stress b.stress → farB a.stress b.stress = true := fun h => by
    rw [farB, if_pos h]
  have hf2 : ¬ Far a.stress b.stress → farB a.stress b.stress = false := fun h => by
    rw [farB, if_neg h]
  cases a with
  | mk ta pa sa ba wa ma ra ha ga ea xa =>
  cases b with
  | mk tb pb sb bb wb mb rb hb2 gb eb xb =>
  simp only at hf1 hf2
  cases kr <;> cases ra <;> cases rb <;> cases ha <;> cases hb2 <;>
    (subst h
     simp +contextual [rescale, swapH0, takeEns, hf1, hf2])

/-- A trial exchange is refused only when the numbers of weights differ. -/
theorem trial_none (kr : Bool) (x y : ℝ) (s : Rep X × Rep X) :
    trial kr x y s = none ↔ s.1.bw.length ≠ s.2.bw.length ∨ s.1.hw.length ≠ s.2.hw.length := by
  unfold trial ensembleSwap
  rw [Option.map_eq_none_iff]
  by_cases hb : s.1.bw.length ≠ s.2.bw.length
  · simp [hb]
  · by_cases hw : s.1.hw.length ≠ s.2.hw.length
    · simp [hw]
    · simp only [hb, hw, if_false, or_self, iff_false]
      intro h; cases h

/-- The unnormalised probability of two replicas. -/
noncomputable def weight (E : Energies X) (s : Rep X × Rep X) : ℝ := Real.exp (E.lp s.1 + E.lp s.2)

/-- The exchange that is attempted on `s`. -/
noncomputable def exchanged (kr : Bool) (s : Rep X × Rep X) : Option (Rep X × Rep X) :=
  trial kr (s.2.temp / s.1.temp) (s.1.temp / s.2.temp) s

/-- **C40, involution.**  The attempted exchange is its own inverse, so that each state is proposed
from the other with the same certainty. -/
theorem exchanged_exchanged (kr : Bool) {s s' : Rep X × Rep X} (h1 : 0 < s.1.temp) (h2 : 0 < s.2.temp)
    (h : exchanged kr s = some s') : exchanged kr s' = some s := by
  have hx : 0 < s.2.temp / s.1.temp := div_pos h2 h1
  have hy : 0 < s.1.temp / s.2.temp := div_pos h1 h2
  have hxy : s.2.temp / s.1.temp * (s.1.temp / s.2.temp) = 1 := by field_simp
  have hs := trial_spec _ _ _ h
  unfold exchanged
  rw [hs.1.1, hs.1.2]
  exact trial_undo kr hx hy hxy h

/-- **C40, acceptance.**  For a random number in the unit interval the exchange is accepted exactly
below `min 1 (weight after / weight before)`: this is the probability of acceptance. -/
theorem accepted_iff (E : Energies X) (kr : Bool) (u : ℝ) (hu : u < 1) (s s' : Rep X × Rep X)
    (h : exchanged kr s = some s') :
    (∃ t, attempt E kr u s = some (.accepted, t)) ↔ u < min 1 (weight E s' / weight E s) := by
  unfold exchanged at h
  have hw : weight E s' / weight E s
      = Real.exp ((E.lp s'.1 + E.lp s'.2) - (E.lp s.1 + E.lp s.2)) := by
    unfold weight; rw [Real.exp_sub]
  unfold attempt
  simp only [h]
  rw [hw, lt_min_iff]
  constructor
  · rintro ⟨t, ht⟩
    split at ht
    · rename_i hp; exact ⟨hu, hp⟩
    · exfalso
      rw [Option.map_eq_some_iff] at ht
      obtain ⟨_, _, ht⟩ := ht
      cases ht
  · rintro ⟨_, hp⟩
    rw [if_pos hp]
    exact ⟨_, rfl⟩

/-- **C40, detailed balance.**  With the acceptance of `accepted_iff` the flow from a state to its
exchange equals the flow back. -/
theorem detailed_balance (E : Energies X) (s s' : Rep X × Rep X) :
    weight E s * min 1 (weight E s' / weight E s) = weight E s' * min 1 (weight E s / weight E s') := by
  have p1 : 0 < weight E s := Real.exp_pos _
  have p2 : 0 < weight E s' := Real.exp_pos _
  rw [mul_min_of_nonneg _ _ p1.le, mul_min_of_nonneg _ _ p2.le, mul_one, mul_one,
    mul_div_cancel₀ _ p1.ne', mul_div_cancel₀ _ p2.ne', min_comm]

/-- **C40, volume.**  The rescaling of the momenta of two replicas with the same number of degrees of
freedom keeps the volume of phase space: the factors multiply to one. -/
theorem rescale_volume {ti tj : ℝ} (h1 : 0 < ti) (h2 : 0 < tj) (n : ℕ) :
    √(tj / ti) ^ n * √(ti / tj) ^ n = 1 := by
  rw [← mul_pow, sqrt_pair (div_pos h2 h1) (by field_simp), one_pow]

theorem settle_econs (E : Energies X) (hE : ∀ r e, E.ham { r with eens := e } = E.ham r) (r : Rep X)
    (x ec : ℝ) : E.econs (settle E r x ec) = ec := by
  unfold settle Energies.econs
  have := hE { r with gle := smul x r.gle }
    (r.eens + (ec - (E.ham { r with gle := smul x r.gle } + r.eens)))
  simp only at this ⊢
  rw [this]
  ring

/-- **C40, accepted exchange.**  The two replicas have exchanged temperature, pressure and weights
(and the stress, unless the two stresses agree within `1e-10`); positions and cells have not moved;
and the conserved quantity of each replica is what it was. -/
theorem accepted_spec (E : Energies X) (hE : ∀ r e, E.ham { r with eens := e } = E.ham r) (kr : Bool)
    (u : ℝ) (s t : Rep X × Rep X) (h : attempt E kr u s = some (.accepted, t)) :
    (t.1.temp = s.2.temp ∧ t.2.temp = s.1.temp) ∧ (t.1.pext = s.2.pext ∧ t.2.pext = s.1.pext) ∧
    (t.1.bw = s.2.bw ∧ t.2.bw = s.1.bw) ∧ (t.1.hw = s.2.hw ∧ t.2.hw = s.1.hw) ∧
    (Far s.1.stress s.2.stress → t.1.stress = s.2.stress ∧ t.2.stress = s.1.stress) ∧
    (¬ Far s.1.stress s.2.stress → t.1.stress = s.1.stress ∧ t.2.stress = s.2.stress) ∧
    (s.1.h0.isSome = s.2.h0.isSome → t.1.h0 = s.2.h0 ∧ t.2.h0 = s.1.h0) ∧
    (t.1.rest = s.1.rest ∧ t.2.rest = s.2.rest) ∧
    (t.1.mom = (if kr then smul (√(s.2.temp / s.1.temp)) s.1.mom else s.1.mom) ∧
      t.2.mom = (if kr then smul (√(s.1.temp / s.2.temp)) s.2.mom else s.2.mom)) ∧
    (t.1.gle = smul (s.2.temp / s.1.temp) s.1.gle ∧ t.2.gle = smul (s.1.temp / s.2.temp) s.2.gle) ∧
    (kr = true → s.1.baro.isSome = s.2.baro.isSome →
      t.1.baro = s.1.baro.map (smul (s.2.temp / s.1.temp)) ∧
      t.2.baro = s.2.baro.map (smul (s.1.temp / s.2.temp))) ∧
    (E.econs t.1 = E.econs s.1 ∧ E.econs t.2 = E.econs s.2) := by
  unfold attempt at h
  simp only at h
  cases ht : trial kr (s.2.temp / s.1.temp) (s.1.temp / s.2.temp) s with
  | none => rw [ht] at h; cases h
  | some s' =>
    rw [ht] at h
    simp only at h
    split at h
    · simp only [Option.some.injEq, Prod.mk.injEq, true_and] at h
      subst h
      obtain ⟨g1, g2, g3, g4, g5, g6, g7, g8, g9, g10, g11, g12⟩ := trial_spec _ _ _ ht
      refine ⟨g1, g2, g3, g4, g5, g6, g11, g10, g7, ?_, g12, ?_, ?_⟩
      · simp only [settle, g8.1, g8.2, and_self]
      · exact settle_econs E hE _ _ _
      · exact settle_econs E hE _ _ _
    · exfalso
      rw [Option.map_eq_some_iff] at h
      obtain ⟨_, _, h⟩ := h
      cases h

/-- **C40, kinetic energies.**  With rescaling, the kinetic energy of the beads over the temperature
is unchanged by an accepted exchange, so that the kinetic part drops out of the acceptance. -/
theorem kinetic_kept (E : Energies X) (hE : ∀ r e, E.ham { r with eens := e } = E.ham r)
    (u : ℝ) (s t : Rep X × Rep X) (h1 : 0 < s.1.temp) (h2 : 0 < s.2.temp)
    (h : attempt E true u s = some (.accepted, t)) (n : ℕ) (m : ℕ → ℝ) :
    (∑ k ∈ range n, t.1.mom k ^ 2 / (2 * m k)) / t.1.temp
      = (∑ k ∈ range n, s.1.mom k ^ 2 / (2 * m k)) / s.1.temp ∧
    (∑ k ∈ range n, t.2.mom k ^ 2 / (2 * m k)) / t.2.temp
      = (∑ k ∈ range n, s.2.mom k ^ 2 / (2 * m k)) / s.2.temp := by
  obtain ⟨g1, -, -, -, -, -, -, -, g2, -, -, -⟩ := accepted_spec E hE true u s t h
  rw [g1.1, g1.2, g2.1, g2.2]
  simp only [if_true, smul, mul_pow]
  rw [Real.sq_sqrt (div_pos h2 h1).le, Real.sq_sqrt (div_pos h1 h2).le]
  constructor
  · rw [show (fun k => s.1.mom k ^ 2 * (s.2.temp / s.1.temp) / (2 * m k))
        = fun k => (s.1.mom k ^ 2 / (2 * m k)) * (s.2.temp / s.1.temp) from by funext k; ring,
      ← sum_mul]
    field_simp
  · rw [show (fun k => s.2.mom k ^ 2 * (s.1.temp / s.2.temp) / (2 * m k))
        = fun k => (s.2.mom k ^ 2 / (2 * m k)) * (s.1.temp / s.2.temp) from by funext k; ring,
      ← sum_mul]
    field_simp

/-- **C40, barostats.**  The same for barostats, whose mass is proportional to the temperature. -/
theorem barostat_kept (E : Energies X) (hE : ∀ r e, E.ham { r with eens := e } = E.ham r)
    (u : ℝ) (s t : Rep X × Rep X) (h1 : 0 < s.1.temp) (h2 : 0 < s.2.temp)
    (h : attempt E true u s = some (.accepted, t)) (pa pb : ℕ → ℝ) (ha : s.1.baro = some pa)
    (hb : s.2.baro = some pb) (c : ℝ) (k : ℕ) :
    ∃ pa' pb', t.1.baro = some pa' ∧ t.2.baro = some pb' ∧
      pa' k ^ 2 / (2 * (c * t.1.temp)) / t.1.temp = pa k ^ 2 / (2 * (c * s.1.temp)) / s.1.temp ∧
      pb' k ^ 2 / (2 * (c * t.2.temp)) / t.2.temp = pb k ^ 2 / (2 * (c * s.2.temp)) / s.2.temp := by
  obtain ⟨g1, -, -, -, -, -, -, -, -, -, g2, -⟩ := accepted_spec E hE true u s t h
  obtain ⟨g3, g4⟩ := g2 rfl (by rw [ha, hb]; rfl)
  rw [ha] at g3
  rw [hb] at g4
  refine ⟨_, _, g3, g4, ?_, ?_⟩
  · rw [g1.1]; simp only [smul]; field_simp
  · rw [g1.2]; simp only [smul]; field_simp

/-- What an exchange carries from one replica to another. -/
structure Label where
  temp : ℝ
  pext : ℝ
  stress : ℕ → ℝ
  bw : List ℝ
  hw : List ℝ
  h0 : Option (ℕ → ℝ)

/-- The label of a replica. -/
def Rep.label (r : Rep X) : Label :=
  { temp := r.temp, pext := r.pext, stress := r.stress, bw := r.bw, hw := r.hw, h0 := r.h0 }

/-- Replicas between which exchanges are meant to work: positive temperatures, stresses equal or
further apart than the tolerance, and reference cells for all or none. -/
def Sound (s : Sys X) : Prop :=
  (∀ k, 0 < (s.reps k).temp) ∧
  (∀ k l, (s.reps k).stress = (s.reps l).stress ∨ Far (s.reps k).stress (s.reps l).stress) ∧
  (∀ k l, (s.reps k).h0.isSome = (s.reps l).h0.isSome)

/-- Bookkeeping: ensembles and replica indices have been permuted alike among the first `n` replicas,
conserved quantities and configurations stay with their replica. -/
def Permuted (E : Energies X) (n : ℕ) (s t : Sys X) : Prop :=
  ∃ σ : Equiv.Perm ℕ, (∀ k, n ≤ k → σ k = k) ∧
    (∀ k, t.index k = s.index (σ k)) ∧ (∀ k, (t.reps k).label = (s.reps (σ k)).label) ∧
    (∀ k, E.econs (t.reps k) = E.econs (s.reps k)) ∧ (∀ k, (t.reps k).rest = (s.reps k).rest)

theorem Permuted.refl (E : Energies X) (n : ℕ) (s : Sys X) : Permuted E n s s :=
  ⟨Equiv.refl _, fun _ _ => rfl, fun _ => rfl, fun _ => rfl, fun _ => rfl, fun _ => rfl⟩

theorem Permuted.trans {E : Energies X} {n : ℕ} {s t v : Sys X} (h1 : Permuted E n s t)
    (h2 : Permuted E n t v) : Permuted E n s v := by
  obtain ⟨σ, a1, a2, a3, a4, a5⟩ := h1
  obtain ⟨τ, b1, b2, b3, b4, b5⟩ := h2
  refine ⟨τ.trans σ, fun k hk => ?_, fun k => ?_, fun k => ?_, fun k => ?_, fun k => ?_⟩
  · rw [Equiv.trans_apply, b1 k hk, a1 k hk]
  · rw [b2, a2]; rfl
  · rw [b3, a3]; rfl
  · rw [b4, a4]
  · rw [b5, a5]

theorem Permuted.sound {E : Energies X} {n : ℕ} {s t : Sys X} (h : Permuted E n s t) (hs : Sound s) :
    Sound t := by
  obtain ⟨σ, -, -, a3, -, -⟩ := h
  have h1 : ∀ k, (t.reps k).temp = (s.reps (σ k)).temp := fun k => congrArg Label.temp (a3 k)
  have h2 : ∀ k, (t.reps k).stress = (s.reps (σ k)).stress := fun k => congrArg Label.stress (a3 k)
  have h3 : ∀ k, (t.reps k).h0 = (s.reps (σ k)).h0 := fun k => congrArg Label.h0 (a3 k)
  refine ⟨fun k => ?_, fun k l => ?_, fun k l => ?_⟩
  · rw [h1]; exact hs.1 _
  · rw [h2, h2]; exact hs.2.1 _ _
  · rw [h3, h3]; exact hs.2.2 _ _

theorem put_rejected (f : ℕ → Rep X) (i j : ℕ) : put f i j (f i, f j) = f := by
  funext k
  unfold put
  by_cases h1 : k = i
  · subst h1; rw [if_pos rfl]
  · rw [if_neg h1]
    by_cases h2 : k = j
    · subst h2; rw [if_pos rfl]
    · rw [if_neg h2]

theorem pairStep_permuted (E : Energies X) (hE : ∀ r e, E.ham { r with eens := e } = E.ham r)
    (kr : Bool) (stride : ℝ) (n i j : ℕ) (hi : i < n) (hj : j < n) (hij : i ≠ j) (us us' : List ℝ)
    (s s' : Sys X) (hs : Sound s) (h : pairStep E kr stride i j us s = some (us', s')) :
    Permuted E n s s' := by
  unfold pairStep at h
  cases us with
  | nil => cases h
  | cons u us =>
    simp only at h
    split at h
    · simp only [Option.some.injEq, Prod.mk.injEq] at h
      rw [← h.2]; exact Permuted.refl _ _ _
    · cases us with
      | nil => cases h
      | cons u' us =>
        simp only at h
        cases ha : attempt E kr u' (s.reps i, s.reps j) with
        | none => rw [ha] at h; cases h
        | some r =>
          obtain ⟨o, t⟩ := r
          rw [ha] at h
          cases o with
          | rejected =>
            simp only [Option.some.injEq, Prod.mk.injEq] at h
            have := rejected_restores E kr u' _ _ (hs.1 i) (hs.1 j) ha
            rw [this, put_rejected] at h
            rw [← h.2]; exact Permuted.refl _ _ _
          | accepted =>
            simp only [Option.some.injEq, Prod.mk.injEq] at h
            rw [← h.2]
            obtain ⟨g1, g2, g3, g4, g5, g6, g7, g8, -, -, -, g9⟩ := accepted_spec E hE kr u' _ _ ha
            simp only at g1 g2 g3 g4 g5 g6 g7 g8 g9
            have g7 := g7 (hs.2.2 i j)
            have hst : t.1.stress = (s.reps j).stress ∧ t.2.stress = (s.reps i).stress := by
              rcases hs.2.1 i j with he | he
              · by_cases hf : Far (s.reps i).stress (s.reps j).stress
                · exact g5 hf
                · rw [(g6 hf).1, (g6 hf).2, he]; exact ⟨rfl, rfl⟩
              · exact g5 he
            have l1 : t.1.label = (s.reps j).label := by
              unfold Rep.label; rw [g1.1, g2.1, g3.1, g4.1, g7.1, hst.1]
            have l2 : t.2.label = (s.reps i).label := by
              unfold Rep.label; rw [g1.2, g2.2, g3.2, g4.2, g7.2, hst.2]
            refine ⟨Equiv.swap i j, fun k hk => Equiv.swap_apply_of_ne_of_ne (by omega) (by omega),
              fun k => ?_, fun k => ?_, fun k => ?_, fun k => ?_⟩
            · simp only [swapIdx, Equiv.swap_apply_def]
              split
              · rfl
              · split <;> rfl
            · simp only [put, Equiv.swap_apply_def]
              split
              · exact l1
              · split
                · exact l2
                · rfl
            · simp only [put]
              split
              · rename_i hk; rw [hk]; exact g9.1
              · split
                · rename_i hk; rw [hk]; exact g9.2
                · rfl
            · simp only [put]
              split
              · rename_i hk; rw [hk]; exact g8.1
              · split
                · rename_i hk; rw [hk]; exact g8.2
                · rfl

theorem mem_pairs {n : ℕ} {p : ℕ × ℕ} (h : p ∈ pairs n) : p.1 < n ∧ p.2 < n ∧ p.1 ≠ p.2 := by
  unfold pairs at h
  rw [List.mem_flatMap] at h
  obtain ⟨i, hi, h⟩ := h
  rw [List.mem_map] at h
  obtain ⟨j, hj, h⟩ := h
  rw [List.mem_range] at hi hj
  subst h
  exact ⟨hi, by simp only; omega, by simp only; omega⟩

theorem loop_permuted (E : Energies X) (hE : ∀ r e, E.ham { r with eens := e } = E.ham r)
    (kr : Bool) (stride : ℝ) (n : ℕ) : ∀ (l : List (ℕ × ℕ)),
    (∀ p ∈ l, p.1 < n ∧ p.2 < n ∧ p.1 ≠ p.2) → ∀ (us : List ℝ) (s s' : Sys X), Sound s →
    loop E kr stride l us s = some s' → Permuted E n s s' := by
  intro l
  induction l with
  | nil =>
    intro _ us s s' _ h
    simp only [loop, Option.some.injEq] at h
    rw [h]; exact Permuted.refl _ _ _
  | cons p l ih =>
    intro hl us s s' hs h
    obtain ⟨i, j⟩ := p
    unfold loop at h
    cases hp : pairStep E kr stride i j us s with
    | none => rw [hp] at h; cases h
    | some r =>
      obtain ⟨us', s1⟩ := r
      rw [hp] at h
      simp only at h
      obtain ⟨h1, h2, h3⟩ := hl (i, j) List.mem_cons_self
      have hs1 := pairStep_permuted E hE kr stride n i j h1 h2 h3 us us' s s1 hs hp
      exact hs1.trans (ih (fun q hq => hl q (List.mem_cons_of_mem _ hq)) us' s1 s' (hs1.sound hs) h)

/-- **C40, whole step.**  After any exchange step, whatever the random numbers and however many
exchanges were accepted, the ensembles and the replica index have been permuted by the same
permutation of the replicas, and each replica keeps its positions and its conserved quantity. -/
theorem step_permuted (E : Energies X) (hE : ∀ r e, E.ham { r with eens := e } = E.ham r)
    (kr : Bool) (stride : ℝ) (n : ℕ) (us : List ℝ) (s s' : Sys X) (hs : Sound s)
    (h : step E kr stride n us s = some s') : Permuted E n s s' := by
  unfold step at h
  split at h
  · rw [Option.some.injEq] at h; rw [← h]; exact Permuted.refl _ _ _
  · exact loop_permuted E hE kr stride n _ (fun p hp => mem_pairs hp) us s s' hs h

/-- **C40, index.**  A replica index that lists every replica once keeps doing so. -/
theorem index_permutation (E : Energies X) (hE : ∀ r e, E.ham { r with eens := e } = E.ham r)
    (kr : Bool) (stride : ℝ) (n : ℕ) (us : List ℝ) (s s' : Sys X) (hs : Sound s)
    (h : step E kr stride n us s = some s') (hb : Function.Bijective s.index) :
    Function.Bijective s'.index := by
  obtain ⟨σ, -, hi, -⟩ := step_permuted E hE kr stride n us s s' hs h
  have : s'.index = s.index ∘ σ := by funext k; exact hi k
  rw [this]
  exact hb.comp σ.bijective

/-! ## GLE momenta -/

/-- **C69, what happens.**  The extra momenta of a GLE thermostat, whose variance is
proportional to the temperature, are scaled such that their square over the temperature changes by
the ratio of the temperatures. -/
theorem gle_ratio (E : Energies X) (hE : ∀ r e, E.ham { r with eens := e } = E.ham r) (kr : Bool)
    (u : ℝ) (s t : Rep X × Rep X) (h1 : 0 < s.1.temp) (h2 : 0 < s.2.temp)
    (h : attempt E kr u s = some (.accepted, t)) (k : ℕ) :
    t.1.gle k ^ 2 / t.1.temp = s.2.temp / s.1.temp * (s.1.gle k ^ 2 / s.1.temp) := by
  obtain ⟨g1, -, -, -, -, -, -, -, -, g2, -, -⟩ := accepted_spec E hE kr u s t h
  rw [g1.1, g2.1]
  simp only [smul]
  field_simp

/-- **C69, equal temperatures.**  Between replicas at the same temperature the momenta of GLE
thermostats stay distributed as before. -/
theorem gle_kept_partial (E : Energies X) (hE : ∀ r e, E.ham { r with eens := e } = E.ham r) (kr : Bool)
    (u : ℝ) (s t : Rep X × Rep X) (h1 : 0 < s.1.temp) (he : s.1.temp = s.2.temp)
    (h : attempt E kr u s = some (.accepted, t)) (k : ℕ) :
    t.1.gle k ^ 2 / t.1.temp = s.1.gle k ^ 2 / s.1.temp := by
  rw [gle_ratio E hE kr u s t h1 (he ▸ h1) h k, ← he, div_self h1.ne', one_mul]

/-- A replica with nothing special. -/
def plain (T : ℝ) : Rep Unit :=
  { temp := T, pext := 0, stress := fun _ => 0, bw := [], hw := [], mom := fun _ => 1,
    baro := none, h0 := none, gle := fun _ => 1, eens := 0, rest := () }

/-- No energies. -/
def noEnergies : Energies Unit := ⟨fun _ => 0, fun _ => 0⟩

theorem plain_accepted (T T' : ℝ) : ∃ t, attempt noEnergies true 0 (plain T, plain T')
    = some (.accepted, t) := by
  cases ht : exchanged true (plain T, plain T') with
  | none =>
    exfalso
    have := (trial_none _ _ _ _).1 ht
    simp [plain] at this
  | some s' =>
    refine (accepted_iff noEnergies true 0 one_pos _ s' ht).2 ?_
    simp [weight, noEnergies]

/-- **C69 fails for GLE thermostats.**  The momenta are scaled with the ratio of the temperatures
instead of its square root: their energy over the temperature does not stay what it was. -/
theorem gle_not_kept : ∃ (s t : Rep Unit × Rep Unit), 0 < s.1.temp ∧ 0 < s.2.temp ∧
    attempt noEnergies true 0 s = some (.accepted, t) ∧
    t.1.gle 0 ^ 2 / t.1.temp ≠ s.1.gle 0 ^ 2 / s.1.temp := by
  obtain ⟨t, ht⟩ := plain_accepted 1 4
  refine ⟨(plain 1, plain 4), t, by norm_num [plain], by norm_num [plain], ht, ?_⟩
  rw [gle_ratio noEnergies (fun _ _ => rfl) true 0 _ _ (by norm_num [plain]) (by norm_num [plain]) ht 0]
  norm_num [plain]

/-! ## The hypotheses are met -/

/-- Two replicas at temperatures one and four. -/
noncomputable def two : Sys Unit := ⟨fun k => if k = 0 then plain 1 else plain 4, id⟩

theorem two_sound : Sound two := by
  refine ⟨fun k => ?_, fun k l => Or.inl ?_, fun k l => ?_⟩
  · unfold two; simp only; split <;> norm_num [plain]
  · unfold two; simp only; split <;> split <;> rfl
  · unfold two; simp only; split <;> split <;> rfl

/-- An exchange step on two replicas that does exchange them. -/
example : ∃ s', step noEnergies true 1 2 [0, 0] two = some s' ∧ (s'.reps 0).temp = 4 ∧
    (s'.reps 1).temp = 1 ∧ s'.index 0 = 1 ∧ s'.index 1 = 0 ∧ (s'.reps 0).mom 0 = 2 := by
  have h1 : two.reps 1 = plain 4 := rfl
  have h0 : two.reps 0 = plain 1 := rfl
  obtain ⟨t, ht⟩ := plain_accepted 4 1
  obtain ⟨g1, -, -, -, -, -, -, -, g2, -, -, -⟩ :=
    accepted_spec noEnergies (fun _ _ => rfl) true 0 _ _ ht
  have hp : pairs 2 = [(1, 0)] := by decide
  refine ⟨{ reps := put two.reps 1 0 t, index := swapIdx two.index 1 0 }, ?_, ?_, ?_, rfl, rfl, ?_⟩
  · unfold step
    rw [if_neg (by norm_num), hp]
    simp only [loop, pairStep, h1, h0, ht]
    rw [if_neg (by norm_num)]
  · show t.2.temp = 4
    exact g1.2
  · show t.1.temp = 1
    exact g1.1
  · show t.2.mom 0 = 2
    rw [g2.2]
    simp only [if_true, smul, plain, one_mul, div_one]
    rw [show (4 : ℝ) = 2 ^ 2 by norm_num, Real.sqrt_sq (by norm_num)]

/-- A rejected attempt exists: after the exchange the state is less probable. -/
example : ∃ t, attempt (⟨fun r => - r.temp * r.mom 0, fun _ => 0⟩ : Energies Unit) false 1
    (plain 1, { plain 4 with mom := fun _ => 0 }) = some (.rejected, t) := by
  set s : Rep Unit × Rep Unit := (plain 1, { plain 4 with mom := fun _ => 0 }) with hs
  cases ht : exchanged false s with
  | none =>
    exfalso
    have := (trial_none _ _ _ _).1 ht
    simp [hs, plain] at this
  | some s' =>
    have hx : 0 < s.2.temp / s.1.temp := by norm_num [hs, plain]
    have hy : 0 < s.1.temp / s.2.temp := by norm_num [hs, plain]
    have hu := trial_undo false hx hy (by norm_num [hs, plain]) ht
    obtain ⟨g1, -, -, -, -, -, g2, -⟩ := trial_spec _ _ _ ht
    refine ⟨s, ?_⟩
    unfold exchanged at ht
    unfold attempt
    simp only [ht, hu]
    rw [if_neg]
    · rfl
    · rw [g1.1, g1.2, g2.1, g2.2]
      rw [gt_iff_lt, not_lt, Real.exp_le_one_iff]
      norm_num [hs, plain]

end Verif.Remd
