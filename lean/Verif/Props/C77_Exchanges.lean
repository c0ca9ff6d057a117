import Verif.Phys.Swap
import Mathlib.Analysis.SpecificLimits.Basic
import Mathlib.MeasureTheory.Measure.Lebesgue.Basic
import Mathlib.Tactic.FieldSimp
import Mathlib.Tactic.Ring
import Mathlib.Tactic.Linarith
import Mathlib.Tactic.Positivity
import Mathlib.Tactic.FinCases
import Mathlib.Tactic.NormNum
/-!
# C77, C78: Monte Carlo exchanges

An accepted alchemical exchange exchanges the names and masses of the two atoms and keeps the kinetic
energy, its effect on the springs is the energy used in the acceptance, the conserved quantity does not
change, and the moves are in detailed balance with the canonical distribution.  This holds for closed
paths.  Exchanging positions is right for one bead or equal masses, and wrong for quantum particles of
different masses, because the springs are forgotten: `positions_not_conserved`,
`positions_not_balanced`.  With one kind of atoms in the list the choice of a pair never ends.
-/

namespace Verif.Swap

open Finset

variable {nb N : ℕ} {S : Type}

/-! ## The choice of the pair -/

section pick
variable [DecidableEq S] {n : ℕ} (name : Fin n → S) (i : Fin n)

/-- **C77.** The pair chosen has two different names, and it is the first such draw. -/
theorem pick_result {l : List (Fin n)} {j : Fin n} {r : List (Fin n)} (h : pickJ name i l = some (j, r)) :
    name i ≠ name j ∧ ∃ l₀, l = l₀ ++ j :: r ∧ ∀ x ∈ l₀, name i = name x := by
  induction l with
  | nil => cases h
  | cons x l ih =>
    unfold pickJ at h
    split at h
    · rename_i hx
      obtain ⟨h1, l₀, h2, h3⟩ := ih h
      refine ⟨h1, x :: l₀, by rw [h2]; rfl, ?_⟩
      intro y hy
      rcases List.mem_cons.1 hy with rfl | hy
      · exact hx
      · exact h3 y hy
    · rename_i hx
      simp only [Option.some.injEq, Prod.mk.injEq] at h
      obtain ⟨rfl, rfl⟩ := h
      exact ⟨hx, [], rfl, by simp⟩

/-- **C78.** The choice ends as soon as an atom of another name is drawn. -/
theorem pick_ends_partial {l : List (Fin n)} (h : ∃ x ∈ l, name i ≠ name x) : (pickJ name i l).isSome := by
  induction l with
  | nil => obtain ⟨x, hx, _⟩ := h; cases hx
  | cons x l ih =>
    unfold pickJ
    split
    · rename_i hx
      refine ih ?_
      obtain ⟨y, hy, hn⟩ := h
      rcases List.mem_cons.1 hy with rfl | hy
      · exact absurd hx hn
      · exact ⟨y, hy, hn⟩
    · rfl

/-- **C78 is false** when all atoms of the list have the same name: the choice never ends, whatever is
drawn. -/
theorem pick_stuck (h : ∀ x, name i = name x) (l : List (Fin n)) : pickJ name i l = none := by
  induction l with
  | nil => rfl
  | cons x l ih => unfold pickJ; rw [if_pos (h x), ih]

/-- The number of atoms in the list with the name of `i`. -/
def same : ℕ := (univ.filter fun x => name i = name x).card

/-- The number of ways to choose `j` with exactly `k + 1` draws. -/
theorem pick_count {j : Fin n} (hj : name i ≠ name j) (k : ℕ) :
    (univ.filter fun d : Fin (k + 1) → Fin n => pickJ name i (List.ofFn d) = some (j, [])).card = same name i ^ k := by
  induction k with
  | zero =>
    rw [pow_zero, card_eq_one]
    refine ⟨fun _ => j, ?_⟩
    ext d
    simp only [mem_filter, mem_univ, true_and, mem_singleton, List.ofFn_succ, List.ofFn_zero, pickJ]
    constructor
    · intro h
      split at h
      · cases h
      · simp only [Option.some.injEq, Prod.mk.injEq, and_true] at h
        funext x
        fin_cases x
        exact h
    · rintro rfl
      simp [hj]
  | succ k ih =>
    have key : (univ.filter fun d : Fin (k + 1 + 1) → Fin n => pickJ name i (List.ofFn d) = some (j, [])).card =
        ((univ.filter fun x => name i = name x) ×ˢ
          (univ.filter fun d : Fin (k + 1) → Fin n => pickJ name i (List.ofFn d) = some (j, []))).card := by
      refine card_bij (fun d _ => (d 0, Fin.tail d)) ?_ ?_ ?_
      · intro d hd
        simp only [mem_filter, mem_univ, true_and, mem_product] at hd ⊢
        rw [List.ofFn_succ, pickJ] at hd
        split at hd
        · rename_i hx
          exact ⟨hx, hd⟩
        · simp only [Option.some.injEq, Prod.mk.injEq] at hd
          have := congrArg List.length hd.2
          simp at this
      · intro d _ e _ h
        simp only [Prod.mk.injEq] at h
        rw [← Fin.cons_self_tail d, ← Fin.cons_self_tail e, h.1, h.2]
      · rintro ⟨x, d⟩ hd
        simp only [mem_filter, mem_univ, true_and, mem_product] at hd
        refine ⟨Fin.cons x d, ?_, by simp⟩
        rw [mem_filter]
        refine ⟨mem_univ _, ?_⟩
        rw [List.ofFn_succ, pickJ, Fin.cons_zero, if_pos hd.1]
        exact hd.2
    rw [key, card_product, ih, pow_succ']
    rfl

/-- **C77.** With independent uniform draws every atom of another name is chosen with the same
probability. -/
theorem pick_uniform {j : Fin n} (hj : name i ≠ name j) :
    HasSum (fun k => ((univ.filter fun d : Fin (k + 1) → Fin n => pickJ name i (List.ofFn d) = some (j, [])).card : ℝ) / n ^ (k + 1))
      (1 / (n - same name i)) := by
  have hlt : same name i < n := by
    have h1 : same name i ≤ (univ.erase j).card := card_le_card fun x hx => by
      simp only [mem_filter, mem_univ, true_and] at hx
      simp only [mem_erase, mem_univ, and_true]
      rintro rfl
      exact hj hx
    rw [card_erase_of_mem (mem_univ j), card_univ, Fintype.card_fin] at h1
    have : 0 < n := lt_of_le_of_lt (Nat.zero_le _) j.2
    omega
  have hn : (0 : ℝ) < n := by exact_mod_cast lt_of_le_of_lt (Nat.zero_le _) j.2
  have hlt' : (same name i : ℝ) < n := by exact_mod_cast hlt
  have h := (hasSum_geometric_of_lt_one (r := (same name i : ℝ) / n) (by positivity) ((div_lt_one hn).2 hlt')).mul_right (1 / (n : ℝ))
  have e : (1 - (same name i : ℝ) / n)⁻¹ * (1 / n) = 1 / (n - same name i) := by
    have : (n : ℝ) - same name i ≠ 0 := by linarith [hlt']
    field_simp
  rw [e] at h
  refine h.congr_fun ?_
  intro k
  rw [pick_count name i hj]
  push_cast
  rw [div_pow, pow_succ]
  field_simp

end pick

/-! ## Acceptance -/

/-- The probability that the uniform random number is below the threshold. -/
theorem accept_probability {x : ℝ} (hx : 0 ≤ x) :
    (MeasureTheory.volume {u : ℝ | u ∈ Set.Ico 0 1 ∧ x > u}).toReal = min 1 x := by
  have : {u : ℝ | u ∈ Set.Ico 0 1 ∧ x > u} = Set.Ico 0 (min 1 x) := by
    ext u
    simp only [Set.mem_setOf_eq, Set.mem_Ico, lt_min_iff, gt_iff_lt]
    tauto
  rw [this, Real.volume_Ico, sub_zero, ENNReal.toReal_ofReal (le_min zero_le_one hx)]

/-- The Metropolis identity. -/
theorem metropolis (β e e' : ℝ) :
    Real.exp (-β * e) * min 1 (Real.exp (-β * (e' - e))) = Real.exp (-β * e') * min 1 (Real.exp (-β * (e - e'))) := by
  rw [mul_min_of_nonneg _ _ (Real.exp_pos _).le, mul_min_of_nonneg _ _ (Real.exp_pos _).le, mul_one, mul_one,
    ← Real.exp_add, ← Real.exp_add, min_comm]
  congr 2 <;> ring

/-! ## Alchemical exchanges -/

variable {i j : Fin N}

/-- **C77.** After an accepted exchange names and masses are exchanged, nothing else, and the momenta are
multiplied with the square root of the ratio of the masses. -/
theorem exchange_spec {s : Alc nb N S} (spr : Fin N → ℝ) (hm : ∀ a, 0 < s.m a) (i j : Fin N) :
    (s.exchange spr i j).name = s.name ∘ Equiv.swap i j ∧ (s.exchange spr i j).m = s.m ∘ Equiv.swap i j ∧
      ∀ b a d, (s.exchange spr i j).p b a d = s.p b a d * √(s.m (Equiv.swap i j a) / s.m a) := by
  have hi := hm i
  have hj := hm j
  refine ⟨?_, ?_, ?_⟩
  · funext a
    simp only [Alc.exchange, Function.comp_apply]
    by_cases h1 : a = i
    · subst h1; simp
    · by_cases h2 : a = j
      · subst h2; simp [h1]
      · simp [h1, h2, Equiv.swap_apply_of_ne_of_ne h1 h2]
  · funext a
    simp only [Alc.exchange, Function.comp_apply]
    by_cases h1 : a = i
    · subst h1; simp only [if_true, Equiv.swap_apply_left]; field_simp
    · by_cases h2 : a = j
      · subst h2; simp only [if_neg h1, if_true, Equiv.swap_apply_right]; field_simp
      · simp [h1, h2, Equiv.swap_apply_of_ne_of_ne h1 h2]
  · intro b a d
    simp only [Alc.exchange]
    by_cases h1 : a = i
    · subst h1
      rw [if_pos rfl, Equiv.swap_apply_left, Real.sqrt_div hi.le, Real.sqrt_div hj.le]
      have := Real.sqrt_pos.2 hi
      have := Real.sqrt_pos.2 hj
      field_simp
    · by_cases h2 : a = j
      · subst h2; rw [if_neg h1, if_pos rfl, Equiv.swap_apply_right]
      · rw [if_neg h1, if_neg h2, Equiv.swap_apply_of_ne_of_ne h1 h2, div_self (hm a).ne', Real.sqrt_one, mul_one]

/-- **C77.** The kinetic energy is the same. -/
theorem exchange_kin (C : Fin nb → Fin nb → ℝ) (f : Fin nb → ℝ) {s : Alc nb N S} (spr : Fin N → ℝ) (hm : ∀ a, 0 < s.m a) (i j : Fin N) :
    kin C f (s.exchange spr i j).m (s.exchange spr i j).p = kin C f s.m s.p := by
  obtain ⟨_, h2, h3⟩ := exchange_spec spr hm i j
  unfold kin
  refine sum_congr rfl fun k _ => sum_congr rfl fun a _ => sum_congr rfl fun d _ => ?_
  have h1 : ∑ b, C k b * (s.exchange spr i j).p b a d = (∑ b, C k b * s.p b a d) * √(s.m (Equiv.swap i j a) / s.m a) := by
    rw [sum_mul]
    exact sum_congr rfl fun b _ => by rw [h3]; ring
  rw [h1, h2, mul_pow, Real.sq_sqrt (div_nonneg (hm _).le (hm _).le), Function.comp_apply]
  have ha := hm a
  have hs := hm (Equiv.swap i j a)
  by_cases hf : f k = 0
  · simp [hf]
  · field_simp

/-- Sum over the atoms of something linear in the mass, after exchanging two masses. -/
theorem sum_swap (m c : Fin N → ℝ) (i j : Fin N) :
    ∑ a, m (Equiv.swap i j a) * c a = ∑ a, m a * c a + (c i - c j) * (m j - m i) := by
  by_cases hij : i = j
  · subst hij; simp
  have e : ∀ a, m (Equiv.swap i j a) * c a = m a * c a + ((if a = i then (m j - m i) * c i else 0) + (if a = j then (m i - m j) * c j else 0)) := by
    intro a
    by_cases h1 : a = i
    · subst h1; simp only [Equiv.swap_apply_left, if_true, if_neg hij]; ring
    · by_cases h2 : a = j
      · subst h2; simp only [Equiv.swap_apply_right, if_true, if_neg h1]; ring
      · simp [h1, h2, Equiv.swap_apply_of_ne_of_ne h1 h2]
  rw [sum_congr rfl fun a _ => e a, sum_add_distrib, sum_add_distrib, sum_ite_eq' univ i, sum_ite_eq' univ j]
  simp only [mem_univ, if_true]
  ring

/-- The springs of closed paths are the masses times `atomspring`; the centroid has no spring. -/
theorem vspring_closed {w2 ow2 : Fin nb → ℝ} (hw : ∀ k : Fin nb, (k : ℕ) = 0 → w2 k = 0) (m : Fin N → ℝ) (q : Cfg nb N) :
    vspring (fun _ => false) w2 ow2 m q = ∑ a, m a * atomspring w2 q a := by
  unfold vspring atomspring
  refine sum_congr rfl fun a _ => ?_
  rw [sum_mul, mul_sum]
  refine sum_congr rfl fun k _ => ?_
  by_cases h : (k : ℕ) = 0
  · simp [h, hw k h]
  · simp [h]; ring

/-- **C77.** The energy used in the acceptance is the change of the springs. -/
theorem exchange_spring {w2 ow2 : Fin nb → ℝ} (hw : ∀ k : Fin nb, (k : ℕ) = 0 → w2 k = 0) (q : Cfg nb N) {s : Alc nb N S} (hm : ∀ a, 0 < s.m a)
    (i j : Fin N) : vspring (fun _ => false) w2 ow2 (s.exchange (atomspring w2 q) i j).m q =
      vspring (fun _ => false) w2 ow2 s.m q + dif (atomspring w2 q) s.m i j := by
  rw [vspring_closed hw, vspring_closed hw, (exchange_spec _ hm i j).2.1]
  exact sum_swap s.m _ i j

/-- The conserved quantity (`/repo/ipi/engine/ensembles.py` L258-272): springs, kinetic energy, potential and bias
`V`, which do not depend on the masses, and the counter. -/
noncomputable def Alc.econs (C : Fin nb → Fin nb → ℝ) (f : Fin nb → ℝ) (op : Fin N → Bool) (w2 ow2 : Fin nb → ℝ) (q : Cfg nb N) (V : ℝ)
    (s : Alc nb N S) : ℝ :=
  vspring op w2 ow2 s.m q + kin C f s.m s.p + V + s.ealc

theorem attempt_masses {β : ℝ} {spr : Fin N → ℝ} {i j : Fin N} {u : ℝ} {s : Alc nb N S} (hm : ∀ a, 0 < s.m a) (a : Fin N) :
    0 < (s.attempt β spr i j u).m a := by
  unfold Alc.attempt
  split
  · rw [(exchange_spec spr hm i j).2.1]; exact hm _
  · exact hm a

/-- **C77.** A whole step, any number of attempts, keeps the conserved quantity. -/
theorem step_econs (C : Fin nb → Fin nb → ℝ) (f : Fin nb → ℝ) {w2 ow2 : Fin nb → ℝ} (hw : ∀ k : Fin nb, (k : ℕ) = 0 → w2 k = 0) (q : Cfg nb N)
    (V β : ℝ) (tries : List (Fin N × Fin N × ℝ)) (s : Alc nb N S) (hm : ∀ a, 0 < s.m a) :
    (s.step β (atomspring w2 q) tries).econs C f (fun _ => false) w2 ow2 q V = s.econs C f (fun _ => false) w2 ow2 q V := by
  induction tries generalizing s with
  | nil => rfl
  | cons t tries ih =>
    have h1 : (s.attempt β (atomspring w2 q) t.1 t.2.1 t.2.2).econs C f (fun _ => false) w2 ow2 q V = s.econs C f (fun _ => false) w2 ow2 q V := by
      unfold Alc.attempt
      split
      · unfold Alc.econs
        rw [exchange_spring hw q hm, exchange_kin C f _ hm]
        simp only [Alc.exchange]
        ring
      · rfl
    rw [← h1, ← ih _ (attempt_masses hm)]
    rfl

/-- A move `f`, a function of the random number, is accepted with probability `r`: the random numbers between
zero and one split into those for which the result is `new`, which have measure `r`, and those for which it is `old`. -/
def AcceptedWith {T : Type} (r : ℝ) (f : ℝ → T) (old new : T) : Prop :=
  ∃ A : Set ℝ, (MeasureTheory.volume (Set.Ico 0 1 ∩ A)).toReal = r ∧ (∀ u ∈ A, f u = new) ∧ ∀ u ∉ A, f u = old

/-- **C77.** A rejected attempt changes nothing, an accepted one is the exchange; it is accepted with
probability `min 1 (exp (-β Δ))`, where `Δ` is the change of the spring energy. -/
theorem attempt_spec (β : ℝ) {w2 ow2 : Fin nb → ℝ} (hw : ∀ k : Fin nb, (k : ℕ) = 0 → w2 k = 0) (q : Cfg nb N) (i j : Fin N) (s : Alc nb N S)
    (hm : ∀ a, 0 < s.m a) :
    AcceptedWith (min 1 (Real.exp (-β * (vspring (fun _ => false) w2 ow2 (s.exchange (atomspring w2 q) i j).m q -
        vspring (fun _ => false) w2 ow2 s.m q))))
      (fun u => s.attempt β (atomspring w2 q) i j u) s (s.exchange (atomspring w2 q) i j) := by
  rw [exchange_spring hw q hm, add_sub_cancel_left]
  refine ⟨{u | Real.exp (-β * dif (atomspring w2 q) s.m i j) > u}, ?_, fun u hu => ?_, fun u hu => ?_⟩
  · rw [← accept_probability (Real.exp_pos _).le]
    rfl
  · exact if_pos (Set.mem_setOf.1 hu)
  · exact if_neg (fun h => hu (Set.mem_setOf.2 h))

/-- **C77.** Exchanging twice gives back names, masses and momenta. -/
theorem exchange_twice {s : Alc nb N S} (spr : Fin N → ℝ) (hm : ∀ a, 0 < s.m a) (i j : Fin N) : (s.exchange spr i j).exchange spr i j = s := by
  have hm' : ∀ a, 0 < (s.exchange spr i j).m a := fun a => by rw [(exchange_spec spr hm i j).2.1]; exact hm _
  obtain ⟨a1, a2, a3⟩ := exchange_spec spr hm i j
  obtain ⟨b1, b2, b3⟩ := exchange_spec spr hm' i j
  have hn : ((s.exchange spr i j).exchange spr i j).name = s.name := by
    rw [b1, a1]; funext a; simp
  have hmm : ((s.exchange spr i j).exchange spr i j).m = s.m := by
    rw [b2, a2]; funext a; simp
  have hp : ((s.exchange spr i j).exchange spr i j).p = s.p := by
    funext b a d
    rw [b3, a3, a2]
    simp only [Function.comp_apply, Equiv.swap_apply_self]
    rw [mul_assoc, ← Real.sqrt_mul (div_nonneg (hm _).le (hm _).le)]
    have h1 := hm a
    have h2 := hm (Equiv.swap i j a)
    rw [div_mul_div_comm, mul_comm (s.m a), div_self (by positivity), Real.sqrt_one, mul_one]
  have he : ((s.exchange spr i j).exchange spr i j).ealc = s.ealc := by
    show s.ealc + -dif spr s.m i j + -dif spr (s.exchange spr i j).m i j = s.ealc
    rw [a2]
    simp only [dif, Function.comp_apply, Equiv.swap_apply_left, Equiv.swap_apply_right]
    ring
  cases h : (s.exchange spr i j).exchange spr i j
  cases s
  simp only [h] at hn hmm hp he
  subst hn hmm hp he
  rfl

/-- **C77.** The change of the momenta preserves phase space volume. -/
theorem momenta_volume {m : Fin N → ℝ} (hm : ∀ a, 0 < m a) (i j : Fin N) :
    MeasureTheory.MeasurePreserving
      (fun (p : Fin nb × Fin N × Fin 3 → ℝ) c => p c * √(m (Equiv.swap i j c.2.1) / m c.2.1)) MeasureTheory.volume MeasureTheory.volume := by
  set D : Fin nb × Fin N × Fin 3 → ℝ := fun c => √(m (Equiv.swap i j c.2.1) / m c.2.1) with hD
  have hdet : (Matrix.diagonal D).det = 1 := by
    rw [Matrix.det_diagonal, Fintype.prod_prod_type]
    refine prod_eq_one fun b _ => ?_
    rw [Fintype.prod_prod_type_right]
    refine prod_eq_one fun d _ => ?_
    simp only [hD]
    have e : ∀ a, √(m (Equiv.swap i j a) / m a) = √(m (Equiv.swap i j a)) / √(m a) := fun a => Real.sqrt_div (hm _).le _
    rw [prod_congr rfl fun a _ => e a, prod_div_distrib, Equiv.prod_comp (Equiv.swap i j) fun a => √(m a)]
    exact div_self (prod_pos fun a _ => Real.sqrt_pos.2 (hm a)).ne'
  have h := Real.smul_map_diagonal_volume_pi (D := D) (by rw [hdet]; exact one_ne_zero)
  rw [hdet, abs_one, ENNReal.ofReal_one, one_smul] at h
  have e : (Matrix.toLin' (Matrix.diagonal D) : (Fin nb × Fin N × Fin 3 → ℝ) → _) = fun p c => p c * D c := by
    funext p c
    simp [Matrix.toLin'_apply, Matrix.mulVec_diagonal, mul_comm]
  rw [e] at h
  exact ⟨by fun_prop, h⟩

/-- The probability that the pair `x`, `y` is chosen, in either order: the first uniformly, the second as in
`pick_uniform`. -/
noncomputable def pairProb [DecidableEq S] {n : ℕ} (name : Fin n → S) (x y : Fin n) : ℝ :=
  1 / n * (1 / (n - same name x)) + 1 / n * (1 / (n - same name y))

theorem same_swap [DecidableEq S] {n : ℕ} (name : Fin n → S) (x y z : Fin n) :
    same (name ∘ Equiv.swap x y) z = same name (Equiv.swap x y z) := by
  unfold same
  refine card_bij (fun a _ => Equiv.swap x y a) ?_ (fun a _ b _ h => (Equiv.swap x y).injective h) ?_
  · intro a ha
    simpa using ha
  · intro b hb
    refine ⟨Equiv.swap x y b, ?_, by simp⟩
    simpa using hb

theorem pairProb_swap [DecidableEq S] {n : ℕ} (name : Fin n → S) (x y : Fin n) : pairProb (name ∘ Equiv.swap x y) x y = pairProb name x y := by
  unfold pairProb
  rw [same_swap, same_swap, Equiv.swap_apply_left, Equiv.swap_apply_right]
  ring

/-- The canonical weight of a state. -/
noncomputable def Alc.weight (β : ℝ) (C : Fin nb → Fin nb → ℝ) (f : Fin nb → ℝ) (op : Fin N → Bool) (w2 ow2 : Fin nb → ℝ) (q : Cfg nb N) (V : ℝ)
    (s : Alc nb N S) : ℝ :=
  Real.exp (-β * (vspring op w2 ow2 s.m q + kin C f s.m s.p + V))

/-- **C77, detailed balance.** For every pair of atoms of the list `ax`: the weight of a state times the probability
to choose the pair and accept is the same as for the state with the pair exchanged. -/
theorem exchange_balanced [DecidableEq S] (β : ℝ) (C : Fin nb → Fin nb → ℝ) (f : Fin nb → ℝ) {w2 ow2 : Fin nb → ℝ}
    (hw : ∀ k : Fin nb, (k : ℕ) = 0 → w2 k = 0) (q : Cfg nb N) (V : ℝ) {n : ℕ} {ax : Fin n → Fin N} (hax : Function.Injective ax) (x y : Fin n)
    (s : Alc nb N S) (hm : ∀ a, 0 < s.m a) :
    s.weight β C f (fun _ => false) w2 ow2 q V *
        (pairProb (s.name ∘ ax) x y * min 1 (Real.exp (-β * dif (atomspring w2 q) s.m (ax x) (ax y)))) =
      (s.exchange (atomspring w2 q) (ax x) (ax y)).weight β C f (fun _ => false) w2 ow2 q V *
        (pairProb ((s.exchange (atomspring w2 q) (ax x) (ax y)).name ∘ ax) x y *
          min 1 (Real.exp (-β * dif (atomspring w2 q) (s.exchange (atomspring w2 q) (ax x) (ax y)).m (ax x) (ax y)))) := by
  have hn : (s.exchange (atomspring w2 q) (ax x) (ax y)).name ∘ ax = (s.name ∘ ax) ∘ Equiv.swap x y := by
    funext z
    rw [(exchange_spec _ hm _ _).1]
    simp only [Function.comp_apply]
    rw [hax.swap_apply]
  rw [hn, pairProb_swap]
  unfold Alc.weight
  rw [exchange_spring hw q hm, exchange_kin C f _ hm]
  have hd : dif (atomspring w2 q) (s.exchange (atomspring w2 q) (ax x) (ax y)).m (ax x) (ax y) = -dif (atomspring w2 q) s.m (ax x) (ax y) := by
    rw [(exchange_spec _ hm _ _).2.1]
    simp only [dif, Function.comp_apply, Equiv.swap_apply_left, Equiv.swap_apply_right]
    ring
  rw [hd]
  set d := dif (atomspring w2 q) s.m (ax x) (ax y)
  set e := vspring (fun _ => false) w2 ow2 s.m q + kin C f s.m s.p + V
  have h := metropolis β e (e + d)
  rw [show e + d - e = d by ring, show e - (e + d) = -d by ring] at h
  rw [show vspring (fun _ => false) w2 ow2 s.m q + d + kin C f s.m s.p + V = e + d by simp only [e]; ring]
  calc _ = pairProb (s.name ∘ ax) x y * (Real.exp (-β * e) * min 1 (Real.exp (-β * d))) := by ring
    _ = _ := by rw [h]; ring

/-! ### open paths -/

/-- Two atoms with two beads. -/
noncomputable def openQ : Cfg 2 2 := fun k a d => if k = 1 ∧ a = 0 ∧ d = 0 then 1 else 0

/-- Masses one and two. -/
noncomputable def openS : Alc 2 2 Bool := ⟨fun a => decide (a = 0), fun a => if a = 0 then 1 else 2, fun _ _ _ => 0, 0⟩

/-- **C77 is false for open paths**: their springs have other frequencies than those used, and the conserved quantity
jumps.  Here the squared frequencies of the second mode are four (closed) and two (open), as for two beads. -/
theorem open_not_conserved : ∃ β, (∀ a, 0 < openS.m a) ∧
    (openS.step β (atomspring (fun k => if k = 0 then 0 else 4) openQ) [(0, 1, 0)]).econs (fun k b => if k = b then 1 else 0) (fun _ => 1) (fun _ => true)
      (fun k => if k = 0 then 0 else 4) (fun k => if k = 0 then 0 else 2) openQ 0 ≠
    openS.econs (fun k b => if k = b then 1 else 0) (fun _ => 1) (fun _ => true) (fun k => if k = 0 then 0 else 4) (fun k => if k = 0 then 0 else 2) openQ 0 := by
  refine ⟨1, fun a => by fin_cases a <;> simp [openS], ?_⟩
  have h : openS.step 1 (atomspring (fun k => if k = 0 then 0 else 4) openQ) [(0, 1, 0)] = openS.exchange (atomspring (fun k => if k = 0 then 0 else 4) openQ) 0 1 := by
    simp only [Alc.step, List.foldl_cons, List.foldl_nil, Alc.attempt]
    rw [if_pos (Real.exp_pos _)]
  rw [h]
  simp [Alc.econs, vspring, kin, Alc.exchange, dif, atomspring, openQ, openS, Fin.sum_univ_succ]
  norm_num

/-! ## Exchanges of positions -/

theorem swapped_eq (i j : Fin N) (q : Cfg nb N) : swapped i j q = fun b a d => q b (Equiv.swap i j a) d := by
  funext b a d
  unfold swapped
  by_cases h2 : a = j
  · subst h2; simp
  · by_cases h1 : a = i
    · subst h1; simp [h2]
    · simp [h1, h2, Equiv.swap_apply_of_ne_of_ne h1 h2]

/-- **C77.** Exchanging the positions twice gives them back. -/
theorem swapped_twice (i j : Fin N) (q : Cfg nb N) : swapped i j (swapped i j q) = q := by
  rw [swapped_eq, swapped_eq]
  funext b a d
  simp

/-- **C77.** An attempt to exchange positions is accepted with probability `min 1 (exp (-β Δ))`, where `Δ` is the
change of the potential. -/
theorem positions_attempt (β : ℝ) (pot : Cfg nb N → ℝ) (i j : Fin N) (s : Pos nb N) :
    AcceptedWith (min 1 (Real.exp (-β * (pot (swapped i j s.q) - pot s.q)))) (fun u => s.attempt β pot i j u) s
      ⟨swapped i j s.q, s.ealc - (pot (swapped i j s.q) - pot s.q)⟩ := by
  refine ⟨{u | Real.exp (-β * (pot (swapped i j s.q) - pot s.q)) > u}, ?_, fun u hu => ?_, fun u hu => ?_⟩
  · rw [← accept_probability (Real.exp_pos _).le]
    rfl
  · simp only [Pos.attempt]; rw [if_pos (Set.mem_setOf.1 hu), ← sub_eq_add_neg]
  · exact if_neg (fun h => hu (Set.mem_setOf.2 h))

/-- The normal mode positions. -/
noncomputable def toNm (C : Fin nb → Fin nb → ℝ) (q : Cfg nb N) : Cfg nb N := fun k a d => ∑ b, C k b * q b a d

theorem toNm_swapped (C : Fin nb → Fin nb → ℝ) (i j : Fin N) (q : Cfg nb N) : toNm C (swapped i j q) = swapped i j (toNm C q) := by
  rw [swapped_eq, swapped_eq]
  rfl

/-- The change of the springs when positions are exchanged. -/
theorem swapped_spring {w2 ow2 : Fin nb → ℝ} (hw : ∀ k : Fin nb, (k : ℕ) = 0 → w2 k = 0) (m : Fin N → ℝ) (q : Cfg nb N) (i j : Fin N) :
    vspring (fun _ => false) w2 ow2 m (swapped i j q) = vspring (fun _ => false) w2 ow2 m q + dif (atomspring w2 q) m i j := by
  rw [vspring_closed hw, vspring_closed hw]
  have h : ∀ a, atomspring w2 (swapped i j q) a = atomspring w2 q (Equiv.swap i j a) := fun a => by rw [swapped_eq]; rfl
  rw [sum_congr rfl fun a _ => by rw [h a], ← Equiv.sum_comp (Equiv.swap i j)]
  simp only [Equiv.swap_apply_self]
  exact sum_swap m _ i j

/-- The part of the conserved quantity that changes: springs, potential and counter. -/
noncomputable def Pos.econs (C : Fin nb → Fin nb → ℝ) (w2 ow2 : Fin nb → ℝ) (m : Fin N → ℝ) (pot : Cfg nb N → ℝ) (s : Pos nb N) : ℝ :=
  vspring (fun _ => false) w2 ow2 m (toNm C s.q) + pot s.q + s.ealc

theorem spring_one_bead {w2 ow2 : Fin 1 → ℝ} (hw : ∀ k : Fin 1, (k : ℕ) = 0 → w2 k = 0) (m : Fin N → ℝ) (q : Cfg 1 N) :
    vspring (fun _ => false) w2 ow2 m q = 0 := by
  simp [vspring, hw 0 rfl]

/-- When the springs do not change: all exchanged atoms have the same mass, or there is one bead. -/
def SpringFree (nb : ℕ) (m : Fin N → ℝ) (i j : Fin N) : Prop := m i = m j ∨ nb = 1

theorem dif_zero {w2 : Fin nb → ℝ} {m : Fin N → ℝ} {q : Cfg nb N} {i j : Fin N} (h : SpringFree nb m i j) : dif (atomspring w2 q) m i j = 0 := by
  rcases h with h | h
  · simp [dif, h]
  · subst h; simp [dif, atomspring]

/-- **C77.** Exchanging positions keeps the conserved quantity if the springs do not change. -/
theorem positions_econs_partial (C : Fin nb → Fin nb → ℝ) {w2 ow2 : Fin nb → ℝ} (hw : ∀ k : Fin nb, (k : ℕ) = 0 → w2 k = 0) (m : Fin N → ℝ)
    (pot : Cfg nb N → ℝ) (β : ℝ) (tries : List (Fin N × Fin N × ℝ)) (h : ∀ t ∈ tries, SpringFree nb m t.1 t.2.1) (s : Pos nb N) :
    (s.step β pot tries).econs C w2 ow2 m pot = s.econs C w2 ow2 m pot := by
  induction tries generalizing s with
  | nil => rfl
  | cons t tries ih =>
    have h1 : (s.attempt β pot t.1 t.2.1 t.2.2).econs C w2 ow2 m pot = s.econs C w2 ow2 m pot := by
      unfold Pos.attempt
      simp only
      split
      · unfold Pos.econs
        simp only
        rw [toNm_swapped, swapped_spring hw, dif_zero (h t List.mem_cons_self)]
        ring
      · rfl
    rw [← h1]
    exact ih (fun t ht => h t (List.mem_cons_of_mem _ ht)) _

/-- **C77.** Exchanging positions is in detailed balance if the springs do not change.  (The probability to choose a
pair depends on the names only, which stay.) -/
theorem positions_balanced_partial (C : Fin nb → Fin nb → ℝ) {w2 ow2 : Fin nb → ℝ} (hw : ∀ k : Fin nb, (k : ℕ) = 0 → w2 k = 0) (m : Fin N → ℝ)
    (pot : Cfg nb N → ℝ) (β : ℝ) (i j : Fin N) (h : SpringFree nb m i j) (q : Cfg nb N) :
    Real.exp (-β * (vspring (fun _ => false) w2 ow2 m (toNm C q) + pot q)) * min 1 (Real.exp (-β * (pot (swapped i j q) - pot q))) =
    Real.exp (-β * (vspring (fun _ => false) w2 ow2 m (toNm C (swapped i j q)) + pot (swapped i j q))) *
      min 1 (Real.exp (-β * (pot (swapped i j (swapped i j q)) - pot (swapped i j q)))) := by
  rw [toNm_swapped, swapped_spring hw, dif_zero h, swapped_twice, add_zero]
  have := metropolis β (vspring (fun _ => false) w2 ow2 m (toNm C q) + pot q) (vspring (fun _ => false) w2 ow2 m (toNm C q) + pot (swapped i j q))
  rw [add_sub_add_left_eq_sub, add_sub_add_left_eq_sub] at this
  exact this

/-- Masses one and two. -/
noncomputable def twoM : Fin 2 → ℝ := fun a => if a = 0 then 1 else 2

/-- Squared frequencies. -/
def twoW : Fin 2 → ℝ := fun k => if k = 0 then 0 else 4

/-- Transformation of two beads. -/
noncomputable def twoC : Fin 2 → Fin 2 → ℝ := fun k b => if k = 0 then 1 / √2 else if b = 0 then 1 / √2 else -(1 / √2)

/-- The first atom is spread out. -/
def twoQ : Cfg 2 2 := fun b a d => if b = 0 ∧ a = 0 ∧ d = 0 then 1 else 0

theorem two_spring (m : Fin 2 → ℝ) : vspring (fun _ => false) twoW twoW m (toNm twoC twoQ) = m 0 := by
  have h : (√2 : ℝ) ^ 2 = 2 := Real.sq_sqrt (by norm_num)
  simp [vspring, toNm, twoC, twoQ, twoW, Fin.sum_univ_succ, h]
  ring

theorem two_spring' (m : Fin 2 → ℝ) : vspring (fun _ => false) twoW twoW m (toNm twoC (swapped 0 1 twoQ)) = m 1 := by
  have h : (√2 : ℝ) ^ 2 = 2 := Real.sq_sqrt (by norm_num)
  simp [vspring, toNm, twoC, twoQ, twoW, swapped, Fin.sum_univ_succ, h]
  ring

/-- **C77 is false for exchanges of positions of quantum particles**: two beads, no interaction, masses one and two.  The
conserved quantity jumps. -/
theorem positions_not_conserved : ∀ β, ((⟨twoQ, 0⟩ : Pos 2 2).step β (fun _ => 0) [(0, 1, 0)]).econs twoC twoW twoW twoM (fun _ => 0) ≠
    (⟨twoQ, 0⟩ : Pos 2 2).econs twoC twoW twoW twoM (fun _ => 0) := by
  intro β
  have h : (⟨twoQ, 0⟩ : Pos 2 2).step β (fun _ => 0) [(0, 1, 0)] = ⟨swapped 0 1 twoQ, 0⟩ := by
    simp [Pos.step, Pos.attempt]
  rw [h]
  unfold Pos.econs
  simp only [two_spring, two_spring']
  simp [twoM]

/-- And the moves are not in balance with the canonical distribution, at any temperature. -/
theorem positions_not_balanced {β : ℝ} (hβ : 0 < β) :
    Real.exp (-β * (vspring (fun _ => false) twoW twoW twoM (toNm twoC twoQ) + 0)) * min 1 (Real.exp (-β * (0 - 0))) ≠
    Real.exp (-β * (vspring (fun _ => false) twoW twoW twoM (toNm twoC (swapped 0 1 twoQ)) + 0)) * min 1 (Real.exp (-β * (0 - 0))) := by
  rw [two_spring, two_spring']
  simp only [sub_zero, mul_zero, Real.exp_zero, min_self, mul_one, add_zero, twoM]
  intro h
  have := Real.exp_injective h
  simp at this
  linarith

/-! ### concrete cases -/

/-- The closed system of the witness satisfies the hypotheses, and the exchange does something. -/
example : (∀ a, 0 < openS.m a) ∧ (∀ k : Fin 2, (k : ℕ) = 0 → twoW k = 0) ∧ dif (atomspring twoW openQ) openS.m 0 1 ≠ 0 := by
  refine ⟨fun a => by fin_cases a <;> simp [openS], fun k hk => by simp [twoW, Fin.ext_iff, hk], ?_⟩
  simp [dif, atomspring, twoW, openQ, openS, Fin.sum_univ_succ]
  norm_num

example : pickJ (fun a : Fin 3 => decide (a = 2)) 0 [1, 0, 2, 1] = some (2, [1]) := by decide

end Verif.Swap
