import Verif.Phys.Vscf
import Mathlib.Algebra.BigOperators.Field
import Mathlib.Algebra.BigOperators.Fin
import Mathlib.Algebra.Order.BigOperators.Group.Finset
import Mathlib.Logic.Function.Iterate
import Mathlib.Tactic.FieldSimp
import Mathlib.Tactic.Ring
import Mathlib.Tactic.Linarith
import Mathlib.Tactic.NormNum
import Mathlib.Tactic.Positivity

/-!
# C152: the self-consistent field of vibrations

The thermal density, the mixing of mean fields, and the end of the iteration.
-/

namespace Verif.Vscf

open Finset

variable {G : ℕ}

/-! ## Specification -/

/-- The thermal density: the densities of the states weighted with their Boltzmann factors. -/
noncomputable def boltz (l : List (ℝ × (Fin G → ℝ))) : Fin G → ℝ := fun g =>
  (l.map fun s => s.1 * s.2 g).sum / (l.map Prod.fst).sum

/-- A state: positive weight, density at least zero with sum one. -/
def State (s : ℝ × (Fin G → ℝ)) : Prop := 0 < s.1 ∧ (∀ g, 0 ≤ s.2 g) ∧ ∑ g, s.2 g = 1

/-! ## The density -/

/-- The next state enters with the weight `w / (1 + w)`. -/
theorem rhoAdd_eq {r : Fin G → ℝ} (hr : ∑ g, r g = 1) {s : ℝ × (Fin G → ℝ)} (hs : State s) (g : Fin G) :
    rhoAdd r s g = (r g + s.1 * s.2 g) / (1 + s.1) := by
  unfold rhoAdd
  rw [sum_add_distrib, hr, ← mul_sum, hs.2.2, mul_one]

/-- The first state. -/
theorem rhoAdd_first {s : ℝ × (Fin G → ℝ)} (hs : State s) : rhoAdd 0 s = s.2 := by
  funext g
  unfold rhoAdd
  simp only [Pi.zero_apply, zero_add]
  rw [← mul_sum, hs.2.2, mul_one, mul_div_cancel_left₀ _ hs.1.ne']

theorem rhoAdd_sum {r : Fin G → ℝ} (hr : ∑ g, r g = 1) {s : ℝ × (Fin G → ℝ)} (hs : State s) :
    ∑ g, rhoAdd r s g = 1 := by
  rw [sum_congr rfl fun g _ => rhoAdd_eq hr hs g, ← sum_div, sum_add_distrib, hr, ← mul_sum, hs.2.2,
    mul_one, div_self]
  have := hs.1
  linarith

/-- **C152.** The thermal density has sum one and is nowhere negative. -/
theorem rho_density {l : List (ℝ × (Fin G → ℝ))} (hl : l ≠ []) (hs : ∀ s ∈ l, State s) :
    ∑ g, rho l g = 1 ∧ ∀ g, 0 ≤ rho l g := by
  obtain ⟨s, l, rfl⟩ := List.exists_cons_of_ne_nil hl
  unfold rho
  rw [List.foldl_cons, rhoAdd_first (hs s List.mem_cons_self)]
  have hs' : ∀ t ∈ l, State t := fun t ht => hs t (List.mem_cons_of_mem _ ht)
  have h0 := hs s List.mem_cons_self
  have key : ∀ (l : List (ℝ × (Fin G → ℝ))) (r : Fin G → ℝ), (∀ t ∈ l, State t) →
      ∑ g, r g = 1 → (∀ g, 0 ≤ r g) →
      ∑ g, l.foldl rhoAdd r g = 1 ∧ ∀ g, 0 ≤ l.foldl rhoAdd r g := by
    intro l
    induction l with
    | nil => intro r _ h1 h2; exact ⟨h1, h2⟩
    | cons t l ih =>
      intro r ht h1 h2
      have htt := ht t List.mem_cons_self
      refine ih _ (fun u hu => ht u (List.mem_cons_of_mem _ hu)) (rhoAdd_sum h1 htt) fun g => ?_
      rw [rhoAdd_eq h1 htt]
      have := htt.1
      have := htt.2.1 g
      have := h2 g
      positivity
  exact key l s.2 hs' h0.2.2 h0.2.1

/-- **C152.** For one and for two states it is the Boltzmann average (the weight of the lowest state is
one). -/
theorem rho_two {s t : ℝ × (Fin G → ℝ)} (hs : State s) (ht : State t) (h1 : s.1 = 1) :
    rho [s] = boltz [s] ∧ rho [s, t] = boltz [s, t] := by
  constructor
  · funext g
    simp only [rho, List.foldl_cons, List.foldl_nil, rhoAdd_first hs, boltz]
    simp [h1]
  · funext g
    simp only [rho, List.foldl_cons, List.foldl_nil, rhoAdd_first hs, rhoAdd_eq hs.2.2 ht, boltz]
    simp [h1]

/-- **C152, negated.** The weight of the last state is `w / (1 + w)`, as if all the others together had the
weight of the lowest. -/
theorem rho_last {l : List (ℝ × (Fin G → ℝ))} (hl : l ≠ []) (hs : ∀ s ∈ l, State s)
    {t : ℝ × (Fin G → ℝ)} (ht : State t) (g : Fin G) :
    rho (l ++ [t]) g = 1 / (1 + t.1) * rho l g + t.1 / (1 + t.1) * t.2 g := by
  have h1 := (rho_density hl hs).1
  have : rho (l ++ [t]) = rhoAdd (rho l) t := by
    unfold rho
    rw [List.foldl_append, List.foldl_cons, List.foldl_nil]
  rw [this, rhoAdd_eq h1 ht]
  have := ht.1
  field_simp

/-- **C152, negated.** With three states the highest is always given too much weight: at a point where
only it has density, by this factor. -/
theorem rho_three {s t u : ℝ × (Fin G → ℝ)} (hs : State s) (ht : State t) (hu : State u)
    (h1 : s.1 = 1) {g : Fin G} (hsg : s.2 g = 0) (htg : t.2 g = 0) :
    rho [s, t, u] g = boltz [s, t, u] g * ((1 + t.1 + u.1) / (1 + u.1)) := by
  have hst : ∀ x ∈ [s, t], State x := by
    intro x hx
    rcases List.mem_cons.mp hx with rfl | hx
    · exact hs
    · rw [List.mem_singleton] at hx
      rw [hx]; exact ht
  have h := rho_last (l := [s, t]) (by simp) hst hu g
  rw [show [s, t, u] = [s, t] ++ [u] from rfl, h, (rho_two hs ht h1).2]
  have h3 := ht.1
  have h4 := hu.1
  simp only [boltz, List.cons_append, List.nil_append, List.map_cons, List.map_nil, List.sum_cons,
    List.sum_nil, hsg, htg, h1, mul_zero, zero_add, add_zero, zero_div]
  have h5 : (1 : ℝ) + t.1 + u.1 ≠ 0 := by positivity
  have h6 : (1 : ℝ) + u.1 ≠ 0 := by positivity
  rw [← add_assoc]
  field_simp

/-- **C152, negated.** Three states of the same energy: the weights are one quarter, one quarter and one
half, not a third each. -/
theorem rho_degenerate : ∃ l : List (ℝ × (Fin 3 → ℝ)), (∀ s ∈ l, State s ∧ s.1 = 1) ∧
    rho l 0 = 1 / 4 ∧ rho l 1 = 1 / 4 ∧ rho l 2 = 1 / 2 ∧ ∀ g, boltz l g = 1 / 3 := by
  have hS : ∀ k : Fin 3, State ((1 : ℝ), fun g => if g = k then (1 : ℝ) else 0) := by
    intro k
    refine ⟨one_pos, fun g => ?_, ?_⟩
    · dsimp only
      split <;> norm_num
    · simp
  have h2 : ∀ g, rho [((1 : ℝ), fun g : Fin 3 => if g = 0 then (1 : ℝ) else 0),
      (1, fun g => if g = 1 then 1 else 0)] g
      = boltz [((1 : ℝ), fun g : Fin 3 => if g = 0 then (1 : ℝ) else 0),
        (1, fun g => if g = 1 then 1 else 0)] g := fun g => by
    rw [(rho_two (hS 0) (hS 1) rfl).2]
  have hl : ∀ x ∈ [((1 : ℝ), fun g : Fin 3 => if g = 0 then (1 : ℝ) else 0),
      (1, fun g => if g = 1 then 1 else 0)], State x := by
    intro x hx
    rcases List.mem_cons.mp hx with rfl | hx
    · exact hS 0
    · rw [List.mem_singleton] at hx
      rw [hx]; exact hS 1
  have h3 := fun g => rho_last (by simp) hl (hS 2) g
  refine ⟨[((1 : ℝ), fun g => if g = 0 then (1 : ℝ) else 0), (1, fun g => if g = 1 then 1 else 0)]
    ++ [(1, fun g => if g = 2 then 1 else 0)], ?_, ?_, ?_, ?_, ?_⟩
  · intro s hs
    rcases List.mem_append.mp hs with h | h
    · refine ⟨hl s h, ?_⟩
      rcases List.mem_cons.mp h with rfl | h
      · rfl
      · rw [List.mem_singleton] at h; rw [h]
    · rw [List.mem_singleton] at h
      rw [h]; exact ⟨hS 2, rfl⟩
  · rw [h3, h2]; simp [boltz]; norm_num
  · rw [h3, h2]; simp [boltz]; norm_num
  · rw [h3, h2]; simp [boltz]; norm_num
  · intro g
    fin_cases g <;> simp [boltz] <;> norm_num

/-! ## Mixing -/

/-- **C152.** Without mixing the mean field is the potential of the mode and the couplings. -/
theorem mix_one (vI C v : ℝ) : mix 1 vI C v = vI + C := by unfold mix; ring

/-- **C152, negated.** With mixing the mean field that no longer changes is another one: the potential
of the mode alone is divided by the mixing fraction. -/
theorem mix_fixed {α : ℝ} (hα : α ≠ 0) (vI C v : ℝ) : mix α vI C v = v ↔ v = vI / α + C := by
  unfold mix
  constructor
  · intro h
    field_simp
    linarith
  · intro h
    rw [h]
    field_simp
    ring

/-- **C152, negated.** So the self-consistent mean field is not the result of a mixed iteration, unless
the mode is harmonic or nothing is mixed. -/
theorem mix_right_iff {α : ℝ} (hα : α ≠ 0) (vI C : ℝ) :
    mix α vI C (vI + C) = vI + C ↔ α = 1 ∨ vI = 0 := by
  rw [mix_fixed hα]
  constructor
  · intro h
    by_cases hv : vI = 0
    · exact Or.inr hv
    · left
      have h1 : vI = vI / α := by linarith
      have h2 : vI * α = vI := by
        rw [eq_div_iff hα] at h1
        exact h1
      have : vI * (α - 1) = 0 := by linarith
      rcases mul_eq_zero.mp this with h | h
      · exact absurd h hv
      · linarith
  · rintro (h | h)
    · rw [h, div_one]
    · rw [h, zero_div]

/-- **C152, negated.** The iteration goes there: the distance to it shrinks by `1 - α` each time. -/
theorem mix_contracts {α : ℝ} (hα : α ≠ 0) (vI C v : ℝ) (n : ℕ) :
    (mix α vI C)^[n] v - (vI / α + C) = (1 - α) ^ n * (v - (vI / α + C)) := by
  induction n generalizing v with
  | zero => simp
  | succ n ih =>
    rw [Function.iterate_succ_apply, ih, pow_succ]
    unfold mix
    field_simp
    ring

/-! ## The end of the iteration -/

/-- **C152.** The iteration ends after at least five rounds, when the free energy changes by less than
the threshold per mode. The levels saved are one round ahead of the free energy reported. -/
theorem scf_end {σ : Type} (F : σ → σ) (A : σ → ℝ) (n thr : ℝ) (s : σ) {fuel : ℕ} {r : ScfResult σ}
    (h : scf F A n thr fuel 0 (A s) s = some r) :
    5 ≤ r.iter ∧ r.a = A (F^[r.iter - 1] s) ∧ r.st = F^[r.iter] s ∧
      |A (F^[r.iter - 1] s) - A (F^[r.iter - 2] s)| / n < thr := by
  have key : ∀ (fuel it : ℕ) (old : ℝ), old = A (F^[it - 1] s) →
      ∀ r, scf F A n thr fuel it old (F^[it] s) = some r →
      5 ≤ r.iter ∧ r.a = A (F^[r.iter - 1] s) ∧ r.st = F^[r.iter] s ∧
        |A (F^[r.iter - 1] s) - A (F^[r.iter - 2] s)| / n < thr := by
    intro fuel
    induction fuel with
    | zero => intro it old _ r h; simp [scf] at h
    | succ fuel ih =>
      intro it old ho r h
      rw [scf] at h
      split at h
      · next hc =>
        simp only [Option.some.injEq] at h
        rw [← h]
        refine ⟨by dsimp only; omega, by simp, by dsimp only; rw [Function.iterate_succ_apply'], ?_⟩
        dsimp only
        rw [ho] at hc
        have := hc.1
        rw [show it + 1 - 1 = it from rfl, show it + 1 - 2 = it - 1 from rfl]
        exact this
      · apply ih (it + 1) (A (F^[it] s)) rfl r
        rw [Function.iterate_succ_apply']
        exact h
  exact key fuel 0 (A s) rfl r h

/-- A calculation whose free energy does not change ends in round five. -/
example : (scf (fun n : ℕ => n + 1) (fun _ => 0) 1 1 5 0 0 0).map (fun r => (r.iter, r.st))
    = some (5, 5) := by
  simp [scf]

/-- **C152.** If all files of the other modes are there, the solver loads them, transposed, and zero for the mode itself. -/
theorem couplings_loaded {G : ℕ} (F : Files (Matrix (Fin G) (Fin G) ℝ)) (i : ℕ) (js : List ℕ)
    (h : ∀ j ∈ js, j ≠ i → (F i j).isSome) :
    ∃ l, vcs F i js = .ok l ∧ l = js.map fun j => if i = j then 0 else Matrix.transpose ((F i j).getD 0) := by
  refine ⟨_, ?_, rfl⟩
  unfold vcs
  induction js with
  | nil => rfl
  | cons j js ih =>
    rw [List.mapM_cons, ih fun k hk => h k (List.mem_cons_of_mem _ hk)]
    have : vc F i j = .ok (if i = j then 0 else Matrix.transpose ((F i j).getD 0)) := by
      unfold vc
      split_ifs with e
      · rfl
      · obtain ⟨x, hx⟩ := Option.isSome_iff_exists.1 (h j List.mem_cons_self fun q => e q.symm)
        rw [hx]
        rfl
    rw [this]
    rfl

end Verif.Vscf
