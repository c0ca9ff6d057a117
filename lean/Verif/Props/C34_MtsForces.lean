import Mathlib.Algebra.BigOperators.Group.List.Lemmas
import Mathlib.Algebra.Field.Rat
import Mathlib.Tactic.Ring
import Mathlib.Tactic.Module
import Verif.Phys.MtsForces

/-!
# C34: splitting forces over time step levels loses nothing

The contribution of a component to a level is `weight * mts_weights[level] * force`, and to
the total it is `weight * (sum of mts_weights) * force`.
-/

set_option linter.unusedSectionVars false

namespace Verif.MtsForces

variable {K V W : Type} [Field K] [DecidableEq K] [AddCommGroup V] [Module K V]
  [AddCommGroup W] [Module K W]

/-! ## closed forms -/

theorem totalForceFrom_eq (cs : List (Comp K V W)) : ∀ rf : V,
    totalForceFrom rf cs = rf + (cs.map (fun c => (c.weight * c.mts.sum) • c.f)).sum := by
  induction cs with
  | nil => intro rf; simp [totalForceFrom]
  | cons c cs ih =>
    intro rf
    by_cases h : c.weight = 0
    · simp [totalForceFrom, h, ih]
    · simp only [totalForceFrom, ne_eq, h, not_false_eq_true, if_true, ih, List.map_cons,
        List.sum_cons]
      rw [add_assoc]

theorem totalVirFrom_eq (cs : List (Comp K V W)) : ∀ rp : W,
    totalVirFrom rp cs = rp + (cs.map (fun c => (c.weight * c.mts.sum) • c.virs)).sum := by
  induction cs with
  | nil => intro rp; simp [totalVirFrom]
  | cons c cs ih =>
    intro rp
    by_cases h : c.weight = 0
    · simp [totalVirFrom, h, ih]
    · simp only [totalVirFrom, ne_eq, h, not_false_eq_true, if_true, ih, List.map_cons,
        List.sum_cons]
      rw [add_assoc]

/-- The total force is the weighted sum over the components. -/
theorem total_force (cs : List (Comp K V W)) :
    totalForce cs = (cs.map (fun c => (c.weight * c.mts.sum) • c.f)).sum := by
  rw [totalForce, totalForceFrom_eq, zero_add]

/-- The total virial is the weighted sum over the components. -/
theorem total_vir (cs : List (Comp K V W)) :
    totalVir cs = (cs.map (fun c => (c.weight * c.mts.sum) • c.virs)).sum := by
  rw [totalVir, totalVirFrom_eq, zero_add]

theorem levelForceFrom_eq (level : Nat) (cs : List (Comp K V W))
    (h : ∀ c ∈ cs, c.mts ≠ []) : ∀ fk : V,
    levelForceFrom level fk cs
      = .ok (fk + (cs.map (fun c => (c.weight * c.mts.getD level 0) • c.f)).sum) := by
  induction cs with
  | nil => intro fk; simp [levelForceFrom]
  | cons c cs ih =>
    intro fk
    have hc : c.mts ≠ [] := h c (by simp)
    have ih' := ih (fun x hx => h x (by simp [hx]))
    have he : c.mts.isEmpty = false := by
      cases hm : c.mts with
      | nil => exact absurd hm hc
      | cons a l => rfl
    simp only [levelForceFrom, used, active, he, Bool.false_and, Bool.false_or, List.map_cons,
      List.sum_cons]
    cases hg : c.mts[level]? with
    | none => simp [ih', List.getD, hg]
    | some m =>
      by_cases hm : m = 0
      · simp [ih', List.getD, hg, hm]
      · by_cases hw : c.weight = 0
        · simp [ih', List.getD, hg, hm, hw]
        · simp [ih', List.getD, hg, hm, hw, add_assoc]

/-- The force of a level, when every component says what it does at the levels. -/
theorem level_force (cs : List (Comp K V W)) (level : Nat) (h : ∀ c ∈ cs, c.mts ≠ []) :
    levelForce cs level
      = .ok (cs.map (fun c => (c.weight * c.mts.getD level 0) • c.f)).sum := by
  rw [levelForce, levelForceFrom_eq level cs h, zero_add]

theorem levelVirFrom_eq (level : Nat) (cs : List (Comp K V W)) : ∀ rp : W,
    levelVirFrom level rp cs
      = rp + (cs.map (fun c => (c.weight * c.mts.getD level 0) • c.virs)).sum := by
  induction cs with
  | nil => intro rp; simp [levelVirFrom]
  | cons c cs ih =>
    intro rp
    simp only [levelVirFrom, List.map_cons, List.sum_cons]
    by_cases ha : active c level = true
    · rw [if_pos ha, ih, add_assoc]
    · rw [if_neg ha, ih]
      have hz : c.weight * c.mts.getD level 0 = 0 := by
        simp only [active] at ha
        cases hg : c.mts[level]? with
        | none => simp [List.getD, hg]
        | some m =>
          simp only [hg, Bool.and_eq_true, decide_eq_true_eq, ne_eq, not_and, not_not] at ha
          by_cases hm : m = 0
          · simp [List.getD, hg, hm]
          · simp [ha hm]
      rw [hz, zero_smul, zero_add]

/-- The virial of a level. -/
theorem level_vir (cs : List (Comp K V W)) (level : Nat) :
    levelVir cs level
      = (cs.map (fun c => (c.weight * c.mts.getD level 0) • c.virs)).sum := by
  rw [levelVir, levelVirFrom_eq level cs, zero_add]

/-! ## sums over the levels -/

omit [DecidableEq K] in
theorem sumLevels_ok (g : Nat → V) (n : Nat) :
    sumLevels (fun l => .ok (g l)) n = .ok ((List.range n).map g).sum := by
  induction n with
  | zero => simp [sumLevels]
  | succ n ih => simp [sumLevels, ih, List.range_succ]

omit [DecidableEq K] in
/-- The weights of the levels add up to the sum of the list. -/
theorem getD_range_sum (l : List K) (n : Nat) (h : l.length ≤ n) :
    ((List.range n).map (fun i => l.getD i 0)).sum = l.sum := by
  induction l generalizing n with
  | nil => simp
  | cons a l ih =>
    cases n with
    | zero => simp at h
    | succ n =>
      have := ih n (by simpa using h)
      simp only [List.range_succ_eq_map, List.map_cons, List.map_map, List.sum_cons]
      simp only [Function.comp_def, List.getD_cons_succ, List.getD_cons_zero, this]

omit [DecidableEq K] in
theorem swap_sums (w : Comp K V W → K) (x : Comp K V W → V) (cs : List (Comp K V W)) (n : Nat)
    (h : ∀ c ∈ cs, c.mts.length ≤ n) :
    ((List.range n).map (fun l => (cs.map (fun c => (w c * c.mts.getD l 0) • x c)).sum)).sum
      = (cs.map (fun c => (w c * c.mts.sum) • x c)).sum := by
  induction cs with
  | nil => simp
  | cons c cs ih =>
    have hc := h c (by simp)
    have ih' := ih (fun y hy => h y (by simp [hy]))
    simp only [List.map_cons, List.sum_cons]
    rw [List.sum_map_add, ih']
    congr 1
    rw [← getD_range_sum c.mts n hc]
    generalize List.range n = r
    induction r with
    | nil => simp
    | cons a r ihr => simp only [List.map_cons, List.sum_cons, ihr]; rw [mul_add, add_smul]

omit [DecidableEq K] [AddCommGroup V] [Module K V] [AddCommGroup W] [Module K W] in
theorem nmtslevels_ok {cs : List (Comp K V W)} {n : Nat} (h : nmtslevels cs = .ok n) :
    ∀ c ∈ cs, c.mts.length = n := by
  cases cs with
  | nil => simp [nmtslevels] at h
  | cons a cs =>
    simp only [nmtslevels] at h
    by_cases ha : ((a :: cs).all (fun x => decide (x.mts.length = a.mts.length))) = true
    · rw [if_pos ha] at h
      injection h with h
      intro c hc
      have := List.all_eq_true.1 ha c hc
      simp only [decide_eq_true_eq] at this
      omega
    · rw [if_neg ha] at h; cases h

/-- **C34, forces.** Whenever the number of levels is accepted, every level force can be
computed and the level forces add up to the total force. -/
theorem levels_sum_force (cs : List (Comp K V W)) (n : Nat) (h : nmtslevels cs = .ok n) :
    sumLevels (levelForce cs) n = .ok (totalForce cs) := by
  have hl := nmtslevels_ok h
  rcases Nat.eq_zero_or_pos n with h0 | hn
  · subst h0
    have z : totalForce cs = 0 := by
      rw [total_force]
      apply List.sum_eq_zero
      intro x hx
      obtain ⟨c, hc, rfl⟩ := List.mem_map.1 hx
      have : c.mts = [] := List.length_eq_zero_iff.1 (hl c hc)
      simp [this]
    rw [z]; rfl
  have hne : ∀ c ∈ cs, c.mts ≠ [] := by
    intro c hc hcm
    have := hl c hc
    rw [hcm] at this
    simp at this
    omega
  have e : levelForce cs
      = fun l => .ok (cs.map (fun c => (c.weight * c.mts.getD l 0) • c.f)).sum := by
    funext l; exact level_force cs l hne
  rw [e, sumLevels_ok, total_force, swap_sums (fun c => c.weight) (fun c => c.f) cs n
    (fun c hc => le_of_eq (hl c hc))]

/-- **C34, virials.** The level virials add up to the total virial, also without any level. -/
theorem levels_sum_vir (cs : List (Comp K V W)) (n : Nat) (h : nmtslevels cs = .ok n) :
    ((List.range n).map (levelVir cs)).sum = totalVir cs := by
  have hl := nmtslevels_ok h
  have e : levelVir cs
      = fun l => (cs.map (fun c => (c.weight * c.mts.getD l 0) • c.virs)).sum := by
    funext l; exact level_vir cs l
  rw [e, total_vir]
  have := swap_sums (V := W) (W := W) (fun c : Comp K W W => c.weight) (fun c => c.virs)
    (cs.map (fun c => (⟨c.weight, c.mts, c.virs, c.virs⟩ : Comp K W W))) n
    (by
      intro c hc
      obtain ⟨d, hd, rfl⟩ := List.mem_map.1 hc
      exact le_of_eq (hl d hd))
  simpa [List.map_map, Function.comp_def] using this

/-- Levels beyond the number of level weights contribute nothing. -/
theorem level_beyond (cs : List (Comp K V W)) (n l : Nat) (h : nmtslevels cs = .ok n)
    (hn : 0 < n) (hl : n ≤ l) : levelForce cs l = .ok 0 ∧ levelVir cs l = 0 := by
  have hlen := nmtslevels_ok h
  have z : ∀ c ∈ cs, c.mts.getD l 0 = 0 := by
    intro c hc
    have : c.mts[l]? = none := by rw [List.getElem?_eq_none_iff, hlen c hc]; exact hl
    simp [List.getD, this]
  have hne : ∀ c ∈ cs, c.mts ≠ [] := by
    intro c hc hcm
    have := hlen c hc
    rw [hcm] at this
    simp at this
    omega
  rw [level_force cs l hne, level_vir]
  constructor
  · congr 1
    apply List.sum_eq_zero
    intro x hx
    obtain ⟨c, hc, rfl⟩ := List.mem_map.1 hx
    simp only [z c hc, mul_zero, zero_smul]
  · apply List.sum_eq_zero
    intro x hx
    obtain ⟨c, hc, rfl⟩ := List.mem_map.1 hx
    simp only [z c hc, mul_zero, zero_smul]

/-! ## components with zero weight -/

/-- The components left when those with zero weight are taken out. -/
def nonzero (cs : List (Comp K V W)) : List (Comp K V W) :=
  cs.filter (fun c => decide (c.weight ≠ 0))

theorem sum_nonzero (m : Comp K V W → K) (x : Comp K V W → V) (cs : List (Comp K V W)) :
    ((nonzero cs).map (fun c => (c.weight * m c) • x c)).sum
      = (cs.map (fun c => (c.weight * m c) • x c)).sum := by
  induction cs with
  | nil => rfl
  | cons c cs ih =>
    by_cases h : c.weight = 0
    · have hf : nonzero (c :: cs) = nonzero cs := by simp [nonzero, h]
      rw [hf, ih]; simp [h]
    · have hf : nonzero (c :: cs) = c :: nonzero cs := by simp [nonzero, h]
      rw [hf, List.map_cons, List.map_cons, List.sum_cons, List.sum_cons, ih]

/-- **C34, zero weights.** Taking out the components whose weight is zero changes neither the
total force nor the force of any level, for components with level weights. -/
theorem zero_weight_force (cs : List (Comp K V W)) (hne : ∀ c ∈ cs, c.mts ≠ []) :
    totalForce (nonzero cs) = totalForce cs ∧
      ∀ l, levelForce (nonzero cs) l = levelForce cs l := by
  refine ⟨?_, fun l => ?_⟩
  · rw [total_force, total_force, sum_nonzero (fun c => c.mts.sum)]
  · rw [level_force cs l hne, level_force (nonzero cs) l
      (fun c hc => hne c (List.mem_of_mem_filter hc)),
      sum_nonzero (fun c => c.mts.getD l 0)]

/-- A component with zero weight and at least one level weight is never sent out for
evaluation. -/
theorem zero_weight_not_queued (cs : List (Comp K V W)) (l : Nat) (c : Comp K V W)
    (hc : c ∈ queued cs l) (hne : c.mts ≠ []) : c.weight ≠ 0 := by
  have h := (List.mem_filter.1 hc).2
  have he : c.mts.isEmpty = false := by
    cases hm : c.mts with
    | nil => exact absurd hm hne
    | cons a l => rfl
  simp only [used, he, Bool.false_and, Bool.false_or, active] at h
  cases hg : c.mts[l]? with
  | none => simp [hg] at h
  | some m =>
    simp only [hg, Bool.and_eq_true, decide_eq_true_eq] at h
    exact h.2

/-- Every component a level uses is one the level was told to watch for changes, so that a
change of its force or of its weight makes the cached level force stale. -/
theorem used_watched (c : Comp K V W) (l : Nat) (h : used c l = true) : watched c l = true := by
  simp only [used, watched, active, Bool.or_eq_true] at h ⊢
  rcases h with h | h
  · exact Or.inl h
  · right
    cases hg : c.mts[l]? with
    | none => simp [hg] at h
    | some m => simp only [hg, Bool.and_eq_true] at h; exact h.1

/-- A component that is not watched is not used whatever its weight becomes later: the level
never needs to be told about it. -/
theorem unwatched_unused (c : Comp K V W) (l : Nat) (w : K) (h : watched c l = false) :
    used { c with weight := w } l = false := by
  cases hu : used { c with weight := w } l with
  | false => rfl
  | true =>
    have := used_watched _ _ hu
    have e : watched { c with weight := w } l = watched c l := rfl
    rw [e, h] at this
    cases this

/-! ## concrete cases and counterexamples -/

/-- Two components and two levels. -/
def exComps : List (Comp ℚ ℚ ℚ) :=
  [⟨1, [1, 0], 3, 5⟩, ⟨2, [1/2, 1/2], 7, 11⟩, ⟨0, [1, 1], 100, 100⟩]

example : nmtslevels exComps = .ok 2 := by decide +kernel
example : levelForce exComps 0 = .ok 10 ∧ levelForce exComps 1 = .ok 7 ∧
    totalForce exComps = 17 := by decide +kernel
example : levelVir exComps 0 = 16 ∧ levelVir exComps 1 = 11 ∧ totalVir exComps = 27 := by
  decide +kernel
example : (nonzero exComps).length = 2 ∧ (queued exComps 1).length = 1 := by decide +kernel

/-- An empty list of level weights passes the check of the number of levels (it counts as zero
levels) and then the force of the outer level, which the tests in the code mean to include the
component, cannot be computed; the total force leaves the component out. -/
theorem empty_weights_fail :
    nmtslevels [(⟨1, [], 3, 5⟩ : Comp ℚ ℚ ℚ)] = .ok 0 ∧
    levelForce [(⟨1, [], 3, 5⟩ : Comp ℚ ℚ ℚ)] 0 = .error .indexError ∧
    used (⟨1, [], 3, 5⟩ : Comp ℚ ℚ ℚ) 0 = true ∧
    totalForce [(⟨1, [], 3, 5⟩ : Comp ℚ ℚ ℚ)] = 0 := by decide +kernel

/-- Such a component is sent out for evaluation even with weight zero. -/
theorem empty_weights_zero_weight_queued :
    (queued [(⟨0, [], 3, 5⟩ : Comp ℚ ℚ ℚ)] 0).length = 1 := by decide +kernel

/-- Components with different numbers of level weights are refused. -/
theorem mixed_levels_refused (a b : Comp K V W) (cs : List (Comp K V W))
    (hb : b ∈ cs) (h : b.mts.length ≠ a.mts.length) :
    nmtslevels (a :: cs) = .error .valueError := by
  have : ¬ ((a :: cs).all (fun x => decide (x.mts.length = a.mts.length))) = true := by
    intro hall
    have := List.all_eq_true.1 hall b (by simp [hb])
    simp at this
    exact h this
  simp only [nmtslevels]
  rw [if_neg this]

example : nmtslevels [(⟨1, [1], 3, 5⟩ : Comp ℚ ℚ ℚ), ⟨1, [1, 1], 3, 5⟩]
    = .error .valueError := by decide +kernel

/-- `forces_component(index, weighted=True)` (`forces.py` L1220-1234): the contribution that
is reported for one component, which does not contain the level weights. -/
def reported (c : Comp K V W) : V := if c.weight = 0 then 0 else c.weight • c.f

/-- The reported components add up to the total force if the level weights of every component
with nonzero weight add up to one. -/
theorem reported_sum_partial (cs : List (Comp K V W))
    (h : ∀ c ∈ cs, c.weight ≠ 0 → c.mts.sum = 1) :
    (cs.map reported).sum = totalForce cs := by
  rw [total_force]
  congr 1
  apply List.map_congr_left
  intro c hc
  by_cases hw : c.weight = 0
  · simp [reported, hw]
  · simp [reported, hw, h c hc hw]

/-- Otherwise they do not: the level weights are left out of the report. -/
theorem reported_misses_level_weights :
    ([(⟨1, [2], 3, 5⟩ : Comp ℚ ℚ ℚ)].map reported).sum = 3 ∧
    totalForce [(⟨1, [2], 3, 5⟩ : Comp ℚ ℚ ℚ)] = 6 := by decide +kernel

end Verif.MtsForces
