import Verif.Phys.Metad
import Mathlib.Tactic.Ring
import Mathlib.Tactic.Linarith
import Mathlib.Tactic.FieldSimp
import Mathlib.Tactic.NormNum
import Mathlib.Tactic.Positivity

/-!
# C81: depositing metadynamics hills leaves the conserved quantity alone

The bias grows with time, so energy is put into the system at every hill.  Specification: the
reported conserved quantity is the same before and after a hill is added (`econs`), and the bias
energies it contains are those of the new bias (`Right`), so that computing them again later changes
nothing.
-/

namespace Verif.Metad

variable {σ P : Type}

/-- The weight with which a force field enters the bias. -/
noncomputable def total (k : ℕ) (cs : List (Comp P)) : ℝ :=
  (cs.map fun c => if c.ff = k then c.weight * c.mts else 0).sum

theorem sum_correct (k : ℕ) (w nb : ℝ) (cs : List (Comp P)) (h : ∀ c ∈ cs, c.u ≠ []) :
    ((cs.map (correct k w)).map fun c => c.weight * c.mts * (nb / c.u.length * c.u.sum)).sum
      = (cs.map fun c => c.weight * c.mts * (nb / c.u.length * c.u.sum)).sum - w * nb * total k cs := by
  induction cs with
  | nil => simp [total]
  | cons c cs ih =>
    have hc : ((c.u.length : ℕ) : ℝ) ≠ 0 := by
      have := List.length_pos_iff.2 (h c (by simp))
      positivity
    have hs : ∀ l : List ℝ, (l.map (· - w)).sum = l.sum - l.length * w := by
      intro l
      induction l with
      | nil => simp
      | cons a l ihl => simp [ihl]; ring
    have ih := ih (fun c hc => h c (by simp [hc]))
    simp only [List.map_cons, List.sum_cons, total] at ih ⊢
    rw [ih]
    unfold correct
    split
    · next he =>
      simp only [List.length_map, hs]
      field_simp
      ring
    · next he =>
      ring

/-- **C81.**  What one hill does to the conserved quantity: nothing if the weights of its force field
add up to one. -/
theorem deposit_econs (pl : Plumed σ P) (cw : Bool) (metaff : List ℕ) (qc : P) (s : Sys σ P) (k : ℕ)
    (weight : ℝ) (hk : k ∈ metaff) (hw : weight ≠ 0) (h : ∀ c ∈ s.comps, c.u ≠ []) :
    econs (deposit pl cw metaff qc s k weight)
      = econs s + work pl cw (s.st k) qc * s.nb * (1 - total k s.comps) := by
  unfold deposit
  rw [if_neg (by simpa using hk), if_neg hw]
  simp only [econs, pot]
  rw [sum_correct k _ _ _ h]
  ring

/-- What a hill does not change. -/
def SameShape (a b : List (Comp P)) : Prop :=
  a.map (fun c => (c.ff, c.weight, c.mts, c.pts, c.u.length))
    = b.map (fun c => (c.ff, c.weight, c.mts, c.pts, c.u.length))

theorem correct_shape (k : ℕ) (w : ℝ) (cs : List (Comp P)) : SameShape (cs.map (correct k w)) cs := by
  unfold SameShape
  rw [List.map_map]
  congr 1
  funext c
  simp only [Function.comp, correct]
  split <;> simp

theorem deposit_shape (pl : Plumed σ P) (cw : Bool) (metaff : List ℕ) (qc : P) (s : Sys σ P) (k : ℕ)
    (weight : ℝ) : SameShape (deposit pl cw metaff qc s k weight).comps s.comps := by
  unfold deposit
  split
  · rfl
  · split
    · rfl
    · exact correct_shape _ _ _

theorem shape_total {a b : List (Comp P)} (h : SameShape a b) (k : ℕ) : total k a = total k b := by
  have e : ∀ l : List (Comp P), total k l
      = ((l.map (fun c => (c.ff, c.weight, c.mts, c.pts, c.u.length))).map
          fun x => if x.1 = k then x.2.1 * x.2.2.1 else 0).sum := by
    intro l
    rw [List.map_map]
    rfl
  rw [e, e, h]

theorem shape_ne {a b : List (Comp P)} (h : SameShape a b) (hb : ∀ c ∈ b, c.u ≠ []) :
    ∀ c ∈ a, c.u ≠ [] := by
  intro c hc h0
  have : (c.ff, c.weight, c.mts, c.pts, c.u.length)
      ∈ a.map (fun c => (c.ff, c.weight, c.mts, c.pts, c.u.length)) := List.mem_map_of_mem hc
  rw [h] at this
  obtain ⟨d, hd, he⟩ := List.mem_map.1 this
  simp only [Prod.mk.injEq] at he
  have hl := he.2.2.2.2
  rw [h0, List.length_nil] at hl
  exact hb d hd (List.length_eq_zero_iff.1 hl)

/-- The condition under which hills are accounted for: the weights of every force field in the list
add up to one. -/
def UnitWeights (metaff : List ℕ) (cs : List (Comp P)) : Prop :=
  ∀ c ∈ cs, c.ff ∈ metaff → c.weight ≠ 0 → total c.ff cs = 1

theorem fold_econs (pl : Plumed σ P) (cw : Bool) (metaff : List ℕ) (qc : P) (l : List (ℕ × ℝ)) (s : Sys σ P)
    (h : ∀ c ∈ s.comps, c.u ≠ []) (hl : ∀ x ∈ l, x.1 ∈ metaff → x.2 ≠ 0 → total x.1 s.comps = 1) :
    econs (l.foldl (fun s kw => deposit pl cw metaff qc s kw.1 kw.2) s) = econs s := by
  induction l generalizing s with
  | nil => rfl
  | cons x l ih =>
    have hs := deposit_shape pl cw metaff qc s x.1 x.2
    rw [List.foldl_cons, ih _ (shape_ne hs h) (fun y hy h1 h2 => by
      rw [shape_total hs]; exact hl y (by simp [hy]) h1 h2)]
    by_cases hk : x.1 ∈ metaff
    · by_cases hw : x.2 = 0
      · unfold deposit
        rw [if_neg (by simpa using hk), if_pos hw]
      · rw [deposit_econs pl cw metaff qc s x.1 x.2 hk hw h, hl x (by simp) hk hw]
        ring
    · unfold deposit
      rw [if_pos hk]

/-- **C81 (partial).**  A metadynamics step leaves the reported conserved quantity alone when the
weights of every force field add up to one.  Missing: other weights, see `weight_not_conserved`. -/
theorem step_econs_partial (pl : Plumed σ P) (cw : Bool) (metaff : List ℕ) (qc : P) (s : Sys σ P)
    (h : ∀ c ∈ s.comps, c.u ≠ []) (hw : UnitWeights metaff s.comps) :
    econs (step pl cw metaff qc s) = econs s := by
  refine fold_econs pl cw metaff qc _ s h ?_
  intro x hx
  obtain ⟨c, hc, rfl⟩ := List.mem_map.1 hx
  exact hw c hc

/-- The cached energies of the components that can matter are those of the present bias. -/
def Right (pl : Plumed σ P) (s : Sys σ P) : Prop := ∀ c ∈ s.comps, c.u = c.pts.map (pl.B (s.st c.ff))

theorem deposit_right (pl : Plumed σ P) (metaff : List ℕ) (qc : P) (s : Sys σ P) (k : ℕ) (weight : ℝ)
    (h : Right pl s) (hp : ∀ c ∈ s.comps, c.ff ∈ metaff → ∀ x ∈ c.pts, x = qc) :
    Right pl (deposit pl true metaff qc s k weight) := by
  unfold deposit
  split
  · exact h
  · next hk =>
    split
    · exact h
    · intro c hc
      simp only [List.mem_map] at hc
      obtain ⟨d, hd, rfl⟩ := hc
      simp only [correct]
      split
      · next he =>
        simp only []
        rw [h d hd, List.map_map]
        refine List.map_congr_left fun x hx => ?_
        rw [hp d hd (by rw [he]; simpa using hk) x hx, he]
        simp [work]
      · next he =>
        exact h d hd

/-- **C81 (partial).**  If the bias is evaluated on the centroid (one bead), the energies kept in the
conserved quantity are those of the new bias.  Missing: components evaluated on more beads, see
`beads_not_right`, and runs without `compute_work`, see `no_work_not_right`. -/
theorem step_right_partial (pl : Plumed σ P) (metaff : List ℕ) (qc : P) (s : Sys σ P)
    (h : Right pl s) (hp : ∀ c ∈ s.comps, c.ff ∈ metaff → ∀ x ∈ c.pts, x = qc) :
    Right pl (step pl true metaff qc s) := by
  unfold step
  generalize (s.comps.map fun c => (c.ff, c.weight)) = l
  induction l generalizing s with
  | nil => exact h
  | cons x l ih =>
    refine ih _ (deposit_right pl metaff qc s _ _ h hp) ?_
    intro c hc
    have hs := deposit_shape pl true metaff qc s x.1 x.2
    have hm : (c.ff, c.weight, c.mts, c.pts, c.u.length) ∈ (deposit pl true metaff qc s x.1 x.2).comps.map
        (fun c => (c.ff, c.weight, c.mts, c.pts, c.u.length)) := List.mem_map_of_mem hc
    rw [hs] at hm
    obtain ⟨d, hd, he⟩ := List.mem_map.1 hm
    simp only [Prod.mk.injEq] at he
    rw [← he.1, ← he.2.2.2.1]
    exact hp d hd

/-- Force fields that are not listed, and components with zero weight, receive no hills. -/
theorem step_untouched (pl : Plumed σ P) (cw : Bool) (metaff : List ℕ) (qc : P) (s : Sys σ P) (k : ℕ)
    (h : k ∉ metaff ∨ ∀ c ∈ s.comps, c.ff = k → c.weight = 0) : (step pl cw metaff qc s).st k = s.st k := by
  unfold step
  have hl : ∀ x ∈ s.comps.map (fun c => (c.ff, c.weight)), k ∉ metaff ∨ (x.1 = k → x.2 = 0) := by
    intro x hx
    obtain ⟨c, hc, rfl⟩ := List.mem_map.1 hx
    exact h.imp id (fun h => h c hc)
  revert hl
  generalize (s.comps.map fun c => (c.ff, c.weight)) = l
  intro hl
  induction l generalizing s with
  | nil => rfl
  | cons x l ih =>
    have e : (deposit pl cw metaff qc s x.1 x.2).st k = s.st k := by
      unfold deposit
      split
      · rfl
      · next hk =>
        split
        · rfl
        · next hw =>
          have : k ≠ x.1 := by
            intro he
            rcases hl x (by simp) with h1 | h1
            · exact hk (he ▸ h1)
            · exact hw (h1 he.symm)
          simp [this]
    rw [List.foldl_cons, ih _ ?_ (fun y hy => hl y (by simp [hy])), e]
    rcases h with h | h
    · exact Or.inl h
    · refine Or.inr fun c hc hck => ?_
      have hs := deposit_shape pl cw metaff qc s x.1 x.2
      have hm : (c.ff, c.weight, c.mts, c.pts, c.u.length) ∈ (deposit pl cw metaff qc s x.1 x.2).comps.map
          (fun c => (c.ff, c.weight, c.mts, c.pts, c.u.length)) := List.mem_map_of_mem hc
      rw [hs] at hm
      obtain ⟨d, hd, he⟩ := List.mem_map.1 hm
      simp only [Prod.mk.injEq] at he
      rw [← he.2.1]
      exact h d hd (by rw [he.1, hck])

/-- **C81.**  A listed force field used by one component gets one update per step, at the centroid. -/
theorem step_updates (pl : Plumed σ P) (cw : Bool) (metaff : List ℕ) (qc : P) (s : Sys σ P) (c : Comp P)
    (hc : s.comps = [c]) (hk : c.ff ∈ metaff) (hw : c.weight ≠ 0) :
    (step pl cw metaff qc s).st c.ff = pl.upd (s.st c.ff) qc := by
  simp [step, hc, deposit, hk, hw]

/-! ### Where the code departs from it -/

/-- A PLUMED that adds a constant hill at every update, and one that adds a hill at the origin. -/
def flat : Plumed ℕ ℝ := ⟨fun n _ => n, fun n _ => n + 1⟩

noncomputable def peaked : Plumed ℕ ℝ := ⟨fun n x => if x = 0 then n else 0, fun n _ => n + 1⟩

/-- **C81 fails for weights other than one**: with a bias weight of one half the conserved quantity
jumps at every hill. -/
theorem weight_not_conserved :
    econs (step flat true [0] 0 ⟨1, [⟨0, 1 / 2, 1, [0], [0]⟩], 0, fun _ => 0⟩)
      ≠ econs (⟨1, [⟨0, 1 / 2, 1, [(0 : ℝ)], [0]⟩], 0, fun _ => 0⟩ : Sys ℕ ℝ) := by
  simp [econs, pot, step, deposit, correct, work, flat]
  norm_num

/-- **C81 fails for biases evaluated on several beads**: the energies kept are not those of the new
bias, so the next evaluation changes the conserved quantity. -/
theorem beads_not_right :
    Right peaked ⟨2, [⟨0, 1, 1, [1, -1], [0, 0]⟩], 0, fun _ => 0⟩
      ∧ ¬ Right peaked (step peaked true [0] 0 ⟨2, [⟨0, 1, 1, [1, -1], [0, 0]⟩], 0, fun _ => 0⟩) := by
  constructor
  · simp [Right, peaked]
  · simp [Right, peaked, step, deposit, correct, work]

/-- **C81 fails without `compute_work`**: the energies kept are not those of the new bias. -/
theorem no_work_not_right :
    Right flat ⟨1, [⟨0, 1, 1, [0], [0]⟩], 0, fun _ => 0⟩
      ∧ ¬ Right flat (step flat false [0] 0 ⟨1, [⟨0, 1, 1, [0], [0]⟩], 0, fun _ => 0⟩) := by
  constructor
  · simp [Right, flat]
  · simp [Right, flat, step, deposit, correct, work]

/-- A force field used by two components gets two hills in one step. -/
theorem shared_twice :
    (step flat true [0] 0 ⟨1, [⟨0, 1, 1, [0], [0]⟩, ⟨0, 1, 1, [0], [0]⟩], 0, fun _ => 0⟩).st 0 = 2 := by
  simp [step, deposit, flat]

/-- Non-vacuity: two force fields, four beads, one of them a metadynamics bias on the centroid. -/
example : econs (step flat true [1] 0 ⟨4, [⟨0, 2, 1, [1, 2], [3, 4]⟩, ⟨1, 1, 1, [0], [5]⟩], 0, fun _ => 5⟩)
    = econs (⟨4, [⟨0, 2, 1, [(1 : ℝ), 2], [3, 4]⟩, ⟨1, 1, 1, [0], [5]⟩], 0, fun _ => 5⟩ : Sys ℕ ℝ) := by
  refine step_econs_partial _ _ _ _ _ (by simp) ?_
  intro c hc
  simp only [List.mem_cons, List.not_mem_nil, or_false] at hc
  rcases hc with rfl | rfl <;> simp [total]

end Verif.Metad
