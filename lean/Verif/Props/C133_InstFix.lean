import Verif.Phys.InstFix
import Mathlib.Order.Nat
import Mathlib.Data.List.GetD
import Mathlib.Tactic.Ring
import Mathlib.Tactic.Linarith
import Mathlib.Tactic.FieldSimp
import Mathlib.Tactic.FinCases
import Mathlib.Algebra.BigOperators.Fin
import Mathlib.Data.Fin.VecNotation

/-!
# C133: instantons with fixed atoms
-/

namespace Verif.InstFix

/-! ### Masks -/

lemma mem_mask1 {natoms : ℕ} {fixed : List ℕ} {i : ℕ} : i ∈ mask1 natoms fixed ↔ i < 3 * natoms ∧ i / 3 ∉ fixed := by
  simp [mask1]

lemma mem_mask2 {natoms nbeads : ℕ} {fixed : List ℕ} {i : ℕ} :
    i ∈ mask2 natoms nbeads fixed ↔ i < 3 * natoms * nbeads ∧ i % (3 * natoms) / 3 ∉ fixed := by
  simp [mask2]

lemma nodup_mask1 (natoms : ℕ) (fixed : List ℕ) : (mask1 natoms fixed).Nodup := List.Nodup.filter _ List.nodup_range

lemma nodup_mask2 (natoms nbeads : ℕ) (fixed : List ℕ) : (mask2 natoms nbeads fixed).Nodup := List.Nodup.filter _ List.nodup_range

/-- A degree of freedom that the user wants fixed is never among the active ones. -/
theorem fixed_dofs_kept (natoms : ℕ) (dofs f : List ℕ) (h : fixedAtoms dofs = .ok f) (i : ℕ) (hi : i ∈ dofs) : i ∉ mask1 natoms f := by
  rw [mem_mask1]
  rintro ⟨_, h2⟩
  apply h2
  unfold fixedAtoms at h
  have hl : 0 < dofs.length := List.length_pos_of_mem hi
  rw [if_pos hl] at h
  by_cases h3 : dofs.length % 3 = 0
  · rw [if_pos h3] at h
    have := Except.ok.inj h
    rw [← this, List.mem_insertionSort, List.mem_dedup, List.mem_map]
    exact ⟨i, hi, rfl⟩
  · rw [if_neg h3] at h
    cases h

/-- Atoms given by `fixatoms`: exactly their degrees of freedom are fixed. -/
theorem whole_atoms (natoms : ℕ) (atoms : List ℕ) :
    ∃ f, fixedAtoms (dofsOf atoms) = .ok f ∧ ∀ i, i ∈ mask1 natoms f ↔ i < 3 * natoms ∧ i ∉ dofsOf atoms := by
  have hlen : (dofsOf atoms).length = 3 * atoms.length := by
    unfold dofsOf
    rw [List.length_insertionSort]
    induction atoms with
    | nil => rfl
    | cons a l ih => rw [List.flatMap_cons, List.length_append, ih, List.length_cons]; simp; ring
  have hmem : ∀ i, i ∈ dofsOf atoms ↔ i / 3 ∈ atoms := by
    intro i
    unfold dofsOf
    rw [List.mem_insertionSort, List.mem_flatMap]
    constructor
    · rintro ⟨a, ha, hi⟩
      have : i / 3 = a := by
        simp only [List.mem_cons, List.not_mem_nil, or_false] at hi
        omega
      rwa [this]
    · intro h
      refine ⟨i / 3, h, ?_⟩
      simp only [List.mem_cons, List.not_mem_nil, or_false]
      omega
  by_cases h0 : atoms.length = 0
  · have hnil : atoms = [] := List.length_eq_zero_iff.1 h0
    subst hnil
    exact ⟨[], rfl, fun i => by rw [mem_mask1]; simp [dofsOf]⟩
  · refine ⟨_, by unfold fixedAtoms; rw [if_pos (by omega), if_pos (by omega)], ?_⟩
    intro i
    rw [mem_mask1, List.mem_insertionSort, List.mem_dedup, List.mem_map, hmem]
    constructor
    · rintro ⟨h1, h2⟩
      exact ⟨h1, fun h => h2 ⟨i, (hmem i).2 h, rfl⟩⟩
    · rintro ⟨h1, h2⟩
      refine ⟨h1, ?_⟩
      rintro ⟨j, hj, e⟩
      rw [hmem, e] at hj
      exact h2 hj

/-- Three degrees of freedom of different atoms fix all the degrees of freedom of these atoms. -/
theorem single_dofs_fix_atoms : ∃ f, fixedAtoms [0, 4, 8] = .ok f ∧ (1 : ℕ) ∉ [0, 4, 8] ∧ 1 ∉ mask1 3 f := by
  refine ⟨[0, 1, 2], by decide, by decide, by decide⟩

/-- Any other number of them ends the calculation. -/
theorem single_dofs_refused (dofs : List ℕ) (h : dofs.length % 3 ≠ 0) : fixedAtoms dofs = .error .exit := by
  unfold fixedAtoms
  rw [if_pos (by omega), if_neg h]

example : fixedAtoms [0, 1] = .error .exit := single_dofs_refused _ (by decide)

/-! ### Arrays -/

/-- An array with `nr` rows and `nc` columns. -/
def mat (nr nc : ℕ) (f : ℕ → ℕ → ℝ) : List (List ℝ) := (List.range nr).map fun i => (List.range nc).map (f i)

lemma take_eq {α : Type} (d : α) (mask : List ℕ) (v : List α) (h : ∀ i ∈ mask, i < v.length) : take mask v = .ok (mask.map fun i => v.getD i d) := by
  unfold take
  rw [if_pos (by rw [List.all_eq_true]; intro i hi; exact decide_eq_true (h i hi))]
  congr 1
  induction mask with
  | nil => rfl
  | cons a l ih =>
    have ha := h a (by simp)
    rw [List.filterMap_cons, List.getElem?_eq_getElem ha, List.map_cons]
    dsimp only
    rw [ih fun i hi => h i (by simp [hi]), List.getD_eq_getElem _ _ ha]

lemma mapM_ok {α β : Type} (f : α → Except Err β) (g : α → β) (l : List α) (h : ∀ x ∈ l, f x = .ok (g x)) : l.mapM f = .ok (l.map g) := by
  induction l with
  | nil => rfl
  | cons a l ih =>
    rw [List.mapM_cons, h a (by simp), ih fun x hx => h x (by simp [hx])]
    rfl

lemma mapM_error {α β : Type} (f : α → Except Err β) (e : Err) (l : List α) (h : ∀ x ∈ l, f x = .error e ∨ ∃ y, f x = .ok y)
    (hx : ∃ x ∈ l, f x = .error e) : l.mapM f = .error e := by
  induction l with
  | nil => simp at hx
  | cons a l ih =>
    rw [List.mapM_cons]
    rcases h a (by simp) with h1 | ⟨y, h1⟩
    · rw [h1]; rfl
    · rw [h1]
      obtain ⟨x, hxm, hxe⟩ := hx
      have hxl : x ∈ l := by
        rcases List.mem_cons.1 hxm with e1 | e1
        · subst e1
          rw [h1] at hxe
          cases hxe
        · exact e1
      have := ih (fun x hx => h x (by simp [hx])) ⟨x, hxl, hxe⟩
      change (do let bs ← l.mapM f; pure (y :: bs)) = _
      rw [this]; rfl

lemma getD_range {β : Type} (n : ℕ) (f : ℕ → β) (d : β) (i : ℕ) (hi : i < n) : ((List.range n).map f).getD i d = f i := by
  rw [List.getD_eq_getElem _ _ (by simpa using hi)]
  simp

lemma put_map (n : ℕ) (mask : List ℕ) (f : ℕ → ℝ) : put n mask (mask.map f) = .ok ((List.range n).map fun i => if i ∈ mask then f i else 0) := by
  unfold put
  rw [if_pos (by simp)]
  congr 1
  refine List.map_congr_left fun i _ => ?_
  by_cases h : i ∈ mask
  · have h1 : mask.idxOf i < mask.length := List.idxOf_lt_length_iff.2 h
    rw [if_pos h, if_pos h1, List.getD_eq_getElem _ _ (by simpa using h1)]
    simp
  · have h1 : ¬ mask.idxOf i < mask.length := fun h1 => h (List.idxOf_lt_length_iff.1 h1)
    rw [if_neg h, if_neg h1]

lemma take_range (mask : List ℕ) (n : ℕ) (f : ℕ → ℝ) (h : ∀ i ∈ mask, i < n) : take mask ((List.range n).map f) = .ok (mask.map f) := by
  rw [take_eq 0 mask _ (by simpa using h)]
  congr 1
  exact List.map_congr_left fun i hi => getD_range n f 0 i (h i hi)

lemma no_mask_nil (natoms : ℕ) : mask1 natoms [] = List.range (3 * natoms) := by
  unfold mask1
  rw [List.filter_eq_self]
  simp

/-- A step moves every degree of freedom of the other atoms by its displacement and none of the fixed atoms. -/
theorem step_fixed (natoms nbeads : ℕ) (fixed : List ℕ) (x D : ℕ → ℕ → ℝ) :
    (active natoms nbeads fixed 1 (mat nbeads (3 * natoms) D)).bind (newPos natoms nbeads fixed (mat nbeads (3 * natoms) x))
      = .ok (mat nbeads (3 * natoms) fun r c => if c / 3 ∈ fixed then x r c else x r c + D r c) := by
  have hz : ∀ E : ℕ → ℕ → ℝ, List.zipWith (List.zipWith (· + ·)) (mat nbeads (3 * natoms) x) (mat nbeads (3 * natoms) E)
      = mat nbeads (3 * natoms) fun r c => x r c + E r c := by
    intro E
    unfold mat
    rw [List.zipWith_map]
    rw [show List.zipWith (fun a b => List.zipWith (fun x1 x2 => x1 + x2) (List.map (x a) (List.range (3 * natoms))) (List.map (E b) (List.range (3 * natoms))))
        (List.range nbeads) (List.range nbeads) = (List.range nbeads).map fun r => List.zipWith (fun x1 x2 => x1 + x2)
        (List.map (x r) (List.range (3 * natoms))) (List.map (E r) (List.range (3 * natoms))) from List.zipWith_self ..]
    refine List.map_congr_left fun r _ => ?_
    rw [List.zipWith_map, List.zipWith_self]
  unfold newPos
  by_cases h0 : fixed.length = 0
  · have hnil : fixed = [] := List.length_eq_zero_iff.1 h0
    subst hnil
    have h1 : active natoms nbeads [] 1 (mat nbeads (3 * natoms) D) = .ok (mat nbeads (3 * natoms) D) := rfl
    rw [h1]
    change Except.ok _ = _
    beta_reduce
    rw [hz]
    simp
  · have h1 : active natoms nbeads fixed 1 (mat nbeads (3 * natoms) D) = .ok ((List.range nbeads).map fun r => (mask1 natoms fixed).map (D r)) := by
      unfold active
      rw [if_neg (by rintro (h | h); exacts [h0 h, absurd h (by decide)]), if_pos rfl]
      unfold mat
      rw [mapM_ok (take (mask1 natoms fixed)) (fun row => (mask1 natoms fixed).map fun i => row.getD i 0)]
      · rw [List.map_map]
        congr 1
        refine List.map_congr_left fun r _ => ?_
        exact List.map_congr_left fun i hi => getD_range _ _ 0 i (mem_mask1.1 hi).1
      · intro row hrow
        obtain ⟨r, _, rfl⟩ := List.mem_map.1 hrow
        exact take_eq 0 _ _ fun i hi => by simpa using (mem_mask1.1 hi).1
    have h2 : full natoms nbeads fixed 1 ((List.range nbeads).map fun r => (mask1 natoms fixed).map (D r))
        = .ok (mat nbeads (3 * natoms) fun r c => if c ∈ mask1 natoms fixed then D r c else 0) := by
      unfold full
      rw [if_neg (by rintro (h | h); exacts [h0 h, absurd h (by decide)]), if_pos rfl, if_pos (by simp), List.mapM_map]
      unfold mat
      rw [mapM_ok _ (fun r => (List.range (3 * natoms)).map fun c => if c ∈ mask1 natoms fixed then D r c else 0)]
      intro r _
      exact put_map _ _ _
    rw [h1]
    change Except.map _ (full natoms nbeads fixed 1 _) = _
    rw [h2]
    change Except.ok _ = _
    beta_reduce
    rw [hz]
    congr 1
    unfold mat
    refine List.map_congr_left fun r _ => List.map_congr_left fun c hc => ?_
    have hc' : c < 3 * natoms := by simpa using hc
    beta_reduce
    by_cases h : c / 3 ∈ fixed
    · rw [if_pos h, if_neg fun hm => (mem_mask1.1 hm).2 h, add_zero]
    · rw [if_neg h, if_pos (mem_mask1.2 ⟨hc', h⟩)]

lemma mask_le (natoms : ℕ) (fixed : List ℕ) : (mask1 natoms fixed).length ≤ 3 * natoms := by
  refine le_trans (List.length_filter_le _ _) ?_
  simp

/-- The Hessian used for a step has the entries of the other atoms, and zeros for the fixed atoms when it is stored again. -/
theorem hessian_fixed (natoms nbeads : ℕ) (fixed : List ℕ) (H : ℕ → ℕ → ℝ) :
    (active natoms nbeads fixed 2 (mat (3 * natoms) (3 * natoms * nbeads) H)).bind (full natoms nbeads fixed 2)
      = .ok (mat (3 * natoms) (3 * natoms * nbeads) fun i j => if i / 3 ∈ fixed ∨ j % (3 * natoms) / 3 ∈ fixed then 0 else H i j) := by
  by_cases h0 : fixed.length = 0
  · have hnil : fixed = [] := List.length_eq_zero_iff.1 h0
    subst hnil
    change Except.ok _ = _
    simp
  have hc : ∀ t : Int, t = 2 → ¬ (fixed.length = 0 ∨ t = -1) := by
    rintro t rfl (h | h)
    exacts [h0 h, absurd h (by decide)]
  have h1 : active natoms nbeads fixed 2 (mat (3 * natoms) (3 * natoms * nbeads) H)
      = .ok ((mask1 natoms fixed).map fun i => (mask2 natoms nbeads fixed).map (H i)) := by
    unfold active
    rw [if_neg (hc 2 rfl), if_neg (by decide), if_pos rfl, take_eq [] _ _ (fun i hi => by simpa [mat] using (mem_mask1.1 hi).1)]
    change List.mapM _ _ = _
    rw [List.mapM_map]
    refine mapM_ok _ _ _ fun i hi => ?_
    unfold mat
    rw [Function.comp_apply, getD_range _ _ _ _ (mem_mask1.1 hi).1]
    exact take_range _ _ _ fun j hj => (mem_mask2.1 hj).1
  rw [h1]
  change full natoms nbeads fixed 2 _ = _
  unfold full
  rw [if_neg (hc 2 rfl), if_neg (by decide), if_pos rfl]
  unfold fullRows mat
  refine mapM_ok _ _ _ fun i hi => ?_
  have hi' : i < 3 * natoms := by simpa using hi
  dsimp only
  by_cases h : i / 3 ∈ fixed
  · have h2 : ¬ (mask1 natoms fixed).idxOf i < (mask1 natoms fixed).length := fun h1 => (mem_mask1.1 (List.idxOf_lt_length_iff.1 h1)).2 h
    rw [if_neg h2]
    congr 1
    apply List.ext_getElem
    · simp
    · intro k h3 h4
      simp [h]
  · have hm : i ∈ mask1 natoms fixed := mem_mask1.2 ⟨hi', h⟩
    have h2 : (mask1 natoms fixed).idxOf i < (mask1 natoms fixed).length := List.idxOf_lt_length_iff.2 hm
    rw [if_pos h2, List.getElem?_map, List.getElem?_eq_getElem h2, List.getElem_idxOf]
    change put _ _ _ = _
    rw [put_map]
    congr 1
    refine List.map_congr_left fun j hj => ?_
    have hj' : j < 3 * natoms * nbeads := by simpa using hj
    by_cases h5 : j % (3 * natoms) / 3 ∈ fixed
    · rw [if_neg fun hm => (mem_mask2.1 hm).2 h5, if_pos (Or.inr h5)]
    · rw [if_pos (mem_mask2.2 ⟨hj', h5⟩), if_neg (by rintro (h6 | h6); exacts [h h6, h5 h6])]

/-- With the Hessian computed again in every step a calculation with fixed atoms fails: the new Hessian is already complete. -/
theorem recompute_fails (natoms nbeads : ℕ) (fixed : List ℕ) (H : ℕ → ℕ → ℝ) (a : ℕ) (ha : a ∈ fixed) (ha' : a < natoms) (i : ℕ) (hi : i ∈ mask1 natoms fixed)
    (hn : 0 < nbeads) : full natoms nbeads fixed 2 (mat (3 * natoms) (3 * natoms * nbeads) H) = .error .value := by
  have h0 : ¬ fixed.length = 0 := fun h => by rw [List.length_eq_zero_iff.1 h] at ha; simp at ha
  unfold full
  rw [if_neg (by rintro (h | h); exacts [h0 h, absurd h (by decide)]), if_neg (by decide), if_pos rfl]
  have hlt : (mask2 natoms nbeads fixed).length < 3 * natoms * nbeads := by
    refine lt_of_le_of_ne (le_trans (List.length_filter_le _ _) (by simp)) fun h => ?_
    have hall : mask2 natoms nbeads fixed = List.range (3 * natoms * nbeads) :=
      List.Sublist.eq_of_length List.filter_sublist (by rw [List.length_range]; exact h)
    have hlt : 3 * a < 3 * natoms * nbeads := by
      have : 3 * natoms * 1 ≤ 3 * natoms * nbeads := Nat.mul_le_mul_left _ hn
      omega
    have : 3 * a ∈ mask2 natoms nbeads fixed := by rw [hall]; simpa using hlt
    refine (mem_mask2.1 this).2 ?_
    rw [Nat.mod_eq_of_lt (by omega), Nat.mul_div_cancel_left _ (by omega)]
    exact ha
  have h3 : ¬ 3 * natoms * nbeads = 1 := by
    have : 3 * natoms * nbeads = 3 * (natoms * nbeads) := by ring
    omega
  have hput : ∀ f : ℕ → ℝ, put (3 * natoms * nbeads) (mask2 natoms nbeads fixed) ((List.range (3 * natoms * nbeads)).map f) = .error .value := by
    intro f
    unfold put
    rw [List.length_map, List.length_range, if_neg (by omega), if_neg h3]
  have hrow : ∀ ii, ii < (mask1 natoms fixed).length → (mat (3 * natoms) (3 * natoms * nbeads) H)[ii]? = some ((List.range (3 * natoms * nbeads)).map (H ii)) := by
    intro ii hii
    have := lt_of_lt_of_le hii (mask_le natoms fixed)
    unfold mat
    rw [List.getElem?_map, List.getElem?_range this]
    rfl
  unfold fullRows
  apply mapM_error
  · intro k _
    dsimp only
    by_cases hk : (mask1 natoms fixed).idxOf k < (mask1 natoms fixed).length
    · left
      rw [if_pos hk, hrow _ hk]
      exact hput _
    · right
      rw [if_neg hk]
      exact ⟨_, rfl⟩
  · refine ⟨i, by simpa using (mem_mask1.1 hi).1, ?_⟩
    have hk := List.idxOf_lt_length_iff.2 hi
    dsimp only
    rw [if_pos hk, hrow _ hk]
    exact hput _

example : full 2 1 [0] 2 (mat 6 6 fun _ _ => 0) = .error .value :=
  recompute_fails 2 1 [0] (fun _ _ => 0) 0 (by decide) (by decide) 3 (by decide) (by decide)

/-! ### The lbfgs optimiser -/

/-- Positions, forces and directions are recognised as such, and numbers are left alone. -/
theorem types_of_names : keyType "old_x" = 1 ∧ keyType "old_f" = 1 ∧ keyType "d" = 1 ∧ keyType "hessian" = 2
    ∧ keyType "old_u" = -1 ∧ keyType "big_step" = -1 ∧ keyType "delta" = -1 ∧ keyType "energy_shift" = -1 := by decide

/-- The lists of the lbfgs optimiser are treated as Hessians. -/
theorem lists_as_hessians : keyType "qlist" = 2 ∧ keyType "glist" = 2 ∧ keyType "fric_hessian" = 2 := by decide

/-- If there are not more corrections than degrees of freedom the lists are refused, with an error from numpy. -/
theorem lbfgs_refused (natoms nbeads : ℕ) (fixed : List ℕ) (h : fixed ≠ []) (v : List (List ℝ)) (i : ℕ) (hi : i ∈ mask1 natoms fixed) (hv : v.length ≤ i) :
    active natoms nbeads fixed (keyType "qlist") v = .error .index := by
  have h0 : ¬ fixed.length = 0 := fun h1 => h (List.length_eq_zero_iff.1 h1)
  rw [lists_as_hessians.1]
  unfold active
  rw [if_neg (by rintro (h | h); exacts [h0 h, absurd h (by decide)]), if_neg (by decide), if_pos rfl]
  have : take (mask1 natoms fixed) v = .error .index := by
    unfold take
    rw [if_neg]
    rw [List.all_eq_true]
    intro hall
    have := of_decide_eq_true (hall i hi)
    omega
  rw [this]
  rfl

/-- In no case a step of the lbfgs optimiser with fixed atoms ends. -/
theorem lbfgs_never (natoms nbeads : ℕ) (fixed : List ℕ) (h : fixed ≠ []) (v w : List (List ℝ)) :
    (active natoms nbeads fixed (keyType "qlist") v).bind (full natoms nbeads fixed 3) ≠ .ok w := by
  have h0 : ¬ fixed.length = 0 := fun h1 => h (List.length_eq_zero_iff.1 h1)
  cases hA : active natoms nbeads fixed (keyType "qlist") v with
  | error e => exact fun h => (nomatch h)
  | ok a =>
    change full natoms nbeads fixed 3 a ≠ _
    unfold full
    rw [if_neg (by rintro (h | h); exacts [h0 h, absurd h (by decide)]), if_neg (by decide), if_neg (by decide), if_pos rfl]
    exact fun h => (nomatch h)

example : active 2 1 [0] (keyType "qlist") (mat 5 6 fun _ _ => 0) = .error .index :=
  lbfgs_refused 2 1 [0] (by decide) _ 5 (by decide) (by decide)

/-! ### Friction -/

lemma loopK_out (i j : ℕ) (mask : List ℕ) (s : Loops) : (loopK i j mask s).ii = s.ii ∧ (loopK i j mask s).jj = s.jj ∧
    (loopK i j mask s).kk = s.kk + mask.length ∧
    ∃ l : List ((ℕ × ℕ × ℕ) × (ℕ × ℕ × ℕ)), (loopK i j mask s).out = s.out ++ l ∧ l.map (fun a => a.2.2.2) = List.range' s.kk mask.length ∧
      (∀ k r, mask = k :: r → ∃ t, l = ((i, j, k), (s.ii, s.jj, s.kk)) :: t) := by
  induction mask generalizing s with
  | nil => exact ⟨rfl, rfl, rfl, [], by simp [loopK], rfl, fun _ _ h => (nomatch h)⟩
  | cons k r ih =>
    obtain ⟨h1, h2, h3, l, h4, h5, _⟩ := ih ⟨s.ii, s.jj, s.kk + 1, s.out ++ [((i, j, k), (s.ii, s.jj, s.kk))]⟩
    have e : loopK i j (k :: r) s = loopK i j r ⟨s.ii, s.jj, s.kk + 1, s.out ++ [((i, j, k), (s.ii, s.jj, s.kk))]⟩ := rfl
    rw [e]
    refine ⟨h1, h2, by rw [h3, List.length_cons]; dsimp only; omega, ((i, j, k), (s.ii, s.jj, s.kk)) :: l, by rw [h4]; simp, ?_, ?_⟩
    · rw [List.map_cons, h5, List.length_cons, List.range'_succ]
    · intro k' r' h
      obtain ⟨rfl, _⟩ := List.cons.inj h
      exact ⟨l, rfl⟩

lemma loopJ_out (i : ℕ) (all mask : List ℕ) (s : Loops) : (loopJ i mask all s).ii = s.ii ∧
    (loopJ i mask all s).kk = s.kk + mask.length * all.length ∧
    ∃ l, (loopJ i mask all s).out = s.out ++ l ∧ l.map (fun a => a.2.2.2) = List.range' s.kk (mask.length * all.length) := by
  induction mask generalizing s with
  | nil => exact ⟨rfl, by simp [loopJ], [], by simp [loopJ], by simp⟩
  | cons j r ih =>
    obtain ⟨k1, k2, k3, lk, k4, k5, _⟩ := loopK_out i j all s
    obtain ⟨h1, h3, l, h4, h5⟩ := ih ⟨(loopK i j all s).ii, (loopK i j all s).jj + 1, (loopK i j all s).kk, (loopK i j all s).out⟩
    have e : loopJ i (j :: r) all s = loopJ i r all ⟨(loopK i j all s).ii, (loopK i j all s).jj + 1, (loopK i j all s).kk, (loopK i j all s).out⟩ := rfl
    rw [e]
    dsimp only at h1 h3 h4 h5
    refine ⟨h1.trans k1, ?_, lk ++ l, by rw [h4, k4, List.append_assoc], ?_⟩
    · rw [h3, k3, List.length_cons]; ring
    · rw [List.map_append, k5, h5, k3, List.range'_append_1, List.length_cons]
      congr 1
      ring

lemma loopI_out (all mask : List ℕ) (s : Loops) : (loopI mask all s).kk = s.kk + mask.length * (all.length * all.length) ∧
    ∃ l, (loopI mask all s).out = s.out ++ l ∧ l.map (fun a => a.2.2.2) = List.range' s.kk (mask.length * (all.length * all.length)) := by
  induction mask generalizing s with
  | nil => exact ⟨by simp [loopI], [], by simp [loopI], by simp⟩
  | cons i r ih =>
    obtain ⟨k1, k3, lk, k4, k5⟩ := loopJ_out i all all s
    obtain ⟨h3, l, h4, h5⟩ := ih ⟨(loopJ i all all s).ii + 1, (loopJ i all all s).jj, (loopJ i all all s).kk, (loopJ i all all s).out⟩
    have e : loopI (i :: r) all s = loopI r all ⟨(loopJ i all all s).ii + 1, (loopJ i all all s).jj, (loopJ i all all s).kk, (loopJ i all all s).out⟩ := rfl
    rw [e]
    dsimp only at h3 h4 h5
    refine ⟨by rw [h3, k3, List.length_cons]; ring, lk ++ l, by rw [h4, k4, List.append_assoc], ?_⟩
    rw [List.map_append, k5, h5, k3, List.range'_append_1, List.length_cons]
    congr 1
    ring

/-- The last index of the sources counts all the assignments. -/
lemma sources_count (mask : List ℕ) : (assignments mask).map (fun a => a.2.2.2) = List.range (mask.length * (mask.length * mask.length)) := by
  obtain ⟨_, l, h4, h5⟩ := loopI_out mask mask ⟨0, 0, 0, []⟩
  unfold assignments
  rw [h4, List.nil_append, h5, List.range_eq_range']

/-- With friction that depends on the position and fixed atoms the final Hessian fails if the third power of the number of active degrees of freedom is
larger than the number of all of them. -/
theorem friction_fails (natoms : ℕ) (fixed : List ℕ) (h : fixed ≠ []) (v : ℕ → ℕ → ℕ → ℝ) (hlt : 3 * natoms < (mask1 natoms fixed).length ^ 3) :
    fullFric natoms fixed v = .error .index := by
  have h0 : ¬ fixed.length = 0 := fun h1 => h (List.length_eq_zero_iff.1 h1)
  unfold fullFric
  rw [if_neg h0]
  dsimp only
  rw [if_neg]
  rw [List.all_eq_true]
  intro hall
  have hm : 3 * natoms ∈ (assignments (mask1 natoms fixed)).map (fun a => a.2.2.2) := by
    rw [sources_count, List.mem_range]
    calc 3 * natoms < (mask1 natoms fixed).length ^ 3 := hlt
      _ = _ := by ring
  obtain ⟨a, ha, e⟩ := List.mem_map.1 hm
  have := hall a ha
  simp only [Bool.and_eq_true, decide_eq_true_eq] at this
  omega

example : fullFric 2 [0] (fun _ _ _ => 0) = .error .index := friction_fails 2 [0] (by decide) _ (by decide)

/-- If it does not fail it is wrong: one active atom of ten gets values from fixed atoms. -/
theorem friction_wrong : ∃ (fixed : List ℕ) (v : ℕ → ℕ → ℕ → ℝ) (h : ℕ × ℕ × ℕ → ℝ), fullFric 10 fixed v = .ok h ∧ mask1 10 fixed = [0, 1, 2] ∧
    h (0, 1, 0) = v 0 1 3 ∧ v 0 1 3 ≠ v 0 1 0 := by
  refine ⟨[1, 2, 3, 4, 5, 6, 7, 8, 9], fun _ _ k => k, _, rfl, by decide, ?_, by norm_num⟩
  have : assignments (mask1 10 [1, 2, 3, 4, 5, 6, 7, 8, 9]) = assignments [0, 1, 2] := by
    rw [show mask1 10 [1, 2, 3, 4, 5, 6, 7, 8, 9] = [0, 1, 2] by decide]
  rw [this]
  simp [assignments, loopI, loopJ, loopK, Function.update]

/-! ### The first path -/

/-- The first path is symmetric about the transition state: opposite beads are moved by opposite amounts. -/
theorem stretched_symmetric (n : ℕ) (hn : 2 ≤ n) (delta : ℝ) (q v : ℕ → ℝ) (i c : ℕ) (hi : i < n) :
    stretched n delta q v i c + stretched n delta q v (n - 1 - i) c = 2 * q c := by
  have h1 : ((n - 1 - i : ℕ) : ℝ) = n - 1 - i := by
    rw [Nat.cast_sub (by omega), Nat.cast_sub (by omega)]; simp
  have h2 : ((n : ℝ) - 1) ≠ 0 := by
    have : (2 : ℝ) ≤ n := by exact_mod_cast hn
    intro h
    linarith
  have h3 : (n - 1 - i : ℝ) * Real.pi / ((n : ℝ) - 1) = Real.pi - i * Real.pi / ((n : ℝ) - 1) := by
    field_simp
  unfold stretched
  rw [h1, h3, Real.cos_pi_sub]
  ring

/-- It goes from one side to the other, by the given amplitude, and fixed atoms are not moved. -/
theorem stretched_ends (n : ℕ) (hn : 2 ≤ n) (delta : ℝ) (q v : ℕ → ℝ) (c : ℕ) : stretched n delta q v 0 c = q c + delta * v c ∧
    stretched n delta q v (n - 1) c = q c - delta * v c ∧ (v c = 0 → ∀ i, stretched n delta q v i c = q c) := by
  have h0 : stretched n delta q v 0 c = q c + delta * v c := by
    unfold stretched
    simp
  refine ⟨h0, ?_, fun h i => by unfold stretched; rw [h]; ring⟩
  have := stretched_symmetric n hn delta q v 0 c (by omega)
  rw [h0, Nat.sub_zero] at this
  linarith

/-! ### Sum rules -/

/-- Whatever the optimisation has done, the sum rules use the positions from before the first step. -/
theorem sum_rules_stale {Q : Type} (q : Q) (moves : List Q) : (moves.foldl move (bind q)).fixq = q := by
  have : ∀ (s : Optimiser Q), (moves.foldl move s).fixq = s.fixq := by
    induction moves with
    | nil => intro s; rfl
    | cons a l ih => intro s; rw [List.foldl_cons, ih]; rfl
  exact this _

/-- The direction of a rotation of all atoms about an axis. -/
def rotation {N : ℕ} (w : Fin 3 → ℝ) (q : Fin N → Fin 3 → ℝ) (a : Fin N) : Fin 3 → ℝ :=
  ![w 1 * q a 2 - w 2 * q a 1, w 2 * q a 0 - w 0 * q a 2, w 0 * q a 1 - w 1 * q a 0]

/-- So rotations are not removed if the structure has changed: the rotation of a molecule about an axis can be orthogonal to all translations and to all
rotations of the structure it had at first. -/
theorem rotation_not_removed : ∃ (q q' : Fin 2 → Fin 3 → ℝ) (w : Fin 3 → ℝ), rotation w q' ≠ 0 ∧
    (∀ t : Fin 3 → ℝ, ∑ a, ∑ c, rotation w q' a c * t c = 0) ∧ ∀ w' : Fin 3 → ℝ, ∑ a, ∑ c, rotation w q' a c * rotation w' q a c = 0 := by
  refine ⟨![![-1, 0, 0], ![1, 0, 0]], ![![0, -1, 0], ![0, 1, 0]], ![0, 0, 1], ?_, ?_, ?_⟩
  · intro h
    have := congrFun (congrFun h 0) 0
    simp [rotation] at this
  · intro t
    simp [rotation, Fin.sum_univ_two, Fin.sum_univ_three]
  · intro w'
    simp [rotation, Fin.sum_univ_two, Fin.sum_univ_three]

/-! ### The mass-scaled path -/

/-- The path starts at zero and grows by the distance between neighbouring beads. -/
theorem path_grows (d : ℕ → ℝ) (i : ℕ) : msPath d 0 = 0 ∧ msPath d (i + 1) = msPath d i + d i := by
  constructor
  · rfl
  · have h : ∀ k, msPath d k = ((List.range k).map d).sum := by
      intro k
      unfold msPath
      rw [List.take_of_length_le (by simp)]
    rw [h, h, List.range_succ, List.map_append, List.sum_append]
    simp

end Verif.InstFix
