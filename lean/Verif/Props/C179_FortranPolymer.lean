import Verif.Props.C176_FortranForces
import Verif.FF.FortranPes

/-!
# C179: polymers of the Fortran driver

The potential `ljpolymer`: springs between consecutive monomers and a Lennard-Jones potential between all of them.
-/

namespace Verif.F90

open Matrix

/-! ### Which monomers are bonded -/

/-- **C179.** For chains of two monomers or more, an atom is bonded to the one before exactly if both belong to
the same chain. -/
theorem bonded_iff_partial {npoly : ℕ} (hp : 2 ≤ npoly) (natoms i : ℕ) :
    i ∈ bonds npoly natoms ↔ 1 ≤ i ∧ i < natoms ∧ (i - 1) / npoly = i / npoly := by
  simp only [bonds, List.mem_filter, List.mem_range'_1, decide_eq_true_eq]
  have key : 1 ≤ i → ((i + 1) % npoly ≠ 1 ↔ (i - 1) / npoly = i / npoly) := by
    intro hi
    have hpos : 0 < npoly := by omega
    have hm : ¬ (i + 1) % npoly = 1 ↔ ¬ npoly ∣ i := by
      rw [not_iff_not, Nat.dvd_iff_mod_eq_zero]
      have hlt := Nat.mod_lt i hpos
      rw [Nat.add_mod]
      have h1 : 1 % npoly = 1 := Nat.mod_eq_of_lt (by omega)
      rw [h1]
      constructor
      · intro h
        by_cases hl : i % npoly + 1 < npoly
        · rw [Nat.mod_eq_of_lt hl] at h; omega
        · have : i % npoly + 1 = npoly := by omega
          rw [this, Nat.mod_self] at h; omega
      · intro h
        rw [h]; exact h1
    rw [ne_eq, hm]
    obtain ⟨j, rfl⟩ : ∃ j, i = j + 1 := ⟨i - 1, by omega⟩
    rw [Nat.add_sub_cancel, Nat.succ_div]
    split_ifs with h
    · simp [h]
    · simp [h]
  constructor
  · rintro ⟨⟨h1, h2⟩, h3⟩
    exact ⟨h1, by omega, (key h1).1 h3⟩
  · rintro ⟨h1, h2, h3⟩
    exact ⟨⟨h1, by omega⟩, (key h1).2 h3⟩

/-- The code disagrees with the property: in chains of one monomer, which have no bonds, every atom is bonded to the one before. -/
theorem bonded_single (natoms : ℕ) : bonds 1 natoms = List.range' 1 (natoms - 1) := by
  unfold bonds
  rw [List.filter_eq_self]
  intro i _
  simp [Nat.mod_one]

/-! ### The result is a sum -/

/-- The sum of two results. -/
noncomputable def Res.plus (a b : Res) : Res := ⟨a.pot + b.pot, fun i => a.forces i + b.forces i, a.virial + b.virial⟩

theorem addPair_plus (pair : ℕ → ℕ → ℝ → ℝ × ℝ) (rc : ℝ) (atoms : ℕ → V3) (h ih : M3) (s t : Res) (p : ℕ × ℕ) :
    addPair pair rc atoms h ih (s.plus t) p = s.plus (addPair pair rc atoms h ih t p) := by
  unfold addPair
  dsimp only
  split_ifs with hc
  · unfold Res.plus
    simp only [Res.mk.injEq]
    refine ⟨by ring, ?_, ?_⟩
    · funext a
      split_ifs <;> abel
    · ext k l
      simp only [Matrix.add_apply, Matrix.of_apply]
      split_ifs <;> ring
  · rfl

theorem fold_plus (pair : ℕ → ℕ → ℝ → ℝ × ℝ) (rc : ℝ) (atoms : ℕ → V3) (h ih : M3) (l : List (ℕ × ℕ)) (s t : Res) :
    l.foldl (addPair pair rc atoms h ih) (s.plus t) = s.plus (l.foldl (addPair pair rc atoms h ih) t) := by
  induction l generalizing t with
  | nil => rfl
  | cons p l ihl => rw [List.foldl_cons, List.foldl_cons, addPair_plus, ihl]

/-- What the springs contribute. -/
noncomputable def bondRes (junk : M3) (npoly : ℕ) (stiffness x0 : ℝ) (natoms : ℕ) (atoms : ℕ → V3) (h ih : M3) : Res :=
  (bonds npoly natoms).foldl (addBond junk stiffness x0 atoms h ih) ⟨0, fun _ _ => 0, 0⟩

/-- **C179.** Springs and Lennard-Jones potential add up. -/
theorem polymer_split (junk : M3) (npoly : ℕ) (sigma eps stiffness rc : ℝ) (natoms : ℕ) (atoms : ℕ → V3) (h ih : M3)
    (lists : List ℕ × List ℕ) :
    ljpolymerGetall junk npoly sigma eps stiffness rc natoms atoms h ih lists
      = (bondRes junk npoly stiffness sigma natoms atoms h ih).plus
        (getall (fun _ _ => ljFunctions sigma eps) (ljLongrange sigma eps natoms) (fun h => h 0 0 * h 1 1 * h 2 2) rc natoms atoms h ih
          lists) := by
  unfold ljpolymerGetall getall
  dsimp only
  have e : ∀ s : Res, s = s.plus ⟨0, fun _ _ => 0, 0⟩ := by
    intro s
    unfold Res.plus
    cases s
    simp only [Res.mk.injEq, add_zero, true_and]
    refine ⟨?_, trivial⟩
    funext a k
    simp
  have e1 := fold_plus (fun _ _ => ljFunctions sigma eps) rc atoms h ih (pairs natoms lists)
    (bondRes junk npoly stiffness sigma natoms atoms h ih) ⟨0, fun _ _ => 0, 0⟩
  rw [← e] at e1
  rw [show (bonds npoly natoms).foldl (addBond junk stiffness sigma atoms h ih) ⟨0, fun _ _ => 0, 0⟩
    = bondRes junk npoly stiffness sigma natoms atoms h ih from rfl, e1]
  unfold Res.plus
  simp only [Res.mk.injEq, true_and]
  refine ⟨by ring, ?_⟩
  ext k l
  simp only [Matrix.add_apply, Matrix.of_apply]
  split_ifs <;> ring

/-! ### The springs -/

section
variable (stiffness x0 : ℝ) (atoms : ℕ → V3) (h ih : M3)

/-- The energy of the spring between an atom and the one before. -/
noncomputable def bondE (i : ℕ) : ℝ := 0.5 * stiffness * (√(separation h ih (atoms i) (atoms (i - 1))) - x0) ^ 2

/-- Its force on the atom. -/
noncomputable def bondF (i : ℕ) : V3 := fun k =>
  -1 * stiffness * (√(separation h ih (atoms i) (atoms (i - 1))) - x0) * vectorSeparation h ih (atoms i) (atoms (i - 1)) k
    / √(separation h ih (atoms i) (atoms (i - 1)))

theorem bonds_fold (junk : M3) (l : List ℕ) (s : Res) {natoms : ℕ} (hl : ∀ i ∈ l, 1 ≤ i ∧ i < natoms) (u : ℕ → V3) :
    (l.foldl (addBond junk stiffness x0 atoms h ih) s).pot = s.pot + (l.map (bondE stiffness x0 atoms h ih)).sum
    ∧ ∑ a ∈ Finset.range natoms, (l.foldl (addBond junk stiffness x0 atoms h ih) s).forces a ⬝ᵥ u a
      = ∑ a ∈ Finset.range natoms, s.forces a ⬝ᵥ u a
        + (l.map fun i => bondF stiffness x0 atoms h ih i ⬝ᵥ (u i - u (i - 1))).sum
    ∧ ∀ k m, (l.foldl (addBond junk stiffness x0 atoms h ih) s).virial k m = s.virial k m + if k ≤ m then
        (l.map fun i => bondF stiffness x0 atoms h ih i k * vectorSeparation h ih (atoms i) (atoms (i - 1)) m).sum
          + l.length * junk k m else 0 := by
  induction l generalizing s with
  | nil => simp
  | cons i l ihl =>
    obtain ⟨i1, i2, i3⟩ := ihl (addBond junk stiffness x0 atoms h ih s i) fun j hj => hl j (List.mem_cons_of_mem _ hj)
    obtain ⟨h1, h2⟩ := hl i List.mem_cons_self
    rw [List.foldl_cons, i1, i2, List.map_cons, List.sum_cons, List.map_cons, List.sum_cons]
    refine ⟨?_, ?_, fun k m => ?_⟩
    · rw [← add_assoc]; rfl
    · rw [← add_assoc]
      congr 1
      have e : (addBond junk stiffness x0 atoms h ih s i).forces = fun a =>
          s.forces a + ((if a = i then bondF stiffness x0 atoms h ih i else 0)
            - if a = i - 1 then bondF stiffness x0 atoms h ih i else 0) := by
        funext a
        have hF : ∀ f : V3, (let f1 := if a = i then s.forces a + f else s.forces a
            if a = i - 1 then f1 - f else f1) = s.forces a + ((if a = i then f else 0) - if a = i - 1 then f else 0) := by
          intro f
          dsimp only
          split_ifs <;> abel
        exact hF _
      rw [e]
      simp only [add_dotProduct, sub_dotProduct, Finset.sum_add_distrib, Finset.sum_sub_distrib, dotProduct_sub]
      congr 1
      congr 1
      · rw [Finset.sum_eq_single i]
        · rw [if_pos rfl]
        · intro b _ hb
          rw [if_neg hb, zero_dotProduct]
        · intro hn
          exact absurd (Finset.mem_range.2 h2) hn
      · rw [Finset.sum_eq_single (i - 1)]
        · rw [if_pos rfl]
        · intro b _ hb
          rw [if_neg hb, zero_dotProduct]
        · intro hn
          exact absurd (Finset.mem_range.2 (by omega)) hn
    · rw [i3, List.map_cons, List.sum_cons, List.length_cons]
      have e : (addBond junk stiffness x0 atoms h ih s i).virial k m = s.virial k m + if k ≤ m then
          bondF stiffness x0 atoms h ih i k * vectorSeparation h ih (atoms i) (atoms (i - 1)) m + junk k m else 0 := by
        by_cases hk : k ≤ m
        · rw [if_pos hk, ← add_assoc]
          exact if_pos hk
        · rw [if_neg hk, add_zero]
          exact if_neg hk
      rw [e]
      split_ifs
      · push_cast; ring
      · ring
end

theorem bonds_mem {npoly natoms i : ℕ} (h : i ∈ bonds npoly natoms) : 1 ≤ i ∧ i < natoms := by
  have := (List.mem_filter.1 h).1
  rw [List.mem_range'_1] at this
  omega

/-- The derivative of the energy of a spring. -/
theorem bond_derivative (stiffness x0 : ℝ) {R : ℝ} {h ih : M3} (hi : h * ih = 1) (hR : 0 ≤ R) (hw : HalfWidth ih R) (atoms u : ℕ → V3)
    (i : ℕ) (h0 : separation h ih (atoms i) (atoms (i - 1)) ≠ 0) (hc : separation h ih (atoms i) (atoms (i - 1)) < R ^ 2) :
    HasDerivAt (fun t : ℝ => bondE stiffness x0 (fun a => atoms a + t • u a) h ih i)
      (-(bondF stiffness x0 atoms h ih i ⬝ᵥ (u i - u (i - 1)))) 0 := by
  obtain ⟨n, hn⟩ := sep_lattice hi (atoms i) (atoms (i - 1))
  set x := vectorSeparation h ih (atoms i) (atoms (i - 1)) with hx
  set w := u i - u (i - 1) with hwd
  have hs : separation h ih (atoms i) (atoms (i - 1)) = x ⬝ᵥ x := rfl
  have hcont : Continuous fun t : ℝ => (x + t • w) ⬝ᵥ (x + t • w) := by
    simp only [dotProduct, Pi.add_apply, Pi.smul_apply, smul_eq_mul]
    fun_prop
  have hev : ∀ᶠ t in nhds (0 : ℝ), (x + t • w) ⬝ᵥ (x + t • w) < R ^ 2 := by
    refine (hcont.tendsto 0).eventually_lt_const ?_
    rw [zero_smul, add_zero]
    exact hc
  have heq : (fun t : ℝ => bondE stiffness x0 (fun a => atoms a + t • u a) h ih i)
      =ᶠ[nhds 0] fun t => (harFunctions stiffness x0 (√((x + t • w) ⬝ᵥ (x + t • w)))).1 := by
    filter_upwards [hev] with t ht
    have hv1 : vectorSeparation h ih (atoms i + t • u i) (atoms (i - 1) + t • u (i - 1)) = x + t • w := by
      refine sep_unique hi hw hR (n := n) ?_ ht
      have : (atoms i + t • u i) - (atoms (i - 1) + t • u (i - 1)) = (atoms i - atoms (i - 1)) + t • w := by
        rw [hwd, smul_sub]
        abel
      rw [this, hn]
      abel
    unfold bondE separation harFunctions
    dsimp only
    rw [hv1]
  refine HasDerivAt.congr_of_eventuallyEq ?_ heq
  have hx0 : 0 < x ⬝ᵥ x := lt_of_le_of_ne (dot_nonneg x) (Ne.symm h0)
  have hv : ∀ r, 0 < r → HasDerivAt (fun r => (harFunctions stiffness x0 r).1) (-(harFunctions stiffness x0 r).2) r := by
    intro r _
    refine ((((hasDerivAt_id r).sub_const x0).fun_pow 2).const_mul (0.5 * stiffness)).congr_deriv ?_
    simp only [harFunctions, id, Nat.cast_ofNat, Nat.reduceSub]
    ring
  exact hasDerivAt_pair (harFunctions stiffness x0) hv x w hx0

/-- The energy of a polymer: springs between consecutive monomers of a chain and the Lennard-Jones potential of all pairs. -/
noncomputable def polymerE (npoly : ℕ) (sigma eps stiffness rc : ℝ) (natoms : ℕ) (atoms : ℕ → V3) (h ih : M3) : ℝ :=
  ((bonds npoly natoms).map (bondE stiffness sigma atoms h ih)).sum
    + (sumAll (fun _ _ => ljFunctions sigma eps) (ljLongrange sigma eps natoms) (fun h => h 0 0 * h 1 1 * h 2 2) rc natoms atoms h ih).pot

/-- **C179.** In a fixed cell, whatever has been computed before, the driver returns the energy of the polymer and forces that
are minus its gradient: along every direction `u`. -/
theorem polymer_driver (junk : M3) (npoly : ℕ) (sigma eps stiffness : ℝ) {rc R : ℝ} (hrc : 0 < rc) {natoms : ℕ} {h ih : M3}
    (hi : h * ih = 1) (hw : HalfWidth ih (1.2 * rc)) (hR : 0 ≤ R) (hwR : HalfWidth ih R) (hist : List (ℕ → V3)) (atoms u : ℕ → V3)
    (hap : ∀ i j, i < j → j < natoms → separation h ih (atoms i) (atoms j) ≠ 0)
    (hcut : ∀ i j, i < j → j < natoms → separation h ih (atoms i) (atoms j) ≠ rc * rc)
    (hb : ∀ i ∈ bonds npoly natoms, separation h ih (atoms i) (atoms (i - 1)) ≠ 0
      ∧ separation h ih (atoms i) (atoms (i - 1)) < R ^ 2) :
    ∃ nb, runNb (1.2 * rc) rc natoms ((hist ++ [atoms]).map fun x => ⟨h, ih, x⟩) = some nb
      ∧ (ljpolymerGetall junk npoly sigma eps stiffness (scaledRc nb h) natoms atoms h ih nb.lists).pot
        = polymerE npoly sigma eps stiffness rc natoms atoms h ih
      ∧ HasDerivAt (fun t : ℝ => polymerE npoly sigma eps stiffness rc natoms (fun a => atoms a + t • u a) h ih)
        (-∑ a ∈ Finset.range natoms,
          (ljpolymerGetall junk npoly sigma eps stiffness (scaledRc nb h) natoms atoms h ih nb.lists).forces a ⬝ᵥ u a) 0 := by
  obtain ⟨nb, h1, h2⟩ := history_fixed hrc.le (natoms := natoms) hi hw hist atoms (fun _ _ => ljFunctions sigma eps)
    (ljLongrange sigma eps natoms) (fun h => h 0 0 * h 1 1 * h 2 2)
  obtain ⟨b1, b2, -⟩ := bonds_fold stiffness sigma atoms h ih junk (bonds npoly natoms) ⟨0, fun _ _ => 0, 0⟩
    (fun i hi => bonds_mem hi) u
  refine ⟨nb, h1, ?_, ?_⟩
  · rw [polymer_split, h2]
    show (bondRes junk npoly stiffness sigma natoms atoms h ih).pot + _ = _
    rw [show (bondRes junk npoly stiffness sigma natoms atoms h ih).pot = _ from b1, zero_add]
    rfl
  · have hlj : ∀ i j r, 0 < r → HasDerivAt (fun r => ((fun _ _ => ljFunctions sigma eps : ℕ → ℕ → ℝ → ℝ × ℝ) i j r).1)
        (-((fun _ _ => ljFunctions sigma eps : ℕ → ℕ → ℝ → ℝ × ℝ) i j r).2) r := fun _ _ r hr => lj_derivative sigma eps hr
    have hg := forces_gradient hlj (ljLongrange sigma eps natoms) (fun h => h 0 0 * h 1 1 * h 2 2) (R := 1.2 * rc) hrc.le (by linarith) hi hw
      natoms atoms u hap hcut
    have hbd := hasDerivAt_list_sum (bonds npoly natoms)
      (fun i t => bondE stiffness sigma (fun a => atoms a + t • u a) h ih i) _ 0
      fun i him => bond_derivative stiffness sigma hi hR hwR atoms u i (hb i him).1 (hb i him).2
    refine (hbd.add hg).congr_deriv ?_
    rw [list_sum_neg, polymer_split, h2]
    have : ∀ a, ((bondRes junk npoly stiffness sigma natoms atoms h ih).plus
        (sumAll (fun _ _ => ljFunctions sigma eps) (ljLongrange sigma eps natoms) (fun h => h 0 0 * h 1 1 * h 2 2) rc natoms atoms h ih)).forces a
        = (bondRes junk npoly stiffness sigma natoms atoms h ih).forces a
          + (sumAll (fun _ _ => ljFunctions sigma eps) (ljLongrange sigma eps natoms) (fun h => h 0 0 * h 1 1 * h 2 2) rc natoms atoms h ih).forces a :=
      fun a => rfl
    refine Eq.trans ?_ (congrArg Neg.neg (Finset.sum_congr rfl fun a _ => by rw [← add_dotProduct]; rfl :
      ∑ a ∈ Finset.range natoms, ((bondRes junk npoly stiffness sigma natoms atoms h ih).forces a ⬝ᵥ u a
          + (sumAll (fun _ _ => ljFunctions sigma eps) (ljLongrange sigma eps natoms) (fun h => h 0 0 * h 1 1 * h 2 2) rc natoms atoms h ih).forces a
            ⬝ᵥ u a) = _))
    rw [Finset.sum_add_distrib, show ∑ a ∈ Finset.range natoms, (bondRes junk npoly stiffness sigma natoms atoms h ih).forces a ⬝ᵥ u a = _
      from b2]
    simp [dotProduct]
    ring

/-- **C179.** The virial of the springs, up to what is left in variables that are never set. -/
theorem polymer_virial (junk : M3) (npoly : ℕ) (sigma eps stiffness rc : ℝ) (natoms : ℕ) (atoms : ℕ → V3) (h ih : M3)
    (lists : List ℕ × List ℕ) (k l : Fin 3) :
    (ljpolymerGetall junk npoly sigma eps stiffness rc natoms atoms h ih lists).virial k l
      = (getall (fun _ _ => ljFunctions sigma eps) (ljLongrange sigma eps natoms) (fun h => h 0 0 * h 1 1 * h 2 2) rc natoms atoms h ih
          lists).virial k l
        + if k ≤ l then ((bonds npoly natoms).map fun i =>
            bondF stiffness sigma atoms h ih i k * vectorSeparation h ih (atoms i) (atoms (i - 1)) l).sum
          + (bonds npoly natoms).length * junk k l else 0 := by
  have b3 := (bonds_fold stiffness sigma atoms h ih junk (bonds npoly natoms) ⟨0, fun _ _ => 0, 0⟩
    (fun i hi => bonds_mem hi) atoms).2.2 k l
  rw [polymer_split]
  show (bondRes junk npoly stiffness sigma natoms atoms h ih).virial k l + _ = _
  rw [show (bondRes junk npoly stiffness sigma natoms atoms h ih).virial k l = _ from b3]
  simp
  ring

/-- The code disagrees with the property: the virial depends on what is in these variables as soon as there is one bond. -/
theorem polymer_virial_junk {npoly natoms : ℕ} (hb : bonds npoly natoms ≠ []) (sigma eps stiffness rc : ℝ) (atoms : ℕ → V3) (h ih : M3)
    (lists : List ℕ × List ℕ) {junk junk' : M3} {k l : Fin 3} (hkl : k ≤ l) (hj : junk k l ≠ junk' k l) :
    (ljpolymerGetall junk npoly sigma eps stiffness rc natoms atoms h ih lists).virial k l
      ≠ (ljpolymerGetall junk' npoly sigma eps stiffness rc natoms atoms h ih lists).virial k l := by
  rw [polymer_virial, polymer_virial, if_pos hkl, if_pos hkl]
  intro e
  have hn : ((bonds npoly natoms).length : ℝ) ≠ 0 := by
    exact_mod_cast fun h => hb (List.length_eq_zero_iff.1 h)
  exact hj (mul_left_cancel₀ hn (by linarith))

/-- Two chains of two monomers: one bond in each. -/
example : bonds 2 4 = [1, 3] := by decide

end Verif.F90
