import Verif.FF.FortranCommittee
import Verif.Props.C179_FortranPolymer

/-!
# C180: the committee of the Fortran driver
-/

namespace Verif.F90

open Matrix

/-- A multiple of a result. -/
noncomputable def Res.times (c : ℝ) (a : Res) : Res := ⟨c * a.pot, fun i => c • a.forces i, c • a.virial⟩

/-- The mean of two results. -/
noncomputable def Res.mean (a b : Res) : Res :=
  ⟨(a.pot + b.pot) / 2, fun i k => (a.forces i k + b.forces i k) / 2, Matrix.of fun k l => (a.virial k l + b.virial k l) / 2⟩

theorem plus_assoc (a b c : Res) : (a.plus b).plus c = a.plus (b.plus c) := by
  unfold Res.plus
  simp only [Res.mk.injEq]
  exact ⟨add_assoc _ _ _, funext fun i => add_assoc _ _ _, add_assoc _ _ _⟩

theorem plus_zero (a : Res) : a.plus ⟨0, fun _ _ => 0, 0⟩ = a := by
  unfold Res.plus
  cases a
  simp only [Res.mk.injEq, add_zero, true_and]
  refine ⟨?_, trivial⟩
  funext i k
  simp

/-- A call adds the Lennard-Jones potential to what has been computed before. -/
theorem addLj_plus (sigma eps rc : ℝ) (natoms : ℕ) (atoms : ℕ → V3) (h ih : M3) (lists : List ℕ × List ℕ) (s : Res) :
    addLj sigma eps rc natoms atoms h ih lists s = s.plus (ljGetall sigma eps rc natoms atoms h ih lists) := by
  unfold addLj ljGetall getall
  dsimp only
  have e1 := fold_plus (fun _ _ => ljFunctions sigma eps) rc atoms h ih (pairs natoms lists) s ⟨0, fun _ _ => 0, 0⟩
  rw [plus_zero] at e1
  rw [e1]
  unfold Res.plus
  simp only [Res.mk.injEq, true_and]
  refine ⟨by ring, ?_⟩
  ext k l
  simp only [Matrix.add_apply, Matrix.of_apply]
  split_ifs <;> ring

theorem ljFunctions_times (sigma eps c r : ℝ) :
    ljFunctions sigma (c * eps) r = (c * (ljFunctions sigma eps r).1, c * (ljFunctions sigma eps r).2) := by
  unfold ljFunctions
  simp only [Prod.mk.injEq]
  constructor <;> ring

theorem addPair_times (sigma eps c rc : ℝ) (atoms : ℕ → V3) (h ih : M3) (s : Res) (p : ℕ × ℕ) :
    addPair (fun _ _ => ljFunctions sigma (c * eps)) rc atoms h ih (s.times c) p
      = (addPair (fun _ _ => ljFunctions sigma eps) rc atoms h ih s p).times c := by
  unfold addPair
  dsimp only
  split_ifs with hc
  · unfold Res.times
    simp only [Res.mk.injEq, ljFunctions_times]
    refine ⟨by ring, ?_, ?_⟩
    · funext a k
      split_ifs <;> simp only [Pi.sub_apply, Pi.add_apply, Pi.smul_apply, smul_eq_mul] <;> ring
    · ext k l
      simp only [Matrix.of_apply, Matrix.smul_apply, smul_eq_mul]
      split_ifs <;> ring
  · rfl

/-- The Lennard-Jones potential is proportional to its parameter. -/
theorem ljGetall_times (sigma eps c rc : ℝ) (natoms : ℕ) (atoms : ℕ → V3) (h ih : M3) (lists : List ℕ × List ℕ) :
    ljGetall sigma (c * eps) rc natoms atoms h ih lists = (ljGetall sigma eps rc natoms atoms h ih lists).times c := by
  have hf : ∀ (l : List (ℕ × ℕ)) (s : Res), l.foldl (addPair (fun _ _ => ljFunctions sigma (c * eps)) rc atoms h ih) (s.times c)
      = (l.foldl (addPair (fun _ _ => ljFunctions sigma eps) rc atoms h ih) s).times c := by
    intro l
    induction l with
    | nil => intro s; rfl
    | cons p l ihl => intro s; rw [List.foldl_cons, List.foldl_cons, addPair_times, ihl]
  have hz : (⟨0, fun _ _ => 0, 0⟩ : Res) = Res.times c ⟨0, fun _ _ => 0, 0⟩ := by
    unfold Res.times
    simp only [Res.mk.injEq, mul_zero, smul_zero, true_and]
    refine ⟨?_, trivial⟩
    funext i k
    simp
  have ht : ljLongrange sigma (c * eps) natoms rc (cellVolume h)
      = (c * (ljLongrange sigma eps natoms rc (cellVolume h)).1, c * (ljLongrange sigma eps natoms rc (cellVolume h)).2) := by
    unfold ljLongrange
    simp only [Prod.mk.injEq]
    constructor <;> ring
  unfold ljGetall getall
  dsimp only
  rw [ht]
  have e := hf (pairs natoms lists) ⟨0, fun _ _ => 0, 0⟩
  rw [← hz] at e
  rw [e]
  unfold Res.times
  simp only [Res.mk.injEq, true_and]
  refine ⟨by ring, ?_⟩
  ext k l
  simp only [Matrix.of_apply, Matrix.smul_apply, smul_eq_mul]
  split_ifs <;> ring

section
variable (rc : ℝ) (natoms : ℕ) (atoms : ℕ → V3) (h ih : M3) (lists : List ℕ × List ℕ) (base : Res)

/-- **C180.** The members in the extra string are what the drivers of the single members return, and what is returned is
their mean. -/
theorem committee_json :
    (committeeJson rc natoms atoms h ih lists base).1.1 = committee1 rc natoms atoms h ih lists base
    ∧ (committeeJson rc natoms atoms h ih lists base).1.2 = committee2 rc natoms atoms h ih lists base
    ∧ (committeeJson rc natoms atoms h ih lists base).2
      = (committee1 rc natoms atoms h ih lists base).mean (committee2 rc natoms atoms h ih lists base) := by
  have eA : ljGetall 2.5 (-2e-6) rc natoms atoms h ih lists = (ljGetall 2.5 2e-6 rc natoms atoms h ih lists).times (-1) := by
    rw [← ljGetall_times]; norm_num
  have eA' : ljGetall 2.5 1e-6 rc natoms atoms h ih lists = (ljGetall 2.5 2e-6 rc natoms atoms h ih lists).times (1 / 2) := by
    rw [← ljGetall_times]; norm_num
  have eB : ljGetall 2.1 (-12e-6) rc natoms atoms h ih lists = (ljGetall 2.1 24e-6 rc natoms atoms h ih lists).times (-1 / 2) := by
    rw [← ljGetall_times]; norm_num
  refine ⟨rfl, ?_, ?_⟩
  · unfold committeeJson committee2
    simp only [addLj_plus, eA]
    generalize ljGetall 2.5 2e-6 rc natoms atoms h ih lists = A
    generalize ljGetall 2.1 24e-6 rc natoms atoms h ih lists = B
    unfold Res.plus Res.times
    simp only [Res.mk.injEq]
    refine ⟨by ring, ?_, ?_⟩
    · funext i k; simp
    · ext k l; simp
  · unfold committeeJson committee1 committee2
    simp only [addLj_plus, eA, eA', eB]
    generalize ljGetall 2.5 2e-6 rc natoms atoms h ih lists = A
    generalize ljGetall 2.1 24e-6 rc natoms atoms h ih lists = B
    unfold Res.plus Res.times Res.mean
    simp only [Res.mk.injEq]
    refine ⟨by ring, ?_, ?_⟩
    · funext i k
      simp only [Pi.add_apply, Pi.smul_apply, smul_eq_mul]
      ring
    · ext k l
      simp only [Matrix.add_apply, Matrix.smul_apply, smul_eq_mul, Matrix.of_apply]
      ring

end

/-! ### The virial on its way to i-PI -/

/-- **C180.** The virial in a message arrives as it was computed. -/
theorem message_virial (m : M3) : readVirial (messageVirial m) = m := by
  ext i j
  fin_cases i <;> fin_cases j <;> rfl

/-- The virial of a member in the extra string arrives with rows and columns exchanged. -/
theorem extra_virial (m : M3) : readVirial (extraVirial m) = m.transpose := by
  ext i j
  fin_cases i <;> fin_cases j <;> rfl

/-- **C180.** It is used as it was computed if it is symmetric. -/
theorem extra_virial_partial {m : M3} (hm : m.transpose = m) :
    upperVirial (readVirial (extraVirial m)) = upperVirial (readVirial (messageVirial m)) := by
  rw [extra_virial, message_virial, hm]

/-- The code disagrees with the property: the Lennard-Jones potential fills the upper triangle only, and i-PI uses the upper
triangle of what it receives, so that of this part nothing but the diagonal is used. -/
theorem extra_virial_lost (sigma eps rc : ℝ) (natoms : ℕ) (atoms : ℕ → V3) (h ih : M3) (lists : List ℕ × List ℕ) (base : Res)
    (k l : Fin 3) (hkl : k < l) :
    upperVirial (readVirial (extraVirial (addLj sigma eps rc natoms atoms h ih lists base).virial)) k l = base.virial l k
    ∧ upperVirial (readVirial (messageVirial (addLj sigma eps rc natoms atoms h ih lists base).virial)) k l
      = base.virial k l + ((pairs natoms lists).map fun p => pairF (fun _ _ => ljFunctions sigma eps) rc atoms h ih p k
          * vectorSeparation h ih (atoms p.1) (atoms p.2) l).sum := by
  rw [extra_virial, message_virial]
  constructor
  · show (if k ≤ l then ((addLj sigma eps rc natoms atoms h ih lists base).virial).transpose k l else 0) = _
    rw [if_pos hkl.le, Matrix.transpose_apply]
    unfold addLj
    dsimp only
    rw [Matrix.of_apply, if_neg hkl.ne', fold_virial, if_neg (not_le.2 hkl), add_zero]
  · show (if k ≤ l then (addLj sigma eps rc natoms atoms h ih lists base).virial k l else 0) = _
    rw [if_pos hkl.le]
    unfold addLj
    dsimp only
    rw [Matrix.of_apply, if_neg hkl.ne, fold_virial, if_pos hkl.le]

/-- A virial whose shear is lost. -/
example : upperVirial (readVirial (extraVirial !![1, 2, 3; 0, 4, 5; 0, 0, 6])) 0 1 = 0
    ∧ upperVirial (readVirial (messageVirial !![1, 2, 3; 0, 4, 5; 0, 0, 6])) 0 1 = 2 := by
  constructor
  · rw [extra_virial]; simp [upperVirial]
  · rw [message_virial]; simp [upperVirial]

end Verif.F90
