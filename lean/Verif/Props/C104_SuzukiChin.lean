import Mathlib.Analysis.Calculus.Deriv.Pi
import Mathlib.Analysis.Calculus.Deriv.Pow
import Mathlib.Analysis.Calculus.Deriv.Prod
import Mathlib.Analysis.Calculus.FDeriv.Symmetric
import Mathlib.Analysis.Calculus.ContDiff.Basic
import Verif.Phys.SuzukiChin

/-!
# C104: Suzuki-Chin forces are the gradient of the Suzuki-Chin potential

Without ring polymer contraction the sum of the potentials and of `potsc` is the Suzuki-Chin
potential, and the forces are minus its gradient: exactly for harmonic potentials, and for other
potentials in the limit of small finite differences.
-/

namespace Verif.SC

open Finset Verif.Nm Verif.Contract Filter
open scoped Topology

variable {P m : ℕ}

/-! ### Specification -/

/-- Specification: the Suzuki-Chin potential of a path for the potential `V`: weights two thirds
and four thirds on even and odd replicas, and the square of the gradient divided by the masses. -/
noncomputable def scPot (alpha omegan2 : ℝ) (m3 : Fin m → ℝ) (V : (Fin m → ℝ) → ℝ) (q : Arr P m) : ℝ :=
  ∑ b : Fin P, ((if (b : ℕ) % 2 = 0 then 2 / 3 else 4 / 3) * V (q b)
    + (if (b : ℕ) % 2 = 0 then alpha else 1 - alpha) / (9 * omegan2)
      * ∑ i, fderiv ℝ V (q b) (Pi.single i 1) ^ 2 / m3 i)

/-- Specification: the potential of the components with their weights. -/
noncomputable def totV (cs : List (Comp m)) (x : Fin m → ℝ) : ℝ :=
  (cs.map fun c => c.weight * c.mts.sum * c.pot x).sum

/-- The forcefield of a component returns a smooth potential and minus its gradient. -/
def Comp.Smooth (c : Comp m) : Prop :=
  ContDiff ℝ 2 c.pot ∧ ∀ x i, c.force x i = -fderiv ℝ c.pot x (Pi.single i 1)

/-- All the differences are forward differences or all are centred differences. -/
def OneSign (cs : List (Comp m)) : Prop := (∀ c ∈ cs, 0 < c.eps) ∨ ∀ c ∈ cs, c.eps < 0

/-- The number of replicas of the auxiliary system fits the kind of differences. -/
def AuxOk (P : ℕ) (alpha : ℝ) (cs : List (Comp m)) (aux : Option ℕ) : Prop :=
  ∀ k, aux = some k → ∀ c ∈ cs, k = if 0 < c.eps ∧ alpha = 0 then P / 2 else P

/-! ### Without contraction -/

theorem beads_half {c : Comp m} (h : c.beads P = P) : c.beads (P / 2) = P / 2 := by
  unfold Comp.beads at *
  split_ifs at * with h1 h2 <;> omega

theorem expForce_full {c : Comp m} (op : List ℕ) (h : c.beads P = P) (q : Arr P m) (b : Fin P) :
    c.expForce op q b = c.force (q b) := by
  funext i
  unfold Comp.expForce b2tob1 b1tob2
  simp [h]

theorem expPot_full {c : Comp m} (op : List ℕ) (h : c.beads P = P) (q : Arr P m) (b : Fin P) :
    c.expPot op q b = c.pot (q b) := by
  unfold Comp.expPot b2tob1One b1tob2
  simp [h]

theorem pots_full {cs : List (Comp m)} (op : List ℕ) (h : ∀ c ∈ cs, c.beads P = P) (q : Arr P m)
    (b : Fin P) : pots op cs q b = totV cs (q b) := by
  unfold pots totV
  congr 1
  refine List.map_congr_left fun c hc => ?_
  rw [expPot_full op (h c hc)]
  split_ifs with hw
  · rfl
  · simp [not_not.1 hw]

/-! ### Derivatives of the potential -/

/-- The gradient of the total potential. -/
noncomputable def totD (cs : List (Comp m)) (x : Fin m → ℝ) : (Fin m → ℝ) →L[ℝ] ℝ :=
  (cs.map fun c => (c.weight * c.mts.sum) • fderiv ℝ c.pot x).sum

/-- The second derivatives of the total potential. -/
noncomputable def totH (cs : List (Comp m)) (x : Fin m → ℝ) :
    (Fin m → ℝ) →L[ℝ] (Fin m → ℝ) →L[ℝ] ℝ :=
  (cs.map fun c => (c.weight * c.mts.sum) • fderiv ℝ (fderiv ℝ c.pot) x).sum

theorem Comp.Smooth.d1 {c : Comp m} (h : c.Smooth) (x : Fin m → ℝ) :
    HasFDerivAt c.pot (fderiv ℝ c.pot x) x :=
  (h.1.differentiable (by norm_num) x).hasFDerivAt

theorem Comp.Smooth.d2 {c : Comp m} (h : c.Smooth) (x : Fin m → ℝ) :
    HasFDerivAt (fderiv ℝ c.pot) (fderiv ℝ (fderiv ℝ c.pot) x) x := by
  have h1 : ContDiff ℝ 1 (fderiv ℝ c.pot) := h.1.fderiv_right (by norm_num)
  exact (h1.differentiable (by norm_num) x).hasFDerivAt

theorem hasFDerivAt_totV {cs : List (Comp m)} (h : ∀ c ∈ cs, c.Smooth) (x : Fin m → ℝ) :
    HasFDerivAt (totV cs) (totD cs x) x := by
  induction cs with
  | nil => exact hasFDerivAt_const (0 : ℝ) x
  | cons c cs ih =>
    have h1 := ((h c (by simp)).d1 x).const_mul (c.weight * c.mts.sum)
    have h2 := ih fun c hc => h c (by simp [hc])
    have := h1.add h2
    refine (this.congr_fderiv ?_).congr_of_eventuallyEq (Eventually.of_forall fun y => ?_)
    · simp [totD]
    · simp [totV]

theorem hasFDerivAt_totD {cs : List (Comp m)} (h : ∀ c ∈ cs, c.Smooth) (x : Fin m → ℝ) :
    HasFDerivAt (totD cs) (totH cs x) x := by
  induction cs with
  | nil => exact hasFDerivAt_const (0 : (Fin m → ℝ) →L[ℝ] ℝ) x
  | cons c cs ih =>
    have h1 := ((h c (by simp)).d2 x).const_smul (c.weight * c.mts.sum)
    have h2 := ih fun c hc => h c (by simp [hc])
    have := h1.add h2
    refine (this.congr_fderiv ?_).congr_of_eventuallyEq (Eventually.of_forall fun y => ?_)
    · simp [totH]
    · simp [totD]

theorem totH_symm {cs : List (Comp m)} (h : ∀ c ∈ cs, c.Smooth) (x v w : Fin m → ℝ) :
    totH cs x v w = totH cs x w v :=
  second_derivative_symmetric (fun y => hasFDerivAt_totV h y) (hasFDerivAt_totD h x) v w

theorem fderiv_totV {cs : List (Comp m)} (h : ∀ c ∈ cs, c.Smooth) : fderiv ℝ (totV cs) = totD cs :=
  funext fun x => (hasFDerivAt_totV h x).fderiv

theorem f_full {cs : List (Comp m)} (op : List ℕ) (h : ∀ c ∈ cs, c.beads P = P)
    (hs : ∀ c ∈ cs, c.Smooth) (q : Arr P m) (b : Fin P) (i : Fin m) :
    f op cs q b i = -totD cs (q b) (Pi.single i 1) := by
  have e : f op cs q b i
      = (cs.map fun c => -((c.weight * c.mts.sum) * fderiv ℝ c.pot (q b) (Pi.single i 1))).sum := by
    unfold f
    congr 1
    refine List.map_congr_left fun c hc => ?_
    rw [expForce_full op (h c hc), (hs c hc).2]
    split_ifs with hw
    · ring
    · simp [not_not.1 hw]
  rw [e, totD]
  clear e h hs
  induction cs with
  | nil => simp
  | cons c cs ih =>
    simp only [List.map_cons, List.sum_cons, add_apply, smul_apply,
      smul_eq_mul]
    rw [ih]
    ring

/-! ### The potential -/

/-- The printed potential and `potsc` add up to the Suzuki-Chin potential. -/
theorem sc_potential {cs : List (Comp m)} (op : List ℕ) (alpha omegan2 : ℝ) (m3 : Fin m → ℝ)
    (hP : P % 2 = 0) (h : ∀ c ∈ cs, c.beads P = P) (hs : ∀ c ∈ cs, c.Smooth) (q : Arr P m) :
    ∃ p, potsc op alpha omegan2 m3 cs q = .ok p ∧
      ∑ b, pots op cs q b + p = scPot alpha omegan2 m3 (totV cs) q := by
  unfold potsc potssc
  rw [if_neg (by omega)]
  refine ⟨_, rfl, ?_⟩
  rw [← Finset.sum_add_distrib]
  unfold scPot
  refine Finset.sum_congr rfl fun b _ => ?_
  rw [pots_full op h, fderiv_totV hs]
  have e : ∑ i, f op cs q b i / m3 i * f op cs q b i
      = ∑ i, totD cs (q b) (Pi.single i 1) ^ 2 / m3 i :=
    Finset.sum_congr rfl fun i _ => by rw [f_full op h hs]; ring
  rw [e]
  unfold coeff1 coeff2
  generalize ∑ i, totD cs (q b) (Pi.single i 1) ^ 2 / m3 i = S
  by_cases ho : omegan2 = 0
  · subst ho; split_ifs <;> simp <;> ring
  · split_ifs <;> field_simp <;> ring

/-! ### The gradient -/

/-- The fourth order force on a replica at `x`: minus the gradient of the sum of the squares of the
gradient divided by the masses. -/
noncomputable def fourth (cs : List (Comp m)) (m3 : Fin m → ℝ) (x : Fin m → ℝ) (i : Fin m) : ℝ :=
  2 * totH cs x (fun j => -totD cs x (Pi.single j 1) / m3 j) (Pi.single i 1)

theorem pi_expand (u : Fin m → ℝ) : u = ∑ j, u j • (Pi.single j (1 : ℝ) : Fin m → ℝ) := by
  funext i
  simp [Finset.sum_apply, Pi.single_apply]

theorem fourth_eq {cs : List (Comp m)} (h : ∀ c ∈ cs, c.Smooth) (m3 : Fin m → ℝ) (x : Fin m → ℝ)
    (i : Fin m) : fourth cs m3 x i
      = -∑ j, 2 * totD cs x (Pi.single j 1) * totH cs x (Pi.single i 1) (Pi.single j 1) / m3 j := by
  unfold fourth
  rw [totH_symm h]
  conv_lhs => rw [pi_expand (fun j => -totD cs x (Pi.single j 1) / m3 j)]
  rw [map_sum, Finset.mul_sum, ← Finset.sum_neg_distrib]
  refine Finset.sum_congr rfl fun j _ => ?_
  rw [map_smul, smul_eq_mul]
  ring

/-- Minus the gradient of the Suzuki-Chin potential. -/
theorem scPot_grad {cs : List (Comp m)} (h : ∀ c ∈ cs, c.Smooth) (alpha omegan2 : ℝ) (m3 : Fin m → ℝ)
    (q : Arr P m) (b : Fin P) (i : Fin m) :
    HasDerivAt (fun t => scPot alpha omegan2 m3 (totV cs) (Function.update q b (Function.update (q b) i t)))
      (-((1 + coeff1 b) * -totD cs (q b) (Pi.single i 1)
        + coeff2 alpha omegan2 b * fourth cs m3 (q b) i)) (q b i) := by
  unfold scPot
  simp only [fderiv_totV h]
  have hu : HasDerivAt (fun t => Function.update (q b) i t) (Pi.single i 1) (q b i) :=
    hasDerivAt_update (q b) i (q b i)
  have hx : Function.update (q b) i (q b i) = q b := Function.update_eq_self i (q b)
  have hV : HasDerivAt (fun t => totV cs (Function.update (q b) i t)) (totD cs (q b) (Pi.single i 1))
      (q b i) := by
    have h0 := hasFDerivAt_totV h (Function.update (q b) i (q b i))
    rw [hx] at h0
    have := HasFDerivAt.comp_hasDerivAt_of_eq (q b i) h0 hu hx.symm
    exact this
  have hD : ∀ j, HasDerivAt (fun t => totD cs (Function.update (q b) i t) (Pi.single j 1))
      (totH cs (q b) (Pi.single i 1) (Pi.single j 1)) (q b i) := by
    intro j
    have h0 := hasFDerivAt_totD h (q b)
    have h1 := HasFDerivAt.comp_hasDerivAt_of_eq (q b i) h0 hu hx.symm
    exact (ContinuousLinearMap.apply ℝ ℝ (Pi.single j (1 : ℝ) : Fin m → ℝ)).hasFDerivAt.comp_hasDerivAt (q b i) h1
  have hb : ∀ b' : Fin P, HasDerivAt (fun t =>
      (if (b' : ℕ) % 2 = 0 then 2 / 3 else 4 / 3)
          * totV cs (Function.update q b (Function.update (q b) i t) b')
        + (if (b' : ℕ) % 2 = 0 then alpha else 1 - alpha) / (9 * omegan2)
          * ∑ j, totD cs (Function.update q b (Function.update (q b) i t) b') (Pi.single j 1) ^ 2 / m3 j)
      (if b' = b then -((1 + coeff1 b) * -totD cs (q b) (Pi.single i 1)
        + coeff2 alpha omegan2 b * fourth cs m3 (q b) i) else 0) (q b i) := by
    intro b'
    by_cases hbb : b' = b
    · subst hbb
      simp only [Function.update_self, if_true]
      have h2 : ∀ j, HasDerivAt (fun t => totD cs (Function.update (q b') i t) (Pi.single j 1) ^ 2 / m3 j)
          (2 * totD cs (q b') (Pi.single j 1) * totH cs (q b') (Pi.single i 1) (Pi.single j 1) / m3 j)
          (q b' i) := by
        intro j
        have := ((hD j).fun_pow 2).div_const (m3 j)
        rw [hx] at this
        refine this.congr_deriv ?_
        push_cast
        ring
      have h3 := HasDerivAt.fun_sum (u := Finset.univ) fun j _ => h2 j
      have := (hV.const_mul (if (b' : ℕ) % 2 = 0 then 2 / 3 else (4 / 3 : ℝ))).fun_add
        (h3.const_mul ((if (b' : ℕ) % 2 = 0 then alpha else 1 - alpha) / (9 * omegan2)))
      refine this.congr_deriv ?_
      rw [fourth_eq h]
      generalize ∑ j, 2 * totD cs (q b') (Pi.single j 1)
        * totH cs (q b') (Pi.single i 1) (Pi.single j 1) / m3 j = S
      unfold coeff1 coeff2
      have e : ∀ a : ℝ, a / (9 * omegan2) = a / omegan2 / 9 := fun a => by rw [div_div, mul_comm]
      rw [e]
      split_ifs <;> ring
    · rw [if_neg hbb]
      simp only [Function.update_of_ne hbb]
      exact hasDerivAt_const _ _
  have := HasDerivAt.fun_sum (u := Finset.univ) fun b' _ => hb b'
  refine this.congr_deriv ?_
  simp

/-! ### Finite differences -/

/-- The three difference quotients of the code. -/
def Quot (g : (Fin m → ℝ) → ℝ) (x u : Fin m → ℝ) (dl v : ℝ) : Prop :=
  v = 2 * (g (x - dl • u) - g x) / dl ∨ v = 2 * (g x - g (x + dl • u)) / dl
    ∨ v = 2 * (g (x - dl • u) - g (x + dl • u)) / 2 / dl

theorem row_odd (x : Arr P m) {b : Fin P} (hb : (b : ℕ) % 2 = 1) : row (odd x) ((b : ℕ) / 2) = x b := by
  have h : (b : ℕ) / 2 < P / 2 := by omega
  unfold row odd
  rw [dif_pos h]
  congr 1
  ext
  simp
  omega

theorem row_pm_minus (q dq : Arr P m) {b : Fin P} (hb : (b : ℕ) % 2 = 1)
    (h : P / 2 + (b : ℕ) / 2 < P) : plusMinus q dq ⟨P / 2 + (b : ℕ) / 2, h⟩ = q b - dq b := by
  unfold plusMinus
  rw [if_neg (by simp)]
  simp only [Nat.add_sub_cancel_left]
  rw [show odd q - odd dq = odd (q - dq) from rfl, row_odd _ hb]
  rfl

theorem row_pm_plus (q dq : Arr P m) {b : Fin P} (hb : (b : ℕ) % 2 = 1)
    (h : (b : ℕ) / 2 < P) : plusMinus q dq ⟨(b : ℕ) / 2, h⟩ = q b + dq b := by
  unfold plusMinus
  rw [if_pos (by simp; omega)]
  simp only
  rw [show odd q + odd dq = odd (q + dq) from rfl, row_odd _ hb]
  rfl

/-- One component without contraction: the result on the displaced replicas is a difference
quotient in the direction of the total force divided by the masses. -/
theorem f4_ok (op : List ℕ) (alpha : ℝ) (m3 : Fin m → ℝ) (cs : List (Comp m)) (q : Arr P m)
    (aux : Option ℕ) {c : Comp m} (hP : P % 2 = 0) (hc : c.beads P = P) (he : c.eps ≠ 0)
    (ha : ∀ k, aux = some k → k = if 0 < c.eps ∧ alpha = 0 then P / 2 else P) :
    ∃ fv, f4 op alpha m3 cs q aux c
        = .ok (fv, some (if 0 < c.eps ∧ alpha = 0 then P / 2 else P)) ∧
      ∀ (b : Fin P) i, (alpha ≠ 0 ∨ (b : ℕ) % 2 = 1) → Quot (fun x => c.force x i) (q b)
        (fun i => f op cs q b i / m3 i) (delta m3 (f op cs q) c.eps) (fv b i) := by
  have hau : ∀ A, (if 0 < c.eps ∧ alpha = 0 then P / 2 else P) = A → aux.getD A = A := by
    intro A hA
    cases aux with
    | none => rfl
    | some k => simp [ha k rfl, hA]
  have hd : ∀ b : Fin P, (fun i => delta m3 (f op cs q) c.eps * f op cs q b i / m3 i)
      = delta m3 (f op cs q) c.eps • fun i => f op cs q b i / m3 i := by
    intro b; funext i; simp [mul_div_assoc]
  unfold f4
  rw [if_neg (by omega)]
  by_cases hpos : 0 < c.eps
  · simp only [hpos, if_true, hc, ne_eq, not_true, if_false, true_and]
    by_cases hal : alpha = 0
    · simp only [hal, if_true]
      rw [if_neg (by rw [hau (P / 2) (by simp [hpos, hal])]; simp)]
      refine ⟨_, rfl, fun b i hb => Or.inl ?_⟩
      have hb : (b : ℕ) % 2 = 1 := by simpa using hb
      unfold setOdd
      rw [if_pos hb]
      have h2 : (b : ℕ) / 2 < P / 2 := by omega
      unfold row
      rw [dif_pos h2]
      simp only
      rw [expForce_full op (beads_half hc)]
      have e1 := row_odd (Comp.expForce op c q) hb
      have e2 := row_odd q hb
      have e3 := row_odd (fun b i => delta m3 (f op cs q) c.eps * f op cs q b i / m3 i) hb
      unfold row at e1 e2 e3
      rw [dif_pos h2] at e1 e2 e3
      rw [e1, expForce_full op hc, Pi.sub_apply, e2, e3, hd]
    · simp only [hal, if_false]
      rw [if_neg (by rw [hau P (by simp [hal])]; simp)]
      refine ⟨_, rfl, fun b i _ => Or.inr (Or.inl ?_)⟩
      rw [expForce_full op hc, expForce_full op hc, Pi.add_apply, hd]
  · have hneg : c.eps < 0 := lt_of_le_of_ne (not_lt.1 hpos) he
    simp only [hpos, if_false, hneg, if_true, false_and]
    rw [if_neg (by rw [hau P (by simp [hpos])]; simp)]
    by_cases hal : alpha = 0
    · simp only [hal, if_true]
      refine ⟨_, rfl, fun b i hb => Or.inr (Or.inr ?_)⟩
      have hb : (b : ℕ) % 2 = 1 := by simpa using hb
      have h2 : (b : ℕ) / 2 < P / 2 := by omega
      have h3 : P / 2 + (b : ℕ) / 2 < P := by omega
      have h4 : (b : ℕ) / 2 < P := by omega
      unfold setOdd
      rw [if_pos hb]
      unfold row
      rw [dif_pos h2]
      simp only [dif_pos h3, dif_pos h4]
      rw [expForce_full op hc, expForce_full op hc, row_pm_minus _ _ hb, row_pm_plus _ _ hb, hd]
    · simp only [hal, if_false]
      refine ⟨_, rfl, fun b i _ => Or.inr (Or.inr ?_)⟩
      rw [expForce_full op hc, expForce_full op hc, Pi.add_apply, Pi.sub_apply, hd]

theorem f4Loop_close (op : List ℕ) (alpha : ℝ) (m3 : Fin m → ℝ) (cs : List (Comp m)) (q : Arr P m)
    (hP : P % 2 = 0) (A : ℕ) (L : Comp m → Fin P → Fin m → ℝ) (tau : ℝ) (rest : List (Comp m))
    (hc : ∀ c ∈ rest, c.beads P = P) (he : ∀ c ∈ rest, c.eps ≠ 0)
    (hA : ∀ c ∈ rest, (if 0 < c.eps ∧ alpha = 0 then P / 2 else P) = A)
    (hq : ∀ c ∈ rest, ∀ b i v, Quot (fun x => c.force x i) (q b) (fun i => f op cs q b i / m3 i)
      (delta m3 (f op cs q) c.eps) v → |v - L c b i| ≤ tau) :
    ∀ (aux : Option ℕ) (rf : Arr P m), (∀ k, aux = some k → k = A) →
      ∃ rf' aux', f4Loop op alpha m3 cs q aux rf rest = .ok (rf', aux') ∧
        (∀ k, aux' = some k → k = A) ∧
        ∀ (b : Fin P) i, (alpha ≠ 0 ∨ (b : ℕ) % 2 = 1) →
          |rf' b i - (rf b i + (rest.map fun c => c.weight * c.mts.sum * L c b i).sum)|
            ≤ (rest.map fun c => |c.weight * c.mts.sum|).sum * tau := by
  induction rest with
  | nil =>
    intro aux rf ha
    exact ⟨rf, aux, rfl, ha, fun b i _ => by simp⟩
  | cons c rest ih =>
    intro aux rf ha
    have ih := ih (fun c h => hc c (by simp [h])) (fun c h => he c (by simp [h]))
      (fun c h => hA c (by simp [h])) (fun c h => hq c (by simp [h]))
    have hcA := hA c (by simp)
    by_cases hw : c.weight ≠ 0 ∧ c.mts.sum ≠ 0
    · obtain ⟨fv, h1, h2⟩ := f4_ok op alpha m3 cs q aux hP (hc c (by simp)) (he c (by simp))
        (fun k hk => (ha k hk).trans hcA.symm)
      rw [hcA] at h1
      obtain ⟨rf', aux', h3, h4, h5⟩ := ih (some A)
        (fun b i => rf b i + c.weight * c.mts.sum * fv b i) (fun k hk => (Option.some.inj hk).symm)
      refine ⟨rf', aux', ?_, h4, fun b i hb => ?_⟩
      · rw [f4Loop, if_pos hw, h1]
        exact h3
      · have h6 := h5 b i hb
        have h7 := hq c (by simp) b i _ (h2 b i hb)
        simp only [List.map_cons, List.sum_cons]
        set R := (rest.map fun c => c.weight * c.mts.sum * L c b i).sum
        set Q := (rest.map fun c => |c.weight * c.mts.sum|).sum
        have h8 : |c.weight * c.mts.sum * (fv b i - L c b i)| ≤ |c.weight * c.mts.sum| * tau := by
          rw [abs_mul]
          exact mul_le_mul_of_nonneg_left h7 (abs_nonneg _)
        have e : rf' b i - (rf b i + (c.weight * c.mts.sum * L c b i + R))
            = (rf' b i - (rf b i + c.weight * c.mts.sum * fv b i + R))
              + c.weight * c.mts.sum * (fv b i - L c b i) := by ring
        rw [e]
        refine (abs_add_le _ _).trans ?_
        linarith
    · obtain ⟨rf', aux', h3, h4, h5⟩ := ih aux rf ha
      refine ⟨rf', aux', ?_, h4, fun b i hb => ?_⟩
      · rw [f4Loop, if_neg hw]
        exact h3
      · have h6 := h5 b i hb
        have h0 : c.weight * c.mts.sum = 0 := by
          rw [not_and_or, not_not, not_not] at hw
          rcases hw with h | h <;> simp [h]
        simp only [List.map_cons, List.sum_cons, h0, abs_zero, zero_mul, zero_add]
        exact h6

/-- The derivative that the difference quotients of a component approach. -/
noncomputable def lim (c : Comp m) (x u : Fin m → ℝ) (i : Fin m) : ℝ :=
  2 * fderiv ℝ (fderiv ℝ c.pot) x u (Pi.single i 1)

theorem sum_lim (cs : List (Comp m)) (m3 : Fin m → ℝ) (x : Fin m → ℝ) (i : Fin m) :
    (cs.map fun c => c.weight * c.mts.sum
      * lim c x (fun j => -totD cs x (Pi.single j 1) / m3 j) i).sum = fourth cs m3 x i := by
  unfold fourth lim totH
  generalize (fun j => -totD cs x (Pi.single j 1) / m3 j) = u
  induction cs with
  | nil => simp
  | cons c cs ih =>
    simp only [List.map_cons, List.sum_cons, add_apply, smul_apply,
      smul_eq_mul]
    rw [ih]
    ring

theorem force_line {c : Comp m} (h : c.Smooth) (x u : Fin m → ℝ) (i : Fin m) :
    HasDerivAt (fun t : ℝ => c.force (x + t • u) i) (-(lim c x u i / 2)) 0 := by
  have hl : HasDerivAt (fun t : ℝ => x + t • u) u 0 := by
    have := ((hasDerivAt_id (0 : ℝ)).smul_const u).const_add x
    simpa using this
  have h1 := HasFDerivAt.comp_hasDerivAt_of_eq (0 : ℝ) (h.d2 x) hl (by simp)
  have h2 := ((ContinuousLinearMap.apply ℝ ℝ (Pi.single i (1 : ℝ) : Fin m → ℝ)).hasFDerivAt.comp_hasDerivAt
    (0 : ℝ) h1).fun_neg
  have e : (fun t : ℝ => c.force (x + t • u) i) = fun t => -fderiv ℝ c.pot (x + t • u) (Pi.single i 1) :=
    funext fun t => h.2 _ _
  rw [e]
  refine h2.congr_deriv ?_
  unfold lim
  simp

theorem quot_close {c : Comp m} (h : c.Smooth) (x u : Fin m → ℝ) (i : Fin m) {tau : ℝ} (ht : 0 < tau) :
    ∀ᶠ dl in 𝓝[>] (0 : ℝ), ∀ v, Quot (fun x => c.force x i) x u dl v → |v - lim c x u i| ≤ tau := by
  have h1 := (hasDerivAt_iff_isLittleO.1 (force_line h x u i)).def (c := tau / 2) (by positivity)
  simp only [sub_zero, zero_smul, add_zero, smul_eq_mul, Real.norm_eq_abs] at h1
  obtain ⟨d, hd, hb⟩ := Metric.eventually_nhds_iff.1 h1
  rw [eventually_nhdsWithin_iff]
  refine Metric.eventually_nhds_iff.2 ⟨d, hd, fun dl hdl hpos v hv => ?_⟩
  have hpos : 0 < dl := hpos
  have hdl : |dl| < d := by simpa [Real.dist_eq] using hdl
  have hp := hb (y := dl) (by simpa [Real.dist_eq] using hdl)
  have hm := hb (y := -dl) (by simpa [Real.dist_eq] using hdl)
  rw [neg_smul, ← sub_eq_add_neg, abs_neg] at hm
  rw [abs_of_pos hpos] at hp hm
  set lx := lim c x u i
  set gp := c.force (x + dl • u) i
  set gm := c.force (x - dl • u) i
  set g0 := c.force x i
  rw [abs_le] at hp hm
  have key : ∀ v, |v * dl - lx * dl| ≤ tau * dl → |v - lx| ≤ tau := by
    intro v hv
    rw [← sub_mul, abs_mul, abs_of_pos hpos] at hv
    exact le_of_mul_le_mul_right hv hpos
  apply key
  rcases hv with hv | hv | hv <;> rw [hv] <;> simp only [] <;>
    rw [div_mul_cancel₀ _ hpos.ne', abs_le] <;> constructor <;> linarith

/-- The force of a component is an affine function of the positions (a harmonic potential). -/
def Comp.Affine (c : Comp m) : Prop :=
  ∃ (H : Fin m → Fin m → ℝ) (g : Fin m → ℝ), ∀ x i, c.force x i = ∑ j, H i j * x j + g i

theorem quot_affine {c : Comp m} (h : c.Smooth) (ha : c.Affine) (x u : Fin m → ℝ) (i : Fin m) {dl v : ℝ}
    (hd : dl ≠ 0) (hv : Quot (fun x => c.force x i) x u dl v) : v = lim c x u i := by
  obtain ⟨H, g, hf⟩ := ha
  have e : ∀ t : ℝ, c.force (x + t • u) i = c.force x i + t * ∑ j, H i j * u j := by
    intro t
    rw [hf, hf, Finset.mul_sum]
    simp only [Pi.add_apply, Pi.smul_apply, smul_eq_mul, mul_add, Finset.sum_add_distrib]
    have : ∑ j, H i j * (t * u j) = ∑ j, t * (H i j * u j) := Finset.sum_congr rfl fun j _ => by ring
    rw [this]
    ring
  have e' : ∀ t : ℝ, c.force (x - t • u) i = c.force x i - t * ∑ j, H i j * u j := by
    intro t
    have := e (-t)
    rw [neg_smul, ← sub_eq_add_neg] at this
    rw [this]
    ring
  have h1 := force_line h x u i
  have h2 : HasDerivAt (fun t : ℝ => c.force (x + t • u) i) (∑ j, H i j * u j) 0 := by
    have : (fun t : ℝ => c.force (x + t • u) i) = fun t => c.force x i + t * ∑ j, H i j * u j :=
      funext e
    rw [this]
    have := ((hasDerivAt_id (0 : ℝ)).mul_const (∑ j, H i j * u j)).const_add (c.force x i)
    simpa using this
  have h3 := h1.unique h2
  have h4 : lim c x u i = -2 * ∑ j, H i j * u j := by linarith
  rw [h4]
  generalize ∑ j, H i j * u j = S at e e'
  rcases hv with hv | hv | hv <;> rw [hv] <;> simp only [e, e'] <;> field_simp <;> ring

theorem delta_pos (m3 : Fin m → ℝ) (fb : Arr P m) {eps : ℝ} (he : eps ≠ 0) : 0 < delta m3 fb eps := by
  unfold delta
  have h0 : 0 < |eps| := abs_pos.2 he
  simp only
  split_ifs with h
  · have h1 : 0 ≤ √((∑ b, ∑ i, fb b i / m3 i * fb b i / m3 i) / ((P : ℝ) * ((m : ℝ) / 3))) :=
      Real.sqrt_nonneg _
    rw [abs_of_nonneg h1] at h
    have : (0 : ℝ) < 1e-20 := by norm_num
    exact div_pos h0 (this.trans h)
  · exact h0

/-- The displacement is proportional to the parameter. -/
theorem delta_le (m3 : Fin m → ℝ) (fb : Arr P m) : ∃ K : ℝ, 0 < K ∧ ∀ eps, delta m3 fb eps ≤ K * |eps| := by
  unfold delta
  simp only
  by_cases h : 1e-20 < |√((∑ b, ∑ i, fb b i / m3 i * fb b i / m3 i) / ((P : ℝ) * ((m : ℝ) / 3)))|
  · have h1 : 0 ≤ √((∑ b, ∑ i, fb b i / m3 i * fb b i / m3 i) / ((P : ℝ) * ((m : ℝ) / 3))) :=
      Real.sqrt_nonneg _
    rw [abs_of_nonneg h1] at h
    have h2 : (0 : ℝ) < 1e-20 := by norm_num
    refine ⟨_, inv_pos.2 (h2.trans h), fun eps => ?_⟩
    rw [abs_of_nonneg h1, if_pos h, div_eq_inv_mul]
  · refine ⟨1, one_pos, fun eps => ?_⟩
    rw [if_neg h, one_mul]

/-! ### The forces -/

theorem fsc_close {cs : List (Comp m)} (op : List ℕ) (alpha omegan2 : ℝ) (m3 : Fin m → ℝ)
    (hP : P % 2 = 0) (h : ∀ c ∈ cs, c.beads P = P) (hs : ∀ c ∈ cs, c.Smooth) (q : Arr P m)
    (h1 : OneSign cs) {aux : Option ℕ} (hx : AuxOk P alpha cs aux) {tau : ℝ}
    (hq : ∀ c ∈ cs, ∀ b i v, Quot (fun x => c.force x i) (q b)
      (fun j => -totD cs (q b) (Pi.single j 1) / m3 j) (delta m3 (f op cs q) c.eps) v →
        |v - lim c (q b) (fun j => -totD cs (q b) (Pi.single j 1) / m3 j) i| ≤ tau) :
    ∃ F aux', fsc op alpha omegan2 m3 cs aux q = .ok (F, aux') ∧ AuxOk P alpha cs aux' ∧
      ∀ b i, |f op cs q b i + F b i - ((1 + coeff1 b) * -totD cs (q b) (Pi.single i 1)
          + coeff2 alpha omegan2 b * fourth cs m3 (q b) i)|
        ≤ |coeff2 alpha omegan2 b| * ((cs.map fun c => |c.weight * c.mts.sum|).sum * tau) := by
  cases cs with
  | nil =>
    refine ⟨_, aux, rfl, hx, fun b i => ?_⟩
    simp [f, totD, fourth, totH]
  | cons c0 rest =>
    have he : ∀ c ∈ c0 :: rest, c.eps ≠ 0 := by
      rcases h1 with h1 | h1
      · exact fun c hc => (h1 c hc).ne'
      · exact fun c hc => (h1 c hc).ne
    have hA : ∀ c ∈ c0 :: rest, (if 0 < c.eps ∧ alpha = 0 then P / 2 else P)
        = if 0 < c0.eps ∧ alpha = 0 then P / 2 else P := by
      intro c hc
      rcases h1 with h1 | h1
      · simp [h1 c hc, h1 c0 (by simp)]
      · simp [(h1 c hc).not_gt, (h1 c0 (by simp)).not_gt]
    have hu : ∀ b : Fin P, (fun i => f op (c0 :: rest) q b i / m3 i)
        = fun j => -totD (c0 :: rest) (q b) (Pi.single j 1) / m3 j := by
      intro b; funext j; rw [f_full op h hs]
    obtain ⟨rf, aux', h3, h4, h5⟩ := f4Loop_close op alpha m3 (c0 :: rest) q hP _
      (fun c b i => lim c (q b) (fun j => -totD (c0 :: rest) (q b) (Pi.single j 1) / m3 j) i) tau
      (c0 :: rest) h he hA (fun c hc b i v hv => hq c hc b i v (by rwa [hu] at hv)) aux 0
      (fun k hk => hx k hk c0 (by simp))
    refine ⟨fun b i => coeff1 b * f op (c0 :: rest) q b i + coeff2 alpha omegan2 b * rf b i, aux', ?_,
      fun k hk c hc => (h4 k hk).trans (hA c hc).symm, fun b i => ?_⟩
    · unfold fsc f4total
      rw [h3]
      rfl
    · beta_reduce
      rw [f_full op h hs]
      have e : -totD (c0 :: rest) (q b) (Pi.single i 1)
          + (coeff1 b * -totD (c0 :: rest) (q b) (Pi.single i 1) + coeff2 alpha omegan2 b * rf b i)
          - ((1 + coeff1 b) * -totD (c0 :: rest) (q b) (Pi.single i 1)
            + coeff2 alpha omegan2 b * fourth (c0 :: rest) m3 (q b) i)
          = coeff2 alpha omegan2 b * (rf b i - fourth (c0 :: rest) m3 (q b) i) := by ring
      rw [e, abs_mul]
      by_cases hd : alpha ≠ 0 ∨ (b : ℕ) % 2 = 1
      · refine mul_le_mul_of_nonneg_left ?_ (abs_nonneg _)
        have := h5 b i hd
        rw [sum_lim] at this
        simpa using this
      · have h0 : coeff2 alpha omegan2 b = 0 := by
          rw [not_or, not_not] at hd
          unfold coeff2
          rw [if_pos (by omega), hd.1]
          simp
        simp [h0]

/-- For harmonic potentials the forces are minus the gradient of the Suzuki-Chin potential, for all
finite difference parameters of one sign. -/
theorem sc_force_affine {cs : List (Comp m)} (op : List ℕ) (alpha omegan2 : ℝ) (m3 : Fin m → ℝ)
    (hP : P % 2 = 0) (h : ∀ c ∈ cs, c.beads P = P) (hs : ∀ c ∈ cs, c.Smooth) (ha : ∀ c ∈ cs, c.Affine)
    (q : Arr P m) (h1 : OneSign cs) {aux : Option ℕ} (hx : AuxOk P alpha cs aux) :
    ∃ F aux', fsc op alpha omegan2 m3 cs aux q = .ok (F, aux') ∧ AuxOk P alpha cs aux' ∧
      ∀ b i, HasDerivAt (fun t => scPot alpha omegan2 m3 (totV cs)
          (Function.update q b (Function.update (q b) i t)))
        (-(f op cs q b i + F b i)) (q b i) := by
  have he : ∀ c ∈ cs, c.eps ≠ 0 := by
    rcases h1 with h1 | h1
    · exact fun c hc => (h1 c hc).ne'
    · exact fun c hc => (h1 c hc).ne
  obtain ⟨F, aux', h2, h3, h4⟩ := fsc_close op alpha omegan2 m3 hP h hs q h1 hx (tau := 0)
    fun c hc b i v hv => by
      rw [quot_affine (hs c hc) (ha c hc) _ _ i (delta_pos m3 _ (he c hc)).ne' hv]
      simp
  refine ⟨F, aux', h2, h3, fun b i => ?_⟩
  have h5 := h4 b i
  rw [mul_zero, mul_zero] at h5
  have h6 := abs_eq_zero.1 (le_antisymm h5 (abs_nonneg _))
  rw [sub_eq_zero.1 h6]
  exact scPot_grad hs alpha omegan2 m3 q b i

/-- For other potentials the forces approach minus the gradient of the Suzuki-Chin potential when
the finite difference parameters go to zero. -/
theorem sc_force {cs : List (Comp m)} (op : List ℕ) (alpha omegan2 : ℝ) (m3 : Fin m → ℝ)
    (hP : P % 2 = 0) (h : ∀ c ∈ cs, c.beads P = P) (hs : ∀ c ∈ cs, c.Smooth) (q : Arr P m) :
    ∃ D : Arr P m, (∀ b i, HasDerivAt (fun t => scPot alpha omegan2 m3 (totV cs)
        (Function.update q b (Function.update (q b) i t))) (D b i) (q b i)) ∧
      ∀ tol : ℝ, 0 < tol → ∃ d : ℝ, 0 < d ∧ ∀ eps : Comp m → ℝ, (∀ c ∈ cs, |eps c| < d) →
        ∀ cs', cs' = cs.map (fun c => { c with eps := eps c }) → OneSign cs' →
        ∀ aux, AuxOk P alpha cs' aux →
          ∃ F aux', fsc op alpha omegan2 m3 cs' aux q = .ok (F, aux') ∧ AuxOk P alpha cs' aux' ∧
            ∀ b i, |f op cs' q b i + F b i + D b i| < tol := by
  refine ⟨fun b i => -((1 + coeff1 b) * -totD cs (q b) (Pi.single i 1)
        + coeff2 alpha omegan2 b * fourth cs m3 (q b) i),
    fun b i => scPot_grad hs alpha omegan2 m3 q b i, fun tol htol => ?_⟩
  set W := (cs.map fun c => |c.weight * c.mts.sum|).sum with hW
  have hW0 : 0 ≤ W := List.sum_nonneg (by
    intro x hx
    obtain ⟨c, -, rfl⟩ := List.mem_map.1 hx
    exact abs_nonneg _)
  set M := ∑ b : Fin P, |coeff2 alpha omegan2 b| with hM
  have hM0 : 0 ≤ M := Finset.sum_nonneg fun b _ => abs_nonneg _
  set tau := tol / (2 * (1 + M * W)) with htau
  have hMW : 0 ≤ M * W := mul_nonneg hM0 hW0
  have htau0 : 0 < tau := by positivity
  obtain ⟨K, hK, hKd⟩ := delta_le m3 (f op cs q)
  have hev : ∀ᶠ dl in 𝓝[>] (0 : ℝ), ∀ c ∈ cs, ∀ (b : Fin P) (i : Fin m) v,
      Quot (fun x => c.force x i) (q b) (fun j => -totD cs (q b) (Pi.single j 1) / m3 j) dl v →
        |v - lim c (q b) (fun j => -totD cs (q b) (Pi.single j 1) / m3 j) i| ≤ tau := by
    have : ∀ c ∈ cs, ∀ᶠ dl in 𝓝[>] (0 : ℝ), ∀ (b : Fin P) (i : Fin m) v,
      Quot (fun x => c.force x i) (q b) (fun j => -totD cs (q b) (Pi.single j 1) / m3 j) dl v →
        |v - lim c (q b) (fun j => -totD cs (q b) (Pi.single j 1) / m3 j) i| ≤ tau := fun c hc =>
      eventually_all.2 fun b => eventually_all.2 fun i => quot_close (hs c hc) _ _ i htau0
    clear_value W tau
    clear h hs hW hKd
    generalize totD cs = TD at *
    induction cs with
    | nil => simp
    | cons c cs ih =>
      have h2 := ih fun c hc => this c (by simp [hc])
      filter_upwards [this c (by simp), h2] with dl h3 h4 c' hc'
      rcases List.mem_cons.1 hc' with rfl | hc'
      · exact h3
      · exact h4 c' hc'
  rw [eventually_nhdsWithin_iff] at hev
  obtain ⟨d, hd, hdd⟩ := Metric.eventually_nhds_iff.1 hev
  refine ⟨d / K, div_pos hd hK, fun eps heps cs' hcs' h1 aux hx => ?_⟩
  have hf : f op cs' q = f op cs q := by
    subst hcs'
    funext b i
    unfold f
    rw [List.map_map]
    rfl
  have hD : totD cs' = totD cs := by
    subst hcs'
    funext x
    unfold totD
    rw [List.map_map]
    rfl
  have hH : totH cs' = totH cs := by
    subst hcs'
    funext x
    unfold totH
    rw [List.map_map]
    rfl
  have hW' : (cs'.map fun c => |c.weight * c.mts.sum|).sum = W := by
    subst hcs'
    rw [List.map_map]
    rfl
  have hmem : ∀ c' ∈ cs', ∃ c ∈ cs, c' = { c with eps := eps c } := by
    intro c' hc'
    rw [hcs'] at hc'
    obtain ⟨c, hc, rfl⟩ := List.mem_map.1 hc'
    exact ⟨c, hc, rfl⟩
  have hne : ∀ c ∈ cs', c.eps ≠ 0 := by
    rcases h1 with h1 | h1
    · exact fun c hc => (h1 c hc).ne'
    · exact fun c hc => (h1 c hc).ne
  obtain ⟨F, aux', h2, h3, h4⟩ := fsc_close (cs := cs') op alpha omegan2 m3 hP
    (fun c' hc' => by obtain ⟨c, hc, rfl⟩ := hmem c' hc'; exact h c hc)
    (fun c' hc' => by obtain ⟨c, hc, rfl⟩ := hmem c' hc'; exact hs c hc) q h1 hx (tau := tau)
    (fun c' hc' b i v hv => by
      have hpos := delta_pos m3 (f op cs' q) (hne c' hc')
      obtain ⟨c, hc, rfl⟩ := hmem c' hc'
      rw [hD, hf] at hv
      rw [hf] at hpos
      rw [hD]
      refine hdd (y := delta m3 (f op cs q) (eps c)) ?_ hpos c hc b i v hv
      rw [Real.dist_eq, sub_zero, abs_of_pos hpos]
      calc _ ≤ K * |eps c| := hKd _
        _ < K * (d / K) := mul_lt_mul_of_pos_left (heps c hc) hK
        _ = d := by field_simp)
  refine ⟨F, aux', h2, h3, fun b i => ?_⟩
  have h5 := h4 b i
  have hfo : fourth cs' m3 (q b) i = fourth cs m3 (q b) i := by unfold fourth; rw [hD, hH]
  rw [hW', hD, hfo] at h5
  rw [← sub_eq_add_neg]
  refine lt_of_le_of_lt h5 ?_
  have h6 : |coeff2 alpha omegan2 b| ≤ M :=
    Finset.single_le_sum (f := fun b : Fin P => |coeff2 alpha omegan2 b|) (fun _ _ => abs_nonneg _)
      (Finset.mem_univ b)
  have h7 : |coeff2 alpha omegan2 b| * (W * tau) ≤ M * (W * tau) :=
    mul_le_mul_of_nonneg_right h6 (mul_nonneg hW0 htau0.le)
  refine lt_of_le_of_lt h7 ?_
  rw [htau, ← mul_assoc, mul_div_assoc', div_lt_iff₀ (by positivity)]
  nlinarith

/-! ### The hypotheses can be met -/

/-- A harmonic trap. -/
noncomputable def trap (k : ℝ) (nb : ℕ) (eps : ℝ) : Comp m where
  weight := 1
  mts := [1]
  nb := nb
  eps := eps
  pot := fun x => k / 2 * ∑ i, x i ^ 2
  force := fun x i => -(k * x i)

theorem trap_smooth (k : ℝ) (nb : ℕ) (eps : ℝ) : (trap k nb eps : Comp m).Smooth := by
  have hd : ∀ x : Fin m → ℝ, ∀ i, HasDerivAt (fun t => (trap k nb eps : Comp m).pot
      (Function.update x i t)) (k * x i) (x i) := by
    intro x i
    have hu : HasDerivAt (fun t => Function.update x i t) (Pi.single i 1) (x i) := hasDerivAt_update x i (x i)
    have h1 := HasDerivAt.fun_sum (u := Finset.univ) fun j _ => ((hasDerivAt_pi.1 hu j).fun_pow 2)
    have := h1.const_mul (k / 2)
    refine this.congr_deriv ?_
    simp [Pi.single_apply]
    ring
  have hc : ContDiff ℝ 2 (trap k nb eps : Comp m).pot := by
    unfold trap
    fun_prop
  refine ⟨hc, fun x i => ?_⟩
  have h0 := (hc.differentiable (by norm_num) (Function.update x i (x i))).hasFDerivAt
  have h1 := HasFDerivAt.comp_hasDerivAt (x i) h0 (hasDerivAt_update x i (x i))
  have h2 := (hd x i).unique h1
  rw [Function.update_eq_self] at h2
  rw [← h2]
  rfl

theorem trap_affine (k : ℝ) (nb : ℕ) (eps : ℝ) : (trap k nb eps : Comp m).Affine :=
  ⟨fun i j => if i = j then -k else 0, 0, fun x i => by simp [trap]⟩

/-- Four replicas of an atom in two traps, with the default parameter of the differences. -/
example (q : Arr 4 3) :
    ∃ F aux', fsc [] 0 1 (fun _ => 2) [trap 1 0 (-0.001), trap 3 4 (-0.001)] none q = .ok (F, aux') ∧
      ∀ b i, HasDerivAt (fun t => scPot 0 1 (fun _ => 2)
          (totV [trap 1 0 (-0.001), trap 3 4 (-0.001)])
          (Function.update q b (Function.update (q b) i t)))
        (-(f [] [trap 1 0 (-0.001), trap 3 4 (-0.001)] q b i + F b i)) (q b i) := by
  obtain ⟨F, aux', h1, -, h2⟩ := sc_force_affine (P := 4) (m := 3)
    (cs := [trap 1 0 (-0.001), trap 3 4 (-0.001)]) [] 0 1 (fun _ => 2) rfl
    (by simp [trap, Comp.beads]) (by simp [trap_smooth]) (by simp [trap_affine]) q
    (Or.inr (by simp [trap]; norm_num)) (aux := none) (by simp [AuxOk])
  exact ⟨F, aux', h1, h2⟩

end Verif.SC
