import Mathlib.Analysis.Calculus.MeanValue
import Mathlib.Tactic.Linarith
import Verif.Props.C35_Contract
import Verif.Props.C104_SuzukiChin

/-!
# C105: Suzuki-Chin forces with ring polymer contraction and any finite differences

They are not the gradient of any potential when a component is contracted, and components with
parameters of different signs, or with parameter zero, end the run.
-/

namespace Verif.SC

open Finset Verif.Nm Verif.Contract

variable {P m : ℕ}

theorem toOne (hP : 1 < P) (q : Arr P m) (a : Fin 1) (i : Fin m) :
    b1tob2 1 [] q a i = (∑ b, q b i) / P := by
  obtain ⟨C, hC, -, h⟩ := b1tob2_col (n2 := 1) (by omega : P ≠ 1) [] q i
  rw [h, Finset.sum_div]
  refine Finset.sum_congr rfl fun b _ => ?_
  have := hC.fwd_colsum (by omega : 0 < P) one_pos b
  rw [Fin.sum_univ_one] at this
  rw [Subsingleton.elim a 0, this]
  push_cast
  ring

theorem fromOne (hP : 1 < P) (x : Arr 1 m) (b : Fin P) (i : Fin m) :
    b2tob1 P [] x b i = x 0 i := by
  obtain ⟨C, hC, -, h⟩ := b2tob1_col (n1 := P) (by omega : P ≠ 1) [] x i
  rw [h, Fin.sum_univ_one]
  have h1 := hC.fwd_colsum (by omega : 0 < P) one_pos b
  rw [Fin.sum_univ_one] at h1
  unfold bwdMat
  unfold fwdMat at h1
  rw [h1]
  have : (P : ℝ) ≠ 0 := by positivity
  push_cast
  field_simp

theorem expForce_one (hP : 1 < P) {c : Comp m} (hc : c.nb = 1) (q : Arr P m) (b : Fin P) (i : Fin m) :
    c.expForce [] q b i = c.force (fun i => (∑ b, q b i) / P) i := by
  have hb : c.beads P = 1 := by unfold Comp.beads; rw [if_neg (by omega), hc]
  unfold Comp.expForce
  rw [hb, fromOne hP]
  congr 1
  funext i
  exact toOne hP q 0 i

/-- The forces on a path contracted to its centroid: the fourth order force vanishes. -/
theorem fsc_one (hP : 1 < P) (he : P % 2 = 0) {k eps : ℝ} (hk : eps < 0) (omegan2 : ℝ) (m3 : Fin m → ℝ)
    (q : Arr P m) :
    (∀ b i, f [] [trap k 1 eps] q b i = -(k * ((∑ b, q b i) / P))) ∧
    ∃ F, fsc [] 0 omegan2 m3 [trap k 1 eps] none q = .ok (F, some P) ∧
      ∀ b i, F b i = coeff1 b * -(k * ((∑ b, q b i) / P)) := by
  have hf : ∀ b i, f [] [trap k 1 eps] q b i = -(k * ((∑ b, q b i) / P)) := by
    intro b i
    unfold f
    simp only [List.map_cons, List.map_nil, List.sum_cons, List.sum_nil]
    rw [expForce_one hP rfl]
    simp [trap]
  refine ⟨hf, ?_⟩
  unfold fsc f4total f4Loop f4Loop f4
  rw [if_pos (by simp [trap]), if_neg (by omega)]
  have h1 : ¬ (0 : ℝ) < (trap k 1 eps : Comp m).eps := hk.not_gt
  have h2 : (trap k 1 eps : Comp m).eps < 0 := hk
  simp only [h1, h2, if_true, if_false, Option.getD_none, ne_eq, not_true]
  refine ⟨_, rfl, fun b i => ?_⟩
  beta_reduce
  rw [hf]
  have h3 : ∀ x : Arr P m, ∀ k' : ℕ, k' < P → row ((trap k 1 eps : Comp m).expForce [] x) k'
      = (trap k 1 eps : Comp m).force (fun i => (∑ b, x b i) / P) := by
    intro x k' hk'
    unfold row
    rw [dif_pos hk']
    funext i
    rw [expForce_one hP rfl]
  have h4 : ∀ x : Arr (P / 2) m, ∀ b : Fin P, (∀ k i, x k i = 0) → setOdd x b i = 0 := by
    intro x b hx
    unfold setOdd row
    split_ifs <;> simp [hx]
  rw [add_eq_left, mul_eq_zero]
  refine Or.inr ?_
  simp only [Pi.zero_apply, zero_add]
  rw [h4, mul_zero]
  intro k' i'
  rw [h3 _ _ (by omega), h3 _ _ (by omega)]
  simp

theorem line {U : ℝ → ℝ} {a c : ℝ} (h : ∀ t, HasDerivAt U (a * t + c) t) : U 1 - U 0 = a / 2 + c := by
  have h1 : ∀ t, HasDerivAt (fun t => U t - (a / 2 * t ^ 2 + c * t)) 0 t := by
    intro t
    have h2 : HasDerivAt (fun t : ℝ => a / 2 * t ^ 2 + c * t) (a * t + c) t := by
      have := (((hasDerivAt_id t).fun_pow 2).const_mul (a / 2)).fun_add ((hasDerivAt_id t).const_mul c)
      refine this.congr_deriv ?_
      simp
      ring
    have := (h t).fun_sub h2
    refine this.congr_deriv ?_
    ring
  have h2 := is_const_of_deriv_eq_zero (fun t => (h1 t).differentiableAt) (fun t => (h1 t).deriv) 1 0
  linarith

/-- With a component contracted to the centroid there is no potential at all whose gradient the
Suzuki-Chin forces are; the simplest case, an atom in a harmonic trap. -/
theorem contraction_wrong (hP : 1 < P) (he : P % 2 = 0) {k eps : ℝ} (hk : eps < 0) (hk0 : 0 < k)
    (omegan2 : ℝ) (m3 : Fin 3 → ℝ) :
    ¬ ∃ U : Arr P 3 → ℝ, ∀ q b i, ∃ F aux', fsc [] 0 omegan2 m3 [trap k 1 eps] none q = .ok (F, aux') ∧
      HasDerivAt (fun t => U (Function.update q b (Function.update (q b) i t)))
        (-(f [] [trap k 1 eps] q b i + F b i)) (q b i) := by
  rintro ⟨U, hU⟩
  have hP0 : (P : ℝ) ≠ 0 := by positivity
  let b0 : Fin P := ⟨0, by omega⟩
  let b1 : Fin P := ⟨1, hP⟩
  have hb : b0 ≠ b1 := by simp [b0, b1]
  -- the path with the first two replicas at `s` and `t` on the first axis
  let Q : ℝ → ℝ → Arr P 3 := fun s t b i => if i = 0 then (if b = b0 then s else if b = b1 then t else 0) else 0
  have hsum : ∀ s t, ∑ b, Q s t b 0 = s + t := by
    intro s t
    have : ∀ b, Q s t b 0 = (if b = b0 then s else 0) + if b = b1 then t else 0 := by
      intro b
      simp only [Q, if_true]
      by_cases h : b = b0
      · simp [h, hb]
      · simp [h]
    simp only [this, Finset.sum_add_distrib, Finset.sum_ite_eq', Finset.mem_univ, if_true]
  have hu0 : ∀ s t x, Function.update (Q s t) b0 (Function.update (Q s t b0) 0 x) = Q x t := by
    intro s t x
    funext b i
    by_cases h : b = b0
    · subst h
      by_cases h' : i = 0
      · subst h'; simp [Q]
      · simp [Q, h']
    · simp [Q, h]
  have hu1 : ∀ s t x, Function.update (Q s t) b1 (Function.update (Q s t b1) 0 x) = Q s x := by
    intro s t x
    funext b i
    by_cases h : b = b1
    · subst h
      by_cases h' : i = 0
      · subst h'; simp [Q, hb.symm]
      · simp [Q, h']
    · simp [Q, h]
  have hF : ∀ s t b, ∃ F aux', fsc [] 0 omegan2 m3 [trap k 1 eps] none (Q s t) = .ok (F, aux') ∧
      HasDerivAt (fun x => U (Function.update (Q s t) b (Function.update (Q s t b) 0 x)))
        ((1 + coeff1 b) * (k * ((s + t) / P))) (Q s t b 0) := by
    intro s t b
    obtain ⟨F, aux', h1, h2⟩ := hU (Q s t) b 0
    obtain ⟨hf, F', h3, h4⟩ := fsc_one hP he hk omegan2 m3 (Q s t) (k := k)
    refine ⟨F, aux', h1, h2.congr_deriv ?_⟩
    have : F = F' := by
      have := h1.symm.trans h3
      injection this with this
      exact congrArg Prod.fst this
    rw [hf, this, h4, hsum]
    ring
  have hd0 : ∀ s t, HasDerivAt (fun x => U (Q x t)) (2 / 3 * (k * ((s + t) / P))) s := by
    intro s t
    obtain ⟨F, aux', -, h⟩ := hF s t b0
    simp only [hu0] at h
    have e : Q s t b0 0 = s := by simp [Q]
    rw [e] at h
    refine h.congr_deriv ?_
    have : coeff1 b0 = -1 / 3 := by simp [coeff1, b0]
    rw [this]
    ring
  have hd1 : ∀ s t, HasDerivAt (fun x => U (Q s x)) (4 / 3 * (k * ((s + t) / P))) t := by
    intro s t
    obtain ⟨F, aux', -, h⟩ := hF s t b1
    simp only [hu1] at h
    have e : Q s t b1 0 = t := by simp [Q, hb.symm]
    rw [e] at h
    refine h.congr_deriv ?_
    have : coeff1 b1 = 1 / 3 := by simp [coeff1, b1]
    rw [this]
    ring
  have i1 := line (U := fun x => U (Q x 0)) (a := 2 / 3 * k / P) (c := 0)
    fun s => (hd0 s 0).congr_deriv (by field_simp; ring)
  have i2 := line (U := fun x => U (Q 1 x)) (a := 4 / 3 * k / P) (c := 4 / 3 * k / P)
    fun t => (hd1 1 t).congr_deriv (by field_simp; ring)
  have i3 := line (U := fun x => U (Q 0 x)) (a := 4 / 3 * k / P) (c := 0)
    fun t => (hd1 0 t).congr_deriv (by field_simp; ring)
  have i4 := line (U := fun x => U (Q x 1)) (a := 2 / 3 * k / P) (c := 2 / 3 * k / P)
    fun s => (hd0 s 1).congr_deriv (by field_simp)
  have hpos : 0 < k / P := div_pos hk0 (by positivity)
  have e1 : 2 / 3 * k / P = 2 / 3 * (k / P) := by ring
  have e2 : 4 / 3 * k / P = 4 / 3 * (k / P) := by ring
  rw [e1] at i1 i4
  rw [e2] at i2 i3
  linarith

example : ¬ ∃ U : Arr 2 3 → ℝ, ∀ q b i, ∃ F aux', fsc [] 0 1 (fun _ => 1) [trap 1 1 (-0.001)] none q
      = .ok (F, aux') ∧
    HasDerivAt (fun t => U (Function.update q b (Function.update (q b) i t)))
      (-(f [] [trap 1 1 (-0.001)] q b i + F b i)) (q b i) :=
  contraction_wrong (by norm_num) rfl (by norm_num) one_pos 1 fun _ => 1

/-- Components with parameters of different signs end the run. -/
theorem mixed_wrong (op : List ℕ) (m3 : Fin m → ℝ) (q : Arr P m) (hP : 0 < P) (he : P % 2 = 0)
    (omegan2 : ℝ) {c c' : Comp m} (hc : c.beads P = P) (hw : c.weight ≠ 0 ∧ c.mts.sum ≠ 0)
    (hc' : c'.beads P = P) (hw' : c'.weight ≠ 0 ∧ c'.mts.sum ≠ 0)
    (hs : 0 < c.eps ∧ c'.eps < 0 ∨ c.eps < 0 ∧ 0 < c'.eps) :
    fsc op 0 omegan2 m3 [c, c'] none q = .error .shape := by
  have hn : c.eps ≠ 0 := by rcases hs with h | h; exacts [h.1.ne', h.1.ne]
  obtain ⟨fv, h1, -⟩ := f4_ok op 0 m3 [c, c'] q none he hc hn (by simp)
  unfold fsc f4total f4Loop
  rw [if_pos hw, h1]
  dsimp only
  unfold f4Loop
  rw [if_pos hw']
  have : f4 op 0 m3 [c, c'] q (some (if 0 < c.eps ∧ (0 : ℝ) = 0 then P / 2 else P)) c' = .error .shape := by
    unfold f4
    rw [if_neg (by omega)]
    rcases hs with h | h
    · simp only [h.1, h.2, h.2.not_gt, true_and, if_true, if_false, Option.getD_some]
      rw [if_pos (by omega)]
    · simp only [h.2, h.1.not_gt, if_true, if_false, false_and, Option.getD_some, hc', ne_eq, not_true]
      rw [if_pos (by omega)]
  rw [this]
  rfl

/-- So does a parameter that is zero. -/
theorem zero_wrong (op : List ℕ) (alpha omegan2 : ℝ) (m3 : Fin m → ℝ) (q : Arr P m) (he : P % 2 = 0)
    {c : Comp m} (hw : c.weight ≠ 0 ∧ c.mts.sum ≠ 0) (h0 : c.eps = 0) :
    fsc op alpha omegan2 m3 [c] none q = .error .unboundLocal := by
  unfold fsc f4total f4Loop f4
  rw [if_pos hw, if_neg (by omega)]
  simp [h0]

/-- Refusals that say why: an odd number of replicas, and forward differences with a contraction. -/
theorem sc_refused (op : List ℕ) (alpha omegan2 : ℝ) (m3 : Fin m → ℝ) (q : Arr P m)
    {c : Comp m} (hw : c.weight ≠ 0 ∧ c.mts.sum ≠ 0) :
    (P % 2 ≠ 0 → fsc op alpha omegan2 m3 [c] none q = .error .oddBeads
      ∧ potsc op alpha omegan2 m3 [c] q = .error .oddBeads) ∧
    (P % 2 = 0 → 0 < c.eps → c.beads P ≠ P →
      fsc op alpha omegan2 m3 [c] none q = .error .forwardContraction) := by
  refine ⟨fun h => ⟨?_, ?_⟩, fun h h1 h2 => ?_⟩
  · unfold fsc f4total f4Loop f4
    rw [if_pos hw, if_pos h]
    rfl
  · unfold potsc potssc
    rw [if_pos h]
    rfl
  · unfold fsc f4total f4Loop f4
    rw [if_pos hw, if_neg (by omega)]
    simp only [h1, if_true, if_pos h2]
    rfl

/-- Two traps with different signs, and one with parameter zero. -/
example (q : Arr 4 3) : fsc [] 0 1 (fun _ => 1) [trap 1 0 0.001, trap 1 0 (-0.001)] none q = .error .shape
    ∧ fsc [] 0 1 (fun _ => 1) [trap 1 0 0] none q = .error .unboundLocal :=
  ⟨mixed_wrong [] _ q (by norm_num) rfl 1 (by simp [trap, Comp.beads]) (by simp [trap])
    (by simp [trap, Comp.beads]) (by simp [trap]) (Or.inl (by simp [trap]; norm_num)),
  zero_wrong [] 0 1 _ q rfl (by simp [trap]) rfl⟩

end Verif.SC
