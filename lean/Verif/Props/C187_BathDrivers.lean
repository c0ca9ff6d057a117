import Verif.FF.BathDrivers
import Verif.Props.C84_Pes

/-! C187: the double wells with explicit baths. -/

namespace Verif.Pes

open Finset

/-! ### As they are -/

/-- **Disagreement (C187).** The double well with a bath fails for every structure and all parameters:
the bath cannot be called. -/
theorem dw_bath_fails (w : DW) (p : BathPar) (r : List ℝ) :
    ∃ e, dwBath 1 dwKeys bathMethods w p r = .error e := by
  cases r with
  | nil => exact ⟨.index, rfl⟩
  | cons q xs => exact ⟨.type, rfl⟩

/-- **Disagreement (C187).** The two double wells fail for every structure and all parameters: the
parameters of the bath are given as one argument. -/
theorem ddw_fails (methods : List String) (w1 w2 : DW) (C : ℝ) (p : BathPar) (r : List ℝ) :
    ∃ e, ddw 2 [] methods w1 w2 C p r = .error e := by
  unfold ddw
  split_ifs
  · exact ⟨_, rfl⟩
  · exact ⟨.type, rfl⟩

/-- Giving them by name would not be enough, as there is one that the bath does not know. -/
theorem ddw_names_fail (methods : List String) (w1 w2 : DW) (C : ℝ) (p : BathPar) (r : List ℝ) :
    ∃ e, ddw 1 ddwKeys methods w1 w2 C p r = .error e := by
  unfold ddw
  split_ifs
  · exact ⟨_, rfl⟩
  · exact ⟨.type, rfl⟩

/-! ### What they would be with a bath that can be called -/

/-- The frequencies of the bath are positive. -/
theorem omega_pos (p : BathPar) (h : 0 < p.wc) (n : ℕ) (i : Fin n) : 0 < bathOmega p n i := by
  have hn : (0 : ℝ) < n := by exact_mod_cast i.pos
  have hi : (i : ℝ) + 1 ≤ n := by exact_mod_cast i.isLt
  have h0 : (0 : ℝ) ≤ (i : ℝ) := Nat.cast_nonneg _
  have h1 : 0 < ((i : ℝ) + 0.5) / n := div_pos (by norm_num; linarith) hn
  have h2 : ((i : ℝ) + 0.5) / n < 1 := by
    rw [div_lt_one hn]
    norm_num
    linarith
  have := Real.log_neg h1 h2
  unfold bathOmega
  nlinarith

/-- The bath is discretized such that the sum of the squared couplings over the force constants is the
same for any number of modes. -/
theorem reorganization (p : BathPar) (h : 0 < p.wc) (hm : 0 < p.m) (he : 0 ≤ p.eta0) (n : ℕ) (hn : 0 < n) :
    ∑ i, (mkBath p n).coef i ^ 2 / ((mkBath p n).m * (mkBath p n).omega2 i) = 2 * p.eta0 * p.wc / Real.pi := by
  have hn' : (n : ℝ) ≠ 0 := by exact_mod_cast hn.ne'
  have e : ∀ i, (mkBath p n).coef i ^ 2 / ((mkBath p n).m * (mkBath p n).omega2 i)
      = 2 * p.eta0 * p.wc / (n * Real.pi) := by
    intro i
    have ho := (omega_pos p h n i).ne'
    have hq : 0 ≤ (2 * p.eta0 * p.m * p.wc) / (n * Real.pi) := by
      have := Real.pi_pos
      positivity
    have hpi := Real.pi_ne_zero
    simp only [mkBath, if_pos h]
    rw [mul_pow, Real.sq_sqrt hq]
    field_simp
  rw [Finset.sum_congr rfl fun i _ => e i]
  simp only [sum_const, card_univ, Fintype.card_fin, nsmul_eq_mul]
  have hpi := Real.pi_ne_zero
  field_simp

theorem well_force (w : DW) {f : ℝ → ℝ} {v : ℝ} (hf : HasDerivAt f v 0) :
    HasDerivAt (fun t => w.pot (f t)) (-(w.force (f 0) * v)) 0 := by
  unfold DW.pot DW.force
  refine ((((hf.sub_const w.delta).fun_pow 2).const_mul w.A).add ((hf.fun_pow 4).const_mul w.B)).congr_deriv ?_
  norm_num
  ring

/-- A bath that is on has force constants that are not zero; one that is off adds nothing. -/
theorem bath_force_any (p : BathPar) (hm : p.m ≠ 0) (n : ℕ) (q : ℝ) (x : Fin n → ℝ) :
    IsForce (ι := Option (Fin n)) (fun r => bathPot (mkBath p n) p.coup (r none) (fun i => r (some i)))
      (fun o => o.elim (bathFq (mkBath p n) p.coup q x) (bathFx (mkBath p n) p.coup q x))
      (fun o => o.elim q x) := by
  by_cases h : 0 < p.wc
  · refine bath_force _ _ (fun i => ?_) q x
    simp only [mkBath, if_pos h]
    exact mul_ne_zero hm (pow_ne_zero 2 (omega_pos p h n i).ne')
  · intro γ v h0 hv
    have hoff : (mkBath p n).on = false := by simp [mkBath, h]
    simp only [bathPot, bathFq, hoff]
    refine (hasDerivAt_const (0 : ℝ) (0 : ℝ)).congr_deriv ?_
    simp [Fintype.sum_option, bathFx, hoff]

/-- With a bath that can be called the double well gives an energy and the forces that belong to it. -/
theorem dw_bath_partial (w : DW) (p : BathPar) (hm : p.m ≠ 0) (q : ℝ) (xs : List ℝ) :
    ∃ (V : (Option (Fin xs.length) → ℝ) → ℝ) (f : Option (Fin xs.length) → ℝ),
      dwBath 1 dwKeys ("__call__" :: bathMethods) w p (q :: xs)
        = .ok (V (fun o => o.elim q xs.get), f none :: List.ofFn fun i => f (some i)) ∧
      (∀ r, V r = bathPot (mkBath p xs.length) p.coup (r none) (fun i => r (some i)) + w.pot (r none)) ∧
      IsForce V f (fun o => o.elim q xs.get) := by
  refine ⟨fun r => bathPot (mkBath p xs.length) p.coup (r none) (fun i => r (some i)) + w.pot (r none),
    fun o => o.elim (bathFq (mkBath p xs.length) p.coup q xs.get + w.force q)
      (bathFx (mkBath p xs.length) p.coup q xs.get), rfl, fun r => rfl, ?_⟩
  intro γ v h0 hv
  have h1 := bath_force_any p hm xs.length q xs.get γ v h0 hv
  have h2 := well_force w (hv none)
  have hq : γ 0 none = q := by rw [h0]; rfl
  rw [hq] at h2
  refine (h1.add h2).congr_deriv ?_
  simp only [Fintype.sum_option, Option.elim]
  ring

/-- The same for the two coupled wells, with parameters that the bath knows.  The first bath has the
coordinates after the first two, the second bath the last ones. -/
theorem ddw_partial (w1 w2 : DW) (C : ℝ) (p : BathPar) (hm : p.m ≠ 0) {n : ℕ} (q1 q2 : ℝ) (x y : Fin n → ℝ) :
    ddw 1 dwKeys ("__call__" :: bathMethods) w1 w2 C p ([q1, q2] ++ (List.ofFn x ++ List.ofFn y))
      = .ok (ddwPot (mkBath p n) p.coup w1 w2 C q1 q2 x y,
        [ddwF1 (mkBath p n) p.coup w1 C q1 q2 x, ddwF2 (mkBath p n) p.coup w2 C q1 q2 y]
          ++ (List.ofFn (bathFx (mkBath p n) p.coup q1 x) ++ List.ofFn (bathFx (mkBath p n) p.coup q2 y))) ∧
    IsForce (ι := Option (Fin n) ⊕ Option (Fin n))
      (fun r => ddwPot (mkBath p n) p.coup w1 w2 C (r (.inl none)) (r (.inr none))
        (fun i => r (.inl (some i))) (fun i => r (.inr (some i))))
      (Sum.elim (fun o => o.elim (ddwF1 (mkBath p n) p.coup w1 C q1 q2 x) (bathFx (mkBath p n) p.coup q1 x))
        (fun o => o.elim (ddwF2 (mkBath p n) p.coup w2 C q1 q2 y) (bathFx (mkBath p n) p.coup q2 y)))
      (Sum.elim (fun o => o.elim q1 x) (fun o => o.elim q2 y)) := by
  constructor
  · have hlen : ([q1, q2] ++ (List.ofFn x ++ List.ofFn y)).length = 2 * n + 2 := by
      simp
      omega
    have hn : (([q1, q2] ++ (List.ofFn x ++ List.ofFn y)).length - 2) / 2 = n := by
      rw [hlen]
      omega
    have hx : ∀ i : Fin n, ([q1, q2] ++ (List.ofFn x ++ List.ofFn y)).getD (2 + i) 0 = x i := by
      intro i
      rw [List.getD_eq_getElem?_getD, List.getElem?_append_right (by simp),
        List.getElem?_append_left (by simp)]
      simp
    have hy : ∀ i : Fin n, ([q1, q2] ++ (List.ofFn x ++ List.ofFn y)).getD ((2 * n + 2) / 2 + 1 + i) 0 = y i := by
      intro i
      rw [List.getD_eq_getElem?_getD, List.getElem?_append_right (by simp; omega),
        List.getElem?_append_right (by simp; omega)]
      have : (2 * n + 2) / 2 + 1 + (i : ℕ) - [q1, q2].length - (List.ofFn x).length = i := by
        simp
        omega
      rw [this]
      simp
    unfold ddw
    rw [if_neg (by rw [hlen]; omega)]
    have hc : construct 1 dwKeys = .ok () := rfl
    have hcall : callObject ("__call__" :: bathMethods) = .ok () := rfl
    rw [hc, hcall]
    dsimp only
    have key : ∀ k, k = n → ∀ (X Y : Fin k → ℝ) (X' Y' : Fin n → ℝ) , (∀ (i : ℕ) (h : i < k) (h' : i < n), X ⟨i, h⟩ = X' ⟨i, h'⟩) →
        (∀ (i : ℕ) (h : i < k) (h' : i < n), Y ⟨i, h⟩ = Y' ⟨i, h'⟩) →
        (Except.ok (ddwPot (mkBath p k) p.coup w1 w2 C q1 q2 X Y,
          [ddwF1 (mkBath p k) p.coup w1 C q1 q2 X, ddwF2 (mkBath p k) p.coup w2 C q1 q2 Y]
            ++ (List.ofFn (bathFx (mkBath p k) p.coup q1 X) ++ List.ofFn (bathFx (mkBath p k) p.coup q2 Y)))
          : Except BathErr (ℝ × List ℝ))
        = .ok (ddwPot (mkBath p n) p.coup w1 w2 C q1 q2 X' Y',
          [ddwF1 (mkBath p n) p.coup w1 C q1 q2 X', ddwF2 (mkBath p n) p.coup w2 C q1 q2 Y']
            ++ (List.ofFn (bathFx (mkBath p n) p.coup q1 X') ++ List.ofFn (bathFx (mkBath p n) p.coup q2 Y'))) := by
      intro k hk X Y X' Y' hX hY
      subst hk
      have e1 : X = X' := funext fun i => hX i i.2 i.2
      have e2 : Y = Y' := funext fun i => hY i i.2 i.2
      rw [e1, e2]
    refine key _ hn _ _ _ _ (fun i h h' => hx ⟨i, h'⟩) (fun i h h' => ?_)
    have := hy ⟨i, h'⟩
    rw [← hlen] at this
    exact this
  · intro γ v h0 hv
    have hq1 : γ 0 (.inl none) = q1 := by rw [h0]; rfl
    have hq2 : γ 0 (.inr none) = q2 := by rw [h0]; rfl
    have b1 := bath_force_any p hm n q1 x (fun t o => γ t (.inl o)) (fun o => v (.inl o))
      (by funext o; rw [h0]; rfl) (fun o => hv _)
    have b2 := bath_force_any p hm n q2 y (fun t o => γ t (.inr o)) (fun o => v (.inr o))
      (by funext o; rw [h0]; rfl) (fun o => hv _)
    have d1 := well_force w1 (hv (.inl none))
    have d2 := well_force w2 (hv (.inr none))
    have dc := ((hv (.inl none)).const_mul C).mul (hv (.inr none))
    rw [hq1] at d1
    rw [hq2] at d2
    rw [hq1, hq2] at dc
    refine ((((b1.add b2).add d1).add d2).add dc).congr_deriv ?_
    simp only [Fintype.sum_sum_type, Fintype.sum_option, Option.elim, Sum.elim_inl, Sum.elim_inr, ddwF1, ddwF2]
    ring

/-- **Disagreement (C187).** The coupling of the two wells is the product of the coordinates, not its
square as documented. -/
theorem coupling_not_square : ∃ (w : DW) (p : BathPar) (C q1 q2 : ℝ),
    ddwPot (mkBath p 0) p.coup w w C q1 q2 Fin.elim0 Fin.elim0 ≠ w.pot q1 + w.pot q2 + C * (q1 * q2) ^ 2 := by
  refine ⟨⟨0, 0, 0⟩, ⟨1, 0, ⟨0, 0, 1⟩, 0⟩, 1, 2, 1, ?_⟩
  simp [ddwPot, bathPot, mkBath, DW.pot]
  norm_num

/-- The well is as high as the barrier that is asked for: with no shift its minima lie at the energy
minus `v`. -/
theorem well_depth (m w v : ℝ) (hm : 0 < m) (hw : 0 < w) (hv : 0 < v) :
    (∀ q, -v ≤ (DW.make m w v 0).pot q) ∧ (DW.make m w v 0).pot 0 = 0 ∧
      (DW.make m w v 0).pot (√(4 * v / (m * w ^ 2))) = -v := by
  refine ⟨fun q => ?_, by simp [DW.pot, DW.make], ?_⟩
  · have e : (DW.make m w v 0).pot q + v = (m * w ^ 2 * q ^ 2 - 4 * v) ^ 2 / (16 * v) := by
      unfold DW.make DW.pot
      dsimp only
      field_simp
      norm_num
      ring
    have : 0 ≤ (m * w ^ 2 * q ^ 2 - 4 * v) ^ 2 / (16 * v) := by positivity
    linarith
  · have hs : √(4 * v / (m * w ^ 2)) ^ 2 = 4 * v / (m * w ^ 2) := Real.sq_sqrt (by positivity)
    have h4 : √(4 * v / (m * w ^ 2)) ^ 4 = (4 * v / (m * w ^ 2)) ^ 2 := by
      calc √(4 * v / (m * w ^ 2)) ^ 4 = (√(4 * v / (m * w ^ 2)) ^ 2) ^ 2 := by ring
        _ = _ := by rw [hs]
    unfold DW.make DW.pot
    dsimp only
    rw [sub_zero, hs, h4]
    field_simp
    norm_num

/-- A bath of one mode that is on. -/
example : (mkBath ⟨1, 1, ⟨0, 0, 1⟩, 1⟩ 1).on = true ∧ 0 < bathOmega ⟨1, 1, ⟨0, 0, 1⟩, 1⟩ 1 0 :=
  ⟨by simp [mkBath], omega_pos _ (by norm_num) _ _⟩

end Verif.Pes
