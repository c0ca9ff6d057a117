import Mathlib.Analysis.Calculus.Deriv.Add
import Mathlib.Analysis.Calculus.Deriv.Mul
import Mathlib.Analysis.SpecialFunctions.Trigonometric.Bounds
import Verif.Props.C36_Fft
import Verif.Phys.Contract

/-!
# C35: ring polymer contraction is consistent between positions and forces
-/

namespace Verif.Contract

open Real Finset Verif.Nm

/-! ## The mode that a mode of the contracted path comes from -/

/-- Mode `i` of the contracted path is taken from the mode `sel n1 n2 i` of the full path. -/
def sel (n1 n2 i : ℕ) : ℕ := if i ≤ n2 / 2 then i else n1 - n2 + i

theorem sel_lt {n1 n2 i : ℕ} (h : n2 < n1) (hi : i < n2) : sel n1 n2 i < n1 := by
  unfold sel; split <;> omega

theorem sel_inj {n1 n2 i k : ℕ} (h : n2 < n1) (e : sel n1 n2 i = sel n1 n2 k) : i = k := by
  unfold sel at e; split at e <;> split at e <;> omega

theorem red_eq {n1 n2 i j : ℕ} (h : n2 < n1) (hi : i < n2) (hj : j < n1) :
    red n1 n2 i j = if j = sel n1 n2 i then 1 else 0 := by
  unfold red sel
  by_cases h0 : n2 % 2 = 0 ∧ i = n2 / 2 ∧ j = n1 - n2 / 2
  · rw [if_pos h0]
    have a : i ≤ n2 / 2 := by omega
    rw [if_pos a, if_neg]
    omega
  · rw [if_neg h0]
    by_cases h1 : i = 0 ∧ j = 0
    · rw [if_pos h1]
      have a : i ≤ n2 / 2 := by omega
      rw [if_pos a, if_pos (by omega)]
    · rw [if_neg h1]
      by_cases h2 : (List.range' 1 (n2 / 2)).any
          (fun k => (i == k && j == k) || (i == n2 - k && j == n1 - k)) = true
      · rw [if_pos h2]
        obtain ⟨k, hk, hh⟩ := List.any_eq_true.1 h2
        simp only [Bool.or_eq_true, Bool.and_eq_true, beq_iff_eq] at hh
        rw [List.mem_range'_1] at hk
        rcases hh with hh | hh
        · have a : i ≤ n2 / 2 := by omega
          rw [if_pos a, if_pos (by omega)]
        · by_cases a : i ≤ n2 / 2
          · omega
          · rw [if_neg a, if_pos (by omega)]
      · rw [if_neg h2]
        by_cases a : i ≤ n2 / 2
        · rw [if_pos a]
          rw [if_neg]
          intro e
          apply h2
          exact List.any_eq_true.2 ⟨i, List.mem_range'_1.2 (by omega), by simp [e]⟩
        · rw [if_neg a, if_neg]
          intro e
          apply h2
          refine List.any_eq_true.2 ⟨n2 - i, List.mem_range'_1.2 (by omega), ?_⟩
          simp only [Bool.or_eq_true, Bool.and_eq_true, beq_iff_eq]
          right; omega

/-- The mode as an index. -/
def selF {n1 n2 : ℕ} (h : n2 < n1) (i : Fin n2) : Fin n1 := ⟨sel n1 n2 i, sel_lt h i.2⟩

theorem rsDown_eq (C : (n : ℕ) → Matrix (Fin n) (Fin n) ℝ) {n1 n2 : ℕ} (h : n2 < n1)
    (a : Fin n2) (b : Fin n1) :
    rsDown C n1 n2 a b = (∑ i, C n2 i a * C n1 (selF h i) b) * √((n2 : ℝ) / n1) := by
  unfold rsDown
  congr 1
  refine sum_congr rfl (fun i _ => ?_)
  rw [Matrix.transpose_apply]
  congr 1
  rw [Finset.sum_eq_single (selF h i)]
  · rw [red_eq h i.2 (selF h i).2]
    show (if sel n1 n2 i = sel n1 n2 i then (1 : ℝ) else 0) * _ = _
    rw [if_pos rfl, one_mul]
  · intro j _ hj
    rw [red_eq h i.2 j.2, if_neg, zero_mul]
    intro e
    exact hj (Fin.ext e)
  · intro hh; exact absurd (mem_univ _) hh

/-! ## What is needed of the normal mode matrices -/

/-- Orthogonal for every number of beads, and the first mode is the sum over the beads. -/
structure Modes (C : (n : ℕ) → Matrix (Fin n) (Fin n) ℝ) : Prop where
  orth : ∀ n, C n * (C n).transpose = 1
  orth' : ∀ n, (C n).transpose * C n = 1
  first : ∀ n (h : 0 < n) (j : Fin n), C n ⟨0, h⟩ j = 1 / √n

theorem modes_closed : Modes mkNm where
  orth := mkNm_orth
  orth' := mkNm_orth'
  first := by
    intro n h j
    unfold mkNm nmEntry
    simp only
    rw [if_neg (by omega), if_pos trivial]

theorem modes_open : Modes mkONm where
  orth := mkONm_orth
  orth' := mkONm_orth'
  first := by
    intro n h j
    unfold mkONm oEntry
    simp

section
variable {C : (n : ℕ) → Matrix (Fin n) (Fin n) ℝ}

theorem Modes.rows (hC : Modes C) {n : ℕ} (i k : Fin n) :
    ∑ j, C n i j * C n k j = if i = k then 1 else 0 := by
  have := congrFun (congrFun (hC.orth n) i) k
  rw [Matrix.mul_apply, Matrix.one_apply] at this
  exact this

theorem Modes.cols (hC : Modes C) {n : ℕ} (i k : Fin n) :
    ∑ j, C n j i * C n j k = if i = k then 1 else 0 := by
  have := congrFun (congrFun (hC.orth' n) i) k
  rw [Matrix.mul_apply, Matrix.one_apply] at this
  exact this

/-- The sum over the beads of a row: only the first mode has one. -/
theorem Modes.rowsum (hC : Modes C) {n : ℕ} (h : 0 < n) (i : Fin n) :
    ∑ j, C n i j = if (i : ℕ) = 0 then √n else 0 := by
  have hn' : (0 : ℝ) < n := by exact_mod_cast h
  have hs0 : √(n : ℝ) ≠ 0 := (Real.sqrt_pos.2 hn').ne'
  have hr := hC.rows i ⟨0, h⟩
  have e : ∀ j, C n i j * C n ⟨0, h⟩ j = C n i j / √n := by
    intro j; rw [hC.first n h j]; ring
  rw [sum_congr rfl (fun j _ => e j), ← Finset.sum_div] at hr
  have hz : (i = ⟨0, h⟩) ↔ (i : ℕ) = 0 := by
    constructor
    · intro e; rw [e]
    · intro e; exact Fin.ext e
  by_cases h0 : (i : ℕ) = 0
  · rw [if_pos h0]
    rw [if_pos (hz.2 h0)] at hr
    rw [div_eq_one_iff_eq hs0] at hr
    exact hr
  · rw [if_neg h0]
    rw [if_neg (fun e => h0 (hz.1 e))] at hr
    rcases div_eq_zero_iff.1 hr with hr | hr
    · exact hr
    · exact absurd hr hs0

/-- Contracting the expanded values gives them back. -/
theorem Modes.down_up (hC : Modes C) {n1 n2 : ℕ} (h : n2 < n1) (a c : Fin n2) :
    ∑ b, rsDown C n1 n2 a b * (rsDown C n1 n2 c b * ((n1 : ℝ) / n2)) = if a = c then 1 else 0 := by
  have h2 : 0 < n2 := a.pos
  have hn2 : (0 : ℝ) < n2 := by exact_mod_cast h2
  have hn1 : (0 : ℝ) < n1 := by exact_mod_cast (by omega : 0 < n1)
  have hs : √((n2 : ℝ) / n1) * √((n2 : ℝ) / n1) = n2 / n1 :=
    Real.mul_self_sqrt (div_pos hn2 hn1).le
  have e : ∀ b, rsDown C n1 n2 a b * (rsDown C n1 n2 c b * ((n1 : ℝ) / n2))
      = ∑ i, ∑ k, C n2 i a * C n2 k c * (C n1 (selF h i) b * C n1 (selF h k) b) := by
    intro b
    rw [rsDown_eq C h, rsDown_eq C h]
    have : ∀ x y s : ℝ, s * s = n2 / n1 → x * s * (y * s * ((n1 : ℝ) / n2)) = x * y := by
      intro x y s hs
      have : x * s * (y * s * ((n1 : ℝ) / n2)) = x * y * (s * s) * ((n1 : ℝ) / n2) := by ring
      rw [this, hs]
      field_simp
    rw [this _ _ _ hs, Finset.sum_mul]
    refine sum_congr rfl (fun i _ => ?_)
    rw [Finset.mul_sum]
    exact sum_congr rfl (fun k _ => by ring)
  rw [sum_congr rfl (fun b _ => e b), Finset.sum_comm]
  rw [← hC.cols a c]
  refine sum_congr rfl (fun i _ => ?_)
  rw [Finset.sum_comm, Finset.sum_eq_single i]
  · rw [← Finset.mul_sum, hC.rows, if_pos rfl, mul_one]
  · intro k _ hk
    rw [← Finset.mul_sum, hC.rows, if_neg, mul_zero]
    intro e
    exact hk (Fin.ext (sel_inj h (congrArg Fin.val e)).symm)
  · intro hh; exact absurd (mem_univ _) hh

/-- Contraction keeps the mean of the columns. -/
theorem Modes.down_colsum (hC : Modes C) {n1 n2 : ℕ} (h : n2 < n1) (h2 : 0 < n2) (b : Fin n1) :
    ∑ a, rsDown C n1 n2 a b = (n2 : ℝ) / n1 := by
  have hn2 : (0 : ℝ) < n2 := by exact_mod_cast h2
  have hn1 : (0 : ℝ) < n1 := by exact_mod_cast (by omega : 0 < n1)
  rw [sum_congr rfl (fun a _ => rsDown_eq C h a b), ← Finset.sum_mul, Finset.sum_comm]
  have e : ∀ i, ∑ a, C n2 i a * C n1 (selF h i) b
      = (if (i : ℕ) = 0 then √n2 else 0) * C n1 (selF h i) b := by
    intro i
    rw [← Finset.sum_mul, hC.rowsum h2]
  rw [sum_congr rfl (fun i _ => e i), Finset.sum_eq_single ⟨0, h2⟩]
  · rw [if_pos rfl]
    have : selF h ⟨0, h2⟩ = ⟨0, by omega⟩ := by
      apply Fin.ext; show sel n1 n2 0 = 0; unfold sel; simp
    rw [this, hC.first n1 (by omega) b, Real.sqrt_div hn2.le]
    have s1 : √(n1 : ℝ) * √n1 = n1 := Real.mul_self_sqrt hn1.le
    have s2 : √(n2 : ℝ) * √n2 = n2 := Real.mul_self_sqrt hn2.le
    rw [mul_one_div, div_mul_div_comm, s1, s2]
  · intro i _ hi
    rw [if_neg, zero_mul]
    intro e; exact hi (Fin.ext e)
  · intro hh; exact absurd (mem_univ _) hh

theorem Modes.down_rowsum (hC : Modes C) {n1 n2 : ℕ} (h : n2 < n1) (a : Fin n2) :
    ∑ b, rsDown C n1 n2 a b = 1 := by
  have h2 : 0 < n2 := a.pos
  have hn2 : (0 : ℝ) < n2 := by exact_mod_cast h2
  have hn1 : (0 : ℝ) < n1 := by exact_mod_cast (by omega : 0 < n1)
  rw [sum_congr rfl (fun b _ => rsDown_eq C h a b), ← Finset.sum_mul, Finset.sum_comm]
  have e : ∀ i, ∑ b, C n2 i a * C n1 (selF h i) b
      = C n2 i a * (if (sel n1 n2 i) = 0 then √n1 else 0) := by
    intro i
    rw [← Finset.mul_sum, hC.rowsum (by omega)]
    rfl
  rw [sum_congr rfl (fun i _ => e i), Finset.sum_eq_single ⟨0, h2⟩]
  · have : sel n1 n2 ((⟨0, h2⟩ : Fin n2) : ℕ) = 0 := by show sel n1 n2 0 = 0; unfold sel; simp
    rw [if_pos this, hC.first n2 h2 a, Real.sqrt_div hn2.le]
    have s1 : √(n1 : ℝ) ≠ 0 := (Real.sqrt_pos.2 hn1).ne'
    have s2 : √(n2 : ℝ) ≠ 0 := (Real.sqrt_pos.2 hn2).ne'
    field_simp
  · intro i _ hi
    rw [if_neg, mul_zero]
    intro e
    apply hi
    apply Fin.ext
    unfold sel at e
    show (i : ℕ) = 0
    split at e <;> omega
  · intro hh; exact absurd (mem_univ _) hh

/-! ### The matrices of `nm_rescale` -/

/-- Sums over the columns of the transformation of positions. -/
theorem Modes.fwd_colsum (hC : Modes C) {n1 n2 : ℕ} (h1 : 0 < n1) (h2 : 0 < n2) (b : Fin n1) :
    ∑ a, fwdMat C n1 n2 a b = (n2 : ℝ) / n1 := by
  have hn1 : (n1 : ℝ) ≠ 0 := by positivity
  have hn2 : (n2 : ℝ) ≠ 0 := by positivity
  unfold fwdMat mkRs
  by_cases he : n1 = n2
  · subst he
    simp only [if_true]
    rw [div_self hn1, Finset.sum_eq_single b]
    · rw [if_pos rfl]
    · intro a _ ha; rw [if_neg (fun e => ha (Fin.ext e))]
    · intro hh; exact absurd (mem_univ _) hh
  · by_cases hlt : n2 < n1
    · simp only [he, hlt, if_true, if_false]
      exact hC.down_colsum hlt h2 b
    · simp only [he, hlt, if_false]
      rw [← Finset.sum_mul, hC.down_rowsum (by omega) b, one_mul]

/-- Sums over the columns of the transformation of forces. -/
theorem Modes.bwd_colsum (hC : Modes C) {n1 n2 : ℕ} (h1 : 0 < n1) (h2 : 0 < n2) (b : Fin n2) :
    ∑ a, bwdMat C n1 n2 a b = (n1 : ℝ) / n2 := by
  have hn1 : (n1 : ℝ) ≠ 0 := by positivity
  have hn2 : (n2 : ℝ) ≠ 0 := by positivity
  unfold bwdMat mkRs
  rw [← Finset.sum_mul]
  by_cases he : n1 = n2
  · subst he
    simp only [if_true]
    rw [div_self hn1, mul_one, Finset.sum_eq_single b]
    · rw [if_pos rfl]
    · intro a _ ha; rw [if_neg (fun e => ha (Fin.ext e.symm))]
    · intro hh; exact absurd (mem_univ _) hh
  · by_cases hlt : n2 < n1
    · simp only [he, hlt, if_true, if_false]
      rw [hC.down_rowsum hlt b, one_mul]
    · simp only [he, hlt, if_false]
      rw [← Finset.sum_mul, hC.down_colsum (by omega) h1 b]
      field_simp

/-- Contraction undoes expansion, in whichever direction the number of beads grows. -/
theorem Modes.fwd_bwd (hC : Modes C) {n1 n2 : ℕ} (h : n2 < n1) (a c : Fin n2) :
    ∑ b, fwdMat C n1 n2 a b * bwdMat C n1 n2 b c = if a = c then 1 else 0 := by
  unfold fwdMat bwdMat mkRs
  have he : ¬ n1 = n2 := by omega
  simp only [he, h, if_true, if_false]
  exact hC.down_up h a c

theorem Modes.bwd_fwd (hC : Modes C) {n1 n2 : ℕ} (h : n1 < n2) (a c : Fin n1) :
    ∑ b, bwdMat C n1 n2 a b * fwdMat C n1 n2 b c = if a = c then 1 else 0 := by
  have h1 : 0 < n1 := a.pos
  have hn1 : (n1 : ℝ) ≠ 0 := by positivity
  have hn2 : (n2 : ℝ) ≠ 0 := by
    have : 0 < n2 := by omega
    positivity
  unfold fwdMat bwdMat mkRs
  have he : ¬ n1 = n2 := by omega
  have hlt : ¬ n2 < n1 := by omega
  simp only [he, hlt, if_false]
  rw [← hC.down_up h a c]
  refine sum_congr rfl (fun b _ => ?_)
  field_simp

end

/-! ## The theorems about the arrays -/

/-- The matrix used for the positions of a column. -/
theorem b1tob2_col {n1 n2 m : ℕ} (he : n1 ≠ n2) (op : List ℕ) (q : Arr n1 m) (c : Fin m) :
    ∃ C, Modes C ∧ (C = if (c : ℕ) / 3 ∈ op then mkONm else mkNm) ∧
      ∀ a, b1tob2 n2 op q a c = ∑ b, fwdMat C n1 n2 a b * q b c := by
  by_cases hc : (c : ℕ) / 3 ∈ op
  · refine ⟨mkONm, modes_open, by rw [if_pos hc], fun a => ?_⟩
    unfold b1tob2
    rw [dif_neg he, if_pos hc]; rfl
  · refine ⟨mkNm, modes_closed, by rw [if_neg hc], fun a => ?_⟩
    unfold b1tob2
    rw [dif_neg he, if_neg hc]; rfl

/-- The matrix used for the forces. -/
theorem b2tob1_col {n1 n2 m : ℕ} (he : n1 ≠ n2) (op : List ℕ) (f : Arr n2 m) (c : Fin m) :
    ∃ C, Modes C ∧ (C = if op ≠ [] then mkONm else mkNm) ∧
      ∀ a, b2tob1 n1 op f a c = ∑ b, bwdMat C n1 n2 a b * f b c := by
  by_cases hc : op ≠ []
  · refine ⟨mkONm, modes_open, by rw [if_pos hc], fun a => ?_⟩
    unfold b2tob1
    rw [dif_neg he, if_pos hc]; rfl
  · refine ⟨mkNm, modes_closed, by rw [if_neg hc], fun a => ?_⟩
    unfold b2tob1
    rw [dif_neg he, if_neg hc]; rfl

/-- **C35.** With equal numbers of beads nothing changes. -/
theorem same_beads {n m : ℕ} (op : List ℕ) (q : Arr n m) :
    b1tob2 n op q = q ∧ b2tob1 n op q = q := by
  constructor
  · funext a c; unfold b1tob2; rw [dif_pos rfl]; rfl
  · funext a c; unfold b2tob1; rw [dif_pos rfl]; rfl

/-- **C35.** The centroid of the contracted path is the centroid of the path, for all numbers
of beads and all sets of open paths. -/
theorem centroid_kept {n1 n2 m : ℕ} (h1 : 0 < n1) (h2 : 0 < n2) (op : List ℕ) (q : Arr n1 m)
    (c : Fin m) : (∑ a, b1tob2 n2 op q a c) / n2 = (∑ b, q b c) / n1 := by
  have hn1 : (n1 : ℝ) ≠ 0 := by positivity
  have hn2 : (n2 : ℝ) ≠ 0 := by positivity
  by_cases he : n1 = n2
  · subst he; rw [(same_beads op q).1]
  · obtain ⟨C, hC, -, hcol⟩ := b1tob2_col he op q c
    rw [sum_congr rfl (fun a _ => hcol a), Finset.sum_comm]
    have e : ∀ b, ∑ a, fwdMat C n1 n2 a b * q b c = (n2 : ℝ) / n1 * q b c := by
      intro b; rw [← Finset.sum_mul, hC.fwd_colsum h1 h2]
    rw [sum_congr rfl (fun b _ => e b), ← Finset.mul_sum]
    field_simp

/-- **C35.** The mean of the expanded force is the mean of the force. -/
theorem mean_force_kept {n1 n2 m : ℕ} (h1 : 0 < n1) (h2 : 0 < n2) (op : List ℕ) (f : Arr n2 m)
    (c : Fin m) : (∑ a, b2tob1 n1 op f a c) / n1 = (∑ b, f b c) / n2 := by
  have hn1 : (n1 : ℝ) ≠ 0 := by positivity
  have hn2 : (n2 : ℝ) ≠ 0 := by positivity
  by_cases he : n1 = n2
  · subst he; rw [(same_beads op f).2]
  · obtain ⟨C, hC, -, hcol⟩ := b2tob1_col he op f c
    rw [sum_congr rfl (fun a _ => hcol a), Finset.sum_comm]
    have e : ∀ b, ∑ a, bwdMat C n1 n2 a b * f b c = (n1 : ℝ) / n2 * f b c := by
      intro b; rw [← Finset.sum_mul, hC.bwd_colsum h1 h2]
    rw [sum_congr rfl (fun b _ => e b), ← Finset.mul_sum]
    field_simp

/-- The same for one number per bead: the total potential is `n1 / n2` times the sum over the
contracted path. -/
theorem total_potential {n1 n2 : ℕ} (h1 : 0 < n1) (h2 : 0 < n2) (v : Fin n2 → ℝ) :
    ∑ a, b2tob1One n1 v a = (n1 : ℝ) / n2 * ∑ b, v b := by
  have hn1 : (n1 : ℝ) ≠ 0 := by positivity
  by_cases he : n1 = n2
  · subst he
    rw [div_self hn1, one_mul]
    refine sum_congr rfl (fun a _ => ?_)
    unfold b2tob1One; rw [dif_pos rfl]; rfl
  · have hcol : ∀ a, b2tob1One n1 v a = ∑ b, bwdMat mkNm n1 n2 a b * v b := by
      intro a; unfold b2tob1One; rw [dif_neg he]; rfl
    rw [sum_congr rfl (fun a _ => hcol a), Finset.sum_comm, Finset.mul_sum]
    refine sum_congr rfl (fun b _ => ?_)
    rw [← Finset.sum_mul, modes_closed.bwd_colsum h1 h2]

/-- Positions and forces of a column are transformed with the same kind of matrix. -/
def Matched (op : List ℕ) {m : ℕ} (c : Fin m) : Prop := op = [] ∨ (c : ℕ) / 3 ∈ op

theorem matched_eq {op : List ℕ} {m : ℕ} {c : Fin m} (h : Matched op c) :
    (if (c : ℕ) / 3 ∈ op then mkONm else mkNm) = (if op ≠ [] then mkONm else mkNm) := by
  rcases h with h | h
  · subst h; simp
  · rw [if_pos h, if_pos]
    intro e; rw [e] at h; cases h

/-- **C35.** Contraction undoes expansion; a column of a system without open paths, or of an
open atom. -/
theorem contract_expand_partial {n1 n2 m : ℕ} (h : n2 ≤ n1) (op : List ℕ) (f : Arr n2 m)
    (c : Fin m) (hm : Matched op c) (a : Fin n2) :
    b1tob2 n2 op (b2tob1 n1 op f) a c = f a c := by
  by_cases he : n1 = n2
  · subst he; rw [(same_beads op f).2, (same_beads op f).1]
  · obtain ⟨C, hC, hCe, hcol⟩ := b1tob2_col he op (b2tob1 n1 op f) c
    obtain ⟨D, -, hDe, hcol'⟩ := b2tob1_col he op f c
    have hCD : C = D := by rw [hCe, hDe, matched_eq hm]
    subst hCD
    rw [hcol]
    have e : ∀ b, fwdMat C n1 n2 a b * b2tob1 n1 op f b c
        = ∑ k, fwdMat C n1 n2 a b * bwdMat C n1 n2 b k * f k c := by
      intro b; rw [hcol', Finset.mul_sum]
      exact sum_congr rfl (fun k _ => by ring)
    rw [sum_congr rfl (fun b _ => e b), Finset.sum_comm]
    have e2 : ∀ k, ∑ b, fwdMat C n1 n2 a b * bwdMat C n1 n2 b k * f k c
        = if a = k then f k c else 0 := by
      intro k
      rw [← Finset.sum_mul, hC.fwd_bwd (by omega)]
      split <;> simp
    rw [sum_congr rfl (fun k _ => e2 k)]
    simp

/-- The other direction: expanding a path to more beads and going back. -/
theorem expand_contract_partial {n1 n2 m : ℕ} (h : n1 ≤ n2) (op : List ℕ) (q : Arr n1 m)
    (c : Fin m) (hm : Matched op c) (a : Fin n1) :
    b2tob1 n1 op (b1tob2 n2 op q) a c = q a c := by
  by_cases he : n1 = n2
  · subst he; rw [(same_beads op q).1, (same_beads op q).2]
  · obtain ⟨D, -, hDe, hcol'⟩ := b2tob1_col he op (b1tob2 n2 op q) c
    obtain ⟨C, hC, hCe, hcol⟩ := b1tob2_col he op q c
    have hCD : C = D := by rw [hCe, hDe, matched_eq hm]
    subst hCD
    rw [hcol']
    have e : ∀ b, bwdMat C n1 n2 a b * b1tob2 n2 op q b c
        = ∑ k, bwdMat C n1 n2 a b * fwdMat C n1 n2 b k * q k c := by
      intro b; rw [hcol, Finset.mul_sum]
      exact sum_congr rfl (fun k _ => by ring)
    rw [sum_congr rfl (fun b _ => e b), Finset.sum_comm]
    have e2 : ∀ k, ∑ b, bwdMat C n1 n2 a b * fwdMat C n1 n2 b k * q k c
        = if a = k then q k c else 0 := by
      intro k
      rw [← Finset.sum_mul, hC.bwd_fwd (by omega)]
      split <;> simp
    rw [sum_congr rfl (fun k _ => e2 k)]
    simp

/-- **C35.** Virtual work: the expanded force times a displacement of the path is `n1 / n2`
times the force times the displacement of the contracted path. -/
theorem virtual_work_partial {n1 n2 m : ℕ} (h1 : 0 < n1) (op : List ℕ) (f : Arr n2 m)
    (dq : Arr n1 m) (c : Fin m) (hm : Matched op c) :
    ∑ a, b2tob1 n1 op f a c * dq a c = (n1 : ℝ) / n2 * ∑ b, f b c * b1tob2 n2 op dq b c := by
  have hn1 : (n1 : ℝ) ≠ 0 := by positivity
  by_cases he : n1 = n2
  · subst he; rw [(same_beads op f).2, (same_beads op dq).1, div_self hn1, one_mul]
  · obtain ⟨C, hC, hCe, hcol⟩ := b1tob2_col he op dq c
    obtain ⟨D, -, hDe, hcol'⟩ := b2tob1_col he op f c
    have hCD : C = D := by rw [hCe, hDe, matched_eq hm]
    subst hCD
    have e : ∀ a, b2tob1 n1 op f a c * dq a c = ∑ b, bwdMat C n1 n2 a b * f b c * dq a c := by
      intro a; rw [hcol', Finset.sum_mul]
    rw [sum_congr rfl (fun a _ => e a), Finset.sum_comm, Finset.mul_sum]
    refine sum_congr rfl (fun b _ => ?_)
    rw [hcol, Finset.mul_sum, Finset.mul_sum]
    refine sum_congr rfl (fun a _ => ?_)
    unfold bwdMat fwdMat
    ring

/-- Contraction of a sum. -/
theorem b1tob2_line {n1 m : ℕ} (n2 : ℕ) (op : List ℕ) (q dq : Arr n1 m) (t : ℝ) (a : Fin n2)
    (c : Fin m) : b1tob2 n2 op (fun b c => q b c + t * dq b c) a c
      = b1tob2 n2 op q a c + t * b1tob2 n2 op dq a c := by
  unfold b1tob2
  by_cases he : n1 = n2
  · rw [dif_pos he, dif_pos he, dif_pos he]
  · rw [dif_neg he, dif_neg he, dif_neg he]
    unfold apply
    by_cases hc : (c : ℕ) / 3 ∈ op
    · rw [if_pos hc, if_pos hc, if_pos hc, Finset.mul_sum, ← Finset.sum_add_distrib]
      exact sum_congr rfl (fun b _ => by ring)
    · rw [if_neg hc, if_neg hc, if_neg hc, Finset.mul_sum, ← Finset.sum_add_distrib]
      exact sum_congr rfl (fun b _ => by ring)

/-- **C35.** The expanded force is minus the gradient of the total potential: if on each bead
of the contracted path the force field returns minus the derivative of its potential, then
along every displacement of the full path the derivative of the sum of the expanded potentials
is minus the expanded force times the displacement. -/
theorem force_is_gradient_partial {n1 n2 m : ℕ} (h1 : 0 < n1) (h2 : 0 < n2) (op : List ℕ)
    (hm : ∀ c : Fin m, Matched op c) (v : (Fin m → ℝ) → ℝ) (q dq : Arr n1 m) (f : Arr n2 m)
    (hf : ∀ b : Fin n2, HasDerivAt
      (fun t => v (fun c => b1tob2 n2 op q b c + t * b1tob2 n2 op dq b c))
      (- ∑ c, f b c * b1tob2 n2 op dq b c) 0) :
    HasDerivAt
      (fun t => ∑ a, b2tob1One n1
        (fun b : Fin n2 => v (b1tob2 n2 op (fun b c => q b c + t * dq b c) b)) a)
      (- ∑ c, ∑ a, b2tob1 n1 op f a c * dq a c) 0 := by
  have e : (fun t => ∑ a, b2tob1One n1
        (fun b : Fin n2 => v (b1tob2 n2 op (fun b c => q b c + t * dq b c) b)) a)
      = fun t => (n1 : ℝ) / n2 *
        ∑ b, v (fun c => b1tob2 n2 op q b c + t * b1tob2 n2 op dq b c) := by
    funext t
    rw [total_potential h1 h2]
    congr 1
    refine sum_congr rfl (fun b _ => ?_)
    congr 1
    funext c
    rw [b1tob2_line]
  rw [e]
  have hd := (HasDerivAt.fun_sum (u := Finset.univ) (fun b _ => hf b)).const_mul ((n1 : ℝ) / n2)
  refine HasDerivAt.congr_deriv hd ?_
  rw [sum_congr rfl (fun c _ => virtual_work_partial h1 op f dq c (hm c)), ← Finset.mul_sum,
    Finset.sum_comm, Finset.sum_neg_distrib, mul_neg]

/-! ## A system with open and closed paths -/

theorem open_row (j : Fin 3) : mkONm 3 1 j = √2 * cos (π * ((j : ℕ) + 1 / 2) * (1 : ℕ) / (3 : ℕ)) / √(3 : ℕ) := by
  show oEntry 3 1 j / √(3 : ℕ) = _
  unfold oEntry
  rw [if_neg (by decide)]

/-- A force on the two beads of the contracted path. -/
def wF : Arr 2 6 := fun b _ => if b = 0 then 1 else -1

/-- A displacement of the second of three beads. -/
def wQ : Arr 3 6 := fun a _ => if a = 1 then 1 else 0

theorem wF0 : wF 0 3 = 1 := by unfold wF; rw [if_pos rfl]
theorem wF1 : wF 1 3 = -1 := by unfold wF; rw [if_neg (by decide)]
theorem wQ0 : wQ 0 3 = 0 := by unfold wQ; rw [if_neg (by decide)]
theorem wQ1 : wQ 1 3 = 1 := by unfold wQ; rw [if_pos rfl]
theorem wQ2 : wQ 2 3 = 0 := by unfold wQ; rw [if_neg (by decide)]

/-- **Not C35.** With one open atom the force of a *closed* atom is expanded with the open path
matrix, while its position is contracted with the closed path matrix: two atoms, the first one
open, three beads contracted to two; the force on the closed atom does no work on a displacement
along which the contracted potential changes. -/
theorem mixed_paths_wrong :
    ∃ (f : Arr 2 6) (dq : Arr 3 6),
      ∑ a, b2tob1 3 [0] f a 3 * dq a 3 = 0 ∧
      ((3 : ℕ) : ℝ) / (2 : ℕ) * ∑ b, f b 3 * b1tob2 2 [0] dq b 3 ≠ 0 := by
  refine ⟨wF, wQ, ?_, ?_⟩
  · have e : ∀ a : Fin 3, b2tob1 3 [0] wF a 3
        = bwdMat mkONm 3 2 a 0 - bwdMat mkONm 3 2 a 1 := by
      intro a
      unfold b2tob1
      rw [dif_neg (by decide), if_pos (by simp)]
      unfold apply
      rw [Fin.sum_univ_two]
      show _ * wF 0 3 + _ * wF 1 3 = _
      rw [wF0, wF1]
      ring
    rw [Fin.sum_univ_three, e, e, e]
    rw [wQ0, wQ1, wQ2]
    have z : cos (π * (((1 : Fin 3) : ℕ) + 1 / 2) * (1 : ℕ) / (3 : ℕ)) = 0 := by
      have : π * ((((1 : Fin 3) : ℕ) : ℝ) + 1 / 2) * ((1 : ℕ) : ℝ) / ((3 : ℕ) : ℝ) = π / 2 := by
        have : (((1 : Fin 3) : ℕ) : ℝ) = 1 := by norm_num
        rw [this]; push_cast; ring
      rw [this, cos_pi_div_two]
    have r1 : mkONm 3 1 1 = 0 := by rw [open_row, z]; simp
    have k : bwdMat mkONm 3 2 1 0 - bwdMat mkONm 3 2 1 1 = 0 := by
      unfold bwdMat mkRs
      rw [if_neg (by decide), if_pos (by decide), if_neg (by decide), if_pos (by decide),
      rsDown_eq mkONm (by decide), rsDown_eq mkONm (by decide)]
      rw [Fin.sum_univ_two, Fin.sum_univ_two]
      have s0 : selF (n1 := 3) (n2 := 2) (by decide) 0 = 0 := by decide
      have s1 : selF (n1 := 3) (n2 := 2) (by decide) 1 = 1 := by decide
      rw [s0, s1, r1]
      have f0 : mkONm 2 0 0 = mkONm 2 0 1 := by
        show oEntry 2 0 0 / _ = oEntry 2 0 1 / _
        unfold oEntry; simp
      rw [f0]; ring
    rw [k]; ring
  · have e : ∀ b : Fin 2, b1tob2 2 [0] wQ b 3
        = fwdMat mkNm 3 2 b 1 := by
      intro b
      unfold b1tob2
      rw [dif_neg (by decide), if_neg (by decide)]
      unfold apply
      rw [Fin.sum_univ_three]
      show _ * wQ 0 3 + _ * wQ 1 3 + _ * wQ 2 3 = _
      rw [wQ0, wQ1, wQ2]
      ring
    rw [Fin.sum_univ_two, e, e, wF0, wF1]
    unfold fwdMat mkRs
    rw [if_neg (by decide), if_pos (by decide), if_neg (by decide), if_pos (by decide),
      rsDown_eq mkNm (by decide), rsDown_eq mkNm (by decide)]
    rw [Fin.sum_univ_two, Fin.sum_univ_two]
    have s0 : selF (n1 := 3) (n2 := 2) (by decide) 0 = 0 := by decide
    have s1 : selF (n1 := 3) (n2 := 2) (by decide) 1 = 1 := by decide
    rw [s0, s1]
    have f0 : mkNm 2 0 0 = 1 / √(2 : ℕ) := modes_closed.first 2 (by decide) 0
    have f1 : mkNm 2 0 1 = 1 / √(2 : ℕ) := modes_closed.first 2 (by decide) 1
    have g0 : mkNm 2 1 0 = 1 / √(2 : ℕ) := by
      show nmEntry 2 1 0 / _ = _
      unfold nmEntry; norm_num
    have g1 : mkNm 2 1 1 = -1 / √(2 : ℕ) := by
      show nmEntry 2 1 1 / _ = _
      unfold nmEntry; norm_num
    have c : cos (2 * π * (1 : ℕ) * (1 : ℕ) / (3 : ℕ)) = -1 / 2 := by
      have : 2 * π * ((1 : ℕ) : ℝ) * ((1 : ℕ) : ℝ) / ((3 : ℕ) : ℝ) = π - π / 3 := by
        push_cast; ring
      rw [this, cos_pi_sub, cos_pi_div_three]; ring
    have r1 : mkNm 3 1 1 = √2 * (-1 / 2) / √(3 : ℕ) := by
      show nmEntry 3 1 1 / _ = _
      unfold nmEntry
      rw [if_neg (by decide), if_neg (by decide), if_pos (by decide), c]
    rw [f0, f1, g0, g1, r1]
    have p2 : √((2 : ℕ) : ℝ) ≠ 0 := by positivity
    have p3 : √((3 : ℕ) : ℝ) ≠ 0 := by positivity
    have p23 : √(((2 : ℕ) : ℝ) / ((3 : ℕ) : ℝ)) ≠ 0 := by positivity
    have p2' : √(2 : ℝ) ≠ 0 := by positivity
    have key : ∀ x s a b c : ℝ, x / a * c = x / a * c → (1 * ((1 / a * b + 1 / a * (√2 * (-1 / 2) / c)) * s)
        + -1 * ((1 / a * b + -1 / a * (√2 * (-1 / 2) / c)) * s)) = - (√2 / a / c * s) := by
      intro x s a b c _; ring
    rw [key 0 _ _ _ _ rfl]
    have : -(√2 / √((2 : ℕ) : ℝ) / √((3 : ℕ) : ℝ) * √(((2 : ℕ) : ℝ) / ((3 : ℕ) : ℝ))) ≠ 0 := by
      rw [neg_ne_zero]
      exact mul_ne_zero (div_ne_zero (div_ne_zero p2' p2) p3) p23
    exact mul_ne_zero (by norm_num) this

/-! ## Which modes are kept -/

/-- A mode of the full path that the contracted path keeps. -/
def Kept (n1 n2 k : ℕ) : Prop := ∃ i < n2, sel n1 n2 i = k

/-- **C35, closed paths.** The contracted path keeps the slowest modes: the frequency of a kept
mode is not larger than the frequency of a mode that is dropped. -/
theorem slow_modes_kept {n1 n2 k l : ℕ} (h : n2 < n1) (hk : Kept n1 n2 k) (hl : l < n1)
    (hd : ¬ Kept n1 n2 l) : nmEva n1 k ≤ nmEva n1 l := by
  have hn : (0 : ℝ) < n1 := by exact_mod_cast (by omega : 0 < n1)
  have refl : ∀ x, x ≤ n1 → nmEva n1 x = nmEva n1 (n1 - x) := by
    intro x hx
    unfold nmEva
    have : ((n1 - x : ℕ) : ℝ) * π / n1 = π - x * π / n1 := by
      rw [Nat.cast_sub hx]; field_simp
    rw [this, sin_pi_sub]
  have mono : ∀ x y, x ≤ y → 2 * y ≤ n1 → nmEva n1 x ≤ nmEva n1 y := by
    intro x y hxy hy
    unfold nmEva
    have hx' : (x : ℝ) ≤ y := by exact_mod_cast hxy
    have hy' : (2 * y : ℝ) ≤ n1 := by exact_mod_cast hy
    have hpi := pi_pos
    apply mul_le_mul_of_nonneg_left _ (by norm_num)
    apply sin_le_sin_of_le_of_le_pi_div_two
    · have : 0 ≤ (x : ℝ) * π / n1 := by positivity
      linarith
    · rw [div_le_iff₀ hn]; nlinarith
    · apply div_le_div_of_nonneg_right _ hn.le
      nlinarith
  have hlo : n2 / 2 < l := by
    by_contra hc
    apply hd
    exact ⟨l, by
      by_contra h2
      have : n2 = 0 := by omega
      obtain ⟨i, hi, -⟩ := hk
      omega, by unfold sel; rw [if_pos (by omega)]⟩
  have hhi : l < n1 - n2 + (n2 / 2 + 1) := by
    by_contra hc
    apply hd
    refine ⟨l - (n1 - n2), by omega, ?_⟩
    unfold sel
    rw [if_neg (by omega)]; omega
  obtain ⟨i, hi, rfl⟩ := hk
  have hlow : ∀ x, x ≤ n2 / 2 → 2 * x ≤ n1 → nmEva n1 x ≤ nmEva n1 l := by
    intro x hx hx2
    rcases Nat.lt_or_ge n1 (2 * l) with h3 | h3
    · rw [refl l (by omega)]
      exact mono x (n1 - l) (by omega) (by omega)
    · exact mono x l (by omega) h3
  unfold sel
  by_cases hi2 : i ≤ n2 / 2
  · rw [if_pos hi2]
    exact hlow i hi2 (by omega)
  · rw [if_neg hi2, refl (n1 - n2 + i) (by omega)]
    exact hlow _ (by omega) (by omega)

/-- **Not so for open paths**: the same selection of modes is used although their frequencies
grow with the index, so that contracting four beads to three keeps the stiffest mode and drops
a slower one. -/
theorem open_keeps_stiffest :
    Kept 4 3 3 ∧ ¬ Kept 4 3 2 ∧ oNmEva 4 2 < oNmEva 4 3 := by
  refine ⟨⟨2, by decide, by decide⟩, ?_, ?_⟩
  · rintro ⟨i, hi, he⟩
    have : i = 0 ∨ i = 1 ∨ i = 2 := by omega
    rcases this with rfl | rfl | rfl <;> revert he <;> decide
  · unfold oNmEva
    have hpi := pi_pos
    apply mul_lt_mul_of_pos_left _ (by norm_num)
    apply sin_lt_sin_of_lt_of_le_pi_div_two
    · push_cast; linarith
    · push_cast; linarith
    · push_cast; linarith

/-- The hypotheses can be met: six beads contracted to three, closed or all open. -/
example : (3 : ℕ) < 6 ∧ Matched [] (0 : Fin 3) ∧ Matched [0] (2 : Fin 3) ∧ Kept 6 3 5 :=
  ⟨by decide, Or.inl rfl, Or.inr (by decide), ⟨2, by decide, by decide⟩⟩

end Verif.Contract
