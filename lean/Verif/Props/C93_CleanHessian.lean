/-
C93: the Hessian computed row by row, and the modes left out of it.
-/
import Verif.Phys.Phonons
import Mathlib.Tactic.FieldSimp
import Mathlib.Tactic.Ring
import Mathlib.Tactic.Linarith
import Mathlib.Tactic.NormNum

namespace Verif.Phonon

open Matrix

/-! ### Rows -/

/-- **C93, the rows of the Hessian.**  When every bead has its own forces, linear up to terms
even in the displacement, row `j` holds the second derivatives of every bead, although all beads
are displaced at once. -/
theorem hessRow_exact {ι β : Type*} [Fintype ι] [DecidableEq ι] (gm : (β → Vec ι) → β → Vec ι)
    (x0 : β → Vec ι) (d : ℝ) (hd : d ≠ 0) (K : β → Matrix ι ι ℝ) (even : β → Vec ι → Vec ι)
    (he : ∀ b u, even b (-u) = even b u)
    (hg : ∀ (u : β → Vec ι) b, gm (fun b => x0 b + u b) b = even b (u b) + K b *ᵥ u b) (j : ι) (b : β)
    (k : ι) : hessRow gm x0 d j b k = K b k j := by
  have e1 : (fun (b : β) (i : ι) => if i = j then x0 b i + d else x0 b i)
      = fun b => x0 b + Pi.single j d := by
    funext b i
    by_cases h : i = j
    · subst h; simp
    · simp [h]
  have e2 : (fun (b : β) (i : ι) => if i = j then x0 b i - d else x0 b i)
      = fun b => x0 b + -Pi.single j d := by
    funext b i
    by_cases h : i = j
    · subst h; simp [sub_eq_add_neg]
    · simp [h]
  unfold hessRow
  rw [e1, e2, hg, hg fun _ => -Pi.single j d, he, mulVec_neg, mulVec_single]
  simp only [Pi.add_apply, Pi.neg_apply, Pi.smul_apply, MulOpposite.smul_eq_mul_unop,
    MulOpposite.unop_op, col_apply]
  field_simp
  ring

/-! ### Modes left out -/

/-- The wavenumber grows with the eigenvalue. -/
theorem wavenumber_mono {c : ℝ} (hc : 0 < c) {a b : ℝ} (h : a ≤ b) :
    wavenumber c a ≤ wavenumber c b := by
  unfold wavenumber
  refine div_le_div_of_nonneg_right ?_ hc.le
  rcases lt_trichotomy a 0 with ha | ha | ha
  · rcases lt_trichotomy b 0 with hb | hb | hb
    · simp only [sign_neg ha, sign_neg hb, SignType.coe_neg_one, abs_of_neg ha, abs_of_neg hb]
      have := Real.sqrt_le_sqrt (neg_le_neg h)
      linarith
    · simp only [sign_neg ha, hb, sign_zero, SignType.coe_neg_one, SignType.coe_zero, zero_mul]
      have := Real.sqrt_nonneg |a|
      linarith
    · simp only [sign_neg ha, sign_pos hb, SignType.coe_neg_one, SignType.coe_one]
      have h1 := Real.sqrt_nonneg |a|
      have h2 := Real.sqrt_nonneg |b|
      linarith
  · subst ha
    rcases h.eq_or_lt with hb | hb
    · rw [← hb]
    · simp only [sign_zero, sign_pos hb, SignType.coe_zero, SignType.coe_one, zero_mul, one_mul]
      exact Real.sqrt_nonneg _
  · have hb : 0 < b := ha.trans_le h
    simp only [sign_pos ha, sign_pos hb, SignType.coe_one, one_mul, abs_of_pos ha, abs_of_pos hb]
    exact Real.sqrt_le_sqrt h

/-- In a list whose earlier entries satisfy a predicate if a later one does, the entries which
satisfy it come first. -/
theorem split_down {β : Type*} (p : β → Bool) : ∀ l : List β,
    l.Pairwise (fun a b => p b = true → p a = true) →
      l.filter p = l.take (l.countP p) ∧ l.filter (fun x => !p x) = l.drop (l.countP p)
  | [], _ => by simp
  | a :: l, h => by
    obtain ⟨h1, h2⟩ := List.pairwise_cons.mp h
    obtain ⟨i1, i2⟩ := split_down p l h2
    by_cases ha : p a
    · rw [List.filter_cons_of_pos ha, List.countP_cons_of_pos ha, List.take_succ_cons,
        List.drop_succ_cons, List.filter_cons_of_neg (by simp [ha])]
      exact ⟨by rw [i1], i2⟩
    · have none : ∀ b ∈ l, ¬ p b = true := fun b hb hpb => ha (h1 b hb hpb)
      have c0 : l.countP p = 0 := List.countP_eq_zero.mpr none
      rw [List.filter_cons_of_neg ha, List.countP_cons_of_neg ha, c0, List.take_zero,
        List.drop_zero, List.filter_cons_of_pos (by simp [ha])]
      refine ⟨List.filter_eq_nil_iff.mpr none, ?_⟩
      rw [i2, c0, List.drop_zero]

/-- **C93, the modes which are left.**  If no frequency is imaginary and between 0.01 and 4
reciprocal centimetres, `clean_hessian` leaves out exactly the modes below 0.01 reciprocal
centimetres and keeps the others, with their eigenvectors and in their order. -/
theorem clean_exact_partial {β : Type*} (c : ℝ) (hc : 0 < c) (pairs : List (ℝ × β))
    (hs : pairs.Pairwise fun a b => a.1 ≤ b.1)
    (gap : ∀ p ∈ pairs, wavenumber c p.1 < -4 ∨ -(1 / 100) < wavenumber c p.1) :
    cleanPairs c pairs
      = pairs.filter fun p => open Classical in decide (1 / 100 ≤ |wavenumber c p.1|) := by
  classical
  let neg : ℝ × β → Bool := fun p => decide (wavenumber c p.1 < -4)
  let zero : ℝ × β → Bool := fun p => decide (|wavenumber c p.1| < 1 / 100)
  let low : ℝ × β → Bool := fun p => neg p || zero p
  have dneg : pairs.Pairwise (fun a b => neg b = true → neg a = true) := by
    refine hs.imp fun {a b} h hb => ?_
    simp only [neg, decide_eq_true_eq] at hb ⊢
    exact (wavenumber_mono hc h).trans_lt hb
  have dlow : pairs.Pairwise (fun a b => low b = true → low a = true) := by
    refine hs.imp_of_mem fun {a b} ha _ h hb => ?_
    simp only [low, neg, zero, Bool.or_eq_true, decide_eq_true_eq, abs_lt] at hb ⊢
    have m := wavenumber_mono hc h
    rcases gap a ha with g | g
    · exact Or.inl g
    · refine Or.inr ⟨g, ?_⟩
      rcases hb with hb | hb
      · linarith
      · linarith [hb.2]
  have count : pairs.countP low = pairs.countP neg + pairs.countP zero := by
    clear dneg dlow hs gap
    induction pairs with
    | nil => rfl
    | cons p l ih =>
      simp only [List.countP_cons, ih]
      by_cases h1 : wavenumber c p.1 < -4
      · have h2 : ¬ |wavenumber c p.1| < 1 / 100 := by
          rw [abs_lt]; rintro ⟨x, _⟩; linarith
        simp only [low, neg, zero, h1, h2, decide_true, decide_false, Bool.true_or,
          Bool.false_eq_true, if_true, if_false]
        omega
      · by_cases h2 : |wavenumber c p.1| < 1 / 100
        · simp only [low, neg, zero, h1, h2, decide_true, decide_false, Bool.or_true,
            Bool.false_eq_true, if_true, if_false]
          omega
        · simp only [low, neg, zero, h1, h2, decide_false, Bool.or_false,
            Bool.false_eq_true, if_false]
          omega
  have s1 := split_down neg pairs dneg
  have s2 := split_down low pairs dlow
  have whole : pairs = pairs.filter low ++ pairs.filter fun x => !low x := by
    rw [s2.1, s2.2, List.take_append_drop]
  have goal : (pairs.filter fun p => decide (1 / 100 ≤ |wavenumber c p.1|))
      = pairs.take (pairs.countP neg) ++ pairs.drop (pairs.countP neg + pairs.countP zero) := by
    conv_lhs => rw [whole]
    rw [List.filter_append, List.filter_filter, List.filter_filter, ← s1.1, ← count, ← s2.2]
    congr 1
    · refine List.filter_congr fun p _ => ?_
      simp only [low, neg, zero]
      by_cases h1 : wavenumber c p.1 < -4
      · have h2 : 1 / 100 ≤ |wavenumber c p.1| := by
          rw [le_abs]; right; linarith
        rw [one_div] at h2
        simp [h1, h2]
      · by_cases h2 : |wavenumber c p.1| < 1 / 100
        · simp [h1, h2]
        · simp [h1, h2]
    · refine List.filter_congr fun p _ => ?_
      simp only [low, neg, zero]
      by_cases h2 : |wavenumber c p.1| < 1 / 100
      · simp [h2]
      · have h3 : 1 / 100 ≤ |wavenumber c p.1| := not_lt.mp h2
        simp [h2, h3]
  rw [goal]
  unfold cleanPairs deleteRange
  simp only
  split
  · rfl
  · next h =>
    have z : pairs.countP zero = 0 := by
      have := not_lt.mp h
      exact Nat.le_zero.mp this
    rw [z, Nat.add_zero, List.take_append_drop]

/-- **C93, soft imaginary modes (disagreement).**  With one imaginary frequency between 0.01 and
4 reciprocal centimetres, it is left out and a zero mode is kept in its place. -/
theorem clean_drops_soft {β : Type*} (c : ℝ) (hc : 0 < c) (d : ℝ) (v z : β)
    (h1 : -4 ≤ wavenumber c d) (h2 : wavenumber c d ≤ -(1 / 100)) :
    cleanPairs c [(d, v), (0, z)] = [(0, z)] := by
  classical
  have w0 : wavenumber c 0 = 0 := by simp [wavenumber]
  have z1 : ¬ |wavenumber c d| < 1 / 100 := by
    rw [abs_lt]; rintro ⟨x, _⟩; linarith
  have z2 : ¬ wavenumber c d < -4 := not_lt.mpr h1
  have z3 : |wavenumber c 0| < 1 / 100 := by rw [w0]; norm_num
  have z4 : ¬ wavenumber c 0 < -4 := by rw [w0]; norm_num
  rw [one_div] at z1 z3
  unfold cleanPairs deleteRange
  simp [List.countP_cons, z1, z2, z3, z4]

/-- Such a frequency exists for every conversion constant. -/
example (c : ℝ) (hc : 0 < c) : ∃ d, wavenumber c d = -2 := by
  refine ⟨-(2 * c) ^ 2, ?_⟩
  have h : 0 < (2 * c) ^ 2 := by positivity
  have hn : -(2 * c) ^ 2 < 0 := by linarith
  unfold wavenumber
  rw [sign_neg hn, abs_neg, abs_of_pos h, Real.sqrt_sq (by linarith)]
  simp only [SignType.coe_neg_one]
  field_simp

/-- Ordered eigenvalues without a soft imaginary mode: one imaginary frequency, three zeros, one
vibration. -/
example : ∃ pairs : List (ℝ × Nat), pairs.length = 5 ∧
    (pairs.Pairwise fun a b => a.1 ≤ b.1) ∧
    ∀ p ∈ pairs, wavenumber 1 p.1 < -4 ∨ -(1 / 100) < wavenumber 1 p.1 := by
  refine ⟨[(-25, 0), (0, 1), (0, 2), (0, 3), (100, 4)], rfl, ?_, ?_⟩
  · simp; norm_num
  · have e : Real.sqrt 25 = 5 := by
      rw [show (25 : ℝ) = 5 ^ 2 by norm_num]; exact Real.sqrt_sq (by norm_num)
    have s0 : wavenumber 1 0 = 0 := by simp [wavenumber]
    have s1 : wavenumber 1 (-25) = -5 := by
      unfold wavenumber
      rw [sign_neg (by norm_num), abs_neg, abs_of_pos (by norm_num), e]
      norm_num
    have s2 : (0 : ℝ) ≤ wavenumber 1 100 := by
      unfold wavenumber
      rw [sign_pos (by norm_num)]
      simp
    intro p hp
    simp only [List.mem_cons, List.not_mem_nil, or_false] at hp
    rcases hp with rfl | rfl | rfl | rfl | rfl
    · left; rw [s1]; norm_num
    · right; rw [s0]; norm_num
    · right; rw [s0]; norm_num
    · right; rw [s0]; norm_num
    · right; linarith

end Verif.Phonon
