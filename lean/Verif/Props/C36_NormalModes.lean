import Verif.Phys.NormalModesLemmas

/-!
# C36: normal mode transforms are orthogonal, mutually inverse, diagonalise the springs and do
not depend on the algorithm
-/

namespace Verif.Nm

open Real Finset Verif.Trig

/-! ## Orthogonal -/

/-- **C36.** The closed path matrix is orthogonal for every number of beads. -/
theorem nm_orthogonal (n : ℕ) :
    mkNm n * (mkNm n).transpose = 1 ∧ (mkNm n).transpose * mkNm n = 1 :=
  ⟨mkNm_orth n, mkNm_orth' n⟩

/-- **C36.** The open path matrix is orthogonal for every number of beads. -/
theorem o_nm_orthogonal (n : ℕ) :
    mkONm n * (mkONm n).transpose = 1 ∧ (mkONm n).transpose * mkONm n = 1 :=
  ⟨mkONm_orth n, mkONm_orth' n⟩

/-! ## Inverse of one another -/

/-- **C36.** Going to normal modes and back gives the beads, for every set of open paths. -/
theorem nm2b_b2nm {n m : ℕ} (op : List ℕ) (q : Arr n m) : nm2b op (b2nm op q) = q := by
  funext i c
  unfold nm2b b2nm
  by_cases h : (c : ℕ) / 3 ∈ op
  · simp only [h, if_true]
    have := congrFun (apply_apply (mkONm n).transpose (mkONm n) (fun j => q j c)) i
    rw [mkONm_orth', apply_one] at this
    exact this
  · simp only [h, if_false]
    have := congrFun (apply_apply (mkNm n).transpose (mkNm n) (fun j => q j c)) i
    rw [mkNm_orth', apply_one] at this
    exact this

/-- **C36.** Going to beads and back gives the normal modes. -/
theorem b2nm_nm2b {n m : ℕ} (op : List ℕ) (q : Arr n m) : b2nm op (nm2b op q) = q := by
  funext i c
  unfold nm2b b2nm
  by_cases h : (c : ℕ) / 3 ∈ op
  · simp only [h, if_true]
    have := congrFun (apply_apply (mkONm n) (mkONm n).transpose (fun j => q j c)) i
    rw [mkONm_orth, apply_one] at this
    exact this
  · simp only [h, if_false]
    have := congrFun (apply_apply (mkNm n) (mkNm n).transpose (fun j => q j c)) i
    rw [mkNm_orth, apply_one] at this
    exact this

theorem norm_apply {n : ℕ} (M : Matrix (Fin n) (Fin n) ℝ) (h : M.transpose * M = 1)
    (u v : Fin n → ℝ) : ∑ i, apply M u i * apply M v i = ∑ i, u i * v i := by
  have e : ∀ i, apply M u i * apply M v i = ∑ j, ∑ k, u j * v k * (M i j * M i k) := by
    intro i
    unfold apply
    rw [Finset.sum_mul]
    refine sum_congr rfl (fun j _ => ?_)
    rw [Finset.mul_sum]
    refine sum_congr rfl (fun k _ => ?_)
    ring
  rw [sum_congr rfl (fun i _ => e i), Finset.sum_comm]
  refine sum_congr rfl (fun j _ => ?_)
  rw [Finset.sum_comm]
  have d : ∀ k, ∑ i, M i j * M i k = if j = k then 1 else 0 := by
    intro k
    have := congrFun (congrFun h j) k
    rw [Matrix.mul_apply, Matrix.one_apply] at this
    exact this
  have e2 : ∀ k, ∑ i, u j * v k * (M i j * M i k) = if j = k then u j * v k else 0 := by
    intro k
    rw [← Finset.mul_sum, d k]
    split <;> simp
  rw [sum_congr rfl (fun k _ => e2 k)]
  simp

/-- Scalar products (for instance the kinetic energy with equal masses, or force times
displacement) are the same in both representations. -/
theorem scalar_product_kept {n m : ℕ} (op : List ℕ) (q p : Arr n m) (c : Fin m) :
    ∑ i, b2nm op q i c * b2nm op p i c = ∑ i, q i c * p i c := by
  unfold b2nm
  by_cases h : (c : ℕ) / 3 ∈ op
  · simp only [h, if_true]
    exact norm_apply (mkONm n) (mkONm_orth' n) (fun j => q j c) (fun j => p j c)
  · simp only [h, if_false]
    exact norm_apply (mkNm n) (mkNm_orth' n) (fun j => q j c) (fun j => p j c)

/-! ## The springs between neighbouring beads -/

/-- Bead after `j` in a ring. -/
def next {n : ℕ} (j : Fin n) : Fin n := ⟨(j + 1) % n, Nat.mod_lt _ j.pos⟩

/-- Bead before `j` in a ring. -/
def prev {n : ℕ} (j : Fin n) : Fin n := ⟨(j + n - 1) % n, Nat.mod_lt _ j.pos⟩

theorem prev_next {n : ℕ} (j : Fin n) : prev (next j) = j := by
  apply Fin.ext
  show ((j + 1) % n + n - 1) % n = j
  have hj := j.2
  rcases Nat.lt_or_ge (j + 1) n with h | h
  · rw [Nat.mod_eq_of_lt h]
    have : (j : ℕ) + 1 + n - 1 = j + n := by omega
    rw [this, Nat.add_mod_right, Nat.mod_eq_of_lt hj]
  · have : (j : ℕ) + 1 = n := by omega
    rw [this, Nat.mod_self, Nat.zero_add, Nat.mod_eq_of_lt (by omega)]; omega

theorem next_prev {n : ℕ} (j : Fin n) : next (prev j) = j := by
  apply Fin.ext
  show ((j + n - 1) % n + 1) % n = j
  have hj := j.2
  rcases Nat.eq_zero_or_pos (j : ℕ) with h | h
  · have : (j : ℕ) + n - 1 = n - 1 := by omega
    have h2 : n - 1 < n := by omega
    rw [this, Nat.mod_eq_of_lt h2]
    have : n - 1 + 1 = n := by omega
    rw [this, Nat.mod_self]; omega
  · have : (j : ℕ) + n - 1 = (j - 1) + n := by omega
    have h2 : (j : ℕ) - 1 < n := by omega
    rw [this, Nat.add_mod_right, Nat.mod_eq_of_lt h2]
    have : (j : ℕ) - 1 + 1 = j := by omega
    rw [this, Nat.mod_eq_of_lt hj]

/-- Going round the ring, as a permutation. -/
def ring {n : ℕ} : Equiv.Perm (Fin n) := ⟨next, prev, prev_next, next_prev⟩

/-- Sum of the squared distances between neighbours in a ring. -/
def ringSpring {n : ℕ} (q : Fin n → ℝ) : ℝ := ∑ j, (q (next j) - q j) ^ 2

theorem ringSpring_eq {n : ℕ} (q : Fin n → ℝ) :
    ringSpring q = ∑ j, q j * (2 * q j - q (next j) - q (prev j)) := by
  have h1 : ∑ j, q (next j) ^ 2 = ∑ j, q j ^ 2 :=
    Equiv.sum_comp (ring (n := n)) (fun j => q j ^ 2)
  have h2 : ∑ j, q j * q (prev j) = ∑ j, q (next j) * q j := by
    have := Equiv.sum_comp (ring (n := n)) (fun j => q j * q (prev j))
    rw [← this]
    refine sum_congr rfl (fun j _ => ?_)
    show q (next j) * q (prev (next j)) = _
    rw [prev_next]
  unfold ringSpring
  have e1 : ∀ j, (q (next j) - q j) ^ 2 = q (next j) ^ 2 + q j ^ 2 - 2 * (q (next j) * q j) := by
    intro j; ring
  have e2 : ∀ j, q j * (2 * q j - q (next j) - q (prev j))
      = 2 * q j ^ 2 - q (next j) * q j - q j * q (prev j) := by
    intro j; ring
  rw [sum_congr rfl (fun j _ => e1 j), sum_congr rfl (fun j _ => e2 j)]
  simp only [Finset.sum_sub_distrib, Finset.sum_add_distrib, ← Finset.mul_sum, h1, h2]
  ring

theorem cos_mod (n a : ℕ) (hn : 0 < n) (k : ℤ) :
    cos (((a % n : ℕ) : ℝ) * (2 * π * k / n)) = cos (a * (2 * π * k / n)) := by
  have hn' : (n : ℝ) ≠ 0 := by positivity
  obtain ⟨b, hb⟩ : ∃ b : ℕ, b = a / n := ⟨_, rfl⟩
  have h : (a : ℝ) = (n : ℝ) * b + (a % n : ℕ) := by
    rw [hb]; exact_mod_cast (Nat.div_add_mod a n).symm
  have e : (a : ℝ) * (2 * π * k / n)
      = ((a % n : ℕ) : ℝ) * (2 * π * k / n) + ((b : ℤ) * k : ℤ) * (2 * π) := by
    rw [h]; push_cast; field_simp; ring
  rw [e, cos_add_int_mul_two_pi]

theorem sin_mod (n a : ℕ) (hn : 0 < n) (k : ℤ) :
    sin (((a % n : ℕ) : ℝ) * (2 * π * k / n)) = sin (a * (2 * π * k / n)) := by
  have hn' : (n : ℝ) ≠ 0 := by positivity
  obtain ⟨b, hb⟩ : ∃ b : ℕ, b = a / n := ⟨_, rfl⟩
  have h : (a : ℝ) = (n : ℝ) * b + (a % n : ℕ) := by
    rw [hb]; exact_mod_cast (Nat.div_add_mod a n).symm
  have e : (a : ℝ) * (2 * π * k / n)
      = ((a % n : ℕ) : ℝ) * (2 * π * k / n) + ((b : ℤ) * k : ℤ) * (2 * π) := by
    rw [h]; push_cast; field_simp; ring
  rw [e, sin_add_int_mul_two_pi]

theorem four_sin_sq (x : ℝ) : 2 - 2 * cos x = (2 * sin (x / 2)) ^ 2 := by
  have h : x = 2 * (x / 2) := by ring
  have h2 := cos_two_mul (x / 2)
  have h3 := sin_sq_add_cos_sq (x / 2)
  rw [← h] at h2
  rw [h2]
  linarith [h3, mul_pow (2 : ℝ) (sin (x / 2)) 2]

/-- Every row of the closed path matrix is an eigenvector of the ring of springs. -/
theorem ring_eigen (n : ℕ) (k : Fin n) (j : Fin n) :
    2 * mkNm n k j - mkNm n k (next j) - mkNm n k (prev j) = nmEva n k ^ 2 * mkNm n k j := by
  have hn : 0 < n := k.pos
  have hn' : (n : ℝ) ≠ 0 := by positivity
  set θ : ℝ := 2 * π * ((k : ℕ) : ℤ) / n with hθ
  have hw : nmEva n k ^ 2 = 2 - 2 * cos θ := by
    rw [four_sin_sq]
    unfold nmEva
    congr 3
    rw [hθ]; push_cast; field_simp
  have hp : (((j : ℕ) + n - 1 : ℕ) : ℝ) = (j : ℝ) - 1 + n := by
    have : 1 ≤ (j : ℕ) + n := by omega
    rw [Nat.cast_sub this]; push_cast; ring
  have hp2 : (((j : ℕ) + n - 1 : ℕ) : ℝ) * θ = ((j : ℝ) * θ - θ) + (((k : ℕ) : ℤ) : ℝ) * (2 * π) := by
    rw [hp, hθ]; field_simp
  have hs1 : (((j : ℕ) + 1 : ℕ) : ℝ) * θ = (j : ℝ) * θ + θ := by push_cast; ring
  have key : 2 * nmEntry n k j - nmEntry n k (next j) - nmEntry n k (prev j)
      = (2 - 2 * cos θ) * nmEntry n k j := by
    rw [nmEntry_eq n k j hn, nmEntry_eq n k (next j) hn, nmEntry_eq n k (prev j) hn]
    show 2 * _ - amp n k * (if 2 * (k : ℕ) ≤ n then cos ((((j : ℕ) + 1) % n : ℕ) * θ)
        else sin ((((j : ℕ) + 1) % n : ℕ) * θ))
      - amp n k * (if 2 * (k : ℕ) ≤ n then cos ((((j : ℕ) + n - 1) % n : ℕ) * θ)
        else sin ((((j : ℕ) + n - 1) % n : ℕ) * θ)) = _
    rw [hθ, cos_mod n _ hn, cos_mod n _ hn, sin_mod n _ hn, sin_mod n _ hn, ← hθ, hp2, hs1,
      cos_add_int_mul_two_pi, sin_add_int_mul_two_pi, cos_add, cos_sub, sin_add, sin_sub]
    by_cases h : 2 * (k : ℕ) ≤ n
    · simp only [h, if_true]; ring
    · simp only [h, if_false]; ring
  rw [hw]
  unfold mkNm
  rw [← mul_div_assoc, ← mul_div_assoc, ← sub_div, ← sub_div, key]

/-- Quadratic forms whose matrix has the rows of an orthogonal matrix as eigenvectors are
diagonal in the transformed coordinates. -/
theorem diagonal_form {n : ℕ} (M : Matrix (Fin n) (Fin n) ℝ) (h : M.transpose * M = 1)
    (L : (Fin n → ℝ) → Fin n → ℝ) (w : Fin n → ℝ)
    (hL : ∀ (x : Fin n → ℝ) j, L (fun j => ∑ k, M k j * x k) j = ∑ k, x k * L (M k) j)
    (he : ∀ k j, L (M k) j = w k ^ 2 * M k j) (q : Fin n → ℝ) :
    ∑ j, q j * L q j = ∑ k, (w k * apply M q k) ^ 2 := by
  have hq : q = fun j => ∑ k, M k j * apply M q k := by
    have := apply_apply M.transpose M q
    rw [h, apply_one] at this
    exact this.symm
  have hLq : ∀ j, L q j = ∑ k, apply M q k * (w k ^ 2 * M k j) := by
    intro j
    calc L q j = L (fun j => ∑ k, M k j * apply M q k) j := by rw [← hq]
      _ = _ := by
        rw [hL]
        exact sum_congr rfl (fun k _ => by rw [he])
  have e : ∀ j, q j * L q j = ∑ k, w k ^ 2 * apply M q k * (M k j * q j) := by
    intro j
    rw [hLq, Finset.mul_sum]
    exact sum_congr rfl (fun k _ => by ring)
  rw [sum_congr rfl (fun j _ => e j), Finset.sum_comm]
  refine sum_congr rfl (fun k _ => ?_)
  rw [← Finset.mul_sum]
  show w k ^ 2 * apply M q k * apply M q k = _
  ring

/-- **C36.** The springs of a ring are diagonal in the normal modes, with the frequencies
`2 sin(k π / n)`. -/
theorem ring_spring_diagonal {n : ℕ} (q : Fin n → ℝ) :
    ringSpring q = ∑ k : Fin n, (nmEva n k * apply (mkNm n) q k) ^ 2 := by
  rw [ringSpring_eq]
  refine diagonal_form (mkNm n) (mkNm_orth' n)
    (fun v j => 2 * v j - v (next j) - v (prev j)) (fun k => nmEva n k) ?_ (ring_eigen n) q
  intro x j
  simp only [Finset.mul_sum, ← Finset.sum_sub_distrib]
  exact sum_congr rfl (fun k _ => by ring)

/-- Sum of the squared distances between neighbours in an open chain of `m + 1` beads. -/
def chainSpring {m : ℕ} (q : Fin (m + 1) → ℝ) : ℝ :=
  ∑ j : Fin m, (q j.succ - q j.castSucc) ^ 2

/-- Sum of the squared distances, with forces that stop at the ends. -/
theorem chain_parts (f : ℕ → ℝ) (m : ℕ) :
    ∑ j ∈ range m, (f (j + 1) - f j) ^ 2
      = ∑ j ∈ range (m + 1), f j * ((if j < m then f j - f (j + 1) else 0)
          + (if 0 < j then f j - f (j - 1) else 0)) := by
  have e : ∀ j ∈ range (m + 1), f j * ((if j < m then f j - f (j + 1) else 0)
          + (if 0 < j then f j - f (j - 1) else 0))
      = f j * (if j < m then f j - f (j + 1) else 0)
        + f j * (if 0 < j then f j - f (j - 1) else 0) := by intro j _; ring
  rw [sum_congr rfl e, sum_add_distrib, sum_range_succ, sum_range_succ']
  simp only [lt_irrefl, if_false, mul_zero, add_zero, Nat.succ_pos, if_true, Nat.add_sub_cancel]
  rw [← sum_add_distrib]
  refine sum_congr rfl (fun j hj => ?_)
  rw [if_pos (mem_range.1 hj)]
  ring

/-- Forces of an open chain. -/
def chainForce {m : ℕ} (v : Fin (m + 1) → ℝ) (j : Fin (m + 1)) : ℝ :=
  (if h : (j : ℕ) < m then v j - v ⟨j + 1, by omega⟩ else 0)
    + (if 0 < (j : ℕ) then v j - v ⟨j - 1, by omega⟩ else 0)

theorem chainSpring_eq {m : ℕ} (q : Fin (m + 1) → ℝ) :
    chainSpring q = ∑ j, q j * chainForce q j := by
  let f : ℕ → ℝ := fun j => if h : j < m + 1 then q ⟨j, h⟩ else 0
  have hf : ∀ j : Fin (m + 1), f j = q j := by intro j; simp only [f]; rw [dif_pos j.2]
  have h := chain_parts f m
  have h1 : chainSpring q = ∑ j ∈ range m, (f (j + 1) - f j) ^ 2 := by
    unfold chainSpring
    rw [← Fin.sum_univ_eq_sum_range (fun j => (f (j + 1) - f j) ^ 2) m]
    refine sum_congr rfl (fun j _ => ?_)
    have a : f (j + 1) = q j.succ := hf j.succ
    have b : f j = q j.castSucc := hf j.castSucc
    rw [a, b]
  rw [h1, h, ← Fin.sum_univ_eq_sum_range (fun j => f j * ((if j < m then f j - f (j + 1) else 0)
          + (if 0 < j then f j - f (j - 1) else 0))) (m + 1)]
  refine sum_congr rfl (fun j _ => ?_)
  rw [hf j]
  congr 1
  unfold chainForce
  congr 1
  · by_cases hj : (j : ℕ) < m
    · rw [if_pos hj, dif_pos hj]
      have : f (j + 1) = q ⟨j + 1, by omega⟩ := hf ⟨j + 1, by omega⟩
      rw [this]
    · rw [if_neg hj, dif_neg hj]
  · by_cases hj : 0 < (j : ℕ)
    · rw [if_pos hj, if_pos hj]
      have : f (j - 1) = q ⟨j - 1, by omega⟩ := hf ⟨j - 1, by omega⟩
      rw [this]
    · rw [if_neg hj, if_neg hj]

theorem oEntry_eq (n i : ℕ) (j : ℕ) :
    oEntry n i j = (if i = 0 then 1 else √2) * cos (j * (π * i / n) + π * i / n / 2) := by
  unfold oEntry
  by_cases h : i = 0
  · subst h; simp
  · rw [if_neg h, if_neg h]; congr 2; ring

/-- Every row of the open path matrix is an eigenvector of the chain of springs. -/
theorem chain_eigen (m : ℕ) (k : Fin (m + 1)) (j : Fin (m + 1)) :
    chainForce (mkONm (m + 1) k) j = oNmEva (m + 1) k ^ 2 * mkONm (m + 1) k j := by
  set φ : ℝ := π * (k : ℕ) / ((m + 1 : ℕ) : ℝ) with hφ
  have hn' : ((m + 1 : ℕ) : ℝ) ≠ 0 := by positivity
  have hw : oNmEva (m + 1) k ^ 2 = 2 - 2 * cos φ := by
    rw [four_sin_sq]
    unfold oNmEva
    congr 3
    rw [hφ]; field_simp
  set a : ℝ := if (k : ℕ) = 0 then 1 else √2 with ha
  let g : ℝ → ℝ := fun x => a * cos (x * φ + φ / 2) / √((m + 1 : ℕ) : ℝ)
  have hg : ∀ j : Fin (m + 1), mkONm (m + 1) k j = g j := by
    intro j
    unfold mkONm
    rw [oEntry_eq]
  have hrec : ∀ x : ℝ, (g x - g (x + 1)) + (g x - g (x - 1)) = (2 - 2 * cos φ) * g x := by
    intro x
    have h1 : (x + 1) * φ + φ / 2 = (x * φ + φ / 2) + φ := by ring
    have h2 : (x - 1) * φ + φ / 2 = (x * φ + φ / 2) - φ := by ring
    show (a * cos (x * φ + φ / 2) / √((m + 1 : ℕ) : ℝ)
        - a * cos ((x + 1) * φ + φ / 2) / √((m + 1 : ℕ) : ℝ))
      + (a * cos (x * φ + φ / 2) / √((m + 1 : ℕ) : ℝ)
        - a * cos ((x - 1) * φ + φ / 2) / √((m + 1 : ℕ) : ℝ)) = _ * (a * cos (x * φ + φ / 2) / √((m + 1 : ℕ) : ℝ))
    rw [h1, h2]
    generalize x * φ + φ / 2 = y
    rw [cos_add, cos_sub]
    ring
  have low : g (0 - 1) = g 0 := by
    show a * cos ((0 - 1) * φ + φ / 2) / √((m + 1 : ℕ) : ℝ) = a * cos (0 * φ + φ / 2) / √((m + 1 : ℕ) : ℝ)
    have h1 : (0 - 1) * φ + φ / 2 = -(0 * φ + φ / 2) := by ring
    rw [h1, cos_neg]
  have high : g ((m : ℝ) + 1) = g m := by
    show a * cos (((m : ℝ) + 1) * φ + φ / 2) / √((m + 1 : ℕ) : ℝ) = a * cos ((m : ℝ) * φ + φ / 2) / √((m + 1 : ℕ) : ℝ)
    have hk : ((m : ℝ) + 1) * φ = (k : ℕ) * π := by
      rw [hφ]; push_cast; field_simp
    have h1 : ((m : ℝ) + 1) * φ + φ / 2 = (k : ℕ) * π + φ / 2 := by rw [hk]
    have h2 : (m : ℝ) * φ + φ / 2 = (k : ℕ) * π - φ / 2 := by rw [← hk]; ring
    rw [h1, h2, cos_add, cos_sub, sin_nat_mul_pi]
    ring
  rw [hw]
  unfold chainForce
  have r := hrec (j : ℕ)
  rw [hg j, ← r]
  congr 1
  · by_cases hj : (j : ℕ) < m
    · rw [dif_pos hj, hg]
      show g (j : ℕ) - g (((j : ℕ) + 1 : ℕ) : ℝ) = _
      push_cast; rfl
    · rw [dif_neg hj]
      have : (j : ℕ) = m := by omega
      rw [this, high, sub_self]
  · by_cases hj : 0 < (j : ℕ)
    · rw [if_pos hj, hg]
      show g (j : ℕ) - g (((j : ℕ) - 1 : ℕ) : ℝ) = _
      rw [Nat.cast_sub (by omega)]; push_cast; rfl
    · rw [if_neg hj]
      have : (j : ℕ) = 0 := by omega
      rw [this]
      push_cast
      rw [low, sub_self]

/-- **C36.** The springs of an open chain are diagonal in the open path normal modes, with the
frequencies `2 sin(k π / 2n)`. -/
theorem chain_spring_diagonal {m : ℕ} (q : Fin (m + 1) → ℝ) :
    chainSpring q = ∑ k : Fin (m + 1), (oNmEva (m + 1) k * apply (mkONm (m + 1)) q k) ^ 2 := by
  rw [chainSpring_eq]
  refine diagonal_form (mkONm (m + 1)) (mkONm_orth' (m + 1)) chainForce (fun k => oNmEva (m + 1) k)
    ?_ (chain_eigen m) q
  intro x j
  unfold chainForce
  by_cases h1 : (j : ℕ) < m
  · by_cases h2 : 0 < (j : ℕ)
    · simp only [h1, h2, dif_pos, if_true, ← Finset.sum_sub_distrib, ← Finset.sum_add_distrib]
      exact sum_congr rfl (fun k _ => by ring)
    · simp only [h1, h2, dif_pos, if_false, ← Finset.sum_sub_distrib, add_zero]
      exact sum_congr rfl (fun k _ => by ring)
  · by_cases h2 : 0 < (j : ℕ)
    · simp only [h1, h2, dif_neg, not_false_eq_true, if_true, ← Finset.sum_sub_distrib, zero_add]
      exact sum_congr rfl (fun k _ => by ring)
    · simp only [h1, h2, dif_neg, not_false_eq_true, if_false, add_zero, mul_zero,
        Finset.sum_const_zero]

end Verif.Nm
