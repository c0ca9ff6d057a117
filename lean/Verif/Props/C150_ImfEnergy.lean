import Verif.Phys.Vscf
import Mathlib.LinearAlgebra.Matrix.Charpoly.Basic
import Mathlib.LinearAlgebra.Matrix.Charpoly.Coeff
import Mathlib.LinearAlgebra.Matrix.NonsingularInverse
import Mathlib.Algebra.Polynomial.Roots
import Mathlib.Analysis.SpecialFunctions.Log.Deriv
import Mathlib.Analysis.SpecialFunctions.ExpDeriv
import Mathlib.Algebra.Field.GeomSum
import Mathlib.Tactic.FieldSimp
import Mathlib.Tactic.Ring
import Mathlib.Tactic.Linarith
import Mathlib.Tactic.NormNum

/-!
# C150: free energies of independent modes

The Hamiltonian, the energies from its levels, and the sums over modes.
-/

namespace Verif.Vscf

open Finset Matrix

/-! ## The Hamiltonian -/

/-- **C150.** The matrix is the harmonic one plus the matrix elements of the anharmonic potential. -/
theorem ham_eq {nb G : ℕ} (hw : ℝ) (psi : Fin nb → Fin G → ℝ) (vg : Fin G → ℝ) :
    ham hw psi vg = Matrix.diagonal (harLevels nb hw)
      + Matrix.of fun i j => ∑ g, psi i g * vg g * psi j g := by
  ext i j
  simp only [ham, half, Matrix.add_apply, Matrix.transpose_apply, Matrix.of_apply,
    Matrix.diagonal_apply, harLevels]
  have hsym : ∑ g, psi i g * psi j g * vg g = ∑ g, psi i g * vg g * psi j g :=
    Finset.sum_congr rfl fun g _ => by ring
  have hsym' : ∑ g, psi j g * psi i g * vg g = ∑ g, psi i g * vg g * psi j g :=
    Finset.sum_congr rfl fun g _ => by ring
  rw [hsym, hsym']
  generalize ∑ g, psi i g * vg g * psi j g = X
  rcases lt_trichotomy i j with h | h | h
  · rw [if_neg h.ne, if_pos h, if_neg h.ne', if_neg h.le.not_gt, if_neg h.ne]
    ring
  · subst h
    rw [if_pos rfl, if_pos rfl]
    ring
  · rw [if_neg h.ne', if_neg h.le.not_gt, if_neg h.ne, if_pos h, if_neg h.ne']

/-- **C150.** It is symmetric, as the diagonalisation needs. -/
theorem ham_symm {nb G : ℕ} (hw : ℝ) (psi : Fin nb → Fin G → ℝ) (vg : Fin G → ℝ) :
    (ham hw psi vg)ᵀ = ham hw psi vg := by
  unfold ham
  rw [Matrix.transpose_add, Matrix.transpose_transpose, add_comm]

/-- A diagonalisation: what `np.linalg.eigh` promises. -/
def Eigh {n : ℕ} (H : Matrix (Fin n) (Fin n) ℝ) (e : Fin n → ℝ) (U : Matrix (Fin n) (Fin n) ℝ) :
    Prop := Uᵀ * U = 1 ∧ H = U * Matrix.diagonal e * Uᵀ

/-- The levels of a diagonal matrix are its entries, in some order. -/
theorem eigh_diagonal {n : ℕ} {d e : Fin n → ℝ} {U : Matrix (Fin n) (Fin n) ℝ}
    (h : Eigh (Matrix.diagonal d) e U) (f : ℝ → ℝ) : ∑ i, f (e i) = ∑ i, f (d i) := by
  have hU : U * Uᵀ = 1 := mul_eq_one_comm.mp h.1
  have hc : (Matrix.diagonal d).charpoly = (Matrix.diagonal e).charpoly := by
    rw [h.2]
    let u : (Matrix (Fin n) (Fin n) ℝ)ˣ := ⟨U, Uᵀ, hU, h.1⟩
    have := Matrix.charpoly_units_conj u (Matrix.diagonal e)
    have hi : ((u : Matrix (Fin n) (Fin n) ℝ))⁻¹ = Uᵀ := Matrix.inv_eq_right_inv hU
    rwa [hi] at this
  rw [Matrix.charpoly_diagonal, Matrix.charpoly_diagonal] at hc
  have hr := congrArg Polynomial.roots hc
  have e1 : ∀ g : Fin n → ℝ, (∏ i, (Polynomial.X - Polynomial.C (g i))).roots
      = Finset.univ.val.map g := by
    intro g
    have : (∏ i, (Polynomial.X - Polynomial.C (g i)))
        = ((Finset.univ.val.map g).map fun a => Polynomial.X - Polynomial.C a).prod := by
      rw [Multiset.map_map]; rfl
    rw [this, Polynomial.roots_multiset_prod_X_sub_C]
  rw [e1, e1] at hr
  have := congrArg (fun m : Multiset ℝ => (m.map f).sum) hr
  simp only [Multiset.map_map] at this
  exact this.symm

/-- **C150.** Without anharmonicity the free and the internal energy are those of the harmonic levels,
whichever basis functions and diagonalisation are used: the correction of a harmonic mode is exactly
zero. -/
theorem harmonic_zero {nb G : ℕ} (hw T : ℝ) (psi : Fin nb → Fin G → ℝ) {e : Fin nb → ℝ}
    {U : Matrix (Fin nb) (Fin nb) ℝ} (h : Eigh (ham hw psi fun _ => 0) e U) :
    freeE T e = freeE T (harLevels nb hw) ∧ intE T e = intE T (harLevels nb hw) := by
  have h0 : ham hw psi (fun _ => 0) = Matrix.diagonal (harLevels nb hw) := by
    rw [ham_eq]
    ext i j
    simp
  rw [h0] at h
  constructor
  · unfold freeE
    rw [eigh_diagonal h fun x => Real.exp (-1 * x / T)]
  · unfold intE
    rw [eigh_diagonal h fun x => Real.exp (-1 * x / T),
      eigh_diagonal h fun x => x * Real.exp (-1 * x / T)]

/-- **C150.** The internal energy belongs to the free energy: it is the derivative of `A / T` with
respect to `1 / T`. -/
theorem gibbs_helmholtz {nb : ℕ} (hn : 0 < nb) (e : Fin nb → ℝ) (b : ℝ) (hb : b ≠ 0) :
    HasDerivAt (fun b => b * freeE (1 / b) e) (intE (1 / b) e) b := by
  have hpos : ∀ x : ℝ, 0 < ∑ i, Real.exp (-1 * e i * x) := by
    intro x
    have : Nonempty (Fin nb) := ⟨⟨0, hn⟩⟩
    exact Finset.sum_pos (fun i _ => Real.exp_pos _) Finset.univ_nonempty
  have h1 : HasDerivAt (fun b => ∑ i, Real.exp (-1 * e i * b))
      (∑ i, Real.exp (-1 * e i * b) * (-1 * e i)) b := by
    have : ∀ i ∈ (Finset.univ : Finset (Fin nb)), HasDerivAt (fun b => Real.exp (-1 * e i * b))
        (Real.exp (-1 * e i * b) * (-1 * e i)) b := by
      intro i _
      have := (hasDerivAt_id b).const_mul (-1 * e i)
      simpa using this.exp
    exact HasDerivAt.fun_sum this
  have h2 := (h1.log (hpos b).ne').neg
  have ev : (fun b => b * freeE (1 / b) e) =ᶠ[nhds b]
      fun b => -Real.log (∑ i, Real.exp (-1 * e i * b)) := by
    filter_upwards [IsOpen.mem_nhds isOpen_ne hb] with x hx
    simp only [freeE, one_div, div_inv_eq_mul]
    have : x ≠ 0 := hx
    field_simp
  refine (h2.congr_of_eventuallyEq ev).congr_deriv ?_
  simp only [intE, one_div, div_inv_eq_mul]
  rw [← neg_div]
  congr 1
  rw [← Finset.sum_neg_distrib]
  exact Finset.sum_congr rfl fun i _ => by ring

/-- **C150.** The harmonic free energy taken off has as many levels as the anharmonic one; what is
printed as the harmonic free energy is its limit: they differ by this term, which the basis decides. -/
theorem har_truncated (nb : ℕ) (hn : 0 < nb) {T w : ℝ} (hT : 0 < T) (hw : 0 < w) :
    freeE T (harLevels nb w) = harFree T w - T * Real.log (1 - Real.exp (-(nb * w) / T)) := by
  set x := Real.exp (-w / T) with hx
  have hx1 : x < 1 := by
    rw [hx, Real.exp_lt_one_iff]
    exact div_neg_of_neg_of_pos (by linarith) hT
  have hx0 : 0 < x := Real.exp_pos _
  have hxn : Real.exp (-(nb * w) / T) = x ^ nb := by
    rw [hx, ← Real.exp_nat_mul]
    congr 1
    ring
  have hxn1 : x ^ nb < 1 := pow_lt_one₀ hx0.le hx1 hn.ne'
  have hsum : ∑ i : Fin nb, Real.exp (-1 * harLevels nb w i / T)
      = Real.exp (-w / T / 2) * ((1 - x ^ nb) / (1 - x)) := by
    have e1 : ∀ i : Fin nb, Real.exp (-1 * harLevels nb w i / T)
        = Real.exp (-w / T / 2) * x ^ (i : ℕ) := by
      intro i
      rw [hx, ← Real.exp_nat_mul, ← Real.exp_add]
      congr 1
      unfold harLevels
      ring
    rw [Finset.sum_congr rfl fun i _ => e1 i, ← Finset.mul_sum,
      Fin.sum_univ_eq_sum_range (fun i => x ^ i) nb, geom_sum_eq hx1.ne]
    congr 1
    rw [← neg_sub (1 : ℝ), ← neg_sub (1 : ℝ) x, neg_div_neg_eq]
  unfold freeE harFree
  rw [hsum, hxn, ← hx, Real.log_mul (Real.exp_pos _).ne' (div_pos (by linarith) (by linarith)).ne',
    Real.log_exp, Real.log_div (by linarith) (by linarith)]
  field_simp
  ring

/-! ## Enlarging the basis -/

/-- **C150.** When the loop has enlarged the basis at least once, the free energy it gives differs from
that of the previous basis by less than the threshold. -/
theorem basis_converged {A : ℕ → ℝ} {den thr : ℝ} : ∀ {fuel n : ℕ} {prev : ℝ} {r : ℕ × ℝ},
    basisLoop A den thr fuel n prev = some r →
    ∃ k : ℕ, r = (n + 5 * k, A (n + 5 * k)) ∧
      (if k = 0 then |A n - prev| / den < thr
        else |A (n + 5 * k) - A (n + 5 * (k - 1))| / den < thr)
  | 0, _, _, _, h => by simp [basisLoop] at h
  | fuel + 1, n, prev, r, h => by
    rw [basisLoop] at h
    split at h
    · next hc =>
      simp only [Option.some.injEq] at h
      exact ⟨0, by simp [← h], by simpa using hc⟩
    · obtain ⟨k, hr, hk⟩ := basis_converged h
      refine ⟨k + 1, ?_, ?_⟩
      · rw [hr, show n + 5 + 5 * k = n + 5 * (k + 1) by ring]
      · rw [if_neg (Nat.succ_ne_zero k), show n + 5 * (k + 1) = n + 5 + 5 * k by ring]
        cases k with
        | zero => simpa using hk
        | succ k =>
          rw [if_neg (Nat.succ_ne_zero k)] at hk
          simp only [Nat.add_sub_cancel] at hk ⊢
          rw [show n + 5 * (k + 1) = n + 5 + 5 * k by ring]
          exact hk

/-- **C150, negated.** The first basis is accepted without comparison with another one whenever the
free energy itself is smaller than the threshold per degree of freedom, however far it is from
converged. -/
theorem first_accepted (A : ℕ → ℝ) {den thr : ℝ} (hd : 0 < den) (n fuel : ℕ)
    (h : |A n - tiny20| < thr * den) : basisLoop A den thr (fuel + 1) n tiny20 = some (n, A n) := by
  rw [basisLoop, if_pos (by rwa [div_lt_iff₀ hd])]

/-- There is at least one basis function, and never more than five less than asked for. -/
theorem first_basis_pos (nbasis : ℕ) : 1 ≤ firstBasis nbasis ∧ nbasis ≤ firstBasis nbasis + 5
    ∧ (1 ≤ nbasis → firstBasis nbasis ≤ nbasis) := by
  unfold firstBasis
  omega

/-- **C150, negated.** Reading the samples again gives another free energy than sampling them did: the
first basis is larger by five functions. -/
theorem reload_differs : ∃ (A : ℕ → ℝ) (r s : ℕ × ℝ),
    basisLoop A 1 1 1 (firstBasis 10) tiny20 = some r ∧
    basisLoop A 1 1 1 (firstBasisLoaded 10) tiny20 = some s ∧ r.1 = 5 ∧ s.1 = 10 ∧ r.2 ≠ s.2 := by
  have ht : |(1 / 2 : ℝ) - tiny20| < 1 * 1 := by
    unfold tiny20; rw [abs_lt]; constructor <;> norm_num
  have ht' : |(1 / 4 : ℝ) - tiny20| < 1 * 1 := by
    unfold tiny20; rw [abs_lt]; constructor <;> norm_num
  refine ⟨fun n => if n = 5 then 1 / 2 else 1 / 4, (5, 1 / 2), (10, 1 / 4), ?_, ?_, rfl, rfl,
    by norm_num⟩
  · rw [show firstBasis 10 = 5 from rfl, first_accepted _ one_pos _ _ (by simpa using ht)]
    simp
  · rw [show firstBasisLoaded 10 = 10 from rfl, first_accepted _ one_pos _ _ (by simpa using ht')]
    simp

/-! ## The sums over modes -/

/-- No imaginary modes, in increasing order. -/
structure Stable (d : ℕ) (w2 : ℕ → ℝ) : Prop where
  nonneg : ∀ i < d, 0 ≤ w2 i
  mono : ∀ i j, i ≤ j → j < d → w2 i ≤ w2 j

/-- Without imaginary modes the zero modes are the first ones. -/
theorem nzero_first {d : ℕ} {w2 : ℕ → ℝ} (h : Stable d w2) {i : ℕ} (hi : i < d) :
    i < nzero d w2 ↔ w2 i < wZero := by
  have habs : ∀ j < d, |w2 j| = w2 j := fun j hj => abs_of_nonneg (h.nonneg j hj)
  constructor
  · intro hlt
    by_contra hc
    have hsub : ((range d).filter fun j => |w2 j| < wZero) ⊆ range i := by
      intro j hj
      rw [mem_filter, mem_range] at hj
      rw [mem_range]
      by_contra hij
      rw [habs j hj.1] at hj
      exact hc (lt_of_le_of_lt (h.mono i j (by omega) hj.1) hj.2)
    have := card_le_card hsub
    rw [card_range] at this
    unfold nzero at hlt
    omega
  · intro hw
    have hsub : range (i + 1) ⊆ (range d).filter fun j => |w2 j| < wZero := by
      intro j hj
      rw [mem_range] at hj
      rw [mem_filter, mem_range, habs j (by omega)]
      exact ⟨by omega, lt_of_le_of_lt (h.mono j i (by omega) hi) hw⟩
    have := card_le_card hsub
    rw [card_range] at this
    unfold nzero
    omega

/-- Without imaginary modes a mode is passed over exactly if its frequency is below the limit. -/
theorem tiny_iff {d : ℕ} {w2 : ℕ → ℝ} (h : Stable d w2) {i : ℕ} (hi : i < d) :
    tiny (nzero d w2) w2 i = true ↔ Real.sqrt (w2 i) < wMin := by
  unfold tiny freq
  by_cases hz : i < nzero d w2
  · rw [if_pos hz]
    have h1 := (nzero_first h hi).mp hz
    have hz0 : (0 : ℝ) < wMin := by unfold wMin; norm_num
    have : Real.sqrt (w2 i) < wMin := by
      rw [Real.sqrt_lt' hz0]
      refine lt_trans h1 ?_
      unfold wZero wMin; norm_num
    simp [this, hz0]
  · rw [if_neg hz, if_neg (not_lt.mpr (h.nonneg i hi))]
    simp

/-- The number of modes whose frequency is below the limit. -/
noncomputable def nIgnored (d : ℕ) (w2 : ℕ → ℝ) : ℕ :=
  ((range d).filter fun i => Real.sqrt (w2 i) < wMin).card

theorem nIgnored_first {d : ℕ} {w2 : ℕ → ℝ} (h : Stable d w2) {i : ℕ} (hi : i < d) :
    i < nIgnored d w2 ↔ Real.sqrt (w2 i) < wMin := by
  constructor
  · intro hlt
    by_contra hc
    have hsub : ((range d).filter fun j => Real.sqrt (w2 j) < wMin) ⊆ range i := by
      intro j hj
      rw [mem_filter, mem_range] at hj
      rw [mem_range]
      by_contra hij
      exact hc (lt_of_le_of_lt (Real.sqrt_le_sqrt (h.mono i j (by omega) hj.1)) hj.2)
    have := card_le_card hsub
    rw [card_range] at this
    unfold nIgnored at hlt
    omega
  · intro hw
    have hsub : range (i + 1) ⊆ (range d).filter fun j => Real.sqrt (w2 j) < wMin := by
      intro j hj
      rw [mem_range] at hj
      rw [mem_filter, mem_range]
      exact ⟨by omega, lt_of_le_of_lt (Real.sqrt_le_sqrt (h.mono j i (by omega) hi)) hw⟩
    have := card_le_card hsub
    rw [card_range] at this
    unfold nIgnored
    omega

/-- The run over the first `n` modes. -/
theorem modeRun_prefix {d : ℕ} {w2 : ℕ → ℝ} (h : Stable d w2) (A H : ℕ → ℝ) (file : ℕ → Bool)
    (pot : ℝ) {n : ℕ} (hn : n ≤ d) :
    let t := (List.range' 0 n).foldl (modeStep w2 (nzero d w2) A H file pot)
      ⟨nzero d w2, 0, 0, 0, []⟩
    t.nz = max (nzero d w2) (min n (nIgnored d w2)) ∧
    t.anh = ∑ i ∈ (range n).filter (fun i => nIgnored d w2 ≤ i), A i ∧
    t.har = ∑ i ∈ (range n).filter (fun i => nIgnored d w2 ≤ i), H i ∧
    t.treated = (List.range n).filter (fun i => nIgnored d w2 ≤ i) := by
  have hle : nzero d w2 ≤ nIgnored d w2 := by
    unfold nzero nIgnored
    apply card_le_card
    intro j hj
    rw [mem_filter, mem_range] at hj ⊢
    refine ⟨hj.1, ?_⟩
    rw [abs_of_nonneg (h.nonneg j hj.1)] at hj
    rw [Real.sqrt_lt' (by unfold wMin; norm_num)]
    exact lt_trans hj.2 (by unfold wZero wMin; norm_num)
  induction n with
  | zero => simp
  | succ n ih =>
    have hnd : n < d := by omega
    obtain ⟨i1, i2, i3, i4⟩ := ih (by omega)
    have hr : List.range' 0 (n + 1) = List.range' 0 n ++ [n] := by
      rw [List.range'_concat]; simp
    simp only [hr, List.foldl_append, List.foldl_cons, List.foldl_nil] at *
    generalize (List.range' 0 n).foldl (modeStep w2 (nzero d w2) A H file pot)
      ⟨nzero d w2, 0, 0, 0, []⟩ = t at *
    unfold modeStep
    have hF : ∀ f : ℕ → ℝ, ∑ i ∈ (range (n + 1)).filter (fun i => nIgnored d w2 ≤ i), f i
        = (∑ i ∈ (range n).filter (fun i => nIgnored d w2 ≤ i), f i)
          + if nIgnored d w2 ≤ n then f n else 0 := by
      intro f
      rw [sum_filter, sum_range_succ, ← sum_filter]
    rw [hF, hF, List.range_succ, List.filter_append]
    by_cases h1 : n < nIgnored d w2
    · have hnot : ¬nIgnored d w2 ≤ n := not_le.mpr h1
      rw [if_neg hnot, if_neg hnot]
      simp only [List.filter_cons, hnot, decide_false, List.filter_nil]
      by_cases h2 : n < t.nz
      · rw [if_pos h2]
        refine ⟨?_, by rw [i2, add_zero], by rw [i3, add_zero], by simp [i4]⟩
        rw [i1] at h2 ⊢
        omega
      · rw [if_neg h2, if_pos ((tiny_iff h hnd).mpr ((nIgnored_first h hnd).mp h1))]
        refine ⟨?_, by simp [i2], by simp [i3], by simp [i4]⟩
        simp only
        rw [i1] at h2 ⊢
        omega
    · have hyes : nIgnored d w2 ≤ n := not_lt.mp h1
      rw [if_pos hyes, if_pos hyes]
      have h2 : ¬n < t.nz := by rw [i1]; omega
      have h3 : tiny (nzero d w2) w2 n ≠ true := fun hc =>
        h1 ((nIgnored_first h hnd).mpr ((tiny_iff h hnd).mp hc))
      rw [if_neg h2, if_neg h3]
      refine ⟨?_, by simp [i2], by simp [i3], by simp [i4, hyes]⟩
      simp only
      rw [i1]
      omega

/-- **C150.** A run from the first step, without imaginary modes: the modes treated are those with a
frequency above the limit, and both the correction and the harmonic free energy are sums over exactly
these. -/
theorem imf_totals {d : ℕ} {w2 : ℕ → ℝ} (h : Stable d w2) (A H : ℕ → ℝ) (file : ℕ → Bool)
    (pot T nprim : ℝ) :
    let t := modeRun d w2 (nzero d w2) A H file pot 0
    t.treated = (List.range d).filter (fun i => ¬Real.sqrt (w2 i) < wMin) ∧
    correction nprim t
      = (∑ i ∈ (range d).filter (fun i => ¬Real.sqrt (w2 i) < wMin), (A i - H i)) / nprim ∧
    printedHar d w2 T nprim t
      = (∑ i ∈ (range d).filter (fun i => ¬Real.sqrt (w2 i) < wMin), harFree T (Real.sqrt (w2 i)))
        / nprim + t.v0 := by
  obtain ⟨h1, h2, h3, h4⟩ := modeRun_prefix h A H file pot (le_refl d)
  have hig : nIgnored d w2 ≤ d := by
    unfold nIgnored
    exact (card_le_card (filter_subset _ _)).trans (card_range d).le
  have hz : nzero d w2 ≤ nIgnored d w2 := by
    unfold nzero nIgnored
    apply card_le_card
    intro j hj
    rw [mem_filter, mem_range] at hj ⊢
    refine ⟨hj.1, ?_⟩
    rw [abs_of_nonneg (h.nonneg j hj.1)] at hj
    rw [Real.sqrt_lt' (by unfold wMin; norm_num)]
    exact lt_trans hj.2 (by unfold wZero wMin; norm_num)
  have hf : ∀ i < d, (nIgnored d w2 ≤ i ↔ ¬Real.sqrt (w2 i) < wMin) := fun i hi => by
    rw [← nIgnored_first h hi, not_lt]
  have hF : (range d).filter (fun i => nIgnored d w2 ≤ i)
      = (range d).filter (fun i => ¬Real.sqrt (w2 i) < wMin) :=
    filter_congr fun i hi => hf i (mem_range.mp hi)
  simp only [modeRun, Nat.sub_zero]
  refine ⟨?_, ?_, ?_⟩
  · rw [h4]
    apply List.filter_congr
    intro i hi
    rw [List.mem_range] at hi
    simp only [hf i hi]
  · rw [correction, h2, h3, hF, ← sum_sub_distrib]
  · rw [printedHar]
    have : (List.foldl (modeStep w2 (nzero d w2) A H file pot) ⟨nzero d w2, 0, 0, 0, []⟩
        (List.range' 0 d)).nz = nIgnored d w2 := by
      rw [h1, min_eq_right hig, max_eq_right hz]
    rw [this, hF]

/-- **C150, negated.** A run that is continued adds up the remaining modes only: here two modes, continued
before the second. -/
theorem restart_drops : ∃ (w2 A H : ℕ → ℝ), Stable 2 w2 ∧
    correction 1 (modeRun 2 w2 (nzero 2 w2) A H (fun _ => false) 0 0) = 2 ∧
    correction 1 (modeRun 2 w2 (nzero 2 w2) A H (fun _ => false) 0 1) = 1 := by
  have hst : Stable 2 (fun _ => 1) := ⟨fun _ _ => zero_le_one, fun _ _ _ _ => le_refl _⟩
  have hnz : nzero 2 (fun _ => (1 : ℝ)) = 0 := by
    unfold nzero
    rw [card_eq_zero, filter_eq_empty_iff]
    intro i _
    unfold wZero
    norm_num
  have ht : ∀ i, tiny 0 (fun _ => (1 : ℝ)) i = false := by
    intro i
    simp only [tiny, freq, Nat.not_lt_zero, if_false]
    rw [if_neg (by norm_num)]
    simp only [Real.sqrt_one, decide_eq_false_iff_not]
    unfold wMin; norm_num
  refine ⟨fun _ => 1, fun _ => 2, fun _ => 1, hst, ?_, ?_⟩
  · rw [hnz]
    simp [modeRun, modeStep, correction, ht, List.range']
    norm_num
  · rw [hnz]
    simp [modeRun, modeStep, correction, ht]
    norm_num

/-- **C150, negated.** When all the samples are read from files, the potential at the minimum is left
out of the free energy. -/
theorem reload_offset (d : ℕ) (w2 : ℕ → ℝ) (nz0 : ℕ) (A H : ℕ → ℝ) (pot : ℝ) (s : ℕ) :
    (modeRun d w2 nz0 A H (fun _ => true) pot s).v0 = 0 := by
  unfold modeRun
  have : ∀ (l : List ℕ) (t : Totals), t.v0 = 0 →
      (l.foldl (modeStep w2 nz0 A H (fun _ => true) pot) t).v0 = 0 := by
    intro l
    induction l with
    | nil => intro t h; exact h
    | cons i l ih =>
      intro t h
      rw [List.foldl_cons]
      apply ih
      unfold modeStep
      split
      · exact h
      · split
        · exact h
        · simpa using h
  exact this _ _ rfl

/-- **C150, negated.** With more imaginary modes than zero modes one of the imaginary modes is treated
although it has no frequency: nothing passes it over. -/
theorem imaginary_treated (A H : ℕ → ℝ) (file : ℕ → Bool) (pot : ℝ) (w2 : ℕ → ℝ) (nz0 i : ℕ)
    (hi : nz0 ≤ i) (hw : w2 i < 0) (t : Totals) (ht : t.nz ≤ i) :
    i ∈ (modeStep w2 nz0 A H file pot t i).treated := by
  have h : tiny nz0 w2 i = false := by
    unfold tiny freq
    rw [if_neg (not_lt.mpr hi), if_pos hw]
  rw [modeStep, if_neg (not_lt.mpr ht), h]
  simp

end Verif.Vscf
