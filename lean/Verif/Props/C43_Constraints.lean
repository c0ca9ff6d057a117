import Verif.Phys.Constraints
import Verif.Props.C35_Contract
import Mathlib.Tactic.LinearCombination

/-!
# C43: constraints on the momenta
-/

namespace Verif.Pcon

open Finset Verif.Nm Verif.Contract

variable {n N : ℕ}

/-- Positive masses and mass factors, the one of the centroid being one (`get_nmm`,
`normalmodes.py` L591). -/
structure Par.Good (g : Par N) : Prop where
  m_pos : ∀ a, 0 < g.m a
  f_pos : ∀ k, 0 < g.f k
  fo_pos : ∀ k, 0 < g.fo k
  f_zero : g.f 0 = 1

theorem Par.mat_modes (g : Par N) (a : Fin N) : ∃ C, Modes C ∧ ∀ n, g.mat n a = C n := by
  unfold Par.mat
  cases g.op a with
  | false => exact ⟨mkNm, modes_closed, fun n => rfl⟩
  | true => exact ⟨mkONm, modes_open, fun n => rfl⟩

theorem Par.rowsum (g : Par N) (a : Fin N) (h : 0 < n) (k : Fin n) :
    ∑ b, g.mat n a k b = if (k : ℕ) = 0 then √n else 0 := by
  obtain ⟨C, hC, e⟩ := g.mat_modes a
  rw [e]; exact hC.rowsum h k

theorem Par.first (g : Par N) (a : Fin N) (h : 0 < n) (b : Fin n) : g.mat n a ⟨0, h⟩ b = 1 / √n := by
  obtain ⟨C, hC, e⟩ := g.mat_modes a
  rw [e]; exact hC.first n h b

/-- From the modes to the beads and back. -/
theorem Par.toNm_toBeads (g : Par N) (p : Fin n → Fin N → Fin 3 → ℝ) : g.toNm (g.toBeads p) = p := by
  funext k a d
  obtain ⟨C, hC, e⟩ := g.mat_modes a
  unfold Par.toNm Par.toBeads
  simp only [e, mul_sum]
  rw [sum_comm]
  have : ∀ l, ∑ b, C n k b * (C n l b * p l a d) = if k = l then p l a d else 0 := by
    intro l
    rw [sum_congr rfl (fun b _ => (mul_assoc _ _ _).symm), ← sum_mul, hC.rows]
    split <;> simp
  rw [sum_congr rfl (fun l _ => this l), sum_ite_eq, if_pos (mem_univ _)]

/-- From the beads to the modes and back. -/
theorem Par.toBeads_toNm (g : Par N) (p : Fin n → Fin N → Fin 3 → ℝ) : g.toBeads (g.toNm p) = p := by
  funext b a d
  obtain ⟨C, hC, e⟩ := g.mat_modes a
  unfold Par.toNm Par.toBeads
  simp only [e, mul_sum]
  rw [sum_comm]
  have : ∀ l, ∑ k, C n k b * (C n k l * p l a d) = if b = l then p l a d else 0 := by
    intro l
    rw [sum_congr rfl (fun b _ => (mul_assoc _ _ _).symm), ← sum_mul, hC.cols]
    split <;> simp
  rw [sum_congr rfl (fun l _ => this l), sum_ite_eq, if_pos (mem_univ _)]

theorem Par.M_pos (g : Par N) (hg : g.Good) (hN : 0 < N) : 0 < g.M :=
  sum_pos (fun a _ => hg.m_pos a) ⟨⟨0, hN⟩, mem_univ _⟩

/-! ## Fixed centre of mass -/

/-- **C43, centre of mass.**  After the constraint step the total momentum is exactly zero. -/
theorem com_zero (g : Par N) (hg : g.Good) (hn : 0 < n) (hN : 0 < N) (s : St n N) (d : Fin 3) :
    ∑ b, ∑ a, (g.fixcom s).p b a d = 0 := by
  have hM := g.M_pos hg hN
  have hn' : (0 : ℝ) < n := by exact_mod_cast hn
  unfold Par.fixcom
  simp only [sum_sub_distrib, ← sum_mul]
  rw [sum_const, card_univ, Fintype.card_fin, nsmul_eq_mul]
  unfold Par.vcom
  have : (∑ a, g.m a) = g.M := rfl
  rw [this]
  field_simp
  ring

/-- **C43, centre of mass, once is enough.** -/
theorem com_idem (g : Par N) (hg : g.Good) (hn : 0 < n) (hN : 0 < N) (s : St n N) :
    g.fixcom (g.fixcom s) = g.fixcom s := by
  have hv : ∀ d, g.vcom (g.fixcom s).p d = 0 := by
    intro d
    unfold Par.vcom
    rw [com_zero g hg hn hN, zero_div]
  generalize g.fixcom s = t at hv ⊢
  unfold Par.fixcom
  simp [hv]

theorem Par.fixcom_nm (g : Par N) (hn : 0 < n) (s : St n N) (k : Fin n) (a : Fin N) (d : Fin 3) :
    g.toNm (g.fixcom s).p k a d
      = g.toNm s.p k a d - (if (k : ℕ) = 0 then √n else 0) * (g.m a * g.vcom s.p d) := by
  unfold Par.toNm Par.fixcom
  simp only [mul_sub, sum_sub_distrib, ← sum_mul]
  rw [g.rowsum a hn k]

theorem Par.sum_centroid (g : Par N) (hg : g.Good) (hn : 0 < n) (hN : 0 < N)
    (p : Fin n → Fin N → Fin 3 → ℝ) (d : Fin 3) :
    ∑ a, g.toNm p ⟨0, hn⟩ a d = g.M * √n * g.vcom p d := by
  have hn' : (0 : ℝ) < n := by exact_mod_cast hn
  have hM := g.M_pos hg hN
  have hs : √(n : ℝ) * √n = n := Real.mul_self_sqrt hn'.le
  have hs0 : √(n : ℝ) ≠ 0 := (Real.sqrt_pos.2 hn').ne'
  unfold Par.toNm Par.vcom
  simp only [g.first _ hn]
  rw [sum_comm]
  simp only [← mul_sum]
  rw [mul_div_assoc', eq_div_iff (by positivity)]
  field_simp
  rw [Real.sq_sqrt hn'.le, mul_comm]

/-- The kinetic energy of one mode. -/
noncomputable def Par.kin1 (g : Par N) (x : Fin N → Fin 3 → ℝ) : ℝ :=
  1 / 2 * ∑ a, ∑ d, (x a d / √(g.m a)) ^ 2

theorem Par.kin_eq (g : Par N) (p : Fin n → Fin N → Fin 3 → ℝ) :
    g.kin p = ∑ k : Fin n, g.kin1 (g.toNm p k) / g.f k := rfl

theorem Par.kin1_eq (g : Par N) (hg : g.Good) (x : Fin N → Fin 3 → ℝ) :
    g.kin1 x = 1 / 2 * ∑ a, ∑ d, x a d ^ 2 / g.m a := by
  unfold Par.kin1
  congr 1
  refine sum_congr rfl fun a _ => sum_congr rfl fun d _ => ?_
  rw [div_pow, Real.sq_sqrt (hg.m_pos a).le]

/-- **C43, centre of mass, energy.**  The conserved quantity does not change. -/
theorem com_econs (g : Par N) (hg : g.Good) (hn : 0 < n) (hN : 0 < N) (s : St n N) :
    g.econs (g.fixcom s) = g.econs s := by
  have hn' : (0 : ℝ) < n := by exact_mod_cast hn
  unfold Par.econs
  rw [g.kin_eq, g.kin_eq]
  have hk : ∀ k : Fin n, g.kin1 (g.toNm (g.fixcom s).p k) / g.f k = g.kin1 (g.toNm s.p k) / g.f k
      - (if k = ⟨0, hn⟩ then 1 / 2 * (g.M * n) * ∑ d, g.vcom s.p d ^ 2 else 0) := by
    intro k
    by_cases hk : k = ⟨0, hn⟩
    · rw [if_pos hk]
      subst hk
      simp only [hg.f_zero, div_one]
      rw [g.kin1_eq hg, g.kin1_eq hg, mul_assoc, ← mul_sub]
      congr 1
      rw [sum_comm, sum_comm (s := univ (α := Fin N)), mul_sum, ← sum_sub_distrib]
      refine sum_congr rfl fun d _ => ?_
      have h1 : ∀ a, g.toNm (g.fixcom s).p ⟨0, hn⟩ a d ^ 2 / g.m a
          = g.toNm s.p ⟨0, hn⟩ a d ^ 2 / g.m a - 2 * √n * g.vcom s.p d * g.toNm s.p ⟨0, hn⟩ a d
            + n * g.vcom s.p d ^ 2 * g.m a := by
        intro a
        rw [g.fixcom_nm hn, if_pos rfl]
        have hs : √(n : ℝ) ^ 2 = n := Real.sq_sqrt hn'.le
        have := (hg.m_pos a).ne'
        field_simp
        linear_combination (g.vcom s.p d ^ 2 * g.m a ^ 2) * hs
      rw [sum_congr rfl (fun a _ => h1 a), sum_add_distrib, sum_sub_distrib, ← mul_sum, ← mul_sum,
        g.sum_centroid hg hn hN]
      have hs : √(n : ℝ) ^ 2 = n := Real.sq_sqrt hn'.le
      have hM : ∑ a, g.m a = g.M := rfl
      rw [hM]
      linear_combination (-2 * g.vcom s.p d ^ 2 * g.M) * hs
    · rw [if_neg hk, sub_zero]
      congr 2
      funext a d
      rw [g.fixcom_nm hn, if_neg (fun h => hk (Fin.ext h)), zero_mul, sub_zero]
  rw [sum_congr rfl (fun k _ => hk k), sum_sub_distrib, sum_ite_eq', if_pos (mem_univ _)]
  unfold Par.fixcom
  simp only
  ring

/-! ## Fixed degrees of freedom -/

theorem Par.fixatoms_nm (g : Par N) (dofs : List (Fin N × Fin 3)) (s : St n N) (k : Fin n) (a : Fin N)
    (d : Fin 3) : g.toNm (g.fixatoms dofs s).p k a d
      = if (a, d) ∈ dofs then 0 else g.toNm s.p k a d := by
  unfold Par.fixatoms
  by_cases h : dofs = []
  · rw [if_pos h, h]; simp
  · rw [if_neg h]
    simp only
    rw [g.toNm_toBeads]

/-- **C43, fixed atoms.**  After the constraint step the momenta of the fixed degrees of freedom are
zero for every bead, and all others are what they were. -/
theorem fixed_zero (g : Par N) (dofs : List (Fin N × Fin 3)) (s : St n N) (b : Fin n) (a : Fin N)
    (d : Fin 3) : (g.fixatoms dofs s).p b a d = if (a, d) ∈ dofs then 0 else s.p b a d := by
  have h1 : (g.fixatoms dofs s).p b a d = g.toBeads (g.toNm (g.fixatoms dofs s).p) b a d := by
    rw [g.toBeads_toNm]
  rw [h1]
  conv_rhs => rw [← g.toBeads_toNm s.p]
  unfold Par.toBeads
  simp only [g.fixatoms_nm]
  split <;> simp

/-- **C43, fixed atoms, once is enough.** -/
theorem fixed_idem (g : Par N) (dofs : List (Fin N × Fin 3)) (s : St n N) :
    g.fixatoms dofs (g.fixatoms dofs s) = g.fixatoms dofs s := by
  have hp : (g.fixatoms dofs (g.fixatoms dofs s)).p = (g.fixatoms dofs s).p := by
    funext b a d
    rw [fixed_zero, fixed_zero]
    split <;> rfl
  have he : (g.fixatoms dofs (g.fixatoms dofs s)).eens = (g.fixatoms dofs s).eens := by
    by_cases h : dofs = []
    · unfold Par.fixatoms; simp [h]
    · have hz : ∀ c ∈ dofs, ∑ k, g.toNm (g.fixatoms dofs s).p k c.1 c.2 ^ 2 / g.dynm3 k c.1 = 0 := by
        intro c hc
        refine sum_eq_zero fun k _ => ?_
        rw [g.fixatoms_nm, if_pos hc]; simp
      generalize g.fixatoms dofs s = t at hz ⊢
      unfold Par.fixatoms
      rw [if_neg h]
      simp only
      rw [List.map_congr_left hz]
      simp
  generalize g.fixatoms dofs (g.fixatoms dofs s) = u at hp he
  generalize g.fixatoms dofs s = t at hp he
  cases u; cases t
  simp only at hp he
  rw [hp, he]

theorem sum_nodup {α : Type} [Fintype α] [DecidableEq α] (l : List α) (hl : l.Nodup) (F : α → ℝ) :
    (l.map F).sum = ∑ c, if c ∈ l then F c else 0 := by
  rw [← List.sum_toFinset F hl, ← sum_filter]
  congr 1
  ext c
  simp

/-- **C43, fixed atoms, energy.**  The conserved quantity does not change, provided that no degree
of freedom is listed twice and that open paths use the same mass factors as closed ones. -/
theorem fixed_econs_partial (g : Par N) (hg : g.Good) (dofs : List (Fin N × Fin 3)) (hd : dofs.Nodup)
    (ho : ∀ a, g.op a = true → ∀ k, 0 < k → k < n → g.fo k = g.f k) (s : St n N) :
    g.econs (g.fixatoms dofs s) = g.econs s := by
  by_cases h : dofs = []
  · unfold Par.fixatoms; rw [if_pos h]
  have hdyn : ∀ (k : Fin n) a, g.dynm3 k a = g.m a * g.f k := by
    intro k a
    unfold Par.dynm3
    split
    · rename_i h; rw [ho a h.1 k h.2 k.2]
    · rfl
  have he : (g.fixatoms dofs s).eens = s.eens + ∑ k : Fin n, (1 / 2 * ∑ a, ∑ d,
      if (a, d) ∈ dofs then g.toNm s.p k a d ^ 2 / g.m a else 0) / g.f k := by
    unfold Par.fixatoms
    rw [if_neg h]
    simp only
    rw [sum_nodup dofs hd]
    congr 1
    have h1 : ∀ k : Fin n, (1 / 2 * ∑ a, ∑ d, if (a, d) ∈ dofs then g.toNm s.p k a d ^ 2 / g.m a else 0)
        / g.f k = 1 / 2 * ∑ c : Fin N × Fin 3,
          if c ∈ dofs then g.toNm s.p k c.1 c.2 ^ 2 / g.dynm3 k c.1 else 0 := by
      intro k
      rw [mul_div_assoc]
      congr 1
      rw [← Fintype.sum_prod_type' (f := fun a d =>
        if (a, d) ∈ dofs then g.toNm s.p k a d ^ 2 / g.m a else 0), sum_div]
      refine sum_congr rfl fun c _ => ?_
      rw [hdyn]
      split
      · rw [div_div]
      · rw [zero_div]
    rw [sum_congr rfl (fun k _ => h1 k), ← mul_sum, sum_comm]
    congr 1
    refine sum_congr rfl fun c _ => ?_
    split
    · rfl
    · simp
  unfold Par.econs
  rw [he, g.kin_eq, g.kin_eq]
  have hk : ∀ k : Fin n, g.kin1 (g.toNm s.p k) / g.f k
      = g.kin1 (g.toNm (g.fixatoms dofs s).p k) / g.f k
        + (1 / 2 * ∑ a, ∑ d, if (a, d) ∈ dofs then g.toNm s.p k a d ^ 2 / g.m a else 0) / g.f k := by
    intro k
    rw [g.kin1_eq hg, g.kin1_eq hg, ← add_div, ← mul_add, ← sum_add_distrib]
    congr 2
    refine sum_congr rfl fun a _ => ?_
    rw [← sum_add_distrib]
    refine sum_congr rfl fun d _ => ?_
    rw [g.fixatoms_nm]
    split <;> simp
  rw [sum_congr rfl (fun k _ => hk k), sum_add_distrib]
  ring

/-! ## Both, as called by the integrators -/

/-- **C43.**  The constraint step of the integrators with a fixed centre of mass or with fixed degrees
of freedom (the input never allows both, `inputs/motion/motion.py` L339-344): done twice it does
nothing more. -/
theorem pconstraints_idem (g : Par N) (hg : g.Good) (hn : 0 < n) (hN : 0 < N) (com : Bool)
    (dofs : List (Fin N × Fin 3)) (hx : com = true → dofs = []) (s : St n N) :
    g.pconstraints com dofs (g.pconstraints com dofs s) = g.pconstraints com dofs s := by
  unfold Par.pconstraints
  cases com with
  | false => exact fixed_idem g dofs s
  | true =>
    rw [hx rfl]
    unfold Par.fixatoms
    simp only [if_true]
    exact com_idem g hg hn hN s

/-- **C43.**  And the conserved quantity is unchanged, under the conditions of
`fixed_econs_partial`. -/
theorem pconstraints_econs_partial (g : Par N) (hg : g.Good) (hn : 0 < n) (hN : 0 < N) (com : Bool)
    (dofs : List (Fin N × Fin 3)) (hd : dofs.Nodup)
    (ho : dofs ≠ [] → ∀ a, g.op a = true → ∀ k, 0 < k → k < n → g.fo k = g.f k) (s : St n N) :
    g.econs (g.pconstraints com dofs s) = g.econs s := by
  have hf : ∀ t : St n N, g.econs (g.fixatoms dofs t) = g.econs t := by
    intro t
    by_cases h : dofs = []
    · unfold Par.fixatoms; rw [if_pos h]
    · exact fixed_econs_partial g hg dofs hd (ho h) t
  unfold Par.pconstraints
  rw [hf]
  cases com with
  | false => rfl
  | true => exact com_econs g hg hn hN s

/-- **C43.**  Whatever is asked for, the fixed degrees of freedom end up without momentum. -/
theorem pconstraints_zero (g : Par N) (com : Bool) (dofs : List (Fin N × Fin 3)) (s : St n N)
    (b : Fin n) (a : Fin N) (d : Fin 3) (h : (a, d) ∈ dofs) :
    (g.pconstraints com dofs s).p b a d = 0 := by
  unfold Par.pconstraints
  rw [fixed_zero, if_pos h]

/-! ## Constrained centroids -/

theorem Par.fixCentroid_nm (g : Par N) (h : 0 < n) (s : St n N) (k : Fin n) (a : Fin N) (d : Fin 3) :
    g.toNm (g.fixCentroid h s).p k a d = if (k : ℕ) = 0 then 0 else g.toNm s.p k a d := by
  unfold Par.fixCentroid
  simp only
  rw [g.toNm_toBeads]

/-- **C43, centroids.**  With constrained centroids the momentum of the centroid of every atom is
zero. -/
theorem centroid_zero (g : Par N) (h : 0 < n) (s : St n N) (a : Fin N) (d : Fin 3) :
    ∑ b, (g.fixCentroid h s).p b a d = 0 := by
  have h0 := g.fixCentroid_nm h s ⟨0, h⟩ a d
  rw [if_pos rfl] at h0
  unfold Par.toNm at h0
  simp only [g.first _ h] at h0
  rw [← mul_sum] at h0
  have hn' : (0 : ℝ) < n := by exact_mod_cast h
  rcases mul_eq_zero.1 h0 with h1 | h1
  · exact absurd h1 (by positivity)
  · exact h1

/-- **C43, centroids, energy.**  The conserved quantity does not change. -/
theorem centroid_econs (g : Par N) (hg : g.Good) (h : 0 < n) (s : St n N) :
    g.econs (g.fixCentroid h s) = g.econs s := by
  unfold Par.econs
  rw [g.kin_eq, g.kin_eq]
  have hk : ∀ k : Fin n, g.kin1 (g.toNm s.p k) / g.f k
      = g.kin1 (g.toNm (g.fixCentroid h s).p k) / g.f k
        + if k = ⟨0, h⟩ then g.kin1 (g.toNm s.p ⟨0, h⟩) else 0 := by
    intro k
    by_cases hk : k = ⟨0, h⟩
    · rw [if_pos hk]
      subst hk
      simp only [hg.f_zero, div_one]
      rw [g.kin1_eq hg (g.toNm (g.fixCentroid h s).p _)]
      simp only [g.fixCentroid_nm, if_true]
      simp
    · rw [if_neg hk, add_zero]
      congr 2
      funext a d
      rw [g.fixCentroid_nm, if_neg (fun e => hk (Fin.ext e))]
  rw [sum_congr rfl (fun k _ => hk k), sum_add_distrib, sum_ite_eq', if_pos (mem_univ _)]
  have he : (g.fixCentroid h s).eens = s.eens + g.kin1 (g.toNm s.p ⟨0, h⟩) := by
    unfold Par.fixCentroid
    simp only
    rw [g.kin1_eq hg]
    congr 2
    refine sum_congr rfl fun a _ => sum_congr rfl fun d _ => ?_
    unfold Par.dynm3
    rw [if_neg (fun hh => absurd hh.2 (lt_irrefl 0)), hg.f_zero, mul_one]
    ring
  rw [he]
  ring

/-! ## Where it fails -/

/-- A single bead of one atom. -/
def onePar : Par 1 := ⟨fun _ => 1, fun _ => false, fun _ => 1, fun _ => 1⟩

theorem onePar_good : onePar.Good :=
  ⟨fun _ => one_pos, fun _ => one_pos, fun _ => one_pos, rfl⟩

/-- The atom moves. -/
def oneSt : St 1 1 := ⟨fun _ _ _ => 1, 0⟩

theorem one_nm (k : Fin 1) (a : Fin 1) (d : Fin 3) : onePar.toNm oneSt.p k a d = 1 := by
  have : onePar.toNm oneSt.p ⟨0, one_pos⟩ a d = 1 := by
    unfold Par.toNm
    simp only [onePar.first _ one_pos]
    simp [oneSt]
  rw [Subsingleton.elim k ⟨0, one_pos⟩]
  exact this

/-- **C43 fails when a degree of freedom is listed twice.**  Its kinetic energy is then accounted for
twice. -/
theorem fixed_twice_fails : ∃ (dofs : List (Fin 1 × Fin 3)), onePar.Good ∧
    onePar.econs (onePar.fixatoms dofs oneSt) ≠ onePar.econs oneSt := by
  refine ⟨[(0, 0), (0, 0)], onePar_good, ?_⟩
  have h1 := fixed_econs_partial onePar onePar_good [((0 : Fin 1), (0 : Fin 3))] (by simp)
    (by intro a h; cases h) oneSt
  rw [← h1]
  have hp : (onePar.fixatoms [((0 : Fin 1), (0 : Fin 3)), (0, 0)] oneSt).p
      = (onePar.fixatoms [((0 : Fin 1), (0 : Fin 3))] oneSt).p := by
    funext b a d
    rw [fixed_zero, fixed_zero]
    simp
  unfold Par.econs
  rw [hp]
  intro h
  have h := add_left_cancel h
  unfold Par.fixatoms at h
  rw [if_neg (by simp), if_neg (by simp)] at h
  simp only [one_nm, Par.dynm3] at h
  simp [onePar, oneSt] at h

/-- An open path of two beads whose internal mode has another mass factor than a closed one. -/
noncomputable def openPar : Par 1 :=
  ⟨fun _ => 1, fun _ => true, fun _ => 1, fun k => if k = 0 then 1 else 2⟩

theorem openPar_good : openPar.Good :=
  ⟨fun _ => one_pos, fun _ => one_pos, fun k => by simp only [openPar]; split <;> norm_num, rfl⟩

/-- Only the internal mode moves. -/
noncomputable def openSt : St 2 1 := ⟨openPar.toBeads (fun k _ _ => if (k : ℕ) = 0 then 0 else 1), 0⟩

theorem open_nm (k : Fin 2) (a : Fin 1) (d : Fin 3) :
    openPar.toNm openSt.p k a d = if (k : ℕ) = 0 then 0 else 1 := by
  unfold openSt
  simp only
  rw [openPar.toNm_toBeads]

/-- **C43 fails for fixed atoms with open paths and scaled masses.**  The energy taken out uses the
mass factors of open paths, the reported kinetic energy those of closed ones. -/
theorem fixed_open_fails : ∃ (dofs : List (Fin 1 × Fin 3)), openPar.Good ∧ dofs.Nodup ∧
    openPar.econs (openPar.fixatoms dofs openSt) ≠ openPar.econs openSt := by
  refine ⟨[(0, 0)], openPar_good, by simp, ?_⟩
  unfold Par.econs
  rw [openPar.kin_eq, openPar.kin_eq]
  simp only [openPar.kin1_eq openPar_good, openPar.fixatoms_nm, open_nm]
  unfold Par.fixatoms
  rw [if_neg (by simp)]
  simp only [open_nm, Par.dynm3]
  simp [openPar, openSt, Fin.sum_univ_succ]
  norm_num

/-- The hypotheses of the theorems are met by a system that moves. -/
example : onePar.Good ∧ (0 : ℕ) < 1 ∧ (∑ b, ∑ a, oneSt.p b a 0) ≠ 0 ∧
    (onePar.fixcom oneSt).p 0 0 0 = 0 := by
  refine ⟨onePar_good, one_pos, by simp [oneSt], ?_⟩
  simp [Par.fixcom, Par.vcom, Par.M, onePar, oneSt]

end Verif.Pcon
