import Verif.Props.C35_Contract
import Verif.Run.Init

/-!
# C109: an initialisation instruction sets exactly the part of the system that it selects
-/

namespace Verif.Init

open Finset Verif.Cell Verif.Contract

/-! ## Specification -/

/-- The centroid of coordinate `c` of a path of `nb` beads. -/
noncomputable def centroid (nb : ℕ) (x : ℕ → ℕ → ℝ) (c : ℕ) : ℝ := (∑ i ∈ range nb, x i c) / nb

/-- The kinetic temperature of a path of `nb` beads and `na` atoms without constraints, times
Boltzmann's constant: the kinetic energy of the beads is `3 * na * nb / 2` times `nb * kB * T`. -/
noncomputable def temperature (nb na : ℕ) (m : ℕ → ℝ) (p : ℕ → ℕ → ℝ) : ℝ :=
  2 * (∑ i ∈ range nb, ∑ c ∈ range (3 * na), p i c ^ 2 / (2 * m (c / 3))) / (3 * na * nb * nb)

/-- The instruction speaks about coordinate `c` of bead `i`: a negative `bead` or `index`
stands for all. -/
def Covers (v : Instr) (i c : ℕ) : Prop :=
  (v.bead < 0 ∨ i = v.bead.toNat) ∧ (v.index < 0 ∨ c / 3 = v.index.toNat)

/-- What an instruction with the vector `r` does to an array of `nb` beads and `na` atoms: the
sizes agree, everything that the instruction does not speak about is left as it was, a path with
the same number of beads (or one bead) is copied, and the centroid is the one of the vector for
any number of beads. -/
structure Sets (v : Instr) (nb na : ℕ) (old new : ℕ → ℕ → ℝ) (r : Vec2) : Prop where
  atoms : v.index < 0 → r.na = na
  atom : 0 ≤ v.index → v.index < na ∧ r.na = 1
  bead : 0 ≤ v.bead → v.bead < nb ∧ r.nb = 1
  outside : ∀ i c, i < nb → c < 3 * na → ¬ Covers v i c → new i c = old i c
  inside : ∀ i c, i < nb → c < 3 * na → Covers v i c → (0 ≤ v.bead ∨ r.nb = nb) →
    new i c = r.x (if v.bead < 0 then i else 0) (if v.index < 0 then c else c % 3)
  mean : v.bead < 0 → 0 < r.nb → 0 < nb → ∀ c, c < 3 * na → (v.index < 0 ∨ c / 3 = v.index.toNat) →
    centroid nb new c = centroid r.nb r.x (if v.index < 0 then c else c % 3)

/-! ## Changing the number of beads -/

/-- Kinetic energies under a change of the number of beads: an expansion multiplies the sum of
the squares by the ratio of the numbers of beads. -/
theorem b1tob2_sq_up {n1 n2 m : ℕ} (h : n1 ≤ n2) (op : List ℕ) (x : Nm.Arr n1 m) (c : Fin m) :
    ∑ a, b1tob2 n2 op x a c ^ 2 = (n2 : ℝ) / n1 * ∑ b, x b c ^ 2 := by
  by_cases h1 : n1 = 0
  · subst h1
    by_cases he : 0 = n2
    · subst he; simp
    · obtain ⟨C, -, -, hcol⟩ := b1tob2_col he op x c
      simp [hcol]
  have hn1 : (n1 : ℝ) ≠ 0 := by exact_mod_cast h1
  have hn2 : (n2 : ℝ) ≠ 0 := by exact_mod_cast (by omega : n2 ≠ 0)
  by_cases he : n1 = n2
  · subst he; rw [(same_beads op x).1, div_self hn1, one_mul]
  · obtain ⟨C, hC, -, hcol⟩ := b1tob2_col he op x c
    have hF : ∀ b k, ∑ a, fwdMat C n1 n2 a b * fwdMat C n1 n2 a k
        = if b = k then (n2 : ℝ) / n1 else 0 := by
      intro b k
      have := hC.bwd_fwd (show n1 < n2 by omega) b k
      have e : ∀ a, bwdMat C n1 n2 b a * fwdMat C n1 n2 a k
          = (n1 : ℝ) / n2 * (fwdMat C n1 n2 a b * fwdMat C n1 n2 a k) := by
        intro a; unfold bwdMat fwdMat; ring
      rw [sum_congr rfl fun a _ => e a, ← Finset.mul_sum] at this
      generalize ∑ a, fwdMat C n1 n2 a b * fwdMat C n1 n2 a k = y at this ⊢
      split at this
      · rename_i hbk
        rw [if_pos hbk]; field_simp at this ⊢; linarith
      · rename_i hbk
        rw [if_neg hbk]
        rcases mul_eq_zero.1 this with h | h
        · exact absurd h (div_ne_zero hn1 hn2)
        · exact h
    have e : ∀ a, b1tob2 n2 op x a c ^ 2
        = ∑ b, ∑ k, x b c * x k c * (fwdMat C n1 n2 a b * fwdMat C n1 n2 a k) := by
      intro a
      rw [hcol, pow_two, Finset.sum_mul]
      refine sum_congr rfl fun b _ => ?_
      rw [Finset.mul_sum]
      exact sum_congr rfl fun k _ => by ring
    rw [sum_congr rfl fun a _ => e a, Finset.sum_comm, Finset.mul_sum]
    refine sum_congr rfl fun b _ => ?_
    rw [Finset.sum_comm, Finset.sum_eq_single b]
    · rw [← Finset.mul_sum, hF, if_pos rfl]; ring
    · intro k _ hk
      rw [← Finset.mul_sum, hF, if_neg (Ne.symm hk), mul_zero]
    · intro hh; exact absurd (mem_univ _) hh

/-- A contraction does not make the sum of the squares larger than the ratio of the numbers of
beads says. -/
theorem b1tob2_sq_down {n1 n2 m : ℕ} (h : n2 ≤ n1) (op : List ℕ) (x : Nm.Arr n1 m) (c : Fin m) :
    ∑ a, b1tob2 n2 op x a c ^ 2 ≤ (n2 : ℝ) / n1 * ∑ b, x b c ^ 2 := by
  by_cases he : n1 = n2
  · exact (b1tob2_sq_up he.le op x c).le
  by_cases h2 : n2 = 0
  · subst h2; simp
  have hn1 : (0 : ℝ) < n1 := by exact_mod_cast (by omega : 0 < n1)
  have hn2 : (0 : ℝ) < n2 := by exact_mod_cast (by omega : 0 < n2)
  obtain ⟨C, hC, -, hcol⟩ := b1tob2_col he op x c
  have hF : ∀ a k, ∑ b, fwdMat C n1 n2 a b * fwdMat C n1 n2 k b
      = if a = k then (n2 : ℝ) / n1 else 0 := by
    intro a k
    have := hC.fwd_bwd (show n2 < n1 by omega) a k
    have e : ∀ b, fwdMat C n1 n2 a b * bwdMat C n1 n2 b k
        = (n1 : ℝ) / n2 * (fwdMat C n1 n2 a b * fwdMat C n1 n2 k b) := by
      intro b; unfold bwdMat fwdMat; ring
    rw [sum_congr rfl fun a _ => e a, ← Finset.mul_sum] at this
    generalize ∑ b, fwdMat C n1 n2 a b * fwdMat C n1 n2 k b = y at this ⊢
    split at this
    · rename_i hbk
      rw [if_pos hbk]; field_simp at this ⊢; linarith
    · rename_i hbk
      rw [if_neg hbk]
      rcases mul_eq_zero.1 this with h | h
      · exact absurd h (div_ne_zero hn1.ne' hn2.ne')
      · exact h
  set y : Fin n2 → ℝ := fun a => b1tob2 n2 op x a c with hy
  set z : Fin n1 → ℝ := fun b => ∑ a, y a * fwdMat C n1 n2 a b with hz
  have hzz : ∑ b, z b ^ 2 = (n2 : ℝ) / n1 * ∑ a, y a ^ 2 := by
    have e : ∀ b, z b ^ 2
        = ∑ a, ∑ k, y a * y k * (fwdMat C n1 n2 a b * fwdMat C n1 n2 k b) := by
      intro b
      rw [hz]; beta_reduce
      rw [pow_two, Finset.sum_mul]
      refine sum_congr rfl fun a _ => ?_
      rw [Finset.mul_sum]
      exact sum_congr rfl fun k _ => by ring
    rw [sum_congr rfl fun a _ => e a, Finset.sum_comm, Finset.mul_sum]
    refine sum_congr rfl fun a _ => ?_
    rw [Finset.sum_comm, Finset.sum_eq_single a]
    · rw [← Finset.mul_sum, hF, if_pos rfl]; ring
    · intro k _ hk
      rw [← Finset.mul_sum, hF, if_neg (Ne.symm hk), mul_zero]
    · intro hh; exact absurd (mem_univ _) hh
  have hyx : ∑ a, y a ^ 2 = ∑ b, z b * x b c := by
    have e : ∀ a, y a ^ 2 = ∑ b, y a * fwdMat C n1 n2 a b * x b c := by
      intro a
      rw [pow_two]
      conv_lhs => rw [show y a * y a = y a * ∑ b, fwdMat C n1 n2 a b * x b c by rw [← hcol a]]
      rw [Finset.mul_sum]
      exact sum_congr rfl fun b _ => by ring
    rw [sum_congr rfl fun a _ => e a, Finset.sum_comm]
    refine sum_congr rfl fun b _ => ?_
    rw [hz, ← Finset.sum_mul]
  have hcs := Finset.sum_mul_sq_le_sq_mul_sq univ z fun b => x b c
  rw [← hyx, hzz] at hcs
  have hy0 : 0 ≤ ∑ a, y a ^ 2 := Finset.sum_nonneg fun a _ => sq_nonneg _
  generalize ∑ a, y a ^ 2 = Y at hcs hy0 ⊢
  rcases hy0.eq_or_lt with h0 | h0
  · rw [← h0]
    exact mul_nonneg (div_nonneg hn2.le hn1.le) (Finset.sum_nonneg fun a _ => sq_nonneg _)
  · refine le_of_mul_le_mul_left ?_ h0
    calc Y * Y = Y ^ 2 := by ring
      _ ≤ _ := hcs
      _ = _ := by ring

theorem sum_rescale {nb nb' na : ℕ} (x : ℕ → ℕ → ℝ) {c : ℕ} (hc : c < 3 * na) (g : ℝ → ℝ) :
    ∑ i ∈ range nb', g (rescale nb nb' na x i c)
      = ∑ a : Fin nb', g (b1tob2 nb' [] (fun (a : Fin nb) (d : Fin (3 * na)) => x a d) a ⟨c, hc⟩) := by
  rw [Finset.sum_range]
  refine sum_congr rfl fun a _ => ?_
  unfold rescale
  rw [dif_pos ⟨a.2, hc⟩]

theorem rescale_same {nb na : ℕ} (x : ℕ → ℕ → ℝ) {i c : ℕ} (hi : i < nb) (hc : c < 3 * na) :
    rescale nb nb na x i c = x i c := by
  unfold rescale
  rw [dif_pos ⟨hi, hc⟩, (same_beads [] _).1]

theorem rescale_centroid {nb nb' na : ℕ} (h : 0 < nb) (h' : 0 < nb') (x : ℕ → ℕ → ℝ) {c : ℕ}
    (hc : c < 3 * na) : centroid nb' (rescale nb nb' na x) c = centroid nb x c := by
  unfold centroid
  have e := sum_rescale (nb := nb) (nb' := nb') x hc id
  simp only [id] at e
  rw [e, Finset.sum_range]
  exact centroid_kept h h' [] (fun (a : Fin nb) (d : Fin (3 * na)) => x a d) ⟨c, hc⟩

theorem rescale_sq_up {nb nb' na : ℕ} (h : nb ≤ nb') (x : ℕ → ℕ → ℝ) {c : ℕ} (hc : c < 3 * na) :
    ∑ i ∈ range nb', rescale nb nb' na x i c ^ 2 = (nb' : ℝ) / nb * ∑ i ∈ range nb, x i c ^ 2 := by
  rw [sum_rescale x hc (fun y => y ^ 2), Finset.sum_range fun i => x i c ^ 2]
  exact b1tob2_sq_up h [] (fun (a : Fin nb) (d : Fin (3 * na)) => x a d) ⟨c, hc⟩

theorem rescale_sq_down {nb nb' na : ℕ} (h : nb' ≤ nb) (x : ℕ → ℕ → ℝ) {c : ℕ}
    (hc : c < 3 * na) :
    ∑ i ∈ range nb', rescale nb nb' na x i c ^ 2 ≤ (nb' : ℝ) / nb * ∑ i ∈ range nb, x i c ^ 2 := by
  rw [sum_rescale x hc (fun y => y ^ 2), Finset.sum_range fun i => x i c ^ 2]
  exact b1tob2_sq_down h [] (fun (a : Fin nb) (d : Fin (3 * na)) => x a d) ⟨c, hc⟩

/-! ## Setting a vector -/

theorem centroid_congr {nb : ℕ} {x y : ℕ → ℕ → ℝ} {c d : ℕ} (h : ∀ i < nb, x i c = y i d) :
    centroid nb x c = centroid nb y d := by
  unfold centroid
  rw [sum_congr rfl fun i hi => h i (mem_range.1 hi)]

/-- **C109.** An instruction whose vector fits does what it says, and only that. -/
theorem setVector_sets {v : Instr} {nb na : ℕ} {old new : ℕ → ℕ → ℝ} {r : Vec2}
    (h : setVector v nb na old r = .ok new) : Sets v nb na old new r := by
  unfold setVector at h
  split at h
  · cases h
  rename_i h1
  split at h
  · cases h
  rename_i h2
  split at h
  · cases h
  rename_i h3
  push Not at h1 h2 h3
  split at h
  · rename_i hb
    split at h
    · rename_i hx
      obtain rfl := Except.ok.inj h
      have ha := h1 hx
      refine ⟨fun _ => ha, fun g => absurd g (by omega), fun g => absurd g (by omega), ?_, ?_, ?_⟩
      · intro i c _ _ hn; exact absurd ⟨.inl hb, .inl hx⟩ hn
      · intro i c hi hc _ he
        have hnb : r.nb = nb := by
          rcases he with he | he
          · omega
          · exact he
        rw [if_pos hb, if_pos hx, hnb]
        exact rescale_same r.x hi (by rw [ha]; exact hc)
      · intro _ h0 h0' c hc _
        rw [if_pos hx]
        exact rescale_centroid h0 h0' r.x (by rw [ha]; exact hc)
    · rename_i hx
      split at h
      · rename_i ha
        obtain rfl := Except.ok.inj h
        refine ⟨fun g => absurd g hx, fun _ => ⟨h2, ha⟩, fun g => absurd g (by omega), ?_, ?_, ?_⟩
        · intro i c _ _ hn
          beta_reduce
          rw [if_neg]
          intro e; exact hn ⟨.inl hb, .inr e⟩
        · intro i c hi hc hcov he
          have hnb : r.nb = nb := by
            rcases he with he | he
            · omega
            · exact he
          beta_reduce
          rw [if_pos hb, if_neg hx, if_pos (hcov.2.resolve_left hx), hnb]
          exact rescale_same r.x hi (by rw [ha]; omega)
        · intro _ h0 h0' c hc hcov
          rw [if_neg hx]
          rw [← rescale_centroid h0 h0' r.x (c := c % 3) (na := r.na) (by rw [ha]; omega)]
          refine centroid_congr fun i _ => ?_
          rw [if_pos (hcov.resolve_left hx)]
      · cases h
  · rename_i hb
    split at h
    · rename_i h1b
      split at h
      · rename_i hx
        obtain rfl := Except.ok.inj h
        refine ⟨fun _ => h1 hx, fun g => absurd g (by omega), fun _ => ⟨h3, h1b⟩, ?_, ?_,
          fun g => absurd g hb⟩
        · intro i c _ _ hn
          beta_reduce
          rw [if_neg]
          intro e; exact hn ⟨.inr e, .inl hx⟩
        · intro i c _ _ hcov _
          beta_reduce
          rw [if_neg hb, if_pos hx, if_pos (hcov.1.resolve_left hb)]
      · rename_i hx
        split at h
        · rename_i ha
          obtain rfl := Except.ok.inj h
          refine ⟨fun g => absurd g hx, fun _ => ⟨h2, ha⟩, fun _ => ⟨h3, h1b⟩, ?_, ?_,
            fun g => absurd g hb⟩
          · intro i c _ _ hn
            beta_reduce
            rw [if_neg]
            intro e; exact hn ⟨.inr e.1, .inr e.2⟩
          · intro i c _ _ hcov _
            beta_reduce
            rw [if_neg hb, if_neg hx,
              if_pos ⟨hcov.1.resolve_left hb, hcov.2.resolve_left hx⟩]
        · cases h
    · cases h

/-- **C109.** A vector is refused exactly if it does not fit: another number of atoms, an atom
or a bead that does not exist, more than one atom for a single atom or more than one bead for a
single bead. -/
theorem setVector_error (v : Instr) (nb na : ℕ) (old : ℕ → ℕ → ℝ) (r : Vec2) :
    setVector v nb na old r = .error .value ↔
      ¬ ((v.index < 0 → r.na = na) ∧ (0 ≤ v.index → v.index < na ∧ r.na = 1) ∧
        (0 ≤ v.bead → v.bead < nb ∧ r.nb = 1)) := by
  unfold setVector
  by_cases h1 : v.index < 0 <;> by_cases h2 : v.bead < 0 <;> by_cases h3 : r.na = na <;>
    by_cases h4 : r.na = 1 <;> by_cases h5 : r.nb = 1 <;> by_cases h6 : (na : ℤ) ≤ v.index <;>
    by_cases h7 : (nb : ℤ) ≤ v.bead <;> simp [h1, h2, h3, h4, h5, h6, h7] <;> omega

/-! ## The instructions -/

theorem bind_ok {α β : Type} {e : Except Err α} {f : α → Except Err β} {y : β} :
    (e >>= f) = .ok y ↔ ∃ a, e = .ok a ∧ f a = .ok y := by
  cases e with
  | error a => exact ⟨fun h => (nomatch h), fun ⟨_, h, _⟩ => (nomatch h)⟩
  | ok a =>
    constructor
    · intro h; exact ⟨a, rfl, h⟩
    · rintro ⟨b, h, h'⟩; cases h; exact h'

/-- The system before an instruction that finds the size not known yet is the empty one. -/
theorem sized_ok {x : Ctx} {v : Instr} {na : ℕ} {b b' : Beads} (h : sized x v na b = .ok b') :
    (b.nb ≠ 0 ∧ b' = b) ∨ (b.nb = 0 ∧ v.index < 0 ∧ b' = Beads.zeros na x.nbeads) := by
  unfold sized at h
  split at h
  · rename_i h0
    split at h
    · cases h
    · exact .inr ⟨h0, by omega, (Except.ok.inj h).symm⟩
  · rename_i h0
    exact .inl ⟨h0, (Except.ok.inj h).symm⟩

/-- **C109.** `<positions>`: the positions that are selected are the ones of the file or of the
list; the other positions, the momenta, the masses, the labels and the cell stay as they were. -/
theorem positions_set {x : Ctx} {v : Instr} {s s' : Sim} (h : doPositions x v s = .ok s') :
    ∃ r, initVector x.env x.nbeads v false "length" v.units = .ok r ∧
      ∃ b : Beads, ((s.beads.nb ≠ 0 ∧ b = s.beads) ∨
          (s.beads.nb = 0 ∧ v.index < 0 ∧ b = Beads.zeros r.na x.nbeads)) ∧
        Sets v b.nb b.na b.q s'.beads.q r ∧
        s' = { s with beads := { b with q := s'.beads.q } } := by
  unfold doPositions at h
  simp only [bind_ok] at h
  obtain ⟨r, hr, b, hb, q, hq, h⟩ := h
  obtain rfl := Except.ok.inj h
  exact ⟨r, hr, b, sized_ok hb, setVector_sets hq, rfl⟩

/-- **C109.** `<momenta>` from a file, a checkpoint or a list: the momenta that are selected are
set, with a factor for the change of the number of beads, and nothing else. -/
theorem momenta_set {x : Ctx} {v : Instr} {s s' : Sim} (h : doMomenta x v s = .ok s') :
    ∃ r, initVector x.env x.nbeads v true "momentum" v.units = .ok r ∧
      ∃ b : Beads, ((s.beads.nb ≠ 0 ∧ b = s.beads) ∨
          (s.beads.nb = 0 ∧ v.index < 0 ∧ b = Beads.zeros r.na x.nbeads)) ∧
        Sets v b.nb b.na b.p s'.beads.p
          { r with x := fun i c => r.x i c * √((x.nbeads : ℝ) / r.nb) } ∧
        s' = { s with beads := { b with p := s'.beads.p }, fmom := true } := by
  unfold doMomenta at h
  simp only [bind_ok] at h
  obtain ⟨r, hr, b, hb, q, hq, h⟩ := h
  obtain rfl := Except.ok.inj h
  exact ⟨r, hr, b, sized_ok hb, setVector_sets hq, rfl⟩

/-- **C109.** `<velocities>` once the masses are known: the momenta that are selected are the
velocities times the masses of the system. -/
theorem velocities_set {x : Ctx} {v : Instr} {s s' : Sim} (hm : s.fmass = true)
    (h0 : s.beads.nb ≠ 0) (h : doVelocities x v s = .ok s') :
    ∃ r, initVector x.env x.nbeads v false "velocity" v.units = .ok r ∧
      Sets v s.beads.nb s.beads.na s.beads.p s'.beads.p
        { r with x := fun i c => r.x i c *
          s.beads.m (if v.index < 0 then c / 3 else v.index.toNat) * √((x.nbeads : ℝ) / r.nb) } ∧
      s' = { s with beads := { s.beads with p := s'.beads.p }, fmom := true } := by
  unfold doVelocities at h
  simp only [bind_ok] at h
  obtain ⟨r, hr, h⟩ := h
  refine ⟨r, hr, ?_⟩
  have hcond : ¬ (s.beads.nb = 0 ∨ s.fmass = false) := by simp [hm, h0]
  simp only [if_neg hcond, if_neg h0] at h
  split at h
  · rename_i hx
    have hx' : ¬ v.index < 0 := by omega
    split at h
    · cases h
    · simp only [bind_ok] at h
      obtain ⟨q, hq, h⟩ := h
      obtain rfl := Except.ok.inj h
      refine ⟨?_, rfl⟩
      simp only [if_neg hx']
      exact setVector_sets hq
  · rename_i hx
    have hx' : v.index < 0 := by omega
    split at h
    · cases h
    · simp only [bind_ok] at h
      obtain ⟨q, hq, h⟩ := h
      obtain rfl := Except.ok.inj h
      refine ⟨?_, rfl⟩
      simp only [if_pos hx']
      exact setVector_sets hq

/-! ## Temperatures -/

theorem temp_cols (nb na : ℕ) (m : ℕ → ℝ) (p : ℕ → ℕ → ℝ) :
    temperature nb na m p
      = 2 * (∑ c ∈ range (3 * na), (∑ i ∈ range nb, p i c ^ 2) / (2 * m (c / 3)))
        / (3 * na * nb * nb) := by
  unfold temperature
  rw [Finset.sum_comm]
  simp only [← Finset.sum_div]

/-- A path of momenta that is expanded and multiplied as the instructions do has the temperature
of the original path. -/
theorem temp_up {nb nb' na : ℕ} (h0 : 0 < nb) (h : nb ≤ nb') (m : ℕ → ℝ) (x y : ℕ → ℕ → ℝ)
    (hy : ∀ i c, i < nb' → c < 3 * na →
      y i c = rescale nb nb' na (fun i c => x i c * √((nb' : ℝ) / nb)) i c) :
    temperature nb' na m y = temperature nb na m x := by
  have hn : (0 : ℝ) < nb := by exact_mod_cast h0
  have hn' : (0 : ℝ) < nb' := by exact_mod_cast (by omega : 0 < nb')
  rw [temp_cols, temp_cols]
  have e : ∀ c ∈ range (3 * na), (∑ i ∈ range nb', y i c ^ 2) / (2 * m (c / 3))
      = ((nb' : ℝ) / nb) ^ 2 * ((∑ i ∈ range nb, x i c ^ 2) / (2 * m (c / 3))) := by
    intro c hc
    rw [sum_congr rfl fun i hi => by rw [hy i c (mem_range.1 hi) (mem_range.1 hc)],
      rescale_sq_up h _ (mem_range.1 hc)]
    have : ∀ i, (x i c * √((nb' : ℝ) / nb)) ^ 2 = x i c ^ 2 * (nb' / nb) := by
      intro i; rw [mul_pow, Real.sq_sqrt (div_nonneg hn'.le hn.le)]
    simp only [this, ← Finset.sum_mul]
    ring
  rw [sum_congr rfl e, ← Finset.mul_sum]
  generalize ∑ c ∈ range (3 * na), (∑ i ∈ range nb, x i c ^ 2) / (2 * m (c / 3)) = K
  by_cases ha : (na : ℝ) = 0
  · simp [ha]
  · field_simp

/-- A path of momenta that is contracted does not become hotter. -/
theorem temp_down {nb nb' na : ℕ} (h0 : 0 < nb') (h : nb' ≤ nb) (m : ℕ → ℝ) (hm : ∀ a, a < na → 0 < m a)
    (x y : ℕ → ℕ → ℝ)
    (hy : ∀ i c, i < nb' → c < 3 * na →
      y i c = rescale nb nb' na (fun i c => x i c * √((nb' : ℝ) / nb)) i c) :
    temperature nb' na m y ≤ temperature nb na m x := by
  have hn' : (0 : ℝ) < nb' := by exact_mod_cast h0
  have hn : (0 : ℝ) < nb := by exact_mod_cast (by omega : 0 < nb)
  rw [temp_cols, temp_cols]
  have e : ∀ c ∈ range (3 * na), (∑ i ∈ range nb', y i c ^ 2) / (2 * m (c / 3))
      ≤ ((nb' : ℝ) / nb) ^ 2 * ((∑ i ∈ range nb, x i c ^ 2) / (2 * m (c / 3))) := by
    intro c hc
    have hc' := mem_range.1 hc
    have hmc : 0 < 2 * m (c / 3) := by
      have := hm (c / 3) (by omega)
      positivity
    rw [← mul_div_assoc, div_le_div_iff_of_pos_right hmc,
      sum_congr rfl fun i hi => by rw [hy i c (mem_range.1 hi) hc']]
    refine (rescale_sq_down h _ hc').trans_eq ?_
    have : ∀ i, (x i c * √((nb' : ℝ) / nb)) ^ 2 = x i c ^ 2 * (nb' / nb) := by
      intro i; rw [mul_pow, Real.sq_sqrt (div_nonneg hn'.le hn.le)]
    simp only [this, ← Finset.sum_mul]
    ring
  have e' := Finset.sum_le_sum e
  rw [← Finset.mul_sum] at e'
  generalize ∑ c ∈ range (3 * na), (∑ i ∈ range nb, x i c ^ 2) / (2 * m (c / 3)) = K at e'
  generalize ∑ c ∈ range (3 * na), (∑ i ∈ range nb', y i c ^ 2) / (2 * m (c / 3)) = K' at e'
  by_cases ha : na = 0
  · simp [ha]
  · have ha' : (0 : ℝ) < na := by exact_mod_cast Nat.pos_of_ne_zero ha
    rw [div_le_div_iff₀ (by positivity) (by positivity)]
    have : K' * (nb : ℝ) ^ 2 ≤ (nb' : ℝ) ^ 2 * K := by
      rw [div_pow, div_mul_eq_mul_div, le_div_iff₀ (by positivity)] at e'
      linarith
    nlinarith [this]

theorem setVector_all {v : Instr} {nb na : ℕ} {old new : ℕ → ℕ → ℝ} {r : Vec2}
    (hx : v.index < 0) (hb : v.bead < 0) (h : setVector v nb na old r = .ok new) :
    r.na = na ∧ new = rescale r.nb nb r.na r.x := by
  have ha := (setVector_sets h).atoms hx
  refine ⟨ha, ?_⟩
  unfold setVector at h
  rw [if_neg (by simp [ha]), if_neg (by omega), if_neg (by omega), if_pos hb, if_pos hx] at h
  exact (Except.ok.inj h).symm

/-- **C109.** `<momenta>` for the whole system from a path with fewer beads, or as many, than the
simulation has: the temperature of the momenta is the one of the path. -/
theorem momenta_temperature {x : Ctx} {v : Instr} {s s' : Sim} (hx : v.index < 0) (hb : v.bead < 0)
    (hn : s.beads.nb = 0 ∨ s.beads.nb = x.nbeads) {r : Vec2}
    (hr : initVector x.env x.nbeads v true "momentum" v.units = .ok r) (h0 : 0 < r.nb)
    (hle : r.nb ≤ x.nbeads) (h : doMomenta x v s = .ok s') :
    s'.beads.nb = x.nbeads ∧ s'.beads.na = r.na ∧ ∀ m,
      temperature x.nbeads r.na m s'.beads.p = temperature r.nb r.na m r.x := by
  unfold doMomenta at h
  simp only [bind_ok] at h
  obtain ⟨r', hr', b, hb', p, hp, h⟩ := h
  obtain rfl := Except.ok.inj (hr.symm.trans hr')
  obtain rfl := Except.ok.inj h
  have hbn : b.nb = x.nbeads := by
    rcases sized_ok hb' with ⟨h1, rfl⟩ | ⟨-, -, rfl⟩
    · exact hn.resolve_left h1
    · rfl
  obtain ⟨ha, rfl⟩ := setVector_all hx hb hp
  refine ⟨hbn, ha.symm, fun m => ?_⟩
  refine temp_up h0 hle m r.x _ fun i c _ _ => ?_
  simp only [hbn]

/-- **C109.** With more beads than the simulation has, the modes that are kept are not hotter
than the path. -/
theorem momenta_temperature_le {x : Ctx} {v : Instr} {s s' : Sim} (hx : v.index < 0)
    (hb : v.bead < 0) (hn : s.beads.nb = 0 ∨ s.beads.nb = x.nbeads) {r : Vec2}
    (hr : initVector x.env x.nbeads v true "momentum" v.units = .ok r) (h0 : 0 < x.nbeads)
    (hle : x.nbeads ≤ r.nb) (h : doMomenta x v s = .ok s') (m : ℕ → ℝ)
    (hm : ∀ a, a < r.na → 0 < m a) :
    temperature x.nbeads r.na m s'.beads.p ≤ temperature r.nb r.na m r.x := by
  unfold doMomenta at h
  simp only [bind_ok] at h
  obtain ⟨r', hr', b, hb', p, hp, h⟩ := h
  obtain rfl := Except.ok.inj (hr.symm.trans hr')
  obtain rfl := Except.ok.inj h
  have hbn : b.nb = x.nbeads := by
    rcases sized_ok hb' with ⟨h1, rfl⟩ | ⟨-, -, rfl⟩
    · exact hn.resolve_left h1
    · rfl
  obtain ⟨ha, rfl⟩ := setVector_all hx hb hp
  refine temp_down h0 hle m hm r.x _ fun i c _ _ => ?_
  simp only [hbn]

/-- **C109.** The same for `<velocities>` once the masses are known. -/
theorem velocities_temperature {x : Ctx} {v : Instr} {s s' : Sim} (hx : v.index < 0)
    (hb : v.bead < 0) (hm : s.fmass = true) (h0 : s.beads.nb ≠ 0) (hn : s.beads.nb = x.nbeads)
    {r : Vec2} (hr : initVector x.env x.nbeads v false "velocity" v.units = .ok r) (hr0 : 0 < r.nb)
    (hle : r.nb ≤ x.nbeads) (h : doVelocities x v s = .ok s') :
    temperature s'.beads.nb s'.beads.na s'.beads.m s'.beads.p
      = temperature r.nb r.na s.beads.m fun i c => s.beads.m (c / 3) * r.x i c := by
  unfold doVelocities at h
  simp only [bind_ok] at h
  obtain ⟨r', hr', h⟩ := h
  obtain rfl := Except.ok.inj (hr.symm.trans hr')
  have hcond : ¬ (s.beads.nb = 0 ∨ s.fmass = false) := by simp [hm, h0]
  simp only [if_neg hcond, if_neg h0, if_neg (show ¬ 0 ≤ v.index by omega)] at h
  split at h
  · cases h
  · simp only [bind_ok] at h
    obtain ⟨p, hp, h⟩ := h
    obtain rfl := Except.ok.inj h
    obtain ⟨ha, rfl⟩ := setVector_all hx hb hp
    dsimp only
    rw [hn, ← ha]
    refine temp_up hr0 hle s.beads.m _ _ fun i c _ _ => ?_
    dsimp only
    congr 1
    funext i c
    ring

/-! ## Masses, labels, cell and thermal momenta -/

theorem setAtoms_ok {α : Type} {index : ℤ} {na k : ℕ} {old new out : ℕ → α}
    (h : setAtoms index na old k new = .ok out) (a : ℕ) (ha : a < na) :
    (0 ≤ index → a ≠ index.toNat → out a = old a) ∧
      ((index < 0 ∨ a = index.toNat) →
        (k = na ∧ index < 0 ∧ out a = new a) ∨ (k = 1 ∧ out a = new 0)) := by
  unfold setAtoms at h
  split at h
  · rename_i hx
    refine ⟨fun g => absurd g (by omega), fun _ => ?_⟩
    split at h
    · rename_i hk
      obtain rfl := Except.ok.inj h
      exact .inl ⟨hk, hx, rfl⟩
    · split at h
      · rename_i hk
        obtain rfl := Except.ok.inj h
        exact .inr ⟨hk, rfl⟩
      · cases h
  · rename_i hx
    dsimp only at h
    by_cases hk : k = 1
    · rw [if_pos hk] at h
      obtain rfl := Except.ok.inj h
      refine ⟨fun _ hn => if_neg (fun e => hn e.1), fun e => .inr ⟨hk, if_pos ⟨?_, ha⟩⟩⟩
      exact e.resolve_left hx
    · rw [if_neg hk] at h
      by_cases hk' : k = if index.toNat < na then 1 else 0
      · rw [if_pos hk'] at h
        obtain rfl := Except.ok.inj h
        refine ⟨fun _ _ => rfl, fun e => ?_⟩
        have : a = index.toNat := e.resolve_left hx
        rw [if_pos (by omega)] at hk'
        exact absurd hk' hk
      · rw [if_neg hk'] at h; cases h

/-- **C109.** `<masses>`: masses that are not selected, positions, labels and cell stay; if
momenta and masses were known already, every kinetic energy stays the same, otherwise the
momenta do. -/
theorem masses_set {x : Ctx} {v : Instr} {s s' : Sim} (h : doMasses x v s = .ok s') :
    s'.beads.q = s.beads.q ∧ s'.beads.names = s.beads.names ∧ s'.h = s.h ∧
      s'.beads.nb = s.beads.nb ∧ s'.beads.na = s.beads.na ∧
      (∀ a, a < s.beads.na → 0 ≤ v.index → a ≠ v.index.toNat → s'.beads.m a = s.beads.m a) ∧
      (∀ i c, 0 < s.beads.m (c / 3) → 0 < s'.beads.m (c / 3) → s.fmom = true → s.fmass = true →
        s'.beads.p i c ^ 2 / (2 * s'.beads.m (c / 3)) = s.beads.p i c ^ 2 / (2 * s.beads.m (c / 3))) ∧
      (¬ (s.fmom = true ∧ s.fmass = true) → s'.beads.p = s.beads.p) := by
  unfold doMasses at h
  by_cases h0 : s.beads.nb = 0
  · rw [if_pos h0] at h; cases h
  rw [if_neg h0] at h
  simp only [bind_ok] at h
  obtain ⟨⟨k, rm⟩, -, h⟩ := h
  by_cases hb : 0 ≤ v.bead
  · rw [if_pos hb] at h; cases h
  rw [if_neg hb] at h
  simp only [bind_ok] at h
  obtain ⟨m', hm', h⟩ := h
  obtain rfl := Except.ok.inj h
  refine ⟨rfl, rfl, rfl, rfl, rfl, fun a ha => (setAtoms_ok hm' a ha).1, ?_, ?_⟩
  · intro i c h1 h2 h3 h4
    dsimp only at h2 ⊢
    simp only [h3, h4, Bool.and_self, if_true]
    rw [mul_pow, div_pow, Real.sq_sqrt h1.le, Real.sq_sqrt h2.le]
    field_simp
  · intro hn
    dsimp only
    rw [if_neg]
    simpa using hn

/-- **C109.** `<masses>` from a list for all the atoms, or for one: the masses are the numbers
of the list in the units given. -/
theorem masses_manual {x : Ctx} {v : Instr} {s s' : Sim} {l : List ℝ} {u : ℝ}
    (hv : v.mode = "manual") (hl : v.value = .nums l) (hu : x.env.conv "mass" v.units = .ok u)
    (h : doMasses x v s = .ok s') (a : ℕ) (ha : a < s.beads.na)
    (hx : v.index < 0 ∨ a = v.index.toNat) :
    (l.length = s.beads.na ∧ v.index < 0 ∧ s'.beads.m a = nth l a * u) ∨
      (l.length = 1 ∧ s'.beads.m a = nth l 0 * u) := by
  unfold doMasses at h
  by_cases h0 : s.beads.nb = 0
  · rw [if_pos h0] at h; cases h
  rw [if_neg h0] at h
  simp only [bind_ok] at h
  obtain ⟨⟨k, rm⟩, hk, h⟩ := h
  by_cases hb : 0 ≤ v.bead
  · rw [if_pos hb] at h; cases h
  rw [if_neg hb] at h
  simp only [bind_ok] at h
  obtain ⟨m', hm', h⟩ := h
  obtain rfl := Except.ok.inj h
  unfold massesOf at hk
  rw [if_pos hv] at hk
  simp only [bind_ok] at hk
  obtain ⟨u', hu', hk⟩ := hk
  obtain rfl := Except.ok.inj (hu.symm.trans hu')
  rw [hl] at hk
  obtain ⟨rfl, rfl⟩ := Prod.mk.inj (Except.ok.inj hk)
  exact (setAtoms_ok hm' a ha).2 hx

/-- **C109.** `<labels>`: only labels that are selected change. -/
theorem labels_set {x : Ctx} {v : Instr} {s s' : Sim} (h : doLabels x v s = .ok s') :
    s' = { s with beads := { s.beads with names := s'.beads.names } } ∧
      ∀ a, a < s.beads.na → 0 ≤ v.index → a ≠ v.index.toNat →
        s'.beads.names a = s.beads.names a := by
  unfold doLabels at h
  by_cases h0 : s.beads.nb = 0
  · rw [if_pos h0] at h; cases h
  rw [if_neg h0] at h
  simp only [bind_ok] at h
  obtain ⟨⟨k, rm⟩, -, h⟩ := h
  by_cases hb : 0 ≤ v.bead
  · rw [if_pos hb] at h; cases h
  rw [if_neg hb] at h
  simp only [bind_ok] at h
  obtain ⟨m', hm', h⟩ := h
  obtain rfl := Except.ok.inj h
  exact ⟨rfl, fun a ha => (setAtoms_ok hm' a ha).1⟩

/-- **C109.** `<cell>`: only the cell changes. -/
theorem cell_set {x : Ctx} {v : Instr} {s s' : Sim} (h : doCell x v s = .ok s') :
    s' = { s with h := s'.h } := by
  unfold doCell at h
  split at h
  · simp only [bind_ok] at h
    obtain ⟨u, -, h⟩ := h
    split at h
    · split at h
      · obtain rfl := Except.ok.inj h; rfl
      · cases h
    · cases h
  · split at h
    · simp only [bind_ok] at h
      obtain ⟨u, -, r, -, h⟩ := h
      obtain rfl := Except.ok.inj h; rfl
    · simp only [bind_ok] at h
      obtain ⟨u, -, r, -, h⟩ := h
      split at h
      · cases h
      · split at h
        · obtain rfl := Except.ok.inj h; rfl
        · simp only [bind_ok] at h
          obtain ⟨_, -, r, -, h⟩ := h
          obtain rfl := Except.ok.inj h; rfl

/-- **C109.** A cell given as a list is the list in the units given, row by row. -/
theorem cell_manual {x : Ctx} {v : Instr} {s s' : Sim} {l : List ℝ} {u : ℝ}
    (hv : v.mode = "manual") (hl : v.value = .nums l) (hu : x.env.conv "length" v.units = .ok u)
    (h : doCell x v s = .ok s') : l.length = 9 ∧ ∀ i j : Fin 3, s'.h i j = nth l (3 * i + j) * u := by
  unfold doCell at h
  rw [if_pos hv] at h
  simp only [bind_ok] at h
  obtain ⟨u', hu', h⟩ := h
  obtain rfl := Except.ok.inj (hu.symm.trans hu')
  rw [hl] at h
  dsimp only at h
  split at h
  · rename_i h9
    obtain rfl := Except.ok.inj h
    exact ⟨h9, fun _ _ => rfl⟩
  · cases h

/-- **C109.** Thermal momenta: only momenta change, and only those of the atom that is
selected. -/
theorem thermal_set {x : Ctx} {v : Instr} {s s' : Sim} (h : doThermal x v s = .ok s') :
    s' = { s with beads := { s.beads with p := s'.beads.p }, fmom := true, draws := s.draws + 1 } ∧
      ∀ i c, 0 ≤ v.index → c / 3 ≠ v.index.toNat → s'.beads.p i c = s.beads.p i c := by
  unfold doThermal at h
  by_cases h0 : s.beads.na = 0
  · rw [if_pos h0] at h; cases h
  rw [if_neg h0] at h
  by_cases hm : (!s.fmass) = true
  · rw [if_pos hm] at h; cases h
  rw [if_neg hm] at h
  simp only [bind_ok] at h
  obtain ⟨t, -, h⟩ := h
  by_cases hb : 0 ≤ v.bead
  · rw [if_pos hb] at h; cases h
  rw [if_neg hb] at h
  split at h
  · split at h
    · cases h
    · obtain rfl := Except.ok.inj h
      exact ⟨rfl, fun i c _ hn => if_neg hn⟩
  · rename_i hx
    obtain rfl := Except.ok.inj h
    exact ⟨rfl, fun i c g => absurd g hx⟩

/-- **C109.** An initialisation that ends has at least one atom, a cell that is not flat,
positive masses and labels for all the atoms. -/
theorem stage1_complete {x : Ctx} {l : List (Key × Instr)} {b : Beads} {h : Mat} {s : Sim}
    (e : stage1 x l b h = .ok s) :
    0 < s.beads.na ∧ detUt s.h ≠ 0 ∧ ∀ a, a < s.beads.na → 0 < s.beads.m a ∧ s.beads.names a ≠ "" := by
  unfold stage1 at e
  simp only [bind_ok] at e
  obtain ⟨s', -, e⟩ := e
  unfold checked at e
  split at e
  · cases e
  split at e
  · cases e
  split at e
  · cases e
  rename_i h1 h2 h3
  obtain rfl := Except.ok.inj e
  refine ⟨by omega, h2, fun a ha => ?_⟩
  push Not at h3
  exact ⟨(h3 a ha).1, (h3 a ha).2⟩

/-! ## The hypotheses are met -/

/-- A file with two frames of one hydrogen atom, which also serves for velocities. -/
def twoFrames : Env where
  file := fun _ _ _ _ _ => .ok ([⟨1, fun _ => 0, fun _ => 1837, fun _ => "H"⟩,
    ⟨1, fun _ => 1, fun _ => 1837, fun _ => "H"⟩], fun i j => if i = j then 10 else 0)
  chk := fun _ => .ok (⟨2, 1, fun _ _ => 0, fun i _ => i, fun _ => 1837, fun _ => "H"⟩, 1)
  conv := fun _ _ => .ok 2

/-- Eight beads are asked for. -/
def eight : Ctx := ⟨twoFrames, 8, 1, 1, fun _ => 1, fun _ _ _ => 1⟩

/-- A system of eight beads with one atom of mass one. -/
def small : Sim := ⟨⟨8, 1, fun _ _ => 0, fun _ _ => 3, fun _ => 1, fun _ => "H"⟩, 1, true, true, 0⟩

/-- A path of two beads for the positions of the whole system. -/
def whole : Instr := ⟨.text "init.xyz", "xyz", "", -1, -1⟩

/-- A path of two beads is stored in a system of eight. -/
example : ∃ s', doPositions eight whole small = .ok s' := ⟨_, rfl⟩

/-- The size of the system is not known. -/
example : ∃ s', doPositions eight whole (start (Beads.zeros 0 0) 1) = .ok s' := ⟨_, rfl⟩

/-- The momenta of a checkpoint of two beads. -/
example : ∃ s', doMomenta eight ⟨.text "restart", "chk", "", -1, -1⟩ small = .ok s' ∧
    ∀ m, temperature 8 1 m s'.beads.p = temperature 2 1 m fun i _ => i :=
  ⟨_, rfl, (momenta_temperature (v := ⟨.text "restart", "chk", "", -1, -1⟩) (x := eight)
    (s := small) (by decide) (by decide) (.inr rfl) (r := ⟨2, 1, fun i _ => i⟩) rfl (by decide)
    (by decide) rfl).2.2⟩

/-- One bead is asked for, so that the path is contracted. -/
example : ∃ s', doMomenta ⟨twoFrames, 1, 1, 1, fun _ => 1, fun _ _ _ => 1⟩
    ⟨.text "restart", "chk", "", -1, -1⟩ (start (Beads.zeros 0 0) 1) = .ok s' := ⟨_, rfl⟩

example : ∃ s', doVelocities eight whole small = .ok s' := ⟨_, rfl⟩

example : ∃ s', doMasses eight ⟨.nums [5], "manual", "", 0, -1⟩ small = .ok s' ∧
    s'.beads.m 0 = 10 := by
  refine ⟨_, rfl, ?_⟩
  rcases masses_manual (x := eight) (v := ⟨.nums [5], "manual", "", 0, -1⟩) (s := small) rfl rfl rfl
    rfl 0 (by decide) (.inr rfl) with ⟨-, h, -⟩ | ⟨-, h⟩
  · simp at h
  · rw [h]; norm_num [nth]

example : ∃ s', doLabels eight ⟨.strs ["D"], "manual", "", -1, -1⟩ small = .ok s' := ⟨_, rfl⟩

example : ∃ s', doCell eight ⟨.nums [1, 0, 0, 0, 1, 0, 0, 0, 1], "manual", "", -1, -1⟩ small
    = .ok s' := ⟨_, rfl⟩

example : ∃ s', doThermal eight ⟨.num 300, "thermal", "", 0, -1⟩ small = .ok s' := ⟨_, rfl⟩

end Verif.Init
