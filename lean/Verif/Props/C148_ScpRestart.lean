import Verif.Props.C147_ScpMoves
import Verif.Props.C145_ScpSamples

/-!
# C148: continuing a self-consistent phonon calculation

The samples of an iteration are stored and read again, but not the distribution they were drawn from,
nor some of the options.
-/

namespace Verif.Scp

open Finset Matrix

variable {d M : ℕ}

/-- Specification: the average of the anharmonic force for the distribution about `q` from samples
drawn about `q0`, every sample with the ratio of the two densities. -/
noncomputable def reweighted (q : Vec d) (K iD : Mat d) (q0 : Vec d) (iD0 : Mat d)
    (x f : Fin M → Vec d) : Vec d := fun a =>
  (∑ s, dens q iD (x s) / dens q0 iD0 (x s) * (f s a + (K *ᵥ (x s - q)) a))
    / ∑ s, dens q iD (x s) / dens q0 iD0 (x s)

/-- **C148.** In a run that is not interrupted the average over the samples of an earlier iteration
is the reweighted one: iteration `s0` made the samples, `s` is any later state. -/
theorem later_average (s0 s : St d) (hK : s.md.Kᵀ = s.md.K) (x f : Fin M → Vec d) :
    avgF s.q s.md.K s.md.iD (kept s0 x f) = reweighted s.q s.md.K s.md.iD s0.q s0.md.iD x f := by
  funext a
  simp only [avgF, rw_ratio, kept, reweighted, harm_eq s.q hK, Pi.neg_apply, sub_neg_eq_add]

/-- **C148.** Continuing before the centre has moved changes nothing. -/
theorem restart_before_move (s0 s : St d) (hq : s.q = s0.q) (hi : s.md.iD = s0.md.iD)
    (x f : Fin M → Vec d) : kept s x f = kept s0 x f := by
  simp [kept, hq, hi]

/-- **C148, negated.** A continued run reads the samples of the first iteration and takes them for
samples of the present distribution: all weights are one. -/
theorem restart_weights (s : St d) (x f : Fin M → Vec d) (j : Fin M) :
    rw s.q s.md.iD (kept s x f) j = 1 := by
  have h : Own s.q s.md.iD (kept s x f) := ⟨rfl, rfl⟩
  exact rw_own h j

/-- Two samples of a distribution of unit width about 0. -/
def rx : Fin 2 → Vec 1 := fun s _ => if s = 0 then 1 else -1
/-- Their forces. -/
def rf : Fin 2 → Vec 1 := fun s _ => if s = 0 then 1 else 2

/-- **C148, negated.** After the centre has moved from 0 to 1 the run that goes on and the run that
is continued from the restart file get different forces from the same samples. -/
theorem restart_biased : ∃ (s0 s : St 1), s.md.Kᵀ = s.md.K ∧
    avgF s.q s.md.K s.md.iD (kept s rx rf) 0 = 1 / 2 ∧
    reweighted s.q s.md.K s.md.iD s0.q s0.md.iD rx rf 0 > 1 / 2 ∧
    avgF s.q s.md.K s.md.iD (kept s0 rx rf) ≠ avgF s.q s.md.K s.md.iD (kept s rx rf) := by
  have hs : (⟨fun _ => 1, 1, unitModes⟩ : St 1).md.Kᵀ = (⟨fun _ => 1, 1, unitModes⟩ : St 1).md.K :=
    Matrix.transpose_one
  have e1 : avgF (fun _ => 1) 1 1 (kept (⟨fun _ => 1, 1, unitModes⟩ : St 1) rx rf) 0 = 1 / 2 := by
    have h : ∀ j, rw (fun _ => (1 : ℝ)) (1 : Mat 1)
        (kept (⟨fun _ => 1, 1, unitModes⟩ : St 1) rx rf) j = 1 := fun j =>
      restart_weights ⟨fun _ => 1, 1, unitModes⟩ rx rf j
    simp only [avgF, h, harm_eq _ Matrix.transpose_one]
    simp [Fin.sum_univ_two, kept, rx, rf]
  have e2 : reweighted (fun _ => 1) 1 1 0 1 rx rf 0 > 1 / 2 := by
    simp only [reweighted, dens, Fin.sum_univ_two, ← Real.exp_sub]
    simp only [rx, rf, Matrix.one_mulVec, dotProduct, Finset.univ_unique, Fin.default_eq_zero,
      Finset.sum_singleton, Pi.sub_apply, Pi.zero_apply, if_true, Fin.isValue, one_ne_zero, if_false]
    norm_num
    have h : Real.exp (-(3 / 2)) < Real.exp (1 / 2) := Real.exp_lt_exp.mpr (by norm_num)
    have h1 := Real.exp_pos (-(3 / 2))
    rw [lt_div_iff₀ (by positivity)]
    linarith
  refine ⟨⟨0, 1, unitModes⟩, ⟨fun _ => 1, 1, unitModes⟩, hs, e1, e2, ?_⟩
  intro h
  have h1 := congrFun (later_average ⟨0, 1, unitModes⟩ ⟨fun _ => 1, 1, unitModes⟩ hs rx rf) 0
  rw [h] at h1
  have h2 : avgF (fun _ => 1) 1 1 (kept (⟨fun _ => 1, 1, unitModes⟩ : St 1) rx rf) 0
    = reweighted (fun _ => 1) 1 1 0 1 rx rf 0 := h1
  rw [e1] at h2
  exact absurd h2 (ne_of_lt e2)

/-- **C148, negated for three options.** The options come back from a restart file if and only if
these three had their defaults. -/
theorem options_back_iff (o : SOpts) :
    reread o = o ↔ o.wthr = 9 / 10 ∧ o.precheck = true ∧ o.checkweights = true := by
  obtain ⟨a, b, c, w, p, k⟩ := o
  simp only [reread, SOpts.mk.injEq, true_and]
  constructor
  · rintro ⟨h1, h2, h3⟩; exact ⟨h1.symm, h2.symm, h3.symm⟩
  · rintro ⟨h1, h2, h3⟩; exact ⟨h1.symm, h2.symm, h3.symm⟩

/-- **C148, negated.** A steepest descent calculation without the check, which moves, no longer moves
once it is continued from its restart file. -/
theorem restart_sd_stops {p : Par d} (o : SOpts) (hd : o.disp = .sd) (asr : Vec d → Mat d → Mat d)
    (bs : List (Batch d M)) (s : St d) :
    displace p ⟨(reread o).precheck, (reread o).disp, (reread o).tau, (reread o).wthr,
      (reread o).expo, asr⟩ bs s = some s :=
  sd_never_moves rfl hd bs s

end Verif.Scp
