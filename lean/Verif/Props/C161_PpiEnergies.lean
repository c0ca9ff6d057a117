import Verif.Tools.Ppi
import Mathlib.Analysis.SpecialFunctions.Log.Deriv
import Mathlib.Analysis.SpecialFunctions.ExpDeriv
import Mathlib.Analysis.Calculus.Deriv.Inv
import Mathlib.Analysis.Calculus.Deriv.Pow
import Mathlib.Algebra.BigOperators.Field
import Mathlib.Tactic.FieldSimp
import Mathlib.Tactic.Ring
import Mathlib.Tactic.Positivity
import Mathlib.Tactic.Linarith
import Mathlib.Tactic.LinearCombination

/-!
# C161: corrections from perturbed path integrals

Small specification.  The paths of a sample have the weights `exp (-action)` at the inverse
temperature `beta0`; at another one (or with another mass, or another strength of the potential) the
same paths are weighted with the ratio of the weights.  The free energy (times `beta`) of the fourth
order action of Takahashi and Imada differs from that of the sample, to first order, by
`freeCorr = c beta ^ 3 ⟨f ^ 2 / m⟩`.  The energies and the heat capacity are its derivatives.
-/

namespace Verif.Ppi

open Finset Verif.Estim Real

variable {n N : ℕ}

/-! ### Specification -/

/-- The mean over a sample. -/
noncomputable def mean (l : List (Frame n N)) (g : Frame n N → ℝ) : ℝ := (l.map g).sum / l.length

/-- The negative logarithm of the weight of a path at the inverse temperature `beta`, with the masses
multiplied by `mu` and the potential by `lam`; terms that are the same for all are left out. -/
noncomputable def action (hbar : ℝ) (m : Fin N → ℝ) (beta mu lam : ℝ) (x : Frame n N) : ℝ :=
  3 / 2 * N * ((n + 1 : ℕ) : ℝ) * (log beta - log mu)
    + ((n + 1 : ℕ) : ℝ) / (2 * beta * hbar ^ 2) * (∑ a, mu * m a * springs x.q a)
    + beta * (lam * x.U)

/-- The sum of the weights at `t` of paths sampled at `t0`. -/
noncomputable def weight (S : ℝ → Frame n N → ℝ) (l : List (Frame n N)) (t0 t : ℝ) : ℝ :=
  (l.map fun x => exp (S t0 x - S t x)).sum

/-- The average at `t` over paths sampled at `t0`. -/
noncomputable def avg (S : ℝ → Frame n N → ℝ) (l : List (Frame n N)) (t0 : ℝ)
    (A : ℝ → Frame n N → ℝ) (t : ℝ) : ℝ :=
  (l.map fun x => A t x * exp (S t0 x - S t x)).sum / weight S l t0 t

/-- `hbar ^ 2 / (24 P ^ 3)` for `P` beads. -/
noncomputable def ppiC (n : ℕ) (hbar : ℝ) : ℝ := hbar ^ 2 / (24 * ((n + 1 : ℕ) : ℝ) ^ 3)

/-- The first order change of the free energy, as a function of the inverse temperature. -/
noncomputable def freeCorr (hbar : ℝ) (m : Fin N → ℝ) (l : List (Frame n N)) (beta0 beta : ℝ) : ℝ :=
  avg (fun b => action hbar m b 1 1) l beta0 (fun b x => ppiC n hbar * b ^ 3 * f2 m x) beta

/-- The same with the potential, and so the forces, multiplied by `lam`. -/
noncomputable def freeCorrPot (hbar : ℝ) (m : Fin N → ℝ) (l : List (Frame n N)) (beta lam : ℝ) : ℝ :=
  avg (fun r => action hbar m beta 1 r) l 1
    (fun r x => ppiC n hbar * beta ^ 3 * f2 m ⟨x.q, fun i => r * x.f i, x.U, x.time⟩) lam

/-- The same with the masses multiplied by `mu`. -/
noncomputable def freeCorrMass (hbar : ℝ) (m : Fin N → ℝ) (l : List (Frame n N)) (beta mu : ℝ) : ℝ :=
  avg (fun r => action hbar m beta r 1) l 1
    (fun r x => ppiC n hbar * beta ^ 3 * f2 (fun a => r * m a) x) mu

/-- The free energy (times `beta`) up to a constant, with the correction. -/
noncomputable def free (hbar : ℝ) (m : Fin N → ℝ) (l : List (Frame n N)) (beta0 beta : ℝ) : ℝ :=
  -log (weight (fun b => action hbar m b 1 1) l beta0 beta) + freeCorr hbar m l beta0 beta

/-! ### Averages -/

theorem sum_deriv {l : List (Frame n N)} {F : ℝ → Frame n N → ℝ} {F' : Frame n N → ℝ} {t : ℝ}
    (h : ∀ x, HasDerivAt (fun s => F s x) (F' x) t) :
    HasDerivAt (fun s => (l.map (F s)).sum) (l.map F').sum t := by
  induction l with
  | nil => simpa using hasDerivAt_const t (0 : ℝ)
  | cons a l ih => simpa using (h a).fun_add ih

theorem weight_pos (S : ℝ → Frame n N → ℝ) {l : List (Frame n N)} (hl : l ≠ []) (t0 t : ℝ) :
    0 < weight S l t0 t := by
  have hnn : ∀ l : List (Frame n N), 0 ≤ (l.map fun x => exp (S t0 x - S t x)).sum := fun l =>
    List.sum_nonneg (by simp; intro a _; exact (exp_pos _).le)
  cases l with
  | nil => exact absurd rfl hl
  | cons a l =>
      have := hnn l
      simp only [weight, List.map_cons, List.sum_cons]
      have := exp_pos (S t0 a - S t a)
      linarith

theorem weight_deriv {S : ℝ → Frame n N → ℝ} {l : List (Frame n N)} {e : Frame n N → ℝ} {t0 t : ℝ}
    (hl : l ≠ []) (hS : ∀ x, HasDerivAt (fun s => S s x) (e x) t) :
    HasDerivAt (weight S l t0) (-(avg S l t0 (fun _ => e) t * weight S l t0 t)) t := by
  have h : HasDerivAt (weight S l t0) (l.map fun x => -e x * exp (S t0 x - S t x)).sum t := by
    refine sum_deriv (F := fun s x => exp (S t0 x - S s x)) fun x => ?_
    have := ((hS x).const_sub (S t0 x)).exp
    exact this.congr_deriv (by ring)
  refine h.congr_deriv ?_
  rw [avg, div_mul_cancel₀ _ (weight_pos S hl t0 t).ne']
  clear h hl
  induction l with
  | nil => simp
  | cons a l ih => simp only [List.map_cons, List.sum_cons]; rw [ih]; ring

theorem avg_lin (S : ℝ → Frame n N → ℝ) (l : List (Frame n N)) (t0 t : ℝ) (A B : Frame n N → ℝ) (c : ℝ) :
    avg S l t0 (fun _ x => A x + c * B x) t = avg S l t0 (fun _ => A) t + c * avg S l t0 (fun _ => B) t := by
  simp only [avg]
  rw [← mul_div_assoc, ← add_div]
  congr 1
  induction l with
  | nil => simp
  | cons a l ih => simp only [List.map_cons, List.sum_cons]; rw [ih]; ring

/-- How averages change: the average of the change, and the covariance with the change of the
action. -/
theorem avg_deriv {S A : ℝ → Frame n N → ℝ} {l : List (Frame n N)} {e A' : Frame n N → ℝ} {t0 t : ℝ}
    (hl : l ≠ []) (hS : ∀ x, HasDerivAt (fun s => S s x) (e x) t)
    (hA : ∀ x, HasDerivAt (fun s => A s x) (A' x) t) :
    HasDerivAt (avg S l t0 A) (avg S l t0 (fun _ => A') t
      - (avg S l t0 (fun _ x => A t x * e x) t - avg S l t0 A t * avg S l t0 (fun _ => e) t)) t := by
  have hW := weight_pos S hl t0 t
  have h : HasDerivAt (fun s => (l.map fun x => A s x * exp (S t0 x - S s x)).sum)
      (l.map fun x => A' x * exp (S t0 x - S t x) - A t x * e x * exp (S t0 x - S t x)).sum t := by
    refine sum_deriv (F := fun s x => A s x * exp (S t0 x - S s x)) fun x => ?_
    exact ((hA x).fun_mul ((hS x).const_sub (S t0 x)).exp).congr_deriv (by ring)
  have h2 := h.fun_div (weight_deriv (t0 := t0) hl hS) hW.ne'
  refine h2.congr_deriv ?_
  have hs : (l.map fun x => A' x * exp (S t0 x - S t x) - A t x * e x * exp (S t0 x - S t x)).sum
      = avg S l t0 (fun _ => A') t * weight S l t0 t
        - avg S l t0 (fun _ x => A t x * e x) t * weight S l t0 t := by
    simp only [avg]
    rw [div_mul_cancel₀ _ hW.ne', div_mul_cancel₀ _ hW.ne']
    clear h h2 hl hW
    induction l with
    | nil => simp
    | cons a l ih => simp only [List.map_cons, List.sum_cons]; rw [ih]; ring
  have hA0 : (l.map fun x => A t x * exp (S t0 x - S t x)).sum = avg S l t0 A t * weight S l t0 t := by
    rw [avg, div_mul_cancel₀ _ hW.ne']
  rw [hs, hA0]
  generalize avg S l t0 A t = a1
  generalize avg S l t0 (fun _ => A') t = a2
  generalize avg S l t0 (fun _ x => A t x * e x) t = a3
  generalize avg S l t0 (fun _ => e) t = a4
  revert hW
  generalize weight S l t0 t = w
  intro hW
  field_simp
  ring

/-- Where the paths were sampled the averages are means. -/
theorem avg_self (S A : ℝ → Frame n N → ℝ) (l : List (Frame n N)) (t0 : ℝ) :
    avg S l t0 A t0 = mean l (A t0) := by
  simp [avg, weight, mean]

/-! ### The estimators of a frame -/

theorem springs_closed (x : Frame n N) (m : Fin N → ℝ) :
    (∑ a, (∑ d, (x.q (0, a, d) - x.q (Fin.last n, a, d)) * (x.q (0, a, d) - x.q (Fin.last n, a, d))) * m a)
      + (∑ b : Fin n, ∑ a,
        (∑ d, (x.q (b.succ, a, d) - x.q (b.castSucc, a, d)) * (x.q (b.succ, a, d) - x.q (b.castSucc, a, d)))
          * m a) = ∑ a, m a * springs x.q a := by
  rw [Finset.sum_comm (s := (univ : Finset (Fin n))), ← Finset.sum_add_distrib]
  refine Finset.sum_congr rfl fun a _ => ?_
  rw [← Finset.sum_mul, springs, mul_add, add_comm, mul_comm (m a), mul_comm (m a)]
  congr 1
  · congr 1
    exact Finset.sum_congr rfl fun b _ => Finset.sum_congr rfl fun d _ => by ring
  · congr 1
    exact Finset.sum_congr rfl fun d _ => by ring

theorem kPa_eq (beta hbar : ℝ) (m : Fin N → ℝ) (x : Frame n N) :
    kPa beta hbar m x = 3 / 2 * N * ((n + 1 : ℕ) : ℝ) / beta
      - ((n + 1 : ℕ) : ℝ) / (2 * (beta * hbar) ^ 2) * ∑ a, m a * springs x.q a := by
  rw [← springs_closed]
  simp only [kPa]
  ring

/-- **C161, kinetic energy.**  The two estimators of a frame are the thermodynamic and the centroid
virial estimator the simulation itself prints. -/
theorem kinetic_estimators (S : Setup N) (h : S.kb * S.temp ≠ 0) (hh : S.hbar ≠ 0)
    (names : Fin N → String) (x : Frame n N) :
    kintd S.kb S.temp ((((n + 1 : ℕ) : ℝ) * S.kb * S.temp / S.hbar) ^ 2) S.m names .all x.q
        = .ok (kPa S.beta S.hbar S.m x)
    ∧ kincv S.kb S.temp names .all x.q x.f = .ok (kVir S.beta x) := by
  have hn : ((n + 1 : ℕ) : ℝ) ≠ 0 := by positivity
  have hall : Sel.all.atoms names = univ := by
    ext a; simp [Sel.atoms, Sel.takes]
  have hkb : S.kb ≠ 0 := left_ne_zero_of_mul h
  have hT : S.temp ≠ 0 := right_ne_zero_of_mul h
  constructor
  · rw [kPa_eq]
    have : kintd S.kb S.temp ((((n + 1 : ℕ) : ℝ) * S.kb * S.temp / S.hbar) ^ 2) S.m names .all x.q
        = .ok (∑ a ∈ Sel.all.atoms names, (springs x.q a * (-0.5 * S.m a *
          ((((n + 1 : ℕ) : ℝ) * S.kb * S.temp / S.hbar) ^ 2) / ((n + 1 : ℕ) : ℝ))
          + 1.5 * S.kb * S.temp * ((n + 1 : ℕ) : ℝ))) := rfl
    rw [this, hall, Finset.sum_add_distrib]
    congr 1
    have hs : (∑ a, springs x.q a * (-0.5 * S.m a *
          ((((n + 1 : ℕ) : ℝ) * S.kb * S.temp / S.hbar) ^ 2) / ((n + 1 : ℕ) : ℝ)))
        = (-0.5 * ((((n + 1 : ℕ) : ℝ) * S.kb * S.temp / S.hbar) ^ 2) / ((n + 1 : ℕ) : ℝ))
          * ∑ a, S.m a * springs x.q a := by
      rw [Finset.mul_sum]
      exact Finset.sum_congr rfl fun a _ => by ring
    rw [hs]
    simp only [sum_const, card_univ, Fintype.card_fin, nsmul_eq_mul, Setup.beta]
    generalize ∑ a, S.m a * springs x.q a = s
    generalize ((n + 1 : ℕ) : ℝ) = P at hn ⊢
    field_simp
    ring
  · have : kincv S.kb S.temp names .all x.q x.f
        = .ok ((∑ b, ∑ a, ∑ d, (if Sel.all.takes names a then x.q (b, a, d) - qc x.q a d else 0)
            * x.f (b, a, d)) * (-0.5 / ((n + 1 : ℕ) : ℝ))
          + ((Sel.all.atoms names).card : ℝ) * 1.5 * S.kb * S.temp) := rfl
    rw [this, hall]
    congr 1
    have hs : (∑ b, ∑ a, ∑ d, (if Sel.all.takes names a then x.q (b, a, d) - qc x.q a d else 0)
        * x.f (b, a, d))
        = -(∑ a, ∑ b, ∑ d, ((∑ b', x.q (b', a, d)) / ((n + 1 : ℕ) : ℝ) - x.q (b, a, d)) * x.f (b, a, d)) := by
      rw [Finset.sum_comm, ← Finset.sum_neg_distrib]
      refine Finset.sum_congr rfl fun a _ => ?_
      rw [← Finset.sum_neg_distrib]
      refine Finset.sum_congr rfl fun b _ => ?_
      rw [← Finset.sum_neg_distrib]
      refine Finset.sum_congr rfl fun d _ => ?_
      simp only [Sel.takes, if_true, qc]
      ring
    rw [hs, kVir]
    simp only [card_univ, Fintype.card_fin, Setup.beta]
    generalize (∑ a, ∑ b, ∑ d, ((∑ b', x.q (b', a, d)) / ((n + 1 : ℕ) : ℝ) - x.q (b, a, d)) * x.f (b, a, d)) = s
    generalize ((n + 1 : ℕ) : ℝ) = P at hn ⊢
    field_simp
    ring

/-- The thermodynamic energy is the derivative of the action by the inverse temperature. -/
theorem action_beta {hbar : ℝ} (hh : hbar ≠ 0) (m : Fin N → ℝ) {beta : ℝ} (hb : beta ≠ 0) (x : Frame n N) :
    HasDerivAt (fun b => action hbar m b 1 1 x) (kPa beta hbar m x + x.U) beta := by
  have h1 := ((hasDerivAt_log hb).sub_const (log 1)).const_mul (3 / 2 * (N : ℝ) * ((n + 1 : ℕ) : ℝ))
  have h2 := ((hasDerivAt_inv hb).const_mul
    (((n + 1 : ℕ) : ℝ) / (2 * hbar ^ 2) * (∑ a, 1 * m a * springs x.q a)))
  have h3 := (hasDerivAt_id beta).mul_const (1 * x.U)
  have h := (h1.fun_add h2).fun_add h3
  have hf : (fun b => action hbar m b 1 1 x) = fun b => 3 / 2 * (N : ℝ) * ((n + 1 : ℕ) : ℝ) * (log b - log 1)
      + ((n + 1 : ℕ) : ℝ) / (2 * hbar ^ 2) * (∑ a, 1 * m a * springs x.q a) * b⁻¹ + id b * (1 * x.U) := by
    funext b
    simp only [action, id]
    rw [show 2 * b * hbar ^ 2 = (2 * hbar ^ 2) * b by ring, ← div_div]
    rw [div_eq_mul_inv (((n + 1 : ℕ) : ℝ) / (2 * hbar ^ 2)) b]
    ring
  rw [hf]
  refine h.congr_deriv ?_
  rw [kPa_eq]
  simp only [one_mul]
  generalize (∑ a, m a * springs x.q a) = s
  field_simp
  ring

theorem action_lam (hbar : ℝ) (m : Fin N → ℝ) (beta lam : ℝ) (x : Frame n N) :
    HasDerivAt (fun r => action hbar m beta 1 r x) (beta * x.U) lam := by
  have h := (((hasDerivAt_id lam).mul_const x.U).const_mul beta).const_add
    (3 / 2 * (N : ℝ) * ((n + 1 : ℕ) : ℝ) * (log beta - log 1)
      + ((n + 1 : ℕ) : ℝ) / (2 * beta * hbar ^ 2) * (∑ a, 1 * m a * springs x.q a))
  exact h.congr_deriv (by ring)

theorem action_mu {hbar : ℝ} (m : Fin N → ℝ) {beta : ℝ} (hb : beta ≠ 0) (x : Frame n N) :
    HasDerivAt (fun r => action hbar m beta r 1 x) (-(beta * kPa beta hbar m x)) 1 := by
  have h1 := ((hasDerivAt_log one_ne_zero).const_sub (log beta)).const_mul
    (3 / 2 * (N : ℝ) * ((n + 1 : ℕ) : ℝ))
  have h2 := (hasDerivAt_id (1 : ℝ)).const_mul
    (((n + 1 : ℕ) : ℝ) / (2 * beta * hbar ^ 2) * (∑ a, m a * springs x.q a))
  have h := (h1.fun_add h2).add_const (beta * (1 * x.U))
  have hf : (fun r => action hbar m beta r 1 x) = fun r => 3 / 2 * (N : ℝ) * ((n + 1 : ℕ) : ℝ) * (log beta - log r)
      + ((n + 1 : ℕ) : ℝ) / (2 * beta * hbar ^ 2) * (∑ a, m a * springs x.q a) * id r + beta * (1 * x.U) := by
    funext r
    simp only [action, id]
    rw [show (∑ a, r * m a * springs x.q a) = r * ∑ a, m a * springs x.q a by
      rw [Finset.mul_sum]; exact Finset.sum_congr rfl fun a _ => by ring]
    ring
  rw [hf]
  refine h.congr_deriv ?_
  rw [kPa_eq]
  generalize (∑ a, m a * springs x.q a) = s
  field_simp
  ring

/-! ### The rows -/

/-- The sums over a sample. -/
noncomputable def sumsOf (S : Setup N) (l : List (Frame n N)) : Sums :=
  l.foldl (fun s x => s.add S x) Sums.zero

theorem foldl_sums (S : Setup N) (l : List (Frame n N)) (s : Sums) :
    l.foldl (fun s x => s.add S x) s =
      ⟨s.kpa + (l.map (kPa S.beta S.hbar S.m)).sum, s.kvir + (l.map (kVir S.beta)).sum,
        s.u + (l.map Frame.U).sum, s.f2 + (l.map (f2 S.m)).sum,
        s.f2kpa + (l.map fun x => f2 S.m x * kPa S.beta S.hbar S.m x).sum,
        s.f2u + (l.map fun x => f2 S.m x * x.U).sum,
        s.e2 + (l.map fun x => (kPa S.beta S.hbar S.m x + x.U) ^ 2).sum,
        s.f2e2 + (l.map fun x => f2 S.m x * (kPa S.beta S.hbar S.m x + x.U) ^ 2).sum⟩ := by
  induction l generalizing s with
  | nil => simp
  | cons a l ih =>
      simp only [List.foldl_cons]
      rw [ih]
      simp [Sums.add, add_assoc]

theorem loop_late {R : Type} (S : Setup N) (row : ℝ → Sums → ℝ → R) (t0 : ℝ) (xs : List (Frame n N)) :
    ∀ (ifr : ℕ) (s : Sums) (i : ℕ), S.skip ≤ ifr → (loop S row ifr t0 s xs)[i]? = (xs[i]?).map fun x =>
      row (x.time - t0) ((xs.take (i + 1)).foldl (fun s x => s.add S x) s) ((ifr + 1 + i - S.skip : ℕ) : ℝ) := by
  induction xs with
  | nil => intro ifr s i h; simp [loop]
  | cons a xs ih =>
      intro ifr s i h
      rw [loop, if_neg (by omega)]
      cases i with
      | zero => simp
      | succ i =>
          simp only [List.getElem?_cons_succ]
          rw [ih (ifr + 1) _ i (by omega), show ifr + 1 + 1 + i = ifr + 1 + (i + 1) by omega]
          simp

/-- The time from which the times are counted: that of the last frame left out. -/
def timeFrom (t : ℝ) : List (Frame n N) → ℝ
  | [] => t
  | x :: xs => timeFrom x.time xs

theorem loop_early {R : Type} (S : Setup N) (row : ℝ → Sums → ℝ → R) (s : Sums) : ∀ (d ifr : ℕ) (t0 : ℝ)
    (xs : List (Frame n N)), S.skip = ifr + d →
      loop S row ifr t0 s xs = loop S row S.skip (timeFrom t0 (xs.take d)) s (xs.drop d) := by
  intro d
  induction d with
  | zero => intro ifr t0 xs h; simp [timeFrom, h]
  | succ d ih =>
      intro ifr t0 xs h
      cases xs with
      | nil => simp [loop]
      | cons a xs =>
          rw [loop, if_pos (by omega), ih (ifr + 1) _ xs (by omega)]
          simp [timeFrom]

/-- **C161, rows.**  The row `i` is that of the frames after those left out up to its own, and none
else. -/
theorem row_sample {R : Type} (S : Setup N) (row : ℝ → Sums → ℝ → R) (xs : List (Frame n N)) (i : ℕ) :
    (loop S row 0 0 Sums.zero xs)[i]? = (xs[S.skip + i]?).map fun x =>
      row (x.time - timeFrom 0 (xs.take S.skip)) (sumsOf S ((xs.drop S.skip).take (i + 1)))
        (((xs.drop S.skip).take (i + 1)).length : ℝ) := by
  rw [loop_early S row Sums.zero S.skip 0 0 xs (by omega), loop_late S row _ _ _ _ _ le_rfl,
    List.getElem?_drop]
  cases h : xs[S.skip + i]? with
  | none => rfl
  | some x =>
      have hlt : S.skip + i < xs.length := (List.getElem?_eq_some_iff.1 h).1
      simp only [Option.map_some, sumsOf, List.length_take, List.length_drop]
      rw [show min (i + 1) (xs.length - S.skip) = S.skip + 1 + i - S.skip by omega]

/-- The sample of the row `i`. -/
def sample (S : Setup N) (xs : List (Frame n N)) (i : ℕ) : List (Frame n N) := (xs.drop S.skip).take (i + 1)

theorem sample_ne {S : Setup N} {xs : List (Frame n N)} {i : ℕ} {x : Frame n N} (h : xs[S.skip + i]? = some x) :
    sample S xs i ≠ [] := by
  have hlt : S.skip + i < xs.length := (List.getElem?_eq_some_iff.1 h).1
  have : (sample S xs i).length = i + 1 := by
    simp only [sample, List.length_take, List.length_drop]; omega
  intro h0
  rw [h0] at this
  simp at this

/-! ### The corrections as derivatives -/

theorem sums_mean (S : Setup N) (l : List (Frame n N)) :
    (sumsOf S l).kpa / l.length = mean l (kPa S.beta S.hbar S.m)
    ∧ (sumsOf S l).kvir / l.length = mean l (kVir S.beta)
    ∧ (sumsOf S l).u / l.length = mean l Frame.U
    ∧ (sumsOf S l).f2 / l.length = mean l (f2 S.m)
    ∧ (sumsOf S l).f2kpa / l.length = mean l (fun x => f2 S.m x * kPa S.beta S.hbar S.m x)
    ∧ (sumsOf S l).f2u / l.length = mean l (fun x => f2 S.m x * x.U)
    ∧ (sumsOf S l).e2 / l.length = mean l (fun x => (kPa S.beta S.hbar S.m x + x.U) ^ 2)
    ∧ (sumsOf S l).f2e2 / l.length = mean l (fun x => f2 S.m x * (kPa S.beta S.hbar S.m x + x.U) ^ 2) := by
  rw [sumsOf, foldl_sums]
  simp [Sums.zero, mean]

theorem dU_mean (S : Setup N) (l : List (Frame n N)) : dU n S (sumsOf S l) l.length =
    ppiC n S.hbar * S.beta ^ 2 * (2 * mean l (f2 S.m)
      - S.beta * (mean l (fun x => f2 S.m x * x.U) - mean l (f2 S.m) * mean l Frame.U)) := by
  obtain ⟨_, _, h3, h4, _, h6, _, _⟩ := sums_mean S l
  rw [← h3, ← h4, ← h6, dU, ppiC]
  ring

theorem dK'_mean (S : Setup N) (l : List (Frame n N)) : dK' n S (sumsOf S l) l.length =
    ppiC n S.hbar * S.beta ^ 2 * (mean l (f2 S.m) - S.beta * (mean l (fun x => f2 S.m x * kPa S.beta S.hbar S.m x)
      - mean l (f2 S.m) * mean l (kPa S.beta S.hbar S.m))) := by
  obtain ⟨h1, _, _, h4, h5, _, _, _⟩ := sums_mean S l
  rw [← h1, ← h4, ← h5, dK', ppiC]
  ring

/-- Both scripts have the same correction of the kinetic energy. -/
theorem dK_same (S : Setup N) (h : S.kb * S.temp ≠ 0) (l : List (Frame n N)) :
    dK n S (sumsOf S l) l.length = dK' n S (sumsOf S l) l.length := by
  have hb : S.kb * S.temp = 1 / S.beta := by simp [Setup.beta]
  have hb0 : S.beta ≠ 0 := by simp only [Setup.beta]; exact one_div_ne_zero h
  rw [dK'_mean]
  obtain ⟨h1, _, _, h4, h5, _, _, _⟩ := sums_mean S l
  rw [← h1, ← h4, ← h5, dK, ppiC, hb]
  simp only [div_eq_mul_inv]
  generalize ((l.length : ℝ))⁻¹ = w
  generalize ((24 : ℝ) * ((n + 1 : ℕ) : ℝ) ^ 3)⁻¹ = v
  field_simp
  ring

theorem mean_add (l : List (Frame n N)) (g h : Frame n N → ℝ) : mean l (fun x => g x + h x) = mean l g + mean l h := by
  simp only [mean]
  rw [← add_div, List.sum_map_add]

theorem mean_mul (l : List (Frame n N)) (c : ℝ) (g : Frame n N → ℝ) : mean l (fun x => c * g x) = c * mean l g := by
  simp only [mean]
  rw [List.sum_map_mul_left, mul_div_assoc]

/-- The derivative of the correction of the free energy, at any temperature. -/
theorem freeCorr_deriv {hbar : ℝ} (hh : hbar ≠ 0) (m : Fin N → ℝ) {l : List (Frame n N)} (hl : l ≠ []) (beta0 : ℝ)
    {beta : ℝ} (hb : beta ≠ 0) : HasDerivAt (freeCorr hbar m l beta0)
      (avg (fun b => action hbar m b 1 1) l beta0 (fun _ x => ppiC n hbar * (3 * beta ^ 2) * f2 m x) beta
      - (avg (fun b => action hbar m b 1 1) l beta0
          (fun _ x => ppiC n hbar * beta ^ 3 * f2 m x * (kPa beta hbar m x + x.U)) beta
        - avg (fun b => action hbar m b 1 1) l beta0 (fun _ x => ppiC n hbar * beta ^ 3 * f2 m x) beta
          * avg (fun b => action hbar m b 1 1) l beta0 (fun _ x => kPa beta hbar m x + x.U) beta)) beta := by
  have h := avg_deriv (S := fun b => action hbar m b 1 1) (A := fun b x => ppiC n hbar * b ^ 3 * f2 m x)
    (A' := fun x => ppiC n hbar * (3 * beta ^ 2) * f2 m x) (t0 := beta0) hl
    (fun x => action_beta hh m hb x)
    (fun x => (((hasDerivAt_pow 3 beta).const_mul (ppiC n hbar)).mul_const (f2 m x)).congr_deriv (by norm_num))
  exact h

/-- **C161, total energy.**  The correction printed is the derivative of that of the free energy by
the inverse temperature. -/
theorem total_correction (S : Setup N) (h : S.kb * S.temp ≠ 0) (hh : S.hbar ≠ 0) (hu : S.unit ≠ 0)
    (xs : List (Frame n N)) (i : ℕ) (r : ERow) (hr : (energies S xs)[i]? = some r) :
    HasDerivAt (freeCorr S.hbar S.m (sample S xs i) S.beta) (r.totalCorr * S.unit) S.beta := by
  rw [energies, row_sample] at hr
  obtain ⟨x, hx, rfl⟩ := Option.map_eq_some_iff.1 hr
  have hl := sample_ne hx
  have hb0 : S.beta ≠ 0 := by simp only [Setup.beta]; exact one_div_ne_zero h
  refine (freeCorr_deriv hh S.m hl S.beta hb0).congr_deriv ?_
  change _ = (dK n S (sumsOf S (sample S xs i)) (sample S xs i).length / S.unit
    + dU n S (sumsOf S (sample S xs i)) (sample S xs i).length / S.unit) * S.unit
  generalize sample S xs i = l
  rw [← add_div, div_mul_cancel₀ _ hu, dK_same S h, dK'_mean, dU_mean]
  simp only [avg_self, mul_assoc]
  simp only [mean_mul, mean_add, mul_add]
  ring

/-- **C161, potential energy.**  The potential printed is the mean of those read, and the correction
is the derivative of that of the free energy by the strength of the potential. -/
theorem potential_correction (S : Setup N) (h : S.kb * S.temp ≠ 0) (hu : S.unit ≠ 0)
    (xs : List (Frame n N)) (i : ℕ) (r : ERow) (hr : (energies S xs)[i]? = some r) :
    r.potPlain * S.unit = mean (sample S xs i) Frame.U ∧
    HasDerivAt (freeCorrPot S.hbar S.m (sample S xs i) S.beta) (S.beta * (r.potCorr * S.unit)) 1 := by
  rw [energies, row_sample] at hr
  obtain ⟨x, hx, rfl⟩ := Option.map_eq_some_iff.1 hr
  have hl := sample_ne hx
  have hb0 : S.beta ≠ 0 := by simp only [Setup.beta]; exact one_div_ne_zero h
  have hf2 : ∀ (x : Frame n N) (r : ℝ), f2 S.m ⟨x.q, fun i => r * x.f i, x.U, x.time⟩ = r ^ 2 * f2 S.m x := by
    intro x r
    simp only [f2, Finset.mul_sum, Finset.sum_div]
    exact Finset.sum_congr rfl fun b _ => Finset.sum_congr rfl fun a _ => Finset.sum_congr rfl fun d _ => by ring
  refine ⟨?_, ?_⟩
  · change (sumsOf S (sample S xs i)).u / (sample S xs i).length / S.unit * S.unit = _
    rw [div_mul_cancel₀ _ hu, (sums_mean S _).2.2.1]
  have hd := avg_deriv (S := fun r => action S.hbar S.m S.beta 1 r)
    (A := fun r x => ppiC n S.hbar * S.beta ^ 3 * (r ^ 2 * f2 S.m x))
    (A' := fun x => ppiC n S.hbar * S.beta ^ 3 * (2 * f2 S.m x)) (t0 := 1) (t := 1) hl
    (fun x => action_lam S.hbar S.m S.beta 1 x)
    (fun x => (((hasDerivAt_pow 2 (1 : ℝ)).mul_const (f2 S.m x)).const_mul
      (ppiC n S.hbar * S.beta ^ 3)).congr_deriv (by norm_num))
  have hf : freeCorrPot S.hbar S.m (sample S xs i) S.beta = avg (fun r => action S.hbar S.m S.beta 1 r)
      (sample S xs i) 1 (fun r x => ppiC n S.hbar * S.beta ^ 3 * (r ^ 2 * f2 S.m x)) := by
    funext lam
    simp only [freeCorrPot, hf2]
  rw [hf]
  refine hd.congr_deriv ?_
  change _ = S.beta * (dU n S (sumsOf S (sample S xs i)) (sample S xs i).length / S.unit * S.unit)
  generalize sample S xs i = l
  rw [div_mul_cancel₀ _ hu, dU_mean]
  simp only [avg_self, mul_assoc, one_pow, one_mul]
  simp only [mean_mul]
  have hc : mean l (fun x => f2 S.m x * (S.beta * x.U)) = S.beta * mean l (fun x => f2 S.m x * x.U) := by
    rw [← mean_mul]
    congr 1; funext x; ring
  rw [hc]
  ring

/-- **C161, kinetic energy.**  The kinetic energy printed is the mean of the centroid virial estimator,
and the correction is given by the derivative of that of the free energy by the masses. -/
theorem kinetic_correction (S : Setup N) (h : S.kb * S.temp ≠ 0) (hu : S.unit ≠ 0)
    (xs : List (Frame n N)) (i : ℕ) (r : ERow) (hr : (energies S xs)[i]? = some r) :
    r.kinVir * S.unit = mean (sample S xs i) (kVir S.beta) ∧
    HasDerivAt (freeCorrMass S.hbar S.m (sample S xs i) S.beta) (-(S.beta * (r.kinCorr * S.unit))) 1 := by
  rw [energies, row_sample] at hr
  obtain ⟨x, hx, rfl⟩ := Option.map_eq_some_iff.1 hr
  have hl := sample_ne hx
  have hb0 : S.beta ≠ 0 := by simp only [Setup.beta]; exact one_div_ne_zero h
  refine ⟨?_, ?_⟩
  · change (sumsOf S (sample S xs i)).kvir / (sample S xs i).length / S.unit * S.unit = _
    rw [div_mul_cancel₀ _ hu, (sums_mean S _).2.1]
  have hf2 : ∀ (x : Frame n N) (r : ℝ), f2 (fun a => r * S.m a) x = r⁻¹ * f2 S.m x := by
    intro x r
    simp only [f2, Finset.mul_sum]
    refine Finset.sum_congr rfl fun b _ => Finset.sum_congr rfl fun a _ => ?_
    rw [div_eq_mul_inv, mul_inv, div_eq_mul_inv]
    ring
  have hd := avg_deriv (S := fun r => action S.hbar S.m S.beta r 1)
    (A := fun r x => ppiC n S.hbar * S.beta ^ 3 * (r⁻¹ * f2 S.m x))
    (A' := fun x => ppiC n S.hbar * S.beta ^ 3 * (-1 * f2 S.m x)) (t0 := 1) (t := 1) hl
    (fun x => action_mu S.m hb0 x)
    (fun x => (((hasDerivAt_inv (one_ne_zero (α := ℝ))).mul_const (f2 S.m x)).const_mul
      (ppiC n S.hbar * S.beta ^ 3)).congr_deriv (by norm_num))
  have hf : freeCorrMass S.hbar S.m (sample S xs i) S.beta = avg (fun r => action S.hbar S.m S.beta r 1)
      (sample S xs i) 1 (fun r x => ppiC n S.hbar * S.beta ^ 3 * (r⁻¹ * f2 S.m x)) := by
    funext mu
    simp only [freeCorrMass, hf2]
  rw [hf]
  refine hd.congr_deriv ?_
  change _ = -(S.beta * (dK n S (sumsOf S (sample S xs i)) (sample S xs i).length / S.unit * S.unit))
  generalize sample S xs i = l
  rw [div_mul_cancel₀ _ hu, dK_same S h, dK'_mean]
  simp only [avg_self, mul_assoc, inv_one, one_mul]
  simp only [mean_mul]
  have hc : mean l (fun x => f2 S.m x * -(S.beta * kPa S.beta S.hbar S.m x))
      = -S.beta * mean l (fun x => f2 S.m x * kPa S.beta S.hbar S.m x) := by
    rw [← mean_mul]
    congr 1; funext x; ring
  have hc2 : mean l (fun x => -(S.beta * kPa S.beta S.hbar S.m x)) = -S.beta * mean l (kPa S.beta S.hbar S.m) := by
    rw [← mean_mul]
    congr 1; funext x; ring
  rw [hc, hc2]
  ring

/-- The columns of a row fit together: the energies are the sums of their parts. -/
theorem columns_add (S : Setup N) (xs : List (Frame n N)) (i : ℕ) (r : ERow) (hr : (energies S xs)[i]? = some r) :
    r.total = r.totalVir + r.totalCorr ∧ r.total = r.pot + r.kin ∧ r.totalVir = r.potPlain + r.kinVir
    ∧ r.totalCorr = r.potCorr + r.kinCorr ∧ r.pot = r.potPlain + r.potCorr ∧ r.kin = r.kinVir + r.kinCorr := by
  rw [energies, row_sample] at hr
  obtain ⟨x, hx, rfl⟩ := Option.map_eq_some_iff.1 hr
  simp only [eRow]
  refine ⟨by ring, by ring, by ring, by ring, trivial, trivial⟩

/-- The first derivative of the free energy, at any temperature: the energy. -/
theorem free_deriv {hbar : ℝ} (hh : hbar ≠ 0) (m : Fin N → ℝ) {l : List (Frame n N)} (hl : l ≠ []) (beta0 : ℝ)
    {beta : ℝ} (hb : beta ≠ 0) : HasDerivAt (free hbar m l beta0)
      (avg (fun b => action hbar m b 1 1) l beta0 (fun b x => kPa b hbar m x + x.U) beta
      + (avg (fun b => action hbar m b 1 1) l beta0 (fun b x => ppiC n hbar * (3 * b ^ 2) * f2 m x) beta
      - (avg (fun b => action hbar m b 1 1) l beta0
          (fun b x => ppiC n hbar * b ^ 3 * f2 m x * (kPa b hbar m x + x.U)) beta
        - avg (fun b => action hbar m b 1 1) l beta0 (fun b x => ppiC n hbar * b ^ 3 * f2 m x) beta
          * avg (fun b => action hbar m b 1 1) l beta0 (fun b x => kPa b hbar m x + x.U) beta))) beta := by
  have h1 := ((weight_deriv (t0 := beta0) hl (fun x => action_beta hh m hb x)).log
    (weight_pos (fun b => action hbar m b 1 1) hl beta0 beta).ne').fun_neg
  refine (h1.fun_add (freeCorr_deriv hh m hl beta0 hb)).congr_deriv ?_
  have hW := (weight_pos (fun b => action hbar m b 1 1) hl beta0 beta).ne'
  rw [neg_div, neg_neg, mul_div_assoc, div_self hW, mul_one]
  rfl

/-- How the thermodynamic kinetic energy depends on the inverse temperature. -/
theorem kPa_deriv {hbar : ℝ} (hh : hbar ≠ 0) (m : Fin N → ℝ) {beta : ℝ} (hb : beta ≠ 0) (x : Frame n N) :
    HasDerivAt (fun b => kPa b hbar m x)
      (3 / 2 * N * ((n + 1 : ℕ) : ℝ) / beta ^ 2 - 2 / beta * kPa beta hbar m x) beta := by
  have hf : (fun b => kPa b hbar m x) = fun b => 3 / 2 * N * ((n + 1 : ℕ) : ℝ) * b⁻¹
      - ((n + 1 : ℕ) : ℝ) / (2 * hbar ^ 2) * (∑ a, m a * springs x.q a) * (b⁻¹) ^ 2 := by
    funext b
    rw [kPa_eq]
    simp only [mul_pow, div_eq_mul_inv, mul_inv, inv_pow]
    ring
  have h1 := (hasDerivAt_inv hb).const_mul (3 / 2 * (N : ℝ) * ((n + 1 : ℕ) : ℝ))
  have h2 := ((hasDerivAt_inv hb).fun_pow 2).const_mul
    (((n + 1 : ℕ) : ℝ) / (2 * hbar ^ 2) * (∑ a, m a * springs x.q a))
  rw [hf]
  refine (h1.fun_sub h2).congr_deriv ?_
  rw [kPa_eq]
  generalize (∑ a, m a * springs x.q a) = s
  push_cast
  field_simp
  ring

/-- **C161, heat capacity.**  What the script prints is given by the second derivative of the free
energy, for the Boltzmann constant of the program, which is one. -/
theorem heat_correction (S : Setup N) (hk : S.kb = 1) (h : 0 < S.temp) (hh : S.hbar ≠ 0)
    (xs : List (Frame n N)) (i : ℕ) (r : ℝ × ℝ × ℝ × ℝ) (hr : (heatCapacity S xs)[i]? = some r) :
    HasDerivAt (deriv (free S.hbar S.m (sample S xs i) S.beta)) (-(r.2.1 / S.beta ^ 2)) S.beta
    ∧ r.2.1 = r.2.2.1 + r.2.2.2 := by
  rw [heatCapacity, row_sample] at hr
  obtain ⟨x, hx, rfl⟩ := Option.map_eq_some_iff.1 hr
  refine ⟨?_, rfl⟩
  have hl := sample_ne hx
  have hbp : 0 < S.beta := by simp only [Setup.beta, hk, one_mul]; positivity
  have hb0 := hbp.ne'
  have hev : deriv (free S.hbar S.m (sample S xs i) S.beta) =ᶠ[nhds S.beta] fun beta =>
      (avg (fun b => action S.hbar S.m b 1 1) (sample S xs i) S.beta (fun b x => kPa b S.hbar S.m x + x.U) beta
      + (avg (fun b => action S.hbar S.m b 1 1) (sample S xs i) S.beta
          (fun b x => ppiC n S.hbar * (3 * b ^ 2) * f2 S.m x) beta
      - (avg (fun b => action S.hbar S.m b 1 1) (sample S xs i) S.beta
          (fun b x => ppiC n S.hbar * b ^ 3 * f2 S.m x * (kPa b S.hbar S.m x + x.U)) beta
        - avg (fun b => action S.hbar S.m b 1 1) (sample S xs i) S.beta
            (fun b x => ppiC n S.hbar * b ^ 3 * f2 S.m x) beta
          * avg (fun b => action S.hbar S.m b 1 1) (sample S xs i) S.beta
            (fun b x => kPa b S.hbar S.m x + x.U) beta))) := by
    filter_upwards [eventually_ne_nhds hb0] with b hb
    exact (free_deriv hh S.m hl S.beta hb).deriv
  refine HasDerivAt.congr_of_eventuallyEq ?_ hev
  have hS : ∀ x : Frame n N, HasDerivAt (fun b => action S.hbar S.m b 1 1 x) (kPa S.beta S.hbar S.m x + x.U) S.beta :=
    fun x => action_beta hh S.m hb0 x
  have hK : ∀ x : Frame n N, HasDerivAt (fun b => kPa b S.hbar S.m x + x.U)
      (3 / 2 * N * ((n + 1 : ℕ) : ℝ) / S.beta ^ 2 - 2 / S.beta * kPa S.beta S.hbar S.m x) S.beta :=
    fun x => (kPa_deriv hh S.m hb0 x).add_const _
  have d1 := avg_deriv (t0 := S.beta) hl hS hK
  have d2 := avg_deriv (A := fun b x => ppiC n S.hbar * (3 * b ^ 2) * f2 S.m x)
    (A' := fun x => ppiC n S.hbar * (6 * S.beta) * f2 S.m x) (t0 := S.beta) hl hS
    (fun x => ((((hasDerivAt_pow 2 S.beta).const_mul 3).const_mul (ppiC n S.hbar)).mul_const
      (f2 S.m x)).congr_deriv (by push_cast; ring))
  have h3 : ∀ x : Frame n N, HasDerivAt (fun b => ppiC n S.hbar * b ^ 3 * f2 S.m x)
      (ppiC n S.hbar * (3 * S.beta ^ 2) * f2 S.m x) S.beta := fun x =>
    (((hasDerivAt_pow 3 S.beta).const_mul (ppiC n S.hbar)).mul_const (f2 S.m x)).congr_deriv (by norm_num)
  have d3 := avg_deriv (t0 := S.beta) hl hS h3
  have d4 := avg_deriv (t0 := S.beta) hl hS (fun x => (h3 x).fun_mul (hK x))
  refine (d1.fun_add (d2.fun_sub (d4.fun_sub (d3.fun_mul d1)))).congr_deriv ?_
  change _ = -((heat n S (sumsOf S (sample S xs i)) (sample S xs i).length
    + dC n S (sumsOf S (sample S xs i)) (sample S xs i).length) / S.beta ^ 2)
  have hlen : ((sample S xs i).length : ℝ) ≠ 0 := by
    have : (sample S xs i).length ≠ 0 := by simpa using hl
    exact_mod_cast this
  clear hr hx hev d1 d2 d3 d4 h3 hK hS hl
  generalize sample S xs i = l at hlen ⊢
  have hC : heat n S (sumsOf S l) l.length = (mean l (fun x => (kPa S.beta S.hbar S.m x + x.U) ^ 2)
      - (mean l (kPa S.beta S.hbar S.m) + mean l Frame.U) ^ 2 + 2 / S.beta * mean l (kPa S.beta S.hbar S.m)
      - 3 / 2 * ((n + 1 : ℕ) : ℝ) * N / S.beta ^ 2) * S.beta ^ 2 := by
    obtain ⟨a1, _, a3, _, _, _, a7, _⟩ := sums_mean S l
    rw [← a1, ← a3, ← a7, heat, hk]
    ring
  have hdC : dC n S (sumsOf S l) l.length =
      2 * (5 + 3 * S.beta * (mean l (kPa S.beta S.hbar S.m) + mean l Frame.U)) * S.beta * mean l (f2 S.m)
        * (ppiC n S.hbar * S.beta ^ 2)
      - 2 * (3 + S.beta * (mean l (kPa S.beta S.hbar S.m) + mean l Frame.U)) * S.beta
        * (dK' n S (sumsOf S l) l.length + dU n S (sumsOf S l) l.length)
      + 2 * S.beta * dK' n S (sumsOf S l) l.length
      - ppiC n S.hbar * S.beta ^ 2 * (mean l (fun x => f2 S.m x * (kPa S.beta S.hbar S.m x + x.U) ^ 2)
        - mean l (f2 S.m) * mean l (fun x => (kPa S.beta S.hbar S.m x + x.U) ^ 2)) * S.beta ^ 3 := by
    obtain ⟨a1, _, a3, a4, _, _, a7, a8⟩ := sums_mean S l
    rw [← a1, ← a3, ← a4, ← a7, ← a8, dC, ppiC]
    ring
  rw [hC, hdC, dK'_mean, dU_mean]
  simp only [avg_self]
  set B := S.beta with hB
  set c := ppiC n S.hbar
  set K : Frame n N → ℝ := kPa B S.hbar S.m with hKd
  set F : Frame n N → ℝ := f2 S.m with hFd
  set D : ℝ := 3 / 2 * N * ((n + 1 : ℕ) : ℝ) / B ^ 2
  have mconst : ∀ d : ℝ, mean l (fun _ => d) = d := by
    intro d
    simp only [mean, List.map_const', List.sum_replicate, nsmul_eq_mul]
    field_simp
  have e1 : mean l (fun x => D - 2 / B * K x) = D - 2 / B * mean l K := by
    have : (fun x => D - 2 / B * K x) = fun x => D + (-(2 / B)) * K x := by funext x; ring
    rw [this, mean_add l (fun _ => D) (fun x => -(2 / B) * K x), mconst, mean_mul]
    ring
  have e2 : mean l (fun x => (K x + x.U) * (K x + x.U)) = mean l (fun x => (K x + x.U) ^ 2) := by
    congr 1; funext x; ring
  have e3 : mean l (fun x => K x + x.U) = mean l K + mean l Frame.U := mean_add l K Frame.U
  have e4 : ∀ d : ℝ, mean l (fun x => d * F x) = d * mean l F := fun d => mean_mul l d F
  have e5 : ∀ d : ℝ, mean l (fun x => d * F x * (K x + x.U))
      = d * (mean l (fun x => F x * K x) + mean l (fun x => F x * x.U)) := by
    intro d
    rw [← mean_add, ← mean_mul]
    congr 1; funext x; ring
  have e6 : ∀ d : ℝ, mean l (fun x => d * F x * (K x + x.U) * (K x + x.U))
      = d * mean l (fun x => F x * (K x + x.U) ^ 2) := by
    intro d
    rw [← mean_mul]
    congr 1; funext x; ring
  have e7 : mean l (fun x => c * (3 * B ^ 2) * F x * (K x + x.U) + c * B ^ 3 * F x * (D - 2 / B * K x))
      = c * (3 * B ^ 2) * (mean l (fun x => F x * K x) + mean l (fun x => F x * x.U))
        + c * B ^ 3 * D * mean l F - c * B ^ 3 * (2 / B) * mean l (fun x => F x * K x) := by
    have : (fun x => c * (3 * B ^ 2) * F x * (K x + x.U) + c * B ^ 3 * F x * (D - 2 / B * K x))
        = fun x => (c * (3 * B ^ 2) * F x * (K x + x.U) + c * B ^ 3 * D * F x)
          + (-(c * B ^ 3 * (2 / B))) * (F x * K x) := by funext x; ring
    rw [this, mean_add l (fun x => c * (3 * B ^ 2) * F x * (K x + x.U) + c * B ^ 3 * D * F x)
      (fun x => (-(c * B ^ 3 * (2 / B))) * (F x * K x)),
      mean_add l (fun x => c * (3 * B ^ 2) * F x * (K x + x.U)) (fun x => c * B ^ 3 * D * F x), e5,
      mean_mul l (-(c * B ^ 3 * (2 / B))) (fun x => F x * K x), e4]
    ring
  simp only [e1, e2, e3, e4, e5, e6, e7]
  generalize mean l (fun x => (K x + x.U) ^ 2) = m1
  generalize mean l (fun x => F x * (K x + x.U) ^ 2) = m2
  generalize mean l (fun x => F x * K x) = m3
  generalize mean l (fun x => F x * x.U) = m4
  generalize mean l K = m5
  generalize mean l Frame.U = m6
  generalize mean l F = m7
  simp only [D]
  generalize ((n + 1 : ℕ) : ℝ) = P
  field_simp
  ring

/-! ### The free energy -/

/-- The weight of a path in the Takahashi-Imada action relative to that of the simulation, as the
simulation itself prints it, is that of the free energy corrected here. -/
theorem ti_weight (S : Setup N) (h : S.kb * S.temp ≠ 0) (hh : S.hbar ≠ 0) (x : Frame n N) :
    tiWeight S.kb S.temp ((((n + 1 : ℕ) : ℝ) * S.kb * S.temp / S.hbar) ^ 2) S.m x.f
      = exp (-(ppiC n S.hbar * S.beta ^ 3 * f2 S.m x)) := by
  have hn : ((n + 1 : ℕ) : ℝ) ≠ 0 := by positivity
  have hkb : S.kb ≠ 0 := left_ne_zero_of_mul h
  have hT : S.temp ≠ 0 := right_ne_zero_of_mul h
  have hs : (∑ a, ∑ d, ∑ b, x.f (b, a, d) ^ 2 / S.m a) = f2 S.m x := by
    rw [f2, Finset.sum_comm (s := (univ : Finset (Fin (n + 1))))]
    refine Finset.sum_congr rfl fun a _ => ?_
    rw [Finset.sum_comm]
    refine Finset.sum_congr rfl fun b _ => ?_
    rw [Finset.sum_div]
    exact Finset.sum_congr rfl fun d _ => by ring
  rw [tiWeight, hs, ppiC, Setup.beta]
  congr 1
  generalize ((n + 1 : ℕ) : ℝ) = P at hn ⊢
  field_simp

/-- The change of the free energy is of first order in the change of the action: with the weights of
the paths raised to the power `eta`, it is the slope at `eta = 0`. -/
theorem first_order (hbar : ℝ) (m : Fin N → ℝ) {l : List (Frame n N)} (hl : l ≠ []) (beta0 beta : ℝ) :
    HasDerivAt (fun eta => -log (weight (fun e x => action hbar m (if e = 0 then beta0 else beta) 1 1 x) l 0 1
      * avg (fun b => action hbar m b 1 1) l beta0
        (fun _ x => exp (-(eta * (ppiC n hbar * beta ^ 3 * f2 m x)))) beta))
      (freeCorr hbar m l beta0 beta) 0 := by
  have hW := weight_pos (fun b => action hbar m b 1 1) hl beta0 beta
  have hw : weight (fun e x => action hbar m (if e = 0 then beta0 else beta) 1 1 x) l 0 1
      = weight (fun b => action hbar m b 1 1) l beta0 beta := by
    simp [weight]
  have hd : HasDerivAt (fun eta => (l.map fun x => exp (-(eta * (ppiC n hbar * beta ^ 3 * f2 m x)))
      * exp (action hbar m beta0 1 1 x - action hbar m beta 1 1 x)).sum)
      (-(freeCorr hbar m l beta0 beta * weight (fun b => action hbar m b 1 1) l beta0 beta)) 0 := by
    have := sum_deriv (l := l) (F := fun eta x => exp (-(eta * (ppiC n hbar * beta ^ 3 * f2 m x)))
      * exp (action hbar m beta0 1 1 x - action hbar m beta 1 1 x))
      (F' := fun x => -(ppiC n hbar * beta ^ 3 * f2 m x) * exp (action hbar m beta0 1 1 x - action hbar m beta 1 1 x))
      (t := 0) fun x => by
        have := (((hasDerivAt_id (0 : ℝ)).mul_const (ppiC n hbar * beta ^ 3 * f2 m x)).fun_neg.exp).mul_const
          (exp (action hbar m beta0 1 1 x - action hbar m beta 1 1 x))
        exact this.congr_deriv (by simp)
    refine this.congr_deriv ?_
    rw [freeCorr, avg, div_mul_cancel₀ _ hW.ne']
    clear this hl hW hw
    induction l with
    | nil => simp
    | cons a l ih => simp only [List.map_cons, List.sum_cons]; rw [ih]; ring
  rw [hw]
  have hf : (fun eta => -log (weight (fun b => action hbar m b 1 1) l beta0 beta
      * avg (fun b => action hbar m b 1 1) l beta0
        (fun _ x => exp (-(eta * (ppiC n hbar * beta ^ 3 * f2 m x)))) beta))
      = fun eta => -log (l.map fun x => exp (-(eta * (ppiC n hbar * beta ^ 3 * f2 m x)))
      * exp (action hbar m beta0 1 1 x - action hbar m beta 1 1 x)).sum := by
    funext eta
    rw [avg, mul_div_cancel₀ _ hW.ne']
  rw [hf]
  have h0 : (l.map fun x => exp (-((0 : ℝ) * (ppiC n hbar * beta ^ 3 * f2 m x)))
      * exp (action hbar m beta0 1 1 x - action hbar m beta 1 1 x)).sum
      = weight (fun b => action hbar m b 1 1) l beta0 beta := by simp [weight]
  refine ((hd.log (by rw [h0]; exact hW.ne')).fun_neg).congr_deriv ?_
  rw [h0, neg_div, neg_neg, mul_div_assoc, div_self hW.ne', mul_one]

/-- Two frames of one atom with two beads, after one that is left out: two rows are written. -/
example : ∃ (S : Setup 1) (xs : List (Frame 1 1)), S.kb * S.temp ≠ 0 ∧ S.hbar ≠ 0 ∧ S.unit ≠ 0 ∧ S.skip = 1
    ∧ (∃ r, (energies S xs)[1]? = some r) ∧ (energies S xs).length = 2
    ∧ (∃ r, (heatCapacity S xs)[1]? = some r) ∧ (sample S xs 1).map Frame.U = [2, 3] := by
  refine ⟨⟨1, 1, 1, fun _ => 1, 1, 1⟩, [⟨fun _ => 0, fun _ => 0, 1, 1⟩, ⟨fun _ => 1, fun _ => 2, 2, 2⟩,
    ⟨fun _ => 1, fun _ => 2, 3, 3⟩], by norm_num, by norm_num, by norm_num, rfl, ⟨_, rfl⟩, rfl, ⟨_, rfl⟩, rfl⟩

end Verif.Ppi
