import Verif.FF.Committee
import Mathlib.Tactic.Ring
import Mathlib.Tactic.FieldSimp
import Mathlib.Tactic.Linarith
import Mathlib.Algebra.Order.Field.Basic
import Mathlib.Algebra.BigOperators.Group.List.Lemmas
import Mathlib.Algebra.Order.BigOperators.Group.List
import Mathlib.Algebra.BigOperators.Ring.List
import Mathlib.Analysis.Calculus.Deriv.Add
import Mathlib.Analysis.Calculus.Deriv.Mul
import Mathlib.Analysis.Calculus.Deriv.Inv
import Mathlib.Analysis.Calculus.Deriv.Pow
import Mathlib.Analysis.Real.Sqrt
/-
C21: committee results are the mean of the members, with correctly scaled spread; with a baseline, energy and forces are consistent.
-/
namespace Verif.Committee
variable {K ι κ X : Type}

theorem collect_plain [Field K] (json : Bool) : ∀ (hs : List (Handle K ι κ X)) (a : Acc K ι κ), (json = false ∨ ∀ h ∈ hs, h.jpots = none) →
    hs.foldl (collect json) a = ⟨a.pots ++ hs.map (·.pot), a.frcs ++ hs.map (·.frc), a.virs ++ hs.map (·.vir), a.allFrc, a.allVir⟩ := by
  intro hs
  induction hs with
  | nil => intro a _; simp
  | cons h hs ih =>
    intro a hj
    rw [List.foldl_cons, ih _ (hj.imp id fun x y hy => x y (by simp [hy]))]
    have : collect json a h = { a with
        pots := a.pots ++ [h.pot]
        frcs := a.frcs ++ [h.frc]
        virs := a.virs ++ [h.vir] } := by
      unfold collect
      rcases hj with rfl | hj
      · rfl
      · rw [hj h (by simp)]; cases json <;> rfl
    rw [this]
    simp

/-- Plain committee: the result is the arithmetic mean of what the members returned, for any number of members. -/
theorem plain_mean [Field K] (json : Bool) (alpha : K) (hs : List (Handle K ι κ X)) (hne : hs ≠ [])
    (hj : json = false ∨ ∀ h ∈ hs, h.jpots = none) :
    ∃ r, gatherPlain json alpha hs = .ok r ∧ r.pot = (hs.map (·.pot)).sum / hs.length ∧
      (∀ i, r.frc i = (hs.map (·.frc i)).sum / hs.length) ∧ (∀ i, r.vir i = (hs.map (·.vir i)).sum / hs.length) := by
  unfold gatherPlain
  rw [if_neg hne]
  dsimp only
  rw [collect_plain json hs {} hj]
  simp only [List.nil_append, List.length_map, ne_eq, not_true_eq_false, false_and, or_self, if_false]
  refine ⟨_, rfl, ?_, ?_, ?_⟩
  · simp [mean]
  · intro i; simp [meanV, mean, List.map_map]; rfl
  · intro i; simp [meanV, mean, List.map_map]; rfl

/-- Members that carry a complete JSON committee each: the mean runs over all their models together. -/
theorem json_mean [Field K] (alpha : K) (hs : List (Handle K ι κ X)) (hne : hs ≠ [])
    (ps : Handle K ι κ X → List K) (fs : Handle K ι κ X → List (ι → K)) (vs : Handle K ι κ X → List (κ → K))
    (hp : ∀ h ∈ hs, h.jpots = some (ps h)) (hf : ∀ h ∈ hs, h.jfrcs = some (fs h)) (hv : ∀ h ∈ hs, h.jvirs = some (vs h))
    (hlf : ∀ h ∈ hs, (fs h).length = (ps h).length) (hlv : ∀ h ∈ hs, (vs h).length = (ps h).length) :
    ∃ r, gatherPlain true alpha hs = .ok r ∧ r.pot = mean (hs.flatMap ps) ∧ r.frc = meanV (hs.flatMap fs) ∧ r.vir = meanV (hs.flatMap vs) := by
  have key : ∀ (l : List (Handle K ι κ X)) (a : Acc K ι κ), (∀ h ∈ l, h ∈ hs) → l.foldl (collect true) a =
      ⟨a.pots ++ l.flatMap ps, a.frcs ++ l.flatMap fs, a.virs ++ l.flatMap vs, a.allFrc, a.allVir⟩ := by
    intro l
    induction l with
    | nil => intro a _; simp
    | cons h l ih =>
      intro a hl
      have hh := hl h (by simp)
      rw [List.foldl_cons, ih _ (fun x hx => hl x (by simp [hx]))]
      simp [collect, hp h hh, hf h hh, hv h hh]
  have len : ∀ (α : Type) (g : Handle K ι κ X → List α), (∀ h ∈ hs, (g h).length = (ps h).length) →
      (hs.flatMap ps).length = (hs.flatMap g).length := by
    intro α g hg
    rw [List.length_flatMap, List.length_flatMap]
    congr 1
    apply List.map_congr_left
    intro h hh
    exact (hg h hh).symm
  unfold gatherPlain
  rw [if_neg hne]
  dsimp only
  rw [key hs {} (fun _ h => h)]
  simp only [List.nil_append]
  rw [if_neg]
  · exact ⟨_, rfl, rfl, rfl, rfl⟩
  · rintro (⟨h, _⟩ | ⟨h, _⟩)
    · exact h (len _ fs hlf)
    · exact h (len _ vs hlv)

/-! ### spread -/

theorem sum_const_add [Field K] (c : K) (g : K → K) : ∀ l : List K, (l.map fun x => c + g x).sum = l.length * c + (l.map g).sum := by
  intro l
  induction l with
  | nil => simp
  | cons x l ih => simp only [List.map_cons, List.sum_cons, ih, List.length_cons]; push_cast; ring

theorem sum_mul_left' [Field K] (c : K) {α : Type} (g : α → K) : ∀ l : List α, (l.map fun x => c * g x).sum = c * (l.map g).sum := by
  intro l
  induction l with
  | nil => simp
  | cons x l ih => simp only [List.map_cons, List.sum_cons, ih]; ring

theorem sum_sub_const [Field K] (c : K) : ∀ l : List K, (l.map fun x => x - c).sum = l.sum - l.length * c := by
  intro l
  induction l with
  | nil => simp
  | cons x l ih => simp only [List.map_cons, List.sum_cons, ih, List.length_cons]; push_cast; ring

/-- Deviations from the mean cancel. -/
theorem sum_dev [Field K] [CharZero K] (l : List K) (h : l ≠ []) : (l.map fun x => x - mean l).sum = 0 := by
  have : (l.length : K) ≠ 0 := by
    rw [Nat.cast_ne_zero]; exact fun e => h (List.length_eq_zero_iff.1 e)
  rw [sum_sub_const, mean]
  field_simp
  ring

/-- Rescaling the spread by `alpha` does not move the mean, -/
theorem rescale_mean [Field K] [CharZero K] (alpha : K) (l : List K) (h : l ≠ []) : mean (rescale alpha l) = mean l := by
  have hl : (l.length : K) ≠ 0 := by
    rw [Nat.cast_ne_zero]; exact fun e => h (List.length_eq_zero_iff.1 e)
  unfold rescale
  rw [mean, sum_const_add (mean l) (fun x => alpha * (x - mean l)), sum_mul_left' alpha (fun x => x - mean l), sum_dev l h, List.length_map]
  field_simp
  ring

/-- and multiplies the reported variance by `alpha ^ 2` (so the reported uncertainty by `|alpha|`). -/
theorem rescale_var [Field K] [CharZero K] (alpha : K) (l : List K) (h : l ≠ []) : var (rescale alpha l) = alpha ^ 2 * var l := by
  unfold var
  rw [rescale_mean alpha l h]
  have : ((rescale alpha l).map fun x => (x - mean l) * (x - mean l)) = l.map fun x => alpha ^ 2 * ((x - mean l) * (x - mean l)) := by
    unfold rescale
    rw [List.map_map]
    apply List.map_congr_left
    intro x _
    simp only [Function.comp_apply]
    ring
  rw [this, sum_mul_left' (alpha ^ 2) (fun x => (x - mean l) * (x - mean l)), rescale, List.length_map]
  ring

/-- The reported uncertainty (the square root of `variance`) is `|alpha|` times the sample standard deviation of the members. -/
theorem uncertainty_scaled (alpha : ℝ) (hs : List (Handle ℝ ι κ X)) (hne : hs ≠ []) (r : Result ℝ ι κ)
    (h : gatherPlain false alpha hs = .ok r) : Real.sqrt r.variance = |alpha| * Real.sqrt (var (hs.map (·.pot))) := by
  unfold gatherPlain at h
  rw [if_neg hne] at h
  dsimp only at h
  rw [collect_plain false hs {} (.inl rfl)] at h
  simp only [List.nil_append, List.length_map, ne_eq, not_true_eq_false, false_and, or_self, if_false] at h
  injection h with h
  rw [← h]
  dsimp only
  rw [rescale_var alpha _ (by simpa using hne), Real.sqrt_mul (sq_nonneg _), Real.sqrt_sq_eq_abs]

/-! ### weighted baseline -/

theorem baseline_value [Field K] (json : Bool) (alpha sb2 : K) (b : Handle K ι κ X) (hs : List (Handle K ι κ X)) (hne : hs ≠ [])
    (hj : json = false ∨ ∀ h ∈ hs, h.jpots = none) :
    gatherBaseline json alpha sb2 (some b) hs =
      let ps := hs.map (·.pot)
      let v := var (rescale alpha ps)
      .ok
      { pot := b.pot + mean ps * sb2 / (sb2 + v)
        frc := fun i => b.frc i + meanV (hs.map (·.frc)) i * sb2 / (sb2 + v)
          - 2 * mean ps * sb2 / (sb2 + v) ^ 2 * uncertain alpha ps (hs.map (·.frc)) i
        vir := fun i => b.vir i + meanV (hs.map (·.vir)) i * sb2 / (sb2 + v)
          - 2 * mean ps * sb2 / (sb2 + v) ^ 2 * uncertain alpha ps (hs.map (·.vir)) i
        pots := rescale alpha ps
        variance := v
        mixing := some (sb2 / (sb2 + v)) } := by
  unfold gatherBaseline
  rw [if_neg hne]
  dsimp only
  rw [collect_plain json hs {} hj]
  simp

section ordered
variable [Field K] [LinearOrder K] [IsStrictOrderedRing K]

theorem var_nonneg (l : List K) (h : 1 ≤ l.length) : 0 ≤ var l := by
  unfold var
  apply div_nonneg
  · apply List.sum_nonneg
    intro x hx
    obtain ⟨y, _, rfl⟩ := List.mem_map.1 hx
    exact mul_self_nonneg _
  · have : (1 : K) ≤ (l.length : K) := by exact_mod_cast h
    linarith

/-- The committee enters as a correction to the baseline with a weight between zero and one; the weight is one exactly when the members
agree. -/
theorem baseline_weight (alpha sb : K) (b : Handle K ι κ X) (hs : List (Handle K ι κ X)) (hne : hs ≠ []) (hsb : sb ≠ 0)
    (r : Result K ι κ) (h : gatherBaseline false alpha (sb ^ 2) (some b) hs = .ok r) :
    ∃ w : K, r.mixing = some w ∧ r.pot = b.pot + w * ((hs.map (·.pot)).sum / hs.length) ∧ 0 < w ∧ w ≤ 1 ∧
      (w = 1 ↔ r.variance = 0) := by
  rw [baseline_value false alpha _ b hs hne (.inl rfl)] at h
  injection h with h
  have hlen : 1 ≤ (rescale alpha (hs.map (·.pot))).length := by
    simp [rescale]
    exact List.length_pos_iff.2 hne
  have hv := var_nonneg _ hlen
  have hs2 : 0 < sb ^ 2 := by positivity
  rw [← h]
  dsimp only
  generalize var (rescale alpha (hs.map (·.pot))) = v at hv
  have hpos : 0 < sb ^ 2 + v := by linarith
  refine ⟨sb ^ 2 / (sb ^ 2 + v), rfl, ?_, by positivity, ?_, ?_⟩
  · simp only [mean, List.length_map]
    ring
  · rw [div_le_one hpos]; linarith
  · rw [div_eq_one_iff_eq hpos.ne']
    constructor <;> intro e <;> linarith

end ordered

/-- Three members and a baseline, over the rationals. -/
def exH (p f : ℚ) : Handle ℚ Unit Unit Unit := { pot := p, frc := fun _ => f, vir := fun _ => 2 * f, extra := () }
example : (gatherPlain false 2 [exH 1 4, exH 3 5, exH 8 6]).toOption.map (fun r => (r.pot, r.frc (), r.vir (), r.pots, r.variance)) =
    some (4, 5, 10, [-2, 2, 12], 52) := by decide +kernel
example : (gatherBaseline false 2 4 (some (exH 10 1)) [exH 1 4, exH 3 5, exH 8 6]).toOption.map (fun r => (r.pot, r.mixing)) =
    some (10 + 4 * (1 / 14), some (1 / 14)) := by decide +kernel

/-! ### forces are the gradient of the energy -/

theorem hasDerivAt_list_sum {μ : Type} (g : μ → ℝ → ℝ) (g' : μ → ℝ) (x : ℝ) : ∀ (l : List μ), (∀ m ∈ l, HasDerivAt (g m) (g' m) x) →
    HasDerivAt (fun t => (l.map fun m => g m t).sum) (l.map g').sum x := by
  intro l
  induction l with
  | nil => intro _; simpa using hasDerivAt_const x (0 : ℝ)
  | cons m l ih =>
    intro h
    simp only [List.map_cons, List.sum_cons]
    exact (h m (by simp)).add (ih fun m hm => h m (by simp [hm]))

theorem hasDerivAt_mean {μ : Type} (g : μ → ℝ → ℝ) (g' : μ → ℝ) (x : ℝ) (l : List μ) (h : ∀ m ∈ l, HasDerivAt (g m) (g' m) x) :
    HasDerivAt (fun t => mean (l.map fun m => g m t)) (mean (l.map g')) x := by
  have := (hasDerivAt_list_sum g g' x l h).div_const (l.length : ℝ)
  simpa [mean] using this

theorem hasDerivAt_var {μ : Type} (g : μ → ℝ → ℝ) (g' : μ → ℝ) (x : ℝ) (l : List μ) (h : ∀ m ∈ l, HasDerivAt (g m) (g' m) x) :
    HasDerivAt (fun t => var (l.map fun m => g m t))
      ((l.map fun m => 2 * ((g m x - mean (l.map fun m => g m x)) * (g' m - mean (l.map g')))).sum / (l.length - 1)) x := by
  have hm := hasDerivAt_mean g g' x l h
  have hd : ∀ m ∈ l, HasDerivAt (fun t => (g m t - mean (l.map fun m => g m t)) * (g m t - mean (l.map fun m => g m t)))
      (2 * ((g m x - mean (l.map fun m => g m x)) * (g' m - mean (l.map g')))) x := by
    intro m hmem
    have h1 := (h m hmem).sub hm
    have h2 := h1.mul h1
    refine HasDerivAt.congr_deriv h2 ?_
    simp only [Pi.sub_apply]
    ring
  have := (hasDerivAt_list_sum _ _ x l hd).div_const ((l.length : ℝ) - 1)
  simpa [var, List.map_map, Function.comp_def] using this

/-- Plain committee: if each member's force along coordinate `i` is minus the derivative of its energy, so is the committee's. `H m t`
is what member `m` returns when coordinate `i` is displaced by `t`. -/
theorem plain_force_is_gradient {μ : Type} (ms : List μ) (hne : ms ≠ []) (H : μ → ℝ → Handle ℝ ι κ X) (i : ι) (alpha : ℝ)
    (hd : ∀ m ∈ ms, HasDerivAt (fun t => (H m t).pot) (-(H m 0).frc i) 0) (r : ℝ → Result ℝ ι κ)
    (hr : ∀ t, gatherPlain false alpha (ms.map (H · t)) = .ok (r t)) :
    HasDerivAt (fun t => (r t).pot) (-(r 0).frc i) 0 := by
  have e : ∀ t, (r t).pot = mean (ms.map fun m => (H m t).pot) ∧ (r t).frc i = mean (ms.map fun m => (H m t).frc i) := by
    intro t
    obtain ⟨r', h1, h2, h3, _⟩ := plain_mean false alpha (ms.map (H · t)) (by simpa using hne) (.inl rfl)
    rw [hr t] at h1
    injection h1 with h1
    rw [h1, h2, h3 i]
    simp only [mean, List.map_map, List.length_map]
    exact ⟨rfl, rfl⟩
  simp only [fun t => (e t).1, (e 0).2]
  have := hasDerivAt_mean (fun m t => (H m t).pot) (fun m => -(H m 0).frc i) 0 ms hd
  convert this using 1
  unfold mean
  rw [List.length_map, List.length_map]
  have : ∀ l : List μ, (l.map fun m => -(H m 0).frc i).sum = -(l.map fun m => (H m 0).frc i).sum := by
    intro l
    induction l with
    | nil => simp
    | cons a l ih => simp only [List.map_cons, List.sum_cons, ih]; ring
  rw [this]; ring

/-- Weighted baseline: energy and force of the combined model are consistent too, although the weight itself depends on the
positions. -/
theorem baseline_force_is_gradient {μ : Type} (ms : List μ) (hne : ms ≠ []) (H : μ → ℝ → Handle ℝ ι κ X) (B : ℝ → Handle ℝ ι κ X)
    (i : ι) (alpha sb : ℝ) (hsb : sb ≠ 0)
    (hd : ∀ m ∈ ms, HasDerivAt (fun t => (H m t).pot) (-(H m 0).frc i) 0)
    (hb : HasDerivAt (fun t => (B t).pot) (-(B 0).frc i) 0) (r : ℝ → Result ℝ ι κ)
    (hr : ∀ t, gatherBaseline false alpha (sb ^ 2) (some (B t)) (ms.map (H · t)) = .ok (r t)) :
    HasDerivAt (fun t => (r t).pot) (-(r 0).frc i) 0 := by
  let P : μ → ℝ → ℝ := fun m t => (H m t).pot
  let P' : μ → ℝ := fun m => -(H m 0).frc i
  have hv0 : 0 ≤ var (rescale alpha (ms.map fun m => P m 0)) := by
    apply var_nonneg
    simp [rescale]
    exact List.length_pos_iff.2 hne
  have hresc : ∀ t, var (rescale alpha (ms.map fun m => P m t)) = alpha ^ 2 * var (ms.map fun m => P m t) :=
    fun t => rescale_var alpha _ (by simpa using hne)
  have e : ∀ t, (r t).pot = (B t).pot + mean (ms.map fun m => P m t) * sb ^ 2 / (sb ^ 2 + alpha ^ 2 * var (ms.map fun m => P m t)) := by
    intro t
    have := hr t
    rw [baseline_value false alpha _ _ _ (by simpa using hne) (.inl rfl)] at this
    injection this with this
    rw [← this]
    dsimp only
    rw [List.map_map]
    have : (((fun x : Handle ℝ ι κ X => x.pot) ∘ fun m => H m t) : μ → ℝ) = fun m => P m t := rfl
    rw [this, hresc t]
  have e' : (r 0).frc i = (B 0).frc i + mean (ms.map fun m => (H m 0).frc i) * sb ^ 2 / (sb ^ 2 + alpha ^ 2 * var (ms.map fun m => P m 0))
      - 2 * mean (ms.map fun m => P m 0) * sb ^ 2 / (sb ^ 2 + alpha ^ 2 * var (ms.map fun m => P m 0)) ^ 2 *
        (alpha ^ 2 * (ms.map fun m => (P m 0 - mean (ms.map fun m => P m 0)) * ((H m 0).frc i - mean (ms.map fun m => (H m 0).frc i))).sum / (ms.length - 1)) := by
    have := hr 0
    rw [baseline_value false alpha _ _ _ (by simpa using hne) (.inl rfl)] at this
    injection this with this
    rw [← this]
    dsimp only
    rw [List.map_map, List.map_map]
    have h1 : (((fun x : Handle ℝ ι κ X => x.pot) ∘ fun m => H m 0) : μ → ℝ) = fun m => P m 0 := rfl
    have h2 : (((fun x : Handle ℝ ι κ X => x.frc) ∘ fun m => H m 0) : μ → ι → ℝ) = fun m => (H m 0).frc := rfl
    rw [h1, h2, hresc 0]
    unfold uncertain
    have h3 : meanV (ms.map fun m => (H m 0).frc) i = mean (ms.map fun m => (H m 0).frc i) := by
      simp [meanV, List.map_map, Function.comp_def]
    have h4 : ((ms.map fun m => P m 0).zip (ms.map fun m => (H m 0).frc)) = ms.map fun m => (P m 0, (H m 0).frc) := by
      generalize ms = l
      induction l with
      | nil => rfl
      | cons a l ih => simp [ih]
    rw [h3, h4, List.map_map, List.length_map]
    rfl
  have efun : (fun t => (r t).pot) = fun t => (B t).pot + mean (ms.map fun m => P m t) * sb ^ 2 / (sb ^ 2 + alpha ^ 2 * var (ms.map fun m => P m t)) := funext e
  rw [efun]
  rw [e']
  have hm := hasDerivAt_mean P P' 0 ms hd
  have hvar := hasDerivAt_var P P' 0 ms hd
  rw [hresc 0] at hv0
  have hpos : 0 < sb ^ 2 + alpha ^ 2 * var (ms.map fun m => P m 0) := by positivity
  have hden := (hvar.const_mul (alpha ^ 2)).const_add (sb ^ 2)
  have hq := (hm.mul_const (sb ^ 2)).div hden hpos.ne'
  have := hb.add hq
  refine HasDerivAt.congr_deriv this ?_
  have hneg : mean (ms.map P') = - mean (ms.map fun m => (H m 0).frc i) := by
    unfold mean
    rw [List.length_map, List.length_map]
    have : ∀ l : List μ, (l.map P').sum = -(l.map fun m => (H m 0).frc i).sum := by
      intro l
      induction l with
      | nil => simp
      | cons a l ih => simp only [List.map_cons, List.sum_cons, ih, P']; ring
    rw [this]; ring
  have hsum : (ms.map fun m => 2 * ((P m 0 - mean (ms.map fun m => P m 0)) * (P' m - mean (ms.map P')))).sum =
      -2 * (ms.map fun m => (P m 0 - mean (ms.map fun m => P m 0)) * ((H m 0).frc i - mean (ms.map fun m => (H m 0).frc i))).sum := by
    rw [hneg, ← sum_mul_left']
    congr 1
    apply List.map_congr_left
    intro m _
    simp only [P']
    ring
  rw [hsum, hneg]
  generalize (ms.map fun m => (P m 0 - mean (ms.map fun m => P m 0)) * ((H m 0).frc i - mean (ms.map fun m => (H m 0).frc i))).sum = S
  generalize mean (ms.map fun m => (H m 0).frc i) = mf
  generalize mean (ms.map fun m => P m 0) = mp
  generalize sb ^ 2 + alpha ^ 2 * var (ms.map fun m => P m 0) = D at hpos
  have hD : D ≠ 0 := hpos.ne'
  generalize ((ms.length : ℝ) - 1) = N
  by_cases hN : N = 0
  · subst hN
    simp only [div_zero, mul_zero, sub_zero]
    field_simp
    ring
  · field_simp
    ring

end Verif.Committee
