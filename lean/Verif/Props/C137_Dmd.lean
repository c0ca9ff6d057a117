import Mathlib.Analysis.SpecialFunctions.Trigonometric.Basic
import Mathlib.Data.List.Count
import Mathlib.Tactic.Ring
import Mathlib.Tactic.Linarith
import Mathlib.Tactic.IntervalCases
import Verif.Run.Dmd

/-!
# C137: a driven system feels the driving force of its own time
-/

namespace Verif.Dmd

/-! ## Couplings -/

theorem tri (i : ℕ) : (i + 1) * i / 2 = i * (i - 1) / 2 + i := by
  rcases i with _ | i
  · rfl
  · have : (i + 1 + 1) * (i + 1) = (i + 1) * i + 2 * (i + 1) := by ring
    rw [this, Nat.add_mul_div_left _ _ (by decide)]
    simp

theorem slot_lt_row (i j : ℕ) (hj : j < i) : slot i j < slot (i + 1) 0 := by
  unfold slot
  have := tri i
  simp only [Nat.add_sub_cancel]
  omega

theorem row_mono (i k : ℕ) (h : i ≤ k) : slot i 0 ≤ slot k 0 := by
  induction k with
  | zero => simp_all
  | succ k ih =>
    rcases Nat.lt_or_ge k i with h' | h'
    · have : i = k + 1 := by omega
      rw [this]
    · have h1 := ih h'
      have h2 : slot k 0 ≤ slot (k + 1) 0 := by
        unfold slot; simp only [Nat.add_sub_cancel]
        have := tri k; omega
      omega

/-- **C137, couplings.**  Every pair of atoms has its own coupling and every coupling its pair. -/
theorem slot_inj {i j k l : ℕ} (hj : j < i) (hl : l < k) (h : slot i j = slot k l) : i = k ∧ j = l := by
  have key : ∀ {a b c d : ℕ}, b < a → d < c → a < c → slot a b ≠ slot c d := by
    intro a b c d hb _ hac he
    have h1 := slot_lt_row a b hb
    have h2 := row_mono (a + 1) c hac
    have h3 : slot c 0 ≤ slot c d := by unfold slot; omega
    omega
  rcases Nat.lt_trichotomy i k with h1 | h1 | h1
  · exact absurd h (key hj hl h1)
  · subst h1
    refine ⟨rfl, ?_⟩
    unfold slot at h; omega
  · exact absurd h.symm (key hl hj h1)

theorem slot_surj (nat c : ℕ) (hc : c < slots nat) : ∃ i j, j < i ∧ i < nat ∧ slot i j = c := by
  induction nat with
  | zero => simp [slots] at hc
  | succ n ih =>
    by_cases h : c < slots n
    · obtain ⟨i, j, h1, h2, h3⟩ := ih h
      exact ⟨i, j, h1, by omega, h3⟩
    · refine ⟨n, c - slots n, ?_, by omega, ?_⟩
      · have := tri n
        unfold slots at *
        simp only [Nat.add_sub_cancel] at hc
        omega
      · unfold slot slots at *; omega

theorem slot_range (nat i j : ℕ) (hj : j < i) (hi : i < nat) : slot i j < slots nat := by
  have h1 := slot_lt_row i j hj
  have h2 := row_mono (i + 1) nat hi
  unfold slot slots at *
  omega

/-- The documented order of the couplings, `c21, c32, c31, c43, c42, c41, …` with atoms numbered
from one (`/repo/ipi/inputs/forcefields.py` L541): the place of the pair `i > j`, numbered from
zero. -/
def documented (i j : ℕ) : ℕ := i * (i - 1) / 2 + (i - 1 - j)

/-- The place of a pair in the documented list, from its beginning. -/
example : [documented 1 0, documented 2 1, documented 2 0, documented 3 2, documented 3 1, documented 3 0]
    = [0, 1, 2, 3, 4, 5] := by decide +kernel

/-- Full statement: the couplings are used in the documented order.  It fails from three atoms on:
the two first pairs of the third atom are exchanged. -/
theorem not_documented_order (nat : ℕ) (h : 3 ≤ nat) :
    ¬ ∀ i j, j < i → i < nat → slot i j = documented i j := by
  intro hall
  exact absurd (hall 2 0 (by omega) (by omega)) (by decide)

/-- Exactly the pairs of atoms in the middle of the rows are right. -/
theorem documented_order_iff (i j : ℕ) (hj : j < i) : slot i j = documented i j ↔ 2 * j + 1 = i := by
  unfold slot documented; omega

/-! ## The counter -/

/-- Everything named is a force field with a counter. -/
def Ready (dmdff : List String) (ffs : String → Option Field) : Prop :=
  ∀ k ∈ dmdff, ∃ c : ℕ, ffs k = some (some c)

/-- The counter of a force field. -/
def counter (ffs : String → Option Field) (k : String) : ℕ := ((ffs k).join).getD 0

theorem update_ok {dmdff : List String} {ffs : String → Option Field} (h : Ready dmdff ffs) (k : String) :
    ∃ ffs', update dmdff ffs k = .ok ffs' ∧ Ready dmdff ffs' ∧
      ∀ f ∈ dmdff, counter ffs' f = counter ffs f + if k = f then 1 else 0 := by
  unfold update
  by_cases hk : k ∈ dmdff
  · obtain ⟨c, hc⟩ := h k hk
    rw [if_neg (by simpa using hk), hc]
    refine ⟨_, rfl, ?_, ?_⟩
    · intro f hf
      by_cases hfk : f = k
      · exact ⟨c + 1, by rw [hfk]; simp⟩
      · obtain ⟨c', hc'⟩ := h f hf
        exact ⟨c', by rw [Function.update_of_ne hfk, hc']⟩
    · intro f hf
      by_cases hfk : k = f
      · subst hfk; simp [counter, hc]
      · rw [if_neg hfk]
        unfold counter
        rw [Function.update_of_ne (Ne.symm hfk)]; rfl
  · rw [if_pos hk]
    refine ⟨_, rfl, h, fun f hf => ?_⟩
    have : k ≠ f := fun e => hk (e ▸ hf)
    simp [this]

theorem system_ok {dmdff : List String} (bcomp : List String) : ∀ {ffs : String → Option Field},
    Ready dmdff ffs → ∃ ffs', updateSystem dmdff ffs bcomp = .ok ffs' ∧ Ready dmdff ffs' ∧
      ∀ f ∈ dmdff, counter ffs' f = counter ffs f + bcomp.count f := by
  induction bcomp with
  | nil => intro ffs h; exact ⟨ffs, rfl, h, by simp⟩
  | cons k l ih =>
    intro ffs h
    obtain ⟨f1, e1, r1, c1⟩ := update_ok h k
    obtain ⟨f2, e2, r2, c2⟩ := ih r1
    refine ⟨f2, ?_, r2, fun f hf => ?_⟩
    · unfold updateSystem at *
      rw [List.foldlM_cons, e1]; exact e2
    · rw [c2 f hf, c1 f hf, List.count_cons]
      by_cases hkf : k = f <;> simp [hkf] <;> omega

theorem step_ok {dmdff : List String} (systems : List (List String)) : ∀ {ffs : String → Option Field},
    Ready dmdff ffs → ∃ ffs', dmdStep dmdff ffs systems = .ok ffs' ∧ Ready dmdff ffs' ∧
      ∀ f ∈ dmdff, counter ffs' f = counter ffs f + (systems.map fun b => b.count f).sum := by
  induction systems with
  | nil => intro ffs h; exact ⟨ffs, rfl, h, by simp⟩
  | cons b l ih =>
    intro ffs h
    obtain ⟨f1, e1, r1, c1⟩ := system_ok b h
    obtain ⟨f2, e2, r2, c2⟩ := ih r1
    refine ⟨f2, ?_, r2, fun f hf => ?_⟩
    · unfold dmdStep at *
      rw [List.foldlM_cons, e1]; exact e2
    · rw [c2 f hf, c1 f hf, List.map_cons, List.sum_cons]; omega

/-- **C137, the clock.**  After `n` steps the clock of a driving force field has advanced by `n` times
the number of bias components, over all the systems, that use it. -/
theorem clock {dmdff : List String} (systems : List (List String)) (n : ℕ) :
    ∀ {ffs : String → Option Field}, Ready dmdff ffs →
    ∃ ffs', dmdSteps dmdff systems n ffs = .ok ffs' ∧
      ∀ f ∈ dmdff, counter ffs' f = counter ffs f + n * (systems.map fun b => b.count f).sum := by
  induction n with
  | zero => intro ffs _; exact ⟨ffs, rfl, by simp⟩
  | succ n ih =>
    intro ffs h
    obtain ⟨f1, e1, r1, c1⟩ := step_ok systems h
    obtain ⟨f2, e2, c2⟩ := ih r1
    refine ⟨f2, ?_, fun f hf => ?_⟩
    · rw [dmdSteps, e1]; exact e2
    · rw [c2 f hf, c1 f hf]; ring

/-- With one system and the force field once among its bias components the clock is the number of
steps. -/
theorem clock_one_partial {dmdff : List String} (bcomp : List String) (n : ℕ)
    {ffs : String → Option Field} (h : Ready dmdff ffs) (f : String) (hf : f ∈ dmdff) (h1 : bcomp.count f = 1) :
    ∃ ffs', dmdSteps dmdff [bcomp] n ffs = .ok ffs' ∧ counter ffs' f = counter ffs f + n := by
  obtain ⟨g, e, c⟩ := clock [bcomp] n h
  exact ⟨g, e, by rw [c f hf]; simp [h1]⟩

/-- Full statement: the clock advances by one with each step.  It fails for two systems with the
same force field: the clock runs twice as fast. -/
theorem not_clock : ¬ ∀ (systems : List (List String)) (dmdff : List String) (ffs ffs' : String → Option Field)
    (f : String), f ∈ dmdff → Ready dmdff ffs → (∀ b ∈ systems, b.count f = 1) → systems ≠ [] →
    dmdStep dmdff ffs systems = .ok ffs' → counter ffs' f = counter ffs f + 1 := by
  intro h
  have hr : Ready ["d"] fun _ => some (some 0) := fun _ _ => ⟨0, rfl⟩
  obtain ⟨g, e, _, c⟩ := step_ok [["d"], ["d"]] hr
  have h1 := h [["d"], ["d"]] ["d"] (fun _ => some (some 0)) g "d" (by simp) hr (by simp) (by simp) e
  have h2 := c "d" (by simp)
  rw [h1] at h2
  simp [counter] at h2

/-- A force field that drives the systems as an ordinary force and not as a bias stays at its
initial time forever. -/
theorem clock_stopped {dmdff : List String} (systems : List (List String)) (n : ℕ)
    {ffs : String → Option Field} (h : Ready dmdff ffs) (f : String) (hf : f ∈ dmdff)
    (h0 : ∀ b ∈ systems, f ∉ b) :
    ∃ ffs', dmdSteps dmdff systems n ffs = .ok ffs' ∧ counter ffs' f = counter ffs f := by
  obtain ⟨g, e, c⟩ := clock systems n h
  refine ⟨g, e, ?_⟩
  have : (systems.map fun b => b.count f) = systems.map fun _ => 0 :=
    List.map_congr_left fun b hb => List.count_eq_zero_of_not_mem (h0 b hb)
  rw [c f hf, this]
  simp

/-- A force field without a clock is reported. -/
theorem no_clock (dmdff : List String) (ffs : String → Option Field) (k : String) (l : List String)
    (ss : List (List String)) (hk : k ∈ dmdff) (hf : ffs k = some none) :
    dmdStep dmdff ffs ((k :: l) :: ss) = .error (.noInterface k) := by
  have : update dmdff ffs k = .error (.noInterface k) := by
    unfold update; rw [if_neg (by simpa using hk), hf]
  unfold dmdStep updateSystem
  rw [List.foldlM_cons, List.foldlM_cons, this]
  rfl

example := clock (dmdff := ["d"]) [["d", "x"], ["d"]] 5 (ffs := fun _ => some (some 3)) fun _ _ => ⟨3, rfl⟩

/-! ## The time of the forces -/

/-- The states of a run. -/
noncomputable def run (F : ℝ → ℕ → ℝ) (dt m : ℝ) (st : State) : ℕ → State
  | 0 => st
  | n + 1 => mdStep F dt m (run F dt m st n)

/-- **C137, what the force is.**  After each step of an uninterrupted run the force at the new
positions, which the next step begins with, is the one of the time before the step, whatever the
force field. -/
theorem force_lags (F : ℝ → ℕ → ℝ) (dt m x p : ℝ) (s0 n : ℕ) :
    (run F dt m (begin F x p s0) n).s = s0 + n ∧
    (run F dt m (begin F x p s0) (n + 1)).f = F (run F dt m (begin F x p s0) (n + 1)).x (s0 + n) := by
  have hs : ∀ n, (run F dt m (begin F x p s0) n).s = s0 + n := by
    intro n
    induction n with
    | zero => rfl
    | succ n ih =>
      have : (run F dt m (begin F x p s0) (n + 1)).s = (run F dt m (begin F x p s0) n).s + 1 := rfl
      rw [this, ih]; rfl
  refine ⟨hs n, ?_⟩
  have : (run F dt m (begin F x p s0) (n + 1)).f =
      F (run F dt m (begin F x p s0) (n + 1)).x (run F dt m (begin F x p s0) n).s := rfl
  rw [this, hs]

/-- A force that does not depend on time is the one at the current positions, and a run continued
from a checkpoint is the uninterrupted run. -/
theorem static_partial (G : ℝ → ℝ) (dt m x p : ℝ) (s0 n k : ℕ) :
    run (fun x _ => G x) dt m (resume (fun x _ => G x)
      (checkpoint (run (fun x _ => G x) dt m (begin (fun x _ => G x) x p s0) n))) k =
    run (fun x _ => G x) dt m (begin (fun x _ => G x) x p s0) (n + k) := by
  have hr : resume (fun x _ => G x) (checkpoint (run (fun x _ => G x) dt m (begin (fun x _ => G x) x p s0) n)) =
      run (fun x _ => G x) dt m (begin (fun x _ => G x) x p s0) n := by
    cases n with
    | zero => rfl
    | succ n => rfl
  rw [hr]
  induction k with
  | zero => rfl
  | succ k ih => rw [run, ih]; rfl

/-- A free particle driven by the force `sin s` of the time. -/
noncomputable def sine : ℝ → ℕ → ℝ := fun _ s => Real.sin s

theorem sin_one_pos : 0 < Real.sin 1 :=
  Real.sin_pos_of_pos_of_lt_pi one_pos (by have := Real.two_le_pi; linarith)

/-- Full statement: the force of the `n`-th state is the one of the time `n`.  It is that of the
time `n - 1`. -/
theorem not_force_of_time : ¬ ∀ (F : ℝ → ℕ → ℝ) (dt m x p : ℝ) (n : ℕ),
    (run F dt m (begin F x p 0) n).f = F (run F dt m (begin F x p 0) n).x n := by
  intro h
  have h1 := h sine 1 1 0 0 1
  rw [(force_lags sine 1 1 0 0 0 0).2] at h1
  have h2 : Real.sin ((0 + 0 : ℕ) : ℝ) = Real.sin ((1 : ℕ) : ℝ) := h1
  simp at h2
  have := sin_one_pos
  linarith

/-- Full statement: a run continued from a checkpoint is the uninterrupted run.  It fails, with a
driving force that depends on time, already for the first momentum after the interruption. -/
theorem not_restart : ¬ ∀ (F : ℝ → ℕ → ℝ) (dt m x p : ℝ) (n k : ℕ),
    run F dt m (resume F (checkpoint (run F dt m (begin F x p 0) n))) k =
      run F dt m (begin F x p 0) (n + k) := by
  intro h
  have h1 := congrArg State.x (h sine 1 1 0 0 1 1)
  simp [run, resume, checkpoint, begin, mdStep, sine] at h1
  have := sin_one_pos
  linarith

/-- What a continued run does instead: it takes its first force at the later time. -/
theorem restart_force (F : ℝ → ℕ → ℝ) (dt m x p : ℝ) (n : ℕ) :
    (resume F (checkpoint (run F dt m (begin F x p 0) n))).f =
      F (run F dt m (begin F x p 0) n).x n := by
  have h := (force_lags F dt m x p 0 n).1
  have e : (resume F (checkpoint (run F dt m (begin F x p 0) n))).f =
      F (run F dt m (begin F x p 0) n).x (run F dt m (begin F x p 0) n).s := rfl
  rw [e, h, Nat.zero_add]

example := force_lags sine 1 1 0 0 0 3

/-- A step is that of velocity Verlet: with a force that does not depend on the time, a step back with the opposite
momentum ends where the step began. -/
theorem mdStep_reversible (G : ℝ → ℝ) (dt m : ℝ) (st : State) (hf : st.f = G st.x) :
    let st1 := mdStep (fun x _ => G x) dt m st
    let st2 := mdStep (fun x _ => G x) dt m { st1 with p := -st1.p }
    st2.x = st.x ∧ st2.p = -st.p ∧ st2.f = st.f := by
  intro st1 st2
  have hx : st2.x = st.x := by
    simp only [st2, st1, mdStep]
    ring
  refine ⟨hx, ?_, ?_⟩
  · have : st2.p = -st1.p + st1.f * (dt / 2) + G st2.x * (dt / 2) := rfl
    rw [this, hx, ← hf]
    simp only [st1, mdStep]
    ring
  · have : st2.f = G st2.x := rfl
    rw [this, hx, hf]

end Verif.Dmd
