/-
C90: the end of a geometry optimisation.  Whatever the optimiser, the run stops, or stops
moving, only at positions where no free force component exceeds the tolerance, reached by a last
move and a last change of energy within theirs; after that the positions never change.
-/
import Verif.Props.C87_Lbfgs

namespace Verif.QN

open Matrix

variable {ι : Type*} [Fintype ι]

theorem amax_le [Nonempty ι] {v : Vec ι} {b : ℝ} : amax v ≤ b ↔ ∀ i, v i ≤ b := by
  unfold amax
  exact ⟨fun h i => (le_ciSup (Set.finite_range v).bddAbove i).trans h, fun h => ciSup_le h⟩

/-- The optimisation may be called finished at `q`, reached from `q0`. -/
structure Relaxed (energy : Vec ι → ℝ) (force : Vec ι → Vec ι) (fixed : ι → Prop)
    (natoms : Nat) (tolE tolF tolX : ℝ) (q0 q : Vec ι) : Prop where
  energy : |energy q - energy q0| ≤ tolE * natoms
  force : ∀ i, ¬ fixed i → |force q i| ≤ tolF
  move : ∀ i, |q i - q0 i| ≤ tolX

theorem converges_relaxed [Nonempty ι] {energy : Vec ι → ℝ} {force : Vec ι → Vec ι}
    {fixed : ι → Prop} [DecidablePred fixed] {natoms : Nat} {tolE tolF tolX : ℝ} {q0 q : Vec ι}
    (hn : 0 < natoms) (hF : 0 ≤ tolF) :
    converges tolE tolF tolX natoms (energy q) (energy q0)
      (fun i => if fixed i then 0 else force q i) q q0
    ↔ Relaxed energy force fixed natoms tolE tolF tolX q0 q := by
  have hn' : (0 : ℝ) < natoms := by exact_mod_cast hn
  unfold converges
  rw [amax_le, amax_le, abs_div, abs_of_pos hn', div_le_iff₀ hn']
  constructor
  · rintro ⟨h1, h2, h3⟩
    refine ⟨h1, fun i hi => ?_, h3⟩
    have := h2 i
    simp only at this
    rwa [if_neg hi] at this
  · rintro ⟨h1, h2, h3⟩
    refine ⟨h1, fun i => ?_, h3⟩
    simp only
    split
    · simpa using hF
    · next hi => exact h2 i hi

section Run

variable {σ : Type*} {energy : Vec ι → ℝ} {force : Vec ι → Vec ι}
  {opt : Nat → Vec ι → σ → Vec ι × σ} {fixed : ι → Prop} {natoms : Nat} {tolE tolF tolX : ℝ}
  {exitOn : Bool}

/-- What the flag means. -/
def Flagged (energy : Vec ι → ℝ) (force : Vec ι → Vec ι) (fixed : ι → Prop) (natoms : Nat)
    (tolE tolF tolX : ℝ) (s : Geop ι σ) : Prop :=
  s.converged → ∃ q0, Relaxed energy force fixed natoms tolE tolF tolX q0 s.q

theorem geopStep_flagged [Nonempty ι] (hn : 0 < natoms) (hF : 0 ≤ tolF) (k : Nat)
    {s : Geop ι σ} (h : Flagged energy force fixed natoms tolE tolF tolX s) :
    Flagged energy force fixed natoms tolE tolF tolX
      (geopStep energy force opt fixed natoms tolE tolF tolX exitOn k s).2 ∧
    (s.converged →
      (geopStep energy force opt fixed natoms tolE tolF tolX exitOn k s).2 = s) ∧
    ((geopStep energy force opt fixed natoms tolE tolF tolX exitOn k s).1 ≠ .moved →
      s.converged) ∧
    ((geopStep energy force opt fixed natoms tolE tolF tolX exitOn k s).1 = .finished →
      exitOn = true) := by
  classical
  unfold geopStep
  split
  · next hc =>
    refine ⟨h, fun _ => rfl, fun _ => hc, ?_⟩
    intro e
    by_contra hx
    rw [if_neg hx] at e
    exact nomatch e
  · next hc =>
    refine ⟨fun hc' => ⟨s.q, ?_⟩, fun h => absurd h hc, fun h => absurd rfl h,
      fun h => nomatch h⟩
    simp only at hc'
    exact (converges_relaxed hn hF).1 hc'

/-- **The run ends relaxed.**  For every optimiser, energy, forces and number of steps: if the
last step did not move the atoms or ended the simulation, then the positions are relaxed, and
ending it was asked for. -/
theorem geop_end [Nonempty ι] (hn : 0 < natoms) (hF : 0 ≤ tolF) (n : Nat) :
    ∀ (k : Nat) (s : Geop ι σ), Flagged energy force fixed natoms tolE tolF tolX s →
      let r := geopRun energy force opt fixed natoms tolE tolF tolX exitOn k n s .moved
      (r.1 ≠ .moved → ∃ q0, Relaxed energy force fixed natoms tolE tolF tolX q0 r.2.q) ∧
      (r.1 = .finished → exitOn = true) := by
  have key : ∀ (n k : Nat) (s : Geop ι σ) (o : GeopOut),
      Flagged energy force fixed natoms tolE tolF tolX s →
      (o ≠ .moved → s.converged) → (o = .finished → exitOn = true) →
      let r := geopRun energy force opt fixed natoms tolE tolF tolX exitOn k n s o
      (r.1 ≠ .moved → ∃ q0, Relaxed energy force fixed natoms tolE tolF tolX q0 r.2.q) ∧
      (r.1 = .finished → exitOn = true) := by
    intro n
    induction n with
    | zero => intro k s o hs ho he; exact ⟨fun h => hs (ho h), he⟩
    | succ n ih =>
      intro k s o hs _ _
      obtain ⟨h1, h2, h3, h4⟩ := geopStep_flagged (opt := opt) (exitOn := exitOn) hn hF k hs
      unfold geopRun
      generalize hst : geopStep energy force opt fixed natoms tolE tolF tolX exitOn k s = st
        at h1 h2 h3 h4
      obtain ⟨o', s'⟩ := st
      have hconv : o' ≠ .moved → s'.converged := by
        intro ho'
        have hc := h3 ho'
        have e := h2 hc
        simp only at e
        rw [e]; exact hc
      cases o' with
      | finished => exact ⟨fun _ => h1 (hconv (by simp)), h4⟩
      | moved => exact ih _ _ _ h1 hconv h4
      | idle => exact ih _ _ _ h1 hconv h4
  intro k s hs
  exact key n k s .moved hs (fun h => absurd rfl h) (fun h => nomatch h)

/-- **After convergence the positions never change**, however long the run goes on. -/
theorem geop_stays (n : Nat) : ∀ (k : Nat) (s : Geop ι σ) (o : GeopOut), s.converged →
    (geopRun energy force opt fixed natoms tolE tolF tolX exitOn k n s o).2 = s := by
  induction n with
  | zero => intro k s o _; rfl
  | succ n ih =>
    intro k s o hc
    have h : geopStep energy force opt fixed natoms tolE tolF tolX exitOn k s
        = (if exitOn then .finished else .idle, s) := by
      unfold geopStep; rw [if_pos hc]
    unfold geopRun
    rw [h]
    cases exitOn
    · simp only [Bool.false_eq_true, if_false]; exact ih _ _ _ hc
    · simp only [if_true]

/-- **Convergence is noticed**: a step that ends relaxed is followed by one that does not move
the atoms, and ends the simulation if that is asked for. -/
theorem geop_notices [Nonempty ι] (hn : 0 < natoms) (hF : 0 ≤ tolF) (k : Nat) {s : Geop ι σ}
    (hs : ¬ s.converged)
    (hr : Relaxed energy force fixed natoms tolE tolF tolX s.q (opt k s.q s.mem).1) :
    let s' := (geopStep energy force opt fixed natoms tolE tolF tolX exitOn k s).2
    s'.q = (opt k s.q s.mem).1 ∧
    (geopStep energy force opt fixed natoms tolE tolF tolX exitOn (k + 1) s').1
      = (if exitOn then .finished else .idle) ∧
    (geopStep energy force opt fixed natoms tolE tolF tolX exitOn (k + 1) s').2 = s' := by
  classical
  have h1 : geopStep energy force opt fixed natoms tolE tolF tolX exitOn k s
      = (.moved, ⟨(opt k s.q s.mem).1, (opt k s.q s.mem).2,
          converges tolE tolF tolX natoms (energy (opt k s.q s.mem).1) (energy s.q)
            (fun i => if fixed i then 0 else force (opt k s.q s.mem).1 i)
            (opt k s.q s.mem).1 s.q⟩) := by
    unfold geopStep
    rw [if_neg hs]
  rw [h1]
  simp only
  have hc := (converges_relaxed hn hF).2 hr
  unfold geopStep
  rw [if_pos (by convert hc)]
  exact ⟨trivial, rfl, rfl⟩

/-- **A stuck optimiser never ends.**  If from some positions, with what it remembers, the optimiser
does not move the atoms at any later step, and a free force component exceeds the tolerance, then the run
neither ends nor is called converged, however long it is. -/
theorem geop_stuck [Nonempty ι] (hn : 0 < natoms) (hF : 0 ≤ tolF) {q : Vec ι} {i : ι}
    (hi : ¬ fixed i) (hf : tolF < |force q i|) {P : σ → Prop}
    (hopt : ∀ k m, P m → (opt k q m).1 = q ∧ P (opt k q m).2) (n : Nat) :
    ∀ (k : Nat) (s : Geop ι σ), s.q = q → P s.mem → ¬ s.converged →
      let r := geopRun energy force opt fixed natoms tolE tolF tolX exitOn k n s .moved
      r.1 = .moved ∧ r.2.q = q ∧ ¬ r.2.converged := by
  classical
  induction n with
  | zero => intro k s hq _ hc; exact ⟨rfl, hq, hc⟩
  | succ n ih =>
    intro k s hq hm hc
    have h1 : geopStep energy force opt fixed natoms tolE tolF tolX exitOn k s
        = (.moved, ⟨(opt k s.q s.mem).1, (opt k s.q s.mem).2,
            converges tolE tolF tolX natoms (energy (opt k s.q s.mem).1) (energy s.q)
              (fun i => if fixed i then 0 else force (opt k s.q s.mem).1 i)
              (opt k s.q s.mem).1 s.q⟩) := by
      unfold geopStep
      rw [if_neg hc]
    unfold geopRun
    rw [h1]
    refine ih _ _ (by simp only; rw [hq]; exact (hopt _ _ hm).1)
      (by simp only; rw [hq]; exact (hopt _ _ hm).2) ?_
    simp only
    intro hcv
    have := ((converges_relaxed hn hF).1 hcv).force i hi
    rw [hq, (hopt _ _ hm).1] at this
    linarith

end Run

/-- The L-BFGS optimiser as the motion uses it; a failed step is left out. -/
noncomputable def lbfgsOpt (fdf : Vec ι → ℝ × Vec ι) (big tol : ℝ) (itmax m scale : Nat)
    (k : Nat) (q : Vec ι) (mem : Vec ι × List (Pair ι)) : Vec ι × Vec ι × List (Pair ι) :=
  match lbfgsStep fdf big tol itmax m scale k ⟨q, mem.1, mem.2⟩ with
  | some (_, s) => (s.q, s.d, s.rows)
  | none => (q, mem)

/-- **The L-BFGS optimisation can run for ever without moving.**  With a zero direction, which
every line search ending on a small step leaves behind (`lbfgs_small_zero`), the atoms stay
where they are although a force component exceeds the tolerance, and the run never ends. -/
theorem lbfgs_never_ends [Nonempty ι] {fdf : Vec ι → ℝ × Vec ι} {big tol : ℝ}
    {itmax m scale natoms : Nat} {tolE tolF tolX : ℝ} (hb : 0 < big) (hn : 0 < natoms)
    (hF : 0 ≤ tolF) {s : Geop ι (Vec ι × List (Pair ι))} (hd : s.mem.1 = 0)
    (hc : ¬ s.converged) {i : ι} (hf : tolF < |(fdf s.q).2 i|) (exitOn : Bool) (k n : Nat) :
    let r := geopRun (fun q => (fdf q).1) (fun q => -(fdf q).2)
      (lbfgsOpt fdf big tol itmax m scale) (fun _ => False) natoms tolE tolF tolX exitOn k n s
      .moved
    r.1 = .moved ∧ r.2.q = s.q ∧ ¬ r.2.converged := by
  refine geop_stuck (P := fun mem => mem.1 = 0) hn hF (i := i) (fun h => h)
    (by simpa using hf) (fun k mem hm => ?_) n k s rfl hd hc
  unfold lbfgsOpt
  cases hst : lbfgsStep fdf big tol itmax m scale k ⟨s.q, mem.1, mem.2⟩ with
  | none => exact ⟨rfl, hm⟩
  | some r =>
    have hbig : ∀ x : Vec ι, 0 < bigStep big x := by
      intro x
      unfold bigStep
      exact mul_pos hb (lt_of_lt_of_le (by exact_mod_cast Fintype.card_pos) (le_max_right _ _))
    have := lbfgs_frozen (m := m) (scale := scale) (tol := tol) (itmax := itmax) (fdf := fdf)
      hbig 1 k (s := ⟨s.q, mem.1, mem.2⟩) (s' := r.2) hm (by simp [lbfgsRun, hst])
    exact this

/-- The hypotheses of `geop_notices` are met: at the minimum of a parabola. -/
example : Relaxed (fun x : Vec (Fin 1) => x 0 ^ 2) (fun x _ => -(2 * x 0)) (fun _ => False) 1
    (1 / 10) (1 / 10) (1 / 10) 0 0 := by
  constructor <;> simp <;> norm_num

end Verif.QN
