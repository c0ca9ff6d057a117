import Verif.Props.C146_ScpAverages

/-!
# C147: how self-consistent phonon calculations move the mean position

In a harmonic potential the Newton step is exact and keeps the force constants. Steepest descent does
not move with the default options, and the reweighted steps never end at the minimum of a harmonic
potential. Negative eigenvalues of the dynamical matrix become positive.
-/

namespace Verif.Scp

open Finset Matrix

variable {d M : ℕ}

/-- A batch with a weight above zero. -/
def Weighs (expo : ℕ) (q : Vec d) (iD : Mat d) (b : Batch d M) : Prop := batchW expo q iD b ≠ 0

theorem weightedForce_one {expo : ℕ} {q : Vec d} {K iD : Mat d} {b : Batch d M}
    (hw : Weighs expo q iD b) : (weightedForce expo q K iD [b]).1 = avgF q K iD b := by
  funext a
  simp only [weightedForce, List.map_cons, List.map_nil, List.sum_cons, List.sum_nil, add_zero]
  exact mul_div_cancel_left₀ _ hw

/-- With the right force constants the averaged force constants do not change, wherever the centre
is and whatever the weights are. -/
theorem hessian_fixed {expo : ℕ} {q : Vec d} {iD : Mat d} {b : Batch d M} (hw : Weighs expo q iD b)
    {K0 : Mat d} (hK : K0ᵀ = K0) {x0 : Vec d} (hf : HarmForces K0 x0 b)
    (hq : K0 *ᵥ (q - x0) = 0) : weightedHessian expo q K0 iD [b] = K0 := by
  have h0 : avgDK q K0 iD b = 0 := by
    have hz : (Matrix.of fun j a => ∑ s, (b.f s a - harm q K0 (b.x s) a) * rw q iD b s
        * (b.x s - q) j) = (0 : Mat d) := by
      ext j a
      simp only [of_apply, Matrix.zero_apply]
      refine sum_eq_zero fun s _ => ?_
      have : b.f s a - harm q K0 (b.x s) a = 0 := by
        rw [hf s, harm_eq q hK]
        have : b.x s - x0 = (b.x s - q) + (q - x0) := by abel
        rw [this, mulVec_add, hq]
        simp
      rw [this, zero_mul, zero_mul]
    rw [avgDK, hz]
    simp
  simp only [weightedHessian, List.map_cons, List.map_nil, List.sum_cons, List.sum_nil, add_zero,
    h0, Matrix.transpose_zero, smul_zero, smul_smul]
  rw [one_div, inv_mul_cancel₀ hw, one_smul]

/-- **C147.** In a harmonic potential with the force constants of the reference one Newton step
(`ik`) goes to the minimum: no force is left there, and the force constants for the next iteration
are the same again. The check for significance does not skip the step, since there is no error. -/
theorem ik_exact [NeZero M] [NeZero d] {p : Par d} {o : Opt d} (ho : o.disp = .ik) {s : St d}
    {b : Batch d M} (hb : Own s.q s.md.iD b) (hs : Symmetric s.q b.x) {x0 : Vec d}
    (hK : s.md.Kᵀ = s.md.K) (hf : HarmForces s.md.K x0 b)
    (hi : s.md.K * s.md.iK * s.md.K = s.md.K) (hw : ∀ q, Weighs o.expo q s.md.iD b) :
    ∃ t, displace p o [b] s = some t ∧ s.md.K *ᵥ (t.q - x0) = 0 ∧
      (t.dyn, t.md) = newModes p o t.q s.md.K := by
  have hF : (weightedForce o.expo s.q s.md.K s.md.iD [b]).1 = -(s.md.K *ᵥ (s.q - x0)) := by
    rw [weightedForce_one (hw _), avg_force_harmonic hK hb hs hf]
  have hE : ∀ i, fnmErr s.md (weightedForce o.expo s.q s.md.K s.md.iD [b]).2.1 i = 0 := by
    intro i
    have h0 : (weightedForce o.expo s.q s.md.K s.md.iD [b]).2.1 = 0 := by
      funext a
      simp [weightedForce, var_force_harmonic hb hs hK hf]
    rw [h0]
    simp [fnmErr]
  have hn : ¬ Insignificant (fnm s.md (weightedForce o.expo s.q s.md.K s.md.iD [b]).1)
      (fnmErr s.md (weightedForce o.expo s.q s.md.K s.md.iD [b]).2.1) := by
    intro h
    have h1 := h ⟨0, Nat.pos_of_ne_zero (NeZero.ne d)⟩
    rw [hE] at h1
    exact absurd (abs_nonneg _) (not_le.mpr h1)
  have hz : s.md.K *ᵥ (s.q + s.md.iK *ᵥ (weightedForce o.expo s.q s.md.K s.md.iD [b]).1 - x0) = 0 := by
    rw [hF, mulVec_neg]
    have : s.q + -(s.md.iK *ᵥ (s.md.K *ᵥ (s.q - x0))) - x0
        = (s.q - x0) - s.md.iK *ᵥ (s.md.K *ᵥ (s.q - x0)) := by abel
    rw [this, mulVec_sub, mulVec_mulVec, mulVec_mulVec, hi, sub_self]
  have hk := hessian_fixed (hw (s.q + s.md.iK *ᵥ (weightedForce o.expo s.q s.md.K s.md.iD [b]).1)) hK hf hz
  unfold displace
  simp only [ho, if_neg hn]
  refine ⟨_, ite_self _, hz, ?_⟩
  rw [hk]

/-- The step of `nmik` along the modes: with a force that is significant along every mode that is not
chopped it is the Newton step with the inverse of the updated force constants. -/
theorem nmik_newton {p : Par d} {dyn : Mat d} (f e : Vec d)
    (hs : ∀ i, (hpf p dyn).2.2.2 i = false → e i ≤ |fnm (modes p dyn).2 f i|) :
    (modes p dyn).2.V *ᵥ (fun i => if (modes p dyn).2.z i then 0
      else if |fnm (modes p dyn).2 f i| < e i then 0
      else 1 / (modes p dyn).2.w2 i * fnm (modes p dyn).2 f i) = (modes p dyn).2.iK *ᵥ f := by
  have h1 : (fun i => if (modes p dyn).2.z i then (0 : ℝ)
      else if |fnm (modes p dyn).2 f i| < e i then 0
      else 1 / (modes p dyn).2.w2 i * fnm (modes p dyn).2 f i)
      = diagonal (fun i => if (hpf p dyn).2.2.2 i then 0 else 1 / (hpf p dyn).2.1 i)
        *ᵥ ((modes p dyn).2.Vᵀ *ᵥ f) := by
    funext i
    rw [mulVec_diagonal]
    cases hz : (hpf p dyn).2.2.2 i
    · have hz' : (modes p dyn).2.z i = false := hz
      have h2 : fnm (modes p dyn).2 f i = ((modes p dyn).2.Vᵀ *ᵥ f) i := by
        rw [fnm, hz']; rfl
      have h3 : (modes p dyn).2.w2 i = (hpf p dyn).2.1 i := by
        change (if (hpf p dyn).2.2.2 i then (0 : ℝ) else (hpf p dyn).2.1 i) = _
        rw [hz]; rfl
      rw [if_neg (by rw [hz']; exact Bool.false_ne_true), if_neg (not_lt.mpr (hs i hz)), h2, h3,
        if_neg Bool.false_ne_true]
    · have hz' : (modes p dyn).2.z i = true := hz
      rw [if_pos hz', if_pos rfl, zero_mul]
  rw [h1, mulVec_mulVec, mulVec_mulVec]
  congr 1
  simp only [modes]
  rw [build_eq, Matrix.transpose_mul]
  have hT : (isqM p)ᵀ = isqM p := by simp [isqM]
  rw [hT]
  simp only [Matrix.mul_assoc]

/-- **C147.** A step of `nmik` takes the force constants averaged over the samples; if the forces are not all insignificant
along the old modes, and significant along every new mode that is not chopped, it moves the centre by the Newton step with these force
constants. -/
theorem nmik_step {p : Par d} {o : Opt d} (ho : o.disp = .nmik) (bs : List (Batch d M)) (s : St d)
    (hp : o.precheck = false ∨ ¬ Insignificant (fnm s.md (weightedForce o.expo s.q s.md.K s.md.iD bs).1)
      (fnmErr s.md (weightedForce o.expo s.q s.md.K s.md.iD bs).2.1))
    (hs : ∀ i, (newModes p o s.q (weightedHessian o.expo s.q s.md.K s.md.iD bs)).2.z i = false →
      fnmErr (newModes p o s.q (weightedHessian o.expo s.q s.md.K s.md.iD bs)).2 (weightedForce o.expo s.q s.md.K s.md.iD bs).2.1 i
        ≤ |fnm (newModes p o s.q (weightedHessian o.expo s.q s.md.K s.md.iD bs)).2 (weightedForce o.expo s.q s.md.K s.md.iD bs).1 i|) :
    ∃ t, displace p o bs s = some t
      ∧ (t.dyn, t.md) = newModes p o s.q (weightedHessian o.expo s.q s.md.K s.md.iD bs)
      ∧ t.q = s.q + t.md.iK *ᵥ (weightedForce o.expo s.q s.md.K s.md.iD bs).1 := by
  have hN := nmik_newton (p := p) (dyn := o.asr s.q (isqM p * (((1 / 2 : ℝ) • (weightedHessian o.expo s.q s.md.K s.md.iD bs
    + (weightedHessian o.expo s.q s.md.K s.md.iD bs)ᵀ)) * isqM p))) (weightedForce o.expo s.q s.md.K s.md.iD bs).1 _ hs
  unfold displace
  rcases hp with hp | hp
  · simp only [ho, hp, Bool.false_eq_true, if_false]
    exact ⟨_, rfl, rfl, congrArg (s.q + ·) hN⟩
  · simp only [ho, if_neg hp, ite_self]
    exact ⟨_, rfl, rfl, congrArg (s.q + ·) hN⟩

/-- **C147, negated for `sd`.** With the check for significance, which is on by default, a steepest
descent calculation never moves the mean position nor updates the force constants, whatever the
forces are. -/
theorem sd_never_moves {p : Par d} {o : Opt d} (hp : o.precheck = true) (hd : o.disp = .sd)
    (bs : List (Batch d M)) (s : St d) : displace p o bs s = some s := by
  unfold displace
  simp only [hp, hd, if_true]
  exact ite_self _

/-- A potential with a force everywhere: one coordinate, two samples, and the minimum far away. -/
def far : Batch 1 2 := ⟨0, 1, fun s _ => if s = 0 then 1 else -1,
  fun s => -((1 : Mat 1) *ᵥ ((fun _ => if s = 0 then 1 else -1) - fun _ => 5))⟩

theorem far_own : Own 0 1 far := ⟨rfl, rfl⟩

theorem far_symmetric : Symmetric 0 far.x := ⟨Equiv.swap 0 1, fun s => by
  funext a
  fin_cases s <;> simp [far]⟩

theorem far_harm : HarmForces 1 (fun _ => 5) far := fun _ => rfl

/-- Modes with unit force constants and correlations. -/
def unitModes : Modes 1 := ⟨fun _ => 1, 1, fun _ => false, 1, 1, 1, 1, 1, 1⟩

/-- There are forces in the example: without the check the steepest descent step does move, with the
check it does not. -/
example (p : Par 1) (asr : Vec 1 → Mat 1 → Mat 1) :
    (∃ t, displace p ⟨false, .sd, 1, 9 / 10, 1, asr⟩ [far] ⟨0, 1, unitModes⟩ = some t ∧
      t.q = fun _ => 5) ∧
    displace p ⟨true, .sd, 1, 9 / 10, 1, asr⟩ [far] ⟨0, 1, unitModes⟩ = some ⟨0, 1, unitModes⟩ := by
  refine ⟨⟨_, rfl, ?_⟩, sd_never_moves rfl rfl _ _⟩
  have hF : (weightedForce 1 0 unitModes.K unitModes.iD [far]).1 = fun _ => 5 := by
    have hw : Weighs 1 0 (1 : Mat 1) far := by
      rw [Weighs, batchW_own 1 far_own]; norm_num
    have := avg_force_harmonic (K := 1) (Matrix.transpose_one) far_own far_symmetric far_harm
    change (weightedForce 1 0 1 1 [far]).1 = _
    rw [weightedForce_one hw, this]
    funext a
    simp
  change (0 : Vec 1) + (1 : ℝ) • ((1 : Mat 1) *ᵥ (weightedForce 1 0 unitModes.K unitModes.iD [far]).1) = _
  rw [hF]
  simp

/-- The passes of the inner loop of `rnmik`, `n` of them: `none` if the loop was left. -/
noncomputable def passes (o : Opt d) (bs : List (Batch d M)) (dyn : Mat d) (md : Modes d) :
    ℕ → Vec d × ℝ × ℝ → Option (Vec d × ℝ × ℝ)
  | 0, x => some x
  | n + 1, (q, last, scale) =>
    match innerPass o bs ⟨q, dyn, md⟩ last scale with
    | none => none
    | some y => passes o bs dyn md n y

theorem pass_stuck [NeZero M] [NeZero d] {o : Opt d} (hw : o.wthr ≤ 1) {q : Vec d} {dyn : Mat d}
    {md : Modes d} {b : Batch d M} (hb : Own q md.iD b) (hs : Symmetric q b.x) (hK : md.Kᵀ = md.K)
    (hf : HarmForces md.K q b) (last scale : ℝ) :
    ∃ scale', innerPass o [b] ⟨q, dyn, md⟩ last scale = some (q, 1, scale') := by
  have hW : Weighs o.expo q md.iD b := by rw [Weighs, batchW_own o.expo hb]; norm_num
  have hF : (weightedForce o.expo q md.K md.iD [b]).1 = 0 := by
    rw [weightedForce_one hW, avg_force_harmonic hK hb hs hf]
    simp
  have hE : (weightedForce o.expo q md.K md.iD [b]).2.1 = 0 := by
    funext a
    simp [weightedForce, var_force_harmonic hb hs hK hf]
  have hB : (weightedForce o.expo q md.K md.iD [b]).2.2 = [1] := by
    simp [weightedForce, batchW_own o.expo hb]
  have hf0 : fnm md (0 : Vec d) = 0 := by
    funext i
    simp [fnm]
  have hn : ¬ Insignificant (fnm md (0 : Vec d)) (fnmErr md 0) := by
    intro h
    have h1 := h ⟨0, Nat.pos_of_ne_zero (NeZero.ne d)⟩
    rw [hf0] at h1
    simp [fnmErr] at h1
  unfold innerPass
  have hn' : ¬ Insignificant (fnm md (weightedForce o.expo q md.K md.iD [b]).1)
      (fnmErr md (weightedForce o.expo q md.K md.iD [b]).2.1) := by
    rw [hF, hE]; exact hn
  simp only [if_neg hn', hF, hE, hB]
  rw [if_neg (by simp only [List.mem_singleton, forall_eq, not_lt]; exact hw)]
  simp only [List.getLastD_cons, List.getLastD_nil]
  refine ⟨_, congrArg some (Prod.ext ?_ rfl)⟩
  have h3 : ∀ c : ℝ, (fun i => if md.z i then (0 : ℝ) else if |fnm md (0 : Vec d) i| < fnmErr md 0 i then 0
      else 1 / md.w2 i * fnm md (0 : Vec d) i * c / d) = 0 := by
    intro c
    funext i
    rw [hf0]
    simp
  simp only [h3, mulVec_zero, add_zero]

/-- **C147, negated for `rnmik`.** At the minimum of a harmonic potential whose force constants are
those of the reference, where there is nothing left to optimise, the inner loop of `rnmik` is never
left: a force of zero with an error of zero counts as significant. -/
theorem rnmik_never_ends [NeZero M] [NeZero d] {o : Opt d} (hw : o.wthr ≤ 1) {q : Vec d} {dyn : Mat d}
    {md : Modes d} {b : Batch d M} (hb : Own q md.iD b) (hs : Symmetric q b.x) (hK : md.Kᵀ = md.K)
    (hf : HarmForces md.K q b) (n : ℕ) (last scale : ℝ) :
    ∃ y, passes o [b] dyn md n (q, last, scale) = some y ∧ y.1 = q := by
  induction n generalizing last scale with
  | zero => exact ⟨_, rfl, rfl⟩
  | succ n ih =>
    obtain ⟨c, hc⟩ := pass_stuck (o := o) (dyn := dyn) hw hb hs hK hf last scale
    simp only [passes, hc]
    exact ih 1 c

/-- The same samples in a well around the origin meet the hypotheses. -/
example : ∃ b : Batch 1 2, Own 0 unitModes.iD b ∧ Symmetric 0 b.x ∧ HarmForces unitModes.K 0 b :=
  ⟨⟨0, 1, far.x, fun s => -((1 : Mat 1) *ᵥ (far.x s - 0))⟩, ⟨rfl, rfl⟩, far_symmetric, fun _ => rfl⟩

/-- If a force is significant nothing is skipped, and a force that is smaller than its error along
every mode leaves everything as it is. -/
theorem precheck_skips {p : Par d} {o : Opt d} (hp : o.precheck = true) {bs : List (Batch d M)}
    {s : St d} (h : Insignificant (fnm s.md (weightedForce o.expo s.q s.md.K s.md.iD bs).1)
      (fnmErr s.md (weightedForce o.expo s.q s.md.K s.md.iD bs).2.1)) :
    displace p o bs s = some s := by
  unfold displace
  simp only [hp, if_true, if_pos h]

/-! ## Negative eigenvalues -/

/-- One degree of freedom: the eigenvalue is the entry. -/
def eigh1 (A : Mat 1) : Vec 1 × Mat 1 := (fun _ => A 0 0, 1)

theorem eigh1_ok (A : Mat 1) : EighOk A (eigh1 A) := by
  refine ⟨by simp [eigh1], ?_⟩
  ext i j
  fin_cases i; fin_cases j
  simp [eigh1]

/-- **C147, negated for imaginary frequencies.** They are not replaced by zero (as said in the
program): an unstable mode with eigenvalue `-c` is treated as a stable one with eigenvalue `c`. -/
theorem imaginary_real (p : Par 1) (hp : p.eigh = eigh1) {c : ℝ} (hc : 0 < c) (ha : p.atol ≤ c) :
    (modes p (diagonal fun _ => -c)).2.z 0 = false ∧
    (modes p (diagonal fun _ => -c)).2.w2 0 = c := by
  have h : (hpf p (diagonal fun _ => -c)).2.1 0 = c := by
    simp [hpf, hp, eigh1, abs_of_pos hc]
  have hz : (hpf p (diagonal fun _ => -c)).2.2.2 0 = false := by
    have : (hpf p (diagonal fun _ => -c)).2.2.2 0 = decide ((hpf p (diagonal fun _ => -c)).2.1 0 < p.atol) := rfl
    rw [this, h]
    simpa using ha
  refine ⟨hz, ?_⟩
  change (if (hpf p (diagonal fun _ => -c)).2.2.2 0 then (0 : ℝ) else (hpf p (diagonal fun _ => -c)).2.1 0) = c
  rw [hz, h]
  rfl

/-- **C147.** The force constants never have a negative eigenvalue: the quadratic form of the
reference is nonnegative. -/
theorem reference_stable {p : Par d} (dyn : Mat d) (y : Vec d) :
    0 ≤ y ⬝ᵥ ((modes p dyn).2.K *ᵥ y) := by
  have hT : (sqM p)ᵀ = sqM p := by simp [sqM]
  have h1 : (modes p dyn).2.K = sqM p * ((((p.eigh dyn).2 * diagonal fun i => |(p.eigh dyn).1 i|)
      * (p.eigh dyn).2ᵀ) * sqM p) := rfl
  have h2 : y ⬝ᵥ ((modes p dyn).2.K *ᵥ y)
      = ∑ i, |(p.eigh dyn).1 i| * (((p.eigh dyn).2ᵀ *ᵥ (sqM p *ᵥ y)) i) ^ 2 := by
    rw [h1, ← mulVec_mulVec, ← mulVec_mulVec, ← mulVec_mulVec, ← mulVec_mulVec]
    generalize hu : sqM p *ᵥ y = u
    have e1 : y ⬝ᵥ (sqM p *ᵥ ((p.eigh dyn).2 *ᵥ ((diagonal fun i => |(p.eigh dyn).1 i|)
        *ᵥ ((p.eigh dyn).2ᵀ *ᵥ u)))) = ((p.eigh dyn).2ᵀ *ᵥ u) ⬝ᵥ ((diagonal fun i => |(p.eigh dyn).1 i|)
        *ᵥ ((p.eigh dyn).2ᵀ *ᵥ u)) := by
      rw [dotProduct_mulVec, ← mulVec_transpose, hT, hu, dotProduct_mulVec, ← mulVec_transpose]
    rw [e1]
    simp only [dotProduct, mulVec_diagonal]
    exact sum_congr rfl fun i _ => by ring
  rw [h2]
  exact sum_nonneg fun i _ => mul_nonneg (abs_nonneg _) (sq_nonneg _)

end Verif.Scp
