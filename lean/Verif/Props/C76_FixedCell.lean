import Verif.Phys.Mts
import Verif.Props.C75_AniEnergy

/-!
# C76: held cell entries, and the cell volume, stay as they are

`hfix` is documented as the list of cell entries that are held fixed, `vol_constraint` as keeping
the volume.  Both are done by changing the momenta of the cell after each pressure update.
-/

namespace Verif.Baro

open Finset Verif.Mts

/-! ## The exponential of a triangular matrix -/

section
open scoped Matrix
attribute [local instance] Matrix.linftyOpNormedRing Matrix.linftyOpNormedAlgebra

theorem pow_upper (a : Matrix (Fin 3) (Fin 3) ℝ) (ha : ∀ i j, j < i → a i j = 0) (n : ℕ) :
    (∀ i j, j < i → (a ^ n) i j = 0) ∧ ∀ i, (a ^ n) i i = a i i ^ n := by
  induction n with
  | zero =>
      refine ⟨fun i j h => ?_, fun i => by simp⟩
      rw [pow_zero, Matrix.one_apply_ne (ne_of_gt h)]
  | succ n ih =>
      obtain ⟨h1, h2⟩ := ih
      refine ⟨fun i j h => ?_, fun i => ?_⟩
      · rw [pow_succ, Matrix.mul_apply]
        refine sum_eq_zero fun k _ => ?_
        rcases lt_or_ge k i with hk | hk
        · rw [h1 i k hk, zero_mul]
        · rw [ha k j (lt_of_lt_of_le h hk), mul_zero]
      · rw [pow_succ, Matrix.mul_apply, sum_eq_single i, h2, pow_succ]
        · intro k _ hk
          rcases lt_or_gt_of_ne hk with hk | hk
          · rw [h1 i k hk, zero_mul]
          · rw [ha k i hk, mul_zero]
        · simp

theorem mexp_entry (a : M3) (i j : Fin 3) :
    HasSum (fun n : ℕ => ((n.factorial : ℝ)⁻¹) * ((Matrix.of a : Matrix (Fin 3) (Fin 3) ℝ) ^ n) i j)
      (mexp a i j) := by
  have h := NormedSpace.exp_series_hasSum_exp' (𝕂 := ℝ)
    (Matrix.of a : Matrix (Fin 3) (Fin 3) ℝ)
  have h2 := (Pi.hasSum.mp (Pi.hasSum.mp h i)) j
  exact h2

theorem mexp_upper {a : M3} (ha : Upper a) : Upper (mexp a) := by
  intro i j hij
  have h := mexp_entry a i j
  simp only [(pow_upper (Matrix.of a) ha _).1 i j hij, mul_zero] at h
  exact h.unique hasSum_zero

theorem mexp_diag {a : M3} (ha : Upper a) (i : Fin 3) : mexp a i i = Real.exp (a i i) := by
  have h := mexp_entry a i i
  simp only [(pow_upper (Matrix.of a) ha _).2 i] at h
  have h2 := NormedSpace.exp_series_hasSum_exp' (𝕂 := ℝ) (a i i)
  rw [← Real.exp_eq_exp_ℝ] at h2
  refine h.unique ?_
  simpa using h2

/-- An entry of the first off-diagonal that is zero in a triangular matrix is zero in its
exponential. -/
theorem pow_next (a : Matrix (Fin 3) (Fin 3) ℝ) (ha : ∀ i j, j < i → a i j = 0) (i j : Fin 3)
    (hij : i.val + 1 = j.val) (h0 : a i j = 0) (n : ℕ) : (a ^ n) i j = 0 := by
  have hne : i ≠ j := fun h => by rw [h] at hij; omega
  induction n with
  | zero => rw [pow_zero, Matrix.one_apply_ne hne]
  | succ n ih =>
      rw [pow_succ, Matrix.mul_apply]
      refine sum_eq_zero fun k _ => ?_
      rcases lt_trichotomy k i with hk | hk | hk
      · rw [(pow_upper a ha n).1 i k hk, zero_mul]
      · rw [hk, h0, mul_zero]
      · rcases eq_or_ne k j with hk2 | hk2
        · rw [hk2, ih, zero_mul]
        · rw [ha k j, mul_zero]
          have h1 : i.val < k.val := hk
          have h2 : k.val ≠ j.val := fun h => hk2 (Fin.ext h)
          show j.val < k.val
          omega

theorem mexp_next {a : M3} (ha : Upper a) (i j : Fin 3) (hij : i.val + 1 = j.val)
    (h0 : a i j = 0) : mexp a i j = 0 := by
  have h := mexp_entry a i j
  simp only [pow_next (Matrix.of a) ha i j hij h0, mul_zero] at h
  exact h.unique hasSum_zero

theorem pow_offdiag (a : Matrix (Fin 3) (Fin 3) ℝ) (ha : ∀ i j, i ≠ j → a i j = 0) (n : ℕ)
    (i j : Fin 3) (hij : i ≠ j) : (a ^ n) i j = 0 := by
  induction n generalizing i j with
  | zero => rw [pow_zero, Matrix.one_apply_ne hij]
  | succ n ih =>
      rw [pow_succ, Matrix.mul_apply]
      refine sum_eq_zero fun k _ => ?_
      rcases eq_or_ne i k with hk | hk
      · rw [← hk, ha i j hij, mul_zero]
      · rw [ih i k hk, zero_mul]

theorem mexp_offdiag {a : M3} (ha : ∀ i j, i ≠ j → a i j = 0) (i j : Fin 3) (hij : i ≠ j) :
    mexp a i j = 0 := by
  have h := mexp_entry a i j
  simp only [pow_offdiag (Matrix.of a) ha _ i j hij, mul_zero] at h
  exact h.unique hasSum_zero

end

/-! ## Runs -/

variable {nb N : ℕ}

/-- What the surroundings contribute to one elementary update: the forces and the level of a
pressure update and its time step, and whatever the free ring polymer, the constraints and the
thermostats leave behind in the positions and momenta of the beads and in the momentum of the
cell. -/
structure Env (nb N : ℕ) where
  F : FF nb N
  bias : FF nb N
  lev : Lev
  dt : ℝ
  x : Cfg nb N
  p : Cfg nb N
  pe : M3

/-- One elementary update of a run at constant stress (`NPTIntegrator`, `NSTIntegrator`,
`dynamics.py` L613-675):
`pstep` and `qcstep` are those of the barostat; the thermostat step also acts on the momentum of
the cell (`tstep`, L650-655); the free ring polymer moves beads only; the momentum constraints
change the momenta of the beads. -/
noncomputable def cellOp (par : Par N) (e : Ext) (hm : M3) (volc : Bool) (eig : M3 → Eig) (qdt : ℝ)
    (v : Env nb N) (s : Ani nb N) : Op → Ani nb N
  | .p _ => aniPstep par e hm volc v.F v.bias v.lev v.dt s
  | .qc => aniQcstep par eig qdt s
  | .t => { s with p := v.p, pe := v.pe }
  | .f => { s with x := v.x, p := v.p }
  | .c => { s with p := v.p }
  | .s => s

/-- A sequence of updates; update `n` meets the surroundings `env n`. -/
noncomputable def cellRun (par : Par N) (e : Ext) (hm : M3) (volc : Bool) (eig : M3 → Eig)
    (qdt : ℝ) (env : ℕ → Env nb N) : ℕ → List Op → Ani nb N → Ani nb N
  | _, [], s => s
  | n, o :: r, s => cellRun par e hm volc eig qdt env (n + 1) r
      (cellOp par e hm volc eig qdt (env n) s o)

/-- The cell moves only when the last thing that changed its momentum was a pressure update. -/
def Ordered : Bool → List Op → Prop
  | _, [] => True
  | b, .qc :: r => b = true ∧ Ordered b r
  | _, .p _ :: r => Ordered true r
  | _, .t :: r => Ordered false r
  | b, .f :: r => Ordered b r
  | b, .c :: r => Ordered b r
  | b, .s :: r => Ordered b r

/-- The state after a list of updates. -/
def after : Bool → List Op → Bool
  | b, [] => b
  | _, .p _ :: r => after true r
  | _, .t :: r => after false r
  | b, .qc :: r => after b r
  | b, .f :: r => after b r
  | b, .c :: r => after b r
  | b, .s :: r => after b r

theorem ordered_append : ∀ (l r : List Op) (b : Bool),
    Ordered b (l ++ r) ↔ Ordered b l ∧ Ordered (after b l) r
  | [], r, b => by simp [Ordered, after]
  | o :: l, r, b => by
      cases o <;> simp [Ordered, after, ordered_append l r, and_assoc]

theorem after_append : ∀ (l r : List Op) (b : Bool), after b (l ++ r) = after (after b l) r
  | [], r, b => rfl
  | o :: l, r, b => by cases o <;> simp [after, after_append l r]

/-- A block that is in order wherever it stands and leaves the momentum constrained. -/
def Block (l : List Op) : Prop := ∀ b, Ordered b l ∧ after b l = true

/-- A block that is in order after a pressure update. -/
def Cont (l : List Op) : Prop := Ordered true l ∧ after true l = true

theorem cont_nil : Cont [] := ⟨trivial, rfl⟩

theorem Block.cont {l : List Op} (h : Block l) : Cont l := h true

theorem Block.append {l r : List Op} (hl : Block l) (hr : Cont r) : Block (l ++ r) := fun b => by
  rw [ordered_append, after_append, (hl b).2]
  exact ⟨⟨(hl b).1, hr.1⟩, hr.2⟩

theorem Cont.append {l r : List Op} (hl : Cont l) (hr : Cont r) : Cont (l ++ r) := by
  unfold Cont
  rw [ordered_append, after_append, hl.2]
  exact ⟨⟨hl.1, hr.1⟩, hr.2⟩

theorem Cont.replicate {l : List Op} (hl : Cont l) : ∀ n, Cont (List.replicate n l).flatten
  | 0 => cont_nil
  | n + 1 => by
      rw [List.replicate_succ, List.flatten_cons]
      exact hl.append (hl.replicate n)

theorem Block.replicate {l : List Op} (hl : Block l) {n : ℕ} (hn : 0 < n) :
    Block (List.replicate n l).flatten := by
  obtain ⟨n, rfl⟩ := Nat.exists_eq_succ_of_ne_zero hn.ne'
  rw [List.replicate_succ, List.flatten_cons]
  exact hl.append (hl.cont.replicate n)

theorem block_pc (i : ℕ) : Block [Op.p i, Op.c] := fun b => by simp [Ordered, after]

theorem cont_qf : Cont [Op.qc, Op.f] := by simp [Cont, Ordered, after]

theorem cont_qfqf : Cont [Op.qc, Op.f, Op.qc, Op.f] := by simp [Cont, Ordered, after]

/-- With all multipliers positive the two halves of the propagation are in order. -/
theorem halves (nmts : List ℕ) (h : ∀ m ∈ nmts, 0 < m) (hne : nmts ≠ []) (idx : ℕ) :
    Block (ba idx nmts) ∧ Cont (ab idx nmts) := by
  induction nmts generalizing idx with
  | nil => exact absurd rfl hne
  | cons m rest ih =>
      have hm : 0 < m := h m (by simp)
      have hr : ∀ k ∈ rest, 0 < k := fun k hk => h k (by simp [hk])
      have hin : Cont (if rest.isEmpty then [Op.qc, Op.f, Op.qc, Op.f]
          else ba (idx + 1) rest ++ ab (idx + 1) rest) := by
        rcases rest with _ | ⟨k, rest⟩
        · exact cont_qfqf
        · obtain ⟨h1, h2⟩ := ih hr (by simp) (idx + 1)
          exact (h1.append h2).cont
      have hfull : Block ([Op.p idx, Op.c] ++ (if rest.isEmpty then [Op.qc, Op.f, Op.qc, Op.f]
          else ba (idx + 1) rest ++ ab (idx + 1) rest) ++ [Op.p idx, Op.c]) :=
        ((block_pc idx).append hin).append (block_pc idx).cont
      have hb1 : Block ([Op.p idx, Op.c] ++ (if rest.isEmpty then [Op.qc, Op.f]
          else ba (idx + 1) rest)) := by
        refine (block_pc idx).append ?_
        rcases rest with _ | ⟨k, rest⟩
        · exact cont_qf
        · exact (ih hr (by simp) (idx + 1)).1.cont
      have ha1 : Cont ((if rest.isEmpty then [Op.qc, Op.f]
          else ab (idx + 1) rest) ++ [Op.p idx, Op.c]) := by
        refine Cont.append ?_ (block_pc idx).cont
        rcases rest with _ | ⟨k, rest⟩
        · exact cont_qf
        · exact (ih hr (by simp) (idx + 1)).2
      constructor
      · rw [ba]
        rcases Nat.eq_zero_or_pos (m / 2) with h2 | h2
        · have : m % 2 = 1 := by omega
          rw [h2, if_pos this]
          simpa using hb1
        · refine (hfull.replicate h2).append ?_
          split
          · exact hb1.cont
          · exact cont_nil
      · rw [ab]
        refine Cont.append ?_ (hfull.cont.replicate _)
        split
        · exact ha1
        · exact cont_nil

/-- Any number of obabo steps is in order. -/
theorem obabo_steps (nmts : List ℕ) (h : ∀ m ∈ nmts, 0 < m) (hne : nmts ≠ []) (n : ℕ) (b : Bool) :
    Ordered b (List.replicate n (nvtStep .obabo nmts)).flatten := by
  obtain ⟨h1, h2⟩ := halves nmts h hne 0
  have hm : Block (mtsprop 0 nmts) := h1.append h2
  induction n generalizing b with
  | zero => trivial
  | succ n ih =>
      rw [List.replicate_succ, List.flatten_cons, ordered_append]
      refine ⟨?_, ih _⟩
      rw [nvtStep, ordered_append, ordered_append]
      refine ⟨⟨by simp [Ordered], (hm _).1⟩, by simp [Ordered]⟩

/-! ## Which entries are named -/

/-- The letter of a direction. -/
def letter : Fin 3 → Char
  | 0 => 'x'
  | 1 => 'y'
  | 2 => 'z'

/-- Two letters name the entry in the row of the first and the column of the second; an entry below
the diagonal stands for the one above it, since the cell is upper triangular. -/
theorem named_entry : ∀ i j : Fin 3, ∃ f, Fix.ofName [letter i, letter j] = some f ∧
    ∀ a b, f.hits a b = true ↔ a = min i j ∧ b = max i j := by
  intro i j
  fin_cases i <;> fin_cases j <;> exact ⟨_, rfl, by decide⟩

/-- `offdiagonal` names all entries above the diagonal. -/
theorem named_offdiagonal : ∃ f, Fix.ofName "offdiagonal".toList = some f ∧
    ∀ a b, f.hits a b = true ↔ a < b :=
  ⟨.offdiagonal, by decide, by decide⟩

/-! ## What is kept -/

/-- What the momentum of the cell obeys after a pressure update. -/
structure Held (hm : M3) (volc : Bool) (pe : M3) : Prop where
  entry : volc = false → ∀ i j, hm i j = 0 → pe i j = 0
  off : ∀ i j, i ≠ j → hm i j = 0 → pe i j = 0
  trace : volc = true → pe 0 0 + pe 1 1 + pe 2 2 = 0

theorem constrain_held (hm : M3) (volc : Bool) (pe : M3) : Held hm volc (constrain hm volc pe) := by
  constructor
  · intro hv i j h
    simp [constrain, hv, h]
  · intro i j hij h
    cases volc <;> simp [constrain, h, one3, hij]
  · intro hv
    simp only [constrain, hv, if_true, trace3, one3, Fin.sum_univ_three]
    ring

theorem triu_lower (a : M3) {i j : Fin 3} (h : j < i) : triu a i j = 0 := by
  simp [triu, not_le.mpr h]

theorem aniP_upper (par : Par N) (e : Ext) (hm : M3) (F bias : FF nb N) (l : Lev) (dt : ℝ)
    (s : Ani nb N) (h : Upper s.pe) : Upper (aniP par e hm F bias l dt s) := by
  intro i j hij
  simp only [aniP, triu_lower _ hij, h i j hij, if_neg (ne_of_gt hij)]
  split <;> simp

theorem constrain_upper (hm : M3) (volc : Bool) {pe : M3} (h : Upper pe) :
    Upper (constrain hm volc pe) := by
  intro i j hij
  cases volc <;> simp [constrain, h i j hij, one3, ne_of_gt hij]

/-- A relation between the cell before and after that every constrained move keeps. -/
theorem run_keeps (par : Par N) (e : Ext) (hm : M3) (volc : Bool) (eig : M3 → Eig) (qdt : ℝ)
    (env : ℕ → Env nb N) (henv : ∀ n, Upper (env n).pe) (P : M3 → Prop)
    (hP : ∀ pe h, Upper pe → Held hm volc pe → Upper h → P h →
      P (mul3 (mexp fun i j => pe i j / par.M * qdt) h)) :
    ∀ (l : List Op) (n : ℕ) (b : Bool) (s : Ani nb N), Ordered b l → Upper s.pe →
      (b = true → Held hm volc s.pe) → Upper s.h → P s.h →
      Upper (cellRun par e hm volc eig qdt env n l s).h ∧
        P (cellRun par e hm volc eig qdt env n l s).h
  | [], n, b, s, _, _, _, hh, h0 => ⟨hh, h0⟩
  | .p k :: r, n, b, s, ho, hpe, hb, hh, h0 => by
      refine run_keeps par e hm volc eig qdt env henv P hP r (n + 1) true _ ho ?_ ?_ hh h0
      · exact constrain_upper hm volc (aniP_upper _ _ _ _ _ _ _ s hpe)
      · exact fun _ => constrain_held hm volc _
  | .qc :: r, n, b, s, ho, hpe, hb, hh, h0 => by
      have hv : Upper fun i j => s.pe i j / par.M * qdt := fun i j hij => by simp [hpe i j hij]
      have hE := mexp_upper hv
      refine run_keeps par e hm volc eig qdt env henv P hP r (n + 1) b _ ho.2 hpe hb ?_ ?_
      · intro i j hij
        simp only [cellOp, aniQcstep, mul3]
        refine sum_eq_zero fun k _ => ?_
        rcases lt_or_ge k i with hk | hk
        · rw [hE i k hk, zero_mul]
        · rw [hh k j (lt_of_lt_of_le hij hk), mul_zero]
      · exact hP s.pe s.h hpe (hb ho.1) hh h0
  | .t :: r, n, b, s, ho, hpe, hb, hh, h0 =>
      run_keeps par e hm volc eig qdt env henv P hP r (n + 1) false _ ho (henv n)
        (fun h => by cases h) hh h0
  | .f :: r, n, b, s, ho, hpe, hb, hh, h0 =>
      run_keeps par e hm volc eig qdt env henv P hP r (n + 1) b _ ho hpe hb hh h0
  | .c :: r, n, b, s, ho, hpe, hb, hh, h0 =>
      run_keeps par e hm volc eig qdt env henv P hP r (n + 1) b _ ho hpe hb hh h0
  | .s :: r, n, b, s, ho, hpe, hb, hh, h0 =>
      run_keeps par e hm volc eig qdt env henv P hP r (n + 1) b _ ho hpe hb hh h0

/-- The state of the cell after `n` obabo steps. -/
noncomputable def obaboRun (par : Par N) (e : Ext) (fix : List Fix) (volc : Bool)
    (eig : M3 → Eig) (qdt : ℝ) (env : ℕ → Env nb N) (nmts : List ℕ) (n : ℕ) (s : Ani nb N) : M3 :=
  (cellRun par e (mask fix) volc eig qdt env 0
    (List.replicate n (nvtStep .obabo nmts)).flatten s).h

theorem move_diag {pe h : M3} (M qdt : ℝ) (hpe : Upper pe) (hh : Upper h) (i : Fin 3) :
    mul3 (mexp fun i j => pe i j / M * qdt) h i i = Real.exp (pe i i / M * qdt) * h i i := by
  have hv : Upper fun i j => pe i j / M * qdt := fun i j hij => by simp [hpe i j hij]
  rw [mul3, sum_eq_single i, mexp_diag hv]
  · intro k _ hk
    rcases lt_or_gt_of_ne hk with hk | hk
    · rw [mexp_upper hv i k hk, zero_mul]
    · rw [hh k i hk, mul_zero]
  · simp

/-- **With the obabo splitting a diagonal entry of the cell named in `hfix` never changes**, for
any number of steps, any multipliers, any forces, and whatever the thermostats do. -/
theorem fixed_diagonal (par : Par N) (e : Ext) (fix : List Fix) (eig : M3 → Eig) (qdt : ℝ)
    (env : ℕ → Env nb N) (henv : ∀ n, Upper (env n).pe) (nmts : List ℕ) (h : ∀ m ∈ nmts, 0 < m)
    (hne : nmts ≠ []) (n : ℕ) (s : Ani nb N) (hpe : Upper s.pe) (hh : Upper s.h) (i : Fin 3)
    (hfix : ∃ f ∈ fix, f.hits i i = true) :
    obaboRun par e fix false eig qdt env nmts n s i i = s.h i i := by
  have hm : mask fix i i = 0 := by simpa [mask] using hfix
  refine (run_keeps par e (mask fix) false eig qdt env henv (fun h => h i i = s.h i i) ?_ _ 0 false
    s (obabo_steps nmts h hne n false) hpe (fun h => by cases h) hh rfl).2
  intro pe g hpe hheld hg h0
  rw [move_diag _ _ hpe hg, hheld.entry rfl i i hm, h0]
  simp

/-- **With the obabo splitting and the volume constraint the volume never changes.** -/
theorem fixed_volume (par : Par N) (e : Ext) (fix : List Fix) (eig : M3 → Eig) (qdt : ℝ)
    (env : ℕ → Env nb N) (henv : ∀ n, Upper (env n).pe) (nmts : List ℕ) (h : ∀ m ∈ nmts, 0 < m)
    (hne : nmts ≠ []) (n : ℕ) (s : Ani nb N) (hpe : Upper s.pe) (hh : Upper s.h) :
    vol (obaboRun par e fix true eig qdt env nmts n s) = vol s.h := by
  refine (run_keeps par e (mask fix) true eig qdt env henv (fun h => vol h = vol s.h) ?_ _ 0 false
    s (obabo_steps nmts h hne n false) hpe (fun h => by cases h) hh rfl).2
  intro pe g hpe hheld hg h0
  rw [← h0]
  simp only [vol, move_diag _ _ hpe hg]
  have ht := hheld.trace rfl
  have : Real.exp (pe 0 0 / par.M * qdt) * Real.exp (pe 1 1 / par.M * qdt)
      * Real.exp (pe 2 2 / par.M * qdt) = 1 := by
    rw [← Real.exp_add, ← Real.exp_add, ← add_mul, ← add_mul, ← add_div, ← add_div, ht]
    simp
  linear_combination g 0 0 * g 1 1 * g 2 2 * this

/-- **A rectangular cell stays rectangular when the off-diagonal entries are held**, with or
without the volume constraint. -/
theorem fixed_shape (par : Par N) (e : Ext) (fix : List Fix) (volc : Bool) (eig : M3 → Eig)
    (qdt : ℝ) (env : ℕ → Env nb N) (henv : ∀ n, Upper (env n).pe) (nmts : List ℕ)
    (h : ∀ m ∈ nmts, 0 < m) (hne : nmts ≠ []) (n : ℕ) (s : Ani nb N) (hpe : Upper s.pe)
    (hfix : ∀ i j, i < j → ∃ f ∈ fix, f.hits i j = true) (hd : ∀ i j, i ≠ j → s.h i j = 0)
    (i j : Fin 3) (hij : i ≠ j) :
    obaboRun par e fix volc eig qdt env nmts n s i j = 0 := by
  have hh : Upper s.h := fun i j hij => hd i j (ne_of_gt hij)
  refine (run_keeps par e (mask fix) volc eig qdt env henv (fun h => ∀ i j, i ≠ j → h i j = 0) ?_
    _ 0 false s (obabo_steps nmts h hne n false) hpe (fun h => by cases h) hh hd).2 i j hij
  intro pe g hpe hheld hg h0 i j hij
  have hz : ∀ i j, i ≠ j → pe i j / par.M * qdt = 0 := by
    intro i j hij
    rcases lt_or_gt_of_ne hij with hlt | hlt
    · rw [hheld.off i j hij (by simpa [mask] using hfix i j hlt)]
      simp
    · rw [hpe i j hlt]
      simp
  rw [mul3]
  refine sum_eq_zero fun k _ => ?_
  rcases eq_or_ne i k with hk | hk
  · rw [← hk, h0 i j hij, mul_zero]
  · rw [mexp_offdiag hz i k hk, zero_mul]

/-- **`xy` and `yz` are held, one by one, as long as they are zero.** -/
theorem fixed_zero_entry (par : Par N) (e : Ext) (fix : List Fix) (volc : Bool) (eig : M3 → Eig)
    (qdt : ℝ) (env : ℕ → Env nb N) (henv : ∀ n, Upper (env n).pe) (nmts : List ℕ)
    (h : ∀ m ∈ nmts, 0 < m) (hne : nmts ≠ []) (n : ℕ) (s : Ani nb N) (hpe : Upper s.pe)
    (hh : Upper s.h) (i j : Fin 3) (hij : i.val + 1 = j.val)
    (hfix : ∃ f ∈ fix, f.hits i j = true) (h0 : s.h i j = 0) :
    obaboRun par e fix volc eig qdt env nmts n s i j = 0 := by
  have hne' : i ≠ j := fun h => by rw [h] at hij; omega
  refine (run_keeps par e (mask fix) volc eig qdt env henv (fun h => h i j = 0) ?_
    _ 0 false s (obabo_steps nmts h hne n false) hpe (fun h => by cases h) hh h0).2
  intro pe g hpe hheld hg h0
  have hv : Upper fun i j => pe i j / par.M * qdt := fun i j hij => by simp [hpe i j hij]
  rw [mul3]
  refine sum_eq_zero fun k _ => ?_
  rcases lt_trichotomy k i with hk | hk | hk
  · rw [mexp_upper hv i k hk, zero_mul]
  · rw [hk, h0, mul_zero]
  · rcases eq_or_ne k j with hk2 | hk2
    · rw [hk2, mexp_next hv i j hij, zero_mul]
      rw [hheld.off i j hne' (by simpa [mask] using hfix)]
      simp
    · rw [hg k j, mul_zero]
      have h1 : i.val < k.val := hk
      have h2 : k.val ≠ j.val := fun h => hk2 (Fin.ext h)
      show j.val < k.val
      omega

/-! ## What is not kept -/

/-- The state of the cell after one baoab step without multiple time stepping. -/
noncomputable def baoabStep (par : Par N) (e : Ext) (fix : List Fix) (volc : Bool)
    (eig : M3 → Eig) (qdt : ℝ) (env : ℕ → Env nb N) (s : Ani nb N) : M3 :=
  (cellRun par e (mask fix) volc eig qdt env 0 (nvtStep .baoab [1]) s).h

theorem move_upper {pe h : M3} (M qdt : ℝ) (hpe : Upper pe) (hh : Upper h) :
    Upper (mul3 (mexp fun i j => pe i j / M * qdt) h) := by
  have hv : Upper fun i j => pe i j / M * qdt := fun i j hij => by simp [hpe i j hij]
  intro i j hij
  refine sum_eq_zero fun k _ => ?_
  rcases lt_or_ge k i with hk | hk
  · rw [mexp_upper hv i k hk, zero_mul]
  · rw [hh k j (lt_of_lt_of_le hij hk), mul_zero]

/-- What one baoab step does to the diagonal of the cell: the second half of the move is made with
the momentum that the thermostat has left (`env 4`), without the constraints. -/
theorem baoab_diagonal (par : Par N) (e : Ext) (fix : List Fix) (volc : Bool) (eig : M3 → Eig)
    (qdt : ℝ) (env : ℕ → Env nb N) (henv : ∀ n, Upper (env n).pe) (s : Ani nb N) (hpe : Upper s.pe)
    (hh : Upper s.h) (i : Fin 3) :
    baoabStep par e fix volc eig qdt env s i i
      = Real.exp ((env 4).pe i i / par.M * qdt)
        * (Real.exp (constrain (mask fix) volc
            (aniP par e (mask fix) (env 0).F (env 0).bias (env 0).lev (env 0).dt s) i i
              / par.M * qdt) * s.h i i) := by
  have hc := constrain_upper (mask fix) volc
    (aniP_upper par e (mask fix) (env 0).F (env 0).bias (env 0).lev (env 0).dt s hpe)
  have h1 := move_upper par.M qdt hc hh
  rw [← move_diag par.M qdt hc hh, ← move_diag par.M qdt (henv 4) h1]
  simp [baoabStep, nvtStep, ba, ab, cellRun, cellOp, aniPstep, aniQcstep]

/-- **With the baoab splitting a held diagonal entry changes in every step in which the barostat's
thermostat leaves a momentum behind.** -/
theorem baoab_moves_fixed (par : Par N) (hM : par.M ≠ 0) (e : Ext) (fix : List Fix)
    (eig : M3 → Eig) (qdt : ℝ) (hq : qdt ≠ 0) (env : ℕ → Env nb N) (henv : ∀ n, Upper (env n).pe)
    (s : Ani nb N) (hpe : Upper s.pe) (hh : Upper s.h) (i : Fin 3) (hi : s.h i i ≠ 0)
    (hfix : ∃ f ∈ fix, f.hits i i = true) (hnoise : (env 4).pe i i ≠ 0) :
    baoabStep par e fix false eig qdt env s i i ≠ s.h i i := by
  have hm : mask fix i i = 0 := by simpa [mask] using hfix
  rw [baoab_diagonal par e fix false eig qdt env henv s hpe hh i,
    (constrain_held (mask fix) false _).entry rfl i i hm]
  intro h
  have h2 : Real.exp ((env 4).pe i i / par.M * qdt) = 1 := by
    have : Real.exp ((env 4).pe i i / par.M * qdt) * s.h i i = 1 * s.h i i := by
      simpa using h
    exact mul_right_cancel₀ hi this
  rw [Real.exp_eq_one_iff] at h2
  exact mul_ne_zero (div_ne_zero hnoise hM) hq h2

/-- **With the baoab splitting the volume constraint does not keep the volume.** -/
theorem baoab_moves_volume (par : Par N) (hM : par.M ≠ 0) (e : Ext) (fix : List Fix)
    (eig : M3 → Eig) (qdt : ℝ) (hq : qdt ≠ 0) (env : ℕ → Env nb N) (henv : ∀ n, Upper (env n).pe)
    (s : Ani nb N) (hpe : Upper s.pe) (hh : Upper s.h) (hV : vol s.h ≠ 0)
    (hnoise : (env 4).pe 0 0 + (env 4).pe 1 1 + (env 4).pe 2 2 ≠ 0) :
    vol (baoabStep par e fix true eig qdt env s) ≠ vol s.h := by
  have ht := (constrain_held (mask fix) true
    (aniP par e (mask fix) (env 0).F (env 0).bias (env 0).lev (env 0).dt s)).trace rfl
  intro h
  simp only [vol, baoab_diagonal par e fix true eig qdt env henv s hpe hh] at h
  set c := constrain (mask fix) true
    (aniP par e (mask fix) (env 0).F (env 0).bias (env 0).lev (env 0).dt s) with hc
  have h1 : Real.exp (c 0 0 / par.M * qdt) * Real.exp (c 1 1 / par.M * qdt)
      * Real.exp (c 2 2 / par.M * qdt) = 1 := by
    rw [← Real.exp_add, ← Real.exp_add, ← add_mul, ← add_mul, ← add_div, ← add_div, ht]
    simp
  have h2 : Real.exp ((env 4).pe 0 0 / par.M * qdt + (env 4).pe 1 1 / par.M * qdt
      + (env 4).pe 2 2 / par.M * qdt) = 1 := by
    rw [Real.exp_add, Real.exp_add]
    refine mul_right_cancel₀ hV ?_
    simp only [vol]
    linear_combination h - Real.exp ((env 4).pe 0 0 / par.M * qdt)
      * Real.exp ((env 4).pe 1 1 / par.M * qdt) * Real.exp ((env 4).pe 2 2 / par.M * qdt)
      * (s.h 0 0 * s.h 1 1 * s.h 2 2) * h1
  rw [Real.exp_eq_one_iff, ← add_mul, ← add_mul, ← add_div, ← add_div] at h2
  exact mul_ne_zero (div_ne_zero hnoise hM) hq h2

/-- No atoms: only the cell. -/
def emptyPar : Par 0 := ⟨fun _ => 1, 0, 1⟩

/-- The surroundings of the empty cell: no forces, and a thermostat that leaves `pe`. -/
def emptyEnv (pe : M3) : Env 1 0 :=
  ⟨FF.zero 1 0, FF.zero 1 0, ⟨true, true, false⟩, 1, fun _ _ _ => 0, fun _ _ _ => 0, pe⟩

/-- The empty cell. -/
def emptyS (h : M3) : Ani 1 0 := ⟨fun _ _ _ => 0, fun _ _ _ => 0, h, fun _ _ => 0, 0⟩

/-- One obabo step of the empty cell: two moves with the masked momentum. -/
theorem empty_obabo (fix : List Fix) (eig : M3 → Eig) (pe h : M3) :
    obaboRun emptyPar (.mtk 0) fix false eig (1 / 2) (fun _ => emptyEnv pe) [1] 1 (emptyS h)
      = mul3 (mexp fun i j => pe i j * mask fix i j / 1 * (1 / 2))
          (mul3 (mexp fun i j => pe i j * mask fix i j / 1 * (1 / 2)) h) := by
  have hk : ∀ i j, aniP emptyPar (.mtk 0) (mask fix) (FF.zero 1 0) (FF.zero 1 0)
      ⟨true, true, false⟩ 1 (⟨fun _ _ _ => 0, fun _ _ _ => 0, h, pe, 0⟩ : Ani 1 0) i j = pe i j := by
    intro i j
    simp [aniP, stressMts, kstressMts, FF.zero, emptyPar, piExt, triu, one3, onlyIf]
  have hk2 : aniP emptyPar (.mtk 0) (mask fix) (FF.zero 1 0) (FF.zero 1 0)
      ⟨true, true, false⟩ 1 (⟨fun _ _ _ => 0, fun _ _ _ => 0, h, pe, 0⟩ : Ani 1 0) = pe := by
    funext i j
    exact hk i j
  simp [obaboRun, nvtStep, mtsprop, ba, ab, cellRun, cellOp, aniPstep, aniQcstep, emptyEnv, emptyS,
    hk2, constrain]
  simp [emptyPar]

/-- A momentum along the first diagonal entry. -/
def stretch : M3 := fun i j => if i = 0 ∧ j = 0 then 1 else 0

/-- A sheared cell. -/
def sheared : M3 := fun i j => if i = j then 1 else if i = 0 ∧ j = 1 then 1 else 0

/-- **A held off-diagonal entry that is not zero changes whatever the splitting is**: the cell
matrix is multiplied by a matrix, so `xy` is scaled together with `xx`. -/
theorem fixed_entry_scaled (eig : M3 → Eig) :
    obaboRun emptyPar (.mtk 0) [.xy] false eig (1 / 2) (fun _ => emptyEnv stretch) [1] 1
      (emptyS sheared) 0 1 = Real.exp 1 ∧ (emptyS sheared).h 0 1 = 1 := by
  refine ⟨?_, by simp [emptyS, sheared]⟩
  rw [empty_obabo]
  have hd : ∀ i j : Fin 3, i ≠ j → stretch i j * mask [.xy] i j / 1 * (1 / 2) = 0 := by
    intro i j hij
    have : ¬(i = 0 ∧ j = 0) := fun h => hij (h.1.trans h.2.symm)
    simp [stretch, this]
  have hu : Upper fun i j => stretch i j * mask [.xy] i j / 1 * (1 / 2) :=
    fun i j hij => hd i j (ne_of_gt hij)
  have h00 : stretch 0 0 * mask [.xy] 0 0 / 1 * (1 / 2) = 1 / 2 := by
    simp [stretch, mask, Fix.hits]
  have e0 : mexp (fun i j => stretch i j * mask [.xy] i j / 1 * (1 / 2)) 0 0 = Real.exp (1 / 2) := by
    rw [mexp_diag hu 0]
    exact congrArg Real.exp h00
  have e1 := mexp_offdiag hd
  simp only [mul3, Fin.sum_univ_three, e0, e1 0 1 (by decide), e1 0 2 (by decide), sheared]
  simp only [zero_mul, add_zero]
  norm_num
  rw [← Real.exp_add]
  norm_num

section
open scoped Matrix
attribute [local instance] Matrix.linftyOpNormedRing Matrix.linftyOpNormedAlgebra

/-- The exponential of a matrix whose square is zero. -/
theorem mexp_sq_zero {a : M3} (h : ∀ i j, mul3 a a i j = 0) (i j : Fin 3) :
    mexp a i j = one3 i j + a i j := by
  have hsum := mexp_entry a i j
  have hsq : (Matrix.of a : Matrix (Fin 3) (Fin 3) ℝ) ^ 2 = 0 := by
    ext i j
    rw [pow_two, Matrix.mul_apply]
    exact h i j
  have hz : ∀ n, n ∉ range 2 →
      ((n.factorial : ℝ)⁻¹) * ((Matrix.of a : Matrix (Fin 3) (Fin 3) ℝ) ^ n) i j = 0 := by
    intro n hn
    have h2 : 2 ≤ n := not_lt.mp fun h => hn (mem_range.mpr h)
    rw [pow_eq_zero_of_le h2 hsq]
    simp
  have h2 := hasSum_sum_of_ne_finset_zero (L := SummationFilter.unconditional ℕ) hz
  rw [hsum.unique h2, sum_range_succ, sum_range_succ, sum_range_zero]
  simp [one3, Matrix.one_apply]
end

/-- A momentum that shears the cell. -/
def shearing : M3 := fun i j => if i = 0 ∧ j = 1 then 1 else 0

/-- A cell with a non-zero `yz`. -/
def tilted : M3 := fun i j => if i = j then 1 else if i = 1 ∧ j = 2 then 1 else 0

/-- **Holding `xz` alone does not hold it, even at zero**: shearing `xy` mixes `yz` into it. -/
theorem fixed_xz_mixed (eig : M3 → Eig) :
    obaboRun emptyPar (.mtk 0) [.xz] false eig (1 / 2) (fun _ => emptyEnv shearing) [1] 1
      (emptyS tilted) 0 2 = 1 ∧ (emptyS tilted).h 0 2 = 0 := by
  refine ⟨?_, by simp [emptyS, tilted]⟩
  rw [empty_obabo]
  have hsq : ∀ i j, mul3 (fun i j => shearing i j * mask [.xz] i j / 1 * (1 / 2))
      (fun i j => shearing i j * mask [.xz] i j / 1 * (1 / 2)) i j = 0 := by
    intro i j
    simp only [mul3]
    refine sum_eq_zero fun k _ => ?_
    rcases eq_or_ne k 1 with hk | hk
    · simp [shearing, hk]
    · simp [shearing, hk]
  have he := mexp_sq_zero hsq
  generalize mexp (fun i j => shearing i j * mask [.xz] i j / 1 * (1 / 2)) = E at he ⊢
  have h01 : mask [.xz] 0 1 = 1 := by simp [mask, Fix.hits]
  simp only [mul3, he, Fin.sum_univ_three, tilted, one3, shearing, h01]
  have d1 : (0 : Fin 3) ≠ 2 := by decide
  have d2 : (2 : Fin 3) ≠ 1 := by decide
  have d3 : (1 : Fin 3) ≠ 2 := by decide
  have d4 : (2 : Fin 3) ≠ 0 := by decide
  simp only [d1, d2, d3, d4]
  norm_num

/-- Not vacuous: one step with a thermostat that leaves a momentum, a held entry and a cell. -/
example : baoabStep emptyPar (.mtk 0) [.xx] false (fun _ => ⟨one3, one3, fun _ => 0⟩) (1 / 2)
    (fun _ => emptyEnv stretch) (emptyS one3) 0 0 ≠ (emptyS one3).h 0 0 := by
  refine baoab_moves_fixed _ (by simp [emptyPar]) _ _ _ _ (by norm_num) _ ?_ _ ?_ ?_ _ ?_ ?_ ?_
  · intro n i j hij
    have : ¬(i = 0 ∧ j = 0) := fun h => (ne_of_gt hij) (h.1.trans h.2.symm)
    simp [emptyEnv, stretch, this]
  · intro i j _; rfl
  · intro i j hij
    simp [emptyS, one3, ne_of_gt hij]
  · simp [emptyS, one3]
  · exact ⟨.xx, by simp, rfl⟩
  · simp [emptyEnv, stretch]

/-- Not vacuous: the same step with the other splitting, and two levels of time stepping. -/
example : obaboRun emptyPar (.mtk 0) [.xx] false (fun _ => ⟨one3, one3, fun _ => 0⟩) (1 / 2)
    (fun _ => emptyEnv stretch) [1, 4] 7 (emptyS one3) 0 0 = 1 := by
  rw [fixed_diagonal _ _ _ _ _ _ ?_ _ (by simp) (by simp) _ _ ?_ ?_ _ ⟨.xx, by simp, rfl⟩]
  · simp [emptyS, one3]
  · intro n i j hij
    have : ¬(i = 0 ∧ j = 0) := fun h => (ne_of_gt hij) (h.1.trans h.2.symm)
    simp [emptyEnv, stretch, this]
  · intro i j _; rfl
  · intro i j hij
    simp [emptyS, one3, ne_of_gt hij]

end Verif.Baro
