import Verif.Props.C109_InitPath

/-!
# C110: after the initialisation every quantity is what the last instruction about it said
-/

namespace Verif.Init

open Finset Verif.Cell

/-! ## What the instructions about other quantities leave alone -/

theorem masses_known {x : Ctx} {k : Key × Instr} {s s' : Sim} (h : step x s k = .ok s') :
    (s.fmass = true → s'.fmass = true) ∧ (k.1 = .masses → s'.fmass = true) := by
  obtain ⟨k, v⟩ := k
  cases k <;> simp only [step] at h
  · rw [cell_set h]; exact ⟨id, fun e => (nomatch e)⟩
  · refine ⟨fun _ => ?_, fun _ => ?_⟩ <;>
    · unfold doMasses at h
      by_cases h0 : s.beads.nb = 0
      · rw [if_pos h0] at h; cases h
      rw [if_neg h0] at h
      simp only [bind_ok] at h
      obtain ⟨r, -, h⟩ := h
      by_cases hb : 0 ≤ v.bead
      · rw [if_pos hb] at h; cases h
      rw [if_neg hb] at h
      simp only [bind_ok] at h
      obtain ⟨m', hm', h⟩ := h
      obtain rfl := Except.ok.inj h
      rfl
  · rw [(labels_set h).1]; exact ⟨id, fun e => (nomatch e)⟩
  · obtain ⟨r, -, b, -, -, e⟩ := positions_set h
    rw [e]; exact ⟨id, fun e => (nomatch e)⟩
  · split at h
    · rw [(thermal_set h).1]; exact ⟨id, fun e => (nomatch e)⟩
    · refine ⟨fun hm => ?_, fun e => (nomatch e)⟩
      unfold doVelocities at h
      simp only [bind_ok] at h
      obtain ⟨r, -, h⟩ := h
      generalize (if s.beads.nb = 0 ∨ s.fmass = false then Beads.zeros r.na x.nbeads
        else s.beads) = B at h
      split at h
      · split at h
        · cases h
        · simp only [bind_ok] at h
          obtain ⟨q, -, h⟩ := h
          obtain rfl := Except.ok.inj h
          exact hm
      · split at h
        · cases h
        split at h
        · cases h
        simp only [bind_ok] at h
        obtain ⟨q, -, h⟩ := h
        obtain rfl := Except.ok.inj h
        exact hm
  · split at h
    · rw [(thermal_set h).1]; exact ⟨id, fun e => (nomatch e)⟩
    · obtain ⟨r, -, b, -, -, e⟩ := momenta_set h
      rw [e]; exact ⟨id, fun e => (nomatch e)⟩
  · obtain rfl := Except.ok.inj h
    exact ⟨id, fun e => (nomatch e)⟩

/-- An instruction about something else than the positions keeps them, and the sizes, unless it
gives velocities while the masses are not known. -/
theorem positions_kept {x : Ctx} {k : Key × Instr} {s s' : Sim} (h0 : s.beads.nb ≠ 0)
    (hk : k.1 ≠ .positions) (hv : k.1 = .velocities → k.2.mode = "thermal" ∨ s.fmass = true)
    (h : step x s k = .ok s') :
    s'.beads.q = s.beads.q ∧ s'.beads.nb = s.beads.nb ∧ s'.beads.na = s.beads.na := by
  obtain ⟨k, v⟩ := k
  cases k <;> simp only [step] at h
  · rw [cell_set h]; exact ⟨rfl, rfl, rfl⟩
  · have := masses_set h
    exact ⟨this.1, this.2.2.2.1, this.2.2.2.2.1⟩
  · rw [(labels_set h).1]; exact ⟨rfl, rfl, rfl⟩
  · exact absurd rfl hk
  · split at h
    · rw [(thermal_set h).1]; exact ⟨rfl, rfl, rfl⟩
    · rename_i hn
      obtain ⟨r, -, -, e⟩ := velocities_set ((hv rfl).resolve_left hn) h0 h
      rw [e]; exact ⟨rfl, rfl, rfl⟩
  · split at h
    · rw [(thermal_set h).1]; exact ⟨rfl, rfl, rfl⟩
    · obtain ⟨r, -, b, hb, -, e⟩ := momenta_set h
      rcases hb with ⟨-, rfl⟩ | ⟨hz, -⟩
      · rw [e]; exact ⟨rfl, rfl, rfl⟩
      · exact absurd hz h0
  · obtain rfl := Except.ok.inj h
    exact ⟨rfl, rfl, rfl⟩

theorem steps_cons {x : Ctx} {k : Key × Instr} {l : List (Key × Instr)} {s s' : Sim} :
    steps x (k :: l) s = .ok s' ↔ ∃ s₁, step x s k = .ok s₁ ∧ steps x l s₁ = .ok s' := by
  unfold steps
  rw [List.foldlM_cons]
  exact bind_ok

theorem steps_append {x : Ctx} {l l' : List (Key × Instr)} {s s' : Sim} :
    steps x (l ++ l') s = .ok s' ↔ ∃ s₁, steps x l s = .ok s₁ ∧ steps x l' s₁ = .ok s' := by
  unfold steps
  rw [List.foldlM_append]
  exact bind_ok

theorem steps_masses {x : Ctx} {l : List (Key × Instr)} {s s' : Sim} (h : steps x l s = .ok s') :
    (s.fmass = true → s'.fmass = true) ∧ ((∃ k ∈ l, k.1 = .masses) → s'.fmass = true) := by
  induction l generalizing s with
  | nil =>
    obtain rfl := Except.ok.inj h
    exact ⟨id, fun ⟨k, hk, _⟩ => (nomatch hk)⟩
  | cons k l ih =>
    obtain ⟨s₁, h1, h2⟩ := steps_cons.1 h
    refine ⟨fun hm => (ih h2).1 ((masses_known h1).1 hm), ?_⟩
    rintro ⟨k', hk', hm⟩
    rcases List.mem_cons.1 hk' with rfl | hk'
    · exact (ih h2).1 ((masses_known h1).2 hm)
    · exact (ih h2).2 ⟨k', hk', hm⟩

theorem steps_positions {x : Ctx} {l : List (Key × Instr)} {s s' : Sim} (h0 : s.beads.nb ≠ 0)
    (hl : ∀ k ∈ l, k.1 ≠ .positions)
    (hv : (∀ k ∈ l, k.1 = .velocities → k.2.mode = "thermal") ∨ s.fmass = true)
    (h : steps x l s = .ok s') :
    s'.beads.q = s.beads.q ∧ s'.beads.nb = s.beads.nb ∧ s'.beads.na = s.beads.na := by
  induction l generalizing s with
  | nil =>
    obtain rfl := Except.ok.inj h
    exact ⟨rfl, rfl, rfl⟩
  | cons k l ih =>
    obtain ⟨s₁, h1, h2⟩ := steps_cons.1 h
    obtain ⟨e1, e2, e3⟩ := positions_kept h0 (hl k List.mem_cons_self)
      (fun e => hv.imp (fun g => g k List.mem_cons_self e) id) h1
    obtain ⟨f1, f2, f3⟩ := ih (by rw [e2]; exact h0)
      (fun k hk => hl k (List.mem_cons_of_mem _ hk))
      (hv.imp (fun g k hk => g k (List.mem_cons_of_mem _ hk)) (masses_known h1).1) h2
    exact ⟨f1.trans e1, f2.trans e2, f3.trans e3⟩

/-- **C110** (partial: no velocities may be given before the masses, and the numbers of a list
are taken to be in atomic units).  After a completed initialisation the positions that the last
`<positions>` speaks about are the ones it gave, bead by bead if it has as many beads, and with
its centroid otherwise. -/
theorem positions_last_partial {x : Ctx} {l₁ l₂ : List (Key × Instr)} {v : Instr} {b : Beads}
    {h : Mat} {s : Sim} (hx : 0 < x.nbeads)
    (e : stage1 x (l₁ ++ (.positions, v) :: l₂) b h = .ok s)
    (hl : ∀ k ∈ l₂, k.1 ≠ .positions)
    (hv : (∀ k ∈ l₂, k.1 = .velocities → k.2.mode = "thermal") ∨ b.nb ≠ 0 ∨
      ∃ k ∈ l₁, k.1 = .masses) :
    ∃ r, initVector x.env x.nbeads v false "length" v.units = .ok r ∧
      ∃ old, Sets v s.beads.nb s.beads.na old s.beads.q r := by
  unfold stage1 at e
  obtain ⟨s₃, e, hc⟩ := bind_ok.1 e
  obtain ⟨s₁, e1, e⟩ := steps_append.1 e
  obtain ⟨s₂, e2, e3⟩ := steps_cons.1 e
  have hs : s₃ = s := by
    unfold checked at hc
    split at hc
    · cases hc
    split at hc
    · cases hc
    split at hc
    · cases hc
    exact Except.ok.inj hc
  subst hs
  obtain ⟨r, hr, b', hb', hS, e⟩ := positions_set (show doPositions x v s₁ = .ok s₂ from e2)
  have hn2 : s₂.beads.nb = b'.nb := by rw [e]
  have ha2 : s₂.beads.na = b'.na := by rw [e]
  have h0 : s₂.beads.nb ≠ 0 := by
    rw [hn2]
    rcases hb' with ⟨h1, rfl⟩ | ⟨-, -, rfl⟩
    · exact h1
    · exact hx.ne'
  have hf : s₂.fmass = s₁.fmass := by rw [e]
  obtain ⟨f1, f2, f3⟩ := steps_positions h0 hl (hv.imp id fun g => by
    rw [hf]
    rcases g with g | g
    · refine (steps_masses e1).1 ?_
      unfold start; rw [if_neg g]
    · exact (steps_masses e1).2 g) e3
  refine ⟨r, hr, b'.q, ?_⟩
  rw [f1, f2, f3, hn2, ha2]
  exact hS

/-! ## Where the property fails -/

/-- The numbers given in a list are used as they are, whatever units are requested, even for
units that do not exist. -/
theorem manual_units_ignored (x : Ctx) (v : Instr) (s : Sim) (hv : v.mode = "manual") (u : String) :
    doPositions x { v with units := u } s = doPositions x v s ∧
      doMomenta x { v with units := u } s = doMomenta x v s ∧
      doVelocities x { v with units := u } s = doVelocities x v s := by
  have key : ∀ mom dim, initVector x.env x.nbeads { v with units := u } mom dim u
      = initVector x.env x.nbeads v mom dim v.units := by
    intro mom dim
    unfold initVector
    simp only [hv, show ¬ ("manual" = "xyz" ∨ "manual" = "pdb" ∨ "manual" = "ase") by decide,
      show ¬ "manual" = "chk" by decide, if_false, if_true]
  refine ⟨?_, ?_, ?_⟩
  · unfold doPositions; rw [key]; rfl
  · unfold doMomenta; rw [key]; rfl
  · unfold doVelocities; rw [key]; rfl

/-- The momenta given for one bead of a path are stored multiplied by the square root of the
number of beads. -/
theorem bead_momenta_scaled {x : Ctx} {v : Instr} {s s' : Sim} {l : List ℝ} (hv : v.mode = "manual")
    (hl : v.value = .nums l) (hb : 0 ≤ v.bead) (hx : v.index < 0) (h0 : s.beads.nb ≠ 0)
    (h : doMomenta x v s = .ok s') (c : ℕ) (hc : c < 3 * s.beads.na) :
    s'.beads.p v.bead.toNat c = nth l c * √(x.nbeads : ℝ) := by
  obtain ⟨r, hr, b, hb', hS, e⟩ := momenta_set h
  rcases hb' with ⟨-, rfl⟩ | ⟨hz, -⟩
  swap
  · exact absurd hz h0
  have hr' : r = ⟨1, l.length / 3, fun i c => nth l (i * (3 * (l.length / 3)) + c)⟩ := by
    unfold initVector at hr
    simp only [hv, show ¬ ("manual" = "xyz" ∨ "manual" = "pdb" ∨ "manual" = "ase") by decide,
      show ¬ "manual" = "chk" by decide, if_false, if_true, hl, if_pos hb, one_ne_zero,
      one_mul] at hr
    split at hr
    · exact (Except.ok.inj hr).symm
    · cases hr
  have hbead := hS.bead hb
  rw [hS.inside v.bead.toNat c (by omega) hc ⟨.inr rfl, .inl hx⟩ (.inl hb),
    if_neg (by omega), if_pos hx, hr']
  simp

/-- A mass for an atom that does not exist is accepted and has no effect. -/
theorem missing_atom_ignored (x : Ctx) (s : Sim) (y u : ℝ) (i : ℕ) (hi : s.beads.na ≤ i)
    (h0 : s.beads.nb ≠ 0) (units : String) (hu : x.env.conv "mass" units = .ok u) :
    ∃ s', doMasses x ⟨.nums [y], "manual", units, i, -1⟩ s = .ok s' ∧ s'.beads.m = s.beads.m := by
  have hm : massesOf x ⟨.nums [y], "manual", units, i, -1⟩ = .ok (1, fun a => nth [y] a * u) := by
    unfold massesOf
    rw [if_pos rfl]
    simp only [hu]
    rfl
  unfold doMasses
  rw [if_neg h0]
  have hs : setAtoms (i : ℤ) s.beads.na s.beads.m 1 (fun a => nth [y] a * u) = .ok s.beads.m := by
    unfold setAtoms
    rw [if_neg (by omega)]
    simp only [if_true]
    congr 1
    funext a
    rw [if_neg]
    simp only [Int.toNat_natCast]
    omega
  simp only [hm]
  change ∃ s', (do
    let m' ← setAtoms (i : ℤ) s.beads.na s.beads.m 1 fun a => nth [y] a * u
    _) = Except.ok s' ∧ _
  rw [hs]
  exact ⟨_, rfl, rfl⟩

/-! ### A block whose positions are lost -/

/-- A tag with a list of numbers, in atomic units, for all the atoms and beads. -/
def tag (k : Key) (l : List ℝ) : Elem := ⟨.key k, "manual", "automatic", "automatic", -1, -1, .nums l⟩

/-- A run with one bead where no file is read. -/
def oneBead : Ctx where
  env := ⟨fun _ _ _ _ _ => .error .value, fun _ => .error .value, fun _ _ => .ok 1⟩
  nbeads := 1
  temp := 1
  kB := 1
  factor := fun _ => 1
  gauss := fun _ _ _ => 0

/-- One atom at `(1, 2, 3)` with a velocity, a mass, a label and a cell. -/
def lostBlock : List Elem :=
  [tag .positions [1, 2, 3], tag .velocities [1, 1, 1], tag .masses [1],
    ⟨.key .labels, "manual", "automatic", "automatic", -1, -1, .text "H"⟩,
    tag .cell [1, 0, 0, 0, 1, 0, 0, 0, 1]]

theorem lost_expand (a : Value → Except Err (List ℝ)) :
    lostBlock.mapM (expand a) = .ok
      [[(.positions, ⟨.nums [1, 2, 3], "manual", "automatic", -1, -1⟩)],
       [(.velocities, ⟨.nums [1, 1, 1], "manual", "automatic", -1, -1⟩)],
       [(.masses, ⟨.nums [1], "manual", "automatic", -1, -1⟩)],
       [(.labels, ⟨.text "H", "manual", "automatic", -1, -1⟩)],
       [(.cell, ⟨.nums [1, 0, 0, 0, 1, 0, 0, 0, 1], "manual", "automatic", -1, -1⟩)]] := by
  have e : ∀ k ∈ [Key.positions, .velocities, .masses], ∀ l : List ℝ, expand a (tag k l)
      = .ok [(k, ⟨.nums l, "manual", "automatic", -1, -1⟩)] := by
    intro k hk l
    fin_cases hk <;> rfl
  have e1 : expand a (tag .cell [1, 0, 0, 0, 1, 0, 0, 0, 1])
      = .ok [(.cell, ⟨.nums [1, 0, 0, 0, 1, 0, 0, 0, 1], "manual", "automatic", -1, -1⟩)] := rfl
  have e2 : expand a ⟨.key .labels, "manual", "automatic", "automatic", -1, -1, .text "H"⟩
      = .ok [(.labels, ⟨.text "H", "manual", "automatic", -1, -1⟩)] := rfl
  unfold lostBlock
  simp only [List.mapM_cons, List.mapM_nil, e .positions (by decide), e .velocities (by decide),
    e .masses (by decide), e1, e2]
  rfl

theorem lost_steps : ∃ (h : Mat) (p q : ℕ → ℕ → ℝ) (m : ℕ → ℝ) (n : ℕ → String),
    steps oneBead
      [(.positions, ⟨.nums [1, 2, 3], "manual", "automatic", -1, -1⟩),
       (.velocities, ⟨.nums [1, 1, 1], "manual", "automatic", -1, -1⟩),
       (.masses, ⟨.nums [1], "manual", "automatic", -1, -1⟩),
       (.labels, ⟨.text "H", "manual", "automatic", -1, -1⟩),
       (.cell, ⟨.nums [1, 0, 0, 0, 1, 0, 0, 0, 1], "manual", "automatic", -1, -1⟩)]
      (start (Beads.zeros 0 0) 0) = .ok ⟨⟨1, 1, q, p, m, n⟩, h, true, true, 0⟩ ∧
    m 0 = 1 ∧ n 0 = "H" ∧ detUt h = 1 ∧ ∀ i c, q i c = 0 := by
  refine ⟨fun i j => nth [1, 0, 0, 0, 1, 0, 0, 0, 1] (3 * (i : ℕ) + j) * 1,
    rescale 1 1 1 fun i c => nth [1, 1, 1] (i * 3 + c) * 0 * √((1 : ℕ) / (1 : ℕ)),
    fun _ _ => 0, fun a => nth [1] a * 1, fun _ => clip "H", ?_, ?_, ?_, ?_, ?_⟩
  · rfl
  · simp [nth]
  · rfl
  · simp [detUt, nth]
  · intro i c; rfl

/-- **C110** fails.  The block is accepted without an error, and the simulation starts with the
atom at the origin: the velocities come before the masses, and the `ValueError` for that is
created but not raised, while the system is cleared. -/
theorem positions_lost (a : Value → Except Err (List ℝ)) :
    ∃ s, block a oneBead lostBlock (Beads.zeros 0 0) 0 = .ok s ∧ s.beads.nb = 1 ∧ s.beads.na = 1 ∧
      ∀ c, c < 3 → s.beads.q 0 c = 0 := by
  obtain ⟨h, p, q, m, n, hs, hm, hn, hd, hq⟩ := lost_steps
  refine ⟨⟨⟨1, 1, q, p, m, n⟩, h, true, true, 0⟩, ?_, rfl, rfl, fun c _ => hq 0 c⟩
  unfold block
  rw [lost_expand]
  refine bind_ok.2 ⟨_, rfl, bind_ok.2 ⟨_, ?_, bind_ok.2 ⟨(), rfl, rfl⟩⟩⟩
  refine bind_ok.2 ⟨_, hs, ?_⟩
  unfold checked
  rw [if_neg (show ¬ (1 : ℕ) = 0 by decide), if_neg (by rw [hd]; exact one_ne_zero), if_neg]
  rintro ⟨a, ha, hb⟩
  obtain rfl : a = 0 := by
    have : a < 1 := ha
    omega
  rcases hb with hb | hb
  · rw [show (m 0 ≤ 0) = ((1 : ℝ) ≤ 0) by rw [hm]] at hb
    norm_num at hb
  · exact absurd (hn.symm.trans hb) (by decide)

/-- The block without the velocities. -/
def keptQueue : List (Key × Instr) :=
  [(.masses, ⟨.nums [1], "manual", "automatic", -1, -1⟩),
   (.momenta, ⟨.nums [1, 1, 1], "manual", "automatic", -1, -1⟩),
   (.labels, ⟨.text "H", "manual", "automatic", -1, -1⟩),
   (.cell, ⟨.nums [1, 0, 0, 0, 1, 0, 0, 0, 1], "manual", "automatic", -1, -1⟩)]

theorem kept_steps : ∃ (h : Mat) (p q : ℕ → ℕ → ℝ) (m : ℕ → ℝ) (n : ℕ → String),
    steps oneBead ((.positions, ⟨.nums [1, 2, 3], "manual", "automatic", -1, -1⟩) :: keptQueue)
      (start (Beads.zeros 0 0) 0) = .ok ⟨⟨1, 1, q, p, m, n⟩, h, true, true, 0⟩ ∧
    m 0 = 1 ∧ n 0 = "H" ∧ detUt h = 1 := by
  refine ⟨fun i j => nth [1, 0, 0, 0, 1, 0, 0, 0, 1] (3 * (i : ℕ) + j) * 1,
    rescale 1 1 1 fun i c => nth [1, 1, 1] (i * 3 + c) * √((1 : ℕ) / (1 : ℕ)),
    rescale 1 1 1 fun i c => nth [1, 2, 3] (i * 3 + c), fun a => nth [1] a * 1, fun _ => clip "H",
    ?_, ?_, ?_, ?_⟩
  · rfl
  · simp [nth]
  · rfl
  · simp [detUt, nth]

/-- The hypotheses of the partial theorem are met: with momenta in place of the velocities the
block is accepted, and by the theorem the atom stays at `(1, 2, 3)`. -/
example : ∃ s r, stage1 oneBead
      ([] ++ (.positions, ⟨.nums [1, 2, 3], "manual", "automatic", -1, -1⟩) :: keptQueue)
      (Beads.zeros 0 0) 0 = .ok s ∧ ∃ old, Sets ⟨.nums [1, 2, 3], "manual", "automatic", -1, -1⟩
        s.beads.nb s.beads.na old s.beads.q r := by
  obtain ⟨h, p, q, m, n, hs, hm, hn, hd⟩ := kept_steps
  have hs : stage1 oneBead
      ([] ++ (.positions, ⟨.nums [1, 2, 3], "manual", "automatic", -1, -1⟩) :: keptQueue)
      (Beads.zeros 0 0) 0 = .ok ⟨⟨1, 1, q, p, m, n⟩, h, true, true, 0⟩ := by
    refine bind_ok.2 ⟨_, hs, ?_⟩
    unfold checked
    rw [if_neg (show ¬ (1 : ℕ) = 0 by decide), if_neg (by rw [hd]; exact one_ne_zero), if_neg]
    rintro ⟨a, ha, hb⟩
    obtain rfl : a = 0 := by
      have : a < 1 := ha
      omega
    rcases hb with hb | hb
    · rw [show (m 0 ≤ 0) = ((1 : ℝ) ≤ 0) by rw [hm]] at hb
      norm_num at hb
    · exact absurd (hn.symm.trans hb) (by decide)
  obtain ⟨r, -, hr⟩ := positions_last_partial (by decide) hs (by simp [keptQueue])
    (.inl (by simp [keptQueue]))
  exact ⟨_, r, hs, hr⟩

end Verif.Init
