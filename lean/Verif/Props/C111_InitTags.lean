import Verif.Props.C110_InitQueue

/-!
# C111: every documented initialisation can be carried out
-/

namespace Verif.Init

open Verif.Cell

variable {a : Value → Except Err (List ℝ)} {x : Ctx}

theorem mapM_ok {α β : Type} {f : α → Except Err β} {l : List α} {r : List β}
    (h : l.mapM f = .ok r) {e : α} (he : e ∈ l) : ∃ y ∈ r, f e = .ok y := by
  induction l generalizing r with
  | nil => exact nomatch he
  | cons b l ih =>
    rw [List.mapM_cons] at h
    obtain ⟨y, hy, h⟩ := bind_ok.1 h
    obtain ⟨ys, hys, h⟩ := bind_ok.1 h
    obtain rfl := Except.ok.inj h
    rcases List.mem_cons.1 he with rfl | he
    · exact ⟨y, List.mem_cons_self, hy⟩
    · obtain ⟨z, hz, e⟩ := ih hys he
      exact ⟨z, List.mem_cons_of_mem _ hz, e⟩

/-- An accepted block has all its tags accepted, and their instructions in the queue. -/
theorem block_ok {l : List Elem} {b : Beads} {h : Mat} {s : Sim} (e : block a x l b h = .ok s)
    {v : Elem} (hv : v ∈ l) : ∃ q y, expand a v = .ok y ∧ (∀ k ∈ y, k ∈ q) ∧
      stage1 x q b h = .ok s ∧ stage2 q = .ok () := by
  unfold block at e
  obtain ⟨q, hq, e⟩ := bind_ok.1 e
  obtain ⟨s', h1, e⟩ := bind_ok.1 e
  obtain ⟨u, h2, e⟩ := bind_ok.1 e
  obtain rfl := Except.ok.inj e
  obtain ⟨y, hy, hv⟩ := mapM_ok hq hv
  exact ⟨q.flatten, y, hv, fun k hk => List.mem_flatten.2 ⟨y, hy, hk⟩, h1, h2⟩

/-- What `expand` gives for the tags that become one instruction. -/
theorem expand_key {v : Elem} {k : Key} (ht : v.tag = .key k) (hk : k ≠ .cell)
    {y : List (Key × Instr)} (h : expand a v = .ok y) : y = [(k, v.indexed)] := by
  unfold expand at h
  simp only [ht] at h
  split at h
  · cases h
  split at h
  · split at h
    · cases h
    · split at h
      · cases h
      · cases k <;> first | exact absurd rfl hk | exact (Except.ok.inj h).symm
  · cases k <;> first | exact absurd rfl hk | exact (Except.ok.inj h).symm

/-- A cell given as a matrix, row by row: the elements below the diagonal are dropped, whatever they are. -/
theorem cell_given {v : Elem} (ht : v.tag = .key .cell) (hm : v.mode = "manual")
    {h00 h01 h02 h10 h11 h12 h20 h21 h22 : ℝ}
    (hv : v.raw = .nums [h00, h01, h02, h10, h11, h12, h20, h21, h22]) :
    expand a v = .ok [(.cell, ⟨.nums [h00, h01, h02, 0, h11, h12, 0, 0, h22], "manual", v.units,
      -1, -1⟩)] := by
  unfold expand cellInstr
  have h1 : v.mode ∈ modes v.tag := by rw [ht, hm]; decide
  rw [if_neg (not_not_intro h1)]
  simp only [hm, ht, hv]
  rfl

theorem expand_file {v : Elem} (ht : v.tag = .file) {y : List (Key × Instr)}
    (h : expand a v = .ok y) :
    (Key.masses, { v.indexed with index := -1, units := "" }) ∈ y := by
  unfold expand at h
  simp only [ht] at h
  split at h
  · cases h
  split at h
  · split at h
    · cases h
    · split at h
      · cases h
      · rw [← Except.ok.inj h]; simp
  · rw [← Except.ok.inj h]; simp

/-- **C111** fails: a block with a `<gle>` tag never completes, because the state of the
thermostat is looked for in the ensemble. -/
theorem gle_raises {l : List Elem} {v : Elem} (hv : v ∈ l) (ht : v.tag = .key .gle) (b : Beads)
    (h : Mat) (s : Sim) : block a x l b h ≠ .ok s := by
  intro e
  obtain ⟨q, y, hy, hq, -, h2⟩ := block_ok e hv
  obtain rfl := expand_key ht (by decide) hy
  unfold stage2 at h2
  rw [if_pos] at h2
  · cases h2
  · rw [List.any_eq_true]
    exact ⟨_, hq _ List.mem_cons_self, rfl⟩

theorem masses_bead {v : Instr} {s s' : Sim} (h : doMasses x v s = .ok s') : v.bead < 0 := by
  by_contra hb
  unfold doMasses at h
  by_cases h0 : s.beads.nb = 0
  · rw [if_pos h0] at h; cases h
  rw [if_neg h0] at h
  simp only [bind_ok] at h
  obtain ⟨r, -, h⟩ := h
  rw [if_pos (by omega)] at h
  cases h

theorem steps_mem {q : List (Key × Instr)} {s s' : Sim} (h : steps x q s = .ok s')
    {k : Key × Instr} (hk : k ∈ q) : ∃ s₁ s₂, step x s₁ k = .ok s₂ := by
  induction q generalizing s with
  | nil => exact nomatch hk
  | cons j q ih =>
    obtain ⟨s₁, h1, h2⟩ := steps_cons.1 h
    rcases List.mem_cons.1 hk with rfl | hk
    · exact ⟨s, s₁, h1⟩
    · exact ih h2 hk

/-- **C111** fails: `<file bead='…'>` never completes, for any file format, because the tag also
stands for the masses, which cannot be set for a single bead. -/
theorem file_bead_raises {l : List Elem} {v : Elem} (hv : v ∈ l) (ht : v.tag = .file)
    (hb : 0 ≤ v.bead) (b : Beads) (h : Mat) (s : Sim) : block a x l b h ≠ .ok s := by
  intro e
  obtain ⟨q, y, hy, hq, h1, -⟩ := block_ok e hv
  obtain ⟨s', h1, -⟩ := bind_ok.1 h1
  obtain ⟨s₁, s₂, h2⟩ := steps_mem h1 (hq _ (expand_file ht hy))
  have h3 := masses_bead (show doMasses x _ s₁ = .ok s₂ from h2)
  have : v.bead < 0 := h3
  omega

/-- **C111** fails: momenta, velocities and the cell cannot be read from a checkpoint, although
`chk` is one of their modes. -/
theorem chk_raises {l : List Elem} {v : Elem} (hv : v ∈ l)
    (ht : v.tag = .key .momenta ∨ v.tag = .key .velocities ∨ v.tag = .key .cell)
    (hm : v.mode = "chk") (b : Beads) (h : Mat) (s : Sim) :
    "chk" ∈ modes v.tag ∧ block a x l b h ≠ .ok s := by
  have hmem : "chk" ∈ modes v.tag := by
    rcases ht with ht | ht | ht <;> rw [ht] <;> decide
  refine ⟨hmem, fun e => ?_⟩
  obtain ⟨q, y, hy, -⟩ := block_ok e hv
  unfold expand at hy
  rw [hm, if_neg (by simpa using hmem), if_pos rfl, if_pos ht] at hy
  cases hy

/-! ## What can be carried out -/

/-- What a file must contain for `<file>`: at least one frame, the same positive number of
atoms in all of them, positive masses and labels in the last one, and a cell that is not flat. -/
structure GoodFile (e : Env) (v : Elem) (name : String) (f : Frame) (fr : List Frame) : Prop where
  mode : v.mode = "xyz" ∨ v.mode = "pdb" ∨ v.mode = "ase"
  text : v.raw = .text name
  positions : ∃ h, e.file v.mode name "length" v.units "automatic" = .ok (f :: fr, h)
  other : ∃ h, e.file v.mode name "length" "automatic" "automatic" = .ok (f :: fr, h) ∧
    h 0 0 + h 1 1 + h 2 2 ≠ -3
  cell : ∃ h, e.file v.mode name "length" "automatic" v.cellUnits = .ok (f :: fr, h) ∧ detUt h ≠ 0
  atoms : 0 < f.na ∧ ∀ g ∈ fr, g.na = f.na
  last : ∀ k, k < f.na → 0 < ((f :: fr).getLast (by simp)).m k ∧
    ((f :: fr).getLast (by simp)).names k ≠ ""

theorem bind_ex {α β : Type} {e : Except Err α} {f : α → Except Err β} {y : α} (h : e = .ok y)
    (h' : ∃ z, f y = .ok z) : ∃ z, (e >>= f) = .ok z := by
  obtain ⟨z, hz⟩ := h'
  exact ⟨z, bind_ok.2 ⟨y, h, hz⟩⟩

theorem frames_ok {f : Frame} {fr : List Frame} (h : ∀ g ∈ fr, g.na = f.na) :
    ∃ B, beadsOfFrames (f :: fr) = .ok B ∧ B.na = f.na ∧ B.nb = fr.length + 1 ∧
      B.m = ((f :: fr).getLast (by simp)).m ∧ B.names = ((f :: fr).getLast (by simp)).names := by
  unfold beadsOfFrames
  simp only
  rw [if_pos]
  · refine ⟨_, rfl, rfl, rfl, ?_, ?_⟩ <;>
    · simp only
      rw [List.getLast?_eq_some_getLast (by simp)]
      rfl
  · rw [List.all_eq_true]
    intro g hg
    rcases List.mem_cons.1 hg with rfl | hg
    · simp
    · simpa using h g hg

/-- The queue of a `<file>` tag. -/
def fileQueue (v : Elem) : List (Key × Instr) :=
  [(.positions, { v.indexed with index := -1 }),
    (.masses, { v.indexed with index := -1, units := "" }),
    (.labels, { v.indexed with index := -1 }),
    (.cell, { v.indexed with index := -1, units := v.cellUnits })]

theorem fileQueue_eq {v : Elem} (ht : v.tag = .file)
    (hm : v.mode = "xyz" ∨ v.mode = "pdb" ∨ v.mode = "ase") : expand a v = .ok (fileQueue v) := by
  have h1 : v.mode ∈ modes v.tag := by
    rw [ht]; rcases hm with h | h | h <;> rw [h] <;> decide
  have h2 : v.mode ≠ "chk" := by rcases hm with h | h | h <;> rw [h] <;> decide
  unfold expand
  simp only [ht]
  rw [if_neg (by rw [ht] at h1; simpa using h1), if_neg h2]
  simp only [if_neg h2]
  rfl

theorem doMasses_all {i : Instr} {s : Sim} {m : ℕ → ℝ} (h0 : s.beads.nb ≠ 0) (hf : s.fmom = false)
    (hb : i.bead < 0) (hi : i.index < 0) (h : massesOf x i = .ok (s.beads.na, m)) :
    doMasses x i s = .ok { s with beads := { s.beads with m := m }, fmass := true } := by
  unfold doMasses
  rw [if_neg h0]
  refine bind_ok.2 ⟨_, h, ?_⟩
  rw [if_neg (by omega)]
  refine bind_ok.2 ⟨m, ?_, ?_⟩
  · unfold setAtoms; rw [if_pos hi, if_pos rfl]
  · simp only [hf, Bool.false_and]
    rfl

theorem doLabels_all {i : Instr} {s : Sim} {n : ℕ → String} (h0 : s.beads.nb ≠ 0)
    (hb : i.bead < 0) (hi : i.index < 0) (h : labelsOf x i = .ok (s.beads.na, n)) :
    doLabels x i s = .ok { s with beads := { s.beads with names := n } } := by
  unfold doLabels
  rw [if_neg h0]
  refine bind_ok.2 ⟨_, h, ?_⟩
  rw [if_neg (by omega)]
  refine bind_ok.2 ⟨n, ?_, rfl⟩
  unfold setAtoms; rw [if_pos hi, if_pos rfl]

theorem doCell_file {i : Instr} {s : Sim} {name : String} {f : Frame} {fr : List Frame} {h h' : Mat}
    (hm : i.mode ≠ "manual") (hc : i.mode ≠ "chk") (hn : i.name = .ok name)
    (e : x.env.file i.mode name "length" "automatic" "automatic" = .ok (f :: fr, h))
    (ht : h 0 0 + h 1 1 + h 2 2 ≠ -3)
    (e' : x.env.file i.mode name "length" "automatic" i.units = .ok (f :: fr, h')) :
    doCell x i s = .ok { s with h := h' } := by
  unfold doCell
  rw [if_neg hm, if_neg hc]
  refine bind_ok.2 ⟨name, hn, bind_ok.2 ⟨_, e, ?_⟩⟩
  rw [if_neg (by simp), if_neg ht]
  exact bind_ok.2 ⟨name, hn, bind_ok.2 ⟨_, e', rfl⟩⟩

theorem massesOf_file {i : Instr} {B : Beads} (hm : i.mode ≠ "manual")
    (h : initBeads x.env i "length" "automatic" "automatic" = .ok B) :
    massesOf x i = .ok (B.na, B.m) := by
  unfold massesOf
  rw [if_neg hm]
  exact bind_ok.2 ⟨B, h, rfl⟩

theorem labelsOf_file {i : Instr} {B : Beads} (hm : i.mode ≠ "manual")
    (h : initBeads x.env i "length" "automatic" "automatic" = .ok B) :
    labelsOf x i = .ok (B.na, B.names) := by
  unfold labelsOf
  rw [if_neg hm]
  exact bind_ok.2 ⟨B, h, rfl⟩

theorem file_steps {v : Elem} {name : String} {f : Frame} {fr : List Frame} (hx : 0 < x.nbeads)
    (hb : v.bead < 0) (hf : GoodFile x.env v name f fr) (h0 : Mat) :
    ∃ s, steps x (fileQueue v) (start (Beads.zeros 0 0) h0) = .ok s ∧ s.fmass = true ∧
      s.beads.nb = x.nbeads ∧ s.beads.na = f.na ∧ detUt s.h ≠ 0 ∧
      ∀ k, k < f.na → 0 < s.beads.m k ∧ s.beads.names k ≠ "" := by
  obtain ⟨hm, htext, ⟨hp, ep⟩, ⟨ho, eo, htr⟩, ⟨hc, ec, hdet⟩, ⟨hpos, hat⟩, hlast⟩ := hf
  obtain ⟨B, hB, hBa, hBb, hBm, hBn⟩ := frames_ok hat
  have hman : v.mode ≠ "manual" := by rcases hm with h | h | h <;> rw [h] <;> decide
  have hchk : v.mode ≠ "chk" := by rcases hm with h | h | h <;> rw [h] <;> decide
  have hib : ∀ (i : Instr) (u : String) (hh : Mat), i.mode = v.mode → i.value = v.raw →
      x.env.file v.mode name "length" u "automatic" = .ok (f :: fr, hh) →
      initBeads x.env i "length" u "automatic" = .ok B := by
    intro i u hh hi hi' he
    unfold initBeads
    rw [hi, if_neg hchk, if_neg hman]
    have : i.name = .ok name := by unfold Instr.name; rw [hi', htext]
    rw [this]
    refine bind_ok.2 ⟨name, rfl, bind_ok.2 ⟨_, he, hB⟩⟩
  have s1 : doPositions x { v.indexed with index := -1 } (start (Beads.zeros 0 0) h0)
      = .ok { start (Beads.zeros 0 0) h0 with beads :=
        { Beads.zeros B.na x.nbeads with q := rescale B.nb x.nbeads B.na B.q } } := by
    unfold doPositions
    refine bind_ok.2 ⟨⟨B.nb, B.na, B.q⟩, ?_, bind_ok.2 ⟨Beads.zeros B.na x.nbeads, rfl,
      bind_ok.2 ⟨_, ?_, rfl⟩⟩⟩
    · unfold initVector
      rw [if_pos (by exact hm)]
      exact bind_ok.2 ⟨B, hib _ _ _ rfl rfl ep, rfl⟩
    · unfold setVector
      have hb' : ({ v.indexed with index := -1 } : Instr).bead < 0 := hb
      have hn : ¬ ((Beads.zeros B.na x.nbeads).nb : ℤ) ≤ ({ v.indexed with index := -1 } : Instr).bead := by
        have : (0 : ℤ) ≤ ((Beads.zeros B.na x.nbeads).nb : ℤ) := Int.natCast_nonneg _
        omega
      rw [if_neg (by simp [Beads.zeros]), if_neg (by
        have : (0 : ℤ) ≤ ((Beads.zeros B.na x.nbeads).na : ℤ) := Int.natCast_nonneg _
        show ¬ _ ≤ (-1 : ℤ)
        omega), if_neg hn, if_pos hb', if_pos (by show (-1 : ℤ) < 0; decide)]
      rfl
  refine ⟨⟨⟨x.nbeads, B.na, rescale B.nb x.nbeads B.na B.q, fun _ _ => 0, B.m, B.names⟩, hc, false,
    true, 0⟩, ?_, rfl, rfl, hBa, hdet, ?_⟩
  · refine steps_cons.2 ⟨_, s1, steps_cons.2
      ⟨⟨⟨x.nbeads, B.na, rescale B.nb x.nbeads B.na B.q, fun _ _ => 0, B.m, fun _ => ""⟩, h0,
        false, true, 0⟩, ?_, steps_cons.2
      ⟨⟨⟨x.nbeads, B.na, rescale B.nb x.nbeads B.na B.q, fun _ _ => 0, B.m, B.names⟩, h0,
        false, true, 0⟩, ?_, steps_cons.2 ⟨_, ?_, rfl⟩⟩⟩⟩
    · exact doMasses_all hx.ne' rfl hb (by show (-1 : ℤ) < 0; decide)
        (massesOf_file hman (hib _ _ _ rfl rfl eo))
    · exact doLabels_all hx.ne' hb (by show (-1 : ℤ) < 0; decide)
        (labelsOf_file hman (hib _ _ _ rfl rfl eo))
    · refine doCell_file hman hchk ?_ eo htr ec
      unfold Instr.name
      simp only [Elem.indexed]
      rw [htext]
  · intro k hk
    rw [hBm, hBn]
    exact hlast k hk

theorem checked_ok {s : Sim} {na : ℕ} (hn : s.beads.na = na) (h0 : 0 < na) (hd : detUt s.h ≠ 0)
    (h : ∀ k, k < na → 0 < s.beads.m k ∧ s.beads.names k ≠ "") : checked s = .ok s := by
  unfold checked
  rw [if_neg (by omega), if_neg hd, if_neg]
  rintro ⟨k, hk, hb⟩
  have := h k (by omega)
  rcases hb with hb | hb
  · linarith
  · exact this.2 hb

/-- **C111** (partial: a whole file, with or without thermal momenta).  `<file>` in the formats
xyz, pdb and ase with a good file completes for any number of beads and of frames. -/
theorem file_completes_partial {v : Elem} {name : String} {f : Frame} {fr : List Frame}
    (hx : 0 < x.nbeads) (ht : v.tag = .file) (hb : v.bead < 0) (hf : GoodFile x.env v name f fr)
    (h0 : Mat) : ∃ s, block a x [v] (Beads.zeros 0 0) h0 = .ok s ∧ s.beads.nb = x.nbeads ∧
      s.beads.na = f.na := by
  obtain ⟨s, h1, h2, h3, h4, h5, h6⟩ := file_steps hx hb hf h0
  refine ⟨s, ?_, h3, h4⟩
  unfold block
  have e : [v].mapM (expand a) = .ok [fileQueue v] := by
    rw [List.mapM_cons, fileQueue_eq ht hf.mode]; rfl
  refine bind_ok.2 ⟨_, e, bind_ok.2 ⟨s, bind_ok.2 ⟨s, ?_, checked_ok h4 hf.atoms.1 h5 h6⟩,
    bind_ok.2 ⟨(), rfl, rfl⟩⟩⟩
  simpa using h1

/-- **C111** (partial).  The same with momenta drawn at a temperature, the usual start of a
simulation. -/
theorem file_thermal_partial {v t : Elem} {name : String} {f : Frame} {fr : List Frame} {y u : ℝ}
    (hx : 0 < x.nbeads) (ht : v.tag = .file) (hb : v.bead < 0) (hf : GoodFile x.env v name f fr)
    (htt : t.tag = .key .momenta ∨ t.tag = .key .velocities) (htm : t.mode = "thermal")
    (hti : t.index < 0) (htb : t.bead < 0) (htv : t.raw = .num y)
    (hu : x.env.conv "temperature" t.units = .ok u) (h0 : Mat) :
    ∃ s, block a x [v, t] (Beads.zeros 0 0) h0 = .ok s ∧ s.beads.nb = x.nbeads ∧
      s.beads.na = f.na ∧ s.fmom = true := by
  obtain ⟨s, h1, h2, h3, h4, h5, h6⟩ := file_steps hx hb hf h0
  have hth : ∃ s', doThermal x t.indexed s = .ok s' := by
    unfold doThermal
    rw [if_neg (by have := hf.atoms.1; omega), if_neg (by simp [h2])]
    have : thermalTemp x t.indexed = .ok (if y * u ≤ 0 then x.temp else y * u) := by
      unfold thermalTemp
      refine bind_ok.2 ⟨u, hu, ?_⟩
      simp only [Elem.indexed, htv]
      rfl
    have hb' : ¬ 0 ≤ t.indexed.bead := by simp only [Elem.indexed]; omega
    have hi' : ¬ 0 ≤ t.indexed.index := by simp only [Elem.indexed]; omega
    refine bind_ex this ?_
    simp only [if_neg hb', if_neg hi']
    exact ⟨_, rfl⟩
  obtain ⟨s', hs'⟩ := hth
  have hset := (thermal_set hs').1
  have e0 : ∃ k, t.tag = .key k ∧ expand a t = .ok [(k, t.indexed)] ∧ k ≠ .gle ∧
      step x s (k, t.indexed) = .ok s' := by
    have hmode : t.indexed.mode = "thermal" := htm
    rcases htt with h | h
    · refine ⟨.momenta, h, ?_, by decide, by simp only [step, hmode, if_true]; exact hs'⟩
      unfold expand
      simp only [h, htm]
      rfl
    · refine ⟨.velocities, h, ?_, by decide, by simp only [step, hmode, if_true]; exact hs'⟩
      unfold expand
      simp only [h, htm]
      rfl
  obtain ⟨k, -, hk, hkg, hstep⟩ := e0
  refine ⟨s', ?_, by rw [hset]; exact h3, by rw [hset]; exact h4, by rw [hset]⟩
  unfold block
  have e : [v, t].mapM (expand a) = .ok [fileQueue v, [(k, t.indexed)]] := by
    rw [List.mapM_cons, fileQueue_eq ht hf.mode, List.mapM_cons, hk]; rfl
  have hst : steps x (fileQueue v ++ [(k, t.indexed)]) (start (Beads.zeros 0 0) h0) = .ok s' :=
    steps_append.2 ⟨s, h1, steps_cons.2 ⟨s', hstep, rfl⟩⟩
  have hch : checked s' = .ok s' := by
    refine checked_ok (na := f.na) (by rw [hset]; exact h4) hf.atoms.1 (by rw [hset]; exact h5) ?_
    rw [hset]; exact h6
  refine bind_ok.2 ⟨_, e, bind_ok.2 ⟨s', bind_ok.2 ⟨s', ?_, hch⟩, bind_ok.2 ⟨(), ?_, rfl⟩⟩⟩
  · simpa using hst
  · unfold stage2
    rw [if_neg]
    simp [fileQueue]
    exact hkg

/-! ## The hypotheses are met -/

/-- A file with two frames of one hydrogen atom in a cubic cell. -/
def exEnv : Env where
  file := fun _ _ _ _ _ => .ok ([⟨1, fun _ => 0, fun _ => 1837, fun _ => "H"⟩,
    ⟨1, fun _ => 1, fun _ => 1837, fun _ => "H"⟩], fun i j => if i = j then 10 else 0)
  chk := fun _ => .error .value
  conv := fun _ _ => .ok 1

def exFile : Elem := ⟨.file, "xyz", "angstrom", "angstrom", -1, -1, .text "init.xyz"⟩

theorem exGood : GoodFile exEnv exFile "init.xyz" ⟨1, fun _ => 0, fun _ => 1837, fun _ => "H"⟩
    [⟨1, fun _ => 1, fun _ => 1837, fun _ => "H"⟩] where
  mode := .inl rfl
  text := rfl
  positions := ⟨_, rfl⟩
  other := ⟨_, rfl, by norm_num⟩
  cell := ⟨_, rfl, by norm_num [detUt]⟩
  atoms := ⟨by norm_num, by simp⟩
  last := by intro k _; constructor <;> simp

example : ∃ s, block (fun _ => .error .value) ⟨exEnv, 8, 1, 1, fun _ => 1, fun _ _ _ => 1⟩
    [exFile, ⟨.key .velocities, "thermal", "kelvin", "automatic", -1, -1, .num 300⟩]
    (Beads.zeros 0 0) 0 = .ok s ∧ s.beads.nb = 8 ∧ s.beads.na = 1 ∧ s.fmom = true :=
  file_thermal_partial (x := ⟨exEnv, 8, 1, 1, fun _ => 1, fun _ _ _ => 1⟩) (v := exFile)
    (by decide) rfl (by decide) exGood (.inr rfl) rfl (by decide) (by decide)
    rfl rfl 0

/-- A label of at most six characters is kept as given. -/
theorem label_kept (t : String) (h : t.toList.length ≤ 6) : clip t = t := by
  unfold clip
  rw [List.take_of_length_le h, String.ofList_toList]

/-- A longer one loses its end without an error, so that different labels can become equal. -/
theorem label_cut : ¬ ∀ s t : String, clip s = clip t → s = t := by
  intro h
  have e := h (String.ofList ['a', 'b', 'c', 'd', 'e', 'f', 'g']) (String.ofList ['a', 'b', 'c', 'd', 'e', 'f', 'h']) (by
    unfold clip; rw [String.toList_ofList, String.toList_ofList]; rfl)
  have e' := congrArg String.toList e
  rw [String.toList_ofList, String.toList_ofList] at e'
  exact absurd e' (by decide)

example : clip (String.ofList ['C', '_', 'b', 'u', 'l', 'k']) = String.ofList ['C', '_', 'b', 'u', 'l', 'k'] :=
  label_kept _ (by rw [String.toList_ofList]; decide)

end Verif.Init
