import Verif.Depend.RealTable
/-
C02. The declarations of the real objects keep every quantity fresh.  This is false; the eight faulty declarations are
named below, each with a history after which a read is out of date.  It holds of the rest of the table
(`core_fresh_partial`), and of the whole table once the eight rows are corrected (`repaired_fresh`), in both cases for
all evaluation functions, all conversions and all histories.
-/
namespace Verif.Depend

variable {V : Type}

/-- The property, for a table: whatever the functions, every history reads fresh values. -/
def Table.Fresh (t : Table) : Prop :=
  ∀ (F : Nat → List Int → Int) (C : Nat → Nat → Int → Int) (v0 : Nat → Int) (man0 : Nat → Nat)
    (ops : List (Op Int)), (t.net F C).ManualOk man0 → (∀ op ∈ ops, op.Accepted (t.net F C)) →
    (run (t.net F C) (initState (t.net F C) v0 man0) ops).1 = (Spec.run (t.net F C) ⟨v0, man0⟩ ops).1

/-- For any type of values. -/
theorem checked_fresh (t : Table) (hw : t.wf = true) (hc : t.covered = true)
    (F : Nat → List V → V) (C : Nat → Nat → V → V) (v0 : Nat → V) (man0 : Nat → Nat)
    (ops : List (Op V)) (hm : (t.net F C).ManualOk man0) (hops : ∀ op ∈ ops, op.Accepted (t.net F C)) :
    (run (t.net F C) (initState (t.net F C) v0 man0) ops).1 = (Spec.run (t.net F C) ⟨v0, man0⟩ ops).1 :=
  (run_good' (Table.wf_sound hw) (Table.covered_sound hw hc) ops (inv_init v0 man0 hm) hops).1

/-- What is missing from the full property: the rows of `piTable` not in `coreTable`, which are stale. -/
theorem core_fresh_partial (F : Nat → List V → V) (C : Nat → Nat → V → V) (v0 : Nat → V) (man0 : Nat → Nat)
    (ops : List (Op V)) (hm : (coreTable.net F C).ManualOk man0)
    (hops : ∀ op ∈ ops, op.Accepted (coreTable.net F C)) :
    (run (coreTable.net F C) (initState (coreTable.net F C) v0 man0) ops).1 =
      (Spec.run (coreTable.net F C) ⟨v0, man0⟩ ops).1 :=
  checked_fresh coreTable (by decide +kernel) (by decide +kernel) F C v0 man0 ops hm hops

/-- With the eight declarations corrected every quantity is fresh. -/
theorem repaired_fresh (F : Nat → List V → V) (C : Nat → Nat → V → V) (v0 : Nat → V) (man0 : Nat → Nat)
    (ops : List (Op V)) (hm : (repairedTable.net F C).ManualOk man0)
    (hops : ∀ op ∈ ops, op.Accepted (repairedTable.net F C)) :
    (run (repairedTable.net F C) (initState (repairedTable.net F C) v0 man0) ops).1 =
      (Spec.run (repairedTable.net F C) ⟨v0, man0⟩ ops).1 :=
  checked_fresh repairedTable (by decide +kernel) (by decide +kernel) F C v0 man0 ops hm hops

/-- The tables differ only in the eight declarations: same names, same kinds, same reads. -/
theorem repaired_same_reads : repairedTable.map (fun r => (r.name, r.kind)) = piTable.map (fun r => (r.name, r.kind)) ∧
    ((piTable.zip repairedTable).filter (fun p => p.1.deps != p.2.deps)).map (fun p => p.1.name) =
      ["fpath", "nm_factor_pa", "v_and_fs", "extras", "fvir4", "virsc", "inmts", "qdt_on_m"] := by
  decide +kernel

/-! ### The faulty rows -/

/-- Example functions: every object is one plus the sum of what it reads. -/
def sumF : Nat → List Int → Int := fun _ l => l.foldl (· + ·) 1
def idC : Nat → Nat → Int → Int := fun _ _ v => v
def exMan : Nat → Nat := fun g => if g = 0 then 11 else 13

abbrev piNet : Net Int := piTable.net sumF idC

/-- Outcome of a history on the real table, and by the specification. -/
def piRun (ops : List (Op Int)) : List (Out Int) := (run piNet (initState piNet (fun _ => 1) exMan) ops).1
def piSpec (ops : List (Op Int)) : List (Out Int) := (Spec.run piNet ⟨fun _ => 1, exMan⟩ ops).1

/-- Spring force of `beads` (row 22) after a change of mass (row 0). -/
theorem fpath_stale : piRun [.get 22, .set 0 5, .get 22] ≠ piSpec [.get 22, .set 0 5, .get 22] := by decide +kernel

/-- Dynamical mass factors with path frequencies (row 35) after a change of temperature (row 1). -/
theorem nm_factor_stale : piRun [.get 35, .set 1 5, .get 35] ≠ piSpec [.get 35, .set 1 5, .get 35] := by
  decide +kernel

/-- Extras (row 62) after a change of the weight of a component (row 9). -/
theorem extras_stale : piRun [.get 62, .set 9 5, .get 62] ≠ piSpec [.get 62, .set 9 5, .get 62] := by decide +kernel

/-- Suzuki-Chin force (row 75, through row 71) after a change of alpha (row 10): the coefficients are updated, the
fourth-order part is not. -/
theorem fsc_stale : piRun [.get 75, .set 10 5, .get 75] ≠ piSpec [.get 75, .set 10 5, .get 75] := by decide +kernel

/-- Suzuki-Chin virial (row 80) after a change of positions (row 11): it declares the potential, which nobody has read
since it went stale. -/
theorem virsc_stale : piRun [.get 80, .set 11 5, .get 80, .set 11 7, .get 80] ≠
    piSpec [.get 80, .set 11 5, .get 80, .set 11 7, .get 80] := by decide +kernel

/-- Inner time step (row 84) after a change of the multiple time step counts (row 4). -/
theorem qdt_stale : piRun [.get 84, .set 4 5, .get 84] ≠ piSpec [.get 84, .set 4 5, .get 84] := by decide +kernel

/-- Centroid position step (row 85) after a change of time step (row 3), and of the masses (row 0). -/
theorem qdt_on_m_stale : piRun [.get 85, .set 3 5, .get 85] ≠ piSpec [.get 85, .set 3 5, .get 85] ∧
    piRun [.get 85, .set 0 5, .get 85] ≠ piSpec [.get 85, .set 0 5, .get 85] := by decide +kernel

/-- Conserved energy (row 81).  Positions are assigned as normal modes (row 12), the conserved energy is read, then the
temperature (row 1) is changed: the next read is stale.  The cause is the declaration of the bead positions by the spring
energy, whose function reads only normal modes: the read of the forces refreshes the bead positions, which marks the
spring energy stale after it has been read, and the change of temperature then stops at the spring energy. -/
theorem econs_stale : piRun [.set 12 3, .get 81, .set 1 5, .get 81] ≠
    piSpec [.set 12 3, .get 81, .set 1 5, .get 81] := by decide +kernel

theorem exMan_ok : piNet.ManualOk exMan := by
  intro i hi g conv hk
  have h : (piTable.row i).kind = .peer g := by
    simp only [piNet, Table.net] at hk
    cases h : (piTable.row i).kind with
    | leaf => simp [h] at hk
    | computed rs => simp [h] at hk
    | peer g' => simp [h] at hk; rw [hk.1]
  have hi' : i < 86 := by have : piTable.length = 86 := by decide +kernel
                          have h2 : i < piTable.length := hi
                          omega
  have hall : ∀ i, i < 86 → ∀ g, (piTable.row i).kind = .peer g → g = 0 ∨ g = 1 := by
    have : ∀ i, i < 86 → (match (piTable.row i).kind with | .peer g => decide (g = 0 ∨ g = 1) | _ => true) = true := by
      decide +kernel
    intro i hi g hg
    have := this i hi
    rw [hg] at this
    simpa using this
  rcases hall i hi' g h with rfl | rfl
  · exact ⟨⟨idC 11, by rfl⟩, by show 11 < piTable.length; decide +kernel⟩
  · exact ⟨⟨idC 13, by rfl⟩, by show 13 < piTable.length; decide +kernel⟩

/-- The real declarations do not keep every quantity fresh. -/
theorem pi_not_fresh : ¬ piTable.Fresh := by
  intro h
  refine econs_stale (h sumF idC (fun _ => 1) exMan _ exMan_ok ?_)
  intro op hop
  simp only [List.mem_cons, List.mem_nil_iff, or_false] at hop
  have hl : piNet.size = 86 := by decide +kernel
  rcases hop with rfl | rfl | rfl | rfl
  · exact ⟨by rw [hl]; decide, fun p hp => by cases hp⟩
  · exact (by rw [hl]; decide : 81 < piNet.size)
  · exact ⟨by rw [hl]; decide, fun p hp => by cases hp⟩
  · exact (by rw [hl]; decide : 81 < piNet.size)

/-- The core theorem is not vacuous: it covers 67 quantities, including forces, kinetic energies and propagators, on
which concrete histories change. -/
example : coreTable.length = 67 ∧ "kstress" ∈ coreTable.map Row.name ∧ "f" ∈ coreTable.map Row.name ∧
    "prop_pq_ms" ∈ coreTable.map Row.name ∧ "potssc" ∈ coreTable.map Row.name := by decide +kernel

end Verif.Depend
