import Verif.FF.GasDriver

/-! C188: a batch gives for each structure what it gives alone. -/

namespace Verif.GasDrv

/-- Specification: what a batch should give. -/
def Separate {C P R : Type} (f : Arg C → Arg P → Except Err (Arg R)) (cs : List C) (ps : List P) : Prop :=
  ∃ rs : List R, f (.many cs) (.many ps) = .ok (.many rs) ∧ rs.length = ps.length ∧
    ∀ (i : ℕ) (c : C) (p : P) (r : R), cs[i]? = some c → ps[i]? = some p → rs[i]? = some r →
      f (.one c) (.one p) = .ok (.one r)

/-- In the base class a batch gives for each structure what it gives alone. -/
theorem batch_separate {C P R : Type} (single : C → P → R) (cs : List C) (ps : List P)
    (h : cs.length = ps.length) : Separate (compute single) cs ps := by
  refine ⟨(cs.zip ps).map fun x => single x.1 x.2, ?_, by simp [h], ?_⟩
  · simp [compute, h]
  · intro i c p r hc hp hr
    have hz : (cs.zip ps)[i]? = some (c, p) := List.getElem?_zip_eq_some.2 ⟨hc, hp⟩
    rw [List.getElem?_map, hz] at hr
    simp only [Option.map_some, Option.some.injEq] at hr
    subst hr
    rfl

/-- Lists of different lengths, or a list of cells with single positions, are an error in both. -/
theorem batch_mismatch {C P R : Type} (single : C → P → R) (cs : List C) (ps : List P) (p : P)
    (h : cs.length ≠ ps.length) (ds : List M3) (qs : List Rows) (q : Rows) (h' : ds.length ≠ qs.length) :
    compute single (.many cs) (.many ps) = .error .value ∧ compute single (.many cs) (.one p) = .error .value ∧
      gasCompute (.many ds) (.many qs) = .error .value ∧ gasCompute (.many ds) (.one q) = .error .value :=
  ⟨by simp [compute, h], rfl, by simp [gasCompute, h'], rfl⟩

/-- The ideal gas gives no energy, no virial and a zero force for each atom. -/
theorem gas_single (c : M3) (p : Rows) :
    ∃ r, gasCompute (.one c) (.one p) = .ok (.one r) ∧ r.pot = 0 ∧ r.force.length = p.length ∧
      (∀ f ∈ r.force, f = fun _ => 0) ∧ r.vir = fun _ _ => 0 := by
  refine ⟨_, rfl, rfl, by simp [gasSingle, zeros], ?_, rfl⟩
  intro f hf
  exact List.eq_of_mem_replicate hf

/-- For the ideal gas a batch gives what the structures give alone exactly when there is one and all have
the same number of atoms. -/
theorem gas_separate_iff (cs : List M3) (ps : List Rows) (h : cs.length = ps.length) :
    Separate gasCompute cs ps ↔ ps ≠ [] ∧ ∀ p ∈ ps, ∀ p' ∈ ps, p.length = p'.length := by
  cases ps with
  | nil =>
    constructor
    · rintro ⟨rs, h1, -⟩
      simp [gasCompute, h] at h1
    · exact fun q => absurd rfl q.1
  | cons p0 ps =>
    have hb : gasCompute (.many cs) (.many (p0 :: ps)) = .ok (.many ((List.range (p0 :: ps).length).map
        fun _ => ⟨0, zeros p0.length, fun _ _ => 0, ""⟩)) := by
      simp [gasCompute, h]
    have one : ∀ (c : M3) (p : Rows), gasCompute (.one c) (.one p)
        = .ok (.one ⟨0, zeros p0.length, fun _ _ => 0, ""⟩) ↔ p.length = p0.length := by
      intro c p
      constructor
      · intro e
        simp only [gasCompute, gasSingle] at e
        injection e with e
        injection e with e
        injection e with _ e2
        have := congrArg List.length e2
        simpa [zeros] using this
      · intro e
        simp only [gasCompute, gasSingle, e]
    constructor
    · rintro ⟨rs, h1, h2, h3⟩
      refine ⟨by simp, ?_⟩
      rw [hb] at h1
      injection h1 with h1
      injection h1 with h1
      have key : ∀ p ∈ p0 :: ps, p.length = p0.length := by
        intro p hp
        obtain ⟨i, hi, rfl⟩ := List.mem_iff_getElem.1 hp
        have hic : i < cs.length := by rw [h]; exact hi
        have := h3 i cs[i] (p0 :: ps)[i] ⟨0, zeros p0.length, fun _ _ => 0, ""⟩
          (List.getElem?_eq_getElem hic) (List.getElem?_eq_getElem hi) (by
            rw [← h1, List.getElem?_map, List.getElem?_range hi]
            rfl)
        exact (one _ _).1 this
      intro p hp p' hp'
      rw [key p hp, key p' hp']
    · rintro ⟨-, hall⟩
      refine ⟨_, hb, by simp, ?_⟩
      intro i c p r _ hp hr
      have hm : p ∈ p0 :: ps := List.mem_of_getElem? hp
      have hl := hall p hm p0 (by simp)
      rw [List.getElem?_map] at hr
      have hr' : r = ⟨0, zeros p0.length, fun _ _ => 0, ""⟩ := by
        cases hx : (List.range (p0 :: ps).length)[i]? with
        | none => rw [hx] at hr; simp at hr
        | some j =>
          rw [hx] at hr
          simp only [Option.map_some, Option.some.injEq] at hr
          exact hr.symm
      rw [hr']
      exact (one c p).2 hl

/-- **Disagreement (C188).** A batch of structures with different numbers of atoms gets forces of the
wrong size from the ideal gas. -/
theorem gas_wrong_size : ∃ (cs : List M3) (ps : List Rows), cs.length = ps.length ∧
    Separate (compute gasSingle) cs ps ∧ ¬ Separate gasCompute cs ps := by
  refine ⟨[fun _ _ => 1, fun _ _ => 1], [[fun _ => 0], [fun _ => 0, fun _ => 1]], rfl,
    batch_separate _ _ _ rfl, ?_⟩
  rw [gas_separate_iff _ _ rfl]
  rintro ⟨-, h⟩
  have := h [fun _ => 0] (List.mem_cons_self ..) [fun _ => 0, fun _ => 1] (List.mem_cons_of_mem _ (List.mem_cons_self ..))
  simp at this

/-- **Disagreement (C188).** No structures are an error for the ideal gas and nothing to do for the base
class. -/
theorem gas_empty : gasCompute (.many []) (.many []) = .error .index ∧ Separate (compute gasSingle) [] [] :=
  ⟨rfl, batch_separate _ _ _ rfl⟩

/-- Two atoms in each of two structures. -/
example : Separate gasCompute [fun _ _ => 1, fun _ _ => 2] [[fun _ => 0, fun _ => 3], [fun _ => 1, fun _ => 2]] :=
  (gas_separate_iff _ _ rfl).2 ⟨by simp, by simp⟩

end Verif.GasDrv
