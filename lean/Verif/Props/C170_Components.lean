import Verif.Phys.Components
import Verif.Props.C35_Contract
import Mathlib.Algebra.BigOperators.Field
import Mathlib.Tactic.FieldSimp
import Mathlib.Tactic.Ring
import Mathlib.Tactic.NormNum

/-!
# C170: the reported contribution of a force component
-/

namespace Verif.FComp

open Verif.Nm Verif.Contract Finset

variable {m : ℕ}

/-! ## Specification -/

/-- The mean of a number over the replicas. -/
noncomputable def avg {n : ℕ} (x : Fin n → ℝ) : ℝ := (∑ b, x b) / n

/-- The sum of the successful values of a list of results, `none` if one of them failed. -/
noncomputable def addUp : List (Except Err ℝ) → Option ℝ
  | [] => some 0
  | .ok x :: l => (addUp l).map (x + ·)
  | .error _ :: _ => none

/-! ## Helpers -/

theorem apply_smul {n k : ℕ} (M : Matrix (Fin k) (Fin n) ℝ) (v : Fin n → ℝ) (w : ℝ)
    (a : Fin k) : apply M (fun b => v b * w) a = w * apply M v a := by
  unfold apply
  rw [Finset.mul_sum]
  exact Finset.sum_congr rfl (fun b _ => by ring)

theorem b2tob1One_smul {n2 : ℕ} (n1 : ℕ) (v : Fin n2 → ℝ) (w : ℝ) (a : Fin n1) :
    b2tob1One n1 (fun b => v b * w) a = w * b2tob1One n1 v a := by
  unfold b2tob1One
  split_ifs
  · ring
  · exact apply_smul _ _ _ _

theorem b2tob1_smul {n2 : ℕ} (n1 : ℕ) (op : List ℕ) (v : Arr n2 m) (w : ℝ) (a : Fin n1)
    (k : Fin m) : b2tob1 n1 op (fun b k => v b k * w) a k = w * b2tob1 n1 op v a k := by
  unfold b2tob1
  split_ifs
  · ring
  · exact apply_smul _ _ _ _
  · exact apply_smul _ _ _ _

theorem pyGet_nat {α : Type} (l : List α) (i : ℕ) (x : α) (h : l[i]? = some x) :
    pyGet l i = .ok x := by
  unfold pyGet
  rw [if_pos (Int.natCast_nonneg i), Int.toNat_natCast, h]

theorem pots_weighted (n1 : ℕ) (c : Comp m) :
    potsComponent n1 c true true = ⟨n1, fun a => c.weight * b2tob1One n1 c.pots a⟩ := by
  unfold potsComponent
  by_cases h : c.weight = 0
  · rw [if_pos ⟨rfl, h⟩, if_pos rfl, h]
    congr 1; funext a; ring
  · rw [if_neg (fun g => h g.2)]
    simp only [if_true]
    congr 1; funext a
    exact b2tob1One_smul _ _ _ _

theorem forces_weighted (n1 : ℕ) (op : List ℕ) (c : Comp m) :
    forcesComponent n1 op c true true
      = ⟨n1, fun a k => c.weight * b2tob1 n1 op c.f a k⟩ := by
  unfold forcesComponent
  by_cases h : c.weight = 0
  · rw [if_pos ⟨rfl, h⟩, if_pos rfl, h]
    congr 1; funext a k; ring
  · rw [if_neg (fun g => h g.2)]
    simp only [if_true]
    congr 1; funext a k
    exact b2tob1_smul _ _ _ _ _ _

theorem virs_weighted (n1 : ℕ) (c : Comp m) :
    virsComponent n1 c true true
      = ⟨n1, fun a k => c.weight * b2tob1 n1 [] c.virs a k⟩ := by
  unfold virsComponent
  by_cases h : c.weight = 0
  · rw [if_pos ⟨rfl, h⟩, if_pos rfl, h]
    congr 1; funext a k; ring
  · rw [if_neg (fun g => h g.2)]
    simp only [if_true]
    congr 1; funext a k
    exact b2tob1_smul _ _ _ _ _ _

theorem pots_raw (n1 : ℕ) (c : Comp m) : potsComponent n1 c false false = ⟨c.nb, c.pots⟩ := by
  unfold potsComponent
  rw [if_neg (fun g => Bool.noConfusion g.1)]
  rfl

theorem forces_raw (n1 : ℕ) (op : List ℕ) (c : Comp m) :
    forcesComponent n1 op c false false = ⟨c.nb, c.f⟩ := by
  unfold forcesComponent
  rw [if_neg (fun g => Bool.noConfusion g.1)]
  rfl

theorem virs_raw (n1 : ℕ) (c : Comp m) : virsComponent n1 c false false = ⟨c.nb, c.virs⟩ := by
  unfold virsComponent
  rw [if_neg (fun g => Bool.noConfusion g.1)]
  rfl

/-! ## The contributions are averages -/

/-- **C170.** Without a bead, `pot_component` is the weight times the average potential of the
component's own replicas, whatever the two numbers of replicas. -/
theorem pot_component_average (s : Sys m) (i : ℕ) (c : Comp m) (bead : ℤ)
    (hc : s.comps[i]? = some c) (h1 : 0 < s.n1) (h2 : 0 < c.nb) (hb : bead < 0) :
    potComponent s i bead = .ok (c.weight * avg c.pots) := by
  unfold potComponent
  rw [pyGet_nat _ _ _ hc]
  change (if bead < 0 then _ else _) = _
  rw [if_pos hb, pots_weighted]
  congr 1
  dsimp only
  rw [← Finset.mul_sum, total_potential h1 h2]
  have a1 : (s.n1 : ℝ) ≠ 0 := by positivity
  have a2 : (c.nb : ℝ) ≠ 0 := by positivity
  unfold avg
  field_simp

/-- **C170.** The same for the forces. -/
theorem forces_component_average (s : Sys m) (i : ℕ) (c : Comp m) (bead : ℤ)
    (hc : s.comps[i]? = some c) (h1 : 0 < s.n1) (h2 : 0 < c.nb) (hb : bead < 0) :
    fComponent s i bead = .ok (fun k => c.weight * avg (fun b => c.f b k)) := by
  unfold fComponent
  rw [pyGet_nat _ _ _ hc]
  change (if bead < 0 then _ else _) = _
  rw [if_pos hb, forces_weighted]
  congr 1
  dsimp only
  funext k
  rw [← Finset.mul_sum, mul_div_assoc, mean_force_kept h1 h2]
  rfl

/-- **C170.** The same for the six elements of the virial, which is divided by the volume. -/
theorem vir_component_average (s : Sys m) (i : ℕ) (c : Comp m) (bead : ℤ)
    (hc : s.comps[i]? = some c) (h1 : 0 < s.n1) (h2 : 0 < c.nb) (hb : bead < 0) :
    virComponent s i bead = .ok (fun j => c.weight * avg
      (fun b => c.virs b ((![0, 4, 8, 1, 2, 5] : Fin 6 → Fin 9) j)) / s.vol) := by
  unfold virComponent
  rw [pyGet_nat _ _ _ hc]
  simp only [bind, Except.bind]
  rw [if_pos hb, virs_weighted]
  dsimp only
  congr 1
  have e : mean0 (fun (a : Fin s.n1) k => c.weight * b2tob1 s.n1 [] c.virs a k)
      = fun k => c.weight * avg (fun b => c.virs b k) := by
    funext k
    unfold mean0
    rw [← Finset.mul_sum, mul_div_assoc, mean_force_kept h1 h2]
    rfl
  rw [e]
  funext j
  congr 1
  fin_cases j <;> rfl

/-- **C170.** The raw forces and virials are the averages over the replicas of the component,
without the weight. -/
theorem raw_averages (s : Sys m) (i : ℕ) (c : Comp m) (bead : ℤ)
    (hc : s.comps[i]? = some c) (hb : bead < 0) :
    fComponentRaw s i bead = .ok (fun k => avg (fun b => c.f b k)) ∧
    virComponentRaw s i bead = .ok (fun j => avg
      (fun b => c.virs b ((![0, 4, 8, 1, 2, 5] : Fin 6 → Fin 9) j)) / s.vol) := by
  constructor
  · unfold fComponentRaw
    rw [pyGet_nat _ _ _ hc]
    change (if bead < 0 then _ else _) = _
    rw [if_pos hb, forces_raw]
    rfl
  · unfold virComponentRaw
    rw [pyGet_nat _ _ _ hc]
    simp only [bind, Except.bind]
    rw [if_pos hb, virs_raw]
    dsimp only
    congr 1
    funext j
    congr 1
    fin_cases j <;> rfl

/-- The raw potential is divided by the number of replicas of the system instead of that of
the component. -/
theorem raw_potential_scaled (s : Sys m) (i : ℕ) (c : Comp m) (bead : ℤ)
    (hc : s.comps[i]? = some c) (h2 : 0 < c.nb) (hb : bead < 0) :
    potComponentRaw s i bead = .ok ((c.nb : ℝ) / s.n1 * avg c.pots) := by
  unfold potComponentRaw
  rw [pyGet_nat _ _ _ hc]
  change (if bead < 0 then _ else _) = _
  rw [if_pos hb, pots_raw]
  congr 1
  have a2 : (c.nb : ℝ) ≠ 0 := by positivity
  unfold avg
  field_simp

/-- The raw potential is the average over the replicas exactly if the component is evaluated
on all replicas of the system, or the average vanishes. -/
theorem raw_potential_partial (s : Sys m) (i : ℕ) (c : Comp m) (bead : ℤ)
    (hc : s.comps[i]? = some c) (h1 : 0 < s.n1) (h2 : 0 < c.nb) (hb : bead < 0) :
    potComponentRaw s i bead = .ok (avg c.pots) ↔ c.nb = s.n1 ∨ avg c.pots = 0 := by
  rw [raw_potential_scaled s i c bead hc h2 hb]
  have a1 : (s.n1 : ℝ) ≠ 0 := by positivity
  constructor
  · intro h
    have h := Except.ok.inj h
    by_cases g : avg c.pots = 0
    · exact Or.inr g
    · left
      have : (c.nb : ℝ) / s.n1 = 1 := by
        apply mul_right_cancel₀ g
        rw [h, one_mul]
      rw [div_eq_one_iff_eq a1] at this
      exact_mod_cast this
  · rintro (h | h)
    · have : (c.nb : ℝ) = s.n1 := by exact_mod_cast h
      rw [this, div_self a1, one_mul]
    · rw [h, mul_zero]

/-- A component with one replica in a system of four, and weight one. -/
noncomputable def wComp : Comp 3 := ⟨1, 1, [1], fun _ => 8, fun _ _ => 2, fun _ _ => 3⟩

/-- The system. -/
noncomputable def wSys : Sys 3 := ⟨4, [], 10, [wComp]⟩

/-- **C170 fails for the raw potential.** The only component, of weight one and evaluated on a
single replica with energy 8, contributes all of the potential 8, and its raw potential is
reported as 2. -/
theorem raw_potential_wrong : potential wSys (-1) = .ok 8 ∧
    potComponent wSys 0 (-1) = .ok 8 ∧ potComponentRaw wSys 0 (-1) = .ok 2 ∧
    potComponentRaw wSys 0 0 = .ok 8 := by
  have hc : wSys.comps[0]? = some wComp := rfl
  have ha : avg wComp.pots = 8 := by
    unfold avg
    change (∑ b : Fin 1, (8 : ℝ)) / ((1 : ℕ) : ℝ) = 8
    norm_num
  have h1 := pot_component_average wSys 0 wComp (-1) hc (by decide) (by decide) (by decide)
  have h2 := raw_potential_scaled wSys 0 wComp (-1) hc (by decide) (by decide)
  rw [ha] at h1 h2
  refine ⟨?_, ?_, ?_, ?_⟩
  · unfold potential
    rw [if_pos (by decide)]
    congr 1
    have e : ∀ b, potCombine wSys b = 1 * b2tob1One wSys.n1 wComp.pots b := by
      intro b
      unfold potCombine
      change (if (1 : ℝ) ≠ 0 then (0 : ℝ) + 1 * ([1] : List ℝ).sum * _ else 0) = _
      rw [if_pos one_ne_zero]
      simp
    rw [Finset.sum_congr rfl (fun b _ => e b), ← Finset.mul_sum,
      total_potential (by decide) (by decide)]
    change 1 * (((4 : ℕ) : ℝ) / ((1 : ℕ) : ℝ) * ∑ b : Fin 1, (8 : ℝ)) / ((4 : ℕ) : ℝ) = 8
    norm_num
  · refine h1.trans ?_
    congr 1
    change (1 : ℝ) * 8 = 8
    norm_num
  · refine h2.trans ?_
    congr 1
    change ((1 : ℕ) : ℝ) / ((4 : ℕ) : ℝ) * 8 = 2
    norm_num
  · unfold potComponentRaw
    rw [show pyGet wSys.comps 0 = .ok wComp from pyGet_nat _ 0 _ hc]
    simp only [bind, Except.bind]
    rw [if_neg (by decide), pots_raw]
    rfl

/-! ## Single replicas -/

/-- **C170.** The raw outputs for a bead are those of the replica of the component, for the
replicas it has, and an `IndexError` for others. -/
theorem raw_bead (s : Sys m) (i : ℕ) (c : Comp m) (b : ℕ) (hc : s.comps[i]? = some c) :
    (∀ h : b < c.nb, potComponentRaw s i b = .ok (c.pots ⟨b, h⟩) ∧
      fComponentRaw s i b = .ok (c.f ⟨b, h⟩)) ∧
    (¬ b < c.nb → potComponentRaw s i b = .error .indexError ∧
      fComponentRaw s i b = .error .indexError) := by
  have e : potComponentRaw s i b = row c.pots b := by
    unfold potComponentRaw
    rw [pyGet_nat _ _ _ hc]
    simp only [bind, Except.bind]
    rw [if_neg (by omega), pots_raw]
  have e' : fComponentRaw s i b = row c.f b := by
    unfold fComponentRaw
    rw [pyGet_nat _ _ _ hc]
    simp only [bind, Except.bind]
    rw [if_neg (by omega), forces_raw]
  rw [e, e']
  unfold row
  simp only [Int.toNat_natCast]
  exact ⟨fun h => by rw [dif_pos h, dif_pos h]; exact ⟨rfl, rfl⟩,
    fun h => by rw [dif_neg h, dif_neg h]; exact ⟨rfl, rfl⟩⟩

/-! ## The contributions add up -/

theorem foldl_add {α : Type} (g : α → ℝ) (l : List α) (p : α → Prop) [DecidablePred p]
    (h : ∀ c ∈ l, ¬ p c → g c = 0) (x : ℝ) :
    l.foldl (fun r c => if p c then r + g c else r) x = x + (l.map g).sum := by
  induction l generalizing x with
  | nil => simp
  | cons c l ih =>
    rw [List.foldl_cons, ih (fun d hd => h d (List.mem_cons_of_mem _ hd)), List.map_cons,
      List.sum_cons]
    by_cases hp : p c
    · rw [if_pos hp]; ring
    · rw [if_neg hp, h c (by simp) hp]; ring

theorem addUp_ok (l : List ℝ) : addUp (l.map .ok) = some l.sum := by
  induction l with
  | nil => rfl
  | cons x l ih => simp [addUp, ih]

theorem comps_range {β : Type} (l : List (Comp m)) (g : ℤ → β) (k : Comp m → β)
    (h : ∀ i c, l[i]? = some c → g (i : ℕ) = k c) :
    (List.range l.length).map (fun i : ℕ => g (i : ℤ)) = l.map k := by
  apply List.ext_getElem
  · simp
  · intro i h1 h2
    simp only [List.getElem_map, List.getElem_range]
    exact h i _ (List.getElem?_eq_getElem (by simpa using h2))

theorem combine_sum (s : Sys m) (hw : ∀ c ∈ s.comps, c.weight ≠ 0 → c.mts.sum = 1)
    (b : Fin s.n1) :
    potCombine s b = (s.comps.map (fun c => c.weight * b2tob1One s.n1 c.pots b)).sum := by
  unfold potCombine
  rw [foldl_add (fun c : Comp m => c.weight * c.mts.sum * b2tob1One s.n1 c.pots b)
    s.comps (fun c => c.weight ≠ 0)
    (fun c _ h => by rw [not_not.1 h]; ring), zero_add]
  congr 1
  refine List.map_congr_left (fun c hc => ?_)
  by_cases h : c.weight = 0
  · rw [h]; ring
  · rw [hw c hc h, mul_one]

/-- **C170.** If the level weights of every component add up to one, the contributions of the
components add up to the potential, both for the average and for each bead. -/
theorem contributions_add_up_partial (s : Sys m) (bead : ℤ)
    (hw : ∀ c ∈ s.comps, c.weight ≠ 0 → c.mts.sum = 1)
    (hbead : bead < s.n1) :
    (potential s bead).toOption
      = addUp ((List.range s.comps.length).map (fun i : ℕ => potComponent s (i : ℤ) bead)) := by
  by_cases hb : bead < 0
  · have e : (List.range s.comps.length).map (fun i : ℕ => potComponent s (i : ℤ) bead)
        = (s.comps.map (fun c => (∑ b, c.weight * b2tob1One s.n1 c.pots b) / s.n1)).map .ok := by
      rw [List.map_map]
      refine comps_range s.comps (fun i => potComponent s i bead) _ ?_
      intro i c hc
      unfold potComponent
      rw [pyGet_nat _ _ _ hc]
      change (if bead < 0 then _ else _) = _
      rw [if_pos hb, pots_weighted]
      rfl
    rw [e, addUp_ok]
    unfold potential
    rw [if_pos hb, Finset.sum_congr rfl (fun b _ => combine_sum s hw b)]
    change some _ = _
    congr 1
    generalize s.comps = l
    induction l with
    | nil => simp
    | cons c l ih =>
      simp only [List.map_cons, List.sum_cons]
      rw [Finset.sum_add_distrib, add_div, ih]
  · have hlt : bead.toNat < s.n1 := by omega
    have e : (List.range s.comps.length).map (fun i : ℕ => potComponent s (i : ℤ) bead)
        = (s.comps.map (fun c => c.weight * b2tob1One s.n1 c.pots ⟨bead.toNat, hlt⟩)).map
          .ok := by
      rw [List.map_map]
      refine comps_range s.comps (fun i => potComponent s i bead) _ ?_
      intro i c hc
      unfold potComponent
      rw [pyGet_nat _ _ _ hc]
      change (if bead < 0 then _ else _) = _
      rw [if_neg hb, pots_weighted]
      unfold row
      rw [dif_pos hlt]
      rfl
    rw [e, addUp_ok]
    unfold potential row
    rw [if_neg hb, dif_pos hlt, combine_sum s hw]
    rfl

example : ∀ c ∈ wSys.comps, c.weight ≠ 0 → c.mts.sum = 1 := by
  intro c hc _
  have : c = wComp := by simpa [wSys] using hc
  subst this
  simp [wComp]

/-- Adding up the raw potentials with their weights does not give the potential. -/
theorem raw_do_not_add_up :
    potential wSys (-1) ≠ potComponentRaw wSys 0 (-1) ∧ wComp.weight = 1 := by
  obtain ⟨h1, -, h2, -⟩ := raw_potential_wrong
  refine ⟨?_, rfl⟩
  rw [h1, h2]
  intro h
  have := Except.ok.inj h
  norm_num at this

/-- **C170.** A component that does not exist is refused; negative numbers count from the last
component. -/
theorem component_index (s : Sys m) (bead : ℤ) (k : ℕ) :
    potComponent s (s.comps.length + k : ℕ) bead = .error .indexError ∧
    potComponent s (-(s.comps.length + 1 + k : ℕ)) bead = .error .indexError ∧
    (k < s.comps.length →
      potComponent s (-(k + 1 : ℕ)) bead = potComponent s (s.comps.length - 1 - k : ℕ) bead) := by
  refine ⟨?_, ?_, ?_⟩
  · unfold potComponent pyGet
    rw [if_pos (Int.natCast_nonneg _), Int.toNat_natCast, List.getElem?_eq_none (by omega)]
    rfl
  · unfold potComponent pyGet
    rw [if_neg (by omega), if_neg (by omega)]
    rfl
  · intro hk
    unfold potComponent
    congr 1
    unfold pyGet
    rw [if_neg (by omega), if_pos (by omega), if_pos (Int.natCast_nonneg _)]
    congr 2
    omega

theorem list_sum_range {α : Type} (l : List α) (g : α → ℝ) (k : ℕ → ℝ) (h : ∀ i c, l[i]? = some c → k i = g c) :
    (l.map g).sum = ∑ i ∈ Finset.range l.length, k i := by
  induction l generalizing k with
  | nil => simp
  | cons c l ih =>
    rw [List.map_cons, List.sum_cons, List.length_cons, Finset.sum_range_succ', ih (fun i => k (i + 1)) (fun i c hc => h (i + 1) c hc),
      h 0 c rfl, add_comm]

/-- **C170.** On every bead the total force is made of the contributions of the components, each with the sum of its level
weights: so the contributions add up to it if these sums are one. -/
theorem forces_total (s : Sys m) (b : Fin s.n1) : ∃ fc : ℕ → Fin m → ℝ,
    (∀ i < s.comps.length, fComponent s (i : ℤ) (b : ℕ) = .ok (fc i))
    ∧ (∀ k, fCombine s b k = ∑ i ∈ Finset.range s.comps.length, ((s.comps[i]?.map fun c => c.mts.sum).getD 0) * fc i k)
    ∧ ((∀ c ∈ s.comps, c.mts.sum = 1) → ∀ k, fCombine s b k = ∑ i ∈ Finset.range s.comps.length, fc i k) := by
  refine ⟨fun i k => (s.comps[i]?.map fun c => c.weight * b2tob1 s.n1 s.op c.f b k).getD 0, fun i hi => ?_, ?_⟩
  · have hc : s.comps[i]? = some s.comps[i] := List.getElem?_eq_getElem hi
    unfold fComponent
    rw [pyGet_nat _ _ _ hc]
    simp only [bind, Except.bind]
    rw [if_neg (by omega), show forcesComponent s.n1 s.op s.comps[i] true true = _ from forces_weighted s.n1 s.op s.comps[i]]
    unfold row
    rw [dif_pos (by rw [Int.toNat_natCast]; exact b.2), hc]
    simp only [Int.toNat_natCast, Option.map_some, Option.getD_some]
  · have key : ∀ k, fCombine s b k = ∑ i ∈ Finset.range s.comps.length, ((s.comps[i]?.map fun c => c.mts.sum).getD 0)
        * (s.comps[i]?.map fun c => c.weight * b2tob1 s.n1 s.op c.f b k).getD 0 := by
      intro k
      unfold fCombine
      rw [foldl_add (fun c : Comp m => c.weight * c.mts.sum * b2tob1 s.n1 s.op c.f b k) s.comps (fun c => c.weight ≠ 0)
        (fun c _ h => by rw [not_not.1 h]; ring), zero_add]
      refine list_sum_range s.comps _ _ fun i c hc => ?_
      rw [hc]
      simp only [Option.map_some, Option.getD_some]
      ring
    refine ⟨key, fun hw k => ?_⟩
    rw [key]
    refine Finset.sum_congr rfl fun i hi => ?_
    have hi := Finset.mem_range.1 hi
    rw [List.getElem?_eq_getElem hi]
    simp only [Option.map_some, Option.getD_some]
    rw [hw _ (List.getElem_mem hi), one_mul, List.getElem?_eq_getElem hi]
    rfl

end Verif.FComp
