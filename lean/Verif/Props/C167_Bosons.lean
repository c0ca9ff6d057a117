import Verif.Phys.Bosons
import Verif.Props.C36_NormalModes

/-!
# C167: the atoms that are asked for, and no others, are treated as identical particles
-/

namespace Verif.Boson

open Finset

/-! ### Which atoms are meant -/

/-- **C167.** A list of numbers is taken over when all of them are numbers of atoms, and refused otherwise. -/
theorem index_resolved (names : List String) (l r : List ℤ) :
    resolve names (.index l) = some r ↔ r = l ∧ ∀ x ∈ l, 0 ≤ x ∧ x < names.length := by
  rw [resolve]
  split_ifs with h
  · refine ⟨fun g => (nomatch g), fun ⟨_, g⟩ => ?_⟩
    obtain ⟨x, hx, h1⟩ := List.any_eq_true.1 h
    have := g x hx
    simp only [Bool.or_eq_true, decide_eq_true_eq] at h1
    omega
  · rw [Option.some.injEq]
    refine ⟨fun g => ⟨g.symm, fun x hx => ?_⟩, fun g => g.1.symm⟩
    by_contra hc
    refine h (List.any_eq_true.2 ⟨x, hx, ?_⟩)
    simp only [Bool.or_eq_true, decide_eq_true_eq]
    omega

/-- **C167.** A list of labels gives the atoms with these labels, each once and in their order, when every label occurs, and is
refused otherwise. -/
theorem label_resolved (names : List String) (l : List String) :
    (∀ x ∈ l, x ∈ names) ∧ (∃ r, resolve names (.label l) = some r ∧ r.Pairwise (· < ·)
      ∧ ∀ x, x ∈ r ↔ ∃ i : ℕ, x = i ∧ ∃ h : i < names.length, names[i] ∈ l)
    ∨ (∃ x ∈ l, x ∉ names) ∧ resolve names (.label l) = none := by
  rw [resolve]
  split_ifs with h
  · obtain ⟨x, hx, h1⟩ := List.any_eq_true.1 h
    refine Or.inr ⟨⟨x, hx, fun hc => ?_⟩, rfl⟩
    rw [List.contains_iff_mem.2 hc] at h1
    cases h1
  · refine Or.inl ⟨fun x hx => ?_, _, rfl, ?_, fun x => ?_⟩
    · by_contra hc
      refine h (List.any_eq_true.2 ⟨x, hx, ?_⟩)
      rw [Bool.not_eq_true', ← Bool.not_eq_true, List.contains_iff_mem]
      exact hc
    · rw [List.pairwise_map]
      refine List.Pairwise.filter _ (List.Pairwise.imp (fun g => by exact_mod_cast g) List.pairwise_lt_range)
    · constructor
      · intro g
        obtain ⟨i, hi, rfl⟩ := List.mem_map.1 g
        obtain ⟨h1, h2⟩ := List.mem_filter.1 hi
        have h3 := List.mem_range.1 h1
        refine ⟨i, rfl, h3, ?_⟩
        have := List.contains_iff_mem.1 h2
        rwa [List.getD_eq_getElem?_getD, List.getElem?_eq_getElem h3] at this
      · rintro ⟨i, rfl, h3, h4⟩
        refine List.mem_map.2 ⟨i, List.mem_filter.2 ⟨List.mem_range.2 h3, ?_⟩, rfl⟩
        rw [List.contains_iff_mem, List.getD_eq_getElem?_getD, List.getElem?_eq_getElem h3]
        exact h4

/-- **C167.** A restart, which reads the atoms as numbers, has the same bosons. -/
theorem restart_same (names : List String) (s : Spec) (r : List ℤ) (hs : ∀ l, s ≠ .array l) (h : resolve names s = some r) :
    resolve names (.index r) = some r := by
  refine (index_resolved names r r).2 ⟨rfl, ?_⟩
  cases s with
  | array l => exact absurd rfl (hs l)
  | index l => obtain ⟨rfl, h1⟩ := (index_resolved names l r).1 h; exact h1
  | label l =>
    rcases label_resolved names l with ⟨_, r', h1, _, h2⟩ | ⟨_, h1⟩
    · rw [h1] at h
      obtain rfl := Option.some.inj h
      intro x hx
      obtain ⟨i, rfl, h3, _⟩ := (h2 x).1 hx
      omega
    · rw [h1] at h; cases h

/-- The same atom can be given twice. -/
theorem repeated_accepted (names : List String) (h : names ≠ []) : resolve names (.index [0, 0]) = some [0, 0] := by
  have : 0 < names.length := List.length_pos_iff.2 h
  refine (index_resolved _ _ _).2 ⟨rfl, fun x hx => ?_⟩
  simp only [List.mem_cons, List.not_mem_nil, or_false, or_self] at hx
  omega

example : resolve ["O", "H", "H"] (.label ["H"]) = some [1, 2] := by decide +kernel
example : resolve ["O", "H", "H"] (.label ["D"]) = none := by decide +kernel
example : resolve ["O", "H", "H"] (.index [1, -1]) = none := by decide +kernel

/-! ### Energy and forces -/

variable {P N : ℕ}

theorem total_eq (g : Par P N) (qnm : Arr P N) (hm : ∀ a, 0 ≤ g.m a) :
    ∑ k, g.w k ^ 2 * ∑ a, ∑ d, (qnm k a d * √(g.m a)) ^ 2 = ∑ a, closed g qnm a := by
  simp only [closed, mul_sum]
  rw [sum_comm]
  refine sum_congr rfl fun a _ => sum_congr rfl fun k _ => ?_
  simp only [Fin.sum_univ_three, mul_pow, Real.sq_sqrt (hm a)]
  ring

theorem vspring_eq (g : Par P N) (qnm : Arr P N) (vb : ℝ) (hP : P ≠ 1) (ho : g.opens = []) (hm : ∀ a, 0 ≤ g.m a)
    (h : g.bosons.length < N) :
    vspring g qnm vb = 0.5 * (∑ a, closed g qnm a - (g.bosons.map (closed g qnm)).sum) + if g.bosons = [] then 0 else vb := by
  rw [vspring, if_neg hP, if_pos h, total_eq g qnm hm, ho, List.map_nil, List.sum_nil, add_zero]

/-- **C167.** The energy of the springs is that of the exchange of the bosons, and the energy of the closed ring polymers of all
other atoms. -/
theorem energy_partial (g : Par P N) (qnm : Arr P N) (vb : ℝ) (hP : P ≠ 1) (ho : g.opens = []) (hm : ∀ a, 0 ≤ g.m a)
    (hn : g.bosons.Nodup) :
    vspring g qnm vb = 0.5 * ∑ a ∈ univ.filter (· ∉ g.bosons), closed g qnm a + if g.bosons = [] then 0 else vb := by
  have hl : (g.bosons.map (closed g qnm)).sum = ∑ a ∈ univ.filter (· ∈ g.bosons), closed g qnm a := by
    rw [← List.sum_toFinset _ hn]
    refine sum_congr ?_ fun _ _ => rfl
    ext a
    simp
  have hs := sum_filter_add_sum_filter_not univ (· ∈ g.bosons) (closed g qnm)
  by_cases h : g.bosons.length < N
  · rw [vspring_eq g qnm vb hP ho hm h, hl, ← hs]
    ring
  · have hall : ∀ a, a ∈ g.bosons := by
      have hc : g.bosons.toFinset = univ := by
        refine eq_univ_of_card _ ?_
        rw [List.toFinset_card_of_nodup hn, Fintype.card_fin]
        exact le_antisymm (by simpa using hn.length_le_card) (not_lt.1 h)
      intro a
      rw [← List.mem_toFinset, hc]
      exact mem_univ a
    rw [vspring, if_neg hP, if_neg h, filter_false_of_mem (fun a _ => by simpa using hall a), sum_empty, mul_zero]

/-- **C167.** The same in terms of the beads: half the mass times the squared frequency times the squared distances along the
ring, for every atom that is no boson. -/
theorem energy_beads_partial (g : Par P N) (q : Arr P N) (ω vb : ℝ) (hP : P ≠ 1) (ho : g.opens = []) (hm : ∀ a, 0 ≤ g.m a)
    (hn : g.bosons.Nodup) (hw : ∀ k : Fin P, g.w k = ω * Nm.nmEva P k) :
    vspring g (fun k a d => Nm.apply (Nm.mkNm P) (fun b => q b a d) k) vb
      = (∑ a ∈ univ.filter (· ∉ g.bosons), g.m a * ω ^ 2 / 2 * ∑ d, Nm.ringSpring fun b => q b a d)
        + if g.bosons = [] then 0 else vb := by
  rw [energy_partial g _ vb hP ho hm hn, mul_sum]
  congr 1
  refine sum_congr rfl fun a _ => ?_
  simp only [closed, Nm.ring_spring_diagonal, hw, Fin.sum_univ_three, ← sum_add_distrib, mul_sum]
  refine sum_congr rfl fun k _ => ?_
  ring

theorem lastIdx_eq (l : List (Fin N)) (hn : l.Nodup) (i : ℕ) (h : i < l.length) : lastIdx l l[i] = i := by
  have h1 : l.reverse[l.length - 1 - i]'(by rw [List.length_reverse]; omega) = l[i] := by
    rw [List.getElem_reverse]
    congr 1
    omega
  rw [lastIdx, ← h1, List.Nodup.idxOf_getElem (List.nodup_reverse.2 hn)]
  omega

/-- **C167.** Every boson feels the force of the exchange on it, every other atom that of its own springs. -/
theorem forces_partial (g : Par P N) (dist : Arr P N) (fb : Fin P → ℕ → Fin 3 → ℝ) (hP : P ≠ 1) (hn : g.bosons.Nodup) (b : Fin P) (d : Fin 3) :
    (∀ i, ∀ h : i < g.bosons.length, fspring g dist fb b g.bosons[i] d = fb b i d)
    ∧ ∀ a ∉ g.bosons, fspring g dist fb b a d = dist b a d := by
  refine ⟨fun i h => ?_, fun a ha => ?_⟩
  · rw [fspring, if_neg hP, if_pos (List.getElem_mem h), lastIdx_eq _ hn i h]
  · rw [fspring, if_neg hP, if_neg ha, if_pos]
    have h1 : (a :: g.bosons).Nodup := List.nodup_cons.2 ⟨ha, hn⟩
    have := h1.length_le_card
    rw [List.length_cons, Fintype.card_fin] at this
    omega

/-- **C167 fails for repeated atoms.** When one of two atoms is given twice the other one, which is no boson, has neither energy
nor forces of springs. -/
theorem repeated_frees_others (g : Par P 2) (qnm dist : Arr P 2) (fb : Fin P → ℕ → Fin 3 → ℝ) (vb : ℝ) (hP : P ≠ 1) (hb : g.bosons = [0, 0])
    (b : Fin P) (d : Fin 3) :
    vspring g qnm vb = vb ∧ fspring g dist fb b 1 d = 0 := by
  refine ⟨?_, ?_⟩
  · rw [vspring, if_neg hP, hb, if_neg (by decide), if_neg (by decide), zero_add]
  · rw [fspring, if_neg hP, hb, if_neg (by decide), if_neg (by decide)]

/-- **C167 fails for repeated atoms.** With three atoms the springs of the boson are taken away once too often. -/
theorem repeated_subtracted (g : Par P 3) (qnm : Arr P 3) (vb : ℝ) (hP : P ≠ 1) (ho : g.opens = []) (hm : ∀ a, 0 ≤ g.m a)
    (hb : g.bosons = [0, 0]) :
    vspring g qnm vb = 0.5 * (closed g qnm 1 + closed g qnm 2 - closed g qnm 0) + vb := by
  rw [vspring_eq g qnm vb hP ho hm (by rw [hb]; decide), hb, if_neg (by decide), Fin.sum_univ_three]
  simp only [List.map_cons, List.map_nil, List.sum_cons, List.sum_nil]
  ring

/-- **C167.** With more than one bead, bosons are never propagated as if they were distinguishable: the step ends with an
exception unless the propagator is the one that uses the spring forces, and there are no open paths. -/
theorem never_distinguishable (g : Par P N) (pr : Prop') (hP : P ≠ 1) (hb : g.bosons ≠ []) :
    branch g pr = if pr = .bab ∧ g.opens = [] then .babstep else .notImplemented := by
  unfold branch
  rw [if_neg hP, if_pos hb]
  by_cases h1 : pr = .bab <;> by_cases h2 : g.opens = [] <;> simp [h1, h2]

/-! ### The kinetic energy of some atoms -/

/-- The atoms that are meant by an argument. -/
def Meant (names : List String) : Arg → ℕ → Prop
  | .all, i => i < names.length
  | .index j, i => i < names.length ∧ (i : ℤ) = j
  | .label s, i => i < names.length ∧ names.getD i "" = s

instance (names : List String) (a : Arg) (i : ℕ) : Decidable (Meant names a i) := by
  cases a <;> unfold Meant <;> infer_instance

/-- Arguments that name atoms. -/
def Arg.Fine : Arg → Prop
  | .all => True
  | .index i => 0 ≤ i
  | .label s => s ≠ ""

theorem included_eq (names : List String) (a : Arg) (ha : a.Fine) (i : ℕ) : included names a i = decide (Meant names a i) := by
  rw [Bool.eq_iff_iff, decide_eq_true_eq]
  cases a with
  | all => simp [included, Meant, Arg.iatom, Arg.latom]
  | index j =>
    have : j ≠ -1 := by have : 0 ≤ j := ha; omega
    rw [included, Bool.and_eq_true, decide_eq_true_eq]
    refine and_congr_right fun _ => ?_
    rw [if_pos (by exact this), decide_eq_true_eq]
    exact Iff.rfl
  | label s =>
    have : s ≠ "" := ha
    rw [included, Bool.and_eq_true, decide_eq_true_eq]
    refine and_congr_right fun _ => ?_
    rw [if_neg (by exact fun h => h rfl), if_pos (by exact this), decide_eq_true_eq]
    exact eq_comm

theorem looped_iff (names : List String) (a : Arg) (i : ℕ) :
    looped names a i = true ↔ (match a with | .all => False | _ => True) → a.iatom = (i : ℤ) ∨ a.latom = names.getD i "" := by
  cases a <;> simp [looped]

theorem looped_eq (names : List String) (hn : ∀ x ∈ names, x ≠ "") (a : Arg) (i : ℕ) (h : i < names.length) :
    looped names a i = decide (Meant names a i) := by
  have h1 : names.getD i "" ≠ "" := by
    rw [List.getD_eq_getElem?_getD, List.getElem?_eq_getElem h]
    exact hn _ (List.getElem_mem h)
  rw [Bool.eq_iff_iff, decide_eq_true_eq, looped_iff]
  cases a with
  | all => exact ⟨fun _ => h, fun _ g => g.elim⟩
  | index j =>
    constructor
    · intro g
      rcases g trivial with g | g
      · exact ⟨h, g.symm⟩
      · exact absurd g.symm h1
    · exact fun g _ => Or.inl g.2.symm
  | label s =>
    constructor
    · intro g
      rcases g trivial with g | g
      · have : (-1 : ℤ) = i := g
        omega
      · exact ⟨h, g.symm⟩
    · exact fun g _ => Or.inr g.2.symm

/-- **C167.** The kinetic energy of some atoms is refused when they are some but not all of the bosons; otherwise it is the sum over
those that are no bosons, with the energy of the bosons when they are meant. -/
theorem kinetic_of (names : List String) (hn : ∀ x ∈ names, x ≠ "") (bosons : List ℕ) (k : ℕ → ℝ) (kb : ℝ) (a : Arg) (ha : a.Fine)
    (hi : a.iatom < names.length) :
    kintd names bosons k kb a =
      if (∃ i ∈ bosons, Meant names a i) ∧ ∃ i ∈ bosons, ¬ Meant names a i then none
      else some ((∑ i ∈ range names.length with Meant names a i ∧ i ∉ bosons, k i)
        + if ∃ i ∈ bosons, Meant names a i then kb else 0) := by
  have h1 : bosons.any (included names a) = decide (∃ i ∈ bosons, Meant names a i) := by
    rw [Bool.eq_iff_iff, List.any_eq_true, decide_eq_true_eq]
    simp only [included_eq names a ha, decide_eq_true_eq]
  have h2 : (!bosons.all (included names a)) = decide (∃ i ∈ bosons, ¬ Meant names a i) := by
    rw [Bool.eq_iff_iff, decide_eq_true_eq, Bool.not_eq_true', ← Bool.not_eq_true, List.all_eq_true]
    simp only [included_eq names a ha, decide_eq_true_eq]
    push Not
    rfl
  have h3 : (((List.range names.length).filter fun i => looped names a i && !bosons.contains i).map k).sum
      = ∑ i ∈ range names.length with Meant names a i ∧ i ∉ bosons, k i := by
    rw [← List.sum_toFinset _ (List.nodup_range.filter _)]
    refine sum_congr ?_ fun _ _ => rfl
    ext i
    simp only [List.mem_toFinset, List.mem_filter, List.mem_range, Finset.mem_filter, Finset.mem_range, Bool.and_eq_true,
      Bool.not_eq_true']
    refine and_congr_right fun hl => ?_
    rw [looped_eq names hn a i hl, decide_eq_true_eq, ← Bool.not_eq_true, List.contains_iff_mem]
  rw [kintd, if_neg (by omega), h1, h2, h3]
  by_cases e1 : ∃ i ∈ bosons, Meant names a i <;> by_cases e2 : ∃ i ∈ bosons, ¬ Meant names a i <;> simp [e1, e2]

/-- An index that is too large is refused. -/
theorem too_large (names : List String) (bosons : List ℕ) (k : ℕ → ℝ) (kb : ℝ) (i : ℤ) (h : (names.length : ℤ) ≤ i) :
    kintd names bosons k kb (.index i) = none := by
  rw [kintd, if_pos (by exact h)]

/-- **C167 fails for the index -1.** The kinetic energy of the atom -1 is that of all bosons. -/
theorem minus_one_is_all_bosons (names : List String) (hn : ∀ x ∈ names, x ≠ "") (bosons : List ℕ) (k : ℕ → ℝ) (kb : ℝ)
    (hb : bosons ≠ []) (hi : ∀ i ∈ bosons, i < names.length) :
    kintd names bosons k kb (.index (-1)) = some kb := by
  have h1 : ∀ i ∈ bosons, included names (.index (-1)) i = true := by
    intro i h
    simp [included, Arg.iatom, Arg.latom, hi i h]
  have h2 : bosons.any (included names (.index (-1))) = true := by
    obtain ⟨x, hx⟩ := List.exists_mem_of_ne_nil _ hb
    exact List.any_eq_true.2 ⟨x, hx, h1 x hx⟩
  have h3 : bosons.all (included names (.index (-1))) = true := List.all_eq_true.2 h1
  have h4 : ((List.range names.length).filter fun i => looped names (.index (-1)) i && !bosons.contains i) = [] := by
    rw [List.filter_eq_nil_iff]
    intro i hl
    rw [looped_eq names hn _ i (List.mem_range.1 hl)]
    have : ¬ Meant names (.index (-1)) i := by
      unfold Meant
      omega
    simp [this]
  rw [kintd, if_neg (by unfold Arg.iatom; simp only; omega), h2, h3, h4]
  simp

example : kintd ["H", "O", "H"] [0, 2] (fun _ => 1) 5 .all = some 6 := by
  rw [kinetic_of _ (by decide) _ _ _ .all trivial (by decide), if_neg (by unfold Meant; decide), if_pos (by unfold Meant; decide)]
  have : (range 3).filter (fun i => Meant ["H", "O", "H"] .all i ∧ i ∉ [0, 2]) = {1} := by decide +kernel
  rw [show ["H", "O", "H"].length = 3 from rfl, this]
  norm_num

example : kintd ["H", "O", "H"] [0, 2] (fun _ => 1) 5 (.index 0) = none := by
  rw [kinetic_of _ (by decide) _ _ _ _ (by unfold Arg.Fine; decide) (by decide), if_pos (by unfold Meant; decide)]

/-- **C167.** An open path of a distinguishable atom has the frequencies of an open path, in place of those of a closed one. -/
theorem open_frequencies (g : Par P N) (qnm : Arr P N) (vb : ℝ) (hP : P ≠ 1) (j : Fin N) (ho : g.opens = [j]) (hb : g.bosons = [])
    (hm : ∀ a, 0 ≤ g.m a) :
    vspring g qnm vb = 0.5 * (∑ a ∈ univ.erase j, closed g qnm a
      + ∑ k, g.m j * g.ow k ^ 2 * (qnm k j 0 ^ 2 + qnm k j 1 ^ 2 + qnm k j 2 ^ 2)) := by
  have hN : 0 < N := lt_of_le_of_lt (Nat.zero_le _) j.2
  have e : closed g qnm j + opened g qnm j = ∑ k, g.m j * g.ow k ^ 2 * (qnm k j 0 ^ 2 + qnm k j 1 ^ 2 + qnm k j 2 ^ 2) := by
    unfold closed opened
    rw [← sum_add_distrib]
    exact sum_congr rfl fun k _ => by ring
  rw [vspring, if_neg hP, if_pos (by rw [hb]; exact hN), total_eq g qnm hm, ho, hb, if_pos rfl, ← e,
    ← add_sum_erase univ (closed g qnm) (mem_univ j)]
  simp only [List.map_cons, List.map_nil, List.sum_cons, List.sum_nil]
  ring

end Verif.Boson
