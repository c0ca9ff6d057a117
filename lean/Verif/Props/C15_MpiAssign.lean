import Verif.Mpi.Model
import Verif.Util
/-
C15: MPI driver roots are partitioned among the force fields.
-/
namespace Verif.Mpi

/-! ### helpers -/

theorem insertSorted_perm (x : Nat) (l : List Nat) : (insertSorted x l).Perm (x :: l) := by
  induction l with
  | nil => exact .refl _
  | cons y ys ih =>
    unfold insertSorted
    split
    · exact .refl _
    · exact (ih.cons y).trans (.swap x y ys)

theorem sorted_perm (l : List Nat) : (sorted l).Perm l := by
  induction l with
  | nil => exact .refl _
  | cons x l ih => exact (insertSorted_perm x _).trans (ih.cons x)

theorem mem_sorted {x : Nat} {l : List Nat} : x ∈ sorted l ↔ x ∈ l := (sorted_perm l).mem_iff

theorem lookup_addRoot (b : List (String × List Rank)) (name : String) (r : Rank) (n : String) :
    lookup (addRoot b name r) n = if n = name then lookup b n ++ [r] else lookup b n := by
  induction b with
  | nil =>
    simp only [addRoot, lookup]
    by_cases h : n = name
    · simp [h]
    · simp [h, Ne.symm h]
  | cons x b ih =>
    obtain ⟨m, rs⟩ := x
    unfold addRoot
    split
    · rename_i h
      subst h
      by_cases h2 : n = m
      · simp [lookup, h2]
      · simp [lookup, h2, Ne.symm h2]
    · rename_i h
      simp only [lookup]
      by_cases h2 : m = n
      · rw [if_pos h2, if_pos h2, if_neg (by rw [← h2]; exact h)]
      · rw [if_neg h2, if_neg h2, ih]

theorem lookup_buckets (hellos : List (String × Rank)) (n : String) :
    lookup (buckets hellos) n = (hellos.filter (fun h => h.1 = n)).map (·.2) := by
  have : ∀ b, lookup (hellos.foldl (fun b h => addRoot b h.1 h.2) b) n =
      lookup b n ++ (hellos.filter (fun h => h.1 = n)).map (·.2) := by
    induction hellos with
    | nil => intro b; simp
    | cons h hs ih =>
      intro b
      rw [List.foldl_cons, ih, lookup_addRoot]
      by_cases e : n = h.1
      · simp [e]
      · rw [if_neg e, List.filter_cons_of_neg (by simp; exact fun e' => e e'.symm)]
  simpa [buckets, lookup] using this []

theorem names_addRoot (b : List (String × List Rank)) (name : String) (r : Rank) :
    ((addRoot b name r).map (·.1)) = if name ∈ b.map (·.1) then b.map (·.1) else b.map (·.1) ++ [name] := by
  induction b with
  | nil => simp [addRoot]
  | cons x b ih =>
    obtain ⟨m, rs⟩ := x
    unfold addRoot
    split
    · rename_i h; subst h; simp
    · rename_i h
      simp only [List.map_cons, ih, List.mem_cons]
      by_cases h2 : name ∈ b.map (·.1)
      · rw [if_pos h2, if_pos (.inr h2)]
      · rw [if_neg h2, if_neg (by rintro (e | e); exact h e.symm; exact h2 e)]; rfl

theorem names_buckets (hellos : List (String × Rank)) : ((buckets hellos).map (·.1)).Nodup ∧
    ∀ n, n ∈ (buckets hellos).map (·.1) ↔ n ∈ hellos.map (·.1) := by
  have : ∀ b : List (String × List Rank), (b.map (·.1)).Nodup →
      ((hellos.foldl (fun b h => addRoot b h.1 h.2) b).map (·.1)).Nodup ∧
      ∀ n, n ∈ (hellos.foldl (fun b h => addRoot b h.1 h.2) b).map (·.1) ↔ n ∈ b.map (·.1) ∨ n ∈ hellos.map (·.1) := by
    induction hellos with
    | nil => intro b hb; exact ⟨hb, by simp⟩
    | cons h hs ih =>
      intro b hb
      rw [List.foldl_cons]
      have hn := names_addRoot b h.1 h.2
      obtain ⟨i1, i2⟩ := ih (addRoot b h.1 h.2) (by
        rw [hn]; split
        · exact hb
        · rename_i hnot
          rw [List.nodup_append]
          refine ⟨hb, by simp, ?_⟩
          intro a ha c hc e
          simp at hc
          exact hnot (by rw [← hc, ← e]; exact ha))
      refine ⟨i1, fun n => ?_⟩
      rw [i2, hn]
      split
      · rename_i hin
        constructor
        · rintro (h1 | h1)
          · exact .inl h1
          · exact .inr (by simp only [List.map_cons, List.mem_cons]; exact .inr h1)
        · rintro (h1 | h1)
          · exact .inl h1
          · simp only [List.map_cons, List.mem_cons] at h1
            rcases h1 with h1 | h1
            · exact .inl (by rw [h1]; exact hin)
            · exact .inr h1
      · simp only [List.mem_append, List.map_cons, List.mem_cons, List.not_mem_nil, or_false, or_assoc]
  have := this [] (by simp)
  simpa [buckets] using this

theorem lookup_map (b : List (String × List Rank)) (n : String) : lookup (b.map fun x => (x.1, sorted x.2)) n = sorted (lookup b n) := by
  induction b with
  | nil => rfl
  | cons x b ih =>
    simp only [List.map_cons, lookup]
    split
    · rfl
    · exact ih

theorem flatMap_perm (hellos : List (String × Rank)) : ((buckets hellos).flatMap (·.2)).Perm (hellos.map (·.2)) := by
  have key : ∀ (b : List (String × List Rank)) (name : String) (r : Rank), ((addRoot b name r).flatMap (·.2)).Perm (b.flatMap (·.2) ++ [r]) := by
    intro b name r
    induction b with
    | nil => simp [addRoot]
    | cons x b ih =>
      obtain ⟨m, rs⟩ := x
      unfold addRoot
      split
      · simp only [List.flatMap_cons, List.append_assoc]
        exact List.Perm.append_left rs List.perm_append_comm
      · simp only [List.flatMap_cons, List.append_assoc]
        exact List.Perm.append_left rs ih
  have : ∀ b : List (String × List Rank), ((hellos.foldl (fun b h => addRoot b h.1 h.2) b).flatMap (·.2)).Perm (b.flatMap (·.2) ++ hellos.map (·.2)) := by
    induction hellos with
    | nil => intro b; simp
    | cons h hs ih =>
      intro b
      rw [List.foldl_cons]
      refine (ih _).trans ?_
      simp only [List.map_cons]
      refine (List.Perm.append_right _ (key b h.1 h.2)).trans ?_
      rw [List.append_assoc]
      exact .refl _
  simpa [buckets] using this []

/-! ### the property -/

/-- The drivers that asked for a force field by name, in order of arrival. -/
def askedFor (hellos : List (String × Rank)) (n : String) : List Rank := (hellos.filter (fun h => h.1 = n)).map (·.2)

/-- A configuration makes sense: with several force fields every driver names a registered one, and every force field is named
by some driver. -/
def Consistent (names : List String) (hellos : List (String × Rank)) : Prop :=
  (∀ h ∈ hellos, h.1 ≠ "" ∧ h.1 ∈ names) ∧ ∀ n ∈ names, ∃ h ∈ hellos, h.1 = n

/-- Several force fields: assignment succeeds exactly for consistent configurations, and then every force field gets the
drivers that asked for it, and only these. -/
theorem assign_several (names : List String) (hellos : List (String × Rank)) (hlen : names.length ≠ 1) :
    ((∃ a, assign names (buckets hellos) = .ok a) ↔ Consistent names hellos) ∧
    ∀ a, assign names (buckets hellos) = .ok a → ∀ n, (rootsFor a n).Perm (askedFor hellos n) := by
  obtain ⟨hnd, hmem⟩ := names_buckets hellos
  have hany : ∀ p : String → Bool, ((buckets hellos).any (fun x => p x.1) = true ↔ ∃ h ∈ hellos, p h.1 = true) := by
    intro p
    rw [List.any_eq_true]
    constructor
    · rintro ⟨x, hx, hp⟩
      obtain ⟨h, hh, e⟩ := List.mem_map.1 ((hmem x.1).1 (List.mem_map.2 ⟨x, hx, rfl⟩))
      exact ⟨h, hh, by rw [e]; exact hp⟩
    · rintro ⟨h, hh, hp⟩
      obtain ⟨x, hx, e⟩ := List.mem_map.1 ((hmem h.1).2 (List.mem_map.2 ⟨h, hh, rfl⟩))
      exact ⟨x, hx, by rw [e]; exact hp⟩
  have hask : ∀ n, lookup (buckets hellos) n = askedFor hellos n := lookup_buckets hellos
  have h1 := hany (fun s => decide (s = ""))
  have h2 := hany (fun s => !names.contains s)
  have h3 : (names.any (fun n => (lookup (buckets hellos) n).isEmpty) = true) ↔ ∃ n ∈ names, ∀ h ∈ hellos, h.1 ≠ n := by
    rw [List.any_eq_true]
    constructor
    · rintro ⟨n, hn, he⟩
      refine ⟨n, hn, fun h hh e => ?_⟩
      rw [hask, List.isEmpty_iff] at he
      have : h.2 ∈ askedFor hellos n := List.mem_map.2 ⟨h, List.mem_filter.2 ⟨hh, by simp [e]⟩, rfl⟩
      rw [he] at this; cases this
    · rintro ⟨n, hn, he⟩
      refine ⟨n, hn, ?_⟩
      rw [hask, List.isEmpty_iff]
      unfold askedFor
      rw [List.filter_eq_nil_iff.2 (fun h hh => by simpa using he h hh)]
      rfl
  unfold assign
  rw [if_neg hlen]
  constructor
  · constructor
    · rintro ⟨a, ha⟩
      split at ha
      · cases ha
      · rename_i n1
        split at ha
        · cases ha
        · rename_i n2
          split at ha
          · cases ha
          · rename_i n3
            refine ⟨fun h hh => ⟨fun e => n1 (h1.2 ⟨h, hh, by simp [e]⟩), ?_⟩, fun n hn => ?_⟩
            · have := mt h2.2 n2
              simp only [not_exists, not_and] at this
              have := this h hh
              simpa using this
            · have := mt h3.2 n3
              simp only [not_exists, not_and] at this
              have := this n hn
              simpa using this
    · rintro ⟨c1, c2⟩
      rw [if_neg, if_neg, if_neg]
      · exact ⟨_, rfl⟩
      · rw [h3]; rintro ⟨n, hn, he⟩
        obtain ⟨h, hh, e⟩ := c2 n hn
        exact he h hh e
      · rw [h2]; rintro ⟨h, hh, he⟩
        have := (c1 h hh).2
        simp [this] at he
      · rw [h1]; rintro ⟨h, hh, he⟩
        exact (c1 h hh).1 (by simpa using he)
  · intro a ha n
    split at ha
    · cases ha
    · split at ha
      · cases ha
      · split at ha
        · cases ha
        · injection ha with ha
          subst ha
          rw [rootsFor, lookup_map, hask]
          exact sorted_perm _

/-- A single force field gets all drivers, whatever they were tagged with, and nothing is rejected. -/
theorem assign_single (name : String) (hellos : List (String × Rank)) :
    ∃ a, assign [name] (buckets hellos) = .ok a ∧ (rootsFor a name).Perm (hellos.map (·.2)) := by
  refine ⟨_, rfl, ?_⟩
  simp only [rootsFor, List.headD, lookup, if_true]
  exact (sorted_perm _).trans (flatMap_perm hellos)

/-- No driver serves two force fields, and none is left out, when assignment succeeds. -/
theorem assign_partition (names : List String) (hellos : List (String × Rank)) (hnodup : (hellos.map (·.2)).Nodup)
    (hlen : names.length ≠ 1) (a : List (String × List Rank)) (ha : assign names (buckets hellos) = .ok a) :
    (∀ h ∈ hellos, h.1 ∈ names ∧ h.2 ∈ rootsFor a h.1) ∧
    ∀ n m r, r ∈ rootsFor a n → r ∈ rootsFor a m → n = m := by
  obtain ⟨h1, h2⟩ := assign_several names hellos hlen
  have hc := h1.1 ⟨a, ha⟩
  constructor
  · intro h hh
    exact ⟨(hc.1 h hh).2, (h2 a ha h.1).mem_iff.2 (List.mem_map.2 ⟨h, List.mem_filter.2 ⟨hh, by simp⟩, rfl⟩)⟩
  · intro n m r hn hm
    obtain ⟨x, hx, ex⟩ := List.mem_map.1 ((h2 a ha n).mem_iff.1 hn)
    obtain ⟨y, hy, ey⟩ := List.mem_map.1 ((h2 a ha m).mem_iff.1 hm)
    have hx' := List.mem_filter.1 hx
    have hy' := List.mem_filter.1 hy
    have inj : ∀ (l : List (String × Rank)), (l.map (·.2)).Nodup → ∀ x ∈ l, ∀ y ∈ l, x.2 = y.2 → x = y := by
      intro l
      induction l with
      | nil => intro _ x hx; cases hx
      | cons z l ih =>
        intro hnd x hx y hy e
        simp only [List.map_cons, List.nodup_cons] at hnd
        rcases List.mem_cons.1 hx with h1 | hx <;> rcases List.mem_cons.1 hy with h2 | hy
        · rw [h1, h2]
        · exact absurd (List.mem_map.2 ⟨y, hy, by rw [← e, h1]⟩) hnd.1
        · exact absurd (List.mem_map.2 ⟨x, hx, by rw [e, h2]⟩) hnd.1
        · exact ih hnd.2 x hx y hy e
    have := inj hellos hnodup x hx'.1 y hy'.1 (by rw [ex, ey])
    subst this
    have e1 : x.1 = n := by simpa using hx'.2
    have e2 : x.1 = m := by simpa using hy'.2
    rw [← e1, ← e2]

/-- Non-vacuity. -/
example : assign ["a", "b"] (buckets [("b", 3), ("a", 1), ("b", 2)]) = .ok [("b", [2, 3]), ("a", [1])] := by decide +kernel
example : assign ["a", "b"] (buckets [("b", 3), ("", 1)]) = .error .untagged := by decide +kernel
example : assign ["a", "b"] (buckets [("b", 3)]) = .error .noDrivers := by decide +kernel
example : assign ["a", "b"] (buckets [("b", 3), ("a", 1), ("c", 2)]) = .error .unknownName := by decide +kernel

end Verif.Mpi
