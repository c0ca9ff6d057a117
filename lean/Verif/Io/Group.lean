import Verif.Text.Model
/-
Grouping of a list by a key, in the order of first occurrence: what happens to the children of an XML element when they are stored in a
dictionary of lists.
-/
namespace Verif.Group
open Verif.Text

variable {α β : Type}

/-- Add one element to its group, or start a new group at the end. -/
def insertG (key : α → Str) : List (Str × List α) → α → List (Str × List α)
  | [], a => [(key a, [a])]
  | g :: gs, a => if g.1 = key a then (g.1, g.2 ++ [a]) :: gs else g :: insertG key gs a

def groupsFrom (key : α → Str) (gs : List (Str × List α)) (l : List α) : List (Str × List α) := l.foldl (insertG key) gs

/-- The groups of a list. -/
def groups (key : α → Str) (l : List α) : List (Str × List α) := groupsFrom key [] l

/-- The list with elements of the same key put together. -/
def regroup (key : α → Str) (l : List α) : List α := (groups key l).flatMap (·.2)

/-- Keys are distinct, each group is nonempty and has its key. -/
structure Wf (key : α → Str) (gs : List (Str × List α)) : Prop where
  nodup : (gs.map (·.1)).Nodup
  keys : ∀ g ∈ gs, g.2 ≠ [] ∧ ∀ a ∈ g.2, key a = g.1

theorem insertG_names (key : α → Str) (gs : List (Str × List α)) (a : α) : ∀ n, n ∈ (insertG key gs a).map (·.1) ↔ n ∈ gs.map (·.1) ∨ n = key a := by
  intro n
  induction gs with
  | nil => simp [insertG]
  | cons g gs ih =>
    simp only [insertG]
    split
    · rename_i h
      simp only [List.map_cons, List.mem_cons]
      constructor
      · exact fun h => .inl h
      · rintro (h' | rfl)
        · exact h'
        · exact .inl h.symm
    · simp only [List.map_cons, List.mem_cons, ih, or_assoc]

theorem insertG_wf {key : α → Str} {gs : List (Str × List α)} (h : Wf key gs) (a : α) : Wf key (insertG key gs a) := by
  induction gs with
  | nil => exact ⟨by simp [insertG], by simp [insertG]⟩
  | cons g gs ih =>
    have hn := h.nodup
    simp only [List.map_cons, List.nodup_cons] at hn
    have hr : Wf key gs := ⟨hn.2, fun x hx => h.keys x (List.mem_cons_of_mem _ hx)⟩
    simp only [insertG]
    split
    · rename_i he
      refine ⟨by simpa using hn, ?_⟩
      intro x hx
      rcases List.mem_cons.1 hx with rfl | hx
      · refine ⟨by simp, ?_⟩
        intro b hb
        rcases List.mem_append.1 hb with hb | hb
        · exact (h.keys g List.mem_cons_self).2 b hb
        · simp only [List.mem_singleton] at hb
          subst hb
          exact he.symm
      · exact h.keys x (List.mem_cons_of_mem _ hx)
    · rename_i he
      have := ih hr
      refine ⟨?_, ?_⟩
      · simp only [List.map_cons, List.nodup_cons]
        refine ⟨?_, this.nodup⟩
        rw [insertG_names]
        rintro (h' | h')
        · exact hn.1 h'
        · exact he h'
      · intro x hx
        rcases List.mem_cons.1 hx with rfl | hx
        · exact h.keys _ List.mem_cons_self
        · exact this.keys x hx

theorem groupsFrom_wf {key : α → Str} {gs : List (Str × List α)} (h : Wf key gs) (l : List α) : Wf key (groupsFrom key gs l) := by
  induction l generalizing gs with
  | nil => exact h
  | cons a l ih => exact ih (insertG_wf h a)

theorem groups_wf (key : α → Str) (l : List α) : Wf key (groups key l) := groupsFrom_wf ⟨by simp, by simp⟩ l

/-- Selecting one key in a well formed set of groups gives that group. -/
theorem insertG_filter {key : α → Str} {gs : List (Str × List α)} (h : Wf key gs) (a : α) (n : Str) :
    ((insertG key gs a).flatMap (·.2)).filter (fun x => key x = n) = (gs.flatMap (·.2)).filter (fun x => key x = n) ++ [a].filter (fun x => key x = n) := by
  induction gs with
  | nil => simp [insertG]
  | cons g gs ih =>
    have hn := h.nodup
    simp only [List.map_cons, List.nodup_cons] at hn
    have hr : Wf key gs := ⟨hn.2, fun x hx => h.keys x (List.mem_cons_of_mem _ hx)⟩
    simp only [insertG]
    split
    · rename_i he
      simp only [List.flatMap_cons, List.filter_append]
      by_cases hk : key a = n
      · have : (gs.flatMap (·.2)).filter (fun x => key x = n) = [] := by
          rw [List.filter_eq_nil_iff]
          intro x hx
          obtain ⟨g', hg', hx⟩ := List.mem_flatMap.1 hx
          rw [(hr.keys g' hg').2 x hx]
          simp only [decide_eq_true_eq]
          intro e
          exact hn.1 (by rw [he, hk, ← e]; exact List.mem_map_of_mem hg')
        rw [this]
        simp
      · have h2 : [a].filter (fun x => key x = n) = [] := by simp [hk]
        rw [h2]
        simp
    · simp only [List.flatMap_cons, List.filter_append, ih hr, List.append_assoc]

theorem groupsFrom_filter {key : α → Str} {gs : List (Str × List α)} (h : Wf key gs) (l : List α) (n : Str) :
    ((groupsFrom key gs l).flatMap (·.2)).filter (fun x => key x = n) = (gs.flatMap (·.2)).filter (fun x => key x = n) ++ l.filter (fun x => key x = n) := by
  induction l generalizing gs with
  | nil => simp [groupsFrom]
  | cons a l ih =>
    show ((groupsFrom key (insertG key gs a) l).flatMap (·.2)).filter _ = _
    rw [ih (insertG_wf h a), insertG_filter h]
    rw [List.append_assoc, ← List.filter_append]
    rfl

/-- The elements of one key stay in order. -/
theorem regroup_filter (key : α → Str) (l : List α) (n : Str) : (regroup key l).filter (fun x => key x = n) = l.filter (fun x => key x = n) := by
  have := groupsFrom_filter (key := key) (gs := []) ⟨by simp, by simp⟩ l n
  simpa [regroup, groups] using this

theorem insertG_perm (key : α → Str) (gs : List (Str × List α)) (a : α) :
    ((insertG key gs a).flatMap (·.2)).Perm (gs.flatMap (·.2) ++ [a]) := by
  induction gs with
  | nil => simp [insertG]
  | cons g gs ih =>
    simp only [insertG]
    split
    · simp only [List.flatMap_cons, List.append_assoc]
      exact List.Perm.append_left _ List.perm_append_comm
    · simp only [List.flatMap_cons, List.append_assoc]
      exact List.Perm.append_left _ ih

/-- Nothing is lost or duplicated. -/
theorem regroup_perm (key : α → Str) (l : List α) : (regroup key l).Perm l := by
  have : ∀ (l : List α) (gs : List (Str × List α)), ((groupsFrom key gs l).flatMap (·.2)).Perm (gs.flatMap (·.2) ++ l) := by
    intro l
    induction l with
    | nil => intro gs; simp [groupsFrom]
    | cons a l ih =>
      intro gs
      refine (ih (insertG key gs a)).trans ?_
      have h := (insertG_perm key gs a).append_right l
      simpa using h
  simpa [regroup, groups] using this l []

theorem insertG_map {key : α → Str} {key' : β → Str} {f : α → β} (hf : ∀ a, key' (f a) = key a) (gs : List (Str × List α)) (a : α) :
    insertG key' (gs.map fun g => (g.1, g.2.map f)) (f a) = (insertG key gs a).map fun g => (g.1, g.2.map f) := by
  induction gs with
  | nil => simp [insertG, hf]
  | cons g gs ih =>
    simp only [List.map_cons, insertG, hf]
    split
    · simp
    · simp only [List.map_cons, ih]

theorem groups_map {key : α → Str} {key' : β → Str} {f : α → β} (hf : ∀ a, key' (f a) = key a) (l : List α) :
    groups key' (l.map f) = (groups key l).map fun g => (g.1, g.2.map f) := by
  have : ∀ (l : List α) (gs : List (Str × List α)), groupsFrom key' (gs.map fun g => (g.1, g.2.map f)) (l.map f) =
      (groupsFrom key gs l).map fun g => (g.1, g.2.map f) := by
    intro l
    induction l with
    | nil => intro gs; rfl
    | cons a l ih =>
      intro gs
      show groupsFrom key' (insertG key' (gs.map fun g => (g.1, g.2.map f)) (f a)) (l.map f) = _
      rw [insertG_map hf, ih]
      rfl
  exact this l []

theorem regroup_map {key : α → Str} {key' : β → Str} {f : α → β} (hf : ∀ a, key' (f a) = key a) (l : List α) :
    regroup key' (l.map f) = (regroup key l).map f := by
  simp only [regroup, groups_map hf, List.map_flatMap, List.flatMap_map]

/-- If elements with the same key are already together, nothing moves. -/
theorem regroup_block (key : α → Str) (n : Str) (l : List α) (h : ∀ a ∈ l, key a = n) : regroup key l = l := by
  have : ∀ (l pre : List α), (∀ a ∈ l, key a = n) → groupsFrom key [(n, pre)] l = [(n, pre ++ l)] := by
    intro l
    induction l with
    | nil => intro pre _; simp [groupsFrom]
    | cons a l ih =>
      intro pre h
      show groupsFrom key (insertG key [(n, pre)] a) l = _
      simp only [insertG, h a List.mem_cons_self, if_true]
      rw [ih _ (fun b hb => h b (List.mem_cons_of_mem _ hb))]
      simp
  cases l with
  | nil => rfl
  | cons a l =>
    simp only [regroup, groups]
    show (groupsFrom key (insertG key [] a) l).flatMap (·.2) = _
    simp only [insertG, h a List.mem_cons_self]
    rw [this l [a] (fun b hb => h b (List.mem_cons_of_mem _ hb))]
    simp

/-- If all keys differ, nothing moves. -/
theorem regroup_distinct (key : α → Str) (l : List α) (h : (l.map key).Nodup) : regroup key l = l := by
  have hi : ∀ (gs : List (Str × List α)) (a : α), key a ∉ gs.map (·.1) → insertG key gs a = gs ++ [(key a, [a])] := by
    intro gs a
    induction gs with
    | nil => intro _; rfl
    | cons g gs ih =>
      intro hm
      simp only [List.map_cons, List.mem_cons, not_or] at hm
      simp only [insertG, if_neg (Ne.symm hm.1), ih hm.2, List.cons_append]
  have : ∀ (l : List α) (gs : List (Str × List α)), (gs.map (·.1) ++ l.map key).Nodup → groupsFrom key gs l = gs ++ l.map fun a => (key a, [a]) := by
    intro l
    induction l with
    | nil => intro gs _; simp [groupsFrom]
    | cons a l ih =>
      intro gs hn
      show groupsFrom key (insertG key gs a) l = _
      have h1 : key a ∉ gs.map (·.1) := by
        rw [List.nodup_append] at hn
        exact fun hm => hn.2.2 _ hm (key a) (by simp) rfl
      rw [hi gs a h1, ih]
      · simp
      · simpa using hn
  rw [regroup, groups, this l [] (by simpa using h)]
  simp [List.flatMap_map]

end Verif.Group

namespace Verif.Group
open Verif.Text

variable {α β : Type}

theorem insertG_keep {key : α → Str} (p : Str → Bool) (gs : List (Str × List α)) (a : α) :
    (insertG key gs a).filter (fun g => p g.1) = if p (key a) then insertG key (gs.filter fun g => p g.1) a else gs.filter fun g => p g.1 := by
  induction gs with
  | nil => by_cases h : p (key a) <;> simp [insertG, h]
  | cons g gs ih =>
    simp only [insertG]
    by_cases he : g.1 = key a
    · rw [if_pos he]
      by_cases h : p (key a)
      · have hg : p g.1 = true := by rw [he]; exact h
        rw [if_pos h, List.filter_cons_of_pos (by simpa using hg), List.filter_cons_of_pos (by simpa using hg)]
        simp only [insertG, if_pos he]
      · have hg : p g.1 = false := by rw [he]; simpa using h
        rw [if_neg h, List.filter_cons_of_neg (by simp [hg]), List.filter_cons_of_neg (by simp [hg])]
    · rw [if_neg he]
      by_cases hg : p g.1
      · rw [List.filter_cons_of_pos (by simpa using hg), List.filter_cons_of_pos (by simpa using hg), ih]
        by_cases h : p (key a)
        · simp only [if_pos h, insertG, if_neg he]
        · simp only [if_neg h]
      · rw [List.filter_cons_of_neg (by simpa using hg), List.filter_cons_of_neg (by simpa using hg), ih]

/-- Dropping whole keys commutes with grouping. -/
theorem regroup_keep (key : α → Str) (p : Str → Bool) (l : List α) : (regroup key l).filter (fun a => p (key a)) = regroup key (l.filter fun a => p (key a)) := by
  have h1 : ∀ (l : List α) (gs : List (Str × List α)), (groupsFrom key gs l).filter (fun g => p g.1) = groupsFrom key (gs.filter fun g => p g.1) (l.filter fun a => p (key a)) := by
    intro l
    induction l with
    | nil => intro gs; rfl
    | cons a l ih =>
      intro gs
      show (groupsFrom key (insertG key gs a) l).filter _ = _
      rw [ih, insertG_keep]
      by_cases h : p (key a)
      · rw [if_pos h, List.filter_cons_of_pos (by simpa using h)]; rfl
      · rw [if_neg h, List.filter_cons_of_neg (by simpa using h)]
  have h2 : ∀ (gs : List (Str × List α)), Wf key gs → (gs.flatMap (·.2)).filter (fun a => p (key a)) = (gs.filter fun g => p g.1).flatMap (·.2) := by
    intro gs
    induction gs with
    | nil => intro _; rfl
    | cons g gs ih =>
      intro hw
      have hn := hw.nodup
      simp only [List.map_cons, List.nodup_cons] at hn
      have ih' := ih ⟨hn.2, fun x hx => hw.keys x (List.mem_cons_of_mem _ hx)⟩
      have hk := (hw.keys g List.mem_cons_self).2
      rw [List.flatMap_cons, List.filter_append, ih']
      by_cases h : p g.1
      · rw [List.filter_cons_of_pos (by simpa using h), List.flatMap_cons]
        congr 1
        rw [List.filter_eq_self]
        intro a ha
        rw [hk a ha]; simpa using h
      · rw [List.filter_cons_of_neg (by simpa using h)]
        have : g.2.filter (fun a => p (key a)) = [] := by
          rw [List.filter_eq_nil_iff]
          intro a ha
          rw [hk a ha]; exact h
        rw [this, List.nil_append]
  have h3 := h2 (groups key l) (groups_wf key l)
  rw [regroup, h3]
  have h4 := h1 l []
  rw [regroup]
  simp only [groups] at h4 ⊢
  rw [h4]
  rfl

end Verif.Group
