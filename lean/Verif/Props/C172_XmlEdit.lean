import Verif.Io.XmlEdit
import Mathlib.Data.List.Basic

/-!
# C172: editing an input file changes the tags that were asked for
-/

namespace Verif.XmlEdit

open Verif.Text

/-! ## Specification: the chains of names from the root to each tag -/

mutual

/-- The chains of names of a field and of all tags in it. -/
def chain : Tree → List (List Str)
  | .text _ => []
  | .tag n _ ks => [n] :: (chains ks).map (n :: ·)

/-- The chains of names of all tags in a list of fields. -/
def chains : List Tree → List (List Str)
  | [] => []
  | t :: ts => chain t ++ chains ts

end

/-- A chain of names contains the path: at its start, or (without `full_path`) with other tags
in between. -/
def Within (full : Bool) (path c : List Str) : Prop :=
  if full then path <+: c else path.Sublist c

instance (full : Bool) (path c : List Str) : Decidable (Within full path c) := by
  unfold Within; infer_instance

/-- The tag at the end of the chain is the one at which the path is found. -/
def Hit (full : Bool) (path c : List Str) : Prop :=
  Within full path c ∧ ¬ Within full path c.dropLast

instance (full : Bool) (path c : List Str) : Decidable (Hit full path c) := by
  unfold Hit; infer_instance

/-- The tags that stay. -/
def kept (mode : Mode) (full : Bool) (path : List Str) (cs : List (List Str)) : List (List Str) :=
  if mode = .add then cs else cs.filter (fun c => ¬ Within full path c)

/-- The tags of the new node, below the tags that were found or in their place. -/
def added (mode : Mode) (full : Bool) (new : Tree) (path : List Str) (cs : List (List Str)) :
    List (List Str) :=
  (cs.filter (fun c => Hit full path c)).flatMap fun m =>
    match mode with
    | .add => (chain new).map (m ++ ·)
    | .replace => (chain new).map (m.dropLast ++ ·)
    | _ => []

/-! ## Lemmas -/

theorem chains_append (a b : List Tree) : chains (a ++ b) = chains a ++ chains b := by
  induction a with
  | nil => rfl
  | cons t a ih => simp [chains, ih]

mutual

theorem chain_ne : ∀ (t : Tree), ∀ c ∈ chain t, c ≠ []
  | .text _ => by simp [chain]
  | .tag n _ ks => by
    intro c hc
    unfold chain at hc
    rcases List.mem_cons.1 hc with rfl | hc
    · simp
    · obtain ⟨d, -, rfl⟩ := List.mem_map.1 hc
      simp

theorem chains_ne : ∀ (ts : List Tree), ∀ c ∈ chains ts, c ≠ []
  | [] => by simp [chains]
  | t :: ts => by
    intro c hc
    unfold chains at hc
    rcases List.mem_append.1 hc with hc | hc
    · exact chain_ne t c hc
    · exact chains_ne ts c hc

end

theorem within_cons (full : Bool) (p : Str) (r c : List Str) :
    Within full (p :: r) (p :: c) ↔ Within full r c := by
  unfold Within
  cases full
  · simp
  · simp

theorem within_other (p n : Str) (r c : List Str) (h : n ≠ p) :
    Within false (p :: r) (n :: c) ↔ Within false (p :: r) c := by
  unfold Within
  simp only [Bool.false_eq_true, if_false]
  constructor
  · intro g
    cases g with
    | cons _ g => exact g
    | cons_cons _ g => exact absurd rfl h
  · intro g; exact g.cons _

theorem within_full_other (p n : Str) (r c : List Str) (h : n ≠ p) :
    ¬ Within true (p :: r) (n :: c) := by
  unfold Within
  simp only [if_true]
  rintro ⟨t, g⟩
  simp only [List.cons_append, List.cons.injEq] at g
  exact h g.1.symm

theorem within_nil (full : Bool) (p : Str) (r : List Str) : ¬ Within full (p :: r) [] := by
  unfold Within
  cases full <;> simp

theorem within_empty (full : Bool) (c : List Str) : Within full [] c := by
  unfold Within
  cases full <;> simp

/-- Going one tag down when neither this tag nor the path up to it ends the search. -/
theorem lift (mode : Mode) (full : Bool) (new : Tree) (n : Str) (path path' : List Str)
    (h : ∀ c, Within full path (n :: c) ↔ Within full path' c) (h0 : ¬ Within full path [n])
    (hnil : ¬ Within full path []) (cs : List (List Str)) (hne : ∀ c ∈ cs, c ≠ []) :
    kept mode full path ([n] :: cs.map (n :: ·)) = [n] :: (kept mode full path' cs).map (n :: ·) ∧
    added mode full new path ([n] :: cs.map (n :: ·))
      = (added mode full new path' cs).map (n :: ·) ∧
    ([n] :: cs.map (n :: ·)).countP (fun c => Hit full path c)
      = cs.countP (fun c => Hit full path' c) := by
  have hit0 : ¬ Hit full path [n] := fun g => h0 g.1
  have hit : ∀ c ∈ cs, (Hit full path (n :: c) ↔ Hit full path' c) := by
    intro c hc
    unfold Hit
    rw [h c, List.dropLast_cons_of_ne_nil (hne c hc), h]
  refine ⟨?_, ?_, ?_⟩
  · unfold kept
    split
    · rfl
    · rw [List.filter_cons_of_pos (by simpa using h0), List.filter_map]
      congr 2
      apply List.filter_congr
      intro c _
      simp only [Function.comp_apply, h c]
  · unfold added
    rw [List.filter_cons_of_neg (by simpa using hit0), List.filter_map, List.flatMap_map,
      List.map_flatMap]
    have e : List.filter ((fun c => decide (Hit full path c)) ∘ fun x => n :: x) cs
        = cs.filter (fun c => Hit full path' c) := by
      apply List.filter_congr
      intro c hc
      simp only [Function.comp_apply, hit c hc]
    rw [e]
    rw [List.flatMap_def, List.flatMap_def]
    congr 1
    refine List.map_congr_left (fun c hc => ?_)
    have hc' := hne c (List.mem_filter.1 hc).1
    cases mode with
    | add => simp
    | replace => simp [List.dropLast_cons_of_ne_nil hc']
    | remove => rfl
    | other => rfl
  · rw [List.countP_cons_of_neg (by simpa using hit0), List.countP_map]
    refine List.countP_congr (fun c hc => ?_)
    simp only [Function.comp_apply, hit c hc]

theorem kept_append (mode : Mode) (full : Bool) (path : List Str) (a b : List (List Str)) :
    kept mode full path (a ++ b) = kept mode full path a ++ kept mode full path b := by
  unfold kept
  split <;> simp

theorem added_append (mode : Mode) (full : Bool) (new : Tree) (path : List Str)
    (a b : List (List Str)) : added mode full new path (a ++ b)
      = added mode full new path a ++ added mode full new path b := by
  unfold added
  simp

/-- What the result of one step is. -/
def Good (mode : Mode) (full : Bool) (new : Tree) (path : List Str) (cs : List (List Str))
    (out : List (List Str)) (count : Nat) : Prop :=
  out.Perm (kept mode full path cs ++ added mode full new path cs) ∧
  count = cs.countP (fun c => Hit full path c)

theorem good_lift (mode : Mode) (full : Bool) (new : Tree) (n : Str) (path path' : List Str)
    (h : ∀ c, Within full path (n :: c) ↔ Within full path' c) (h0 : ¬ Within full path [n])
    (hnil : ¬ Within full path []) (cs : List (List Str)) (hne : ∀ c ∈ cs, c ≠ [])
    (out : List (List Str)) (k : Nat) (hg : Good mode full new path' cs out k) :
    Good mode full new path ([n] :: cs.map (n :: ·)) ([n] :: out.map (n :: ·)) k := by
  obtain ⟨l1, l2, l3⟩ := lift mode full new n path path' h h0 hnil cs hne
  refine ⟨?_, by rw [l3]; exact hg.2⟩
  rw [l1, l2, List.cons_append, ← List.map_append]
  exact (hg.1.map _).cons _

mutual

theorem editKid_good (mode : Mode) (full : Bool) (new : Tree) (hm : mode ≠ .other) :
    ∀ (t : Tree) (path : List Str), path ≠ [] →
      ∃ r, editKid mode full new path t = .ok r ∧
        Good mode full new path (chain t) (chains r.1.toList) r.2
  | .text s, path, _ => by
    refine ⟨(some (.text s), 0), by cases path <;> rfl, ?_, rfl⟩
    simp [chains, chain, kept, added]
  | .tag n as ks, [], h => absurd rfl h
  | .tag n as ks, p :: rest, _ => by
    unfold editKid
    by_cases hn : n = p
    · subst hn
      rw [if_pos rfl]
      by_cases hr : rest = []
      · subst hr
        rw [if_pos (by rfl)]
        have hall : ∀ c, Within full [n] (n :: c) := by
          intro c; rw [within_cons]; exact within_empty full c
        have h1 : Hit full [n] [n] := ⟨hall [], within_nil full n []⟩
        have h2 : ∀ c ∈ chains ks, ¬ Hit full [n] (n :: c) := by
          intro c hc g
          rw [Hit, List.dropLast_cons_of_ne_nil (chains_ne ks c hc)] at g
          exact g.2 (hall _)
        have hcount : (chain (.tag n as ks)).countP (fun c => Hit full [n] c) = 1 := by
          unfold chain
          rw [List.countP_cons_of_pos (by simpa using h1), List.countP_map]
          have : (chains ks).countP ((fun c => decide (Hit full [n] c)) ∘ fun x => n :: x) = 0 := by
            rw [List.countP_eq_zero]
            intro c hc
            simpa using h2 c hc
          rw [this]
        have hhits : (chain (.tag n as ks)).filter (fun c => Hit full [n] c) = [[n]] := by
          unfold chain
          rw [List.filter_cons_of_pos (by simpa using h1), List.filter_map]
          have : (chains ks).filter ((fun c => decide (Hit full [n] c)) ∘ fun x => n :: x) = [] := by
            rw [List.filter_eq_nil_iff]
            intro c hc
            simpa using h2 c hc
          rw [this]; rfl
        have hnone : (chain (.tag n as ks)).filter (fun c => ¬ Within full [n] c) = [] := by
          rw [List.filter_eq_nil_iff]
          intro c hc
          unfold chain at hc
          rcases List.mem_cons.1 hc with rfl | hc
          · simpa using hall []
          · obtain ⟨d, -, rfl⟩ := List.mem_map.1 hc
            simpa using hall d
        cases mode with
        | other => exact absurd rfl hm
        | add =>
          refine ⟨_, rfl, ?_, hcount.symm⟩
          unfold added
          rw [hhits]
          simp only [kept, if_true, Option.toList_some, chains, List.append_nil,
            List.flatMap_cons, List.flatMap_nil, chain, chains_append, List.map_append]
          rfl
        | remove =>
          refine ⟨_, rfl, ?_, hcount.symm⟩
          unfold added kept
          rw [if_neg (by decide), hnone, hhits]
          rfl
        | replace =>
          refine ⟨_, rfl, ?_, hcount.symm⟩
          unfold added kept
          rw [if_neg (by decide), hnone, hhits]
          simp [chains]
      · rw [if_neg (by simpa using hr)]
        obtain ⟨r, e, g⟩ := editKids_good mode full new hm ks rest hr
        rw [e]
        refine ⟨_, rfl, ?_⟩
        simp only [Option.toList_some, chains, List.append_nil, chain]
        have h0 : ¬ Within full (n :: rest) [n] := by
          rw [within_cons]
          obtain ⟨q, r', rfl⟩ := List.exists_cons_of_ne_nil hr
          exact within_nil full q r'
        exact good_lift mode full new n (n :: rest) rest (fun c => within_cons full n rest c) h0
          (within_nil full n rest) _ (chains_ne ks) _ _ g
    · rw [if_neg hn]
      cases full with
      | false =>
        rw [if_pos (by rfl)]
        obtain ⟨r, e, g⟩ := editKids_good mode false new hm ks (p :: rest) (by simp)
        rw [e]
        refine ⟨_, rfl, ?_⟩
        simp only [Option.toList_some, chains, List.append_nil, chain]
        exact good_lift mode false new n (p :: rest) (p :: rest)
          (fun c => within_other p n rest c hn)
          (fun g => within_nil false p rest ((within_other p n rest [] hn).1 g))
          (within_nil false p rest) _ (chains_ne ks) _ _ g
      | true =>
        rw [if_neg (by decide)]
        refine ⟨_, rfl, ?_, ?_⟩
        · have hw : ∀ c ∈ chain (.tag n as ks), ¬ Within true (p :: rest) c := by
            intro c hc
            unfold chain at hc
            rcases List.mem_cons.1 hc with rfl | hc
            · exact within_full_other p n rest [] hn
            · obtain ⟨d, -, rfl⟩ := List.mem_map.1 hc
              exact within_full_other p n rest d hn
          have e1 : kept mode true (p :: rest) (chain (.tag n as ks)) = chain (.tag n as ks) := by
            unfold kept
            split
            · rfl
            · rw [List.filter_eq_self]
              intro c hc
              simpa using hw c hc
          have e2 : added mode true new (p :: rest) (chain (.tag n as ks)) = [] := by
            unfold added
            rw [List.filter_eq_nil_iff.2 (fun c hc => by
              simpa using fun g : Hit true (p :: rest) c => hw c hc g.1)]
            rfl
          rw [e1, e2]
          simp [chains]
        · symm
          rw [List.countP_eq_zero]
          intro c hc
          have hw : ¬ Within true (p :: rest) c := by
            unfold chain at hc
            rcases List.mem_cons.1 hc with rfl | hc
            · exact within_full_other p n rest [] hn
            · obtain ⟨d, -, rfl⟩ := List.mem_map.1 hc
              exact within_full_other p n rest d hn
          simpa using fun g : Hit true (p :: rest) c => hw g.1

theorem editKids_good (mode : Mode) (full : Bool) (new : Tree) (hm : mode ≠ .other) :
    ∀ (ts : List Tree) (path : List Str), path ≠ [] →
      ∃ r, editKids mode full new path ts = .ok r ∧
        Good mode full new path (chains ts) (chains r.1) r.2
  | [], path, _ => ⟨([], 0), by cases path <;> rfl, by simp [chains, kept, added], rfl⟩
  | t :: ts, path, hp => by
    obtain ⟨a, e1, g1⟩ := editKid_good mode full new hm t path hp
    obtain ⟨b, e2, g2⟩ := editKids_good mode full new hm ts path hp
    refine ⟨(a.1.toList ++ b.1, a.2 + b.2), ?_, ?_, ?_⟩
    · unfold editKids
      rw [e1, e2]
    · rw [chains_append, show chains (t :: ts) = chain t ++ chains ts from rfl, kept_append,
        added_append]
      refine (g1.1.append g2.1).trans ?_
      rw [List.append_assoc, List.append_assoc]
      refine List.Perm.append_left _ ?_
      rw [← List.append_assoc, ← List.append_assoc]
      exact List.Perm.append_right _ List.perm_append_comm
    · rw [show chains (t :: ts) = chain t ++ chains ts from rfl, List.countP_append, ← g1.2, ← g2.2]

end

/-! ## The property -/

/-- **C172.** For every path, `add`, `remove` and `replace` succeed; the number they give is
that of the tags at which the path is found, the tags that are left are all others, and the new
ones are those of the given node, once below (or in place of) each tag that was found. -/
theorem edit_correct (mode : Mode) (full : Bool) (new : Tree) (path : List Str) (ts : List Tree)
    (hm : mode ≠ .other) (hp : path ≠ []) :
    ∃ ts' n, editKids mode full new path ts = .ok (ts', n) ∧
      n = (chains ts).countP (fun c => Hit full path c) ∧
      (chains ts').Perm (kept mode full path (chains ts) ++ added mode full new path (chains ts)) := by
  obtain ⟨r, e, g⟩ := editKids_good mode full new hm ts path hp
  exact ⟨r.1, r.2, e, g.2, g.1⟩

/-- **C172.** With `full_path` the tags that are found are those with exactly this chain of
names. -/
theorem hit_full (path c : List Str) (hp : path ≠ []) : Hit true path c ↔ c = path := by
  unfold Hit Within
  simp only [if_true]
  constructor
  · rintro ⟨h1, h2⟩
    obtain ⟨t, rfl⟩ := h1
    by_cases ht : t = []
    · simp [ht]
    · exact absurd ⟨t.dropLast, by rw [List.dropLast_append_of_ne_nil ht]⟩ h2
  · rintro rfl
    refine ⟨List.prefix_rfl, fun h => ?_⟩
    have := h.length_le
    rw [List.length_dropLast] at this
    have := List.length_pos_iff.2 hp
    omega

/-- **C172.** With a single name and without `full_path` the tags that are found are the
outermost ones of this name. -/
theorem hit_one (p : Str) (c : List Str) :
    Hit false [p] c ↔ p ∈ c ∧ p ∉ c.dropLast := by
  unfold Hit Within
  simp

/-- **C172.** After `remove` the path is not found any more, and a second `remove` changes
nothing. -/
theorem removed (full : Bool) (new : Tree) (path : List Str) (ts ts' : List Tree) (n : Nat)
    (hp : path ≠ []) (h : editKids .remove full new path ts = .ok (ts', n)) :
    (∀ c ∈ chains ts', ¬ Within full path c) ∧
    ∃ ts'', editKids .remove full new path ts' = .ok (ts'', 0) := by
  obtain ⟨r, e, g⟩ := editKids_good .remove full new (by decide) ts path hp
  rw [h] at e
  cases e
  have key : ∀ c ∈ chains ts', ¬ Within full path c := by
    intro c hc
    have := g.1.mem_iff.1 hc
    have e0 : added .remove full new path (chains ts) = [] := by
      unfold added
      simp
    rw [e0, List.append_nil, kept, if_neg (by decide)] at this
    simpa using (List.mem_filter.1 this).2
  refine ⟨key, ?_⟩
  obtain ⟨r, e, g'⟩ := editKids_good .remove full new (by decide) ts' path hp
  refine ⟨r.1, ?_⟩
  rw [e]
  have : r.2 = 0 := by
    rw [g'.2, List.countP_eq_zero]
    intro c hc
    simpa using fun k : Hit full path c => key c hc k.1
  rw [← this]

/-- An input with two outputs in one tag and a third elsewhere. -/
def demo : List Tree :=
  [.tag "sim".toList [] [.tag "out".toList [] [.text " a ".toList],
    .tag "sys".toList [] [.tag "out".toList [] [], .tag "cell".toList [] []], .tag "out".toList [] []]]

example : (chains demo).countP (fun c => Hit false ["out".toList] c) = 3 ∧
    (chains demo).countP (fun c => Hit true ["sim".toList, "out".toList] c) = 2 := by
  decide +kernel

/-- **C172 fails for other words.** A mode that does not exist is refused only if there is
something to edit. -/
theorem mode_checked_late (full : Bool) (new : Tree) :
    editKids .other full new ["nowhere".toList] demo = .ok (demo, 0) ∧
    editKids .other full new ["sim".toList] demo = .error .valueError := by
  cases full <;> constructor <;> rfl

/-- An empty path fails, unless there are no tags. -/
theorem empty_path (mode : Mode) (full : Bool) (new : Tree) :
    editKids mode full new [] demo = .error .indexError := rfl

end Verif.XmlEdit
