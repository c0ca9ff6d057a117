import Verif.Io.TrajUnits
import Verif.Io.PdbLemmas
import Verif.Props.C30_Units
/-
C63. A trajectory written with some quantity, units and cell units, and read with automatic units, is converted with exactly these.

Holds for xyz files and units whose names are made of letters and underscores. The reader does not recognise other unit names (`ev/ang`, `m/s`,
`j/mol`), and for PDB files only looks at positions.
-/
namespace Verif.TrajUnits
open Verif.Text Verif.Units Verif.Pdb

/-! ### searching -/

theorem prefix_brace {k P S : Str} (hk : '{' ∉ k) (h : k.isPrefixOf (P ++ '{' :: S) = true) : ∃ r, P = k ++ r := by
  induction k generalizing P with
  | nil => exact ⟨P, rfl⟩
  | cons c k ih =>
    cases P with
    | nil =>
      simp only [List.nil_append, List.isPrefixOf, Bool.and_eq_true, beq_iff_eq] at h
      exact absurd (by rw [h.1]; exact List.mem_cons_self) hk
    | cons d P =>
      simp only [List.cons_append, List.isPrefixOf, Bool.and_eq_true, beq_iff_eq] at h
      obtain ⟨r, hr⟩ := ih (fun h' => hk (List.mem_cons_of_mem _ h')) h.2
      exact ⟨r, by rw [h.1, hr]; rfl⟩

theorem braceAt_other {c : Char} {s : Str} (h : c ≠ '{') : braceAt (c :: s) = none := by
  unfold braceAt
  split
  · rename_i h'
    exact absurd (List.cons.inj h').1 h
  · rfl

theorem keyAt_brace {k P S : Str} (hk : '{' ∉ k) (hP : '{' ∉ P) : keyAt k (P ++ '{' :: S) = if k = P then braceAt ('{' :: S) else none := by
  unfold keyAt
  by_cases h : k.isPrefixOf (P ++ '{' :: S) = true
  · rw [if_pos h]
    obtain ⟨r, rfl⟩ := prefix_brace hk h
    rw [List.append_assoc, List.drop_left]
    cases r with
    | nil => simp
    | cons c r =>
      rw [if_neg (by intro e; have := congrArg List.length e; simp at this), List.cons_append]
      refine braceAt_other ?_
      intro e
      exact hP (by rw [← e]; simp)
  · rw [if_neg h, if_neg]
    rintro rfl
    exact h (by rw [List.isPrefixOf_iff_prefix]; exact List.prefix_append _ _)

theorem keySearch_brace {k P S : Str} (hk : '{' ∉ k) (hne : k ≠ []) (hP : '{' ∉ P) :
    keySearch k (P ++ '{' :: S) = if k <:+ P then (match braceAt ('{' :: S) with | some u => some u | none => keySearch k S) else keySearch k S := by
  induction P with
  | nil =>
    have h0 : keyAt k ('{' :: S) = none := by
      have := keyAt_brace (k := k) (P := []) (S := S) hk (by simp)
      rw [List.nil_append, if_neg hne] at this
      exact this
    rw [List.nil_append, keySearch, h0, if_neg (by rw [List.suffix_nil]; exact hne)]
  | cons c P ih =>
    rw [List.cons_append, keySearch, ← List.cons_append, keyAt_brace hk hP]
    have ih := ih fun h => hP (List.mem_cons_of_mem _ h)
    by_cases he : k = c :: P
    · rw [if_pos he, if_pos (by rw [he]; exact List.suffix_refl _)]
      cases hb : braceAt ('{' :: S) with
      | some u => rfl
      | none =>
        simp only
        rw [ih, if_neg, ]
        intro h
        have := h.length_le
        rw [he] at this
        simp at this
    · rw [if_neg he]
      simp only
      rw [ih]
      simp only [List.suffix_cons_iff, he, false_or]

theorem keyAt_none {k s : Str} (h : '{' ∉ s) : keyAt k s = none := by
  unfold keyAt
  split
  · have h' : '{' ∉ s.drop k.length := fun hm => h (List.mem_of_mem_drop hm)
    revert h'
    cases s.drop k.length with
    | nil => intro _; rfl
    | cons c r => intro h'; exact braceAt_other fun e => h' (by rw [e]; exact List.mem_cons_self)
  · rfl

theorem keySearch_none {k s : Str} (h : '{' ∉ s) : keySearch k s = none := by
  induction s with
  | nil => exact keyAt_none h
  | cons c s ih => rw [keySearch, keyAt_none h]; exact ih fun h' => h (List.mem_cons_of_mem _ h')

def Word (u : Str) : Prop := ∀ c ∈ u, wordChar c = true

theorem braceAt_word {u r : Str} (h : Word u) : braceAt ('{' :: (u ++ '}' :: r)) = some u := by
  have t : (u ++ '}' :: r).takeWhile wordChar = u ∧ (u ++ '}' :: r).dropWhile wordChar = '}' :: r := by
    induction u with
    | nil => exact ⟨rfl, rfl⟩
    | cons c u ih =>
      have := ih fun x hx => h x (List.mem_cons_of_mem _ hx)
      simp [h c List.mem_cons_self, this.1, this.2]
  simp only [braceAt]
  rw [t.1, t.2]
  rfl

theorem braceAt_other_units {u r : Str} (h : ¬ Word u) (hb : '}' ∉ u) : braceAt ('{' :: (u ++ '}' :: r)) = none := by
  have t : ∃ c s, c ≠ '}' ∧ (u ++ '}' :: r).dropWhile wordChar = c :: s := by
    induction u with
    | nil => exact absurd (fun c hc => by cases hc) h
    | cons c u ih =>
      cases hc : wordChar c with
      | true =>
        have h' : ¬ Word u := fun hw => h fun x hx => by
          rcases List.mem_cons.1 hx with rfl | hx
          · exact hc
          · exact hw x hx
        obtain ⟨d, s, hd, e⟩ := ih h' fun hm => hb (List.mem_cons_of_mem _ hm)
        exact ⟨d, s, hd, by simp [hc, e]⟩
      | false => exact ⟨c, u ++ '}' :: r, fun e => hb (by rw [e]; exact List.mem_cons_self), by simp [hc]⟩
  obtain ⟨c, s, hc, e⟩ := t
  simp only [braceAt]
  rw [e]
  split
  · rename_i h'
    exact absurd (List.cons.inj h').1 hc
  · rfl

theorem word_nobrace {u : Str} (h : Word u) : '{' ∉ u ∧ '}' ∉ u :=
  ⟨fun h' => absurd (h _ h') (by decide), fun h' => absurd (h _ h') (by decide)⟩

/-- A suffix without blanks of a text with a blank is a suffix of what follows it. -/
theorem suffix_blank {k a b : Str} (hk : ' ' ∉ k) : k <:+ a ++ ' ' :: b ↔ k <:+ b := by
  constructor
  · rintro ⟨t, ht⟩
    rcases Nat.lt_or_ge b.length k.length with h | h
    · exfalso
      have hlen := congrArg List.length ht
      simp only [List.length_append, List.length_cons] at hlen
      have : (t ++ k).drop a.length = ' ' :: b := by rw [ht, List.drop_left]
      rw [List.drop_append, List.drop_of_length_le (by omega), List.nil_append] at this
      exact hk (List.mem_of_mem_drop (by rw [this]; exact List.mem_cons_self))
    · refine ⟨t.drop (a.length + 1), ?_⟩
      have hlen := congrArg List.length ht
      simp only [List.length_append, List.length_cons] at hlen
      have e : (t ++ k).drop (a.length + 1) = b := by
        rw [ht]
        have : a ++ ' ' :: b = (a ++ [' ']) ++ b := by simp
        rw [this]
        exact List.drop_left' (by simp)
      rw [List.drop_append, show a.length + 1 - t.length = 0 by omega, List.drop_zero] at e
      exact e
  · rintro ⟨t, rfl⟩
    exact ⟨a ++ ' ' :: t, by simp⟩

/-! ### the table -/

theorem keys_plain : ∀ e ∈ trajDict, '{' ∉ e.1 ∧ ' ' ∉ e.1 ∧ e.1 ≠ [] ∧ (∀ c, e.1.head? = some c → isWs c = false) ∧ ¬ e.1 <:+ kCell ∧ ¬ kCell <:+ e.1 := by decide +kernel

theorem keys_suffix : ∀ e ∈ trajDict, ∀ e' ∈ trajDict, e'.1 <:+ e.1 → e'.2 = e.2 := by decide +kernel

/-- The quantities of each dimension. -/
theorem dimension_keys :
    (∀ k, (k, kLength) ∈ trajDict ↔ k ∈ ["positions", "x_centroid", "x_centroid_even", "x_centroid_odd", "r_gyration"].map String.toList) ∧
    (∀ k, (k, kVelocity) ∈ trajDict ↔ k ∈ ["velocities", "v_centroid", "v_centroid_even", "v_centroid_odd"].map String.toList) ∧
    (∀ k, (k, kMomentum) ∈ trajDict ↔ k ∈ ["momenta", "p_centroid"].map String.toList) ∧
    (∀ k, (k, kForce) ∈ trajDict ↔ k ∈ ["forces", "forces_spring", "Eforces", "forces_sc", "f_centroid", "forces_component", "forces_component_raw"].map String.toList) ∧
    (∀ k, (k, kEnergy) ∈ trajDict ↔ k ∈ ["kinetic_cv", "kinetic_od"].map String.toList) := by
  have key : ∀ (d : Str) (l : List Str), (trajDict.filter fun e => decide (e.2 = d)).map (·.1) = l → ∀ k, (k, d) ∈ trajDict ↔ k ∈ l := by
    intro d l hl k
    rw [← hl]
    simp
  exact ⟨key _ _ (by decide +kernel), key _ _ (by decide +kernel), key _ _ (by decide +kernel), key _ _ (by decide +kernel), key _ _ (by decide +kernel)⟩

theorem trajSearch_some {d u s : Str} : ∀ {t : List (Str × Str)}, (∀ e ∈ t, keySearch e.1 s = none ∨ (keySearch e.1 s = some u ∧ e.2 = d)) →
    (∃ e ∈ t, keySearch e.1 s = some u) → trajSearch t s = some (d, u) := by
  intro t
  induction t with
  | nil => rintro _ ⟨e, h, _⟩; cases h
  | cons e t ih =>
    intro h1 h2
    obtain ⟨k, d'⟩ := e
    rw [trajSearch]
    rcases h1 (k, d') List.mem_cons_self with h | ⟨h, hd⟩
    · rw [h]
      simp only
      refine ih (fun e he => h1 e (List.mem_cons_of_mem _ he)) ?_
      obtain ⟨e, he, hs⟩ := h2
      rcases List.mem_cons.1 he with rfl | he
      · simp only at hs h; rw [h] at hs; cases hs
      · exact ⟨e, he, hs⟩
    · simp only at h hd
      rw [h, hd]

theorem trajSearch_none {s : Str} : ∀ {t : List (Str × Str)}, (∀ e ∈ t, keySearch e.1 s = none) → trajSearch t s = none := by
  intro t
  induction t with
  | nil => intro _; rfl
  | cons e t ih =>
    intro h
    obtain ⟨k, d⟩ := e
    rw [trajSearch]
    have := h (k, d) List.mem_cons_self
    simp only at this
    rw [this]
    exact ih fun e he => h e (List.mem_cons_of_mem _ he)

/-! ### the comment line -/

/-- The end of a comment line: quantity with units, cell with units. -/
def announce (key u cu : Str) : Str := tag key u ++ ' ' :: ' ' :: tag kCell cu

theorem announce_eq (P key u cu post : Str) : P ++ (announce key u cu ++ post) = (P ++ key) ++ '{' :: (u ++ '}' :: ' ' :: ' ' :: (kCell ++ '{' :: (cu ++ '}' :: post))) := by
  unfold announce tag
  simp [List.append_assoc]

theorem cell_part (u cu post : Str) : u ++ '}' :: ' ' :: ' ' :: (kCell ++ '{' :: (cu ++ '}' :: post)) = ((u ++ '}' :: [' ']) ++ ' ' :: kCell) ++ '{' :: (cu ++ '}' :: post) := by
  simp [List.append_assoc]

/-- Looking for a key in a comment line. -/
theorem search_announce {k P key u cu post : Str} (hk : '{' ∉ k) (hne : k ≠ []) (hb : ' ' ∉ k) (hP : '{' ∉ P ++ key) (hu : '{' ∉ u) (hu' : '}' ∉ u) (hcu : Word cu) (hpost : '{' ∉ post) :
    (k <:+ P ++ key → Word u → keySearch k (P ++ (announce key u cu ++ post)) = some u) ∧
    ((¬ k <:+ P ++ key ∨ ¬ Word u) → k <:+ kCell → keySearch k (P ++ (announce key u cu ++ post)) = some cu) ∧
    ((¬ k <:+ P ++ key ∨ ¬ Word u) → ¬ k <:+ kCell → keySearch k (P ++ (announce key u cu ++ post)) = none) := by
  rw [announce_eq, keySearch_brace hk hne hP]
  have h2 : keySearch k (u ++ '}' :: ' ' :: ' ' :: (kCell ++ '{' :: (cu ++ '}' :: post))) = if k <:+ kCell then some cu else none := by
    rw [cell_part, keySearch_brace hk hne (by
      simp only [List.mem_append, List.mem_cons, not_or]
      exact ⟨⟨hu, by decide, by decide, by simp⟩, by decide, by decide⟩), braceAt_word hcu]
    simp only [suffix_blank hb]
    rw [keySearch_none (s := cu ++ '}' :: post)]
    simp only [List.mem_append, List.mem_cons, not_or]
    exact ⟨(word_nobrace hcu).1, by decide, hpost⟩
  rw [h2]
  refine ⟨?_, ?_, ?_⟩
  · intro h hw
    rw [if_pos h, braceAt_word hw]
  · rintro (h | h) hc
    · rw [if_neg h, if_pos hc]
    · rw [braceAt_other_units h hu']
      simp only [ite_self]
      rw [if_pos hc]
  · rintro (h | h) hc
    · rw [if_neg h, if_neg hc]
    · rw [braceAt_other_units h hu']
      simp only [ite_self]
      rw [if_neg hc]

/-- Text before the announcement: no braces, ends with a blank (or is empty). -/
def Lead (P : Str) : Prop := '{' ∉ P ∧ (P = [] ∨ ∃ a, P = a ++ [' '])

theorem lead_suffix {P k key : Str} (hP : Lead P) (hb : ' ' ∉ k) : k <:+ P ++ key ↔ k <:+ key := by
  rcases hP.2 with rfl | ⟨a, rfl⟩
  · rw [List.nil_append]
  · rw [List.append_assoc, List.singleton_append]; exact suffix_blank hb

theorem lead_drop {P : Str} (hP : Lead P) : Lead (P.dropWhile isWs) := by
  refine ⟨fun h => hP.1 ((List.dropWhile_sublist _).subset h), ?_⟩
  rcases hP.2 with rfl | ⟨a, rfl⟩
  · exact .inl rfl
  · induction a with
    | nil => exact .inl rfl
    | cons c a ih =>
      cases hc : isWs c with
      | true =>
        have h1 : Lead (a ++ [' ']) := ⟨fun h => hP.1 (by simp at h ⊢; exact .inr h), .inr ⟨a, rfl⟩⟩
        rw [List.cons_append, List.dropWhile_cons_of_pos hc]
        exact ih h1
      | false =>
        rw [List.cons_append, List.dropWhile_cons, hc]
        exact .inr ⟨c :: a, rfl⟩

theorem strip_announce {P key u cu post : Str} (hk : ∀ c, key.head? = some c → isWs c = false) (hne : key ≠ []) (hpost : ∀ c ∈ post, isWs c = true) :
    strip (P ++ (announce key u cu ++ post)) = P.dropWhile isWs ++ (announce key u cu ++ []) := by
  have e : P ++ (announce key u cu ++ post) = P.takeWhile isWs ++ (P.dropWhile isWs ++ announce key u cu) ++ post := by
    rw [← List.append_assoc (P.takeWhile isWs), List.takeWhile_append_dropWhile, List.append_assoc]
  rw [e, List.append_nil, strip]
  refine stripP_pad (fun c hc => List.all_eq_true.1 List.all_takeWhile c hc) hpost ?_ ?_
  · intro c hc
    have hd := dropWhile_head (p := isWs) P
    revert hd hc
    cases P.dropWhile isWs with
    | nil =>
      intro hc _
      match key, hne with
      | d :: key, _ => exact hk c (by simpa [announce, tag] using hc)
    | cons d r => intro hc hd; exact hd c (by simpa using hc)
  · intro c hc
    have : P.dropWhile isWs ++ announce key u cu = (P.dropWhile isWs ++ (tag key u ++ ' ' :: ' ' :: (kCell ++ '{' :: cu))) ++ ['}'] := by
      unfold announce tag; simp [List.append_assoc]
    rw [this, List.getLast?_append] at hc
    simp at hc
    rw [← hc]; rfl

theorem kAuto_self : (kAuto ≠ kAuto) = False := by simp

theorem autoUnits_auto (m : Mode) (comment : Str) : autoUnits m comment kAuto kAuto kAuto =
    .ok (((trajSearch trajDict (strip comment)).map (·.1)).getD (if m = .pdb then kLength else kUndefined),
      ((trajSearch trajDict (strip comment)).map (·.2)).getD (autoName m), (keySearch kCell comment).getD (autoName m)) := by
  unfold autoUnits
  cases trajSearch trajDict (strip comment) <;> cases keySearch kCell comment <;> simp

/-- The quantities found in a comment line. -/
theorem trajSearch_announce {P key dim u cu post : Str} (hP : Lead P) (hk : (key, dim) ∈ trajDict) (hu : Word u) (hcu : Word cu) (hpost : ∀ c ∈ post, isWs c = true) :
    trajSearch trajDict (strip (P ++ (announce key u cu ++ post))) = some (dim, u) := by
  obtain ⟨k1, k2, k3, k4, k5, k6⟩ := keys_plain _ hk
  simp only at k1 k2 k3 k4 k5 k6
  rw [strip_announce k4 k3 hpost]
  have hP' := lead_drop hP
  have hb : '{' ∉ P.dropWhile isWs ++ key := by
    rw [List.mem_append, not_or]; exact ⟨hP'.1, k1⟩
  refine trajSearch_some ?_ ⟨(key, dim), hk, ?_⟩
  · intro e he
    obtain ⟨e1, e2, e3, e4, e5, e6⟩ := keys_plain _ he
    have hs := search_announce (post := []) e1 e3 e2 hb (word_nobrace hu).1 (word_nobrace hu).2 hcu (by simp)
    by_cases h : e.1 <:+ P.dropWhile isWs ++ key
    · exact .inr ⟨hs.1 h hu, keys_suffix _ hk _ he ((lead_suffix hP' e2).1 h)⟩
    · exact .inl (hs.2.2 (.inl h) e5)
  · exact (search_announce (post := []) k1 k3 k2 hb (word_nobrace hu).1 (word_nobrace hu).2 hcu (by simp)).1 (List.suffix_append _ _) hu

theorem cell_announce {P key dim u cu post : Str} (hP : Lead P) (hk : (key, dim) ∈ trajDict) (hu : '{' ∉ u) (hu' : '}' ∉ u) (hcu : Word cu) (hpost : '{' ∉ post) :
    keySearch kCell (P ++ (announce key u cu ++ post)) = some cu := by
  obtain ⟨k1, k2, k3, k4, k5, k6⟩ := keys_plain _ hk
  refine (search_announce (k := kCell) (by decide) (by decide) (by decide) ?_ hu hu' hcu hpost).2.1 (.inl ?_) (List.suffix_refl _)
  · rw [List.mem_append, not_or]; exact ⟨hP.1, k1⟩
  · rw [lead_suffix hP (by decide)]; exact k6

theorem ws_nobrace {post : Str} (h : ∀ c ∈ post, isWs c = true) : '{' ∉ post := fun h' => absurd (h _ h') (by decide)

/-- **What is announced is what is used**: every quantity of the table, all units and cell units made of letters and underscores, any text
in front. -/
theorem announced_units_found {P key dim u cu post : Str} (m : Mode) (hP : Lead P) (hk : (key, dim) ∈ trajDict) (hu : Word u) (hcu : Word cu) (hpost : ∀ c ∈ post, isWs c = true) :
    autoUnits m (P ++ (announce key u cu ++ post)) kAuto kAuto kAuto = .ok (dim, u, cu) := by
  rw [autoUnits_auto, trajSearch_announce hP hk hu hcu hpost, cell_announce hP hk (word_nobrace hu).1 (word_nobrace hu).2 hcu (ws_nobrace hpost)]
  rfl

theorem lead_append {a b : Str} (ha : '{' ∉ a) (hb : Lead b) (hne : b ≠ []) : Lead (a ++ b) := by
  refine ⟨by rw [List.mem_append, not_or]; exact ⟨ha, hb.1⟩, .inr ?_⟩
  rcases hb.2 with h | ⟨c, rfl⟩
  · exact absurd h hne
  · exact ⟨a ++ c, by rw [List.append_assoc]⟩

theorem user_inverse {fam unit : Str} {c : Rat} (h : toUser fam unit 1 = .ok c) : ∃ f, toInternal fam unit 1 = .ok f ∧ 0 < f ∧ f * c = 1 := by
  unfold toUser at h
  cases hi : toInternal fam unit 1 with
  | error e => rw [hi] at h; cases h
  | ok f =>
    rw [hi] at h
    simp only [Except.ok.injEq] at h
    obtain ⟨d, hd, hz⟩ := accepted_form hi
    have hfd : f = d := by
      have := hz 1
      rw [hi, Rat.one_mul] at this
      exact Except.ok.inj this
    refine ⟨f, rfl, by rw [hfd]; exact hd, ?_⟩
    rw [← h]
    have hf : f ≠ 0 := by rw [hfd]; exact fun e => by rw [e] at hd; exact absurd hd (by decide)
    rw [Rat.div_def, Rat.one_mul, Rat.mul_inv_cancel f hf]

/-- **C63, partial.** An xyz frame written with some quantity, units and cell units and read with automatic units: the factors used for
reading undo those used for writing. `head` is what the writer puts before the title (the cell), `title` the text given by the caller. -/
theorem units_used_partial {head title key dim units cellUnits : Str} {p : Printed} (hk : (key, dim) ∈ trajDict)
    (h : printFile .other title key dim units cellUnits = .ok p) (hhead : '{' ∉ head) (ht : Lead title) (hne : title ≠ [])
    (hu : Word (resolve .other units)) (hcu : Word (resolve .other cellUnits)) :
    ∃ fa fc, processUnits .other (head ++ p.title ++ ['\n']) kAuto kAuto kAuto = .ok (fa, fc) ∧ fa * p.atomsConv = 1 ∧ fc * p.cellConv = 1 := by
  unfold printFile at h
  rw [if_neg (by rintro ⟨h, _⟩; cases h)] at h
  simp only [reduceCtorEq, false_and, if_false] at h
  split at h
  · rename_i cc ac h1 h2
    simp only [Except.ok.injEq] at h
    subst h
    obtain ⟨fc, hfc, _, hc⟩ := user_inverse h1
    obtain ⟨fa, hfa, _, ha⟩ := user_inverse h2
    refine ⟨fa, fc, ?_, ha, hc⟩
    have e : head ++ (title ++ (tag key (resolve .other units) ++ ' ' :: ' ' :: tag kCell (resolve .other cellUnits))) ++ ['\n'] =
        (head ++ title) ++ (announce key (resolve .other units) (resolve .other cellUnits) ++ ['\n']) := by
      unfold announce; simp [List.append_assoc]
    unfold processUnits
    simp only
    rw [e, announced_units_found .other (lead_append hhead ht hne) hk hu hcu (by decide)]
    simp only
    rw [hfc, hfa]
  · cases h

/-- **False of the code for other unit names**: units with any character that is not a letter or underscore are not recognised. The data
are then taken as they stand, in atomic units; the cell is still converted. -/
theorem other_units_ignored {P key dim u cu post : Str} (hP : Lead P) (hk : (key, dim) ∈ trajDict) (hu : ¬ Word u) (hb : '{' ∉ u) (hb' : '}' ∉ u) (hcu : Word cu) (hpost : ∀ c ∈ post, isWs c = true) :
    autoUnits .other (P ++ (announce key u cu ++ post)) kAuto kAuto kAuto = .ok (kUndefined, kAtomic, cu) := by
  have hn : trajSearch trajDict (strip (P ++ (announce key u cu ++ post))) = none := by
    obtain ⟨k1, k2, k3, k4, k5, k6⟩ := keys_plain _ hk
    simp only at k1 k2 k3 k4 k5 k6
    rw [strip_announce k4 k3 hpost]
    refine trajSearch_none fun e he => ?_
    obtain ⟨e1, e2, e3, e4, e5, e6⟩ := keys_plain _ he
    refine (search_announce (post := []) e1 e3 e2 ?_ hb hb' hcu (by simp)).2.2 (.inr hu) e5
    rw [List.mem_append, not_or]; exact ⟨(lead_drop hP).1, k1⟩
  rw [autoUnits_auto, hn, cell_announce hP hk hb hb' hcu (ws_nobrace hpost)]
  rfl

/-- The units of the table, for the dimensions of trajectories, that are not recognised. -/
theorem unrecognised_units :
    ((trajDict.map (·.2)).eraseDups.flatMap fun d => (unitMap.filter (fun e => e.1 = d)).flatMap fun e => (e.2.filter (fun u => ! u.1.all wordChar)).map (fun u => (d, u.1))) =
      [(kVelocity, "m/s".toList), (kForce, "ev/ang".toList), (kEnergy, "j/mol".toList), (kEnergy, "cal/mol".toList)] := by
  decide +kernel

def kEvAng : Str := "ev/ang".toList
def kForces : Str := "forces".toList
def kHeadTitle : Str := "Step:           0  Bead:       0 ".toList
def kNano : Str := "nanometer".toList
def kXc : Str := "x_centroid".toList

/-- Forces written in eV/angstrom are read back 51 times too large. -/
theorem forces_wrong : ∃ p, printFile .other kHeadTitle kForces kForce kEvAng kAuto = .ok p ∧
    processUnits .other (p.title ++ ['\n']) kAuto kAuto kAuto = .ok (1, 1) ∧ 51 < 1 * p.atomsConv := by
  have h : (printFile .other kHeadTitle kForces kForce kEvAng kAuto).toOption.any (fun p =>
    decide (processUnits .other (p.title ++ ['\n']) kAuto kAuto kAuto = .ok (1, 1)) && decide (51 < 1 * p.atomsConv)) = true := by decide +kernel
  cases hp : printFile .other kHeadTitle kForces kForce kEvAng kAuto with
  | error e => rw [hp] at h; cases h
  | ok p =>
    rw [hp] at h
    simp only [Except.toOption, Option.any_some, Bool.and_eq_true, decide_eq_true_eq] at h
    exact ⟨p, rfl, h.1, h.2⟩

/-- Stating dimension and units explicitly when reading helps. -/
theorem explicit_units_used : ∃ p, printFile .other kHeadTitle kForces kForce kEvAng kAuto = .ok p ∧
    (processUnits .other (p.title ++ ['\n']) kForce kEvAng kAuto).toOption.any (fun f => decide (f.1 * p.atomsConv = 1)) = true := by
  have h : (printFile .other kHeadTitle kForces kForce kEvAng kAuto).toOption.any (fun p =>
    (processUnits .other (p.title ++ ['\n']) kForce kEvAng kAuto).toOption.any (fun f => decide (f.1 * p.atomsConv = 1))) = true := by decide +kernel
  cases hp : printFile .other kHeadTitle kForces kForce kEvAng kAuto with
  | error e => rw [hp] at h; cases h
  | ok p => rw [hp] at h; exact ⟨p, rfl, h⟩

/-- The hypotheses of `units_used_partial` are met: positions in angstrom with a cell in nanometer. -/
example : (kPositions, kLength) ∈ trajDict ∧ (printFile .other kHeadTitle kPositions kLength kAngstrom kNano).toOption.isSome = true ∧
    Lead kHeadTitle ∧ kHeadTitle ≠ [] ∧ Word (resolve .other kAngstrom) ∧ Word (resolve .other kNano) := by
  refine ⟨by decide, by decide +kernel, ⟨by decide, .inr ⟨"Step:           0  Bead:       0".toList, by decide⟩⟩, by decide, ?_, ?_⟩
  · unfold Word; decide
  · unfold Word; decide

/-! ### PDB -/

/-- A frame of centroids written in nanometers to a PDB file is read as if in angstrom: ten times too small. -/
theorem pdb_centroid_wrong : ∃ p, printFile .pdb kHeadTitle kXc kLength kNano kAuto = .ok p ∧
    autoUnits .pdb (comment (titleLine p.title ++ ['\n'])) kAuto kAuto kAuto = .ok (kLength, kAngstrom, kAngstrom) ∧
    (processUnits .pdb (comment (titleLine p.title ++ ['\n'])) kAuto kAuto kAuto).toOption.any (fun f => decide (f.1 * p.atomsConv = 1 / 10)) = true := by
  have h : (printFile .pdb kHeadTitle kXc kLength kNano kAuto).toOption.any (fun p =>
    decide (autoUnits .pdb (comment (titleLine p.title ++ ['\n'])) kAuto kAuto kAuto = .ok (kLength, kAngstrom, kAngstrom)) &&
    (processUnits .pdb (comment (titleLine p.title ++ ['\n'])) kAuto kAuto kAuto).toOption.any (fun f => decide (f.1 * p.atomsConv = 1 / 10))) = true := by decide +kernel
  cases hp : printFile .pdb kHeadTitle kXc kLength kNano kAuto with
  | error e => rw [hp] at h; cases h
  | ok p =>
    rw [hp] at h
    simp only [Except.toOption, Option.any_some, Bool.and_eq_true, decide_eq_true_eq] at h
    exact ⟨p, rfl, h.1, h.2⟩

theorem hasInfix_append {k a b : Str} (h : hasInfix k b = true) : hasInfix k (a ++ b) = true := by
  induction a with
  | nil => exact h
  | cons c a ih => simp only [List.cons_append, hasInfix, ih, Bool.or_true]

theorem hasInfix_here {k b : Str} : hasInfix k (k ++ b) = true := by
  cases h : k ++ b with
  | nil => rw [List.append_eq_nil_iff] at h; rw [h.1]; rfl
  | cons c s =>
    simp only [hasInfix, Bool.or_eq_true]
    left
    rw [← h, List.isPrefixOf_iff_prefix]
    exact List.prefix_append _ _

/-- Positions in a PDB file are read with the units they were written in. -/
theorem pdb_positions_found {t u cu : Str} (ht : Lead t) (hne : t ≠ []) (hu : Word u) (hcu : Word cu) :
    autoUnits .pdb (comment (titleLine (t ++ announce kPositions u cu) ++ ['\n'])) kAuto kAuto kAuto = .ok (kLength, u, cu) := by
  have e0 : ∃ n, titleLine (t ++ announce kPositions u cu) ++ ['\n'] = (("TITLE   ".toList ++ List.replicate n ' ') ++ t) ++ (announce kPositions u cu ++ ['\n']) :=
    ⟨_, by unfold titleLine Traj.padL; simp only [List.append_assoc]; rfl⟩
  obtain ⟨n, e0⟩ := e0
  have c1 : hasInfix "positions{".toList ((("TITLE   ".toList ++ List.replicate n ' ') ++ t) ++ (announce kPositions u cu ++ ['\n'])) = true := by
    refine hasInfix_append ?_
    have : announce kPositions u cu ++ ['\n'] = (kPositions ++ ['{']) ++ (u ++ '}' :: ' ' :: ' ' :: (tag kCell cu ++ ['\n'])) := by
      unfold announce tag; simp only [List.append_assoc, List.cons_append, List.nil_append]
    rw [this]
    exact hasInfix_here
  have c2 : hasInfix "cell{".toList ((("TITLE   ".toList ++ List.replicate n ' ') ++ t) ++ (announce kPositions u cu ++ ['\n'])) = true := by
    have : announce kPositions u cu ++ ['\n'] = (tag kPositions u ++ [' ', ' ']) ++ ("cell{".toList ++ (cu ++ ['}', '\n'])) := by
      unfold announce tag
      simp only [List.append_assoc, List.cons_append, List.nil_append]
      rfl
    rw [this, ← List.append_assoc]
    exact hasInfix_append hasInfix_here
  rw [e0]
  unfold comment
  simp only [c1, if_true, c2]
  exact announced_units_found .pdb (lead_append (by
    simp only [List.mem_append, not_or]
    exact ⟨by decide, fun h => absurd (List.mem_replicate.1 h).2 (by decide)⟩) ht hne) (by decide) hu hcu (by decide)

end Verif.TrajUnits
