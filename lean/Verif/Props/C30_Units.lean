import Verif.Phys.Units
import Mathlib.Tactic.FieldSimp
import Mathlib.Tactic.Ring
/-!
# C30 (and C62): units

Every prefix of the table followed by any text is split into that prefix and that text; no unit of the table starts with a prefix, so every
`prefix + unit` means what it says (`unit_value`) and in one way only (`decomposition_unique`). Conversion to internal units and back is the identity for
every accepted unit (`round_trip`); what is accepted is exactly `accepted_iff`.
-/
namespace Verif.Units
open Verif.Text

/-! ### the tables -/

/-- No prefix is the beginning of another one. -/
theorem prefixes_apart : ∀ p ∈ alternatives, ∀ q ∈ alternatives, p ≠ [] → q ≠ [] → p ≠ q → p.isPrefixOf q = false := by decide +kernel

/-- No unit starts with a prefix. -/
theorem units_plain : ∀ t ∈ unitMap, ∀ u ∈ t.2, ∀ p ∈ alternatives, p ≠ [] → p.isPrefixOf u.1 = false := by decide +kernel

theorem tables_distinct : (unitMap.map (·.1)).Nodup ∧ (∀ t ∈ unitMap, (t.2.map (·.1)).Nodup) ∧ (unitPrefix.map (·.1)).Nodup := by decide +kernel

theorem factors_positive : (∀ t ∈ unitMap, ∀ u ∈ t.2, 0 < u.2) ∧ ∀ p ∈ unitPrefix, 0 < p.2 := by decide +kernel

theorem tables_ascii : (∀ t ∈ unitMap, ∀ u ∈ t.2, '\n' ∉ u.1 ∧ ' ' ∉ u.1 ∧ lower u.1 = u.1) ∧ ∀ p ∈ unitPrefix, '\n' ∉ p.1 ∧ ' ' ∉ p.1 := by decide +kernel

theorem alternatives_eq : ∀ p, p ∈ alternatives ↔ p ∈ unitPrefix.map (·.1) := by
  have h1 : ∀ p ∈ alternatives, p ∈ unitPrefix.map (·.1) := by decide +kernel
  have h2 : ∀ p ∈ unitPrefix.map (·.1), p ∈ alternatives := by decide +kernel
  exact fun p => ⟨h1 p, h2 p⟩

theorem number_not_family : look unitMap kNumber = none := by decide +kernel

/-! ### splitting -/

theorem isPrefixOf_iff (p s : Str) : p.isPrefixOf s = true ↔ ∃ r, s = p ++ r := by
  rw [List.isPrefixOf_iff_prefix]
  exact ⟨fun ⟨r, h⟩ => ⟨r, h.symm⟩, fun ⟨r, h⟩ => ⟨r, h.symm⟩⟩

/-- Two beginnings of the same text: one is the beginning of the other. -/
theorem comparable : ∀ {p q r r' : Str}, p ++ r = q ++ r' → p.isPrefixOf q = true ∨ q.isPrefixOf p = true
  | [], _, _, _, _ => .inl (by simp)
  | _ :: _, [], _, _, _ => .inr (by simp)
  | a :: p, b :: q, r, r', h => by
    simp only [List.cons_append, List.cons.injEq] at h
    obtain ⟨rfl, h⟩ := h
    simpa [List.isPrefixOf] using comparable h

theorem firstAlt_mem (as : List Str) (s : Str) (h : [] ∈ as) : firstAlt as s ∈ as ∧ (firstAlt as s).isPrefixOf s = true := by
  induction as with
  | nil => cases h
  | cons a as ih =>
    rw [firstAlt]
    split
    · rename_i ha; exact ⟨List.mem_cons_self, ha⟩
    · rename_i ha
      have : [] ∈ as := by
        rcases List.mem_cons.1 h with h | h
        · subst h; exact absurd (by simp) ha
        · exact h
      exact ⟨List.mem_cons_of_mem _ (ih this).1, (ih this).2⟩

theorem firstAlt_of (as : List Str) (s p : Str) (hp : p ∈ as) (h1 : p.isPrefixOf s = true) (h2 : ∀ q ∈ as, q.isPrefixOf s = true → q = p ∨ q = []) (h3 : ∃ l, as = l ++ [[]] ∧ [] ∉ l) :
    p ≠ [] → firstAlt as s = p := by
  intro hne
  obtain ⟨l, rfl, hl⟩ := h3
  induction l with
  | nil =>
    simp only [List.nil_append, List.mem_singleton] at hp
    exact absurd hp hne
  | cons a l ih =>
    rw [List.cons_append, firstAlt]
    split
    · rename_i ha
      rcases h2 a List.mem_cons_self ha with h | h
      · exact h
      · exact absurd (h ▸ List.mem_cons_self) hl
    · rename_i ha
      refine ih (fun h => hl (List.mem_cons_of_mem _ h)) ?_ (fun q hq => h2 q (List.mem_cons_of_mem _ hq))
      rcases List.mem_cons.1 hp with h | h
      · subst h; exact absurd h1 ha
      · exact h

theorem firstAlt_prefix {p : Str} (hp : p ∈ alternatives) (hne : p ≠ []) (u : Str) : firstAlt alternatives (p ++ u) = p := by
  refine firstAlt_of _ _ _ hp ((isPrefixOf_iff _ _).2 ⟨u, rfl⟩) ?_ ⟨(unitPrefix.map (·.1)).tail, rfl, by decide +kernel⟩ hne
  intro q hq h
  by_cases h0 : q = []
  · exact .inr h0
  obtain ⟨r, hr⟩ := (isPrefixOf_iff _ _).1 h
  by_cases e : q = p
  · exact .inl e
  rcases comparable hr with hc | hc
  · rw [prefixes_apart p hp q hq hne h0 (fun e' => e e'.symm)] at hc; cases hc
  · rw [prefixes_apart q hq p hp h0 hne e] at hc; cases hc

theorem firstAlt_none {u : Str} (h : ∀ p ∈ alternatives, p ≠ [] → p.isPrefixOf u = false) : firstAlt alternatives u = [] := by
  have := firstAlt_mem alternatives u (by decide +kernel)
  by_cases e : firstAlt alternatives u = []
  · exact e
  · rw [h _ this.1 e] at this; cases this.2

/-- What follows the unit: nothing, or a line break and anything. -/
def Rest (t : Str) : Prop := t = [] ∨ t.head? = some '\n'

theorem takeWhile_line {u t : Str} (hu : '\n' ∉ u) (ht : Rest t) : (u ++ t).takeWhile (fun c => decide (c ≠ '\n')) = u := by
  induction u with
  | nil =>
    rcases ht with rfl | h
    · rfl
    · cases t with
      | nil => rfl
      | cons c t =>
        simp only [List.head?_cons, Option.some.injEq] at h
        subst h
        rfl
  | cons c u ih =>
    simp only [List.mem_cons, not_or] at hu
    rw [List.cons_append, List.takeWhile_cons_of_pos (by simpa using Ne.symm hu.1), ih hu.2]

/-- The prefix at the front, whatever follows. -/
theorem split_prefix {p : Str} (hp : p ∈ alternatives) (hne : p ≠ []) {u t : Str} (hu : '\n' ∉ u) (ht : Rest t) (k : Nat) :
    splitUnit (List.replicate k ' ' ++ p ++ (u ++ t)) = (p, u) := by
  have hs : (List.replicate k ' ' ++ p ++ (u ++ t)).dropWhile (fun c => decide (c = ' ')) = p ++ (u ++ t) := by
    have hsp : ∀ p ∈ alternatives, p ≠ [] → p.head? ≠ some ' ' := by decide +kernel
    induction k with
    | zero =>
      cases p with
      | nil => exact absurd rfl hne
      | cons c p =>
        have hc : c ≠ ' ' := fun e => hsp _ hp hne (by simp [e])
        simp [hc]
    | succ k ih => simpa [List.replicate_succ] using ih
  unfold splitUnit
  simp only [hs, firstAlt_prefix hp hne, List.drop_left]
  rw [takeWhile_line hu ht]

/-- A text that starts with no prefix is a unit without prefix. -/
theorem split_plain {u t : Str} (hu : '\n' ∉ u) (ht : Rest t) (hb : u.head? ≠ some ' ') (h : ∀ p ∈ alternatives, p ≠ [] → p.isPrefixOf (u ++ t) = false) (k : Nat) :
    splitUnit (List.replicate k ' ' ++ (u ++ t)) = ([], u) := by
  have hs : (List.replicate k ' ' ++ (u ++ t)).dropWhile (fun c => decide (c = ' ')) = u ++ t := by
    induction k with
    | zero =>
      cases u with
      | nil =>
        rcases ht with rfl | ht
        · rfl
        · cases t with
          | nil => rfl
          | cons c t =>
            simp only [List.head?_cons, Option.some.injEq] at ht
            subst ht
            rfl
      | cons c u =>
        have hc : c ≠ ' ' := fun e => hb (by simp [e])
        simp [hc]
    | succ k ih => simpa [List.replicate_succ] using ih
  unfold splitUnit
  simp only [hs, firstAlt_none h, List.length_nil, List.drop_zero]
  rw [takeWhile_line hu ht]

/-! ### look-up -/

theorem look_mem {α : Type} {t : List (Str × α)} {k : Str} {v : α} (h : look t k = some v) : (k, v) ∈ t := by
  unfold look at h
  cases hf : t.find? (fun e => decide (e.1 = k)) with
  | none => rw [hf] at h; cases h
  | some e =>
    rw [hf] at h
    simp only [Option.map_some, Option.some.injEq] at h
    have h1 := List.mem_of_find?_eq_some hf
    have h2 := List.find?_some hf
    simp only [decide_eq_true_eq] at h2
    obtain ⟨a, b⟩ := e
    simp only at h h2
    subst h h2
    exact h1

theorem mem_look {α : Type} {t : List (Str × α)} (hn : (t.map (·.1)).Nodup) {k : Str} {v : α} (h : (k, v) ∈ t) : look t k = some v := by
  induction t with
  | nil => cases h
  | cons e t ih =>
    rw [List.map_cons, List.nodup_cons] at hn
    rcases List.mem_cons.1 h with h | h
    · subst h; simp [look]
    · have hne : e.1 ≠ k := fun e' => hn.1 (List.mem_map.2 ⟨_, h, e'.symm⟩)
      unfold look
      rw [List.find?_cons_of_neg (by simpa using hne)]
      exact ih hn.2 h

/-! ### C30 -/

/-- **Prefix and unit mean what the tables say**, in any capitalisation of the unit and with leading blanks. -/
theorem unit_value {fam : Str} {units : List (Str × Rat)} (hf : (fam, units) ∈ unitMap) {p u v : Str} {f g : Rat} (hp : (p, g) ∈ unitPrefix) (hu : (u, f) ∈ units)
    (hv : lower v = u) {t : Str} (ht : Rest t) (k : Nat) (x : Rat) : toInternal fam (List.replicate k ' ' ++ p ++ (v ++ t)) x = .ok (x * f * g) := by
  have hfam := mem_look tables_distinct.1 hf
  have hul := mem_look (tables_distinct.2.1 _ hf) hu
  have hpl := mem_look tables_distinct.2.2 hp
  have hne : fam ≠ kNumber := fun e => by rw [e, number_not_family] at hfam; cases hfam
  have hnl := (tables_ascii.1 _ hf _ hu).1
  have hsp := (tables_ascii.1 _ hf _ hu).2.1
  have hmap : ∀ c ∈ v, Char.toLower c ∈ u := fun c hc => by subst hv; exact List.mem_map.2 ⟨c, hc, rfl⟩
  have hvn : '\n' ∉ v := fun h => hnl (by have := hmap _ h; exact this)
  have hvs : v.head? ≠ some ' ' := fun h => hsp (by have := hmap _ (List.mem_of_mem_head? h); exact this)
  have hpa : p ∈ alternatives := (alternatives_eq p).2 (List.mem_map.2 ⟨_, hp, rfl⟩)
  have hlow : ∀ q ∈ alternatives, lower q = q := by decide +kernel
  have hplain : ∀ q ∈ alternatives, q ≠ [] → q.isPrefixOf (v ++ t) = false := by
    intro q hq hq0
    cases hh : q.isPrefixOf (v ++ t) with
    | false => rfl
    | true =>
      have hqn : '\n' ∉ q := by
        have : ∀ q ∈ alternatives, '\n' ∉ q := by decide +kernel
        exact this q hq
      obtain ⟨r, hr⟩ : ∃ r, v = q ++ r := by
        obtain ⟨r, hr⟩ := (isPrefixOf_iff _ _).1 hh
        rcases comparable hr with hc | hc
        · obtain ⟨w, hw⟩ := (isPrefixOf_iff _ _).1 hc
          subst hw
          cases w with
          | nil => exact ⟨[], by simp⟩
          | cons c w =>
            exfalso
            rw [List.append_assoc] at hr
            have hr := List.append_cancel_left hr
            rcases ht with rfl | ht
            · simp at hr
            · rw [hr] at ht
              simp only [List.cons_append, List.head?_cons, Option.some.injEq] at ht
              subst ht
              exact hqn (by simp)
        · exact (isPrefixOf_iff _ _).1 hc
      have : u = q ++ lower r := by
        rw [← hv, hr]
        unfold lower
        rw [List.map_append]
        congr 1
        exact hlow q hq
      have h' := units_plain _ hf _ hu q hq hq0
      have h'' : q.isPrefixOf u = true := (isPrefixOf_iff _ _).2 ⟨_, this⟩
      simp only at h'
      rw [h'] at h''
      cases h''
  have hsplit : (if List.replicate k ' ' ++ p ++ (v ++ t) = [] then (([] : Str), ([] : Str)) else splitUnit (List.replicate k ' ' ++ p ++ (v ++ t))) = (p, v) := by
    split
    · rename_i he
      simp only [List.append_eq_nil_iff] at he
      rw [he.1.2, he.2.1]
    · by_cases hp0 : p = []
      · subst hp0
        rw [List.append_nil]
        exact split_plain hvn ht hvs hplain k
      · exact split_prefix hpa hp0 hvn ht k
  unfold toInternal
  rw [if_neg hne, hfam]
  simp only [hsplit, hpl, hv, hul]

/-- **In one way only**: the same text is not two different combinations of prefix and unit. -/
theorem decomposition_unique {fam : Str} {units : List (Str × Rat)} (hf : (fam, units) ∈ unitMap) {p q u v : Str} {f f' g g' : Rat} (hp : (p, g) ∈ unitPrefix) (hq : (q, g') ∈ unitPrefix)
    (hu : (u, f) ∈ units) (hv : (v, f') ∈ units) (h : p ++ u = q ++ v) : p = q ∧ u = v ∧ f = f' ∧ g = g' := by
  have hpa : p ∈ alternatives := (alternatives_eq p).2 (List.mem_map.2 ⟨_, hp, rfl⟩)
  have hqa : q ∈ alternatives := (alternatives_eq q).2 (List.mem_map.2 ⟨_, hq, rfl⟩)
  have hpq : p = q := by
    by_cases hp0 : p = []
    · by_cases hq0 : q = []
      · rw [hp0, hq0]
      · subst hp0
        have := units_plain _ hf _ hu q hqa hq0
        rw [List.nil_append] at h
        have h' := (isPrefixOf_iff q u).2 ⟨v, h⟩
        simp only at this
        rw [this] at h'
        cases h'
    · by_cases hq0 : q = []
      · subst hq0
        have := units_plain _ hf _ hv p hpa hp0
        rw [List.nil_append] at h
        have h' := (isPrefixOf_iff p v).2 ⟨u, h.symm⟩
        simp only at this
        rw [this] at h'
        cases h'
      · have h1 := firstAlt_prefix hpa hp0 u
        have h2 := firstAlt_prefix hqa hq0 v
        rw [h] at h1
        exact h1.symm.trans h2
  subst hpq
  have huv := List.append_cancel_left h
  subst huv
  have e1 := mem_look (tables_distinct.2.1 _ hf) hu
  have e2 := mem_look (tables_distinct.2.1 _ hf) hv
  have e3 := mem_look tables_distinct.2.2 hp
  have e4 := mem_look tables_distinct.2.2 hq
  rw [e1] at e2; rw [e3] at e4
  injection e2 with e2; injection e4 with e4
  exact ⟨rfl, rfl, e2, e4⟩

/-- What an accepted conversion does. -/
theorem accepted_form {fam unit : Str} {x y : Rat} (h : toInternal fam unit x = .ok y) : ∃ c : Rat, 0 < c ∧ ∀ z, toInternal fam unit z = .ok (z * c) := by
  unfold toInternal at h ⊢
  by_cases hn : fam = kNumber
  · simp only [if_pos hn]
    exact ⟨1, by decide +kernel, fun z => by rw [Rat.mul_one]⟩
  simp only [if_neg hn] at h ⊢
  cases hf : look unitMap fam with
  | none => rw [hf] at h; cases h
  | some units =>
    rw [hf] at h
    simp only at h ⊢
    generalize (if unit = [] then (([] : Str), ([] : Str)) else splitUnit unit) = pb at h ⊢
    cases hp : look unitPrefix pb.1 with
    | none => rw [hp] at h; cases h
    | some g =>
      rw [hp] at h
      simp only at h ⊢
      cases hu : look units (lower pb.2) with
      | none => rw [hu] at h; cases h
      | some f =>
        have h1 := factors_positive.1 _ (look_mem hf) _ (look_mem hu)
        have h2 := factors_positive.2 _ (look_mem hp)
        exact ⟨f * g, Rat.mul_pos h1 h2, fun z => by simp only [Rat.mul_assoc]⟩

/-- The unit is known for this family. -/
def Accepted (fam unit : Str) : Prop := ∃ c, toInternal fam unit 1 = .ok c

/-- **Round trip** for every unit that is accepted: to internal units and back, and the other way round. -/
theorem round_trip {fam unit : Str} (h : Accepted fam unit) (x : Rat) :
    (∃ y, toInternal fam unit x = .ok y ∧ toUser fam unit y = .ok x) ∧ ∃ y, toUser fam unit x = .ok y ∧ toInternal fam unit y = .ok x := by
  obtain ⟨_, h⟩ := h
  obtain ⟨c, hc, hz⟩ := accepted_form h
  have hc0 : c ≠ 0 := fun e => by rw [e] at hc; exact absurd hc (by decide)
  have hu : ∀ z, toUser fam unit z = .ok (z / c) := by
    intro z
    unfold toUser
    rw [hz 1]
    simp
  refine ⟨⟨_, hz x, ?_⟩, ⟨_, hu x, ?_⟩⟩
  · rw [hu]; congr 1; field_simp
  · rw [hz]; congr 1; field_simp

/-- **What is accepted**: for a family of the table, blanks, a prefix of the table, a unit of the family in any capitalisation, and either the end or a
line break. -/
theorem accepted_iff (fam unit : Str) : Accepted fam unit ↔ fam = kNumber ∨ ∃ units, (fam, units) ∈ unitMap ∧
    ∃ (k : Nat) (p v t : Str), unit = List.replicate k ' ' ++ p ++ (v ++ t) ∧ p ∈ unitPrefix.map (·.1) ∧ lower v ∈ units.map (·.1) ∧ Rest t := by
  constructor
  · rintro ⟨c, h⟩
    unfold toInternal at h
    by_cases hn : fam = kNumber
    · exact .inl hn
    right
    simp only [if_neg hn] at h
    cases hf : look unitMap fam with
    | none => rw [hf] at h; cases h
    | some units =>
      rw [hf] at h
      simp only at h
      refine ⟨units, look_mem hf, ?_⟩
      cases hp : look unitPrefix (if unit = [] then (([] : Str), ([] : Str)) else splitUnit unit).1 with
      | none => rw [hp] at h; cases h
      | some g =>
        rw [hp] at h
        simp only at h
        cases hu : look units (lower (if unit = [] then (([] : Str), ([] : Str)) else splitUnit unit).2) with
        | none => rw [hu] at h; cases h
        | some f =>
          have m1 := (List.mem_map (f := fun e : Str × Rat => e.1)).2 ⟨_, look_mem hp, rfl⟩
          have m2 := (List.mem_map (f := fun e : Str × Rat => e.1)).2 ⟨_, look_mem hu, rfl⟩
          by_cases h0 : unit = []
          · subst h0
            simp only [if_true] at m1 m2
            exact ⟨0, [], [], [], rfl, m1, m2, .inl rfl⟩
          · rw [if_neg h0] at m1 m2
            simp only [splitUnit] at m1 m2
            generalize hs : unit.dropWhile (fun c => decide (c = ' ')) = s at m1 m2
            have hal := firstAlt_mem alternatives s (by decide +kernel)
            obtain ⟨r, hr⟩ := (isPrefixOf_iff _ _).1 hal.2
            generalize hpp : firstAlt alternatives s = p at m1 m2 hr
            refine ⟨(unit.takeWhile (fun c => decide (c = ' '))).length, p, (s.drop p.length).takeWhile (fun c => decide (c ≠ '\n')), (s.drop p.length).dropWhile (fun c => decide (c ≠ '\n')),
              ?_, m1, m2, ?_⟩
            · rw [List.takeWhile_append_dropWhile]
              have e1 : p ++ s.drop p.length = s := by rw [hr, List.drop_left]
              rw [List.append_assoc, e1]
              have e2 : List.replicate (unit.takeWhile (fun c => decide (c = ' '))).length ' ' = unit.takeWhile (fun c => decide (c = ' ')) := by
                symm
                rw [List.eq_replicate_iff]
                refine ⟨rfl, fun b hb => ?_⟩
                have := List.all_takeWhile (p := fun c => decide (c = ' ')) (l := unit)
                rw [List.all_eq_true] at this
                simpa using this b hb
              rw [e2, ← hs, List.takeWhile_append_dropWhile]
            · generalize s.drop p.length = w
              induction w with
              | nil => exact .inl rfl
              | cons c w ih =>
                by_cases hc : c = '\n'
                · subst hc; exact .inr rfl
                · rw [List.dropWhile_cons_of_pos (by simpa using hc)]; exact ih
  · rintro (h | ⟨units, hf, k, p, v, t, rfl, hp, hv, ht⟩)
    · exact ⟨1, by unfold toInternal; rw [if_pos h]⟩
    · obtain ⟨⟨p', g⟩, hpm, rfl⟩ := List.mem_map.1 hp
      obtain ⟨⟨u, f⟩, hu, hv⟩ := List.mem_map.1 hv
      exact ⟨_, unit_value hf hpm hu hv.symm ht k 1⟩

/-- **Unknown families** are rejected. -/
theorem unknown_family {fam unit : Str} {x : Rat} (h : fam ∉ unitMap.map (·.1)) (hn : fam ≠ kNumber) : toInternal fam unit x = .error .indexError := by
  have : look unitMap fam = none := by
    cases hl : look unitMap fam with
    | none => rfl
    | some u => exact absurd (List.mem_map.2 ⟨_, look_mem hl, rfl⟩) h
  unfold toInternal
  rw [if_neg hn, this]

/-- A rejected unit raises `TypeError` for every number. -/
theorem unknown_unit {fam unit : Str} (hf : fam ∈ unitMap.map (·.1)) (h : ¬ Accepted fam unit) (x : Rat) : toInternal fam unit x = .error .typeError := by
  obtain ⟨⟨fam', units⟩, hm, he⟩ := List.mem_map.1 hf
  have he : fam' = fam := he
  subst he
  have hl := mem_look tables_distinct.1 hm
  have hn : fam' ≠ kNumber := fun e => by rw [e, number_not_family] at hl; cases hl
  cases ht : toInternal fam' unit x with
  | ok y =>
    obtain ⟨c, _, hz⟩ := accepted_form ht
    exact absurd ⟨_, hz 1⟩ h
  | error e =>
    simp only [toInternal, if_neg hn, hl] at ht
    split at ht
    · injection ht with ht; rw [ht]
    · split at ht
      · injection ht with ht; rw [ht]
      · cases ht

/-- Leading blanks are skipped but a blank after the unit makes it unknown. -/
theorem trailing_blank : toInternal "length".toList " angstrom".toList 1 = .ok (dec 18897261 7) ∧ toInternal "length".toList "angstrom ".toList 1 = .error .typeError := by
  decide +kernel

/-- Everything after a line break is ignored. -/
theorem after_line_ignored : toInternal "length".toList "angstrom\nmeter".toList 1 = .ok (dec 18897261 7) := by decide +kernel

/-! ### C62: the tables agree with each other -/

/-- a and b differ by less than one part in 10^e. -/
def Near (a b : Rat) (e : Nat) : Prop := (a - b) * 10 ^ e < b ∧ (b - a) * 10 ^ e < b

instance (a b : Rat) (e : Nat) : Decidable (Near a b e) := inferInstanceAs (Decidable (_ ∧ _))

/-- Factor of a unit. -/
def factor (fam unit : String) : Rat :=
  match toInternal fam.toList unit.toList 1 with
  | .ok c => c
  | .error _ => 0

/-- Joule: 1 eV is 1.602176634e-19 J. -/
def joule : Rat := factor "energy" "electronvolt" / dec 1602176634 28

/-- **The same quantity** through different families gives the same number, to about the printed digits: Å³, m/s, eV/Å, V/Å, eV/Å², eV/Å³, e·Å, N, J·s, J/mol, kelvin, g/cm³,
bar and atmosphere. -/
theorem tables_consistent_partial :
    Near (factor "volume" "angstrom3") (factor "length" "angstrom" ^ 3) 9 ∧
    factor "length" "meter" = factor "length" "angstrom" * 10 ^ 10 ∧
    Near (factor "velocity" "m/s") (factor "length" "meter" / factor "time" "second") 8 ∧
    Near (factor "force" "ev/ang") (factor "energy" "electronvolt" / factor "length" "angstrom") 6 ∧
    Near (factor "electric-field" "v/ang") (factor "energy" "electronvolt" / factor "length" "angstrom") 6 ∧
    Near (factor "hessian" "ev/ang^2") (factor "energy" "electronvolt" / factor "length" "angstrom" ^ 2) 6 ∧
    Near (factor "pressure" "ev/ang3") (factor "energy" "electronvolt" / factor "length" "angstrom" ^ 3) 6 ∧
    factor "electric-dipole" "eang" = factor "length" "angstrom" ∧
    Near (factor "force" "newton") (joule / factor "length" "meter") 7 ∧
    Near (factor "action" "joule*second") (joule * factor "time" "second") 7 ∧
    Near (factor "energy" "j/mol") (joule / (602214076 * 10 ^ 15)) 7 ∧
    factor "energy" "kelvin" = factor "temperature" "kelvin" ∧
    Near (factor "energy" "kelvin") (joule * dec 1380649 29) 5 ∧
    Near (factor "density" "g/cm3") (factor "mass" "dalton" * (602214076 * 10 ^ 15) / (factor "length" "meter" / 100) ^ 3) 6 ∧
    Near (factor "frequency" "hertz*rad") (1 / factor "time" "second") 7 ∧
    factor "pressure" "bar" = 100000 * factor "pressure" "pascal" ∧
    Near (factor "pressure" "atmosphere") (101325 * factor "pressure" "pascal") 9 ∧
    factor "frequency" "hz" = factor "frequency" "hertz" ∧ factor "frequency" "thz" = factor "frequency" "terahertz" := by
  decide +kernel

/-- **The pascal is not a newton per square metre**, nor compatible with eV/Å³: off by three parts in 10^5, although every other entry holds to 10^-5 or better. -/
theorem pascal_inconsistent :
    ¬ Near (factor "pressure" "pascal") (factor "force" "newton" / factor "length" "meter" ^ 2) 5 ∧
    ¬ Near (factor "pressure" "pascal" * dec 1602176634 28 * 10 ^ 30) (factor "pressure" "ev/ang3") 5 ∧
    Near (factor "pressure" "pascal") (factor "force" "newton" / factor "length" "meter" ^ 2) 4 := by decide +kernel

/-- **The calorie** of the table is 4.1868 J (International Table), not the thermochemical 4.184 J. -/
theorem calorie_is_international :
    Near (factor "energy" "cal/mol") (dec 41868 4 * factor "energy" "j/mol") 6 ∧ ¬ Near (factor "energy" "cal/mol") (dec 4184 3 * factor "energy" "j/mol") 4 := by decide +kernel

/-- The powers of ten of the prefixes. -/
def siPower : List (Str × Int) :=
  [("".toList, 0), ("yotta".toList, 24), ("zetta".toList, 21), ("exa".toList, 18), ("peta".toList, 15), ("tera".toList, 12), ("giga".toList, 9),
   ("mega".toList, 6), ("kilo".toList, 3), ("milli".toList, -3), ("micro".toList, -6), ("nano".toList, -9), ("pico".toList, -12), ("femto".toList, -15),
   ("atto".toList, -18), ("zepto".toList, -21), ("yocto".toList, -24)]

/-- Each prefix multiplies by its power of ten. -/
theorem prefix_values : unitPrefix = siPower.map fun e => (e.1, (10 : Rat) ^ e.2) := by decide +kernel

/-! ### the theorems are not vacuous -/

example : toInternal "energy".toList "  kiloCal/mol".toList 2 = .ok (2 * dec 15946679 13 * 1000) := by decide +kernel
example : Accepted "time".toList "femtosecond".toList := ⟨_, (by decide +kernel : toInternal "time".toList "femtosecond".toList 1 = .ok (sci 41341373 9 / 10 ^ 15))⟩
example : splitUnit "picometer".toList = ("pico".toList, "meter".toList) := by decide +kernel

end Verif.Units
