import Verif.Io.InputModel
import Verif.Props.C27_Xml
import Verif.Io.ValuesLemmas
/-!
# C28: omitting default values from a checkpoint is harmless

For every input class (any nesting of attributes, values, fields with or without defaults, dynamic fields) and every contents whose values
are readable back one by one, parsing the text of `Input.write`, through the XML parser, gives back the same contents, although
everything that equals its default was left out. Undeclared tags and attributes and missing mandatory ones are always rejected. A
repeated field is accepted and the last one wins.
-/
namespace Verif.Inp
open Verif.Text Verif.Xml

variable {V : Type}

/-! ### what fits a class -/

/-- Attribute values that are plain and read back. -/
def FitAttrs : List (Attr V) → List V → Prop
  | [], [] => True
  | a :: as, v :: vs => (a.leaf.rd (a.leaf.wr v) = some v ∧ PlainValue (a.leaf.wr v)) ∧ FitAttrs as vs
  | _, _ => False

/-- The own value is plain and is read back whatever blanks surround it. -/
def FitOwn : Option (Leaf V) → Option V → Prop
  | none, none => True
  | some l, some v => PlainText (l.wr v) ∧ ∀ s, strip s = strip (l.wr v) → l.rd s = some v
  | _, _ => False

mutual
def Fit : Spec V → State V → Prop
  | .mk attribs leaf fields dyn, .mk attrs val fs extra =>
    FitAttrs attribs attrs ∧ FitOwn leaf val ∧ FitFields fields fs ∧ ∀ e ∈ extra, FitDyn dyn e.1 e.2
def FitFields : Fields V → List (State V) → Prop
  | .nil, [] => True
  | .cons _ spec _ rest, st :: sts => Fit spec st ∧ FitFields rest sts
  | _, _ => False
def FitDyn : Dyns V → Str → State V → Prop
  | .nil, _, _ => False
  | .cons n spec rest, name, st => if n = name then Fit spec st else FitDyn rest name st
end

def fieldNames : Fields V → List Str
  | .nil => []
  | .cons n _ _ rest => n :: fieldNames rest

def dynNames : Dyns V → List Str
  | .nil => []
  | .cons n _ rest => n :: dynNames rest

mutual
/-- Declarations that make sense: distinct plain names, a name is not both field and dynamic field, defaults fit. -/
def OkSpec : Spec V → Prop
  | .mk attribs _ fields dyn =>
    ((attribs.map (·.name)).Nodup ∧ ∀ a ∈ attribs, PlainName a.name ∧ ∀ d, a.default = some d → a.leaf.rd (a.leaf.wr d) = some d) ∧
      OkFields fields ∧ OkDyns dyn ∧ ∀ n ∈ dynNames dyn, n ∉ fieldNames fields
def OkFields : Fields V → Prop
  | .nil => True
  | .cons name spec default rest =>
    PlainName name ∧ OkSpec spec ∧ (∀ d, default = some d → Fit spec d) ∧ name ∉ fieldNames rest ∧ OkFields rest
def OkDyns : Dyns V → Prop
  | .nil => True
  | .cons name spec rest => PlainName name ∧ OkSpec spec ∧ OkDyns rest
end

/-! ### what is written is plain -/

theorem writeAttribs_plain : ∀ (as : List (Attr V)) (vs : List V), (as.map (·.name)).Nodup → (∀ a ∈ as, PlainName a.name) → FitAttrs as vs →
    PlainAttrs (writeAttribs as vs) ∧ ∀ n ∈ (writeAttribs as vs).map (·.1), n ∈ as.map (·.name) := by
  intro as
  induction as with
  | nil => intro vs _ _ _; exact ⟨⟨by simp [writeAttribs], by simp [writeAttribs]⟩, by simp [writeAttribs]⟩
  | cons a as ih =>
    intro vs hn hp hf
    cases vs with
    | nil => cases hf
    | cons v vs =>
      simp only [List.map_cons, List.nodup_cons] at hn
      obtain ⟨h1, h2⟩ := ih vs hn.2 (fun b hb => hp b (List.mem_cons_of_mem _ hb)) hf.2
      simp only [writeAttribs]
      split
      · exact ⟨h1, fun n hm => List.mem_cons_of_mem _ (h2 n hm)⟩
      · refine ⟨⟨?_, ?_⟩, ?_⟩
        · simp only [List.map_cons, List.nodup_cons]
          exact ⟨fun hm => hn.1 (h2 _ hm), h1.nodup⟩
        · intro p hpm
          rcases List.mem_cons.1 hpm with rfl | hpm
          · exact ⟨hp a List.mem_cons_self, hf.1.2⟩
          · exact h1.plain p hpm
        · intro n hm
          simp only [List.map_cons, List.mem_cons] at hm ⊢
          rcases hm with rfl | hm
          · exact .inl rfl
          · exact .inr (h2 n hm)

theorem ownText_plain {l : Option (Leaf V)} {v : Option V} (h : FitOwn l v) : PlainText (ownText l v) := by
  match l, v, h with
  | none, none, _ => intro c hc; simp only [ownText, List.mem_singleton] at hc; subst hc; decide
  | some l, some v, h => exact h.1

theorem plainL_append {a b : List Node} (ha : PlainL a) (hb : PlainL b) : PlainL (a ++ b) := by
  induction a with
  | nil => exact hb
  | cons k a ih => exact ⟨ha.1, ih ha.2⟩

theorem plainL_flatten {l : List (List Node)} (h : ∀ x ∈ l, PlainL x) : PlainL l.flatten := by
  induction l with
  | nil => exact trivial
  | cons a l ih => exact plainL_append (h a List.mem_cons_self) (ih fun x hx => h x (List.mem_cons_of_mem _ hx))

mutual
theorem plain_toNode (sp : Spec V) (name : Str) (st : State V) (h : OkSpec sp) (hn : PlainName name) (hf : Fit sp st) : Plain (toNode sp name st) := by
  match sp, st with
  | .mk attribs leaf fields dyn, .mk attrs val fs extra =>
    obtain ⟨⟨h1, h2⟩, h3, h4, _⟩ := h
    obtain ⟨f1, f2, f3, f4⟩ := hf
    refine ⟨hn, (writeAttribs_plain attribs attrs h1 (fun a ha => (h2 a ha).1) f1).1, ownText_plain f2, ?_⟩
    refine plainL_append (plain_writeFields fields fs h3 f3) (plainL_flatten ?_)
    intro x hx
    obtain ⟨e, he, rfl⟩ := List.mem_map.1 hx
    exact plain_writeDyn dyn e.1 e.2 h4 (f4 e he)
theorem plain_writeFields (fields : Fields V) (fs : List (State V)) (h : OkFields fields) (hf : FitFields fields fs) : PlainL (writeFields fields fs) := by
  match fields, fs with
  | .nil, [] => exact trivial
  | .nil, _ :: _ => exact hf.elim
  | .cons _ _ _ _, [] => exact hf.elim
  | .cons name spec default rest, st :: sts =>
    simp only [writeFields]
    refine plainL_append ?_ (plain_writeFields rest sts h.2.2.2.2 hf.2)
    split
    · exact trivial
    · exact ⟨plain_toNode spec name st h.2.1 h.1 hf.1, trivial⟩
theorem plain_writeDyn (dyn : Dyns V) (name : Str) (st : State V) (h : OkDyns dyn) (hf : FitDyn dyn name st) : PlainL (writeDyn dyn name st) := by
  match dyn with
  | .nil => exact hf.elim
  | .cons n spec rest =>
    simp only [FitDyn] at hf
    simp only [writeDyn]
    split
    · rename_i hn
      rw [if_pos hn] at hf
      exact ⟨plain_toNode spec name st h.2.1 (hn ▸ h.1) hf, trivial⟩
    · rename_i hn
      rw [if_neg hn] at hf
      exact plain_writeDyn rest name st h.2.2 hf
end

/-! ### reading attributes -/

theorem find_name {as : List (Attr V)} (hn : (as.map (·.name)).Nodup) {a : Attr V} (ha : a ∈ as) : as.find? (fun d => d.name = a.name) = some a := by
  induction as with
  | nil => cases ha
  | cons b as ih =>
    simp only [List.map_cons, List.nodup_cons] at hn
    rcases List.mem_cons.1 ha with rfl | ha
    · simp
    · have : b.name ≠ a.name := fun e => hn.1 (e ▸ List.mem_map_of_mem ha)
      simp only [List.find?_cons, this, decide_false]
      exact ih hn.2 ha

/-- Attributes as pairs of name and value that are written. -/
def given : List (Attr V) → List V → List (Str × V)
  | a :: as, v :: vs => if a.default.map a.leaf.wr = some (a.leaf.wr v) then given as vs else (a.name, v) :: given as vs
  | _, _ => []

theorem readAttrs_write {all : List (Attr V)} (hn : (all.map (·.name)).Nodup) : ∀ (as : List (Attr V)) (vs : List V), (∀ a ∈ as, a ∈ all) →
    FitAttrs as vs → readAttrs all (writeAttribs as vs) = some (given as vs) := by
  intro as
  induction as with
  | nil => intro vs _ _; simp [writeAttribs, given, readAttrs]
  | cons a as ih =>
    intro vs hs hf
    cases vs with
    | nil => cases hf
    | cons v vs =>
      have := ih vs (fun b hb => hs b (List.mem_cons_of_mem _ hb)) hf.2
      simp only [writeAttribs, given]
      split
      · exact this
      · simp only [readAttrs, find_name hn (hs a List.mem_cons_self), hf.1.1, this]

theorem given_names : ∀ (as : List (Attr V)) (vs : List V), ∀ n ∈ (given as vs).map (·.1), n ∈ as.map (·.name) := by
  intro as
  induction as with
  | nil => intro vs n h; simp [given] at h
  | cons a as ih =>
    intro vs n h
    cases vs with
    | nil => simp [given] at h
    | cons v vs =>
      simp only [given] at h
      split at h
      · exact List.mem_cons_of_mem _ (ih vs n h)
      · simp only [List.map_cons, List.mem_cons] at h ⊢
        rcases h with rfl | h
        · exact .inl rfl
        · exact .inr (ih vs n h)

theorem find_none {W : Type} {l : List (Str × W)} {n : Str} (h : n ∉ l.map (·.1)) : l.find? (fun g => g.1 = n) = none := by
  rw [List.find?_eq_none]
  intro x hx
  simp only [decide_eq_true_eq]
  intro e
  exact h (e ▸ List.mem_map_of_mem hx)

theorem find_unique {W : Type} {l : List (Str × W)} (hn : (l.map (·.1)).Nodup) {n : Str} {w : W} (h : (n, w) ∈ l) :
    l.find? (fun g => g.1 = n) = some (n, w) := by
  induction l with
  | nil => cases h
  | cons b l ih =>
    simp only [List.map_cons, List.nodup_cons] at hn
    rcases List.mem_cons.1 h with rfl | h
    · simp
    · have : b.1 ≠ n := fun e => hn.1 (by rw [e]; exact List.mem_map_of_mem (f := (·.1)) h)
      simp only [List.find?_cons, this, decide_false]
      exact ih hn.2 h

theorem fillAttrs_write : ∀ (as : List (Attr V)) (vs : List V) (pre : List (Str × V)), (as.map (·.name)).Nodup →
    (∀ a ∈ as, ∀ d, a.default = some d → a.leaf.rd (a.leaf.wr d) = some d) → (∀ n ∈ pre.map (·.1), n ∉ as.map (·.name)) →
    FitAttrs as vs → fillAttrs (pre ++ given as vs) as = some vs := by
  intro as
  induction as with
  | nil =>
    intro vs pre _ _ _ hf
    cases vs with
    | nil => rfl
    | cons v vs => cases hf
  | cons a as ih =>
    intro vs pre hn hd hp hf
    cases vs with
    | nil => cases hf
    | cons v vs =>
      simp only [List.map_cons, List.nodup_cons] at hn
      have hpre : a.name ∉ pre.map (·.1) := fun hm => hp _ hm (by simp)
      simp only [given, fillAttrs]
      by_cases he : a.default.map a.leaf.wr = some (a.leaf.wr v)
      · rw [if_pos he]
        have hv : a.default = some v := by
          cases hda : a.default with
          | none => rw [hda] at he; cases he
          | some d =>
            rw [hda] at he
            simp only [Option.map_some, Option.some.injEq] at he
            have h1 := hd a List.mem_cons_self d hda
            rw [he, hf.1.1] at h1
            exact h1.symm
        have hno : a.name ∉ (pre ++ given as vs).map (·.1) := by
          rw [List.map_append, List.mem_append, not_or]
          exact ⟨hpre, fun hm => hn.1 (given_names as vs _ hm)⟩
        rw [find_none hno, ih vs pre hn.2 (fun b hb => hd b (List.mem_cons_of_mem _ hb))
          (fun n hm hm' => hp n hm (by simp only [List.map_cons, List.mem_cons]; exact .inr hm')) hf.2, hv]
      · rw [if_neg he]
        have e : pre ++ (a.name, v) :: given as vs = (pre ++ [(a.name, v)]) ++ given as vs := by simp
        have h1 : (pre ++ (a.name, v) :: given as vs).find? (fun g => g.1 = a.name) = some (a.name, v) := by
          rw [List.find?_append, find_none hpre]; simp
        rw [h1, e, ih vs (pre ++ [(a.name, v)]) hn.2 (fun b hb => hd b (List.mem_cons_of_mem _ hb)) ?_ hf.2]
        intro n hm
        rw [List.map_append, List.mem_append] at hm
        rcases hm with hm | hm
        · exact fun hm' => hp n hm (by simp only [List.map_cons, List.mem_cons]; exact .inr hm')
        · simp only [List.map_cons, List.map_nil, List.mem_singleton] at hm
          subst hm
          exact hn.1

/-! ### the round trip -/

/-- The round trip for one class, for any tree that agrees with the written one up to blanks around texts. -/
def Good (sp : Spec V) : Prop :=
  OkSpec sp → ∀ name st t', Fit sp st → norm t' = norm (toNode sp name st) → parseSpec sp t' = some st

def AllF (P : Spec V → Prop) : Fields V → Prop
  | .nil => True
  | .cons _ spec _ rest => P spec ∧ AllF P rest

def AllD (P : Spec V → Prop) : Dyns V → Prop
  | .nil => True
  | .cons _ spec rest => P spec ∧ AllD P rest

theorem normL_map (ks : List Node) : normL ks = ks.map norm := by
  induction ks with
  | nil => rfl
  | cons k ks ih => simp only [normL, List.map_cons, ih]

/-- Equal written text means equal contents. -/
theorem same_text {sp : Spec V} (hg : Good sp) (hok : OkSpec sp) {name : Str} (hn : PlainName name) {st d : State V} (h1 : Fit sp st) (h2 : Fit sp d)
    (h : inputWrite [] (toNode sp name d) = inputWrite [] (toNode sp name st)) : d = st := by
  obtain ⟨t1, a1, b1⟩ := input_round_trip (plain_toNode sp name st hok hn h1)
  obtain ⟨t2, a2, b2⟩ := input_round_trip (plain_toNode sp name d hok hn h2)
  rw [h, a1] at a2
  injection a2 with a2
  subst a2
  have e1 := hg hok name st t1 h1 b1
  have e2 := hg hok name d t1 h2 b2
  rw [e1] at e2
  injection e2 with e2
  exact e2.symm

open Classical in
/-- Fields that are written, with their names. -/
noncomputable def pairs : Fields V → List (State V) → List (Str × State V)
  | .cons name spec default rest, st :: sts =>
    (if default.map (fun d => inputWrite [] (toNode spec name d)) = some (inputWrite [] (toNode spec name st)) then [] else [(name, st)]) ++ pairs rest sts
  | _, _ => []

theorem pairs_names : ∀ (fields : Fields V) (fs : List (State V)), ∀ n ∈ (pairs fields fs).map (·.1), n ∈ fieldNames fields := by
  intro fields fs
  match fields, fs with
  | .nil, _ => intro n h; simp [pairs] at h
  | .cons _ _ _ _, [] => intro n h; simp [pairs] at h
  | .cons name spec default rest, st :: sts =>
    intro n h
    simp only [pairs, List.map_append, List.mem_append] at h
    simp only [fieldNames, List.mem_cons]
    rcases h with h | h
    · split at h
      · cases h
      · simp only [List.map_cons, List.map_nil, List.mem_singleton] at h; exact .inl h
    · exact .inr (pairs_names rest sts n h)

theorem pairs_nodup : ∀ (fields : Fields V) (fs : List (State V)), OkFields fields → ((pairs fields fs).map (·.1)).Nodup := by
  intro fields fs h
  match fields, fs with
  | .nil, _ => simp [pairs]
  | .cons _ _ _ _, [] => simp [pairs]
  | .cons name spec default rest, st :: sts =>
    simp only [pairs, List.map_append]
    have ih := pairs_nodup rest sts h.2.2.2.2
    split
    · simpa using ih
    · simp only [List.map_cons, List.map_nil, List.singleton_append, List.nodup_cons]
      exact ⟨fun hm => h.2.2.2.1 (pairs_names rest sts _ hm), ih⟩

/-- `fillFields` gives the contents, for any list of parsed fields that is a rearrangement of the written ones. -/
theorem fillFields_write (l : List (Str × State V)) (hl : (l.map (·.1)).Nodup) : ∀ (fields : Fields V) (fs : List (State V)), OkFields fields → FitFields fields fs →
    AllF Good fields → (∀ p ∈ pairs fields fs, p ∈ l) → (∀ n ∈ fieldNames fields, n ∈ l.map (·.1) → n ∈ (pairs fields fs).map (·.1)) →
    fillFields l fields = some fs := by
  intro fields fs hok hf hg h1 h2
  match fields, fs with
  | .nil, [] => rfl
  | .nil, _ :: _ => exact hf.elim
  | .cons _ _ _ _, [] => exact hf.elim
  | .cons name spec default rest, st :: sts =>
    have ih := fillFields_write l hl rest sts hok.2.2.2.2 hf.2 hg.2 (fun p hp => h1 p (by simp only [pairs, List.mem_append]; exact .inr hp)) (by
      intro n hn hm
      have := h2 n (by simp only [fieldNames, List.mem_cons]; exact .inr hn) hm
      simp only [pairs, List.map_append, List.mem_append] at this
      rcases this with h | h
      · split at h
        · cases h
        · simp only [List.map_cons, List.map_nil, List.mem_singleton] at h
          subst h
          exact absurd hn hok.2.2.2.1
      · exact h)
    simp only [fillFields, ih]
    by_cases he : default.map (fun d => inputWrite [] (toNode spec name d)) = some (inputWrite [] (toNode spec name st))
    · have hno : name ∉ l.map (·.1) := by
        intro hm
        have := h2 name (by simp [fieldNames]) hm
        simp only [pairs, if_pos he, List.nil_append] at this
        exact hok.2.2.2.1 (pairs_names rest sts _ this)
      rw [find_none hno]
      cases hd : default with
      | none => rw [hd] at he; cases he
      | some d =>
        rw [hd] at he
        simp only [Option.map_some, Option.some.injEq] at he
        have := same_text hg.1 hok.2.1 hok.1 hf.1 (hok.2.2.1 d hd) he
        subst this
        rfl
    · have hm : (name, st) ∈ l := h1 _ (by simp only [pairs, if_neg he]; exact List.mem_append_left _ List.mem_cons_self)
      rw [find_unique hl hm]

theorem norm_name {n : Str} {as : List (Str × Str)} {ks : List Node} {t : Str} {k' : Node} (h : norm k' = norm (.mk n as ks t)) :
    ∃ ks' t', k' = .mk n as ks' t' ∧ normL ks' = normL ks ∧ strip t' = strip t := by
  obtain ⟨n', as', ks', t'⟩ := k'
  simp only [norm, Node.mk.injEq] at h
  obtain ⟨rfl, rfl, h3, h4⟩ := h
  exact ⟨ks', t', rfl, h3, h4⟩

theorem toNode_shape (sp : Spec V) (name : Str) (st : State V) : ∃ as ks t, toNode sp name st = .mk name as ks t := by
  match sp, st with
  | .mk attribs leaf fields dyn, .mk attrs val fs extra => exact ⟨_, _, _, rfl⟩

/-- One child that parses as a field. -/
theorem readKids_field {S : Type} {pf pd : Str → Node → Option (Option S)} {k : Node} {n : Str} {s : S} (hk : ∃ as ks t, k = .mk n as ks t)
    (h : pf n k = some (some s)) (rest : List Node) (got extra : List (Str × S)) :
    readKids pf pd (k :: rest) got extra = readKids pf pd rest ((n, s) :: got) extra := by
  obtain ⟨as, ks, t, rfl⟩ := hk
  simp only [readKids, h]

theorem readKids_dyn {S : Type} {pf pd : Str → Node → Option (Option S)} {k : Node} {n : Str} {s : S} (hk : ∃ as ks t, k = .mk n as ks t)
    (h0 : pf n k = none) (h : pd n k = some (some s)) (rest : List Node) (got extra : List (Str × S)) :
    readKids pf pd (k :: rest) got extra = readKids pf pd rest got (extra ++ [(n, s)]) := by
  obtain ⟨as, ks, t, rfl⟩ := hk
  simp only [readKids, h0, h]

/-- The written fields are read. -/
theorem readKids_fields {pf pd : Str → Node → Option (Option (State V))} : ∀ (fields : Fields V) (fs : List (State V)), OkFields fields → FitFields fields fs →
    AllF Good fields → (∀ n ∈ fieldNames fields, ∀ k, pf n k = parseField fields n k) →
    ∀ (ks' rest : List Node) (got extra : List (Str × State V)), ks'.map norm = (writeFields fields fs).map norm →
      readKids pf pd (ks' ++ rest) got extra = readKids pf pd rest ((pairs fields fs).reverse ++ got) extra := by
  intro fields fs hok hf hg hpf ks' rest got extra hks
  match fields, fs with
  | .nil, [] =>
    simp only [writeFields, List.map_nil, List.map_eq_nil_iff] at hks
    subst hks
    simp [pairs]
  | .nil, _ :: _ => exact hf.elim
  | .cons _ _ _ _, [] => exact hf.elim
  | .cons name spec default rest', st :: sts =>
    have hpf' : ∀ n ∈ fieldNames rest', ∀ k, pf n k = parseField rest' n k := by
      intro n hn k
      rw [hpf n (by simp only [fieldNames, List.mem_cons]; exact .inr hn) k]
      have : name ≠ n := fun e => hok.2.2.2.1 (e ▸ hn)
      simp only [parseField, if_neg this]
    have ih := readKids_fields (pf := pf) (pd := pd) rest' sts hok.2.2.2.2 hf.2 hg.2 hpf'
    simp only [writeFields, pairs] at hks ⊢
    by_cases he : default.map (fun d => inputWrite [] (toNode spec name d)) = some (inputWrite [] (toNode spec name st))
    · rw [if_pos he, List.nil_append] at hks
      rw [if_pos he, List.nil_append]
      exact ih ks' rest got extra hks
    · rw [if_neg he] at hks
      rw [if_neg he]
      cases ks' with
      | nil => simp at hks
      | cons k ks' =>
        simp only [List.singleton_append, List.map_cons, List.cons.injEq] at hks
        obtain ⟨as, ks0, t0, e0⟩ := toNode_shape spec name st
        have hk0 := hks.1
        rw [e0] at hk0
        obtain ⟨ks1, t1, rfl, _⟩ := norm_name hk0
        have hp : pf name (.mk name as ks1 t1) = some (some st) := by
          rw [hpf name (by simp [fieldNames])]
          simp only [parseField, if_true]
          rw [hg.1 hok.2.1 name st _ hf.1 hks.1]
        rw [List.cons_append, readKids_field ⟨_, _, _, rfl⟩ hp, ih ks' rest _ extra hks.2]
        simp

theorem parseField_none : ∀ (fields : Fields V) (n : Str) (k : Node), n ∉ fieldNames fields → parseField fields n k = none := by
  intro fields n k h
  match fields with
  | .nil => rfl
  | .cons name spec default rest =>
    simp only [fieldNames, List.mem_cons, not_or] at h
    simp only [parseField, if_neg (Ne.symm h.1)]
    exact parseField_none rest n k h.2

theorem dyn_one : ∀ (dyn : Dyns V) (name : Str) (st : State V), OkDyns dyn → AllD Good dyn → FitDyn dyn name st →
    name ∈ dynNames dyn ∧ ∃ k, writeDyn dyn name st = [k] ∧ (∃ as ks t, k = .mk name as ks t) ∧
      ∀ k', norm k' = norm k → parseDyn dyn name k' = some (some st) := by
  intro dyn name st hok hg hf
  match dyn with
  | .nil => exact hf.elim
  | .cons n spec rest =>
    simp only [FitDyn] at hf
    by_cases hn : n = name
    · subst hn
      rw [if_pos rfl] at hf
      refine ⟨by simp [dynNames], toNode spec n st, by simp [writeDyn], toNode_shape spec n st, ?_⟩
      intro k' hk'
      simp only [parseDyn, if_true]
      rw [hg.1 hok.2.1 n st k' hf hk']
    · rw [if_neg hn] at hf
      obtain ⟨h1, k, h2, h3, h4⟩ := dyn_one rest name st hok.2.2 hg.2 hf
      refine ⟨by simp only [dynNames, List.mem_cons]; exact .inr h1, k, by simp only [writeDyn, if_neg hn]; exact h2, h3, ?_⟩
      intro k' hk'
      simp only [parseDyn, if_neg hn]
      exact h4 k' hk'

/-- The dynamic fields are read in order. -/
theorem readKids_dyns {fields : Fields V} {dyn : Dyns V} (hok : OkDyns dyn) (hg : AllD Good dyn) (hd : ∀ n ∈ dynNames dyn, n ∉ fieldNames fields) :
    ∀ (es : List (Str × State V)) (ks' : List Node) (got extra : List (Str × State V)), (∀ e ∈ es, FitDyn dyn e.1 e.2) →
      ks'.map norm = ((es.map fun e => writeDyn dyn e.1 e.2).flatten).map norm →
      readKids (parseField fields) (parseDyn dyn) ks' got extra = some (got, extra ++ es) := by
  intro es
  induction es with
  | nil =>
    intro ks' got extra _ hks
    simp only [List.map_nil, List.flatten_nil, List.map_eq_nil_iff] at hks
    subst hks
    simp [readKids]
  | cons e es ih =>
    intro ks' got extra hf hks
    obtain ⟨n, st⟩ := e
    obtain ⟨h1, k, h2, ⟨as, ks, t, h3⟩, h4⟩ := dyn_one dyn n st hok hg (hf (n, st) List.mem_cons_self)
    simp only [List.map_cons, List.flatten_cons, h2, List.singleton_append] at hks
    cases ks' with
    | nil => simp at hks
    | cons k' ks' =>
      simp only [List.map_cons, List.cons.injEq] at hks
      have hk0 := hks.1
      rw [h3] at hk0
      obtain ⟨ks1, t1, rfl, _⟩ := norm_name hk0
      rw [readKids_dyn ⟨_, _, _, rfl⟩ (parseField_none fields n _ (hd n h1)) (h4 _ hks.1), ih ks' got _ (fun x hx => hf x (List.mem_cons_of_mem _ hx)) hks.2]
      simp

theorem readOwn_write {l : Option (Leaf V)} {v : Option V} (h : FitOwn l v) {s : Str} (hs : strip s = strip (ownText l v)) : readOwn l s = some v := by
  match l, v, h with
  | none, none, _ => rfl
  | some l, some v, h => simp only [readOwn]; rw [h.2 s hs]; rfl

mutual
theorem good (sp : Spec V) : Good sp := by
  match sp with
  | .mk attribs leaf fields dyn =>
    intro hok name st t' hfit hnorm
    obtain ⟨attrs, val, fs, extra⟩ := st
    obtain ⟨⟨h1, h2⟩, h3, h4, h5⟩ := hok
    obtain ⟨f1, f2, f3, f4⟩ := hfit
    simp only [toNode] at hnorm
    obtain ⟨ks', t'', rfl, hk, ht⟩ := norm_name hnorm
    have hA : (readAttrs attribs (writeAttribs attribs attrs)).bind (fun g => fillAttrs g attribs) = some attrs := by
      rw [readAttrs_write h1 attribs attrs (fun a ha => ha) f1]
      have := fillAttrs_write attribs attrs [] h1 (fun a ha => (h2 a ha).2) (by simp) f1
      simpa using this
    rw [normL_map, normL_map, List.map_append, List.map_eq_append_iff] at hk
    obtain ⟨k1, k2, rfl, hk1, hk2⟩ := hk
    have hK : readKids (parseField fields) (parseDyn dyn) (k1 ++ k2) [] [] = some ((pairs fields fs).reverse, extra) := by
      rw [readKids_fields fields fs h3 f3 (goodF fields) (fun _ _ _ => rfl) k1 k2 [] [] hk1,
        readKids_dyns h4 (goodD dyn) h5 extra k2 _ [] f4 hk2]
      simp
    have hF : fillFields (pairs fields fs).reverse fields = some fs := by
      refine fillFields_write _ ?_ fields fs h3 f3 (goodF fields) (fun p hp => List.mem_reverse.2 hp) ?_
      · rw [List.map_reverse]; 
        rw [List.nodup_iff_pairwise_ne, List.pairwise_reverse]
        exact (List.nodup_iff_pairwise_ne.1 (pairs_nodup fields fs h3)).imp fun h => Ne.symm h
      · intro n _ hm
        rw [List.map_reverse, List.mem_reverse] at hm
        exact hm
    simp only [parseSpec, hA, hK, readOwn_write f2 ht, hF, Option.map_some]
theorem goodF (fields : Fields V) : AllF Good fields := by
  match fields with
  | .nil => exact trivial
  | .cons name spec default rest => exact ⟨good spec, goodF rest⟩
theorem goodD (dyn : Dyns V) : AllD Good dyn := by
  match dyn with
  | .nil => exact trivial
  | .cons name spec rest => exact ⟨good spec, goodD rest⟩
end

/-- Writing and parsing gives back the contents. -/
theorem default_omission_harmless {sp : Spec V} (hok : OkSpec sp) {name : Str} (hn : PlainName name) {st : State V} (hf : Fit sp st) :
    (parseDoc (inputWrite [] (toNode sp name st))).bind (parseSpec sp) = some st := by
  obtain ⟨t', h1, h2⟩ := input_round_trip (plain_toNode sp name st hok hn hf)
  rw [h1]
  exact good sp hok name st t' hf h2

/-! ### what is rejected -/

theorem parseDyn_none : ∀ (dyn : Dyns V) (n : Str) (k : Node), n ∉ dynNames dyn → parseDyn dyn n k = none := by
  intro dyn n k h
  match dyn with
  | .nil => rfl
  | .cons name spec rest =>
    simp only [dynNames, List.mem_cons, not_or] at h
    simp only [parseDyn, if_neg (Ne.symm h.1)]
    exact parseDyn_none rest n k h.2

theorem readKids_unknown {S : Type} {pf pd : Str → Node → Option (Option S)} {n : Str} (hf : ∀ k, pf n k = none) (hd : ∀ k, pd n k = none) :
    ∀ (ks : List Node) (got extra : List (Str × S)), (∃ as ks' t, Node.mk n as ks' t ∈ ks) → readKids pf pd ks got extra = none := by
  intro ks
  induction ks with
  | nil => rintro got extra ⟨as, ks', t, h⟩; cases h
  | cons k ks ih =>
    rintro got extra ⟨as, ks', t, h⟩
    obtain ⟨n', as', k'', t'⟩ := k
    simp only [readKids]
    rcases List.mem_cons.1 h with h | h
    · simp only [Node.mk.injEq] at h
      obtain ⟨rfl, rfl, rfl, rfl⟩ := h
      simp only [hf, hd]
    · split
      · exact ih _ _ ⟨as, ks', t, h⟩
      · rfl
      · split
        · exact ih _ _ ⟨as, ks', t, h⟩
        · rfl
        · rfl

/-- A tag that is not declared is rejected, wherever it stands and whatever it contains. -/
theorem unknown_tag_rejected (attribs : List (Attr V)) (leaf : Option (Leaf V)) (fields : Fields V) (dyn : Dyns V) {n : Str} (h1 : n ∉ fieldNames fields)
    (h2 : n ∉ dynNames dyn) {name : Str} {as : List (Str × Str)} {ks : List Node} {t : Str} (h : ∃ as' ks' t', Node.mk n as' ks' t' ∈ ks) :
    parseSpec (.mk attribs leaf fields dyn) (.mk name as ks t) = none := by
  simp only [parseSpec]
  rw [readKids_unknown (fun k => parseField_none fields n k h1) (fun k => parseDyn_none dyn n k h2) ks [] [] h]
  split
  · rename_i heq _; cases heq
  · rfl

/-- An attribute that is not declared is rejected. -/
theorem unknown_attribute_rejected (attribs : List (Attr V)) (leaf : Option (Leaf V)) (fields : Fields V) (dyn : Dyns V) {a : Str} (h1 : a ∉ attribs.map (·.name))
    {name : Str} {as : List (Str × Str)} (h : a ∈ as.map (·.1)) {ks : List Node} {t : Str} :
    parseSpec (.mk attribs leaf fields dyn) (.mk name as ks t) = none := by
  have : readAttrs attribs as = none := by
    clear name ks t
    induction as with
    | nil => simp at h
    | cons p as ih =>
      obtain ⟨b, s⟩ := p
      simp only [readAttrs]
      simp only [List.map_cons, List.mem_cons] at h
      rcases h with rfl | h
      · have hn : attribs.find? (fun d => d.name = a) = none := by
          rw [List.find?_eq_none]
          intro x hx
          simp only [decide_eq_true_eq]
          exact fun e => h1 (e ▸ List.mem_map_of_mem hx)
        rw [hn]
      · rw [ih h]
        split
        · rfl
        · split
          · rename_i heq; cases heq
          · rfl
  simp only [parseSpec, this, Option.bind_none]

/-- What is parsed as a field comes from a child of that name. -/
theorem readKids_got {S : Type} {pf pd : Str → Node → Option (Option S)} : ∀ (ks : List Node) (got extra got' extra' : List (Str × S)),
    readKids pf pd ks got extra = some (got', extra') → ∀ n ∈ got'.map (·.1), n ∈ got.map (·.1) ∨ ∃ as ks' t, Node.mk n as ks' t ∈ ks := by
  intro ks
  induction ks with
  | nil =>
    intro got extra got' extra' h n hn
    simp only [readKids, Option.some.injEq, Prod.mk.injEq] at h
    rw [← h.1] at hn
    exact .inl hn
  | cons k ks ih =>
    intro got extra got' extra' h n hn
    obtain ⟨m, as, k', t⟩ := k
    simp only [readKids] at h
    split at h
    · rcases ih _ _ _ _ h n hn with h1 | ⟨a, b, c, h1⟩
      · simp only [List.map_cons, List.mem_cons] at h1
        rcases h1 with rfl | h1
        · exact .inr ⟨as, k', t, List.mem_cons_self⟩
        · exact .inl h1
      · exact .inr ⟨a, b, c, List.mem_cons_of_mem _ h1⟩
    · cases h
    · split at h
      · rcases ih _ _ _ _ h n hn with h1 | ⟨a, b, c, h1⟩
        · exact .inl h1
        · exact .inr ⟨a, b, c, List.mem_cons_of_mem _ h1⟩
      · cases h
      · cases h

/-- A declared field without default. -/
def Mandatory (n : Str) : Fields V → Prop
  | .nil => False
  | .cons name _ default rest => (name = n ∧ default = none) ∨ Mandatory n rest

theorem fillFields_missing {got : List (Str × State V)} {n : Str} (hg : n ∉ got.map (·.1)) : ∀ (fields : Fields V), Mandatory n fields → fillFields got fields = none := by
  intro fields h
  match fields with
  | .nil => cases h
  | .cons name spec default rest =>
    simp only [fillFields]
    rcases h with ⟨rfl, rfl⟩ | h
    · rw [find_none hg]
    · rw [fillFields_missing hg rest h]
      split
      · rename_i heq; cases heq
      · rfl

/-- A missing mandatory field is rejected. -/
theorem missing_field_rejected (attribs : List (Attr V)) (leaf : Option (Leaf V)) (fields : Fields V) (dyn : Dyns V) {n : Str} (hm : Mandatory n fields)
    {name : Str} {as : List (Str × Str)} {ks : List Node} {t : Str} (h : ¬ ∃ as' ks' t', Node.mk n as' ks' t' ∈ ks) :
    parseSpec (.mk attribs leaf fields dyn) (.mk name as ks t) = none := by
  simp only [parseSpec]
  split
  · rename_i got extra val _ hk _
    have : n ∉ got.map (·.1) := by
      intro hn
      rcases readKids_got ks [] [] _ _ hk n hn with h1 | h1
      · cases h1
      · exact h h1
    rw [fillFields_missing this fields hm]; rfl
  · rfl

theorem readAttrs_names {attribs : List (Attr V)} : ∀ (as : List (Str × Str)) (g : List (Str × V)), readAttrs attribs as = some g → ∀ n ∈ g.map (·.1), n ∈ as.map (·.1) := by
  intro as
  induction as with
  | nil => intro g h n hn; simp only [readAttrs, Option.some.injEq] at h; subst h; cases hn
  | cons p as ih =>
    intro g h n hn
    obtain ⟨b, s⟩ := p
    simp only [readAttrs] at h
    split at h
    · cases h
    · split at h
      · rename_i heq
        simp only [Option.some.injEq] at h
        subst h
        simp only [List.map_cons, List.mem_cons] at hn ⊢
        rcases hn with rfl | hn
        · exact .inl rfl
        · exact .inr (ih _ heq n hn)
      · cases h

/-- A missing mandatory attribute is rejected. -/
theorem missing_attribute_rejected (attribs : List (Attr V)) (leaf : Option (Leaf V)) (fields : Fields V) (dyn : Dyns V) {a : Attr V} (ha : a ∈ attribs)
    (hd : a.default = none) {name : Str} {as : List (Str × Str)} (h : a.name ∉ as.map (·.1)) {ks : List Node} {t : Str} :
    parseSpec (.mk attribs leaf fields dyn) (.mk name as ks t) = none := by
  have : (readAttrs attribs as).bind (fun g => fillAttrs g attribs) = none := by
    cases hr : readAttrs attribs as with
    | none => rfl
    | some g =>
      simp only [Option.bind_some]
      have hg : a.name ∉ g.map (·.1) := fun hm => h (readAttrs_names as g hr _ hm)
      clear hr
      generalize hall : attribs = all at ha
      clear hall
      induction all with
      | nil => cases ha
      | cons b all ih =>
        simp only [fillAttrs]
        rcases List.mem_cons.1 ha with rfl | ha
        · rw [find_none hg, hd]
        · rw [ih ha]
          split
          · rename_i heq; cases heq
          · rfl
  simp only [parseSpec, this]

/-! ### concrete case -/

/-- Integers as values. -/
def intLeaf : Leaf Int := ⟨showInt, parseInt⟩

def stepField : Spec Int := .mk [⟨"units".toList, intLeaf, some 0⟩] (some intLeaf) .nil .nil

/-- A class with an optional and a mandatory field, a mandatory attribute and a dynamic field. -/
def demoSpec : Spec Int :=
  .mk [⟨"mode".toList, intLeaf, none⟩] none
    (.cons "step".toList stepField (some (.mk [0] (some 5) [] [])) (.cons "seed".toList stepField none .nil))
    (.cons "item".toList stepField .nil)

def demoState : State Int :=
  .mk [3] none [.mk [0] (some 5) [] [], .mk [7] (some (-2)) [] []] [("item".toList, .mk [0] (some 1) [] []), ("item".toList, .mk [0] (some 2) [] [])]

theorem intLeaf_attr (i : Int) : intLeaf.rd (intLeaf.wr i) = some i ∧ PlainValue (intLeaf.wr i) := by
  refine ⟨parseInt_showInt i, ?_⟩
  intro c hc
  rcases Values.showInt_chars i c hc with h | rfl
  · exact ⟨Values.isDigit_ne h rfl, Values.isDigit_ne h rfl, Values.isDigit_ne h rfl, Values.isDigit_ne h rfl, Values.isDigit_ne h rfl, Values.isDigit_ne h rfl⟩
  · decide

theorem intLeaf_own (i : Int) : FitOwn (some intLeaf) (some i) := by
  refine ⟨?_, ?_⟩
  · intro c hc
    rcases Values.showInt_chars i c hc with h | rfl
    · exact ⟨Values.isDigit_ne h rfl, Values.isDigit_ne h rfl, Values.isDigit_ne h rfl, Values.isDigit_ne h rfl⟩
    · decide
  · intro s hs
    show parseInt s = some i
    have : parseInt s = parseInt (showInt i) := by unfold parseInt; rw [hs]; rfl
    rw [this, parseInt_showInt]

example : OkSpec demoSpec ∧ Fit demoSpec demoState := by
  have hu : OkSpec stepField := by
    refine ⟨⟨by decide, ?_⟩, trivial, trivial, by intro n hn; cases hn⟩
    intro a ha
    simp only [List.mem_singleton] at ha
    subst ha
    exact ⟨plainName_of rfl rfl, fun d _ => (intLeaf_attr d).1⟩
  have hs : ∀ u i : Int, Fit stepField (.mk [u] (some i) [] []) := fun u i =>
    ⟨⟨intLeaf_attr u, trivial⟩, intLeaf_own i, trivial, by intro e he; cases he⟩
  refine ⟨⟨⟨by decide, ?_⟩, ⟨plainName_of rfl rfl, hu, ?_, by decide, ⟨plainName_of rfl rfl, hu, ?_, (by intro h; cases h), trivial⟩⟩, ⟨plainName_of rfl rfl, hu, trivial⟩, by decide⟩, ?_⟩
  · intro a ha
    simp only [List.mem_singleton] at ha
    subst ha
    exact ⟨plainName_of rfl rfl, fun d hd => by cases hd⟩
  · intro d hd
    simp only [Option.some.injEq] at hd
    subst hd
    exact hs 0 5
  · intro d hd; cases hd
  · refine ⟨⟨intLeaf_attr 3, trivial⟩, trivial, ⟨hs 0 5, hs 7 (-2), trivial⟩, ?_⟩
    intro e he
    simp only [List.mem_cons, List.not_mem_nil, or_false] at he
    rcases he with rfl | rfl
    · show (if _ then _ else _)
      rw [if_pos rfl]
      exact hs 0 1
    · show (if _ then _ else _)
      rw [if_pos rfl]
      exact hs 0 2

example : inputWrite [] (toNode demoSpec "demo".toList demoState) =
    "<demo mode='3'>\n   <seed units='7'>-2</seed>\n   <item>1</item>\n   <item>2</item>\n</demo>\n".toList := by
  decide +kernel

/-- Values of the fields of a contents. -/
def fieldValues : State Int → List (Option Int)
  | .mk _ _ fs _ => fs.map fun | .mk _ v _ _ => v

/-- A field given twice is accepted, and the first is forgotten. -/
theorem duplicate_last_wins :
    ((parseDoc "<demo mode='3'><seed>1</seed><seed>2</seed></demo>".toList).bind (parseSpec demoSpec)).map fieldValues = some [some 5, some 2] := by
  decide +kernel

end Verif.Inp
