import Verif.Io.JsonLemmas
import Verif.Props.C28_Defaults
/-!
# C29: JSON and XML inputs describe the same simulation

For every parsed XML tree without children called `attributes` or `value`, converting to JSON and back gives the same tags, attributes
and (stripped) texts, with the children of each tag in their order. The order between different tags is lost: `order_lost`. What the
input classes make of the converted tree is the same, except that dynamic fields of the same tag are put together.
-/
namespace Verif.Json
open Verif.Text Verif.Xml Verif.Group Verif.Inp

/-- What the conversion does. -/
theorem json_round_trip (repr : J → Str) {t : Node} (h : Free t) : (toJson t).bind (fromJson repr (nodeName t)) = some (tidy t) := by
  obtain ⟨j, h1, _, h3⟩ := json_node t h
  rw [h1]
  exact h3 repr

/-- The same for whole documents. -/
theorem document_round_trip (repr : J → Str) {t : Node} (h : Free t) (hn : nodeName t = kSimulation) : (docJson t).bind (jsonDoc repr) = some (tidy t) := by
  obtain ⟨j, h1, h2, h3⟩ := json_node t h
  obtain ⟨n, as, ks, tx⟩ := t
  have hn : n = kSimulation := hn
  subst hn
  have hd : finish (addKid [] kSimulation j) = .dict [(kSimulation, j)] := by
    simp only [addKid, get, set, finish, List.find?_nil, Option.map_none]
    rw [if_neg (by decide)]
  simp only [docJson, h1, Option.map_some, Option.bind_some, hd]
  have hv : fromItems repr [(kSimulation, j)] = some [tidy (.mk kSimulation as ks tx)] := by
    simp only [fromItems]
    rw [if_neg (by decide), fromValue_notList repr _ h2]
    have := h3 repr
    simp only [nodeName] at this
    rw [this]
    rfl
  have ha : fromAttrs repr [(kSimulation, j)] = some [] := by
    have : kSimulation ≠ kAttributes := by decide
    simp [fromAttrs, get, this]
  have ht : fromText repr [(kSimulation, j)] = [] := by
    have : kSimulation ≠ kValue := by decide
    simp [fromText, get, this]
  simp only [jsonDoc, fromJson, hv, ha, ht, tidy, if_true]

/-- A document that is not under the key `simulation` is taken as the content of the simulation. -/
theorem document_wrapped (repr : J → Str) {t : Node} (h : Free t) (hn : nodeName t ≠ kSimulation) (ha : nodeName t ≠ kAttributes) (hv : nodeName t ≠ kValue) :
    (docJson t).bind (jsonDoc repr) = some (.mk kSimulation [] [tidy t] []) := by
  obtain ⟨j, h1, h2, h3⟩ := json_node t h
  obtain ⟨n, as, ks, tx⟩ := t
  simp only [nodeName] at hn ha hv
  have hd : finish (addKid [] n j) = .dict [(n, j)] := by
    simp only [addKid, get, set, finish, List.find?_nil, Option.map_none]
    rw [if_neg hv]
  simp only [docJson, h1, Option.map_some, Option.bind_some, hd]
  have hi : fromItems repr [(n, j)] = some [tidy (.mk n as ks tx)] := by
    simp only [fromItems]
    rw [if_neg (by simp [ha, hv]), fromValue_notList repr _ h2]
    have := h3 repr
    simp only [nodeName] at this
    rw [this]
    rfl
  have hA : fromAttrs repr [(n, j)] = some [] := by simp [fromAttrs, get, ha]
  have hT : fromText repr [(n, j)] = [] := by simp [fromText, get, hv]
  simp only [jsonDoc, fromJson, hi, hA, hT, tidy, if_neg hn]

/-- The content of the simulation may be given without the surrounding `simulation`: attributes, children and text are the same. -/
theorem document_unwrapped (repr : J → Str) {t : Node} {as : List (Str × Str)} {ks : List Node} {x : Str} (h : Free t) (hn : nodeName t = kSimulation)
    (ht : tidy t = .mk kSimulation as ks x) (hk : as ≠ [] ∨ ks.length ≠ 1 ∨ x ≠ [] ∨ ∀ k ∈ ks, nodeName k ≠ kSimulation) :
    (toJson t).bind (jsonDoc repr) = some (tidy t) := by
  obtain ⟨j, h1, h2, h3⟩ := json_node t h
  rw [h1, Option.bind_some]
  have h3 := h3 repr
  rw [hn] at h3
  have hr : fromJson repr kRoot j = some (.mk kRoot as ks x) := by
    rw [ht] at h3
    cases j with
    | prim s => simp only [fromJson, Option.some.injEq, Node.mk.injEq] at h3 ⊢; exact ⟨trivial, h3.2⟩
    | list l => exact absurd h2 (by simp [NotList])
    | dict d =>
      simp only [fromJson] at h3 ⊢
      cases hA : fromAttrs repr d <;> cases hI : fromItems repr d <;> simp only [hA, hI] at h3 ⊢
      · cases h3
      · cases h3
      · cases h3
      · simp only [Option.some.injEq, Node.mk.injEq] at h3 ⊢
        exact ⟨trivial, h3.2⟩
  rw [ht]
  simp only [jsonDoc, hr]
  cases as with
  | cons _ _ => rfl
  | nil =>
    match ks, x, hk with
    | [], _, _ => rfl
    | [.mk n a b c], [], hk =>
      have : n ≠ kSimulation := by simpa [nodeName] using hk
      simp only [if_neg this]
    | .mk _ _ _ _ :: _ :: _, [], _ => rfl
    | _ :: _, _ :: _, _ => simp

theorem tidyL_map (ks : List Node) : tidyL ks = ks.map tidy := by
  induction ks with
  | nil => rfl
  | cons k ks ih => simp only [tidyL, List.map_cons, ih]

/-- Nothing is lost: same name and attributes, same text up to blanks, and for every tag the converted children in the same order. -/
theorem conversion_preserves (n : Str) (as : List (Str × Str)) (ks : List Node) (t : Str) : ∃ ks',
    tidy (.mk n as ks t) = .mk n as ks' (strip t) ∧ (∀ m, ks'.filter (fun k => nodeName k = m) = (ks.filter fun k => nodeName k = m).map tidy) ∧
    ks'.Perm (ks.map tidy) := by
  refine ⟨_, rfl, ?_, ?_⟩
  · intro m
    rw [regroup_filter, tidyL_map, List.filter_map]
    congr 2
    funext k
    simp [tidy_name]
  · rw [tidyL_map]
    exact regroup_perm nodeName _

/-- Order between different tags is lost: the checkpoint between two property files comes last. -/
theorem order_lost : ∃ t : Node, Free t ∧ (match t with | .mk _ _ ks _ => ks.map nodeName) = ["properties".toList, "checkpoint".toList, "properties".toList] ∧
    (match tidy t with | .mk _ _ ks _ => ks.map nodeName) = ["properties".toList, "properties".toList, "checkpoint".toList] :=
  ⟨.mk "output".toList [] [.mk "properties".toList [] [] [], .mk "checkpoint".toList [] [] [], .mk "properties".toList [] [] []] [],
    ⟨by decide, by decide, trivial, by decide, by decide, trivial, by decide, by decide, trivial, trivial⟩, rfl, by decide⟩

/-- A child called `value` becomes text. -/
theorem value_child_lost (repr : J → Str) : (toJson (.mk "a".toList [] [.mk "value".toList [] [] "1".toList] [])).bind (fromJson repr "a".toList) =
    some (.mk "a".toList [] [] "1".toList) := by
  rfl

/-! ### the input objects -/

variable {V : Type}

mutual
/-- Dynamic fields of the same tag together, at every level. -/
def gather : State V → State V
  | .mk attrs val fs extra => .mk attrs val (gatherL fs) (regroup (·.1) (gatherE extra))
def gatherL : List (State V) → List (State V)
  | [] => []
  | s :: ss => gather s :: gatherL ss
def gatherE : List (Str × State V) → List (Str × State V)
  | [] => []
  | (n, s) :: es => (n, gather s) :: gatherE es
end

mutual
/-- Reading a value ignores blanks around it; defaults have their dynamic fields grouped. -/
def Loose : Spec V → Prop
  | .mk _ leaf fields dyn => (∀ l, leaf = some l → ∀ s, l.rd (strip s) = l.rd s) ∧ LooseF fields ∧ LooseD dyn
def LooseF : Fields V → Prop
  | .nil => True
  | .cons _ spec default rest => Loose spec ∧ (∀ d, default = some d → gather d = d) ∧ LooseF rest
def LooseD : Dyns V → Prop
  | .nil => True
  | .cons _ spec rest => Loose spec ∧ LooseD rest
end

theorem gatherL_map (l : List (State V)) : gatherL l = l.map gather := by
  induction l with
  | nil => rfl
  | cons a l ih => simp only [gatherL, List.map_cons, ih]

theorem gatherE_map (l : List (Str × State V)) : gatherE l = l.map fun e => (e.1, gather e.2) := by
  induction l with
  | nil => rfl
  | cons a l ih => obtain ⟨n, s⟩ := a; simp only [gatherE, List.map_cons, ih]

/-- How one child is read: `none` fails, otherwise as a field (`true`) or a dynamic field. -/
def kid {S : Type} (pf pd : Str → Node → Option (Option S)) (k : Node) : Option (Bool × S) :=
  match pf (nodeName k) k with
  | some (some s) => some (true, s)
  | some none => none
  | none =>
    match pd (nodeName k) k with
    | some (some s) => some (false, s)
    | _ => none

/-- The children read as fields (`b = true`) or dynamic fields. -/
def pick {S : Type} (pf pd : Str → Node → Option (Option S)) (b : Bool) (k : Node) : Option (Str × S) :=
  match kid pf pd k with
  | some (b', s) => if b' = b then some (nodeName k, s) else none
  | none => none

theorem readKids_spec {S : Type} (pf pd : Str → Node → Option (Option S)) : ∀ (ks : List Node) (got extra : List (Str × S)),
    readKids pf pd ks got extra = if (∀ k ∈ ks, (kid pf pd k).isSome) then some ((ks.filterMap (pick pf pd true)).reverse ++ got, extra ++ ks.filterMap (pick pf pd false)) else none := by
  intro ks
  induction ks with
  | nil => intro got extra; simp [readKids]
  | cons k ks ih =>
    intro got extra
    obtain ⟨n, as, k', t⟩ := k
    simp only [readKids, List.forall_mem_cons, List.filterMap_cons, pick]
    generalize hk : kid pf pd (.mk n as k' t) = x
    simp only [kid, nodeName] at hk
    cases h1 : pf n (.mk n as k' t) with
    | some y =>
      rw [h1] at hk
      cases y with
      | some s =>
        subst hk
        dsimp only
        rw [ih]
        simp [pick, nodeName]
      | none =>
        subst hk
        simp
    | none =>
      rw [h1] at hk
      dsimp only at hk ⊢
      cases h2 : pd n (.mk n as k' t) with
      | some y =>
        rw [h2] at hk
        cases y with
        | some s =>
          subst hk
          dsimp only
          rw [ih]
          simp [pick, nodeName]
        | none =>
          subst hk
          simp
      | none =>
        rw [h2] at hk
        subst hk
        simp

theorem find_filter {W : Type} (l : List (Str × W)) (n : Str) : l.find? (fun g => g.1 = n) = (l.filter fun g => g.1 = n).head? := by
  induction l with
  | nil => rfl
  | cons a l ih =>
    by_cases h : a.1 = n
    · rw [List.find?_cons_of_pos (by simpa using h), List.filter_cons_of_pos (by simpa using h)]; rfl
    · rw [List.find?_cons_of_neg (by simpa using h), List.filter_cons_of_neg (by simpa using h), ih]

theorem pick_name {S : Type} {pf pd : Str → Node → Option (Option S)} {b : Bool} {k : Node} {e : Str × S} (h : pick pf pd b k = some e) : e.1 = nodeName k := by
  simp only [pick] at h
  split at h
  · split at h
    · simp only [Option.some.injEq] at h; subst h; rfl
    · cases h
  · cases h

theorem filter_pick {S : Type} (pf pd : Str → Node → Option (Option S)) (b : Bool) (ks : List Node) (n : Str) :
    (ks.filterMap (pick pf pd b)).filter (fun g => g.1 = n) = (ks.filter fun k => nodeName k = n).filterMap (pick pf pd b) := by
  induction ks with
  | nil => rfl
  | cons k ks ih =>
    by_cases hn : nodeName k = n
    · rw [List.filter_cons_of_pos (by simpa using hn)]
      cases hp : pick pf pd b k with
      | none => simp [hp, ih]
      | some e =>
        have := pick_name hp
        simp [hp, ih, this, hn]
    · rw [List.filter_cons_of_neg (by simpa using hn)]
      cases hp : pick pf pd b k with
      | none => simp [hp, ih]
      | some e =>
        have := pick_name hp
        simp [hp, ih, this, hn]

theorem fillFields_gather {got got' : List (Str × State V)} (h : ∀ n, got'.find? (fun g => g.1 = n) = (got.find? (fun g => g.1 = n)).map fun e => (e.1, gather e.2)) :
    ∀ (fields : Fields V), LooseF fields → fillFields got' fields = (fillFields got fields).map gatherL := by
  intro fields hl
  match fields with
  | .nil => rfl
  | .cons name spec default rest =>
    have ih := fillFields_gather h rest hl.2.2
    simp only [fillFields, h, ih]
    cases got.find? (fun g => g.1 = name) with
    | some e => cases fillFields got rest <;> simp [gatherL]
    | none =>
      cases hd : default with
      | none => cases fillFields got rest <;> simp
      | some d =>
        have := hl.2.1 d hd
        cases fillFields got rest <;> simp [gatherL, this]

theorem parseField_isSome (fields : Fields V) (n : Str) (k k' : Node) : (parseField fields n k).isSome = (parseField fields n k').isSome := by
  match fields with
  | .nil => rfl
  | .cons name spec default rest =>
    simp only [parseField]
    split
    · rfl
    · exact parseField_isSome rest n k k'

mutual
/-- The input objects see the converted tree as the original one. -/
theorem parse_tidy (sp : Spec V) (h : Loose sp) (t : Node) : parseSpec sp (tidy t) = (parseSpec sp t).map gather := by
  match sp, t with
  | .mk attribs leaf fields dyn, .mk n as ks tx =>
    obtain ⟨h1, h2, h3⟩ := h
    have hown : readOwn leaf (strip tx) = readOwn leaf tx := by
      cases leaf with
      | none => rfl
      | some l => simp only [readOwn, h1 l rfl]
    have hpf : ∀ k, parseField fields (nodeName (tidy k)) (tidy k) = (parseField fields (nodeName k) k).map (Option.map gather) := by
      intro k; rw [tidy_name]; exact parseField_tidy fields h2 (nodeName k) k
    have hpd : ∀ k, parseDyn dyn (nodeName (tidy k)) (tidy k) = (parseDyn dyn (nodeName k) k).map (Option.map gather) := by
      intro k; rw [tidy_name]; exact parseDyn_tidy dyn h3 (nodeName k) k
    have hkid : ∀ k, kid (parseField fields) (parseDyn dyn) (tidy k) = (kid (parseField fields) (parseDyn dyn) k).map fun e => (e.1, gather e.2) := by
      intro k
      simp only [kid, hpf, hpd]
      cases parseField fields (nodeName k) k with
      | some y => cases y <;> rfl
      | none =>
        cases parseDyn dyn (nodeName k) k with
        | some y => cases y <;> rfl
        | none => rfl
    have hpick : ∀ b k, pick (parseField fields) (parseDyn dyn) b (tidy k) = (pick (parseField fields) (parseDyn dyn) b k).map fun e => (e.1, gather e.2) := by
      intro b k
      simp only [pick, hkid, tidy_name]
      cases kid (parseField fields) (parseDyn dyn) k with
      | none => rfl
      | some e =>
        obtain ⟨b', s⟩ := e
        simp only [Option.map_some]
        split <;> rfl
    have hall : (∀ k ∈ regroup nodeName (tidyL ks), (kid (parseField fields) (parseDyn dyn) k).isSome) ↔ ∀ k ∈ ks, (kid (parseField fields) (parseDyn dyn) k).isSome := by
      have hp := regroup_perm nodeName (tidyL ks)
      constructor
      · intro hh k hk
        have := hh (tidy k) (hp.mem_iff.2 (by rw [tidyL_map]; exact List.mem_map_of_mem hk))
        rw [hkid] at this
        simpa using this
      · intro hh k hk
        have := hp.mem_iff.1 hk
        rw [tidyL_map] at this
        obtain ⟨k0, hk0, rfl⟩ := List.mem_map.1 this
        rw [hkid]
        simpa using hh k0 hk0
    simp only [tidy, parseSpec, hown, readKids_spec]
    by_cases hok : ∀ k ∈ ks, (kid (parseField fields) (parseDyn dyn) k).isSome
    · rw [if_pos (hall.2 hok), if_pos hok]
      have hsel : ∀ (b : Bool) (l : List Node), (l.map tidy).filterMap (pick (parseField fields) (parseDyn dyn) b) = (l.filterMap (pick (parseField fields) (parseDyn dyn) b)).map fun e => (e.1, gather e.2) := by
        intro b l
        rw [List.filterMap_map, List.map_filterMap]
        congr 1
        funext k
        exact hpick b k
      have hgot : ∀ m, ((regroup nodeName (tidyL ks)).filterMap (pick (parseField fields) (parseDyn dyn) true)).reverse.find? (fun g => g.1 = m) =
          ((ks.filterMap (pick (parseField fields) (parseDyn dyn) true)).reverse.find? (fun g => g.1 = m)).map fun e => (e.1, gather e.2) := by
        intro m
        rw [find_filter, find_filter, List.filter_reverse, List.filter_reverse, filter_pick, filter_pick, regroup_filter, tidyL_map, List.filter_map]
        have e : ks.filter ((fun k => decide (nodeName k = m)) ∘ tidy) = ks.filter (fun k => decide (nodeName k = m)) := by
          congr 1
          funext k
          simp [tidy_name]
        rw [e, hsel, ← List.map_reverse, List.head?_map]
      have hext : (regroup nodeName (tidyL ks)).filterMap (pick (parseField fields) (parseDyn dyn) false) =
          regroup (·.1) (gatherE (ks.filterMap (pick (parseField fields) (parseDyn dyn) false))) := by
        -- among the children that can be read, dynamic ones are selected by name
        have hsel2 : ∀ l : List Node, (∀ k ∈ l, (kid (parseField fields) (parseDyn dyn) k).isSome) →
            l.filterMap (pick (parseField fields) (parseDyn dyn) false) =
              (l.filter fun k => !(parseField fields (nodeName k) (.mk [] [] [] [])).isSome).map
                fun k => (nodeName k, match kid (parseField fields) (parseDyn dyn) k with | some e => e.2 | none => .mk [] none [] []) := by
          intro l
          induction l with
          | nil => intro _; rfl
          | cons k l ih =>
            intro hl
            have hk := hl k List.mem_cons_self
            have ih' := ih fun x hx => hl x (List.mem_cons_of_mem _ hx)
            have hs := parseField_isSome fields (nodeName k) k (.mk [] [] [] [])
            simp only [kid] at hk
            cases h1 : parseField fields (nodeName k) k with
            | some y =>
              cases y with
              | some s =>
                rw [h1] at hs
                rw [List.filter_cons_of_neg (by simp [← hs])]
                simp [pick, kid, h1, ih']
              | none => rw [h1] at hk; cases hk
            | none =>
              rw [h1] at hs hk
              rw [List.filter_cons_of_pos (by simp [← hs])]
              cases h2 : parseDyn dyn (nodeName k) k with
              | none => rw [h2] at hk; cases hk
              | some y =>
                cases y with
                | none => rw [h2] at hk; cases hk
                | some s => simp [pick, kid, h1, h2, ih']
        rw [hsel2 _ (hall.2 hok), regroup_keep nodeName (fun m => !(parseField fields m (.mk [] [] [] [])).isSome),
          ← regroup_map (key := nodeName) (key' := fun e : Str × State V => e.1) (fun _ => rfl)]
        congr 1
        rw [gatherE_map, hsel2 ks hok, tidyL_map, List.filter_map, List.map_map, List.map_map]
        have e : ks.filter ((fun k => !(parseField fields (nodeName k) (.mk [] [] [] [])).isSome) ∘ tidy) = ks.filter (fun k => !(parseField fields (nodeName k) (.mk [] [] [] [])).isSome) := by
          congr 1
          funext k
          simp [tidy_name]
        rw [e]
        refine List.map_congr_left ?_
        intro k hk
        have hk := hok k (List.mem_filter.1 hk).1
        simp only [Function.comp, tidy_name, hkid]
        obtain ⟨x, hx⟩ := Option.isSome_iff_exists.1 hk
        rw [hx]
        rfl
      cases readAttrs attribs as with
      | none => rfl
      | some g =>
        simp only [Option.bind_some]
        cases fillAttrs g attribs with
        | none => rfl
        | some attrs =>
          cases readOwn leaf tx with
          | none => rfl
          | some val =>
            simp only [List.append_nil, List.nil_append, hext, fillFields_gather hgot fields h2]
            cases fillFields (ks.filterMap (pick (parseField fields) (parseDyn dyn) true)).reverse fields with
            | none => rfl
            | some fs => simp only [Option.map_some, gather]
    · rw [if_neg (fun hh => hok (hall.1 hh)), if_neg hok]
      cases readAttrs attribs as with
      | none => rfl
      | some g =>
        simp only [Option.bind_some]
        cases fillAttrs g attribs with
        | none => rfl
        | some attrs => rfl
theorem parseField_tidy (fields : Fields V) (h : LooseF fields) (n : Str) (k : Node) : parseField fields n (tidy k) = (parseField fields n k).map (Option.map gather) := by
  match fields with
  | .nil => rfl
  | .cons name spec default rest =>
    simp only [parseField]
    split
    · rw [parse_tidy spec h.1 k]; rfl
    · exact parseField_tidy rest h.2.2 n k
theorem parseDyn_tidy (dyn : Dyns V) (h : LooseD dyn) (n : Str) (k : Node) : parseDyn dyn n (tidy k) = (parseDyn dyn n k).map (Option.map gather) := by
  match dyn with
  | .nil => rfl
  | .cons name spec rest =>
    simp only [parseDyn]
    split
    · rw [parse_tidy spec h.1 k]; rfl
    · exact parseDyn_tidy rest h.2 n k
end

/-- A document that goes through JSON is accepted exactly if it was, and gives the same contents with dynamic fields grouped by tag. -/
theorem json_same_contents (repr : J → Str) {sp : Spec V} (h : Loose sp) {t : Node} (hf : Free t) (hn : nodeName t = kSimulation) :
    ((docJson t).bind (jsonDoc repr)).bind (parseSpec sp) = (parseSpec sp t).map gather := by
  rw [document_round_trip repr hf hn]
  exact parse_tidy sp h t

mutual
/-- At most one kind of dynamic field at every level. -/
def OneDyn : Spec V → Prop
  | .mk _ _ fields dyn => OneDynF fields ∧ OneDynD dyn ∧ ∃ n, ∀ m ∈ dynNames dyn, m = n
def OneDynF : Fields V → Prop
  | .nil => True
  | .cons _ spec _ rest => OneDyn spec ∧ OneDynF rest
def OneDynD : Dyns V → Prop
  | .nil => True
  | .cons _ spec rest => OneDyn spec ∧ OneDynD rest
end

theorem fillFields_fixed {got : List (Str × State V)} (h : ∀ e ∈ got, gather e.2 = e.2) : ∀ (fields : Fields V) (fs : List (State V)), LooseF fields →
    fillFields got fields = some fs → gatherL fs = fs := by
  intro fields fs hl hf
  match fields with
  | .nil => simp only [fillFields, Option.some.injEq] at hf; subst hf; rfl
  | .cons name spec default rest =>
    simp only [fillFields] at hf
    split at hf
    · rename_i v vs hv hvs
      simp only [Option.some.injEq] at hf
      subst hf
      have ih := fillFields_fixed h rest vs hl.2.2 hvs
      have hg : gather v = v := by
        split at hv
        · rename_i g hg
          simp only [Option.some.injEq] at hv
          subst hv
          exact h g (List.mem_of_find?_eq_some hg)
        · exact hl.2.1 v hv
      simp only [gatherL, ih, hg]
    · cases hf

mutual
/-- With one kind of dynamic field nothing is left to group. -/
theorem parsed_gathered (sp : Spec V) (h : Loose sp) (ho : OneDyn sp) (t : Node) (st : State V) (hp : parseSpec sp t = some st) : gather st = st := by
  match sp, t with
  | .mk attribs leaf fields dyn, .mk n as ks tx =>
    obtain ⟨h1, h2, h3⟩ := h
    obtain ⟨o1, o2, m, o3⟩ := ho
    simp only [parseSpec, readKids_spec] at hp
    split at hp
    · rename_i attrs got extra val _ hk _
      split at hk
      · simp only [Option.some.injEq, Prod.mk.injEq, List.append_nil, List.nil_append] at hk
        obtain ⟨rfl, rfl⟩ := hk
        cases hff : fillFields (ks.filterMap (pick (parseField fields) (parseDyn dyn) true)).reverse fields with
        | none => rw [hff] at hp; cases hp
        | some fs =>
          rw [hff] at hp
          simp only [Option.map_some, Option.some.injEq] at hp
          subst hp
          have hfix : ∀ (b : Bool) (e : Str × State V), e ∈ ks.filterMap (pick (parseField fields) (parseDyn dyn) b) → gather e.2 = e.2 ∧ (b = false → e.1 ∈ dynNames dyn) := by
            intro b e he
            obtain ⟨k, _, hk⟩ := List.mem_filterMap.1 he
            simp only [pick, kid] at hk
            cases hf1 : parseField fields (nodeName k) k with
            | some y =>
              rw [hf1] at hk
              cases y with
              | some s =>
                dsimp only at hk
                split at hk
                · rename_i hb
                  simp only [Option.some.injEq] at hk
                  subst hk
                  exact ⟨parseField_gathered fields h2 o1 _ k s hf1, fun hb' => by rw [← hb] at hb'; cases hb'⟩
                · cases hk
              | none => cases hk
            | none =>
              rw [hf1] at hk
              dsimp only at hk
              cases hd1 : parseDyn dyn (nodeName k) k with
              | none => rw [hd1] at hk; cases hk
              | some y =>
                rw [hd1] at hk
                cases y with
                | none => cases hk
                | some s =>
                  dsimp only at hk
                  split at hk
                  · simp only [Option.some.injEq] at hk
                    subst hk
                    refine ⟨parseDyn_gathered dyn h3 o2 _ k s hd1, fun _ => ?_⟩
                    refine Classical.byContradiction fun hno => ?_
                    rw [parseDyn_none dyn _ k hno] at hd1
                    cases hd1
                  · cases hk
          have hfs := fillFields_fixed (fun e he => (hfix true e (List.mem_reverse.1 he)).1) fields fs h2 hff
          have hex : gatherE (ks.filterMap (pick (parseField fields) (parseDyn dyn) false)) = ks.filterMap (pick (parseField fields) (parseDyn dyn) false) := by
            rw [gatherE_map]
            conv => rhs; rw [← List.map_id (ks.filterMap _)]
            refine List.map_congr_left ?_
            intro e he
            obtain ⟨a, b⟩ := e
            have := (hfix false _ he).1
            simp only at this
            simp only [this, id]
          simp only [gather, hfs, hex]
          rw [regroup_block _ m _ fun e he => o3 _ ((hfix false e he).2 rfl)]
      · cases hk
    · cases hp
theorem parseField_gathered (fields : Fields V) (h : LooseF fields) (ho : OneDynF fields) (n : Str) (k : Node) (st : State V)
    (hp : parseField fields n k = some (some st)) : gather st = st := by
  match fields with
  | .nil => simp only [parseField] at hp; cases hp
  | .cons name spec default rest =>
    simp only [parseField] at hp
    split at hp
    · simp only [Option.some.injEq] at hp
      exact parsed_gathered spec h.1 ho.1 k st hp
    · exact parseField_gathered rest h.2.2 ho.2 n k st hp
theorem parseDyn_gathered (dyn : Dyns V) (h : LooseD dyn) (ho : OneDynD dyn) (n : Str) (k : Node) (st : State V)
    (hp : parseDyn dyn n k = some (some st)) : gather st = st := by
  match dyn with
  | .nil => simp only [parseDyn] at hp; cases hp
  | .cons name spec rest =>
    simp only [parseDyn] at hp
    split at hp
    · simp only [Option.some.injEq] at hp
      exact parsed_gathered spec h.1 ho.1 k st hp
    · exact parseDyn_gathered rest h.2 ho.2 n k st hp
end

/-- If no class has two kinds of dynamic fields, JSON and XML give the same contents. -/
theorem json_same_simulation_partial (repr : J → Str) {sp : Spec V} (h : Loose sp) (ho : OneDyn sp) {t : Node} (hf : Free t) (hn : nodeName t = kSimulation) :
    ((docJson t).bind (jsonDoc repr)).bind (parseSpec sp) = parseSpec sp t := by
  rw [json_same_contents repr h hf hn]
  cases hp : parseSpec sp t with
  | none => rfl
  | some st => rw [Option.map_some, parsed_gathered sp h ho t st hp]

/-! ### concrete case -/

/-- The class of the example of C28 satisfies the hypotheses. -/
example : Loose demoSpec ∧ OneDyn demoSpec := by
  have hs : ∀ s, parseInt (strip s) = parseInt s := by
    intro s; unfold parseInt; rw [show strip (strip s) = strip s from stripP_idem _ s]
  have hu : Loose stepField := ⟨fun l hl s => by simp only [Option.some.injEq] at hl; subst hl; exact hs s, trivial, trivial⟩
  have ho : OneDyn stepField := ⟨trivial, trivial, [], fun m hm => by cases hm⟩
  exact ⟨⟨fun l hl => (by cases hl), ⟨hu, fun d hd => (by simp only [Option.some.injEq] at hd; subst hd; rfl), hu, fun d hd => (by cases hd), trivial⟩, hu, trivial⟩,
    ⟨⟨ho, ho, trivial⟩, ⟨ho, trivial⟩, "item".toList, fun m hm => by simpa [dynNames] using hm⟩⟩

/-- A tree with attributes, texts and repeated tags. -/
def sampleDoc : Node :=
  .mk kSimulation [("mode".toList, "3".toList)] [.mk "item".toList [] [] " 1 ".toList, .mk "seed".toList [("units".toList, "7".toList)] [] "4".toList,
    .mk "item".toList [] [] "2".toList] "
".toList

example : Free sampleDoc ∧ nodeName sampleDoc = kSimulation ∧ (parseSpec demoSpec sampleDoc).isSome :=
  ⟨⟨by decide, by decide, trivial, by decide, by decide, trivial, by decide, by decide, trivial, trivial⟩, rfl, by decide +kernel⟩

/-- A document under another key. -/
example : Free (.mk "item".toList [] [] "1".toList) ∧ "item".toList ≠ kSimulation ∧ "item".toList ≠ kAttributes ∧ "item".toList ≠ kValue :=
  ⟨trivial, by decide, by decide, by decide⟩

/-- With two kinds the contents can differ: the dynamic fields come in another order. -/
def twoSpec : Spec Int := .mk [] none .nil (.cons "a".toList stepField (.cons "b".toList stepField .nil))

def extraNames : State Int → List Str
  | .mk _ _ _ extra => extra.map (·.1)

theorem contents_reordered (repr : J → Str) : ∃ t : Node, Free t ∧ nodeName t = kSimulation ∧
    (parseSpec twoSpec t).map extraNames = some ["a".toList, "b".toList, "a".toList] ∧
    (((docJson t).bind (jsonDoc repr)).bind (parseSpec twoSpec)).map extraNames = some ["a".toList, "a".toList, "b".toList] := by
  have hf : Free (.mk kSimulation [] [.mk "a".toList [] [] "1".toList, .mk "b".toList [] [] "2".toList, .mk "a".toList [] [] "3".toList] []) :=
    ⟨by decide, by decide, trivial, by decide, by decide, trivial, by decide, by decide, trivial, trivial⟩
  refine ⟨_, hf, rfl, by decide +kernel, ?_⟩
  rw [document_round_trip repr hf rfl]
  decide +kernel

end Verif.Json
