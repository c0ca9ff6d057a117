import Verif.Io.Json
import Verif.Io.Group
/-
Lemmas about the JSON input format.
-/
namespace Verif.Json
open Verif.Text Verif.Xml Verif.Group

def nodeName : Node → Str
  | .mk n _ _ _ => n

def NotList : J → Prop
  | .list _ => False
  | _ => True

/-! ### dictionaries -/

theorem get_cons (k n : Str) (v : J) (d : List (Str × J)) : get ((k, v) :: d) n = if k = n then some v else get d n := by
  simp only [get, List.find?_cons]
  by_cases h : k = n <;> simp [h]

theorem get_append_of_notMem {d0 d : List (Str × J)} {n : Str} (h : n ∉ d0.map (·.1)) : get (d0 ++ d) n = get d n := by
  induction d0 with
  | nil => rfl
  | cons e d0 ih =>
    obtain ⟨k, v⟩ := e
    simp only [List.map_cons, List.mem_cons, not_or] at h
    rw [List.cons_append, get_cons, if_neg (Ne.symm h.1), ih h.2]

theorem get_none {d : List (Str × J)} {n : Str} (h : n ∉ d.map (·.1)) : get d n = none := by
  have := get_append_of_notMem (d := []) h
  simpa [get] using this

theorem set_append_of_notMem {d0 d : List (Str × J)} {n : Str} (h : n ∉ d0.map (·.1)) (v : J) : set (d0 ++ d) n v = d0 ++ set d n v := by
  induction d0 with
  | nil => rfl
  | cons e d0 ih =>
    simp only [List.map_cons, List.mem_cons, not_or] at h
    simp only [List.cons_append, set, if_neg (Ne.symm h.1), ih h.2]

theorem set_new {d : List (Str × J)} {n : Str} (h : n ∉ d.map (·.1)) (v : J) : set d n v = d ++ [(n, v)] := by
  have := set_append_of_notMem (d := []) h v
  simpa [set] using this

theorem addKid_append_of_notMem {d0 d : List (Str × J)} {n : Str} (h : n ∉ d0.map (·.1)) (j : J) : addKid (d0 ++ d) n j = d0 ++ addKid d n j := by
  simp only [addKid, get_append_of_notMem h]
  split <;> exact set_append_of_notMem h _

/-- What happens to the entry that is already there. -/
def combine (v j : J) : J :=
  match v with
  | .list l => .list (l ++ [j])
  | x => .list [x, j]

theorem addKid_cons (k n : Str) (v : J) (d : List (Str × J)) (j : J) :
    addKid ((k, v) :: d) n j = if k = n then (n, combine v j) :: d else (k, v) :: addKid d n j := by
  simp only [addKid, get_cons]
  by_cases h : k = n
  · rw [if_pos h, if_pos h]
    cases v <;> simp [set, h, combine]
  · rw [if_neg h, if_neg h]
    cases hg : get d n with
    | none => simp [set, h]
    | some x => cases x <;> simp [set, h]

/-- Entry for a group of children. -/
def enc : Str × List (Str × J) → Str × J
  | (k, [x]) => (k, x.2)
  | (k, xs) => (k, .list (xs.map (·.2)))

theorem enc_fst (g : Str × List (Str × J)) : (enc g).1 = g.1 := by
  obtain ⟨k, xs⟩ := g
  match xs with
  | [] => rfl
  | [x] => rfl
  | x :: y :: r => rfl

theorem enc_snoc {k : Str} {xs : List (Str × J)} (hne : xs ≠ []) (hnl : ∀ p ∈ xs, NotList p.2) (n : Str) (j : J) :
    enc (k, xs ++ [(n, j)]) = (k, combine (enc (k, xs)).2 j) := by
  match xs, hne with
  | [x], _ =>
    have := hnl x List.mem_cons_self
    obtain ⟨m, y⟩ := x
    cases y with
    | list l => exact this.elim
    | prim s => rfl
    | dict d => rfl
  | x :: y :: r, _ => simp [enc, combine]

theorem addKid_enc {gs : List (Str × List (Str × J))} (hw : Wf (·.1) gs) (hnl : ∀ g ∈ gs, ∀ p ∈ g.2, NotList p.2) (n : Str) (j : J) :
    addKid (gs.map enc) n j = (insertG (·.1) gs (n, j)).map enc := by
  induction gs with
  | nil => simp [addKid, get, set, insertG, enc]
  | cons g gs ih =>
    have hn := hw.nodup
    simp only [List.map_cons, List.nodup_cons] at hn
    have hr : Wf (·.1) gs := ⟨hn.2, fun x hx => hw.keys x (List.mem_cons_of_mem _ hx)⟩
    have e : enc g = (g.1, (enc g).2) := by rw [← enc_fst g]
    rw [List.map_cons, e, addKid_cons]
    simp only [insertG]
    split
    · rename_i h
      rw [List.map_cons, enc_snoc (hw.keys g List.mem_cons_self).1 (hnl g List.mem_cons_self)]
      subst h
      rfl
    · rw [ih hr (fun x hx => hnl x (List.mem_cons_of_mem _ hx)), List.map_cons, ← e]

theorem insertG_mem {α : Type} {key : α → Str} {gs : List (Str × List α)} {a : α} {P : α → Prop} (h : ∀ g ∈ gs, ∀ p ∈ g.2, P p) (ha : P a) :
    ∀ g ∈ insertG key gs a, ∀ p ∈ g.2, P p := by
  induction gs with
  | nil => intro g hg p hp; simp only [insertG, List.mem_singleton] at hg; subst hg; simp only [List.mem_singleton] at hp; subst hp; exact ha
  | cons g gs ih =>
    simp only [insertG]
    intro g' hg' p hp
    split at hg'
    · rcases List.mem_cons.1 hg' with rfl | hg'
      · rcases List.mem_append.1 hp with hp | hp
        · exact h g List.mem_cons_self p hp
        · simp only [List.mem_singleton] at hp; subst hp; exact ha
      · exact h g' (List.mem_cons_of_mem _ hg') p hp
    · rcases List.mem_cons.1 hg' with rfl | hg'
      · exact h _ List.mem_cons_self p hp
      · exact ih (fun x hx => h x (List.mem_cons_of_mem _ hx)) g' hg' p hp

theorem foldl_addKid {d0 : List (Str × J)} : ∀ (js : List (Str × J)) (gs : List (Str × List (Str × J))), Wf (·.1) gs → (∀ g ∈ gs, ∀ p ∈ g.2, NotList p.2) →
    (∀ p ∈ js, NotList p.2 ∧ p.1 ∉ d0.map (·.1)) →
    js.foldl (fun d p => addKid d p.1 p.2) (d0 ++ gs.map enc) = d0 ++ (groupsFrom (·.1) gs js).map enc := by
  intro js
  induction js with
  | nil => intro gs _ _ _; rfl
  | cons p js ih =>
    intro gs hw hnl h
    obtain ⟨h1, h2⟩ := h p List.mem_cons_self
    rw [List.foldl_cons, addKid_append_of_notMem h2, addKid_enc hw hnl, ih _ (insertG_wf hw _) (insertG_mem hnl h1) (fun q hq => h q (List.mem_cons_of_mem _ hq))]
    rfl

/-! ### from JSON -/

theorem fromJson_name (repr : J → Str) (k : Str) (j : J) (t : Node) (h : fromJson repr k j = some t) : nodeName t = k := by
  cases j with
  | prim s => simp only [fromJson, Option.some.injEq] at h; subst h; rfl
  | list l => simp only [fromJson, Option.some.injEq] at h; subst h; rfl
  | dict d =>
    simp only [fromJson] at h
    split at h
    · simp only [Option.some.injEq] at h; subst h; rfl
    · cases h

theorem fromValue_notList (repr : J → Str) (k : Str) {j : J} (h : NotList j) : fromValue repr k j = (fromJson repr k j).map fun t => [t] := by
  cases j with
  | prim s => rfl
  | list l => exact h.elim
  | dict d =>
    simp only [fromValue, fromJson]
    split <;> rfl

theorem fromItems_append (repr : J → Str) (a b : List (Str × J)) : fromItems repr (a ++ b) =
    match fromItems repr a, fromItems repr b with
    | some x, some y => some (x ++ y)
    | _, _ => none := by
  induction a with
  | nil => simp only [List.nil_append, fromItems]; cases fromItems repr b <;> rfl
  | cons e a ih =>
    obtain ⟨k, v⟩ := e
    simp only [List.cons_append, fromItems]
    split
    · exact ih
    · rw [ih]
      cases fromValue repr k v <;> cases fromItems repr a <;> cases fromItems repr b <;> simp

/-- The node a child becomes. -/
def back (repr : J → Str) (p : Str × J) : Node := (fromJson repr p.1 p.2).getD (.mk p.1 [] [] [])

theorem back_name (repr : J → Str) (p : Str × J) : nodeName (back repr p) = p.1 := by
  unfold back
  cases h : fromJson repr p.1 p.2 with
  | none => rfl
  | some t => exact fromJson_name repr p.1 p.2 t h

theorem fromList_ok (repr : J → Str) (k : Str) : ∀ (xs : List (Str × J)), (∀ p ∈ xs, p.1 = k ∧ (fromJson repr p.1 p.2).isSome) →
    fromList repr k (xs.map (·.2)) = some (xs.map (back repr)) := by
  intro xs
  induction xs with
  | nil => intro _; rfl
  | cons p xs ih =>
    intro h
    obtain ⟨h1, h2⟩ := h p List.mem_cons_self
    obtain ⟨t, ht⟩ := Option.isSome_iff_exists.1 h2
    simp only [List.map_cons, fromList, ih fun q hq => h q (List.mem_cons_of_mem _ hq)]
    rw [h1] at ht
    simp only [ht, back, h1, Option.getD_some]

theorem fromItems_enc (repr : J → Str) : ∀ (gs : List (Str × List (Str × J))), Wf (·.1) gs → (∀ g ∈ gs, g.1 ≠ kAttributes ∧ g.1 ≠ kValue) →
    (∀ g ∈ gs, ∀ p ∈ g.2, NotList p.2 ∧ (fromJson repr p.1 p.2).isSome) →
    fromItems repr (gs.map enc) = some ((gs.flatMap (·.2)).map (back repr)) := by
  intro gs
  induction gs with
  | nil => intro _ _ _; rfl
  | cons g gs ih =>
    intro hw hr hp
    have hn := hw.nodup
    simp only [List.map_cons, List.nodup_cons] at hn
    have ih' := ih ⟨hn.2, fun x hx => hw.keys x (List.mem_cons_of_mem _ hx)⟩ (fun x hx => hr x (List.mem_cons_of_mem _ hx)) (fun x hx => hp x (List.mem_cons_of_mem _ hx))
    have e : enc g = (g.1, (enc g).2) := by rw [← enc_fst g]
    have hg := hr g List.mem_cons_self
    have hk := hw.keys g List.mem_cons_self
    have hv : fromValue repr g.1 (enc g).2 = some (g.2.map (back repr)) := by
      obtain ⟨k, xs⟩ := g
      match xs, hk.1 with
      | [x], _ =>
        have hx := hp (k, [x]) List.mem_cons_self x List.mem_cons_self
        have hxk : x.1 = k := hk.2 x List.mem_cons_self
        obtain ⟨t, ht⟩ := Option.isSome_iff_exists.1 hx.2
        rw [hxk] at ht
        simp only [enc, fromValue_notList repr k hx.1, ht, Option.map_some, List.map_cons, List.map_nil, back, hxk, Option.getD_some]
      | x :: y :: r, _ =>
        show fromList repr k ((x :: y :: r).map (·.2)) = _
        exact fromList_ok repr k _ (fun p hpm => ⟨hk.2 p hpm, (hp _ List.mem_cons_self p hpm).2⟩)
    have hcond : ¬ (g.1 = kAttributes ∨ g.1 = kValue) := fun h => h.elim hg.1 hg.2
    rw [List.map_cons, e]
    simp only [fromItems]
    rw [if_neg hcond, hv, ih']
    simp

/-! ### the round trip -/

mutual
/-- Children of the same tag put together, texts stripped, at every level. -/
def tidy : Node → Node
  | .mk n as ks t => .mk n as (regroup nodeName (tidyL ks)) (strip t)
def tidyL : List Node → List Node
  | [] => []
  | k :: ks => tidy k :: tidyL ks
end

mutual
/-- No child is called `attributes` or `value`. -/
def Free : Node → Prop
  | .mk _ _ ks _ => FreeL ks
def FreeL : List Node → Prop
  | [] => True
  | .mk n as ks t :: rest => n ≠ kAttributes ∧ n ≠ kValue ∧ Free (.mk n as ks t) ∧ FreeL rest
end

theorem groupsFrom_mem {α : Type} {key : α → Str} {P : α → Prop} : ∀ (l : List α) (gs : List (Str × List α)), (∀ g ∈ gs, ∀ p ∈ g.2, P p) → (∀ a ∈ l, P a) →
    ∀ g ∈ groupsFrom key gs l, ∀ p ∈ g.2, P p := by
  intro l
  induction l with
  | nil => intro gs h _; exact h
  | cons a l ih => intro gs h hl; exact ih _ (insertG_mem h (hl a List.mem_cons_self)) (fun b hb => hl b (List.mem_cons_of_mem _ hb))

/-- Names of the entries come from the children. -/
theorem enc_names {js : List (Str × J)} {n : Str} (h : n ∈ ((groups (·.1) js).map enc).map (·.1)) : ∃ p ∈ js, p.1 = n := by
  rw [List.map_map] at h
  obtain ⟨g, hg, rfl⟩ := List.mem_map.1 h
  simp only [Function.comp, enc_fst]
  have hw := groups_wf (α := Str × J) (·.1) js
  obtain ⟨hne, hk⟩ := hw.keys g hg
  cases hx : g.2 with
  | nil => exact absurd hx hne
  | cons x r =>
    have hxm : x ∈ g.2 := by rw [hx]; exact List.mem_cons_self
    refine ⟨x, ?_, hk x hxm⟩
    exact groupsFrom_mem (P := fun a => a ∈ js) js [] (by simp) (fun a ha => ha) g hg x hxm

theorem tidy_name (t : Node) : nodeName (tidy t) = nodeName t := by
  obtain ⟨n, as, ks, t⟩ := t
  rfl

/-- The dictionary of a node. -/
theorem node_back {as : List (Str × Str)} {js : List (Str × J)} {t : Str} (hj : ∀ p ∈ js, NotList p.2 ∧ p.1 ≠ kAttributes ∧ p.1 ≠ kValue)
    (hs : ∀ repr, ∀ p ∈ js, (fromJson repr p.1 p.2).isSome) : ∃ j, (addText (js.foldl (fun d p => addKid d p.1 p.2) (if as = [] then [] else [(kAttributes, .dict (as.map fun a => (a.1, .prim a.2)))])) t).map finish = some j ∧
      NotList j ∧ ∀ repr n, fromJson repr n j = some (.mk n as ((regroup (·.1) js).map (back repr)) (strip t)) := by
  generalize hd0 : (if as = [] then ([] : List (Str × J)) else [(kAttributes, .dict (as.map fun a => (a.1, .prim a.2)))]) = d0
  have hd0n : ∀ n ∈ d0.map (·.1), n = kAttributes := by
    intro n hn
    rw [← hd0] at hn
    split at hn
    · cases hn
    · simpa using hn
  have hav : kValue ≠ kAttributes := by decide
  have hfold : js.foldl (fun d p => addKid d p.1 p.2) d0 = d0 ++ (groups (·.1) js).map enc := by
    have := foldl_addKid (d0 := d0) js [] ⟨by simp, by simp⟩ (by simp) (fun p hp => ⟨(hj p hp).1, fun hm => (hj p hp).2.1 (hd0n _ hm)⟩)
    simpa [groups] using this
  rw [hfold]
  have hval : kValue ∉ (d0 ++ (groups (·.1) js).map enc).map (·.1) := by
    rw [List.map_append, List.mem_append]
    rintro (h | h)
    · exact hav (hd0n _ h)
    · obtain ⟨p, hp, e⟩ := enc_names h
      exact (hj p hp).2.2 e
  have hattrs : ∀ repr (tail : List (Str × J)), (∀ n ∈ tail.map (·.1), n ≠ kAttributes) → fromAttrs repr (d0 ++ (groups (·.1) js).map enc ++ tail) = some as := by
    intro repr tail ht
    rw [← hd0]
    split
    · rename_i h0
      have : kAttributes ∉ (([] : List (Str × J)) ++ (groups (·.1) js).map enc ++ tail).map (·.1) := by
        rw [List.nil_append, List.map_append, List.mem_append]
        rintro (h | h)
        · obtain ⟨p, hp, e⟩ := enc_names h
          exact (hj p hp).2.1 e
        · exact ht _ h rfl
      rw [fromAttrs, get_none this, h0]
    · rw [fromAttrs, List.append_assoc, List.cons_append, get_cons, if_pos rfl]
      simp [str, List.map_map, Function.comp_def]
  have hitems : ∀ repr, fromItems repr (d0 ++ (groups (·.1) js).map enc) = some ((regroup (·.1) js).map (back repr)) := by
    intro repr
    rw [fromItems_append]
    have h0 : fromItems repr d0 = some [] := by
      rw [← hd0]
      split
      · rfl
      · simp [fromItems]
    rw [h0, fromItems_enc repr _ (groups_wf _ js)]
    · simp [regroup]
    · intro g hg
      have : g.1 ∈ ((groups (·.1) js).map enc).map (·.1) := by
        rw [List.map_map]
        exact List.mem_map.2 ⟨g, hg, by simp [enc_fst]⟩
      obtain ⟨p, hp, e⟩ := enc_names this
      rw [← e]
      exact (hj p hp).2
    · exact groupsFrom_mem (P := fun p => NotList p.2 ∧ (fromJson repr p.1 p.2).isSome) js [] (by simp) (fun a ha => ⟨(hj a ha).1, hs repr a ha⟩)
  by_cases ht : strip t = []
  · have hdict : finish (d0 ++ (groups (·.1) js).map enc) = .dict (d0 ++ (groups (·.1) js).map enc) := by
      generalize hd : d0 ++ (groups (·.1) js).map enc = d at hval ⊢
      match d with
      | [] => rfl
      | [(k, v)] =>
        simp only [List.map_cons, List.map_nil, List.mem_singleton] at hval
        simp only [finish, if_neg (Ne.symm hval)]
      | _ :: _ :: _ => rfl
    refine ⟨.dict (d0 ++ (groups (·.1) js).map enc), ?_, trivial, ?_⟩
    · simp only [addText, ht, if_true, Option.map_some, hdict]
    · intro repr n
      have ha := hattrs repr [] (by simp)
      rw [List.append_nil] at ha
      simp only [fromJson, ha, hitems, fromText, get_none hval, ht]
  · have hadd : addText (d0 ++ (groups (·.1) js).map enc) t = some (d0 ++ (groups (·.1) js).map enc ++ [(kValue, .prim (strip t))]) := by
      simp only [addText, if_neg ht, get_none hval, set_new hval]
    rw [hadd, Option.map_some]
    by_cases he : d0 ++ (groups (·.1) js).map enc = []
    · have hrg : (regroup (·.1) js).map (back (fun _ => [])) = [] := by
        have := hitems (fun _ => [])
        rw [he] at this
        simp only [fromItems, Option.some.injEq] at this
        exact this.symm
      have hr0 : regroup (·.1) js = [] := List.map_eq_nil_iff.1 hrg
      have has : as = [] := by
        have := (List.append_eq_nil_iff.1 he).1
        rw [← hd0] at this
        split at this
        · assumption
        · cases this
      refine ⟨.prim (strip t), ?_, trivial, ?_⟩
      · rw [he]
        simp [finish]
      · intro repr n
        simp only [fromJson, hr0, has, List.map_nil]
    · refine ⟨.dict (d0 ++ (groups (·.1) js).map enc ++ [(kValue, .prim (strip t))]), ?_, trivial, ?_⟩
      · congr 1
        generalize d0 ++ (groups (·.1) js).map enc = d at he
        match d, he with
        | [_], _ => rfl
        | _ :: _ :: _, _ => rfl
      · intro repr n
        have hi : fromItems repr (d0 ++ (groups (·.1) js).map enc ++ [(kValue, .prim (strip t))]) = some ((regroup (·.1) js).map (back repr)) := by
          rw [fromItems_append, hitems]
          simp [fromItems]
        have hg : get (d0 ++ (groups (·.1) js).map enc ++ [(kValue, .prim (strip t))]) kValue = some (.prim (strip t)) := by
          rw [get_append_of_notMem hval, get_cons, if_pos rfl]
        simp only [fromJson, hattrs repr [(kValue, .prim (strip t))] (by simp [hav]), hi, fromText, hg, str]

mutual
theorem json_node (t : Node) (h : Free t) : ∃ j, toJson t = some j ∧ NotList j ∧ ∀ repr, fromJson repr (nodeName t) j = some (tidy t) := by
  match t with
  | .mk n as ks tx =>
    obtain ⟨js, h1, h2, h3⟩ := json_kids ks h
    have hs : ∀ repr, ∀ p ∈ js, (fromJson repr p.1 p.2).isSome := by
      intro repr p hp
      have : fromJson repr p.1 p.2 ∈ (tidyL ks).map some := by
        rw [← h2 repr]
        exact List.mem_map_of_mem hp
      obtain ⟨x, _, hx⟩ := List.mem_map.1 this
      rw [← hx]; rfl
    obtain ⟨j, g1, g2, g3⟩ := node_back (as := as) (t := tx) h1 hs
    refine ⟨j, ?_, g2, ?_⟩
    · simp only [toJson, h3, Option.bind_some]
      exact g1
    · intro repr
      rw [show nodeName (.mk n as ks tx) = n from rfl, g3 repr n, tidy]
      have : js.map (back repr) = tidyL ks := by
        have hb : js.map (back repr) = (js.map fun p => fromJson repr p.1 p.2).map fun o => o.getD (.mk [] [] [] []) := by
          rw [List.map_map]
          refine List.map_congr_left ?_
          intro p hp
          obtain ⟨x, hx⟩ := Option.isSome_iff_exists.1 (hs repr p hp)
          simp [back, hx]
        rw [hb, h2 repr, List.map_map]
        simp [Function.comp_def]
      rw [← this, regroup_map (key := fun p : Str × J => p.1) (key' := nodeName) (f := back repr) (back_name repr)]
theorem json_kids (ks : List Node) (h : FreeL ks) : ∃ js : List (Str × J), (∀ p ∈ js, NotList p.2 ∧ p.1 ≠ kAttributes ∧ p.1 ≠ kValue) ∧
    (∀ repr, (js.map fun p => fromJson repr p.1 p.2) = (tidyL ks).map some) ∧
    ∀ d, addKids ks d = some (js.foldl (fun d p => addKid d p.1 p.2) d) := by
  match ks with
  | [] => exact ⟨[], by simp, by simp [tidyL], fun d => rfl⟩
  | .mk n as ks' t :: rest =>
    obtain ⟨a, b, c, e⟩ := h
    obtain ⟨j, h1, h2, h3⟩ := json_node (.mk n as ks' t) c
    obtain ⟨js, g1, g2, g3⟩ := json_kids rest e
    refine ⟨(n, j) :: js, ?_, ?_, ?_⟩
    · intro p hp
      rcases List.mem_cons.1 hp with rfl | hp
      · exact ⟨h2, a, b⟩
      · exact g1 p hp
    · intro repr
      simp only [List.map_cons, tidyL, g2 repr]
      rw [← h3 repr]
      rfl
    · intro d
      simp only [addKids, h1, Option.bind_some, g3, List.foldl_cons]
end

end Verif.Json
