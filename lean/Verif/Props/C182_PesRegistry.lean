import Verif.FF.PesRegistry
import Mathlib.Data.List.Induction

/-! C182: which python potential a name selects. -/

namespace Verif.PesReg

/-! ### Scanning one file -/

/-- The assignments among the statements of a list, in order. -/
def assigns (q : List Node) : List (List (Option String) × Option String) :=
  q.filterMap fun n => match n with
    | .assign t v => some (t, v)
    | .block _ => none

/-- What lies one level below the statements of a list. -/
def below (q : List Node) : List Node :=
  q.flatMap fun n => match n with
    | .assign _ _ => []
    | .block kids => kids

theorem walk_append (a b : List Node) :
    walk (a ++ b) = assigns a ++ walk (b ++ below a) := by
  induction a generalizing b with
  | nil => simp [assigns, below]
  | cons n ns ih =>
    cases n with
    | assign t v => rw [List.cons_append, walk, ih]; simp [assigns, below]
    | block kids =>
      rw [List.cons_append, walk, List.append_assoc, ih]
      simp [assigns, below]

/-- The walk goes level by level. -/
theorem walk_levels (q : List Node) : walk q = assigns q ++ walk (below q) := by
  have := walk_append q []
  simpa using this

/-- An assignment gives the value `v` to the name `x`. -/
def gives (x v : String) (a : List (Option String) × Option String) : Prop :=
  some x ∈ a.1 ∧ a.2 = some v

theorem see_eq (s : Option String × Option String) (a : List (Option String) × Option String) :
    see s a = (if some "__DRIVER_CLASS__" ∈ a.1 ∧ a.2.isSome then a.2 else s.1,
      if some "__DRIVER_NAME__" ∈ a.1 ∧ a.2.isSome then a.2 else s.2) := by
  obtain ⟨ts, v⟩ := a
  unfold see
  dsimp only
  cases v with
  | none =>
    induction ts generalizing s with
    | nil => simp
    | cons t ts ih =>
      rw [List.foldl_cons]
      cases t <;> (rw [ih]; simp)
  | some v =>
    induction ts generalizing s with
    | nil => simp
    | cons t ts ih =>
      rw [List.foldl_cons, ih]
      cases t with
      | none => simp
      | some x =>
        by_cases h1 : x = "__DRIVER_CLASS__"
        · subst h1
          simp
        · by_cases h2 : x = "__DRIVER_NAME__"
          · subst h2
            simp
          · simp [h1, h2, Ne.symm h1, Ne.symm h2]

/-- The last of a list of assignments that gives a string to the name `x`. -/
def IsLast (x : String) (l : List (List (Option String) × Option String)) : Option String → Prop
  | some v => ∃ pre a post, l = pre ++ a :: post ∧ gives x v a ∧ ∀ b ∈ post, ∀ w, ¬ gives x w b
  | none => ∀ b ∈ l, ∀ w, ¬ gives x w b

theorem isLast_concat (x : String) (l : List (List (Option String) × Option String))
    (a : List (Option String) × Option String) (r : Option String) (h : IsLast x l r) :
    IsLast x (l ++ [a]) (if some x ∈ a.1 ∧ a.2.isSome then a.2 else r) := by
  by_cases hx : some x ∈ a.1 ∧ a.2.isSome
  · rw [if_pos hx]
    obtain ⟨v, hv⟩ := Option.isSome_iff_exists.1 hx.2
    rw [hv]
    exact ⟨l, a, [], rfl, ⟨hx.1, hv⟩, by simp⟩
  · rw [if_neg hx]
    have hn : ∀ w, ¬ gives x w a := fun w hw => hx ⟨hw.1, by rw [hw.2]; rfl⟩
    cases r with
    | none =>
      intro b hb w
      rcases List.mem_append.1 hb with hb | hb
      · exact h b hb w
      · rw [List.mem_singleton.1 hb]; exact hn w
    | some v =>
      obtain ⟨pre, c, post, hl, hg, hp⟩ := h
      refine ⟨pre, c, post ++ [a], by rw [hl]; simp, hg, ?_⟩
      intro b hb w
      rcases List.mem_append.1 hb with hb | hb
      · exact hp b hb w
      · rw [List.mem_singleton.1 hb]; exact hn w

/-- The two strings found by the scan are the ones of the last assignments, in the order in which the
tree is walked, that give a string to the two names. -/
theorem scan_last (body : List Node) (c n : Option String)
    (h : scan (.tree body) = .ok (c, n)) :
    IsLast "__DRIVER_CLASS__" (walk body) c ∧ IsLast "__DRIVER_NAME__" (walk body) n := by
  have hw : walk [.block body] = walk body := by rw [walk]; simp
  simp only [scan, hw, Except.ok.injEq] at h
  have key : ∀ l : List (List (Option String) × Option String),
      IsLast "__DRIVER_CLASS__" l (l.foldl see (none, none)).1 ∧
      IsLast "__DRIVER_NAME__" l (l.foldl see (none, none)).2 := by
    intro l
    induction l using List.reverseRecOn with
    | nil => exact ⟨fun b hb => (nomatch hb), fun b hb => (nomatch hb)⟩
    | append_singleton l a ih =>
      rw [List.foldl_append, List.foldl_cons, List.foldl_nil, see_eq]
      exact ⟨isLast_concat _ _ _ _ ih.1, isLast_concat _ _ _ _ ih.2⟩
  have := key (walk body)
  rw [h] at this
  exact this

/-- A file is read without being run: as long as nothing below the top level gives a string to one of
the two names, the scan finds the last strings that the top level gives to them. -/
theorem scan_toplevel_partial (body : List Node) (c n : Option String)
    (hq : ∀ a ∈ walk (below body), ∀ w,
      ¬ gives "__DRIVER_CLASS__" w a ∧ ¬ gives "__DRIVER_NAME__" w a)
    (h : scan (.tree body) = .ok (c, n)) :
    IsLast "__DRIVER_CLASS__" (assigns body) c ∧ IsLast "__DRIVER_NAME__" (assigns body) n := by
  obtain ⟨h1, h2⟩ := scan_last body c n h
  rw [walk_levels] at h1 h2
  have cut : ∀ (x : String) (l m : List (List (Option String) × Option String)) (r : Option String),
      (∀ a ∈ m, ∀ w, ¬ gives x w a) → IsLast x (l ++ m) r → IsLast x l r := by
    intro x l m
    induction m using List.reverseRecOn with
    | nil => intro r _ h; simpa using h
    | append_singleton m a ih =>
      intro r hm h
      apply ih r (fun b hb => hm b (List.mem_append_left _ hb))
      have ha := hm a (by simp)
      rw [← List.append_assoc] at h
      cases r with
      | none => exact fun b hb => h b (List.mem_append_left _ hb)
      | some v =>
        obtain ⟨pre, d, post, hl, hg, hp⟩ := h
        rcases List.eq_nil_or_concat post with hpost | ⟨p', z, hpost⟩
        · subst hpost
          have := List.append_inj_right' hl (by simp)
          have hd : a = d := by simpa using this
          subst hd
          exact absurd hg (ha v)
        · rw [List.concat_eq_append] at hpost
          subst hpost
          have hl' : l ++ m ++ [a] = (pre ++ d :: p') ++ [z] := by rw [hl]; simp
          have := List.append_inj_left' hl' (by simp)
          exact ⟨pre, d, p', this, hg, fun b hb => hp b (List.mem_append_left _ hb)⟩
  exact ⟨cut _ _ _ _ (fun a ha w => (hq a ha w).1) h1, cut _ _ _ _ (fun a ha w => (hq a ha w).2) h2⟩

/-- The strings need not stand at the top level of the file, as the documentation has it: one that is
given inside a function wins over the one of the top level. -/
theorem scan_toplevel_fails :
    ∃ body : List Node,
      IsLast "__DRIVER_NAME__" (assigns body) (some "a") ∧
      scan (.tree body) = .ok (some "A", some "b") := by
  refine ⟨[.assign [some "__DRIVER_NAME__"] (some "a"), .assign [some "__DRIVER_CLASS__"] (some "A"),
    .block [.assign [some "__DRIVER_NAME__"] (some "b")]], ?_, ?_⟩
  · refine ⟨[], _, [_], rfl, ⟨by simp, rfl⟩, ?_⟩
    intro b hb w hg
    rw [List.mem_singleton.1 hb] at hg
    have := hg.1
    simp at this
  · simp only [scan]
    congr 1
    simp [walk, see]

/-- A file with only one of the two strings does not give a pair of `None`, as documented. -/
theorem scan_half :
    scan (.tree [.assign [some "__DRIVER_CLASS__"] (some "A")]) = .ok (some "A", none) := by
  simp only [scan]
  congr 1
  simp [walk, see]

/-! ### The table -/

/-- The module is a potential called `mode`. -/
def Declares (m : String × File) (mode : String) : Prop :=
  m.1 ≠ "tools" ∧ mode ≠ "" ∧ ∃ c, c ≠ "" ∧ scan m.2 = .ok (some c, some mode)

theorem lookup_dictSet (d : List (String × String)) (k v x : String) :
    (dictSet d k v).lookup x = if x = k then some v else d.lookup x := by
  induction d with
  | nil =>
    by_cases h : x = k <;> simp [dictSet, List.lookup, h]
  | cons p d ih =>
    obtain ⟨k', v'⟩ := p
    rw [dictSet]
    by_cases h : k' = k
    · subst h
      rw [if_pos rfl]
      rw [List.lookup_cons, List.lookup_cons]
      by_cases h2 : x = k'
      · simp [h2]
      · simp [h2, beq_eq_false_iff_ne.2 h2]
    · rw [if_neg h, List.lookup_cons, List.lookup_cons, ih]
      by_cases h2 : x = k'
      · subst h2; simp [h]
      · simp [beq_eq_false_iff_ne.2 h2]

theorem keys_dictSet (d : List (String × String)) (k v : String) :
    (dictSet d k v).map Prod.fst = if k ∈ d.map Prod.fst then d.map Prod.fst
      else d.map Prod.fst ++ [k] := by
  induction d with
  | nil => simp [dictSet]
  | cons p d ih =>
    obtain ⟨k', v'⟩ := p
    rw [dictSet]
    by_cases h : k' = k
    · simp [h]
    · rw [if_neg h, List.map_cons, ih]
      by_cases h2 : k ∈ d.map Prod.fst
      · simp only [List.map_cons, List.mem_cons, h2, or_true, if_true]
      · simp only [List.map_cons, List.mem_cons, h2, or_false, Ne.symm h, if_false, List.cons_append]

theorem nodup_dictSet (d : List (String × String)) (k v : String)
    (h : (d.map Prod.fst).Nodup) : ((dictSet d k v).map Prod.fst).Nodup := by
  rw [keys_dictSet]
  split_ifs with hk
  · exact h
  · exact List.nodup_append.2 ⟨h, by simp, by
      intro a ha b hb
      rw [List.mem_singleton.1 hb]
      exact fun hab => hk (hab ▸ ha)⟩

theorem lookup_iff_mem (d : List (String × String)) (h : (d.map Prod.fst).Nodup) (k v : String) :
    d.lookup k = some v ↔ (k, v) ∈ d := by
  induction d with
  | nil => simp
  | cons p d ih =>
    obtain ⟨k', v'⟩ := p
    rw [List.map_cons, List.nodup_cons] at h
    rw [List.lookup_cons]
    by_cases h2 : k = k'
    · subst h2
      have : (k, v) ∉ d := fun hm => h.1 (List.mem_map.2 ⟨(k, v), hm, rfl⟩)
      simp [this, eq_comm]
    · rw [beq_eq_false_iff_ne.2 h2]
      simp [h2, ih h.2]

theorem register_ok (d d' : List (String × String)) (m : String × File)
    (h : register d m = .ok d') :
    (∃ n, Declares m n ∧ d' = dictSet d n m.1) ∨ ((∀ n, ¬ Declares m n) ∧ d' = d) := by
  unfold register at h
  split_ifs at h with ht
  · exact .inr ⟨fun n hn => hn.1 ht, (Except.ok.inj h).symm⟩
  · split at h
    · exact absurd h (by simp)
    · rename_i c n hs
      split_ifs at h with hcn
      · exact .inl ⟨n, ⟨ht, hcn.2, c, hcn.1, hs⟩, (Except.ok.inj h).symm⟩
      · refine .inr ⟨fun n' hn' => hcn ?_, (Except.ok.inj h).symm⟩
        obtain ⟨_, h2, c', hc', hs'⟩ := hn'
        rw [hs] at hs'
        simp only [Except.ok.injEq, Prod.mk.injEq, Option.some.injEq] at hs'
        exact ⟨hs'.1 ▸ hc', hs'.2 ▸ h2⟩
    · rename_i r hne hs
      refine .inr ⟨fun n' hn' => ?_, (Except.ok.inj h).symm⟩
      obtain ⟨_, _, c', _, hs'⟩ := hn'
      rw [hs] at hs'
      exact hne c' n' (Except.ok.inj hs')

/-- The last module of a list that is a potential called `mode`. -/
def LastDeclares (ms : List (String × File)) (mode x : String) : Prop :=
  ∃ pre m post, ms = pre ++ m :: post ∧ m.1 = x ∧ Declares m mode ∧ ∀ m' ∈ post, ¬ Declares m' mode

theorem lastDeclares_cons (m : String × File) (ms : List (String × File)) (mode x : String) :
    LastDeclares (m :: ms) mode x ↔
      LastDeclares ms mode x ∨ (m.1 = x ∧ Declares m mode ∧ ∀ m' ∈ ms, ¬ Declares m' mode) := by
  constructor
  · rintro ⟨pre, a, post, he, hx, hd, hp⟩
    cases pre with
    | nil =>
      simp only [List.nil_append, List.cons.injEq] at he
      obtain ⟨rfl, rfl⟩ := he
      exact .inr ⟨hx, hd, hp⟩
    | cons b pre =>
      simp only [List.cons_append, List.cons.injEq] at he
      exact .inl ⟨pre, a, post, he.2, hx, hd, hp⟩
  · rintro (⟨pre, a, post, he, hx, hd, hp⟩ | ⟨hx, hd, hp⟩)
    · exact ⟨m :: pre, a, post, by rw [he]; rfl, hx, hd, hp⟩
    · exact ⟨[], m, ms, rfl, hx, hd, hp⟩

theorem declares_unique (m : String × File) (a b : String) (ha : Declares m a) (hb : Declares m b) :
    a = b := by
  obtain ⟨_, _, c, _, h⟩ := ha
  obtain ⟨_, _, c', _, h'⟩ := hb
  rw [h] at h'
  simp only [Except.ok.injEq, Prod.mk.injEq, Option.some.injEq] at h'
  exact h'.2

theorem registerAll_lookup (ms : List (String × File)) (d t : List (String × String))
    (h : registerAll d ms = .ok t) (mode x : String) :
    t.lookup mode = some x ↔
      LastDeclares ms mode x ∨ ((∀ m ∈ ms, ¬ Declares m mode) ∧ d.lookup mode = some x) := by
  induction ms generalizing d with
  | nil =>
    rw [registerAll] at h
    cases h
    simp [LastDeclares]
  | cons m ms ih =>
    rw [registerAll] at h
    split at h
    · exact absurd h (by simp)
    · rename_i d' hd'
      rw [ih d' h, lastDeclares_cons]
      rcases register_ok d d' m hd' with ⟨n, hn, rfl⟩ | ⟨hn, rfl⟩
      · rw [lookup_dictSet]
        by_cases hm : mode = n
        · subst hm
          rw [if_pos rfl]
          constructor
          · rintro (h1 | ⟨h1, h2⟩)
            · exact .inl (.inl h1)
            · exact .inl (.inr ⟨Option.some.inj h2, hn, h1⟩)
          · rintro ((h1 | ⟨h1, h2, h3⟩) | ⟨h1, _⟩)
            · exact .inl h1
            · exact .inr ⟨h3, by rw [h1]⟩
            · exact absurd hn (h1 m (by simp))
        · rw [if_neg hm]
          have hnd : ¬ Declares m mode := fun hd => hm (declares_unique m _ _ hd hn)
          simp [hnd]
      · have hnd := hn mode
        simp [hnd]

theorem registerAll_nodup (ms : List (String × File)) (d t : List (String × String))
    (hd : (d.map Prod.fst).Nodup) (h : registerAll d ms = .ok t) : (t.map Prod.fst).Nodup := by
  induction ms generalizing d with
  | nil => rw [registerAll] at h; cases h; exact hd
  | cons m ms ih =>
    rw [registerAll] at h
    split at h
    · exact absurd h (by simp)
    · rename_i d' hd'
      refine ih d' ?_ h
      rcases register_ok d d' m hd' with ⟨n, _, rfl⟩ | ⟨_, rfl⟩
      · exact nodup_dictSet _ _ _ hd
      · exact hd

theorem sorted_perm (d : List (String × String)) : (sorted d).Perm d :=
  List.perm_insertionSort _ d

theorem sorted_lookup (d : List (String × String)) (h : (d.map Prod.fst).Nodup) (k v : String) :
    (sorted d).lookup k = some v ↔ d.lookup k = some v := by
  have hp := sorted_perm d
  rw [lookup_iff_mem _ ((hp.map Prod.fst).nodup_iff.2 h), lookup_iff_mem _ h, hp.mem_iff]

/-- A name selects the module that declares it, and the last such module when there are several. -/
theorem drivers_lookup (ms : List (String × File)) (t : List (String × String))
    (h : drivers ms = .ok t) (mode x : String) :
    t.lookup mode = some x ↔ LastDeclares ms mode x := by
  unfold drivers at h
  split at h
  · exact absurd h (by simp)
  · rename_i d hd
    cases h
    rw [sorted_lookup _ (registerAll_nodup ms [] d (by simp) hd), registerAll_lookup ms [] d hd]
    simp

/-- The names offered to the user are in alphabetical order and each is offered once. -/
theorem drivers_sorted (ms : List (String × File)) (t : List (String × String))
    (h : drivers ms = .ok t) : (t.map Prod.fst).Pairwise (· < ·) := by
  unfold drivers at h
  split at h
  · exact absurd h (by simp)
  · rename_i d hd
    cases h
    have hn : ((sorted d).map Prod.fst).Nodup :=
      ((sorted_perm d).map Prod.fst).nodup_iff.2 (registerAll_nodup ms [] d (by simp) hd)
    have hs : (sorted d).Pairwise (fun a b => a.1 ≤ b.1) := by
      have : Std.Total (fun a b : String × String => a.1 ≤ b.1) :=
        ⟨fun a b => le_total a.1 b.1⟩
      have : IsTrans (String × String) (fun a b : String × String => a.1 ≤ b.1) :=
        ⟨fun a b c => le_trans⟩
      exact List.pairwise_insertionSort _ d
    have hs' : ((sorted d).map Prod.fst).Pairwise (· ≤ ·) := List.pairwise_map.2 hs
    exact (hs'.and hn).imp fun hab => lt_of_le_of_ne hab.1 hab.2

/-- One file of the package that cannot be opened or parsed, other than `tools.py`, takes all the
potentials with it; nothing else does. -/
theorem drivers_fail_iff (ms : List (String × File)) :
    (∃ e, drivers ms = .error e) ↔
      ∃ m ∈ ms, m.1 ≠ "tools" ∧ (m.2 = .unreadable ∨ m.2 = .bad) := by
  have key : ∀ (ms : List (String × File)) (d : List (String × String)),
      (∃ e, registerAll d ms = .error e) ↔
        ∃ m ∈ ms, m.1 ≠ "tools" ∧ (m.2 = .unreadable ∨ m.2 = .bad) := by
    intro ms
    induction ms with
    | nil => intro d; simp [registerAll]
    | cons m ms ih =>
      intro d
      rw [registerAll]
      have hm : (∃ e, register d m = .error e) ↔
          m.1 ≠ "tools" ∧ (m.2 = .unreadable ∨ m.2 = .bad) := by
        unfold register
        by_cases ht : m.1 = "tools"
        · simp [ht]
        · rw [if_neg ht]
          rcases m with ⟨name, f⟩
          cases f with
          | unreadable => simpa [scan] using ht
          | bad => simpa [scan] using ht
          | tree body =>
            simp only [scan]
            generalize (walk [.block body]).foldl see (none, none) = r
            rcases r with ⟨_ | c, _ | n⟩
            all_goals simp
            split_ifs <;> simp
      cases hr : register d m with
      | error e =>
        have := hm.1 ⟨e, hr⟩
        simp only [Except.error.injEq, exists_eq', true_iff]
        exact ⟨m, by simp, this⟩
      | ok d' =>
        have hn : ¬ (m.1 ≠ "tools" ∧ (m.2 = .unreadable ∨ m.2 = .bad)) := by
          rw [← hm, hr]; simp
        dsimp only
        rw [ih d']
        simp only [List.mem_cons, exists_eq_or_imp, hn, false_or]
  rw [← key ms []]
  unfold drivers
  cases registerAll [] ms <;> simp

/-! ### Selecting a potential -/

/-- A name other than `custom` is refused with a `ValueError` exactly when no module of the package
declares it. -/
theorem load_invalid_iff (ms : List (String × File)) (t : List (String × String))
    (h : drivers ms = .ok t) (package : String → Option (String → Option Obj))
    (custom : Option (String → Option Obj)) (mode : String) (hm : mode ≠ "custom") :
    load t package custom mode = .error .valueError ↔ ∀ m ∈ ms, ¬ Declares m mode := by
  have hl := drivers_lookup ms t h mode
  have hc : ∀ m : String → Option Obj, classOf m .attributeError ≠ .error .valueError := by
    intro m
    unfold classOf
    split
    · split <;> simp
    · simp
    · simp
  unfold load
  rw [if_neg hm]
  cases ht : t.lookup mode with
  | none =>
    simp only [true_iff]
    intro m hmem hd
    have : ∀ l : List (String × File), (∃ m ∈ l, Declares m mode) → ∃ x, LastDeclares l mode x := by
      intro l
      induction l with
      | nil => simp
      | cons a l ih =>
        rintro ⟨m, hm, hd⟩
        by_cases hl : ∃ m ∈ l, Declares m mode
        · obtain ⟨x, hx⟩ := ih hl
          exact ⟨x, (lastDeclares_cons _ _ _ _).2 (.inl hx)⟩
        · push Not at hl
          rcases List.mem_cons.1 hm with rfl | hm
          · exact ⟨m.1, (lastDeclares_cons _ _ _ _).2 (.inr ⟨rfl, hd, hl⟩)⟩
          · exact absurd hd (hl m hm)
    obtain ⟨x, hx⟩ := this ms ⟨m, hmem, hd⟩
    rw [(hl x).2 hx] at ht
    exact absurd ht (by simp)
  | some x =>
    obtain ⟨pre, m, post, he, _, hd, _⟩ := (hl x).1 ht
    constructor
    · intro hv
      dsimp only at hv
      cases hp : package x with
      | none => rw [hp] at hv; simp at hv
      | some p => rw [hp] at hv; exact absurd hv (hc p)
    · intro hall
      exact absurd hd (hall m (by rw [he]; simp))

/-- A name that is declared runs the module that declares it last and no other, and gives the class
which that module names. -/
theorem load_registered (ms : List (String × File)) (t : List (String × String))
    (h : drivers ms = .ok t) (package : String → Option (String → Option Obj))
    (custom : Option (String → Option Obj)) (mode x c : String) (hm : mode ≠ "custom")
    (hx : LastDeclares ms mode x) (p : String → Option Obj) (hp : package x = some p)
    (hc : p "__DRIVER_CLASS__" = some (.str c)) (o : Obj) (ho : p c = some o) :
    load t package custom mode = .ok o := by
  unfold load
  rw [if_neg hm, (drivers_lookup ms t h mode x).2 hx]
  simp [hp, classOf, hc, ho]

/-- With the name `custom` the table plays no part, even if a module of the package is called that. -/
theorem load_custom (t t' : List (String × String)) (package package' : String → Option (String → Option Obj))
    (p : String → Option Obj) (c : String)
    (hc : p "__DRIVER_CLASS__" = some (.str c)) (o : Obj) (ho : p c = some o) :
    load t package (some p) "custom" = .ok o ∧
      load t package (some p) "custom" = load t' package' (some p) "custom" := by
  refine ⟨?_, ?_⟩
  · simp [load, classOf, hc, ho]
  · simp [load]

/-- A module of the package without `__DRIVER_CLASS__` is an `AttributeError`, as documented. -/
theorem missing_class_partial (ms : List (String × File)) (t : List (String × String))
    (h : drivers ms = .ok t) (package : String → Option (String → Option Obj))
    (custom : Option (String → Option Obj)) (mode x : String) (hm : mode ≠ "custom")
    (hx : LastDeclares ms mode x) (p : String → Option Obj) (hp : package x = some p)
    (hc : p "__DRIVER_CLASS__" = none) :
    load t package custom mode = .error .attributeError := by
  unfold load
  rw [if_neg hm, (drivers_lookup ms t h mode x).2 hx]
  simp [hp, classOf, hc]

/-- A custom file without `__DRIVER_CLASS__` is never that: the message itself uses a variable that
has no value. -/
theorem missing_class_custom (t : List (String × String))
    (package : String → Option (String → Option Obj)) (p : String → Option Obj)
    (hc : p "__DRIVER_CLASS__" = none) :
    load t package (some p) "custom" = .error .unboundLocal ∧
      load t package (some p) "custom" ≠ .error .attributeError := by
  simp [load, classOf, hc]

/-! ### Examples -/

/-- A file that declares a class and a name. -/
def plain (c n : String) : File :=
  .tree [.assign [some "__DRIVER_NAME__"] (some n), .assign [some "__DRIVER_CLASS__"] (some c)]

theorem scan_plain (c n : String) : scan (plain c n) = .ok (some c, some n) := by
  simp only [scan, plain]
  congr 1
  simp [walk, see]

/-- The name and the file name may differ, and the order is that of the names. -/
example : drivers [("doublewell", plain "DoubleWell_driver" "DW"), ("bath", plain "B" "bath"),
    ("tools", .bad)] = .ok [("DW", "doublewell"), ("bath", "bath")] := by
  have e1 : register [] ("doublewell", plain "DoubleWell_driver" "DW") = .ok [("DW", "doublewell")] := by
    unfold register
    rw [if_neg (by decide), scan_plain]
    simp [dictSet]
  have e2 : register [("DW", "doublewell")] ("bath", plain "B" "bath")
      = .ok [("DW", "doublewell"), ("bath", "bath")] := by
    unfold register
    rw [if_neg (by decide), scan_plain]
    simp [dictSet]
  have e3 : register [("DW", "doublewell"), ("bath", "bath")] ("tools", .bad)
      = .ok [("DW", "doublewell"), ("bath", "bath")] := by
    unfold register
    rw [if_pos rfl]
  have hle : ("DW" : String) ≤ "bath" := by decide +kernel
  simp only [drivers, registerAll, e1, e2, e3]
  simp [sorted, hle]

/-- The hypotheses of the theorems about the table are met. -/
example : Declares ("doublewell", plain "DoubleWell_driver" "DW") "DW" :=
  ⟨by decide, by decide, _, by decide, scan_plain _ _⟩

end Verif.PesReg
