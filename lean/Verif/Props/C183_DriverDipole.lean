import Verif.FF.DriverDipole

/-! C183: the options and the output of the driver for machine learned dipoles. -/

namespace Verif.DrvDipole

/-! ### Default values -/

/-- The value at a path of keys. -/
def get : J → List String → Option J
  | x, [] => some x
  | .obj d, k :: ks => match d.lookup k with
    | some v => get v ks
    | none => none
  | _, _ :: _ => none

/-- Every dictionary inside has each key once, as python dictionaries do. -/
inductive Keys : J → Prop
  | null : Keys .null
  | bool (b : Bool) : Keys (.bool b)
  | num (n : Int) : Keys (.num n)
  | str (s : String) : Keys (.str s)
  | arr (n : Nat) : Keys (.arr n)
  | obj (d : List (String × J)) (h : (d.map Prod.fst).Nodup)
      (hd : ∀ k v, d.lookup k = some v → Keys v) : Keys (.obj d)

/-- What the copy leaves at one key. -/
def merged (v : J) (old : Option J) : J :=
  match v, old with
  | v, none => v
  | .obj a, some (.obj b) => .obj (recursiveCopy a b)
  | _, some b => b

theorem lookup_setKey (d : List (String × J)) (k x : String) (v : J) :
    (setKey d k v).lookup x = if x = k then (d.lookup k).map (fun _ => v) else d.lookup x := by
  induction d with
  | nil => simp [setKey]
  | cons p d ih =>
    obtain ⟨k', v'⟩ := p
    rw [setKey] at ih ⊢
    rw [List.map_cons]
    dsimp only
    by_cases h : k' = k
    · subst h
      rw [if_pos rfl, List.lookup_cons]
      by_cases h2 : x = k'
      · simp [h2]
      · rw [beq_eq_false_iff_ne.2 h2, ih]
        simp [h2, List.lookup_cons, beq_eq_false_iff_ne.2 h2]
    · rw [if_neg h, List.lookup_cons, List.lookup_cons, List.lookup_cons, ih]
      by_cases h2 : x = k'
      · subst h2; simp [h]
      · rw [beq_eq_false_iff_ne.2 h2, beq_eq_false_iff_ne.2 (Ne.symm h)]

theorem lookup_concat (d : List (String × J)) (k x : String) (v : J) (h : d.lookup k = none) :
    (d ++ [(k, v)]).lookup x = if x = k then some v else d.lookup x := by
  induction d with
  | nil =>
    by_cases h2 : x = k
    · simp [h2]
    · simp [List.lookup_cons, h2, beq_eq_false_iff_ne.2 h2]
  | cons p d ih =>
    obtain ⟨k', v'⟩ := p
    rw [List.lookup_cons] at h
    by_cases hk : k = k'
    · subst hk; simp at h
    · rw [beq_eq_false_iff_ne.2 hk] at h
      rw [List.cons_append, List.lookup_cons, List.lookup_cons, ih h]
      by_cases h2 : x = k'
      · subst h2; simp [Ne.symm hk]
      · rw [beq_eq_false_iff_ne.2 h2]

theorem copy_step (k : String) (v : J) (rest target : List (String × J)) :
    ∃ t', recursiveCopy ((k, v) :: rest) target = recursiveCopy rest t' ∧
      ∀ x, t'.lookup x = if x = k then some (merged v (target.lookup k)) else target.lookup x := by
  cases hk : target.lookup k with
  | none =>
    refine ⟨target ++ [(k, v)], ?_, ?_⟩
    · cases v <;> simp [recursiveCopy, hk]
    · intro x
      rw [lookup_concat _ _ _ _ hk]
      cases v <;> rfl
  | some b =>
    by_cases hb : (∃ a, v = .obj a) ∧ ∃ t, b = .obj t
    · obtain ⟨⟨a, rfl⟩, t, rfl⟩ := hb
      refine ⟨setKey target k (.obj (recursiveCopy a t)), by simp [recursiveCopy, hk], ?_⟩
      intro x
      rw [lookup_setKey, hk]
      rfl
    · refine ⟨target, ?_, ?_⟩
      · cases v with
        | obj a =>
          cases b with
          | obj t => exact absurd ⟨⟨a, rfl⟩, t, rfl⟩ hb
          | _ => simp [recursiveCopy, hk]
        | _ => simp [recursiveCopy, hk]
      · intro x
        have hm : merged v (some b) = b := by
          cases v with
          | obj a =>
            cases b with
            | obj t => exact absurd ⟨⟨a, rfl⟩, t, rfl⟩ hb
            | _ => rfl
          | _ => cases b <;> rfl
        rw [hm]
        split_ifs with h
        · rw [h, hk]
        · rfl

/-- What the copy leaves at each key, whatever the order of the keys. -/
theorem copy_lookup (source target : List (String × J)) (h : (source.map Prod.fst).Nodup)
    (x : String) :
    (recursiveCopy source target).lookup x =
      match source.lookup x with
      | none => target.lookup x
      | some v => some (merged v (target.lookup x)) := by
  induction source generalizing target with
  | nil => simp [recursiveCopy]
  | cons p rest ih =>
    obtain ⟨k, v⟩ := p
    rw [List.map_cons, List.nodup_cons] at h
    obtain ⟨t', he, ht⟩ := copy_step k v rest target
    rw [he, ih t' h.2, ht x, List.lookup_cons]
    by_cases hx : x = k
    · subst hx
      have hr : rest.lookup x = none := by
        rw [List.lookup_eq_none_iff]
        intro p hp
        have : p.1 ≠ x := fun e => h.1 (List.mem_map.2 ⟨p, hp, e⟩)
        simpa [beq_eq_false_iff_ne] using Ne.symm this
      simp [hr]
    · rw [beq_eq_false_iff_ne.2 hx, if_neg hx]

/-- Whatever the user sets, other than a whole dictionary, is kept. -/
theorem user_kept (d u : List (String × J)) (hd : Keys (.obj d)) (path : List String) (x : J)
    (hx : ∀ o, x ≠ .obj o) (h : get (.obj u) path = some x) :
    get (.obj (recursiveCopy d u)) path = some x := by
  induction path generalizing d u with
  | nil => exact absurd (Option.some.inj h).symm (hx u)
  | cons k ks ih =>
    cases hd with
    | obj _ hn hk =>
    rw [get] at h ⊢
    rw [copy_lookup d u hn k]
    cases hu : u.lookup k with
    | none => rw [hu] at h; simp at h
    | some b =>
      rw [hu] at h
      dsimp only at h
      cases hdk : d.lookup k with
      | none => exact h
      | some a =>
        dsimp only
        cases a with
        | obj a' =>
          cases b with
          | obj b' => exact ih a' b' (hk k _ hdk) h
          | _ => exact h
        | _ => cases b <;> exact h

/-- Wherever the dictionaries of the user stop short of a path, the default value is found there. -/
theorem default_filled (d u : List (String × J)) (hd : Keys (.obj d)) (p : List String) (k : String)
    (q : List String) (o : List (String × J)) (x : J)
    (hu : get (.obj u) p = some (.obj o)) (ho : o.lookup k = none)
    (h : get (.obj d) (p ++ k :: q) = some x) :
    get (.obj (recursiveCopy d u)) (p ++ k :: q) = some x := by
  induction p generalizing d u with
  | nil =>
    have e : u = o := by simpa [get] using hu
    subst e
    cases hd with
    | obj _ hn hk =>
    rw [List.nil_append] at h ⊢
    rw [get] at h ⊢
    rw [copy_lookup d u hn k, ho]
    cases hdk : d.lookup k with
    | none => rw [hdk] at h; simp at h
    | some a =>
      rw [hdk] at h
      cases a <;> exact h
  | cons j p ih =>
    cases hd with
    | obj _ hn hk =>
    rw [List.cons_append] at h ⊢
    rw [get] at h hu ⊢
    rw [copy_lookup d u hn j]
    cases huj : u.lookup j with
    | none => rw [huj] at hu; simp at hu
    | some b =>
      rw [huj] at hu
      dsimp only at hu
      cases hdj : d.lookup j with
      | none => rw [hdj] at h; simp at h
      | some a =>
        rw [hdj] at h
        dsimp only at h ⊢
        cases a with
        | obj a' =>
          cases b with
          | obj b' => exact ih a' b' (hk j _ hdj) hu h
          | _ => cases p <;> simp [get] at hu
        | _ => cases p <;> simp [get] at h

/-- A value that the user gives in place of a dictionary hides all the default values below. -/
theorem user_blocks (d u : List (String × J)) (hd : Keys (.obj d)) (p : List String) (k : String)
    (q : List String) (x : J) (hx : ∀ o, x ≠ .obj o) (hu : get (.obj u) p = some x) :
    get (.obj (recursiveCopy d u)) (p ++ k :: q) = none := by
  have h := user_kept d u hd p x hx hu
  have split : ∀ (y : J) (p : List String), get y p = some x → get y (p ++ k :: q) = none := by
    intro y p
    induction p generalizing y with
    | nil =>
      intro e
      have e' : y = x := by simpa [get] using e
      subst e'
      cases y with
      | obj o => exact absurd rfl (hx o)
      | _ => rfl
    | cons j p ih =>
      intro e
      cases y with
      | obj o =>
        rw [List.cons_append]
        rw [get] at e ⊢
        cases hj : o.lookup j with
        | none => rfl
        | some v => rw [hj] at e; exact ih v e
      | _ => rfl
  exact split _ _ h

/-! ### The options of a run -/

theorem default_keys : Keys (.obj optsDefault) := by
  have sub : ∀ d : List (String × J), (d.map Prod.fst).Nodup →
      (∀ p ∈ d, Keys p.2) → Keys (.obj d) := by
    intro d hn hd
    refine .obj d hn fun k v h => ?_
    have : ∃ p ∈ d, p.2 = v := by
      clear hn hd
      induction d with
      | nil => simp at h
      | cons p d ih =>
        rw [List.lookup_cons] at h
        by_cases hk : (k == p.1) = true
        · rw [hk] at h; exact ⟨p, by simp, Option.some.inj h⟩
        · rw [Bool.not_eq_true] at hk
          rw [hk] at h
          obtain ⟨q, hq, hv⟩ := ih h
          exact ⟨q, by simp [hq], hv⟩
    obtain ⟨p, hp, rfl⟩ := this
    exact hd p hp
  refine sub _ (by decide) ?_
  intro p hp
  simp only [optsDefault, List.mem_cons, List.not_mem_nil, or_false] at hp
  rcases hp with rfl | rfl | rfl
  · refine sub _ (by decide) ?_
    intro p hp
    simp only [List.mem_cons, List.not_mem_nil, or_false] at hp
    rcases hp with rfl | rfl
    · exact .bool _
    · exact .null
  · refine sub _ (by decide) ?_
    intro p hp
    simp only [List.mem_cons, List.not_mem_nil, or_false] at hp
    rcases hp with rfl | rfl | rfl
    · exact .bool _
    · exact .bool _
    · exact .null
  · exact .bool _

/-- The value a setting has when the user does not give it. -/
def standard : List (List String × J) :=
  [(["dipole", "send"], .bool true), (["dipole", "file"], .null), (["BEC", "compute"], .bool true),
   (["BEC", "send"], .bool true), (["BEC", "file"], .null), (["restart"], .bool false)]

/-- Without a file of options, with one that cannot be read, and with one that is not a dictionary, all
settings have their standard values. -/
theorem no_options (f : Option (Option J)) (h : ∀ u, f ≠ some (some (.obj u))) (s : List String × J)
    (hs : s ∈ standard) : get (.obj (readOpts f)) s.1 = some s.2 := by
  have e : readOpts f = optsDefault := by
    have e0 : recursiveCopy optsDefault [] = optsDefault := by
      simp [optsDefault, recursiveCopy, List.lookup]
    rcases f with _ | _ | j
    · exact e0
    · exact e0
    · cases j with
      | obj u => exact absurd rfl (h u)
      | null => exact e0
      | _ => exact e0
  rw [e]
  simp only [standard, List.mem_cons, List.not_mem_nil, or_false] at hs
  rcases hs with rfl | rfl | rfl | rfl | rfl | rfl <;> simp [get, optsDefault, List.lookup]

/-- With a file of options every setting has the value of the file, or the standard value if the file
does not give it, as long as the file has dictionaries (or nothing) where dictionaries are expected. -/
theorem settings_partial (u : List (String × J))
    (hu : ∀ k ∈ ["dipole", "BEC"], u.lookup k = none ∨ ∃ o, u.lookup k = some (.obj o))
    (s : List String × J) (hs : s ∈ standard)
    (hval : ∀ x, get (.obj u) s.1 = some x → ∀ o, x ≠ .obj o) :
    get (.obj (readOpts (some (some (.obj u))))) s.1 =
      match get (.obj u) s.1 with
      | some x => some x
      | none => some s.2 := by
  have e : readOpts (some (some (.obj u))) = recursiveCopy optsDefault u := rfl
  rw [e]
  cases hg : get (.obj u) s.1 with
  | some x => exact user_kept _ _ default_keys _ x (hval x hg) hg
  | none =>
    dsimp only
    have hstd : get (.obj optsDefault) s.1 = some s.2 := by
      simp only [standard, List.mem_cons, List.not_mem_nil, or_false] at hs
      rcases hs with rfl | rfl | rfl | rfl | rfl | rfl <;> simp [get, optsDefault, List.lookup]
    have two : ∀ a b : String, a ∈ ["dipole", "BEC"] → s.1 = [a, b] →
        get (.obj (recursiveCopy optsDefault u)) s.1 = some s.2 := by
      intro a b ha hab
      rw [hab] at hg hstd ⊢
      rcases hu a ha with hn | ⟨o, ho⟩
      · exact default_filled _ u default_keys [] a [b] u s.2 (by simp [get]) hn hstd
      · refine default_filled _ u default_keys [a] b [] o s.2 (by simp [get, ho]) ?_ hstd
        simp only [get, ho] at hg
        cases hb : o.lookup b with
        | none => rfl
        | some v => rw [hb] at hg; simp at hg
    simp only [standard, List.mem_cons, List.not_mem_nil, or_false] at hs
    rcases hs with rfl | rfl | rfl | rfl | rfl | rfl
    · exact two _ _ (by simp) rfl
    · exact two _ _ (by simp) rfl
    · exact two _ _ (by simp) rfl
    · exact two _ _ (by simp) rfl
    · exact two _ _ (by simp) rfl
    · refine default_filled _ u default_keys [] "restart" [] u _ (by simp [get]) ?_ hstd
      simp only [get] at hg
      cases hb : u.lookup "restart" with
      | none => rfl
      | some v => rw [hb] at hg; simp at hg

/-- Something else in the place of a dictionary stops the driver when it reports on its options. -/
theorem settings_fail (x : J) (hx : ∀ o, x ≠ .obj o) {α : Type} (disk : String → List α) (n : Nat)
    (hn : 3 ≤ n) : check n (some (.obj [("BEC", x)])) disk = .error .typeError := by
  have e : (readOpts (some (some (.obj [("BEC", x)])))).lookup "BEC" = some x := by
    have := user_kept optsDefault [("BEC", x)] default_keys ["BEC"] x hx (by simp [get])
    simp only [get] at this
    show (recursiveCopy optsDefault [("BEC", x)]).lookup "BEC" = some x
    cases h : (recursiveCopy optsDefault [("BEC", x)]).lookup "BEC" with
    | none => rw [h] at this; simp at this
    | some v => rw [h] at this; exact this
  unfold check
  rw [if_neg (by omega)]
  dsimp only
  rw [if_neg (by omega)]
  have hr : report (readOpts (some (some (.obj [("BEC", x)])))) = .error .typeError := by
    unfold report
    simp only [bind, Except.bind, item, e]
  rw [hr]

/-- With fewer than two arguments the driver does not exit with its message. -/
theorem few_arguments {α : Type} (n : Nat) (hn : n < 2) (f : Option J) (disk : String → List α) :
    check n f disk = .error .attributeError := by
  unfold check
  rw [if_pos hn]

/-- Two arguments are enough. -/
theorem two_arguments {α : Type} (f : Option J) (disk : String → List α) :
    ∃ lines, check 2 f disk = .ok (optsDefault, lines, disk) := by
  have e0 : readOpts none = optsDefault := by
    simp [readOpts, optsDefault, recursiveCopy, List.lookup]
  have hr : report optsDefault = .ok ["Computing BECs: " ++ "yes"] := by
    simp only [report, bind, Except.bind, item, optsDefault]
    simp [List.lookup, truthy]
  refine ⟨["Computing BECs: " ++ "yes"], ?_⟩
  unfold check
  rw [if_neg (by decide)]
  dsimp only
  rw [if_pos rfl, e0, hr]

/-- The dipole cannot be saved to a file unless the Born charges are saved too: the report on the
options prints the wrong name and stops the driver. -/
theorem dipole_file_alone {α : Type} (s : String) (disk : String → List α) (n : Nat) (hn : 3 ≤ n) :
    check n (some (.obj [("dipole", .obj [("file", .str s)])])) disk = .error .formatError := by
  unfold check
  rw [if_neg (by omega)]
  dsimp only
  rw [if_neg (by omega)]
  have hr : report (readOpts (some (some (.obj [("dipole", .obj [("file", .str s)])])))) =
      .error .formatError := by
    simp only [report, readOpts, addDefault, bind, Except.bind, item]
    simp [optsDefault, recursiveCopy, List.lookup, setKey, formatS]
  rw [hr]

/-- With both files the message about the dipole names the file of the Born charges. -/
theorem dipole_file_misreported {α : Type} (b s : String) (disk : String → List α) (n : Nat)
    (hn : 3 ≤ n) :
    ∃ o, check n (some (.obj [("dipole", .obj [("file", .str s)]), ("BEC", .obj [("file", .str b)])]))
        disk =
      .ok (o, ["Computing BECs: " ++ "yes", "BECs will be saved to file '" ++ b ++ "'",
        "dipole will be saved to file '" ++ b ++ "'"], disk) := by
  refine ⟨readOpts (some (some (.obj [("dipole", .obj [("file", .str s)]),
    ("BEC", .obj [("file", .str b)])]))), ?_⟩
  unfold check
  rw [if_neg (by omega)]
  dsimp only
  rw [if_neg (by omega)]
  have hr : report (readOpts (some (some (.obj [("dipole", .obj [("file", .str s)]),
      ("BEC", .obj [("file", .str b)])])))) = .ok ["Computing BECs: " ++ "yes",
      "BECs will be saved to file '" ++ b ++ "'", "dipole will be saved to file '" ++ b ++ "'"] := by
    simp only [report, readOpts, addDefault, bind, Except.bind, item]
    simp [optsDefault, recursiveCopy, List.lookup, setKey, truthy, formatS]
  rw [hr]

/-! ### One evaluation -/

/-- A setting is off when it is null, false, zero or empty. -/
theorem off_iff (x : J) : truthy x = false ↔
    x = .null ∨ x = .bool false ∨ x = .num 0 ∨ x = .str "" ∨ x = .arr 0 ∨ x = .obj [] := by
  cases x <;> simp [truthy]

/-- The settings that an evaluation looks at. -/
structure Settings where
  compute : J
  becSend : J
  becFile : J
  send : J
  file : J

/-- The options hold these settings. -/
def Holds (o : List (String × J)) (s : Settings) : Prop :=
  get (.obj o) ["BEC", "compute"] = some s.compute ∧ get (.obj o) ["BEC", "send"] = some s.becSend ∧
  get (.obj o) ["BEC", "file"] = some s.becFile ∧ get (.obj o) ["dipole", "send"] = some s.send ∧
  get (.obj o) ["dipole", "file"] = some s.file

theorem item_of_get (o : List (String × J)) (a b : String) (x : J)
    (h : get (.obj o) [a, b] = some x) :
    ∃ y, item (.obj o) a = .ok y ∧ item y b = .ok x := by
  rw [get] at h
  cases ha : o.lookup a with
  | none => rw [ha] at h; simp at h
  | some y =>
    rw [ha] at h
    dsimp only at h
    refine ⟨y, by simp [item, ha], ?_⟩
    cases y with
    | obj d =>
      rw [get] at h
      cases hb : d.lookup b with
      | none => rw [hb] at h; simp at h
      | some z => rw [hb] at h; simp only [get, Option.some.injEq] at h; simp [item, hb, h]
    | _ => simp [get] at h

open Classical in
/-- The lines that one evaluation adds to the file `name`. -/
noncomputable def added {α : Type} (s : Settings) (step : Nat) (dip bec : α) (name : String) : List (Line α) :=
  (if truthy s.compute = true ∧ s.becFile = .str name then [Line.bec step bec] else []) ++
  (if s.file = .str name then [Line.dipole dip] else [])

theorem save_ok {β : Type} (disk : String → List β) (f : J) (l : β)
    (hf : f = .null ∨ ∃ n, f = .str n) :
    ∃ d, save disk f l = .ok d ∧ ∀ n, (f = .str n → d n = disk n ++ [l]) ∧ (f ≠ .str n → d n = disk n) := by
  rcases hf with rfl | ⟨m, rfl⟩
  · exact ⟨disk, rfl, fun n => ⟨by simp, fun _ => rfl⟩⟩
  · refine ⟨append disk m l, rfl, fun n => ⟨?_, ?_⟩⟩
    · intro h
      cases h
      simp [append]
    · intro h
      have : n ≠ m := fun e => h (by rw [e])
      simp [append, this]

/-- An evaluation returns no energy, no forces and no virial; the Born charges are sent exactly when
they are computed and sent, the dipole exactly when it is sent; each file grows by what is saved to it;
all this for a cell that is finite, or has nothing but zeros beside its infinite entries. -/
theorem evaluation {α : Type} (o : List (String × J)) (s : Settings) (h : Holds o s)
    (hb : s.becFile = .null ∨ ∃ n, s.becFile = .str n) (hf : s.file = .null ∨ ∃ n, s.file = .str n)
    (cell : List (Option ℚ)) (pos : List ℚ)
    (hc : (∀ x ∈ cell, x ≠ none) ∨ ∀ x ∈ cell, x = none ∨ x = some 0) (step : Nat) (dip bec : α)
    (disk : String → List (Line α)) :
    ∃ r, compute o cell pos step dip bec disk = .ok r ∧ r.pot = 0 ∧
      r.force = List.replicate pos.length 0 ∧ r.vir = List.replicate cell.length 0 ∧
      r.extras = (if truthy s.compute = true ∧ truthy s.becSend = true then [("BEC", bec)] else []) ++
        (if truthy s.send = true then [("dipole", dip)] else []) ∧
      ∀ n, r.disk n = disk n ++ added s step dip bec n := by
  obtain ⟨h1, h2, h3, h4, h5⟩ := h
  obtain ⟨B, hB, hcmp⟩ := item_of_get _ _ _ _ h1
  obtain ⟨B', hB', hbs⟩ := item_of_get _ _ _ _ h2
  obtain ⟨B'', hB'', hbf⟩ := item_of_get _ _ _ _ h3
  obtain ⟨D, hD, hs⟩ := item_of_get _ _ _ _ h4
  obtain ⟨D', hD', hfl⟩ := item_of_get _ _ _ _ h5
  have e1 : B' = B := Except.ok.inj (hB'.symm.trans hB)
  have e2 : B'' = B := Except.ok.inj (hB''.symm.trans hB)
  have e3 : D' = D := Except.ok.inj (hD'.symm.trans hD)
  subst e1 e2 e3
  have hcell : ¬ (((cell.any fun x => x.isNone) &&
      !(cell.all fun x => x == none || x == some 0)) = true) := by
    intro hh
    rw [Bool.and_eq_true, List.any_eq_true, Bool.not_eq_true'] at hh
    obtain ⟨⟨x, hx, hxn⟩, hall⟩ := hh
    rcases hc with hc | hc
    · exact hc x hx (by simpa using hxn)
    · have : (cell.all fun x => x == none || x == some 0) = true := by
        rw [List.all_eq_true]
        intro y hy
        rcases hc y hy with rfl | rfl <;> simp
      rw [this] at hall
      exact absurd hall (by decide)
  have z1 : (pos.map fun x => x * (0 : ℚ)) = List.replicate pos.length 0 := by
    rw [List.eq_replicate_iff]
    simp
  have z2 : ((cell.map fun x => x.getD 0).map fun x => x * (0 : ℚ)) = List.replicate cell.length 0 := by
    rw [List.eq_replicate_iff]
    simp
  unfold compute
  rw [if_neg hcell]
  simp only [bind, Except.bind, hB', hcmp]
  by_cases ht : truthy s.compute = true
  · rw [if_pos ht]
    obtain ⟨d1, hs1, hd1⟩ := save_ok disk s.becFile (Line.bec step bec) hb
    obtain ⟨d2, hs2, hd2⟩ := save_ok d1 s.file (Line.dipole dip) hf
    simp only [hbs, hbf, hs1, hD', hfl, hs2, hs]
    refine ⟨_, rfl, rfl, z1, z2, by simp [ht], ?_⟩
    intro n
    show d2 n = _
    unfold added
    by_cases g1 : s.becFile = .str n <;> by_cases g2 : s.file = .str n
    · rw [(hd2 n).1 g2, (hd1 n).1 g1]; simp [ht, g1, g2]
    · rw [(hd2 n).2 g2, (hd1 n).1 g1]; simp [ht, g1, g2]
    · rw [(hd2 n).1 g2, (hd1 n).2 g1]; simp [g1, g2]
    · rw [(hd2 n).2 g2, (hd1 n).2 g1]; simp [g1, g2]
  · rw [if_neg ht]
    obtain ⟨d2, hs2, hd2⟩ := save_ok disk s.file (Line.dipole dip) hf
    simp only [hD', hfl, hs2, hs]
    refine ⟨_, rfl, rfl, z1, z2, by simp [ht], ?_⟩
    intro n
    show d2 n = _
    unfold added
    by_cases g2 : s.file = .str n
    · rw [(hd2 n).1 g2]; simp [ht, g2]
    · rw [(hd2 n).2 g2]; simp [ht, g2]

/-- A cell with infinite entries and others that are neither infinite nor zero is refused. -/
theorem cell_refused {α : Type} (o : List (String × J)) (cell : List (Option ℚ)) (pos : List ℚ)
    (hi : none ∈ cell) (q : ℚ) (hq : q ≠ 0) (hm : some q ∈ cell) (step : Nat) (dip bec : α)
    (disk : String → List (Line α)) :
    compute o cell pos step dip bec disk = .error .valueError := by
  unfold compute
  rw [if_pos]
  rw [Bool.and_eq_true, List.any_eq_true, Bool.not_eq_true']
  refine ⟨⟨none, hi, rfl⟩, ?_⟩
  rw [List.all_eq_false]
  exact ⟨some q, hm, by simp [hq]⟩

/-- `restart` does not remove anything, although the driver says so: what was in a file before the run is
still there after an evaluation. -/
theorem restart_keeps {α : Type} (u : List (String × J)) (n : Nat) (disk : String → List (Line α))
    (o : List (String × J)) (lines : List String) (disk' : String → List (Line α))
    (h : check n (some (.obj u)) disk = .ok (o, lines, disk')) (s : Settings) (hs : Holds o s)
    (hb : s.becFile = .null ∨ ∃ n, s.becFile = .str n) (hf : s.file = .null ∨ ∃ n, s.file = .str n)
    (cell : List (Option ℚ)) (pos : List ℚ) (hc : ∀ x ∈ cell, x ≠ none) (dip bec : α) :
    ∃ r, compute o cell pos 0 dip bec disk' = .ok r ∧
      ∀ name, r.disk name = disk name ++ added s 0 dip bec name := by
  have e : disk' = disk := by
    unfold check at h
    split_ifs at h
    all_goals
      dsimp only at h
      split at h
      · exact absurd h (by simp)
      · simp only [Except.ok.injEq, Prod.mk.injEq] at h
        exact h.2.2.symm
  subst e
  obtain ⟨r, hr, _, _, _, _, hd⟩ := evaluation o s hs hb hf cell pos (.inl hc) 0 dip bec disk'
  exact ⟨r, hr, hd⟩

/-- The removal that is announced and does not happen. -/
example : ∃ lines o, check 3 (some (.obj [("restart", .bool true), ("BEC", .obj [("file", .str "b")])]))
      (fun _ => [Line.old (α := ℚ) "x"]) = .ok (o, lines, fun _ => [Line.old "x"]) ∧
    "'restart' is true: removing old file '" ++ "b" ++ "'" ∈ lines ∧
    Holds o ⟨.bool true, .bool true, .str "b", .bool true, .null⟩ := by
  refine ⟨["Computing BECs: " ++ "yes", "BECs will be saved to file '" ++ "b" ++ "'",
    "'restart' is true: removing old file '" ++ "b" ++ "'"],
    readOpts (some (some (.obj [("restart", .bool true), ("BEC", .obj [("file", .str "b")])]))),
    ?_, by simp, ?_⟩
  · unfold check
    rw [if_neg (by decide)]
    dsimp only
    rw [if_neg (by decide)]
    have hr : report (readOpts (some (some (.obj [("restart", .bool true),
        ("BEC", .obj [("file", .str "b")])])))) = .ok ["Computing BECs: " ++ "yes",
        "BECs will be saved to file '" ++ "b" ++ "'",
        "'restart' is true: removing old file '" ++ "b" ++ "'"] := by
      simp only [report, readOpts, addDefault, bind, Except.bind, item]
      simp [optsDefault, recursiveCopy, List.lookup, setKey, truthy, formatS]
    rw [hr]
  · simp [Holds, get, readOpts, addDefault, optsDefault, recursiveCopy, List.lookup, setKey]

end Verif.DrvDipole
