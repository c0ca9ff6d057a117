import Mathlib.Logic.Nontrivial.Defs
import Verif.Io.Options

/-!
# C82, C83: options reach the simulation, and survive a restart

For every table: an option reaches the simulation exactly when it has an attribute to go to, and
the attributes are the same after a restart exactly when each is stored from where it was put.
Then, for the tables transcribed from the code, which blocks have both properties and which
options of the other blocks do not.
-/

namespace Verif.Options

variable {V : Type}

theorem upd_same (f : String → V) (k : String) (v : V) : upd f k v k = v := by simp [upd]

theorem upd_other (f : String → V) {k k' : String} (v : V) (h : k' ≠ k) : upd f k v k' = f k' := by
  simp [upd, h]

/-- An attribute no option goes to keeps the constructor's default. -/
theorem build_default (t : Table) (d o : String → V) (a : String) (h : a ∉ attrs t) :
    build t d o a = d a := by
  induction t generalizing d with
  | nil => rfl
  | cons r t ih =>
    simp only [build, List.foldl_cons]
    have h' : a ∉ attrs t := fun hm => h (by
      unfold attrs at *
      cases hr : r.attr <;> simp [List.filterMap_cons, hr, hm])
    have := ih (build1 o d r) h'
    rw [build] at this
    rw [this]
    unfold build1
    cases hr : r.attr with
    | none => rfl
    | some b =>
      have : a ≠ b := fun e => h (by simp [attrs, List.filterMap_cons, hr, e])
      simp [upd, this]

/-- An option that is passed on reaches its attribute, with the value given. -/
theorem option_reaches (t : Table) (hw : Wf t) (d o : String → V) (r : Row) (hr : r ∈ t)
    (a : String) (ha : r.attr = some a) : build t d o a = o r.opt := by
  obtain ⟨-, hn⟩ := hw
  induction t generalizing d with
  | nil => cases hr
  | cons x t ih =>
    simp only [build, List.foldl_cons]
    rcases List.mem_cons.1 hr with rfl | hm
    · have h' : a ∉ attrs t := by
        simp [attrs, List.filterMap_cons, ha] at hn
        intro hm
        simp only [attrs, List.mem_filterMap] at hm
        obtain ⟨y, hy, hya⟩ := hm
        exact hn.1 y hy hya
      have := build_default t (build1 o d r) o a h'
      rw [build] at this
      rw [this, build1, ha]
      exact upd_same _ _ _
    · have hn' : (attrs t).Nodup := by
        unfold attrs at *
        cases hx : x.attr with
        | none => simpa [List.filterMap_cons, hx] using hn
        | some b =>
          rw [List.filterMap_cons, hx] at hn
          exact (List.nodup_cons.1 hn).2
      have := ih (build1 o d x) hm hn'
      rw [build] at this
      exact this

/-- The object depends on the options that have an attribute, and on nothing else. -/
theorem build_congr (t : Table) (d o o' : String → V)
    (h : ∀ r ∈ t, r.attr ≠ none → o r.opt = o' r.opt) : build t d o = build t d o' := by
  induction t generalizing d with
  | nil => rfl
  | cons x t ih =>
    simp only [build, List.foldl_cons]
    have e : build1 o d x = build1 o' d x := by
      unfold build1
      cases hx : x.attr with
      | none => rfl
      | some b => simp [h x (by simp) (by simp [hx])]
    rw [e]
    exact ih _ (fun r hr hn => h r (by simp [hr]) hn)

/-- An option with no attribute is ignored: changing it changes nothing. -/
theorem option_ignored (t : Table) (hw : Wf t) (d o : String → V) (r : Row) (hr : r ∈ t)
    (hn : r.attr = none) (v : V) : build t d (upd o r.opt v) = build t d o := by
  refine build_congr t d _ _ (fun s hs hsn => upd_other _ _ ?_)
  intro he
  have : s = r := by
    have hnd := hw.1
    clear hw
    induction t with
    | nil => cases hr
    | cons x t ih =>
      simp only [List.map_cons, List.nodup_cons, List.mem_map, not_exists, not_and] at hnd
      rcases List.mem_cons.1 hr with rfl | hr' <;> rcases List.mem_cons.1 hs with rfl | hs'
      · rfl
      · exact absurd he (hnd.1 s hs')
      · exact absurd he.symm (hnd.1 r hr')
      · exact ih hr' hs' hnd.2
  exact hsn (this ▸ hn)

/-- What a stored option is in the checkpoint. -/
theorem save_stored (t : Table) (hw : (t.map (·.opt)).Nodup) (od obj : String → V) (r : Row)
    (hr : r ∈ t) : save t od obj r.opt = (r.stored.map obj).getD (od r.opt) := by
  have skip : ∀ (t : Table) (o : String → V) (k : String), k ∉ t.map (·.opt) →
      t.foldl (save1 obj) o k = o k := by
    intro t
    induction t with
    | nil => intros; rfl
    | cons x t ih =>
      intro o k hk
      simp only [List.map_cons, List.mem_cons, not_or] at hk
      rw [List.foldl_cons, ih _ _ hk.2]
      unfold save1
      cases x.stored with
      | none => rfl
      | some b => exact upd_other _ _ hk.1
  induction t generalizing od with
  | nil => cases hr
  | cons x t ih =>
    simp only [List.map_cons, List.nodup_cons] at hw
    rw [save, List.foldl_cons]
    rcases List.mem_cons.1 hr with rfl | hm
    · rw [skip t _ _ hw.1]
      unfold save1
      cases r.stored with
      | none => rfl
      | some b => simp [upd_same]
    · have := ih hw.2 (save1 obj od x) hm
      rw [save] at this
      rw [this]
      have hne : r.opt ≠ x.opt := fun e => hw.1 (by rw [← e]; exact List.mem_map_of_mem hm)
      unfold save1
      cases x.stored with
      | none => rfl
      | some b => simp [upd_other _ _ hne]

/-- An attribute that is stored from where it was put has, after a restart, the value it had
when the checkpoint was written. -/
theorem restart_kept (t : Table) (hw : Wf t) (d od obj : String → V) (r : Row) (hr : r ∈ t)
    (a : String) (ha : r.attr = some a) (hs : r.stored = some a) :
    restart t d od obj a = obj a := by
  rw [restart, option_reaches t hw d _ r hr a ha, save_stored t hw.1 od obj r hr, hs]
  rfl

/-- An attribute that is not stored is back at the option's default after a restart. -/
theorem restart_default (t : Table) (hw : Wf t) (d od obj : String → V) (r : Row) (hr : r ∈ t)
    (a : String) (ha : r.attr = some a) (hs : r.stored = none) :
    restart t d od obj a = od r.opt := by
  rw [restart, option_reaches t hw d _ r hr a ha, save_stored t hw.1 od obj r hr, hs]
  rfl

/-- Two inputs give the same object only if they agree on every option, exactly when every
option has an attribute to go to. -/
theorem all_reach_iff [h2 : Nontrivial V] (t : Table) (hw : Wf t) (d : String → V) :
    (∀ o o' : String → V, build t d o = build t d o' → ∀ r ∈ t, o r.opt = o' r.opt) ↔
      ignored t = [] := by
  have hi : ignored t = [] ↔ ∀ r ∈ t, r.attr ≠ none := by
    simp [ignored, List.filter_eq_nil_iff]
  rw [hi]
  constructor
  · intro h r hr hn
    obtain ⟨v, v', hv⟩ := h2.exists_pair_ne
    have := h (upd (fun _ => v) r.opt v') (fun _ => v) (option_ignored t hw d _ r hr hn v') r hr
    rw [upd_same] at this
    exact hv this.symm
  · intro h o o' he r hr
    obtain ⟨a, ha⟩ := Option.ne_none_iff_exists'.1 (h r hr)
    rw [← option_reaches t hw d o r hr a ha, ← option_reaches t hw d o' r hr a ha, he]

/-- Whatever has happened to the object before the checkpoint, a restart gives back the values
of all attributes that come from options, exactly when each is stored from where it was put. -/
theorem restart_same_iff [h2 : Nontrivial V] (t : Table) (hw : Wf t) :
    (∀ d od obj : String → V, ∀ a ∈ attrs t, restart t d od obj a = obj a) ↔
      forgotten t = [] := by
  have hi : forgotten t = [] ↔ ∀ r ∈ t, ∀ a, r.attr = some a → r.stored = some a := by
    simp only [forgotten, List.map_eq_nil_iff, List.filter_eq_nil_iff, Bool.and_eq_true,
      Option.isSome_iff_exists, bne_iff_ne, ne_eq, not_and, Decidable.not_not, forall_exists_index]
    constructor
    · intro h r hr a ha
      rw [← h r hr a ha, ha]
    · intro h r hr a ha
      rw [ha, h r hr a ha]
  rw [hi]
  constructor
  · intro h r hr a ha
    obtain ⟨v, v', hv⟩ := h2.exists_pair_ne
    have ham : a ∈ attrs t := List.mem_filterMap.2 ⟨r, hr, ha⟩
    have h1 := h (fun _ => v) (fun _ => v) (upd (fun _ => v) a v') a ham
    rw [restart, option_reaches t hw _ _ r hr a ha, save_stored t hw.1 _ _ r hr, upd_same] at h1
    cases hs : r.stored with
    | none => rw [hs] at h1; exact absurd h1 hv
    | some b =>
      rw [hs] at h1
      by_cases e : b = a
      · rw [e]
      · simp only [Option.map_some, Option.getD_some, upd, if_neg e] at h1
        exact absurd h1 hv
  · intro h d od obj a ha
    obtain ⟨r, hr, hra⟩ := List.mem_filterMap.1 ha
    exact restart_kept t hw d od obj r hr a hra (h r hr a hra)

/-- All transcribed tables are well formed. -/
theorem tables_wf : ∀ c ∈ tables, Wf c.2 := by decide +kernel

/-- The blocks with an option that has no effect, and those options. -/
theorem ignored_options :
    (tables.filter (fun c => ignored c.2 ≠ [])).map (fun c => (c.1, ignored c.2)) =
      [("ffcavphsocket", ["max_workers", "consolidate_messages", "batch_size"]),
       ("ffdirect", ["activelist"]), ("ffdmd", ["activelist"]),
       ("ffdebye", ["parameters", "activelist", "pbc", "threaded"]),
       ("ffplumed", ["parameters", "activelist", "pbc", "threaded"]),
       ("ffyaff", ["parameters", "activelist"]), ("ffsgdml", ["parameters", "activelist"]),
       ("ffcommittee", ["activelist", "threaded"])] := by
  decide +kernel

/-- The blocks with an option whose effect a restart does not keep, and those options. -/
theorem forgotten_options :
    (tables.filter (fun c => forgotten c.2 ≠ [])).map (fun c => (c.1, forgotten c.2)) =
      [("geop_bfgs", ["old_pos", "old_pot", "old_force", "ls_options"]),
       ("geop_bfgstrm", ["old_pos", "old_pot", "old_force", "ls_options"]),
       ("geop_lbfgs", ["old_pos", "old_pot", "old_force", "ls_options"]),
       ("geop_sd", ["old_pos", "old_pot", "old_force"]), ("geop_cg", ["old_pos", "old_pot"]),
       ("planetary", ["nbeads", "fixcom", "fixatoms_dof"]),
       ("scphonons", ["wthreshold", "precheck", "checkweights"]),
       ("neb", ["corrections_lbfgs"]), ("string", ["corrections_lbfgs"]),
       ("alkmc", ["optimizer", "neval"])] := by
  decide +kernel

/-- In every other block, each option given in the input reaches the simulation with the value
given. -/
theorem options_reach_partial [Nontrivial V] :
    ∀ c ∈ tables, c.1 ∉ ["ffcavphsocket", "ffdirect", "ffdmd", "ffdebye", "ffplumed", "ffyaff",
      "ffsgdml", "ffcommittee"] →
      ∀ d o o' : String → V, build c.2 d o = build c.2 d o' → ∀ r ∈ c.2, o r.opt = o' r.opt := by
  intro c hc hn d
  refine (all_reach_iff c.2 (tables_wf c hc) d).2 ?_
  revert c
  decide +kernel

/-- In every other block, the object a restart builds has the attribute values the object had
when the checkpoint was written, whatever happened to it before. -/
theorem restart_same_partial [Nontrivial V] :
    ∀ c ∈ tables, c.1 ∉ ["geop_bfgs", "geop_bfgstrm", "geop_lbfgs", "geop_sd", "geop_cg",
      "planetary", "scphonons", "neb", "string", "alkmc"] →
      ∀ d od obj : String → V, ∀ a ∈ attrs c.2, restart c.2 d od obj a = obj a := by
  intro c hc hn
  refine (restart_same_iff c.2 (tables_wf c hc)).2 ?_
  revert c
  decide +kernel

/-- Not so for the direct force field: any two lists of active atoms give the same object. -/
theorem direct_active_ignored (d o : String → V) (v : V) :
    build t_ffdirect d (upd o "activelist" v) = build t_ffdirect d o :=
  option_ignored t_ffdirect (by decide +kernel) d o ⟨"activelist", none, some "active"⟩
    (by decide +kernel) rfl v

/-- Not so for a committee: any two lists of active atoms give the same object. -/
theorem committee_active_ignored (d o : String → V) (v : V) :
    build t_ffcommittee d (upd o "activelist" v) = build t_ffcommittee d o :=
  option_ignored t_ffcommittee (by decide +kernel) d o ⟨"activelist", none, some "active"⟩
    (by decide +kernel) rfl v

/-- A planetary run with a reduced number of beads restarts with the default number. -/
theorem planetary_beads_lost (d od obj : String → V) :
    restart t_planetary d od obj "nbeads" = od "nbeads" :=
  restart_default t_planetary (by decide +kernel) d od obj ⟨"nbeads", some "nbeads", none⟩
    (by decide +kernel) "nbeads" rfl rfl

/-- A minimisation with BFGS restarts with the default line-search options. -/
theorem bfgs_linesearch_lost (d od obj : String → V) :
    restart t_geop_bfgs d od obj "ls_options" = od "ls_options" :=
  restart_default t_geop_bfgs (by decide +kernel) d od obj ⟨"ls_options", some "ls_options", none⟩
    (by decide +kernel) "ls_options" rfl rfl

/-- A self-consistent phonon run restarts with the default weight threshold. -/
theorem scp_threshold_lost (d od obj : String → V) :
    restart t_scphonons d od obj "wthreshold" = od "wthreshold" :=
  restart_default t_scphonons (by decide +kernel) d od obj ⟨"wthreshold", some "wthreshold", none⟩
    (by decide +kernel) "wthreshold" rfl rfl

/-- The fixed atoms of a planetary run are not those of the checkpointed run, but whatever the
planetary object itself, which does not use them, was built with. -/
theorem planetary_fixed_lost (d od obj : String → V) :
    restart t_planetary d od obj "ccdyn.fixatoms_dof" = obj "fixatoms_dof" := by
  have hw : Wf t_planetary := by decide +kernel
  have hr : (⟨"fixatoms_dof", some "ccdyn.fixatoms_dof", some "fixatoms_dof"⟩ : Row) ∈ t_planetary := by
    decide +kernel
  rw [restart, option_reaches t_planetary hw d _ _ hr _ rfl, save_stored t_planetary hw.1 od obj _ hr]
  rfl

-- the tables the statements are about are not empty, and the exceptions are a minority
example : tables.length = 50 ∧ (tables.map (fun c => c.2.length)).foldl (· + ·) 0 = 463 := by
  decide +kernel
example : restart t_dynamics (fun _ => 0) (fun _ => 1) (upd (fun _ => 7) "dt" 3) "dt" = 3 := by
  decide +kernel
example : restart t_planetary (fun _ => 0) (fun _ => 1) (upd (fun _ => 7) "nbeads" 3) "nbeads" = 1 := by
  decide +kernel

end Verif.Options
