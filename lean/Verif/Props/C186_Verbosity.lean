import Verif.Run.Verbosity
import Mathlib.Algebra.BigOperators.Group.List.Basic
import Mathlib.Tactic.Ring
import Mathlib.Tactic.FieldSimp
import Mathlib.Tactic.Linarith

/-! C186: how much is printed. -/

namespace Verif.Verb

/-! ### Specification -/

/-- The levels, from the least to the most. -/
def names : List String := ["quiet", "low", "medium", "high", "debug", "trace"]

/-- The place of a level. -/
def rank (s : String) : ℕ := names.idxOf s

theorem names_cases {s : String} (h : s ∈ names) :
    s = "quiet" ∨ s = "low" ∨ s = "medium" ∨ s = "high" ∨ s = "debug" ∨ s = "trace" := by
  simpa [names] using h

theorem options_names {s : String} (h : s ∈ options) : s ∈ names ∧ s ≠ "trace" := by
  have : s = "quiet" ∨ s = "low" ∨ s = "medium" ∨ s = "high" ∨ s = "debug" := by
    simpa [options] using h
  rcases this with rfl | rfl | rfl | rfl | rfl <;> decide

/-! ### The level -/

theorem set_ok {v : Verb} (hv : v.lock = false) {s : String} (hs : s ∈ names) :
    setLevel v s = .ok { v with level := rank s } := by
  rcases names_cases hs with rfl | rfl | rfl | rfl | rfl | rfl <;>
    (simp only [setLevel, hv]; rfl)

theorem shown_eq (v : Verb) {m : String} (hm : m ∈ names) :
    shown v m = some (decide (rank m ≤ v.level)) := by
  rcases names_cases hm with rfl | rfl | rfl | rfl | rfl | rfl <;> rfl

/-- When the level has been set, the messages of this and of the lower levels are printed and no
others. -/
theorem printed_iff {v : Verb} (hv : v.lock = false) {s m : String} (hs : s ∈ names) (hm : m ∈ names) :
    ∃ w, setLevel v s = .ok w ∧ (shown w m = some true ↔ rank m ≤ rank s) := by
  refine ⟨_, set_ok hv hs, ?_⟩
  rw [shown_eq _ hm]
  simp

/-- Whatever is printed at a level is also printed at all higher ones. -/
theorem nested (v : Verb) {m m' : String} (hm : m ∈ names) (hm' : m' ∈ names) (h : rank m ≤ rank m')
    (hp : shown v m' = some true) : shown v m = some true := by
  rw [shown_eq v hm'] at hp
  rw [shown_eq v hm]
  simp only [Option.some.injEq, decide_eq_true_eq] at hp ⊢
  omega

/-- A value that is not a level is an error and changes nothing. -/
theorem invalid {v : Verb} (hv : v.lock = false) {s : String} (hs : s ∉ names) :
    (∃ e, setLevel v s = .error e) ∧ Op.apply v (.level s) = v := by
  have : s ≠ "quiet" ∧ s ≠ "low" ∧ s ≠ "medium" ∧ s ≠ "high" ∧ s ≠ "debug" ∧ s ≠ "trace" := by
    simpa [names, not_or] using hs
  obtain ⟨a, b, c, d, e, f⟩ := this
  have h : setLevel v s = .error "Invalid verbosity level" := by
    simp [setLevel, hv, a, b, c, d, e, f]
  exact ⟨⟨_, h⟩, by simp [Op.apply, h]⟩

/-- As long as it is locked the level stays. -/
theorem locked_stays (ops : List Op) (v : Verb) (hv : v.lock = true) (h : ∀ o ∈ ops, ∀ b, o = .lock b → b = true) :
    ops.foldl Op.apply v = v := by
  induction ops with
  | nil => rfl
  | cons o ops ih =>
    rw [List.foldl_cons]
    have : Op.apply v o = v := by
      cases o with
      | level s => simp [Op.apply, setLevel, hv]
      | lock b =>
        have := h _ (by simp) b rfl
        subst this
        simp only [Op.apply]
        rw [← hv]
    rw [this]
    exact ih fun o ho => h o (by simp [ho])

/-- **Disagreement (C186).** A value that is not a level is not an error when the level is locked. -/
theorem locked_no_error : ∃ (v : Verb) (s : String), s ∉ names ∧ ∃ w, setLevel v s = .ok w :=
  ⟨⟨true, 0⟩, "loud", by decide, ⟨true, 0⟩, rfl⟩

/-- Whatever happens, the level is one of those there are. -/
theorem level_bound (ops : List Op) : (ops.foldl Op.apply Verb.start).level ≤ 5 := by
  have key : ∀ (ops : List Op) (v : Verb), v.level ≤ 5 → (ops.foldl Op.apply v).level ≤ 5 := by
    intro ops
    induction ops with
    | nil => exact fun v h => h
    | cons o ops ih =>
      intro v h
      rw [List.foldl_cons]
      apply ih
      cases o with
      | lock b => exact h
      | level s =>
        by_cases hl : v.lock = true
        · simpa [Op.apply, setLevel, hl] using h
        · have hl' : v.lock = false := by simpa using hl
          by_cases hs : s ∈ names
          · simp only [Op.apply, set_ok hl' hs]
            rcases names_cases hs with rfl | rfl | rfl | rfl | rfl | rfl <;> decide
          · rw [(invalid hl' hs).2]
            exact h
  exact key ops _ (by decide)

/-! ### Input, command line and restart -/

/-- The levels of the input file come back from the restart file. -/
theorem stored_same {v : Verb} (hv : v.lock = false) {s : String} (hs : s ∈ options) :
    ∃ w, setLevel v s = .ok w ∧ stored w = .ok s := by
  obtain ⟨hn, _⟩ := options_names hs
  refine ⟨_, set_ok hv hn, ?_⟩
  have : s = "quiet" ∨ s = "low" ∨ s = "medium" ∨ s = "high" ∨ s = "debug" := by
    simpa [options] using hs
  rcases this with rfl | rfl | rfl | rfl | rfl <;> rfl

/-- **Disagreement (C186).** The highest level does not come back: the restart file has the one
below. -/
theorem trace_lost {v : Verb} (hv : v.lock = false) :
    ∃ w, setLevel v "trace" = .ok w ∧ stored w = .ok "debug" ∧ shown w "trace" = some true := by
  refine ⟨_, set_ok hv (by decide), ?_, ?_⟩ <;> rfl

/-- The value in force: that of the command line if there is one. -/
def effective (file : String) (custom : Option String) : String := custom.getD file

/-- The program starts when the value in force is an option, and only then. -/
theorem load_iff (file : String) (custom : Option String) :
    (∃ s, load Verb.start file custom = .ok s) ↔ effective file custom ∈ options := by
  cases custom with
  | none =>
    by_cases h : file ∈ options
    · simp [load, effective, h, set_ok (v := Verb.start) rfl (options_names h).1]
    · simp [load, effective, h]
  | some c =>
    by_cases h : c ∈ options
    · simp [load, effective, h, set_ok (v := Verb.start) rfl (options_names h).1]
    · simp [load, effective, h]

/-- What a start prints: the banner unless the value in force is `quiet`, the input file from `medium`
on. -/
theorem load_prints {file : String} {custom : Option String} {s : Started}
    (h : load Verb.start file custom = .ok s) :
    s.verb.level = rank (effective file custom) ∧
      (s.banner = true ↔ effective file custom ≠ "quiet") ∧
      (s.echo = true ↔ rank "medium" ≤ rank (effective file custom)) := by
  have ho : effective file custom ∈ options := (load_iff file custom).1 ⟨s, h⟩
  have hn := (options_names ho).1
  have key : load Verb.start file custom = .ok ⟨{ Verb.start with level := rank (effective file custom) },
      effective file custom != "quiet", decide (rank "medium" ≤ rank (effective file custom))⟩ := by
    cases custom with
    | none =>
      have ho' : file ∈ options := ho
      have hn' : file ∈ names := hn
      simp only [load, ho', if_true, set_ok (v := Verb.start) rfl hn', shown_eq _ (show "medium" ∈ names by decide)]
      rfl
    | some c =>
      have ho' : c ∈ options := ho
      have hn' : c ∈ names := hn
      simp only [load, ho', if_true, set_ok (v := Verb.start) rfl hn', shown_eq _ (show "medium" ∈ names by decide)]
      rfl
  rw [key] at h
  injection h with h
  subst h
  refine ⟨rfl, ?_, ?_⟩ <;> simp

/-- **Disagreement (C186).** The highest level cannot be reached from the input file or the command
line. -/
theorem no_trace {file : String} {custom : Option String} {s : Started}
    (h : load Verb.start file custom = .ok s) : shown s.verb "trace" = some false := by
  have ho : effective file custom ∈ options := (load_iff file custom).1 ⟨s, h⟩
  rw [shown_eq _ (by decide), (load_prints h).1]
  have : effective file custom = "quiet" ∨ effective file custom = "low" ∨ effective file custom = "medium"
      ∨ effective file custom = "high" ∨ effective file custom = "debug" := by
    simpa [options] using ho
  rcases this with e | e | e | e | e <;> rw [e] <;> decide

/-- The level in the restart file after a run and any number of restarts is the last one given at the
command line, or that of the first input file if none was given. -/
theorem last_wins (cs : List (Option String)) (file : String) (hf : file ∈ options)
    (hc : ∀ c, some c ∈ cs → c ∈ options) :
    generations file cs = .ok ((cs.filterMap id).getLastD file) := by
  induction cs generalizing file with
  | nil => rfl
  | cons c cs ih =>
    have ho : effective file c ∈ options := by
      cases c with
      | none => exact hf
      | some c => exact hc c (by simp)
    obtain ⟨s, hs⟩ := (load_iff file c).2 ho
    obtain ⟨w, hw, hst⟩ := stored_same (v := Verb.start) rfl ho
    have hv : s.verb = w := by
      have hn := (options_names ho).1
      rw [set_ok (v := Verb.start) rfl hn] at hw
      injection hw with hw
      rw [← hw]
      cases c with
      | none =>
        have ho' : file ∈ options := ho
        simp only [load, ho', if_true, set_ok (v := Verb.start) rfl (options_names ho').1] at hs
        injection hs with hs
        rw [← hs]
        rfl
      | some c =>
        have ho' : c ∈ options := ho
        simp only [load, ho', if_true, set_ok (v := Verb.start) rfl (options_names ho').1] at hs
        injection hs with hs
        rw [← hs]
        rfl
    rw [generations, hs]
    dsimp only
    rw [hv, hst]
    dsimp only
    rw [ih _ ho fun c' h' => hc c' (by simp [h'])]
    cases c with
    | none => rfl
    | some c =>
      have e : (some c :: cs).filterMap id = c :: cs.filterMap id := rfl
      rw [e]
      generalize cs.filterMap id = l
      cases l <;> rfl

/-! ### Timings -/

/-- When timings are printed. -/
theorem reports_iff {v : Verb} (hv : v.lock = false) (s : String) (hs : s ∈ names) (step : ℕ) :
    ∃ w, setLevel v s = .ok w ∧ (reports w step = true ↔
      (rank "high" ≤ rank s) ∨ (s = "medium" ∧ 100 ∣ step) ∨ (s = "low" ∧ 1000 ∣ step)) := by
  refine ⟨_, set_ok hv hs, ?_⟩
  unfold reports
  rw [shown_eq _ (show "high" ∈ names by decide), shown_eq _ (show "medium" ∈ names by decide),
    shown_eq _ (show "low" ∈ names by decide)]
  dsimp only
  have e1 : rank "high" = 3 := by decide
  have e2 : rank "medium" = 2 := by decide
  have e3 : rank "low" = 1 := by decide
  rw [e1, e2, e3]
  have h100 : 1000 ∣ step → 100 ∣ step := fun h => dvd_trans ⟨10, rfl⟩ h
  rcases names_cases hs with rfl | rfl | rfl | rfl | rfl | rfl
  · have : rank "quiet" = 0 := by decide
    simp [this]
  · simp [e3, Nat.dvd_iff_mod_eq_zero]
  · simp only [e2]
    simp [← Nat.dvd_iff_mod_eq_zero]
    exact h100
  · simp [e1]
  · have : rank "debug" = 4 := by decide
    simp [this]
  · have : rank "trace" = 5 := by decide
    simp [this]

theorem foldl_tick (v : Verb) (l : List (ℕ × ℝ)) (s : Timer) :
    (l.foldl (tick v) s).out.map Prod.fst = s.out.map Prod.fst ++ (l.map Prod.fst).filter (reports v) ∧
    ((l.foldl (tick v) s).out.map fun r => r.2.1).sum + (l.foldl (tick v) s).cstep
      = (s.out.map fun r => r.2.1).sum + s.cstep + l.length ∧
    ((l.foldl (tick v) s).out.map fun r => (r.2.1 : ℝ) * r.2.2).sum + (l.foldl (tick v) s).ttot
      = (s.out.map fun r => (r.2.1 : ℝ) * r.2.2).sum + s.ttot + (l.map Prod.snd).sum := by
  induction l generalizing s with
  | nil => simp
  | cons x l ih =>
    rw [List.foldl_cons]
    obtain ⟨i1, i2, i3⟩ := ih (tick v s x)
    by_cases h : reports v x.1 = true
    · have e : tick v s x = ⟨0, 0, s.out ++ [(x.1, s.cstep + 1, (s.ttot + x.2) / (s.cstep + 1 : ℕ))]⟩ := by
        unfold tick
        dsimp only
        rw [if_pos h]
      have hn : ((s.cstep + 1 : ℕ) : ℝ) ≠ 0 := by positivity
      rw [e] at i1 i2 i3 ⊢
      refine ⟨?_, ?_, ?_⟩
      · rw [i1]
        simp [h]
      · rw [i2]
        simp
        omega
      · rw [i3]
        simp only [List.map_append, List.sum_append, List.map_cons, List.map_nil, List.sum_cons, List.sum_nil]
        rw [mul_div_cancel₀ _ hn]
        ring
    · have e : tick v s x = ⟨s.ttot + x.2, s.cstep + 1, s.out⟩ := by
        unfold tick
        dsimp only
        rw [if_neg h]
      rw [e] at i1 i2 i3 ⊢
      refine ⟨?_, ?_, ?_⟩
      · rw [i1]
        simp [h]
      · rw [i2]
        simp
        omega
      · rw [i3]
        simp only [List.map_cons, List.sum_cons]
        ring

/-- The lines with timings are those of the steps at which they are due; each step is in one average, or
after the last line; and the averages add up to the time that was spent. -/
theorem timings_complete (v : Verb) (start : ℕ) (ts : List ℝ) :
    (timings v start ts).out.map Prod.fst = (List.range' start ts.length).filter (reports v) ∧
    ((timings v start ts).out.map fun r => r.2.1).sum + (timings v start ts).cstep = ts.length ∧
    ((timings v start ts).out.map fun r => (r.2.1 : ℝ) * r.2.2).sum + (timings v start ts).ttot = ts.sum := by
  obtain ⟨h1, h2, h3⟩ := foldl_tick v ((List.range' start ts.length).zip ts) ⟨0, 0, []⟩
  have hl : (List.range' start ts.length).length = ts.length := by simp
  refine ⟨?_, ?_, ?_⟩
  · unfold timings
    rw [h1, List.map_fst_zip (by simp)]
    simp
  · unfold timings
    rw [h2]
    simp
  · unfold timings
    rw [h3, List.map_snd_zip (by simp)]
    simp

/-- A run at `medium` that is restarted with `quiet` and then without a value stays quiet. -/
example : generations "medium" [none, some "quiet", none] = .ok "quiet" :=
  last_wins _ _ (by decide) (by simp; decide)

/-- Two steps from step 99 on at `medium`: one line, about both. -/
example (a b : ℝ) : (timings ⟨false, 2⟩ 99 [a, b]).out = [(100, 2, (a + b) / (2 : ℕ))] := by
  simp [timings, tick, reports, shown, List.range']

end Verif.Verb
