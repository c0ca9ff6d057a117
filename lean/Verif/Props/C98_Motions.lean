import Verif.Io.MotionInput

/-!
# C98: every kind of motion offered by the input can be run

False of three kinds: constrained dynamics cannot be created, and the planetary model and the
kinetic Monte Carlo raise an exception at the end of their first step.
-/

namespace Verif.MotionInput

theorem unknown_none (s : Sig) : ∀ kw, unknown s kw = none ↔ ∀ k ∈ kw, k ∈ s.req ∨ k ∈ s.opt
  | [] => by simp [unknown]
  | k :: ks => by
      simp only [unknown]
      by_cases h : k ∈ s.req ∨ k ∈ s.opt
      · rw [if_pos h, unknown_none s ks]
        simp only [List.mem_cons, forall_eq_or_imp]
        exact ⟨fun g => ⟨h, g⟩, fun g => g.2⟩
      · rw [if_neg h]
        simp only [List.mem_cons, forall_eq_or_imp]
        exact ⟨fun g => (nomatch g), fun g => absurd g.1 h⟩

theorem absent_none (kw : List String) : ∀ rs, absent kw rs = none ↔ ∀ r ∈ rs, r ∈ kw
  | [] => by simp [absent]
  | r :: rs => by
      simp only [absent]
      by_cases h : r ∈ kw
      · rw [if_pos h, absent_none kw rs]
        simp only [List.mem_cons, forall_eq_or_imp]
        exact ⟨fun g => ⟨h, g⟩, fun g => g.2⟩
      · rw [if_neg h]
        simp only [List.mem_cons, forall_eq_or_imp]
        exact ⟨fun g => (nomatch g), fun g => absurd g.1 h⟩

/-- A call goes through exactly when every keyword is the name of an argument and every argument
without a default is given. -/
theorem call_ok (s : Sig) (kw : List String) : call s kw = .ok () ↔
    (∀ k ∈ kw, k ∈ s.req ∨ k ∈ s.opt) ∧ ∀ r ∈ s.req, r ∈ kw := by
  rw [← unknown_none, ← absent_none kw s.req]
  unfold call
  cases h1 : unknown s kw with
  | some k => simp
  | none => cases h2 : absent kw s.req with
    | some r => simp
    | none => simp

/-- The kinds of motion that do not work. -/
def Broken (m : Mode) : Prop := m = .constrained_dynamics ∨ m = .planetary ∨ m = .al_kmc

/-- All other kinds of motion are created and the first step ends without an exception. -/
theorem motion_runs_partial (m : Mode) (h : ¬ Broken m) : firstStep m = .ok () := by
  cases m <;> first | rfl | (exfalso; exact h (by simp [Broken]))

example : ¬ Broken .dynamics := by simp [Broken]

/-- A list of motions runs when all its members do. -/
theorem multi_runs_partial : ∀ ms : List Mode, (∀ m ∈ ms, ¬ Broken m) → multiStep ms = .ok ()
  | [], _ => rfl
  | m :: ms, h => by
      have h1 := motion_runs_partial m (h m (List.mem_cons_self ..))
      have h2 := multi_runs_partial ms (fun k hk => h k (List.mem_cons_of_mem _ hk))
      simp [multiStep, h1, h2]

/-- Constrained dynamics: the constructor has no argument `fixatoms_dof`. -/
theorem constrained_fails : create .constrained_dynamics = .error (.unexpected "fixatoms_dof") := rfl

/-- It cannot be created with any other arguments either: whatever its own arguments are, it calls
the constructor of `Motion` with an argument this does not have. -/
theorem constrained_never (kw : List String) :
    ¬ (call (ctor .constrained_dynamics) kw = .ok () ∧
      call (inner .constrained_dynamics).1 (inner .constrained_dynamics).2 = .ok ()) := by
  rintro ⟨_, h⟩
  rw [call_ok] at h
  exact absurd h.1 (by decide)

/-- The planetary model and the kinetic Monte Carlo are created, and the first step ends with an
exception. -/
theorem finished_missing (m : Mode) (h : m = .planetary ∨ m = .al_kmc) :
    (∃ obj, create m = .ok obj) ∧ firstStep m = .error (.noAttribute "finished") := by
  rcases h with h | h <;> subst h <;> exact ⟨⟨_, rfl⟩, rfl⟩

/-- The same inside a list of motions. -/
theorem multi_fails : ∀ ms : List Mode, (∃ m ∈ ms, Broken m) → ∃ e, multiStep ms = .error e
  | [], h => by simp at h
  | m :: ms, h => by
      by_cases hm : Broken m
      · have : ∃ e, firstStep m = .error e := by
          rcases hm with h | h | h <;> subst h <;> exact ⟨_, rfl⟩
        obtain ⟨e, he⟩ := this
        exact ⟨e, by simp [multiStep, he]⟩
      · have h1 := motion_runs_partial m hm
        obtain ⟨k, hk, hb⟩ := h
        rcases List.mem_cons.1 hk with rfl | hk
        · exact absurd hb hm
        · obtain ⟨e, he⟩ := multi_fails ms ⟨k, hk, hb⟩
          exact ⟨e, by simp [multiStep, h1, he]⟩

example : ∃ m ∈ [Mode.dynamics, .planetary], Broken m := ⟨.planetary, by simp, by simp [Broken]⟩

end Verif.MotionInput
