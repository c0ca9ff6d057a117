import Mathlib.Data.List.Basic
import Mathlib.Tactic.Linarith
import Mathlib.Tactic.NormNum
import Mathlib.Tactic.FieldSimp
import Verif.Run.Multi

/-!
# C138: a list of motions does the steps of its members, each as on its own
-/

namespace Verif.Multi

variable {S : Type}

theorem totdt_foldl (l : List (Member S)) : ∀ a : ℝ,
    l.foldl (fun dt m => dt + m.dt) a = a + (l.map Member.dt).sum := by
  induction l with
  | nil => intro a; simp
  | cons m l ih => intro a; rw [List.foldl_cons, ih]; simp; ring

/-- The time of a step is the sum of the times of the members. -/
theorem totdt_eq (l : List (Member S)) : totdt l = (l.map Member.dt).sum := by
  unfold totdt; rw [totdt_foldl, zero_add]

theorem fix_foldl (l : List (Member S)) (i : ℕ) : ∀ acc : List ℕ,
    i ∈ l.foldl (fun acc x => acc.filter fun i => i ∈ x.fixed) acc ↔ i ∈ acc ∧ ∀ m ∈ l, i ∈ m.fixed := by
  induction l with
  | nil => intro acc; simp
  | cons m l ih =>
    intro acc
    rw [List.foldl_cons, ih]
    simp only [List.mem_filter, decide_eq_true_eq, List.forall_mem_cons, and_assoc]

/-- A degree of freedom counts as fixed if every member fixes it. -/
theorem fixatoms_mem (m : Member S) (l : List (Member S)) :
    ∃ fs, fixatoms (m :: l) = .ok fs ∧ ∀ i, i ∈ fs ↔ ∀ x ∈ m :: l, i ∈ x.fixed := by
  refine ⟨_, rfl, fun i => ?_⟩
  rw [fix_foldl]
  simp

/-- The centre of mass counts as fixed if every member fixes it. -/
theorem fixcom_iff (l : List (Member S)) : fixcom l = true ↔ ∀ m ∈ l, m.fixcom = true := by
  have : ∀ b, l.foldl (fun b m => b && m.fixcom) b = true ↔ b = true ∧ ∀ m ∈ l, m.fixcom = true := by
    induction l with
    | nil => intro b; simp
    | cons m l ih => intro b; rw [List.foldl_cons, ih]; simp [and_assoc]
  unfold fixcom; rw [this]; simp

/-- Full statement: atoms that no member of the list can move count as fixed.  A member that moves
nothing at all but does not list the atom as fixed, such as the exchange of atoms of other
species, is enough for the atom to count as free. -/
theorem not_fixed_by_any : ¬ ∀ (l : List (Member (ℕ → ℝ))) (i : ℕ),
    l ≠ [] → (∀ m ∈ l, ∀ t s, m.step t s i = s i) →
    ∃ fs, fixatoms l = .ok fs ∧ (i ∈ fs ∨ ∀ m ∈ l, i ∉ m.fixed) := by
  intro h
  let a : Member (ℕ → ℝ) := ⟨1, some 1, [0], true, fun _ s => s, fun _ => none⟩
  let b : Member (ℕ → ℝ) := ⟨0, none, [], true, fun _ s => s, fun _ => none⟩
  obtain ⟨fs, hf, hi⟩ := h [a, b] 0 (by simp) (by
    intro m hm t s
    simp only [List.mem_cons, List.not_mem_nil, or_false] at hm
    rcases hm with rfl | rfl <;> rfl)
  obtain ⟨fs', hf', hi'⟩ := fixatoms_mem a [b]
  rw [hf] at hf'
  have := Except.ok.inj hf'
  subst this
  rcases hi with hi | hi
  · have := (hi' 0).1 hi b (by simp)
    simp [b] at this
  · exact hi a (by simp) (by simp [a])

/-! ## Steps -/

/-- The steps of some members in turn. -/
def inTurn (t : ℝ) (l : List (Member S)) (s : S) : S := l.foldl (fun s m => m.step t s) s

/-- **C138, the order.**  The members make their steps in the order of the list, up to and including
the first that reports to be finished; that one decides how the list ends, and if none does, all
make their steps and the list goes on. -/
theorem step_spec (t : ℝ) (l : List (Member S)) (s : S) :
    (∃ l1 m l2 status msg, l = l1 ++ m :: l2 ∧ stepWith t l s = (inTurn t (l1 ++ [m]) s, some (status, msg)) ∧
      (∃ st, m.finished (inTurn t (l1 ++ [m]) s) = some (st, msg) ∧
        (status = "success" ∨ st = some status)) ∧
      ∀ k < l1.length, ∀ x, l1[k]? = some x → x.finished (inTurn t (l1.take (k + 1)) s) = none) ∨
    (stepWith t l s = (inTurn t l s, none) ∧
      ∀ k < l.length, ∀ x, l[k]? = some x → x.finished (inTurn t (l.take (k + 1)) s) = none) := by
  induction l generalizing s with
  | nil => right; exact ⟨rfl, by simp⟩
  | cons m l ih =>
    cases hm : m.finished (m.step t s) with
    | some e =>
      left
      obtain ⟨st, msg⟩ := e
      refine ⟨[], m, l, exitStatus st, msg, rfl, ?_, ⟨st, hm, ?_⟩, by simp⟩
      · rw [stepWith, hm]; rfl
      · cases st with
        | none => left; rfl
        | some x =>
          by_cases hx : x = ""
          · left; simp [exitStatus, hx]
          · right; simp [exitStatus, hx]
    | none =>
      have hs : stepWith t (m :: l) s = stepWith t l (m.step t s) := by rw [stepWith, hm]
      rcases ih (m.step t s) with ⟨l1, m', l2, status, msg, hl, h1, h2, h3⟩ | ⟨h1, h3⟩
      · left
        refine ⟨m :: l1, m', l2, status, msg, by rw [hl]; rfl, ?_, h2, ?_⟩
        · rw [hs, h1]; rfl
        · intro k hk x hx
          cases k with
          | zero =>
            have : m = x := by simpa using hx
            subst this; exact hm
          | succ k => exact h3 k (by simpa using hk) x (by simpa using hx)
      · right
        refine ⟨by rw [hs, h1]; rfl, ?_⟩
        intro k hk x hx
        cases k with
        | zero =>
          have : m = x := by simpa using hx
          subst this; exact hm
        | succ k => exact h3 k (by simpa using hk) x (by simpa using hx)

/-! ## The time step of the normal modes -/

/-- The last `Dynamics` of the list gives the time step of the normal modes. -/
theorem nmdt_last (l1 : List (Member S)) (m : Member S) (l2 : List (Member S)) (t : ℝ)
    (hm : m.qdt = some t) (h2 : ∀ x ∈ l2, x.qdt = none) : nmdt (l1 ++ m :: l2) = t := by
  unfold nmdt
  rw [List.foldl_append, List.foldl_cons, hm]
  have : ∀ a : ℝ, l2.foldl (fun t m => m.qdt.getD t) a = a := by
    induction l2 with
    | nil => intro a; rfl
    | cons x l2 ih =>
      intro a
      rw [List.foldl_cons, h2 x (by simp)]
      exact ih (fun y hy => h2 y (by simp [hy])) _
  rw [this]; rfl

theorem nmdt_all (l : List (Member S)) (t : ℝ) (h : ∀ m ∈ l, ∀ q, m.qdt = some q → q = t)
    (hex : ∃ m ∈ l, ∃ q, m.qdt = some q) : nmdt l = t := by
  have key : ∀ (l : List (Member S)), (∀ m ∈ l, ∀ q, m.qdt = some q → q = t) → ∀ a : ℝ,
      (a = t ∨ ∃ m ∈ l, ∃ q, m.qdt = some q) → l.foldl (fun t m => m.qdt.getD t) a = t := by
    intro l
    induction l with
    | nil => intro _ a ha; simpa using ha
    | cons x l ih =>
      intro h a ha
      rw [List.foldl_cons]
      refine ih (fun m hm => h m (by simp [hm])) _ ?_
      cases hx : x.qdt with
      | some q => left; exact h x (by simp) q hx
      | none =>
        rcases ha with ha | ⟨m, hm, q, hq⟩
        · left; exact ha
        · right
          simp only [List.mem_cons] at hm
          rcases hm with rfl | hm
          · rw [hx] at hq; cases hq
          · exact ⟨m, hm, q, hq⟩
  exact key l h _ (Or.inr hex)

/-- The step of a member on its own. -/
noncomputable def alone (m : Member S) (s : S) : S := m.step (nmdt [m]) s

/-- Motions other than `Dynamics` do not use the time step of the normal modes. -/
def Plain (m : Member S) : Prop := m.qdt = none → ∀ t t' s, m.step t s = m.step t' s

/-- **C138, as on their own.**  If all the `Dynamics` of the list have the same time step of the
positions, every member makes the step it makes on its own. -/
theorem as_alone_partial (l : List (Member S)) (hp : ∀ m ∈ l, Plain m) (t : ℝ)
    (h : ∀ m ∈ l, ∀ q, m.qdt = some q → q = t) (s : S) :
    inTurn (nmdt l) l s = l.foldl (fun s m => alone m s) s := by
  unfold inTurn
  have : ∀ m ∈ l, ∀ s, m.step (nmdt l) s = alone m s := by
    intro m hm s
    unfold alone
    cases hq : m.qdt with
    | none => exact hp m hm hq _ _ _
    | some q =>
      have e1 := nmdt_all l t h ⟨m, hm, q, hq⟩
      have e2 := nmdt_last [] m [] q hq (by simp)
      rw [List.nil_append] at e2
      rw [e1, e2, h m hm q hq]
  clear h
  generalize nmdt l = tt at this
  induction l generalizing s with
  | nil => rfl
  | cons m l ih =>
    rw [List.foldl_cons, List.foldl_cons, this m (by simp)]
    exact ih (fun x hx => hp x (by simp [hx])) _ (fun x hx => this x (by simp [hx]))

/-- Full statement: every member makes the step it makes on its own.  It fails for two `Dynamics`
with different time steps: the first one propagates the internal modes of the ring polymers over
the time step of the second one. -/
theorem not_as_alone : ¬ ∀ (l : List (Member (ℝ × ℝ))), (∀ m ∈ l, Plain m) → ∀ s,
    inTurn (nmdt l) l s = l.foldl (fun s m => alone m s) s := by
  intro h
  have hd : ∀ dt, Plain (freeDyn 1 dt 2) := fun dt hq => by simp [freeDyn] at hq
  have h1 := congrArg Prod.fst (h [freeDyn 1 Real.pi 2, freeDyn 1 (2 * Real.pi) 2]
    (by intro m hm; simp only [List.mem_cons, List.not_mem_nil, or_false] at hm
        rcases hm with rfl | rfl <;> exact hd _) (1, 0))
  have e1 : nmdt [freeDyn 1 Real.pi 2, freeDyn 1 (2 * Real.pi) 2] = 2 * Real.pi / (2 : ℕ) :=
    nmdt_last [_] _ [] _ rfl (by simp)
  have e2 : ∀ dt, nmdt [freeDyn 1 dt 2] = dt / (2 : ℕ) := fun dt => nmdt_last [] _ [] _ rfl (by simp)
  rw [e1] at h1
  simp only [inTurn, List.foldl_cons, List.foldl_nil, alone, e2] at h1
  simp only [freeDyn] at h1
  have p1 : (1 : ℝ) * ((2 : ℕ) * (2 * Real.pi / (2 : ℕ))) = 2 * Real.pi := by push_cast; field_simp
  have p2 : (1 : ℝ) * ((2 : ℕ) * (Real.pi / (2 : ℕ))) = Real.pi := by push_cast; field_simp
  rw [p1, p2] at h1
  simp at h1
  norm_num at h1

/-- A free ring polymer mode of a single `Dynamics` moves for the whole time step. -/
theorem freeDyn_alone (ω dt : ℝ) (n : ℕ) (hn : 0 < n) (s : ℝ × ℝ) :
    alone (freeDyn ω dt n) s = (Real.cos (ω * dt) * s.1 + Real.sin (ω * dt) / ω * s.2,
      -(ω * Real.sin (ω * dt) * s.1) + Real.cos (ω * dt) * s.2) := by
  have e : nmdt [freeDyn ω dt n] = dt / n := nmdt_last [] _ [] _ rfl (by simp)
  have hn' : (n : ℝ) ≠ 0 := by exact_mod_cast hn.ne'
  have p : (n : ℝ) * (dt / n) = dt := by field_simp
  unfold alone
  rw [e]
  simp only [freeDyn, p]

example := as_alone_partial [freeDyn 1 2 2, freeDyn 1 2 2] (by
    intro m hm hq
    simp only [List.mem_cons, List.not_mem_nil, or_false, or_self] at hm
    rw [hm] at hq; cases hq) 1 (by
    intro m hm q hq
    simp only [List.mem_cons, List.not_mem_nil, or_false, or_self] at hm
    rw [hm] at hq
    simp [freeDyn] at hq
    exact hq.symm) (1, 0)

end Verif.Multi
