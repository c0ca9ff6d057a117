import Verif.Phys.Mts
import Mathlib.Tactic.FieldSimp
import Mathlib.Tactic.Ring
import Mathlib.Tactic.NormNum
import Mathlib.Algebra.Group.Action.Defs
import Mathlib.Algebra.CharZero.Defs
import Mathlib.Algebra.Order.Field.Rat

/-!
# C39: one step of the multiple-time-step integrator

Small specification.  `respa` is the textbook scheme: at every level, `m` times half a kick, the
inner scheme, half a kick.  `letters` reads a sequence of updates as kicks (an update of the
momenta followed by the constraints) and drifts (the two updates of the positions).
-/

namespace Verif.Mts

open Op

/-- The textbook nested scheme. -/
def respa (idx : ℕ) : List ℕ → List Op
  | [] => []
  | m :: rest =>
      (List.replicate m ([p idx, c]
        ++ (if rest.isEmpty then [qc, f, qc, f] else respa (idx + 1) rest) ++ [p idx, c])).flatten

/-- A kick by the forces of a level, or a drift. -/
inductive Letter where
  | kick (level : ℕ)
  | drift
  deriving DecidableEq, Repr

/-- Reads kicks and drifts. -/
def letters : List Op → Option (List Letter)
  | [] => some []
  | p l :: c :: rest => (letters rest).map (.kick l :: ·)
  | qc :: f :: rest => (letters rest).map (.drift :: ·)
  | _ => none

/-- **C39, the whole sequence.**  For every list of multipliers, one step is the textbook nested
scheme. -/
theorem mtsprop_is_respa (idx : ℕ) (nmts : List ℕ) : mtsprop idx nmts = respa idx nmts := by
  induction nmts generalizing idx with
  | nil => rfl
  | cons m rest ih =>
    have ih' := ih (idx + 1)
    unfold mtsprop at ih' ⊢
    rw [ba, ab, respa, ← ih']
    generalize hX : [p idx, c] ++ (if rest.isEmpty then [qc, f, qc, f]
      else ba (idx + 1) rest ++ ab (idx + 1) rest) ++ [p idx, c] = X
    by_cases hm : m % 2 = 1
    · rw [if_pos hm, if_pos hm]
      have hmid : ([p idx, c] ++ (if rest.isEmpty then [qc, f] else ba (idx + 1) rest))
          ++ ((if rest.isEmpty then [qc, f] else ab (idx + 1) rest) ++ [p idx, c]) = X := by
        rw [← hX]
        by_cases hr : rest.isEmpty = true
        · rw [if_pos hr, if_pos hr, if_pos hr]; rfl
        · rw [if_neg hr, if_neg hr, if_neg hr]; simp
      have e : m = m / 2 + (1 + m / 2) := by omega
      conv_rhs => rw [e, List.replicate_add, List.replicate_add, List.flatten_append,
        List.flatten_append]
      rw [← List.append_assoc, List.append_assoc (List.replicate (m / 2) X).flatten, hmid]
      simp
    · rw [if_neg hm, if_neg hm]
      have e : m = m / 2 + m / 2 := by omega
      conv_rhs => rw [e, List.replicate_add, List.flatten_append]
      simp

theorem letters_append (xs ys : List Op) (a b : List Letter) (hx : letters xs = some a)
    (hy : letters ys = some b) : letters (xs ++ ys) = some (a ++ b) := by
  fun_induction letters xs generalizing a with
  | case1 => cases hx; exact hy
  | case2 l rest ih =>
    obtain ⟨w, hw, rfl⟩ := Option.map_eq_some_iff.1 hx
    have := ih w hw
    simp [letters, this]
  | case3 rest ih =>
    obtain ⟨w, hw, rfl⟩ := Option.map_eq_some_iff.1 hx
    have := ih w hw
    simp [letters, this]
  | case4 => cases hx

theorem letters_replicate (xs : List Op) (a : List Letter) (hx : letters xs = some a) (n : ℕ) :
    letters (List.replicate n xs).flatten = some (List.replicate n a).flatten := by
  induction n with
  | zero => rfl
  | succ n ih =>
    rw [List.replicate_succ, List.flatten_cons, List.replicate_succ, List.flatten_cons]
    exact letters_append _ _ _ _ hx ih

theorem replicate_reverse (a : List Letter) (n : ℕ) :
    (List.replicate n a).flatten.reverse = (List.replicate n a.reverse).flatten := by
  rw [List.reverse_flatten, List.map_replicate, List.reverse_replicate]

/-- **C39, mirror images.**  The two halves used by the BAOAB splitting are mirror images as
sequences of kicks and drifts, at every level. -/
theorem halves_mirror (nmts : List ℕ) : ∀ idx,
    ∃ w, letters (ba idx nmts) = some w ∧ letters (ab idx nmts) = some w.reverse := by
  induction nmts with
  | nil => intro idx; exact ⟨[], rfl, rfl⟩
  | cons m rest ih =>
    intro idx
    obtain ⟨w, h1, h2⟩ := ih (idx + 1)
    -- the inner scheme and its halves
    obtain ⟨u, hu1, hu2, hu3⟩ : ∃ u,
        letters (if rest.isEmpty then [qc, f] else ba (idx + 1) rest) = some u
        ∧ letters (if rest.isEmpty then [qc, f] else ab (idx + 1) rest) = some u.reverse
        ∧ letters (if rest.isEmpty then [qc, f, qc, f] else ba (idx + 1) rest ++ ab (idx + 1) rest)
          = some (u ++ u.reverse) := by
      by_cases hr : rest.isEmpty = true
      · refine ⟨[.drift], ?_, ?_, ?_⟩ <;> simp [hr, letters]
      · refine ⟨w, ?_, ?_, ?_⟩
        · rw [if_neg hr]; exact h1
        · rw [if_neg hr]; exact h2
        · rw [if_neg hr]; exact letters_append _ _ _ _ h1 h2
    have hk : letters [p idx, c] = some [.kick idx] := rfl
    have hX := letters_append _ _ _ _ (letters_append _ _ _ _ hk hu3) hk
    have hR := letters_replicate _ _ hX (m / 2)
    have hXr : ([Letter.kick idx] ++ (u ++ u.reverse) ++ [Letter.kick idx]).reverse
        = [Letter.kick idx] ++ (u ++ u.reverse) ++ [Letter.kick idx] := by simp
    rw [ba, ab]
    by_cases hm : m % 2 = 1
    · rw [if_pos hm, if_pos hm]
      refine ⟨_, letters_append _ _ _ _ hR (letters_append _ _ _ _ hk hu1), ?_⟩
      have := letters_append _ _ _ _ (letters_append _ _ _ _ hu2 hk) hR
      rw [this, List.reverse_append, replicate_reverse, hXr]
      simp
    · rw [if_neg hm, if_neg hm]
      refine ⟨_, letters_append _ _ _ _ hR (rfl : letters [] = some []), ?_⟩
      rw [List.nil_append, hR, List.append_nil, replicate_reverse, hXr]

/-- **C39, palindrome.**  One step is a palindrome of kicks and drifts. -/
theorem step_palindrome (nmts : List ℕ) :
    ∃ w, letters (nveStep nmts) = some w ∧ w.reverse = w := by
  obtain ⟨w, h1, h2⟩ := halves_mirror nmts 0
  exact ⟨w ++ w.reverse, letters_append _ _ _ _ h1 h2, by simp⟩

/-- Executes updates, given what each of them does. -/
def exec {S : Type} (act : Op → S → S) (ops : List Op) (s : S) : S := ops.foldl (fun s o => act o s) s

theorem exec_append {S : Type} (act : Op → S → S) (xs ys : List Op) (s : S) :
    exec act (xs ++ ys) s = exec act ys (exec act xs s) := by
  unfold exec; rw [List.foldl_append]

/-- What a letter does. -/
def letterAct {S : Type} (act : Op → S → S) : Letter → S → S
  | .kick l, st => act c (act (p l) st)
  | .drift, st => act f (act qc st)

theorem exec_letters {S : Type} (act : Op → S → S) (xs : List Op) (w : List Letter)
    (h : letters xs = some w) (s : S) :
    exec act xs s = w.foldl (fun s l => letterAct act l s) s := by
  fun_induction letters xs generalizing w s with
  | case1 => cases h; rfl
  | case2 l rest ih =>
    obtain ⟨w', hw, rfl⟩ := Option.map_eq_some_iff.1 h
    exact ih w' hw _
  | case3 rest ih =>
    obtain ⟨w', hw, rfl⟩ := Option.map_eq_some_iff.1 h
    exact ih w' hw _
  | case4 => cases h

/-- **C39, time reversal.**  If every kick and every drift is undone by reversing the momenta
(`R`), performing it again and reversing the momenta again, then so is a whole step, for every
list of multipliers.  `I` is a set of states kept by all updates, for instance the momenta that
obey the constraints. -/
theorem step_reversible {S : Type} (act : Op → S → S) (R : S → S) (I : S → Prop) (nmts : List ℕ)
    (hIR : ∀ s, I s → I (R s))
    (hI : ∀ x s, I s → I (letterAct act x s))
    (hrev : ∀ x s, I s → letterAct act x (R (letterAct act x s)) = R s)
    (s : S) (hs : I s) :
    exec act (nveStep nmts) (R (exec act (nveStep nmts) s)) = R s := by
  obtain ⟨w, hw, hp⟩ := step_palindrome nmts
  rw [exec_letters act _ w hw, exec_letters act _ w hw]
  have key : ∀ (w : List Letter) (s : S), I s →
      I (w.foldl (fun s l => letterAct act l s) s) ∧
      w.reverse.foldl (fun s l => letterAct act l s)
        (R (w.foldl (fun s l => letterAct act l s) s)) = R s := by
    intro w
    induction w with
    | nil => intro s hs; exact ⟨hs, rfl⟩
    | cons x t ih =>
      intro s hs
      obtain ⟨h1, h2⟩ := ih (letterAct act x s) (hI x s hs)
      refine ⟨h1, ?_⟩
      rw [List.reverse_cons, List.foldl_append]
      have e : (x :: t).foldl (fun s l => letterAct act l s) s
          = t.foldl (fun s l => letterAct act l s) (letterAct act x s) := rfl
      rw [e, h2]
      exact hrev x s hs
  have := (key w s hs).2
  rwa [hp] at this

/-! ## Times -/

/-- What is between the two kicks of a level. -/
def inner (idx : ℕ) (rest : List ℕ) : List Op :=
  if rest.isEmpty then [qc, f, qc, f] else respa (idx + 1) rest

theorem inner_nil (idx : ℕ) : inner idx [] = [qc, f, qc, f] := rfl

theorem inner_cons (idx m : ℕ) (rest : List ℕ) : inner idx (m :: rest) = respa (idx + 1) (m :: rest) := rfl

theorem count_respa (x : Op) (hxc : x ≠ c) (m : ℕ) (rest : List ℕ) (idx : ℕ) :
    (respa idx (m :: rest)).count x
      = m * ((inner idx rest).count x + 2 * ([p idx] : List Op).count x) := by
  have e : respa idx (m :: rest)
      = (List.replicate m ([p idx, c] ++ inner idx rest ++ [p idx, c])).flatten := rfl
  rw [e, List.count_flatten, List.map_replicate, List.sum_replicate, smul_eq_mul]
  congr 1
  rw [List.count_append, List.count_append]
  have h : ([p idx, c] : List Op).count x = ([p idx] : List Op).count x := by
    rw [show ([p idx, c] : List Op) = [p idx] ++ [c] from rfl, List.count_append]
    have : ([c] : List Op).count x = 0 := by
      rw [List.count_eq_zero]; simpa using hxc
    omega
  rw [h]; omega

/-- Number of updates of the positions. -/
theorem count_drift (x : Op) (hx : x = qc ∨ x = f) (nmts : List ℕ) (h : nmts ≠ []) : ∀ idx,
    (respa idx nmts).count x = 2 * nmts.prod := by
  have hc : x ≠ c := by rcases hx with rfl | rfl <;> simp
  have hp : ∀ l, ([p l] : List Op).count x = 0 := by intro l; rcases hx with rfl | rfl <;> rfl
  induction nmts with
  | nil => exact absurd rfl h
  | cons m rest ih =>
    intro idx
    rw [count_respa x hc, hp idx, List.prod_cons]
    cases rest with
    | nil =>
      rw [inner_nil]
      have : ([qc, f, qc, f] : List Op).count x = 2 := by rcases hx with rfl | rfl <;> rfl
      rw [this]; simp; ring
    | cons m' rest' =>
      rw [inner_cons, ih (by simp)]; ring

/-- Levels below the first one of the scheme do not occur. -/
theorem count_low (nmts : List ℕ) : ∀ idx l, l < idx → (respa idx nmts).count (p l) = 0 := by
  induction nmts with
  | nil => intro idx l _; rfl
  | cons m rest ih =>
    intro idx l hl
    rw [count_respa (p l) (by simp)]
    have h1 : ([p idx] : List Op).count (p l) = 0 := by
      rw [List.count_eq_zero]
      intro hm
      have := List.mem_singleton.1 hm
      injection this with h
      omega
    rw [h1]
    cases rest with
    | nil => rfl
    | cons m' rest' => rw [inner_cons, ih (idx + 1) l (by omega)]; simp

/-- Number of kicks of a level. -/
theorem count_kick (nmts : List ℕ) : ∀ idx i, i < nmts.length →
    (respa idx nmts).count (p (idx + i)) = 2 * (nmts.take (i + 1)).prod := by
  induction nmts with
  | nil => intro idx i h; simp at h
  | cons m rest ih =>
    intro idx i h
    rw [count_respa (p (idx + i)) (by simp)]
    cases i with
    | zero =>
      have h1 : ([p idx] : List Op).count (p (idx + 0)) = 1 := by simp
      have h2 : (inner idx rest).count (p (idx + 0)) = 0 := by
        cases rest with
        | nil => rfl
        | cons m' rest' => rw [inner_cons]; exact count_low _ _ _ (by omega)
      rw [h1, h2]; simp; ring
    | succ i =>
      have h1 : ([p idx] : List Op).count (p (idx + (i + 1))) = 0 := by
        rw [List.count_eq_zero]
        intro hm
        have := List.mem_singleton.1 hm
        injection this with h
        omega
      rw [h1]
      cases rest with
      | nil => simp at h
      | cons m' rest' =>
        have := ih (idx + 1) i (by simpa using h)
        rw [show idx + 1 + i = idx + (i + 1) from by omega] at this
        have e : (m :: m' :: rest').take (i + 1 + 1) = m :: (m' :: rest').take (i + 1) := rfl
        rw [inner_cons, this, e, List.prod_cons]; ring

section
variable {K : Type} [Field K] [CharZero K]

omit [CharZero K] in
theorem pdtFrom_getD (nmts : List ℕ) : ∀ (acc : K) (i : ℕ), i < nmts.length →
    (pdtFrom acc nmts).getD i 0 = acc / ((nmts.take (i + 1)).prod : ℕ) := by
  induction nmts with
  | nil => intro acc i h; simp at h
  | cons m rest ih =>
    intro acc i h
    rw [pdtFrom]
    cases i with
    | zero => simp
    | succ i =>
      rw [List.getD_cons_succ, ih _ i (by simpa using h), List.take_succ_cons, List.prod_cons,
        Nat.cast_mul, div_div]

theorem prod_pos (xs : List ℕ) (h : ∀ m ∈ xs, 0 < m) : 0 < xs.prod := by
  induction xs with
  | nil => simp
  | cons a t ih =>
    rw [List.prod_cons]
    exact Nat.mul_pos (h a (by simp)) (ih (fun m hm => h m (by simp [hm])))

/-- **C39, momenta.**  For every list of positive multipliers, the forces of every level act for a
total time of exactly `dt` in one step. -/
theorem kick_time (dt : K) (nmts : List ℕ) (hpos : ∀ m ∈ nmts, 0 < m) (i : ℕ) (hi : i < nmts.length) :
    ((nveStep nmts).count (p i) : K) * (pdt dt nmts).getD i 0 = dt := by
  unfold nveStep pdt
  have h := count_kick nmts 0 i hi
  rw [Nat.zero_add] at h
  rw [mtsprop_is_respa, h, pdtFrom_getD nmts _ i hi]
  have hp : 0 < (nmts.take (i + 1)).prod := prod_pos _ (fun m hm => hpos m (List.mem_of_mem_take hm))
  have : (((nmts.take (i + 1)).prod : ℕ) : K) ≠ 0 := by exact_mod_cast hp.ne'
  push_cast
  field_simp

/-- **C39, positions.**  The centroid and the internal modes are both propagated for exactly
`dt`. -/
theorem drift_time (dt : K) (nmts : List ℕ) (hne : nmts ≠ []) (hpos : ∀ m ∈ nmts, 0 < m) (x : Op)
    (hx : x = qc ∨ x = f) : ((nveStep nmts).count x : K) * qdt dt nmts = dt := by
  unfold nveStep qdt
  rw [mtsprop_is_respa, count_drift x hx nmts hne]
  have : ((nmts.prod : ℕ) : K) ≠ 0 := by exact_mod_cast (prod_pos nmts hpos).ne'
  push_cast
  field_simp

omit [Field K] [CharZero K] in
theorem count_t_respa (x : Op) (hx : x = t ∨ x = s) (nmts : List ℕ) : ∀ idx,
    (respa idx nmts).count x = 0 := by
  have hc : x ≠ c := by rcases hx with rfl | rfl <;> simp
  have hp : ∀ l, ([p l] : List Op).count x = 0 := by intro l; rcases hx with rfl | rfl <;> rfl
  induction nmts with
  | nil => intro idx; rfl
  | cons m rest ih =>
    intro idx
    rw [count_respa x hc, hp idx]
    cases rest with
    | nil => rw [inner_nil]; rcases hx with rfl | rfl <;> rfl
    | cons m' rest' => rw [inner_cons, ih]; simp

/-- Both splittings perform the same updates of momenta and positions. -/
theorem nvt_count (sp : Splitting) (nmts : List ℕ) (x : Op) (hxt : x ≠ t) (hxc : x ≠ c) :
    (nvtStep sp nmts).count x = (nveStep nmts).count x := by
  have hz : ([t, c] : List Op).count x = 0 := by
    rw [List.count_eq_zero]; simp [hxt, hxc]
  cases sp with
  | obabo => simp only [nvtStep, nveStep, List.count_append, hz]; omega
  | baoab => simp only [nvtStep, nveStep, mtsprop, List.count_append, hz]; omega

/-- **C39, thermostat.**  For both splittings the thermostat acts for a total time of exactly
`dt`. -/
theorem thermostat_time (dt : K) (sp : Splitting) (nmts : List ℕ) :
    ((nvtStep sp nmts).count t : K) * tdt dt sp = dt := by
  have h := count_t_respa t (Or.inl rfl) nmts 0
  rw [← mtsprop_is_respa] at h
  have hz : ([t, c] : List Op).count t = 1 := rfl
  cases sp with
  | obabo =>
    simp only [nvtStep, List.count_append, hz, h, tdt]
    push_cast
    field_simp
  | baoab =>
    unfold mtsprop at h
    rw [List.count_append] at h
    have h1 : (ba 0 nmts).count t = 0 := by omega
    have h2 : (ab 0 nmts).count t = 0 := by omega
    simp only [nvtStep, List.count_append, hz, h1, h2, tdt]
    push_cast
    ring

end

/-- A harmonic oscillator with two levels of forces: all hypotheses of `step_reversible` hold. -/
example (s : ℚ × ℚ) :
    let act : Op → ℚ × ℚ → ℚ × ℚ := fun o s =>
      match o with
      | .p 0 => (s.1, s.2 - 3 * s.1)
      | .p _ => (s.1, s.2 - s.1)
      | .qc => (s.1 + 2 * s.2, s.2)
      | _ => s
    let R : ℚ × ℚ → ℚ × ℚ := fun s => (s.1, -s.2)
    exec act (nveStep [2, 3]) (R (exec act (nveStep [2, 3]) s)) = R s := by
  intro act R
  refine step_reversible act R (fun _ => True) [2, 3] (fun _ _ => trivial) (fun _ _ _ => trivial) ?_
    s trivial
  intro x s _
  match x with
  | .kick 0 => simp [letterAct, act, R]
  | .kick (_ + 1) => simp [letterAct, act, R]
  | .drift => simp [letterAct, act, R]

/-- Two levels with an odd and an even multiplier. -/
example : letters (nveStep [3, 2]) = some (List.replicate 3
    [.kick 0, .kick 1, .drift, .drift, .kick 1, .kick 1, .drift, .drift, .kick 1, .kick 0]).flatten := by
  decide +kernel

example : (nvtStep .baoab [1]) = [p 0, c, qc, f, t, c, qc, f, p 0, c] := by decide +kernel

example : (pdt (6 : ℚ) [3, 2]) = [1, 1/2] ∧ qdt (6 : ℚ) [3, 2] = 1/2 := by decide +kernel

end Verif.Mts
