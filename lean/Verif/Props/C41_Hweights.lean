import Verif.Phys.Hweights
import Mathlib.Tactic.Linarith
import Mathlib.Tactic.NormNum
import Mathlib.Tactic.Positivity

/-!
# C41: exchanging Hamiltonian weights takes effect

Specification: with weights `h` and potentials `p` of the components, the bias potential is
`Σ w i (h i - 1) p i`.
-/

namespace Verif.Hw

open Verif.Depend Finset

variable (n nb : ℕ) (w : ℕ → ℝ)

/-- The bias potential of given weights and potentials. -/
def biasOf (h p : ℕ → ℝ) : ℝ := ∑ i ∈ range n, w i * ((h i - 1) * p i)

/-! ## Lookup -/

theorem kind_low {src k : ℕ} (h : k < 2 + n) : kindOf n nb w src k = .leaf := by
  unfold kindOf; rw [if_pos h]

theorem kind_scal {src i : ℕ} (h : i < n) :
    kindOf n nb w src (2 + n + i) = .computed (.read src (fun h => .ret (fun _ => h i - 1))) := by
  unfold kindOf
  rw [if_neg (by omega), if_pos (by omega)]
  have : 2 + n + i - (2 + n) = i := by omega
  rw [this]

open Classical in
theorem kind_sfc {src i : ℕ} (h : i < n) :
    kindOf n nb w src (2 + 2 * n + i) = .computed (.read (2 + n + i) (fun c =>
      if c 0 ≠ 0 then .read (2 + i) (fun v => .ret (fun _ => c 0 * v 0))
      else .ret (fun _ => 0))) := by
  unfold kindOf
  rw [if_neg (by omega), if_neg (by omega), if_pos (by omega)]
  have : 2 + 2 * n + i - (2 + 2 * n) = i := by omega
  rw [this]

theorem kind_bias {src : ℕ} :
    kindOf n nb w src (2 + 3 * n) = .computed (sumProg n w (List.range n) 0) := by
  unfold kindOf
  rw [if_neg (by omega), if_neg (by omega), if_neg (by omega), if_pos rfl]

theorem kind_has {src : ℕ} :
    kindOf n nb w src (2 + 3 * n + 1)
      = .computed (.read src (fun h => .ret (fun _ => hasBias n nb h))) := by
  unfold kindOf
  rw [if_neg (by omega), if_neg (by omega), if_neg (by omega), if_neg (by omega), if_pos rfl]

theorem deps_low {k : ℕ} (h : k < 2 + n) : depsOf n k = [] := by
  unfold depsOf; rw [if_pos h]

theorem deps_scal {i : ℕ} (h : i < n) : depsOf n (2 + n + i) = [1] := by
  unfold depsOf; rw [if_neg (by omega), if_pos (by omega)]

theorem deps_sfc {i : ℕ} (h : i < n) : depsOf n (2 + 2 * n + i) = [2 + i, 2 + n + i] := by
  unfold depsOf
  rw [if_neg (by omega), if_neg (by omega), if_pos (by omega)]
  have : 2 + 2 * n + i - (2 + 2 * n) = i := by omega
  rw [this]

theorem deps_bias : depsOf n (2 + 3 * n) = (List.range n).map (fun i => 2 + 2 * n + i) := by
  unfold depsOf
  rw [if_neg (by omega), if_neg (by omega), if_neg (by omega), if_pos rfl]

theorem deps_has : depsOf n (2 + 3 * n + 1) = [1] := by
  unfold depsOf
  rw [if_neg (by omega), if_neg (by omega), if_neg (by omega), if_neg (by omega), if_pos rfl]

/-- Every object is of one of the five sorts. -/
theorem sorts {k : ℕ} (h : k < 2 + 3 * n + 2) :
    k < 2 + n ∨ (∃ i, i < n ∧ k = 2 + n + i) ∨ (∃ i, i < n ∧ k = 2 + 2 * n + i) ∨ k = 2 + 3 * n
      ∨ k = 2 + 3 * n + 1 := by
  by_cases h1 : k < 2 + n
  · exact .inl h1
  · by_cases h2 : k < 2 + 2 * n
    · exact .inr (.inl ⟨k - (2 + n), by omega, by omega⟩)
    · by_cases h3 : k < 2 + 3 * n
      · exact .inr (.inr (.inl ⟨k - (2 + 2 * n), by omega, by omega⟩))
      · omega

theorem mayRead_sum {is : List ℕ} {acc : ℝ} {j : ℕ} (h : (sumProg n w is acc).MayRead j) :
    ∃ i ∈ is, j = 2 + 2 * n + i := by
  induction is generalizing acc with
  | nil => cases h
  | cons a is ih =>
    cases h with
    | here => exact ⟨a, by simp, rfl⟩
    | there _ _ v _ h =>
      obtain ⟨i, hi, e⟩ := ih h
      exact ⟨i, by simp [hi], e⟩

theorem mustRead_sum {is : List ℕ} {acc : ℝ} {i : ℕ} (h : i ∈ is) :
    (sumProg n w is acc).MustRead (2 + 2 * n + i) := by
  induction is generalizing acc with
  | nil => cases h
  | cons a is ih =>
    rcases List.mem_cons.1 h with rfl | h
    · exact .here _ _
    · exact .there _ _ _ (fun v => ih h)

/-- What each function can read is declared, in the network that reads the depend object. -/
theorem reads_declared {k : ℕ} (hk : k < 2 + 3 * n + 2) {p : Prog Val}
    (hp : kindOf n nb w 1 k = .computed p) {j : ℕ} (hj : p.MayRead j) : j ∈ depsOf n k := by
  rcases sorts n hk with h | ⟨i, hi, rfl⟩ | ⟨i, hi, rfl⟩ | rfl | rfl
  · rw [kind_low n nb w h] at hp; cases hp
  · rw [kind_scal n nb w hi] at hp; cases hp
    rw [deps_scal n hi]
    cases hj with
    | here => simp
    | there _ _ v _ h => cases h
  · rw [kind_sfc n nb w hi] at hp; cases hp
    rw [deps_sfc n hi]
    cases hj with
    | here => simp
    | there _ _ v _ h =>
      beta_reduce at h
      split at h
      · cases h with
        | here => simp
        | there _ _ v _ h => cases h
      · cases h
  · rw [kind_bias] at hp; cases hp
    rw [deps_bias]
    obtain ⟨i, hi, rfl⟩ := mayRead_sum n w hj
    exact List.mem_map.2 ⟨i, hi, rfl⟩
  · rw [kind_has] at hp; cases hp
    rw [deps_has]
    cases hj with
    | here => simp
    | there _ _ v _ h => cases h

theorem deps_lt {k : ℕ} (hk : k < 2 + 3 * n + 2) {d : ℕ} (hd : d ∈ depsOf n k) : d < k := by
  rcases sorts n hk with h | ⟨i, hi, rfl⟩ | ⟨i, hi, rfl⟩ | rfl | rfl
  · rw [deps_low n h] at hd; cases hd
  · rw [deps_scal n hi] at hd; simp at hd; omega
  · rw [deps_sfc n hi] at hd; simp at hd; omega
  · rw [deps_bias] at hd
    obtain ⟨i, hi, rfl⟩ := List.mem_map.1 hd
    have := List.mem_range.1 hi
    omega
  · rw [deps_has] at hd; simp at hd; omega

theorem wf1 : (net n nb w 1).WF where
  deps_lt := fun k hk d hd => deps_lt n hk hd
  base_deps := fun k hk hn => by
    show depsOf n k = []
    rcases sorts n hk with h | ⟨i, hi, rfl⟩ | ⟨i, hi, rfl⟩ | rfl | rfl
    · exact deps_low n h
    · exact absurd (kind_scal n nb w hi) (hn _)
    · exact absurd (kind_sfc n nb w hi) (hn _)
    · exact absurd (kind_bias n nb w) (hn _)
    · exact absurd (kind_has n nb w) (hn _)
  reads_lt := fun k hk p hp j hj => deps_lt n hk (reads_declared n nb w hk hp hj)

theorem cov1 : (net n nb w 1).Covered where
  forced := by
    intro k hk d hd hl
    change d ∈ depsOf n k at hd
    rcases sorts n hk with h | ⟨i, hi, rfl⟩ | ⟨i, hi, rfl⟩ | rfl | rfl
    · rw [deps_low n h] at hd; cases hd
    · rw [deps_scal n hi] at hd
      simp at hd; subst hd
      exact absurd (kind_low n nb w (by omega)) hl
    · rw [deps_sfc n hi] at hd
      simp at hd
      rcases hd with rfl | rfl
      · exact absurd (kind_low n nb w (by omega)) hl
      · exact .direct _ _ _ (kind_sfc n nb w hi) (.here _ _)
    · rw [deps_bias] at hd
      obtain ⟨i, hi, rfl⟩ := List.mem_map.1 hd
      exact .direct _ _ _ (kind_bias n nb w) (mustRead_sum n w hi)
    · rw [deps_has] at hd
      simp at hd; subst hd
      exact absurd (kind_low n nb w (by omega)) hl
  traced := fun k hk p hp r hr b _ hbr =>
    exact_reach (wf1 n nb w) hk (reads_declared n nb w hk hp hr) hbr

/-- The functions that read the weights. -/
def Reader (k : ℕ) : Prop := (∃ i, i < n ∧ k = 2 + n + i) ∨ k = 2 + 3 * n + 1

theorem redirected : Redirected (net n nb w 0) (net n nb w 1) (Reader n) 0 1 where
  size := rfl
  deps := rfl
  same := by
    intro k hk
    show kindOf n nb w 1 k = kindOf n nb w 0 k
    by_cases h : k < 2 + 3 * n + 2
    · rcases sorts n h with h | ⟨i, hi, rfl⟩ | ⟨i, hi, rfl⟩ | rfl | rfl
      · rw [kind_low n nb w h, kind_low n nb w h]
      · exact absurd (.inl ⟨i, hi, rfl⟩) hk
      · rw [kind_sfc n nb w hi, kind_sfc n nb w hi]
      · rw [kind_bias, kind_bias]
      · exact absurd (.inr rfl) hk
    · unfold kindOf
      rw [if_neg (by omega), if_neg (by omega), if_neg (by omega), if_neg (by omega),
        if_neg (by omega), if_neg (by omega), if_neg (by omega), if_neg (by omega),
        if_neg (by omega), if_neg (by omega)]
  diff := by
    rintro k (⟨i, hi, rfl⟩ | rfl)
    · refine ⟨_, kind_scal n nb w hi, kind_scal n nb w hi, ?_, by omega, by omega⟩
      intro j hj
      cases hj with
      | here => omega
      | there _ _ v _ h => cases h
    · refine ⟨_, kind_has n nb w, kind_has n nb w, ?_, by omega, by omega⟩
      intro j hj
      cases hj with
      | here => omega
      | there _ _ v _ h => cases h
  leafA := kind_low n nb w (by omega)
  leafB := kind_low n nb w (by omega)
  depsA := deps_low n (by omega)
  depsB := deps_low n (by omega)
  onlyB := by
    rintro k (⟨i, hi, rfl⟩ | rfl) d hd
    · change d ∈ depsOf n _ at hd
      rw [deps_scal n hi] at hd; simpa using hd
    · change d ∈ depsOf n _ at hd
      rw [deps_has] at hd; simpa using hd

/-! ## Values of the specification -/

theorem eval_sum (f : ℕ → Val) (is : List ℕ) (acc : ℝ) :
    (sumProg n w is acc).eval f
      = fun _ => acc + (is.map fun i => w i * f (2 + 2 * n + i) 0).sum := by
  induction is generalizing acc with
  | nil => simp [sumProg, Prog.eval]
  | cons a is ih =>
    simp only [sumProg, Prog.eval, ih, List.map_cons, List.sum_cons]
    funext _; ring

theorem value_scal (S : Spec Val) {i : ℕ} (hi : i < n) :
    S.value (net n nb w 1) (2 + n + i) = fun _ => S.given 1 i - 1 := by
  rw [Spec.value_computed (wf1 n nb w) S (by show _ < 2 + 3 * n + 2; omega)
    (kind_scal n nb w hi : (net n nb w 1).kind _ = _)]
  simp only [Prog.eval]
  rw [Spec.value_leaf S (kind_low n nb w (by omega) : (net n nb w 1).kind 1 = _)]

theorem value_sfc (S : Spec Val) {i : ℕ} (hi : i < n) :
    S.value (net n nb w 1) (2 + 2 * n + i) = fun _ => (S.given 1 i - 1) * S.given (2 + i) 0 := by
  rw [Spec.value_computed (wf1 n nb w) S (by show _ < 2 + 3 * n + 2; omega)
    (kind_sfc n nb w hi : (net n nb w 1).kind _ = _)]
  simp only [Prog.eval]
  rw [value_scal n nb w S hi]
  by_cases h : S.given 1 i - 1 ≠ 0
  · rw [if_pos h]
    simp only [Prog.eval]
    rw [Spec.value_leaf S (kind_low n nb w (by omega) : (net n nb w 1).kind (2 + i) = _)]
  · rw [if_neg h]
    simp only [ne_eq, not_not] at h
    simp only [Prog.eval, h, zero_mul]

theorem value_bias (S : Spec Val) :
    S.value (net n nb w 1) (2 + 3 * n) = fun _ => biasOf n w (S.given 1) (fun i => S.given (2 + i) 0) := by
  rw [Spec.value_computed (wf1 n nb w) S (by show _ < 2 + 3 * n + 2; omega)
    (kind_bias n nb w : (net n nb w 1).kind _ = _), eval_sum]
  funext _
  rw [zero_add]
  unfold biasOf
  have : (List.range n).map (fun i => w i * S.value (net n nb w 1) (2 + 2 * n + i) 0)
      = (List.range n).map (fun i => w i * ((S.given 1 i - 1) * S.given (2 + i) 0)) := by
    refine List.map_congr_left fun i hi => ?_
    rw [value_sfc n nb w S (List.mem_range.1 hi)]
  rw [this]
  rfl

theorem value_has (S : Spec Val) :
    S.value (net n nb w 1) (2 + 3 * n + 1) = fun _ => hasBias n nb (S.given 1) := by
  rw [Spec.value_computed (wf1 n nb w) S (by show _ < 2 + 3 * n + 2; omega)
    (kind_has n nb w : (net n nb w 1).kind _ = _)]
  simp only [Prog.eval]
  rw [Spec.value_leaf S (kind_low n nb w (by omega) : (net n nb w 1).kind 1 = _)]

/-! ## Histories -/

theorem op_fine (a : Act) : (a.op n).Fine (net n nb w 0) 1 ∧ (a.op n).Accepted (net n nb w 1) := by
  have hle : ∀ k, k < 2 + n → ∀ p, (net n nb w 1).kind k ≠ .computed p := by
    intro k hk p hp
    rw [show (net n nb w 1).kind k = .leaf from kind_low n nb w hk] at hp
    cases hp
  cases a with
  | weights h =>
    exact ⟨⟨kind_low n nb w (by omega), by decide⟩, by show 0 < 2 + 3 * n + 2; omega,
      hle 0 (by omega)⟩
  | move i v =>
    simp only [Act.op]
    by_cases hi : i < n
    · rw [if_pos hi]
      exact ⟨⟨kind_low n nb w (by omega), by omega⟩, by show 2 + i < 2 + 3 * n + 2; omega,
        hle _ (by omega)⟩
    · rw [if_neg hi]
      exact ⟨trivial, by show 0 < 2 + 3 * n + 2; omega⟩
  | readBias => exact ⟨trivial, by show 2 + 3 * n < 2 + 3 * n + 2; omega⟩
  | readHas => exact ⟨trivial, by show 2 + 3 * n + 1 < 2 + 3 * n + 2; omega⟩

/-- What the specification knows after a history. -/
theorem spec_run (acts : List Act) (p0 : ℕ → ℝ) (S : Spec Val)
    (hp : ∀ i, i < n → S.given (2 + i) = fun _ => p0 i) :
    ((S.run (net n nb w 1) (acts.map (Act.op n))).2.given 1 = S.given 1)
    ∧ ∀ i, i < n → (S.run (net n nb w 1) (acts.map (Act.op n))).2.given (2 + i)
        = fun _ => curPot n p0 acts i := by
  induction acts generalizing p0 S with
  | nil => exact ⟨rfl, hp⟩
  | cons a acts ih =>
    simp only [List.map_cons, Spec.run]
    cases a with
    | weights h =>
      have hk : (net n nb w 1).kind 0 = .leaf := kind_low n nb w (by omega)
      simp only [Act.op, Spec.step, hk, curPot]
      have := ih p0 { S with given := upd S.given 0 h } (fun i hi => by
        show upd _ _ _ _ = _
        rw [upd_ne _ _ (by omega)]; exact hp i hi)
      refine ⟨this.1.trans ?_, this.2⟩
      show upd S.given 0 h 1 = _
      rw [upd_ne _ _ (by omega)]
    | move i v =>
      by_cases hi : i < n
      · have hk : (net n nb w 1).kind (2 + i) = .leaf := kind_low n nb w (by omega)
        simp only [Act.op, if_pos hi, Spec.step, hk, curPot]
        have := ih (fun j => if j = i then v else p0 j)
          { S with given := upd S.given (2 + i) (fun _ => v) } (fun j hj => by
            show upd _ _ _ _ = _
            by_cases hji : j = i
            · subst hji; simp
            · rw [upd_ne _ _ (by omega), if_neg hji]; exact hp j hj)
        refine ⟨this.1.trans ?_, this.2⟩
        show upd S.given (2 + i) (fun _ => v) 1 = _
        rw [upd_ne _ _ (by omega)]
      · simp only [Act.op, if_neg hi, Spec.step, curPot]
        exact ih (fun j => if j = i then v else p0 j) S (fun j hj => by
          rw [if_neg (by omega)]; exact hp j hj)
    | readBias =>
      simp only [Act.op, Spec.step, curPot]
      exact ih p0 S hp
    | readHas =>
      simp only [Act.op, Spec.step, curPot]
      exact ih p0 S hp

theorem init_eq (h0 p0 : ℕ → ℝ) :
    initState (net n nb w 1) (initVal n h0 p0) (fun _ => 0)
      = initState (net n nb w 0) (initVal n h0 p0) (fun _ => 0) := by
  unfold initState
  congr 1
  funext k
  by_cases hR : Reader n k
  · rcases hR with ⟨i, hi, rfl⟩ | rfl
    · have h1 : (net n nb w 1).kind (2 + n + i) = _ := kind_scal n nb w hi
      have h0 : (net n nb w 0).kind (2 + n + i) = _ := kind_scal n nb w hi
      rw [h1, h0]
    · have h1 : (net n nb w 1).kind (2 + 3 * n + 1) = _ := kind_has n nb w
      have h0 : (net n nb w 0).kind (2 + 3 * n + 1) = _ := kind_has n nb w
      rw [h1, h0]
  · rw [(redirected n nb w).same k hR]

/-- The specification state at the start. -/
def spec0 (h0 p0 : ℕ → ℝ) : Spec Val := { given := initVal n h0 p0, last := fun _ => 0 }

theorem inv0 (h0 p0 : ℕ → ℝ) :
    Inv (net n nb w 1) (initState (net n nb w 1) (initVal n h0 p0) (fun _ => 0)) (spec0 n h0 p0) := by
  have hnp : ∀ k, k < (net n nb w 1).size → ∀ g c, (net n nb w 1).kind k ≠ .peer g c := by
    intro k hk g c h
    change kindOf n nb w 1 k = _ at h
    rcases sorts n hk with h' | ⟨i, hi, rfl⟩ | ⟨i, hi, rfl⟩ | rfl | rfl
    · rw [kind_low n nb w h'] at h; cases h
    · rw [kind_scal n nb w hi] at h; cases h
    · rw [kind_sfc n nb w hi] at h; cases h
    · rw [kind_bias] at h; cases h
    · rw [kind_has] at h; cases h
  refine ⟨?_, ?_, ?_, ?_⟩
  · intro k hk hl
    simp only [initState, hl]
  · intro k hk g c h
    exact absurd h (hnp k hk g c)
  · intro k hk hc
    cases hkk : (net n nb w 1).kind k with
    | leaf => rw [Spec.value_leaf _ hkk]; rfl
    | computed p => simp only [initState, hkk] at hc; cases hc
    | peer g c => exact absurd hkk (hnp k hk g c)
  · intro k hk p hp hc
    simp only [initState, hp] at hc; cases hc

/-- **C41 is false: new weights never take effect.**  For every number of components, all weights
and potentials and every history of weight assignments, moves and reads after the first reads, the
bias potential that is read is the one of the *first* weights `h0` at the current potentials, and
`has_bias` is the one of the first weights. -/
theorem weights_frozen (h0 p0 : ℕ → ℝ) (acts : List Act) :
    (get (net n nb w 0) (2 + 3 * n) (after n nb w h0 p0 acts)).1
        = (fun _ => biasOf n w h0 (curPot n p0 acts))
    ∧ (get (net n nb w 0) (2 + 3 * n + 1) (after n nb w h0 p0 acts)).1
        = fun _ => hasBias n nb h0 := by
  have R := redirected n nb w
  have W := wf1 n nb w
  have C := cov1 n nb w
  -- the two first reads
  obtain ⟨s0, hs0⟩ : ∃ s, s = initState (net n nb w 0) (initVal n h0 p0) (fun _ => 0) := ⟨_, rfl⟩
  have hI0 : Inv (net n nb w 1) s0 (spec0 n h0 p0) := by
    rw [hs0, ← init_eq]; exact inv0 n nb w h0 p0
  have hA0 : Alike (Reader n) 0 1 s0 := by
    have hk0 : (net n nb w 0).kind 0 = .leaf := kind_low n nb w (by omega)
    have hk1 : (net n nb w 0).kind 1 = .leaf := kind_low n nb w (by omega)
    rw [hs0]
    refine ⟨by simp only [initState, hk0], by simp only [initState, hk1], .inl ?_⟩
    simp [initState, initVal]
  have hb : 2 + 3 * n < (net n nb w 1).size := by show _ < 2 + 3 * n + 2; omega
  have hh : 2 + 3 * n + 1 < (net n nb w 1).size := by show _ < 2 + 3 * n + 2; omega
  have e1 := get_agree R (2 + 3 * n) s0 hA0
  have hA1 := alike_get R (2 + 3 * n) hA0
  have g1 := get_good W C (spec0 n h0 p0) (2 + 3 * n) hb s0 hI0
  rw [e1] at g1
  obtain ⟨s1, hs1⟩ : ∃ s, s = (get (net n nb w 0) (2 + 3 * n) s0).2 := ⟨_, rfl⟩
  rw [← hs1] at g1 hA1
  have e2 := get_agree R (2 + 3 * n + 1) s1 hA1
  have hA2 := alike_get R (2 + 3 * n + 1) hA1
  have g2 := get_good W C (spec0 n h0 p0) (2 + 3 * n + 1) hh s1 g1.2.1
  rw [e2] at g2
  obtain ⟨s2, hs2⟩ : ∃ s, s = (get (net n nb w 0) (2 + 3 * n + 1) s1).2 := ⟨_, rfl⟩
  rw [← hs2] at g2 hA2
  -- everything that reads the weights is clean now
  have hbias : s2.tainted (2 + 3 * n) = false := g2.2.2.1.clean _ g1.2.2.2.1
  have hclean : CleanOn (Reader n) s2 := by
    rintro k (⟨i, hi, rfl⟩ | rfl)
    · have h1 : s2.tainted (2 + 2 * n + i) = false :=
        g2.2.1.closed W C hb hbias (by
          show _ ∈ depsOf n _
          rw [deps_bias]; exact List.mem_map.2 ⟨i, List.mem_range.2 hi, rfl⟩)
      exact g2.2.1.closed W C (i := 2 + 2 * n + i) (by show _ < 2 + 3 * n + 2; omega) h1 (by
        show _ ∈ depsOf n _
        rw [deps_sfc n hi]; simp)
    · exact g2.2.2.2.1
  -- the history
  have hrun : after n nb w h0 p0 acts = (run (net n nb w 0) s2 (acts.map (Act.op n))).2 := by
    unfold after
    simp only [run, step]
    rw [← hs0, ← hs1, ← hs2]
  have hfine : ∀ op ∈ acts.map (Act.op n), op.Fine (net n nb w 0) 1 := by
    intro op hop
    obtain ⟨a, _, rfl⟩ := List.mem_map.1 hop
    exact (op_fine n nb w a).1
  have hacc : ∀ op ∈ acts.map (Act.op n), op.Accepted (net n nb w 1) := by
    intro op hop
    obtain ⟨a, _, rfl⟩ := List.mem_map.1 hop
    exact (op_fine n nb w a).2
  have e3 := run_agree_ops R (acts.map (Act.op n)) s2 hA2.1 hA2.2.1 hclean hfine
  have hI3 := (run_good' W C (acts.map (Act.op n)) g2.2.1 hacc).2
  rw [e3, ← hrun] at hI3
  have hsp := spec_run n nb w acts p0 (spec0 n h0 p0) (fun i hi => by
    show initVal n h0 p0 (2 + i) = _
    unfold initVal
    rw [if_neg (by omega), if_pos (by omega)]
    have : 2 + i - 2 = i := by omega
    rw [this])
  have hA3 : Alike (Reader n) 0 1 (after n nb w h0 p0 acts) := by
    have key : ∀ (ops : List (Op Val)) (s : State Val), (∀ op ∈ ops, op.Fine (net n nb w 0) 1) →
        s.tainted 0 = false → s.tainted 1 = false → CleanOn (Reader n) s →
        Alike (Reader n) 0 1 (run (net n nb w 0) s ops).2 := by
      intro ops
      induction ops with
      | nil => intro s _ h1 h2 h3; exact ⟨h1, h2, .inr h3⟩
      | cons op ops ih =>
        intro s hf h1 h2 h3
        obtain ⟨_, q2, q3, q4⟩ := step_alike R (hf op (by simp)) h1 h2 h3
        exact ih _ (fun o ho => hf o (by simp [ho])) q2 q3 q4
    rw [hrun]
    exact key _ _ hfine hA2.1 hA2.2.1 hclean
  have hg1 : (initVal n h0 p0) 1 = h0 := rfl
  constructor
  · rw [← get_agree R _ _ hA3, (get_good W C _ _ hb _ hI3).1, value_bias, hsp.1]
    funext _
    show biasOf n w h0 _ = _
    unfold biasOf
    refine sum_congr rfl fun i hi => ?_
    beta_reduce
    rw [hsp.2 i (mem_range.1 hi)]
  · rw [← get_agree R _ _ hA3, (get_good W C _ _ hh _ hI3).1, value_has, hsp.1]
    rfl

/-- **C41** (partial): as long as no new weights are assigned, reads give the bias of the current
weights and potentials. -/
theorem weights_used_partial (h0 p0 : ℕ → ℝ) (acts : List Act)
    (hno : ∀ a ∈ acts, ∀ h, a ≠ Act.weights h) :
    (get (net n nb w 0) (2 + 3 * n) (after n nb w h0 p0 acts)).1
      = fun _ => biasOf n w (curW h0 acts) (curPot n p0 acts) := by
  have : curW h0 acts = h0 := by
    induction acts with
    | nil => rfl
    | cons a acts ih =>
      have := ih (fun b hb => hno b (by simp [hb]))
      cases a with
      | weights h => exact absurd rfl (hno (.weights h) (by simp) h)
      | move i v => exact this
      | readBias => exact this
      | readHas => exact this
  rw [(weights_frozen n nb w h0 p0 acts).1, this]

/-- **C41, negation**: one component, weights one, then two: the bias potential stays zero instead
of becoming the potential of the component. -/
theorem weights_not_used :
    ¬ ∀ (n nb : ℕ) (w h0 p0 : ℕ → ℝ) (acts : List Act),
      (get (net n nb w 0) (2 + 3 * n) (after n nb w h0 p0 acts)).1
        = fun _ => biasOf n w (curW h0 acts) (curPot n p0 acts) := by
  intro h
  have h1 := h 1 0 (fun _ => 1) (fun _ => 1) (fun _ => 5) [.weights (fun _ => 2)]
  rw [(weights_frozen 1 0 _ _ _ _).1] at h1
  have := congrFun h1 0
  simp [biasOf, curW, curPot] at this
  norm_num at this

/-! ## Effect on the dynamics -/

/-- Change of the momentum of a coordinate by the scaled forces in the outermost kick
(`dynamics.py` L432-440): the total bias force, if `has_bias`.  `f i` is the force of component `i`
on the coordinate. -/
noncomputable def kick (h f : ℕ → ℝ) (pdt : ℝ) : ℝ :=
  if hasBias n nb h = 1 then biasOf n w h f * pdt else 0

/-- **C41, dynamics: the scaled forces never act.**  Whatever the weights, either `has_bias` is
false and nothing is added, or all weights are one up to `1e-10 √n` and the force added is bounded
accordingly. -/
theorem scaled_forces_never_act (h f : ℕ → ℝ) (pdt : ℝ) :
    kick n nb w h f pdt = 0 ∨ ∀ i, i < n → (h i - 1) ^ 2 < n * 1e-20 := by
  unfold kick
  by_cases hb : 0 < nb ∧ (∑ i ∈ range n, (h i - 1) ^ 2 : ℝ) / (n : ℝ) < (1e-20 : ℝ)
  · right
    intro i hi
    have hn : (0 : ℝ) < n := by exact_mod_cast Nat.lt_of_le_of_lt (Nat.zero_le i) hi
    have h1 := (div_lt_iff₀ hn).1 hb.2
    have h2 : (h i - 1) ^ 2 ≤ ∑ j ∈ range n, (h j - 1) ^ 2 :=
      single_le_sum (f := fun j => (h j - 1) ^ 2) (fun j _ => sq_nonneg _) (mem_range.2 hi)
    linarith
  · left
    have h0 : hasBias n nb h = 0 := by unfold hasBias; rw [if_neg hb]
    rw [h0, if_neg (by norm_num)]

/-- With weights exactly one nothing is added either. -/
theorem unit_weights_no_kick (f : ℕ → ℝ) (pdt : ℝ) : kick n nb w (fun _ => 1) f pdt = 0 := by
  unfold kick biasOf
  simp

/-- **C41, dynamics, negation**: weights `2`: the conserved quantity contains the bias potential
`1 * 5`, the dynamics does not feel its force. -/
theorem scaled_force_missing :
    biasOf 1 (fun _ => 1) (fun _ => 2) (fun _ => 5) = 5
    ∧ ∀ nb pdt, kick 1 nb (fun _ => 1) (fun _ => 2) (fun _ => 5) pdt = 0 := by
  constructor
  · simp [biasOf]; norm_num
  · intro nb pdt
    rcases scaled_forces_never_act 1 nb (fun _ => 1) (fun _ => 2) (fun _ => 5) pdt with h | h
    · exact h
    · have := h 0 (by norm_num)
      norm_num at this

/-- An explicit bias is switched off as soon as a weight differs from one. -/
theorem explicit_bias_off (h : ℕ → ℝ) (i : ℕ) (hi : i < n) (hd : (n : ℝ) * 1e-20 ≤ (h i - 1) ^ 2) :
    hasBias n nb h = 0 := by
  unfold hasBias
  rw [if_neg]
  rintro ⟨_, h1⟩
  have hn : (0 : ℝ) < n := by exact_mod_cast Nat.lt_of_le_of_lt (Nat.zero_le i) hi
  have h1 := (div_lt_iff₀ hn).1 h1
  have h2 : (h i - 1) ^ 2 ≤ ∑ j ∈ range n, (h j - 1) ^ 2 :=
    single_le_sum (f := fun j => (h j - 1) ^ 2) (fun j _ => sq_nonneg _) (mem_range.2 hi)
  linarith

end Verif.Hw
