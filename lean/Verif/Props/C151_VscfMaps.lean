import Verif.Props.C150_ImfEnergy

/-!
# C151: the maps of single modes and of pairs of modes

Which potential is where in the tables, which mode a table belongs to, and the files of the couplings.
-/

namespace Verif.Vscf

open Finset Matrix

/-! ## Single modes -/

/-- One direction: the samples run from the nearest point to two points beyond the last. -/
theorem half1d_eq {P : ℤ → ℝ} {v0 emax : ℝ} {sgn : ℤ} : ∀ {fuel c n : ℕ} {acc l : List ℝ},
    half1d P v0 emax sgn fuel c acc = some (n, l) →
    c ≤ n ∧ l = acc ++ (List.range (n + 3 - c)).map (fun i : ℕ => P (sgn * ((c + i : ℕ) : ℤ))) ∧
      emax < |P (sgn * n) - v0| ∧ ∀ i, c ≤ i → i < n → |P (sgn * i) - v0| ≤ emax
  | 0, _, _, _, _, h => by simp [half1d] at h
  | fuel + 1, c, n, acc, l, h => by
    rw [half1d] at h
    split at h
    · next hc =>
      simp only [Option.some.injEq, Prod.mk.injEq] at h
      obtain ⟨rfl, rfl⟩ := h
      refine ⟨le_refl _, ?_, hc, fun i h1 h2 => absurd h2 (by omega)⟩
      congr 1
      rw [show c + 3 - c = 3 by omega]
      simp only [List.range_succ, List.range_zero, List.nil_append, List.cons_append,
        List.map_cons, List.map_nil, Nat.cast_add, Nat.cast_zero, Nat.cast_one, Nat.cast_ofNat,
        mul_add, mul_one, mul_zero, add_zero]
      congr 3
      rw [mul_two, add_assoc]
    · next hc =>
      obtain ⟨h1, h2, h3, h4⟩ := half1d_eq h
      refine ⟨by omega, ?_, h3, ?_⟩
      · rw [h2, List.append_assoc]
        congr 1
        rw [show n + 3 - c = (n + 3 - (c + 1)) + 1 by omega, List.range_succ_eq_map]
        simp only [List.map_cons, List.map_map, add_zero, List.singleton_append]
        congr 1
        apply List.map_congr_left
        intro i _
        simp only [Function.comp, Nat.succ_eq_add_one]
        rw [show c + 1 + i = c + (i + 1) by omega]
      · intro i hi1 hi2
        rcases Nat.eq_or_lt_of_le hi1 with rfl | hlt
        · exact not_lt.mp hc
        · exact h4 i hlt hi2

/-- **C151.** The map of a mode: one sample for every displacement of the list, each the potential at
that displacement. -/
theorem map1d_aligned {P : ℤ → ℝ} {emax : ℝ} {fuel neg pos : ℕ} {l : List ℝ}
    (h : map1d P (P 0) emax fuel = some (neg, pos, l)) : l = (disp neg pos).map P := by
  rw [map1d] at h
  split at h
  · simp at h
  next n0 l0 h0 =>
  split at h
  · simp at h
  next p0 l1 h1 =>
  simp only [Option.some.injEq, Prod.mk.injEq] at h
  obtain ⟨rfl, rfl, rfl⟩ := h
  obtain ⟨a1, a2, -, -⟩ := half1d_eq h0
  obtain ⟨b1, b2, -, -⟩ := half1d_eq h1
  rw [b2, a2]
  apply List.ext_getElem
  · simp [disp]
    omega
  · intro i hi1 hi2
    simp only [List.length_map, disp, List.length_range] at hi2
    simp only [disp, List.getElem_map, List.getElem_range]
    by_cases hi : i < n0 + 3
    · rw [List.getElem_append_left (by simp; omega), List.getElem_reverse]
      simp only [List.length_append, List.length_cons, List.length_nil, List.length_map,
        List.length_range]
      by_cases h2 : i = n0 + 2
      · subst h2
        rw [List.getElem_append_left (by simp)]
        simp only [List.getElem_singleton]
        congr 1
        omega
      · rw [List.getElem_append_right (by simp; omega)]
        simp only [List.length_singleton, List.getElem_map, List.getElem_range]
        congr 1
        push_cast
        omega
    · rw [List.getElem_append_right (by simp; omega)]
      simp only [List.length_reverse, List.length_append, List.length_cons, List.length_nil,
        List.length_map, List.length_range, List.getElem_map, List.getElem_range]
      congr 1
      push_cast
      omega

/-- **C151.** The ends are where the potential first exceeds the limit; between them it does not. -/
theorem map1d_range {P : ℤ → ℝ} {emax : ℝ} {fuel neg pos : ℕ} {l : List ℝ}
    (h : map1d P (P 0) emax fuel = some (neg, pos, l)) :
    emax < |P (-neg) - P 0| ∧ emax < |P pos - P 0| ∧
      (∀ c : ℤ, -neg < c → c < 0 → |P c - P 0| ≤ emax) ∧
      ∀ c : ℤ, 0 < c → c < pos → |P c - P 0| ≤ emax := by
  rw [map1d] at h
  split at h
  · simp at h
  next n0 l0 h0 =>
  split at h
  · simp at h
  next p0 l1 h1 =>
  simp only [Option.some.injEq, Prod.mk.injEq] at h
  obtain ⟨rfl, rfl, rfl⟩ := h
  obtain ⟨-, -, a3, a4⟩ := half1d_eq h0
  obtain ⟨-, -, b3, b4⟩ := half1d_eq h1
  refine ⟨by simpa using a3, by simpa using b3, ?_, ?_⟩
  · intro c hc1 hc2
    have := a4 c.natAbs (by omega) (by omega)
    rwa [show -1 * ((c.natAbs : ℕ) : ℤ) = c by omega] at this
  · intro c hc1 hc2
    have := b4 c.natAbs (by omega) (by omega)
    rwa [show 1 * ((c.natAbs : ℕ) : ℤ) = c by omega] at this

/-! ## Which mode -/

/-- Without imaginary modes the modes considered are the last ones. -/
theorem inms_last {d : ℕ} {w2 : ℕ → ℝ} (h : Stable d w2) :
    inms d (nzero d w2) w2 = (List.range d).filter fun i => nIgnored d w2 ≤ i := by
  apply List.filter_congr
  intro i hi
  rw [List.mem_range] at hi
  rw [Bool.eq_iff_iff]
  simp only [Bool.not_eq_true', decide_eq_true_eq]
  rw [← not_lt, nIgnored_first h hi, ← tiny_iff h hi, Bool.not_eq_true]

theorem filter_range_le (d k : ℕ) (hk : k ≤ d) :
    (List.range d).filter (fun i => k ≤ i) = List.range' k (d - k) := by
  induction d with
  | zero => simp
  | succ d ih =>
    rw [List.range_succ, List.filter_append]
    by_cases h : k ≤ d
    · rw [ih h, show d + 1 - k = (d - k) + 1 by omega, List.range'_concat]
      simp only [List.filter_cons, h, decide_true, if_true, List.filter_nil]
      congr 2
      omega
    · have : k = d + 1 := by omega
      subst this
      simp only [Nat.sub_self, List.range'_zero, List.append_eq_nil_iff, List.filter_eq_nil_iff,
        List.mem_range, decide_eq_true_eq, List.mem_singleton]
      exact ⟨fun a ha => by omega, fun a ha => by omega⟩

/-- **C151.** The `k`-th mode considered is number `d - n + k` of all, with `n` the number of modes
considered, so that the filling of the list of displacements is right. -/
theorem inms_at {d : ℕ} {w2 : ℕ → ℝ} (h : Stable d w2) (k : ℕ)
    (hk : k < (inms d (nzero d w2) w2).length) :
    (inms d (nzero d w2) w2)[k] = d - (inms d (nzero d w2) w2).length + k := by
  have hig : nIgnored d w2 ≤ d := by
    unfold nIgnored
    exact (card_le_card (filter_subset _ _)).trans (card_range d).le
  have e := (inms_last h).trans (filter_range_le d _ hig)
  have hl := congrArg List.length e
  rw [List.length_range'] at hl
  simp only [e, List.getElem_range', List.length_range']
  omega

/-- **C151.** The displacements used for a mode are those of its own map, if there are no imaginary
modes: `ms k` is the map of the `k`-th mode considered. -/
theorem disp_own (d : ℕ) (ms : List Map1) (k : ℕ) (hk : k < ms.length) :
    dispOf d ms (d - ms.length + k) = .ok (disp ms[k].neg ms[k].pos) := by
  unfold dispOf dispList
  rw [List.getElem?_append_right (by simp)]
  simp [hk]

/-- **C151.** The samples used for a mode are those of its own map if all the modes passed over count
as zero modes. -/
theorem indep_own (ms : List Map1) (nz k : ℕ) (hk : k < ms.length) :
    indepOf nz ms (nz + k) = .ok ms[k].v := by
  unfold indepOf
  simp [hk]

/-- **C151.** Then the whole table of a pair holds the potential at the two displacements. -/
theorem pair_right {mi mj : Map1} {P2 : ℤ → ℤ → ℝ}
    (hi : mi.v = (disp mi.neg mi.pos).map fun c => P2 c 0)
    (hj : mj.v = (disp mj.neg mj.pos).map fun c => P2 0 c) {i j : ℕ}
    (hi' : i < mi.neg + mi.pos + 5) (hj' : j < mj.neg + mj.pos + 5) :
    pairEntry mi mj mi.v mj.v P2 i j = .ok (P2 (-(mi.neg : ℤ) + i - 2) (-(mj.neg : ℤ) + j - 2)) := by
  unfold pairEntry
  split
  · next h =>
    have hlt : j < mj.v.length := by rw [hj]; simp [disp]; omega
    rw [List.getElem?_eq_getElem hlt, h]
    simp [hj, disp]
  · split
    · next h =>
      have hlt : i < mi.v.length := by rw [hi]; simp [disp]; omega
      rw [List.getElem?_eq_getElem hlt, h]
      simp [hi, disp]
    · rfl

/-- **C151, negated.** If `e` modes are passed over that do not count as zero modes — frequencies that
are small but not zero, as without the acoustic sum rule — the samples used for a mode are those of the
`e`-th mode after it. -/
theorem indep_shifted (ms : List Map1) (nz e k : ℕ) (hk : k + e < ms.length) :
    indepOf nz ms (nz + e + k) = .ok ms[k + e].v := by
  unfold indepOf
  have : nz + e + k - nz = k + e := by omega
  simp [this, hk]

/-- **C151, negated.** For the last of them there are none: the step of the pair fails. -/
theorem indep_fails (ms : List Map1) (nz e k : ℕ) (hk : ms.length ≤ k + e) :
    indepOf nz ms (nz + e + k) = .error .indexError := by
  unfold indepOf
  have : nz + e + k - nz = k + e := by omega
  rw [this, List.getElem?_eq_none hk]

/-- **C151, negated.** Such frequencies exist: three modes of which the first is passed over and does
not count as a zero mode. -/
theorem small_mode : ∃ w2 : ℕ → ℝ, Stable 3 w2 ∧ nzero 3 w2 = 0 ∧
    inms 3 (nzero 3 w2) w2 = [1, 2] := by
  have hst : Stable 3 (fun i => if i = 0 then 1 / 10 ^ 12 else 1) := by
    constructor
    · intro i _
      split <;> norm_num
    · intro i j hij _
      by_cases h0 : i = 0
      · subst h0
        by_cases h1 : j = 0
        · simp [h1]
        · simp only [h1, if_true, if_false]; norm_num
      · have : j ≠ 0 := by omega
        simp [h0, this]
  have hz : nzero 3 (fun i => if i = 0 then (1 / 10 ^ 12 : ℝ) else 1) = 0 := by
    unfold nzero
    rw [card_eq_zero, filter_eq_empty_iff]
    intro i _
    unfold wZero
    dsimp only
    split <;> norm_num
  have hm : (0 : ℝ) < wMin := by unfold wMin; norm_num
  refine ⟨_, hst, hz, ?_⟩
  have hn : nIgnored 3 (fun i => if i = 0 then (1 / 10 ^ 12 : ℝ) else 1) = 1 := by
    unfold nIgnored
    have : ((range 3).filter fun i =>
        Real.sqrt (if i = 0 then (1 / 10 ^ 12 : ℝ) else 1) < wMin) = {0} := by
      ext i
      simp only [mem_filter, mem_range, mem_singleton]
      constructor
      · rintro ⟨-, h2⟩
        by_contra hi
        rw [if_neg hi, Real.sqrt_one] at h2
        unfold wMin at h2
        norm_num at h2
      · rintro rfl
        refine ⟨by norm_num, ?_⟩
        rw [if_pos rfl, Real.sqrt_lt' hm]
        unfold wMin; norm_num
    rw [this, card_singleton]
  rw [inms_last hst, hn]
  rfl

/-- **C151.** Lists of several modes are read back. -/
theorem read_modes {l : List ℕ} (h : 1 < l.length) : readModes l = .ok l := by
  unfold readModes
  rw [if_neg (by omega)]

/-- **C151, negated.** A calculation with one mode — a molecule of two atoms, say — cannot be repeated
or continued: the file with the list of modes is read as a number. -/
theorem one_mode : ∃ w2 : ℕ → ℝ, Stable 6 w2 ∧ inms 6 (nzero 6 w2) w2 = [5] ∧
    readModes (inms 6 (nzero 6 w2) w2) = .error .typeError := by
  have hst : Stable 6 (fun i => if i < 5 then 0 else 1) := by
    constructor
    · intro i _
      split <;> norm_num
    · intro i j hij _
      by_cases h0 : i < 5
      · simp only [h0, if_true]
        split <;> norm_num
      · have : ¬j < 5 := by omega
        simp [h0, this]
  have hn : nIgnored 6 (fun i => if i < 5 then (0 : ℝ) else 1) = 5 := by
    unfold nIgnored
    have : ((range 6).filter fun i =>
        Real.sqrt (if i < 5 then (0 : ℝ) else 1) < wMin) = range 5 := by
      ext i
      simp only [mem_filter, mem_range]
      constructor
      · rintro ⟨-, h2⟩
        by_contra hi
        rw [if_neg hi, Real.sqrt_one] at h2
        unfold wMin at h2
        norm_num at h2
      · intro hi
        refine ⟨by omega, ?_⟩
        rw [if_pos hi, Real.sqrt_zero]
        unfold wMin; norm_num
    rw [this, card_range]
  have hi : inms 6 (nzero 6 fun i => if i < 5 then (0 : ℝ) else 1)
      (fun i => if i < 5 then (0 : ℝ) else 1) = [5] := by
    rw [inms_last hst, hn]
    rfl
  exact ⟨_, hst, hi, by rw [hi]; rfl⟩

/-- **C151, negated.** A calculation that is continued in the steps over pairs has no maps of single
modes: every pair fails. -/
theorem restart_pairs (d m : ℕ) (hm : d ≤ m) : dispOf d [] m = .error .indexError := by
  unfold dispOf dispList
  rw [List.getElem?_eq_none (by simp; omega)]

/-! ## Couplings -/

/-- Specification: the coupling of displacements along two modes. -/
def coupling (f : ℝ → ℝ → ℝ) (x y : ℝ) : ℝ := f x y - f x 0 - f 0 y + f 0 0

/-- **C151.** A potential that is a sum of potentials of the two modes has no coupling. -/
theorem coupling_separable (u v : ℝ → ℝ) (x y : ℝ) : coupling (fun a b => u a + v b) x y = 0 := by
  unfold coupling; ring

/-- **C151.** The coupling vanishes on both axes. -/
theorem coupling_axes (f : ℝ → ℝ → ℝ) (x : ℝ) : coupling f x 0 = 0 ∧ coupling f 0 x = 0 := by
  unfold coupling; constructor <;> ring

/-- The files of a pair are complete: both or none. -/
def Paired {α : Type} (ps : List (ℕ × ℕ)) (F : Files α) : Prop :=
  ∀ p ∈ ps, (F p.1 p.2).isSome ↔ (F p.2 p.1).isSome

/-- The pairs are of different modes, the smaller first. -/
def Ordered (ps : List (ℕ × ℕ)) : Prop := ∀ p ∈ ps, p.1 < p.2

/-- The files present hold what they should. -/
def Right {G : ℕ} (C : ℕ → ℕ → Matrix (Fin G) (Fin G) ℝ) (F : Files (Matrix (Fin G) (Fin G) ℝ)) :
    Prop := ∀ i j x, F i j = some x → x = if i < j then C i j else (C j i)ᵀ

theorem pairStep_right {G : ℕ} {C : ℕ → ℕ → Matrix (Fin G) (Fin G) ℝ}
    {s : Files (Matrix (Fin G) (Fin G) ℝ) × ℕ} (h : Right C s.1) {p : ℕ × ℕ} (hp : p.1 < p.2) :
    Right C (pairStep C s p).1 := by
  have h1 : ∀ F : Files (Matrix (Fin G) (Fin G) ℝ), Right C F →
      Right C (put F p.1 p.2 (C p.1 p.2)) := by
    intro F hF i j x hx
    unfold put at hx
    split at hx
    · next he =>
      obtain ⟨rfl, rfl⟩ := he
      simp only [Option.some.injEq] at hx
      rw [if_pos hp, hx]
    · exact hF i j x hx
  have h2 : ∀ F : Files (Matrix (Fin G) (Fin G) ℝ), Right C F →
      Right C (put F p.2 p.1 (C p.1 p.2)ᵀ) := by
    intro F hF i j x hx
    unfold put at hx
    split at hx
    · next he =>
      obtain ⟨rfl, rfl⟩ := he
      simp only [Option.some.injEq] at hx
      rw [if_neg (by omega), hx]
    · exact hF i j x hx
  unfold pairStep
  split
  · exact h
  · split
    · exact h
    · exact h1 _ h
    · exact h2 _ (h1 _ h)

/-- **C151.** Wherever a calculation is stopped and however often it is repeated, the files that are
there are right. -/
theorem files_right {G : ℕ} (C : ℕ → ℕ → Matrix (Fin G) (Fin G) ℝ) {ps : List (ℕ × ℕ)}
    (ho : Ordered ps) {F : Files (Matrix (Fin G) (Fin G) ℝ)} (hF : Right C F) (left : ℕ) :
    Right C (pairRun C ps F left) := by
  unfold pairRun
  induction ps generalizing F left with
  | nil => exact hF
  | cons p ps ih =>
    rw [List.foldl_cons]
    exact ih (fun q hq => ho q (List.mem_cons_of_mem _ hq))
      (pairStep_right hF (ho p (List.mem_cons_self))) _

theorem put_isSome {α : Type} {F : Files α} {i j a b : ℕ} {x : α} (h : (F a b).isSome) :
    (put F i j x a b).isSome := by
  unfold put
  split <;> simp [h]

theorem pairStep_mono {G : ℕ} {C : ℕ → ℕ → Matrix (Fin G) (Fin G) ℝ}
    {s : Files (Matrix (Fin G) (Fin G) ℝ) × ℕ} {p : ℕ × ℕ} {a b : ℕ} (h : (s.1 a b).isSome) :
    ((pairStep C s p).1 a b).isSome := by
  unfold pairStep
  split
  · exact h
  · split
    · exact h
    · exact put_isSome h
    · exact put_isSome (put_isSome h)

theorem pairRun_mono {G : ℕ} {C : ℕ → ℕ → Matrix (Fin G) (Fin G) ℝ} {ps : List (ℕ × ℕ)}
    {F : Files (Matrix (Fin G) (Fin G) ℝ)} {left a b : ℕ} (h : (F a b).isSome) :
    ((pairRun C ps F left) a b).isSome := by
  unfold pairRun
  have : ∀ (ps : List (ℕ × ℕ)) (s : Files (Matrix (Fin G) (Fin G) ℝ) × ℕ), (s.1 a b).isSome →
      ((ps.foldl (pairStep C) s).1 a b).isSome := by
    intro ps
    induction ps with
    | nil => intro s h; exact h
    | cons p ps ih => intro s h; exact ih _ (pairStep_mono h)
  exact this ps (F, left) h

/-- **C151.** A repeated calculation completes the files of every pair, if the one before was not
stopped between the two files of a pair: `left` allows for all of them. -/
theorem repeat_complete {G : ℕ} (C : ℕ → ℕ → Matrix (Fin G) (Fin G) ℝ) {ps : List (ℕ × ℕ)}
    {F : Files (Matrix (Fin G) (Fin G) ℝ)} (hF : Paired ps F) {left : ℕ}
    (hl : 2 * ps.length ≤ left) :
    ∀ p ∈ ps, ((pairRun C ps F left) p.1 p.2).isSome ∧ ((pairRun C ps F left) p.2 p.1).isSome := by
  induction ps generalizing F left with
  | nil => intro p hp; simp at hp
  | cons q ps ih =>
    intro p hp
    have hrun : pairRun C (q :: ps) F left
        = pairRun C ps (pairStep C (F, left) q).1 (pairStep C (F, left) q).2 := rfl
    rw [hrun]
    simp only [List.length_cons] at hl
    obtain ⟨k, rfl⟩ : ∃ k, left = k + 2 := ⟨left - 2, by omega⟩
    have hboth : ((pairStep C (F, k + 2) q).1 q.1 q.2).isSome ∧
        ((pairStep C (F, k + 2) q).1 q.2 q.1).isSome := by
      unfold pairStep
      split
      · next h => exact ⟨h, (hF q List.mem_cons_self).mp h⟩
      · constructor
        · exact put_isSome (by simp [put])
        · simp [put]
    have hleft : k ≤ (pairStep C (F, k + 2) q).2 := by
      unfold pairStep
      split <;> simp
    have hpaired : Paired ps (pairStep C (F, k + 2) q).1 := by
      intro r hr
      have h0 := hF r (List.mem_cons_of_mem _ hr)
      unfold pairStep
      split
      · exact h0
      · simp only [put]
        by_cases h1 : r.1 = q.2 ∧ r.2 = q.1
        · have h1' : r.2 = q.1 ∧ r.1 = q.2 := ⟨h1.2, h1.1⟩
          simp only [if_pos h1, if_pos h1']
          split <;> simp
        · by_cases h2 : r.1 = q.1 ∧ r.2 = q.2
          · have h2' : r.2 = q.2 ∧ r.1 = q.1 := ⟨h2.2, h2.1⟩
            simp only [if_neg h1, if_pos h2, if_pos h2']
            simp
          · have h3 : ¬(r.2 = q.1 ∧ r.1 = q.2) := fun h => h1 ⟨h.2, h.1⟩
            have h4 : ¬(r.2 = q.2 ∧ r.1 = q.1) := fun h => h2 ⟨h.2, h.1⟩
            simp only [h1, h2, h3, h4, if_false]
            exact h0
    rcases List.mem_cons.mp hp with rfl | hp
    · exact ⟨pairRun_mono hboth.1, pairRun_mono hboth.2⟩
    · exact ih hpaired (by omega) p hp

/-- **C151, negated.** A calculation stopped between the two files of a pair can never be completed by
repeating it: the second file is never written, and the solver fails. -/
theorem stopped_between {G : ℕ} (C : ℕ → ℕ → Matrix (Fin G) (Fin G) ℝ) {i j : ℕ} (hij : i < j)
    {F : Files (Matrix (Fin G) (Fin G) ℝ)} (h1 : (F i j).isSome) (h2 : F j i = none)
    {ps : List (ℕ × ℕ)} (ho : Ordered ps) (left : ℕ) :
    vc (pairRun C ps F left) j i = .error .noFile := by
  have key : ∀ (ps : List (ℕ × ℕ)) (s : Files (Matrix (Fin G) (Fin G) ℝ) × ℕ), Ordered ps →
      (s.1 i j).isSome → s.1 j i = none → (ps.foldl (pairStep C) s).1 j i = none := by
    intro ps
    induction ps with
    | nil => intro s _ _ h; exact h
    | cons p ps ih =>
      intro s ho ha hb
      rw [List.foldl_cons]
      apply ih _ (fun q hq => ho q (List.mem_cons_of_mem _ hq)) (pairStep_mono ha)
      have hp := ho p List.mem_cons_self
      unfold pairStep
      split
      · exact hb
      · next hn =>
        have hne : ¬(j = p.1 ∧ i = p.2) := fun h => by omega
        have hne2 : ¬(j = p.2 ∧ i = p.1) := by
          rintro ⟨rfl, rfl⟩
          exact hn ha
        split
        · exact hb
        · simp only [put, hne, if_false]; exact hb
        · simp only [put, hne, hne2, if_false]; exact hb
  have := key ps (F, left) ho h1 h2
  unfold vc pairRun
  rw [if_neg hij.ne', this]

/-- Such a stop: after the first file of the first pair. -/
example : ∃ F : Files (Matrix (Fin 1) (Fin 1) ℝ),
    F = pairRun (fun _ _ => 0) [(0, 1)] (fun _ _ => none) 1 ∧ (F 0 1).isSome ∧ F 1 0 = none :=
  ⟨_, rfl, rfl, rfl⟩

/-- **C151.** With all files there, the mean field at point `a` of mode `i` due to mode `j` is the
coupling weighted with the density of mode `j`, whichever of the two comes first. -/
theorem mean_field {G : ℕ} (f : ℕ → ℕ → ℝ → ℝ → ℝ) (hf : ∀ i j x y, f i j x y = f j i y x)
    (g : ℕ → Fin G → ℝ) {F : Files (Matrix (Fin G) (Fin G) ℝ)}
    (hF : Right (fun i j => vij (f i j) (g i) (g j)) F) {i j : ℕ} (hij : i ≠ j)
    (hs : (F i j).isSome) : ∃ M, vc F i j = .ok M ∧
      ∀ (rho : Fin G → ℝ) a, (M *ᵥ rho) a = ∑ b, coupling (f i j) (g i a) (g j b) * rho b := by
  obtain ⟨x, hx⟩ := Option.isSome_iff_exists.mp hs
  refine ⟨xᵀ, by unfold vc; rw [if_neg hij, hx], fun rho a => ?_⟩
  have := hF i j x hx
  rw [this]
  unfold Matrix.mulVec dotProduct
  apply Finset.sum_congr rfl
  intro b _
  congr 1
  by_cases h : i < j
  · rw [if_pos h]
    rfl
  · rw [if_neg h, Matrix.transpose_transpose]
    simp only [vij, coupling]
    rw [hf j i, hf j i, hf j i, hf j i]
    ring

end Verif.Vscf
