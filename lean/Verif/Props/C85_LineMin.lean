/-
C85: what the line search of the geometry optimisers returns.

For every energy along the line: the bracketing returns three points with the lowest in the
middle, the search ends no higher than it started, and for an energy with a single valley it
ends within the tolerance of the bottom.  Where the code departs from this (the search runs
out of passes; the bracketing of an energy which only goes down; the slope passed for the
starting point) a concrete case is proved.
-/
import Verif.Phys.LineMin
import Mathlib.Tactic.Linarith
import Mathlib.Tactic.Ring
import Mathlib.Tactic.NormNum
import Mathlib.Tactic.Positivity
import Mathlib.Tactic.LinearCombination
import Mathlib.Algebra.Order.Field.Rat
import Mathlib.Topology.Order.Compact
import Mathlib.Topology.Order.LocalExtr
import Mathlib.Data.Real.Basic
import Mathlib.Analysis.Calculus.Deriv.Add
import Mathlib.Analysis.Calculus.Deriv.Mul
import Mathlib.Analysis.Calculus.Deriv.Comp
import Mathlib.Analysis.Calculus.Deriv.Pi
import Mathlib.Analysis.Calculus.Deriv.Prod
import Mathlib.Algebra.BigOperators.Field
import Mathlib.Tactic.FieldSimp
import Mathlib.Tactic.FinCases
import Mathlib.Topology.Instances.Real.Lemmas

namespace Verif.LineMin

section Spec

/-- `b` lies strictly between `a` and `c`. -/
def Between {K : Type*} [LT K] (a b c : K) : Prop := (a < b ∧ b < c) ∨ (c < b ∧ b < a)

/-- An energy with a single valley: between two points it is below the higher of them. -/
def Valley {K : Type*} [LinearOrder K] (E : K → K) : Prop :=
  ∀ x y z, x < y → y < z → E y < max (E x) (E z)

/-- `z` is a lowest point of `E`. -/
def Lowest {K : Type*} [LE K] (E : K → K) (z : K) : Prop := ∀ y, E z ≤ E y

/-- The slope `g` points away from `z` everywhere. -/
def SlopeTo {K : Type*} [LE K] [Zero K] (g : K → K) (z : K) : Prop :=
  ∀ y, (0 ≤ g y → z ≤ y) ∧ (g y ≤ 0 → y ≤ z)

end Spec

variable {K : Type*} [Field K] [LinearOrder K] [IsStrictOrderedRing K]

/-- The bracket the loop keeps, for the energy `E` started at `x0`. -/
structure Inv (E g : K → K) (x0 s0 : K) (t : Tri K) : Prop where
  fa : t.a.f = E t.a.x
  fb : t.b.f = E t.b.x
  fc : t.c.f = E t.c.x
  le : E t.b.x ≤ E t.a.x
  low : E t.b.x ≤ E x0
  btw : 0 < (t.b.x - t.a.x) * (t.c.x - t.b.x)
  gb : t.b.df = g t.b.x ∨ (t.b.x = x0 ∧ t.b.df = s0)
  gc : t.c.df = g t.c.x

theorem gold_pos : (0 : K) < gold := by unfold gold; positivity

theorem between_of_mul {a b c : K} (h : 0 < (b - a) * (c - b)) : Between a b c := by
  rcases mul_pos_iff.1 h with ⟨h1, h2⟩ | ⟨h1, h2⟩
  · exact Or.inl ⟨sub_pos.1 h1, sub_pos.1 h2⟩
  · exact Or.inr ⟨sub_neg.1 h2, sub_neg.1 h1⟩

theorem far_btw {b c : K} (h : b ≠ c) : 0 < (c - b) * (far b c - c) := by
  have : (c - b) * (far b c - c) = gold * (c - b) ^ 2 := by unfold far; ring
  rw [this]
  exact mul_pos gold_pos (pow_pos_of_ne (sub_ne_zero.2 (Ne.symm h)))
where
  pow_pos_of_ne {x : K} (h : x ≠ 0) : 0 < x ^ 2 := by positivity

theorem start_inv {E g : K → K} {x0 s0 step : K} (hs : step ≠ 0) :
    Inv E g x0 s0 (start (fun x => (E x, g x)) (E x0, s0) x0 step).1 := by
  have hne : x0 ≠ x0 + step := fun h => hs (by linear_combination -h)
  by_cases h : E x0 < E (x0 + step)
  · have ho : order (⟨x0, E x0, s0⟩ : Pt K) (ev (fun x => (E x, g x)) (x0 + step))
        = (ev (fun x => (E x, g x)) (x0 + step), ⟨x0, E x0, s0⟩) := if_pos h
    simp only [start, ho]
    exact ⟨rfl, rfl, rfl, h.le, le_rfl, far_btw hne.symm, Or.inr ⟨rfl, rfl⟩, rfl⟩
  · have ho : order (⟨x0, E x0, s0⟩ : Pt K) (ev (fun x => (E x, g x)) (x0 + step))
        = (⟨x0, E x0, s0⟩, ev (fun x => (E x, g x)) (x0 + step)) := if_neg h
    simp only [start, ho]
    exact ⟨rfl, rfl, rfl, not_lt.1 h, not_lt.1 h, far_btw hne, Or.inl rfl, rfl⟩

/-- What one pass of the loop leaves. -/
def PassOk (E g : K → K) (x0 s0 : K) : Out K → Prop
  | .ret t _ => Inv E g x0 s0 t ∧ E t.b.x ≤ E t.c.x
  | .go t _ => Inv E g x0 s0 t

theorem pass_inv {E g : K → K} {x0 s0 : K} {t : Tri K} (h : Inv E g x0 s0 t)
    (hc : t.c.f < t.b.f) : PassOk E g x0 s0 (pass (fun x => (E x, g x)) t) := by
  have hc' : E t.c.x < E t.b.x := by rw [← h.fc, ← h.fb]; exact hc
  have hbc : t.b.x ≠ t.c.x := by
    intro e; rw [e] at hc'; exact lt_irrefl _ hc'
  have hlow : E t.c.x ≤ E x0 := hc'.le.trans h.low
  have hstd : ∀ u, 0 < (t.c.x - t.b.x) * (u - t.c.x) →
      Inv E g x0 s0 ⟨t.b, t.c, ev (fun x => (E x, g x)) u⟩ := fun u hu =>
    ⟨h.fb, h.fc, rfl, hc'.le, hlow, hu, Or.inl h.gc, rfl⟩
  unfold pass
  generalize parab t = u
  simp only
  split
  · next hu =>
    split
    · next hf =>
      have hf' : E u < E t.c.x := by rw [← h.fc]; exact hf
      exact ⟨⟨h.fb, rfl, h.fc, (hf'.trans hc').le, hf'.le.trans hlow,
        (show (t.b.x - u) * (u - t.c.x) = (u - t.b.x) * (t.c.x - u) by ring) ▸ hu,
        Or.inl rfl, h.gc⟩, hf'.le⟩
    · split
      · next hf =>
        have hf' : E t.b.x < E u := by rw [← h.fb]; exact hf
        refine ⟨⟨h.fa, h.fb, rfl, h.le, h.low, ?_, h.gb, rfl⟩, hf'.le⟩
        show 0 < (t.b.x - t.a.x) * (u - t.b.x)
        rcases mul_pos_iff.1 h.btw with ⟨h1, h2⟩ | ⟨h1, h2⟩
        · rcases mul_pos_iff.1 hu with ⟨h3, h4⟩ | ⟨h3, h4⟩
          · linarith
          · exact mul_pos h1 (by linarith)
        · rcases mul_pos_iff.1 hu with ⟨h3, h4⟩ | ⟨h3, h4⟩
          · exact mul_pos_of_neg_of_neg h1 (by linarith)
          · linarith
      · exact hstd _ (far_btw hbc)
  · split
    · next hu =>
      have hd : 0 < (t.c.x - t.b.x) * (u - t.c.x) := by
        unfold ulim at hu
        have h2 : (t.c.x - u) * (u - (t.b.x + 100 * (t.c.x - t.b.x)))
            = 99 * ((t.c.x - t.b.x) * (u - t.c.x)) - (u - t.c.x) ^ 2 := by ring
        have := sq_nonneg (u - t.c.x)
        linarith
      have huc : t.c.x ≠ u := by
        intro e; rw [e] at hd; simp at hd
      split
      · next hf =>
        have hf' : E u < E t.c.x := by rw [← h.fc]; exact hf
        exact ⟨h.fc, rfl, rfl, hf'.le, hf'.le.trans hlow, far_btw huc, Or.inl rfl, rfl⟩
      · exact hstd _ hd
    · split
      · refine hstd _ ?_
        have : (t.c.x - t.b.x) * (ulim t - t.c.x) = 99 * (t.c.x - t.b.x) ^ 2 := by
          unfold ulim; ring
        rw [this]
        have : t.c.x - t.b.x ≠ 0 := sub_ne_zero.2 hbc.symm
        positivity
      · exact hstd _ (far_btw hbc)

theorem widen_inv {E g : K → K} {x0 s0 : K} (n : Nat) : ∀ (t : Tri K) (log : List K),
    Inv E g x0 s0 t → ∀ t' l', widen (fun x => (E x, g x)) n t log = some (t', l') →
    Inv E g x0 s0 t' ∧ E t'.b.x ≤ E t'.c.x := by
  induction n with
  | zero =>
    intro t log h t' l' hw
    simp only [widen] at hw
    split at hw
    · exact absurd hw (by simp)
    · next hc =>
      obtain ⟨rfl, -⟩ : t = t' ∧ log = l' := by simpa using hw
      exact ⟨h, by rw [← h.fb, ← h.fc]; exact not_lt.1 hc⟩
  | succ n ih =>
    intro t log h t' l' hw
    simp only [widen] at hw
    split at hw
    · next hc =>
      have hp := pass_inv h hc
      split at hw
      · next t1 l1 e =>
        rw [e] at hp
        obtain ⟨rfl, -⟩ : t1 = t' ∧ l1 ++ log = l' := by simpa using hw
        exact hp
      · next t1 l1 e =>
        rw [e] at hp
        exact ih _ _ hp _ _ hw
    · next hc =>
      obtain ⟨rfl, -⟩ : t = t' ∧ log = l' := by simpa using hw
      exact ⟨h, by rw [← h.fb, ← h.fc]; exact not_lt.1 hc⟩

theorem bracket_inv {E g : K → K} {x0 s0 step : K} {fuel : Nat} {t : Tri K} {log : List K}
    (hs : step ≠ 0)
    (h : bracket (fun x => (E x, g x)) (E x0, s0) x0 step fuel = some (t, log)) :
    Inv E g x0 s0 t ∧ E t.b.x ≤ E t.c.x :=
  widen_inv fuel _ _ (start_inv hs) _ _ h

/-- **The bracket.**  Whenever the bracketing returns, for any energy and after any number of
passes, the middle point lies strictly between the outer two, is no higher than either of
them, and no higher than the starting point. -/
theorem bracket_spec {E g : K → K} {x0 s0 step : K} {fuel : Nat} {t : Tri K} {log : List K}
    (hs : step ≠ 0)
    (h : bracket (fun x => (E x, g x)) (E x0, s0) x0 step fuel = some (t, log)) :
    Between t.a.x t.b.x t.c.x ∧ E t.b.x ≤ E t.a.x ∧ E t.b.x ≤ E t.c.x ∧ E t.b.x ≤ E x0 ∧
      t.b.f = E t.b.x :=
  have ⟨i, hc⟩ := bracket_inv hs h
  ⟨between_of_mul i.btw, i.le, hc, i.low, i.fb⟩

/-- A continuous real energy has a local minimum strictly inside the bracket. -/
theorem bracket_encloses {E g : ℝ → ℝ} {x0 s0 step : ℝ} {fuel : Nat} {t : Tri ℝ}
    {log : List ℝ} (hE : Continuous E) (hs : step ≠ 0)
    (h : bracket (fun x => (E x, g x)) (E x0, s0) x0 step fuel = some (t, log)) :
    ∃ z, Between t.a.x z t.c.x ∧ IsLocalMin E z := by
  obtain ⟨hb, ha, hc, -, -⟩ := bracket_spec hs h
  have key : ∀ l m r : ℝ, l < m → m < r → E m ≤ E l → E m ≤ E r →
      ∃ z, (l < z ∧ z < r) ∧ IsLocalMin E z := by
    intro l m r hlm hmr hl hr
    obtain ⟨z, hz, hmin⟩ := isCompact_Icc.exists_isMinOn
      (Set.nonempty_Icc.2 (hlm.trans hmr).le) (hE.continuousOn (s := Set.Icc l r))
    have hat : ∀ y, l < y → y < r → E y ≤ E z → IsLocalMin E y := by
      intro y h1 h2 h3
      filter_upwards [Ioo_mem_nhds h1 h2] with w hw
      exact h3.trans (hmin (Set.Ioo_subset_Icc_self hw))
    by_cases h1 : z = l
    · exact ⟨m, ⟨hlm, hmr⟩, hat m hlm hmr (by rw [h1]; exact hl)⟩
    · by_cases h2 : z = r
      · exact ⟨m, ⟨hlm, hmr⟩, hat m hlm hmr (by rw [h2]; exact hr)⟩
      · have h3 : l < z := lt_of_le_of_ne hz.1 (Ne.symm h1)
        have h4 : z < r := lt_of_le_of_ne hz.2 h2
        exact ⟨z, ⟨h3, h4⟩, hat z h3 h4 le_rfl⟩
  rcases hb with ⟨h1, h2⟩ | ⟨h1, h2⟩
  · obtain ⟨z, hz, hm⟩ := key _ _ _ h1 h2 ha hc
    exact ⟨z, Or.inl hz, hm⟩
  · obtain ⟨z, hz, hm⟩ := key _ _ _ h1 h2 hc ha
    exact ⟨z, Or.inr hz, hm⟩

/-! ### A line that only goes down -/

/-- The points of a search that runs downhill to the right. -/
structure Down (E g : K → K) (t : Tri K) : Prop where
  fb : t.b.f = E t.b.x
  fc : t.c.f = E t.c.x
  lt : t.b.x < t.c.x

theorem pass_down {E g : K → K} (hE : StrictAnti E) {t : Tri K} (h : Down E g t) :
    ∃ t' l, pass (fun x => (E x, g x)) t = .go t' l ∧ Down E g t' := by
  have hf : ∀ {b c : K}, b < c → c < far b c := fun {b c} hbc => by
    unfold far
    have := mul_pos gold_pos (sub_pos.2 hbc)
    linarith
  unfold pass
  generalize parab t = u
  simp only
  split
  · next hu =>
    have hb : t.b.x < u ∧ u < t.c.x := by
      rcases mul_pos_iff.1 hu with ⟨h3, h4⟩ | ⟨h3, h4⟩
      · have := h.lt; constructor <;> linarith
      · constructor <;> linarith
    have h1 : ¬ (ev (fun x => (E x, g x)) u).f < t.c.f := by
      rw [h.fc]; exact not_lt.2 (hE hb.2).le
    have h2 : ¬ t.b.f < (ev (fun x => (E x, g x)) u).f := by
      rw [h.fb]; exact not_lt.2 (hE hb.1).le
    rw [if_neg h1, if_neg h2]
    exact ⟨_, _, rfl, h.fc, rfl, hf h.lt⟩
  · split
    · next hu =>
      have hcu : t.c.x < u := by
        have hl := h.lt
        have hul : t.c.x < ulim t := by unfold ulim; linarith
        rcases mul_pos_iff.1 hu with ⟨h3, h4⟩ | ⟨h3, h4⟩ <;> linarith
      rw [if_pos (show (ev (fun x => (E x, g x)) u).f < t.c.f by rw [h.fc]; exact hE hcu)]
      exact ⟨_, _, rfl, rfl, rfl, hf hcu⟩
    · split
      · exact ⟨_, _, rfl, h.fc, rfl, by have := h.lt; show t.c.x < ulim t; unfold ulim; linarith⟩
      · exact ⟨_, _, rfl, h.fc, rfl, hf h.lt⟩

theorem widen_down {E g : K → K} (hE : StrictAnti E) (n : Nat) : ∀ (t : Tri K) (log : List K),
    Down E g t → widen (fun x => (E x, g x)) n t log = none := by
  induction n with
  | zero =>
    intro t log h
    have : t.c.f < t.b.f := by rw [h.fb, h.fc]; exact hE h.lt
    simp [widen, this]
  | succ n ih =>
    intro t log h
    have hlt : t.c.f < t.b.f := by rw [h.fb, h.fc]; exact hE h.lt
    obtain ⟨t', l, e, h'⟩ := pass_down (g := g) hE h
    simp only [widen, if_pos hlt, e]
    exact ih _ _ h'

/-- **The bracketing has no limit.**  Along a direction in which the energy keeps falling,
however slowly (two fragments which repel each other), it never returns. -/
theorem bracket_endless {E g : K → K} (hE : StrictAnti E) {x0 s0 step : K} (hs : 0 < step)
    (fuel : Nat) : bracket (fun x => (E x, g x)) (E x0, s0) x0 step fuel = none := by
  refine widen_down hE fuel _ _ ?_
  have h0 : E (x0 + step) < E x0 := hE (by linarith)
  have hn : ¬ E x0 < E (x0 + step) := not_lt.2 h0.le
  have := mul_pos (gold_pos (K := K)) hs
  have e : (start (fun x => (E x, g x)) (E x0, s0) x0 step).1
      = ⟨⟨x0, E x0, s0⟩, ⟨x0 + step, E (x0 + step), g (x0 + step)⟩,
        ev (fun x => (E x, g x)) (x0 + step + gold * (x0 + step - x0))⟩ := by
    have ho : order (⟨x0, E x0, s0⟩ : Pt K) (ev (fun x => (E x, g x)) (x0 + step))
        = (⟨x0, E x0, s0⟩, ev (fun x => (E x, g x)) (x0 + step)) := if_neg hn
    simp only [start, ho]
    rfl
  rw [e]
  refine ⟨rfl, rfl, ?_⟩
  show x0 + step < x0 + step + gold * (x0 + step - x0)
  linarith [show x0 + step + gold * (x0 + step - x0) = x0 + step + gold * step by ring]

theorem minBrent_endless {E g : K → K} (hE : StrictAnti E) {x0 s0 tol step : K}
    (hs : 0 < step) (itmax fuel : Nat) :
    minBrent (fun x => (E x, g x)) (E x0, s0) x0 tol itmax step fuel = none := by
  simp [minBrent, bracket_endless hE hs fuel]

/-! ### The search -/

theorem update_x {s : St K} {e : K} {u : Pt K} :
    (update s e u).x = if u.f ≤ s.x.f then u else s.x := by
  unfold update
  split
  · rfl
  · simp only
    split
    · rfl
    · split <;> rfl

theorem search_low {E g : K → K} {tol x0 : K} (n : Nat) : ∀ (s : St K) (log : List K),
    s.x.f = E s.x.x → E s.x.x ≤ E x0 → (∀ y ∈ log, E s.x.x ≤ E y) →
    let r := search (fun x => (E x, g x)) tol n s log
    (r.how ≠ .spent → r.tried.head? = some r.x.x) ∧ r.x.f = E r.x.x ∧ E r.x.x ≤ E x0 ∧
      E r.x.x ≤ E s.x.x ∧ ∀ y ∈ r.tried, E r.x.x ≤ E y := by
  induction n with
  | zero =>
    intro s log h1 h2 h3
    exact ⟨fun h => absurd rfl h, h1, h2, le_rfl, h3⟩
  | succ n ih =>
    intro s log h1 h2 h3
    unfold search
    simp only
    split
    · refine ⟨fun _ => rfl, h1, h2, le_rfl, fun y hy => ?_⟩
      rcases List.mem_cons.1 hy with rfl | hy
      · exact le_rfl
      · exact h3 y hy
    · split
      · next hr =>
        refine ⟨fun _ => rfl, h1, h2, le_rfl, fun y hy => ?_⟩
        have hu : E s.x.x < E (trial tol s) := by rw [← h1]; exact hr.2
        rcases List.mem_cons.1 hy with rfl | hy
        · exact le_rfl
        · rcases List.mem_cons.1 hy with rfl | hy
          · exact hu.le
          · exact h3 y hy
      · have hx := update_x (s := s) (e := (move tol s).2)
          (u := ev (fun x => (E x, g x)) (trial tol s))
        by_cases hle : (ev (fun x => (E x, g x)) (trial tol s)).f ≤ s.x.f
        · rw [if_pos hle] at hx
          have hle' : E (trial tol s) ≤ E s.x.x := by rw [← h1]; exact hle
          obtain ⟨r1, r2, r3, r4, r5⟩ := ih (update s (move tol s).2
            (ev (fun x => (E x, g x)) (trial tol s))) (trial tol s :: log)
            (by rw [hx]; rfl) (by rw [hx]; exact hle'.trans h2)
            (by
              rw [hx]
              intro y hy
              rcases List.mem_cons.1 hy with rfl | hy
              · exact le_rfl
              · exact hle'.trans (h3 y hy))
          exact ⟨r1, r2, r3, r4.trans (by rw [hx]; exact hle'), r5⟩
        · rw [if_neg hle] at hx
          have hle' : E s.x.x ≤ E (trial tol s) := by
            rw [← h1]; exact (not_le.1 hle).le
          obtain ⟨r1, r2, r3, r4, r5⟩ := ih (update s (move tol s).2
            (ev (fun x => (E x, g x)) (trial tol s))) (trial tol s :: log)
            (by rw [hx]; exact h1) (by rw [hx]; exact h2)
            (by
              rw [hx]
              intro y hy
              rcases List.mem_cons.1 hy with rfl | hy
              · exact hle'
              · exact h3 y hy)
          exact ⟨r1, r2, r3, by rw [hx] at r4; exact r4, r5⟩

/-- The pieces of a finished line search. -/
theorem minBrent_cases {E g : K → K} {x0 s0 tol step : K} {itmax fuel : Nat}
    {r : Found K} {at_ : K} (hs : step ≠ 0)
    (h : minBrent (fun x => (E x, g x)) (E x0, s0) x0 tol itmax step fuel = some (r, at_)) :
    ∃ t log, Inv E g x0 s0 t ∧ E t.b.x ≤ E t.c.x ∧
      r = search (fun x => (E x, g x)) tol itmax (init t) [] ∧
      at_ = (r.tried ++ log).headD x0 := by
  unfold minBrent at h
  split at h
  · exact absurd h (by simp)
  · next t log hb =>
    obtain ⟨i, hc⟩ := bracket_inv hs hb
    simp only [Option.some.injEq, Prod.mk.injEq] at h
    exact ⟨t, log, i, hc, h.1.symm, by rw [← h.2, ← h.1]⟩

/-- **The search never ends uphill** (unless it runs out of passes).  For every energy along
the line, every slope and every slope passed for the starting point: a search that stops by
itself leaves the atoms at the lowest position its main loop has tried, and this is no higher
than where it started.  Missing for the full property: the case where the passes are used up,
see `search_spent_rises`. -/
theorem search_lowers_partial {E g : K → K} {x0 s0 tol step : K} {itmax fuel : Nat}
    {r : Found K} {at_ : K} (hs : step ≠ 0)
    (h : minBrent (fun x => (E x, g x)) (E x0, s0) x0 tol itmax step fuel = some (r, at_))
    (hk : r.how ≠ .spent) :
    E at_ ≤ E x0 ∧ (∀ y ∈ r.tried, E at_ ≤ E y) ∧ at_ = r.x.x := by
  obtain ⟨t, log, i, -, hr, ha⟩ := minBrent_cases hs h
  obtain ⟨r1, -, r3, -, r5⟩ := search_low (g := g) (tol := tol) (x0 := x0) itmax (init t) []
    i.fb i.low (by simp)
  rw [← hr] at r1 r3 r5
  have hh := r1 hk
  have hx : at_ = r.x.x := by
    rw [ha]
    cases hl : r.tried with
    | nil => rw [hl] at hh; simp at hh
    | cons y ys => rw [hl] at hh; simpa using hh
  rw [hx]
  exact ⟨r3, r5, rfl⟩

/-- Even when the passes are used up, the best point *known* to the search is no higher than
the start; but that is not where the atoms are left. -/
theorem best_known_lowers {E g : K → K} {x0 s0 tol step : K} {itmax fuel : Nat}
    {r : Found K} {at_ : K} (hs : step ≠ 0)
    (h : minBrent (fun x => (E x, g x)) (E x0, s0) x0 tol itmax step fuel = some (r, at_)) :
    E r.x.x ≤ E x0 ∧ ∀ y ∈ r.tried, E r.x.x ≤ E y := by
  obtain ⟨t, log, i, -, hr, -⟩ := minBrent_cases hs h
  obtain ⟨-, -, r3, -, r5⟩ := search_low (g := g) (tol := tol) (x0 := x0) itmax (init t) []
    i.fb i.low (by simp)
  rw [← hr] at r3 r5
  exact ⟨r3, r5⟩

/-! ### A single valley -/

theorem valley_left {E : K → K} (hv : Valley E) {z x y : K} (hz : Lowest E z)
    (hxy : x < y) (h : E y ≤ E x) : x ≤ z := by
  by_contra hc
  have := hv z x y (not_le.1 hc) hxy
  rw [max_eq_right (hz y)] at this
  exact absurd (this.trans_le h) (lt_irrefl _)

theorem valley_right {E : K → K} (hv : Valley E) {z x y : K} (hz : Lowest E z)
    (hxy : x < y) (h : E x ≤ E y) : z ≤ y := by
  by_contra hc
  have := hv x y z hxy (not_le.1 hc)
  rw [max_eq_left (hz x)] at this
  exact absurd (this.trans_le h) (lt_irrefl _)

theorem tol1_pos {tol : K} (ht : 0 ≤ tol) (s : St K) : 0 < tol1 tol s := by
  unfold tol1; positivity

theorem copysign_cases {m s : K} (hm : 0 < m) :
    (copysign m s = -m ∧ s < 0) ∨ (copysign m s = m ∧ 0 ≤ s) := by
  unfold copysign
  split
  · next h => exact Or.inl ⟨by rw [abs_of_pos hm], h⟩
  · next h => exact Or.inr ⟨abs_of_pos hm, not_lt.1 h⟩

theorem trial_ne {tol : K} (ht : 0 ≤ tol) (s : St K) : trial tol s ≠ s.x.x := by
  have hp := tol1_pos ht s
  unfold trial
  split
  · next h =>
    intro e
    have : (move tol s).1 = 0 := by linear_combination e
    rw [this, abs_zero] at h
    exact absurd h (not_le.2 hp)
  · rcases copysign_cases (s := (move tol s).1) hp with ⟨h, -⟩ | ⟨h, -⟩ <;> rw [h] <;>
      intro e
    · have : tol1 tol s = 0 := by linear_combination -e
      exact hp.ne' this
    · have : tol1 tol s = 0 := by linear_combination e
      exact hp.ne' this

/-- The interval holds the lowest point after the update. -/
theorem update_holds {E : K → K} (hv : Valley E) {z : K} (hz : Lowest E z) {s : St K}
    {e : K} {u : Pt K} (hx : s.x.f = E s.x.x) (hu : u.f = E u.x) (hne : u.x ≠ s.x.x)
    (h : s.a ≤ z ∧ z ≤ s.b) : (update s e u).a ≤ z ∧ z ≤ (update s e u).b := by
  unfold update
  split
  · next hf =>
    rw [hx, hu] at hf
    simp only
    by_cases hle : s.x.x ≤ u.x
    · rw [if_pos hle, if_pos hle]
      exact ⟨valley_left hv hz (lt_of_le_of_ne hle (Ne.symm hne)) hf, h.2⟩
    · rw [if_neg hle, if_neg hle]
      exact ⟨h.1, valley_right hv hz (not_le.1 hle) hf⟩
  · next hf =>
    rw [hx, hu] at hf
    have hf' := not_le.1 hf
    have hh : (if u.x < s.x.x then u.x else s.a) ≤ z ∧
        z ≤ (if u.x < s.x.x then s.b else u.x) := by
      by_cases hlt : u.x < s.x.x
      · rw [if_pos hlt, if_pos hlt]
        exact ⟨valley_left hv hz hlt hf'.le, h.2⟩
      · rw [if_neg hlt, if_neg hlt]
        exact ⟨h.1, valley_right hv hz (lt_of_le_of_ne (not_lt.1 hlt) (Ne.symm hne)) hf'.le⟩
    simp only
    split
    · exact hh
    · split <;> exact hh

theorem init_holds {E g : K → K} (hv : Valley E) {z : K} (hz : Lowest E z) {x0 s0 : K}
    {t : Tri K} (h : Inv E g x0 s0 t) (hc : E t.b.x ≤ E t.c.x) :
    (init t).a ≤ z ∧ z ≤ (init t).b := by
  rcases between_of_mul h.btw with ⟨h1, h2⟩ | ⟨h1, h2⟩
  · have h3 := h1.trans h2
    simp only [init, if_pos h3, if_neg h3.not_gt]
    exact ⟨valley_left hv hz h1 h.le, valley_right hv hz h2 hc⟩
  · have h3 := h1.trans h2
    simp only [init, if_pos h3, if_neg h3.not_gt]
    exact ⟨valley_left hv hz h1 hc, valley_right hv hz h2 h.le⟩

theorem small_near {tol z : K} {s : St K} (hs : small tol s) (h : s.a ≤ z ∧ z ≤ s.b) :
    |s.x.x - z| ≤ 2 * tol1 tol s := by
  unfold small mid at hs
  rw [abs_le] at hs ⊢
  constructor <;> linarith [hs.1, hs.2, h.1, h.2]

/-- The search keeps the lowest point of a valley in its interval. -/
theorem search_near {E g : K → K} (hv : Valley E) {z : K} (hz : Lowest E z) {tol : K}
    (ht : 0 ≤ tol) (n : Nat) : ∀ (s : St K) (log : List K),
    s.x.f = E s.x.x → s.a ≤ z ∧ z ≤ s.b →
    let r := search (fun x => (E x, g x)) tol n s log
    r.how = .tol → |r.x.x - z| ≤ 2 * (tol * |r.x.x| + 1 / 10 ^ 10) := by
  induction n with
  | zero =>
    intro s log _ _ r h
    exact absurd (show How.spent = How.tol from h) (by decide)
  | succ n ih =>
    intro s log h1 h2
    unfold search
    simp only
    split
    · next hs => exact fun _ => small_near hs h2
    · split
      · intro h; exact absurd (show How.rise = How.tol from h) (by decide)
      · have hx := update_x (s := s) (e := (move tol s).2)
          (u := ev (fun x => (E x, g x)) (trial tol s))
        refine ih _ _ ?_ (update_holds hv hz h1 rfl (trial_ne ht s) h2)
        rw [hx]; split
        · rfl
        · exact h1

/-- **The bottom of a valley.**  For an energy with a single valley, a search that ends
because its interval has become small leaves the atoms within the stated tolerance of the
lowest point, whatever slopes it has been given. -/
theorem search_finds {E g : K → K} (hv : Valley E) {z : K} (hz : Lowest E z)
    {x0 s0 tol step : K} (ht : 0 ≤ tol) {itmax fuel : Nat} {r : Found K} {at_ : K}
    (hs : step ≠ 0)
    (h : minBrent (fun x => (E x, g x)) (E x0, s0) x0 tol itmax step fuel = some (r, at_))
    (hk : r.how = .tol) : |at_ - z| ≤ 2 * (tol * |at_| + 1 / 10 ^ 10) := by
  rw [(search_lowers_partial hs h (by rw [hk]; decide)).2.2]
  obtain ⟨t, log, i, hc, hr, -⟩ := minBrent_cases hs h
  have := search_near (g := g) hv hz ht itmax (init t) [] i.fb (init_holds hv hz i hc)
  rw [← hr] at this
  exact this hk

/-- All slopes recorded are those of `g`. -/
def Slopes (g : K → K) (s : St K) : Prop :=
  s.x.df = g s.x.x ∧ s.w.df = g s.w.x ∧ s.v.df = g s.v.x

omit [Field K] [IsStrictOrderedRing K] in
theorem update_slopes {g : K → K} {s : St K} {e : K} {u : Pt K} (h : Slopes g s)
    (hu : u.df = g u.x) : Slopes g (update s e u) := by
  obtain ⟨h1, h2, h3⟩ := h
  unfold update
  split
  · exact ⟨hu, h1, h2⟩
  · simp only
    split
    · exact ⟨h1, hu, h2⟩
    · split
      · exact ⟨h1, h2, hu⟩
      · exact ⟨h1, h2, h3⟩

omit [IsStrictOrderedRing K] in
theorem chosen_ok {s : St K} (h : okStep s (secant s s.w) ∨ okStep s (secant s s.v)) :
    okStep s (chosen s) := by
  unfold chosen
  split
  · next hb => split
               · exact hb.1
               · exact hb.2
  · split
    · next h1 => exact h1
    · next h1 => exact h.resolve_left h1

omit [IsStrictOrderedRing K] in
theorem chosen_eq (s : St K) : chosen s = secant s s.w ∨ chosen s = secant s s.v := by
  unfold chosen
  split
  · split
    · exact Or.inl rfl
    · exact Or.inr rfl
  · split
    · exact Or.inl rfl
    · exact Or.inr rfl

/-- A secant step of zero length inside the interval means a zero slope. -/
theorem secant_zero {g : K → K} {s : St K} {p : Pt K} (hx : s.x.df = g s.x.x)
    (hp : p.df = g p.x) (h0 : secant s p = 0) (hin : s.a < s.b) : s.x.df = 0 := by
  unfold secant at h0
  split at h0
  · next hne =>
    rcases div_eq_zero_iff.1 h0 with h | h
    · rcases mul_eq_zero.1 h with h | h
      · exact absurd (by rw [hp, hx, sub_eq_zero.1 h]) hne
      · exact h
    · exact absurd (sub_eq_zero.1 h).symm hne
  · exfalso
    linarith

/-- The end "the smallest step goes uphill" is at the bottom too. -/
theorem rise_near {E g : K → K} (hv : Valley E) {z : K} (hz : Lowest E z)
    (hg : SlopeTo g z) {tol : K} (ht : 0 ≤ tol) {s : St K} (hf : s.x.f = E s.x.x)
    (hsl : Slopes g s) (hab : s.a ≤ z ∧ z ≤ s.b) (hm : |(move tol s).1| < tol1 tol s)
    (hr : s.x.f < E (trial tol s)) : |s.x.x - z| ≤ tol1 tol s := by
  have hp := tol1_pos ht s
  have htr : trial tol s = s.x.x + copysign (tol1 tol s) (move tol s).1 := by
    unfold trial; rw [if_neg (not_le.2 hm)]
  rw [hf, htr] at hr
  -- the lowest point is not beyond the trial
  have hneg : (move tol s).1 < 0 → s.x.x - tol1 tol s ≤ z := by
    intro h
    have hc : copysign (tol1 tol s) (move tol s).1 = -tol1 tol s := by
      rcases copysign_cases (s := (move tol s).1) hp with ⟨e, -⟩ | ⟨-, h'⟩
      · exact e
      · exact absurd h (not_lt.2 h')
    rw [hc] at hr
    have := valley_left hv hz (show s.x.x + -tol1 tol s < s.x.x by linarith) hr.le
    linarith
  have hpos : 0 ≤ (move tol s).1 → z ≤ s.x.x + tol1 tol s := by
    intro h
    have hc : copysign (tol1 tol s) (move tol s).1 = tol1 tol s := by
      rcases copysign_cases (s := (move tol s).1) hp with ⟨-, h'⟩ | ⟨e, -⟩
      · exact absurd h (not_le.2 h')
      · exact e
    rw [hc] at hr
    exact valley_right hv hz (show s.x.x < s.x.x + tol1 tol s by linarith) hr.le
  have hside : (move tol s).1 = side s / 2 → |s.x.x - z| ≤ tol1 tol s := by
    intro e
    unfold side at e
    rw [hsl.1] at e
    split at e
    · next h =>
      have hzx := (hg s.x.x).1 h
      rcases lt_or_eq_of_le (show (move tol s).1 ≤ 0 by rw [e]; linarith [hab.1]) with h' | h'
      · have := hneg h'
        rw [abs_le]; constructor <;> linarith
      · have : s.a = s.x.x := by linarith
        have : s.x.x - z = 0 := by linarith [hab.1]
        rw [this, abs_zero]; exact hp.le
    · next h =>
      have hzx := (hg s.x.x).2 (not_le.1 h).le
      have := hpos (by rw [e]; linarith [hab.2])
      rw [abs_le]; constructor <;> linarith
  by_cases h1 : tol1 tol s < |s.e|
  · by_cases h2 : okStep s (secant s s.w) ∨ okStep s (secant s s.v)
    · by_cases h3 : |chosen s| ≤ |s.e / 2|
      · by_cases h4 : s.x.x + chosen s - s.a < 2 * tol1 tol s ∨
            s.b - (s.x.x + chosen s) < 2 * tol1 tol s
        · exfalso
          have e : (move tol s).1 = copysign (tol1 tol s) (mid s - s.x.x) := by
            unfold move; rw [if_pos h1, if_pos h2, if_pos h3, if_pos h4]
          rw [e] at hm
          rcases copysign_cases (s := mid s - s.x.x) hp with ⟨e', -⟩ | ⟨e', -⟩
          · rw [e', abs_neg, abs_of_pos hp] at hm; exact lt_irrefl _ hm
          · rw [e', abs_of_pos hp] at hm; exact lt_irrefl _ hm
        · exact hside (by unfold move; rw [if_pos h1, if_pos h2, if_pos h3, if_neg h4])
      · have e : (move tol s).1 = chosen s := by
          unfold move; rw [if_pos h1, if_pos h2, if_neg h3]
        obtain ⟨hin, hdn⟩ := chosen_ok h2
        rw [hsl.1] at hdn
        rcases lt_trichotomy (chosen s) 0 with h | h | h
        · have hz1 := hneg (by rw [e]; exact h)
          have hg0 : 0 ≤ g s.x.x := by
            by_contra hc
            exact absurd hdn (not_le.2 (mul_pos_of_neg_of_neg (not_le.1 hc) h))
          have := (hg s.x.x).1 hg0
          rw [abs_le]; constructor <;> linarith
        · have hab' : s.a < s.b := by
            rw [h, add_zero] at hin
            rcases mul_pos_iff.1 hin with ⟨h5, h6⟩ | ⟨h5, h6⟩
            · linarith [hab.1.trans hab.2]
            · linarith
          have hdf : s.x.df = 0 := by
            rcases chosen_eq s with hc | hc
            · exact secant_zero hsl.1 hsl.2.1 (hc ▸ h) hab'
            · exact secant_zero hsl.1 hsl.2.2 (hc ▸ h) hab'
          rw [hsl.1] at hdf
          have h7 := (hg s.x.x).1 hdf.ge
          have h8 := (hg s.x.x).2 hdf.le
          have : s.x.x - z = 0 := by linarith
          rw [this, abs_zero]; exact hp.le
        · have hz1 := hpos (by rw [e]; exact h.le)
          have hg0 : g s.x.x ≤ 0 := by
            by_contra hc
            exact absurd hdn (not_le.2 (mul_pos (not_le.1 hc) h))
          have := (hg s.x.x).2 hg0
          rw [abs_le]; constructor <;> linarith
    · exact hside (by unfold move; rw [if_pos h1, if_neg h2])
  · exact hside (by unfold move; rw [if_neg h1])

theorem search_near_all {E g : K → K} (hv : Valley E) {z : K} (hz : Lowest E z)
    (hg : SlopeTo g z) {tol : K} (ht : 0 ≤ tol) (n : Nat) : ∀ (s : St K) (log : List K),
    s.x.f = E s.x.x → Slopes g s → s.a ≤ z ∧ z ≤ s.b →
    let r := search (fun x => (E x, g x)) tol n s log
    r.how ≠ .spent → |r.x.x - z| ≤ 2 * (tol * |r.x.x| + 1 / 10 ^ 10) := by
  induction n with
  | zero => intro s log _ _ _ _ h; exact absurd rfl h
  | succ n ih =>
    intro s log h1 h3 h2
    unfold search
    simp only
    split
    · next hs => exact fun _ => small_near hs h2
    · split
      · next hr =>
        intro _
        have := rise_near hv hz hg ht h1 h3 h2 hr.1 hr.2
        have hp := tol1_pos ht s
        unfold tol1 at this hp
        simp only
        linarith
      · have hx := update_x (s := s) (e := (move tol s).2)
          (u := ev (fun x => (E x, g x)) (trial tol s))
        refine ih _ _ ?_ (update_slopes h3 rfl)
          (update_holds hv hz h1 rfl (trial_ne ht s) h2)
        rw [hx]; split
        · rfl
        · exact h1

/-- **The bottom of a valley, both endings.**  If moreover the slopes are right, including
the one the caller passes for the starting point, then every search that stops by itself is
within the tolerance of the lowest point. -/
theorem search_finds_all {E g : K → K} (hv : Valley E) {z : K} (hz : Lowest E z)
    (hg : SlopeTo g z) {x0 tol step : K} (ht : 0 ≤ tol) {itmax fuel : Nat} {r : Found K}
    {at_ : K} (hs : step ≠ 0)
    (h : minBrent (fun x => (E x, g x)) (E x0, g x0) x0 tol itmax step fuel = some (r, at_))
    (hk : r.how ≠ .spent) : |at_ - z| ≤ 2 * (tol * |at_| + 1 / 10 ^ 10) := by
  rw [(search_lowers_partial hs h hk).2.2]
  obtain ⟨t, log, i, hc, hr, -⟩ := minBrent_cases hs h
  have hgb : t.b.df = g t.b.x := by
    rcases i.gb with h' | ⟨h1, h2⟩
    · exact h'
    · rw [h2, h1]
  have := search_near_all hv hz hg ht itmax (init t) [] i.fb ⟨hgb, hgb, hgb⟩
    (init_holds hv hz i hc)
  rw [← hr] at this
  exact this hk

/-! ### Steepest descent -/

omit [LinearOrder K] [IsStrictOrderedRing K] in
theorem held_dot {n : Nat} (fixed : Fin n → Bool) (f d : Fin n → K) :
    dot (held fixed f) (held fixed d) = dot f (held fixed d) := by
  unfold dot held
  refine Finset.sum_congr rfl fun i _ => ?_
  by_cases h : fixed i <;> simp [h]

omit [LinearOrder K] [IsStrictOrderedRing K] in
theorem held_scaled {n : Nat} (fixed : Fin n → Bool) (f : Fin n → K) (c : K) :
    held fixed (scaled (held fixed f) c) = scaled (held fixed f) c := by
  funext i
  unfold held scaled
  by_cases h : fixed i <;> simp [h]

/-- **The slope passed for the start has the wrong sign.**  With the direction already of unit
length, the slope the steepest-descent and conjugate-gradient steps pass for their starting
point is minus the one the line mapper computes there. -/
theorem sd_slope_sign {n : Nat} (nrm : (Fin n → K) → K) (V : (Fin n → K) → K)
    (F : (Fin n → K) → Fin n → K) (fixed : Fin n → Bool) (own q : Fin n → K)
    (hown : ∀ i, fixed i = true → own i = q i)
    (hn : nrm (sdDir nrm fixed (F q)) = 1) :
    (sdStart V F q (sdDir nrm fixed (F q))).2
      = -(lineMap V F fixed own q (lineDir nrm fixed (sdDir nrm fixed (F q))) 0).2 := by
  have h1 : lineDir nrm fixed (sdDir nrm fixed (F q)) = sdDir nrm fixed (F q) := by
    unfold lineDir
    rw [show held fixed (sdDir nrm fixed (F q)) = sdDir nrm fixed (F q) from
      held_scaled _ _ _, hn]
    funext i; simp [scaled]
  have h2 : along fixed own q (sdDir nrm fixed (F q)) 0 = q := by
    funext i
    unfold along
    by_cases h : fixed i
    · simp [h, hown i h]
    · simp [h]
  simp only [sdStart, lineMap, h1, h2, neg_neg]
  conv_rhs => rw [show sdDir nrm fixed (F q) = held fixed (sdDir nrm fixed (F q)) from
    (held_scaled _ _ _).symm, held_dot]
  rw [show held fixed (sdDir nrm fixed (F q)) = sdDir nrm fixed (F q) from held_scaled _ _ _]

theorem along_zero {n : Nat} (fixed : Fin n → Bool) (own q d : Fin n → K)
    (hown : ∀ i, fixed i = true → own i = q i) : along fixed own q d 0 = q := by
  funext i
  unfold along
  by_cases h : fixed i
  · simp [h, hown i h]
  · simp [h]

/-- **Steepest descent goes down.**  For every potential, whatever its forces: when the line
search stops by itself the new positions have no more energy than the old ones, and held
coordinates have not moved. -/
theorem sd_lowers {n : Nat} (nrm : (Fin n → K) → K) (V : (Fin n → K) → K)
    (F : (Fin n → K) → Fin n → K) (fixed : Fin n → Bool) (own q : Fin n → K) (o : Ls K)
    (fuel : Nat) (step : K) (hs : step ≠ 0) (hown : ∀ i, fixed i = true → own i = q i)
    {q' : Fin n → K} {step' : K} (h : sdStep nrm V F fixed own o fuel q step = some (q', step')) :
    (∀ i, fixed i = true → q' i = q i) ∧
    (∃ r t, minBrent (lineMap V F fixed own q (lineDir nrm fixed (sdDir nrm fixed (F q))))
        (sdStart V F q (sdDir nrm fixed (F q))) 0 o.tol o.iter step fuel = some (r, t) ∧
      (r.how ≠ .spent → V q' ≤ V q)) := by
  unfold sdStep at h
  simp only at h
  split at h
  · exact absurd h (by simp)
  · next r t hb =>
    simp only [Option.some.injEq, Prod.mk.injEq] at h
    obtain ⟨rfl, -⟩ := h
    refine ⟨fun i hi => by simp [along, hi, hown i hi], r, t, hb, fun hk => ?_⟩
    have h0 : V q = V (along fixed own q (lineDir nrm fixed (sdDir nrm fixed (F q))) 0) := by
      rw [along_zero _ _ _ _ hown]
    have hb' := hb
    unfold sdStart at hb'
    rw [h0] at hb'
    have := (search_lowers_partial (E := fun t => V (along fixed own q
      (lineDir nrm fixed (sdDir nrm fixed (F q))) t)) (x0 := 0) hs hb' hk).1
    rw [← h0] at this
    exact this

/-- **A step of zero length is never recovered from.**  With the default `adaptive = 1`, once
a line search has not moved the atoms the initial step of the next ones is zero, and then no
later step moves them, whatever the forces are. -/
theorem sd_frozen {n : Nat} (nrm : (Fin n → K) → K) (h0 : nrm (fun _ => 0) = 0)
    (V : (Fin n → K) → K)
    (F : (Fin n → K) → Fin n → K) (fixed : Fin n → Bool) (own q : Fin n → K) (o : Ls K)
    (ht : 0 ≤ o.tol) (hi : o.iter ≠ 0) (ha : o.adaptive = 1)
    (fuel : Nat) (hown : ∀ i, fixed i = true → own i = q i) (k : Nat) :
    sdRun nrm V F fixed own o fuel k q 0 = some (q, 0) := by
  have hstep : sdStep nrm V F fixed own o fuel q 0 = some (q, 0) := by
    unfold sdStep
    simp only
    set d := lineDir nrm fixed (sdDir nrm fixed (F q))
    obtain ⟨m, hm⟩ := Nat.exists_eq_succ_of_ne_zero hi
    have key : ∀ (E g : K → K) (s0 : K),
        ∃ r, minBrent (fun x => (E x, g x)) (E 0, s0) 0 o.tol o.iter 0 fuel = some (r, 0) := by
      intro E g s0
      have hb : bracket (fun x => (E x, g x)) (E 0, s0) 0 0 fuel
          = some ((start (fun x => (E x, g x)) (E 0, s0) 0 0).1,
            (start (fun x => (E x, g x)) (E 0, s0) 0 0).2) := by
        unfold bracket
        cases fuel <;> simp [widen, start, order, ev]
      have hx : (start (fun x => (E x, g x)) (E 0, s0) 0 0).1
          = ⟨⟨0, E 0, s0⟩, ⟨0, E 0, g 0⟩, ⟨0, E 0, g 0⟩⟩ := by
        simp [start, order, ev]
      have hsm : small o.tol (init ⟨⟨0, E 0, s0⟩, ⟨0, E 0, g 0⟩, ⟨0, E 0, g 0⟩⟩) := by
        simp [small, init, mid, tol1]
      refine ⟨⟨.tol, ⟨0, E 0, g 0⟩, [0]⟩, ?_⟩
      unfold minBrent
      rw [hb, hx]
      simp only [hm, search]
      rw [if_pos hsm]
      rfl
    obtain ⟨r, hr⟩ := key (fun t => V (along fixed own q d t))
      (fun t => -dot (held fixed (F (along fixed own q d t))) d)
      (dot (F q) (sdDir nrm fixed (F q)))
    have h0' : V (along fixed own q d 0) = V q := by rw [along_zero _ _ _ _ hown]
    rw [h0'] at hr
    have hr' : minBrent (lineMap V F fixed own q d) (sdStart V F q (sdDir nrm fixed (F q))) 0
        o.tol o.iter 0 fuel = some (r, 0) := hr
    rw [hr']
    simp only [along_zero _ _ _ _ hown]
    simp [adapt, ha, h0]
  induction k with
  | zero => rfl
  | succ k ih => simp only [sdRun, hstep, Option.bind_some]; exact ih

/-- The conjugate-gradient direction is downhill when the previous line search was exact. -/
theorem cg_downhill {n : Nat} (g0 d0 g1 : Fin n → K) (hex : dot g1 d0 = 0) :
    dot g1 (cgDir g0 d0 g1) = dot g1 g1 := by
  have : dot g1 (cgDir g0 d0 g1) = dot g1 g1 + max 0 (cgBeta g0 g1) * dot g1 d0 := by
    unfold dot cgDir
    rw [Finset.mul_sum, ← Finset.sum_add_distrib]
    exact Finset.sum_congr rfl fun i _ => by ring
  rw [this, hex, mul_zero, add_zero]

/-- For a quadratic energy and exact line searches the next direction is conjugate to the last one:
`A d0` is the change of the forces divided by the step.  `hp` holds for the first direction and after
an exact line search. -/
theorem cg_conjugate {n : Nat} (A : (Fin n → K) → Fin n → K) (g0 d0 g1 : Fin n → K) (t : K)
    (ht : t ≠ 0) (hA : ∀ i, g1 i = g0 i - t * A d0 i) (hex : dot g1 d0 = 0)
    (hp : dot g0 d0 = dot g0 g0) (h0 : dot g0 g0 ≠ 0) (hb : 0 ≤ dot (fun i => g1 i - g0 i) g1 / dot g0 g0) :
    dot (cgDir g0 d0 g1) (A d0) = 0 := by
  have h1 : ∀ i, A d0 i = (g0 i - g1 i) / t := by
    intro i
    rw [hA i]
    field_simp
    ring
  have h2 : ∀ u : Fin n → K, dot u (A d0) = (dot u g0 - dot u g1) / t := by
    intro u
    unfold dot
    rw [← Finset.sum_sub_distrib, Finset.sum_div]
    refine Finset.sum_congr rfl fun i _ => ?_
    rw [h1 i]
    ring
  have h3 : ∀ u : Fin n → K, dot (cgDir g0 d0 g1) u = dot g1 u + max 0 (cgBeta g0 g1) * dot d0 u := by
    intro u
    unfold dot cgDir
    rw [Finset.mul_sum, ← Finset.sum_add_distrib]
    exact Finset.sum_congr rfl fun i _ => by ring
  have hc : ∀ u v : Fin n → K, dot u v = dot v u := fun u v =>
    Finset.sum_congr rfl fun i _ => mul_comm _ _
  have h4 : dot (fun i => g1 i - g0 i) g1 = dot g1 g1 - dot g1 g0 := by
    rw [hc g1 g0]
    unfold dot
    rw [← Finset.sum_sub_distrib]
    exact Finset.sum_congr rfl fun i _ => by ring
  rw [h2, h3, h3, hc d0 g0, hc d0 g1, hex, hp]
  unfold cgBeta
  rw [max_eq_right hb, h4]
  field_simp
  ring

example : ∃ (A : (Fin 2 → ℚ) → Fin 2 → ℚ) (g0 d0 g1 : Fin 2 → ℚ) (t : ℚ), t ≠ 0 ∧
    (∀ i, g1 i = g0 i - t * A d0 i) ∧ dot g1 d0 = 0 ∧ dot g0 d0 = dot g0 g0 ∧ dot g0 g0 ≠ 0 ∧
    0 < dot (fun i => g1 i - g0 i) g1 / dot g0 g0 ∧ g1 ≠ 0 := by
  refine ⟨fun d => ![d 0, 3 * d 1], ![1, 1], ![1, 1], ![1 / 2, -1 / 2], 1 / 2, by norm_num, ?_, ?_⟩
  · intro i
    fin_cases i <;> norm_num
  · simp [dot, Fin.sum_univ_two]
    norm_num

/-- The next initial step lies between the last one and a tenth of the distance moved. -/
theorem adapt_between (adaptive moved step : K) (h0 : 0 ≤ adaptive) (h1 : adaptive ≤ 1) :
    min (moved / 10) step ≤ adapt adaptive moved step ∧
      adapt adaptive moved step ≤ max (moved / 10) step := by
  have e : adapt adaptive moved step = adaptive * (moved / 10) + (1 - adaptive) * step := by
    unfold adapt; ring
  rw [e]
  have a := min_le_left (moved / 10) step
  have b := min_le_right (moved / 10) step
  have c := le_max_left (moved / 10) step
  have d := le_max_right (moved / 10) step
  have h2 : 0 ≤ 1 - adaptive := by linarith
  constructor
  · have := mul_le_mul_of_nonneg_left a h0
    have := mul_le_mul_of_nonneg_left b h2
    linarith
  · have := mul_le_mul_of_nonneg_left c h0
    have := mul_le_mul_of_nonneg_left d h2
    linarith

/-- The line search sees the energy along the line and its derivative, when the forces are minus the
gradient of the energy. -/
theorem lineMap_deriv {n : Nat} (V : (Fin n → ℝ) → ℝ) (F : (Fin n → ℝ) → Fin n → ℝ)
    (hF : ∀ x, HasFDerivAt V (-∑ i, F x i • ContinuousLinearMap.proj (R := ℝ) (φ := fun _ : Fin n => ℝ) i) x)
    (fixed : Fin n → Bool) (own x0 d : Fin n → ℝ) (t : ℝ) :
    HasDerivAt (fun t => (lineMap V F fixed own x0 d t).1) (lineMap V F fixed own x0 d t).2 t ∧
      ∀ i, fixed i = false → along fixed own x0 d t i = x0 i + t * d i := by
  refine ⟨?_, fun i hi => by simp [along, hi, mul_comm]⟩
  have h1 : HasDerivAt (fun t => along fixed own x0 d t) (fun i => if fixed i then 0 else d i) t := by
    rw [hasDerivAt_pi]
    intro i
    unfold along
    by_cases h : fixed i
    · simp only [h, if_true]
      exact hasDerivAt_const _ _
    · simp only [h, if_false, Bool.false_eq_true]
      simpa using ((hasDerivAt_id t).const_mul (d i)).const_add (x0 i)
  refine ((hF _).comp_hasDerivAt t h1).congr_deriv ?_
  simp only [lineMap, dot, held]
  simp only [neg_apply, sum_apply,
    smul_apply, ContinuousLinearMap.proj_apply, smul_eq_mul]
  congr 1
  refine Finset.sum_congr rfl fun i _ => ?_
  by_cases h : fixed i <;> simp [h]

example (x : Fin 2 → ℝ) : HasFDerivAt (fun x : Fin 2 → ℝ => -(x 0 - x 1)) (-∑ i, (![1, -1] : Fin 2 → ℝ) i
    • ContinuousLinearMap.proj (R := ℝ) (φ := fun _ : Fin 2 => ℝ) i) x := by
  have h0 := (ContinuousLinearMap.proj (R := ℝ) (φ := fun _ : Fin 2 => ℝ) 0).hasFDerivAt (x := x)
  have h1 := (ContinuousLinearMap.proj (R := ℝ) (φ := fun _ : Fin 2 => ℝ) 1).hasFDerivAt (x := x)
  have h := (h0.sub h1).neg
  refine h.congr_fderiv ?_
  rw [Fin.sum_univ_two]
  ext v
  simp [sub_eq_add_neg]

/-! ### Concrete cases -/

/-- An energy with its lowest point at `c`. -/
def bowl (c x : ℚ) : ℚ := (x - c) ^ 2

/-- Its slope. -/
def bowlSlope (c x : ℚ) : ℚ := 2 * (x - c)

theorem bowl_valley (c : ℚ) : Valley (bowl c) := by
  intro x y z hxy hyz
  unfold bowl
  rw [lt_max_iff]
  by_cases h : c < y
  · right; nlinarith
  · left; nlinarith

theorem bowl_lowest (c : ℚ) : Lowest (bowl c) c := by
  intro y; unfold bowl; nlinarith [sq_nonneg (y - c)]

theorem bowl_slope (c : ℚ) : SlopeTo (bowlSlope c) c := by
  intro y; unfold bowlSlope
  constructor <;> intro h <;> linarith

/-- The result of a search as a pair that can be compared. -/
def outcome (r : Option (Found ℚ × ℚ)) : Option (How × ℚ) := r.map fun p => (p.1.how, p.2)

/-- **Running out of passes ends uphill.**  Started at the lowest point of a bowl with one
pass allowed, the search leaves the atoms at its last trial, which is higher. -/
theorem search_spent_rises :
    ∃ t, outcome (minBrent (fun x => (bowl 0 x, bowlSlope 0 x)) (bowl 0 0, bowlSlope 0 0) 0
      (1 / 10 ^ 7) 1 (1 / 1000) 100) = some (.spent, t) ∧ bowl 0 0 < bowl 0 t :=
  ⟨-809017 / 1000000000, by decide +kernel, by unfold bowl; norm_num⟩

/-- The hypotheses of the theorems above are met: a search in a bowl which is within one
initial step of the start ends by itself, lower than it started. -/
example : outcome (minBrent (fun x => (bowl (4 / 10000) x, bowlSlope (4 / 10000) x))
    (bowl (4 / 10000) 0, bowlSlope (4 / 10000) 0) 0 (1 / 10 ^ 7) 100 (1 / 1000) 100)
    = some (.tol, 838861 / 2097152000) := by decide +kernel

example : |(838861 / 2097152000 : ℚ) - 4 / 10000|
    ≤ 2 * (1 / 10 ^ 7 * |838861 / 2097152000| + 1 / 10 ^ 10) := by
  norm_num [abs_le]

/-- The same search with the slope of the wrong sign still ends in the bowl, at another
point. -/
example : (outcome (minBrent (fun x => (bowl (4 / 10000) x, bowlSlope (4 / 10000) x))
    (bowl (4 / 10000) 0, -bowlSlope (4 / 10000) 0) 0 (1 / 10 ^ 7) 100 (1 / 1000) 100)).map
      (fun p => p.1) = some .tol := by decide +kernel

/-- A strictly falling energy exists, so `bracket_endless` is not empty. -/
example : StrictAnti (fun x : ℚ => -x) := fun _ _ h => neg_lt_neg h

/-- A bowl in two dimensions with the second coordinate held. -/
example : (sdStep (K := ℚ) (n := 2) (fun v => |v 0| + |v 1|) (fun q => (q 0 - 1) ^ 2 + q 1 ^ 2)
    (fun q i => if i = 0 then -2 * (q 0 - 1) else -2 * q 1) (fun i => i == 1) (fun _ => 3)
    ⟨1 / 10, 100, 1⟩ 100 (fun _ => 3) (1 / 10)).map (fun r => (r.1 1, decide ((r.1 0 - 1) ^ 2 < 4)))
    = some (3, true) := by decide +kernel

end Verif.LineMin
