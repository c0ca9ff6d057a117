/-
C87: the L-BFGS optimiser.  The two loops compute the BFGS direction from the stored steps;
the steps stored are the latest ones in order; on a strictly convex energy every direction is
downhill.  Outside that case the direction can turn uphill and stay so, and a line search that
ends on a small step stops the optimiser for good.
-/
import Verif.Props.C86_Bfgs

namespace Verif.QN

open Matrix

variable {ι : Type*} [Fintype ι]

/-- The inverse Hessian of the BFGS optimiser after the given steps, oldest first, started from
a multiple of the identity. -/
noncomputable def bfgsOf [DecidableEq ι] (hk : ℝ) (rows : List (Pair ι)) : Matrix ι ι ℝ :=
  rows.foldl (fun H p => bfgsUpdate H p.s p.y) (hk • (1 : Matrix ι ι ℝ))

/-- The two loops as one recursion over the rows, latest first. -/
noncomputable def recur (hk : ℝ) : List (Pair ι) → Vec ι → Vec ι
  | [], q => hk • q
  | p :: ps, q =>
    let a := 1 / (p.y ⬝ᵥ p.s) * (p.s ⬝ᵥ q)
    let r := recur hk ps (q - a • p.y)
    r + (a - 1 / (p.y ⬝ᵥ p.s) * (p.y ⬝ᵥ r)) • p.s

theorem loop1_length (l : List (Pair ι)) : ∀ q, (loop1 l q).2.length = l.length := by
  induction l with
  | nil => intro q; rfl
  | cons p ps ih => intro q; simp only [loop1, List.length_cons]; rw [ih]

theorem loop2_append (l₁ l₂ : List (Pair ι × ℝ)) : ∀ d,
    loop2 (l₁ ++ l₂) d = loop2 l₂ (loop2 l₁ d) := by
  induction l₁ with
  | nil => intro d; rfl
  | cons p ps ih => intro d; obtain ⟨p, a⟩ := p; simp only [List.cons_append, loop2]; rw [ih]

theorem twoLoop_recur (hk : ℝ) (l : List (Pair ι)) : ∀ g,
    twoLoop hk l.reverse g = recur hk l g := by
  induction l with
  | nil => intro g; rfl
  | cons p ps ih =>
    intro g
    have h := ih (g - (1 / (p.y ⬝ᵥ p.s) * (p.s ⬝ᵥ g)) • p.y)
    unfold twoLoop at h ⊢
    simp only [List.reverse_reverse] at h ⊢
    simp only [loop1, List.reverse_cons, recur]
    rw [List.zip_append (by simp [loop1_length]), loop2_append, h]
    rfl

/-- One update of the inverse Hessian, applied to a vector. -/
theorem bfgsUpdate_apply {H : Matrix ι ι ℝ} (h : PosDef H) {s y : Vec ι} (hc : 0 < y ⬝ᵥ s)
    (q : Vec ι) :
    bfgsUpdate H s y *ᵥ q
      = H *ᵥ (q - (1 / (y ⬝ᵥ s) * (s ⬝ᵥ q)) • y)
        + (1 / (y ⬝ᵥ s) * (s ⬝ᵥ q) - 1 / (y ⬝ᵥ s)
          * (y ⬝ᵥ (H *ᵥ (q - (1 / (y ⬝ᵥ s) * (s ⬝ᵥ q)) • y)))) • s := by
  have hg : y ≠ 0 := by rintro rfl; simp at hc
  have hp := h.2 y hg
  unfold bfgsUpdate
  simp only [add_mulVec, sub_mulVec, smul_mulVec, outer_mulVec, sub_dotProduct,
    smul_dotProduct, smul_eq_mul, mulVec_sub, mulVec_smul, dotProduct_sub, dotProduct_smul]
  rw [dotProduct_comm (H *ᵥ y) q, dot_symm h.1 q y]
  funext i
  simp only [Pi.add_apply, Pi.sub_apply, Pi.smul_apply, smul_eq_mul]
  field_simp
  ring

theorem bfgsOf_append [DecidableEq ι] (hk : ℝ) (l : List (Pair ι)) (p : Pair ι) :
    bfgsOf hk (l ++ [p]) = bfgsUpdate (bfgsOf hk l) p.s p.y := by
  unfold bfgsOf
  rw [List.foldl_append]
  rfl

theorem bfgsOf_posdef [DecidableEq ι] {hk : ℝ} (h : 0 < hk) (l : List (Pair ι)) :
    (∀ p ∈ l, 0 < p.y ⬝ᵥ p.s) → PosDef (bfgsOf hk l.reverse) := by
  induction l with
  | nil =>
    intro _
    refine ⟨isSymm_one.smul _, fun y hy => ?_⟩
    change 0 < y ⬝ᵥ ((hk • (1 : Matrix ι ι ℝ)) *ᵥ y)
    rw [smul_mulVec, one_mulVec, dotProduct_smul, smul_eq_mul]
    exact mul_pos h (dot_self_pos hy)
  | cons p ps ih =>
    intro hp
    rw [List.reverse_cons, bfgsOf_append]
    exact bfgs_posdef (ih fun a ha => hp a (List.mem_cons_of_mem _ ha))
      (hp p List.mem_cons_self)

/-- **The two loops are BFGS.**  For any number of stored steps of positive curvature they
apply to the gradient exactly the matrix the BFGS optimiser builds from those steps, started
from the scaling. -/
theorem twoLoop_bfgs [DecidableEq ι] {hk : ℝ} (h : 0 < hk) (rows : List (Pair ι)) (g : Vec ι)
    (hp : ∀ p ∈ rows, 0 < p.y ⬝ᵥ p.s) : twoLoop hk rows g = bfgsOf hk rows *ᵥ g := by
  have key : ∀ (l : List (Pair ι)) (g : Vec ι), (∀ p ∈ l, 0 < p.y ⬝ᵥ p.s) →
      recur hk l g = bfgsOf hk l.reverse *ᵥ g := by
    intro l
    induction l with
    | nil =>
      intro g _
      change hk • g = (hk • (1 : Matrix ι ι ℝ)) *ᵥ g
      rw [smul_mulVec, one_mulVec]
    | cons p ps ih =>
      intro g hp
      have hps : ∀ a ∈ ps, 0 < a.y ⬝ᵥ a.s := fun a ha => hp a (List.mem_cons_of_mem _ ha)
      rw [List.reverse_cons, bfgsOf_append,
        bfgsUpdate_apply (bfgsOf_posdef h ps hps) (hp p List.mem_cons_self)]
      simp only [recur]
      rw [ih _ hps]
  have h1 := twoLoop_recur hk rows.reverse g
  rw [List.reverse_reverse] at h1
  have h2 := key rows.reverse g (by simpa using hp)
  rw [List.reverse_reverse] at h2
  rw [h1, h2]

/-- The two loops reproduce the latest step: the latest change of gradient is mapped to the
latest change of position. -/
theorem twoLoop_secant {hk : ℝ} (h : 0 < hk) (rows : List (Pair ι)) (p : Pair ι)
    (hp : ∀ q ∈ rows ++ [p], 0 < q.y ⬝ᵥ q.s) : twoLoop hk (rows ++ [p]) p.y = p.s := by
  classical
  rw [twoLoop_bfgs h _ _ hp, bfgsOf_append]
  have := bfgsOf_posdef h rows.reverse (by simp at hp ⊢; exact fun a ha => hp a (.inl ha))
  rw [List.reverse_reverse] at this
  exact bfgs_secant this (hp p (by simp))

/-- The direction of the two loops is downhill when every stored curvature is positive. -/
theorem twoLoop_downhill {hk : ℝ} (h : 0 < hk) (rows : List (Pair ι))
    (hp : ∀ p ∈ rows, 0 < p.y ⬝ᵥ p.s) {g : Vec ι} (hg : g ≠ 0) :
    g ⬝ᵥ -(twoLoop hk rows g) < 0 := by
  classical
  rw [twoLoop_bfgs h _ _ hp, dotProduct_neg]
  have := bfgsOf_posdef h rows.reverse (by simpa using hp)
  rw [List.reverse_reverse] at this
  linarith [this.2 g hg]

/-- The scaling is positive, whichever of the three is chosen. -/
theorem scaling_pos (scale : Nat) {rows : List (Pair ι)} (hr : rows ≠ [])
    (hp : ∀ p ∈ rows, 0 < p.y ⬝ᵥ p.s) : 0 < scaling scale rows := by
  have key : ∀ p ∈ rows, 0 < (p.y ⬝ᵥ p.s) / (p.y ⬝ᵥ p.y) := by
    intro p h
    have h1 := hp p h
    have h2 : p.y ≠ 0 := by intro e; rw [e] at h1; simp at h1
    exact div_pos h1 (dot_self_pos h2)
  have h1 : ∀ o : Option (Pair ι), o ≠ none → (∀ p ∈ o, p ∈ rows) →
      0 < (match o with
        | some p => (p.y ⬝ᵥ p.s) / (p.y ⬝ᵥ p.y)
        | none => (0 : ℝ)) := by
    intro o ho hm
    cases o with
    | none => exact absurd rfl ho
    | some p => exact key p (hm p rfl)
  unfold scaling
  split
  · exact one_pos
  · exact h1 _ (by simpa using hr) fun p h => List.mem_of_head? h
  · exact h1 _ (by simpa using hr) fun p h => List.mem_of_getLast? h

/-! ### The stored steps -/

/-- The last `m` of a list. -/
def latest {α : Type*} (m : Nat) (l : List α) : List α := l.drop (l.length - m)

theorem used_eq {m : Nat} (hm : 0 < m) (k : Nat) : used m k = min (k + 1) m := by
  unfold used
  split <;> omega

omit [Fintype ι] in
/-- **What is stored.**  After any history of steps the rows in use are the latest `m` of them,
in order. -/
theorem store_latest {m : Nat} (hm : 0 < m) {rows hist : List (Pair ι)} (p : Pair ι)
    (hl : rows.length = m) (hr : rows.take (min hist.length m) = latest m hist) :
    (store m hist.length rows p).length = m ∧
    (store m hist.length rows p).take (used m hist.length) = latest m (hist ++ [p]) := by
  rw [used_eq hm]
  unfold store
  split
  · next h =>
    refine ⟨by simpa using hl, ?_⟩
    have e1 : min (hist.length + 1) m = hist.length + 1 := by omega
    have e2 : min hist.length m = hist.length := by omega
    rw [e2] at hr
    unfold latest at hr ⊢
    rw [show hist.length - m = 0 by omega, List.drop_zero] at hr
    rw [e1, List.length_append, List.length_singleton,
      show hist.length + 1 - m = 0 by omega, List.drop_zero]
    rw [List.take_succ_eq_append_getElem (by simpa [hl] using h)]
    rw [List.getElem_set_self, List.take_set_of_le (le_refl _), hr]
  · next h =>
    have hle : m ≤ hist.length := not_lt.1 h
    have e2 : min hist.length m = m := by omega
    rw [e2] at hr
    rw [List.take_of_length_le (le_of_eq hl)] at hr
    have hlen : (rows.tail ++ rows.take 1).length = m := by
      simp only [List.length_append, List.length_tail, List.length_take]; omega
    refine ⟨by simpa using hlen, ?_⟩
    rw [show min (hist.length + 1) m = m by omega,
      List.take_of_length_le (by rw [List.length_set, hlen])]
    have h1 : rows.take 1 = [rows[0]'(by omega)] := by
      cases rows with
      | nil => simp at hl; omega
      | cons a t => simp
    rw [h1, List.set_append_right _ _ (by simp; omega)]
    have h2 : m - 1 - rows.tail.length = 0 := by simp; omega
    rw [h2, List.set_cons_zero, hr]
    unfold latest
    rw [List.tail_drop, List.length_append, List.length_singleton,
      show hist.length + 1 - m = hist.length - m + 1 by omega]
    rw [List.drop_append_of_le_length (by omega)]

/-! ### Convex energies -/

/-- The gradient turns with the position, everywhere, by more than the guard asks for: a
strictly convex energy that is not too stiff in one direction compared with another. -/
def Convex (fdf : Vec ι → ℝ × Vec ι) : Prop :=
  ∀ a b, a ≠ b → curved (1 / 10 ^ 10) (b - a) ((fdf b).2 - (fdf a).2)

/-- What holds before step number `hist.length`, `hist` being all steps so far. -/
structure Good (fdf : Vec ι → ℝ × Vec ι) (m : Nat) (hist : List (Pair ι)) (s : Lbfgs ι) :
    Prop where
  len : s.rows.length = m
  rows : s.rows.take (min hist.length m) = latest m hist
  curv : ∀ p ∈ hist, 0 < p.y ⬝ᵥ p.s
  down : (fdf s.q).2 ≠ 0 → (fdf s.q).2 ⬝ᵥ s.d < 0

theorem mem_latest {α : Type*} {m : Nat} {l : List α} {a : α} (h : a ∈ latest m l) : a ∈ l :=
  List.mem_of_mem_drop h

/-- The direction made by a step is downhill, if the steps in use all had positive
curvature. -/
theorem lbfgsNew_downhill {scale : Nat} {rows : List (Pair ι)} {dx dg g : Vec ι}
    (hr : rows ≠ []) (hp : ∀ p ∈ rows, 0 < p.y ⬝ᵥ p.s) (hc : curved (1 / 10 ^ 10) dx dg)
    (hg : g ≠ 0) : g ⬝ᵥ lbfgsNew scale rows dx dg g < 0 := by
  unfold lbfgsNew
  rw [if_pos hc]
  exact twoLoop_downhill (scaling_pos scale hr hp) rows hp hg

theorem lbfgsStep_good {fdf : Vec ι → ℝ × Vec ι} {big tol : ℝ} {itmax m scale : Nat}
    {hist : List (Pair ι)} {s s' : Lbfgs ι} {r : Line ι} (hm : 0 < m) (hcv : Convex fdf)
    (h : Good fdf m hist s) (hg : (fdf s.q).2 ≠ 0)
    (hn : 0 < bigStep big s.q)
    (hs : lbfgsStep fdf big tol itmax m scale hist.length s = some (r, s'))
    (hw : r.why ≠ .position) :
    Good fdf m (hist ++ [⟨s'.q - s.q, (fdf s'.q).2 - (fdf s.q).2⟩]) s' ∧
      (r.why = .decrease → (fdf s'.q).1 < (fdf s.q).1) := by
  have hd := h.down hg
  have hnot : ¬ 0 < (fdf s.q).2 ⬝ᵥ s.d := not_lt.2 hd.le
  unfold lbfgsStep at hs
  rw [Option.map_eq_some_iff] at hs
  obtain ⟨l, hl, e⟩ := hs
  simp only [Prod.mk.injEq] at e
  obtain ⟨rfl, rfl⟩ := e
  have ok := minApprox_spec hl
  have hdir : lbfgsDir (fdf s.q).2 s.d = s.d := by unfold lbfgsDir; rw [if_neg hnot]
  rw [hdir] at ok
  have hx : l.x = l.at_ := by
    cases hy : l.why with
    | position => exact absurd hy hw
    | decrease => exact (ok.decrease hy).1
    | spent => exact ok.spent hy
  obtain ⟨-, c, hc0, -, ec⟩ := limit_spec hn s.d
  have hne : s.q ≠ l.at_ := by
    rw [ok.at_eq, ec, smul_smul]
    intro e
    have h0 : (l.lam * c) • s.d = 0 := by simpa using e
    rcases smul_eq_zero.1 h0 with h1 | h1
    · exact absurd h1 (mul_pos ok.pos hc0).ne'
    · rw [h1] at hd; simp at hd
  have hcur := hcv _ _ hne
  have hst := store_latest hm ⟨l.at_ - s.q, (fdf l.at_).2 - (fdf s.q).2⟩ h.len h.rows
  have hcurv : ∀ p ∈ hist ++ [(⟨l.at_ - s.q, (fdf l.at_).2 - (fdf s.q).2⟩ : Pair ι)],
      0 < p.y ⬝ᵥ p.s := by
    intro p hp
    rcases List.mem_append.1 hp with hp | hp
    · exact h.curv p hp
    · rw [List.mem_singleton.1 hp]; exact curved_pos hcur
  simp only
  rw [hx, ok.g_eq, if_neg hnot]
  refine ⟨⟨hst.1, ?_, hcurv, fun hne' => ?_⟩, fun hdec => ?_⟩
  · have := hst.2
    rw [used_eq hm] at this
    simpa using this
  · rw [hst.2]
    refine lbfgsNew_downhill ?_ (fun p hp => hcurv p (mem_latest hp)) hcur hne'
    unfold latest
    intro e
    have := congrArg List.length e
    simp at this
    omega
  · obtain ⟨-, h2⟩ := ok.decrease hdec
    rw [ok.f_eq, ec, dotProduct_smul] at h2
    change _ ≤ _ + 1 / 10000 * l.lam * (c * ((fdf s.q).2 ⬝ᵥ s.d)) at h2
    have h4 : l.lam * (c * ((fdf s.q).2 ⬝ᵥ s.d)) < 0 :=
      mul_neg_of_pos_of_neg ok.pos (mul_neg_of_pos_of_neg hc0 hd)
    linarith

/-- The run from one step to the next, with the state before each step. -/
inductive Path (fdf : Vec ι → ℝ × Vec ι) (big tol : ℝ) (itmax m scale : Nat) :
    Nat → Lbfgs ι → Lbfgs ι → Prop
  | none (k : Nat) (s : Lbfgs ι) : Path fdf big tol itmax m scale k s s
  | step {k : Nat} {s t u : Lbfgs ι} {r : Line ι}
      (h : lbfgsStep fdf big tol itmax m scale k s = some (r, t))
      (moved : r.why ≠ .position) (unfinished : (fdf s.q).2 ≠ 0)
      (rest : Path fdf big tol itmax m scale (k + 1) t u) : Path fdf big tol itmax m scale k s u

/-- **Every L-BFGS direction is downhill on a convex energy.**  For every convex energy, every
start, every number of corrections and any number of steps none of whose line searches ended on
a small step: the direction of the next search is downhill.  Missing for the full property: the
other energies and the ending on a small step, see `lbfgs_turns_uphill` and `lbfgs_frozen`. -/
theorem lbfgs_downhill_partial {fdf : Vec ι → ℝ × Vec ι} {big tol : ℝ} {itmax m scale : Nat}
    (hm : 0 < m) (hb : 0 < big) (hcv : Convex fdf) [Nonempty ι] {q : Vec ι} {s : Lbfgs ι}
    (h : Path fdf big tol itmax m scale 0 (lbfgsInit fdf m q) s)
    (hg : (fdf s.q).2 ≠ 0) : (fdf s.q).2 ⬝ᵥ s.d < 0 := by
  have hbig : ∀ x : Vec ι, 0 < bigStep big x := by
    intro x
    unfold bigStep
    exact mul_pos hb (lt_of_lt_of_le (by exact_mod_cast Fintype.card_pos) (le_max_right _ _))
  have key : ∀ (k : Nat) (a b : Lbfgs ι), Path fdf big tol itmax m scale k a b →
      ∀ hist : List (Pair ι), hist.length = k → Good fdf m hist a → ∃ hist', Good fdf m hist' b := by
    intro k a b hab
    induction hab with
    | none k a => exact fun hist _ hg => ⟨hist, hg⟩
    | step h1 h2 h3 _ ih =>
      intro hist hk hgood
      subst hk
      obtain ⟨g1, -⟩ := lbfgsStep_good hm hcv hgood h3 (hbig _) h1 h2
      exact ih _ (by simp) g1
  obtain ⟨hist, hgood⟩ := key _ _ _ h [] rfl ⟨by simp [lbfgsInit], by simp [latest], by simp,
    fun h => firstDir_down h⟩
  exact hgood.down hg

/-! ### What goes wrong -/

/-- **The uphill guard keeps going uphill.**  When the direction is uphill it is replaced by
the direction of the gradient, which is the steepest one uphill; and the direction kept for the
next step is the old one. -/
theorem lbfgs_reset_uphill {fdf : Vec ι → ℝ × Vec ι} {big tol : ℝ} {itmax m scale k : Nat}
    {s s' : Lbfgs ι} {r : Line ι} (h : 0 < (fdf s.q).2 ⬝ᵥ s.d)
    (hs : lbfgsStep fdf big tol itmax m scale k s = some (r, s')) :
    (fdf s.q).2 ⬝ᵥ lbfgsDir (fdf s.q).2 s.d = norm (fdf s.q).2 ∧
      0 < norm (fdf s.q).2 ∧ s'.d = s.d := by
  have hne : (fdf s.q).2 ≠ 0 := by intro e; rw [e] at h; simp at h
  have hp := norm_pos' hne
  refine ⟨?_, hp, ?_⟩
  · unfold lbfgsDir
    rw [if_pos h, dotProduct_smul, smul_eq_mul, ← norm_sq]
    rw [Real.sqrt_sq hp.le]
    field_simp
  · unfold lbfgsStep at hs
    rw [Option.map_eq_some_iff] at hs
    obtain ⟨l, -, e⟩ := hs
    simp only [Prod.mk.injEq] at e
    rw [← e.2]
    simp only
    rw [if_pos h]

theorem limit_zero {big : ℝ} (hb : 0 < big) : limit big (0 : Vec ι) = 0 := by
  obtain ⟨-, c, -, -, e⟩ := limit_spec hb (0 : Vec ι)
  rw [e, smul_zero]

/-- A line search ending on a small step makes the next direction zero. -/
theorem lbfgs_small_zero {fdf : Vec ι → ℝ × Vec ι} {big tol : ℝ} {itmax m scale k : Nat}
    {s s' : Lbfgs ι} {r : Line ι} (hd : ¬ 0 < (fdf s.q).2 ⬝ᵥ s.d)
    (hs : lbfgsStep fdf big tol itmax m scale k s = some (r, s')) (hw : r.why = .position) :
    s'.d = 0 := by
  unfold lbfgsStep at hs
  rw [Option.map_eq_some_iff] at hs
  obtain ⟨l, hl, e⟩ := hs
  simp only [Prod.mk.injEq] at e
  obtain ⟨rfl, rfl⟩ := e
  have ok := minApprox_spec hl
  simp only
  rw [if_neg hd, (ok.position hw).1, sub_self]
  unfold lbfgsNew
  rw [if_neg, neg_zero]
  intro hc
  have := curved_pos hc
  simp at this

/-- **A zero direction is for ever.**  From then on, whatever the forces, no step moves the
atoms. -/
theorem lbfgs_frozen {fdf : Vec ι → ℝ × Vec ι} {big tol : ℝ} {itmax m scale : Nat}
    (hb : ∀ x : Vec ι, 0 < bigStep big x) (n : Nat) :
    ∀ (k : Nat) {s s' : Lbfgs ι}, s.d = 0 →
      lbfgsRun fdf big tol itmax m scale k n s = some s' → s'.q = s.q ∧ s'.d = 0 := by
  induction n with
  | zero =>
    intro k s s' hd h
    simp only [lbfgsRun, Option.some.injEq] at h
    exact h ▸ ⟨rfl, hd⟩
  | succ n ih =>
    intro k s s' hd h
    simp only [lbfgsRun, Option.bind_eq_some_iff] at h
    obtain ⟨⟨r, t⟩, h1, h2⟩ := h
    have hnot : ¬ 0 < (fdf s.q).2 ⬝ᵥ s.d := by rw [hd]; simp
    have ht : t.q = s.q ∧ t.d = 0 := by
      unfold lbfgsStep at h1
      rw [Option.map_eq_some_iff] at h1
      obtain ⟨l, hl, e⟩ := h1
      simp only [Prod.mk.injEq] at e
      obtain ⟨rfl, rfl⟩ := e
      have ok := minApprox_spec hl
      have hdir : lbfgsDir (fdf s.q).2 s.d = 0 := by unfold lbfgsDir; rw [if_neg hnot, hd]
      rw [hdir, limit_zero (hb _)] at ok
      have hat : l.at_ = s.q := by rw [ok.at_eq, smul_zero, add_zero]
      have hx : l.x = s.q := by
        cases hy : l.why with
        | position => exact (ok.position hy).1
        | decrease => rw [(ok.decrease hy).1, hat]
        | spent => rw [ok.spent hy, hat]
      refine ⟨hat, ?_⟩
      simp only
      rw [if_neg hnot, hx, sub_self]
      unfold lbfgsNew
      rw [if_neg, neg_zero]
      intro hc
      have := curved_pos hc
      simp at this
    obtain ⟨i1, i2⟩ := ih (k + 1) ht.2 h2
    exact ⟨i1.trans ht.1, i2⟩

/-- The energy `-x²` of one coordinate. -/
def hill (x : Vec (Fin 1)) : ℝ × Vec (Fin 1) := (-x 0 ^ 2, fun _ => -(2 * x 0))

/-- **A downhill L-BFGS direction can turn uphill.**  In a concave region the step goes down
and the next direction points back where it came from, uphill. -/
theorem lbfgs_turns_uphill :
    ∃ (s s' : Lbfgs (Fin 1)) (r : Line (Fin 1)),
      lbfgsStep hill 1 (1 / 10 ^ 6) 100 5 2 0 s = some (r, s') ∧
      (hill s.q).2 ⬝ᵥ s.d < 0 ∧ (hill s'.q).1 < (hill s.q).1 ∧ 0 < (hill s'.q).2 ⬝ᵥ s'.d := by
  let s : Lbfgs (Fin 1) := ⟨fun _ => 1, fun _ => 1, List.replicate 5 ⟨0, 0⟩⟩
  have hdown : (hill s.q).2 ⬝ᵥ s.d = -2 := by rw [dot_one]; simp [hill, s]
  have hnot : ¬ 0 < (hill s.q).2 ⬝ᵥ s.d := by rw [hdown]; norm_num
  have hdir : lbfgsDir (hill s.q).2 s.d = s.d := by unfold lbfgsDir; rw [if_neg hnot]
  have hnd : norm s.d = 1 := by unfold norm; rw [dot_one]; simp [s]
  have hlim : limit (bigStep 1 s.q) s.d = s.d := by
    unfold limit
    rw [if_neg]
    rw [hnd, not_lt]
    unfold bigStep
    rw [Fintype.card_fin]
    refine le_trans ?_ (le_of_eq (one_mul _).symm)
    exact le_trans (by norm_num) (le_max_right _ _)
  have hrel : relSize s.q s.d = 1 := by
    unfold relSize amax
    have : (fun i : Fin 1 => |s.d i| / max |s.q i| 1) = fun _ => (1 : ℝ) := by
      funext i; simp [s]
    rw [this, ciSup_const]
  let r : Line (Fin 1) := ⟨.decrease, s.q + (1 : ℝ) • s.d, (hill (s.q + (1 : ℝ) • s.d)).1,
    (hill (s.q + (1 : ℝ) • s.d)).2, 1, s.q + (1 : ℝ) • s.d⟩
  have hmin : minApprox hill s.q (hill s.q).1 (hill s.q).2 (lbfgsDir (hill s.q).2 s.d)
      (bigStep 1 s.q) (1 / 10 ^ 6) 100 = some r := by
    rw [hdir]
    unfold minApprox
    simp only
    rw [if_neg (by norm_num), hlim, hrel, hdown, show 100 - 1 = 98 + 1 from rfl]
    unfold approxLoop
    simp only
    rw [if_neg (by norm_num), if_pos]
    simp only [hill, s, Pi.add_apply, Pi.smul_apply, smul_eq_mul]
    norm_num
  refine ⟨s, _, r, by unfold lbfgsStep; simp only; rw [hmin]; rfl, by rw [hdown]; norm_num, ?_, ?_⟩
  · simp only [r, hill, s, Pi.add_apply, Pi.smul_apply, smul_eq_mul]
    norm_num
  · simp only
    rw [if_neg hnot]
    unfold lbfgsNew
    rw [if_neg]
    · rw [dot_one]
      simp only [r, hill, s, Pi.add_apply, Pi.smul_apply, smul_eq_mul, Pi.neg_apply,
        Pi.sub_apply]
      norm_num
    · intro hc
      have := curved_pos hc
      rw [dot_one] at this
      simp only [r, hill, s, Pi.add_apply, Pi.smul_apply, smul_eq_mul, Pi.sub_apply] at this
      norm_num at this

/-! ### Concrete cases -/

/-- The parabola is convex in the sense asked for. -/
example : Convex parabola := by
  intro a b hab
  have h : b 0 - a 0 ≠ 0 := by
    intro e
    apply hab
    funext i
    rw [Subsingleton.elim i 0]
    linarith
  unfold curved
  rw [dot_one, dot_one, dot_one]
  simp only [parabola, Pi.sub_apply]
  rw [Real.sqrt_lt' (by have := mul_self_pos.2 h; nlinarith)]
  have := mul_self_pos.2 h
  have h2 : 0 < ((b 0 - a 0) * (b 0 - a 0)) ^ 2 := by positivity
  nlinarith

/-- Rows of positive curvature. -/
example : ∀ p ∈ [(⟨![1, 0], ![2, 1]⟩ : Pair (Fin 2)), ⟨![0, 1], ![-1, 3]⟩], 0 < p.y ⬝ᵥ p.s := by
  intro p hp
  simp only [List.mem_cons, List.not_mem_nil, or_false] at hp
  rcases hp with rfl | rfl <;> norm_num [dotProduct, Fin.sum_univ_two]

end Verif.QN
