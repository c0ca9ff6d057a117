import Verif.Depend.Transfer
import Mathlib.Data.Nat.Init

/-
C140: forces copied from another force object are the forces of the current positions and cell, and stay so whatever happens later.
-/
namespace Verif.Transfer
variable {Q Qc H P W : Type}

/-- Reachable states: what is not marked as stale is right, and results of stale positions are stale. -/
structure Inv (S : Sys Q Qc H P W) (s : St Q Qc H P W) : Prop where
  stale : ∀ k, (s.comp k).cqT = true → ∀ b, (s.comp k).ufT b = true
  pos : ∀ k, (s.comp k).cqT = false → (s.comp k).cq = S.C k s.q
  res : ∀ k b, (s.comp k).ufT b = false → (s.comp k).uf b = some (S.F k b (S.C k s.q) s.h)

/-- A new object, nothing computed yet. -/
theorem inv_new (S : Sys Q Qc H P W) (q : Q) (h : H) (c : ℕ → Qc) :
    Inv S ⟨q, h, fun k => ⟨c k, true, fun _ => none, fun _ => true⟩⟩ :=
  ⟨fun _ _ _ => rfl, fun _ h => (nomatch h), fun _ _ h => (nomatch h)⟩

theorem inv_setQ (S : Sys Q Qc H P W) (s : St Q Qc H P W) (hs : Inv S s) (q : Q) : Inv S (setQ s q) := by
  have key : ∀ k, ((setQ s q).comp k).cqT = true ∧ ∀ b, ((setQ s q).comp k).ufT b = true := by
    intro k
    unfold setQ; dsimp only
    split
    · rename_i h; exact ⟨h, hs.stale k h⟩
    · exact ⟨rfl, fun _ => rfl⟩
  exact ⟨fun k _ => (key k).2, fun k h => by rw [(key k).1] at h; exact (nomatch h),
    fun k b h => by rw [(key k).2 b] at h; exact (nomatch h)⟩

theorem inv_setH (S : Sys Q Qc H P W) (s : St Q Qc H P W) (hs : Inv S s) (h : H) : Inv S (setH s h) :=
  ⟨fun _ _ _ => rfl, fun k hk => hs.pos k hk, fun _ _ hb => (nomatch hb)⟩

theorem readCq_same (S : Sys Q Qc H P W) (k : ℕ) (s : St Q Qc H P W) : (readCq S k s).q = s.q ∧ (readCq S k s).h = s.h := by
  unfold readCq; split <;> exact ⟨rfl, rfl⟩

theorem readCq_fresh (S : Sys Q Qc H P W) (k : ℕ) (s : St Q Qc H P W) : ((readCq S k s).comp k).cqT = false := by
  unfold readCq; split
  · simp
  · rename_i h; simpa using h

theorem inv_readCq (S : Sys Q Qc H P W) (k : ℕ) (s : St Q Qc H P W) (hs : Inv S s) : Inv S (readCq S k s) := by
  unfold readCq
  split
  · constructor
    · intro j hj b
      by_cases h : j = k
      · subst h; simp at hj
      · simp [Function.update_of_ne h] at hj ⊢; exact hs.stale j hj b
    · intro j hj
      by_cases h : j = k
      · subst h; simp
      · simp [Function.update_of_ne h] at hj ⊢; exact hs.pos j hj
    · intro j b hj
      by_cases h : j = k
      · subst h; simp [taintU] at hj
      · simp [Function.update_of_ne h] at hj ⊢; exact hs.res j b hj
  · exact hs

/-- Reading keeps the invariant, and what is read is the result for the current positions and cell. -/
theorem readU_spec (S : Sys Q Qc H P W) (k b : ℕ) (s : St Q Qc H P W) (hs : Inv S s) :
    Inv S (readU S k b s).1 ∧ (readU S k b s).2 = some (S.F k b (S.C k s.q) s.h) ∧
    (readU S k b s).1.q = s.q ∧ (readU S k b s).1.h = s.h := by
  unfold readU
  by_cases hb : (s.comp k).ufT b = true
  · rw [if_pos hb]
    have h1 := inv_readCq S k s hs
    have hf := readCq_fresh S k s
    obtain ⟨hq, hh⟩ := readCq_same S k s
    have hcq := h1.pos k hf
    generalize readCq S k s = s1 at h1 hf hq hh hcq
    dsimp only
    rw [hcq, hq, hh]
    refine ⟨⟨?_, ?_, ?_⟩, rfl, rfl, rfl⟩
    · intro j hj c
      by_cases h : j = k
      · subst h; simp only [Function.update_self] at hj; rw [hj] at hf; exact (nomatch hf)
      · simp [Function.update_of_ne h] at hj ⊢; exact h1.stale j hj c
    · intro j hj
      by_cases h : j = k
      · subst h; simp only [Function.update_self] at hj ⊢
      · simp only [Function.update_of_ne h] at hj ⊢; rw [h1.pos j hj, hq]
    · intro j c hj
      by_cases h : j = k
      · subst h
        simp only [Function.update_self] at hj ⊢
        by_cases hc : c = b
        · subst hc; simp
        · simp only [Function.update_of_ne hc] at hj ⊢; rw [h1.res j c hj, hq, hh]
      · simp only [Function.update_of_ne h] at hj ⊢; rw [h1.res j c hj, hq, hh]
  · rw [if_neg hb]
    exact ⟨hs, hs.res k b (by simpa using hb), rfl, rfl⟩

/-- Reading marks the result as up to date and leaves the results of others so. -/
theorem readU_fresh (S : Sys Q Qc H P W) (k b : ℕ) (s : St Q Qc H P W) (hs : Inv S s) :
    ((readU S k b s).1.comp k).ufT b = false ∧
    ∀ j c, (s.comp j).ufT c = false → ((readU S k b s).1.comp j).ufT c = false := by
  unfold readU
  by_cases hb : (s.comp k).ufT b = true
  · rw [if_pos hb]
    dsimp only
    refine ⟨by simp, ?_⟩
    intro j c hc
    by_cases h : j = k
    · subst h
      have hq : (s.comp j).cqT = false := by
        cases hx : (s.comp j).cqT
        · rfl
        · rw [hs.stale j hx c] at hc; exact (nomatch hc)
      have e : readCq S j s = s := by unfold readCq; rw [if_neg (by rw [hq]; decide)]
      rw [e]
      simp only [Function.update_self]
      by_cases hcb : c = b
      · subst hcb; simp
      · simp [Function.update_of_ne hcb, hc]
    · simp only [Function.update_of_ne h]
      unfold readCq
      split
      · simp [Function.update_of_ne h, hc]
      · exact hc
  · rw [if_neg hb]
    exact ⟨by simpa using hb, fun _ _ h => h⟩

theorem readComp_spec (S : Sys Q Qc H P W) (k : ℕ) (s : St Q Qc H P W) (hs : Inv S s) (m : ℕ) :
    Inv S (readComp S k m s) ∧ (readComp S k m s).q = s.q ∧ (readComp S k m s).h = s.h ∧
    (∀ b < m, ((readComp S k m s).comp k).ufT b = false) ∧
    ∀ j c, (s.comp j).ufT c = false → ((readComp S k m s).comp j).ufT c = false := by
  induction m with
  | zero => exact ⟨hs, rfl, rfl, fun b hb => absurd hb (Nat.not_lt_zero b), fun _ _ h => h⟩
  | succ m ih =>
    obtain ⟨i1, i2, i3, i4, i5⟩ := ih
    obtain ⟨r1, _, r3, r4⟩ := readU_spec S k m _ i1
    obtain ⟨f1, f2⟩ := readU_fresh S k m _ i1
    refine ⟨r1, r3.trans i2, r4.trans i3, ?_, fun j c h => f2 j c (i5 j c h)⟩
    intro b hb
    rcases Nat.lt_succ_iff_lt_or_eq.1 hb with h | h
    · exact f2 k b (i4 b h)
    · subst h; exact f1

/-- Reading the totals evaluates every component whose weight is not zero. -/
theorem readTotal_spec (S : Sys Q Qc H P W) (s : St Q Qc H P W) (hs : Inv S s) (m : ℕ) :
    Inv S (readTotal S m s) ∧ (readTotal S m s).q = s.q ∧ (readTotal S m s).h = s.h ∧
    ∀ k < m, S.zeroWeight k = false → ∀ b < S.nb k, ((readTotal S m s).comp k).ufT b = false := by
  induction m with
  | zero => exact ⟨hs, rfl, rfl, fun k hk => absurd hk (Nat.not_lt_zero k)⟩
  | succ m ih =>
    obtain ⟨i1, i2, i3, i4⟩ := ih
    unfold readTotal
    split
    · rename_i hz
      refine ⟨i1, i2, i3, ?_⟩
      intro k hk hw
      rcases Nat.lt_succ_iff_lt_or_eq.1 hk with h | h
      · exact i4 k h hw
      · subst h; rw [hw] at hz; exact (nomatch hz)
    · obtain ⟨r1, r2, r3, r4, r5⟩ := readComp_spec S m _ i1 (S.nb m)
      refine ⟨r1, r2.trans i2, r3.trans i3, ?_⟩
      intro k hk hw b hb
      rcases Nat.lt_succ_iff_lt_or_eq.1 hk with h | h
      · exact r5 k b (i4 k h hw b hb)
      · subst h; exact r4 b hb

theorem readAllCq_spec (S : Sys Q Qc H P W) (s : St Q Qc H P W) (hs : Inv S s) (m : ℕ) :
    Inv S (readAllCq S m s) ∧ (readAllCq S m s).q = s.q ∧ (readAllCq S m s).h = s.h ∧
    (∀ k < m, ((readAllCq S m s).comp k).cqT = false) ∧
    ∀ j c, (s.comp j).ufT c = false → ((readAllCq S m s).comp j).ufT c = false := by
  induction m with
  | zero => exact ⟨hs, rfl, rfl, fun b hb => absurd hb (Nat.not_lt_zero b), fun _ _ h => h⟩
  | succ m ih =>
    obtain ⟨i1, i2, i3, i4, i5⟩ := ih
    obtain ⟨hq, hh⟩ := readCq_same S m (readAllCq S m s)
    refine ⟨inv_readCq S m _ i1, hq.trans i2, hh.trans i3, ?_, ?_⟩
    · intro k hk
      show ((readCq S m (readAllCq S m s)).comp k).cqT = false
      rcases Nat.lt_succ_iff_lt_or_eq.1 hk with h | h
      · unfold readCq; split
        · simp [Function.update_of_ne (Nat.ne_of_lt h), i4 k h]
        · exact i4 k h
      · subst h; exact readCq_fresh S k _
    · intro j c hc
      have hc' := i5 j c hc
      show ((readCq S m (readAllCq S m s)).comp j).ufT c = false
      unfold readCq; split
      · rename_i hT
        by_cases h : j = m
        · subst h; rw [i1.stale j hT c] at hc'; exact (nomatch hc')
        · simp [Function.update_of_ne h, hc']
      · exact hc'

/-- What is dumped from an object all of whose results are up to date. -/
theorem dump_spec (S : Sys Q Qc H P W) (s : St Q Qc H P W) (hs : Inv S s)
    (hf : ∀ k < S.n, ∀ b < S.nb k, (s.comp k).ufT b = false) :
    (dump S s).n = S.n ∧ (dump S s).nb = S.nb ∧ (∀ k < S.n, (dump S s).cq k = S.C k s.q) ∧
    ∀ k < S.n, ∀ b < S.nb k, (dump S s).uf k b = some (S.F k b (S.C k s.q) s.h) := by
  obtain ⟨i1, i2, i3, i4, i5⟩ := readAllCq_spec S s hs S.n
  refine ⟨rfl, rfl, ?_, ?_⟩
  · intro k hk
    show ((readAllCq S S.n s).comp k).cq = _
    rw [i1.pos k (i4 k hk), i2]
  · intro k hk b hb
    show ((readAllCq S S.n s).comp k).uf b = _
    rw [i1.res k b (i5 k b (hf k hk b hb)), i2, i3]

/-- Loading: components that were loaded have what was dumped and are up to date, others are as before. -/
theorem loadFrom_spec (S : Sys Q Qc H P W) (d : Dump Qc P W) (hn : ∀ k, d.nb k = S.nb k) (s : St Q Qc H P W) (m : ℕ) :
    ∃ s1, loadFrom S d m s = .ok s1 ∧ s1.q = s.q ∧ s1.h = s.h ∧
      ∀ k, s1.comp k = if k < m then loadComp (S.nb k) (s.comp k) (d.cq k) (d.uf k) else s.comp k := by
  induction m with
  | zero => exact ⟨s, rfl, rfl, rfl, fun k => by simp⟩
  | succ m ih =>
    obtain ⟨s1, h1, h2, h3, h4⟩ := ih
    refine ⟨{ s1 with comp := Function.update s1.comp m (loadComp (S.nb m) (s1.comp m) (d.cq m) (d.uf m)) }, ?_, h2, h3, ?_⟩
    · unfold loadFrom; rw [h1]; dsimp only; rw [if_neg (by rw [hn]; simp)]
    · intro k
      dsimp only
      by_cases hk : k = m
      · subst hk
        rw [Function.update_self, h4 k, if_neg (Nat.lt_irrefl k), if_pos (Nat.lt_succ_self k)]
      · rw [Function.update_of_ne hk, h4 k]
        have : k < m + 1 ↔ k < m := by omega
        simp only [this]

/-- The property: after the positions were set to those of the reference object, all of whose results are up to date, in the same cell,
the transfer gives a state that is right, in which nothing has to be computed again. -/
theorem transfer_partial (S : Sys Q Qc H P W) (s s' : St Q Qc H P W) (hs : Inv S s) (hs' : Inv S s')
    (hf : ∀ k < S.n, ∀ b < S.nb k, (s'.comp k).ufT b = false) (hh : s.h = s'.h) :
    ∃ s1, transfer S S (setQ s s'.q) s' = .ok s1 ∧ Inv S s1 ∧ s1.q = s'.q ∧ s1.h = s.h ∧
      (∀ k < S.n, ∀ b < S.nb k, (s1.comp k).ufT b = false) := by
  obtain ⟨d1, d2, d3, d4⟩ := dump_spec S s' hs' hf
  have h0 := inv_setQ S s hs s'.q
  obtain ⟨s1, l1, l2, l3, l4⟩ := loadFrom_spec S (dump S s') (fun k => by rw [d2]) (setQ s s'.q) S.n
  have l2' : s1.q = s'.q := l2
  have l3' : s1.h = s.h := l3
  refine ⟨s1, ?_, ⟨?_, ?_, ?_⟩, l2', l3', ?_⟩
  · unfold transfer load; rw [if_neg (by rw [d1]; simp)]; exact l1
  · intro k hk b
    rw [l4 k] at hk ⊢
    split at hk
    · simp [loadComp] at hk
    · rename_i h; rw [if_neg h]; exact h0.stale k hk b
  · intro k hk
    rw [l4 k] at hk ⊢
    split at hk
    · rename_i h; rw [if_pos h, l2']; exact d3 k h
    · rename_i h; rw [if_neg h, l2']; exact h0.pos k hk
  · intro k b hk
    rw [l4 k] at hk ⊢
    by_cases h : k < S.n
    · rw [if_pos h] at hk ⊢
      simp only [loadComp] at hk ⊢
      by_cases hb : b < S.nb k
      · rw [if_pos hb, d4 k h b hb, l2', l3', hh]
      · rw [if_neg hb] at hk; exact (nomatch hk)
    · rw [if_neg h] at hk ⊢
      rw [l2', l3']; exact h0.res k b hk
  · intro k hk b hb
    rw [l4 k, if_pos hk]; simp [loadComp, hb]

/-- Later events. -/
inductive Ev (Q H : Type)
  | setQ (q : Q)
  | setH (h : H)
  | read (k b : ℕ)

/-- A history of events. -/
def run (S : Sys Q Qc H P W) : List (Ev Q H) → St Q Qc H P W → St Q Qc H P W
  | [], s => s
  | .setQ q :: l, s => run S l (setQ s q)
  | .setH h :: l, s => run S l (setH s h)
  | .read k b :: l, s => run S l (readU S k b s).1

theorem inv_run (S : Sys Q Qc H P W) (l : List (Ev Q H)) (s : St Q Qc H P W) (hs : Inv S s) : Inv S (run S l s) := by
  induction l generalizing s with
  | nil => exact hs
  | cons e l ih =>
    cases e with
    | setQ q => exact ih _ (inv_setQ S s hs q)
    | setH h => exact ih _ (inv_setH S s hs h)
    | read k b => exact ih _ (readU_spec S k b s hs).1

/-- After such a transfer, whatever happens later, every result that is read is the one for the positions and the cell at that time. -/
theorem transfer_history_partial (S : Sys Q Qc H P W) (s s' : St Q Qc H P W) (hs : Inv S s) (hs' : Inv S s')
    (hf : ∀ k < S.n, ∀ b < S.nb k, (s'.comp k).ufT b = false) (hh : s.h = s'.h) (l : List (Ev Q H)) (k b : ℕ) :
    ∃ s1, transfer S S (setQ s s'.q) s' = .ok s1 ∧
      (readU S k b (run S l s1)).2 = some (S.F k b (S.C k (run S l s1).q) (run S l s1).h) := by
  obtain ⟨s1, h1, h2, _⟩ := transfer_partial S s s' hs hs' hf hh
  exact ⟨s1, h1, (readU_spec S k b _ (inv_run S l s1 h2)).2.1⟩

/-- The positions may also be set after the transfer: then everything is computed anew. -/
theorem set_after (S : Sys Q Qc H P W) (d : Dump Qc P W) (s s1 : St Q Qc H P W) (hn : ∀ k, d.nb k = S.nb k) (hs : Inv S s)
    (h : load S d s = .ok s1) (q : Q) : Inv S (setQ s1 q) := by
  unfold load at h
  split at h
  · exact (nomatch h)
  · obtain ⟨s2, l1, l2, l3, l4⟩ := loadFrom_spec S d hn s S.n
    rw [l1] at h; cases h
    have key : ∀ k, ((setQ s1 q).comp k).cqT = true ∧ ∀ b, ((setQ s1 q).comp k).ufT b = true := by
      intro k
      unfold setQ; dsimp only
      by_cases hc : (s1.comp k).cqT = true
      · rw [if_pos hc]
        refine ⟨hc, ?_⟩
        rw [l4 k] at hc ⊢
        split at hc
        · simp [loadComp] at hc
        · rename_i h; rw [if_neg h]; exact hs.stale k hc
      · rw [if_neg hc]; exact ⟨rfl, fun _ => rfl⟩
    exact ⟨fun k _ => (key k).2, fun k h => by rw [(key k).1] at h; exact (nomatch h),
      fun k b h => by rw [(key k).2 b] at h; exact (nomatch h)⟩

/-- Objects with different numbers of components or replicas are refused. -/
theorem load_refuses (S : Sys Q Qc H P W) (d : Dump Qc P W) (s : St Q Qc H P W)
    (h : d.n ≠ S.n ∨ ∃ k < S.n, d.nb k ≠ S.nb k) : ∃ e, load S d s = .error e := by
  by_cases hn : d.n ≠ S.n
  · exact ⟨_, by unfold load; rw [if_pos hn]⟩
  · rcases h with h | ⟨k, hk, hkb⟩
    · exact absurd h hn
    · have : ∀ m, k < m → ∃ e, loadFrom S d m s = .error e := by
        intro m
        induction m with
        | zero => intro h; exact absurd h (Nat.not_lt_zero k)
        | succ m ih =>
          intro h
          unfold loadFrom
          rcases Nat.lt_succ_iff_lt_or_eq.1 h with h | h
          · obtain ⟨e, he⟩ := ih h; exact ⟨e, by rw [he]⟩
          · subst h
            cases hl : loadFrom S d k s with
            | error e => exact ⟨e, rfl⟩
            | ok s1 => exact ⟨_, by dsimp only; rw [if_pos hkb]⟩
      obtain ⟨e, he⟩ := this S.n hk
      exact ⟨e, by unfold load; rw [if_neg hn]; exact he⟩

/-! ## Where the conditions fail -/

/-- One component, one replica, positions and cells are numbers; the energy is the sum of both, the virial the product. -/
def simple (zw : Bool) : Sys ℕ ℕ ℕ ℕ ℕ :=
  { n := 1, nb := fun _ => 1, zeroWeight := fun _ => zw, C := fun _ q => q, F := fun _ _ q h => (q + h, q * h) }

def fresh (q h : ℕ) : St ℕ ℕ ℕ ℕ ℕ := ⟨q, h, fun _ => ⟨0, true, fun _ => none, fun _ => true⟩⟩

/-- Which result is read after the totals of the reference object were read and the forces transferred. -/
def after (zw : Bool) (s s' : St ℕ ℕ ℕ ℕ ℕ) : Option (Option (ℕ × ℕ)) :=
  match transfer (simple zw) (simple zw) (setQ s s'.q) (readTotal (simple zw) 1 s') with
  | .error _ => none
  | .ok s1 => some (readU (simple zw) 0 0 s1).2

/-- A component of zero weight is not evaluated with the totals, but its missing result is copied and marked as valid: reading it
afterwards gives `None` (a TypeError in python), whatever the positions and the cell. -/
theorem zero_weight (q q' h : ℕ) : after true (fresh q h) (fresh q' h) = some none := by
  rfl

/-- With another weight it is right. -/
theorem nonzero_weight (q q' h : ℕ) : after false (fresh q h) (fresh q' h) = some (some (q' + h, q' * h)) := by
  rfl

/-- And if it had been evaluated before, at other positions, the forces of those positions are returned. -/
theorem zero_weight_stale (q q0 q' h : ℕ) :
    after true (fresh q h) (setQ (readU (simple true) 0 0 (fresh q0 h)).1 q') = some (some (q0 + h, q0 * h)) := by
  rfl

/-- The reference object has its own cell: if the cell of the system was changed since, the results of the old cell are marked as valid. -/
theorem other_cell (q q' h h' : ℕ) : after false (fresh q h) (fresh q' h') = some (some (q' + h', q' * h')) := by
  rfl

/-- So the condition of equal cells cannot be left out. -/
theorem not_other_cell : ¬ ∀ q q' h h' : ℕ, after false (fresh q h) (fresh q' h') = some (some (q' + h, q' * h)) := by
  intro hyp
  have := hyp 0 1 0 1
  rw [other_cell] at this
  simp at this

/-- A state kept with `dump_state` and loaded while the positions are others gives the old forces for the new positions. -/
theorem load_other_positions (q q' h : ℕ) :
    (match load (simple false) (dump (simple false) (readU (simple false) 0 0 (fresh q h)).1)
        (setQ (readU (simple false) 0 0 (fresh q h)).1 q') with
      | .error _ => none
      | .ok s1 => some (s1.q, (readU (simple false) 0 0 s1).2)) = some (q', some (q + h, q * h)) := by
  rfl

/-! ## The manual variant -/

theorem manualFrom_spec (S : Sys Q Qc H P W) (cq : ℕ → Qc) (pf : ℕ → ℕ → P) (mb : ℕ → ℕ) (hmb : ∀ k, mb k = S.nb k) (vir : W)
    (s : St Q Qc H P W) (m : ℕ) :
    ∃ s1, manualFrom S cq pf mb vir m s = .ok s1 ∧ s1.q = s.q ∧ s1.h = s.h ∧
      ∀ k, s1.comp k = if k < m then loadComp (S.nb k) (s.comp k) (cq k) (fun b => some (pf k b, vir)) else s.comp k := by
  induction m with
  | zero => exact ⟨s, rfl, rfl, rfl, fun k => by simp⟩
  | succ m ih =>
    obtain ⟨s1, h1, h2, h3, h4⟩ := ih
    refine ⟨{ s1 with comp := Function.update s1.comp m (loadComp (S.nb m) (s1.comp m) (cq m) fun b => some (pf m b, vir)) }, ?_, h2, h3, ?_⟩
    · unfold manualFrom; rw [h1]; dsimp only; rw [if_neg (by rw [hmb]; simp)]
    · intro k
      dsimp only
      by_cases hk : k = m
      · subst hk
        rw [Function.update_self, h4 k, if_neg (Nat.lt_irrefl k), if_pos (Nat.lt_succ_self k)]
      · rw [Function.update_of_ne hk, h4 k]
        have : k < m + 1 ↔ k < m := by omega
        simp only [this]

/-- Energies and forces passed to the manual variant are the ones read afterwards; the virial is the one passed with them, zeros in all
the calls, whatever the force field says. -/
theorem manual_reads (S : Sys Q Qc H P W) (cq : ℕ → Qc) (pf : ℕ → ℕ → P) (mb : ℕ → ℕ) (hmb : ∀ k, mb k = S.nb k) (vir : W)
    (s : St Q Qc H P W) :
    ∃ s1, manual S S.n cq pf mb vir s = .ok s1 ∧ ∀ k < S.n, ∀ b < S.nb k, (readU S k b s1).2 = some (pf k b, vir) := by
  obtain ⟨s1, h1, _, _, h4⟩ := manualFrom_spec S cq pf mb hmb vir s S.n
  refine ⟨s1, by unfold manual; rw [if_neg (by simp)]; exact h1, ?_⟩
  intro k hk b hb
  have e : s1.comp k = loadComp (S.nb k) (s.comp k) (cq k) (fun b => some (pf k b, vir)) := by rw [h4 k, if_pos hk]
  unfold readU
  rw [if_neg (by rw [e]; simp [loadComp, hb]), e]
  simp [loadComp, hb]

/-- The callers pass lists with one entry: with any other number of components the run stops with an AssertionError. -/
theorem manual_one (S : Sys Q Qc H P W) (cq : ℕ → Qc) (pf : ℕ → ℕ → P) (mb : ℕ → ℕ) (vir : W) (s : St Q Qc H P W) (h : S.n ≠ 1) :
    manual S 1 cq pf mb vir s = .error .assertion := by
  unfold manual; rw [if_pos h]

/-! ## Non-vacuity -/

example : ∃ s1, transfer (simple false) (simple false) (setQ (fresh 3 2) 5) (readU (simple false) 0 0 (fresh 5 2)).1 = .ok s1 ∧
    Inv (simple false) s1 ∧ s1.q = 5 ∧ s1.h = 2 ∧ ∀ k < 1, ∀ b < 1, (s1.comp k).ufT b = false :=
  transfer_partial (simple false) (fresh 3 2) (readU (simple false) 0 0 (fresh 5 2)).1 (inv_new _ 3 2 _)
    (readU_spec _ 0 0 _ (inv_new _ 5 2 _)).1 (by
      intro k hk b hb
      have hk' : k = 0 := Nat.lt_one_iff.1 hk
      have hb' : b = 0 := Nat.lt_one_iff.1 hb
      subst hk' hb'; rfl) rfl
example (q h : ℕ) (l : List (Ev ℕ ℕ)) : Inv (simple true) (run (simple true) l (fresh q h)) := inv_run _ l _ (inv_new _ q h _)
example : ∃ e, load (simple false) { dump (simple false) (fresh 1 1) with n := 2 } (fresh 1 1) = .error e :=
  load_refuses _ _ _ (Or.inl (by decide))

end Verif.Transfer
