/-
C94: a Hessian calculation which is killed and started again.
-/
import Verif.Phys.Phonons
import Mathlib.Tactic.NormNum

namespace Verif.Phonon

/-! ### Specification -/

section

variable {R E : Type*} [Zero R] [Zero E]

/-- The matrix to be computed: the row of every free coordinate, zeros for the held ones. -/
def fullRows (ii : ℕ) (fixed : ℕ → Bool) (g : Rows R) : Rows R :=
  fun i => if i < ii ∧ fixed i = false then g i else 0

/-- No temporary files. -/
def Tmp.empty : Tmp R E := ⟨fun _ => none, fun _ => none⟩

/-- Files of the Hessian are there, and none of the friction. -/
def Tmp.unpaired (ii : ℕ) (t : Tmp R E) : Prop :=
  (∃ j ≤ ii, t.hess j ≠ none) ∧ ∀ j ≤ ii, t.eta j = none

/-! ### Files -/

theorem latest_some {S : Type*} {f : ℕ → Option S} : ∀ {n i : ℕ} {s : S},
    latest f n = some (i, s) → i ≤ n ∧ f i = some s ∧ ∀ k, i < k → k ≤ n → f k = none
  | 0, i, s, h => by
    unfold latest at h
    cases h0 : f 0 with
    | none => rw [h0] at h; simp at h
    | some a =>
      rw [h0] at h
      simp at h
      obtain ⟨rfl, rfl⟩ := h
      exact ⟨le_refl _, h0, fun k h1 h2 => absurd h1 (by omega)⟩
  | n + 1, i, s, h => by
    unfold latest at h
    cases h0 : f (n + 1) with
    | none =>
      rw [h0] at h
      obtain ⟨h1, h2, h3⟩ := latest_some (n := n) h
      refine ⟨by omega, h2, fun k hk hn => ?_⟩
      by_cases e : k = n + 1
      · rw [e, h0]
      · exact h3 k hk (by omega)
    | some a =>
      rw [h0] at h
      simp at h
      obtain ⟨rfl, rfl⟩ := h
      exact ⟨le_refl _, h0, fun k h1 h2 => absurd h1 (by omega)⟩

theorem latest_none {S : Type*} {f : ℕ → Option S} : ∀ {n : ℕ},
    latest f n = none → ∀ k ≤ n, f k = none
  | 0, h, k, hk => by
    have e : k = 0 := by omega
    subst e
    unfold latest at h
    simpa using h
  | n + 1, h, k, hk => by
    unfold latest at h
    cases h0 : f (n + 1) with
    | none =>
      rw [h0] at h
      by_cases e : k = n + 1
      · rw [e, h0]
      · exact latest_none (n := n) h k (by omega)
    | some a => rw [h0] at h; simp at h

theorem lowest_some {S : Type*} {f : ℕ → Option S} {n i : ℕ} {s : S}
    (h : lowest f n = some (i, s)) : i ≤ n ∧ f i = some s := by
  unfold lowest at h
  have h1 := List.mem_of_mem_head? h
  obtain ⟨a, ha, hb⟩ := List.mem_filterMap.mp h1
  cases h0 : f a with
  | none => rw [h0] at hb; simp at hb
  | some x =>
    rw [h0] at hb
    simp at hb
    obtain ⟨rfl, rfl⟩ := hb
    exact ⟨by simpa [Nat.lt_succ_iff] using ha, h0⟩

theorem lowest_none {S : Type*} {f : ℕ → Option S} {n : ℕ} (h : lowest f n = none) :
    ∀ k ≤ n, f k = none := by
  intro k hk
  unfold lowest at h
  rw [List.head?_eq_none_iff, List.filterMap_eq_nil_iff] at h
  have := h k (by simpa [Nat.lt_succ_iff] using hk)
  simpa using this

/-! ### The invariant -/

variable (friction : Bool) (ii : ℕ) (fixed : ℕ → Bool) (g : Rows R) (ge : Rows E)

/-- The rows below `n` are done, the others are done or zero. -/
def Filled (full : Rows R) (n : ℕ) (h : Rows R) : Prop :=
  (∀ i < n, h i = full i) ∧ ∀ i, h i = full i ∨ h i = 0

/-- Every file holds what its name promises, and a file of the friction goes with one of the
Hessian. -/
structure GoodDisk (t : Tmp R E) : Prop where
  hess : ∀ j h, t.hess j = some h → Filled (fullRows ii fixed g) (j + 1) h
  eta : ∀ j e, t.eta j = some e → Filled (fullRows ii fixed ge) (j + 1) e ∧ t.hess j ≠ none

/-- What an operation must respect. -/
def OkOp (t : Tmp R E) : Op R E → Prop
  | .writeHess j h => Filled (fullRows ii fixed g) (j + 1) h
  | .writeEta j e => Filled (fullRows ii fixed ge) (j + 1) e ∧ t.hess j ≠ none
  | .rmEta _ => True
  | .rmHess j => t.eta j = none

/-- All operations of a list respect it. -/
def SafeOps : List (Op R E) → Tmp R E → Prop
  | [], _ => True
  | o :: l, t => OkOp ii fixed g ge t o ∧ SafeOps l (o.run t)

variable {ii fixed g ge}

omit [Zero R] [Zero E] in
theorem upd_some {S : Type*} {f : ℕ → Option S} {j k : ℕ} {s s' : S}
    (h : Function.update f j (some s) k = some s') : (k = j ∧ s = s') ∨ f k = some s' := by
  by_cases e : k = j
  · subst e
    rw [Function.update_self] at h
    exact Or.inl ⟨rfl, Option.some.inj h⟩
  · rw [Function.update_of_ne e] at h
    exact Or.inr h

omit [Zero R] [Zero E] in
theorem upd_none {S : Type*} {f : ℕ → Option S} {j k : ℕ} {s' : S}
    (h : Function.update f j none k = some s') : k ≠ j ∧ f k = some s' := by
  by_cases e : k = j
  · subst e
    rw [Function.update_self] at h
    exact absurd h (by simp)
  · rw [Function.update_of_ne e] at h
    exact ⟨e, h⟩

theorem good_run {t : Tmp R E} (ht : GoodDisk ii fixed g ge t) {o : Op R E}
    (ho : OkOp ii fixed g ge t o) : GoodDisk ii fixed g ge (o.run t) := by
  cases o with
  | writeHess j h =>
    refine ⟨fun k x hx => ?_, fun k e he => ⟨(ht.eta k e he).1, ?_⟩⟩
    · rcases upd_some hx with ⟨rfl, rfl⟩ | hx
      · exact ho
      · exact ht.hess k x hx
    · change Function.update t.hess j (some h) k ≠ none
      by_cases c : k = j
      · subst c; simp
      · rw [Function.update_of_ne c]; exact (ht.eta k e he).2
  | writeEta j e =>
    refine ⟨ht.hess, fun k x hx => ?_⟩
    rcases upd_some hx with ⟨rfl, rfl⟩ | hx
    · exact ho
    · exact ht.eta k x hx
  | rmEta j =>
    refine ⟨ht.hess, fun k x hx => ?_⟩
    exact ht.eta k x (upd_none hx).2
  | rmHess j =>
    refine ⟨fun k x hx => ht.hess k x (upd_none hx).2, fun k e he => ⟨(ht.eta k e he).1, ?_⟩⟩
    have c : k ≠ j := by
      rintro rfl
      have h1 : t.eta k = none := ho
      have h2 : t.eta k = some e := he
      rw [h1] at h2
      exact absurd h2 (by simp)
    change Function.update t.hess j none k ≠ none
    rw [Function.update_of_ne c]
    exact (ht.eta k e he).2

theorem good_prefix : ∀ (l : List (Op R E)) (t : Tmp R E) (k : ℕ), GoodDisk ii fixed g ge t →
    SafeOps ii fixed g ge l t →
      GoodDisk ii fixed g ge ((l.take k).foldl (fun t o => o.run t) t)
  | [], t, k, ht, _ => by simpa using ht
  | o :: l, t, 0, ht, _ => by simpa using ht
  | o :: l, t, k + 1, ht, hs => by
    rw [List.take_succ_cons, List.foldl_cons]
    exact good_prefix l _ k (good_run ht hs.1) hs.2

theorem safe_append : ∀ (l l' : List (Op R E)) (t : Tmp R E), SafeOps ii fixed g ge l t →
    (∀ t, SafeOps ii fixed g ge l' t) → SafeOps ii fixed g ge (l ++ l') t
  | [], _, t, _, h => h t
  | o :: l, l', t, hs, h => ⟨hs.1, safe_append l l' _ hs.2 h⟩

theorem safe_clean (t : Tmp R E) : SafeOps ii fixed g ge (hessClean ii) t := by
  unfold hessClean
  generalize List.range ii = r
  induction r generalizing t with
  | nil => trivial
  | cons i r ih =>
    rw [List.flatMap_cons]
    refine ⟨trivial, ?_, ih _⟩
    change Function.update t.eta i none i = none
    simp

theorem filled_update {full h : Rows R} {n : ℕ} (hh : Filled full n h) :
    Filled full (n + 1) (Function.update h n (full n)) := by
  refine ⟨fun i hi => ?_, fun i => ?_⟩
  · by_cases e : i = n
    · subst e; simp
    · rw [Function.update_of_ne e]; exact hh.1 i (by omega)
  · by_cases e : i = n
    · subst e; left; simp
    · rw [Function.update_of_ne e]; exact hh.2 i

theorem filled_skip {full h : Rows R} {n : ℕ} (hh : Filled full n h) (hz : full n = 0) :
    Filled full (n + 1) h := by
  refine ⟨fun i hi => ?_, hh.2⟩
  by_cases e : i = n
  · subst e
    rcases hh.2 i with h1 | h1
    · exact h1
    · rw [h1, hz]
  · exact hh.1 i (by omega)

/-- The loop keeps the invariant and ends with everything done. -/
theorem loop_safe : ∀ (friction : Bool) (m : ℕ) (w : Work R E) (t : Tmp R E), w.next + m = ii →
    Filled (fullRows ii fixed g) w.next w.h →
    (friction = true → Filled (fullRows ii fixed ge) w.next w.eta) →
    SafeOps ii fixed g ge (hessLoop friction fixed g ge m w).1 t ∧
      Filled (fullRows ii fixed g) ii (hessLoop friction fixed g ge m w).2.h ∧
      (friction = true → Filled (fullRows ii fixed ge) ii (hessLoop friction fixed g ge m w).2.eta)
  | _, 0, w, t, hn, hh, he => by
    have e : w.next = ii := by omega
    rw [e] at hh he
    exact ⟨trivial, hh, he⟩
  | false, m + 1, w, t, hn, hh, he => by
    have hlt : w.next < ii := by omega
    unfold hessLoop
    by_cases hf : fixed w.next
    · have z1 : fullRows ii fixed g w.next = 0 := by simp [fullRows, hf]
      rw [if_pos hf]
      exact loop_safe false m { w with next := w.next + 1 } t
        (by change w.next + 1 + m = ii; omega) (filled_skip hh z1) (fun c => absurd c (by simp))
    · have v1 : fullRows ii fixed g w.next = g w.next := by simp [fullRows, hf, hlt]
      have f1 := filled_update hh
      rw [v1] at f1
      have r := fun t => loop_safe false m
        ⟨w.next + 1, Function.update w.h w.next (g w.next), w.eta⟩ t
        (by change w.next + 1 + m = ii; omega) f1 (fun c => absurd c (by simp))
      rw [if_neg hf]
      exact ⟨⟨f1, (r _).1⟩, (r t).2⟩
  | true, m + 1, w, t, hn, hh, he => by
    have hlt : w.next < ii := by omega
    unfold hessLoop
    by_cases hf : fixed w.next
    · have z1 : fullRows ii fixed g w.next = 0 := by simp [fullRows, hf]
      have z2 : fullRows ii fixed ge w.next = 0 := by simp [fullRows, hf]
      rw [if_pos hf]
      exact loop_safe true m { w with next := w.next + 1 } t
        (by change w.next + 1 + m = ii; omega) (filled_skip hh z1)
        (fun c => filled_skip (he c) z2)
    · have v1 : fullRows ii fixed g w.next = g w.next := by simp [fullRows, hf, hlt]
      have v2 : fullRows ii fixed ge w.next = ge w.next := by simp [fullRows, hf, hlt]
      have f1 := filled_update hh
      have f2 := filled_update (he rfl)
      rw [v1] at f1
      rw [v2] at f2
      have r := fun t => loop_safe true m
        ⟨w.next + 1, Function.update w.h w.next (g w.next),
          Function.update w.eta w.next (ge w.next)⟩ t
        (by change w.next + 1 + m = ii; omega) f1 (fun _ => f2)
      rw [if_neg hf]
      refine ⟨⟨f1, ⟨f2, ?_⟩, (r _).1⟩, (r t).2⟩
      change Function.update t.hess w.next _ w.next ≠ none
      simp

/-- Files are only written for coordinates. -/
def InRange (ii : ℕ) (t : Tmp R E) : Prop := (∀ j, t.hess j ≠ none → j < ii)

omit [Zero R] [Zero E] in
theorem inRange_run {t : Tmp R E} (ht : InRange ii t) (o : Op R E)
    (ho : ∀ j h, o = .writeHess j h → j < ii) : InRange ii (o.run t) := by
  intro j hj
  cases o with
  | writeHess k h =>
    change Function.update t.hess k _ j ≠ none at hj
    by_cases e : j = k
    · rw [e]; exact ho k h rfl
    · rw [Function.update_of_ne e] at hj; exact ht j hj
  | writeEta k h => exact ht j hj
  | rmEta k => exact ht j hj
  | rmHess k =>
    change Function.update t.hess k _ j ≠ none at hj
    by_cases e : j = k
    · subst e; simp at hj
    · rw [Function.update_of_ne e] at hj; exact ht j hj

omit [Zero R] [Zero E] in
theorem loop_inRange : ∀ (m : ℕ) (w : Work R E), w.next + m ≤ ii →
    ∀ j h, Op.writeHess j h ∈ (hessLoop friction fixed g ge m w).1 → j < ii
  | 0, w, _, j, h, hm => by simp [hessLoop] at hm
  | m + 1, w, hn, j, h, hm => by
    unfold hessLoop at hm
    by_cases hf : fixed w.next
    · rw [if_pos hf] at hm
      exact loop_inRange m _ (by change w.next + 1 + m ≤ ii; omega) j h hm
    · rw [if_neg hf] at hm
      simp only [List.cons_append, List.mem_cons, Op.writeHess.injEq, List.mem_append] at hm
      rcases hm with ⟨rfl, _⟩ | hm | hm
      · omega
      · cases friction <;> simp at hm
      · exact loop_inRange m _ (by change w.next + 1 + m ≤ ii; omega) j h hm

/-- The start: what is taken from the disk. -/
theorem start_filled {t : Tmp R E} (ht : GoodDisk ii fixed g ge t) (hr : InRange ii t)
    (hp : friction = true → ¬ t.unpaired ii) :
    (hessStart friction ii t).next ≤ ii ∧
    Filled (fullRows ii fixed g) (hessStart friction ii t).next (hessStart friction ii t).h ∧
    (friction = true →
      Filled (fullRows ii fixed ge) (hessStart friction ii t).next (hessStart friction ii t).eta) := by
  have fill0 : ∀ full : Rows R, Filled full 0 0 :=
    fun full => ⟨fun i hi => absurd hi (by omega), fun i => Or.inr rfl⟩
  have fillE : ∀ full : Rows E, Filled full 0 0 :=
    fun full => ⟨fun i hi => absurd hi (by omega), fun i => Or.inr rfl⟩
  have less : ∀ {full h : Rows R} {a b : ℕ}, a ≤ b → Filled full b h →
      Filled full a h := fun hab hh => ⟨fun i hi => hh.1 i (by omega), hh.2⟩
  unfold hessStart
  cases hl : latest t.hess ii with
  | none =>
    have hn := latest_none hl
    cases friction with
    | false => exact ⟨Nat.zero_le _, fill0 _, fun c => absurd c (by simp)⟩
    | true =>
      simp only [if_true]
      cases hw : lowest t.eta ii with
      | none => exact ⟨Nat.zero_le _, fill0 _, fun _ => fillE _⟩
      | some p =>
        obtain ⟨h1, h2⟩ := lowest_some (i := p.1) (s := p.2) hw
        exact absurd (hn p.1 h1) (ht.eta _ _ h2).2
  | some q =>
    obtain ⟨l1, l2, l3⟩ := latest_some (i := q.1) (s := q.2) hl
    have q1 : q.1 < ii := hr q.1 (by rw [l2]; simp)
    cases friction with
    | false => exact ⟨q1, ht.hess _ _ l2, fun c => absurd c (by simp)⟩
    | true =>
      simp only [if_true]
      cases hw : lowest t.eta ii with
      | none =>
        refine absurd ⟨⟨q.1, l1, ?_⟩, lowest_none hw⟩ (hp rfl)
        rw [l2]; simp
      | some p =>
        obtain ⟨h1, h2⟩ := lowest_some (i := p.1) (s := p.2) hw
        have h3 := ht.eta _ _ h2
        have h4 : p.1 ≤ q.1 := by
          by_contra c
          exact h3.2 (l3 p.1 (by omega) h1)
        exact ⟨by change p.1 + 1 ≤ ii; omega,
          less (show p.1 + 1 ≤ q.1 + 1 by omega) (ht.hess _ _ l2), fun _ => h3.1⟩

theorem filled_end {full h : Rows R} (hz : ∀ i, ii ≤ i → full i = 0) (hh : Filled full ii h) :
    h = full := by
  funext i
  by_cases c : i < ii
  · exact hh.1 i c
  · rcases hh.2 i with e | e
    · exact e
    · rw [e, hz i (by omega)]

theorem full_zero (i : ℕ) (h : ii ≤ i) : fullRows ii fixed g i = 0 := by
  unfold fullRows
  rw [if_neg (by omega)]

/-- A call from a good disk: right results, and a good disk wherever it is killed. -/
theorem call_good {t : Tmp R E} (ht : GoodDisk ii fixed g ge t) (hr : InRange ii t)
    (hp : friction = true → ¬ t.unpaired ii) :
    (hessCall friction ii fixed g ge t).2.1 = fullRows ii fixed g ∧
    (friction = true → (hessCall friction ii fixed g ge t).2.2 = fullRows ii fixed ge) ∧
    ∀ k, GoodDisk ii fixed g ge (hessKilled friction ii fixed g ge t k) ∧
      InRange ii (hessKilled friction ii fixed g ge t k) := by
  obtain ⟨s1, s2, s3⟩ := start_filled friction ht hr hp
  obtain ⟨r1, r2, r3⟩ := loop_safe friction (ii - (hessStart friction ii t).next)
    (hessStart friction ii t) t (by omega) s2 s3
  refine ⟨filled_end full_zero r2, fun c => filled_end full_zero (r3 c), fun k => ⟨?_, ?_⟩⟩
  · exact good_prefix _ _ k ht (safe_append _ _ _ r1 safe_clean)
  · unfold hessKilled
    have hw : ∀ j h, Op.writeHess j h ∈ ((hessCall friction ii fixed g ge t).1.take k) → j < ii := by
      intro j h hm
      have hm := List.mem_of_mem_take hm
      unfold hessCall at hm
      simp only [List.mem_append] at hm
      rcases hm with hm | hm
      · exact loop_inRange friction _ _ (by omega) j h hm
      · unfold hessClean at hm
        simp at hm
    generalize (hessCall friction ii fixed g ge t).1.take k = l at hw
    clear hp s1 s2 s3 r1 r2 r3 ht
    induction l generalizing t with
    | nil => exact hr
    | cons o l ih =>
      rw [List.foldl_cons]
      refine ih (inRange_run hr o fun j h e => hw j h ?_) fun j h hm => hw j h ?_
      · rw [e]; exact List.mem_cons_self ..
      · exact List.mem_cons_of_mem _ hm

/-- The invariant along a history of killed calls. -/
theorem history_good (friction : Bool) : ∀ (ks : List ℕ) (t : Tmp R E),
    GoodDisk ii fixed g ge t → InRange ii t →
    (friction = true → ∀ l, l <+: ks → ¬ (hessHistory friction ii fixed g ge t l).unpaired ii) →
    GoodDisk ii fixed g ge (hessHistory friction ii fixed g ge t ks) ∧
      InRange ii (hessHistory friction ii fixed g ge t ks)
  | [], t, ht, hr, _ => ⟨ht, hr⟩
  | k :: ks, t, ht, hr, hp => by
    have c := call_good friction ht hr fun e => hp e [] (List.nil_prefix ..)
    exact history_good friction ks _ (c.2.2 k).1 (c.2.2 k).2 fun e l hl =>
      hp e (k :: l) ((List.prefix_cons_inj k).mpr hl)

theorem empty_good : GoodDisk ii fixed g ge (Tmp.empty : Tmp R E) :=
  ⟨fun j h e => absurd e (by simp [Tmp.empty]), fun j h e => absurd e (by simp [Tmp.empty])⟩

omit [Zero R] [Zero E] in
theorem empty_range : InRange ii (Tmp.empty : Tmp R E) := fun _ h => absurd rfl h

/-- **C94.**  A Hessian calculation without friction gives the same matrix however often and
wherever — between two operations on the disk — it was killed before. -/
theorem hessian_restart (ks : List ℕ) :
    (hessCall false ii fixed g ge (hessHistory false ii fixed g ge Tmp.empty ks)).2.1
      = fullRows ii fixed g := by
  have h := history_good (g := g) (ge := ge) (ii := ii) (fixed := fixed) false ks Tmp.empty
    empty_good empty_range (fun c => absurd c (by simp))
  exact (call_good false h.1 h.2 fun c => absurd c (by simp)).1

/-- **C94, with friction.**  So do the Hessian and the friction derivatives, as long as no kill
leaves files of the Hessian without a file of the friction. -/
theorem friction_restart_partial (ks : List ℕ)
    (hp : ∀ l, l <+: ks → ¬ (hessHistory true ii fixed g ge Tmp.empty l).unpaired ii) :
    (hessCall true ii fixed g ge (hessHistory true ii fixed g ge Tmp.empty ks)).2
      = (fullRows ii fixed g, fullRows ii fixed ge) := by
  have h := history_good (g := g) (ge := ge) (ii := ii) (fixed := fixed) true ks Tmp.empty
    empty_good empty_range (fun _ => hp)
  have c := call_good true h.1 h.2 fun _ => hp ks (List.prefix_refl ..)
  exact Prod.ext c.1 (c.2.1 rfl)

/-- **C94, friction lost (disagreement).**  Killed between the first file of the Hessian and the
first file of the friction, the calculation started again leaves the friction derivatives of the
first coordinate at zero. -/
theorem friction_lost (ii : ℕ) (h : 0 < ii) (hfree : fixed 0 = false) :
    (hessCall true ii fixed g ge (hessHistory true ii fixed g ge Tmp.empty [1])).2.2 0 = 0 := by
  obtain ⟨n, rfl⟩ : ∃ n, ii = n + 1 := ⟨ii - 1, by omega⟩
  have noLatest : ∀ n, latest (Tmp.empty : Tmp R E).hess n = none := by
    intro n; induction n with
    | zero => rfl
    | succ n ih => unfold latest; exact ih
  have noLowest : ∀ n (t : Tmp R E), (∀ j, t.eta j = none) → lowest t.eta n = none := by
    intro n t ht
    unfold lowest
    rw [List.head?_eq_none_iff, List.filterMap_eq_nil_iff]
    intro a _
    rw [ht]; rfl
  -- the first call
  have s1 : hessStart true (n + 1) (Tmp.empty : Tmp R E) = ⟨0, 0, 0⟩ := by
    unfold hessStart
    rw [noLatest, noLowest _ _ fun _ => rfl]
    rfl
  have k1 : hessHistory true (n + 1) fixed g ge (Tmp.empty : Tmp R E) [1]
      = (Op.writeHess 0 (Function.update 0 0 (g 0))).run Tmp.empty := by
    unfold hessHistory hessKilled hessCall
    simp only [List.foldl_cons, List.foldl_nil, s1]
    rw [show n + 1 - 0 = n + 1 from rfl]
    unfold hessLoop
    simp [hfree]
  rw [k1]
  -- the second
  set t := (Op.writeHess 0 (Function.update 0 0 (g 0))).run (Tmp.empty : Tmp R E) with ht
  have l2 : ∀ n, latest t.hess n = some (0, Function.update (0 : Rows R) 0 (g 0)) := by
    intro n; induction n with
    | zero => rfl
    | succ n ih =>
      unfold latest
      have : t.hess (n + 1) = none := by
        rw [ht]
        simp [Op.run, Tmp.empty]
      rw [this]
      exact ih
  have s2 : hessStart true (n + 1) t = ⟨1, Function.update 0 0 (g 0), 0⟩ := by
    unfold hessStart
    rw [l2, noLowest _ _ fun _ => rfl]
    rfl
  -- coordinate 0 is not visited any more
  have keep : ∀ (m : ℕ) (w : Work R E), 0 < w.next → w.eta 0 = 0 →
      (hessLoop true fixed g ge m w).2.eta 0 = 0 := by
    intro m
    induction m with
    | zero => intro w _ he; exact he
    | succ m ih =>
      intro w hw he
      unfold hessLoop
      by_cases hf : fixed w.next
      · rw [if_pos hf]; exact ih _ (by change 0 < w.next + 1; omega) he
      · rw [if_neg hf]
        refine ih _ (by change 0 < w.next + 1; omega) ?_
        change Function.update w.eta w.next _ 0 = 0
        rw [Function.update_of_ne (by omega)]; exact he
  unfold hessCall
  simp only [s2]
  exact keep _ _ (by change 0 < 1; omega) rfl

end

/-! ### The hypotheses are met -/

/-- Two coordinates with friction, killed between the rows and again while the files are
removed. -/
example : ∀ l, l <+: [2, 4] → ¬ (hessHistory true 2 (fun _ => false) (fun i => (i : ℤ) + 1)
    (fun i => (i : ℤ) + 5) Tmp.empty l).unpaired 2 := by
  intro l hl
  have : l = [] ∨ l = [2] ∨ l = [2, 4] := by
    rcases l with _ | ⟨a, _ | ⟨b, _ | ⟨c, l⟩⟩⟩
    · exact Or.inl rfl
    · simp [List.cons_prefix_cons] at hl; simp [hl]
    · simp [List.cons_prefix_cons] at hl; simp [hl]
    · simp [List.cons_prefix_cons] at hl
  rcases this with rfl | rfl | rfl
  · rintro ⟨⟨j, hj, h⟩, _⟩; exact h rfl
  · rintro ⟨_, h⟩
    exact absurd (h 0 (by omega)) (by decide)
  · rintro ⟨_, h⟩
    exact absurd (h 1 (by omega)) (by decide)

/-- Killed while the last files are removed, the friction derivatives are all lost. -/
example : (hessCall true 1 (fun _ => false) (fun _ => (1 : ℤ)) (fun _ => (1 : ℤ))
    (hessHistory true 1 (fun _ => false) (fun _ => (1 : ℤ)) (fun _ => (1 : ℤ)) Tmp.empty [3])).2.2
      0 = 0 := by decide

end Verif.Phonon
