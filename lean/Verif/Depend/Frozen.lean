import Verif.Depend.Refine
/-
What happens to quantities whose declared dependencies do not change, and to two networks that differ in what a function
reads but not in what it declares.
-/
namespace Verif.Depend

variable {V : Type}

/-- A set of objects closed under declared dependencies. -/
def Net.Up (net : Net V) (A : Nat → Prop) : Prop := ∀ k i, A i → net.Reach k i → A k

/-- All of the set is clean. -/
def CleanOn (A : Nat → Prop) (s : State V) : Prop := ∀ i, A i → s.tainted i = false

/-- The set is still clean and its values did not change. -/
def KeptOn (A : Nat → Prop) (s s' : State V) : Prop := ∀ i, A i → s'.tainted i = false ∧ s'.val i = s.val i

theorem KeptOn.clean {A : Nat → Prop} {s s' : State V} (h : KeptOn A s s') : CleanOn A s' := fun i hi => (h i hi).1

theorem KeptOn.refl {A : Nat → Prop} {s : State V} (h : CleanOn A s) : KeptOn A s s := fun i hi => ⟨h i hi, rfl⟩

theorem KeptOn.trans {A : Nat → Prop} {a b c : State V} (h : KeptOn A a b) (h' : KeptOn A b c) : KeptOn A a c :=
  fun i hi => ⟨(h' i hi).1, (h' i hi).2.trans (h i hi).2⟩

theorem fire_kept {net : Net V} {A : Nat → Prop} (up : net.Up A) {x : Nat} (hx : ¬ A x) {s : State V}
    (h : CleanOn A s) : KeptOn A s (fire net x s) := by
  intro i hi
  have hf := (fire_fired net x s).1
  refine ⟨?_, by rw [hf.val]⟩
  cases ht : (fire net x s).tainted i with
  | false => rfl
  | true => exact absurd (up x i hi (hf.only i ht (h i hi))) hx

theorem taintMe_kept {net : Net V} {A : Nat → Prop} (up : net.Up A) {x : Nat} (hx : ¬ A x) (b : Bool) {s : State V}
    (h : CleanOn A s) : KeptOn A s (taintMe net x b s) := by
  intro i hi
  have hne : i ≠ x := fun e => hx (e ▸ hi)
  have := fire_kept up hx h i hi
  refine ⟨?_, this.2⟩
  show upd _ _ _ _ = _
  rw [upd_ne _ _ hne]; exact this.1

theorem setVal_kept {A : Nat → Prop} {x : Nat} (hx : ¬ A x) (v : V) {s : State V} (h : CleanOn A s) :
    KeptOn A s (s.setVal x v) := by
  intro i hi
  have hne : i ≠ x := fun e => hx (e ▸ hi)
  refine ⟨h i hi, ?_⟩
  show upd _ _ _ _ = _
  rw [upd_ne _ _ hne]

theorem store_kept {net : Net V} {A : Nat → Prop} (up : net.Up A) {x : Nat} (hx : ¬ A x) (v : V) {s : State V}
    (h : CleanOn A s) : KeptOn A s (store net x v s) := by
  have h1 := setVal_kept hx v h
  have h2 := taintMe_kept up hx false h1.clean
  exact (h1.trans h2).trans (taintMe_kept up hx false h2.clean)

theorem run_kept {A : Nat → Prop} {g : Nat → State V → V × State V}
    (hg : ∀ j s, CleanOn A s → KeptOn A s (g j s).2) (p : Prog V) (s : State V) (h : CleanOn A s) :
    KeptOn A s (p.run g s).2 := by
  induction p generalizing s with
  | ret v => exact KeptOn.refl h
  | read i k ih => exact (hg i s h).trans (ih _ _ (hg i s h).clean)

/-- Reading anything leaves a clean set closed under declared dependencies as it is. -/
theorem get_kept {net : Net V} {A : Nat → Prop} (up : net.Up A) (j : Nat) :
    ∀ s : State V, CleanOn A s → KeptOn A s (get net j s).2 := by
  induction j using Nat.strongRecOn with
  | _ j ih =>
  intro s h
  rw [get]
  cases ht : s.tainted j with
  | false => exact KeptOn.refl h
  | true =>
    have hj : ¬ A j := fun hA => by have := h j hA; rw [ht] at this; cases this
    simp only [if_true]
    cases hk : net.kind j with
    | leaf => exact taintMe_kept up hj false h
    | computed p =>
      simp only
      have hr := run_kept (A := A) (g := fun k s => if _h : k < j then get net k s else (s.val k, s))
        (fun k s hs => by
          by_cases hkj : k < j
          · simp only [hkj, dif_pos]; exact ih k hkj s hs
          · simp only [hkj, dif_neg, not_false_eq_true]; exact KeptOn.refl hs) p s h
      generalize p.run (fun k s => if _h : k < j then get net k s else (s.val k, s)) s = r at hr ⊢
      have h1 : KeptOn A s (r.2.tick j) := hr
      exact h1.trans (store_kept up hj _ h1.clean)
    | peer g conv =>
      simp only
      by_cases hm : s.manual g = j
      · rw [if_pos hm]; exact taintMe_kept up hj false h
      · rw [if_neg hm]
        have h1 : KeptOn A s (if s.tainted (s.manual g) = true then taintMe net (s.manual g) false s else s) := by
          split
          · next htm =>
            exact taintMe_kept up (fun hA => by have := h _ hA; rw [htm] at this; cases this) false h
          · exact KeptOn.refl h
        generalize (if s.tainted (s.manual g) = true then taintMe net (s.manual g) false s else s) = s1 at h1 ⊢
        have h2 : KeptOn A s (s1.tick j) := h1
        exact h2.trans (store_kept up hj _ h2.clean)

/-- Assigning an independent quantity outside the set leaves it as it is. -/
theorem set_kept {net : Net V} {A : Nat → Prop} (up : net.Up A) {x : Nat} (hx : ¬ A x) (hl : net.kind x = .leaf)
    (v : V) {s : State V} (h : CleanOn A s) : KeptOn A s (set net x v s).2 := by
  have h1 := setVal_kept hx v h
  simp only [set, hl]
  exact h1.trans (taintMe_kept up hx false h1.clean)

/-! ### Two networks with the same declarations -/

/-- Same objects and declarations. -/
structure SameDeps (net net' : Net V) : Prop where
  size : net'.size = net.size
  deps : net'.deps = net.deps

theorem SameDeps.dependants {net net' : Net V} (h : SameDeps net net') (i : Nat) :
    net'.dependants i = net.dependants i := by
  unfold Net.dependants
  rw [h.size, h.deps]

theorem SameDeps.taint {net net' : Net V} (h : SameDeps net net') (i : Nat) :
    ∀ s : State V, Verif.Depend.taint net' i s = Verif.Depend.taint net i s := by
  induction hn : net.size - i using Nat.strongRecOn generalizing i with
  | _ n ih =>
  intro s
  rw [taint_eq, taint_eq]
  unfold fire
  rw [h.dependants]
  have : ∀ (l : List Nat) (s : State V), (∀ j ∈ l, j ∈ net.dependants i) →
      l.foldl (fun s j => if s.tainted j then s else Verif.Depend.taint net' j s) s
        = l.foldl (fun s j => if s.tainted j then s else Verif.Depend.taint net j s) s := by
    intro l
    induction l with
    | nil => intro s _; rfl
    | cons a l ihl =>
      intro s hl
      have ha := Net.mem_dependants.1 (hl a (by simp))
      simp only [List.foldl_cons]
      rw [ih (net.size - a) (by omega) a rfl s]
      exact ihl _ (fun j hj => hl j (by simp [hj]))
  rw [this _ s (fun j hj => hj)]

theorem SameDeps.fire {net net' : Net V} (h : SameDeps net net') (i : Nat) (s : State V) :
    Verif.Depend.fire net' i s = Verif.Depend.fire net i s := by
  unfold Verif.Depend.fire
  rw [h.dependants]
  have : (fun (s : State V) j => if s.tainted j then s else Verif.Depend.taint net' j s)
      = fun s j => if s.tainted j then s else Verif.Depend.taint net j s := by
    funext s j; rw [h.taint]
  rw [this]

theorem SameDeps.taintMe {net net' : Net V} (h : SameDeps net net') (i : Nat) (b : Bool) (s : State V) :
    Verif.Depend.taintMe net' i b s = Verif.Depend.taintMe net i b s := by
  unfold Verif.Depend.taintMe; rw [h.fire]

theorem SameDeps.store {net net' : Net V} (h : SameDeps net net') (i : Nat) (v : V) (s : State V) :
    Verif.Depend.store net' i v s = Verif.Depend.store net i v s := by
  unfold Verif.Depend.store; rw [h.taintMe, h.taintMe]

/-- A function body in which reads of `a` are replaced by reads of `b`. -/
def Prog.redirect (a b : Nat) : Prog V → Prog V
  | .ret v => .ret v
  | .read i k => .read (if i = a then b else i) (fun v => (k v).redirect a b)

/-- Objects whose evaluation would read `a`: the functions of the two networks differ there. -/
structure Redirected (net net' : Net V) (D : Nat → Prop) (a b : Nat) : Prop extends SameDeps net net' where
  same : ∀ i, ¬ D i → net'.kind i = net.kind i
  diff : ∀ i, D i → ∃ p, net.kind i = .computed p ∧ net'.kind i = .computed (p.redirect a b)
    ∧ (∀ j, p.MayRead j → j < i) ∧ b < i ∧ a < i
  leafA : net.kind a = .leaf
  leafB : net.kind b = .leaf
  depsA : net.deps a = []
  depsB : net.deps b = []
  onlyB : ∀ i, D i → ∀ d ∈ net.deps i, d = b

/-- The state in which the two networks cannot be told apart: `a` and `b` are clean, and everything that reads `a` is
clean unless the two have the same value. -/
def Alike (D : Nat → Prop) (a b : Nat) (s : State V) : Prop :=
  s.tainted a = false ∧ s.tainted b = false ∧ (s.val a = s.val b ∨ CleanOn D s)

theorem reach_ne_nil {net : Net V} {k i : Nat} (h : net.Reach k i) : ∃ d, d ∈ net.deps i := by
  cases h with
  | direct _ _ h => exact ⟨_, h⟩
  | step k' _ _ _ h => exact ⟨_, h⟩

theorem upAB {net net' : Net V} {D : Nat → Prop} {a b : Nat} (R : Redirected net net' D a b) :
    net.Up (fun i => i = a ∨ i = b) := by
  intro k i hi hr
  obtain ⟨d, hd⟩ := reach_ne_nil hr
  rcases hi with rfl | rfl
  · rw [R.depsA] at hd; cases hd
  · rw [R.depsB] at hd; cases hd

theorem upD {net net' : Net V} {D : Nat → Prop} {a b : Nat} (R : Redirected net net' D a b) :
    net.Up (fun i => D i ∨ i = b) := by
  intro k i hi hr
  rcases hi with hi | rfl
  · cases hr with
    | direct _ _ h => exact .inr (R.onlyB i hi k h)
    | step k' _ hk _ h =>
      have := R.onlyB i hi k' h
      subst this
      obtain ⟨d, hd⟩ := reach_ne_nil hk
      rw [R.depsB] at hd; cases hd
  · obtain ⟨d, hd⟩ := reach_ne_nil hr
    rw [R.depsB] at hd; cases hd

theorem alike_get {net net' : Net V} {D : Nat → Prop} {a b : Nat} (R : Redirected net net' D a b) (j : Nat)
    {s : State V} (h : Alike D a b s) : Alike D a b (get net j s).2 := by
  obtain ⟨ha, hb, hv⟩ := h
  have h1 := get_kept (upAB R) j s (by rintro i (rfl | rfl) <;> assumption)
  refine ⟨(h1 a (.inl rfl)).1, (h1 b (.inr rfl)).1, ?_⟩
  rcases hv with hv | hv
  · left
    rw [(h1 a (.inl rfl)).2, (h1 b (.inr rfl)).2, hv]
  · right
    have h2 := get_kept (upD R) j s (by
      rintro i (hi | rfl)
      · exact hv i hi
      · exact hb)
    exact fun i hi => (h2 i (.inl hi)).1

/-- Runs of a function body and of its redirected form agree when the getters agree. -/
theorem run_redirect {D : Nat → Prop} {a b : Nat} {g g' : Nat → State V → V × State V}
    (P : State V → Prop)
    (hg : ∀ j s, P s → g' j s = g j s) (hP : ∀ j s, P s → P (g j s).2)
    (hab : ∀ s, P s → g b s = g a s) (p : Prog V) (s : State V) (h : P s) :
    (p.redirect a b).run g' s = p.run g s := by
  have _ := D
  induction p generalizing s with
  | ret v => rfl
  | read i k ih =>
    simp only [Prog.redirect, Prog.run]
    by_cases hi : i = a
    · subst hi
      simp only [if_true]
      rw [hg b s h, hab s h]
      exact ih _ _ (hP _ s h)
    · simp only [if_neg hi]
      rw [hg i s h]
      exact ih _ _ (hP i s h)

theorem run_agree {g g' : Nat → State V → V × State V} (P : State V → Prop)
    (hg : ∀ j s, P s → g' j s = g j s) (hP : ∀ j s, P s → P (g j s).2)
    (p : Prog V) (s : State V) (h : P s) : p.run g' s = p.run g s := by
  induction p generalizing s with
  | ret v => rfl
  | read i k ih =>
    simp only [Prog.run]
    rw [hg i s h]
    exact ih _ _ (hP i s h)

theorem get_clean {net : Net V} {j : Nat} {s : State V} (h : s.tainted j = false) : get net j s = (s.val j, s) := by
  rw [get, h]; rfl

/-- Reads in the two networks agree. -/
theorem get_agree {net net' : Net V} {D : Nat → Prop} {a b : Nat} (R : Redirected net net' D a b) (j : Nat) :
    ∀ s : State V, Alike D a b s → get net' j s = get net j s := by
  induction j using Nat.strongRecOn with
  | _ j ih =>
  intro s h
  cases ht : s.tainted j with
  | false => rw [get_clean ht, get_clean ht]
  | true =>
  have hg : ∀ k s, Alike D a b s →
      (if _h : k < j then get net' k s else (s.val k, s)) = if _h : k < j then get net k s else (s.val k, s) := by
    intro k s hs
    by_cases hk : k < j
    · rw [dif_pos hk, dif_pos hk, ih k hk s hs]
    · rw [dif_neg hk, dif_neg hk]
  have hP : ∀ k s, Alike D a b s → Alike D a b (if _h : k < j then get net k s else (s.val k, s)).2 := by
    intro k s hs
    by_cases hk : k < j
    · rw [dif_pos hk]; exact alike_get R k hs
    · rw [dif_neg hk]; exact hs
  by_cases hD : D j
  · obtain ⟨p, hp, hp', hlt, hbj, haj⟩ := R.diff j hD
    have hv : s.val a = s.val b := by
      rcases h.2.2 with hv | hv
      · exact hv
      · have := hv j hD; rw [ht] at this; cases this
    have hrun : (p.redirect a b).run (fun k s => if _h : k < j then get net' k s else (s.val k, s)) s
        = p.run (fun k s => if _h : k < j then get net k s else (s.val k, s)) s := by
      refine run_redirect (D := D) (fun s => Alike D a b s ∧ s.val a = s.val b) (fun k s hs => hg k s hs.1)
        (fun k s hs => ⟨hP k s hs.1, ?_⟩) (fun s hs => ?_) p s ⟨h, hv⟩
      · have := get_kept (upAB R) k s (by rintro i (rfl | rfl); exact hs.1.1; exact hs.1.2.1)
        by_cases hk : k < j
        · simp only [hk, dif_pos]
          rw [(this a (.inl rfl)).2, (this b (.inr rfl)).2, hs.2]
        · simp only [hk, dif_neg, not_false_eq_true]
          exact hs.2
      · simp only [hbj, haj, dif_pos]
        rw [get_clean hs.1.1, get_clean hs.1.2.1, hs.2]
    rw [get, get, hp, hp']
    simp only [hrun, R.store]
  · have hk := R.same j hD
    rw [get, get, hk]
    cases hkj : net.kind j with
    | leaf => simp only [R.taintMe]
    | computed p =>
      simp only
      rw [run_agree (Alike D a b) hg hP p s h, R.store]
    | peer g conv => simp only [R.taintMe, R.store]

/-- An operation that assigns only independent quantities other than `b`. -/
def Op.Fine (net : Net V) (b : Nat) : Op V → Prop
  | .set i _ => net.kind i = .leaf ∧ i ≠ b
  | .get _ => True

/-- One operation: the networks agree, and what was clean stays clean. -/
theorem step_alike {net net' : Net V} {D : Nat → Prop} {a b : Nat} (R : Redirected net net' D a b)
    {op : Op V} {s : State V} (hfine : op.Fine net b) (ha : s.tainted a = false) (hb : s.tainted b = false)
    (hc : CleanOn D s) :
    step net' s op = step net s op ∧ (step net s op).2.tainted a = false
        ∧ (step net s op).2.tainted b = false ∧ CleanOn D (step net s op).2 := by
  cases op with
  | get i =>
    have h : Alike D a b s := ⟨ha, hb, .inr hc⟩
    have h1 := get_kept (upAB R) i s (by rintro i (rfl | rfl) <;> assumption)
    have h2 := get_kept (upD R) i s (by rintro i (hi | rfl); exact hc i hi; exact hb)
    refine ⟨by simp only [step]; rw [get_agree R i s h], (h1 a (.inl rfl)).1, (h1 b (.inr rfl)).1,
      fun i hi => (h2 i (.inl hi)).1⟩
  | set i v =>
    obtain ⟨hl, hib⟩ := hfine
    have hiD : ¬ D i := fun hD => by
      obtain ⟨p, hp, _⟩ := R.diff i hD
      rw [hl] at hp; cases hp
    have hset : set net' i v s = set net i v s := by
      unfold set; rw [R.same i hiD, hl]; simp only [R.taintMe]
    have h2 := set_kept (upD R) (x := i) (by rintro (h | h); exact hiD h; exact hib h) hl v (s := s)
      (by rintro i (hi | rfl); exact hc i hi; exact hb)
    refine ⟨by simp only [step]; rw [hset], ?_, (h2 b (.inr rfl)).1, fun k hk => (h2 k (.inl hk)).1⟩
    show (set net i v s).2.tainted a = false
    by_cases hia : i = a
    · subst hia
      simp only [set, hl]
      show upd _ _ _ _ = _
      simp
    · have h1 := set_kept (upAB R) (x := i) (by rintro (h | h); exact hia h; exact hib h) hl v (s := s)
        (by rintro i (rfl | rfl) <;> assumption)
      exact (h1 a (.inl rfl)).1

/-- Once everything that reads `a` has been evaluated, the two networks behave the same for ever. -/
theorem run_agree_ops {net net' : Net V} {D : Nat → Prop} {a b : Nat} (R : Redirected net net' D a b)
    (ops : List (Op V)) : ∀ s : State V, s.tainted a = false → s.tainted b = false → CleanOn D s →
      (∀ op ∈ ops, op.Fine net b) → run net' s ops = run net s ops := by
  induction ops with
  | nil => intro s _ _ _ _; rfl
  | cons op ops ih =>
    intro s ha hb hc hops
    obtain ⟨h1, h2, h3, h4⟩ := step_alike R (hops op (by simp)) ha hb hc
    simp only [run]
    rw [h1, ih _ h2 h3 h4 (fun o ho => hops o (by simp [ho]))]

end Verif.Depend
