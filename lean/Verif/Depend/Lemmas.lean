import Verif.Depend.Spec
namespace Verif.Depend

variable {V : Type}

@[simp] theorem upd_same {α : Type} (f : Nat → α) (i : Nat) (a : α) : upd f i a i = a := by simp [upd]
theorem upd_ne {α : Type} (f : Nat → α) {i j : Nat} (a : α) (h : j ≠ i) : upd f i a j = f j := by simp [upd, h]

/-- Only flags differ, and flags only go up. -/
structure Up (s s' : State V) : Prop where
  val : s'.val = s.val
  manual : s'.manual = s.manual
  evals : s'.evals = s.evals
  mono : ∀ j, s.tainted j = true → s'.tainted j = true

theorem Up.refl (s : State V) : Up s s := ⟨rfl, rfl, rfl, fun _ h => h⟩
theorem Up.trans {a b c : State V} (h : Up a b) (h' : Up b c) : Up a c :=
  ⟨h'.val.trans h.val, h'.manual.trans h.manual, h'.evals.trans h.evals, fun j hj => h'.mono j (h.mono j hj)⟩

/-- What one round of tainting starting below `x` guarantees. -/
structure Fired (net : Net V) (x : Nat) (s s' : State V) : Prop extends Up s s' where
  /-- newly tainted objects are declared descendants of `x` -/
  only : ∀ j, s'.tainted j = true → s.tainted j = false → net.Reach x j
  /-- dependants of newly tainted objects are tainted -/
  closed : ∀ j, s'.tainted j = true → s.tainted j = false → ∀ k ∈ net.dependants j, s'.tainted k = true

theorem Fired.refl (net : Net V) (x : Nat) (s : State V) : Fired net x s s :=
  { Up.refl s with
    only := fun j h h' => by simp [h] at h'
    closed := fun j h h' => by simp [h] at h' }

theorem Fired.trans {net : Net V} {x : Nat} {a b c : State V} (h : Fired net x a b) (h' : Fired net x b c) :
    Fired net x a c :=
  { h.toUp.trans h'.toUp with
    only := fun j hc ha => by
      by_cases hb : b.tainted j = true
      · exact h.only j hb ha
      · exact h'.only j hc (by simpa using hb)
    closed := fun j hc ha k hk => by
      by_cases hb : b.tainted j = true
      · exact h'.mono k (h.closed j hb ha k hk)
      · exact h'.closed j hc (by simpa using hb) k hk }

/-- The loop over a list of dependants, given that each call behaves. -/
theorem fired_foldl {net : Net V} {x : Nat} (T : Nat → State V → State V) (l : List Nat)
    (hT : ∀ j ∈ l, ∀ s, Fired net x s (T j s) ∧ (T j s).tainted j = true) (s : State V) :
    let s' := l.foldl (fun s j => if s.tainted j then s else T j s) s
    Fired net x s s' ∧ ∀ j ∈ l, s'.tainted j = true := by
  induction l generalizing s with
  | nil => exact ⟨Fired.refl net x s, by simp⟩
  | cons a l ih =>
    simp only [List.foldl_cons]
    have ha : Fired net x s (if s.tainted a then s else T a s) ∧
        (if s.tainted a then s else T a s).tainted a = true := by
      by_cases h : s.tainted a = true
      · simp [h, Fired.refl]
      · simp only [h]
        exact hT a (by simp) s
    have := ih (fun j hj => hT j (by simp [hj])) (if s.tainted a then s else T a s)
    refine ⟨ha.1.trans this.1, ?_⟩
    intro j hj
    rcases List.mem_cons.1 hj with rfl | hj
    · exact this.1.mono _ ha.2
    · exact this.2 j hj

theorem fire_eq_attach (net : Net V) (i : Nat) (s : State V) :
    (net.dependants i).attach.foldl (fun s j => if s.tainted j.1 then s else taint net j.1 s) s = fire net i s := by
  unfold fire
  conv => rhs; arg 3; rw [← List.attach_map_subtype_val (net.dependants i)]
  rw [List.foldl_map]

theorem taint_eq (net : Net V) (i : Nat) (s : State V) : taint net i s = (fire net i s).setTaint i true := by
  rw [taint, fire_eq_attach]



theorem fire_fired (net : Net V) (i : Nat) (s : State V) :
    Fired net i s (fire net i s) ∧ ∀ j ∈ net.dependants i, (fire net i s).tainted j = true := by
  -- strong induction on `size - i`
  induction hn : net.size - i using Nat.strongRecOn generalizing i s with
  | _ n ih =>
    unfold fire
    apply fired_foldl (T := taint net)
    intro j hj s
    have hm := Net.mem_dependants.1 hj
    have hr : net.Reach i j := .direct j hm.1 hm.2.2
    have := ih (net.size - j) (by omega) j s rfl
    rw [taint_eq]
    refine ⟨⟨⟨this.1.val, this.1.manual, this.1.evals, ?_⟩, ?_, ?_⟩, by simp [State.setTaint]⟩
    · intro k hk
      by_cases h : k = j
      · simp [State.setTaint, h]
      · simp [State.setTaint, upd_ne _ _ h, this.1.mono k hk]
    · intro k hk hk'
      by_cases h : k = j
      · exact h ▸ hr
      · simp only [State.setTaint, upd_ne _ _ h] at hk
        have hjk := this.1.only k hk hk'
        clear hk hk' h
        induction hjk with
        | direct k hk hjk => exact .step j k hr hk hjk
        | step a b _ hb hab ih => exact .step a b ih hb hab
    · intro k hk hk' l hl
      by_cases hlj : l = j
      · simp [State.setTaint, hlj]
      · simp only [State.setTaint, upd_ne _ _ hlj]
        by_cases h : k = j
        · subst h; exact this.2 l hl
        · simp only [State.setTaint, upd_ne _ _ h] at hk
          exact this.1.closed k hk hk' l hl

theorem Reach.lt {net : Net V} (wf : net.WF) {x j : Nat} (h : net.Reach x j) : x < j ∧ j < net.size := by
  induction h with
  | direct j hj hx => exact ⟨wf.deps_lt j hj x hx, hj⟩
  | step k j _ hj hk ih => exact ⟨Nat.lt_trans ih.1 (wf.deps_lt j hj k hk), hj⟩

/-- computed -/
def Net.IsComputed (net : Net V) (i : Nat) : Prop := ∃ p, net.kind i = .computed p

theorem Reach.computed {net : Net V} (wf : net.WF) {x j : Nat} (h : net.Reach x j) : net.IsComputed j := by
  have key : ∀ d, j < net.size → d ∈ net.deps j → net.IsComputed j := by
    intro d hj hd
    apply Classical.byContradiction
    intro hc
    have := wf.base_deps j hj (fun p hp => hc ⟨p, hp⟩)
    simp [this] at hd
  cases h with
  | direct _ hj hx => exact key _ hj hx
  | step k _ _ hj hk => exact key _ hj hk

/-- Clean objects have clean computed dependencies. -/
def ClosedC (net : Net V) (s : State V) : Prop :=
  ∀ i, i < net.size → s.tainted i = false → ∀ d ∈ net.deps i, net.IsComputed d → s.tainted d = false

/-- After a round of tainting below `x`, exactly the declared descendants of `x` are tainted in addition. -/
theorem fire_tainted {net : Net V} (wf : net.WF) {x : Nat} {s : State V} (hc : ClosedC net s) (j : Nat) :
    (fire net x s).tainted j = true ↔ s.tainted j = true ∨ net.Reach x j := by
  have hf := fire_fired net x s
  constructor
  · intro h
    by_cases h' : s.tainted j = true
    · exact .inl h'
    · exact .inr (hf.1.only j h (by simpa using h'))
  · rintro (h | h)
    · exact hf.1.mono j h
    · induction h with
      | direct j hj hx =>
        exact hf.2 j (Net.mem_dependants.2 ⟨hj, wf.deps_lt j hj x hx, hx⟩)
      | step k j hk hj hkj ih =>
        by_cases hs : s.tainted j = true
        · exact hf.1.mono j hs
        · have hkc := Reach.computed wf hk
          have hk0 := hc j hj (by simpa using hs) k hkj hkc
          exact hf.1.closed k ih hk0 j (Net.mem_dependants.2 ⟨hj, wf.deps_lt j hj k hkj, hkj⟩)

theorem fire_tainted_false {net : Net V} (wf : net.WF) {x : Nat} {s : State V} (hc : ClosedC net s) (j : Nat) :
    (fire net x s).tainted j = false ↔ s.tainted j = false ∧ ¬ net.Reach x j := by
  have := fire_tainted wf hc j (x := x)
  cases h : (fire net x s).tainted j <;> cases h' : s.tainted j <;> simp_all

theorem closedC_fire {net : Net V} (wf : net.WF) {x : Nat} {s : State V} (hc : ClosedC net s) :
    ClosedC net (fire net x s) := by
  intro i hi h d hd hdc
  rw [fire_tainted_false wf hc] at h ⊢
  exact ⟨hc i hi h.1 d hd hdc, fun hr => h.2 (.step d i hr hi hd)⟩

theorem closedC_setTaint_base {net : Net V} {x : Nat} {s : State V} (b : Bool)
    (hx : ¬ net.IsComputed x) (wf : net.WF) (hc : ClosedC net s) : ClosedC net (s.setTaint x b) := by
  intro i hi h d hd hdc
  have hdx : d ≠ x := fun e => hx (e ▸ hdc)
  simp only [State.setTaint, upd_ne _ _ hdx]
  by_cases hix : i = x
  · subst hix
    have := wf.base_deps i hi (fun p hp => hx ⟨p, hp⟩)
    simp [this] at hd
  · simp only [State.setTaint, upd_ne _ _ hix] at h
    exact hc i hi h d hd hdc

/-! ### Reads -/

/-- Objects read on the execution in which reads return `f`. -/
inductive Prog.PathRead (f : Nat → V) : Prog V → Nat → Prop
  | here (i k) : Prog.PathRead f (.read i k) i
  | there (i k j) : Prog.PathRead f (k (f i)) j → Prog.PathRead f (.read i k) j

theorem Prog.PathRead.may {f : Nat → V} {p : Prog V} {j : Nat} (h : p.PathRead f j) : p.MayRead j := by
  induction h with
  | here i k => exact .here i k
  | there i k j _ ih => exact .there i k _ j ih

theorem Prog.MustRead.path {f : Nat → V} {p : Prog V} {j : Nat} (h : p.MustRead j) : p.PathRead f j := by
  induction h with
  | here i k => exact .here i k
  | there i k j _ ih => exact .there i k j (ih (f i))

theorem Prog.eval_congr {f g : Nat → V} {p : Prog V} (h : ∀ j, p.PathRead f j → f j = g j) :
    p.eval f = p.eval g := by
  induction p with
  | ret v => rfl
  | read i k ih =>
    have hi := h i (.here i k)
    simp only [Prog.eval]
    rw [← hi]
    exact ih (f i) (fun j hj => h j (.there i k j hj))

theorem Prog.pathRead_congr {f g : Nat → V} {p : Prog V} (h : ∀ j, p.PathRead f j → f j = g j) {j : Nat}
    (hj : p.PathRead g j) : p.PathRead f j := by
  induction p with
  | ret v => cases hj
  | read i k ih =>
    have hi := h i (.here i k)
    cases hj with
    | here => exact .here _ k
    | there _ _ _ hj =>
      rw [← hi] at hj
      exact .there i k j (ih (f i) (fun j hj => h j (.there i k j hj)) hj)

theorem Spec.value_computed {net : Net V} (wf : net.WF) (S : Spec V) {i : Nat} {p : Prog V} (hi : i < net.size)
    (hp : net.kind i = .computed p) : S.value net i = p.eval (S.value net) := by
  rw [Spec.value]
  simp only [hp]
  exact Prog.eval_congr (fun j hj => by
    have hl := wf.reads_lt i hi p hp j hj.may
    simp [hl])

theorem Spec.value_leaf {net : Net V} (S : Spec V) {i : Nat} (hp : net.kind i = .leaf) :
    S.value net i = S.given i := by rw [Spec.value]; simp [hp]

theorem Spec.value_peer {net : Net V} (S : Spec V) {i g : Nat} {conv} (hp : net.kind i = .peer g conv) :
    S.value net i = if S.last g = i then S.given i else conv (S.last g) (S.given (S.last g)) := by
  rw [Spec.value]; simp [hp]

end Verif.Depend
