import Verif.Depend.Invariant
namespace Verif.Depend

variable {V : Type}

/-- An operation on an existing object that is not an assignment to a computed one. -/
def Op.Accepted (net : Net V) : Op V → Prop
  | .set i _ => i < net.size ∧ ∀ p, net.kind i ≠ .computed p
  | .get i => i < net.size

theorem step_good {net : Net V} (wf : net.WF) (cov : net.Covered) {s : State V} {S : Spec V} (h : Inv net s S)
    {op : Op V} (hop : op.Accepted net) :
    (step net s op).1 = (S.step net op).1 ∧ Inv net (step net s op).2 (S.step net op).2 := by
  cases op with
  | get i =>
    obtain ⟨h1, h2, _⟩ := get_good wf cov S i hop s h
    exact ⟨by simp [step, Spec.step, h1], h2⟩
  | set i v =>
    obtain ⟨hi, hn⟩ := hop
    cases hk : net.kind i with
    | computed p => exact absurd hk (hn p)
    | leaf =>
      refine ⟨by simp [step, Spec.step, set, hk], ?_⟩
      have := set_good_leaf wf cov h hi hk v
      simpa [step, Spec.step, hk] using this
    | peer g conv =>
      refine ⟨by simp [step, Spec.step, set, hk], ?_⟩
      have := set_good_peer wf cov h hi hk v
      simpa [step, Spec.step, hk] using this

theorem run_good' {net : Net V} (wf : net.WF) (cov : net.Covered) (ops : List (Op V)) :
    ∀ {s : State V} {S : Spec V}, Inv net s S → (∀ op ∈ ops, op.Accepted net) →
    (run net s ops).1 = (S.run net ops).1 ∧ Inv net (run net s ops).2 (S.run net ops).2 := by
  induction ops with
  | nil => intro s S h _; exact ⟨rfl, h⟩
  | cons op ops ih =>
    intro s S h hops
    obtain ⟨h1, h2⟩ := step_good wf cov h (hops op (by simp))
    obtain ⟨h3, h4⟩ := ih h2 (fun o ho => hops o (by simp [ho]))
    exact ⟨by simp [run, Spec.run, h1, h3], by simpa [run, Spec.run] using h4⟩

theorem run_append (net : Net V) (s : State V) (a b : List (Op V)) :
    run net s (a ++ b) = ((run net s a).1 ++ (run net (run net s a).2 b).1, (run net (run net s a).2 b).2) := by
  induction a generalizing s with
  | nil => simp [run]
  | cons x a ih => simp [run, ih]

theorem Spec.run_append (net : Net V) (s : Spec V) (a b : List (Op V)) :
    s.run net (a ++ b) = ((s.run net a).1 ++ ((s.run net a).2.run net b).1, ((s.run net a).2.run net b).2) := by
  induction a generalizing s with
  | nil => simp [Spec.run]
  | cons x a ih => simp [Spec.run, ih]

theorem exact_reach {net : Net V} (wf : net.WF) {b r i : Nat} (hi : i < net.size) (hr : r ∈ net.deps i)
    (h : b = r ∨ net.Reach b r) : net.Reach b i := by
  have _ := wf
  rcases h with rfl | h
  · exact .direct i hi hr
  · exact .step r i h hi hr

theorem Net.Exact.covered {net : Net V} (wf : net.WF) (h : net.Exact) : net.Covered := by
  refine ⟨?_, ?_⟩
  · intro i hi d hd hl
    cases hk : net.kind i with
    | computed p => exact .direct i p d hk ((h i hi p hk).2 d hd)
    | leaf => have := wf.base_deps i hi (fun p hp => by rw [hk] at hp; cases hp); simp [this] at hd
    | peer g c => have := wf.base_deps i hi (fun p hp => by rw [hk] at hp; cases hp); simp [this] at hd
  · intro i hi p hp r hr b _ hbr
    exact exact_reach wf hi ((h i hi p hp).1 r hr) hbr

/-! ### Evaluation counts -/

/-- Assigning `x` may change `j`: `j` is declared to descend from `x` or from another representation of the same thing,
or is such a representation. -/
def Net.Affects (net : Net V) (x j : Nat) : Prop :=
  net.Reach x j ∨ ∃ g c q c', net.kind x = .peer g c ∧ q < net.size ∧ net.kind q = .peer g c' ∧
    (q = j ∨ net.Reach q j)

theorem fire_evals (net : Net V) (i : Nat) (s : State V) : (fire net i s).evals = s.evals :=
  (fire_fired net i s).1.evals

theorem set_keeps {net : Net V} (wf : net.WF) (cov : net.Covered) {s : State V} {S : Spec V} (h : Inv net s S)
    {x j : Nat} {v : V} (hx : (Op.set x v).Accepted net) (hn : ¬ net.Affects x j) (hj : s.tainted j = false) :
    (set net x v s).2.tainted j = false ∧ (set net x v s).2.evals j = s.evals j := by
  obtain ⟨hi, hnc⟩ := hx
  have hnr : ¬ net.Reach x j := fun hr => hn (.inl hr)
  cases hk : net.kind x with
  | computed p => exact absurd hk (hnc p)
  | leaf =>
    simp only [set, hk, taintMe]
    have hcl : ClosedC net (s.setVal x v) := h.closedC wf cov
    refine ⟨?_, by simp [State.setTaint, fire_evals, State.setVal]⟩
    by_cases hjx : j = x
    · simp [State.setTaint, hjx]
    · simp only [State.setTaint, upd_ne _ _ hjx]
      rw [fire_tainted_false wf hcl]; exact ⟨hj, hnr⟩
  | peer g conv =>
    have hpn : ∀ q ∈ net.peers g, ¬ net.IsComputed q := by
      rintro q hq ⟨p, hp⟩
      obtain ⟨_, c, hc⟩ := Net.mem_peers.1 hq
      rw [hc] at hp; cases hp
    have hcl : ClosedC net ((s.setVal x v).setManual g x) := h.closedC wf cov
    obtain ⟨t1, t2, t3, t4, t5⟩ := taintPeers_spec wf x (net.peers g) hpn _ hcl
    simp only [set, hk, taintMe, taintSynchro]
    generalize taintPeers net x (net.peers g) ((s.setVal x v).setManual g x) = w at t1 t2 t3 t4 t5 ⊢
    refine ⟨?_, by simp only [State.setTaint, fire_evals, t3]; rfl⟩
    by_cases hjx : j = x
    · simp [State.setTaint, hjx]
    · simp only [State.setTaint, upd_ne _ _ hjx]
      rw [fire_tainted_false wf t4]
      refine ⟨?_, hnr⟩
      have t5j := t5 j
      cases hw : w.tainted j with
      | false => rfl
      | true =>
        exfalso
        rcases t5j.1 hw with h1 | ⟨h1, _⟩ | ⟨q, h1, _, _, h2⟩
        · simp [State.setVal, State.setManual, hj] at h1
        · obtain ⟨h3, c, h4⟩ := Net.mem_peers.1 h1
          exact hn (.inr ⟨g, conv, j, c, hk, h3, h4, .inl rfl⟩)
        · obtain ⟨h3, c, h4⟩ := Net.mem_peers.1 h1
          exact hn (.inr ⟨g, conv, q, c, hk, h3, h4, .inr h2⟩)

theorem run_keeps {net : Net V} (wf : net.WF) (cov : net.Covered) {j : Nat} (ops : List (Op V)) :
    ∀ {s : State V} {S : Spec V}, Inv net s S → (∀ op ∈ ops, op.Accepted net) →
      (∀ x v, Op.set x v ∈ ops → ¬ net.Affects x j) → s.tainted j = false →
      (run net s ops).2.tainted j = false ∧ (run net s ops).2.evals j = s.evals j := by
  induction ops with
  | nil => intro s S _ _ _ hj; exact ⟨hj, rfl⟩
  | cons op ops ih =>
    intro s S h hops haff hj
    have hop := hops op (by simp)
    obtain ⟨_, h2⟩ := step_good wf cov h hop
    have hstep : (step net s op).2.tainted j = false ∧ (step net s op).2.evals j = s.evals j := by
      cases op with
      | set x v => exact set_keeps wf cov h hop (haff x v (by simp)) hj
      | get i =>
        obtain ⟨_, _, q, _⟩ := get_good wf cov S i hop s h
        refine ⟨q.clean j hj, ?_⟩
        rcases q.evals j with e | ⟨e, _⟩
        · exact e
        · simp [hj] at e
    obtain ⟨h3, h4⟩ := ih h2 (fun o ho => hops o (by simp [ho])) (fun x v hx => haff x v (by simp [hx])) hstep.1
    exact ⟨by simpa [run] using h3, by simp only [run]; rw [h4, hstep.2]⟩

theorem run_reads_once {net : Net V} (wf : net.WF) (cov : net.Covered) (is : List Nat) :
    ∀ {s : State V} {S : Spec V}, Inv net s S → (∀ i ∈ is, i < net.size) →
      Quiet s (run net s (is.map Op.get)).2 := by
  induction is with
  | nil => intro s S _ _; exact Quiet.refl s
  | cons i is ih =>
    intro s S h his
    obtain ⟨_, h2, q, _⟩ := get_good wf cov S i (his i (by simp)) s h
    have := ih h2 (fun o ho => his o (by simp [ho]))
    exact q.trans (by simpa [run, step] using this)

theorem inv_reject {net : Net V} {s : State V} {S : Spec V} (h : Inv net s S) {i : Nat} (v : V)
    (ht : s.tainted i = true) : Inv net (s.setVal i v) S := by
  refine ⟨h.leaf, h.man, ?_, h.reads⟩
  intro j hj hc
  have hji : j ≠ i := by rintro rfl; simp [State.setVal, ht] at hc
  simp only [State.setVal, upd_ne _ _ hji]
  exact h.clean j hj hc

end Verif.Depend
