import Verif.Depend.Lemmas
namespace Verif.Depend

variable {V : Type}

/-- Relation between the cached state and the specification state. -/
structure Inv (net : Net V) (s : State V) (S : Spec V) : Prop where
  leaf : ∀ i, i < net.size → net.kind i = .leaf → s.tainted i = false
  man : ∀ i, i < net.size → ∀ g conv, net.kind i = .peer g conv →
    s.manual g = S.last g ∧ (∃ conv', net.kind (S.last g) = .peer g conv') ∧ S.last g < net.size ∧
    s.tainted (S.last g) = false
  clean : ∀ i, i < net.size → s.tainted i = false → s.val i = S.value net i
  reads : ∀ i, i < net.size → ∀ p, net.kind i = .computed p → s.tainted i = false →
    ∀ r, p.PathRead (S.value net) r → s.tainted r = false

theorem Inv.forces {net : Net V} (wf : net.WF) {s : State V} {S : Spec V} (h : Inv net s S) {i d : Nat}
    (hf : net.Forces i d) (hi : i < net.size) (hc : s.tainted i = false) : s.tainted d = false := by
  induction hf with
  | direct i p d hp hd => exact h.reads i hi p hp hc d hd.path
  | step i p r d hp hr _ ih =>
    have hlt := wf.reads_lt i hi p hp r (hr.path (f := S.value net)).may
    exact ih (by omega) (h.reads i hi p hp hc r hr.path)

/-- Clean objects have clean declared dependencies. -/
theorem Inv.closed {net : Net V} (wf : net.WF) (cov : net.Covered) {s : State V} {S : Spec V} (h : Inv net s S)
    {i d : Nat} (hi : i < net.size) (hc : s.tainted i = false) (hd : d ∈ net.deps i) : s.tainted d = false := by
  by_cases hl : net.kind d = .leaf
  · exact h.leaf d (by have := wf.deps_lt i hi d hd; omega) hl
  · exact h.forces wf (cov.forced i hi d hd hl) hi hc

theorem Inv.closedC {net : Net V} (wf : net.WF) (cov : net.Covered) {s : State V} {S : Spec V} (h : Inv net s S) :
    ClosedC net s := fun _ hi hc _ hd _ => h.closed wf cov hi hc hd

theorem Inv.reach_tainted {net : Net V} (wf : net.WF) (cov : net.Covered) {s : State V} {S : Spec V}
    (h : Inv net s S) {i j : Nat} (hi : s.tainted i = true) (hr : net.Reach i j) : s.tainted j = true := by
  induction hr with
  | direct j hj hij =>
    cases hc : s.tainted j with
    | true => rfl
    | false => have := h.closed wf cov hj hc hij; simp [hi] at this
  | step k j _ hj hkj ih =>
    cases hc : s.tainted j with
    | true => rfl
    | false => have := h.closed wf cov hj hc hkj; simp [ih] at this

theorem fire_noop {net : Net V} {i : Nat} {s : State V} (h : ∀ j, net.Reach i j → s.tainted j = true) :
    fire net i s = s := by
  have hf := (fire_fired net i s).1
  have ht : (fire net i s).tainted = s.tainted := by
    funext j
    cases hj : s.tainted j with
    | true => exact hf.mono j hj
    | false =>
      cases hj' : (fire net i s).tainted j with
      | false => rfl
      | true => have := h j (hf.only j hj' hj); simp [hj] at this
  have h1 := hf.val; have h2 := hf.manual; have h3 := hf.evals
  cases hs : fire net i s
  cases s
  simp_all

theorem store_eq {net : Net V} (wf : net.WF) {i : Nat} {v : V} {s : State V}
    (h : ∀ j, net.Reach i j → s.tainted j = true) : store net i v s = (s.setVal i v).setTaint i false := by
  unfold store taintMe
  have h1 : fire net i (s.setVal i v) = s.setVal i v := fire_noop (fun j hj => h j hj)
  rw [h1]
  have h2 : fire net i ((s.setVal i v).setTaint i false) = (s.setVal i v).setTaint i false :=
    fire_noop (fun j hj => by
      have := (Reach.lt wf hj).1
      have hne : j ≠ i := by omega
      simp only [State.setTaint, upd_ne _ _ hne]
      exact h j hj)
  rw [h2]
  simp only [State.setTaint]
  congr 1
  funext j
  by_cases hj : j = i <;> simp [upd, hj]

/-- Storing the right value in a tainted object whose reads are clean preserves the invariant. -/
theorem inv_store {net : Net V} {s : State V} {S : Spec V} (h : Inv net s S) {i : Nat} {v : V}
    (hi : i < net.size) (hv : v = S.value net i)
    (hr : ∀ p, net.kind i = .computed p → ∀ r, p.PathRead (S.value net) r → s.tainted r = false) : Inv net ((s.setVal i v).setTaint i false) S := by
  refine ⟨?_, ?_, ?_, ?_⟩
  · intro j hj hk
    by_cases hji : j = i
    · simp [State.setTaint, hji]
    · simp only [State.setTaint, State.setVal, upd_ne _ _ hji]; exact h.leaf j hj hk
  · intro j hj g conv hk
    obtain ⟨h1, h2, h3, h4⟩ := h.man j hj g conv hk
    refine ⟨h1, h2, h3, ?_⟩
    by_cases hji : S.last g = i
    · simp [State.setTaint, hji]
    · simp only [State.setTaint, State.setVal, upd_ne _ _ hji]; exact h4
  · intro j hj hc
    by_cases hji : j = i
    · subst hji; simp [State.setTaint, State.setVal, hv]
    · simp only [State.setTaint, State.setVal, upd_ne _ _ hji] at hc ⊢
      exact h.clean j hj hc
  · intro j hj p hp hc r hpr
    have aux : s.tainted r = false → ((s.setVal i v).setTaint i false).tainted r = false := by
      intro hr
      by_cases hri : r = i
      · simp [State.setTaint, hri]
      · simp only [State.setTaint, State.setVal, upd_ne _ _ hri]; exact hr
    by_cases hji : j = i
    · subst hji; exact aux (hr p hp r hpr)
    · simp only [State.setTaint, State.setVal, upd_ne _ _ hji] at hc
      exact aux (h.reads j hj p hp hc r hpr)

theorem inv_tick {net : Net V} {s : State V} {S : Spec V} (h : Inv net s S) (i : Nat) : Inv net (s.tick i) S :=
  ⟨h.leaf, h.man, h.clean, h.reads⟩

/-- What a read may do to the state. -/
structure Quiet (s s' : State V) : Prop where
  clean : ∀ j, s.tainted j = false → s'.tainted j = false
  evals : ∀ j, s'.evals j = s.evals j ∨
    (s.tainted j = true ∧ s'.tainted j = false ∧ s'.evals j = s.evals j + 1)

theorem Quiet.refl (s : State V) : Quiet s s := ⟨fun _ h => h, fun _ => .inl rfl⟩

theorem Quiet.trans {a b c : State V} (h : Quiet a b) (h' : Quiet b c) : Quiet a c := by
  refine ⟨fun j hj => h'.clean j (h.clean j hj), fun j => ?_⟩
  rcases h.evals j with e | ⟨e1, e2, e3⟩
  · rcases h'.evals j with e' | ⟨e1', e2', e3'⟩
    · left; omega
    · right
      refine ⟨?_, e2', by omega⟩
      cases hj : a.tainted j with
      | true => rfl
      | false => have := h.clean j hj; simp [e1'] at this
  · rcases h'.evals j with e' | ⟨e1', e2', e3'⟩
    · right; exact ⟨e1, h'.clean j e2, by omega⟩
    · simp [e2] at e1'

/-- A getter for objects below `n` is correct. -/
def GoodGetter (net : Net V) (S : Spec V) (n : Nat) (g : Nat → State V → V × State V) : Prop :=
  ∀ j, j < n → ∀ s, Inv net s S →
    (g j s).1 = S.value net j ∧ Inv net (g j s).2 S ∧ Quiet s (g j s).2 ∧ (g j s).2.tainted j = false ∧
      ∀ k, j < k → (g j s).2.tainted k = s.tainted k

theorem run_good {net : Net V} {S : Spec V} {n : Nat} {g : Nat → State V → V × State V}
    (hg : GoodGetter net S n g) (p : Prog V) (hp : ∀ j, p.MayRead j → j < n) (s : State V) (hs : Inv net s S) :
    (p.run g s).1 = p.eval (S.value net) ∧ Inv net (p.run g s).2 S ∧ Quiet s (p.run g s).2 ∧
      (∀ r, p.PathRead (S.value net) r → (p.run g s).2.tainted r = false) ∧
      ∀ k, n ≤ k → (p.run g s).2.tainted k = s.tainted k := by
  induction p generalizing s with
  | ret v => exact ⟨rfl, hs, Quiet.refl s, fun r hr => (by cases hr), fun _ _ => rfl⟩
  | read i k ih =>
    have hin := hp i (.here i k)
    obtain ⟨h1, h2, h3, h4, h5⟩ := hg i hin s hs
    obtain ⟨h1', h2', h3', h4', h5'⟩ := ih (g i s).1 (fun j hj => hp j (.there i k _ j hj)) (g i s).2 h2
    simp only [Prog.run, Prog.eval]
    refine ⟨by rw [h1', h1], h2', h3.trans h3', ?_, fun k hk => by rw [h5' k hk, h5 k (by omega)]⟩
    intro r hr
    cases hr with
    | here => exact h3'.clean _ h4
    | there _ _ _ hr => rw [← h1] at hr; exact h4' r hr

theorem quiet_store {s : State V} {i : Nat} {v : V} (ht : s.tainted i = true) :
    Quiet s (((s.tick i).setVal i v).setTaint i false) := by
  refine ⟨fun j hj => ?_, fun j => ?_⟩
  · by_cases hji : j = i
    · simp [State.setTaint, hji]
    · simp only [State.setTaint, State.setVal, State.tick, upd_ne _ _ hji]; exact hj
  · by_cases hji : j = i
    · subst hji; right; simp [State.setTaint, State.setVal, State.tick, ht]
    · left; simp [State.setTaint, State.setVal, State.tick, upd_ne _ _ hji]

theorem get_good {net : Net V} (wf : net.WF) (cov : net.Covered) (S : Spec V) (i : Nat) (hi : i < net.size) :
    ∀ s, Inv net s S →
    (get net i s).1 = S.value net i ∧ Inv net (get net i s).2 S ∧ Quiet s (get net i s).2 ∧
      (get net i s).2.tainted i = false ∧ ∀ k, i < k → (get net i s).2.tainted k = s.tainted k := by
  induction i using Nat.strongRecOn with
  | _ i ih =>
  intro s hs
  rw [get]
  cases ht : s.tainted i with
  | false => exact ⟨hs.clean i hi ht, hs, Quiet.refl s, ht, fun _ _ => rfl⟩
  | true =>
    simp only [if_true]
    cases hk : net.kind i with
    | leaf => have := hs.leaf i hi hk; simp [ht] at this
    | computed p =>
      simp only
      have hg : GoodGetter net S i (fun j s => if _h : j < i then get net j s else (s.val j, s)) := by
        intro j hj s hs
        simp only [hj, dif_pos]
        exact ih j hj (by omega) s hs
      obtain ⟨h1, h2, h3, h4, h5⟩ := run_good hg p (wf.reads_lt i hi p hk) s hs
      generalize p.run (fun j s => if _h : j < i then get net j s else (s.val j, s)) s = r at h1 h2 h3 h4 h5 ⊢
      have hval : r.1 = S.value net i := by rw [h1, Spec.value_computed wf S hi hk]
      have hti : r.2.tainted i = true := by rw [h5 i (Nat.le_refl i), ht]
      have hreach : ∀ j, net.Reach i j → (r.2.tick i).tainted j = true :=
        fun j hj => h2.reach_tainted wf cov hti hj
      rw [store_eq wf hreach]
      refine ⟨by simp [State.setTaint, State.setVal, hval], ?_, h3.trans (quiet_store hti),
        by simp [State.setTaint], fun k hk => ?_⟩
      · exact inv_store (inv_tick h2 i) hi hval
          (fun p' hp' q hq => by rw [hk] at hp'; cases hp'; exact h4 q hq)
      · have hne : k ≠ i := by omega
        simp only [State.setTaint, State.setVal, State.tick, upd_ne _ _ hne]
        exact h5 k (by omega)
    | peer g conv =>
      simp only
      obtain ⟨h1, h2, h3, h4⟩ := hs.man i hi g conv hk
      have hm : s.manual g ≠ i := by
        intro e; rw [← h1, e] at h4; simp [ht] at h4
      have hm' : S.last g ≠ i := by rw [← h1]; exact hm
      have htm : s.tainted (s.manual g) = false := by rw [h1]; exact h4
      simp only [hm, if_false, htm, Bool.false_eq_true]
      have hval : conv (s.manual g) (s.val (s.manual g)) = S.value net i := by
        rw [Spec.value_peer S hk, if_neg hm', h1, hs.clean _ h3 h4]
        obtain ⟨conv', hc'⟩ := h2
        rw [Spec.value_peer S hc', if_pos rfl]
      have hreach : ∀ j, net.Reach i j → (s.tick i).tainted j = true :=
        fun j hj => hs.reach_tainted wf cov ht hj
      rw [store_eq wf hreach]
      refine ⟨by simp [State.setTaint, State.setVal, hval], ?_, quiet_store ht, by simp [State.setTaint],
        fun k hk => ?_⟩
      · exact inv_store (inv_tick hs i) hi hval (fun p' hp' => by rw [hk] at hp'; cases hp')
      · have hne : k ≠ i := by omega
        simp only [State.setTaint, State.setVal, State.tick, upd_ne _ _ hne]


/-! ### Assignment -/

theorem taintPeers_spec {net : Net V} (wf : net.WF) (i : Nat) (ps : List Nat)
    (hps : ∀ q ∈ ps, ¬ net.IsComputed q) (s : State V) (hc : ClosedC net s) :
    (taintPeers net i ps s).val = s.val ∧ (taintPeers net i ps s).manual = s.manual ∧
    (taintPeers net i ps s).evals = s.evals ∧ ClosedC net (taintPeers net i ps s) ∧
    ∀ j, (taintPeers net i ps s).tainted j = true ↔
      s.tainted j = true ∨ (j ∈ ps ∧ j ≠ i) ∨ ∃ q ∈ ps, q ≠ i ∧ s.tainted q = false ∧ net.Reach q j := by
  induction ps generalizing s with
  | nil => simp [taintPeers, hc]
  | cons q ps ih =>
    have hstep : taintPeers net i (q :: ps) s =
      taintPeers net i ps (if q = i ∨ s.tainted q = true then s else fire net q (s.setTaint q true)) := by
      simp [taintPeers]
    rw [hstep]
    have hps' : ∀ q ∈ ps, ¬ net.IsComputed q := fun r hr => hps r (by simp [hr])
    by_cases h : q = i ∨ s.tainted q = true
    · rw [if_pos h]
      obtain ⟨h1, h2, h3, h4, h5⟩ := ih hps' s hc
      refine ⟨h1, h2, h3, h4, fun j => ?_⟩
      rw [h5]
      constructor
      · rintro (h6 | ⟨h6, h7⟩ | ⟨q', h6, h7⟩)
        · exact .inl h6
        · exact .inr (.inl ⟨by simp [h6], h7⟩)
        · exact .inr (.inr ⟨q', by simp [h6], h7⟩)
      · rintro (h6 | ⟨h6, h7⟩ | ⟨q', h6, h7, h8⟩)
        · exact .inl h6
        · rcases List.mem_cons.1 h6 with rfl | h6
          · rcases h with h | h
            · exact absurd h h7
            · exact .inl h
          · exact .inr (.inl ⟨h6, h7⟩)
        · rcases List.mem_cons.1 h6 with rfl | h6
          · rcases h with h | h
            · exact absurd h h7
            · simp [h] at h8
          · exact .inr (.inr ⟨q', h6, h7, h8⟩)
    · rw [if_neg h]
      have hqi : q ≠ i := fun e => h (.inl e)
      have hqc : s.tainted q = false := by
        cases hh : s.tainted q with
        | false => rfl
        | true => exact absurd (.inr hh) h
      have hq : ¬ net.IsComputed q := hps q (by simp)
      have hc0 := closedC_setTaint_base true hq wf hc
      have hf := (fire_fired net q (s.setTaint q true)).1
      have hc1 := closedC_fire wf hc0 (x := q)
      obtain ⟨h1, h2, h3, h4, h5⟩ := ih hps' (fire net q (s.setTaint q true)) hc1
      have htaint : ∀ k, (fire net q (s.setTaint q true)).tainted k = true ↔
          s.tainted k = true ∨ k = q ∨ net.Reach q k := by
        intro k
        rw [fire_tainted wf hc0]
        by_cases hk : k = q
        · subst hk; simp [State.setTaint]
        · simp [State.setTaint, upd_ne _ _ hk, hk]
      refine ⟨h1.trans hf.val, h2.trans hf.manual, h3.trans hf.evals, h4, fun j => ?_⟩
      rw [h5, htaint]
      constructor
      · rintro ((h6 | rfl | h6) | ⟨h6, h7⟩ | ⟨q', h6, h7, h8, h9⟩)
        · exact .inl h6
        · exact .inr (.inl ⟨by simp, hqi⟩)
        · exact .inr (.inr ⟨q, by simp, hqi, hqc, h6⟩)
        · exact .inr (.inl ⟨by simp [h6], h7⟩)
        · refine .inr (.inr ⟨q', by simp [h6], h7, ?_, h9⟩)
          cases hh : s.tainted q' with
          | false => rfl
          | true => have := (htaint q').2 (.inl hh); simp [this] at h8
      · rintro (h6 | ⟨h6, h7⟩ | ⟨q', h6, h7, h8, h9⟩)
        · exact .inl (.inl h6)
        · rcases List.mem_cons.1 h6 with rfl | h6
          · exact .inl (.inr (.inl rfl))
          · exact .inr (.inl ⟨h6, h7⟩)
        · rcases List.mem_cons.1 h6 with rfl | h6
          · exact .inl (.inr (.inr h9))
          · by_cases hq' : q' = q
            · subst hq'; exact .inl (.inr (.inr h9))
            · refine .inr (.inr ⟨q', h6, h7, ?_, h9⟩)
              cases hh : (fire net q (s.setTaint q true)).tainted q' with
              | false => rfl
              | true =>
                rcases (htaint q').1 hh with h10 | h10 | h10
                · simp [h10] at h8
                · exact absurd h10 hq'
                · exact absurd (Reach.computed wf h10) (hps' q' h6)

/-- The heart of freshness: after base quantities in `B` change, the computed objects left clean are unaffected. -/
theorem values_survive {net : Net V} (wf : net.WF) (cov : net.Covered) {s s' : State V} {S S' : Spec V}
    (h : Inv net s S) (B : Nat → Prop)
    (hsame : ∀ j, j < net.size → ¬ B j → ¬ net.IsComputed j → S'.value net j = S.value net j)
    (hBbase : ∀ b, B b → ¬ net.IsComputed b)
    (htaint : ∀ j, net.IsComputed j → (s'.tainted j = false ↔
      s.tainted j = false ∧ ∀ b, B b → s.tainted b = false → ¬ net.Reach b j))
    (i : Nat) (hi : i < net.size) (p : Prog V) (hp : net.kind i = .computed p) (hc : s'.tainted i = false) :
    S'.value net i = S.value net i ∧
    ∀ r, p.PathRead (S.value net) r → ¬ B r ∧ s.tainted r = false ∧ S'.value net r = S.value net r ∧
      (net.IsComputed r → s'.tainted r = false) := by
  induction i using Nat.strongRecOn generalizing p with
  | _ i ih =>
  obtain ⟨hc0, hcB⟩ := (htaint i ⟨p, hp⟩).1 hc
  have key : ∀ r, p.PathRead (S.value net) r → ¬ B r ∧ s.tainted r = false ∧
      S'.value net r = S.value net r ∧ (net.IsComputed r → s'.tainted r = false) := by
    intro r hr
    have hrc := h.reads i hi p hp hc0 r hr
    have hrlt := wf.reads_lt i hi p hp r hr.may
    have hB : ¬ B r := fun hb => hcB r hb hrc
      (cov.traced i hi p hp r hr.may r (fun q hq => hBbase r hb ⟨q, hq⟩) (.inl rfl))
    have hcomp : net.IsComputed r → s'.tainted r = false := fun hcr => by
      rw [htaint r hcr]
      refine ⟨hrc, fun b hb hbc hre => hcB b hb hbc ?_⟩
      exact cov.traced i hi p hp r hr.may b (fun q hq => hBbase b hb ⟨q, hq⟩) (.inr hre)
    refine ⟨hB, hrc, ?_, hcomp⟩
    by_cases hcr : net.IsComputed r
    · obtain ⟨pr, hpr⟩ := hcr
      exact (ih r hrlt (by omega) pr hpr (hcomp ⟨pr, hpr⟩)).1
    · exact hsame r (by omega) hB hcr
  refine ⟨?_, key⟩
  rw [Spec.value_computed wf S' hi hp, Spec.value_computed wf S hi hp]
  exact (Prog.eval_congr (fun j hj => ((key j hj).2.2.1).symm)).symm

theorem set_good_leaf {net : Net V} (wf : net.WF) (cov : net.Covered) {s : State V} {S : Spec V} (h : Inv net s S)
    {i : Nat} (hi : i < net.size) (hk : net.kind i = .leaf) (v : V) :
    Inv net (set net i v s).2 { S with given := upd S.given i v } := by
  have hni : ¬ net.IsComputed i := by rintro ⟨p, hp⟩; rw [hk] at hp; cases hp
  have hcl : ClosedC net (s.setVal i v) := h.closedC wf cov
  have hf := (fire_fired net i (s.setVal i v)).1
  have ht := fire_tainted wf hcl (x := i)
  simp only [set, hk, taintMe]
  generalize fire net i (s.setVal i v) = u at hf ht ⊢
  have hbase : ∀ j, ¬ net.IsComputed j → (u.setTaint i false).tainted j = s.tainted j := by
    intro j hj
    by_cases hji : j = i
    · subst hji; simp [State.setTaint, h.leaf j hi hk]
    · simp only [State.setTaint, upd_ne _ _ hji]
      have := ht j
      have hnr : ¬ net.Reach i j := fun hr => hj (Reach.computed wf hr)
      simp only [hnr, or_false, State.setVal] at this
      cases h1 : u.tainted j <;> cases h2 : s.tainted j <;> simp_all
  have hcomp : ∀ j, net.IsComputed j → ((u.setTaint i false).tainted j = false ↔
      s.tainted j = false ∧ ∀ b, b = i → s.tainted b = false → ¬ net.Reach b j) := by
    intro j hj
    have hji : j ≠ i := fun e => hni (e ▸ hj)
    simp only [State.setTaint, upd_ne _ _ hji]
    have := ht j
    have hic := h.leaf i hi hk
    simp only [State.setVal] at this
    cases h1 : u.tainted j <;> cases h2 : s.tainted j <;> simp_all
  have hsame : ∀ j, j < net.size → ¬ (j = i) → ¬ net.IsComputed j →
      Spec.value net { S with given := upd S.given i v } j = S.value net j := by
    intro j hjs hj hjc
    cases hkj : net.kind j with
    | leaf => rw [Spec.value_leaf _ hkj, Spec.value_leaf _ hkj]; simp [upd_ne _ _ hj]
    | computed p => exact absurd ⟨p, hkj⟩ hjc
    | peer g conv =>
      rw [Spec.value_peer _ hkj, Spec.value_peer _ hkj]
      by_cases hsz : S.last g = i
      · obtain ⟨_, ⟨c, hc⟩, _⟩ := h.man j hjs g conv hkj
        rw [hsz, hk] at hc; cases hc
      · simp [upd_ne _ _ hsz, upd_ne _ _ hj]
  have surv := fun j hj p hp hc => values_survive wf cov (s' := u.setTaint i false)
    (S' := { S with given := upd S.given i v }) h (fun b => b = i) hsame (fun b hb => hb ▸ hni) hcomp j hj p hp hc
  refine ⟨?_, ?_, ?_, ?_⟩
  · intro j hj hkj
    rw [hbase j (by rintro ⟨p, hp⟩; rw [hkj] at hp; cases hp)]
    exact h.leaf j hj hkj
  · intro j hj g conv hkj
    obtain ⟨h1, h2, h3, h4⟩ := h.man j hj g conv hkj
    refine ⟨by simp [State.setTaint, hf.manual, State.setVal, h1], h2, h3, ?_⟩
    obtain ⟨c, hc⟩ := h2
    rw [hbase _ (by rintro ⟨p, hp⟩; rw [hc] at hp; cases hp)]
    exact h4
  · intro j hj hc
    have hval : (u.setTaint i false).val j = (upd s.val i v) j := by simp [State.setTaint, hf.val, State.setVal]
    rw [hval]
    by_cases hji : j = i
    · subst hji; rw [Spec.value_leaf _ hk]; simp
    · rw [upd_ne _ _ hji]
      by_cases hjc : net.IsComputed j
      · obtain ⟨p, hp⟩ := hjc
        rw [(surv j hj p hp hc).1]
        exact h.clean j hj ((hcomp j ⟨p, hp⟩).1 hc).1
      · rw [hsame j hj hji hjc]
        exact h.clean j hj (by rw [← hbase j hjc]; exact hc)
  · intro j hj p hp hc r hr
    have hs := surv j hj p hp hc
    have hr' : p.PathRead (S.value net) r :=
      (Prog.pathRead_congr (fun q hq => ((hs.2 q hq).2.2.1).symm)) hr
    obtain ⟨k1, k2, k3, k4⟩ := hs.2 r hr'
    by_cases hrc : net.IsComputed r
    · exact k4 hrc
    · rw [hbase r hrc]; exact k2

theorem Net.mem_peers {net : Net V} {g j : Nat} :
    j ∈ net.peers g ↔ j < net.size ∧ ∃ conv, net.kind j = .peer g conv := by
  simp only [Net.peers, List.mem_filter, List.mem_range]
  constructor
  · rintro ⟨h1, h2⟩
    refine ⟨h1, ?_⟩
    cases hk : net.kind j with
    | leaf => simp [hk] at h2
    | computed p => simp [hk] at h2
    | peer g' conv => simp [hk] at h2; exact ⟨conv, by rw [h2]⟩
  · rintro ⟨h1, conv, h2⟩
    exact ⟨h1, by simp [h2]⟩

theorem set_good_peer {net : Net V} (wf : net.WF) (cov : net.Covered) {s : State V} {S : Spec V} (h : Inv net s S)
    {i g : Nat} {conv0 : Nat → V → V} (hi : i < net.size) (hk : net.kind i = .peer g conv0) (v : V) :
    Inv net (set net i v s).2 { given := upd S.given i v, last := upd S.last g i } := by
  have hni : ¬ net.IsComputed i := by rintro ⟨p, hp⟩; rw [hk] at hp; cases hp
  have hpn : ∀ q ∈ net.peers g, ¬ net.IsComputed q := by
    rintro q hq ⟨p, hp⟩
    obtain ⟨_, c, hc⟩ := Net.mem_peers.1 hq
    rw [hc] at hp; cases hp
  have hip : i ∈ net.peers g := Net.mem_peers.2 ⟨hi, conv0, hk⟩
  have hcl : ClosedC net ((s.setVal i v).setManual g i) := h.closedC wf cov
  obtain ⟨t1, t2, _, t4, t5⟩ := taintPeers_spec wf i (net.peers g) hpn _ hcl
  simp only [set, hk, taintMe, taintSynchro]
  generalize taintPeers net i (net.peers g) ((s.setVal i v).setManual g i) = w at t1 t2 t4 t5 ⊢
  have hf := (fire_fired net i w).1
  have ht := fire_tainted wf t4 (x := i)
  generalize fire net i w = u at hf ht ⊢
  simp only [State.setVal, State.setManual] at t1 t2 t5
  have hbase : ∀ j, j ∉ net.peers g → ¬ net.IsComputed j → (u.setTaint i false).tainted j = s.tainted j := by
    intro j hj hjc
    have hji : j ≠ i := fun e => hj (e ▸ hip)
    simp only [State.setTaint, upd_ne _ _ hji]
    have hnr : ∀ q, ¬ net.Reach q j := fun q hr => hjc (Reach.computed wf hr)
    have h1 := ht j
    have h2 := t5 j
    simp only [hnr, or_false, hj, false_and, and_false, exists_false] at h1 h2
    rw [h2] at h1
    cases h3 : u.tainted j <;> cases h4 : s.tainted j <;> simp_all
  have hpeer : ∀ j, j ∈ net.peers g → j ≠ i → (u.setTaint i false).tainted j = true := by
    intro j hj hji
    simp only [State.setTaint, upd_ne _ _ hji]
    rw [ht]; left; rw [t5]; right; left; exact ⟨hj, hji⟩
  have hcomp : ∀ j, net.IsComputed j → ((u.setTaint i false).tainted j = false ↔
      s.tainted j = false ∧ ∀ b, b ∈ net.peers g → s.tainted b = false → ¬ net.Reach b j) := by
    intro j hj
    have hji : j ≠ i := fun e => hni (e ▸ hj)
    have hjp : j ∉ net.peers g := fun e => hpn j e hj
    simp only [State.setTaint, upd_ne _ _ hji]
    have h1 := ht j
    rw [t5] at h1
    simp only [hjp, false_and, false_or] at h1
    constructor
    · intro hc
      have h1' : ¬ _ := fun e => by have := h1.2 e; simp [hc] at this
      have hsj : s.tainted j = false := by
        cases hh : s.tainted j with
        | false => rfl
        | true => exact absurd (.inl (.inl hh)) h1'
      refine ⟨hsj, fun b hb hbc hr => h1' ?_⟩
      by_cases hbi : b = i
      · subst hbi; exact .inr hr
      · exact .inl (.inr ⟨b, hb, hbi, hbc, hr⟩)
    · rintro ⟨hsj, hall⟩
      cases hu : u.tainted j with
      | false => rfl
      | true =>
        rcases h1.1 hu with (h2 | ⟨q, h2, _, h3, h4⟩) | h2
        · simp [hsj] at h2
        · exact absurd h4 (hall q h2 h3)
        · cases hic : s.tainted i with
          | false => exact absurd h2 (hall i hip hic)
          | true => have := h.reach_tainted wf cov hic h2; simp [hsj] at this
  have hsame : ∀ j, j < net.size → ¬ (j ∈ net.peers g) → ¬ net.IsComputed j →
      Spec.value net { given := upd S.given i v, last := upd S.last g i } j = S.value net j := by
    intro j hjs hj hjc
    have hji : j ≠ i := fun e => hj (e ▸ hip)
    cases hkj : net.kind j with
    | leaf => rw [Spec.value_leaf _ hkj, Spec.value_leaf _ hkj]; simp [upd_ne _ _ hji]
    | computed p => exact absurd ⟨p, hkj⟩ hjc
    | peer g' conv =>
      have hg : g' ≠ g := fun e => hj (Net.mem_peers.2 ⟨hjs, conv, by rw [hkj, e]⟩)
      rw [Spec.value_peer _ hkj, Spec.value_peer _ hkj]
      have hli : S.last g' ≠ i := by
        intro e
        obtain ⟨_, ⟨c, hc⟩, _⟩ := h.man j hjs g' conv hkj
        rw [e, hk] at hc; cases hc; exact hg rfl
      simp [upd_ne _ _ hg, upd_ne _ _ hji, upd_ne _ _ hli]
  have surv := fun j hj p hp hc => values_survive wf cov (s' := u.setTaint i false)
    (S' := { given := upd S.given i v, last := upd S.last g i }) h (fun b => b ∈ net.peers g) hsame hpn hcomp
    j hj p hp hc
  refine ⟨?_, ?_, ?_, ?_⟩
  · intro j hj hkj
    have hjp : j ∉ net.peers g := by
      intro e; obtain ⟨_, c, hc⟩ := Net.mem_peers.1 e; rw [hkj] at hc; cases hc
    rw [hbase j hjp (by rintro ⟨p, hp⟩; rw [hkj] at hp; cases hp)]
    exact h.leaf j hj hkj
  · intro j hj g' conv hkj
    obtain ⟨h1, h2, h3, h4⟩ := h.man j hj g' conv hkj
    have hm : (u.setTaint i false).manual = upd s.manual g i := by simp only [State.setTaint]; rw [hf.manual, t2]
    rw [hm]
    by_cases hg : g' = g
    · subst hg
      simp only [upd_same]
      exact ⟨trivial, ⟨conv0, hk⟩, hi, by simp [State.setTaint]⟩
    · simp only [upd_ne _ _ hg]
      refine ⟨h1, h2, h3, ?_⟩
      obtain ⟨c, hc⟩ := h2
      have hjp : S.last g' ∉ net.peers g := by
        intro e; obtain ⟨_, c', hc'⟩ := Net.mem_peers.1 e; rw [hc] at hc'; cases hc'; exact hg rfl
      rw [hbase _ hjp (by rintro ⟨p, hp⟩; rw [hc] at hp; cases hp)]
      exact h4
  · intro j hj hc
    have hval : (u.setTaint i false).val j = (upd s.val i v) j := by
      simp only [State.setTaint]; rw [hf.val, t1]
    rw [hval]
    by_cases hji : j = i
    · subst hji; rw [Spec.value_peer _ hk]; simp
    · rw [upd_ne _ _ hji]
      by_cases hjc : net.IsComputed j
      · obtain ⟨p, hp⟩ := hjc
        rw [(surv j hj p hp hc).1]
        exact h.clean j hj ((hcomp j ⟨p, hp⟩).1 hc).1
      · by_cases hjp : j ∈ net.peers g
        · have := hpeer j hjp hji; simp [hc] at this
        · rw [hsame j hj hjp hjc]
          exact h.clean j hj (by rw [← hbase j hjp hjc]; exact hc)
  · intro j hj p hp hc r hr
    have hs := surv j hj p hp hc
    have hr' : p.PathRead (S.value net) r :=
      (Prog.pathRead_congr (fun q hq => ((hs.2 q hq).2.2.1).symm)) hr
    obtain ⟨k1, k2, k3, k4⟩ := hs.2 r hr'
    by_cases hrc : net.IsComputed r
    · exact k4 hrc
    · rw [hbase r k1 hrc]; exact k2

/-- The initial choice of the representation assigned last is a member of the group. -/
def Net.ManualOk (net : Net V) (man0 : Nat → Nat) : Prop :=
  ∀ i, i < net.size → ∀ g conv, net.kind i = .peer g conv →
    (∃ conv', net.kind (man0 g) = .peer g conv') ∧ man0 g < net.size

theorem inv_init {net : Net V} (v0 : Nat → V) (man0 : Nat → Nat) (hm : net.ManualOk man0) :
    Inv net (initState net v0 man0) { given := v0, last := man0 } := by
  refine ⟨?_, ?_, ?_, ?_⟩
  · intro i _ hk; simp [initState, hk]
  · intro i hi g conv hk
    obtain ⟨⟨c, hc⟩, h2⟩ := hm i hi g conv hk
    exact ⟨rfl, ⟨c, hc⟩, h2, by simp [initState, hc]⟩
  · intro i hi hc
    cases hk : net.kind i with
    | leaf => rw [Spec.value_leaf _ hk]; rfl
    | computed p => simp [initState, hk] at hc
    | peer g conv =>
      simp [initState, hk] at hc
      rw [Spec.value_peer _ hk]; simp [hc, initState]
  · intro i hi p hp hc
    simp [initState, hp] at hc

end Verif.Depend
