/-
C125: results that come back through shared memory belong to the structures that were sent.
-/
import Mathlib.Data.List.Induction
import Mathlib.Data.List.Nodup
import Mathlib.Data.List.Perm.Subperm
import Mathlib.Order.Nat
import Mathlib.Tactic.Common
import Verif.Wire.Shm

namespace Verif.Shm

variable {S R : Type} (c : Cfg S R)

/-! ### The number in the names of the segments -/

/-- The lowest free descriptor is free and those below it are in use. -/
theorem fresh_spec (used : List ℕ) : fresh used ∉ used ∧ ∀ k < fresh used, k ∈ used := by
  have hex : ∃ k ∈ List.range (used.length + 1), k ∉ used := by
    by_contra hcon
    push Not at hcon
    have h1 : (List.range (used.length + 1)).length ≤ used.length :=
      (List.nodup_range.subperm hcon).length_le
    rw [List.length_range] at h1
    omega
  unfold fresh
  cases hf : (List.range (used.length + 1)).find? fun k => decide (k ∉ used) with
  | none =>
    rw [List.find?_eq_none] at hf
    obtain ⟨k, hk, hk2⟩ := hex
    exact absurd (by simpa using hk2) (hf k hk)
  | some x =>
    rw [List.find?_range_eq_some] at hf
    refine ⟨by simpa using hf.1, fun k hk => ?_⟩
    have := hf.2.2 k hk
    simpa using this

/-- A number that is free and below which none is free is the lowest. -/
theorem fresh_eq {used : List ℕ} {f : ℕ} (h1 : f ∉ used) (h2 : ∀ k < f, k ∈ used) : fresh used = f := by
  have h := fresh_spec used
  rcases Nat.lt_trichotomy (fresh used) f with hlt | heq | hgt
  · exact absurd (h2 _ hlt) h.1
  · exact heq
  · exact absurd (h.2 _ hgt) h1

/-- The exchange of data opens and closes nothing. -/
def SameFd (st st' : St S R) : Prop :=
  st'.used = st.used ∧ st'.var = st.var ∧ st'.nd = st.nd ∧ ∀ e, (st'.drv e).pref = (st.drv e).pref

theorem SameFd.refl (st : St S R) : SameFd st st := ⟨rfl, rfl, rfl, fun _ => rfl⟩

theorem SameFd.trans {a b d : St S R} (h : SameFd a b) (h' : SameFd b d) : SameFd a d :=
  ⟨h'.1.trans h.1, h'.2.1.trans h.2.1, h'.2.2.1.trans h.2.2.1, fun e => (h'.2.2.2 e).trans (h.2.2.2 e)⟩

theorem pref_update (f : ℕ → Drv S) (d : ℕ) (x : Drv S) (e : ℕ) (hx : x.pref = (f d).pref := by rfl) :
    (Function.update f d x e).pref = (f e).pref := by
  by_cases he : e = d
  · subst he; simpa using hx
  · simp [he]

theorem fill_same (st : St S R) (d : ℕ) (q : List S) : SameFd st (fill c st d q) := by
  unfold fill
  split
  · exact SameFd.refl st
  · split
    · exact ⟨rfl, rfl, rfl, fun e => pref_update _ _ _ e⟩
    · exact ⟨rfl, rfl, rfl, fun e => pref_update _ _ _ e⟩

theorem alloc_same (st : St S R) (d n : ℕ) : SameFd st (alloc c st d n) :=
  ⟨rfl, rfl, rfl, fun e => pref_update _ _ _ e⟩

theorem send_same (st : St S R) (d : ℕ) (q : List S) : SameFd st (send c st d q) := by
  unfold send
  split
  · exact SameFd.refl st
  · split
    · split
      · exact (alloc_same c st d _).trans (fill_same c _ d _)
      · exact fill_same c st d _
    · exact SameFd.refl st

theorem readPos_same (st : St S R) (d : ℕ) : SameFd st (readPos c st d) := by
  unfold readPos
  dsimp only
  repeat' split
  all_goals exact ⟨rfl, rfl, rfl, fun _ => rfl⟩

theorem writeForce_same (st : St S R) (d : ℕ) : SameFd st (writeForce st d) := by
  unfold writeForce
  dsimp only
  split
  all_goals exact ⟨rfl, rfl, rfl, fun _ => rfl⟩

theorem recv_same (st : St S R) (d : ℕ) : SameFd st (recv st d) := by
  unfold recv
  split
  · split
    · exact ⟨rfl, rfl, rfl, fun e => pref_update _ _ _ e⟩
    · exact SameFd.refl st
  · exact SameFd.refl st

/-- Events that only exchange data. -/
def Quiet : Ev S → Prop
  | .send _ _ | .recv _ | .read _ | .write _ => True
  | _ => False

theorem step_quiet (st : St S R) (ev : Ev S) (h : Quiet ev) : SameFd st (step c st ev) := by
  cases ev with
  | accept => exact h.elim
  | endPoll => exact h.elim
  | drop d => exact h.elim
  | send d q => exact send_same c st d q
  | recv d => exact recv_same st d
  | read d => exact readPos_same c st d
  | write d => exact writeForce_same st d

theorem run_quiet (evs : List (Ev S)) (h : ∀ ev ∈ evs, Quiet ev) (st : St S R) : SameFd st (run c st evs) := by
  induction evs generalizing st with
  | nil => exact SameFd.refl st
  | cons ev evs ih =>
    exact (step_quiet c st ev (h ev (by simp))).trans (ih (fun e he => h e (by simp [he])) _)

/-- No event changes the numbers of the clients that are there. -/
theorem step_pref (st : St S R) (ev : Ev S) :
    st.nd ≤ (step c st ev).nd ∧ ∀ d < st.nd, ((step c st ev).drv d).pref = (st.drv d).pref := by
  cases ev with
  | accept =>
    refine ⟨Nat.le_succ _, fun d hd => ?_⟩
    simp only [step, accept]
    rw [Function.update_of_ne (by omega)]
  | endPoll => exact ⟨le_refl _, fun _ _ => rfl⟩
  | drop d =>
    simp only [step, drop]
    split
    · exact ⟨le_refl _, fun e _ => pref_update st.drv d _ e⟩
    · exact ⟨le_refl _, fun _ _ => rfl⟩
  | send d q => exact ⟨(send_same c st d q).2.2.1.ge, fun e _ => (send_same c st d q).2.2.2 e⟩
  | recv d => exact ⟨(recv_same st d).2.2.1.ge, fun e _ => (recv_same st d).2.2.2 e⟩
  | read d => exact ⟨(readPos_same c st d).2.2.1.ge, fun e _ => (readPos_same c st d).2.2.2 e⟩
  | write d => exact ⟨(writeForce_same st d).2.2.1.ge, fun e _ => (writeForce_same st d).2.2.2 e⟩

/-- No two clients, past or present, have the same names for their segments. -/
def Distinct (st : St S R) : Prop :=
  ∀ i < st.nd, ∀ j < st.nd, (st.drv i).pref = (st.drv j).pref → i = j

theorem Distinct.back {st : St S R} {ev : Ev S} (h : Distinct (step c st ev)) : Distinct st := by
  obtain ⟨h1, h2⟩ := step_pref c st ev
  intro i hi j hj hij
  exact h i (by omega) j (by omega) (by rw [h2 i hi, h2 j hj]; exact hij)

theorem run_append (st : St S R) (a b : List (Ev S)) : run c st (a ++ b) = run c (run c st a) b :=
  List.foldl_append

/-! ### Two polls -/

theorem accept_pref (st : St S R) : ((accept st).drv st.nd).pref = fresh st.used := by
  simp [accept]

/-- A client that is accepted in one round and a client that is the first to be accepted in the next
round get segments with the same names, whatever data are exchanged in between. -/
theorem next_poll_same_names (st : St S R) (hv : st.var = none) (q1 q2 : List (Ev S))
    (h1 : ∀ ev ∈ q1, Quiet ev) (h2 : ∀ ev ∈ q2, Quiet ev) :
    let st' := run c st ([.accept] ++ q1 ++ [.endPoll] ++ q2 ++ [.accept])
    st'.nd = st.nd + 2 ∧ (st'.drv (st.nd + 1)).pref = (st'.drv st.nd).pref := by
  intro st'
  set a := accept st with ha
  set b := run c a q1 with hb
  set d := endPoll b with hd
  set e := run c d q2 with he
  have hst' : st' = accept e := by
    simp only [st', run_append]
    rfl
  have hb1 := run_quiet c q1 h1 a
  have he1 := run_quiet c q2 h2 d
  rw [← hb] at hb1
  rw [← he] at he1
  have hnd : e.nd = st.nd + 1 := by
    rw [he1.2.2.1]
    change b.nd = _
    rw [hb1.2.2.1]
    rfl
  have hused : e.used = (fresh (fresh st.used :: st.used) :: fresh st.used :: st.used).filter
      fun k => decide (k ≠ fresh st.used) := by
    rw [he1.1]
    change closeFd b.used b.var = _
    rw [hb1.1, hb1.2.1]
    simp only [ha, accept, hv, closeFd]
  have hpref : (e.drv st.nd).pref = fresh st.used := by
    rw [he1.2.2.2]
    change (b.drv st.nd).pref = _
    rw [hb1.2.2.2, ha, accept_pref]
  have hf := fresh_spec st.used
  have hg := (fresh_spec (fresh st.used :: st.used)).1
  refine ⟨?_, ?_⟩
  · rw [hst']
    change e.nd + 1 = _
    rw [hnd]
  · rw [hst', ← hnd, accept_pref]
    have hlt : st.nd ≠ e.nd := by omega
    have : ((accept e).drv st.nd).pref = (e.drv st.nd).pref := by
      simp [accept, hlt]
    rw [this, hpref]
    refine fresh_eq ?_ ?_
    · rw [hused]
      simp
    · intro k hk
      rw [hused, List.mem_filter]
      refine ⟨?_, by simpa using hk.ne⟩
      exact List.mem_cons_of_mem _ (List.mem_cons_of_mem _ (hf.2 k hk))

/-! ### One poll -/

/-- Everything up to the descriptor of the last client is in use and the names go up. -/
def Rising (st : St S R) : Prop :=
  (st.var = none → st.nd = 0) ∧
  (∀ v, st.var = some v → (∀ k ≤ v, k ∈ st.used) ∧ ∀ d < st.nd, (st.drv d).pref ≤ v) ∧
  ∀ i j, i < j → j < st.nd → (st.drv i).pref < (st.drv j).pref

theorem Rising.accept {st : St S R} (h : Rising st) : Rising (accept st) := by
  obtain ⟨h0, h1, h2⟩ := h
  have hf := fresh_spec st.used
  have hlow : ∀ d < st.nd, (st.drv d).pref < fresh st.used := by
    intro d hd
    cases hv : st.var with
    | none => have := h0 hv; omega
    | some v =>
      have hv1 := h1 v hv
      have : v < fresh st.used := by
        by_contra hcon
        exact hf.1 (hv1.1 _ (by omega))
      have := hv1.2 d hd
      omega
  refine ⟨fun hn => by simp [Shm.accept] at hn, ?_, ?_⟩
  · intro w hw
    have hw2 : w = fresh st.used := by
      simp only [Shm.accept, Option.some.injEq] at hw
      exact hw.symm
    subst hw2
    constructor
    · cases hv : st.var with
      | none =>
        intro k hk
        simp only [Shm.accept, hv, closeFd]
        rcases Nat.lt_or_ge k (fresh st.used) with hlt | hge
        · exact List.mem_cons_of_mem _ (List.mem_cons_of_mem _ (hf.2 k hlt))
        · have : k = fresh st.used := by omega
          subst this
          simp
      | some v =>
        have hv1 := h1 v hv
        have hvlt : v < fresh st.used := by
          by_contra hcon
          exact hf.1 (hv1.1 _ (by omega))
        have hg : fresh (closeFd (fresh st.used :: st.used) (some v)) = v := by
          refine fresh_eq (by simp [closeFd]) fun k hk => ?_
          simp only [closeFd, List.mem_filter]
          exact ⟨List.mem_cons_of_mem _ (hv1.1 k hk.le), by simpa using hk.ne⟩
        intro k hk
        simp only [Shm.accept, hv, hg]
        by_cases hkv : k = v
        · subst hkv; simp
        · refine List.mem_cons_of_mem _ ?_
          simp only [closeFd, List.mem_filter]
          refine ⟨?_, by simpa using hkv⟩
          rcases Nat.lt_or_ge k (fresh st.used) with hlt | hge
          · exact List.mem_cons_of_mem _ (hf.2 k hlt)
          · have : k = fresh st.used := by omega
            subst this
            simp
    · intro d hd
      simp only [Shm.accept] at hd ⊢
      by_cases hdn : d = st.nd
      · subst hdn; simp
      · have := hlow d (by omega)
        simp only [ne_eq, hdn, not_false_eq_true, Function.update_of_ne]
        omega
  · intro i j hij hj
    simp only [Shm.accept] at hj ⊢
    have hi : i ≠ st.nd := by omega
    by_cases hjn : j = st.nd
    · subst hjn
      simp only [ne_eq, hi, not_false_eq_true, Function.update_of_ne, Function.update_self]
      exact hlow i hij
    · simp only [ne_eq, hi, hjn, not_false_eq_true, Function.update_of_ne]
      exact h2 i j hij (by omega)

theorem Rising.same {st st' : St S R} (h : Rising st) (hs : SameFd st st') : Rising st' := by
  obtain ⟨a, b, d, e⟩ := hs
  unfold Rising
  simp only [a, b, d, e]
  exact h

/-- Events of one round: no client is given up and the round does not end. -/
def InPoll : Ev S → Prop
  | .endPoll | .drop _ => False
  | _ => True

/-- Later: no client is accepted. -/
def NoAccept : Ev S → Prop
  | .accept => False
  | _ => True

theorem Rising.run {evs : List (Ev S)} (h : ∀ ev ∈ evs, InPoll ev) {st : St S R} (hr : Rising st) :
    Rising (run c st evs) := by
  induction evs generalizing st with
  | nil => exact hr
  | cons ev evs ih =>
    refine ih (fun e he => h e (by simp [he])) ?_
    have hev := h ev (by simp)
    cases ev with
    | accept => exact hr.accept
    | endPoll => exact hev.elim
    | drop d => exact hev.elim
    | send d q => exact hr.same (send_same c st d q)
    | recv d => exact hr.same (recv_same st d)
    | read d => exact hr.same (readPos_same c st d)
    | write d => exact hr.same (writeForce_same st d)

theorem noAccept_nd (st : St S R) (ev : Ev S) (h : NoAccept ev) : (step c st ev).nd = st.nd := by
  cases ev with
  | accept => exact h.elim
  | endPoll => rfl
  | drop d => simp only [step, drop]; split <;> rfl
  | send d q => exact (send_same c st d q).2.2.1
  | recv d => exact (recv_same st d).2.2.1
  | read d => exact (readPos_same c st d).2.2.1
  | write d => exact (writeForce_same st d).2.2.1

theorem Distinct.run {evs : List (Ev S)} (h : ∀ ev ∈ evs, NoAccept ev) {st : St S R} (hd : Distinct st) :
    Distinct (run c st evs) := by
  induction evs generalizing st with
  | nil => exact hd
  | cons ev evs ih =>
    refine ih (fun e he => h e (by simp [he])) ?_
    have hn := noAccept_nd c st ev (h ev (by simp))
    have hp := (step_pref c st ev).2
    intro i hi j hj hij
    rw [hn] at hi hj
    rw [hp i hi, hp j hj] at hij
    exact hd i hi j hj hij

/-- Clients that are all accepted in the same round have different names. -/
theorem one_poll_distinct (used : List ℕ) (evs evs' : List (Ev S)) (h : ∀ ev ∈ evs, InPoll ev)
    (h' : ∀ ev ∈ evs', NoAccept ev) : Distinct (run c (start c used) (evs ++ evs')) := by
  rw [run_append]
  refine Distinct.run c h' ?_
  have hr : Rising (run c (start c used) evs) := by
    refine Rising.run c h ⟨fun _ => rfl, fun v hv => ?_, fun i j _ hj => ?_⟩
    · simp [start] at hv
    · simp [start] at hj
  intro i hi j hj hij
  rcases Nat.lt_trichotomy i j with hlt | heq | hgt
  · have := hr.2.2 i j hlt hj; omega
  · exact heq
  · have := hr.2.2 j i hgt hi; omega

/-! ### The results -/

/-- What holds of one client as long as the names are distinct. -/
structure Good (st : St S R) (d : ℕ) : Prop where
  lt : ∀ id nat, (st.drv d).seg = some (id, nat) → id < st.nmem ∧ d < st.nd
  att : ∀ id, (st.cli d).att = some id → ∃ nat, (st.drv d).seg = some (id, nat)
  box : ∀ p, (st.cli d).inbox = some (some p) → p = (st.drv d).pref
  idle : (st.drv d).wait = none →
    (st.cli d).inbox = none ∧ (st.cli d).got = none ∧ (st.cli d).ready = false
  busy : ∀ reqs, (st.drv d).wait = some reqs → ∃ id nat, (st.drv d).seg = some (id, nat) ∧
    (st.mem id).inp = padded c.n reqs ∧
    (∀ rs, (st.cli d).got = some rs → rs = (padded c.n reqs).map c.eval ∧ (st.cli d).att = some id ∧
      (st.cli d).inbox = none ∧ (st.cli d).ready = false) ∧
    ((st.cli d).ready = true → (st.mem id).out = (padded c.n reqs).map c.eval ∧
      (st.cli d).inbox = none ∧ (st.cli d).got = none) ∧
    ((st.cli d).inbox = none → (st.cli d).got = none → (st.cli d).ready = true)
  live : d < st.nd → (st.drv d).alive = true → (st.cli d).dead = false ∧
    (((st.drv d).seg = none ∧ (st.drv d).first = true ∧ (st.cli d).att = none ∧ (st.drv d).wait = none) ∨
     ∃ id nat, (st.drv d).seg = some (id, nat) ∧
      (((st.drv d).first = false ∧ (st.cli d).att = some id) ∨
       ((st.cli d).att = none ∧ st.names (st.drv d).pref = some id ∧
        (((st.drv d).first = true ∧ (st.drv d).wait = none) ∨
         ((st.drv d).first = false ∧ (st.cli d).inbox = some (some (st.drv d).pref))))))

/-- What holds of all of them. -/
structure Inv (st : St S R) : Prop where
  good : ∀ d, Good c st d
  inj : ∀ d e id n m, (st.drv d).seg = some (id, n) → (st.drv e).seg = some (id, m) → d = e
  names : ∀ p id, st.names p = some id → ∃ d < st.nd, (st.drv d).pref = p ∧ ∃ n, (st.drv d).seg = some (id, n)
  log : ∀ x ∈ st.log, x.2 = x.1.map c.eval

/-- Nothing that a client sees has changed. -/
theorem Good.frame {st st' : St S R} {d : ℕ} (h : Good c st d) (h1 : st'.drv d = st.drv d)
    (h2 : st'.cli d = st.cli d) (h3 : ∀ id nat, (st.drv d).seg = some (id, nat) → st'.mem id = st.mem id)
    (h4 : st.nmem ≤ st'.nmem) (h5 : st.nd ≤ st'.nd) (h6 : d < st'.nd → (st.drv d).alive = true → d < st.nd)
    (h7 : d < st.nd → st'.names (st.drv d).pref = st.names (st.drv d).pref) : Good c st' d where
  lt := by
    intro id nat hs
    rw [h1] at hs
    have := h.lt id nat hs
    omega
  att := by rw [h1, h2]; exact h.att
  box := by rw [h1, h2]; exact h.box
  idle := by rw [h1, h2]; exact h.idle
  busy := by
    rw [h1, h2]
    intro reqs hr
    obtain ⟨id, nat, hs, hrest⟩ := h.busy reqs hr
    exact ⟨id, nat, hs, by rw [h3 id nat hs]; exact hrest⟩
  live := by
    rw [h1, h2]
    intro hlt hal
    rw [h7 (h6 hlt hal)]
    exact h.live (h6 hlt hal) hal

/-- A client that does not exist has sent nothing. -/
theorem Good.beyond {st : St S R} {d : ℕ} (h : Good c st d) (hd : st.nd ≤ d) : (st.drv d).seg = none := by
  cases hs : (st.drv d).seg with
  | none => rfl
  | some x => have := (h.lt x.1 x.2 hs).2; omega

theorem take_padded (n : ℕ) (reqs : List S) (f : S → R) :
    ((padded n reqs).map f).take reqs.length = reqs.map f := by
  unfold padded
  rw [List.map_append, List.take_left' (by simp)]

theorem Inv.start (used : List ℕ) : Inv c (start c used : St S R) where
  good := fun d => by
    constructor <;> simp [Shm.start]
  inj := by intro d e id n m h; simp [Shm.start] at h
  names := by intro p id h; simp [Shm.start] at h
  log := by intro x hx; simp [Shm.start] at hx

theorem Inv.accept {st : St S R} (h : Inv c st) : Inv c (accept st) where
  good := fun d => by
    by_cases hd : d = st.nd
    · subst hd
      constructor <;> simp [Shm.accept]
    · refine (h.good d).frame c (by simp [Shm.accept, hd]) (by simp [Shm.accept, hd]) (fun _ _ _ => rfl)
        (le_refl _) (Nat.le_succ _) (fun h1 _ => ?_) (fun _ => rfl)
      have : d < st.nd + 1 := h1
      omega
  inj := by
    intro d e id n m h1 h2
    simp only [Shm.accept] at h1 h2
    by_cases hd : d = st.nd
    · subst hd; simp at h1
    · by_cases he : e = st.nd
      · subst he; simp at h2
      · simp only [ne_eq, hd, he, not_false_eq_true, Function.update_of_ne] at h1 h2
        exact h.inj d e id n m h1 h2
  names := by
    intro p id hp
    obtain ⟨d, hd, h1, h2⟩ := h.names p id hp
    have hne : d ≠ st.nd := by omega
    exact ⟨d, Nat.lt_succ_of_lt hd, by simpa [Shm.accept, hne] using h1, by simpa [Shm.accept, hne] using h2⟩
  log := h.log

theorem Inv.endPoll {st : St S R} (h : Inv c st) : Inv c (endPoll st) where
  good := fun d => (h.good d).frame c rfl rfl (fun _ _ _ => rfl) (le_refl _) (le_refl _) (fun h1 _ => h1)
    (fun _ => rfl)
  inj := h.inj
  names := h.names
  log := h.log

theorem Inv.alloc {st : St S R} (h : Inv c st) (hD : Distinct st) {d : ℕ} (hd : d < st.nd)
    (hs : (st.drv d).seg = none) (hw : (st.drv d).wait = none) (ha : (st.drv d).alive = true) (n : ℕ) :
    Inv c (alloc c st d n) where
  good := fun e => by
    by_cases he : e = d
    · subst he
      have hg := h.good e
      have hl := hg.live hd ha
      have hi := hg.idle hw
      have hfa : (st.drv e).first = true ∧ (st.cli e).att = none := by
        rcases hl.2 with h1 | ⟨id, nat, h1, _⟩
        · exact ⟨h1.2.1, h1.2.2.1⟩
        · rw [hs] at h1; simp at h1
      refine ⟨?_, ?_, ?_, ?_, ?_, ?_⟩
      · intro id nat h1
        simp only [Shm.alloc, Function.update_self, Option.some.injEq, Prod.mk.injEq] at h1 ⊢
        omega
      · intro id h1
        have h2 : (st.cli e).att = some id := h1
        rw [hfa.2] at h2; simp at h2
      · intro p h1
        have h2 : (st.cli e).inbox = some (some p) := h1
        rw [hi.1] at h2; simp at h2
      · intro _; exact hi
      · intro reqs h1
        simp only [Shm.alloc, Function.update_self] at h1
        rw [hw] at h1; simp at h1
      · intro _ _
        refine ⟨hl.1, Or.inr ⟨st.nmem, n, by simp [Shm.alloc], Or.inr ⟨hfa.2, ?_, Or.inl ⟨?_, ?_⟩⟩⟩⟩
        · simp [Shm.alloc]
        · simpa [Shm.alloc] using hfa.1
        · simpa [Shm.alloc] using hw
    · refine (h.good e).frame c (by simp [Shm.alloc, he]) rfl (fun id nat h1 => ?_) (Nat.le_succ _)
        (le_refl _) (fun h1 _ => h1) (fun h1 => ?_)
      · have := ((h.good e).lt id nat h1).1
        have hne : id ≠ st.nmem := by omega
        simp [Shm.alloc, hne]
      · have hne : (st.drv e).pref ≠ (st.drv d).pref := fun h2 => he (hD e h1 d hd h2)
        simp [Shm.alloc, hne]
  inj := by
    intro e f id k m h1 h2
    simp only [Shm.alloc] at h1 h2
    by_cases he : e = d
    · by_cases hf : f = d
      · rw [he, hf]
      · subst he
        simp only [Function.update_self, ne_eq, hf, not_false_eq_true, Function.update_of_ne,
          Option.some.injEq, Prod.mk.injEq] at h1 h2
        have := ((h.good f).lt id m h2).1
        omega
    · by_cases hf : f = d
      · subst hf
        simp only [Function.update_self, ne_eq, he, not_false_eq_true, Function.update_of_ne,
          Option.some.injEq, Prod.mk.injEq] at h1 h2
        have := ((h.good e).lt id k h1).1
        omega
      · simp only [ne_eq, he, hf, not_false_eq_true, Function.update_of_ne] at h1 h2
        exact h.inj e f id k m h1 h2
  names := by
    intro p id hp
    simp only [Shm.alloc] at hp ⊢
    by_cases hpd : p = (st.drv d).pref
    · subst hpd
      simp only [Function.update_self, Option.some.injEq] at hp
      exact ⟨d, hd, by simp, n, by simp [hp]⟩
    · simp only [ne_eq, hpd, not_false_eq_true, Function.update_of_ne] at hp
      obtain ⟨e, he, h1, h2⟩ := h.names p id hp
      have hne : e ≠ d := fun h3 => hpd (by rw [← h1, h3])
      exact ⟨e, he, by simpa [hne] using h1, by simpa [hne] using h2⟩
  log := h.log

/-- The other clients do not notice that a segment changes. -/
theorem Inv.other {st : St S R} (h : Inv c st) {d e id nat : ℕ} (hs : (st.drv d).seg = some (id, nat))
    (he : e ≠ d) (x : Seg S R) {j m : ℕ} (hj : (st.drv e).seg = some (j, m)) :
    Function.update st.mem id x j = st.mem j := by
  have hne : j ≠ id := by
    intro h1
    subst h1
    exact he (h.inj e d j m nat hj hs)
  simp [hne]

/-- An event that changes neither segments nor names nor who exists keeps the rest. -/
theorem seg_update (f : ℕ → Drv S) (d : ℕ) (x : Drv S) (e : ℕ) (hx : x.seg = (f d).seg := by rfl) :
    (Function.update f d x e).seg = (f e).seg := by
  by_cases he : e = d
  · subst he; simpa using hx
  · simp [he]

theorem Inv.fill {st : St S R} (h : Inv c st) {d : ℕ} (hd : d < st.nd) (hw : (st.drv d).wait = none)
    (ha : (st.drv d).alive = true) (q : List S) : Inv c (fill c st d q) := by
  unfold Shm.fill
  split
  · exact h
  · rename_i id nat hs
    have hg := h.good d
    have hi := hg.idle hw
    split
    · refine ⟨fun e => ?_, ?_, ?_, h.log⟩
      · by_cases he : e = d
        · subst he
          refine ⟨?_, ?_, ?_, ?_, ?_, ?_⟩
          · intro j m h1
            simp only [Function.update_self] at h1
            exact hg.lt j m h1
          · intro j h1
            simp only [Function.update_self] at h1 ⊢
            exact hg.att j h1
          · intro p h1
            simp only [Function.update_self, Option.some.injEq] at h1 ⊢
            split at h1
            · simpa using h1.symm
            · simp at h1
          · intro h1; simp at h1
          · intro reqs h1
            simp only [Function.update_self, Option.some.injEq] at h1
            subst h1
            refine ⟨id, nat, by simpa using hs, by simp, ?_, ?_, ?_⟩
            · intro rs h2
              simp only [Function.update_self] at h2
              rw [hi.2.1] at h2; simp at h2
            · intro h2
              simp only [Function.update_self] at h2
              rw [hi.2.2] at h2; simp at h2
            · intro h2; simp at h2
          · intro _ _
            obtain ⟨hl1, hl2⟩ := hg.live hd ha
            refine ⟨by simpa using hl1, Or.inr ⟨id, nat, by simpa using hs, ?_⟩⟩
            rcases hl2 with h1 | ⟨id', nat', h1, h2⟩
            · rw [h1.1] at hs; simp at hs
            · rw [hs] at h1
              simp only [Option.some.injEq, Prod.mk.injEq] at h1
              obtain ⟨h1a, h1b⟩ := h1
              subst h1a
              rcases h2 with h2 | ⟨h2, h3, h4⟩
              · exact Or.inl ⟨by simp, by simpa using h2.2⟩
              · refine Or.inr ⟨by simpa using h2, by simpa using h3, Or.inr ⟨by simp, ?_⟩⟩
                rcases h4 with h4 | h4
                · simp [h4.1]
                · rw [hi.1] at h4; simp at h4
        · exact (h.good e).frame c (by simp [he]) (by simp [he]) (fun j m hj => h.other c hs he _ hj)
            (le_refl _) (le_refl _) (fun h1 _ => h1) (fun _ => rfl)
      · intro e f j k m h1 h2
        exact h.inj e f j k m ((seg_update st.drv d _ e).symm.trans h1) ((seg_update st.drv d _ f).symm.trans h2)
      · intro p j hp
        obtain ⟨e, he, h1, h2⟩ := h.names p j hp
        exact ⟨e, he, (pref_update st.drv d _ e).trans h1,
          h2.imp fun n hn => (seg_update st.drv d _ e).trans hn⟩
    · refine ⟨fun e => ?_, ?_, ?_, h.log⟩
      · by_cases he : e = d
        · subst he
          refine ⟨?_, ?_, ?_, ?_, ?_, ?_⟩
          · intro j m h1
            simp only [Function.update_self] at h1
            exact hg.lt j m h1
          · intro j h1
            simp only [Function.update_self] at h1 ⊢
            exact hg.att j h1
          · intro p h1
            simp only [Function.update_self] at h1 ⊢
            exact hg.box p h1
          · intro _; exact hi
          · intro reqs h1
            simp only [Function.update_self] at h1
            rw [hw] at h1; simp at h1
          · intro _ h1; simp at h1
        · exact (h.good e).frame c (by simp [he]) rfl (fun _ _ _ => rfl)
            (le_refl _) (le_refl _) (fun h1 _ => h1) (fun _ => rfl)
      · intro e f j k m h1 h2
        exact h.inj e f j k m ((seg_update st.drv d _ e).symm.trans h1) ((seg_update st.drv d _ f).symm.trans h2)
      · intro p j hp
        obtain ⟨e, he, h1, h2⟩ := h.names p j hp
        exact ⟨e, he, (pref_update st.drv d _ e).trans h1,
          h2.imp fun n hn => (seg_update st.drv d _ e).trans hn⟩

theorem Inv.send {st : St S R} (h : Inv c st) (hD : Distinct st) (d : ℕ) (q : List S) :
    Inv c (send c st d q) := by
  unfold Shm.send
  split
  · exact h
  · split
    · rename_i hc
      obtain ⟨hd, ha, hw, _⟩ := hc
      have hw' : (st.drv d).wait = none := by simpa using hw
      split
      · rename_i hs
        refine (h.alloc c hD hd hs hw' ha _).fill c hd ?_ ?_ _
        · simpa [Shm.alloc] using hw'
        · simpa [Shm.alloc] using ha
      · exact h.fill c hd hw' ha _
    · exact h

/-- The part of a client's memory changes only through the client. -/
theorem Inv.readPos {st : St S R} (h : Inv c st) (hD : Distinct st) (d : ℕ) : Inv c (readPos c st d) := by
  have hg := h.good d
  have hother : ∀ (k : Cli R) (e : ℕ), e ≠ d → Good c { st with cli := Function.update st.cli d k } e :=
    fun k e he => (h.good e).frame c rfl (by simp [he]) (fun _ _ _ => rfl) (le_refl _) (le_refl _)
      (fun h1 _ => h1) (fun _ => rfl)
  have hread : ∀ (id nat : ℕ) (m : Option ℕ), (st.cli d).inbox = some m → (st.drv d).seg = some (id, nat) →
      Inv c { st with cli := Function.update st.cli d { st.cli d with
        att := some id, inbox := none, got := some ((st.mem id).inp.map c.eval) } } := by
    intro id nat m hm hs
    refine ⟨fun e => ?_, h.inj, h.names, h.log⟩
    by_cases he : e = d
    · subst he
      have hbusy : ∃ reqs, (st.drv e).wait = some reqs := by
        cases hw : (st.drv e).wait with
        | none => have := (hg.idle hw).1; rw [hm] at this; simp at this
        | some reqs => exact ⟨reqs, rfl⟩
      obtain ⟨reqs, hw⟩ := hbusy
      obtain ⟨id', nat', h1, h2, h3, h4, h5⟩ := hg.busy reqs hw
      rw [hs] at h1
      simp only [Option.some.injEq, Prod.mk.injEq] at h1
      obtain ⟨h1a, h1b⟩ := h1
      subst h1a
      have hready : (st.cli e).ready = false := by
        cases hr : (st.cli e).ready with
        | false => rfl
        | true => have := (h4 hr).2.1; rw [hm] at this; simp at this
      refine ⟨hg.lt, ?_, ?_, ?_, ?_, ?_⟩
      · intro j h6
        simp only [Function.update_self, Option.some.injEq] at h6
        exact ⟨nat, by rw [← h6]; exact hs⟩
      · intro p h6; simp at h6
      · intro h6
        have h7 : (st.drv e).wait = none := h6
        rw [hw] at h7; simp at h7
      · intro reqs' h6
        have h7 : (st.drv e).wait = some reqs' := h6
        rw [hw] at h7
        simp only [Option.some.injEq] at h7
        subst h7
        refine ⟨id, nat, hs, h2, ?_, ?_, ?_⟩
        · intro rs h8
          simp only [Function.update_self, Option.some.injEq] at h8 ⊢
          exact ⟨by rw [← h8, h2], trivial, trivial, hready⟩
        · intro h8
          simp only [Function.update_self] at h8
          rw [hready] at h8; simp at h8
        · intro _ h8; simp at h8
      · intro h6 h7
        obtain ⟨hl1, hl2⟩ := hg.live h6 h7
        refine ⟨by simpa using hl1, Or.inr ⟨id, nat, hs, Or.inl ⟨?_, by simp⟩⟩⟩
        change (st.drv e).first = false
        rcases hl2 with h8 | ⟨_, _, _, h8 | ⟨_, _, h8 | h8⟩⟩
        · rw [h8.1] at hs; simp at hs
        · exact h8.1
        · rw [h8.2] at hw; simp at hw
        · exact h8.1
    · exact hother _ e he
  unfold Shm.readPos
  dsimp only
  split
  · exact h
  · split
    · exact h
    · rename_i m hm
      split
      · rename_i id hatt
        obtain ⟨nat, hs⟩ := hg.att id hatt
        have := hread id nat m hm hs
        rw [← hatt] at this
        exact this
      · rename_i hatt
        split
        · exact h
        · rename_i p
          have hp := hg.box p hm
          split
          · rename_i hnone
            refine ⟨fun e => ?_, h.inj, h.names, h.log⟩
            by_cases he : e = d
            · subst he
              refine ⟨hg.lt, ?_, ?_, ?_, ?_, ?_⟩
              · intro j h6; simp only [Function.update_self] at h6; exact hg.att j h6
              · intro j h6; simp only [Function.update_self] at h6; exact hg.box j h6
              · intro h6; simp only [Function.update_self]; exact hg.idle h6
              · intro reqs h6; simp only [Function.update_self]; exact hg.busy reqs h6
              · intro h6 h7
                exfalso
                obtain ⟨_, hl2⟩ := hg.live h6 h7
                rcases hl2 with h8 | ⟨id, _, _, h8 | ⟨_, h8, _⟩⟩
                · have := (hg.idle h8.2.2.2).1
                  rw [hm] at this; simp at this
                · rw [hatt] at h8; simp at h8
                · rw [← hp, hnone] at h8; simp at h8
            · exact hother _ e he
          · rename_i id hid
            obtain ⟨e, he, h1, nat, h2⟩ := h.names p id hid
            have hdn : d < st.nd := by
              cases hw : (st.drv d).wait with
              | none => have := (hg.idle hw).1; rw [hm] at this; simp at this
              | some reqs =>
                obtain ⟨i, k, h3, _⟩ := hg.busy reqs hw
                exact (hg.lt i k h3).2
            have hed : e = d := hD e he d hdn (by rw [h1, hp])
            subst hed
            exact hread id nat _ hm h2

theorem Inv.writeForce {st : St S R} (h : Inv c st) (d : ℕ) : Inv c (writeForce st d) := by
  have hg := h.good d
  unfold Shm.writeForce
  dsimp only
  split
  · rename_i rs id hgot hatt
    obtain ⟨nat, hs⟩ := hg.att id hatt
    refine ⟨fun e => ?_, h.inj, h.names, h.log⟩
    by_cases he : e = d
    · subst he
      refine ⟨hg.lt, ?_, ?_, ?_, ?_, ?_⟩
      · intro j h6; simp only [Function.update_self] at h6; exact hg.att j h6
      · intro j h6; simp only [Function.update_self] at h6; exact hg.box j h6
      · intro h6
        have := (hg.idle h6).2.1
        rw [hgot] at this; simp at this
      · intro reqs h6
        obtain ⟨id', nat', h1, h2, h3, h4, h5⟩ := hg.busy reqs h6
        have h1' := h1
        rw [hs] at h1'
        simp only [Option.some.injEq, Prod.mk.injEq] at h1'
        obtain ⟨h1a, h1b⟩ := h1'
        subst h1a
        obtain ⟨hrs, _, hbox, _⟩ := h3 rs hgot
        refine ⟨id, nat', h1, by simpa using h2, ?_, ?_, ?_⟩
        · intro rs' h8; simp at h8
        · intro _
          simp only [Function.update_self]
          exact ⟨hrs, hbox, trivial⟩
        · intro _ _; simp
      · intro h6 h7
        simp only [Function.update_self]
        have := hg.live h6 h7
        exact this
    · exact (h.good e).frame c rfl (by simp [he]) (fun j m hj => h.other c hs he _ hj)
        (le_refl _) (le_refl _) (fun h1 _ => h1) (fun _ => rfl)
  · exact h

theorem Inv.recv {st : St S R} (h : Inv c st) (d : ℕ) : Inv c (recv st d) := by
  have hg := h.good d
  unfold Shm.recv
  split
  · rename_i hc
    split
    · rename_i reqs id nat hw hs
      obtain ⟨id', nat', h1, h2, h3, h4, h5⟩ := hg.busy reqs hw
      have h1' := h1
      rw [hs] at h1'
      simp only [Option.some.injEq, Prod.mk.injEq] at h1'
      obtain ⟨h1a, h1b⟩ := h1'
      subst h1a
      obtain ⟨hout, hbox, hgot⟩ := h4 hc.2
      refine ⟨fun e => ?_, ?_, ?_, ?_⟩
      · by_cases he : e = d
        · subst he
          refine ⟨?_, ?_, ?_, ?_, ?_, ?_⟩
          · intro j m h6; simp only [Function.update_self] at h6; exact hg.lt j m h6
          · intro j h6; simp only [Function.update_self] at h6 ⊢; exact hg.att j h6
          · intro j h6; simp only [Function.update_self] at h6 ⊢; exact hg.box j h6
          · intro _; simp only [Function.update_self]; exact ⟨hbox, hgot, trivial⟩
          · intro q h6; simp at h6
          · intro h6 _
            obtain ⟨hl1, hl2⟩ := hg.live h6 hc.1
            refine ⟨by simpa using hl1, ?_⟩
            rcases hl2 with h8 | ⟨i, n, h7, h8 | ⟨_, _, h8 | h8⟩⟩
            · rw [h8.1] at hs; simp at hs
            · exact Or.inr ⟨i, n, by simpa using h7, Or.inl ⟨by simpa using h8.1, by simpa using h8.2⟩⟩
            · rw [h8.2] at hw; simp at hw
            · rw [hbox] at h8; simp at h8
        · exact (h.good e).frame c (by simp [he]) (by simp [he]) (fun _ _ _ => rfl)
            (le_refl _) (le_refl _) (fun h1 _ => h1) (fun _ => rfl)
      · intro e f j k m h1 h2
        exact h.inj e f j k m ((seg_update st.drv d _ e).symm.trans h1) ((seg_update st.drv d _ f).symm.trans h2)
      · intro p j hp
        obtain ⟨e, he, h1, h2⟩ := h.names p j hp
        exact ⟨e, he, (pref_update st.drv d _ e).trans h1,
          h2.imp fun n hn => (seg_update st.drv d _ e).trans hn⟩
      · intro x hx
        rcases List.mem_append.1 hx with hx | hx
        · exact h.log x hx
        · rw [List.mem_singleton] at hx
          subst hx
          change (st.mem id).out.take reqs.length = reqs.map c.eval
          rw [hout, take_padded]
    · exact h
  · exact h

theorem Inv.drop {st : St S R} (h : Inv c st) (hD : Distinct st) (d : ℕ) : Inv c (drop st d) := by
  have hg := h.good d
  unfold Shm.drop
  split
  · rename_i hc
    have hN1 : ∀ p, p ≠ (st.drv d).pref → freed st d p = st.names p := by
      intro p hp
      unfold freed
      cases (st.drv d).seg with
      | none => rfl
      | some x => simp [hp]
    have hN2 : ∀ p id, freed st d p = some id → st.names p = some id := by
      intro p id
      unfold freed
      cases (st.drv d).seg with
      | none => exact fun h => h
      | some x =>
        by_cases hp : p = (st.drv d).pref
        · subst hp; simp
        · simp [hp]
    refine ⟨fun e => ?_, ?_, ?_, h.log⟩
    · by_cases he : e = d
      · subst he
        refine ⟨?_, ?_, ?_, ?_, ?_, ?_⟩
        · intro j m h6; simp only [Function.update_self] at h6; exact hg.lt j m h6
        · intro j h6; simp only [Function.update_self]; exact hg.att j h6
        · intro j h6; simp only [Function.update_self]; exact hg.box j h6
        · intro h6; simp only [Function.update_self] at h6; exact hg.idle h6
        · intro q h6; simp only [Function.update_self] at h6 ⊢; exact hg.busy q h6
        · intro _ h6; simp at h6
      · exact (h.good e).frame c (by simp [he]) rfl (fun _ _ _ => rfl) (le_refl _) (le_refl _)
          (fun h1 _ => h1) (fun h1 => hN1 _ fun h2 => he (hD e h1 d hc.1 h2))
    · intro e f j k m h1 h2
      exact h.inj e f j k m ((seg_update st.drv d _ e).symm.trans h1) ((seg_update st.drv d _ f).symm.trans h2)
    · intro p j hp
      obtain ⟨e, he, h1, h2⟩ := h.names p j (hN2 p j hp)
      exact ⟨e, he, (pref_update st.drv d _ e).trans h1,
          h2.imp fun n hn => (seg_update st.drv d _ e).trans hn⟩
  · exact h

theorem Inv.step {st : St S R} (h : Inv c st) (hD : Distinct st) (ev : Ev S) : Inv c (step c st ev) := by
  cases ev with
  | accept => exact h.accept c
  | endPoll => exact h.endPoll c
  | send d q => exact h.send c hD d q
  | recv d => exact h.recv c d
  | drop d => exact h.drop c hD d
  | read d => exact h.readPos c hD d
  | write d => exact h.writeForce c d

theorem Inv.run {evs : List (Ev S)} {st : St S R} (h : Inv c st) (hD : Distinct (run c st evs)) :
    Inv c (run c st evs) := by
  induction evs using List.reverseRecOn with
  | nil => exact h
  | append_singleton evs ev ih =>
    rw [run_append] at hD ⊢
    have hD' : Distinct (Shm.run c st evs) := Distinct.back c hD
    exact (ih hD').step c hD' ev

/-- **As long as no two clients have had the same names, the results that i-PI stores for a batch of
structures are the results of those structures, in their order**, whatever the order in which clients
connect, are dropped, read, compute and answer. -/
theorem results_belong_partial (used : List ℕ) (evs : List (Ev S)) (hD : Distinct (run c (start c used) evs)) :
    ∀ x ∈ (run c (start c used) evs).log, x.2 = x.1.map c.eval :=
  ((Inv.start c used).run c hD).log

/-- If all clients connect in one round, the results are right. -/
theorem results_belong_one_poll (used : List ℕ) (evs evs' : List (Ev S)) (h : ∀ ev ∈ evs, InPoll ev)
    (h' : ∀ ev ∈ evs', NoAccept ev) :
    ∀ x ∈ (run c (start c used) (evs ++ evs')).log, x.2 = x.1.map c.eval :=
  results_belong_partial c used _ (one_poll_distinct c used evs evs' h h')

/-- **A request that has been sent can be answered**: at any moment, if the client goes on, the results
arrive and are those of the request. -/
theorem pending_completes (used : List ℕ) (evs : List (Ev S)) (hD : Distinct (run c (start c used) evs)) (d : ℕ)
    (reqs : List S) (ha : ((run c (start c used) evs).drv d).alive = true)
    (hw : ((run c (start c used) evs).drv d).wait = some reqs) :
    (run c (start c used) (evs ++ [.read d, .write d, .recv d])).log =
      (run c (start c used) evs).log ++ [(reqs, reqs.map c.eval)] := by
  have hI := (Inv.start c used).run c hD
  rw [run_append]
  generalize run c (start c used) evs = st at *
  have hg := hI.good d
  obtain ⟨id, nat, hs, hinp, hgot, hready, hnone⟩ := hg.busy reqs hw
  have hd := (hg.lt id nat hs).2
  obtain ⟨hdead, hl⟩ := hg.live hd ha
  have fin : ∀ s : St S R, (s.drv d).alive = true → (s.drv d).wait = some reqs → (s.drv d).seg = some (id, nat) →
      (s.cli d).ready = true → (s.mem id).out = (padded c.n reqs).map c.eval → s.log = st.log →
      (recv s d).log = st.log ++ [(reqs, reqs.map c.eval)] := by
    intro s h1 h2 h3 h4 h5 h6
    unfold Shm.recv
    rw [if_pos ⟨h1, h4⟩, h2, h3]
    dsimp only
    rw [h5, h6, take_padded]
  change (recv (writeForce (readPos c st d) d) d).log = _
  cases hb : (st.cli d).inbox with
  | some m =>
    have hr : readPos c st d = { st with cli := Function.update st.cli d { st.cli d with
        att := some id, inbox := none, got := some ((st.mem id).inp.map c.eval) } } := by
      unfold Shm.readPos
      simp only [hdead, hb]
      rcases hl with h8 | ⟨i, n, h7, h8⟩
      · rw [h8.1] at hs; simp at hs
      · rw [hs] at h7
        simp only [Option.some.injEq, Prod.mk.injEq] at h7
        obtain ⟨h7a, _⟩ := h7
        subst h7a
        rcases h8 with h8 | ⟨h8, h9, h10 | h10⟩
        · simp [h8.2]
        · rw [h10.2] at hw; simp at hw
        · have : m = some (st.drv d).pref := by
            have := h10.2
            rw [hb] at this
            simpa using this
          subst this
          simp [h8, h9]
    rw [hr]
    have hwf : writeForce { st with cli := Function.update st.cli d { st.cli d with
        att := some id, inbox := none, got := some ((st.mem id).inp.map c.eval) } } d =
        { st with
          mem := Function.update st.mem id { st.mem id with out := (st.mem id).inp.map c.eval }
          cli := Function.update st.cli d { st.cli d with
            att := some id, inbox := none, got := none, ready := true } } := by
      unfold Shm.writeForce
      simp
    rw [hwf]
    exact fin _ ha hw hs (by simp) (by simp [hinp]) rfl
  | none =>
    have hr : readPos c st d = st := by
      unfold Shm.readPos
      simp [hdead, hb]
    rw [hr]
    cases hg2 : (st.cli d).got with
    | some rs =>
      obtain ⟨h1, h2, _, _⟩ := hgot rs hg2
      have hwf : writeForce st d = { st with
          mem := Function.update st.mem id { st.mem id with out := rs }
          cli := Function.update st.cli d { st.cli d with got := none, ready := true } } := by
        unfold Shm.writeForce
        simp only [hg2, h2]
      rw [hwf]
      exact fin _ ha hw hs (by simp) (by simp [h1]) rfl
    | none =>
      have hwf : writeForce st d = st := by
        unfold Shm.writeForce
        simp only [hg2]
      rw [hwf]
      have hr1 := hnone hb hg2
      exact fin _ ha hw hs hr1 (hready hr1).1 rfl

/-- A request for a client that waits is sent if the structures have the number of atoms of the first one
that the client has seen. -/
theorem idle_accepts (st : St S R) (d : ℕ) (reqs : List S) (hne : reqs ≠ []) (hn : reqs.length ≤ c.n)
    (N : ℕ) (hat : ∀ r ∈ reqs, c.natoms r = N) (hd : d < st.nd) (ha : (st.drv d).alive = true)
    (hw : (st.drv d).wait = none) (hN : ∀ id m, (st.drv d).seg = some (id, m) → m = N) :
    ((send c st d reqs).drv d).alive = true ∧ ((send c st d reqs).drv d).wait = some reqs := by
  cases reqs with
  | nil => exact absurd rfl hne
  | cons r0 rs =>
    have hfill : ∀ s : St S R, (s.drv d).alive = true → (∃ id, (s.drv d).seg = some (id, N)) →
        ((fill c s d (r0 :: rs)).drv d).alive = true ∧ ((fill c s d (r0 :: rs)).drv d).wait = some (r0 :: rs) := by
      intro s h1 ⟨id, h2⟩
      unfold fill
      rw [h2]
      dsimp only
      rw [if_pos (by rw [List.all_eq_true]; intro r hr; simpa using hat r hr)]
      simp [h1]
    unfold send
    dsimp only
    rw [if_pos ⟨hd, ha, by simp [hw], hn⟩]
    cases hs : (st.drv d).seg with
    | none =>
      refine hfill _ (by simpa [alloc] using ha) ⟨st.nmem, ?_⟩
      simp [alloc, hat r0 (by simp)]
    | some x =>
      refine hfill _ ha ⟨x.1, ?_⟩
      rw [hs, ← hN x.1 x.2 hs]

/-- If the number of atoms has changed the client is given up: nothing is sent to it. -/
theorem size_change_gives_up (st : St S R) (d : ℕ) (r0 : S) (rs : List S) (id m : ℕ)
    (hs : (st.drv d).seg = some (id, m)) (hr : ∃ r ∈ r0 :: rs, c.natoms r ≠ m)
    (hd : d < st.nd) (ha : (st.drv d).alive = true) (hw : (st.drv d).wait = none)
    (hn : (r0 :: rs).length ≤ c.n) :
    ((send c st d (r0 :: rs)).drv d).alive = false ∧ (send c st d (r0 :: rs)).cli = st.cli ∧
      (send c st d (r0 :: rs)).mem = st.mem ∧ (send c st d (r0 :: rs)).log = st.log := by
  unfold send
  dsimp only
  rw [if_pos ⟨hd, ha, by simp [hw], hn⟩, hs]
  dsimp only
  unfold fill
  rw [hs]
  dsimp only
  rw [if_neg]
  · simp
  · rw [List.all_eq_true]
    push Not
    obtain ⟨r, h1, h2⟩ := hr
    exact ⟨r, h1, by simpa using h2⟩

/-! ### What goes wrong -/

/-- A potential that adds one. -/
def plus : Cfg ℕ ℕ := ⟨fun s => s + 1, fun _ => 3, 1, 0⟩

/-- **Two clients that connect in two rounds**: both get segments of the same names.  The first client
reads the message only after the second has been served: it evaluates the structure of the second and
i-PI stores zeros as the result of the first. -/
theorem results_mixed_up :
    (run plus (start plus [0, 1, 2, 3])
      [.accept, .endPoll, .accept, .endPoll, .send 0 [10], .send 1 [20], .read 0, .write 0, .recv 0]).log =
      [([10], [0])] ∧
    ((run plus (start plus [0, 1, 2, 3])
      [.accept, .endPoll, .accept, .endPoll, .send 0 [10], .send 1 [20], .read 0]).cli 0).got = some [21] := by
  constructor <;> rfl

/-- The results of a new structure can be overwritten with those of an old one: here the structure 30 gets
the result of the structure 20, which the first client has evaluated and writes late. -/
theorem results_of_another :
    (run plus (start plus [0, 1, 2, 3])
      [.accept, .endPoll, .accept, .endPoll, .send 0 [10], .send 1 [20], .read 0, .read 1, .write 1, .recv 1,
       .send 1 [30], .read 1, .write 1, .write 0, .recv 1]).log = [([20], [21]), ([30], [21])] := by
  rfl

/-- Not every history gives right results. -/
theorem not_results_belong :
    ¬ ∀ (used : List ℕ) (evs : List (Ev ℕ)), ∀ x ∈ (run plus (start plus used) evs).log, x.2 = x.1.map plus.eval := by
  intro h
  have := h [0, 1, 2, 3]
    [.accept, .endPoll, .accept, .endPoll, .send 0 [10], .send 1 [20], .read 0, .write 0, .recv 0] ([10], [0])
    (by rw [results_mixed_up.1]; simp)
  simp [plus] at this

/-- **Giving up one client takes away the names of another**, which then ends with an exception. -/
theorem drop_ends_another :
    let st := run plus (start plus [0, 1, 2, 3])
      [.accept, .endPoll, .accept, .endPoll, .send 0 [10], .read 0, .send 1 [20], .drop 0, .read 1]
    (st.cli 1).dead = true ∧ (st.drv 1).alive = true := by
  constructor <;> rfl

/-- Giving up a client closes its socket and no other: its number, and only that, is free again. -/
theorem drop_closes (st : St S R) (d : ℕ) (hd : d < st.nd) (ha : (st.drv d).alive = true) (k : ℕ) :
    k ∈ (drop st d).used ↔ k ∈ st.used ∧ k ≠ (st.drv d).fd := by
  rw [drop, if_pos ⟨hd, ha⟩]
  simp

/-- Clients that come and go, one at a time, always get the same number. -/
theorem reconnect_same (st : St S R) (hv : st.var = none) :
    ((accept (endPoll (drop (accept st) st.nd))).drv (st.nd + 1)).pref = ((accept st).drv st.nd).pref := by
  have hm : ∀ k, k ∈ (endPoll (drop (accept st) st.nd)).used ↔ k ∈ st.used := by
    intro k
    obtain ⟨hf, -⟩ := fresh_spec st.used
    obtain ⟨hg, -⟩ := fresh_spec (fresh st.used :: st.used)
    simp only [endPoll, drop, accept, hv, closeFd, Function.update_self]
    rw [if_pos ⟨by omega, trivial⟩]
    simp only [List.mem_filter, decide_eq_true_eq, List.mem_cons]
    simp only [List.mem_cons, not_or] at hg
    constructor
    · rintro ⟨⟨h | h | h, h2⟩, h3⟩
      · exact absurd h h2
      · exact absurd h h3
      · exact h
    · intro h
      exact ⟨⟨Or.inr (Or.inr h), fun e => hg.2 (e ▸ h)⟩, fun e => hf (e ▸ h)⟩
  have hn : (endPoll (drop (accept st) st.nd)).nd = st.nd + 1 := by
    simp only [endPoll, drop]
    split_ifs <;> rfl
  rw [← hn, accept_pref, accept_pref]
  obtain ⟨h1, h2⟩ := fresh_spec st.used
  exact fresh_eq (fun h => h1 ((hm _).1 h)) fun k hk => (hm k).2 (h2 k hk)

/-! ### Examples -/

example : ((run plus (start plus [0, 1, 2, 3]) [.accept, .accept, .accept]).drv 2).pref = 7 := rfl

example : ∀ x ∈ (run plus (start plus [0, 1, 2, 3]) ([.accept, .accept, .send 0 [10], .send 1 [20], .read 1, .read 0] ++
    [.endPoll, .write 0, .write 1, .recv 0, .recv 1, .send 1 [5], .drop 0])).log, x.2 = x.1.map plus.eval :=
  results_belong_one_poll plus _ _ _ (by simp [InPoll]) (by simp [NoAccept])

example : (run plus (start plus [0, 1, 2, 3]) ([.accept, .accept, .send 0 [10], .send 1 [20], .read 1, .read 0] ++
    [.endPoll, .write 0, .write 1, .recv 0, .recv 1])).log = [([10], [11]), ([20], [21])] := rfl

example : (run plus (start plus [0, 1, 2, 3]) ([.accept, .send 0 [10]] ++ [.read 0, .write 0, .recv 0])).log =
    [] ++ [([10], [11])] :=
  pending_completes plus _ [.accept, .send 0 [10]]
    (one_poll_distinct plus _ [.accept, .send 0 [10]] [] (by simp [InPoll]) (by simp)) 0 [10] rfl rfl

example : ((run plus (start plus [0, 1, 2]) ([.accept] ++ [.send 0 [7]] ++ [.endPoll] ++ [.read 0] ++ [.accept])).drv 1).pref =
    ((run plus (start plus [0, 1, 2]) ([.accept] ++ [.send 0 [7]] ++ [.endPoll] ++ [.read 0] ++ [.accept])).drv 0).pref :=
  (next_poll_same_names plus (start plus [0, 1, 2]) rfl [.send 0 [7]] [.read 0] (by simp [Quiet]) (by simp [Quiet])).2

example : ((send plus (run plus (start plus [0, 1]) [.accept]) 0 [4]).drv 0).wait = some [4] :=
  (idle_accepts plus _ 0 [4] (by simp) (by simp [plus]) 3 (by simp [plus]) (by decide) rfl rfl
    (by intro id m h; exact absurd h (by simp [run, step, accept, start]))).2

/-- The number of atoms is the structure itself. -/
def sized : Cfg ℕ ℕ := ⟨fun s => s, fun s => s, 2, 0⟩

example : ((send sized (run sized (start sized [0]) [.accept, .send 0 [4, 4], .read 0, .write 0, .recv 0]) 0 [5]).drv
    0).alive = false :=
  (size_change_gives_up sized _ 0 5 [] 0 4 rfl ⟨5, by simp, by decide⟩ (by decide) rfl rfl (by decide)).1

end Verif.Shm
