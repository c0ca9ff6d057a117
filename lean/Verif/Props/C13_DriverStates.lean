import Verif.Driver.Lemmas
import Verif.Util
/-
C13: the python driver answers status queries truthfully and sends forces of the last positions received.
-/
namespace Verif.Driver
open Verif.Text
variable {P R : Type}

/-! ### specification, in terms of the messages received so far -/

/-- An initialisation message has been received. -/
def Initialised (ms : List (Msg P)) : Prop := ∃ s, Msg.init s ∈ ms

/-- `ps` are the last positions received. -/
def LastPos (ms : List (Msg P)) (ps : List P) : Prop := ∃ a b, ms = a ++ Msg.pos ps :: b ∧ ∀ qs, Msg.pos qs ∉ b

/-- Positions were received after the last request for forces. -/
def Pending (ms : List (Msg P)) : Prop := ∃ a ps b, ms = a ++ Msg.pos ps :: b ∧ Msg.getforce ∉ b

/-- Every initialisation precedes all positions; this is how i-PI behaves: it initialises a client once, before using it. -/
def InitFirst (ms : List (Msg P)) : Prop := ∀ a ps b, ms = a ++ Msg.pos ps :: b → ∀ s, Msg.init s ∉ b

/-! ### status -/

theorem pending_snoc_pos (ms : List (Msg P)) (ps : List P) : Pending (ms ++ [.pos ps]) := ⟨ms, ps, [], rfl, by simp⟩

theorem pending_snoc_getforce (ms : List (Msg P)) : ¬ Pending (ms ++ [.getforce]) := by
  rintro ⟨a, ps, b, h, hb⟩
  rcases List.eq_nil_or_concat b with rfl | ⟨b', x, rfl⟩
  · have := congrArg List.getLast? h; simp at this
  · have h' : ms ++ [Msg.getforce] = (a ++ Msg.pos ps :: b') ++ [x] := by rw [h]; simp
    obtain ⟨_, e⟩ := List.append_inj' h' rfl
    injection e with e
    exact hb (by rw [e]; simp)

theorem pending_snoc_other (ms : List (Msg P)) (m : Msg P) (h1 : ∀ ps, m ≠ .pos ps) (h2 : m ≠ .getforce) :
    Pending (ms ++ [m]) ↔ Pending ms := by
  constructor
  · rintro ⟨a, ps, b, h, hb⟩
    rcases List.eq_nil_or_concat b with rfl | ⟨b', x, rfl⟩
    · have := congrArg List.getLast? h; simp at this; exact absurd this (h1 ps)
    · have h' : ms ++ [m] = (a ++ Msg.pos ps :: b') ++ [x] := by rw [h]; simp
      obtain ⟨e1, _⟩ := List.append_inj' h' rfl
      exact ⟨a, ps, b', e1, fun hm => hb (by simp [hm])⟩
  · rintro ⟨a, ps, b, rfl, hb⟩
    exact ⟨a, ps, b ++ [m], by simp, by simp [hb]; exact fun e => h2 e.symm⟩

/-- The flags of the driver mean what they say. -/
theorem flags (cfg : Cfg P R) (ms : List (Msg P)) (s : St P R) (o) (h : run cfg {} ms = .ok (s, o)) (hex : s.exited = false) :
    (s.fInit = true ↔ Initialised ms) ∧ (s.fData = true ↔ Pending ms) := by
  refine run_induct (Q := fun ms s => (s.fInit = true ↔ Initialised ms) ∧ (s.fData = true ↔ Pending ms)) ?_ ?_ ms s o h hex
  · constructor
    · simp [Initialised]
    · simp [Pending]
  · intro ms s m s' r hq _ hst
    have hi : (∀ str, m ≠ Msg.init str) → (Initialised (ms ++ [m]) ↔ Initialised ms) := by
      intro hne
      simp only [Initialised, List.mem_append, List.mem_singleton]
      constructor
      · rintro ⟨x, hx | hx⟩
        · exact ⟨x, hx⟩
        · exact absurd hx.symm (hne x)
      · rintro ⟨x, hx⟩; exact ⟨x, .inl hx⟩
    cases m with
    | status =>
      have e : s' = s := by
        simp only [step] at hst
        split at hst
        · simp at hst; exact hst.1.symm
        · split at hst <;> · simp at hst; exact hst.1.symm
      subst e
      exact ⟨hq.1.trans (hi (by simp)).symm, hq.2.trans (pending_snoc_other ms _ (by simp) (by simp)).symm⟩
    | init str =>
      simp [step] at hst
      obtain ⟨rfl, _⟩ := hst
      refine ⟨?_, hq.2.trans (pending_snoc_other ms _ (by simp) (by simp)).symm⟩
      simp only [true_iff]
      exact ⟨str, by simp⟩
    | pos ps =>
      obtain ⟨e1, e2, _⟩ := step_pos hst
      refine ⟨?_, ?_⟩
      · rw [e1]; exact hq.1.trans (hi (by simp)).symm
      · rw [e2]; simp only [true_iff]; exact pending_snoc_pos ms ps
    | getforce =>
      obtain ⟨rfl, _⟩ := step_getforce hst
      refine ⟨hq.1.trans (hi (by simp)).symm, ?_⟩
      simp only [Bool.false_eq_true, false_iff]
      exact pending_snoc_getforce ms
    | exit =>
      simp [step] at hst
      obtain ⟨rfl, _⟩ := hst
      exact ⟨hq.1.trans (hi (by simp)).symm, hq.2.trans (pending_snoc_other ms _ (by simp) (by simp)).symm⟩
    | other =>
      simp [step] at hst
      obtain ⟨rfl, _⟩ := hst
      exact ⟨hq.1.trans (hi (by simp)).symm, hq.2.trans (pending_snoc_other ms _ (by simp) (by simp)).symm⟩

open Classical in
/-- Every status query is answered truthfully, after every history of messages: NEEDINIT before initialisation, otherwise
HAVEDATA exactly when positions came after the last request for forces, otherwise READY. -/
theorem status_truthful (cfg : Cfg P R) (ms : List (Msg P)) (s : St P R) (o) (h : run cfg {} ms = .ok (s, o))
    (hex : s.exited = false) :
    step cfg s .status = .ok (s, some (if ¬ Initialised ms then .needinit else if Pending ms then .havedata else .ready)) := by
  obtain ⟨h1, h2⟩ := flags cfg ms s o h hex
  simp only [step]
  cases hi : s.fInit
  · have : ¬ Initialised ms := fun h => by rw [h1.2 h] at hi; cases hi
    simp [this]
  · have : Initialised ms := h1.1 hi
    cases hd : s.fData
    · have h3 : ¬ Pending ms := fun h => by rw [h2.2 h] at hd; cases hd
      simp [this, h3]
    · have h3 : Pending ms := h2.1 hd
      simp [this, h3]

/-! ### forces -/

theorem lastPos_snoc (ms : List (Msg P)) (m : Msg P) (h : ∀ qs, m ≠ .pos qs) (ps : List P) (hl : LastPos ms ps) :
    LastPos (ms ++ [m]) ps := by
  obtain ⟨a, b, rfl, hb⟩ := hl
  refine ⟨a, b ++ [m], by simp, fun qs => ?_⟩
  simp only [List.mem_append, List.mem_singleton, not_or]
  exact ⟨hb qs, fun e => h qs e.symm⟩

theorem initFirst_prefix {ms : List (Msg P)} {m : Msg P} (h : InitFirst (ms ++ [m])) : InitFirst ms := by
  intro a ps b e s hs
  exact h a ps (b ++ [m]) (by rw [e]; simp) s (by simp [hs])

/-- With initialisation first (as i-PI does), the forces sent are those of the last positions received, whatever else was
exchanged. -/
theorem forces_of_last_positions_partial (cfg : Cfg P R) (ms : List (Msg P)) (s : St P R) (o)
    (h : run cfg {} ms = .ok (s, o)) (hex : s.exited = false) (hin : InitFirst ms) (s' : St P R) (rs : List R)
    (hst : step cfg s .getforce = .ok (s', some (.forces rs))) : ∃ ps, LastPos ms ps ∧ rs = ps.map cfg.eval := by
  have key : InitFirst ms → (s.batchN > 1 → ∀ x, s.batch = some x → ∃ ps, LastPos ms ps ∧ x = ps.map cfg.eval) ∧
      (¬ s.batchN > 1 → ∀ p x, s.single = some (p, x) → LastPos ms [p] ∧ x = cfg.eval p) ∧
      ((∃ ps, Msg.pos ps ∈ ms) ∨ (s.batch = none ∧ s.single = none)) := by
    refine run_induct (Q := fun ms s => InitFirst ms →
      (s.batchN > 1 → ∀ x, s.batch = some x → ∃ ps, LastPos ms ps ∧ x = ps.map cfg.eval) ∧
      (¬ s.batchN > 1 → ∀ p x, s.single = some (p, x) → LastPos ms [p] ∧ x = cfg.eval p) ∧
      ((∃ ps, Msg.pos ps ∈ ms) ∨ (s.batch = none ∧ s.single = none))) ?_ ?_ ms s o h hex
    · intro _
      exact ⟨fun _ x h => (by cases h), fun _ p x h => (by cases h), .inr ⟨rfl, rfl⟩⟩
    · intro ms s m s' r hq _ hst hin
      obtain ⟨q1, q2, q3⟩ := hq (initFirst_prefix hin)
      have keep : (∀ qs, m ≠ .pos qs) → s'.batchN = s.batchN → s'.batch = s.batch → s'.single = s.single →
          (s'.batchN > 1 → ∀ x, s'.batch = some x → ∃ ps, LastPos (ms ++ [m]) ps ∧ x = ps.map cfg.eval) ∧
          (¬ s'.batchN > 1 → ∀ p x, s'.single = some (p, x) → LastPos (ms ++ [m]) [p] ∧ x = cfg.eval p) ∧
          ((∃ ps, Msg.pos ps ∈ ms ++ [m]) ∨ (s'.batch = none ∧ s'.single = none)) := by
        intro hm e1 e2 e3
        rw [e1, e2, e3]
        refine ⟨fun hb x hx => ?_, fun hb p x hx => ?_, ?_⟩
        · obtain ⟨ps, h1, h2⟩ := q1 hb x hx; exact ⟨ps, lastPos_snoc ms m hm ps h1, h2⟩
        · obtain ⟨h1, h2⟩ := q2 hb p x hx; exact ⟨lastPos_snoc ms m hm _ h1, h2⟩
        · rcases q3 with ⟨ps, h⟩ | h
          · exact .inl ⟨ps, by simp [h]⟩
          · exact .inr h
      cases m with
      | status =>
        have e : s' = s := by
          simp only [step] at hst
          split at hst
          · simp at hst; exact hst.1.symm
          · split at hst <;> · simp at hst; exact hst.1.symm
        subst e
        exact keep (by simp) rfl rfl rfl
      | init str =>
        simp [step] at hst
        obtain ⟨rfl, _⟩ := hst
        rcases q3 with ⟨ps, hp⟩ | hn
        · obtain ⟨a, b, rfl⟩ := List.append_of_mem hp
          exact absurd (by simp) (hin a ps (b ++ [.init str]) (by simp) str)
        · exact ⟨fun _ x hx => (by simp only [hn.1] at hx; cases hx), fun _ p x hx => (by simp only [hn.2] at hx; cases hx), .inr hn⟩
      | pos ps =>
        obtain ⟨_, _, _, e4, e5⟩ := step_pos hst
        have hl : LastPos (ms ++ [.pos ps]) ps := ⟨ms, [], rfl, by simp⟩
        rw [e4]
        refine ⟨fun hb x hx => ?_, fun hb p x hx => ?_, .inl ⟨ps, by simp⟩⟩
        · rcases e5 with ⟨_, e, _⟩ | ⟨e, _⟩
          · rw [e] at hx; injection hx with hx; exact ⟨ps, hl, hx.symm⟩
          · exact absurd hb e
        · rcases e5 with ⟨e, _⟩ | ⟨_, q, rfl, e, _⟩
          · exact absurd e hb
          · rw [e] at hx; injection hx with hx; injection hx with h1 h2; subst h1; exact ⟨hl, h2.symm⟩
      | getforce =>
        obtain ⟨rfl, _⟩ := step_getforce hst
        exact keep (by simp) rfl rfl rfl
      | exit =>
        simp [step] at hst
        obtain ⟨rfl, _⟩ := hst
        exact keep (by simp) rfl rfl rfl
      | other =>
        simp [step] at hst
        obtain ⟨rfl, _⟩ := hst
        exact keep (by simp) rfl rfl rfl
  obtain ⟨k1, k2, _⟩ := key hin
  obtain ⟨_, hc⟩ := step_getforce hst
  rcases hc with ⟨hb, x, hx, e⟩ | ⟨hb, p, x, hx, e, _⟩
  · injection e with e; injection e with e; subst e; exact k1 hb _ hx
  · injection e with e; injection e with e; subst e
    obtain ⟨h1, h2⟩ := k2 hb p x hx
    exact ⟨[p], h1, by simp [h2]⟩

/-- "At most once" fails: a repeated request for forces is answered again with the same result, although nothing is pending. -/
theorem resends (cfg : Cfg P R) (s s' : St P R) (rs : List R) (h : step cfg s .getforce = .ok (s', some (.forces rs))) :
    s'.fData = false ∧ step cfg s' .getforce = .ok (s', some (.forces rs)) := by
  have ⟨e, hc⟩ := step_getforce h
  subst e
  refine ⟨rfl, ?_⟩
  rcases hc with ⟨hb, x, hx, e⟩ | ⟨hb, p, x, hx, e, hg⟩
  · simp only [Option.some.injEq, Reply.forces.injEq] at e; rw [← e] at hx; simp [step, hb, hx]
  · simp only [Option.some.injEq, Reply.forces.injEq] at e; simp [step, hb, hx, hg, e]

/-- Each result is sent at most once if forces are only asked for when a result is pending, as i-PI does (it sends GETFORCE
after HAVEDATA): between two requests for forces there are new positions. -/
theorem once_if_pending_partial (ms mid : List (Msg P)) (h : Pending (ms ++ Msg.getforce :: mid)) :
    ∃ ps, Msg.pos ps ∈ mid := by
  obtain ⟨a, ps, b, e, hb⟩ := h
  rw [List.append_eq_append_iff] at e
  rcases e with ⟨c, h1, h2⟩ | ⟨c, h1, h2⟩
  · cases c with
    | nil => simp at h2
    | cons x c =>
      simp at h2
      exact ⟨ps, by rw [h2.2]; simp⟩
  · cases c with
    | nil => simp at h2
    | cons x c =>
      simp at h2
      exact absurd (by rw [h2.2]; simp) hb

/-! ### concrete runs -/

/-- A potential on natural numbers: three atoms, result `p + 100`. -/
def exCfg : Cfg Nat Nat := ⟨fun p => p + 100, fun _ => 3, fun _ _ => true⟩

def nominal : List (Msg Nat) :=
  [.status, .init " ".toList, .status, .pos [1], .status, .getforce, .status, .pos [2], .other, .status, .getforce]

example : (run exCfg {} nominal).map (·.2) = .ok
    [.needinit, .ready, .havedata, .forces [101], .ready, .havedata, .forces [102]] := by decide +kernel
example : InitFirst (nominal ++ [Msg.pos [7]]) := by
  intro a ps b e s hs
  have : ∀ (l : List (Msg Nat)) (n : Nat), (∀ i, n ≤ i → ∀ str, l[i]? ≠ some (.init str)) →
      (∀ i, i < n → ∀ q, l[i]? ≠ some (.pos q)) → ∀ a ps b, l = a ++ Msg.pos ps :: b → ∀ s, Msg.init s ∉ b := by
    intro l n h1 h2 a ps b e s hs
    obtain ⟨i, hi⟩ := List.getElem?_of_mem hs
    have ha : l[a.length]? = some (.pos ps) := by rw [e]; simp
    have hn : n ≤ a.length := Nat.le_of_not_lt fun h => h2 _ h _ ha
    refine h1 (a.length + 1 + i) (by omega) s ?_
    rw [e, List.getElem?_append_right (by omega), show a.length + 1 + i - a.length = i + 1 by omega]
    simpa using hi
  refine this _ 2 ?_ ?_ a ps b e s hs
  · intro i hi str
    have : i = 2 ∨ i = 3 ∨ i = 4 ∨ i = 5 ∨ i = 6 ∨ i = 7 ∨ i = 8 ∨ i = 9 ∨ i = 10 ∨ i = 11 ∨ 12 ≤ i := by omega
    rcases this with h | h | h | h | h | h | h | h | h | h | h
    all_goals first | (subst h; simp [nominal]) | (simp [nominal]; rw [List.getElem?_eq_none (by simpa using h)]; simp)
  · intro i hi q
    have : i = 0 ∨ i = 1 := by omega
    rcases this with h | h <;> subst h <;> simp [nominal]

/-- Without the order of `InitFirst` the clause fails: the driver is switched to batches and back, and answers with the forces
of positions that are not the last ones. -/
theorem reinit_stale : (run exCfg {} [.init " ".toList, .pos [1], .getforce, .init "batch_size:2".toList, .pos [5, 6],
    .init "batch_size:1".toList, .status, .getforce]).map (·.2) = .ok [.forces [101], .havedata, .forces [101]] := by
  decide +kernel

/-- Forces asked for before any positions end the driver. -/
example : run exCfg {} [.init " ".toList, .getforce] = .error .nameError := by decide +kernel

end Verif.Driver
