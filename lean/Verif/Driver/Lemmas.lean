import Verif.Driver.Model
/- Helper lemmas about the driver loop. -/
namespace Verif.Driver
open Verif.Text
variable {P R : Type} {cfg : Cfg P R}

theorem run_append (a b : List (Msg P)) : ∀ (s s1 : St P R) (o1 : List (Reply R)), run cfg s a = .ok (s1, o1) → s1.exited = false →
    run cfg s (a ++ b) = (run cfg s1 b).map fun x => (x.1, o1 ++ x.2) := by
  induction a with
  | nil =>
    intro s s1 o1 h _
    simp [run] at h
    obtain ⟨rfl, rfl⟩ := h
    simp only [List.nil_append]
    cases run cfg s b with
    | error e => rfl
    | ok x => obtain ⟨s, o⟩ := x; rfl
  | cons m a ih =>
    intro s s1 o1 h hex
    rw [run] at h
    split at h
    · rename_i hx
      simp at h
      rw [← h.1, hx] at hex; cases hex
    · rename_i hx
      rw [List.cons_append, run, if_neg hx]
      split at h
      · cases h
      · rename_i s2 r hst
        split at h
        · cases h
        · rename_i s3 o3 hrun
          simp at h
          obtain ⟨rfl, rfl⟩ := h
          simp only [ih _ _ _ hrun hex]
          cases run cfg s3 b with
          | error e => rfl
          | ok x => obtain ⟨s4, o4⟩ := x; simp [Except.map, List.append_assoc]

/-- Induction over the messages read so far: `Q` relates the messages to the state. -/
theorem run_induct {Q : List (Msg P) → St P R → Prop} (h0 : Q [] {})
    (hs : ∀ ms s m s' r, Q ms s → s.exited = false → step cfg s m = .ok (s', r) → Q (ms ++ [m]) s') :
    ∀ (ms : List (Msg P)) s o, run cfg {} ms = .ok (s, o) → s.exited = false → Q ms s := by
  have key : ∀ (ms pre : List (Msg P)) (s0 s : St P R) o, Q pre s0 → run cfg s0 ms = .ok (s, o) → s.exited = false →
      Q (pre ++ ms) s := by
    intro ms
    induction ms with
    | nil => intro pre s0 s o hq h _; simp [run] at h; rw [← h.1]; simpa using hq
    | cons m ms ih =>
      intro pre s0 s o hq h hex
      rw [run] at h
      split at h
      · rename_i hx; simp at h; rw [← h.1, hx] at hex; cases hex
      · rename_i hx
        split at h
        · cases h
        · rename_i s2 r hst
          split at h
          · cases h
          · rename_i s3 o3 hrun
            simp at h
            obtain ⟨rfl, rfl⟩ := h
            have := ih (pre ++ [m]) s2 _ _ (hs _ _ _ _ _ hq (by simpa using hx) hst) hrun hex
            simpa using this
  intro ms s o h hex
  simpa using key ms [] {} s o h0 h hex

theorem step_pos {s s' : St P R} {ps : List P} {r} (h : step cfg s (.pos ps) = .ok (s', r)) :
    s'.fInit = s.fInit ∧ s'.fData = true ∧ s'.exited = s.exited ∧ s'.batchN = s.batchN ∧
    ((s.batchN > 1 ∧ s'.batch = some (ps.map cfg.eval) ∧ s'.single = s.single) ∨
     (¬ s.batchN > 1 ∧ ∃ p, ps = [p] ∧ s'.single = some (p, cfg.eval p) ∧ s'.batch = s.batch)) := by
  simp only [step] at h
  split at h <;> rename_i hb
  · split at h
    · simp at h; obtain ⟨rfl, _⟩ := h; exact ⟨rfl, rfl, rfl, rfl, .inl ⟨hb, rfl, rfl⟩⟩
    · cases h
  · split at h
    · split at h
      · simp at h; obtain ⟨rfl, _⟩ := h; exact ⟨rfl, rfl, rfl, rfl, .inr ⟨hb, _, rfl, rfl, rfl⟩⟩
      · split at h
        · cases h
        · simp at h; obtain ⟨rfl, _⟩ := h; exact ⟨rfl, rfl, rfl, rfl, .inr ⟨hb, _, rfl, rfl, rfl⟩⟩
    · cases h

theorem step_getforce {s s' : St P R} {r} (h : step cfg s .getforce = .ok (s', r)) :
    s' = { s with fData := false } ∧
    ((s.batchN > 1 ∧ ∃ rs, s.batch = some rs ∧ r = some (.forces rs)) ∨
     (¬ s.batchN > 1 ∧ ∃ p x, s.single = some (p, x) ∧ r = some (.forces [x]) ∧ cfg.good p x = true)) := by
  simp only [step] at h
  split at h <;> rename_i hb
  · split at h
    · cases h
    · rename_i rs hrs
      simp at h; obtain ⟨rfl, rfl⟩ := h; exact ⟨rfl, .inl ⟨hb, rs, hrs, rfl⟩⟩
  · split at h
    · cases h
    · rename_i p x hx
      split at h
      · rename_i hg
        simp at h; obtain ⟨rfl, rfl⟩ := h; exact ⟨rfl, .inr ⟨hb, p, x, hx, rfl, hg⟩⟩
      · cases h

end Verif.Driver
