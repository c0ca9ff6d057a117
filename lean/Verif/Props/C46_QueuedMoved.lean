import Verif.FF.Bead
import Verif.Util

/-!
# C46: forces belong to the positions at the time they are read
-/

namespace Verif.Bead

variable {P R : Type}

/-- The positions after a history. -/
def lastPos (p : P) : List (Op P) → P
  | [] => p
  | .move q :: l => lastPos q l
  | _ :: l => lastPos p l

theorem run_pos (F : P → R) (s : St P R) (l : List (Op P)) : (run F s l).pos = lastPos s.pos l := by
  induction l generalizing s with
  | nil => rfl
  | cons o l ih =>
    show (run F (step F s o) l).pos = _
    rw [ih]
    cases o with
    | queue =>
      simp only [lastPos, step]
      congr 1
      unfold queue
      split <;> rfl
    | move p => rfl
    | read =>
      simp only [lastPos, step]
      congr 1
      unfold read queue
      repeat' split
      all_goals rfl

/-- Histories in which a queued evaluation is read before the positions change.  The flag says
whether an evaluation may be pending. -/
def Tidy : Bool → List (Op P) → Prop
  | _, [] => True
  | _, .queue :: l => Tidy true l
  | b, .move _ :: l => b = false ∧ Tidy false l
  | _, .read :: l => Tidy false l

/-- What holds after every tidy history: a result that is not out of date is that of the positions; a
pending request is for the positions and the result is out of date. -/
structure Inv (F : P → R) (b : Bool) (s : St P R) : Prop where
  cached : s.tainted = false → s.cache = F s.pos
  pending : ∀ p, s.req = some p → b = true ∧ s.tainted = true ∧ p = s.pos

theorem queue_inv (F : P → R) (b : Bool) (s : St P R) (h : Inv F b s) : Inv F true (queue s) := by
  unfold queue
  split
  · rename_i hc
    rw [Bool.and_eq_true] at hc
    exact ⟨h.cached, fun p hp => ⟨rfl, hc.2, (Option.some.inj hp).symm⟩⟩
  · exact ⟨h.cached, fun p hp => ⟨rfl, (h.pending p hp).2⟩⟩

theorem queue_pos (s : St P R) : (queue s).pos = s.pos := by unfold queue; split <;> rfl

theorem read_inv (F : P → R) (b : Bool) (s : St P R) (h : Inv F b s) :
    Inv F false (read F s).1 ∧ (read F s).2 = F s.pos := by
  by_cases ht : s.tainted = true
  · have hq : (queue s).req.getD (queue s).pos = s.pos := by
      rw [queue_pos]
      cases hr : (queue s).req with
      | none => rfl
      | some p => rw [Option.getD_some, ((queue_inv F b s h).pending p hr).2.2, queue_pos]
    unfold read
    rw [if_pos ht]
    simp only
    rw [hq]
    refine ⟨⟨fun _ => ?_, fun p hp => ?_⟩, rfl⟩
    · simp only; rw [queue_pos]
    · cases hp
  · have hf : s.tainted = false := by simpa using ht
    unfold read
    rw [if_neg ht]
    refine ⟨⟨h.cached, fun p hp => ?_⟩, h.cached hf⟩
    have := (h.pending p hp).2.1
    rw [hf] at this; cases this

theorem tidy_inv (F : P → R) (l : List (Op P)) : ∀ (b : Bool) (s : St P R), Inv F b s → Tidy b l →
    ∃ b', Inv F b' (run F s l) := by
  induction l with
  | nil => intro b s h _; exact ⟨b, h⟩
  | cons o l ih =>
    intro b s h ht
    cases o with
    | queue => exact ih true _ (queue_inv F b s h) ht
    | move q =>
      obtain ⟨hb, ht⟩ := ht
      refine ih false _ ⟨fun h => (by cases h), fun p hp => ?_⟩ ht
      have := (h.pending p hp).1
      rw [hb] at this; cases this
    | read => exact ih false _ (read_inv F b s h).1 ht

/-- **C46, tidy histories.**  If every queued evaluation is read before the positions change, every
read gives the force of the positions at that time. -/
theorem reads_current_partial (F : P → R) (p : P) (r : R) (l : List (Op P)) (ht : Tidy false l) :
    (read F (run F (start p r) l)).2 = F (lastPos p l) := by
  have h0 : Inv F false (start p r) :=
    ⟨fun h => (by cases h), fun q hq => (by cases hq)⟩
  obtain ⟨b, h⟩ := tidy_inv F l false (start p r) h0 ht
  rw [(read_inv F b _ h).2, run_pos]
  rfl

/-- **C46 is false of the code.**  Positions are changed while an evaluation is queued: the next read
gives the force of the old positions, and so do all reads until the positions change again. -/
theorem queued_then_moved (F : P → R) (p q : P) (r : R) (n : Nat) :
    (read F (run F (start p r) ([.queue, .move q] ++ List.replicate n .read))).2 = F p := by
  have h1 : run F (start p r) [.queue, .move q]
      = { pos := q, cache := r, tainted := true, req := some p } := rfl
  have h2 : run F (start p r) ([.queue, .move q] ++ List.replicate n .read)
      = run F { pos := q, cache := r, tainted := true, req := some p } (List.replicate n .read) := by
    unfold run
    rw [List.foldl_append]
    exact congrArg (fun s => List.foldl (step F) s (List.replicate n .read)) h1
  rw [h2]
  cases n with
  | zero => rfl
  | succ n =>
    have h3 : ∀ n, run F { pos := q, cache := F p, tainted := false, req := none }
        (List.replicate n .read) = { pos := q, cache := F p, tainted := false, req := none } := by
      intro n
      induction n with
      | zero => rfl
      | succ n ih => rw [List.replicate_succ]; exact ih
    have h4 : run F { pos := q, cache := r, tainted := true, req := some p }
        (List.replicate (n + 1) .read)
        = { pos := q, cache := F p, tainted := false, req := none } := by
      rw [List.replicate_succ]; exact h3 n
    rw [h4]
    rfl

/-- **C46 is false of the code**, a concrete case. -/
theorem queued_then_moved_witness :
    (read (fun n : Nat => n) (run (fun n => n) (start 0 0) [.queue, .move 1])).2 = 0 ∧
    lastPos 0 ([.queue, .move 1] : List (Op Nat)) = 1 := by
  decide

/-- **C46, how it ends.**  A read always leaves nothing pending, so that the force is right again
after the next change. -/
theorem right_after_next_move (F : P → R) (s : St P R) (q : P) (h : s.tainted = true) :
    (read F (move q (read F s).1)).2 = F q := by
  unfold read
  rw [if_pos h]
  rfl

/-- A tidy history with several evaluations. -/
example : Tidy false ([.queue, .read, .move 1, .queue, .queue, .read, .read, .move 2] : List (Op Nat)) := by
  simp [Tidy]

end Verif.Bead
