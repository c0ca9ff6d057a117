import Verif.FF.Offset
import Mathlib.Tactic.Ring
import Mathlib.Tactic.LinearCombination
/-
C18: the energy offset is subtracted exactly once from what the caller sees, for every schedule.
-/
namespace Verif.Offset
variable {E : Type}

theorem run_induct [Sub E] (v off : E) (Inv : St E → Prop) (he : ∀ s, Inv s → Inv (evStep v off s)) (hc : ∀ s, Inv s → Inv (caStep s)) :
    ∀ (bs : List Bool) (s : St E), Inv s → Inv (run v off s bs) := by
  intro bs
  induction bs with
  | nil => intro s h; exact h
  | cons b bs ih =>
    intro s h
    rw [run]
    cases b
    · exact ih _ (hc s h)
    · exact ih _ (he s h)

/-- What the waiting side obtains, if it obtains anything, is the evaluated potential minus the offset. -/
def Correct [Sub E] (v off : E) (s : St E) : Prop := ∀ g, s.got = some g → g = some (v - off)

/-- Evaluators that subtract before announcing (direct, sockets, MPI): every way of picking up the result is right, under every
schedule. -/
theorem direct_once [Sub E] (v off : E) (ca : List Ca) (hca : ca = caBead ∨ ca = caBeadNoThread ∨ ca = caGather) (bs : List Bool) :
    Correct v off (run v off { evp := evDirect, cap := ca } bs) := by
  have key : (∃ p, ca = .waitDone :: p) := by
    rcases hca with rfl | rfl | rfl
    exacts [⟨_, rfl⟩, ⟨_, rfl⟩, ⟨_, rfl⟩]
  obtain ⟨p, rfl⟩ := key
  refine (run_induct v off (fun s => Correct v off s ∧
    ((s.isDone = true ∧ s.evp = [] ∧ s.result = some (v - off)) ∨
     (s.isDone = false ∧ s.cap = .waitDone :: p ∧ s.got = none ∧
      (s.evp = evDirect ∨ (s.evp = [.sub, .done] ∧ s.result = some v) ∨ (s.evp = [.done] ∧ s.result = some (v - off)))))) ?_ ?_ bs _ ?_).1
  · rintro s ⟨hg, hs⟩
    refine ⟨?_, ?_⟩
    · unfold evStep; split <;> exact hg
    · rcases hs with ⟨h1, h2, h3⟩ | ⟨h1, h2, h3, h4⟩
      · left; unfold evStep; rw [h2]; exact ⟨h1, h2, h3⟩
      · rcases h4 with h | ⟨h, h'⟩ | ⟨h, h'⟩
        · right; unfold evStep; rw [h]; exact ⟨h1, h2, h3, .inr (.inl ⟨rfl, rfl⟩)⟩
        · right; unfold evStep; rw [h]; exact ⟨h1, h2, h3, .inr (.inr ⟨rfl, by simp [h']⟩)⟩
        · left; unfold evStep; rw [h]; exact ⟨rfl, rfl, h'⟩
  · rintro s ⟨hg, hs⟩
    rcases hs with ⟨h1, h2, h3⟩ | ⟨h1, h2, h3, h4⟩
    · refine ⟨?_, .inl ?_⟩
      · unfold caStep
        split
        · exact hg
        · split <;> exact hg
        · split <;> exact hg
        · intro g e; simp at e; rw [← e, h3]
      · unfold caStep
        split
        · exact ⟨h1, h2, h3⟩
        · split <;> exact ⟨h1, h2, h3⟩
        · split <;> exact ⟨h1, h2, h3⟩
        · exact ⟨h1, h2, h3⟩
    · have : caStep s = s := by unfold caStep; rw [h2]; simp [h1]
      rw [this]; exact ⟨hg, .inr ⟨h1, h2, h3, h4⟩⟩
  · exact ⟨fun g e => (by cases e), .inr ⟨rfl, rfl, rfl, .inl rfl⟩⟩

/-- The FFEval family subtracts after announcing, but a replica that waits for its forces joins the evaluation thread before it uses
them, so it too sees the offset exactly once, under every schedule. -/
theorem eval_bead_once [Sub E] (v off : E) (bs : List Bool) : Correct v off (run v off { evp := evEval, cap := caBead } bs) := by
  refine (run_induct v off (fun s => Correct v off s ∧ (s.got = none ∨ s.cap = []) ∧ (s.evp = [] ∨ (s.cap = caBead ∨ s.cap = [.join, .read])) ∧
    (s.cap ∈ [caBead, [.join, .read], [.read], []]) ∧
    (s.evp = evEval ∨ (s.evp = [.done, .sub] ∧ s.result = some v) ∨ (s.evp = [.sub] ∧ s.result = some v) ∨
      (s.evp = [] ∧ s.result = some (v - off)))) ?_ ?_ bs _ ?_).1
  · rintro s ⟨hg, h1, h2, h3, h4⟩
    unfold evStep
    rcases h4 with h | ⟨h, h'⟩ | ⟨h, h'⟩ | ⟨h, h'⟩ <;> rw [h]
    · exact ⟨hg, h1, .inr (h2.resolve_left (by rw [h]; decide)), h3, .inr (.inl ⟨rfl, rfl⟩)⟩
    · exact ⟨hg, h1, .inr (h2.resolve_left (by rw [h]; decide)), h3, .inr (.inr (.inl ⟨rfl, h'⟩))⟩
    · exact ⟨hg, h1, .inl rfl, h3, .inr (.inr (.inr ⟨rfl, by simp [h']⟩))⟩
    · exact ⟨hg, h1, .inl h, h3, .inr (.inr (.inr ⟨h, h'⟩))⟩
  · rintro s ⟨hg, h1, h2, h3, h4⟩
    simp only [List.mem_cons, List.not_mem_nil, or_false] at h3
    unfold caStep
    rcases h3 with h | h | h | h <;> rw [h]
    · dsimp only [caBead]
      split
      · exact ⟨hg, .inl (h1.resolve_right (by rw [h]; decide)), .inr (.inr rfl), by simp, h4⟩
      · exact ⟨hg, h1, h2, by rw [h]; simp [caBead], h4⟩
    · dsimp only
      split
      · rename_i he
        exact ⟨hg, .inl (h1.resolve_right (by rw [h]; decide)), .inl he, by simp, h4⟩
      · exact ⟨hg, h1, h2, by simp [h], h4⟩
    · dsimp only
      have he : s.evp = [] := h2.resolve_right (by rw [h]; decide)
      rcases h4 with h' | ⟨h', _⟩ | ⟨h', _⟩ | ⟨h', h''⟩
      · rw [h'] at he; cases he
      · rw [h'] at he; cases he
      · rw [h'] at he; cases he
      · exact ⟨fun g e => (by simp at e; rw [← e, h'']), .inr rfl, .inl he, by simp, .inr (.inr (.inr ⟨h', h''⟩))⟩
    · exact ⟨hg, h1, h2, by simp [h], h4⟩
  · exact ⟨fun g e => (by cases e), .inl rfl, .inr (.inl rfl), by simp, .inl rfl⟩

/-- and the schedule in which everything runs does deliver it. -/
example : (run (10 : Int) 3 { evp := evEval, cap := caBead } [false, true, true, false, false, true, false, false]).got = some (some 7) := by decide
example : (run (10 : Int) 3 { evp := evDirect, cap := caGather } [true, false, true, true, false, false, false]).got = some (some 7) := by decide

/-- The property fails for a member of a committee that belongs to the FFEval family (such as `fflj`): when the polling thread of the
committee runs between the announcement and the subtraction it uses the potential without the offset. This happens for every
potential and every offset. -/
theorem committee_member_misses_offset [Sub E] (v off : E) :
    (run v off { evp := evEval, cap := caGather } [true, true, false, false, true, false]).got = some (some v) := rfl

theorem committee_member_wrong : ¬ ∀ bs : List Bool, Correct (10 : Int) 3 (run 10 3 { evp := evEval, cap := caGather } bs) := by
  intro h
  have := h [true, true, false, false] (some 10) rfl
  revert this; decide

/-- What remains true there: without the interruption between the two statements the result is right. -/
theorem committee_member_partial [Sub E] (v off : E) (bs : List Bool) :
    Correct v off (run v off { evp := evEval, cap := caGather } ([true, true, true] ++ bs)) := by
  have h0 : run v off { evp := evEval, cap := caGather } ([true, true, true] ++ bs) =
      run v off { evp := [], cap := caGather, result := some (v - off), isDone := true } bs := rfl
  rw [h0]
  refine (run_induct v off (fun s => Correct v off s ∧ s.evp = [] ∧ s.result = some (v - off)) ?_ ?_ bs _ ?_).1
  · rintro s ⟨hg, h1, h2⟩; unfold evStep; rw [h1]; exact ⟨hg, h1, h2⟩
  · rintro s ⟨hg, h1, h2⟩
    unfold caStep
    split
    · exact ⟨hg, h1, h2⟩
    · split <;> exact ⟨hg, h1, h2⟩
    · split <;> exact ⟨hg, h1, h2⟩
    · exact ⟨fun g e => (by simp at e; rw [← e, h2]), h1, h2⟩
  · exact ⟨fun g e => (by cases e), rfl, rfl⟩

/-- The cavity force field subtracts the offset once per bath and once more for the total. -/
theorem cavph_offset {R : Type} [CommRing R] (off : R) (us : List R) (ph : R) :
    cavph 0 off us ph = us.sum + ph - (us.length + 1) * off := by
  have : ∀ (us : List R) (a : R), us.foldl (fun acc u => acc + (u - off)) a = a + us.sum - us.length * off := by
    intro us
    induction us with
    | nil => intro a; simp
    | cons u us ih => intro a; rw [List.foldl_cons, ih, List.sum_cons, List.length_cons]; push_cast; ring
  unfold cavph
  rw [this]; ring

/-- With the single bath the code supports, the energy is wrong by the offset, whenever the offset is not zero. -/
theorem cavph_twice {R : Type} [CommRing R] (off u ph : R) (h : off ≠ 0) : cavph 0 off [u] ph ≠ u + ph - off := by
  rw [cavph_offset]
  intro e
  apply h
  simp only [List.sum_cons, List.sum_nil, List.length_cons, List.length_nil] at e
  push_cast at e
  linear_combination (-1 : R) * e

end Verif.Offset
