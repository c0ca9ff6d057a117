import Verif.Props.C21_Committee
/-
C59: the weights of a committee. The input documentation says "List of weights to be given to the forcefields ... the components are
divided by the number of FF, and so the default corresponds to an average". The code stores them and never uses them.
C60: the extras of every member of a committee are passed on. Only those of the last member are.
-/
namespace Verif.Committee
variable {K ι κ X : Type} [Field K]

/-- The documented result: the weighted sum of the members' potentials divided by their number. -/
def weightedPot (ws : List K) (hs : List (Handle K ι κ X)) : K :=
  ((ws.zip hs).map fun wh => wh.1 * wh.2.pot).sum / hs.length

/-- A committee as constructed (forcefields.py:1358-1410) holds the weights; `gather` does not look at them. -/
structure Ff (K : Type) where
  weights : List K
  alpha : K
  json : Bool

/-- `poll` on a finished request (forcefields.py:1657-1665), without baseline and offset. -/
def Ff.answer (ff : Ff K) (hs : List (Handle K ι κ X)) : Except Err (Result K ι κ) := gatherPlain ff.json ff.alpha hs

/-- With the default weights the documented result is delivered. -/
theorem default_weights_partial (alpha : K) (hs : List (Handle K ι κ X)) (hne : hs ≠ []) :
    ∃ r, (Ff.answer ⟨List.replicate hs.length 1, alpha, false⟩ hs) = .ok r ∧ r.pot = weightedPot (List.replicate hs.length 1) hs := by
  obtain ⟨r, h1, h2, _⟩ := plain_mean false alpha hs hne (.inl rfl)
  refine ⟨r, h1, ?_⟩
  rw [h2, weightedPot]
  congr 2
  generalize hs = l
  induction l with
  | nil => rfl
  | cons a l ih => simp [List.replicate_succ, ih]

/-- With any other weights the answer is the same as with the default ones: the weights have no effect. -/
theorem weights_ignored (ws ws' : List K) (alpha : K) (json : Bool) (hs : List (Handle K ι κ X)) :
    Ff.answer ⟨ws, alpha, json⟩ hs = Ff.answer ⟨ws', alpha, json⟩ hs := rfl

/-- So the documented meaning fails, for instance when one of two members has weight zero and the other two. -/
theorem weights_wrong : ¬ ∀ (ws : List ℚ) (hs : List (Handle ℚ Unit Unit Unit)), ws.length = hs.length → hs ≠ [] →
    ∃ r, Ff.answer ⟨ws, 1, false⟩ hs = .ok r ∧ r.pot = weightedPot ws hs := by
  intro h
  obtain ⟨r, h1, h2⟩ := h [2, 0] [exH 1 0, exH 3 0] rfl (by simp)
  obtain ⟨r', h3, h4, _⟩ := plain_mean false (1 : ℚ) [exH 1 0, exH 3 0] (by simp) (.inl rfl)
  have : Ff.answer ⟨[2, 0], 1, false⟩ [exH 1 0, exH 3 0] = .ok r' := h3
  rw [this] at h1
  injection h1 with h1
  rw [← h1, h4] at h2
  revert h2
  decide +kernel

/-! ### extras -/

/-- What is passed on is the extra of the last member alone, -/
theorem extras_last_only (hs : List (Handle K ι κ X)) (h : Handle K ι κ X) : extrasOf (hs ++ [h]) = [h.extra] := by
  simp [extrasOf]

/-- which is one entry instead of one per member as soon as there are two members, -/
theorem extras_dropped (hs : List (Handle K ι κ X)) (h2 : hs.length ≥ 2) : extrasOf hs ≠ hs.map (·.extra) := by
  intro e
  have := congrArg List.length e
  rw [List.length_map] at this
  unfold extrasOf at this
  split at this <;> simp at this <;> omega

/-- and right for a single member. -/
theorem extras_single_partial (h : Handle K ι κ X) : extrasOf [h] = [h].map (·.extra) := rfl

end Verif.Committee
