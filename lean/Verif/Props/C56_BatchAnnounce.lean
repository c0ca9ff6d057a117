import Verif.Driver.Lemmas
/-
C56: driver and i-PI agree on the batch size. C57: the driver ends when i-PI goes away.
-/
namespace Verif.Driver
open Verif.Text
variable {P R : Type}

theorem token_announce (w : Str) (hw : ∀ c ∈ w, isWs c = true) (b : Int) (n : Nat) :
    token b (w ++ " batch_size:".toList ++ showNat n) = n := by
  have hcolon : ':' ∉ w ++ " batch_size".toList := by
    intro h
    rcases List.mem_append.1 h with h | h
    · have := hw _ h; revert this; decide
    · revert h; decide
  have hp : partition ':' (w ++ " batch_size:".toList ++ showNat n) = (w ++ " batch_size".toList, some (showNat n)) := by
    have : w ++ " batch_size:".toList ++ showNat n = (w ++ " batch_size".toList) ++ ':' :: showNat n := by
      rw [show " batch_size:".toList = " batch_size".toList ++ [':'] from rfl]; simp
    rw [this, partition_append _ hcolon]
  have hs : strip (w ++ " batch_size".toList) = "batch_size".toList := by
    have : w ++ " batch_size".toList = (w ++ [' ']) ++ "batch_size".toList ++ [] := by
      rw [show " batch_size".toList = [' '] ++ "batch_size".toList from rfl]; simp
    rw [this]
    apply stripP_pad
    · intro c hc
      rcases List.mem_append.1 hc with hc | hc
      · exact hw c hc
      · simp at hc; subst hc; decide
    · simp
    · intro c hc
      have : c = 'b' := by
        have : "batch_size".toList.head? = some 'b' := rfl
        rw [this] at hc; injection hc with hc; exact hc.symm
      subst this; decide
    · intro c hc
      have : c = 'e' := by
        have : "batch_size".toList.getLast? = some 'e' := rfl
        rw [this] at hc; injection hc with hc; exact hc.symm
      subst this; decide
  have hd : strip (showNat n) = showNat n := strip_self_of_all fun c hc => isDigit_not_ws (showNat_digits n c hc)
  unfold token
  rw [hp]
  simp only [hs, if_true, hd]
  rw [parseInt_of_digits (showNat_digits n), parseNat_showNat]
  rfl

/-- Whatever the parameter string chosen by the user (even one that mentions `batch_size` itself), and whatever the driver
believed before, after the initialisation message the driver uses i-PI's batch size. -/
theorem batch_announced (pars : Str) (n : Nat) (h : n > 1) (b : Int) : parseBatch b (announce pars n) = n := by
  unfold announce
  rw [if_pos h]
  unfold parseBatch
  by_cases hp : strip pars = []
  · rw [if_pos hp, List.append_nil]
    have hws : ∀ c ∈ pars, isWs c = true := stripP_nil hp
    rw [splitOn_noSep]
    · exact token_announce pars hws b n
    · intro hm
      rcases List.mem_append.1 hm with hm | hm
      · rcases List.mem_append.1 hm with hm | hm
        · have := hws _ hm; revert this; decide
        · revert hm; decide
      · have := showNat_digits n _ hm; revert this; decide
  · rw [if_neg hp]
    have e : pars ++ [','] ++ " batch_size:".toList ++ showNat n = pars ++ ',' :: (" batch_size:".toList ++ showNat n) := by simp
    rw [e, splitOn_append, splitOn_noSep (s := " batch_size:".toList ++ showNat n)]
    · rw [List.foldl_append]
      simp only [List.foldl_cons, List.foldl_nil]
      exact token_announce [] (by simp) _ n
    · intro hm
      rcases List.mem_append.1 hm with hm | hm
      · revert hm; decide
      · have := showNat_digits n _ hm; revert this; decide

example : parseBatch 1 (announce "epsilon:0.3, batch_size: 9 ,n:batch_size".toList 16) = 16 := by decide +kernel

/-- Without batching the driver uses single evaluations, unless the user's own string mentions `batch_size`. -/
theorem no_batch (pars : Str) (h : ∀ tok ∈ splitOn ',' pars, ∀ k v, partition ':' tok = (k, some v) → strip k ≠ "batch_size".toList) :
    parseBatch 1 (announce pars 1) = 1 := by
  unfold announce parseBatch
  rw [if_neg (by omega)]
  generalize splitOn ',' pars = ts at h
  have : ∀ b : Int, ts.foldl token b = b := by
    induction ts with
    | nil => intro b; rfl
    | cons t ts ih =>
      intro b
      rw [List.foldl_cons]
      have : token b t = b := by
        unfold token
        split
        · rfl
        · rename_i k v e
          rw [if_neg (h t (by simp) k v e)]
      rw [this]
      exact ih (fun tok ht => h tok (by simp [ht])) b
  exact this 1

/-- Otherwise the two sides disagree: here i-PI sends single structures and the driver expects four. -/
theorem user_batch_desync : parseBatch 1 (announce "batch_size:4".toList 1) = 4 := by decide +kernel

end Verif.Driver
