import Verif.Tools.Beads
import Mathlib.Tactic.Ring
import Mathlib.Data.List.Basic

/-!
# C154: merging the trajectories of the beads
-/

namespace Verif.BeadTools

variable {α β : Type}

/-- The trajectories of the beads `l` from frame `i` on: bead `b` has `len b` frames, and `g b k` is
number `k`. -/
def rest (g : β → ℕ → α) (len : β → ℕ) (i : ℕ) (l : List β) : List (List α) :=
  l.map fun b => (List.range' i (len b - i)).map (g b)

theorem rest_cons {g : β → ℕ → α} {len : β → ℕ} {i : ℕ} {b : β} (h : i < len b) :
    (List.range' i (len b - i)).map (g b)
      = g b i :: (List.range' (i + 1) (len b - (i + 1))).map (g b) := by
  rw [show len b - i = (len b - (i + 1)) + 1 by omega, List.range'_succ, List.map_cons]

/-- A frame that all the beads have. -/
theorem muxFrame_all (out : Bool) (g : β → ℕ → α) (len : β → ℕ) (i : ℕ) (l : List β)
    (h : ∀ b ∈ l, i < len b) :
    muxFrame out (rest g len i l)
      = (if out then l.map (g · i) else [], some (rest g len (i + 1) l)) := by
  induction l with
  | nil => cases out <;> rfl
  | cons b l ih =>
    have hb := h b List.mem_cons_self
    have ih' := ih fun c hc => h c (List.mem_cons_of_mem _ hc)
    unfold rest at ih' ⊢
    rw [List.map_cons, rest_cons hb, muxFrame]
    simp only [ih', Option.map_some, List.map_cons]
    cases out <;> rfl

/-- A frame that is missing for some bead: the beads before the first of these are written. -/
theorem muxFrame_part (out : Bool) (g : β → ℕ → α) (len : β → ℕ) (i : ℕ) (l : List β)
    (h : ∃ b ∈ l, len b ≤ i) :
    muxFrame out (rest g len i l)
      = (if out then (l.takeWhile fun b => i < len b).map (g · i) else [], none) := by
  induction l with
  | nil => obtain ⟨b, hb, -⟩ := h; simp at hb
  | cons b l ih =>
    by_cases hb : i < len b
    · have h' : ∃ c ∈ l, len c ≤ i := by
        obtain ⟨c, hc, hci⟩ := h
        rcases List.mem_cons.mp hc with rfl | hc
        · omega
        · exact ⟨c, hc, hci⟩
      have ih' := ih h'
      unfold rest at ih' ⊢
      rw [List.map_cons, rest_cons hb, muxFrame]
      simp only [ih', Option.map_none, List.takeWhile_cons, hb, decide_true, if_true, List.map_cons]
      cases out <;> rfl
    · unfold rest
      rw [List.map_cons, show len b - i = 0 by omega]
      simp only [List.range'_zero, List.map_nil, muxFrame, List.takeWhile_cons, hb, decide_false]
      cases out <;> rfl

/-- Specification: all the beads of the chosen frames from `i` to `n - 1`, frame by frame. -/
def merged (start : ℤ) (stride : ℕ) (g : β → ℕ → α) (l : List β) (i n : ℕ) : List α :=
  ((List.range' i (n - i)).filter (chosen start stride)).flatMap fun k => l.map (g · k)

/-- **C154.** What is written: the chosen frames up to the end of the shortest trajectory, all beads of
a frame together and in the order given; and then the beads before the first one that ends there. -/
theorem mux_spec (start : ℤ) (stride : ℕ) (g : β → ℕ → α) (len : β → ℕ) (l : List β) (n : ℕ)
    (hall : ∀ b ∈ l, n ≤ len b) (hex : ∃ b ∈ l, len b = n) :
    ∀ (fuel i : ℕ), i ≤ n → n - i < fuel →
      (mux start (-1) stride fuel i (rest g len i l)).1
        = merged start stride g l i n
          ++ (if chosen start stride n then (l.takeWhile fun b => n < len b).map (g · n) else [])
  | 0, _, _, hf => absurd hf (by omega)
  | fuel + 1, i, hi, hf => by
    rw [mux, if_neg (by omega)]
    by_cases hn : i = n
    · subst hn
      obtain ⟨b, hb, hbn⟩ := hex
      rw [muxFrame_part _ _ _ _ _ ⟨b, hb, hbn.le⟩]
      simp only
      simp [merged]
    · have hlt : i < n := by omega
      rw [muxFrame_all _ _ _ _ _ fun b hb => lt_of_lt_of_le hlt (hall b hb)]
      simp only
      rw [mux_spec start stride g len l n hall hex fuel (i + 1) (by omega) (by omega)]
      rw [← List.append_assoc]
      congr 1
      unfold merged
      rw [show n - i = (n - (i + 1)) + 1 by omega, List.range'_succ, List.filter_cons]
      cases hc : chosen start stride i <;> simp [List.flatMap_cons]

/-- **C154.** Trajectories of the same length: exactly the chosen frames. -/
theorem mux_equal (start : ℤ) (stride : ℕ) (g : β → ℕ → α) (l : List β) (n : ℕ) (hl : l ≠ []) :
    (mux start (-1) stride (n + 1) 0 (l.map fun b => (List.range n).map (g b))).1
      = ((List.range n).filter (chosen start stride)).flatMap fun k => l.map (g · k) := by
  have e : (l.map fun b => (List.range n).map (g b)) = rest g (fun _ => n) 0 l := by
    unfold rest
    simp [List.range_eq_range']
  obtain ⟨b, l', rfl⟩ := List.exists_cons_of_ne_nil hl
  rw [e, mux_spec start stride g (fun _ => n) (b :: l') n (fun _ _ => le_refl _)
    ⟨b, List.mem_cons_self, rfl⟩ (n + 1) 0 (by omega) (by omega)]
  simp [merged, List.range_eq_range']

/-- **C154.** The option `end`: no frame from there on. -/
theorem mux_end (start : ℤ) (stop stride : ℕ) (g : β → ℕ → α) (len : β → ℕ) (l : List β)
    (hall : ∀ b ∈ l, stop ≤ len b) :
    ∀ (fuel i : ℕ), i ≤ stop → stop - i < fuel →
      (mux start stop stride fuel i (rest g len i l)).1 = merged start stride g l i stop
  | 0, _, _, hf => absurd hf (by omega)
  | fuel + 1, i, hi, hf => by
    rw [mux]
    by_cases hn : i = stop
    · subst hn
      rw [if_pos (by omega)]
      simp [merged]
    · have hlt : i < stop := by omega
      rw [if_neg (by omega), muxFrame_all _ _ _ _ _ fun b hb => lt_of_lt_of_le hlt (hall b hb)]
      simp only
      rw [mux_end start stop stride g len l hall fuel (i + 1) (by omega) (by omega)]
      unfold merged
      rw [show stop - i = (stop - (i + 1)) + 1 by omega, List.range'_succ, List.filter_cons]
      cases hc : chosen start stride i <;> simp [List.flatMap_cons]

/-- **C154, negated.** When a later trajectory is shorter — as while a simulation is writing — the file
ends with an incomplete frame, which is not counted. -/
theorem mux_incomplete :
    mux 0 (-1) 1 5 0 [["a0", "a1"], ["b0"]] = (["a0", "b0", "a1"], 1) := rfl

/-- **C154, negated.** Wrapping never works: the shape of the array is a float. -/
theorem wrap_fails (natoms : ℕ) : wrapShape natoms = .error .typeError := rfl

/-- **C154, negated.** Unwrapping fails at the second frame. -/
theorem unwrap_fails (natoms : ℕ) : unwrapShape true natoms = .ok none ∧
    unwrapShape false natoms = .error .typeError := ⟨rfl, rfl⟩

/-- **C154, negated.** The average of kinetic tensors over a window cannot be computed at all. -/
theorem tag_fails (len : ℕ) : tagAtoms len = .error .typeError := rfl

/-- Two beads, frames 1 and 3 of four. -/
example : mux 1 (-1) 1 6 0 [["a0", "a1", "a2"], ["b0", "b1", "b2"]] = (["a1", "b1", "a2", "b2"], 2) :=
  rfl

/-- **C154.** The frames chosen are the multiples of the stride from the start. -/
theorem chosen_iff (start : ℤ) (stride i : ℕ) : chosen start stride i = true ↔ start ≤ i ∧ ∃ k, i = stride * k := by
  unfold chosen
  rw [Bool.and_eq_true, decide_eq_true_iff, decide_eq_true_iff, ← Nat.dvd_iff_mod_eq_zero]
  rfl

end Verif.BeadTools
