import Mathlib.Data.List.GetD
import Verif.Tools.ContractTraj
import Verif.Props.C35_Contract
import Verif.Props.C63_TrajUnits

/-!
# C164: contracting a set of trajectories keeps the centroid, but not the units of the cell or the name of the quantity
-/

namespace Verif.ContractTraj

open Verif.Text Verif.Units Verif.TrajUnits Verif.Contract Verif.Nm Finset

/-- Contraction commutes with a change of units. -/
theorem b1tob2_scale {n1 n2 m : ℕ} (q : Arr n1 m) (f g : ℝ) (h : f * g = 1) (a : Fin n2) (c : Fin m) :
    b1tob2 n2 [] (fun b c => q b c * f) a c * g = b1tob2 n2 [] q a c := by
  unfold b1tob2
  split
  · rw [mul_assoc, h, mul_one]
  · simp only [List.not_mem_nil, if_false]
    unfold apply
    rw [Finset.sum_mul]
    refine Finset.sum_congr rfl fun b _ => ?_
    rw [← mul_assoc, mul_assoc, h, mul_one]

theorem auto_table : ∀ t ∈ unitMap, (toInternal t.1 kAuto 1).toOption = some 1 ∧ (toInternal t.1 kAtomic 1).toOption = some 1 := by decide +kernel

/-- `automatic` and `atomic_unit` are the same in every family. -/
theorem auto_atomic (fam : Str) : toInternal fam (autoName .other) 1 = toInternal fam kAuto 1 := by
  show toInternal fam kAtomic 1 = _
  by_cases h : fam ∈ unitMap.map (·.1)
  · obtain ⟨t, ht, rfl⟩ := List.mem_map.1 h
    obtain ⟨h1, h2⟩ := auto_table t ht
    have key : ∀ {e : Except Units.Err Rat}, e.toOption = some 1 → e = .ok 1 := by
      intro e he
      cases e with
      | error _ => cases he
      | ok x => simp only [Except.toOption, Option.some.injEq] at he; rw [he]
    rw [key h1, key h2]
  · by_cases hn : fam = kNumber
    · subst hn; rfl
    · rw [unknown_family h hn, unknown_family h hn]

/-- What an accepted frame looks like: the beads agree, the numbers of the atoms are those of the contraction of the numbers read, the
title announces no quantity, and the numbers of the cell are multiplied with a factor. -/
theorem step_ok {k nNew : ℕ} {cuIn cuOut out : Str} {fr : Fin (k + 1) → Frame} {w : Fin nNew → Written} (h : step nNew cuIn cuOut fr = .ok (out, w)) :
    (∀ b, (fr b).cell = (fr 0).cell) ∧ (∀ b, (fr b).data.length = 3 * ((fr 0).data.length / 3)) ∧
    ∃ dim units cu : Str, autoUnits .other (fr 0).comment kAuto kAuto cuIn = .ok (dim, units, cu) ∧ out = (if cuOut = kAuto then cu else cuOut) ∧
      ∃ fc : Rat, toUser kLength (resolve .other out) 1 = .ok fc ∧
      ∀ a, (w a).title = announce [] (resolve .other units) (resolve .other out) ∧ (∀ i, (w a).cell i = (fr 0).cell i * (fc : ℝ)) ∧
        (w a).data = List.ofFn fun c : Fin (3 * ((fr 0).data.length / 3)) => b1tob2 nNew [] (stack fr (3 * ((fr 0).data.length / 3))) a c := by
  unfold step at h
  split at h
  · cases h
  rename_i dim units cu ha
  dsimp only at h
  split at h
  · cases h
  rename_i h1
  split at h
  · cases h
  rename_i h2
  push Not at h1 h2
  split at h
  · rename_i f p hf hp
    simp only [Except.ok.injEq, Prod.mk.injEq] at h
    obtain ⟨rfl, rfl⟩ := h
    refine ⟨h1, h2, dim, units, cu, ha, rfl, ?_⟩
    generalize (if cuOut = kAuto then cu else cuOut) = out at hp ⊢
    unfold printFile at hp
    rw [if_neg (by rintro ⟨h, _⟩; cases h)] at hp
    simp only [reduceCtorEq, false_and, if_false] at hp
    split at hp
    · rename_i cc ac hc hu
      simp only [Except.ok.injEq] at hp
      subst hp
      refine ⟨cc, hc, fun a => ⟨by rfl, fun i => rfl, ?_⟩⟩
      dsimp only
      congr 1
      funext c
      apply b1tob2_scale
      have hr : toInternal dim (resolve .other units) 1 = toInternal dim units 1 := by
        unfold resolve
        split
        · rename_i he
          subst he
          exact auto_atomic dim
        · rfl
      obtain ⟨g, hg, _, hgc⟩ := user_inverse hu
      rw [hr, hf] at hg
      cases hg
      exact_mod_cast hgc
    · cases hp
  · cases h

/-! ### unit names -/

theorem word_takeWhile (s : Str) : Word (s.takeWhile wordChar) := fun c hc => List.all_eq_true.1 List.all_takeWhile c hc

theorem braceAt_is_word {s u : Str} (h : braceAt s = some u) : Word u := by
  unfold braceAt at h
  split at h
  · split at h
    · simp only [Option.some.injEq] at h; rw [← h]; exact word_takeWhile _
    · cases h
  · cases h

theorem keySearch_is_word {k : Str} : ∀ {s u : Str}, keySearch k s = some u → Word u := by
  have hk : ∀ {s u : Str}, keyAt k s = some u → Word u := by
    intro s u h
    unfold keyAt at h
    split at h
    · exact braceAt_is_word h
    · cases h
  intro s
  induction s with
  | nil => intro u h; exact hk h
  | cons c s ih =>
    intro u h
    rw [keySearch] at h
    split at h
    · rename_i v hv; simp only [Option.some.injEq] at h; rw [← h]; exact hk hv
    · exact ih h

theorem trajSearch_is_word {s d u : Str} : ∀ {t : List (Str × Str)}, trajSearch t s = some (d, u) → Word u := by
  intro t
  induction t with
  | nil => intro h; cases h
  | cons e t ih =>
    intro h
    rw [trajSearch] at h
    split at h
    · rename_i v hv; simp only [Option.some.injEq, Prod.mk.injEq] at h; rw [← h.2]; exact keySearch_is_word hv
    · exact ih h

theorem word_atomic : Word kAtomic := by unfold Word; decide

theorem autoUnits_is_word {comment cuIn dim u cu : Str} (h : autoUnits .other comment kAuto kAuto cuIn = .ok (dim, u, cu)) : Word u ∧ (Word cuIn → Word cu) := by
  unfold autoUnits at h
  simp only [ne_eq, not_true_eq_false, false_and, if_false, if_true] at h
  have hu : Word (match trajSearch trajDict (strip comment) with
      | some f => f.2
      | none => autoName .other) := by
    split
    · rename_i f hf; exact trajSearch_is_word (d := f.1) (u := f.2) hf
    · exact word_atomic
  have hc : Word (match keySearch kCell comment with
      | some u => u
      | none => autoName .other) := by
    split
    · rename_i v hv; exact keySearch_is_word hv
    · exact word_atomic
  split_ifs at h <;> simp only [Except.ok.injEq, Prod.mk.injEq, reduceCtorEq] at h <;> obtain ⟨-, rfl, rfl⟩ := h <;>
    first | exact ⟨hu, fun _ => hc⟩ | exact ⟨hu, fun h => h⟩

theorem resolve_word {u : Str} (h : Word u) : Word (resolve .other u) := by
  unfold resolve
  split
  · exact word_atomic
  · exact h

theorem step_word {k nNew : ℕ} {cuIn cuOut out : Str} {fr : Fin (k + 1) → Frame} {w : Fin nNew → Written} (h : step nNew cuIn cuOut fr = .ok (out, w))
    (h1 : Word cuIn) (h2 : Word cuOut) : Word out := by
  obtain ⟨-, -, _, _, _, ha, ho, -⟩ := step_ok h
  rw [ho]
  split
  · exact (autoUnits_is_word ha).2 h1
  · exact h2

/-! ### all the frames -/

/-- What is written: the frames of the shortest trajectory, unless a frame is refused. -/
theorem loop_rows {k nNew : ℕ} (cuIn : Str) (t : Fin (k + 1) → List Frame) : ∀ (fuel i : ℕ) (cuOut : Str), fuel + i = (t 0).length → ∀ r e,
    loop nNew cuIn t fuel i cuOut = (r, e) →
    (∀ j (hj : j < r.length), ∃ h : ∀ b, i + j < (t b).length, ∃ c o, step nNew cuIn c (fun b => (t b)[i + j]'(h b)) = .ok (o, r[j]) ∧ (cuOut ≠ kAuto ∨ j = 0 → c = cuOut) ∧ (Word cuIn → Word cuOut → Word o)) ∧
    (e = none → ∃ b, (t b).length ≤ i + r.length) ∧
    (∀ x, e = some x → ∃ h : ∀ b, i + r.length < (t b).length, ∃ c, step nNew cuIn c (fun b => (t b)[i + r.length]'(h b)) = .error x) := by
  intro fuel
  induction fuel with
  | zero =>
    intro i cuOut hi r e h
    simp only [loop, Prod.mk.injEq] at h
    obtain ⟨rfl, rfl⟩ := h
    exact ⟨fun j hj => absurd hj (by simp), fun _ => ⟨0, by simp; omega⟩, fun x hx => by cases hx⟩
  | succ f ih =>
    intro i cuOut hi r e h
    rw [loop] at h
    split at h
    · rename_i hb
      split at h
      · rename_i x hs
        simp only [Prod.mk.injEq] at h
        obtain ⟨rfl, rfl⟩ := h
        refine ⟨fun j hj => absurd hj (by simp), fun h => (nomatch h), fun y hy => ?_⟩
        cases hy
        exact ⟨hb, cuOut, hs⟩
      · rename_i out w hs
        simp only [Prod.mk.injEq] at h
        obtain ⟨rfl, rfl⟩ := h
        obtain ⟨i1, i2, i3⟩ := ih (i + 1) out (by omega) _ _ rfl
        have hout : cuOut ≠ kAuto → out = cuOut := by
          intro hne
          obtain ⟨-, -, _, _, _, -, ho, -⟩ := step_ok hs
          rw [ho, if_neg hne]
        have hword := step_word hs
        refine ⟨?_, ?_, ?_⟩
        · intro j hj
          cases j with
          | zero => exact ⟨hb, cuOut, out, hs, fun _ => rfl, hword⟩
          | succ j =>
            obtain ⟨h1, c, o, h2, h3, h4⟩ := i1 j (by simpa using hj)
            have e1 : i + (j + 1) = i + 1 + j := by omega
            refine ⟨fun b => by rw [e1]; exact h1 b, c, o, ?_, fun hne => ?_, fun w1 w2 => h4 w1 (hword w1 w2)⟩
            · simp only [List.getElem_cons_succ]
              rw [← h2]; congr 1; funext b; congr 1
            · have hne : cuOut ≠ kAuto := hne.resolve_right (by omega)
              rw [h3 (.inl (by rw [hout hne]; exact hne)), hout hne]
        · intro hn
          obtain ⟨b, h⟩ := i2 hn
          exact ⟨b, by simp only [List.length_cons]; omega⟩
        · intro x hx
          obtain ⟨h1, c, h2⟩ := i3 x hx
          refine ⟨fun b => by have := h1 b; simp only [List.length_cons]; omega, c, ?_⟩
          rw [← h2]; congr 1; funext b; congr 1
          simp only [List.length_cons]; omega
    · rename_i hb
      simp only [Prod.mk.injEq] at h
      obtain ⟨rfl, rfl⟩ := h
      push Not at hb
      exact ⟨fun j hj => absurd hj (by simp), fun _ => by simpa using hb, fun x hx => by cases hx⟩

/-- **C164 (frames).** Without an exception there is one frame in the output for every frame of the shortest input trajectory. -/
theorem shortest {k nNew : ℕ} {cuIn cuOut : Str} {t : Fin (k + 1) → List Frame} {r : List (Fin nNew → Written)} (h : contract nNew cuIn cuOut t = (r, none)) :
    (∀ b, r.length ≤ (t b).length) ∧ ∃ b, r.length = (t b).length := by
  obtain ⟨h1, h2, -⟩ := loop_rows cuIn t _ 0 cuOut (by omega) r none h
  have hle : ∀ b, r.length ≤ (t b).length := by
    intro b
    cases hr : r.length with
    | zero => omega
    | succ n => obtain ⟨h, -⟩ := h1 n (by omega); have := h b; omega
  obtain ⟨b, hb⟩ := h2 rfl
  exact ⟨hle, b, by have := hle b; omega⟩

/-- **C164 (centroid), partial.** Whatever quantity and units the files announce, for every frame written and every component the mean over
the new beads of the numbers written is the mean over the old beads of the numbers read; all the beads had the same cell and number of
atoms.  With as many new beads as old ones the numbers are those read. -/
theorem centroid_partial {k nNew : ℕ} {cuIn cuOut : Str} {t : Fin (k + 1) → List Frame} {r : List (Fin nNew → Written)} {e : Option Fail}
    (h : contract nNew cuIn cuOut t = (r, e)) (hn : 0 < nNew) (j : ℕ) (hj : j < r.length) :
    ∃ ht : ∀ b, j < (t b).length, (∀ b, ((t b)[j]'(ht b)).cell = ((t 0)[j]'(ht 0)).cell) ∧ (∀ b, ((t b)[j]'(ht b)).data.length = ((t 0)[j]'(ht 0)).data.length) ∧
      (∀ a, (r[j] a).data.length = ((t 0)[j]'(ht 0)).data.length) ∧
      (∀ c, c < ((t 0)[j]'(ht 0)).data.length → (∑ a, (r[j] a).data.getD c 0) / nNew = (∑ b, ((t b)[j]'(ht b)).data.getD c 0) / (k + 1 : ℕ)) ∧
      ∀ he : k + 1 = nNew, ∀ b, (r[j] (Fin.cast he b)).data = ((t b)[j]'(ht b)).data := by
  obtain ⟨h1, -, -⟩ := loop_rows cuIn t _ 0 cuOut (by omega) r e h
  obtain ⟨ht, c, o, hs, -⟩ := h1 j hj
  simp only [Nat.zero_add] at ht hs
  obtain ⟨g1, g2, _, _, _, -, -, fc, -, hw⟩ := step_ok hs
  have hlen : ∀ b, ((t b)[j]'(ht b)).data.length = ((t 0)[j]'(ht 0)).data.length := fun b => (g2 b).trans (g2 0).symm
  have h3 : 3 * (((t 0)[j]'(ht 0)).data.length / 3) = ((t 0)[j]'(ht 0)).data.length := (g2 0).symm
  refine ⟨ht, g1, hlen, fun a => ?_, fun c hc => ?_, ?_⟩
  · rw [(hw a).2.2, List.length_ofFn]; exact h3
  · rw [← h3] at hc
    have := centroid_kept (n1 := k + 1) (n2 := nNew) (by omega) hn [] (stack (fun b => (t b)[j]'(ht b)) (3 * (((t 0)[j]'(ht 0)).data.length / 3))) ⟨c, hc⟩
    refine Eq.trans ?_ (this.trans ?_)
    · congr 1
      refine Finset.sum_congr rfl fun a _ => ?_
      rw [(hw a).2.2, List.getD_eq_getElem _ _ (by rw [List.length_ofFn]; exact hc), List.getElem_ofFn]
    · rfl
  · intro he b
    subst he
    refine List.ext_getElem ?_ fun c hc1 hc2 => ?_
    · rw [(hw _).2.2, List.length_ofFn, g2 b]
    · have e1 := (hw (Fin.cast rfl b)).2.2
      rw [(same_beads [] _).1] at e1
      simp only [e1, List.getElem_ofFn]
      unfold stack
      simp only [Fin.cast_eq_self]
      rw [List.getD_eq_getElem _ _ hc2]

/-- Frames whose beads have different cells or numbers of atoms are refused; what was written before stays. -/
theorem mismatch {k nNew : ℕ} {cuIn cuOut : Str} {t : Fin (k + 1) → List Frame} {r : List (Fin nNew → Written)} {e : Option Fail}
    (h : contract nNew cuIn cuOut t = (r, e)) (j : ℕ) (ht : ∀ b, j < (t b).length)
    (hd : ∃ b, ((t b)[j]'(ht b)).cell ≠ ((t 0)[j]'(ht 0)).cell ∨ ((t b)[j]'(ht b)).data.length ≠ ((t 0)[j]'(ht 0)).data.length) :
    r.length ≤ j ∧ e ≠ none := by
  obtain ⟨h1, h2, -⟩ := loop_rows cuIn t _ 0 cuOut (by omega) r e h
  have hle : r.length ≤ j := by
    by_contra hlt
    obtain ⟨h', c, o, hs, -⟩ := h1 j (by omega)
    simp only [Nat.zero_add] at hs
    obtain ⟨g1, g2, -⟩ := step_ok hs
    obtain ⟨b, hb | hb⟩ := hd
    · exact hb (g1 b)
    · exact hb ((g2 b).trans (g2 0).symm)
  refine ⟨hle, fun he => ?_⟩
  obtain ⟨b, hb⟩ := h2 he
  have := ht b
  omega

/-! ### the cell -/

/-- **False of the code: the cell keeps its size.**  The numbers of the cell are taken to be in bohr, whatever the files announce: the title
announces some unit `o` for the cell and the numbers are those read divided by the length of this unit.  The unit is the one requested for
the output and, for the first frame of a run without such a request, the one found when reading. -/
theorem cell_as_bohr {k nNew : ℕ} {cuIn cuOut : Str} {t : Fin (k + 1) → List Frame} {r : List (Fin nNew → Written)} {e : Option Fail}
    (h : contract nNew cuIn cuOut t = (r, e)) (j : ℕ) (hj : j < r.length) :
    ∃ (ht : j < (t 0).length) (o : Str) (f : Rat), toInternal kLength o 1 = .ok f ∧ 0 < f ∧
      (∀ a, tag kCell o <:+ (r[j] a).title ∧ ∀ i, (r[j] a).cell i = ((t 0)[j]).cell i / (f : ℝ)) ∧
      (cuOut ≠ kAuto → o = cuOut) ∧
      (cuOut = kAuto → j = 0 → ∃ dim units cu, autoUnits .other ((t 0)[j]).comment kAuto kAuto cuIn = .ok (dim, units, cu) ∧ o = resolve .other cu) := by
  obtain ⟨h1, -, -⟩ := loop_rows cuIn t _ 0 cuOut (by omega) r e h
  obtain ⟨ht, c, o, hs, hcc, -⟩ := h1 j hj
  simp only [Nat.zero_add] at ht hs
  obtain ⟨-, -, dim, units, cu, ha, ho, fc, hf, hw⟩ := step_ok hs
  obtain ⟨f, hf1, hf2, hf3⟩ := user_inverse hf
  refine ⟨ht 0, resolve .other o, f, hf1, hf2, fun a => ⟨?_, fun i => ?_⟩, fun hne => ?_, fun hau hj0 => ⟨dim, units, cu, ha, ?_⟩⟩
  · rw [(hw a).1]
    unfold announce
    exact ⟨tag [] (resolve .other units) ++ [' ', ' '], by simp⟩
  · rw [(hw a).2.1 i]
    have h0 : (f : ℝ) ≠ 0 := by exact_mod_cast hf2.ne'
    have h3 : (f : ℝ) * (fc : ℝ) = 1 := by exact_mod_cast hf3
    rw [eq_div_iff h0, mul_assoc, mul_comm (fc : ℝ), h3, mul_one]
  · rw [ho, hcc (.inl hne), if_neg hne]; exact if_neg hne
  · rw [ho, hcc (.inr hj0), if_pos hau]

/-! ### reading the output -/

/-- Text before the title in an xyz file: no braces, ends with a blank, does not start with one. -/
def Head (P : Str) : Prop := Lead P ∧ P ≠ [] ∧ ∀ c, P.head? = some c → isWs c = false

/-- **False of the code: the output can be used like the input.**  The quantity is not named in the output: whatever was in the input,
reading a frame with automatic units takes the numbers to be of no known dimension and in atomic units, while the cell is converted. -/
theorem label_lost {k nNew : ℕ} {cuIn cuOut : Str} {t : Fin (k + 1) → List Frame} {r : List (Fin nNew → Written)} {e : Option Fail}
    (h : contract nNew cuIn cuOut t = (r, e)) (hci : Word cuIn) (hco : Word cuOut) (j : ℕ) (hj : j < r.length) {P : Str} (hP : Head P) :
    ∃ o, ∀ a, autoUnits .other (P ++ (r[j] a).title ++ ['\n']) kAuto kAuto kAuto = .ok (kUndefined, kAtomic, o) ∧ tag kCell o <:+ (r[j] a).title := by
  obtain ⟨h1, -, -⟩ := loop_rows cuIn t _ 0 cuOut (by omega) r e h
  obtain ⟨ht, c, o, hs, hcc, hwo⟩ := h1 j hj
  obtain ⟨-, -, dim, units, cu, ha, ho, fc, hf, hw⟩ := step_ok hs
  have hou := resolve_word (hwo hci hco)
  have huu := resolve_word (autoUnits_is_word ha).1
  refine ⟨resolve .other o, fun a => ?_⟩
  rw [(hw a).1]
  generalize resolve .other o = o' at *
  generalize resolve .other units = u' at *
  refine ⟨?_, by unfold announce; exact ⟨tag [] u' ++ [' ', ' '], by simp⟩⟩
  have e : P ++ announce [] u' o' ++ ['\n'] = [] ++ (announce P u' o' ++ ['\n']) := by
    unfold announce tag; simp [List.append_assoc]
  rw [e, autoUnits_auto, strip_announce hP.2.2 hP.2.1 (by decide)]
  have hnb : '{' ∉ ([] : Str) ++ P := by rw [List.nil_append]; exact hP.1.1
  have hsuf : ∀ key : Str, ' ' ∉ key → key ≠ [] → ¬ key <:+ ([] : Str) ++ P := by
    intro key hb hne hk
    rw [List.nil_append, ← List.append_nil P, lead_suffix hP.1 hb] at hk
    exact hne (List.suffix_nil.1 hk)
  have hn : trajSearch trajDict (List.dropWhile isWs [] ++ (announce P u' o' ++ [])) = none := by
    refine trajSearch_none fun e he => ?_
    obtain ⟨e1, e2, e3, e4, e5, e6⟩ := keys_plain _ he
    exact (search_announce (P := []) (post := []) e1 e3 e2 hnb (word_nobrace huu).1 (word_nobrace huu).2 hou (by simp)).2.2 (.inl (hsuf _ e2 e3)) e5
  have hc : keySearch kCell ([] ++ (announce P u' o' ++ ['\n'])) = some o' :=
    (search_announce (P := []) (by decide) (by decide) (by decide) hnb (word_nobrace huu).1 (word_nobrace huu).2 hou (by decide)).2.1
      (.inl (hsuf _ (by decide) (by decide))) (List.suffix_refl _)
  rw [hn, hc]
  rfl

/-! ### the hypotheses can be met -/

/-- A file with one atom and a cell of 10 angstrom, for two beads. -/
noncomputable def demo : Fin 2 → List Frame := fun b =>
  [⟨"# CELL positions{angstrom}  cell{angstrom}".toList, fun _ => 10, [(b : ℝ), 0, 0]⟩]

theorem demo_units : autoUnits .other "# CELL positions{angstrom}  cell{angstrom}".toList kAuto kAuto kAuto = .ok (kLength, kAngstrom, kAngstrom) := by rfl

theorem demo_conv : (toInternal kLength kAngstrom 1).toOption = some (dec 18897261 7) := by decide +kernel

/-- The example is contracted to one bead without an exception. -/
theorem demo_runs : ∃ w : Fin 1 → Written, contract 1 kAuto kAuto demo = ([w], none) := by
  have hi : toInternal kLength kAngstrom 1 = .ok (dec 18897261 7) := by
    have := demo_conv
    revert this
    cases toInternal kLength kAngstrom 1 with
    | error _ => intro h; cases h
    | ok x => intro h; simp only [Except.toOption, Option.some.injEq] at h; rw [h]
  have hp : ∃ p, printFile .other [] [] kLength kAngstrom kAngstrom = .ok p := by
    unfold printFile toUser
    rw [show resolve .other kAngstrom = kAngstrom from rfl]
    dsimp only
    rw [hi]
    exact ⟨_, rfl⟩
  obtain ⟨p, hp⟩ := hp
  have hs : ∃ w, step (k := 1) 1 kAuto kAuto (fun b => (demo b)[0]'(by simp [demo])) = .ok (kAngstrom, w) := by
    unfold step
    simp only [demo, List.getElem_cons_zero, demo_units, if_true, hi, hp]
    rw [if_neg (by simp), if_neg (by simp)]
    exact ⟨_, rfl⟩
  obtain ⟨w, hs⟩ := hs
  refine ⟨w, ?_⟩
  unfold contract
  have hl : ∀ b, (demo b).length = 1 := fun b => rfl
  rw [hl 0, loop, dif_pos (fun b => by rw [hl b]; decide)]
  rw [hs]
  rfl

/-- **The cell shrinks**: 10 angstrom are written as 10/1.8897261 and announced as angstrom. -/
theorem cell_shrinks : ∃ w : Fin 1 → Written, contract 1 kAuto kAuto demo = ([w], none) ∧ ∀ i, (w 0).cell i < 6 ∧ tag kCell kAngstrom <:+ (w 0).title := by
  obtain ⟨w, hw⟩ := demo_runs
  refine ⟨w, hw, ?_⟩
  obtain ⟨ht, o, f, hf, hf0, hall, -, hau⟩ := cell_as_bohr hw 0 (by simp)
  obtain ⟨dim, units, cu, ha, ho⟩ := hau rfl rfl
  have ha' : autoUnits .other "# CELL positions{angstrom}  cell{angstrom}".toList kAuto kAuto kAuto = .ok (dim, units, cu) := ha
  rw [demo_units] at ha'
  simp only [Except.ok.injEq, Prod.mk.injEq] at ha'
  have ho' : o = kAngstrom := by rw [ho, ← ha'.2.2]; rfl
  subst ho'
  have hd := demo_conv
  rw [hf] at hd
  simp only [Except.toOption, Option.some.injEq] at hd
  intro i
  obtain ⟨h1, h2⟩ := hall 0
  refine ⟨?_, h1⟩
  have h3 := h2 i
  simp only [List.getElem_cons_zero] at h3
  rw [h3, hd]
  have : ((demo 0)[0]'ht).cell i = 10 := rfl
  rw [this]
  unfold dec
  norm_num

example : Head "# CELL(abcABC): 1.0 1.0 1.0 90 90 90  ".toList :=
  ⟨⟨by decide, .inr ⟨"# CELL(abcABC): 1.0 1.0 1.0 90 90 90 ".toList, by decide⟩⟩, by decide, by decide⟩

end Verif.ContractTraj
