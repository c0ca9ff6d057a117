import Verif.Io.Backup
import Verif.Text.Lemmas
/-!
# C25: opening an output never destroys a file

Whatever is in the file system and whatever the name, after `open_backup` every file that existed is still there with its contents, under
its old name unless that is the name being opened. The search for a free backup name ends. If it succeeds, the new file is empty. It can
fail: the backup of a file in a subdirectory gets a name in another directory.
-/
namespace Verif.Backup
open Verif.Text

theorem get_del (fs : FS) (n m : Str) : get (del fs n) m = if m = n then none else get fs m := by
  induction fs with
  | nil => simp [del, get]
  | cons e fs ih =>
    obtain ⟨k, v⟩ := e
    unfold del at ih ⊢
    rw [List.filter_cons]
    by_cases hk : k = n
    · subst hk
      simp only [ne_eq, not_true_eq_false, decide_false, Bool.false_eq_true, if_false, ih, get]
      by_cases hm : m = k
      · simp [hm]
      · simp [hm, Ne.symm hm]
    · simp only [ne_eq, hk, not_false_eq_true, decide_true, if_true, get, ih]
      by_cases hm : k = m
      · subst hm; simp [hk]
      · simp [hm]

theorem get_put (fs : FS) (n m : Str) (v : Node) : get (put fs n v) m = if m = n then some v else get fs m := by
  by_cases h : m = n
  · subst h; simp [put, get]
  · simp only [put, get, if_neg (Ne.symm h), get_del, if_neg h]

theorem search_free {fs : FS} {fn : Str} : ∀ {fuel i cur b}, search fs fn fuel i cur = some b → isfile fs b = false ∧ (b = cur ∨ isfile fs cur = true) := by
  intro fuel
  induction fuel with
  | zero =>
    intro i cur b h
    simp only [search] at h
    split at h
    · cases h
    · rename_i hc
      simp only [Option.some.injEq] at h
      subst h
      exact ⟨by simpa using hc, .inl rfl⟩
  | succ fuel ih =>
    intro i cur b h
    simp only [search] at h
    split at h
    · rename_i hc
      exact ⟨(ih h).1, .inr hc⟩
    · rename_i hc
      simp only [Option.some.injEq] at h
      subst h
      exact ⟨by simpa using hc, .inl rfl⟩

theorem backupName_ne (fn : Str) (i : Nat) : backupName fn i ≠ fn := by
  intro h
  have := congrArg List.length h
  simp only [backupName, List.length_append, List.length_cons, List.length_nil] at this
  omega

/-- **C25.** Every file that existed before is there afterwards with its contents, whether or not the opening succeeds; all files other than
the one opened keep their names. -/
theorem nothing_destroyed (fs : FS) (fn : Str) (n : Str) (c : Str) (h : get fs n = some (.file c)) :
    ∃ n', get (openBackup fs fn).1 n' = some (.file c) ∧ (n ≠ fn → n' = n) := by
  unfold openBackup
  cases hs : search fs fn (fs.length + 1) 0 fn with
  | none => exact ⟨n, h, fun _ => rfl⟩
  | some b =>
    obtain ⟨hfree, hor⟩ := search_free hs
    dsimp only
    by_cases hb : b = fn
    · subst hb
      rw [if_neg (by simp)]
      -- the name is free, so `n` is another file
      have hne : n ≠ b := fun e => by subst e; simp [isfile, h] at hfree
      refine ⟨n, ?_, fun _ => rfl⟩
      unfold openW
      split
      · exact h
      · split
        · exact h
        · rw [get_put, if_neg hne]; exact h
    · rw [if_pos hb]
      have hnb : n ≠ b := fun e => by subst e; simp [isfile, h] at hfree
      have hfn : isfile fs fn = true := by
        rcases hor with h' | h'
        · exact absurd h' hb
        · exact h'
      have hren : (rename fs fn b).2 = true → ∃ v, get fs fn = some v ∧ (rename fs fn b).1 = put (del fs fn) b v := by
        unfold rename
        split
        · intro h; cases h
        · rename_i v hv
          split
          · intro h; cases h
          · split
            · intro h; cases h
            · intro _; exact ⟨v, hv, rfl⟩
      have hren' : (rename fs fn b).2 = false → (rename fs fn b).1 = fs := by
        unfold rename
        split
        · intro _; rfl
        · split
          · intro _; rfl
          · split
            · intro _; rfl
            · intro h; cases h
      cases hr : (rename fs fn b).2 with
      | false =>
        rw [if_neg (by simp)]
        refine ⟨n, by rw [hren' hr]; exact h, fun _ => rfl⟩
      | true =>
        rw [if_pos rfl]
        obtain ⟨v, hv, e⟩ := hren hr
        have hopen : ∀ m, m ≠ fn → get (openW (rename fs fn b).1 fn).1 m = get (rename fs fn b).1 m := by
          intro m hm
          unfold openW
          split
          · rfl
          · split
            · rfl
            · rw [get_put, if_neg hm]
        by_cases hn : n = fn
        · subst hn
          refine ⟨b, ?_, fun hh => absurd rfl hh⟩
          rw [hopen b hb, e, get_put, if_pos rfl, ← hv]
          exact h
        · refine ⟨n, ?_, fun _ => rfl⟩
          rw [hopen n hn, e, get_put, if_neg hnb, get_del, if_neg hn]
          exact h

theorem backupName_inj (fn : Str) {i j : Nat} (h : backupName fn i = backupName fn j) : i = j := by
  unfold backupName at h
  have h := List.append_cancel_left (List.append_cancel_right h)
  have := congrArg parseNat h
  rw [parseNat_showNat, parseNat_showNat] at this
  exact Option.some.inj this

theorem mem_of_isfile {fs : FS} {n : Str} (h : isfile fs n = true) : n ∈ fs.map (·.1) := by
  have : get fs n ≠ none := by
    intro e; simp [isfile, e] at h
  clear h
  induction fs with
  | nil => exact absurd rfl this
  | cons e fs ih =>
    obtain ⟨k, v⟩ := e
    simp only [get] at this
    split at this
    · rename_i hk; subst hk; exact List.mem_cons_self
    · exact List.mem_cons_of_mem _ (ih this)

/-- **C25 (termination).** The search for a backup name always ends: the bound in the model is never reached. -/
theorem search_ends (fs : FS) (fn : Str) : (search fs fn (fs.length + 1) 0 fn).isSome = true := by
  -- the names tried: fn, then the backups
  have key : ∀ fuel i cur, search fs fn fuel i cur = none → isfile fs cur = true ∧ ∀ j, j < fuel → isfile fs (backupName fn (i + j)) = true := by
    intro fuel
    induction fuel with
    | zero =>
      intro i cur h
      simp only [search] at h
      split at h
      · rename_i hc; exact ⟨hc, fun j hj => absurd hj (Nat.not_lt_zero _)⟩
      · cases h
    | succ fuel ih =>
      intro i cur h
      simp only [search] at h
      split at h
      · rename_i hc
        obtain ⟨h1, h2⟩ := ih _ _ h
        refine ⟨hc, fun j hj => ?_⟩
        cases j with
        | zero => exact h1
        | succ j =>
          have := h2 j (by omega)
          rwa [show i + 1 + j = i + (j + 1) by omega] at this
      · cases h
  cases hs : search fs fn (fs.length + 1) 0 fn with
  | some b => rfl
  | none =>
    exfalso
    obtain ⟨_, h2⟩ := key _ _ _ hs
    have hnd : ((List.range (fs.length + 1)).map (backupName fn)).Nodup := by
      rw [List.nodup_iff_pairwise_ne, List.pairwise_map]
      exact List.nodup_range.imp fun hab e => hab (backupName_inj fn e)
    have hsub : (List.range (fs.length + 1)).map (backupName fn) ⊆ fs.map (·.1) := by
      intro n hn
      obtain ⟨j, hj, rfl⟩ := List.mem_map.1 hn
      have := h2 j (List.mem_range.1 hj)
      rw [Nat.zero_add] at this
      exact mem_of_isfile this
    have := List.Nodup.length_le_of_subset hnd hsub
    simp only [List.length_map, List.length_range] at this
    omega

/-- **C25 (opened).** When it succeeds, the file is new and empty. -/
theorem opened_empty (fs : FS) (fn : Str) (h : (openBackup fs fn).2 = true) : get (openBackup fs fn).1 fn = some (.file []) := by
  have hopen : ∀ fs : FS, (openW fs fn).2 = true → get (openW fs fn).1 fn = some (.file []) := by
    intro fs h
    unfold openW at h ⊢
    split at h
    · cases h
    · split at h
      · cases h
      · rename_i h1 h2
        rw [if_neg h1, if_neg h2, get_put, if_pos rfl]
  unfold openBackup at h ⊢
  split at h
  · cases h
  · rename_i b hs
    dsimp only at h ⊢
    split at h
    · rename_i hb
      rw [if_pos hb]
      split at h
      · rename_i hr
        rw [if_pos hr]
        exact hopen _ h
      · rename_i hr
        exact absurd h hr
    · rename_i hb
      rw [if_neg hb]
      exact hopen _ h

/-- **C25 (plain names succeed).** For a name without a directory part, none of whose backup names is a directory, the file is opened. -/
theorem plain_name_opens (fs : FS) (fn : Str) (hp : '/' ∉ fn) (hd : get fs fn ≠ some .dir)
    (hb : ∀ i, get fs (backupName fn i) ≠ some .dir) : (openBackup fs fn).2 = true := by
  have hpar : ∀ n : Str, '/' ∉ n → ∀ fs, creatable fs n = true := by
    intro n hn fs
    have : n.reverse.dropWhile (· ≠ '/') = [] := by
      cases h : n.reverse.dropWhile (· ≠ '/') with
      | nil => rfl
      | cons c l =>
        exfalso
        have hc : (c : Char) ∈ n.reverse := by
          have := (List.dropWhile_sublist (p := fun x : Char => decide (x ≠ '/')) (l := n.reverse)).subset
          rw [h] at this
          exact this List.mem_cons_self
        have h2 := dropWhile_head (p := fun x : Char => decide (x ≠ '/')) n.reverse c (by rw [h]; rfl)
        have : c = '/' := by simpa using h2
        subst this
        exact hn (List.mem_reverse.1 hc)
    unfold creatable parent
    rw [this]
  have hbk : ∀ i, '/' ∉ backupName fn i := by
    intro i h
    simp only [backupName, List.mem_append, List.mem_singleton] at h
    rcases h with (((h | h) | h) | h) | h
    · exact absurd h (by decide)
    · exact hp h
    · exact absurd h (by decide)
    · have := showNat_digits i _ h
      exact absurd this (by decide)
    · exact absurd h (by decide)
  have hbname : ∀ fuel i cur b, search fs fn fuel i cur = some b → b = cur ∨ ∃ i, b = backupName fn i := by
    intro fuel
    induction fuel with
    | zero =>
      intro i cur b h
      simp only [search] at h
      split at h
      · cases h
      · simp only [Option.some.injEq] at h; exact .inl h.symm
    | succ fuel ih =>
      intro i cur b h
      simp only [search] at h
      split at h
      · rcases ih _ _ _ h with h | h
        · exact .inr ⟨i, h⟩
        · exact .inr h
      · simp only [Option.some.injEq] at h; exact .inl h.symm
  have he := search_ends fs fn
  unfold openBackup
  cases hs : search fs fn (fs.length + 1) 0 fn with
  | none => rw [hs] at he; cases he
  | some b =>
    dsimp only
    by_cases hbf : b = fn
    · rw [if_neg (by simp [hbf])]
      simp [openW, hd, hpar fn hp]
    · rw [if_pos hbf]
      obtain ⟨i, rfl⟩ := (hbname _ _ _ _ hs).resolve_left hbf
      have hfile : isfile fs fn = true := (search_free hs).2.resolve_left hbf
      have : ∃ v, get fs fn = some v := by
        cases h : get fs fn with
        | none => simp [isfile, h] at hfile
        | some v => exact ⟨v, rfl⟩
      obtain ⟨v, hv⟩ := this
      have hr : rename fs fn (backupName fn i) = (put (del fs fn) (backupName fn i) v, true) := by
        simp [rename, hv, hpar _ (hbk i), hb i]
      rw [hr]
      simp only [if_true]
      have : get (put (del fs fn) (backupName fn i) v) fn = none := by
        rw [get_put, if_neg (Ne.symm (backupName_ne fn i)), get_del, if_pos rfl]
      simp [openW, this, hpar fn hp]

/-- Non-vacuity: a file with one backup already there. -/
example :
    let fs : FS := [("a".toList, .file "new".toList), ("#a#0#".toList, .file "old".toList)]
    (openBackup fs "a".toList).2 = true ∧ get (openBackup fs "a".toList).1 "#a#1#".toList = some (.file "new".toList) ∧
      get (openBackup fs "a".toList).1 "#a#0#".toList = some (.file "old".toList) := by decide +kernel

/-- **Disagreement.** A file in a subdirectory cannot be backed up: the backup name points into a directory that does not exist. -/
theorem subdirectory_fails :
    let fs : FS := [("out".toList, .dir), ("out/a".toList, .file "x".toList)]
    (openBackup fs "out/a".toList).2 = false ∧ (openBackup fs "out/a".toList).1 = fs := by decide +kernel

end Verif.Backup
