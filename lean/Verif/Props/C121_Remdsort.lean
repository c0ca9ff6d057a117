import Verif.Tools.Remdsort
import Verif.Text.Lemmas
import Mathlib.Data.List.Basic

/-!
# C121: sorted outputs belong to the ensembles

Small specification: a replica exchange run of `N` steps with `nsys` systems; `rep L i` is the
ensemble the system `i` is in when the rows of step `L` are written, and `frame i L` are the lines
that an output contains for the system `i` at the step `L`.  Sorted, the file of the ensemble `e`
has for each step at which something was written the lines of the system that was in `e`.
-/

namespace Verif.Sort

open Verif.Text

/-- What the simulation writes at one step, for each kind of file: comments and one row; two lines;
a count, a comment and that many atoms; lines up to an end line. -/
def Good : Kind → List Line → Prop
  | .prop, f => ∃ cs l, f = cs ++ [l] ∧ (∀ c ∈ cs, c.head? = some '#') ∧ l.head? ≠ some '#'
  | .extras, f => ∃ a b : Line, f = [a, b] ∧ a ≠ [] ∧ b ≠ []
  | .xyz, f => ∃ (c : Line) (ls : List Line) (n : Nat), f = c :: ls ∧ parseInt (strip c) = some (n : Int)
      ∧ ls.length = 1 + n
  | .pdb, f => ∃ (ls : List Line) (e : Line), f = ls ++ [e]
      ∧ (∀ l ∈ ls, strip l ≠ [] ∧ strip l ≠ "END".toList) ∧ (strip e = [] ∨ strip e = "END".toList)
  | .other, _ => False

/-- The history of the ensembles: the system `i` starts in the ensemble `i`, and what it is in
changes only at the steps with an exchange. -/
structure History (nsys : Nat) where
  rep : Nat → Nat → Nat
  exch : Nat → Bool
  first : ∀ i < nsys, rep 0 i = i
  keep : ∀ s, exch s = false → ∀ i < nsys, rep (s + 1) i = rep s i

/-- The list of exchanges of a run of `N` steps (`remd.py` L208-213: the step and `repindex` after
it, if something was exchanged; the rows written after the step `s` are those of the step `s + 1`,
`simulation.py` L363-384 and `outputs.py` L163). -/
def History.lines {nsys : Nat} (H : History nsys) (N : Nat) : List (Nat × List Nat) :=
  ((List.range' 0 N).filter H.exch).map fun s => (s, (List.range nsys).map (H.rep (s + 1)))

/-- An output of the simulation. -/
structure Out (nsys N : Nat) where
  kind : Kind
  stride : Nat
  frame : Nat → Nat → List Line
  good : ∀ i < nsys, ∀ L ≤ N, L % stride = 0 → Good kind (frame i L)

variable {nsys N : Nat}

/-- The file of the system `i`. -/
def Out.file (o : Out nsys N) (i : Nat) : List Line :=
  ((List.range' 0 (N + 1)).filter fun L => decide (L % o.stride = 0)).flatMap (o.frame i)

/-- What the script has before it starts. -/
def Out.group (o : Out nsys N) : Group := ⟨o.kind, o.stride, o.file, fun _ => []⟩

/-- The lines of the system, or of none or several, that are in the ensemble `e` at the step `L`. -/
def Out.inEnsemble (o : Out nsys N) (H : History nsys) (e L : Nat) : List Line :=
  (List.range nsys).flatMap fun i => if H.rep L i = e then o.frame i L else []

/-- The sorted file of the ensemble `e`, up to but without the step `M`. -/
def Out.sorted (o : Out nsys N) (H : History nsys) (M e : Nat) : List Line :=
  ((List.range M).filter fun L => decide (L % o.stride = 0)).flatMap (o.inEnsemble H e)

/-! ### Reading one frame -/

theorem comments_good {cs : List Line} {l : Line} (hc : ∀ c ∈ cs, c.head? = some '#')
    (hl : l.head? ≠ some '#') (r : List Line) : comments (cs ++ l :: r) = ⟨cs ++ [l], r, none⟩ := by
  induction cs with
  | nil => simp [comments, hl]
  | cons c cs ih =>
      have h1 := hc c (by simp)
      have h2 := ih fun c' h' => hc c' (by simp [h'])
      simp [comments, h1, h2]

theorem pdb_good {ls : List Line} {e : Line} (hc : ∀ l ∈ ls, pdbEnd l = false)
    (he : pdbEnd e = true) (r : List Line) : readPdb (ls ++ e :: r) = ⟨ls ++ [e], r, none⟩ := by
  induction ls with
  | nil => simp [readPdb, he]
  | cons c cs ih =>
      have h1 := hc c (by simp)
      have h2 := ih fun c' h' => hc c' (by simp [h'])
      simp [readPdb, h1, h2]

/-- A frame is read as it was written. -/
theorem read_good {k : Kind} {f : List Line} (h : Good k f) (r : List Line) :
    readKind k (f ++ r) = ⟨f, r, none⟩ := by
  cases k
  · obtain ⟨cs, l, rfl, hc, hl⟩ := h
    simp only [readKind, readProp, List.append_assoc, List.singleton_append]
    have := comments_good hc hl r
    cases cs <;> simpa using this
  · obtain ⟨a, b, rfl, ha, hb⟩ := h
    simp [readKind, readExtras, readline, ha, hb]
  · obtain ⟨c, ls, n, rfl, hn, hl⟩ := h
    simp [readKind, readXyz, readline, hn, ← hl]
  · obtain ⟨ls, e, rfl, hc, he⟩ := h
    have := pdb_good (ls := ls) (e := e) (fun l hl => by simpa [pdbEnd] using hc l hl)
      (by simpa [pdbEnd] using he) r
    simpa [readKind] using this
  · exact h.elim

/-- At the end of a file nothing is written. -/
theorem read_end (k : Kind) : (readKind k []).written = [] ∧ (readKind k []).rest = [] := by
  cases k
  · exact ⟨rfl, rfl⟩
  · exact ⟨rfl, rfl⟩
  · exact ⟨rfl, rfl⟩
  · exact ⟨rfl, rfl⟩
  · exact ⟨rfl, rfl⟩

/-- What reading at the end of a file does. -/
theorem read_stop (k : Kind) : (readKind k []).stop
    = match k with | .prop => some .eof | .xyz => some .value | _ => none := by
  cases k <;> rfl

/-! ### One output at one step -/

theorem systems_good (irep : Nat → Nat) {f r : Nat → List Line} : ∀ (is : List Nat) (g : Group),
    is.Nodup → (∀ i ∈ is, g.ifile i = f i ++ r i) → (∀ i ∈ is, Good g.kind (f i)) →
    g.systems irep is = ({ g with
      ifile := fun i => if i ∈ is then r i else g.ifile i
      ofile := fun e => g.ofile e ++ is.flatMap fun i => if irep i = e then f i else [] }, none)
  | [], g, _, _, _ => by simp [Group.systems]
  | a :: is, g, hn, hf, hg => by
      have hr := read_good (hg a (by simp)) (r a)
      rw [← hf a (by simp)] at hr
      obtain ⟨ha, hn'⟩ := List.nodup_cons.1 hn
      simp only [Group.systems, Group.sys, hr]
      rw [systems_good irep is _ hn' (f := f) (r := r)]
      · refine Prod.ext ?_ rfl
        simp only [Group.mk.injEq, true_and]
        refine ⟨funext fun i => ?_, funext fun e => ?_⟩
        · by_cases h1 : i ∈ is
          · simp [h1]
          · by_cases h2 : i = a
            · simp [h1, h2]
            · simp [h1, h2]
        · by_cases h1 : irep a = e
          · subst h1; simp
          · have h1' : e ≠ irep a := fun h => h1 h.symm
            simp [h1, h1']
      · intro i hi
        have : i ≠ a := fun h => ha (h ▸ hi)
        simp only [this, if_false]
        exact hf i (by simp [hi])
      · intro i hi
        exact hg i (by simp [hi])

theorem systems_end (irep : Nat → Nat) : ∀ (is : List Nat) (g : Group),
    (∀ i ∈ is, g.ifile i = []) → (g.systems irep is).1 = g ∧
      (g.systems irep is).2 = if is = [] then none else (readKind g.kind []).stop
  | [], g, _ => by simp [Group.systems]
  | a :: is, g, hf => by
      obtain ⟨h1, h2⟩ := read_end g.kind
      have hs : (g.sys irep a).1 = g := by
        simp only [Group.sys, hf a (by simp), h1, h2]
        obtain ⟨k, st, fi, fo⟩ := g
        simp only [Group.mk.injEq, true_and]
        refine ⟨funext fun i => ?_, funext fun e => ?_⟩
        · by_cases h : i = a
          · subst h; have := hf i (by simp); simpa using this.symm
          · simp [h]
        · simp
      have hst : (g.sys irep a).2 = (readKind g.kind []).stop := by
        simp only [Group.sys, hf a (by simp)]
      unfold Group.systems
      have he : g.sys irep a = (g, (readKind g.kind []).stop) := Prod.ext hs hst
      rw [he]
      cases hk : (readKind g.kind []).stop with
      | some e => simp
      | none =>
          have ih := systems_end irep is g fun i hi => hf i (by simp [hi])
          rw [hk] at ih
          simp only [ite_self] at ih
          simpa using ih

/-! ### The loop -/

/-- The output after the steps below `L`. -/
def Out.after (o : Out nsys N) (H : History nsys) (L : Nat) : Group :=
  ⟨o.kind, o.stride,
    fun i => if i < nsys then
        ((List.range' L (N + 1 - L)).filter fun L => decide (L % o.stride = 0)).flatMap (o.frame i)
      else o.file i,
    o.sorted H L⟩

theorem after_zero (o : Out nsys N) (H : History nsys) : o.after H 0 = o.group := by
  unfold Out.after Out.group
  simp only [Group.mk.injEq, true_and]
  refine ⟨funext fun i => ?_, funext fun e => ?_⟩
  · simp [Out.file]
  · simp [Out.sorted]

theorem group_step (o : Out nsys N) (H : History nsys) {irep : Nat → Nat} {L : Nat} (hL : L ≤ N)
    (hi : ∀ i < nsys, irep i = H.rep L i) :
    (o.after H L).step nsys irep L = (o.after H (L + 1), none) := by
  have hr : List.range' L (N + 1 - L) = L :: List.range' (L + 1) (N + 1 - (L + 1)) := by
    have : N + 1 - L = (N + 1 - (L + 1)) + 1 := by omega
    rw [this, List.range'_succ]
  unfold Group.step
  by_cases hs : L % o.stride = 0
  · have hs' : L % (o.after H L).stride = 0 := hs
    rw [if_pos hs']
    rw [systems_good irep (f := fun i => o.frame i L)
      (r := fun i => ((List.range' (L + 1) (N + 1 - (L + 1))).filter
        fun L => decide (L % o.stride = 0)).flatMap (o.frame i)) _ _ List.nodup_range]
    · refine Prod.ext ?_ rfl
      simp only [Out.after, Group.mk.injEq, true_and]
      refine ⟨funext fun i => ?_, funext fun e => ?_⟩
      · by_cases hi' : i < nsys
        · simp [hi']
        · simp [hi']
      · unfold Out.sorted
        rw [List.range_succ, List.filter_append, List.flatMap_append]
        congr 1
        simp only [List.filter_cons, hs, decide_true, if_true, List.filter_nil, List.flatMap_cons,
          List.flatMap_nil, List.append_nil]
        unfold Out.inEnsemble
        rw [List.flatMap_def, List.flatMap_def]
        congr 1
        apply List.map_congr_left
        intro i hi'
        rw [hi i (List.mem_range.1 hi')]
    · intro i hi'
      have hlt := List.mem_range.1 hi'
      simp only [Out.after, hlt, if_true, hr]
      simp [hs]
    · intro i hi'
      exact o.good i (List.mem_range.1 hi') L hL hs
  · have hs' : ¬ L % (o.after H L).stride = 0 := hs
    rw [if_neg hs']
    refine Prod.ext ?_ rfl
    simp only [Out.after, Group.mk.injEq, true_and]
    refine ⟨funext fun i => ?_, funext fun e => ?_⟩
    · rw [hr]
      simp [hs]
    · unfold Out.sorted
      rw [List.range_succ, List.filter_append]
      simp [hs]

theorem groups_step (H : History nsys) {irep : Nat → Nat} {L : Nat} (hL : L ≤ N)
    (hi : ∀ i < nsys, irep i = H.rep L i) : ∀ outs : List (Out nsys N),
    groups nsys irep L (outs.map fun o => o.after H L) = (outs.map fun o => o.after H (L + 1), none)
  | [] => rfl
  | o :: outs => by
      simp only [List.map_cons, groups, group_step o H hL hi, groups_step H hL hi outs]

/-- The state of the script after the steps below `L`. -/
structure At (H : History nsys) (outs : List (Out nsys N)) (L : Nat) (s : St) : Prop where
  outs : s.outs = outs.map fun o => o.after H L
  irep : L ≤ N → ∀ i < nsys, s.irep i = H.rep L i
  step : s.step = L
  swaps : s.swaps = ((List.range' L (N - L)).filter H.exch).map
    fun s => (s, (List.range nsys).map (H.rep (s + 1)))

theorem tick_at {H : History nsys} {outs : List (Out nsys N)} {L : Nat} {s : St}
    (h : At H outs L s) (hL : L ≤ N) :
    ∃ s', tick nsys s = (s', none) ∧ At H outs (L + 1) s' := by
  obtain ⟨h1, h2, h3, h4⟩ := h
  have hg := groups_step (N := N) H hL (h2 hL) outs
  unfold tick
  rw [h1, h3, hg]
  by_cases hN : L = N
  · have h4' : s.swaps = [] := by
      rw [h4, hN]; simp
    rw [h4']
    refine ⟨_, rfl, rfl, fun h => absurd h (by omega), rfl, ?_⟩
    have : N - (L + 1) = 0 := by omega
    simp [this]
  · have hr : List.range' L (N - L) = L :: List.range' (L + 1) (N - (L + 1)) := by
      have : N - L = (N - (L + 1)) + 1 := by omega
      rw [this, List.range'_succ]
    rw [hr] at h4
    cases he : H.exch L
    · rw [List.filter_cons_of_neg (by simp [he])] at h4
      have hkeep : ∀ i < nsys, s.irep i = H.rep (L + 1) i := fun i hi => by
        rw [h2 hL i hi, H.keep L he i hi]
      cases hs : s.swaps with
      | nil =>
          refine ⟨_, rfl, rfl, fun _ => hkeep, rfl, ?_⟩
          rw [← h4, hs]
      | cons x more =>
          obtain ⟨l, idx⟩ := x
          have hl : ¬ L = l := by
            intro e
            have hm : (l, idx) ∈ s.swaps := by rw [hs]; simp
            rw [h4] at hm
            obtain ⟨t, ht, he'⟩ := List.mem_map.1 hm
            have := (List.mem_filter.1 ht).1
            rw [List.mem_range'] at this
            obtain ⟨k, hk, hk'⟩ := this
            have := (Prod.mk.inj he').1
            omega
          simp only [hl, if_false]
          refine ⟨_, rfl, rfl, fun _ => hkeep, rfl, ?_⟩
          rw [← h4, hs]
    · rw [List.filter_cons_of_pos (by simp [he])] at h4
      rw [h4]
      simp only [List.map_cons, if_true]
      refine ⟨_, rfl, rfl, fun _ i hi => ?_, rfl, rfl⟩
      simp [hi]

theorem start_at (H : History nsys) (outs : List (Out nsys N)) :
    At H outs 0 (start (outs.map Out.group) (H.lines N)) := by
  refine ⟨?_, fun _ i hi => ?_, rfl, rfl⟩
  · simp only [start]
    apply List.map_congr_left
    intro o _
    rw [after_zero]
  · rw [H.first i hi]; rfl

theorem rounds_succ_none {n : Nat} {s s' : St} (h : tick nsys s = (s', none)) :
    rounds nsys (n + 1) s = rounds nsys n s' := by
  rw [rounds, h]

theorem rounds_at {H : History nsys} {outs : List (Out nsys N)} : ∀ (n L : Nat) (s : St),
    At H outs L s → L + n = N + 1 → ∃ s', rounds nsys n s = (s', none) ∧ At H outs (N + 1) s'
  | 0, L, s, h, hn => ⟨s, rfl, by rw [← hn]; exact h⟩
  | n + 1, L, s, h, hn => by
      obtain ⟨s1, e1, h1⟩ := tick_at h (by omega)
      obtain ⟨s2, e2, h2⟩ := rounds_at n (L + 1) s1 h1 (by omega)
      exact ⟨s2, by rw [rounds_succ_none e1, e2], h2⟩

theorem rounds_add {m : Nat} : ∀ (n : Nat) (s s' : St), rounds nsys n s = (s', none) →
    rounds nsys (n + m) s = rounds nsys m s'
  | 0, s, s', h => by
      simp only [rounds, Prod.mk.injEq, and_true] at h
      subst h; simp
  | n + 1, s, s', h => by
      have e : n + 1 + m = (n + m) + 1 := by omega
      rw [e, rounds]
      rw [rounds] at h
      cases ht : tick nsys s with
      | mk t st =>
          rw [ht] at h
          cases st with
          | some e => simp at h
          | none => exact rounds_add n t s' h

/-- All files have been read. -/
def Done (s : St) (nsys : Nat) : Prop := ∀ g ∈ s.outs, ∀ i < nsys, g.ifile i = []

theorem group_end {g : Group} (irep : Nat → Nat) (step : Nat) (h : ∀ i < nsys, g.ifile i = []) :
    (g.step nsys irep step).1 = g ∧ (g.step nsys irep step).2
      = if step % g.stride = 0 ∧ 0 < nsys then (readKind g.kind []).stop else none := by
  unfold Group.step
  by_cases hs : step % g.stride = 0
  · rw [if_pos hs]
    obtain ⟨h1, h2⟩ := systems_end irep (List.range nsys) g fun i hi => h i (List.mem_range.1 hi)
    refine ⟨h1, ?_⟩
    rw [h2]
    rcases Nat.eq_zero_or_pos nsys with h0 | h0
    · subst h0; simp
    · have : List.range nsys ≠ [] := by
        intro e; have := congrArg List.length e; simp at this; omega
      simp [this, hs, h0]
  · simp [hs]

theorem groups_end (irep : Nat → Nat) (step : Nat) : ∀ gs : List Group,
    (∀ g ∈ gs, ∀ i < nsys, g.ifile i = []) → (groups nsys irep step gs).1 = gs
  | [], _ => rfl
  | g :: gs, h => by
      obtain ⟨h1, h2⟩ := group_end irep step (h g (by simp))
      have ih := groups_end irep step gs fun g' h' => h g' (by simp [h'])
      unfold groups
      cases hs : g.step nsys irep step with
      | mk g' st =>
          rw [hs] at h1
          simp only at h1
          subst h1
          cases st with
          | some e => rfl
          | none => simp only [ih]

theorem tick_end {s : St} (h : Done s nsys) : (tick nsys s).1.outs = s.outs := by
  have hg := groups_end s.irep s.step s.outs h
  unfold tick
  cases hs : groups nsys s.irep s.step s.outs with
  | mk o st =>
      rw [hs] at hg
      simp only at hg
      subst hg
      cases st with
      | some e => rfl
      | none =>
          cases s.swaps with
          | nil => rfl
          | cons x more =>
              obtain ⟨l, idx⟩ := x
              by_cases hl : s.step = l <;> simp [hl]

theorem rounds_end : ∀ (n : Nat) (s : St), Done s nsys → (rounds nsys n s).1.outs = s.outs
  | 0, _, _ => rfl
  | n + 1, s, h => by
      have h1 := tick_end h
      rw [rounds]
      cases ht : tick nsys s with
      | mk t st =>
          rw [ht] at h1
          simp only at h1
          cases st with
          | some e => exact h1
          | none =>
              have h2 := rounds_end n t (by unfold Done; rw [h1]; exact h)
              simp only [h2, h1]

/-- **C121, sorting.**  After `N + 1` rounds, and however many rounds follow, each sorted file has
for each step the lines of the system that was in the ensemble. -/
theorem sorted_files (H : History nsys) (outs : List (Out nsys N)) (k : Nat) :
    (rounds nsys (N + 1 + k) (start (outs.map Out.group) (H.lines N))).1.outs.map
        (fun g => fun e => g.ofile e)
      = outs.map fun o => o.sorted H (N + 1) := by
  obtain ⟨s, e, h⟩ := rounds_at (N + 1) 0 _ (start_at H outs) (by omega)
  rw [rounds_add (N + 1) _ s e]
  have hd : Done s nsys := by
    intro g hg i hi
    rw [h.outs] at hg
    obtain ⟨o, _, rfl⟩ := List.mem_map.1 hg
    simp [Out.after, hi]
  rw [rounds_end k s hd, h.outs, List.map_map]
  rfl

/-- If each ensemble is that of one system, this is its frame. -/
theorem inEnsemble_one (o : Out nsys N) (H : History nsys) {e L i : Nat} (hi : i < nsys)
    (h : ∀ j < nsys, H.rep L j = e ↔ j = i) : o.inEnsemble H e L = o.frame i L := by
  unfold Out.inEnsemble
  have : ∀ n, (∀ j < n, j < nsys) → (List.range n).flatMap
      (fun j => if H.rep L j = e then o.frame j L else []) = if i < n then o.frame i L else [] := by
    intro n
    induction n with
    | zero => intro _; simp
    | succ n ih =>
        intro hn
        rw [List.range_succ, List.flatMap_append, ih fun j hj => hn j (by omega)]
        simp only [List.flatMap_cons, List.flatMap_nil, List.append_nil, h n (hn n (by omega))]
        by_cases h1 : n = i
        · subst h1; simp
        · by_cases h2 : i < n
          · simp [h1, h2, Nat.lt_succ_of_lt h2]
          · have : ¬ i < n + 1 := by omega
            simp [h1, h2, this]
  rw [this nsys fun j hj => hj, if_pos hi]

/-! ### The end of the script -/

/-- What ends the round when all files have been read: the first output of the list that is looked
at in this step and is a property file or an xyz file. -/
theorem groups_stop (irep : Nat → Nat) (step : Nat) (hn : 0 < nsys) : ∀ gs : List Group,
    (∀ g ∈ gs, ∀ i < nsys, g.ifile i = []) → (groups nsys irep step gs).2
      = gs.findSome? fun g => if step % g.stride = 0 then (readKind g.kind []).stop else none
  | [], _ => rfl
  | g :: gs, h => by
      obtain ⟨h1, h2⟩ := group_end irep step (h g (by simp))
      have ih := groups_stop irep step hn gs fun g' h' => h g' (by simp [h'])
      simp only [hn, and_true] at h2
      unfold groups
      rw [List.findSome?_cons]
      cases hs : g.step nsys irep step with
      | mk g' st =>
          rw [hs] at h2
          simp only at h2
          rw [← h2]
          cases st with
          | some e => rfl
          | none => exact ih

theorem tick_stop {s : St} (hn : 0 < nsys) (h : Done s nsys) : (tick nsys s).2
    = s.outs.findSome? fun g => if s.step % g.stride = 0 then (readKind g.kind []).stop else none := by
  have hg := groups_stop s.irep s.step hn s.outs h
  rw [← hg]
  unfold tick
  cases groups nsys s.irep s.step s.outs with
  | mk o st =>
      cases st with
      | some e => rfl
      | none =>
          cases s.swaps with
          | nil => rfl
          | cons x more =>
              obtain ⟨l, idx⟩ := x
              by_cases hl : s.step = l <;> simp [hl]

theorem tick_step {s : St} {s' : St} (h : tick nsys s = (s', none)) : s'.step = s.step + 1 := by
  unfold tick at h
  cases hg : groups nsys s.irep s.step s.outs with
  | mk o st =>
      rw [hg] at h
      cases st with
      | some e => simp at h
      | none =>
          cases hs : s.swaps with
          | nil => simp only [hs] at h; rw [← (Prod.mk.inj h).1]
          | cons x more =>
              obtain ⟨l, idx⟩ := x
              simp only [hs] at h
              by_cases hl : s.step = l
              · rw [if_pos hl] at h; rw [← (Prod.mk.inj h).1]
              · rw [if_neg hl] at h; rw [← (Prod.mk.inj h).1]

/-- Once all files have been read the rounds go on until the first step at which there is something
to stop at. -/
theorem rounds_until (hn : 0 < nsys) : ∀ (n : Nat) (s : St), Done s nsys →
    (rounds nsys (n + 1) s).2 = (List.range (n + 1)).findSome? fun k =>
      s.outs.findSome? fun g => if (s.step + k) % g.stride = 0 then (readKind g.kind []).stop else none
  | n, s, h => by
      have h0 := tick_stop hn h
      have ho := tick_end h
      rw [rounds, List.range_succ_eq_map, List.findSome?_cons]
      simp only [Nat.add_zero]
      rw [← h0]
      cases ht : tick nsys s with
      | mk t st =>
          rw [ht] at ho
          simp only at ho
          cases st with
          | some e => rfl
          | none =>
              have hst := tick_step ht
              cases n with
              | zero => rfl
              | succ n =>
                  have hd : Done t nsys := by unfold Done; rw [ho]; exact h
                  have ih := rounds_until hn n t hd
                  simp only at ih ⊢
                  rw [ih, List.findSome?_map]
                  congr 1
                  funext k
                  simp only [Function.comp, ho, hst]
                  have : s.step + 1 + k = s.step + k.succ := by omega
                  rw [this]

/-- The state when all files have been read. -/
theorem all_read (H : History nsys) (outs : List (Out nsys N)) : ∃ s,
    rounds nsys (N + 1) (start (outs.map Out.group) (H.lines N)) = (s, none) ∧ Done s nsys
      ∧ s.step = N + 1 ∧ s.outs = outs.map fun o => o.after H (N + 1) := by
  obtain ⟨s, e, h⟩ := rounds_at (N + 1) 0 _ (start_at H outs) (by omega)
  refine ⟨s, e, ?_, h.step, h.outs⟩
  intro g hg i hi
  rw [h.outs] at hg
  obtain ⟨o, _, rfl⟩ := List.mem_map.1 hg
  simp [Out.after, hi]

/-- **C121, end.**  With a property file whose stride divides those of the xyz files, listed before
them, the script ends, and without an error. -/
theorem ends_well (hn : 0 < nsys) (H : History nsys) (outs : List (Out nsys N))
    (pre post : List (Out nsys N)) {p : Out nsys N} (ho : outs = pre ++ p :: post)
    (hp : p.kind = .prop) (hs : 0 < p.stride) (hpre : ∀ o ∈ pre, o.kind = .prop)
    (hx : ∀ o ∈ post, o.kind = .xyz → p.stride ∣ o.stride) :
    ∃ n, (rounds nsys n (start (outs.map Out.group) (H.lines N))).2 = some .eof := by
  obtain ⟨s, e, hd, hstep, houts⟩ := all_read H outs
  refine ⟨N + 1 + (p.stride + 1), ?_⟩
  rw [rounds_add (N + 1) _ s e, rounds_until hn p.stride s hd]
  -- no step can stop with another error
  have hno : ∀ k, (s.outs.findSome? fun g =>
      if (s.step + k) % g.stride = 0 then (readKind g.kind []).stop else none) = none
      ∨ (s.outs.findSome? fun g =>
      if (s.step + k) % g.stride = 0 then (readKind g.kind []).stop else none) = some .eof := by
    intro k
    generalize hK : s.step + k = K
    rw [houts, ho, List.map_append, List.map_cons, List.findSome?_append]
    have h1 : ∀ l : List (Out nsys N), (∀ o ∈ l, o.kind = .prop) →
        ((l.map fun o => o.after H (N + 1)).findSome? fun g : Group =>
          if K % g.stride = 0 then (readKind g.kind []).stop else none) = none
        ∨ ((l.map fun o => o.after H (N + 1)).findSome? fun g : Group =>
          if K % g.stride = 0 then (readKind g.kind []).stop else none) = some .eof := by
      intro l
      induction l with
      | nil => intro _; left; rfl
      | cons o l ih =>
          intro hl
          have hk := hl o (by simp)
          rw [List.map_cons, List.findSome?_cons]
          by_cases hd : K % o.stride = 0
          · right
            simp [Out.after, hd, hk, read_stop]
          · simp only [Out.after, hd, if_false]
            exact ih fun o' h' => hl o' (by simp [h'])
    rcases h1 pre hpre with h | h
    · rw [h, Option.none_or, List.findSome?_cons]
      by_cases hd : K % p.stride = 0
      · right
        simp [Out.after, hd, hp, read_stop]
      · simp only [Out.after, hd, if_false]
        have h2 : ∀ l : List (Out nsys N), (∀ o ∈ l, o.kind = .xyz → p.stride ∣ o.stride) →
            ((l.map fun o => o.after H (N + 1)).findSome? fun g : Group =>
              if K % g.stride = 0 then (readKind g.kind []).stop else none) = none
            ∨ ((l.map fun o => o.after H (N + 1)).findSome? fun g : Group =>
              if K % g.stride = 0 then (readKind g.kind []).stop else none) = some .eof := by
          intro l
          induction l with
          | nil => intro _; left; rfl
          | cons o l ih =>
              intro hl
              have hk := hl o (by simp)
              have ih' := ih fun o' h' => hl o' (by simp [h'])
              rw [List.map_cons, List.findSome?_cons]
              by_cases hdo : K % o.stride = 0
              · have hnx : o.kind ≠ .xyz := by
                  intro hxyz
                  exact hd (Nat.mod_eq_zero_of_dvd (Nat.dvd_trans (hk hxyz) (Nat.dvd_of_mod_eq_zero hdo)))
                have hst : (readKind o.kind []).stop = none
                    ∨ (readKind o.kind []).stop = some .eof := by
                  rw [read_stop]
                  cases hkk : o.kind
                  · right; rfl
                  · left; rfl
                  · exact absurd hkk hnx
                  · left; rfl
                  · left; rfl
                have e1 : (o.after H (N + 1)).stride = o.stride := rfl
                have e2 : (o.after H (N + 1)).kind = o.kind := rfl
                rw [e1, e2, if_pos hdo]
                rcases hst with hst | hst
                · rw [hst]; exact ih'
                · rw [hst]; right; rfl
              · have e1 : (o.after H (N + 1)).stride = o.stride := rfl
                rw [e1, if_neg hdo]
                exact ih'
        exact h2 post hx
    · rw [h]; right; rfl
  -- one of the steps is a multiple of the stride
  obtain ⟨k0, hk0, hdiv⟩ : ∃ k0 < p.stride + 1, (s.step + k0) % p.stride = 0 := by
    refine ⟨p.stride - s.step % p.stride, by omega, ?_⟩
    have hlt := Nat.mod_lt s.step hs
    have : s.step + (p.stride - s.step % p.stride) = p.stride * (s.step / p.stride + 1) := by
      have := Nat.div_add_mod s.step p.stride
      rw [Nat.mul_add]
      omega
    rw [this]; simp
  cases hres : (List.range (p.stride + 1)).findSome? fun k =>
      s.outs.findSome? fun g =>
        if (s.step + k) % g.stride = 0 then (readKind g.kind []).stop else none with
  | none =>
      exfalso
      rw [List.findSome?_eq_none_iff] at hres
      have h1 := hres k0 (List.mem_range.2 hk0)
      rw [List.findSome?_eq_none_iff] at h1
      have h2 := h1 (p.after H (N + 1)) (by rw [houts, ho]; simp)
      have e1 : (p.after H (N + 1)).stride = p.stride := rfl
      have e2 : (p.after H (N + 1)).kind = .prop := hp
      rw [e1, e2, if_pos hdiv, read_stop] at h2
      simp at h2
  | some e' =>
      obtain ⟨k, _, hk⟩ := List.exists_of_findSome?_eq_some hres
      rcases hno k with h | h
      · rw [h] at hk; simp at hk
      · rw [h] at hk; exact hk.symm

/-- **C121, end, the other case.**  Without property and xyz files the script never ends. -/
theorem never_ends (H : History nsys) (outs : List (Out nsys N))
    (h : ∀ o ∈ outs, o.kind ≠ .prop ∧ o.kind ≠ .xyz) (n : Nat) :
    (rounds nsys n (start (outs.map Out.group) (H.lines N))).2 = none := by
  obtain ⟨s, e, hd, hstep, houts⟩ := all_read H outs
  rcases Nat.lt_or_ge n (N + 1) with hlt | hge
  · obtain ⟨m, hm⟩ := Nat.exists_eq_add_of_le (Nat.le_of_lt hlt)
    by_contra hc
    -- a stop would remain
    have key : ∀ (n m : Nat) (s : St), (rounds nsys n s).2 ≠ none → (rounds nsys (n + m) s).2 ≠ none := by
      intro n
      induction n with
      | zero => intro m s h; exact absurd rfl h
      | succ n ih =>
          intro m s h
          have e : n + 1 + m = (n + m) + 1 := by omega
          rw [e]
          rw [rounds] at h ⊢
          cases ht : tick nsys s with
          | mk t st =>
              rw [ht] at h
              cases st with
              | some e => simp
              | none => exact ih m t h
    have := key n m _ hc
    rw [← hm, e] at this
    exact this rfl
  · obtain ⟨m, rfl⟩ := Nat.exists_eq_add_of_le hge
    rw [rounds_add (N + 1) _ s e]
    cases m with
    | zero => rfl
    | succ m =>
        rcases Nat.eq_zero_or_pos nsys with h0 | h0
        · subst h0
          have : ∀ (n : Nat) (s : St), (rounds 0 n s).2 = none := by
            intro n
            induction n with
            | zero => intro s; rfl
            | succ n ih =>
                intro s
                have hg : ∀ gs : List Group, groups 0 s.irep s.step gs = (gs, none) := by
                  intro gs
                  induction gs with
                  | nil => rfl
                  | cons g gs ihg =>
                      have : g.step 0 s.irep s.step = (g, none) := by
                        unfold Group.step
                        by_cases hh : s.step % g.stride = 0 <;> simp [hh, Group.systems]
                      simp only [groups, this, ihg]
                rw [rounds]
                unfold tick
                rw [hg]
                cases s.swaps with
                | nil => exact ih _
                | cons x more =>
                    obtain ⟨l, idx⟩ := x
                    by_cases hl : s.step = l
                    · simp only [hl, if_true]; exact ih _
                    · simp only [hl, if_false]; exact ih _
          exact this _ _
        · rw [rounds_until h0 m s hd, List.findSome?_eq_none_iff]
          intro k _
          rw [List.findSome?_eq_none_iff]
          intro g hg
          rw [houts] at hg
          obtain ⟨o, ho, rfl⟩ := List.mem_map.1 hg
          obtain ⟨h1, h2⟩ := h o ho
          have e2 : (o.after H (N + 1)).kind = o.kind := rfl
          rw [e2, read_stop]
          cases hk : o.kind
          · exact absurd hk h1
          · simp
          · exact absurd hk h2
          · simp
          · simp

/-! ### The files that are opened -/

/-- **C121, files.**  The files the script opens are those the simulation wrote, for the trajectories
it knows to have a file per bead, all beads or one bead being printed, and for those that have one
file and are not extras. -/
theorem names_agree_partial (name key format : Str) (ibead : Int) (nbeads : Nat)
    (h : (sortPerBead.contains key = true ∧ -1 ≤ ibead)
      ∨ (simPerBead.contains key = false ∧ isExtras key = false)) :
    sortFiles name key format ibead nbeads = simFiles name key format ibead nbeads := by
  rcases h with ⟨h, hb⟩ | ⟨h, he⟩
  · have hsim : simPerBead.contains key = true := by
      have : ∀ k ∈ sortPerBead, simPerBead.contains k = true := by decide +kernel
      exact this key (by simpa using h)
    have hex : (key = "extras".toList || key = "extras_bias".toList : Bool) = isExtras key := by
      have : ∀ k ∈ sortPerBead,
          (k = "extras".toList || k = "extras_bias".toList : Bool) = isExtras k := by
        decide +kernel
      exact this key (by simpa using h)
    unfold sortFiles simFiles
    rw [if_pos h, if_pos hsim, hex]
    refine congrArg (List.map _) (List.filter_congr ?_)
    intro b _
    by_cases h0 : ibead < 0
    · have : ibead = -1 := by omega
      subst this
      simp
    · simp [h0]
  · have hs : sortPerBead.contains key = false := by
      have : ∀ k ∈ sortPerBead, simPerBead.contains k = true := by decide +kernel
      cases hc : sortPerBead.contains key
      · rfl
      · rw [this key (by simpa using hc)] at h
        exact (nomatch h)
    unfold sortFiles simFiles
    rw [hs, h, he]
    rfl

/-- **C121, files, the other cases.**  The momenta have files per bead that are not looked for; with
every second bead printed, files are looked for that do not exist; so is one with an extension for
the raw extras of a component. -/
theorem names_differ (name : Str) :
    (∃ f ∈ sortFiles name "momenta".toList "xyz".toList (-1) 4,
      f ∉ simFiles name "momenta".toList "xyz".toList (-1) 4)
    ∧ (∃ f ∈ sortFiles name "positions".toList "xyz".toList (-2) 4,
      f ∉ simFiles name "positions".toList "xyz".toList (-2) 4)
    ∧ ∃ f ∈ sortFiles name "extras_component_raw".toList "xyz".toList (-1) 4,
      f ∉ simFiles name "extras_component_raw".toList "xyz".toList (-1) 4 := by
  have pad : padBead 4 0 = "0".toList ∧ padBead 4 1 = "1".toList ∧ padBead 4 2 = "2".toList
      ∧ padBead 4 3 = "3".toList := by
    unfold padBead
    rw [showNat_lt (by decide), showNat_lt (by decide), showNat_lt (by decide),
      showNat_lt (by decide), showNat_lt (by decide)]
    decide
  refine ⟨⟨name ++ ".xyz".toList, ?_, ?_⟩, ⟨name ++ "_1.xyz".toList, ?_, ?_⟩,
    ⟨name ++ ".xyz".toList, ?_, ?_⟩⟩
  · have : sortFiles name "momenta".toList "xyz".toList (-1) 4 = [name ++ ".xyz".toList] := by rfl
    rw [this]; exact List.mem_singleton.2 rfl
  · have : simFiles name "momenta".toList "xyz".toList (-1) 4
        = [0, 1, 2, 3].map fun b => name ++ '_' :: padBead 4 b ++ ".xyz".toList := by rfl
    rw [this]
    simp only [List.map_cons, List.map_nil, pad, List.append_assoc, List.mem_cons, List.not_mem_nil,
      List.append_cancel_left_eq]
    decide
  · have : sortFiles name "positions".toList "xyz".toList (-2) 4
        = [0, 1, 2, 3].map fun b => name ++ '_' :: padBead 4 b ++ ".xyz".toList := by rfl
    rw [this]
    simp only [List.map_cons, List.map_nil, pad, List.append_assoc, List.mem_cons, List.not_mem_nil,
      List.append_cancel_left_eq]
    decide
  · have : simFiles name "positions".toList "xyz".toList (-2) 4
        = [0, 2].map fun b => name ++ '_' :: padBead 4 b ++ ".xyz".toList := by rfl
    rw [this]
    simp only [List.map_cons, List.map_nil, pad, List.append_assoc, List.mem_cons, List.not_mem_nil,
      List.append_cancel_left_eq]
    decide
  · have : sortFiles name "extras_component_raw".toList "xyz".toList (-1) 4
        = [name ++ ".xyz".toList] := by rfl
    rw [this]; exact List.mem_singleton.2 rfl
  · have : simFiles name "extras_component_raw".toList "xyz".toList (-1) 4 = [name ++ []] := by
      rfl
    rw [this]
    simp

/-- **C121, list of exchanges.**  It is found if there is a prefix. -/
theorem swap_file (p f : Str) : sortSwapFile p f = simSwapFile p f ↔ p ≠ [] := by
  constructor
  · intro h hp
    subst hp
    have := congrArg List.length h
    simp [sortSwapFile, simSwapFile] at this
  · intro hp
    simp [sortSwapFile, simSwapFile, hp]

/-! ### Histories that are sorted wrongly -/

/-- The row of a property file. -/
def row (s : String) : Line := (s ++ "\n").toList

/-- Two systems, one property file each, with a row per step: the script for the given list of
exchanges. -/
def two (a b : List String) (swaps : List (Nat × List Nat)) : St :=
  start [⟨.prop, 1, fun i => if i = 0 then a.map row else b.map row, fun _ => []⟩] swaps

/-- **C121, after a restart.**  A step in which the systems are exchanged is interrupted and repeated:
its line is in the list twice.  From then on no exchange is seen: at step 2 the systems are back in
their ensembles, but their rows go to the other files. -/
theorem repeated_line_wrong :
    let s := two [" a0", " a1", " a2"] [" b0", " b1", " b2"] [(0, [1, 0]), (0, [1, 0]), (1, [0, 1])]
    (rounds 2 10 s).2 = some .eof
      ∧ (rounds 2 10 s).1.outs.map (fun g => (g.ofile 0, g.ofile 1))
        = [([" a0", " b1", " b2"].map row, [" b0", " a1", " a2"].map row)] := by
  refine ⟨rfl, rfl⟩

/-- **C121, continued elsewhere.**  The simulation goes on from a checkpoint with the systems
exchanged and new files are begun: the rows of the system 0, which is in the ensemble 1, go to the
file of the ensemble 0. -/
theorem continued_wrong :
    let s := two [" a6", " a7"] [" b6", " b7"] []
    (rounds 2 10 s).2 = some .eof
      ∧ (rounds 2 10 s).1.outs.map (fun g => (g.ofile 0, g.ofile 1))
        = [([" a6", " a7"].map row, [" b6", " b7"].map row)] := by
  refine ⟨rfl, rfl⟩

/-- **C121, extras with several lines.**  Extras that are tables take more than two lines per step:
after an exchange in the first step, the file of the ensemble 0 has the last line of the first table
of the system 1 in the second step. -/
theorem tables_wrong :
    let t := fun (n : String) => ["# " ++ n, n ++ " x", n ++ " y"]
    let s := start [⟨.extras, 1, fun i => ((if i = 0 then t "a0" ++ t "a1" else t "b0" ++ t "b1")).map row,
      fun _ => []⟩] [(0, [1, 0])]
    (rounds 2 2 s).1.outs.map (fun g => g.ofile 0)
      = [["# a0", "a0 x", "b0 y", "# b1"].map row] := by
  rfl

/-- **C121, rare rows.**  With a property file written more rarely than an xyz file the script can end
with an error (all files are complete by then, by `sorted_files`). -/
theorem ends_badly :
    let s := start [⟨.prop, 2, fun _ => [row " 0"], fun _ => []⟩,
      ⟨.xyz, 1, fun _ => [row "0", row "# 0"], fun _ => []⟩] []
    (rounds 1 10 s).2 = some .value := by
  rfl

/-! ### The hypotheses can be met -/

/-- Two systems that are exchanged in step 0 and again in step 2. -/
def exHist : History 2 where
  rep := fun L i => if L = 1 ∨ L = 2 then 1 - i else i
  exch := fun s => s = 0 || s = 2
  first := by intro i hi; simp
  keep := by
    intro s h i hi
    have h1 : s ≠ 0 ∧ s ≠ 2 := by simpa using h
    by_cases h3 : s = 1
    · subst h3; rfl
    · have a1 : ¬ (s = 1 ∨ s = 2) := by omega
      have a2 : ¬ (s + 1 = 1 ∨ s + 1 = 2) := by omega
      simp only [if_neg a1, if_neg a2]

example : exHist.lines 3 = [(0, [1, 0]), (2, [0, 1])] := by rfl

/-- A property file with a header. -/
def exOut : Out 2 3 where
  kind := .prop
  stride := 1
  frame := fun i L => if L = 0 then [row "# header", row " 0"] else [row (if i = 0 then " a" else " b")]
  good := by
    intro i _ L _ _
    by_cases h : L = 0
    · exact ⟨[row "# header"], row " 0", by simp [h], by decide, by decide⟩
    · refine ⟨[], row (if i = 0 then " a" else " b"), by simp [h], by simp, ?_⟩
      by_cases hi : i = 0 <;> simp only [hi, if_true, if_false] <;> decide

example : (rounds 2 9 (start ([exOut].map Out.group) (exHist.lines 3))).1.outs.map
    (fun g => fun e => g.ofile e) = [exOut].map fun o => o.sorted exHist 4 :=
  sorted_files exHist [exOut] 5

example : exOut.sorted exHist 4 0 = [row "# header", row " 0", row " b", row " b", row " a"] := by rfl

example : ∃ n, (rounds 2 n (start ([exOut].map Out.group) (exHist.lines 3))).2 = some .eof :=
  ends_well (by decide) exHist [exOut] [] [] rfl rfl (by decide) (by simp) (by simp)

end Verif.Sort
