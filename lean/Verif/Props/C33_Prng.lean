import Verif.Phys.Prng
import Verif.Io.JsonTextLemmas
import Verif.Text.Lemmas
/-
C33. After restoring the saved state the same calls give the same numbers; a request for gaussian numbers returns freshly drawn numbers in every
entry, for any number of threads.

The saved text restores the state exactly (same number of threads). With one thread, or arrays below 100 entries per thread, everything holds.
With more, the numbers go to a copy that is thrown away, and the caller gets uninitialised memory.
-/
namespace Verif.Prng
open Verif.Text Verif.JsonText

variable {G R : Type} (L : Lib G R)

/-! ### the saved text -/

theorem okL_of {l : List JV} (h : ∀ v ∈ l, Ok v) : OkL l := by
  induction l with
  | nil => trivial
  | cons v l ih => exact ⟨h v List.mem_cons_self, ih fun x hx => h x (List.mem_cons_of_mem _ hx)⟩

theorem ok_jNat (n : Nat) : Ok (jNat n) := NumOk.pos (numOk_showNat n)

theorem ok_jMt (m : Mt) : Ok (jMt m) := by
  refine ⟨trivial, ⟨?_, ok_jNat _, trivial⟩, trivial⟩
  exact okL_of fun v hv => by
    obtain ⟨n, _, rfl⟩ := List.mem_map.1 hv
    exact ok_jNat n

theorem allSome_map {α β : Type} {f : α → Option β} {g : β → α} (h : ∀ b, f (g b) = some b) (l : List β) : allSome f (l.map g) = some l := by
  induction l with
  | nil => rfl
  | cons b l ih => simp [allSome, h, ih]

theorem natOf_jNat (n : Nat) : natOf (jNat n) = some n := parseNat_showNat n

theorem mtOf_jMt (m : Mt) : mtOf (jMt m) = some m := by
  have h1 : field kBit [(kBit, JV.str kMt), (kState, JV.obj [(kKey, .arr (m.key.map jNat)), (kPos, jNat m.pos)])] = some (.str kMt) := if_pos rfl
  have h2 : field kState [(kBit, JV.str kMt), (kState, JV.obj [(kKey, .arr (m.key.map jNat)), (kPos, jNat m.pos)])] = some (.obj [(kKey, .arr (m.key.map jNat)), (kPos, jNat m.pos)]) := by
    rw [field, if_neg (by decide), field, if_pos rfl]
  have h3 : field kKey [(kKey, JV.arr (m.key.map jNat)), (kPos, jNat m.pos)] = some (.arr (m.key.map jNat)) := if_pos rfl
  have h4 : field kPos [(kKey, JV.arr (m.key.map jNat)), (kPos, jNat m.pos)] = some (jNat m.pos) := by
    rw [field, if_neg (by decide), field, if_pos rfl]
  unfold jMt mtOf
  simp only [h1, h2, h3, h4, if_true, allSome_map natOf_jNat, natOf_jNat]

theorem dumpItems_last (l : List JV) : ∃ s, dumpItems l = s ++ [']'] := by
  induction l with
  | nil => exact ⟨[], rfl⟩
  | cons v l ih => obtain ⟨s, hs⟩ := ih; exact ⟨',' :: ' ' :: (dumps v ++ s), by rw [dumpItems, hs]; simp⟩

theorem strip_arr (l : List JV) : strip (dumps (.arr l)) = dumps (.arr l) := by
  have : ∃ s, dumps (.arr l) = '[' :: (s ++ [']']) := by
    cases l with
    | nil => exact ⟨[], rfl⟩
    | cons v l => obtain ⟨s, hs⟩ := dumpItems_last l; exact ⟨dumps v ++ s, by rw [dumps, hs]; simp⟩
  obtain ⟨s, hs⟩ := this
  rw [hs]
  refine stripP_self ?_ ?_
  · intro c hc; simp at hc; rw [← hc]; rfl
  · intro c hc; rw [← List.cons_append, List.getLast?_append] at hc; simp at hc; rw [← hc]; rfl

/-- **The saved text gives back the state**, for any number of generators, keys and positions. -/
theorem saved_text_exact (gs : List Mt) : fetchState (storeState gs) = some gs := by
  unfold fetchState storeState Values.readStr Values.writeStr
  have hok : Ok (.arr (gs.map jMt)) := okL_of fun v hv => by
    obtain ⟨m, _, rfl⟩ := List.mem_map.1 hv
    exact ok_jMt m
  rw [strip_arr, strip_arr, loads_dumps _ hok]
  exact allSome_map mtOf_jMt gs

theorem setState_length : ∀ (gs ss : List Mt), (setState gs ss).length = gs.length
  | [], _ => by cases ‹List Mt› <;> rfl
  | _ :: _, [] => rfl
  | g :: gs, s :: ss => by simp only [setState, List.length_cons, setState_length gs ss]

theorem setState_same : ∀ {gs ss : List Mt}, gs.length = ss.length → setState gs ss = ss
  | [], [], _ => rfl
  | g :: gs, s :: ss, h => by rw [setState, setState_same (by simpa using h)]

/-- **Restart with the same number of threads**: the generators are the saved ones, whatever the clock says. -/
theorem restart_state (gs : List Mt) (time : Nat) : create L time gs.length (fetchState (storeState gs)) = gs := by
  rw [saved_text_exact]
  exact setState_same (by simp)

/-- Restart with fewer threads: the first generators are the saved ones. -/
theorem restart_fewer (gs : List Mt) (time n : Nat) (h : n ≤ gs.length) : create L time n (fetchState (storeState gs)) = gs.take n := by
  rw [saved_text_exact]
  have : ∀ (as ss : List Mt), as.length ≤ ss.length → setState as ss = ss.take as.length := by
    intro as
    induction as with
    | nil => intro ss _; cases ss <;> rfl
    | cons a as ih =>
      intro ss h
      cases ss with
      | nil => cases h
      | cons s ss => simp only [setState, List.length_cons, List.take_succ_cons, ih ss (by simpa using h)]
  have := this ((List.range n).map (L.spawn time)) gs (by simpa using h)
  simpa [create] using this

/-- Restart with more threads: the additional generators come from the clock. -/
theorem restart_more (gs : List Mt) (time n : Nat) (h : gs.length ≤ n) :
    create L time n (fetchState (storeState gs)) = gs ++ ((List.range n).map (L.spawn time)).drop gs.length := by
  rw [saved_text_exact]
  have : ∀ (as ss : List Mt), ss.length ≤ as.length → setState as ss = ss ++ as.drop ss.length := by
    intro as
    induction as with
    | nil => intro ss h; cases ss with
      | nil => rfl
      | cons s ss => cases h
    | cons a as ih =>
      intro ss h
      cases ss with
      | nil => rfl
      | cons s ss => simp only [setState, List.length_cons, List.drop_succ_cons, List.cons_append, ih ss (by simpa using h)]
  have := this ((List.range n).map (L.spawn time)) gs (by simpa using h)
  simpa [create] using this

/-! ### the threads -/

theorem lo_hi {step len i j k : Nat} (h1 : i < j) (h : k < hi step len i) : k < lo step len j ∨ lo step len j = len := by
  unfold lo hi at *
  have : step * (i + 1) ≤ step * j := Nat.mul_le_mul_left _ (by omega)
  omega

/-- What holds at any time of a threaded fill. -/
structure Inv (step len : Nat) (gens : Nat → Mt) (t : Fill G) : Prop where
  bound : ∀ i, lo step len i + t.cnt i ≤ max (lo step len i) (hi step len i)
  gen : ∀ i, t.gen i = after L (t.cnt i) (gens i)
  mem : ∀ i k, k < t.cnt i → t.mem (lo step len i + k) = draw L k (gens i)
  log : ∀ j i, (j, i) ∈ t.log ↔ ∃ k < t.cnt i, j = lo step len i + k
  once : (t.log.map (·.1)).Nodup

theorem slice_unique {step len i i' k k' c c' : Nat} (hc : lo step len i + c ≤ max (lo step len i) (hi step len i))
    (hc' : lo step len i' + c' ≤ max (lo step len i') (hi step len i')) (hk : k < c) (hk' : k' < c') (h : lo step len i + k = lo step len i' + k') : i = i' := by
  have b1 : hi step len i ≤ len := Nat.min_le_right _ _
  have b2 : hi step len i' ≤ len := Nat.min_le_right _ _
  rcases Nat.lt_trichotomy i i' with h1 | h1 | h1
  · rcases lo_hi (step := step) (len := len) (k := lo step len i + k) h1 (by omega) with h2 | h2 <;> omega
  · exact h1
  · rcases lo_hi (step := step) (len := len) (k := lo step len i' + k') h1 (by omega) with h2 | h2 <;> omega

theorem inv_init (step len : Nat) (out : Nat → G) (gens : Nat → Mt) : Inv L step len gens (fillInit out gens) := by
  refine ⟨fun i => Nat.le_max_left _ _, fun i => rfl, fun i k h => (by cases h), fun j i => ⟨fun h => (by cases h), fun ⟨k, hk, _⟩ => (by cases hk)⟩, List.nodup_nil⟩

theorem inv_step {step len : Nat} {gens : Nat → Mt} {t : Fill G} (h : Inv L step len gens t) (i : Nat) : Inv L step len gens (fillStep L step len t i) := by
  unfold fillStep
  simp only
  split
  · rename_i hlt
    have hb : lo step len i + (t.cnt i + 1) ≤ max (lo step len i) (hi step len i) := by omega
    have bound : ∀ i', lo step len i' + upd t.cnt i (t.cnt i + 1) i' ≤ max (lo step len i') (hi step len i') := by
      intro i'
      unfold upd
      split
      · rename_i e; subst e; exact hb
      · exact h.bound i'
    have fresh : ∀ i' k, k < t.cnt i' → lo step len i' + k ≠ lo step len i + t.cnt i := by
      intro i' k hk e
      have := slice_unique (h.bound i') hb hk (Nat.lt_succ_self _) e
      subst this
      omega
    refine ⟨bound, ?_, ?_, ?_, ?_⟩
    · intro i'
      simp only [upd]
      split
      · rename_i e; subst e; rw [h.gen]; rfl
      · exact h.gen i'
    · intro i' k hk
      simp only [upd] at hk ⊢
      split at hk
      · rename_i e
        subst e
        by_cases hk' : k = t.cnt i'
        · rw [hk', if_pos rfl, h.gen]; rfl
        · rw [if_neg (by omega)]
          exact h.mem i' k (by omega)
      · rw [if_neg (fresh i' k hk)]
        exact h.mem i' k hk
    · intro j i'
      simp only [List.mem_cons, Prod.mk.injEq, h.log, upd]
      constructor
      · rintro (⟨rfl, rfl⟩ | ⟨k, hk, rfl⟩)
        · exact ⟨t.cnt i', by rw [if_pos rfl]; omega, rfl⟩
        · refine ⟨k, ?_, rfl⟩
          split
          · rename_i e; subst e; omega
          · exact hk
      · rintro ⟨k, hk, rfl⟩
        split at hk
        · rename_i e
          subst e
          by_cases hk' : k = t.cnt i'
          · left; exact ⟨by rw [hk'], rfl⟩
          · right; exact ⟨k, by omega, rfl⟩
        · right; exact ⟨k, hk, rfl⟩
    · rw [List.map_cons, List.nodup_cons]
      refine ⟨fun hm => ?_, h.once⟩
      obtain ⟨⟨j, i'⟩, hji, hj⟩ := List.mem_map.1 hm
      obtain ⟨k, hk, rfl⟩ := (h.log j i').1 hji
      exact fresh i' k hk hj
  · exact h

theorem inv_run {step len : Nat} {gens : Nat → Mt} (sched : List Nat) : ∀ {t : Fill G}, Inv L step len gens t → Inv L step len gens (fillRun L step len t sched) := by
  induction sched with
  | nil => intro t h; exact h
  | cons i sched ih => intro t h; exact ih (inv_step L h i)

theorem stepSize_covers {len n : Nat} (hn : 0 < n) : len ≤ stepSize len n * n := by
  unfold stepSize
  have := Nat.div_add_mod (len + n - 1) n
  have := Nat.mod_lt (len + n - 1) hn
  rw [Nat.mul_comm]
  omega

theorem copy_filled_step {step len n : Nat} (hs : 0 < step) (hcov : len ≤ step * n) (out : Nat → G) (gens : Nat → Mt) (t : Fill G) (hinv : Inv L step len gens t)
    (hd : fillDone step len n t) (j : Nat) (hj : j < len) : j / step < n ∧ t.mem j = draw L (j % step) (gens (j / step)) ∧ (j, j / step) ∈ t.log := by
  have hq : j / step < n := by
    rw [Nat.div_lt_iff_lt_mul hs]
    exact Nat.lt_of_lt_of_le hj (by rw [Nat.mul_comm]; exact hcov)
  have hdm := Nat.div_add_mod j step
  have hml := Nat.mod_lt j hs
  have hlo : lo step len (j / step) = step * (j / step) := by unfold lo; omega
  have hhi : lo step len (j / step) + j % step < hi step len (j / step) := by
    unfold hi
    rw [hlo, Nat.mul_add]
    omega
  have hdone := hd (j / step) hq
  have hk : j % step < t.cnt (j / step) := by omega
  have hjj : lo step len (j / step) + j % step = j := by rw [hlo]; omega
  refine ⟨hq, ?_, ?_⟩
  · have := hinv.mem _ _ hk
    rw [hjj] at this
    exact this
  · exact (hinv.log _ _).2 ⟨_, hk, hjj.symm⟩

/-- **Every entry of the copy is filled, by exactly one thread, with a number of its own generator**, for every array length, number of threads
and interleaving. Entry `j` belongs to thread `j / step`. -/
theorem copy_filled {len n : Nat} (hn : 0 < n) (hlen : 0 < len) (out : Nat → G) (gens : Nat → Mt) (sched : List Nat)
    (hd : fillDone (stepSize len n) len n (fillRun L (stepSize len n) len (fillInit out gens) sched)) :
    let t := fillRun L (stepSize len n) len (fillInit out gens) sched
    (t.log.map (·.1)).Nodup ∧ ∀ j < len, j / stepSize len n < n ∧
      t.mem j = draw L (j % stepSize len n) (gens (j / stepSize len n)) ∧ (j, j / stepSize len n) ∈ t.log := by
  intro t
  have hinv : Inv L (stepSize len n) len gens t := inv_run L sched (inv_init L _ _ out gens)
  have hcov := stepSize_covers (len := len) hn
  have hs : 0 < stepSize len n := by
    rcases Nat.eq_zero_or_pos (stepSize len n) with h | h
    · rw [h] at hcov; omega
    · exact h
  exact ⟨hinv.once, fun j hj => copy_filled_step L hs hcov out gens t hinv hd j hj⟩

/-- The generators end in the same state under every interleaving. -/
theorem gens_after {len n : Nat} (out : Nat → G) (gens : Nat → Mt) (sched : List Nat)
    (hd : fillDone (stepSize len n) len n (fillRun L (stepSize len n) len (fillInit out gens) sched)) {i : Nat} (hi' : i < n) :
    (fillRun L (stepSize len n) len (fillInit out gens) sched).gen i = after L (hi (stepSize len n) len i - lo (stepSize len n) len i) (gens i) := by
  have hinv : Inv L (stepSize len n) len gens _ := inv_run L sched (inv_init L _ _ out gens)
  rw [hinv.gen]
  congr 1
  have h1 := hinv.bound i
  have h2 := hd i hi'
  have h3 : lo (stepSize len n) len i ≤ hi (stepSize len n) len i := by
    unfold lo hi
    have : stepSize len n * i ≤ stepSize len n * (i + 1) := Nat.mul_le_mul_left _ (by omega)
    omega
  omega

/-! ### what the caller gets -/

/-- A call small enough for the generators at hand. -/
def Small (n : Nat) : Call → Prop
  | .op _ => True
  | .gvec m => n ≤ 1 ∨ stepSize m n < 100

theorem call_junk {gs : List Mt} {c : Call} (h : Small gs.length c) (junk junk' : Nat → G) : call L junk c gs = call L junk' c gs := by
  cases gs with
  | nil => rfl
  | cons g rest =>
    cases c with
    | op k => rfl
    | gvec n =>
      have : rest = [] ∨ stepSize n (g :: rest).length < 100 := by
        rcases h with h | h
        · left; simp only [List.length_cons] at h; exact List.length_eq_zero_iff.1 (by omega)
        · exact .inr h
      simp only [call, if_pos this]

theorem call_length {gs gs' : List Mt} {c : Call} {junk : Nat → G} {o : Out G R} (h : call L junk c gs = some (o, gs')) : gs'.length = gs.length := by
  have ha : ∀ (step len i : Nat) (l : List Mt), (advance L step len i l).length = l.length := by
    intro step len i l
    induction l generalizing i with
    | nil => rfl
    | cons g l ih => simp only [advance, List.length_cons, ih]
  cases gs with
  | nil => cases h
  | cons g rest =>
    cases c with
    | op k => simp only [call, Option.some.injEq, Prod.mk.injEq] at h; rw [← h.2]; rfl
    | gvec n =>
      simp only [call] at h
      split at h
      · simp only [Option.some.injEq, Prod.mk.injEq] at h; rw [← h.2]; rfl
      · simp only [Option.some.injEq, Prod.mk.injEq] at h; rw [← h.2, ha]

theorem calls_junk (cs : List Call) : ∀ {gs : List Mt}, (∀ c ∈ cs, Small gs.length c) → ∀ junk junk' : Nat → Nat → G, calls L junk cs gs = calls L junk' cs gs := by
  induction cs with
  | nil => intro gs _ _ _; rfl
  | cons c cs ih =>
    intro gs h junk junk'
    rw [calls, calls, call_junk L (h c List.mem_cons_self) (junk 0) (junk' 0)]
    cases hc : call L (junk' 0) c gs with
    | none => rfl
    | some p =>
      obtain ⟨o, gs'⟩ := p
      simp only
      rw [ih (fun d hd => by rw [call_length L hc]; exact h d (List.mem_cons_of_mem _ hd))]

/-- **C33, partial: replay.** After a restart from the saved text, at any time and with any memory contents, every sequence of calls returns what
it would have returned. Holds for one thread, and for arrays below 100 entries per thread. -/
theorem replay_partial (gs : List Mt) (cs : List Call) (h : ∀ c ∈ cs, Small gs.length c) (time : Nat) (junk junk' : Nat → Nat → G) :
    calls L junk cs (create L time gs.length (fetchState (storeState gs))) = calls L junk' cs gs := by
  rw [restart_state, calls_junk L cs h junk junk']

/-- One thread: no condition on the sizes. -/
theorem replay_one_thread (g : Mt) (cs : List Call) (time : Nat) (junk junk' : Nat → Nat → G) :
    calls L junk cs (create L time 1 (fetchState (storeState [g]))) = calls L junk' cs [g] :=
  replay_partial L [g] cs (fun c _ => by cases c with | op => trivial | gvec n => exact .inl (Nat.le_refl _)) time junk junk'

theorem draws_length (n : Nat) : ∀ s, (draws L n s).1.length = n := by
  induction n with
  | zero => intro s; rfl
  | succ n ih => intro s; simp only [draws, List.length_cons, ih]

/-- **C33, partial: fresh numbers.** Small requests return `n` numbers drawn one after the other from generator 0. -/
theorem fresh_numbers_partial (g : Mt) (rest : List Mt) (n : Nat) (h : rest = [] ∨ stepSize n (g :: rest).length < 100) (junk : Nat → G) :
    call L junk (.gvec n) (g :: rest) = some (.arr (draws L n g).1, (draws L n g).2 :: rest) ∧ (draws L n g).1.length = n := by
  refine ⟨?_, draws_length L n g⟩
  simp only [call, if_pos h]

/-- **False of the code**: with two or more threads and at least 100 entries per thread the caller gets the contents of uninitialised memory. -/
theorem threaded_returns_junk (g g' : Mt) (rest : List Mt) (n : Nat) (h : 100 ≤ stepSize n (g :: g' :: rest).length) (junk : Nat → G) :
    ∃ gs', call L junk (.gvec n) (g :: g' :: rest) = some (.arr ((List.range n).map junk), gs') := by
  have : ¬ (g' :: rest = [] ∨ stepSize n (g :: g' :: rest).length < 100) := by
    rintro (h' | h')
    · cases h'
    · omega
  exact ⟨advance L (stepSize n (g :: g' :: rest).length) n 0 (g :: g' :: rest), by simp only [call, if_neg this]⟩

/-! ### concrete cases -/

/-- A toy generator that counts. -/
def toy : Lib Nat Nat := ⟨fun m => (m.pos, { m with pos := m.pos + 1 }), fun k m => (m.pos + k, { m with pos := m.pos + 1 }), fun s i => ⟨[s], 1000 * i⟩⟩

/-- The hypothesis of `replay_partial`: two threads, 198 numbers. -/
example : Small 2 (.gvec 198) ∧ ¬ Small 2 (.gvec 199) := by
  refine ⟨.inr (by decide), ?_⟩
  rintro (h | h) <;> revert h <;> decide

/-- The hypothesis of `copy_filled`: seven entries, three threads, one interleaving. -/
example : fillDone (stepSize 7 3) 7 3 (fillRun toy (stepSize 7 3) 7 (fillInit (fun _ => 999) (toy.spawn 0)) [2, 0, 1, 1, 0, 0, 1]) := by
  unfold fillDone; decide

/-- **Restart with more threads than before is not reproducible**: the numbers depend on the time of the restart. -/
theorem more_threads_not_reproducible : ∃ gs : List Mt, create toy 1 2 (fetchState (storeState gs)) ≠ create toy 2 2 (fetchState (storeState gs)) :=
  ⟨[⟨[5], 0⟩], by rw [restart_more _ _ _ _ (by decide), restart_more _ _ _ _ (by decide)]; decide⟩

/-- The condition of `threaded_returns_junk` for two threads. -/
example : 100 ≤ stepSize 200 2 := by decide

end Verif.Prng
