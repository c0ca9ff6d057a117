import Verif.Io.Binary
/-
C64. Reading a binary file to which n frames were written yields these n frames.

Holds for one frame. The reader takes everything after the names as the title, so a file with more frames yields at most one.
-/
namespace Verif.Binary
variable {F : Type} (C : Coding F)

theorem getFloats_all (xs : List F) (s : List Nat) : getFloats C xs.length (floats C xs ++ s) = (xs, s) := by
  induction xs with
  | nil => rfl
  | cons x xs ih =>
    show getFloats C (xs.length + 1) ((C.enc x).1 :: (C.enc x).2 :: (floats C xs ++ s)) = _
    rw [getFloats, ih, C.dec_enc]

theorem getInt_int64 (n : Nat) (s : List Nat) : getInt (int64 n ++ s) = some (n, s) := by
  show some _ = _
  rw [Nat.mod_add_div]
  rfl

/-- Text numpy can hold without loss: code points, no nulls. -/
def Plain (t : Text) : Prop := ∀ c ∈ t, c < 0x110000 ∧ c ≠ 0

theorem decode_plain {t : Text} (h : Plain t) : decodeText t = some t := by
  induction t with
  | nil => rfl
  | cons c t ih =>
    have hc := h c List.mem_cons_self
    rw [decodeText, if_pos hc.1, ih fun x hx => h x (List.mem_cons_of_mem _ hx), Option.map_some, if_neg hc.2]

theorem decode_append (a b : List Nat) : decodeText (a ++ b) = (decodeText a).bind fun x => (decodeText b).map fun y => x ++ y := by
  induction a with
  | nil => cases h : decodeText b <;> simp [decodeText, h]
  | cons c a ih =>
    simp only [List.cons_append, decodeText]
    split
    · rw [ih]
      cases decodeText a <;> cases decodeText b <;> simp
      split <;> simp
    · rfl

theorem decode_chars {t : Text} (h : Plain t) : decodeText (chars t) = some t := by
  unfold chars
  split
  · rename_i e; rw [e]; rfl
  · exact decode_plain h

theorem splitBar_plain {n : Text} (h : bar ∉ n) : splitBar n = [n] := by
  induction n with
  | nil => rfl
  | cons c n ih =>
    rw [splitBar, if_neg fun e => h (by rw [e]; exact List.mem_cons_self), ih fun h' => h (List.mem_cons_of_mem _ h')]

theorem splitBar_bar (n s : Text) (h : bar ∉ n) : splitBar (n ++ bar :: s) = n :: splitBar s := by
  induction n with
  | nil => rw [List.nil_append, splitBar, if_pos rfl]
  | cons c n ih =>
    rw [List.cons_append, splitBar, if_neg fun e => h (by rw [e]; exact List.mem_cons_self), ih fun h' => h (List.mem_cons_of_mem _ h')]

theorem splitBar_join : ∀ {ns : List Text}, ns ≠ [] → (∀ n ∈ ns, bar ∉ n) → splitBar (joinBar ns) = ns
  | [], h, _ => absurd rfl h
  | [n], _, h => splitBar_plain (h n (by simp))
  | n :: m :: ns, _, h => by
    rw [joinBar, splitBar_bar _ _ (h n (by simp)), splitBar_join (by simp) fun x hx => h x (List.mem_cons_of_mem _ hx)]
    simp

theorem join_plain : ∀ {ns : List Text}, (∀ n ∈ ns, Plain n) → Plain (joinBar ns)
  | [], _ => fun c hc => by cases hc
  | [n], h => h n (by simp)
  | n :: m :: ns, h => by
    intro c hc
    rw [joinBar] at hc
    · rcases List.mem_append.1 hc with hc | hc
      · exact h n (by simp) c hc
      · rcases List.mem_cons.1 hc with rfl | hc
        · decide
        · exact join_plain (fun x hx => h x (List.mem_cons_of_mem _ hx)) c hc
    · simp

/-- Frames as i-PI holds them: nine cell numbers, at least one atom, three numbers per atom, names without `|`, some name not empty. -/
structure Ok (f : Frame F) : Prop where
  cell : f.cell.length = 9
  q : f.q.length = 3 * f.names.length
  names : joinBar f.names ≠ []
  bars : ∀ n ∈ f.names, bar ∉ n ∧ Plain n
  title : Plain f.title

theorem names_ne {f : Frame F} (h : Ok f) : f.names ≠ [] := fun e => h.names (by rw [e]; rfl)

/-- What the reader makes of a frame followed by anything. -/
theorem read_written {f : Frame F} (h : Ok f) (s : List Nat) :
    read C (write C f ++ s) = match decodeText s with
      | some t => .ok { f with title := f.title ++ t } []
      | none => .eof := by
  unfold read write
  simp only [List.append_assoc]
  have g1 := getFloats_all C f.cell (int64 f.names.length ++ (floats C f.q ++ (int64 (joinBar f.names).length ++ (chars (joinBar f.names) ++ (chars f.title ++ s)))))
  rw [h.cell] at g1
  rw [g1]
  simp only [h.cell, ne_eq, not_true_eq_false, if_false, getInt_int64]
  have g2 := getFloats_all C f.q (int64 (joinBar f.names).length ++ (chars (joinBar f.names) ++ (chars f.title ++ s)))
  rw [h.q] at g2
  rw [g2]
  simp only [getInt_int64]
  have hc : chars (joinBar f.names) = joinBar f.names := by unfold chars; rw [if_neg h.names]
  rw [hc, List.take_left, List.drop_left, decode_plain (join_plain fun n hn => (h.bars n hn).2), decode_append, decode_chars h.title]
  simp only [splitBar_join (names_ne h) fun n hn => (h.bars n hn).1]
  cases decodeText s <;> simp

theorem read_nil : read C [] = .eof := rfl

theorem iter_nil (n : Nat) : iter C n [] = ([], true) := by
  cases n with
  | zero => rfl
  | succ n => rw [iter, read_nil]

/-- **C64, partial: one frame** is read back as it was written. -/
theorem one_frame_partial {f : Frame F} (h : Ok f) : readAll C (write C f) = ([f], true) := by
  have := read_written C h []
  rw [List.append_nil] at this
  unfold readAll
  rw [iter, this]
  simp only [decodeText, List.append_nil]
  rw [iter_nil]

/-- **False of the code for more frames**: whatever is read from a file with two or more frames is not what was written. It is one frame with
the rest of the file in its title, or nothing. -/
theorem more_frames_lost {f g : Frame F} {fs : List (Frame F)} (h : Ok f) :
    (∃ t, readAll C (writeAll C (f :: g :: fs)) = ([{ f with title := f.title ++ t }], true)) ∨ readAll C (writeAll C (f :: g :: fs)) = ([], true) := by
  have e : writeAll C (f :: g :: fs) = write C f ++ writeAll C (g :: fs) := rfl
  have := read_written C h (writeAll C (g :: fs))
  unfold readAll
  rw [iter, e, this]
  cases decodeText (writeAll C (g :: fs)) with
  | none => exact .inr rfl
  | some t => exact .inl ⟨t, by simp only [iter_nil]⟩

theorem more_frames_wrong {f g : Frame F} {fs : List (Frame F)} (h : Ok f) : (readAll C (writeAll C (f :: g :: fs))).1 ≠ f :: g :: fs := by
  rcases more_frames_lost C (g := g) (fs := fs) h with ⟨t, e⟩ | e <;> rw [e]
  · intro h'
    have := congrArg List.length h'
    simp at this
  · intro h'; cases h'

/-- Every file at all, whatever is in it, yields at most one frame. -/
theorem at_most_one (s : List Nat) : (readAll C s).1.length ≤ 1 := by
  have hr : ∀ f r, read C s = .ok f r → r = [] := by
    intro f r h
    unfold read at h
    simp only at h
    split at h
    · cases h
    · split at h
      · cases h
      · split at h
        · cases h
        · split at h
          · cases h
          · split at h
            · cases h
            · simp only [Res.ok.injEq] at h; exact h.2.symm
  unfold readAll
  rw [iter]
  cases h : read C s with
  | eof => simp
  | err => simp
  | ok f r => simp only; rw [hr f r h, iter_nil]; simp

/-- Numbers as their own pair of words, to run the model. -/
def pairs : Coding (Nat × Nat) := ⟨id, fun a b => (a, b), fun _ => rfl⟩

/-- 1.0 and 0.0 -/
def one : Nat × Nat := (0, 0x3ff00000)
def zero : Nat × Nat := (0, 0)

/-- A hydrogen molecule; titles `a` and `b`. -/
def h2 (t : Nat) : Frame (Nat × Nat) := ⟨[one, zero, zero, zero, one, zero, zero, zero, one], [zero, zero, zero, one, zero, zero], [[72], [72]], [t]⟩

example : Ok (h2 97) := by
  refine ⟨rfl, rfl, by decide, ?_, ?_⟩
  · unfold Plain; decide
  · unfold Plain; decide

/-- Two frames: the words of 1.0 are not characters, and nothing is read. -/
theorem two_frames_nothing : readAll pairs (writeAll pairs [h2 97, h2 98]) = ([], true) := by decide +kernel

end Verif.Binary
