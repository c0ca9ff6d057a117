import Verif.Mpi.Model
/- Helper lemmas about MPI buffers. -/
namespace Verif.Mpi
open Verif.Wire
variable {F : Type}

theorem setSlice_mid (a vals old rest : List F) (h : vals.length = old.length) :
    setSlice (a ++ old ++ rest) a.length (a.length + old.length) vals = some (a ++ vals ++ rest) := by
  unfold setSlice
  rw [if_pos]
  · congr 1
    rw [show (a ++ old ++ rest).take a.length = a by rw [List.append_assoc, List.take_left],
      show (a ++ old ++ rest).drop (a.length + vals.length) = rest from List.drop_left' (by simp [h])]
  · simp; omega

theorem slice_mid {α : Type} (a m rest : List α) : slice (a ++ m ++ rest) a.length (a.length + m.length) = m := by
  unfold slice
  rw [List.take_left' (by simp), List.drop_left]

theorem slice_at {α : Type} {buf a m rest : List α} {i j : Nat} (hb : buf = a ++ m ++ rest) (hi : i = a.length)
    (hj : j = i + m.length) : slice buf i j = m := by
  subst hb hi hj; exact slice_mid a m rest

theorem setSlice_at {buf a old rest vals : List F} {i j : Nat} (hb : buf = a ++ old ++ rest) (hi : i = a.length)
    (hj : j = i + old.length) (hv : vals.length = old.length) : setSlice buf i j vals = some (a ++ vals ++ rest) := by
  subst hb hi hj; exact setSlice_mid a vals old rest hv

/-- A structure as it is laid out in the buffer. -/
def flat (s : Struct F) : List F := s.h ++ s.ih ++ s.pos

def Struct.Ok (nat : Nat) (s : Struct F) : Prop := s.h.length = 9 ∧ s.ih.length = 9 ∧ s.pos.length = 3 * nat

theorem flat_length {nat : Nat} {s : Struct F} (h : s.Ok nat) : (flat s).length = 18 + 3 * nat := by
  obtain ⟨h1, h2, h3⟩ := h
  simp [flat, h1, h2, h3]; omega

theorem flatMap_length_const {α β : Type} {f : α → List β} {k : Nat} {l : List α} (h : ∀ x ∈ l, (f x).length = k) :
    (l.flatMap f).length = l.length * k := by
  induction l with
  | nil => simp
  | cons x l ih =>
    rw [List.flatMap_cons, List.length_append, h x (by simp), ih (fun y hy => h y (by simp [hy]))]
    simp [Nat.add_mul]; omega

theorem split3 (l : List F) (a b c : Nat) (h : a + b + c ≤ l.length) :
    ∃ x y z r, l = x ++ y ++ z ++ r ∧ x.length = a ∧ y.length = b ∧ z.length = c := by
  refine ⟨l.take a, (l.drop a).take b, ((l.drop a).drop b).take c, ((l.drop a).drop b).drop c, ?_, ?_, ?_, ?_⟩
  · rw [List.append_assoc, List.append_assoc, List.take_append_drop, List.take_append_drop, List.take_append_drop]
  · rw [List.length_take]; omega
  · rw [List.length_take, List.length_drop]; omega
  · rw [List.length_take, List.length_drop, List.length_drop]; omega

theorem packLoop_eq {nat : Nat} (ss : List (Struct F)) (hok : ∀ s ∈ ss, s.Ok nat) : ∀ (i : Nat) (pre junk rest : List F),
    pre.length = i * (18 + 3 * nat) → junk.length = ss.length * (18 + 3 * nat) →
    packLoop nat i ss (pre ++ junk ++ rest) = some (pre ++ ss.flatMap flat ++ rest) := by
  induction ss with
  | nil =>
    intro i pre junk rest _ hj
    have : junk = [] := List.eq_nil_of_length_eq_zero (by simpa using hj)
    subst this
    simp [packLoop]
  | cons s ss ih =>
    intro i pre junk rest hp hj
    obtain ⟨h1, h2, h3⟩ := hok s (by simp)
    have hl : 9 + 9 + 3 * nat ≤ junk.length := by
      rw [hj, List.length_cons, Nat.add_mul]; omega
    obtain ⟨x, y, z, r, rfl, hx, hy, hz⟩ := split3 junk 9 9 (3 * nat) hl
    have hr : r.length = ss.length * (18 + 3 * nat) := by
      have : (ss.length + 1) * (18 + 3 * nat) = ss.length * (18 + 3 * nat) + (18 + 3 * nat) := by rw [Nat.add_mul]; omega
      simp only [List.length_append, List.length_cons, hx, hy, hz, this] at hj; omega
    unfold packLoop
    have e1 : setSlice (pre ++ (x ++ y ++ z ++ r) ++ rest) (i * (18 + 3 * nat)) (i * (18 + 3 * nat) + 9) s.h =
        some (pre ++ s.h ++ (y ++ z ++ r ++ rest)) :=
      setSlice_at (a := pre) (old := x) (by simp) hp.symm (by rw [hx]) (by rw [h1, hx])
    have e2 : setSlice (pre ++ s.h ++ (y ++ z ++ r ++ rest)) (i * (18 + 3 * nat) + 9) (i * (18 + 3 * nat) + 18) s.ih =
        some (pre ++ s.h ++ s.ih ++ (z ++ r ++ rest)) :=
      setSlice_at (a := pre ++ s.h) (old := y) (by simp) (by simp [hp, h1]) (by rw [hy]) (by rw [h2, hy])
    have e3 : setSlice (pre ++ s.h ++ s.ih ++ (z ++ r ++ rest)) (i * (18 + 3 * nat) + 18) (i * (18 + 3 * nat) + 18 + 3 * nat) s.pos =
        some (pre ++ s.h ++ s.ih ++ s.pos ++ (r ++ rest)) :=
      setSlice_at (a := pre ++ s.h ++ s.ih) (old := z) (by simp) (by simp [hp, h1, h2]) (by rw [hz]) (by rw [h3, hz])
    simp only [e1, e2, e3, Option.bind_some]
    have := ih (fun s hs => hok s (by simp [hs])) (i + 1) (pre ++ flat s) r rest (by
      rw [List.length_append, flat_length ⟨h1, h2, h3⟩, hp, Nat.add_mul]; omega) hr
    rw [List.flatMap_cons]
    simp only [flat, List.append_assoc] at this ⊢
    exact this

theorem pack_eq {nat : Nat} {junk : F} {ss : List (Struct F)} (hne : ss ≠ []) (hok : ∀ s ∈ ss, s.Ok nat) :
    pack junk ss = some (nat, ss.flatMap flat) := by
  cases ss with
  | nil => exact absurd rfl hne
  | cons s ss =>
    have hn : s.pos.length / 3 = nat := by rw [(hok s (by simp)).2.2]; omega
    simp only [pack, hn]
    have := packLoop_eq (s :: ss) hok 0 [] (List.replicate ((s :: ss).length * (18 + 3 * nat)) junk) [] (by simp) (by simp)
    simp only [List.nil_append, List.append_nil] at this
    rw [this]; rfl

theorem flatMap_split {α β : Type} (f : α → List β) (l : List α) (i : Nat) (h : i < l.length) :
    l.flatMap f = (l.take i).flatMap f ++ f l[i] ++ (l.drop (i + 1)).flatMap f := by
  have e : l = l.take i ++ l[i] :: l.drop (i + 1) := by
    rw [List.getElem_cons_drop, List.take_append_drop]
  have := congrArg (List.flatMap f) e
  rw [List.flatMap_append, List.flatMap_cons] at this
  rw [this, List.append_assoc]

def Result.Ok (nat : Nat) (r : Result F) : Prop := r.force.length = 3 * nat ∧ r.vir.length = 9

def flatR (r : Result F) : List F := [r.pot] ++ r.force ++ r.vir

theorem flatR_length {nat : Nat} {r : Result F} (h : r.Ok nat) : (flatR r).length = 1 + 3 * nat + 9 := by
  obtain ⟨h1, h2⟩ := h
  simp [flatR, h1, h2]; omega

theorem packResLoop_eq {nat : Nat} (ss : List (Result F)) (hok : ∀ s ∈ ss, s.Ok nat) : ∀ (i : Nat) (pre junk rest : List F),
    pre.length = i * (1 + 3 * nat + 9) → junk.length = ss.length * (1 + 3 * nat + 9) →
    packResLoop nat i ss (pre ++ junk ++ rest) = some (pre ++ ss.flatMap flatR ++ rest) := by
  induction ss with
  | nil =>
    intro i pre junk rest _ hj
    have : junk = [] := List.eq_nil_of_length_eq_zero (by simpa using hj)
    subst this
    simp [packResLoop]
  | cons s ss ih =>
    intro i pre junk rest hp hj
    obtain ⟨h1, h2⟩ := hok s (by simp)
    have hl : 1 + 3 * nat + 9 ≤ junk.length := by
      rw [hj, List.length_cons, Nat.add_mul]; omega
    obtain ⟨x, y, z, r, rfl, hx, hy, hz⟩ := split3 junk 1 (3 * nat) 9 hl
    have hr : r.length = ss.length * (1 + 3 * nat + 9) := by
      have : (ss.length + 1) * (1 + 3 * nat + 9) = ss.length * (1 + 3 * nat + 9) + (1 + 3 * nat + 9) := by
        rw [Nat.add_mul]; omega
      simp only [List.length_append, List.length_cons, hx, hy, hz, this] at hj; omega
    unfold packResLoop
    dsimp only
    generalize hB : i * (1 + 3 * nat + 9) = B at *
    have e1 : setSlice (pre ++ (x ++ y ++ z ++ r) ++ rest) B (B + 1) [s.pot] =
        some (pre ++ [s.pot] ++ (y ++ z ++ r ++ rest)) :=
      setSlice_at (a := pre) (old := x) (by simp) hp.symm (by rw [hx]) (by rw [hx]; rfl)
    have e2 : setSlice (pre ++ [s.pot] ++ (y ++ z ++ r ++ rest)) (B + 1) (B + 1 + 3 * nat) s.force =
        some (pre ++ [s.pot] ++ s.force ++ (z ++ r ++ rest)) :=
      setSlice_at (a := pre ++ [s.pot]) (old := y) (by simp) (by simp [hp]) (by rw [hy]) (by rw [h1, hy])
    have e3 : setSlice (pre ++ [s.pot] ++ s.force ++ (z ++ r ++ rest)) (B + 1 + 3 * nat) (B + (1 + 3 * nat + 9)) s.vir =
        some (pre ++ [s.pot] ++ s.force ++ s.vir ++ (r ++ rest)) :=
      setSlice_at (a := pre ++ [s.pot] ++ s.force) (old := z) (by simp) (by simp [hp, h1]; omega) (by rw [hz]; omega) (by rw [h2, hz])
    simp only [e1, e2, e3, Option.bind_some]
    have := ih (fun s hs => hok s (by simp [hs])) (i + 1) (pre ++ flatR s) r rest (by
      rw [List.length_append, flatR_length ⟨h1, h2⟩, hp, Nat.add_mul, hB]; omega) hr
    rw [List.flatMap_cons]
    simp only [flatR, List.append_assoc] at this ⊢
    exact this

theorem packRes_eq {nat : Nat} {junk : F} {rs : List (Result F)} (hok : ∀ s ∈ rs, s.Ok nat) :
    packRes junk nat rs = some (rs.flatMap flatR) := by
  have := packResLoop_eq rs hok 0 [] (List.replicate (rs.length * (1 + 3 * nat + 9)) junk) [] (by simp) (by simp)
  simpa [packRes] using this

theorem getElem?_at {buf a rest : List F} {x : F} {i : Nat} (hb : buf = a ++ [x] ++ rest) (hi : i = a.length) :
    buf[i]? = some x := by subst hb hi; simp

theorem unpackRes_eq {nat : Nat} (rs : List (Result F)) (hok : ∀ r ∈ rs, r.Ok nat)
    (hlen : ∀ r ∈ rs, (utf8 r.extra).length < 2 ^ 31) : ∀ (done : List (Result F)), (∀ r ∈ done, r.Ok nat) →
    ∀ (numeric : List F) (ebuf : List UInt8), numeric = (done ++ rs).flatMap flatR → ebuf = packExtra (done ++ rs) →
    unpackRes nat numeric ebuf done.length (packExtra done).length rs.length = .ok rs := by
  induction rs with
  | nil => intro done _ numeric ebuf _ _; rfl
  | cons r rs ih =>
    intro done hdone numeric ebuf hn he
    have hr := hok r (by simp)
    have hbase : done.length * (1 + 3 * nat + 9) = (done.flatMap flatR).length :=
      (flatMap_length_const fun x hx => flatR_length (hdone x hx)).symm
    have hn' : numeric = done.flatMap flatR ++ flatR r ++ rs.flatMap flatR := by
      rw [hn, List.flatMap_append, List.flatMap_cons, List.append_assoc]
    have he' : ebuf = packExtra done ++ (encI32 (utf8 r.extra).length ++ utf8 r.extra) ++ packExtra rs := by
      rw [he]; simp [packExtra]
    have hu4 : slice ebuf (packExtra done).length ((packExtra done).length + 4) = encI32 (utf8 r.extra).length :=
      slice_at (a := packExtra done) (rest := utf8 r.extra ++ packExtra rs) (by rw [he']; simp) rfl (by rw [encI32_length])
    have hdec : (decI32 (encI32 ((utf8 r.extra).length : Nat))).toNat = (utf8 r.extra).length := by
      rw [decI32_encI32 _ (by omega) (by exact_mod_cast hlen r (by simp))]; simp
    have hux : slice ebuf ((packExtra done).length + 4) ((packExtra done).length + 4 + (utf8 r.extra).length) = utf8 r.extra :=
      slice_at (a := packExtra done ++ encI32 (utf8 r.extra).length) (rest := packExtra rs) (by rw [he']; simp)
        (by simp [encI32_length]) rfl
    have hstr : (if (utf8 r.extra).length = 0 then some "" else utf8? (utf8 r.extra)) = some r.extra := by
      split
      · rename_i h0
        have : utf8 r.extra = utf8 "" := by rw [List.eq_nil_of_length_eq_zero h0]; rfl
        have h2 := utf8?_utf8 r.extra
        rw [this, utf8?_utf8] at h2
        exact h2
      · exact utf8?_utf8 _
    show unpackRes nat numeric ebuf done.length (packExtra done).length (rs.length + 1) = _
    unfold unpackRes
    dsimp only
    generalize hB : done.length * (1 + 3 * nat + 9) = B at *
    have hp : numeric[B]? = some r.pot :=
      getElem?_at (a := done.flatMap flatR) (rest := r.force ++ r.vir ++ rs.flatMap flatR) (by rw [hn']; simp [flatR]) hbase
    have hf : slice numeric (B + 1) (B + 1 + 3 * nat) = r.force :=
      slice_at (a := done.flatMap flatR ++ [r.pot]) (rest := r.vir ++ rs.flatMap flatR) (by rw [hn']; simp [flatR])
        (by rw [List.length_append, ← hbase]; rfl) (by rw [hr.1])
    have hv : slice numeric (B + 1 + 3 * nat) (B + (1 + 3 * nat + 9)) = r.vir :=
      slice_at (a := done.flatMap flatR ++ [r.pot] ++ r.force) (rest := rs.flatMap flatR) (by rw [hn']; simp [flatR])
        (by rw [List.length_append, List.length_append, ← hbase, hr.1]; rfl) (by rw [hr.2]; omega)
    have hrest := ih (fun x hx => hok x (by simp [hx])) (fun x hx => hlen x (by simp [hx])) (done ++ [r])
      (fun x hx => by
        rcases List.mem_append.1 hx with h | h
        · exact hdone x h
        · simp at h; subst h; exact hr) numeric ebuf (by rw [hn]; simp) (by rw [he]; simp)
    have hl2 : (packExtra (done ++ [r])).length = (packExtra done).length + 4 + (utf8 r.extra).length := by
      simp [packExtra, encI32_length]; omega
    rw [hl2] at hrest
    simp only [List.length_append, List.length_singleton] at hrest
    simp only [hp, hf, hv, hu4, hdec, encI32_length, hux, hstr, hrest]
    simp

end Verif.Mpi
