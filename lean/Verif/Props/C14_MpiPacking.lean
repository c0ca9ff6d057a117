import Verif.Mpi.Lemmas
/-
C14: the buffers exchanged with MPI drivers decode to what was encoded.
-/
namespace Verif.Mpi
open Verif.Wire
variable {F : Type}

/-- Structures: for every batch of structures of one size, the driver decodes exactly the cells and positions sent, in
order, whatever was in the freshly allocated buffer. -/
theorem work_roundtrip (junk : F) (nat : Nat) (ss : List (Struct F)) (hne : ss ≠ [])
    (hsize : ∀ s ∈ ss, s.h.length = 9 ∧ s.ih.length = 9 ∧ s.pos.length = 3 * nat) :
    ∃ body, pack junk ss = some (nat, body) ∧ body.length = ss.length * (18 + 3 * nat) ∧
      unpackWork nat ss.length body = ss.map fun s => (s.h, s.pos) := by
  refine ⟨_, pack_eq hne hsize, flatMap_length_const fun s hs => flat_length (hsize s hs), ?_⟩
  apply List.ext_getElem
  · simp [unpackWork]
  · intro i h1 h2
    have hi : i < ss.length := by simpa using h2
    simp only [unpackWork, List.getElem_map, List.getElem_range]
    have hoff : i * (18 + 3 * nat) = ((ss.take i).flatMap flat).length := by
      rw [flatMap_length_const (k := 18 + 3 * nat) fun s hs => flat_length (hsize s (List.mem_of_mem_take hs)), List.length_take,
        Nat.min_eq_left (Nat.le_of_lt hi)]
    obtain ⟨k1, k2, k3⟩ := hsize ss[i] (List.getElem_mem hi)
    have hs := flatMap_split flat ss i hi
    generalize hB : i * (18 + 3 * nat) = B at *
    congr 1
    · exact slice_at (a := (ss.take i).flatMap flat) (rest := ss[i].ih ++ ss[i].pos ++ (ss.drop (i + 1)).flatMap flat)
        (by rw [hs]; simp [flat]) hoff (by rw [k1])
    · exact slice_at (a := (ss.take i).flatMap flat ++ ss[i].h ++ ss[i].ih) (rest := (ss.drop (i + 1)).flatMap flat)
        (by rw [hs]; simp [flat]) (by rw [List.length_append, List.length_append, ← hoff, k1, k2]) (by rw [k3]; omega)

/-- Results: potentials, forces, virials and extra strings (any unicode text) come back unchanged and in order. -/
theorem result_roundtrip (junk : F) (nat : Nat) (rs : List (Result F))
    (hsize : ∀ r ∈ rs, r.force.length = 3 * nat ∧ r.vir.length = 9) (hlen : ∀ r ∈ rs, (utf8 r.extra).length < 2 ^ 31) :
    ∃ numeric, packRes junk nat rs = some numeric ∧ numeric.length = rs.length * (1 + 3 * nat + 9) ∧
      unpackRes nat numeric (packExtra rs) 0 0 rs.length = .ok rs :=
  ⟨_, packRes_eq hsize, flatMap_length_const fun r hr => flatR_length (hsize r hr),
    unpackRes_eq rs hsize hlen [] (by simp) _ _ (by simp) (by simp)⟩

/-- Structures of different size in one batch cannot be packed: numpy raises in the middle of `_dispatch` (see C16 for what
this does to the pool). -/
theorem mixed_sizes_fail (junk : F) (s t : Struct F) (n m : Nat) (hs : s.Ok n) (ht : t.Ok m) (hnm : n ≠ m) :
    pack junk [s, t] = none := by
  have hn : s.pos.length / 3 = n := by rw [hs.2.2]; omega
  simp only [pack, hn, Option.map_eq_none_iff]
  obtain ⟨x, y, z, r, e, hx, hy, hz⟩ := split3 (List.replicate ([s, t].length * (18 + 3 * n)) junk) 9 9 (3 * n) (by simp; omega)
  have hr : r.length = 18 + 3 * n := by
    have := congrArg List.length e
    simp [hx, hy, hz] at this; omega
  obtain ⟨h1, h2, h3⟩ := hs
  obtain ⟨k1, k2, k3⟩ := ht
  obtain ⟨x', y', z', r', e', hx', hy', hz'⟩ := split3 r 9 9 (3 * n) (by omega)
  have hr' : r' = [] := by
    have := congrArg List.length e'
    rw [hr] at this; simp [hx', hy', hz'] at this
    exact List.eq_nil_of_length_eq_zero (by omega)
  subst hr'
  rw [e, e']
  unfold packLoop
  dsimp only
  rw [setSlice_at (a := []) (old := x) (rest := y ++ z ++ (x' ++ y' ++ z')) (by simp) (by simp) (by simp [hx]) (by rw [h1, hx]), Option.bind_some,
    setSlice_at (a := s.h) (old := y) (rest := z ++ (x' ++ y' ++ z')) (by simp) (by simp [h1]) (by simp [hy]) (by rw [h2, hy]), Option.bind_some,
    setSlice_at (a := s.h ++ s.ih) (old := z) (rest := x' ++ y' ++ z') (by simp) (by simp [h1, h2]) (by simp [hz]) (by rw [h3, hz]), Option.bind_some]
  unfold packLoop
  dsimp only
  rw [setSlice_at (a := s.h ++ s.ih ++ s.pos) (old := x') (rest := y' ++ z') (by simp) (by simp [h1, h2, h3]; omega) (by simp [hx']) (by rw [k1, hx']), Option.bind_some,
    setSlice_at (a := s.h ++ s.ih ++ s.pos ++ t.h) (old := y') (rest := z') (by simp) (by simp [h1, h2, h3, k1]; omega) (by simp [hy']) (by rw [k2, hy']), Option.bind_some]
  have : setSlice (s.h ++ s.ih ++ s.pos ++ t.h ++ t.ih ++ z') (((0 + 1) * (18 + 3 * n)) + 18) (((0 + 1) * (18 + 3 * n)) + 18 + 3 * n) t.pos = none := by
    unfold setSlice
    rw [if_neg]
    simp [h1, h2, h3, k1, k2, hz', k3]
    omega
  rw [this]; rfl

/-- Non-vacuity: two structures of one atom, results with a non-ASCII extra string. -/
example : (pack 0 [⟨[1,2,3,4,5,6,7,8,9], [11,12,13,14,15,16,17,18,19], [21,22,23]⟩,
    ⟨[31,32,33,34,35,36,37,38,39], [41,42,43,44,45,46,47,48,49], [51,52,53]⟩]).map (fun x => unpackWork x.1 2 x.2) =
    some [([1,2,3,4,5,6,7,8,9], [21,22,23]), ([31,32,33,34,35,36,37,38,39], [51,52,53])] := by decide
example : ∃ rs : List (Result Nat), rs.length = 2 ∧ (∀ r ∈ rs, r.force.length = 3 * 1 ∧ r.vir.length = 9) ∧
    (∀ r ∈ rs, (utf8 r.extra).length < 2 ^ 31) :=
  ⟨[⟨1, [1,2,3], [1,2,3,4,5,6,7,8,9], "é"⟩, ⟨2, [4,5,6], [1,2,3,4,5,6,7,8,9], ""⟩], rfl, by simp, by decide +kernel⟩

end Verif.Mpi
