/-
Model of force fields restricted to a subset of atoms: `ForceField.queue` (ipi/engine/forcefields.py:164-184), and the use of the
selection in `Driver.dispatch` / the consolidated receive (ipi/interfaces/sockets.py:535, 553-560, 605, 645-658).

Positions and forces are flat lists of coordinates, as in the code.
-/
namespace Verif.Active
variable {F : Type}

inductive Err where
  /-- "There are more active atoms than atoms!" or `self.active[0]` of an empty selection, raised in the caller of `queue` -/
  | rejected
  /-- numpy index out of range, raised later, in the thread that sends the positions -/
  | indexError
  /-- the driver returned the wrong number of forces -/
  | invalidSize
deriving DecidableEq

/-- The three coordinates of an atom (forcefields.py:172-174). -/
def coords (a : Int) : List Int := [3 * a, 3 * a + 1, 3 * a + 2]

/-- Coordinate indexes of a selection for a system with `n` coordinates (forcefields.py:168-182). -/
def activeIdx (active : List Int) (n : Nat) : Except Err (List Int) :=
  match active with
  | [] => .error .rejected
  | a :: _ =>
    let idx := if a = -1 then (List.range n).map (fun (i : Nat) => (i : Int)) else active.flatMap coords
    match idx.getLast? with
    | none => .error .rejected
    | some l => if idx.length > n ∨ l > (n : Int) - 1 then .error .rejected else .ok idx

/-- A force field: its selection as given in the input and the coordinate indexes once known (`self.iactive`). -/
structure FF where
  active : List Int
  iactive : Option (List Int) := none

/-- Effect of `queue` on the force field and the indexes stored with the request (forcefields.py:166-192). -/
def queue (ff : FF) (n : Nat) : Except Err (FF × List Int) :=
  match ff.iactive with
  | some idx => .ok (ff, idx)
  | none =>
    match activeIdx ff.active n with
    | .error e => .error e
    | .ok idx => .ok ({ ff with iactive := some idx }, idx)

/-- Position of an index in an array of length `n`, with python's negative indexes. -/
def resolve (n : Nat) (i : Int) : Option Nat :=
  if 0 ≤ i ∧ i < n then some i.toNat
  else if i < 0 ∧ -(n : Int) ≤ i then some (n + i).toNat
  else none

/-- `r["pos"][r["active"]]` -/
def gather (pos : List F) : List Int → Option (List F)
  | [] => some []
  | i :: is =>
    match resolve pos.length i with
    | none => none
    | some k =>
      match pos[k]?, gather pos is with
      | some x, some xs => some (x :: xs)
      | _, _ => none

/-- `z = np.zeros(n); z[idx] = vals` (elements assigned in order). -/
def scatter [Zero F] (n : Nat) (idx : List Int) (vals : List F) : List F :=
  (idx.zip vals).foldl (fun z x => match resolve n x.1 with
    | some k => z.set k x.2
    | none => z) (List.replicate n 0)

/-- Evaluation of a request by a driver with forces `drv` (sockets.py:535-560). -/
def evaluate [Zero F] (drv : List F → List F) (pos : List F) (idx : List Int) : Except Err (List F) :=
  match gather pos idx with
  | none => .error .indexError
  | some sent =>
    let f := drv sent
    if f.length ≠ sent.length then .error .invalidSize
    else if idx.length ≠ pos.length then .ok (scatter pos.length idx f)
    else .ok f

/-- `queue` followed by evaluation: what the caller gets for the forces. -/
def forces [Zero F] (ff : FF) (drv : List F → List F) (pos : List F) : Except Err (FF × List F) :=
  match queue ff pos.length with
  | .error e => .error e
  | .ok (ff', idx) => (evaluate drv pos idx).map fun f => (ff', f)

/-! ### lemmas -/

theorem resolve_nat {n i : Nat} (h : i < n) : resolve n (i : Int) = some i := by
  unfold resolve; rw [if_pos (by omega)]; simp

theorem gather_nat (pos : List F) (is : List Nat) (h : ∀ i ∈ is, i < pos.length) :
    ∃ xs, gather pos (is.map fun (i : Nat) => (i : Int)) = some xs ∧ xs.length = is.length ∧
      ∀ j (hj : j < is.length), xs[j]? = pos[is[j]]? := by
  induction is with
  | nil => exact ⟨[], rfl, rfl, fun j hj => absurd hj (by simp)⟩
  | cons i is ih =>
    obtain ⟨xs, h1, h2, h3⟩ := ih fun k hk => h k (by simp [hk])
    have hi := h i (by simp)
    refine ⟨pos[i] :: xs, ?_, by simp [h2], ?_⟩
    · simp only [List.map_cons, gather, resolve_nat hi, h1, List.getElem?_eq_getElem hi]
    · intro j hj
      cases j with
      | zero => simp [List.getElem?_eq_getElem hi]
      | succ j => simpa using h3 j (by simpa using hj)

theorem foldl_set_length (l : List (Int × F)) (n : Nat) : ∀ z : List F, (l.foldl (fun z x => match resolve n x.1 with
    | some k => z.set k x.2
    | none => z) z).length = z.length := by
  induction l with
  | nil => intro z; rfl
  | cons x l ih =>
    intro z
    rw [List.foldl_cons, ih]
    split <;> simp

theorem foldl_set_other (l : List (Nat × F)) (n : Nat) (hl : ∀ x ∈ l, x.1 < n) (k : Nat) (hk : k ∉ l.map (·.1)) : ∀ z : List F,
    ((l.map fun x => ((x.1 : Int), x.2)).foldl (fun z x => match resolve n x.1 with
      | some k => z.set k x.2
      | none => z) z)[k]? = z[k]? := by
  induction l with
  | nil => intro z; rfl
  | cons x l ih =>
    intro z
    simp only [List.map_cons, List.mem_cons, not_or] at hk
    rw [List.map_cons, List.foldl_cons, ih (fun y hy => hl y (by simp [hy])) hk.2]
    simp only [resolve_nat (hl x (by simp))]
    rw [List.getElem?_set_ne (fun e => hk.1 e.symm)]

theorem foldl_set_at (l : List (Nat × F)) (n : Nat) (hl : ∀ x ∈ l, x.1 < n) (hnd : (l.map (·.1)).Nodup) : ∀ z : List F, z.length = n →
    ∀ x ∈ l, ((l.map fun x => ((x.1 : Int), x.2)).foldl (fun z x => match resolve n x.1 with
      | some k => z.set k x.2
      | none => z) z)[x.1]? = some x.2 := by
  induction l with
  | nil => intro z _ x hx; cases hx
  | cons y l ih =>
    intro z hz x hx
    simp only [List.map_cons, List.nodup_cons] at hnd
    rw [List.map_cons, List.foldl_cons]
    simp only [resolve_nat (hl y (by simp))]
    rcases List.mem_cons.1 hx with rfl | hx
    · rw [foldl_set_other l n (fun y hy => hl y (by simp [hy])) x.1 hnd.1, List.getElem?_set_self]
      rw [hz]; exact hl x (by simp)
    · exact ih (fun y hy => hl y (by simp [hy])) hnd.2 _ (by simp [hz]) x hx

theorem scatter_spec [Zero F] (n : Nat) (is : List Nat) (hnd : is.Nodup) (hlt : ∀ i ∈ is, i < n) (vals : List F)
    (hlen : vals.length = is.length) :
    (scatter n (is.map fun (i : Nat) => (i : Int)) vals).length = n ∧
    (∀ j (hj : j < is.length), (scatter n (is.map fun (i : Nat) => (i : Int)) vals)[is[j]]? = vals[j]?) ∧
    (∀ k, k < n → k ∉ is → (scatter n (is.map fun (i : Nat) => (i : Int)) vals)[k]? = some 0) := by
  have e : (is.map fun (i : Nat) => (i : Int)).zip vals = (is.zip vals).map fun x => ((x.1 : Int), x.2) := by
    rw [List.zip_map_left]; rfl
  have hfst : (is.zip vals).map (·.1) = is := by
    rw [List.map_fst_zip]; omega
  have hl : ∀ x ∈ is.zip vals, x.1 < n := fun x hx => hlt _ (by rw [← hfst]; exact List.mem_map.2 ⟨x, hx, rfl⟩)
  refine ⟨?_, ?_, ?_⟩
  · unfold scatter; rw [foldl_set_length]; simp
  · intro j hj
    unfold scatter
    rw [e]
    have hj2 : j < vals.length := by omega
    have hmem : (is[j], vals[j]) ∈ is.zip vals := by
      rw [List.mem_iff_getElem]
      exact ⟨j, by simp; omega, by simp⟩
    rw [foldl_set_at (is.zip vals) n hl (by rw [hfst]; exact hnd) _ (by simp) _ hmem]
    simp [hj2]
  · intro k hk hnot
    unfold scatter
    rw [e, foldl_set_other (is.zip vals) n hl k (by rw [hfst]; exact hnot)]
    simp [hk]

/-- Coordinate indexes as natural numbers. -/
def coordsN (a : Nat) : List Nat := [3 * a, 3 * a + 1, 3 * a + 2]

theorem coords_nat (l : List Nat) : (l.map fun (a : Nat) => (a : Int)).flatMap coords = (l.flatMap coordsN).map fun (i : Nat) => (i : Int) := by
  induction l with
  | nil => rfl
  | cons a l ih => simp only [List.map_cons, List.flatMap_cons, List.map_append, ih]; simp [coords, coordsN]

theorem mem_coordsN {l : List Nat} {i : Nat} : i ∈ l.flatMap coordsN ↔ i / 3 ∈ l := by
  simp only [List.mem_flatMap, coordsN, List.mem_cons, List.not_mem_nil, or_false]
  constructor
  · rintro ⟨a, ha, h⟩
    have : i / 3 = a := by omega
    rw [this]; exact ha
  · intro h; exact ⟨i / 3, h, by omega⟩

theorem coordsN_nodup {l : List Nat} (h : l.Nodup) : (l.flatMap coordsN).Nodup := by
  induction l with
  | nil => simp
  | cons a l ih =>
    simp only [List.nodup_cons] at h
    rw [List.flatMap_cons, List.nodup_append]
    refine ⟨by simp [coordsN], ih h.2, ?_⟩
    intro x hx y hy e
    subst e
    have h1 := mem_coordsN.1 hy
    simp [coordsN] at hx
    have : x / 3 = a := by omega
    rw [this] at h1
    exact h.1 h1

theorem coordsN_length (l : List Nat) : (l.flatMap coordsN).length = 3 * l.length := by
  induction l with
  | nil => rfl
  | cons a l ih => rw [List.flatMap_cons, List.length_append, ih]; simp [coordsN]; omega

theorem coordsN_get (l : List Nat) : ∀ (k c : Nat) (hk : k < l.length) (hc : c < 3) (h : 3 * k + c < (l.flatMap coordsN).length),
    (l.flatMap coordsN)[3 * k + c] = 3 * l[k] + c := by
  induction l with
  | nil => intro k c hk; exact absurd hk (by simp)
  | cons a l ih =>
    intro k c hk hc h
    cases k with
    | zero =>
      have : c = 0 ∨ c = 1 ∨ c = 2 := by omega
      rcases this with rfl | rfl | rfl <;> simp [coordsN]
    | succ k =>
      have e : 3 * (k + 1) + c = (3 * k + c) + 3 := by omega
      have h' : 3 * k + c < (l.flatMap coordsN).length := by
        rw [coordsN_length] at h ⊢; simp at h; omega
      have := ih k c (by simpa using hk) hc h'
      simp only [List.flatMap_cons, List.getElem_cons_succ]
      rw [List.getElem_append_right (by simp [coordsN]; omega)]
      simp only [coordsN, List.length_cons, List.length_nil, e] at this ⊢
      simpa using this

theorem coordsN_last {l : List Nat} (h : l ≠ []) : ∃ a ∈ l, (l.flatMap coordsN).getLast? = some (3 * a + 2) := by
  induction l with
  | nil => exact absurd rfl h
  | cons a l ih =>
    by_cases hl : l = []
    · subst hl; exact ⟨a, by simp, by simp [coordsN]⟩
    · obtain ⟨b, hb, e⟩ := ih hl
      refine ⟨b, by simp [hb], ?_⟩
      rw [List.flatMap_cons, List.getLast?_append, e]; rfl

end Verif.Active
