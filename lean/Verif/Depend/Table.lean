import Verif.Depend.Refine
/-
Dependency tables: a network given by a finite list of rows, with the evaluation functions left arbitrary.
-/
namespace Verif.Depend

/-- What a row says about an object: its kind (a computed object reads the listed objects in this order through their
getters, on every evaluation), as in `Kind`. -/
inductive RowKind where
  | leaf
  | computed (reads : List Nat)
  | peer (g : Nat)
deriving DecidableEq, Repr

/-- A row of a table: name (for the reader only), kind, declared dependencies. -/
structure Row where
  name : String
  kind : RowKind
  deps : List Nat := []
deriving DecidableEq, Repr

abbrev Table := List Row

variable {V : Type}

/-- Reads `rs` in order, then applies `f` to the values read. -/
def readAll (f : List V → V) : List Nat → List V → Prog V
  | [], acc => .ret (f acc.reverse)
  | r :: rs, acc => .read r (fun v => readAll f rs (v :: acc))

def Table.row (t : Table) (i : Nat) : Row := t.getD i ⟨"", .leaf, []⟩

/-- The network of a table, for evaluation functions `F i` and conversions `C i`. -/
def Table.net (t : Table) (F : Nat → List V → V) (C : Nat → Nat → V → V) : Net V where
  size := t.length
  kind := fun i => match (t.row i).kind with
    | .leaf => .leaf
    | .computed rs => .computed (readAll (F i) rs [])
    | .peer g => .peer g (C i)
  deps := fun i => (t.row i).deps

def Table.reads (t : Table) (i : Nat) : List Nat := match (t.row i).kind with | .computed rs => rs | _ => []
def Table.isComputed (t : Table) (i : Nat) : Bool := match (t.row i).kind with | .computed _ => true | _ => false

/-- `x` is declared, directly or indirectly (search depth `n`), by `j`. -/
def Table.reach (t : Table) : Nat → Nat → Nat → Bool
  | 0, _, _ => false
  | n + 1, x, j => (t.row j).deps.any (fun d => d == x || t.reach n x d)

/-- `d` is read, directly or indirectly, by `i`. -/
def Table.forces (t : Table) : Nat → Nat → Nat → Bool
  | 0, _, _ => false
  | n + 1, i, d => (t.reads i).any (fun r => r == d || t.forces n r d)

/-- `i` is declared to descend from `r`, or from everything `r` is declared to descend from. -/
def Table.cov (t : Table) : Nat → Nat → Nat → Bool
  | 0, _, _ => false
  | n + 1, r, i => t.reach (n + 1) r i || (t.isComputed r && (t.row r).deps.all (fun d => t.cov n d i))

/-- Checks the shape of a table. -/
def Table.wf (t : Table) : Bool :=
  (List.range t.length).all fun i =>
    (t.row i).deps.all (fun d => decide (d < i)) && (t.reads i).all (fun d => decide (d < i)) &&
    (t.isComputed i || (t.row i).deps.isEmpty)

/-- Checks that declarations cover reads. -/
def Table.covered (t : Table) : Bool :=
  (List.range t.length).all fun i => !t.isComputed i ||
    ((t.row i).deps.all (fun d => decide ((t.row d).kind = .leaf) || t.forces t.length i d) &&
      (t.reads i).all (fun r => t.cov t.length r i))

/-! ### Soundness of the checks -/

theorem readAll_may {f : List V → V} {rs : List Nat} {acc : List V} {j : Nat} (h : (readAll f rs acc).MayRead j) :
    j ∈ rs := by
  induction rs generalizing acc with
  | nil => cases h
  | cons r rs ih =>
    simp only [readAll] at h
    cases h with
    | here => simp
    | there _ _ _ _ h => exact List.mem_cons_of_mem _ (ih h)

theorem readAll_must {f : List V → V} {rs : List Nat} {acc : List V} {j : Nat} (h : j ∈ rs) :
    (readAll f rs acc).MustRead j := by
  induction rs generalizing acc with
  | nil => cases h
  | cons r rs ih =>
    simp only [readAll]
    rcases List.mem_cons.1 h with rfl | h
    · exact .here _ _
    · exact .there _ _ _ (fun v => ih h)

variable {t : Table} {F : Nat → List V → V} {C : Nat → Nat → V → V}

theorem Table.net_computed {i : Nat} {p : Prog V} (h : (t.net F C).kind i = .computed p) :
    ∃ rs, (t.row i).kind = .computed rs ∧ p = readAll (F i) rs [] ∧ t.reads i = rs ∧ t.isComputed i = true := by
  simp only [Table.net] at h
  cases hk : (t.row i).kind with
  | leaf => simp [hk] at h
  | peer g => simp [hk] at h
  | computed rs =>
    simp [hk] at h
    exact ⟨rs, rfl, h.symm, by simp [Table.reads, hk], by simp [Table.isComputed, hk]⟩

theorem Table.isComputed_iff {i : Nat} : t.isComputed i = true ↔ (t.net F C).IsComputed i := by
  constructor
  · intro h
    cases hk : (t.row i).kind with
    | leaf => simp [Table.isComputed, hk] at h
    | peer g => simp [Table.isComputed, hk] at h
    | computed rs => exact ⟨readAll (F i) rs [], by simp [Table.net, hk]⟩
  · rintro ⟨p, hp⟩
    exact (Table.net_computed hp).choose_spec.2.2.2

theorem Table.wf_sound (h : t.wf = true) : (t.net F C).WF := by
  have hrow : ∀ i, i < t.length → (∀ d ∈ (t.row i).deps, d < i) ∧ (∀ d ∈ t.reads i, d < i) ∧
      (t.isComputed i = true ∨ (t.row i).deps = []) := by
    intro i hi
    have := List.all_eq_true.1 h i (List.mem_range.2 hi)
    simpa [List.all_eq_true, and_assoc] using this
  refine ⟨fun i hi d hd => (hrow i hi).1 d hd, ?_, ?_⟩
  · intro i hi hn
    rcases (hrow i hi).2.2 with h1 | h1
    · obtain ⟨p, hp⟩ := (Table.isComputed_iff (F := F) (C := C)).1 h1
      exact absurd hp (hn p)
    · exact h1
  · intro i hi p hp j hj
    obtain ⟨rs, _, rfl, hr, _⟩ := Table.net_computed hp
    exact (hrow i hi).2.1 j (hr ▸ readAll_may hj)

theorem Net.Reach.trans {net : Net V} {a b c : Nat} (h : net.Reach a b) (h' : net.Reach b c) : net.Reach a c := by
  induction h' with
  | direct j hj hb => exact .step b j h hj hb
  | step k j _ hj hk ih => exact .step k j ih hj hk

theorem Table.row_deps_nil {i : Nat} (h : t.length ≤ i) : (t.row i).deps = [] := by
  simp [Table.row, List.getD, List.getElem?_eq_none h]

theorem Table.reach_sound {n x j : Nat} (h : t.reach n x j = true) : (t.net F C).Reach x j := by
  induction n generalizing j with
  | zero => simp [Table.reach] at h
  | succ n ih =>
    simp only [Table.reach, List.any_eq_true, Bool.or_eq_true, beq_iff_eq] at h
    obtain ⟨d, hd, h⟩ := h
    have hj : j < (t.net F C).size := by
      by_cases hj : j < t.length
      · exact hj
      · simp [Table.row_deps_nil (Nat.le_of_not_lt hj)] at hd
    rcases h with rfl | h
    · exact .direct j hj hd
    · exact .step d j (ih h) hj hd

theorem Table.forces_sound {n i d : Nat} (h : t.forces n i d = true) : (t.net F C).Forces i d := by
  induction n generalizing i with
  | zero => simp [Table.forces] at h
  | succ n ih =>
    simp only [Table.forces, List.any_eq_true, Bool.or_eq_true, beq_iff_eq] at h
    obtain ⟨r, hr, h⟩ := h
    cases hk : (t.row i).kind with
    | leaf => simp [Table.reads, hk] at hr
    | peer g => simp [Table.reads, hk] at hr
    | computed rs =>
      have hkind : (t.net F C).kind i = .computed (readAll (F i) rs []) := by simp [Table.net, hk]
      have hrs : r ∈ rs := by simpa [Table.reads, hk] using hr
      rcases h with rfl | h
      · exact .direct i _ _ hkind (readAll_must hrs)
      · exact .step i _ r d hkind (readAll_must hrs) (ih h)

theorem Table.cov_sound {n r i : Nat} (h : t.cov n r i = true) {b : Nat}
    (hb : ∀ q, (t.net F C).kind b ≠ .computed q) (hbr : b = r ∨ (t.net F C).Reach b r) : (t.net F C).Reach b i := by
  induction n generalizing r with
  | zero => simp [Table.cov] at h
  | succ n ih =>
    simp only [Table.cov, Bool.or_eq_true, Bool.and_eq_true, List.all_eq_true] at h
    rcases h with h | ⟨hc, h⟩
    · have hr := Table.reach_sound (F := F) (C := C) h
      rcases hbr with rfl | hbr
      · exact hr
      · exact hbr.trans hr
    · rcases hbr with rfl | hbr
      · obtain ⟨p, hp⟩ := (Table.isComputed_iff (F := F) (C := C)).1 hc
        exact absurd hp (hb p)
      · cases hbr with
        | direct _ _ hd => exact ih (h b hd) (.inl rfl)
        | step k _ hk _ hd => exact ih (h k hd) (.inr hk)

theorem Table.covered_sound (hw : t.wf = true) (h : t.covered = true) : (t.net F C).Covered := by
  have wf := Table.wf_sound (F := F) (C := C) hw
  have hrow : ∀ i, i < t.length → t.isComputed i = true →
      (∀ d ∈ (t.row i).deps, (t.row d).kind = .leaf ∨ t.forces t.length i d = true) ∧
      (∀ r ∈ t.reads i, t.cov t.length r i = true) := by
    intro i hi hc
    have := List.all_eq_true.1 h i (List.mem_range.2 hi)
    simpa [List.all_eq_true, hc] using this
  refine ⟨?_, ?_⟩
  · intro i hi d hd hl
    have hc : t.isComputed i = true := by
      cases hci : t.isComputed i with
      | true => rfl
      | false =>
        have := wf.base_deps i hi (fun p hp => by
          have := (Table.isComputed_iff (F := F) (C := C)).2 ⟨p, hp⟩; simp [hci] at this)
        simp [this] at hd
    rcases (hrow i hi hc).1 d hd with h1 | h1
    · exact absurd (by simp [Table.net, h1]) hl
    · exact Table.forces_sound h1
  · intro i hi p hp r hr b hb hbr
    obtain ⟨rs, _, rfl, h1, h2⟩ := Table.net_computed hp
    exact Table.cov_sound ((hrow i hi h2).2 r (h1 ▸ readAll_may hr)) hb hbr

end Verif.Depend
