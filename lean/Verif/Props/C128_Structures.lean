import Mathlib.Algebra.Module.Basic
import Mathlib.Data.List.Forall2
import Mathlib.Tactic.FieldSimp
import Mathlib.Tactic.Ring
import Verif.Run.Structures
import Verif.Props.C43_Constraints
/-! C128: structures and momenta exchanged with a script. -/
namespace Verif.Script
variable {V : Type} [AddCommGroup V] [Module ℝ V]

/-! ## Specification -/

/-- The documented shape of structures: a list over systems of lists over beads, where lists with one element are replaced by it. -/
def nest1 : List (Py V) → Py V
  | [a] => a
  | l => .list l

def nest (ls : List (List (Atoms V))) : Py V := nest1 (ls.map fun l => nest1 (l.map .atoms))

/-- A system has as many momenta as positions, and at least one bead. -/
def Sys.Good (s : Sys V) : Prop := s.q.length = s.p.length ∧ s.q ≠ []

/-- The same number of beads. -/
def SameShape (s t : Sys V) : Prop := s.q.length = t.q.length

/-! ## Shapes -/

omit [AddCommGroup V] [Module ℝ V] in
theorem nest1_of_ne {l : List (Py V)} (h : l.length ≠ 1) : nest1 l = .list l := by
  match l, h with
  | [], _ => rfl
  | [a], h => exact absurd rfl h
  | a :: b :: l, _ => rfl

omit [AddCommGroup V] [Module ℝ V] in
theorem nest1_of_eq {l : List (Py V)} (h : l.length = 1) : [nest1 l] = l := by
  match l, h with
  | [a], _ => rfl

/-- The structures of a system, in the units of ASE. -/
noncomputable def frames (u : Factors) (s : Sys V) : List (Atoms V) := List.zipWith (toAtoms u s.h) s.q s.p

/-- **C128.** Structures come in the documented shape. -/
theorem get_nested (u : Factors) (ss : List (Sys V)) : getStructures u ss = nest (ss.map (frames u)) := by
  have h1 : ∀ s : Sys V, getSys u s = nest1 ((frames u s).map .atoms) := by
    intro s
    unfold getSys frames
    match List.zipWith (toAtoms u s.h) s.q s.p with
    | [] => rfl
    | [a] => rfl
    | a :: b :: l => rfl
  unfold getStructures nest
  rw [List.map_map, show (fun l => nest1 (l.map Py.atoms)) ∘ frames u = getSys u from funext fun s => (h1 s).symm]
  match ss.map (getSys u) with
  | [] => rfl
  | [a] => rfl
  | a :: b :: l => rfl

/-! ## Setting -/

/-- The cell that stays: that of the last structure. -/
noncomputable def lastCell (u : Factors) (h : Matrix (Fin 3) (Fin 3) ℝ) : List (Atoms V) → Matrix (Fin 3) (Fin 3) ℝ
  | [] => h
  | a :: l => lastCell u (u.len • a.cell.transpose) l

theorem setBeads_frames (u : Factors) (fs : List (Atoms V)) : ∀ (ms A B C D : List V) (h : Matrix (Fin 3) (Fin 3) ℝ),
    fs.map Atoms.mom = ms.map some → fs.length = B.length → A.length = C.length → B.length = D.length →
    setBeads u ⟨A ++ B, C ++ D, h⟩ A.length (fs.map .atoms) =
      (⟨A ++ fs.map (fun a => u.len • a.pos), C ++ ms.map (fun m => u.mom • m), lastCell u h fs⟩, none) := by
  induction fs with
  | nil =>
    intro ms A B C D h hm hB hAC hBD
    have h1 : ms = [] := by simpa using hm.symm
    have h2 : B = [] := List.length_eq_zero_iff.1 hB.symm
    subst h1 h2
    have h3 : D = [] := List.length_eq_zero_iff.1 hBD.symm
    subst h3
    rfl
  | cons a fs ih =>
    intro ms A B C D h hm hB hAC hBD
    match ms, B, D, hm, hB, hBD with
    | [], _, _, hm, _, _ => simp at hm
    | m :: ms, b :: B, d :: D, hm, hB, hBD =>
      simp only [List.map_cons, List.cons.injEq] at hm
      rw [List.map_cons]
      simp only [setBeads]
      rw [if_pos (by simp)]
      have e1 : (A ++ b :: B).set A.length (u.len • a.pos) = (A ++ [u.len • a.pos]) ++ B := by
        rw [List.set_append_right _ _ (Nat.le_refl _), Nat.sub_self]; simp
      have e2 : (C ++ d :: D).set A.length (u.mom • m) = (C ++ [u.mom • m]) ++ D := by
        rw [hAC, List.set_append_right _ _ (Nat.le_refl _), Nat.sub_self]; simp
      rw [e1, hm.1]
      dsimp only
      rw [e2]
      have := ih ms (A ++ [u.len • a.pos]) B (C ++ [u.mom • m]) D (u.len • a.cell.transpose) hm.2 (by simpa using hB)
        (by simp [hAC]) (by simpa using hBD)
      rw [List.length_append] at this
      simp only [List.length_cons, List.length_nil, Nat.zero_add] at this
      rw [this]
      simp [lastCell]

/-- What a system becomes. -/
noncomputable def newSys (u : Factors) (h : Matrix (Fin 3) (Fin 3) ℝ) (fs : List (Atoms V)) (ms : List V) : Sys V :=
  ⟨fs.map (fun a => u.len • a.pos), ms.map (fun m => u.mom • m), lastCell u h fs⟩

theorem setSys_frames (u : Factors) (s : Sys V) (hs : s.q.length = s.p.length) (fs : List (Atoms V)) (ms : List V)
    (hm : fs.map Atoms.mom = ms.map some) (hl : fs.length = s.q.length) :
    setSys u s (nest1 (fs.map .atoms)) = (newSys u s.h fs ms, none) := by
  have key := setBeads_frames u fs ms [] s.q [] s.p s.h hm hl rfl hs
  simp only [List.nil_append, List.length_nil] at key
  unfold setSys
  by_cases h : s.q.length = 1
  · rw [if_pos h, nest1_of_eq (by rw [List.length_map, hl, h])]
    exact key
  · rw [if_neg h, nest1_of_ne (by rw [List.length_map, hl]; exact h)]
    exact key

/-- Structures with momenta `ms` for one system, of the right number. -/
def Fits (s : Sys V) (x : List (Atoms V) × List V) : Prop :=
  x.1.map Atoms.mom = x.2.map some ∧ x.1.length = s.q.length ∧ s.q.length = s.p.length

theorem setAll_frames (u : Factors) : ∀ (ss : List (Sys V)) (xs : List (List (Atoms V) × List V)), List.Forall₂ Fits ss xs →
    setAll u ss (xs.map fun x => nest1 (x.1.map .atoms)) = (List.zipWith (fun s x => newSys u s.h x.1 x.2) ss xs, none) := by
  intro ss xs h
  induction h with
  | nil => rfl
  | @cons s x ss xs hx _ ih =>
    rw [List.map_cons]
    simp only [setAll]
    rw [setSys_frames u s hx.2.2 x.1 x.2 hx.1 hx.2.1, ih]
    rfl

/-- **C128.** Structures in the documented shape, of the right number and with momenta, are all taken over, without an error. -/
theorem set_nested (u : Factors) (ss : List (Sys V)) (xs : List (List (Atoms V) × List V)) (h : List.Forall₂ Fits ss xs) :
    setStructures u ss (nest (xs.map Prod.fst)) = (List.zipWith (fun s x => newSys u s.h x.1 x.2) ss xs, none) := by
  have hl : ss.length = xs.length := h.length_eq
  unfold setStructures nest
  rw [List.map_map]
  by_cases h1 : ss.length = 1
  · rw [if_pos h1, nest1_of_eq (by rw [List.length_map, ← hl, h1])]
    exact setAll_frames u ss xs h
  · rw [if_neg h1, nest1_of_ne (by rw [List.length_map, ← hl]; exact h1)]
    exact setAll_frames u ss xs h

theorem zipWith_left {α β γ : Type} (f : α → β → γ) (g : γ → α) (hg : ∀ a b, g (f a b) = a) :
    ∀ (l : List α) (m : List β), l.length = m.length → (List.zipWith f l m).map g = l := by
  intro l
  induction l with
  | nil => intro m _; rfl
  | cons a l ih =>
    intro m h
    match m, h with
    | b :: m, h => simp only [List.zipWith_cons_cons, List.map_cons, hg]; rw [ih m (by simpa using h)]

theorem zipWith_right {α β γ δ : Type} (f : α → β → γ) (g : γ → δ) (k : β → δ) (hg : ∀ a b, g (f a b) = k b) :
    ∀ (l : List α) (m : List β), l.length = m.length → (List.zipWith f l m).map g = m.map k := by
  intro l
  induction l with
  | nil => intro m h; rw [List.length_nil] at h; rw [List.length_eq_zero_iff.1 h.symm]; rfl
  | cons a l ih =>
    intro m h
    match m, h with
    | b :: m, h => simp only [List.zipWith_cons_cons, List.map_cons, hg]; rw [ih m (by simpa using h)]

theorem lastCell_same (u : Factors) (c : Matrix (Fin 3) (Fin 3) ℝ) : ∀ (fs : List (Atoms V)) (h : Matrix (Fin 3) (Fin 3) ℝ), fs ≠ [] →
    (∀ a ∈ fs, a.cell = c) → lastCell u h fs = u.len • c.transpose := by
  intro fs
  induction fs with
  | nil => intro h hne; exact absurd rfl hne
  | cons a fs ih =>
    intro h _ hc
    rw [lastCell]
    by_cases hf : fs = []
    · subst hf; rw [lastCell, hc a List.mem_cons_self]
    · exact ih _ hf (fun b hb => hc b (List.mem_cons_of_mem _ hb))

theorem newSys_frames (u : Factors) (hl : u.len ≠ 0) (hm : u.mom ≠ 0) (s : Sys V) (hs : s.Good) (h : Matrix (Fin 3) (Fin 3) ℝ) :
    newSys u h (frames u s) (s.p.map fun p => (1 / u.mom) • p) = s := by
  have hcell : ∀ a ∈ frames u s, a.cell = (1 / u.len) • s.h.transpose := by
    intro a ha
    unfold frames at ha
    obtain ⟨i, hi, rfl⟩ := List.mem_iff_getElem.1 ha
    rw [List.getElem_zipWith]
    rfl
  have hne : frames u s ≠ [] := by
    intro h0
    have := congrArg List.length h0
    rw [frames, List.length_zipWith, ← hs.1, Nat.min_self] at this
    exact hs.2 (List.length_eq_zero_iff.1 this)
  unfold newSys
  ext1
  · dsimp only
    unfold frames
    exact zipWith_left _ _ (fun a b => by simp only [toAtoms, smul_smul, mul_one_div, div_self hl, one_smul]) _ _ hs.1
  · dsimp only
    rw [List.map_map]
    refine (List.map_congr_left fun p _ => ?_).trans (List.map_id _)
    simp only [Function.comp, smul_smul, mul_one_div, div_self hm, one_smul, id]
  · dsimp only
    rw [lastCell_same u _ _ _ hne hcell, Matrix.transpose_smul, Matrix.transpose_transpose, smul_smul, mul_one_div, div_self hl, one_smul]

theorem frames_mom (u : Factors) (s : Sys V) (hs : s.q.length = s.p.length) :
    (frames u s).map Atoms.mom = (s.p.map fun p => (1 / u.mom) • p).map some := by
  rw [List.map_map]
  unfold frames
  exact zipWith_right (toAtoms u s.h) Atoms.mom (some ∘ fun p => (1 / u.mom) • p) (fun a b => rfl) _ _ hs

/-- **C128.** Structures taken from one simulation and given to another one of the same shape, or to the same one later, set its positions, momenta and
cells to those of the first, for any number of systems and beads. -/
theorem set_get (u : Factors) (hl : u.len ≠ 0) (hm : u.mom ≠ 0) (ss ts : List (Sys V)) (h : List.Forall₂ SameShape ss ts)
    (hs : ∀ s ∈ ss, s.Good) (ht : ∀ t ∈ ts, t.Good) : setStructures u ts (getStructures u ss) = (ss, none) := by
  have hF : List.Forall₂ Fits ts (ss.map fun s => (frames u s, s.p.map fun p => (1 / u.mom) • p)) := by
    induction h with
    | nil => exact .nil
    | @cons s t ss ts hst _ ih =>
      have g := hs s List.mem_cons_self
      refine .cons ⟨frames_mom u s g.1, ?_, (ht t List.mem_cons_self).1⟩
        (ih (fun x hx => hs x (List.mem_cons_of_mem _ hx)) (fun x hx => ht x (List.mem_cons_of_mem _ hx)))
      show (List.zipWith (toAtoms u s.h) s.q s.p).length = _
      rw [List.length_zipWith, ← g.1, Nat.min_self]
      exact hst
  have key := set_nested u ts _ hF
  rw [get_nested]
  rw [List.map_map] at key
  refine key.trans ?_
  clear key hF
  congr 1
  induction h with
  | nil => rfl
  | @cons s t ss ts hst _ ih =>
    rw [List.map_cons, List.zipWith_cons_cons, newSys_frames u hl hm s (hs s List.mem_cons_self)]
    congr 1
    exact ih (fun x hx => hs x (List.mem_cons_of_mem _ hx)) (fun x hx => ht x (List.mem_cons_of_mem _ hx))

/-- **C128.** Structures given to a simulation are those one gets from it, if all the beads of a system have the same cell. -/
theorem get_set_partial (u : Factors) (hl : u.len ≠ 0) (hm : u.mom ≠ 0) (ss : List (Sys V)) (xs : List (List (Atoms V) × List V))
    (h : List.Forall₂ Fits ss xs) (hc : ∀ x ∈ xs, ∀ a ∈ x.1, ∀ b ∈ x.1, a.cell = b.cell) :
    getStructures u (setStructures u ss (nest (xs.map Prod.fst))).1 = nest (xs.map Prod.fst) := by
  rw [set_nested u ss xs h, get_nested]
  congr 1
  dsimp only
  induction h with
  | nil => rfl
  | @cons s x ss xs hx _ ih =>
    rw [List.zipWith_cons_cons, List.map_cons, List.map_cons, ih (fun y hy => hc y (List.mem_cons_of_mem _ hy))]
    congr 1
    have hcx := hc x List.mem_cons_self
    obtain ⟨fs, ms⟩ := x
    dsimp only at hcx ⊢
    have hmom : fs.map Atoms.mom = ms.map some := hx.1
    unfold frames newSys
    dsimp only
    have hcell : ∀ a ∈ fs, (1 / u.len) • (lastCell u s.h fs).transpose = a.cell := by
      intro a ha
      rw [lastCell_same u a.cell fs _ (List.ne_nil_of_mem ha) (fun b hb => hcx b hb a ha), Matrix.transpose_smul,
        Matrix.transpose_transpose, smul_smul, one_div_mul_cancel hl, one_smul]
    generalize lastCell u s.h fs = H at hcell
    clear hx hcx hc ih
    induction fs generalizing ms with
    | nil => rfl
    | cons a fs ih =>
      match ms, hmom with
      | [], hmom => simp at hmom
      | m :: ms, hmom =>
        simp only [List.map_cons, List.cons.injEq] at hmom
        rw [List.map_cons, List.map_cons, List.zipWith_cons_cons, ih ms hmom.2 (fun b hb => hcell b (List.mem_cons_of_mem _ hb))]
        congr 1
        unfold toAtoms
        rw [hcell a List.mem_cons_self, smul_smul, smul_smul, one_div_mul_cancel hl, one_div_mul_cancel hm, one_smul, one_smul, ← hmom.1]

/-- **C128.** Structures without momenta leave the momenta as they are. -/
theorem set_keeps_momenta (u : Factors) (fs : List (Atoms V)) (hn : ∀ a ∈ fs, a.mom = none) : ∀ (s : Sys V) (b : ℕ),
    (setBeads u s b (fs.map .atoms)).1.p = s.p := by
  induction fs with
  | nil => intro s b; rfl
  | cons a fs ih =>
    intro s b
    rw [List.map_cons]
    simp only [setBeads]
    split
    · rw [ih (fun c hc => hn c (List.mem_cons_of_mem _ hc)), hn a List.mem_cons_self]
    · rfl

/-! ## What fails -/

/-- **C128 fails.** Beads with different cells: all of them get the cell of the last one, without an error. -/
theorem last_cell_wins (u : Factors) (hl : u.len ≠ 0) (p q r s : V) (c d : Matrix (Fin 3) (Fin 3) ℝ) (t : Sys V) (hq : t.q = [p, q])
    (hp : t.p = [r, s]) (x y v w : V) :
    let res := setStructures u [t] (.list [.atoms ⟨x, c, some v⟩, .atoms ⟨y, d, some w⟩])
    res.2 = none ∧ ∃ a b, getStructures u res.1 = .list [.atoms a, .atoms b] ∧ a.cell = d ∧ b.cell = d := by
  have hF : List.Forall₂ Fits [t] [([⟨x, c, some v⟩, ⟨y, d, some w⟩], [v, w])] :=
    .cons ⟨rfl, by rw [hq]; rfl, by rw [hq, hp]; rfl⟩ .nil
  have key : setStructures u [t] (.list [.atoms ⟨x, c, some v⟩, .atoms ⟨y, d, some w⟩]) = _ := set_nested u [t] _ hF
  rw [key]
  refine ⟨rfl, _, _, rfl, ?_, ?_⟩ <;>
  · show (1 / u.len) • (u.len • d.transpose).transpose = d
    rw [Matrix.transpose_smul, Matrix.transpose_transpose, smul_smul, one_div_mul_cancel hl, one_smul]

/-- **C128 fails.** Too few structures: the remaining systems keep theirs, without an error. -/
theorem missing_system_silent (u : Factors) (s t : Sys V) (ss : List (Sys V)) (v : Py V) (h : (setSys u s v).2 = none) :
    setStructures u (s :: t :: ss) (.list [v]) = ((setSys u s v).1 :: t :: ss, none) := by
  unfold setStructures
  rw [if_neg (by simp)]
  simp only [setAll]
  match hx : setSys u s v, h with
  | (s', none), _ => rfl

/-- **C128 fails.** Too few beads: the remaining beads keep theirs, without an error. -/
theorem missing_bead_silent (u : Factors) (a : Atoms V) (m x y p r : V) (h : Matrix (Fin 3) (Fin 3) ℝ) (ha : a.mom = some m) :
    setStructures u [⟨[x, y], [p, r], h⟩] (.list [.atoms a]) =
      ([⟨[u.len • a.pos, y], [u.mom • m, r], u.len • a.cell.transpose⟩], none) := by
  obtain ⟨pos, cell, mom⟩ := a
  subst ha
  rfl

/-- **C128.** Too many beads raise an error, after the simulation has been changed. -/
theorem extra_bead_error (u : Factors) (a b c : Atoms V) (ma mb x y p r : V) (h : Matrix (Fin 3) (Fin 3) ℝ) (ha : a.mom = some ma)
    (hb : b.mom = some mb) :
    setStructures u [⟨[x, y], [p, r], h⟩] (.list [.atoms a, .atoms b, .atoms c]) =
      ([⟨[u.len • a.pos, u.len • b.pos], [u.mom • ma, u.mom • mb], u.len • b.cell.transpose⟩], some .index) := by
  obtain ⟨pos, cell, mom⟩ := a
  obtain ⟨pos', cell', mom'⟩ := b
  subst ha hb
  rfl

/-- **C128.** One structure for several systems raises an error and changes nothing. -/
theorem one_for_several (u : Factors) (ss : List (Sys V)) (a : Atoms V) (h : ss.length ≠ 1) :
    setStructures u ss (.atoms a) = (ss, some .attribute) := by
  unfold setStructures
  rw [if_neg h]

/-! ## Momenta -/

open Verif.Pcon Finset
variable {n N : ℕ}

theorem fresh_nm (g : Par N) (T : ℝ) (ξ : Fin n → Fin N → Fin 3 → ℝ) :
    g.toNm (freshMomenta g T ξ) = fun k a d => ξ k a d * √(g.dynm3 k a) * √(n * T) := g.toNm_toBeads _

/-- **C128.** New momenta do not change the conserved quantity, whatever the random numbers, temperature and constraints (under the conditions of C43:
no fixed coordinate is listed twice, and no fixed coordinates together with open paths of other masses). -/
theorem thermalize_conserved_partial (g : Par N) (hg : g.Good) (hn : 0 < n) (hN : 0 < N) (dyn com : Bool) (dofs : List (Fin N × Fin 3))
    (hd : dofs.Nodup) (ho : dofs ≠ [] → ∀ a, g.op a = true → ∀ k, 0 < k → k < n → g.fo k = g.f k) (T : ℝ)
    (ξ : Fin n → Fin N → Fin 3 → ℝ) (s : St n N) : g.econs (thermalize g dyn com dofs T ξ s) = g.econs s := by
  have h : g.econs ({ p := freshMomenta g T ξ, eens := s.eens + g.kin s.p - g.kin (freshMomenta g T ξ) } : St n N) = g.econs s := by
    unfold Par.econs
    dsimp only
    ring
  unfold thermalize
  dsimp only
  cases dyn with
  | false => exact h
  | true =>
    simp only [if_true]
    rw [pconstraints_econs_partial g hg hn hN com dofs hd ho]
    exact h

/-- **C128.** The fixed coordinates get no momentum. -/
theorem thermalize_fixed (g : Par N) (com : Bool) (dofs : List (Fin N × Fin 3)) (T : ℝ) (ξ : Fin n → Fin N → Fin 3 → ℝ) (s : St n N)
    (b : Fin n) (a : Fin N) (d : Fin 3) (h : (a, d) ∈ dofs) : (thermalize g true com dofs T ξ s).p b a d = 0 := by
  unfold thermalize
  exact pconstraints_zero g com dofs _ b a d h

/-- **C128.** With a fixed centre of mass, the total momentum is zero. -/
theorem thermalize_com (g : Par N) (hg : g.Good) (hn : 0 < n) (hN : 0 < N) (T : ℝ) (ξ : Fin n → Fin N → Fin 3 → ℝ) (s : St n N)
    (d : Fin 3) : ∑ b, ∑ a, (thermalize g true true [] T ξ s).p b a d = 0 := by
  unfold thermalize
  dsimp only
  rw [if_pos rfl]
  unfold Par.pconstraints Par.fixatoms
  rw [if_pos rfl, if_pos rfl]
  exact com_zero g hg hn hN _ d

/-- **C128.** For closed paths the kinetic energy is that of the temperature times the number of beads: half of it for the square of every random
number, so equal on average for all modes, atoms and directions whatever their masses. -/
theorem thermalize_energy (g : Par N) (hg : g.Good) (ho : ∀ a, g.op a = false) (T : ℝ) (hT : 0 ≤ T)
    (ξ : Fin n → Fin N → Fin 3 → ℝ) (s : St n N) :
    g.kin (thermalize g false false [] T ξ s).p = (n * T) / 2 * ∑ k, ∑ a, ∑ d, ξ k a d ^ 2 := by
  show g.kin (freshMomenta g T ξ) = _
  unfold Par.kin
  rw [fresh_nm, mul_sum]
  refine sum_congr rfl fun k _ => ?_
  have hfk := hg.f_pos k
  rw [div_eq_iff hfk.ne', mul_sum, mul_sum, sum_mul]
  refine sum_congr rfl fun a _ => ?_
  rw [mul_sum, mul_sum, sum_mul]
  refine sum_congr rfl fun d _ => ?_
  have hma : 0 < g.m a := hg.m_pos a
  have hdyn : g.dynm3 k a = g.m a * g.f k := by unfold Par.dynm3; rw [ho a]; simp
  beta_reduce
  rw [hdyn, div_pow, mul_pow, mul_pow, Real.sq_sqrt (mul_pos hma hfk).le, Real.sq_sqrt (mul_nonneg (Nat.cast_nonneg n) hT),
    Real.sq_sqrt hma.le]
  field_simp

/-! ## The hypotheses can be met -/

/-- Two systems, with two beads and with one, of one coordinate. -/
noncomputable def pair : List (Sys ℝ) := [⟨[1, 2], [3, 4], 1⟩, ⟨[5], [6], 1⟩]

/-- Others of the same shape. -/
noncomputable def pair' : List (Sys ℝ) := [⟨[7, 7], [7, 7], 0⟩, ⟨[7], [7], 0⟩]

theorem pair_good : (∀ s ∈ pair, s.Good) ∧ (∀ s ∈ pair', s.Good) ∧ List.Forall₂ SameShape pair pair' := by
  refine ⟨?_, ?_, .cons rfl (.cons rfl .nil)⟩ <;>
  · intro s hs
    simp only [pair, pair', List.mem_cons, List.not_mem_nil, or_false] at hs
    rcases hs with rfl | rfl <;> exact ⟨rfl, by simp⟩

/-- Structures for them. -/
noncomputable def given : List (List (Atoms ℝ) × List ℝ) :=
  [([⟨1, 1, some 2⟩, ⟨3, 1, some 4⟩], [2, 4]), ([⟨5, 2, some 6⟩], [6])]

theorem given_fits : List.Forall₂ Fits pair given := .cons ⟨rfl, rfl, rfl⟩ (.cons ⟨rfl, rfl, rfl⟩ .nil)

example := get_nested ⟨2, 3⟩ pair
example := set_nested ⟨2, 3⟩ pair given given_fits
example := set_get ⟨2, 3⟩ (by norm_num) (by norm_num) pair pair' pair_good.2.2 pair_good.1 pair_good.2.1
example := get_set_partial ⟨2, 3⟩ (by norm_num) (by norm_num) pair given given_fits (by
  intro x hx a ha b hb
  simp only [given, List.mem_cons, List.not_mem_nil, or_false] at hx
  rcases hx with rfl | rfl
  · simp only [List.mem_cons, List.not_mem_nil, or_false] at ha hb
    rcases ha with rfl | rfl <;> rcases hb with rfl | rfl <;> rfl
  · simp only [List.mem_cons, List.not_mem_nil, or_false] at ha hb
    subst ha hb; rfl)
example := set_keeps_momenta (V := ℝ) ⟨2, 3⟩ [⟨1, 1, none⟩] (by simp) ⟨[1, 2], [3, 4], 1⟩ 0
example := last_cell_wins (V := ℝ) ⟨2, 3⟩ (by norm_num) 1 2 3 4 1 2 ⟨[1, 2], [3, 4], 1⟩ rfl rfl 1 2 3 4
example := missing_system_silent (V := ℝ) ⟨2, 3⟩ ⟨[5], [6], 1⟩ ⟨[5], [6], 1⟩ [] (.atoms ⟨1, 1, none⟩) rfl
example := missing_bead_silent (V := ℝ) ⟨2, 3⟩ ⟨1, 1, some 2⟩ 2 1 2 3 4 1 rfl
example := extra_bead_error (V := ℝ) ⟨2, 3⟩ ⟨1, 1, some 2⟩ ⟨1, 1, some 3⟩ ⟨1, 1, none⟩ 2 3 1 2 3 4 1 rfl rfl
example := thermalize_conserved_partial onePar onePar_good (n := 1) (by decide) (by decide) true true [(0, 1)] (by decide) (by
  intro _ a ha; exact absurd ha (by simp [onePar])) 2 (fun _ _ _ => 1) oneSt
example := thermalize_fixed onePar true [(0, 1)] 2 (fun _ _ _ => 1) oneSt 0 0 1 (by decide)
example := thermalize_com onePar onePar_good (n := 1) (by decide) (by decide) 2 (fun _ _ _ => 1) oneSt 0
example := thermalize_energy onePar onePar_good (fun _ => rfl) 2 (by norm_num) (fun _ _ _ => 1) oneSt

end Verif.Script
