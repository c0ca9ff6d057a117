import Verif.Tools.A2b
import Verif.Props.C63_TrajUnits

/-!
# C166: converting a trajectory to another format keeps quantity, units and values
-/

namespace Verif.A2b

open Verif.Text Verif.Units Verif.TrajUnits

def kEforces : Str := "Eforces".toList
def kForces : Str := "forces".toList

/-- The only key that ends with another key. -/
theorem keys_apart : ∀ e ∈ trajDict, e.1 ≠ kEforces → ∀ e' ∈ trajDict, e'.1 <:+ e.1 → e' = e := by decide +kernel

theorem search_some {k d u s : Str} : ∀ {t : List (Str × Str)}, (∀ e ∈ t, keySearch e.1 s = none ∨ (keySearch e.1 s = some u ∧ e = (k, d))) →
    (∃ e ∈ t, keySearch e.1 s = some u) → search t s = some (k, d, u)
  | [], _, ⟨e, he, _⟩ => by cases he
  | (k', d') :: t, h, ⟨e, he, h2⟩ => by
    rw [search]
    rcases h (k', d') List.mem_cons_self with h1 | ⟨h1, h3⟩
    · simp only at h1
      rw [h1]
      simp only
      refine search_some (fun e he => h e (List.mem_cons_of_mem _ he)) ?_
      rcases List.mem_cons.1 he with rfl | he
      · simp only at h2; rw [h1] at h2; cases h2
      · exact ⟨e, he, h2⟩
    · simp only at h1
      rw [h1]
      simp only [Prod.mk.injEq] at h3
      rw [h3.1, h3.2]

theorem search_none {s : Str} : ∀ {t : List (Str × Str)}, (∀ e ∈ t, keySearch e.1 s = none) → search t s = none
  | [], _ => rfl
  | (k', d') :: t, h => by
    have := h (k', d') List.mem_cons_self
    simp only at this
    rw [search, this]
    exact search_none fun e he => h e (List.mem_cons_of_mem _ he)

/-- Key, dimension and units found in a comment line that announces them, for all keys but one. -/
theorem found {P key dim u cu post : Str} (m : Mode) (hP : Lead P) (hk : (key, dim) ∈ trajDict) (hne : key ≠ kEforces) (hu : Word u) (hcu : Word cu) (hpost : ∀ c ∈ post, isWs c = true) :
    search trajDict (strip (P ++ (announce key u cu ++ post))) = some (key, dim, u) ∧ cellUnits m (P ++ (announce key u cu ++ post)) = cu := by
  obtain ⟨k1, k2, k3, k4, k5, k6⟩ := keys_plain _ hk
  simp only at k1 k2 k3 k4 k5 k6
  constructor
  · rw [strip_announce k4 k3 hpost]
    have hP' := lead_drop hP
    have hnb : '{' ∉ P.dropWhile isWs ++ key := by rw [List.mem_append, not_or]; exact ⟨hP'.1, k1⟩
    refine search_some (fun e he => ?_) ⟨(key, dim), hk, ?_⟩
    · obtain ⟨e1, e2, e3, e4, e5, e6⟩ := keys_plain _ he
      have hs := search_announce (P := P.dropWhile isWs) (key := key) (post := []) e1 e3 e2 hnb (word_nobrace hu).1 (word_nobrace hu).2 hcu (by simp)
      by_cases hsuf : e.1 <:+ key
      · exact .inr ⟨hs.1 ((lead_suffix hP' e2).2 hsuf) hu, keys_apart _ hk hne e he hsuf⟩
      · exact .inl (hs.2.2 (.inl fun h => hsuf ((lead_suffix hP' e2).1 h)) e5)
    · exact (search_announce (P := P.dropWhile isWs) (key := key) (post := []) k1 k3 k2 hnb (word_nobrace hu).1 (word_nobrace hu).2 hcu (by simp)).1
        ((lead_suffix hP' k2).2 (List.suffix_refl _)) hu
  · unfold cellUnits
    rw [cell_announce hP hk (word_nobrace hu).1 (word_nobrace hu).2 hcu (ws_nobrace hpost)]
    rfl

/-- A frame as i-PI writes it. -/
structure Announced (f : Frame) (key dim u cu : Str) : Prop where
  mem : (key, dim) ∈ trajDict
  units : Word u
  cellUnits : Word cu
  line : ∃ P post, Lead P ∧ (∀ c ∈ post, isWs c = true) ∧ f.comment = P ++ (announce key u cu ++ post)

/-- The units announced can be converted. -/
def Known (dim u cu : Str) : Prop := Accepted dim u ∧ Accepted kLength cu

theorem accepted_factor {fam unit : Str} (h : Accepted fam unit) : ∃ f : Rat, 0 < f ∧ toInternal fam unit 1 = .ok f ∧ toUser fam unit 1 = .ok f⁻¹ := by
  obtain ⟨x, hx⟩ := h
  obtain ⟨c, hc, hz⟩ := accepted_form hx
  have h1 := hz 1
  rw [Rat.one_mul] at h1
  refine ⟨c, hc, h1, ?_⟩
  unfold toUser
  rw [h1]
  simp only [Rat.div_def, Rat.one_mul]

/-- One frame: its value is the same in the output, in the units of the first frame. -/
theorem convert_kept {im om : Mode} {key dim u cu key' dim' u' cu' : Str} {f : Frame} (hf : Announced f key' dim' u' cu') (hk' : Known dim' u' cu')
    (hk : Known dim u cu) (hom : om = .pdb → dim = kLength) (hu : u ≠ kAuto) (hcu : cu ≠ kAuto) (hne : key ≠ []) :
    ∃ w F C F' C' : Rat, ∃ v, convert im om key dim u cu f = .ok ⟨announce key u cu, w, v⟩ ∧ toInternal dim u 1 = .ok F ∧ toInternal kLength cu 1 = .ok C ∧
      toInternal dim' u' 1 = .ok F' ∧ toInternal kLength cu' 1 = .ok C' ∧ 0 < F ∧ 0 < C ∧ w * F = f.data * F' ∧ v * C = f.cell * C' := by
  obtain ⟨F, hF0, hF, hFu⟩ := accepted_factor hk.1
  obtain ⟨C, hC0, hC, hCu⟩ := accepted_factor hk.2
  obtain ⟨F', -, hF', -⟩ := accepted_factor hk'.1
  obtain ⟨C', -, hC', -⟩ := accepted_factor hk'.2
  obtain ⟨P, post, hP, hpost, hline⟩ := hf.line
  refine ⟨f.data * F' * F⁻¹, F, C, F', C', f.cell * C' * C⁻¹, ?_, hF, hC, hF', hC', hF0, hC0, ?_, ?_⟩
  · unfold convert processUnits
    rw [hline, announced_units_found im hP hf.mem hf.units hf.cellUnits hpost]
    simp only
    rw [hC', hF']
    simp only
    unfold printFile
    rw [if_neg (fun h => h.2 (hom h.1))]
    simp only
    rw [show resolve om u = u from if_neg hu, show resolve om cu = cu from if_neg hcu, hCu, hFu, if_neg (fun h => hne h.2)]
    rfl
  · have : F ≠ 0 := fun e => by rw [e] at hF0; exact absurd hF0 (by decide)
    rw [Rat.mul_assoc, Rat.inv_mul_cancel F this, Rat.mul_one]
  · have : C ≠ 0 := fun e => by rw [e] at hC0; exact absurd hC0 (by decide)
    rw [Rat.mul_assoc, Rat.inv_mul_cancel C this, Rat.mul_one]

/-- What a written frame must satisfy: title of the first frame, and the same physical values as the frame read. -/
def Kept (key dim u cu : Str) (f w : Frame) : Prop :=
  ∃ key' dim' u' cu', Announced f key' dim' u' cu' ∧ w.comment = announce key u cu ∧
    ∃ F C F' C' : Rat, toInternal dim u 1 = .ok F ∧ toInternal kLength cu 1 = .ok C ∧ toInternal dim' u' 1 = .ok F' ∧ toInternal kLength cu' 1 = .ok C' ∧
      0 < F ∧ 0 < C ∧ w.data * F = f.data * F' ∧ w.cell * C = f.cell * C'

/-- A frame that i-PI could have written. -/
def Regular (f : Frame) : Prop := ∃ key dim u cu, Announced f key dim u cu ∧ Known dim u cu

theorem loop_kept {im om : Mode} {key dim u cu : Str} (hk : Known dim u cu) (hom : om = .pdb → dim = kLength) (hu : u ≠ kAuto) (hcu : cu ≠ kAuto) (hne : key ≠ []) :
    ∀ fs : List Frame, (∀ f ∈ fs, Regular f) → ∃ ws, loop im om key dim u cu fs = (ws, none) ∧ List.Forall₂ (Kept key dim u cu) fs ws
  | [], _ => ⟨[], rfl, .nil⟩
  | f :: fs, h => by
    obtain ⟨ws, h1, h2⟩ := loop_kept (im := im) hk hom hu hcu hne fs fun g hg => h g (List.mem_cons_of_mem _ hg)
    obtain ⟨key', dim', u', cu', ha, hk'⟩ := h f List.mem_cons_self
    obtain ⟨w, F, C, F', C', v, hc, r⟩ := convert_kept (im := im) ha hk' hk hom hu hcu hne
    refine ⟨⟨announce key u cu, w, v⟩ :: ws, by rw [loop, hc]; simp only [h1], .cons ⟨key', dim', u', cu', ha, rfl, F, C, F', C', r⟩ h2⟩

theorem announced_nonempty {f : Frame} {key dim u cu : Str} (h : Announced f key dim u cu) : f.comment ≠ [] := by
  obtain ⟨P, post, -, -, hl⟩ := h.line
  rw [hl]
  unfold announce tag
  simp

/-- **C166, partial.** Every frame of a trajectory written by i-PI, of any quantity but `Eforces`, is converted: to the quantity and units of
the first frame, with the values the frame has in its own units. A PDB file can be written or read if the quantity is a length. -/
theorem converted_partial {im om : Mode} {key dim u cu : Str} {f : Frame} {fs : List Frame} (hf : Announced f key dim u cu) (hk : Known dim u cu)
    (hfs : ∀ g ∈ fs, Regular g) (hE : key ≠ kEforces) (him : im = .pdb → dim = kLength) (hom : om = .pdb → dim = kLength) (hu : u ≠ kAuto) (hcu : cu ≠ kAuto) :
    ∃ ws, main im om f fs = (ws, none) ∧ List.Forall₂ (Kept key dim u cu) (f :: fs) ws := by
  obtain ⟨P, post, hP, hpost, hline⟩ := hf.line
  have hfd := found im hP hf.mem hE hf.units hf.cellUnits hpost
  rw [← hline] at hfd
  obtain ⟨ws, h1, h2⟩ := loop_kept (im := im) (key := key) hk hom hu hcu (keys_plain _ hf.mem).2.2.1 (f :: fs) (by
    intro g hg
    rcases List.mem_cons.1 hg with rfl | hg
    · exact ⟨key, dim, u, cu, hf, hk⟩
    · exact hfs g hg)
  refine ⟨ws, ?_, h2⟩
  unfold main keyDimUnits
  rw [if_neg (announced_nonempty hf), hfd.1]
  simp only
  rw [if_neg (fun h => h.2 (him h.1)), hfd.2]
  exact h1

/-- With the same announcement in a frame as in the first one, the numbers are those read. -/
theorem same_numbers {key dim u cu : Str} {f w : Frame} (h : Kept key dim u cu f w) (hf : Announced f key dim u cu) :
    w.data = f.data ∧ w.cell = f.cell := by
  obtain ⟨key', dim', u', cu', ha, -, F, C, F', C', hF, hC, hF', hC', hF0, hC0, h1, h2⟩ := h
  obtain ⟨P, post, hP, hpost, hline⟩ := hf.line
  obtain ⟨P', post', hP', hpost', hline'⟩ := ha.line
  have e1 := announced_units_found .other hP hf.mem hf.units hf.cellUnits hpost
  have e2 := announced_units_found .other hP' ha.mem ha.units ha.cellUnits hpost'
  rw [← hline] at e1
  rw [← hline', e1] at e2
  simp only [Except.ok.injEq, Prod.mk.injEq] at e2
  obtain ⟨rfl, rfl, rfl⟩ := e2
  rw [hF] at hF'
  rw [hC] at hC'
  cases hF'
  cases hC'
  have can : ∀ {a b c : Rat}, 0 < c → a * c = b * c → a = b := by
    intro a b c hc h
    have hne : c ≠ 0 := fun e => by rw [e] at hc; exact absurd hc (by decide)
    have := congrArg (· * c⁻¹) h
    simp only [Rat.mul_assoc, Rat.mul_inv_cancel c hne, Rat.mul_one] at this
    exact this
  exact ⟨can hF0 h1, can hC0 h2⟩

/-! ### what does not hold -/

/-- **False of the code: every trajectory can be converted.**  A file whose first frame does not announce a quantity, as files of other
programs do, ends the script before anything is written. -/
theorem plain_fails (im om : Mode) (f : Frame) (fs : List Frame) (h : '{' ∉ f.comment) : main im om f fs = ([], some .unbound) := by
  have hs : '{' ∉ strip f.comment := fun hc => h (mem_of_mem_stripP hc)
  unfold main keyDimUnits
  have : (if f.comment = [] then none else search trajDict (strip f.comment)) = none := by
    split
    · rfl
    · exact search_none fun e _ => keySearch_none hs
  rw [this]

/-- **False of the code: the quantity is kept.**  Electric forces become forces. -/
theorem eforces_renamed : main .other .other ⟨announce kEforces kAtomic kAtomic, 1, 1⟩ [] = ([⟨announce kForces kAtomic kAtomic, 1, 1⟩], none) := by
  decide +kernel

/-! ### the hypotheses can be met -/

/-- A frame of positions in angstrom. -/
def demo : Frame := ⟨"# CELL ".toList ++ announce kPositions kAngstrom kAngstrom ++ ['\n'], 1, 10⟩

example : Announced demo kPositions kLength kAngstrom kAngstrom ∧ Known kLength kAngstrom kAngstrom ∧ kPositions ≠ kEforces ∧ kAngstrom ≠ kAuto := by
  have ha : Accepted kLength kAngstrom := by
    have h : (toInternal kLength kAngstrom 1).toOption.isSome = true := by decide +kernel
    unfold Accepted
    cases hi : toInternal kLength kAngstrom 1 with
    | error e => rw [hi] at h; cases h
    | ok c => exact ⟨c, rfl⟩
  exact ⟨⟨by decide, by unfold Word; decide, by unfold Word; decide, "# CELL ".toList, ['\n'], ⟨by decide, .inr ⟨"# CELL".toList, by decide⟩⟩, by decide, by decide⟩,
    ⟨ha, ha⟩, by decide, by decide⟩

/-- Without units of the cell in the comment, those of the format are used: Angstrom for pdb files, atomic units otherwise. -/
theorem cell_default {comment : Str} (h : keySearch kCell comment = none) :
    cellUnits .pdb comment = kAngstrom ∧ cellUnits .other comment = kAtomic := by
  unfold cellUnits
  rw [h]
  exact ⟨rfl, rfl⟩

end Verif.A2b
