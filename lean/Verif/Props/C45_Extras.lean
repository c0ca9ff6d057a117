import Verif.FF.Extras
import Verif.Util

/-!
# C45: reading the combined extra data
-/

namespace Verif.Extras

open Verif.Text

/-- A component that adds raw strings to the total. -/
def Comp.hasRaw (c : Comp) : Bool := c.active && c.same && c.extras.any (fun x => x.1 == kRaw)

/-- The raw strings of a component, if it has any. -/
def Comp.raw (c : Comp) : Option Nat := if c.active && c.same then c.extras.look kRaw else none

/-- Keys of a dictionary occur once. -/
def Comp.Ok (c : Comp) : Prop := (c.extras.map Prod.fst).Nodup

theorem look_put_raw (d : Dict) (a : Nat) : (d.put kRaw a).look kRaw = some a := by
  induction d with
  | nil => simp [Dict.put, Dict.look]
  | cons x d ih =>
    obtain ⟨k, b⟩ := x
    unfold Dict.put
    by_cases h : k = kRaw
    · rw [if_pos h]; simp [Dict.look]
    · rw [if_neg h]; simp [Dict.look, h, ih]

theorem look_put_ne (d : Dict) (e : Str) (a : Nat) (he : e ≠ kRaw) :
    (d.put e a).look kRaw = d.look kRaw := by
  induction d with
  | nil => simp [Dict.put, Dict.look, he]
  | cons x d ih =>
    obtain ⟨k, b⟩ := x
    unfold Dict.put
    by_cases h : k = e
    · rw [if_pos h]; simp [Dict.look, he, h]
    · rw [if_neg h]
      by_cases h' : k = kRaw
      · simp [Dict.look, h']
      · simp [Dict.look, h', ih]

/-- The effect of raw strings on the lists. -/
def append (h : Heap) (r a : Nat) : Heap := fun b => if b = r then List.zipWith (· ++ ·) (h r) (h a) else h b

/-- What one component does, as far as the raw strings are concerned. -/
def rawStep (s : Heap × Option Nat) (x : Option Nat) : Heap × Option Nat :=
  match x with
  | none => s
  | some a => match s.2 with
    | none => (s.1, some a)
    | some r => (append s.1 r a, some r)

theorem entries_off (l : Dict) (s : Heap × Dict) : l.foldl (addEntry false) s = s := by
  induction l generalizing s with
  | nil => rfl
  | cons x l ih => rw [List.foldl_cons]; unfold addEntry; rw [if_pos rfl]; exact ih s

theorem addEntry_ne (s : Heap × Dict) (x : Str × Nat) (hx : x.1 ≠ kRaw) :
    (addEntry true s x).1 = s.1 ∧ (addEntry true s x).2.look kRaw = s.2.look kRaw := by
  unfold addEntry
  rw [if_neg (by simp), if_neg hx]
  exact ⟨rfl, look_put_ne _ _ _ hx⟩

theorem entries_noraw (l : Dict) (s : Heap × Dict) (h : ∀ x ∈ l, x.1 ≠ kRaw) :
    (l.foldl (addEntry true) s).1 = s.1 ∧ (l.foldl (addEntry true) s).2.look kRaw = s.2.look kRaw := by
  induction l generalizing s with
  | nil => exact ⟨rfl, rfl⟩
  | cons x l ih =>
    rw [List.foldl_cons]
    obtain ⟨h1, h2⟩ := addEntry_ne s x (h x List.mem_cons_self)
    obtain ⟨h3, h4⟩ := ih (addEntry true s x) (fun y hy => h y (List.mem_cons_of_mem _ hy))
    exact ⟨h3.trans h1, h4.trans h2⟩

theorem entries_raw (l : Dict) (s : Heap × Dict) (hd : (l.map Prod.fst).Nodup) :
    ((l.foldl (addEntry true) s).1, (l.foldl (addEntry true) s).2.look kRaw)
      = rawStep (s.1, s.2.look kRaw) (Dict.look l kRaw) := by
  induction l generalizing s with
  | nil => rfl
  | cons x l ih =>
    rw [List.foldl_cons]
    rw [List.map_cons, List.nodup_cons] at hd
    obtain ⟨k, a⟩ := x
    by_cases hk : k = kRaw
    · have hn : ∀ y ∈ l, y.1 ≠ kRaw := by
        intro y hy he
        exact hd.1 (List.mem_map.2 ⟨y, hy, by simp only; rw [he, hk]⟩)
      obtain ⟨h1, h2⟩ := entries_noraw l (addEntry true s (k, a)) hn
      rw [h1, h2]
      have hl : Dict.look ((k, a) :: l) kRaw = some a := by simp [Dict.look, hk]
      rw [hl]
      unfold rawStep addEntry
      rw [if_neg (by simp), if_pos hk]
      simp only
      cases hs : Dict.look s.2 kRaw with
      | none => simp only; rw [look_put_raw]
      | some r => simp only; rw [hs]; rfl
    · have hl : Dict.look ((k, a) :: l) kRaw = Dict.look l kRaw := by simp [Dict.look, hk]
      rw [hl, ih _ hd.2]
      obtain ⟨h1, h2⟩ := addEntry_ne s (k, a) hk
      rw [h1, h2]

theorem addComp_raw (s : Heap × Dict) (c : Comp) (hc : c.Ok) :
    ((addComp s c).1, (addComp s c).2.look kRaw) = rawStep (s.1, s.2.look kRaw) c.raw := by
  unfold addComp Comp.raw
  cases c.active with
  | false => rfl
  | true =>
    cases c.same with
    | false => simp [entries_off, rawStep]
    | true =>
      simp only [if_true, Bool.and_self]
      exact entries_raw _ s hc

theorem combine_raw (h : Heap) (cs : List Comp) (hc : ∀ c ∈ cs, c.Ok) :
    ((combine h cs).1, (combine h cs).2.look kRaw) = (cs.map Comp.raw).foldl rawStep (h, none) := by
  have : ∀ (cs : List Comp) (s : Heap × Dict), (∀ c ∈ cs, c.Ok) →
      ((cs.foldl addComp s).1, (cs.foldl addComp s).2.look kRaw)
        = (cs.map Comp.raw).foldl rawStep (s.1, s.2.look kRaw) := by
    intro cs
    induction cs with
    | nil => intro s _; rfl
    | cons c cs ih =>
      intro s hc
      rw [List.foldl_cons, List.map_cons, List.foldl_cons,
        ← addComp_raw s c (hc c List.mem_cons_self)]
      exact ih _ (fun c' h' => hc c' (List.mem_cons_of_mem _ h'))
  exact this cs (h, []) hc

/-- The addresses of the raw strings that go into the total. -/
def rawList (cs : List Comp) : List Nat := cs.filterMap Comp.raw

theorem foldl_rawStep (l : List (Option Nat)) (s : Heap × Option Nat) :
    l.foldl rawStep s = (l.filterMap id).foldl (fun s a => rawStep s (some a)) s := by
  induction l generalizing s with
  | nil => rfl
  | cons x l ih =>
    rw [List.foldl_cons]
    cases x with
    | none => rw [List.filterMap_cons_none rfl]; exact ih s
    | some a =>
      rw [List.filterMap_cons_some (f := id) (b := a) rfl, List.foldl_cons]
      exact ih _

theorem rawList_eq (cs : List Comp) : (cs.map Comp.raw).filterMap id = rawList cs := by
  rw [List.filterMap_map]; rfl

theorem appends (h : Heap) (r : Nat) (l : List Nat) :
    l.foldl (fun s a => rawStep s (some a)) (h, some r)
      = (l.foldl (fun h a => append h r a) h, some r) := by
  induction l generalizing h with
  | nil => rfl
  | cons a l ih => rw [List.foldl_cons, List.foldl_cons]; exact ih _

theorem appends_value (r : Nat) (l : List Nat) (h : Heap) (hl : r ∉ l) :
    (l.foldl (fun h a => append h r a) h) r
      = l.foldl (fun v a => List.zipWith (· ++ ·) v (h a)) (h r) ∧
    ∀ b, b ≠ r → (l.foldl (fun h a => append h r a) h) b = h b := by
  induction l generalizing h with
  | nil => exact ⟨rfl, fun _ _ => rfl⟩
  | cons a l ih =>
    rw [List.foldl_cons, List.foldl_cons]
    have hr : r ∉ l := fun h => hl (List.mem_cons_of_mem _ h)
    obtain ⟨h1, h2⟩ := ih (append h r a) hr
    have ho : ∀ b, b ≠ r → append h r a b = h b := fun b hb => by
      unfold append; rw [if_neg hb]
    refine ⟨?_, fun b hb => (h2 b hb).trans (ho b hb)⟩
    rw [h1]
    have hs : append h r a r = List.zipWith (· ++ ·) (h r) (h a) := by
      unfold append; rw [if_pos rfl]
    rw [hs]
    have : ∀ (l : List Nat) (v : List Str), r ∉ l →
        l.foldl (fun v b => List.zipWith (· ++ ·) v (append h r a b)) v
          = l.foldl (fun v b => List.zipWith (· ++ ·) v (h b)) v := by
      intro l
      induction l with
      | nil => intro v _; rfl
      | cons b l ih' =>
        intro v hb
        rw [List.foldl_cons, List.foldl_cons]
        rw [ho b (fun e => hb (by rw [e]; exact List.mem_cons_self))]
        exact ih' _ (fun h => hb (List.mem_cons_of_mem _ h))
    exact this l _ hr

/-- **The combined raw strings.**  When each component has its own list, the total holds for each
bead the raw strings of all components, one after the other. -/
theorem total_raw (h : Heap) (cs : List Comp) (hc : ∀ c ∈ cs, c.Ok) (r : Nat) (l : List Nat)
    (hl : rawList cs = r :: l) (hn : (r :: l).Nodup) :
    (combine h cs).2.look kRaw = some r ∧
      (combine h cs).1 r = l.foldl (fun v a => List.zipWith (· ++ ·) v (h a)) (h r) := by
  have h1 := combine_raw h cs hc
  rw [foldl_rawStep, rawList_eq, hl, List.foldl_cons] at h1
  have h2 : rawStep (h, none) (some r) = (h, some r) := rfl
  rw [h2, appends] at h1
  rw [Prod.mk.injEq] at h1
  rw [h1.1, h1.2]
  exact ⟨rfl, (appends_value r l h (List.nodup_cons.1 hn).1).1⟩

/-- **C45 is false of the code.**  Reading the total appends to the list of the first component that
has raw strings: whenever two components have some, the data of the first one are no longer what
they were. -/
theorem component_altered (y : Sys) (h : Heap) (hc : ∀ c ∈ y.forces, c.Ok) (r a : Nat) (l : List Nat)
    (hl : rawList y.forces = r :: a :: l) (hn : (r :: a :: l).Nodup) (k : Nat) (c : Comp)
    (hk : y.forces[k]? = some c) (hr : c.extras.look kRaw = some r)
    (hne : (a :: l).foldl (fun v a => List.zipWith (· ++ ·) v (h a)) (h r) ≠ h r) :
    (read y (fresh h) (.comp k)).2 ≠ (read y (reads y (fresh h) [.total]) (.comp k)).2 := by
  obtain ⟨-, h2⟩ := total_raw h y.forces hc r (a :: l) hl hn
  have e1 : (read y (fresh h) (.comp k)).2 = see h c.extras := by
    simp only [read, hk, fresh, Option.map_some, Option.getD_some]
  have e2 : (read y (reads y (fresh h) [.total]) (.comp k)).2
      = see (combine h y.forces).1 c.extras := by
    simp only [reads, List.foldl_cons, List.foldl_nil, read, fresh, hk, Option.map_some,
      Option.getD_some]
  rw [e1, e2]
  intro he
  have hmem : (kRaw, r) ∈ c.extras := by
    have : ∀ d : Dict, d.look kRaw = some r → (kRaw, r) ∈ d := by
      intro d
      induction d with
      | nil => intro h; cases h
      | cons x d ih =>
        obtain ⟨k', b⟩ := x
        intro h
        unfold Dict.look at h
        by_cases hk' : k' = kRaw
        · rw [if_pos hk', Option.some.injEq] at h
          rw [hk', h]; exact List.mem_cons_self
        · rw [if_neg hk'] at h
          exact List.mem_cons_of_mem _ (ih h)
    exact this _ hr
  unfold see at he
  have := List.map_inj_left.1 he _ hmem
  simp only [Prod.mk.injEq, true_and] at this
  rw [h2] at this
  exact hne this.symm

/-- **C45, at most one component with raw strings.**  Then no list is ever changed: every read, in
every order, gives what it gives right after the evaluation. -/
theorem reads_harmless_partial (y : Sys) (h : Heap) (hf : ∀ c ∈ y.forces, c.Ok)
    (hb : ∀ c ∈ y.bias, c.Ok) (h1 : (rawList y.forces).length ≤ 1) (h2 : (rawList y.bias).length ≤ 1)
    (l : List Read) (r : Read) :
    (read y (reads y (fresh h) l) r).2 = (read y (fresh h) r).2 := by
  have key : ∀ cs : List Comp, (∀ c ∈ cs, c.Ok) → (rawList cs).length ≤ 1 → (combine h cs).1 = h := by
    intro cs hc hlen
    have h3 := combine_raw h cs hc
    rw [foldl_rawStep, rawList_eq] at h3
    rw [Prod.mk.injEq] at h3
    rw [h3.1]
    cases hr : rawList cs with
    | nil => rfl
    | cons a l =>
      cases l with
      | nil => rfl
      | cons b l => rw [hr] at hlen; simp at hlen
  have inv : ∀ (l : List Read) (s : St), s.heap = h →
      (s.tot = none ∨ s.tot = some (combine h y.forces).2) →
      (s.totBias = none ∨ s.totBias = some (combine h y.bias).2) →
      (reads y s l).heap = h ∧
      ((reads y s l).tot = none ∨ (reads y s l).tot = some (combine h y.forces).2) ∧
      ((reads y s l).totBias = none ∨ (reads y s l).totBias = some (combine h y.bias).2) := by
    intro l
    induction l with
    | nil => intro s a b c; exact ⟨a, b, c⟩
    | cons o l ih =>
      intro s a b c
      show (reads y (read y s o).1 l).heap = h ∧ _
      have : (read y s o).1.heap = h ∧
          ((read y s o).1.tot = none ∨ (read y s o).1.tot = some (combine h y.forces).2) ∧
          ((read y s o).1.totBias = none ∨ (read y s o).1.totBias = some (combine h y.bias).2) := by
        cases o with
        | total =>
          rcases b with b | b
          · simp only [read, b, a, key _ hf h1, true_and]
            exact ⟨Or.inr trivial, c⟩
          · simp only [read, b, a, true_and]
            exact ⟨Or.inr trivial, c⟩
        | bias =>
          rcases c with c | c
          · simp only [read, c, a, key _ hb h2, true_and]
            exact ⟨b, Or.inr trivial⟩
          · simp only [read, c, a, true_and]
            exact ⟨b, Or.inr trivial⟩
        | comp k => exact ⟨a, b, c⟩
      exact ih _ this.1 this.2.1 this.2.2
  obtain ⟨i1, i2, i3⟩ := inv l (fresh h) rfl (Or.inl rfl) (Or.inl rfl)
  generalize reads y (fresh h) l = s at i1 i2 i3
  cases r with
  | total =>
    rcases i2 with b | b
    · simp only [read, b, i1, fresh]
    · simp only [read, b, i1, fresh, key _ hf h1]
  | bias =>
    rcases i3 with b | b
    · simp only [read, b, i1, fresh]
    · simp only [read, b, i1, fresh, key _ hb h2]
  | comp k => simp only [read, i1, fresh]

/-- **C45, the total again.**  Reading the total twice in a row gives the same. -/
theorem total_twice (y : Sys) (s : St) :
    (read y (read y s .total).1 .total).2 = (read y s .total).2 := by
  cases h : s.tot with
  | none => simp only [read, h]
  | some d => simp only [read, h]

/-! ## Witnesses -/

/-- Two force components of one bead with raw strings, and a bias made of the same two components
(Hamiltonian weights other than one). -/
def twoComps : Sys :=
  { forces := [⟨true, true, [(kRaw, 0)]⟩, ⟨true, true, [(kRaw, 1)]⟩]
    bias := [⟨true, true, [(kRaw, 0)]⟩, ⟨true, true, [(kRaw, 1)]⟩] }

/-- Their strings. -/
def strings : Heap := fun a => if a = 0 then [['a']] else [['b']]

/-- **C45 is false of the code**, a concrete case: the first component returned `a` and is reported
as `ab` once the total was read. -/
theorem component_altered_witness :
    (read twoComps (fresh strings) (.comp 0)).2 = [(kRaw, [['a']])] ∧
    (read twoComps (reads twoComps (fresh strings) [.total]) (.comp 0)).2
      = [(kRaw, [['a', 'b']])] := by
  decide +kernel

/-- **C45 is false of the code** also for the total: reading the bias in between changes it. -/
theorem total_altered_witness :
    (read twoComps (fresh strings) .total).2 = [(kRaw, [['a', 'b']])] ∧
    (read twoComps (reads twoComps (fresh strings) [.total, .bias]) .total).2
      = [(kRaw, [['a', 'b', 'b']])] := by
  decide +kernel

/-- The general theorem applies to the concrete case. -/
example : (∀ c ∈ twoComps.forces, c.Ok) ∧ rawList twoComps.forces = [0, 1] := by
  refine ⟨?_, by decide⟩
  intro c hc
  simp only [twoComps, List.mem_cons, List.not_mem_nil, or_false] at hc
  rcases hc with rfl | rfl <;> simp [Comp.Ok]

/-- One component with raw strings and one with other data. -/
example : (rawList [(⟨true, true, [(kRaw, 0)]⟩ : Comp), ⟨true, true, [(['x'], 1)]⟩]).length ≤ 1 := by
  decide

end Verif.Extras
