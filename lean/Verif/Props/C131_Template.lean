import Verif.Io.Template
import Mathlib.Data.List.Sort
import Mathlib.Data.List.Nodup

/-!
# C131: systems from a template
-/

namespace Verif.Template

/-! ### Specification: all labels are substituted at once -/

/-- The longest label with which a text begins. -/
def best : List (Str × Str) → Str → Option (Str × Str)
  | [], _ => none
  | p :: ps, s =>
    if p.1.isPrefixOf s then
      match best ps s with
      | some p' => if p.1.length < p'.1.length then some p' else some p
      | none => some p
    else best ps s

/-- Reading a template from left to right, with the longest label at every position substituted by its string. -/
def expandGo (ps : List (Str × Str)) : ℕ → Str → Str
  | _, [] => []
  | k + 1, _ :: cs => expandGo ps k cs
  | 0, c :: cs =>
    match best ps (c :: cs) with
    | some p => p.2 ++ expandGo ps (p.1.length - 1) cs
    | none => c :: expandGo ps 0 cs

def expand (ps : List (Str × Str)) (s : Str) : Str := expandGo ps 0 s

/-- Every marker is at the beginning or follows a character that occurs in no label. -/
def Separated (A : Char → Prop) (μ : Char) : Prop → Str → Prop
  | _, [] => True
  | ok, c :: cs => (c = μ → ok) ∧ Separated A μ (¬ A c) cs

/-! ### Proofs -/

lemma go_drop (l v : Str) : ∀ (k : ℕ) (s : Str), go l v k s = go l v 0 (s.drop k)
  | 0, _ => rfl
  | k + 1, [] => by simp [go]
  | k + 1, c :: cs => by rw [go, go_drop l v k cs]; rfl

lemma expandGo_drop (ps : List (Str × Str)) : ∀ (k : ℕ) (s : Str), expandGo ps k s = expandGo ps 0 (s.drop k)
  | 0, _ => rfl
  | k + 1, [] => by simp [expandGo]
  | k + 1, c :: cs => by rw [expandGo, expandGo_drop ps k cs]; rfl

lemma best_some : ∀ (ps : List (Str × Str)) (s : Str) (p : Str × Str), best ps s = some p → p ∈ ps ∧ p.1 <+: s ∧ ∀ p' ∈ ps, p'.1 <+: s → p'.1.length ≤ p.1.length
  | [], s, p, h => by simp [best] at h
  | a :: ps, s, p, h => by
    unfold best at h
    by_cases ha : a.1.isPrefixOf s = true
    · rw [if_pos ha] at h
      cases hb : best ps s with
      | none =>
        rw [hb] at h
        simp only [Option.some.injEq] at h
        subst h
        refine ⟨by simp, List.isPrefixOf_iff_prefix.1 ha, ?_⟩
        intro p' hp' hpre
        rcases List.mem_cons.1 hp' with h1 | h1
        · rw [h1]
        · exfalso
          clear ha
          induction ps with
          | nil => simp at h1
          | cons b bs ih =>
            unfold best at hb
            by_cases hbb : b.1.isPrefixOf s = true
            · rw [if_pos hbb] at hb
              cases hq : best bs s <;> rw [hq] at hb
              · simp at hb
              · dsimp only at hb
                split at hb <;> simp at hb
            · rw [if_neg hbb] at hb
              rcases List.mem_cons.1 h1 with h2 | h2
              · subst h2
                exact hbb (List.isPrefixOf_iff_prefix.2 hpre)
              · exact ih hb (by simp [h2]) h2
      | some q =>
        rw [hb] at h
        obtain ⟨h1, h2, h3⟩ := best_some ps s q hb
        dsimp only at h
        by_cases hlt : a.1.length < q.1.length
        · rw [if_pos hlt] at h
          simp only [Option.some.injEq] at h
          subst h
          refine ⟨by simp [h1], h2, ?_⟩
          intro p' hp' hpre
          rcases List.mem_cons.1 hp' with h4 | h4
          · rw [h4]; omega
          · exact h3 p' h4 hpre
        · rw [if_neg hlt] at h
          simp only [Option.some.injEq] at h
          subst h
          refine ⟨by simp, List.isPrefixOf_iff_prefix.1 ha, ?_⟩
          intro p' hp' hpre
          rcases List.mem_cons.1 hp' with h4 | h4
          · rw [h4]
          · have := h3 p' h4 hpre
            omega
    · rw [if_neg ha] at h
      obtain ⟨h1, h2, h3⟩ := best_some ps s p h
      refine ⟨by simp [h1], h2, ?_⟩
      intro p' hp' hpre
      rcases List.mem_cons.1 hp' with h4 | h4
      · subst h4
        exact absurd (List.isPrefixOf_iff_prefix.2 hpre) ha
      · exact h3 p' h4 hpre

lemma best_none : ∀ (ps : List (Str × Str)) (s : Str), best ps s = none ↔ ∀ p ∈ ps, ¬ p.1 <+: s
  | [], s => by simp [best]
  | a :: ps, s => by
    unfold best
    by_cases ha : a.1.isPrefixOf s = true
    · rw [if_pos ha]
      constructor
      · intro h
        exfalso
        cases hb : best ps s <;> rw [hb] at h
        · simp at h
        · dsimp only at h
          split at h <;> simp at h
      · intro h
        exact absurd (List.isPrefixOf_iff_prefix.1 ha) (h a (by simp))
    · rw [if_neg ha, best_none ps s]
      constructor
      · intro h p hp
        rcases List.mem_cons.1 hp with h1 | h1
        · subst h1
          intro h2
          exact ha (List.isPrefixOf_iff_prefix.2 h2)
        · exact h p h1
      · intro h p hp
        exact h p (by simp [hp])

/-- The labels are all different. -/
def Distinct (ps : List (Str × Str)) : Prop := ∀ p ∈ ps, ∀ p' ∈ ps, p.1 = p'.1 → p = p'

lemma best_iff (ps : List (Str × Str)) (hd : Distinct ps) (s : Str) (p : Str × Str) :
    best ps s = some p ↔ p ∈ ps ∧ p.1 <+: s ∧ ∀ p' ∈ ps, p'.1 <+: s → p'.1.length ≤ p.1.length := by
  constructor
  · exact best_some ps s p
  · rintro ⟨h1, h2, h3⟩
    cases hb : best ps s with
    | none => exact absurd h2 ((best_none ps s).1 hb p h1)
    | some q =>
      obtain ⟨g1, g2, g3⟩ := best_some ps s q hb
      have h4 := h3 q g1 g2
      have h5 := g3 p h1 h2
      have h6 : q.1 = p.1 := by
        have := List.prefix_of_prefix_length_le g2 h2 h4
        exact this.eq_of_length (by omega)
      rw [hd q g1 p h1 h6]

lemma best_congr (ps ps' : List (Str × Str)) (hd : Distinct ps) (hd' : Distinct ps') (h : ∀ p, p ∈ ps ↔ p ∈ ps') (s : Str) : best ps s = best ps' s := by
  cases hb : best ps s with
  | none =>
    symm
    rw [best_none] at *
    intro p hp
    exact hb p ((h p).2 hp)
  | some q =>
    symm
    rw [best_iff ps' hd']
    obtain ⟨g1, g2, g3⟩ := best_some ps s q hb
    exact ⟨(h q).1 g1, g2, fun p' hp' => g3 p' ((h p').2 hp')⟩

lemma expandGo_congr (ps ps' : List (Str × Str)) (hb : ∀ s, best ps s = best ps' s) : ∀ (k : ℕ) (s : Str), expandGo ps k s = expandGo ps' k s
  | 0, [] => rfl
  | _ + 1, [] => rfl
  | k + 1, c :: cs => by
    rw [expandGo, expandGo, expandGo_congr ps ps' hb k cs]
  | 0, c :: cs => by
    rw [expandGo, expandGo, hb]
    cases best ps' (c :: cs) with
    | none => dsimp only; rw [expandGo_congr ps ps' hb 0 cs]
    | some p => dsimp only; rw [expandGo_congr ps ps' hb _ cs]

section Main

variable (A : Char → Prop) (μ : Char)

/-- A label: the marker followed by other characters. -/
def IsLabel (l : Str) : Prop := ∃ w, l = μ :: w ∧ μ ∉ w ∧ ∀ c ∈ l, A c

variable {A μ}

lemma sep_mono : ∀ (s : Str) (a b : Prop), (a → b) → Separated A μ a s → Separated A μ b s
  | [], _, _, _, _ => trivial
  | _ :: _, _, _, h, hs => ⟨fun e => h (hs.1 e), hs.2⟩

lemma go_other {l v : Str} (hl : IsLabel A μ l) {c : Char} {cs : Str} (hc : c ≠ μ) : go l v 0 (c :: cs) = c :: go l v 0 cs := by
  obtain ⟨w, rfl, _, _⟩ := hl
  rw [go, if_neg]
  intro h
  have := List.isPrefixOf_iff_prefix.1 h
  rw [List.cons_prefix_cons] at this
  exact hc this.1.symm

lemma expand_other {ps : List (Str × Str)} (hl : ∀ p ∈ ps, IsLabel A μ p.1) {c : Char} {cs : Str} (hc : c ≠ μ) :
    expandGo ps 0 (c :: cs) = c :: expandGo ps 0 cs := by
  have : best ps (c :: cs) = none := by
    rw [best_none]
    intro p hp h
    obtain ⟨w, hw, _, _⟩ := hl p hp
    rw [hw, List.cons_prefix_cons] at h
    exact hc h.1.symm
  rw [expandGo, this]

lemma expand_append {ps : List (Str × Str)} (hl : ∀ p ∈ ps, IsLabel A μ p.1) : ∀ (v t : Str), μ ∉ v → expandGo ps 0 (v ++ t) = v ++ expandGo ps 0 t
  | [], _, _ => rfl
  | c :: v, t, h => by
    rw [List.cons_append, expand_other hl (fun e => h (by simp [e])), expand_append hl v t fun e => h (by simp [e])]
    rfl

lemma prefix_go {l v : Str} (hl : IsLabel A μ l) : ∀ (w cs : Str), (∀ c ∈ w, A c) → Separated A μ False cs → (w <+: cs ↔ w <+: go l v 0 cs)
  | [], cs, _, _ => by simp
  | a :: w, [], _, _ => by simp [go]
  | a :: w, c :: cs, hw, hs => by
    have hc : c ≠ μ := fun e => hs.1 e
    rw [go_other hl hc, List.cons_prefix_cons, List.cons_prefix_cons]
    constructor
    · rintro ⟨rfl, h⟩
      refine ⟨rfl, ?_⟩
      exact (prefix_go hl w cs (fun c hc => hw c (by simp [hc])) (sep_mono cs _ _ (fun h => h (hw a (by simp))) hs.2)).1 h
    · rintro ⟨rfl, h⟩
      refine ⟨rfl, ?_⟩
      exact (prefix_go hl w cs (fun c hc => hw c (by simp [hc])) (sep_mono cs _ _ (fun h => h (hw a (by simp))) hs.2)).2 h

lemma sep_append : ∀ (v t : Str) (ok : Prop), μ ∉ v → Separated A μ False t → Separated A μ ok (v ++ t)
  | [], t, ok, _, h => sep_mono t _ _ False.elim h
  | c :: v, t, ok, hv, h => ⟨fun e => absurd e fun e => hv (by simp [e]), sep_append v t _ (fun e => hv (by simp [e])) h⟩

lemma sep_drop_label : ∀ (w t : Str) (ok : Prop), (∀ c ∈ w, A c) → w ≠ [] → Separated A μ ok (w ++ t) → Separated A μ False t
  | [], _, _, _, h, _ => absurd rfl h
  | [c], t, _, hA, _, h => sep_mono t _ _ (fun h => h (hA c (by simp))) h.2
  | c :: d :: w, t, _, hA, _, h => sep_drop_label (d :: w) t _ (fun e he => hA e (by simp [he])) (by simp) h.2

lemma label_split {l : Str} {c : Char} {cs : Str} (hl : IsLabel A μ l) (h : l <+: c :: cs) :
    ∃ t, c :: cs = l ++ t ∧ cs.drop (l.length - 1) = t ∧ t.length < (c :: cs).length := by
  obtain ⟨t, ht⟩ := h
  obtain ⟨w, rfl, _, _⟩ := hl
  refine ⟨t, ht.symm, ?_, ?_⟩
  · rw [List.cons_append, List.cons.injEq] at ht
    rw [← ht.2]
    simp
  · rw [← ht]
    simp
    omega

lemma sep_go {l v : Str} (hl : IsLabel A μ l) (hv : μ ∉ v) : ∀ (n : ℕ) (s : Str) (ok : Prop), s.length ≤ n → Separated A μ ok s → Separated A μ ok (go l v 0 s)
  | _, [], ok, _, _ => by simp [go, Separated]
  | 0, c :: cs, _, h, _ => by simp at h
  | n + 1, c :: cs, ok, hn, hs => by
    by_cases h : l <+: c :: cs
    · obtain ⟨t, h1, h2, h3⟩ := label_split hl h
      rw [go, if_pos (List.isPrefixOf_iff_prefix.2 h), go_drop, h2]
      obtain ⟨w, hw, _, hA⟩ := hl
      rw [h1] at hs
      have hlt := sep_drop_label l t ok hA (by rw [hw]; simp) hs
      refine sep_append v _ ok hv ?_
      exact sep_go ⟨w, hw, ‹_›, hA⟩ hv n t _ (by simp at h3 hn; omega) hlt
    · rw [go, if_neg (fun h' => h (List.isPrefixOf_iff_prefix.1 h'))]
      exact ⟨hs.1, sep_go hl hv n cs _ (by simp at hn; omega) hs.2⟩

/-- Substituting one label that is not the beginning of another one, then the others, gives the same as all at once. -/
lemma expand_step {l v : Str} {ps : List (Str × Str)} (hl : IsLabel A μ l) (hv : μ ∉ v) (hps : ∀ p ∈ ps, IsLabel A μ p.1)
    (hd : Distinct ((l, v) :: ps)) (hlong : ∀ p ∈ ps, l <+: p.1 → l = p.1) : ∀ (n : ℕ) (s : Str), s.length ≤ n → Separated A μ True s →
    expandGo ((l, v) :: ps) 0 s = expandGo ps 0 (go l v 0 s) := by
  intro n
  induction n with
  | zero =>
    intro s h _
    have : s = [] := List.eq_nil_of_length_eq_zero (by omega)
    subst this
    simp [go, expandGo]
  | succ n ih =>
    intro s hn hs
    cases s with
    | nil => simp [go, expandGo]
    | cons c cs =>
      have hall : ∀ p ∈ (l, v) :: ps, IsLabel A μ p.1 := by
        intro p hp
        rcases List.mem_cons.1 hp with h | h
        · subst h; exact hl
        · exact hps p h
      have hcs : cs.length ≤ n := by simp at hn; omega
      by_cases h : l <+: c :: cs
      · obtain ⟨t, h1, h2, h3⟩ := label_split hl h
        have hb : best ((l, v) :: ps) (c :: cs) = some (l, v) := by
          rw [best_iff _ hd]
          refine ⟨by simp, h, ?_⟩
          intro p' hp' hpre
          rcases List.mem_cons.1 hp' with h4 | h4
          · rw [h4]
          · by_contra hlt
            have h5 := List.prefix_of_prefix_length_le h hpre (by simp at hlt; omega)
            have h6 := hlong p' h4 h5
            dsimp only at hlt
            rw [h6] at hlt
            omega
        rw [expandGo, hb]
        dsimp only
        rw [go, if_pos (List.isPrefixOf_iff_prefix.2 h), expand_append hps v _ hv, go_drop, expandGo_drop, h2]
        congr 1
        have hA : ∀ c ∈ l, A c := by obtain ⟨w, _, _, hA⟩ := hl; exact hA
        have hne : l ≠ [] := by obtain ⟨w, hw, _⟩ := hl; rw [hw]; simp
        refine ih t (by simp at h3 hn; omega) ?_
        rw [h1] at hs
        exact sep_mono t _ _ (fun _ => trivial) (sep_drop_label l t True hA hne hs)
      · by_cases hc : c = μ
        · subst hc
          have hAμ : A c := by obtain ⟨w, hw, _, hA⟩ := hl; exact hA c (by rw [hw]; simp)
          have hsep : Separated A c False cs := sep_mono cs _ _ (fun h => h hAμ) hs.2
          have hgo : go l v 0 (c :: cs) = c :: go l v 0 cs := by
            rw [go, if_neg (fun h' => h (List.isPrefixOf_iff_prefix.1 h'))]
          have hpre : ∀ p ∈ ps, (p.1 <+: c :: cs ↔ p.1 <+: c :: go l v 0 cs) := by
            intro p hp
            obtain ⟨w, hw, _, hA⟩ := hps p hp
            rw [hw, List.cons_prefix_cons, List.cons_prefix_cons]
            have := prefix_go (v := v) hl w cs (fun e he => hA e (by rw [hw]; simp [he])) hsep
            rw [this]
          have hdps : Distinct ps := fun p hp p' hp' => hd p (by simp [hp]) p' (by simp [hp'])
          rw [hgo]
          cases hb : best ps (c :: cs) with
          | none =>
            have hb1 : best ((l, v) :: ps) (c :: cs) = none := by
              rw [best_none] at *
              intro p hp
              rcases List.mem_cons.1 hp with h4 | h4
              · subst h4; exact h
              · exact hb p h4
            have hb2 : best ps (c :: go l v 0 cs) = none := by
              rw [best_none] at *
              intro p hp hh
              exact hb p hp ((hpre p hp).2 hh)
            rw [expandGo, hb1, expandGo, hb2]
            dsimp only
            rw [ih cs hcs (sep_mono cs _ _ (fun _ => trivial) hs.2)]
          | some p =>
            obtain ⟨g1, g2, g3⟩ := best_some ps _ p hb
            have hb1 : best ((l, v) :: ps) (c :: cs) = some p := by
              rw [best_iff _ hd]
              refine ⟨by simp [g1], g2, ?_⟩
              intro p' hp' hpp
              rcases List.mem_cons.1 hp' with h4 | h4
              · subst h4; exact absurd hpp h
              · exact g3 p' h4 hpp
            have hb2 : best ps (c :: go l v 0 cs) = some p := by
              rw [best_iff _ hdps]
              refine ⟨g1, (hpre p g1).1 g2, ?_⟩
              intro p' hp' hpp
              exact g3 p' hp' ((hpre p' hp').2 hpp)
            rw [expandGo, hb1, expandGo, hb2]
            dsimp only
            congr 1
            rw [expandGo_drop ((l, v) :: ps) (p.1.length - 1), expandGo_drop ps (p.1.length - 1)]
            -- the label is followed by the same text, with the substitution made there
            obtain ⟨t, e1, e2, e3⟩ := label_split (hps p g1) g2
            rw [e2]
            have hw : ∃ w, p.1 = c :: w ∧ c ∉ w ∧ ∀ d ∈ p.1, A d := hps p g1
            obtain ⟨w, hw1, hw2, hw3⟩ := hw
            have hlen : p.1.length - 1 = w.length := by rw [hw1]; simp
            have hcsw : cs = w ++ t := by
              rw [hw1, List.cons_append, List.cons.injEq] at e1
              exact e1.2
            have hgow : ∀ (w t : Str), c ∉ w → go l v 0 (w ++ t) = w ++ go l v 0 t := by
              intro w
              induction w with
              | nil => intro t _; rfl
              | cons d w ih =>
                intro t hd
                rw [List.cons_append, go_other hl (fun e => hd (by simp [e])), ih t fun e => hd (by simp [e])]
                rfl
            rw [hcsw, hgow w t hw2, hlen, List.drop_left]
            have hpsep : Separated A c True (p.1 ++ t) := by rw [← e1]; exact hs
            refine ih t (by simp at e3 hn; omega) ?_
            exact sep_mono t _ _ (fun _ => trivial) (sep_drop_label p.1 t True hw3 (by rw [hw1]; simp) hpsep)
        · rw [go_other hl hc, expand_other hall hc, expand_other hps hc,
            ih cs hcs (sep_mono cs _ _ (fun _ => trivial) hs.2)]

lemma fold_expand : ∀ (ps : List (Str × Str)) (s : Str), (∀ p ∈ ps, IsLabel A μ p.1) → (∀ p ∈ ps, μ ∉ p.2) → Distinct ps →
    ps.Pairwise (fun p p' => p.1 <+: p'.1 → p.1 = p'.1) → Separated A μ True s →
    ps.foldl (fun s p => replace p.1 p.2 s) s = expandGo ps 0 s
  | [], s, _, _, _, _, _ => by
    have h : ∀ s : Str, expandGo [] 0 s = s := by
      intro s
      induction s with
      | nil => rfl
      | cons c cs ih => rw [expandGo]; simp only [best]; rw [ih]
    rw [h]
    rfl
  | p :: ps, s, hl, hv, hd, hp, hs => by
    rw [List.pairwise_cons] at hp
    rw [List.foldl_cons]
    show List.foldl _ (go p.1 p.2 0 s) ps = _
    rw [fold_expand ps _ (fun q hq => hl q (by simp [hq])) (fun q hq => hv q (by simp [hq]))
      (fun q hq q' hq' => hd q (by simp [hq]) q' (by simp [hq'])) hp.2 (sep_go (hl p (by simp)) (hv p (by simp)) s.length s True le_rfl hs)]
    exact (expand_step (hl p (by simp)) (hv p (by simp)) (fun q hq => hl q (by simp [hq])) hd hp.1 s.length s le_rfl hs).symm

end Main

/-! ### The order of the labels -/

lemma lexLe_total : ∀ a b : Str, lexLe a b = true ∨ lexLe b a = true
  | [], _ => Or.inl (by simp [lexLe])
  | _ :: _, [] => Or.inr (by simp [lexLe])
  | a :: as, b :: bs => by
    by_cases h : a = b
    · subst h
      simpa [lexLe] using lexLe_total as bs
    · have h' : ¬ b = a := fun e => h e.symm
      have hne : a.toNat ≠ b.toNat := fun e => h (Char.toNat_inj.1 e)
      simp only [lexLe, h, h', if_false, decide_eq_true_eq]
      omega

lemma lexLe_trans : ∀ a b c : Str, lexLe a b = true → lexLe b c = true → lexLe a c = true
  | [], _, _, _, _ => by simp [lexLe]
  | _ :: _, [], _, h, _ => by simp [lexLe] at h
  | _ :: _, _ :: _, [], _, h => by simp [lexLe] at h
  | a :: as, b :: bs, c :: cs, h1, h2 => by
    unfold lexLe at *
    by_cases hab : a = b
    · subst hab
      rw [if_pos rfl] at h1
      by_cases hac : a = c
      · subst hac
        rw [if_pos rfl] at *
        exact lexLe_trans as bs cs h1 h2
      · rw [if_neg hac] at *
        exact h2
    · rw [if_neg hab, decide_eq_true_eq] at h1
      by_cases hbc : b = c
      · subst hbc
        rw [if_neg hab, decide_eq_true_eq]
        exact h1
      · rw [if_neg hbc, decide_eq_true_eq] at h2
        have hac : a ≠ c := fun e => by subst e; omega
        rw [if_neg hac, decide_eq_true_eq]
        omega

/-- A longer string comes after its beginning. -/
lemma lexLe_prefix : ∀ a b : Str, a <+: b → lexLe b a = true → a = b
  | [], [], _, _ => rfl
  | [], b :: bs, _, h => by simp [lexLe] at h
  | a :: as, [], h, _ => by simp at h
  | a :: as, b :: bs, h, h2 => by
    rw [List.cons_prefix_cons] at h
    obtain ⟨rfl, h⟩ := h
    simp only [lexLe, if_true] at h2
    rw [lexLe_prefix as bs h h2]

lemma sorted_pairwise (ps : List (Str × Str)) : (sorted ps).Pairwise (fun p p' => p.1 <+: p'.1 → p.1 = p'.1) := by
  have : Std.Total (fun a b : Str × Str => lexLe b.1 a.1 = true) := ⟨fun a b => lexLe_total b.1 a.1⟩
  have : IsTrans (Str × Str) (fun a b : Str × Str => lexLe b.1 a.1 = true) := ⟨fun a b c h1 h2 => lexLe_trans _ _ _ h2 h1⟩
  have h := List.pairwise_insertionSort (fun a b : Str × Str => lexLe b.1 a.1 = true) ps
  exact h.imp fun {a b} hab hpre => lexLe_prefix _ _ hpre hab

/-- The text of a system is the template with all the labels substituted at once, the longest label being taken at each place: labels begin with a character
that is used for nothing else and are separated from what comes before by a character that occurs in no label. -/
theorem template_expanded (A : Char → Prop) (μ : Char) (template : Str) (labels ins : List Str) (hlen : labels.length = ins.length)
    (hl : ∀ l ∈ labels, IsLabel A μ l) (hv : ∀ v ∈ ins, μ ∉ v) (hnd : labels.Nodup) (hs : Separated A μ True template) :
    instance_ template labels ins = some (expand (labels.zip ins) template) := by
  unfold instance_ expand
  rw [if_neg (by simp [hlen])]
  have hperm := List.perm_insertionSort (fun a b : Str × Str => lexLe b.1 a.1) (labels.zip ins)
  have hmem : ∀ p, p ∈ sorted (labels.zip ins) ↔ p ∈ labels.zip ins := fun p => hperm.mem_iff
  have hd : Distinct (labels.zip ins) := by
    intro p hp p' hp' e
    obtain ⟨i, hi, rfl⟩ := List.mem_iff_getElem.1 hp
    obtain ⟨j, hj, rfl⟩ := List.mem_iff_getElem.1 hp'
    simp only [List.getElem_zip] at e
    have : i = j := (List.Nodup.getElem_inj_iff hnd).1 e
    subst this
    rfl
  have hd' : Distinct (sorted (labels.zip ins)) := fun p hp p' hp' => hd p ((hmem p).1 hp) p' ((hmem p').1 hp')
  rw [fold_expand (A := A) (μ := μ) (sorted (labels.zip ins)) template
    (fun p hp => hl p.1 (List.of_mem_zip ((hmem p).1 hp)).1) (fun p hp => hv p.2 (List.of_mem_zip ((hmem p).1 hp)).2) hd' (sorted_pairwise _) hs]
  rw [expandGo_congr _ _ (best_congr _ _ hd' hd hmem)]

/-- A list of strings of another length than the list of labels is refused. -/
theorem mismatch_refused (template : Str) (labels ins : List Str) (h : labels.length ≠ ins.length) : instance_ template labels ins = none := if_pos h

/-- There is one system for each instance, in the order of the input. -/
theorem systems_one_each (template : Str) (labels : List Str) : ∀ (is : List (List Str)) (out : List Str), systems template labels is = some out →
    out.length = is.length ∧ ∀ i (h : i < is.length) (h' : i < out.length), instance_ template labels is[i] = some out[i]
  | [], out, h => by
    simp only [systems, Option.some.injEq] at h
    subst h
    simp
  | a :: is, out, h => by
    unfold systems at h
    cases h1 : instance_ template labels a with
    | none => rw [h1] at h; simp at h
    | some s =>
      rw [h1] at h
      cases h2 : systems template labels is with
      | none => rw [h2] at h; simp at h
      | some t =>
        rw [h2] at h
        simp only [Option.bind_some, Option.map_some, Option.some.injEq] at h
        subst h
        obtain ⟨g1, g2⟩ := systems_one_each template labels is t h2
        refine ⟨by simp [g1], ?_⟩
        intro i hi hi'
        cases i with
        | zero => exact h1
        | succ i => exact g2 i (by simpa using hi) (by simpa using hi')

/-- Labels of which one is the beginning of the other: `$T` and `$TA`. -/
example : instance_ "<t>$TA</t><u>$T</u>".toList ["$T".toList, "$TA".toList] ["10".toList, "20".toList] = some "<t>20</t><u>10</u>".toList := by decide +kernel

example := template_expanded (fun c => c = '$' ∨ c = 'T' ∨ c = 'A') '$' "<t>$TA</t><u>$T</u>".toList ["$T".toList, "$TA".toList] ["10".toList, "20".toList] rfl
  (by
    intro l hl
    simp only [List.mem_cons, List.not_mem_nil, or_false] at hl
    rcases hl with rfl | rfl
    · exact ⟨['T'], by decide +kernel, by decide, by decide +kernel⟩
    · exact ⟨['T', 'A'], by decide +kernel, by decide, by decide +kernel⟩) (by decide +kernel) (by decide +kernel)
  (by
    show Separated _ _ _ ['<', 't', '>', '$', 'T', 'A', '<', '/', 't', '>', '<', 'u', '>', '$', 'T', '<', '/', 'u', '>']
    simp [Separated])

/-- A label that ends with another one is not recognised, although it is the longer one. -/
theorem suffix_label_spoiled : ∃ template : Str, ∃ labels ins : List Str, labels.Nodup ∧
    instance_ template labels ins ≠ some (expand (labels.zip ins) template) :=
  ⟨"<t>ATEMP</t>".toList, ["TEMP".toList, "ATEMP".toList], ["300".toList, "200".toList], by decide +kernel, by decide +kernel⟩

/-- A label that occurs in a string to be inserted is substituted as well. -/
theorem inserted_label_spoiled : ∃ template : Str, ∃ labels ins : List Str, labels.Nodup ∧
    instance_ template labels ins ≠ some (expand (labels.zip ins) template) :=
  ⟨"<p>PREFIX</p><s>FILE</s>".toList, ["FILE".toList, "PREFIX".toList], ["a.xyz".toList, "NEWFILE".toList], by decide +kernel, by decide +kernel⟩

end Verif.Template
