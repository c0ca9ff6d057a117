import Verif.Props.C01_FreshReads
/-
C03. Synchronised representations always agree with the last one written.
-/
namespace Verif.Depend

variable {V : Type}

/-- The last assignment to a member of group `g` in a history, if any. -/
def lastWrite (net : Net V) (g : Nat) : List (Op V) → Option (Nat × V)
  | [] => none
  | op :: ops => match lastWrite net g ops with
    | some w => some w
    | none => match op with
      | .set i v => match net.kind i with
        | .peer g' _ => if g' = g then some (i, v) else none
        | _ => none
      | .get _ => none

theorem Spec.run_last (net : Net V) (g : Nat) (ops : List (Op V)) (S : Spec V)
    (hS : ∀ i c, net.kind i = .leaf ∨ (∃ g', net.kind i = .peer g' c ∧ g' ≠ g) → S.last g ≠ i)
    (hl : ∃ c, net.kind (S.last g) = .peer g c) :
    match lastWrite net g ops with
    | some (i, v) => (S.run net ops).2.last g = i ∧ (S.run net ops).2.given i = v
    | none => (S.run net ops).2.last g = S.last g ∧ (S.run net ops).2.given (S.last g) = S.given (S.last g) := by
  induction ops generalizing S with
  | nil => simp [lastWrite, Spec.run]
  | cons op ops ih =>
    have step_ok : ∀ op : Op V, (∀ i c, net.kind i = .leaf ∨ (∃ g', net.kind i = .peer g' c ∧ g' ≠ g) →
        (S.step net op).2.last g ≠ i) ∧ (∃ c, net.kind ((S.step net op).2.last g) = .peer g c) := by
      intro op
      have key : ∃ c, net.kind ((S.step net op).2.last g) = .peer g c := by
        cases op with
        | get i => exact hl
        | set i v =>
          cases hk : net.kind i with
          | leaf => simp [Spec.step, hk]; exact hl
          | computed p => simp [Spec.step, hk]; exact hl
          | peer g' c =>
            simp [Spec.step, hk]
            by_cases hg : g = g'
            · subst hg; simp [upd, hk]
            · simp [upd, hg]; exact hl
      refine ⟨?_, key⟩
      intro i c h e
      obtain ⟨c', hc'⟩ := key
      rw [e] at hc'
      rcases h with h | ⟨g', h, hne⟩
      · rw [h] at hc'; cases hc'
      · rw [h] at hc'; cases hc'; exact hne rfl
    have := ih (S.step net op).2 (step_ok op).1 (step_ok op).2
    simp only [lastWrite, Spec.run]
    cases hw : lastWrite net g ops with
    | some w => rw [hw] at this; exact this
    | none =>
      rw [hw] at this
      simp only at this ⊢
      cases op with
      | get i => simpa [Spec.step] using this
      | set i v =>
        cases hk : net.kind i with
        | leaf =>
          have hne : S.last g ≠ i := hS i (fun _ v => v) (.inl hk)
          simp only [Spec.step, hk] at this
          simp only [Spec.step, hk]
          rw [upd_ne _ _ hne] at this
          exact this
        | computed p => simpa [Spec.step, hk] using this
        | peer g' c =>
          by_cases hg : g' = g
          · subst hg
            simp [Spec.step, hk] at this
            simpa [Spec.step, hk] using this
          · have hne : S.last g ≠ i := hS i c (.inr ⟨g', hk, hg⟩)
            have hg' : g ≠ g' := fun e => hg e.symm
            simp only [Spec.step, hk, upd_ne _ _ hg', upd_ne _ _ hne] at this
            simp only [Spec.step, hk, hg, if_false]
            exact this

/-- After any history, reading representation `k` of a group gives what was written last to the group: the value itself
if it was written to `k`, its conversion otherwise. -/
theorem synchronised (net : Net V) (wf : net.WF) (cov : net.Covered) (v0 : Nat → V) (man0 : Nat → Nat)
    (hm : net.ManualOk man0) (ops : List (Op V)) (hops : ∀ op ∈ ops, op.Accepted net)
    (k g : Nat) (conv : Nat → V → V) (hk : k < net.size) (hkind : net.kind k = .peer g conv) (i : Nat) (v : V)
    (hw : lastWrite net g ops = some (i, v)) :
    (run net (initState net v0 man0) (ops ++ [.get k])).1 =
      (run net (initState net v0 man0) ops).1 ++ [.got (if i = k then v else conv i v)] := by
  have hm' := hm k hk g conv hkind
  obtain ⟨⟨c0, hc0⟩, _⟩ := hm'
  rw [fresh_reads_covered net wf cov v0 man0 hm (ops ++ [Op.get k])
      (by intro op hop; rcases List.mem_append.1 hop with h | h
          · exact hops op h
          · simp at h; subst h; exact hk),
    fresh_reads_covered net wf cov v0 man0 hm ops hops, Spec.run_append]
  congr 1
  simp only [Spec.run, Spec.step]
  have hlast := Spec.run_last net g ops ⟨v0, man0⟩ (by
    intro i c h e
    simp only at e
    rw [e] at hc0
    rcases h with h | ⟨g', h, hne⟩
    · rw [h] at hc0; cases hc0
    · rw [h] at hc0; cases hc0; exact hne rfl) ⟨c0, hc0⟩
  rw [hw] at hlast
  simp only at hlast
  rw [Spec.value_peer _ hkind, hlast.1, hlast.2]
  by_cases h : i = k
  · subst h; simp [hlast.2]
  · simp [h]

/-- Whatever the history, two representations read one after the other are conversions of each other, when the
conversions are mutually consistent. -/
theorem representations_agree (net : Net V) (wf : net.WF) (cov : net.Covered) (v0 : Nat → V) (man0 : Nat → Nat)
    (hm : net.ManualOk man0) (ops : List (Op V)) (hops : ∀ op ∈ ops, op.Accepted net)
    (g : Nat) (conv : Nat → Nat → V → V) (hconv : ∀ j, j ∈ net.peers g → net.kind j = .peer g (conv j))
    (hcons : ∀ a b c x, a ∈ net.peers g → b ∈ net.peers g → c ∈ net.peers g → a ≠ b → b ≠ c → a ≠ c →
      conv a b (conv b c x) = conv a c x)
    (hinv : ∀ a b x, a ∈ net.peers g → b ∈ net.peers g → a ≠ b → conv a b (conv b a x) = x)
    (k m : Nat) (hk : k ∈ net.peers g) (hmg : m ∈ net.peers g) (hkm : k ≠ m) :
    ∃ x y, (run net (initState net v0 man0) (ops ++ [.get k, .get m])).1 =
      (run net (initState net v0 man0) ops).1 ++ [.got x, .got y] ∧ x = conv k m y := by
  have hk' := (Net.mem_peers.1 hk).1
  have hm' := (Net.mem_peers.1 hmg).1
  rw [fresh_reads_covered net wf cov v0 man0 hm (ops ++ [Op.get k, Op.get m])
      (by intro op hop; rcases List.mem_append.1 hop with h | h
          · exact hops op h
          · simp at h; rcases h with rfl | rfl
            · exact hk'
            · exact hm'),
    fresh_reads_covered net wf cov v0 man0 hm ops hops, Spec.run_append]
  have hinv' := (run_good' wf cov ops (inv_init v0 man0 hm) hops).2
  generalize hS : (Spec.run net ⟨v0, man0⟩ ops).2 = S at hinv' ⊢
  refine ⟨S.value net k, S.value net m, by simp [Spec.run, Spec.step], ?_⟩
  obtain ⟨_, ⟨c, hc⟩, hsz, _⟩ := hinv'.man k hk' g (conv k) (hconv k hk)
  have hl : S.last g ∈ net.peers g := Net.mem_peers.2 ⟨hsz, c, hc⟩
  rw [Spec.value_peer _ (hconv k hk), Spec.value_peer _ (hconv m hmg)]
  by_cases h1 : S.last g = k
  · have h2 : S.last g ≠ m := by rw [h1]; exact hkm
    rw [if_pos h1, if_neg h2, h1, hinv k m _ hk hmg hkm]
  · rw [if_neg h1]
    by_cases h2 : S.last g = m
    · rw [if_pos h2, h2]
    · rw [if_neg h2, hcons k m _ _ hk hmg hl hkm (fun e => h2 e.symm) (fun e => h1 e.symm)]

/-! ### A case meeting the hypotheses -/

example : lastWrite exNet 0 exOps = some (2, 10) := by decide +kernel

example : (run exNet (initState exNet (fun _ => 1) (fun _ => 1)) (exOps ++ [.get 1])).1 =
    (run exNet (initState exNet (fun _ => 1) (fun _ => 1)) exOps).1 ++ [.got (10 - 1)] := by
  have := synchronised exNet exNet_wf (exNet_exact.covered exNet_wf) (fun _ => 1) (fun _ => 1) exNet_manual exOps
    exOps_accepted 1 0 (fun _ v => v - 1) (by decide) rfl 2 10 (by decide +kernel)
  simpa using this

end Verif.Depend
