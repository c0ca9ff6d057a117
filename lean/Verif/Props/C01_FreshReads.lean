import Verif.Depend.Refine
/-
C01. Reading a computed quantity never returns stale data.
-/
namespace Verif.Depend

variable {V : Type}

/-- Every history of accepted operations gives the results of the specification that has no caches at all
(`Spec`: values given, everything else recomputed from scratch), for every network whose declarations cover its reads. -/
theorem fresh_reads_covered (net : Net V) (wf : net.WF) (cov : net.Covered) (v0 : Nat → V) (man0 : Nat → Nat)
    (hm : net.ManualOk man0) (ops : List (Op V)) (hops : ∀ op ∈ ops, op.Accepted net) :
    (run net (initState net v0 man0) ops).1 = (Spec.run net ⟨v0, man0⟩ ops).1 :=
  (run_good' wf cov ops (inv_init v0 man0 hm) hops).1

/-- In particular when every function reads exactly what it declares. -/
theorem fresh_reads (net : Net V) (wf : net.WF) (ex : net.Exact) (v0 : Nat → V) (man0 : Nat → Nat)
    (hm : net.ManualOk man0) (ops : List (Op V)) (hops : ∀ op ∈ ops, op.Accepted net) :
    (run net (initState net v0 man0) ops).1 = (Spec.run net ⟨v0, man0⟩ ops).1 :=
  fresh_reads_covered net wf (ex.covered wf) v0 man0 hm ops hops

/-! ### A case meeting the hypotheses: mass, positions in two representations, scaled mass, energy, total. -/

/-- 0 = m, 1 = q, 2 = qnm, 3 = sqrt-mass stand-in, 4 = energy(q, 3), 5 = total(2, 4). -/
def exNet : Net Int where
  size := 6
  kind := fun i => match i with
    | 0 => .leaf
    | 1 => .peer 0 (fun _ v => v - 1)
    | 2 => .peer 0 (fun _ v => v + 1)
    | 3 => .computed (.read 0 fun a => .ret (2 * a))
    | 4 => .computed (.read 1 fun a => .read 3 fun b => .ret (a * b))
    | _ => .computed (.read 2 fun a => .read 4 fun b => .ret (a + b))
  deps := fun i => match i with
    | 3 => [0]
    | 4 => [1, 3]
    | 5 => [4, 2]
    | _ => []

theorem exNet_wf : exNet.WF := by
  refine ⟨?_, ?_, ?_⟩
  · intro i hi d hd
    have hi' : i < 6 := hi
    match i, hi' with
    | 0, _ => simp [exNet] at hd
    | 1, _ => simp [exNet] at hd
    | 2, _ => simp [exNet] at hd
    | 3, _ => simp [exNet] at hd; omega
    | 4, _ => simp [exNet] at hd; omega
    | 5, _ => simp [exNet] at hd; omega
  · intro i hi hn
    have hi' : i < 6 := hi
    match i, hi' with
    | 0, _ => rfl
    | 1, _ => rfl
    | 2, _ => rfl
    | 3, _ => exact absurd rfl (hn _)
    | 4, _ => exact absurd rfl (hn _)
    | 5, _ => exact absurd rfl (hn _)
  · intro i hi p hp j hj
    have hi' : i < 6 := hi
    match i, hi' with
    | 0, _ => simp [exNet] at hp
    | 1, _ => simp [exNet] at hp
    | 2, _ => simp [exNet] at hp
    | 3, _ => simp [exNet] at hp; subst hp; cases hj with
      | here => omega
      | there _ _ _ _ h => cases h
    | 4, _ => simp [exNet] at hp; subst hp; cases hj with
      | here => omega
      | there _ _ _ _ h => cases h with
        | here => omega
        | there _ _ _ _ h => cases h
    | 5, _ => simp [exNet] at hp; subst hp; cases hj with
      | here => omega
      | there _ _ _ _ h => cases h with
        | here => omega
        | there _ _ _ _ h => cases h

theorem exNet_exact : exNet.Exact := by
  intro i hi p hp
  have hi' : i < 6 := hi
  match i, hi' with
  | 0, _ => simp [exNet] at hp
  | 1, _ => simp [exNet] at hp
  | 2, _ => simp [exNet] at hp
  | 3, _ =>
    simp [exNet] at hp; subst hp
    refine ⟨fun j hj => ?_, fun d hd => ?_⟩
    · cases hj with
      | here => simp [exNet]
      | there _ _ _ _ h => cases h
    · simp [exNet] at hd; subst hd; exact .here _ _
  | 4, _ =>
    simp [exNet] at hp; subst hp
    refine ⟨fun j hj => ?_, fun d hd => ?_⟩
    · cases hj with
      | here => simp [exNet]
      | there _ _ _ _ h => cases h with
        | here => simp [exNet]
        | there _ _ _ _ h => cases h
    · simp [exNet] at hd
      rcases hd with rfl | rfl
      · exact .here _ _
      · exact .there _ _ _ (fun _ => .here _ _)
  | 5, _ =>
    simp [exNet] at hp; subst hp
    refine ⟨fun j hj => ?_, fun d hd => ?_⟩
    · cases hj with
      | here => simp [exNet]
      | there _ _ _ _ h => cases h with
        | here => simp [exNet]
        | there _ _ _ _ h => cases h
    · simp [exNet] at hd
      rcases hd with rfl | rfl
      · exact .there _ _ _ (fun _ => .here _ _)
      · exact .here _ _

theorem exNet_manual : exNet.ManualOk (fun _ => 1) := by
  intro i hi g conv hk
  have hi' : i < 6 := hi
  match i, hi' with
  | 1, _ => simp [exNet] at hk; obtain ⟨rfl, _⟩ := hk; exact ⟨⟨_, rfl⟩, by decide⟩
  | 2, _ => simp [exNet] at hk; obtain ⟨rfl, _⟩ := hk; exact ⟨⟨_, rfl⟩, by decide⟩
  | 0, _ => simp [exNet] at hk
  | 3, _ => simp [exNet] at hk
  | 4, _ => simp [exNet] at hk
  | 5, _ => simp [exNet] at hk

/-- A history with writes to both representations; the last read of the total is 10 + (10-1)*2*3. -/
def exOps : List (Op Int) := [.get 5, .set 0 3, .set 2 10, .get 1, .get 5, .get 4]

theorem exOps_accepted : ∀ op ∈ exOps, op.Accepted exNet := by
  intro op hop
  simp only [exOps, List.mem_cons, List.mem_nil_iff, or_false] at hop
  rcases hop with rfl | rfl | rfl | rfl | rfl | rfl <;> simp [Op.Accepted, exNet]

example : (run exNet (initState exNet (fun _ => 1) (fun _ => 1)) exOps).1 =
    (Spec.run exNet ⟨fun _ => 1, fun _ => 1⟩ exOps).1 :=
  fresh_reads exNet exNet_wf exNet_exact _ _ exNet_manual exOps exOps_accepted

example : (run exNet (initState exNet (fun _ => 1) (fun _ => 1)) exOps).1 =
    [.got 4, .setRes .ok, .setRes .ok, .got 9, .got 64, .got 54] := by decide +kernel

end Verif.Depend
