import Verif.Pool.Lemmas
/-
Model of the MPI request pool: `InterfaceMPI.poll`, `_collect`, `_dispatch` (ipi/interfaces/mpi.py:215-324).

Requests are keys; each has a structure of type `P` and `size` gives its atom count. Drivers are represented by which of them
have replied when `poll` looks (`ready`); a reply is the list of `eval` of the structures sent (the transport of the numbers is
C14). `release` removes finished requests (ipi/engine/forcefields.py:249-271).
-/
namespace Verif.MpiPool
open Verif.Pool (Key RStatus)

structure Cfg (P R : Type) where
  batch : Nat
  size : P → Nat
  eval : P → R

/-- A slot of `self._ranks`; `work` is what the driver was sent, in order (empty when IDLE). -/
structure Slot (P : Type) where
  busy : Bool := false
  reqs : List Key := []
  work : List P := []

structure St (P R : Type) where
  requests : List Key := []
  pos : Key → Option P := fun _ => none
  status : Key → RStatus := fun _ => .queued
  result : Key → Option R := fun _ => none
  slots : List (Slot P) := []
  nextKey : Nat := 0

inductive Crash where
  /-- numpy's "could not broadcast" raised while packing structures of different size (mpi.py:317) -/
  | valueError
deriving DecidableEq

variable {P R : Type}

/-- `req["result"] = ...; req["status"] = "Done"` for the requests of a slot, paired in order with the results
(mpi.py:279-292). -/
def deliver (reqs : List Key) (rs : List R) (s : St P R) : St P R :=
  (reqs.zip rs).foldl (fun s x => { s with
    result := fun k => if k = x.1 then some x.2 else s.result k
    status := fun k => if k = x.1 then .done else s.status k }) s

/-- `_collect` (mpi.py:246-271): slots in order; `ready i` says whether slot `i` has a reply. -/
def collect (cfg : Cfg P R) (ready : Nat → Bool) : Nat → List (Slot P) → St P R → St P R × List (Slot P)
  | _, [], s => (s, [])
  | i, sl :: sls, s =>
    if sl.busy && ready i then
      let s := deliver sl.reqs (sl.work.map cfg.eval) s
      let (s, rest) := collect cfg ready (i + 1) sls s
      (s, { sl with busy := false, reqs := [] } :: rest)
    else
      let (s, rest) := collect cfg ready (i + 1) sls s
      (s, sl :: rest)

/-- Packing checks: all structures must have the size of the first one (mpi.py:308-317, C14). -/
def packable (cfg : Cfg P R) : List P → Bool
  | [] => true
  | p :: ps => ps.all fun q => cfg.size q == cfg.size p

/-- `_dispatch` (mpi.py:294-324): the list of queued requests is handed out in chunks of `batch` to idle slots. -/
def dispatch (cfg : Cfg P R) : List Key → List (Slot P) → St P R → Except Crash (St P R × List (Slot P))
  | _, [], s => .ok (s, [])
  | queued, sl :: sls, s =>
    if sl.busy || queued.isEmpty then
      match dispatch cfg queued sls s with
      | .error e => .error e
      | .ok (s, rest) => .ok (s, sl :: rest)
    else
      let reqs := queued.take cfg.batch
      let work := reqs.filterMap s.pos
      if packable cfg work then
        match dispatch cfg (queued.drop cfg.batch) sls
            { s with status := fun k => if k ∈ reqs then .running else s.status k } with
        | .error e => .error e
        | .ok (s, rest) => .ok (s, { busy := true, reqs := reqs, work := work } :: rest)
      else .error .valueError

/-- `poll` (mpi.py:215-228). -/
def poll (cfg : Cfg P R) (ready : Nat → Bool) (s : St P R) : Except Crash (St P R) :=
  let (s, slots) := collect cfg ready 0 s.slots s
  match dispatch cfg (s.requests.filter fun k => s.status k = .queued) slots s with
  | .error e => .error e
  | .ok (s, slots) => .ok { s with slots := slots }

inductive Op (P : Type) where
  | queue (p : P)
  | release (k : Key)
  | poll (ready : Nat → Bool)

def step (cfg : Cfg P R) (s : St P R) : Op P → Except Crash (St P R)
  | .queue p => .ok { s with
      requests := s.requests ++ [s.nextKey]
      pos := fun k => if k = s.nextKey then some p else s.pos k
      status := fun k => if k = s.nextKey then .queued else s.status k
      result := fun k => if k = s.nextKey then none else s.result k
      nextKey := s.nextKey + 1 }
  | .release k => .ok (if s.status k = .done then { s with requests := s.requests.erase k } else s)
  | .poll ready => poll cfg ready s

def run (cfg : Cfg P R) : St P R → List (Op P) → Except Crash (St P R)
  | s, [] => .ok s
  | s, op :: ops =>
    match step cfg s op with
    | .ok s' => run cfg s' ops
    | .error e => .error e

/-- Pool with `n` driver roots, before any request. -/
def init (n : Nat) : St P R := { slots := List.replicate n {} }

/-! ### invariant -/

/-- Keys held by busy slots. -/
def held (sls : List (Slot P)) : List Key := (sls.filter (·.busy)).flatMap (·.reqs)

structure Inv (cfg : Cfg P R) (s : St P R) (slots : List (Slot P)) : Prop where
  ltReq : ∀ k ∈ s.requests, k < s.nextKey
  ltHeld : ∀ k ∈ held slots, k < s.nextKey
  nodupReq : s.requests.Nodup
  nodupHeld : (held slots).Nodup
  running : ∀ k, k < s.nextKey → (s.status k = .running ↔ k ∈ held slots)
  work : ∀ sl ∈ slots, sl.busy = true → sl.work.map some = sl.reqs.map s.pos
  hasPos : ∀ k, k < s.nextKey → (s.pos k).isSome = true
  result : ∀ k, k < s.nextKey → s.status k = .done → s.result k = (s.pos k).map cfg.eval
  inReq : ∀ k, k < s.nextKey → s.status k ≠ .done → k ∈ s.requests
  size : ∀ sl ∈ slots, sl.busy = true → sl.reqs.length ≤ cfg.batch

theorem deliver_spec (reqs : List Key) : ∀ (rs : List R) (s : St P R), reqs.length = rs.length → reqs.Nodup →
    (deliver reqs rs s).requests = s.requests ∧ (deliver reqs rs s).pos = s.pos ∧ (deliver reqs rs s).slots = s.slots ∧
    (deliver reqs rs s).nextKey = s.nextKey ∧
    (∀ k, (deliver reqs rs s).status k = if k ∈ reqs then .done else s.status k) ∧
    (∀ k, k ∉ reqs → (deliver reqs rs s).result k = s.result k) ∧
    (∀ i (h1 : i < reqs.length) (h2 : i < rs.length), (deliver reqs rs s).result reqs[i] = some rs[i]) := by
  induction reqs with
  | nil => intro rs s _ _; simp [deliver]
  | cons r reqs ih =>
    intro rs s hl hnd
    cases rs with
    | nil => simp at hl
    | cons x rs =>
      simp only [List.nodup_cons] at hnd
      have e : deliver (r :: reqs) (x :: rs) s = deliver reqs rs { s with
          result := fun k => if k = r then some x else s.result k
          status := fun k => if k = r then .done else s.status k } := rfl
      obtain ⟨a, b, c, d, f, g, h⟩ := ih rs { s with
          result := fun k => if k = r then some x else s.result k
          status := fun k => if k = r then .done else s.status k } (by simpa using hl) hnd.2
      rw [e]
      refine ⟨a, b, c, d, fun k => ?_, fun k hk => ?_, fun i h1 h2 => ?_⟩
      · rw [f]
        by_cases h1 : k ∈ reqs
        · simp [h1]
        · by_cases h2 : k = r
          · simp [h2]
          · simp [h1, h2]
      · simp only [List.mem_cons, not_or] at hk
        rw [g k hk.2]; simp [hk.1]
      · cases i with
        | zero => simp only [List.getElem_cons_zero]; rw [g r hnd.1]; simp
        | succ i => exact h i (by simpa using h1) (by simpa using h2)

theorem held_cons (sl : Slot P) (sls : List (Slot P)) : held (sl :: sls) = (if sl.busy then sl.reqs else []) ++ held sls := by
  unfold held
  cases h : sl.busy <;> simp [h]

theorem held_append (a b : List (Slot P)) : held (a ++ b) = held a ++ held b := by
  simp [held]

/-- Moving one slot from busy to idle after its results were delivered. -/
theorem inv_deliver {cfg : Cfg P R} {s : St P R} {pre post : List (Slot P)} {sl : Slot P}
    (h : Inv cfg s (pre ++ sl :: post)) (hb : sl.busy = true) :
    Inv cfg (deliver sl.reqs (sl.work.map cfg.eval) s) (pre ++ { sl with busy := false, reqs := [] } :: post) := by
  have hw := h.work sl (by simp) hb
  have hheld : held (pre ++ sl :: post) = held pre ++ (sl.reqs ++ held post) := by
    rw [held_append, held_cons, hb]; rfl
  have hheld' : held (pre ++ { sl with busy := false, reqs := [] } :: post) = held pre ++ held post := by
    rw [held_append, held_cons]; rfl
  have hnd := h.nodupHeld
  rw [hheld] at hnd
  have hnd2 := List.nodup_append.1 hnd
  have hnd3 := List.nodup_append.1 hnd2.2.1
  have hlen : sl.reqs.length = (sl.work.map cfg.eval).length := by
    have := congrArg List.length hw; simpa using this.symm
  obtain ⟨a, b, c, d, f, g, hr⟩ := deliver_spec sl.reqs (sl.work.map cfg.eval) s hlen hnd3.1
  have hlt : ∀ k ∈ sl.reqs, k < s.nextKey := fun k hk => h.ltHeld k (by rw [hheld]; simp [hk])
  have hdisj : ∀ k ∈ sl.reqs, k ∉ held pre ++ held post := by
    intro k hk hm
    rcases List.mem_append.1 hm with hm | hm
    · exact hnd2.2.2 k hm k (by simp [hk]) rfl
    · exact hnd3.2.2 k hk k hm rfl
  refine
    { ltReq := by rw [a, d]; exact h.ltReq, ltHeld := ?_, nodupReq := by rw [a]; exact h.nodupReq, nodupHeld := ?_, running := ?_,
      work := ?_, hasPos := by rw [b, d]; exact h.hasPos, result := ?_, inReq := ?_, size := ?_ }
  · intro k hk
    rw [d]
    rw [hheld'] at hk
    apply h.ltHeld k
    rw [hheld]
    rcases List.mem_append.1 hk with hk | hk <;> simp [hk]
  · rw [hheld']
    rw [List.nodup_append]
    refine ⟨hnd2.1, hnd3.2.1, fun x hx y hy => hnd2.2.2 x hx y (by simp [hy])⟩
  · intro k hk
    rw [d] at hk
    rw [f, hheld']
    by_cases hm : k ∈ sl.reqs
    · simp only [hm, if_true]
      constructor
      · intro h; cases h
      · intro h2; exact absurd h2 (hdisj k hm)
    · rw [if_neg hm, h.running k hk, hheld]
      simp [hm]
  · intro sl' hs' hb'
    rw [b]
    rcases List.mem_append.1 hs' with hs' | hs'
    · exact h.work sl' (by simp [hs']) hb'
    · rcases List.mem_cons.1 hs' with e | hs'
      · rw [e] at hb'; cases hb'
      · exact h.work sl' (by simp [hs']) hb'
  · intro k hk hst
    rw [d] at hk
    rw [b]
    by_cases hm : k ∈ sl.reqs
    · obtain ⟨i, hi, e⟩ := List.getElem_of_mem hm
      have hi2 : i < sl.work.length := by have := hlen; simp at this; omega
      have h1 := hr i hi (by simpa using hi2)
      rw [e] at h1
      rw [h1]
      have h2 : (sl.work.map some)[i]'(by simpa using hi2) = (sl.reqs.map s.pos)[i]'(by simpa using hi) := by
        congr 1
      simp only [List.getElem_map] at h2 ⊢
      rw [e] at h2
      rw [← h2]; rfl
    · rw [g k hm]
      rw [f, if_neg hm] at hst
      exact h.result k hk hst
  · intro k hk hst
    rw [d] at hk
    rw [a]
    by_cases hm : k ∈ sl.reqs
    · rw [f, if_pos hm] at hst; exact absurd rfl hst
    · rw [f, if_neg hm] at hst; exact h.inReq k hk hst
  · intro sl' hs' hb'
    rcases List.mem_append.1 hs' with hs' | hs'
    · exact h.size sl' (by simp [hs']) hb'
    · rcases List.mem_cons.1 hs' with e | hs'
      · rw [e] at hb'; cases hb'
      · exact h.size sl' (by simp [hs']) hb'

theorem collect_inv {cfg : Cfg P R} {ready : Nat → Bool} (sls : List (Slot P)) : ∀ (i : Nat) (pre : List (Slot P)) (s : St P R),
    Inv cfg s (pre ++ sls) → Inv cfg (collect cfg ready i sls s).1 (pre ++ (collect cfg ready i sls s).2) := by
  induction sls with
  | nil => intro i pre s h; exact h
  | cons sl sls ih =>
    intro i pre s h
    unfold collect
    split
    · rename_i hc
      simp only [Bool.and_eq_true] at hc
      have h1 := inv_deliver h hc.1
      have := ih (i + 1) (pre ++ [{ sl with busy := false, reqs := [] }]) _ (by simpa using h1)
      simpa using this
    · have := ih (i + 1) (pre ++ [sl]) s (by simpa using h)
      simpa using this

theorem map_some_filterMap {f : Key → Option P} (l : List Key) (h : ∀ k ∈ l, (f k).isSome = true) :
    (l.filterMap f).map some = l.map f := by
  induction l with
  | nil => rfl
  | cons k l ih =>
    obtain ⟨p, hp⟩ := Option.isSome_iff_exists.1 (h k (by simp))
    rw [List.filterMap_cons_some hp, List.map_cons, List.map_cons, hp, ih fun k hk => h k (by simp [hk])]

/-- Handing a chunk of queued requests to an idle slot. -/
theorem inv_dispatch {cfg : Cfg P R} {s : St P R} {pre post : List (Slot P)} {sl : Slot P} {reqs : List Key}
    (h : Inv cfg s (pre ++ sl :: post)) (hb : sl.busy = false) (hq : ∀ k ∈ reqs, k ∈ s.requests ∧ s.status k = .queued)
    (hnd : reqs.Nodup) (hsz : reqs.length ≤ cfg.batch) :
    Inv cfg { s with status := fun k => if k ∈ reqs then .running else s.status k }
      (pre ++ { busy := true, reqs := reqs, work := reqs.filterMap s.pos } :: post) := by
  have hheld : held (pre ++ sl :: post) = held pre ++ held post := by rw [held_append, held_cons, hb]; rfl
  have hheld' : held (pre ++ { busy := true, reqs := reqs, work := reqs.filterMap s.pos } :: post) = held pre ++ (reqs ++ held post) := by
    rw [held_append, held_cons]; rfl
  have hlt : ∀ k ∈ reqs, k < s.nextKey := fun k hk => h.ltReq k (hq k hk).1
  have hnot : ∀ k ∈ reqs, k ∉ held pre ++ held post := by
    intro k hk hm
    have := (h.running k (hlt k hk)).2 (by rw [hheld]; exact hm)
    rw [(hq k hk).2] at this; cases this
  refine
    { ltReq := h.ltReq, ltHeld := ?_, nodupReq := h.nodupReq, nodupHeld := ?_, running := ?_, work := ?_, hasPos := h.hasPos,
      result := ?_, inReq := ?_, size := ?_ }
  · intro k hk
    rw [hheld'] at hk
    rcases List.mem_append.1 hk with hk | hk
    · exact h.ltHeld k (by rw [hheld]; simp [hk])
    · rcases List.mem_append.1 hk with hk | hk
      · exact hlt k hk
      · exact h.ltHeld k (by rw [hheld]; simp [hk])
  · rw [hheld']
    have h0 := h.nodupHeld
    rw [hheld] at h0
    have h1 := List.nodup_append.1 h0
    rw [List.nodup_append]
    refine ⟨h1.1, ?_, ?_⟩
    · rw [List.nodup_append]
      exact ⟨hnd, h1.2.1, fun x hx y hy e => hnot x hx (by rw [e]; simp [hy])⟩
    · intro x hx y hy e
      rcases List.mem_append.1 hy with hy | hy
      · exact hnot y hy (by rw [← e]; simp [hx])
      · exact h1.2.2 x hx y hy e
  · intro k hk
    have hk : k < s.nextKey := hk
    rw [hheld']
    by_cases hm : k ∈ reqs
    · simp [hm]
    · simp only [hm, if_false]
      rw [h.running k hk, hheld]
      simp [hm]
  · intro sl' hs' hb'
    rcases List.mem_append.1 hs' with hs' | hs'
    · exact h.work sl' (by simp [hs']) hb'
    · rcases List.mem_cons.1 hs' with e | hs'
      · subst e
        simp only
        exact map_some_filterMap reqs fun k hk => h.hasPos k (hlt k hk)
      · exact h.work sl' (by simp [hs']) hb'
  · intro k hk hst
    simp only at hst
    split at hst
    · cases hst
    · exact h.result k hk hst
  · intro k hk hst
    by_cases hm : k ∈ reqs
    · exact (hq k hm).1
    · simp only [hm, if_false] at hst
      exact h.inReq k hk hst
  · intro sl' hs' hb'
    rcases List.mem_append.1 hs' with hs' | hs'
    · exact h.size sl' (by simp [hs']) hb'
    · rcases List.mem_cons.1 hs' with e | hs'
      · subst e; exact hsz
      · exact h.size sl' (by simp [hs']) hb'

theorem dispatch_inv {cfg : Cfg P R} (sls : List (Slot P)) : ∀ (queued : List Key) (pre : List (Slot P)) (s s' : St P R) (sls' : List (Slot P)),
    Inv cfg s (pre ++ sls) → (∀ k ∈ queued, k ∈ s.requests ∧ s.status k = .queued) → queued.Nodup →
    dispatch cfg queued sls s = .ok (s', sls') → Inv cfg s' (pre ++ sls') := by
  induction sls with
  | nil => intro queued pre s s' sls' h _ _ hd; simp [dispatch] at hd; obtain ⟨rfl, rfl⟩ := hd; exact h
  | cons sl sls ih =>
    intro queued pre s s' sls' h hq hnd hd
    unfold dispatch at hd
    split at hd
    · split at hd
      · cases hd
      · rename_i s1 rest hrest
        simp at hd
        obtain ⟨rfl, rfl⟩ := hd
        have := ih queued (pre ++ [sl]) s _ _ (by simpa using h) hq hnd hrest
        simpa using this
    · rename_i hb
      simp only [Bool.or_eq_true, not_or, Bool.not_eq_true] at hb
      dsimp only at hd
      split at hd
      · split at hd
        · cases hd
        · rename_i s1 rest hrest
          simp at hd
          obtain ⟨rfl, rfl⟩ := hd
          have hnd2 : (queued.take cfg.batch ++ queued.drop cfg.batch).Nodup := by rw [List.take_append_drop]; exact hnd
          have hnd3 := List.nodup_append.1 hnd2
          have h1 := inv_dispatch (reqs := queued.take cfg.batch) h hb.1 (fun k hk => hq k (List.mem_of_mem_take hk)) hnd3.1
            (by rw [List.length_take]; omega)
          have := ih (queued.drop cfg.batch) (pre ++ [{ busy := true, reqs := queued.take cfg.batch, work := (queued.take cfg.batch).filterMap s.pos }])
            { s with status := fun k => if k ∈ queued.take cfg.batch then .running else s.status k } _ _ (by simpa using h1) (fun k hk => ⟨(hq k (List.mem_of_mem_drop hk)).1, by
              have : k ∉ queued.take cfg.batch := fun hm => hnd3.2.2 k hm k hk rfl
              simp only [this, if_false]
              exact (hq k (List.mem_of_mem_drop hk)).2⟩) hnd3.2.1 hrest
          simpa using this
      · cases hd

theorem poll_inv {cfg : Cfg P R} {ready : Nat → Bool} {s s' : St P R} (h : Inv cfg s s.slots) (hp : poll cfg ready s = .ok s') :
    Inv cfg s' s'.slots := by
  have h1 := collect_inv (ready := ready) s.slots 0 [] s h
  unfold poll at hp
  dsimp only at hp
  generalize collect cfg ready 0 s.slots s = c at h1 hp
  obtain ⟨s1, sls1⟩ := c
  simp only [List.nil_append] at h1 hp
  split at hp
  · cases hp
  · rename_i s2 sls2 hd
    injection hp with hp
    subst hp
    have := dispatch_inv sls1 _ [] s1 _ _ h1 (fun k hk => by
      have := List.mem_filter.1 hk
      exact ⟨this.1, by simpa using this.2⟩) (h1.nodupReq.filter _) hd
    exact { this with }

theorem step_inv {cfg : Cfg P R} {s s' : St P R} {op : Op P} (h : Inv cfg s s.slots) (hs : step cfg s op = .ok s') :
    Inv cfg s' s'.slots := by
  cases op with
  | queue p =>
    simp only [step, Except.ok.injEq] at hs
    subst hs
    have hne : ∀ k, k < s.nextKey → k ≠ s.nextKey := fun k hk e => Nat.lt_irrefl _ (e ▸ hk)
    have hheld : ∀ k ∈ held s.slots, k ≠ s.nextKey := fun k hk => hne k (h.ltHeld k hk)
    have hcase : ∀ k, k < s.nextKey + 1 → k = s.nextKey ∨ k < s.nextKey := fun k hk => by
      rcases Nat.lt_or_ge k s.nextKey with h | h
      · exact .inr h
      · exact .inl (Nat.le_antisymm (Nat.le_of_lt_succ hk) h)
    refine
      { ltReq := ?_, ltHeld := fun k hk => Nat.lt_succ_of_lt (h.ltHeld k hk), nodupReq := ?_, nodupHeld := h.nodupHeld,
        running := ?_, work := ?_, hasPos := ?_, result := ?_, inReq := ?_, size := h.size }
    · intro k hk
      simp only [List.mem_append, List.mem_singleton] at hk
      rcases hk with hk | hk
      · exact Nat.lt_succ_of_lt (h.ltReq k hk)
      · rw [hk]; exact Nat.lt_succ_self _
    · simp only
      rw [List.nodup_append]
      refine ⟨h.nodupReq, by simp, fun x hx y hy e => ?_⟩
      simp at hy
      exact hne x (h.ltReq x hx) (e.trans hy)
    · intro k hk
      rcases hcase k hk with e | hk
      · subst e
        simp only [if_true]
        constructor
        · intro h; cases h
        · intro hm; exact absurd rfl (hheld _ hm)
      · simp only [hne k hk, if_false]; exact h.running k hk
    · intro sl hsl hb
      rw [h.work sl hsl hb]
      apply List.map_congr_left
      intro k hk
      have : k ≠ s.nextKey := hheld k (List.mem_flatMap.2 ⟨sl, List.mem_filter.2 ⟨hsl, hb⟩, hk⟩)
      simp [this]
    · intro k hk
      rcases hcase k hk with e | hk
      · subst e; simp
      · simp only [hne k hk, if_false]; exact h.hasPos k hk
    · intro k hk hst
      rcases hcase k hk with e | hk
      · subst e; simp at hst
      · simp only [hne k hk, if_false] at hst ⊢; exact h.result k hk hst
    · intro k hk hst
      rcases hcase k hk with e | hk
      · subst e; simp
      · simp only [hne k hk, if_false] at hst
        simp [h.inReq k hk hst]
  | release k =>
    simp only [step, Except.ok.injEq] at hs
    subst hs
    split
    · rename_i hd
      refine { h with ltReq := fun x hx => h.ltReq x (List.mem_of_mem_erase hx), nodupReq := h.nodupReq.erase _, inReq := ?_ }
      intro x hx hst
      have : x ≠ k := fun e => hst (by rw [e]; exact hd)
      exact (List.mem_erase_of_ne this).2 (h.inReq x hx hst)
    · exact h
  | poll ready => exact poll_inv h hs

theorem held_replicate (n : Nat) : held (List.replicate n ({} : Slot P)) = [] := by
  induction n with
  | zero => rfl
  | succ n ih => rw [List.replicate_succ, held_cons, ih]; rfl

theorem inv_init (cfg : Cfg P R) (n : Nat) : Inv cfg (init n : St P R) (init n : St P R).slots := by
  have hb : ∀ sl ∈ List.replicate n ({} : Slot P), sl.busy = false := fun sl h => by rw [(List.mem_replicate.1 h).2]
  constructor
  case ltReq => intro k hk; simp [init] at hk
  case ltHeld => intro k hk; simp only [init, held_replicate] at hk; cases hk
  case nodupReq => simp [init]
  case nodupHeld => simp only [init, held_replicate]; simp
  case running => intro k hk; exact absurd hk (Nat.not_lt_zero k)
  case work => intro sl hsl h; rw [hb sl hsl] at h; cases h
  case hasPos => intro k hk; exact absurd hk (Nat.not_lt_zero k)
  case result => intro k hk; exact absurd hk (Nat.not_lt_zero k)
  case inReq => intro k hk; exact absurd hk (Nat.not_lt_zero k)
  case size => intro sl hsl h; rw [hb sl hsl] at h; cases h

theorem run_inv {cfg : Cfg P R} (ops : List (Op P)) : ∀ {s s' : St P R}, Inv cfg s s.slots → run cfg s ops = .ok s' → Inv cfg s' s'.slots := by
  induction ops with
  | nil => intro s s' h hr; simp [run] at hr; subst hr; exact h
  | cons op ops ih =>
    intro s s' h hr
    rw [run] at hr
    split at hr
    · rename_i s1 hs1; exact ih (step_inv h hs1) hr
    · cases hr

end Verif.MpiPool
