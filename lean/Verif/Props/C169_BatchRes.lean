import Verif.FF.BatchRes

/-!
# C169: every structure of a batch gets the mean of what the models say about it
-/

namespace Verif.BatchRes

theorem mapM_ok {α β : Type} {f : α → Except Err β} {h : α → β} : ∀ l : List α, (∀ x ∈ l, f x = .ok (h x)) → l.mapM f = .ok (l.map h)
  | [], _ => rfl
  | x :: l, hl => by
    rw [List.mapM_cons, hl x List.mem_cons_self, mapM_ok l fun y hy => hl y (List.mem_cons_of_mem _ hy)]
    rfl

/-- What a model that looks at every structure on its own gives for a structure: for every key the rows, as many as there are atoms or
one, of the right length. -/
structure Local {S : Type} (shapes : String → Option Shape) (nat : S → ℕ) (keys : List String)
    (g : String → S → List (List ℝ)) : Prop where
  known : ∀ k ∈ keys, ∃ sh, shapes k = some sh
    ∧ match sh with
      | .perAtom w => ∀ s, (g k s).length = nat s ∧ ∀ r ∈ g k s, r.length = w
      | .fixed w => ∀ s, ∃ r, g k s = [r] ∧ r.length = w

theorem pieces_eq {S : Type} (nat : S → ℕ) (g : S → List (List ℝ)) (h : ∀ s, (g s).length = nat s) :
    ∀ b : List S, pieces (b.map nat) (b.flatMap g) = b.map g
  | [] => rfl
  | s :: b => by
    rw [List.map_cons, List.flatMap_cons, pieces, ← h s, List.take_left, List.drop_left, pieces_eq nat g h b, List.map_cons]

theorem length_flatten_eq (w : ℕ) : ∀ l : List (List ℝ), (∀ r ∈ l, r.length = w) → l.flatten.length = l.length * w
  | [], _ => by simp
  | r :: l, h => by
    rw [List.flatten_cons, List.length_append, h r List.mem_cons_self,
      length_flatten_eq w l fun x hx => h x (List.mem_cons_of_mem _ hx), List.length_cons, Nat.succ_mul, Nat.add_comm]

theorem fixed_column {S : Type} (nat : S → ℕ) (w : ℕ) (r : S → List ℝ) (h : ∀ s, (r s).length = w) :
    ∀ (b pre : List S), ((b.map nat).zipIdx pre.length).mapM (fun x : ℕ × ℕ => match ((pre ++ b).map r)[x.2]? with
      | none => (.error Err.index : Except Err (List ℝ))
      | some r => put (.fixed w) x.1 r) = .ok (b.map r)
  | [], pre => rfl
  | s :: b, pre => by
    have h1 := fixed_column nat w r h b (pre ++ [s])
    rw [List.length_append, List.length_singleton, List.append_assoc, List.singleton_append] at h1
    rw [List.map_cons, List.zipIdx_cons, List.mapM_cons, h1]
    have h2 : ((pre ++ s :: b).map r)[pre.length]? = some (r s) := by
      rw [List.getElem?_map, List.getElem?_append_right le_rfl, Nat.sub_self]
      rfl
    simp only [h2]
    rw [put, if_pos (by exact h s)]
    rfl

/-- The rows of a batch are given back to the structures they belong to. -/
theorem column_eq {S : Type} (shapes : String → Option Shape) (nat : S → ℕ) (keys : List String) (g : String → S → List (List ℝ))
    (hl : Local shapes nat keys g) (k : String) (hk : k ∈ keys) (b : List S) :
    ∃ sh, shapes k = some sh ∧ column sh (b.map nat) (b.flatMap (g k)) = .ok (b.map fun s => (g k s).flatten) := by
  obtain ⟨sh, h1, h2⟩ := hl.known k hk
  refine ⟨sh, h1, ?_⟩
  cases sh with
  | perAtom w =>
    rw [column, pieces_eq nat (g k) (fun s => (h2 s).1), List.zip_map', mapM_ok (h := fun x => x.2.flatten), List.map_map]
    · rfl
    · intro x hx
      obtain ⟨s, _, rfl⟩ := List.mem_map.1 hx
      rw [put, if_pos]
      rw [length_flatten_eq w _ (h2 s).2, (h2 s).1]
      rfl
  | fixed w =>
    choose r hr using h2
    have e1 : b.flatMap (g k) = b.map r := by
      rw [List.flatMap_congr (g := fun s => [r s]) fun s _ => (hr s).1]
      induction b with
      | nil => rfl
      | cons s b ih => rw [List.flatMap_cons, ih]; rfl
    have e2 : (b.map fun s => (g k s).flatten) = b.map r := List.map_congr_left fun s _ => by
      rw [(hr s).1, List.flatten_cons, List.flatten_nil, List.append_nil]
    rw [e1, e2]
    exact fixed_column nat w r (fun s => (hr s).2) b []

theorem store_eq {S : Type} (shapes : String → Option Shape) (nat : S → ℕ) (g : String → S → List (List ℝ)) (b : List S) :
    ∀ keys : List String, Local shapes nat keys g →
      store shapes (b.map nat) (keys.map fun k => (k, b.flatMap (g k)))
        = .ok (b.map fun s => keys.map fun k => (k, (g k s).flatten))
  | [], _ => by rw [List.map_nil, store, List.map_map]; rfl
  | k :: keys, hl => by
    obtain ⟨sh, h1, h2⟩ := column_eq shapes nat (k :: keys) g hl k List.mem_cons_self b
    have h3 := store_eq shapes nat g b keys ⟨fun k hk => hl.known k (List.mem_cons_of_mem _ hk)⟩
    rw [List.map_cons, store, h1]
    simp only [h2, h3]
    congr 1
    rw [List.zipWith_map_left, List.zipWith_map_right, List.zipWith_self]
    rfl

/-- **C169.** What is collected for one model is, for every structure in the order in which they were given, what the model says
about it, however the structures are divided into batches. -/
theorem batches_irrelevant {S : Type} (shapes : String → Option Shape) (nat : S → ℕ) (keys : List String) (g : String → S → List (List ℝ))
    (hl : Local shapes nat keys g) (batches : List (List S)) :
    perModel shapes nat (fun b => keys.map fun k => (k, b.flatMap (g k))) batches
      = .ok (batches.flatten.map fun s => (nat s, keys.map fun k => (k, (g k s).flatten))) := by
  rw [perModel, mapM_ok (h := fun b : List S => b.map fun s => (nat s, keys.map fun k => (k, (g k s).flatten)))]
  · simp only
    congr 1
    rw [List.map_flatten]
  · intro b _
    rw [store_eq shapes nat g b keys hl]
    show Except.ok ((b.map nat).zip _) = _
    rw [List.zip_map']

/-! ### The mean -/

theorem lookup_map (v : String → List ℝ) : ∀ (keys : List String) (k : String), k ∈ keys → (keys.map fun k => (k, v k)).lookup k = some (v k)
  | [], k, h => by cases h
  | k' :: keys, k, h => by
    rw [List.map_cons, List.lookup_cons]
    by_cases e : k = k'
    · subst e; simp
    · have : (k == k') = false := by simpa using e
      rw [this]
      exact lookup_map v keys k ((List.mem_cons.1 h).resolve_left e)

theorem addD_eq (keys : List String) (a v : String → List ℝ) :
    addD (keys.map fun k => (k, a k)) (keys.map fun k => (k, v k)) = .ok (keys.map fun k => (k, List.zipWith (· + ·) (a k) (v k))) := by
  rw [addD, mapM_ok (h := fun x => (x.1, List.zipWith (· + ·) x.2 (v x.1))), List.map_map]
  · rfl
  · intro x hx
    obtain ⟨k, hk, rfl⟩ := List.mem_map.1 hx
    simp only [lookup_map v keys k hk]

theorem fold_eq (keys : List String) : ∀ (vs : List (String → List ℝ)) (a : String → List ℝ),
    (vs.map fun v => keys.map fun k => (k, v k)).foldlM addD (keys.map fun k => (k, a k))
      = .ok (keys.map fun k => (k, vs.foldl (fun acc v => List.zipWith (· + ·) acc (v k)) (a k)))
  | [], a => rfl
  | v :: vs, a => by
    rw [List.map_cons, List.foldlM_cons, addD_eq]
    exact fold_eq keys vs _

theorem foldl_zip (L : ℕ) : ∀ (vs : List (List ℝ)) (a : List ℝ), a.length = L → (∀ v ∈ vs, v.length = L) →
    (vs.foldl (fun acc v => List.zipWith (· + ·) acc v) a).length = L
      ∧ ∀ j, (vs.foldl (fun acc v => List.zipWith (· + ·) acc v) a).getD j 0 = a.getD j 0 + (vs.map fun v => v.getD j 0).sum
  | [], a, ha, _ => ⟨ha, fun j => by simp⟩
  | v :: vs, a, ha, hv => by
    have h1 : (List.zipWith (· + ·) a v).length = L := by
      rw [List.length_zipWith, ha, hv v List.mem_cons_self, min_self]
    obtain ⟨h2, h3⟩ := foldl_zip L vs (List.zipWith (· + ·) a v) h1 fun x hx => hv x (List.mem_cons_of_mem _ hx)
    refine ⟨h2, fun j => ?_⟩
    rw [List.foldl_cons, h3, List.map_cons, List.sum_cons, ← add_assoc]
    congr 1
    by_cases hj : j < L
    · have e1 : j < a.length := by omega
      have e2 : j < v.length := by rw [hv v List.mem_cons_self]; exact hj
      simp only [List.getD_eq_getElem?_getD]
      rw [List.getElem?_eq_getElem e1, List.getElem?_eq_getElem e2, List.getElem?_eq_getElem (by omega)]
      simp
    · have e1 : a.length ≤ j := by omega
      have e2 : v.length ≤ j := by rw [hv v List.mem_cons_self]; omega
      simp only [List.getD_eq_getElem?_getD]
      rw [List.getElem?_eq_none e1, List.getElem?_eq_none e2, List.getElem?_eq_none (by omega)]
      simp

/-- The mean of some lists of numbers of equal length. -/
def IsMean (vs : List (List ℝ)) (r : List ℝ) : Prop :=
  (∀ v ∈ vs, v.length = r.length) ∧ ∀ j, r.getD j 0 = (vs.map fun v => v.getD j 0).sum / vs.length

theorem meanS_eq (keys : List String) (v0 : String → List ℝ) (vs : List (String → List ℝ)) (hl : ∀ k ∈ keys, ∀ v ∈ vs, (v k).length = (v0 k).length) :
    ∃ r : String → List ℝ, meanS (v0 :: vs).length (keys.map fun k => (k, v0 k)) ((v0 :: vs).map fun v => keys.map fun k => (k, v k))
        = .ok (keys.map fun k => (k, r k))
      ∧ ∀ k ∈ keys, IsMean ((v0 :: vs).map fun v => v k) (r k) := by
  have hz : ((keys.map fun k => (k, v0 k)).map fun x : String × List ℝ => (x.1, x.2.map fun _ => (0 : ℝ)))
      = keys.map fun k => (k, (v0 k).map fun _ => (0 : ℝ)) := by rw [List.map_map]; rfl
  refine ⟨fun k => ((v0 :: vs).foldl (fun acc v => List.zipWith (· + ·) acc (v k)) ((v0 k).map fun _ => (0 : ℝ))).map fun y => y / (v0 :: vs).length, ?_, ?_⟩
  · rw [meanS, hz, fold_eq keys (v0 :: vs) fun k => (v0 k).map fun _ => (0 : ℝ)]
    simp only
    rw [List.map_map]
    rfl
  · intro k hk
    have hf : (v0 :: vs).foldl (fun acc v => List.zipWith (· + ·) acc (v k)) ((v0 k).map fun _ => (0 : ℝ))
        = ((v0 :: vs).map fun v => v k).foldl (fun acc v => List.zipWith (· + ·) acc v) ((v0 k).map fun _ => (0 : ℝ)) := by
      rw [List.foldl_map]
    have hv : ∀ v ∈ (v0 :: vs).map (fun v => v k), v.length = (v0 k).length := by
      intro v h
      obtain ⟨v', h', rfl⟩ := List.mem_map.1 h
      rcases List.mem_cons.1 h' with rfl | h'
      · rfl
      · exact hl k hk v' h'
    obtain ⟨h1, h2⟩ := foldl_zip (v0 k).length _ ((v0 k).map fun _ => (0 : ℝ)) (by rw [List.length_map]) hv
    rw [← hf] at h1 h2
    show IsMean _ (List.map (fun y => y / ((v0 :: vs).length : ℝ)) ((v0 :: vs).foldl (fun acc v => List.zipWith (· + ·) acc (v k)) ((v0 k).map fun _ => (0 : ℝ))))
    generalize (v0 :: vs).foldl (fun acc v => List.zipWith (· + ·) acc (v k)) ((v0 k).map fun _ => (0 : ℝ)) = q at h1 h2 ⊢
    refine ⟨fun v h => by rw [List.length_map, h1, hv v h], fun j => ?_⟩
    have h3 : (q.map fun y => y / ((v0 :: vs).length : ℝ)).getD j 0 = q.getD j 0 / ((v0 :: vs).length : ℝ) := by
      simp only [List.getD_eq_getElem?_getD, List.getElem?_map]
      cases q[j]? with
      | none => simp
      | some y => rfl
    have h4 : ((v0 k).map fun _ => (0 : ℝ)).getD j 0 = 0 := by
      simp only [List.getD_eq_getElem?_getD, List.getElem?_map]
      cases (v0 k)[j]? <;> rfl
    simp only [List.length_map]
    rw [h3, h2, h4, zero_add]

theorem zipIdx_mapM {S α β : Type} (f : α × ℕ → Except Err β) (e0 : S → α) (R : S → β → Prop) : ∀ (l : List S) (n : ℕ),
    (∀ i, ∀ h : i < l.length, ∃ y, f (e0 l[i], n + i) = .ok y ∧ R l[i] y) →
      ∃ ys, ((l.map e0).zipIdx n).mapM f = .ok ys ∧ List.Forall₂ R l ys
  | [], _, _ => ⟨[], rfl, .nil⟩
  | x :: l, n, h => by
    obtain ⟨y, h1, h2⟩ := h 0 (by simp)
    obtain ⟨ys, h3, h4⟩ := zipIdx_mapM f e0 R l (n + 1) fun i hi => by
      have := h (i + 1) (by simpa using hi)
      rw [List.getElem_cons_succ] at this
      rwa [show n + 1 + i = n + (i + 1) by omega]
    refine ⟨y :: ys, ?_, .cons h2 h4⟩
    rw [List.map_cons, List.zipIdx_cons, List.mapM_cons]
    rw [List.getElem_cons_zero, Nat.add_zero] at h1
    rw [h1, h3]
    rfl

/-- **C169.** With any number of models that look at every structure on its own, and any division of the structures into batches, the
result has one entry for every structure, in their order, with its number of atoms, and for every property the mean over the
models of what they say about this structure. -/
theorem mean_of_models {S : Type} (shapes : String → Option Shape) (nat : S → ℕ) (keys : List String)
    (g0 : String → S → List (List ℝ)) (gs : List (String → S → List (List ℝ))) (hg : ∀ g ∈ g0 :: gs, Local shapes nat keys g)
    (batches : List (List S)) :
    ∃ r, compute shapes nat ((g0 :: gs).map fun g b => keys.map fun k => (k, b.flatMap (g k))) batches = .ok r
      ∧ List.Forall₂ (fun s (e : ℕ × Dict) => e.1 = nat s ∧ ∃ v : String → List ℝ, e.2 = keys.map (fun k => (k, v k))
        ∧ ∀ k ∈ keys, IsMean ((g0 :: gs).map fun g => (g k s).flatten) (v k)) batches.flatten r := by
  have h1 : ((g0 :: gs).map fun (g : String → S → List (List ℝ)) (b : List S) => keys.map fun k => (k, b.flatMap (g k))).mapM
      (fun m => perModel shapes nat m batches)
      = .ok ((g0 :: gs).map fun g => batches.flatten.map fun s => (nat s, keys.map fun k => (k, (g k s).flatten))) := by
    rw [List.mapM_map]
    exact mapM_ok _ fun g h => batches_irrelevant shapes nat keys g (hg g h) batches
  rw [compute, h1]
  simp only
  generalize batches.flatten = ss
  rw [List.map_cons, mean, if_neg]
  · have hsz : ∀ k ∈ keys, ∀ s, ∀ g ∈ g0 :: gs, ((g k s).flatten).length = ((g0 k s).flatten).length := by
      intro k hk s g h
      obtain ⟨sh, e1, e2⟩ := (hg g h).known k hk
      obtain ⟨sh', e1', e2'⟩ := (hg g0 List.mem_cons_self).known k hk
      rw [e1] at e1'
      obtain rfl := Option.some.inj e1'
      cases sh with
      | perAtom w =>
        rw [length_flatten_eq w _ (e2 s).2, length_flatten_eq w _ (e2' s).2, (e2 s).1, (e2' s).1]
      | fixed w =>
        obtain ⟨r, a1, a2⟩ := e2 s
        obtain ⟨r', a1', a2'⟩ := e2' s
        rw [a1, a1']
        simp [a2, a2']
    refine zipIdx_mapM _ _ _ ss 0 fun i hi => ?_
    have hm : (((ss.map fun s => (nat s, keys.map fun k => (k, (g0 k s).flatten)))
        :: gs.map fun g => ss.map fun s => (nat s, keys.map fun k => (k, (g k s).flatten))).map
          fun m : List (ℕ × Dict) => (m[0 + i]?.map Prod.snd).getD [])
        = ((fun k => (g0 k ss[i]).flatten) :: gs.map fun (g : String → S → List (List ℝ)) (k : String) => (g k ss[i]).flatten).map fun v : String → List ℝ => keys.map fun k => (k, v k) := by
      simp only [List.map_cons, List.map_map, List.getElem?_map, Nat.zero_add, List.getElem?_eq_getElem hi]
      congr 1
      refine List.map_congr_left fun g _ => ?_
      simp only [Function.comp_apply, List.getElem?_map, List.getElem?_eq_getElem hi]
      rfl
    obtain ⟨r, h2, h3⟩ := meanS_eq keys (fun k => (g0 k ss[i]).flatten) (gs.map fun (g : String → S → List (List ℝ)) (k : String) => (g k ss[i]).flatten) (by
      intro k hk v hv
      obtain ⟨g, hg', rfl⟩ := List.mem_map.1 hv
      exact hsz k hk _ g (List.mem_cons_of_mem _ hg'))
    refine ⟨(nat ss[i], keys.map fun k => (k, r k)), ?_, rfl, r, rfl, fun k hk => ?_⟩
    · rw [List.length_cons, List.length_map] at h2
      rw [hm, List.length_cons, List.length_map]
      simp only [h2]
    · have := h3 k hk
      rw [List.map_cons, List.map_map] at this
      exact this
  · rintro ⟨m, hm, h⟩
    obtain ⟨g, _, rfl⟩ := List.mem_map.1 hm
    refine h ?_
    rw [List.map_map, List.map_map]
    rfl

/-! ### What is not noticed -/

theorem pieces_extra {S : Type} (nat : S → ℕ) (g : S → List (List ℝ)) (h : ∀ s, (g s).length = nat s) (extra : List (List ℝ)) :
    ∀ b : List S, pieces (b.map nat) (b.flatMap g ++ extra) = b.map g
  | [] => rfl
  | s :: b => by
    rw [List.map_cons, List.flatMap_cons, pieces, ← h s, List.append_assoc, List.take_left, List.drop_left,
      pieces_extra nat g h extra b, List.map_cons]

/-- Rows beyond those of the last structure are dropped without a word. -/
theorem extra_rows_lost {S : Type} (shapes : String → Option Shape) (nat : S → ℕ) (k : String) (w : ℕ) (g : S → List (List ℝ))
    (hs : shapes k = some (.perAtom w)) (h : ∀ s, (g s).length = nat s) (extra : List (List ℝ)) (b : List S) :
    store shapes (b.map nat) [(k, b.flatMap g ++ extra)] = store shapes (b.map nat) [(k, b.flatMap g)] := by
  have e := pieces_extra nat g h extra b
  have e' := pieces_eq nat g h b
  simp only [store, hs, column, e, e']

/-- Too few rows are noticed. -/
theorem missing_rows_noticed (shapes : String → Option Shape) (k : String) (w : ℕ) (hw : 0 < w) (hs : shapes k = some (.perAtom w)) (n : ℕ)
    (rows : List (List ℝ)) (hr : ∀ r ∈ rows, r.length = w) (h : rows.length < n) :
    store shapes [n] [(k, rows)] = .error .wrongShape := by
  have h1 : (rows.take n).flatten.length ≠ n * w := by
    rw [List.take_of_length_le h.le, length_flatten_eq w rows hr]
    exact (Nat.mul_lt_mul_of_pos_right h hw).ne
  have h2 : column (.perAtom w) [n] rows = .error .wrongShape := by
    show List.mapM _ [(n, rows.take n)] = _
    rw [List.mapM_cons, put, if_neg (by exact h1)]
    rfl
  simp only [store, hs, h2]

/-- A property that the first model gives and a later one does not ends the calculation. -/
theorem missing_property_fails (k : String) (v : List ℝ) (n : ℕ) : meanS n [(k, v)] [[(k, v)], []] = .error .key := by
  unfold meanS
  have h : [[(k, v)], []].foldlM addD ([(k, v)].map fun x => (x.1, x.2.map fun _ => (0 : ℝ))) = .error .key := by
    have h1 : addD [(k, v.map fun _ => (0 : ℝ))] [(k, v)] = .ok [(k, List.zipWith (· + ·) (v.map fun _ => (0 : ℝ)) v)] :=
      addD_eq [k] (fun _ => v.map fun _ => (0 : ℝ)) fun _ => v
    have h2 : ∀ x : List ℝ, addD [(k, x)] [] = .error .key := fun x => rfl
    show ((addD [(k, v.map fun _ => (0 : ℝ))] [(k, v)]).bind fun d => (addD d []).bind fun d => .ok d) = _
    rw [h1]
    show ((addD [(k, List.zipWith (· + ·) (v.map fun _ => (0 : ℝ)) v)] []).bind fun d => .ok d) = _
    rw [h2]
    rfl
  simp only [h]

/-- Two structures of one and two atoms, energies and forces. -/
example : Local (S := Bool) (fun k => if k = "forces" then some (.perAtom 3) else some (.fixed 1)) (fun s => if s then 1 else 2)
    ["energy", "forces"] (fun k s => if k = "forces" then List.replicate (if s then 1 else 2) [1, 2, 3] else [[5]]) := by
  refine ⟨fun k hk => ?_⟩
  simp only [List.mem_cons, List.not_mem_nil, or_false] at hk
  rcases hk with rfl | rfl
  · exact ⟨.fixed 1, by rw [if_neg (by decide)], fun s => ⟨[5], by rw [if_neg (by decide)], rfl⟩⟩
  · refine ⟨.perAtom 3, by rw [if_pos rfl], fun s => ⟨by rw [if_pos rfl, List.length_replicate], fun r hr => ?_⟩⟩
    rw [if_pos rfl] at hr
    rw [List.eq_of_mem_replicate hr]
    rfl

/-- A property that is not known is an error, wherever it comes in the results. -/
theorem unknown_property_fails (shapes : String → Option Shape) (natoms : List ℕ) (k : String) (hk : shapes k = none) :
    ∀ l : List (String × List (List ℝ)), k ∈ l.map Prod.fst → ∃ e, store shapes natoms l = .error e
  | [], h => by cases h
  | (k', rows) :: l, h => by
    rw [store]
    split
    · exact ⟨_, rfl⟩
    · next sh hs =>
      split
      · exact ⟨_, rfl⟩
      · rcases List.mem_cons.1 h with e | h'
        · have e : k = k' := e
          rw [e, hs] at hk
          cases hk
        · obtain ⟨e, he⟩ := unknown_property_fails shapes natoms k hk l h'
          rw [he]
          exact ⟨_, rfl⟩

end Verif.BatchRes
