import Mathlib.Tactic.FieldSimp
import Mathlib.Tactic.Ring
import Mathlib.Tactic.NormNum
import Verif.Io.Scripting
/-! C129: a script gets what it asks for. -/
namespace Verif.Scripting

/-! ## Specification -/

/-- What a script asks the server to listen on. -/
def asked (mode address : String) (port : Option String) : Option Listen :=
  if mode = "unix" then some (.unix address)
  else if mode = "inet" then port.map (.inet address)
  else none

/-! ## Force fields -/

/-- **C129.** An internet socket is what was asked for. -/
theorem inet_socket (drivers : List String) (name address port : String) (pes : Option String) :
    ∃ x, forcefieldXml drivers name "inet" pes (some address) (some port) = .ok x ∧ x.tag = "ffsocket" ∧ get "name" x.attrs = some name ∧
      ∃ l, readSocket x = .ok l ∧ asked "inet" address (some port) = some l :=
  ⟨_, rfl, rfl, rfl, _, rfl, rfl⟩

/-- **C129.** A built-in potential is what was asked for, and others are refused. -/
theorem direct_pes (drivers : List String) (name pes : String) (a p : Option String) :
    (pes ∈ drivers → ∃ x, forcefieldXml drivers name "direct" (some pes) a p = .ok x ∧ x.tag = "ffdirect" ∧
      get "name" x.attrs = some name ∧ get "pes" x.fields = some pes) ∧
    (pes ∉ drivers → forcefieldXml drivers name "direct" (some pes) a p = .error .value) := by
  unfold forcefieldXml
  rw [if_pos rfl]
  dsimp only
  constructor
  · intro h
    rw [if_pos h]
    exact ⟨_, rfl, rfl, rfl, rfl⟩
  · intro h
    rw [if_neg h]

/-- **C129.** Requests that lack something, or with another mode, are refused. -/
theorem incomplete_refused (drivers : List String) (name mode : String) (pes address port : Option String)
    (h : (mode = "direct" ∧ pes = none) ∨ (mode = "unix" ∧ address = none) ∨ (mode = "inet" ∧ (address = none ∨ port = none)) ∨
      (mode ≠ "direct" ∧ mode ≠ "unix" ∧ mode ≠ "inet")) : forcefieldXml drivers name mode pes address port = .error .value := by
  unfold forcefieldXml
  rcases h with ⟨rfl, rfl⟩ | ⟨rfl, rfl⟩ | ⟨rfl, h⟩ | ⟨h1, h2, h3⟩
  · rfl
  · rfl
  · rcases h with rfl | rfl
    · rfl
    · cases address <;> rfl
  · rw [if_neg h1, if_neg (not_or.2 ⟨h2, h3⟩)]

/-- **C129 fails.** A request for a unix socket creates an internet socket on the default port, whatever the name, the address and the port. -/
theorem unix_becomes_inet (drivers : List String) (name address : String) (pes port : Option String) :
    ∃ x, forcefieldXml drivers name "unix" pes (some address) port = .ok x ∧ readSocket x = .ok (.inet address "65535") ∧
      ∀ l, readSocket x = .ok l → asked "unix" address port ≠ some l := by
  refine ⟨_, rfl, rfl, ?_⟩
  intro l hl h
  have h1 : l = .inet address "65535" := by injection (show Except.ok (ε := Err) (.inet address "65535") = .ok l from hl) with h'; exact h'.symm
  have h2 : l = .unix address := by injection (show some (Listen.unix address) = some l from h) with h'; exact h'.symm
  rw [h1] at h2
  cases h2

/-! ## Thermostats -/

/-- **C129.** The default thermostats: global PILE for path integrals, stochastic velocity rescaling otherwise. -/
theorem default_thermostat (b : Bool) (tau : String) : ∃ x, motionNvt none b tau = .ok x ∧
    get "mode" x.attrs = some (if b then "pile_g" else "svr") ∧ get "tau" x.fields = some tau := by
  cases b <;> exact ⟨_, rfl, rfl, rfl⟩

/-- **C129 fails.** A thermostat that is given is never used: an exception is raised. -/
theorem given_thermostat_fails (t : Xml) (b : Bool) (tau : String) : motionNvt (some t) b tau = .error .unbound := rfl

/-! ## Masses and cells -/

/-- **C129.** An array called "mass" is used, in the unit of the structures. -/
theorem mass_array_used {C : Type} (element : String → ℝ) (u : ℝ) (s : Structure C) (m : List ℝ) (h : ∀ a ∈ s.arrays, a.1 ≠ "mass") :
    massesOf element u { s with arrays := s.arrays ++ [("mass", m)] } = m.map (· * u) := by
  have : (s.arrays ++ [("mass", m)]).find? (·.1 == "mass") = some ("mass", m) := by
    rw [List.find?_append, List.find?_eq_none.2 fun a ha => by simpa using h a ha]
    rfl
  unfold massesOf
  dsimp only
  rw [this]

/-- **C129 fails.** Masses set with ASE are replaced by those of the elements, if there is no array called "mass". -/
theorem masses_ignored {C : Type} (element : String → ℝ) (u : ℝ) (s : Structure C) (m : List ℝ) (h : ∀ a ∈ s.arrays, a.1 ≠ "mass") :
    massesOf element u (s.setMasses m) = s.symbols.map element := by
  have : (s.setMasses m).arrays.find? (·.1 == "mass") = none := by
    rw [List.find?_eq_none]
    intro a ha
    rcases List.mem_cons.1 ha with rfl | ha
    · simp
    · have := h a (List.mem_filter.1 ha).1
      simpa using this
  unfold massesOf
  rw [this]
  rfl

/-- **C129 fails.** So heavy hydrogen is hydrogen. -/
theorem deuterium_is_hydrogen : ∃ (s : Structure Unit) (m : List ℝ) (element : String → ℝ) (u : ℝ),
    massesOf element u (s.setMasses m) ≠ m.map (· * u) :=
  ⟨⟨["H"], (), []⟩, [2], fun _ => 1, 1, by
    rw [masses_ignored _ _ _ _ (by simp)]
    simp⟩

/-- **C129 fails.** Only the first of several structures tells the names, masses and the cell; the others may differ from it without an error. -/
theorem first_structure_only {C : Type} (element : String → ℝ) (u : ℝ) (s : Structure C) (l l' : List (Structure C)) :
    systemOf element u (s :: l) = systemOf element u (s :: l') := rfl

/-! ## Properties -/

/-- **C129.** A script can read every property except the weights of components, for which an exception is raised. -/
theorem properties_available_partial (c : Ase) (value : ℝ) (unit : String) : ∀ p ∈ dimensions,
    (p.1 ≠ "hweights_component" ∧ p.1 ≠ "bweights_component" → ∃ v, c.property value p.2 unit = .ok v) ∧
    (p.1 = "hweights_component" ∨ p.1 = "bweights_component" → c.property value p.2 unit = .error .index) := by
  have hbad : c.property value "" unit = .error .index := by
    unfold Ase.property Ase.internal
    rw [if_neg (by decide), if_neg (by decide)]
  have hgood : ∀ d, d = "number" ∨ (d ∈ families ∧ d ≠ "ms-momentum") → ∃ v, c.property value d unit = .ok v := by
    intro d hd
    unfold Ase.property Ase.internal
    rcases hd with rfl | ⟨hd, hne⟩
    · exact ⟨_, rfl⟩
    · by_cases hn : d = "number"
      · rw [if_pos hn]; exact ⟨_, rfl⟩
      rw [if_neg hn, if_pos hd]
      simp only [families, List.mem_cons, List.not_mem_nil, or_false] at hd
      rcases hd with rfl | rfl | rfl | rfl | rfl | rfl | rfl | rfl | rfl | rfl | rfl | rfl | rfl | rfl | rfl | rfl | rfl | rfl <;>
        first | exact absurd rfl hne | exact ⟨_, rfl⟩
  have htab : ∀ p ∈ dimensions, ((p.1 ≠ "hweights_component" ∧ p.1 ≠ "bweights_component") →
      p.2 = "number" ∨ (p.2 ∈ families ∧ p.2 ≠ "ms-momentum")) ∧
      ((p.1 = "hweights_component" ∨ p.1 = "bweights_component") → p.2 = "") := by decide +kernel
  intro p hp
  exact ⟨fun h => hgood _ ((htab p hp).1 h), fun h => by rw [(htab p hp).2 h]; exact hbad⟩

/-- **C129 fails.** Both of them exist. -/
theorem weights_unavailable : ("hweights_component", "") ∈ dimensions ∧ ("bweights_component", "") ∈ dimensions := by decide +kernel

/-- **C129 fails.** The unit that is asked for makes no difference to the value. -/
theorem unit_ignored (c : Ase) (value : ℝ) (dimension u v : String) : c.property value dimension u = c.property value dimension v := rfl

/-- **C129.** The value times the unit of ASE is the value in internal units. -/
theorem property_value (c : Ase) (value u : ℝ) (dimension unit : String) (hi : c.internal dimension = .ok u) (hu : u ≠ 0) :
    ∃ v, c.property value dimension unit = .ok v ∧ v * u = value := by
  refine ⟨value * (1 / u), ?_, ?_⟩
  · unfold Ase.property
    rw [hi]
  · rw [mul_assoc, one_div, inv_mul_cancel₀ hu, mul_one]

/-! ## The units of ASE fit together -/

/-- Positive constants. -/
def Ase.Good (c : Ase) : Prop := 0 < c.e ∧ 0 < c.l ∧ 0 < c.amu ∧ 0 < c.kb

/-- **C129.** In the units given to scripts the laws between quantities have no factors: with `E`, `L`, `T`, `M` the units of energy, length,
time and mass, the unit of mass is the atomic mass unit, that of energy `M L²/T²`, and the others follow. -/
theorem ase_coherent (c : Ase) (h : c.Good) : ∃ E L T M : ℝ, 0 < E ∧ 0 < L ∧ 0 < T ∧ 0 < M ∧
    c.unit "energy" = some E ∧ c.unit "length" = some L ∧ c.unit "time" = some T ∧ c.unit "mass" = some M ∧
    M = c.amu ∧ E = M * L ^ 2 / T ^ 2 ∧ c.unit "velocity" = some (L / T) ∧ c.unit "momentum" = some (M * L / T) ∧
    c.unit "force" = some (M * L / T ^ 2) ∧ c.unit "action" = some (M * L ^ 2 / T) ∧ c.unit "frequency" = some (1 / T) ∧
    c.unit "volume" = some (L ^ 3) ∧ c.unit "density" = some (M / L ^ 3) ∧ c.unit "pressure" = some (M / (L * T ^ 2)) ∧
    c.unit "hessian" = some (M / T ^ 2) ∧ c.unit "temperature" = some (c.kb * E) := by
  obtain ⟨he, hl, hm, hk⟩ := h
  have hs : 0 < √(c.amu / c.e) := Real.sqrt_pos.2 (div_pos hm he)
  have hsq : √(c.amu / c.e) ^ 2 = c.amu / c.e := Real.sq_sqrt (div_pos hm he).le
  have hM : c.e / (c.l / (c.l * √(c.amu / c.e))) ^ 2 = c.amu := by
    rw [div_mul_eq_div_div, div_self hl.ne', div_pow, hsq]
    field_simp
  have hE : c.e = c.amu * c.l ^ 2 / (c.l * √(c.amu / c.e)) ^ 2 := by
    rw [mul_pow, hsq]
    field_simp
  refine ⟨c.e, c.l, c.l * √(c.amu / c.e), c.amu, he, hl, mul_pos hl hs, hm, rfl, rfl, rfl, ?_, rfl, hE, rfl, ?_, ?_, ?_, rfl, rfl, ?_, ?_,
    ?_, rfl⟩
  · exact congrArg some hM
  · show some (c.e / (c.l / (c.l * √(c.amu / c.e))) ^ 2 * _) = _
    rw [hM, mul_div_assoc]
  · show some (c.e / c.l) = _
    congr 1
    rw [mul_pow, hsq]
    field_simp
  · show some (c.e * (c.l * √(c.amu / c.e))) = _
    congr 1
    rw [eq_div_iff (mul_pos hl hs).ne']
    have : c.e * (c.l * √(c.amu / c.e)) * (c.l * √(c.amu / c.e)) = c.e * c.l ^ 2 * √(c.amu / c.e) ^ 2 := by ring
    rw [this, hsq]
    field_simp
  · show some (c.e / (c.l / (c.l * √(c.amu / c.e))) ^ 2 / c.l ^ 3) = _
    rw [hM]
  · show some (c.e / c.l ^ 3) = _
    congr 1
    rw [mul_pow, hsq]
    field_simp
  · show some (c.e / c.l ^ 2) = _
    congr 1
    rw [mul_pow, hsq]
    field_simp

/-! ## The hypotheses can be met -/

example := inet_socket ["harmonic"] "ff" "localhost" "12345" none
example := direct_pes ["harmonic", "gas"] "ff" "gas" none none
example := incomplete_refused ["harmonic"] "ff" "inet" none (some "localhost") none (.inr (.inr (.inl ⟨rfl, .inr rfl⟩)))
example := incomplete_refused ["harmonic"] "ff" "mpi" none none none (.inr (.inr (.inr ⟨by decide, by decide, by decide⟩)))
example := unix_becomes_inet ["harmonic"] "ff" "driver" none none
example := default_thermostat true "10"
example := given_thermostat_fails ⟨"thermostat", [("mode", "gle")], []⟩ true "10"
example := masses_ignored (C := Unit) (fun _ => 1) 1 ⟨["H"], (), [("positions", [0, 0, 0])]⟩ [2] (by simp)
example := properties_available_partial ⟨1, 1, 1, 1⟩ 2 "ase" ("temperature", "temperature") (by decide +kernel)
example := ase_coherent ⟨1 / 27, 2, 1822, 1 / 11604⟩ ⟨by norm_num, by norm_num, by norm_num, by norm_num⟩

end Verif.Scripting
