/-!
# How the motion of a system is created from the input

Model of `InputMotionBase.fetch` and `InputMotion.fetch` (`/repo/ipi/inputs/motion/motion.py`
L325-439, L470-480), of the constructors of the motion classes in `/repo/ipi/engine/motion/`, as far
as the names of their arguments and the attributes they create are concerned, and of the reading of
these attributes by `Simulation.run_step` (`/repo/ipi/engine/simulation.py` L433-466).  Values are
left out.
-/

namespace Verif.MotionInput

/-- What python raises. -/
inductive Err where
  /-- `TypeError`: got an unexpected keyword argument. -/
  | unexpected (name : String)
  /-- `TypeError`: missing a required argument. -/
  | missing (name : String)
  /-- `AttributeError`. -/
  | noAttribute (name : String)
  deriving DecidableEq, Repr

/-- The arguments of a function: without and with a default value. -/
structure Sig where
  req : List String
  opt : List String

/-- Whether all keywords are names of arguments. -/
def unknown (s : Sig) : List String → Option String
  | [] => none
  | k :: ks => if k ∈ s.req ∨ k ∈ s.opt then unknown s ks else some k

/-- The first argument without default that is not given. -/
def absent (kw : List String) : List String → Option String
  | [] => none
  | r :: rs => if r ∈ kw then absent kw rs else some r

/-- A python call `f(**kw)` up to the first line of the body. -/
def call (s : Sig) (kw : List String) : Except Err Unit :=
  match unknown s kw with
  | some k => .error (.unexpected k)
  | none =>
      match absent kw s.req with
      | some r => .error (.missing r)
      | none => .ok ()

/-- The values of the attribute `mode` (inputs/motion/motion.py L97-116). -/
inductive Mode where
  | vibrations | minimize | replay | neb | string | dynamics | driven_dynamics
  | constrained_dynamics | t_ramp | p_ramp | alchemy | atomswap | planetary | instanton | al_kmc
  | dummy | scp | normalmodes
  deriving DecidableEq, Repr

/-- `fixcom=fixcom, fixatoms_dof=fixatoms_dof` (L358-434). -/
def fix : List String := ["fixcom", "fixatoms_dof"]

/-- The keys of `InputDynamics.fetch` (inputs/motion/dynamics.py). -/
def dynamicsKeys : List String :=
  ["thermostat", "barostat", "timestep", "nmts", "mode", "splitting"]

/-- The keys of `InputGeop.fetch` (inputs/motion/geop.py). -/
def geopKeys : List String :=
  ["ls_options", "exit_on_convergence", "tolerances", "biggest_step", "scale_lbfgs",
   "corrections_lbfgs", "old_pos", "old_pot", "old_force", "old_direction", "invhessian_bfgs",
   "hessian_trm", "tr_trm", "qlist_lbfgs", "glist_lbfgs", "mode"]

/-- The keywords `InputMotionBase.fetch` passes for each mode (L358-437): its own and those of the
dictionary of the input block of the mode (files of the same name in `inputs/motion/`; every field
gives one key, `InputDictionary.fetch`, utils/inputvalue.py L933-940, and `fetch` of the block adds
`mode` and `splitting`). -/
def passed : Mode → List String
  | .vibrations => fix ++ ["pos_shift", "energy_shift", "output_shift", "prefix", "asr", "dynmat",
      "refdynmat", "mode"]
  | .minimize => fix ++ geopKeys
  | .replay => fix ++ ["intraj"]
  | .neb => fix ++ ["tolerances", "old_coord", "full_force", "full_pots", "old_nebpotential",
      "old_nebgradient", "old_direction", "biggest_step", "scale_lbfgs", "hessian_bfgs",
      "qlist_lbfgs", "glist_lbfgs", "corrections_lbfgs", "dtmax_fire", "v_fire", "alpha_fire",
      "N_down_fire", "N_up_fire", "dt_fire", "endpoints", "spring", "tangent", "stage",
      "use_climb", "climb_bead", "mode"]
  | .string => fix ++ ["tolerances", "old_coord", "full_force", "full_pots",
      "old_stringpotential", "old_stringgradient", "old_direction", "biggest_step", "scale_lbfgs",
      "hessian_bfgs", "qlist_lbfgs", "glist_lbfgs", "corrections_lbfgs", "tr_trm", "dtmax_fire",
      "v_fire", "alpha_fire", "N_down_fire", "N_up_fire", "dt_fire", "endpoints", "stage",
      "use_climb", "climb_bead", "mode"]
  | .dynamics => fix ++ dynamicsKeys
  | .driven_dynamics => fix ++ ["efield", "bec", "asr_threshold"] ++ dynamicsKeys
  | .constrained_dynamics => fix ++ ["thermostat", "barostat", "timestep", "nmts", "nsteps_o",
      "nsteps_geo", "csolver", "mode", "splitting", "constraint_list"]
  | .t_ramp => ["t_start", "t_end", "logscale", "total_steps", "current_step"]
  | .p_ramp => ["p_start", "p_end", "logscale", "total_steps", "current_step"]
  | .alchemy => fix ++ ["names", "nxc", "ealc", "mode"]
  | .atomswap => fix ++ ["names", "nxc", "ealc", "mode"]
  | .planetary => fix ++ ["thermostat", "timestep", "nmts", "nsamples", "stride", "nbeads",
      "screen", "mode"]
  | .instanton => fix ++ ["tolerances", "biggest_step", "old_pos", "old_pot", "old_force", "opt",
      "max_e", "max_ms", "discretization", "friction", "frictionSD", "fric_spec_dens",
      "fric_spec_dens_ener", "eta", "alt_out", "prefix", "delta", "hessian_init", "hessian",
      "hessian_update", "hessian_asr", "fric_hessian", "qlist_lbfgs", "glist_lbfgs",
      "old_direction", "scale_lbfgs", "corrections_lbfgs", "ls_options", "energy_shift",
      "hessian_final", "mode"]
  | .al_kmc => fix ++ ["optimizer", "nstep", "a0", "diffusion_barrier_al",
      "diffusion_prefactor_al", "diffusion_barrier_mg", "diffusion_prefactor_mg",
      "diffusion_barrier_si", "diffusion_prefactor_si", "neval", "ncell", "nvac", "nsi", "nmg",
      "idx", "tottime", "ecache_file", "qcache_file", "max_cache_len", "mode"]
  | .dummy => []
  | .scp => fix ++ ["prefix", "asr", "random_type", "displace_mode", "dynmat", "max_steps",
      "max_iter", "tau", "wthreshold", "precheck", "checkweights", "chop", "nparallel",
      "batch_weight_exponent", "mode"]
  | .normalmodes => fix ++ ["prefix", "asr", "dynmat", "nprim", "fnmrms", "nevib", "nint",
      "pair_range", "nbasis", "athresh", "ethresh", "alpha", "nkbt", "nexc", "mptwo", "solve",
      "grid", "print_mftpot", "print_1b_map", "print_2b_map", "print_vib_density", "threebody",
      "nparallel", "mode"]

/-- `Motion.__init__` (engine/motion/motion.py L32). -/
def motionSig : Sig := ⟨[], ["fixcom", "fixatoms_dof"]⟩

/-- `Dynamics.__init__` (engine/motion/dynamics.py). -/
def dynamicsSig : Sig :=
  ⟨["timestep"], ["mode", "splitting", "thermostat", "barostat", "fixcom", "fixatoms_dof", "nmts",
    "efield", "bec"]⟩

/-- `GeopMotion.__init__` (engine/motion/geop.py). -/
def geopSig : Sig :=
  ⟨[], ["fixcom", "fixatoms_dof", "mode", "exit_on_convergence", "biggest_step", "old_pos",
    "old_pot", "old_force", "old_direction", "invhessian_bfgs", "hessian_trm", "tr_trm",
    "ls_options", "tolerances", "corrections_lbfgs", "scale_lbfgs", "qlist_lbfgs", "glist_lbfgs"]⟩

/-- The arguments of the constructor of the class of each mode (files in `engine/motion/`).
`DrivenDynamics` takes any further keywords (`**argv`, driven_dynamics.py L47-54); they are those of
`Dynamics` and are listed here, and checked again in `inner`. -/
def ctor : Mode → Sig
  | .vibrations => ⟨[], ["fixcom", "fixatoms_dof", "mode", "energy_shift", "pos_shift",
      "output_shift", "dynmat", "refdynmat", "prefix", "asr"]⟩
  | .minimize => geopSig
  | .replay => ⟨[], ["fixcom", "fixatoms_dof", "intraj"]⟩
  | .neb => ⟨[], ["fixcom", "fixatoms_dof", "mode", "biggest_step", "old_coord", "full_force",
      "full_pots", "old_nebpotential", "old_nebgradient", "old_direction", "hessian_bfgs",
      "tolerances", "corrections_lbfgs", "qlist_lbfgs", "glist_lbfgs", "dtmax_fire", "v_fire",
      "alpha_fire", "N_down_fire", "N_up_fire", "dt_fire", "endpoints", "spring", "tangent",
      "scale_lbfgs", "stage", "use_climb", "climb_bead"]⟩
  | .string => ⟨[], ["fixcom", "fixatoms_dof", "mode", "biggest_step", "old_coord", "full_force",
      "full_pots", "old_stringpotential", "old_stringgradient", "old_direction", "hessian_bfgs",
      "tolerances", "corrections_lbfgs", "qlist_lbfgs", "glist_lbfgs", "tr_trm", "dtmax_fire",
      "v_fire", "alpha_fire", "N_down_fire", "N_up_fire", "dt_fire", "endpoints", "scale_lbfgs",
      "stage", "use_climb", "climb_bead"]⟩
  | .dynamics => dynamicsSig
  | .driven_dynamics =>
      ⟨dynamicsSig.req, ["efield", "bec", "asr_threshold"] ++ dynamicsSig.opt⟩
  | .constrained_dynamics => ⟨["timestep"], ["mode", "splitting", "thermostat", "barostat",
      "fixcom", "fixatoms", "nmts", "nsteps_geo", "nsteps_o", "constraint_list", "csolver"]⟩
  | .t_ramp => ⟨[], ["fixcom", "fixatoms_dof", "t_start", "t_end", "total_steps", "current_step",
      "logscale"]⟩
  | .p_ramp => ⟨[], ["fixcom", "fixatoms_dof", "p_start", "p_end", "total_steps", "current_step",
      "logscale"]⟩
  | .alchemy => ⟨[], ["fixcom", "fixatoms_dof", "mode", "names", "nxc", "ealc"]⟩
  | .atomswap => ⟨[], ["fixcom", "fixatoms_dof", "mode", "names", "nxc", "ealc"]⟩
  | .planetary => ⟨["timestep"], ["mode", "nsamples", "stride", "screen", "nbeads", "thermostat",
      "barostat", "fixcom", "fixatoms_dof", "nmts"]⟩
  | .instanton => ⟨[], ["fixcom", "fixatoms_dof", "mode", "tolerances", "biggest_step", "old_pos",
      "old_pot", "old_force", "opt", "max_e", "max_ms", "discretization", "alt_out", "prefix",
      "delta", "hessian_init", "hessian", "fric_hessian", "hessian_update", "hessian_asr",
      "qlist_lbfgs", "glist_lbfgs", "scale_lbfgs", "corrections_lbfgs", "ls_options",
      "old_direction", "hessian_final", "energy_shift", "friction", "frictionSD", "eta",
      "fric_spec_dens", "fric_spec_dens_ener"]⟩
  | .al_kmc => ⟨["mode", "optimizer", "nstep", "a0", "ncell", "nvac", "nsi", "nmg", "neval",
      "diffusion_barrier_al", "diffusion_prefactor_al", "diffusion_barrier_mg",
      "diffusion_prefactor_mg", "diffusion_barrier_si", "diffusion_prefactor_si"],
      ["idx", "tottime", "ecache_file", "qcache_file", "thermostat", "barostat", "fixcom",
      "fixatoms_dof", "nmts", "max_cache_len"]⟩
  | .dummy => motionSig
  | .scp => ⟨[], ["fixcom", "fixatoms_dof", "mode", "dynmat", "prefix", "asr", "max_steps",
      "max_iter", "tau", "chop", "random_type", "displace_mode", "wthreshold", "precheck",
      "checkweights", "nparallel", "batch_weight_exponent"]⟩
  | .normalmodes => ⟨[], ["fixcom", "fixatoms_dof", "mode", "dynmat", "prefix", "asr", "nprim",
      "fnmrms", "nevib", "nint", "nbasis", "athresh", "ethresh", "nkbt", "nexc", "solve", "grid",
      "mptwo", "print_mftpot", "print_1b_map", "print_2b_map", "threebody", "print_vib_density",
      "nparallel", "alpha", "pair_range"]⟩

/-- The call of the constructor of the parent class, or of the motion used inside, in each
constructor.  `none`: the constructor of `Motion` is not called (planetary.py L53-91,
al6xxx_kmc.py L44-215); these create a `Dynamics` (planetary.py L80-87) and `GeopMotion`s
(al6xxx_kmc.py L176-182). -/
def inner : Mode → Sig × List String
  | .dummy => (motionSig, [])
  | .t_ramp => (motionSig, [])
  | .p_ramp => (motionSig, [])
  | .driven_dynamics => (dynamicsSig, fix ++ dynamicsKeys)
  | .constrained_dynamics => (motionSig, ["fixcom", "fixatoms"])
  | .planetary => (dynamicsSig, ["timestep", "mode", "thermostat", "nmts", "fixcom",
      "fixatoms_dof"])
  | .al_kmc => (geopSig, fix ++ geopKeys)
  | _ => (motionSig, fix)

/-- Whether the constructor of `Motion` runs, directly or through `Dynamics`. -/
def runsMotionInit : Mode → Bool
  | .planetary | .al_kmc => false
  | _ => true

/-- The attributes among those used here that the object has after construction
(engine/motion/motion.py L42-53; planetary.py L77-79; al6xxx_kmc.py L168-170). -/
def attributes (m : Mode) : List String :=
  if runsMotionInit m then
    ["dt", "fixcom", "fixatoms_dof", "finished", "exit_status", "exit_message"]
  else ["dt", "fixcom", "fixatoms_dof"]

/-- `InputMotionBase.fetch` for one mode; the result is the list of attributes.  The exit that mode
`string` requests (L372-379) is left out. -/
def create (m : Mode) : Except Err (List String) :=
  match call (ctor m) (passed m) with
  | .error e => .error e
  | .ok _ =>
      match call (inner m).1 (inner m).2 with
      | .error e => .error e
      | .ok _ => .ok (attributes m)

/-- `getattr`. -/
def getattr (obj : List String) (name : String) : Except Err Unit :=
  if name ∈ obj then .ok () else .error (.noAttribute name)

/-- What `run_step` does with a motion after its step when no exit was requested (simulation.py
L443-450, L455-462); `MultiMotion.step` reads the same attribute of its members
(engine/motion/multi.py L49-57). -/
def afterStep (obj : List String) : Except Err Unit := getattr obj "finished"

/-- A simulation with one system of the given mode up to the end of its first step, if the step
itself succeeds. -/
def firstStep (m : Mode) : Except Err Unit :=
  match create m with
  | .error e => .error e
  | .ok obj => afterStep obj

/-- The constructor of a multiple motion, `MultiMotion.__init__` (engine/motion/multi.py L11-37),
uses only `dt`, `fixcom` and `fixatoms_dof` of its members; the steps of the members follow one
another (L49-57).  Members that raise end the step. -/
def multiStep : List Mode → Except Err Unit
  | [] => .ok ()
  | m :: ms =>
      match firstStep m with
      | .error e => .error e
      | .ok _ => multiStep ms

end Verif.MotionInput
