/-!
# Options: from the input file to the objects, and from the objects to a checkpoint

Every block of an i-PI input is described by an input class with three parts: the table of
options it accepts, `fetch`, which hands the option values to the constructor of the engine
object, and `store`, which writes an existing engine object back into the options when a
checkpoint is written.  A restart reads the checkpoint, so it is `fetch` after `store`.

The tables below transcribe, for one block each, which attribute of the engine object an option
ends up in (`fetch` composed with the constructor) and which attribute `store` writes it from.
Option values are opaque: the conversions between text and values are the subject of
Verif/Io/Values.lean and Verif/Io/InputModel.lean.

Simplifications: where the code branches on a mode option there is one table per mode, listing
the options that mode uses; nested blocks count as one value; a value computed from an option by
`np.asarray`, `reshape` or an integer conversion counts as that option's value; options that only
decide whether an exception is raised are left out.
-/

namespace Verif.Options

/-- One option of an input block: its name, the attribute of the engine object that `fetch` and
the constructor put its value in, if any, and the attribute `store` reads it back from, if
any.  Models a key of `fields`/`attribs` in an input class together with its lines in `fetch`
and `store`, e.g. inputs/forcefields.py L66-166. -/
structure Row where
  opt : String
  attr : Option String
  stored : Option String
  deriving DecidableEq, Repr

/-- All options of one input block. -/
abbrev Table := List Row

/-- The usual row: the option goes to an attribute and is stored from the same attribute. -/
def keep (o a : String) : Row := ⟨o, some a, some a⟩

/-- Assignment of a value to a name (`self.x = v`). -/
def upd {V : Type} (f : String → V) (k : String) (v : V) : String → V :=
  fun k' => if k' = k then v else f k'

/-- The constructor's effect for one option (engine classes' `__init__`, `self.attr = value`). -/
def build1 {V : Type} (o : String → V) (obj : String → V) (r : Row) : String → V :=
  match r.attr with
  | none => obj
  | some a => upd obj a (o r.opt)

/-- `fetch` followed by the constructor: the object built from option values `o`; attributes no
option goes to keep the constructor's own defaults `d`. -/
def build {V : Type} (t : Table) (d o : String → V) : String → V := t.foldl (build1 o) d

/-- The effect of one `self.option.store(obj.attr)` line. -/
def save1 {V : Type} (obj : String → V) (o : String → V) (r : Row) : String → V :=
  match r.stored with
  | none => o
  | some a => upd o r.opt (obj a)

/-- `store`: the option values written to a checkpoint for object `obj`; an option that is not
stored has its default value `od` when the checkpoint is read back. -/
def save {V : Type} (t : Table) (od obj : String → V) : String → V := t.foldl (save1 obj) od

/-- The object a restart builds: `store` at the checkpoint, then `fetch`. -/
def restart {V : Type} (t : Table) (d od obj : String → V) : String → V :=
  build t d (save t od obj)

/-- The attributes of the engine object that come from options. -/
def attrs (t : Table) : List String := t.filterMap (·.attr)

/-- A table is well formed when no option is listed twice and no two options share an attribute. -/
def Wf (t : Table) : Prop := (t.map (·.opt)).Nodup ∧ (attrs t).Nodup

instance (t : Table) : Decidable (Wf t) := by unfold Wf; infer_instance

/-- The options with no effect. -/
def ignored (t : Table) : List String := (t.filter (fun r => r.attr.isNone)).map (·.opt)

/-- The options whose effect a restart does not keep. -/
def forgotten (t : Table) : List String :=
  (t.filter (fun r => r.attr.isSome && (r.attr != r.stored))).map (·.opt)

/-- `dynamics`: inputs/motion/dynamics.py L118-147, engine/motion/dynamics.py L26-110. -/
def t_dynamics : Table :=
  [keep "mode" "enstype", keep "timestep" "dt", keep "thermostat" "thermostat",
   keep "barostat" "barostat", keep "nmts" "nmts", keep "splitting" "splitting",
   keep "fixcom" "fixcom", keep "fixatoms_dof" "fixatoms_dof"]

/-- `geop_bfgs`: inputs/motion/geop.py L203-238 (mode "bfgs"), engine/motion/geop.py L60-130. -/
def t_geop_bfgs : Table :=
  [keep "mode" "mode", keep "tolerances" "tolerances", keep "exit_on_convergence" "conv_exit",
   keep "old_direction" "d", keep "invhessian_bfgs" "invhessian",
   keep "biggest_step" "big_step", ⟨"old_pos", some "old_x", none⟩,
   ⟨"old_pot", some "old_u", none⟩, ⟨"old_force", some "old_f", none⟩,
   ⟨"ls_options", some "ls_options", none⟩, keep "fixcom" "fixcom",
   keep "fixatoms_dof" "fixatoms_dof"]

/-- `geop_bfgstrm`: inputs/motion/geop.py L203-238 (mode "bfgstrm"), engine/motion/geop.py
L60-130. -/
def t_geop_bfgstrm : Table :=
  [keep "mode" "mode", keep "tolerances" "tolerances", keep "exit_on_convergence" "conv_exit",
   keep "hessian_trm" "hessian", keep "tr_trm" "tr", keep "biggest_step" "big_step",
   ⟨"old_pos", some "old_x", none⟩, ⟨"old_pot", some "old_u", none⟩,
   ⟨"old_force", some "old_f", none⟩, ⟨"ls_options", some "ls_options", none⟩,
   keep "fixcom" "fixcom", keep "fixatoms_dof" "fixatoms_dof"]

/-- `geop_lbfgs`: inputs/motion/geop.py L203-238 (mode "lbfgs"), engine/motion/geop.py L60-130. -/
def t_geop_lbfgs : Table :=
  [keep "mode" "mode", keep "tolerances" "tolerances", keep "exit_on_convergence" "conv_exit",
   keep "old_direction" "d", keep "qlist_lbfgs" "qlist", keep "glist_lbfgs" "glist",
   keep "corrections_lbfgs" "corrections", keep "scale_lbfgs" "scale",
   keep "biggest_step" "big_step", ⟨"old_pos", some "old_x", none⟩,
   ⟨"old_pot", some "old_u", none⟩, ⟨"old_force", some "old_f", none⟩,
   ⟨"ls_options", some "ls_options", none⟩, keep "fixcom" "fixcom",
   keep "fixatoms_dof" "fixatoms_dof"]

/-- `geop_sd`: inputs/motion/geop.py L203-238 (mode "sd"), engine/motion/geop.py L60-130. -/
def t_geop_sd : Table :=
  [keep "mode" "mode", keep "tolerances" "tolerances", keep "exit_on_convergence" "conv_exit",
   keep "ls_options" "ls_options", ⟨"old_pos", some "old_x", none⟩,
   ⟨"old_pot", some "old_u", none⟩, ⟨"old_force", some "old_f", none⟩, keep "fixcom" "fixcom",
   keep "fixatoms_dof" "fixatoms_dof"]

/-- `geop_cg`: inputs/motion/geop.py L203-238 (mode "cg"), engine/motion/geop.py L60-130. -/
def t_geop_cg : Table :=
  [keep "mode" "mode", keep "tolerances" "tolerances", keep "exit_on_convergence" "conv_exit",
   keep "old_direction" "d", keep "ls_options" "ls_options", keep "old_force" "old_f",
   ⟨"old_pos", some "old_x", none⟩, ⟨"old_pot", some "old_u", none⟩, keep "fixcom" "fixcom",
   keep "fixatoms_dof" "fixatoms_dof"]

/-- `planetary`: inputs/motion/planetary.py L120-141, engine/motion/planetary.py L45-90; the
constrained dynamics holds the fixed-atom settings, while `store` of the enclosing class
(inputs/motion/motion.py L318-323) reads the ones the planetary object sets to constants
(L76-77). -/
def t_planetary : Table :=
  [keep "mode" "mode", keep "timestep" "ccdyn.dt", keep "thermostat" "ccdyn.thermostat",
   keep "nmts" "ccdyn.nmts", keep "nsamples" "nsamples", keep "stride" "stride",
   keep "screen" "screen", ⟨"nbeads", some "nbeads", none⟩,
   ⟨"fixcom", some "ccdyn.fixcom", some "fixcom"⟩,
   ⟨"fixatoms_dof", some "ccdyn.fixatoms_dof", some "fixatoms_dof"⟩]

/-- `phonons`: inputs/motion/phonons.py L114-129, engine/motion/phonons.py L33-75. -/
def t_phonons : Table :=
  [keep "mode" "mode", keep "pos_shift" "deltax", keep "energy_shift" "deltae",
   keep "output_shift" "deltaw", keep "prefix" "prefix", keep "asr" "asr",
   keep "dynmat" "dynmatrix", keep "refdynmat" "refdynmatrix", keep "fixcom" "fixcom",
   keep "fixatoms_dof" "fixatoms_dof"]

/-- `scphonons`: inputs/motion/scphonons.py L170-189, engine/motion/scphonons.py L44-105. -/
def t_scphonons : Table :=
  [keep "mode" "mode", keep "prefix" "prefix", keep "asr" "asr", keep "dynmat" "dynmatrix",
   keep "max_steps" "max_steps", keep "max_iter" "max_iter", keep "tau" "tau",
   keep "chop" "chop", keep "random_type" "random_type", keep "displace_mode" "displace_mode",
   keep "nparallel" "nparallel", keep "batch_weight_exponent" "batch_weight_exponent",
   ⟨"wthreshold", some "wthreshold", none⟩, ⟨"precheck", some "precheck", none⟩,
   ⟨"checkweights", some "checkweights", none⟩, keep "fixcom" "fixcom",
   keep "fixatoms_dof" "fixatoms_dof"]

/-- `vscf`: inputs/motion/vscf.py L245-276, engine/motion/vscf.py L52-130. -/
def t_vscf : Table :=
  [keep "mode" "mode", keep "prefix" "prefix", keep "asr" "asr", keep "dynmat" "dynmatrix",
   keep "nprim" "nprim", keep "fnmrms" "fnmrms", keep "nevib" "nevib", keep "nint" "nint",
   keep "pair_range" "pair_range", keep "nbasis" "nbasis", keep "athresh" "athresh",
   keep "ethresh" "ethresh", keep "alpha" "alpha", keep "nkbt" "nkbt", keep "nexc" "nexc",
   keep "mptwo" "mptwo", keep "solve" "solve", keep "grid" "grid",
   keep "print_mftpot" "print_mftpot", keep "print_1b_map" "print_1b_map",
   keep "print_2b_map" "print_2b_map", keep "print_vib_density" "print_vib_density",
   keep "threebody" "threebody", keep "nparallel" "nparallel", keep "fixcom" "fixcom",
   keep "fixatoms_dof" "fixatoms_dof"]

/-- `neb`: inputs/motion/neb.py L293-325, engine/motion/neb.py L327-410. -/
def t_neb : Table :=
  [keep "mode" "mode", keep "tolerances" "tolerances", keep "old_coord" "old_x",
   keep "full_force" "full_f", keep "full_pots" "full_v", keep "old_nebpotential" "nebpot",
   keep "old_nebgradient" "nebgrad", keep "old_direction" "d", keep "biggest_step" "big_step",
   keep "scale_lbfgs" "scale", keep "hessian_bfgs" "hessian", keep "qlist_lbfgs" "qlist",
   keep "glist_lbfgs" "glist", keep "dtmax_fire" "dtmax", keep "v_fire" "v",
   keep "alpha_fire" "a", keep "N_down_fire" "N_dn", keep "N_up_fire" "N_up",
   keep "dt_fire" "dt_fire", keep "endpoints" "endpoints", keep "spring" "spring",
   keep "tangent" "tangent", keep "stage" "stage", keep "use_climb" "use_climb",
   keep "climb_bead" "cl_indx", ⟨"corrections_lbfgs", some "corrections", none⟩,
   keep "fixcom" "fixcom", keep "fixatoms_dof" "fixatoms_dof"]

/-- `string`: inputs/motion/stringmep.py L285-316, engine/motion/stringmep.py L271-350. -/
def t_string : Table :=
  [keep "mode" "mode", keep "tolerances" "tolerances", keep "old_coord" "old_x",
   keep "full_force" "full_f", keep "full_pots" "full_v",
   keep "old_stringpotential" "stringpot", keep "old_stringgradient" "stringgrad",
   keep "old_direction" "d", keep "biggest_step" "big_step", keep "scale_lbfgs" "scale",
   keep "hessian_bfgs" "hessian", keep "qlist_lbfgs" "qlist", keep "glist_lbfgs" "glist",
   keep "tr_trm" "tr_trm", keep "dtmax_fire" "dtmax", keep "v_fire" "v", keep "alpha_fire" "a",
   keep "N_down_fire" "N_dn", keep "N_up_fire" "N_up", keep "dt_fire" "dt_fire",
   keep "endpoints" "endpoints", keep "stage" "stage", keep "use_climb" "use_climb",
   keep "climb_bead" "cl_indx", ⟨"corrections_lbfgs", some "corrections", none⟩,
   keep "fixcom" "fixcom", keep "fixatoms_dof" "fixatoms_dof"]

/-- `alkmc`: inputs/motion/al6xxx_kmc.py L208-269, engine/motion/al6xxx_kmc.py L47-180 (the
single-valued `mode` is left out). -/
def t_alkmc : Table :=
  [keep "nstep" "nstep", keep "a0" "a0", keep "diffusion_barrier_al" "diffusion_barrier_al",
   keep "diffusion_prefactor_al" "diffusion_prefactor_al",
   keep "diffusion_barrier_mg" "diffusion_barrier_mg",
   keep "diffusion_prefactor_mg" "diffusion_prefactor_mg",
   keep "diffusion_barrier_si" "diffusion_barrier_si",
   keep "diffusion_prefactor_si" "diffusion_prefactor_si", keep "ncell" "ncell",
   keep "nvac" "nvac", keep "nsi" "nsi", keep "nmg" "nmg", keep "idx" "idx",
   keep "tottime" "tottime", keep "ecache_file" "ecache_file",
   keep "qcache_file" "qcache_file", keep "max_cache_len" "max_cache_len",
   ⟨"optimizer", some "optimizer", none⟩, ⟨"neval", some "neval", none⟩]

/-- `alchemy`: inputs/motion/alchemy.py (store), engine/motion/alchemy.py L26-60 (the single-
valued `mode` is left out). -/
def t_alchemy : Table :=
  [keep "names" "names", keep "nxc" "nxc", keep "ealc" "ealc", keep "fixcom" "fixcom",
   keep "fixatoms_dof" "fixatoms_dof"]

/-- `atomswap`: inputs/motion/atomswap.py (store), engine/motion/atomswap.py L26-60 (the single-
valued `mode` is left out). -/
def t_atomswap : Table :=
  [keep "names" "names", keep "nxc" "nxc", keep "ealc" "ealc", keep "fixcom" "fixcom",
   keep "fixatoms_dof" "fixatoms_dof"]

/-- `t_ramp`: inputs/motion/ramp.py (InputTemperatureRamp.store), engine/motion/ramp.py
(TemperatureRamp); `fixcom` and `fixatoms_dof` are accepted and not used. -/
def t_t_ramp : Table :=
  [keep "t_start" "t_start", keep "t_end" "t_end", keep "logscale" "logscale",
   keep "total_steps" "total_steps", keep "current_step" "current_step"]

/-- `p_ramp`: inputs/motion/ramp.py (InputPressureRamp.store), engine/motion/ramp.py
(PressureRamp); `fixcom` and `fixatoms_dof` are accepted and not used. -/
def t_p_ramp : Table :=
  [keep "p_start" "p_start", keep "p_end" "p_end", keep "logscale" "logscale",
   keep "total_steps" "total_steps", keep "current_step" "current_step"]

/-- `remd`: inputs/smotion/remd.py (store), engine/smotion/remd.py (ReplicaExchange.__init__). -/
def t_remd : Table :=
  [keep "stride" "stride", keep "repindex" "repindex", keep "krescale" "rescalekin",
   keep "swapfile" "swapfile"]

/-- `metad`: inputs/smotion/metad.py (store), engine/smotion/metad.py (MetaDyn.__init__). -/
def t_metad : Table :=
  [keep "metaff" "metaff", keep "use_energy" "use_energy"]

/-- `dmd`: inputs/smotion/dmd.py (store), engine/smotion/dmd.py (DMD.__init__). -/
def t_dmd : Table :=
  [keep "dmdff" "dmdff"]

/-- `ensemble`: inputs/ensembles.py (store, fetch), engine/ensembles.py (Ensemble.__init__). -/
def t_ensemble : Table :=
  [keep "temperature" "temp", keep "pressure" "pext", keep "stress" "stressext",
   keep "eens" "eens", keep "bias" "bcomp", keep "bias_weights" "bweights",
   keep "hamiltonian_weights" "hweights", keep "time" "time"]

/-- `force`: inputs/forces.py (InputForceComponent store, fetch), engine/forces.py
(ForceComponent.__init__). -/
def t_force : Table :=
  [keep "nbeads" "nbeads", keep "weight" "weight", keep "fd_epsilon" "epsilon",
   keep "name" "name", keep "forcefield" "ffield", keep "mts_weights" "mts_weights",
   keep "interpolate_extras" "interpolate_extras"]

/-- `ffsocket`: inputs/forcefields.py L322-384, engine/forcefields.py L325-361; `threaded` can
only be true (`fetch` raises otherwise, `store` writes true). -/
def t_ffsocket : Table :=
  [keep "name" "name", keep "latency" "latency", keep "offset" "offset",
   keep "parameters" "pars", keep "pbc" "dopbc", keep "activelist" "active",
   keep "threaded" "threaded", keep "address" "socket.address", keep "port" "socket.port",
   keep "slots" "socket.slots", keep "exit_on_disconnect" "socket.exit_on_disconnect",
   keep "timeout" "socket.timeout", keep "max_workers" "socket.max_workers",
   keep "consolidate_messages" "socket.consolidate_messages",
   keep "batch_size" "socket.batch_size", keep "mode" "socket.mode",
   keep "matching" "socket.match_mode"]

/-- `ffcavphsocket`: inputs/forcefields.py L1197-1350 (store through the parent class),
engine/forcefields.py L2110-2175. -/
def t_ffcavphsocket : Table :=
  [keep "name" "name", keep "latency" "latency", keep "offset" "offset",
   keep "parameters" "pars", keep "pbc" "dopbc", keep "activelist" "active",
   keep "threaded" "threaded", keep "address" "socket.address", keep "port" "socket.port",
   keep "slots" "socket.slots", keep "exit_on_disconnect" "socket.exit_on_disconnect",
   keep "timeout" "socket.timeout", keep "mode" "socket.mode",
   keep "matching" "socket.match_mode", keep "charge_array" "charge_array",
   keep "apply_photon" "apply_photon", keep "evaluate_photon" "evaluate_photon",
   keep "dipole_surface" "dipole_surface", keep "E0" "E0", keep "omega_c" "omega_c",
   keep "ph_rep" "ph_rep", ⟨"max_workers", none, some "socket.max_workers"⟩,
   ⟨"consolidate_messages", none, some "socket.consolidate_messages"⟩,
   ⟨"batch_size", none, some "socket.batch_size"⟩]

/-- `ffmpi`: inputs/forcefields.py L454-520, engine/forcefields.py L440-470. -/
def t_ffmpi : Table :=
  [keep "name" "name", keep "latency" "latency", keep "offset" "offset",
   keep "parameters" "pars", keep "pbc" "dopbc", keep "activelist" "active",
   keep "threaded" "threaded", keep "mode" "mode", keep "batch_size" "interface.batch_size"]

/-- `ffdirect`: inputs/forcefields.py L386-452, engine/forcefields.py L500-540. -/
def t_ffdirect : Table :=
  [keep "name" "name", keep "latency" "latency", keep "offset" "offset",
   keep "parameters" "pars", keep "pbc" "dopbc", ⟨"activelist", none, some "active"⟩,
   keep "threaded" "threaded", keep "pes" "pes", keep "pes_path" "pes_path",
   keep "batch_size" "batch_size"]

/-- `lj`: inputs/forcefields.py L134-166, L523-531, engine/forcefields.py L635-665. -/
def t_lj : Table :=
  [keep "name" "name", keep "latency" "latency", keep "offset" "offset",
   keep "parameters" "pars", keep "pbc" "dopbc", keep "activelist" "active",
   keep "threaded" "threaded"]

/-- `ffdmd`: inputs/forcefields.py L534-598, engine/forcefields.py L705-760. -/
def t_ffdmd : Table :=
  [keep "name" "name", keep "latency" "latency", keep "offset" "offset",
   keep "parameters" "pars", keep "pbc" "dopbc", ⟨"activelist", none, some "active"⟩,
   keep "threaded" "threaded", keep "dmd_coupling" "coupling", keep "dmd_freq" "freq",
   keep "dmd_dt" "dtdmd", keep "dmd_step" "dmdstep"]

/-- `ffdebye`: inputs/forcefields.py L601-660, engine/forcefields.py L805-846 (`dopbc` and
`threaded` are not passed on to the base class). -/
def t_ffdebye : Table :=
  [keep "name" "name", keep "latency" "latency", keep "offset" "offset",
   ⟨"parameters", none, some "pars"⟩, ⟨"activelist", none, some "active"⟩,
   ⟨"pbc", none, some "dopbc"⟩, ⟨"threaded", none, some "threaded"⟩, keep "hessian" "H",
   keep "x_reference" "xref", keep "v_reference" "vref"]

/-- `ffplumed`: inputs/forcefields.py L663-748, engine/forcefields.py L890-950 (`dopbc` and
`threaded` are forced to false). -/
def t_ffplumed : Table :=
  [keep "name" "name", keep "latency" "latency", keep "offset" "offset",
   ⟨"parameters", none, some "pars"⟩, ⟨"activelist", none, some "active"⟩,
   ⟨"pbc", none, some "dopbc"⟩, ⟨"threaded", none, some "threaded"⟩, keep "file" "init_file",
   keep "plumed_dat" "plumed_dat", keep "plumed_step" "plumed_step",
   keep "compute_work" "compute_work", keep "plumed_extras" "plumed_extras"]

/-- `ffyaff`: inputs/forcefields.py L751-865, engine/forcefields.py L1115-1185. -/
def t_ffyaff : Table :=
  [keep "name" "name", keep "latency" "latency", keep "offset" "offset", keep "pbc" "dopbc",
   ⟨"parameters", none, some "pars"⟩, ⟨"activelist", none, some "active"⟩,
   keep "threaded" "threaded", keep "yaffpara" "yaffpara", keep "yaffsys" "yaffsys",
   keep "yafflog" "yafflog", keep "rcut" "rcut", keep "alpha_scale" "alpha_scale",
   keep "gcut_scale" "gcut_scale", keep "skin" "skin", keep "smooth_ei" "smooth_ei",
   keep "reci_ei" "reci_ei"]

/-- `ffsgdml`: inputs/forcefields.py L868-902, engine/forcefields.py L1225-1290. -/
def t_ffsgdml : Table :=
  [keep "name" "name", keep "latency" "latency", keep "offset" "offset", keep "pbc" "dopbc",
   ⟨"parameters", none, some "pars"⟩, ⟨"activelist", none, some "active"⟩,
   keep "threaded" "threaded", keep "sGDML_model" "sGDML_model"]

/-- `ffcommittee`: inputs/forcefields.py L905-1073 (options of the committee itself, not its
members), engine/forcefields.py L1340-1411 (`threaded` is forced to true). -/
def t_ffcommittee : Table :=
  [keep "name" "name", keep "latency" "latency", keep "offset" "offset",
   keep "parameters" "pars", keep "pbc" "dopbc", ⟨"activelist", none, some "active"⟩,
   ⟨"threaded", none, some "threaded"⟩, keep "weights" "ffweights", keep "alpha" "alpha",
   keep "baseline_uncertainty" "baseline_uncertainty", keep "baseline_name" "baseline_name",
   keep "active_thresh" "active_thresh", keep "active_output" "active_out",
   keep "parse_json" "parse_json"]

/-- `ffrotations`: inputs/forcefields.py L1076-1194, engine/forcefields.py L1690-1760. -/
def t_ffrotations : Table :=
  [keep "name" "name", keep "latency" "latency", keep "offset" "offset",
   keep "parameters" "pars", keep "pbc" "dopbc", keep "activelist" "active",
   keep "threaded" "threaded", keep "prng" "prng", keep "ffsocket" "ffsocket",
   keep "ffdirect" "ffdirect", keep "random" "random", keep "inversion" "inversion",
   keep "grid_order" "grid_order", keep "grid_mode" "grid_mode"]

/-- `thermo_langevin`: inputs/thermostats.py L174-338, engine/thermostats.py (mode "langevin"). -/
def t_thermo_langevin : Table :=
  [keep "ethermo" "ethermo", keep "tau" "tau"]

/-- `thermo_svr`: inputs/thermostats.py L174-338, engine/thermostats.py (mode "svr"). -/
def t_thermo_svr : Table :=
  [keep "ethermo" "ethermo", keep "tau" "tau"]

/-- `thermo_pile_l`: inputs/thermostats.py L174-338, engine/thermostats.py (mode "pile_l"). -/
def t_thermo_pile_l : Table :=
  [keep "ethermo" "ethermo", keep "tau" "tau", keep "pile_lambda" "pilescale",
   keep "pile_centroid_t" "pilect"]

/-- `thermo_pile_g`: inputs/thermostats.py L174-338, engine/thermostats.py (mode "pile_g"). -/
def t_thermo_pile_g : Table :=
  [keep "ethermo" "ethermo", keep "tau" "tau", keep "pile_lambda" "pilescale",
   keep "pile_centroid_t" "pilect"]

/-- `thermo_gle`: inputs/thermostats.py L174-338, engine/thermostats.py (mode "gle"). -/
def t_thermo_gle : Table :=
  [keep "ethermo" "ethermo", keep "A" "A", keep "C" "C", keep "s" "s"]

/-- `thermo_nm_gle`: inputs/thermostats.py L174-338, engine/thermostats.py (mode "nm_gle"). -/
def t_thermo_nm_gle : Table :=
  [keep "ethermo" "ethermo", keep "A" "A", keep "C" "C", keep "s" "s"]

/-- `thermo_nm_gle_g`: inputs/thermostats.py L174-338, engine/thermostats.py (mode "nm_gle_g"). -/
def t_thermo_nm_gle_g : Table :=
  [keep "ethermo" "ethermo", keep "A" "A", keep "C" "C", keep "tau" "tau", keep "s" "s"]

/-- `thermo_cl`: inputs/thermostats.py L174-338, engine/thermostats.py (mode "cl"). -/
def t_thermo_cl : Table :=
  [keep "ethermo" "ethermo", keep "tau" "tau", keep "intau" "intau", keep "idtau" "idtau",
   keep "apat" "apat"]

/-- `thermo_ffl`: inputs/thermostats.py L174-338, engine/thermostats.py (mode "ffl"). -/
def t_thermo_ffl : Table :=
  [keep "ethermo" "ethermo", keep "tau" "tau", keep "flip" "flip"]

/-- `baro_isotropic`: inputs/barostats.py (store, fetch), engine/barostats.py (mode
"isotropic"). -/
def t_baro_isotropic : Table :=
  [keep "thermostat" "thermostat", keep "tau" "tau", keep "p" "p"]

/-- `baro_sc_isotropic`: inputs/barostats.py (store, fetch), engine/barostats.py (mode "sc-
isotropic"). -/
def t_baro_sc_isotropic : Table :=
  [keep "thermostat" "thermostat", keep "tau" "tau", keep "p" "p"]

/-- `baro_flexible`: inputs/barostats.py (store, fetch), engine/barostats.py (mode "flexible"). -/
def t_baro_flexible : Table :=
  [keep "thermostat" "thermostat", keep "tau" "tau", keep "p" "p", keep "hfix" "hfix",
   keep "vol_constraint" "vol_constraint"]

/-- `baro_anisotropic`: inputs/barostats.py (store, fetch), engine/barostats.py (mode
"anisotropic"). -/
def t_baro_anisotropic : Table :=
  [keep "thermostat" "thermostat", keep "tau" "tau", keep "p" "p", keep "h0" "h0",
   keep "hfix" "hfix"]

/-- `out_properties`: inputs/outputs.py L17-106, engine/outputs.py (PropertyOutput.__init__). -/
def t_out_properties : Table :=
  [keep "filename" "filename", keep "stride" "stride", keep "flush" "flush",
   keep "verbosity" "verbosity", keep "outlist" "outlist"]

/-- `out_trajectory`: inputs/outputs.py L109-233, engine/outputs.py (TrajectoryOutput.__init__). -/
def t_out_trajectory : Table :=
  [keep "filename" "filename", keep "stride" "stride", keep "flush" "flush",
   keep "what" "what", keep "format" "format", keep "cell_units" "cell_units",
   keep "bead" "ibead", keep "extra_type" "extra_type"]

/-- `out_checkpoint`: inputs/outputs.py L236-333, engine/outputs.py (CheckpointOutput.__init__). -/
def t_out_checkpoint : Table :=
  [keep "filename" "filename", keep "stride" "stride", keep "overwrite" "overwrite",
   keep "step" "step"]

/-- All the tables of this file, with the name of the block they describe. -/
def tables : List (String × Table) :=
  [("dynamics", t_dynamics), ("geop_bfgs", t_geop_bfgs), ("geop_bfgstrm", t_geop_bfgstrm),
   ("geop_lbfgs", t_geop_lbfgs), ("geop_sd", t_geop_sd), ("geop_cg", t_geop_cg),
   ("planetary", t_planetary), ("phonons", t_phonons), ("scphonons", t_scphonons),
   ("vscf", t_vscf), ("neb", t_neb), ("string", t_string), ("alkmc", t_alkmc),
   ("alchemy", t_alchemy), ("atomswap", t_atomswap), ("t_ramp", t_t_ramp),
   ("p_ramp", t_p_ramp), ("remd", t_remd), ("metad", t_metad), ("dmd", t_dmd),
   ("ensemble", t_ensemble), ("force", t_force), ("ffsocket", t_ffsocket),
   ("ffcavphsocket", t_ffcavphsocket), ("ffmpi", t_ffmpi), ("ffdirect", t_ffdirect),
   ("lj", t_lj), ("ffdmd", t_ffdmd), ("ffdebye", t_ffdebye), ("ffplumed", t_ffplumed),
   ("ffyaff", t_ffyaff), ("ffsgdml", t_ffsgdml), ("ffcommittee", t_ffcommittee),
   ("ffrotations", t_ffrotations), ("thermo_langevin", t_thermo_langevin),
   ("thermo_svr", t_thermo_svr), ("thermo_pile_l", t_thermo_pile_l),
   ("thermo_pile_g", t_thermo_pile_g), ("thermo_gle", t_thermo_gle),
   ("thermo_nm_gle", t_thermo_nm_gle), ("thermo_nm_gle_g", t_thermo_nm_gle_g),
   ("thermo_cl", t_thermo_cl), ("thermo_ffl", t_thermo_ffl),
   ("baro_isotropic", t_baro_isotropic), ("baro_sc_isotropic", t_baro_sc_isotropic),
   ("baro_flexible", t_baro_flexible), ("baro_anisotropic", t_baro_anisotropic),
   ("out_properties", t_out_properties), ("out_trajectory", t_out_trajectory),
   ("out_checkpoint", t_out_checkpoint)]

end Verif.Options
