{"id": "C01", "title": "Reading a computed quantity never returns stale data", "statement": "After any sequence of assignments to the independent quantities of a simulation (positions, masses, temperature, weights, ...) interleaved with reads of any quantities, reading a computed quantity returns exactly the value obtained by recomputing everything from the current independent values, provided the functions read exactly the quantities they are declared to depend on.", "quantifier": "every finite acyclic dependency network, every evaluation function, every interleaving of assignments and reads", "why_tests_cant": "Staleness only shows for particular orders of reads and writes on particular graph shapes; the 'do not re-taint an already tainted object' shortcut is only right because of a global invariant.", "anchors": ["ipi/utils/depend.py: depend_base.taint, depend_base._refresh, depend_value.get, depend_value.set, depend_array.set", "ipi/utils/depend.py: depend_base.add_dependency"]}
{"id": "C02", "title": "The dependency declarations of the real objects keep every quantity fresh", "statement": "For the quantities exposed by beads, normal modes, forces, ensemble and integrators, with the dependencies they actually declare, every history of assignments and reads returns up-to-date values. (Expected to fail where a quantity declares something it does not read, or reads something it does not declare.)", "quantifier": "the actual dependency declarations of Forces, NormalModes, Ensemble, Beads and the integrators; every history of assignments and reads", "why_tests_cant": "Each concrete declaration is reviewed by eye only; tests read everything after each step and so never enter the stale states.", "anchors": ["ipi/engine/forces.py: Forces.bind (virsc, potssc, fvir_4th_order, extras)", "ipi/engine/motion/dynamics.py: DummyIntegrator.bind (qdt_on_m, inmts)", "ipi/engine/normalmodes.py: NormalModes.bind (nm_factor, omegak)", "ipi/engine/ensembles.py: Ensemble.bind (hweights)", "ipi/engine/beads.py: Beads.resize (fpath, vpath)"]}
{"id": "C03", "title": "Synchronised representations always agree with the last one written", "statement": "Positions held both as beads and as normal modes (and momenta likewise) stay consistent: after any sequence of assignments to either representation and reads of either, each representation read equals the transform of the representation written last.", "quantifier": "every number of synchronised representations, every family of conversion functions, every history of assignments and reads", "why_tests_cant": "Consistency is a property of whole histories mixing writes to both sides; tests exercise one or two alternations.", "anchors": ["ipi/utils/depend.py: synchronizer, depend_base._taint_synchro, depend_base.update_auto, depend_base.update_man", "ipi/engine/normalmodes.py: NormalModes.bind (sync_q, sync_p)"]}
{"id": "C04", "title": "Nothing is recomputed unless an input changed", "statement": "Reading a computed quantity again, with no assignment in between to anything it depends on, calls no evaluation function at all; in particular an expensive force evaluation happens at most once per change.", "quantifier": "every dependency network and every history", "why_tests_cant": "The absence of extra evaluations in all histories cannot be sampled; it is the reason for the caching layer to exist.", "anchors": ["ipi/utils/depend.py: depend_base._refresh, depend_value.get"]}
{"id": "C05", "title": "A rejected assignment to a computed quantity has no effect", "statement": "Assigning to a quantity that is defined by a function raises NameError and leaves the value that later reads return unchanged.", "quantifier": "every dependency network, every quantity with a function, every prior history", "why_tests_cant": "The raise is easy to test, the silently corrupted cache after the raise is not looked at.", "anchors": ["ipi/utils/depend.py: depend_value.set, depend_base.update_man, depend_array.__setitem__"]}
{"id": "C06", "title": "Message framing does not depend on how the network cuts the stream", "statement": "For every way the transport splits a byte stream into received pieces, with any interleaving of short timeouts below the limit, receiving n bytes returns exactly the first n bytes of the stream and leaves the rest unread; if the peer closes early the call reports a disconnection and never returns truncated data.", "quantifier": "every payload, every split into non-empty pieces, every placement of fewer than 21 timeouts, every close point", "why_tests_cant": "The number of ways to cut a stream is exponential; loopback tests see one or two.", "anchors": ["ipi/interfaces/sockets.py: DriverSocket.recvall, HDRLEN, NTIMEOUT", "drivers/py/driver.py: recv_data"]}
{"id": "C07", "title": "Forces arrive exactly as the driver computed them", "statement": "For every structure, every potential, force, virial and ASCII extra string returned by the driver, the reply written by the python driver is decoded by i-PI (by the bulk path, the batched path, and by the message-by-message path when the 12-byte header is delivered in one piece) into the same values, and exactly the bytes of that reply are consumed, so that the next exchange starts in sync.", "quantifier": "every natoms, every payload, every sequence of exchanges on one connection", "why_tests_cant": "One mis-counted byte desynchronises the stream only for particular payloads and sequences.", "anchors": ["ipi/interfaces/sockets.py: Driver.getforce, Driver._recv_force_data, Driver._recv_forces_bulk, Driver.sendpos", "drivers/py/driver.py: run_driver"]}
{"id": "C08", "title": "The extra string may contain any text", "statement": "An extra string with characters outside ASCII returned by the driver is transmitted unchanged and does not disturb the following exchange.", "quantifier": "every unicode string and every following exchange", "why_tests_cant": "Tests use ASCII JSON strings; the length is sent in characters while the payload is sent in bytes.", "anchors": ["drivers/py/driver.py: run_driver (len(extras))", "ipi/interfaces/sockets.py: Driver._recv_force_data", "ipi/interfaces/sockets.py: Driver.initialize (len(pars))"]}
{"id": "C09", "title": "No force request is lost or evaluated twice at once by the consolidated socket scheduler", "statement": "Whatever the order in which clients connect, answer, time out, disconnect or fail while being sent a job, every request handed to the socket interface is at every moment exactly one of: waiting, running on exactly one live client, or done with its result; a request whose client dies goes back to waiting.", "quantifier": "every number of clients and requests, every interleaving of connections, replies, failures and scheduler passes", "why_tests_cant": "Faults at arbitrary points of arbitrary interleavings cannot be enumerated with live sockets.", "anchors": ["ipi/interfaces/sockets.py: InterfaceSocket._pool_distribute_select, InterfaceSocket._requeue_disconnected, InterfaceSocket.dispatch_free_client, InterfaceSocket.pool_update"]}
{"id": "C10", "title": "A client that times out does not leave its request stuck (threaded mode)", "statement": "In threaded dispatch mode a request whose client exceeds the timeout is returned to the queue so that another client can evaluate it.", "quantifier": "every timeout point and every scheduler interleaving", "why_tests_cant": "The timeout path needs a client hanging at a precise moment relative to two loops.", "anchors": ["ipi/interfaces/sockets.py: InterfaceSocket.check_job_finished, InterfaceSocket.pool_distribute, InterfaceSocket.pool_update"]}
{"id": "C11", "title": "A client evaluates at most one job (or batch) at a time and replies go to the request that asked", "statement": "At every moment a client is assigned to at most one outstanding job; when its reply is read, the result is stored in the request that was sent to it, and for batched dispatch the k-th result of the reply is stored in the k-th request of the batch, with padding results discarded.", "quantifier": "every batch size, every number of pending requests, every interleaving", "why_tests_cant": "Mix-ups appear only for partial batches and particular interleavings.", "anchors": ["ipi/interfaces/sockets.py: Driver.dispatch_send_batch, Driver.dispatch_recv_batch, Driver._recv_forces_bulk_batch, InterfaceSocket._dispatch_free_client_batch"]}
{"id": "C12", "title": "Request-to-client matching policy is honoured", "statement": "A request is never sent to a client excluded by the configured match mode: with 'lock' a request only goes to the client that last evaluated the same replica or to a client with no history; with 'match'/'free'/'any' the documented preference order is followed, and a waiting request is always dispatched when some free client is eligible.", "quantifier": "every client list, history of replica assignments and match mode", "why_tests_cant": "The decision depends on the whole list of clients and past assignments.", "anchors": ["ipi/interfaces/sockets.py: InterfaceSocket.dispatch_free_client"]}
{"id": "C13", "title": "Driver protocol state machine answers each status query truthfully", "statement": "For every sequence of messages, the python driver answers NEEDINIT exactly when it has not been initialised, HAVEDATA exactly when a result is pending, READY otherwise; it never sends forces for positions other than the last ones received, and sends each result at most once.", "quantifier": "every message sequence", "why_tests_cant": "Tests only follow the nominal INIT/POSDATA/GETFORCE cycle.", "anchors": ["drivers/py/driver.py: run_driver"]}
{"id": "C14", "title": "MPI packing and unpacking are inverse", "statement": "For every batch of structures and results, the flat buffers exchanged with MPI drivers decode to the same cells, positions, potentials, forces, virials and extra strings (including non-ASCII extras), in order.", "quantifier": "every batch size, every natoms, every payload", "why_tests_cant": "Offsets are computed from strides; an off-by-one shows only for some sizes.", "anchors": ["ipi/interfaces/mpi.py: MPIInterface._dispatch, MPIInterface._unpack_results", "drivers/py/driver.py: _mpi_eval_batch, _mpi_send_results"]}
{"id": "C15", "title": "MPI driver ranks are partitioned among force fields", "statement": "When assignment succeeds every driver root is claimed by exactly one force field, each force field gets only roots that asked for it by name (or all of them if it is the only one), and every inconsistent configuration is rejected.", "quantifier": "every list of force field names and every list of driver tags", "why_tests_cant": "The configurations form an unbounded set; tests cover a few.", "anchors": ["ipi/interfaces/mpi.py: MPIWorldManager._assign"]}
{"id": "C16", "title": "No MPI request is lost, duplicated or delivered to the wrong slot", "statement": "Whatever the order in which results come back, each queued request is dispatched exactly once, is marked done exactly once with the result computed from its own positions, and a slot never holds two batches.", "quantifier": "every number of slots, requests, batch size and completion order", "why_tests_cant": "Completion order is decided by the runtime.", "anchors": ["ipi/interfaces/mpi.py: MPIInterface.poll, MPIInterface._collect, MPIInterface._dispatch"]}
{"id": "C17", "title": "Forces on inactive atoms are zero and active forces land on the right atoms", "statement": "When a force field is restricted to a subset of atoms, the driver sees exactly the positions of the selected atoms in order, and the returned force vector is zero on all other atoms and equals the driver's force on the selected ones; invalid selections are rejected.", "quantifier": "every natoms and every selection list, every force vector", "why_tests_cant": "Tests use one fixed selection; index errors depend on the order and range of the list.", "anchors": ["ipi/engine/forcefields.py: ForceField.queue", "ipi/interfaces/sockets.py: Driver.dispatch, Driver._recv_forces_bulk"]}
{"id": "C18", "title": "The energy offset is subtracted exactly once from what the caller sees", "statement": "For every force field kind and every thread schedule, the potential obtained once the request is reported done equals the evaluated potential minus the configured offset.", "quantifier": "every schedule of evaluation thread and waiting caller; every offset; every force field class", "why_tests_cant": "The window between publishing the result and subtracting the offset is a few instructions wide.", "anchors": ["ipi/engine/forcefields.py: FFEval._eval_thread, FFEval.evaluate, FFDirect.evaluate, FFCavPhSocket.poll, ForceField.release"]}
{"id": "C19", "title": "Every request queued to a direct force field is eventually evaluated", "statement": "For every batch size and every number of queued requests, polling the direct force field until no more progress is made leaves all queued requests done.", "quantifier": "every batch size and every number of requests", "why_tests_cant": "Fails only when the number of requests is not a multiple of the batch size.", "anchors": ["ipi/engine/forcefields.py: FFDirect.queue, FFDirect.poll, FFDirect.evaluate"]}
{"id": "C20", "title": "Queue and release keep the list of pending requests exact", "statement": "After any interleaving of queue and release calls the force field's request list holds exactly the requests queued and not yet released, each once; releasing twice is harmless.", "quantifier": "every interleaving of queue/release from several threads", "why_tests_cant": "List corruption shows only under contention.", "anchors": ["ipi/engine/forcefields.py: ForceField.queue, ForceField.release"]}
{"id": "C21", "title": "Committee results are the mean of the members with correctly scaled spread", "statement": "The committee potential, force and virial are the arithmetic means over the members; with baseline weighting the result is a convex combination of the two and reduces to the plain committee when the baseline uncertainty dominates; energy shift and alpha rescaling leave the mean unchanged.", "quantifier": "every number of members and every member result", "why_tests_cant": "Algebraic identities over all inputs.", "anchors": ["ipi/engine/forcefields.py: FFCommittee.gather"]}
{"id": "C22", "title": "Exit callbacks run exactly once, in registration order, however many exit requests arrive", "statement": "For any interleaving of exit requests (signals, threads, EXIT file, timeout), every registered cleanup action is started exactly once and in order, and an error in one of them of the tolerated kind does not stop the others.", "quantifier": "every number of callbacks, every set of failing callbacks, every interleaving of triggers", "why_tests_cant": "Concurrent triggers are a race.", "anchors": ["ipi/utils/softexit.py: Softexit.trigger, Softexit.cleanup, Softexit._kill_handler, Softexit.register_function"]}
{"id": "C23", "title": "Kill and restart loses no output and continues the same trajectory", "statement": "If a run is stopped at any point (soft exit at any poll point, or hard kill after any completed write) and restarted from the last checkpoint, the resumed run starts from the state stored in it and the concatenated output contains every step due for output at least once; steps are repeated only within the window since the last stored state.", "quantifier": "every step, stride and checkpoint stride, every interruption point, every number of restarts", "why_tests_cant": "Crash points are too many to try and interact with three strides.", "anchors": ["ipi/engine/simulation.py: Simulation.run, Simulation.softexit, Simulation.run_step", "ipi/engine/outputs.py: CheckpointOutput.store, CheckpointOutput.write, PropertyOutput.write"]}
{"id": "C24", "title": "Outputs are written exactly on the steps selected by the stride", "statement": "An output with stride s appears after exactly the steps k for which s divides k+1 (plus the initial configuration), for every run length and restart point, and the number of values in each row equals the number of columns announced by the header.", "quantifier": "every stride, every start step, every list of requested properties with arguments and units", "why_tests_cant": "Combination of strides, restarts and property shapes.", "anchors": ["ipi/engine/outputs.py: BaseOutput.active, PropertyOutput.write, PropertyOutput.print_header, TrajectoryOutput.write"]}
{"id": "C25", "title": "Opening an output never destroys an existing file", "statement": "Whatever files are already present, opening an output for writing keeps the full contents of every pre-existing file under some name.", "quantifier": "every directory content and every file name", "why_tests_cant": "Depends on arbitrary sets of pre-existing backups.", "anchors": ["ipi/utils/io/__init__.py: open_backup"]}
{"id": "C26", "title": "Values written to a checkpoint are read back unchanged", "statement": "For every value of each supported type (booleans, integers, strings, tuples, lists, arrays, dictionaries) that i-PI writes in the input format, reading the text gives back the same value; floating point numbers are stable from the second write on.", "quantifier": "every value of each type, every length", "why_tests_cant": "Text edge cases (empty lists, trailing empty strings, separators inside strings, line wrapping) are unbounded.", "anchors": ["ipi/utils/io/inputs/io_xml.py: write_list, read_list, write_tuple, read_tuple, write_bool, read_bool, write_dict, read_dict, write_type, read_type", "ipi/utils/inputvalue.py: InputArray.write, InputArray.parse"]}
{"id": "C27", "title": "XML written by i-PI parses to the same tree", "statement": "For every input tree whose names and texts are plain, the XML parser applied to the text events produced by the writer returns the same tags, attributes, text and order of children; unbalanced input is rejected.", "quantifier": "every finite tree", "why_tests_cant": "Nesting depth and mix of text and children are unbounded.", "anchors": ["ipi/utils/io/inputs/io_xml.py: xml_handler, xml_write, xml_parse_string"]}
{"id": "C28", "title": "Omitting default values from a checkpoint is harmless", "statement": "Writing an input section omits fields equal to their default; parsing the result gives back every field with the value it had, for any schema and any values; unknown tags or attributes and missing mandatory fields are always rejected.", "quantifier": "every schema (fields with defaults or mandatory, repeated dynamic fields), every assignment of values", "why_tests_cant": "Interaction of defaults, mandatory and explicit values over all schemas.", "anchors": ["ipi/utils/inputvalue.py: Input.write, Input.parse, Input.adapt"]}
{"id": "C29", "title": "JSON and XML input formats describe the same simulation", "statement": "Converting any XML input to JSON and back preserves every tag, attribute and value and the relative order of children with the same tag.", "quantifier": "every input tree without reserved names", "why_tests_cant": "Trees are unbounded; repeated tags and mixed content are corner cases.", "anchors": ["ipi/utils/io/inputs/io_json.py: xmlnode_to_json, json_to_xmlnode, _process_json_node"]}
{"id": "C30", "title": "Unit conversion is invertible and prefixes are parsed unambiguously", "statement": "Converting a number to internal units and back gives the number; for every unit family, unit and prefix in the tables, prefix+unit is decomposed into that prefix and that unit and not another, and unknown families or units are rejected.", "quantifier": "every number, every unit family, every prefix and unit of the tables", "why_tests_cant": "Prefix/unit overlaps are a property of the whole table (e.g. names that begin like a prefix).", "anchors": ["ipi/utils/units.py: unit_to_internal, unit_to_user, UnitMap, UnitPrefix, UnitPrefixRE"]}
{"id": "C31", "title": "Trajectory files are read back frame by frame", "statement": "A trajectory of any number of frames written in xyz format is read back as the same sequence of frames (names, coordinates as printed, cell), with nothing skipped or merged, and a truncated last frame is reported.", "quantifier": "every number of frames and atoms, every truncation point", "why_tests_cant": "Frame boundaries and truncation points are unbounded.", "anchors": ["ipi/utils/io/backends/io_xyz.py: print_xyz, read_xyz", "ipi/utils/io/__init__.py: iter_file, read_file"]}
{"id": "C32", "title": "PDB coordinates are read from the columns they were written to", "statement": "Every coordinate that fits the printed width is read back as printed from a PDB file written by i-PI.", "quantifier": "every coordinate triple that fits the fixed-width fields", "why_tests_cant": "Column misalignment is invisible for small numbers padded with blanks.", "anchors": ["ipi/utils/io/backends/io_pdb.py: print_pdb, print_pdb_path, read_pdb"]}
{"id": "C33", "title": "Random numbers depend only on the stored state and fill the whole array", "statement": "After restoring the saved generator state, the same calls give the same numbers; and a request for any number of gaussian numbers with any number of threads returns freshly drawn numbers in every entry, each entry written by exactly one thread.", "quantifier": "every state, every call sequence, every array size and thread count", "why_tests_cant": "Partition boundaries for all sizes; uninitialised memory usually looks random.", "anchors": ["ipi/utils/prng.py: Random.get_state, Random.set_state, Random.gfill_threaded, Random.gvec_threaded"]}
{"id": "C34", "title": "Splitting forces over time-step levels loses nothing", "statement": "For every list of force components with weights and per-level weights, the sum over levels of the level forces and virials equals the total force and virial, and components with zero weight contribute nothing.", "quantifier": "every number of components, levels, beads and all weights", "why_tests_cant": "An identity over all weights and components.", "anchors": ["ipi/engine/forces.py: MTSForces.get_forces_mts, MTSForces.get_virs_mts, Forces.f_combine, Forces.vir_combine, Forces.get_nmtslevels"]}
{"id": "C35", "title": "Ring-polymer contraction is consistent between positions and forces", "statement": "For every pair of bead numbers, evaluating on the contracted path and expanding back conserves the centroid, is the identity when the bead numbers agree, contraction undoes expansion, and the expanded force is the exact gradient of the contracted potential (virtual work identity); atoms with closed paths are treated with the closed-path matrices even if other atoms have open paths.", "quantifier": "every number of beads before and after contraction, every set of open paths, every position and force array", "why_tests_cant": "Identities over all bead numbers and arrays; mixed open/closed systems are rarely tested.", "anchors": ["ipi/utils/nmtransform.py: nm_rescale.b1tob2, nm_rescale.b2tob1, mk_rs_matrix, mk_o_rs_matrix"]}
{"id": "C36", "title": "Normal-mode transforms are orthogonal, mutually inverse, and independent of the algorithm chosen", "statement": "For every number of beads the normal-mode matrix is orthogonal, forward and backward transforms are inverse for closed and open paths, they diagonalise the ring-polymer spring matrix with the documented frequencies, and the FFT implementation agrees with the matrix implementation.", "quantifier": "every number of beads, every array, every set of open paths", "why_tests_cant": "Holds for all sizes by trigonometric identities; tests check a few sizes numerically.", "anchors": ["ipi/utils/nmtransform.py: mk_nm_matrix, mk_o_nm_matrix, nm_trans, nm_fft, nm_eva, o_nm_eva"]}
{"id": "C37", "title": "Bosonic exchange energies equal their definition", "statement": "For every number of bosons and beads the quadratic recurrence for the cycle energies equals the spring energy of the corresponding ring polymer, the exchange potential equals the weighted sum over all ways of cutting the particles into consecutive cycles, and the forward and backward recurrences agree; the numerical log-sum-exp shift does not change the result.", "quantifier": "every number of particles and beads, all positions, all positive temperatures", "why_tests_cant": "The number of configurations grows exponentially; tests compare a few small cases.", "anchors": ["ipi/utils/exchange.py: ExchangePotential.get_cycle_energies, get_prefix_V, get_suffix_V"]}
{"id": "C38", "title": "Bosonic connection probabilities are a probability distribution and the spring forces balance", "statement": "For every configuration, the probabilities that the last bead of a particle connects to the first bead of each other particle are non-negative and sum to one over successors and over predecessors, the forces are minus the gradient of the exchange potential, and their total over all beads and particles vanishes.", "quantifier": "every number of particles and beads, all positions, all positive temperatures", "why_tests_cant": "Needs identities between prefix and suffix partition sums for all sizes.", "anchors": ["ipi/utils/exchange.py: ExchangePotential.get_vspring_and_fspring"]}
{"id": "C39", "title": "The multiple-time-step integrator is symmetric and advances every part by the full time step", "statement": "For every nesting of multiple-time-step levels the sequence of momentum and position updates of one step is a palindrome, each level's force is applied for a total time of exactly dt, positions are propagated for exactly dt, and the two halves used by the BAOAB splitting are mirror images.", "quantifier": "every list of positive step multipliers, any depth", "why_tests_cant": "Recursion over arbitrary nesting and parity of the multipliers.", "anchors": ["ipi/engine/motion/dynamics.py: NVEIntegrator.mtsprop, mtsprop_ba, mtsprop_ab, DummyIntegrator.get_pdt, get_qdt"]}
{"id": "C40", "title": "A rejected replica exchange changes nothing, an accepted one conserves the bookkeeping", "statement": "A rejected swap restores temperatures, pressures, weights, momenta, cell references and indices exactly; an accepted swap exchanges the ensembles, keeps the replica index a permutation, and leaves each replica's conserved quantity unchanged; acceptance satisfies detailed balance.", "quantifier": "every number of replicas, all states, all random number sequences", "why_tests_cant": "State restoration must hold for all states and sequences of attempts.", "anchors": ["ipi/engine/smotion/remd.py: ReplicaExchange.step, gle_scale", "ipi/engine/ensembles.py: ensemble_swap"]}
{"id": "C41", "title": "Exchanging Hamiltonian weights takes effect", "statement": "After the Hamiltonian weights of an ensemble are changed (for instance by a replica exchange) the bias forces and energies use the new weights, and the scaled forces act on the dynamics whenever some weight differs from one.", "quantifier": "every weight vector and history", "why_tests_cant": "Requires following the caching layer through an attribute that is not a managed one.", "anchors": ["ipi/engine/ensembles.py: Ensemble.bind, ensemble_swap, has_bias", "ipi/engine/motion/dynamics.py: NVEIntegrator.pstep"]}
{"id": "C42", "title": "The free ring-polymer propagator is exact, symplectic and energy conserving", "statement": "For every frequency, mass, mass factor and time step the propagator has unit determinant and conserves the harmonic energy (exact and Cayley variants), two half steps of the exact propagator equal one full step, and it is inverted by reversing the time step.", "quantifier": "all real parameters, every mode", "why_tests_cant": "Identities over the reals.", "anchors": ["ipi/engine/normalmodes.py: NormalModes.get_prop_pq, get_prop_pq_ms, free_qstep"]}
{"id": "C43", "title": "Momentum constraints are enforced and their energy is accounted for", "statement": "After the constraint step the total momentum is exactly zero when the centre of mass is fixed and momenta of fixed atoms are zero, applying it again changes nothing, and the conserved quantity (kinetic energy plus accumulated energy) is unchanged.", "quantifier": "every number of beads and atoms, all masses and momenta, every set of fixed degrees of freedom", "why_tests_cant": "Algebraic identity over all states.", "anchors": ["ipi/engine/motion/dynamics.py: DummyIntegrator.pconstraints, NVTCCIntegrator.step"]}
{"id": "C44", "title": "Wrapping into the cell gives an equivalent position inside the cell", "statement": "For every invertible upper-triangular cell and every position, the wrapped position differs from the original by an integer combination of cell vectors, has fractional coordinates in [-1/2,1/2], and wrapping again changes nothing; the computed inverse cell is the inverse and the volume is the determinant.", "quantifier": "every cell with nonzero diagonal, every position", "why_tests_cant": "All real inputs, including the half-integer rounding boundary.", "anchors": ["ipi/engine/cell.py: Cell.apply_pbc, array_pbc, minimum_distance", "ipi/utils/mathtools.py: invert_ut3x3, det_ut3x3"]}
{"id": "C45", "title": "Reading the combined extras does not alter the per-component extras", "statement": "Reading the total extra data of a system leaves the data reported for each force component unchanged, and reading the total again gives the same result.", "quantifier": "every number of components and beads, all extra strings, every order of reads", "why_tests_cant": "Aliasing only shows when components are inspected after the total.", "anchors": ["ipi/engine/forces.py: Forces.extra_combine, Forces.extras_component"]}
{"id": "C46", "title": "Forces correspond to the positions at the time they are read", "statement": "A force read after positions were changed is the force of the new positions, even if an evaluation of the old positions was already queued.", "quantifier": "every interleaving of queue, position change and read", "why_tests_cant": "Depends on a request being in flight when the positions change.", "anchors": ["ipi/engine/forces.py: ForceBead.queue, ForceBead.get_all"]}
{"id": "C47", "title": "Thermostats account exactly for the heat they exchange and leave the target distribution invariant", "statement": "For every momentum and random number the change of kinetic energy in a thermostat step is compensated in the thermostat energy, and the stochastic update coefficients satisfy the fluctuation-dissipation relation so that the canonical distribution at the target temperature is preserved; with zero friction the step is the identity.", "quantifier": "all momenta, masses, friction, time steps, temperatures and random numbers", "why_tests_cant": "Identities over the reals for all parameters.", "anchors": ["ipi/engine/thermostats.py: ThermoLangevin.step, ThermoLangevin.get_T, get_S, ThermoSVR.step"]}
{"id": "C48", "title": "Soft exit writes a checkpoint of the last completed step", "statement": "Whenever a soft exit is requested, the final checkpoint holds the state after the last fully completed step (or, with roll-back, the last stored one) together with the matching step number.", "quantifier": "every point at which the exit request arrives, roll-back on or off", "why_tests_cant": "Interleaving of the exit request with the step loop.", "anchors": ["ipi/engine/simulation.py: Simulation.softexit, Simulation.run", "ipi/engine/outputs.py: CheckpointOutput.store, CheckpointOutput.write"]}
{"id": "C49", "title": "Any extra string returned by a driver is accepted", "statement": "Whatever text a driver returns as extra data, parsing succeeds: a JSON object becomes a dictionary with the raw text kept, anything else is kept as raw text only.", "quantifier": "every string", "why_tests_cant": "Strings are unbounded; valid JSON that is not an object is an easily missed class.", "anchors": ["ipi/interfaces/utils.py: parse_extra (or the parsing in Driver._recv_force_data)"]}
{"id": "C50", "title": "Property names with arguments and units are parsed unambiguously", "statement": "For every property name, unit and argument list made of plain characters, the composed key name{unit}(arg1;arg2) is parsed back into exactly these parts, and malformed keys are rejected.", "quantifier": "every name, unit and argument list", "why_tests_cant": "All combinations of optional parts.", "anchors": ["ipi/utils/io/inputs/io_xml.py or ipi/engine/properties.py: getkey, getall, Properties.__getitem__"]}
{"id": "C51", "title": "Taking a reshaped view of a held array does not change what is read", "statement": "Creating a reshaped or flattened view of an array quantity has no effect on the values later read from it, whatever its state when the view is taken.", "quantifier": "every dependency network, every history before and after the view", "why_tests_cant": "The view shares the validity flag with the array; the fault only shows when the array is out of date when the view is taken.", "anchors": ["ipi/utils/depend.py: depend_array.reshape, depend_array.flatten, depend_base.__init__"]}
{"id": "C52", "title": "The driver initialisation string may contain any text", "statement": "For every parameter string given in the input, the driver receives exactly that string at initialisation and the following message is read from its first byte.", "quantifier": "every unicode string, replica index and way of cutting the stream", "why_tests_cant": "The length is sent in characters and the payload in bytes, so the fault needs a non-ASCII string and shows one message later.", "anchors": ["ipi/interfaces/sockets.py: Driver.initialize", "drivers/py/driver.py: run_driver (INIT)"]}
{"id": "C53", "title": "Message headers are recognised however the network cuts them, and a dead driver is noticed", "statement": "A protocol header (status reply, FORCEREADY) is recognised whatever the pieces in which it is delivered, and if the driver dies instead of answering, i-PI notices.", "quantifier": "every split of the header, every close point", "why_tests_cant": "Short reads of a 12-byte header are rare on loopback; they depend on the transport.", "anchors": ["ipi/interfaces/sockets.py: DriverSocket.recv_msg, Driver._getstatus_select, Driver._recv_forceready"]}
{"id": "C54", "title": "A malformed reply from one driver does not take the scheduler down", "statement": "If a driver sends a reply that cannot be interpreted (wrong number of atoms, undecodable text), that driver is dropped and its request is evaluated by another one; other drivers and requests are unaffected.", "quantifier": "every state of the pool, every driver and reply", "why_tests_cant": "Needs a faulty driver at a particular point of the exchange.", "anchors": ["ipi/interfaces/sockets.py: InterfaceSocket._pool_distribute_select, _select_recv_all, pool_update", "ipi/engine/forcefields.py: ForceField._poll_loop"]}
{"id": "C55", "title": "A client that connects and vanishes does not stall the scheduler", "statement": "If a client connects and then disconnects, or answers the first status query with something unexpected, the scheduler still comes back to serve the other clients.", "quantifier": "every pool state with pending requests", "why_tests_cant": "Needs a client dying between connection and first use.", "anchors": ["ipi/interfaces/sockets.py: InterfaceSocket.pool_update, pool_distribute, dispatch_free_client"]}
{"id": "C56", "title": "Driver and i-PI agree on the number of structures per message", "statement": "For every parameter string and every batch size, after the initialisation message the driver expects exactly as many structures per message as i-PI sends.", "quantifier": "every parameter string, every batch size, every previous state of the driver", "why_tests_cant": "Only strings with particular commas, colons and spaces break a parser.", "anchors": ["ipi/interfaces/sockets.py: Driver.initialize, InterfaceSocket.queue", "drivers/py/driver.py: run_driver (INIT)"]}
{"id": "C57", "title": "The driver process ends when i-PI goes away", "statement": "Whenever i-PI sends EXIT or its connection is closed, the driver loop ends after finitely many reads.", "quantifier": "every state of the driver, every way the connection ends", "why_tests_cant": "Needs the server to die at a precise moment.", "anchors": ["drivers/py/driver.py: run_driver, recv_data"]}
{"id": "C58", "title": "Every request to a rotation-averaging force field is answered", "statement": "Every evaluation asked of a force field that averages over rotated copies ends up answered once all the rotated copies have been evaluated, whatever the timing of the polling thread.", "quantifier": "every interleaving of the queueing and polling threads, every number of pending requests", "why_tests_cant": "The failing interleaving is a window of a few instructions.", "anchors": ["ipi/engine/forcefields.py: FFRotations.queue, FFRotations.poll, FFRotations.gather"]}
{"id": "C59", "title": "Committee weights have the documented effect", "statement": "The committee potential, force and virial are the weighted means of the members with the weights given in the input.", "quantifier": "every number of members, every set of weights", "why_tests_cant": "A test with equal weights cannot see it.", "anchors": ["ipi/engine/forcefields.py: FFCommittee.__init__, FFCommittee.gather", "ipi/inputs/forcefields.py: InputFFCommittee"]}
{"id": "C60", "title": "Extras of every committee member are passed on", "statement": "The extra information returned by each member of a committee is available in the committee result.", "quantifier": "every number of members and every extras", "why_tests_cant": "Tests look at the committee statistics only.", "anchors": ["ipi/engine/forcefields.py: FFCommittee.gather"]}
{"id": "C61", "title": "Averaging over rotations leaves rotation-consistent force fields unchanged and keeps forces consistent", "statement": "If the underlying force field transforms correctly under rotations, the averaged result equals the plain one; for any underlying force field the averaged force is minus the gradient of the averaged energy when each member's is.", "quantifier": "every grid of rotations, weights and structures", "why_tests_cant": "Quantifies over all rotations and force fields.", "anchors": ["ipi/engine/forcefields.py: FFRotations.queue, FFRotations.gather"]}
{"id": "C62", "title": "Unit tables are mutually consistent", "statement": "Derived units agree with the base units they are made of: 1 pascal is 1 newton per square metre, 1 joule is 1 newton times 1 metre, per-mole units are the unit divided by the Avogadro number, so mixing units in one input describes one physical system.", "quantifier": "every pair of entries of the tables related by definition", "why_tests_cant": "Tests convert single values and compare against the same tables.", "anchors": ["ipi/utils/units.py: UnitMap"]}
{"id": "C63", "title": "Units announced in a trajectory are used when it is read", "statement": "A trajectory written with some quantity, units and cell units, and read back with automatic units, is converted with exactly these units.", "quantifier": "every quantity of the trajectory table, every unit name of its dimension and every cell unit", "why_tests_cant": "Tests read a few files in default units.", "anchors": ["ipi/utils/io/io_units.py: auto_units, process_units", "ipi/utils/io/__init__.py: print_file", "ipi/engine/outputs.py: TrajectoryOutput.write_traj"]}
{"id": "C64", "title": "A binary trajectory gives back all its frames", "statement": "Reading a binary file to which n frames were written yields these n frames.", "quantifier": "every number of frames, atoms and every contents", "why_tests_cant": "Tests read one frame.", "anchors": ["ipi/utils/io/backends/io_binary.py: print_binary, read_binary"]}
{"id": "C65", "title": "Estimators of bosonic simulations are the averages they are said to be", "statement": "The fermionic sign is the average sign of the permutations and lies between -1 and 1, the probability of separate particles is the weight of that arrangement among all and at most one, the value for fully joined particles is the number of particles times the weight of the single cycle, and the kinetic energy is the free value minus the average spring energy.", "quantifier": "every number of particles and beads, all positions, all temperatures", "why_tests_cant": "The number of arrangements grows exponentially; tests compare a few small cases.", "anchors": ["ipi/utils/exchange.py: ExchangePotential.get_distinct_probability, get_longest_probability, get_kinetic_td, get_fermionic_sign"]}
{"id": "C66", "title": "Every ensemble advances the whole system by the time step", "statement": "Whatever the ensemble, splitting and multiple-time-step setting, one step applies all forces, moves the ring polymer and applies the thermostat for a total time of exactly dt each.", "quantifier": "every ensemble, both splittings, every list of positive step multipliers", "why_tests_cant": "Tests run a few settings and compare numbers produced by the same code.", "anchors": ["ipi/engine/motion/dynamics.py: NVEIntegrator, NVTIntegrator, NVTCCIntegrator, SCIntegrator, SCNPTIntegrator, DummyIntegrator.get_pdt, get_qdt, get_tdt"]}
{"id": "C67", "title": "The reported ring-polymer energy is the one the propagation conserves", "statement": "The kinetic energy of the normal modes plus the spring energy, as reported in the conserved quantity, is the same before and after every free ring-polymer step, for closed and open paths and for every choice of dynamical masses.", "quantifier": "every number of beads and atoms, all positions, momenta, masses, mass factors and time steps, any choice of open paths", "why_tests_cant": "A violation only appears as a drift for particular combinations of open paths and mass scaling; tests do not combine them.", "anchors": ["ipi/engine/normalmodes.py: NormalModes.get_kins, get_kin, get_vspring_and_fspring, free_qstep, get_o_prop_pq"]}
{"id": "C68", "title": "The propagators follow the equations of motion of the dynamical masses", "statement": "As the time step goes to zero, every mode moves with the velocity p/(dynamical mass) and the force of the ring-polymer springs, for both propagators and any mass scaling.", "quantifier": "all frequencies, masses and mass factors, every mode", "why_tests_cant": "A statement about limits; trajectories with a wrong time scale sample the same averages.", "anchors": ["ipi/engine/normalmodes.py: NormalModes.get_prop_pq, get_o_prop_pq, get_nmm, get_dynm3"]}
{"id": "C69", "title": "Replica exchange leaves the auxiliary momenta of coloured-noise thermostats distributed at the new temperature", "statement": "After an accepted exchange the auxiliary momenta of a generalised Langevin thermostat, divided by the square root of the temperature of their replica, are what they were before, as for the physical momenta.", "quantifier": "all temperatures and momenta, every accepted exchange", "why_tests_cant": "A wrong scaling relaxes away and only shows as slightly wrong averages.", "anchors": ["ipi/engine/smotion/remd.py: gle_scale, thermo_scale, ReplicaExchange.step"]}
{"id": "C70", "title": "The minimum image distance is the shortest one within the documented cut-off", "statement": "The vector reported between two atoms joins images of them; no other image is nearer, in an orthorhombic cell always, and in a triclinic cell whenever some image is nearer than the documented cut-off (the smallest distance between opposite faces).", "quantifier": "every cell with nonzero diagonal, all positions, all images", "why_tests_cant": "Ranges over all cells and infinitely many images.", "anchors": ["ipi/engine/cell.py: Cell.minimum_distance"]}
{"id": "C71", "title": "Global thermostats count the momenta that are free to move", "statement": "The velocity rescaling thermostats sample the canonical distribution on the momenta left free by the constraints: the number of degrees of freedom they assume is the dimension of the space of momenta allowed by the fixed centre of mass and the fixed atoms.", "quantifier": "all numbers of atoms and beads, all constraints, all thermostats that rescale globally, alone or combined", "why_tests_cant": "A wrong count shifts the temperature by a fraction of order 1/N; a test cannot separate that from noise, and the count depends on how thermostats are nested.", "anchors": ["ipi/engine/thermostats.py: ThermoSVR, ThermoPILE_G.bind, ThermoNMGLEG.bind, MultiThermo.bind", "ipi/engine/motion/dynamics.py: Dynamics.get_fixdof"]}
{"id": "C72", "title": "The isotropic barostat step follows its equations of motion and preserves phase space volume", "statement": "At constant isotropic pressure the combined move of cell and centroid is the exact solution of the barostat's equations of motion for the time step: composing two steps is one step of the summed time, a step back undoes a step forward, the volume grows as exp(3 v t), and the internal modes are not touched. The pressure update is the exact joint solution for piston and centroid momenta. Both preserve the extended phase space volume, which is what makes the sampled ensemble right.", "quantifier": "all states, masses, temperatures, pressures, forces, time steps, numbers of beads and atoms", "why_tests_cant": "A test compares averages at one temperature; exactness, reversibility and volume preservation are identities over all phase space.", "anchors": ["ipi/engine/barostats.py: BaroBZP.pstep, BaroBZP.qcstep, Barostat.kstress_mts, Barostat.stress_mts"]}
{"id": "C73", "title": "The conserved quantity of isotropic constant pressure dynamics is conserved", "statement": "The energy reported as conserved at constant isotropic pressure (kinetic, spring, potential, piston, pressure-volume and cell Jacobian terms) has zero rate of change along the barostat's equations of motion, whenever forces and virial are the derivatives of one potential.", "quantifier": "all potentials that depend on positions and cell, all states, all numbers of beads and atoms", "why_tests_cant": "The drift seen in a test mixes discretisation error with wrong terms; only the identity shows that no term is missing.", "anchors": ["ipi/engine/barostats.py: BaroBZP.get_pot, BaroBZP.get_kin, get_cell_jacobian, get_ebaro, pstep, qcstep", "ipi/engine/motion/dynamics.py: NPTIntegrator"]}
{"id": "C74", "title": "The flexible-cell barostat step follows its equations of motion", "statement": "With a flexible cell the combined move of cell vectors and centroids is the exact solution of dq/dt = p/m + v q, dp/dt = -v p, dh/dt = v h for the time step, for every velocity v of the cell.", "quantifier": "all cell velocities, states, masses, time steps, numbers of beads and atoms", "why_tests_cant": "Special cell velocities (no diagonal part) take a separate branch that a random start never hits.", "anchors": ["ipi/engine/barostats.py: BaroRGB.qcstep, BaroMTK.qcstep", "ipi/utils/mathtools.py: matrix_exp, sinch, mat_taylor"]}
{"id": "C75", "title": "The conserved quantity of flexible-cell dynamics is conserved", "statement": "The energy reported as conserved with a flexible cell has zero rate of change along the barostat's equations of motion, whenever forces and virial are the derivatives of one potential, also when cell entries are held.", "quantifier": "all potentials, states, external stresses, masks of held entries, numbers of beads and atoms", "why_tests_cant": "As for the isotropic case; the missing terms involve off-diagonal entries that are small in cubic test systems.", "anchors": ["ipi/engine/barostats.py: BaroRGB.pstep, BaroMTK.pstep, get_kstress, get_pot, get_cell_jacobian, get_ebaro"]}
{"id": "C76", "title": "Held cell entries and a constrained volume do not change", "statement": "A cell entry listed in hfix keeps its value for the whole run, and with vol_constraint the volume of the cell keeps its value, whatever the forces, thermostats, time step multipliers and splitting.", "quantifier": "all numbers of steps, multiplier lists, splittings, forces and noise, all lists of held entries, all cells", "why_tests_cant": "Entries drift only under particular splittings and for skewed cells; a test with one splitting and a cubic cell shows nothing.", "anchors": ["ipi/inputs/barostats.py: hfix, vol_constraint", "ipi/engine/barostats.py: mask_from_fix, BaroRGB.pstep, BaroMTK.pstep, qcstep", "ipi/engine/motion/dynamics.py: NVTIntegrator.step, NPTIntegrator.tstep"]}
{"id": "C77", "title": "Exchanges of atoms sample the right distribution and are accounted for", "statement": "The Monte Carlo exchanges of isotopes (alchemy) and of atom positions (atom swap) leave the canonical distribution of the ring polymer invariant: choosing a pair is uniform and symmetric, the acceptance satisfies detailed balance for the energy that actually changes, the exchange preserves phase space volume and is its own inverse, kinetic energy is kept, and the conserved quantity does not change.", "quantifier": "all species lists, numbers of beads and exchanges, masses, positions, momenta, random numbers, closed and open paths", "why_tests_cant": "A wrong acceptance changes averages slightly; only the identity over all states and pairs shows balance.", "anchors": ["ipi/engine/motion/alchemy.py: AlchemyMC.step", "ipi/engine/motion/atomswap.py: AtomSwap.step"]}
{"id": "C78", "title": "Every exchange step ends", "statement": "A step of the isotope or atom exchange ends after finitely many random numbers for every list of species and every system.", "quantifier": "all species lists and systems, all sequences of random numbers", "why_tests_cant": "Non-termination shows only for particular inputs and as a hang.", "anchors": ["ipi/engine/motion/alchemy.py: AlchemyMC.step", "ipi/engine/motion/atomswap.py: AtomSwap.step"]}
{"id": "C79", "title": "Temperature and pressure ramps go from the first to the last value in the given number of steps", "statement": "The value at every step is the linear (equal differences) or logarithmic (equal ratios) interpolation, it never leaves the interval and never turns back, it is the last value from the given number of steps on, and stopping and restarting at any step gives the same schedule.", "quantifier": "all start and end values (positive on a logarithmic scale), numbers of steps, restart points", "why_tests_cant": "Ranges over all schedules and all restart points.", "anchors": ["ipi/engine/motion/ramp.py: TemperatureRamp.step, PressureRamp.step", "ipi/inputs/motion/ramp.py"]}
{"id": "C80", "title": "A replay shows every frame of the trajectory once, in order", "statement": "Step s of a replay shows block s of the trajectory (frame s of every file if there is one per bead) with its cell, in the units of the file, also if the simulation was restarted at any step in between; after the last frame the simulation ends with the last frame in place.", "quantifier": "all trajectories, numbers of beads and files, steps and restart points, all unit declarations", "why_tests_cant": "Depends on where a restart falls and on the length of the file relative to the number of beads.", "anchors": ["ipi/engine/motion/replay.py: Replay.__init__, Replay.step"]}
{"id": "C81", "title": "Adding metadynamics hills does not change the conserved quantity", "statement": "Each time the bias grows, the reported conserved quantity stays the same, and the bias energies it contains are those of the new bias; force fields that are not listed and components with zero weight receive no hills.", "quantifier": "all biases and ways of updating them, weights, numbers of beads, lists of components", "why_tests_cant": "A drift by the wrong share of the hills only shows for weights or bead numbers that tests do not use.", "anchors": ["ipi/engine/smotion/metad.py: MetaDyn.step", "ipi/engine/forcefields.py: FFPlumed.mtd_update", "ipi/engine/ensembles.py: Ensemble.get_econs"]}
{"id": "C82", "title": "Every option given in the input has its effect", "statement": "An option accepted in a block of the input is handed, with the value given, to the object the block describes; no accepted option is silently ignored.", "quantifier": "all values of all options of the blocks for motion, thermostats, barostats, ensembles, forces, force fields, multi-system moves and outputs", "why_tests_cant": "Each option would need its own test with a non-default value in every block that accepts it; an ignored option raises no error.", "anchors": ["ipi/inputs/forcefields.py: fetch of every class", "ipi/inputs/motion/*.py", "ipi/engine/forcefields.py: constructors", "ipi/inputs/thermostats.py", "ipi/inputs/barostats.py"]}
{"id": "C83", "title": "A restarted simulation has the parameters of the one it continues", "statement": "For every block of the input, the object built from a checkpoint has the same parameters and stored state as the object the checkpoint was written from, whatever happened to it during the run.", "quantifier": "all values of all options and all states at the checkpoint", "why_tests_cant": "A parameter that is not stored silently returns to its default; only a run with a non-default value of that option, stopped and continued, would show it.", "anchors": ["ipi/inputs/*.py: store and fetch of every class", "ipi/inputs/motion/*.py", "ipi/inputs/smotion/*.py"]}
{"id": "C84", "title": "The forces of the built-in potentials are minus the gradient of their energy", "statement": "For every potential that i-PI evaluates itself from a formula (harmonic, double well with friction or bath, Morse, spline, spherical and pair Lennard-Jones, Debye crystal, driven pair distances, cavity photons) the forces returned are minus the gradient of the energy returned, the potential is the one the parameters ask for, and evaluating a batch gives what evaluating each structure gives.", "quantifier": "all parameters, numbers of atoms and positions at which the energy has a gradient, all batches", "why_tests_cant": "A finite difference at a few points cannot exclude a wrong factor elsewhere, and ignored parameters go unnoticed with default values.", "anchors": ["ipi/pes/harmonic.py", "ipi/pes/doublewell.py", "ipi/pes/doublewell_with_friction.py", "ipi/pes/bath.py", "ipi/pes/morse.py", "ipi/pes/spline.py", "ipi/pes/spherical_LJ.py", "ipi/engine/forcefields.py: FFLennardJones.evaluate, FFdmd.evaluate, FFDebye.evaluate, PhotonDriver, FFCavPhSocket.queue"]}
{"id": "C85", "title": "The exact line search ends on the minimum and never raises the energy", "statement": "Steepest descent and conjugate gradients search for a minimum of the energy along a direction: the bracketing phase returns three points with the middle one lowest, the search phase returns a point no higher than the start and, for an energy with a single valley, within the tolerance of its minimum; fixed atoms do not move; the direction is downhill.", "quantifier": "all energies and slopes along the line, all starts, steps, tolerances and numbers of passes", "why_tests_cant": "Termination and the final distance from the minimum depend on the shape of the energy; a test sees one shape.", "anchors": ["ipi/utils/mintools.py: bracket, min_brent", "ipi/engine/motion/geop.py: LineMapper, SDOptimizer.step, CGOptimizer.step"]}
{"id": "C86", "title": "Every BFGS direction is downhill and every step lowers the energy", "statement": "For any number of steps on any energy the inverse Hessian stays symmetric and positive definite and maps the last change of gradient to the last change of position, the direction of the next search is downhill, the search never goes further than the limit, ends, and leaves the atoms at a lower energy.", "quantifier": "all energies and gradients, starts, limits, tolerances and numbers of steps", "why_tests_cant": "Loss of positive definiteness needs particular histories of steps; only an induction over all of them excludes it.", "anchors": ["ipi/utils/mintools.py: BFGS, min_approx", "ipi/engine/motion/geop.py: BFGSOptimizer.step"]}
{"id": "C87", "title": "L-BFGS follows the BFGS direction of the latest steps, downhill", "statement": "The direction computed from the stored steps is the one the BFGS matrix built from those steps gives, the steps stored are the latest ones in order, and the direction is downhill at every step.", "quantifier": "all energies, numbers of corrections, scalings, histories and numbers of steps", "why_tests_cant": "The two-loop recursion and the rolling storage are right or wrong for all histories at once; wrong handling of uphill directions shows only in concave regions.", "anchors": ["ipi/utils/mintools.py: L_BFGS", "ipi/engine/motion/geop.py: LBFGSOptimizer.step"]}
{"id": "C88", "title": "Trust-radius, damped and FIRE steps stay within their limits and go downhill", "statement": "The trust-radius step is the best one of its length for the quadratic model and is predicted to lower the energy; an accepted step lowers the energy; the updated Hessians stay symmetric and positive definite; no damped step moves an atom, and no FIRE step moves the system, further than the limit; the FIRE time step stays within its bounds; every step ends.", "quantifier": "all energies, Hessians, radii, limits, parameters, numbers of passes and steps", "why_tests_cant": "Ranges over all Hessians and histories; non-termination shows only at special points.", "anchors": ["ipi/utils/mintools.py: BFGSTRM, TRM_UPDATE, min_trm, Damped_BFGS, FIRE", "ipi/engine/motion/geop.py: BFGSTRMOptimizer, Damped_BFGSOptimizer"]}
{"id": "C89", "title": "The search for a transition state climbs along one mode and descends along all others", "statement": "The step towards a first-order saddle point goes uphill along the lowest mode and downhill along every other one, for any signs of the eigenvalues; the minimising variant goes downhill along every mode and within the limit; the Hessian update is symmetric and reproduces the observed change of gradient.", "quantifier": "all gradients, eigenvalues, masses, modes and limits", "why_tests_cant": "Each sign pattern of the eigenvalues takes its own branch, with boundaries at particular ratios.", "anchors": ["ipi/utils/mintools.py: nichols, Powell", "ipi/engine/motion/instanton.py: NicholsOptimizer"]}
{"id": "C90", "title": "A geometry optimisation ends only when it is converged, and then stays", "statement": "Whatever the optimiser, the run ends, or stops moving the atoms, only at positions where no free force component exceeds its tolerance, reached by a move and a change of energy within theirs; after that the positions never change; a converged run is ended if that is asked for.", "quantifier": "all optimisers, energies, forces, sets of fixed atoms, tolerances and numbers of steps", "why_tests_cant": "Ranges over all optimisers and run lengths; a stuck optimiser shows as a run that never ends.", "anchors": ["ipi/engine/motion/geop.py: GeopMotion.step, DummyOptimizer.exitstep"]}
{"id": "C91", "title": "A finite-difference phonon calculation gives the exact force constants and vibrations", "statement": "In mode fd the printed Hessian and dynamical matrix of the coordinates that are free to move are the second derivatives of the energy: exactly, whatever the displacement, for every potential of at most third order around the structure, and in the limit of small displacements for every potential with first derivatives of the forces. The printed modes are normalised and solve the vibrational equation. Stopping and restarting after any step changes nothing.", "quantifier": "all potentials, structures, masses, displacements, sets of fixed coordinates, restart points", "why_tests_cant": "A finite displacement hides errors of higher order; only the identity over all potentials shows that nothing else enters.", "anchors": ["ipi/engine/motion/phonons.py: DynMatrixMover.step, printall, FDPhononCalculator.step, FDPhononCalculator.transform"]}
{"id": "C92", "title": "The sum rule for crystals removes the translations and nothing else", "statement": "With asr crystal the dynamical matrix stays symmetric, costs nothing for a translation of all atoms, costs what it did for every displacement orthogonal to the translations, and does not change if it obeyed the rule before; the rows of the printed Hessian sum to zero.", "quantifier": "all matrices, masses and numbers of atoms", "why_tests_cant": "Ranges over all displacements; a test checks that three frequencies vanish but not that the others are kept.", "anchors": ["ipi/engine/motion/phonons.py: DynMatrixMover.apply_asr", "ipi/utils/phonontools.py: apply_asr"]}
{"id": "C93", "title": "Cleaning a Hessian leaves out the modes of zero frequency and keeps all others", "statement": "The eigenvalues and eigenvectors returned after cleaning are those with a frequency of at least 0.01 reciprocal centimetres, real or imaginary, in ascending order.", "quantifier": "all spectra", "why_tests_cant": "The entries are deleted by position; which ones go depends on the spectrum.", "anchors": ["ipi/utils/hesstools.py: clean_hessian"]}
{"id": "C94", "title": "A Hessian calculation gives the exact second derivatives, also when it was killed and started again", "statement": "Every row of the Hessian holds the exact second derivatives of the potential of every bead, for every potential of at most third order around the structure. A calculation killed any number of times, between any two operations on its temporary files, and started again returns the same matrix as an undisturbed one.", "quantifier": "all potentials, numbers of beads, structures, sets of fixed coordinates, all sequences of kills", "why_tests_cant": "Ranges over all crash points and their combinations.", "anchors": ["ipi/utils/hesstools.py: get_hessian"]}
{"id": "C95", "title": "The sum rule for molecules removes translations and rotations and nothing else", "statement": "With asr poly the dynamical matrix stays symmetric, costs nothing for translations and rotations of the whole molecule, costs what it did for every displacement orthogonal to these, and does not change if it obeyed the rule before; linear molecules have their own rule (asr lin).", "quantifier": "all molecules, matrices and masses", "why_tests_cant": "Ranges over all geometries; degenerate moments of inertia and atoms on a line are special cases a test on one molecule does not see.", "anchors": ["ipi/engine/motion/phonons.py: DynMatrixMover.apply_asr", "ipi/utils/phonontools.py: apply_asr", "ipi/utils/hesstools.py: clean_hessian"]}
{"id": "C96", "title": "Refined phonon calculations print what they computed", "statement": "In the modes nmfd and enmfd the printed matrix is the one computed from the displacements along the given normal modes; a given output shift is added to the diagonal; entries of the full Hessian which belong to fixed coordinates are zero.", "quantifier": "all potentials, structures, masses, displacements, shifts, sets of fixed coordinates", "why_tests_cant": "A good starting matrix is indistinguishable from its refinement in a test on a harmonic system.", "anchors": ["ipi/engine/motion/phonons.py: NMFDPhononCalculator.transform, ENMFDPhononCalculator.step, printall"]}
{"id": "C97", "title": "A Hessian calculation with friction can be killed and started again", "statement": "A calculation of the Hessian and of the derivatives of the friction tensor killed between any two operations on its temporary files and started again returns the matrices of an undisturbed one.", "quantifier": "all sequences of kills, numbers of coordinates, sets of fixed coordinates", "why_tests_cant": "Only particular crash points lose rows.", "anchors": ["ipi/utils/hesstools.py: get_hessian"]}
{"id": "C98", "title": "Every kind of motion offered by the input can be created and runs past its first step", "statement": "For each value of the mode attribute of the motion block, the input parser creates the object and the simulation completes its first step without an exception raised by the program itself; a list of motions runs when its members do.", "quantifier": "all modes and all lists of modes", "why_tests_cant": "Each mode needs its own run; the tests cover only some of them.", "anchors": ["ipi/inputs/motion/motion.py: InputMotionBase.fetch", "ipi/engine/simulation.py: Simulation.run_step", "ipi/engine/motion/motion.py: Motion"]}
{"id": "C99", "title": "The average of the printed temperature is the temperature of the ensemble", "statement": "In equilibrium at a given temperature the average of the property temperature is that temperature, for the whole system and for every selection of atoms, of one bead or of one normal mode, whatever coordinates, centroid or centre of mass are held fixed.", "quantifier": "all systems, masses, numbers of beads, mass scalings, selections, sets of fixed coordinates, equilibrium distributions of the momenta", "why_tests_cant": "The correction for held coordinates differs per selection; an error of one in many degrees of freedom is below the noise of any test run.", "anchors": ["ipi/engine/properties.py: get_temp, get_kinmd", "ipi/engine/normalmodes.py: get_kins", "ipi/engine/motion/multi.py: MultiMotion"]}
{"id": "C100", "title": "The two kinetic energy estimators have the same average", "statement": "For the Boltzmann distribution of a ring polymer in any potential, the averages of the centroid-virial and the primitive kinetic energy agree, for the whole system and for every selection of atoms; the energies of atoms and coordinates, the trace of the kinetic tensor and that of the kinetic stress add up to it.", "quantifier": "all smooth confining potentials, masses, temperatures, numbers of beads and atoms, selections", "why_tests_cant": "The estimators agree only on average over the whole distribution; a sampled test has noise much larger than the errors of interest.", "anchors": ["ipi/engine/properties.py: get_kincv, get_kintd, _kinetic_td_distinguishables, get_kij, get_ktens", "ipi/engine/properties.py: Trajectories.get_akcv", "ipi/engine/properties.py: kstress_cv"]}
{"id": "C101", "title": "The isotope fractionation estimators average to ratios of partition functions", "statement": "The averages of the thermodynamic and of the scaled-coordinates isotope estimators, printed as properties or as trajectories, are the mean over the selected atoms of the ratio of the partition functions with and without the substitution, free of the trivial mass factor as documented; with the fourth order weights they are the ratios for the Takahashi-Imada and Suzuki-Chin partition functions; the logarithmic sums printed for the tails are those sums.", "quantifier": "all potentials with integrable Boltzmann factors, masses, mass ratios, numbers of beads and atoms, selections", "why_tests_cant": "The identity holds only as an integral over all configurations; the statistical error of a test run hides missing terms.", "anchors": ["ipi/engine/properties.py: get_isotope_zetatd, get_isotope_zetasc, get_isotope_zetatd_4th, get_isotope_zetasc_4th, get_chin_correction, get_ti_correction, Trajectories.get_isotope_zetatd, Trajectories.get_isotope_zetasc", "ipi/utils/mathtools.py: logsumlog"]}
{"id": "C102", "title": "The displaced path estimator averages to the end-to-end distribution", "statement": "The average of the displaced path estimator for an opening vector is the mean over the selected atoms of the ratio of the partition function of the path opened by that vector to the one of the closed path.", "quantifier": "all potentials with integrable Boltzmann factors, opening vectors, masses, temperatures, numbers of beads and atoms, selections", "why_tests_cant": "The identity holds only as an integral over all configurations.", "anchors": ["ipi/engine/properties.py: get_linlin, opening"]}
{"id": "C103", "title": "The scaled-coordinates estimators give the energy and the heat capacity", "statement": "As the finite displacement goes to zero the two printed values converge at every configuration; the average of the first is the energy, the logarithmic derivative of the partition function with respect to temperature, and the documented combination of averages is the heat capacity, the derivative of the energy; potential plus centroid virial kinetic energy average to the same energy; the automatic reduction of the displacement ends and prints the values for the reduced displacement.", "quantifier": "all smooth confining potentials of any growth, masses, temperatures, numbers of beads and atoms, displacements", "why_tests_cant": "The relation needs two derivatives of an integral over all configurations; a sampled heat capacity has large noise.", "anchors": ["ipi/engine/properties.py: get_yama_estimators, get_kincv"]}
{"id": "C104", "title": "Suzuki-Chin forces are minus the gradient of the Suzuki-Chin potential", "statement": "For an even number of replicas and forcefields evaluated on all of them, the potential plus the printed Suzuki-Chin correction is the Suzuki-Chin potential of the sum of the weighted components, and the forces plus their corrections are minus its gradient with respect to every coordinate of every replica: exactly for harmonic components, and in the limit of small finite difference parameters for every smooth one, with either sign of the parameter (common to all components), and for every sequence of evaluations.", "quantifier": "all lists of components, weights, multiple time step weights, masses, configurations, alpha, numbers of replicas", "why_tests_cant": "The correction needs the derivative of the squared force, which the code gets from shifted copies of the system; a missing factor shows only as a slow drift.", "anchors": ["ipi/engine/forces.py: Forces.fsc_part_2, forces_4th_order, get_potssc, get_coeffsc_part_1, get_coeffsc_part_2"]}
{"id": "C105", "title": "The Suzuki-Chin factorisation works with every accepted forcefield setup", "statement": "Suzuki-Chin dynamics with components that are contracted to fewer replicas conserves energy, or the setup is refused with an explanation; components may have any finite difference parameters.", "quantifier": "all lists of components, contractions, finite difference parameters", "why_tests_cant": "Whether forces derive from a potential cannot be decided from finitely many evaluations.", "anchors": ["ipi/engine/forces.py: Forces.forces_4th_order, fsc"]}
{"id": "C106", "title": "The Suzuki-Chin energies average to the derivatives of the partition function", "statement": "The Suzuki-Chin potential plus kinetic energy averages to the energy, the logarithmic derivative of the Suzuki-Chin partition function with respect to temperature; the kinetic energy alone to the derivative with respect to the masses and the potential energy alone to the one with respect to the strength of the potential. The same holds for the centroid virial kinetic energy and the potential energy of a plain path integral.", "quantifier": "all smooth confining potentials, masses, temperatures, numbers of beads and atoms, alpha between 0 and 1", "why_tests_cant": "The identities hold only as integrals over all configurations.", "anchors": ["ipi/engine/properties.py: get_scpottd, get_sckintd, get_kincv, get_potential"]}
{"id": "C107", "title": "The Suzuki-Chin scaled-coordinates estimator averages to the energy", "statement": "As the finite displacement goes to zero the two printed values converge at every configuration, and the average of the first is the energy, the logarithmic derivative of the Suzuki-Chin partition function with respect to temperature.", "quantifier": "all smooth confining potentials, masses, temperatures, numbers of beads and atoms", "why_tests_cant": "The average is an integral over all configurations; the error is of the size of the correction itself, smaller than the noise of a short run.", "anchors": ["ipi/engine/properties.py: get_scyama_estimators"]}
{"id": "C108", "title": "A printed value depends on the current state and its own arguments only", "statement": "What is printed for a property or trajectory at some step is the value for the positions and the cell of that step and for the arguments in the request, whatever the system did before and whatever other properties were printed before.", "quantifier": "all histories of states and requests, forcefields, arguments", "why_tests_cant": "A stale copy shows only with a changing cell or with particular combinations of outputs.", "anchors": ["ipi/engine/properties.py: Properties.bind, get_linlin, get_isotope_yama, get_isotope_zetasc, get_isotope_zetasc_4th, get_yama_estimators, get_scyama_estimators, get_scop_estimators, get_fqvirial, Trajectories.get_isotope_zetasc"]}
{"id": "C109", "title": "An initialisation instruction sets exactly the part of the system that it selects", "statement": "Each tag of the initialize block changes only the quantity, atoms and beads that it names. A path with the number of beads asked for is copied exactly; for another number of beads the centroid of every atom is kept, the temperature of momenta and velocities is kept when beads are added and not raised when they are removed; new masses keep the kinetic energies. Sizes that do not fit are refused, and a completed initialisation has atoms, a cell, masses and labels.", "quantifier": "all instructions, files, numbers of beads in the file and in the system, prior states", "why_tests_cant": "Every combination of sizes, selections and prior states must work; tests run a few.", "anchors": ["ipi/engine/initializer.py: init_beads, init_vector, set_vector, Initializer.init_stage1"]}
{"id": "C110", "title": "After the initialisation every quantity is what the last instruction about it said", "statement": "The positions, momenta, velocities, masses, labels and cell of the system are those given by the last tag that speaks about them, in the units given there; an instruction about something that does not exist is refused.", "quantifier": "all queues of instructions", "why_tests_cant": "Depends on the order of the tags and on combinations of attributes.", "anchors": ["ipi/engine/initializer.py: init_vector, Initializer.init_stage1"]}
{"id": "C111", "title": "Every documented initialisation can be carried out", "statement": "A tag of the initialize block whose attributes are among the documented ones and whose file has the content needed is carried out.", "quantifier": "all tags, modes, attributes and files", "why_tests_cant": "The combinations of tags, modes and attributes are many; several branches are reached by one combination only.", "anchors": ["ipi/inputs/initializer.py: InputInitializer.fetch, InputInitMomenta.fetch, InputInitCell.fetch", "ipi/engine/initializer.py: Initializer.init_stage1, init_stage2"]}
{"id": "C112", "title": "Thermal momenta have the requested temperature", "statement": "Momenta drawn by the initialisation are uncorrelated between normal modes, atoms and directions, the mean square of each is its dynamical mass times the thermal energy, and their mean kinetic temperature is the requested one, or the one of the ensemble if none is given.", "quantifier": "all systems, masses, numbers of beads and atoms, requested temperatures", "why_tests_cant": "A statement about averages over all random numbers.", "anchors": ["ipi/engine/initializer.py: Initializer.init_stage1"]}
{"id": "C113", "title": "Output files are read back as they were written", "statement": "The scripting functions return, for every property file and extras file that a simulation writes, each requested property under its own name with all its values, its unit and its description, each frame with the step at which it was written, and each text as it was sent.", "quantifier": "all lists of requested properties, units, arguments and sizes, all rows, all steps, all texts of extras", "why_tests_cant": "The reader works by patterns on text; a wrong pattern shows only for particular requests or for steps beyond those of a short test.", "anchors": ["ipi/scripting/parsing.py: read_output", "ipi/scripting/parsing.py: read_trajectory", "ipi/engine/outputs.py: PropertyOutput.print_header", "ipi/engine/outputs.py: PropertyOutput.write", "ipi/engine/outputs.py: TrajectoryOutput.write_traj"]}
{"id": "C114", "title": "A cell keeps its lattice in every description", "statement": "A cell given by lengths and angles, by a triangular matrix or by a full matrix of lattice vectors stands for the same lattice: lengths and angles computed from the matrix and the matrix computed from them are inverse to each other, positions given with a full matrix keep their distances and their periodic images, and the cell written to a trajectory is the cell that is read back, in every unit.", "quantifier": "all lengths and angles that a cell can have, all invertible matrices, all positions, all units", "why_tests_cant": "Trigonometric conversions are tested on a few cells; the round trip must hold for every shape.", "anchors": ["ipi/utils/mathtools.py: h2abc", "ipi/utils/mathtools.py: genh2abc", "ipi/utils/mathtools.py: h2abc_deg", "ipi/utils/mathtools.py: abc2h", "ipi/utils/io/backends/io_xyz.py: read_xyz", "ipi/inputs/initializer.py: InputInitCell.fetch", "ipi/engine/cell.py: Cell"]}
{"id": "C115", "title": "The auxiliary momenta of a generalised Langevin thermostat start in equilibrium", "statement": "When the input gives no auxiliary momenta of the right shape they are drawn so that, together with momenta of the atoms at the temperature of the thermostat, the extended system starts in the stationary distribution of the thermostat, for each degree of freedom and each normal mode; momenta given in the input are kept. The square root of the covariance used for this is exact for every covariance, singular ones included.", "quantifier": "all covariance matrices, numbers of auxiliary momenta, degrees of freedom, modes, masses and temperatures, all arrays given in the input", "why_tests_cant": "A sample of random numbers cannot show a distribution, and singular or badly scaled covariances are rare in tests.", "anchors": ["ipi/utils/mathtools.py: stab_cholesky", "ipi/engine/thermostats.py: ThermoGLE.bind", "ipi/engine/thermostats.py: ThermoNMGLE.bind"]}
{"id": "C116", "title": "The drift over a step is the exponential of the drift matrix", "statement": "The matrix by which a generalised Langevin thermostat damps the extended momenta over a step, and the matrices of the anisotropic barostats, are the exponential of the given matrix times the time step, to within rounding, for every matrix and time step.", "quantifier": "all matrices of every size and all time steps", "why_tests_cant": "The accuracy of a truncated series depends on the size of the matrix; tests use a few small ones.", "anchors": ["ipi/utils/mathtools.py: matrix_exp", "ipi/engine/thermostats.py: ThermoGLE.get_T", "ipi/engine/barostats.py: BaroMTK.qcstep"]}
{"id": "C117", "title": "Atoms are driven by the field that was asked for", "statement": "In dynamics driven by an electric field the field at each time is the plane wave under the Gaussian envelope given in the input, the force on each atom is its charge tensor times the field, and over a run the momenta receive the time integral of this force, for every time step, number of substeps and number of beads; a driven step can be undone by reversing the velocities and the field; charges that are accepted are neutral to within the documented threshold.", "quantifier": "all fields, charges, times, numbers of steps, time steps, lists of substeps, undriven steps and constraints", "why_tests_cant": "A test looks at one pulse and one set of substeps; the error of a wrong impulse is a smaller response, not a failure.", "anchors": ["ipi/engine/motion/driven_dynamics.py: EDAIntegrator.td_pstep", "ipi/engine/motion/driven_dynamics.py: EDANVEIntegrator.step", "ipi/engine/motion/driven_dynamics.py: ElectricField.Efield", "ipi/engine/motion/driven_dynamics.py: BEC._get_driver_BEC"]}
{"id": "C118", "title": "What is printed about a driven system agrees with the forces applied", "statement": "In dynamics driven by an electric field the printed dipole is the one the driver reported for every bead, in either of the two documented forms; its printed time derivative is the rate of change of the dipole; and the printed interaction energy is the potential energy of the force of the field, so that in a static field the total energy including it is conserved.", "quantifier": "all charges, positions, velocities, masses, fields, dipoles and reports of a driver", "why_tests_cant": "The sign of an energy term cannot be seen from a single value, and texts are reported only by some drivers.", "anchors": ["ipi/engine/motion/driven_dynamics.py: ElectricDipole._get_dipole", "ipi/engine/motion/driven_dynamics.py: EDAIntegrator.dipole_dtime", "ipi/engine/properties.py: get_interaction_energy"]}
{"id": "C119", "title": "The printed stress and pressure are derivatives of the energy", "statement": "The pressure printed for the physical system is minus the derivative with respect to the volume of the energy per bead when the centroids are scaled with the cell, also with the Suzuki-Chin factorisation; the entries of the stress are the derivatives with respect to the strains; the pressure printed for the extended classical system is that of this system; for one bead the quantum and the classical values agree; pressures are a third of the trace of the stresses.", "quantifier": "all potentials of cell and positions, cells, positions, momenta, masses, numbers of atoms and beads", "why_tests_cant": "A finite difference test checks a few configurations to a few digits and rarely looks at entries off the diagonal.", "anchors": ["ipi/engine/properties.py: stress_cv", "ipi/engine/properties.py: pressure_cv", "ipi/engine/properties.py: kstress_cv", "ipi/engine/properties.py: kstress_sctd", "ipi/engine/properties.py: stress_md", "ipi/engine/properties.py: pressure_md", "ipi/engine/normalmodes.py: NormalModes.get_kstress"]}
{"id": "C120", "title": "The internal modes of a path move with the frequencies asked for", "statement": "With manual frequencies each internal mode of a free path moves, under the exact propagator, with the frequency given for it; with pa-cmd all internal modes move with the one frequency given; with wmax-cmd the first internal mode of a free particle moves with wtarget, no internal mode is slower, and in a harmonic well of frequency wmax all internal modes move with one common frequency; with rpmd they keep the frequencies of the path. The centroid always keeps the physical mass, the frequencies handed to the thermostats are those of the motion, and a wrong number of frequencies is refused. The same holds for open paths.", "quantifier": "all numbers of beads, temperatures, frequencies, masses, modes, times, positions and momenta", "why_tests_cant": "A test can follow a few modes for a few steps; that the scaling reaches the frequency for each mode, number of beads and time is an identity between functions.", "anchors": ["ipi/engine/normalmodes.py: NormalModes.get_nmm", "ipi/engine/normalmodes.py: NormalModes.get_o_nmm", "ipi/engine/normalmodes.py: NormalModes.get_dynm3", "ipi/engine/normalmodes.py: NormalModes.get_dynwk", "ipi/engine/normalmodes.py: NormalModes.get_prop_pq", "ipi/inputs/normalmodes.py: InputNMFrequencies"]}
{"id": "C121", "title": "Sorted replica exchange outputs belong to the ensembles", "statement": "Sorting the outputs of a replica exchange run puts, for every output, every ensemble and every step at which something was written, exactly the lines of the system that was in the ensemble at this step into the file of the ensemble, in the order of the steps and with the headers first; the script finds all files of the simulation and ends.", "quantifier": "all numbers of systems, run lengths, histories of exchanges, sets of outputs with strides and kinds (properties, xyz, pdb, extras), contents of the files", "why_tests_cant": "The result depends on the alignment of three kinds of files over a whole history of exchanges; a test sorts one short run.", "anchors": ["tools/py/remdsort.py: main", "ipi/engine/smotion/remd.py: ReplicaExchange.step", "ipi/engine/outputs.py: TrajectoryOutput.open_stream", "ipi/engine/outputs.py: BaseOutput.active", "ipi/engine/outputs.py: OutputMaker.get_output"]}
{"id": "C122", "title": "Trimmed outputs end at the checkpoint", "statement": "Trimming the outputs of an interrupted run to a checkpoint keeps exactly the lines of the steps up to the checkpoint, in every property, xyz, pdb and extras file, and the exchanges that these lines have seen; with what the continued run appends, the files and the list of exchanges are those of an uninterrupted run; missing lines are not passed over silently; all files of the simulation are found.", "quantifier": "all run lengths, checkpoints, strides, kinds and contents of files, numbers of systems, histories of exchanges", "why_tests_cant": "The property is about the whole history of a run that is interrupted at any point and continued; a test trims one run.", "anchors": ["tools/py/trimsim.py: main", "ipi/engine/outputs.py: BaseOutput.active", "ipi/engine/outputs.py: CheckpointOutput.write", "ipi/engine/smotion/remd.py: ReplicaExchange.step"]}
{"id": "C123", "title": "Autocorrelation functions and spectra of trajectories", "statement": "The autocorrelation function computed from a trajectory file is, at every lag, the mean over the complete blocks of frames after the skipped ones of the mean product of values that far apart, averaged over the chosen atoms (with the factor dt/2\u03c0), in atomic units; the spectrum is its windowed cosine transform at the printed frequencies and times, and its sum over the frequencies gives the mean square; what the function cannot do is refused.", "quantifier": "all trajectories, lengths of blocks, maximal lags, paddings, windows, time steps, numbers of skipped frames", "why_tests_cant": "The values depend on every frame of a block through two Fourier transforms; a test compares one file with stored numbers.", "anchors": ["ipi/utils/tools/acf_xyz.py: compute_acf_xyz", "tools/py/getacf.py", "ipi/utils/io/__init__.py: read_file_raw"]}
{"id": "C124", "title": "Thermostats are removed from spectra with the right kernel", "statement": "Every element of the kernel that convolutes a density of states with a Langevin or generalised Langevin thermostat is the cosine transform of the momentum autocorrelation function of an oscillator with that thermostat; the covariance matrix computed on the way is that of the stationary process; the deconvolution keeps spectra positive, leaves the true density of states unchanged, never makes the misfit larger, and reports the misfit.", "quantifier": "all matrices of the thermostat whose drift matrices can be diagonalised, all frequencies, all spectra, all numbers of steps", "why_tests_cant": "The claim is about every thermostat, every pair of frequencies and the whole iteration; a test looks at one spectrum.", "anchors": ["ipi/utils/tools/gle.py: Aqp", "ipi/utils/tools/gle.py: Cqp", "ipi/utils/tools/gle.py: gle_frequency_kernel", "ipi/utils/tools/gle.py: isra_deconvolute", "tools/py/gleacf.py: gleacf"]}
{"id": "C125", "title": "Results that come back through shared memory belong to the structures that were sent", "statement": "With clients that exchange data through shared memory, the results that are stored for a batch of structures are the results of those structures in their order, whatever the order in which clients connect, read, compute, answer and are dropped; a request that has been sent can be answered; a change of the number of atoms never gives wrong data.", "quantifier": "all histories of any number of clients, all batches, all structures and force fields, all sets of open descriptors", "why_tests_cant": "Whether two clients use the same segments depends on when they connect and on how far each of them has come; a test runs one client or connects all at once.", "anchors": ["ipi/interfaces/sockets.py: SHMDriver", "ipi/interfaces/sockets.py: DriverSocket.__init__", "ipi/interfaces/sockets.py: InterfaceSocket.pool_update", "drivers/py/driver.py: run_driver"]}
{"id": "C126", "title": "A nudged elastic band ends on a path of minimum energy and a saddle point", "statement": "In a nudged elastic band calculation the end points and fixed atoms never move; the band is at rest exactly if the force is along the path and the images are equally spaced, and the climbing image exactly at a stationary point; success means that these forces are below the tolerance; the numbering of the path does not matter; the potentials and forces that are printed are those of the images; displacements are limited by the number in the input; a calculation can be restarted in every stage.", "quantifier": "all potentials, paths, numbers of images and coordinates, all choices of the optimiser, all numbers of steps", "why_tests_cant": "The claims are about every potential and every sequence of steps of the optimiser; a test follows one path on one potential.", "anchors": ["ipi/engine/motion/neb.py: NEBGradientMapper", "ipi/engine/motion/neb.py: NEBClimbGrMapper", "ipi/engine/motion/neb.py: NEBMover", "ipi/inputs/motion/neb.py: InputNEB"]}
{"id": "C127", "title": "A simulation driven from a script is the same simulation", "statement": "A simulation that a script runs in pieces has the states, rows of output, checkpoints, step numbers and RESTART file of one that runs the same steps in one go, whatever the sizes of the pieces and whatever the script changes in between; a call makes exactly the steps it is asked for; after a call, and at an exit between calls, RESTART holds the current state, and a script going on from it continues the simulation.", "quantifier": "all simulations, sets of outputs, strides, scripts (sequences of runs of any length, with or without outputs, and of changes of the state)", "why_tests_cant": "The claim is about every sequence of calls; tests run a few fixed sequences.", "anchors": ["ipi/scripting/interactive.py: InteractiveSimulation.run", "ipi/engine/simulation.py: Simulation.run", "ipi/engine/simulation.py: Simulation.softexit", "ipi/engine/outputs.py: CheckpointOutput.write"]}
{"id": "C128", "title": "Structures and momenta exchanged with a script are taken over completely", "statement": "Structures a script gets from a simulation come in the documented nesting; giving them to a simulation of the same shape sets positions, momenta and cells of every bead of every system to the same values, and structures that were given are those one gets; structures that do not fit are refused; new thermal momenta do not change the conserved quantity, respect the constraints and have the kinetic energy of the temperature.", "quantifier": "all numbers of systems, beads and atoms, positions, momenta, cells and random numbers", "why_tests_cant": "Shapes with one element are treated specially at two levels, and the bookkeeping must hold for every random number; tests use one shape.", "anchors": ["ipi/scripting/interactive.py: InteractiveSimulation.get_structures", "ipi/scripting/interactive.py: InteractiveSimulation.set_structures", "ipi/scripting/interactive.py: InteractiveSimulation.thermalize_momenta"]}
{"id": "C129", "title": "A script gets the force field, thermostat, masses and units it asks for", "statement": "The helpers for scripts create an input with the force field (built-in potential, unix or internet socket), thermostat, masses and cells that were asked for, and refuse incomplete requests; every property of a simulation can be read from a script, in the unit that was asked for or in those of ASE, which fit together.", "quantifier": "all names, addresses, ports, potentials, thermostats, structures, properties, units and values", "why_tests_cant": "A test creates a few inputs; the claim is about every argument and every property in the table.", "anchors": ["ipi/scripting/templates.py: forcefield_xml", "ipi/scripting/templates.py: motion_nvt_xml", "ipi/scripting/templates.py: simulation_xml", "ipi/scripting/interactive.py: InteractiveSimulation.properties", "ipi/utils/units.py: UnitMap"]}
{"id": "C130", "title": "Constrained dynamics keeps bonds, angles and Eckart conditions", "statement": "In constrained dynamics the Jacobian used for bonds, angles and Eckart conditions is the derivative of the constraint along every movement of the atoms. Momenta are projected onto the nearest momenta compatible with all constraints, the momentum of movements that change no constraint is kept, and the projection after the thermostat leaves the conserved quantity unchanged. After a step of the geodesic integrator positions and momenta fulfil all the constraints within the tolerance, and a user is told when they do not. Values that are not given are taken from the initial structure.", "quantifier": "Every number of atoms and constraints, all positive masses, all positions, momenta and movements, every time step, tolerance, maximum number of iterations and number of steps of the geodesic integrator, every list of groups.", "why_tests_cant": "That a projection is exact, that groups do not disturb each other and that a derivative is right along every direction are statements about all structures; a test follows one molecule for a few steps.", "anchors": ["ipi/utils/constrtools.py: RigidBondConstraint", "ipi/utils/constrtools.py: AngleConstraint", "ipi/utils/constrtools.py: EckartConstraint", "ipi/engine/motion/constrained_dynamics.py: ConstraintSolver", "ipi/engine/motion/constrained_dynamics.py: NVTConstrainedIntegrator"]}
{"id": "C131", "title": "Systems made from a template have the strings of their instance in place of the labels", "statement": "A template for systems gives one system for every instance, in the order of the input. Its text is the template in which every label is replaced by the string given for it and nothing else is changed, also when labels begin, end or contain other labels and whatever the strings contain. A list of strings that does not fit the labels is refused.", "quantifier": "every template, every list of labels and every list of instances with arbitrary strings", "why_tests_cant": "Labels are replaced one after the other, so whether one replacement disturbs another depends on the names and strings together; tests use a handful of labels in capital letters.", "anchors": ["ipi/inputs/system.py: InputSysTemplate.fetch"]}
{"id": "C132", "title": "Energy, gradient and Hessian of an instanton belong together", "statement": "In the search for an instanton the gradient is the derivative of the energy that is minimised, and the Hessian the derivative of the gradient, for the springs, the physical potential and the friction, and for every choice of the discretisation of imaginary time. The springs are those between neighbouring beads of half the path. The Hessian in band form, used to solve the equations, contains all the entries of the complete Hessian, for every number of beads.", "quantifier": "All numbers of beads and atoms, all masses, positions and movements, all discretisation coefficients, all physical Hessians, all friction coefficients.", "why_tests_cant": "That a gradient is a derivative, and that a band contains every entry, are statements about all paths and all numbers of beads; the tests compare a few numbers for one path.", "anchors": ["ipi/engine/motion/instanton.py: SpringMapper", "ipi/engine/motion/instanton.py: PesMapper", "ipi/engine/motion/instanton.py: FrictionMapper", "ipi/utils/instools.py: banded_hessian", "ipi/utils/instools.py: sym_band", "ipi/utils/instools.py: red2comp"]}
{"id": "C133", "title": "Fixed atoms stay where they are in the search for an instanton", "statement": "In the search for an instanton a step moves every degree of freedom by the displacement found for it, except those a user has fixed, which stay where they are; the Hessian of the step contains exactly the entries of the others. This holds for every optimiser, for fixed atoms and for single fixed degrees of freedom, with and without friction and for every way to update the Hessian. The first path is symmetric about the transition state and has the given amplitude. Translations and rotations are those of the present structure.", "quantifier": "All numbers of atoms and beads, all lists of fixed atoms and degrees of freedom, all positions, displacements and Hessians, all sequences of steps.", "why_tests_cant": "Masks, their inverses and counters in nested loops must agree for every set of fixed atoms and every number of beads; the tests contain no instanton with fixed atoms.", "anchors": ["ipi/utils/instools.py: Fix", "ipi/utils/instools.py: ms_pathway", "ipi/engine/motion/instanton.py: DummyOptimizer", "ipi/engine/motion/instanton.py: HessianOptimizer", "ipi/engine/motion/instanton.py: LBFGSOptimizer"]}
{"id": "C134", "title": "The string method keeps the ends of a path and its beads at equal distances", "statement": "A calculation with the string method can be started. In every step the ends of the path stay where they are, the beads between them are put at equal distances along the path, beads that are at equal distances already are not moved by this, and the force that moves the path is the physical force at its positions without the component along the path, so that the calculation ends where the force is along the path.", "quantifier": "All paths with at least three beads, all numbers of degrees of freedom, all forces, all interpolations that go through the beads.", "why_tests_cant": "The property is about all paths; the repository has no test of the string method that is run.", "anchors": ["ipi/engine/motion/stringmep.py: StringMover", "ipi/engine/motion/stringmep.py: StringGradientMapper", "ipi/engine/motion/stringmep.py: StringClimbGrMapper", "ipi/engine/motion/stringmep.py: spline_resample", "ipi/engine/motion/stringmep.py: spline_derv"]}
{"id": "C135", "title": "Matrices stored in compressed form are read back as they were", "statement": "A matrix converted to compressed rows or compressed columns, saved, loaded and converted back has the same shape and the same entries, whatever its shape and wherever its zeros are; sums, differences and products of compressed matrices are those of the matrices. Any non-empty content written in a netstring frame is read back exactly with the file left at the end of the frame, files of several frames are read frame by frame, and a frame cut off by a crash is rejected.", "quantifier": "all matrices of all shapes over any numbers, all contents, all numbers of frames, all points at which the file is cut", "why_tests_cant": "Tests use a few matrices; empty rows and columns, contents with delimiters or digits and cut files have to work for all of them.", "anchors": ["ipi/utils/sparse.py: csr_matrix", "ipi/utils/sparse.py: csc_matrix", "ipi/utils/sparse.py: load_npz", "ipi/utils/io/__init__.py: netstring_encoded_loadz"]}
{"id": "C136", "title": "The planetary model writes the frequency matrix", "statement": "For a harmonic system sampled exactly the matrix is the matrix of mass-scaled second derivatives; screening removes exactly the blocks of pairs of atoms that are too far apart; the lower triangle is written every stride steps and determines the matrix; with a reduced number of beads the calculation starts from the contraction of the path.", "quantifier": "all harmonic potentials, masses, temperatures, numbers of beads and samples, all structures and cells, all steps", "why_tests_cant": "The matrix is a statistical average; whether the estimator is right cannot be seen from single runs, and the reshaping must be right for every number of atoms.", "anchors": ["ipi/engine/motion/planetary.py: Planetary.increment", "ipi/engine/motion/planetary.py: Planetary.matrix_screen", "ipi/engine/motion/planetary.py: Planetary.step", "ipi/utils/io/__init__.py: netstring_encoded_savez"]}
{"id": "C137", "title": "A driven system feels the driving force of its own time", "statement": "With driven molecular dynamics each pair of atoms is driven with the coupling given for it in the documented order, the clock of the driving force advances by one with each step, the force of the n-th state is the driving force of the time n, and a run continued from a checkpoint is the uninterrupted run.", "quantifier": "all numbers of atoms, all systems and lists of bias components, all force fields, all numbers of steps and points of interruption", "why_tests_cant": "The driving force changes slowly; a shift by one step, a clock that runs too fast with several replicas or exchanged couplings give plausible trajectories.", "anchors": ["ipi/engine/smotion/dmd.py: DMD.step", "ipi/engine/forcefields.py: FFdmd.evaluate", "ipi/inputs/forcefields.py: InputFFdmd"]}
{"id": "C138", "title": "A list of motions does the steps of its members, each as on its own", "statement": "In a multi motion the members make their steps in the order given, up to the first that is finished, which decides how the run ends; the time of a step is the sum of the times; what all members keep fixed counts as fixed; and each member makes the step it makes on its own.", "quantifier": "all lists of motions, all states", "why_tests_cant": "The members share the objects of the system; combinations of motions are too many to test.", "anchors": ["ipi/engine/motion/multi.py: MultiMotion", "ipi/engine/motion/dynamics.py: DummyIntegrator.bind", "ipi/engine/normalmodes.py: NormalModes.bind"]}
{"id": "C139", "title": "Averages over rotations use rotations and do not depend on the orientation", "statement": "The matrices of both kinds of grids and of random rotations are rotations, their numbers are the documented ones, and from the second order on the average of an energy that is quadratic in the elements of the rotation is the average over all rotations, whatever the random rotation, the inversions and the orientation of the system; mirror images are evaluated only if asked for.", "quantifier": "all orders, all tables of points and roots that integrate what they should, all random numbers, all energies up to second order, all orientations", "why_tests_cant": "A test sees single orientations; a transposed matrix, a wrong order of angles or a wrong spacing still gives energies close to the right one.", "anchors": ["ipi/utils/mathtools.py: quat2rot", "ipi/utils/mathtools.py: euler_zxz_to_matrix", "ipi/utils/mathtools.py: get_rotation_quadrature_legendre", "ipi/utils/mathtools.py: get_rotation_quadrature_lebedev", "ipi/utils/mathtools.py: random_rotation", "ipi/engine/forcefields.py: FFRotations"]}
{"id": "C140", "title": "Forces taken over from another object are the forces of the current positions", "statement": "When the positions of a system are set to those at which another force object was evaluated and the forces are taken over from it, nothing is computed again, and every energy, force and virial read then or later, after any changes of positions and cell, is the one of the positions and the cell at that time.", "quantifier": "all numbers of force components, contractions and replicas, all force fields, all later histories of changes and reads", "why_tests_cant": "A stale value that is marked as valid shows only for particular orders of changes and reads, and looks like a plausible force.", "anchors": ["ipi/engine/forces.py: Forces.dump_state", "ipi/engine/forces.py: Forces.load_state", "ipi/engine/forces.py: Forces.transfer_forces", "ipi/engine/forces.py: Forces.transfer_forces_manual", "ipi/utils/depend.py: depend_base.taint"]}
{"id": "C141", "title": "Kinetic Monte Carlo keeps every atom, selects events with their rates and obeys detailed balance", "statement": "The record of which atom is at which site stays consistent over every history of events, so that no atom is lost, created or changed in kind. An event is selected with a probability equal to its share of the total rate and the time spent is exponentially distributed with the total rate. Each event has a reverse event, and the rates of both are in the ratio of the Boltzmann weights. After an event every atom has the relaxed position of an atom of its kind at its site.", "quantifier": "all lattices, compositions, energies, temperatures, barriers, random numbers and histories of events", "why_tests_cant": "Loss of detailed balance or a mismatch of atoms and sites does not stop a simulation and shows only in averages over long trajectories.", "anchors": ["ipi/engine/motion/al6xxx_kmc.py: AlKMC.__init__", "ipi/engine/motion/al6xxx_kmc.py: AlKMC.bind", "ipi/engine/motion/al6xxx_kmc.py: AlKMC.unique_idx", "ipi/engine/motion/al6xxx_kmc.py: AlKMC.step"]}
{"id": "C142", "title": "Kinetic Monte Carlo uses the energies of the right structures whatever the order of its threads", "statement": "In a step of kinetic Monte Carlo, in which the structures that are not in the cache are relaxed by several threads while others are taken from the cache, each event gets the energy and the relaxed positions of the structure it leads to, the step ends without an error, and the cache keeps only right results and stays within its limit.", "quantifier": "all numbers of events, evaluators and cached structures, all limits of the cache, all schedules of the threads", "why_tests_cant": "The failures need a thread to run between two statements of another one.", "anchors": ["ipi/engine/motion/al6xxx_kmc.py: AlKMC.geop_thread", "ipi/engine/motion/al6xxx_kmc.py: AlKMC.find_eval", "ipi/engine/motion/al6xxx_kmc.py: AlKMC.step"]}
{"id": "C143", "title": "Constant-pressure Suzuki-Chin steps follow their equations of motion and can be reversed", "statement": "With the Suzuki-Chin factorisation at constant pressure the momentum step of piston and beads is the exact joint solution with the rescaled forces for every step length, the high order kick changes only momenta and adds up over time, and a step of the opposite sign undoes a whole step.", "quantifier": "all numbers of beads and atoms, all forces, virials and high order forces as functions of positions and cell, all step lengths, all states", "why_tests_cant": "Unit tests integrate one system at one step length; an error of second order in the step or a wrong order of kicks looks like noise. Exactness and reversibility must hold for every force field and state.", "anchors": ["ipi/engine/barostats.py: BaroSCBZP", "ipi/engine/barostats.py: Barostat.stress_mts_sc", "ipi/engine/barostats.py: Barostat.get_stress_sc", "ipi/engine/motion/dynamics.py: SCNPTIntegrator"]}
{"id": "C144", "title": "The conserved quantity of constant-pressure Suzuki-Chin runs is conserved", "statement": "At constant pressure with the Suzuki-Chin factorisation, the energy reported as conserved has zero rate of change along the equations of motion whenever forces and virials are the derivatives of one potential: the pressure on the piston is minus the derivative of the Suzuki-Chin energy with respect to the volume.", "quantifier": "all smooth potentials, all numbers of beads, atoms and levels, all states with a moving piston, all finite displacements", "why_tests_cant": "A drift proportional to the piston velocity averages out in a short run and is hidden by time step errors; only the exact derivative shows that the virial of the high order term is not the derivative of its energy.", "anchors": ["ipi/engine/forces.py: Forces.forcesvirs_4th_order", "ipi/engine/forces.py: Forces.get_virssc_part_2", "ipi/engine/barostats.py: BaroSCBZP.pscstep", "ipi/engine/barostats.py: Barostat.get_stress_sc"]}
{"id": "C145", "title": "Self-consistent phonon iterations sample fresh symmetric pairs and evaluate each once", "statement": "Each iteration of a self-consistent phonon calculation makes as many samples as asked for, in pairs placed symmetrically about the mean position; no random vector is used twice, in one iteration or in two; and every sample gets its own potential and forces however many are evaluated at a time.", "quantifier": "all even and odd numbers of samples, all numbers of iterations, all numbers evaluated in parallel that divide them", "why_tests_cant": "An off-by-one in the index into the random sequence only makes samples of different iterations equal, or fails at the last iteration; tests run one small case.", "anchors": ["ipi/engine/motion/scphonons.py: SCPhononator.reset", "ipi/engine/motion/scphonons.py: SCPhononator.step", "ipi/engine/motion/scphonons.py: SCPhononsMover.step", "ipi/engine/motion/scphonons.py: SCPhononator.print_energetics"]}
{"id": "C146", "title": "Self-consistent phonon averages use the right correlations and weights", "statement": "The samples have the correlations of quantum or classical harmonic oscillators; the weight of a sample is the ratio of the density wanted to the density it was drawn from, and one for its own distribution; and in a harmonic potential the average force and force constants are exact, however few samples are taken.", "quantifier": "all numbers of atoms and samples, all masses, temperatures, dynamical matrices with an orthogonal diagonalisation, all harmonic potentials", "why_tests_cant": "Averages over random samples can only be tested within their error; a wrong factor in a weight or a correlation hides in it.", "anchors": ["ipi/engine/motion/scphonons.py: SCPhononator.get_KnD", "ipi/engine/motion/scphonons.py: SCPhononator.weighted_force", "ipi/engine/motion/scphonons.py: SCPhononator.weighted_hessian", "ipi/engine/motion/scphonons.py: SCPhononator.calculate_weights"]}
{"id": "C147", "title": "Self-consistent phonon steps move the mean position to where the force vanishes and then stop", "statement": "A step of a self-consistent phonon calculation moves the mean position along the significant forces; in a harmonic potential the Newton step removes the force and keeps the force constants; the optimisation ends when nothing is left to do; imaginary frequencies are replaced by zero.", "quantifier": "all numbers of atoms and samples, all displacement modes, all harmonic potentials, all forces", "why_tests_cant": "The branches taken depend on noise in the forces; a test of one mode does not show that another never moves or never ends.", "anchors": ["ipi/engine/motion/scphonons.py: SCPhononator.displace", "ipi/engine/motion/scphonons.py: SCPhononator.apply_hpf"]}
{"id": "C148", "title": "A self-consistent phonon calculation continues from its restart file", "statement": "A calculation continued from a restart file uses the samples it reads with the weights and options the interrupted calculation would have used.", "quantifier": "all interruption points, all samples and forces, all option settings", "why_tests_cant": "A wrong weight gives forces that look reasonable; only a comparison with the uninterrupted run, for every state, shows the bias.", "anchors": ["ipi/engine/motion/scphonons.py: SCPhononator.reset", "ipi/engine/motion/scphonons.py: SCPhononator.weighted_force", "ipi/inputs/motion/scphonons.py: InputSCPhonons.store"]}
{"id": "C149", "title": "Energies along a normal mode are recorded once each and belong to their displacement", "statement": "The independent mode calculation records, for every mode, energies and forces at distinct displacements however often the sampling is refined; each is the potential per primitive cell at that displacement without its harmonic part, and the force is its derivative; and the sampling of a mode ends.", "quantifier": "all potential surfaces, spacings, energy limits, numbers of primitive cells, numbers of refinements", "why_tests_cant": "A displacement that occurs twice after some refinement makes the interpolation fail; a wrong factor of the force shows only with several primitive cells, which tests do not use.", "anchors": ["ipi/engine/motion/vscf.py: IMF.step"]}
{"id": "C150", "title": "Independent mode free energies are right for harmonic modes and sum over the modes treated", "statement": "The anharmonic correction of a harmonic mode is exactly zero in any basis; free and internal energies belong together; the sums that are printed range over exactly the modes treated; the basis is enlarged until the free energy is converged; and a calculation that is repeated or continued gives the same result.", "quantifier": "all numbers of basis functions and grid points, all frequencies, temperatures, diagonalisations, all sets of squared frequencies", "why_tests_cant": "Rounding hides a small wrong term in a free energy; which modes are skipped depends on the spectrum, which a test fixes.", "anchors": ["ipi/engine/motion/vscf.py: IMF.solve_schroedingers_equation", "ipi/engine/motion/vscf.py: IMF.step", "ipi/engine/motion/vscf.py: IMF.bind", "ipi/engine/motion/vscf.py: IMF.terminate"]}
{"id": "C151", "title": "Maps of modes and pairs of modes hold the potential of those modes", "statement": "The vibrational self-consistent field calculation tabulates the potential along every mode and pair of modes at the displacements it lists; the table of a pair uses the maps of its own two modes; the couplings vanish for independent modes and are loaded the right way round; and a calculation that was interrupted can be repeated.", "quantifier": "all potentials, all numbers of modes and grid points, all spectra, all interruption points", "why_tests_cant": "A table taken for the wrong mode, or transposed, is still a smooth table; an interruption between two files is a matter of timing.", "anchors": ["ipi/engine/motion/vscf.py: VSCF.bind", "ipi/engine/motion/vscf.py: VSCF.step", "ipi/engine/motion/vscf.py: VSCF.one_dimensional_mapper", "ipi/engine/motion/vscf.py: VSCF.solver"]}
{"id": "C152", "title": "The vibrational self-consistent field uses thermal densities and reaches the mean field", "statement": "The density of a mode used for the mean field is the Boltzmann average of its states; the iteration, with or without mixing, ends at the mean field made of the potential of the mode and its couplings; and it ends only when the free energy no longer changes.", "quantifier": "all numbers of states and grid points, all weights, mixing fractions, thresholds", "why_tests_cant": "Wrong weights and a wrong fixed point still converge and give plausible numbers.", "anchors": ["ipi/engine/motion/vscf.py: VSCF.solver"]}
{"id": "C153", "title": "Committee reweighting gives the averages of every model of the committee and their spread", "statement": "The weights of a model of the committee are those of its own potential relative to the mean, they add up to one and do not depend on a common shift of energies; the cumulant expansion is the first order of the direct reweighting and leaves the mean of the committee unchanged; and the uncertainty due to the potentials is the spread of the averages that the different potentials give.", "quantifier": "all numbers of frames and models, all potentials and observables, all temperatures, all strides", "why_tests_cant": "A swapped argument or a weight of the wrong model gives finite averages of a plausible size; equality to first order is a statement about a limit.", "anchors": ["tools/py/committee-reweight.py: direct_reweight", "tools/py/committee-reweight.py: CEA", "tools/py/committee-reweight.py: uncertainty_CEA_multiple_models", "tools/py/committee-reweight.py: commitee_reweight"]}
{"id": "C154", "title": "Merging the trajectories of the beads keeps whole frames in order", "statement": "The tool that merges the files of the beads writes the frames asked for, each with all its beads in the order of the files, and nothing else; positions can be wrapped into the cell or followed across its borders; and kinetic tensors can be averaged over a time window.", "quantifier": "all numbers of beads, trajectory lengths, frames, first and last frames and strides", "why_tests_cant": "Files of unequal length arise when a simulation is still writing or was killed; a test uses finished files.", "anchors": ["tools/py/mux-positions.py: main", "tools/py/kinetic2tag.py: main"]}
{"id": "C155", "title": "Kinetic tensors and centres of mass computed from files agree with the simulation", "statement": "The kinetic tensor computed from files of positions and forces is the centroid virial estimator that the simulation prints, entry by entry; it adds up to the kinetic energy and does not depend on the position of the centroids. Removing the centre of mass puts the centre of mass of the centroids at the origin, keeps all relative positions and need be done only once.", "quantifier": "all numbers of beads and atoms, all positions, forces, positive masses, temperatures", "why_tests_cant": "A wrong pair of axes or factor for the entries off the diagonal is invisible for isotropic systems.", "anchors": ["tools/py/posforce2kinetic.py: main", "tools/py/fixcom.py: main", "ipi/engine/properties.py: Trajectories.get_akcv_od", "ipi/engine/properties.py: Properties.get_kij"]}
{"id": "C156", "title": "An instanton calculation starts along the imaginary mode, steps towards the right kind of stationary point and ends there", "statement": "The initial geometry is stretched along the normal mode with the lowest curvature, and only if that is imaginary; the potential is evaluated at beads that represent the others within the limits given; Newton steps lead to the stationary point of a quadratic surface, Lanczos steps climb along one mode and descend along the others when a saddle is wanted, steps never exceed the largest step; and the calculation ends when energy, force and displacement are below their tolerances.", "quantifier": "all numbers of atoms and beads, Hessians, masses, forces, diagonalisations, limits, tolerances", "why_tests_cant": "Which branch of the step is taken depends on the spectrum along the optimisation; a step in the wrong direction only makes a calculation slow or ends in another stationary point.", "anchors": ["ipi/utils/instools.py: get_imvector", "ipi/engine/motion/instanton.py: PesMapper.interpolation", "ipi/engine/motion/instanton.py: NROptimizer.step", "ipi/engine/motion/instanton.py: LanczosOptimizer.step", "ipi/engine/motion/instanton.py: DummyOptimizer.exitstep"]}
{"id": "C157", "title": "The quantities printed for an instanton rate are those of the closed ring polymer", "statement": "From a converged half path the post-processing rebuilds the closed ring with each bead's own Hessian; the printed action is the average potential above the reference plus the spring energy of the closed ring; the frequencies used for the reactant are those of the ring polymer, its vibrational partition function is exactly that of the given number of beads and tends to the quantum harmonic one; and the factors of the number of beads make reactant, transition state and instanton agree where they must.", "quantifier": "all numbers of beads and atoms, positions, potentials, masses, temperatures, eigenvalues", "why_tests_cant": "A missing factor of the number of beads or of two in a partition function gives a plausible rate; that the terms agree is an identity between products of sines and hyperbolic functions for every number of beads.", "anchors": ["ipi/utils/tools/instanton_postproc.py: get_double", "ipi/utils/tools/instanton_postproc.py: spring_pot", "ipi/utils/tools/instanton_postproc.py: get_rp_freq", "ipi/utils/tools/instanton_postproc.py: instanton_compute", "ipi/engine/motion/instanton.py: SpringMapper.spring_hessian"]}
{"id": "C158", "title": "The quantities printed for a tunnelling splitting are those of a linear polymer with fixed ends", "statement": "The post-processing of a splitting compares the fluctuations around the path with those of a linear polymer with fixed ends at the minimum, whose frequencies it takes from the file written for the minimum; the mode along the path is left out, and the file of frequencies has one row for each mode.", "quantifier": "all numbers of beads, eigenvalues of the minimum and of the path, temperatures", "why_tests_cant": "The ratio of two determinants is a number without a scale to compare with; a power of a frequency too many in each mode is not seen in any run.", "anchors": ["ipi/utils/tools/instanton_postproc.py: get_rp_freq", "ipi/utils/tools/instanton_postproc.py: save_frequencies", "ipi/utils/tools/instanton_postproc.py: instanton_compute", "ipi/engine/motion/instanton.py: SpringMapper.spring_hessian"]}
{"id": "C159", "title": "An instanton interpolated to more beads goes through the beads it had", "statement": "Interpolating a half ring polymer and its Hessian to a multiple of its number of beads gives a path that contains the old beads, each with its Hessian; with the same number of beads nothing changes, the mean over the ring is kept for any number, the new Hessians are symmetric, and the new half is the half of the new ring.", "quantifier": "all numbers of beads before and after, positions, Hessians", "why_tests_cant": "The tool goes through normal modes of a doubled path with unequal treatment of the stiffest mode; a deviation at the old beads is a few percent of a displacement and is optimised away afterwards.", "anchors": ["ipi/utils/tools/instanton_interpolation.py: interpolate_instanton", "ipi/utils/nmtransform.py: nm_rescale", "ipi/utils/nmtransform.py: mk_rs_matrix"]}
{"id": "C160", "title": "Quantities that are printed in several ways agree, and depend only on the configuration and their arguments", "statement": "The columns of the trajectories kinetic_cv, kinetic_od and r_gyration add up to the properties of the same name; the Takahashi-Imada weight is the Boltzmann factor of the Takahashi-Imada potential, which is the sum over atoms; the primitive fourth order kinetic energy is the derivative of the energy with respect to the masses; the velocities of the centres of mass of the species combine to that of the system; and the virial with a reference depends on the configuration and the reference given.", "quantifier": "all numbers of atoms and replicas, configurations, forces, masses, selections, histories of outputs", "why_tests_cant": "The estimators are written out separately in loops with their own factors of two; a difference between two of them only shows when both are averaged, and a remembered reference only when two outputs are asked for.", "anchors": ["ipi/engine/properties.py: Properties.get_sckinop", "ipi/engine/properties.py: Properties.get_sckinpr", "ipi/engine/properties.py: Properties.get_ti_term", "ipi/engine/properties.py: Properties.get_vcom", "ipi/engine/properties.py: Properties.get_fqvirial", "ipi/engine/properties.py: Properties.get_ktens", "ipi/engine/properties.py: Trajectories.get_akcv_od", "ipi/engine/properties.py: Trajectories.get_rg"]}
{"id": "C161", "title": "Corrections from perturbed path integrals are derivatives of one free energy", "statement": "Row by row, the corrections of total, potential and kinetic energy and the heat capacity printed by the scripts are the derivatives, by temperature, strength of the potential and masses, of the first order change of the free energy under the Takahashi-Imada action, taken over exactly the frames after those left out up to that of the row; the kinetic energies are the estimators the simulation prints.", "quantifier": "all numbers of beads, atoms and frames, trajectories, potentials, masses, temperatures and numbers of frames left out", "why_tests_cant": "The formulas are long products of running averages; a wrong factor changes the result by a few percent of a correction nobody knows in advance.", "anchors": ["tools/py/energies_ppi.py: energies", "tools/py/heat_capacity_ppi.py: heatCapacity"]}
{"id": "C162", "title": "Scripts that read a property file use the columns of the properties they look for", "statement": "The potential and the time are read from the columns, and in the units, with which the simulation wrote them.", "quantifier": "all lists of properties, descriptions, units and rows", "why_tests_cant": "The file in the documentation has three properties of one column; the wrong column is a number like any other.", "anchors": ["tools/py/energies_ppi.py: extractUnits", "tools/py/energies_ppi.py: read_U", "ipi/engine/outputs.py: PropertyOutput.print_header"]}
{"id": "C163", "title": "Taking one property out of a property file prints that property", "statement": "For a property in the file, the values the simulation wrote for it are printed, for each row from the one asked for on.", "quantifier": "all lists of properties of all sizes, descriptions, rows, names and numbers of rows left out", "why_tests_cant": "Tests have one file with properties of one column and names that are not the beginning of others.", "anchors": ["tools/py/getproperty.py: main", "ipi/engine/outputs.py: PropertyOutput.print_header"]}
{"id": "C164", "title": "Contracting a set of bead trajectories keeps centroid, cell and quantity", "statement": "The tool writes, for every frame of the shortest input trajectory, a path with the requested number of beads whose centroid is that of the input, in the same quantity and units and with the same cell; beads with different cells or numbers of atoms are refused.", "quantifier": "all sets of trajectories of all lengths, numbers of beads read and written, comments, numbers, units and requests for cell units", "why_tests_cant": "Tests compare one contraction in atomic units and do not read the output again.", "anchors": ["tools/py/contract-trajectory.py: contract_trajectory", "ipi/utils/nmtransform.py: nm_rescale.b1tob2", "ipi/utils/io/__init__.py: print_file", "ipi/utils/io/io_units.py: auto_units"]}
{"id": "C165", "title": "Molecules in a cavity feel one cavity, however many drivers are attached", "statement": "With several drivers of which one evaluates the photons, the simulation gets the sum of the energies of the drivers and the energy of one cavity, with forces on atoms and photons that belong to it; atoms that are not active feel no force, and a driver that does not send the dipole it was asked for is reported.", "quantifier": "all numbers of atoms and drivers, positions, potentials, charges or dipole surfaces with their derivatives, couplings, frequencies and both representations of the photons", "why_tests_cant": "Tests run one driver with charges and compare one trajectory.", "anchors": ["ipi/engine/forcefields.py: FFCavPhSocket.queue, PhotonDriver"]}
{"id": "C166", "title": "Converting a trajectory to another format keeps quantity, units and values", "statement": "Every frame of a trajectory is written in the new format, as the quantity and with the values that it has in the old one.", "quantifier": "all trajectories, quantities, units, cell units and formats", "why_tests_cant": "Tests convert a file of positions in one unit.", "anchors": ["tools/py/a2b.py: main, get_key_dim_units, get_cell_units"]}
{"id": "C167", "title": "The atoms that are asked for, and no others, are treated as identical particles", "statement": "Bosons are exactly the atoms given by number or label, a restart has the same ones, their spring energy and forces are those of the exchange while every other atom keeps the springs of its own ring polymer, they are never propagated as distinguishable particles, and the kinetic energy of a selection is refused when it would split them.", "quantifier": "all lists of atoms and labels, systems, numbers of beads, propagators, configurations and selections", "why_tests_cant": "Tests run one or two bosonic systems in which all atoms are bosons.", "anchors": ["ipi/engine/normalmodes.py: NormalModes.resolve_bosons, get_vspring_and_fspring, free_qstep", "ipi/inputs/normalmodes.py: InputBosons", "ipi/engine/properties.py: get_kintd, _atom_property_distinguishability_well_defined, _kinetic_td_distinguishables"]}
{"id": "C168", "title": "The Cartesian propagation of the free ring polymer", "statement": "With the bab propagator the centroid drifts exactly once per step, the step is reversible in time, the internal modes conserve their energy up to the known factor and stay bounded, centroid momenta on which the springs do not act are kept, and the masses are those of the dynamics.", "quantifier": "all spring forces, masses, time steps, numbers of small steps, beads and states", "why_tests_cant": "Tests compare one short trajectory.", "anchors": ["ipi/engine/normalmodes.py: NormalModes.free_babstep", "ipi/engine/motion/dynamics.py: NVEIntegrator.qcstep"]}
{"id": "C169", "title": "Every structure of a batch gets the mean of what the models say about it", "statement": "When several models are evaluated on structures in batches, the result has one entry for each structure, in their order, and each property is the mean over the models of what they give for this structure, whatever the batch size; results of the wrong size are refused.", "quantifier": "all lists of structures with any numbers of atoms, divisions into batches, numbers of models and properties", "why_tests_cant": "Tests evaluate one batch with one model.", "anchors": ["ipi/pes/tools.py: StructureResults, ModelResults.store, ModelResults.mean", "ipi/pes/_mace.py: BatchedMACE.compute_batched"]}
{"id": "C170", "title": "The reported contributions of the force components are averages that add up to the total", "statement": "The outputs for a single force component give, without a bead, the average over the replicas of this component, with its weight or (raw) without, even if the component is evaluated on fewer replicas than the system has; for a bead the value of this replica. The contributions add up to the potential, and a component or replica that does not exist is refused.", "quantifier": "all systems, numbers of replicas of system and components, weights, open paths, component and bead numbers", "why_tests_cant": "Tests output components that are evaluated on all replicas.", "anchors": ["ipi/engine/forces.py: Forces.pots_component, Forces.forces_component, Forces.virs_component, Forces.pot_combine", "ipi/engine/properties.py: pot_component, pot_component_raw, vir_component, vir_component_raw, Properties.get_pot", "ipi/engine/properties.py: Trajectories, forces_component, forces_component_raw"]}
{"id": "C171", "title": "The options of a driver reach its parameters", "statement": "Every value given in the option text of the python driver reaches the parameter it is meant for: values without a name in their order, named ones by their name whatever the order and the white space, the last one if a name is repeated; parameters that are missing or given twice are refused, and so are names the driver does not know.", "quantifier": "all lists of options, texts, white space, and parameters of drivers with and without defaults", "why_tests_cant": "Tests start drivers with one or two options.", "anchors": ["ipi/utils/io/inputs/__init__.py: read_args_kwargs, read_value", "drivers/py/driver.py: main", "ipi/pes/harmonic.py: Harmonic_driver.__init__"]}
{"id": "C172", "title": "Editing an input file changes exactly the tags that were asked for", "statement": "Adding, removing or replacing a tag of an input file by a path of names edits every tag at which the path is found, and no other; the number of edits is reported, and after a removal the path is not found any more. An unknown kind of edit is refused.", "quantifier": "all input files, paths (complete, or with other tags in between), nodes and kinds of edit", "why_tests_cant": "Tests edit one tag of one file.", "anchors": ["ipi/utils/io/inputs/io_xml.py: xml_edit"]}
{"id": "C173", "title": "A calculator of the atomic simulation environment can be used as a driver and stays consistent", "statement": "A driver that wraps an ASE calculator gives the calculator's energy, forces and virial in internal units, whichever form of the stress it returns; if forces and stress of the calculator are derivatives of its energy, so are the forces and the virial of the driver. Calculators without stress can be used, and structures that do not fit the template are refused.", "quantifier": "all calculators, templates, structures, cells, forms of the stress and declared capabilities", "why_tests_cant": "Tests use one calculator that returns everything.", "anchors": ["ipi/pes/_ase.py: ASEDriver.convert_units, ASEDriver.compute_structure, ASEDriver.post_process", "ipi/utils/units.py: UnitMap"]}
{"id": "C174", "title": "Effective temperatures come from the perturbed free energy of the frames asked for", "statement": "The script for effective temperatures prints, for every atom and direction, the temperature plus twice the kinetic energy (over Boltzmann's constant) that the first order correction of the path-integral free energy gives to that degree of freedom, averaged over the frames that are in all force files and are not skipped; the last number is the mean of the three directions. It is never below the temperature, and the order of the files and incomplete frames at the end do not matter.", "quantifier": "all numbers of atoms, beads and frames, all forces, masses, temperatures and numbers of skipped frames", "why_tests_cant": "A test compares one set of files with stored numbers; the normalisation with the number of beads and frames must hold for all of them.", "anchors": ["tools/py/effective_temperatures.py: effectiveTemperatures"]}
{"id": "C175", "title": "The neighbour lists of the Fortran driver lose no pair", "statement": "With the pair potentials of the Fortran driver, energy, forces and virial are those of the sum over all pairs of atoms within the cut-off, whatever structures the driver has computed before with the same neighbour lists.", "quantifier": "all cells, numbers of atoms, positions, cut-offs and histories of structures sent to the driver", "why_tests_cant": "A test runs short trajectories in which few lists are remade; the lists must be complete for every history.", "anchors": ["drivers/f90/distance.f90: nearest_neighbours", "drivers/f90/distance.f90: vector_separation", "drivers/f90/driver.f90: DRIVER"]}
{"id": "C176", "title": "Forces and virial of the Fortran pair potentials are derivatives of their energy", "statement": "For the Lennard-Jones and Silvera-Goldman potentials of the Fortran driver, wherever no pair of atoms is exactly at the cut-off and the cell is wider than two cut-offs, the forces are minus the gradient of the energy and add up to zero, and the upper triangle of the virial (the part that is returned) is minus the derivative of the energy with respect to strain of cell and atoms, including the corrections for the part beyond the cut-off, which is scaled with the volume.", "quantifier": "all numbers of atoms, positions, cells, cut-offs and parameters of the potential", "why_tests_cant": "A test compares a few finite differences; signs, factors and the virial of the correction must be right for all structures.", "anchors": ["drivers/f90/LJ.f90: LJ_getall", "drivers/f90/LJ.f90: LJ_longrange", "drivers/f90/SG.f90: SG_getall", "drivers/f90/SG.f90: SG_longrange", "drivers/f90/driver.f90: DRIVER"]}
{"id": "C177", "title": "Mixtures of Lennard-Jones atoms mix the parameters of both atoms of a pair", "statement": "In the binary mixture of the Fortran driver the parameters of a pair of atoms are the geometric means of those of its two atoms, and forces are minus the gradient of the energy.", "quantifier": "all pairs of atoms, numbers of atoms of the second type and positions", "why_tests_cant": "A test with one composition compares with stored numbers; the rule must hold for every pair.", "anchors": ["drivers/f90/LJ.f90: LJMix_getall"]}
{"id": "C178", "title": "The model potentials of the Fortran driver return the forces of their energies", "statement": "For every model potential of the Fortran driver that is given by a formula (harm, harm3d, linear, morse, morsedia, eckart, MB, doublewell, doublewell_1D, noo3-h2o, qtip4pf-efield, lepsm1), every number of atoms, every structure and every choice of parameters, the forces returned are minus the gradient of the energy returned, the virial returned (if any) is minus the derivative of the energy with respect to strain, and the friction returned by the double wells is that of each pair of coordinates.", "quantifier": "all numbers of atoms, positions, parameters, directions and strains", "why_tests_cant": "tests run a driver for a few steps on one system; a wrong sign or a missing term shows only in conservation of energy for other systems", "anchors": ["drivers/f90/driver.f90: compute_potential", "drivers/f90/pes/morse.f: getmorse, getmorsedia", "drivers/f90/pes/eckart.f90: geteckart", "drivers/f90/pes/MB.f90: get_MB", "drivers/f90/pes/doublewell.f90: getdoublewell, dw_friction", "drivers/f90/pes/doublewell_1D.f90: getdoublewell_1D, dw1d_friction", "drivers/f90/pes/efield.f90: efield_v", "drivers/f90/pes/LEPS.f90: LEPS_M1"]}
{"id": "C179", "title": "The polymers of the Fortran driver have the springs, forces and virial of their energy", "statement": "With the potential ljpolymer, for every number of atoms, every length of the chains, every history of structures and every structure, consecutive atoms are joined by a spring exactly if they belong to the same chain; the energy returned is that of the springs plus the Lennard-Jones energy of all pairs; the forces returned are minus its gradient; and the virial returned is that of these forces.", "quantifier": "all numbers of atoms, lengths of chains, parameters, cells, histories of structures and directions", "why_tests_cant": "tests run one polymer in one cell; uninitialised variables often happen to be zero", "anchors": ["drivers/f90/LJPolymer.f90: LJPolymer_getall, Har_functions, Har_fij", "drivers/f90/driver.f90: compute_potential"]}
{"id": "C180", "title": "The committee of the Fortran driver returns the members and their mean", "statement": "With the potentials qtip4pf-c-json and qtip4pf-c-json-delta, for every structure and every cell, the extra string holds the energies, forces and virials that the drivers of the single members return for this structure, and the energy, forces and virial in the message are the means of them; and the virial of a member that i-PI reads from the extra string is the one it would have received from the driver of that member.", "quantifier": "all structures, cells, neighbour lists and water potentials", "why_tests_cant": "the reference output of the test was produced by the same code, which fixes the transposed virial", "anchors": ["drivers/f90/driver.f90: compute_potential", "drivers/f90/LJ.f90: LJ_getall", "ipi/engine/forcefields.py: FFCommittee.gather", "ipi/engine/forces.py: ForceBead.get_vir"]}
{"id": "C181", "title": "The command line of the Fortran driver reaches its parameters", "statement": "For every command line made of the documented options, in any order and number, the Fortran driver uses the values that were given, up to four parameters of the potential are read each into its place, and the order does not matter when nothing is given twice; an argument without an option and an unknown potential are refused. The driver starts exactly if the number of parameters is one that the help text asks for, and then every parameter with which the potential is evaluated has been given or has a default. The potential that is evaluated is the one that was asked for, and a structure is refused exactly if it does not have the number of atoms that this potential needs.", "quantifier": "all command lines, potentials, numbers of parameters and values", "why_tests_cant": "tests start a handful of command lines; uninitialised memory and writes outside of an array often go unnoticed", "anchors": ["drivers/f90/driver.f90: driver, helpmessage"]}
{"id": "C182", "title": "A name selects the python potential that declares it", "statement": "The python potentials shipped in ipi/pes are found without being run. A name given to ffdirect or to the python driver selects the module that declares it (the last one when several do), the names offered are in alphabetical order and each appears once, a name that no module declares is refused with a ValueError, and the class returned is the one that the module names. With the name custom the file given by the user is used and the table plays no part. A module is documented to declare its name and its class as strings at the top level of the file, a file with only one of them is documented to give neither, and a missing class is documented to be an AttributeError.", "quantifier": "all lists of modules with arbitrary syntax trees (assignments at any depth, several targets, values that are not strings), files that cannot be opened or parsed, all names, all contents of the modules once run", "why_tests_cant": "Tests load the potentials that ship with the code; which module wins when names collide, where assignments may stand and how broken files behave ranges over every possible source tree.", "anchors": ["ipi/pes/__init__.py: scan_pes_file", "ipi/pes/__init__.py: load_pes", "ipi/pes/__init__.py: __drivers__"]}
{"id": "C183", "title": "The dipole driver honours the options it is given", "statement": "The driver for machine learned dipoles takes an optional JSON file. Every setting the file gives is kept and every other one has its standard value, at any depth; without a file, or with one that cannot be read, all settings are standard. An evaluation returns zero energy, forces and virial, sends the dipole and the Born charges exactly when the settings say so, and appends to each file exactly what is to be saved there; a cell that mixes infinite and non-zero entries is refused. The dipole and the Born charges can be saved independently, the setting restart removes the old files, and too few arguments end with a message.", "quantifier": "all JSON dictionaries of any depth, all numbers of arguments, all contents of the disk, all cells, positions and outputs of the network, all steps", "why_tests_cant": "Tests do not run this driver, which needs a network; how defaults merge with user dictionaries ranges over all nested dictionaries.", "anchors": ["ipi/pes/driverdipole.py: recursive_copy", "ipi/pes/driverdipole.py: add_default", "ipi/pes/driverdipole.py: driverdipole_driver.check_parameters", "ipi/pes/driverdipole.py: driverdipole_driver.compute_structure"]}
{"id": "C184", "title": "Compiling the Fortran module does not change the perturbed path integral scripts", "statement": "The scripts that compute energies and heat capacities with perturbed path integrals use compiled sums when the Fortran module is found and their own loops otherwise. Every row of their output is the same with both: the sum of squared forces over masses, the thermodynamic kinetic energy (for which the subroutine is given the temperature instead of its inverse) and the centroid virial kinetic energy (for which the positions and the forces are passed in the opposite order) all agree for every path.", "quantifier": "all numbers of beads and atoms, all positions, forces, masses, temperatures, values of the constants, all lists of frames and numbers of frames left out", "why_tests_cant": "A test compares two runs on one trajectory; that swapped arguments do no harm rests on an identity over all paths.", "anchors": ["tools/f90/fortran.f90: F2divM", "tools/f90/fortran.f90: findCentroidVirialKineticEnergy", "tools/f90/fortran.f90: findCoupling", "tools/py/energies_ppi.py: energies", "tools/py/heat_capacity_ppi.py: heatCapacity"]}
{"id": "C185", "title": "The radial distribution function with perturbed path integrals", "statement": "The script that computes radial distribution functions counts each pair of atoms of each bead whose distance is in the range in exactly one bin, the one between whose edges the distance lies. The plain function, multiplied by the volume of the shells, adds up to the mean over beads and frames of the fraction of pairs in the range. The corrected function differs from it by the covariance of the number of pairs with the squared forces and by the mean flow between neighbouring bins. All frames after those left out enter the result.", "quantifier": "all lists of frames, numbers of atoms, beads and bins, ranges, positions, forces, masses, closest image rules and numbers of frames left out", "why_tests_cant": "A test looks at one trajectory, often with a round number of frames; that no pair is lost at an edge and that the weights cancel has to hold for all.", "anchors": ["tools/py/rdf_ppi.py: RDF", "tools/f90/fortran.f90: UpdateQRDF", "tools/f90/fortran.f90: F2divM"]}
{"id": "C186", "title": "How much is printed, in a run and after restarts", "statement": "When a level of output has been set, the messages of this and all lower levels are printed and no others; a value that is not a level is an error that changes nothing, and a locked level stays. Every level can be given in the input file or at the command line, which wins, and comes back from the restart file, so that the level of a run after any number of restarts is the last one that was given. At `high` and above timings are printed at each step, at `medium` at each hundredth and at `low` at each thousandth; each step is in exactly one average and the averages add up to the time spent.", "quantifier": "all levels and other strings, all sequences of assignments, all input files and command lines, all sequences of restarts, all first steps and lists of step times", "why_tests_cant": "Tests run with one level; that nothing is lost over any sequence of restarts and that the averages account for all steps has to hold for all histories.", "anchors": ["ipi/utils/messages.py: Verbosity", "ipi/inputs/simulation.py: InputSimulation.store", "ipi/inputs/simulation.py: InputSimulation.fetch", "ipi/engine/simulation.py: Simulation.load_from_xml", "ipi/engine/simulation.py: Simulation.run", "bin/i-pi"]}
{"id": "C187", "title": "The python double wells with explicit baths", "statement": "The potentials of a double well with a bath and of two coupled double wells with a bath each give, for every structure with a suitable number of coordinates and all parameters, an energy that is the documented one and the forces that belong to it; the modes of the bath have positive frequencies, their couplings add up to the same for any number of modes, and the wells have the depth that was asked for.", "quantifier": "all positions, numbers of bath modes, masses, frequencies, barriers, shifts, couplings and friction parameters", "why_tests_cant": "No test evaluates these potentials; that forces and energy belong together has to hold at all points.", "anchors": ["ipi/pes/doublewell_with_bath.py: DoubleWell_with_explicit_bath_driver", "ipi/pes/doubledoublewell.py: DDW_with_explicit_bath_driver", "ipi/pes/bath.py: Harmonic_Bath_explicit"]}
{"id": "C188", "title": "Python potentials evaluated in batches", "statement": "A python potential that is given lists of cells and positions of the same length gives for each structure what it gives for it alone, and an error if the lengths differ. This holds for every potential that uses the loop of the base class, and for the ideal gas, which has its own.", "quantifier": "all lists of structures, with any numbers of atoms, and for the base class all functions for one structure", "why_tests_cant": "Tests batch equal copies of one structure; structures of different sizes and empty batches are not tried.", "anchors": ["ipi/pes/dummy.py: Dummy_driver.compute", "ipi/pes/gas.py: Gas_driver.compute"]}
