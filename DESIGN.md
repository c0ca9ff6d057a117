# Formal model of i-PI in Lean 4: design

The code in `/repo` (i-pi/i-pi, python) is read as text.  `/verif/lean/Verif/*.lean` holds, for each part
of the code, small total functions that follow the python branch by branch (`Model` part), a short
specification written independently of those functions (`Spec` part), helper lemmas (`Lemmas`) and the
property theorems (files `Verif/Props/Cxx_*.lean`).  Exceptions are values (`Except`/`Option`), loops are
structural recursion or folds, threads are interleavings of atomic steps, python objects shared by reference are
explicit heap cells where aliasing matters.

## Trusted base

* Lean 4.33.0's kernel and the axioms `propext`, `Classical.choice`, `Quot.sound` (each property theorem is checked
  with `#print axioms`; none of ours is added; no `sorry`, `native_decide`, `bv_decide`).
* The reading of the python source: every definition cites file and lines and says where it simplifies.
* numpy / python runtime primitives are modelled by their documented meaning: arrays as functions or lists, `dict`
  as association list, `str.split/strip/find` re-implemented on `List Char`, `json.loads` as a parameter, sockets as
  byte streams cut in arbitrary pieces, the file system as a finite map from names to contents.
* Floating point numbers are modelled as an arbitrary field or as `ℝ` where the property is an algebraic identity
  (so rounding errors are outside the model), as opaque 8-byte words where only transport matters, and as
  fixed-point decimal text where the printed digits matter.
* Not modelled: performance, numerical stability, operating system signals other than as "an exit request may arrive
  here", memory model of CPython beyond atomicity of single list/dict operations, electronic-structure drivers,
  the numerical content of force evaluations (a parameter everywhere).

## Plan per property

For each property: what is modelled, how it is proved.  "neg" means the code violates the property at some point: the
negation is proved with a concrete witness and the remaining part is proved with suffix `_partial`.

* **C01** `Depend`: objects `{value, tainted}` indexed by naturals, declared dependencies, functions reading other
  objects through the public getter.  Operations set/get.  Invariant: a clean object has clean inputs and the value
  recomputed from scratch; induction over histories.  Refinement to the spec "evaluate the DAG".
* **C02** same model with declared and read sets as separate data.  The declarations of the real classes are
  transcribed as tables; positive result for the tables that satisfy declared=read, neg for `virsc`, `qdt_on_m`,
  `inmts`, `nm_factor`, `fpath`, `extras`, `fvir_4th_order` with explicit histories.
* **C03** `Synchro` model of peers and `manual`; spec: last written peer and its value; refinement.
* **C04** evaluation counter in the C01 model; theorem: get on a clean object changes nothing and evaluates nothing.
* **C05** neg (value assigned before the raise) + partial (when the object is tainted at the time of the write).
* **C06** `Wire`: `recvall` over a list of transport events; theorem for all splits.  Driver `recv_data`: neg (time-outs
  advance the cursor) + partial.
* **C07** `Protocol`: byte-level encoder of the driver reply and the two decoders; round trip on a stream with suffix.
* **C08** neg with a two-byte character; partial for ASCII (C07).
* **C09, C11** `Pool`: state = queue of requests with status, clients, jobs; steps = scheduler pass pieces and
  environment events.  Invariant by induction over all interleavings.
* **C10** neg on a threaded-mode model; partial: disconnections before the job is dropped are requeued.
* **C12** `dispatch_free_client` as a pure decision function; characterised by theorems.
* **C13** driver state machine; invariant over all message lists.
* **C14** `MpiPack`; encode/decode round trip.
* **C15** `_assign` as a function to `Except`; partition theorem + completeness of the error cases.
* **C16** `MpiPool`; invariant by induction.
* **C17** gather/scatter on lists; neg for unchecked interior indices; partial for valid selections.
* **C18** interleaving model of evaluation thread and caller; neg for FFEval schedule and for the cavity force field;
  partial for FFDirect and sockets.
* **C19** neg (incomplete last batch) + partial (multiples of the batch size or threaded flush).
* **C20** locked list operations; invariant over interleavings.
* **C21** algebra over a field.
* **C22** interleaving model of `Softexit`.
* **C23, C24, C48** `Run`: step loop with outputs, checkpoint store/write, interruption at every point, restart;
  theorems on the concatenated log.  neg for "exactly once".
* **C25** file system as finite map; neg for names with a directory part.
* **C26** text writers/readers on `List Char`; round trips by induction; neg for trailing empty strings.
* **C27** SAX-like events, stack machine; induction over trees.
* **C28** schema/value model of `Input.write`/`parse`.
* **C29** trees and ordered dictionaries; induction over trees.
* **C30** tables transcribed; decision over the whole finite table in the kernel, lifted; numbers over a field.
* **C31** line-level model; neg for truncated frames; round trip for complete frames.
* **C32** fixed-width fields; neg (columns shifted by one) + partial.
* **C33** generator as a state machine; chunk partition; neg for the threaded fill (a copy is filled).
* **C34** algebra on lists of components over a commutative ring.
* **C35, C36** real matrices with `Fin n` indices, trigonometric sums (Mathlib); neg for the `for ... else` in
  `b2tob1`.
* **C37, C38** real analysis: recurrences over lists of particles, sums over compositions.
* **C39** words of elementary operations produced by the recursion; palindrome and counts by induction on depth.
* **C40, C41** state of ensembles as records over a field; C41 neg (unmanaged attribute; inverted condition).
* **C42, C43, C44, C47** identities over `ℝ`; C47 also with measures (Mathlib): the distribution after a step is the
  target distribution.
* **C45** heap model of the aliased list; neg + partial.
* **C46** neg for queue / change / read; partial when nothing is in flight.
* **C49** neg for JSON values that are not objects; partial.
* **C50** `getall` on characters; round trip; neg for "}" without "{".
* **C51** the C01 model with views that share storage; neg (reshape of an out-of-date array clears its flag).
* **C52, C53** the C06/C07 byte model for the initialisation string and the headers; neg for non-ASCII text and for
  headers cut by the network.
* **C54, C55** the C09 and C10 pool models with malformed replies and vanishing clients; neg + partial.
* **C56, C57** the C13 driver model against the bytes i-PI sends; neg for user strings with `batch_size` and for a
  closed connection (the loop never ends, by induction over the fuel).
* **C58, C61** rotation-averaging force field: interleaving model for the queue, linear algebra for the average.
* **C59, C60** the C21 committee model with weights and extras; neg.
* **C62** the tables of C30 compared with relations between the units; neg for pascal, bar, atmosphere.
* **C63** the header text written by `print_file` parsed by `process_units`, on characters.
* **C64** the binary format as a list of blocks; neg for more than one frame.
* **C65** the C37 recurrences with derivatives with respect to the inverse temperature.
* **C66** the words of elementary updates of C39, for each ensemble and splitting; total time advanced by each kind.
* **C67, C68** the C42 propagators with mass factors.
* **C69** the C40 exchange with auxiliary momenta of Gaussian distribution.
* **C70** minimum image over lattices; C44's rounding.
* **C71** thermostat counts against the dimension of the space of allowed momenta; C47's velocity rescaling.
* **C72-C76** barostats: real analysis (derivatives along the exact flow), matrix exponentials, preserved measure, and
  the C39 words for the whole step.
* **C77-C78** the two exchange motions as functions of the random numbers; counting pairs, detailed balance as an identity
  between weights, phase space volume of the momentum update with Mathlib's measures.
* **C79** the schedule as a function of the step; induction on the number of steps.
* **C80** files as lists of frames, the reading loop with its own counter; induction on the number of rounds.
* **C81** PLUMED as an arbitrary state with an arbitrary update; sums over components.
* **C82, C83** input blocks as tables (option, attribute it goes to, attribute it is stored from) with opaque values; lemmas on assignments for any table, evaluation for the transcribed ones.
* **C84** energies and forces as functions of all coordinates; a force is defined by the derivative of the energy along every path; pair sums through the accumulation loop of the code.
* **C85** the line as an ordered field with arbitrary energy and slope functions; the loops by induction on the passes left,
  with the invariant that the best point lies between the two others and no higher.
* **C86** vectors and matrices of Mathlib; the quadratic form of the update with the Cauchy-Schwarz inequality; induction on the steps.
* **C87** the two loops as one recursion, equal to the BFGS matrix of C86; the storage against "the last m of the history".
* **C88** the step in the basis of the eigenvectors; convexity of the shifted model; induction on the passes and steps.
* **C89** case split on the eigenvalues; the sign of each component of the step.
* **C90** the motion with an arbitrary optimiser; induction on the steps.
* **C91** force fields that are linear up to even terms, and differentiable ones; induction on the steps.
* **C92, C95** projection on the complement of orthogonal rows; the rows of translations and rotations and their products.
* **C93** the order of the spectrum; filtering by predicates closed downwards.
* **C94, C97** operations on the disk; an invariant of the files kept by every prefix of the operations, over all histories.
* **C96** the matrix at each stage; witnesses.
* **C98** keyword calls and attributes of the created objects; all modes, induction on lists of motions.
* **C99** momenta as random variables with the second moments of equilibrium; the count of held coordinates for every branch;
  linearity of the integral.
* **C100** integration by parts over all configurations (Mathlib's theorem for integrable functions), integrability for confining potentials.
* **C101** linear change of variables of the configuration integral (Mathlib's determinant formula) for the scaled coordinates; weights
  as changes of the Boltzmann factor; the counterexample is Gaussian, with one integration by parts.
* **C102** translation invariance of the configuration integral and the sum of the opened springs.
* **C103** linear change of variables to paths scaled about their centroids, two differentiations under the integral with polynomial bounds,
  l'Hopital's rule for the second difference; induction over the halvings.
* **C104, C105** the shifted copies as a list of evaluations with the state of the auxiliary object; second derivatives by Mathlib's symmetry of the
  second derivative; the absence of a potential from unequal mixed derivatives.
* **C106** differentiation under the integral after the change of variables to scaled paths, for factors in front of both parts.
* **C107** the limit of the difference quotients and the comparison with C106; positivity of the integral.
* **C108** the copies as a state changed by each request; invariants over all histories, compared with freshly created properties; witnesses.
* **C109, C110, C111** the queue of instructions as a fold over a state with sizes, arrays and flags, exceptions as values; each branch compared with
  a specification of what is selected; the change of the number of beads by the orthogonality of the normal modes; induction on the queue; witnesses.
* **C112** the drawn momenta as random variables; linearity of the integral in the normal modes.
* **C113** the header and rows as text, the header pattern as a parser of its parts; induction over the requests with the columns before them, then over the
  rows; a theorem on the digits after `Step:`; induction over the frames of extras; witnesses by evaluation.
* **C114** the conversions as functions on real numbers with the failure of a square root as a value; the product of the columns is the Gram matrix of the lengths
  and angles, a triangular matrix with positive diagonal is determined by its Gram matrix; the full matrix differs from the cell by an orthogonal matrix.
* **C115** the loops of `stab_cholesky` as a recursion over the entries; invariant: what is left after eliminating a column is positive semidefinite, and a zero on its
  diagonal makes its column zero; then images of Gaussian measures under linear maps, uniqueness of the covariance, and an explicit covariance with a correlation.
* **C116** induction over the three loops; tail of the exponential series in a normed algebra; difference of powers; for damping matrices the operator norm of the
  exponential is at most one.
* **C117** induction over the steps for a combination of momenta that the undriven step keeps; the sum is that of the trapezoidal rule, whose error bound is in Mathlib; explicit
  static field for several substeps.
* **C118** derivatives of linear functions along a motion; direct computation of a step in a static field; case analysis of the reports of a driver.
* **C119** the potentials as differentiable functions of cell and positions, the forces and virials as their derivatives; chain rule along the scaling of cell and centroids and along each strain; the springs are homogeneous of degree two.
* **C120** the mass factors as a function of style, frequencies and path; the matrix of the exact propagator is computed and compared with the motion of an oscillator of the frequency asked for.
* **C121** the readers on lists of lines and the loop with its exceptions; an invariant for the files after the steps below L: what is left is the rest of the run, what is written is the sorted part; the lines of the list of exchanges at or after L are left.
* **C122** the readers of C121 and the loop over the steps up to the checkpoint; an invariant for what is left and what is written; the list of exchanges is ascending.
* **C123** the transforms of numpy as the sums that define them; orthogonality of cosines gives a Wiener-Khinchin theorem for finite blocks; induction over the loop over blocks.
* **C124** eigenvectors as numpy returns them; the Lyapunov equation has one solution; functions of a matrix do not depend on the eigenvectors; the matrix exponential and improper integrals of mathlib; a majorisation argument for the iteration.
* **C125** a transition system of the descriptors of the process, the table of names, the segments, the objects of i-PI and the clients; an invariant by induction over the history; descriptors are the lowest free number.
* **C126** vectors of a real inner product space; the optimiser is an arbitrary choice of the next positions; an invariant of all steps; a concrete hill for the wrong force.
* **C127** actions of the run model; everything a user can see is a function of the state without the copy kept for RESTART; splitting a run by induction.
* **C128** lists over systems and beads with singletons flattened; induction over the beads with the part already set as a prefix; momenta in the normal modes of C43.
* **C129** requests as records, the block as a tree of one level read with the defaults of the input classes; the table of all declared dimensions; real numbers for the units.
* **C130** Jacobians with all coordinates as columns, the Gram matrix and its inverse, the projections as folds over the list of groups, the iteration with the loop variable it leaves behind. Orthogonality of the removed part gives the statements on energies; induction over the passes gives what the iteration keeps; derivatives are computed along arbitrary lines.
* **C131** python's replacement of strings as a scan that skips occurrences, the sorted list of pairs of label and string. The specification reads the template once from left to right and takes the longest label at each place. The proof takes the labels off the sorted list one by one and shows that a replacement neither creates nor destroys beginnings of labels.
* **C132** Springs as sums over the normal modes of the open path, and the tridiagonal matrix of the Hessian. The normal modes diagonalise the springs (C36), which gives the energy and the Hessian; a quadratic function gives its derivative. The band is compared with the complete matrix entry by entry.
* **C133** Arrays as lists of rows, numpy's selection and assignment by lists of indices with their errors, the nested loops with the counters that are not reset. Masks without repetitions make selection and assignment inverse to each other; an induction over the loops gives the sources of the assignments.
* **C134** The attributes that are read while a calculation is prepared, as a list run against the attributes that exist. The resampling with any interpolation that goes through the points, and the natural spline through three points in closed form as a witness.
* **C135** Model the construction of the pointers (counts and running sums), the slices and the assignments of both classes, and the frame format; prove that the pointer of a line is the number of stored entries before it, so that each slice is exactly the block of its line.
* **C136** Model the increments, the normalisation, the reshapes of the screening matrix, the reduction of beads and the saving; prove the estimator exact for harmonic potentials by matrix algebra, and the reshapes by arithmetic of indices.
* **C137** Model the index of a coupling, the loop of DMD.step over systems and bias components with force fields shared by name, and the force that is kept between steps; prove the clock by induction and the lag of the force.
* **C138** Model the loop, the sums and intersections, and which member is connected last to the time step of the shared normal modes; prove the order of the steps by induction, and compare with the members on their own.
* **C139** Model the matrices and the loops of both grids; prove orthogonality and determinants, and the moments of the grids with sums over equally spaced angles.
* **C140** Model positions, contracted positions and results of each replica with their marks as in depend.py, reading, setting, dumping and loading; prove an invariant and its preservation over all histories.
* **C141** Model the index arrays, the enumeration of events, the selection, the exchange, the canonical order of atoms and the neighbour table; prove an invariant of the three descriptions of the occupation, its preservation, and the count of neighbours of the periodic lattice.
* **C142** Model both dictionaries, the counter, the flags, the lock and the position of every thread in the code as a transition system; prove an invariant over all schedules, a decreasing measure and the absence of deadlock.
* **C143** Model BaroSCBZP, the Suzuki-Chin stresses, SCNPTIntegrator.pstep and step over the reals; reduce the momentum step to the ordinary isotropic one with rescaled forces; compose the inverses of the pieces, using that the free motion around the centroids does not interfere with the motion of centroids and cell.
* **C144** Model the fourth order virial as the finite difference the program takes; prove the balance of energy for arbitrary high order virial; compute the derivative of the squared forces under a scaling of positions and cell by the symmetry of second derivatives, and compare.
* **C145** Model the loop that makes samples with its index into the random sequence, and the evaluation loop; prove by induction what the loops produce.
* **C146** Model the matrices built from the modes, the weights and averages over the reals; write the sums over modes as U diag Uᵀ and multiply; cancel the odd terms of symmetric samples.
* **C147** Model displace branch by branch, with the inner loop of rnmik as a pass; use the exact averages of C146.
* **C148** Model what an iteration keeps and what the restart file stores; compare the averages with the ratio of densities as specification.
* **C149** Model the two loops over counters with their steps and the refinement by halving; prove by induction which counters occur, and compare multiples of powers of two.
* **C150** Model the assembly of the Hamiltonian, the energies from the levels with any orthogonal diagonalisation, the basis loop and the totals over steps; use the characteristic polynomial for the levels of a diagonal matrix.
* **C151** Model the mapper, the lists and their indices, the entry of a pair, the two files of a pair with a budget of writes; prove alignment by lists, the files by induction over pairs.
* **C152** Model the loop over states with its division inside, the mixing step, and the loop of the solver; prove closed forms.
* **C153** Model weights, averages, covariances as finite sums over frames; derivative at zero for the expansion; compare the printed uncertainty with the specification.
* **C154** Model the loop over frames and files with the trajectories as lists; induction on the frames left.
* **C155** Model the loops as sums over beads and compare with the estimators of the engine by algebra.
* **C156** Model the mode from any orthonormal diagonalisation, the steps as solutions of the linear equations, the choice of beads as the loop; prove with quadratic forms, components along modes, and induction over beads.
* **C157** Model the doubling, the actions and the partition functions with real numbers; prove the identities with roots of unity, the limit with the derivative of arsinh.
* **C158** Reuse the products over roots of unity for twice the length; strict monotonicity of the reference in the eigenvalue gives the negation.
* **C159** Model the doubling, the rescaling matrices of C35 and the layout of the Hessian; prove with the orthogonality of the normal modes and the vanishing of the stiffest mode of a mirrored path.
* **C160** Model the estimators as sums; prove by rearranging sums and, for the derivative, by calculus; model the remembered reference as state.
* **C161** Model frames, running sums and rows; reweight the sampled paths to other parameters and differentiate.
* **C162** Model the header as text, the pattern and the loop over lines; prove by induction over lines and characters.
* **C163** Model header lines as text and the pattern as a search without backtracking; prove by induction over characters and lines.
* **C164** Model the loop over frames with the trajectory units of C63 and the contraction of C35; induction over frames.
* **C165** Model what is done with the result of the client, reusing the formulas of C84; induction over the drivers.
* **C166** Model the search for the quantity and the conversions with the trajectory units of C63; induction over the frames.
* **C167** Model the choice of the bosons, the sum of spring energies and forces, the branches of the propagation and the selection of atoms; sums over lists and sets of atoms.
* **C168** Model the loop of small velocity Verlet steps with arbitrary spring forces; induction over the steps; the conserved quantity of the leapfrog for each mode, derivative of the reported energy for scaled masses.
* **C169** Model the division of rows, the storage by structure and the mean; induction over batches, structures, properties and models.
* **C170** Model the three component functions and the seven outputs on top of the contraction model of C35; the mean is kept by the interpolation.
* **C171** Model the loop over the tokens and python's rules for calls; induction over the options and the parameters.
* **C172** Model the recursion over the fields as mutual functions on trees; compare with the chains of names from the root to each tag.
* **C173** Model the conversion, the assignment to the template and the treatment of the stress; differentiate along displacements and deformations.
* **C174** The loop over the files and the sums are modelled; the free energy correction is stated separately and differentiated with respect to the mass of one degree of freedom.
* **C175** Minimum image, the two index arrays and the update of the lists are modelled; the invariant is that the lists are those of the positions kept with them.
* **C176** Local constancy of the minimum image for pairs inside and outside the cut-off, then sums over pairs; under strain the fractional coordinates do not change.
* **C177** The factor of a pair is compared with the rule that the comment in the code states.
* **C178** Model each routine as a function of exact reals; differentiate the energy along an arbitrary direction (`MinusGradient`) and under a strain (`MinusStrain`).
* **C179** Model the loop over bonds, with the uninitialised product as a parameter; show that the result is the sum of the springs and of the Lennard-Jones part of C175 and C176; differentiate the springs under the minimum image.
* **C180** Model the five consecutive calls; show that a call adds a term proportional to epsilon, from which the members and the mean follow; model the two ways in which the virial is laid out and read.
* **C181** Model the loop over the arguments and over the commas and the checks of each potential; prove a round trip from items to their meaning by induction.
* **C182** Syntax trees as assignments and blocks; `ast.walk` as the breadth-first queue it is, shown to go level by level; the scan is shown to find the last strings in that order; the table is shown to hold, for each name, the last module that declares it.
* **C183** JSON values as trees; `recursive_copy` is shown to leave a value at each key that does not depend on the order of the keys, from which the value at every path follows; options, report and evaluation are then modelled on top of it.
* **C184** The subroutines with their own indices counted from one on the flat arrays that python passes; each sum is rewritten over beads, atoms and directions and compared with the python loop; the rows follow by induction over the frames.
* **C185** The three loops of the Fortran subroutine as a fold over beads and pairs; the histograms by induction over the pairs and the frames; the files by induction over the trajectory from its end.
* **C186** The chains of comparisons as written; the restarts by induction over the list of runs; the timings by induction over the steps.
* **C187** The rules of python for arguments and calls as functions of the names given; the rest from the derivative of the bath (C84) and of the wells along any path.
* **C188** `compute` branch by branch with one value or a list as argument; entries of the batch compared by position.

## Module layout

* `Verif/Depend` (9 files): dependency network of quantities (C01-C05, C51)
* `Verif/Driver` (2 files): python driver (C13, C56, C57)
* `Verif/FF` (17 files): force fields: selections, offsets, queues, committees, rotations, extras (C17-C21, C45, C46, C49, C58-C61)
* `Verif/Io` (24 files): text formats: values, XML, JSON, trajectories, backups (C25-C29, C31, C32, C63, C64)
* `Verif/Mpi` (3 files): MPI driver interface (C14-C16)
* `Verif/Out` (1 files): property keys (C50)
* `Verif/Phys` (55 files): numerical parts: units, random numbers, normal modes, propagators, exchange, constraints, cells, thermostats, barostats
* `Verif/Pool` (7 files): socket scheduler, threaded pool, matching policy (C09-C12, C54, C55)
* `Verif/Props` (191 files): the property theorems, one or more files per property
* `Verif/Run` (14 files): run loop, outputs, checkpoints, exit handling (C22-C24, C48)
* `Verif/Text` (2 files): characters and python string functions
* `Verif/Tools` (13 files): scripts that work on the output files
* `Verif/Wire` (8 files): socket framing and message codecs (C06-C08, C52, C53)

## Findings: disagreements between code and properties

For each property that is not proved in full: what is false of the code, with the theorems that show it and those that
prove the rest (suffix `_partial`, or stated for the remaining cases).

* **C02** The dependency declarations of the real objects keep every quantity fresh. The property is false of the
  code: eight declarations are faulty, each with a proved stale history. Freshness is proved for the 67 quantities not
  involving them, and for all 86 once the eight declarations are corrected. Theorems: `core_fresh_partial`,
  `repaired_fresh`, `repaired_same_reads`, `pi_not_fresh`, `fpath_stale`, `nm_factor_stale`, `extras_stale`,
  `fsc_stale`, `virsc_stale`, `qdt_stale`, `qdt_on_m_stale`, `econs_stale`.
* **C05** A rejected assignment to a computed quantity has no effect. False of the code for up-to-date quantities
  (negation proved); proved for out-of-date ones. Theorems: `rejected_write_corrupts`, `rejected_write_is_read`,
  `rejected_write_harmless_partial`.
* **C08** The extra string may contain any text. False of the code: negation proved for every non-ASCII string, plus
  witnesses; the ASCII case is proved. Theorems: `extras_nonascii_desync`, `extras_decode_error`,
  `extras_next_exchange_lost`, `extras_ascii_partial`.
* **C10** A client that times out does not leave its request stuck (threaded mode). False of the code: a timed-out
  request stays marked as running forever (proved for every continuation). Without timeouts no request is lost
  (proved). Theorems: `abandoned_forever`, `timeout_abandons`, `timeout_abandons_any`, `threaded_no_loss_partial`,
  `threaded_one_job`.
* **C101** The isotope fractionation estimators average to ratios of partition functions. Exact real arithmetic,
  closed paths, cell of the estimator as at the start. Proved for the second order estimators and the fourth order
  thermodynamic one; for the fourth order scaled-coordinates one only if the forces on the other atoms do not change.
  False of the code: interacting atoms in the latter (zetasc4_wrong), the trajectory of the thermodynamic estimator
  (trajZetatd_wrong), logarithmic sums with negative terms (logsumlog_wrong, logsumlog_cancel, smkee_wrong). Theorems:
  `integral_scale`, `zetatd_mean`, `zetasc_mean`, `tiWeight_mean`, `chinWeight_mean`, `zetatd4_mean`,
  `zetasc4_mean_partial`, `zetasc4_wrong`, `trajZetatd_factor`, `trajZetasc_factor`, `trajZetatd_wrong`,
  `traj_unselected`, `logsumlog_pos`, `logSum_pos`, `logsumlog_wrong`, `logsumlog_cancel`, `smkee_partial`,
  `smkee_wrong`, `smkee_sc_mean`, `smkee_td_mean`, `tcv_kincv`.
* **C103** The scaled-coordinates estimators give the energy and the heat capacity. Exact real arithmetic. Proved for
  the limit of small displacements. False of the code with the automatic displacement for configurations at which the
  virial vanishes: zeros are printed though the differences converge (yama_zero). Theorems: `partition_scaled`,
  `energy_capacity`, `yama_limit`, `scaledcoords`, `eps_kincv`, `potential_kinetic`, `yama_ends`, `yama_default_ends`,
  `yama_result`, `trap_smooth`, `yama_zero`.
* **C105** The Suzuki-Chin factorisation works with every accepted forcefield setup. Proved without contraction and
  for parameters of one sign (C104) and the explained refusals (sc_refused). False of the code: with a component
  contracted to the centroid the forces have no potential at all (contraction_wrong), components with parameters of
  different signs end with a mismatch of shapes (mixed_wrong) and a zero parameter with an unbound variable
  (zero_wrong). Theorems: `sc_refused`, `contraction_wrong`, `mixed_wrong`, `zero_wrong`.
* **C107** The Suzuki-Chin scaled-coordinates estimator averages to the energy. The limit of the printed values and
  the exact error of their average: the term with the squared forces is not rescaled, so the average misses twice the
  average of that term per replica (scyama_partial), which is positive in a trap (scyama_wrong). Theorems:
  `scyama_partial`, `scyama_wrong`, `scyama_eq`.
* **C108** A printed value depends on the current state and its own arguments only. The properties that use copies or
  stored data; the others are functions of the state. Proved while the cell does not change, without contraction for
  the operator estimator, and for one reference of virial_fq. False of the code: displaced path and isotope estimators
  use the cell of the start or of the last scaled-coordinates output (displaced_stale, isotope_stale), the operator
  estimator uses old positions of the odd replicas if forces are contracted (scOp_stale), virial_fq keeps its first
  reference (virialFq_stale). Theorems: `current_partial`, `scaledcoords_current`, `scOp_current`, `virialFq_partial`,
  `displaced_stale`, `isotope_stale`, `virialFq_stale`, `scOp_stale`.
* **C110** After the initialisation every quantity is what the last instruction about it said. Proved for the
  positions if the masses are known when velocities are set (positions_last_partial); each instruction by itself is
  C109. False of the code: velocities before masses clear the positions without an exception (positions_lost), the
  units of manual positions, momenta and velocities are ignored (manual_units_ignored), momenta of a single bead are
  multiplied by the square root of the number of beads (bead_momenta_scaled), and a mass for an atom that does not
  exist is ignored (missing_atom_ignored). Theorems: `positions_last_partial`, `steps_masses`, `steps_positions`,
  `masses_known`, `positions_kept`, `kept_steps`, `positions_lost`, `manual_units_ignored`, `bead_momenta_scaled`,
  `missing_atom_ignored`.
* **C111** Every documented initialisation can be carried out. Proved for whole files with and without thermal
  momenta. False of the code: the tag gle never completes (gle_raises), nor does file with a bead (file_bead_raises),
  nor momenta, velocities or cell from a checkpoint (chk_raises). Theorems: `file_completes_partial`,
  `file_thermal_partial`, `cell_given`, `gle_raises`, `file_bead_raises`, `chk_raises`, `label_kept`, `label_cut`.
* **C113** Output files are read back as they were written. Proved for requests without blanks and empty brackets of
  which no two have the same name and arguments (read_back_partial), for steps below 10, and for extras that are
  arrays. False of the code: the same property in two units is mixed into one array (two_units_mixed), requests with a
  blank or empty brackets are dropped (blank_dropped, empty_brackets_dropped), from step 10 on a frame has the first
  digit of its step instead of the step (step_wrong), texts come back with doubled line ends (text_not_read_back).
  Theorems: `read_back_partial`, `two_units_mixed`, `blank_dropped`, `empty_brackets_dropped`, `step_is_first_digit`,
  `step_wrong`, `step_right_partial`, `last_header`, `extras_read`, `preface_shifts`, `text_not_read_back`.
* **C114** A cell keeps its lattice in every description. Proved for all proper lengths and angles, for upper
  triangular cells with positive diagonal and for full matrices given as GENH. False of the code: a cell with a
  negative diagonal entry is accepted in the input but written as another lattice (negative_diagonal_lost); a full
  matrix in a CELL(H) comment is accepted and wrapping then moves atoms by vectors that are not in the lattice
  (full_matrix_wrong). Theorems: `abc2h_gram`, `abc2h_upper`, `abc2h_exists`, `abc2h_det`, `upper_unique`,
  `angles_back`, `genh_proper`, `genh_cell`, `genh_positions`, `cell_back`, `file_back`, `negative_diagonal_lost`,
  `full_matrix_wrong`.
* **C115** The auxiliary momenta of a generalised Langevin thermostat start in equilibrium. Proved for the square root
  (exact if and only if the matrix is positive semidefinite), for the distribution of the auxiliary momenta and for
  the start in equilibrium when the covariance has no correlation between the momenta of the atoms and the auxiliary
  ones, which includes the default. False of the code for other covariances: the momenta of the atoms are not used
  when the auxiliary ones are drawn, and the first step takes them away from the temperature
  (correlated_start_leaves). Theorems: `chol_exact`, `chol_lower`, `chol_law`, `fresh_law`, `restart_kept`,
  `step_start`, `start_law`, `start_equilibrium_iff`, `start_default`, `nm_refused`, `nm_fresh_law`,
  `nm_restart_kept`, `correlated_start_leaves`.
* **C116** The drift over a step is the exponential of the drift matrix. Proved: the exact value of what is computed,
  an error bound for every matrix, exactness for nilpotent matrices, and sixteen digits for every damping drift matrix
  that is not greater than 1024 over a step. False of the code for larger matrices: the series is cut after a fixed
  number of terms and the factor can exceed one (large_drift_wrong). Exact real arithmetic. Theorems: `matrixExp_eq`,
  `matrixExp_nilpotent`, `matrixExp_error`, `drift_contracts`, `drift_error`, `drift_accurate`, `large_drift_wrong`.
* **C117** Atoms are driven by the field that was asked for. Proved: the field for pulses with a peak after time zero
  and for plane waves, the impulse of every run, its convergence to the integral of the force when the outermost level
  has one substep, reversibility and the net force of accepted charges. False of the code: a pulse with its peak at
  time zero (the default) or before has no envelope (early_pulse_lost), with n substeps the impulse is one n-th
  (impulse_divided), and the tolerance of the sum rule is a factor of the number of atoms too large
  (sum_rule_tolerance_too_large). Exact real arithmetic. Theorems: `field_as_specified_partial`,
  `plane_wave_as_specified`, `early_pulse_lost`, `run_impulse`, `impulse_converges_partial`, `efield_smooth`,
  `impulse_divided`, `driven_step_reversible`, `accepted_charges_net_force`, `neutral_charges_accepted`,
  `sum_rule_tolerance_too_large`, `fixed_charges_count`.
* **C118** What is printed about a driven system agrees with the forces applied. Proved: the derivative of the dipole,
  the potential of the force, conservation of the energy of free atoms in a static field, and dipoles reported under
  their own name. False of the code: the printed interaction energy has the opposite sign (interaction_energy_sign,
  static_field_energy_printed), and dipoles reported in a text are printed as nan (text_dipole_lost). Exact real
  arithmetic; the regular expression is a parameter. Theorems: `dipole_derivative`, `force_is_gradient`,
  `interaction_energy_sign`, `static_field_energy`, `static_field_energy_printed`, `dipole_read_partial`,
  `dipole_printed_sound`, `text_dipole_lost`.
* **C119** The printed stress and pressure are derivatives of the energy. Proved for the pressures of the physical
  system, the diagonal of the stress and the relations between the printed values. False of the code: entries of
  stress_cv off the diagonal lack the momenta (stress_cv_strain gives what they are, stress_cv_not_classical a case
  with one bead), and pressure_md leaves out the springs of the extended system (pressure_md_misses_springs). The
  virials and forces are assumed to be the derivatives of the potentials. Exact real arithmetic. Theorems:
  `pressure_cv_scale`, `pressure_cv_volume`, `pressure_tdsc_volume`, `stress_cv_strain`, `stress_cv_not_classical`,
  `one_bead_pressure`, `pressure_trace`, `pressure_md_scale`, `pressure_md_misses_springs`, `springs_left_out`.
* **C12** Request-to-client matching policy is honoured. Lock exclusivity, work conservation (auto, any) and
  preference order proved; the last clause fails in lock mode (lock_starves: a stale request list starves an eligible
  request) and preference order assumes successful sends (failed_send_delays). Theorems: `lock_respected`,
  `waiting_request_dispatched`, `own_replica_first`, `new_clients_before_others`, `settled_clients_last`,
  `lock_starves`, `failed_send_delays`.
* **C121** Sorted replica exchange outputs belong to the ensembles. Proved for runs from the start that were not
  repeated in part, with frames of the expected shape. False of the code: files of momenta and the other quantities
  added later, of every n-th bead and of raw component extras are not found (names_differ), nor is the list of
  exchanges without a prefix (swap_file); without property and xyz files the script never ends (never_ends), with rare
  property rows it ends with an error (ends_badly); an exchange repeated after a restart hides all later exchanges
  (repeated_line_wrong); files begun by a continued run are sorted as if nothing had been exchanged (continued_wrong);
  extras with several lines per step are mixed up (tables_wrong). Theorems: `read_good`, `sorted_files`,
  `inEnsemble_one`, `ends_well`, `never_ends`, `names_agree_partial`, `names_differ`, `swap_file`,
  `repeated_line_wrong`, `continued_wrong`, `tables_wrong`, `ends_badly`.
* **C122** Trimmed outputs end at the checkpoint. Proved for the files that are found. False of the code: momenta and
  other quantities, extras of a bias, and centroids in the ase format are not found (names_differ); the list of
  exchanges is not copied if replica exchange is one of several super-motions or if there is no prefix (swaps_lost).
  Theorems: `read_good`, `trim_files`, `trim_continue`, `short_fails`, `trim_swaps`, `swaps_lost`,
  `names_agree_partial`, `names_differ`.
* **C123** Autocorrelation functions and spectra of trajectories. Proved: which blocks are used, the mean square at
  lag zero for blocks of even length, the spectrum as the transform of the printed function, the sum rule, the
  derivative. False of the code: at other lags the frames at the end of a block are multiplied with those at its
  beginning (block_mixes says exactly what is printed, wraps_around); blocks of odd length, the default of the
  function, give wrong values at all lags (odd_constant); the unit named in the file is ignored (units_ignored);
  without padding the largest lag is not written (last_lag). Theorems: `power_cos`, `block_even`, `block_mixes`,
  `block_zero`, `accum_spec`, `average_blocks`, `average_short`, `acf_printed`, `acf_zero`, `blockData_frames`,
  `gradient_linear`, `gradient_quadratic`, `window_zero`, `window_last`, `ft_cosine`, `ft_sum`, `ft_symm`,
  `wraps_around`, `odd_constant`, `sizes_default`, `sizes_ok`, `sizes_given`, `sizes_no_lag`, `units_ignored`,
  `last_lag`, `rows_ft`.
* **C124** Thermostats are removed from spectra with the right kernel. Proved: the kernel, although the covariance is
  wrong; positivity, fixed points and monotone misfit of the deconvolution. False of the code: the covariances of the
  position are divided by the frequency instead of multiplied (cqp_position, cqp_wrong), and the error that is
  reported is that of the transposed kernel (reported_wrong). Kernels for which the friction is raised to the spacing
  of the frequencies are covered by element_transform with the raised matrix. Theorems: `lyapunov_solves`,
  `lyapunov_unique`, `cqp_eq`, `cqp_momenta`, `cqp_position`, `func_unique`, `exp_cos_integral`, `corr_transform`,
  `element_transform`, `element_congr`, `cov_qp`, `kernel_element`, `cqp_wrong`, `omlist_spec`, `convolve_eq`,
  `isra_pos`, `isra_fixed`, `isra_true`, `isra_decreases`, `isra_monotone`, `reported_symm`, `reported_wrong`.
* **C125** Results that come back through shared memory belong to the structures that were sent. Proved: the results
  are right and requests can be answered in all histories in which no two clients have had the same names, in
  particular if all clients connect in one round. Missing, because false of the code: two clients of which one is the
  last of a round and the other the first of the next have the same names (next_poll_same_names); then zeros or the
  results of another structure can be stored (results_mixed_up, results_of_another, not_results_belong), and dropping
  a client can end another (drop_ends_another). Theorems: `fresh_spec`, `next_poll_same_names`, `one_poll_distinct`,
  `results_belong_partial`, `results_belong_one_poll`, `pending_completes`, `idle_accepts`, `size_change_gives_up`,
  `results_mixed_up`, `results_of_another`, `not_results_belong`, `drop_ends_another`, `drop_closes`,
  `reconnect_same`.
* **C126** A nudged elastic band ends on a path of minimum energy and a saddle point. Proved: the meaning of the
  forces and of success, end points and fixed atoms, potentials that are printed, forces that are printed in the first
  stage, choice of the climbing image, reversal of the path except where three energies are equal. False of the code:
  the force printed for the climbing image (climbing_force_printed, not_forces_printed), the limit on displacements
  (biggest_step_not_kept), restarting while climbing (climb_restart_fails, climb_restart_iff), restarting after the
  end (converged_refused), a Hessian of all atoms (band_full_fails). Theorems: `converged_ends`, `band_across`,
  `band_along`, `band_norm_sq`, `band_zero_iff`, `climb_norm`, `climb_zero_iff`, `climb_along`, `climb_across`,
  `improved_up`, `improved_down`, `improved_reverse`, `improved_flat`, `band_reverse`, `ends_and_fixed_stay`,
  `success_means`, `potentials_printed`, `forces_printed_partial`, `climbing_force_printed`,
  `climbing_force_right_iff`, `climbing_image_highest`, `others_stay`, `adjust_pos`, `adjust_ge`,
  `biggest_step_not_kept`, `climb_restart_fails`, `climb_restart_iff`, `band_restart`, `band_full_fails`,
  `converged_refused`, `not_forces_printed`.
* **C127** A simulation driven from a script is the same simulation. Proved for calls that make at least one step:
  pieces do not matter, also with changes in between; equality with the program run in one go; RESTART after each
  call. False of the code: a call with no steps counts one (run_zero, run_zero_skips, run_zero_row_missing); RESTART
  at an exit after a change made by the script (exit_forgets_edit); the initial configuration if the first steps are
  made without outputs (initial_row_missing). Theorems: `run_split`, `script_single`, `script_is_run`, `run_state`,
  `run_quiet`, `restart_current`, `restart_continues`, `exit_current_partial`, `exit_forgets_edit`, `run_zero`,
  `run_zero_skips`, `run_zero_row_missing`, `initial_row_missing`.
* **C128** Structures and momenta exchanged with a script are taken over completely. Proved: nesting, both round trips
  (beads of a system sharing a cell), momenta kept if none are given, conserved quantity and constraints of thermal
  momenta under the conditions of C43. False of the code: beads with different cells are accepted and all get the last
  one (last_cell_wins); too few systems or beads are accepted (missing_system_silent, missing_bead_silent); too many
  beads raise an error only after the simulation was changed (extra_bead_error). Theorems: `one_for_several`,
  `get_nested`, `set_nested`, `set_get`, `get_set_partial`, `set_keeps_momenta`, `last_cell_wins`,
  `missing_system_silent`, `missing_bead_silent`, `extra_bead_error`, `thermalize_conserved_partial`,
  `thermalize_fixed`, `thermalize_com`, `thermalize_energy`.
* **C129** A script gets the force field, thermostat, masses and units it asks for. Proved: internet sockets, built-in
  potentials, refusals, default thermostats, reading all properties but two, coherence of the units of ASE. False of
  the code: unix sockets (unix_becomes_inet), a thermostat that is given (given_thermostat_fails), masses set with ASE
  (masses_ignored, deuterium_is_hydrogen), structures that differ (first_structure_only), two properties
  (weights_unavailable), units in the key (unit_ignored). Theorems: `mass_array_used`, `property_value`,
  `inet_socket`, `direct_pes`, `incomplete_refused`, `unix_becomes_inet`, `default_thermostat`,
  `given_thermostat_fails`, `masses_ignored`, `deuterium_is_hydrogen`, `first_structure_only`,
  `properties_available_partial`, `weights_unavailable`, `unit_ignored`, `ase_coherent`.
* **C13** Driver protocol state machine answers each status query truthfully. Status replies proved truthful for every
  history. Forces are those of the last positions when initialisation precedes positions (as i-PI does), stale
  otherwise (reinit_stale); forces are resent without new positions (resends). Theorems: `flags`, `status_truthful`,
  `forces_of_last_positions_partial`, `resends`, `once_if_pending_partial`, `reinit_stale`.
* **C130** Constrained dynamics keeps bonds, angles and Eckart conditions. Proved for groups without common atoms.
  Fails for groups that share an atom, for linear molecules with Eckart conditions, and when the iteration does not
  converge, about which the user is never warned. Theorems: `stepBc_impulse`, `refRel_centred`, `gram_solvable`,
  `projCot_tangent`, `projCot_id`, `projCot_pythagoras`, `projCot_nearest`, `projCot_energy`, `projCot_conserves`,
  `com_removal_tangent`, `all_groups_tangent`, `disjoint_independent`, `shared_atom_not_tangent`, `newton_end`,
  `newton_converged`, `never_warned`, `newton_consistent`, `newton_conserves`, `newton_linear`, `newton_linear_end`,
  `step_consistent`, `base_current`, `stepAg_tangent`, `stepAg_conserves`, `stepOc_conserved`, `stepBc_loses_energy`,
  `manifold_all`, `silent_failure`, `bond_derivative`, `angle_derivative`, `bond_translation`, `angle_translation`,
  `bond_rotation`, `bond_initial`, `angle_initial`, `eckart_affine`, `eckart_initial`, `eckart_momentum`,
  `eckart_angular_momentum`, `eckart_linear_singular`, `eckart_accepts_nodup`, `eckart_refuses_unsorted`,
  `max_norm_not_read_back`, `norm_read_back`.
* **C131** Systems made from a template have the strings of their instance in place of the labels. Proved for labels
  that begin with a character used for nothing else and that follow a character that occurs in no label, including
  labels that are the beginning of other labels. False for labels that end with another label (suffix_label_spoiled)
  and for strings that contain a label (inserted_label_spoiled). Theorems: `template_expanded`, `mismatch_refused`,
  `systems_one_each`, `suffix_label_spoiled`, `inserted_label_spoiled`.
* **C132** Energy, gradient and Hessian of an instanton belong together. Proved for the default discretisation without
  friction, and for at least three beads in the band form. Fails for any other discretisation, for friction, and for
  two beads. Theorems: `spring_gradient`, `spring_energy`, `spring_hessian_exact`, `spring_hessian_nonuniform`,
  `physical_hessian_exact`, `physical_scaled_twice`, `physical_hessian_nonuniform`, `band_entry`, `band_complete`,
  `complete_symm`, `sym_band_entry`, `band_two_beads`, `friction_gradient`, `friction_energy_counted`,
  `friction_energy_inconsistent`, `friction_derivatives_lost`.
* **C133** Fixed atoms stay where they are in the search for an instanton. Proved for whole fixed atoms, the step and
  the Hessian of the optimisers that update it by Powell's formula. Fails for single degrees of freedom, the lbfgs
  optimiser, the Hessian computed again in every step, the final Hessian of the friction; and the sum rules use the
  first structure. Theorems: `types_of_names`, `fixed_dofs_kept`, `whole_atoms`, `single_dofs_fix_atoms`,
  `single_dofs_refused`, `step_fixed`, `hessian_fixed`, `recompute_fails`, `lists_as_hessians`, `lbfgs_refused`,
  `lbfgs_never`, `friction_fails`, `friction_wrong`, `stretched_symmetric`, `stretched_ends`, `sum_rules_stale`,
  `rotation_not_removed`, `path_grows`.
* **C134** The string method keeps the ends of a path and its beads at equal distances. Proved: the ends, beads at
  equal distances, straight paths, the projection. Fails: a calculation never starts; the beads are at equal distances
  only along the broken line; the forces of the first step. Theorems: `never_starts`, `param_start`, `param_end`,
  `param_mono`, `ends_stay`, `equidistant_stay`, `straight_equidistant`, `natural3_through`, `natural3_affine`,
  `not_equidistant`, `across_orthogonal`, `across_zero_iff`, `first_step_equidistant`, `first_step_wrong`.
* **C136** The planetary model writes the frequency matrix. The estimator, the screening and what would be written are
  right. The matrix is never written (a zip archive is written to a text buffer, which raises a TypeError), and a
  reduction to three or more beads does not start from the contraction of the path. The constrained dynamics between
  the samples is not modelled. Theorems: `harmonic_exact`, `estimate_symm`, `expand_block`, `near_symm`, `saved`,
  `saved_whole`, `saved_csc`, `modeFreq_eq`, `start_same`, `start_contracted_partial`, `not_start_contracted`,
  `more_beads_fails`, `one_bead_fails`, `encodedSavez_fails`, `never_written`, `skipped`.
* **C137** A driven system feels the driving force of its own time. Each pair has its own coupling, but not in the
  documented order. The clock advances once for every system and bias component that uses the force field, so it is
  right for one system only. The force is that of the step before, and a continued run begins with a different force.
  The step is modelled for velocity Verlet and one coordinate; energy, force and virial at a given time are C84.
  Theorems: `mdStep_reversible`, `slot_inj`, `slot_surj`, `slot_range`, `not_documented_order`,
  `documented_order_iff`, `clock`, `clock_one_partial`, `not_clock`, `clock_stopped`, `no_clock`, `force_lags`,
  `static_partial`, `not_force_of_time`, `not_restart`, `restart_force`.
* **C138** A list of motions does the steps of its members, each as on its own. Right if all the dynamics of the list
  have the same time step for the positions. Otherwise the internal modes of ring polymers are propagated with the
  time step of the last one. Failures of the constructors and missing attributes of single motions are C98. Theorems:
  `totdt_eq`, `fixatoms_mem`, `fixcom_iff`, `not_fixed_by_any`, `step_spec`, `nmdt_last`, `nmdt_all`,
  `as_alone_partial`, `not_as_alone`, `freeDyn_alone`.
* **C139** Averages over rotations use rotations and do not depend on the orientation. Holds except that mirror images
  are evaluated with random rotations even without inversion. That the roots and weights (numpy) and the table of
  points integrate polynomials over the line and the sphere is a hypothesis; exactness for all rotations is proved for
  second order, for higher orders separately for the three angles. Theorems: `quat_proper`, `euler_proper`,
  `random_spec`, `grid_proper`, `all_ortho`, `legendre_length`, `lebedev_length`, `legendre_iso`, `lebedev_iso`,
  `legendre_average`, `lebedev_average`, `legendre_no_alias`, `legendre_no_alias_last`, `legendre_middle`,
  `order_one`, `proper_only_partial`, `random_mirrors`, `not_proper_only`.
* **C140** Forces taken over from another object are the forces of the current positions. Holds if every component of
  the reference object has been evaluated and the cells are equal. Components of zero weight are not evaluated, and
  their missing or stale results are taken over as valid. The manual variant sets zeros for the virial. One thread;
  the totals are represented by the components they read. Theorems: `inv_new`, `inv_run`, `readU_spec`,
  `transfer_partial`, `transfer_history_partial`, `set_after`, `load_refuses`, `readTotal_spec`, `zero_weight`,
  `zero_weight_stale`, `other_cell`, `not_other_cell`, `load_other_positions`, `manual_reads`, `manual_one`.
* **C141** Kinetic Monte Carlo keeps every atom, selects events with their rates and obeys detailed balance. Holds for
  lattices of at least three cells in each direction (twelve, neigh_symm, reverse_event). For two cells the rows of
  the neighbour table are filled with site 0 and events without a reverse exist. Exact real numbers; the relaxed
  energies are a function of the occupation (see C142 for the cache and the threads); the nearest-neighbour search is
  in exact lattice coordinates. Theorems: `init_inv`, `apply_inv`, `events_ok`, `targets_distinct`, `events_nodup`,
  `reverse_event`, `detailed_balance`, `pick_iff`, `pick_share`, `pick_some`, `dwell_nonneg`, `dwell_exponential`,
  `step_ok`, `step_stuck`, `count_cap`, `unique_spec`, `new_positions`, `near_symm`, `twelve`, `neigh_symm`,
  `not_mutual_two`, `not_reversible_two`.
* **C142** Kinetic Monte Carlo uses the energies of the right structures whatever the order of its threads. The
  results are right for every schedule that ends (results_right_partial); there is no error if the cache has room for
  the structures of the step (no_error_partial) and the events lead to different structures, which holds for at least
  three cells (Verif.Kmc.targets_distinct, events_nodup). False of the code if the cache is full. A relaxation is a
  function of the structure; operations on dictionaries and flags are atomic. Theorems: `lock_held_inside`,
  `results_right_partial`, `next_start_partial`, `cache_right`, `cache_bounded`, `no_error_partial`,
  `all_cached_partial`, `fewer_left`, `can_go_on`, `ends_partial`, `too_long`, `not_safe_full`, `not_safe_same`,
  `failed_zero`, `failed_stuck`, `no_room_zero`.
* **C143** Constant-pressure Suzuki-Chin steps follow their equations of motion and can be reversed. Reversibility of
  a whole step is proved for one level of multiple time stepping, without thermostat and without bias. With a bias at
  the innermost level it fails (bias_not_reversible): the piston's kinetic terms leave out the bias. Theorems:
  `sc_weights`, `sc_pstep_eq`, `sc_kick_exact`, `slow_kick`, `iso_pstep_back`, `free_comm`,
  `sc_step_reversible_partial`, `bias_not_reversible`.
* **C144** The conserved quantity of constant-pressure Suzuki-Chin runs is conserved. The property fails: the high
  order virial lacks twice the square of the forces over the masses (v4_wrong, for every smooth potential), so the
  conserved quantity drifts (sc_not_conserved). Proved: it is conserved if and only if the trace of the high order
  virial is right (sc_conserved_iff). Theorems: `quot_limit`, `high_order_limit`, `high_order_weights`, `sc_rate`,
  `sc_conserved_iff`, `square_strain`, `v4_wrong`, `trap_ok`, `trap_sc2`, `trap_consistent`, `sc_not_conserved`.
* **C145** Self-consistent phonon iterations sample fresh symmetric pairs and evaluate each once. Proved for an even
  number of samples. With an odd number the calculation stops with an IndexError at its first iteration (samples_odd).
  The second continuation of a run stops with an error (second_restart_fails). Theorems: `samples_even`,
  `samples_disjoint`, `samples_nodup`, `samples_odd`, `sample_opposite`, `all_evaluated`, `reload_first`,
  `second_restart_fails`.
* **C147** Self-consistent phonon steps move the mean position to where the force vanishes and then stop. Proved for
  ik and nmik. Steepest descent never moves with the default options (sd_never_moves), rnmik does not end at the
  minimum of a harmonic potential (rnmik_never_ends, exact arithmetic), imaginary frequencies become real ones
  (imaginary_real). Theorems: `nmik_step`, `ik_exact`, `nmik_newton`, `precheck_skips`, `reference_stable`,
  `sd_never_moves`, `rnmik_never_ends`, `imaginary_real`.
* **C148** A self-consistent phonon calculation continues from its restart file. Holds in uninterrupted runs and for
  interruptions before the first move. It fails after a move: the samples of the first iteration are taken for samples
  of the present distribution (restart_biased), and three options go back to their defaults (options_back_iff,
  restart_sd_stops). Theorems: `later_average`, `restart_before_move`, `restart_weights`, `restart_biased`,
  `options_back_iff`, `restart_sd_stops`.
* **C149** Energies along a normal mode are recorded once each and belong to their displacement. Distinct
  displacements and energies proved for all cases; forces for one primitive cell; the end for surfaces that grow. With
  several primitive cells the force column is wrong (df_wrong, df_harmonic), and along a bond that can break the
  sampling never ends (bounded_never_ends). Theorems: `sweep_eq`, `sweep_ends`, `table_nodup`, `dv_right`,
  `table_right`, `df_right`, `df_harmonic`, `stop_iff`, `pass_ends`, `harmonic_ends`, `df_wrong`,
  `bounded_never_ends`.
* **C150** Independent mode free energies are right for harmonic modes and sum over the modes treated. Proved for runs
  from the first step without imaginary modes. The first basis can be accepted unconverged (first_accepted), repeated
  and continued calculations give other numbers (reload_differs, reload_offset, restart_drops), imaginary modes are
  not passed over (imaginary_treated). Theorems: `ham_eq`, `ham_symm`, `eigh_diagonal`, `harmonic_zero`,
  `gibbs_helmholtz`, `har_truncated`, `basis_converged`, `nzero_first`, `tiny_iff`, `imf_totals`, `first_basis_pos`,
  `first_accepted`, `reload_differs`, `restart_drops`, `reload_offset`, `imaginary_treated`.
* **C151** Maps of modes and pairs of modes hold the potential of those modes. Proved when all the modes passed over
  count as zero modes and the calculation was not stopped between the two files of a pair. Otherwise the samples of
  another mode are used or the step fails (indep_shifted, indep_fails, small_mode), the second file is never written
  (stopped_between), one mode cannot be repeated (one_mode), continued runs fail (restart_pairs). Theorems:
  `half1d_eq`, `map1d_aligned`, `map1d_range`, `inms_last`, `inms_at`, `disp_own`, `indep_own`, `pair_right`,
  `coupling_separable`, `coupling_axes`, `files_right`, `repeat_complete`, `mean_field`, `read_modes`,
  `indep_shifted`, `indep_fails`, `small_mode`, `one_mode`, `restart_pairs`, `stopped_between`.
* **C152** The vibrational self-consistent field uses thermal densities and reaches the mean field. The density is
  normalised, and right for one and two states; the mean field is right without mixing; the end is proved. With three
  or more states the higher ones get too much weight (rho_last, rho_three, rho_degenerate); with mixing the iteration
  goes to another mean field (mix_fixed, mix_right_iff, mix_contracts). Theorems: `couplings_loaded`, `rhoAdd_eq`,
  `rho_density`, `rho_two`, `mix_one`, `scf_end`, `rho_last`, `rho_three`, `rho_degenerate`, `mix_fixed`,
  `mix_right_iff`, `mix_contracts`.
* **C153** Committee reweighting gives the averages of every model of the committee and their spread. Proved for the
  averages. With several models of the observable, the uncertainty due to the potentials is not what it should be
  (multi_swapped, multi_agree, multi_wrong); a negative stride ends in an unset variable (negative_stride). Theorems:
  `total_is_variance`, `other_frames`, `rawW_eq`, `direct_right`, `weights_sum`, `direct_shift`, `direct_equal`,
  `cov_eq`, `cea_cov`, `cea_first_order`, `cea_expands`, `cea_mean`, `multi_swapped`, `multi_agree`, `multi_wrong`,
  `every_spec`, `negative_stride`.
* **C154** Merging the trajectories of the beads keeps whole frames in order. Proved for merging with equal lengths or
  an end; with unequal lengths an incomplete frame is written (mux_spec, mux_incomplete). Wrapping, following and
  averaging fail at once (wrap_fails, unwrap_fails, tag_fails). Theorems: `chosen_iff`, `muxFrame_all`,
  `muxFrame_part`, `mux_spec`, `mux_equal`, `mux_end`, `mux_incomplete`, `wrap_fails`, `unwrap_fails`, `tag_fails`.
* **C156** An instanton calculation starts along the imaginary mode, steps towards the right kind of stationary point
  and ends there. Proved for imaginary modes beyond 80 wave numbers, for Newton steps and for Lanczos steps of rate
  calculations (except when the second eigenvalue is exactly half the first, both negative). Lanczos steps of a
  splitting calculation leave the minimum (lanczos_splitting); a flat mode is accepted (flat_accepted); the end does
  not imply a small force (exit_on_slope). Theorems: `three_beads`, `imv_accepted`, `imv_mode`, `imv_lowest`,
  `imv_falls`, `kept_spec`, `newton_residual`, `newton_stationary`, `lanczos_direction`, `shorten_spec`, `exit_sound`,
  `flat_accepted`, `small_type_error`, `lanczos_splitting`, `exit_on_slope`.
* **C157** The quantities printed for an instanton rate are those of the closed ring polymer. Proved for equal spacing
  in imaginary time and when the mode that permutes the beads is the second one left. With other spacings the printed
  action is not the one that was optimised (discretization_ignored); when the permutation mode was already removed a
  vibration is lost (vibration_lost). Theorems: `dist2_weighted`, `double_symm`, `double_hessian`, `spring_ring`,
  `action2_BN`, `action1_ring`, `ring_modes`, `reactant_exact`, `reactant_limit`, `ts_limit`, `collapsed_consistent`,
  `second_left_out`, `rotation_consistent`, `discretization_equal`, `vibration_lost`, `discretization_ignored`.
* **C158** The quantities printed for a tunnelling splitting are those of a linear polymer with fixed ends. The
  formula for the reference is proved to be the fluctuation of the fixed-end polymer in closed form. It is applied to
  squared eigenvalues (squared_again), the soft mode is not the one left out (soft_mode_kept), and rows of zeros are
  added that stand for no mode (extra_zero_rows). Theorems: `linear_modes`, `linear_prod`, `reference_exact`,
  `rows_complete`, `file_holds_eigenvalues`, `squared_again`, `reference_too_small`, `soft_mode_kept`,
  `extra_zero_rows`.
* **C159** An instanton interpolated to more beads goes through the beads it had. Proved except that the new half is
  not the half of the new ring (half_not_mirrored). Theorems: `through_old_beads`, `refined`, `unchanged`,
  `mean_kept`, `stiffest_zero`, `hessian_elements`, `hessian_refined`, `hessian_symmetric`, `half_not_mirrored`.
* **C16** No MPI request is lost, duplicated or delivered to the wrong slot. No request is lost and every slot is
  used; the polling thread dies when requests of different sizes are batched (witness). Theorems: `mpi_no_loss`,
  `mpi_forward`, `mpi_no_idle`, `mpi_never_crashes_partial`, `mixed_sizes_crash`.
* **C160** Quantities that are printed in several ways agree, and depend only on the configuration and their
  arguments. Proved except for the argument bead of vcom, which is refused (vcom_bead_refused), and the reference of
  virial_fq, which is kept from the first output (reference_ignored, reference_matters). Theorems: `sckinop_even`,
  `sckinpr_primitive`, `od_sums`, `diagonal_sums`, `gyration_components`, `gyration_property`, `ti_consistent`,
  `ti_additive`, `sc_square_part`, `sckinpr_mass_derivative`, `sckinop_free`, `sckinop_translation`, `vcom_species`,
  `virial_first`, `virial_harmonic`, `reference_ignored`, `reference_matters`, `vcom_bead_refused`.
* **C162** Scripts that read a property file use the columns of the properties they look for. Proved for files in
  which all properties before have one column (column_iff); with wider properties before another column is read
  (wide_wrong). Theorems: `extract_found`, `column_iff`, `wide_wrong`, `verbose_fails`, `atomic_unit_fails`,
  `search_none`.
* **C163** Taking one property out of a property file prints that property. Proved for properties of one column whose
  name no other property's text begins with (prints_column); otherwise nothing is printed (wide_fails,
  prefix_refused). Names with characters that mean something in a pattern are not modelled. Theorems: `short_row`,
  `prints_column`, `wide_fails`, `prefix_refused`, `none_found`, `temperature_refused`, `find_one`, `find_wide`,
  `find_not`.
* **C164** Contracting a set of bead trajectories keeps centroid, cell and quantity. Frames, centroid, equal beads and
  refusal hold (shortest, centroid_partial, mismatch); cell and label do not (cell_as_bohr, cell_shrinks, label_lost).
  Rounding of the formats and names of atoms are not modelled. Theorems: `shortest`, `centroid_partial`, `mismatch`,
  `cell_as_bohr`, `label_lost`, `demo_runs`, `cell_shrinks`, `step_ok`, `loop_rows`, `b1tob2_scale`, `auto_atomic`,
  `autoUnits_is_word`.
* **C165** Molecules in a cavity feel one cavity, however many drivers are attached. Energies and forces belong
  together for any list of sound drivers (forces_belong) and contain one cavity if one driver evaluates the photons
  (one_cavity). Inactive atoms and missing dipoles: false (inactive_forces, missing_dipole). One bath, as the
  constructor sets up; sizes reported through softexit.trigger are an outcome. Theorems: `derOf_order`,
  `forces_belong`, `one_cavity`, `counted_twice`, `inactive_forces`, `photons_only_cavity`, `missing_dipole`,
  `wrong_size`, `run_sound`, `demo_sound`, `total_eq`.
* **C166** Converting a trajectory to another format keeps quantity, units and values. Proved for trajectories written
  by i-PI with any quantity but Eforces (converted_partial, same_numbers); false for files that announce no quantity
  (plain_fails) and for Eforces (eforces_renamed). One number stands for all numbers of data and cell. Theorems:
  `cell_default`, `converted_partial`, `same_numbers`, `plain_fails`, `eforces_renamed`, `keys_apart`, `found`,
  `convert_kept`, `loop_kept`, `search_some`, `search_none`, `accepted_factor`, `announced_nonempty`.
* **C167** The atoms that are asked for, and no others, are treated as identical particles. Proved for lists without
  repetition and without open paths (energy_partial, energy_beads_partial, forces_partial); false for lists in which
  an atom is repeated, which are accepted (repeated_accepted, repeated_frees_others, repeated_subtracted), and for the
  kinetic energy of the atom -1 (minus_one_is_all_bosons). Exchange energy and forces are those of C37 and C38.
  Theorems: `open_frequencies`, `index_resolved`, `label_resolved`, `restart_same`, `energy_partial`,
  `energy_beads_partial`, `forces_partial`, `never_distinguishable`, `kinetic_of`, `too_large`, `repeated_accepted`,
  `repeated_frees_others`, `repeated_subtracted`, `minus_one_is_all_bosons`, `total_eq`, `vspring_eq`, `lastIdx_eq`,
  `included_eq`, `looped_iff`, `looped_eq`.
* **C168** The Cartesian propagation of the free ring polymer. The statements about drift, reversibility, modes and
  momenta are proved for every positive number of small steps; false are the behaviour for a negative number
  (negative_freezes) and the use of dynamical masses (scaled_mass_ignored, drift_nonzero). Theorems: `drift_once`,
  `block_reversible`, `internal_energy_kept`, `internal_bounded`, `ring_modes`, `ring_energy_kept`, `centroid_kept`,
  `momentum_kept`, `negative_freezes`, `scaled_mass_ignored`, `drift_nonzero`, `revert_qcstep`, `flip_flip`,
  `verlet_reversible`, `iterate_reversible`, `along_add`, `along_verlet`, `shadow_verlet`, `shadow_iterate`,
  `along_revert`.
* **C169** Every structure of a batch gets the mean of what the models say about it. Proved for models that treat the
  structures of a batch independently and give the same properties (mean_of_models, batches_irrelevant). Too few rows
  are refused (missing_rows_noticed), too many are not (extra_rows_lost). Theorems: `unknown_property_fails`,
  `mean_of_models`, `batches_irrelevant`, `missing_rows_noticed`, `extra_rows_lost`, `missing_property_fails`,
  `mapM_ok`, `pieces_eq`, `length_flatten_eq`, `fixed_column`, `column_eq`, `store_eq`, `lookup_map`, `addD_eq`,
  `fold_eq`, `foldl_zip`, `meanS_eq`, `zipIdx_mapM`, `pieces_extra`.
* **C17** Forces on inactive atoms are zero and active forces land on the right atoms. Proved for increasing, valid
  selections; false of the code for permuted selections, out-of-range selections and a second system of different size
  (witnesses). Theorems: `selection_partial`, `whole_system`, `permuted_selection_wrong`,
  `invalid_selection_accepted`, `second_system_truncated`, `forces_sized`.
* **C170** The reported contributions of the force components are averages that add up to the total. Proved for all
  outputs but pot_component_raw, which is wrong for contracted components (raw_potential_wrong,
  raw_potential_partial); the sum rule needs level weights that add up to one (contributions_add_up_partial).
  Theorems: `forces_total`, `pot_component_average`, `forces_component_average`, `vir_component_average`,
  `raw_averages`, `raw_potential_scaled`, `raw_potential_partial`, `raw_potential_wrong`, `raw_bead`,
  `contributions_add_up_partial`, `raw_do_not_add_up`, `component_index`, `apply_smul`, `b2tob1One_smul`,
  `b2tob1_smul`, `pyGet_nat`, `pots_weighted`, `forces_weighted`, `virs_weighted`, `pots_raw`, `forces_raw`,
  `virs_raw`, `foldl_add`, `addUp_ok`, `comps_range`, `combine_sum`.
* **C171** The options of a driver reach its parameters. Proved for texts without commas and stray equals signs
  (options_read, parameters_set, refused_iff). Names the driver does not know are not refused (unknown_name).
  Theorems: `other_names`, `options_read`, `no_options`, `parameters_set`, `refused_iff`, `unknown_option_ignored`,
  `unknown_name`, `texts_changed`, `lookup_insert`, `mem_strip`, `readValue_strip`, `step_pos`, `strip_key`,
  `step_key`, `text_comma`, `fold_items`, `fill_ok`, `fill_error`, `any_lookup`, `lastFor_other`.
* **C172** Editing an input file changes exactly the tags that were asked for. Proved for the three kinds of edit
  (edit_correct, removed). An unknown kind is refused only if the path is found (mode_checked_late). Tags that python
  holds as one object in several places are not modelled. Theorems: `edit_correct`, `hit_full`, `hit_one`, `removed`,
  `mode_checked_late`, `empty_path`, `chains_append`, `chain_ne`, `chains_ne`, `within_cons`, `within_other`,
  `within_full_other`, `within_nil`, `within_empty`, `lift`, `kept_append`, `added_append`, `good_lift`,
  `editKid_good`, `editKids_good`.
* **C173** A calculator of the atomic simulation environment can be used as a driver and stays consistent. Proved for
  calculators with a stress and structures of the size of the template (results, virial_is_derivative); the forces are
  exact derivatives if the unit ev/ang is the quotient of the two other units (forces_are_gradient), which the table
  meets to seven digits (table_units). Theorems: `results`, `forces_are_gradient`, `virial_is_derivative`,
  `no_stress_refused`, `no_energy_no_forces`, `wrong_template`, `table_units`, `checked_tensor`, `energy_eq`,
  `sq_deriv`.
* **C174** Effective temperatures come from the perturbed free energy of the frames asked for. Proved whenever frames
  are left after the skipped ones. If more frames are skipped than there are, the simulation temperature is printed
  without a message (skipped_all); with exactly as many, nan; without frames or files an exception
  (nothing_to_average). Theorems: `readRow_some`, `readRow_none`, `loop_spec`, `eff_eq`, `effective_temperature`,
  `never_below`, `incomplete_ignored`, `order_of_files`, `harmonic`, `skipped_all`, `nothing_to_average`.
* **C175** The neighbour lists of the Fortran driver lose no pair. Proved for histories in one cell at least 2.4
  cut-offs wide. When the cell changes the cut-off is scaled with the volume while the lists keep the old radius:
  pairs within the cut-off are missing (missing_pair), also right after the lists have been made again, because the
  radius is changed after that (missing_after_refresh). Theorems: `mem_allPairs`, `build_spec`, `part_found`,
  `pairs_eq`, `dnint_eq`, `half_lt`, `sep_unique`, `sep_lattice`, `moved_little`, `runNb_fixed`, `complete_fixed`,
  `foldl_near`, `history_fixed`, `missing_pair`, `missing_after_refresh`.
* **C177** Mixtures of Lennard-Jones atoms mix the parameters of both atoms of a pair. Right for pairs of the same
  type. Both tests in the code are about the first atom of the pair, which has the smaller number, so that a pair of
  different types interacts like two atoms of the second type (mix_unlike). Theorems: `mix_like_partial`,
  `mix_unlike`, `mix_forces`.
* **C178** The model potentials of the Fortran driver return the forces of their energies. Proved for harm, harm3d,
  linear, morse, morsedia, eckart, MB, doublewell and noo3-h2o. Refuted for qtip4pf-efield (sign), doublewell_1D with
  several atoms, lepsm1 (sign and size), the shear of harm, and the friction with a number of atoms other than one or
  three. Theorems: `efield_neutral`, `leps_no_force`, `leps_ring`, `moved_eq`, `harm_gradient`, `harm_virial_partial`,
  `harm_virial_shear`, `harm3d_eq`, `harm3d_gradient`, `harm3d_virial`, `linear_gradient`, `morse_gradient`,
  `morsedia_gradient`, `doublewell_gradient`, `doublewell1D_gradient_partial`, `doublewell1D_last`,
  `doublewell1D_forces`, `doublewell1D_several`, `eckart_gradient`, `muellerBrown_gradient`, `muellerBrown_scaling`,
  `noo3_gradient`, `efield_pot`, `efield_forces`, `efield_flipped`, `efield_gradient_false`, `efield_virial`,
  `friction_partial`, `friction_two_unset`, `friction_outside`, `leps_flipped`, `leps_uphill`.
* **C179** The polymers of the Fortran driver have the springs, forces and virial of their energy. Bonds: proved for
  chains of two monomers or more, refuted for chains of one. Energy and forces: proved. Virial: proved up to a term
  made of variables that are never set, and refuted because of that term. Theorems: `bonded_iff_partial`,
  `bonded_single`, `polymer_split`, `bonds_fold`, `bond_derivative`, `polymer_driver`, `polymer_virial`,
  `polymer_virial_junk`.
* **C18** The energy offset is subtracted exactly once from what the caller sees. Proved for direct, socket and MPI
  force fields and for FFEval seen by a replica; false for an FFEval member of a committee (offset not subtracted) and
  for the cavity force field (subtracted twice). Theorems: `direct_once`, `eval_bead_once`,
  `committee_member_misses_offset`, `committee_member_wrong`, `committee_member_partial`, `cavph_offset`,
  `cavph_twice`.
* **C180** The committee of the Fortran driver returns the members and their mean. Members and mean: proved. Virial
  read from the extra string: proved for symmetric virials, refuted otherwise, together with what is lost. Theorems:
  `addLj_plus`, `ljGetall_times`, `committee_json`, `message_virial`, `extra_virial`, `extra_virial_partial`,
  `extra_virial_lost`.
* **C181** The command line of the Fortran driver reaches its parameters. Options and their order: proved. Numbers of
  parameters: proved but for the Morse, committee, noo3-h2o and water_dip_pol potentials, where it is refuted. How
  Fortran reads numbers is a parameter. Theorems: `start_parameters_set_partial`, `asks_init_iff`,
  `potential_by_name_partial`, `atoms_not_checked`, `pars_read`, `pars_overflow`, `command_line`, `order_irrelevant`,
  `nonsense_refused`, `count_checked_partial`, `morse_parameters`, `morse_unset`, `count_ignored`, `baths_deprecated`,
  `parameters_set_partial`, `morse_defaults`.
* **C182** A name selects the python potential that declares it. The parts about the table and the selection hold as
  stated. Three documented details fail and are refuted: strings given below the top level are taken too and win; a
  file with one of the strings gives that one; a custom file without a class ends in an UnboundLocalError. Theorems:
  `walk_levels`, `scan_last`, `scan_toplevel_partial`, `scan_toplevel_fails`, `scan_half`, `drivers_lookup`,
  `drivers_sorted`, `drivers_fail_iff`, `load_invalid_iff`, `load_registered`, `load_custom`, `missing_class_partial`,
  `missing_class_custom`.
* **C183** The dipole driver honours the options it is given. The merging of defaults and the evaluation hold as
  stated. Refuted: a dipole file without a file for the Born charges stops the driver, restart removes nothing, and
  too few arguments end in an AttributeError; a value in place of a dictionary hides the defaults below it and stops
  the driver. Theorems: `copy_lookup`, `user_kept`, `default_filled`, `user_blocks`, `no_options`, `settings_partial`,
  `settings_fail`, `few_arguments`, `two_arguments`, `dipole_file_alone`, `dipole_file_misreported`, `off_iff`,
  `evaluation`, `cell_refused`, `restart_keeps`.
* **C185** The radial distribution function with perturbed path integrals. That all frames enter is refuted: the files
  are written at multiples of one hundred frames only, so that a shorter trajectory gives nothing and up to ninety
  nine frames at the end are lost (`short_nothing`, `tail_ignored`); it holds for multiples of one hundred
  (`used_all_partial`). Exact real numbers; the closest image and the squared forces of a frame are free. Theorems:
  `bin_iff`, `bin_lt`, `pair_step`, `frame_counts`, `count_total`, `acc_sum`, `frames_used`, `short_nothing`,
  `used_all_partial`, `tail_ignored`, `shell_pos`, `shell_edges`, `rdf_mean`, `rdf_total`, `correction`,
  `pairs_length`, `no_self`.
* **C186** How much is printed, in a run and after restarts. That every level can be given and comes back is refuted
  for the highest one, `trace`: it is neither an option of the input file nor of the command line (`no_trace`), and if
  set from python the restart file has `debug` (`trace_lost`). That an invalid value is an error is refuted while the
  level is locked (`locked_no_error`). All else is proved. Theorems: `set_ok`, `shown_eq`, `printed_iff`, `nested`,
  `invalid`, `locked_stays`, `locked_no_error`, `level_bound`, `stored_same`, `trace_lost`, `load_iff`, `load_prints`,
  `no_trace`, `last_wins`, `reports_iff`, `timings_complete`.
* **C187** The python double wells with explicit baths. Refuted: both potentials fail for every structure, as the
  class of the bath has no `__call__` (`dw_bath_fails`) and the second gives its parameters as one argument
  (`ddw_fails`, `ddw_names_fail`); the coupling of the wells is not the documented one (`coupling_not_square`).
  `dw_bath_partial` and `ddw_partial` prove that energy and forces belong together once the bath can be called;
  `well_depth` is for no shift. Theorems: `dw_bath_fails`, `ddw_fails`, `ddw_names_fail`, `omega_pos`,
  `reorganization`, `well_force`, `bath_force_any`, `dw_bath_partial`, `ddw_partial`, `coupling_not_square`,
  `well_depth`.
* **C188** Python potentials evaluated in batches. Proved for the base class. For the ideal gas `gas_separate_iff`
  gives the exact condition: there is a structure and all have the same number of atoms; `gas_wrong_size` and
  `gas_empty` are the counterexamples. What is done with one cell and a list of positions is left out, and so is the
  sharing of memory between the results of the ideal gas. Theorems: `batch_separate`, `batch_mismatch`, `gas_single`,
  `gas_separate_iff`, `gas_wrong_size`, `gas_empty`.
* **C19** Every request queued to a direct force field is eventually evaluated. Threaded mode proved for every
  history; without threads an incomplete batch is never evaluated (proved). Theorems: `evaluated_at_most_once`,
  `threaded_all_done`, `not_threaded_hangs`, `not_threaded_partial`.
* **C22** Exit callbacks run exactly once, in registration order, however many exit requests arrive. Holds for one
  exit request and callbacks raising only RuntimeError; two concurrent requests run callbacks twice, a second signal
  or another exception aborts the rest (witnesses). Theorems: `callbacks_once_partial`, `callbacks_complete_partial`,
  `callbacks_run_twice`, `second_signal_aborts`, `fatal_callback_stops`, `callbacks_once_race_partial`.
* **C23** Kill and restart loses no output and continues the same trajectory. Proved for any number of soft
  interruptions served by the main thread outside store(), and for any number of hard kills when outputs flush every
  row and the checkpoint is the last output. Otherwise false (witnesses). Theorems: `soft_restarts_partial`,
  `hard_kills_partial`, `repetition_bounded`, `restart_adds_later_rows`, `kill_loses_buffered_rows`,
  `kill_loses_row_after_checkpoint`, `kill_during_checkpoint`, `finished_step_not_printed`, `exit_in_store_loses_row`,
  `exit_thread_loses_row`.
* **C24** Outputs are written exactly on the steps selected by the stride. Rows exact for every stride and start.
  Columns right for the whole property table except atom_x_path and atom_f_path and atom index -1 (witnesses).
  Theorems: `restart_rows_exact`, `fresh_rows_exact`, `columns_right`, `table_honest_partial`, `path_columns_wrong`,
  `path_shifts_columns`, `negative_atom_wrong`, `beads_written`.
* **C26** Values written to a checkpoint are read back unchanged. All types round trip for plain contents, every
  length; false of the code for strings with quotes, commas, brackets, trailing empty strings and number-like strings
  in dictionaries (witnesses). Theorems: `bool_round_trip`, `int_round_trip`, `string_round_trip`,
  `float_text_round_trip`, `tuple_round_trip`, `array_round_trip`, `int_array_round_trip`, `bool_array_round_trip`,
  `float_array_round_trip`, `string_array_partial`, `quote_lost`, `trailing_empty_lost`, `comma_splits`,
  `bracket_ends`, `value_stable`, `dict_round_trip`, `dict_stable`, `number_string_changes`, `comma_string_fails`,
  `second_write_same`, `all_writes_same`, `first_write_error`, `restart_not_exact`, `nearest_range`, `nearest_stable`.
* **C27** XML written by i-PI parses to the same tree. Every tree of plain names and texts; the writer escapes
  nothing, so quotes in attributes and '<' in texts break the file (witnesses). Theorems: `xml_round_trip`,
  `input_round_trip`, `second_write_same`, `accepted_iff`, `unbalanced_rejected`, `quote_breaks`, `less_than_breaks`.
* **C29** JSON and XML input formats describe the same simulation. Same simulation when no level mixes two kinds of
  repeated sections; otherwise sections of different tags are reordered (witness). Trees of python objects; the JSON
  text itself is C49's loads_dumps. Theorems: `json_round_trip`, `document_round_trip`, `conversion_preserves`,
  `parse_tidy`, `json_same_contents`, `json_same_simulation_partial`, `order_lost`, `value_child_lost`,
  `contents_reordered`, `document_wrapped`, `document_unwrapped`.
* **C31** Trajectory files are read back frame by frame. Every number of frames and atoms. False of the code for cut
  files (last frame padded with zeros or a wrong number), a bad count line ends reading silently, names are cut to
  four letters, frames without atoms fail (witnesses). Theorems: `xyz_round_trip`, `xyz_exact`, `cut_file`,
  `cut_frame_accepted`, `bad_count_ends_silently`, `cut_number_wrong`, `empty_frame_fails`, `long_name_cut`.
* **C32** PDB coordinates are read from the columns they were written to. False of the code: the reader is one column
  off. Proved right exactly for coordinates of at most seven characters (above -100, below 1000), any number of
  frames. Theorems: `pdb_round_trip_partial`, `atom_right_iff`, `cut_frame_accepted`, `sign_lost`,
  `leading_digit_lost`, `neighbour_digit_added`, `negative_neighbour_fails`, `path_file_fails`,
  `many_atoms_name_lost`.
* **C33** Random numbers depend only on the stored state and fill the whole array. One thread, or below 100 entries
  per thread: proved. Otherwise false of the code: numbers are drawn into a copy and the caller gets uninitialised
  memory; a restart with more threads depends on the clock. Theorems: `saved_text_exact`, `restart_state`,
  `restart_fewer`, `restart_more`, `replay_partial`, `replay_one_thread`, `fresh_numbers_partial`, `copy_filled`,
  `gens_after`, `threaded_returns_junk`, `more_threads_not_reproducible`.
* **C35** Ring-polymer contraction is consistent between positions and forces. All closed or all open: proved for all
  bead numbers. False of the code for systems with both: forces of closed atoms are expanded with the open path matrix
  (witness). For open paths the contraction keeps the stiffest modes (witness). Theorems: `same_beads`,
  `centroid_kept`, `mean_force_kept`, `total_potential`, `contract_expand_partial`, `expand_contract_partial`,
  `virtual_work_partial`, `force_is_gradient_partial`, `slow_modes_kept`, `mixed_paths_wrong`, `open_keeps_stiffest`.
* **C38** Bosonic connection probabilities are a probability distribution and the spring forces balance. Proved for
  two or more beads. With one bead the code raises IndexError (one_bead_fails), so the property is false there.
  Theorems: `connection_probability`, `prob_nonneg`, `prob_sum_successors`, `prob_sum_predecessors`,
  `force_is_minus_gradient_partial`, `total_force_zero_partial`, `one_bead_fails`, `follows_unique`.
* **C41** Exchanging Hamiltonian weights takes effect. False of the code: the weights are a plain attribute, so new
  weights never reach the cached scaling (weights_not_used), and scaled forces never act on the dynamics
  (scaled_forces_never_act). Proved: the weights given before the first evaluation are used. Theorems:
  `weights_frozen`, `weights_used_partial`, `weights_not_used`, `scaled_forces_never_act`, `unit_weights_no_kick`,
  `scaled_force_missing`, `explicit_bias_off`.
* **C43** Momentum constraints are enforced and their energy is accounted for. Enforcement and idempotence proved for
  all cases. The energy balance is proved for a fixed centre of mass, constrained centroids and fixed degrees of
  freedom listed once; it is false when one is listed twice (fixed_twice_fails) and for open paths with scaled masses
  (fixed_open_fails). Theorems: `com_zero`, `com_idem`, `com_econs`, `fixed_zero`, `fixed_idem`,
  `fixed_econs_partial`, `pconstraints_idem`, `pconstraints_econs_partial`, `pconstraints_zero`, `centroid_zero`,
  `centroid_econs`, `fixed_twice_fails`, `fixed_open_fails`.
* **C45** Reading the combined extras does not alter the per-component extras. False of the code whenever two
  components return raw strings: the total is appended to the list of the first one. Proved when at most one component
  does. Theorems: `component_altered`, `component_altered_witness`, `total_altered_witness`, `reads_harmless_partial`,
  `total_twice`, `total_raw`.
* **C46** Forces correspond to the positions at the time they are read. False of the code: a pending request is not
  checked against the positions. Proved for histories in which a queued evaluation is read before the positions
  change. Theorems: `reads_current_partial`, `queued_then_moved`, `queued_then_moved_witness`,
  `right_after_next_move`.
* **C48** Soft exit writes a checkpoint of the last completed step. Right for exits served by the main thread outside
  store(), and by the monitor thread while the main thread is inside its loop; otherwise false (witnesses). Theorems:
  `exit_in_main_partial`, `exit_after_step`, `rollback_bounded`, `exit_thread_partial`, `exit_in_store_wrong`,
  `exit_in_store_loses_row`, `exit_thread_loses_row`, `exit_thread_mislabels`, `exit_thread_saves_half_step`.
* **C49** Any extra string returned by a driver is accepted. JSON objects, other texts and blanks proved; JSON that is
  not an object, or has a field raw, raises (witnesses). Theorems: `extra_accepted_iff`, `extra_contents`,
  `blank_extra`, `plain_text_extra`, `dumped_extra`, `loads_dumps`, `number_extra_fails`, `list_extra_fails`,
  `raw_field_fails`, `some_extra_fails`.
* **C50** Property names with arguments and units are parsed unambiguously. Well-formed keys proved; some malformed
  keys are accepted (witnesses). Theorems: `key_parsed`, `key_parsed_swapped`, `getkey_parsed`,
  `open_arguments_rejected`, `closed_before_opened_rejected`, `open_unit_in_name`, `stray_brace_accepted`,
  `trailing_text_ignored`.
* **C51** Taking a reshaped view of a held array does not change what is read. False of the code for out-of-date
  arrays (negation proved); proved for up-to-date ones. Theorems: `view_makes_stale`, `view_harmless_partial`,
  `view_after_read`.
* **C52** The driver initialisation string may contain any text. False of the code for every non-ASCII string
  (proved); the ASCII case is proved. Theorems: `init_ascii_partial`, `init_nonascii_desync`, `init_nonascii_witness`.
* **C53** Message headers are recognised however the network cuts them, and a dead driver is noticed. False of the
  code (witnesses proved); holds when the header is delivered in one piece. Theorems: `header_cut_hangs`,
  `status_cut_disconnects`, `eof_hangs`, `header_whole_partial`, `status_whole_partial`.
* **C54** A malformed reply from one driver does not take the scheduler down. False of the code (proved for every
  state); a plain disconnection is handled. Theorems: `malformed_reply_kills`, `malformed_reply_reachable`,
  `select_error_kills`, `disconnect_handled_partial`.
* **C55** A client that connects and vanishes does not stall the scheduler. False in threaded mode (infinite loop
  proved); holds in consolidated mode. Theorems: `dead_client_accepted`, `threaded_loop_never_ends`,
  `vanished_client_stalls`, `consolidated_rounds_bounded_partial`.
* **C56** Driver and i-PI agree on the number of structures per message. With batching: proved for every user string.
  Without: holds unless the user's string itself contains a batch_size entry (witness). Theorems: `batch_announced`,
  `no_batch`, `user_batch_desync`.
* **C57** The driver process ends when i-PI goes away. EXIT ends the loop; a closed connection makes it spin forever
  (proved). Theorems: `exit_ends_partial`, `closed_connection_spins`.
* **C58** Every request to a rotation-averaging force field is answered. False of the code (lost request witness);
  proved when the poll does not interleave with queueing. Theorems: `rotation_request_lost`,
  `rotation_request_answered_partial`, `pass_skips`, `pass_progress`, `passes_answer_all`.
* **C59** Committee weights have the documented effect. False of the code: weights are stored and never used.
  Theorems: `default_weights_partial`, `weights_ignored`, `weights_wrong`.
* **C60** Extras of every committee member are passed on. False of the code for more than one member with extras.
  Theorems: `extras_last_only`, `extras_dropped`, `extras_single_partial`.
* **C62** Unit tables are mutually consistent. False of the code for pascal, bar and atmosphere (3e-5 relative,
  proved); the calorie is the International Table one. Theorems: `tables_consistent_partial`, `pascal_inconsistent`,
  `calorie_is_international`.
* **C63** Units announced in a trajectory are used when it is read. Proved for every quantity and all unit names of
  letters and underscores; false for ev/ang, m/s, j/mol, cal/mol (read as atomic units) and for PDB files of
  quantities other than positions (read as angstrom). Theorems: `announced_units_found`, `units_used_partial`,
  `other_units_ignored`, `unrecognised_units`, `forces_wrong`, `explicit_units_used`, `pdb_positions_found`,
  `pdb_centroid_wrong`, `dimension_keys`.
* **C64** A binary trajectory gives back all its frames. One frame reads back; false of the code for more than one
  (proved: at most one frame from any file). Theorems: `one_frame_partial`, `more_frames_lost`, `more_frames_wrong`,
  `at_most_one`, `two_frames_nothing`.
* **C66** Every ensemble advances the whole system by the time step. Proved for all ensembles but nvt-cc, where it is
  false: its step ignores the splitting (thermostat for 2 dt with baoab) and the multipliers (positions for dt/n).
  Theorems: `full_step_partial`, `sc_second_part`, `nvtcc_obabo_partial`, `nvtcc_baoab_thermostat`, `nvtcc_drift`,
  `nvtcc_not_full`.
* **C67** The reported ring-polymer energy is the one the propagation conserves. True for closed paths and for open
  paths without mass scaling. False for open paths with scaled masses: the reported kinetic energy uses the mass
  factors of closed paths (open_energy_lost). Theorems: `true_energy_kept`, `vspring_eq`, `kin_eq`,
  `reported_energy_partial`, `open_energy_lost`, `reported_energy_fails`.
* **C68** The propagators follow the equations of motion of the dynamical masses. True for the exact propagator and
  for the Cayley propagator without mass scaling; false for the Cayley propagator with every mass factor other than
  one (cayley_not_follows). Theorems: `exact_follows`, `cayley_follows_partial`, `cayley_rate`, `cayley_not_follows`.
* **C69** Replica exchange leaves the auxiliary momenta of coloured-noise thermostats distributed at the new
  temperature. False of the code: the auxiliary momenta are scaled with the ratio of the temperatures instead of its
  square root. Proved for equal temperatures. Theorems: `gle_ratio`, `gle_kept_partial`, `gle_not_kept`.
* **C70** The minimum image distance is the shortest one within the documented cut-off. Proved for orthorhombic cells
  and, in triclinic cells, for half the documented cut-off; false for the documented one (min_not_shortest). Theorems:
  `min_is_image`, `min_orthorhombic`, `min_within_half_width`, `min_is_shortest`, `min_not_shortest`.
* **C71** Global thermostats count the momenta that are free to move. Proved: the canonical distribution is kept if
  and only if the count is the dimension of the space of allowed momenta (svr_canonical_iff), and the counts of svr
  and pile_g are right. False of the code for nm_gle_g with a fixed centre of mass, for pile_g inside a combined
  thermostat, and when a fixed degree of freedom is listed twice. Theorems: `svr_mean`, `svr_canonical_iff`,
  `finrank_comSpace`, `finrank_fixSpace`, `svr_dof_com`, `svr_dof_fix`, `pileG_dof_com`, `pileG_dof_fix`,
  `pileG_com_canonical`, `nmgleg_com_fails`, `multi_com_fails`, `svr_dof_twice`.
* **C72** The isotropic barostat step follows its equations of motion and preserves phase space volume. Exact real
  numbers. Proved for every piston that moves; for a piston exactly at rest the code divides zero by zero
  (iso_step_at_rest). The pressure update is the exact joint solution at the innermost level and without bias: at
  other levels and with bias the coupling terms are left to the splitting. Theorems: `iso_step_exact`,
  `iso_step_group`, `iso_step_reversible`, `iso_volume`, `iso_step_at_rest`, `iso_kick_exact`, `iso_step_preserves`,
  `iso_kick_preserves`.
* **C74** The flexible-cell barostat step follows its equations of motion. Proved when one diagonal velocity is not
  zero and the numerical library returns an eigendecomposition. False of the code when the three diagonal velocities
  are zero: a factor of the time step is missing (ani_step_not_exact). Theorems: `ani_step_exact_partial`,
  `ani_step_zero_velocity`, `ani_step_not_exact`, `taylor_terms`.
* **C75** The conserved quantity of flexible-cell dynamics is conserved. ani_rate gives the rate of change in closed
  form for every mask and external stress; it vanishes for diagonal cell velocities. False of the code for shearing
  cells (ani_not_conserved) and when off-diagonal entries are held (ani_not_conserved_fixed). Theorems: `ani_rate`,
  `ani_conserved_partial`, `ani_not_conserved`, `ani_not_conserved_fixed`.
* **C76** Held cell entries and a constrained volume do not change. Proved for the obabo splitting: diagonal entries,
  the volume, rectangular shape, and zero xy and yz. False of the code for the baoab splitting (baoab_moves_fixed,
  baoab_moves_volume), for non-zero off-diagonal entries (fixed_entry_scaled) and for xz held alone (fixed_xz_mixed).
  Theorems: `fixed_diagonal`, `fixed_volume`, `fixed_shape`, `fixed_zero_entry`, `named_entry`, `named_offdiagonal`,
  `baoab_moves_fixed`, `baoab_moves_volume`, `fixed_entry_scaled`, `fixed_xz_mixed`.
* **C77** Exchanges of atoms sample the right distribution and are accounted for. Isotope exchanges: proved for closed
  paths; false of the code for open paths, whose spring energy is not the one compared (open_not_conserved). Position
  swaps: proved when the spring energy does not change (one bead, or equal masses); false of the code otherwise, since
  springs are left out of the acceptance (positions_not_balanced). The bias is left out of the acceptance of position
  swaps as well. Theorems: `pick_uniform`, `accept_probability`, `metropolis`, `exchange_spec`, `exchange_kin`,
  `exchange_spring`, `exchange_twice`, `momenta_volume`, `attempt_spec`, `step_econs`, `exchange_balanced`,
  `swapped_twice`, `positions_attempt`, `positions_econs_partial`, `positions_balanced_partial`, `open_not_conserved`,
  `positions_not_conserved`, `positions_not_balanced`.
* **C78** Every exchange step ends. Proved when two different species are present. False of the code otherwise: the
  search for a partner of another species never ends (pick_stuck). Theorems: `pick_ends_partial`, `pick_stuck`.
* **C80** A replay shows every frame of the trajectory once, in order. Proved for files with whole blocks and without
  a units attribute. False of the code for an incomplete last block, which leaves a mixture of two frames (one_cut),
  and when both the file and the input name the units, or for pdb files with units: positions are converted twice
  (units_twice). Theorems: `restart_same`, `one_frames`, `one_ends_partial`, `one_cut`, `each_frames`, `each_ends`,
  `wrong_count`, `units_partial`, `units_plain`, `units_twice`.
* **C81** Adding metadynamics hills does not change the conserved quantity. Proved for weights that add up to one and
  biases evaluated on the centroid. False of the code for other weights (weight_not_conserved), for biases evaluated
  on several beads (beads_not_right), and without compute_work (no_work_not_right). Theorems: `deposit_econs`,
  `step_econs_partial`, `step_right_partial`, `step_untouched`, `step_updates`, `weight_not_conserved`,
  `beads_not_right`, `no_work_not_right`, `shared_twice`.
* **C82** Every option given in the input has its effect. Proved for any table of options, and by evaluation for which
  of the 50 transcribed blocks it holds. False of the code for ffdirect, ffdmd, ffcommittee and others, which ignore
  activelist, for ffdebye, ffplumed, ffyaff and ffsgdml, which ignore parameters, and for ffcavphsocket, which ignores
  max_workers, consolidate_messages and batch_size. The instanton, constrained and driven dynamics blocks and the
  top-level simulation block are not transcribed. Theorems: `option_reaches`, `option_ignored`, `all_reach_iff`,
  `tables_wf`, `ignored_options`, `options_reach_partial`, `direct_active_ignored`, `committee_active_ignored`.
* **C83** A restarted simulation has the parameters of the one it continues. Proved for any table of options, and by
  evaluation for which blocks it holds. False of the code for minimisers (line search options with bfgs, bfgstrm and
  lbfgs; previous position, energy and force, which the next step recomputes), planetary (number of beads, fixed
  atoms), self-consistent phonons (weight threshold and checks), neb and string (number of L-BFGS corrections, not
  used by the engine), and the Al-6xxx kinetic Monte Carlo (optimizer, number of evaluators). Theorems:
  `restart_kept`, `restart_default`, `restart_same_iff`, `forgotten_options`, `restart_same_partial`,
  `planetary_beads_lost`, `planetary_fixed_lost`, `bfgs_linesearch_lost`, `scp_threshold_lost`.
* **C84** The forces of the built-in potentials are minus the gradient of their energy. Proved for harmonic, Morse,
  spherical and pair Lennard-Jones, bath, driven pair distances (with virial) and cavity potentials, for the double
  well with one atom and for Debye crystals with a symmetric matrix. False of the code for the spline potential, whose
  force along x lacks a factor of five (spline_force_wrong); the double well with several atoms returns an array
  instead of an energy (well_many_atoms); the double well with friction ignores the parameters of the well
  (friction_well_ignored); the harmonic potential ignores the second of two spring constants; Debye matrices are not
  checked for symmetry (debye_force_iff). Interfaces to other programs are not modelled. Theorems: `unique`,
  `harmonic_force`, `harmonic_batch`, `harmonic_second_ignored`, `harmonic_three`, `well_force_partial`,
  `well_many_atoms`, `well_barrier`, `friction_well_ignored`, `friction_not_given`, `sfun_deriv`, `friction_eq`,
  `bath_force`, `morse_force`, `debye_force`, `debye_force_iff`, `spline_force_partial`, `spline_force_wrong`,
  `sphere_force`, `lj_force`, `dmd_force`, `dmd_virial`, `cavity_force_der`, `cavity_force`, `cavity_coupled`,
  `energy_conserved`.
* **C85** The exact line search ends on the minimum and never raises the energy. Exact ordered field. Proved: the
  bracket, and the minimum of single-valley energies. False of the code: bracketing never ends on an energy that keeps
  falling (bracket_endless), a search out of passes leaves the atoms at its last trial, which can be higher than the
  start (search_spent_rises), and a move of length zero freezes the optimiser (sd_frozen). Theorems: `bracket_spec`,
  `bracket_encloses`, `bracket_endless`, `minBrent_endless`, `search_lowers_partial`, `best_known_lowers`,
  `search_finds`, `search_finds_all`, `sd_slope_sign`, `sd_lowers`, `sd_frozen`, `cg_downhill`, `cg_conjugate`,
  `adapt_between`, `lineMap_deriv`, `bowl_valley`, `bowl_lowest`, `bowl_slope`, `search_spent_rises`.
* **C86** Every BFGS direction is downhill and every step lowers the energy. Exact real numbers. Proved: positive
  definiteness, secant condition and downhill directions for every energy and any number of steps; lower energy when
  the line search ends on sufficient decrease. False of the code for the ending on a small step, which takes the step
  without looking at the energy (bfgs_step_rises). Theorems: `bfgs_form`, `bfgs_symm`, `bfgs_secant`, `bfgs_posdef`,
  `bfgsHess_posdef`, `limit_spec`, `minApprox_spec`, `backtrack_range`, `backtrack_parabola`, `backtrack_cubic`,
  `minApprox_ends`, `minApprox_small`, `minApprox_blind`, `bfgs_downhill`, `bfgs_lowers_partial`, `bfgs_step_secant`,
  `bfgs_small_keeps`, `bfgs_step_rises`.
* **C87** L-BFGS follows the BFGS direction of the latest steps, downhill. Exact real numbers. Proved: the two loops
  are BFGS for stored steps of positive curvature, what is stored, and downhill directions on convex energies. False
  of the code elsewhere: the direction turns uphill in concave regions (lbfgs_turns_uphill), the guard against uphill
  directions uses the steepest uphill direction (lbfgs_reset_uphill), and after a line search ending on a small step
  the direction is zero for ever (lbfgs_small_zero, lbfgs_frozen). Theorems: `twoLoop_bfgs`, `twoLoop_secant`,
  `twoLoop_downhill`, `scaling_pos`, `store_latest`, `lbfgsNew_downhill`, `lbfgsStep_good`, `lbfgs_downhill_partial`,
  `lbfgs_reset_uphill`, `lbfgs_small_zero`, `lbfgs_frozen`, `lbfgs_turns_uphill`.
* **C88** Trust-radius, damped and FIRE steps stay within their limits and go downhill. Exact real numbers; the
  eigendecomposition is given. Missing: short trust-radius steps are accepted without looking at the energy. False of
  the code: the acceptance loop never ends at a stationary point (trmLoop_endless), the trust-radius Hessian becomes
  indefinite for negative curvature (trmUpdate_indefinite), and the correction of an uphill FIRE velocity is not
  limited (fire_unlimited). Theorems: `expected_predicted`, `shifted_best`, `shifted_lower`, `trmSearch_bounds`,
  `minTrm_lower`, `minTrm_best`, `minTrm_zero_modes`, `minTrm_newton`, `trmPass_accept`, `trmLoop_lowers_partial`,
  `trmLoop_minTrm`, `trm_reject_halves`, `newRadius_spec`, `trmLoop_endless`, `minTrm_zero`, `direct_update`,
  `trmUpdate_spec`, `trmUpdate_indefinite`, `damped_curvature`, `damped_posdef`, `damped_secant`, `dampLimit_spec`,
  `fireRun_ok`, `fireMove_spec`, `fireVel_down`, `fireStep_spec`, `fire_unlimited`.
* **C89** The search for a transition state climbs along one mode and descends along all others. Exact real numbers;
  the eigendecomposition is given. False of the code on the boundary d1 = d0 / 2 < 0 and for a double lowest
  eigenvalue, where it divides by zero (shift_singular); the limit of the minimising step holds for the lowest mode
  only (min_overlong). Theorems: `shift_between`, `saddle_direction`, `shift_singular`, `min_direction`, `min_lowest`,
  `min_overlong`, `min_newton`, `mode_work`, `min_downhill`, `powell_spec`.
* **C90** A geometry optimisation ends only when it is converged, and then stays. Proved for an arbitrary optimiser
  and forces that are a function of the positions. False of the code: that every run ends; a stuck optimiser with
  forces above the tolerance runs on for ever (geop_stuck, lbfgs_never_ends). Theorems: `amax_le`,
  `converges_relaxed`, `geop_end`, `geop_stays`, `geop_notices`, `geop_stuck`, `lbfgs_never_ends`.
* **C93** Cleaning a Hessian leaves out the modes of zero frequency and keeps all others. Exact real numbers. Proved
  for spectra without imaginary frequencies between 0.01 and 4 reciprocal centimetres; false of the code with one
  (clean_drops_soft). Theorems: `wavenumber_mono`, `split_down`, `clean_exact_partial`, `clean_drops_soft`.
* **C95** The sum rule for molecules removes translations and rotations and nothing else. Exact real numbers; the
  eigenvectors of the inertia tensor are given. Proved for atoms not on a line and orthogonal axes, which holds for
  three different moments. False of the code: linear molecules give no numbers (poly_linear), asr lin ends with an
  exception (lin_nothing), and for equal moments the library routine may return axes which are not orthogonal
  (poly_oblique). Theorems: `poly_removes_partial`, `axes_orthogonal`, `poly_removes_distinct`, `poly_linear`,
  `poly_oblique`, `lin_nothing`.
* **C96** Refined phonon calculations print what they computed. Proved: what is computed is exact. False of the code:
  the computed matrix is overwritten by the given one (nm_discards), the output shift has no effect
  (output_shift_lost), and the full Hessian has half the force constant between a free and a fixed coordinate
  (full_half). Theorems: `nm_discards`, `nmRow_exact`, `nm_exact_partial`, `nm_length`, `nm_distance`, `enm_energy`,
  `enm_bound`, `output_shift_ignored`, `output_shift_lost`, `full_half`.
* **C97** A Hessian calculation with friction can be killed and started again. Proved for kills that do not leave
  Hessian files without a friction file. False of the code there (friction_lost). Theorems:
  `friction_restart_partial`, `friction_lost`.
* **C98** Every kind of motion offered by the input can be created and runs past its first step. The interplay of
  keyword arguments and attributes is modelled, not what the steps compute. Proved for all modes but three. False of
  the code for constrained_dynamics (constrained_fails, constrained_never), planetary and al-kmc (finished_missing).
  Theorems: `call_ok`, `motion_runs_partial`, `multi_runs_partial`, `constrained_fails`, `constrained_never`,
  `finished_missing`, `multi_fails`.
* **C99** The average of the printed temperature is the temperature of the ensemble. Proved for every single motion,
  selection of atoms and beads or modes, but for the cases where the code is wrong: a normal mode of a
  centroid-constrained run with fixed atoms (temp_cc_centroid, temp_cc_mode), lists of motions with fixed coordinates
  (temp_multi_fails) or in which one member does not fix the centre of mass (temp_multi_com), and the total kinetic
  energy with open paths and scaled masses (kin_open). Theorems: `com_mean`, `held_all`, `held_mode`,
  `temp_mean_partial`, `temp_bead_mean`, `temp_cc_centroid`, `temp_cc_mode`, `temp_multi_fails`, `temp_multi_com`,
  `kin_open`, `equil_exists`.

## Scope of the properties proved in full

* **C01** Reading a computed quantity never returns stale data. Refinement of the cached state machine to a cache-free
  specification, all histories, all networks with exact (or merely covering) declarations.
* **C03** Synchronised representations always agree with the last one written. All histories, all groups, all
  conversions.
* **C04** Nothing is recomputed unless an input changed. Ghost evaluation counters.
* **C06** Message framing does not depend on how the network cuts the stream. recvall, the loops of the bulk path
  (same loop) and the driver's recv_data. The driver's loop is exact only on sockets without timeouts, which is how
  the driver creates them; driver_recv_timeout_corrupts shows what would happen otherwise.
* **C07** Forces arrive exactly as the driver computed them. float64 values are identified with their bit patterns;
  sends are complete (sendall).
* **C09** No force request is lost or evaluated twice at once by the consolidated socket scheduler. Consolidated mode,
  every history of queue/release/update/dispatch/collect/select error. Crash freedom needs well-formed replies and no
  failing select (see C54). Queue and release interleave between scheduler phases, not inside one.
* **C100** The two kinetic energy estimators have the same average. Closed paths of distinguishable particles. Exact
  real arithmetic.
* **C102** The displaced path estimator averages to the end-to-end distribution. Exact real arithmetic; the cell of
  the copy used for displaced paths is that of the system (it is not when the cell changes).
* **C104** Suzuki-Chin forces are minus the gradient of the Suzuki-Chin potential. Exact real arithmetic; no
  contraction, finite difference parameters of one sign and not zero (see C105).
* **C106** The Suzuki-Chin energies average to the derivatives of the partition function. Exact real arithmetic;
  closed paths. The Suzuki-Chin forces are those of the Suzuki-Chin potential (C104).
* **C109** An initialisation instruction sets exactly the part of the system that it selects. Exact real arithmetic;
  the content of the files is given (C31, C32 for the parsing). Velocities after the masses are known (see C110).
* **C11** A client evaluates at most one job (or batch) at a time and replies go to the request that asked. All
  histories, single and batched.
* **C112** Thermal momenta have the requested temperature. Exact real arithmetic; the generator is any white noise of
  unit variance. Closed paths: the auxiliary normal modes used by the code have no open paths.
* **C120** The internal modes of a path move with the frequencies asked for. For the exact propagator; what the Cayley
  propagator does with scaled masses is in C42 and C68, and that a change of the temperature does not refresh the
  factors is in C02. The text of the input says that with wmax-cmd the modes coincide at frequency wmax: what holds is
  that in a well of this frequency the internal modes coincide with each other. Exact real arithmetic.
* **C135** Matrices stored in compressed form are read back as they were. Numbers are abstract with a comparison to
  zero; an entry that compares equal to zero (a negative zero) comes back as zero. The zip archive of numpy between
  the arrays and the characters is not modelled.
* **C14** MPI packing and unpacking are inverse. For batches of equal sizes, which is what the code requires;
  mixed_sizes_fail records that a mixed batch is rejected, never mispacked.
* **C146** Self-consistent phonon averages use the right correlations and weights. The diagonalisation is assumed
  orthogonal and to rebuild the matrix; the modes that are chopped are assumed exactly zero where stated.
* **C15** MPI driver ranks are partitioned among force fields. Every number of ranks and every configuration of roots.
* **C155** Kinetic tensors and centres of mass computed from files agree with the simulation. Over exact arithmetic;
  reading and printing are the subject of other properties. The masses are taken to be the same in the files of all
  beads.
* **C161** Corrections from perturbed path integrals are derivatives of one free energy. Heat capacity for the
  Boltzmann constant of the program, which is one. The fortran variants of the sums are not modelled.
* **C176** Forces and virial of the Fortran pair potentials are derivatives of their energy. The virial of
  Silvera-Goldman is for upper triangular cells with positive diagonal, which is what the engine sends: the driver
  takes the product of the diagonal as the volume.
* **C184** Compiling the Fortran module does not change the perturbed path integral scripts. Exact real numbers; the
  loops of the scripts are those of C161.
* **C20** Queue and release keep the list of pending requests exact. Every history of queue, poll and release.
* **C21** Committee results are the mean of the members with correctly scaled spread. Real-number arithmetic; any
  number of members.
* **C25** Opening an output never destroys an existing file. Every file system and name; the opening itself fails for
  files in subdirectories (subdirectory_fails).
* **C28** Omitting default values from a checkpoint is harmless. Every class declaration with distinct names and every
  contents whose single values read back; through the XML text.
* **C30** Unit conversion is invertible and prefixes are parsed unambiguously. Exact rational arithmetic, every
  family, prefix and unit of the table; ase units left out. A trailing blank makes the unit unknown and text after a
  line break is ignored.
* **C34** Splitting forces over time-step levels loses nothing. Exact arithmetic over any field. An empty list of
  level weights counts as no level, and its outer level then raises IndexError (witness); the per-component report
  leaves out the level weights (witness).
* **C36** Normal-mode transforms are orthogonal, mutually inverse, and independent of the algorithm chosen. Exact real
  numbers, every number of beads; numpy's rfft and irfft are taken by their documented definition.
* **C37** Bosonic exchange energies equal their definition. Exact real numbers. The list of cuttings is shown to hold
  exactly the partitions into consecutive groups, each once.
* **C39** The multiple-time-step integrator is symmetric and advances every part by the full time step. The sequence
  of updates equals the textbook nested scheme for every list of multipliers; a kick is the update of the momenta
  followed by the constraints, a drift the two updates of the positions.
* **C40** A rejected replica exchange changes nothing, an accepted one conserves the bookkeeping. Exact real numbers;
  positive temperatures. Stresses closer than 1e-10 are not exchanged (accepted_spec says so); reference cells are
  exchanged when both replicas have one.
* **C42** The free ring-polymer propagator is exact, symplectic and energy conserving. Exact real numbers, positive
  masses, mass factors and frequencies of the non-centroid modes. Also proved: the exact propagator solves Hamilton's
  equations at every time, the whole ring polymer step is time reversible and commutes with the centroid drift.
* **C44** Wrapping into the cell gives an equivalent position inside the cell. Exact real numbers, rounding half to
  even as python and numpy do.
* **C47** Thermostats account exactly for the heat they exchange and leave the target distribution invariant. Exact
  real numbers; the random numbers are independent with the distributions numpy documents. Heat balance, identity
  without friction and invariance of the target distribution proved for Langevin, path-integral Langevin, velocity
  rescaling, generalised Langevin (if and only if the matrix is positive semidefinite, otherwise the code only warns)
  and fast-forward Langevin. Recorded disagreements: fast-forward flips give NaN for an atom at rest (ffl_at_rest);
  thermostats bound to beads use physical masses while the conserved quantity uses scaled ones (langevin_other_mass).
* **C61** Averaging over rotations leaves rotation-consistent force fields unchanged and keeps forces consistent. Any
  finite set of rotations; derivative along every line.
* **C65** Estimators of bosonic simulations are the averages they are said to be. Exact real numbers.
* **C73** The conserved quantity of isotropic constant pressure dynamics is conserved. The rate of change at time zero
  of the sum over all elementary updates, any number of levels; the thermostats' part is C47.
* **C79** Temperature and pressure ramps go from the first to the last value in the given number of steps. Exact real
  numbers; a logarithmic scale needs positive start and end values, which the code does not check (a zero start
  divides by zero, a negative ratio gives a complex number).
* **C91** A finite-difference phonon calculation gives the exact force constants and vibrations. Exact real numbers;
  the eigendecomposition is given; the text of the files is not modelled.
* **C92** The sum rule for crystals removes the translations and nothing else. Exact real numbers; positive masses.
* **C94** A Hessian calculation gives the exact second derivatives, also when it was killed and started again. Exact
  real numbers. A file cut in the middle by a kill is not modelled: starting again then raises an exception.

## Further observations made while reading

Seen in the source, not (yet) stated as theorems.

* `depend.py`: an assignment through a slice of a computed array is not rejected; `dep[i] = x` on an out-of-date member of
  a synchronised group mixes the new entry with old data.
* `interfaces/clients.py`, `sockets.py`: batched mode does not look at `match_mode`; a request list that is out of date starves
  a client in lock mode.
* `forcefields.py`: `active` is ignored by the MPI, direct and evaluation force fields; two force fields of the same name
  overwrite each other; `FFCommittee` raises `UnboundLocalError` when the baseline name matches no member; members that
  return JSON are not shifted; two JSON members without forces raise `ValueError`.
* `softexit.py`: the second SIGTERM finds `SIG_DFL`, which cannot be called (`TypeError`).
* `properties.py`: the dimension of `atom_f_path` is declared as a length; `print_file_path` never prints its title.
* `normalmodes.py`: the `bab` propagator uses the physical masses, not the dynamical ones; `nm_factor` and `o_nm_factor`
  are registered with wrong names or dependencies; the kinetic energies and stresses of single beads use the factors of
  closed paths.
* `dynamics.py`: the constant temperature integrator with constrained centroids uses neither the mask of fixed atoms nor the
  bias; the Suzuki-Chin integrators do not use the mask either; negative indices in `fixatoms_dof` are neither
  rejected nor masked.
* `constrained_dynamics.py`: cannot be constructed from an input file, `inputs/motion/motion.py` passes `fixatoms_dof`
  where the constructor takes `fixatoms` (`TypeError`); `ValueError` built but not raised for an unknown ensemble.
* `thermostats.py`: the sign test of the velocity rescaling has a factor of two that the reference does not have; the step
  counter of `ThermoCL` is not stored in checkpoints; matrices of generalised Langevin thermostats that are not positive
  only produce a warning.
* `barostats.py`: `mdof` is computed and not used; the stress adds the bias also when there is none; the centroid force used in
  the second order terms leaves out the bias; the two velocities of `p6` and `p` drop the lower triangle.
* `mathtools.py`: `eigensystem_ut3x3` tests and divides the wrong entry (L288-290).
* `initializer.py`: two errors are built but not raised (L394, L565).
* `ensembles.py`: an exchange that fails halfway leaves a half-exchanged pair.
* `pes/bath.py`: `Harmonic_Bath_explicit` has no `__call__`, so the drivers `DW_bath` and `DDW_bath` raise on the first evaluation; `DDW_bath`
  also passes its parameters as one positional argument.
* `pes/morse.py`: the parameters are documented in atomic units and read as eV and Angstrom.
* `FFdmd` returns an empty string as extras where other force fields return a dictionary; its step counter grows once for each
  matching component of each system.
* `FFCavPhSocket`: with `dipole_surface` the entry `dipole` is read before its presence is tested.
* `FFLennardJones` returns a zero virial.
* C85: `SDOptimizer` and `CGOptimizer` hand `min_brent` the slope `+f·d`, of the opposite sign to the one its mapper returns; it
  costs extra evaluations. `bracket` has no limit on its passes and never returns on an energy that keeps falling; returning
  `(a, b, u)` it can discard the lower point `c`. `min_brent` out of passes leaves the atoms at the last trial. The line
  `e = d` in the golden section branch stores the old value. With the default `adaptive = 1` a move of length zero sets the
  next initial step to zero and the optimiser never moves again.
* C86: `min_approx` ending on a small step returns the start as position but has moved the atoms, whatever the energy there.
  The masks for fixed atoms (`hessian[np.ix_(mask, mask)]`, `qlist[:, mask]`) fit one bead only.
* C87: the guard against an uphill direction sets `d0 = +g0 / |g0|`, which is uphill; the reset direction is a new array, so that
  the caller's direction keeps its old value; the skipped update sets the direction to minus the last step, uphill in concave
  regions; pairs of negative curvature stay stored; after a line search ending on a small step the direction is zero for ever.
* C88: at a stationary point the quality of the trust-radius step is `0 / 0` and the loop never ends; the update has no guard
  against negative curvature; the FIRE correction `-0.5 dt v` is outside the step limit.
* C89: `nichols` divides by zero for `d[1] = d[0] / 2 < 0` and for a double lowest eigenvalue.
* `GeopMotion.reset` with `lbfgs` multiplies the number of corrections and the scaling option by zero, and with `bfgstrm` replaces
  its own trust radius, not the one the optimiser uses.
* C93: `clean_hessian` counts imaginary frequencies beyond 4 reciprocal centimetres and deletes the block after them: with softer
  imaginary modes it deletes these and keeps modes of zero frequency.
* C95: `asr` `lin` is accepted and `apply_asr` returns `None`; with `poly` a linear molecule divides by a zero length;
  `np.linalg.eig` is used for a symmetric matrix.
* C96: `NMFDPhononCalculator.transform` overwrites the refined matrix with the given one; `output_shift` is never passed to
  `printall`; the full Hessian has half of the entries between free and held coordinates.
* C97: the friction derivatives of the first coordinate are lost when the run is killed between its two files, all of them when it
  is killed while the last files are removed; the shape test for the friction file never succeeds, so a restart repeats all rows
  after the first.
* C98: `constrained_dynamics` cannot be created: its constructor has no argument `fixatoms_dof`, and calls `Motion.__init__` with
  `fixatoms`, which this does not have. `planetary` and `al-kmc` never call `Motion.__init__`, so the simulation fails after the
  first step when it reads `motion.finished`.
* C99: for `nvt-cc` with fixed atoms the temperature of normal mode 0 is too high and that of every other mode too low, because the
  count for the modes starts from the count for all beads. A `MultiMotion` has no `enstype`, so the temperature raises an exception if
  the members fix coordinates; if not all its members fix the centre of mass (the ramps drop `fixcom`) the printed temperature is too
  low. With open paths and scaled masses `nm.kin` uses the masses of closed paths, so the kinetic energy of the system is not the sum
  over its atoms. A negative atom index selects no atom (and the properties return zero or the constant part).
* C100: no disagreement; the primitive estimator counts the closing spring of an open path.
* C101: `isotope_zetasc_4th` includes the change of the squared force on the substituted atom only, not of the forces on its neighbours.
  The trajectory `isotope_zetatd` prints the exponential without the free-particle factor of the property of the same name; atoms that
  are not selected print 1, while the comment says zero. `logsumlog` is wrong if the larger term is negative or the terms cancel. The
  help of the fourth order estimators lists the Suzuki-Chin value first, the code prints the Takahashi-Imada value first. They raise an
  `IndexError` for an odd number of beads.
* C102: no disagreement.
* C103: the automatic displacement compares the second difference with the first one; at a configuration with vanishing virial (one
  replica in each well of a double well) it never accepts and prints zeros.
* C104: no disagreement.
* C105: with a component contracted to fewer replicas the Suzuki-Chin forces do not derive from any potential: the corrections multiply the expanded
  force by a factor that differs between replicas, and the shifted copies cancel in the contraction. All components share one auxiliary system,
  created for the first sign of `fd_epsilon` seen, so different signs end with a mismatch of shapes; `fd_epsilon` of zero leaves a variable unbound.
* C106: no disagreement.
* C107: `get_scyama_estimators` does not rescale the frequency of the springs in the term with the squared forces, which depends on temperature; the
  average of the printed energy is too low by twice the average of this term.
* C108: only the scaled-coordinates and operator estimators update the cell of the copy (`dcell`); `displaced`, the isotope estimators and their
  trajectories use the cell of the start, or of the last such output. `get_scop_estimators` writes only the even replicas of the copy.
  `virial_fq` reads its reference once, so a second request with another file is computed with the first one.
* C109: no disagreement. A contraction removes the kinetic energy of the modes that are dropped.
* C110: when velocities are given before masses a `ValueError` is created but not raised (engine/initializer.py L575) and `beads.resize` clears the positions and
  labels that were read before; the final checks do not notice lost positions. `init_vector` does not use `units` for `mode='manual'`. The factor
  sqrt(nbeads / 1) is applied to momenta and velocities of a single bead. A mass or label for an atom index beyond the last is assigned to an empty slice.
* C111: `init_stage2` looks for the thermostat in `simul.ensemble`, which has none. `<file bead='..'>` also sets the masses, which refuse a bead.
  `InputInitializer.fetch` passes `initclass` to every tag with `mode='chk'`, and the `fetch` of momenta, velocities and cell does not take it.
  `InputInitBase.store` uses an undefined name. The test for a file without cell compares the trace with -3 after the conversion of units.
* C112: no disagreement for closed paths.
* C113: `read_output` uses the name without its unit as key, so that a property printed in two units comes back as one array with the values of both in turn; requests with
  a blank before the unit or with empty brackets, which the simulation accepts, do not match the pattern and are left out. `read_trajectory` takes
  `matches[-1][0]` of a pattern with a single group: the first character of the step, not the step. Extras that are not arrays are joined by line ends although the lines still have theirs.
* C114: neither the input of a cell nor the `CELL{H}` comment of a file is checked: a negative diagonal entry changes the lattice in the written trajectory,
  and a matrix that is not upper triangular is inverted by `invert_ut3x3` as if it were.
* C115: `ThermoGLE.bind` draws all rows of `s` from the stationary distribution, but the first row is then replaced by the momenta of the atoms, drawn independently;
  with a `C` that couples them the pair is not in equilibrium (here the variance after one step is 3/2 instead of 2).
* C116: `matrix_exp` uses ten squarings and twenty terms whatever the size of the matrix; its comment says fifteen of each.
* C117: `td_pstep` uses `pdt[0] = dt/(2 nmts[0])` but is called twice per step only, so with `nmts = [10]` the field acts with a tenth of its strength; `_Eenvelope_is_on` requires
  `peak > 0`, so `sigma` without `peak` is silently ignored; the sum rule compares the mean over the atoms with `asr_threshold * natoms`.
* C118: `_get_dipole` multiplies a float with an array of strings (always an error, turned into `nan`) and returns inside its loop over the beads; `get_interaction_energy` is
  `+ dipole . E` while the force is that of `- dipole . E`.
* C119: `kstress_cv` and `kstress_sctd` add the momenta of the centroids on the diagonal only; `pressure_md` is described as the pressure of the extended classical system but does not contain its springs.
* C121: `remdsort` does not find several kinds of files, needs a prefix, may not end or end with an error, counts steps instead of reading them (wrong after a continued run or a repeated exchange), and takes extras to have two lines per step.
* C122: `trimsim` does not find several kinds of files and drops the list of exchanges for `multi` super-motions and for simulations without a prefix.
* C123: `compute_acf_xyz` prints circular correlations, is wrong by construction for blocks of odd length (the default of the function is odd; that of the command line even), and ignores the units of the file although the command line says that it handles them; `getacf` drops the largest lag without padding.
* C124: `Cqp` divides the rows and columns of the position by `omega0` where it should multiply by it, so `<q^2>` is wrong by `omega0**4` (the kernel does not use it); `isra_deconvolute` reports the error of `f·ker` instead of `ker·f`.
* C125: The names of the segments contain the descriptor of the accepted socket, but the object keeps a duplicate of it and the accepted socket is closed when the round ends, so the number is used again: clients that connect in different rounds get the same names, and `_create_segment` takes the name away from the segment that is in use.
* C126: While climbing, `tmp_f[cl_indx, mask] = self.nebgrad` stores the gradient of the climbing image among the physical forces; `bind` tests `hessian.size == 0` with `if` instead of `elif`, so a Hessian that fits raises ValueError; the stage `converged` is written to checkpoints but is not among the options of the input; `bind` uses the masks of the mappers before they exist, and trims the Hessian by the number of atoms instead of coordinates; `biggest_step` grows by 1.3 after every good step without limit.
* C127: `InteractiveSimulation.run` adds one to the step after the loop, also when the range of the loop was empty, so `run(0)` skips a step; the exit callback belongs to the hidden `Simulation` object whose `rollback` is never cleared (the wrapper has its own copy), so changes made by the script after the last step are not in the RESTART file written at a signal.
* C128: `set_structures` zips the systems with the structures and enumerates the beads that are given, so missing ones are silently left as they were; the cell is set once per bead, the last one wins.
* C129: `forcefield_xml` never writes the attribute `mode`, so `mode='unix'` opens an internet socket on port 65535; `motion_nvt_xml(thermostat=...)` raises UnboundLocalError; `simulation_xml` looks for the array `mass` where ASE has `masses`; `properties` ignores the unit in the key and raises IndexError for `hweights_component` and `bweights_component`, whose declared dimension is empty.
* C130: The test for convergence compares the loop variable with `maxit`, which it never reaches: a failed iteration is silent (`never_warned`, `silent_failure`). Groups that share an atom are projected one after the other and spoil each other (`shared_atom_not_tangent`). The energy that the projection takes from the initial momenta is not recorded without a thermostat (`stepBc_loses_energy`). Atoms for Eckart conditions that are not in ascending order are refused as repeated (`eckart_refuses_unsorted`), and linear molecules lead to a singular matrix (`eckart_linear_singular`). A solver with the maximum norm writes `inf` for an integer to the checkpoint, which cannot be read (`max_norm_not_read_back`).
* C131: The labels are sorted alphabetically backwards, not by length as the comment says: of `TEMP` and `ATEMP` the shorter one is replaced first and spoils the longer one. A label that occurs in a string inserted earlier is replaced again.
* C132: The spring energy and gradient ignore the coefficients of a non-uniform discretisation, which the spring Hessian contains (`spring_hessian_nonuniform`). The gradient from which the Hessian is computed by finite differences is already scaled, and the result is scaled again (`physical_scaled_twice`). The band form raises an error for two beads (`band_two_beads`). With friction the energy of the whole path is added to the energy of every bead, so it is counted as many times as there are beads (`friction_energy_counted`, `friction_energy_inconsistent`). The contributions of the derivatives of the friction to its Hessian are overwritten (`friction_derivatives_lost`). Not proved, only read: writing the Hessian with friction but without `frictionSD` raises KeyError, friction with the lbfgs optimiser raises KeyError, an empty spectral density raises TypeError, the discretisation `one` cannot be reached.
* C133: Single degrees of freedom whose number is divisible by three fix all the atoms they belong to (`single_dofs_fix_atoms`). The test `key == "hessian" or "eta0"` is always true, so the lists of the lbfgs optimiser are treated as Hessians and refused (`lbfgs_refused`), and their inverse refers to an attribute that does not exist (`lbfgs_never`). With `hessian_update` equal to `recompute` a complete Hessian is completed again, which fails (`recompute_fails`). The counters for the friction are not reset: the final Hessian fails or is wrong (`friction_fails`, `friction_wrong`). The positions used to remove rotations are copied at the beginning and never changed (`sum_rules_stale`, `rotation_not_removed`). Only read: the Newton-Raphson optimiser mixes arrays of all and of active degrees of freedom.
* C134: `StringClimbGrMapper.bind` reads `ens.fixatoms`, which no class defines (with fixed atoms it fails before, on `ffixatoms_mask`): no string calculation gets past `bind` (`never_starts`). The new beads are at equal distances of the parameter, which follows the broken line of the old beads, not of the arc length that the documentation states (`not_equidistant`). The forces of the first step are computed before the resampling and used after it (`first_step_wrong`). Only read: the climbing step uses `climbgm.fixmask`, which does not exist; a Hessian for all beads is cut by `natoms` rather than `3 * natoms` and needs a mask that is not yet there; a restart of the climbing stage with a Hessian is refused as in the NEB code.
* C136: `netstring_encoded_savez` collects the archive of numpy in an `io.StringIO`, which takes no bytes: every planetary calculation fails with a TypeError in its first step, when the matrix is written (never_written). The reduction of beads takes the first normal modes of the path (`qnm[:nbeads]`), but the modes are ordered cosines first, sines last, so that for three or more beads the sines are lost and fast cosines are put in their place (not_start_contracted). A system with one bead fails (`omegak[1]`), more beads than the path has fail in the assignment.
* C137: The help text gives the couplings in the order c21, c32, c31, c43, c42, c41, the code reads c21, c31, c32, c41, c42, c43 (not_documented_order). `DMD.step` advances the counter of a force field once for every system and bias component that uses it: with two replicas the driving force oscillates twice as fast (not_clock); used as an ordinary force instead of a bias it never advances, without a message (clock_stopped). The counter is not a dependency of the forces, which are kept until the positions change, so that each step begins with the force of the previous time (force_lags), while a continued run computes it anew at the later time and takes another path (not_restart).
* C138: Each `Dynamics` connects the time step of the shared normal modes object with its own when it is bound, so that in a list all of them propagate the internal modes of the ring polymers over the time step of the last one, while centroids and momenta use their own (not_as_alone). An atom fixed in the dynamics counts as free if another member of the list, such as an exchange of atoms, does not list it as fixed too, and the printed temperature is too low (not_fixed_by_any).
* C139: `FFRotations.queue` calls `random_rotation(self.prng, improper=True)` whatever the option `inversion`: with random rotations and without inversion every structure of an evaluation is a mirror image for half of the draws (random_mirrors), so that a model that distinguishes enantiomers computes the wrong one. The default order 1 is the identity only (order_one), and there is no Lebedev grid of this order (a ValueError).
* C140: `dump_state` copies the results without looking whether they are stale. Totals do not evaluate components of zero weight, so after a step of a geometry optimiser or an accepted atom swap the missing result of such a component is marked as valid: printing its energy with pot_component fails with a TypeError (zero_weight), or gives the energy of earlier positions (zero_weight_stale). The optimisers and instantons keep their own copy of the cell made at the beginning, so that if the cell is changed by another motion in between, the forces of the old cell are taken over as valid (other_cell). The usage shown in the docstring of transfer_forces, to load a state kept before a change, gives the old forces at the new positions unless the positions are restored too (load_other_positions). The manual variant used by NEB, string and instanton motions sets zeros as virial (manual_reads) and fails for more than one force component (manual_one).
* C141: For ncell = 2 a site has fewer than twelve different neighbours within the cutoff. The table has twelve columns initialised with zero, so that the missing entries stand for site 0: vacancies can jump across the cell to site 0 without a reverse event (not_mutual_two, not_reversible_two), and with several entries the event is counted several times. With no event at all, e.g. no vacancies, the step stops with an IndexError from the selection (step_stuck). The input order of the atoms (Si, Mg, Al) is printed next to the assumed one but not compared. The options of the optimiser and the number of evaluators are not written to checkpoints, so that a restarted run uses the defaults.
* C142: The main thread looks up a structure and reads its energy and positions without the lock under which threads add structures and remove the oldest ones. When the cache is full (max_cache_len, 1000 by default) a thread can remove the structure between the lookup and the reading, and the simulation stops with a KeyError (not_safe_full). If a relaxation raises an exception in its thread, the step goes on with the energy 0.0 for that event (failed_zero) and the evaluator is lost; when all are lost the simulation waits for ever (failed_stuck). A cache read from a file that is longer than the limit is never shortened, since the counter is compared with the limit for equality (too_long). With a limit of zero each structure is removed before it is read (no_room_zero).
* C143: With a bias and one level the momentum step at constant pressure is not reversible: fc in BaroBZP.pstep and BaroSCBZP.pstep is made of the forces without the bias, the beads are kicked by both (bias_not_reversible).
* C144: The high order virial (v_4th_order) is the derivative of the virial along the forces over the masses. The derivative of the squared forces when positions and cell are scaled together has another term, twice the squared forces over the masses, since scaling and differentiating with respect to positions do not commute. For a harmonic potential the trace used is twice the right one (v4_wrong, trap_sc2, sc_not_conserved).
* C145: An odd max_steps is not refused, and fails with an IndexError after the set-up (samples_odd). A run continued from a restart file appends the samples of its first iteration to the file it has read them from, so that the next continuation cannot read the file (second_restart_fails).
* C147: The branch for displace_mode sd hangs on the if of precheck (elif), which is on by default: with it steepest descent never moves (sd_never_moves). The comparison of force and error is strict, so a force of zero with zero error is significant and the inner loop of rnmik is never left (rnmik_never_ends). apply_hpf says it replaces imaginary frequencies by zero but takes absolute values (imaginary_real). The option chop is described as a threshold for frequencies but compared with their squares.
* C148: The number of the iteration is not stored, so a continued calculation begins with the file of the first iteration, and takes its samples for samples of the present distribution, with weights one (restart_weights, restart_biased). wthreshold, precheck and checkweights are not written to restart files (options_back_iff).
* C149: The force column of the .qvf files lacks a factor sqrt(nprim): with several primitive cells it is not the derivative of the energy column (df_wrong; on a harmonic surface it is df_harmonic instead of zero). The sampling has no bound: on a surface that stays below the energy limit in one direction it goes on for ever (bounded_never_ends).
* C150: Convergence of the basis and of the sampling is first tested against 1e-20, so a free energy below the threshold is accepted without comparison (first_accepted). When the samples are read from a file the basis starts five functions larger than when they were made (reload_differs) and the potential offset is zero (reload_offset). A continued calculation adds up only the modes it still treats (restart_drops). With more imaginary modes than zero modes an imaginary mode is treated with a frequency that is not a number, and its sampling never ends (imaginary_treated).
* C151: The samples of a mode are looked up at its number minus the number of zero modes (below 1e-15), but are stored for the modes above two wave numbers: a small but nonzero frequency, common without an acoustic sum rule, shifts all the lookups (indep_shifted, small_mode) and the last mode fails with an IndexError (indep_fails). A calculation stopped between the two files of a pair skips the pair when repeated and fails in the solver (stopped_between). With a single mode the list of modes is read back as a number, and the repeated calculation fails (one_mode). A continued calculation has no maps of single modes (restart_pairs).
* C152: The thermal density is divided by its sum inside the loop over states instead of after it, so that every state is weighted against the normalised density of all states below it (rho_last): three degenerate states get 1/4, 1/4, 1/2 (rho_degenerate). The mixing keeps the whole potential of the mode alone in addition to a fraction of the old mean field: its fixed point has that potential divided by alpha (mix_fixed). The free energy reported is one iteration behind the levels saved (scf_end).
* C153: uncertainty_CEA_multiple_models calls CEA(obs, pot, kbT) with the first two arguments exchanged (L127), so the uncertainty due to the potentials is a spread of averages of potentials reweighted by observables: it is zero whenever the models of the observable agree (multi_agree), and of the wrong dimension (multi_swapped, multi_wrong). A negative stride passes the tests and leaves `potentials` unset (negative_stride). The spread over models is divided by their number with one observable, and by their number minus one with several.
* C154: When a later trajectory is shorter, the merged file ends with an incomplete frame (mux_spec, mux_incomplete). The options --wrap and --unwrap compute the number of atoms as len(pos)/3, a float under python 3, and numpy rejects it as a dimension (wrap_fails, unwrap_fails). kinetic2tag does the same and never produces output (tag_fails).
* C156: The optimiser lanczos does not look at the option mode: also for a tunneling splitting it climbs along the lowest mode, away from the minimum wanted (lanczos_splitting). The calculation counts as converged if the forces changed by less than 1e-8, however large they are (exit_on_slope). A mode with frequency exactly zero is accepted as imaginary (flat_accepted); for a small imaginary frequency the message itself fails with a TypeError, because the whole array is formatted as one number (small_type_error).
* C157: The discretisation of the path is not read by the post-processing: for unequal spacings potentials, springs and Hessians are combined with weights one, unlike in the optimisation (discretization_ignored). The mode of index one is always left out, also if clean_hessian removed the permutation mode because its frequency was below its threshold; then a true vibration is missing (vibration_lost).
* C158: The case reactant writes eigenvalues, the case splitting takes the numbers for frequencies and squares them: the reference is computed from the fourth powers of the frequencies and is right only for eigenvalues zero or one (squared_again, reference_too_small). For a path of least action, which is what the optimiser for splittings finds, the soft mode is the first, but the second is left out (soft_mode_kept). asr is set to none but nzeros is not, so freq.dat starts with six or three spurious zeros (extra_zero_rows).
* C159: The mirror of the doubled path lies half way between its last and first bead, at half an old spacing; after the interpolation it lies half an old spacing before the first new bead, which is not half a new spacing. The first half of the new ring therefore lacks beads near one turning point and has too many near the other, and the ring rebuilt from it is not the interpolated one (half_not_mirrored).
* C160: The reference of virial_fq is read once for the whole system: a second output with another reference file, or without one, silently uses the first (reference_ignored, reference_matters). vcom compares the argument bead, a string, with zero and fails for every value (vcom_bead_refused).
* C161: total_energy_ppi.py, kinetic_energy_ppi.py and potential_energy_ppi.py call read_file with an argument output it does not have and fail with a TypeError on the first frame; only energies_ppi.py and heat_capacity_ppi.py are modelled.
* C162: The number of the header line is used as that of the column: after a property of several columns the potential is read from that property (wide_wrong). Units with characters other than small letters, such as atomic_unit or j/mol, are not found (atomic_unit_fails), and neither is anything in a file written with verbosity high, which begins with lines of three hashes (verbose_fails).
* C163: A property of several columns ends the script with a ValueError (wide_fails): the pattern finds no digits before the arrow. A name that is also the beginning of another, such as temperature beside temperature(O), is refused as ambiguous (temperature_refused).
* C164: The cell is not converted to internal units when it is read but is converted when it is written: a cell of 10 angstrom is written as 5.29 and announced as angstrom (cell_as_bohr, cell_shrinks). The quantity is not named in the output, so that reading it with automatic units takes the numbers to be in atomic units (label_lost).
* C165: The forces of the cavity are added to all atoms, also to those outside the active list (inactive_forces). If the driver sends no dipole, the entry is read before its presence is acted upon and the message is never written (missing_dipole). Nothing checks that only one driver evaluates the photons (counted_twice).
* C166: A file whose first frame does not announce a quantity ends the script with an UnboundLocalError (plain_fails): key is assigned only where a quantity was found. Trajectories of Eforces are relabelled as forces, whose pattern matches inside the name and comes first (eforces_renamed).
* C167: A list of bosons may contain an atom twice (repeated_accepted). Its springs are then subtracted twice (repeated_subtracted), and when the list is as long as the system the other atoms lose their springs altogether (repeated_frees_others). The kinetic energy of the atom -1 is that of all bosons (minus_one_is_all_bosons), because -1 is also the mark for no index.
* C168: The propagator bab moves the beads with the physical masses, also when the normal modes have dynamical masses (pa-cmd, wmax-cmd, manual), so that the reported energy of such modes is not conserved at first order (scaled_mass_ignored). A negative nmts is accepted and stops all free motion (negative_freezes); zero ends with a ZeroDivisionError in the first step.
* C169: Rows beyond those of the last structure are dropped silently (extra_rows_lost). The mean has the properties of the first model: one that a later model lacks ends with a KeyError (missing_property_fails), one that only a later model has is lost.
* C170: pot_component_raw divides the sum over the replicas of the component by the number of replicas of the system: a component with one replica in a system of four reports a quarter of its energy (raw_potential_wrong), while vir_component_raw and forces_component_raw report the mean.
* C171: A misspelt option is taken silently, because all drivers accept any keyword (unknown_option_ignored, unknown_name). A text that looks like a number arrives as a number, a text with a comma as two values, one with an equals sign as a named option, and a blank value is left out, so that later ones move (texts_changed).
* C172: An unknown mode is refused only if there is something to edit (mode_checked_late). Not modelled: the same node object is put in all places, so that later edits of one change the others, and each field is printed to the terminal.
* C173: A calculator declared to have no stress cannot be used: nine zeros are put in its place, and the following check refuses anything but six numbers or a 3x3 matrix (no_stress_refused). A single atom sent to a driver with a larger template is not refused: all atoms of the template are put at its position (wrong_template).
* C174: `effective_temperatures.py` prints the simulation temperature for every atom when more frames are skipped than the files have: the sum is zero and is divided by a negative number of frames.
* C175: With a cell that changes, the Fortran driver scales the cut-off with the volume but remakes its neighbour lists only when atoms move, and then with the old radius: pairs within the cut-off are left out.
* C177: `LJMix_getall` tests the type of the first atom twice and never that of the second: pairs of different types get the parameters of the small atoms.
* C178: `efield_v` fills `dvdr` with the force z*E and then returns `-dvdr` as forces: they have the wrong sign (efield_flipped, efield_gradient_false), and its virial is transposed (efield_virial). `getdoublewell_1D` sets `pot = 0` inside the loop over atoms: with several atoms the energy is that of the last one (doublewell1D_several). `LEPS_M1` returns +(V+ - V-)/(4 step), half the size and with the wrong sign (leps_flipped). `dw_friction` and `dw1d_friction` use `(i-1)*nat+qi` in place of `(i-1)*3+qi`: with two atoms the last coordinate is never set, with more than three the routine writes outside the array (friction_two_unset, friction_outside). `get_MB` overwrites the scaling given by the user (muellerBrown_scaling). `harm` leaves out the virial of a shear (harm_virial_shear).
* C179: `LJPolymer_getall` adds `fhar2(k)*rhar2(l)` to the virial for every bond, but these variables are never set: the virial is what happens to be in memory (polymer_virial_junk). With `n_monomer` = 1, `MOD(i,1)` is never 1, and all atoms are joined in one chain (bonded_single).
* C180: The driver transposes the virial before it writes it to the message, but not before it writes that of the members to the extra string, where i-PI reads it row by row. As the Lennard-Jones potential fills the upper triangle only and `ForceBead.get_vir` keeps the upper triangle only, the shear components of this part are lost (extra_virial_lost). The reference file of the regression test shows it: the members differ in the lower triangle.
* C181: For `morse` and `morsedia` the documented three parameters are refused, and two are accepted although the third is then never set (morse_parameters, morse_unset). More than four parameters write outside of the array `commas` before the number is checked (pars_overflow). The committee potentials and `noo3-h2o` ignore parameters, and `water_dip_pol` reports an error but goes on (count_ignored). The help text offers bath potentials that never start (baths_deprecated). `lepsm2` needs four atoms, but four are refused and three accepted; `noo3-h2o` and `water_dip_pol` do not check the number of atoms (atoms_not_checked).
* C182: `scan_pes_file` uses `ast.walk`, so that an assignment to `__DRIVER_NAME__` inside a function or class is taken, and because the walk is breadth first it wins over the one at the top level (`scan_toplevel_fails`), while the docstring says top level only; a file with only one of the two strings returns that one and `None` rather than `(None, None)` (`scan_half`, harmless to the caller); `load_pes` in custom mode without `__DRIVER_CLASS__` raises an `UnboundLocalError` because `module_name` is bound only in the other branch (`missing_class_custom`); a single file with a syntax error makes the import of `ipi.pes` fail (`drivers_fail_iff`).
* C183: `check_parameters` formats `opts['BEC']['file']` where `opts['dipole']['file']` is meant (L199), so that giving only a dipole file raises a TypeError for every name (`dipole_file_alone`), and giving both prints the wrong one (`dipole_file_misreported`); `restart` prints that the old file is removed but nothing removes it (`restart_keeps`); with fewer than two arguments `self._error_msg` does not exist (`few_arguments`), which is always the case from ffdirect as that passes keywords only.
* C184: The scripts pass the forces where `findCentroidVirialKineticEnergy` expects the positions and the other way round; `exchange` shows that this does not change the result.
* C185: `rdf_ppi.py` writes its files when the number of frames is a multiple of one hundred and not at the end: fewer than one hundred frames give no file (`short_nothing`) and the frames after the last multiple are ignored (`tail_ignored`). The volume is that of the last frame counted, also when the cell changes. With one bin the subroutine reads the second row of an array of one row.
* C186: The level `trace`, which makes warnings print the stack, is not among the options of the input file or the command line (`no_trace`), and is written to the restart file as `debug` (`trace_lost`). While the level is locked an invalid value raises no error (`locked_no_error`). A value of the command line goes into the restart file and stays in force in later runs without it (`last_wins`).
* C187: `doublewell_with_bath.py` calls an object of the class `Harmonic_Bath_explicit`, which has no method `__call__`: every evaluation ends with a `TypeError` (`dw_bath_fails`). `doubledoublewell.py` passes the dictionary of parameters as one argument and so fails earlier (`ddw_fails`); passed by name it would fail on `delta` (`ddw_names_fail`). Its documentation has the coupling `C (q1 q2)^2`, the code `C q1 q2` (`coupling_not_square`).
* C188: `Gas_driver.compute` makes all forces in the shape of the first structure: a batch with structures of different sizes gets forces of the wrong size (`gas_wrong_size`). An empty batch is an `IndexError` there and an empty list in the base class (`gas_empty`).
