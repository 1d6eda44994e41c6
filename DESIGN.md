# Formal model of simpatico in Lean 4: design

Source: `/repo` (dmorse/simpatico, C++), read as text. Nothing is compiled or
run. Properties: `properties.jsonl`. Status per property: `MANIFEST.json`.
Lean project: `lean/`, one directory under `lean/Verif/` per modelled area.
In each area

* `Model.lean` transcribes the C++ functions; each definition cites file and
  lines and says where it simplifies;
* `Lemmas.lean` (when needed) holds helper lemmas;
* `Props.lean` holds the specification, the property theorems, concrete
  non-vacuity `example`s and, where the code violates the property, a theorem
  that proves the negation with a concrete witness.

## Modelling conventions

* Containers: an allocated array is a total function `Nat → α` together with a
  capacity, or a `List`; a pointer into an array is its index; null is `none`.
* Exceptions (`UTIL_THROW`) are the outcome `none`/`Except.error`; when the
  C++ mutates state before throwing, the model returns that mutated state too.
* Undefined behaviour (out-of-bounds, null dereference) is a distinct outcome
  wherever an operation can reach it.
* `double` is modelled by exact numbers: an arbitrary linearly ordered field
  (with floor where `int(x)` is used) or `ℝ` (where calculus is needed).
  Rounding, overflow and NaN are not modelled. `int` is `Int`/`Nat` without
  wrap-around except where the property is about bits (plans, masks).
* MPI processes are modelled as a family of states indexed by rank; matched
  send/receive pairs are modelled as atomic transfers, except where the
  property is about the protocol itself.
* Random numbers are parameters of the modelled function (universally
  quantified).

## Trusted base

1. Lean 4.33.0's kernel; Mathlib 4.33.0 as installed. Axioms used by the theorems:
   at most `propext`, `Classical.choice`, `Quot.sound`.
2. The reading of the source: `lean/Verif/**/Model.lean` against the cited
   lines.
3. `src/util` is an empty git submodule at this commit, so the semantics of
   `ArraySet`, `ArrayStack`, `DArray`, `GArray`, `FSArray`, `SSet`, `Grid`,
   `Vector`, `IntVector`, archives, `Random` are taken from their documented
   behaviour:
   * `ArrayStack::push/pop` throw on full/empty; LIFO order;
   * `FSArray::append` throws when full; `GArray` grows; `GPArray` stores pointers;
   * `ArraySet::append` appends at the end and throws if the element is
     already in the set; `remove` moves the last element into the vacated slot
     and throws if the element is not in the set; `pop` removes the last;
   * `SSet::append` throws when full; `remove` closes the gap (both answers to the question whether
     `append` rejects duplicates are covered in `McLink`); `GArray::resize` default-constructs the
     added elements;
   * `Grid` uses row-major ranks: `rank(p) = (p0*d1+p1)*d2+p2`,
     `shift(c,i)` wraps `c` into `[0,d_i)` and returns the number of periods
     subtracted;
   * binary archives store the sequence of values written, in order; loading
     consumes them in order; optional parameters are preceded by a flag;
   * `Random::metropolis(r)` accepts iff `r >= 1` or a uniform draw in `[0,1)`
     is `< r`; `uniformInt(a,b)` returns an integer in `[a,b)`.
4. MPI messages between two ranks with one tag arrive in the order sent; `sendRecv` completes when
   both sides have called it. The area `DdExchange` proves that every interleaving of the ranks
   gives the result of the step-by-step model (`Async.lean`); `DdDistribute` does the same for the
   distribution of atoms (`C19_all_interleavings`).
5. Not modelled: text parsing of parameter files, file and MPI I/O, floating
   point rounding, timers, memory allocation failure.

## Plan per property

| id | model | method |
|---|---|---|
| C01 | `McCell`: slots, counters, tags of `mcMd/neighbor/Cell.h` | invariant by induction over op lists; negation witness for the refill of a full cell |
| C02 | `McCellList`: grid, cell index of scaled position, neighbour loops over an ordered field | geometric argument: cells not visited are at least one cutoff away along an axis |
| C03 | same | list of visited cells is duplicate free for all grids |
| C04 | `McCellList` state: cells + tags | invariant by induction over op lists |
| C05 | `McPairList`: compressed arrays and iterator | the enumerated list equals the specification list; `Nodup` |
| C06 | `McPairList.isCurrent` + periodic metric | triangle inequality for the minimum-image metric |
| C07 | `DdAtomMap`: pointer array, ghost multimap, counters | refinement to multisets of local and ghost atoms |
| C08 | `DdAtomStorage` | slot-partition invariant by induction over op lists incl. failing calls |
| C09 | `DdGroupStorage` | same |
| C10 | `DdPlan` on bit vectors | bit-level proof; negation witness for text round trip |
| C11 | `DdAtomBits` | arithmetic on `localId` |
| C12 | `DdBuffer` on byte/word lists | round trip by induction over blocks |
| C13 | `DdBuffer` counters | arithmetic; negation witness: buffer one byte short |
| C14 | `DdDomain` grid arithmetic | modular arithmetic |
| C15 | `DdDomain` over an ordered field | floor arithmetic; negation witness for negative positions |
| C16 | `DdExchange`: all ranks, three directions, two signs | per-direction invariant, composition |
| C17 | `DdGhost` | per-direction invariant |
| C18 | `DdReverse` | adjointness: sum over forwarding tree |
| C19 | `DdDistributor` | invariant over arrival sequences |
| C20 | `DdCollector` | invariant over the request loop |
| C21 | `DdCellList` | geometric |
| C22 | `DdCellList` strips | arithmetic on strips; negation witness for thin domains |
| C23-C25 | `Boundary` over ordered fields | algebra, case analysis |
| C26 | `Boundary` monoclinic | lattice argument |
| C27-C31 | `Potential` over `ℝ` | `HasDerivAt` |
| C28 | `Potential` parameter tables | invariant over setter histories; negation witnesses |
| C32 | `Species` builders | induction / arithmetic |
| C33 | `SpeciesArchive` token streams | round trip; negation witnesses |
| C34 | `McPool` | partition invariant over reachable states; negation witnesses |
| C35 | `McMem` | prefix sums, loop invariants |
| C36 | `McMem/Active` | counter invariant over op lists |
| C37 | `McLink` | invariant over op lists; negation witnesses |
| C38 | `Cluster`, `Cluster/Cells` | flood-fill invariant, connected components; composed with C02 and C24/C26 |
| C39, C40 | `McMoves` | energies via complete neighbour lists; state equality; sequences; detailed balance as equality of flows (Lebesgue measure on the primary cell, fundamental domain of the lattice); negations |
| C41, C57 | `Cpp/Net`, `Replica` | diamond property of message-passing steps, one complete schedule, hence all; waiting sends: one stuck schedule, hence all; kernel of attempts, relabelling, iterated integrals over deviates; negations |
| C42, C56 | `Crystal` | lists as sets; measure (number of elements) for termination; subgroup closure; orbits; divergence by an unbounded matrix entry |
| C43 | `Integrate` | refinement of the program (lists, wrapping, sampling) to velocity Verlet up to periodic images; reversal and momentum as algebraic identities, induction on steps; skew products for phase space volume |
| C44 | `McConfig` token streams and archives | invariant of the readers: molecules are taken from the reservoirs in order and filled with the data written for them; links as an image under the bijection of atoms; negations by computation of the first failing step |
| C45 | `DdGroup` | counting |
| C46 | `Mask` | refinement to a finite set |
| C47 | `Boundary/IO` | round trips on token streams; negation witness |
| C48, C49 | `DdAtomStorage` | snapshot and transform operations on stored positions |
| C50 | `DdDistribute` groups | per-rank invariant over arrival sequences |
| C52 | `Dihedral/Sharing` | double counting over processors and groups; negation: dihedral stress |
| C53 | `Angle/Random`, `Cfb/Lengths` | ratio of integrals; negation: weight of angles; loops of trials as limits of probabilities to return within n trials (geometric series), normal deviates in polar coordinates; negations: orders of magnitude of short bonds, strict inequality of densities |
| C55 | `Species/Structure` | round trip on words; comparison; negations |
| C58 | `McConfig/Formats` token streams of the other formats | one loop over species, molecules and atoms common to the three readers, with an invariant on what has been filled; rejections by the first atom whose id or type differs |
| C59 | `Integrate/Hybrid*` | refinement of the move to velocity Verlet and the Metropolis rule, with the stored energies as state; the reversed move is a measure preserving involution of phase space, so that the flow is symmetric by change of variables; Maxwell-Boltzmann distribution of the deviates |
| C60 | `External` | derivative (`HasFDerivAt`) of each energy by the chain rule, sums of waves by induction; negations by explicit parameters |
| C61 | `Restart` | archives as lists of typed values; round trip of tables by induction; negations: `load` throws for every saved state |
| C62 | `Cfb` | refinement of the move to a list of growth steps (loop invariants over the partially removed chain); polar coordinates turn the law of lengths and directions into a density over the cell; the average over trial positions is symmetric in the chosen and the other ones, so the flow is an integral of a symmetric function; negations: two cubes with different energies that the move does not see |
| C63 | `DdExchange/Group*` | invariant `Prov` over the six directions (atoms on the way, groups stored exactly where a local atom is); geometry of columns of domains for flags; ghosts from C17 with additional flags; negation: an angle whose flags are discarded |
| C64 | `DdRun` | state machine of the main loop over all processors, composed of the models of exchange (C16 - C18) and lists (C22); invariant: all copies of an atom are displaced alike since the last exchange, by at most half the skin; the sum over list entries of all processors is the sum over atoms and images (bijection of entries with pairs of atom and image); specification: iterate of `verlet` with a sum over all images (`finsum`); completion by existence of lists |
| C65 | `Thermo` | the program refines an autoregressive process of the velocities between steps (invariant of the main loop); moments by induction from uncorrelated random numbers; limit of a geometric sequence |
| C66 | `Thermo` | linear functionals of the force arrays through the loop over pairs (a force and its opposite add `f . (x_a - x_b)`); expectation of products by induction over the pairs |
| C67 | `Restart` | `save` then `loadParameters` of each integrator as functions on lists of values; the loaded state satisfies the refinement invariant of C43 at the step of the file, for an abstract integrator with an invariant; two images in the primary cell are equal; order of sections by cases on all flags |
| C68 | `Nph` | the step in scaled coordinates as seven substeps, each changing one variable by a function of the others: reversibility and volume by composing them; refinement `Rep` up to images with the lengths of the cell as part of the state; derivatives along paths of cells; concrete step with the models of boundary, cell list and pair list for the violation |
| C69 | `Nph` (`Hybrid*`) | the move as a function of deviates and state; the trial, the reversed trajectory, is an involution that preserves the measure of phase space (C68) and the set of trajectories that can be followed both ways; flow = constant × ∫ symmetric kernel × excess, where the excess compares the distribution drawn with that of Boltzmann; a cell without atoms, whose trajectories are explicit, for the violation |
| C70 | `Cfb` (`Rept*`) | the slid chain is the chain with its labels permuted (tail → head); the masks of the tail atom during the move are those of the permuted world. Refinement to one removal and one growth step, then exchange of the two steps under the integral over all atoms of the molecule. Homopolymers: flows of the two directions agree. Heteropolymers: counterexample, because the new head is grown among atoms with their old types. |
| C71 | `Generate` | outcomes include running forever; `while` loops have their exact meaning (the outcome after some number of iterations, or none); rule of invariants for partial correctness, measures for the end of bounded loops; invariant: atoms placed do not overlap and the cell list holds exactly these (uses C02-C04); two atoms too large for the cell for the violation |
| C72 | `Ewald` | three nested loops are folds; the list made is characterised by membership and absence of duplicates for any box with dual reciprocal vectors, indices bounded with Cauchy-Schwarz; tables of phase factors are read at existing places (invariant of index bounds); energy as finite sum over the lattice; force and stress by differentiation (the set of waves is locally constant in the strain because finitely many candidates are off the cutoff); Poisson's equation and a Gaussian Fourier integral for the decomposition; a cube with three waves for the violations |
| C73 | `Spme` | the spline is compared with the recursion for B-splines piece by piece; assignment of charges is a fold whose effect on any linear functional of the grid is proved by induction, so that its discrete Fourier transform is a product of three one-dimensional sums; at grid points these are a plane wave times a factor common to all atoms, the inverse of which is in the influence function (the factor vanishes only at half the grid dimension, because the root of unity has absolute value 1); sums over the grid are reindexed to sums over wavevectors; stress by differentiation; grids of 4, 5 and 3 points for the violations |
| C74 | `Rebridge` | atoms are indexed by integers modulo the number of atoms; the loop over exchanges is shown by induction to reverse an arc; sums over bonds and over angles are split at the ends of the arc; unwrapped positions are carried along, so that the tests on candidates are symmetric; probabilities as finite sums over the random draws; a ring of six atoms with two candidates in one direction and one in the other for the violation |
| C75 | `Analyze` | the nearest image of two positions is the true separation if that is less than half a period (uniqueness modulo the lattice); induction over samples with the number of periods as invariant; induction over atoms for unwrapped shapes; mean of squares about the mean as a double sum; sums of cosines by telescoping, of roots of unity as a geometric sum |
| C76 | `Post` | the rank of a cell is injective on valid positions; a step by one along each axis with wraparound is a position modulo the dimensions; each ordered pair of touching cells is found once among the 27 steps if every dimension is at least three; the test on identifiers keeps one of the two orders; nearest images within the cutoff are in touching cells |
| C77 | `PpStore` | loops with invariants that also say when a pass cannot succeed; places of atoms are a mixed radix numbering (injective and onto); counts of molecules as cardinalities, complete by a bijection; groups by induction over templates, molecules and species |
| C78 | `FreeEnergy` | sum over ordered pairs split by which atom is exchanged and symmetry (each pair once); loops as sums and products; induction over insertions for the state carried over |
| C79 | `FreeEnergy` | messages by cases over the rank; pointwise identity of Fermi functions and integrals with respect to any measure; telescoping sum |
| C80 | `Schedule` | a run is a list of events; induction over passes for the analyzer as a fold of events and for the last restart file; induction over frames |
| C81 | `Schedule` | calls as a flat map over events; counting by induction over the steps |
| C82 | `Select` | cases of the selector; loops as sums over ordered pairs, folded to unordered ones with the exactly-one lemma; invariant of the neighbor lists; induction over samples |
| C83 | `Scatter` | loops as sums; ℂ for `std::complex`; periodicity from the duality of the bases; induction over samples with an invariant of the sums and the counter, which is an option; induction over the loop of the maximum |
| C84 | `McRun` | sums over lists; Markov kernels of Mathlib, mixture of reversible kernels, induction over steps; counting over lists; prefactors as options, induction over draws |
| C85 | `Bridge` | arithmetic of indices and remainders; Rosenbluth factors as products over atoms, by induction in opposite orders; permutation of trials; superdetailed balance; floor of the table index |
| C86 | `Double` | loops of the search as list of candidates with bounded length; exchange as relabelling of atoms under which sums of energies are invariant; superdetailed balance with the factors of C85 |
| C87 | `Traj` | archives as lists of typed values; error of rounding to the nearest multiple of 2⁻³²; induction over atoms and frames |
| C88 | `Hoomd` | file as words, numbers and tags; invariant of the two maps over insertions; induction over groups and atoms |
| C89 | `Dcd` | file as a list of typed values with a flag for failure; uninitialized memory as arbitrary values; invariants of three nested loops; induction over frames |
| C90 | `PpConf` | file as labels, integers and vectors; arbitrary values for integers read past the end; induction over atoms and groups |

## What each area covers

| area | modelled code | not modelled |
|---|---|---|
| `McCell` | `mcMd/neighbor/Cell.h` all members | - |
| `McCellList` | `mcMd/neighbor/CellList.{h,cpp}` setup, indices, add/delete/update, neighbours | `isValid` |
| `McPairList` | `mcMd/neighbor/PairList.{h,cpp}`, `PairIterator.h` | statistics |
| `Boundary` | `simp/boundary/{Ortho,Mono}*.{h,cpp}` setters, shift, distance, transforms, archives, MPI type | `randomPosition`, text tokens are abstract |
| `DdAtomMap` | `ddMd/storage/AtomMap.{h,cpp}` | `isValid` (it is the specification) |
| `DdAtomStorage` | `ddMd/storage/AtomStorage.{h,cpp}` | MPI sums of counts |
| `DdGroup` | `ddMd/storage/GroupStorage.{h,tpp}` | archives |
| `DdChem` | `ddMd/communicate/Plan`, `ddMd/chemistry/{Atom,Mask}` | - |
| `DdBuffer` | `ddMd/communicate/Buffer.{h,cpp}` packing, unpacking, headers, `allocate` | MPI transport |
| `DdDomain` | `ddMd/communicate/Domain.{h,cpp}`, `Util::Grid` | parameter files |
| `DdExchange` | `ddMd/communicate/Exchanger.cpp` atoms, ghosts, update, reverse update; with groups (`Group*.lean`): `GroupStorage` `markSpanningGroups`, `pack`, `unpack`, `markGhosts`, `findGhosts` | one type of group; a group stores its atoms as a list and its pointers as a function; timers |
| `DdDistribute` | `ddMd/communicate/{AtomDistributor,GroupDistributor,AtomCollector,GroupCollector}` | - |
| `DdCellList` | `ddMd/neighbor/*`, `PairPotential::buildCellList`, `buildPairList` | statistics, `isValid` |
| `DdRun` | `ddMd/integrators/{TwoStepIntegrator,NveIntegrator,Integrator}.cpp`, `PairPotentialImpl.h` forces from lists, `AtomStorage` snapshots and transformations | bonded and external potentials, signals, analyzers, capacities; all processors make the same decision (a reduction); blocks of pairs in `computeForcesList` |
| `Pair` | `simp/interaction/pair/{LJPair,WcaPair,DpdPair,CompensatedPair}` | archives |
| `Bond` | `simp/interaction/bond/*` energies, forces, parameters (random lengths: `Cfb`) | archives |
| `Angle` | `simp/interaction/angle/*` incl. random angles; force, energy and stress of one angle in mcMd and ddMd | archives |
| `Dihedral` | `simp/interaction/dihedral/*`; force, energy and stress of one dihedral; sums over processors (`Sharing.lean`) | archives |
| `Species` | `simp/species/*` (Species, Linear, Homopolymer, Diblock, Multiblock, Ring, HomoRing, Point), structure part of `mcMd/species/HomopolymerSG`; parameter files, archives, structure text, `isValid` | `SpeciesMutator` weights and states |
| `McMem` | `mcMd/simulation/Simulation.cpp` allocation and initialization of species data, `mcMd/chemistry/Activate`, `Mask`, `Group` counters | `Simulation::isValid`, parameter files |
| `McPool` | `Simulation::getMolecule/returnMolecule`, `System::addMolecule/removeMolecule/removeAllMolecules`, molecule handling of `Generator::generate`, `ArraySet` | observers, links, placement of atoms |
| `McLink` | `mcMd/links/{Link.h,LinkMaster.h,LinkMaster.cpp}` | observers, archives, `randomLink` |
| `Cluster` | `mcMd/analyzers/system/{ClusterLink.h,Cluster.cpp,ClusterIdentifier.cpp}` | histograms and output of the analyzers, shifting of positions |
| `McMoves` | `mcMd/mcMoves/{common/AtomDisplaceMove,common/RigidDisplaceMove,linear/EndSwapMove,semigrand/HomopolymerSemiGrandMove}.cpp`, `McPairPotentialImpl` atom and molecule energies, `McSystem::atomPotentialEnergy`, `SpeciesMutator` states | choice of atom or molecule, other moves; bonded and link energies are abstract functions of the positions of their atoms |
| `Crystal` | `simp/crystal/{PointSymmetry,SymmetryGroup,PointGroup}`, set-up of wave vector tables in `StructureFactorGrid.cpp` (four analyzers) | input and output, `LatticeSystem` text, sampling; `int` overflow |
| `Cpp/Net` | processes that send and receive on channels (source, destination, tag): buffered and waiting sends | message sizes, wildcards |
| `Replica` | `mcMd/perturb/ReplicaMove.cpp` move, `LinearPerturbation.h`, derivatives in `perturb/mcSystem` | archives of these classes, attempt interval; the loop over cells is a list of pairs |
| `Ewald` | `EwaldInteraction`, `MdEwaldPotential.cpp` (waves, charge density, forces, energy, stress, `set`), cached energies of `MdCoulombPotential`, treatment of one pair in `MdEwaldPairPotentialImpl.h`; `erfc` is defined as an integral | real-space stress, pair lists, masks (pairs are given), convergence of the lattice sums |
| `Spme` | `MdSpmePotential.cpp`: spline, influence function, assignment of charges, forces, energy, stress; the transforms of FFTW are the sums that define them | real-space part, error for charges between grid points, memory of FFTW plans, `set` (as for `Ewald`) |
| `Rebridge` | `RingTetraRebridgeMove.{h,cpp}`: `modId`, `scanBridge`, `move`; `GroupRebridgeBase`: `tetraEnergy`, `angleEnergy` | choice of the molecule, cell list, rings that wind around the cell (reversibility), `RingOctaRebridgeMove` |
| `Analyze` | `AtomMSD`, `ComMSD`, `RadiusGyrationSq`, `IntraPairAutoCorr`, `LinearRouseAutoCorr`, `RingRouseAutoCorr`: the values given to the accumulators | accumulators (util), output files, changes of the number of molecules (rejected by the code) |
| `Post` | `CellList`, `Cell::getNeighbors` of mdPp, `PairEnergy::sample` | memory of cells and offsets, the limit of 2000 neighbours, output |
| `PpStore` | `AtomStorage`, `SpeciesStorage`, `Configuration` (contexts, species, groups) of mdPp, loop over atoms of `SmpConfigReader` | positions and velocities, text, allocation of arrays |
| `FreeEnergy` | `McMuExchange`, `McNVTChemicalPotential::sample`, `BennettsMethod`, `LinearPerturbation::difference` | accumulators, files, generation of trial positions, histograms |
| `Schedule` | `simulate`, `analyzeConfigs`, `analyzeTrajectory` of `McSimulation` and `MdSimulation`, `TwoStepIntegrator::run`, analyzer managers, `ModifierManager` | what a step or a sample does, timers, files, signals; `Manager` of util is trusted |
| `Select` | `PairSelector::match`, `McPairEnergyAverage`, `McPairEnergyAnalyzer`, `MdPairEnergyCoefficients`, `RDF` | accumulators of util; the cell list enters through its contract (C02 for `CellList`); files |
| `Scatter` | sampling and output of `StructureFactor`, `StructureFactorGrid`, `StructureFactorP`, `VanHove` (mcMd and ddMd) | arrays as functions; `MPI::Reduce` as a sum; `AutoCorrArray` and `AutoCorr` of util; wave tables of the grid are in C56 |
| `McRun` | `McMoveManager`, counters of `McMove`, loop and statistics of `McSimulation::simulate`, setup of integrators in `HybridMdMove`, `DpdMove`, `MdMove` | `Random::drawFrom` by its contract; moves as Markov kernels (detailed balance of single moves is in C40, C59, C62, C69, C70); replica moves are in C57 |
| `Bridge` | `CfbRebridgeBase`, `CfbRebridgeMove`, `CfbRingRebridgeMove`; angles in `CfbEndBase::deleteEndAtom` | energies, bias and densities as functions of positions; cell list and choice of molecule left out; `CfbDoubleRebridgeMove` is in `Double` |
| `Double` | `CfbDoubleRebridgeMove` | positions of any type with a squared distance; deletion and growth of segments from `Bridge`; cell list left out |
| `Traj` | trajectory writers of ddMd and mdPp, `DdMdTrajectoryReader` of mdPp, `LammpsDumpReader` of mdPp and mcMd | archive as typed values, dump as records; orthorhombic box; assignment of `positions_` to molecules in mcMd left out; DCD see `Dcd` |
| `Hoomd` | `TypeMap`, `HoomdConfigReader`, `HoomdConfigWriter` of mdPp | file as words, numbers and tags; one coordinate, orthorhombic box; a failed extraction is a `throw`; a storage that is not empty, the box node and ignored nodes left out |
| `Dcd` | `DCDTrajectoryReader`, `TrajectoryReader::addMolecules` of mcMd | file as two header fields and typed values; arbitrary values for uninitialized memory; `setOrthorhombic` accepts the lengths; bytes taken as another type are `ub` |
| `PpConf` | `DdMdConfigReader`, `DdMdConfigWriter` of mdPp | file as labels, integers and vectors; boundary as one vector; an optional label is absent at the end of the file; storages are empty before; labels read as numbers are `ub` |
| `Generate` | `mcMd/generators/{Generator,PointGenerator,LinearGenerator}.cpp`, `McSystem::generateMolecules`, `MdSystem::generateMolecules` | bookkeeping of molecules (C34), types set by mutators, final building of neighbour lists |
| `Integrate` | `mcMd/mdIntegrators/{NveVvIntegrator,NvtNhIntegrator}.cpp`, `MdSimulation::simulate`, `MdSystem` forces, shifts, kinetic energy, Boltzmann velocities, `MdPairPotential(Impl)` list and forces; `mcMoves/common/HybridMdMove.cpp` with `MdSystem` energies and signals; loops of `ddMd/integrators/{NveIntegrator,NvtIntegrator}.cpp` | parallel loop of ddMd (see `DdRun`); `Pairs.lean` instantiates the environment for the orthorhombic boundary; an exception while a list is built is the value `none` of the list |
| `Thermo` | `mcMd/mdIntegrators/{NvtLangevinIntegrator,NvtDpdVvIntegrator}.cpp`, `ddMd/integrators/NvtLangevinIntegrator.cpp` (one processor) | values of the random number generator are inputs, assumed independent with the documented distribution for statements on expectations; arrays of forces indexed by atoms; parameter reading |
| `McConfig` | `mcMd/configIos/{McMdConfigIo,McConfigIo,MdConfigIo,SmpConfigIo,DdMdConfigIo,LammpsConfigIo}.cpp`, `System::{readConfig,writeConfig,saveConfig,loadConfig,removeAllMolecules}`, `SpeciesMutator` and `setMoleculeState` of `HomopolymerSG`, `LinearSG` | white space and decimal digits; `MCMD_SHIFT`, `SIMP_TETHER` (not compilable, sources missing) |
| `External` | `simp/interaction/external/*` energies, forces, parameters | copy constructors |
| `Restart` | `save` and `loadParameters` of `simp/interaction/*` and of the integrators of mcMd and ddMd; header of `McMd::Simulation`; sections of `MdSystem` and `McSystem`; main loop of `MdSimulation` with restart files | bytes; classes that only store one table (`CosineAngle`, `CosineDihedral`); end of the archive of `GeneralPeriodicExternal` |
| `Nph` | `mcMd/mdIntegrators/NphIntegrator.cpp`, diagonal stress of `MdSystem`, main loop of `MdSimulation`; `mcMd/mcMoves/common/HybridNphMdMove.cpp` | real numbers; the stress is computed in every call (the program keeps a value until it is unset); forces and virial stress are functions of lengths, list and positions; only the three modes that the integrator knows |
| `Cfb` | `mcMd/mcMoves/linear/{CfbLinear,CfbLinearEndMove,CfbReptateMove}.cpp`; `randomBondLength` of `simp/interaction/bond/{HarmonicBond,HarmonicL0Bond,FeneBond}` | choice of the molecule; returned energies; bonds of length zero (real division instead of NaN); bonds longer than half the cell are not counted in the flow; random numbers are arguments |

## Disagreements found between code and properties

Each is a theorem with a concrete witness unless marked (text).

* `mcMd` `Cell::addAtom` overwrites an atom when a full cell is refilled after a deletion (`C01_violated`).
* `mcMd` `PairList::isCurrent` reports a cleared list as current (`C06_cleared_list_reports_current`).
* `AtomMap::removeLocal` accepts a ghost (`C07_removeLocal_accepts_ghost`); `AtomStorage::removeGhost` of a local atom loses a slot (`C08_wrong_kind_loses_slot`); removal while locked breaks displacements (`C48_removal_while_locked`).
* `GroupStorage::remove` of a pending group duplicates its slot (`C09_remove_pending_duplicates_slot`).
* `GroupStorage::unpack` discards the communication flags of a group that is already present; an angle or dihedral whose atoms enter a domain from different sides in the same step can be left without a ghost, and `findGhosts` throws (`C63_violated`).
* `Plan` text output and input disagree on ghost flags (`C10_text_violated`).
* `Buffer` headers and full blocks: writes past the end (`C13_writes_inside_violated`), buffer one byte short (`C13_full_block_refused`).
* `Domain::ownerRank` accepts negative coordinates (`C15_negative_accepted`).
* `Exchanger` leaves an atom exactly on an upper face (`C16_upper_face_stays`); such atoms are never primary atoms of pairs (`C22_upper_face_not_primary`). Ghosts are missing after long moves (`C17_beyond_reach_missing`).
* `ddMd` `CellList` with a monoclinic cell and several cells per cutoff loses pairs (`C21_mono_pairs_lost`).
* Without reverse communication thin domains count pairs twice (`C22_thin_domain_twice`); an empty first pair list throws (`C22_empty_first_build_throws`); `PairList::begin` does not reset a used iterator (`C22_reused_iterator_stale`).
* Monoclinic minimum image is not the global minimum for large separations (`C26_mono_not_global_minimum`).
* MPI transmission of a boundary loses the lattice system (`C47_mpi_loses_lattice`).
* `GroupDistributor` throws for caches larger than assumed (`C50_large_cache_throws`, `C50_full_storage_throws`).
* Lennard-Jones and WCA: `setSigma`/`set` for two different types leave the shift of one order stale, so that the energy depends on the order of the types and jumps at the cutoff (`C28_lj_setSigma_order`, `C28_lj_set_order`, `C27_lj_jump_after_setSigma`); `WcaPair` inherits `setSigma`, which makes it attractive (`C28_wca_setSigma_attractive`). Inside 0.6 sigma^2 energy and force do not match (`C27_lj_core_mismatch`).
* DPD: `set` leaves derived values stale, and `setSigma` does not update the maximum cutoff (`C28_dpd_set_stale`, `C28_dpd_maxCutoff_stale`).
* FENE: the copy constructor loses the force cutoff (`C29_fene_copy_wrong`). `randomBondLength` uses a distance as a squared distance, so that the distribution is wrong for all parameters (`C53_fene_violated`); that of harmonic bonds is wrong beyond seven standard deviations (`C53_harmonic_tail_violated`). Composite bonds add the pair force beyond its cutoff (`C29_composite_lj_partial`).
* `CosineSqAngle::set("theta0")` does not change the energy (`C30_cosSq_set_stale`); `HarmonicAngle::set("theta0")` takes radians, the file degrees (`C30_harmonic_set_units`).
* `randomAngle` of all angle classes weights by a cosine instead of a sine, and never returns angles on the other side of the right angle (`C53_randomAngle_never`, `C53_cosine_randomAngle_wrong`).
* Dihedral energies jump where bonds become collinear (`C31_cosine_jump`). The `ddMd` dihedral stress is always zero (`C52_dihedral_stress_zero`, `C52_dihedral_stress_wrong`).
* Rings of three atoms are refused when dihedrals are compiled in (`C32_ring_only`). `HomopolymerSG` and `LinearSG` lose their angles when dihedrals are compiled in, and give dihedrals the type -1 (`C32_homopolymerSG_no_angles`, `C32_homopolymerSG_dihedral_type`).
* `HomoRing::save` writes an id that is not read, so that a ring of other size is loaded without an error (`C33_homoRing_misread`, `C33_homoRing_wrong`). `Multiblock::save` omits the number of blocks and writes an array that is not read (`C33_multiblock_wrong`).
* `Species::matchStructure` compares an atom of an angle with an atom of a dihedral, out of bounds for linear chains (`C55_match_angles_ub`); it ignores type ids of groups and missing sections (`C55_match_ignores_types`, `C55_match_ignores_missing`).
* A species with two bonds between the same atoms, or an atom with five bonds, is valid but is refused when bonded pairs are masked (`C35_double_bond_throws`). With bonds in a species but no bond types `Activate` dereferences a null pointer (`C36_disabled_kind_ub`).
* `returnMolecule` accepts molecules that are still in a system and `addMolecule` molecules that are in another one (`C34_return_in_system`, `C34_add_twice`). A generator that fails loses a molecule for the rest of the run (`C34_generator_leak`).
* `LinkMaster::addLink` with the same atom twice is not refused and leaves an active link with null atoms (`C37_self_link`, `C37_self_link_strict`); `reSetAtom` onto the atom at the other end corrupts the sets (`C37_reset_onto_other`). The exceptions for inactive links cannot be reached because a null pointer is dereferenced first (`C37_reset_inactive`).
* `RigidDisplaceMove` computes the energy of each atom before the next one is displaced, so that interacting pairs within the molecule enter with a half-moved molecule: detailed balance fails (`C40_rigid_violated`). It also ignores links (text).
* `HomopolymerSemiGrandMove` ignores the external energy (`C40_semigrand_violated`) and reads `weights[-1]` for a molecule without state (`C39_semigrand_null`).
* `PointSymmetry::inverse` is a transpose, and completing the group of a sixfold rotation in hexagonal axes never ends (`C42_hexagonal_diverges`), although `LatticeSystem` includes hexagonal. Structure factor grids for lattice systems without a branch have no stars and no output (text).
* `ReplicaMove::move`: rank 0 sends the second partner index before all first ones are sent, with blocking `Send`; if sends wait for the receive, every move that moves a configuration deadlocks (`C41_waiting_sends_deadlock`). With one processor it reads beyond an array (`C41_single`). Numbers of atoms are not compared (`C41_unequal_atoms`). Atom types, velocities and a monoclinic tilt are not exchanged (text).
* `McPairExternalPerturbation::derivative(1)` has the wrong sign (`C57_pairExternal_wrong`). `McPairPerturbation::derivative` includes all pairs of different types although its parameter is the strength for types 0 and 1 (`C57_three_types_wrong`), and both divide by a parameter that may be zero (text). The index tests use `>` instead of `>=` (text).
* Restart archives hold no links (`C44_archive_links`), and loading into a system that is not empty throws (`C44_archive_nonempty`). Occupancies of states count molecules in the reservoirs, so that they are wrong after a smaller configuration has been read (`C44_occupancy`, `C44_occupancy_stale`). A molecule of a mutable species without state is written as -1, with which an array is indexed when the file is read (`C44_null_state`). With `MCMD_SHIFT` the functions `saveConfig` and `loadConfig` refer to an undeclared variable (text).
* `LammpsConfigIo::read` adds the lower corner of the cell to positions instead of subtracting it (`C58_lammps`), makes every lattice orthorhombic and shrinks tilted cells (`C58_lammps_box`); it and `DdMdConfigIo::read` accept only systems that contain every molecule of the simulation in the order of the reservoirs, and discard types (`C58_ddmd_rejected`, `C58_lammps_rejected`). `SmpConfigIo::read` rejects files of mutable species (`C58_smp_types`) and files without links although `write` makes them (`C58_smp_no_links`), writes beyond an array if the optional SPECIES block is missing (`C58_smp_no_species`), and inherits the fault of `matchStructure` for species with angles (`C58_smp_angles`).
* `MdSystem::unsetPotentialEnergy` and `McSystem::unsetPotentialEnergies` do not unset the energy of links, so that the first computed value is used forever; hybrid moves accept as if links had no energy (`C59_links`, `C59_links_violated`).
* Wall potentials: near the wall the energy is capped but the force is not zero (`C60_walls_cap_violated`); `setExternalParameter` of all walls, and `set` of boxes, leave derived values stale (`C60_walls_set_violated`).
* `PeriodicExternal` and `GeneralPeriodicExternal` accept wave vectors that are not integers (`C60_periodic_violated`); in monoclinic cells no periodic field has the period of the cell (`C60_monoclinic_violated`).
* `NucleationExternal` with a window returns a wrong force (`C60_nucleation_violated`). `SphericalTabulatedExternal` does not divide by the spacing, and throws for large spacings (`C60_tabulated_throws`); its copy constructor loses the table spacing (text), and `set("rMax")` leaves the squared radius stale (text). The copy constructor of `GeneralPeriodicExternal` allocates an array twice (text).
* `BoxExternal`, `SimplePeriodicExternal`, `GeneralPeriodicExternal` and `NucleationExternal` cannot be loaded from an archive (`C61_external_violated`).
* `CfbLinear` uses the type of a bond as the type of an angle (`C62_angles_violated`), and configurational-bias moves ignore links and tethers (`C62_links_violated`, `endMove_ignores`).
* `CfbEndMove` (older class): the loop that regrows atoms takes the types of bonds in the order of deletion, so that with two or more atoms and different bond types the wrong energies are used; `CfbEndBase` reads a null pointer if there is no angle for the next atom (text).
* `CfbReptateMove` grows the new head among atoms that still have their old types, and `junctionFactor` computes the energies of type changes without the new head, which is in no cell at that time. Detailed balance fails for chains with several types of atoms (`C70_junction_violated`).
* Configurational-bias moves accept bonds longer than half the cell, for which trial positions are not unique images and the reverse move has another length (text; hypothesis `Short` of C62).
* `NvtLangevinIntegrator` of mcMd and of ddMd: `save` writes the friction coefficient, `loadParameters` does not read it, so that every restart reads the archive out of step (C67).
* `McMd::Simulation::save` writes `hasTether_` twice if compiled with SIMP_TETHER; no such archive can be loaded (C67).
* `MdSystem::saveParameters` writes links before the external and special potentials, `loadParameters` reads them after (C67).
* `McSystem::saveParameters` saves tethers if there is an external potential instead of if there are tethers (C67).
* `PairList::isCurrent` compares positions only; in simulations with `NphIntegrator` (and the NPT integrators) the cell changes between builds, and a list that reports to be current misses pairs across the boundary (C68, `C68_list_violated`).
* `MdSystem::unsetVirialStress` does not unset the stress of links, so that a stress computed before atoms moved is reused (text).
* `HybridNphMdMove` draws the momenta of the cell with standard deviation √(T/W) where the energy `barostatEnergy()` = η²/2W requires √(T·W); detailed balance fails for every mass other than 1 (`C69_balance_violated`). In tetragonal mode the deviation of the second momentum is wrong for every mass (`C69_sigma`).
* When `HybridNphMdMove` rejects a move it restores the lengths by `setOrthorhombic`, after which a cubic or tetragonal boundary is orthorhombic (text).
* The loops that place an atom at random do not increment `iAttempt` (LinearGenerator.cpp:43, PointGenerator.cpp:40): if no position is free, generation never ends instead of failing (`C71_ends_violated`).
* `generateMolecules` starts from an empty cell list even if the system has molecules, so new atoms may overlap those (`C71_existing_violated`).
* `LinearGenerator` draws all bonds with bond type 0 and inverse temperature 1 (`C71_bond_type_violated`).
* `generateMolecules` throws an exception if all steric diameters are zero (`C71_no_diameter`).
* `MdEwaldPotential::addForces` skips atoms with a charge of at most 1e-10 (MdEwaldPotential.cpp:326), although their charge enters the energy (`C72_charge_violated`).
* Waves are not made anew when the box changes: `NphIntegrator::step` (line 211) changes the box but nothing calls `unsetWaves`, so `ksq_` and `g_` are those of the former box (`C72_stale_violated`). `MdSimulation::simulate` would make waves, but the guard is misspelled (`#ifdef UTIL_COULOMB`, MdSimulation.cpp:447; the macro is `SIMP_COULOMB`) (text).
* `MdEwaldPotential::set` unsets the k-space energy only; a cached r-space energy survives the change of epsilon, alpha or cutoff (`C72_set_violated`). `set("rSpaceCutoff")` does not change the cutoff of the pair list (text).
* The r-space energy is truncated at the cutoff without shift, so it is discontinuous there (`C72_continuous_violated`).
* Bonded pairs that are masked are left out of the r-space sum but not of the k-space sum, so masked pairs still interact by the smooth part (text).
* `MdSpmePotential::bfactor` compares with `dim/2` (integer division, MdSpmePotential.cpp:272): with an odd grid dimension one of two opposite wavevectors is dropped and the other kept (`C73_odd_violated`).
* `MdSpmePotential::setGridDimensions` accepts grid dimensions below 4, for which grid indices are out of range (`C73_range_violated`).
* The forces of `MdSpmePotential` are interpolated from fields on the grid; they are not the derivative of its energy (`C73_work_violated`).
* `MdSpmePotential::computeWaves` leaves out wavevectors with `qSq <= 1.0E-10`, an absolute threshold: in a very large box these are not only the zero vector (text).
* `RingTetraRebridgeMove` chooses one of `nGroup` candidates but accepts with the Boltzmann factor alone: detailed balance fails if the number of candidates differs after the move (`C74_balance_violated`). `RingOctaRebridgeMove` does the same (text).
* `RingOctaRebridgeMove::scanBridge` is to check that two atoms of a ring are separated by at least two atoms, but tests `dmn <= 2 && dnm <= 2` (RingOctaRebridgeMove.cpp:244), which holds only for the atom itself in rings of five atoms or more (text).
* `AtomMSD` and `ComMSD` multiply shifts by `lengths()`: in a tilted monoclinic cell an atom that crosses the tilted face is measured to have moved by the tilt (`C75_atom_mono_violated`).
* `ComMSD::moleculeCom` leaves out the last atom but divides by the number of atoms, so that a rigid displacement is measured as `(N-1)/N` of itself (`C75_com_violated`), and a crossing of the first atom adds the `N`-th part of a period (`C75_com`).
* `LinearRouseAutoCorr::setup` subtracts `0.5/N` from the last element of the projector also for odd modes, where the cosine is -1: odd amplitudes depend on the position of the first atom (`C75_linear_violated`).
* `ComMSD::loadParameters` never sets `isInitialized_`, so that `setup` throws if called on an analyzer loaded from an archive; `RDF::setup` clears the histogram but not `normSum_`; `BlockRadiusGyration` divides by the number of atoms of each type, zero for types absent from the species (text).
* `CellList::cellIndexFromPosition` of mdPp rejects positions with a coordinate equal to the lower bound, so that an atom at coordinate 0, which is inside the primary cell, has no interactions (`C76_face_violated`); rejected atoms are only counted.
* mdPp `PairEnergy` makes the grid once, in `setup`; atoms beyond the first cell's edges are rejected in later, larger cells (`C76_resize_violated`).
* mdPp `CellList` does not require three cells along each axis (an assertion asks for 27 in total): with one cell along an axis, an atom is its own neighbour, twice (`C76_narrow_violated`).
* mdPp `PairEnergy::readParameters` sets the number of atom types to one, so that types above 0 index past the end of the parameters; the READ_CONFIG command of `Processor` does not clear the configuration first; `CellList` makes its grid from `lengths()` also in tilted cells; `makeGrid` does not free the offsets of an earlier grid (text).
* `AtomStorage::add` of mdPp does not notice that an index is taken (`C77_duplicate_violated`).
* `SmpConfigReader` of mdPp does not set the index of atoms of an ordered file whose format has no `i`; the index is what was in memory (`C77_noindex_violated`).
* `AtomStorage::clear` leaves `newPtr_`: after an exception in the line of an atom the storage can never be used again (`C77_pending_violated`).
* A `SPECIES` block can be read once in the life of a `Configuration`, since `Species::setCapacity` throws the second time (`C77_reread_violated`); `nMolecule` 0 passes the check of the reader and then throws (`C77_empty_violated`).
* `SmpConfigWriter` of mdPp writes `format itmpvnAtom`, which `SmpConfigReader` rejects (`C77_format_violated`).
* `SmpConfigWriter::writeGroups` writes the number of bonds as the number of angles and of dihedrals; `Configuration::clear` has an assignment in a check (`nSpecies_ = species_.capacity()`); `SmpConfigReader` would read impropers into the dihedrals (text).
* `McNVTChemicalPotential::sample` sets `rosenbluth` to 1 and `w` to 0 before the loop over insertions, not in it: without any interaction the samples are 1, 2, 4, 8, … (`C78_insert_ideal_violated`).
* It computes the energy of the first atom without moving it to the trial position (`C78_insert_stale_violated`).
* It divides trial probabilities of the first three atoms by the product of earlier weights, so that what is given to `drawFrom` does not sum to one (`C78_probs_violated`).
* `McMuExchange` compares new types with those of the species, not of the atoms: wrong for mutable species (`C78_exchange_mutable_violated`).
* `McNVTChemicalPotential::addEndAtom` computes the last vector of the dihedral from the position of the atom before the trials; the class overrides `load` instead of `loadParameters`, and saves neither the interval nor the parameters (text).
* `BennettsMethod` on a single process waits for a message that is never sent (`C79_single_violated`).
* Without a common parameter communicator `BennettsMethod::setup` broadcasts `shifts_`, which was not allocated (`C79_separate_violated`).
* A restart file written at a step that is a multiple of the interval of an analyzer holds the sample of that step; the restarted run samples it again (`C80_restart`, `C80_dd_restart`). The same happens with `CONTINUE` and with two successive `SIMULATE` of ddMd (`C80_continue`, `C80_dd_split`).
* `analyzeConfigs` and `analyzeTrajectory` call `AnalyzerManager::sample` for every frame, which throws unless the frame is a multiple of the base interval: they fail for every base interval but 1 (`C80_configs_violated`, `C80_trajectory_violated`).
* `analyzeConfigs` throws for a single configuration, and in `McSimulation` for the configuration 0 (`C80_single_violated`).
* `analyzeTrajectory` reports one frame too many when the file ends before `max` (`C80_trajectory`).
* `ModifierManager` fills its lists in `readParameters` only and does not override `loadParameters`: after a restart no modifier is called (`C81_load_violated`).
* The functions `packExchange`, `unpackExchange`, `packUpdate`, … of `ModifierManager` are called nowhere (`C81_unused_violated`).
* `MdPairEnergyCoefficients` samples twice the pair energy for symmetric selectors (`C82_double_violated`); for two different types it counts a pair once or not at all, depending on its order in the pair list (`C82_order_violated`).
* `RDF` divides by the square of the number of all atoms whatever types are selected (`C82_rdf_norm_violated`); `normSum_` is not cleared by `setup` (`C82_rdf_again_violated`).
* The loop of ddMd `StructureFactor::sample` starts at wave 1: the first wave is always written as zero (`C83_dd_first_violated`, `C83_dd_first_witness`).
* Nothing sets `nSample_` of ddMd `StructureFactor` when its parameters are read from a file: only `clear` does, which a run does not call (`C83_dd_init_violated`).
* `StructureFactorGrid` is not reset when a second run begins, unlike `StructureFactor` of mcMd (`C83_grid_again_violated`).
* `McMoveManager::setup` is never called (McSimulation.cpp:506-512): `DpdMove` and `MdMove` read prefactors of their integrator that nothing has set (`C84_setup_violated`), and the counters of moves are summed over runs (`C84_again_violated`).
* `McMoveManager::readParameters` checks neither the signs nor the sum of the probabilities (`C84_normalize_violated`).
* `CfbEndBase::deleteEndAtom` reads a null pointer when the pivot is the centre of no angle: `CfbRebridgeMove` of two atoms or more does so next to an end of the chain, and for species without angles (`C85_angles_violated`, `C85_no_angles_violated`).
* The normalizations of the orientation bias are results of Simpson's rule, or 2 for small spring constants (CfbRebridgeBase.cpp:526-531): detailed balance holds only as far as these are exact (`C85_norm_violated`).
* `CfbRingRebridgeMove::modId` returns n for −n (`C85_modId_violated`); the move does not call it there (`C85_ring`).
* `CfbDoubleRebridgeMove` does not refuse a mutable species (`EndSwapMove` does): if the two molecules have different types of atoms, the exchange of their ends changes the energy of atoms that are not regrown, which the acceptance does not contain (`C86_mutable_violated`).
* `DdMdTrajectoryWriter` rounds a coordinate within 2⁻³³ of the upper end of the box to 2³², which does not fit in `unsigned int` (`C87_upper_violated`); atoms two lengths or more above the lower end are shifted once only (`C87_far_violated`).
* `LammpsDumpReader` of mdPp computes the lengths of the box in a dump and does not use them; that of mcMd does (`C87_dump_box_violated`, `C87_dump_mc`).
* `LammpsDumpWriter` of ddMd computes the Cartesian position of an atom and writes the stored one, which is wrong if the storage has generalized coordinates (`C87_dump_cartesian_violated`).
* `HoomdConfigReader::readGroups<N>` reads two atoms of a group for every `N`, so that no node of angles or dihedrals is read (`C88_angles_violated`).
* `readAuxiliaryFile` of the HOOMD reader and writer reads no types of dihedrals, so that no dihedral is read or written (`C88_dihedrals_violated`).
* `HoomdConfigWriter` writes atoms in the order of the storage without identifiers, and groups by identifiers (`C88_order_violated`).
* `DCDTrajectoryReader::readFrame` tests the stream after the cell and not after the coordinates, so that a frame cut off in its last block is accepted with third coordinates of the frame before (`C89_truncated_violated`).
* `DdMdConfigWriter::writeGroups` of mdPp writes the number of bonds for groups of all kinds, so that angles and dihedrals are made up, lost or refused when they are read (`C90_invented_violated`, `C90_lost_violated`, `C90_nobonds_violated`).
