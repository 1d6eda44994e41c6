{"id": "C01", "title": "Monte Carlo cell holds exactly the atoms added and not yet deleted", "statement": "After any history of adding atoms to and deleting atoms from one cell, the cell reports exactly the atoms that were added and not deleted, each at the slot recorded in its tag, and no live atom is ever overwritten; an add to a full cell is refused with an exception.", "quantifier": "every finite sequence of addAtom/deleteAtom/clear calls on a cell of any capacity, from the empty cell", "why_tests_cant": "The slot bookkeeping depends on the whole history of holes left by deletions; a test fixes a handful of histories, while the failure needs a cell filled to capacity, a hole made and refilled.", "anchors": ["src/mcMd/neighbor/Cell.h: Cell::addAtom, Cell::deleteAtom", "src/mcMd/neighbor/Cell.cpp: Cell::clear, Cell::isValid", "src/mcMd/neighbor/CellTag.h"]}
{"id": "C02", "title": "Monte Carlo neighbour query returns every atom within the cutoff", "statement": "If the cell list was set up for a boundary with a cutoff not exceeding the box lengths, then for any point in the primary cell the neighbour query returns every stored atom whose minimum-image distance from the point is less than the cutoff.", "quantifier": "all box lengths, cutoffs, atom positions in the primary cell and query points", "why_tests_cant": "Completeness is a geometric statement over a continuum of positions and box shapes, including the boxes with only one or two cells along an axis.", "anchors": ["src/mcMd/neighbor/CellList.cpp: CellList::setCellsAxis, CellList::setup, CellList::getCellNeighbors", "src/mcMd/neighbor/CellList.h: cellIndexFromPosition, shiftCellCoordAxis, getNeighbors"]}
{"id": "C03", "title": "Monte Carlo neighbour query never returns an atom twice", "statement": "For every grid size, including one or two cells along an axis, the neighbour query visits every cell at most once, so every stored atom is returned at most once.", "quantifier": "all grid dimensions >= 1 along three axes, all query cells, all cell contents", "why_tests_cant": "Double visits occur only for particular small grids along particular axes; a test can only sample grids.", "anchors": ["src/mcMd/neighbor/CellList.cpp: CellList::setCellsAxis, CellList::getCellNeighbors", "src/mcMd/neighbor/CellList.h: shiftCellCoordAxis, cellIndexFromCoord, cellCoordFromIndex"]}
{"id": "C04", "title": "Cell list tracks every atom through any history of moves", "statement": "After any sequence of adding, deleting and moving atoms in which no cell is ever filled to capacity, each stored atom is found in exactly the cell that contains its last registered position and the reported number of atoms equals the number of stored atoms.", "quantifier": "every finite sequence of addAtom/deleteAtom/updateAtomCell operations with any positions", "why_tests_cant": "Requires an invariant relating per-atom tags to per-cell slots over unbounded histories of Monte Carlo moves.", "anchors": ["src/mcMd/neighbor/CellList.h: addAtom, deleteAtom, updateAtomCell", "src/mcMd/neighbor/CellList.cpp: CellList::nAtom, CellList::isValid"]}
{"id": "C05", "title": "Monte Carlo pair list contains each nearby unmasked pair exactly once", "statement": "After the pair list is built, iterating over it yields each unordered pair of distinct unmasked atoms closer than cutoff plus skin exactly once and no other pair.", "quantifier": "every atom set, every mask relation, every configuration in which the atom and pair capacities are not exceeded", "why_tests_cant": "The pair list is stored in a compressed format with atoms without partners kept apart; counting errors are configuration dependent.", "anchors": ["src/mcMd/neighbor/PairList.cpp: PairList::build, PairList::begin", "src/mcMd/neighbor/PairIterator.h: operator++, isEnd, notEnd, getPair"]}
{"id": "C06", "title": "A pair list that reports itself current misses no interacting pair", "statement": "Whenever the pair list reports that it is current, every unmasked pair of atoms that is now closer than the potential cutoff is on the list.", "quantifier": "all trajectories of all atoms between the last build and the query, all skins and cutoffs", "why_tests_cant": "It is a statement about all possible motions since the last build; it rests on the triangle inequality for periodic distances.", "anchors": ["src/mcMd/neighbor/PairList.cpp: PairList::isCurrent, PairList::build", "src/simp/boundary/OrthorhombicBoundary.h: distanceSq"]}
{"id": "C07", "title": "Distributed atom map answers lookups correctly after any history", "statement": "After any sequence of adding and removing local atoms and ghosts, looking up a global id returns a local atom with that id if one is present, otherwise a ghost with that id if at least one is present, and null if none is; the counts of local atoms, ghosts and distinct ghost ids agree with the contents.", "quantifier": "every finite sequence of addLocal/removeLocal/addGhost/removeGhost/clearGhosts calls that do not throw, with any number of ghost images per id", "why_tests_cant": "Ghost images share ids with each other and with local atoms; correctness depends on the interleaving of additions and removals.", "anchors": ["src/ddMd/storage/AtomMap.cpp: AtomMap::addLocal, removeLocal, addGhost, removeGhost, clearGhosts, isValid", "src/ddMd/storage/AtomMap.h: find, nGhost, nGhostDistinct"]}
{"id": "C08", "title": "Distributed atom storage neither loses nor duplicates atom slots", "statement": "After any sequence of storage operations, every atom slot is in exactly one of: the free pool, the active set, or the single pending new-atom position; the reported number of atoms equals the number of atoms an iteration visits; and creation fails exactly when capacity is exhausted.", "quantifier": "every finite sequence of newAtomPtr/addNewAtom/removeAtom/clearAtoms and their ghost counterparts, including failing calls", "why_tests_cant": "Slot leaks and double frees appear only for particular interleavings, including those where a call throws half way.", "anchors": ["src/ddMd/storage/AtomStorage.cpp: AtomStorage::newAtomPtr, addNewAtom, removeAtom, clearAtoms, newGhostPtr, addNewGhost, removeGhost, clearGhosts, isValid"]}
{"id": "C09", "title": "Covalent group storage refines a map from group id to group", "statement": "After any sequence of creating, adding, returning, removing and clearing groups, looking up a group id returns the group that was added with this id and not removed, and slots are conserved.", "quantifier": "every finite sequence of newPtr/add/returnPtr/remove/clearGroups operations", "why_tests_cant": "Same reason as for the atom storage: the state depends on the full history.", "anchors": ["src/ddMd/storage/GroupStorage.h", "src/ddMd/storage/GroupStorage.tpp: newPtr, returnPtr, add, remove, clearGroups, isValid"]}
{"id": "C10", "title": "Communication plan flags are independent and survive printing", "statement": "Setting or clearing one exchange or ghost flag of a communication plan changes that flag only, clearing all flags clears all, and writing a plan as text and reading it back yields the same plan.", "quantifier": "all plan values, all directions and signs", "why_tests_cant": "Flag independence must hold for all plan values and all sequences of updates.", "anchors": ["src/ddMd/communicate/Plan.h: Plan::setExchange, setGhost, clearExchange, clearGhost, exchange, ghost", "src/ddMd/communicate/Plan.cpp: operator>>, operator<<"]}
{"id": "C11", "title": "An atom's ghost flag and array index are independent", "statement": "Marking an atom as ghost or local never changes which array slot it refers to, and vice versa.", "quantifier": "all array indices and all sequences of marking operations", "why_tests_cant": "The two are packed into a single integer and every later access decodes it.", "anchors": ["src/ddMd/chemistry/Atom.h: setIsGhost, isGhost", "src/ddMd/chemistry/AtomArray.cpp: AtomArray::allocate"]}
{"id": "C12", "title": "Message buffer round trip", "statement": "Any sequence of values packed into a send buffer between opening and closing a block, once transmitted, is unpacked on the receiving side in the same order with the same values, item count, block type and completion flag; any sequence of blocks round-trips block by block.", "quantifier": "every sequence of blocks, of any types, with any number of items, with capacity not exceeded", "why_tests_cant": "Covers all message layouts, including empty blocks and interleavings of block types.", "anchors": ["src/ddMd/communicate/Buffer.h: pack, unpack, recvSize, sendSize", "src/ddMd/communicate/Buffer.cpp: clearSendBuffer, beginSendBlock, endSendBlock, beginRecvBlock, endRecvBlock, send, recv, sendRecv"]}
{"id": "C13", "title": "Message buffer never writes outside its allocation", "statement": "For all configured capacities, every accepted pack operation writes inside the allocated buffer, and the configured number of atoms or ghosts always fits in a single block.", "quantifier": "all atom and ghost capacities, all accepted pack sequences", "why_tests_cant": "Out-of-bounds behaviour at exactly full buffers is a boundary case that depends on the configured capacity.", "anchors": ["src/ddMd/communicate/Buffer.cpp: Buffer::allocate, readParameters, beginSendBlock", "src/ddMd/communicate/Buffer.h: packedValue bound checks"]}
{"id": "C14", "title": "Processor grid neighbours are mutually consistent", "statement": "For every grid, whenever one processor names another as its destination in a transfer direction, that other processor names the first as its source in the same transfer, and the periodic shift is nonzero exactly when the transfer crosses the periodic boundary.", "quantifier": "all grid dimensions, all ranks, all six transfer directions", "why_tests_cant": "A mismatch deadlocks or misroutes messages and only appears for certain grids.", "anchors": ["src/ddMd/communicate/Domain.cpp: Domain::initialize", "src/ddMd/communicate/Domain.h: sourceRank, destRank, shift"]}
{"id": "C15", "title": "Every position is owned by exactly one processor and both ownership tests agree", "statement": "For every position with scaled coordinates in [0,1) exactly one processor reports that the position is in its domain, and it is the one returned by the owner query; other positions are rejected by the owner query.", "quantifier": "all grid dimensions and all real positions", "why_tests_cant": "Continuum of positions; the truncation used by the owner query behaves differently for negative coordinates.", "anchors": ["src/ddMd/communicate/Domain.cpp: Domain::ownerRank, Domain::isInDomain, Domain::domainBound"]}
{"id": "C16", "title": "Atom exchange conserves atoms and delivers each to its owner", "statement": "After an exchange every atom of the system is stored by exactly one processor, with the same identity, velocity and type and a position equal modulo the lattice, and that position lies in the processor's domain, provided no atom moved farther than one domain before the exchange.", "quantifier": "all processor grids, all numbers and positions of atoms, all processors running concurrently", "why_tests_cant": "A distributed algorithm over all configurations; tests sample a few grids and random positions.", "anchors": ["src/ddMd/communicate/Exchanger.cpp: Exchanger::exchangeAtoms"]}
{"id": "C17", "title": "Ghost exchange supplies every atom within the ghost cutoff", "statement": "After exchange each processor holds, as local atom or ghost, an image of every atom of the system lying within the ghost slab of its domain, each image exactly once, with the correct position.", "quantifier": "all processor grids, all atom positions, slab widths not exceeding the domain width", "why_tests_cant": "Edge and corner regions are served by forwarding through several transfers; all geometries must be covered.", "anchors": ["src/ddMd/communicate/Exchanger.cpp: Exchanger::exchangeAtoms (plans), Exchanger::exchangeGhosts, Exchanger::update"]}
{"id": "C18", "title": "Reverse communication adds every ghost force to its owner exactly once", "statement": "After reverse update the force on each local atom equals its local force plus the sum of forces accumulated on all its ghost images on all processors.", "quantifier": "all forwarding patterns, all force values", "why_tests_cant": "Forces pass through chains of ghosts; the order of directions matters for every pattern.", "anchors": ["src/ddMd/communicate/Exchanger.cpp: Exchanger::reverseUpdate, Exchanger::update"]}
{"id": "C19", "title": "Distributing atoms from the master delivers each atom exactly once to its owner", "statement": "For any sequence of atoms read on the master, with any cache capacity and send-buffer capacity at least one, after the send completes each atom has been delivered exactly once, to its owner, unchanged.", "quantifier": "every atom sequence, owner function, cache capacity and send capacity, including send blocks triggered at arbitrary points", "why_tests_cant": "The caching protocol decides dynamically which processor to flush; correctness is over all arrival orders.", "anchors": ["src/ddMd/communicate/AtomDistributor.cpp: AtomDistributor::newAtomPtr, addAtom, send, receive"]}
{"id": "C20", "title": "Collecting atoms on the master yields each atom exactly once", "statement": "Iterating the collector on the master yields every atom stored on every processor exactly once and then null, for all processor atom counts and buffer sizes.", "quantifier": "all numbers of processors, atoms per processor and receive-buffer sizes >= 1", "why_tests_cant": "The collector interleaves local iteration and repeated requests; termination and exactly-once delivery depend on all size combinations.", "anchors": ["src/ddMd/communicate/AtomCollector.cpp: AtomCollector::setup, nextPtr, send", "src/ddMd/communicate/GroupCollector.tpp"]}
{"id": "C21", "title": "Distributed cell list finds every pair within the cutoff", "statement": "For an orthogonal cell, every two atoms (local or ghost) in the extended domain closer than the cutoff lie in the same cell or in cells related by a stored offset, for every allowed number of cells per cutoff.", "quantifier": "all domain sizes, cutoffs, subdivisions of the cutoff, atom positions", "why_tests_cant": "Pruning of far corner cells is a geometric argument; a wrongly pruned cell loses rare pairs only.", "anchors": ["src/ddMd/neighbor/CellList.cpp: CellList::makeGrid, setGridDimensions, cellIndexFromPosition", "src/ddMd/neighbor/Cell.cpp: Cell::getNeighbors"]}
{"id": "C22", "title": "Distributed neighbour enumeration visits each interacting pair exactly once", "statement": "Without reverse communication, each local-local pair of neighbouring atoms is produced exactly once over all local cells and each local-ghost pair exactly once; with reverse communication every pair is produced exactly once by one of the two cells.", "quantifier": "all grid dimensions, all numbers of cells per cutoff, all cell contents", "why_tests_cant": "Double counting occurs only in thin domains where a strip of ghost cells wraps local cells.", "anchors": ["src/ddMd/neighbor/Cell.cpp: Cell::getNeighbors", "src/ddMd/neighbor/PairList.cpp: PairList::build"]}
{"id": "C23", "title": "Periodic wrapping puts positions in the primary cell without changing them modulo the lattice", "statement": "Shifting a position that is at most one period outside the cell yields a position in the half-open primary cell which differs from the original by a lattice vector; recorded shift counts reconstruct the original; wrapping twice equals wrapping once.", "quantifier": "all box lengths, all positions, all lattice types", "why_tests_cant": "Continuum of positions and box lengths; the outcome at the boundaries matters.", "anchors": ["src/simp/boundary/OrthorhombicBoundary.h: shift, applyShift, shiftGen", "src/simp/boundary/MonoclinicBoundary.h: shift, applyShift"]}
{"id": "C24", "title": "Minimum-image distance is the true periodic distance", "statement": "For positions in the primary cell of an orthorhombic box the squared distance returned is the minimum over all lattice translations of the squared distance, is symmetric, and the returned separation vector realises it.", "quantifier": "all box lengths and positions", "why_tests_cant": "A minimum over infinitely many images for a continuum of inputs.", "anchors": ["src/simp/boundary/OrthorhombicBoundary.h: distanceSq, isMinImage", "src/simp/boundary/OrthorhombicBoundary.cpp"]}
{"id": "C25", "title": "Cartesian and scaled coordinates are inverse transformations", "statement": "Transforming Cartesian to scaled coordinates and back is the identity, scaled coordinates of positions in the primary cell lie in [0,1), reciprocal and direct basis vectors are dual, and volume equals the determinant of the basis, for every supported lattice.", "quantifier": "all lattice parameters and positions", "why_tests_cant": "Algebraic identities over all real parameters, including the tilted lattice.", "anchors": ["src/simp/boundary/OrthorhombicBoundary.h: transformCartToGen, transformGenToCart", "src/simp/boundary/MonoclinicBoundary.h: transformCartToGen, transformGenToCart", "src/simp/boundary/MonoclinicBoundary.cpp: reset"]}
{"id": "C26", "title": "Tilted-cell minimum image is exact within the interaction range", "statement": "For the monoclinic cell, if any periodic image of a pair is closer than half the minimum plane spacing then the returned squared distance is the true minimum over all images.", "quantifier": "all monoclinic cells and positions", "why_tests_cant": "Search over all lattice images for a continuum of tilts; the routine only inspects a few images.", "anchors": ["src/simp/boundary/MonoclinicBoundary.h: distanceSq", "src/simp/boundary/MonoclinicBoundary.cpp: minLength"]}
{"id": "C27", "title": "Pair forces are minus the derivative of pair energies", "statement": "For each pair potential and separation inside the cutoff and outside the core clamp, the returned force-over-distance equals minus the derivative of the energy with respect to distance, divided by distance; the energy is zero at and beyond the cutoff, and continuous there.", "quantifier": "all type pairs, all parameter values, all separations", "why_tests_cant": "A derivative identity over a continuum; numerical tests sample distances.", "anchors": ["src/simp/interaction/pair/LJPair.h: energy, forceOverR", "src/simp/interaction/pair/WcaPair.cpp", "src/simp/interaction/pair/DpdPair.h: energy, forceOverR"]}
{"id": "C28", "title": "Pair parameters stay symmetric and derived tables stay consistent after any sequence of updates", "statement": "After any sequence of parameter modifications through the public setters, the energy of a pair of types does not depend on the order of types and equals the energy computed from the current public parameters.", "quantifier": "every finite sequence of setEpsilon/setSigma/set calls on every pair of types", "why_tests_cant": "Depends on histories of parameter modification, used by perturbation and adaptive methods.", "anchors": ["src/simp/interaction/pair/LJPair.cpp: LJPair::setEpsilon, setSigma, set, get", "src/simp/interaction/pair/WcaPair.cpp: WcaPair::set", "src/simp/interaction/pair/DpdPair.cpp: DpdPair::setEpsilon, setSigma, set"]}
{"id": "C29", "title": "Bond forces are minus the derivative of bond energies", "statement": "For harmonic, zero-length harmonic, FENE and composite bonds the force-over-distance equals minus the energy derivative divided by distance at all admissible lengths, including across the FENE crossover where energy and force are continuous.", "quantifier": "all parameters and bond lengths", "why_tests_cant": "Derivative identity over a continuum with a piecewise definition.", "anchors": ["src/simp/interaction/bond/HarmonicBond.h", "src/simp/interaction/bond/HarmonicL0Bond.h", "src/simp/interaction/bond/FeneBond.h", "src/simp/interaction/bond/CompositeBond.h"]}
{"id": "C30", "title": "Angle forces are gradients of angle energies", "statement": "For cosine, squared-cosine and harmonic angle potentials, the two force vectors are the gradients of the energy with respect to the two bond vectors; the resulting total force and torque on the three atoms vanish.", "quantifier": "all non-degenerate bond vectors and parameters", "why_tests_cant": "Multivariate derivative identity over a continuum of geometries.", "anchors": ["src/simp/interaction/angle/Bend.h", "src/simp/interaction/angle/BendForce.h", "src/simp/interaction/angle/CosineAngle.h", "src/simp/interaction/angle/CosineSqAngle.h", "src/simp/interaction/angle/HarmonicAngle.h"]}
{"id": "C31", "title": "Dihedral energies and forces are consistent", "statement": "The cosine returned for four non-degenerate atoms lies in [-1,1]; the Fourier dihedral energy equals the Fourier sum of multiples of the dihedral angle; forces are gradients with respect to the three bond vectors.", "quantifier": "all non-degenerate bond vectors and parameters", "why_tests_cant": "Multivariate derivative identity over a continuum of geometries.", "anchors": ["src/simp/interaction/dihedral/Torsion.h", "src/simp/interaction/dihedral/TorsionForce.h", "src/simp/interaction/dihedral/CosineDihedral.h", "src/simp/interaction/dihedral/FourierDihedral.h"]}
{"id": "C32", "title": "Species builders produce valid molecular structures", "statement": "For every admissible number of atoms the linear, ring and block builders produce structures with the right number of bonds, angles and dihedrals, whose groups consist of distinct atoms in range, with every atom listed in exactly the groups that contain it.", "quantifier": "all chain lengths and block lengths, all combinations of optional angles and dihedrals", "why_tests_cant": "Unbounded chain lengths.", "anchors": ["src/simp/species/Linear.cpp: buildLinear", "src/simp/species/Ring.cpp: buildRing", "src/simp/species/Species.cpp: makeBond, makeAngle, makeDihedral, initializeAtomGroupIdArrays, isValid", "src/simp/species/Diblock.cpp", "src/simp/species/Multiblock.cpp"]}
{"id": "C33", "title": "Saving and loading a species restores it", "statement": "For every species class, saving to an archive and loading from it consumes exactly what was written and restores the same structure.", "quantifier": "all species parameters", "why_tests_cant": "A mismatch between save and load corrupts everything that follows in the restart file for particular species only.", "anchors": ["src/simp/species/Species.cpp: save, loadParameters", "src/simp/species/Homopolymer.cpp", "src/simp/species/HomoRing.cpp", "src/simp/species/Diblock.cpp", "src/simp/species/Multiblock.cpp", "src/simp/species/Point.cpp"]}
{"id": "C34", "title": "Molecule pools conserve molecules", "statement": "After any sequence of getting, adding, removing and returning molecules of any species in any number of systems, each molecule is in exactly one place (pool or one system), the counts reported agree with the contents, and every request beyond capacity is refused.", "quantifier": "every finite sequence of getMolecule/returnMolecule/addMolecule/removeMolecule operations for any species capacities", "why_tests_cant": "Depends on arbitrary histories of operations.", "anchors": ["src/mcMd/simulation/Simulation.cpp: getMolecule, returnMolecule, initializeSpeciesMolecules, isValid", "src/mcMd/simulation/System.cpp: addMolecule, removeMolecule, removeAllMolecules, moleculeId, nAtom"]}
{"id": "C35", "title": "Memory blocks of molecules and groups partition the global arrays", "statement": "For every list of species the blocks of atoms, bonds, angles and dihedrals assigned to molecules are disjoint, contiguous and cover the global arrays; each group refers to atoms of its own molecule as prescribed by the species.", "quantifier": "all lists of species with arbitrary sizes and capacities", "why_tests_cant": "Offsets are prefix sums over arbitrary species lists.", "anchors": ["src/mcMd/simulation/Simulation.cpp: initializeSpeciesData, initializeSpeciesMolecules, initializeSpeciesBonds, initializeSpeciesAngles, initializeSpeciesDihedrals"]}
{"id": "C36", "title": "Group activity counters equal the number of inactive atoms", "statement": "After any sequence of activating and deactivating atoms of a molecule, each covalent group's inactive count equals the number of its atoms that are inactive, so the group is reported active exactly when all its atoms are.", "quantifier": "every finite sequence of activate, deactivate and reactivate operations on any structure", "why_tests_cant": "Counters drift only for particular histories or for structures with repeated atoms.", "anchors": ["src/mcMd/chemistry/Activate.cpp: deactivate, reactivate, activate", "src/mcMd/chemistry/Group.h"]}
{"id": "C37", "title": "Link registry stays consistent", "statement": "After any sequence of adding, removing and re-attaching links between distinct atoms, the set of links registered with each atom is exactly the set of active links having that atom as an end; link slots are conserved.", "quantifier": "every finite sequence of addLink/removeLink/reSetAtoms/reSetAtom/clear operations", "why_tests_cant": "Depends on the history and on corner cases such as attaching both ends to the same atom.", "anchors": ["src/mcMd/links/LinkMaster.cpp: addLink, removeLink, reSetAtoms, reSetAtom, clear, isValid", "src/mcMd/links/Link.h: setAtoms, clear"]}
{"id": "C38", "title": "Cluster identification computes connected components", "statement": "The clusters reported partition the molecules of the species, and two molecules share a cluster exactly when they are connected through a chain of neighbouring molecules.", "quantifier": "every neighbour graph on any number of molecules", "why_tests_cant": "Statement about all graphs; needs an invariant of the flood fill.", "anchors": ["src/mcMd/analyzers/system/ClusterIdentifier.cpp: identifyClusters, processNextMolecule", "src/mcMd/analyzers/system/Cluster.cpp: addLink, clear"]}
{"id": "C39", "title": "Rejected Monte Carlo moves leave the system unchanged", "statement": "A rejected atom displacement, rigid displacement, end swap or semigrand move leaves every atom position, type and cell assignment as it was; an accepted one leaves the cell list consistent with the new positions; in both cases the attempt counter grows by one and the accept counter by the acceptance.", "quantifier": "all configurations, all random outcomes, all move sequences", "why_tests_cant": "State restoration must hold for every history and random stream.", "anchors": ["src/mcMd/mcMoves/common/AtomDisplaceMove.cpp: move", "src/mcMd/mcMoves/common/RigidDisplaceMove.cpp: move", "src/mcMd/mcMoves/linear/EndSwapMove.cpp: move", "src/mcMd/mcMoves/semigrand/HomopolymerSemiGrandMove.cpp: move"]}
{"id": "C40", "title": "Metropolis acceptance satisfies detailed balance", "statement": "With the acceptance rule used by the moves, the Boltzmann (or semigrand) weight of a state times the acceptance probability of a move equals the weight of the target times the acceptance of the reverse move.", "quantifier": "all energies, all temperatures, all state weights", "why_tests_cant": "Probabilistic identity over all reals.", "anchors": ["src/mcMd/mcMoves/SystemMove.h: boltzmann", "src/mcMd/mcMoves/semigrand/HomopolymerSemiGrandMove.cpp", "src/mcMd/mcMoves/common/AtomDisplaceMove.cpp"]}
{"id": "C41", "title": "Replica exchange permutes configurations among processors", "statement": "After a replica exchange the configurations (boundary and positions) on the processors are a permutation of those before, every processor logs where its configuration went, processors that keep their configuration are not involved, and no processor waits forever, whatever the timing of messages.", "quantifier": "all numbers of processors, atoms, parameters and attempts, all random numbers, all interleavings of the processors", "why_tests_cant": "All permutations and all schedules of all processors.", "anchors": ["src/mcMd/perturb/ReplicaMove.cpp: move"]}
{"id": "C42", "title": "Point-group closure terminates with a valid group", "statement": "Starting from any set of signed permutation matrices the completion procedure terminates and yields the smallest set containing the generators and closed under product and inverse; a star is the orbit of its root without duplicates.", "quantifier": "all generator sets of crystal point symmetries, all root vectors", "why_tests_cant": "Quantifies over all generator sets and requires termination.", "anchors": ["src/simp/crystal/PointSymmetry.h", "src/simp/crystal/PointSymmetry.cpp: inverse", "src/simp/crystal/SymmetryGroup.h: add, makeCompleteGroup, isValid", "src/simp/crystal/PointGroup.cpp: makeStar"]}
{"id": "C43", "title": "Velocity-Verlet integration is time reversible and conserves momentum", "statement": "One step of the constant-energy integrator followed by velocity reversal and another step returns to the initial positions with reversed velocities; total momentum is conserved when forces sum to zero.", "quantifier": "all force fields, masses, step sizes, numbers of steps and atoms", "why_tests_cant": "Identity for all force functions and unbounded numbers of steps.", "anchors": ["src/mcMd/mdIntegrators/NveVvIntegrator.cpp: step", "src/ddMd/integrators/NveIntegrator.cpp"]}
{"id": "C44", "title": "Configuration files round trip", "statement": "Writing a configuration and reading it back restores boundary, molecule counts and atom positions for every species composition.", "quantifier": "all species compositions and contents, exact decimal text", "why_tests_cant": "All compositions and orders.", "anchors": ["src/mcMd/configIos/McConfigIo.cpp", "src/mcMd/configIos/MdConfigIo.cpp", "src/mcMd/configIos/McMdConfigIo.cpp", "src/mcMd/simulation/System.cpp: loadConfig, saveConfig"]}
{"id": "C45", "title": "Group of atoms: local and ghost resolution counts", "statement": "For every covalent group the number of atoms resolved as local plus those resolved as ghosts equals the number of atoms present on the processor, and a group is transferred whenever it spans the domain boundary.", "quantifier": "all groups and all placements of their atoms", "why_tests_cant": "All combinations of presence of each atom on each processor.", "anchors": ["src/ddMd/storage/AtomMap.h: findGroupLocalAtoms, findGroupGhostAtoms", "src/ddMd/storage/GroupStorage.tpp: markSpanningGroups, markGhosts, findGhosts", "src/ddMd/chemistry/Group.h"]}
{"id": "C46", "title": "Excluded-pair mask", "statement": "After any sequence of accepted appends, a mask answers membership exactly for the appended atoms; duplicates and overflow are refused.", "quantifier": "every finite sequence of append/clear operations", "why_tests_cant": "Unbounded histories.", "anchors": ["src/ddMd/chemistry/Mask.h", "src/ddMd/chemistry/Mask.cpp", "src/mcMd/chemistry/Mask.h", "src/mcMd/chemistry/Mask.cpp"]}
{"id": "C47", "title": "A boundary survives being written, read, archived and sent", "statement": "Each setter of a periodic boundary produces exactly the requested cell; writing a boundary as text or to an archive and reading it into any other boundary object, or sending it to another processor, reproduces the original boundary.", "quantifier": "all boundaries reachable by the setters, all previous states of the receiving object", "why_tests_cant": "All lengths and tilts, all previous states.", "anchors": ["src/simp/boundary/OrthorhombicBoundary.cpp: setOrthorhombic, setTetragonal, setCubic, operator >>, operator <<, send, recv, bcast", "src/simp/boundary/OrthorhombicBoundary.h: serialize", "src/simp/boundary/MonoclinicBoundary.cpp", "src/simp/boundary/MonoclinicBoundary.h: serialize"]}
{"id": "C48", "title": "Displacement since the snapshot is the true maximum", "statement": "Between taking a snapshot of the distributed atom storage and the next change of its set of local atoms, the reported maximum squared displacement equals the largest squared displacement of any local atom from its position at the time of the snapshot.", "quantifier": "every storage content, every sequence of position changes and of calls that the lock lets through or refuses", "why_tests_cant": "Positions are stored by iteration order, so a single permuted or missing atom silently gives a plausible but wrong number, and an outdated neighbour list.", "anchors": ["src/ddMd/storage/AtomStorage.cpp: AtomStorage::makeSnapshot, clearSnapshot, maxSqDisplacement, removeAtom"]}
{"id": "C49", "title": "Coordinate transformations touch every stored atom exactly once", "statement": "Transforming the stored atoms between Cartesian and generalized coordinates applies the transformation exactly once to each local atom and each ghost and to no other atom, is refused when the coordinates already are of the requested kind, and the inverse transformation restores all positions.", "quantifier": "every history of storage operations, every transformation function", "why_tests_cant": "Applying the transformation twice to one atom among many is invisible except in particular storage states.", "anchors": ["src/ddMd/storage/AtomStorage.cpp: AtomStorage::transformCartToGen, transformGenToCart"]}
{"id": "C50", "title": "Distributing groups gives each processor exactly the groups it needs", "statement": "For any sequence of groups read on the master, after distribution every processor holds exactly the groups of which it owns at least one atom, each once, in order, and the consistency tests pass whenever every atom of every group is owned by exactly one processor.", "quantifier": "every sequence of groups, every assignment of atoms to processors, every cache and buffer capacity for which the cache fits in the buffer", "why_tests_cant": "The cache is broadcast at points that depend on its capacity; correctness is over all group counts and ownership patterns.", "anchors": ["src/ddMd/communicate/GroupDistributor.tpp: setup, newPtr, add, send, receive, validate"]}
{"id": "C52", "title": "Energies and stresses of groups do not depend on the distribution of atoms", "statement": "In a parallel simulation the total bond, angle and dihedral energy is the sum over all groups, and the total stress is the virial of the forces on atoms, whatever processors own the atoms of each group.", "quantifier": "all sets of groups, numbers of processors and assignments of atoms to processors", "why_tests_cant": "Every pattern of ownership of the atoms of a group by processors.", "anchors": ["src/ddMd/potentials/bond/BondPotentialImpl.h: computeEnergy, computeStress, computeForcesAndStress", "src/ddMd/potentials/angle/AnglePotentialImpl.h: computeEnergy, computeStress", "src/ddMd/potentials/dihedral/DihedralPotentialImpl.h: computeEnergy, computeStress", "src/ddMd/potentials/Potential.cpp: reduceEnergy, reduceStress"]}
{"id": "C53", "title": "Random bond lengths and angles follow the Boltzmann distribution", "statement": "The functions that generate a random bond length, bond angle or cosine of a bond angle return values distributed as for a randomly oriented bond weighted by the Boltzmann factor of the interaction.", "quantifier": "all parameters, temperatures and sets of values", "why_tests_cant": "A distribution is not visible in any finite sample, and an acceptance rule with a wrong weight still returns plausible values.", "anchors": ["src/simp/interaction/angle/CosineAngle.cpp: randomAngle, randomCosineAngle", "src/simp/interaction/angle/CosineSqAngle.cpp: randomAngle, randomCosineAngle", "src/simp/interaction/angle/HarmonicAngle.cpp: randomAngle, randomCosineAngle", "src/simp/interaction/bond/HarmonicBond.cpp: randomBondLength", "src/simp/interaction/bond/HarmonicL0Bond.cpp: randomBondLength", "src/simp/interaction/bond/FeneBond.cpp: randomBondLength"]}
{"id": "C55", "title": "The text of a molecular structure determines the species", "statement": "Writing the structure of a species in the format of topology files and reading it back gives the same species, and comparing a species with a structure in a file succeeds exactly if they agree.", "quantifier": "all species the program accepts, and all texts that follow the structure", "why_tests_cant": "The format has optional sections whose presence depends on the data; agreement of the two readers and the writer for all combinations cannot be enumerated.", "anchors": ["src/simp/species/Species.cpp: writeStructure, readStructure, matchStructure"]}
{"id": "C56", "title": "Structure factor grids list every wave vector once, grouped by symmetry", "statement": "For a cubic, tetragonal or orthorhombic lattice and a maximum index h, the set-up of a structure factor grid succeeds, its table contains every integer vector with components at most h in absolute value exactly once, and each star consists of exactly the vectors that can be obtained from its first one by symmetries of the lattice; the numbers of stars and of waves computed in advance are right.", "quantifier": "all three lattice systems, all maximum indices", "why_tests_cant": "The counts and the partition must hold for every size; tests try a few.", "anchors": ["src/mcMd/analyzers/system/StructureFactorGrid.cpp: readParameters", "src/ddMd/analyzers/scattering/StructureFactorGrid.cpp: readParameters", "src/simp/crystal/PointGroup.h: makeStar"]}
{"id": "C57", "title": "Replica exchange satisfies detailed balance", "statement": "The product over all replicas of the Boltzmann factors of the perturbed energies, times the probability that an exchange move applies a permutation, equals the same for the permuted state and the inverse permutation; the derivative returned by a linear perturbation is the slope of the reduced energy in its parameter.", "quantifier": "all numbers of replicas, attempts, parameters, all configurations; all systems and parameter values for the derivatives", "why_tests_cant": "A probability is not visible in a finite sample; all parameter values.", "anchors": ["src/mcMd/perturb/ReplicaMove.cpp: move", "src/mcMd/perturb/LinearPerturbation.h: difference", "src/mcMd/perturb/mcSystem/McEnergyPerturbation.cpp: derivative", "src/mcMd/perturb/mcSystem/McPairPerturbation.h: derivative", "src/mcMd/perturb/mcSystem/McExternalPerturbation.cpp: derivative", "src/mcMd/perturb/mcSystem/McPairExternalPerturbation.h: derivative"]}
{"id": "C58", "title": "Simpatico, DdMd and LAMMPS files round trip", "statement": "A configuration written in the Simpatico, DdMd or LAMMPS format and read back restores the boundary, the molecule counts and the atom positions; files that cannot be restored are rejected.", "quantifier": "all species compositions and contents, exact decimal text, both boundary types", "why_tests_cant": "Each format has its own conditions on composition, order, types and links; only a proof shows which configurations survive.", "anchors": ["src/mcMd/configIos/SmpConfigIo.cpp: read, write", "src/mcMd/configIos/DdMdConfigIo.cpp: read, write", "src/mcMd/configIos/LammpsConfigIo.cpp: read, write"]}
{"id": "C59", "title": "Hybrid MD/MC moves restore rejected configurations and satisfy detailed balance", "statement": "A hybrid move accepts with the Metropolis probability of the change of the total energy along the velocity Verlet trajectory; after rejection all positions, the cell list and the count of accepted moves are as before; after acceptance the atoms are at the end of the trajectory, inside the primary cell, and in the cell list. The Boltzmann weight of a set of configurations times the probability of an accepted move into another set is the same in both directions.", "quantifier": "all numbers of atoms, interactions with a cutoff, time steps, numbers of steps, deviates, states of the pair list and of stored energies", "why_tests_cant": "A probability flow between sets of configurations is not visible in samples, and a stale stored energy shifts it without any crash.", "anchors": ["src/mcMd/mcMoves/common/HybridMdMove.cpp: move", "src/mcMd/mdSimulation/MdSystem.cpp: potentialEnergy, unsetPotentialEnergy, setBoltzmannVelocities", "src/mcMd/mdIntegrators/NveVvIntegrator.cpp: setup, step", "src/mcMd/potentials/pair/McPairPotential.cpp: buildCellList", "src/mcMd/potentials/misc/EnergyCalculator.cpp: energy"]}
{"id": "C60", "title": "External forces are the negative gradients of external energies", "statement": "For every external interaction, the force returned for a position and atom type is minus the gradient of the energy, the energy has the period of the cell where the field is meant to be periodic, and setting a parameter has the effect of reading that value.", "quantifier": "all parameters, positions and atom types at which the energy is smooth", "why_tests_cant": "A force that is wrong by a factor that happens to be one for the tested parameters, or at isolated positions, is invisible in samples.", "anchors": ["src/simp/interaction/external/SlitExternal.cpp, BoxExternal.cpp, OrthoBoxExternal.cpp", "src/simp/interaction/external/LamellarOrderingExternal.h", "src/simp/interaction/external/SimplePeriodicExternal.h, PeriodicExternal.h, GeneralPeriodicExternal.h", "src/simp/interaction/external/NucleationExternal.h", "src/simp/interaction/external/SphericalTabulatedExternal.h"]}
{"id": "C61", "title": "Interactions are restored from restart archives", "statement": "Loading what an interaction saved, into a new object with the same numbers of types, restores every parameter and derived value of these types, reads exactly what was written, and so gives the same energies and forces.", "quantifier": "all interaction classes of pairs, bonds, angles, dihedrals and external fields, all parameter values, any rest of the archive", "why_tests_cant": "A single class or member that is not written is found only if every one is compared after loading.", "anchors": ["src/simp/interaction/pair/*.cpp: save, loadParameters", "src/simp/interaction/bond/*.cpp: save, loadParameters", "src/simp/interaction/angle/*.cpp: save, loadParameters", "src/simp/interaction/dihedral/FourierDihedral.cpp: save, loadParameters", "src/simp/interaction/external/*.cpp: save, loadParameters"]}
{"id": "C62", "title": "Configurational-bias regrowth of chain ends satisfies detailed balance", "statement": "Regrowing the last atoms of a linear molecule with CfbLinearEndMove keeps the Boltzmann distribution: the probability flow from any set of configurations to any other equals the flow back, with the energy of the whole system (pairs, bonds, angles, external fields, links, tethers). Whatever random numbers are drawn the move completes, leaves the cell list consistent, keeps types and all other atoms, counts the attempt, and restores the configuration if rejected.", "quantifier": "all chains, numbers of regrown atoms and of trial positions, both ends, interaction parameters, positions, measurable sets of configurations, random numbers", "why_tests_cant": "Detailed balance is an equality of integrals over all random numbers and configurations; a simulation only samples it with statistical errors, and a biased weight can be hidden by a symmetric test system.", "anchors": ["src/mcMd/mcMoves/linear/CfbLinear.cpp: deleteAtom, addAtom", "src/mcMd/mcMoves/linear/CfbLinearEndMove.cpp: move"]}
{"id": "C63", "title": "Exchange delivers every bonded group to the processors that need it", "statement": "After an exchange each processor stores exactly the bonds, angles and dihedrals that contain at least one of its local atoms, each once, and each of their atoms is present on that processor as a local atom or as a ghost, all at the same periodic image of the group, so that all bonded forces on local atoms can be computed. Adding ghosts for groups changes neither the owners of atoms nor the ghosts needed for pair forces.", "quantifier": "all processor grids, all numbers, positions and connectivities of groups smaller than a domain, all sequences of exchanges", "why_tests_cant": "Groups that span several domains, and atoms of one group that leave a domain in different directions in the same step, are rare events in a simulation; all geometries must be covered.", "anchors": ["src/ddMd/communicate/Exchanger.cpp: exchangeAtoms, exchangeGhosts", "src/ddMd/storage/GroupStorage.tpp: markSpanningGroups, pack, unpack, markGhosts, findGhosts"]}
{"id": "C64", "title": "A parallel simulation follows the velocity Verlet algorithm for the whole system, whatever the processor grid", "statement": "After any number of steps of the parallel NVE integrator with pair interactions every atom is a local atom of exactly one processor, and its velocity, its force and (modulo the lattice) its position are those of the velocity Verlet algorithm applied to the whole system, in which every atom feels all images of all other unmasked atoms within the cutoff. Hence simulations on different grids, with different initial distributions of atoms, skins, cells per cutoff and modes of communication (reverse or forward) agree, total momentum is conserved, and the trajectory can be reversed. All steps complete.", "quantifier": "all processor grids, all numbers of steps, all numbers and initial positions and velocities of atoms, all pair potentials and masks, orthorhombic and monoclinic boundaries, all histories of exchanges; no coordinate exactly on a boundary between domains, steps shorter than the reach of an exchange, and for forward communication domains at least two cutoffs wide in the last direction", "why_tests_cant": "Agreement of parallel and serial trajectories can be tested for a few grids and initial states up to chaos and roundoff only; a pair that is lost or counted twice when atoms cross several boundaries in a rare geometry changes a trajectory without an error.", "anchors": ["src/ddMd/integrators/TwoStepIntegrator.cpp: run", "src/ddMd/integrators/NveIntegrator.cpp: integrateStep1, integrateStep2", "src/ddMd/integrators/Integrator.cpp: setupAtoms, computeForces, isExchangeNeeded", "src/ddMd/potentials/pair/PairPotentialImpl.h: computeForcesList", "src/ddMd/storage/AtomStorage.cpp: maxSqDisplacement, transformCartToGen"]}
{"id": "C65", "title": "Langevin dynamics thermostats velocities at the temperature of the ensemble for every time step", "statement": "For atoms without forces a run of NvtLangevinIntegrator (setup, then any number of steps, with or without sampling of analyzers) gives velocities whose mean decays by exp(-gamma dt) per step and whose second moments have a closed form; as the number of steps grows, the mean square of each Cartesian component of the velocity tends to exactly T/m for each mass, different components and different atoms become uncorrelated, and the mean kinetic energy tends to (3/2) N T, whatever the (finite) time step, the positive friction and the initial velocities. With zero friction the run is identical to that of the velocity Verlet integrator, for any forces and any random numbers.", "quantifier": "all numbers of atoms, masses, types, temperatures, time steps, frictions, initial velocities, numbers of steps, sampling patterns; expectation over independent uniform random numbers", "why_tests_cant": "A test samples a few trajectories and sees the mean within statistical error at one time step; an error of order gamma dt in the noise amplitude (for instance a missing factor 2/(1+exp(-gamma dt))) is invisible at the usual small time steps.", "anchors": ["src/mcMd/mdIntegrators/NvtLangevinIntegrator.cpp:84-239", "src/ddMd/integrators/NvtLangevinIntegrator.cpp:91-187"]}
{"id": "C66", "title": "Dissipative particle dynamics conserves momentum, dissipates, and balances fluctuations with dissipation", "statement": "A simulation with NvtDpdVvIntegrator conserves the total momentum exactly for every sequence of random numbers if the other forces add up to zero. The dissipative forces never do positive work on the velocities from which they are computed. The covariance of the random forces equals 2 T / dt times the friction: for any two sets of velocities x and y the mean product of the powers of the random forces at x and y is -(2 T/dt) times the power at x of the dissipative forces that the program computes for velocities y. Pairs beyond the cutoff exert no force of the thermostat; within the cutoff its weight is positive, at most one, and does not grow with the distance.", "quantifier": "all systems, pair lists, separations, weight functions, parameters, random numbers, numbers of steps; expectation over independent standard normal random numbers", "why_tests_cant": "Momentum and fluctuation-dissipation relations must hold for every pair list and state; a test checks them on one configuration, and a mismatch of the weights of the two forces only shows as a small drift of the temperature.", "anchors": ["src/mcMd/mdIntegrators/NvtDpdVvIntegrator.cpp:143-319"]}
{"id": "C67", "title": "A simulation resumed from any restart file ends in the same state as the uninterrupted simulation", "statement": "Every restart file written in the course of a molecular dynamics simulation (saveInterval) can be loaded by a program in any state, and if the program then continues to the same last step, with whatever sampling of analyzers and writing of further restart files, all atoms end with the same positions and velocities, and a thermostat with the same friction variable, as if the simulation had not been interrupted, although the pair list is rebuilt and atoms are shifted when a file is written and read. Each integrator of mcMd and ddMd restores all its variables from what it saved and leaves the rest of the archive, and so do the header of a simulation and the sequence of potentials of a system.", "quantifier": "all systems with pair interactions, species and molecules, parameters, initial states, numbers of steps, schedules of analyzers and restart files, all files written, all values of the variables of integrators, all sets of compiled features and of potentials", "why_tests_cant": "Tests restart one small system with one integrator and one set of features; a variable missing from one class or a different order of two optional sections only shows for the combination concerned, and then often as a slightly different trajectory instead of an error.", "anchors": ["src/mcMd/mdSimulation/MdSimulation.cpp:312-349", "src/mcMd/mdSimulation/MdSimulation.cpp:437-520", "src/mcMd/mdSimulation/MdSystem.cpp:430-690", "src/mcMd/mcSimulation/McSystem.cpp:233-384", "src/mcMd/simulation/System.cpp:706-797", "src/mcMd/simulation/Simulation.cpp:324-422", "src/mcMd/mdIntegrators/NvtLangevinIntegrator.cpp:59-79", "src/ddMd/integrators/NvtLangevinIntegrator.cpp:64-86", "src/ddMd/integrators/Integrator.cpp:83-113"]}
{"id": "C68", "title": "Molecular dynamics at constant pressure is reversible, preserves volume of the extended phase space and the shape of the cell, and follows Hamilton's equations", "statement": "A simulation with NphIntegrator of mcMd follows a symmetric splitting algorithm for lengths of the cell, momenta of the barostat, scaled positions and scaled velocities: lengths, momenta and velocities agree with it exactly and positions up to periodic images, whichever steps rebuild the pair list or shift atoms. If all velocities and momenta are reversed after n steps, n more steps lead back to the initial lengths and momenta and to images of the initial positions. Volume in positions, velocities, cell coordinates and their momenta is preserved. Cubic cells stay cubic and tetragonal cells tetragonal. Every substep is driven by derivatives of potential energy + kinetic energy + pressure times volume + barostatEnergy(). Forces and stress are those of the current positions and cell in every step.", "quantifier": "all systems, forces and stresses with the periodicity of the cell, lattice systems (cubic, tetragonal, orthorhombic), pressures, masses, time steps, numbers of steps in which the cell keeps a positive size, initial states, schedules of analyzers", "why_tests_cant": "Reversibility and volume conservation concern all trajectories and hold only if factors of the cell lengths at three times of a step are combined correctly; a wrong power of a scale factor changes densities by a few percent. That the pair list misses a pair depends on the history of the cell.", "anchors": ["src/mcMd/mdIntegrators/NphIntegrator.cpp:89-99", "src/mcMd/mdIntegrators/NphIntegrator.cpp:101-323", "src/mcMd/mdIntegrators/NphIntegrator.cpp:328-339", "src/mcMd/mdSimulation/MdSystem.cpp:1029-1155", "src/mcMd/neighbor/PairList.cpp:311-343"]}
{"id": "C69", "title": "The hybrid MD/MC move at constant pressure satisfies detailed balance", "statement": "HybridNphMdMove::move() draws velocities and momenta of the cell, runs nStep steps of NphIntegrator and accepts by the rule of Metropolis for the change of potential energy + kinetic energy + barostat energy + pressure times volume. An accepted move leaves the lengths of the end of the trajectory and the atoms in the cell; a rejected move leaves lengths and positions as they were; nAttempt and nAccept count moves and accepted moves. In the ensemble of constant pressure and temperature, the rate of accepted moves from any set of configurations (lengths and positions) A to any set B equals the rate from B to A.", "quantifier": "all systems, potentials and stresses with the periodicity of the cell, temperatures, pressures, masses of atoms and barostat, time steps, numbers of steps, lattice systems, measurable sets of configurations, states of the program before the move", "why_tests_cant": "Detailed balance is an equality of integrals over all configurations and all random numbers; a wrong width of the distribution of barostat momenta changes volume distributions by an amount that depends on mass and time step and looks like a finite size effect.", "anchors": ["src/mcMd/mcMoves/common/HybridNphMdMove.cpp:96-225", "src/mcMd/mcMoves/common/HybridNphMdMove.cpp:140-160", "src/mcMd/mcMoves/common/HybridNphMdMove.cpp:190-200", "src/mcMd/mdIntegrators/NphIntegrator.cpp:101-339"]}
{"id": "C70", "title": "Configurational-bias reptation satisfies detailed balance", "statement": "CfbReptateMove::move() removes the atom at one end of a linear molecule, grows a new atom at the other end with configurational bias and, if accepted, shifts every atom to the position of its neighbour. Whatever random numbers are drawn the move completes, the masks of all atoms and all types are those before the move, the cell list fits the positions, other molecules stay where they are, attempts and acceptances are counted; a rejected move leaves the chain as it was, and after an accepted move every atom but the head is at the old position of the next atom. The probability flow from any set of configurations of the chain to any other equals the flow back, with the energy of the whole system.", "quantifier": "all linear chains of at least two atoms, mask policies, numbers of trial positions, interaction parameters, positions, measurable sets of configurations, random numbers", "why_tests_cant": "Detailed balance is an equality of integrals over all random numbers and configurations; for heteropolymers the error is in the energy of a few pairs near the ends of the chain and hidden by statistical errors.", "anchors": ["src/mcMd/mcMoves/linear/CfbReptateMove.cpp:168-293", "src/mcMd/mcMoves/linear/CfbReptateMove.cpp:298-380", "src/mcMd/mcMoves/linear/CfbLinear.cpp: deleteAtom, addAtom"]}
{"id": "C71", "title": "Generated configurations have no overlaps, and generation ends", "statement": "GENERATE_MOLECULES (McSystem::generateMolecules, MdSystem::generateMolecules) either throws an exception or leaves all generated atoms in the primary cell, any two atoms of the system at a distance of at least the mean of the steric diameters of their types, and consecutive atoms of a chain separated by a bond vector drawn from the distribution of their bond type. Atoms that are not generated do not move. Generator::generate returns false if a molecule cannot be placed within the allowed number of attempts, in which case the cell list holds only the complete molecules placed before.", "quantifier": "all boundaries, steric diameters, species and numbers of molecules, sequences of random numbers, states of the system before the command", "why_tests_cant": "Overlaps and non-termination depend on the sequence of random numbers; the test of the generators places a few molecules at low density with one sequence.", "anchors": ["src/mcMd/generators/Generator.cpp:52-150", "src/mcMd/generators/LinearGenerator.cpp:30-82", "src/mcMd/generators/PointGenerator.cpp:30-45", "src/mcMd/mcSimulation/McSystem.cpp:414-450", "src/mcMd/mdSimulation/MdSystem.cpp:695-738"]}
{"id": "C72", "title": "Ewald summation: forces and stress are derivatives of the Coulomb energy", "statement": "MdEwaldPotential::makeWaves lists exactly one of each two opposite nonzero reciprocal lattice vectors within kSpaceCutoff, or throws an exception if there is none. kSpaceEnergy is the sum over all such vectors of the squared charge density times the Gaussian-damped potential divided by twice the volume, minus the self-energy. addForces adds to each atom minus the gradient of this energy; these forces add up to zero; moving an atom by a lattice vector changes nothing; computeStress gives minus the derivative of the energy with respect to strain divided by the volume. The r-space energy and force of each pair are consistent, continuous, and with the smooth k-space potential add up to the Coulomb potential. After any parameter or the box was changed, energies are those for the new values.", "quantifier": "all orthorhombic and monoclinic boxes, charges, positions, parameters, cutoffs", "why_tests_cant": "Consistency of energy, force and stress is a statement about derivatives at all configurations; the unit test compares with Madelung energies of a few crystals. Stale waves or energies need particular sequences of commands.", "anchors": ["src/mcMd/potentials/coulomb/MdEwaldPotential.cpp:86-474", "src/mcMd/potentials/coulomb/MdEwaldPotential.h", "src/mcMd/potentials/coulomb/MdCoulombPotential.cpp", "src/simp/interaction/coulomb/EwaldInteraction.h", "src/simp/interaction/coulomb/EwaldInteraction.cpp", "src/mcMd/potentials/pair/MdEwaldPairPotentialImpl.h"]}
{"id": "C73", "title": "Smooth particle mesh Ewald summation conserves charge and momentum, and is exact at grid points", "statement": "MdSpmePotential::basisSpline is the cardinal B-spline of order 5. For any accepted grid dimensions and any atoms in the cell, assignCharges writes within the grid, and the charge on the grid is the total charge. If all atoms are at grid points, computeEnergy and addForces give what Ewald summation gives for the wavevectors that the grid represents. The forces add up to zero, an atom exerts no force on itself, and moving an atom by a lattice vector, or all atoms by a vector between grid points, changes nothing. computeStress gives minus the derivative of the energy with respect to strain divided by the volume; the forces are minus the derivative of the energy with respect to positions.", "quantifier": "all boxes, grid dimensions, charges, positions, parameters", "why_tests_cant": "The identities hold for every grid and configuration, and some only for exact arithmetic; the unit test compares with Ewald summation to a few digits on one grid of even dimensions.", "anchors": ["src/mcMd/potentials/coulomb/MdSpmePotential.cpp:127-558", "src/mcMd/potentials/coulomb/MdSpmePotential.h"]}
{"id": "C74", "title": "Rebridging of rings replaces two bonds, with the exact change of energy, reversibly", "statement": "RingTetraRebridgeMove::move either leaves the ring unchanged and returns false, or permutes the positions of its atoms so that exactly two bonds a-b and c-d are replaced by a-c and b-d. The energy used in the acceptance test is the change of the total energy. The indices are in range and the candidates fit into the list. Each move can be undone by a move through the same candidate, and the move satisfies detailed balance.", "quantifier": "all rings, potentials, boundaries, random numbers", "why_tests_cant": "Which arc is reversed, and how often positions are exchanged, depends on the parity and the lengths of both arcs; detailed balance is a statement about probabilities of all pairs of rings.", "anchors": ["src/mcMd/mcMoves/ring/RingTetraRebridgeMove.cpp:114-292", "src/mcMd/mcMoves/ring/RingTetraRebridgeMove.h:105-110", "src/mcMd/mcMoves/base/GroupRebridgeBase.cpp:52-171"]}
{"id": "C75", "title": "Displacements and shapes are measured from true, unwrapped positions", "statement": "The positions that AtomMSD and ComMSD give to their accumulators differ from the true trajectory of the atom, or of the centre of mass, by one fixed lattice vector, if atoms move less than half a period between samples. RadiusGyrationSq returns the mean over molecules of the sum of squared distances of all pairs divided by 2N^2. IntraPairAutoCorr correlates the true separation of two atoms. The amplitudes of nonzero modes of LinearRouseAutoCorr and RingRouseAutoCorr do not depend on which images are stored, nor on where the molecule is.", "quantifier": "all trajectories, cells, molecules, mode numbers", "why_tests_cant": "Errors appear only when an atom crosses a face of the cell, and then as plausible numbers; the share of the last atom is small for long chains.", "anchors": ["src/mcMd/analyzers/system/AtomMSD.cpp:139-202", "src/mcMd/analyzers/system/ComMSD.cpp:128-244", "src/mcMd/analyzers/system/RadiusGyrationSq.cpp:77-111", "src/mcMd/analyzers/system/IntraPairAutoCorr.cpp:145-178", "src/mcMd/analyzers/system/LinearRouseAutoCorr.cpp:142-209", "src/mcMd/analyzers/system/RingRouseAutoCorr.cpp:132-203", "src/mdPp/analyzers/AtomMSD.cpp:107-184"]}
{"id": "C76", "title": "The postprocessor counts each interacting pair exactly once", "statement": "PairEnergy of mdPp gives, for each snapshot, the sum over all pairs of distinct atoms whose nearest images are within the cutoff of the energy of the pair, each pair counted once, however the atoms are spread over the cells of its cell list.", "quantifier": "all snapshots, cells, cutoffs, symmetric pair potentials", "why_tests_cant": "A pair across a face of the cell list, or across a corner, that is missed or counted twice changes the energy by one term among thousands.", "anchors": ["src/mdPp/neighbor/CellList.cpp:57-200", "src/mdPp/neighbor/CellList.h:372-431", "src/mdPp/neighbor/Cell.cpp:44-81", "src/mdPp/analyzers/PairEnergy.cpp:60-166"]}
{"id": "C77", "title": "The postprocessor assigns every atom of a file to its place", "statement": "After a configuration file has been read by mdPp, AtomStorage::ptr(id) is the atom with index id and null if there is none; every place in a molecule of a species holds the atom of the file with these indices, addAtomsToSpecies throws if two atoms have the same place or a place does not exist, and isValid succeeds exactly if every molecule is complete or empty; in ordered files the place follows from the index; groups are made of the atoms of their molecule according to the template of the species.", "quantifier": "all files, numbers and orders of atoms, species, templates", "why_tests_cant": "The files of the tests list atoms in order with all fields; permuted, incomplete or repeated atoms, and other formats, are not tried.", "anchors": ["src/mdPp/storage/AtomStorage.cpp:29-72", "src/mdPp/storage/SpeciesStorage.cpp:30-184", "src/mdPp/storage/Configuration.cpp:157-395", "src/mdPp/config/SmpConfigReader.cpp:36-215", "src/mdPp/config/SmpConfigWriter.cpp:36-145"]}
{"id": "C78", "title": "Analyzers of chemical potentials sample the Boltzmann factor they claim", "statement": "For every molecule, McMuExchange::sample adds to the accumulator of the molecule exp(-beta dE), where dE is the pair energy of the system with the new atom types in this molecule minus the present pair energy, each unmasked pair counted once. McNVTChemicalPotential::sample adds for every insertion the Rosenbluth weight of this insertion, the product over atoms of the mean Boltzmann factor of trial positions.", "quantifier": "all numbers of atoms, types, masks, positions, potentials, trial positions and choices", "why_tests_cant": "These analyzers have no tests; their results are averages which have no known values for systems with interactions.", "anchors": ["src/mcMd/analyzers/mcSystem/McMuExchange.cpp:55-196", "src/mcMd/analyzers/mcSystem/McNVTChemicalPotential.cpp:118-360", "src/mcMd/analyzers/mcSystem/McNVTChemicalPotential.cpp:413-535"]}
{"id": "C79", "title": "Bennett's method gives the difference of free energies of neighbouring replicas", "statement": "With at least two replicas, in every sample each replica but the last gets from the next one the Fermi function of the opposite energy difference with the same shift, and no message is left; if the averages are those of the Boltzmann distributions of the two replicas, the value computed by analyze is the free energy of the next replica minus that of this one whatever the shift, and the values written sum to the difference between last and first replica.", "quantifier": "all numbers of replicas, state spaces, energies with finite partition function, shifts", "why_tests_cant": "A run with several MPI processes gives averages with statistical errors; wrong signs or shifts that cancel at special values are not seen.", "anchors": ["src/mcMd/analyzers/perturb/BennettsMethod.cpp:59-320", "src/mcMd/perturb/LinearPerturbation.h:92-101"]}
{"id": "C80", "title": "Analyzers sample once at each multiple of their interval, also across restarts", "statement": "In a run of n steps each analyzer samples exactly once at every multiple of its interval, from the first step to the last inclusive, with the state after that number of steps, and in order. The restart file holds the analyzer as of the last multiple of the save interval. A run stopped at any time and restarted from its file gives the analyzer of the uninterrupted run. Analysis of stored configurations samples the configurations that are multiples of the interval, and reports their number.", "quantifier": "all base intervals, analyzer intervals, save intervals, numbers of steps, times of stopping, frame ranges and file lengths", "why_tests_cant": "Tests run one simulation with one set of intervals; a step that is counted twice after a restart changes averages by less than their error.", "anchors": ["src/mcMd/mcSimulation/McSimulation.cpp:478-790", "src/mcMd/mdSimulation/MdSimulation.cpp:430-690", "src/mcMd/analyzers/AnalyzerManager.cpp:55-62", "src/ddMd/integrators/TwoStepIntegrator.cpp:46-262", "src/ddMd/analyzers/AnalyzerManager.cpp:82-94"]}
{"id": "C81", "title": "Modifiers are called at the points of a step for which they are registered", "statement": "In a run of ddMd each modifier is called through the functions whose flags it has set, in the order of these functions within a step and in the order of the parameter file, exactly in the steps that are multiples of its interval (setup once per run), also after a restart.", "quantifier": "all lists of modifiers, flags, intervals, numbers of steps, and all patterns of exchange steps", "why_tests_cant": "There are no tests with modifiers; a modifier that is not called leaves an ordinary trajectory.", "anchors": ["src/ddMd/modifiers/ModifierManager.cpp:71-276", "src/ddMd/modifiers/ModifierManager.h:32-64", "src/ddMd/integrators/TwoStepIntegrator.cpp:69-243"]}
{"id": "C82", "title": "Analyzers with a pair selector count each selected pair as claimed", "statement": "PairSelector::match accepts exactly the ordered pairs that satisfy its rule; with the policy against double counting, exactly one order of each pair that satisfies it in some order. McPairEnergyAverage and McPairEnergyAnalyzer sample the sum of the energies of unmasked selected pairs, each once. MdPairEnergyCoefficients samples the total energy of selected pairs and the sums of squares over molecules. RDF samples the distances of selected ordered pairs, and its norm is the mean number of such pairs per volume for ideal particles.", "quantifier": "all selectors, atom types, molecules, masks, energies, cell and pair lists, numbers of samples", "why_tests_cant": "There are no tests of these analyzers; a factor of two or a missed pair looks like another value of an energy that is not known.", "anchors": ["src/mcMd/analyzers/util/PairSelector.cpp:36-77", "src/mcMd/analyzers/mcSystem/McPairEnergyAverage.cpp:95-144", "src/mcMd/analyzers/mcSystem/McPairEnergyAnalyzer.cpp:64-112", "src/mcMd/analyzers/mdSystem/MdPairEnergyCoefficients.cpp:157-313", "src/mcMd/analyzers/system/RDF.cpp:99-200"]}
{"id": "C83", "title": "Structure factors are means of squared density modes", "statement": "StructureFactor writes for each wave and mode the mean over the samples of a run of |\u03c1|\u00b2/V, with \u03c1 the sum over all atoms of coefficient times exp(iq\u00b7r), however the atoms are distributed over processors and whatever images they are stored as. The value does not change if all atoms are translated or the wave is inverted. The maximum written with each sample is the largest value and belongs to the wave written with it. The partial structure factors of StructureFactorP are symmetric and add up to the total. What VanHove accumulates has the structure factor as its squared modulus.", "quantifier": "all atoms, types, coefficients, wave vectors, boundaries, distributions over processors, numbers of samples and runs", "why_tests_cant": "There are no tests of these analyzers; a wave that is left out shows as a zero in one row, and a counter without a value often happens to be zero.", "anchors": ["src/mcMd/analyzers/system/StructureFactor.cpp:125-275", "src/mcMd/analyzers/system/StructureFactorGrid.cpp:220-309", "src/mcMd/analyzers/system/StructureFactorP.cpp:114-201", "src/mcMd/analyzers/system/VanHove.cpp:125-175", "src/ddMd/analyzers/scattering/StructureFactor.cpp:40-295", "src/ddMd/analyzers/scattering/StructureFactorGrid.cpp:224-325", "src/ddMd/analyzers/scattering/VanHove.cpp:145-205"]}
{"id": "C84", "title": "A Monte Carlo run keeps the equilibrium distribution and counts its moves", "statement": "McMoveManager chooses each move with its probability in the parameter file divided by the sum of all. If every move satisfies detailed balance with a distribution, so does a step, and a run of any number of steps that starts from the distribution keeps it. Each step adds one to the attempts of exactly one move, and one to its acceptances if it was accepted; the rate written is their ratio. Before a run every move is set up, so that the integrators of MD moves have their constants.", "quantifier": "all numbers and probabilities of moves, measurable state spaces, distributions, numbers of steps and sequences of draws and results", "why_tests_cant": "A wrong equilibrium distribution is a bias in averages; constants that nothing has set depend on the contents of memory.", "anchors": ["src/mcMd/mcMoves/McMoveManager.cpp:41-97", "src/mcMd/mcMoves/McMove.cpp:20-79", "src/mcMd/mcSimulation/McSimulation.cpp:499-630", "src/mcMd/mcMoves/common/DpdMove.cpp:77-108", "src/mcMd/mcMoves/common/MdMove.cpp:77-104", "src/mcMd/mcMoves/common/HybridMdMove.cpp:80-116"]}
{"id": "C85", "title": "Regrowth of interior segments satisfies detailed balance", "statement": "CfbRebridgeMove and CfbRingRebridgeMove choose a segment of nRegrow atoms with fixed neighbours on both sides, use the types of the bonds of these atoms, and restore all positions on rejection. The Rosenbluth factor of a segment is the same when it is deleted and when it is grown with the same trial positions, and transitions between two segments balance in the Boltzmann distribution, if the normalizations of the orientation bias are exact up to a factor.", "quantifier": "all lengths of chains and rings, segments, directions, energies, biases, numbers and positions of trials", "why_tests_cant": "A bias of a Monte Carlo move is a small error of averages; the segment next to the end of a chain is one of many.", "anchors": ["src/mcMd/mcMoves/base/CfbRebridgeBase.cpp:92-480", "src/mcMd/mcMoves/base/CfbRebridgeBase.h:167-197", "src/mcMd/mcMoves/base/CfbEndBase.cpp:62-290", "src/mcMd/mcMoves/linear/CfbRebridgeMove.cpp:107-200", "src/mcMd/mcMoves/ring/CfbRingRebridgeMove.cpp:107-330", "src/mcMd/mcMoves/ring/CfbRingRebridgeMove.h:121-126"]}
{"id": "C86", "title": "Exchange of the ends of two chains satisfies detailed balance", "statement": "CfbDoubleRebridgeMove finds each pair of places at which two chains can be joined crosswise exactly once, never writes past its buffers, and chooses among them uniformly; reverseScan finds the way back exactly if forwardScan could choose it in the new state, with the probability forwardScan would report. The loops exchange the ends beyond the segments and no other atom; a rejected move leaves all atoms where they were. The exchange does not change the energy of the atoms that are not regrown if both molecules have the same types of atoms, and transitions then balance in the Boltzmann distribution.", "quantifier": "all numbers of molecules and atoms, lengths of segments, directions, positions, energies, numbers and positions of trials", "why_tests_cant": "The way back is missing only for rare configurations, and a bias of the acceptance is a small error of averages; buffers are full only if all chains are close.", "anchors": ["src/mcMd/mcMoves/linear/CfbDoubleRebridgeMove.cpp:41-67", "src/mcMd/mcMoves/linear/CfbDoubleRebridgeMove.cpp:121-282", "src/mcMd/mcMoves/linear/CfbDoubleRebridgeMove.cpp:311-407", "src/mcMd/mcMoves/linear/CfbDoubleRebridgeMove.cpp:417-503"]}
{"id": "C87", "title": "Trajectory files are read back as they were written", "statement": "What DdMdTrajectoryWriter writes, DdMdTrajectoryReader reads as the same number of frames and then the end of the file; after each frame the box is that of the snapshot, each atom is within 2^-33 lengths of the box of its position up to a period, and atoms that are not in the file keep their positions. DdMdGroupTrajectoryWriter writes the atoms of its group and their number. What a LammpsDumpWriter writes gives each atom its position in both readers, and the box in mcMd.", "quantifier": "all numbers and orders of atoms, positions, boxes, numbers of frames, groups", "why_tests_cant": "The coordinates that do not fit are a fraction 2^-33 of the box; the box of a dump matters only when it changes.", "anchors": ["src/ddMd/analyzers/trajectory/DdMdTrajectoryWriter.cpp:35-88", "src/ddMd/analyzers/trajectory/DdMdGroupTrajectoryWriter.cpp:64-130", "src/ddMd/analyzers/trajectory/LammpsDumpWriter.cpp:37-95", "src/mdPp/trajectory/DdMdTrajectoryReader.cpp:36-84", "src/mdPp/trajectory/LammpsDumpReader.cpp:34-107", "src/mdPp/analyzers/LammpsDumpWriter.cpp:46-86", "src/mcMd/trajectory/LammpsDumpReader.cpp:62-159"]}
{"id": "C88", "title": "HOOMD configuration files are read back as they were written", "statement": "A map of types is accepted exactly when no name and no identifier occurs twice, and then names and identifiers are inverse to each other. Atoms that HoomdConfigWriter writes are read by HoomdConfigReader in their order, with their types and positions, and with their identifiers if they are stored in the order of identifiers; bonds are read with their types and atoms. A written coordinate is in the cell about the origin.", "quantifier": "all lists of types, atoms and groups, all lengths of the box", "why_tests_cant": "The test reads one file, which has no angles or dihedrals, and writes none; a bond between wrong atoms looks like any other bond.", "anchors": ["src/mdPp/config/TypeMap.cpp:19-53", "src/mdPp/config/TypeMap.h:73-99", "src/mdPp/config/HoomdConfigReader.cpp:39-67", "src/mdPp/config/HoomdConfigReader.cpp:301-340", "src/mdPp/config/HoomdConfigReader.cpp:375-406", "src/mdPp/config/HoomdConfigReader.cpp:467-496", "src/mdPp/config/HoomdConfigWriter.cpp:38-91", "src/mdPp/config/HoomdConfigWriter.cpp:128-187"]}
{"id": "C89", "title": "DCD trajectories are read frame by frame into the right atoms", "statement": "DCDTrajectoryReader accepts a file exactly when its number of atoms is that of all molecules of all species. Each readFrame then sets the box to that of the next frame and gives atom a of molecule m of species s the coordinates at place offset(s) + m nAtom(s) + a, shifted once towards the cell, and returns true; after the number of frames in the header it returns false and changes nothing. A frame with a block of another size, and a file that ends before a frame or within its cell, are refused.", "quantifier": "all numbers of species, molecules, atoms and frames, all coordinates, all contents of uninitialized memory", "why_tests_cant": "What a read past the end of a file leaves in a variable differs from run to run, and files that end early are rare.", "anchors": ["src/mcMd/trajectory/DCDTrajectoryReader.cpp:48-203", "src/mcMd/trajectory/TrajectoryReader.cpp:39-60"]}
{"id": "C90", "title": "DdMd configuration files of the postprocessor are read back as they were written", "statement": "A configuration that DdMdConfigWriter of mdPp writes is read by DdMdConfigReader as the same boundary, atoms and groups, with or without the places of atoms in molecules, if all allocated storages of groups hold as many groups as there are bonds, and at least one. The number written before angles and dihedrals is that of bonds: with fewer angles than bonds the reader returns angles that were not there, with more it drops the last ones, and without bonds it throws.", "quantifier": "all numbers of atoms and groups, all capacities, all contents of uninitialized memory", "why_tests_cant": "The number written is right for bonds, and no error is reported when angles are made up or lost.", "anchors": ["src/mdPp/config/DdMdConfigWriter.cpp:36-112", "src/mdPp/config/DdMdConfigReader.cpp:32-149", "src/mdPp/chemistry/Group.h:20-83"]}
