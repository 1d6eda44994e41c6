{
 "claims": [
  {
   "property": "C01",
   "status": "partial",
   "theorems": [
    "Verif.McCell.C01_cell_history_partial",
    "Verif.McCell.C01_full_cell_throws",
    "Verif.McCell.C01_refill_overwrites",
    "Verif.McCell.C01_violated"
   ],
   "note": "The statement as listed is false for this code: C01_violated exhibits a history that overwrites an atom (a full cell that loses an atom and is refilled). C01_cell_history_partial proves it for all histories in which no cell is filled to capacity."
  },
  {
   "property": "C02",
   "status": "proved",
   "theorems": [
    "Verif.McCellList.C02_neighbors_complete_ortho",
    "Verif.McCellList.C02_neighbors_complete_mono"
   ],
   "note": "Both boundary types, arbitrary histories that never fill a cell (see C01). Real arithmetic."
  },
  {
   "property": "C03",
   "status": "proved",
   "theorems": [
    "Verif.McCellList.C03_neighbors_nodup"
   ],
   "note": "Arbitrary histories that never fill a cell (see C01)."
  },
  {
   "property": "C04",
   "status": "proved",
   "theorems": [
    "Verif.McCellList.C04_cell_list_tracks",
    "Verif.McCellList.C04_unique_cell"
   ],
   "note": "Arbitrary histories that never fill a cell (see C01)."
  },
  {
   "property": "C05",
   "status": "proved",
   "theorems": [
    "Verif.McPairList.C05_pair_list_ortho",
    "Verif.McPairList.C05_pair_list_mono"
   ],
   "note": "Orthorhombic family unconditional; monoclinic when the cutoff is at most half the minimum plane spacing."
  },
  {
   "property": "C06",
   "status": "proved",
   "theorems": [
    "Verif.McPairList.C06_current_sound_ortho",
    "Verif.McPairList.C06_current_sound_mono",
    "Verif.McPairList.C06_fresh_current",
    "Verif.McPairList.C06_cleared_list_reports_current"
   ],
   "note": "Holds after every build. C06_cleared_list_reports_current proves that it fails after clear()/setup() without a rebuild."
  },
  {
   "property": "C07",
   "status": "proved",
   "theorems": [
    "Verif.DdAtomMap.C07_atom_map",
    "Verif.DdAtomMap.C07_clear_ghosts",
    "Verif.DdAtomMap.C07_removeLocal_accepts_ghost"
   ],
   "note": "All histories of allowed calls, including refused ones, for any behaviour of multimap::find allowed by its specification. C07_removeLocal_accepts_ghost: a ghost pointer passed to removeLocal is accepted (documented to throw)."
  },
  {
   "property": "C08",
   "status": "proved",
   "theorems": [
    "Verif.DdAtomStorage.C08_slots_conserved",
    "Verif.DdAtomStorage.C08_calls",
    "Verif.DdAtomStorage.C08_answers",
    "Verif.DdAtomStorage.C08_isValid_pending",
    "Verif.DdAtomStorage.C08_wrong_kind_loses_slot"
   ],
   "note": "All histories, including failing calls, in which a removal names no registered atom of the other kind; C08_wrong_kind_loses_slot shows why that rule is needed."
  },
  {
   "property": "C09",
   "status": "proved",
   "theorems": [
    "Verif.DdGroup.C09_calls",
    "Verif.DdGroup.C09_slots",
    "Verif.DdGroup.C09_remove_pending_duplicates_slot"
   ],
   "note": "All histories of calls; the only call excluded is remove() of the pending group, for which C09_remove_pending_duplicates_slot proves that a slot is duplicated."
  },
  {
   "property": "C10",
   "status": "partial",
   "theorems": [
    "Verif.DdChem.Plan.C10_flags",
    "Verif.DdChem.Plan.C10_no_other_state",
    "Verif.DdChem.Plan.C10_text_partial",
    "Verif.DdChem.Plan.C10_text_violated"
   ],
   "note": "flag operations proved for all histories; the text round trip is proved for plans without ghost flags and refuted for the others (C10_text_violated): the reader of ghost flags does not advance"
  },
  {
   "property": "C11",
   "status": "proved",
   "theorems": [
    "Verif.DdChem.C11_independent_records"
   ],
   "note": "all arrays of at most 2^30 atoms and all histories of setters"
  },
  {
   "property": "C12",
   "status": "proved",
   "theorems": [
    "Verif.DdBuffer.C12_round_trip",
    "Verif.DdBuffer.C12_overflow_throws",
    "Verif.DdBuffer.C12_misuse"
   ],
   "note": "all messages of atom, ghost, update, force and group blocks that fit the buffer"
  },
  {
   "property": "C13",
   "status": "partial",
   "theorems": [
    "Verif.DdBuffer.C13_pack_inside",
    "Verif.DdBuffer.C13_writes_inside_partial",
    "Verif.DdBuffer.C13_writes_inside_violated",
    "Verif.DdBuffer.C13_capacity_partial",
    "Verif.DdBuffer.C13_full_block_refused"
   ],
   "note": "pack never writes outside (C13_pack_inside) and histories with room for each header do not (C13_writes_inside_partial); headers can be written outside (C13_writes_inside_violated); exactly full blocks are refused for every configuration (C13_full_block_refused), all smaller ones accepted (C13_capacity_partial)"
  },
  {
   "property": "C14",
   "status": "proved",
   "theorems": [
    "Verif.DdDomain.C14_neighbours",
    "Verif.DdDomain.C14_partner_is_other"
   ],
   "note": "Util Grid semantics assumed (util submodule is empty in this checkout)."
  },
  {
   "property": "C15",
   "status": "partial",
   "theorems": [
    "Verif.DdDomain.C15_unique_owner",
    "Verif.DdDomain.C15_rejects_partial",
    "Verif.DdDomain.C15_negative_accepted"
   ],
   "note": "Unique owner proved for all positions in [0,1)^3. Rejection of other positions is false: coordinates in (-1/N,0) are accepted (C15_negative_accepted); C15_rejects_partial proves rejection outside (-1/N,1)."
  },
  {
   "property": "C16",
   "status": "partial",
   "theorems": [
    "Verif.DdExchange.Async.C16_all_interleavings",
    "Verif.DdExchange.C16_conservation",
    "Verif.DdExchange.C16_stored_once",
    "Verif.DdExchange.C16_delivery",
    "Verif.DdExchange.C16_owner_partial",
    "Verif.DdExchange.C16_inside_stays",
    "Verif.DdExchange.C16_upper_face_stays"
   ],
   "note": "Conservation, storage exactly once, delivery to the closed domain and independence of the interleaving are proved. Delivery to the half open domain fails for coordinates exactly on an upper face (C16_upper_face_stays); C16_owner_partial excludes these. With groups: C63_atoms. Real arithmetic."
  },
  {
   "property": "C17",
   "status": "partial",
   "theorems": [
    "Verif.DdExchange.Async.C17_all_interleavings",
    "Verif.DdExchange.C17_complete",
    "Verif.DdExchange.C17_unique",
    "Verif.DdExchange.C17_exchange",
    "Verif.DdExchange.C17_beyond_reach_missing",
    "Verif.DdExchange.C17_update",
    "Verif.DdExchange.C63_ghosts"
   ],
   "note": "C17_exchange proves exactly the images in the (open) slab, each once, if no atom moved out of its domain farther than a domain width minus a slab width. With only the one-domain hypothesis the statement is false (C17_beyond_reach_missing). C17_complete and C17_unique cover plans with additional flags (groups). With the flags that groups set: C63_ghosts."
  },
  {
   "property": "C18",
   "status": "proved",
   "theorems": [
    "Verif.DdExchange.Async.C18_all_interleavings",
    "Verif.DdExchange.C18_reverse",
    "Verif.DdExchange.C18_exchange"
   ],
   "note": "For all send arrays, all forces, all interleavings."
  },
  {
   "property": "C19",
   "status": "proved",
   "theorems": [
    "Verif.DdDistribute.C19_delivery",
    "Verif.DdDistribute.C19_all_interleavings",
    "Verif.DdDistribute.C19_grid"
   ],
   "note": "All atom sequences, cache and buffer capacities, owner functions, and all interleavings of master and receivers; C19_grid instantiates the owner with the processor grid and the wrapping."
  },
  {
   "property": "C20",
   "status": "proved",
   "theorems": [
    "Verif.DdDistribute.C20_collect",
    "Verif.DdDistribute.C20_message_fits",
    "Verif.DdDistribute.C20_atoms",
    "Verif.DdDistribute.C20_groups"
   ],
   "note": "Atom and group collectors; also no deadlock and no unanswered request. The request/answer pair is one step of the model."
  },
  {
   "property": "C21",
   "status": "proved",
   "theorems": [
    "Verif.DdCellList.C21_complete",
    "Verif.DdCellList.C21_extended",
    "Verif.DdCellList.C21_complete_ortho",
    "Verif.DdCellList.C21_complete_mono",
    "Verif.DdCellList.C21_build_succeeds",
    "Verif.DdCellList.C21_offsets_fit",
    "Verif.DdCellList.C21_mono_pairs_lost"
   ],
   "note": "Orthorhombic boundaries, 1 to 4 cells per cutoff: C21_complete_ortho, C21_extended; also monoclinic with one cell per cutoff. For monoclinic boundaries with more cells the test that selects cells is wrong (C21_mono_pairs_lost). Real arithmetic."
  },
  {
   "property": "C22",
   "status": "partial",
   "theorems": [
    "Verif.DdCellList.C22_processor_partial",
    "Verif.DdCellList.C22_all_processors",
    "Verif.DdCellList.C22_build_succeeds",
    "Verif.DdCellList.C22_empty_first_build_throws",
    "Verif.DdCellList.C22_upper_face_not_primary",
    "Verif.DdCellList.C22_empty_list_keeps_iterator",
    "Verif.DdCellList.C22_reused_iterator_stale",
    "Verif.DdCellList.C22_thin_domain_twice"
   ],
   "note": "Exactly once on each processor (C22_processor_partial) and, with reverse communication, over all processors including the exchange of atoms and ghosts (C22_all_processors). Without reverse communication the statement is false for domains with fewer than two cutoffs in the last direction (C22_thin_domain_twice); the partial theorem excludes these. Also shown: exception if the first pair list would be empty, stale iterator, atoms on an upper face."
  },
  {
   "property": "C23",
   "status": "proved",
   "theorems": [
    "Verif.Boundary.C23_mono_shift_counts",
    "Verif.Boundary.C23_mono_shift",
    "Verif.Boundary.C23_mono_applyShift",
    "Verif.Boundary.C23_ortho_shift",
    "Verif.Boundary.C23_ortho_shift_counts",
    "Verif.Boundary.C23_ortho_shift_idem",
    "Verif.Boundary.C23_ortho_shift_fix",
    "Verif.Boundary.C23_ortho_applyShift",
    "Verif.Boundary.C23_ortho_shiftGen"
   ],
   "note": "Both boundary types; hypothesis: position at most one period outside the cell, which is the documented precondition. Real arithmetic instead of doubles."
  },
  {
   "property": "C24",
   "status": "proved",
   "theorems": [
    "Verif.Boundary.C24_ortho_separation",
    "Verif.Boundary.C24_ortho_minimum",
    "Verif.Boundary.C24_ortho_symm",
    "Verif.Boundary.C24_ortho_isMinImage",
    "Verif.Boundary.C24_ortho_separation_isMinImage"
   ],
   "note": "Minimum over all integer lattice translates. Real arithmetic."
  },
  {
   "property": "C25",
   "status": "proved",
   "theorems": [
    "Verif.Boundary.C25_mono_inverse",
    "Verif.Boundary.C25_mono_basis",
    "Verif.Boundary.C25_mono_lengths",
    "Verif.Boundary.C25_ortho_inverse",
    "Verif.Boundary.C25_ortho_unit",
    "Verif.Boundary.C25_ortho_basis",
    "Verif.Boundary.C25_ortho_minLength"
   ],
   "note": "Both boundary types. Real arithmetic."
  },
  {
   "property": "C26",
   "status": "proved",
   "theorems": [
    "Verif.Boundary.C26_mono_separation",
    "Verif.Boundary.C26_mono_minimum",
    "Verif.Boundary.C26_mono_not_global_minimum"
   ],
   "note": "Exact whenever some image is closer than half the minimum plane spacing; C26_mono_not_global_minimum shows the bound cannot be dropped."
  },
  {
   "property": "C27",
   "status": "proved",
   "theorems": [
    "Verif.Pair.C27_dpd",
    "Verif.Pair.C27_compensated",
    "Verif.Pair.C27_lj",
    "Verif.Pair.C27_lj_beyond",
    "Verif.Pair.C27_lj_continuous",
    "Verif.Pair.C27_lj_core_mismatch",
    "Verif.Pair.C27_wca",
    "Verif.Pair.C27_lj_jump_after_setSigma"
   ],
   "note": "LJ, WCA, DPD and compensated pair. Inside the core clamp of LJ the statement fails (C27_lj_core_mismatch); continuity at the LJ cutoff needs the shift to be consistent (C27_lj_jump_after_setSigma is the counterexample after an off-diagonal setSigma)."
  },
  {
   "property": "C28",
   "status": "partial",
   "theorems": [
    "Verif.Pair.C28_dpd_partial",
    "Verif.Pair.C28_dpd_set_stale",
    "Verif.Pair.C28_dpd_maxCutoff_stale",
    "Verif.Pair.C28_lj_force",
    "Verif.Pair.C28_lj_energy_partial",
    "Verif.Pair.C28_lj_maxCutoff",
    "Verif.Pair.C28_lj_get",
    "Verif.Pair.C28_wca_energy_partial",
    "Verif.Pair.C28_lj_setSigma_order",
    "Verif.Pair.C28_lj_set_order",
    "Verif.Pair.C28_wca_setSigma_attractive"
   ],
   "note": "Force of LJ for all histories. Energy of LJ and WCA for histories in which setSigma/set are used only for equal types; the full statement is false, with witnesses C28_lj_setSigma_order, C28_lj_set_order, C28_wca_setSigma_attractive. DPD for histories without set; witnesses C28_dpd_set_stale, C28_dpd_maxCutoff_stale."
  },
  {
   "property": "C29",
   "status": "partial",
   "theorems": [
    "Verif.Bond.C29_harmonic",
    "Verif.Bond.C29_harmonic_set",
    "Verif.Bond.C29_harmonic0",
    "Verif.Bond.C29_fene_values",
    "Verif.Bond.C29_fene",
    "Verif.Bond.C29_fene_capped",
    "Verif.Bond.C29_fene_copy_wrong",
    "Verif.Bond.C29_composite",
    "Verif.Bond.C29_composite_dpd",
    "Verif.Bond.C29_composite_lj_partial"
   ],
   "note": "Harmonic, zero-length harmonic, FENE (all lengths, all histories of set/assign). Composite bonds: right when the pair force includes its own cutoff test or below the cutoff; false beyond the cutoff for LJ/WCA (second half of C29_composite_lj_partial). The FENE copy constructor loses the force cutoff (C29_fene_copy_wrong)."
  },
  {
   "property": "C30",
   "status": "partial",
   "theorems": [
    "Verif.Angle.C30_cosine",
    "Verif.Angle.C30_cosine_force",
    "Verif.Angle.C30_cosSq_force",
    "Verif.Angle.C30_harmonic_force_partial",
    "Verif.Angle.C30_cosSq_parameters_partial",
    "Verif.Angle.C30_cosSq_set_stale",
    "Verif.Angle.C30_harmonic_read",
    "Verif.Angle.C30_harmonic_set_units"
   ],
   "note": "Cosine, squared cosine for all nonzero bonds; harmonic when the sine of the angle exceeds 1e-10 (zero force otherwise). Squared cosine parameters for histories of set(\"kappa\"); false after set(\"theta0\") (C30_cosSq_set_stale). Harmonic set takes radians while the file has degrees (C30_harmonic_set_units)."
  },
  {
   "property": "C31",
   "status": "partial",
   "theorems": [
    "Verif.Dihedral.C31_cosine",
    "Verif.Dihedral.C31_cosine_force_partial",
    "Verif.Dihedral.C31_cosine_jump",
    "Verif.Dihedral.C31_fourier_energy",
    "Verif.Dihedral.C31_fourier_set",
    "Verif.Dihedral.C31_fourier_assign",
    "Verif.Dihedral.C31_fourier_force_partial"
   ],
   "note": "Cosine and Fourier dihedrals, all histories of read/set/assign, when both pairs of consecutive bonds are not collinear by the criterion of the code; the energy jumps at the criterion (C31_cosine_jump)."
  },
  {
   "property": "C32",
   "status": "partial",
   "theorems": [
    "Verif.Species.C32_species",
    "Verif.Species.C32_homopolymer",
    "Verif.Species.C32_homopolymer_exists",
    "Verif.Species.C32_diblock",
    "Verif.Species.C32_multiblock",
    "Verif.Species.C32_multiblock_exists",
    "Verif.Species.C32_homopolymerSG_no_angles",
    "Verif.Species.C32_homopolymerSG_dihedral_type",
    "Verif.Species.C32_ring",
    "Verif.Species.C32_ring_only",
    "Verif.Species.C32_groups_iff"
   ],
   "note": "Proved for Homopolymer, Diblock, Multiblock, HomoRing, Point and species given by explicit groups. False for HomopolymerSG/LinearSG (C32_homopolymerSG_no_angles, C32_homopolymerSG_dihedral_type) and for rings of three atoms with dihedrals (C32_ring_only)."
  },
  {
   "property": "C33",
   "status": "partial",
   "theorems": [
    "Verif.Species.C33_homopolymer",
    "Verif.Species.C33_diblock",
    "Verif.Species.C33_point",
    "Verif.Species.C33_species",
    "Verif.Species.C33_homoRing_misread",
    "Verif.Species.C33_homoRing_wrong",
    "Verif.Species.C33_multiblock_wrong"
   ],
   "note": "Proved for Homopolymer, Diblock, Point and explicit species. False for HomoRing (C33_homoRing_misread, C33_homoRing_wrong) and Multiblock (C33_multiblock_wrong)."
  },
  {
   "property": "C34",
   "status": "partial",
   "theorems": [
    "Verif.McPool.C34_places",
    "Verif.McPool.C34_requests",
    "Verif.McPool.C34_reread",
    "Verif.McPool.C34_order",
    "Verif.McPool.C34_return_in_system",
    "Verif.McPool.C34_add_twice",
    "Verif.McPool.C34_generator_leak"
   ],
   "note": "Proved for all histories in which only molecules held by the caller are added or returned. Other calls are not refused (C34_return_in_system, C34_add_twice), and Generator::generate loses a molecule when it fails (C34_generator_leak)."
  },
  {
   "property": "C35",
   "status": "proved",
   "theorems": [
    "Verif.McMem.C35_layout",
    "Verif.McMem.C35_linear",
    "Verif.McMem.C35_double_bond_throws"
   ],
   "note": "For all valid species lists; when bonded pairs are masked, molecules must have no double bonds and at most four bonds per atom (C35_double_bond_throws shows the program refuses others)."
  },
  {
   "property": "C36",
   "status": "proved",
   "theorems": [
    "Verif.McMem.C36_counters",
    "Verif.McMem.C36_disabled_kind_ub"
   ],
   "note": "For all histories of deactivate, reactivate and activate. A compiled-in kind without types must not occur in a species (C36_disabled_kind_ub)."
  },
  {
   "property": "C37",
   "status": "proved",
   "theorems": [
    "Verif.McLink.C37_registry",
    "Verif.McLink.C37_requests",
    "Verif.McLink.C37_reset_end",
    "Verif.McLink.C37_isValid_iff",
    "Verif.McLink.C37_isValid",
    "Verif.McLink.C37_self_link",
    "Verif.McLink.C37_self_link_strict",
    "Verif.McLink.C37_reset_onto_other",
    "Verif.McLink.C37_reset_inactive"
   ],
   "note": "For all histories of successful calls with distinct atoms, whether or not SSet::append rejects duplicates. Calls with equal atoms are not refused (C37_self_link, C37_self_link_strict, C37_reset_onto_other); the test for an inactive link comes after a null dereference (C37_reset_inactive)."
  },
  {
   "property": "C38",
   "status": "proved",
   "theorems": [
    "Verif.Cluster.C38_ortho",
    "Verif.Cluster.C38_mono",
    "Verif.Cluster.C38_components",
    "Verif.Cluster.C38_isValid",
    "Verif.Cluster.C38_bound",
    "Verif.Cluster.C38_clash"
   ],
   "note": "C38_components for any complete and symmetric neighbour search; C38_ortho and C38_mono instantiate it with the cell list and the boundaries (monoclinic: cutoff at most half of the minimum length). The loop is shown to end within as many steps as there are molecules. The shift of atom positions into the cell is a hypothesis."
  },
  {
   "property": "C39",
   "status": "proved",
   "theorems": [
    "Verif.McMoves.C39_atom",
    "Verif.McMoves.C39_rigid",
    "Verif.McMoves.C39_sequence",
    "Verif.McMoves.C39_swap",
    "Verif.McMoves.C39_semigrand",
    "Verif.McMoves.C39_semigrand_null"
   ],
   "note": "The four moves named, for arbitrary sequences (C39_sequence), if no cell can be filled (see C01), displacements are at most one period, swaps name molecules with the stated types and semigrand moves molecules with a state. Other moves are not modelled. C39_semigrand_null: a molecule without state makes the semigrand move read outside an array."
  },
  {
   "property": "C40",
   "status": "partial",
   "theorems": [
    "Verif.McMoves.C40_rigid_accepts",
    "Verif.McMoves.C40_swap_accepts",
    "Verif.McMoves.C40_semigrand_ratio",
    "Verif.McMoves.C40_atom",
    "Verif.McMoves.C40_rigid",
    "Verif.McMoves.C40_swap",
    "Verif.McMoves.C40_semigrand",
    "Verif.McMoves.C40_rigid_violated",
    "Verif.McMoves.C40_semigrand_violated"
   ],
   "note": "C40_atom: measure-theoretic detailed balance over positions in the primary cell. C40_swap, C40_semigrand: pairs of states. C40_rigid: molecules whose inner pairs are all masked and whose links are not affected. False otherwise: C40_rigid_violated (inner pairs counted with half-moved molecules), C40_semigrand_violated (external energy that depends on type is ignored). Configurational bias moves not modelled."
  },
  {
   "property": "C41",
   "status": "partial",
   "theorems": [
    "Verif.Replica.C41_exchange",
    "Verif.Replica.C41_no_deadlock",
    "Verif.Replica.C41_waiting_sends_deadlock",
    "Verif.Replica.C41_single",
    "Verif.Replica.C41_unequal_atoms"
   ],
   "note": "C41_exchange, C41_no_deadlock: for all schedules if sends are buffered and the numbers of atoms agree. Two blocking sends of rank 0 are in an order that deadlocks if sends wait for the matching receive, which MPI allows (C41_waiting_sends_deadlock: every move that moves anything). C41_unequal_atoms, C41_single: behaviour for unequal atom numbers and for one processor."
  },
  {
   "property": "C42",
   "status": "proved",
   "theorems": [
    "Verif.Crystal.C42_terminates_iff",
    "Verif.Crystal.C42_inverse",
    "Verif.Crystal.C42_isValid_iff",
    "Verif.Crystal.C42_complete",
    "Verif.Crystal.C42_hexagonal_diverges",
    "Verif.Crystal.C42_star",
    "Verif.Crystal.C42_star_orbit"
   ],
   "note": "Signed permutation matrices, as documented (C42_complete, C42_star, C42_star_orbit, C42_isValid_iff). For arbitrary integer matrices completion ends exactly if the set generated by product and transposition is finite (C42_terminates_iff); for a sixfold rotation in hexagonal axes it never ends (C42_hexagonal_diverges)."
  },
  {
   "property": "C43",
   "status": "proved",
   "theorems": [
    "Verif.Integrate.C43_simulate",
    "Verif.Integrate.C43_reversible",
    "Verif.Integrate.C43_momentum",
    "Verif.Integrate.C43_one_step",
    "Verif.Integrate.C43_thermostat",
    "Verif.Integrate.C43_thermostat_reversible",
    "Verif.Integrate.Nve.step_rep",
    "Verif.Integrate.Nve.iterate_rep",
    "Verif.Integrate.PairSystem.OK.exact",
    "Verif.Integrate.verletIn_preserving"
   ],
   "note": "For whole simulations of MdSimulation (any sampling schedule, number of atoms and steps) with the modelled orthorhombic boundary, cell list and pair list, as long as no atom moves more than rho in a step (skin + rho < box length) and no cell is filled; admissible_of_bound shows that bounded forces suffice. Nve.iterate_rep is the same for any boundary and list whose forces are exact; the loops of the ddMd integrator are the same. C43_one_step has no conditions. Also the Nose-Hoover integrator and preservation of phase space volume."
  },
  {
   "property": "C44",
   "status": "proved",
   "theorems": [
    "Verif.McConfig.C44_text",
    "Verif.McConfig.C44_same",
    "Verif.McConfig.C44_text_ortho",
    "Verif.McConfig.C44_text_mono",
    "Verif.McConfig.C44_images",
    "Verif.McConfig.C44_archive",
    "Verif.McConfig.C44_archive_ortho",
    "Verif.McConfig.C44_archive_mono",
    "Verif.McConfig.C44_archive_links",
    "Verif.McConfig.C44_archive_nonempty",
    "Verif.McConfig.C44_occupancy",
    "Verif.McConfig.C44_occupancy_stale",
    "Verif.McConfig.C44_null_state"
   ],
   "note": "McConfigIo, MdConfigIo and restart archives for every composition, any numbers of molecules in the target, both boundaries. Text files also restore links; archives do not (C44_archive_links). Positions outside the primary cell come back as periodic images (C44_images)."
  },
  {
   "property": "C45",
   "status": "proved",
   "theorems": [
    "Verif.DdGroup.C45_find_local",
    "Verif.DdGroup.C45_find_ghosts",
    "Verif.DdGroup.C45_spanning_marked",
    "Verif.DdGroup.C45_mark_ghosts"
   ],
   "note": "Counts, resolution and marking. The transfer of the marked atoms themselves is C16/C17."
  },
  {
   "property": "C46",
   "status": "proved",
   "theorems": [
    "Verif.DdChem.Mask.C46_mask"
   ],
   "note": "all histories of clear and append"
  },
  {
   "property": "C47",
   "status": "proved",
   "theorems": [
    "Verif.Boundary.C47_ortho_setters",
    "Verif.Boundary.C47_ortho_text",
    "Verif.Boundary.C47_ortho_archive",
    "Verif.Boundary.C47_ortho_mpi",
    "Verif.Boundary.C47_mpi_loses_lattice",
    "Verif.Boundary.C47_mono_text",
    "Verif.Boundary.C47_mono_archive",
    "Verif.Boundary.C47_mono_mpi"
   ],
   "note": "Text, archive and setters for both boundary types; over MPI the geometry survives but the lattice system does not (C47_mpi_loses_lattice)."
  },
  {
   "property": "C48",
   "status": "proved",
   "theorems": [
    "Verif.DdAtomStorage.C48_displacement",
    "Verif.DdAtomStorage.C48_removal_while_locked"
   ],
   "note": "Until the next removeAtom, which the lock does not refuse: C48_removal_while_locked exhibits the wrong result."
  },
  {
   "property": "C49",
   "status": "proved",
   "theorems": [
    "Verif.DdAtomStorage.C49_transform"
   ],
   "note": ""
  },
  {
   "property": "C50",
   "status": "proved",
   "theorems": [
    "Verif.DdDistribute.C50_delivery",
    "Verif.DdDistribute.C50_large_cache_throws",
    "Verif.DdDistribute.C50_full_storage_throws"
   ],
   "note": "Under the condition that the cache capacity does not exceed the group capacity of the buffer; C50_large_cache_throws and C50_full_storage_throws show what happens otherwise."
  },
  {
   "property": "C52",
   "status": "partial",
   "theorems": [
    "Verif.Dihedral.Sharing.C52_bond_energy",
    "Verif.Dihedral.Sharing.C52_angle_energy",
    "Verif.Dihedral.Sharing.C52_dihedral_energy",
    "Verif.Dihedral.Sharing.C52_bond_stress",
    "Verif.Dihedral.Sharing.C52_angle_stress",
    "Verif.Dihedral.Sharing.C52_dihedral_stress_mc",
    "Verif.Dihedral.Sharing.C52_dihedral_stress_zero",
    "Verif.Dihedral.Sharing.C52_dihedral_stress_wrong"
   ],
   "note": "Bond, angle and dihedral energies; bond and angle stress; mcMd dihedral stress. The ddMd dihedral stress violates the property: it is always zero (C52_dihedral_stress_zero, C52_dihedral_stress_wrong)."
  },
  {
   "property": "C53",
   "status": "partial",
   "theorems": [
    "Verif.Angle.C53_cosine_randomCosine",
    "Verif.Angle.C53_cosSq_randomCosine",
    "Verif.Angle.C53_harmonic_randomCosine",
    "Verif.Angle.C53_randomAngle_never",
    "Verif.Angle.C53_cosine_randomAngle_wrong",
    "Verif.Angle.C53_harmonic_length_partial",
    "Verif.Cfb.iSup_retry",
    "Verif.Cfb.C53_harmonic_law_partial",
    "Verif.Cfb.C53_harmonic_tail_violated",
    "Verif.Cfb.C53_harmonic0_law",
    "Verif.Cfb.C53_fene_violated"
   ],
   "note": "randomCosineAngle of the three angle classes; lengths of HarmonicL0Bond for all values; lengths of HarmonicBond up to seven standard deviations beyond the rest length, violated for longer ones (C53_harmonic_tail_violated). randomAngle (C53_randomAngle_never, C53_cosine_randomAngle_wrong) and FENE bonds (C53_fene_violated) violate the property. CompositeBond throws."
  },
  {
   "property": "C55",
   "status": "partial",
   "theorems": [
    "Verif.Species.C55_roundtrip",
    "Verif.Species.C55_match_iff_partial",
    "Verif.Species.C55_match_ignores_types",
    "Verif.Species.C55_match_ignores_missing",
    "Verif.Species.C55_match_angles_ub"
   ],
   "note": "Text round trip proved. The comparison is proved for species without angles (C55_match_iff_partial); it reads out of bounds for linear chains with angles (C55_match_angles_ub), ignores type ids of groups (C55_match_ignores_types) and missing sections (C55_match_ignores_missing)."
  },
  {
   "property": "C56",
   "status": "proved",
   "theorems": [
    "Verif.Crystal.C56_grid"
   ],
   "note": "Tables built by StructureFactorGrid (mcMd, ddMd), IntraStructureFactorGrid and StructureFactorPGrid for the three lattice systems with a branch. Other lattice systems leave the tables empty."
  },
  {
   "property": "C57",
   "status": "partial",
   "theorems": [
    "Verif.Replica.C57_balance",
    "Verif.Replica.C57_total",
    "Verif.Replica.C57_favourable",
    "Verif.Replica.C57_energy_derivative",
    "Verif.Replica.C57_pair_derivative",
    "Verif.Replica.C57_three_types_wrong",
    "Verif.Replica.C57_ext_derivative",
    "Verif.Replica.C57_pairExternal_sign",
    "Verif.Replica.C57_pairExternal_wrong",
    "Verif.Replica.C57_difference"
   ],
   "note": "C57_balance for all numbers of replicas and attempts. Derivatives: temperature, external parameter, and pair interaction of two atom types. False for three types (C57_three_types_wrong) and for the external parameter of the combined perturbation (C57_pairExternal_wrong: sign)."
  },
  {
   "property": "C58",
   "status": "partial",
   "theorems": [
    "Verif.McConfig.C58_ddmd",
    "Verif.McConfig.C58_ddmd_rejected",
    "Verif.McConfig.C58_lammps",
    "Verif.McConfig.C58_lammps_rejected",
    "Verif.McConfig.C58_lammps_box",
    "Verif.McConfig.C58_smp",
    "Verif.McConfig.C58_smp_types",
    "Verif.McConfig.C58_smp_no_links",
    "Verif.McConfig.C58_smp_no_species",
    "Verif.McConfig.C58_smp_angles"
   ],
   "note": "Exact sets of readable configurations: DdMd and LAMMPS files restore full systems in reservoir order and are rejected otherwise; Simpatico files restore systems of species without angles whose atoms have the types of their species. The statement is false for the others: LAMMPS files with a shifted cell or another lattice (C58_lammps, C58_lammps_box), Simpatico files without links or species block or with angles (C58_smp_no_links, C58_smp_no_species, C58_smp_angles)."
  },
  {
   "property": "C59",
   "status": "partial",
   "theorems": [
    "Verif.Integrate.C59_move",
    "Verif.Integrate.C59_balance",
    "Verif.Integrate.C59_links",
    "Verif.Integrate.C59_links_violated",
    "Verif.Integrate.hybridMove_eq",
    "Verif.Integrate.flow_balance"
   ],
   "note": "Proved for systems without links: decision, restoration, cell list, detailed balance as equality of flows between measurable sets, for the modelled boundary, cell list and pair list. Restricted to trajectories in which no atom moves more than rho per step and no cell is filled (a set that is symmetric under reversal). With links the property fails because the stored link energy is never unset: C59_links shows that a move and its reverse are balanced if and only if the link energies are equal, C59_links_violated gives a system where they are not."
  },
  {
   "property": "C60",
   "status": "partial",
   "theorems": [
    "Verif.External.C60_walls_partial",
    "Verif.External.C60_walls_cap_violated",
    "Verif.External.C60_walls_set_partial",
    "Verif.External.C60_walls_set_violated",
    "Verif.External.C60_lamellar",
    "Verif.External.C60_simple",
    "Verif.External.C60_periodic_partial",
    "Verif.External.C60_general_partial",
    "Verif.External.C60_periodic_violated",
    "Verif.External.C60_monoclinic_violated",
    "Verif.External.C60_nucleation_partial",
    "Verif.External.C60_nucleation_violated",
    "Verif.External.C60_tabulated_partial",
    "Verif.External.C60_tabulated_throws"
   ],
   "note": "Proved without restriction for lamellar and simple periodic fields; for periodic and general periodic fields with integer wave vectors in orthorhombic cells; for walls where the energy is not capped; for nucleation fields without a window; for tabulated fields with unit spacing. In the remaining cases the property fails, shown by the theorems with suffix violated or throws."
  },
  {
   "property": "C61",
   "status": "partial",
   "theorems": [
    "Verif.Restart.C61_LJPair",
    "Verif.Restart.C61_LJPair_energy",
    "Verif.Restart.C61_DpdPair",
    "Verif.Restart.C61_bonds",
    "Verif.Restart.C61_angles",
    "Verif.Restart.C61_external_partial",
    "Verif.Restart.C61_external_violated"
   ],
   "note": "Proved for pairs, bonds, angles, dihedrals and five external fields. BoxExternal, SimplePeriodicExternal, GeneralPeriodicExternal and NucleationExternal cannot be loaded into a new object (C61_external_violated). Archives are lists of typed values."
  },
  {
   "property": "C62",
   "status": "partial",
   "theorems": [
    "Verif.Cfb.C62_end_partial",
    "Verif.Cfb.C62_move",
    "Verif.Cfb.moveProb_eq",
    "Verif.Cfb.chain_ortho",
    "Verif.Cfb.endMove_ignores",
    "Verif.Cfb.C62_links_violated",
    "Verif.Cfb.C62_angles_violated",
    "Verif.Cfb.C62_harmonic_partial",
    "Verif.Cfb.C62_harmonic0_partial"
   ],
   "note": "Proved for chains whose regrown atoms have no links or tethers and whose angles have the types of the bonds with the same index, for bond lengths below half the cell, given the law of bond lengths that the move needs, which harmonic bonds have (C62_harmonic_partial, C62_harmonic0_partial, C53). Links and other types of angles violate the property (C62_links_violated, C62_angles_violated)."
  },
  {
   "property": "C63",
   "status": "partial",
   "theorems": [
    "Verif.DdExchange.C63_ownership",
    "Verif.DdExchange.C63_atoms",
    "Verif.DdExchange.C63_ghosts",
    "Verif.DdExchange.C63_invariant",
    "Verif.DdExchange.C63_complete",
    "Verif.DdExchange.C63_image",
    "Verif.DdExchange.C63_violated"
   ],
   "note": "Ownership and its preservation by any number of exchanges are proved for all positions; presence of all atoms of every group for bonds and for groups of which the remaining atoms leave in one direction (Compact.turn; always true for two atoms, turn_of_pair), atoms that moved less than a slab width, and groups smaller than a domain minus a slab. Without the turn hypothesis it is false for groups of three or more atoms (C63_violated): the flags received with a second copy of a group are discarded, and findGhosts throws. C63_image: all pointers to the same image, in directions with more than two processors. One type of group; groups with distinct ids; real arithmetic."
  },
  {
   "property": "C64",
   "status": "proved",
   "theorems": [
    "Verif.DdRun.C64_trajectory",
    "Verif.DdRun.C64_completes",
    "Verif.DdRun.C64_grid_independent",
    "Verif.DdRun.C64_momentum",
    "Verif.DdRun.C64_reversal",
    "Verif.DdRun.force_reverse",
    "Verif.DdRun.force_forward",
    "Verif.DdRun.ok_ortho",
    "Verif.DdRun.ok_mono"
   ],
   "note": "Pair forces only; no bonded or external potentials in the loop. Conditions (structure Fits): no scaled coordinate on a boundary of domains (C16_upper_face_stays), steps shorter than the reach of an exchange (C17_beyond_reach_missing), and without reverse communication domains of two cutoffs in the last direction (C22_thin_domain_twice). Capacities of arrays are not in the model of the loop."
  },
  {
   "property": "C65",
   "status": "proved",
   "theorems": [
    "Verif.Thermo.C65_mean",
    "Verif.Thermo.C65_moments",
    "Verif.Thermo.C65_equilibrium",
    "Verif.Thermo.C65_temperature",
    "Verif.Thermo.C65_frictionless"
   ],
   "note": "The moments are those of atoms without forces (with forces the stationary distribution of a discretised Langevin equation is not known in closed form); the frictionless case is for any forces. Random numbers are independent and uniform on the unit interval; numbers are real numbers."
  },
  {
   "property": "C66",
   "status": "proved",
   "theorems": [
    "Verif.Thermo.C66_momentum",
    "Verif.Thermo.C66_dissipation",
    "Verif.Thermo.C66_fluctuation_dissipation",
    "Verif.Thermo.C66_range"
   ],
   "note": "All three weight functions (macro MCMD_DPD_TYPE). Two atoms at the same place divide by zero in the program; in the model the unit vector is then zero. The total power of the random forces of one evaluation at given positions is treated; stationarity over many steps is not claimed."
  },
  {
   "property": "C67",
   "status": "partial",
   "theorems": [
    "Verif.Restart.C67_resume",
    "Verif.Restart.C67_resume_thermostat",
    "Verif.Restart.C67_mcMd_integrators",
    "Verif.Restart.C67_ddMd_integrators",
    "Verif.Restart.C67_langevin_violated",
    "Verif.Restart.C67_header_partial",
    "Verif.Restart.C67_header_violated",
    "Verif.Restart.C67_MdSystem_order",
    "Verif.Restart.C67_McSystem_order"
   ],
   "note": "The full statement is false for the code: neither Langevin integrator restores its friction, a program compiled with SIMP_TETHER writes hasTether twice, links together with an external or special potential are written in another order than they are read (MdSystem), and McSystem decides by hasExternal whether to save tethers; each is a theorem for all states. Resumed runs are proved for velocity Verlet and Nose-Hoover of mcMd with rigid orthorhombic boundary and immutable species; what other components save between the integrator and the atoms is assumed to be read back by them."
  },
  {
   "property": "C68",
   "status": "partial",
   "theorems": [
    "Verif.Nph.C68_follows",
    "Verif.Nph.C68_reversible",
    "Verif.Nph.C68_shape",
    "Verif.Nph.C68_volume",
    "Verif.Nph.C68_hamilton",
    "Verif.Nph.C68_list_violated"
   ],
   "note": "Proved for every environment in which a pair list that reports to be current can be used (structure Exact), for all three lattice systems. That assumption fails for the pair list of the program, whose displacement criterion does not take changes of the cell into account: C68_list_violated is one step from a correct state to wrong forces. The virial stress is an abstract function of lengths and positions; that it belongs to the potential energy is a hypothesis of C68_hamilton only."
  },
  {
   "property": "C69",
   "status": "partial",
   "theorems": [
    "Verif.Nph.C69_move",
    "Verif.Nph.C69_balance_drawn",
    "Verif.Nph.C69_sigma",
    "Verif.Nph.C69_balance_partial",
    "Verif.Nph.C69_balance_violated"
   ],
   "note": "What a move does is proved for all inputs. Detailed balance is proved for every move that draws the momenta of the cell with variances temp divided by the inverse masses (C69_balance_drawn). The standard deviations of the program have this property exactly for barostat mass 1 in cubic and orthorhombic mode (C69_sigma), for which balance of the program is proved (C69_balance_partial). For every other mass it is disproved for a cubic cell without atoms, at every temperature, positive pressure and time step (C69_balance_violated). Tetragonal mode: only the mismatch of the deviations is proved. Trajectories along which the cell collapses or the pair list is not usable are not counted in either direction."
  },
  {
   "property": "C70",
   "status": "partial",
   "theorems": [
    "Verif.Cfb.C70_move",
    "Verif.Cfb.C70_factor",
    "Verif.Cfb.C70_reverse",
    "Verif.Cfb.C70_balance_partial",
    "Verif.Cfb.C70_junction_violated"
   ],
   "note": "What a move does, and the ratio that decides about acceptance, are proved for all chains and random numbers. Detailed balance is proved for chains with one type of atoms and one type of bonds (any pair, angle and external energies, masks, numbers of trials, other molecules); configurations with a terminal bond longer than half the cell are not counted. For chains with several types of atoms balance is disproved (C70_junction_violated): the new head is weighted with the energy of its interaction with atoms whose type changes, with their old types, and junctionFactor does not see the new head. Links and tethers are excluded by hypothesis, as in C62."
  },
  {
   "property": "C71",
   "status": "partial",
   "theorems": [
    "Verif.Generate.C71_generated",
    "Verif.Generate.C71_generate",
    "Verif.Generate.C71_ends",
    "Verif.Generate.C71_hang_iff",
    "Verif.Generate.C71_no_diameter",
    "Verif.Generate.C71_ends_violated",
    "Verif.Generate.C71_existing_violated",
    "Verif.Generate.C71_bond_type_violated"
   ],
   "note": "Configurations are proved for all random numbers, diameters and species, for orthorhombic and monoclinic boundaries (ok_ortho, ok_mono), provided that no cell of the cell list is filled to capacity. Three parts of the property are disproved: the generators do not give up at a density that cannot be reached (C71_ends_violated; C71_hang_iff says exactly when an attempt does not end, C71_ends when generation ends), new atoms may overlap atoms that the system had before (C71_existing_violated), and bond lengths are always drawn for bond type 0 and temperature 1 (C71_bond_type_violated). The supply of molecules is C34."
  },
  {
   "property": "C72",
   "status": "partial",
   "theorems": [
    "Verif.Ewald.C72_waves",
    "Verif.Ewald.C72_energy",
    "Verif.Ewald.C72_force_safe",
    "Verif.Ewald.C72_force_partial",
    "Verif.Ewald.C72_momentum_partial",
    "Verif.Ewald.C72_periodic",
    "Verif.Ewald.C72_stress",
    "Verif.Ewald.C72_stress_symm",
    "Verif.Ewald.C72_pair",
    "Verif.Ewald.C72_split",
    "Verif.Ewald.C72_set",
    "Verif.Ewald.C72_set_read",
    "Verif.Ewald.C72_charge_violated",
    "Verif.Ewald.C72_stale_violated",
    "Verif.Ewald.C72_set_violated",
    "Verif.Ewald.C72_continuous_violated"
   ],
   "note": "Waves, energy, forces, periodicity and stress are proved for all orthorhombic and monoclinic boxes (ofOrtho_ok, ofMono_ok), charges, positions, cutoffs and parameters. Forces and momentum are partial: the code skips atoms whose charge is at most 1e-10 but not zero (C72_charge_violated). Waves are not made anew if the box changes (C72_stale_violated), and set does not unset the cached r-space energy (C72_set_violated). The r-space energy is truncated without shift (C72_continuous_violated); the theorem on pairs excludes pairs exactly at a cutoff, and the one on stress excludes wavevectors exactly at the cutoff. That the energy tends to the Coulomb energy of the infinite crystal as the cutoffs grow is not proved; C72_split proves that r-space, k-space and self-energy use the same decomposition of the Coulomb potential. The real-space stress and SPME are not modelled."
  },
  {
   "property": "C73",
   "status": "partial",
   "theorems": [
    "Verif.Spme.C73_spline",
    "Verif.Spme.C73_safe",
    "Verif.Spme.C73_charge",
    "Verif.Spme.C73_on_grid",
    "Verif.Spme.C73_momentum_partial",
    "Verif.Spme.C73_self",
    "Verif.Spme.C73_periodic",
    "Verif.Spme.C73_translate",
    "Verif.Spme.C73_stress",
    "Verif.Spme.C73_stress_symm",
    "Verif.Spme.C73_work_violated",
    "Verif.Spme.C73_odd_violated",
    "Verif.Spme.C73_range_violated"
   ],
   "note": "Proved for all boxes with dual reciprocal vectors, charges, parameters and grid dimensions of at least 4, for atoms at most one cell outside the primary cell. Exact agreement with Ewald summation is proved for charges at grid points and even dimensions; with odd dimensions it fails (C73_odd_violated). Momentum is partial: atoms whose charge is at most 1e-10 but not zero get no force. Forces are not the derivative of the energy (C73_work_violated). With three or fewer grid points along an axis indices are out of range (C73_range_violated). A bound on the error for charges between grid points is not proved."
  },
  {
   "property": "C74",
   "status": "partial",
   "theorems": [
    "Verif.Rebridge.C74_index",
    "Verif.Rebridge.C74_index_violated",
    "Verif.Rebridge.C74_candidates",
    "Verif.Rebridge.C74_bonds",
    "Verif.Rebridge.C74_energy",
    "Verif.Rebridge.C74_reversible",
    "Verif.Rebridge.C74_balance_partial",
    "Verif.Rebridge.C74_four",
    "Verif.Rebridge.C74_balance_violated"
   ],
   "note": "Proved for rings of any number of atoms of one type, any potentials and boundary. Reversibility is proved for rings that do not wind around the cell. Detailed balance is proved for rings of four atoms, and for longer ones between rings with equal numbers of candidates; it fails otherwise (C74_balance_violated), because acceptance does not take the number of candidates into account. modId is out of range for exactly one full turn back, which the move does not ask for (C74_index_violated)."
  },
  {
   "property": "C75",
   "status": "proved",
   "theorems": [
    "Verif.Analyze.C75_atom",
    "Verif.Analyze.C75_atom_mono_violated",
    "Verif.Analyze.C75_com",
    "Verif.Analyze.C75_com_violated",
    "Verif.Analyze.C75_com_single",
    "Verif.Analyze.C75_gyration",
    "Verif.Analyze.C75_pair",
    "Verif.Analyze.C75_mode",
    "Verif.Analyze.C75_ring",
    "Verif.Analyze.C75_linear",
    "Verif.Analyze.C75_linear_violated"
   ],
   "note": "Proved for orthorhombic boundaries and molecules of any number of atoms whose bonds are shorter than half a period. Violated: atoms in tilted cells (C75_atom_mono_violated), centres of mass of molecules with two or more atoms (C75_com_violated; C75_com gives what is measured instead), odd modes of linear chains (C75_linear_violated)."
  },
  {
   "property": "C76",
   "status": "proved",
   "theorems": [
    "Verif.Post.C76_energy",
    "Verif.Post.C76_energy_all",
    "Verif.Post.C76_face_violated",
    "Verif.Post.C76_resize_violated",
    "Verif.Post.C76_narrow_violated"
   ],
   "note": "Proved for orthorhombic boundaries whose edges are at least three cutoffs, atoms in any positions strictly inside the cell. Violated: atoms on a face (C76_face_violated), cells that have grown since setup (C76_resize_violated), cells narrower than two cutoffs (C76_narrow_violated)."
  },
  {
   "property": "C77",
   "status": "proved",
   "theorems": [
    "Verif.PpStore.C77_read",
    "Verif.PpStore.C77_read_safe",
    "Verif.PpStore.C77_read_distinct",
    "Verif.PpStore.C77_add",
    "Verif.PpStore.C77_valid",
    "Verif.PpStore.C77_ordered",
    "Verif.PpStore.C77_groups",
    "Verif.PpStore.C77_duplicate_violated",
    "Verif.PpStore.C77_noindex_violated",
    "Verif.PpStore.C77_pending_violated",
    "Verif.PpStore.C77_reread_violated",
    "Verif.PpStore.C77_empty_violated",
    "Verif.PpStore.C77_format_violated"
   ],
   "note": "Proved for all files, storages and species. Violated: repeated indices are accepted (C77_duplicate_violated), ordered files without indices (C77_noindex_violated), reading after an exception (C77_pending_violated), a second file with species (C77_reread_violated), species without molecules (C77_empty_violated), files of SmpConfigWriter (C77_format_violated)."
  },
  {
   "property": "C78",
   "status": "proved",
   "theorems": [
    "Verif.FreeEnergy.C78_exchange",
    "Verif.FreeEnergy.C78_exchange_samples",
    "Verif.FreeEnergy.C78_insert",
    "Verif.FreeEnergy.C78_insert_first",
    "Verif.FreeEnergy.C78_insert_next",
    "Verif.FreeEnergy.C78_probs",
    "Verif.FreeEnergy.C78_exchange_mutable_violated",
    "Verif.FreeEnergy.C78_insert_ideal_violated",
    "Verif.FreeEnergy.C78_insert_stale_violated",
    "Verif.FreeEnergy.C78_probs_violated"
   ],
   "note": "McMuExchange: proved for all systems of non-mutable species; violated for mutable ones (C78_exchange_mutable_violated). McNVTChemicalPotential: what it samples is proved for all insertions; it is the Rosenbluth weight only for the first insertion and only if the energy of the first atom does not depend on its position, otherwise violated (C78_insert_ideal_violated, C78_insert_stale_violated, C78_probs_violated)."
  },
  {
   "property": "C79",
   "status": "proved",
   "theorems": [
    "Verif.FreeEnergy.C79_messages",
    "Verif.FreeEnergy.C79_no_message_left",
    "Verif.FreeEnergy.C79_bennett",
    "Verif.FreeEnergy.C79_total",
    "Verif.FreeEnergy.C79_linear",
    "Verif.FreeEnergy.C79_defined",
    "Verif.FreeEnergy.C79_single_violated",
    "Verif.FreeEnergy.C79_separate_violated"
   ],
   "note": "Proved for all numbers of replicas, measures, energies and shifts. Violated for a single replica (C79_single_violated) and for separate parameter files (C79_separate_violated)."
  },
  {
   "property": "C80",
   "status": "proved",
   "theorems": [
    "Verif.Schedule.C80_simulate",
    "Verif.Schedule.C80_continue",
    "Verif.Schedule.C80_archive",
    "Verif.Schedule.C80_restart",
    "Verif.Schedule.C80_configs",
    "Verif.Schedule.C80_trajectory",
    "Verif.Schedule.C80_dd_run",
    "Verif.Schedule.C80_dd_split",
    "Verif.Schedule.C80_dd_archive",
    "Verif.Schedule.C80_dd_restart",
    "Verif.Schedule.C80_configs_violated",
    "Verif.Schedule.C80_single_violated",
    "Verif.Schedule.C80_trajectory_violated"
   ],
   "note": "The samples of runs, restart files and restarted runs are proved for all intervals and lengths. A restarted run equals the uninterrupted one only for analyzers whose interval does not divide the step of the restart file (iff in C80_restart, C80_dd_restart); otherwise that step is counted twice. Analysis of files fails for every base interval above 1 (C80_configs_violated, C80_trajectory_violated)."
  },
  {
   "property": "C81",
   "status": "proved",
   "theorems": [
    "Verif.Schedule.C81_call",
    "Verif.Schedule.C81_calls",
    "Verif.Schedule.C81_once",
    "Verif.Schedule.C81_load_violated",
    "Verif.Schedule.C81_unused_violated"
   ],
   "note": "Proved for all modifiers and runs after readParameters. Violated after loading from a restart file (C81_load_violated) and for the flags exchange, update and reverseUpdate (C81_unused_violated)."
  },
  {
   "property": "C82",
   "status": "proved",
   "theorems": [
    "Verif.Select.C82_match",
    "Verif.Select.C82_once",
    "Verif.Select.C82_energy",
    "Verif.Select.C82_coefficients",
    "Verif.Select.C82_rdf_sample",
    "Verif.Select.C82_rdf_norm",
    "Verif.Select.C82_double_violated",
    "Verif.Select.C82_order_violated",
    "Verif.Select.C82_rdf_norm_violated",
    "Verif.Select.C82_rdf_again_violated"
   ],
   "note": "Selection and the Monte Carlo energies are proved for all selectors and systems. MdPairEnergyCoefficients: what it samples is proved; it is twice the energy for symmetric selectors (C82_double_violated) and depends on the order of the pair list for others (C82_order_violated). RDF: samples and norm are proved; the norm is wrong for selectors of types (C82_rdf_norm_violated) and in a second run (C82_rdf_again_violated)."
  },
  {
   "property": "C83",
   "status": "proved",
   "theorems": [
    "Verif.Scatter.C83_waveVector",
    "Verif.Scatter.C83_order",
    "Verif.Scatter.C83_ranks",
    "Verif.Scatter.C83_periodic",
    "Verif.Scatter.C83_translate",
    "Verif.Scatter.C83_inverse",
    "Verif.Scatter.C83_mc_output",
    "Verif.Scatter.C83_dd_output",
    "Verif.Scatter.C83_dd_first_violated",
    "Verif.Scatter.C83_dd_first_witness",
    "Verif.Scatter.C83_dd_init_violated",
    "Verif.Scatter.C83_grid_again",
    "Verif.Scatter.C83_grid_again_violated",
    "Verif.Scatter.C83_maximum",
    "Verif.Scatter.C83_partial_symm",
    "Verif.Scatter.C83_partial_sum",
    "Verif.Scatter.C83_partial_total",
    "Verif.Scatter.C83_vanHove"
   ],
   "note": "Modes, their symmetries and what mcMd writes are proved. ddMd StructureFactor: proved for all waves but the first after clear; the first wave is always written as zero (C83_dd_first_violated), and without clear the counter of samples has no value (C83_dd_init_violated). StructureFactorGrid keeps its sums between runs (C83_grid_again, C83_grid_again_violated)."
  },
  {
   "property": "C84",
   "status": "proved",
   "theorems": [
    "Verif.McRun.C84_normalize",
    "Verif.McRun.C84_normalize_again",
    "Verif.McRun.C84_normalize_violated",
    "Verif.McRun.C84_markov",
    "Verif.McRun.C84_reversible",
    "Verif.McRun.C84_invariant",
    "Verif.McRun.C84_counters",
    "Verif.McRun.C84_rate",
    "Verif.McRun.C84_attempts",
    "Verif.McRun.C84_again",
    "Verif.McRun.C84_again_violated",
    "Verif.McRun.C84_hybrid",
    "Verif.McRun.C84_dpd_setup",
    "Verif.McRun.C84_setup_violated",
    "Verif.McRun.C84_moves"
   ],
   "note": "Probabilities, detailed balance of a whole run and counters are proved. Nothing checks the signs of the probabilities (C84_normalize_violated). McMoveManager::setup is never called: counters are not reset before a second run (C84_again_violated), and DpdMove and MdMove integrate with prefactors that nothing has set (C84_setup_violated)."
  },
  {
   "property": "C85",
   "status": "proved",
   "theorems": [
    "Verif.Bridge.C85_refused",
    "Verif.Bridge.C85_linear",
    "Verif.Bridge.C85_modId",
    "Verif.Bridge.C85_modId_violated",
    "Verif.Bridge.C85_ring",
    "Verif.Bridge.C85_restore",
    "Verif.Bridge.C85_rosenbluth",
    "Verif.Bridge.C85_ratio",
    "Verif.Bridge.C85_balance",
    "Verif.Bridge.C85_norm_violated",
    "Verif.Bridge.C85_angles",
    "Verif.Bridge.C85_angles_violated",
    "Verif.Bridge.C85_no_angles_violated",
    "Verif.Bridge.C85_table"
   ],
   "note": "Indices, Rosenbluth factors, detailed balance and the table are proved; densities of trial positions are defined from the contracts of the random number generator and of randomBondLength (C53). Balance needs exact normalizations of the bias (C85_norm_violated: Simpson's rule gives approximate ones). In a system with angles a segment next to the end of a chain reads a null pointer (C85_angles_violated, C85_no_angles_violated)."
  },
  {
   "property": "C86",
   "status": "proved",
   "theorems": [
    "Verif.Double.C86_scan",
    "Verif.Double.C86_forward",
    "Verif.Double.C86_refused",
    "Verif.Double.C86_reverse",
    "Verif.Double.C86_indices",
    "Verif.Double.C86_swap",
    "Verif.Double.C86_restore",
    "Verif.Double.C86_rest",
    "Verif.Double.C86_ratio",
    "Verif.Double.C86_balance",
    "Verif.Double.C86_rest_violated",
    "Verif.Double.C86_mutable_violated"
   ],
   "note": "Search, way back, exchange, restoration and detailed balance are proved for molecules with the same types of atoms; angles are not part of the energy of the fixed atoms. The move does not refuse mutable species, for which it does not balance (C86_mutable_violated)."
  },
  {
   "property": "C87",
   "status": "proved",
   "theorems": [
    "Verif.Traj.C87_coordinate",
    "Verif.Traj.C87_upper_violated",
    "Verif.Traj.C87_far_violated",
    "Verif.Traj.C87_frame",
    "Verif.Traj.C87_trajectory",
    "Verif.Traj.C87_group",
    "Verif.Traj.C87_dump",
    "Verif.Traj.C87_dump_box_violated",
    "Verif.Traj.C87_dump_mc",
    "Verif.Traj.C87_dump_cartesian",
    "Verif.Traj.C87_dump_cartesian_violated"
   ],
   "note": "Round trips are proved for binary trajectories and dumps. Coordinates within 2^-33 of the upper end of the box, or two lengths above the lower end, are converted out of range (C87_upper_violated, C87_far_violated). The reader of dumps in mdPp ignores the box (C87_dump_box_violated); the writer in ddMd computes Cartesian positions and does not write them (C87_dump_cartesian_violated)."
  },
  {
   "property": "C88",
   "status": "proved",
   "theorems": [
    "Verif.Hoomd.C88_accept",
    "Verif.Hoomd.C88_types",
    "Verif.Hoomd.C88_auxiliary",
    "Verif.Hoomd.C88_written",
    "Verif.Hoomd.C88_bonds",
    "Verif.Hoomd.C88_angles_violated",
    "Verif.Hoomd.C88_dihedrals_violated",
    "Verif.Hoomd.C88_position",
    "Verif.Hoomd.C88_period",
    "Verif.Hoomd.C88_atoms",
    "Verif.Hoomd.C88_ordered",
    "Verif.Hoomd.C88_order_violated"
   ],
   "note": "Round trips are proved for types, atoms and bonds. Groups of three or more atoms that were written are not read (C88_angles_violated); the types of dihedrals are never known (C88_dihedrals_violated); atoms not stored in the order of their identifiers get other identifiers (C88_order_violated)."
  },
  {
   "property": "C89",
   "status": "proved",
   "theorems": [
    "Verif.Dcd.C89_open",
    "Verif.Dcd.C89_frame",
    "Verif.Dcd.C89_end",
    "Verif.Dcd.C89_trajectory",
    "Verif.Dcd.C89_missing",
    "Verif.Dcd.C89_size",
    "Verif.Dcd.C89_truncated_violated"
   ],
   "note": "Reading is proved for all files with the frames named in the header. A file that ends within the last block of a frame is accepted, and the coordinates that are missing are those of the frame before (C89_truncated_violated)."
  },
  {
   "property": "C90",
   "status": "proved",
   "theorems": [
    "Verif.PpConf.C90_roundtrip",
    "Verif.PpConf.C90_same",
    "Verif.PpConf.C90_bonds",
    "Verif.PpConf.C90_invented_violated",
    "Verif.PpConf.C90_lost_violated",
    "Verif.PpConf.C90_nobonds_violated"
   ],
   "note": "The round trip is proved when every allocated storage of groups has as many groups as there are bonds. DdMdConfigWriter writes the number of bonds for angles and dihedrals, so that otherwise angles are made up, lost or refused (C90_invented_violated, C90_lost_violated, C90_nobonds_violated)."
  }
 ]
}
