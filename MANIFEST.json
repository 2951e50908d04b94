{
 "claims": [
  {
   "property": "C01",
   "status": "proved",
   "theorems": [
    "C01_sorted_standard",
    "C01_constructor",
    "C01_bound_sharp"
   ],
   "note": "modes in [0,20000); the bound is shown to be sharp (C01_bound_sharp)."
  },
  {
   "property": "C02",
   "status": "proved",
   "theorems": [
    "C02_matmul_open_wires"
   ],
   "note": ""
  },
  {
   "property": "C03",
   "status": "proved",
   "theorems": [
    "C03_perm_standardises",
    "C03_contracted_indices",
    "C03_same_ids_wrong_perm",
    "C03_clash_crashes"
   ],
   "note": "requires distinct wire ids; C03_same_ids_wrong_perm and C03_clash_crashes show the hypotheses are needed."
  },
  {
   "property": "C04",
   "status": "proved",
   "theorems": [
    "C04_adjoint_dual_wires",
    "C04_involutions",
    "C04_partition"
   ],
   "note": ""
  },
  {
   "property": "C05",
   "status": "proved",
   "theorems": [
    "C05_matmul_assoc",
    "C05_acceptance_not_assoc"
   ],
   "note": "when both bracketings are accepted; acceptance itself is not associative (C05_acceptance_not_assoc)."
  },
  {
   "property": "C06",
   "status": "proved",
   "theorems": [
    "C06_contracted_labels"
   ],
   "note": ""
  },
  {
   "property": "C07",
   "status": "proved",
   "theorems": [
    "C07_add_exact",
    "C07_add_rejects_overlap_partial",
    "C07_mixed_repr_false"
   ],
   "note": "C07_add_exact is the exact behaviour; C07_mixed_repr_false the disagreement."
  },
  {
   "property": "C08",
   "status": "proved",
   "theorems": [
    "C08_adjoint_axes",
    "C08_dual_axes"
   ],
   "note": ""
  },
  {
   "property": "C09",
   "status": "proved",
   "theorems": [
    "C09_rshift",
    "C09_rshift_accepts"
   ],
   "note": ""
  },
  {
   "property": "C10",
   "status": "proved",
   "theorems": [
    "C10_default_path",
    "C10_wrong_length",
    "C10_proper_path",
    "C10_check_contraction",
    "C10_self_pair"
   ],
   "note": "C10_self_pair is the disagreement."
  },
  {
   "property": "C11",
   "status": "proved",
   "theorems": [
    "C11_neighbour_paths",
    "strict_agrees",
    "C11_neighbour_order",
    "C11_skip_reorders",
    "C11_skip_changes_wires",
    "C11_scalar_loses_component"
   ],
   "note": "on the level of open wires and component order; last three theorems are the disagreements. Equality of the tensors themselves is C15 (arrays) and C17 (Gaussians)."
  },
  {
   "property": "C19",
   "status": "proved",
   "theorems": [
    "C19_vanilla_correct"
   ],
   "note": "exact arithmetic; any positive shape, any uninitialised buffer; symmetric A."
  },
  {
   "property": "C20",
   "status": "proved",
   "theorems": [
    "C19_vanilla_correct",
    "C20_stable_correct",
    "C22_binomial",
    "C22_binomial_dict"
   ],
   "note": "both equal the same specification amp."
  },
  {
   "property": "C21",
   "status": "proved",
   "theorems": [
    "C21_subspace_basis"
   ],
   "note": ""
  },
  {
   "property": "C22",
   "status": "proved",
   "theorems": [
    "C22_binomial",
    "C22_binomial_dict",
    "C22_dict_default_misses_corner"
   ],
   "note": "all indices of weight below the global cutoff (early stopping characterised); default dictionary cutoff misses the top corner (C22_dict_default_misses_corner)."
  },
  {
   "property": "C23",
   "status": "proved",
   "theorems": [
    "C23_stable_beamsplitter",
    "C23_beamsplitter_exact",
    "C23_conserve",
    "C23_beamsplitter_partial",
    "C23_beamsplitter_incomplete"
   ],
   "note": "exact behaviour of both strategies; beamsplitter leaves entries with p >= N at zero (C23_beamsplitter_incomplete)."
  },
  {
   "property": "C24",
   "status": "proved",
   "theorems": [
    "C24_squeezer",
    "C24_squeezer_parity",
    "C24_squeezed",
    "C24_squeezed_two"
   ],
   "note": ""
  },
  {
   "property": "C25",
   "status": "proved",
   "theorems": [
    "C25_first_pivot",
    "C25_all_pivots",
    "C25_smallest_pivot",
    "C25_neighbors"
   ],
   "note": ""
  },
  {
   "property": "C31",
   "status": "proved",
   "theorems": [
    "C31_with_restores",
    "C31_nested_not_restored",
    "C31_failed_entry_not_rolled_back",
    "C31_rng_not_restored"
   ],
   "note": "exact behaviour; the three ways in which the context does not restore are theorems."
  },
  {
   "property": "C32",
   "status": "proved",
   "theorems": [
    "C32_assign_unknown",
    "C32_call_unknown",
    "C32_names_never_grow"
   ],
   "note": ""
  },
  {
   "property": "C34",
   "status": "proved",
   "theorems": [
    "C34_roundtrip",
    "C34_overlap_rejected",
    "C34_backend_mismatch",
    "C34_crash_save",
    "C34_crash_load",
    "C34_interleaving",
    "C34_crash_mixes",
    "C34_remove_after_loses",
    "C34_zip_deletes_plain"
   ],
   "note": "last three theorems are the disagreements named in the property."
  },
  {
   "property": "C35",
   "status": "proved",
   "theorems": [
    "C35_exact",
    "C35_roundtrip",
    "C35_empty",
    "C35_trainable_Ggate",
    "C35_internal_lost",
    "C35_linsup_lost"
   ],
   "note": "C35_exact is the exact behaviour; the last four are its exceptions on concrete circuits."
  },
  {
   "property": "C36",
   "status": "proved",
   "theorems": [
    "C36_bookkeeping",
    "C36_to_dict",
    "C36_to_dict_clash",
    "C36_getitem",
    "C36_getitem_reorders"
   ],
   "note": ""
  },
  {
   "property": "C38",
   "status": "proved",
   "theorems": [
    "C38_stops_exactly",
    "C38_max_steps",
    "C38_unlimited"
   ],
   "note": "losses are reals (no NaN)."
  },
  {
   "property": "C12",
   "status": "proved",
   "theorems": [
    "C12_minimal_cost",
    "C12_optimal",
    "C12_search_terminates",
    "C12_search_progress",
    "C12_random_terminates",
    "C12_total",
    "C12_errors",
    "C12_optimal_path",
    "C12_optimal_path_shapes",
    "C12_disconnected"
   ],
   "note": "costs are natural numbers (no overflow); any pop order."
  },
  {
   "property": "C13",
   "status": "proved",
   "theorems": [
    "C13_shapes",
    "C13_lossless",
    "C12_optimal_path_shapes"
   ],
   "note": "equal hashes are taken as equal shapes; recursion limit not modelled."
  },
  {
   "property": "C14",
   "status": "proved",
   "theorems": [
    "C14_heuristics_inert",
    "C14_default_codes"
   ],
   "note": ""
  },
  {
   "property": "C39",
   "status": "proved",
   "theorems": [
    "C39_unitary",
    "C39_orthogonal",
    "C39_symplectic"
   ],
   "note": "exact arithmetic, no batch dimension."
  },
  {
   "property": "C40",
   "status": "proved",
   "theorems": [
    "C40_cx_cz",
    "C40_pgate",
    "C40_interferometer",
    "C40_realInterferometer",
    "C40_mz",
    "C40_composition"
   ],
   "note": "exact arithmetic, no batch dimension."
  },
  {
   "property": "C44",
   "status": "proved",
   "theorems": [
    "C44_on_exact",
    "C44_on_renames",
    "C44_on_renames_partial",
    "C44_on_order_false"
   ],
   "note": "exact behaviour; C44_on_order_false is the disagreement."
  },
  {
   "property": "C45",
   "status": "proved",
   "theorems": [
    "C45_unitary_descends",
    "C45_orthogonal_descends",
    "C45_symplectic_descends"
   ],
   "note": ""
  },
  {
   "property": "C43",
   "status": "proved",
   "theorems": [
    "C43_outer",
    "C43_outer_linsup",
    "C43_outer_linsup_error",
    "C43_zip",
    "C43_linsup",
    "C43_broadcast",
    "C43_broadcast_transposed",
    "C43_documented_example"
   ],
   "note": "exact behaviour; the last two are the disagreement: an output order different from the operand's scrambles the data."
  },
  {
   "property": "C28",
   "status": "proved",
   "theorems": [
    "C28_partial_eval"
   ],
   "note": "evaluation arithmetic exact; sort of the kept variables as in the code."
  },
  {
   "property": "C30",
   "status": "proved",
   "theorems": [
    "C30_compose",
    "C30_inverse",
    "C30_eval",
    "C30_array_compose",
    "C30_array_inverse",
    "C30_array_eval",
    "C30_array_batch"
   ],
   "note": "first three: PolyExpAnsatz.reorder; the others: ArrayAnsatz.reorder and reorder_batch."
  },
  {
   "property": "C27",
   "status": "proved",
   "theorems": [
    "C27_scalar",
    "C27_conj",
    "C27_add",
    "C27_add_defined",
    "C27_add_wrong",
    "C27_and",
    "C27_and_error",
    "C27_and_wrong"
   ],
   "note": "_wrong/_error theorems are the disagreements; superpositions with more than one batch axis are not modelled for +."
  },
  {
   "property": "C26",
   "status": "proved",
   "theorems": [
    "C26_eval",
    "C26_distinct",
    "C26_defined",
    "C26_idempotent"
   ],
   "note": "allclose modelled as equality."
  },
  {
   "property": "C46",
   "status": "proved",
   "theorems": [
    "C46_decompose",
    "C46_size"
   ],
   "note": ""
  },
  {
   "property": "C47",
   "status": "proved",
   "theorems": [
    "C47_eq_multiset",
    "C47_doubling",
    "C47_batch_order"
   ],
   "note": "allclose modelled as broadcasting equality; the last two are the disagreements."
  },
  {
   "property": "C48",
   "status": "proved",
   "theorems": [
    "C48_one_pair",
    "C48_hermitian",
    "C48_up_to_sign",
    "C48_errors",
    "C48_wrong_sign"
   ],
   "note": "the last theorem is the disagreement; exact arithmetic; c instead of its logarithm; negative indices are not modelled."
  },
  {
   "property": "C17",
   "status": "proved",
   "theorems": [
    "C17_two_stage",
    "exH_stages"
   ],
   "note": "the sign left open is decided in C18"
  },
  {
   "property": "C18",
   "status": "proved",
   "theorems": [
    "C18_hermitian",
    "C18_wrong_sign"
   ],
   "note": "the last theorem is the disagreement in the general case"
  },
  {
   "property": "C15",
   "status": "proved",
   "theorems": [
    "C15_mm_einsum",
    "C15_path_independent",
    "C15_defined",
    "exNet_paths"
   ],
   "note": "path_type LA; steps without a shared core label (which the code does in the Bargmann representation) are not modelled."
  },
  {
   "property": "C29",
   "status": "proved",
   "theorems": [
    "C29_reduce",
    "C29_error",
    "C29_twice",
    "exA_ok"
   ],
   "note": ""
  },
  {
   "property": "C49",
   "status": "proved",
   "theorems": [
    "C49_add",
    "C49_add_error",
    "C49_and",
    "C49_and_error",
    "C49_eq",
    "C49_trace",
    "C49_eq_not_transitive",
    "C49_trace_empty",
    "C49_entrywise",
    "C49_conj"
   ],
   "note": "the last two are disagreements; allclose modelled as equality"
  },
  {
   "property": "C37",
   "status": "proved",
   "theorems": [
    "C37_shape",
    "C37_shape_ideal",
    "C37_joint_law",
    "C37_rejects",
    "C37_validated",
    "C37_rows_sorted",
    "C37_disagreement_sequence"
   ],
   "note": "photon-number sampler; states are represented by their Born weights; the homodyne sampler is C100; the last two theorems are the disagreement."
  },
  {
   "property": "C50",
   "status": "proved",
   "theorems": [
    "C50_one_mode",
    "C50_first_column",
    "C50_seed_zero_ignored",
    "C50_disagreement_two_modes"
   ],
   "note": "the last two are disagreements"
  },
  {
   "property": "C33",
   "status": "proved",
   "theorems": [
    "C33_transparent",
    "C33_pure_functions",
    "C33_bounded",
    "C33_stale_hbar",
    "C33_aliasing"
   ],
   "note": "the last two are disagreements"
  },
  {
   "property": "C51",
   "status": "proved",
   "theorems": [
    "C51_formula",
    "C51_orthonormal",
    "C51_dm_normalised",
    "C51_ket_normalised"
   ],
   "note": "exact arithmetic"
  },
  {
   "property": "C41",
   "status": "proved",
   "theorems": [
    "C41_bounds",
    "C41_least",
    "C41_retains_less",
    "C41_thermal",
    "C41_wrong_probability",
    "marginal_one",
    "C41_entry",
    "C41_marginal"
   ],
   "note": "least-k statement for real marginals, the last theorems are the disagreements; that the marginal triple is the partial trace is not proved here."
  },
  {
   "property": "C42",
   "status": "proved",
   "theorems": [
    "C42_correct",
    "C42_all_outcomes",
    "C42_stable_irrelevant",
    "C42_missing_outcome",
    "C42_no_detectors",
    "C42_example",
    "mem_enumCoords"
   ],
   "note": "the fourth and fifth are the disagreements; exact arithmetic; the final transpose of hermite_renormalized_1leftoverMode is not modelled"
  },
  {
   "property": "C16",
   "status": "proved",
   "theorems": [
    "C16_one_label",
    "C16_product",
    "C16_conjugate",
    "C16_hermitian",
    "C16_up_to_sign",
    "C16_defined",
    "C16_wrong_sign",
    "C16_label_order"
   ],
   "note": "IsContraction is the specification; exact for at most one shared label, conjugate quadratic forms (inner products) and Hermitian-symmetric ones (density matrices, channels), up to one global sign otherwise; shared labels in the same relative order; the last two theorems are the disagreements; exact arithmetic"
  },
  {
   "property": "C52",
   "status": "proved",
   "theorems": [
    "C52_identity",
    "C52_displacement",
    "C52_rotation",
    "C52_damping",
    "C52_beamsplitter",
    "C52_amplifier"
   ],
   "note": "ContractsTo and ev are the specification; cases in TriplesEx.lean"
  },
  {
   "property": "C53",
   "status": "proved",
   "theorems": [
    "C53_vacuum",
    "C53_coherent",
    "C53_squeezed",
    "C53_tmsv",
    "C53_displaced_squeezed",
    "C53_coherent_in",
    "C53_coherent_displaced",
    "C53_coherent_rotated",
    "C53_coherent_beamsplitter"
   ],
   "note": "cases in TriplesEx.lean"
  },
  {
   "property": "C54",
   "status": "proved",
   "theorems": [
    "C54_displacement",
    "C54_rotation",
    "C54_damping",
    "C54_beamsplitter",
    "C54_squeezing",
    "C54_twomode_squeezing"
   ],
   "note": "exact arithmetic; cases in TriplesEx.lean"
  },
  {
   "property": "C55",
   "status": "proved",
   "theorems": [
    "C55_attenuator_then",
    "C55_attenuator",
    "C55_attenuator_coherent",
    "C55_amplifier",
    "C55_kraus",
    "C55_kraus_beamsplitter"
   ],
   "note": "cases in TriplesEx.lean"
  },
  {
   "property": "C56",
   "status": "proved",
   "theorems": [
    "C56_coherent",
    "C56_squeezed",
    "C56_tmsv",
    "C56_thermal",
    "C56_rotation",
    "C56_damping",
    "C56_displacement",
    "C56_squeezing",
    "C56_beamsplitter",
    "C56_attenuator",
    "C56_amplifier",
    "C56_quadrature"
   ],
   "note": "default vanilla strategy; two-mode squeezing gate not included"
  },
  {
   "property": "C57",
   "status": "proved",
   "theorems": [
    "C57_coherent",
    "C57_displaced_squeezed",
    "C57_displaced_squeezed_infinite",
    "C57_squeezed",
    "C57_tmsv",
    "C57_thermal",
    "C57_thermal_purity",
    "C57_attenuator",
    "C57_amplifier"
   ],
   "note": "exact arithmetic with the code's determinant threshold"
  },
  {
   "property": "C58",
   "status": "proved",
   "theorems": [
    "C58_entries",
    "C58_errors",
    "C58_series",
    "C58_determined"
   ],
   "note": "hermite_renormalized with the default strategy; exact arithmetic"
  },
  {
   "property": "C59",
   "status": "proved",
   "theorems": [
    "C59_roundtrip",
    "C59_value",
    "C59_roundtrip_batched",
    "C59_remembers",
    "C59_truncates",
    "C59_planner",
    "C59_batched_wrong",
    "C59_planner_superposition"
   ],
   "note": "the last two are the disagreements"
  },
  {
   "property": "C60",
   "status": "proved",
   "theorems": [
    "C60_iterative",
    "C60_clenshaw",
    "C60_methods_agree",
    "C60_disagreement_cutoff_one",
    "C60_disagreement_bra_ket",
    "C60_example"
   ],
   "note": "W is the specification (Weyl transform with the oscillator eigenfunctions of C51); exact arithmetic"
  },
  {
   "property": "C61",
   "status": "proved",
   "theorems": [
    "C61_vanilla_vjp",
    "C61_stable_vjp",
    "C61_symm"
   ],
   "note": "exact arithmetic; families over the reals or the complex numbers"
  },
  {
   "property": "C62",
   "status": "proved",
   "theorems": [
    "C62_displacement",
    "C62_grad_displacement",
    "C62_squeezer_r",
    "C62_squeezer_phi",
    "C62_squeezed_r",
    "C62_squeezed_phi",
    "C62_beamsplitter",
    "C62_stable_beamsplitter",
    "C62_squeezed_not_gradient"
   ],
   "note": "the squeezer, squeezed and beam splitter theorems prove the returned value divided by two, the last one is the disagreement; out-of-range reads (multiplied by zero) return arbitrary finite values"
  },
  {
   "property": "C63",
   "status": "proved",
   "theorems": [
    "C63_dgate",
    "C63_sgate",
    "C63_bsgate",
    "C63_squeezed_vacuum",
    "C63_displacement",
    "C63_gate",
    "C63_small"
   ],
   "note": "C63_small is the disagreement; BSgate with the default method"
  },
  {
   "property": "C64",
   "status": "proved",
   "theorems": [
    "C64_symm",
    "C64_unitary",
    "C64_roundtrip",
    "C64_converse",
    "C64_implements",
    "C64_positive",
    "C64_isometry",
    "C64_inverse",
    "C64_compose",
    "C64_one",
    "C64_unique",
    "C64_interferometer",
    "C64_rotation",
    "C64_squeezing",
    "C64_beamsplitter",
    "C64_twoModeSqueezing"
   ],
   "note": "modes are a finite index type; operators are represented by their Bargmann functions, products by the Gaussian integral"
  },
  {
   "property": "C65",
   "status": "proved",
   "theorems": [
    "C65_trace",
    "C65_means",
    "C65_covariance",
    "C65_husimi",
    "C65_unique",
    "C65_entire",
    "C65_number",
    "C65_coherent",
    "C65_vacuum"
   ],
   "note": "operators are represented by their Bargmann functions, traces by the Gaussian integral; batches are independent elements and not modelled"
  },
  {
   "property": "C66",
   "status": "proved",
   "theorems": [
    "C66_projector",
    "C66_vacuum",
    "C66_is_positive",
    "C66_is_positive_exact",
    "C66_uncertainty",
    "C66_reported",
    "C66_admissible",
    "C66_thermal",
    "C66_pure_uncertainty",
    "C66_blind"
   ],
   "note": "eigenvalues are the exact roots of the characteristic polynomial; operator positivity is positivity on all finite superpositions of coherent states"
  },
  {
   "property": "C67",
   "status": "proved",
   "theorems": [
    "C67_overlap",
    "C67_purity",
    "C67_purity_range",
    "C67_pure_iff",
    "C67_ket_accepts",
    "C67_ket_unchecked",
    "C67_fidelity_left",
    "C67_fidelity_right"
   ],
   "note": "fidelity of two mixed states (which needs the matrix square root) is modelled with an abstract sqrtm and only the pure cases are claimed; DM.fidelity ignores the coefficients"
  },
  {
   "property": "C68",
   "status": "proved",
   "theorems": [
    "C68_normal_form",
    "C68_eigenvalues",
    "C68_invariant",
    "C68_purity",
    "C68_uncertainty",
    "C68_length",
    "C68_entropy_pure",
    "C68_entropy"
   ],
   "note": "eigenvalues are the exact roots of the characteristic polynomial; unitary equivalence to a Fock-diagonal state is how the operator entropy is expressed"
  },
  {
   "property": "C69",
   "status": "proved",
   "theorems": [
    "C69_coherent",
    "C69_evolve",
    "C69_displacement",
    "C69_gate",
    "C69_rotation",
    "C69_squeezing",
    "C69_beamsplitter",
    "C69_twoModeSqueezing",
    "C69_dgate"
   ],
   "note": "operators are represented by their Bargmann functions, products by the Gaussian integral; the gate acts on all modes of the state (embed S in a larger symplectic matrix for spectator modes)"
  },
  {
   "property": "C70",
   "status": "proved",
   "theorems": [
    "C70_ket",
    "C70_dm",
    "C70_separable",
    "C70_agree",
    "C70_disagree"
   ],
   "note": "the Fock arrays and the result of is_separable are inputs of the model; the documented order fails for separable density matrices, C70_disagree"
  },
  {
   "property": "C71",
   "status": "proved",
   "theorems": [
    "C71_characteristic",
    "C71_roundtrip",
    "C71_vacuum"
   ],
   "note": "for kets the code first contracts with the adjoint (same result as for the density matrix by associativity, not modelled); cov positive definite"
  },
  {
   "property": "C72",
   "status": "proved",
   "theorems": [
    "C72_reduced",
    "C72_mode",
    "C72_product",
    "C72_pure",
    "C72_mixture",
    "C72_coherent_product",
    "C72_classical",
    "C72_single"
   ],
   "note": "tolerance 1e-9 of allclose as in the code; vanishing of the mutual information for mixed states that are not products is not claimed"
  },
  {
   "property": "C73",
   "status": "proved",
   "theorems": [
    "C73_action",
    "C73_displacement"
   ],
   "note": "one batch element; Y positive semidefinite; cov positive definite. C73_displacement is the disagreement with the documented mean."
  },
  {
   "property": "C74",
   "status": "proved",
   "theorems": [
    "C74_choi",
    "C74_is_CP",
    "C74_strict",
    "C74_idle",
    "C74_states",
    "C74_complete",
    "ex_cp"
   ],
   "note": "exact eigenvalues; for the last two Y >= 0"
  },
  {
   "property": "C75",
   "status": "proved",
   "theorems": [
    "C75_roundtrip",
    "C75_action",
    "C75_action_from_XY",
    "C75_is_TP",
    "C75_is_TP_shape",
    "C75_from_XY",
    "C75_is_TP_from_XY",
    "C75_is_TP_raises",
    "ex_tp",
    "ex_prepare"
   ],
   "note": "the converse for unequal numbers of modes (is_TP true for maps that are not trace preserving) is in tp_dims"
  },
  {
   "property": "C76",
   "status": "proved",
   "theorems": [
    "C76_from_XY",
    "C76_attenuator",
    "C76_amplifier",
    "C76_noise",
    "C76_quantum_limit",
    "C76_compose"
   ],
   "note": "attenuator and amplifier on one mode (the code applies them to single modes); composition on states with positive definite intermediate covariance"
  },
  {
   "property": "C77",
   "status": "proved",
   "theorems": [
    "C77_entries",
    "C77_random_phase",
    "C77_state",
    "C77_compose",
    "C77_label_ok",
    "C77_label_bad",
    "C77_operand_overwritten",
    "C77_raises_halfway",
    "C77_example"
   ],
   "note": "density matrices in the Fock representation; the store model of C77_operand_overwritten is for the numpy backend. C77_label_bad, C77_operand_overwritten and C77_raises_halfway are the disagreements. On a Channel the code mixes output and input axes (not modelled)."
  },
  {
   "property": "C78",
   "status": "proved",
   "theorems": [
    "C78_formal",
    "C78_physical",
    "C78_singular",
    "C78_unitary",
    "C78_unitary_of",
    "C78_one_mode",
    "C78_not_unitary"
   ],
   "note": "one batch element; the reordering of the modes before and after is not modelled (the model works in the order core modes, other modes). C78_singular and C78_not_unitary are the disagreements with the documentation."
  },
  {
   "property": "C79",
   "status": "proved",
   "theorems": [
    "C79_diagonal",
    "C79_refused"
   ],
   "note": "one column of B (columns are independent); the table SQRT of 1000 square roots is taken to be infinite"
  },
  {
   "property": "C80",
   "status": "proved",
   "theorems": [
    "C80_diagonal_backward"
   ],
   "note": "in the variables after reorder_AB_bargmann; batched B raises in the code and is not modelled"
  },
  {
   "property": "C81",
   "status": "proved",
   "theorems": [
    "C81_leftover",
    "C81_backends",
    "C81_numpy_ignores_flag",
    "C81_interleaved",
    "C81_refused",
    "C81_backends_disagree"
   ],
   "note": "the table SQRT of 1000 square roots is taken to be infinite"
  },
  {
   "property": "C82",
   "status": "proved",
   "theorems": [
    "C82_leftover_backward"
   ],
   "note": "in the variables after reorder_AB_bargmann"
  },
  {
   "property": "C83",
   "status": "proved",
   "theorems": [
    "C83_gket",
    "C83_gket_state",
    "C83_gdm",
    "C83_gdm_state",
    "C83_gdm_finite",
    "C83_orthogonal",
    "C83_random",
    "C83_gauge",
    "C83_photons",
    "C83_example",
    "C83_random_example"
   ],
   "note": "single (unbatched) symplectic matrix"
  },
  {
   "property": "C84",
   "status": "proved",
   "theorems": [
    "Verif.Triples.C84_amplitudes",
    "Verif.Triples.C84_normalised",
    "Verif.Triples.C84_fidelity",
    "Verif.Triples.C84_zero_radius",
    "Verif.Triples.C84_example"
   ],
   "note": ""
  },
  {
   "property": "C85",
   "status": "proved",
   "theorems": [
    "Verif.Manifold.C85_homodyne",
    "Verif.Manifold.C85_cov",
    "Verif.Manifold.C85_normalised",
    "Verif.Manifold.C85_pure",
    "Verif.Manifold.C85_ket_dm",
    "Verif.Manifold.C85_fock",
    "Verif.Manifold.C85_array",
    "Verif.Manifold.C85_array_tolerance",
    "Verif.Manifold.C85_array_normalised",
    "Verif.Manifold.C85_eigenstate",
    "Verif.Manifold.C85_eigenstate_disagrees"
   ],
   "note": ""
  },
  {
   "property": "C86",
   "status": "proved",
   "theorems": [
    "Verif.Manifold.C86_quasi",
    "Verif.Manifold.C86_mirror",
    "Verif.Manifold.C86_husimi",
    "Verif.Manifold.C86_exact",
    "Verif.Manifold.C86_centred",
    "Verif.Manifold.C86_real_iff",
    "Verif.Manifold.C86_normalised",
    "Verif.Manifold.C86_vacuum",
    "Verif.Manifold.C86_coherent_disagrees"
   ],
   "note": "The naive claim (wigner is the Wigner function of every Gaussian state) is false: see C86_real_iff."
  },
  {
   "property": "C87",
   "status": "proved",
   "theorems": [
    "Verif.Fock.C87_square",
    "Verif.Fock.C87_wide",
    "Verif.Fock.C87_errors",
    "Verif.Fock.C87_missing",
    "Verif.Fock.C87_apply",
    "Verif.Fock.C87_apply_errors",
    "Verif.Fock.exists_eig",
    "Verif.Fock.exists_eigh"
   ],
   "note": "The naive claim (every shape of the form (i,k,i,k)) is false: see C87_missing and C87_errors."
  },
  {
   "property": "C88",
   "status": "proved",
   "theorems": [
    "Verif.CompV.contract_ker",
    "Verif.CompV.adjoint_ker",
    "Verif.CompV.dual_ker",
    "Verif.CompV.C88_contract_assoc",
    "Verif.CompV.C88_rshift",
    "Verif.CompV.C88_paths",
    "Verif.CompV.C88_dual",
    "Verif.CompV.C88_adjoint",
    "Verif.CompV.C88_rshift_returns",
    "Verif.CompV.C88_contract_returns"
   ],
   "note": "Paths that do not merge neighbours reorder the circuit (C11_skip_reorders)."
  },
  {
   "property": "C89",
   "status": "proved",
   "theorems": [
    "Verif.CompV.C89_trace_both",
    "Verif.CompV.traceOut_two",
    "Verif.CompV.traceOut_one",
    "Verif.CompV.C89_trace_split",
    "Verif.CompV.C89_ket_dm",
    "Verif.CompV.C89_orders"
   ],
   "note": "C89_orders is the disagreement when the two sets are iterated in different orders; traceOut_two gives the exact result for any two orders."
  },
  {
   "property": "C90",
   "status": "proved",
   "theorems": [
    "Verif.CompV.C90_validate",
    "Verif.CompV.C90_dm",
    "Verif.CompV.C90_ket",
    "Verif.CompV.C90_ket_dm",
    "Verif.CompV.C90_hermitian",
    "Verif.CompV.C90_real",
    "Verif.CompV.C90_conj",
    "Verif.CompV.C90_not_hermitian"
   ],
   "note": "C90_not_hermitian is the disagreement with the documentation for density-matrix-like operators that are not Hermitian."
  },
  {
   "property": "C91",
   "status": "proved",
   "theorems": [
    "Verif.CompV.C91_ket",
    "Verif.CompV.C91_dm_norm",
    "Verif.CompV.C91_dm_prob",
    "Verif.CompV.C91_dm_purity",
    "Verif.CompV.C91_ket_dm",
    "Verif.CompV.C91_purity",
    "Verif.CompV.C91_normalize_ket",
    "Verif.CompV.C91_normalize_dm",
    "Verif.CompV.C91_normalize_commutes"
   ],
   "note": "Batched states are not modelled."
  },
  {
   "property": "C92",
   "status": "proved",
   "theorems": [
    "Verif.Fid.C92_comm",
    "Verif.Fid.C92_bounds",
    "Verif.Fid.C92_one",
    "Verif.Fid.C92_unitary",
    "Verif.Fid.C92_pure",
    "Verif.CompV.C92_fock",
    "Verif.CompV.C92_dm",
    "Verif.CompV.C92_ket",
    "Verif.CompV.C92_kets"
   ],
   "note": "math.sqrtm is the positive semidefinite square root (Mathlib CFC.sqrt); the Gaussian branch of DM.fidelity is not modelled here."
  },
  {
   "property": "C93",
   "status": "proved",
   "theorems": [
    "Verif.Manifold.C93_formal"
   ],
   "note": "One batch element; the modes are listed with the core modes first; the action of a map is the Bargmann integral of C73."
  },
  {
   "property": "C94",
   "status": "proved",
   "theorems": [
    "Verif.Manifold.C94_physical",
    "Verif.Manifold.C94_core",
    "Verif.Manifold.C94_fails",
    "Verif.Manifold.C94_product",
    "Verif.Manifold.C94_unsorted_not_core"
   ],
   "note": "One batch element; the modes are listed with the core modes first; exact arithmetic; the displacement gates on the core modes are applied together; operators are functions of Bargmann variables, traces and actions of maps Bargmann integrals."
  },
  {
   "property": "C95",
   "status": "proved",
   "theorems": [
    "Verif.Manifold.C95_mixed",
    "Verif.Manifold.C95_core",
    "Verif.Manifold.C95_fails",
    "Verif.Manifold.C95_pure",
    "Verif.Manifold.C95_shapes"
   ],
   "note": "One batch element; the modes are listed with the core modes first; exact arithmetic (`pinv` is the Moore-Penrose inverse); the displacement channels of the core modes are applied together; operators are functions of Bargmann variables, traces and actions of maps Bargmann integrals."
  },
  {
   "property": "C96",
   "status": "proved",
   "theorems": [
    "Verif.Manifold.C96_defined",
    "Verif.Manifold.C96_formal",
    "Verif.Manifold.C96_left",
    "Verif.Manifold.C96_right",
    "Verif.Manifold.C96_unitary",
    "Verif.Manifold.C96_example",
    "Verif.Manifold.C96_minus",
    "Verif.WireModel.C96_wires"
   ],
   "note": "One batch element, ansatz without derived variables, exact arithmetic; the composition is the Bargmann integral (`C96_left`, `C96_right`) and the closed form of the contraction code (`C96_formal`)."
  },
  {
   "property": "C97",
   "status": "proved",
   "theorems": [
    "Verif.Manifold.C97_integral",
    "Verif.Manifold.C97_defined",
    "Verif.Manifold.C97_roundtrip",
    "Verif.Manifold.C97_ket",
    "Verif.Manifold.C97_ket_defined",
    "Verif.Manifold.C97_ket_sign",
    "Verif.Manifold.C97_ket_exact",
    "Verif.Manifold.C97_wrong_sign"
   ],
   "note": "One batch element, ansatz without derived variables, exact arithmetic; a singular M (where the code returns infinities) is an undefined result."
  },
  {
   "property": "C98",
   "status": "proved",
   "theorems": [
    "Verif.CompV.C98_transformation",
    "Verif.CompV.C98_state",
    "Verif.CompV.C98_bargmann",
    "Verif.CompV.C98_from_fock",
    "Verif.CompV.C98_example"
   ],
   "note": "The class is a tag; batch dimensions only enter through the number of core axes; names are not modelled."
  },
  {
   "property": "C99",
   "status": "proved",
   "theorems": [
    "Verif.Lazy.C99_fresh",
    "Verif.Lazy.C99_batch",
    "Verif.Lazy.C99_batch_first",
    "Verif.Lazy.C99_inconsistent",
    "Verif.Lazy.C99_array",
    "Verif.Lazy.C99_stale",
    "Verif.Lazy.C99_verify",
    "Verif.Lazy.C99_array_batch",
    "Verif.Lazy.C99_array_batch_first"
   ],
   "note": "The generating function is any partial function of the arguments without side effects."
  },
  {
   "property": "C100",
   "status": "proved",
   "theorems": [
    "Verif.Samplers.C100_ket",
    "Verif.Samplers.C100_raises",
    "Verif.Samplers.C100_shape"
   ],
   "note": "States are represented by the joint density of their quadratures (C85, C97 are about the densities themselves); the law is for an ideal generator, shape and exceptions for every generator."
  },
  {
   "property": "C101",
   "status": "proved",
   "theorems": [
    "Verif.PhaseC.C101_square",
    "Verif.PhaseC.C101_exact",
    "Verif.PhaseC.C101_raises",
    "Verif.PhaseC.C101_not_rectangular"
   ],
   "note": "Two-dimensional c as the function documents; exact complex arithmetic."
  },
  {
   "property": "C102",
   "status": "proved",
   "theorems": [
    "Verif.Fock.C102_batched",
    "Verif.Fock.C102_b_batched",
    "Verif.Fock.C102_unbatched",
    "Verif.Fock.C102_defined",
    "Verif.Fock.C102_vjp"
   ],
   "note": "Schedules: forward pass, any order of the elementary stores; backward pass, any order of the iterations (their slices are disjoint). Exact arithmetic; out is contiguous; shapes have no zero."
  },
  {
   "property": "C103",
   "status": "proved",
   "theorems": [
    "Verif.RealInt.C103_integral",
    "Verif.RealInt.C103_sign_wrong",
    "Verif.RealInt.C103_join",
    "Verif.RealInt.C103_join_defined",
    "Verif.RealInt.C103_join_refused",
    "Verif.RealInt.C103_join_one",
    "Verif.RealInt.C103_join_wrong",
    "Verif.RealInt.C103_join_order"
   ],
   "note": "Unbatched triples with scalar c, exact arithmetic; a singular block raises in the model."
  },
  {
   "property": "C104",
   "status": "proved",
   "theorems": [
    "Verif.Tree.C104_unflatten",
    "Verif.Tree.C104_roundtrip",
    "Verif.Tree.C104_key_error",
    "Verif.Tree.C104_labels",
    "Verif.Tree.C104_labels_at",
    "Verif.Tree.C104_circuit",
    "Verif.Tree.C104_identity",
    "Verif.Tree.C104_shared"
   ],
   "note": "jax's own traversal (dictionaries in key order, tuples in order) is part of the model; Vacuum, which rebuilds itself from its modes, is not."
  },
  {
   "property": "C105",
   "status": "proved",
   "theorems": [
    "Verif.Axis.C105_axis"
   ],
   "note": "Exact real arithmetic (np.arange has ceil((hi-lo)/step) points); the functions are cached by lru_cache, which returns the same array object."
  },
  {
   "property": "C106",
   "status": "proved",
   "theorems": [
    "Verif.NumState.C106_state",
    "Verif.NumState.C106_default",
    "Verif.NumState.C106_orthonormal",
    "Verif.NumState.C106_negative"
   ],
   "note": "numpy backend; batch axes flattened. With jax the check is a debug callback and is not modelled."
  },
  {
   "property": "C107",
   "status": "proved",
   "theorems": [
    "Verif.CompAdd.C107_wires",
    "Verif.CompAdd.C107_value",
    "Verif.CompAdd.C107_sum_iff",
    "Verif.CompAdd.C107_sum",
    "Verif.CompAdd.C107_unaddable",
    "Verif.CompAdd.C107_attribute",
    "Verif.CompAdd.C107_plain",
    "Verif.CompAdd.C107_matrix",
    "Verif.CompAdd.C107_types",
    "Verif.CompAdd.C107_data",
    "Verif.CompAdd.C107_sub",
    "Verif.CompAdd.C107_scale",
    "Verif.CompAdd.C107_never",
    "Verif.CompAdd.C107_others",
    "Verif.CompAdd.C107_new",
    "Verif.CompAdd.C107_assign",
    "Verif.CompAdd.C107_builtin_value",
    "Verif.CompAdd.C107_builtin_sum",
    "Verif.CompAdd.C107_builtin_sig",
    "Verif.CompAdd.C107_builtin_kinds"
   ],
   "note": "Bargmann ansatze; the generating function is assumed to act entrywise on vectors (proved for Coherent, BargmannEigenstate, DisplacedSqueezed, QuadratureEigenstate, SqueezedVacuum, Thermal, TwoModeSqueezedVacuum, BSgate, Dgate, Rgate, S2gate, Sgate). Array ansatze are C49. C107_data and C107_sub inherit the restriction of C27 on derived variables."
  },
  {
   "property": "C108",
   "status": "proved",
   "theorems": [
    "Verif.Backends.C108_history",
    "Verif.Backends.C108_change",
    "Verif.Backends.C108_get",
    "Verif.Backends.C108_apply",
    "Verif.Backends.C108_singleton"
   ],
   "note": "Whether an import succeeds is an arbitrary input of each operation; Python's lazy loader itself is not modelled."
  },
  {
   "property": "C109",
   "status": "proved",
   "theorems": [
    "Verif.Fock.C109_numpy",
    "Verif.Fock.C109_complete",
    "Verif.Fock.C109_zero",
    "Verif.Fock.C109_jax"
   ],
   "note": "Builds on C22. The backward pass of the jax version is not modelled: it calls strategies.vanilla_vjp, which does not exist."
  },
  {
   "property": "C110",
   "status": "proved",
   "theorems": [
    "Verif.QuadLab.C110_quadrature",
    "Verif.QuadLab.C110_standard",
    "Verif.QuadLab.C110_count",
    "Verif.QuadLab.C110_ket",
    "Verif.QuadLab.C110_mode_one",
    "Verif.QuadLab.C110_is_wave_function"
   ],
   "note": "One batch element; the final reshape is not modelled; einsum is modelled as the sum over assignments of the letters."
  },
  {
   "property": "C111",
   "status": "proved",
   "theorems": [
    "Verif.Mixed.C111_left",
    "Verif.Mixed.C111_right",
    "Verif.Mixed.C111_matrix"
   ],
   "note": "No batches; the Gaussian operand has no derived variables and no linear superposition; the array does not remember a triple (see C59)."
  },
  {
   "property": "C112",
   "status": "proved",
   "theorems": [
    "Verif.ScalarPart.C112_value",
    "Verif.ScalarPart.C112_vacuum",
    "Verif.ScalarPart.C112_toFock",
    "Verif.ScalarPart.C112_toBargmann",
    "Verif.ScalarPart.C112_rrshift"
   ],
   "note": "to_bargmann only without batches (see C59_batched_wrong)."
  },
  {
   "property": "C113",
   "status": "proved",
   "theorems": [
    "Verif.WireModel.C113_eq",
    "Verif.WireModel.C113_axes",
    "Verif.WireModel.C113_equivalence",
    "Verif.WireModel.C113_adjoint_dual",
    "Verif.WireModel.C113_matmul",
    "Verif.WireModel.C113_repr",
    "Verif.WireModel.C113_order"
   ],
   "note": "Hashes are abstract collision-free functions."
  },
  {
   "property": "C114",
   "status": "proved",
   "theorems": [
    "Verif.MM.C114_mixed",
    "Verif.MM.C114_einsum",
    "Verif.MM.C114_operand",
    "Verif.MM.C114_array",
    "Verif.MM.C114_example",
    "Verif.MM.C114_shapes",
    "Verif.MM.C114_unset"
   ],
   "note": "Steps in Bargmann representation (dimension 0 or no shared core label) are not modelled here."
  },
  {
   "property": "C115",
   "status": "proved",
   "theorems": [
    "Verif.UA.C115_union",
    "Verif.UA.C115_complete",
    "Verif.UA.C115_mm_einsum",
    "Verif.UA.C115_named",
    "Verif.UA.C115_unnamed",
    "Verif.UA.C115_example"
   ],
   "note": "The SSA format is converted by opt_einsum and not modelled."
  },
  {
   "property": "C116",
   "status": "proved",
   "theorems": [
    "Verif.Upd.C116_numpy",
    "Verif.Upd.C116_agree",
    "Verif.Upd.C116_range",
    "Verif.Upd.C116_one_value",
    "Verif.Upd.C116_negative",
    "Verif.Upd.C116_set",
    "Verif.Upd.C116_set_agree",
    "Verif.Upd.C116_example",
    "Verif.Upd.C116_in_range",
    "Verif.Upd.C116_index"
   ],
   "note": "Full multi-indices for update_add_tensor, indices of the first axis for update_tensor; JAX scatter semantics (drop out of range) as documented by JAX."
  },
  {
   "property": "C117",
   "status": "proved",
   "theorems": [
    "Verif.Log.C117_when",
    "Verif.Log.C117_others",
    "Verif.Log.C117_once",
    "Verif.Log.C117_idempotent",
    "Verif.Log.C117_no_duplicates",
    "Verif.Log.C117_duplicates",
    "Verif.Log.C117_effective",
    "Verif.Log.C117_root_level"
   ],
   "note": "Python's logging (effective level, propagation, addHandler, records passed to the handlers of ancestors) is modelled from its documentation; levels are numbers."
  },
  {
   "property": "C118",
   "status": "proved",
   "theorems": [
    "Verif.Fock.C118_jacobian",
    "Verif.Fock.C118_amplitudes",
    "Verif.Fock.pathOrder_ndindex",
    "Verif.Fock.C118_batch",
    "Verif.Fock.C118_numba",
    "Verif.Fock.C118_numba_corner"
   ],
   "note": "Exact arithmetic; these functions are not called elsewhere in the package. Reading a coordinate -1 wraps around, as in numba."
  },
  {
   "property": "C119",
   "status": "proved",
   "theorems": [
    "Verif.Fid.C119_sqrtm",
    "Verif.Fid.C119_exact",
    "Verif.Fid.C119_normalised",
    "Verif.Fid.C119_error",
    "Verif.Fid.C119_symmetric",
    "Verif.Fid.C119_asymmetric"
   ],
   "note": "Exact arithmetic; the square root routine itself (scipy, jax) is taken to return the positive semidefinite root. C92 is about the fidelity without the shortcut; C119_error bounds the difference."
  },
  {
   "property": "C120",
   "status": "proved",
   "theorems": [
    "Verif.Alias.C120_light_shared",
    "Verif.Alias.C120_on_shared",
    "Verif.Alias.C120_flip_shared",
    "Verif.Alias.C120_constant",
    "Verif.Alias.C120_name_stable",
    "Verif.Alias.C120_slots_stable",
    "Verif.Alias.C120_shape_own",
    "Verif.Alias.C120_shape_new",
    "Verif.Alias.C120_shape_light",
    "Verif.Alias.C120_shape_on",
    "Verif.Alias.C120_on_order",
    "Verif.Alias.C120_set_shape",
    "Verif.Alias.C120_flip_first",
    "Verif.Alias.C120_adjWs",
    "Verif.Alias.C120_dulWs",
    "Verif.Alias.C120_flip_aliased",
    "Verif.Alias.C120_on_name_read",
    "Verif.Alias.C120_on_name_unread",
    "Verif.Alias.C120_cutoff_lost",
    "Verif.Alias.C120_adjoint_stale",
    "Verif.Alias.C120_adjoint_aliased",
    "Verif.Alias.C120_on_repeated",
    "Verif.Alias.C120_name_history",
    "Verif.Alias.C120_on_accepts",
    "Verif.Alias.C120_on_refused",
    "Verif.Alias.C120_on_sorted",
    "Verif.Alias.C120_auto_name"
   ],
   "note": "The ansatz is an opaque object (how a lazy ansatz follows its parameters is C99, what reorder and conj do is C08). No classical wires. The wires of a component are taken to be in standard order."
  },
  {
   "property": "C121",
   "status": "proved",
   "theorems": [
    "Verif.Draw.C121_order",
    "Verif.Draw.C121_disjoint",
    "Verif.Draw.C121_overlap",
    "Verif.Draw.C121_tight",
    "Verif.Draw.C121_aligned",
    "Verif.Draw.C121_labels",
    "Verif.Draw.C121_chunks_aligned",
    "Verif.Draw.C121_chunks_flatten",
    "Verif.Draw.C121_chunk_width",
    "Verif.Draw.C121_scalar_labels",
    "Verif.Draw.C121_batched",
    "Verif.Draw.C121_between",
    "Verif.Draw.C121_span",
    "Verif.Draw.C121_no_collision",
    "Verif.Draw.C121_chunk_greedy",
    "Verif.Draw.C121_wire",
    "Verif.Draw.C121_lines",
    "Verif.Draw.C121_lines_hold"
   ],
   "note": "Formatting of numbers is opaque; labels do not contain //. The heights of the modes are a parameter: the code takes them from the iteration order of a Python set, which need not be increasing (e.g. {8, 1}), although its comment says so."
  }
 ]
}