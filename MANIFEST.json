{
 "claims": [
  {
   "property": "C01",
   "status": "proved",
   "theorems": [
    "Comch.Props.C01_built_nf",
    "Comch.Props.C01_nf_iff_fixed"
   ],
   "note": ""
  },
  {
   "property": "C02",
   "status": "proved",
   "theorems": [
    "Comch.Props.C02_eq_iff",
    "Comch.Props.C02_order_irrelevant",
    "Comch.Props.C02_truthy_iff"
   ],
   "note": ""
  },
  {
   "property": "C03",
   "status": "proved",
   "theorems": [
    "Comch.Props.C03_add_coeff",
    "Comch.Props.C03_sub_coeff",
    "Comch.Props.C03_add_comm",
    "Comch.Props.C03_add_assoc",
    "Comch.Props.C03_add_zero",
    "Comch.Props.C03_sub_self",
    "Comch.Props.C03_sub_eq_add_neg"
   ],
   "note": ""
  },
  {
   "property": "C04",
   "status": "proved",
   "theorems": [
    "Comch.Props.C04_smul_coeff",
    "Comch.Props.C04_mul_smul",
    "Comch.Props.C04_add_smul",
    "Comch.Props.C04_smul_add",
    "Comch.Props.C04_one_smul",
    "Comch.Props.C04_torsion_smul"
   ],
   "note": ""
  },
  {
   "property": "C05",
   "status": "proved",
   "theorems": [
    "Comch.Props.C05_error_iff",
    "Comch.Props.C05_iadd_eq_add",
    "Comch.Props.C05_isub_eq_sub"
   ],
   "note": ""
  },
  {
   "property": "C06",
   "status": "proved",
   "theorems": [
    "Comch.Props.C06_div",
    "Comch.Props.C06_div_error"
   ],
   "note": ""
  },
  {
   "property": "C07",
   "status": "proved",
   "theorems": [
    "Comch.Props.C07_setTorsion_coeff",
    "Comch.Props.C07_setTorsion_setTorsion",
    "Comch.Props.C07_setTorsion_add",
    "Comch.Props.C07_setTorsion_sub",
    "Comch.Props.C07_setTorsion_smul"
   ],
   "note": ""
  },
  {
   "property": "C08",
   "status": "proved",
   "theorems": [
    "Comch.Props.C08_operandsUnchanged_false",
    "Comch.Props.C08_normal_form_lost",
    "Comch.Props.C08_unshared_unchanged",
    "Comch.Props.C08_operations_keep_objects",
    "Comch.Props.C08_setTorsion_effect"
   ],
   "note": "The property one would like (no other object changes) is false of the code: C08_operandsUnchanged_false, C08_normal_form_lost are proved witnesses; C08_setTorsion_effect is the exact effect."
  },
  {
   "property": "C09",
   "status": "proved",
   "theorems": [
    "Comch.Props.C09_create_coeff",
    "Comch.Props.C09_create_wrong_default"
   ],
   "note": ""
  },
  {
   "property": "C10",
   "status": "proved",
   "theorems": [
    "Comch.Props.C10_mul_composite",
    "Comch.Props.C10_mul_assoc",
    "Comch.Props.C10_identity",
    "Comch.Props.C10_inverse",
    "Comch.Props.C10_arity_mismatch"
   ],
   "note": ""
  },
  {
   "property": "C11",
   "status": "proved",
   "theorems": [
    "Comch.Props.C11_sign_inversions",
    "Comch.Props.C11_sign_mul",
    "Comch.Props.C11_sign_not_perm"
   ],
   "note": ""
  },
  {
   "property": "C12",
   "status": "proved",
   "theorems": [
    "Comch.Props.C12_cycles_singletons",
    "Comch.Props.C12_cycles"
   ],
   "note": ""
  },
  {
   "property": "C13",
   "status": "proved",
   "theorems": [
    "Comch.Props.C13_pow_iterate",
    "Comch.Props.C13_pow_zero",
    "Comch.Props.C13_pow_add",
    "Comch.Props.C13_pow_one",
    "Comch.Props.C13_pow_negative"
   ],
   "note": ""
  },
  {
   "property": "C14",
   "status": "proved",
   "theorems": [
    "Comch.Props.C14_compose_sign",
    "Comch.Props.C14_compose_perm",
    "Comch.Props.C14_compose_word",
    "Comch.Props.C14_compose_unit",
    "Comch.Props.C14_compose_sequential",
    "Comch.Props.C14_compose_parallel",
    "Comch.Props.C14_compose_bad_position"
   ],
   "note": ""
  },
  {
   "property": "C15",
   "status": "proved",
   "theorems": [
    "Comch.Props.C15_all",
    "Comch.Props.C15_shuffles"
   ],
   "note": ""
  },
  {
   "property": "C16",
   "status": "proved",
   "theorems": [
    "Comch.Props.C16_mul_convolution",
    "Comch.Props.C16_mul_assoc",
    "Comch.Props.C16_add_mul",
    "Comch.Props.C16_mul_add",
    "Comch.Props.C16_smul_mul",
    "Comch.Props.C16_mul_one",
    "Comch.Props.C16_torsion_mismatch"
   ],
   "note": ""
  },
  {
   "property": "C17",
   "status": "proved",
   "theorems": [
    "Comch.Props.C17_pow_zero",
    "Comch.Props.C17_pow_zero_error",
    "Comch.Props.C17_pow_keywise",
    "Comch.Props.C17_pow_basis",
    "Comch.Props.C17_pow_false"
   ],
   "note": "The property one would like (x**n is the n-fold product) is false of the code: C17_pow_false is a proved witness; C17_pow_keywise is what is computed."
  },
  {
   "property": "C18",
   "status": "proved",
   "theorems": [
    "Comch.Props.C18_compose_ok",
    "Comch.Props.C18_compose_add_left",
    "Comch.Props.C18_compose_add_right",
    "Comch.Props.C18_compose_unit",
    "Comch.Props.C18_compose_sequential",
    "Comch.Props.C18_compose_parallel"
   ],
   "note": ""
  },
  {
   "property": "C19",
   "status": "proved",
   "theorems": [
    "Comch.Props.C19_rho_order",
    "Comch.Props.C19_transposition",
    "Comch.Props.C19_norm",
    "Comch.Props.C19_norm_transposition",
    "Comch.Props.C19_norm_torsion_one",
    "Comch.Props.C19_transposition_arity_one"
   ],
   "note": ""
  },
  {
   "property": "C20",
   "status": "proved",
   "theorems": [
    "Comch.Props.C20_face_face",
    "Comch.Props.C20_degeneracy_degeneracy",
    "Comch.Props.C20_face_degeneracy_lt",
    "Comch.Props.C20_face_degeneracy_eq",
    "Comch.Props.C20_face_degeneracy_gt",
    "Comch.Props.C20_coface_coface",
    "Comch.Props.C20_codegeneracy_codegeneracy",
    "Comch.Props.C20_codegeneracy_coface_lt",
    "Comch.Props.C20_codegeneracy_coface_eq",
    "Comch.Props.C20_codegeneracy_coface_gt",
    "Comch.Props.C20_vertices"
   ],
   "note": ""
  },
  {
   "property": "C21",
   "status": "proved",
   "theorems": [
    "Comch.Props.C21_isDegenerate_iff",
    "Comch.Props.C21_isNondegenerate",
    "Comch.Props.C21_isDegenerate_vertices"
   ],
   "note": ""
  },
  {
   "property": "C22",
   "status": "proved",
   "theorems": [
    "Comch.Props.C22_boundary_boundary",
    "Comch.Props.C22_boundary_add",
    "Comch.Props.C22_boundary_coeff",
    "Comch.Props.C22_boundary_degree",
    "Comch.Props.C22_boundary_arity"
   ],
   "note": ""
  },
  {
   "property": "C23",
   "status": "proved",
   "theorems": [
    "Comch.Props.C23_act_coeff",
    "Comch.Props.C23_act_assoc",
    "Comch.Props.C23_act_one",
    "Comch.Props.C23_add_act",
    "Comch.Props.C23_act_add",
    "Comch.Props.C23_act_smul",
    "Comch.Props.C23_act_boundary",
    "Comch.Props.C23_act_mismatch"
   ],
   "note": ""
  },
  {
   "property": "C24",
   "status": "proved",
   "theorems": [
    "Comch.Props.C24_diagonal_chain_map",
    "Comch.Props.C24_diagonal_arity_degree",
    "Comch.Props.C24_diagonal_coeff"
   ],
   "note": ""
  },
  {
   "property": "C25",
   "status": "proved",
   "theorems": [
    "Comch.Props.C25_diagonal_iterated"
   ],
   "note": ""
  },
  {
   "property": "C26",
   "status": "proved",
   "theorems": [
    "Comch.Props.C26_oneReduced_coeff",
    "Comch.Props.C26_oneReduced_idempotent",
    "Comch.Props.C26_oneReduced_add",
    "Comch.Props.C26_oneReduced_not_chain_map"
   ],
   "note": "The chain-map clause one would like is false of the code: C26_oneReduced_not_chain_map is a proved witness."
  },
  {
   "property": "C27",
   "status": "proved",
   "theorems": [
    "Comch.Props.C27_basis"
   ],
   "note": ""
  },
  {
   "property": "C28",
   "status": "proved",
   "theorems": [
    "Comch.Props.C28_boundary_ok",
    "Comch.Props.C28_boundary_boundary",
    "Comch.Props.C28_boundary_add",
    "Comch.Props.C28_boundary_coeff",
    "Comch.Props.C28_boundary_degree",
    "Comch.Props.C28_boundary_arity"
   ],
   "note": ""
  },
  {
   "property": "C29",
   "status": "proved",
   "theorems": [
    "Comch.Props.C29_act_coeff",
    "Comch.Props.C29_act_assoc",
    "Comch.Props.C29_act_one",
    "Comch.Props.C29_add_act",
    "Comch.Props.C29_act_add",
    "Comch.Props.C29_act_smul",
    "Comch.Props.C29_act_boundary",
    "Comch.Props.C29_act_mismatch"
   ],
   "note": ""
  },
  {
   "property": "C30",
   "status": "proved",
   "theorems": [
    "Comch.Props.C30_diagonal_chain_map",
    "Comch.Props.C30_diagonal_arity_degree",
    "Comch.Props.C30_diagonal_coeff"
   ],
   "note": ""
  },
  {
   "property": "C31",
   "status": "proved",
   "theorems": [
    "Comch.Props.C31_diagonal_iterated",
    "Comch.Props.C31_diagonal_ne_zero"
   ],
   "note": ""
  },
  {
   "property": "C32",
   "status": "proved",
   "theorems": [
    "Comch.Props.C32_join_coeff",
    "Comch.Props.C32_join_degree",
    "Comch.Props.C32_join_homotopy"
   ],
   "note": ""
  },
  {
   "property": "C33",
   "status": "proved",
   "theorems": [
    "Comch.Props.C33_cartan_serre_coeff",
    "Comch.Props.C33_cartan_serre_chain_map"
   ],
   "note": ""
  },
  {
   "property": "C34",
   "status": "proved",
   "theorems": [
    "Comch.Props.C34_cartan_serre_diagonal"
   ],
   "note": ""
  },
  {
   "property": "C35",
   "status": "proved",
   "theorems": [
    "Comch.Props.C35_basis",
    "Comch.Props.C35_basis_torsion"
   ],
   "note": ""
  },
  {
   "property": "C36",
   "status": "proved",
   "theorems": [
    "Comch.Props.C36_boundary_boundary",
    "Comch.Props.C36_boundary_add",
    "Comch.Props.C36_boundary_coeff",
    "Comch.Props.C36_boundary_degree"
   ],
   "note": ""
  },
  {
   "property": "C37",
   "status": "proved",
   "theorems": [
    "Comch.Props.C37_act_coeff",
    "Comch.Props.C37_act_assoc",
    "Comch.Props.C37_act_one",
    "Comch.Props.C37_add_act",
    "Comch.Props.C37_act_add",
    "Comch.Props.C37_act_smul",
    "Comch.Props.C37_act_boundary",
    "Comch.Props.C37_act_mismatch"
   ],
   "note": ""
  },
  {
   "property": "C38",
   "status": "proved",
   "theorems": [
    "Comch.Props.C38_orbit_coeff",
    "Comch.Props.C38_orbit_orbit",
    "Comch.Props.C38_orbit_act"
   ],
   "note": ""
  },
  {
   "property": "C39",
   "status": "proved",
   "theorems": [
    "Comch.Props.C39_arity_degree",
    "Comch.Props.C39_leibniz",
    "Comch.Props.C39_degree_zero"
   ],
   "note": ""
  },
  {
   "property": "C40",
   "status": "proved",
   "theorems": [
    "Comch.Props.C40_right_unit",
    "Comch.Props.C40_left_unit",
    "Comch.Props.C40_sequential",
    "Comch.Props.C40_parallel"
   ],
   "note": ""
  },
  {
   "property": "C41",
   "status": "proved",
   "theorems": [
    "Comch.Props.C41_compose_raises",
    "Comch.Props.C41_compose_position_zero",
    "Comch.Props.C41_compose_zero_raises",
    "Comch.Props.C41_compose_zero_false"
   ],
   "note": "The property one would like (0 for a zero operand) is false of the code: C41_compose_zero_false."
  },
  {
   "property": "C42",
   "status": "proved",
   "theorems": [
    "Comch.Props.C42_no_exception",
    "Comch.Props.C42_degree",
    "Comch.Props.C42_coeff"
   ],
   "note": ""
  },
  {
   "property": "C43",
   "status": "proved",
   "theorems": [
    "Comch.Props.C43_chain_map",
    "Comch.Props.C43_equivariant"
   ],
   "note": ""
  },
  {
   "property": "C44",
   "status": "proved",
   "theorems": [
    "Comch.Props.C44_diagonal_coeff",
    "Comch.Props.C44_diagonal_add"
   ],
   "note": ""
  },
  {
   "property": "C45",
   "status": "proved",
   "theorems": [
    "Comch.Props.C45_complexity_eq_degree",
    "Comch.Props.C45_complexity_upper",
    "Comch.Props.C45_complexity_arity_two",
    "Comch.Props.C45_complexity_false"
   ],
   "note": "The documented value is not computed in general: C45_complexity_false is a proved witness."
  },
  {
   "property": "C46",
   "status": "proved",
   "theorems": [
    "Comch.Props.C46_psi_zero",
    "Comch.Props.C46_psi_ok",
    "Comch.Props.C46_boundary_odd",
    "Comch.Props.C46_boundary_even",
    "Comch.Props.C46_default_torsion"
   ],
   "note": ""
  },
  {
   "property": "C47",
   "status": "proved",
   "theorems": [
    "Comch.Props.C47_boundary_boundary",
    "Comch.Props.C47_boundary_add",
    "Comch.Props.C47_boundary_coeff",
    "Comch.Props.C47_boundary_degree",
    "Comch.Props.C47_boundary_attrs"
   ],
   "note": ""
  },
  {
   "property": "C48",
   "status": "proved",
   "theorems": [
    "Comch.Props.C48_act_coeff",
    "Comch.Props.C48_act_assoc",
    "Comch.Props.C48_act_one",
    "Comch.Props.C48_add_act",
    "Comch.Props.C48_act_add",
    "Comch.Props.C48_act_smul",
    "Comch.Props.C48_act_boundary",
    "Comch.Props.C48_act_mismatch"
   ],
   "note": ""
  },
  {
   "property": "C49",
   "status": "proved",
   "theorems": [
    "Comch.Props.C49_orbit_coeff",
    "Comch.Props.C49_orbit_orbit",
    "Comch.Props.C49_orbit_act"
   ],
   "note": ""
  },
  {
   "property": "C50",
   "status": "proved",
   "theorems": [
    "Comch.Props.C50_leibniz"
   ],
   "note": ""
  },
  {
   "property": "C51",
   "status": "proved",
   "theorems": [
    "Comch.Props.C51_arity_degree",
    "Comch.Props.C51_right_unit",
    "Comch.Props.C51_left_unit",
    "Comch.Props.C51_absent_position",
    "Comch.Props.C51_mcclure_smith",
    "Comch.Props.C51_zero",
    "Comch.Props.C51_add_left",
    "Comch.Props.C51_add_right"
   ],
   "note": ""
  },
  {
   "property": "C52",
   "status": "proved",
   "theorems": [
    "Comch.Props.C52_chain_map",
    "Comch.Props.C52_arity_degree",
    "Comch.Props.C52_add_left",
    "Comch.Props.C52_add_right",
    "Comch.Props.C52_errors",
    "Comch.Props.C52_zero",
    "Comch.Props.C52_identity_diagonal"
   ],
   "note": ""
  },
  {
   "property": "C53",
   "status": "proved",
   "theorems": [
    "Comch.Props.C53_equivariant"
   ],
   "note": ""
  },
  {
   "property": "C54",
   "status": "proved",
   "theorems": [
    "Comch.Props.C54_chain_map_mod_two",
    "Comch.Props.C54_arity_degree",
    "Comch.Props.C54_add_left",
    "Comch.Props.C54_add_right",
    "Comch.Props.C54_errors_zero",
    "Comch.Props.C54_equivariant_mod_two",
    "Comch.Props.C54_identity_diagonal",
    "Comch.Props.C54_chain_map_fails",
    "Comch.Props.C54_operad_action_fails"
   ],
   "note": ""
  },
  {
   "property": "C55",
   "status": "proved",
   "theorems": [
    "Comch.Props.C55_suspension",
    "Comch.Props.C55_exceptions",
    "Comch.Props.C55_defect"
   ],
   "note": ""
  },
  {
   "property": "C56",
   "status": "proved",
   "theorems": [
    "Comch.Props.C56_psi_zero",
    "Comch.Props.C56_psi_ok",
    "Comch.Props.C56_boundary_odd",
    "Comch.Props.C56_boundary_even",
    "Comch.Props.C56_default_arguments"
   ],
   "note": ""
  },
  {
   "property": "C57",
   "status": "proved",
   "theorems": [
    "Comch.Props.C57_coefficient",
    "Comch.Props.C57_coefficient_small",
    "Comch.Props.C57_coefficient_inexact",
    "Comch.Props.C57_coefficient_overflow",
    "Comch.Props.C57_bockstein_two",
    "Comch.Props.C57_operation_two",
    "Comch.Props.C57_operation_surjection",
    "Comch.Props.C57_operation_barratt_eccles",
    "Comch.Props.C57_operation_inexact"
   ],
   "note": ""
  },
  {
   "property": "C58",
   "status": "proved",
   "theorems": [
    "Comch.Props.C58_basis",
    "Comch.Props.C58_basis_all",
    "Comch.Props.C58_basis_zero"
   ],
   "note": ""
  },
  {
   "property": "C59",
   "status": "proved",
   "theorems": [
    "Comch.Props.C59_complexity_spec",
    "Comch.Props.C59_filtration_spec",
    "Comch.Props.C59_boundary",
    "Comch.Props.C59_act",
    "Comch.Props.C59_act_perm",
    "Comch.Props.C59_complexity_degree"
   ],
   "note": ""
  },
  {
   "property": "C60",
   "status": "proved",
   "theorems": [
    "Comch.Props.C60_simplex",
    "Comch.Props.C60_cube"
   ],
   "note": ""
  },
  {
   "property": "C61",
   "status": "proved",
   "theorems": [
    "Comch.Props.C61_partitions_unordered",
    "Comch.Props.C61_partitions_ordered"
   ],
   "note": ""
  },
  {
   "property": "C62",
   "status": "proved",
   "theorems": [
    "Comch.Props.C62_decompositions"
   ],
   "note": ""
  },
  {
   "property": "C63",
   "status": "proved",
   "theorems": [
    "Comch.Props.C63_arrangements",
    "Comch.Props.C63_default",
    "Comch.Props.C63_distinctPermutations",
    "Comch.Props.C63_distinctPermutations_take"
   ],
   "note": ""
  },
  {
   "property": "C64",
   "status": "proved",
   "theorems": [
    "Comch.Props.C64_pairwise"
   ],
   "note": ""
  },
  {
   "property": "C65",
   "status": "proved",
   "theorems": [
    "Comch.Props.C65_simplicial",
    "Comch.Props.C65_cubical",
    "Comch.Props.C65_barrattEccles",
    "Comch.Props.C65_surjection"
   ],
   "note": ""
  },
  {
   "property": "C66",
   "status": "proved",
   "theorems": [
    "Comch.Props.C66_sequential",
    "Comch.Props.C66_parallel"
   ],
   "note": ""
  },
  {
   "property": "C67",
   "status": "proved",
   "theorems": [
    "Comch.Props.C67_operad_action"
   ],
   "note": ""
  },
  {
   "property": "C68",
   "status": "proved",
   "theorems": [
    "Comch.Props.C68_interchange"
   ],
   "note": ""
  },
  {
   "property": "C69",
   "status": "proved",
   "theorems": [
    "Comch.Props.C69_equivariant"
   ],
   "note": ""
  },
  {
   "property": "C70",
   "status": "proved",
   "theorems": [
    "Comch.Props.C70_equivariant"
   ],
   "note": ""
  },
  {
   "property": "C71",
   "status": "proved",
   "theorems": [
    "Comch.Props.C71_equivariant"
   ],
   "note": ""
  },
  {
   "property": "C72",
   "status": "proved",
   "theorems": [
    "Comch.Props.C72_complexity"
   ],
   "note": ""
  },
  {
   "property": "C73",
   "status": "proved",
   "theorems": [
    "Comch.Props.C73_complexity"
   ],
   "note": ""
  },
  {
   "property": "C74",
   "status": "proved",
   "theorems": [
    "Comch.Props.C74_surjection",
    "Comch.Props.C74_barratt_eccles"
   ],
   "note": ""
  },
  {
   "property": "C75",
   "status": "proved",
   "theorems": [
    "Comch.Props.C75_psi_surjection",
    "Comch.Props.C75_steenrod_surjection",
    "Comch.Props.C75_psi_barratt_eccles",
    "Comch.Props.C75_steenrod_barratt_eccles"
   ],
   "note": ""
  },
  {
   "property": "C76",
   "status": "proved",
   "theorems": [
    "Comch.Props.C76_str_text",
    "Comch.Props.C76_str_text_nested",
    "Comch.Props.C76_str_injective",
    "Comch.Props.C76_str_injective_nested",
    "Comch.Props.C76_str_zero",
    "Comch.Props.C76_str_zero_nested",
    "Comch.Props.C76_defect_order"
   ],
   "note": ""
  },
  {
   "property": "C77",
   "status": "proved",
   "theorems": [
    "Comch.Props.C77_hash_of_eq",
    "Comch.Props.C77_defect_mutation"
   ],
   "note": ""
  },
  {
   "property": "C78",
   "status": "proved",
   "theorems": [
    "Comch.Props.C78_simplicial",
    "Comch.Props.C78_defect_vertex",
    "Comch.Props.C78_cubical",
    "Comch.Props.C78_defect_coefficient",
    "Comch.Props.C78_defect_zero"
   ],
   "note": ""
  },
  {
   "property": "C79",
   "status": "proved",
   "theorems": [
    "Comch.Props.C79_compose",
    "Comch.Props.C79_unit"
   ],
   "note": ""
  },
  {
   "property": "C80",
   "status": "proved",
   "theorems": [
    "Comch.Props.C80_structure",
    "Comch.Props.C80_structure_default",
    "Comch.Props.C80_operation"
   ],
   "note": ""
  },
  {
   "property": "C81",
   "status": "proved",
   "theorems": [
    "Comch.Props.C81_odd",
    "Comch.Props.C81_even",
    "Comch.Props.C81_cubical"
   ],
   "note": ""
  },
  {
   "property": "C82",
   "status": "proved",
   "theorems": [
    "Comch.Props.C82_be_acyclic",
    "Comch.Props.C82_be_degree_zero",
    "Comch.Props.C82_surj_acyclic",
    "Comch.Props.C82_surj_degree_zero"
   ],
   "note": ""
  },
  {
   "property": "C83",
   "status": "proved",
   "theorems": [
    "Comch.Props.C83_be",
    "Comch.Props.C83_surj",
    "Comch.Props.C83_be_free",
    "Comch.Props.C83_surj_free"
   ],
   "note": ""
  },
  {
   "property": "C84",
   "status": "proved",
   "theorems": [
    "Comch.Props.C84_action_coeff"
   ],
   "note": ""
  },
  {
   "property": "C85",
   "status": "proved",
   "theorems": [
    "Comch.Props.C85_compose_coeff"
   ],
   "note": ""
  },
  {
   "property": "C86",
   "status": "proved",
   "theorems": [
    "Comch.Props.C86_compose_coeff"
   ],
   "note": ""
  },
  {
   "property": "C87",
   "status": "proved",
   "theorems": [
    "Comch.Props.C87_locality",
    "Comch.Props.C87_instability"
   ],
   "note": ""
  },
  {
   "property": "C88",
   "status": "proved",
   "theorems": [
    "Comch.Props.C88_extremal",
    "Comch.Props.C88_negative_operations",
    "Comch.Props.C88_arity_two",
    "Comch.Props.C88_square_zero"
   ],
   "note": ""
  },
  {
   "property": "C89",
   "status": "proved",
   "theorems": [
    "Comch.Props.C89_boundary",
    "Comch.Props.C89_diagonal",
    "Comch.Props.C89_call",
    "Comch.Props.C89_act"
   ],
   "note": ""
  },
  {
   "property": "C90",
   "status": "proved",
   "theorems": [
    "Comch.Props.C90_boundary",
    "Comch.Props.C90_diagonal",
    "Comch.Props.C90_join",
    "Comch.Props.C90_call",
    "Comch.Props.C90_act"
   ],
   "note": ""
  },
  {
   "property": "C91",
   "status": "proved",
   "theorems": [
    "Comch.Props.C91_chain_map",
    "Comch.Props.C91_coassociative",
    "Comch.Props.C91_counit",
    "Comch.Props.C91_equivariant"
   ],
   "note": ""
  },
  {
   "property": "C92",
   "status": "proved",
   "theorems": [
    "Comch.Props.C92_hopf"
   ],
   "note": ""
  },
  {
   "property": "C93",
   "status": "proved",
   "theorems": [
    "Comch.Props.C93_mod_two",
    "Comch.Props.C93_integral_twist",
    "Comch.Props.C93_low_degree",
    "Comch.Props.C93_integral_fails"
   ],
   "note": ""
  },
  {
   "property": "C94",
   "status": "proved",
   "theorems": [
    "Comch.Props.C94_simplicial",
    "Comch.Props.C94_cubical",
    "Comch.Props.C94_degenerate",
    "Comch.Props.C94_cartan_serre"
   ],
   "note": ""
  },
  {
   "property": "C95",
   "status": "proved",
   "theorems": [
    "Comch.Props.C95_class",
    "Comch.Props.C95_error",
    "Comch.Props.C95_int",
    "Comch.Props.C95_repeat",
    "Comch.Props.C95_int_scales",
    "Comch.Props.C95_permutation_ring",
    "Comch.Props.C95_simplicial",
    "Comch.Props.C95_cubical",
    "Comch.Props.C95_surjection",
    "Comch.Props.C95_barratt_eccles"
   ],
   "note": ""
  },
  {
   "property": "C96",
   "status": "proved",
   "theorems": [
    "Comch.Props.C96_product_free",
    "Comch.Props.C96_agree",
    "Comch.Props.C96_mul_keys",
    "Comch.Props.C96_add_keys",
    "Comch.Props.C96_iadd_keys",
    "Comch.Props.C96_setTorsion_keys",
    "Comch.Props.C96_barratt_eccles",
    "Comch.Props.C96_pow_compose",
    "Comch.Props.C96_repair",
    "Comch.Props.C96_other_classes"
   ],
   "note": ""
  },
  {
   "property": "C97",
   "status": "proved",
   "theorems": [
    "Comch.Props.C97_coefficients",
    "Comch.Props.C97_injective",
    "Comch.Props.C97_dimension",
    "Comch.Props.C97_dimension_inherited"
   ],
   "note": ""
  },
  {
   "property": "C98",
   "status": "proved",
   "theorems": [
    "Comch.Props.C98_simplicial_acyclic",
    "Comch.Props.C98_simplicial_degree_zero",
    "Comch.Props.C98_cubical_acyclic",
    "Comch.Props.C98_cubical_degree_zero"
   ],
   "note": ""
  },
  {
   "property": "C99",
   "status": "proved",
   "theorems": [
    "Comch.Props.C99_call",
    "Comch.Props.C99_inplace",
    "Comch.Props.C99_setTorsion",
    "Comch.Props.C99_arithmetic",
    "Comch.Props.C99_simplicial",
    "Comch.Props.C99_cubical",
    "Comch.Props.C99_barrattEccles",
    "Comch.Props.C99_surjection",
    "Comch.Props.C99_ring",
    "Comch.Props.C99_normal_form",
    "Comch.Props.C99_independent",
    "Comch.Props.C99_join_alias",
    "Comch.Props.C99_orbit_alias",
    "Comch.Props.C99_suspension_alias"
   ],
   "note": ""
  },
  {
   "property": "C100",
   "status": "proved",
   "theorems": [
    "Comch.Props.C100_copy_attrs",
    "Comch.Props.C100_copy_eq",
    "Comch.Props.C100_copy_faithful_iff",
    "Comch.Props.C100_copy_add",
    "Comch.Props.C100_copy_boundary_differs",
    "Comch.Props.C100_copy_double_differs",
    "Comch.Props.C100_pos"
   ],
   "note": ""
  },
  {
   "property": "C101",
   "status": "proved",
   "theorems": [
    "Comch.Props.C101_edit_coeff",
    "Comch.Props.C101_preferred_rep",
    "Comch.Props.C101_add",
    "Comch.Props.C101_not_normalised"
   ],
   "note": ""
  },
  {
   "property": "C102",
   "status": "proved",
   "theorems": [
    "Comch.Props.C102_defined",
    "Comch.Props.C102_degree",
    "Comch.Props.C102_cocycle"
   ],
   "note": ""
  },
  {
   "property": "C103",
   "status": "proved",
   "theorems": [
    "Comch.Props.C103_defined",
    "Comch.Props.C103_coboundary_zero",
    "Comch.Props.C103_coboundary_succ",
    "Comch.Props.C103_front_back"
   ],
   "note": ""
  },
  {
   "property": "C104",
   "status": "proved",
   "theorems": [
    "Comch.Props.C104_additive",
    "Comch.Props.C104_well_defined",
    "Comch.Props.C104_vanishing",
    "Comch.Props.C104_top",
    "Comch.Props.C104_zero"
   ],
   "note": ""
  },
  {
   "property": "C105",
   "status": "proved",
   "theorems": [
    "Comch.Props.C105_well_defined",
    "Comch.Props.C105_additive",
    "Comch.Props.C105_vanishing",
    "Comch.Props.C105_top"
   ],
   "note": ""
  },
  {
   "property": "C106",
   "status": "proved",
   "theorems": [
    "Comch.Props.C106_coboundary",
    "Comch.Props.C106_cocycle",
    "Comch.Props.C106_cohomologous",
    "Comch.Props.C106_steenrod",
    "Comch.Props.C106_cup"
   ],
   "note": ""
  },
  {
   "property": "C107",
   "status": "proved",
   "theorems": [
    "Comch.Props.C107_exists",
    "Comch.Props.C107_unique",
    "Comch.Props.C107_cocycle",
    "Comch.Props.C107_odd",
    "Comch.Props.C107_square_even",
    "Comch.Props.C107_square_odd",
    "Comch.Props.C107_square_one"
   ],
   "note": ""
  },
  {
   "property": "C108",
   "status": "proved",
   "theorems": [
    "Comch.Props.C108_cartan"
   ],
   "note": ""
  },
  {
   "property": "C109",
   "status": "proved",
   "theorems": [
    "Comch.Props.C109_identity",
    "Comch.Props.C109_involution",
    "Comch.Props.C109_inexact"
   ],
   "note": ""
  },
  {
   "property": "C110",
   "status": "proved",
   "theorems": [
    "Comch.Props.C110_simplicial_basis",
    "Comch.Props.C110_cubical_basis",
    "Comch.Props.C110_all",
    "Comch.Props.C110_shuffles",
    "Comch.Props.C110_partitions",
    "Comch.Props.C110_decompositions",
    "Comch.Props.C110_simplicial_diagonal",
    "Comch.Props.C110_cubical_diagonal",
    "Comch.Props.C110_simplicial_boundary",
    "Comch.Props.C110_cubical_boundary"
   ],
   "note": ""
  },
  {
   "property": "C111",
   "status": "proved",
   "theorems": [
    "Comch.Props.C111_defined",
    "Comch.Props.C111_degree",
    "Comch.Props.C111_local",
    "Comch.Props.C111_cup",
    "Comch.Props.C111_coboundary_zero",
    "Comch.Props.C111_coboundary_succ",
    "Comch.Props.C111_square"
   ],
   "note": ""
  },
  {
   "property": "C112",
   "status": "proved",
   "theorems": [
    "Comch.Props.C112_cocycle",
    "Comch.Props.C112_additive",
    "Comch.Props.C112_well_defined",
    "Comch.Props.C112_vanishing",
    "Comch.Props.C112_zero",
    "Comch.Props.C112_top",
    "Comch.Props.C112_cup"
   ],
   "note": ""
  },
  {
   "property": "C113",
   "status": "proved",
   "theorems": [
    "Comch.Props.C113_value",
    "Comch.Props.C113_coboundary",
    "Comch.Props.C113_cup",
    "Comch.Props.C113_square"
   ],
   "note": ""
  },
  {
   "property": "C114",
   "status": "proved",
   "theorems": [
    "Comch.Props.C114_square",
    "Comch.Props.C114_cubical",
    "Comch.Props.C114_power",
    "Comch.Props.C114_unstable"
   ],
   "note": ""
  },
  {
   "property": "C115",
   "status": "proved",
   "theorems": [
    "Comch.Props.C115_associative",
    "Comch.Props.C115_unit",
    "Comch.Props.C115_distributive",
    "Comch.Props.C115_cocycle",
    "Comch.Props.C115_well_defined",
    "Comch.Props.C115_commutative",
    "Comch.Props.C115_cubical_associative",
    "Comch.Props.C115_cubical_unit"
   ],
   "note": ""
  },
  {
   "property": "C116",
   "status": "proved",
   "theorems": [
    "Comch.Props.C116_adem",
    "Comch.Props.C116_sq1_sq1",
    "Comch.Props.C116_sq1_even",
    "Comch.Props.C116_sq2_sq2"
   ],
   "note": ""
  },
  {
   "property": "C117",
   "status": "proved",
   "theorems": [
    "Comch.Props.C117_boundary",
    "Comch.Props.C117_equivariance",
    "Comch.Props.C117_part",
    "Comch.Props.C117_compose",
    "Comch.Props.C117_defect"
   ],
   "note": ""
  },
  {
   "property": "C118",
   "status": "proved",
   "theorems": [
    "Comch.Props.C118_degree",
    "Comch.Props.C118_cocycle",
    "Comch.Props.C118_vanish",
    "Comch.Props.C118_operation"
   ],
   "note": ""
  },
  {
   "property": "C119",
   "status": "proved",
   "theorems": [
    "Comch.Props.C119_cartan",
    "Comch.Props.C119_cartan_bockstein"
   ],
   "note": ""
  },
  {
   "property": "C120",
   "status": "proved",
   "theorems": [
    "Comch.Props.C120_cartan"
   ],
   "note": ""
  },
  {
   "property": "C121",
   "status": "proved",
   "theorems": [
    "Comch.Props.C121_adem",
    "Comch.Props.C121_sq1_sq1",
    "Comch.Props.C121_sq1_even",
    "Comch.Props.C121_sq2_sq2"
   ],
   "note": ""
  },
  {
   "property": "C122",
   "status": "proved",
   "theorems": [
    "Comch.Props.C122_coboundary",
    "Comch.Props.C122_exists",
    "Comch.Props.C122_unique",
    "Comch.Props.C122_cocycle",
    "Comch.Props.C122_square_even",
    "Comch.Props.C122_square_odd",
    "Comch.Props.C122_square_one"
   ],
   "note": ""
  },
  {
   "property": "C123",
   "status": "proved",
   "theorems": [
    "Comch.Props.C123_simplicial_missing",
    "Comch.Props.C123_simplicial_dropped",
    "Comch.Props.C123_cubical_missing",
    "Comch.Props.C123_cubical_dropped",
    "Comch.Props.C123_barrattEccles",
    "Comch.Props.C123_surjection_missing",
    "Comch.Props.C123_surjection_relabelled",
    "Comch.Props.C123_surjection_signs",
    "Comch.Props.C123_zero"
   ],
   "note": ""
  },
  {
   "property": "C124",
   "status": "proved",
   "theorems": [
    "Comch.Props.C124_coboundary",
    "Comch.Props.C124_cocycle",
    "Comch.Props.C124_cohomologous",
    "Comch.Props.C124_cup",
    "Comch.Props.C124_square"
   ],
   "note": ""
  },
  {
   "property": "C125",
   "status": "proved",
   "theorems": [
    "Comch.Props.C125_twisted_chain_map",
    "Comch.Props.C125_low_degree_chain_map",
    "Comch.Props.C125_degree_three_fails",
    "Comch.Props.C125_mcClureSmith_fails"
   ],
   "note": ""
  },
  {
   "property": "C126",
   "status": "proved",
   "theorems": [
    "Comch.Props.C126_equivariant",
    "Comch.Props.C126_low_degree_equivariant",
    "Comch.Props.C126_bergerFresse_fails",
    "Comch.Props.C126_mcClureSmith_fails"
   ],
   "note": ""
  },
  {
   "property": "C127",
   "status": "proved",
   "theorems": [
    "Comch.Props.C127_defined",
    "Comch.Props.C127_degree",
    "Comch.Props.C127_local",
    "Comch.Props.C127_cup",
    "Comch.Props.C127_coboundary_zero",
    "Comch.Props.C127_coboundary_succ",
    "Comch.Props.C127_associative",
    "Comch.Props.C127_unit",
    "Comch.Props.C127_cocycle",
    "Comch.Props.C127_well_defined",
    "Comch.Props.C127_commutative",
    "Comch.Props.C127_cup_three_fails"
   ],
   "note": ""
  },
  {
   "property": "C128",
   "status": "proved",
   "theorems": [
    "Comch.Props.C128_value",
    "Comch.Props.C128_coboundary",
    "Comch.Props.C128_cup"
   ],
   "note": ""
  },
  {
   "property": "C129",
   "status": "proved",
   "theorems": [
    "Comch.Props.C129_coboundary",
    "Comch.Props.C129_cocycle",
    "Comch.Props.C129_cohomologous",
    "Comch.Props.C129_cup"
   ],
   "note": ""
  },
  {
   "property": "C130",
   "status": "proved",
   "theorems": [
    "Comch.Props.C130_cup_one",
    "Comch.Props.C130_cup_one_zero",
    "Comch.Props.C130_hirsch",
    "Comch.Props.C130_square"
   ],
   "note": ""
  },
  {
   "property": "C131",
   "status": "proved",
   "theorems": [
    "Comch.Props.C131_structure",
    "Comch.Props.C131_cup_formula",
    "Comch.Props.C131_square"
   ],
   "note": ""
  },
  {
   "property": "C132",
   "status": "proved",
   "theorems": [
    "Comch.Props.C132_structure",
    "Comch.Props.C132_count"
   ],
   "note": ""
  },
  {
   "property": "C133",
   "status": "proved",
   "theorems": [
    "Comch.Props.C133_count",
    "Comch.Props.C133_degree",
    "Comch.Props.C133_range",
    "Comch.Props.C133_diagonal",
    "Comch.Props.C133_cubes"
   ],
   "note": ""
  },
  {
   "property": "C134",
   "status": "proved",
   "theorems": [
    "Comch.Props.C134_two",
    "Comch.Props.C134_two_barratt_eccles",
    "Comch.Props.C134_odd"
   ],
   "note": ""
  },
  {
   "property": "C135",
   "status": "proved",
   "theorems": [
    "Comch.Props.C135_coefficient",
    "Comch.Props.C135_mcclure_smith"
   ],
   "note": ""
  },
  {
   "property": "C136",
   "status": "proved",
   "theorems": [
    "Comch.Props.C136_unique",
    "Comch.Props.C136_zero_or_one",
    "Comch.Props.C136_mcclure_smith"
   ],
   "note": ""
  }
 ]
}