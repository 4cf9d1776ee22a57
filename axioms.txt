Comch.Props.C01_built_nf: [propext, Classical.choice, Quot.sound]
Comch.Props.C01_nf_iff_fixed: [propext, Quot.sound]
Comch.Props.C02_eq_iff: [propext, Classical.choice, Quot.sound]
Comch.Props.C02_order_irrelevant: [propext, Quot.sound]
Comch.Props.C02_truthy_iff: [propext, Classical.choice, Quot.sound]
Comch.Props.C03_add_coeff: [propext, Classical.choice, Quot.sound]
Comch.Props.C03_sub_coeff: [propext, Classical.choice, Quot.sound]
Comch.Props.C03_add_comm: [propext, Classical.choice, Quot.sound]
Comch.Props.C03_add_assoc: [propext, Classical.choice, Quot.sound]
Comch.Props.C03_add_zero: [propext, Classical.choice, Quot.sound]
Comch.Props.C03_sub_self: [propext, Classical.choice, Quot.sound]
Comch.Props.C03_sub_eq_add_neg: [propext, Classical.choice, Quot.sound]
Comch.Props.C04_smul_coeff: [propext, Classical.choice, Quot.sound]
Comch.Props.C04_mul_smul: [propext, Classical.choice, Quot.sound]
Comch.Props.C04_add_smul: [propext, Classical.choice, Quot.sound]
Comch.Props.C04_smul_add: [propext, Classical.choice, Quot.sound]
Comch.Props.C04_one_smul: [propext, Classical.choice, Quot.sound]
Comch.Props.C04_torsion_smul: [propext, Classical.choice, Quot.sound]
Comch.Props.C05_error_iff: [propext]
Comch.Props.C05_iadd_eq_add: [propext, Classical.choice, Quot.sound]
Comch.Props.C05_isub_eq_sub: [propext, Classical.choice, Quot.sound]
Comch.Props.C06_div: [propext, Classical.choice, Quot.sound]
Comch.Props.C06_div_error: none
Comch.Props.C07_setTorsion_coeff: [propext, Classical.choice, Quot.sound]
Comch.Props.C07_setTorsion_setTorsion: [propext, Classical.choice, Quot.sound]
Comch.Props.C07_setTorsion_add: [propext, Classical.choice, Quot.sound]
Comch.Props.C07_setTorsion_sub: [propext, Classical.choice, Quot.sound]
Comch.Props.C07_setTorsion_smul: [propext, Classical.choice, Quot.sound]
Comch.Props.C08_operandsUnchanged_false: [propext]
Comch.Props.C08_normal_form_lost: [propext]
Comch.Props.C08_unshared_unchanged: [propext, Quot.sound]
Comch.Props.C08_operations_keep_objects: [propext, Quot.sound]
Comch.Props.C08_setTorsion_effect: [propext, Quot.sound]
Comch.Props.C09_create_coeff: [propext, Classical.choice, Quot.sound]
Comch.Props.C09_create_wrong_default: [propext, Quot.sound]
Comch.Props.C10_mul_composite: [propext, Classical.choice, Quot.sound]
Comch.Props.C10_mul_assoc: [propext, Classical.choice, Quot.sound]
Comch.Props.C10_identity: [propext, Classical.choice, Quot.sound]
Comch.Props.C10_inverse: [propext, Classical.choice, Quot.sound]
Comch.Props.C10_arity_mismatch: [propext, Classical.choice, Quot.sound]
Comch.Props.C11_sign_inversions: [propext, Classical.choice, Quot.sound]
Comch.Props.C11_sign_mul: [propext, Classical.choice, Quot.sound]
Comch.Props.C11_sign_not_perm: [propext, Classical.choice, Quot.sound]
Comch.Props.C12_cycles_singletons: [propext, Classical.choice, Quot.sound]
Comch.Props.C12_cycles: [propext, Classical.choice, Quot.sound]
Comch.Props.C13_pow_iterate: [propext, Classical.choice, Quot.sound]
Comch.Props.C13_pow_zero: [propext, Classical.choice, Quot.sound]
Comch.Props.C13_pow_add: [propext, Classical.choice, Quot.sound]
Comch.Props.C13_pow_one: [propext]
Comch.Props.C13_pow_negative: [propext, Quot.sound]
Comch.Props.C14_compose_sign: [propext, Classical.choice, Quot.sound]
Comch.Props.C14_compose_perm: [propext, Classical.choice, Quot.sound]
Comch.Props.C14_compose_word: [propext, Classical.choice, Quot.sound]
Comch.Props.C14_compose_unit: [propext, Classical.choice, Quot.sound]
Comch.Props.C14_compose_sequential: [propext, Classical.choice, Quot.sound]
Comch.Props.C14_compose_parallel: [propext, Classical.choice, Quot.sound]
Comch.Props.C14_compose_bad_position: [propext, Classical.choice, Quot.sound]
Comch.Props.C15_all: [propext, Classical.choice, Quot.sound]
Comch.Props.C15_shuffles: [propext, Classical.choice, Quot.sound]
Comch.Props.C16_mul_convolution: [propext, Classical.choice, Quot.sound]
Comch.Props.C16_mul_assoc: [propext, Classical.choice, Quot.sound]
Comch.Props.C16_add_mul: [propext, Classical.choice, Quot.sound]
Comch.Props.C16_mul_add: [propext, Classical.choice, Quot.sound]
Comch.Props.C16_smul_mul: [propext, Classical.choice, Quot.sound]
Comch.Props.C16_mul_one: [propext, Classical.choice, Quot.sound]
Comch.Props.C16_torsion_mismatch: [propext]
Comch.Props.C17_pow_zero: [propext, Classical.choice, Quot.sound]
Comch.Props.C17_pow_zero_error: [propext]
Comch.Props.C17_pow_keywise: [propext, Classical.choice, Quot.sound]
Comch.Props.C17_pow_basis: [propext, Classical.choice, Quot.sound]
Comch.Props.C17_pow_false: [propext, Quot.sound]
Comch.Props.C18_compose_ok: [propext, Classical.choice, Quot.sound]
Comch.Props.C18_compose_add_left: [propext, Classical.choice, Quot.sound]
Comch.Props.C18_compose_add_right: [propext, Classical.choice, Quot.sound]
Comch.Props.C18_compose_unit: [propext, Classical.choice, Quot.sound]
Comch.Props.C18_compose_sequential: [propext, Classical.choice, Quot.sound]
Comch.Props.C18_compose_parallel: [propext, Classical.choice, Quot.sound]
Comch.Props.C19_rho_order: [propext, Classical.choice, Quot.sound]
Comch.Props.C19_transposition: [propext, Classical.choice, Quot.sound]
Comch.Props.C19_norm: [propext, Classical.choice, Quot.sound]
Comch.Props.C19_norm_transposition: [propext, Classical.choice, Quot.sound]
Comch.Props.C19_norm_torsion_one: [propext, Quot.sound]
Comch.Props.C19_transposition_arity_one: none
Comch.Props.C20_face_face: [propext, Classical.choice, Quot.sound]
Comch.Props.C20_degeneracy_degeneracy: [propext, Classical.choice, Quot.sound]
Comch.Props.C20_face_degeneracy_lt: [propext, Classical.choice, Quot.sound]
Comch.Props.C20_face_degeneracy_eq: [propext, Classical.choice, Quot.sound]
Comch.Props.C20_face_degeneracy_gt: [propext, Classical.choice, Quot.sound]
Comch.Props.C20_coface_coface: [propext, Quot.sound]
Comch.Props.C20_codegeneracy_codegeneracy: [propext, Quot.sound]
Comch.Props.C20_codegeneracy_coface_lt: [propext, Quot.sound]
Comch.Props.C20_codegeneracy_coface_eq: [propext, Quot.sound]
Comch.Props.C20_codegeneracy_coface_gt: [propext, Quot.sound]
Comch.Props.C20_vertices: [propext, Classical.choice, Quot.sound]
Comch.Props.C21_isDegenerate_iff: [propext, Classical.choice, Quot.sound]
Comch.Props.C21_isNondegenerate: [propext]
Comch.Props.C21_isDegenerate_vertices: [propext, Classical.choice, Quot.sound]
Comch.Props.C22_boundary_boundary: [propext, Classical.choice, Quot.sound]
Comch.Props.C22_boundary_add: [propext, Classical.choice, Quot.sound]
Comch.Props.C22_boundary_coeff: [propext, Classical.choice, Quot.sound]
Comch.Props.C22_boundary_degree: [propext, Classical.choice, Quot.sound]
Comch.Props.C22_boundary_arity: [propext, Classical.choice, Quot.sound]
Comch.Props.C23_act_coeff: [propext, Classical.choice, Quot.sound]
Comch.Props.C23_act_assoc: [propext, Classical.choice, Quot.sound]
Comch.Props.C23_act_one: [propext, Classical.choice, Quot.sound]
Comch.Props.C23_add_act: [propext, Classical.choice, Quot.sound]
Comch.Props.C23_act_add: [propext, Classical.choice, Quot.sound]
Comch.Props.C23_act_smul: [propext, Classical.choice, Quot.sound]
Comch.Props.C23_act_boundary: [propext, Classical.choice, Quot.sound]
Comch.Props.C23_act_mismatch: [propext]
Comch.Props.C24_diagonal_chain_map: [propext, Classical.choice, Quot.sound]
Comch.Props.C24_diagonal_arity_degree: [propext, Classical.choice, Quot.sound]
Comch.Props.C24_diagonal_coeff: [propext, Classical.choice, Quot.sound]
Comch.Props.C25_diagonal_iterated: [propext, Classical.choice, Quot.sound]
Comch.Props.C26_oneReduced_coeff: [propext, Classical.choice, Quot.sound]
Comch.Props.C26_oneReduced_idempotent: [propext, Classical.choice, Quot.sound]
Comch.Props.C26_oneReduced_add: [propext, Classical.choice, Quot.sound]
Comch.Props.C26_oneReduced_not_chain_map: none
Comch.Props.C27_basis: [propext, Classical.choice, Quot.sound]
Comch.Props.C28_boundary_ok: [propext, Classical.choice, Quot.sound]
Comch.Props.C28_boundary_boundary: [propext, Classical.choice, Quot.sound]
Comch.Props.C28_boundary_add: [propext, Classical.choice, Quot.sound]
Comch.Props.C28_boundary_coeff: [propext, Classical.choice, Quot.sound]
Comch.Props.C28_boundary_degree: [propext, Classical.choice, Quot.sound]
Comch.Props.C28_boundary_arity: [propext, Classical.choice, Quot.sound]
Comch.Props.C29_act_coeff: [propext, Classical.choice, Quot.sound]
Comch.Props.C29_act_assoc: [propext, Classical.choice, Quot.sound]
Comch.Props.C29_act_one: [propext, Classical.choice, Quot.sound]
Comch.Props.C29_add_act: [propext, Classical.choice, Quot.sound]
Comch.Props.C29_act_add: [propext, Classical.choice, Quot.sound]
Comch.Props.C29_act_smul: [propext, Classical.choice, Quot.sound]
Comch.Props.C29_act_boundary: [propext, Classical.choice, Quot.sound]
Comch.Props.C29_act_mismatch: [propext]
Comch.Props.C30_diagonal_chain_map: [propext, Classical.choice, Quot.sound]
Comch.Props.C30_diagonal_arity_degree: [propext, Classical.choice, Quot.sound]
Comch.Props.C30_diagonal_coeff: [propext, Classical.choice, Quot.sound]
Comch.Props.C31_diagonal_iterated: [propext, Classical.choice, Quot.sound]
Comch.Props.C31_diagonal_ne_zero: [propext, Classical.choice, Quot.sound]
Comch.Props.C32_join_coeff: [propext, Classical.choice, Quot.sound]
Comch.Props.C32_join_degree: [propext, Classical.choice, Quot.sound]
Comch.Props.C32_join_homotopy: [propext, Classical.choice, Quot.sound]
Comch.Props.C33_cartan_serre_coeff: [propext, Classical.choice, Quot.sound]
Comch.Props.C33_cartan_serre_chain_map: [propext, Classical.choice, Quot.sound]
Comch.Props.C34_cartan_serre_diagonal: [propext, Classical.choice, Quot.sound]
Comch.Props.C35_basis: [propext, Classical.choice, Quot.sound]
Comch.Props.C35_basis_torsion: [propext, Quot.sound]
Comch.Props.C36_boundary_boundary: [propext, Classical.choice, Quot.sound]
Comch.Props.C36_boundary_add: [propext, Classical.choice, Quot.sound]
Comch.Props.C36_boundary_coeff: [propext, Classical.choice, Quot.sound]
Comch.Props.C36_boundary_degree: [propext, Classical.choice, Quot.sound]
Comch.Props.C37_act_coeff: [propext, Classical.choice, Quot.sound]
Comch.Props.C37_act_assoc: [propext, Classical.choice, Quot.sound]
Comch.Props.C37_act_one: [propext, Classical.choice, Quot.sound]
Comch.Props.C37_add_act: [propext, Classical.choice, Quot.sound]
Comch.Props.C37_act_add: [propext, Classical.choice, Quot.sound]
Comch.Props.C37_act_smul: [propext, Classical.choice, Quot.sound]
Comch.Props.C37_act_boundary: [propext, Classical.choice, Quot.sound]
Comch.Props.C37_act_mismatch: [propext]
Comch.Props.C38_orbit_coeff: [propext, Classical.choice, Quot.sound]
Comch.Props.C38_orbit_orbit: [propext, Classical.choice, Quot.sound]
Comch.Props.C38_orbit_act: [propext, Classical.choice, Quot.sound]
Comch.Props.C39_arity_degree: [propext, Classical.choice, Quot.sound]
Comch.Props.C39_leibniz: [propext, Classical.choice, Quot.sound]
Comch.Props.C39_degree_zero: [propext, Classical.choice, Quot.sound]
Comch.Props.C40_right_unit: [propext, Classical.choice, Quot.sound]
Comch.Props.C40_left_unit: [propext, Classical.choice, Quot.sound]
Comch.Props.C40_sequential: [propext, Classical.choice, Quot.sound]
Comch.Props.C40_parallel: [propext, Classical.choice, Quot.sound]
Comch.Props.C41_compose_raises: [propext]
Comch.Props.C41_compose_position_zero: [propext, Classical.choice, Quot.sound]
Comch.Props.C41_compose_zero_raises: [propext]
Comch.Props.C41_compose_zero_false: [propext, Quot.sound]
Comch.Props.C42_no_exception: [propext, Classical.choice, Quot.sound]
Comch.Props.C42_degree: [propext, Classical.choice, Quot.sound]
Comch.Props.C42_coeff: [propext, Classical.choice, Quot.sound]
Comch.Props.C43_chain_map: [propext, Classical.choice, Quot.sound]
Comch.Props.C43_equivariant: [propext, Classical.choice, Quot.sound]
Comch.Props.C44_diagonal_coeff: [propext, Classical.choice, Quot.sound]
Comch.Props.C44_diagonal_add: [propext, Classical.choice, Quot.sound]
Comch.Props.C45_complexity_eq_degree: [propext, Classical.choice, Quot.sound]
Comch.Props.C45_complexity_upper: [propext, Classical.choice, Quot.sound]
Comch.Props.C45_complexity_arity_two: [propext, Classical.choice, Quot.sound]
Comch.Props.C45_complexity_false: [propext, Classical.choice, Quot.sound]
Comch.Props.C46_psi_zero: [propext, Classical.choice, Quot.sound]
Comch.Props.C46_psi_ok: [propext, Classical.choice, Quot.sound]
Comch.Props.C46_boundary_odd: [propext, Classical.choice, Quot.sound]
Comch.Props.C46_boundary_even: [propext, Classical.choice, Quot.sound]
Comch.Props.C46_default_torsion: [propext]
Comch.Props.C47_boundary_boundary: [propext, Classical.choice, Quot.sound]
Comch.Props.C47_boundary_add: [propext, Classical.choice, Quot.sound]
Comch.Props.C47_boundary_coeff: [propext, Classical.choice, Quot.sound]
Comch.Props.C47_boundary_degree: [propext, Classical.choice, Quot.sound]
Comch.Props.C47_boundary_attrs: [propext, Quot.sound]
Comch.Props.C48_act_coeff: [propext, Classical.choice, Quot.sound]
Comch.Props.C48_act_assoc: [propext, Classical.choice, Quot.sound]
Comch.Props.C48_act_one: [propext, Classical.choice, Quot.sound]
Comch.Props.C48_add_act: [propext, Classical.choice, Quot.sound]
Comch.Props.C48_act_add: [propext, Classical.choice, Quot.sound]
Comch.Props.C48_act_smul: [propext, Classical.choice, Quot.sound]
Comch.Props.C48_act_boundary: [propext, Classical.choice, Quot.sound]
Comch.Props.C48_act_mismatch: [propext]
Comch.Props.C49_orbit_coeff: [propext, Classical.choice, Quot.sound]
Comch.Props.C49_orbit_orbit: [propext, Classical.choice, Quot.sound]
Comch.Props.C49_orbit_act: [propext, Classical.choice, Quot.sound]
Comch.Props.C50_leibniz: [propext, Classical.choice, Quot.sound]
Comch.Props.C51_arity_degree: [propext, Classical.choice, Quot.sound]
Comch.Props.C51_right_unit: [propext, Classical.choice, Quot.sound]
Comch.Props.C51_left_unit: [propext, Classical.choice, Quot.sound]
Comch.Props.C51_absent_position: [propext, Classical.choice, Quot.sound]
Comch.Props.C51_mcclure_smith: [propext, Classical.choice, Quot.sound]
Comch.Props.C51_zero: [propext, Quot.sound]
Comch.Props.C51_add_left: [propext, Classical.choice, Quot.sound]
Comch.Props.C51_add_right: [propext, Classical.choice, Quot.sound]
Comch.Props.C52_chain_map: [propext, Classical.choice, Quot.sound]
Comch.Props.C52_arity_degree: [propext, Classical.choice, Quot.sound]
Comch.Props.C52_add_left: [propext, Classical.choice, Quot.sound]
Comch.Props.C52_add_right: [propext, Classical.choice, Quot.sound]
Comch.Props.C52_errors: [propext]
Comch.Props.C52_zero: [propext, Quot.sound]
Comch.Props.C52_identity_diagonal: [propext, Classical.choice, Quot.sound]
Comch.Props.C53_equivariant: [propext, Classical.choice, Quot.sound]
Comch.Props.C54_chain_map_mod_two: [propext, Classical.choice, Quot.sound]
Comch.Props.C54_arity_degree: [propext, Classical.choice, Quot.sound]
Comch.Props.C54_add_left: [propext, Classical.choice, Quot.sound]
Comch.Props.C54_add_right: [propext, Classical.choice, Quot.sound]
Comch.Props.C54_errors_zero: [propext, Quot.sound]
Comch.Props.C54_equivariant_mod_two: [propext, Classical.choice, Quot.sound]
Comch.Props.C54_identity_diagonal: [propext, Classical.choice, Quot.sound]
Comch.Props.C54_chain_map_fails: [propext, Classical.choice, Quot.sound]
Comch.Props.C54_operad_action_fails: [propext, Classical.choice, Quot.sound]
Comch.Props.C55_suspension: [propext, Classical.choice, Quot.sound]
Comch.Props.C55_exceptions: [propext]
Comch.Props.C55_defect: [propext, Classical.choice, Quot.sound]
Comch.Props.C56_psi_zero: [propext, Classical.choice, Quot.sound]
Comch.Props.C56_psi_ok: [propext, Classical.choice, Quot.sound]
Comch.Props.C56_boundary_odd: [propext, Classical.choice, Quot.sound]
Comch.Props.C56_boundary_even: [propext, Classical.choice, Quot.sound]
Comch.Props.C56_default_arguments: [propext]
Comch.Props.C57_coefficient: [propext, Classical.choice, Quot.sound]
Comch.Props.C57_coefficient_small: [propext, Classical.choice, Quot.sound]
Comch.Props.C57_coefficient_inexact: [propext, Classical.choice, Quot.sound]
Comch.Props.C57_coefficient_overflow: [propext, Classical.choice, Quot.sound]
Comch.Props.C57_bockstein_two: [propext]
Comch.Props.C57_operation_two: [propext, Classical.choice, Quot.sound]
Comch.Props.C57_operation_surjection: [propext, Classical.choice, Quot.sound]
Comch.Props.C57_operation_barratt_eccles: [propext, Classical.choice, Quot.sound]
Comch.Props.C57_operation_inexact: [propext, Classical.choice, Quot.sound]
Comch.Props.C58_basis: [propext, Classical.choice, Quot.sound]
Comch.Props.C58_basis_all: [propext, Classical.choice, Quot.sound]
Comch.Props.C58_basis_zero: [propext]
Comch.Props.C59_complexity_spec: [propext, Classical.choice, Quot.sound]
Comch.Props.C59_filtration_spec: [propext, Classical.choice, Quot.sound]
Comch.Props.C59_boundary: [propext, Classical.choice, Quot.sound]
Comch.Props.C59_act: [propext, Classical.choice, Quot.sound]
Comch.Props.C59_act_perm: [propext, Classical.choice, Quot.sound]
Comch.Props.C59_complexity_degree: [propext, Classical.choice, Quot.sound]
Comch.Props.C60_simplex: [propext, Classical.choice, Quot.sound]
Comch.Props.C60_cube: [propext, Classical.choice, Quot.sound]
Comch.Props.C61_partitions_unordered: [propext, Classical.choice, Quot.sound]
Comch.Props.C61_partitions_ordered: [propext, Classical.choice, Quot.sound]
Comch.Props.C62_decompositions: [propext, Classical.choice, Quot.sound]
Comch.Props.C63_arrangements: [propext, Classical.choice, Quot.sound]
Comch.Props.C63_default: [propext, Classical.choice, Quot.sound]
Comch.Props.C63_distinctPermutations: [propext, Classical.choice, Quot.sound]
Comch.Props.C63_distinctPermutations_take: [propext, Quot.sound]
Comch.Props.C64_pairwise: [propext, Classical.choice, Quot.sound]
Comch.Props.C65_simplicial: [propext]
Comch.Props.C65_cubical: [propext]
Comch.Props.C65_barrattEccles: [propext]
Comch.Props.C65_surjection: [propext]
Comch.Props.C66_sequential: [propext, Classical.choice, Quot.sound]
Comch.Props.C66_parallel: [propext, Classical.choice, Quot.sound]
Comch.Props.C67_operad_action: [propext, Classical.choice, Quot.sound]
Comch.Props.C68_interchange: [propext, Classical.choice, Quot.sound]
Comch.Props.C69_equivariant: [propext, Classical.choice, Quot.sound]
Comch.Props.C70_equivariant: [propext, Classical.choice, Quot.sound]
Comch.Props.C71_equivariant: [propext, Classical.choice, Quot.sound]
Comch.Props.C72_complexity: [propext, Classical.choice, Quot.sound]
Comch.Props.C73_complexity: [propext, Classical.choice, Quot.sound]
Comch.Props.C74_surjection: [propext, Classical.choice, Quot.sound]
Comch.Props.C74_barratt_eccles: [propext, Classical.choice, Quot.sound]
Comch.Props.C75_psi_surjection: [propext, Classical.choice, Quot.sound]
Comch.Props.C75_steenrod_surjection: [propext, Classical.choice, Quot.sound]
Comch.Props.C75_psi_barratt_eccles: [propext, Classical.choice, Quot.sound]
Comch.Props.C75_steenrod_barratt_eccles: [propext, Classical.choice, Quot.sound]
Comch.Props.C76_str_text: [propext, Classical.choice, Quot.sound]
Comch.Props.C76_str_text_nested: [propext, Classical.choice, Quot.sound]
Comch.Props.C76_str_injective: [propext, Classical.choice, Quot.sound]
Comch.Props.C76_str_injective_nested: [propext, Classical.choice, Quot.sound]
Comch.Props.C76_str_zero: [propext, Classical.choice, Quot.sound]
Comch.Props.C76_str_zero_nested: [propext, Classical.choice, Quot.sound]
Comch.Props.C76_defect_order: [propext, Classical.choice, Quot.sound]
Comch.Props.C77_hash_of_eq: [propext, Classical.choice, Quot.sound]
Comch.Props.C77_defect_mutation: [propext, Classical.choice, Quot.sound]
Comch.Props.C78_simplicial: [propext, Classical.choice, Quot.sound]
Comch.Props.C78_defect_vertex: [propext, Classical.choice, Quot.sound]
Comch.Props.C78_cubical: [propext, Classical.choice, Quot.sound]
Comch.Props.C78_defect_coefficient: [propext, Classical.choice, Quot.sound]
Comch.Props.C78_defect_zero: [propext, Classical.choice, Quot.sound]
Comch.Props.C79_compose: [propext, Classical.choice, Quot.sound]
Comch.Props.C79_unit: [propext, Classical.choice, Quot.sound]
Comch.Props.C80_structure: [propext, Classical.choice, Quot.sound]
Comch.Props.C80_structure_default: [propext, Classical.choice, Quot.sound]
Comch.Props.C80_operation: [propext, Classical.choice, Quot.sound]
Comch.Props.C81_odd: [propext, Classical.choice, Quot.sound]
Comch.Props.C81_even: [propext, Classical.choice, Quot.sound]
Comch.Props.C81_cubical: [propext, Classical.choice, Quot.sound]
Comch.Props.C82_be_acyclic: [propext, Classical.choice, Quot.sound]
Comch.Props.C82_be_degree_zero: [propext, Classical.choice, Quot.sound]
Comch.Props.C82_surj_acyclic: [propext, Classical.choice, Quot.sound]
Comch.Props.C82_surj_degree_zero: [propext, Classical.choice, Quot.sound]
Comch.Props.C83_be: [propext, Classical.choice, Quot.sound]
Comch.Props.C83_surj: [propext, Classical.choice, Quot.sound]
Comch.Props.C83_be_free: [propext, Classical.choice, Quot.sound]
Comch.Props.C83_surj_free: [propext, Classical.choice, Quot.sound]
Comch.Props.C84_action_coeff: [propext, Classical.choice, Quot.sound]
Comch.Props.C85_compose_coeff: [propext, Classical.choice, Quot.sound]
Comch.Props.C86_compose_coeff: [propext, Classical.choice, Quot.sound]
Comch.Props.C87_locality: [propext, Classical.choice, Quot.sound]
Comch.Props.C87_instability: [propext, Classical.choice, Quot.sound]
Comch.Props.C88_extremal: [propext, Classical.choice, Quot.sound]
Comch.Props.C88_negative_operations: [propext, Classical.choice, Quot.sound]
Comch.Props.C88_arity_two: [propext, Classical.choice, Quot.sound]
Comch.Props.C88_square_zero: [propext, Classical.choice, Quot.sound]
Comch.Props.C89_boundary: [propext, Classical.choice, Quot.sound]
Comch.Props.C89_diagonal: [propext, Classical.choice, Quot.sound]
Comch.Props.C89_call: [propext, Classical.choice, Quot.sound]
Comch.Props.C89_act: [propext, Classical.choice, Quot.sound]
Comch.Props.C90_boundary: [propext, Classical.choice, Quot.sound]
Comch.Props.C90_diagonal: [propext, Classical.choice, Quot.sound]
Comch.Props.C90_join: [propext, Classical.choice, Quot.sound]
Comch.Props.C90_call: [propext, Classical.choice, Quot.sound]
Comch.Props.C90_act: [propext, Classical.choice, Quot.sound]
Comch.Props.C91_chain_map: [propext, Classical.choice, Quot.sound]
Comch.Props.C91_coassociative: [propext, Classical.choice, Quot.sound]
Comch.Props.C91_counit: [propext, Classical.choice, Quot.sound]
Comch.Props.C91_equivariant: [propext, Classical.choice, Quot.sound]
Comch.Props.C92_hopf: [propext, Classical.choice, Quot.sound]
Comch.Props.C93_mod_two: [propext, Classical.choice, Quot.sound]
Comch.Props.C93_integral_twist: [propext, Classical.choice, Quot.sound]
Comch.Props.C93_low_degree: [propext, Classical.choice, Quot.sound]
Comch.Props.C93_integral_fails: [propext]
Comch.Props.C94_simplicial: [propext, Classical.choice, Quot.sound]
Comch.Props.C94_cubical: [propext, Classical.choice, Quot.sound]
Comch.Props.C94_degenerate: [propext, Classical.choice, Quot.sound]
Comch.Props.C94_cartan_serre: [propext, Classical.choice, Quot.sound]
Comch.Props.C95_class: [propext]
Comch.Props.C95_error: [propext]
Comch.Props.C95_int: [propext]
Comch.Props.C95_repeat: [propext, Quot.sound]
Comch.Props.C95_int_scales: [propext, Classical.choice, Quot.sound]
Comch.Props.C95_permutation_ring: [propext]
Comch.Props.C95_simplicial: [propext, Classical.choice, Quot.sound]
Comch.Props.C95_cubical: [propext, Classical.choice, Quot.sound]
Comch.Props.C95_surjection: [propext, Classical.choice, Quot.sound]
Comch.Props.C95_barratt_eccles: [propext, Classical.choice, Quot.sound]
Comch.Props.C96_product_free: [propext, Quot.sound]
Comch.Props.C96_agree: [propext, Quot.sound]
Comch.Props.C96_mul_keys: [propext, Quot.sound]
Comch.Props.C96_add_keys: [propext, Classical.choice, Quot.sound]
Comch.Props.C96_iadd_keys: [propext, Classical.choice, Quot.sound]
Comch.Props.C96_setTorsion_keys: [propext, Quot.sound]
Comch.Props.C96_barratt_eccles: [propext, Classical.choice, Quot.sound]
Comch.Props.C96_pow_compose: [propext, Quot.sound]
Comch.Props.C96_repair: [propext, Classical.choice, Quot.sound]
Comch.Props.C96_other_classes: [propext]
Comch.Props.C97_coefficients: [propext, Classical.choice, Quot.sound]
Comch.Props.C97_injective: [propext, Classical.choice, Quot.sound]
Comch.Props.C97_dimension: [propext, Quot.sound]
Comch.Props.C97_dimension_inherited: none
Comch.Props.C98_simplicial_acyclic: [propext, Classical.choice, Quot.sound]
Comch.Props.C98_simplicial_degree_zero: [propext, Classical.choice, Quot.sound]
Comch.Props.C98_cubical_acyclic: [propext, Classical.choice, Quot.sound]
Comch.Props.C98_cubical_degree_zero: [propext, Classical.choice, Quot.sound]
Comch.Props.C99_call: [propext, Classical.choice, Quot.sound]
Comch.Props.C99_inplace: [propext, Classical.choice, Quot.sound]
Comch.Props.C99_setTorsion: [propext, Classical.choice, Quot.sound]
Comch.Props.C99_arithmetic: [propext, Classical.choice, Quot.sound]
Comch.Props.C99_simplicial: [propext, Classical.choice, Quot.sound]
Comch.Props.C99_cubical: [propext, Classical.choice, Quot.sound]
Comch.Props.C99_barrattEccles: [propext, Classical.choice, Quot.sound]
Comch.Props.C99_surjection: [propext, Classical.choice, Quot.sound]
Comch.Props.C99_ring: [propext, Classical.choice, Quot.sound]
Comch.Props.C99_normal_form: [propext, Classical.choice, Quot.sound]
Comch.Props.C99_independent: [propext, Classical.choice, Quot.sound]
Comch.Props.C99_join_alias: [propext, Classical.choice, Quot.sound]
Comch.Props.C99_orbit_alias: [propext, Classical.choice, Quot.sound]
Comch.Props.C99_suspension_alias: [propext, Classical.choice, Quot.sound]
Comch.Props.C100_copy_attrs: none
Comch.Props.C100_copy_eq: [propext, Classical.choice, Quot.sound]
Comch.Props.C100_copy_faithful_iff: [propext, Quot.sound]
Comch.Props.C100_copy_add: none
Comch.Props.C100_copy_boundary_differs: [propext, Quot.sound]
Comch.Props.C100_copy_double_differs: [propext, Quot.sound]
Comch.Props.C100_pos: [propext, Quot.sound]
Comch.Props.C101_edit_coeff: [propext, Classical.choice, Quot.sound]
Comch.Props.C101_preferred_rep: [propext, Classical.choice, Quot.sound]
Comch.Props.C101_add: [propext, Classical.choice, Quot.sound]
Comch.Props.C101_not_normalised: [propext, Quot.sound]
Comch.Props.C102_defined: [propext, Classical.choice, Quot.sound]
Comch.Props.C102_degree: [propext, Classical.choice, Quot.sound]
Comch.Props.C102_cocycle: [propext, Classical.choice, Quot.sound]
Comch.Props.C103_defined: [propext, Classical.choice, Quot.sound]
Comch.Props.C103_coboundary_zero: [propext, Classical.choice, Quot.sound]
Comch.Props.C103_coboundary_succ: [propext, Classical.choice, Quot.sound]
Comch.Props.C103_front_back: [propext, Classical.choice, Quot.sound]
Comch.Props.C104_additive: [propext, Classical.choice, Quot.sound]
Comch.Props.C104_well_defined: [propext, Classical.choice, Quot.sound]
Comch.Props.C104_vanishing: [propext, Classical.choice, Quot.sound]
Comch.Props.C104_top: [propext, Classical.choice, Quot.sound]
Comch.Props.C104_zero: [propext, Classical.choice, Quot.sound]
Comch.Props.C105_well_defined: [propext, Classical.choice, Quot.sound]
Comch.Props.C105_additive: [propext, Classical.choice, Quot.sound]
Comch.Props.C105_vanishing: [propext, Classical.choice, Quot.sound]
Comch.Props.C105_top: [propext, Classical.choice, Quot.sound]
Comch.Props.C106_coboundary: [propext, Classical.choice, Quot.sound]
Comch.Props.C106_cocycle: [propext, Classical.choice, Quot.sound]
Comch.Props.C106_cohomologous: [propext, Classical.choice, Quot.sound]
Comch.Props.C106_steenrod: [propext, Classical.choice, Quot.sound]
Comch.Props.C106_cup: [propext, Classical.choice, Quot.sound]
Comch.Props.C107_exists: [propext, Classical.choice, Quot.sound]
Comch.Props.C107_unique: [propext, Classical.choice, Quot.sound]
Comch.Props.C107_cocycle: [propext, Classical.choice, Quot.sound]
Comch.Props.C107_odd: [propext, Classical.choice, Quot.sound]
Comch.Props.C107_square_even: [propext, Classical.choice, Quot.sound]
Comch.Props.C107_square_odd: [propext, Classical.choice, Quot.sound]
Comch.Props.C107_square_one: [propext, Classical.choice, Quot.sound]
Comch.Props.C108_cartan: [propext, Classical.choice, Quot.sound]
Comch.Props.C109_identity: [propext, Classical.choice, Quot.sound]
Comch.Props.C109_involution: [propext, Classical.choice, Quot.sound]
Comch.Props.C109_inexact: [propext, Classical.choice, Quot.sound]
Comch.Props.C110_simplicial_basis: [propext, Classical.choice, Quot.sound]
Comch.Props.C110_cubical_basis: [propext, Quot.sound]
Comch.Props.C110_all: [propext, Classical.choice, Quot.sound]
Comch.Props.C110_shuffles: [propext, Classical.choice, Quot.sound]
Comch.Props.C110_partitions: [propext, Classical.choice, Quot.sound]
Comch.Props.C110_decompositions: [propext, Classical.choice, Quot.sound]
Comch.Props.C110_simplicial_diagonal: [propext, Classical.choice, Quot.sound]
Comch.Props.C110_cubical_diagonal: [propext, Classical.choice, Quot.sound]
Comch.Props.C110_simplicial_boundary: [propext, Classical.choice, Quot.sound]
Comch.Props.C110_cubical_boundary: [propext, Classical.choice, Quot.sound]
Comch.Props.C111_defined: [propext, Classical.choice, Quot.sound]
Comch.Props.C111_degree: [propext, Classical.choice, Quot.sound]
Comch.Props.C111_local: [propext, Classical.choice, Quot.sound]
Comch.Props.C111_cup: [propext, Classical.choice, Quot.sound]
Comch.Props.C111_coboundary_zero: [propext, Classical.choice, Quot.sound]
Comch.Props.C111_coboundary_succ: [propext, Classical.choice, Quot.sound]
Comch.Props.C111_square: [propext, Classical.choice, Quot.sound]
Comch.Props.C112_cocycle: [propext, Classical.choice, Quot.sound]
Comch.Props.C112_additive: [propext, Classical.choice, Quot.sound]
Comch.Props.C112_well_defined: [propext, Classical.choice, Quot.sound]
Comch.Props.C112_vanishing: [propext, Classical.choice, Quot.sound]
Comch.Props.C112_zero: [propext, Classical.choice, Quot.sound]
Comch.Props.C112_top: [propext, Classical.choice, Quot.sound]
Comch.Props.C112_cup: [propext, Classical.choice, Quot.sound]
Comch.Props.C113_value: [propext, Classical.choice, Quot.sound]
Comch.Props.C113_coboundary: [propext, Classical.choice, Quot.sound]
Comch.Props.C113_cup: [propext, Classical.choice, Quot.sound]
Comch.Props.C113_square: [propext, Classical.choice, Quot.sound]
Comch.Props.C114_square: [propext, Classical.choice, Quot.sound]
Comch.Props.C114_cubical: [propext, Classical.choice, Quot.sound]
Comch.Props.C114_power: [propext, Classical.choice, Quot.sound]
Comch.Props.C114_unstable: [propext, Classical.choice, Quot.sound]
Comch.Props.C115_associative: [propext, Classical.choice, Quot.sound]
Comch.Props.C115_unit: [propext, Classical.choice, Quot.sound]
Comch.Props.C115_distributive: [propext, Classical.choice, Quot.sound]
Comch.Props.C115_cocycle: [propext, Classical.choice, Quot.sound]
Comch.Props.C115_well_defined: [propext, Classical.choice, Quot.sound]
Comch.Props.C115_commutative: [propext, Classical.choice, Quot.sound]
Comch.Props.C115_cubical_associative: [propext, Classical.choice, Quot.sound]
Comch.Props.C115_cubical_unit: [propext, Classical.choice, Quot.sound]
Comch.Props.C116_adem: [propext, Classical.choice, Quot.sound]
Comch.Props.C116_sq1_sq1: [propext, Classical.choice, Quot.sound]
Comch.Props.C116_sq1_even: [propext, Classical.choice, Quot.sound]
Comch.Props.C116_sq2_sq2: [propext, Classical.choice, Quot.sound]
Comch.Props.C117_boundary: [propext, Classical.choice, Quot.sound]
Comch.Props.C117_equivariance: [propext, Classical.choice, Quot.sound]
Comch.Props.C117_part: [propext, Classical.choice, Quot.sound]
Comch.Props.C117_compose: [propext, Classical.choice, Quot.sound]
Comch.Props.C117_defect: [propext, Classical.choice, Quot.sound]
Comch.Props.C118_degree: [propext, Classical.choice, Quot.sound]
Comch.Props.C118_cocycle: [propext, Classical.choice, Quot.sound]
Comch.Props.C118_vanish: [propext, Classical.choice, Quot.sound]
Comch.Props.C118_operation: [propext, Classical.choice, Quot.sound]
Comch.Props.C119_cartan: [propext, Classical.choice, Quot.sound]
Comch.Props.C119_cartan_bockstein: [propext, Classical.choice, Quot.sound]
Comch.Props.C120_cartan: [propext, Classical.choice, Quot.sound]
Comch.Props.C121_adem: [propext, Classical.choice, Quot.sound]
Comch.Props.C121_sq1_sq1: [propext, Classical.choice, Quot.sound]
Comch.Props.C121_sq1_even: [propext, Classical.choice, Quot.sound]
Comch.Props.C121_sq2_sq2: [propext, Classical.choice, Quot.sound]
Comch.Props.C122_coboundary: [propext, Classical.choice, Quot.sound]
Comch.Props.C122_exists: [propext, Classical.choice, Quot.sound]
Comch.Props.C122_unique: [propext, Classical.choice, Quot.sound]
Comch.Props.C122_cocycle: [propext, Classical.choice, Quot.sound]
Comch.Props.C122_square_even: [propext, Classical.choice, Quot.sound]
Comch.Props.C122_square_odd: [propext, Classical.choice, Quot.sound]
Comch.Props.C122_square_one: [propext, Classical.choice, Quot.sound]
Comch.Props.C123_simplicial_missing: [propext, Classical.choice, Quot.sound]
Comch.Props.C123_simplicial_dropped: [propext, Classical.choice, Quot.sound]
Comch.Props.C123_cubical_missing: [propext, Classical.choice, Quot.sound]
Comch.Props.C123_cubical_dropped: [propext, Classical.choice, Quot.sound]
Comch.Props.C123_barrattEccles: [propext, Classical.choice, Quot.sound]
Comch.Props.C123_surjection_missing: [propext, Classical.choice, Quot.sound]
Comch.Props.C123_surjection_relabelled: [propext, Classical.choice, Quot.sound]
Comch.Props.C123_surjection_signs: [propext, Classical.choice, Quot.sound]
Comch.Props.C123_zero: [propext, Classical.choice, Quot.sound]
Comch.Props.C124_coboundary: [propext, Classical.choice, Quot.sound]
Comch.Props.C124_cocycle: [propext, Classical.choice, Quot.sound]
Comch.Props.C124_cohomologous: [propext, Classical.choice, Quot.sound]
Comch.Props.C124_cup: [propext, Classical.choice, Quot.sound]
Comch.Props.C124_square: [propext, Classical.choice, Quot.sound]
Comch.Props.C125_twisted_chain_map: [propext, Classical.choice, Quot.sound]
Comch.Props.C125_low_degree_chain_map: [propext, Classical.choice, Quot.sound]
Comch.Props.C125_degree_three_fails: [propext]
Comch.Props.C125_mcClureSmith_fails: [propext]
Comch.Props.C126_equivariant: [propext, Classical.choice, Quot.sound]
Comch.Props.C126_low_degree_equivariant: [propext, Classical.choice, Quot.sound]
Comch.Props.C126_bergerFresse_fails: [propext]
Comch.Props.C126_mcClureSmith_fails: [propext]
Comch.Props.C127_defined: [propext, Classical.choice, Quot.sound]
Comch.Props.C127_degree: [propext, Classical.choice, Quot.sound]
Comch.Props.C127_local: [propext, Classical.choice, Quot.sound]
Comch.Props.C127_cup: [propext, Classical.choice, Quot.sound]
Comch.Props.C127_coboundary_zero: [propext, Classical.choice, Quot.sound]
Comch.Props.C127_coboundary_succ: [propext, Classical.choice, Quot.sound]
Comch.Props.C127_associative: [propext, Classical.choice, Quot.sound]
Comch.Props.C127_unit: [propext, Classical.choice, Quot.sound]
Comch.Props.C127_cocycle: [propext, Classical.choice, Quot.sound]
Comch.Props.C127_well_defined: [propext, Classical.choice, Quot.sound]
Comch.Props.C127_commutative: [propext, Classical.choice, Quot.sound]
Comch.Props.C127_cup_three_fails: [propext, Quot.sound]
Comch.Props.C128_value: [propext, Classical.choice, Quot.sound]
Comch.Props.C128_coboundary: [propext, Classical.choice, Quot.sound]
Comch.Props.C128_cup: [propext, Classical.choice, Quot.sound]
Comch.Props.C129_coboundary: [propext, Classical.choice, Quot.sound]
Comch.Props.C129_cocycle: [propext, Classical.choice, Quot.sound]
Comch.Props.C129_cohomologous: [propext, Classical.choice, Quot.sound]
Comch.Props.C129_cup: [propext, Classical.choice, Quot.sound]
Comch.Props.C130_cup_one: [propext, Classical.choice, Quot.sound]
Comch.Props.C130_cup_one_zero: [propext, Classical.choice, Quot.sound]
Comch.Props.C130_hirsch: [propext, Classical.choice, Quot.sound]
Comch.Props.C130_square: [propext, Classical.choice, Quot.sound]
Comch.Props.C131_structure: [propext, Classical.choice, Quot.sound]
Comch.Props.C131_cup_formula: [propext, Classical.choice, Quot.sound]
Comch.Props.C131_square: [propext, Classical.choice, Quot.sound]
Comch.Props.C132_structure: [propext, Classical.choice, Quot.sound]
Comch.Props.C132_count: [propext, Classical.choice, Quot.sound]
Comch.Props.C133_count: [propext, Classical.choice, Quot.sound]
Comch.Props.C133_degree: [propext, Classical.choice, Quot.sound]
Comch.Props.C133_range: [propext, Classical.choice, Quot.sound]
Comch.Props.C133_diagonal: [propext, Classical.choice, Quot.sound]
Comch.Props.C133_cubes: [propext, Classical.choice, Quot.sound]
Comch.Props.C134_two: [propext, Classical.choice, Quot.sound]
Comch.Props.C134_two_barratt_eccles: [propext, Classical.choice, Quot.sound]
Comch.Props.C134_odd: [propext, Classical.choice, Quot.sound]
Comch.Props.C135_coefficient: [propext, Classical.choice, Quot.sound]
Comch.Props.C135_mcclure_smith: [propext, Classical.choice, Quot.sound]
Comch.Props.C136_unique: [propext, Classical.choice, Quot.sound]
Comch.Props.C136_zero_or_one: [propext, Classical.choice, Quot.sound]
Comch.Props.C136_mcclure_smith: [propext, Classical.choice, Quot.sound]
