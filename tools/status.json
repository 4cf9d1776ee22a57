{
 "C08": {"status": "proved", "note": "The property one would like (no other object changes) is false of the code: C08_operandsUnchanged_false, C08_normal_form_lost are proved witnesses; C08_setTorsion_effect is the exact effect."},
 "C26": {"status": "proved", "note": "The chain-map clause one would like is false of the code: C26_oneReduced_not_chain_map is a proved witness."},
 "C17": {"status": "proved", "note": "The property one would like (x**n is the n-fold product) is false of the code: C17_pow_false is a proved witness; C17_pow_keywise is what is computed."},
 "C41": {"status": "proved", "note": "The property one would like (0 for a zero operand) is false of the code: C41_compose_zero_false."},
 "C45": {"status": "proved", "note": "The documented value is not computed in general: C45_complexity_false is a proved witness."}
}
