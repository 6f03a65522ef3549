# Axioms of the theorems in MANIFEST.json

Output of `#print axioms`, written by tools/mkaxioms.py.

| Property | Theorem | Axioms |
|---|---|---|
| C01 | Cose.c01_any_format | propext, Quot.sound |
| C01 | Cose.c01_any_unambiguous | propext, Classical.choice, Quot.sound |
| C01 | Cose.c01_sign1_format | propext, Quot.sound |
| C01 | Cose.c01_sign1_produces | propext, Quot.sound |
| C01 | Cose.c01_sign1_unambiguous | propext, Classical.choice, Quot.sound |
| C01 | Cose.c01_sign1_signed_bytes | propext, Quot.sound |
| C01 | Cose.c01_sign1_verified_bytes | propext, Quot.sound |
| C02 | Cose.c02_domain_separation | propext, Classical.choice, Quot.sound |
| C02 | Cose.c02_domain_separation_eq | propext, Classical.choice, Quot.sound |
| C02 | Cose.c02_sign1_primitive | propext, Quot.sound |
| C02 | Cose.c02_signer_primitive | propext, Quot.sound |
| C02 | Cose.c02_mac_primitive | propext, Quot.sound |
| C02 | Cose.c02_enc_primitive | propext, Quot.sound |
| C03 | Cose.c03_any_format | propext, Quot.sound |
| C03 | Cose.c03_any_unambiguous | propext, Classical.choice, Quot.sound |
| C03 | Cose.c03_any_separate | propext, Classical.choice, Quot.sound |
| C03 | Cose.c03_signer_produces | propext, Quot.sound |
| C03 | Cose.c03_signer_format | propext, Quot.sound |
| C03 | Cose.c03_signer_unambiguous | propext, Classical.choice, Quot.sound |
| C04 | Cose.c04_mac_produces | propext, Quot.sound |
| C04 | Cose.c04_mac_format | propext, Quot.sound |
| C04 | Cose.c04_padding | propext, Quot.sound |
| C04 | Cose.c04_mac_unambiguous | propext, Classical.choice, Quot.sound |
| C05 | Cose.c05_aead_produces | propext, Quot.sound |
| C05 | Cose.c05_aead_format | propext, Quot.sound |
| C05 | Cose.c05_aead_unambiguous | propext, Classical.choice, Quot.sound |
| C06 | Cose.c06_any_roundtrip | propext, Classical.choice, Quot.sound |
| C06 | Cose.c06_constructed_keys | propext, Classical.choice, Quot.sound |
| C06 | Cose.c06_sign1_roundtrip | propext, Classical.choice, Quot.sound |
| C06 | Cose.c06_constructed | propext, Classical.choice, Quot.sound |
| C07 | Cose.c07_any_roundtrip | propext, Classical.choice, Quot.sound |
| C07 | Cose.c07_constructed_keys | propext, Classical.choice, Quot.sound |
| C07 | Cose.c07_sign_roundtrip | propext, Classical.choice, Quot.sound |
| C08 | Cose.c08_constructed_keys | propext, Classical.choice, Quot.sound |
| C08 | Cose.c08_mac0_roundtrip | propext, Classical.choice, Quot.sound |
| C09 | Cose.c09_constructed_keys | propext, Classical.choice, Quot.sound |
| C09 | Cose.c09_enc0_roundtrip | propext, Classical.choice, Quot.sound |
| C10 | Cose.c10_constructed_keys | propext, Classical.choice, Quot.sound |
| C10 | Cose.c10_mac_direct_roundtrip | propext, Classical.choice, Quot.sound |
| C11 | Cose.c11_constructed_keys | propext, Classical.choice, Quot.sound |
| C11 | Cose.c11_enc_direct_roundtrip | propext, Classical.choice, Quot.sound |
| C12 | Cose.c12_constructed_keys | propext, Classical.choice, Quot.sound |
| C12 | Cose.c12_keywrap_roundtrip | propext, Classical.choice, Quot.sound |
| C13 | Cose.c13_ecdh_es_kw_roundtrip | propext, Classical.choice, Quot.sound |
| C13 | Cose.c13_ecdh_ss_kw_roundtrip | propext, Classical.choice, Quot.sound |
| C14 | Cose.c14_constructed_keys | propext, Classical.choice, Quot.sound |
| C14 | Cose.c14_mac_constructed_keys | propext, Classical.choice, Quot.sound |
| C14 | Cose.c14_direct_agreement_roundtrip | propext, Classical.choice, Quot.sound |
| C14 | Cose.c14_mac_direct_agreement_roundtrip | propext, Classical.choice, Quot.sound |
| C14 | Cose.c14_no_generated_key | propext, Quot.sound |
| C15 | Cose.c15_any_sign1_agrees | propext, Quot.sound |
| C15 | Cose.c15_any_signer_agrees | propext, Quot.sound |
| C15 | Cose.c15_any_sign_agrees | propext, Quot.sound |
| C15 | Cose.c15_any_no_result | propext, Quot.sound |
| C15 | Cose.c15_any_signer_no_result | propext, Quot.sound |
| C15 | Cose.c15_any_unserialisable | propext, Quot.sound |
| C15 | Cose.c15_any_payload_field | propext, Quot.sound |
| C15 | Cose.c15_wrong_payload_raises | propext, Quot.sound |
| C15 | Cose.c15_wrong_payload_no_result | propext, Quot.sound |
| C15 | Cose.c15_signer_wrong_payload_no_result | propext, Quot.sound |
| C15 | Cose.c15_detached_same_bytes | propext, Quot.sound |
| C15 | Cose.c15_detached_only_through_signature | propext, Quot.sound |
| C15 | Cose.c15_payload_field | propext, Quot.sound |
| C16 | Cose.c16_sign1 | propext, Classical.choice, Quot.sound |
| C16 | Cose.c16_empty_header_malleable | propext, Quot.sound |
| C17 | Cose.c17_message | propext, Classical.choice, Quot.sound |
| C17 | Cose.c17_signers | propext, Classical.choice, Quot.sound |
| C17 | Cose.c17_recipients | propext, Classical.choice, Quot.sound |
| C17 | Cose.c17_reencode | propext, Quot.sound |
| C17 | Cose.c17_mac_recipients | propext, Classical.choice, Quot.sound |
| C18 | Cose.c18_current | propext, Classical.choice, Quot.sound |
| C18 | Cose.c18_fresh_after_update | propext, Quot.sound |
| C18 | Cose.c18_in_place_mutation_stale | propext, Quot.sound |
| C19 | Cose.c19_dispatch | propext, Quot.sound |
| C19 | Cose.c19_class | propext, Quot.sound |
| C19 | Cose.c19_refusals | propext, Quot.sound |
| C19 | Cose.c19_not_cbor | propext, Quot.sound |
| C20 | Cose.c20_trailing_ignored | propext, Quot.sound |
| C20 | Cose.c20_not_injective | propext, Quot.sound |
| C20 | Cose.c20_first_item | propext, Quot.sound |
| C21 | Cose.c21_lossless | propext, Classical.choice, Quot.sound |
| C21 | Cose.c21_prefix_free | propext, Classical.choice, Quot.sound |
| C21 | Cose.c21_no_proper_prefix | propext, Classical.choice, Quot.sound |
| C21 | Cose.c21_classes | propext, Classical.choice, Quot.sound |
| C21 | Cose.c21_floats | propext, Classical.choice, Quot.sound |
| C21 | Cose.c21_number_labels | propext, Classical.choice, Quot.sound |
| C21 | Cose.c21_plain | propext, Classical.choice, Quot.sound |
| C21 | Cose.c21_reads_plain | propext, Classical.choice, Quot.sound |
| C21 | Cose.c21_tags | propext, Classical.choice, Quot.sound |
| C22 | Cose.c22_survives_sign1 | propext, Classical.choice, Quot.sound |
| C22 | Cose.c22_survives_mac0 | propext, Classical.choice, Quot.sound |
| C22 | Cose.c22_survives_enc0 | propext, Classical.choice, Quot.sound |
| C22 | Cose.c22_unknown_rejected | propext, Quot.sound |
| C22 | Cose.c22_decode_registered_only | propext, Classical.choice, Quot.sound |
| C22 | Cose.c22_construct_registered_only | propext, Classical.choice, Quot.sound |
| C22 | Cose.c22_unknown_kept | propext, Quot.sound |
| C22 | Cose.c22_nothing_invented | propext, Quot.sound |
| C22 | Cose.c22_survives_sign | propext, Classical.choice, Quot.sound |
| C22 | Cose.c22_survives_mac | propext, Classical.choice, Quot.sound |
| C22 | Cose.c22_survives_enc | propext, Classical.choice, Quot.sound |
| C22 | Cose.c22_survives_wrapped | propext, Classical.choice, Quot.sound |
| C22 | Cose.c22_survives_agreement | propext, Classical.choice, Quot.sound |
| C22 | Cose.c22_survives_mac_agreement | propext, Classical.choice, Quot.sound |
| C23 | Cose.c23_label_alias | propext, Quot.sound |
| C23 | Cose.c23_algorithm_alias | propext, Quot.sound |
| C23 | Cose.c23_last_wins | propext, Quot.sound |
| C23 | Cose.c23_idempotent | propext, Quot.sound |
| C23 | Cose.c23_idempotent_keys_partial | propext, Classical.choice, Quot.sound |
| C23 | Cose.c23_idempotent_received | propext, Classical.choice, Quot.sound |
| C23 | Cose.c23_idempotent_refuted | propext, Quot.sound |
| C24 | Cose.c24_decoded | propext, Classical.choice, Quot.sound |
| C24 | Cose.c24_constructed | propext, Classical.choice, Quot.sound |
| C24 | Cose.c24_constructed_message | propext, Classical.choice, Quot.sound |
| C24 | Cose.c24_assignment_not_validated | propext, Quot.sound |
| C25 | Cose.c25_decoded | propext, Classical.choice, Quot.sound |
| C25 | Cose.c25_constructed | propext, Classical.choice, Quot.sound |
| C25 | Cose.c25_unregistered_rejected | propext, Quot.sound |
| C25 | Cose.c25_decode_raises | propext, Classical.choice, Quot.sound |
| C26 | Cose.c26_get_attr_partial | propext, Quot.sound |
| C26 | Cose.c26_none_is_absent | propext, Quot.sound |
| C26 | Cose.c26_default_always_raises | propext, Quot.sound |
| C27 | Cose.c27_sign1_sign | propext, Quot.sound |
| C27 | Cose.c27_sign1_verify | propext, Quot.sound |
| C27 | Cose.c27_signer_sign | propext, Quot.sound |
| C27 | Cose.c27_signer_verify | propext, Quot.sound |
| C27 | Cose.c27_mac0_compute | propext, Quot.sound |
| C27 | Cose.c27_mac0_verify | propext, Quot.sound |
| C27 | Cose.c27_mac_verify | propext, Quot.sound |
| C27 | Cose.c27_enc0_encrypt | propext, Quot.sound |
| C27 | Cose.c27_enc0_decrypt | propext, Quot.sound |
| C27 | Cose.c27_enc_encrypt | propext, Classical.choice, Quot.sound |
| C27 | Cose.c27_enc_decrypt | propext, Classical.choice, Quot.sound |
| C27 | Cose.c27_mac_compute | propext, Classical.choice, Quot.sound |
| C27 | Cose.c27_enc_direct_key | propext, Classical.choice, Quot.sound |
| C28 | Cose.c28_oaep_wrap_partial | propext, Quot.sound |
| C28 | Cose.c28_oaep_unwrap_partial | propext, Quot.sound |
| C28 | Cose.c28_aeskw_ignores_policy | propext, Quot.sound |
| C28 | Cose.c28_aeskw_unwrap_ignores_policy | propext, Quot.sound |
| C28 | Cose.c28_refuted | propext, Quot.sound |
| C29 | Cose.c29_complete | propext, Quot.sound |
| C29 | Cose.c29_rsa_sign | propext, Quot.sound |
| C29 | Cose.c29_eddsa_sign | propext, Quot.sound |
| C29 | Cose.c29_verify | propext, Quot.sound |
| C29 | Cose.c29_ecdsa_sign_partial | propext, Quot.sound |
| C29 | Cose.c29_ecdsa_sign_refuted | propext, Quot.sound |
| C29 | Cose.c29_curve_refuted | propext, Quot.sound |
| C30 | Cose.c30_nonce_partial | propext, Classical.choice, Quot.sound |
| C30 | Cose.c30_nonce_exact | propext, Classical.choice, Quot.sound |
| C30 | Cose.c30_nonce_distinct | propext, Classical.choice, Quot.sound |
| C30 | Cose.c30_refuted | propext, Quot.sound |
| C31 | Cose.c31_enc0_encrypt | propext, Classical.choice, Quot.sound |
| C31 | Cose.c31_enc0_decrypt | propext, Classical.choice, Quot.sound |
| C31 | Cose.c31_enc_encrypt | propext, Classical.choice, Quot.sound |
| C31 | Cose.c31_enc_decrypt | propext, Classical.choice, Quot.sound |
| C31 | Cose.c31_no_nonce | propext, Quot.sound |
| C31 | Cose.c31_enc0_no_nonce | propext, Quot.sound |
| C31 | Cose.c31_enc_no_nonce | propext, Quot.sound |
| C32 | Cose.c32_enc_encrypt | propext, Quot.sound |
| C32 | Cose.c32_enc_decrypt | propext, Quot.sound |
| C32 | Cose.c32_enc_encode | propext, Quot.sound |
| C32 | Cose.c32_mac_compute | propext, Quot.sound |
| C32 | Cose.c32_mac_encode | propext, Quot.sound |
| C32 | Cose.c32_refused_early | propext, Classical.choice, Quot.sound |
| C32 | Cose.c32_accepted | propext, Quot.sound |
| C33 | Cose.c33_refused | propext, Quot.sound |
| C33 | Cose.c33_refused_membership | propext |
| C33 | Cose.c33_accepted_top | propext |
| C33 | Cose.c33_accepted_nested_partial | propext |
| C33 | Cose.c33_refuted | propext |
| C34 | Cose.c34_encoded_partial | propext, Quot.sound |
| C34 | Cose.c34_decoded_flat | propext, Quot.sound |
| C34 | Cose.c34_nested_kek_fails | propext, Quot.sound |
| C34 | Cose.c34_refuted | propext, Quot.sound |
| C35 | Cose.c35_enc_dropped_partial | propext, Classical.choice, Quot.sound |
| C35 | Cose.c35_mac_dropped_partial | propext, Classical.choice, Quot.sound |
| C35 | Cose.c35_enc_partial | propext, Classical.choice, Quot.sound |
| C35 | Cose.c35_mac_partial | propext, Classical.choice, Quot.sound |
| C35 | Cose.c35_refuted | propext, Quot.sound |
| C36 | Cose.c36_assign_partial | propext |
| C36 | Cose.c36_history | propext, Quot.sound |
| C36 | Cose.c36_via_none | propext |
| C36 | Cose.c36_refuted | none |
| C37 | Cose.c37_encrypt_partial | propext, Quot.sound |
| C37 | Cose.c37_encode_partial | propext, Quot.sound |
| C37 | Cose.c37_refuted | propext, Quot.sound |
| C38 | Cose.c38_compute_never | propext, Quot.sound |
| C38 | Cose.c38_refuted | propext, Quot.sound |
| C38 | Cose.c38_name_error | propext, Quot.sound |
| C39 | Cose.c39_built | propext, Classical.choice, Quot.sound |
| C39 | Cose.c39_history_partial | propext, Classical.choice, Quot.sound |
| C39 | Cose.c39_refuted | propext, Quot.sound |
| C40 | Cose.c40_built | propext, Classical.choice, Quot.sound |
| C40 | Cose.c40_point | propext, Classical.choice, Quot.sound |
| C40 | Cose.c40_decompressed | propext, Classical.choice, Quot.sound |
| C40 | Cose.c40_history_partial | propext, Classical.choice, Quot.sound |
| C40 | Cose.c40_refuted_kty | propext, Quot.sound |
| C40 | Cose.c40_refuted_empty | propext, Quot.sound |
| C40 | Cose.c40_refuted_point | propext, Quot.sound |
| C40 | Cose.c40_refuted_alias | propext, Quot.sound |
| C41 | Cose.c41_built | propext, Classical.choice, Quot.sound |
| C41 | Cose.c41_history_partial | propext, Classical.choice, Quot.sound |
| C41 | Cose.c41_refuted | propext, Quot.sound |
| C41 | Cose.c41_refuted_kty | propext, Quot.sound |
| C42 | Cose.c42_accepted | propext, Classical.choice, Quot.sound |
| C42 | Cose.c42_classified | propext, Classical.choice, Quot.sound |
| C42 | Cose.c42_refused | propext, Classical.choice, Quot.sound |
| C42 | Cose.c42_refuted | propext, Classical.choice, Quot.sound |
| C42 | Cose.c42_values | propext, Classical.choice, Quot.sound |
| C42 | Cose.c42_bytes | propext, Quot.sound |
| C43 | Cose.c43_sym | propext, Classical.choice, Quot.sound |
| C43 | Cose.c43_ec2 | propext, Classical.choice, Quot.sound |
| C43 | Cose.c43_okp | propext, Classical.choice, Quot.sound |
| C43 | Cose.c43_rsa | propext, Classical.choice, Quot.sound |
| C44 | Cose.c44_fromDict | propext, Classical.choice, Quot.sound |
| C44 | Cose.c44_decode | propext, Classical.choice, Quot.sound |
| C44 | Cose.c44_unambiguous | propext, Quot.sound |
| C45 | Cose.c45_stored | propext, Quot.sound |
| C45 | Cose.c45_failure_partial | propext, Quot.sound |
| C45 | Cose.c45_refused | propext, Quot.sound |
| C45 | Cose.c45_refuted_atomic | propext, Quot.sound |
| C45 | Cose.c45_refuted_clear | propext, Quot.sound |
| C46 | Cose.c46_refuted | propext, Quot.sound |
| C46 | Cose.c46_refuted_witness | propext, Quot.sound |
| C46 | Cose.c46_names | propext, Quot.sound |
| C47 | Cose.c47_read_refused | propext, Classical.choice, Quot.sound |
| C47 | Cose.c47_inverse | propext, Classical.choice, Quot.sound |
| C47 | Cose.c47_shortest | propext, Classical.choice, Quot.sound |
| C47 | Cose.c47_fixed | propext, Classical.choice, Quot.sound |
| C47 | Cose.c47_injective | propext, Classical.choice, Quot.sound |
| C47 | Cose.c47_read | propext, Classical.choice, Quot.sound |
| C47 | Cose.c47_hex | propext, Quot.sound |
| C48 | Cose.c48_url | propext, Classical.choice, Quot.sound |
| C48 | Cose.c48_roundtrip | propext, Classical.choice, Quot.sound |
| C48 | Cose.c48_format | propext, Classical.choice, Quot.sound |
| C48 | Cose.c48_injective | propext, Classical.choice, Quot.sound |
| C48 | Cose.c48_bad_length | propext |
| C48 | Cose.c48_none_iff | propext, Quot.sound |
| C48 | Cose.c48_lax | propext, Classical.choice, Quot.sound |
| C49 | Cose.c49_format | propext, Quot.sound |
| C49 | Cose.c49_injective | propext, Classical.choice, Quot.sound |
| C49 | Cose.c49_recipient | propext, Quot.sound |
| C49 | Cose.c49_recipient_length | propext, Quot.sound |
| C49 | Cose.c49_setter | none |
| C49 | Cose.c49_constructor_unchecked | propext, Quot.sound |
| C49 | Cose.c49_empty_protected | propext, Quot.sound |
| C50 | Cose.c50_no_thumbprint | propext, Classical.choice, Quot.sound |
| C50 | Cose.c50_matches_raises | propext, Classical.choice, Quot.sound |
| C50 | Cose.c50_roundtrip_any | propext, Classical.choice, Quot.sound |
| C50 | Cose.c50_refused | propext, Classical.choice, Quot.sound |
| C50 | Cose.c50_from_certificate | propext, Classical.choice, Quot.sound |
| C50 | Cose.c50_matches_iff | propext, Classical.choice, Quot.sound |
| C50 | Cose.c50_matches_own | propext, Classical.choice, Quot.sound |
| C50 | Cose.c50_matches_other | propext, Classical.choice, Quot.sound |
| C50 | Cose.c50_roundtrip | propext, Classical.choice, Quot.sound |
| C50 | Cose.c50_shake_fails | propext, Classical.choice, Quot.sound |
| C50 | Cose.c50_empty | propext, Quot.sound |
| C50 | Cose.c50_equal | propext, Quot.sound |
| C50 | Cose.c50_equal_matches | propext, Classical.choice, Quot.sound |
| C50 | Cose.c50_uri | propext, Classical.choice, Quot.sound |
| C51 | Cose.c51_identifiers_unique | propext |
| C51 | Cose.c51_names_unique | propext, Quot.sound |
| C51 | Cose.c51_fullname | propext |
| C51 | Cose.c51_from_id | propext, Quot.sound |
| C51 | Cose.c51_from_id_sound | propext, Quot.sound |
| C51 | Cose.c51_from_id_text | propext, Quot.sound |
| C52 | Cose.c52_mac_verify | propext, Classical.choice, Quot.sound |
| C52 | Cose.c52_mac0_verify | propext, Classical.choice, Quot.sound |
| C52 | Cose.c52_macmsg_verify | propext, Classical.choice, Quot.sound |
| C52 | Cose.c52_mac_compute | propext, Classical.choice, Quot.sound |
| C52 | Cose.c52_wrong_length | propext, Classical.choice, Quot.sound |
| C52 | Cose.c52_only_the_tag | propext, Classical.choice, Quot.sound |
| C53 | Cose.c53_sign1_partial | propext, Classical.choice, Quot.sound |
| C53 | Cose.c53_sign1_empty | propext, Classical.choice, Quot.sound |
| C53 | Cose.c53_enc0_partial | propext, Classical.choice, Quot.sound |
| C53 | Cose.c53_mac0_refuted | propext, Classical.choice, Quot.sound |
| C53 | Cose.c53_enc_direct_partial | propext, Classical.choice, Quot.sound |
| C53 | Cose.c53_mac_direct_refuted | propext, Classical.choice, Quot.sound |
| C53 | Cose.c53_mac_none_refuted | propext, Quot.sound |
| C53 | Cose.c53_mac_refuted | propext, Quot.sound |
| C53 | Cose.c53_enc_refuted | propext, Quot.sound |
| C53 | Cose.c53_sign1_key_refuted | propext, Quot.sound |
| C53 | Cose.c53_sign1_label_refuted | propext, Quot.sound |
| C53 | Cose.c53_enc_wrapped_refuted | propext, Classical.choice, Quot.sound |
| C53 | Cose.c53_enc_untouched_refuted | propext, Classical.choice, Quot.sound |
| C53 | Cose.c53_mac_untouched_refuted | propext, Classical.choice, Quot.sound |
| C54 | Cose.c54_enc | propext, Classical.choice, Quot.sound |
| C54 | Cose.c54_mac | propext, Classical.choice, Quot.sound |
| C54 | Cose.c54_single | propext, Quot.sound |
| C54 | Cose.c54_local_attrs | propext, Quot.sound |
| C54 | Cose.c54_sign | propext, Classical.choice, Quot.sound |
| C54 | Cose.c54_ephemeral_public | propext, Classical.choice, Quot.sound |
| C54 | Cose.c54_static_key_sent | propext, Quot.sound |
| C55 | Cose.c55_last_assignment | propext, Quot.sound |
| C55 | Cose.c55_covers | propext, Quot.sound |
| C55 | Cose.c55_unattached | propext, Quot.sound |
| C55 | Cose.c55_encode | propext, Quot.sound |
| C55 | Cose.c55_shared_list | propext, Quot.sound |
| C55 | Cose.c55_appended_signer | propext, Quot.sound |
| C56 | Cose.c56_uhdr_not_authenticated | propext, Quot.sound |
| C56 | Cose.c56_aad_authenticated | propext, Classical.choice, Quot.sound |
| C56 | Cose.c56_aad_not_transmitted | propext, Quot.sound |
| C57 | Cose.c57_signer | propext, Classical.choice, Quot.sound |
| C58 | Cose.c58_mac0 | propext, Classical.choice, Quot.sound |
| C58 | Cose.c58_mac | propext, Classical.choice, Quot.sound |
| C59 | Cose.c59_enc0 | propext, Classical.choice, Quot.sound |
| C59 | Cose.c59_enc | propext, Classical.choice, Quot.sound |
| C60 | Cose.c60_text | propext, Classical.choice, Quot.sound |
| C60 | Cose.c60_nothing | propext, Quot.sound |
| C60 | Cose.c60_chain | propext, Quot.sound |
| C60 | Cose.c60_encode | propext, Classical.choice, Quot.sound |
| C60 | Cose.c60_single_not_validated | propext, Quot.sound |
| C60 | Cose.c60_single_fails | propext, Quot.sound |
| C61 | Cose.c61_enc | propext, Classical.choice, Quot.sound |
| C61 | Cose.c61_mac | propext, Classical.choice, Quot.sound |
| C62 | Cose.c62_wrap | propext, Classical.choice, Quot.sound |
| C62 | Cose.c62_encode | propext, Classical.choice, Quot.sound |
| C62 | Cose.c62_unwrap | propext, Classical.choice, Quot.sound |
| C62 | Cose.c62_agreement_wrap | propext, Classical.choice, Quot.sound |
| C62 | Cose.c62_agreement_unwrap | propext, Classical.choice, Quot.sound |
| C62 | Cose.c62_agreement_direct | propext, Quot.sound |
| C62 | Cose.c62_generated | propext, Quot.sound |
| C62 | Cose.c62_content_refuted | propext, Quot.sound |
| C63 | Cose.c63_class | propext, Quot.sound |
| C63 | Cose.c63_ec_constructor | propext, Quot.sound |
| C63 | Cose.c63_ec_overflow | propext, Quot.sound |
| C63 | Cose.c63_ec_unsupported | propext, Quot.sound |
| C63 | Cose.c63_ec | propext, Classical.choice, Quot.sound |
| C63 | Cose.c63_ec_accepted | propext, Classical.choice, Quot.sound |
| C63 | Cose.c63_ec_public | propext, Classical.choice, Quot.sound |
| C63 | Cose.c63_okp_constructor | propext, Quot.sound |
| C63 | Cose.c63_okp | propext, Classical.choice, Quot.sound |
| C63 | Cose.c63_okp_accepted | propext, Quot.sound |
| C63 | Cose.c63_okp_public | propext, Classical.choice, Quot.sound |
| C63 | Cose.c63_rsa_constructor | propext, Quot.sound |
| C63 | Cose.c63_rsa | propext, Classical.choice, Quot.sound |
| C63 | Cose.c63_rsa_accepted | propext, Classical.choice, Quot.sound |
| C63 | Cose.c63_other | propext, Quot.sound |
| C63 | Cose.c63_pem | propext, Quot.sound |
| C63 | Cose.c63_generate_ec | propext, Quot.sound |
| C63 | Cose.c63_generate_okp | propext, Quot.sound |
| C63 | Cose.c63_generate_sym | propext, Classical.choice, Quot.sound |
| C63 | Cose.c63_generate_sym_refused | propext, Quot.sound |
| C63 | Cose.c63_generate_rsa | propext, Classical.choice, Quot.sound |
| C63 | Cose.c63_generate_rsa_accepted | propext, Classical.choice, Quot.sound |
| C64 | Cose.c64_history | propext, Quot.sound |
| C64 | Cose.c64_start | propext, Classical.choice, Quot.sound |
| C64 | Cose.c64_get_attr | propext, Quot.sound |
| C64 | Cose.c64_phdr_encoded | propext, Classical.choice, Quot.sound |
| C65 | Cose.c65_accepts | propext, Classical.choice, Quot.sound |
| C65 | Cose.c65_holds | propext, Classical.choice, Quot.sound |
| C65 | Cose.c65_entry_unique | propext, Classical.choice, Quot.sound |
| C65 | Cose.c65_refused | propext, Quot.sound |
| C66 | Cose.c66_step | propext, Classical.choice, Quot.sound |
| C66 | Cose.c66_history | propext, Classical.choice, Quot.sound |
| C66 | Cose.c66_start | propext, Classical.choice, Quot.sound |
| C66 | Cose.c66_get | propext, Quot.sound |
| C66 | Cose.c66_label | propext, Quot.sound |
| C66 | Cose.c66_labels | propext, Classical.choice, Quot.sound |
| C66 | Cose.c66_properties | propext, Quot.sound |
| C66 | Cose.c66_item_unchecked | propext, Quot.sound |
| C66 | Cose.c66_failed_deletion | propext, Quot.sound |
| C67 | Cose.c67_key_partial | propext, Quot.sound |
| C67 | Cose.c67_message | propext, Quot.sound |
| C67 | Cose.c67_refuted_detached | propext, Quot.sound |
| C67 | Cose.c67_refuted_rsa | propext, Quot.sound |
| C68 | Cose.c68_headers_partial | propext, Quot.sound |
| C68 | Cose.c68_refuted | propext, Quot.sound |
| C69 | Cose.c69_enc_accepted | propext, Classical.choice, Quot.sound |
| C69 | Cose.c69_mac_accepted | propext, Classical.choice, Quot.sound |
| C69 | Cose.c69_enc_refused | propext, Classical.choice, Quot.sound |
| C69 | Cose.c69_mac_refused | propext, Classical.choice, Quot.sound |
| C69 | Cose.c69_total | propext, Classical.choice, Quot.sound |
| C69 | Cose.c69_enc_received | propext, Classical.choice, Quot.sound |
| C69 | Cose.c69_mac_received | propext, Classical.choice, Quot.sound |
| C69 | Cose.c69_distinct | propext, Classical.choice, Quot.sound |
| C70 | Cose.c70_enc | propext, Classical.choice, Quot.sound |
| C70 | Cose.c70_mac | propext, Classical.choice, Quot.sound |
| C70 | Cose.c70_distinct | propext, Classical.choice, Quot.sound |
| C71 | Cose.c71_direct_partial | propext, Quot.sound |
| C71 | Cose.c71_encrypt_partial | propext, Quot.sound |
| C71 | Cose.c71_mac_partial | propext, Quot.sound |
| C71 | Cose.c71_decrypt_partial | propext, Quot.sound |
| C71 | Cose.c71_kakw_ignores_policy | propext, Quot.sound |
| C71 | Cose.c71_kakw_unwrap_ignores_policy | propext, Quot.sound |
| C71 | Cose.c71_kakw_refuted | propext, Quot.sound |
| C72 | Cose.c72_encrypt | propext, Quot.sound |
| C72 | Cose.c72_enc_encode | propext, Quot.sound |
| C72 | Cose.c72_decrypt | propext, Quot.sound |
| C72 | Cose.c72_mac | propext, Quot.sound |
| C72 | Cose.c72_mac_agreed | propext, Quot.sound |
| C72 | Cose.c72_mac_encode | propext, Quot.sound |
| C72 | Cose.c72_mac0_encode | propext, Quot.sound |
| C73 | Cose.c73_first_partial | propext, Quot.sound |
| C73 | Cose.c73_second | propext, Classical.choice, Quot.sound |
| C73 | Cose.c73_same_nonce | propext, Classical.choice, Quot.sound |
| C73 | Cose.c73_refuted | propext, Quot.sound |
| C74 | Cose.c74_forwarded_partial | propext, Classical.choice, Quot.sound |
| C74 | Cose.c74_again_partial | propext, Classical.choice, Quot.sound |
| C74 | Cose.c74_same_partial | propext, Classical.choice, Quot.sound |
| C74 | Cose.c74_small_letters_refuted | propext, Quot.sound |
| C75 | Cose.c75_sign1 | propext, Classical.choice, Quot.sound |
| C75 | Cose.c75_sign1_accepted | propext, Classical.choice, Quot.sound |
| C75 | Cose.c75_signer | propext, Classical.choice, Quot.sound |
| C75 | Cose.c75_signer_accepted | propext, Classical.choice, Quot.sound |
| C75 | Cose.c75_sign1_verify | propext, Classical.choice, Quot.sound |
| C75 | Cose.c75_sign1_verify_accepted | propext, Classical.choice, Quot.sound |
| C75 | Cose.c75_signer_verify | propext, Classical.choice, Quot.sound |
| C75 | Cose.c75_signer_verify_accepted | propext, Classical.choice, Quot.sound |
| C75 | Cose.c75_enc0_encrypt | propext, Quot.sound |
| C75 | Cose.c75_enc0_decrypt | propext, Quot.sound |
| C75 | Cose.c75_enc0_accepted | propext, Quot.sound |
| C75 | Cose.c75_enc_encrypt | propext, Quot.sound |
| C75 | Cose.c75_enc_decrypt | propext, Quot.sound |
| C75 | Cose.c75_wrap | propext, Classical.choice, Quot.sound |
| C75 | Cose.c75_wrap_encode | propext, Classical.choice, Quot.sound |
| C75 | Cose.c75_unwrap | propext, Classical.choice, Quot.sound |
| C75 | Cose.c75_direct_agreement | propext, Quot.sound |
| C75 | Cose.c75_agreement_wrap | propext, Classical.choice, Quot.sound |
| C75 | Cose.c75_agreement_unwrap | propext, Classical.choice, Quot.sound |
| C76 | Cose.c76_sign1_partial | propext, Classical.choice, Quot.sound |
| C76 | Cose.c76_signer_partial | propext, Classical.choice, Quot.sound |
| C76 | Cose.c76_sign1_type | propext, Quot.sound |
| C76 | Cose.c76_signer_type | propext, Quot.sound |
| C76 | Cose.c76_mac0 | propext, Quot.sound |
| C76 | Cose.c76_mac | propext, Quot.sound |
| C76 | Cose.c76_refuted | propext, Quot.sound |
| C77 | Cose.c77_sign1_accepts | propext, Classical.choice, Quot.sound |
| C77 | Cose.c77_sign1_shows | propext, Classical.choice, Quot.sound |
| C77 | Cose.c77_mac0_accepts | propext, Classical.choice, Quot.sound |
| C77 | Cose.c77_mac0_shows | propext, Classical.choice, Quot.sound |
| C77 | Cose.c77_enc0_accepts | propext, Classical.choice, Quot.sound |
| C77 | Cose.c77_enc0_shows | propext, Classical.choice, Quot.sound |
| C77 | Cose.c77_sign_accepts | propext, Classical.choice, Quot.sound |
| C77 | Cose.c77_sign_shows | propext, Classical.choice, Quot.sound |
| C77 | Cose.c77_enc_shows | propext, Classical.choice, Quot.sound |
| C77 | Cose.c77_mac_shows | propext, Classical.choice, Quot.sound |
| C77 | Cose.c77_shown_received | propext, Quot.sound |
| C77 | Cose.c77_enc_accepts | propext, Classical.choice, Quot.sound |
| C77 | Cose.c77_mac_accepts | propext, Classical.choice, Quot.sound |
| C77 | Cose.c77_enc_bare | propext, Classical.choice, Quot.sound |
| C77 | Cose.c77_mac_bare | propext, Classical.choice, Quot.sound |
| C77 | Cose.c77_enc_recipient_field | propext, Classical.choice, Quot.sound |
| C77 | Cose.c77_mac_recipient_field | propext, Classical.choice, Quot.sound |
| C77 | Cose.c77_enc_recipient_field_exact | propext, Classical.choice, Quot.sound |
| C77 | Cose.c77_mac_recipient_field_exact | propext, Classical.choice, Quot.sound |
| C78 | Cose.c78_enc_split | propext, Classical.choice, Quot.sound |
| C78 | Cose.c78_enc_join | propext, Classical.choice, Quot.sound |
| C78 | Cose.c78_sign_split | propext, Classical.choice, Quot.sound |
| C78 | Cose.c78_sign_join | propext, Classical.choice, Quot.sound |
| C78 | Cose.c78_decrypt | propext, Quot.sound |
| C78 | Cose.c78_received | propext, Classical.choice, Quot.sound |
| C78 | Cose.c78_sign_received | propext, Classical.choice, Quot.sound |
| C78 | Cose.c78_preset | propext, Quot.sound |
| C78 | Cose.c78_mac_split | propext, Classical.choice, Quot.sound |
| C78 | Cose.c78_mac_join | propext, Classical.choice, Quot.sound |
| C78 | Cose.c78_mac_received | propext, Classical.choice, Quot.sound |
| C79 | Cose.c79_unsent | propext, Quot.sound |
| C79 | Cose.c79_numbers | propext, Quot.sound |
| C79 | Cose.c79_complete | propext, Quot.sound |
| C79 | Cose.c79_used | propext, Quot.sound |
| C80 | Cose.c80_enc_encrypt | propext, Classical.choice, Quot.sound |
| C80 | Cose.c80_enc_encode | propext, Classical.choice, Quot.sound |
| C80 | Cose.c80_mac_encode | propext, Classical.choice, Quot.sound |
| C80 | Cose.c80_mac0_encode | propext, Quot.sound |
| C80 | Cose.c80_decrypt | propext, Quot.sound |
| C80 | Cose.c80_decrypt_kept | propext, Quot.sound |
| C80 | Cose.c80_decrypt_encode | propext, Classical.choice, Quot.sound |
| C80 | Cose.c80_same_key | propext, Classical.choice, Quot.sound |
| C80 | Cose.c80_announced_partial | propext, Classical.choice, Quot.sound |
| C80 | Cose.c80_returns | propext, Quot.sound |
| C80 | Cose.c80_refuted | propext, Quot.sound |
| C81 | Cose.c81_sign1_stored | propext, Classical.choice, Quot.sound |
| C81 | Cose.c81_refused | propext, Quot.sound |
| C81 | Cose.c81_serialised | propext, Classical.choice, Quot.sound |
| C81 | Cose.c81_protected | propext, Classical.choice, Quot.sound |
| C81 | Cose.c81_sign1_structure | propext, Classical.choice, Quot.sound |
| C81 | Cose.c81_signer_structure | propext, Classical.choice, Quot.sound |
| C81 | Cose.c81_sign1 | propext, Classical.choice, Quot.sound |
| C81 | Cose.c81_sign1_unsigned | propext, Classical.choice, Quot.sound |
| C81 | Cose.c81_sign | propext, Classical.choice, Quot.sound |
| C81 | Cose.c81_mac0 | propext, Classical.choice, Quot.sound |
| C81 | Cose.c81_enc0 | propext, Classical.choice, Quot.sound |
| C81 | Cose.c81_mac_structure | propext, Classical.choice, Quot.sound |
| C81 | Cose.c81_enc_structure | propext, Classical.choice, Quot.sound |
| C81 | Cose.c81_key | propext, Classical.choice, Quot.sound |
| C81 | Cose.c81_classes | propext, Quot.sound |
| C82 | Cose.c82_wrap | propext, Classical.choice, Quot.sound |
| C82 | Cose.c82_unwrap | propext, Classical.choice, Quot.sound |
| C82 | Cose.c82_agreement_unwrap | propext, Classical.choice, Quot.sound |
| C82 | Cose.c82_agreement_wrap | propext, Classical.choice, Quot.sound |
| C82 | Cose.c82_direct_agreement | propext, Classical.choice, Quot.sound |
| C82 | Cose.c82_sign1_verify | propext, Classical.choice, Quot.sound |
| C82 | Cose.c82_signer_verify | propext, Classical.choice, Quot.sound |
| C82 | Cose.c82_mac0_verify | propext, Classical.choice, Quot.sound |
| C82 | Cose.c82_mac_verify | propext, Classical.choice, Quot.sound |
| C82 | Cose.c82_enc0_decrypt | propext, Classical.choice, Quot.sound |
| C82 | Cose.c82_enc_decrypt_direct | propext, Classical.choice, Quot.sound |
| C82 | Cose.c82_enc_decrypt_wrapped | propext, Classical.choice, Quot.sound |
| C82 | Cose.c82_enc_decrypt_agreed | propext, Classical.choice, Quot.sound |
| C82 | Cose.c82_enc_encode_direct | propext, Classical.choice, Quot.sound |
| C82 | Cose.c82_enc_encode_wrapped | propext, Classical.choice, Quot.sound |
| C82 | Cose.c82_enc_encode_agreed | propext, Classical.choice, Quot.sound |
| C82 | Cose.c82_mac_encode_direct | propext, Classical.choice, Quot.sound |
| C82 | Cose.c82_mac_encode_agreed | propext, Classical.choice, Quot.sound |
| C82 | Cose.c82_mac_wrapped | propext, Quot.sound |
| C83 | Cose.c83_latest_number | propext, Classical.choice, Quot.sound |
| C83 | Cose.c83_latest_name | propext, Classical.choice, Quot.sound |
| C83 | Cose.c83_unaffected_number | propext, Classical.choice, Quot.sound |
| C83 | Cose.c83_unaffected_name | propext, Classical.choice, Quot.sound |
| C83 | Cose.c83_separate | propext |
| C83 | Cose.c83_text_identifier | propext, Classical.choice, Quot.sound |
| C83 | Cose.c83_imported | propext, Quot.sound |
| C83 | Cose.c83_imported_only | propext |
| C83 | Cose.c83_package | propext, Classical.choice, Quot.sound |
| C83 | Cose.c83_model_key | propext, Quot.sound |
| C83 | Cose.c83_model | propext, Quot.sound |
| C83 | Cose.c83_model_list | propext, Quot.sound |
| C83 | Cose.c83_equal | propext, Quot.sound |
| C83 | Cose.c83_equal_other | propext |
| C83 | Cose.c83_ordered | propext, Classical.choice, Quot.sound |
| C83 | Cose.c83_order | propext, Quot.sound |
| C83 | Cose.c83_unordered | propext |
| C83 | Cose.c83_confusion_refuted | propext, Quot.sound |
| C83 | Cose.c83_tags | propext, Quot.sound |
| C83 | Cose.c83_tag_refused | propext |
| C83 | Cose.c83_tag_history | propext, Quot.sound |
| C83 | Cose.c83_recipients | propext, Quot.sound |
| C83 | Cose.c83_recipient_history | propext, Classical.choice, Quot.sound |
| C83 | Cose.c83_key_type_history | propext, Classical.choice, Quot.sound |
| C83 | Cose.c83_key_types | propext, Classical.choice, Quot.sound |
| C83 | Cose.c83_text_refuted | propext, Quot.sound |
| C83 | Cose.c83_copied | propext, Quot.sound |
| C83 | Cose.c83_decorated | propext, Quot.sound |
| C84 | Cose.c84_message_partial | propext, Classical.choice, Quot.sound |
| C84 | Cose.c84_key_partial | propext, Classical.choice, Quot.sound |
| C84 | Cose.c84_library_partial | propext, Classical.choice, Quot.sound |
| C84 | Cose.c84_truncated | propext, Quot.sound |
| C84 | Cose.c84_key_truncated | propext, Quot.sound |
| C84 | Cose.c84_attained | propext, Quot.sound |
| C84 | Cose.c84_documented_refuted | propext, Quot.sound |
| C85 | Cose.c85_mac_none | propext, Quot.sound |
| C85 | Cose.c85_fresh_partial | propext, Classical.choice, Quot.sound |
| C85 | Cose.c85_sticky | propext, Classical.choice, Quot.sound |
| C85 | Cose.c85_reused | propext, Classical.choice, Quot.sound |
| C85 | Cose.c85_shared | propext, Classical.choice, Quot.sound |
| C85 | Cose.c85_mixed | propext, Classical.choice, Quot.sound |
| C85 | Cose.c85_isolated | propext, Classical.choice, Quot.sound |
| C85 | Cose.c85_enc_encode | propext, Quot.sound |
| C85 | Cose.c85_enc_encrypt | propext, Quot.sound |
| C85 | Cose.c85_enc_decrypt | propext, Quot.sound |
| C85 | Cose.c85_mac_encode | propext, Quot.sound |
| C85 | Cose.c85_assigned | propext, Quot.sound |
| C85 | Cose.c85_called | propext, Quot.sound |
| C85 | Cose.c85_refuted | propext, Quot.sound |
| C86 | Cose.c86_unset | propext, Quot.sound |
| C86 | Cose.c86_sender | propext, Quot.sound |
| C86 | Cose.c86_wrapped | propext, Classical.choice, Quot.sound |
| C86 | Cose.c86_agreed | propext, Classical.choice, Quot.sound |
| C86 | Cose.c86_mac_agreed | propext, Classical.choice, Quot.sound |
| C86 | Cose.c86_direct | propext, Quot.sound |
| C87 | Cose.c87_class_names | propext, Quot.sound |
| C87 | Cose.c87_any_tail | propext, Classical.choice, Quot.sound |
| C87 | Cose.c87_names | propext |
| C87 | Cose.c87_key | propext, Quot.sound |
| C87 | Cose.c87_enc0 | propext, Quot.sound |
| C87 | Cose.c87_mac0 | propext, Quot.sound |
| C87 | Cose.c87_sign1 | propext, Quot.sound |
| C87 | Cose.c87_enc | propext, Quot.sound |
| C87 | Cose.c87_mac | propext, Quot.sound |
| C87 | Cose.c87_sign | propext, Quot.sound |
| C88 | Cose.c88_recipient_partial | propext, Classical.choice, Quot.sound |
| C88 | Cose.c88_enc_partial | propext, Classical.choice, Quot.sound |
| C88 | Cose.c88_mac_partial | propext, Classical.choice, Quot.sound |
| C88 | Cose.c88_class_refuted | propext, Quot.sound |
| C88 | Cose.c88_ephemeral_refuted | propext, Quot.sound |
| C89 | Cose.c89_text | propext, Classical.choice, Quot.sound |
| C89 | Cose.c89_shortened | propext, Classical.choice, Quot.sound |
| C89 | Cose.c89_written | propext, Classical.choice, Quot.sound |
| C89 | Cose.c89_read | propext, Classical.choice, Quot.sound |
| C89 | Cose.c89_received | propext, Classical.choice, Quot.sound |
| C90 | Cose.c90_sign1 | propext, Classical.choice, Quot.sound |
| C90 | Cose.c90_sign | propext, Classical.choice, Quot.sound |
| C90 | Cose.c90_mac0 | propext, Classical.choice, Quot.sound |
| C90 | Cose.c90_enc0 | propext, Classical.choice, Quot.sound |
| C90 | Cose.c90_mac_direct | propext, Classical.choice, Quot.sound |
| C90 | Cose.c90_enc_direct | propext, Classical.choice, Quot.sound |
| C90 | Cose.c90_enc_wrapped | propext, Classical.choice, Quot.sound |
| C90 | Cose.c90_enc_agreed | propext, Classical.choice, Quot.sound |
| C90 | Cose.c90_mac_agreed | propext, Classical.choice, Quot.sound |
| C90 | Cose.c90_enc_mixed | propext, Classical.choice, Quot.sound |
| C91 | Cose.c91_direct_cek | propext, Classical.choice, Quot.sound |
| C91 | Cose.c91_sign1 | propext, Classical.choice, Quot.sound |
| C91 | Cose.c91_sign1_verify | propext, Classical.choice, Quot.sound |
| C91 | Cose.c91_signer | propext, Classical.choice, Quot.sound |
| C91 | Cose.c91_signer_verify | propext, Classical.choice, Quot.sound |
| C91 | Cose.c91_mac0 | propext, Classical.choice, Quot.sound |
| C91 | Cose.c91_mac0_verify | propext, Classical.choice, Quot.sound |
| C91 | Cose.c91_enc0 | propext, Classical.choice, Quot.sound |
| C91 | Cose.c91_enc0_decrypt | propext, Classical.choice, Quot.sound |
| C91 | Cose.c91_encode | propext, Quot.sound |
| C91 | Cose.c91_enc | propext, Classical.choice, Quot.sound |
| C91 | Cose.c91_enc_decrypt | propext, Classical.choice, Quot.sound |
| C91 | Cose.c91_mac | propext, Classical.choice, Quot.sound |
| C91 | Cose.c91_mac_verify | propext, Classical.choice, Quot.sound |
| C91 | Cose.c91_wrap | propext, Classical.choice, Quot.sound |
| C91 | Cose.c91_unwrap | propext, Classical.choice, Quot.sound |
| C91 | Cose.c91_agreed_wrap | propext, Classical.choice, Quot.sound |
| C91 | Cose.c91_agreed_unwrap | propext, Classical.choice, Quot.sound |
| C91 | Cose.c91_direct_agreement | propext, Classical.choice, Quot.sound |
| C91 | Cose.c91_no_method | propext, Quot.sound |
| C91 | Cose.c91_encode_multi | propext, Quot.sound |
| C92 | Cose.c92_given | propext, Classical.choice, Quot.sound |
| C92 | Cose.c92_symmetric | propext, Classical.choice, Quot.sound |
| C92 | Cose.c92_okp | propext, Classical.choice, Quot.sound |
| C92 | Cose.c92_ec2 | propext, Classical.choice, Quot.sound |
| C92 | Cose.c92_rsa | propext, Classical.choice, Quot.sound |
| C92 | Cose.c92_list | propext, Classical.choice, Quot.sound |
| C92 | Cose.c92_from_dict | propext, Classical.choice, Quot.sound |
| C92 | Cose.c92_no_dict | propext, Quot.sound |
| C92 | Cose.c92_received | propext, Classical.choice, Quot.sound |
| C92 | Cose.c92_rsa_unsized | propext, Classical.choice, Quot.sound |
| C93 | Cose.c93_decode | propext, Classical.choice, Quot.sound |
| C93 | Cose.c93_header | propext, Classical.choice, Quot.sound |
| C93 | Cose.c93_recipient | propext, Classical.choice, Quot.sound |
| C93 | Cose.c93_dictionary_accepted | propext, Quot.sound |
| C94 | Cose.c94_dictionaries | propext, Classical.choice, Quot.sound |
| C94 | Cose.c94_never_adopted | propext, Classical.choice, Quot.sound |
| C94 | Cose.c94_frame | propext, Classical.choice, Quot.sound |
| C94 | Cose.c94_apart | propext, Classical.choice, Quot.sound |
| C94 | Cose.c94_construct | propext, Classical.choice, Quot.sound |
| C94 | Cose.c94_history | propext, Classical.choice, Quot.sound |
| C94 | Cose.c94_raises | propext, Classical.choice, Quot.sound |
| C94 | Cose.c94_key_type | propext, Classical.choice, Quot.sound |
| C94 | Cose.c94_local_refused | propext, Classical.choice, Quot.sound |
| C94 | Cose.c94_assigned | propext, Classical.choice, Quot.sound |
| C94 | Cose.c94_key | propext, Classical.choice, Quot.sound |
| C94 | Cose.c94_update_shares | propext, Classical.choice, Quot.sound |
| C94 | Cose.c94_uhdr_update_shares | propext, Classical.choice, Quot.sound |
| C94 | Cose.c94_construct_shares | propext, Classical.choice, Quot.sound |
| C94 | Cose.c94_argument_not_shared | propext, Classical.choice, Quot.sound |
| C94 | Cose.c94_update_not_shared | propext, Classical.choice, Quot.sound |
| C95 | Cose.c95_shows | propext, Classical.choice, Quot.sound |
| C95 | Cose.c95_frame | propext, Classical.choice, Quot.sound |
| C95 | Cose.c95_party_seen | propext, Classical.choice, Quot.sound |
| C95 | Cose.c95_protected_seen | propext, Classical.choice, Quot.sound |
| C95 | Cose.c95_supp_seen | propext, Classical.choice, Quot.sound |
| C95 | Cose.c95_new | propext, Classical.choice, Quot.sound |
| C95 | Cose.c95_new_parts | propext, Classical.choice, Quot.sound |
| C95 | Cose.c95_attributes | propext, Classical.choice, Quot.sound |
| C95 | Cose.c95_recipient | propext, Classical.choice, Quot.sound |
| C95 | Cose.c95_recipient_live | propext, Classical.choice, Quot.sound |
| C95 | Cose.c95_lengths | propext, Quot.sound |
| C95 | Cose.c95_default_partial | propext, Classical.choice, Quot.sound |
| C95 | Cose.c95_default_shared | propext, Classical.choice, Quot.sound |
| C95 | Cose.c95_refuted | propext, Quot.sound |
| C96 | Cose.c96_copy_partial | propext, Classical.choice, Quot.sound |
| C96 | Cose.c96_store_partial | propext, Classical.choice, Quot.sound |
| C96 | Cose.c96_decoded_partial | propext, Classical.choice, Quot.sound |
| C96 | Cose.c96_primes_refuted | propext, Quot.sound |
| C97 | Cose.c97_constructed | propext, Classical.choice, Quot.sound |
| C97 | Cose.c97_from_dict | propext, Classical.choice, Quot.sound |
| C97 | Cose.c97_copy | propext, Classical.choice, Quot.sound |
| C97 | Cose.c97_key_ops | propext, Classical.choice, Quot.sound |
| C97 | Cose.c97_item | propext, Classical.choice, Quot.sound |
| C97 | Cose.c97_write | propext, Classical.choice, Quot.sound |
| C97 | Cose.c97_assigned | propext, Classical.choice, Quot.sound |
| C97 | Cose.c97_only | propext, Classical.choice, Quot.sound |
| C97 | Cose.c97_frame | propext, Classical.choice, Quot.sound |
| C97 | Cose.c97_other_key | propext, Classical.choice, Quot.sound |
| C97 | Cose.c97_list | propext, Quot.sound |
| C97 | Cose.c97_live | propext, Quot.sound |
| C97 | Cose.c97_lost | propext, Classical.choice, Quot.sound |
| C97 | Cose.c97_own_list | propext, Classical.choice, Quot.sound |
| C97 | Cose.c97_policy | propext, Classical.choice, Quot.sound |
| C97 | Cose.c97_parameter_shared_refuted | propext, Quot.sound |
| C97 | Cose.c97_unchecked_refuted | propext, Quot.sound |
| C97 | Cose.c97_assigned_list | propext, Quot.sound |
| C98 | Cose.c98_item | propext, Classical.choice, Quot.sound |
| C98 | Cose.c98_unique | propext, Classical.choice, Quot.sound |
| C98 | Cose.c98_own | propext, Classical.choice, Quot.sound |
| C98 | Cose.c98_message | propext, Classical.choice, Quot.sound |
| C98 | Cose.c98_key | propext, Classical.choice, Quot.sound |
| C98 | Cose.c98_protected | propext, Classical.choice, Quot.sound |
| C98 | Cose.c98_malformed | propext, Classical.choice, Quot.sound |
| C98 | Cose.c98_cut | propext, Classical.choice, Quot.sound |
| C98 | Cose.c98_value | propext, Classical.choice, Quot.sound |
| C99 | Cose.c99_finishes | propext, Quot.sound |
| C99 | Cose.c99_sign1 | propext, Quot.sound |
| C99 | Cose.c99_sign | propext, Quot.sound |
| C99 | Cose.c99_enc0 | propext, Quot.sound |
| C99 | Cose.c99_mac0 | propext, Quot.sound |
| C99 | Cose.c99_mac_direct | propext, Classical.choice, Quot.sound |
| C99 | Cose.c99_mac_agreement | propext, Quot.sound |
| C99 | Cose.c99_mac_wrapping | propext, Classical.choice, Quot.sound |
| C99 | Cose.c99_decrypt_partial | propext, Quot.sound |
| C99 | Cose.c99_decrypt_any | propext, Classical.choice, Quot.sound |
| C99 | Cose.c99_settled | propext, Quot.sound |
| C99 | Cose.c99_encode_partial | propext, Quot.sound |
| C99 | Cose.c99_encode_race | propext, Quot.sound |
| C99 | Cose.c99_payload_race | propext, Quot.sound |
| C99 | Cose.c99_decrypt_race | propext, Quot.sound |
| C99 | Cose.c99_enc_direct | propext, Quot.sound |
| C99 | Cose.c99_mixed_race | propext, Quot.sound |
| C99 | Cose.c99_verify_race | propext, Quot.sound |
| C99 | Cose.c99_mac_agreement_verify | propext, Classical.choice, Quot.sound |
| C100 | Cose.c100_sign1_content | propext, Classical.choice, Quot.sound |
| C100 | Cose.c100_sign1_bytes | propext, Classical.choice, Quot.sound |
| C100 | Cose.c100_enc0_content | propext, Classical.choice, Quot.sound |
| C100 | Cose.c100_enc0_bytes | propext, Classical.choice, Quot.sound |
| C100 | Cose.c100_enc_content | propext, Classical.choice, Quot.sound |
| C100 | Cose.c100_enc_bytes | propext, Classical.choice, Quot.sound |
| C101 | Cose.c101_only_payload | propext, Classical.choice, Quot.sound |
| C101 | Cose.c101_values | propext, Quot.sound |
| C101 | Cose.c101_detached | propext, Classical.choice, Quot.sound |
| C101 | Cose.c101_attached | propext, Classical.choice, Quot.sound |
| C101 | Cose.c101_restored | propext, Classical.choice, Quot.sound |
| C101 | Cose.c101_signer | propext, Quot.sound |
| C101 | Cose.c101_end_to_end | propext, Classical.choice, Quot.sound |
| C102 | Cose.c102_sign1 | propext, Classical.choice, Quot.sound |
| C102 | Cose.c102_sign1_verdict | propext, Classical.choice, Quot.sound |
| C102 | Cose.c102_sign1_protected | propext, Classical.choice, Quot.sound |
| C102 | Cose.c102_sign1_unprotected | propext, Classical.choice, Quot.sound |
| C102 | Cose.c102_enc0 | propext, Classical.choice, Quot.sound |
| C102 | Cose.c102_enc0_decrypt | propext, Classical.choice, Quot.sound |
| C102 | Cose.c102_enc0_protected | propext, Classical.choice, Quot.sound |
| C102 | Cose.c102_enc0_partial_iv | propext, Classical.choice, Quot.sound |
| C102 | Cose.c102_enc0_inserted_iv | propext, Classical.choice, Quot.sound |
