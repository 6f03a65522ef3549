{
 "claims": [
  {
   "property": "C01",
   "status": "proved",
   "theorems": [
    "Cose.c01_any_format",
    "Cose.c01_any_unambiguous",
    "Cose.c01_sign1_format",
    "Cose.c01_sign1_produces",
    "Cose.c01_sign1_unambiguous",
    "Cose.c01_sign1_signed_bytes",
    "Cose.c01_sign1_verified_bytes"
   ],
   "note": ""
  },
  {
   "property": "C02",
   "status": "proved",
   "theorems": [
    "Cose.c02_domain_separation",
    "Cose.c02_domain_separation_eq",
    "Cose.c02_sign1_primitive",
    "Cose.c02_signer_primitive",
    "Cose.c02_mac_primitive",
    "Cose.c02_enc_primitive"
   ],
   "note": ""
  },
  {
   "property": "C03",
   "status": "proved",
   "theorems": [
    "Cose.c03_any_format",
    "Cose.c03_any_unambiguous",
    "Cose.c03_any_separate",
    "Cose.c03_signer_produces",
    "Cose.c03_signer_format",
    "Cose.c03_signer_unambiguous"
   ],
   "note": ""
  },
  {
   "property": "C04",
   "status": "proved",
   "theorems": [
    "Cose.c04_mac_produces",
    "Cose.c04_mac_format",
    "Cose.c04_padding",
    "Cose.c04_mac_unambiguous"
   ],
   "note": ""
  },
  {
   "property": "C05",
   "status": "proved",
   "theorems": [
    "Cose.c05_aead_produces",
    "Cose.c05_aead_format",
    "Cose.c05_aead_unambiguous"
   ],
   "note": ""
  },
  {
   "property": "C06",
   "status": "proved",
   "theorems": [
    "Cose.c06_any_roundtrip",
    "Cose.c06_constructed_keys",
    "Cose.c06_sign1_roundtrip",
    "Cose.c06_constructed"
   ],
   "note": ""
  },
  {
   "property": "C07",
   "status": "proved",
   "theorems": [
    "Cose.c07_any_roundtrip",
    "Cose.c07_constructed_keys",
    "Cose.c07_sign_roundtrip"
   ],
   "note": ""
  },
  {
   "property": "C08",
   "status": "proved",
   "theorems": [
    "Cose.c08_constructed_keys",
    "Cose.c08_mac0_roundtrip"
   ],
   "note": ""
  },
  {
   "property": "C09",
   "status": "proved",
   "theorems": [
    "Cose.c09_constructed_keys",
    "Cose.c09_enc0_roundtrip"
   ],
   "note": ""
  },
  {
   "property": "C10",
   "status": "proved",
   "theorems": [
    "Cose.c10_constructed_keys",
    "Cose.c10_mac_direct_roundtrip"
   ],
   "note": ""
  },
  {
   "property": "C11",
   "status": "proved",
   "theorems": [
    "Cose.c11_constructed_keys",
    "Cose.c11_enc_direct_roundtrip"
   ],
   "note": ""
  },
  {
   "property": "C12",
   "status": "proved",
   "theorems": [
    "Cose.c12_constructed_keys",
    "Cose.c12_keywrap_roundtrip"
   ],
   "note": "Proved for any mix of AES-KW, RSA-OAEP and ECDH+KW recipients; the receiver's key is described by Spec.Unwraps."
  },
  {
   "property": "C13",
   "status": "proved",
   "theorems": [
    "Cose.c13_ecdh_es_kw_roundtrip",
    "Cose.c13_ecdh_ss_kw_roundtrip"
   ],
   "note": ""
  },
  {
   "property": "C14",
   "status": "proved",
   "theorems": [
    "Cose.c14_constructed_keys",
    "Cose.c14_mac_constructed_keys",
    "Cose.c14_direct_agreement_roundtrip",
    "Cose.c14_mac_direct_agreement_roundtrip",
    "Cose.c14_no_generated_key"
   ],
   "note": "Proved for a sender key set by the user; c14_no_generated_key proves that the automatic ephemeral key path of direct key agreement never produces output."
  },
  {
   "property": "C15",
   "status": "proved",
   "theorems": [
    "Cose.c15_any_sign1_agrees",
    "Cose.c15_any_signer_agrees",
    "Cose.c15_any_sign_agrees",
    "Cose.c15_any_no_result",
    "Cose.c15_any_signer_no_result",
    "Cose.c15_any_unserialisable",
    "Cose.c15_any_payload_field",
    "Cose.c15_wrong_payload_raises",
    "Cose.c15_wrong_payload_no_result",
    "Cose.c15_signer_wrong_payload_no_result",
    "Cose.c15_detached_same_bytes",
    "Cose.c15_detached_only_through_signature",
    "Cose.c15_payload_field"
   ],
   "note": "Byte strings and None as detached payload in Props/Tbs.lean; the code does not check the type, and the c15_any_\u2026 theorems (model Verif/Detached.lean) cover every value."
  },
  {
   "property": "C16",
   "status": "proved",
   "theorems": [
    "Cose.c16_sign1",
    "Cose.c16_empty_header_malleable"
   ],
   "note": ""
  },
  {
   "property": "C17",
   "status": "proved",
   "theorems": [
    "Cose.c17_message",
    "Cose.c17_signers",
    "Cose.c17_recipients",
    "Cose.c17_reencode",
    "Cose.c17_mac_recipients"
   ],
   "note": ""
  },
  {
   "property": "C18",
   "status": "proved",
   "theorems": [
    "Cose.c18_current",
    "Cose.c18_fresh_after_update",
    "Cose.c18_in_place_mutation_stale"
   ],
   "note": ""
  },
  {
   "property": "C19",
   "status": "proved",
   "theorems": [
    "Cose.c19_dispatch",
    "Cose.c19_class",
    "Cose.c19_refusals",
    "Cose.c19_not_cbor"
   ],
   "note": ""
  },
  {
   "property": "C20",
   "status": "proved",
   "theorems": [
    "Cose.c20_trailing_ignored",
    "Cose.c20_not_injective",
    "Cose.c20_first_item"
   ],
   "note": ""
  },
  {
   "property": "C21",
   "status": "proved",
   "theorems": [
    "Cose.c21_lossless",
    "Cose.c21_prefix_free",
    "Cose.c21_no_proper_prefix",
    "Cose.c21_classes",
    "Cose.c21_floats",
    "Cose.c21_number_labels",
    "Cose.c21_plain",
    "Cose.c21_reads_plain",
    "Cose.c21_tags"
   ],
   "note": ""
  },
  {
   "property": "C22",
   "status": "proved",
   "theorems": [
    "Cose.c22_survives_sign1",
    "Cose.c22_survives_mac0",
    "Cose.c22_survives_enc0",
    "Cose.c22_unknown_rejected",
    "Cose.c22_decode_registered_only",
    "Cose.c22_construct_registered_only",
    "Cose.c22_unknown_kept",
    "Cose.c22_nothing_invented",
    "Cose.c22_survives_sign",
    "Cose.c22_survives_mac",
    "Cose.c22_survives_enc",
    "Cose.c22_survives_wrapped",
    "Cose.c22_survives_agreement",
    "Cose.c22_survives_mac_agreement"
   ],
   "note": "Survival is proved for all six message types, and for the headers of every signer and of every recipient (direct, key-wrapping of any kind, direct key agreement): c22_survives_*."
  },
  {
   "property": "C23",
   "status": "partial",
   "theorems": [
    "Cose.c23_label_alias",
    "Cose.c23_algorithm_alias",
    "Cose.c23_last_wins",
    "Cose.c23_idempotent",
    "Cose.c23_idempotent_keys_partial",
    "Cose.c23_idempotent_received",
    "Cose.c23_idempotent_refuted"
   ],
   "note": "Aliases and last-wins are proved in full. Idempotence is proved for all header maps whose COSE keys (EphemeralKey, StaticKey) are ones a key constructor makes, in particular for received maps with integer and text labels and key labels as in C74. c23_idempotent_refuted: a header with an OKP key that spells 'x' in small letters is accepted, but its parsed form is refused."
  },
  {
   "property": "C24",
   "status": "proved",
   "theorems": [
    "Cose.c24_decoded",
    "Cose.c24_constructed",
    "Cose.c24_constructed_message",
    "Cose.c24_assignment_not_validated"
   ],
   "note": ""
  },
  {
   "property": "C25",
   "status": "proved",
   "theorems": [
    "Cose.c25_decoded",
    "Cose.c25_constructed",
    "Cose.c25_unregistered_rejected",
    "Cose.c25_decode_raises"
   ],
   "note": ""
  },
  {
   "property": "C26",
   "status": "partial",
   "theorems": [
    "Cose.c26_get_attr_partial",
    "Cose.c26_none_is_absent",
    "Cose.c26_default_always_raises"
   ],
   "note": "The lookup without default is proved in full. The clause about a non-None default is false of the code: c26_default_always_raises proves that such a call always raises."
  },
  {
   "property": "C27",
   "status": "proved",
   "theorems": [
    "Cose.c27_sign1_sign",
    "Cose.c27_sign1_verify",
    "Cose.c27_signer_sign",
    "Cose.c27_signer_verify",
    "Cose.c27_mac0_compute",
    "Cose.c27_mac0_verify",
    "Cose.c27_mac_verify",
    "Cose.c27_enc0_encrypt",
    "Cose.c27_enc0_decrypt",
    "Cose.c27_enc_encrypt",
    "Cose.c27_enc_decrypt",
    "Cose.c27_mac_compute",
    "Cose.c27_enc_direct_key"
   ],
   "note": ""
  },
  {
   "property": "C28",
   "status": "partial",
   "theorems": [
    "Cose.c28_oaep_wrap_partial",
    "Cose.c28_oaep_unwrap_partial",
    "Cose.c28_aeskw_ignores_policy",
    "Cose.c28_aeskw_unwrap_ignores_policy",
    "Cose.c28_refuted"
   ],
   "note": "Proved for RSA-OAEP wrapping and unwrapping. False of the code for AES key wrap: c28_aeskw_ignores_policy proves that the alg and key_ops of the key encryption key have no effect, c28_refuted gives the counterexample."
  },
  {
   "property": "C29",
   "status": "partial",
   "theorems": [
    "Cose.c29_complete",
    "Cose.c29_rsa_sign",
    "Cose.c29_eddsa_sign",
    "Cose.c29_verify",
    "Cose.c29_ecdsa_sign_partial",
    "Cose.c29_ecdsa_sign_refuted",
    "Cose.c29_curve_refuted"
   ],
   "note": "Proved for EdDSA, RSA signatures and every verification. ECDSA signing does not check the key's kind or curve: c29_ecdsa_sign_refuted and c29_curve_refuted; c29_ecdsa_sign_partial states what is checked."
  },
  {
   "property": "C30",
   "status": "partial",
   "theorems": [
    "Cose.c30_nonce_partial",
    "Cose.c30_nonce_exact",
    "Cose.c30_nonce_distinct",
    "Cose.c30_refuted"
   ],
   "note": "c30_nonce_partial gives the exact value for all inputs: the RFC 8152 nonce without its leading zero bytes; c30_nonce_exact and c30_nonce_distinct prove the property where no leading byte is zero, and distinctness in full. c30_refuted is the counterexample to the full statement."
  },
  {
   "property": "C31",
   "status": "proved",
   "theorems": [
    "Cose.c31_enc0_encrypt",
    "Cose.c31_enc0_decrypt",
    "Cose.c31_enc_encrypt",
    "Cose.c31_enc_decrypt",
    "Cose.c31_no_nonce",
    "Cose.c31_enc0_no_nonce",
    "Cose.c31_enc_no_nonce"
   ],
   "note": ""
  },
  {
   "property": "C32",
   "status": "proved",
   "theorems": [
    "Cose.c32_enc_encrypt",
    "Cose.c32_enc_decrypt",
    "Cose.c32_enc_encode",
    "Cose.c32_mac_compute",
    "Cose.c32_mac_encode",
    "Cose.c32_refused_early",
    "Cose.c32_accepted"
   ],
   "note": ""
  },
  {
   "property": "C33",
   "status": "partial",
   "theorems": [
    "Cose.c33_refused",
    "Cose.c33_refused_membership",
    "Cose.c33_accepted_top",
    "Cose.c33_accepted_nested_partial",
    "Cose.c33_refuted"
   ],
   "note": "Refusal is proved for all trees, acceptance for top-level recipients and for nested ones unless a later sibling of an ancestor has nested recipients itself; c33_refuted is the counterexample for that case."
  },
  {
   "property": "C34",
   "status": "partial",
   "theorems": [
    "Cose.c34_encoded_partial",
    "Cose.c34_decoded_flat",
    "Cose.c34_nested_kek_fails",
    "Cose.c34_refuted"
   ],
   "note": "False of the code: nested recipients are written (c34_encoded_partial), but decoding never reads them (c34_decoded_flat) and a key-wrap recipient never gets a key from them (c34_nested_kek_fails). c34_refuted is an end-to-end witness."
  },
  {
   "property": "C35",
   "status": "partial",
   "theorems": [
    "Cose.c35_enc_dropped_partial",
    "Cose.c35_mac_dropped_partial",
    "Cose.c35_enc_partial",
    "Cose.c35_mac_partial",
    "Cose.c35_refuted"
   ],
   "note": "Decoding is all or nothing: c35_enc_partial, c35_mac_partial. c35_refuted shows a received recipient that is silently dropped."
  },
  {
   "property": "C36",
   "status": "partial",
   "theorems": [
    "Cose.c36_assign_partial",
    "Cose.c36_history",
    "Cose.c36_via_none",
    "Cose.c36_refuted"
   ],
   "note": "False of the code: assignment appends (c36_refuted). c36_history describes every history of assignments, c36_via_none how to replace."
  },
  {
   "property": "C37",
   "status": "partial",
   "theorems": [
    "Cose.c37_encrypt_partial",
    "Cose.c37_encode_partial",
    "Cose.c37_refuted"
   ],
   "note": "Proved, also over repeated encode calls, when preset payloads do not contradict each other; c37_refuted shows different presets."
  },
  {
   "property": "C38",
   "status": "partial",
   "theorems": [
    "Cose.c38_compute_never",
    "Cose.c38_refuted",
    "Cose.c38_name_error"
   ],
   "note": "False of the code for every message: c38_compute_never and c38_refuted prove that computing the tag always raises when there is a key-wrap recipient."
  },
  {
   "property": "C39",
   "status": "partial",
   "theorems": [
    "Cose.c39_built",
    "Cose.c39_history_partial",
    "Cose.c39_refuted"
   ],
   "note": "Kind and key value hold after every history; the key type holds while key.kty is not assigned to. c39_refuted: the kty setter destroys it."
  },
  {
   "property": "C40",
   "status": "partial",
   "theorems": [
    "Cose.c40_built",
    "Cose.c40_point",
    "Cose.c40_decompressed",
    "Cose.c40_history_partial",
    "Cose.c40_refuted_kty",
    "Cose.c40_refuted_empty",
    "Cose.c40_refuted_point",
    "Cose.c40_refuted_alias"
   ],
   "note": "Curve and presence of X or D hold after every history; c40_point and c40_decompressed are the construction part. Counterexamples: c40_refuted_kty, c40_refuted_empty, c40_refuted_point (assigning d), c40_refuted_alias (a received key naming its private value 'd')."
  },
  {
   "property": "C41",
   "status": "partial",
   "theorems": [
    "Cose.c41_built",
    "Cose.c41_history_partial",
    "Cose.c41_refuted",
    "Cose.c41_refuted_kty"
   ],
   "note": "Curve holds after every history, X or D while D is not deleted. c41_refuted: deleting D of a key without X succeeds; c41_refuted_kty: the kty setter."
  },
  {
   "property": "C42",
   "status": "partial",
   "theorems": [
    "Cose.c42_accepted",
    "Cose.c42_classified",
    "Cose.c42_refused",
    "Cose.c42_refuted",
    "Cose.c42_values",
    "Cose.c42_bytes"
   ],
   "note": "The classification is proved in full (c42_accepted, c42_classified, c42_refused), and serialisation for public and two-prime keys (c43_rsa). False of the code for multi-prime keys: c42_refuted proves that every one of them loses other, r_i, d_i and t_i when encoded."
  },
  {
   "property": "C43",
   "status": "partial",
   "theorems": [
    "Cose.c43_sym",
    "Cose.c43_ec2",
    "Cose.c43_okp",
    "Cose.c43_rsa"
   ],
   "note": "Proved in full for symmetric, EC2 and OKP keys and for public and two-prime RSA keys. Multi-prime RSA keys do not round trip (c42_refuted). Optional parameters range over registered common parameters and foreign integer, text or byte-string labels with CBOR values (Spec.PlainOptional)."
  },
  {
   "property": "C44",
   "status": "proved",
   "theorems": [
    "Cose.c44_fromDict",
    "Cose.c44_decode",
    "Cose.c44_unambiguous"
   ],
   "note": ""
  },
  {
   "property": "C45",
   "status": "partial",
   "theorems": [
    "Cose.c45_stored",
    "Cose.c45_failure_partial",
    "Cose.c45_refused",
    "Cose.c45_refuted_atomic",
    "Cose.c45_refuted_clear"
   ],
   "note": "c45_stored and c45_refused are the validation part. Not atomic: c45_failure_partial says exactly what a failing assignment does, c45_refuted_atomic is the counterexample; c45_refuted_clear: assigning the empty list changes nothing."
  },
  {
   "property": "C46",
   "status": "partial",
   "theorems": [
    "Cose.c46_refuted",
    "Cose.c46_refuted_witness",
    "Cose.c46_names"
   ],
   "note": "False of the code for every key and value: c46_refuted proves that a successful assignment never yields a key type."
  },
  {
   "property": "C47",
   "status": "proved",
   "theorems": [
    "Cose.c47_read_refused",
    "Cose.c47_inverse",
    "Cose.c47_shortest",
    "Cose.c47_fixed",
    "Cose.c47_injective",
    "Cose.c47_read",
    "Cose.c47_hex"
   ],
   "note": ""
  },
  {
   "property": "C48",
   "status": "proved",
   "theorems": [
    "Cose.c48_url",
    "Cose.c48_roundtrip",
    "Cose.c48_format",
    "Cose.c48_injective",
    "Cose.c48_bad_length",
    "Cose.c48_none_iff",
    "Cose.c48_lax"
   ],
   "note": "Proved in full. c48_none_iff and c48_lax record what the helper does with strings that are not base64: length 1 mod 4 gives None, other characters are ignored."
  },
  {
   "property": "C49",
   "status": "partial",
   "theorems": [
    "Cose.c49_format",
    "Cose.c49_injective",
    "Cose.c49_recipient",
    "Cose.c49_recipient_length",
    "Cose.c49_setter",
    "Cose.c49_constructor_unchecked",
    "Cose.c49_empty_protected"
   ],
   "note": "Encoding and injectivity are proved, and contexts of recipients have key length 16, 24 or 32. The clause about SuppPubInfo objects is false of the code: c49_constructor_unchecked. c49_empty_protected records a deviation from RFC 8152."
  },
  {
   "property": "C50",
   "status": "partial",
   "theorems": [
    "Cose.c50_no_thumbprint",
    "Cose.c50_matches_raises",
    "Cose.c50_roundtrip_any",
    "Cose.c50_refused",
    "Cose.c50_from_certificate",
    "Cose.c50_matches_iff",
    "Cose.c50_matches_own",
    "Cose.c50_matches_other",
    "Cose.c50_roundtrip",
    "Cose.c50_shake_fails",
    "Cose.c50_empty",
    "Cose.c50_equal",
    "Cose.c50_equal_matches",
    "Cose.c50_uri"
   ],
   "note": "Proved for the six SHA hash algorithms. False of the code for SHAKE: c50_shake_fails proves that every such call raises TypeError."
  },
  {
   "property": "C51",
   "status": "proved",
   "theorems": [
    "Cose.c51_identifiers_unique",
    "Cose.c51_names_unique",
    "Cose.c51_fullname",
    "Cose.c51_from_id",
    "Cose.c51_from_id_sound",
    "Cose.c51_from_id_text"
   ],
   "note": ""
  },
  {
   "property": "C52",
   "status": "proved",
   "theorems": [
    "Cose.c52_mac_verify",
    "Cose.c52_mac0_verify",
    "Cose.c52_macmsg_verify",
    "Cose.c52_mac_compute",
    "Cose.c52_wrong_length",
    "Cose.c52_only_the_tag"
   ],
   "note": ""
  },
  {
   "property": "C53",
   "status": "partial",
   "theorems": [
    "Cose.c53_sign1_partial",
    "Cose.c53_sign1_empty",
    "Cose.c53_enc0_partial",
    "Cose.c53_mac0_refuted",
    "Cose.c53_enc_direct_partial",
    "Cose.c53_mac_direct_refuted",
    "Cose.c53_mac_none_refuted",
    "Cose.c53_mac_refuted",
    "Cose.c53_enc_refuted",
    "Cose.c53_sign1_key_refuted",
    "Cose.c53_sign1_label_refuted",
    "Cose.c53_enc_wrapped_refuted",
    "Cose.c53_enc_untouched_refuted",
    "Cose.c53_mac_untouched_refuted"
   ],
   "note": "Decoding and re-encoding without recomputing keeps the content for Sign1, Enc0 and Enc with direct recipients or none, for all unprotected headers including those with COSE keys (Spec.PlainHeader, plainHeader_received: integer and text labels, and key labels as in C74). SignMessage has no encode without signing. Refuted in general: Mac0 drops the tag (c53_mac0_refuted); Mac puts the recipients in the place of the tag (c53_mac_direct_refuted) and cannot be encoded when it was received without recipients (c53_mac_none_refuted); Enc wraps the already wrapped key of every AES-KW or RSA-OAEP recipient again (c53_enc_wrapped_refuted); Sign1 with an empty signature (c53_sign1_empty). c53_mac_refuted and c53_enc_refuted are concrete executions. As received, before keys have been set for them, no COSE_Encrypt or COSE_Mac message with a recipient of another class than direct encryption can be encoded again (c53_enc_untouched_refuted, c53_mac_untouched_refuted). The condition on the unprotected header is needed: c53_sign1_key_refuted (a key that spells a parameter in small letters: the message sent on is refused) and c53_sign1_label_refuted (the label 4.0 beside the name KID: the message sent on arrives with another key identifier)."
  },
  {
   "property": "C54",
   "status": "proved",
   "theorems": [
    "Cose.c54_enc",
    "Cose.c54_mac",
    "Cose.c54_single",
    "Cose.c54_local_attrs",
    "Cose.c54_sign",
    "Cose.c54_ephemeral_public",
    "Cose.c54_static_key_sent"
   ],
   "note": "c54_enc and c54_mac relate two runs that differ in the private values of ephemeral keys, in local_attrs and in external_aad; c54_single and c54_sign cover the other classes and also the key. A private key that the caller puts into a header is sent as it is (c54_static_key_sent)."
  },
  {
   "property": "C55",
   "status": "proved",
   "theorems": [
    "Cose.c55_last_assignment",
    "Cose.c55_covers",
    "Cose.c55_unattached",
    "Cose.c55_encode",
    "Cose.c55_shared_list",
    "Cose.c55_appended_signer"
   ],
   "note": "c55_shared_list and c55_appended_signer record consequences: a signer shared by two messages covers the last one only, and a signer added with list.append has no message and cannot sign."
  },
  {
   "property": "C56",
   "status": "proved",
   "theorems": [
    "Cose.c56_uhdr_not_authenticated",
    "Cose.c56_aad_authenticated",
    "Cose.c56_aad_not_transmitted"
   ],
   "note": ""
  },
  {
   "property": "C57",
   "status": "proved",
   "theorems": [
    "Cose.c57_signer"
   ],
   "note": ""
  },
  {
   "property": "C58",
   "status": "proved",
   "theorems": [
    "Cose.c58_mac0",
    "Cose.c58_mac"
   ],
   "note": ""
  },
  {
   "property": "C59",
   "status": "proved",
   "theorems": [
    "Cose.c59_enc0",
    "Cose.c59_enc"
   ],
   "note": ""
  },
  {
   "property": "C60",
   "status": "partial",
   "theorems": [
    "Cose.c60_text",
    "Cose.c60_nothing",
    "Cose.c60_chain",
    "Cose.c60_encode",
    "Cose.c60_single_not_validated",
    "Cose.c60_single_fails"
   ],
   "note": "Proved for two or more certificates. False of the code for one certificate: c60_single_not_validated, c60_single_fails."
  },
  {
   "property": "C61",
   "status": "proved",
   "theorems": [
    "Cose.c61_enc",
    "Cose.c61_mac"
   ],
   "note": "For every byte string that decodes. (Recipients that raise ValueError or IndexError are dropped with the whole list; see C35.)"
  },
  {
   "property": "C62",
   "status": "partial",
   "theorems": [
    "Cose.c62_wrap",
    "Cose.c62_encode",
    "Cose.c62_unwrap",
    "Cose.c62_agreement_wrap",
    "Cose.c62_agreement_unwrap",
    "Cose.c62_agreement_direct",
    "Cose.c62_generated",
    "Cose.c62_content_refuted"
   ],
   "note": "Proved for AES key wrap, derived keys and generated content keys. False of the code for content keys set by the user: c62_content_refuted (A128GCM and AES_MAC_128_64 with a 32-byte key)."
  },
  {
   "property": "C63",
   "status": "proved",
   "theorems": [
    "Cose.c63_class",
    "Cose.c63_ec_constructor",
    "Cose.c63_ec_overflow",
    "Cose.c63_ec_unsupported",
    "Cose.c63_ec",
    "Cose.c63_ec_accepted",
    "Cose.c63_ec_public",
    "Cose.c63_okp_constructor",
    "Cose.c63_okp",
    "Cose.c63_okp_accepted",
    "Cose.c63_okp_public",
    "Cose.c63_rsa_constructor",
    "Cose.c63_rsa",
    "Cose.c63_rsa_accepted",
    "Cose.c63_other",
    "Cose.c63_pem",
    "Cose.c63_generate_ec",
    "Cose.c63_generate_okp",
    "Cose.c63_generate_sym",
    "Cose.c63_generate_sym_refused",
    "Cose.c63_generate_rsa",
    "Cose.c63_generate_rsa_accepted"
   ],
   "note": "Optional parameters are assumed to be plain ones (Spec.PlainOptional: common key parameters or unregistered labels, no label of the key type itself). PEM parsing itself is the cryptography package's and is a parameter."
  },
  {
   "property": "C64",
   "status": "proved",
   "theorems": [
    "Cose.c64_history",
    "Cose.c64_start",
    "Cose.c64_get_attr",
    "Cose.c64_phdr_encoded"
   ],
   "note": "Refinement of a view made of look-up functions, by induction over the history. Dictionaries are values: a caller's later change of an inner list or key object it handed over is not modelled."
  },
  {
   "property": "C65",
   "status": "proved",
   "theorems": [
    "Cose.c65_accepts",
    "Cose.c65_holds",
    "Cose.c65_entry_unique",
    "Cose.c65_refused"
   ],
   "note": "Acceptance is an equivalence; the stored tables are given entry by entry. The key-valued headers refer to the acceptance of CoseKey.from_dict (C42, C63)."
  },
  {
   "property": "C66",
   "status": "proved",
   "theorems": [
    "Cose.c66_step",
    "Cose.c66_history",
    "Cose.c66_start",
    "Cose.c66_get",
    "Cose.c66_label",
    "Cose.c66_labels",
    "Cose.c66_properties",
    "Cose.c66_item_unchecked",
    "Cose.c66_failed_deletion"
   ],
   "note": "One write and any history, against an independent rule-by-rule specification. Witnesses: item assignment is unchecked (c66_item_unchecked), a failing deletion may remove x (c66_failed_deletion)."
  },
  {
   "property": "C67",
   "status": "partial",
   "theorems": [
    "Cose.c67_key_partial",
    "Cose.c67_message",
    "Cose.c67_refuted_detached",
    "Cose.c67_refuted_rsa"
   ],
   "note": "Proved for symmetric, EC2 and OKP keys and for all messages. Refuted for RSA keys (the whole private key is in the text) and for the claim that repr never raises (a message without payload raises TypeError)."
  },
  {
   "property": "C68",
   "status": "partial",
   "theorems": [
    "Cose.c68_headers_partial",
    "Cose.c68_refuted"
   ],
   "note": "Proved for dictionaries whose labels are registered. Refuted otherwise: a received message with the unregistered label \"Algorithm\" shows the value of that label as its algorithm."
  },
  {
   "property": "C69",
   "status": "proved",
   "theorems": [
    "Cose.c69_enc_accepted",
    "Cose.c69_mac_accepted",
    "Cose.c69_enc_refused",
    "Cose.c69_mac_refused",
    "Cose.c69_total",
    "Cose.c69_enc_received",
    "Cose.c69_mac_received",
    "Cose.c69_distinct"
   ],
   "note": "Acceptance and every refusal, with its exception, for all readable structures (c69_total shows the list of refusals is complete). Structures that cannot be read may make the code drop all recipients: that is C35."
  },
  {
   "property": "C70",
   "status": "proved",
   "theorems": [
    "Cose.c70_enc",
    "Cose.c70_mac",
    "Cose.c70_distinct"
   ],
   "note": "The relation Spec.Fresh compares every recipient before and after encoding, place by place; c70_enc and c70_mac prove it for the messages, c70_distinct derives that two top-level recipients have different private values when their draws differ."
  },
  {
   "property": "C71",
   "status": "partial",
   "theorems": [
    "Cose.c71_direct_partial",
    "Cose.c71_encrypt_partial",
    "Cose.c71_mac_partial",
    "Cose.c71_decrypt_partial",
    "Cose.c71_kakw_ignores_policy",
    "Cose.c71_kakw_unwrap_ignores_policy",
    "Cose.c71_kakw_refuted"
   ],
   "note": "Proved for direct key agreement: computing the key, encrypting, MACing and decrypting. False of the code for key agreement with key wrap: c71_kakw_ignores_policy and c71_kakw_unwrap_ignores_policy prove that only the private value of the own key matters, c71_kakw_refuted shows an execution in which a signing key wraps a content key."
  },
  {
   "property": "C72",
   "status": "proved",
   "theorems": [
    "Cose.c72_encrypt",
    "Cose.c72_enc_encode",
    "Cose.c72_decrypt",
    "Cose.c72_mac",
    "Cose.c72_mac_agreed",
    "Cose.c72_mac_encode",
    "Cose.c72_mac0_encode"
   ],
   "note": "For calls that return; C80 is about calls that raise. Sign1, Sign and Encrypt0 operations have no effect on their objects in the model and need no theorem."
  },
  {
   "property": "C73",
   "status": "partial",
   "theorems": [
    "Cose.c73_first_partial",
    "Cose.c73_second",
    "Cose.c73_same_nonce",
    "Cose.c73_refuted"
   ],
   "note": "Proved for the first call, while the recipients have no content key (c73_first_partial). False of the code afterwards: the key stays in the recipients' payload, c73_second proves that every later call for the same recipient objects uses the same key, c73_same_nonce that with an unchanged IV header the AEAD is called twice with the same key and nonce, and c73_refuted gives an execution."
  },
  {
   "property": "C74",
   "status": "partial",
   "theorems": [
    "Cose.c74_forwarded_partial",
    "Cose.c74_again_partial",
    "Cose.c74_same_partial",
    "Cose.c74_small_letters_refuted"
   ],
   "note": "Proved for all received keys whose labels are integers, ASCII texts (parameters of the key type spelled in capital letters) or other labels that name nothing; further primes of an RSA key are dropped (C42). c74_small_letters_refuted: a key with the parameter name 'x' in small letters is accepted with any value, and its encoding is then refused. c74_forwarded_partial: the same for any number of nodes, and the bytes are the same from the first node on."
  },
  {
   "property": "C75",
   "status": "proved",
   "theorems": [
    "Cose.c75_sign1",
    "Cose.c75_sign1_accepted",
    "Cose.c75_signer",
    "Cose.c75_signer_accepted",
    "Cose.c75_sign1_verify",
    "Cose.c75_sign1_verify_accepted",
    "Cose.c75_signer_verify",
    "Cose.c75_signer_verify_accepted",
    "Cose.c75_enc0_encrypt",
    "Cose.c75_enc0_decrypt",
    "Cose.c75_enc0_accepted",
    "Cose.c75_enc_encrypt",
    "Cose.c75_enc_decrypt",
    "Cose.c75_wrap",
    "Cose.c75_wrap_encode",
    "Cose.c75_unwrap",
    "Cose.c75_direct_agreement",
    "Cose.c75_agreement_wrap",
    "Cose.c75_agreement_unwrap"
   ],
   "note": "Signatures and their verification (both directions, iff), AEAD content encryption (both directions for COSE_Encrypt0), AES key wrap and RSAES-OAEP, direct key agreement, key agreement with key wrap, against registry tables written out in Props/Primitives.lean; MAC algorithms in C52 with the tables in Props/Nonce.lean. The primitives themselves are parameters."
  },
  {
   "property": "C76",
   "status": "partial",
   "theorems": [
    "Cose.c76_sign1_partial",
    "Cose.c76_signer_partial",
    "Cose.c76_sign1_type",
    "Cose.c76_signer_type",
    "Cose.c76_mac0",
    "Cose.c76_mac",
    "Cose.c76_refuted"
   ],
   "note": "Proved for MACs in full and for signatures that are byte strings, assuming that the primitives refuse keys but never signatures (Spec.JudgesAll, Spec.CbcKeyed). False of the code for received signatures that are no byte strings: c76_sign1_type and c76_signer_type prove that these always raise TypeError, c76_refuted is an execution."
  },
  {
   "property": "C77",
   "status": "proved",
   "theorems": [
    "Cose.c77_sign1_accepts",
    "Cose.c77_sign1_shows",
    "Cose.c77_mac0_accepts",
    "Cose.c77_mac0_shows",
    "Cose.c77_enc0_accepts",
    "Cose.c77_enc0_shows",
    "Cose.c77_sign_accepts",
    "Cose.c77_sign_shows",
    "Cose.c77_enc_shows",
    "Cose.c77_mac_shows",
    "Cose.c77_shown_received",
    "Cose.c77_enc_accepts",
    "Cose.c77_mac_accepts",
    "Cose.c77_enc_bare",
    "Cose.c77_mac_bare",
    "Cose.c77_enc_recipient_field",
    "Cose.c77_mac_recipient_field",
    "Cose.c77_enc_recipient_field_exact",
    "Cose.c77_mac_recipient_field_exact"
   ],
   "note": "Acceptance as an equivalence for all six types (for COSE_Encrypt and COSE_Mac when the recipients can be read, or there is no field for them; what happens otherwise is C35), contents for all six types; the rules for recipients are C69. The conditions on header entries are those of C65 (Spec.EntryArg). The code accepts more than RFC 8152: null headers, additional elements, and no field for recipients. c77_enc_recipient_field and c77_mac_recipient_field: where the recipients are expected, anything but an array, an empty string or a map is refused. c77_enc_recipient_field_exact and c77_mac_recipient_field_exact give the outcome for every field that is no array, except maps whose first label is a non-empty array or map, which are not modelled."
  },
  {
   "property": "C78",
   "status": "proved",
   "theorems": [
    "Cose.c78_enc_split",
    "Cose.c78_enc_join",
    "Cose.c78_sign_split",
    "Cose.c78_sign_join",
    "Cose.c78_decrypt",
    "Cose.c78_received",
    "Cose.c78_sign_received",
    "Cose.c78_preset",
    "Cose.c78_mac_split",
    "Cose.c78_mac_join",
    "Cose.c78_mac_received"
   ],
   "note": "Byte level: out = common ++ array head ++ entries, alone = common ++ 0x81 ++ entry. A recipient to which the caller gave its own content key does influence the others (c78_preset, see C37), hence that hypothesis. For COSE_Mac (c78_mac_split, c78_mac_join, c78_mac_received) that hypothesis is not needed: a tag is only ever computed with direct recipients or one direct key agreement recipient (C82)."
  },
  {
   "property": "C79",
   "status": "proved",
   "theorems": [
    "Cose.c79_unsent",
    "Cose.c79_numbers",
    "Cose.c79_complete",
    "Cose.c79_used"
   ],
   "note": "Spec.numbers is written from the RFCs, independently of the model's registries."
  },
  {
   "property": "C80",
   "status": "partial",
   "theorems": [
    "Cose.c80_enc_encrypt",
    "Cose.c80_enc_encode",
    "Cose.c80_mac_encode",
    "Cose.c80_mac0_encode",
    "Cose.c80_decrypt",
    "Cose.c80_decrypt_kept",
    "Cose.c80_decrypt_encode",
    "Cose.c80_same_key",
    "Cose.c80_announced_partial",
    "Cose.c80_returns",
    "Cose.c80_refuted"
   ],
   "note": "Proved for all calls and histories, except that a generated key is announced: an encode() that raises because of an unrelated ephemeral key in the header keeps the generated key, and the next call sends the unrelated header (c80_refuted); c80_announced_partial is for recipients without such a header."
  },
  {
   "property": "C81",
   "status": "proved",
   "theorems": [
    "Cose.c81_sign1_stored",
    "Cose.c81_refused",
    "Cose.c81_serialised",
    "Cose.c81_protected",
    "Cose.c81_sign1_structure",
    "Cose.c81_signer_structure",
    "Cose.c81_sign1",
    "Cose.c81_sign1_unsigned",
    "Cose.c81_sign",
    "Cose.c81_mac0",
    "Cose.c81_enc0",
    "Cose.c81_mac_structure",
    "Cose.c81_enc_structure",
    "Cose.c81_key",
    "Cose.c81_classes"
   ],
   "note": "Equivalences. Key objects whose alg or key_ops hold something else than an algorithm and a list are excluded by hypothesis (Spec.PlainPolicy). COSE_Encrypt and COSE_Mac are not covered here; see C75, C78 and C80. c81_refused gives the exceptions of the serialiser."
  },
  {
   "property": "C82",
   "status": "proved",
   "theorems": [
    "Cose.c82_wrap",
    "Cose.c82_unwrap",
    "Cose.c82_agreement_unwrap",
    "Cose.c82_agreement_wrap",
    "Cose.c82_direct_agreement",
    "Cose.c82_sign1_verify",
    "Cose.c82_signer_verify",
    "Cose.c82_mac0_verify",
    "Cose.c82_mac_verify",
    "Cose.c82_enc0_decrypt",
    "Cose.c82_enc_decrypt_direct",
    "Cose.c82_enc_decrypt_wrapped",
    "Cose.c82_enc_decrypt_agreed",
    "Cose.c82_enc_encode_direct",
    "Cose.c82_enc_encode_wrapped",
    "Cose.c82_enc_encode_agreed",
    "Cose.c82_mac_encode_direct",
    "Cose.c82_mac_encode_agreed",
    "Cose.c82_mac_wrapped"
   ],
   "note": "Equivalences. As in C81, key objects whose alg or key_ops hold something else than an algorithm and a list are excluded by hypothesis (Spec.PlainPolicy). That key-wrapping recipients never work in COSE_Mac is a property of this code, not of the RFC (c82_mac_wrapped; see also C30)."
  },
  {
   "property": "C83",
   "status": "partial",
   "theorems": [
    "Cose.c83_latest_number",
    "Cose.c83_latest_name",
    "Cose.c83_unaffected_number",
    "Cose.c83_unaffected_name",
    "Cose.c83_separate",
    "Cose.c83_text_identifier",
    "Cose.c83_imported",
    "Cose.c83_imported_only",
    "Cose.c83_package",
    "Cose.c83_model_key",
    "Cose.c83_model",
    "Cose.c83_model_list",
    "Cose.c83_equal",
    "Cose.c83_equal_other",
    "Cose.c83_ordered",
    "Cose.c83_order",
    "Cose.c83_unordered",
    "Cose.c83_confusion_refuted",
    "Cose.c83_tags",
    "Cose.c83_tag_refused",
    "Cose.c83_tag_history",
    "Cose.c83_recipients",
    "Cose.c83_recipient_history",
    "Cose.c83_key_type_history",
    "Cose.c83_key_types",
    "Cose.c83_text_refuted",
    "Cose.c83_copied",
    "Cose.c83_decorated"
   ],
   "note": "Proved, except that an attribute with a text label is not found by that label unless the label consists of capitals (c83_text_identifier for all such labels, c83_text_refuted), and that objects of different attributes with one number are equal and exchangeable (c83_confusion_refuted)."
  },
  {
   "property": "C84",
   "status": "partial",
   "theorems": [
    "Cose.c84_message_partial",
    "Cose.c84_key_partial",
    "Cose.c84_library_partial",
    "Cose.c84_truncated",
    "Cose.c84_key_truncated",
    "Cose.c84_attained",
    "Cose.c84_documented_refuted"
   ],
   "note": "The list is proved complete (c84_message_partial, c84_key_partial, c84_library_partial) and exact (c84_attained), up to the inputs outside the model, which appear as the value unsupported: the tags that cbor2 turns into other Python objects, and a map in place of the recipients whose first label is a non-empty list or map. Python's own recursion limit and memory are not modelled. The documentation of decode() announces only AttributeError, ValueError, KeyError and TypeError: c84_documented_refuted. Truncation and extension are proved in full."
  },
  {
   "property": "C85",
   "status": "partial",
   "theorems": [
    "Cose.c85_mac_none",
    "Cose.c85_fresh_partial",
    "Cose.c85_sticky",
    "Cose.c85_reused",
    "Cose.c85_shared",
    "Cose.c85_mixed",
    "Cose.c85_isolated",
    "Cose.c85_enc_encode",
    "Cose.c85_enc_encrypt",
    "Cose.c85_enc_decrypt",
    "Cose.c85_mac_encode",
    "Cose.c85_assigned",
    "Cose.c85_called",
    "Cose.c85_refuted"
   ],
   "note": "The last sentence fails: c85_shared shows for every program that a message whose first recipient was used before is encrypted with the key of the earlier message, c85_mixed that new recipients listed before a used one are sent a wrong key, c85_refuted is an execution. Proved: c85_fresh_partial (new recipients, repetition allowed), c85_sticky, c85_reused, c85_isolated, and the refinement c85_enc_encode, c85_enc_encrypt, c85_enc_decrypt, c85_mac_encode."
  },
  {
   "property": "C86",
   "status": "proved",
   "theorems": [
    "Cose.c86_unset",
    "Cose.c86_sender",
    "Cose.c86_wrapped",
    "Cose.c86_agreed",
    "Cose.c86_mac_agreed",
    "Cose.c86_direct"
   ],
   "note": "Under the laws of the primitives (Crypto.Laws) and for recipients without a preset content key or with the same one (Spec.OnePreset), as C12 to C14 and C37; the sender's marks and sizes are stated in Spec.KeyFor. c86_direct also records that compute_cek of a direct-encryption recipient takes one argument where the others take two."
  },
  {
   "property": "C87",
   "status": "proved",
   "theorems": [
    "Cose.c87_class_names",
    "Cose.c87_any_tail",
    "Cose.c87_names",
    "Cose.c87_key",
    "Cose.c87_enc0",
    "Cose.c87_mac0",
    "Cose.c87_sign1",
    "Cose.c87_enc",
    "Cose.c87_mac",
    "Cose.c87_sign"
   ],
   "note": "Headers and key parameters with nested values, and labels that are texts equal to a name used in the text, are outside the hypotheses; what happens with a missing payload is in C67."
  },
  {
   "property": "C88",
   "status": "partial",
   "theorems": [
    "Cose.c88_recipient_partial",
    "Cose.c88_enc_partial",
    "Cose.c88_mac_partial",
    "Cose.c88_class_refuted",
    "Cose.c88_ephemeral_refuted"
   ],
   "note": "False of the code in two points: the constructors of the recipient classes do not look at the algorithm, so that direct encryption and direct key agreement recipients are written with algorithms of other classes (c88_class_refuted); key agreement with key wrap writes a recipient for ECDH-ES without ephemeral key if the caller has set the key (c88_ephemeral_refuted). All other rules are proved."
  },
  {
   "property": "C89",
   "status": "proved",
   "theorems": [
    "Cose.c89_text",
    "Cose.c89_shortened",
    "Cose.c89_written",
    "Cose.c89_read",
    "Cose.c89_received"
   ],
   "note": "The model's table-driven validator is proved equal to the RFC's encoding of scalar values."
  },
  {
   "property": "C90",
   "status": "proved",
   "theorems": [
    "Cose.c90_sign1",
    "Cose.c90_sign",
    "Cose.c90_mac0",
    "Cose.c90_enc0",
    "Cose.c90_mac_direct",
    "Cose.c90_enc_direct",
    "Cose.c90_enc_wrapped",
    "Cose.c90_enc_agreed",
    "Cose.c90_mac_agreed",
    "Cose.c90_enc_mixed"
   ],
   "note": "Total correctness: the hypotheses concern the caller's arguments and what the cryptographic library does with the key (it signs, tags, seals, wraps); that every step returns is concluded. Each theorem is instantiated on sample objects made by the model's constructors. The theorems with agreement recipients (c90_enc_agreed, c90_mac_agreed) and with any mix of wrapping recipients (c90_enc_mixed) take the conditions of C82 for the agreement and for writing each recipient as hypotheses on the sender's objects."
  },
  {
   "property": "C91",
   "status": "proved",
   "theorems": [
    "Cose.c91_direct_cek",
    "Cose.c91_sign1",
    "Cose.c91_sign1_verify",
    "Cose.c91_signer",
    "Cose.c91_signer_verify",
    "Cose.c91_mac0",
    "Cose.c91_mac0_verify",
    "Cose.c91_enc0",
    "Cose.c91_enc0_decrypt",
    "Cose.c91_encode",
    "Cose.c91_enc",
    "Cose.c91_enc_decrypt",
    "Cose.c91_mac",
    "Cose.c91_mac_verify",
    "Cose.c91_wrap",
    "Cose.c91_unwrap",
    "Cose.c91_agreed_wrap",
    "Cose.c91_agreed_unwrap",
    "Cose.c91_direct_agreement",
    "Cose.c91_no_method",
    "Cose.c91_encode_multi"
   ],
   "note": "Spec.Outcome lists the requirements in order with their exceptions; the rest is the result of the primitive. Assumed: keys as the constructors leave them (alg a class, key_ops a list, RSA parameters byte strings), class-valued algorithm headers are algorithms, the protected header can be written (C81)."
  },
  {
   "property": "C92",
   "status": "proved",
   "theorems": [
    "Cose.c92_given",
    "Cose.c92_symmetric",
    "Cose.c92_okp",
    "Cose.c92_ec2",
    "Cose.c92_rsa",
    "Cose.c92_list",
    "Cose.c92_from_dict",
    "Cose.c92_no_dict",
    "Cose.c92_received",
    "Cose.c92_rsa_unsized"
   ],
   "note": "Constructors, dictionaries and received byte strings. An EC2 private value given as a list of integers, and an RSA parameter without a length, are proved to be refused without fixing the one exception. Lists in place of dictionaries: c92_list, with the exception in each case."
  },
  {
   "property": "C93",
   "status": "proved",
   "theorems": [
    "Cose.c93_decode",
    "Cose.c93_header",
    "Cose.c93_recipient",
    "Cose.c93_dictionary_accepted"
   ],
   "note": "Spec.Decodes is a specification of decode as a relation; the theorem says it holds of exactly one result, that of decode. A dictionary in the place of the recipient list whose first label is a non-empty list or dictionary is not modelled (unsupported), and CBOR errors are those of the model of cbor2."
  },
  {
   "property": "C94",
   "status": "proved",
   "theorems": [
    "Cose.c94_dictionaries",
    "Cose.c94_never_adopted",
    "Cose.c94_frame",
    "Cose.c94_apart",
    "Cose.c94_construct",
    "Cose.c94_history",
    "Cose.c94_raises",
    "Cose.c94_key_type",
    "Cose.c94_local_refused",
    "Cose.c94_assigned",
    "Cose.c94_key",
    "Cose.c94_update_shares",
    "Cose.c94_uhdr_update_shares",
    "Cose.c94_construct_shares",
    "Cose.c94_argument_not_shared",
    "Cose.c94_update_not_shared"
   ],
   "note": "Objects are addresses in a heap. c94_dictionaries, c94_never_adopted, c94_frame and c94_apart: ownership. c94_construct, c94_history, c94_raises: the heap model simulates the value model used by all other properties. c94_assigned (deep copy), c94_update_shares, c94_uhdr_update_shares and c94_construct_shares (one-level copy), c94_argument_not_shared, c94_update_not_shared, c94_key. Simplifications: values a parser makes (algorithm, ephemeral/static key) and values decoded from bytes are not separate objects; a key and its store are one object."
  },
  {
   "property": "C95",
   "status": "partial",
   "theorems": [
    "Cose.c95_shows",
    "Cose.c95_frame",
    "Cose.c95_party_seen",
    "Cose.c95_protected_seen",
    "Cose.c95_supp_seen",
    "Cose.c95_new",
    "Cose.c95_new_parts",
    "Cose.c95_attributes",
    "Cose.c95_recipient",
    "Cose.c95_recipient_live",
    "Cose.c95_lengths",
    "Cose.c95_default_partial",
    "Cose.c95_default_shared",
    "Cose.c95_refuted"
   ],
   "note": "The last sentence fails: the default PartyInfo objects are made once per class, so all contexts constructed without party information share them (c95_default_shared for every state, c95_refuted with encodings). c95_default_partial: it holds as long as nothing is assigned to a default object. Everything else is proved."
  },
  {
   "property": "C96",
   "status": "partial",
   "theorems": [
    "Cose.c96_copy_partial",
    "Cose.c96_store_partial",
    "Cose.c96_decoded_partial",
    "Cose.c96_primes_refuted"
   ],
   "note": "Proved for keys made from optional parameters with serialisable values and for decoded keys with labels as in C74. c96_primes_refuted: the further primes of an RSA key are instance attributes outside of the dictionary and are lost."
  },
  {
   "property": "C97",
   "status": "partial",
   "theorems": [
    "Cose.c97_constructed",
    "Cose.c97_from_dict",
    "Cose.c97_copy",
    "Cose.c97_key_ops",
    "Cose.c97_item",
    "Cose.c97_write",
    "Cose.c97_assigned",
    "Cose.c97_only",
    "Cose.c97_frame",
    "Cose.c97_other_key",
    "Cose.c97_list",
    "Cose.c97_live",
    "Cose.c97_lost",
    "Cose.c97_own_list",
    "Cose.c97_policy",
    "Cose.c97_parameter_shared_refuted",
    "Cose.c97_unchecked_refuted",
    "Cose.c97_assigned_list"
   ],
   "note": "Proved for all programs: value and freshness of constructed and copied keys, frame (an operation changes at most its target; a key depends only on its parts), exact effect of a change of a list on every key, copies made by the key_ops setter, and that lists of operations are never shared in histories that do not assign them by item. Refuted, as the code behaves: lists under other parameters are shared (c97_parameter_shared_refuted), changes through key.key_ops are not checked (c97_unchecked_refuted), and they are lost for a key without operations (c97_lost)."
  },
  {
   "property": "C98",
   "status": "proved",
   "theorems": [
    "Cose.c98_item",
    "Cose.c98_unique",
    "Cose.c98_own",
    "Cose.c98_message",
    "Cose.c98_key",
    "Cose.c98_protected",
    "Cose.c98_malformed",
    "Cose.c98_cut",
    "Cose.c98_value"
   ],
   "note": "Grammar Spec.Item (RFC 7049 section 2) with Spec.SameNumber for floats and meaning Spec.Means; exactness both ways (c98_item, c98_value). cbor2 itself is not in /repo: this is about the model of it. Tags for dates, fractions and other Python types (Spec.otherTypes) are outside the model."
  },
  {
   "property": "C99",
   "status": "partial",
   "theorems": [
    "Cose.c99_finishes",
    "Cose.c99_sign1",
    "Cose.c99_sign",
    "Cose.c99_enc0",
    "Cose.c99_mac0",
    "Cose.c99_mac_direct",
    "Cose.c99_mac_agreement",
    "Cose.c99_mac_wrapping",
    "Cose.c99_decrypt_partial",
    "Cose.c99_decrypt_any",
    "Cose.c99_settled",
    "Cose.c99_encode_partial",
    "Cose.c99_encode_race",
    "Cose.c99_payload_race",
    "Cose.c99_decrypt_race",
    "Cose.c99_enc_direct",
    "Cose.c99_mixed_race",
    "Cose.c99_verify_race",
    "Cose.c99_mac_agreement_verify"
   ],
   "note": "Proved for every schedule and any number of threads for COSE_Sign1, COSE_Sign, COSE_Encrypt0 and COSE_Mac0, for decrypt of COSE_Encrypt with recipients that give one content key, and for encode of COSE_Encrypt with settled recipients (which they are after one encode). False of the code otherwise: c99_encode_race (first encode of a message with a wrapping recipient by two threads gives undecryptable bytes), c99_decrypt_race (a recipient with another content key gets the plaintext), c99_payload_race (payload assigned during encode). For COSE_Mac, compute_tag, verify_tag and encode with direct recipients are covered (c99_mac_direct), and compute_tag and encode with one direct key agreement recipient (c99_mac_agreement); with a wrapping recipient no call that makes a tag returns (c99_mac_wrapping). For recipients with different content keys c99_decrypt_any says what can happen: each call gives the result one of the calls gives alone. Mixed encrypt, decrypt and encode calls on one COSE_Encrypt message are covered for direct recipients (c99_enc_direct) and refuted for wrapping recipients (c99_mixed_race: either call can raise an illegal key operation exception). verify_tag together with calls that assign an agreed key: c99_mac_agreement_verify if the message has no key yet or the agreed one, refuted by c99_verify_race if it has another key."
  },
  {
   "property": "C100",
   "status": "proved",
   "theorems": [
    "Cose.c100_sign1_content",
    "Cose.c100_sign1_bytes",
    "Cose.c100_enc0_content",
    "Cose.c100_enc0_bytes",
    "Cose.c100_enc_content",
    "Cose.c100_enc_bytes"
   ],
   "note": "By induction on the number of nodes (Spec.Forwarded), with the theorems of C53 for one node. Same bytes of the protected header, so verification and decryption agree in every outcome, exceptions included. Hypotheses: plain unprotected headers (Spec.PlainHeader, see C53), a signature that is not empty, and direct recipients as they are received. Messages that cannot be forwarded are the refutations of C53: COSE_Mac0, COSE_Mac, COSE_Encrypt with wrapped keys. That the condition on the unprotected header is needed is shown by c53_sign1_key_refuted and c53_sign1_label_refuted."
  },
  {
   "property": "C101",
   "status": "proved",
   "theorems": [
    "Cose.c101_only_payload",
    "Cose.c101_values",
    "Cose.c101_detached",
    "Cose.c101_attached",
    "Cose.c101_restored",
    "Cose.c101_signer",
    "Cose.c101_end_to_end"
   ],
   "note": "Spec.PayloadHop: decode, assign the payload, encode(sign=False). c101_only_payload says what the next receiver sees, c101_detached and c101_attached compare the verdicts (exceptions included), c101_restored composes detaching, any number of forwarding nodes (Spec.Forwarded of C100) and attaching, and gives equality of bytes with one hop of the original. c101_end_to_end starts from the sender and ends with acceptance. c101_signer is the step for COSE_Sign (verdict of a signer for the changed body; re-encoding of COSE_Sign is C53). Hypotheses as in C100."
  },
  {
   "property": "C102",
   "status": "proved",
   "theorems": [
    "Cose.c102_sign1",
    "Cose.c102_sign1_verdict",
    "Cose.c102_sign1_protected",
    "Cose.c102_sign1_unprotected",
    "Cose.c102_enc0",
    "Cose.c102_enc0_decrypt",
    "Cose.c102_enc0_protected",
    "Cose.c102_enc0_partial_iv",
    "Cose.c102_enc0_inserted_iv"
   ],
   "note": "Spec.Sign1Relabel and Spec.Enc0Relabel: decode, uhdr = d, encode without protecting again. c102_sign1 and c102_enc0 say what the next receiver sees; c102_sign1_verdict and c102_enc0_decrypt that the outcomes agree when the lookups do; c102_sign1_protected and c102_enc0_protected that a node gains nothing over protected attributes; c102_sign1_unprotected that it chooses an unprotected algorithm. c102_enc0_partial_iv says the same for a protected Partial IV, and c102_enc0_inserted_iv that an IV of the node takes its place. A header value None counts as absent, as in get_attr (C26). New headers are those of Spec.HdrSend (registered with valid values, COSE keys, unknown ones if the receiver allows them)."
  }
 ]
}