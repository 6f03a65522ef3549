{
 "C26": {
  "status": "partial",
  "note": "The lookup without default is proved in full. The clause about a non-None default is false of the code: c26_default_always_raises proves that such a call always raises."
 },
 "C12": {
  "note": "Proved for any mix of AES-KW, RSA-OAEP and ECDH+KW recipients; the receiver's key is described by Spec.Unwraps."
 },
 "C14": {
  "note": "Proved for a sender key set by the user; c14_no_generated_key proves that the automatic ephemeral key path of direct key agreement never produces output."
 },
 "C28": {
  "note": "Proved for RSA-OAEP wrapping and unwrapping. False of the code for AES key wrap: c28_aeskw_ignores_policy proves that the alg and key_ops of the key encryption key have no effect, c28_refuted gives the counterexample."
 },
 "C29": {
  "note": "Proved for EdDSA, RSA signatures and every verification. ECDSA signing does not check the key's kind or curve: c29_ecdsa_sign_refuted and c29_curve_refuted; c29_ecdsa_sign_partial states what is checked."
 },
 "C30": {
  "note": "c30_nonce_partial gives the exact value for all inputs: the RFC 8152 nonce without its leading zero bytes; c30_nonce_exact and c30_nonce_distinct prove the property where no leading byte is zero, and distinctness in full. c30_refuted is the counterexample to the full statement."
 },
 "C33": {
  "note": "Refusal is proved for all trees, acceptance for top-level recipients and for nested ones unless a later sibling of an ancestor has nested recipients itself; c33_refuted is the counterexample for that case."
 },
 "C34": {
  "note": "False of the code: nested recipients are written (c34_encoded_partial), but decoding never reads them (c34_decoded_flat) and a key-wrap recipient never gets a key from them (c34_nested_kek_fails). c34_refuted is an end-to-end witness."
 },
 "C35": {
  "note": "Decoding is all or nothing: c35_enc_partial, c35_mac_partial. c35_refuted shows a received recipient that is silently dropped."
 },
 "C36": {
  "note": "False of the code: assignment appends (c36_refuted). c36_history describes every history of assignments, c36_via_none how to replace."
 },
 "C37": {
  "note": "Proved, also over repeated encode calls, when preset payloads do not contradict each other; c37_refuted shows different presets."
 },
 "C38": {
  "status": "partial",
  "note": "False of the code for every message: c38_compute_never and c38_refuted prove that computing the tag always raises when there is a key-wrap recipient."
 },
 "C39": {
  "note": "Kind and key value hold after every history; the key type holds while key.kty is not assigned to. c39_refuted: the kty setter destroys it."
 },
 "C40": {
  "note": "Curve and presence of X or D hold after every history; c40_point and c40_decompressed are the construction part. Counterexamples: c40_refuted_kty, c40_refuted_empty, c40_refuted_point (assigning d), c40_refuted_alias (a received key naming its private value 'd')."
 },
 "C41": {
  "note": "Curve holds after every history, X or D while D is not deleted. c41_refuted: deleting D of a key without X succeeds; c41_refuted_kty: the kty setter."
 },
 "C45": {
  "note": "c45_stored and c45_refused are the validation part. Not atomic: c45_failure_partial says exactly what a failing assignment does, c45_refuted_atomic is the counterexample; c45_refuted_clear: assigning the empty list changes nothing."
 },
 "C46": {
  "status": "partial",
  "note": "False of the code for every key and value: c46_refuted proves that a successful assignment never yields a key type."
 },
 "C42": {
  "status": "partial",
  "note": "The classification is proved in full (c42_accepted, c42_classified, c42_refused), and serialisation for public and two-prime keys (c43_rsa). False of the code for multi-prime keys: c42_refuted proves that every one of them loses other, r_i, d_i and t_i when encoded."
 },
 "C43": {
  "status": "partial",
  "note": "Proved in full for symmetric, EC2 and OKP keys and for public and two-prime RSA keys. Multi-prime RSA keys do not round trip (c42_refuted). Optional parameters range over registered common parameters and foreign integer, text or byte-string labels with CBOR values (Spec.PlainOptional)."
 },
 "C48": {
  "note": "Proved in full. c48_none_iff and c48_lax record what the helper does with strings that are not base64: length 1 mod 4 gives None, other characters are ignored."
 },
 "C49": {
  "status": "partial",
  "note": "Encoding and injectivity are proved, and contexts of recipients have key length 16, 24 or 32. The clause about SuppPubInfo objects is false of the code: c49_constructor_unchecked. c49_empty_protected records a deviation from RFC 8152."
 },
 "C50": {
  "status": "partial",
  "note": "Proved for the six SHA hash algorithms. False of the code for SHAKE: c50_shake_fails proves that every such call raises TypeError."
 },
 "C60": {
  "status": "partial",
  "note": "Proved for two or more certificates. False of the code for one certificate: c60_single_not_validated, c60_single_fails."
 },
 "C55": {
  "status": "proved",
  "note": "c55_shared_list and c55_appended_signer record consequences: a signer shared by two messages covers the last one only, and a signer added with list.append has no message and cannot sign."
 },
 "C53": {
  "status": "partial",
  "note": "Decoding and re-encoding without recomputing keeps the content for Sign1, Enc0 and Enc with direct recipients or none, for all unprotected headers including those with COSE keys (Spec.PlainHeader, plainHeader_received: integer and text labels, and key labels as in C74). SignMessage has no encode without signing. Refuted in general: Mac0 drops the tag (c53_mac0_refuted); Mac puts the recipients in the place of the tag (c53_mac_direct_refuted) and cannot be encoded when it was received without recipients (c53_mac_none_refuted); Enc wraps the already wrapped key of every AES-KW or RSA-OAEP recipient again (c53_enc_wrapped_refuted); Sign1 with an empty signature (c53_sign1_empty). c53_mac_refuted and c53_enc_refuted are concrete executions. As received, before keys have been set for them, no COSE_Encrypt or COSE_Mac message with a recipient of another class than direct encryption can be encoded again (c53_enc_untouched_refuted, c53_mac_untouched_refuted). The condition on the unprotected header is needed: c53_sign1_key_refuted (a key that spells a parameter in small letters: the message sent on is refused) and c53_sign1_label_refuted (the label 4.0 beside the name KID: the message sent on arrives with another key identifier)."
 },
 "C54": {
  "status": "proved",
  "note": "c54_enc and c54_mac relate two runs that differ in the private values of ephemeral keys, in local_attrs and in external_aad; c54_single and c54_sign cover the other classes and also the key. A private key that the caller puts into a header is sent as it is (c54_static_key_sent)."
 },
 "C61": {
  "status": "proved",
  "note": "For every byte string that decodes. (Recipients that raise ValueError or IndexError are dropped with the whole list; see C35.)"
 },
 "C62": {
  "status": "partial",
  "note": "Proved for AES key wrap, derived keys and generated content keys. False of the code for content keys set by the user: c62_content_refuted (A128GCM and AES_MAC_128_64 with a 32-byte key)."
 },
 "C63": {
  "status": "proved",
  "note": "Optional parameters are assumed to be plain ones (Spec.PlainOptional: common key parameters or unregistered labels, no label of the key type itself). PEM parsing itself is the cryptography package's and is a parameter."
 },
 "C64": {
  "status": "proved",
  "note": "Refinement of a view made of look-up functions, by induction over the history. Dictionaries are values: a caller's later change of an inner list or key object it handed over is not modelled."
 },
 "C65": {
  "status": "proved",
  "note": "Acceptance is an equivalence; the stored tables are given entry by entry. The key-valued headers refer to the acceptance of CoseKey.from_dict (C42, C63)."
 },
 "C66": {
  "status": "proved",
  "note": "One write and any history, against an independent rule-by-rule specification. Witnesses: item assignment is unchecked (c66_item_unchecked), a failing deletion may remove x (c66_failed_deletion)."
 },
 "C67": {
  "status": "partial",
  "note": "Proved for symmetric, EC2 and OKP keys and for all messages. Refuted for RSA keys (the whole private key is in the text) and for the claim that repr never raises (a message without payload raises TypeError)."
 },
 "C68": {
  "status": "partial",
  "note": "Proved for dictionaries whose labels are registered. Refuted otherwise: a received message with the unregistered label \"Algorithm\" shows the value of that label as its algorithm."
 },
 "C69": {
  "status": "proved",
  "note": "Acceptance and every refusal, with its exception, for all readable structures (c69_total shows the list of refusals is complete). Structures that cannot be read may make the code drop all recipients: that is C35."
 },
 "C70": {
  "status": "proved",
  "note": "The relation Spec.Fresh compares every recipient before and after encoding, place by place; c70_enc and c70_mac prove it for the messages, c70_distinct derives that two top-level recipients have different private values when their draws differ."
 },
 "C71": {
  "status": "partial",
  "note": "Proved for direct key agreement: computing the key, encrypting, MACing and decrypting. False of the code for key agreement with key wrap: c71_kakw_ignores_policy and c71_kakw_unwrap_ignores_policy prove that only the private value of the own key matters, c71_kakw_refuted shows an execution in which a signing key wraps a content key."
 },
 "C72": {
  "status": "proved",
  "note": "For calls that return; C80 is about calls that raise. Sign1, Sign and Encrypt0 operations have no effect on their objects in the model and need no theorem."
 },
 "C73": {
  "status": "partial",
  "note": "Proved for the first call, while the recipients have no content key (c73_first_partial). False of the code afterwards: the key stays in the recipients' payload, c73_second proves that every later call for the same recipient objects uses the same key, c73_same_nonce that with an unchanged IV header the AEAD is called twice with the same key and nonce, and c73_refuted gives an execution."
 },
 "C74": {
  "status": "partial",
  "note": "Proved for all received keys whose labels are integers, ASCII texts (parameters of the key type spelled in capital letters) or other labels that name nothing; further primes of an RSA key are dropped (C42). c74_small_letters_refuted: a key with the parameter name 'x' in small letters is accepted with any value, and its encoding is then refused. c74_forwarded_partial: the same for any number of nodes, and the bytes are the same from the first node on."
 },
 "C75": {
  "status": "proved",
  "note": "Signatures and their verification (both directions, iff), AEAD content encryption (both directions for COSE_Encrypt0), AES key wrap and RSAES-OAEP, direct key agreement, key agreement with key wrap, against registry tables written out in Props/Primitives.lean; MAC algorithms in C52 with the tables in Props/Nonce.lean. The primitives themselves are parameters."
 },
 "C76": {
  "status": "partial",
  "note": "Proved for MACs in full and for signatures that are byte strings, assuming that the primitives refuse keys but never signatures (Spec.JudgesAll, Spec.CbcKeyed). False of the code for received signatures that are no byte strings: c76_sign1_type and c76_signer_type prove that these always raise TypeError, c76_refuted is an execution."
 },
 "C77": {
  "status": "proved",
  "note": "Acceptance as an equivalence for all six types (for COSE_Encrypt and COSE_Mac when the recipients can be read, or there is no field for them; what happens otherwise is C35), contents for all six types; the rules for recipients are C69. The conditions on header entries are those of C65 (Spec.EntryArg). The code accepts more than RFC 8152: null headers, additional elements, and no field for recipients. c77_enc_recipient_field and c77_mac_recipient_field: where the recipients are expected, anything but an array, an empty string or a map is refused. c77_enc_recipient_field_exact and c77_mac_recipient_field_exact give the outcome for every field that is no array, except maps whose first label is a non-empty array or map, which are not modelled."
 },
 "C78": {
  "status": "proved",
  "note": "Byte level: out = common ++ array head ++ entries, alone = common ++ 0x81 ++ entry. A recipient to which the caller gave its own content key does influence the others (c78_preset, see C37), hence that hypothesis. For COSE_Mac (c78_mac_split, c78_mac_join, c78_mac_received) that hypothesis is not needed: a tag is only ever computed with direct recipients or one direct key agreement recipient (C82)."
 },
 "C79": {
  "status": "proved",
  "note": "Spec.numbers is written from the RFCs, independently of the model's registries."
 },
 "C80": {
  "status": "partial",
  "note": "Proved for all calls and histories, except that a generated key is announced: an encode() that raises because of an unrelated ephemeral key in the header keeps the generated key, and the next call sends the unrelated header (c80_refuted); c80_announced_partial is for recipients without such a header."
 },
 "C81": {
  "status": "proved",
  "note": "Equivalences. Key objects whose alg or key_ops hold something else than an algorithm and a list are excluded by hypothesis (Spec.PlainPolicy). COSE_Encrypt and COSE_Mac are not covered here; see C75, C78 and C80. c81_refused gives the exceptions of the serialiser."
 },
 "C82": {
  "status": "proved",
  "note": "Equivalences. As in C81, key objects whose alg or key_ops hold something else than an algorithm and a list are excluded by hypothesis (Spec.PlainPolicy). That key-wrapping recipients never work in COSE_Mac is a property of this code, not of the RFC (c82_mac_wrapped; see also C30)."
 },
 "C83": {
  "status": "partial",
  "note": "Proved, except that an attribute with a text label is not found by that label unless the label consists of capitals (c83_text_identifier for all such labels, c83_text_refuted), and that objects of different attributes with one number are equal and exchangeable (c83_confusion_refuted)."
 },
 "C84": {
  "status": "partial",
  "note": "The list is proved complete (c84_message_partial, c84_key_partial, c84_library_partial) and exact (c84_attained), up to the inputs outside the model, which appear as the value unsupported: the tags that cbor2 turns into other Python objects, and a map in place of the recipients whose first label is a non-empty list or map. Python's own recursion limit and memory are not modelled. The documentation of decode() announces only AttributeError, ValueError, KeyError and TypeError: c84_documented_refuted. Truncation and extension are proved in full."
 },
 "C85": {
  "status": "partial",
  "note": "The last sentence fails: c85_shared shows for every program that a message whose first recipient was used before is encrypted with the key of the earlier message, c85_mixed that new recipients listed before a used one are sent a wrong key, c85_refuted is an execution. Proved: c85_fresh_partial (new recipients, repetition allowed), c85_sticky, c85_reused, c85_isolated, and the refinement c85_enc_encode, c85_enc_encrypt, c85_enc_decrypt, c85_mac_encode."
 },
 "C86": {
  "status": "proved",
  "note": "Under the laws of the primitives (Crypto.Laws) and for recipients without a preset content key or with the same one (Spec.OnePreset), as C12 to C14 and C37; the sender's marks and sizes are stated in Spec.KeyFor. c86_direct also records that compute_cek of a direct-encryption recipient takes one argument where the others take two."
 },
 "C87": {
  "status": "proved",
  "note": "Headers and key parameters with nested values, and labels that are texts equal to a name used in the text, are outside the hypotheses; what happens with a missing payload is in C67."
 },
 "C88": {
  "status": "partial",
  "note": "False of the code in two points: the constructors of the recipient classes do not look at the algorithm, so that direct encryption and direct key agreement recipients are written with algorithms of other classes (c88_class_refuted); key agreement with key wrap writes a recipient for ECDH-ES without ephemeral key if the caller has set the key (c88_ephemeral_refuted). All other rules are proved."
 },
 "C89": {
  "status": "proved",
  "note": "The model's table-driven validator is proved equal to the RFC's encoding of scalar values."
 },
 "C90": {
  "status": "proved",
  "note": "Total correctness: the hypotheses concern the caller's arguments and what the cryptographic library does with the key (it signs, tags, seals, wraps); that every step returns is concluded. Each theorem is instantiated on sample objects made by the model's constructors. The theorems with agreement recipients (c90_enc_agreed, c90_mac_agreed) and with any mix of wrapping recipients (c90_enc_mixed) take the conditions of C82 for the agreement and for writing each recipient as hypotheses on the sender's objects."
 },
 "C91": {
  "status": "proved",
  "note": "Spec.Outcome lists the requirements in order with their exceptions; the rest is the result of the primitive. Assumed: keys as the constructors leave them (alg a class, key_ops a list, RSA parameters byte strings), class-valued algorithm headers are algorithms, the protected header can be written (C81)."
 },
 "C92": {
  "status": "proved",
  "note": "Constructors, dictionaries and received byte strings. An EC2 private value given as a list of integers, and an RSA parameter without a length, are proved to be refused without fixing the one exception. Lists in place of dictionaries: c92_list, with the exception in each case."
 },
 "C93": {
  "status": "proved",
  "note": "Spec.Decodes is a specification of decode as a relation; the theorem says it holds of exactly one result, that of decode. A dictionary in the place of the recipient list whose first label is a non-empty list or dictionary is not modelled (unsupported), and CBOR errors are those of the model of cbor2."
 },
 "C94": {
  "status": "proved",
  "note": "Objects are addresses in a heap. c94_dictionaries, c94_never_adopted, c94_frame and c94_apart: ownership. c94_construct, c94_history, c94_raises: the heap model simulates the value model used by all other properties. c94_assigned (deep copy), c94_update_shares, c94_uhdr_update_shares and c94_construct_shares (one-level copy), c94_argument_not_shared, c94_update_not_shared, c94_key. Simplifications: values a parser makes (algorithm, ephemeral/static key) and values decoded from bytes are not separate objects; a key and its store are one object."
 },
 "C95": {
  "status": "partial",
  "note": "The last sentence fails: the default PartyInfo objects are made once per class, so all contexts constructed without party information share them (c95_default_shared for every state, c95_refuted with encodings). c95_default_partial: it holds as long as nothing is assigned to a default object. Everything else is proved."
 },
 "C23": {
  "status": "partial",
  "note": "Aliases and last-wins are proved in full. Idempotence is proved for all header maps whose COSE keys (EphemeralKey, StaticKey) are ones a key constructor makes, in particular for received maps with integer and text labels and key labels as in C74. c23_idempotent_refuted: a header with an OKP key that spells 'x' in small letters is accepted, but its parsed form is refused."
 },
 "C96": {
  "status": "partial",
  "note": "Proved for keys made from optional parameters with serialisable values and for decoded keys with labels as in C74. c96_primes_refuted: the further primes of an RSA key are instance attributes outside of the dictionary and are lost."
 },
 "C97": {
  "status": "partial",
  "note": "Proved for all programs: value and freshness of constructed and copied keys, frame (an operation changes at most its target; a key depends only on its parts), exact effect of a change of a list on every key, copies made by the key_ops setter, and that lists of operations are never shared in histories that do not assign them by item. Refuted, as the code behaves: lists under other parameters are shared (c97_parameter_shared_refuted), changes through key.key_ops are not checked (c97_unchecked_refuted), and they are lost for a key without operations (c97_lost)."
 },
 "C98": {
  "status": "proved",
  "note": "Grammar Spec.Item (RFC 7049 section 2) with Spec.SameNumber for floats and meaning Spec.Means; exactness both ways (c98_item, c98_value). cbor2 itself is not in /repo: this is about the model of it. Tags for dates, fractions and other Python types (Spec.otherTypes) are outside the model."
 },
 "C99": {
  "status": "partial",
  "note": "Proved for every schedule and any number of threads for COSE_Sign1, COSE_Sign, COSE_Encrypt0 and COSE_Mac0, for decrypt of COSE_Encrypt with recipients that give one content key, and for encode of COSE_Encrypt with settled recipients (which they are after one encode). False of the code otherwise: c99_encode_race (first encode of a message with a wrapping recipient by two threads gives undecryptable bytes), c99_decrypt_race (a recipient with another content key gets the plaintext), c99_payload_race (payload assigned during encode). For COSE_Mac, compute_tag, verify_tag and encode with direct recipients are covered (c99_mac_direct), and compute_tag and encode with one direct key agreement recipient (c99_mac_agreement); with a wrapping recipient no call that makes a tag returns (c99_mac_wrapping). For recipients with different content keys c99_decrypt_any says what can happen: each call gives the result one of the calls gives alone. Mixed encrypt, decrypt and encode calls on one COSE_Encrypt message are covered for direct recipients (c99_enc_direct) and refuted for wrapping recipients (c99_mixed_race: either call can raise an illegal key operation exception). verify_tag together with calls that assign an agreed key: c99_mac_agreement_verify if the message has no key yet or the agreed one, refuted by c99_verify_race if it has another key."
 },
 "C22": {
  "note": "Survival is proved for all six message types, and for the headers of every signer and of every recipient (direct, key-wrapping of any kind, direct key agreement): c22_survives_*."
 },
 "C100": {
  "note": "By induction on the number of nodes (Spec.Forwarded), with the theorems of C53 for one node. Same bytes of the protected header, so verification and decryption agree in every outcome, exceptions included. Hypotheses: plain unprotected headers (Spec.PlainHeader, see C53), a signature that is not empty, and direct recipients as they are received. Messages that cannot be forwarded are the refutations of C53: COSE_Mac0, COSE_Mac, COSE_Encrypt with wrapped keys. That the condition on the unprotected header is needed is shown by c53_sign1_key_refuted and c53_sign1_label_refuted."
 },
 "C15": {
  "note": "Byte strings and None as detached payload in Props/Tbs.lean; the code does not check the type, and the c15_any_… theorems (model Verif/Detached.lean) cover every value."
 },
 "C101": {
  "note": "Spec.PayloadHop: decode, assign the payload, encode(sign=False). c101_only_payload says what the next receiver sees, c101_detached and c101_attached compare the verdicts (exceptions included), c101_restored composes detaching, any number of forwarding nodes (Spec.Forwarded of C100) and attaching, and gives equality of bytes with one hop of the original. c101_end_to_end starts from the sender and ends with acceptance. c101_signer is the step for COSE_Sign (verdict of a signer for the changed body; re-encoding of COSE_Sign is C53). Hypotheses as in C100."
 },
 "C102": {
  "note": "Spec.Sign1Relabel and Spec.Enc0Relabel: decode, uhdr = d, encode without protecting again. c102_sign1 and c102_enc0 say what the next receiver sees; c102_sign1_verdict and c102_enc0_decrypt that the outcomes agree when the lookups do; c102_sign1_protected and c102_enc0_protected that a node gains nothing over protected attributes; c102_sign1_unprotected that it chooses an unprotected algorithm. c102_enc0_partial_iv says the same for a protected Partial IV, and c102_enc0_inserted_iv that an IV of the node takes its place. A header value None counts as absent, as in get_attr (C26). New headers are those of Spec.HdrSend (registered with valid values, COSE keys, unknown ones if the receiver allows them)."
 }
}