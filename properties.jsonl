{"id": "C01", "title": "Sign1 to-be-signed bytes are unambiguous", "statement": "The bytes a Sign1Message signs or verifies are the RFC 8152 Sig_structure ['Signature1', protected, external_aad, payload]; two Sign1 messages that sign the same bytes have the same protected header bytes (empty when the header is empty), the same external_aad and the same (attached or detached) payload.", "quantifier": "all pairs of Sign1 messages with any headers, external_aad, attached or detached payload of any length", "why_tests_cant": "injectivity relates every pair of messages of every size; a test can only compare a few", "anchors": ["pycose/messages/sign1message.py:Sign1Message._create_sig_structure", "pycose/messages/cosemessage.py:CoseMessage._base_structure"]}
{"id": "C02", "title": "Domain separation between message types", "statement": "The byte strings authenticated by Sign1, COSE_Sign signers, Mac0, Mac, Encrypt0 and Encrypt are pairwise different, whatever the headers, aad and payloads, so a signature/tag/ciphertext made for one message type never covers the authenticated bytes of another.", "quantifier": "all pairs of messages of two different types, all field values", "why_tests_cant": "a collision could exist for any of infinitely many field values", "anchors": ["pycose/messages/sign1message.py", "pycose/messages/signer.py", "pycose/messages/maccommon.py:_mac_structure", "pycose/messages/enccommon.py:_enc_structure"]}
{"id": "C03", "title": "COSE_Sign signer to-be-signed bytes are unambiguous", "statement": "The bytes a CoseSignature signs determine the message's protected header bytes, the signer's protected header bytes (or that the signer's protected header is empty), the signer's external_aad and the payload.", "quantifier": "all pairs of (message, signer) with any field values", "why_tests_cant": "injectivity over all sizes and header contents", "anchors": ["pycose/messages/signer.py:CoseSignature._create_sig_structure"]}
{"id": "C04", "title": "MACed bytes are unambiguous, including under AES-MAC zero padding", "statement": "The bytes MACed by Mac0/Mac determine context, protected bytes, external_aad and payload, and they still do after the zero padding AES-MAC applies, so no two different messages are fed to the block cipher as the same padded input.", "quantifier": "all pairs of MAC messages, all payload lengths modulo the block size", "why_tests_cant": "padding collisions depend on arbitrary lengths and trailing bytes", "anchors": ["pycose/messages/maccommon.py:MacCommon._mac_structure", "pycose/algorithms.py:_AesMac.compute_tag"]}
{"id": "C05", "title": "AEAD associated data is unambiguous", "statement": "The associated data authenticated by Encrypt0/Encrypt determines the context string, the protected header bytes and the external_aad.", "quantifier": "all pairs of encrypted messages", "why_tests_cant": "injectivity over all sizes", "anchors": ["pycose/messages/enccommon.py:EncCommon._enc_structure"]}
{"id": "C06", "title": "Sign1 round trip verifies", "statement": "If Sign1Message.encode() succeeds, then decoding the produced bytes, setting the matching verification key and the same external_aad (and the same detached payload, if used) makes verify_signature() return True, and the decoded headers and payload are those of the sender.", "quantifier": "every Sign1 message, header contents, payload, aad, algorithm and matching key pair", "why_tests_cant": "must hold for every header/payload/length combination, not for the test vectors", "anchors": ["pycose/messages/sign1message.py:Sign1Message.encode", "pycose/messages/sign1message.py:Sign1Message.from_cose_obj", "pycose/messages/signcommon.py:SignCommon.verify_signature"]}
{"id": "C07", "title": "COSE_Sign round trip verifies for every signer", "statement": "If SignMessage.encode() succeeds with one or more signers, then after decoding, every signer of the decoded message verifies under the matching key and aad.", "quantifier": "every message and every list of signers of any length", "why_tests_cant": "unbounded number of signers and field values", "anchors": ["pycose/messages/signmessage.py:_SignMessage.encode", "pycose/messages/signmessage.py:_SignMessage.from_cose_obj", "pycose/messages/signer.py"]}
{"id": "C08", "title": "Mac0 round trip verifies", "statement": "If Mac0Message.encode() succeeds, decoding the bytes and setting the same key and external_aad makes verify_tag() return True with the sender's payload.", "quantifier": "every Mac0 message, MAC algorithm, key, payload and aad", "why_tests_cant": "all lengths and headers", "anchors": ["pycose/messages/mac0message.py", "pycose/messages/maccommon.py"]}
{"id": "C09", "title": "Encrypt0 round trip decrypts", "statement": "If Enc0Message.encode() succeeds, decoding the bytes and setting the same key and external_aad makes decrypt() return exactly the original payload.", "quantifier": "every Enc0 message, AEAD algorithm, key, IV or partial IV, payload and aad", "why_tests_cant": "all lengths and headers", "anchors": ["pycose/messages/enc0message.py", "pycose/messages/enccommon.py"]}
{"id": "C10", "title": "Mac with direct recipients round trip verifies", "statement": "If MacMessage.encode() succeeds with Direct recipients, decoding and setting the same key and aad makes verify_tag() return True and the recipients are preserved.", "quantifier": "every Mac message and every list of Direct recipients", "why_tests_cant": "unbounded recipient lists and field values", "anchors": ["pycose/messages/macmessage.py", "pycose/messages/recipient.py:DirectEncryption"]}
{"id": "C11", "title": "Encrypt with direct recipients round trip decrypts", "statement": "If EncMessage.encode() succeeds with Direct recipients, decoding, setting the same key and calling decrypt(r) for any decoded recipient r returns the original payload.", "quantifier": "every Enc message and list of Direct recipients, every recipient of it", "why_tests_cant": "unbounded recipient lists and field values", "anchors": ["pycose/messages/encmessage.py", "pycose/messages/recipient.py:DirectEncryption"]}
{"id": "C12", "title": "Encrypt with AES key wrap: every recipient recovers the plaintext", "statement": "If EncMessage.encode() succeeds with AES-KW recipients that all start with an empty payload, then after decoding, setting recipient i's KEK and calling decrypt(recipient i) returns the original payload, for every i; every decoded recipient has the class and the headers of the sender's (with a generated ephemeral key added, if there is one).", "quantifier": "every list of AES-KW recipients of any length and every index", "why_tests_cant": "unbounded recipient lists; CEK sharing bug would show only for particular mixes", "anchors": ["pycose/messages/encmessage.py:EncMessage.encrypt", "pycose/messages/recipient.py:KeyWrap"]}
{"id": "C13", "title": "Encrypt with ECDH + key wrap: recipient recovers the plaintext", "statement": "If EncMessage.encode() succeeds with ECDH-SS/ES + AES-KW recipients, a receiver holding the static receiver private key recovers the payload from the decoded message.", "quantifier": "every message, recipient headers, party information and EC key pairs", "why_tests_cant": "key derivation contexts must agree on both sides for every header content", "anchors": ["pycose/messages/recipient.py:KeyAgreementWithKeyWrap", "pycose/algorithms.py:_EcdhHkdf"]}
{"id": "C14", "title": "Encrypt with direct key agreement: recipient recovers the plaintext", "statement": "If EncMessage.encode() succeeds with an ECDH-SS/ES-HKDF recipient, a receiver holding the static receiver private key recovers the payload from the decoded message.", "quantifier": "every message, recipient headers and EC key pairs", "why_tests_cant": "key derivation contexts must agree on both sides for every header content", "anchors": ["pycose/messages/recipient.py:DirectKeyAgreement", "pycose/messages/encmessage.py"]}
{"id": "C15", "title": "Exactly one of attached and detached payload is signed", "statement": "compute_signature/verify_signature raise CoseException when both an attached and a detached payload are given and when neither is; otherwise the given one is what is authenticated; a detached payload has no influence on the encoded bytes other than through the signature value.", "quantifier": "all messages, all combinations of attached/detached payload", "why_tests_cant": "must hold for all payload values, including empty byte strings", "anchors": ["pycose/messages/sign1message.py:Sign1Message._create_sig_structure", "pycose/messages/signer.py:CoseSignature._create_sig_structure"]}
{"id": "C16", "title": "End-to-end integrity of verified Sign1 messages", "statement": "If, of the signatures available to an attacker, the verification primitive only accepts those over byte strings the key holder signed, and the key holder only signs through COSE_Sign1 messages and COSE_Sign signers, then any received byte string that decodes as COSE_Sign1 and verifies has the protected header (byte for byte unless it is empty), payload and external_aad of one of the signed COSE_Sign1 messages. An empty protected header may arrive in another encoding (h'', h'a0', null) without verification noticing.", "quantifier": "all received byte strings, all sets of signed messages, all sets of available signatures", "why_tests_cant": "quantifies over all attacker-chosen byte strings", "anchors": ["pycose/messages/cosemessage.py:CoseMessage.decode", "pycose/messages/signcommon.py:SignCommon.verify_signature"]}
{"id": "C17", "title": "Received protected header bytes are used verbatim", "statement": "For any received message that decodes, phdr_encoded is exactly the protected byte string received, even if it is not what pycose would emit, re-encoding emits the same bytes, and the authenticated structure uses those bytes whenever the protected header is non-empty.", "quantifier": "all received byte strings", "why_tests_cant": "must hold for every non-canonical encoding an attacker or peer may choose", "anchors": ["pycose/messages/cosebase.py:CoseBase.phdr_encoded", "pycose/messages/cosemessage.py:CoseMessage._base_structure"]}
{"id": "C18", "title": "The protected header sent and signed is the current one", "statement": "After any sequence of header operations (assigning phdr, phdr_update, uhdr changes, payload changes) on a constructed or decoded message, the encoded protected header is the encoding of the current protected header. (In-place mutation of the dict returned by .phdr on a decoded message is the exception.)", "quantifier": "all histories of header operations", "why_tests_cant": "cache staleness depends on the operation history", "anchors": ["pycose/messages/cosebase.py:CoseBase.phdr", "pycose/messages/cosebase.py:CoseBase.phdr_update", "pycose/messages/cosebase.py:CoseBase.phdr_encoded"]}
{"id": "C19", "title": "Decoding dispatches on the CBOR tag and never returns another type", "statement": "CoseMessage.decode returns exactly the message class registered for the outer tag; X.decode never returns a message that is not an X; untagged input raises AttributeError, an unregistered tag KeyError, a tagged non-array TypeError.", "quantifier": "all received byte strings, all expected classes", "why_tests_cant": "all inputs", "anchors": ["pycose/messages/cosemessage.py:CoseMessage.decode"]}
{"id": "C20", "title": "Bytes after the message", "statement": "Bytes following a complete encoded message do not change the result of decode (they are silently ignored), so decode is not injective on byte strings although it is determined by the first data item.", "quantifier": "all encoded messages and all trailing byte strings", "why_tests_cant": "all suffixes", "anchors": ["pycose/messages/cosemessage.py:CoseMessage.decode"]}
{"id": "C21", "title": "CBOR serialisation used by messages and keys is lossless", "statement": "Every header/key/message value that is serialised parses back to the same value, serialisation is injective, and no serialisation is a proper prefix of another.", "quantifier": "all CBOR data items of any size and nesting", "why_tests_cant": "unbounded sizes and nesting", "anchors": ["pycose/messages/cosemessage.py:CoseMessage.encode", "pycose/keys/cosekey.py:CoseKey.encode"]}
{"id": "C22", "title": "Unknown header attributes", "statement": "With allow_unknown_attributes=False, decoding or constructing a message with any unregistered header label raises CoseException; with True every unregistered label is kept with its value unchanged and survives encode/decode.", "quantifier": "all header maps of messages, signers and recipients", "why_tests_cant": "all labels (integers, strings, others)", "anchors": ["pycose/messages/cosebase.py:CoseBase._parse_header", "pycose/utils.py:_CoseAttribute.from_id"]}
{"id": "C23", "title": "Header aliases denote the same attribute", "statement": "Integer identifier, full name in any letter case and attribute class are interchangeable as header labels and as algorithm values; parsing is idempotent; when aliases of one attribute occur together the last value wins.", "quantifier": "all registered attributes, all ASCII case variants, all header maps", "why_tests_cant": "2^n case variants per name and all maps", "anchors": ["pycose/utils.py:_CoseAttribute.from_id", "pycose/messages/cosebase.py:CoseBase._parse_header"]}
{"id": "C24", "title": "Validated header values", "statement": "In any message obtained from a constructor or decode, KID, IV, Partial IV, KID context and countersignature0 are byte strings, Critical is a non-empty list of integers/strings and Content type is a non-negative integer or a string.", "quantifier": "all received byte strings and constructor arguments", "why_tests_cant": "all header values", "anchors": ["pycose/headers.py:is_bstr", "pycose/headers.py:crit_is_array", "pycose/headers.py:content_type_is_uint_or_tstr", "pycose/messages/cosebase.py:CoseBase._parse_header"]}
{"id": "C25", "title": "Algorithms of decoded messages are registered", "statement": "If decode or a constructor succeeds, every scalar Algorithm header value is a registered algorithm class; an unregistered algorithm identifier always raises CoseException, also when unknown attributes are allowed.", "quantifier": "all received byte strings", "why_tests_cant": "all identifiers", "anchors": ["pycose/algorithms.py:Algorithm.value_parser", "pycose/messages/cosebase.py:CoseBase._parse_header"]}
{"id": "C26", "title": "Header lookup", "statement": "get_attr(a) returns the protected value if only the protected header has it, the unprotected value if only that one has it, None if neither, and raises CoseException if both do; with a non-None default it should return the default only when the attribute is absent.", "quantifier": "all header pairs, attributes and defaults", "why_tests_cant": "all header contents", "anchors": ["pycose/messages/cosebase.py:CoseBase.get_attr"]}
{"id": "C27", "title": "Key policy is enforced before every primitive", "statement": "A signature, tag, ciphertext or verification verdict is only ever produced if the message key has the right type, its algorithm (if set) equals the message algorithm and its key_ops (if non-empty) include the operation performed.", "quantifier": "all messages and keys", "why_tests_cant": "all combinations of key parameters and headers", "anchors": ["pycose/keys/cosekey.py:CoseKey.verify", "pycose/messages/signcommon.py", "pycose/messages/maccommon.py", "pycose/messages/enccommon.py"]}
{"id": "C28", "title": "Key policy of key-encryption keys", "statement": "A key whose key_ops forbid wrapping (or whose alg differs) is never used to wrap or unwrap a CEK.", "quantifier": "all KeyWrap recipients and KEKs", "why_tests_cant": "all combinations of key parameters", "anchors": ["pycose/messages/recipient.py:KeyWrap.encrypt", "pycose/messages/recipient.py:KeyWrap._compute_kek"]}
{"id": "C29", "title": "Signature algorithms only operate on keys of their own kind", "statement": "ECDSA algorithms only sign with EC2 keys, EdDSA only with OKP keys on an Edwards curve, RSA algorithms only with RSA keys.", "quantifier": "all algorithm/key combinations", "why_tests_cant": "all keys and algorithms", "anchors": ["pycose/algorithms.py:_Ecdsa.sign", "pycose/algorithms.py:EdDSA.sign", "pycose/messages/signcommon.py:SignCommon._key_verification"]}
{"id": "C30", "title": "Nonces derived from base IV and partial IV", "statement": "The derived nonce is base_iv XOR left-zero-padded partial IV with the length of the base IV (RFC 8152 3.1), and different partial IVs of the same length give different nonces under the same key.", "quantifier": "all base IVs and partial IVs", "why_tests_cant": "nonce collisions or length errors only appear for particular byte patterns", "anchors": ["pycose/messages/enccommon.py:EncCommon._get_nonce"]}
{"id": "C31", "title": "No encryption without a nonce", "statement": "encrypt/decrypt use the IV header whenever present; otherwise they use base_iv/partial IV; with none of them they raise and never call the cipher.", "quantifier": "all messages and keys", "why_tests_cant": "all header combinations", "anchors": ["pycose/messages/enccommon.py:EncCommon._get_nonce"]}
{"id": "C32", "title": "Recipient structure rules", "statement": "Encrypt/Mac produce output only if: recipients exist, direct encryption is not mixed with another class, direct key agreement has exactly one recipient.", "quantifier": "all recipient lists", "why_tests_cant": "all lists", "anchors": ["pycose/messages/recipient.py:CoseRecipient.verify_recipients", "pycose/messages/encmessage.py:EncMessage.encrypt", "pycose/messages/macmessage.py:MacMessage.compute_tag"]}
{"id": "C33", "title": "Recipient membership", "statement": "decrypt(recipient) is refused for an object that is not among the message's recipients at any nesting level and accepted for one that is.", "quantifier": "all recipient trees", "why_tests_cant": "all trees", "anchors": ["pycose/messages/recipient.py:CoseRecipient.has_recipient", "pycose/messages/encmessage.py:EncMessage.decrypt"]}
{"id": "C34", "title": "Nested recipients", "statement": "Recipients nested inside recipients survive encode/decode and can supply the key-encryption key of their parent.", "quantifier": "all recipient trees", "why_tests_cant": "all trees", "anchors": ["pycose/messages/recipient.py:KeyWrap.from_cose_obj", "pycose/messages/recipient.py:KeyWrap._compute_kek"]}
{"id": "C35", "title": "Decoding never silently drops recipients", "statement": "If decoding a COSE_Encrypt/COSE_Mac message succeeds, the decoded message has one recipient object per recipient structure received, with the same protected bytes and ciphertext.", "quantifier": "all received byte strings", "why_tests_cant": "malformed recipients of every shape", "anchors": ["pycose/messages/encmessage.py:EncMessage.from_cose_obj", "pycose/messages/macmessage.py:MacMessage.from_cose_obj"]}
{"id": "C36", "title": "Assigning recipients replaces them", "statement": "After msg.recipients = rs, msg.recipients lists exactly rs.", "quantifier": "all histories of assignments", "why_tests_cant": "depends on the history", "anchors": ["pycose/messages/encmessage.py:EncMessage.recipients"]}
{"id": "C37", "title": "All recipients get the content encryption key that was used", "statement": "After EncMessage.encrypt() with key-wrap recipients, the payload wrapped for every recipient is the key the message was encrypted with.", "quantifier": "all recipient lists with any mix of preset payloads, all histories of encode calls", "why_tests_cant": "mixes of preset payloads and repeated calls", "anchors": ["pycose/messages/encmessage.py:EncMessage.encrypt"]}
{"id": "C38", "title": "MACing with key-wrap recipients", "statement": "MacMessage.encode() with key wrap or ECDH+key wrap recipients produces a message whose recipients can recover the MAC key.", "quantifier": "all messages with such recipients", "why_tests_cant": "all messages", "anchors": ["pycose/messages/macmessage.py:MacMessage.compute_tag"]}
{"id": "C39", "title": "Symmetric key invariants", "statement": "A SymmetricKey built by any constructor, and any key reached from it by attribute setters, deletions and failing operations, has key type SYMMETRIC and a key value of 16, 24 or 32 bytes.", "quantifier": "all constructor arguments and operation histories", "why_tests_cant": "all histories", "anchors": ["pycose/keys/symmetric.py:SymmetricKey"]}
{"id": "C40", "title": "EC2 key invariants", "statement": "An EC2Key built by any constructor, and any key reached by setters and deletions, has key type EC2, an EC2 curve, and an x coordinate or a private value; if built with d then x and y are those of d.", "quantifier": "all constructor arguments and operation histories", "why_tests_cant": "all histories", "anchors": ["pycose/keys/ec2.py:EC2Key"]}
{"id": "C41", "title": "OKP key invariants", "statement": "An OKPKey built by any constructor, and any key reached by setters and deletions, has key type OKP, an OKP curve and x or d.", "quantifier": "all constructor arguments and operation histories", "why_tests_cant": "all histories", "anchors": ["pycose/keys/okp.py:OKPKey.__delitem__"]}
{"id": "C42", "title": "RSA key classification and serialisation", "statement": "The RSAKey constructor accepts exactly public keys, two-prime private keys and multi-prime private keys; encode/decode preserves all parameters.", "quantifier": "all parameter combinations", "why_tests_cant": "2^12 presence patterns times all values", "anchors": ["pycose/keys/rsa.py:RSAKey"]}
{"id": "C43", "title": "Key serialisation round trip", "statement": "CoseKey.decode(key.encode()) equals key for every symmetric, EC2, OKP and RSA key built by the constructors from serialisable parameters.", "quantifier": "all keys, all optional parameters", "why_tests_cant": "all parameter values and custom attributes", "anchors": ["pycose/keys/cosekey.py:CoseKey.encode", "pycose/keys/cosekey.py:CoseKey.decode"]}
{"id": "C44", "title": "Key class matches key type", "statement": "If CoseKey.from_dict/decode returns a key, its class is the one named by the kty parameter and its stored kty is the matching key type class, whichever alias was used.", "quantifier": "all dictionaries / received byte strings", "why_tests_cant": "all aliases and conflicting duplicates", "anchors": ["pycose/keys/cosekey.py:CoseKey.from_dict", "pycose/keys/ec2.py", "pycose/keys/okp.py", "pycose/keys/rsa.py", "pycose/keys/symmetric.py"]}
{"id": "C45", "title": "key_ops assignment is validated and atomic", "statement": "key.key_ops = ops either stores ops, all permitted for the key type, or raises and leaves the key unchanged; assigning the empty list clears the restriction.", "quantifier": "all keys and lists of operations", "why_tests_cant": "all lists", "anchors": ["pycose/keys/ec2.py:EC2Key.key_ops", "pycose/keys/symmetric.py:SymmetricKey.key_ops", "pycose/keys/cosekey.py:CoseKey.key_ops"]}
{"id": "C46", "title": "kty assignment", "statement": "key.kty = v makes key.kty the key type denoted by v.", "quantifier": "all keys and values", "why_tests_cant": "all values", "anchors": ["pycose/keys/cosekey.py:CoseKey.kty"]}
{"id": "C47", "title": "Integer/byte string conversions of key material", "statement": "to_bstr followed by big-endian decoding is the identity and yields the shortest encoding; fixed-length coordinate encodings are injective.", "quantifier": "all natural numbers", "why_tests_cant": "all magnitudes", "anchors": ["pycose/keys/rsa.py:to_bstr", "pycose/keys/ec2.py:EC2Key._from_cryptography_key"]}
{"id": "C48", "title": "Base64 key helpers", "statement": "CoseKey.base64decode(CoseKey.base64encode(b)) == b for all byte strings, also after URL-safe translation and removal of the padding.", "quantifier": "all byte strings", "why_tests_cant": "all lengths", "anchors": ["pycose/keys/cosekey.py:CoseKey.base64decode", "pycose/keys/cosekey.py:CoseKey.base64encode"]}
{"id": "C49", "title": "KDF context encoding", "statement": "The encoded COSE_KDF_Context determines algorithm, party information, key length, protected header encoding and supplementary information; a SuppPubInfo only exists with key length 16, 24 or 32.", "quantifier": "all contexts", "why_tests_cant": "all field values", "anchors": ["pycose/messages/context.py"]}
{"id": "C50", "title": "Certificate thumbprints", "statement": "X5T.from_certificate(alg, c).matches(c) is True; matches is True only when the digest of the given certificate equals the stored thumbprint; encode/decode of X5T is the identity for registered hash algorithms. Two thumbprints are equal exactly if algorithm and bytes are, so a received thumbprint equals the one made from a certificate exactly if it matches it. A certificate URI is read back as given.", "quantifier": "all certificates and hash algorithms", "why_tests_cant": "all inputs", "anchors": ["pycose/extensions/x509.py:X5T"]}
{"id": "C51", "title": "Registries are unambiguous", "statement": "Within each registry (headers, algorithms, key parameters per key type, key operations, key types, curves) no two classes share an identifier or a full name and no full name is a lower-case variant of another, so from_id inverts identifier and fullname.", "quantifier": "all registered classes", "why_tests_cant": "finite table, but relied on by every parse", "anchors": ["pycose/utils.py:_CoseAttribute.register_attribute", "pycose/algorithms.py", "pycose/headers.py", "pycose/keys/keyparam.py"]}
{"id": "C52", "title": "MAC verification accepts only the full tag", "statement": "verify_tag() is True iff the transported tag is byte-for-byte the tag computed for the message; tags have exactly the algorithm's length; truncated, extended, empty or non-bytes tags are rejected.", "quantifier": "all messages, tags and keys", "why_tests_cant": "all tags", "anchors": ["pycose/algorithms.py:_HMAC", "pycose/algorithms.py:_AesMac", "pycose/messages/maccommon.py:MacCommon.verify_tag"]}
{"id": "C53", "title": "Re-encoding without re-protecting", "statement": "encode(sign=False)/encode(mac=False)/encode(encrypt=False) of a decoded message reproduces a message that decodes to the same content.", "quantifier": "all received messages", "why_tests_cant": "all messages", "anchors": ["pycose/messages/sign1message.py:Sign1Message.encode", "pycose/messages/mac0message.py:Mac0Message.encode", "pycose/messages/macmessage.py:MacMessage.encode", "pycose/messages/enc0message.py:Enc0Message.encode"]}
{"id": "C54", "title": "Private key material is not put on the wire", "statement": "The encoding of a message never depends on the private part of an automatically generated ephemeral key except through the derived secrets, never on local_attrs other than through them, and never on external_aad except through the cryptographic output.", "quantifier": "all messages, keys and local attributes", "why_tests_cant": "non-interference over all values", "anchors": ["pycose/messages/recipient.py:CoseRecipient._setup_ephemeral_key", "pycose/messages/cosebase.py:CoseBase.local_attrs"]}
{"id": "C55", "title": "A signer signs the message it is attached to", "statement": "After msg.signers = [s, ...], each s signs and verifies over msg's protected header and payload as they are at that time, and a signer assigned to another message afterwards covers that other message.", "quantifier": "all histories of assignments", "why_tests_cant": "depends on the history", "anchors": ["pycose/messages/signmessage.py:_SignMessage.signers", "pycose/messages/signer.py"]}
{"id": "C56", "title": "Unprotected headers are not authenticated, aad is not transmitted", "statement": "Changing the unprotected header never changes the authenticated bytes; changing external_aad always changes them.", "quantifier": "all messages and header changes", "why_tests_cant": "all values", "anchors": ["pycose/messages/cosemessage.py:CoseMessage._base_structure"]}
{"id": "C57", "title": "End-to-end integrity of verified COSE_Sign signers", "statement": "Under the same assumptions as C16, if a byte string decodes as COSE_Sign and one of its signers verifies, then the body's protected header, the signer's protected header, the payload and the signer's external_aad are those of one signature the key holder made as a signer of a COSE_Sign message.", "quantifier": "all received byte strings, all positions of the signer, all sets of signed messages", "why_tests_cant": "quantifies over all attacker-chosen byte strings", "anchors": ["pycose/messages/signer.py:CoseSignature._create_sig_structure", "pycose/messages/signmessage.py:SignMessage.from_cose_obj"]}
{"id": "C58", "title": "End-to-end integrity of verified MAC messages", "statement": "If, of the tags available to an attacker, the key only accepts those over byte strings that were MACed (up to zero padding to the AES block size), and the key is only used through COSE_Mac0 and COSE_Mac, then a byte string that decodes and verifies has the message type, protected header, payload and external_aad of one of the MACed messages.", "quantifier": "all received byte strings, all sets of MACed messages", "why_tests_cant": "quantifies over all attacker-chosen byte strings", "anchors": ["pycose/messages/maccommon.py:MacCommon.verify_tag", "pycose/algorithms.py:_AesMac"]}
{"id": "C59", "title": "End-to-end integrity of decrypted messages", "statement": "If, of the ciphertexts available to an attacker, the content key only decrypts what was encrypted with the same associated data, and the key is only used through COSE_Encrypt0 and COSE_Encrypt, then what decrypt() returns for a decoded byte string is the payload of a message of that type that was encrypted with this protected header and external_aad, whatever recipient the content key comes from.", "quantifier": "all received byte strings, all recipients, all sets of encrypted messages", "why_tests_cant": "quantifies over all attacker-chosen byte strings", "anchors": ["pycose/messages/enccommon.py:EncCommon.decrypt", "pycose/messages/encmessage.py:EncMessage.decrypt"]}
{"id": "C60", "title": "Certificate chains", "statement": "X5Chain(certs, verify=True) succeeds exactly when the validator accepts the first certificate as end-entity certificate with the remaining ones, in order, as intermediates; X5Chain and X5Bag encode a list of one certificate as the bare certificate and every other list as itself.", "quantifier": "all lists of certificates and all validators", "why_tests_cant": "all list lengths and all validator behaviours", "anchors": ["pycose/extensions/x509.py:X5Chain", "pycose/extensions/x509.py:X5Bag"]}
{"id": "C61", "title": "Received recipients obey the rules of their class", "statement": "Every recipient of a decoded COSE_Encrypt or COSE_Mac message has an algorithm (from the protected header, else from the unprotected one), and its class is the one RFC 8152 assigns to that algorithm. A direct-encryption recipient has an empty ciphertext, and for Direct an empty protected header; a key-wrap recipient has a non-empty ciphertext, and for AES key wrap an empty protected header; an ECDH-ES direct key agreement recipient has an ephemeral key; a key agreement with key wrap recipient has a non-empty ciphertext.", "quantifier": "all received byte strings and all recipients in them", "why_tests_cant": "quantifies over all byte strings an attacker can send", "anchors": ["pycose/messages/recipient.py:CoseRecipient.create_recipient", "pycose/messages/recipient.py:DirectEncryption.from_cose_obj", "pycose/messages/recipient.py:KeyWrap.from_cose_obj", "pycose/messages/recipient.py:DirectKeyAgreement.from_cose_obj", "pycose/messages/recipient.py:KeyAgreementWithKeyWrap.from_cose_obj"]}
{"id": "C62", "title": "Keys have the length their algorithm requires", "statement": "AES key wrap (of a key-wrap recipient, and of key agreement with key wrap) only succeeds with a key-encryption key of exactly the length of the algorithm; content keys that the library generates or derives have exactly the length of the content algorithm; content algorithms are only used with a key of their length.", "quantifier": "all messages, recipients and keys", "why_tests_cant": "quantifies over all keys and all recipient structures", "anchors": ["pycose/algorithms.py:_AesKw.key_wrap", "pycose/algorithms.py:_AesKw.key_unwrap", "pycose/messages/encmessage.py:EncMessage.encrypt", "pycose/messages/recipient.py:DirectKeyAgreement.compute_cek", "pycose/algorithms.py:_AesGcm"]}
{"id": "C63", "title": "Imported and generated keys hold exactly the numbers of the external key", "statement": "A COSE key imported from a key object or PEM file of the cryptography package, or generated by generate_key, has the key type and curve of the external key and exactly its numbers: EC coordinates and private value as big-endian strings of exactly the field length, OKP keys as the raw bytes, RSA numbers in their shortest form; a public key gets no private parameter; importing is the same as calling the constructor with those values and the optional parameters; curves without COSE identifier, numbers too long for the curve and other key types are refused; generated symmetric keys hold the fresh random bytes and have 16, 24 or 32 bytes.", "quantifier": "all external keys, curves, numbers and optional parameters", "why_tests_cant": "leading zeros of coordinates, all curves, all numbers and all optional parameter dictionaries", "anchors": ["pycose/keys/cosekey.py:CoseKey._from_cryptography_key", "pycose/keys/cosekey.py:CoseKey.from_pem_private_key", "pycose/keys/cosekey.py:CoseKey.from_pem_public_key", "pycose/keys/ec2.py:EC2Key._from_cryptography_key", "pycose/keys/okp.py:OKPKey._from_cryptography_key", "pycose/keys/rsa.py:RSAKey._from_cryptography_key", "pycose/keys/rsa.py:to_bstr", "pycose/keys/symmetric.py:SymmetricKey.generate_key"]}
{"id": "C64", "title": "A message object shows exactly what the accepted writes put there", "statement": "After any sequence of assignments to phdr, uhdr, payload, external_aad, key and local_attrs, calls of phdr_update and uhdr_update and item assignments and deletions on phdr, the object shows exactly the values of the accepted writes: a later value replaces an earlier one for the same label and nothing else changes; a write with an argument of the wrong type raises TypeError (CoseInvalidKey for a key) and changes nothing. phdr_encoded is the received encoding as long as phdr was neither assigned nor updated, and the encoding of the current protected header otherwise.", "quantifier": "all message objects, all sequences of writes and arguments", "why_tests_cant": "all histories of writes, including refused ones in between", "anchors": ["pycose/messages/cosebase.py:CoseBase.phdr", "pycose/messages/cosebase.py:CoseBase.uhdr", "pycose/messages/cosebase.py:CoseBase.phdr_update", "pycose/messages/cosebase.py:CoseBase.uhdr_update", "pycose/messages/cosebase.py:CoseBase.local_attrs", "pycose/messages/cosebase.py:CoseBase.phdr_encoded", "pycose/messages/cosemessage.py:CoseMessage.external_aad", "pycose/messages/cosemessage.py:CoseMessage.key", "pycose/messages/cosemessage.py:CoseMessage.payload"]}
{"id": "C65", "title": "A constructor accepts exactly well-formed arguments and stores them", "statement": "A message constructor accepts its arguments exactly when the protected header is absent, a dictionary, or encoded bytes of a dictionary (not both forms), the unprotected header is absent or a dictionary, every label is registered (by identifier, by name in any letter case, by class) or unknown labels are allowed, every value of a registered label is of the kind that label requires, the payload is bytes or None and the external data is bytes. The object then holds, for each label, the last entry given for it in parsed form, and payload, external data and key as given; giving both header forms raises ValueError, other wrong forms TypeError.", "quantifier": "all arguments of the constructors", "why_tests_cant": "all dictionaries, labels in all spellings, all values", "anchors": ["pycose/messages/cosebase.py:CoseBase.__init__", "pycose/messages/cosebase.py:CoseBase._parse_header", "pycose/messages/cosemessage.py:CoseMessage.__init__", "pycose/headers.py:content_type_is_uint_or_tstr", "pycose/headers.py:crit_is_array", "pycose/headers.py:is_bstr", "pycose/utils.py:_CoseAttribute.from_id"]}
{"id": "C66", "title": "A key object behaves as a mapping whose labels have many spellings", "statement": "Every label (identifier, name in any letter case, class) addresses exactly one entry of a key. After any sequence of item assignments, item deletions and assignments to alg, kid, base_iv, k, crv and the byte string parameters, a key shows exactly the accepted writes and each write raises exactly the documented exception: an unknown algorithm or curve, a value of the wrong type, a key value of the wrong length, the deletion of a parameter the key type needs. No two entries have equal labels; indexing, membership, iteration and len agree with the entries. (Assignments to kty and key_ops are C45 and C46.)", "quantifier": "all keys, all sequences of writes, all labels and values", "why_tests_cant": "all histories and all spellings of labels, including refused writes in between", "anchors": ["pycose/keys/cosekey.py:CoseKey.__getitem__", "pycose/keys/cosekey.py:CoseKey.__setitem__", "pycose/keys/cosekey.py:CoseKey.__delitem__", "pycose/keys/cosekey.py:CoseKey.__contains__", "pycose/keys/cosekey.py:CoseKey.__iter__", "pycose/keys/cosekey.py:CoseKey.__len__", "pycose/keys/cosekey.py:CoseKey.alg", "pycose/keys/cosekey.py:CoseKey.kid", "pycose/keys/cosekey.py:CoseKey.base_iv", "pycose/keys/ec2.py:EC2Key.__delitem__", "pycose/keys/okp.py:OKPKey.__delitem__", "pycose/keys/symmetric.py:SymmetricKey.__delitem__"]}
{"id": "C67", "title": "The text of an object does not reveal its secrets", "statement": "repr() of a key says of the key value, the private key and the coordinates nothing beyond their length and first five bytes; repr() of a message, signer or recipient does not depend on its key, its external data or the keys inside its headers beyond that, and says of payload, signature and tag only their length and first five bytes. It never raises.", "quantifier": "all keys and all messages, with all headers, recipients and signers at any depth", "why_tests_cant": "non-interference: two runs agree for every pair of objects that differ only in what is hidden", "anchors": ["pycose/keys/cosekey.py:CoseKey._key_repr", "pycose/keys/symmetric.py:SymmetricKey.__repr__", "pycose/keys/ec2.py:EC2Key.__repr__", "pycose/keys/okp.py:OKPKey.__repr__", "pycose/keys/rsa.py:RSAKey.__repr__", "pycose/messages/cosebase.py:CoseBase._hdr_repr", "pycose/utils.py:truncate"]}
{"id": "C68", "title": "The text of a message shows its headers faithfully", "statement": "repr() of a message shows every header exactly once, in the order of the dictionary, under its name and with its value (attributes by name, an IV by its length and first five bytes).", "quantifier": "all header dictionaries", "why_tests_cant": "all dictionaries, with labels and values chosen by the sender", "anchors": ["pycose/messages/cosebase.py:CoseBase._hdr_repr", "pycose/utils.py:truncate"]}
{"id": "C69", "title": "Which received recipients are accepted", "statement": "Decoding a COSE_Encrypt or COSE_Mac message accepts its recipients exactly when every recipient structure can be read and obeys the rules of the class of its algorithm (ciphertext, protected header, ephemeral key, headers not given twice); each becomes an object of its own, in order, of the class of its algorithm and knowing its context. A message in which a readable recipient breaks a rule is refused, with CoseMalformedMessage, CoseException, KeyError or TypeError according to the rule; it is never accepted without that recipient.", "quantifier": "all byte strings, all recipient structures", "why_tests_cant": "all combinations of algorithms, header placements and ciphertexts, in lists of any length", "anchors": ["pycose/messages/recipient.py:CoseRecipient.create_recipient", "pycose/messages/recipient.py:DirectEncryption.from_cose_obj", "pycose/messages/recipient.py:KeyWrap.from_cose_obj", "pycose/messages/recipient.py:DirectKeyAgreement.from_cose_obj", "pycose/messages/recipient.py:KeyAgreementWithKeyWrap.from_cose_obj", "pycose/messages/encmessage.py:EncMessage.from_cose_obj", "pycose/messages/macmessage.py:MacMessage.from_cose_obj"]}
{"id": "C70", "title": "Every generated ephemeral key is drawn for one recipient", "statement": "Encoding an EncMessage or MacMessage gives each key-agreement recipient that has no key, at any nesting depth, a key pair whose private value is drawn for that recipient alone, and publishes the matching public key as its ephemeral key; a recipient that already has a key keeps it and its ephemeral key header. Two recipients therefore never share an ephemeral key unless the generator returned the same number twice.", "quantifier": "all messages, all lists and nestings of recipients, all sequences of random draws", "why_tests_cant": "reuse of an ephemeral key shows only across recipients and depths, and a test sees one random sequence", "anchors": ["pycose/messages/recipient.py:CoseRecipient._setup_ephemeral_key", "pycose/messages/recipient.py:DirectKeyAgreement.encode", "pycose/messages/recipient.py:KeyAgreementWithKeyWrap.encrypt"]}
{"id": "C71", "title": "Key policy of key-agreement keys", "statement": "A key agreement (as sender or receiver) is only carried out when the own key and the peer's key are EC2 keys whose alg is absent or the recipient's algorithm and whose key_ops are absent, empty or contain derive key or derive bits; otherwise an exception is raised before any primitive is called.", "quantifier": "all key-agreement recipients, all own and peer keys, both directions", "why_tests_cant": "all combinations of the parameters of two keys with the header that supplies them", "anchors": ["pycose/messages/recipient.py:DirectKeyAgreement.compute_cek", "pycose/messages/recipient.py:KeyAgreementWithKeyWrap.encrypt", "pycose/messages/recipient.py:KeyAgreementWithKeyWrap.decrypt"]}
{"id": "C72", "title": "What an operation leaves in the message object", "statement": "encrypt(), encode(), decrypt() and compute_tag() change nothing in the message but its key and its tag, and nothing in its recipients, at any depth, but their keys, their ephemeral key header and a content key that was missing. decrypt() does not replace the payload. After compute_tag() or encode() the object verifies its own tag.", "quantifier": "all messages, recipients, keys and random draws for which the call returns", "why_tests_cant": "an unwanted change of one field shows only for the messages in which the field matters later", "anchors": ["pycose/messages/encmessage.py:EncMessage.encrypt", "pycose/messages/encmessage.py:EncMessage.decrypt", "pycose/messages/macmessage.py:MacMessage.compute_tag", "pycose/messages/mac0message.py:Mac0Message.encode"]}
{"id": "C73", "title": "A fresh content key for every encryption", "statement": "Every encryption of an EncMessage for key-wrap recipients uses a content key drawn in that call.", "quantifier": "all messages with key-wrap recipients, all sequences of calls, all random draws", "why_tests_cant": "the reuse of a key shows only across calls and a test sees one random sequence", "anchors": ["pycose/messages/encmessage.py:EncMessage.encrypt"]}
{"id": "C74", "title": "Received keys can be sent on", "statement": "A key read by CoseKey.decode, encoded with encode() and read again is the same key, whatever parameters and labels the received map used; the same holds for a key received in a header of a message.", "quantifier": "all received key maps, all key types, all additional parameters", "why_tests_cant": "all received maps, all spellings of labels and all parameter values", "anchors": ["pycose/keys/cosekey.py:CoseKey.decode", "pycose/keys/cosekey.py:CoseKey.encode", "pycose/keys/cosekey.py:CoseKey.from_dict", "pycose/messages/cosebase.py:CoseBase._custom_cbor_encoder"]}
{"id": "C75", "title": "The algorithm identifier fixes the primitive", "statement": "The value of the algorithm header alone decides which cryptographic primitive runs and with which parameters (curve, hash, padding, mode, key and tag length, key wrap algorithm), as the COSE registry lists them, and the primitive works on the parameters of the key attached to the message, signer or recipient, over the structure RFC 8152 prescribes. Nothing else is computed, and whenever policy, headers and key allow it, this is what is computed.", "quantifier": "all messages, signers and recipients, all registered algorithms, all keys, all payloads and header values, all implementations of the primitives", "why_tests_cant": "all algorithms times all key and header values; a swapped table row or key parameter is seen only with the values it affects", "anchors": ["pycose/algorithms.py", "pycose/messages/signcommon.py:SignCommon", "pycose/messages/enccommon.py:EncCommon", "pycose/messages/recipient.py:KeyWrap", "pycose/messages/recipient.py:KeyAgreementWithKeyWrap", "pycose/messages/recipient.py:DirectKeyAgreement"]}
{"id": "C76", "title": "Verification answers", "statement": "verify_signature() and verify_tag() answer True or False whatever signature or tag the message carries: once a key has given an answer with an algorithm, it gives one for every other message with that algorithm, so that a forged signature can be told from a broken key.", "quantifier": "all keys, all algorithms, all messages, headers, payloads, external data, all values in the place of the signature or tag", "why_tests_cant": "all signature and tag values, including malformed ones", "anchors": ["pycose/messages/signcommon.py:SignCommon.verify_signature", "pycose/messages/maccommon.py:MacCommon.verify_tag", "pycose/algorithms.py:_Ecdsa.verify", "pycose/algorithms.py:_Rsa.verify", "pycose/algorithms.py:EdDSA.verify", "pycose/messages/sign1message.py:Sign1Message.from_cose_obj"]}
{"id": "C77", "title": "Which byte strings are messages, and what they say", "statement": "decode accepts a byte string as a message of some type exactly when it is a CBOR array with the tag of that type, with the elements of that type (further elements are ignored), in which the protected header is a byte string that is empty or encodes a map, or null; the unprotected header is a map or null; all labels and values of both are acceptable; the payload is a byte string or null; and every signature can be read in the same way. The message object then shows exactly the received fields, and nothing else.", "quantifier": "all byte strings, all six message types, all decoding classes, both settings for unknown attributes", "why_tests_cant": "all byte strings", "anchors": ["pycose/messages/cosemessage.py:CoseMessage.decode", "pycose/messages/cosemessage.py:CoseMessage.from_cose_obj", "pycose/messages/sign1message.py:Sign1Message.from_cose_obj", "pycose/messages/signmessage.py:SignMessage.from_cose_obj", "pycose/messages/mac0message.py:Mac0Message.from_cose_obj", "pycose/messages/enc0message.py:Enc0Message.from_cose_obj", "pycose/messages/signer.py:CoseSignature.from_cose_obj"]}
{"id": "C78", "title": "Recipients and signers do not influence each other", "statement": "Encoding a COSE_Encrypt or COSE_Mac message for several recipients, or a COSE_Sign message with several signers, produces a part that does not depend on them, followed by one entry for each; the entry of one recipient or signer is exactly the one that encoding the message for that recipient or signer alone produces with the same random values, its object is left in the same state, and the whole can be encoded when each can be encoded alone. On the receiving side, what a recipient decrypts, the recipient objects and answer of verify_tag of a COSE_Mac message, and what a signer's verification answers, depend on the message and on the recipient's or signer's own entry only: replacing, reordering or removing other entries (as long as the message is still accepted with recipients that are handed the content key) does not change the result.", "quantifier": "all messages, all lists of recipients of every class and nesting (holding no content key of their own when the message is encrypted) and of signers, all headers, keys, random values and primitives; all pairs of received byte strings that differ only in other entries", "why_tests_cant": "Interference between recipients needs particular combinations of classes, orders, ephemeral keys and cached state; tests exercise a handful of recipient lists.", "anchors": ["pycose/messages/encmessage.py:EncMessage.encode", "pycose/messages/encmessage.py:EncMessage.encrypt", "pycose/messages/encmessage.py:EncMessage.decrypt", "pycose/messages/recipient.py:CoseRecipient.create_recipient", "pycose/messages/recipient.py:KeyWrap.encode", "pycose/messages/recipient.py:KeyAgreementWithKeyWrap.encode", "pycose/messages/signmessage.py:_SignMessage.encode", "pycose/messages/macmessage.py:MacMessage.encode", "pycose/messages/macmessage.py:MacMessage.compute_tag"]}
{"id": "C79", "title": "Names and numbers are the registered ones", "statement": "Every header parameter, algorithm, key parameter, key operation, key type and curve is known to the library under the name and the number that RFC 8152, RFC 8230, RFC 8812, RFC 9054, RFC 9360 and the IANA registries give it: number and name, in any letter case, denote the same attribute, on the wire it is the number, and no other attribute is known.", "quantifier": "all ten registries, all registered names in every letter case, all numbers and texts", "why_tests_cant": "all spellings of all names, and the absence of any other name or number", "anchors": ["pycose/headers.py", "pycose/algorithms.py", "pycose/keys/keyparam.py", "pycose/keys/keyops.py", "pycose/keys/keytype.py", "pycose/keys/curves.py", "pycose/utils.py:_CoseAttribute.from_id"]}
{"id": "C80", "title": "What a call that raises leaves behind", "statement": "When encrypt, encode or decrypt raises, the message and its recipients are as before except for keys: the key of the message, content keys of recipients that had none, keys of recipients that had none together with the header that announces them, and a tag, if it is the tag of the message. The call can therefore be repeated after the cause is removed: failed attempts to decrypt change no later result; and when encode finally succeeds, all recipients have the one content key of the message and every header announces the key that was used.", "quantifier": "all messages, recipients at every depth, all exceptions at every point of the call, all histories of failing and succeeding calls and repairs", "why_tests_cant": "every point at which an exception can leave a call, and unbounded histories of attempts", "anchors": ["pycose/messages/encmessage.py:EncMessage.encode", "pycose/messages/encmessage.py:EncMessage.encrypt", "pycose/messages/encmessage.py:EncMessage.decrypt", "pycose/messages/macmessage.py:MacMessage.encode", "pycose/messages/mac0message.py:Mac0Message.encode", "pycose/messages/recipient.py:CoseRecipient._setup_ephemeral_key", "pycose/messages/recipient.py:KeyAgreementWithKeyWrap.encrypt"]}
{"id": "C81", "title": "Exactly when something can be encoded", "statement": "A value is serialised exactly if every part of it has a CBOR representation within the limits of CBOR: lengths, counts and tags below 2^64, text that is UTF-8, integers of any practical size (also 2^64 and beyond), registry classes where the callback knows them, key objects only in headers and only with operations that have a length. A message is encoded exactly if its headers and payload can be written, the key may be used for the operation with the algorithm in the header, there is exactly one payload, and the primitive gives a result; for COSE_Sign this must hold for each signer. Nothing else makes encode() fail.", "quantifier": "all values, all COSE_Sign1, COSE_Sign, COSE_Mac0 and COSE_Encrypt0 messages, all keys, all primitives satisfying the laws", "why_tests_cant": "an equivalence over all nested values and all messages; a test shows single successes or failures", "anchors": ["pycose/messages/cosebase.py:CoseBase._custom_cbor_encoder", "pycose/messages/cosebase.py:CoseBase.phdr_encoded", "pycose/messages/sign1message.py:Sign1Message.encode", "pycose/messages/signmessage.py:_SignMessage.encode", "pycose/messages/mac0message.py:Mac0Message.encode", "pycose/messages/enc0message.py:Enc0Message.encode", "pycose/keys/cosekey.py:CoseKey.encode"]}
{"id": "C82", "title": "Exactly when keys are wrapped and messages with recipients are processed", "statement": "A recipient wraps a key exactly if the key and its policy allow it, the protected header is empty where the algorithm requires that, and the primitive gives a result; what it returns is exactly what the primitive returns. It unwraps under the matching condition, and ECDH recipients agree on a key exactly if the key pair can be paired and the context can be built. verify_signature and verify_tag return exactly what the primitive says about the bytes to be protected, and raise only for a key that may not be used or an input that cannot be written. COSE_Encrypt and COSE_Mac messages with direct, key-wrapping or agreeing recipients are encoded exactly if head, payload and every recipient can be written, every recipient can wrap the one content key, and the content primitive gives a result. A COSE_Mac with a key-wrapping recipient is never encoded.", "quantifier": "all messages, recipients, keys, headers and random choices; all primitives satisfying the laws", "why_tests_cant": "equivalences over all messages and recipient lists; a test shows single successes or failures", "anchors": ["pycose/messages/recipient.py:KeyWrap.encrypt", "pycose/messages/recipient.py:KeyAgreementWithKeyWrap.encrypt", "pycose/messages/recipient.py:KeyAgreementWithKeyWrap.decrypt", "pycose/messages/recipient.py:DirectKeyAgreement.compute_cek", "pycose/messages/encmessage.py:EncMessage.encode", "pycose/messages/encmessage.py:EncMessage.decrypt", "pycose/messages/macmessage.py:MacMessage.encode", "pycose/messages/macmessage.py:MacMessage.verify_tag", "pycose/messages/sign1message.py:Sign1Message.verify_signature"]}
{"id": "C83", "title": "Registering further attributes and classes", "statement": "register_attribute, record_cbor_tag, record_rc and record_kty behave like maps: after any history of registrations, the number, the name in any letter case, the class and an object of the class of a registered attribute denote the class registered last under that number or name; registrations touch nothing else, in particular no other registry and none of the attributes of the package unless they reuse its number or name. A registry that is filled from another one knows what the other one knows at that time, and otherwise what it knew before. After the import exactly the numbers and names of RFC 8152 and its extensions are known. Attribute objects are equal and ordered like their identifiers.", "quantifier": "all histories of registrations, all registries, all ways to denote an attribute, all attribute objects", "why_tests_cant": "quantifies over arbitrary sequences of registrations by user code", "anchors": ["pycose/utils.py:_CoseAttribute.register_attribute", "pycose/utils.py:_CoseAttribute.from_id", "pycose/utils.py:_CoseAttribute.__eq__", "pycose/messages/cosemessage.py:CoseMessage.record_cbor_tag", "pycose/messages/recipient.py:CoseRecipient.record_rc", "pycose/keys/cosekey.py:CoseKey.record_kty", "pycose/keys/keyparam.py:EC2KeyParam"]}
{"id": "C84", "title": "What decoding untrusted bytes raises, and where they may be cut", "statement": "CoseMessage.decode() and CoseKey.decode() of any bytes either return or raise one of a fixed list of exceptions (those of the CBOR decoder, of the header and key parsers, and what the elliptic curve library raises for a bad point); each of the list is raised for some bytes, and no other. Bytes that are accepted have a length n such that every shorter prefix raises EOFError and every longer one gives the same message or key.", "quantifier": "all byte strings, all classes decode() is called on, both settings of allow_unknown_attributes, all behaviours of the elliptic curve library", "why_tests_cant": "the input is arbitrary bytes of arbitrary nesting and length; fuzzing cannot exclude a further exception", "anchors": ["pycose/messages/cosemessage.py:CoseMessage.decode", "pycose/messages/cosebase.py:CoseBase.__init__", "pycose/messages/recipient.py:CoseRecipient.create_recipient", "pycose/messages/signmessage.py:SignMessage.from_cose_obj", "pycose/keys/cosekey.py:CoseKey.decode", "pycose/keys/cosekey.py:CoseKey.from_dict", "pycose/keys/ec2.py:EC2Key.__init__"]}
{"id": "C85", "title": "Recipient objects shared between messages", "statement": "In a program with any number of messages and recipient objects, encrypting a COSE_Encrypt message for recipients that have no content key yet uses a key drawn for this message, also if recipients are listed more than once; calls on one message change neither other messages nor recipients it does not list; and a message that lists no recipient twice behaves as if it owned its recipients. A recipient that is also used in another message does not make two messages share a content key.", "quantifier": "all programs (sequences of changes of recipients, messages and lists, and of encrypt/encode/decrypt calls that return or raise), all recipients, lists with and without repetition, all random draws", "why_tests_cant": "sharing of objects between any number of messages over arbitrary call sequences", "anchors": ["pycose/messages/encmessage.py:EncMessage.encrypt", "pycose/messages/encmessage.py:EncMessage.encode", "pycose/messages/encmessage.py:EncMessage.recipients", "pycose/messages/macmessage.py:MacMessage.encode", "pycose/messages/cosebase.py:CoseBase.uhdr_encoded", "pycose/messages/recipient.py:KeyWrap.encrypt"]}
{"id": "C86", "title": "Sender and receiver compute the same content key", "statement": "After encrypt() or encode(), compute_cek(alg, \"encrypt\") of every recipient of a COSE_Encrypt message that carries a wrapped key returns the key the message was encrypted with; compute_cek(alg, \"decrypt\") of the decoded recipient, for every receiver who can unwrap, returns a key with the same bytes and algorithm, and this is the key decrypt() uses. With direct key agreement (COSE_Encrypt and COSE_Mac) both sides compute an equal key object. Wrapped keys are marked for encryption only on the sender's side and for decryption only on the receiver's. A recipient without a content key returns None; a direct-encryption recipient never returns a key.", "quantifier": "all messages, headers, external aad, payloads, all lists of key-wrap, RSA-OAEP and ECDH recipients with valid keys, every receiver, all random draws", "why_tests_cant": "any number and mix of recipients with arbitrary keys, parameters and drawn content keys", "anchors": ["pycose/messages/recipient.py:KeyWrap.compute_cek", "pycose/messages/recipient.py:KeyAgreementWithKeyWrap.compute_cek", "pycose/messages/recipient.py:DirectKeyAgreement.compute_cek", "pycose/messages/recipient.py:DirectEncryption.compute_cek", "pycose/messages/encmessage.py:EncMessage.encrypt", "pycose/messages/encmessage.py:EncMessage.decrypt"]}
{"id": "C87", "title": "Text of keys and messages", "statement": "repr() of a key lists every parameter exactly once, in the order of the parameter numbers, with unregistered parameters after them in their own order; labels, algorithms, curves, types and key operations appear by name, and of the key value, private key and coordinates only the first five bytes and the length appear. repr() of a message lists protected header, unprotected header, start of payload, then the start of tag or signature, the recipients (recursively) and the signers, in this order. Distinct registered attributes have distinct names.", "quantifier": "all keys of the four classes and all messages of the six classes whose parameters and headers are registered, numbered or textual labels with simple values, any number and nesting of recipients and signers", "why_tests_cant": "arbitrary sets and orders of parameters and arbitrarily nested recipients", "anchors": ["pycose/keys/cosekey.py:CoseKey._key_repr", "pycose/keys/ec2.py:EC2Key.__repr__", "pycose/keys/okp.py:OKPKey.__repr__", "pycose/keys/symmetric.py:SymmetricKey.__repr__", "pycose/messages/cosebase.py:CoseBase._hdr_repr", "pycose/messages/macmessage.py:MacMessage.__repr__", "pycose/utils.py:truncate"]}
{"id": "C88", "title": "Recipients that are written obey the rules of their class", "statement": "Every recipient that encode() writes, at any depth, has three elements (protected header, unprotected header, ciphertext) and a fourth one exactly if it has recipients inside, and obeys RFC 8152, section 12: it has an algorithm, one of its class; direct encryption has an empty ciphertext, no recipients inside, and with the algorithm Direct no protected header; key wrap has no protected header; direct key agreement has an empty ciphertext and at most one recipient inside; the ephemeral-static algorithms come with an ephemeral key. Whatever breaks a rule is refused with an exception.", "quantifier": "all recipients of all classes with all headers, keys and recipients inside, all messages, all randomness", "why_tests_cant": "all combinations of class, algorithm, headers, keys and nesting", "anchors": ["pycose/messages/recipient.py:DirectEncryption.encode", "pycose/messages/recipient.py:KeyWrap.encode", "pycose/messages/recipient.py:DirectKeyAgreement.encode", "pycose/messages/recipient.py:KeyAgreementWithKeyWrap.encode"]}
{"id": "C89", "title": "Text is UTF-8", "statement": "A text is a sequence of Unicode scalar values in UTF-8 (RFC 3629): a text of a header, a key or a party name can be written exactly if it is that, a text item on the wire is read exactly if it is that (otherwise decoding fails with CBORDecodeValueError), so every text in whatever was received, at any depth, is valid. Printing a message or key shortens texts by characters, never inside a character, and the printed length counts characters.", "quantifier": "all byte strings, all sequences of code points, all received inputs", "why_tests_cant": "all byte sequences, including truncated, overlong and surrogate encodings", "anchors": ["pycose/messages/cosebase.py:CoseBase", "pycose/messages/cosemessage.py:CoseMessage.decode", "pycose/utils.py:truncate", "pycose/keys/cosekey.py:CoseKey.encode"]}
{"id": "C90", "title": "Ordinary use succeeds from end to end", "statement": "A message made by a constructor from plain header dictionaries, with a suitable algorithm, key, payload and (for encryption) IV, is encoded, decoded, and verified or decrypted to its payload, and no step raises. This holds for Sign1 (payload in the message or detached), Sign with any number of signers, Mac0, Encrypt0, Mac and Encrypt with Direct recipients, Mac and Encrypt with a direct key agreement recipient (ECDH-ES or ECDH-SS with HKDF), and Encrypt with any mix of recipients that wrap the content key (AES key wrap, RSAES-OAEP, ECDH with key wrap), each of whom decrypts with its own key.", "quantifier": "all header dictionaries with plain values that fit CBOR, payloads, external aad, keys the library accepts, numbers of signers and recipients, and whether unknown attributes are allowed by the receiver", "why_tests_cant": "all headers, payloads, keys and numbers of participants; the round-trip properties only say what happens if encoding succeeds", "anchors": ["pycose/messages/sign1message.py:Sign1Message", "pycose/messages/signmessage.py:SignMessage", "pycose/messages/mac0message.py:Mac0Message", "pycose/messages/macmessage.py:MacMessage", "pycose/messages/enc0message.py:Enc0Message", "pycose/messages/encmessage.py:EncMessage", "pycose/messages/recipient.py:KeyWrap", "pycose/messages/cosemessage.py:CoseMessage.decode"]}
{"id": "C91", "title": "A refused operation raises the exception of the first requirement that is not met", "statement": "Signing, verifying, computing and checking a tag, encrypting and decrypting have an ordered list of requirements, each with one exception class: the algorithm header is not given twice (CoseException), a key is set (CoseException; AttributeError when decrypting without IV), the key is of the right class (CoseException), the message names an algorithm if the key does (AttributeError) and it is the key's (CoseIllegalAlgorithm), the key permits the operation (CoseIllegalKeyOps), the algorithm offers the operation (AttributeError), the nonce can be formed (CoseException, TypeError), the payload is given once (CoseException; ValueError for MACs, TypeError for encryption), the key has the material the algorithm needs (CoseInvalidKey, TypeError, ValueError, AttributeError). The first requirement that is not met decides the exception; if all are met the result is that of the cryptographic primitive. The same holds for wrapping, unwrapping and agreeing on keys with recipients, and for messages with recipients.", "quantifier": "all messages, signers and recipients with ordinary keys and headers that can be written, all keys, all algorithms, all implementations of the primitives", "why_tests_cant": "a test exercises single defects one at a time; the order in which several defects are noticed, and that no other exception escapes, concerns all combinations of headers, keys and payloads", "anchors": ["pycose/messages/signcommon.py: SignCommon.compute_signature, verify_signature, _key_verification", "pycose/messages/maccommon.py: MacCommon.compute_tag, verify_tag", "pycose/messages/enccommon.py: EncCommon.encrypt, decrypt, _get_nonce", "pycose/keys/cosekey.py: CoseKey.verify", "pycose/messages/cosebase.py: CoseBase.get_attr", "pycose/algorithms.py", "pycose/messages/recipient.py", "pycose/messages/encmessage.py: EncMessage.encrypt, decrypt", "pycose/messages/macmessage.py: MacMessage.compute_tag"]}
{"id": "C92", "title": "Which arguments, dictionaries and byte strings make a key, what it holds, and which exception refuses the others", "statement": "Each key constructor has an ordered list of requirements with one exception class each, and the first that is not met decides. Optional parameters: each label is known (or unknown labels are allowed) and key type, algorithm, key operations and curve values are registered (CoseException); the last key type given is that of the class (CoseIllegalKeyType); the last key_ops is a list (TypeError). Symmetric: not empty (CoseInvalidKey), bytes (ValueError), 16, 24 or 32 bytes (CoseInvalidKey). EC2 and OKP: a curve is given (CoseInvalidKey), registered (CoseException), a single one (AttributeError), of the key type (CoseUnsupportedCurve); enough key material (CoseInvalidKey); given coordinates are those of the private value (AssertionError); all parameters are bytes (TypeError). RSA: one of the three admissible combinations (CoseInvalidKey), then the optional parameters, then bytes (TypeError). If all are met the key holds exactly the last value given for each optional parameter, without an empty key_ops, and its own parameters. CoseKey.from_dict takes the value of each parameter under class, identifier or exact name and calls the constructor of the key type with the rest as optional parameters; no key type is CoseIllegalKeyType, an unknown one KeyError, an unhashable one TypeError. CoseKey.decode does the same for the dictionary a byte string encodes.", "quantifier": "all argument values, all optional dictionaries (labels that are Python classes must be key parameters), all dictionaries and byte strings, all implementations of the curves", "why_tests_cant": "there are infinitely many dictionaries, spellings and combinations of faults; a test fixes one, and cannot tell which of several faults is reported for all of them", "anchors": ["pycose/keys/cosekey.py: CoseKey.from_dict, decode, _extract_from_dict, _remove_from_dict, __init__", "pycose/keys/symmetric.py: SymmetricKey.__init__, from_dict", "pycose/keys/ec2.py: EC2Key.__init__, from_dict", "pycose/keys/okp.py: OKPKey.__init__, from_dict", "pycose/keys/rsa.py: RSAKey.__init__, from_dict"]}
{"id": "C93", "title": "Which received byte strings are messages, what they decode to, and which exception refuses the others", "statement": "decode is determined by an ordered list of requirements, each with one exception class, and the first that is not met decides. The bytes are CBOR (ValueError for malformed values, otherwise the CBOR library's exception); a tag (AttributeError) around a list (TypeError) with the tag of a message class (KeyError). The list starts with at least two elements (IndexError), the first a byte string or null (TypeError) that holds CBOR data, a dictionary (TypeError); the second a dictionary or null (TypeError). The entries of the protected and then of the unprotected header are read in order: an unknown label where none is allowed and a value that is no algorithm are a CoseException, a value of the wrong form a ValueError, a refused key raises what C92 says. A third element (IndexError) is a byte string or null (TypeError). A tag or signature follows (IndexError); the signatures of COSE_Sign are a list (TypeError; AttributeError for non-empty strings and dictionaries) of lists (KeyError, AttributeError) of the same form. Recipients are read in order, each with its kind decided by its algorithm (CoseException, TypeError, KeyError) and the form its kind demands (CoseMalformedMessage); IndexError and ValueError while reading them mean that the message has none. Last, the message is an instance of the class decode was called on (TypeError). If all are met, the message holds exactly what was read.", "quantifier": "all byte strings, all classes decode can be called on, unknown attributes allowed or not", "why_tests_cant": "the inputs are all byte strings, with nested structures of any size, and the order of the checks matters for every combination of faults", "anchors": ["pycose/messages/cosemessage.py:CoseMessage.decode", "pycose/messages/cosemessage.py:CoseMessage.from_cose_obj", "pycose/messages/cosebase.py:CoseBase._parse_header", "pycose/messages/signmessage.py:SignMessage.from_cose_obj", "pycose/messages/encmessage.py:EncMessage.from_cose_obj", "pycose/messages/macmessage.py:MacMessage.from_cose_obj", "pycose/messages/recipient.py:CoseRecipient.create_recipient"]}
{"id": "C94", "title": "Messages own their header dictionaries; what is copied, what is shared, and who sees a change", "statement": "The protected header, the unprotected header and the local attributes of a message are three dictionaries of its own: no dictionary belongs to two messages, and no dictionary of the program ever becomes a message's, whatever it is passed to. No call changes its arguments: an operation changes in place only the header it updates. Constructors and setters called with objects do what they do with the values of these objects and raise the same exceptions, and a message shows, after any history of operations on any number of messages, what the writes on it give on values, as long as nobody changes in place an object it refers to. Assigning msg.phdr or msg.uhdr makes a deep copy: later changes of the dictionary or of anything in it do not show. The constructors and phdr_update/uhdr_update copy the dictionary but share its entries: a list in a header is the program's list, and its later changes show in the message; changes of the dictionary itself do not. msg.key keeps the key object itself: later changes of the key show in every message that has it.", "quantifier": "all programs: any number of messages, dictionaries, lists and keys, in any nesting and with any sharing, and any sequence of constructions, assignments, updates and changes in place (for the statements about values: programs that do not store a message's own header dictionary in another object)", "why_tests_cant": "Aliasing bugs appear only for particular combinations of sharing and later changes; a test fixes one such combination, the property quantifies over all object graphs and histories.", "anchors": ["pycose/messages/cosebase.py: CoseBase.__init__, phdr, uhdr, phdr_update, uhdr_update, local_attrs, _parse_header", "pycose/messages/cosemessage.py: CoseMessage.__init__, key, payload, external_aad"]}
{"id": "C95", "title": "KDF contexts: what is shared and who sees a change", "statement": "A KDF context shows and encodes the current values of its parts. Assigning an attribute of a party, of the supplementary information or of the context changes exactly the contexts that refer to this object, and a program that changes no part of a context leaves its encoding as it is. The context returned by recipient.get_kdf_context() has parts of its own, except for the recipient's protected header dictionary, whose changes it follows. Key lengths stay 16, 24 or 32 bytes if they were constructed so. A context constructed without party information has empty party information of its own.", "quantifier": "all programs that create, share and change party information, supplementary information, header dictionaries and contexts in any order", "why_tests_cant": "sharing shows only in some histories; the claim is about every history and every pair of contexts", "anchors": ["pycose/messages/context.py:PartyInfo", "pycose/messages/context.py:SuppPubInfo", "pycose/messages/context.py:CoseKDFContext", "pycose/messages/recipient.py:CoseRecipient.get_kdf_context"]}
{"id": "C96", "title": "Making a key from a key", "statement": "CoseKey.from_dict applied to a key object (as the header parser does when a parsed header map is parsed again) returns a key of the same class with the same parameters and values in the same order.", "quantifier": "all keys made by the constructors of the four key types or decoded from bytes", "why_tests_cant": "infinitely many keys: any combination of optional parameters, unknown labels and values", "anchors": ["pycose/keys/cosekey.py:CoseKey.from_dict", "pycose/keys/cosekey.py:CoseKey._extract_from_dict", "pycose/keys/cosekey.py:CoseKey._remove_from_dict"]}
{"id": "C97", "title": "Keys own their store and their list of operations", "statement": "Constructing a COSE key from optional parameters, or by from_dict from a dictionary or another key, leaves the arguments (dictionaries, lists, keys) as they are and returns a new key with the value computed from their current contents; its list of key operations is a new list, so that later changes of the arguments do not change what the key may be used for. Assigning key_ops stores a copy of the list. A write on a key changes no other key, and a key changes only when one of its own parts is changed. key.key_ops is the key's own list, never that of another key, unless the program itself assigned a list with key[KpKeyOps] or through key.store. It does not hold that lists under other parameters are copied (they are shared by the dictionary and all keys made from it), that changes through key.key_ops are checked like assignments, or that they have an effect for a key without operations (they are lost).", "quantifier": "all programs (sequences of constructions, from_dict, reads of key_ops, assignments, deletions and changes of lists and dictionaries), all dictionaries, lists, keys and labels, all crypto primitives", "why_tests_cant": "Aliasing bugs show only after particular histories of later changes of objects that were passed as arguments or returned; the claim is about all histories.", "anchors": ["pycose/keys/cosekey.py: CoseKey.from_dict, __init__, key_ops, __setitem__", "pycose/keys/symmetric.py: SymmetricKey", "pycose/keys/ec2.py: EC2Key", "pycose/keys/okp.py: OKPKey", "pycose/keys/rsa.py: RSAKey", "pycose/utils.py: _CoseAttribute.from_id"]}
{"id": "C98", "title": "Any CBOR encoding of a message or key is read, and as what it denotes", "statement": "CoseMessage.decode (and the decode of each message class) and CoseKey.decode read a data item from the received bytes exactly if the bytes begin with one of its encodings by RFC 7049: heads of any width, definite or indefinite lengths, strings in parts, half, single and double precision numbers. Two encodings of one item are the same message or key, or are refused alike; a protected header in another encoding has the same attributes and only its bytes, which are kept, differ. Maps become dictionaries in which the last of equal keys wins, big numbers become integers, a self-description tag disappears. Bytes denote at most one item; what the library writes is an encoding of what it was given; bytes that begin with no encoding are refused, and an encoding that is cut short anywhere raises CBORDecodeEOF.", "quantifier": "all byte strings, all data items of any size and depth and all their encodings, all decoders", "why_tests_cant": "an item has unboundedly many encodings (widths, parts, indefinite lengths at every level), and exactness speaks of all byte strings", "anchors": ["pycose/messages/cosemessage.py:CoseMessage.decode", "pycose/keys/cosekey.py:CoseKey.decode", "pycose/messages/cosebase.py:CoseBase.__init__", "pycose/messages/recipient.py:CoseRecipient.create_recipient"]}
{"id": "C99", "title": "Concurrent calls on one message object do not disturb each other", "statement": "Several threads may call the methods of one message object at the same time. However their steps interleave, each call of compute_signature, verify_signature, compute_tag, verify_tag, encrypt, decrypt or encode returns or raises what it would alone, except that verify_tag of a COSE_Mac0 message may see the tag another call has just stored; the message keeps its headers, payload and recipients. For COSE_Encrypt this is so for decrypt calls whose recipients give one content key, and for encode calls once the message has been encoded before. Every call can finish.", "quantifier": "all messages, any number of threads, all arguments, all schedules of their steps", "why_tests_cant": "the number of interleavings is unbounded, and a test run exercises the few that the interpreter happens to choose", "anchors": ["pycose/messages/sign1message.py:Sign1Message.encode", "pycose/messages/signcommon.py:SignCommon.compute_signature", "pycose/messages/mac0message.py:Mac0Message.encode", "pycose/messages/enc0message.py:Enc0Message.encode", "pycose/messages/encmessage.py:EncMessage.encrypt", "pycose/messages/encmessage.py:EncMessage.decrypt", "pycose/messages/signmessage.py:SignMessage.encode"]}
{"id": "C100", "title": "A message can be forwarded any number of times", "statement": "If any number of nodes, one after the other, decode a COSE_Sign1 message with a signature, a COSE_Encrypt0 message or a COSE_Encrypt message with direct recipients and send it on with encode(sign=False) or encode(encrypt=False), then every one of them receives the headers, the payload, the signature and the recipients that were sent, and every verification and decryption has the outcome it would have had at the sender, whatever keys and external data the nodes have set. After the first node the bytes do not change any more, and no node fails to send it on.", "quantifier": "all received messages whose unprotected headers are plain, any number of nodes, all keys, external data and detached payloads set by them", "why_tests_cant": "the number of nodes, the messages and their encodings are unbounded; a test follows one message over a few hops", "anchors": ["pycose/messages/sign1message.py:Sign1Message.encode", "pycose/messages/enc0message.py:Enc0Message.encode", "pycose/messages/encmessage.py:EncMessage.encode", "pycose/messages/cosebase.py:CoseBase.phdr_encoded", "pycose/messages/cosemessage.py:CoseMessage.decode"]}
{"id": "C101", "title": "A payload can be detached or attached after signing", "statement": "If a node decodes a COSE_Sign1 message with a signature, sets its payload to None and sends it on with encode(sign=False), then the next receiver sees the same headers and signature and no payload; verify_signature(p) with the removed payload p has, for every key and external data, the result that verify_signature() would have had on the original message, and verify_signature() without it never returns a result. Conversely, attaching p to a message that came without a payload makes verify_signature() give what verify_signature(p) gave before. Detaching a payload, forwarding the message any number of times and attaching the payload again gives the bytes that forwarding the original message gives. The signers of a COSE_Sign message behave in the same way.", "quantifier": "all received COSE_Sign1 messages with plain unprotected headers and a non-empty signature, all payloads, keys, external data, any number of nodes in between", "why_tests_cant": "messages, payloads, keys and the number of nodes are unbounded, and agreement is claimed for failing verifications and exceptions as well", "anchors": ["pycose/messages/cosemessage.py:CoseMessage.payload", "pycose/messages/sign1message.py:Sign1Message.encode", "pycose/messages/signcommon.py:SignCommon.verify_signature", "pycose/messages/sign1message.py:Sign1Message._create_sig_structure", "pycose/messages/signer.py:CoseSignature._create_sig_structure"]}
{"id": "C102", "title": "Unprotected headers replaced on the way", "statement": "If a node decodes a COSE_Sign1 message with a signature or a COSE_Encrypt0 message, assigns another dictionary to its unprotected header and sends it on with encode(sign=False) or encode(encrypt=False), then the next receiver sees that header, and the protected header with its bytes, the payload or ciphertext and the signature as they were sent. Verification and decryption have the same outcome for every key and external data whenever the algorithm (and IV and Partial IV) are looked up with the same outcome. If the algorithm is in the protected header, then no header of the node makes a signature acceptable that was not: verification has the outcome it has without any unprotected header, or raises CoseException exactly if the new header names an algorithm too; likewise a COSE_Encrypt0 message with protected algorithm and IV decrypts to the plaintext it had before or not at all, and so does one with protected algorithm and Partial IV unless the node puts in an IV: that IV is then the nonce, whatever the Partial IV is. If no algorithm is protected, the receiver uses the one the node put in.", "quantifier": "all received COSE_Sign1 and COSE_Encrypt0 messages, all header dictionaries that can be sent, all keys, external data and payloads", "why_tests_cant": "the headers an intermediary may insert, the messages and keys are unbounded; that none of them makes a forgery acceptable cannot be established by trying some", "anchors": ["pycose/messages/cosebase.py:CoseBase.uhdr", "pycose/messages/cosebase.py:CoseBase.get_attr", "pycose/messages/sign1message.py:Sign1Message.encode", "pycose/messages/enc0message.py:Enc0Message.encode", "pycose/messages/signcommon.py:SignCommon.verify_signature", "pycose/messages/enccommon.py:EncCommon._get_nonce"]}
