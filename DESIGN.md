# Formal model of pycose in Lean 4

The plan of each property was written before its proof. The sections on the model, the trusted base and the findings are kept up to date as the model grows.

## Approach

* Language: Lean 4.33.0 core; no Mathlib module is imported. Theorems are about executable Lean definitions that mirror the Python source function by function; each definition cites the lines it models and says where it simplifies.
* Python values: one inductive type `Val` (None, bool, int, float bits, bytes, text as UTF-8 bytes, list, dict, CBOR tag, attribute class, key object, ...). Exceptions are values of `PyErr`; every modelled function returns `Res a = Except PyErr a`. Dictionaries are insertion-ordered association lists with Python's key equality (`1 == 1.0 == True`).
* CBOR (`cbor2`) is modelled concretely: an encoder, and a decoder that accepts all well-formed encodings, including non-minimal and indefinite lengths, and ignores trailing bytes.
* Cryptographic primitives are fields of a structure `Crypto` (`lean/Verif/Crypto.lean`); theorems hold for every such structure. Laws that a theorem needs (decryption inverts encryption, ...) are the explicit hypothesis `C.Laws`. Security assumptions (C16, C57-C59) are explicit hypotheses about the one key concerned. `toy` is an instance that satisfies all laws (`toy_laws`), so the hypotheses are satisfiable.
* Randomness (`os.urandom`, key generation) is an explicit argument (`Rand`).
* Object identity of recipients is an explicit identifier. Signers, their lists and their messages are a small heap (`SignHeap.lean`), and so are the recipient objects that several messages list (`RcptHeap.lean`).
* Histories (setters, deletions, assignments, failing operations) are lists of operations; properties about them are proved by induction over the list.

## How to read the theorems

* `lean/Verif/Props/*.lean` contain the property theorems, named `cNN_...`, each with a comment that says what it claims. `_partial` marks a theorem that proves only part of its property, `_refuted` a proof that the property (or a clause of it) is false of the code, with a concrete execution or for all inputs.
* Names in the namespace `Cose.Spec` are specification vocabulary. They are defined without the functions of the model (byte formats of RFC 8152 and RFC 8949 in `Spec.lean`, RFC tables in the `Props` files), or they only name states and histories of the model.
* Beside the theorems, `example`s instantiate the hypotheses with concrete messages and keys.
* The other files contain the model and helper lemmas.

## Trusted base

* Lean's kernel. No `sorry`, no axiom of our own, no `native_decide`, no `bv_decide`. `decide +kernel` is evaluated by the kernel.
* Axioms: at most `propext`, `Classical.choice` and `Quot.sound`. [AXIOMS.md](AXIOMS.md) lists them for every theorem of the manifest; `tools/mkaxioms.py` regenerates it.
* That the model says what the Python text says. It was checked by reading; the citations make that repeatable.
* The behaviour of Python and of the libraries, as described in comments of the model:
  * Python: dictionary semantics, `str.upper` on ASCII and the ten non-ASCII characters with an ASCII upper case, `int.from_bytes`/`to_bytes`, evaluation order, attribute look-up errors, `isinstance` on the classes involved. Object identity of header dictionaries, of the lists and dictionaries in them and of keys is modelled for C94 only (`ObjHeap.lean`); everywhere else a message contains its headers and key as values, which `c94_history` justifies for programs that do not change a shared object in place. Not modelled: the identity of other dictionaries and lists (except the lists of signers and of a message's recipients), a key's `store` as an object apart from the key, memory and recursion limits. Threads are modelled for C99 only (`Threads.lean`): every access to an attribute of the message or of its base is a step that other threads may precede; a call of a method of a recipient, the serialisation of a dictionary and a call of a primitive are one step each; keys and headers are not changed by the threads.
  * `cbor2`: RFC 7049 items, heads of minimal length, maps in insertion order, tags 2 and 3 (big integers) and 55799; tags that `cbor2` turns into other objects (dates, fractions, regular expressions, shared and string references, ...: the list `semanticTags` in `Cbor.lean`) give the result `unsupported`, which no theorem counts as success; all other tags are kept as tagged values.
  * `cryptography`, `ecdsa`: only that they are functions of their arguments. `Crypto.Laws` lists the laws: AEAD and key-unwrap inversion, length of wrapped keys, ECDH symmetry, ECDSA/EdDSA/RSA verification of own signatures, OAEP inversion and non-empty ciphertexts, output lengths of HMAC, CBC, hashes and HKDF. The round-trip theorems assume them; structural theorems do not.
  * `certvalidator`: an arbitrary function.

## What is modelled

| Source | Module | Left out or simplified |
|---|---|---|
| `utils.py` | Py, Registry, AttrReg | attributes as header labels and values are classes; attribute objects only in AttrReg |
| `headers.py`, `keys/keyparam.py`, `keyops.py`, `keytype.py`, `curves.py`, class tables of `algorithms.py` | Registry, Crypto | tables complete, in registration order |
| `headers.py` value parsers | Key (`hdrValueParser`), Header | |
| `algorithms.py` methods | Alg, Crypto | primitives abstract |
| `keys/cosekey.py`, `symmetric.py`, `ec2.py`, `okp.py`, `rsa.py` | Key, KeyObj, KeyHeap, KeyImport, Base64, Repr | texts are modelled as trees of labels and values, not as characters |
| `messages/cosebase.py`, `cosemessage.py` | Header, MsgObj, ObjHeap, Multi (`decode`), Repr | arguments of the Python type the signature announces, except where a property is about refusing others |
| `messages/signcommon.py`, `sign1message.py`, `signer.py`, `signmessage.py` | Messages, SignHeap, Repr | nothing |
| `messages/maccommon.py`, `mac0message.py`, `macmessage.py`, `enccommon.py`, `enc0message.py`, `encmessage.py` | Messages, Multi, Repr | nothing |
| `messages/recipient.py` | Recipient, Cek, Raise, RcptHeap, Repr | recipients nested in a recipient are distinct objects |
| `messages/context.py` | Context, CtxHeap, Props/Kdf, Props/CtxHeap | key lengths are natural numbers; the attributes of parties are values |
| `extensions/x509.py` | X509 | validator abstract |
| `exceptions.py` | Py (`PyErr`) | error messages; where evaluating the message itself raises, that is modelled |

Not modelled at all: documentation, packaging, tests, and `if __name__ == '__main__'` blocks.

## Plan per property

* **C01** Sign1 to-be-signed bytes are unambiguous: Model `Sign1._create_sig_structure`; prove it equals a byte-level RFC spec and is injective (via prefix-free CBOR heads).
* **C02** Domain separation between message types: Model all six structures; prove byte strings differ whenever the kinds differ (array length / context text decides).
* **C03** COSE_Sign signer to-be-signed bytes are unambiguous: Model `CoseSignature._create_sig_structure`; injectivity including the omitted empty signer header.
* **C04** MACed bytes are unambiguous, including under AES-MAC zero padding: Model `_mac_structure` and the zero padding loop of AES-MAC; prefix-freeness of CBOR gives injectivity after padding.
* **C05** AEAD associated data is unambiguous: Model `_enc_structure`; injectivity.
* **C06** Sign1 round trip verifies: Model encode/decode/verify of Sign1 end to end over an abstract signature scheme with the correctness law as hypothesis; header re-parsing lemma.
* **C07** COSE_Sign round trip verifies for every signer: Same with induction over the signer list.
* **C08** Mac0 round trip verifies: Same for Mac0 (MAC computed by abstract HMAC/CBC, concrete truncation).
* **C09** Encrypt0 round trip decrypts: Same for Enc0 (AEAD law as hypothesis).
* **C10** Mac with direct recipients round trip verifies: Mac with Direct recipients, induction over recipients.
* **C11** Encrypt with direct recipients round trip decrypts: Enc with Direct recipients, induction over recipients.
* **C12** Encrypt with AES key wrap: every recipient recovers the plaintext: Enc with AES-KW recipients; key-wrap law; induction over recipients showing a shared CEK.
* **C13** Encrypt with ECDH + key wrap: recipient recovers the plaintext: ECDH + KW; ECDH symmetry law; KDF context equality on both sides.
* **C14** Encrypt with direct key agreement: recipient recovers the plaintext: Direct key agreement; ECDH symmetry law.
* **C15** Exactly one of attached and detached payload is signed: Case analysis of `_create_sig_structure`, non-interference of encode. The code does not check the type of a detached payload; `Verif/Detached.lean` models it as any value, `c15_any_…_agrees` shows that the byte-string model is its restriction, and the `…_any_…` theorems of C01, C03, C06, C07 and C15 (`Verif/Props/DetachedAny.lean`) hold for all types.
* **C16** End-to-end integrity of verified Sign1 messages: Combine decode model, C01 injectivity and unforgeability as hypothesis.
* **C17** Received protected header bytes are used verbatim: Model `CoseBase.__init__`/`phdr_encoded`/`_base_structure` over decode.
* **C18** The protected header sent and signed is the current one: Inductive histories over the header operations; counterexample for in-place mutation.
* **C19** Decoding dispatches on the CBOR tag and never returns another type: Model `CoseMessage.decode` completely.
* **C20** Bytes after the message: Suffix lemma for the CBOR decoder.
* **C21** CBOR serialisation used by messages and keys is lossless: Concrete CBOR encoder/decoder; round trip, injectivity, prefix-freeness by mutual induction.
* **C22** Unknown header attributes: Model `from_id`/`_parse_header`. Survival on the wire follows from the round trips of all message types, for the headers of the message and of each signer and recipient.
* **C23** Header aliases denote the same attribute: Model `from_id`; lemma over all ASCII case variants; table checked by kernel computation and lifted.
* **C24** Validated header values: Invariant of `_parse_header`.
* **C25** Algorithms of decoded messages are registered: Invariant of `_parse_header`.
* **C26** Header lookup: Model `get_attr` with its default; law for default None, negation for other defaults.
* **C27** Key policy is enforced before every primitive: Model `CoseKey.verify` and all callers; inversion lemma for each operation.
* **C28** Key policy of key-encryption keys: Model `KeyWrap.encrypt/decrypt`; negation by witness (restrictions of the KEK are ignored).
* **C29** Signature algorithms only operate on keys of their own kind: Model algorithm dispatch; negation by witness plus what does hold.
* **C30** Nonces derived from base IV and partial IV: Model `_get_nonce` over naturals; injectivity, RFC equality exactly when no leading zero is lost, negation witness.
* **C31** No encryption without a nonce: Case analysis of `_get_nonce` and callers.
* **C32** Recipient structure rules: Model `verify_recipients`, `encrypt`, `compute_tag`.
* **C33** Recipient membership: Model recipient trees with object identity; soundness by induction, incompleteness witness, completeness for flat lists.
* **C34** Nested recipients: Negation: nested recipients are not parsed; key derivation from nested recipients always raises.
* **C35** Decoding never silently drops recipients: Negation witness; partial: when recipient parsing raises no ValueError/IndexError nothing is dropped.
* **C36** Assigning recipients replaces them: Negation (assignment appends) plus exact law of the setter over histories.
* **C37** All recipients get the content encryption key that was used: Loop invariant over recipients; negation witness for mixed presets.
* **C38** MACing with key-wrap recipients: Negation: always NameError (or an earlier error).
* **C39** Symmetric key invariants: Invariant over operation histories.
* **C40** EC2 key invariants: Invariant over operation histories.
* **C41** OKP key invariants: Negation witness for deletion; partial invariant for histories without deleting d of a key lacking x.
* **C42** RSA key classification and serialisation: Model the classification; exactness theorem; negation for multi-prime serialisation.
* **C43** Key serialisation round trip: Model encode/from_dict; round trip through the CBOR theorem.
* **C44** Key class matches key type: Inversion of from_dict.
* **C45** key_ops assignment is validated and atomic: Negation witnesses (non-atomic, [] ignored); partial law.
* **C46** kty assignment: Negation witness.
* **C47** Integer/byte string conversions of key material: Arithmetic on base-256 digits by induction.
* **C48** Base64 key helpers: Model base64 and the helper; induction over 3-byte groups.
* **C49** KDF context encoding: Model context.py; injectivity via CBOR; negation for the length validation.
* **C50** Certificate thumbprints: Model X5T (with its equality) and X5U over an abstract hash.
* **C51** Registries are unambiguous: Kernel computation over the tables, lifted to lookup lemmas.
* **C52** MAC verification accepts only the full tag: Model tag computation/verification.
* **C53** Re-encoding without re-protecting: Sign1, Enc0 and Enc with direct recipients positive; negation for every received Mac0, every received Mac with direct recipients or none, and every received Enc with key-wrapping recipients.
* **C54** Private key material is not put on the wire: Non-interference theorems over encode.
* **C55** A signer signs the message it is attached to: Small heap model of signer/message references, histories.
* **C56** Unprotected headers are not authenticated, aad is not transmitted: Non-interference + injectivity.
* **C57** Integrity of COSE_Sign signers: As C16, with the signer structure (C03) instead of the Sign1 structure.
* **C58** Integrity of MAC messages: As C16 with a hypothesis on the MAC; zero padding of AES-MAC is part of the hypothesis (C04).
* **C59** Integrity of decrypted messages: As C16 with a hypothesis on the AEAD; quantifies over all recipients that can supply the content key.
* **C60** Certificate chains: Model x509.py over an arbitrary validator; equivalence by case analysis on the number of certificates.
* **C61** Rules for received recipients: Invariant of `create_recipient`/`from_cose_obj`, lifted over the recipient list by induction.
* **C62** Key lengths: Inversion of `key_wrap`, `compute_cek`, `encrypt`; refutation for content keys given by the user.
* **C63** Imported and generated keys: Model `_from_cryptography_key` of all key classes; equality with a constructor call, values read back with base-256 arithmetic; RSA generation assumes of the package that the modulus has the requested number of bits (`Spec.GeneratesRsa`).
* **C64** Message objects as state machines: Model every setter, the header updates and item operations on `phdr` as writes; induction over the history against an independent finite-map specification.
* **C65** Constructors: Both directions of acceptance from the inversion of the header parser; what is stored is stated entry by entry.
* **C66** Key objects as mappings: A rule system for single writes, shown equivalent to the code (sound and total), lifted to histories by induction.
* **C67** Texts hide secrets: Model `__repr__` as a function to trees (a list comprehension with overwriting, sorting, shortening); define when two objects differ only in what is hidden, by mutual induction; show that their texts are equal.
* **C68** Texts show headers: For registered labels the names are distinct, so that nothing is overwritten; induction over the dictionary.
* **C69** Accepted recipients: Rules for acceptance and for every refusal of a structure, shown sound and total for the code, then lifted to lists by induction and to `decode`.
* **C70** Fresh ephemeral keys: the random source is a function of the place of the recipient in the tree; a relation between the recipients before and after encoding, proved by mutual induction on the tree.
* **C71** Agreement key policy: case analysis of `compute_cek` showing an error independent of the primitives; congruence in the private value and an execution for the classes that do not check.
* **C72** Effects: frame relations on messages and recipient trees, by inversion of each operation and mutual induction on the tree; the tag part by the MAC round trip lemma.
* **C73** Fresh content keys: invariant of the wrapping loop (all recipients hold the key of the message), applied to a second call; an execution refutes the full statement.
* **C74** Received keys can be sent on: a received map has plain optional parameters once the parameters of the key type are taken out of it, so the key is a constructed one and C43's argument applies in every encoding mode; an execution refutes the statement for names in small letters.
* **C75** Algorithms select primitives: each table row of the code against tables written from the registry (`decide` over the finite table, lifted by membership), then inversion of the operations down to the call of the primitive; the converse for signatures and COSE_Encrypt0.
* **C76** Verification answers: inversion to the primitive's call (C75) under the assumption that primitives refuse keys only; the case of other types by computation, with an execution on received bytes.
* **C77** Which byte strings are messages: equivalence between the success of `decode` and a description of the CBOR value, by composing the characterisation of constructors (C65) with the dispatch on tags; contents by the same route.
* **C78** Independence of recipients and signers: the encoding loops are read pointwise (`↔`), the serialisation of a list is the concatenation of those of its elements, and the randomness of recipient `i` is the path-indexed stream shifted to position 0; on the receiving side decoding is pointwise and `decrypt` unfolds to a function of the message and the chosen recipient. For COSE_Mac `compute_tag` is shown to look at the classes of the recipients only.
* **C79** Names and numbers: the tables of the RFCs and the IANA registries are written down independently (`Spec.numbers`); equality with the registries of the code is a finite check per kind, lifted with C51 to all spellings of a name.
* **C80** What a call that raises leaves behind: the methods that change objects are modelled a second time as state transformers that keep the object also when an exception leaves them (`Raise.lean`), and proved to agree with the first model; then the possible changes are found branch by branch, and one content key is an invariant over all histories of failing and succeeding calls. Generated ephemeral keys that do not fit the header: refuted.
* **C81** Exactly when something can be encoded: a specification of the values that CBOR can represent, by structural recursion; `dumps` returns bytes if and only if the value is one of them (mutual induction over the nested values, with the `default=` callbacks and with `big`); from it, equivalences for the structures that are signed and authenticated and for `encode()` of the four single-layer messages, using the equivalences of C75 and C52 for the primitives.
* **C82** Exactly when keys are wrapped and messages with recipients are processed: for each recipient kind, `rcptEncrypt`/`rcptDecrypt` returns exactly what a specification by primitive, key policy and context demands (both directions); for COSE_Sign1, signers, COSE_Mac0 and COSE_Mac the answer of verification is exactly the primitive's; for COSE_Encrypt and COSE_Mac `encode` succeeds if and only if head, payload and each recipient can be written and each recipient can wrap the same key (induction over the recipient list). Proved negative: a COSE_Mac with a key-wrapping recipient is never encoded.
* **C83** Registering further attributes and classes: the registries as state (`AttrReg.lean`), the import as a sequence of registrations; induction over the history of registrations for lookups by number, name, class and object; by evaluation over the tables, the import gives exactly `Spec.numbers`, and `from_id` on it is the function used by the rest of the model; an invariant of all histories (no label twice) for a registry filled from another one; the same for tags, recipient classes and key types; a strict total order for the comparison operators.
* **C84** What decoding untrusted bytes raises: a predicate on results ("raises nothing but …") closed under the monad, carried through the CBOR decoder (by induction on the fuel, which is shown sufficient), the interpretation of items, the header and key parsers and the constructors of messages; witnesses by evaluation for each exception. Truncation: the decoders as readers, where a reader applied to a prefix of what it reads runs out of data and applied to an extension reads the same; by mutual induction on the fuel.
* **C85** Recipient objects shared between messages: a heap of recipient objects, messages with lists of references (`RcptHeap.lean`), methods as state transformers on both, programs as lists of actions. Without repetition in the list a simulation proves that the messages behave as in the model where they own their recipients. Keys: one loop invariant that allows repetition. Histories: an invariant on recipient objects kept by every action, and isolation by disjointness of lists. Freshness of the content key when a recipient object is used again: refuted for all executions.
* **C86** Sender and receiver compute the same content key: the remaining calls of `compute_cek` (`Cek.lean`); the proofs of C12 to C14 also give the key objects of the two sides, and C37 the key in each recipient of the sender.
* **C87** Text of keys and messages: a specification of the text as a tree, written from the parameters (names, numbers, the start of hidden values); the comprehension, insertion sort and in-place shortening of the model are shown to produce it, using that names of registered attributes are distinct; recipients by mutual induction.
* **C88** Recipients that are written: an inductive description of the wire form of a recipient with the rules of RFC 8152, section 12, at every depth, proved by mutual induction over recipient trees from the four `encode` methods; two rules the code does not enforce are refuted by messages that are written and cannot be used.
* **C89** Text is UTF-8: RFC 3629's encoding of scalar values is the specification; the byte-at-a-time validator of the model is proved to accept exactly its image (induction over the text, one case per length), and writing, reading, decoding at any depth and the character functions of the printing code are related to it.
* **C90** Ordinary use succeeds from end to end: `Spec.Made` says that an object came from a constructor with plain headers (fields assigned afterwards are free), `Spec.Fits` that headers and byte strings have CBOR length, `Spec.CanSign`/`CanTag`/`CanSeal` that the library accepts the key. C81/C82 (what can be encoded) give that `encode()` returns, C06–C12 that the receiver succeeds; lemma `made_sendable` connects the constructors with the latter.
* **C91** A refused operation raises the exception of the first requirement that is not met: `Spec.Outcome requirements rest` says that the result is the exception of the first unmet requirement in an ordered table, or `rest` if all are met; the tables (`Spec.signatureUse`, `Spec.tagUse`, `Spec.encryptUse`, …) are written in terms of header values, key attributes and payloads. Proved by walking through each operation, check by check. For recipients (`Spec.wrapUse`, `Spec.unwrapUse`, `Spec.agreedWrapUse`, `Spec.directUse`, …) and messages with recipients (`Spec.KeyedBy`, `Spec.WrapEach`) the tables are chained: `Spec.Then q next` passes an exception of `q` on.
* **C92** Which arguments, dictionaries and byte strings make a key: ordered requirement tables for each constructor (`Spec.optionalUse`, `Spec.curveUse`, `Spec.Ec2Rest`, `Spec.RsaForm`) with the exception of the first unmet one, and the exact table of the key if all are met (`Spec.Holding`, `Spec.MakesKey`). The reading of optional parameters is characterised by induction on the dictionary (`reads_parse`); `from_dict` is proved to be the constructor call on the values found under the three spellings (`Spec.Call`, `Spec.Given`, `Spec.others`).
* **C93** What `decode` does for every byte string: a relational specification (`Spec.Decodes`, from `Spec.Front`, `Spec.HeaderRead`, `Spec.SignersRead`, `Spec.RecipientRead`, `Spec.Content`) built from ordered requirement tables with one exception each. Proved in both directions: `decode` satisfies it (branch by branch, by induction on headers and lists), and it allows one result only (`Single`), so `Spec.Decodes … r ↔ r = decode …`.
* **C94** Who sees a change: header dictionaries, the lists and dictionaries in them and keys become objects with addresses (`ObjHeap.lean`: constructor, setters with `deepcopy`, updates, changes in place). Invariants by induction over programs (no dictionary belongs to two messages; nothing refers to a message's dictionary), a frame lemma for values, and a simulation of the value model of C64/C65.
* **C95** KDF contexts as objects: party information, supplementary information and protected header get addresses (`CtxHeap.lean`), with the two default `PartyInfo` objects of the class in the start state. Invariant (parts exist, unused addresses) and frame by induction over programs; exact effect of each assignment; refutation of "a context constructed without party information has its own" in general and with two encoded contexts.
* **C96** Keys made from keys: `from_dict` on the store of a constructed key; the common part of the store is a fixed point of the parser, and the parameters of the key type are found under their classes. This also gives idempotence of header parsing for key-valued headers (C23) and headers with keys in the constructors (C06, C08, C09).
* **C97** Keys as objects: lists, dictionaries and keys get addresses (`KeyHeap.lean`); the loop of the constructors, `from_dict` with its copy and removals, the `key_ops` setters and the item writes act on addresses, and the values are those of `Key.lean`. Simulation of the loop by `parseAttrs`, invariant (slots exist, stores are not shared), frame and ownership of the lists of operations by induction over programs; refutations with two keys made from one dictionary.
* **C98** Any CBOR encoding is read as what it denotes: An inductive grammar of all encodings of an item (`Spec.Item`, RFC 7049 section 2), floats by sign and magnitude
  (`Spec.SameNumber`), the Python value by `Spec.Means`; completeness by induction on the derivation with explicit fuel, soundness by induction on fuel over the five
  mutually recursive decoders. (Props/Floats, Props/Items.)
* **C99** Calls on one message from several threads: The methods of the five message classes as sequences of steps (`Thr`, `Threads.lean`), where each access to an attribute is a step; an execution is any list of thread numbers. `ThreadLemmas.lean` proves that every thread alone is the method of the other properties (`*_alone`), and a rely/guarantee rule (`safeAll_exec`). `c99_sign1`, `c99_sign`, `c99_enc0`: under every schedule, any number of calls on one message return what they return alone. `c99_mac0`: the same, but `verify_tag` may see the tag that another call has computed. `c99_decrypt_partial`: the same for `decrypt` with recipients that give one content key. `c99_decrypt_any`: with any recipients, what a call of `decrypt` returns or raises, one of the calls returns or raises alone. `c99_encode_partial`: the same for `encode` of a COSE_Encrypt message with settled recipients, and `c99_settled`: they are settled once the message has been encoded. `c99_finishes`: every call can finish. False in general: `c99_encode_race`, `c99_payload_race`, `c99_decrypt_race` give schedules. `c99_mac_direct`: `compute_tag`, `verify_tag` and `encode` of a COSE_Mac message with direct recipients. `c99_mac_agreement`: `compute_tag` and `encode` with one direct key agreement recipient. `c99_mac_wrapping`: with a wrapping recipient no call that makes a tag returns. `c99_enc_direct` (`Props/ThreadsMixed.lean`): `encrypt`, `decrypt` and `encode` mixed on one COSE_Encrypt message with direct recipients. With a wrapping recipient the mix is not safe: `c99_mixed_race`. `c99_mac_agreement_verify`: `verify_tag` together with calls that assign an agreed key, when the message has no key yet or this one. With another key it is not safe: `c99_verify_race` (a verification between the assignments of key and tag returns false, although it returns true before and after).
* **C100** Forwarding: A node decodes and sends on without protecting again; any number of nodes is an inductive relation (`Spec.Forwarded`). Content, outcome of verification and decryption, and the bytes, by induction over the nodes with the one-node theorems of C53 (`Props/Forward.lean`).
* **C101** Payloads detached or attached after signing: a node assigns the payload of a received COSE_Sign1 message and sends it on (`Spec.PayloadHop`). The signed structure takes the payload from the field or from the argument, never both, so the verdicts agree; composed with the forwarding of C100 (`Props/Detach.lean`).
* **C102** Unprotected headers replaced on the way: a node assigns another unprotected header and sends the message on (`Spec.Sign1Relabel`, `Spec.Enc0Relabel`). The authenticated structure does not contain the unprotected header, and `get_attr` refuses an attribute that is in both headers, so only the lookups can differ (`Props/Relabel.lean`; IV and Partial IV in `Props/RelabelIv.lean`).

## Disagreements between the code and what one expects

Each is a theorem about the model (named in brackets where it is a property of the list) or follows from one; the English property keeps the expectation, and its status in the manifest is `partial`.

* `get_attr(a, default)` with a default other than None always raises [C26].
* `kty` assignment stores a key parameter class, so `key.kty` is never a key type afterwards [C46].
* `key_ops` assignment: not atomic, and `[]` does not clear [C45].
* `del` on an OKP key removes `d` of a key that has no `x` [C41]; on an EC2 key, deleting `x` or `y` of a private key deletes both, and can fail half way.
* Assigning `d` to an EC2 key does not check it against the point; a received key that names its private value in lower case is not checked either [C40].
* Private RSA keys with more than two primes lose `other`, `r_i`, `d_i`, `t_i` when encoded [C42].
* The derived nonce (base IV and partial IV) loses leading zero bytes [C30].
* AES key wrap ignores `alg` and `key_ops` of the key-encryption key [C28].
* ECDSA signs with OKP and RSA keys that have a `d`, and always on the curve of the algorithm [C29].
* AEAD and AES-MAC accept content keys of another length than the algorithm's [C62].
* A received recipient whose parsing raises ValueError or IndexError is dropped silently together with all others [C35]; nested recipients are written but never read [C34]; `has_recipient` forgets a match when a later sibling has nested recipients [C33].
* `recipients = rs` appends [C36]; preset, different content keys of recipients are each wrapped as they are [C37].
* `compute_cek` of a direct-encryption recipient takes one argument and that of the other classes two, so code written for all of them raises TypeError [C86].
* COSE_Mac with key-wrap recipients cannot be encoded: `compute_tag` raises NameError (`SymmetricKey` is imported for type checkers only, `macmessage.py:22-23,97`) or an earlier exception; with the HMAC algorithms this is AttributeError, because they have no `get_key_length` [C38].
* In-place changes of the protected header dictionary of a decoded message are not sent [C18].
* The parameters of a key type are looked for under their names in capital letters only, but accepted under any spelling: `{1: 1, -1: 6, -4: d, "x": 5}` is accepted as an OKP key, and its encoding is refused with `TypeError` [C74]. Hence a parsed header map with such a key cannot be parsed again [C23].
* `CoseKey.from_dict(key)` loses the further primes of an RSA key [C96].
* `encode(mac=False)` drops the tag of Mac0 and, for Mac, puts the recipients in its place; `encode(encrypt=False)` of Enc wraps the already wrapped key again; `encode(sign=False)` of an unsigned Sign1 yields an array of three elements [C53].
* The KDF context writes an empty protected header as `h'a0'`, and the length check of `SuppPubInfo` is never run by its constructor (misspelt `__attrs_post__init__`) [C49].
* A list given for a key parameter other than the operations is stored by reference: all keys made from one dictionary, and copies of keys made by `from_dict`, share it [C97].
* `key.key_ops` returns the key's own list, so `key.key_ops.append(x)` adds an operation that the setter would refuse; for a key without operations the append is lost [C97].
* All KDF contexts constructed without party information share one default `PartyInfo` object per party, so that an identity assigned to one of them appears in all others, also in those constructed later [C95].
* SHAKE hash algorithms raise TypeError [C50]; chains of one certificate are not validated, or fail [C60].
* The protected header `h''`, `h'a0'` and null are interchangeable without invalidating a signature [C16, `c16_empty_header_malleable`]; a signer's empty protected header is left out of the Sig_structure [C03].
* Item assignment `key[label] = value` is not validated [C66]; a failing deletion of `y` can remove `x` [C66]; an RSA key lets every parameter be deleted.
* The text of an RSA key contains its private exponent and primes [C67]; the text of a message without payload raises TypeError [C67].
* The texts look for `BASE_IV` and `PARTIAL_IV`, which are no names of attributes, so base IV and partial IV are shown in full; a signer shows class objects where other messages show names [C87].
* A recipient object takes any algorithm: a direct-encryption recipient with the algorithm A128KW is written and refused by every receiver; a recipient for ECDH-ES with key wrap whose key the caller sets is written without the ephemeral key [C88].
* In the text of a message, an unregistered text label that is the name of a header replaces that header [C68]; shortening of `BASE_IV` and `PARTIAL_IV` is keyed on names that do not occur, so that it never happens.
* A header that holds a private key object (StaticKey) is sent with the private value.
* `X5T.matches` is false for every certificate if the thumbprint is empty.
* The KDF context holds the protected header encoded anew, not the bytes received; if it holds a key object, the context cannot be encoded (AttributeError).
* A multi-signer message without signers is encoded and cannot be decoded again.
* A signer that is put in two messages signs the message it was assigned to last; one appended with `msg.signers.append` has no message and cannot sign.
* Key agreement with key wrap does not check `alg`, `key_ops` or the kind of either key [C71].
* The content key of a COSE_Encrypt message with key-wrap recipients is kept in the recipients, so that every later `encode()` of the message, also with another payload, uses it again; with an unchanged IV header the pair of key and nonce repeats [C73].
* `EncMessage.decrypt` returns the plaintext and leaves the ciphertext in `payload` [C72].
* A received key-agreement-with-key-wrap recipient may name algorithms in both headers; a list of algorithms as header value makes the decoding of a recipient raise TypeError [C69].
* Direct key agreement never generates its ephemeral key in time: `encrypt` and `compute_tag` raise AttributeError when the recipient has no key [`c14_no_generated_key`].
* HMAC algorithms have no key length, so that no key for them can be derived or generated.
* A received signature may be of any CBOR type; verifying one that is no byte string raises TypeError [C76].
* A received message may have `null` for its headers and more elements than its type has [C77].
* An `encode()` that raises because the header announces an unrelated ephemeral key has already kept the key it generated: called again, it succeeds, with the unrelated key in the header, and the receiver cannot decrypt [C80].
* SHA-512/256 is computed as SHA-512 cut to 32 bytes, which is another function (FIPS 180-4 gives SHA-512/256 an initial value of its own).
* HKDF never uses the salt header; AES-CCM accepts every nonce length that the primitive accepts, not only the one of the algorithm; a public EC2 key without `y` is always given the odd one.
* `base64decode` returns None for texts whose length is 1 modulo 4 and skips characters outside the alphabet.
* A header dictionary with several labels for one header keeps the last one; `True` is the label 1, and 1.0 too.
* Names are compared in capital letters as Python understands them, so that the text label `kıd` (with a dotless i) of a received header is taken for the key identifier [C51].
* An attribute registered with a text label is looked up under the label in capitals, so that a label with small letters, as it appears in messages, is not recognised [C83]. Objects of attributes are compared by number only, and comparing one with anything that is not an attribute, also None, raises AttributeError [C83].
* A COSE_Encrypt or COSE_Mac message with a dictionary in place of its recipients, whose first label is an empty byte string or text, is accepted and has no recipients: the `IndexError` is taken for a missing list [C93].
* `CoseKey.from_dict` of a list that contains `1` takes the second element of the list for the key type; the list is refused in the end, with one of five exceptions [C92].
* `decode()` announces AttributeError, ValueError, KeyError and TypeError. It also raises EOFError for every message that is cut short, CoseException and its subclasses for unknown labels and bad keys in headers, IndexError for a missing element and AssertionError for a header key whose public coordinates do not belong to its private value [C84].
* A recipient object that has been used in one COSE_Encrypt message keeps the content key. Listed first in another message, it makes that message use the same key; listed after new recipients, it makes the message use the old key while the new recipients are sent a key with which the message cannot be decrypted [C85].
* Two threads that encode one new COSE_Encrypt message with a wrapping recipient can both find `r.payload == b''` (`encmessage.py:91`), and one of them returns bytes that the recipient cannot decrypt. `encode` of a message whose payload is assigned by another thread can return one payload with the signature of the other. `decrypt` with a recipient that does not carry the content key can return the plaintext, when another thread's key is assigned to the message in between (`encmessage.py:118-121`). `encode` and `decrypt` of one message by two threads can each raise `COSEIllegalKeyOps`, although both return alone: each assigns a key to the message that permits only its own operation (`encmessage.py:96,118`, `recipient.py:326`). `verify_tag` can return false on a COSE_Mac message that verifies before and after another thread's `compute_tag`, which assigns the agreed key first and the tag later (`macmessage.py:85-86`, `maccommon.py:58`) [C99].
* A received message can be one that does not survive being sent on unchanged: with the labels `"KID"` and `4.0` in its unprotected header it arrives with the value of `4.0` as key identifier, because `from_id` (`utils.py:30`) only recognises integers and the dictionary that is encoded then holds 4 and 4.0; with a COSE key whose parameters are named in small letters it is refused [C53, C74].
* RFC 8152 (3.1) forbids IV and Partial IV in one message. `_get_nonce` (`enccommon.py:81-92`) takes the IV and does not look at the Partial IV, so that anyone on the way can replace the nonce of a message with protected Partial IV by an unprotected IV [C102].

## Wrong programs

`seeded/LOG.jsonl` lists edits of the model that a realistic bug would make. Each was applied in a scratch copy and everything that imports the edited module was elaborated again; `first_failures` are the declarations that no longer check, `theorems_failed` the property theorems that do not check or rest on a declaration that does not. Where a wrong program was not noticed by the theorems of the property it violates, the theorems that were tightened or added are listed.

Correction to this log. For a part of the entries (the ids with a field `rechecked`) all modules were first elaborated as one concatenated file. There a module sees `simp` lemmas of modules that it does not import, and some proofs fail for this reason alone. No unedited control was run, so these failures were recorded as if the edit had caused them. The affected edits have been repeated with every module elaborated against its own imports, and only after an unedited control had no failures. `"rechecked": "clean"` marks an entry with the repeated result. `"outcome": "survived"` marks an edit that no theorem of its properties noticed in its last run; the note of the entry says why. `e13` and `e22` had been recorded as noticed: they are equivalent to the code.
