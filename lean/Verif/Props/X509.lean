import Verif.X509
import Verif.Props.Samples
import Verif.CborPy
/-!
# X.509 header values (C50, C60)
-/
set_option autoImplicit false
namespace Cose

/-! ### Specification -/

/-- The digest named by a COSE hash algorithm identifier (RFC 9054 table 1 and 2), without SHAKE. -/
def Spec.digest (C : Crypto) (ident : Int) (m : Bytes) : Option Bytes :=
  if ident = -14 then some (C.hash .sha1 m)
  else if ident = -15 then some ((C.hash .sha256 m).take 8)
  else if ident = -16 then some (C.hash .sha256 m)
  else if ident = -17 then some ((C.hash .sha512 m).take 32)
  else if ident = -43 then some (C.hash .sha384 m)
  else if ident = -44 then some (C.hash .sha512 m)
  else none

/-- The certificate that is meant: the bytes given, or the byte string they encode in CBOR. -/
def Spec.Certificate (given : Bytes) (cborEncoded : Bool) (cert : Bytes) : Prop :=
  if cborEncoded then loads given = .ok (.bytes cert) else cert = given

/-! ### Lemmas -/

theorem digest_length {C : Crypto} (L : C.Laws) {i : Int} {m d : Bytes} (h : Spec.digest C i m = some d) : d ≠ [] := by
  have hl := fun hh => L.hash_length hh m
  rintro rfl
  have hz : ∀ (x : Bytes) (n : Nat), x.length ≠ 0 → x.take (n + 1) ≠ [] := by
    intro x n hx; cases x with
    | nil => exact absurd rfl hx
    | cons a t => simp
  have hn : ∀ hh, hh.size ≠ 0 → C.hash hh m ≠ [] := by
    intro hh h1 h2
    have := hl hh; rw [h2] at this; exact h1 this.symm
  have ht : ∀ hh n, hh.size ≠ 0 → (C.hash hh m).take (n + 1) ≠ [] := fun hh n h1 => hz _ _ (by rw [hl]; exact h1)
  unfold Spec.digest at h
  split at h
  · exact hn .sha1 (by decide) (Option.some.inj h)
  · split at h
    · exact ht .sha256 7 (by decide) (Option.some.inj h)
    · split at h
      · exact hn .sha256 (by decide) (Option.some.inj h)
      · split at h
        · exact ht .sha512 31 (by decide) (Option.some.inj h)
        · split at h
          · exact hn .sha384 (by decide) (Option.some.inj h)
          · split at h
            · exact hn .sha512 (by decide) (Option.some.inj h)
            · cases h

/-- The rows of hash algorithms. -/
def hashRow (p : Int × AlgFam) : Bool :=
  match p.2 with
  | .hash h t => decide ((p.1, h, t) ∈ ([(-45, .shake256, none), (-44, .sha512, none), (-43, .sha384, none), (-18, .shake128, none),
      (-17, .sha512, some 32), (-16, .sha256, none), (-15, .sha256, some 8), (-14, .sha1, none)] : List (Int × HashId × Option Nat)))
  | _ => true

theorem hashRows : ∀ p ∈ algTable, hashRow p = true := by decide

theorem computeHash_iff {C : Crypto} {alg : Val} {m d : Bytes} :
    computeHash C alg m = .ok d ↔ ∃ i, alg = algCls i ∧ Spec.digest C i m = some d := by
  constructor
  · intro h
    unfold computeHash at h
    split at h
    · rename_i hh t e
      unfold algFam at e
      split at e
      · rename_i c
        split at e
        · rename_i hc
          simp only [Option.map_eq_some_iff] at e
          obtain ⟨p, hp, e⟩ := e
          have hm := List.mem_of_find?_eq_some hp
          have hi := List.find?_some hp
          simp only [beq_iff_eq] at hi
          refine ⟨c.ident, by cases c; cases hc; rfl, ?_⟩
          have := hashRows p hm
          rw [hashRow, e] at this
          simp only [decide_eq_true_eq, List.mem_cons, List.not_mem_nil, or_false, Prod.mk.injEq] at this
          rw [← hi]
          rcases this with ⟨h1, rfl, rfl⟩ | ⟨h1, rfl, rfl⟩ | ⟨h1, rfl, rfl⟩ | ⟨h1, rfl, rfl⟩ | ⟨h1, rfl, rfl⟩ | ⟨h1, rfl, rfl⟩ |
            ⟨h1, rfl, rfl⟩ | ⟨h1, rfl, rfl⟩ <;> rw [h1] <;> simp at h <;> simp [Spec.digest, h]
        · cases e
      · cases e
    · cases h
  · rintro ⟨i, rfl, h⟩
    unfold Spec.digest at h
    split at h
    · subst i; simpa [computeHash, algFam, algTable] using h
    · split at h
      · subst i; simpa [computeHash, algFam, algTable] using h
      · split at h
        · subst i; simpa [computeHash, algFam, algTable] using h
        · split at h
          · subst i; simpa [computeHash, algFam, algTable] using h
          · split at h
            · subst i; simpa [computeHash, algFam, algTable] using h
            · split at h
              · subst i; simpa [computeHash, algFam, algTable] using h
              · cases h

theorem certBytes_iff {given : Bytes} {e : Bool} {cert : Bytes} :
    certBytes given e = .ok (.bytes cert) ↔ Spec.Certificate given e cert := by
  cases e <;> simp [certBytes, Spec.Certificate, eq_comm]

theorem computeHashVal_ok {C : Crypto} {alg x : Val} {d : Bytes} (h : computeHashVal C alg x = .ok d) :
    ∃ m, x = .bytes m ∧ computeHash C alg m = .ok d := by
  unfold computeHashVal at h
  split at h
  · exact ⟨_, rfl, h⟩
  · split at h <;> cases h

/-! ### C50 -/

/-- C50: the thumbprint made from a certificate names the algorithm and is the digest of the certificate. -/
theorem c50_from_certificate {C : Crypto} {alg : Val} {given : Bytes} {e : Bool} {t : X5T} :
    X5T.fromCertificate C alg given e = .ok t ↔
      ∃ cert i d, Spec.Certificate given e cert ∧ alg = algCls i ∧ Spec.digest C i cert = some d ∧ t = ⟨algCls i, .bytes d⟩ := by
  simp only [X5T.fromCertificate, bind_eq_ok, Except.ok.injEq]
  constructor
  · rintro ⟨c, hc, d, hd, rfl⟩
    obtain ⟨m, rfl, hm⟩ := computeHashVal_ok hd
    obtain ⟨i, rfl, hi⟩ := computeHash_iff.mp hm
    exact ⟨m, i, d, certBytes_iff.mp hc, rfl, hi, rfl⟩
  · rintro ⟨cert, i, d, hc, rfl, hd, rfl⟩
    exact ⟨_, certBytes_iff.mpr hc, d, computeHash_iff.mpr ⟨i, rfl, hd⟩, rfl⟩

/-- C50: `matches` says yes exactly for the certificates whose digest is the (non-empty) stored thumbprint. -/
theorem c50_matches_iff {C : Crypto} {t : X5T} {given : Bytes} {e : Bool} :
    t.matchesCert C given e = .ok true ↔
      ∃ cert i d, Spec.Certificate given e cert ∧ t.alg = algCls i ∧ Spec.digest C i cert = some d ∧ t.thumbprint = .bytes d ∧ d ≠ [] := by
  unfold X5T.matchesCert
  constructor
  · intro h
    split at h
    · rename_i ht
      simp only [bind_eq_ok, Except.ok.injEq, decide_eq_true_eq] at h
      obtain ⟨c, hc, d, hd, e⟩ := h
      obtain ⟨m, rfl, hm⟩ := computeHashVal_ok hd
      obtain ⟨i, hi, hd⟩ := computeHash_iff.mp hm
      refine ⟨m, i, d, certBytes_iff.mp hc, hi, hd, e, ?_⟩
      rintro rfl
      rw [e] at ht
      simp [truthy] at ht
    · cases h
  · rintro ⟨cert, i, d, hc, hi, hd, ht, hne⟩
    have htr : truthy t.thumbprint = true := by
      rw [ht]; cases d with
      | nil => exact absurd rfl hne
      | cons a r => rfl
    rw [if_pos htr, certBytes_iff.mpr hc]
    have : computeHashVal C t.alg (.bytes cert) = .ok d := computeHash_iff.mpr ⟨i, hi, hd⟩
    simp only [ok_bind, this, ht, decide_true]

/-- C50: a thumbprint matches the certificate it was made from, given either raw or in CBOR. -/
theorem c50_matches_own {C : Crypto} (L : C.Laws) {alg : Val} {given given' cert : Bytes} {e e' : Bool} {t : X5T}
    (h : X5T.fromCertificate C alg given e = .ok t) (hc : Spec.Certificate given e cert) (hc' : Spec.Certificate given' e' cert) :
    t.matchesCert C given' e' = .ok true := by
  obtain ⟨cert2, i, d, h1, _, h3, rfl⟩ := c50_from_certificate.mp h
  have : cert2 = cert := by
    have a := certBytes_iff.mpr h1
    rw [certBytes_iff.mpr hc] at a
    simpa using a.symm
  subst this
  exact c50_matches_iff.mpr ⟨_, i, d, hc', rfl, h3, rfl, digest_length L h3⟩

/-- C50: the thumbprint of another certificate matches only if the digests collide. -/
theorem c50_matches_other {C : Crypto} {alg : Val} {given given' : Bytes} {e e' : Bool} {t : X5T}
    (h : X5T.fromCertificate C alg given e = .ok t) (hm : t.matchesCert C given' e' = .ok true) :
    ∃ cert cert' i d, Spec.Certificate given e cert ∧ Spec.Certificate given' e' cert' ∧ alg = algCls i ∧
      Spec.digest C i cert = some d ∧ Spec.digest C i cert' = some d := by
  obtain ⟨cert, i, d, h1, h2, h3, rfl⟩ := c50_from_certificate.mp h
  obtain ⟨cert', i', d', h1', h2', h3', h4', _⟩ := c50_matches_iff.mp hm
  simp only [Val.cls.injEq, Cls.mk.injEq, true_and] at h2'
  simp only [Val.bytes.injEq] at h4'
  subst h2' h4'
  exact ⟨cert, cert', i, d, h1, h1', h2, h3, h3'⟩

/-- C50: as a header value in a message, a thumbprint made from a certificate is read back as itself; anything may follow. -/
theorem c50_roundtrip {C : Crypto} {alg : Val} {given : Bytes} {e : Bool} {t : X5T} {w rest : Bytes}
    (h : X5T.fromCertificate C alg given e = .ok t) (hw : dumps fullname .ident t.encode = .ok w) :
    (do let item ← loads (w ++ rest); X5T.decode item) = .ok t := by
  obtain ⟨cert, i, d, _, _, h3, rfl⟩ := c50_from_certificate.mp h
  have hs : subst fullname .ident (X5T.encode ⟨algCls i, .bytes d⟩) = .ok (.arr [.int i, .bytes d]) := by
    simp [X5T.encode, subst, substL, substCls]
  rw [loads_dumps hs (by simp [PyOK, PyOKL]) hw]
  have hr : fromId .alg (.int i) = .ok (algCls i) := by
    unfold Spec.digest at h3
    repeat' split at h3
    all_goals first | (subst i; decide) | cases h3
  simp [X5T.decode, pyItem, hr]

/-- C50, the part that fails: a SHAKE thumbprint can neither be made nor checked; the calls raise `TypeError` for every certificate. -/
theorem c50_shake_fails (C : Crypto) (i : Int) (hi : i = -18 ∨ i = -45) (cert : Bytes) (a : UInt8) (r : Bytes) :
    X5T.fromCertificate C (algCls i) cert = .error .typeError ∧
    X5T.matchesCert C ⟨algCls i, .bytes (a :: r)⟩ cert = .error .typeError := by
  rcases hi with rfl | rfl <;>
    simp [X5T.fromCertificate, X5T.matchesCert, certBytes, computeHashVal, computeHash, algFam, algTable, truthy, bind, Except.bind]

/-- C50: an empty thumbprint matches nothing. -/
theorem c50_empty (C : Crypto) (alg : Val) (cert : Bytes) (e : Bool) :
    X5T.matchesCert C ⟨alg, .bytes []⟩ cert e = .ok false := by
  simp [X5T.matchesCert, truthy]

/-- C50: two thumbprints that hold a byte string each are equal exactly if they name the same algorithm and hold the same bytes. -/
theorem c50_equal {i j : Int} {a b : Bytes} : X5T.eq ⟨algCls i, .bytes a⟩ ⟨algCls j, .bytes b⟩ = true ↔ i = j ∧ a = b := by
  simp [X5T.eq, keq, norm]

/-- C50: a thumbprint read from a message equals the one made from a certificate with its algorithm exactly if it matches the
certificate. -/
theorem c50_equal_matches {C : Crypto} (L : C.Laws) {t own : X5T} {given : Bytes} {e : Bool}
    (h : X5T.fromCertificate C t.alg given e = .ok own) : t.eq own = true ↔ t.matchesCert C given e = .ok true := by
  obtain ⟨cert, i, d, h1, h2, h3, rfl⟩ := c50_from_certificate.mp h
  obtain ⟨alg, th⟩ := t
  simp only at h2
  subst h2
  rw [c50_matches_iff]
  have hk : keq th (.bytes d) = true ↔ th = .bytes d := by
    cases th <;> simp [keq, norm]
    split <;> simp
  simp only [X5T.eq, Bool.and_eq_true, hk]
  constructor
  · rintro ⟨_, rfl⟩
    exact ⟨cert, i, d, h1, rfl, h3, rfl, digest_length L h3⟩
  · rintro ⟨cert', i', d', h1', h2', h3', h4', _⟩
    simp only [Val.cls.injEq, Cls.mk.injEq, true_and] at h2'
    subst h2'
    have : cert' = cert := by
      have a := certBytes_iff.mpr h1
      rw [certBytes_iff.mpr h1'] at a
      simpa using a
    subst this
    rw [h3] at h3'
    exact ⟨by simp [keq, norm], by cases h3'; exact h4'⟩

/-- C50: a URI (a text, so valid UTF-8) is read back as it was given. -/
theorem c50_uri {uri w rest : Bytes} (hu : validUtf8 uri = true) (hw : dumps fullname .ident (X5U.encode uri) = .ok w) : loads (w ++ rest) = .ok (.text uri) := by
  have hs : subst fullname .ident (X5U.encode uri) = .ok (.text uri) := rfl
  exact loads_dumps hs hu hw rest

/-! ### C60 -/

/-- C60: with two or more certificates, the first is validated as the end-entity certificate and the others, in order, are the
intermediate ones; the constructor succeeds exactly if the validator accepts, and the header value is the given list. -/
theorem c60_chain {validator : Val → Val → Res Val} {c d : Val} {l : List Val} {v : Val} :
    X5Chain.init validator (.arr (c :: d :: l)) true = .ok v ↔
      (∃ r, validator c (.arr (d :: l)) = .ok r) ∧ v = .arr (c :: d :: l) := by
  simp only [X5Chain.init, x5Collapse, verifyChain, pyItem, if_true, List.getElem?_cons_zero, ok_bind, bind_eq_ok, List.drop_succ_cons,
    List.drop_zero, Except.ok.injEq]
  constructor
  · rintro ⟨a, h, rfl⟩; exact ⟨⟨a, h⟩, rfl⟩
  · rintro ⟨⟨a, h⟩, rfl⟩; exact ⟨a, h, rfl⟩

/-- C60: a list of one certificate is encoded as the bare certificate, as RFC 9360 requires, any other list as it is. -/
theorem c60_encode (validator : Val → Val → Res Val) (l : List Val) :
    X5Chain.init validator (.arr l) false = .ok (if l.length = 1 then l.headD .none else .arr l) := by
  match l with
  | [] => rfl
  | [c] => rfl
  | c :: d :: t => simp [X5Chain.init, x5Collapse]

/-- C60, the part that fails: a chain of one certificate is never validated.  The validator is given the number of its first byte as the
certificate, so validation of every single-certificate chain depends on that byte and on the remaining bytes as "intermediate
certificates" only. -/
theorem c60_single_not_validated (validator : Val → Val → Res Val) (a : UInt8) (cert : Bytes) :
    X5Chain.init validator (.arr [.bytes (a :: cert)]) true =
      (do let _ ← validator (.int a.toNat) (.bytes cert); .ok (.bytes (a :: cert))) := by
  simp [X5Chain.init, x5Collapse, verifyChain, pyItem]

/-- … with the real validator, which takes certificates only (bytes or parsed ones) and raises `TypeError` otherwise, it always fails. -/
theorem c60_single_fails {validator : Val → Val → Res Val} (hv : ∀ n x, validator (.int n) x = .error .typeError) (a : UInt8) (cert : Bytes) :
    X5Chain.init validator (.arr [.bytes (a :: cert)]) true = .error .typeError := by
  rw [c60_single_not_validated, hv]; rfl

namespace Sample

example : ∃ t, X5T.fromCertificate toy (algCls (-15)) b!"certificate" = .ok t ∧ t.matchesCert toy b!"certificate" = .ok true ∧
    t.matchesCert toy b!"another" = .ok false ∧ t.matchesCert toy (0x4b :: b!"certificate") true = .ok true ∧
    (dumps fullname .ident t.encode).isOk = true ∧ t.eq ⟨algCls (-15), .bytes ((fit 32 b!"certificate").take 8)⟩ = true ∧
    t.eq ⟨algCls (-15), .bytes ((fit 32 b!"another").take 8)⟩ = false ∧ t.eq ⟨algCls (-16), t.thumbprint⟩ = false ∧
    (dumps fullname .ident (X5U.encode b!"https://example.org/cert")).isOk = true := by
  refine ⟨⟨algCls (-15), .bytes ((fit 32 b!"certificate").take 8)⟩, ?_⟩; decide +kernel

example : X5Chain.init (fun c _ => if c = .bytes b!"ee" then .ok .none else .error .valueError) (.arr [.bytes b!"ee", .bytes b!"ca"]) true
    = .ok (.arr [.bytes b!"ee", .bytes b!"ca"]) := by decide +kernel

end Sample

end Cose
