import Verif.Wire
/-!
# Keys that belong together

Vocabulary for the round-trip properties: when a key may be used for an operation, and when the
receiver's key matches the sender's.
-/
set_option autoImplicit false
namespace Cose

/-- The key has the given type, its `alg` is absent or the algorithm used, and its `key_ops` are absent,
empty or contain one of `ops`. -/
structure Spec.Permits (k : Key) (kind : Kind) (alg : Val) (ops : List Cls) : Prop where
  kind : k.kind = kind
  alg : dget k.store (.cls KpAlg) = none ∨ ∃ c, alg = .cls c ∧ dget k.store (.cls KpAlg) = some (.cls c)
  ops : dget k.store (.cls KpKeyOps) = none ∨
    ∃ l, dget k.store (.cls KpKeyOps) = some (.arr l) ∧ (l = [] ∨ ∃ o ∈ ops, .cls o ∈ l)

/-- `vk` is the verification key for signing key `sk` under the algorithm `alg`. -/
inductive Spec.KeyPair (C : Crypto) (alg : Val) (sk vk : Key) : Prop
  /-- the point `(x, y)` of `vk` is the public point of the private value of `sk` -/
  | ecdsa {crv : Cls} {h : HashId} {d x y : Bytes} : algFam alg = some (.ecdsa crv h) → vk.kind = .ec2 →
      sk.d = .ok (.bytes d) → vk.x = .ok (.bytes x) → vk.y = .ok (.bytes y) → x ≠ [] → y ≠ [] →
      C.ecPub crv (natOfBytes d) = .ok (natOfBytes x, natOfBytes y) → KeyPair C alg sk vk
  /-- both keys are on the same curve and `x` of `vk` is the public key of `d` of `sk` -/
  | eddsa {crv : Cls} {d x : Bytes} : algFam alg = some .eddsa → vk.kind = .okp →
      sk.crv = .ok (.cls crv) → vk.crv = .ok (.cls crv) → sk.d = .ok (.bytes d) → vk.x = .ok (.bytes x) →
      C.okpPub crv d = .ok x → KeyPair C alg sk vk
  /-- both keys have the same modulus and public exponent -/
  | rsa {p : RsaPad} {h : HashId} : algFam alg = some (.rsa p h) → vk.kind = .rsa →
      vk.rsaParam RsaN = sk.rsaParam RsaN → vk.rsaParam RsaE = sk.rsaParam RsaE → KeyPair C alg sk vk

/-- The length in bytes of a coordinate of a point: P-256, P-384, P-521 and secp256k1. -/
def Spec.coordBytes : List (Cls × Nat) := [(⟨.crv, 1⟩, 32), (⟨.crv, 2⟩, 48), (⟨.crv, 3⟩, 66), (⟨.crv, 8⟩, 32)]

/-! ### Consequences -/

theorem anyOp_arr (l : List Val) (ops : List Cls) (acc : Bool) :
    anyOp (.arr l) ops acc = .ok (acc || ops.any fun c => l.contains (.cls c)) := by
  induction ops generalizing acc with
  | nil => simp [anyOp]
  | cons c t ih => simp [anyOp, containsCls, ih, Bool.or_assoc]

theorem permits_verify {k : Key} {kind : Kind} {alg : Val} {ops : List Cls} (h : Spec.Permits k kind alg ops) :
    k.verify kind alg ops = .ok () := by
  obtain ⟨h1, h2, h3⟩ := h
  have fin : (do
      let n ← lenOf k.keyOps
      if n = 0 then .ok ()
      else do
        let m ← anyOp k.keyOps ops false
        if m then .ok () else .error .illegalKeyOps : Res Unit) = .ok () := by
    rcases h3 with h3 | ⟨l, h3, h4⟩
    · simp [Key.keyOps, getD, h3, lenOf]
    · simp only [Key.keyOps, getD, h3, Option.getD_some, lenOf, ok_bind]
      split
      · rfl
      · rename_i hl
        rw [anyOp_arr]
        rcases h4 with rfl | ⟨o, ho, hm⟩
        · simp at hl
        · have : (ops.any fun c => l.contains (.cls c)) = true := by
            rw [List.any_eq_true]; exact ⟨o, ho, by simpa using hm⟩
          simp only [this, Bool.or_true, ok_bind, if_true]
  unfold Key.verify
  rw [if_neg (by simp [h1])]
  rcases h2 with h2 | ⟨c, rfl, h2⟩
  · have : k.alg = .none := by simp [Key.alg, getD, h2]
    rw [if_pos this]
    exact fin
  · have : k.alg = .cls c := by simp [Key.alg, getD, h2]
    rw [if_neg (by simp [this]), this]
    simp only [identOf, ok_bind, bne_self_eq_false, Bool.false_eq_true, if_false]
    exact fin

theorem intFromHex_bytes {b : Bytes} (h : b ≠ []) : intFromHex (.bytes b) = .ok (natOfBytes b) := by
  cases b with
  | nil => exact absurd rfl h
  | cons a t => rfl

theorem intFromHex_inv {v : Val} {n : Nat} (h : intFromHex v = .ok n) : ∃ b, v = .bytes b ∧ b ≠ [] ∧ n = natOfBytes b := by
  cases v <;> simp only [intFromHex, reduceCtorEq] at h
  rename_i b
  cases b with
  | nil => simp at h
  | cons a t => simp at h; exact ⟨_, rfl, by simp, h.symm⟩

theorem asBytes_ok {e : PyErr} {v : Val} {b : Bytes} : asBytes e v = .ok b ↔ v = .bytes b := by
  cases v <;> simp [asBytes]

/-- What the matching key makes of a signature. -/
theorem keyPair_verify {C : Crypto} (L : C.Laws) {alg : Val} {sk vk : Key} (h : Spec.KeyPair C alg sk vk)
    {f : AlgFam} (hf : signMethod alg = .ok f) {rnd data s : Bytes} (hs : callSign C rnd f sk data = .ok s) :
    callVerify C f vk data (.bytes s) = .ok true := by
  cases h with
  | ecdsa ha hk hd hx hy nx ny hp =>
    simp only [signMethod, ha] at hf
    simp at hf; subst hf
    simp only [callSign, hd, ok_bind, bind_eq_ok] at hs
    obtain ⟨n, hn, hs⟩ := hs
    obtain ⟨_, h1, _, rfl⟩ := intFromHex_inv hn
    simp at h1; subst h1
    simp only [callVerify, hx, hy, ok_bind, intFromHex_bytes nx, intFromHex_bytes ny, asBytes]
    exact L.ecdsa_ok hp hs
  | eddsa ha hk hc hc' hd hx hp =>
    simp only [signMethod, ha] at hf
    simp at hf; subst hf
    simp only [callSign, edCurve, hc, ok_bind, bind_eq_ok] at hs
    obtain ⟨c, h1, hs⟩ := hs
    split at h1 <;> simp at h1
    subst h1
    rename_i hc2
    simp only [hd, asBytes] at hs
    obtain ⟨_, h1, _, h2, hs⟩ := hs
    simp at h1; subst h1; simp at h2; subst h2
    simp only [callVerify, edCurve, hc', ok_bind, if_pos hc2, hx, asBytes]
    exact L.eddsa_ok hp hs
  | rsa ha hk hn he =>
    simp only [signMethod, ha] at hf
    simp at hf; subst hf
    simp only [callSign, bind_eq_ok] at hs
    obtain ⟨nums, h1, hs⟩ := hs
    simp only [rsaNumsOf, bind_eq_ok] at h1
    obtain ⟨e, e1, e', e2, n, n1, n', n2, _, _, _, _, _, _, _, _, _, _, _, _, _, _, _, _, _, _, _, _, _, _, _, _, h1⟩ := h1
    simp at h1; subst h1
    simp only [callVerify, he, hn, e1, n1, ok_bind, e2, n2, asBytes]
    exact L.rsa_ok hs

end Cose
