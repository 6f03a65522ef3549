import Verif.Spec
/-!
# Concrete objects used to show that hypotheses of theorems can be met

All of them are built by running the model of the constructors with the toy primitives.
-/
set_option autoImplicit false

namespace Cose

theorem res_any {α : Type} {r : Res α} {p : α → Bool} (h : (match r with | .ok a => p a | .error _ => false) = true) :
    ∃ a, r = .ok a ∧ p a = true := by
  cases r with
  | ok a => exact ⟨a, rfl, h⟩
  | error e => simp at h
namespace Sample

deriving instance DecidableEq for Except

/-- An EC2 key with private value 7 on P-256, restricted to signing and verifying. -/
def ecKey : Key :=
  { kind := .ec2
    store := [(.cls KpKty, .cls KtyEC2), (.cls KpKeyOps, .arr [.cls Op.Sign, .cls Op.Verify]),
      (.cls Ec2Crv, .cls P256), (.cls Ec2X, .bytes (beBytes 32 7)), (.cls Ec2Y, .bytes (beBytes 32 8)),
      (.cls Ec2D, .bytes (beBytes 32 7))] }

/-- `ecKey` is what the constructor gives. -/
example : ec2Init toy (.text b!"P_256") (.bytes []) (.bytes []) (.bytes (beBytes 32 7))
    [(.text b!"key_ops", .arr [.int 1, .text b!"verify"])] true = .ok ecKey := by decide +kernel

/-- The public half. -/
def ecPubKey : Key :=
  { kind := .ec2
    store := [(.cls KpKty, .cls KtyEC2), (.cls Ec2Crv, .cls P256),
      (.cls Ec2X, .bytes (beBytes 32 7)), (.cls Ec2Y, .bytes (beBytes 32 8))] }

/-- A symmetric key of 16 bytes. -/
def symKey : Key :=
  { kind := .sym
    store := [(.cls KpKty, .cls KtySym), (.cls SymK, .bytes (List.replicate 16 5))] }

example : symInit (.bytes (List.replicate 16 5)) [] false = .ok symKey := by decide +kernel

/-- A message with a protected algorithm and an unprotected key identifier. -/
def baseWith (alg : Int) (key : Key) (payload : Option Bytes) : Base :=
  { phdr := [(.cls Hdr.Algorithm, algCls alg)]
    uhdr := [(.cls Hdr.KID, .bytes b!"me")]
    payload := payload
    aad := b!"aad"
    key := some key }

example : initMsg toy { phdr := .map [(.text b!"alg", .text b!"es256")], uhdr := .map [(.int 4, .bytes b!"me")] }
    (.bytes b!"hello") (.bytes b!"aad") (some ecKey) = .ok (baseWith (-7) ecKey (some b!"hello")) := by
  decide +kernel

/-- ES256. -/
def sign1 : Sign1 := { base := baseWith (-7) ecKey (some b!"hello") }
/-- ES256, detached payload. -/
def sign1Detached : Sign1 := { base := baseWith (-7) ecKey none }
/-- HMAC 256. -/
def mac0 : Mac0 := { base := baseWith 5 symKey (some b!"hello") }
/-- AES-MAC 128/64. -/
def mac0Aes : Mac0 := { base := baseWith 14 symKey (some b!"hello") }
/-- A128GCM with an IV. -/
def enc0 : Enc0 :=
  { base := { baseWith 1 symKey (some b!"hello") with
      uhdr := [(.cls Hdr.KID, .bytes b!"me"), (.cls Hdr.IV, .bytes (List.replicate 12 1))] } }
/-- COSE_Sign with two signers, one of them without protected header. -/
def sign : SignMsg :=
  { base := { phdr := [(.cls Hdr.ContentType, .int 5)], payload := some b!"hello" }
    signers := [{ baseWith (-7) ecKey (some []) with uhdr := [] },
      { uhdr := [(.cls Hdr.Algorithm, algCls (-7))], payload := some [], key := some ecKey }] }
/-- Direct recipient. -/
def directRcpt (oid : Nat) : Rcpt :=
  .mk .directEncryption
    { uhdr := [(.cls Hdr.Algorithm, algCls (-6)), (.cls Hdr.KID, .bytes b!"our-secret")],
      payload := some [] } [] oid []
/-- A128KW recipient. -/
def kwRcpt (oid : Nat) : Rcpt :=
  .mk .keyWrap
    { uhdr := [(.cls Hdr.Algorithm, algCls (-3)), (.cls Hdr.KID, .bytes b!"kek")],
      payload := some [], key := some symKey } [] oid []
def mac : Mac := { base := mac0.base, recipients := some [directRcpt 1] }
def enc : Enc := { base := enc0.base, recipients := [directRcpt 1] }
def encKw : Enc := { base := { enc0.base with key := none }, recipients := [kwRcpt 1, kwRcpt 2] }
/-- Some randomness. -/
def rand : Rand := ⟨fun n => List.replicate n 9, fun p => 11 + p.length, fun _ _ => []⟩

end Sample
end Cose
