import Verif.Recipient
/-!
# The content key of a recipient

`compute_cek(target_alg, ops)` is a public method of the recipient classes.  `rcptComputeCek` of `Recipient.lean` is
the call with `ops` other than `"encrypt"`, which `decrypt` makes; this file has the other calls.
-/
set_option autoImplicit false
namespace Cose

/-- `recipient.compute_cek(target, "encrypt")` (`recipient.py:232` — takes one argument —, `:318-323`, `:438-459`,
`:497-502`); `none` is Python's `None`. -/
def rcptSenderCek (C : Crypto) (r : Rcpt) (target : Val) : Res (Option Key) :=
  match r.cls with
  | .directEncryption => .error .typeError
  | .directKeyAgreement => do
    let k ← dkaComputeCek C r.base target true
    .ok (some k)
  | _ =>
    if r.base.payload = some [] then .ok none
    else do
      let k ← mkSym (optBytes r.base.payload) target [Op.Encrypt]
      .ok (some k)

/-- `DirectEncryption.compute_cek(target)` (`recipient.py:232-239`). -/
def directComputeCek (b : Base) : Res (Option Key) := do
  let alg ← b.getAttr Hdr.Algorithm
  if alg = algCls (-6) then .ok none
  else
    match b.key with
    | none => .error .attributeError
    | some k => do
      k.verify .sym alg [Op.DeriveKey, Op.DeriveBits]
      .error .notImplemented

end Cose
