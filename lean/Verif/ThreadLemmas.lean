import Verif.Threads
import Verif.RaiseLemmas
/-!
# Lemmas on threads

`Thr.alone_bind` and the lemmas after it: a thread that runs alone does what the other models of the same method say.
`Thr.Safe` is a small rely/guarantee logic for threads that run together.
-/
set_option autoImplicit false

namespace Cose
open Thr

namespace Thr
variable {σ α β : Type}

@[simp] theorem pure_eq (a : α) : (pure a : Thr σ α) = done (.ok a) := rfl

theorem alone_bind (t : Thr σ α) (f : α → Thr σ β) (s : σ) :
    (t >>= f).alone s = match t.alone s with
      | (.ok a, s') => (f a).alone s'
      | (.error e, s') => (.error e, s') := by
  show (Thr.andThen t f).alone s = _
  induction t generalizing s with
  | done r => cases r <;> rfl
  | step g k ih => exact ih s (g s)

theorem alone_done (r : Res α) (s : σ) : (done r : Thr σ α).alone s = (r, s) := rfl
theorem alone_expr (r : Res α) (s : σ) : (expr r : Thr σ α).alone s = (r, s) := rfl
theorem alone_raise (e : PyErr) (s : σ) : (raise e : Thr σ α).alone s = (.error e, s) := rfl
theorem alone_attr (f : σ → α) (s : σ) : (attr f).alone s = (.ok (f s), s) := rfl
theorem alone_assign (f : σ → σ) (s : σ) : (assign f).alone s = (.ok (), f s) := rfl
theorem alone_atomic (m : Eff σ α) (s : σ) : (atomic m).alone s = m.run s := rfl
theorem alone_ite {c : Prop} [Decidable c] (a b : Thr σ α) (s : σ) :
    (if c then a else b).alone s = if c then a.alone s else b.alone s := by split <;> rfl

end Thr

section
variable {σ : Type} (g : σ → Base)

theorem getAttrT_alone (c : Cls) (s : σ) : (getAttrT g c).alone s = ((g s).getAttr c, s) := rfl

theorem phdrEncodedT_alone (s : σ) : (phdrEncodedT g).alone s = ((g s).phdrEncoded >>= fun b => .ok (.bytes b), s) := by
  simp only [phdrEncodedT, alone_bind, alone_attr, alone_ite, alone_expr, pure_eq, alone_done, Base.phdrEncoded, Base.mode]
  cases (g s).phdrEnc with
  | some e => rfl
  | none =>
    cases (g s).phdr with
    | nil => rfl
    | cons a t =>
      simp only [ne_eq, not_true_eq_false, List.length_cons, Nat.add_eq_zero_iff, Nat.succ_ne_self, and_false, not_false_eq_true, ite_true, ite_false]
      cases dumps fullname (Mode.base (g s).tstr) (Val.map (a :: t)) <;> rfl

theorem baseStructureT_alone (s : σ) : (baseStructureT g).alone s = ((g s).baseStructure, s) := by
  simp only [baseStructureT, alone_bind, alone_attr, alone_ite, phdrEncodedT_alone, pure_eq, alone_done, Base.baseStructure]
  split
  · rfl
  · cases (g s).phdrEncoded <;> rfl

theorem finishT_alone (n : Nat) (tag : Bool) (l : List Val) (s : σ) :
    (finishT g n tag l).alone s = ((g s).finish n tag l >>= fun b => .ok (.bytes b), s) := by
  have h : ({ tstr := (g s).tstr } : Base).finish n tag l = (g s).finish n tag l := rfl
  simp only [finishT, alone_bind, alone_attr, alone_expr, pure_eq, alone_done, h]
  cases (g s).finish n tag l <;> rfl

theorem keyVerificationT_alone (alg : Val) (op : Cls) (s : σ) :
    (keyVerificationT g alg op).alone s = (keyVerification (g s) alg op >>= fun _ => .ok (), s) := by
  simp only [keyVerificationT, alone_bind, alone_attr, alone_ite, alone_expr, alone_raise, keyVerification]
  cases h : (g s).key with
  | none => simp
  | some k =>
    cases hk : k.kind <;> simp [verifyKey, hk]
    · cases k.verify .ec2 alg [op] <;> rfl
    · cases k.verify .okp alg [op] <;> rfl
    · cases k.verify .rsa alg [op] <;> rfl

theorem keyVerification_of_key {b : Base} {alg : Val} {op : Cls} {k : Key} (h : keyVerification b alg op = .ok k) : b.key = some k := by
  unfold keyVerification at h
  split at h
  · cases h
  · rename_i k' hk
    rw [hk]
    split at h
    all_goals first
      | (cases h; done)
      | (rcases bind_eq_ok.1 h with ⟨_, _, h2⟩; cases h2; rfl)

theorem computeSignatureT_alone (C : Crypto) (rnd : Bytes) (tbs : Thr σ Bytes) (tb : Res Bytes) (s : σ) (ht : tbs.alone s = (tb, s)) :
    (computeSignatureT g C rnd tbs).alone s = (computeSignature C rnd (g s) tb >>= fun b => .ok (.bytes b), s) := by
  simp only [computeSignatureT, alone_bind, alone_attr, alone_expr, pure_eq, alone_done, getAttrT_alone, keyVerificationT_alone,
    computeSignature]
  cases (g s).getAttr Hdr.Algorithm with
  | error e => rfl
  | ok alg =>
    cases hk : keyVerification (g s) alg Op.Sign with
    | error e => simp only [hk, bind, Except.bind]
    | ok k =>
      simp only [hk, bind, Except.bind]
      cases signMethod alg with
      | error e => rfl
      | ok f =>
        simp only [ht]
        cases tb with
        | error e => rfl
        | ok d => simp only [withKey, keyVerification_of_key hk]; cases callSign C rnd f k d <;> rfl

theorem verifySignatureT_alone (C : Crypto) (tbs : Thr σ Bytes) (tb : Res Bytes) (sig : σ → Val) (s : σ) (ht : tbs.alone s = (tb, s)) :
    (verifySignatureT g C tbs sig).alone s = (verifySignature C (g s) tb (sig s) >>= fun b => .ok (.bool b), s) := by
  simp only [verifySignatureT, alone_bind, alone_attr, alone_expr, pure_eq, alone_done, getAttrT_alone, keyVerificationT_alone,
    verifySignature]
  cases (g s).getAttr Hdr.Algorithm with
  | error e => rfl
  | ok alg =>
    cases hk : keyVerification (g s) alg Op.Verify with
    | error e => simp only [hk, bind, Except.bind]
    | ok k =>
      simp only [hk, bind, Except.bind]
      cases signMethod alg with
      | error e => rfl
      | ok f =>
        simp only [ht]
        cases tb with
        | error e => rfl
        | ok d => simp only [withKey, keyVerification_of_key hk]; cases callVerify C f k d (sig s) <;> rfl

theorem choosePayloadT_alone (d : Option Bytes) (s : σ) :
    (choosePayloadT g d).alone s = (choosePayload (g s).payload d >>= fun b => .ok (.bytes b), s) := by
  cases d with
  | none =>
    simp only [choosePayloadT, alone_bind, alone_attr, alone_ite, pure_eq, alone_done, alone_raise, choosePayload]
    cases (g s).payload <;> rfl
  | some d =>
    simp only [choosePayloadT, alone_bind, alone_attr, alone_ite, pure_eq, alone_done, alone_raise, choosePayload]
    cases (g s).payload <;> rfl

theorem sign1StructureT_alone (d : Option Bytes) (m : Sign1) :
    (sign1StructureT Sign1.base d).alone m = (m.sigStructure d, m) := by
  simp only [sign1StructureT, alone_bind, alone_expr, baseStructureT_alone, choosePayloadT_alone, Sign1.sigStructure]
  cases m.base.baseStructure with
  | error e => rfl
  | ok bs => simp only [bind, Except.bind]; cases choosePayload m.base.payload d <;> rfl

theorem signerStructureT_alone (p : σ → Base) (d : Option Bytes) (s : σ) :
    (signerStructureT g p d).alone s = (signerStructure (p s) (g s) d, s) := by
  simp only [signerStructureT, alone_bind, alone_expr, alone_attr, alone_ite, phdrEncodedT_alone, choosePayloadT_alone, signerStructure]
  cases (p s).phdrEncoded with
  | error e => rfl
  | ok pe =>
    simp only [bind, Except.bind]
    split
    · cases (g s).phdrEncoded with
      | error e => rfl
      | ok o => simp only; cases choosePayload (p s).payload d <;> rfl
    · cases choosePayload (p s).payload d <;> rfl

theorem macStructureT_alone (context : Bytes) (s : σ) : (macStructureT g context).alone s = (macStructure context (g s), s) := by
  simp only [macStructureT, alone_bind, alone_expr, alone_attr, alone_ite, alone_raise, baseStructureT_alone, macStructure]
  cases (g s).baseStructure with
  | error e => rfl
  | ok bs => simp only [bind, Except.bind]; cases (g s).payload <;> rfl

theorem macComputeT_alone (C : Crypto) (context : Bytes) (tag : σ → Val) (setTag : Val → σ → σ) (s : σ)
    (hset : ∀ v s, tag (setTag v s) = v) :
    (macComputeT g C context tag setTag).alone s = (macCompute C context (g s) >>= fun b => .ok (.bytes b),
      match macCompute C context (g s) with | .ok t => setTag (.bytes t) s | .error _ => s) := by
  simp only [macComputeT, alone_bind, alone_expr, alone_attr, alone_ite, alone_raise, alone_assign, getAttrT_alone, macStructureT_alone,
    macCompute, hset]
  cases (g s).getAttr Hdr.Algorithm with
  | error e => rfl
  | ok alg =>
    simp only [bind, Except.bind]
    cases hk : (g s).key with
    | none => rfl
    | some k =>
      simp only [verifyKey, withKey, reduceCtorEq, ite_false]
      cases k.verify .sym alg [Op.MacCreate] with
      | error e => rfl
      | ok _ =>
        simp only
        cases macMethod alg with
        | error e => rfl
        | ok f =>
          simp only
          cases macStructure context (g s) with
          | error e => rfl
          | ok d => simp only [hk]; cases callTag C f k d <;> rfl

theorem macVerifyT_alone (C : Crypto) (context : Bytes) (tag : σ → Val) (s : σ) :
    (macVerifyT g C context tag).alone s = (macVerify C context (g s) (tag s) >>= fun b => .ok (.bool b), s) := by
  simp only [macVerifyT, alone_bind, alone_expr, alone_attr, alone_ite, alone_raise, getAttrT_alone, macStructureT_alone, pure_eq,
    alone_done, macVerify]
  cases (g s).getAttr Hdr.Algorithm with
  | error e => rfl
  | ok alg =>
    simp only [bind, Except.bind]
    cases hk : (g s).key with
    | none => rfl
    | some k =>
      simp only [verifyKey, withKey, reduceCtorEq, ite_false]
      cases k.verify .sym alg [Op.MacVerify] with
      | error e => rfl
      | ok _ =>
        simp only
        cases macMethod alg with
        | error e => rfl
        | ok f =>
          simp only
          cases macStructure context (g s) with
          | error e => rfl
          | ok d => simp only [hk]; cases callVerifyTag C f k (tag s) d <;> rfl

theorem encStructureT_alone (context : Bytes) (s : σ) : (encStructureT g context).alone s = (encStructure context (g s), s) := by
  simp only [encStructureT, alone_bind, alone_expr, baseStructureT_alone, encStructure]
  cases (g s).baseStructure <;> rfl

theorem getNonceT_alone (s : σ) : (getNonceT g).alone s = (getNonce (g s), s) := by
  simp only [getNonceT, alone_bind, alone_expr, alone_attr, alone_ite, alone_raise, getAttrT_alone, pure_eq, alone_done, getNonce]
  cases (g s).getAttr Hdr.IV with
  | error e => rfl
  | ok iv =>
    simp only [bind, Except.bind]
    split
    · rfl
    · cases hk : (g s).key with
      | none => rfl
      | some k =>
        simp only [baseIvOf]
        split
        · cases (g s).getAttr Hdr.PartialIV with
          | error e => rfl
          | ok p =>
            simp only
            cases intFromBytes p with
            | error e => rfl
            | ok pn => simp only [hk]; cases intFromBytes k.baseIv <;> rfl
        · rename_i h; simp only [hk]; rw [if_pos (by simpa using h)]

theorem encEncryptT_alone (C : Crypto) (context : Bytes) (s : σ) :
    (encEncryptT g C context).alone s = (encEncrypt C context (g s) >>= fun b => .ok (.bytes b), s) := by
  simp only [encEncryptT, alone_bind, alone_expr, alone_attr, alone_ite, alone_raise, getAttrT_alone, getNonceT_alone, encStructureT_alone,
    pure_eq, alone_done, encEncrypt]
  cases hk : (g s).key with
  | none => rfl
  | some k =>
    simp only [verifyKey, withKey, bind, Except.bind, reduceCtorEq, ite_false]
    cases (g s).getAttr Hdr.Algorithm with
    | error e => rfl
    | ok alg =>
      simp only
      cases getNonce (g s) with
      | error e => rfl
      | ok nonce =>
        simp only [hk]
        cases k.verify .sym alg [Op.Encrypt] with
        | error e => rfl
        | ok _ =>
          simp only
          cases encMethod alg with
          | error e => rfl
          | ok a =>
            simp only
            cases encStructure context (g s) with
            | error e => rfl
            | ok aad => simp only [hk]; cases callEncrypt C a k nonce (g s).payload aad <;> rfl

theorem encDecryptT_alone (C : Crypto) (context : Bytes) (s : σ) :
    (encDecryptT g C context).alone s = (encDecrypt C context (g s) >>= fun b => .ok (.bytes b), s) := by
  simp only [encDecryptT, alone_bind, alone_expr, alone_attr, alone_ite, alone_raise, getAttrT_alone, getNonceT_alone, encStructureT_alone,
    pure_eq, alone_done, encDecrypt]
  cases (g s).getAttr Hdr.Algorithm with
  | error e => rfl
  | ok alg =>
    simp only [bind, Except.bind]
    cases getNonce (g s) with
    | error e => rfl
    | ok nonce =>
      simp only
      cases hk : (g s).key with
      | none => rfl
      | some k =>
        simp only [verifyKey, withKey, reduceCtorEq, ite_false]
        cases k.verify .sym alg [Op.Decrypt] with
        | error e => rfl
        | ok _ =>
          simp only
          cases encMethod alg with
          | error e => rfl
          | ok a =>
            simp only
            cases encStructure context (g s) with
            | error e => rfl
            | ok aad => simp only [hk]; cases callDecrypt C a k nonce (g s).payload aad <;> rfl
end

/-! ### The methods of the message classes, alone -/

theorem Sign1.computeSignatureT_alone (C : Crypto) (rnd : Bytes) (d : Option Bytes) (m : Sign1) :
    (Sign1.computeSignatureT C rnd d).alone m = (m.computeSignature C rnd d >>= fun b => .ok (.bytes b), m) :=
  Cose.computeSignatureT_alone _ _ _ _ _ _ (sign1StructureT_alone d m)

theorem Sign1.verifySignatureT_alone (C : Crypto) (d : Option Bytes) (m : Sign1) :
    (Sign1.verifySignatureT C d).alone m = (m.verifySignature C d >>= fun b => .ok (.bool b), m) :=
  Cose.verifySignatureT_alone _ _ _ _ _ _ (sign1StructureT_alone d m)

theorem Sign1.encodeT_alone (C : Crypto) (rnd : Bytes) (tag sign : Bool) (d : Option Bytes) (m : Sign1) :
    (Sign1.encodeT C rnd tag sign d).alone m = (m.encode C rnd tag sign d >>= fun b => .ok (.bytes b), m) := by
  simp only [Sign1.encodeT, alone_bind, alone_attr, alone_ite, phdrEncodedT_alone, Sign1.computeSignatureT_alone, finishT_alone,
    Sign1.encode]
  cases m.base.phdrEncoded with
  | error e => cases sign <;> simp only [bind, Except.bind] <;> split <;> first | rfl | (split <;> rfl)
  | ok pe =>
    simp only [bind, Except.bind]
    split
    · cases m.computeSignature C rnd d with
      | error e => rfl
      | ok sg => rfl
    · split <;> rfl

theorem SignMsg.verifyT_alone (C : Crypto) (i : Nat) (d : Option Bytes) (m : SignMsg) (s : Base) (h : m.signers[i]? = some s) :
    (SignMsg.verifyT C i d).alone m = (signerVerify C m.base s d >>= fun b => .ok (.bool b), m) := by
  have := Cose.verifySignatureT_alone (SignMsg.signer i) C (signerStructureT (SignMsg.signer i) SignMsg.base d) _
    (fun m => optBytes (SignMsg.signer i m).payload) m (signerStructureT_alone _ _ d m)
  have hs : SignMsg.signer i m = s := by simp [SignMsg.signer, h]
  rw [hs] at this
  exact this

theorem signersEncodeT_alone (C : Crypto) (rnd : Nat → Bytes) (d : Option Bytes) (m : SignMsg) (l pre : List Base)
    (h : m.signers = pre ++ l) :
    (signersEncodeT C rnd d l.length pre.length).alone m = (signersEncode C rnd m.base d pre.length l, m) := by
  induction l generalizing pre with
  | nil => rfl
  | cons s t ih =>
    have hs : SignMsg.signer pre.length m = s := by simp [SignMsg.signer, h]
    have ht := ih (pre ++ [s]) (by simp [h])
    simp only [List.length_append, List.length_cons, List.length_nil, Nat.zero_add] at ht
    have hc := Cose.computeSignatureT_alone (SignMsg.signer pre.length) C (rnd pre.length)
      (signerStructureT (SignMsg.signer pre.length) SignMsg.base d) _ m (signerStructureT_alone _ _ d m)
    rw [hs] at hc
    simp only [List.length_cons, signersEncodeT, alone_bind, alone_attr, phdrEncodedT_alone, hs, pure_eq, alone_done, signersEncode,
      signerEncode, signerCompute]
    cases s.phdrEncoded with
    | error e => rfl
    | ok pe =>
      simp only [bind, Except.bind, hs, hc]
      cases computeSignature C (rnd pre.length) s (signerStructure m.base s d) with
      | error e => rfl
      | ok sg =>
        simp only [ht]
        cases signersEncode C rnd m.base d (pre.length + 1) t <;> rfl

theorem SignMsg.encodeT_alone (C : Crypto) (rnd : Nat → Bytes) (tag : Bool) (d : Option Bytes) (m : SignMsg) :
    (SignMsg.encodeT C rnd tag d).alone m = (m.encode C rnd tag d >>= fun b => .ok (.bytes b), m) := by
  have hl := signersEncodeT_alone C rnd d m m.signers [] rfl
  simp only [List.length_nil] at hl
  simp only [SignMsg.encodeT, alone_bind, alone_attr, alone_ite, phdrEncodedT_alone, finishT_alone, SignMsg.encode]
  cases m.base.phdrEncoded with
  | error e => rfl
  | ok pe =>
    simp only [bind, Except.bind]
    split
    · simp only [hl]
      cases signersEncode C rnd m.base d 0 m.signers <;> rfl
    · rfl

theorem Mac0.computeTagT_alone (C : Crypto) (m : Mac0) :
    (Mac0.computeTagT C).alone m = (m.computeTag C >>= fun b => .ok (.bytes b),
      match m.computeTag C with | .ok t => { m with authTag := .bytes t } | .error _ => m) :=
  macComputeT_alone _ _ _ _ _ _ fun _ _ => rfl

theorem Mac0.verifyTagT_alone (C : Crypto) (m : Mac0) :
    (Mac0.verifyTagT C).alone m = (m.verifyTag C >>= fun b => .ok (.bool b), m) := macVerifyT_alone _ _ _ _ _

theorem Mac0.encodeT_alone (C : Crypto) (tag mac : Bool) (m : Mac0) :
    (Mac0.encodeT C tag mac).alone m = (((Mac0.encodeE C tag mac).run m).1 >>= fun b => .ok (.bytes b), ((Mac0.encodeE C tag mac).run m).2) := by
  simp only [Mac0.encodeT, alone_bind, alone_attr, alone_ite, phdrEncodedT_alone, finishT_alone, Mac0.computeTagT_alone, Mac0.encodeE]
  cases hp : m.base.phdrEncoded with
  | error e => simp only [bind, Except.bind, Eff.expr, hp]
  | ok pe =>
    simp only [bind, Except.bind, Eff.expr, hp]
    split
    · cases hc : m.computeTag C with
      | error e => simp only [hc]
      | ok t => simp only [hc, Eff.assign]
    · rfl

theorem Enc0.encryptT_alone (C : Crypto) (m : Enc0) :
    (Enc0.encryptT C).alone m = (m.encrypt C >>= fun b => .ok (.bytes b), m) := encEncryptT_alone _ _ _ _

theorem Enc0.decryptT_alone (C : Crypto) (m : Enc0) :
    (Enc0.decryptT C).alone m = (m.decrypt C >>= fun b => .ok (.bytes b), m) := encDecryptT_alone _ _ _ _

theorem Enc0.encodeT_alone (C : Crypto) (tag encrypt : Bool) (m : Enc0) :
    (Enc0.encodeT C tag encrypt).alone m = (m.encode C tag encrypt >>= fun b => .ok (.bytes b), m) := by
  simp only [Enc0.encodeT, alone_bind, alone_attr, alone_ite, phdrEncodedT_alone, finishT_alone, Enc0.encryptT_alone, Enc0.encode]
  cases m.base.phdrEncoded with
  | error e => rfl
  | ok pe =>
    simp only [bind, Except.bind]
    split
    · cases m.encrypt C <;> rfl
    · rfl

/-- The result of a method that returns bytes, as the result of a thread. -/
def valOf {σ : Type} (x : Res Bytes × σ) : Res Val × σ := (x.1 >>= fun b => .ok (.bytes b), x.2)

theorem Enc.decryptT_alone (C : Crypto) (r : Rcpt) (m : Enc) : (Enc.decryptT C r).alone m = valOf ((Enc.decryptE C r).run m) := by
  simp only [Enc.decryptT, alone_bind, alone_attr, alone_expr, alone_ite, alone_raise, alone_assign, getAttrT_alone, encDecryptT_alone,
    Enc.decryptE, valOf]
  cases ha : m.base.getAttr Hdr.Algorithm with
  | error e => simp only [bind, Except.bind, Eff.expr, ha]
  | ok target =>
    simp only [bind, Except.bind, Eff.expr, Eff.self, ha]
    split
    · rfl
    · cases hv : verifyRecipients m.recipients with
      | error e => simp only [hv]
      | ok types =>
        simp only [hv]
        split
        · rfl
        · split
          · cases hk : rcptComputeCek C r target <;> rfl
          · rfl

theorem modify_at {α : Type} (pre : List α) (a : α) (t : List α) (f : α → α) : (pre ++ a :: t).modify pre.length f = pre ++ f a :: t := by
  induction pre with
  | nil => rfl
  | cons b l ih => simpa using ih

theorem wrapLoopT_alone (C : Crypto) (R : Rand) (b : Base) (l pre : List Rcpt) (key : Option Bytes) :
    (wrapLoopT C R l.length pre.length key).alone { base := b, recipients := pre ++ l } =
      ((wrapLoopE C R pre.length key l).1, { base := b, recipients := pre ++ (wrapLoopE C R pre.length key l).2 }) := by
  induction l generalizing pre key with
  | nil => rfl
  | cons r t ih =>
    have hp : Enc.rcptPayload pre.length { base := b, recipients := pre ++ r :: t } = r.base.payload := by
      simp [Enc.rcptPayload]
    have hset : Enc.setRcptPayload pre.length key { base := b, recipients := pre ++ r :: t } =
        { base := b, recipients := pre ++ r.withBase { r.base with payload := key } :: t } := by
      simp [Enc.setRcptPayload, modify_at]
    have hon : ∀ r' : Rcpt, (onRcpt pre.length (rcptEncryptE C R 0 [pre.length]).run).run { base := b, recipients := pre ++ r' :: t } =
        (((rcptEncryptE C R 0 [pre.length]).run r').1,
          { base := b, recipients := pre ++ ((rcptEncryptE C R 0 [pre.length]).run r').2 :: t }) := by
      intro r'; simp [onRcpt]
    have hih : ∀ (r' : Rcpt) (key : Option Bytes),
        (wrapLoopT C R t.length (pre.length + 1) key).alone { base := b, recipients := pre ++ r' :: t } =
        ((wrapLoopE C R (pre.length + 1) key t).1,
          { base := b, recipients := pre ++ r' :: (wrapLoopE C R (pre.length + 1) key t).2 }) := by
      intro r' key
      have := ih (pre ++ [r']) key
      simpa using this
    simp only [List.length_cons, wrapLoopT, alone_bind, alone_attr, alone_ite, alone_assign, alone_atomic, hp, hset, hon, wrapLoopE, giveKey]
    split
    · cases he : (rcptEncryptE C R 0 [pre.length]).run (r.withBase { r.base with payload := key }) with
      | mk x r' =>
        cases x with
        | error e => rfl
        | ok v => simp only [hih]
    · cases he : (rcptEncryptE C R 0 [pre.length]).run r with
      | mk x r' =>
        cases x with
        | error e => rfl
        | ok v => simp only [hih]

theorem Enc.encryptT_alone (C : Crypto) (R : Rand) (m : Enc) : (Enc.encryptT C R).alone m = valOf ((Enc.encryptE C R).run m) := by
  simp only [Enc.encryptT, alone_bind, alone_attr, alone_expr, alone_ite, alone_raise, alone_assign, getAttrT_alone, encEncryptT_alone,
    Enc.encryptE, valOf]
  cases ha : m.base.getAttr Hdr.Algorithm with
  | error e => simp only [bind, Except.bind, Eff.expr, ha]
  | ok target =>
    simp only [bind, Except.bind, Eff.expr, ha]
    cases hv : verifyRecipients m.recipients with
    | error e => rfl
    | ok types =>
      simp only
      split
      · rfl
      · split
        · cases hr : m.recipients with
          | nil => simp only [hr]
          | cons r t => simp only [hr]; cases hk : dkaComputeCek C r.base target true <;> rfl
        · split
          · simp only [ha]
            cases hn : algKeyLength target with
            | error e => rfl
            | ok n =>
              have hw := wrapLoopT_alone C R m.base m.recipients [] (some (R.cek n))
              simp only [List.nil_append, List.length_nil] at hw
              simp only [hw, Eff.call]
              cases hx : (wrapLoopE C R 0 (some (R.cek n)) m.recipients).1 with
              | error e => rfl
              | ok kb => simp only; cases hm : mkSym (optBytes kb) target [Op.Encrypt] <;> rfl
          · rfl

theorem rcptsEncodeT_alone (C : Crypto) (R : Rand) (b : Base) (alg : Val) (ha : b.getAttr Hdr.Algorithm = .ok alg) (l pre : List Rcpt) :
    (rcptsEncodeT C R l.length pre.length).alone { base := b, recipients := pre ++ l } =
      ((rcptsEncodeE C R [] pre.length l).1, { base := b, recipients := pre ++ (rcptsEncodeE C R [] pre.length l).2 }) := by
  induction l generalizing pre with
  | nil => rfl
  | cons r t ih =>
    have hon : (onRcpt pre.length (rcptEncodeE C R [pre.length])).run { base := b, recipients := pre ++ r :: t } =
        ((rcptEncodeE C R [pre.length] r).1, { base := b, recipients := pre ++ (rcptEncodeE C R [pre.length] r).2 :: t }) := by
      simp [onRcpt]
    have hih : ∀ (r' : Rcpt), (rcptsEncodeT C R t.length (pre.length + 1)).alone { base := b, recipients := pre ++ r' :: t } =
        ((rcptsEncodeE C R [] (pre.length + 1) t).1,
          { base := b, recipients := pre ++ r' :: (rcptsEncodeE C R [] (pre.length + 1) t).2 }) := by
      intro r'
      have := ih (pre ++ [r'])
      simpa using this
    simp only [List.length_cons, rcptsEncodeT, alone_bind, alone_atomic, getAttrT_alone, ha, hon, pure_eq, alone_done, rcptsEncodeE,
      List.nil_append]
    cases he : rcptEncodeE C R [pre.length] r with
    | mk x r' =>
      cases x with
      | error e => rfl
      | ok v =>
        simp only [hih]
        cases ht : rcptsEncodeE C R [] (pre.length + 1) t with
        | mk y t' => cases y <;> rfl

theorem Enc.finishT_alone (C : Crypto) (R : Rand) (tag : Bool) (l : List Val) (m : Enc) :
    (Enc.finishT C R tag l).alone m = valOf ((Enc.finishE C R tag l).run m) := by
  obtain ⟨b, rs⟩ := m
  simp only [Enc.finishT, alone_bind, alone_attr, alone_ite, Cose.finishT_alone, Enc.finishE, valOf]
  cases rs with
  | nil => rfl
  | cons r t =>
    simp only [bind, Eff.self, Eff.expr, Eff.call, List.isEmpty_cons, Bool.false_eq_true, ite_false, List.length_cons,
      Nat.add_eq_zero_iff, Nat.succ_ne_self, and_false]
    cases ha : b.getAttr Hdr.Algorithm with
    | error e =>
      have hx : (rcptsEncodeT C R (t.length + 1) 0).alone { base := b, recipients := r :: t } = (.error e, { base := b, recipients := r :: t }) := by
        simp only [rcptsEncodeT, alone_bind, getAttrT_alone, ha]
      rw [hx]; rfl
    | ok alg =>
      have hw := rcptsEncodeT_alone C R b alg ha (r :: t) []
      simp only [List.nil_append, List.length_nil, List.length_cons] at hw
      rw [hw]
      simp only
      cases hx : rcptsEncodeE C R [] 0 (r :: t) with
      | mk x rs => cases x <;> rfl

theorem Enc.encodeT_alone (C : Crypto) (R : Rand) (tag enc : Bool) (m : Enc) :
    (Enc.encodeT C R tag enc).alone m = valOf ((Enc.encodeE C R tag enc).run m) := by
  simp only [Enc.encodeT, alone_bind, alone_attr, alone_ite, phdrEncodedT_alone, Enc.encryptT_alone, Enc.finishT_alone, Enc.encodeE]
  cases hp : m.base.phdrEncoded with
  | error e => simp only [bind, Except.bind, Eff.expr, hp, valOf]
  | ok pe =>
    simp only [bind, Except.bind, Eff.expr, hp, valOf]
    cases enc with
    | true =>
      simp only [ite_true]
      cases hx : (Enc.encryptE C R).run m with
      | mk x m' => cases x <;> rfl
    | false => rfl

theorem Mac.tagT_alone (C : Crypto) (m : Mac) :
    (macComputeT Mac.base C b!"MAC" Mac.authTag fun t m => { m with authTag := t }).alone m = valOf ((Mac.tagE C).run m) := by
  rw [macComputeT_alone _ _ _ _ _ _ fun _ _ => rfl]
  simp only [Mac.tagE, bind, Eff.expr, Eff.assign, valOf, pure]
  cases hc : macCompute C b!"MAC" m.base <;> rfl

theorem macWrapLoopT_alone (C : Crypto) (R : Rand) (b : Base) (t0 : Val) (l pre : List Rcpt) (key : Option Bytes) :
    (macWrapLoopT C R l.length pre.length key).alone { base := b, authTag := t0, recipients := some (pre ++ l) } =
      ((wrapLoopE C R pre.length key l).1, { base := b, authTag := t0, recipients := some (pre ++ (wrapLoopE C R pre.length key l).2) }) := by
  induction l generalizing pre key with
  | nil => rfl
  | cons r t ih =>
    have hp : Mac.rcptPayload pre.length { base := b, authTag := t0, recipients := some (pre ++ r :: t) } = r.base.payload := by
      simp [Mac.rcptPayload]
    have hset : Mac.setRcptPayload pre.length key { base := b, authTag := t0, recipients := some (pre ++ r :: t) } =
        { base := b, authTag := t0, recipients := some (pre ++ r.withBase { r.base with payload := key } :: t) } := by
      simp [Mac.setRcptPayload, modify_at]
    have hon : ∀ r' : Rcpt, (onMacRcpt pre.length (rcptEncryptE C R 0 [pre.length]).run).run
        { base := b, authTag := t0, recipients := some (pre ++ r' :: t) } = (((rcptEncryptE C R 0 [pre.length]).run r').1,
          { base := b, authTag := t0, recipients := some (pre ++ ((rcptEncryptE C R 0 [pre.length]).run r').2 :: t) }) := by
      intro r'; simp [onMacRcpt]
    have hih : ∀ (r' : Rcpt) (key : Option Bytes),
        (macWrapLoopT C R t.length (pre.length + 1) key).alone { base := b, authTag := t0, recipients := some (pre ++ r' :: t) } =
        ((wrapLoopE C R (pre.length + 1) key t).1,
          { base := b, authTag := t0, recipients := some (pre ++ r' :: (wrapLoopE C R (pre.length + 1) key t).2) }) := by
      intro r' key
      have := ih (pre ++ [r']) key
      simpa using this
    simp only [List.length_cons, macWrapLoopT, alone_bind, alone_attr, alone_ite, alone_assign, alone_atomic, hp, hset, hon, wrapLoopE, giveKey]
    split
    · cases he : (rcptEncryptE C R 0 [pre.length]).run (r.withBase { r.base with payload := key }) with
      | mk x r' =>
        cases x with
        | error e => rfl
        | ok v => simp only [hih]
    · cases he : (rcptEncryptE C R 0 [pre.length]).run r with
      | mk x r' =>
        cases x with
        | error e => rfl
        | ok v => simp only [hih]

theorem Mac.computeTagT_alone (C : Crypto) (R : Rand) (m : Mac) :
    (Mac.computeTagT C R).alone m = valOf ((Mac.computeTagE C R).run m) := by
  simp only [Mac.computeTagT, alone_bind, alone_attr, alone_expr, alone_ite, alone_raise, alone_assign, getAttrT_alone, Mac.tagT_alone,
    Mac.computeTagE]
  cases ha : m.base.getAttr Hdr.Algorithm with
  | error e => simp only [bind, Except.bind, Eff.expr, ha, valOf]
  | ok target =>
    simp only [bind, Except.bind, Eff.expr, ha, valOf]
    cases hr : m.recipients with
    | none => rfl
    | some rs =>
      simp only
      cases hv : verifyRecipients rs with
      | error e => rfl
      | ok types =>
        simp only
        split
        · rfl
        · split
          · simp only [hr]
            cases rs with
            | nil => rfl
            | cons r t => simp only; cases hk : dkaComputeCek C r.base target true <;> rfl
          · split
            · cases hn : algKeyLength target with
              | error e => simp only [ha, hn]
              | ok n =>
                obtain ⟨b, t0, rs'⟩ := m
                simp only at hr ha
                subst hr
                have hw := macWrapLoopT_alone C R b t0 rs [] (some (R.cek n))
                simp only [List.nil_append, List.length_nil] at hw
                simp only [ha, hn, Option.getD_some, hw, Eff.call]
                cases hx : wrapLoopE C R 0 (some (R.cek n)) rs with
                | mk x rs' => cases x <;> rfl
            · rfl

theorem macRcptsEncodeT_alone (C : Crypto) (R : Rand) (b : Base) (t0 : Val) (alg : Val) (ha : b.getAttr Hdr.Algorithm = .ok alg) (l pre : List Rcpt) :
    (macRcptsEncodeT C R l.length pre.length).alone { base := b, authTag := t0, recipients := some (pre ++ l) } =
      ((rcptsEncodeE C R [] pre.length l).1,
        { base := b, authTag := t0, recipients := some (pre ++ (rcptsEncodeE C R [] pre.length l).2) }) := by
  induction l generalizing pre with
  | nil => rfl
  | cons r t ih =>
    have hon : (onMacRcpt pre.length (rcptEncodeE C R [pre.length])).run { base := b, authTag := t0, recipients := some (pre ++ r :: t) } =
        ((rcptEncodeE C R [pre.length] r).1,
          { base := b, authTag := t0, recipients := some (pre ++ (rcptEncodeE C R [pre.length] r).2 :: t) }) := by
      simp [onMacRcpt]
    have hih : ∀ (r' : Rcpt), (macRcptsEncodeT C R t.length (pre.length + 1)).alone
        { base := b, authTag := t0, recipients := some (pre ++ r' :: t) } = ((rcptsEncodeE C R [] (pre.length + 1) t).1,
          { base := b, authTag := t0, recipients := some (pre ++ r' :: (rcptsEncodeE C R [] (pre.length + 1) t).2) }) := by
      intro r'
      have := ih (pre ++ [r'])
      simpa using this
    simp only [List.length_cons, macRcptsEncodeT, alone_bind, alone_atomic, getAttrT_alone, ha, hon, pure_eq, alone_done, rcptsEncodeE,
      List.nil_append]
    cases he : rcptEncodeE C R [pre.length] r with
    | mk x r' =>
      cases x with
      | error e => rfl
      | ok v =>
        simp only [hih]
        cases ht : rcptsEncodeE C R [] (pre.length + 1) t with
        | mk y t' => cases y <;> rfl

theorem Mac.finishT_alone (C : Crypto) (R : Rand) (tag : Bool) (l : List Val) (m : Mac) :
    (Mac.finishT C R tag l).alone m = valOf ((Mac.finishE C R tag l).run m) := by
  obtain ⟨b, t0, rs⟩ := m
  simp only [Mac.finishT, alone_bind, alone_attr, alone_expr, alone_ite, Cose.finishT_alone, Mac.finishE, valOf]
  cases rs with
  | none => rfl
  | some rs =>
  cases rs with
  | nil => rfl
  | cons r t =>
    simp only [bind, Eff.self, Eff.expr, Eff.call, List.length_cons,
      Nat.add_eq_zero_iff, Nat.succ_ne_self, and_false, ite_false]
    cases ha : b.getAttr Hdr.Algorithm with
    | error e =>
      have hx : (macRcptsEncodeT C R (t.length + 1) 0).alone { base := b, authTag := t0, recipients := some (r :: t) } =
          (.error e, { base := b, authTag := t0, recipients := some (r :: t) }) := by
        simp only [macRcptsEncodeT, alone_bind, getAttrT_alone, ha]
      rw [hx]; rfl
    | ok alg =>
      have hw := macRcptsEncodeT_alone C R b t0 alg ha (r :: t) []
      simp only [List.nil_append, List.length_nil, List.length_cons] at hw
      rw [hw]
      simp only
      cases hx : rcptsEncodeE C R [] 0 (r :: t) with
      | mk x rs => cases x <;> rfl

theorem Mac.encodeT_alone (C : Crypto) (R : Rand) (tag mac : Bool) (m : Mac) :
    (Mac.encodeT C R tag mac).alone m = valOf ((Mac.encodeE C R tag mac).run m) := by
  simp only [Mac.encodeT, alone_bind, alone_attr, alone_ite, phdrEncodedT_alone, Mac.finishT_alone, Mac.encodeE]
  cases hp : m.base.phdrEncoded with
  | error e => simp only [bind, Except.bind, Eff.expr, hp, valOf]
  | ok pe =>
    simp only [bind, Except.bind, Eff.expr, hp, valOf]
    cases mac with
    | true =>
      simp only [ite_true]
      rw [Mac.computeTagT_alone C R m, valOf]
      cases hx : (Mac.computeTagE C R).run m with
      | mk x m' => cases x <;> rfl
    | false => rfl

/-! ### Threads that run together

A thread relies on the facts `K` about the shared object; the changes by all threads satisfy the relation `G`. -/

namespace Thr
variable {σ α β : Type}

/-- A fact that no change in `G` makes false. -/
def Stable (G : σ → σ → Prop) (K : σ → Prop) : Prop := ∀ s s', K s → G s s' → K s'

/-- From states in which `K` holds, the thread makes only changes in `G`, and a result of it is in `P`. -/
def Safe (G : σ → σ → Prop) (P : Res α → Prop) : Thr σ α → (σ → Prop) → Prop
  | done r, _ => P r
  | step f k, K => ∀ s, K s → G s (f s) ∧ ∃ K', Stable G K' ∧ K' (f s) ∧ Safe G P (k s) K'

/-- The threads `ts` in the state `s`; thread `i` has to give a result in `P i`. -/
def SafeAll (G : σ → σ → Prop) (P : Nat → Res α → Prop) (c : σ × List (Thr σ α)) : Prop :=
  ∀ i t, c.2[i]? = some t → ∃ K, Stable G K ∧ K c.1 ∧ Safe G (P i) t K

theorem safeAll_step {G : σ → σ → Prop} {P : Nat → Res α → Prop} {c : σ × List (Thr σ α)} (h : SafeAll G P c) (i : Nat) :
    SafeAll G P (stepAt i c) ∧ (G c.1 (stepAt i c).1 ∨ c.1 = (stepAt i c).1) := by
  unfold stepAt
  split
  · rename_i f k hi
    obtain ⟨K, hs, hk, hsafe⟩ := h i _ hi
    obtain ⟨hg, K', hs', hk', hsafe'⟩ := hsafe c.1 hk
    refine ⟨?_, .inl hg⟩
    intro j t hj
    simp only at hj
    by_cases hij : i = j
    · subst hij
      have hlt : i < c.2.length := by
        rcases Nat.lt_or_ge i c.2.length with h1 | h1
        · exact h1
        · rw [List.getElem?_eq_none h1] at hi; cases hi
      rw [List.getElem?_set_self hlt] at hj
      cases hj
      exact ⟨K', hs', hk', hsafe'⟩
    · rw [List.getElem?_set_ne hij] at hj
      obtain ⟨Kj, hsj, hkj, hsafej⟩ := h j t hj
      exact ⟨Kj, hsj, hsj _ _ hkj hg, hsafej⟩
  · exact ⟨h, .inr rfl⟩

/-- Soundness: in every execution, a thread that has finished has a result in `P`, and every fact that is stable stays true. -/
theorem safeAll_exec {G : σ → σ → Prop} {P : Nat → Res α → Prop} (sched : List Nat) {c : σ × List (Thr σ α)} (h : SafeAll G P c) :
    (∀ i r, (exec sched c).2[i]? = some (done r) → P i r) ∧ ∀ K, Stable G K → K c.1 → K (exec sched c).1 := by
  induction sched generalizing c with
  | nil =>
    refine ⟨fun i r hi => ?_, fun K _ hk => hk⟩
    obtain ⟨K, _, _, hs⟩ := h i _ hi
    exact hs
  | cons j t ih =>
    obtain ⟨h1, h2⟩ := safeAll_step h j
    obtain ⟨h3, h4⟩ := ih h1
    refine ⟨h3, fun K hK hk => h4 K hK ?_⟩
    rcases h2 with h2 | h2
    · exact hK _ _ hk h2
    · rw [← h2]; exact hk

/-- The number of threads does not change. -/
theorem exec_length (sched : List Nat) (c : σ × List (Thr σ α)) : (exec sched c).2.length = c.2.length := by
  induction sched generalizing c with
  | nil => rfl
  | cons i t ih =>
    rw [exec, ih]
    unfold stepAt
    split <;> simp

theorem exec_append (a b : List Nat) (c : σ × List (Thr σ α)) : exec (a ++ b) c = exec b (exec a c) := by
  induction a generalizing c with
  | nil => rfl
  | cons i t ih => exact ih _

theorem stepAt_other {i j : Nat} (h : i ≠ j) (c : σ × List (Thr σ α)) : (stepAt i c).2[j]? = c.2[j]? := by
  unfold stepAt
  split
  · simp [List.getElem?_set_ne h]
  · rfl

/-- A thread that gets enough turns finishes. -/
theorem can_finish (t : Thr σ α) (i : Nat) (c : σ × List (Thr σ α)) (h : c.2[i]? = some t) :
    ∃ n r, (exec (List.replicate n i) c).2[i]? = some (done r) ∧
      (∀ j, j ≠ i → (exec (List.replicate n i) c).2[j]? = c.2[j]?) ∧ ((exec (List.replicate n i) c).1, r) = ((t.alone c.1).2, (t.alone c.1).1) := by
  induction t generalizing c with
  | done r => exact ⟨0, r, h, fun _ _ => rfl, rfl⟩
  | step f k ih =>
    have hlt : i < c.2.length := by
      rcases Nat.lt_or_ge i c.2.length with h1 | h1
      · exact h1
      · rw [List.getElem?_eq_none h1] at h; cases h
    have hs : stepAt i c = (f c.1, c.2.set i (k c.1)) := by unfold stepAt; rw [h]
    obtain ⟨n, r, h1, h2, h3⟩ := ih c.1 (stepAt i c) (by rw [hs]; exact List.getElem?_set_self hlt)
    refine ⟨n + 1, r, h1, fun j hj => ?_, ?_⟩
    · show (exec (List.replicate n i) (stepAt i c)).2[j]? = _
      rw [h2 j hj, stepAt_other (fun h => hj h.symm)]
    · show ((exec (List.replicate n i) (stepAt i c)).1, r) = _
      rw [h3, hs]; rfl

/-- Every execution can be continued until all threads have finished. -/
theorem all_finish (c : σ × List (Thr σ α)) : ∃ more, ∀ i, i < c.2.length → ∃ r, (exec more c).2[i]? = some (done r) := by
  suffices h : ∀ n, n ≤ c.2.length → ∃ more, ∀ i, i < n → ∃ r, (exec more c).2[i]? = some (done r) from h _ (Nat.le_refl _)
  intro n
  induction n with
  | zero => exact fun _ => ⟨[], fun i hi => absurd hi (Nat.not_lt_zero i)⟩
  | succ n ih =>
    intro hn
    obtain ⟨more, hm⟩ := ih (by omega)
    have hl : n < (exec more c).2.length := by rw [exec_length]; omega
    obtain ⟨k, r, h1, h2, _⟩ := can_finish _ n (exec more c) (List.getElem?_eq_getElem hl)
    refine ⟨more ++ List.replicate k n, fun i hi => ?_⟩
    rw [exec_append]
    by_cases hin : i = n
    · subst hin; exact ⟨r, h1⟩
    · rw [h2 i hin]; exact hm i (by omega)

theorem safe_weaken {G : σ → σ → Prop} {P Q : Res α → Prop} {t : Thr σ α} {K : σ → Prop} (h : ∀ r, P r → Q r) (ht : Safe G P t K) :
    Safe G Q t K := by
  induction t generalizing K with
  | done r => exact h r ht
  | step f k ih =>
    intro s hs
    obtain ⟨hg, K', h1, h2, h3⟩ := ht s hs
    exact ⟨hg, K', h1, h2, ih s h3⟩

/-! #### Threads that only look at a part of the object -/

/-- The thread changes nothing, and what it does depends only on the part `v` of the object. -/
def Sees {γ : Type} (v : σ → γ) : Thr σ α → Prop
  | done _ => True
  | step f k => (∀ s, f s = s) ∧ (∀ s s', v s = v s' → k s = k s') ∧ ∀ s, Sees v (k s)

variable {γ : Type} {v : σ → γ}

theorem sees_bind {t : Thr σ α} {f : α → Thr σ β} (ht : Sees v t) (hf : ∀ a, Sees v (f a)) : Sees v (t >>= f) := by
  show Sees v (andThen t f)
  induction t with
  | done r => cases r with
    | ok a => exact hf a
    | error e => trivial
  | step g k ih =>
    exact ⟨ht.1, fun s s' h => by show (k s).andThen f = _; rw [ht.2.1 s s' h], fun s => ih s (ht.2.2 s)⟩

theorem sees_done (r : Res α) : Sees v (done r : Thr σ α) := trivial
theorem sees_pure (a : α) : Sees v (pure a : Thr σ α) := trivial
theorem sees_expr (r : Res α) : Sees v (expr r : Thr σ α) := trivial
theorem sees_raise (e : PyErr) : Sees v (raise e : Thr σ α) := trivial
theorem sees_attr {f : σ → α} (h : ∀ s s', v s = v s' → f s = f s') : Sees v (attr f) :=
  ⟨fun _ => rfl, fun s s' hs => by show done (.ok (f s)) = _; rw [h s s' hs], fun _ => trivial⟩
theorem sees_ite {c : Prop} [Decidable c] {a b : Thr σ α} (ha : Sees v a) (hb : Sees v b) : Sees v (if c then a else b) := by
  split
  · exact ha
  · exact hb

/-- A thread of which the part `v` is all it sees gives the result it gives alone, as long as this part stays as it is. -/
theorem safe_sees {G : σ → σ → Prop} {P : Res β → Prop} {K : σ → Prop} {t : Thr σ α} {f : α → Thr σ β} (ht : Sees v t)
    (hG : ∀ s, K s → G s s) (hK : Stable G K) {s0 : σ} (hv : ∀ s, K s → v s = v s0)
    (h : match (t.alone s0).1 with | .ok a => Safe G P (f a) K | .error e => P (.error e)) : Safe G P (t >>= f) K := by
  show Safe G P (andThen t f) K
  induction t with
  | done r => cases r with
    | ok a => exact h
    | error e => exact h
  | step g k ih =>
    intro s hs
    have hg := ht.1 s
    rw [hg]
    refine ⟨hG s hs, K, hK, hs, ?_⟩
    have hk : k s = k s0 := ht.2.1 s s0 (hv s hs)
    show Safe G P ((k s).andThen f) K
    rw [hk]
    refine ih s0 (ht.2.2 s0) ?_
    have : (alone (step g k) s0) = alone (k s0) s0 := by rw [alone, ht.1 s0]
    rw [this] at h
    exact h

theorem bind_pure' (t : Thr σ α) : (t >>= fun a => pure a) = t := by
  show andThen t _ = t
  induction t with
  | done r => cases r <;> rfl
  | step g k ih => exact congrArg (step g) (funext fun s => ih s)

theorem safe_sees_end {G : σ → σ → Prop} {P : Res α → Prop} {K : σ → Prop} {t : Thr σ α} (ht : Sees v t)
    (hG : ∀ s, K s → G s s) (hK : Stable G K) {s0 : σ} (hv : ∀ s, K s → v s = v s0) (h : P (t.alone s0).1) : Safe G P t K := by
  rw [← bind_pure' t]
  refine safe_sees ht hG hK hv ?_
  split
  · rename_i h1; rw [h1] at h; exact h
  · rename_i h1; rw [h1] at h; exact h

theorem alone_sees {t : Thr σ α} (ht : Sees v t) (s : σ) : (t.alone s).2 = s := by
  suffices h : ∀ s', (t.alone s').2 = s' from h s
  induction t with
  | done r => exact fun _ => rfl
  | step g k ih => intro s'; rw [alone, ht.1]; exact ih s' (ht.2.2 s') s'

end Thr

/-! ### What the methods look at -/

section
variable {σ γ : Type} {v : σ → γ} {g : σ → Base}

theorem sees_getAttrT (h : ∀ s s', v s = v s' → (g s).phdr = (g s').phdr ∧ (g s).uhdr = (g s').uhdr) (c : Cls) : Sees v (getAttrT g c) :=
  sees_bind (sees_attr fun s s' hs => (h s s' hs).1) fun _ =>
    sees_bind (sees_attr fun s s' hs => (h s s' hs).2) fun _ => sees_expr _

theorem sees_phdrEncodedT
    (h : ∀ s s', v s = v s' → (g s).phdrEnc = (g s').phdrEnc ∧ (g s).phdr = (g s').phdr ∧ (g s).tstr = (g s').tstr) :
    Sees v (phdrEncodedT g) := by
  refine sees_bind (sees_attr fun s s' hs => (h s s' hs).1) fun e => ?_
  refine sees_ite (sees_bind (sees_attr fun s s' hs => (h s s' hs).1) fun _ => sees_pure _) ?_
  refine sees_bind (sees_attr fun s s' hs => by rw [(h s s' hs).2.1]) fun n => ?_
  refine sees_ite ?_ (sees_pure _)
  exact sees_bind (sees_attr fun s s' hs => (h s s' hs).2.1) fun _ =>
    sees_bind (sees_attr fun s s' hs => (h s s' hs).2.2) fun _ => sees_bind (sees_expr _) fun _ => sees_pure _

theorem sees_finishT (h : ∀ s s', v s = v s' → (g s).tstr = (g s').tstr) (n : Nat) (tag : Bool) (l : List Val) :
    Sees v (finishT g n tag l) :=
  sees_bind (sees_attr fun s s' hs => h s s' hs) fun _ => sees_bind (sees_expr _) fun _ => sees_pure _

variable (h : ∀ s s', v s = v s' → g s = g s')
include h

theorem sees_base {β : Type} (f : Base → β) : Sees v (attr fun s => f (g s)) := sees_attr fun s s' hs => by rw [h s s' hs]

theorem sees_getAttrT' (c : Cls) : Sees v (getAttrT g c) := sees_getAttrT (fun s s' hs => by rw [h s s' hs]; exact ⟨rfl, rfl⟩) c
theorem sees_phdrEncodedT' : Sees v (phdrEncodedT g) := sees_phdrEncodedT fun s s' hs => by rw [h s s' hs]; exact ⟨rfl, rfl, rfl⟩
theorem sees_finishT' (n : Nat) (tag : Bool) (l : List Val) : Sees v (finishT g n tag l) := sees_finishT (fun s s' hs => by rw [h s s' hs]) n tag l

theorem sees_baseStructureT : Sees v (baseStructureT g) := by
  refine sees_bind (sees_base h fun b => b.phdr.length) fun n => sees_ite ?_ ?_
  · exact sees_bind (sees_base h Base.aad) fun _ => sees_pure _
  · exact sees_bind (sees_phdrEncodedT' h) fun _ => sees_bind (sees_base h Base.aad) fun _ => sees_pure _

theorem sees_keyVerificationT (alg : Val) (op : Cls) : Sees v (keyVerificationT g alg op) := by
  have hk : Sees v (attr fun s => (g s).key) := sees_base h Base.key
  refine sees_bind hk fun _ => sees_ite (sees_raise _) ?_
  refine sees_bind hk fun _ => sees_ite (sees_bind hk fun _ => sees_expr _) ?_
  refine sees_bind hk fun _ => sees_ite (sees_bind hk fun _ => sees_expr _) ?_
  exact sees_bind hk fun _ => sees_ite (sees_bind hk fun _ => sees_expr _) (sees_raise _)

theorem sees_choosePayloadT (d : Option Bytes) : Sees v (choosePayloadT g d) := by
  have hk : Sees v (attr fun s => (g s).payload) := sees_base h Base.payload
  cases d with
  | none => exact sees_bind hk fun _ => sees_ite (sees_raise _) (sees_bind hk fun _ => sees_pure _)
  | some d => exact sees_bind hk fun _ => sees_ite (sees_raise _) (sees_pure _)

theorem sees_computeSignatureT (C : Crypto) (rnd : Bytes) {tbs : Thr σ Bytes} (ht : Sees v tbs) : Sees v (computeSignatureT g C rnd tbs) :=
  sees_bind (sees_getAttrT' h _) fun _ => sees_bind (sees_keyVerificationT h _ _) fun _ => sees_bind (sees_expr _) fun _ =>
    sees_bind (sees_base h Base.key) fun _ => sees_bind ht fun _ => sees_bind (sees_expr _) fun _ => sees_pure _

theorem sees_verifySignatureT (C : Crypto) {tbs : Thr σ Bytes} (ht : Sees v tbs) {sig : σ → Val} (hs : ∀ s s', v s = v s' → sig s = sig s') :
    Sees v (verifySignatureT g C tbs sig) :=
  sees_bind (sees_getAttrT' h _) fun _ => sees_bind (sees_keyVerificationT h _ _) fun _ => sees_bind (sees_expr _) fun _ =>
    sees_bind (sees_base h Base.key) fun _ => sees_bind ht fun _ => sees_bind (sees_attr hs) fun _ => sees_bind (sees_expr _) fun _ =>
      sees_pure _

theorem sees_sign1StructureT (d : Option Bytes) : Sees v (sign1StructureT g d) :=
  sees_bind (sees_baseStructureT h) fun _ => sees_bind (sees_choosePayloadT h d) fun _ => sees_expr _

theorem sees_signerStructureT {p : σ → Base} (hp : ∀ s s', v s = v s' → p s = p s') (d : Option Bytes) : Sees v (signerStructureT g p d) := by
  refine sees_bind (sees_phdrEncodedT' hp) fun _ => sees_bind (sees_base h fun b => b.phdr.length) fun _ => sees_ite ?_ ?_
  · exact sees_bind (sees_phdrEncodedT' h) fun _ => sees_bind (sees_base h Base.aad) fun _ => sees_bind (sees_choosePayloadT hp d) fun _ =>
      sees_expr _
  · exact sees_bind (sees_base h Base.aad) fun _ => sees_bind (sees_choosePayloadT hp d) fun _ => sees_expr _

theorem sees_macStructureT (context : Bytes) : Sees v (macStructureT g context) :=
  sees_bind (sees_baseStructureT h) fun _ => sees_bind (sees_base h Base.payload) fun _ => sees_ite (sees_raise _)
    (sees_bind (sees_base h Base.payload) fun _ => sees_expr _)

theorem sees_macVerifyT (C : Crypto) (context : Bytes) {tag : σ → Val} (hs : ∀ s s', v s = v s' → tag s = tag s') :
    Sees v (macVerifyT g C context tag) :=
  sees_bind (sees_getAttrT' h _) fun _ => sees_bind (sees_base h Base.key) fun _ => sees_ite (sees_raise _) <|
    sees_bind (sees_base h Base.key) fun _ => sees_bind (sees_expr _) fun _ => sees_bind (sees_expr _) fun _ =>
    sees_bind (sees_base h Base.key) fun _ => sees_bind (sees_attr hs) fun _ => sees_bind (sees_macStructureT h context) fun _ =>
    sees_bind (sees_expr _) fun _ => sees_pure _

theorem sees_encStructureT (context : Bytes) : Sees v (encStructureT g context) :=
  sees_bind (sees_baseStructureT h) fun _ => sees_expr _

theorem sees_getNonceT : Sees v (getNonceT g) := by
  refine sees_bind (sees_getAttrT' h _) fun _ => sees_ite (sees_pure _) ?_
  refine sees_bind (sees_base h Base.key) fun _ => sees_bind (sees_expr _) fun _ => sees_ite ?_ ?_
  · exact sees_bind (sees_getAttrT' h _) fun _ => sees_bind (sees_expr _) fun _ => sees_bind (sees_base h Base.key) fun _ =>
      sees_bind (sees_expr _) fun _ => sees_bind (sees_expr _) fun _ => sees_pure _
  · exact sees_bind (sees_base h Base.key) fun _ => sees_bind (sees_expr _) fun _ => sees_ite (sees_raise _) (sees_pure _)

theorem sees_encEncryptT (C : Crypto) (context : Bytes) : Sees v (encEncryptT g C context) :=
  sees_bind (sees_base h Base.key) fun _ => sees_ite (sees_raise _) <| sees_bind (sees_getAttrT' h _) fun _ =>
    sees_bind (sees_getNonceT h) fun _ => sees_bind (sees_base h Base.key) fun _ => sees_bind (sees_expr _) fun _ =>
    sees_bind (sees_expr _) fun _ => sees_bind (sees_base h Base.key) fun _ => sees_bind (sees_base h Base.payload) fun _ =>
    sees_bind (sees_encStructureT h context) fun _ => sees_bind (sees_expr _) fun _ => sees_pure _

theorem sees_encDecryptT (C : Crypto) (context : Bytes) : Sees v (encDecryptT g C context) :=
  sees_bind (sees_getAttrT' h _) fun _ => sees_bind (sees_getNonceT h) fun _ =>
    sees_bind (sees_base h Base.key) fun _ => sees_ite (sees_raise _) <|
    sees_bind (sees_base h Base.key) fun _ => sees_bind (sees_expr _) fun _ =>
    sees_bind (sees_expr _) fun _ => sees_bind (sees_base h Base.key) fun _ => sees_bind (sees_base h Base.payload) fun _ =>
    sees_bind (sees_encStructureT h context) fun _ => sees_bind (sees_expr _) fun _ => sees_pure _
end

theorem sees_sign1_compute (C : Crypto) (rnd : Bytes) (d : Option Bytes) : Sees (id : Sign1 → Sign1) (Sign1.computeSignatureT C rnd d) :=
  sees_computeSignatureT (fun _ _ h => congrArg Sign1.base h) C rnd (sees_sign1StructureT (fun _ _ h => congrArg Sign1.base h) d)

theorem sees_sign1_verify (C : Crypto) (d : Option Bytes) : Sees (id : Sign1 → Sign1) (Sign1.verifySignatureT C d) :=
  sees_verifySignatureT (fun _ _ h => congrArg Sign1.base h) C (sees_sign1StructureT (fun _ _ h => congrArg Sign1.base h) d)
    fun _ _ h => congrArg Sign1.signature h

theorem sees_id {σ β : Type} (f : σ → β) : Sees (id : σ → σ) (attr f) := sees_attr fun _ _ h => congrArg f h

theorem sees_sign1_encode (C : Crypto) (rnd : Bytes) (tag sign : Bool) (d : Option Bytes) :
    Sees (id : Sign1 → Sign1) (Sign1.encodeT C rnd tag sign d) := by
  have hb : ∀ s s' : Sign1, id s = id s' → s.base = s'.base := fun _ _ h => congrArg Sign1.base h
  refine sees_ite ?_ (sees_bind (sees_id _) fun _ => sees_ite ?_ ?_)
  · exact sees_bind (sees_phdrEncodedT' hb) fun _ => sees_bind (sees_id _) fun _ => sees_bind (sees_id _) fun _ =>
      sees_bind (sees_sign1_compute C rnd d) fun _ => sees_finishT' hb _ _ _
  · exact sees_bind (sees_phdrEncodedT' hb) fun _ => sees_bind (sees_id _) fun _ => sees_bind (sees_id _) fun _ =>
      sees_bind (sees_id _) fun _ => sees_finishT' hb _ _ _
  · exact sees_bind (sees_phdrEncodedT' hb) fun _ => sees_bind (sees_id _) fun _ => sees_bind (sees_id _) fun _ => sees_finishT' hb _ _ _

theorem sees_sign_verify (C : Crypto) (i : Nat) (d : Option Bytes) : Sees (id : SignMsg → SignMsg) (SignMsg.verifyT C i d) :=
  sees_verifySignatureT (fun _ _ h => congrArg (SignMsg.signer i) h) C
    (sees_signerStructureT (fun _ _ h => congrArg (SignMsg.signer i) h) (fun _ _ h => congrArg SignMsg.base h) d)
    fun _ _ h => congrArg (fun m => optBytes (SignMsg.signer i m).payload) h

theorem sees_signersEncodeT (C : Crypto) (rnd : Nat → Bytes) (d : Option Bytes) (n i : Nat) :
    Sees (id : SignMsg → SignMsg) (signersEncodeT C rnd d n i) := by
  induction n generalizing i with
  | zero => exact sees_pure _
  | succ n ih =>
    have hb : ∀ s s' : SignMsg, id s = id s' → SignMsg.signer i s = SignMsg.signer i s' := fun _ _ h => congrArg (SignMsg.signer i) h
    exact sees_bind (sees_phdrEncodedT' hb) fun _ => sees_bind (sees_id _) fun _ =>
      sees_bind (sees_computeSignatureT hb C _ (sees_signerStructureT hb (fun _ _ h => congrArg SignMsg.base h) d)) fun _ =>
      sees_bind (ih (i + 1)) fun _ => sees_pure _

theorem sees_sign_encode (C : Crypto) (rnd : Nat → Bytes) (tag : Bool) (d : Option Bytes) :
    Sees (id : SignMsg → SignMsg) (SignMsg.encodeT C rnd tag d) := by
  have hb : ∀ s s' : SignMsg, id s = id s' → s.base = s'.base := fun _ _ h => congrArg SignMsg.base h
  exact sees_bind (sees_phdrEncodedT' hb) fun _ => sees_bind (sees_id _) fun _ => sees_bind (sees_id _) fun _ => sees_bind (sees_id _) fun _ =>
    sees_ite (sees_bind (sees_id _) fun _ => sees_bind (sees_signersEncodeT C rnd d _ _) fun _ => sees_finishT' hb _ _ _)
      (sees_finishT' hb _ _ _)

theorem sees_enc0_encode (C : Crypto) (tag enc : Bool) : Sees (id : Enc0 → Enc0) (Enc0.encodeT C tag enc) := by
  have hb : ∀ s s' : Enc0, id s = id s' → s.base = s'.base := fun _ _ h => congrArg Enc0.base h
  exact sees_bind (sees_phdrEncodedT' hb) fun _ => sees_bind (sees_id _) fun _ =>
    sees_ite (sees_bind (sees_encEncryptT hb C _) fun _ => sees_finishT' hb _ _ _)
      (sees_bind (sees_id _) fun _ => sees_finishT' hb _ _ _)

/-! ### A thread that gives the result it gives alone -/

namespace Thr
variable {σ α β γ : Type} {v : σ → γ} {G : σ → σ → Prop} {K : σ → Prop}

theorem bind_assoc' {δ : Type} (t : Thr σ α) (f : α → Thr σ β) (h : β → Thr σ δ) : ((t >>= f) >>= h) = (t >>= fun a => f a >>= h) := by
  show andThen (andThen t f) h = andThen t _
  induction t with
  | done r => cases r <;> rfl
  | step g k ih => exact congrArg (step g) (funext fun s => ih s)

theorem ite_bind {c : Prop} [Decidable c] (a b : Thr σ α) (f : α → Thr σ β) : ((if c then a else b) >>= f) = if c then a >>= f else b >>= f := by
  split <;> rfl

/-- From states with `K`, the thread gives the result it gives alone in the state `m`. -/
def SafeAt (G : σ → σ → Prop) (K : σ → Prop) (m : σ) (t : Thr σ α) : Prop := Safe G (fun r => r = (t.alone m).1) t K

theorem safeAt_done (m : σ) (r : Res α) : SafeAt G K m (done r : Thr σ α) := rfl

theorem safeAt_ite {c : Prop} [Decidable c] {a b : Thr σ α} {m : σ} (ha : c → SafeAt G K m a) (hb : ¬ c → SafeAt G K m b) :
    SafeAt G K m (if c then a else b) := by
  split
  · exact ha ‹_›
  · exact hb ‹_›

theorem safeAt_sees {t : Thr σ α} {f : α → Thr σ β} {m : σ} (hG : ∀ s, K s → G s s) (hK : Stable G K) (hv : ∀ s, K s → v s = v m)
    (ht : Sees v t) (h : ∀ a, (t.alone m).1 = .ok a → SafeAt G K m (f a)) : SafeAt G K m (t >>= f) := by
  unfold SafeAt
  refine safe_sees ht hG hK hv ?_
  rw [alone_bind]
  have hs := alone_sees ht m
  cases ha : t.alone m with
  | mk x s' =>
    rw [ha] at hs h
    cases hs
    cases x with
    | ok a => exact h a rfl
    | error e => rfl

theorem safeAt_sees_end {t : Thr σ α} {m : σ} (hG : ∀ s, K s → G s s) (hK : Stable G K) (hv : ∀ s, K s → v s = v m) (ht : Sees v t) :
    SafeAt G K m t := safe_sees_end ht hG hK hv rfl

theorem safeAt_expr {r : Res α} {f : α → Thr σ β} {m : σ} (h : ∀ a, r = .ok a → SafeAt G K m (f a)) : SafeAt G K m (expr r >>= f) := by
  cases r with
  | ok a => exact h a rfl
  | error e => exact rfl

theorem safeAt_assign {w : σ → σ} {f : Unit → Thr σ β} {m : σ} {K' : σ → Prop} (hw : ∀ s, K s → G s (w s) ∧ K' (w s)) (hK' : Stable G K')
    (h : SafeAt G K' (w m) (f ())) : SafeAt G K m (assign w >>= f) := by
  intro s hs
  exact ⟨(hw s hs).1, K', hK', (hw s hs).2, h⟩

theorem safeAt_atomic {e : Eff σ α} {f : α → Thr σ β} {m : σ} (hG : ∀ s, K s → G s s) (hK : Stable G K) (hm : K m) {r : Res α}
    (he : ∀ s, K s → e.run s = (r, s)) (h : ∀ a, r = .ok a → SafeAt G K m (f a)) : SafeAt G K m (atomic e >>= f) := by
  intro s hs
  refine ⟨?_, K, hK, ?_, ?_⟩
  · show G s (e.run s).2; rw [he s hs]; exact hG s hs
  · show K (e.run s).2; rw [he s hs]; exact hs
  · show Safe G _ (andThen (done (e.run s).1) f) K
    rw [alone_bind, alone_atomic, he s hs, he m hm]
    cases r with
    | ok a => exact h a rfl
    | error e => exact rfl

/-- Reading an attribute that has the same value in all states with `K`. -/
theorem safeAt_attr {a : σ → α} {f : α → Thr σ β} {m : σ} (hG : ∀ s, K s → G s s) (hK : Stable G K) (ha : ∀ s, K s → a s = a m)
    (h : SafeAt G K m (f (a m))) : SafeAt G K m (attr a >>= f) :=
  safeAt_sees (v := a) hG hK ha (sees_attr fun _ _ h => h) fun b hb => by cases hb; exact h

/-- From states with `K`, the thread gives a result that it gives alone in some state with `K`. -/
def SafeSome (G : σ → σ → Prop) (K : σ → Prop) (t : Thr σ α) : Prop := Safe G (fun r => ∃ s, K s ∧ r = (t.alone s).1) t K

theorem safeSome_sees {t : Thr σ α} {f : α → Thr σ β} {m : σ} (hm : K m) (hG : ∀ s, K s → G s s) (hK : Stable G K)
    (hv : ∀ s, K s → v s = v m) (ht : Sees v t) (h : ∀ a, (t.alone m).1 = .ok a → SafeSome G K (f a)) : SafeSome G K (t >>= f) := by
  have hall : ∀ s, K s → t.alone s = ((t.alone m).1, s) := by
    intro s hs
    have : ∀ (t : Thr σ α), Sees v t → t.alone s = ((t.alone m).1, s) := by
      intro t
      induction t with
      | done r => intro _; rfl
      | step g k ih =>
        intro ht
        rw [alone, alone, ht.1, ht.1, ht.2.1 s m (hv s hs)]
        exact ih m (ht.2.2 m)
    exact this t ht
  unfold SafeSome
  refine safe_sees ht hG hK hv ?_
  cases ha : (t.alone m).1 with
  | ok a =>
    have he : ∀ s, K s → (t >>= f).alone s = (f a).alone s := fun s hs => by rw [alone_bind, hall s hs, ha]
    have := h a ha
    unfold SafeSome at this
    simp only
    refine (show Safe G (fun r => ∃ s, K s ∧ r = ((f a).alone s).1) (f a) K → _ from fun hh => ?_) this
    have hp : (fun r => ∃ s, K s ∧ r = ((t >>= f).alone s).1) = (fun r => ∃ s, K s ∧ r = ((f a).alone s).1) := by
      funext r
      exact propext ⟨fun ⟨s, hs, hr⟩ => ⟨s, hs, by rw [← he s hs]; exact hr⟩, fun ⟨s, hs, hr⟩ => ⟨s, hs, by rw [he s hs]; exact hr⟩⟩
    rw [hp]; exact hh
  | error e =>
    exact ⟨m, hm, by rw [alone_bind, hall m hm, ha]⟩

theorem safeSome_ite {c : Prop} [Decidable c] {a b : Thr σ α} (ha : c → SafeSome G K a) (hb : ¬ c → SafeSome G K b) :
    SafeSome G K (if c then a else b) := by
  split
  · exact ha ‹_›
  · exact hb ‹_›

/-- The one access to an attribute that changes. -/
theorem safeSome_attr {a : σ → α} {f : α → Thr σ β} (hG : ∀ s, K s → G s s) (hK : Stable G K) (hf : ∀ x, Sees v (f x))
    (hv : ∀ s s', K s → K s' → v s = v s') : SafeSome G K (attr a >>= f) := by
  intro s hs
  refine ⟨hG s hs, K, hK, hs, ?_⟩
  exact safe_sees_end (hf (a s)) hG hK (s0 := s) (fun s' hs' => hv s' s hs' hs) ⟨s, hs, rfl⟩

end Thr

end Cose
