import Verif.Raise
import Verif.EncodeLemmas
/-!
# The model of raising calls agrees with the model of returning ones
-/
set_option autoImplicit false
namespace Cose
open Eff

/-- The two models of a method agree: same value and object, or same exception. -/
def Spec.Agrees {σ α : Type} (x : Res α × σ) : Res (α × σ) → Prop
  | .ok (a, s) => x = (.ok a, s)
  | .error e => x.1 = .error e

section
variable {σ α β : Type}
theorem expr_bind {f : σ → Res α} {g : α → Eff σ β} {s : σ} :
    (expr f >>= g).run s = (match f s with | .ok a => (g a).run s | .error e => (.error e, s)) := by
  show (match (f s, s) with | (.ok a, s') => (g a).run s' | (.error e, s') => (.error e, s')) = _
  cases f s <;> rfl
theorem self_bind {g : σ → Eff σ β} {s : σ} : (self >>= g).run s = (g s).run s := rfl
theorem assign_bind {f : σ → σ} {g : Unit → Eff σ β} {s : σ} : (assign f >>= g).run s = (g ()).run (f s) := rfl
theorem raise_bind {e : PyErr} {g : α → Eff σ β} {s : σ} : ((raise e : Eff σ α) >>= g).run s = (.error e, s) := rfl
theorem eff_bind {m : Eff σ α} {g : α → Eff σ β} {s : σ} :
    (m >>= g).run s = (match m.run s with | (.ok a, s') => (g a).run s' | (.error e, s') => (.error e, s')) := rfl
theorem expr_run {f : σ → Res α} {s : σ} : (expr f).run s = (f s, s) := rfl
theorem raise_run {e : PyErr} {s : σ} : (raise e : Eff σ α).run s = (.error e, s) := rfl
theorem assign_run {f : σ → σ} {s : σ} : (assign f).run s = (.ok (), f s) := rfl
theorem pure_run {a : α} {s : σ} : (pure a : Eff σ α).run s = (.ok a, s) := rfl
theorem call_run {τ : Type} {get : σ → τ} {put : σ → τ → σ} {m : τ → Res α × τ} {s : σ} :
    (call get put m).run s = ((m (get s)).1, put s (m (get s)).2) := rfl

theorem agrees_expr {f : σ → Res α} {g : α → Eff σ β} {s : σ} {G : α → Res (β × σ)}
    (h : ∀ a, f s = .ok a → Spec.Agrees ((g a).run s) (G a)) : Spec.Agrees ((expr f >>= g).run s) (f s >>= G) := by
  rw [expr_bind]
  cases hf : f s with
  | error e => simp [Spec.Agrees, error_bind]
  | ok a => simpa [ok_bind] using h a hf
theorem agrees_bind {m : Eff σ α} {g : α → Eff σ β} {s : σ} {F : Res (α × σ)} {G : α × σ → Res (β × σ)} (hm : Spec.Agrees (m.run s) F)
    (h : ∀ a s', F = .ok (a, s') → Spec.Agrees ((g a).run s') (G (a, s'))) : Spec.Agrees ((m >>= g).run s) (F >>= G) := by
  rw [eff_bind]
  cases F with
  | error e =>
    simp only [Spec.Agrees] at hm
    generalize m.run s = x at hm ⊢
    obtain ⟨x1, x2⟩ := x
    simp at hm; subst hm
    simp [Spec.Agrees, error_bind]
  | ok p =>
    obtain ⟨a, s'⟩ := p
    simp only [Spec.Agrees] at hm
    rw [hm]
    exact h a s' rfl
theorem agrees_last {f : σ → Res α} {s : σ} : Spec.Agrees ((expr f).run s) (do let a ← f s; .ok (a, s)) := by
  rw [expr_run]
  cases f s <;> simp [Spec.Agrees, error_bind, ok_bind]
theorem agrees_raise {e : PyErr} {s : σ} : Spec.Agrees ((raise e : Eff σ α).run s) (.error e) := rfl
theorem agrees_map {x : Res α × σ} {y : Res (α × σ)} {τ : Type} (f : σ → τ) (h : Spec.Agrees x y) :
    Spec.Agrees (x.1, f x.2) (do let (a, s) ← y; .ok (a, f s)) := by
  cases y with
  | error e => simpa [Spec.Agrees] using h
  | ok p =>
    obtain ⟨a, s⟩ := p
    simp only [Spec.Agrees] at h
    rw [h]
    simp [Spec.Agrees, ok_bind]

theorem agrees_of_ok {x : Res α × σ} {y : Res (α × σ)} (h : Spec.Agrees x y) {a : α} {s : σ} (hx : x = (.ok a, s)) : y = .ok (a, s) := by
  cases y with
  | ok p => obtain ⟨a', s'⟩ := p; simp only [Spec.Agrees] at h; rw [hx] at h; simp at h; simp [h]
  | error e => simp [Spec.Agrees, hx] at h
theorem agrees_of_error {x : Res α × σ} {y : Res (α × σ)} (h : Spec.Agrees x y) {e : PyErr} (hx : x.1 = .error e) : y = .error e := by
  cases y with
  | ok p => obtain ⟨a', s'⟩ := p; simp only [Spec.Agrees] at h; rw [h] at hx; simp at hx
  | error e' => simp only [Spec.Agrees] at h; rw [hx] at h; simp at h; simp [h]
end

theorem setup_agrees {C : Crypto} {d : Nat} {peer : Val} {b : Base} :
    Spec.Agrees ((setupEphemeralE C d peer).run b) (do let b' ← setupEphemeral C d b peer; .ok ((), b')) := by
  unfold setupEphemeralE setupEphemeral
  simp only [bind_assoc]
  refine agrees_expr fun pk h1 => agrees_expr fun crv h2 => agrees_expr fun k h3 => ?_
  rw [assignKey, assign_bind]
  have : (Base.getAttr { b with key := some k } Hdr.EphemeralKey) = b.getAttr Hdr.EphemeralKey := rfl
  rw [← this]
  refine agrees_expr fun e h4 => ?_
  split
  · exact agrees_raise
  · split
    · exact agrees_raise
    · rfl

theorem wrap_tail {C : Crypto} {b' : Base} {peer alg : Val} : Spec.Agrees ((expr fun b => kakwWrap C b peer alg).run b') (do
      let w ← keyWrapFunc alg
      let kek ← agreeKek C b' w peer b'.key alg
      match algFam w with
      | some (.aesKw n) => do
        let k ← mkSym (.bytes kek) alg [Op.DeriveKey]
        let c ← kwKeyWrap C n k b'.payload
        .ok (c, b')
      | _ => .error .attributeError) := by
  rw [expr_run]
  unfold kakwWrap
  cases keyWrapFunc alg with
  | error e => simp [Spec.Agrees, error_bind]
  | ok w =>
    simp only [ok_bind]
    cases agreeKek C b' w peer b'.key alg with
    | error e => simp [Spec.Agrees, error_bind]
    | ok kek =>
      simp only [ok_bind]
      split
      · rename_i n hw
        simp only [hw]
        cases mkSym (.bytes kek) alg [Op.DeriveKey] with
        | error e => simp [Spec.Agrees, error_bind]
        | ok k =>
          simp only [ok_bind]
          cases kwKeyWrap C n k b'.payload <;> simp [Spec.Agrees, error_bind, ok_bind]
      · simp [Spec.Agrees]

theorem kakw_agrees {C : Crypto} {d : Nat} {b : Base} : Spec.Agrees ((kakwEncryptE C d).run b) (kakwEncrypt C d b) := by
  unfold kakwEncryptE kakwEncrypt
  rw [expr_bind]
  simp only
  split
  · exact agrees_raise
  · refine agrees_expr fun alg h1 => ?_
    split
    · exact agrees_raise
    · rw [expr_bind]
      simp only
      cases hk : b.key with
      | some k =>
        rw [if_neg (by simp)]
        have := wrap_tail (C := C) (b' := b) (peer := getD b.localAttrs Hdr.StaticKey Val.none) (alg := alg)
        simp only [ok_bind]
        exact this
      | none =>
        rw [if_pos rfl]
        simp only
        refine agrees_expr fun es h2 => ?_
        cases es with
        | false => exact agrees_raise
        | true =>
          simp only [if_true]
          have hs := setup_agrees (C := C) (d := d) (peer := getD b.localAttrs Hdr.StaticKey Val.none) (b := b)
          have := agrees_bind hs (G := fun p => do
            let w ← keyWrapFunc alg
            let kek ← agreeKek C p.2 w (getD b.localAttrs Hdr.StaticKey Val.none) p.2.key alg
            match algFam w with
            | some (.aesKw n) => do
              let k ← mkSym (.bytes kek) alg [Op.DeriveKey]
              let c ← kwKeyWrap C n k p.2.payload
              .ok (c, p.2)
            | _ => .error .attributeError) fun _ b' _ => wrap_tail
          simp only [bind_assoc, ok_bind] at this ⊢
          exact this

theorem rcptEncrypt_agrees {C : Crypto} {R : Rand} {ph : Nat} {path : List Nat} {r : Rcpt} :
    Spec.Agrees ((rcptEncryptE C R ph path).run r) (rcptEncrypt C R ph path r) := by
  unfold rcptEncryptE rcptEncrypt
  rw [self_bind]
  split
  · rename_i h; simp only [h]; exact agrees_last
  · rename_i h
    simp only [h]
    exact agrees_map r.withBase kakw_agrees
  · rename_i h1 h2
    split
    · rename_i h; exact absurd h h1
    · rename_i h; exact absurd h h2
    · exact agrees_raise

theorem dkaHead_agrees {b : Base} {rs : List Rcpt} {alg : Val} : Spec.Agrees ((expr fun b => dkaHead b rs alg).run b) (
        if rs.length > 1 then .error .malformedMessage
        else do
          let e ← b.getAttr Hdr.EphemeralKey
          let missing ← lacksEphemeral alg e
          if missing then .error .malformedMessage
          else do
            let pe ← b.phdrEncoded
            .ok ([.bytes pe, .map b.uhdr, .bytes []], b)) := by
  rw [expr_run]
  unfold dkaHead
  split
  · rfl
  · cases b.getAttr Hdr.EphemeralKey with
    | error e => rfl
    | ok e =>
      simp only [ok_bind]
      cases lacksEphemeral alg e with
      | error e' => rfl
      | ok missing =>
        simp only [ok_bind]
        split
        · rfl
        · cases b.phdrEncoded <;> rfl

theorem head_agrees {C : Crypto} {R : Rand} {path : List Nat} {c : RCls} {b : Base} {x : Bytes} {o : Nat} {rs : List Rcpt} :
    Spec.Agrees ((rcptHeadE C R path c rs).run b) (rcptHead C R path (.mk c b x o rs)) := by
  cases c <;> simp only [rcptHeadE, rcptHead]
  · rw [expr_run]
    cases b.getAttr Hdr.Algorithm with
    | error e => rfl
    | ok alg =>
      simp only [ok_bind]
      split
      · rfl
      split
      · rfl
      split
      · rfl
      cases b.phdrEncoded <;> rfl
  · rw [expr_run]
    cases b.phdrEncoded with
    | error e => rfl
    | ok pe =>
      simp only [ok_bind]
      cases kwEncrypt C (R.salt 1 path) b rs <;> rfl
  · refine agrees_expr fun alg h1 => ?_
    split
    · exact agrees_raise
    rw [expr_bind]
    simp only
    split
    · exact agrees_raise
    rw [expr_bind]
    simp only
    cases hk : b.key with
    | some k =>
      rw [if_neg (by simp)]
      exact dkaHead_agrees
    | none =>
      rw [if_pos rfl]
      simp only [bind_assoc]
      refine agrees_expr fun es h2 => ?_
      cases es with
      | false => exact agrees_raise
      | true =>
        simp only [if_true]
        have hs := setup_agrees (C := C) (d := R.eph path) (peer := getD b.localAttrs Hdr.StaticKey Val.none) (b := b)
        have := agrees_bind hs (G := fun p => if rs.length > 1 then (.error .malformedMessage : Res (List Val × Base))
          else do
          let e ← p.2.getAttr Hdr.EphemeralKey
          let missing ← lacksEphemeral alg e
          if missing then .error .malformedMessage
          else do
            let pe ← p.2.phdrEncoded
            .ok ([.bytes pe, .map p.2.uhdr, .bytes []], p.2)) fun _ b' _ => dkaHead_agrees
        simp only [bind_assoc, ok_bind] at this
        exact this
  · refine agrees_expr fun pe h1 => agrees_expr fun alg h2 => agrees_expr fun w h3 => agrees_bind kakw_agrees fun c b' _ => ?_
    rfl

mutual
theorem encode_agrees {C : Crypto} {R : Rand} : ∀ (r : Rcpt) {path : List Nat},
    Spec.Agrees (rcptEncodeE C R path r) (rcptEncode C R path r)
  | .mk c b x o rs, path => by
    have hh := head_agrees (C := C) (R := R) (path := path) (c := c) (b := b) (x := x) (o := o) (rs := rs)
    have ih := encodes_agrees (C := C) (R := R) rs (path := path) (i := 0)
    simp only [rcptEncodeE, rcptEncode]
    cases h1 : rcptHead C R path (.mk c b x o rs) with
    | error e =>
      rw [h1] at hh
      simp only [Spec.Agrees] at hh
      split
      · rename_i h; rw [h] at hh; simpa [Spec.Agrees, error_bind] using hh
      · rename_i h; rw [h] at hh; simp at hh
    | ok p =>
      obtain ⟨l, b'⟩ := p
      rw [h1] at hh
      simp only [Spec.Agrees] at hh
      rw [hh]
      simp only [ok_bind]
      split
      · rfl
      · cases h2 : rcptsEncode C R path 0 rs with
        | error e =>
          rw [h2] at ih
          simp only [Spec.Agrees] at ih
          split
          · rename_i h; rw [h] at ih; simpa [Spec.Agrees, error_bind] using ih
          · rename_i h; rw [h] at ih; simp at ih
        | ok q =>
          obtain ⟨vs, rs'⟩ := q
          rw [h2] at ih
          simp only [Spec.Agrees] at ih
          rw [ih]
          rfl
theorem encodes_agrees {C : Crypto} {R : Rand} : ∀ (rs : List Rcpt) {path : List Nat} {i : Nat},
    Spec.Agrees (rcptsEncodeE C R path i rs) (rcptsEncode C R path i rs)
  | [], path, i => rfl
  | r :: t, path, i => by
    have hh := encode_agrees (C := C) (R := R) r (path := path ++ [i])
    have ih := encodes_agrees (C := C) (R := R) t (path := path) (i := i + 1)
    simp only [rcptsEncodeE, rcptsEncode]
    cases h1 : rcptEncode C R (path ++ [i]) r with
    | error e =>
      rw [h1] at hh
      simp only [Spec.Agrees] at hh
      split
      · rename_i h; rw [h] at hh; simpa [Spec.Agrees, error_bind] using hh
      · rename_i h; rw [h] at hh; simp at hh
    | ok p =>
      obtain ⟨l, b'⟩ := p
      rw [h1] at hh
      simp only [Spec.Agrees] at hh
      rw [hh]
      simp only [ok_bind]
      cases h2 : rcptsEncode C R path (i + 1) t with
      | error e =>
        rw [h2] at ih
        simp only [Spec.Agrees] at ih
        split
        · rename_i h; rw [h] at ih; simpa [Spec.Agrees, error_bind] using ih
        · rename_i h; rw [h] at ih; simp at ih
      | ok q =>
        obtain ⟨vs, rs'⟩ := q
        rw [h2] at ih
        simp only [Spec.Agrees] at ih
        rw [ih]
        rfl
end

theorem wrapLoop_agrees {C : Crypto} {R : Rand} : ∀ (rs : List Rcpt) {i : Nat} {key : Option Bytes},
    Spec.Agrees (wrapLoopE C R i key rs) (wrapLoop C R i key rs)
  | [], i, key => rfl
  | r :: t, i, key => by
    have step : wrapLoop C R i key (r :: t) = (do
        let (_, r') ← rcptEncrypt C R 0 [i] (giveKey key r).2
        let (key, t) ← wrapLoop C R (i + 1) (giveKey key r).1 t
        .ok (key, r' :: t)) := by
      simp only [wrapLoop, giveKey]
    rw [step]
    have hh := rcptEncrypt_agrees (C := C) (R := R) (ph := 0) (path := [i]) (r := (giveKey key r).2)
    have ih := wrapLoop_agrees (C := C) (R := R) t (i := i + 1) (key := (giveKey key r).1)
    simp only [wrapLoopE]
    cases h1 : rcptEncrypt C R 0 [i] (giveKey key r).2 with
    | error e =>
      rw [h1] at hh
      simp only [Spec.Agrees] at hh
      split
      · rename_i h; rw [h] at hh; simpa [Spec.Agrees, error_bind] using hh
      · rename_i h; rw [h] at hh; simp at hh
    | ok p =>
      obtain ⟨l, b'⟩ := p
      rw [h1] at hh
      simp only [Spec.Agrees] at hh
      rw [hh]
      simp only [ok_bind]
      exact agrees_map (fun t' => b' :: t') ih

theorem agrees_call {σ τ α β : Type} {get : σ → τ} {put : σ → τ → σ} {m : τ → Res α × τ} {s : σ} {F : Res (α × τ)} {g : α → Eff σ β}
    {G : α × τ → Res (β × σ)} (hm : Spec.Agrees (m (get s)) F) (h : ∀ a t, F = .ok (a, t) → Spec.Agrees ((g a).run (put s t)) (G (a, t))) :
    Spec.Agrees ((call get put m >>= g).run s) (F >>= G) := by
  rw [eff_bind, call_run]
  cases F with
  | error e =>
    simp only [Spec.Agrees] at hm
    rw [hm]
    rfl
  | ok p =>
    obtain ⟨a, t⟩ := p
    simp only [Spec.Agrees] at hm
    rw [hm]
    exact h a t rfl

theorem encrypt_agrees {C : Crypto} {R : Rand} {m : Enc} : Spec.Agrees ((Enc.encryptE C R).run m) (m.encrypt C R) := by
  unfold Enc.encryptE Enc.encrypt
  refine agrees_expr fun target h1 => agrees_expr fun types h2 => ?_
  split
  · exact agrees_last
  split
  · cases hr : m.recipients with
    | nil =>
      rw [expr_bind]
      simp only [hr]
      rfl
    | cons r t =>
      have : (match m.recipients with
        | [] => (.error .indexError : Res Key)
        | r :: _ => dkaComputeCek C r.base target true) = dkaComputeCek C r.base target true := by rw [hr]
      simp only
      rw [← this]
      refine agrees_expr fun k h3 => ?_
      rw [eff_bind, call_run, assignKey, assign_run]
      simp only
      rw [expr_run]
      simp only
      cases encEncrypt C b!"Encrypt" { m.base with key := some k } with
      | error e => rfl
      | ok c => simp [Spec.Agrees, ok_bind, hr]
  split
  · refine agrees_expr fun n h3 => agrees_call (wrapLoop_agrees m.recipients) fun kb rs h4 => agrees_expr fun k h5 => ?_
    rw [eff_bind, call_run, assignKey, assign_run]
    simp only
    rw [expr_run]
    simp only
    cases encEncrypt C b!"Encrypt" { m.base with key := some k } with
    | error e => rfl
    | ok c => rfl
  · exact agrees_raise

theorem finish_agrees {C : Crypto} {R : Rand} {tag : Bool} {l : List Val} {m : Enc} :
    Spec.Agrees ((Enc.finishE C R tag l).run m) (if m.recipients.isEmpty = true then (do
        let out ← m.base.finish 96 tag l
        Except.ok (out, m) : Res (Bytes × Enc))
      else do
        let _ ← m.base.getAttr Hdr.Algorithm
        let (vs, rs) ← rcptsEncode C R [] 0 m.recipients
        let out ← m.base.finish 96 tag (l ++ [.arr vs])
        .ok (out, { m with recipients := rs })) := by
  unfold Enc.finishE
  rw [self_bind]
  split
  · exact agrees_last
  · refine agrees_expr fun _ _ => agrees_call (encodes_agrees m.recipients) fun vs rs _ => ?_
    exact agrees_last

theorem enc_encode_agrees {C : Crypto} {R : Rand} {tag e : Bool} {m : Enc} : Spec.Agrees ((Enc.encodeE C R tag e).run m) (m.encode C R tag e) := by
  unfold Enc.encodeE Enc.encode
  refine agrees_expr fun pe h1 => ?_
  rw [expr_bind]
  simp only
  cases e with
  | true =>
    simp only [if_true]
    have he := encrypt_agrees (C := C) (R := R) (m := m)
    rw [eff_bind]
    cases h2 : m.encrypt C R with
    | error e =>
      rw [h2] at he
      simp only [Spec.Agrees] at he
      split
      · rename_i h; rw [h] at he; simp at he
      · rename_i h; rw [h] at he; simpa [Spec.Agrees, error_bind] using he
    | ok p =>
      obtain ⟨c, m'⟩ := p
      rw [h2] at he
      simp only [Spec.Agrees] at he
      rw [he]
      have := finish_agrees (C := C) (R := R) (tag := tag) (l := [.bytes pe, .map m.base.uhdr, .bytes c]) (m := m')
      simp only [ok_bind]
      split
      · rename_i h; rw [if_pos h] at this; exact this
      · rename_i h; rw [if_neg h] at this; exact this
  | false =>
    simp only [Bool.false_eq_true, if_false]
    rw [expr_bind]
    simp only
    have := finish_agrees (C := C) (R := R) (tag := tag) (l := [.bytes pe, .map m.base.uhdr, optBytes m.base.payload]) (m := m)
    simp only [ok_bind]
    split
    · rename_i h; rw [if_pos h] at this; exact this
    · rename_i h; rw [if_neg h] at this; exact this

theorem decrypt_agrees {C : Crypto} {r : Rcpt} {m : Enc} : Spec.Agrees ((Enc.decryptE C r).run m) (m.decrypt C r) := by
  unfold Enc.decryptE Enc.decrypt
  refine agrees_expr fun target h1 => ?_
  rw [self_bind]
  split
  · exact agrees_raise
  refine agrees_expr fun types h2 => ?_
  split
  · exact agrees_last
  split
  · refine agrees_expr fun k h3 => ?_
    rw [eff_bind, call_run, assignKey, assign_run]
    simp only
    rw [expr_run]
    simp only
    cases encDecrypt C b!"Encrypt" { m.base with key := some k } with
    | error e => rfl
    | ok c => rfl
  · exact agrees_raise

theorem tag_agrees {C : Crypto} {m : Mac} : Spec.Agrees ((Mac.tagE C).run m) (do
    let t ← macCompute C b!"MAC" m.base
    .ok (t, { m with authTag := .bytes t })) := by
  unfold Mac.tagE
  exact agrees_expr fun t _ => rfl

theorem computeTag_agrees {C : Crypto} {R : Rand} {m : Mac} : Spec.Agrees ((Mac.computeTagE C R).run m) (m.computeTag C R) := by
  unfold Mac.computeTagE Mac.computeTag
  refine agrees_expr fun target h1 => ?_
  cases hr : m.recipients with
  | none => rw [expr_bind]; simp only [hr]; rfl
  | some rs =>
    rw [expr_bind]
    simp only [hr]
    refine agrees_expr fun types h2 => ?_
    split
    · have := tag_agrees (C := C) (m := m)
      rw [hr] at this; exact this
    split
    · cases rs with
      | nil => rfl
      | cons r t =>
        simp only
        refine agrees_expr fun k h3 => ?_
        rw [eff_bind, call_run, assignKey, assign_run]
        simp only
        have := tag_agrees (C := C) (m := { m with base := { m.base with key := some k } })
        simp only [hr] at this ⊢; exact this
    split
    · refine agrees_expr fun n h3 => agrees_call (wrapLoop_agrees rs) fun kb rs h4 => agrees_raise
    · exact agrees_raise

theorem mac_finish_agrees {C : Crypto} {R : Rand} {tag : Bool} {l : List Val} {m : Mac} :
    Spec.Agrees ((Mac.finishE C R tag l).run m) (match m.recipients with
  | none => .error .typeError
  | some [] => do
    let out ← m.base.finish 97 tag l
    .ok (out, m)
  | some (r :: t) => do
    let _ ← m.base.getAttr Hdr.Algorithm
    let (vs, rs) ← rcptsEncode C R [] 0 (r :: t)
    let out ← m.base.finish 97 tag (l ++ [.arr vs])
    .ok (out, { m with recipients := some rs })) := by
  unfold Mac.finishE
  rw [self_bind]
  split
  · rename_i h; simp only [h]; exact agrees_raise
  · rename_i h; simp only [h]; exact agrees_last
  · rename_i h
    simp only [h]
    refine agrees_expr fun _ _ => agrees_call (encodes_agrees _) fun vs rs _ => agrees_last

theorem mac_encode_agrees {C : Crypto} {R : Rand} {tag e : Bool} {m : Mac} : Spec.Agrees ((Mac.encodeE C R tag e).run m) (m.encode C R tag e) := by
  unfold Mac.encodeE Mac.encode
  refine agrees_expr fun pe h1 => ?_
  rw [expr_bind]
  simp only
  rw [expr_bind]
  simp only
  cases e with
  | true =>
    simp only [if_true]
    exact agrees_bind computeTag_agrees fun c m' _ => mac_finish_agrees
  | false =>
    simp only [Bool.false_eq_true, if_false]
    exact mac_finish_agrees

theorem mac0_encode_agrees {C : Crypto} {tag e : Bool} {m : Mac0} : Spec.Agrees ((Mac0.encodeE C tag e).run m) (m.encode C tag e) := by
  unfold Mac0.encodeE Mac0.encode
  refine agrees_expr fun pe h1 => ?_
  cases e with
  | true =>
    simp only [if_true]
    refine agrees_expr fun t _ => ?_
    rw [assign_bind, expr_run]
    simp only [List.cons_append, List.nil_append]
    cases m.base.finish 17 tag [.bytes pe, .map m.base.uhdr, optBytes m.base.payload, .bytes t] <;> rfl
  | false =>
    simp only [Bool.false_eq_true, if_false]
    exact agrees_last
end Cose
