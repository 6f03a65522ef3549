import Verif.Props.Threads

/-!
C99, continued: threads that encrypt and decrypt one COSE_Encrypt message at the same time (`encmessage.py:60-123`).
-/

set_option autoImplicit false
namespace Cose
open Thr

/-- The calls on a COSE_Encrypt message: what the library draws during the call, or the recipient that decrypts, and the arguments. -/
inductive Spec.EncCall where
  | encrypt (rand : Rand)
  | decrypt (recipient : Rcpt)
  | encode (rand : Rand) (tag encrypt : Bool)

def Spec.EncCall.thread (C : Crypto) : Spec.EncCall → Thr Enc Val
  | .encrypt rand => Enc.encryptT C rand
  | .decrypt r => Enc.decryptT C r
  | .encode rand tag enc => Enc.encodeT C rand tag enc

/-- What the call returns or raises if no other call runs. -/
def Spec.EncCall.result (C : Crypto) (m : Enc) : Spec.EncCall → Res Val
  | .encrypt rand => (m.encrypt C rand).map fun x => .bytes x.1
  | .decrypt r => (m.decrypt C r).map fun x => .bytes x.1
  | .encode rand tag enc => (m.encode C rand tag enc).map fun x => .bytes x.1

theorem encCall_alone (C : Crypto) (m : Enc) (call : Spec.EncCall) : ((call.thread C).alone m).1 = call.result C m := by
  have fin : ∀ {x : Res Bytes × Enc} {y : Res (Bytes × Enc)}, Spec.Agrees x y →
      (valOf x).1 = y.map fun x => Val.bytes x.1 := by
    intro x y h
    obtain ⟨x, s⟩ := x
    rw [valOf, map_eq_bind]
    cases x with
    | ok a => rw [agrees_of_ok h rfl]; rfl
    | error e => rw [agrees_of_error h rfl]; rfl
  cases call with
  | encrypt rand => rw [Spec.EncCall.thread, Enc.encryptT_alone]; exact fin encrypt_agrees
  | decrypt r => rw [Spec.EncCall.thread, Enc.decryptT_alone]; exact fin decrypt_agrees
  | encode rand tag enc => rw [Spec.EncCall.thread, Enc.encodeT_alone]; exact fin enc_encode_agrees

section
variable {C : Crypto} {m : Enc}

theorem safeAt_direct_encrypt {R : Rand} {f : Val → Thr Enc Val} (hd : ∀ r ∈ m.recipients, r.cls = .directEncryption)
    (hf : ∀ c, SafeAt (KeyChange fun _ => False) (fun s => s = m) m (f c)) :
    SafeAt (KeyChange fun _ => False) (fun s => s = m) m (Enc.encryptT C R >>= f) := by
  have hst := same_stable (m := m) (Q := fun _ => False) fun _ h => h
  have hG : ∀ s, s = m → KeyChange (fun _ => False) s s := fun s _ => .inl rfl
  have hv : ∀ s, s = m → id s = id m := fun _ h => h
  simp only [Enc.encryptT, bind_assoc', ite_bind]
  refine safeAt_sees hG hst hv (sees_getAttrT' (fun _ _ h => congrArg Enc.base h) _) fun target _ => ?_
  refine safeAt_sees hG hst hv (sees_id _) fun l hl => ?_
  cases hl
  refine safeAt_expr fun types ht => ?_
  have hts := verifyRecipients_types ht
  refine safeAt_ite (fun _ => safeAt_sees hG hst hv (sees_encEncryptT (fun _ _ h => congrArg Enc.base h) C _) fun c _ => hf c) fun hn => ?_
  have hnil : m.recipients = [] := by
    cases hr : m.recipients with
    | nil => rfl
    | cons r t => exact absurd (by rw [hts, hr]; simp [hd r (by rw [hr]; exact List.mem_cons_self)]) hn
  rw [hts, hnil]
  exact rfl

theorem direct_safe (hd : ∀ r ∈ m.recipients, r.cls = .directEncryption) (call : Spec.EncCall)
    (hk : ∀ R tag enc, call = .encode R tag enc → ∀ r ∈ m.recipients, Spec.Keyed r) :
    SafeAt (KeyChange fun _ => False) (fun s => s = m) m (call.thread C) := by
  have hst := same_stable (m := m) (Q := fun _ => False) fun _ h => h
  have hG : ∀ s, s = m → KeyChange (fun _ => False) s s := fun s _ => .inl rfl
  have hv : ∀ s, s = m → id s = id m := fun _ h => h
  have hK : ∀ s, s = m → encRest s = encRest m := fun s h => by rw [h]
  cases call with
  | encrypt rand =>
    show SafeAt _ _ _ (Enc.encryptT C rand)
    rw [← bind_pure' (Enc.encryptT C rand)]
    exact safeAt_direct_encrypt hd fun _ => rfl
  | decrypt r =>
    show SafeAt _ _ _ (Enc.decryptT C r)
    unfold Enc.decryptT
    refine safeAt_sees hG hst hv (sees_getAttrT' (fun _ _ h => congrArg Enc.base h) _) fun target _ => ?_
    refine safeAt_sees hG hst hv (sees_id _) fun l hl => ?_
    refine safeAt_ite (fun _ => rfl) fun _ => ?_
    refine safeAt_sees hG hst hv (sees_id _) fun l hl => ?_
    cases hl
    refine safeAt_expr fun types ht => ?_
    have hts := verifyRecipients_types ht
    refine safeAt_ite (fun _ => safeAt_const hst (sees_encDecryptT enc_base_id C _)) fun hn => ?_
    have hnil : m.recipients = [] := by
      cases hr : m.recipients with
      | nil => rfl
      | cons r t => exact absurd (by rw [hts, hr]; simp [hd r (by rw [hr]; exact List.mem_cons_self)]) hn
    rw [hts, hnil]
    exact rfl
  | encode rand tag enc =>
    have hset := hk rand tag enc rfl
    show SafeAt _ _ _ (Enc.encodeT C rand tag enc)
    unfold Enc.encodeT
    refine safeAt_sees hG hst hK (sees_phdrEncodedT rest_enc) fun pe _ => ?_
    refine safeAt_sees hG hst hv (sees_id _) fun uh _ => ?_
    refine safeAt_ite (fun _ => safeAt_direct_encrypt hd fun c => safeAt_encFinish (K := fun s => s = m) rfl hst hK hset _ _) fun _ => ?_
    exact safeAt_sees hG hst hv (sees_id _) fun p _ => safeAt_encFinish (K := fun s => s = m) rfl hst hK hset _ _
end

/-- Any number of threads may encrypt, decrypt and encode one COSE_Encrypt message with direct recipients at the same time: every call
returns or raises what it does alone, and the message stays as it is. -/
theorem c99_enc_direct (C : Crypto) (m : Enc) (hd : ∀ r ∈ m.recipients, r.cls = .directEncryption) (calls : List Spec.EncCall)
    (hk : ∀ R tag enc, .encode R tag enc ∈ calls → ∀ r ∈ m.recipients, Spec.Keyed r) (sched : List Nat) :
    Spec.After m (calls.map (·.thread C)) sched = m ∧
    ∀ i r, Spec.Returns m (calls.map (·.thread C)) sched i r → ∃ call, calls[i]? = some call ∧ r = call.result C m := by
  have hst := same_stable (m := m) (Q := fun _ => False) fun _ h => h
  have hs : SafeAll (KeyChange fun _ => False) (fun i r => ∃ call, calls[i]? = some call ∧ r = ((call.thread C).alone m).1)
      (m, calls.map (·.thread C)) := by
    intro i t ht
    simp only [List.getElem?_map] at ht
    cases hc : calls[i]? with
    | none => rw [hc] at ht; cases ht
    | some call =>
      rw [hc] at ht; cases ht
      exact ⟨_, hst, rfl, safe_weaken (fun r hr => ⟨call, hc, hr⟩)
        (direct_safe hd call fun R tag enc e => hk R tag enc (e ▸ List.mem_of_getElem? hc))⟩
  obtain ⟨h1, h2⟩ := safeAll_exec sched hs
  refine ⟨h2 _ hst rfl, fun i r hr => ?_⟩
  obtain ⟨call, hc, hres⟩ := h1 i r hr
  exact ⟨call, hc, hres.trans (encCall_alone C m call)⟩

/-- **C99** is false of the code: one thread encodes a received message while another decrypts it for a key-wrap recipient.  Alone, both
calls return.  In one execution `decrypt` raises because the key assigned in between may only encrypt; in another `encode` raises because
the key assigned in between may only decrypt. -/
theorem c99_mixed_race : ∃ first, Sample.encRecv.recipients[0]? = some first ∧
    (Spec.EncCall.encode Sample.rand true true |>.result toy Sample.encRecv).isOk = true ∧
    (Spec.EncCall.decrypt first).result toy Sample.encRecv = .ok (.bytes b!"hello") ∧
    (∃ sched, Spec.Returns Sample.encRecv ([Spec.EncCall.encode Sample.rand true true, .decrypt first].map (·.thread toy)) sched 1
      (.error .illegalKeyOps)) ∧
    ∃ sched, Spec.Returns Sample.encRecv ([Spec.EncCall.encode Sample.rand true true, .decrypt first].map (·.thread toy)) sched 0
      (.error .illegalKeyOps) := by
  refine ⟨Sample.encRecv.recipients.headD Sample.stray, by decide +kernel, by decide +kernel, by decide +kernel, ?_, ?_⟩
  · obtain ⟨r, h1, h2⟩ := finishedWith_returns (m := Sample.encRecv)
      (ts := [Enc.encodeT toy Sample.rand true true, Enc.decryptT toy (Sample.encRecv.recipients.headD Sample.stray)])
      (sched := List.replicate 5 1 ++ List.replicate 80 0 ++ List.replicate 60 1) (i := 1)
      (p := fun r => decide (r = .error .illegalKeyOps)) (by decide +kernel)
    cases of_decide_eq_true h2
    exact ⟨_, h1⟩
  · obtain ⟨r, h1, h2⟩ := finishedWith_returns (m := Sample.encRecv)
      (ts := [Enc.encodeT toy Sample.rand true true, Enc.decryptT toy (Sample.encRecv.recipients.headD Sample.stray)])
      (sched := List.replicate 16 0 ++ List.replicate 5 1 ++ List.replicate 80 0) (i := 0)
      (p := fun r => decide (r = .error .illegalKeyOps)) (by decide +kernel)
    cases of_decide_eq_true h2
    exact ⟨_, h1⟩

/-- The primitives of `toy`, but with an AES-CBC that depends on the key. -/
def toyCbc : Crypto := { toy with aesCbc := fun k m => .ok (fit m.length (k ++ m)).reverse }

theorem toyCbc_laws : toyCbc.Laws :=
  { toy_laws with
    cbc_length := by
      intro k m c h
      simp only [toyCbc, Except.ok.injEq] at h
      rw [← h, List.length_reverse, fit_length] }

/-- A message with a key and the tag made with this key, and a recipient that agrees on another key. -/
def Sample.macRekeyed : Mac :=
  match macCompute toyCbc b!"MAC" Sample.mac0Aes.base with
  | .ok t => { base := Sample.mac0Aes.base, authTag := .bytes t, recipients := some [Sample.dkaMade 1] }
  | .error _ => Sample.macAgreed

/-- **C99** is false of the code: one thread verifies the tag of a message while another computes it anew with the key its recipient agrees
on.  `verify_tag` returns true on the message as it was, and on the message that `compute_tag` leaves.  In this execution it returns false:
the agreed key has been assigned, the new tag has not. -/
theorem c99_verify_race : ∃ m', (∃ t, Sample.macRekeyed.computeTag toyCbc Sample.rand = .ok (t, m')) ∧
    Spec.MacCall.verify.result toyCbc Sample.macRekeyed = .ok (.bool true) ∧ Spec.MacCall.verify.result toyCbc m' = .ok (.bool true) ∧
    ∃ sched, Spec.Returns Sample.macRekeyed ([Spec.MacCall.compute Sample.rand, .verify].map (·.thread toyCbc)) sched 1 (.ok (.bool false)) := by
  obtain ⟨⟨t, m'⟩, h, hp⟩ := res_any (r := Sample.macRekeyed.computeTag toyCbc Sample.rand)
    (p := fun x => decide (Spec.MacCall.verify.result toyCbc x.2 = .ok (.bool true))) (by decide +kernel)
  refine ⟨m', ⟨t, h⟩, by decide +kernel, of_decide_eq_true hp, ?_⟩
  obtain ⟨r, h1, h2⟩ := finishedWith_returns (m := Sample.macRekeyed)
    (ts := [Spec.MacCall.compute Sample.rand, .verify].map (·.thread toyCbc))
    (sched := List.replicate 8 0 ++ List.replicate 40 1) (i := 1)
    (p := fun r => decide (r = .ok (.bool false))) (by decide +kernel)
  cases of_decide_eq_true h2
  exact ⟨_, h1⟩

theorem macCall_alone (C : Crypto) (m : Mac) (call : Spec.MacCall) : ((call.thread C).alone m).1 = call.result C m := by
  have fin : ∀ {x : Res Bytes × Mac} {y : Res (Bytes × Mac)}, Spec.Agrees x y → (valOf x).1 = y.map fun x => Val.bytes x.1 := by
    intro x y h
    obtain ⟨x, s⟩ := x
    rw [valOf, map_eq_bind]
    cases x with
    | ok a => rw [agrees_of_ok h rfl]; rfl
    | error e => rw [agrees_of_error h rfl]; rfl
  cases call with
  | compute rand => rw [Spec.MacCall.thread, Mac.computeTagT_alone]; exact fin computeTag_agrees
  | encode rand tag mac => rw [Spec.MacCall.thread, Mac.encodeT_alone]; exact fin mac_encode_agrees
  | verify => simp only [Spec.MacCall.thread, Mac.verifyTagT, macVerifyT_alone, Spec.MacCall.result, Mac.verifyTag, map_eq_bind]

section
variable {C : Crypto} {m : Mac} {k : Key}

/-- The message with its own key or the agreed one, and with its own tag or the one computed with the agreed key. -/
def AgreeState (C : Crypto) (m : Mac) (k : Key) (s : Mac) : Prop :=
  ∃ key tag, (key = m.base.key ∨ key = some k) ∧ (tag = m.authTag ∨ ∃ t, macCompute C b!"MAC" (Mac.withKey k m).base = .ok t ∧ tag = .bytes t) ∧
    s = { m with base := { m.base with key := key }, authTag := tag }

theorem agreeState_stable : Stable (AgreeChange C m k) (AgreeState C m k) := by
  rintro s s' ⟨key, tag, h1, h2, rfl⟩ (rfl | rfl | ⟨t, ht, rfl⟩)
  · exact ⟨key, tag, h1, h2, rfl⟩
  · exact ⟨some k, tag, .inr rfl, h2, rfl⟩
  · exact ⟨key, .bytes t, h1, .inr ⟨t, ht, rfl⟩, rfl⟩

theorem agreeState_keyed : Stable (AgreeChange C m k) fun s => AgreeState C m k s ∧ s.base.key = some k := by
  rintro s s' ⟨h1, h2⟩ hg
  refine ⟨agreeState_stable _ _ h1 hg, ?_⟩
  rcases hg with rfl | rfl | ⟨t, ht, rfl⟩
  · exact h2
  · rfl
  · exact h2

theorem agree_verify_safe (hkey : m.base.key = none ∨ m.base.key = some k) :
    SafeSome (AgreeChange C m k) (AgreeState C m k) (macVerifyT Mac.base C b!"MAC" Mac.authTag) := by
  have hG : ∀ {K : Mac → Prop}, ∀ s, K s → AgreeChange C m k s s := fun _ _ => .inl rfl
  have hup : ∀ s, AgreeState C m k s → macRest s = macRest m := by rintro s ⟨key, tag, _, _, rfl⟩; rfl
  have hm : AgreeState C m k m := ⟨m.base.key, m.authTag, .inl rfl, .inl rfl, rfl⟩
  refine safeSome_sees hm hG agreeState_stable hup (sees_getAttrT macRest_hdrs _) fun alg _ => ?_
  intro s hs
  refine ⟨.inl rfl, ?_⟩
  show ∃ K', Stable (AgreeChange C m k) K' ∧ K' s ∧ Safe (AgreeChange C m k) _ (if s.base.key = none then raise .coseException else _) K'
  by_cases hks : s.base.key = none
  · refine ⟨_, agreeState_stable, hs, ?_⟩
    rw [if_pos hks]
    refine ⟨s, hs, ?_⟩
    show _ = ((if s.base.key = none then raise .coseException else _ : Thr Mac Val).alone s).1
    rw [if_pos hks]
    rfl
  · have hk' : s.base.key = some k := by
      obtain ⟨key, tag, h1, _, rfl⟩ := hs
      show key = _
      rcases h1 with rfl | rfl
      · exact hkey.resolve_left hks
      · rfl
    refine ⟨_, agreeState_keyed, ⟨hs, hk'⟩, ?_⟩
    rw [if_neg hks]
    have hb : ∀ s', AgreeState C m k s' ∧ s'.base.key = some k → s'.base = s.base := by
      obtain ⟨_, _, _, _, rfl⟩ := hs
      rintro s' ⟨⟨_, _, _, _, rfl⟩, h2⟩
      cases h2; cases hk'; rfl
    have hid : ∀ s s' : Mac, s.base = s'.base → s.base = s'.base := fun _ _ h => h
    have hks' : Sees Mac.base (attr fun s => (Mac.base s).key) := sees_base hid Base.key
    have hst := agreeState_keyed (C := C) (m := m) (k := k)
    suffices hsome : SafeSome (AgreeChange C m k) (fun s' => AgreeState C m k s' ∧ s'.base.key = some k) _ by
      refine safe_weaken ?_ hsome
      rintro r ⟨s', h', e⟩
      refine ⟨s', h'.1, e.trans ?_⟩
      show _ = ((if s'.base.key = none then raise .coseException else _ : Thr Mac Val).alone s').1
      rw [if_neg (by rw [h'.2]; exact nofun)]
    · refine safeSome_sees ⟨hs, hk'⟩ hG hst hb hks' fun _ _ => ?_
      refine safeSome_sees ⟨hs, hk'⟩ hG hst hb (sees_expr _) fun _ _ => ?_
      refine safeSome_sees ⟨hs, hk'⟩ hG hst hb (sees_expr _) fun _ _ => ?_
      refine safeSome_sees ⟨hs, hk'⟩ hG hst hb hks' fun _ _ => ?_
      refine safeSome_attr (v := Mac.base) hG hst (fun x => ?_) fun s s' hs hs' => by rw [hb s hs, hb s' hs']
      exact sees_bind (sees_macStructureT hid _) fun _ => sees_bind (sees_expr _) fun _ => sees_pure _

/-- Threads that verify the tag of a COSE_Mac message with a direct key agreement while others compute it or encode the message.  The key of
the message is not set yet, or is the agreed one.  Every other call returns or raises what it does alone; `verify_tag` gives what it gives
alone on the message as it was, or with the agreed key and the old tag or the one computed with this key. -/
theorem c99_mac_agreement_verify (C : Crypto) (m : Mac) {rc : Rcpt} {target : Val} {k : Key} (hr : m.recipients = some [rc])
    (hc : rc.cls = .directKeyAgreement) (ht : m.base.getAttr Hdr.Algorithm = .ok target) (hk : dkaComputeCek C rc.base target true = .ok k)
    (hkey : m.base.key = none ∨ m.base.key = some k) (calls : List Spec.MacCall)
    (hset : ∀ R tag mac, .encode R tag mac ∈ calls → Spec.MacKeyed m) (sched : List Nat) (i : Nat) (r : Res Val)
    (h : Spec.Returns m (calls.map (·.thread C)) sched i r) :
    ∃ call, calls[i]? = some call ∧ (r = call.result C m ∨ call = .verify ∧ ∃ tag,
      (tag = m.authTag ∨ ∃ t, macCompute C b!"MAC" { m.base with key := some k } = .ok t ∧ tag = .bytes t) ∧
      r = Spec.MacCall.verify.result C { m with base := { m.base with key := some k }, authTag := tag }) := by
  have huniq : ∀ target k', m.base.getAttr Hdr.Algorithm = .ok target → dkaComputeCek C rc.base target true = .ok k' → k' = k := by
    intro t k' h h'; rw [ht] at h; cases h; rw [hk] at h'; cases h'; rfl
  have hs : SafeAll (AgreeChange C m k) (fun i r => ∃ call, calls[i]? = some call ∧ (call ≠ .verify ∧ r = ((call.thread C).alone m).1 ∨
      call = .verify ∧ ∃ s, AgreeState C m k s ∧ r = ((Spec.MacCall.verify.thread C).alone s).1)) (m, calls.map (·.thread C)) := by
    intro i t hi
    simp only [List.getElem?_map] at hi
    cases hcall : calls[i]? with
    | none => rw [hcall] at hi; cases hi
    | some call =>
      rw [hcall] at hi; cases hi
      by_cases hv : call = .verify
      · subst hv
        exact ⟨_, agreeState_stable, ⟨_, _, .inl rfl, .inl rfl, rfl⟩, safe_weaken (fun r hr => ⟨_, hcall, .inr ⟨rfl, hr⟩⟩) (agree_verify_safe hkey)⟩
      · exact ⟨_, upToKeyTag_stable C m k, ⟨m.base.key, m.authTag, rfl⟩, safe_weaken (fun r hr => ⟨_, hcall, .inl ⟨hv, hr⟩⟩)
          (agree_safe hr hc huniq call hv fun R tag mac e => hset R tag mac (e ▸ List.mem_of_getElem? hcall))⟩
  obtain ⟨call, hcall, ⟨hv, hres⟩ | ⟨rfl, s, hsa, hres⟩⟩ := (safeAll_exec sched hs).1 i r h
  · exact ⟨call, hcall, .inl (hres.trans (macCall_alone C m call))⟩
  · refine ⟨.verify, hcall, ?_⟩
    rw [macCall_alone] at hres
    obtain ⟨key, tag, h1, h2, rfl⟩ := hsa
    rcases h1 with rfl | rfl
    · rcases hkey with hn | hn
      · left
        rw [hres]
        simp only [Spec.MacCall.result, Mac.verifyTag, macVerify, hn]
        rfl
      · exact .inr ⟨rfl, tag, h2, by rw [hres, hn]⟩
    · exact .inr ⟨rfl, tag, h2, hres⟩
end

/-! ### A concrete case -/

/-- A message with two direct recipients whose payload is the ciphertext of `hello`. -/
def Sample.encDirect : Enc :=
  let m : Enc := { base := Sample.enc0.base, recipients := [Sample.directRcpt 1, Sample.directRcpt 2] }
  match m.encrypt toy Sample.rand with
  | .ok (c, _) => { m with base := { m.base with payload := some c } }
  | .error _ => m

/-- One thread decrypts this message and one encodes it; alone, both return.  Under every schedule `decrypt` gives the plaintext. -/
example (sched : List Nat) (r : Res Val)
    (h : Spec.Returns Sample.encDirect ([.encode Sample.rand true true, .decrypt (Sample.directRcpt 2)].map (Spec.EncCall.thread toy)) sched 1 r) :
    r = .ok (.bytes b!"hello") ∧ (Spec.EncCall.result toy Sample.encDirect (.encode Sample.rand true true)).isOk = true := by
  have hr : Sample.encDirect.recipients = [Sample.directRcpt 1, Sample.directRcpt 2] := by decide +kernel
  obtain ⟨call, hc, rfl⟩ := (c99_enc_direct toy Sample.encDirect (by rw [hr]; intro r hr; simp at hr; rcases hr with rfl | rfl <;> rfl) _
    (fun _ _ _ _ r hin => by rw [hr] at hin; simp at hin; rcases hin with rfl | rfl <;> trivial) sched).2 1 r h
  cases hc
  exact ⟨by decide +kernel, by decide +kernel⟩

/-- In this execution both calls have returned. -/
example : ∃ sched r r', Spec.Returns Sample.encDirect ([.encode Sample.rand true true, .decrypt (Sample.directRcpt 2)].map (Spec.EncCall.thread toy)) sched 0 r ∧
    Spec.Returns Sample.encDirect ([.encode Sample.rand true true, .decrypt (Sample.directRcpt 2)].map (Spec.EncCall.thread toy)) sched 1 r' := by
  have hp : ∀ i, i < 2 → _ := fun i hi => finishedWith_returns (m := Sample.encDirect)
    (ts := [Enc.encodeT toy Sample.rand true true, Enc.decryptT toy (Sample.directRcpt 2)])
    (sched := List.replicate 5 1 ++ List.replicate 80 0 ++ List.replicate 60 1) (i := i) (p := fun _ => true)
    (by match i, hi with
        | 0, _ => decide +kernel
        | 1, _ => decide +kernel)
  obtain ⟨r, h, _⟩ := hp 0 (by decide)
  obtain ⟨r', h', _⟩ := hp 1 (by decide)
  exact ⟨_, r, r', h, h'⟩

/-- A message whose key is not agreed yet and whose tag is wrong: under every schedule `verify_tag` raises, or returns false for this tag, or
true for the tag that another thread has computed.  Alone it raises. -/
example (sched : List Nat) (r : Res Val)
    (h : Spec.Returns { Sample.macAgreed with authTag := .bytes (List.replicate 8 0) }
      ([.encode Sample.rand true true, .verify].map (Spec.MacCall.thread toyCbc)) sched 1 r) :
    r = .error .coseException ∨ r = .ok (.bool false) ∨ r = .ok (.bool true) := by
  obtain ⟨k, hk, hp⟩ := res_any (r := dkaComputeCek toyCbc (Sample.dkaMade 1).base (algCls 14) true)
    (p := fun k => decide ((macCompute toyCbc b!"MAC" { Sample.macAgreed.base with key := some k }).isOk = true ∧
      Spec.MacCall.verify.result toyCbc { Sample.macAgreed with base := { Sample.macAgreed.base with key := some k }, authTag := .bytes (List.replicate 8 0) } =
        .ok (.bool false) ∧
      ∀ t ∈ (macCompute toyCbc b!"MAC" { Sample.macAgreed.base with key := some k }).toOption,
        Spec.MacCall.verify.result toyCbc { Sample.macAgreed with base := { Sample.macAgreed.base with key := some k }, authTag := .bytes t } =
          .ok (.bool true))) (by decide +kernel)
  obtain ⟨_, hp1, hp2⟩ := of_decide_eq_true hp
  obtain ⟨call, hc, hr⟩ := c99_mac_agreement_verify toyCbc _ (rc := Sample.dkaMade 1) (target := algCls 14) rfl rfl (by decide +kernel) hk
    (.inl rfl) _ (fun _ _ _ _ rs hrs r hin => by cases hrs; simp at hin; subst hin; exact ⟨fun _ => nofun, trivial⟩) sched 1 r h
  cases hc
  rcases hr with rfl | ⟨_, tag, ht, rfl⟩
  · exact .inl (by decide +kernel)
  · rcases ht with rfl | ⟨t, ht, rfl⟩
    · exact .inr (.inl hp1)
    · exact .inr (.inr (hp2 t (by rw [show macCompute _ _ _ = _ from ht]; rfl)))

end Cose
