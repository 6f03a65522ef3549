import Verif.ThreadEnc
/-!
# Calls of `decrypt` for recipients with different content keys: lemmas for C99
-/
set_option autoImplicit false

namespace Cose
open Thr

theorem mkSym_shape {v target : Val} {ops : List Cls} (hops : ∀ o ∈ ops, ∃ n, (o, n) ∈ registry .op) {k : Key} (h : mkSym v target ops = .ok k) :
    ∃ a kb, fromId .alg target = .ok a ∧ v = .bytes kb ∧ k = { kind := .sym, store := symStore a ops kb } := by
  have h1 : fromIdKey .kpSym (.cls KpAlg) true = .ok (.cls KpAlg) := by decide +kernel
  have h2 : fromIdKey .kpSym (.cls KpKeyOps) true = .ok (.cls KpKeyOps) := by decide +kernel
  have h3 : simpleParser KpAlg target = fromId .alg target := rfl
  have h4 : simpleParser KpKeyOps (.arr (ops.map .cls)) = .ok (.arr (ops.map .cls)) := by
    show fromId .op _ = _
    simp only [fromId, fromIdL_ops hops, ok_bind]
  unfold mkSym symInit at h
  obtain ⟨s, hs, h⟩ := bind_eq_ok.mp h
  cases hf : fromId .alg target with
  | error e =>
    rw [hf] at h3
    unfold initStore at hs
    cases ops with
    | nil => simp [parseAttrs, kindReg, h1, h3, bind, Except.bind] at hs
    | cons o t => simp [parseAttrs, kindReg, h1, h3, bind, Except.bind] at hs
  | ok a =>
    rw [hf] at h3
    have hi : initStore .sym ((.cls KpAlg, target) :: (if ops.isEmpty then [] else [(.cls KpKeyOps, .arr (ops.map .cls))])) true =
        .ok ([(.cls KpKty, .cls KtySym), (.cls KpAlg, a)] ++ (if ops.isEmpty then [] else [(.cls KpKeyOps, .arr (ops.map .cls))])) := by
      unfold initStore
      cases ops with
      | nil =>
        simp only [List.isEmpty_nil, if_true, parseAttrs, kindReg, h1, ok_bind, h3]
        simp [dset, dget, kindKty, KpKty, KpAlg, KpKeyOps]
      | cons o t =>
        simp only [List.isEmpty_cons, Bool.false_eq_true, if_false, parseAttrs, kindReg, h1, h2, ok_bind, h3, h4]
        simp [dset, dget, kindKty, KpKty, KpAlg, KpKeyOps, lenOf]
    rw [hi] at hs
    cases hs
    split at h
    · cases h
    · obtain ⟨s, hs, h⟩ := bind_eq_ok.mp h
      cases h
      cases v <;> simp only [setSymK, reduceCtorEq] at hs
      split at hs <;> cases hs
      refine ⟨a, _, rfl, rfl, ?_⟩
      rw [dset_append_new]
      · rfl
      · intro p hp
        cases ops <;> simp at hp
        · rcases hp with rfl | rfl <;> rfl
        · rcases hp with rfl | rfl | rfl <;> rfl

/-- What `decrypt` sees of a key before it hands it to the primitive. -/
def decView (k : Key) : Val × (Val → Res Unit) := (k.baseIv, fun alg => k.verify .sym alg [Op.Decrypt])

theorem symStore_view {a : Val} {ops : List Cls} (ho : ops = [] ∨ ops = [Op.Decrypt]) (kb kb' : Bytes) :
    decView { kind := .sym, store := symStore a ops kb } = decView { kind := .sym, store := symStore a [] kb' } := by
  rcases ho with rfl | rfl
  · simp [decView, Key.baseIv, Key.verify, Key.alg, Key.keyOps, symStore, getD, dget, KpBaseIV, KpKty, KpAlg, KpKeyOps, SymK]
  · simp [decView, Key.baseIv, Key.verify, Key.alg, Key.keyOps, symStore, getD, dget, KpBaseIV, KpKty, KpAlg, KpKeyOps, SymK, lenOf, anyOp]
    have : containsCls (.arr [.cls Op.Decrypt]) Op.Decrypt = .ok true := by decide +kernel
    simp only [this, ok_bind, if_true]

theorem carries_view {C : Crypto} {m : Enc} {r r' : Rcpt} {k k' : Key} (h : Spec.CarriesKey C m r k) (h' : Spec.CarriesKey C m r' k') :
    decView k = decView k' := by
  have hshape : ∀ {r : Rcpt} {k : Key} {target : Val}, rcptComputeCek C r target = .ok k → ∃ a ops kb, fromId .alg target = .ok a ∧
      (ops = [] ∨ ops = [Op.Decrypt]) ∧ k = { kind := .sym, store := symStore a ops kb } := by
    intro r k target h
    have hd : ∀ o ∈ [Op.Decrypt], ∃ n, (o, n) ∈ registry .op := by
      intro o ho
      simp at ho
      subst ho
      exact opReg _ (by simp)
    unfold rcptComputeCek at h
    split at h
    · cases h
    · obtain ⟨v, hv⟩ := dka_mkSym h
      obtain ⟨a, kb, h1, _, h2⟩ := mkSym_shape (by simp) hv
      exact ⟨a, _, kb, h1, .inl rfl, h2⟩
    · obtain ⟨v, _, hv⟩ := bind_eq_ok.mp h
      obtain ⟨a, kb, h1, _, h2⟩ := mkSym_shape hd hv
      exact ⟨a, _, kb, h1, .inr rfl, h2⟩
  obtain ⟨t, ht, hk⟩ := h
  obtain ⟨t', ht', hk'⟩ := h'
  rw [ht] at ht'; cases ht'
  obtain ⟨a, ops, kb, ha, ho, rfl⟩ := hshape hk
  obtain ⟨a', ops', kb', ha', ho', rfl⟩ := hshape hk'
  rw [ha] at ha'; cases ha'
  rw [symStore_view ho kb [], symStore_view ho' kb' []]

/-! ### The thread -/

section
variable {σ γ : Type} {g : σ → Base} {v : σ → γ}

/-- An access to an attribute of which only the part `p` is used afterwards. -/
theorem sees_part {α β δ : Type} {f : σ → α} {p : α → δ} {t : α → Thr σ β} (hp : ∀ s s', v s = v s' → p (f s) = p (f s'))
    (ht : ∀ a b, p a = p b → t a = t b) (h : ∀ a, Sees v (t a)) : Sees v (attr f >>= t) :=
  ⟨fun _ => rfl, fun s s' hs => ht _ _ (hp s s' hs), fun _ => h _⟩

theorem baseIv_part : ∀ a b : Option Key, a.map decView = b.map decView → baseIvOf a = baseIvOf b := by
  intro a b h
  cases a <;> cases b <;> simp at h
  · rfl
  · exact congrArg Except.ok (congrArg Prod.fst h)

theorem verify_part (alg : Val) : ∀ a b : Option Key, a.map decView = b.map decView → verifyKey .sym alg Op.Decrypt a = verifyKey .sym alg Op.Decrypt b := by
  intro a b h
  cases a <;> cases b <;> simp at h
  · rfl
  · exact congrFun (congrArg Prod.snd h) alg

theorem none_part : ∀ a b : Option Key, a.map decView = b.map decView → (a = none ↔ b = none) := by
  intro a b h
  cases a <;> cases b <;> simp at h <;> simp

theorem sees_getNonce_part (hh : ∀ s s', v s = v s' → (g s).phdr = (g s').phdr ∧ (g s).uhdr = (g s').uhdr)
    (hk : ∀ s s', v s = v s' → (g s).key.map decView = (g s').key.map decView) : Sees v (getNonceT g) := by
  refine sees_bind (sees_getAttrT hh _) fun _ => sees_ite (sees_pure _) ?_
  refine sees_part (p := Option.map decView) hk (fun a b h => by rw [baseIv_part a b h]) fun _ => sees_bind (sees_expr _) fun _ => sees_ite ?_ ?_
  · exact sees_bind (sees_getAttrT hh _) fun _ => sees_bind (sees_expr _) fun _ =>
      sees_part (p := Option.map decView) hk (fun a b h => by rw [baseIv_part a b h]) fun _ =>
      sees_bind (sees_expr _) fun _ => sees_bind (sees_expr _) fun _ => sees_pure _
  · exact sees_part (p := Option.map decView) hk (fun a b h => by rw [baseIv_part a b h]) fun _ => sees_bind (sees_expr _) fun _ =>
      sees_ite (sees_raise _) (sees_pure _)

end

theorem sees_getAttrT_rest (c : Cls) : Sees encRest (getAttrT Enc.base c) := sees_getAttrT rest_hdrs c

theorem rest_baseOf (s s' : Enc) (h : encRest s = encRest s') {β : Type} (f : Base → β) (hf : ∀ b key, f { b with key := key } = f b) :
    f s.base = f s'.base := by
  have := congrArg (fun x => f x.1) h
  simpa [encRest, hf] using this

theorem sees_encStructure_rest (context : Bytes) : Sees encRest (encStructureT Enc.base context) := by
  have ha : Sees encRest (attr fun s : Enc => s.base.aad) := sees_attr fun s s' h => rest_baseOf s s' h Base.aad fun _ _ => rfl
  refine sees_bind (sees_bind (sees_attr fun s s' h => rest_baseOf s s' h (fun b => b.phdr.length) fun _ _ => rfl) fun _ =>
    sees_ite (sees_bind ha fun _ => sees_pure _) (sees_bind (sees_phdrEncodedT rest_enc) fun _ => sees_bind ha fun _ => sees_pure _)) fun _ =>
      sees_expr _

section
variable {C : Crypto} {m : Enc} {Q : Key → Prop}

/-- An access to an attribute that changes, but not in the part used afterwards. -/
theorem safeSome_part {σ α β : Type} {G : σ → σ → Prop} {K : σ → Prop} {a : σ → α} {f : α → Thr σ β} {m : σ}
    (hG : ∀ s, K s → G s s) (hK : Stable G K) (hf : ∀ s, K s → f (a s) = f (a m)) (h : SafeSome G K (f (a m))) :
    SafeSome G K (attr a >>= f) := by
  intro s hs
  refine ⟨hG s hs, K, hK, hs, ?_⟩
  show Safe G _ (f (a s)) K
  rw [hf s hs]
  refine safe_weaken ?_ h
  rintro r ⟨s', hs', hr⟩
  exact ⟨s', hs', hr.trans (by rw [← hf s' hs']; rfl)⟩

/-- The message has one of the keys in `Q`. -/
def HasKeyIn (m : Enc) (Q : Key → Prop) (s : Enc) : Prop := ∃ k, Q k ∧ s = Enc.setKey k m

theorem hasKeyIn_stable : Stable (KeyChange Q) (HasKeyIn m Q) := by
  rintro s s' ⟨k, hk, rfl⟩ (rfl | ⟨k', hk', rfl⟩)
  · exact ⟨k, hk, rfl⟩
  · exact ⟨k', hk', rfl⟩

theorem hasKeyIn_rest {s s' : Enc} (h : HasKeyIn m Q s) (h' : HasKeyIn m Q s') : encRest s = encRest s' := by
  obtain ⟨k, _, rfl⟩ := h
  obtain ⟨k', _, rfl⟩ := h'
  rfl

/-- A thread that decrypts while keys of `Q` are assigned decrypts with one of them. -/
theorem safeSome_encDecrypt (hQ : ∀ k k', Q k → Q k' → decView k = decView k') {k0 : Key} (h0 : Q k0) :
    SafeSome (KeyChange Q) (HasKeyIn m Q) (encDecryptT Enc.base C b!"Encrypt") := by
  have hm : HasKeyIn m Q (Enc.setKey k0 m) := ⟨k0, h0, rfl⟩
  have hG : ∀ s, HasKeyIn m Q s → KeyChange Q s s := fun s _ => keyChange_refl s
  have hr : ∀ s, HasKeyIn m Q s → encRest s = encRest (Enc.setKey k0 m) := fun s hs => hasKeyIn_rest hs hm
  let v : Enc → (Base × List Rcpt) × Option (Val × (Val → Res Unit)) := fun s => (encRest s, s.base.key.map decView)
  have hvr : ∀ s s' : Enc, v s = v s' → encRest s = encRest s' := fun s s' h => congrArg Prod.fst h
  have hvk : ∀ s s' : Enc, v s = v s' → s.base.key.map decView = s'.base.key.map decView := fun s s' h => congrArg Prod.snd h
  have hv : ∀ s, HasKeyIn m Q s → v s = v (Enc.setKey k0 m) := by
    intro s hs
    obtain ⟨k, hk, rfl⟩ := hs
    show (_, some (decView k)) = (_, some (decView k0))
    rw [hQ k k0 hk h0]; rfl
  refine safeSome_sees (v := encRest) hm hG hasKeyIn_stable hr (sees_getAttrT_rest _) fun alg _ => ?_
  refine safeSome_sees (v := v) hm hG hasKeyIn_stable hv
    (sees_getNonce_part (fun s s' h => rest_hdrs s s' (hvr s s' h)) hvk) fun nonce _ => ?_
  have hsome : ∀ s, HasKeyIn m Q s → ∃ k, s.base.key = some k ∧ decView k = decView k0 := by
    rintro s ⟨k, hk, rfl⟩
    exact ⟨k, rfl, hQ k k0 hk h0⟩
  refine safeSome_part (m := Enc.setKey k0 m) hG hasKeyIn_stable (fun s hs => ?_) ?_
  · obtain ⟨k, hk, _⟩ := hsome s hs
    rw [hk, if_neg (by simp)]
    exact (if_neg (by simp [Enc.setKey])).symm
  rw [if_neg (by simp [Enc.setKey])]
  refine safeSome_part (m := Enc.setKey k0 m) hG hasKeyIn_stable (fun s hs => ?_) ?_
  · obtain ⟨k, hk, he⟩ := hsome s hs
    rw [hk, verify_part alg (some k) (Enc.setKey k0 m).base.key (by simp [Enc.setKey, he])]
  refine safeSome_sees (v := encRest) hm hG hasKeyIn_stable hr (sees_expr _) fun _ _ => ?_
  refine safeSome_sees (v := encRest) hm hG hasKeyIn_stable hr (sees_expr _) fun a _ => ?_
  refine safeSome_attr (v := encRest) hG hasKeyIn_stable (fun k => ?_) fun s s' hs hs' => hasKeyIn_rest hs hs'
  exact sees_bind (sees_attr fun s s' h => rest_baseOf s s' h Base.payload fun _ _ => rfl) fun _ =>
    sees_bind (sees_encStructure_rest _) fun _ => sees_bind (sees_expr _) fun _ => sees_pure _
end

theorem decryptT_key {C : Crypto} {m : Enc} {r : Rcpt} {target : Val} {types : List RCls} {k : Key}
    (h1 : m.base.getAttr Hdr.Algorithm = .ok target) (h2 : hasRecipient r.oid m.recipients ≠ false)
    (h3 : verifyRecipients m.recipients = .ok types) (h4 : types.contains .directEncryption = false)
    (h5 : types.contains .directKeyAgreement ∨ types.contains .keyWrap ∨ types.contains .keyAgreementWithKeyWrap)
    (h6 : rcptComputeCek C r target = .ok k) :
    (Enc.decryptT C r).alone m = (encDecryptT Enc.base C b!"Encrypt").alone (Enc.setKey k m) := by
  unfold Enc.decryptT
  rw [alone_bind, show (getAttrT Enc.base Hdr.Algorithm).alone m = (m.base.getAttr Hdr.Algorithm, m) from rfl, h1]
  simp only
  rw [alone_bind, show (attr Enc.recipients : Thr Enc _).alone m = (.ok m.recipients, m) from rfl]
  simp only
  rw [if_neg h2, alone_bind, show (attr Enc.recipients : Thr Enc _).alone m = (.ok m.recipients, m) from rfl]
  simp only
  rw [alone_bind, h3, show (expr (.ok types) : Thr Enc _).alone m = (.ok types, m) from rfl]
  simp only
  rw [if_neg (by rw [h4]; decide), if_pos h5, alone_bind, h6, show (expr (.ok k) : Thr Enc _).alone m = (.ok k, m) from rfl]
  simp only
  rw [alone_bind]
  rfl

/-- The keys that the calls of `decrypt` for `rs` assign. -/
def Assigned (C : Crypto) (m : Enc) (rs : List Rcpt) (k : Key) : Prop :=
  (∃ types, verifyRecipients m.recipients = .ok types ∧ types.contains .directEncryption = false) ∧
  ∃ r ∈ rs, Spec.CarriesKey C m r k ∧
    ((Enc.decryptT C r).alone m).1 = ((encDecryptT Enc.base C b!"Encrypt").alone (Enc.setKey k m)).1

/-- The thread gives the result it gives alone or one in `P`. -/
def SafeOr {σ α : Type} (P : Res α → Prop) (G : σ → σ → Prop) (K : σ → Prop) (m : σ) (t : Thr σ α) : Prop :=
  Safe G (fun r => r = (t.alone m).1 ∨ P r) t K

section
variable {σ α β γ : Type} {v : σ → γ} {P : Res β → Prop} {G : σ → σ → Prop} {K : σ → Prop} {m : σ}

theorem safeOr_ite {c : Prop} [Decidable c] {a b : Thr σ β} (ha : c → SafeOr P G K m a) (hb : ¬ c → SafeOr P G K m b) :
    SafeOr P G K m (if c then a else b) := by
  split
  · exact ha ‹_›
  · exact hb ‹_›

theorem safeOr_sees {t : Thr σ α} {f : α → Thr σ β} (hG : ∀ s, K s → G s s) (hK : Stable G K) (hv : ∀ s, K s → v s = v m)
    (ht : Sees v t) (h : ∀ a, (t.alone m).1 = .ok a → SafeOr P G K m (f a)) : SafeOr P G K m (t >>= f) := by
  unfold SafeOr
  refine safe_sees ht hG hK hv ?_
  rw [alone_bind]
  have hs := alone_sees ht m
  cases ha : t.alone m with
  | mk x s' =>
    rw [ha] at hs h
    cases hs
    cases x with
    | ok a => exact h a rfl
    | error e => exact .inl rfl

theorem safeOr_expr {r : Res α} {f : α → Thr σ β} (h : ∀ a, r = .ok a → SafeOr P G K m (f a)) : SafeOr P G K m (expr r >>= f) := by
  cases r with
  | ok a => exact h a rfl
  | error e => exact .inl rfl

theorem safeOr_of_safeAt {t : Thr σ β} (h : SafeAt G K m t) : SafeOr P G K m t := safe_weaken (fun _ hr => .inl hr) h
end

theorem decrypt_mixed (C : Crypto) (m : Enc) (rs : List Rcpt) (r : Rcpt) (hr : r ∈ rs) :
    ∃ K, Stable (KeyChange (Assigned C m rs)) K ∧ K m ∧
      SafeOr (fun x => (∃ k, Spec.CarriesKey C m r k) ∧ ∃ r' ∈ rs, x = ((Enc.decryptT C r').alone m).1) (KeyChange (Assigned C m rs)) K m
        (Enc.decryptT C r) := by
  classical
  cases hd : decide (∃ types, verifyRecipients m.recipients = .ok types ∧ types.contains .directEncryption = false) with
  | false =>
    have hd := of_decide_eq_false hd
    have hst := same_stable (m := m) (Q := Assigned C m rs) fun k hk => hd hk.1
    refine ⟨fun s => s = m, hst, rfl, ?_⟩
    refine safeOr_sees (v := id) (fun s _ => keyChange_refl s) hst (fun s hs => hs) (sees_getAttrT' (fun _ _ h => congrArg Enc.base h) _)
      fun target _ => ?_
    refine safeOr_sees (v := id) (fun s _ => keyChange_refl s) hst (fun s hs => hs) (sees_id _) fun l hl => ?_
    refine safeOr_ite (fun _ => .inl rfl) fun _ => ?_
    refine safeOr_sees (v := id) (fun s _ => keyChange_refl s) hst (fun s hs => hs) (sees_id _) fun l hl => ?_
    cases hl
    refine safeOr_expr fun types' ht => ?_
    refine safeOr_ite (fun _ => safeOr_of_safeAt (safeAt_const hst (sees_encDecryptT enc_base_id C _))) fun hn => ?_
    exact absurd ⟨types', ht, by simpa using hn⟩ hd
  | true =>
    obtain ⟨types, hv, hd⟩ := of_decide_eq_true hd
    have hst : Stable (KeyChange (Assigned C m rs)) (Spec.UpToKey m) := upToKey_stable
    refine ⟨Spec.UpToKey m, hst, ⟨m.base.key, rfl⟩, ?_⟩
    refine safeOr_sees (fun s _ => keyChange_refl s) hst (fun s hs => upToKey_rest hs) (sees_getAttrT rest_hdrs _) fun target ht => ?_
    refine safeOr_sees (fun s _ => keyChange_refl s) hst (fun s hs => upToKey_rest hs) (sees_attr rest_rcpts) fun l hl => ?_
    cases hl
    refine safeOr_ite (fun _ => .inl rfl) fun hin => ?_
    refine safeOr_sees (fun s _ => keyChange_refl s) hst (fun s hs => upToKey_rest hs) (sees_attr rest_rcpts) fun l hl => ?_
    cases hl
    refine safeOr_expr fun types' ht' => ?_
    rw [hv] at ht'; cases ht'
    rw [if_neg (by rw [hd]; decide)]
    refine safeOr_ite (fun hcls => ?_) (fun _ => .inl rfl)
    refine safeOr_expr fun k hk => ?_
    have hgive : Spec.CarriesKey C m r k := ⟨target, ht, hk⟩
    have hass : Assigned C m rs k := ⟨⟨types, hv, hd⟩, r, hr, hgive, by rw [decryptT_key ht hin hv hd hcls hk]⟩
    intro s hs
    refine ⟨.inr ⟨k, hass, rfl⟩, HasKeyIn m (Assigned C m rs), hasKeyIn_stable, ?_, ?_⟩
    · obtain ⟨key, rfl⟩ := hs
      exact ⟨k, hass, rfl⟩
    · refine safe_weaken ?_ (safeSome_encDecrypt (C := C) (m := m) (Q := Assigned C m rs) ?_ hass)
      · rintro x ⟨s', ⟨k', ⟨_, r', hr', _, he⟩, rfl⟩, rfl⟩
        exact .inr ⟨⟨k, hgive⟩, r', hr', he.symm⟩
      · rintro k1 k2 ⟨_, r1, _, h1, _⟩ ⟨_, r2, _, h2, _⟩
        exact carries_view h1 h2

end Cose
