import Verif.ThreadLemmas
import Verif.Props.Kdf
import Verif.Props.Structure
/-!
# Calls on one COSE_Encrypt message from several threads: specification and lemmas for C99
-/
set_option autoImplicit false

namespace Cose
open Thr

/-! ### COSE_Encrypt: the calls assign the content key to the message -/

/-- `s` is the message `m`, possibly with another key. -/
def Spec.UpToKey (m s : Enc) : Prop := ∃ key, s = { m with base := { m.base with key := key } }

section
variable {m : Enc} {Q : Key → Prop}

/-- The assignments of keys in `Q`. -/
def KeyChange (Q : Key → Prop) (s s' : Enc) : Prop := s' = s ∨ ∃ k, Q k ∧ s' = Enc.setKey k s

theorem keyChange_refl (s : Enc) : KeyChange Q s s := .inl rfl

theorem upToKey_stable : Stable (KeyChange Q) (Spec.UpToKey m) := by
  rintro s s' ⟨key, rfl⟩ (rfl | ⟨k, _, rfl⟩)
  · exact ⟨key, rfl⟩
  · exact ⟨some k, rfl⟩

theorem key_stable {k : Key} (hQ : ∀ k', Q k' → k' = k) : Stable (KeyChange Q) fun s => s = Enc.setKey k m := by
  rintro s s' rfl (rfl | ⟨k', hk, rfl⟩)
  · rfl
  · rw [hQ k' hk]; rfl

theorem same_stable (hQ : ∀ k, ¬ Q k) : Stable (KeyChange Q) fun s => s = m := by
  rintro s s' rfl (rfl | ⟨k', hk, rfl⟩)
  · rfl
  · exact absurd hk (hQ k')

/-- The part of the message that is not the key. -/
def encRest (s : Enc) : Base × List Rcpt := ({ s.base with key := none }, s.recipients)

theorem upToKey_rest {s : Enc} (h : Spec.UpToKey m s) : encRest s = encRest m := by
  obtain ⟨key, rfl⟩ := h; rfl

theorem rest_hdrs (s s' : Enc) (h : encRest s = encRest s') : s.base.phdr = s'.base.phdr ∧ s.base.uhdr = s'.base.uhdr := by
  have h1 := congrArg Prod.fst h
  have h2 := congrArg Base.phdr h1
  have h3 := congrArg Base.uhdr h1
  exact ⟨h2, h3⟩

theorem rest_enc (s s' : Enc) (h : encRest s = encRest s') :
    s.base.phdrEnc = s'.base.phdrEnc ∧ s.base.phdr = s'.base.phdr ∧ s.base.tstr = s'.base.tstr := by
  have h1 := congrArg Prod.fst h
  have h2 := congrArg Base.phdrEnc h1
  have h3 := congrArg Base.tstr h1
  exact ⟨h2, (rest_hdrs s s' h).1, h3⟩

theorem rest_rcpts (s s' : Enc) (h : encRest s = encRest s') : s.recipients = s'.recipients := congrArg Prod.snd h

/-- The assignment of the key, and what follows it. -/
theorem safeAt_setKey {t : Thr Enc Val} {k : Key} (hk : Q k) (hQ : ∀ k', Q k' → k' = k) {K : Enc → Prop}
    (hK : ∀ s, K s → Spec.UpToKey m s) (h : SafeAt (KeyChange Q) (fun s => s = Enc.setKey k m) (Enc.setKey k m) t) :
    SafeAt (KeyChange Q) K m (assign (Enc.setKey k) >>= fun _ => t) := by
  refine safeAt_assign (K' := fun s => s = Enc.setKey k m) (fun s hs => ⟨.inr ⟨k, hk, rfl⟩, ?_⟩) (key_stable hQ) h
  obtain ⟨key, rfl⟩ := hK s hs
  rfl

theorem safeAt_const {t : Thr Enc Val} {s0 : Enc} (hK : Stable (KeyChange Q) fun s => s = s0) (ht : Sees Enc.base t) :
    SafeAt (KeyChange Q) (fun s => s = s0) s0 t :=
  safeAt_sees_end (fun s _ => keyChange_refl s) hK (fun s hs => by rw [hs]) ht
end

theorem enc_base_id : ∀ s s' : Enc, s.base = s'.base → s.base = s'.base := fun _ _ h => h

/-- The content key that the recipient `r` of `m` gives, if `decrypt(r)` assigns one. -/
def Spec.CarriesKey (C : Crypto) (m : Enc) (r : Rcpt) (k : Key) : Prop :=
  ∃ target, m.base.getAttr Hdr.Algorithm = .ok target ∧ rcptComputeCek C r target = .ok k

theorem decrypt_safe (C : Crypto) (m : Enc) (rs : List Rcpt)
    (h : ∀ r ∈ rs, ∀ r' ∈ rs, ∀ k k', Spec.CarriesKey C m r k → Spec.CarriesKey C m r' k' → k = k') (r : Rcpt) (hr : r ∈ rs) :
    ∃ K, Stable (KeyChange fun k => (∃ types, verifyRecipients m.recipients = .ok types ∧ types.contains .directEncryption = false) ∧
        ∃ r ∈ rs, Spec.CarriesKey C m r k) K ∧ K m ∧
      SafeAt (KeyChange fun k => (∃ types, verifyRecipients m.recipients = .ok types ∧ types.contains .directEncryption = false) ∧
        ∃ r ∈ rs, Spec.CarriesKey C m r k) K m (Enc.decryptT C r) := by
  cases hv : verifyRecipients m.recipients with
  | error e =>
    refine ⟨Spec.UpToKey m, upToKey_stable, ⟨m.base.key, rfl⟩, ?_⟩
    refine safeAt_sees (fun s _ => keyChange_refl s) upToKey_stable (fun s hs => upToKey_rest hs) (sees_getAttrT rest_hdrs _) fun target _ => ?_
    refine safeAt_sees (fun s _ => keyChange_refl s) upToKey_stable (fun s hs => upToKey_rest hs) (sees_attr rest_rcpts) fun l hl => ?_
    refine safeAt_ite (fun _ => rfl) fun _ => ?_
    refine safeAt_sees (fun s _ => keyChange_refl s) upToKey_stable (fun s hs => upToKey_rest hs) (sees_attr rest_rcpts) fun l hl => ?_
    cases hl
    refine safeAt_expr fun types ht => ?_
    rw [hv] at ht; cases ht
  | ok types =>
    cases hd : types.contains .directEncryption with
    | true =>
      have hst := same_stable (m := m) (Q := fun k => (∃ types', (Except.ok types : Res (List RCls)) = .ok types' ∧
        types'.contains .directEncryption = false) ∧ ∃ r ∈ rs, Spec.CarriesKey C m r k) (by
          rintro k ⟨⟨t, ht, hf⟩, _⟩; cases ht; rw [hd] at hf; cases hf)
      refine ⟨fun s => s = m, hst, rfl, ?_⟩
      refine safeAt_sees (v := id) (fun s _ => keyChange_refl s) hst (fun s hs => hs) (sees_getAttrT' (fun _ _ h => congrArg Enc.base h) _)
        fun target _ => ?_
      refine safeAt_sees (v := id) (fun s _ => keyChange_refl s) hst (fun s hs => hs) (sees_id _) fun l hl => ?_
      refine safeAt_ite (fun _ => rfl) fun _ => ?_
      refine safeAt_sees (v := id) (fun s _ => keyChange_refl s) hst (fun s hs => hs) (sees_id _) fun l hl => ?_
      cases hl
      refine safeAt_expr fun types' ht => ?_
      rw [hv] at ht; cases ht
      rw [if_pos hd]
      exact safeAt_const hst (sees_encDecryptT enc_base_id C _)
    | false =>
      refine ⟨Spec.UpToKey m, upToKey_stable, ⟨m.base.key, rfl⟩, ?_⟩
      refine safeAt_sees (fun s _ => keyChange_refl s) upToKey_stable (fun s hs => upToKey_rest hs) (sees_getAttrT rest_hdrs _) fun target ht => ?_
      refine safeAt_sees (fun s _ => keyChange_refl s) upToKey_stable (fun s hs => upToKey_rest hs) (sees_attr rest_rcpts) fun l hl => ?_
      refine safeAt_ite (fun _ => rfl) fun _ => ?_
      refine safeAt_sees (fun s _ => keyChange_refl s) upToKey_stable (fun s hs => upToKey_rest hs) (sees_attr rest_rcpts) fun l hl => ?_
      cases hl
      refine safeAt_expr fun types' ht' => ?_
      rw [hv] at ht'; cases ht'
      rw [if_neg (by rw [hd]; decide)]
      refine safeAt_ite (fun _ => ?_) (fun _ => rfl)
      refine safeAt_expr fun k hk => ?_
      have hgive : Spec.CarriesKey C m r k := ⟨target, ht, hk⟩
      have huniq : ∀ k', ((∃ types', (Except.ok types : Res (List RCls)) = .ok types' ∧ types'.contains .directEncryption = false) ∧
          ∃ r ∈ rs, Spec.CarriesKey C m r k') → k' = k := by
        rintro k' ⟨_, r', hr', hg'⟩
        exact h r' hr' r hr k' k hg' hgive
      refine safeAt_setKey ⟨⟨types, rfl, hd⟩, r, hr, hgive⟩ huniq (fun s hs => hs) ?_
      exact safeAt_const (key_stable huniq) (sees_encDecryptT enc_base_id C _)

/-! ### Encoding a message whose recipients are settled -/

mutual
/-- The agreement recipients, at every depth, have the sender's key. -/
def Spec.Keyed : Rcpt → Prop
  | .mk cls b _ _ rs => (cls = .directKeyAgreement ∨ cls = .keyAgreementWithKeyWrap → b.key ≠ none) ∧ Spec.KeyedAll rs
termination_by structural x => x
def Spec.KeyedAll : List Rcpt → Prop
  | [] => True
  | r :: t => Spec.Keyed r ∧ Spec.KeyedAll t
termination_by structural x => x
end

/-- The recipient needs nothing more to be encoded: it has its content key, if it wraps one, and its ephemeral key, if it needs one. -/
def Spec.Settled (r : Rcpt) : Prop :=
  (r.cls = .keyWrap ∨ r.cls = .keyAgreementWithKeyWrap → r.base.payload ≠ some []) ∧ Spec.Keyed r

/-- The step leaves the object `b` as it is. -/
def Leaves {σ α : Type} (e : Eff σ α) (b : σ) : Prop := (e.run b).2 = b

theorem leaves_bind {σ α β : Type} {e : Eff σ α} {f : α → Eff σ β} {b : σ} (h : Leaves e b) (hf : ∀ a, (e.run b).1 = .ok a → Leaves (f a) b) :
    Leaves (e >>= f) b := by
  show (match e.run b with
    | (.ok a, s') => (f a).run s'
    | (.error e, s') => (.error e, s') : Res β × σ).2 = b
  unfold Leaves at h
  generalize e.run b = x at h hf
  obtain ⟨x, s'⟩ := x
  cases h
  cases x with
  | ok a => exact hf a rfl
  | error e => rfl

theorem leaves_expr {σ α : Type} (f : σ → Res α) (b : σ) : Leaves (Eff.expr f) b := rfl

theorem leaves_ite {σ α : Type} {c : Prop} [Decidable c] {e e' : Eff σ α} {b : σ} (h : c → Leaves e b) (h' : ¬ c → Leaves e' b) :
    Leaves (if c then e else e') b := by
  split
  · exact h ‹_›
  · exact h' ‹_›

theorem keyed_kakw {C : Crypto} {d : Nat} {b : Base} (h : b.key ≠ none) : Leaves (kakwEncryptE C d) b := by
  refine leaves_bind rfl fun peer _ => leaves_ite (fun _ => rfl) fun _ => leaves_bind rfl fun alg _ => leaves_ite (fun _ => rfl) fun _ =>
    leaves_bind rfl fun key hk => leaves_ite (fun hn => ?_) fun _ => rfl
  cases hk
  exact absurd hn h

theorem settled_encrypt {C : Crypto} {R : Rand} {n : Nat} {path : List Nat} {r : Rcpt} (h : Spec.Keyed r) :
    ((rcptEncryptE C R n path).run r).2 = r := by
  obtain ⟨cls, b, x, oid, rs⟩ := r
  refine leaves_bind rfl fun r' hr => ?_
  cases hr
  cases cls with
  | keyWrap => rfl
  | keyAgreementWithKeyWrap =>
    have := keyed_kakw (C := C) (d := R.eph path) (h.1 (.inr rfl))
    unfold Leaves at this
    show Rcpt.mk _ ((kakwEncryptE C (R.eph path)).run b).2 x oid rs = _
    rw [this]; rfl
  | directEncryption => rfl
  | directKeyAgreement => rfl

theorem keyed_head {C : Crypto} {R : Rand} {path : List Nat} {cls : RCls} {rs : List Rcpt} {b : Base}
    (h : cls = .directKeyAgreement ∨ cls = .keyAgreementWithKeyWrap → b.key ≠ none) : Leaves (rcptHeadE C R path cls rs) b := by
  cases cls with
  | keyWrap => rfl
  | directEncryption => rfl
  | keyAgreementWithKeyWrap =>
    exact leaves_bind rfl fun pe _ => leaves_bind rfl fun alg _ => leaves_bind rfl fun _ _ => leaves_bind (keyed_kakw (h (.inr rfl))) fun _ _ => rfl
  | directKeyAgreement =>
    refine leaves_bind rfl fun alg _ => leaves_ite (fun _ => rfl) fun _ => leaves_bind rfl fun peer _ => leaves_ite (fun _ => rfl) fun _ =>
      leaves_bind rfl fun key hk => leaves_ite (fun hn => ?_) fun _ => rfl
    cases hk
    exact absurd hn (h (.inl rfl))

mutual
theorem keyed_encode {C : Crypto} {R : Rand} (path : List Nat) : ∀ r : Rcpt, Spec.Keyed r → (rcptEncodeE C R path r).2 = r
  | .mk cls b x oid rs, h => by
    have h1 := keyed_head (C := C) (R := R) (path := path) (rs := rs) h.1
    have h2 := keyed_encodeAll (C := C) (R := R) path 0 rs h.2
    unfold Leaves at h1
    unfold rcptEncodeE
    generalize (rcptHeadE C R path cls rs).run b = y at h1
    obtain ⟨y, b'⟩ := y
    cases h1
    cases y with
    | error e => rfl
    | ok head =>
      simp only
      split
      · rfl
      · generalize rcptsEncodeE C R path 0 rs = z at h2
        obtain ⟨z, rs'⟩ := z
        cases h2
        cases z <;> rfl
theorem keyed_encodeAll {C : Crypto} {R : Rand} (path : List Nat) : ∀ (i : Nat) (l : List Rcpt), Spec.KeyedAll l → (rcptsEncodeE C R path i l).2 = l
  | _, [], _ => rfl
  | i, r :: t, h => by
    have h1 := keyed_encode (C := C) (R := R) (path ++ [i]) r h.1
    have h2 := keyed_encodeAll (C := C) (R := R) path (i + 1) t h.2
    unfold rcptsEncodeE
    generalize rcptEncodeE C R (path ++ [i]) r = y at h1
    obtain ⟨y, r'⟩ := y
    cases h1
    cases y with
    | error e => rfl
    | ok v =>
      simp only
      generalize rcptsEncodeE C R path (i + 1) t = z at h2
      obtain ⟨z, rs'⟩ := z
      cases h2
      cases z <;> rfl
end

section
variable {C : Crypto} {R : Rand} {m m0 : Enc} {Q : Key → Prop} {K : Enc → Prop}

theorem onRcpt_leaves {α : Type} {i : Nat} {r : Rcpt} {f : Rcpt → Res α × Rcpt} (hr : m.recipients[i]? = some r) (hf : (f r).2 = r) {s : Enc}
    (hs : s.recipients = m.recipients) : (onRcpt i f).run s = ((f r).1, s) := by
  have hset : s.recipients.set i r = s.recipients := by
    rw [hs]
    obtain ⟨hi, rfl⟩ := List.getElem?_eq_some_iff.1 hr
    exact List.set_getElem_self hi
  show (match s.recipients[i]? with
    | none => (.error .indexError, s)
    | some r => ((f r).1, { s with recipients := s.recipients.set i (f r).2 }) : Res α × Enc) = _
  rw [hs, hr]
  simp only [hf]
  rw [← hs, hset]

theorem safeAt_wrapLoop (hm : K m) (hst : Stable (KeyChange Q) K) (hK : ∀ s, K s → s.recipients = m.recipients)
    (hset : ∀ r ∈ m.recipients, Spec.Keyed r ∧ r.base.payload ≠ some []) (n : Nat) :
    ∀ (i : Nat) (key : Option Bytes) (f : Option Bytes → Thr Enc Val), i + n = m.recipients.length →
      (∀ kb, kb = (if n = 0 then key else m.recipients.getLast?.bind fun r => r.base.payload) → SafeAt (KeyChange Q) K m (f kb)) →
      SafeAt (KeyChange Q) K m (wrapLoopT C R n i key >>= f) := by
  have hG : ∀ s, K s → KeyChange Q s s := fun s _ => .inl rfl
  induction n with
  | zero =>
    intro i key f _ h
    exact h key rfl
  | succ n ih =>
    intro i key f hi h
    have hlt : i < m.recipients.length := by omega
    have hr : m.recipients[i]? = some m.recipients[i] := List.getElem?_eq_getElem hlt
    have hs := hset _ (List.getElem_mem hlt)
    have hp : ∀ s, K s → Enc.rcptPayload i s = m.recipients[i].base.payload := by
      intro s h
      simp only [Enc.rcptPayload, hK s h, hr, Option.bind]
    unfold wrapLoopT
    rw [bind_assoc']
    refine safeAt_attr hG hst (fun s h => by rw [hp s h, hp m hm]) ?_
    rw [hp m hm, if_neg hs.2, bind_assoc']
    refine safeAt_attr hG hst (fun s h => by rw [hp s h, hp m hm]) ?_
    rw [hp m hm, bind_assoc']
    refine safeAt_atomic hG hst hm (fun s h => onRcpt_leaves hr (settled_encrypt hs.1) (hK s h)) fun _ _ => ?_
    refine ih (i + 1) _ f (by omega) fun kb hkb => h kb ?_
    rw [hkb, if_neg (by omega : ¬ n + 1 = 0)]
    split
    · rw [List.getLast?_eq_getElem?, show m.recipients.length - 1 = i by omega, hr]; rfl
    · rfl

theorem safeAt_rcptsEncode (hm : K m) (hst : Stable (KeyChange Q) K) (hK : ∀ s, K s → encRest s = encRest m)
    (hset : ∀ r ∈ m.recipients, Spec.Keyed r) (n : Nat) :
    ∀ (i : Nat) (f : List Val → Thr Enc Val), i + n = m.recipients.length →
      (∀ vs, SafeAt (KeyChange Q) K m (f vs)) → SafeAt (KeyChange Q) K m (rcptsEncodeT C R n i >>= f) := by
  have hG : ∀ s, K s → KeyChange Q s s := fun s _ => .inl rfl
  induction n with
  | zero => intro i f _ h; exact h []
  | succ n ih =>
    intro i f hi h
    have hlt : i < m.recipients.length := by omega
    have hr : m.recipients[i]? = some m.recipients[i] := List.getElem?_eq_getElem hlt
    unfold rcptsEncodeT
    rw [bind_assoc']
    refine safeAt_sees hG hst hK (sees_getAttrT rest_hdrs _) fun _ _ => ?_
    rw [bind_assoc']
    refine safeAt_atomic hG hst hm (fun s h => onRcpt_leaves hr (keyed_encode _ _ (hset _ (List.getElem_mem hlt)))
      (rest_rcpts _ _ (hK s h))) fun v _ => ?_
    rw [bind_assoc']
    exact ih (i + 1) _ (by omega) fun vs => h (v :: vs)

theorem safeAt_encFinish (hm : K m) (hst : Stable (KeyChange Q) K) (hK : ∀ s, K s → encRest s = encRest m)
    (hset : ∀ r ∈ m.recipients, Spec.Keyed r) (tag : Bool) (l : List Val) :
    SafeAt (KeyChange Q) K m (Enc.finishT C R tag l) := by
  have hG : ∀ s, K s → KeyChange Q s s := fun s _ => .inl rfl
  have htstr : ∀ s s' : Enc, encRest s = encRest s' → s.base.tstr = s'.base.tstr := fun s s' h => (rest_enc s s' h).2.2
  unfold Enc.finishT
  refine safeAt_attr hG hst (fun s h => by rw [rest_rcpts _ _ (hK s h)]) ?_
  refine safeAt_ite (fun _ => safeAt_sees_end hG hst hK (sees_finishT htstr _ _ _)) fun _ => ?_
  refine safeAt_attr hG hst (fun s h => by rw [rest_rcpts _ _ (hK s h)]) ?_
  exact safeAt_rcptsEncode hm hst hK hset _ 0 _ (by simp) fun vs => safeAt_sees_end hG hst hK (sees_finishT htstr _ _ _)
end

section
variable (C : Crypto) (m : Enc)

/-- The key that `encrypt` assigns to a message with settled recipients. -/
def Spec.AssignsKey (k : Key) : Prop :=
  ∃ target types, m.base.getAttr Hdr.Algorithm = .ok target ∧ verifyRecipients m.recipients = .ok types ∧
    types.contains .directEncryption = false ∧
    if types.contains .directKeyAgreement then ∃ r t, m.recipients = r :: t ∧ dkaComputeCek C r.base target true = .ok k
    else mkSym (optBytes (m.recipients.getLast?.bind fun r => r.base.payload)) target [Op.Encrypt] = .ok k

theorem assignsKey_unique {k k' : Key} (h : Spec.AssignsKey C m k) (h' : Spec.AssignsKey C m k') : k = k' := by
  obtain ⟨t, ts, h1, h2, _, h3⟩ := h
  obtain ⟨t', ts', h1', h2', _, h3'⟩ := h'
  rw [h1] at h1'; cases h1'
  rw [h2] at h2'; cases h2'
  split at h3
  · rename_i hc
    rw [if_pos hc] at h3'
    obtain ⟨r, l, e, h⟩ := h3
    obtain ⟨r', l', e', h'⟩ := h3'
    rw [e] at e'; cases e'
    rw [h] at h'; cases h'
    rfl
  · rename_i hc
    rw [if_neg hc] at h3'
    rw [h3] at h3'; cases h3'
    rfl

/-- What holds until the key is assigned. -/
def encBefore (s : Enc) : Prop :=
  Spec.UpToKey m s ∧ ((∃ types, verifyRecipients m.recipients = .ok types ∧ types.contains .directEncryption = true) → s = m)

theorem encBefore_self : encBefore m m := ⟨⟨m.base.key, rfl⟩, fun _ => rfl⟩

theorem encBefore_stable : Stable (KeyChange (Spec.AssignsKey C m)) (encBefore m) := by
  rintro s s' ⟨h1, h2⟩ h
  refine ⟨upToKey_stable s s' h1 h, fun hd => ?_⟩
  rcases h with rfl | ⟨k, ⟨_, ts, _, hv, hf, _⟩, _⟩
  · exact h2 hd
  · obtain ⟨ts', hv', ht⟩ := hd
    rw [hv] at hv'; cases hv'
    rw [hf] at ht; cases ht

theorem safeAt_encrypt (R : Rand) (hset : ∀ r ∈ m.recipients, Spec.Settled r) (f : Val → Thr Enc Val)
    (hf : ∀ (K : Enc → Prop) m', Stable (KeyChange (Spec.AssignsKey C m)) K → K m' → (∀ s, K s → Spec.UpToKey m s) →
      ∀ c, SafeAt (KeyChange (Spec.AssignsKey C m)) K m' (f c)) :
    SafeAt (KeyChange (Spec.AssignsKey C m)) (encBefore m) m (Enc.encryptT C R >>= f) := by
  have hst := encBefore_stable C m
  have hm := encBefore_self m
  have hG : ∀ s, encBefore m s → KeyChange (Spec.AssignsKey C m) s s := fun s _ => .inl rfl
  have hK : ∀ s, encBefore m s → encRest s = encRest m := fun s h => upToKey_rest h.1
  have hafter : ∀ k, Spec.AssignsKey C m k → SafeAt (KeyChange (Spec.AssignsKey C m)) (encBefore m) m
      ((assign (Enc.setKey k) >>= fun _ => encEncryptT Enc.base C b!"Encrypt") >>= f) := by
    intro k hk
    have hQ : ∀ k', Spec.AssignsKey C m k' → k' = k := fun k' h => assignsKey_unique C m h hk
    rw [bind_assoc']
    refine safeAt_setKey hk hQ (fun s hs => hs.1) ?_
    refine safeAt_sees (v := Enc.base) (fun s _ => .inl rfl) (key_stable hQ) (fun s hs => by rw [hs]) (sees_encEncryptT enc_base_id C _)
      fun c _ => ?_
    exact hf _ _ (key_stable hQ) rfl (fun s hs => ⟨some k, hs⟩) c
  unfold Enc.encryptT
  rw [bind_assoc']
  refine safeAt_sees hG hst hK (sees_getAttrT rest_hdrs _) fun target ht => ?_
  rw [getAttrT_alone] at ht
  rw [bind_assoc']
  refine safeAt_attr hG hst (fun s h => rest_rcpts _ _ (hK s h)) ?_
  rw [bind_assoc']
  refine safeAt_expr fun types hv => ?_
  rw [ite_bind]
  refine safeAt_ite (fun hd => ?_) fun hd => ?_
  · have hsame : ∀ s, encBefore m s → s = m := fun s h => h.2 ⟨types, hv, hd⟩
    refine safeAt_sees (v := Enc.base) hG hst (fun s h => by rw [hsame s h]) (sees_encEncryptT enc_base_id C _) fun c _ => ?_
    exact hf _ _ hst hm (fun s h => h.1) c
  · have hd' : types.contains .directEncryption = false := by simpa using hd
    rw [ite_bind]
    refine safeAt_ite (fun hka => ?_) fun hka => ?_
    · rw [bind_assoc']
      refine safeAt_attr hG hst (fun s h => rest_rcpts _ _ (hK s h)) ?_
      rw [bind_assoc']
      refine safeAt_expr fun k hk => ?_
      refine hafter k ⟨target, types, ht, hv, hd', ?_⟩
      rw [if_pos hka]
      cases hr : m.recipients with
      | nil => rw [hr] at hk; cases hk
      | cons r t => rw [hr] at hk; exact ⟨r, t, rfl, hk⟩
    · rw [ite_bind]
      refine safeAt_ite (fun hw => ?_) (fun _ => rfl)
      have hts := verifyRecipients_types hv
      rw [bind_assoc']
      refine safeAt_sees hG hst hK (sees_getAttrT rest_hdrs _) fun target' ht' => ?_
      rw [bind_assoc']
      refine safeAt_expr fun n _ => ?_
      rw [bind_assoc']
      refine safeAt_attr hG hst (fun s h => by rw [rest_rcpts _ _ (hK s h)]) ?_
      rw [bind_assoc']
      refine safeAt_wrapLoop hm hst (fun s h => rest_rcpts _ _ (hK s h)) ?_ _ 0 _ _ (by simp) fun kb hkb => ?_
      · intro r hr
        refine ⟨(hset r hr).2, (hset r hr).1 ?_⟩
        cases hc : r.cls with
        | keyWrap => exact .inl rfl
        | keyAgreementWithKeyWrap => exact .inr rfl
        | directEncryption => exact absurd (by rw [hts]; simp; exact ⟨r, hr, hc⟩) hd
        | directKeyAgreement => exact absurd (by rw [hts]; simp; exact ⟨r, hr, hc⟩) hka
      · rw [bind_assoc']
        refine safeAt_expr fun k hk => ?_
        refine hafter k ⟨target, types, ht, hv, hd', ?_⟩
        rw [if_neg hka]
        have hne : m.recipients.length ≠ 0 := by
          intro h0
          rw [List.length_eq_zero_iff] at h0
          rw [hts, h0] at hw
          simp at hw
        rw [if_neg hne] at hkb
        rw [← hkb]
        exact hk

theorem safeAt_encode (R : Rand) (tag enc : Bool) (hset : ∀ r ∈ m.recipients, Spec.Settled r) :
    SafeAt (KeyChange (Spec.AssignsKey C m)) (encBefore m) m (Enc.encodeT C R tag enc) := by
  have hst := encBefore_stable C m
  have hm := encBefore_self m
  have hG : ∀ s, encBefore m s → KeyChange (Spec.AssignsKey C m) s s := fun s _ => .inl rfl
  have hK : ∀ s, encBefore m s → encRest s = encRest m := fun s h => upToKey_rest h.1
  unfold Enc.encodeT
  refine safeAt_sees hG hst hK (sees_phdrEncodedT rest_enc) fun pe _ => ?_
  refine safeAt_attr hG hst (fun s h => (rest_hdrs _ _ (hK s h)).2) ?_
  refine safeAt_ite (fun _ => ?_) fun _ => ?_
  · refine safeAt_encrypt C m R hset _ fun K m' hst' hm' hup c => ?_
    have hr : ∀ s, K s → s.recipients = m.recipients := fun s h => rest_rcpts _ _ (upToKey_rest (hup s h))
    refine safeAt_encFinish hm' hst' (fun s h => ?_) (fun r hr' => ?_) _ _
    · rw [upToKey_rest (hup s h), upToKey_rest (hup m' hm')]
    · rw [hr m' hm'] at hr'; exact (hset r hr').2
  · refine safeAt_attr hG hst (fun s h => ?_) ?_
    · obtain ⟨key, rfl⟩ := h.1; rfl
    · exact safeAt_encFinish hm hst hK (fun r hr => (hset r hr).2) _ _
end

/-! What encoding leaves behind -/

/-- If the step returns, the object then satisfies `P`. -/
def Post {σ α : Type} (e : Eff σ α) (b : σ) (P : σ → Prop) : Prop := ∀ a b', e.run b = (.ok a, b') → P b'

theorem post_bind {σ α β : Type} {e : Eff σ α} {f : α → Eff σ β} {b : σ} {P Q : σ → Prop} (h : Post e b P)
    (hf : ∀ a b', P b' → Post (f a) b' Q) : Post (e >>= f) b Q := by
  intro c b'' hr
  have hr' : (match e.run b with
    | (.ok a, s') => (f a).run s'
    | (.error e, s') => (.error e, s') : Res β × σ) = (.ok c, b'') := hr
  cases he : e.run b with
  | mk x s =>
    rw [he] at hr'
    cases x with
    | ok a => exact hf a s (h a s he) c b'' hr'
    | error e => cases hr'

theorem post_expr {σ α : Type} {f : σ → Res α} {b : σ} {P : σ → Prop} (h : P b) : Post (Eff.expr f) b P := by
  intro a b' hr
  cases (congrArg Prod.snd hr : b = b')
  exact h

theorem post_raise {σ α : Type} {e : PyErr} {b : σ} {P : σ → Prop} : Post (Eff.raise e : Eff σ α) b P := by
  intro a b' hr
  cases (congrArg Prod.fst hr)

theorem post_ite {σ α : Type} {c : Prop} [Decidable c] {e e' : Eff σ α} {b : σ} {P : σ → Prop} (h : c → Post e b P) (h' : ¬ c → Post e' b P) :
    Post (if c then e else e') b P := by
  split
  · exact h ‹_›
  · exact h' ‹_›

theorem post_assign {σ : Type} {w : σ → σ} {b : σ} {P : σ → Prop} (h : P (w b)) : Post (Eff.assign w) b P := by
  intro a b' hr
  cases (congrArg Prod.snd hr : w b = b')
  exact h

theorem post_setup {C : Crypto} {d : Nat} {peer : Val} {b : Base} {p : Option Bytes} (h : b.payload = p) :
    Post (setupEphemeralE C d peer) b fun b' => b'.payload = p ∧ b'.key ≠ none := by
  refine post_bind (P := fun b' => b'.payload = p) (post_expr h) fun _ b h => post_bind (P := fun b' => b'.payload = p) (post_expr h) fun _ b h =>
    post_bind (P := fun b' => b'.payload = p) (post_expr h) fun k b h => ?_
  refine post_bind (P := fun b' => b'.payload = p ∧ b'.key ≠ none) (post_assign ⟨h, by simp⟩) fun _ b h => ?_
  refine post_bind (P := fun b' => b'.payload = p ∧ b'.key ≠ none) (post_expr h) fun _ b h => post_ite (fun _ => post_raise) fun _ =>
    post_ite (fun _ => post_raise) fun _ => post_assign h

theorem post_read {σ α β : Type} {f : σ → α} {g : α → Eff σ β} {b : σ} {Q : σ → Prop} (h : Post (g (f b)) b Q) :
    Post (Eff.expr (fun b => .ok (f b)) >>= g) b Q := h

theorem post_kakw {C : Crypto} {d : Nat} {b : Base} {p : Option Bytes} (h : b.payload = p) :
    Post (kakwEncryptE C d) b fun b' => b'.payload = p ∧ b'.key ≠ none := by
  refine post_bind (P := fun b' => b'.payload = p) (post_expr h) fun _ b h => post_ite (fun _ => post_raise) fun _ =>
    post_bind (P := fun b' => b'.payload = p) (post_expr h) fun _ b h => post_ite (fun _ => post_raise) fun _ => post_read ?_
  refine post_ite (fun _ => ?_) fun hk => post_expr ⟨h, hk⟩
  refine post_bind (P := fun b' => b'.payload = p) (post_expr h) fun _ b h => ?_
  exact post_ite (fun _ => post_bind (post_setup h) fun _ b h => post_expr h) fun _ => post_bind (P := fun _ => False) post_raise fun _ _ h => h.elim

theorem post_head {C : Crypto} {R : Rand} {path : List Nat} {cls : RCls} {rs : List Rcpt} {b : Base} {p : Option Bytes} (h : b.payload = p) :
    Post (rcptHeadE C R path cls rs) b fun b' => b'.payload = p ∧ (cls = .directKeyAgreement ∨ cls = .keyAgreementWithKeyWrap → b'.key ≠ none) := by
  cases cls with
  | keyWrap => exact post_expr ⟨h, by simp⟩
  | directEncryption => exact post_expr ⟨h, by simp⟩
  | keyAgreementWithKeyWrap =>
    refine post_bind (P := fun b' => b'.payload = p) (post_expr h) fun _ b h => post_bind (P := fun b' => b'.payload = p) (post_expr h) fun _ b h =>
      post_bind (P := fun b' => b'.payload = p) (post_expr h) fun _ b h => post_bind (post_kakw h) fun _ b h => post_expr ⟨h.1, fun _ => h.2⟩
  | directKeyAgreement =>
    refine post_bind (P := fun b' => b'.payload = p) (post_expr h) fun alg b h => post_ite (fun _ => post_raise) fun _ =>
      post_bind (P := fun b' => b'.payload = p) (post_expr h) fun peer b h => post_ite (fun _ => post_raise) fun _ => ?_
    refine post_read (post_ite (fun _ => ?_) fun hk => post_expr ⟨h, fun _ => hk⟩)
    refine post_bind (P := fun b' => b'.payload = p) (post_expr h) fun _ b h => ?_
    exact post_ite (fun _ => post_bind (post_setup h) fun _ b h => post_expr ⟨h.1, fun _ => h.2⟩) fun _ =>
      post_bind (P := fun _ => False) post_raise fun _ _ h => h.elim

mutual
theorem encode_keyed {C : Crypto} {R : Rand} (path : List Nat) : ∀ (r : Rcpt) {v : Val} {r' : Rcpt}, rcptEncodeE C R path r = (.ok v, r') →
    Spec.Keyed r' ∧ r'.cls = r.cls ∧ r'.base.payload = r.base.payload
  | .mk cls b x oid rs, v, r', h => by
    have h1 := post_head (C := C) (R := R) (path := path) (cls := cls) (rs := rs) (b := b) rfl
    have h2 := fun {vs rs'} => encode_keyedAll (C := C) (R := R) path 0 rs (vs := vs) (l' := rs')
    unfold rcptEncodeE at h
    cases hh : (rcptHeadE C R path cls rs).run b with
    | mk y b' =>
      rw [hh] at h
      cases y with
      | error e => cases h
      | ok head =>
        have h1 := h1 _ _ hh
        simp only at h
        split at h
        · rename_i he
          cases h
          have hn : rs = [] := by simpa using he
          refine ⟨⟨h1.2, ?_⟩, rfl, h1.1⟩
          rw [hn]; trivial
        · cases hz : rcptsEncodeE C R path 0 rs with
          | mk z rs' =>
            rw [hz] at h
            cases z with
            | error e => cases h
            | ok vs =>
              cases h
              exact ⟨⟨h1.2, h2 hz⟩, rfl, h1.1⟩
theorem encode_keyedAll {C : Crypto} {R : Rand} (path : List Nat) : ∀ (i : Nat) (l : List Rcpt) {vs : List Val} {l' : List Rcpt},
    rcptsEncodeE C R path i l = (.ok vs, l') → Spec.KeyedAll l'
  | _, [], vs, l', h => by cases h; trivial
  | i, r :: t, vs, l', h => by
    have h1 := fun {v r'} => encode_keyed (C := C) (R := R) (path ++ [i]) r (v := v) (r' := r')
    have h2 := fun {vs t'} => encode_keyedAll (C := C) (R := R) path (i + 1) t (vs := vs) (l' := t')
    unfold rcptsEncodeE at h
    cases hy : rcptEncodeE C R (path ++ [i]) r with
    | mk y r' =>
      rw [hy] at h
      cases y with
      | error e => cases h
      | ok v =>
        simp only at h
        cases hz : rcptsEncodeE C R path (i + 1) t with
        | mk z t' =>
          rw [hz] at h
          cases z with
          | error e => cases h
          | ok vs => cases h; exact ⟨(h1 hy).1, h2 hz⟩
end

theorem keyedAll_mem : ∀ {l : List Rcpt}, Spec.KeyedAll l → ∀ r ∈ l, Spec.Keyed r
  | _ :: _, h, r, hr => by
    rcases List.mem_cons.1 hr with rfl | hr
    · exact h.1
    · exact keyedAll_mem h.2 r hr

/-- A wrapping recipient has a content key. -/
def HasCek (r : Rcpt) : Prop := r.cls = .keyWrap ∨ r.cls = .keyAgreementWithKeyWrap → r.base.payload ≠ some []

theorem encodeAll_cek {C : Crypto} {R : Rand} {path : List Nat} {i : Nat} {l l' : List Rcpt} {vs : List Val}
    (h : rcptsEncodeE C R path i l = (.ok vs, l')) (hl : ∀ r ∈ l, HasCek r) : ∀ r ∈ l', HasCek r := by
  induction l generalizing i l' vs with
  | nil => cases h; simp
  | cons r t ih =>
    unfold rcptsEncodeE at h
    cases hy : rcptEncodeE C R (path ++ [i]) r with
    | mk y r' =>
      rw [hy] at h
      cases y with
      | error e => cases h
      | ok v =>
        simp only at h
        cases hz : rcptsEncodeE C R path (i + 1) t with
        | mk z t' =>
          rw [hz] at h
          cases z with
          | error e => cases h
          | ok vs =>
            cases h
            intro r1 hr1
            rcases List.mem_cons.1 hr1 with rfl | hr1
            · obtain ⟨_, h2, h3⟩ := encode_keyed _ _ hy
              unfold HasCek
              rw [h2, h3]
              exact hl r List.mem_cons_self
            · exact ih hz (fun r hr => hl r (List.mem_cons_of_mem _ hr)) r1 hr1

theorem encrypt_payload {C : Crypto} {R : Rand} {n : Nat} {path : List Nat} {r r' : Rcpt} {c : Bytes}
    (h : (rcptEncryptE C R n path).run r = (.ok c, r')) : r'.base.payload = r.base.payload := by
  obtain ⟨cls, b, x, oid, rs⟩ := r
  cases cls with
  | keyWrap => cases (congrArg Prod.snd h : _ = r'); rfl
  | directEncryption => cases (congrArg Prod.fst h)
  | directKeyAgreement => cases (congrArg Prod.fst h)
  | keyAgreementWithKeyWrap =>
    have h1 : ((kakwEncryptE C (R.eph path)).run b).1 = .ok c := congrArg Prod.fst h
    have h2 : Rcpt.mk .keyAgreementWithKeyWrap ((kakwEncryptE C (R.eph path)).run b).2 x oid rs = r' := congrArg Prod.snd h
    cases h2
    exact (post_kakw (p := b.payload) rfl c _ (Prod.ext h1 rfl)).1

theorem wrapLoop_cek {C : Crypto} {R : Rand} {i : Nat} {key kb : Option Bytes} {l l' : List Rcpt}
    (h : wrapLoopE C R i key l = (.ok kb, l')) (hk : key ≠ some []) : ∀ r ∈ l', HasCek r := by
  induction l generalizing i key l' with
  | nil => cases h; simp
  | cons r t ih =>
    unfold wrapLoopE at h
    have hg : (giveKey key r).1 ≠ some [] ∧ (giveKey key r).2.base.payload ≠ some [] := by
      unfold giveKey
      split
      · obtain ⟨cls, b, x, oid, rs⟩ := r
        exact ⟨hk, hk⟩
      · rename_i hp; exact ⟨hp, hp⟩
    cases hy : (rcptEncryptE C R 0 [i]).run (giveKey key r).2 with
    | mk y r' =>
      rw [hy] at h
      cases y with
      | error e => cases h
      | ok c =>
        simp only at h
        cases hz : wrapLoopE C R (i + 1) (giveKey key r).1 t with
        | mk z t' =>
          rw [hz] at h
          cases h
          intro r1 hr1
          rcases List.mem_cons.1 hr1 with rfl | hr1
          · intro _
            rw [encrypt_payload hy]
            exact hg.2
          · exact ih hz hg.1 r1 hr1

theorem post_exprBind {σ α β : Type} {f : σ → Res α} {g : α → Eff σ β} {b : σ} {Q : σ → Prop} (h : ∀ a, f b = .ok a → Post (g a) b Q) :
    Post (Eff.expr f >>= g) b Q := by
  intro c b'' hr
  have hr' : (match f b with
    | .ok a => (g a).run b
    | .error e => (.error e, b) : Res β × σ) = (.ok c, b'') := by
    rw [← hr]
    simp only [bind, Eff.expr]
    cases f b <;> rfl
  cases ha : f b with
  | ok a => rw [ha] at hr'; exact h a ha c b'' hr'
  | error e => rw [ha] at hr'; cases hr'

theorem algKeyLength_pos {a : Val} {n : Nat} (h : algKeyLength a = .ok n) : n ≠ 0 := by
  obtain ⟨i, rfl⟩ := algKeyLength_cls h
  have := algKeyLength_spec h
  rintro rfl
  unfold Spec.keyBits at this
  split at this
  · simp at this
  · split at this
    · simp at this
    · split at this <;> simp at this

theorem post_encrypt {C : Crypto} {R : Rand} {m : Enc} (hR : ∀ n, (R.cek n).length = n) :
    Post (Enc.encryptE C R) m fun m' => ∀ r ∈ m'.recipients, HasCek r := by
  refine post_exprBind fun target _ => post_exprBind fun types hv => ?_
  have hts := (verifyRecipients_iff.1 hv)
  refine post_ite (fun hd => ?_) fun hd => ?_
  · refine post_expr ?_
    have h := hts.2.1 (by rw [hts.1] at hd; simpa using hd)
    intro r hr hc
    rw [h r hr] at hc
    rcases hc with hc | hc <;> cases hc
  · refine post_ite (fun hka => ?_) fun hka => ?_
    · have hall : ∀ r ∈ m.recipients, HasCek r := by
        have hex : ∃ r ∈ m.recipients, r.cls = .directKeyAgreement := by rw [hts.1] at hka; simpa using hka
        have hlen := hts.2.2 hex
        obtain ⟨r0, hr0, hc0⟩ := hex
        intro r hr hc
        have : r = r0 := by
          cases hm : m.recipients with
          | nil => rw [hm] at hr; cases hr
          | cons a t =>
            rw [hm] at hlen hr hr0
            have : t = [] := by
              cases t with
              | nil => rfl
              | cons b u => simp at hlen
            subst this
            simp at hr hr0
            rw [hr, hr0]
        rw [this, hc0] at hc
        rcases hc with hc | hc <;> cases hc
      refine post_exprBind fun k _ => ?_
      refine post_bind (P := fun m' => ∀ r ∈ m'.recipients, HasCek r) ?_ fun _ m' h => post_expr h
      intro a m' hr
      cases (congrArg Prod.snd hr : _ = m')
      exact hall
    · refine post_ite (fun _ => ?_) fun _ => post_raise
      refine post_exprBind fun n hn => ?_
      refine post_bind (P := fun m' => ∀ r ∈ m'.recipients, HasCek r) ?_ fun kb m' h => post_exprBind fun k _ => ?_
      · intro a m' hr
        have h1 : (wrapLoopE C R 0 (some (R.cek n)) m.recipients).1 = .ok a := congrArg Prod.fst hr
        cases (congrArg Prod.snd hr : _ = m')
        refine wrapLoop_cek (Prod.ext h1 rfl) ?_
        intro h0
        have h0 : R.cek n = [] := by simpa using h0
        have := hR n
        rw [h0] at this
        exact algKeyLength_pos hn this.symm
      · refine post_bind (P := fun m' => ∀ r ∈ m'.recipients, HasCek r) ?_ fun _ m' h => post_expr h
        intro a m'' hr
        cases (congrArg Prod.snd hr : _ = m'')
        exact h

end Cose
