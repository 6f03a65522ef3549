import Verif.Props.RefusalsRcpt
/-!
# Property C91, continued: recipients with key agreement
-/
set_option autoImplicit false
namespace Cose

/-! ### Specification -/

/-- Party headers of the KDF context. -/
def Spec.partyHeaders : List Cls := [Hdr.PartyUID, Hdr.PartyUNonce, Hdr.PartyUOther, Hdr.PartyVID, Hdr.PartyVNonce, Hdr.PartyVOther]

/-- Deriving a key for the algorithm `target` from the value `peer` given as public key and the private key `mine`. -/
def Spec.agreeUse (b : Base) (target peer : Val) (mine : Option Key) : List (Prop × PyErr) :=
  match peer with
  | .key kind store =>
    let pub : Key := { kind := kind, store := store }
    [(kind = .ec2 ∨ kind = .okp, .attributeError), (∃ c, pub.crv = .ok c, .invalidKey),
     (∀ h ∈ Spec.partyHeaders, ¬ Spec.Twice b h, .coseException), (∃ t bits, target = algCls t ∧ Spec.keyBits t = some bits, .attributeError)] ++
    match mine with
    | none => [(False, .attributeError)]
    | some k =>
      [(k.kind ≠ .sym, .attributeError), (∃ d, k.d = .ok (.bytes d), .typeError), (k.d ≠ .ok (.bytes []), .valueError),
       (∃ x, pub.x = .ok (.bytes x), .typeError), (pub.x ≠ .ok (.bytes []), .valueError), (kind = .ec2, .attributeError),
       (∃ y, pub.y = .ok (.bytes y), .typeError), (pub.y ≠ .ok (.bytes []), .valueError), (∃ c, pub.crv = .ok (.cls c), .attributeError)]
  | _ => [(False, .attributeError)]

/-- The derivation itself: the library's ECDH, the serialised KDF context (C49), HKDF. -/
def Spec.Derivation (C : Crypto) (b : Base) (i : Int) (target peer : Val) (mine : Option Key) (q : Res Bytes) : Prop :=
  ∃ kind store k hh w c d x y t bits ctx, peer = .key kind store ∧ mine = some k ∧ (i, hh, w) ∈ Spec.agreeAlgs ∧
    Key.crv { kind := kind, store := store } = .ok (.cls c) ∧ k.d = .ok (.bytes d) ∧ Key.x { kind := kind, store := store } = .ok (.bytes x) ∧
    Key.y { kind := kind, store := store } = .ok (.bytes y) ∧ target = algCls t ∧ Spec.keyBits t = some bits ∧ Cose.kdfContext b target = .ok ctx ∧
    q = (C.ecdh c (natOfBytes d) (natOfBytes x) (natOfBytes y) >>= fun s => ctx.encode >>= fun info => .ok (C.hkdf hh (bits / 8) info s))

/-- Where the public key of the other side is: with the sender among the local attributes, with the receiver in the header for the algorithm. -/
def Spec.Peer (b : Base) (i : Int) (sender : Bool) (v : Val) : Prop :=
  if sender then v ≠ .none ∧ dget b.localAttrs (.cls Hdr.StaticKey) = some v
  else Spec.Value b (if i ∈ [-27, -28, -32, -33, -34] then Hdr.StaticKey else Hdr.EphemeralKey) v

/-- What finding it requires; `missing` is the exception if it is not there. -/
def Spec.peerUse (b : Base) (i : Int) (sender : Bool) (missing : PyErr) : List (Prop × PyErr) :=
  [(sender = false → ¬ Spec.Twice b (if i ∈ [-27, -28, -32, -33, -34] then Hdr.StaticKey else Hdr.EphemeralKey), .coseException),
   (∃ v, Spec.Peer b i sender v, missing)]

/-- Direct key agreement: the algorithm. -/
def Spec.directUse (b : Base) : List (Prop × PyErr) :=
  [(¬ Spec.Twice b Hdr.Algorithm, .coseException), (∀ v, Spec.Value b Hdr.Algorithm v → Spec.Hashable v, .typeError),
   (∃ i ∈ [-25, -26, -27, -28], Spec.Value b Hdr.Algorithm (algCls i), .attributeError)]

/-- Direct key agreement: the keys of both sides. -/
def Spec.bothKeys (b : Base) (target peer : Val) : List (Prop × PyErr) :=
  match peer with
  | .key kind store =>
    (kind = .ec2, .coseException) :: Spec.policy b { kind := kind, store := store } [Op.DeriveKey, Op.DeriveBits] ++
    match b.key with
    | none => [(False, .attributeError)]
    | some k => (k.kind = .ec2, .coseException) :: Spec.policy b k [Op.DeriveKey, Op.DeriveBits] ++ Spec.agreeUse b target peer (some k)
  | _ => [(False, .attributeError)]

/-- The sides' policies are lists of operations, if they are there. -/
def Spec.OrdinaryPeer (b : Base) (i : Int) (sender : Bool) : Prop := ∀ kind store, Spec.Peer b i sender (.key kind store) → Spec.PlainPolicy { kind := kind, store := store }

/-- The key-encryption key `kek` in use: its length, and the data. -/
def Spec.derivedUse (b : Base) (n : Nat) (kek : Bytes) : List (Prop × PyErr) :=
  [(kek.length ∈ [16, 24, 32], .invalidKey), (kek.length = n, .valueError), (b.payload ≠ none, .typeError)]

/-- ECDH with key wrap, receiving: the algorithm. -/
def Spec.agreedUnwrapUse (b : Base) : List (Prop × PyErr) :=
  [(¬ Spec.Twice b Hdr.Algorithm, .coseException), (∀ v, Spec.Value b Hdr.Algorithm v → Spec.Hashable v, .typeError),
   (∃ i ∈ [-29, -30, -31, -32, -33, -34], Spec.Value b Hdr.Algorithm (algCls i), .attributeError)]

/-- ECDH with key wrap, sending: receiver's key, algorithm, and without a key of its own only ECDH-ES. -/
def Spec.agreedWrapUse (b : Base) : List (Prop × PyErr) :=
  [(∃ v, Spec.Peer b 0 true v, .coseException), (¬ Spec.Twice b Hdr.Algorithm, .coseException), (∃ v, Spec.Value b Hdr.Algorithm v, .coseException)] ++
  match b.key with
  | some _ => []
  | none => [(∀ v, Spec.Value b Hdr.Algorithm v → Spec.Hashable v, .typeError), (∃ i ∈ [-29, -30, -31], Spec.Value b Hdr.Algorithm (algCls i), .coseException)]

/-- Making an ephemeral key: the curve of the receiver's key. -/
def Spec.ephemeralUse (peer : Val) : List (Prop × PyErr) :=
  match peer with
  | .key kind store => [(kind = .ec2 ∨ kind = .okp, .attributeError), (∃ c, Key.crv { kind := kind, store := store } = .ok c, .invalidKey)]
  | _ => [(False, .attributeError)]

/-- The error of a first step, or what follows it. -/
def Spec.Then {α β : Type} (q : Res α) (next : α → Res β → Prop) (r : Res β) : Prop :=
  (∃ e, q = .error e ∧ r = .error e) ∨ ∃ a, q = .ok a ∧ next a r

/-! ### Lemmas -/

theorem then_bind {α β : Type} {q : Res α} {f : α → Res β} {next : α → Res β → Prop} (h : ∀ a, q = .ok a → next a (f a)) : Spec.Then q next (q >>= f) := by
  cases q with
  | error e => exact .inl ⟨e, rfl, rfl⟩
  | ok a => exact .inr ⟨a, rfl, h a rfl⟩

theorem keyLength_bits {target : Val} : (∃ t bits, target = algCls t ∧ Spec.keyBits t = some bits) ↔ ∃ n, algKeyLength target = .ok n := by
  constructor
  · rintro ⟨t, bits, rfl, h⟩; exact ⟨_, keyBits_length h⟩
  · rintro ⟨n, h⟩
    obtain ⟨t, rfl⟩ := algKeyLength_cls h
    exact ⟨t, _, rfl, algKeyLength_spec h⟩

theorem keyLength_error {target : Val} (h : ¬ ∃ n, algKeyLength target = .ok n) : algKeyLength target = .error .attributeError := by
  cases hk : algKeyLength target with
  | ok n => exact absurd ⟨n, hk⟩ h
  | error e =>
    unfold algKeyLength at hk
    split at hk <;> (try split at hk) <;> simp_all

theorem kdf_outcome {α : Type} {b : Base} {target : Val} {f : KdfContext → Res α} {l : List (Prop × PyErr)} {rest : Res α → Prop}
    (h : ∀ ctx, kdfContext b target = .ok ctx → Spec.Outcome l rest (f ctx)) :
    Spec.Outcome ((∀ h ∈ Spec.partyHeaders, ¬ Spec.Twice b h, .coseException) :: (∃ t bits, target = algCls t ∧ Spec.keyBits t = some bits, .attributeError) :: l) rest
      (kdfContext b target >>= f) := by
  refine outcome_cons (fun hp => ?_) fun hp => ?_
  · obtain ⟨c, hc, ht⟩ : ∃ c ∈ Spec.partyHeaders, Spec.Twice b c := Classical.byContradiction fun hn => hp fun c hc ht => hn ⟨c, hc, ht⟩
    have step : ∀ (c : Cls) {β : Type} (g : Val → Res β), (∀ v, g v = .error .coseException) → (b.getAttr c >>= g) = .error .coseException := by
      intro c β g hg
      by_cases hc : Spec.Twice b c
      · rw [getAttr_twice hc]; rfl
      · obtain ⟨v, hv, _⟩ := getAttr_value hc
        rw [hv, ok_bind, hg]
    have first : ∀ (c : Cls) {β : Type} (g : Val → Res β), Spec.Twice b c → (b.getAttr c >>= g) = .error .coseException := by
      intro c β g hc
      rw [getAttr_twice hc]; rfl
    have : kdfContext b target = .error .coseException := by
      unfold kdfContext
      simp only [Spec.partyHeaders, List.mem_cons, List.not_mem_nil, or_false] at hc
      rcases hc with rfl | rfl | rfl | rfl | rfl | rfl <;>
      · repeat first | exact first _ _ ht | (refine step _ _ fun _ => ?_)
    rw [this]; rfl
  · have hg : ∀ c ∈ Spec.partyHeaders, ∃ v, b.getAttr c = .ok v := fun c hc => (getAttr_value (hp c hc)).imp fun v h => h.1
    simp only [Spec.partyHeaders, List.mem_cons, List.not_mem_nil, or_false, forall_eq_or_imp, forall_eq] at hg
    obtain ⟨⟨v1, h1⟩, ⟨v2, h2⟩, ⟨v3, h3⟩, ⟨v4, h4⟩, ⟨v5, h5⟩, ⟨v6, h6⟩⟩ := hg
    rw [keyLength_bits]
    refine outcome_cons (fun hp => ?_) fun ⟨n, hn⟩ => ?_
    · simp only [kdfContext, h1, h2, h3, h4, h5, h6, ok_bind, keyLength_error hp]; rfl
    · cases hk : kdfContext b target with
      | error e => simp [kdfContext, h1, h2, h3, h4, h5, h6, ok_bind, hn, SuppPubInfo.init] at hk
      | ok ctx => exact h ctx hk

/-- A coordinate or private value of a key: a byte string, and not empty. -/
theorem hex_outcome {α : Type} {v : Val} {f : Nat → Res α} {l : List (Prop × PyErr)} {rest : Res α → Prop} {shown : Res Val} (hs : shown = .ok v)
    (h : ∀ d, shown = .ok (.bytes d) → Spec.Outcome l rest (f (natOfBytes d))) :
    Spec.Outcome ((∃ d, shown = .ok (.bytes d), .typeError) :: (shown ≠ .ok (.bytes []), .valueError) :: l) rest (intFromHex v >>= f) := by
  subst hs
  refine outcome_cons (fun hp => ?_) fun ⟨d, hd⟩ => ?_
  · cases v <;> first | rfl | exact absurd ⟨_, rfl⟩ hp
  · cases hd
    cases d with
    | nil => exact outcome_cons (fun _ => rfl) fun h => absurd rfl h
    | cons a t => exact outcome_cons (fun h => absurd (by simp) h) fun _ => h _ rfl

theorem agree_outcome {α : Type} {C : Crypto} {b : Base} {i : Int} {hh : HashId} {w : Option Int} {target peer : Val} {mine : Option Key}
    {f : Bytes → Res α} {rest : Res α → Prop} (hi : (i, hh, w) ∈ Spec.agreeAlgs)
    (h : ∀ q, Spec.Derivation C b i target peer mine q → rest (q >>= f)) :
    Spec.Outcome (Spec.agreeUse b target peer mine) rest (agreeKek C b target peer mine (algCls i) >>= f) := by
  have hf := agree_row _ hi
  unfold agreeKek
  rw [hf]
  simp only
  cases peer with
  | key kind store =>
    simp only [Spec.agreeUse, asKey, ok_bind, List.cons_append, List.nil_append, bind_assoc]
    refine outcome_cons (fun hp => ?_) fun hk => ?_
    · cases kind <;> first | rfl | simp at hp
    refine outcome_cons (fun hp => ?_) fun ⟨crv, hcrv⟩ => ?_
    · simp only [Key.crv] at hp ⊢
      rcases hk with rfl | rfl <;> simp only at hp ⊢ <;> split at hp <;> first | (exact absurd ⟨_, rfl⟩ hp) | rfl
    rw [hcrv, ok_bind]
    refine kdf_outcome fun ctx hctx => ?_
    unfold deriveKek
    rw [hf]
    simp only
    cases mine with
    | none => exact outcome_cons (fun _ => rfl) fun h => h.elim
    | some k =>
      simp only [bind_assoc]
      refine outcome_cons (fun hp => ?_) fun hs => ?_
      · have : k.d = .error .attributeError := by unfold Key.d; rw [Classical.not_not.mp hp]
        rw [this]; rfl
      obtain ⟨dv, hd⟩ : ∃ v, k.d = .ok v := by
        unfold Key.d; revert hs; cases k.kind <;> simp
      obtain ⟨xv, hx⟩ : ∃ v, Key.x { kind := kind, store := store } = .ok v := by
        unfold Key.x; rcases hk with rfl | rfl <;> simp
      rw [hd, ok_bind]
      refine hex_outcome rfl fun d hd' => ?_
      rw [hx, ok_bind]
      refine hex_outcome rfl fun x hx' => ?_
      refine outcome_cons (fun hp => ?_) fun he => ?_
      · have : kind = .okp := hk.resolve_left hp
        subst this; rfl
      subst he
      have hy : Key.y { kind := .ec2, store := store } = .ok (getD store Ec2Y (.bytes [])) := rfl
      rw [hy, ok_bind]
      refine hex_outcome rfl fun y hy' => ?_
      refine outcome_cons (fun hp => ?_) fun ⟨c, hc⟩ => outcome_nil ?_
      · cases crv <;> first | rfl | exact absurd ⟨_, rfl⟩ hp
      · cases hc
        simp only
        have hctx' := hctx
        simp only [kdfContext, bind_eq_ok, Except.ok.injEq] at hctx'
        obtain ⟨_, _, _, _, _, _, _, _, _, _, _, _, n, hn, sp, hsp, rfl⟩ := hctx'
        obtain ⟨t, ht⟩ := algKeyLength_cls hn
        subst ht
        have hb := algKeyLength_spec hn
        simp only [SuppPubInfo.init, Except.ok.injEq] at hsp
        have hl : sp.keyDataLength = n * 8 / 8 := by rw [← hsp]; simp
        have := h _ ⟨.ec2, store, k, hh, w, c, d, x, y, t, n * 8, _, rfl, rfl, hi, hcrv, by rw [hd]; exact hd', by rw [hx]; exact hx', by rw [hy]; exact hy', rfl, hb, hctx, rfl⟩
        simpa only [bind_assoc, hl] using this
  | _ => exact outcome_cons (fun _ => rfl) fun h => h.elim

theorem agree_mem {i : Int} : (∃ hh w, (i, hh, w) ∈ Spec.agreeAlgs) ↔ i ∈ [(-25 : Int), -26, -27, -28, -29, -30, -31, -32, -33, -34] := by
  have h1 : ∀ p ∈ Spec.agreeAlgs, p.1 ∈ [(-25 : Int), -26, -27, -28, -29, -30, -31, -32, -33, -34] := by decide
  have h2 : ∀ i ∈ [(-25 : Int), -26, -27, -28, -29, -30, -31, -32, -33, -34], ∃ p ∈ Spec.agreeAlgs, p.1 = i := by decide
  constructor
  · rintro ⟨hh, w, h⟩; exact h1 _ h
  · intro h
    obtain ⟨⟨_, hh, w⟩, h', rfl⟩ := h2 i h
    exact ⟨hh, w, h'⟩

theorem local_value {b : Base} {c : Cls} : (∃ v, v ≠ .none ∧ dget b.localAttrs (.cls c) = some v) ↔ getD b.localAttrs c .none ≠ .none := by
  unfold getD
  cases dget b.localAttrs (.cls c) with
  | none => simp
  | some v => simp

theorem local_peer {b : Base} {c : Cls} {v : Val} (h : v ≠ .none) : dget b.localAttrs (.cls c) = some v ↔ getD b.localAttrs c .none = v := by
  unfold getD
  cases dget b.localAttrs (.cls c) with
  | none => simp; exact fun e => h e.symm
  | some w => simp

/-- Reading the header that may hold the other side's key. -/
theorem peer_header {α : Type} {b : Base} {i : Int} {missing : PyErr} {f : Val → Res α} {rest : Res α → Prop}
    (hn : f .none = .error missing) (h : ∀ v, Spec.Peer b i false v → rest (f v)) :
    Spec.Outcome (Spec.peerUse b i false missing) rest (b.getAttr (if i ∈ [-27, -28, -32, -33, -34] then Hdr.StaticKey else Hdr.EphemeralKey) >>= f) := by
  refine outcome_cons (fun hp => ?_) fun hp => ?_
  · rw [getAttr_twice (by simpa using hp)]; rfl
  · obtain ⟨v, hv, hv'⟩ := getAttr_value (hp rfl)
    rw [hv, ok_bind]
    refine outcome_cons (fun hp => ?_) fun ⟨w, hw⟩ => outcome_nil ?_
    · have : v = .none := Classical.byContradiction fun hne => hp ⟨v, by simpa [Spec.Peer] using (hv' v hne).mpr rfl⟩
      rw [this, hn]
    · have : v = w := (hv' w (by simpa [Spec.Peer] using hw.1)).mp (by simpa [Spec.Peer] using hw)
      subst this
      exact h v hw

/-- Reading the local attribute. -/
theorem peer_local {α : Type} {b : Base} {i : Int} {missing : PyErr} {f : Val → Res α} {rest : Res α → Prop}
    (hn : f .none = .error missing) (h : ∀ v, Spec.Peer b i true v → rest (f v)) :
    Spec.Outcome (Spec.peerUse b i true missing) rest (f (getD b.localAttrs Hdr.StaticKey .none)) := by
  refine outcome_cons (fun hp => absurd (by simp) hp) fun _ => ?_
  simp only [Spec.Peer, if_true, local_value]
  refine outcome_cons (fun hp => ?_) fun hp => outcome_nil ?_
  · rw [Classical.not_not.mp hp, hn]
  · exact h _ (by simp only [Spec.Peer, if_true]; exact ⟨hp, (local_peer hp).mpr rfl⟩)

theorem dka_pair {C : Crypto} {b : Base} {i : Int} {hh : HashId} {w : Option Int} {target peer : Val} {rest : Res Key → Prop}
    (hi : (i, hh, w) ∈ Spec.agreeAlgs) (hv : ∀ w, w ≠ .none → (Spec.Value b Hdr.Algorithm w ↔ algCls i = w))
    (hk : ∀ k, b.key = some k → Spec.PlainPolicy k) (hp : ∀ kind store, peer = .key kind store → Spec.PlainPolicy { kind := kind, store := store })
    (hn : Spec.NamesAlgorithms b) (h : ∀ q, Spec.Derivation C b i target peer b.key q → rest (q >>= fun kek => mkSym (.bytes kek) target [])) :
    Spec.Outcome (Spec.bothKeys b target peer) rest (asKey peer >>= fun pk => pk.verify .ec2 (algCls i) [Op.DeriveKey, Op.DeriveBits] >>= fun _ =>
      match b.key with
      | none => .error .attributeError
      | some k => k.verify .ec2 (algCls i) [Op.DeriveKey, Op.DeriveBits] >>= fun _ =>
        agreeKek C b target peer (some k) (algCls i) >>= fun kek => mkSym (.bytes kek) target []) := by
  cases peer with
  | key kind store =>
    simp only [Spec.bothKeys, asKey, ok_bind, List.cons_append]
    refine outcome_cons (fun hp => by simp [Key.verify, hp]) fun hs => ?_
    refine outcome_append (verify_outcome (k := { kind := kind, store := store }) (hp _ _ rfl) hs hn hv ?_)
    cases hb : b.key with
    | none => exact outcome_cons (fun _ => rfl) fun h => h.elim
    | some k =>
      simp only
      refine outcome_cons (fun hp => by simp [Key.verify, hp]) fun hs => ?_
      refine outcome_append (verify_outcome (hk k hb) hs hn hv ?_)
      exact agree_outcome hi (by rw [← hb]; exact h)
  | _ => exact outcome_cons (fun _ => rfl) fun h => h.elim

/-- A new symmetric key with the bytes `kb`, for the algorithm `target` and the operations `ops`: 16, 24 or 32 bytes. -/
def Spec.Makes (target : Val) (ops : List Cls) (kb : Bytes) (r : Res Key) : Prop :=
  Spec.Outcome [(kb.length ∈ [16, 24, 32], .invalidKey)] (fun r => ∃ t, target = algCls t ∧ r = .ok (Spec.MadeKey t ops kb)) r

theorem makes_reg {t : Int} {nm : Bytes} {ops : List Cls} {kb : Bytes} (hreg : ((⟨.alg, t⟩ : Cls), nm) ∈ registry .alg)
    (hops : ∀ o ∈ ops, ∃ n, (o, n) ∈ registry .op) : Spec.Makes (algCls t) ops kb (mkSym (.bytes kb) (algCls t) ops) := by
  rw [mkSym_eq hreg hops]
  simp only [Val.bytes.injEq]
  refine outcome_cons (fun hl => ?_) fun hl => outcome_nil ⟨t, rfl, ?_⟩
  · have hl' : ¬ (kb.length = 16 ∨ kb.length = 24 ∨ kb.length = 32) := by simpa using hl
    rw [if_neg hl']
    split <;> rfl
  · have hl' : kb.length = 16 ∨ kb.length = 24 ∨ kb.length = 32 := by simpa using hl
    have hne : kb ≠ [] := by rintro rfl; simp at hl'
    rw [if_neg hne, if_pos hl', ← madeKey_eq]

theorem makes_outcome {t : Int} {bits : Nat} {ops : List Cls} {kb : Bytes} (ht : Spec.keyBits t = some bits) (hops : ∀ o ∈ ops, ∃ n, (o, n) ∈ registry .op) :
    Spec.Makes (algCls t) ops kb (mkSym (.bytes kb) (algCls t) ops) := by
  obtain ⟨nm, hreg⟩ := keyBits_reg ht
  exact makes_reg hreg hops

/-- What direct key agreement gives once the algorithm is known. -/
def Spec.DirectAgreed (C : Crypto) (b : Base) (target : Val) (sender : Bool) (r : Res Key) : Prop :=
  ∃ i hh, (i, hh, none) ∈ Spec.agreeAlgs ∧ Spec.Value b Hdr.Algorithm (algCls i) ∧
    Spec.Outcome (Spec.peerUse b i sender .coseException)
      (fun r => ∃ peer, Spec.Peer b i sender peer ∧ Spec.Outcome (Spec.bothKeys b target peer)
        (fun r => ∃ q, Spec.Derivation C b i target peer b.key q ∧ Spec.Then q (Spec.Makes target []) r) r) r

theorem dka_outcome {C : Crypto} {b : Base} {target : Val} {sender : Bool} (hk : ∀ k, b.key = some k → Spec.PlainPolicy k)
    (hpeer : ∀ i, Spec.OrdinaryPeer b i sender) (hn : Spec.NamesAlgorithms b) :
    Spec.Outcome (Spec.directUse b) (Spec.DirectAgreed C b target sender) (dkaComputeCek C b target sender) := by
  unfold dkaComputeCek
  refine outcome_cons (fun hp => ?_) fun hp => ?_
  · rw [getAttr_twice (Classical.not_not.mp hp)]; rfl
  · obtain ⟨alg, ha, hv⟩ := getAttr_value hp
    rw [ha, ok_bind]
    refine outcome_cons (fun hp => ?_) fun hh => ?_
    · rw [hashable_value hv] at hp
      rw [inSet_unhashable hp]; rfl
    rw [hashable_value hv] at hh
    refine outcome_cons (fun hp => ?_) fun ⟨i, hi, hva⟩ => outcome_nil ?_
    · rw [inSet_hashable hh, ok_bind, if_pos]
      simp only [decide_eq_false_iff_not, not_exists, not_and]
      exact fun i hi e => hp ⟨i, hi, (hv _ cls_ne_none).mpr e⟩
    · have := (hv _ cls_ne_none).mp hva
      subst this
      obtain ⟨h', hi'⟩ : ∃ hh, (i, hh, none) ∈ Spec.agreeAlgs := by
        have : ∀ i ∈ [(-25 : Int), -26, -27, -28], ∃ p ∈ Spec.agreeAlgs, p.1 = i ∧ p.2.2 = none := by decide
        obtain ⟨⟨_, h', w⟩, h, rfl, e⟩ := this i hi
        simp only at e; subst e
        exact ⟨h', h⟩
      refine ⟨i, h', hi', hva, ?_⟩
      have e : ∀ i ∈ [(-25 : Int), -26, -27, -28], inSet (algCls i) (ecdhEsHkdf ++ ecdhSsHkdf) = .ok true ∧
          inSet (algCls i) ecdhSsHkdf = .ok (decide (i ∈ [-27, -28, -32, -33, -34])) := by decide
      obtain ⟨e1, e2⟩ := e i hi
      rw [e1, ok_bind, if_neg (by simp), e2, ok_bind]
      have tail : ∀ peer, Spec.Peer b i sender peer → ∃ peer', Spec.Peer b i sender peer' ∧ Spec.Outcome (Spec.bothKeys b target peer')
          (fun r => ∃ q, Spec.Derivation C b i target peer' b.key q ∧ Spec.Then q (Spec.Makes target []) r)
          (if peer = .none then .error .coseException else asKey peer >>= fun pk => pk.verify .ec2 (algCls i) [Op.DeriveKey, Op.DeriveBits] >>= fun _ =>
            match b.key with
            | none => .error .attributeError
            | some k => k.verify .ec2 (algCls i) [Op.DeriveKey, Op.DeriveBits] >>= fun _ =>
              agreeKek C b target peer (some k) (algCls i) >>= fun kek => mkSym (.bytes kek) target []) := by
        intro peer hpe
        have hne : peer ≠ .none := by
          unfold Spec.Peer at hpe
          split at hpe <;> exact hpe.1
        rw [if_neg hne]
        exact ⟨peer, hpe, dka_pair hi' hv hk (fun kind store e => hpeer i kind store (e ▸ hpe)) hn fun q hq => ⟨q, hq, then_bind fun kek _ => by
          obtain ⟨_, _, _, _, _, _, _, _, _, t, bits, _, _, _, _, _, _, _, _, rfl, hb, _⟩ := hq
          exact makes_outcome hb (by simp)⟩⟩
      cases sender with
      | true =>
        simp only [if_true, ok_bind]
        exact peer_local (f := (fun peer => if peer = .none then .error .coseException else asKey peer >>= fun pk => pk.verify .ec2 (algCls i) [Op.DeriveKey, Op.DeriveBits] >>= fun _ =>
            match b.key with
            | none => .error .attributeError
            | some k => k.verify .ec2 (algCls i) [Op.DeriveKey, Op.DeriveBits] >>= fun _ =>
              agreeKek C b target peer (some k) (algCls i) >>= fun kek => mkSym (.bytes kek) target [])) (by simp) tail
      | false =>
        have := peer_header (b := b) (i := i) (missing := .coseException) (rest := fun r => ∃ peer', Spec.Peer b i false peer' ∧ Spec.Outcome (Spec.bothKeys b target peer')
          (fun r => ∃ q, Spec.Derivation C b i target peer' b.key q ∧ Spec.Then q (Spec.Makes target []) r) r) (f := (fun peer => if peer = .none then .error .coseException else asKey peer >>= fun pk => pk.verify .ec2 (algCls i) [Op.DeriveKey, Op.DeriveBits] >>= fun _ =>
            match b.key with
            | none => .error .attributeError
            | some k => k.verify .ec2 (algCls i) [Op.DeriveKey, Op.DeriveBits] >>= fun _ =>
              agreeKek C b target peer (some k) (algCls i) >>= fun kek => mkSym (.bytes kek) target [])) (by simp) tail
        by_cases hs : i ∈ [-27, -28, -32, -33, -34]
        · rw [if_pos hs] at this
          simp only [hs, decide_true, if_true, Bool.false_eq_true, if_false]
          exact this
        · rw [if_neg hs] at this
          simp only [hs, decide_false, Bool.false_eq_true, if_false]
          exact this

/-- A derived key in AES key wrap. -/
theorem derived_wrap {α : Type} {b : Base} {i : Int} {hh : HashId} {w : Option Int} {n : Nat} {kek : Bytes} {ops : List Cls} {f : Bytes → Bytes → Res α} {rest : Res α → Prop}
    (hi : (i, hh, w) ∈ Spec.agreeAlgs) (hops : ∀ o ∈ ops, o ∈ [Op.Wrap, Op.Encrypt, Op.Unwrap, Op.Decrypt, Op.DeriveKey]) (g : Key → Res Unit)
    (hg : ∀ kb, g { kind := .sym, store := symStore (algCls i) ops kb } = .ok ())
    (h : ∀ text, b.payload = some text → rest (f kek text)) :
    Spec.Outcome (Spec.derivedUse b n kek) rest
      (mkSym (.bytes kek) (algCls i) ops >>= fun k => g k >>= fun _ => k.symK >>= fun kk => lenOf kk >>= fun m =>
        if n ≠ m then .error .valueError else asBytes .typeError kk >>= fun kb => match b.payload with
          | some d => f kb d
          | none => .error .typeError) := by
  obtain ⟨nm, hreg⟩ := agree_reg hi
  have hreg' : ∀ o ∈ ops, ∃ n, (o, n) ∈ registry .op := by
    intro o h
    have := hops o h
    refine opReg o ?_
    simp only [List.mem_cons, List.not_mem_nil, or_false] at this ⊢
    grind
  rw [mkSym_eq hreg hreg']
  simp only [Val.bytes.injEq]
  refine outcome_cons (fun hl => ?_) fun hl => ?_
  · have hl' : ¬ (kek.length = 16 ∨ kek.length = 24 ∨ kek.length = 32) := by simpa using hl
    rw [if_neg hl']
    split <;> rfl
  · have hl' : kek.length = 16 ∨ kek.length = 24 ∨ kek.length = 32 := by simpa using hl
    have hne : kek ≠ [] := by rintro rfl; simp at hl'
    rw [if_neg hne, if_pos hl', ok_bind, hg, ok_bind, symStore_symK, ok_bind]
    simp only [lenOf, ok_bind]
    refine outcome_cons (fun hp => by rw [if_pos (Ne.symm hp)]) fun hp => ?_
    rw [if_neg (by simpa using hp.symm)]
    simp only [asBytes, ok_bind]
    cases hpl : b.payload with
    | none => exact outcome_cons (fun _ => rfl) fun h => absurd rfl h
    | some d => exact outcome_cons (fun h => absurd (by simp) h) fun _ => outcome_nil (h d hpl)

/-- What unwrapping with ECDH gives once the algorithm is known. -/
def Spec.AgreedUnwraps (C : Crypto) (b : Base) (r : Res Bytes) : Prop :=
  ∃ i hh j n, (i, hh, some j) ∈ Spec.agreeAlgs ∧ (j, n) ∈ Spec.kwAlgs ∧ Spec.Value b Hdr.Algorithm (algCls i) ∧
    Spec.Outcome (Spec.peerUse b i false .attributeError)
      (fun r => ∃ peer, Spec.Peer b i false peer ∧ Spec.Outcome (Spec.agreeUse b (algCls j) peer b.key)
        (fun r => ∃ q, Spec.Derivation C b i (algCls j) peer b.key q ∧ Spec.Then q
          (fun kek => Spec.Outcome (Spec.derivedUse b n kek) (fun r => ∃ text, b.payload = some text ∧ r = C.kwUnwrap kek text)) r) r) r

theorem agreed_unwrap {C : Crypto} {b : Base} : Spec.Outcome (Spec.agreedUnwrapUse b) (Spec.AgreedUnwraps C b) (kakwDecrypt C b) := by
  unfold kakwDecrypt
  refine outcome_cons (fun hp => ?_) fun hp => ?_
  · rw [getAttr_twice (Classical.not_not.mp hp)]; rfl
  · obtain ⟨alg, ha, hv⟩ := getAttr_value hp
    rw [ha, ok_bind]
    refine outcome_cons (fun hp => ?_) fun hh => ?_
    · rw [hashable_value hv] at hp
      rw [inSet_unhashable hp]; rfl
    rw [hashable_value hv] at hh
    refine outcome_cons (fun hp => ?_) fun ⟨i, hi, hva⟩ => outcome_nil ?_
    · have e1 : inSet alg ecdhEsKw = .ok false := by
        rw [inSet_hashable hh]
        simp only [Except.ok.injEq, decide_eq_false_iff_not, not_exists, not_and]
        exact fun i hi e => hp ⟨i, by revert hi; simp [ecdhEsKw]; grind, (hv _ cls_ne_none).mpr e⟩
      have e2 : inSet alg ecdhSsKw = .ok false := by
        rw [inSet_hashable hh]
        simp only [Except.ok.injEq, decide_eq_false_iff_not, not_exists, not_and]
        exact fun i hi e => hp ⟨i, by revert hi; simp [ecdhSsKw]; grind, (hv _ cls_ne_none).mpr e⟩
      simp only [e1, e2, ok_bind, Bool.false_eq_true, if_false]
      rfl
    · have := (hv _ cls_ne_none).mp hva
      subst this
      obtain ⟨h', j, n, hi', hj⟩ : ∃ hh j n, (i, hh, some j) ∈ Spec.agreeAlgs ∧ (j, n) ∈ Spec.kwAlgs := by
        have : ∀ i ∈ [(-29 : Int), -30, -31, -32, -33, -34], ∃ p ∈ Spec.agreeAlgs, ∃ q ∈ Spec.kwAlgs, p.1 = i ∧ p.2.2 = some q.1 := by decide
        obtain ⟨⟨_, h', w⟩, h, ⟨j, n⟩, hq, rfl, e⟩ := this i hi
        simp only at e; subst e
        exact ⟨h', j, n, h, hq⟩
      refine ⟨i, h', j, n, hi', hj, hva, ?_⟩
      have e : ∀ i ∈ [(-29 : Int), -30, -31, -32, -33, -34], inSet (algCls i) ecdhEsKw = .ok (decide (i ∉ [-27, -28, -32, -33, -34])) ∧
          inSet (algCls i) ecdhSsKw = .ok (decide (i ∈ [-27, -28, -32, -33, -34])) := by decide
      obtain ⟨e1, e2⟩ := e i hi
      have hw : keyWrapFunc (algCls i) = .ok (algCls j) := by simp only [keyWrapFunc, agree_row _ hi']
      rw [e1, ok_bind, e2, ok_bind]
      have := peer_header (b := b) (i := i) (missing := .attributeError)
        (f := fun peer => agreeKek C b (algCls j) peer b.key (algCls i) >>= fun kek => mkSym (.bytes kek) (algCls i) [Op.Unwrap, Op.Decrypt] >>= fun k =>
          k.verify .sym (algCls i) [Op.Unwrap, Op.Decrypt] >>= fun _ => kwKeyUnwrap C n k b.payload)
        (rest := fun r => ∃ peer, Spec.Peer b i false peer ∧ Spec.Outcome (Spec.agreeUse b (algCls j) peer b.key)
          (fun r => ∃ q, Spec.Derivation C b i (algCls j) peer b.key q ∧ Spec.Then q
            (fun kek => Spec.Outcome (Spec.derivedUse b n kek) (fun r => ∃ text, b.payload = some text ∧ r = C.kwUnwrap kek text)) r) r)
        (by simp only [agreeKek, agree_row _ hi', asKey]; rfl)
        (fun peer hp => ⟨peer, hp, agree_outcome hi' fun q hq => ⟨q, hq, then_bind fun kek _ =>
          derived_wrap (ops := [Op.Unwrap, Op.Decrypt]) (f := C.kwUnwrap) hi' (by simp) (fun k => k.verify .sym (algCls i) [Op.Unwrap, Op.Decrypt])
            (fun kb => permits_verify (symStore_permits kb (c := ⟨.alg, i⟩) (ops := [Op.Unwrap, Op.Decrypt]) (use := [Op.Unwrap, Op.Decrypt]) (.inr ⟨Op.Unwrap, by simp, by simp⟩))) fun text ht => ⟨text, ht, rfl⟩⟩⟩)
      by_cases hs : i ∈ [-27, -28, -32, -33, -34]
      · rw [if_pos hs] at this
        simp only [hs, not_true, decide_true, decide_false, if_true, Bool.false_eq_true, if_false, hw, ok_bind, kw_row _ hj]
        exact this
      · rw [if_neg hs] at this
        simp only [hs, not_false_eq_true, decide_true, if_true, hw, ok_bind, kw_row _ hj]
        exact this

/-- A new key for the sender: the public part goes to the unprotected header, which must not have an ephemeral key. -/
def Spec.Ephemeral (C : Crypto) (d : Nat) (b : Base) (peer : Val) : Res Base → Prop :=
  Spec.Outcome (Spec.ephemeralUse peer) fun r => ∃ kind store crv, peer = .key kind store ∧ Key.crv { kind := kind, store := store } = .ok crv ∧
    Spec.Then (ec2Generate C crv d []) (fun k => Spec.Outcome [(¬ Spec.Twice b Hdr.EphemeralKey, .coseException), (¬ ∃ v, Spec.Value b Hdr.EphemeralKey v, .coseException)]
      fun r => r = .ok { b with key := some k, uhdr := dupdate b.uhdr [(.cls Hdr.EphemeralKey, .map (ddel k.store (.cls Ec2D)))] }) r

theorem ephemeral_outcome {C : Crypto} {d : Nat} {b : Base} {peer : Val} : Spec.Ephemeral C d b peer (setupEphemeral C d b peer) := by
  unfold setupEphemeral Spec.Ephemeral
  cases peer with
  | key kind store =>
    simp only [Spec.ephemeralUse, asKey, ok_bind]
    refine outcome_cons (fun hp => ?_) fun hk => ?_
    · cases kind <;> first | rfl | simp at hp
    refine outcome_cons (fun hp => ?_) fun ⟨crv, hcrv⟩ => outcome_nil ⟨kind, store, crv, rfl, hcrv, ?_⟩
    · simp only [Key.crv] at hp ⊢
      rcases hk with rfl | rfl <;> simp only at hp ⊢ <;> split at hp <;> first | (exact absurd ⟨_, rfl⟩ hp) | rfl
    rw [hcrv, ok_bind]
    refine then_bind fun k hk => ?_
    refine outcome_cons (fun hp => ?_) fun hp => ?_
    · rw [getAttr_twice (Classical.not_not.mp hp)]; rfl
    obtain ⟨e, he, hv⟩ := getAttr_value hp
    rw [he, ok_bind, value_none hv]
    refine outcome_cons (fun hp => ?_) fun hp => outcome_nil ?_
    · rw [if_pos (Classical.not_not.mp hp)]
    · rw [if_neg hp]
      obtain ⟨c, x, y, bx, bY, bd, _, _, _, _, _, _, _, _, rfl⟩ := ec2Generate_ok hk
      have hd : dhas (ec2Pub c bx bY ++ [(.cls Ec2D, .bytes bd)]) (.cls Ec2D) = true := by
        simp [dhas, ec2Pub, dget, KpKty, Ec2Crv, Ec2X, Ec2Y, Ec2D]
      rw [if_neg (by rw [hd]; simp)]
  | _ => exact outcome_cons (fun _ => rfl) fun h => h.elim

/-- The sender's side once there is a key of its own. -/
def Spec.SendsKey (C : Crypto) (d : Nat) (b : Base) (peer : Val) (q : Res Base) : Prop :=
  match b.key with
  | some _ => q = .ok b
  | none => Spec.Ephemeral C d b peer q

/-- What wrapping with ECDH gives once it is known that it may be tried; without a key wrap algorithm the target is "direct" (-6), for which no key length is known. -/
def Spec.AgreedWraps (C : Crypto) (d : Nat) (b : Base) (r : Res (Bytes × Base)) : Prop :=
  ∃ peer q, Spec.Peer b 0 true peer ∧ Spec.SendsKey C d b peer q ∧ Spec.Then q (fun b1 =>
    Spec.Outcome [(∃ i hh w, (i, hh, w) ∈ Spec.agreeAlgs ∧ Spec.Value b Hdr.Algorithm (algCls i), .attributeError)] fun r =>
    ∃ i hh w, (i, hh, w) ∈ Spec.agreeAlgs ∧ Spec.Value b Hdr.Algorithm (algCls i) ∧
    Spec.Outcome (Spec.agreeUse b1 (algCls (w.getD (-6))) peer b1.key)
      (fun r => ∃ j n, w = some j ∧ (j, n) ∈ Spec.kwAlgs ∧ ∃ q, Spec.Derivation C b1 i (algCls j) peer b1.key q ∧ Spec.Then q
        (fun kek => Spec.Outcome (Spec.derivedUse b1 n kek) fun r => ∃ text, b1.payload = some text ∧
          Spec.Then (C.kwWrap kek text) (fun c r => r = .ok (c, b1)) r) r) r) r

theorem keyWrapFunc_error {alg : Val} (h : ¬ ∃ i hh w, (i, hh, w) ∈ Spec.agreeAlgs ∧ alg = algCls i) : keyWrapFunc alg = .error .attributeError := by
  unfold keyWrapFunc
  split
  · rename_i hh w hf
    obtain ⟨i, rfl, hr⟩ := algFam_row hf
    exact absurd ⟨i, hh, some w, by simpa [registryRow] using hr, rfl⟩ h
  · rename_i hh hf
    obtain ⟨i, rfl, hr⟩ := algFam_row hf
    exact absurd ⟨i, hh, none, by simpa [registryRow] using hr, rfl⟩ h
  · rfl

theorem agreed_tail {C : Crypto} {b b1 : Base} {alg peer : Val} (hv : ∀ w, w ≠ .none → (Spec.Value b Hdr.Algorithm w ↔ alg = w)) :
    Spec.Outcome [(∃ i hh w, (i, hh, w) ∈ Spec.agreeAlgs ∧ Spec.Value b Hdr.Algorithm (algCls i), .attributeError)] (fun r =>
    ∃ i hh w, (i, hh, w) ∈ Spec.agreeAlgs ∧ Spec.Value b Hdr.Algorithm (algCls i) ∧
    Spec.Outcome (Spec.agreeUse b1 (algCls (w.getD (-6))) peer b1.key)
      (fun r => ∃ j n, w = some j ∧ (j, n) ∈ Spec.kwAlgs ∧ ∃ q, Spec.Derivation C b1 i (algCls j) peer b1.key q ∧ Spec.Then q
        (fun kek => Spec.Outcome (Spec.derivedUse b1 n kek) fun r => ∃ text, b1.payload = some text ∧
          Spec.Then (C.kwWrap kek text) (fun c r => r = .ok (c, b1)) r) r) r)
    (keyWrapFunc alg >>= fun w => agreeKek C b1 w peer b1.key alg >>= fun kek =>
      match algFam w with
      | some (.aesKw n) => mkSym (.bytes kek) alg [Op.DeriveKey] >>= fun k => kwKeyWrap C n k b1.payload >>= fun c => .ok (c, b1)
      | _ => .error .attributeError) := by
  refine outcome_cons (fun hp => ?_) fun ⟨i, hh, w, hi, hva⟩ => outcome_nil ⟨i, hh, w, hi, hva, ?_⟩
  · rw [keyWrapFunc_error fun ⟨i, hh, w, h, e⟩ => hp ⟨i, hh, w, h, (hv _ cls_ne_none).mpr e⟩]; rfl
  have := (hv _ cls_ne_none).mp hva
  subst this
  have hw : keyWrapFunc (algCls i) = .ok (algCls (w.getD (-6))) := by
    simp only [keyWrapFunc, agree_row _ hi]
    cases w <;> rfl
  rw [hw, ok_bind]
  refine agree_outcome hi fun q hq => ?_
  cases w with
  | none =>
    obtain ⟨_, _, _, _, _, _, _, _, _, t, bits, _, _, _, _, _, _, _, _, e, hb, _⟩ := hq
    simp at e; subst e
    simp [Spec.keyBits] at hb
  | some j =>
    have : ∀ p ∈ Spec.agreeAlgs, ∀ j, p.2.2 = some j → ∃ q ∈ Spec.kwAlgs, q.1 = j := by decide
    obtain ⟨⟨_, n⟩, hj, rfl⟩ := this _ hi j rfl
    refine ⟨_, n, rfl, hj, q, hq, ?_⟩
    simp only [Option.getD_some, kw_row _ hj]
    refine then_bind fun kek _ => ?_
    have := derived_wrap (b := b1) (n := n) (kek := kek) (ops := [Op.DeriveKey]) (f := fun kb d => C.kwWrap kb d >>= fun c => .ok (c, b1)) (rest := fun r =>
      ∃ text, b1.payload = some text ∧ Spec.Then (C.kwWrap kek text) (fun c r => r = .ok (c, b1)) r) hi (by simp) (fun _ => .ok ()) (fun _ => rfl)
      fun text ht => ⟨text, ht, then_bind fun _ _ => rfl⟩
    simp only [ok_bind] at this
    have e : ∀ k : Key, (kwKeyWrap C n k b1.payload >>= fun c => (.ok (c, b1) : Res (Bytes × Base))) = (k.symK >>= fun kk => lenOf kk >>= fun m =>
        if n ≠ m then .error .valueError else asBytes .typeError kk >>= fun kb => match b1.payload with
          | some d => C.kwWrap kb d >>= fun c => .ok (c, b1)
          | none => .error .typeError) := by
      intro k
      simp only [kwKeyWrap, bind_assoc]
      refine congrArg _ (funext fun kk => congrArg _ (funext fun m => ?_))
      split
      · rfl
      · simp only [bind_assoc]
        refine congrArg _ (funext fun kb => ?_)
        cases b1.payload <;> rfl
    simp only [e]
    exact this

theorem agreed_wrap {C : Crypto} {d : Nat} {b : Base} : Spec.Outcome (Spec.agreedWrapUse b) (Spec.AgreedWraps C d b) (kakwEncrypt C d b) := by
  unfold kakwEncrypt Spec.agreedWrapUse
  simp only [List.cons_append, List.nil_append]
  have hpe : (∃ v, Spec.Peer b 0 true v) ↔ getD b.localAttrs Hdr.StaticKey .none ≠ .none := by
    simp only [Spec.Peer, if_true, local_value]
  rw [hpe]
  refine outcome_cons (fun hp => ?_) fun hpeer => ?_
  · rw [if_pos (Classical.not_not.mp hp)]
  rw [if_neg hpeer]
  refine outcome_cons (fun hp => ?_) fun hp => ?_
  · rw [getAttr_twice (Classical.not_not.mp hp)]; rfl
  obtain ⟨alg, ha, hv⟩ := getAttr_value hp
  rw [ha, ok_bind, value_none hv]
  refine outcome_cons (fun hp => ?_) fun hp => ?_
  · rw [if_pos (Classical.not_not.mp hp)]
  rw [if_neg hp]
  have hpeer' : Spec.Peer b 0 true (getD b.localAttrs Hdr.StaticKey .none) := by
    simp only [Spec.Peer, if_true]; exact ⟨hpeer, (local_peer hpeer).mpr rfl⟩
  cases hb : b.key with
  | some k =>
    simp only [ok_bind]
    refine outcome_nil ⟨_, .ok b, hpeer', by simp only [Spec.SendsKey, hb], .inr ⟨b, rfl, ?_⟩⟩
    exact agreed_tail hv
  | none =>
    simp only
    refine outcome_cons (fun hp => ?_) fun hh => ?_
    · rw [hashable_value hv] at hp
      rw [inSet_unhashable hp]; rfl
    rw [hashable_value hv] at hh
    refine outcome_cons (fun hp => ?_) fun ⟨i, hi, hva⟩ => outcome_nil ?_
    · have e1 : inSet alg ecdhEsKw = .ok false := by
        rw [inSet_hashable hh]
        simp only [Except.ok.injEq, decide_eq_false_iff_not, not_exists, not_and]
        exact fun i hi e => hp ⟨i, hi, (hv _ cls_ne_none).mpr e⟩
      simp only [e1, ok_bind, Bool.false_eq_true, if_false]
      rfl
    · have e1 : inSet alg ecdhEsKw = .ok true := by
        rw [inSet_hashable hh]
        simp only [Except.ok.injEq, decide_eq_true_eq]
        exact ⟨i, hi, (hv _ cls_ne_none).mp hva⟩
      simp only [e1, ok_bind, if_true]
      exact ⟨_, _, hpeer', by simp only [Spec.SendsKey, hb]; exact ephemeral_outcome, then_bind fun b1 _ => agreed_tail hv⟩

end Cose
