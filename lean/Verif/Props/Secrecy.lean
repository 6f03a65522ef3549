import Verif.Props.Recipients
import Verif.Props.Reencode
/-!
# What an encoded message can depend on (C54)

Non-interference: two runs that differ in a secret but agree on what is derived from it by the primitives give the same bytes.
-/
set_option autoImplicit false
namespace Cose

/-! ### Specification -/

/-- Two private values that the elliptic curve primitives cannot tell apart: same public point, same shared secrets, and both
fit or both do not fit in the fixed length of a private key of the curve. -/
structure Spec.SameSecret (C : Crypto) (d d' : Nat) : Prop where
  pub : ∀ crv, C.ecPub crv d' = C.ecPub crv d
  ecdh : ∀ crv x y, C.ecdh crv d' x y = C.ecdh crv d x y
  fits : ∀ crv, d' < 256 ^ crvSize crv ↔ d < 256 ^ crvSize crv

/-- Randomness that differs at most in the private values of ephemeral keys, which are as above. -/
structure Spec.SameRand (C : Crypto) (R R' : Rand) : Prop where
  cek : R'.cek = R.cek
  salt : R'.salt = R.salt
  eph : ∀ p, Spec.SameSecret C (R.eph p) (R'.eph p)

/-- Two attributes that are used as the same public key of the peer: they may differ in the private part. -/
inductive Spec.SamePeer : Val → Val → Prop
  | same {v : Val} : SamePeer v v
  | key {kd : Kind} {s s' : Dict}
      (crv : Key.crv { kind := kd, store := s' } = Key.crv { kind := kd, store := s }) (x : Key.x { kind := kd, store := s' } = Key.x { kind := kd, store := s }) (y : Key.y { kind := kd, store := s' } = Key.y { kind := kd, store := s })
      (alg : Key.alg { kind := kd, store := s' } = Key.alg { kind := kd, store := s }) (ops : Key.keyOps { kind := kd, store := s' } = Key.keyOps { kind := kd, store := s }) :
      SamePeer (.key kd s) (.key kd s')

/-- Local attributes with the same public key of the peer, and whose other values lead to the same derived secrets. -/
structure Spec.SameLocal (C : Crypto) (la la' : Dict) : Prop where
  peer : Spec.SamePeer (getD la Hdr.StaticKey .none) (getD la' Hdr.StaticKey .none)
  secret : ∀ (b : Base) (target peer : Val) (k : Option Key) (alg : Val),
    agreeKek C { b with localAttrs := la' } target peer k alg = agreeKek C { b with localAttrs := la } target peer k alg

/-- Two objects that differ at most in `local_attrs` and `external_aad`. -/
def Spec.SameObject (b b' : Base) : Prop := b' = { b with localAttrs := b'.localAttrs, aad := b'.aad }

/-- Two objects that differ at most in `key`, `local_attrs` and `external_aad`. -/
def Spec.SameSent (b b' : Base) : Prop := b' = { b with key := b'.key, localAttrs := b'.localAttrs, aad := b'.aad }

mutual
/-- Two recipients that differ at most in `local_attrs` and `external_aad`; for the key agreement classes the derived secrets
are the same. -/
inductive Spec.SameRcpt (C : Crypto) : Rcpt → Rcpt → Prop
  | mk {c : RCls} {b b' : Base} {x : Bytes} {o : Nat} {rs rs' : List Rcpt} : Spec.SameObject b b' →
      (c = .directKeyAgreement ∨ c = .keyAgreementWithKeyWrap → Spec.SameLocal C b.localAttrs b'.localAttrs) →
      Spec.SameRcpts C rs rs' → Spec.SameRcpt C (.mk c b x o rs) (.mk c b' x o rs')
inductive Spec.SameRcpts (C : Crypto) : List Rcpt → List Rcpt → Prop
  | nil : Spec.SameRcpts C [] []
  | cons {r r' : Rcpt} {t t' : List Rcpt} : Spec.SameRcpt C r r' → Spec.SameRcpts C t t' → Spec.SameRcpts C (r :: t) (r' :: t')
end

/-! ### Relating two runs -/

/-- Both runs raise the same exception, or both succeed with related results. -/
def SimRes {α β : Type} (S : α → β → Prop) : Res α → Res β → Prop
  | .ok a, .ok b => S a b
  | .error e, .error e' => e' = e
  | _, _ => False

theorem SimRes.bind {α β γ δ : Type} {S : α → β → Prop} {T : γ → δ → Prop} {x : Res α} {y : Res β} {f : α → Res γ} {g : β → Res δ}
    (h : SimRes S x y) (hfg : ∀ a b, S a b → SimRes T (f a) (g b)) : SimRes T (x >>= f) (y >>= g) := by
  cases x <;> cases y <;> simp only [SimRes] at h
  · subst h; exact rfl
  · exact hfg _ _ h

theorem SimRes.refl {α : Type} {S : α → α → Prop} (hS : ∀ a, S a a) (x : Res α) : SimRes S x x := by
  cases x
  · exact rfl
  · exact hS _

theorem SimRes.of_eq {α : Type} {x y : Res α} (h : y = x) : SimRes (fun a b => b = a) x y := by
  subst h; exact SimRes.refl (S := fun a b => b = a) (fun _ => rfl) _

theorem SimRes.eq {α : Type} {x y : Res α} (h : SimRes (fun a b => b = a) x y) : y = x := by
  cases x <;> cases y <;> simp only [SimRes] at h <;> rw [h]

theorem SimRes.same {α β γ : Type} {T : β → γ → Prop} {x : Res α} {f : α → Res β} {g : α → Res γ} (hfg : ∀ a, SimRes T (f a) (g a)) :
    SimRes T (x >>= f) (x >>= g) := by
  cases x
  · exact rfl
  · exact hfg _

theorem SimRes.same_ok {α β γ : Type} {T : β → γ → Prop} {x : Res α} {f : α → Res β} {g : α → Res γ}
    (hfg : ∀ a, x = .ok a → SimRes T (f a) (g a)) : SimRes T (x >>= f) (x >>= g) := by
  cases x
  · exact rfl
  · exact hfg _ rfl

theorem SimRes.map_fst {α β γ : Type} {S : β → γ → Prop} {x : Res (α × β)} {y : Res (α × γ)}
    (h : SimRes (fun a b => b.1 = a.1 ∧ S a.2 b.2) x y) : y.map (·.1) = x.map (·.1) := by
  cases x <;> cases y <;> simp only [SimRes] at h
  · rw [h]; rfl
  · simp [Except.map, h.1]

/-- Two keys that are equal, or both ephemeral with private values that give the same shared secrets. -/
inductive SimKey (C : Crypto) : Key → Key → Prop
  | same {k : Key} : SimKey C k k
  | eph {c : Cls} {bx bY : Bytes} {a a' : UInt8} {t t' : Bytes} :
      (∀ crv x y, C.ecdh crv (natOfBytes (a' :: t')) x y = C.ecdh crv (natOfBytes (a :: t)) x y) →
      SimKey C { kind := .ec2, store := ec2Pub c bx bY ++ [(.cls Ec2D, .bytes (a :: t))] }
        { kind := .ec2, store := ec2Pub c bx bY ++ [(.cls Ec2D, .bytes (a' :: t'))] }

inductive SimOpt (C : Crypto) : Option Key → Option Key → Prop
  | none : SimOpt C none none
  | some {k k' : Key} : SimKey C k k' → SimOpt C (some k) (some k')

theorem SimOpt.refl {C : Crypto} (k : Option Key) : SimOpt C k k := by
  cases k
  · exact .none
  · exact .some .same

/-- Objects that differ at most in such a key, in local attributes and in the external data. -/
def SimBase (C : Crypto) (b b' : Base) : Prop :=
  ∃ k' la' a', b' = { b with key := k', localAttrs := la', aad := a' } ∧ SimOpt C b.key k'

/-- The same for the key agreement classes. -/
def SimKA (C : Crypto) (b b' : Base) : Prop := SimBase C b b' ∧ Spec.SameLocal C b.localAttrs b'.localAttrs

/-- The same, depending on the class. -/
def SimCls (C : Crypto) (c : RCls) (b b' : Base) : Prop :=
  SimBase C b b' ∧ (c = .directKeyAgreement ∨ c = .keyAgreementWithKeyWrap → Spec.SameLocal C b.localAttrs b'.localAttrs)

theorem simBase_of_same {C : Crypto} {b b' : Base} (h : Spec.SameObject b b') : SimBase C b b' :=
  ⟨b.key, b'.localAttrs, b'.aad, h, SimOpt.refl _⟩

mutual
inductive SimRcpt (C : Crypto) : Rcpt → Rcpt → Prop
  | mk {c : RCls} {b b' : Base} {x : Bytes} {o : Nat} {rs rs' : List Rcpt} : SimCls C c b b' → SimRcpts C rs rs' →
      SimRcpt C (.mk c b x o rs) (.mk c b' x o rs')
inductive SimRcpts (C : Crypto) : List Rcpt → List Rcpt → Prop
  | nil : SimRcpts C [] []
  | cons {r r' : Rcpt} {t t' : List Rcpt} : SimRcpt C r r' → SimRcpts C t t' → SimRcpts C (r :: t) (r' :: t')
end

mutual
theorem SimRcpt.of_same {C : Crypto} (r r' : Rcpt) (h : Spec.SameRcpt C r r') : SimRcpt C r r' :=
  match r, r', h with
  | .mk _ _ _ _ rs, .mk _ _ _ _ rs', .mk h1 h2 h3 => .mk ⟨simBase_of_same h1, h2⟩ (SimRcpts.of_same rs rs' h3)
termination_by structural r
theorem SimRcpts.of_same {C : Crypto} (rs rs' : List Rcpt) (h : Spec.SameRcpts C rs rs') : SimRcpts C rs rs' :=
  match rs, rs', h with
  | [], [], .nil => .nil
  | r :: t, r' :: t', .cons h1 h2 => .cons (SimRcpt.of_same r r' h1) (SimRcpts.of_same t t' h2)
termination_by structural rs
end

/-! ### Ephemeral keys -/

theorem ec2Generate_eq (C : Crypto) (crv : Val) (d : Nat) : ec2Generate C crv d [] = (do
    let c ← parseCrv KtyEC2 crv
    let p ← C.ecPub c d
    let bx ← toBytes p.1 (crvSize c)
    let bY ← toBytes p.2 (crvSize c)
    let bd ← toBytes d (crvSize c)
    .ok { kind := .ec2, store := ec2Pub c bx bY ++ [(.cls Ec2D, .bytes bd)] } : Res Key) := by
  simp only [ec2Generate]
  cases hc : parseCrv KtyEC2 crv with
  | error e => simp only [error_bind]
  | ok c =>
  simp only [ok_bind]
  cases hp : C.ecPub c d with
  | error e => simp only [error_bind]
  | ok p =>
  obtain ⟨x, y⟩ := p
  simp only [ok_bind, ec2FromNumbers]
  cases hx : toBytes x (crvSize c) with
  | error e => simp only [error_bind]
  | ok bx =>
  simp only [ok_bind]
  cases hy : toBytes y (crvSize c) with
  | error e => simp only [error_bind]
  | ok bY =>
  simp only [ok_bind]
  cases hd : toBytes d (crvSize c) with
  | error e => simp only [error_bind]
  | ok bd =>
  simp only [ok_bind]
  obtain ⟨hk, _⟩ := parseCrv_ok hc
  obtain ⟨lx, vx⟩ := toBytes_ok hx
  obtain ⟨ly, vy⟩ := toBytes_ok hy
  obtain ⟨ld, vd⟩ := toBytes_ok hd
  have hs : crvSize c ≠ 0 := by
    rcases ec2_curves hk with rfl | rfl | rfl | rfl <;> decide
  have tx := truthy_bytes lx hs
  have ty := truthy_bytes ly hs
  have td := truthy_bytes ld hs
  have nx := bytes_ne lx hs
  have ny := bytes_ne ly hs
  have nd := bytes_ne ld hs
  have hpc : parseCrv KtyEC2 (.cls c) = .ok c := by
    rcases ec2_curves hk with rfl | rfl | rfl | rfl <;> decide +kernel
  have hi : initStore .ec2 [] true = .ok [(.cls KpKty, .cls KtyEC2)] := by decide +kernel
  have e : ec2FromDict C (dupdate (dupdate [(.cls Ec2Crv, .cls c), (.cls Ec2X, .bytes bx), (.cls Ec2Y, .bytes bY)] [(.cls Ec2D, .bytes bd)]) []) =
      ec2Init C (.cls c) (.bytes bx) (.bytes bY) (.bytes bd) [] true := by
    rfl
  rw [e]
  simp only [ec2Init, hi, ok_bind, hpc, tx, ty, td, intFromBytes, vd, hp, hx, hy, checkOrDerive, setIfNonEmpty, nx, ny, nd, if_false, if_true,
    setBytes, reduceCtorEq, Bool.true_eq_false, and_false, and_self]
  simp [dset]
  rfl

theorem sim_toBytes {C : Crypto} {d d' : Nat} (h : Spec.SameSecret C d d') (crv : Cls) :
    SimRes (fun b b' => b.length = crvSize crv ∧ b'.length = crvSize crv ∧ natOfBytes b = d ∧ natOfBytes b' = d')
      (toBytes d (crvSize crv)) (toBytes d' (crvSize crv)) := by
  cases h1 : toBytes d (crvSize crv) with
  | ok b =>
    cases h2 : toBytes d' (crvSize crv) with
    | ok b' => exact ⟨(toBytes_ok h1).1, (toBytes_ok h2).1, (toBytes_ok h1).2, (toBytes_ok h2).2⟩
    | error e =>
      have := h.fits crv
      unfold toBytes at h1 h2
      split at h1 <;> split at h2 <;> simp at h1 h2
      simp_all
  | error e =>
    have := h.fits crv
    unfold toBytes at h1
    split at h1 <;> simp at h1
    subst h1
    unfold toBytes
    rw [if_neg (by simp_all)]
    rfl

theorem sim_generate {C : Crypto} {d d' : Nat} (h : Spec.SameSecret C d d') (crv : Val) :
    SimRes (fun k k' => SimKey C k k' ∧ dhas k.store (.cls Ec2D) = true ∧ dhas k'.store (.cls Ec2D) = true ∧
      ddel k'.store (.cls Ec2D) = ddel k.store (.cls Ec2D)) (ec2Generate C crv d []) (ec2Generate C crv d' []) := by
  rw [ec2Generate_eq, ec2Generate_eq]
  cases hc : parseCrv KtyEC2 crv with
  | error e => exact rfl
  | ok c =>
  simp only [ok_bind]
  rw [h.pub]
  refine SimRes.same fun p => SimRes.same fun bx => SimRes.same fun bY => SimRes.bind (sim_toBytes h c) ?_
  intro b b' ⟨l1, l2, v1, v2⟩
  have hs : crvSize c ≠ 0 := by
    rcases ec2_curves (parseCrv_ok hc).1 with rfl | rfl | rfl | rfl <;> decide
  cases b with
  | nil => simp at l1; exact absurd l1.symm hs
  | cons a t =>
  cases b' with
  | nil => simp at l2; exact absurd l2.symm hs
  | cons a' t' =>
  refine ⟨.eph ?_, ?_, ?_, ?_⟩
  · rw [v1, v2]; exact h.ecdh
  · simp [ec2Pub, dhas, dget, Ec2D, KpKty, Ec2Crv, Ec2X, Ec2Y]
  · simp [ec2Pub, dhas, dget, Ec2D, KpKty, Ec2Crv, Ec2X, Ec2Y]
  · simp [ec2Pub, ddel, Ec2D, KpKty, Ec2Crv, Ec2X, Ec2Y]

theorem samePeer_crv {v v' : Val} (h : Spec.SamePeer v v') :
    (asKey v' >>= fun pk => pk.crv) = (asKey v >>= fun pk => pk.crv) := by
  cases h with
  | same => rfl
  | key h1 => simpa [asKey] using h1

theorem samePeer_none {v v' : Val} (h : Spec.SamePeer v v') : v' = .none ↔ v = .none := by
  cases h <;> simp

theorem sim_setup {C : Crypto} {d d' : Nat} (h : Spec.SameSecret C d d') {b b' : Base} (hb : SimKA C b b') :
    SimRes (SimKA C) (setupEphemeral C d b (getD b.localAttrs Hdr.StaticKey .none))
      (setupEphemeral C d' b' (getD b'.localAttrs Hdr.StaticKey .none)) := by
  obtain ⟨⟨k0, la, a, rfl, hk⟩, hl⟩ := hb
  have e : ∀ d b p, setupEphemeral C d b p = (do
      let crv ← asKey p >>= fun pk => pk.crv
      let k ← ec2Generate C crv d []
      let e ← b.getAttr Hdr.EphemeralKey
      if e ≠ .none then .error .coseException
      else if dhas k.store (.cls Ec2D) = false then .error .keyError
      else .ok { b with key := some k, uhdr := dupdate b.uhdr [(.cls Hdr.EphemeralKey, .map (ddel k.store (.cls Ec2D)))] }) := by
    intro d b p
    unfold setupEphemeral
    cases asKey p <;> rfl
  rw [e, e]
  rw [samePeer_crv hl.peer]
  refine SimRes.same fun crv => SimRes.bind (sim_generate h crv) ?_
  intro k k' ⟨h1, h2, h3, h4⟩
  refine SimRes.same fun e => ?_
  simp only [h2, h3, h4]
  split
  · exact rfl
  · exact ⟨⟨some k', la, a, rfl, .some h1⟩, hl⟩

/-! ### What reads a key -/

theorem sim_kind {C : Crypto} {k k' : Key} (h : SimKey C k k') : k'.kind = k.kind := by cases h <;> rfl

theorem sim_verify {C : Crypto} {k k' : Key} (h : SimKey C k k') (kd : Kind) (alg : Val) (ops : List Cls) :
    k'.verify kd alg ops = k.verify kd alg ops := by
  cases h
  · rfl
  · simp [Key.verify, Key.alg, Key.keyOps, getD, dget, ec2Pub, Ec2D, KpKty, Ec2Crv, Ec2X, Ec2Y, KpAlg, KpKeyOps]

theorem sim_symK {C : Crypto} {k k' : Key} (h : SimKey C k k') : k'.symK = k.symK := by
  cases h <;> rfl

theorem sim_deriveKek {C : Crypto} {k k' : Option Key} (h : SimOpt C k k') (alg crv : Val) (pub : Key) (ctx : KdfContext) :
    deriveKek C alg crv k' pub ctx = deriveKek C alg crv k pub ctx := by
  cases h with
  | none => rfl
  | some h =>
    cases h with
    | same => rfl
    | eph h =>
      rename_i c bx bY a a' t t'
      have e1 : Key.d { kind := .ec2, store := ec2Pub c bx bY ++ [(.cls Ec2D, .bytes (a :: t))] } = .ok (.bytes (a :: t)) := by
        simp [Key.d, getD, dget, ec2Pub, Ec2D, KpKty, Ec2Crv, Ec2X, Ec2Y]
      have e2 : Key.d { kind := .ec2, store := ec2Pub c bx bY ++ [(.cls Ec2D, .bytes (a' :: t'))] } = .ok (.bytes (a' :: t')) := by
        simp [Key.d, getD, dget, ec2Pub, Ec2D, KpKty, Ec2Crv, Ec2X, Ec2Y]
      simp only [deriveKek, e1, e2, ok_bind, intFromHex, h]

theorem samePeer_agree {C : Crypto} {p p' : Val} (h : Spec.SamePeer p p') (b : Base) (target : Val) (k : Option Key) (alg : Val) :
    agreeKek C b target p' k alg = agreeKek C b target p k alg := by
  cases h with
  | same => rfl
  | key h1 h2 h3 => simp only [agreeKek, asKey, ok_bind, h1, deriveKek, h2, h3]

theorem sim_agreeKek {C : Crypto} {b b' : Base} (hb : SimKA C b b') {k k' : Option Key} (h : SimOpt C k k') (target alg : Val) :
    agreeKek C b' target (getD b'.localAttrs Hdr.StaticKey .none) k' alg =
      agreeKek C b target (getD b.localAttrs Hdr.StaticKey .none) k alg := by
  obtain ⟨⟨k0, la, a, rfl, hk0⟩, hl⟩ := hb
  rw [samePeer_agree hl.peer]
  have h1 := hl.secret b target (getD b.localAttrs Hdr.StaticKey .none) k alg
  rw [show ({ b with localAttrs := b.localAttrs } : Base) = b from rfl] at h1
  rw [← h1]
  have hk : kdfContext { b with key := k0, localAttrs := la, aad := a } target = kdfContext { b with localAttrs := la } target := rfl
  simp only [agreeKek, hk, sim_deriveKek h]

theorem simBase_attr {C : Crypto} {b b' : Base} (h : SimBase C b b') (c : Cls) : b'.getAttr c = b.getAttr c := by
  obtain ⟨k, la, a, rfl, _⟩ := h; rfl

theorem simBase_enc {C : Crypto} {b b' : Base} (h : SimBase C b b') : b'.phdrEncoded = b.phdrEncoded := by
  obtain ⟨k, la, a, rfl, _⟩ := h; rfl

theorem simBase_uhdr {C : Crypto} {b b' : Base} (h : SimBase C b b') : b'.uhdr = b.uhdr := by
  obtain ⟨k, la, a, rfl, _⟩ := h; rfl

theorem simBase_phdr {C : Crypto} {b b' : Base} (h : SimBase C b b') : b'.phdr = b.phdr := by
  obtain ⟨k, la, a, rfl, _⟩ := h; rfl

theorem simBase_payload {C : Crypto} {b b' : Base} (h : SimBase C b b') : b'.payload = b.payload := by
  obtain ⟨k, la, a, rfl, _⟩ := h; rfl

theorem simBase_key {C : Crypto} {b b' : Base} (h : SimBase C b b') : SimOpt C b.key b'.key := by
  obtain ⟨k, la, a, rfl, h⟩ := h; exact h

theorem sim_kwEncrypt {C : Crypto} {b b' : Base} (h : SimBase C b b') (salt : Bytes) {rs rs' : List Rcpt}
    (he : rs'.isEmpty = rs.isEmpty) (hv : verifyRecipients rs' = verifyRecipients rs) :
    kwEncrypt C salt b' rs' = kwEncrypt C salt b rs := by
  have hk := simBase_key h
  have h1 : kwKekEncrypt b'.key rs' = kwKekEncrypt b.key rs := by
    generalize b.key = q at hk
    generalize b'.key = q' at hk
    cases hk with
    | none => simp only [kwKekEncrypt, he, hv]
    | some hk => simp only [kwKekEncrypt, sim_symK hk]
  simp only [kwEncrypt, h1, simBase_attr h, simBase_phdr h, simBase_payload h]
  generalize b.key = q at hk
  generalize b'.key = q' at hk
  cases hk with
  | none => rfl
  | some hk =>
    cases hk with
    | same => rfl
    | eph _ => simp only [Key.verify, ne_eq, reduceCtorEq, not_false_eq_true, if_true, error_bind]

theorem sim_kakwTail {C : Crypto} {b b' : Base} (h : SimKA C b b') (alg : Val) :
    SimRes (fun a a' => a'.1 = a.1 ∧ SimKA C a.2 a'.2)
      (do
        let w ← keyWrapFunc alg
        let kek ← agreeKek C b w (getD b.localAttrs Hdr.StaticKey .none) b.key alg
        match algFam w with
        | some (.aesKw n) => do
          let k ← mkSym (.bytes kek) alg [Op.DeriveKey]
          let c ← kwKeyWrap C n k b.payload
          .ok (c, b)
        | _ => .error .attributeError)
      (do
        let w ← keyWrapFunc alg
        let kek ← agreeKek C b' w (getD b'.localAttrs Hdr.StaticKey .none) b'.key alg
        match algFam w with
        | some (.aesKw n) => do
          let k ← mkSym (.bytes kek) alg [Op.DeriveKey]
          let c ← kwKeyWrap C n k b'.payload
          .ok (c, b')
        | _ => .error .attributeError) := by
  refine SimRes.same fun w => ?_
  rw [sim_agreeKek h (simBase_key h.1)]
  refine SimRes.same fun kek => ?_
  rw [simBase_payload h.1]
  split
  · refine SimRes.same fun k => ?_
    exact SimRes.same fun c => ⟨rfl, h⟩
  · exact rfl

theorem setup_local {C : Crypto} {d : Nat} {b b1 : Base} {p : Val} (h : setupEphemeral C d b p = .ok b1) : b1.localAttrs = b.localAttrs := by
  simp only [setupEphemeral, bind_eq_ok] at h
  obtain ⟨_, _, _, _, _, _, _, _, h⟩ := h
  split at h
  · simp at h
  split at h
  · simp at h
  · simp at h; rw [← h]

theorem SimRes.with_ok {α β : Type} {S : α → β → Prop} {x : Res α} {y : Res β} (h : SimRes S x y) :
    SimRes (fun a b => S a b ∧ x = .ok a ∧ y = .ok b) x y := by
  cases x <;> cases y <;> simp only [SimRes] at h ⊢
  · exact h
  · exact ⟨h, trivial, trivial⟩

theorem sim_kakwEncrypt {C : Crypto} {d d' : Nat} (hd : Spec.SameSecret C d d') {b b' : Base} (h : SimKA C b b') :
    SimRes (fun a a' => a'.1 = a.1 ∧ SimKA C a.2 a'.2) (kakwEncrypt C d b) (kakwEncrypt C d' b') := by
  unfold kakwEncrypt
  simp only [samePeer_none h.2.peer, simBase_attr h.1]
  split
  · exact rfl
  refine SimRes.same fun alg => ?_
  split
  · exact rfl
  have hk := simBase_key h.1
  cases hq : b.key with
  | some q =>
    cases hq' : b'.key with
    | none => rw [hq, hq'] at hk; cases hk
    | some q' => exact sim_kakwTail h _
  | none =>
    cases hq' : b'.key with
    | some q' => rw [hq, hq'] at hk; cases hk
    | none =>
      refine SimRes.same fun es => ?_
      split
      · refine SimRes.bind (sim_setup hd h).with_ok ?_
        intro b1 b1' ⟨h1, e1, e2⟩
        have := sim_kakwTail h1 alg
        rw [setup_local e1, setup_local e2] at this
        exact this
      · exact rfl

theorem samePeer_asKey {v v' : Val} (h : Spec.SamePeer v v') :
    SimRes (fun k k' => ∀ kd alg ops, k'.verify kd alg ops = k.verify kd alg ops) (asKey v) (asKey v') := by
  cases h with
  | same => exact SimRes.refl (fun _ _ _ _ => rfl) _
  | key h1 h2 h3 h4 h5 =>
    intro kd alg ops
    simp only [Key.verify, h4, h5]

theorem sim_dka {C : Crypto} {b b' : Base} (h : SimKA C b b') (target : Val) :
    dkaComputeCek C b' target true = dkaComputeCek C b target true := by
  refine SimRes.eq ?_
  simp only [dkaComputeCek, simBase_attr h.1]
  refine SimRes.same fun alg => SimRes.same fun m => ?_
  split
  · exact rfl
  refine SimRes.same fun ss => ?_
  simp only [if_true, ok_bind, samePeer_none h.2.peer]
  split
  · exact rfl
  refine SimRes.bind (samePeer_asKey h.2.peer) ?_
  intro pk pk' hp
  rw [hp]
  refine SimRes.same fun _ => ?_
  have hk := simBase_key h.1
  have ha : ∀ k k', SimOpt C k k' → agreeKek C b' target (getD b'.localAttrs Hdr.StaticKey .none) k' alg =
      agreeKek C b target (getD b.localAttrs Hdr.StaticKey .none) k alg := fun k k' hk => sim_agreeKek h hk target alg
  generalize b.key = q at hk
  generalize b'.key = q' at hk
  cases hk with
  | none => exact rfl
  | some hk =>
    simp only [sim_verify hk, ha _ _ (.some hk)]
    exact SimRes.refl (S := fun a b => b = a) (fun _ => rfl) _

/-! ### Recipients -/

theorem simRcpts_isEmpty {C : Crypto} {rs rs' : List Rcpt} (h : SimRcpts C rs rs') : rs'.isEmpty = rs.isEmpty := by
  cases h <;> rfl

theorem simRcpts_length {C : Crypto} : ∀ {rs rs' : List Rcpt}, SimRcpts C rs rs' → rs'.length = rs.length
  | [], _, h => by cases h; rfl
  | _ :: _, _, h => by cases h with | cons _ h => simp [simRcpts_length h]

theorem simRcpts_types {C : Crypto} : ∀ {rs rs' : List Rcpt}, SimRcpts C rs rs' → rs'.map Rcpt.cls = rs.map Rcpt.cls
  | [], _, h => by cases h; rfl
  | _ :: _, _, h => by
    cases h with
    | cons h1 h2 =>
      cases h1
      simp only [List.map_cons, simRcpts_types h2]
      rfl

theorem simRcpts_verify {C : Crypto} {rs rs' : List Rcpt} (h : SimRcpts C rs rs') : verifyRecipients rs' = verifyRecipients rs := by
  simp only [verifyRecipients, simRcpts_types h, simRcpts_length h]

theorem sim_rcptEncrypt {C : Crypto} {R R' : Rand} (hR : Spec.SameRand C R R') (phase : Nat) (path : List Nat) {r r' : Rcpt}
    (h : SimRcpt C r r') : SimRes (fun a a' => a'.1 = a.1 ∧ SimRcpt C a.2 a'.2) (rcptEncrypt C R phase path r) (rcptEncrypt C R' phase path r') := by
  have h0 := h
  cases h with
  | @mk c b b' x o rs rs' hb hrs =>
    cases c with
    | directEncryption => exact rfl
    | directKeyAgreement => exact rfl
    | keyWrap =>
      show SimRes _ (kwEncrypt C (R.salt phase path) b rs >>= _) (kwEncrypt C (R'.salt phase path) b' rs' >>= _)
      rw [hR.salt, sim_kwEncrypt hb.1 _ (simRcpts_isEmpty hrs) (simRcpts_verify hrs)]
      exact SimRes.same fun c => ⟨rfl, h0⟩
    | keyAgreementWithKeyWrap =>
      show SimRes _ (kakwEncrypt C (R.eph path) b >>= _) (kakwEncrypt C (R'.eph path) b' >>= _)
      refine SimRes.bind (sim_kakwEncrypt (hR.eph path) ⟨hb.1, hb.2 (.inr rfl)⟩) ?_
      intro a a' ⟨h1, h2⟩
      exact ⟨h1, .mk ⟨h2.1, fun _ => h2.2⟩ hrs⟩

theorem simRcpt_payload {C : Crypto} {r r' : Rcpt} (h : SimRcpt C r r') (p : Option Bytes) :
    r'.base.payload = r.base.payload ∧ SimRcpt C (r.withBase { r.base with payload := p }) (r'.withBase { r'.base with payload := p }) := by
  cases h with
  | mk hb hrs =>
    refine ⟨simBase_payload hb.1, .mk ⟨?_, hb.2⟩ hrs⟩
    obtain ⟨⟨k, la, a, rfl, hk⟩, _⟩ := hb
    exact ⟨k, la, a, rfl, hk⟩

theorem sim_wrapLoop {C : Crypto} {R R' : Rand} (hR : Spec.SameRand C R R') : ∀ (rs rs' : List Rcpt) (i : Nat) (key : Option Bytes),
    SimRcpts C rs rs' →
    SimRes (fun a a' => a'.1 = a.1 ∧ SimRcpts C a.2 a'.2) (wrapLoop C R i key rs) (wrapLoop C R' i key rs')
  | [], rs', i, key, h => by cases h; exact ⟨rfl, .nil⟩
  | r :: t, rs', i, key, h => by
    cases h with
    | @cons _ r' _ t' h1 h2 =>
    have key1 : ∀ (k : Option Bytes) {q q' : Rcpt}, SimRcpt C q q' →
        SimRes (fun a a' => a'.1 = a.1 ∧ SimRcpts C a.2 a'.2)
          (do
            let (_, r) ← rcptEncrypt C R 0 [i] q
            let (key, t) ← wrapLoop C R (i + 1) k t
            .ok (key, r :: t))
          (do
            let (_, r) ← rcptEncrypt C R' 0 [i] q'
            let (key, t) ← wrapLoop C R' (i + 1) k t'
            .ok (key, r :: t)) := by
      intro k q q' hq
      refine SimRes.bind (sim_rcptEncrypt hR 0 [i] hq) ?_
      intro a a' ⟨_, h3⟩
      refine SimRes.bind (sim_wrapLoop hR t t' (i + 1) k h2) ?_
      intro b b' ⟨h4, h5⟩
      exact ⟨h4, .cons h3 h5⟩
    simp only [wrapLoop, (simRcpt_payload h1 none).1]
    split
    · exact key1 _ (simRcpt_payload h1 key).2
    · exact key1 _ h1

theorem sim_rcptHead {C : Crypto} {R R' : Rand} (hR : Spec.SameRand C R R') (path : List Nat) {c : RCls} {b b' : Base} {x : Bytes} {o : Nat}
    {rs rs' : List Rcpt} (hb : SimCls C c b b') (hrs : SimRcpts C rs rs') :
    SimRes (fun a a' => a'.1 = a.1 ∧ SimCls C c a.2 a'.2) (rcptHead C R path (.mk c b x o rs)) (rcptHead C R' path (.mk c b' x o rs')) := by
  cases c with
  | directEncryption =>
    simp only [rcptHead, simBase_attr hb.1, simBase_phdr hb.1, simBase_enc hb.1, simBase_uhdr hb.1, simRcpts_isEmpty hrs]
    refine SimRes.same fun alg => ?_
    split
    · exact rfl
    split
    · exact rfl
    split
    · exact rfl
    exact SimRes.same fun pe => ⟨rfl, hb⟩
  | keyWrap =>
    simp only [rcptHead, simBase_enc hb.1, simBase_uhdr hb.1, hR.salt, sim_kwEncrypt hb.1 _ (simRcpts_isEmpty hrs) (simRcpts_verify hrs)]
    exact SimRes.same fun pe => SimRes.same fun c => ⟨rfl, hb⟩
  | directKeyAgreement =>
    have hl := hb.2 (.inl rfl)
    have tail : ∀ (alg : Val) {q q' : Base}, SimKA C q q' →
        SimRes (fun a a' => a'.1 = a.1 ∧ SimCls C .directKeyAgreement a.2 a'.2)
          (if rs.length > 1 then (.error .malformedMessage : Res (List Val × Base))
            else do
              let e ← q.getAttr Hdr.EphemeralKey
              let missing ← lacksEphemeral alg e
              if missing then .error .malformedMessage
              else do
                let pe ← q.phdrEncoded
                .ok ([.bytes pe, .map q.uhdr, .bytes []], q))
          (if rs.length > 1 then (.error .malformedMessage : Res (List Val × Base))
            else do
              let e ← q'.getAttr Hdr.EphemeralKey
              let missing ← lacksEphemeral alg e
              if missing then .error .malformedMessage
              else do
                let pe ← q'.phdrEncoded
                .ok ([.bytes pe, .map q'.uhdr, .bytes []], q')) := by
      intro alg q q' hq
      simp only [simBase_attr hq.1, simBase_enc hq.1, simBase_uhdr hq.1]
      split
      · exact rfl
      refine SimRes.same fun e => SimRes.same fun missing => ?_
      split
      · exact rfl
      exact SimRes.same fun pe => ⟨rfl, hq.1, fun _ => hq.2⟩
    simp only [rcptHead, simBase_attr hb.1, simRcpts_length hrs, samePeer_none hl.peer]
    refine SimRes.same fun alg => ?_
    split
    · exact rfl
    split
    · exact rfl
    have hk := simBase_key hb.1
    cases hq : b.key with
    | some q =>
      cases hq' : b'.key with
      | none => rw [hq, hq'] at hk; cases hk
      | some q' => exact tail alg ⟨hb.1, hl⟩
    | none =>
      cases hq' : b'.key with
      | some q' => rw [hq, hq'] at hk; cases hk
      | none =>
        dsimp only
        refine SimRes.same fun es => ?_
        split
        · exact SimRes.bind (sim_setup (hR.eph path) ⟨hb.1, hl⟩) fun q q' hq => tail alg hq
        · exact rfl
  | keyAgreementWithKeyWrap =>
    simp only [rcptHead, simBase_attr hb.1, simBase_enc hb.1]
    refine SimRes.same fun pe => SimRes.same fun alg => SimRes.same fun _ => ?_
    refine SimRes.bind (sim_kakwEncrypt (hR.eph path) ⟨hb.1, hb.2 (.inr rfl)⟩) ?_
    intro a a' ⟨h1, h2⟩
    refine ⟨?_, h2.1, fun _ => h2.2⟩
    simp only [h1, simBase_uhdr h2.1]

mutual
theorem sim_rcptEncode {C : Crypto} {R R' : Rand} (hR : Spec.SameRand C R R') (path : List Nat) (r r' : Rcpt) (h : SimRcpt C r r') :
    SimRes (fun a a' => a'.1 = a.1 ∧ SimRcpt C a.2 a'.2) (rcptEncode C R path r) (rcptEncode C R' path r') :=
  match r, r', h with
  | .mk c b x o rs, .mk _ b' _ _ rs', .mk hb hrs => by
    simp only [rcptEncode, simRcpts_isEmpty hrs]
    refine SimRes.bind (sim_rcptHead hR path hb hrs) ?_
    intro a a' ⟨h1, h2⟩
    simp only [h1]
    split
    · exact ⟨rfl, .mk h2 hrs⟩
    · refine SimRes.bind (sim_rcptsEncode hR path 0 rs rs' hrs) ?_
      intro v v' ⟨h3, h4⟩
      exact ⟨by simp only [h3], .mk h2 h4⟩
termination_by structural r
theorem sim_rcptsEncode {C : Crypto} {R R' : Rand} (hR : Spec.SameRand C R R') (path : List Nat) (i : Nat) (rs rs' : List Rcpt)
    (h : SimRcpts C rs rs') :
    SimRes (fun a a' => a'.1 = a.1 ∧ SimRcpts C a.2 a'.2) (rcptsEncode C R path i rs) (rcptsEncode C R' path i rs') :=
  match rs, rs', h with
  | [], [], .nil => ⟨rfl, .nil⟩
  | r :: t, r' :: t', .cons h1 h2 => by
    simp only [rcptsEncode]
    refine SimRes.bind (sim_rcptEncode hR (path ++ [i]) r r' h1) ?_
    intro a a' ⟨h3, h4⟩
    refine SimRes.bind (sim_rcptsEncode hR path (i + 1) t t' h2) ?_
    intro v v' ⟨h5, h6⟩
    exact ⟨by simp only [h3, h5], .cons h4 h6⟩
termination_by structural rs
end

/-! ### Messages -/

theorem sameObject_attr {b b' : Base} (h : Spec.SameObject b b') (c : Cls) : b'.getAttr c = b.getAttr c := by rw [h]; rfl
theorem sameObject_enc {b b' : Base} (h : Spec.SameObject b b') : b'.phdrEncoded = b.phdrEncoded := by rw [h]; rfl
theorem sameObject_uhdr {b b' : Base} (h : Spec.SameObject b b') : b'.uhdr = b.uhdr := by rw [h]
theorem sameObject_payload {b b' : Base} (h : Spec.SameObject b b') : b'.payload = b.payload := by rw [h]
theorem sameObject_finish {b b' : Base} (h : Spec.SameObject b b') (n : Nat) (tag : Bool) (l : List Val) :
    b'.finish n tag l = b.finish n tag l := by rw [h]; rfl
theorem sameObject_key {b b' : Base} (h : Spec.SameObject b b') (k : Option Key) :
    Spec.SameObject { b with key := k } { b' with key := k } := by
  have h' := h
  unfold Spec.SameObject at h ⊢
  rw [h]

theorem sameObject_self {b b' : Base} (h : Spec.SameObject b b') : b'.key = b.key := by rw [h]

/-- With a direct key agreement recipient there is no other one. -/
theorem verify_dka {r : Rcpt} {t : List Rcpt} {types : List RCls} (h : verifyRecipients (r :: t) = .ok types)
    (hc : types.contains .directKeyAgreement = true) : r.cls = .directKeyAgreement := by
  simp only [verifyRecipients] at h
  split at h
  · simp at h
  split at h
  · simp at h
  · rename_i h2
    simp at h
    subst h
    have : t = [] := by
      cases t with
      | nil => rfl
      | cons _ _ => exact absurd ⟨by simpa using hc, by simp⟩ h2
    subst this
    simpa [eq_comm] using hc

theorem sim_encEncrypt {C : Crypto} {R R' : Rand} (hR : Spec.SameRand C R R') {m m' : Enc} (hb : Spec.SameObject m.base m'.base)
    (hrs : SimRcpts C m.recipients m'.recipients)
    (hc : ∀ k, encEncrypt C b!"Encrypt" { m'.base with key := k } = encEncrypt C b!"Encrypt" { m.base with key := k }) :
    SimRes (fun a a' => a'.1 = a.1 ∧ Spec.SameObject a.2.base a'.2.base ∧ SimRcpts C a.2.recipients a'.2.recipients)
      (m.encrypt C R) (m'.encrypt C R') := by
  obtain ⟨b, rs⟩ := m
  obtain ⟨b', rs'⟩ := m'
  simp only at hb hrs hc
  have hself : encEncrypt C b!"Encrypt" b' = encEncrypt C b!"Encrypt" b := by
    have := hc b.key
    rw [← sameObject_self hb] at this
    rw [sameObject_self hb] at this
    have e1 : ({ b' with key := b.key } : Base) = b' := by rw [← sameObject_self hb]
    rwa [e1] at this
  simp only [Enc.encrypt, sameObject_attr hb, simRcpts_verify hrs]
  refine SimRes.same fun target => SimRes.same_ok fun types ht => ?_
  split
  · rw [hself]
    exact SimRes.same fun c => ⟨rfl, hb, hrs⟩
  split
  · rename_i _ hd
    cases hrs with
    | nil => exact rfl
    | cons h1 h2 =>
      have hrs := SimRcpts.cons h1 h2
      have hcls := verify_dka ht hd
      cases h1 with
      | @mk c q q' _ _ _ _ hq _ =>
        cases hcls
        show SimRes _ (dkaComputeCek C q target true >>= _) (dkaComputeCek C q' target true >>= _)
        rw [sim_dka ⟨hq.1, hq.2 (.inl rfl)⟩]
        refine SimRes.same fun k => ?_
        rw [hc]
        exact SimRes.same fun c => ⟨rfl, sameObject_key hb _, hrs⟩
  split
  · refine SimRes.same fun n => ?_
    rw [hR.cek]
    refine SimRes.bind (sim_wrapLoop hR _ _ 0 _ hrs) ?_
    intro a a' ⟨h1, h2⟩
    rw [h1]
    refine SimRes.same fun k => ?_
    rw [hc]
    exact SimRes.same fun c => ⟨rfl, sameObject_key hb _, h2⟩
  · exact rfl

theorem sim_macTag {C : Crypto} {R R' : Rand} (hR : Spec.SameRand C R R') {m m' : Mac} (hb : Spec.SameObject m.base m'.base)
    {rs rs' : List Rcpt} (e : m.recipients = some rs) (e' : m'.recipients = some rs') (hrs : SimRcpts C rs rs')
    (hc : ∀ k, macCompute C b!"MAC" { m'.base with key := k } = macCompute C b!"MAC" { m.base with key := k }) :
    SimRes (fun a a' => a'.1 = a.1 ∧ Spec.SameObject a.2.base a'.2.base ∧ a.2.recipients = some rs ∧ a'.2.recipients = some rs')
      (m.computeTag C R) (m'.computeTag C R') := by
  obtain ⟨b, t, ors⟩ := m
  obtain ⟨b', t', ors'⟩ := m'
  simp only at hb e e' hc
  subst e e'
  have hself : macCompute C b!"MAC" b' = macCompute C b!"MAC" b := by
    have := hc b.key
    have e1 : ({ b' with key := b.key } : Base) = b' := by rw [← sameObject_self hb]
    rwa [e1] at this
  simp only [Mac.computeTag, sameObject_attr hb, simRcpts_verify hrs]
  refine SimRes.same fun target => SimRes.same_ok fun types ht => ?_
  split
  · rw [hself]
    exact SimRes.same fun c => ⟨rfl, hb, rfl, rfl⟩
  split
  · rename_i _ hd
    cases hrs with
    | nil => exact rfl
    | cons h1 h2 =>
      have hcls := verify_dka ht hd
      cases h1 with
      | @mk c q q' _ _ _ _ hq _ =>
        cases hcls
        show SimRes _ (dkaComputeCek C q target true >>= _) (dkaComputeCek C q' target true >>= _)
        rw [sim_dka ⟨hq.1, hq.2 (.inl rfl)⟩]
        refine SimRes.same fun k => ?_
        rw [hc]
        exact SimRes.same fun c => ⟨rfl, sameObject_key hb _, rfl, rfl⟩
  split
  · refine SimRes.same fun n => ?_
    rw [hR.cek]
    exact SimRes.bind (sim_wrapLoop hR _ _ 0 _ hrs) fun _ _ _ => rfl
  · exact rfl

/-! ### C54 -/

/-- C54: the bytes of a COSE_Encrypt message depend on the private values of automatically generated ephemeral keys only through
the public points and the shared secrets; on the local attributes only through the derived secrets (and, for the message and for
recipients that agree on no key, not at all); on the external data of the recipients not at all; and on the external data of the
message only through the ciphertext. -/
theorem c54_enc {C : Crypto} {R R' : Rand} (hR : Spec.SameRand C R R') {m m' : Enc} (hb : Spec.SameObject m.base m'.base)
    (hrs : Spec.SameRcpts C m.recipients m'.recipients)
    (hc : ∀ k, encEncrypt C b!"Encrypt" { m'.base with key := k } = encEncrypt C b!"Encrypt" { m.base with key := k })
    (tag encrypt : Bool) : (m'.encode C R' tag encrypt).map (·.1) = (m.encode C R tag encrypt).map (·.1) := by
  have hrs := SimRcpts.of_same _ _ hrs
  refine SimRes.map_fst (S := fun _ _ => True) ?_
  have tail : ∀ (l : List Val) {q q' : Enc}, Spec.SameObject q.base q'.base → SimRcpts C q.recipients q'.recipients →
      SimRes (fun a a' => a'.1 = a.1 ∧ True)
        (do
          let (message, m) ←
            if q.recipients.isEmpty then .ok (l, q)
            else do
              let _ ← q.base.getAttr Hdr.Algorithm
              let (vs, rs) ← rcptsEncode C R [] 0 q.recipients
              .ok (l ++ [.arr vs], { q with recipients := rs })
          let out ← m.base.finish 96 tag message
          .ok (out, m))
        (do
          let (message, m) ←
            if q'.recipients.isEmpty then .ok (l, q')
            else do
              let _ ← q'.base.getAttr Hdr.Algorithm
              let (vs, rs) ← rcptsEncode C R' [] 0 q'.recipients
              .ok (l ++ [.arr vs], { q' with recipients := rs })
          let out ← m.base.finish 96 tag message
          .ok (out, m)) := by
    intro l q q' h1 h2
    rw [simRcpts_isEmpty h2, sameObject_attr h1]
    split
    · simp only [ok_bind]
      rw [sameObject_finish h1]
      exact SimRes.same fun o => ⟨rfl, trivial⟩
    · refine SimRes.same fun _ => SimRes.bind (sim_rcptsEncode hR [] 0 _ _ h2) ?_
      intro a a' ⟨h3, h4⟩
      simp only [ok_bind, h3, sameObject_finish h1]
      exact SimRes.same fun o => ⟨rfl, trivial⟩
  unfold Enc.encode
  rw [sameObject_enc hb, sameObject_uhdr hb, sameObject_payload hb]
  refine SimRes.same fun pe => ?_
  dsimp only
  cases encrypt with
  | true =>
    simp only [if_true]
    refine SimRes.bind (sim_encEncrypt hR hb hrs hc) ?_
    intro a a' ⟨h1, h2, h3⟩
    simp only [ok_bind, h1]
    exact tail _ h2 h3
  | false =>
    simp only [Bool.false_eq_true, if_false, ok_bind]
    exact tail _ hb hrs

/-- C54: the same for a COSE_Mac message. -/
theorem c54_mac {C : Crypto} {R R' : Rand} (hR : Spec.SameRand C R R') {m m' : Mac} (hb : Spec.SameObject m.base m'.base)
    (hrs : ∀ rs, m.recipients = some rs → ∃ rs', m'.recipients = some rs' ∧ Spec.SameRcpts C rs rs')
    (hn : m.recipients = none → m'.recipients = none)
    (hc : ∀ k, macCompute C b!"MAC" { m'.base with key := k } = macCompute C b!"MAC" { m.base with key := k })
    (tag mac : Bool) : (m'.encode C R' tag mac).map (·.1) = (m.encode C R tag mac).map (·.1) := by
  refine SimRes.map_fst (S := fun _ _ => True) ?_
  cases e : m.recipients with
  | none =>
    have e' := hn e
    unfold Mac.encode
    rw [sameObject_enc hb, sameObject_uhdr hb, sameObject_payload hb]
    refine SimRes.same fun pe => ?_
    cases mac
    · simp only [Bool.false_eq_true, if_false, ok_bind, e, e']
      exact rfl
    · simp only [if_true, Mac.computeTag, e, e', sameObject_attr hb]
      cases m.base.getAttr Hdr.Algorithm <;> exact rfl
  | some rs =>
    obtain ⟨rs', e', hrs⟩ := hrs rs e
    have hrs := SimRcpts.of_same _ _ hrs
    have tail : ∀ (l : List Val) {q q' : Mac}, Spec.SameObject q.base q'.base → q.recipients = some rs → q'.recipients = some rs' →
        SimRes (fun a a' => a'.1 = a.1 ∧ True)
          (match q.recipients with
            | none => (.error .typeError : Res (Bytes × Mac))
            | some [] => do
              let out ← q.base.finish 97 tag l
              .ok (out, q)
            | some (r :: t) => do
              let _ ← q.base.getAttr Hdr.Algorithm
              let (vs, rs) ← rcptsEncode C R [] 0 (r :: t)
              let out ← q.base.finish 97 tag (l ++ [.arr vs])
              .ok (out, { q with recipients := some rs }))
          (match q'.recipients with
            | none => (.error .typeError : Res (Bytes × Mac))
            | some [] => do
              let out ← q'.base.finish 97 tag l
              .ok (out, q')
            | some (r :: t) => do
              let _ ← q'.base.getAttr Hdr.Algorithm
              let (vs, rs) ← rcptsEncode C R' [] 0 (r :: t)
              let out ← q'.base.finish 97 tag (l ++ [.arr vs])
              .ok (out, { q' with recipients := some rs })) := by
      intro l q q' h1 h2 h3
      rw [h2, h3]
      cases hrs with
      | nil =>
        simp only [sameObject_finish h1]
        exact SimRes.same fun o => ⟨rfl, trivial⟩
      | cons ha hb =>
        simp only [sameObject_attr h1]
        refine SimRes.same fun _ => SimRes.bind (sim_rcptsEncode hR [] 0 _ _ (.cons ha hb)) ?_
        intro a a' ⟨h3, h4⟩
        simp only [h3, sameObject_finish h1]
        exact SimRes.same fun o => ⟨rfl, trivial⟩
    unfold Mac.encode
    rw [sameObject_enc hb, sameObject_uhdr hb, sameObject_payload hb]
    refine SimRes.same fun pe => ?_
    dsimp only
    cases mac with
    | true =>
      simp only [if_true]
      refine SimRes.bind (sim_macTag hR hb e e' hrs hc) ?_
      intro a a' ⟨h1, h2, h3, h4⟩
      simp only [ok_bind, h1]
      exact tail _ h2 h3 h4
    | false =>
      simp only [Bool.false_eq_true, if_false, ok_bind]
      exact tail _ hb e e'

theorem sameSent_enc {b b' : Base} (h : Spec.SameSent b b') : b'.phdrEncoded = b.phdrEncoded := by rw [h]; rfl
theorem sameSent_uhdr {b b' : Base} (h : Spec.SameSent b b') : b'.uhdr = b.uhdr := by rw [h]
theorem sameSent_payload {b b' : Base} (h : Spec.SameSent b b') : b'.payload = b.payload := by rw [h]
theorem sameSent_finish {b b' : Base} (h : Spec.SameSent b b') (n : Nat) (tag : Bool) (l : List Val) :
    b'.finish n tag l = b.finish n tag l := by rw [h]; rfl

/-- C54: a single-layer message depends on its key, its local attributes and its external data only through the signature, the tag
or the ciphertext. -/
theorem c54_single {C : Crypto} {b b' : Base} (h : Spec.SameSent b b') (tag e : Bool) :
    (∀ rnd s det, (e = true → Sign1.computeSignature C rnd ⟨b', s⟩ det = Sign1.computeSignature C rnd ⟨b, s⟩ det) →
      Sign1.encode C rnd ⟨b', s⟩ tag e det = Sign1.encode C rnd ⟨b, s⟩ tag e det) ∧
    (∀ t, (e = true → Mac0.computeTag C ⟨b', t⟩ = Mac0.computeTag C ⟨b, t⟩) →
      (Mac0.encode C ⟨b', t⟩ tag e).map (·.1) = (Mac0.encode C ⟨b, t⟩ tag e).map (·.1)) ∧
    ((e = true → Enc0.encrypt C ⟨b'⟩ = Enc0.encrypt C ⟨b⟩) → Enc0.encode C ⟨b'⟩ tag e = Enc0.encode C ⟨b⟩ tag e) := by
  refine ⟨fun rnd s det hs => ?_, fun t hs => ?_, fun hs => ?_⟩
  · simp only [Sign1.encode, sameSent_enc h, sameSent_uhdr h, sameSent_payload h, sameSent_finish h]
    cases e
    · rfl
    · rw [hs rfl]
  · simp only [Mac0.encode, sameSent_enc h, sameSent_uhdr h, sameSent_payload h, sameSent_finish h]
    cases e
    · simp only [Bool.false_eq_true, if_false, map_bind]
      rfl
    · rw [hs rfl]
      simp only [if_true, map_bind]
      rfl
  · simp only [Enc0.encode, sameSent_enc h, sameSent_uhdr h, sameSent_payload h, sameSent_finish h]
    cases e
    · rfl
    · rw [hs rfl]

/-- C54: local attributes have no effect on a single-layer message, a signer or a tag. -/
theorem c54_local_attrs (C : Crypto) (b : Base) (la : Dict) (tag e : Bool) :
    (∀ rnd s det, Sign1.encode C rnd ⟨{ b with localAttrs := la }, s⟩ tag e det = Sign1.encode C rnd ⟨b, s⟩ tag e det) ∧
    (∀ t, (Mac0.encode C ⟨{ b with localAttrs := la }, t⟩ tag e).map (·.1) = (Mac0.encode C ⟨b, t⟩ tag e).map (·.1)) ∧
    Enc0.encode C ⟨{ b with localAttrs := la }⟩ tag e = Enc0.encode C ⟨b⟩ tag e := by
  have h := c54_single (C := C) (b := b) (b' := { b with localAttrs := la }) rfl tag e
  exact ⟨fun rnd s det => h.1 rnd s det fun _ => rfl, fun t => h.2.1 t fun _ => rfl, h.2.2 fun _ => rfl⟩

/-- C54: a COSE_Sign message depends on the keys, the local attributes and the external data of the message and of its signers only
through the signatures. -/
theorem c54_sign {C : Crypto} {rnd : Nat → Bytes} {p p' : Base} {ss ss' : List Base} {det : Option Bytes} (h : Spec.SameSent p p')
    (hl : ss'.length = ss.length)
    (hs : ∀ i (h1 : i < ss.length) (h2 : i < ss'.length), Spec.SameSent ss[i] ss'[i] ∧
      signerCompute C (rnd i) p' ss'[i] det = signerCompute C (rnd i) p ss[i] det) (tag : Bool) :
    SignMsg.encode C rnd ⟨p', ss'⟩ tag det = SignMsg.encode C rnd ⟨p, ss⟩ tag det := by
  have key : ∀ (l l' : List Base) (i : Nat), l'.length = l.length →
      (∀ j (h1 : j < l.length) (h2 : j < l'.length), Spec.SameSent l[j] l'[j] ∧
        signerCompute C (rnd (i + j)) p' l'[j] det = signerCompute C (rnd (i + j)) p l[j] det) →
      signersEncode C rnd p' det i l' = signersEncode C rnd p det i l := by
    intro l
    induction l with
    | nil => intro l' i hl _; simp at hl; subst hl; rfl
    | cons a t ih =>
      intro l' i hl hh
      cases l' with
      | nil => simp at hl
      | cons a' t' =>
        obtain ⟨h1, h2⟩ := hh 0 (by simp) (by simp)
        simp only [List.getElem_cons_zero, Nat.add_zero] at h1 h2
        have h3 := ih t' (i + 1) (by simpa using hl) (fun j g1 g2 => by
          have := hh (j + 1) (by simpa using g1) (by simpa using g2)
          simp only [List.getElem_cons_succ] at this
          rwa [show i + (j + 1) = i + 1 + j by omega] at this)
        simp only [signersEncode, signerEncode, sameSent_enc h1, sameSent_uhdr h1, h2, h3]
  have h0 := key ss ss' 0 hl (fun j g1 g2 => by simpa using hs j g1 g2)
  simp only [SignMsg.encode, sameSent_enc h, sameSent_uhdr h, sameSent_payload h, sameSent_finish h, h0, hl]

/-- C54: the ephemeral key that is put into the unprotected header has exactly the type, the curve and the public point: no private
value and nothing else. -/
theorem c54_ephemeral_public {C : Crypto} {d : Nat} {b b' : Base} {peer : Val} (h : setupEphemeral C d b peer = .ok b') :
    ∃ c x y bx bY, C.ecPub c d = .ok (x, y) ∧ natOfBytes bx = x ∧ natOfBytes bY = y ∧
      b'.uhdr = dupdate b.uhdr [(.cls Hdr.EphemeralKey, .map [(.cls KpKty, .cls KtyEC2), (.cls Ec2Crv, .cls c), (.cls Ec2X, .bytes bx), (.cls Ec2Y, .bytes bY)])] ∧
      b'.phdr = b.phdr ∧ b'.payload = b.payload := by
  simp only [setupEphemeral, bind_eq_ok] at h
  obtain ⟨pk, _, crv, _, k, hk, e, _, h⟩ := h
  obtain ⟨c, x, y, bx, bY, bd, _, hp, _, _, _, vx, vy, _, rfl⟩ := ec2Generate_ok hk
  split at h
  · simp at h
  split at h
  · simp at h
  · simp at h
    subst h
    refine ⟨c, x, y, bx, bY, hp, vx, vy, ?_, rfl, rfl⟩
    simp [ec2Pub, ddel, Ec2D, KpKty, Ec2Crv, Ec2X, Ec2Y]

/-! ### The hypotheses can be met -/

/-- Primitives for which the private values `2 * n` and `2 * n + 1` cannot be told apart. -/
def pairC : Crypto :=
  { toy with ecPub := fun c d => toy.ecPub c (d / 2 * 2), ecdh := fun c d x y => toy.ecdh c (d / 2 * 2) x y }

theorem pair_same (n : Nat) (hn : 0 < n) : Spec.SameSecret pairC (2 * n) (2 * n + 1) := by
  refine ⟨fun crv => ?_, fun crv x y => ?_, fun crv => ?_⟩
  · show toy.ecPub crv ((2 * n + 1) / 2 * 2) = toy.ecPub crv (2 * n / 2 * 2)
    rw [show (2 * n + 1) / 2 = 2 * n / 2 by omega]
  · show toy.ecdh crv ((2 * n + 1) / 2 * 2) x y = toy.ecdh crv (2 * n / 2 * 2) x y
    rw [show (2 * n + 1) / 2 = 2 * n / 2 by omega]
  · cases h : crvSize crv with
    | zero => omega
    | succ k =>
      have : 256 ^ (k + 1) = 2 * (128 * 256 ^ k) := by rw [Nat.pow_succ]; omega
      omega

def Sample.rand2 : Rand := { Sample.rand with eph := fun _ => 10 }
def Sample.rand3 : Rand := { Sample.rand with eph := fun _ => 11 }

theorem Sample.sameRand : Spec.SameRand pairC Sample.rand2 Sample.rand3 := ⟨rfl, rfl, fun _ => pair_same 5 (by decide)⟩

/-- The message of the examples for C12, with other local attributes and external data: the sender's key object of the peer even has
the peer's private value. -/
def Sample.esRcpt' (oid : Nat) : Rcpt :=
  .mk .keyAgreementWithKeyWrap { (Sample.esRcpt oid).base with localAttrs := [(.cls Hdr.StaticKey, Sample.rcvPriv.toVal)], aad := b!"x" } [] oid []
def Sample.kwRcpt' (oid : Nat) : Rcpt :=
  .mk .keyWrap { (Sample.kwRcpt oid).base with localAttrs := [(.cls Hdr.SuppPubOther, .bytes b!"local")], aad := b!"y" } [] oid []
def Sample.encMix2 : Enc := { Sample.encMix with recipients := [Sample.kwRcpt 1, Sample.esRcpt 3] }
def Sample.encMix3 : Enc :=
  { base := { Sample.encMix.base with localAttrs := [(.cls Hdr.SuppPubOther, .bytes b!"local")] }, recipients := [Sample.kwRcpt' 1, Sample.esRcpt' 3] }

theorem kdfContext_static (b : Base) (v v' : Val) (t : Val) :
    kdfContext { b with localAttrs := [(.cls Hdr.StaticKey, v')] } t = kdfContext { b with localAttrs := [(.cls Hdr.StaticKey, v)] } t := by
  have h : ∀ (w : Val) (c : Cls) (d : Val), c = Hdr.SuppPubOther ∨ c = Hdr.SuppPrivOther → getD [(.cls Hdr.StaticKey, w)] c d = d := by
    rintro w c d (rfl | rfl) <;> rfl
  simp only [kdfContext, h _ _ _ (.inl rfl), h _ _ _ (.inr rfl)]
  rfl

theorem Sample.sameLocal (C : Crypto) : Spec.SameLocal C [(.cls Hdr.StaticKey, Sample.rcvPub.toVal)] [(.cls Hdr.StaticKey, Sample.rcvPriv.toVal)] := by
  refine ⟨.key (by decide +kernel) (by decide +kernel) (by decide +kernel) (by decide +kernel) (by decide +kernel), ?_⟩
  intro b t p k alg
  simp only [agreeKek]
  rw [kdfContext_static b Sample.rcvPub.toVal Sample.rcvPriv.toVal]

/-- `c54_enc` applies to two different messages and different randomness, and the encoding succeeds. -/
example : Sample.rand3.eph [1] ≠ Sample.rand2.eph [1] ∧ Sample.encMix3 ≠ Sample.encMix2 ∧
    (Sample.encMix2.encode pairC Sample.rand2 true true).isOk = true ∧
    (Sample.encMix3.encode pairC Sample.rand3 true true).map (·.1) = (Sample.encMix2.encode pairC Sample.rand2 true true).map (·.1) := by
  refine ⟨by decide, by decide +kernel, by decide +kernel, c54_enc (m := Sample.encMix2) (m' := Sample.encMix3) Sample.sameRand rfl ?_ (fun _ => rfl) true true⟩
  refine .cons (.mk rfl (by simp) .nil) (.cons (.mk rfl (fun _ => Sample.sameLocal _) .nil) .nil)

/-- The same for a MAC with a key agreement recipient that has a key (only then is the tag computed). -/
def Sample.dkaPeer (oid : Nat) (peer : Key) : Rcpt :=
  .mk .directKeyAgreement
    { phdr := [(.cls Hdr.Algorithm, algCls (-27))], uhdr := [(.cls Hdr.StaticKey, .map Sample.sndPub.store)], payload := some [],
      key := some Sample.sndPriv, localAttrs := [(.cls Hdr.StaticKey, peer.toVal)] } [] oid []
def Sample.macDka (peer : Key) : Mac := { base := { Sample.mac0Aes.base with key := none }, recipients := some [Sample.dkaPeer 1 peer] }

example : Sample.macDka Sample.rcvPriv ≠ Sample.macDka Sample.rcvPub ∧
    ((Sample.macDka Sample.rcvPub).encode pairC Sample.rand2 true true).isOk = true ∧
    ((Sample.macDka Sample.rcvPriv).encode pairC Sample.rand3 true true).map (·.1) =
      ((Sample.macDka Sample.rcvPub).encode pairC Sample.rand2 true true).map (·.1) := by
  refine ⟨by decide +kernel, by decide +kernel, c54_mac (m := Sample.macDka Sample.rcvPub) (m' := Sample.macDka Sample.rcvPriv) Sample.sameRand rfl ?_ (by simp [Sample.macDka]) (fun _ => rfl) true true⟩
  intro rs h
  simp only [Sample.macDka, Option.some.injEq] at h
  subst h
  exact ⟨_, rfl, .cons (.mk rfl (fun _ => Sample.sameLocal _) .nil) .nil⟩

/-- Two keys with the same tag. -/
example : Spec.SameSent Sample.mac0Aes.base { Sample.mac0Aes.base with key := none, aad := b!"z" } := rfl

/-- A message whose sender put a key into the unprotected header. -/
def Sample.withStatic (d : Nat) : Enc0 :=
  { base := { Sample.enc0.base with uhdr := Sample.enc0.base.uhdr ++ [(.cls Hdr.StaticKey, .map (ec2Pub P256 (beBytes 32 9) (beBytes 32 10) ++ [(.cls Ec2D, .bytes (beBytes 32 d))]))] } }

/-- C54 is about keys the library generates: a private key that the caller puts into a header is sent as it is, so messages that
differ only in its private value have different encodings. -/
theorem c54_static_key_sent : ∃ d d' o o', (Sample.withStatic d).encode toy true true = .ok o ∧
    (Sample.withStatic d').encode toy true true = .ok o' ∧ o ≠ o' := by
  obtain ⟨⟨o, o'⟩, h1, h2⟩ := res_any
    (r := do let o ← (Sample.withStatic 5).encode toy true true; let o' ← (Sample.withStatic 6).encode toy true true; .ok (o, o'))
    (p := fun p : Bytes × Bytes => decide (p.1 ≠ p.2)) (by decide +kernel)
  simp only [bind_eq_ok] at h1
  obtain ⟨_, e1, _, e2, h1⟩ := h1
  simp only [Except.ok.injEq, Prod.mk.injEq] at h1
  obtain ⟨rfl, rfl⟩ := h1
  exact ⟨5, 6, _, _, e1, e2, by simpa using h2⟩

end Cose
