import Verif.Props.Keys
import Verif.CborFuel
/-!
# C84: what decoding untrusted bytes can raise
-/

set_option autoImplicit false

namespace Cose

/-! ### Vocabulary -/

/-- The exceptions that the documentation of `CoseMessage.decode` announces. An invalid CBOR item raises `CBORDecodeValueError`, which is a `ValueError`. -/
def Spec.documented : List PyErr := [.attributeError, .valueError, .cborValue, .keyError, .typeError]

/-- What a byte string that is no CBOR item raises: `CBORDecodeEOF`, `CBORDecodeValueError`; `unsupported` stands for tags whose decoding is not modelled. -/
def Spec.cborErrors : List PyErr := [.cborEOF, .cborValue, .unsupported]

/-- What a map or list that is no key raises. -/
def Spec.keyErrors : List PyErr :=
  [.coseException, .unsupportedCurve, .illegalKeyType, .invalidKey, .typeError, .valueError, .attributeError, .keyError, .indexError, .assertionError, .unsupported]

/-- What an array that is no message raises, in addition. -/
def Spec.messageErrors : List PyErr := [.malformedMessage]

/-- What the elliptic curve library raises when it is given a private value or a compressed point of one of the four curves; or, if it answers with a point
that is too large for its curve, `OverflowError`. -/
inductive Spec.PointError (C : Crypto) : PyErr → Prop
  | pub {c : Cls} {len n : Nat} {e : PyErr} : (c, len) ∈ Spec.coordBytes → C.ecPub c n = .error e → PointError C e
  | decompress {c : Cls} {len : Nat} {x : Bytes} {e : PyErr} : (c, len) ∈ Spec.coordBytes → C.ecDecompress c x = .error e → PointError C e
  | size {c : Cls} {len : Nat} {p : Nat × Nat} : (c, len) ∈ Spec.coordBytes → (∃ n, C.ecPub c n = .ok p) ∨ (∃ x, C.ecDecompress c x = .ok p) →
      256 ^ len ≤ p.1 ∨ 256 ^ len ≤ p.2 → PointError C .overflowError

/-! ### Lemmas -/

/-- The call raises nothing but `P`. -/
structure Errs (P : PyErr → Prop) {α : Type} (x : Res α) : Prop where
  get : ∀ e, x = .error e → P e

theorem Errs.ok {P : PyErr → Prop} {α : Type} (a : α) : Errs P (.ok a : Res α) := by
  refine ⟨fun e h => ?_⟩
  cases h

theorem Errs.error {P : PyErr → Prop} {α : Type} {e : PyErr} (h : P e) : Errs P (.error e : Res α) := by
  refine ⟨fun e' h' => ?_⟩
  cases h'
  exact h

theorem Errs.bind {P : PyErr → Prop} {α β : Type} {x : Res α} {f : α → Res β} (hx : Errs P x) (hf : ∀ a, x = .ok a → Errs P (f a)) : Errs P (x >>= f) := by
  refine ⟨fun e h => ?_⟩
  rcases bind_eq_error.mp h with h | ⟨a, h1, h2⟩
  · exact hx.get e h
  · exact (hf a h1).get e h2

theorem Errs.ite {P : PyErr → Prop} {α : Type} {c : Prop} [Decidable c] {x y : Res α} (hx : Errs P x) (hy : Errs P y) : Errs P (if c then x else y) := by
  split <;> assumption

theorem Errs.mono {P Q : PyErr → Prop} {α : Type} {x : Res α} (h : Errs P x) (hpq : ∀ e, P e → Q e) : Errs Q x := ⟨fun e he => hpq e (h.get e he)⟩

abbrev CborErr (e : PyErr) : Prop := e ∈ Spec.cborErrors

theorem readN_errs (n : Nat) (bs : Bytes) : Errs CborErr (readN n bs) := by
  unfold readN
  exact .ite (.ok _) (.error (by decide))

theorem decLen_errs (ai : Nat) (bs : Bytes) : Errs CborErr (decLen ai bs) := by
  unfold decLen
  have := fun n => readN_errs n bs
  refine .ite (.ok _) (.ite (.bind (this _) fun _ _ => .ok _) (.ite (.bind (this _) fun _ _ => .ok _) (.ite (.bind (this _) fun _ _ => .ok _)
    (.ite (.bind (this _) fun _ _ => .ok _) (.error (by decide))))))

/-- Errors of the decoder with its fuel. -/
def FuelErr (e : PyErr) : Prop := e ∈ Spec.cborErrors ∨ e = .recursionError

theorem cbor_fuel {α : Type} {x : Res α} (h : Errs CborErr x) : Errs FuelErr x := h.mono fun _ => .inl

theorem decChunks_errs : ∀ (f mt : Nat) (bs : Bytes), Errs FuelErr (decChunks f mt bs)
  | 0, _, _ => .error (.inr rfl)
  | _ + 1, _, [] => .error (.inl (by decide))
  | f + 1, mt, ib :: t => by
    simp only [decChunks]
    refine .ite (.ok _) (.ite (.bind (cbor_fuel (decLen_errs ..)) fun _ _ => .bind (cbor_fuel (readN_errs ..)) fun _ _ => .ite (.error (.inl (by decide)))
      (.bind (decChunks_errs f mt _) fun _ _ => .ok _)) (.error (.inl (by decide))))

theorem decSpecial_errs (ai : Nat) (t : Bytes) : Errs CborErr (decSpecial ai t) := by
  unfold decSpecial
  have := fun n => readN_errs n t
  refine .ite (.ok _) (.ite (.ok _) (.ite (.ok _) (.ite (.ok _) (.ite (.ok _) (.ite (.bind (this _) fun _ _ => ?_) (.ite (.bind (this _) fun _ _ => .ok _)
    (.ite (.bind (this _) fun _ _ => .ok _) (.ite (.bind (this _) fun _ _ => .ok _) (.error (by decide))))))))))
  exact .ite (.error (by decide)) (.ok _)

theorem dec_errs (f : Nat) : (∀ bs, Errs FuelErr (dec f bs)) ∧ (∀ n bs, Errs FuelErr (decArr f n bs)) ∧ (∀ bs, Errs FuelErr (decArrInf f bs)) ∧
    (∀ n bs, Errs FuelErr (decMap f n bs)) ∧ ∀ bs, Errs FuelErr (decMapInf f bs) := by
  induction f with
  | zero =>
    refine ⟨?_, ?_, ?_, ?_, ?_⟩ <;> intros <;> simp only [dec, decArr, decArrInf, decMap, decMapInf] <;> exact .error (.inr rfl)
  | succ f ih =>
    obtain ⟨h1, h2, h3, h4, h5⟩ := ih
    have hl := fun a b => cbor_fuel (decLen_errs a b)
    have hr := fun a b => cbor_fuel (readN_errs a b)
    refine ⟨?_, ?_, ?_, ?_, ?_⟩
    · intro bs
      cases bs with
      | nil => simp only [dec]; exact .error (.inl (by decide))
      | cons ib t =>
        simp only [dec]
        refine .ite (.bind (hl ..) fun _ _ => .ok _) (.ite (.bind (hl ..) fun _ _ => .ok _) (.ite (.ite ?_ ?_) (.ite (.ite ?_ ?_) (.ite (.ite ?_ ?_)
          (.ite (.ite ?_ ?_) (.ite ?_ (cbor_fuel (decSpecial_errs ..))))))))
        · exact .bind (decChunks_errs ..) fun _ _ => .ok _
        · exact .bind (hl ..) fun _ _ => .bind (hr ..) fun _ _ => .ok _
        · exact .bind (decChunks_errs ..) fun _ _ => .ok _
        · exact .bind (hl ..) fun _ _ => .bind (hr ..) fun _ _ => .ite (.ok _) (.error (.inl (by decide)))
        · exact .bind (h3 _) fun _ _ => .ok _
        · exact .bind (hl ..) fun _ _ => .bind (h2 ..) fun _ _ => .ok _
        · exact .bind (h5 _) fun _ _ => .ok _
        · exact .bind (hl ..) fun _ _ => .bind (h4 ..) fun _ _ => .ok _
        · exact .bind (hl ..) fun _ _ => .bind (h1 _) fun _ _ => .ok _
    · intro n bs
      cases n with
      | zero => simp only [decArr]; exact .ok _
      | succ n => simp only [decArr]; exact .bind (h1 _) fun _ _ => .bind (h2 ..) fun _ _ => .ok _
    · intro bs
      simp only [decArrInf]
      exact .ite (.ok _) (.bind (h1 _) fun _ _ => .bind (h3 _) fun _ _ => .ok _)
    · intro n bs
      cases n with
      | zero => simp only [decMap]; exact .ok _
      | succ n => simp only [decMap]; exact .bind (h1 _) fun _ _ => .bind (h1 _) fun _ _ => .bind (h4 ..) fun _ _ => .ok _
    · intro bs
      simp only [decMapInf]
      exact .ite (.ok _) (.bind (h1 _) fun _ _ => .bind (h1 _) fun _ _ => .bind (h5 _) fun _ _ => .ok _)

theorem mkTag_errs (n : Nat) (v : Val) : Errs CborErr (mkTag n v) := by
  unfold mkTag
  refine .ite ?_ (.ite ?_ (.ite (.ok _) (.ite (.error (by decide)) (.ok _))))
  · split
    · exact .ok _
    · exact .error (by decide)
  · split
    · exact .ok _
    · exact .error (by decide)

mutual
theorem interp_errs (v : Val) : Errs CborErr (interp v) := by
  match v with
  | .arr l => simp only [interp]; exact .bind (interpL_errs l) fun _ _ => .ok _
  | .map l => simp only [interp]; exact .bind (interpP_errs l) fun _ _ => .ok _
  | .tag n v => simp only [interp]; exact .bind (interp_errs v) fun _ _ => mkTag_errs ..
  | .none | .undef | .bool _ | .simple _ | .int _ | .float _ | .bytes _ | .text _ | .cls _ | .key _ _ => exact .ok _
termination_by structural v
theorem interpL_errs (l : List Val) : Errs CborErr (interpL l) := by
  match l with
  | [] => exact .ok _
  | v :: t => simp only [interpL]; exact .bind (interp_errs v) fun _ _ => .bind (interpL_errs t) fun _ _ => .ok _
termination_by structural l
theorem interpP_errs (l : List (Val × Val)) : Errs CborErr (interpP l) := by
  match l with
  | [] => exact .ok _
  | p :: t => simp only [interpP]; exact .bind (interpQ_errs p) fun _ _ => .bind (interpP_errs t) fun _ _ => .ok _
termination_by structural l
theorem interpQ_errs (p : Val × Val) : Errs CborErr (interpQ p) := by
  match p with
  | (k, v) => simp only [interpQ]; exact .bind (interp_errs k) fun _ _ => .bind (interp_errs v) fun _ _ => .ok _
termination_by structural p
end

theorem loads_errs (b : Bytes) : Errs CborErr (loads b) := by
  refine .bind ⟨fun e h => ?_⟩ fun _ _ => interp_errs _
  rcases ((dec_errs _).1 b).get e h with h' | rfl
  · exact h'
  · exact absurd h (decodeItem_fuel b)

/-! ### Keys -/

def KeyErr (C : Crypto) (e : PyErr) : Prop := e ∈ Spec.keyErrors ∨ Spec.PointError C e

theorem key_err {C : Crypto} {α : Type} {e : PyErr} (h : e ∈ Spec.keyErrors) : Errs (KeyErr C) (.error e : Res α) := .error (.inl h)

mutual
theorem fromId_errs (r : Reg) (v : Val) : Errs (· = .coseException) (fromId r v) := by
  match v with
  | .arr l => simp only [fromId]; exact .bind (fromIdL_errs r l) fun _ _ => .ok _
  | .none | .undef | .bool _ | .simple _ | .int _ | .float _ | .bytes _ | .text _ | .map _ | .tag _ _ | .cls _ | .key _ _ =>
    simp only [fromId]
    split
    · exact .ok _
    · exact .error rfl
termination_by structural v
theorem fromIdL_errs (r : Reg) (l : List Val) : Errs (· = .coseException) (fromIdL r l) := by
  match l with
  | [] => exact .ok _
  | v :: t => simp only [fromIdL]; exact .bind (fromId_errs r v) fun _ _ => .bind (fromIdL_errs r t) fun _ _ => .ok _
termination_by structural l
end

theorem fromId_key (C : Crypto) (r : Reg) (v : Val) : Errs (KeyErr C) (fromId r v) := (fromId_errs r v).mono fun e h => by
  subst h
  exact .inl (by decide)

theorem fromIdKey_key (C : Crypto) (r : Reg) (v : Val) (allow : Bool) : Errs (KeyErr C) (fromIdKey r v allow) := by
  unfold fromIdKey
  split
  · exact .ok _
  · exact .ite (.ok _) (key_err (by decide))

theorem simpleParser_errs (C : Crypto) (c : Cls) (v : Val) : Errs (KeyErr C) (simpleParser c v) := by
  unfold simpleParser
  split
  · refine .ite (fromId_key ..) (.ite ?_ (.ite ?_ (.ite ?_ (.ite (key_err (by decide)) (.ok _)))))
    · unfold critIsArray
      split
      · exact .ite (key_err (by decide)) (.ok _)
      · exact key_err (by decide)
    · unfold contentType
      split
      · exact .ite (key_err (by decide)) (.ok _)
      · exact .ok _
      · exact .ok _
      · exact key_err (by decide)
    · unfold isBstr
      split
      · exact .ok _
      · exact key_err (by decide)
  · exact .ite (fromId_key ..) (.ite (fromId_key ..) (.ite (fromId_key ..) (.ok _)))
  · exact .ite (fromId_key ..) (.ok _)
  · exact .ite (fromId_key ..) (.ok _)
  · exact .ok _

theorem parseAttrs_errs {C : Crypto} {r : Reg} {allow : Bool} {parse : Cls → Val → Res Val} (hp : ∀ c v, Errs (KeyErr C) (parse c v)) :
    ∀ (acc d : Dict), Errs (KeyErr C) (parseAttrs r allow parse acc d)
  | _, [] => .ok _
  | acc, (k, v) :: t => by
    simp only [parseAttrs]
    refine .bind (fromIdKey_key ..) fun a _ => ?_
    split
    · exact .bind (hp ..) fun _ _ => parseAttrs_errs hp _ t
    · exact parseAttrs_errs hp _ t

theorem lenOf_errs (C : Crypto) (v : Val) : Errs (KeyErr C) (lenOf v) := by
  unfold lenOf
  split <;> first | exact .ok _ | exact key_err (by decide)

theorem initStore_errs (C : Crypto) (k : Kind) (opt : Dict) (allow : Bool) : Errs (KeyErr C) (initStore k opt allow) := by
  unfold initStore
  refine .bind (parseAttrs_errs (simpleParser_errs C) _ _) fun t _ => .ite (key_err (by decide)) ?_
  split
  · exact .ok _
  · exact .bind (lenOf_errs ..) fun _ _ => .ite (.ok _) (.ok _)

theorem setBytes_errs (C : Crypto) (s : Dict) (c : Cls) (v : Val) : Errs (KeyErr C) (setBytes .typeError s c v) := by
  unfold setBytes
  split
  · exact .ok _
  · exact key_err (by decide)

theorem setIfNonEmpty_errs (C : Crypto) (s : Dict) (c : Cls) (v : Val) : Errs (KeyErr C) (setIfNonEmpty s c v) :=
  .ite (.ok _) (setBytes_errs ..)

theorem symInit_errs (C : Crypto) (k : Val) (opt : Dict) (allow : Bool) : Errs (KeyErr C) (symInit k opt allow) := by
  unfold symInit
  refine .bind (initStore_errs ..) fun s _ => .ite (key_err (by decide)) (.bind ?_ fun _ _ => .ok _)
  unfold setSymK
  split
  · exact .ite (.ok _) (key_err (by decide))
  · exact key_err (by decide)

theorem parseCrv_errs (C : Crypto) (kty : Cls) (v : Val) : Errs (KeyErr C) (parseCrv kty v) := by
  unfold parseCrv
  refine .bind (fromId_key ..) fun a _ => ?_
  split
  · exact .ite (.ok _) (key_err (by decide))
  · exact key_err (by decide)

theorem checkOrDerive_errs (C : Crypto) (v : Val) (b : Bytes) : Errs (KeyErr C) (checkOrDerive v b) :=
  .ite (.ite (.ok _) (key_err (by decide))) (.ok _)

theorem bytesOfL_errs (C : Crypto) : ∀ l : List Val, Errs (KeyErr C) (bytesOfL l)
  | [] => .ok _
  | v :: t => by
    simp only [bytesOfL]
    refine .bind ?_ fun _ _ => .bind (bytesOfL_errs C t) fun _ _ => .ok _
    unfold byteOf
    split
    · exact .ite (.ok _) (key_err (by decide))
    · exact .ok _
    · exact key_err (by decide)

theorem intFromBytes_errs (C : Crypto) (v : Val) : Errs (KeyErr C) (intFromBytes v) := by
  unfold intFromBytes
  split
  · exact .ok _
  · exact .bind (bytesOfL_errs ..) fun _ _ => .ok _
  · exact .bind (bytesOfL_errs ..) fun _ _ => .ok _
  · exact key_err (by decide)

theorem toBytes_errs {C : Crypto} {c : Cls} {p : Nat × Nat} (hc : (c, crvSize c) ∈ Spec.coordBytes) (h : (∃ n, C.ecPub c n = .ok p) ∨ (∃ x, C.ecDecompress c x = .ok p)) :
    Errs (KeyErr C) (toBytes p.1 (crvSize c)) ∧ Errs (KeyErr C) (toBytes p.2 (crvSize c)) := by
  constructor
  · refine ⟨fun e he => ?_⟩
    simp only [toBytes] at he
    split at he
    · cases he
    · cases he
      exact .inr (.size hc h (.inl (by omega)))
  · refine ⟨fun e he => ?_⟩
    simp only [toBytes] at he
    split at he
    · cases he
    · cases he
      exact .inr (.size hc h (.inr (by omega)))

theorem ec2Init_errs (C : Crypto) (crv x y d : Val) (opt : Dict) (allow : Bool) : Errs (KeyErr C) (ec2Init C crv x y d opt allow) := by
  unfold ec2Init
  refine .bind (initStore_errs ..) fun s _ => .ite (key_err (by decide)) (.bind (parseCrv_errs ..) fun c hc => .ite (key_err (by decide))
    (.ite (key_err (by decide)) ?_))
  have hc := coordBytes_mem (parseCrv_ok hc).1
  have hend : ∀ x y : Val, Errs (KeyErr C) (do
      let s ← setIfNonEmpty (dset s (.cls Ec2Crv) (.cls c)) Ec2X x
      let s ← setIfNonEmpty s Ec2Y y
      let s ← setIfNonEmpty s Ec2D d
      Except.ok { kind := .ec2, store := s : Key }) := fun x y =>
    .bind (setIfNonEmpty_errs ..) fun _ _ => .bind (setIfNonEmpty_errs ..) fun _ _ => .bind (setIfNonEmpty_errs ..) fun _ _ => .ok _
  dsimp only
  have hmid : ∀ x y : Val, Errs (KeyErr C) (if truthy x = true ∧ truthy y = false then
      match x with
      | .bytes xb => do
        let __x ← C.ecDecompress c xb
        match __x with
          | (px, py) => do
            let bx ← toBytes px (crvSize c)
            if xb = bx then do
                let bY ← toBytes py (crvSize c)
                let y ← Except.ok (Val.bytes bY)
                let s ← setIfNonEmpty (dset s (.cls Ec2Crv) (.cls c)) Ec2X x
                let s ← setIfNonEmpty s Ec2Y y
                let s ← setIfNonEmpty s Ec2D d
                Except.ok { kind := .ec2, store := s : Key }
              else do
                let y ← Except.error PyErr.assertionError
                let s ← setIfNonEmpty (dset s (.cls Ec2Crv) (.cls c)) Ec2X x
                let s ← setIfNonEmpty s Ec2Y y
                let s ← setIfNonEmpty s Ec2D d
                Except.ok { kind := .ec2, store := s : Key }
      | _ => do
        let y ← Except.error PyErr.typeError
        let s ← setIfNonEmpty (dset s (.cls Ec2Crv) (.cls c)) Ec2X x
        let s ← setIfNonEmpty s Ec2Y y
        let s ← setIfNonEmpty s Ec2D d
        Except.ok { kind := .ec2, store := s : Key }
    else do
      let y ← Except.ok y
      let s ← setIfNonEmpty (dset s (.cls Ec2Crv) (.cls c)) Ec2X x
      let s ← setIfNonEmpty s Ec2Y y
      let s ← setIfNonEmpty s Ec2D d
      Except.ok { kind := .ec2, store := s : Key }) := by
    intro x y
    refine .ite ?_ (.bind (.ok _) fun _ _ => hend ..)
    split
    · rename_i xb
      refine .bind ⟨fun e h => .inr (.decompress hc h)⟩ fun p hp => ?_
      have := toBytes_errs hc (.inr ⟨xb, hp⟩)
      exact .bind this.1 fun _ _ => .ite (.bind this.2 fun _ _ => .bind (.ok _) fun _ _ => hend ..) (.bind (key_err (by decide)) fun _ _ => hend ..)
    · exact .bind (key_err (by decide)) fun _ _ => hend ..
  refine .ite (.bind (intFromBytes_errs ..) fun n _ => .bind ⟨fun e h => .inr (.pub hc h)⟩ fun p hp => ?_) (.bind (.ok _) fun _ _ => hmid ..)
  have := toBytes_errs hc (.inl ⟨n, hp⟩)
  exact .bind this.1 fun _ _ => .bind (checkOrDerive_errs ..) fun _ _ => .bind this.2 fun _ _ => .bind (checkOrDerive_errs ..) fun _ _ =>
    .bind (.ok _) fun _ _ => hmid ..

theorem okpInit_errs (C : Crypto) (crv x d : Val) (opt : Dict) (allow : Bool) : Errs (KeyErr C) (okpInit crv x d opt allow) := by
  unfold okpInit
  refine .bind (initStore_errs ..) fun s _ => .bind (lenOf_errs ..) fun _ _ => ?_
  have hend : ∀ b : Bool, Errs (KeyErr C) (if b = true then Except.error .invalidKey else if crv = .none then Except.error .invalidKey else do
      let c ← parseCrv KtyOKP crv
      let s ← setIfNonEmpty (dset s (.cls OkpCrv) (.cls c)) OkpX x
      let s ← setIfNonEmpty s OkpD d
      Except.ok { kind := .okp, store := s : Key }) := fun b =>
    .ite (key_err (by decide)) (.ite (key_err (by decide)) (.bind (parseCrv_errs ..) fun _ _ => .bind (setIfNonEmpty_errs ..) fun _ _ =>
      .bind (setIfNonEmpty_errs ..) fun _ _ => .ok _))
  exact .ite (.bind (lenOf_errs ..) fun _ _ => .bind (.ok _) fun _ _ => hend _) (.bind (.ok _) fun _ _ => hend _)

theorem allLen_errs (C : Crypto) (z : Bool) : ∀ l : List Val, Errs (KeyErr C) (allLen z l)
  | [] => .ok _
  | v :: t => by
    simp only [allLen]
    exact .bind (lenOf_errs ..) fun _ _ => .ite (allLen_errs C z t) (.ok _)

theorem rsaValid_errs (C : Crypto) (a : RsaArgs) : Errs (KeyErr C) (rsaValid a) := by
  unfold rsaValid
  repeat' first | exact .ok _ | exact allLen_errs .. | exact lenOf_errs .. | refine .ite ?_ ?_ | refine .bind ?_ fun _ _ => ?_ | dsimp only

theorem rsaInit_errs (C : Crypto) (a : RsaArgs) (opt : Dict) (allow : Bool) : Errs (KeyErr C) (rsaInit a opt allow) := by
  unfold rsaInit
  refine .bind (rsaValid_errs ..) fun _ _ => .ite (key_err (by decide)) (.bind (initStore_errs ..) fun _ _ => .bind (setBytes_errs ..) fun _ _ =>
    .bind (setBytes_errs ..) fun _ _ => .bind (setIfNonEmpty_errs ..) fun _ _ => .bind (setIfNonEmpty_errs ..) fun _ _ => .bind (setIfNonEmpty_errs ..) fun _ _ =>
    .bind (setIfNonEmpty_errs ..) fun _ _ => .bind (setIfNonEmpty_errs ..) fun _ _ => .bind (setIfNonEmpty_errs ..) fun _ _ => .ok _)

theorem ktyLookup_errs (C : Crypto) (v : Val) : Errs (KeyErr C) (ktyLookup v) := by
  unfold ktyLookup
  split
  · exact key_err (by decide)
  · exact key_err (by decide)
  · exact key_err (by decide)
  · exact .ite (key_err (by decide)) (key_err (by decide))
  · exact .ite (.ok _) (.ite (.ok _) (.ite (.ok _) (.ite (.ok _) (key_err (by decide)))))

theorem fromDict_errs (C : Crypto) (d : Dict) : Errs (KeyErr C) (fromDict C d) := by
  have hk : ∀ k, Errs (KeyErr C) (kindFromDict C k d) := by
    intro k
    cases k
    · exact symInit_errs ..
    · exact ec2Init_errs ..
    · exact okpInit_errs ..
    · exact rsaInit_errs ..
  have hb : ∀ v, Errs (KeyErr C) (do let k ← ktyLookup v; kindFromDict C k d) := fun v => .bind (ktyLookup_errs ..) fun _ _ => hk _
  unfold fromDict
  split
  · exact hb _
  · split
    · exact hb _
    · split
      · exact hb _
      · exact key_err (by decide)

theorem listExtracts_errs (C : Crypto) (l : List Val) : ∀ cs, Errs (KeyErr C) (listExtracts l cs)
  | [] => .ok _
  | c :: t => by
    simp only [listExtracts]
    refine .bind ?_ fun _ _ => listExtracts_errs C l t
    unfold listExtract
    exact .ite (key_err (by decide)) (.ite (.ite (.ok _) (key_err (by decide))) (.ite (key_err (by decide)) (.ok _)))

theorem pairRefused_err {v : Val} {e : PyErr} (h : pairRefused v = some e) : e = .typeError ∨ e = .valueError := by
  unfold pairRefused at h
  split at h <;> grind

theorem fromList_errs (C : Crypto) (l : List Val) : Errs (KeyErr C) (fromList l) := by
  unfold fromList
  refine .ite (key_err (by decide)) (.ite ?_ (.ite (key_err (by decide)) (key_err (by decide))))
  split
  · refine .bind (ktyLookup_errs ..) fun _ _ => .bind (listExtracts_errs ..) fun _ _ => ?_
    split
    · rename_i e he
      obtain ⟨v, _, hv⟩ := List.exists_of_findSome?_eq_some he
      rcases pairRefused_err hv with rfl | rfl <;> exact key_err (by decide)
    · exact key_err (by decide)
  · exact key_err (by decide)

theorem fromDictVal_errs (C : Crypto) (v : Val) : Errs (KeyErr C) (fromDictVal C v) := by
  unfold fromDictVal
  split
  · exact fromDict_errs ..
  · exact fromDict_errs ..
  · exact fromList_errs ..
  · exact key_err (by decide)

/-! ### Messages -/

def MsgErr (C : Crypto) (e : PyErr) : Prop := e ∈ Spec.cborErrors ++ Spec.keyErrors ++ Spec.messageErrors ∨ Spec.PointError C e

theorem msg_err {C : Crypto} {α : Type} {e : PyErr} (h : e ∈ Spec.cborErrors ++ Spec.keyErrors ++ Spec.messageErrors) : Errs (MsgErr C) (.error e : Res α) :=
  .error (.inl h)

theorem msg_key {C : Crypto} {α : Type} {x : Res α} (h : Errs (KeyErr C) x) : Errs (MsgErr C) x := h.mono fun e he => by
  rcases he with h | h
  · exact .inl (List.mem_append_left _ (List.mem_append_right _ h))
  · exact .inr h

theorem msg_cbor {C : Crypto} {α : Type} {x : Res α} (h : Errs CborErr x) : Errs (MsgErr C) x :=
  h.mono fun _ he => .inl (List.mem_append_left _ (List.mem_append_left _ he))

theorem parseHeader_errs (C : Crypto) (allow : Bool) (d : Dict) : Errs (MsgErr C) (parseHeader C allow d) := by
  refine msg_key (parseAttrs_errs (fun c v => ?_) _ _)
  unfold hdrParser
  exact .ite (.bind (fromDictVal_errs ..) fun _ _ => .ok _) (simpleParser_errs ..)

theorem loadsVal_errs (C : Crypto) (v : Val) : Errs (MsgErr C) (loadsVal v) := by
  unfold loadsVal
  split
  · exact msg_cbor (loads_errs _)
  · exact msg_cbor (loads_errs _)
  · exact msg_err (by decide)

theorem asDict_errs (C : Crypto) (v : Val) : Errs (MsgErr C) (asDict v) := by
  unfold asDict
  split
  · exact .ok _
  · exact msg_err (by decide)

theorem initBase_errs (C : Crypto) (a : HdrArgs) : Errs (MsgErr C) (initBase C a) := by
  unfold initBase
  refine .ite (msg_err (by decide)) ?_
  repeat' first
    | exact .ok _
    | exact msg_err (by decide)
    | exact loadsVal_errs ..
    | exact asDict_errs ..
    | exact parseHeader_errs ..
    | refine .ite ?_ ?_
    | refine .bind ?_ fun _ _ => ?_
    | dsimp only
    | split

theorem setPayload_errs (C : Crypto) (b : Base) (v : Val) : Errs (MsgErr C) (b.setPayload v) := by
  unfold Base.setPayload
  split
  · exact .ok _
  · exact .ok _
  · exact msg_err (by decide)

theorem pop0_errs (C : Crypto) (l : List Val) : Errs (MsgErr C) (pop0 l) := by
  cases l
  · exact msg_err (by decide)
  · exact .ok _

theorem baseFromObj_errs (C : Crypto) (l : List Val) (allow : Bool) : Errs (MsgErr C) (baseFromObj C l allow) := by
  unfold baseFromObj
  exact .bind (pop0_errs ..) fun _ _ => .bind (pop0_errs ..) fun _ _ => .bind (.bind (initBase_errs ..) fun _ _ => .bind (setPayload_errs ..) fun _ _ =>
    .bind (.ok _) fun _ _ => .ok _) fun _ _ => .bind (pop0_errs ..) fun _ _ => .bind (setPayload_errs ..) fun _ _ => .ok _

theorem getAttr_errs (C : Crypto) (b : Base) (c : Cls) : Errs (MsgErr C) (b.getAttr c) := by
  unfold Base.getAttr Base.getAttrD
  exact .ite (msg_err (by decide)) (.ite (.ok _) (.ok _))

theorem inSet_errs (C : Crypto) (v : Val) (s : List Int) : Errs (MsgErr C) (inSet v s) := by
  unfold inSet
  split <;> first | exact .ok _ | exact msg_err (by decide) | exact .ite (.ok _) (msg_err (by decide))

theorem rcptItem_errs (C : Crypto) (v : Val) (i : Nat) : Errs (MsgErr C) (rcptItem v i) := by
  unfold rcptItem
  split
  · split
    · exact .ok _
    · exact msg_err (by decide)
  · split
    · exact .ok _
    · exact msg_err (by decide)
  · split
    · exact .ok _
    · exact msg_err (by decide)
  · exact .ite (msg_err (by decide)) (.ok _)
  · exact msg_err (by decide)

theorem parseHeaderVal_errs (C : Crypto) (allow : Bool) (v : Val) : Errs (MsgErr C) (parseHeaderVal C allow v) := by
  unfold parseHeaderVal
  split
  · exact parseHeader_errs ..
  · exact msg_err (by decide)

theorem rcptClass_errs (C : Crypto) (v : Val) : Errs (MsgErr C) (rcptClass v) := by
  unfold rcptClass
  split
  · exact .ite (.ite (.ok _) (.ite (.ok _) (.ite (.ok _) (.ite (.ok _) (msg_err (by decide)))))) (msg_err (by decide))
  · exact msg_err (by decide)
  · exact msg_err (by decide)

theorem rcptFromObj_errs (C : Crypto) (cls : RCls) (obj : Val) (allow : Bool) (ctx : Bytes) (oid : Nat) :
    Errs (MsgErr C) (rcptFromObj C cls obj allow ctx oid) := by
  unfold rcptFromObj
  split
  · refine .bind (baseFromObj_errs ..) fun _ _ => ?_
    cases cls
    · exact .ite (msg_err (by decide)) (.bind (getAttr_errs ..) fun _ _ => .ite (msg_err (by decide)) (.ok _))
    · exact .bind (getAttr_errs ..) fun _ _ => .bind (inSet_errs ..) fun _ _ => .ite (msg_err (by decide)) (.ite (msg_err (by decide)) (.ok _))
    · refine .bind (getAttr_errs ..) fun _ _ => .bind (inSet_errs ..) fun _ _ => ?_
      repeat' first
        | exact .ok _
        | exact msg_err (by decide)
        | exact getAttr_errs ..
        | refine .ite ?_ ?_
        | refine .bind ?_ fun _ _ => ?_
        | dsimp only
    · exact .ite (msg_err (by decide)) (.ok _)
  · exact msg_err (by decide)

theorem createRecipient_errs (C : Crypto) (allow : Bool) (ctx : Bytes) (oid : Nat) (r : Val) : Errs (MsgErr C) (createRecipient C allow ctx oid r) := by
  unfold createRecipient
  refine .bind (rcptItem_errs ..) fun _ _ => ?_
  repeat' first
    | exact .ok _
    | exact msg_err (by decide)
    | exact loadsVal_errs ..
    | exact parseHeaderVal_errs ..
    | exact rcptItem_errs ..
    | exact rcptClass_errs ..
    | exact rcptFromObj_errs ..
    | refine .ite ?_ ?_
    | refine .bind ?_ fun _ _ => ?_
    | dsimp only

theorem createRecipients_errs (C : Crypto) (allow : Bool) (ctx : Bytes) : ∀ (i : Nat) (l : List Val), Errs (MsgErr C) (createRecipients C allow ctx i l)
  | _, [] => .ok _
  | i, v :: t => by
    simp only [createRecipients]
    exact .bind (createRecipient_errs ..) fun _ _ => .bind (createRecipients_errs C allow ctx _ t) fun _ _ => .ok _

theorem recipientsOf_errs (C : Crypto) (allow : Bool) (ctx : Bytes) (l : List Val) : Errs (MsgErr C) (recipientsOf C allow ctx l) := by
  unfold recipientsOf
  refine .bind (pop0_errs ..) fun _ _ => .bind ?_ fun _ _ => createRecipients_errs ..
  unfold iterRecipients
  split <;> first | exact .ok _ | exact msg_err (by decide) | skip
  unfold labelRecipient
  split <;> exact msg_err (by decide)

theorem signersFromObj_errs (C : Crypto) (allow : Bool) : ∀ l : List Val, Errs (MsgErr C) (signersFromObj C allow l)
  | [] => .ok _
  | v :: t => by
    simp only [signersFromObj]
    refine .bind ?_ fun _ _ => .bind (signersFromObj_errs C allow t) fun _ _ => .ok _
    unfold signerFromObj
    split
    · exact .bind (baseFromObj_errs ..) fun _ _ => .ok _
    · exact msg_err (by decide)
    · exact msg_err (by decide)

theorem fromObj_errs (C : Crypto) (k : MsgKind) (l : List Val) (allow : Bool) : Errs (MsgErr C) (fromObj C k l allow) := by
  cases k
  · exact .bind (.bind (baseFromObj_errs ..) fun _ _ => .ok _) fun _ _ => .ok _
  · exact .bind (.bind (baseFromObj_errs ..) fun _ _ => .bind (pop0_errs ..) fun _ _ => .ok _) fun _ _ => .ok _
  · exact .bind (.bind (baseFromObj_errs ..) fun _ _ => .bind (pop0_errs ..) fun _ _ => .ok _) fun _ _ => .ok _
  · refine .bind (.bind (baseFromObj_errs ..) fun b _ => ?_) fun _ _ => .ok _
    have := recipientsOf_errs C allow b!"Enc_Recipient" b.2
    dsimp only
    cases h : recipientsOf C allow b!"Enc_Recipient" b.2 with
    | ok rs => exact .ok _
    | error e => exact .ite (.ok _) (.error (this.get e h))
  · refine .bind (.bind (baseFromObj_errs ..) fun b _ => .bind (pop0_errs ..) fun t _ => ?_) fun _ _ => .ok _
    have := recipientsOf_errs C allow b!"Mac_Recipient" t.2
    dsimp only
    cases h : recipientsOf C allow b!"Mac_Recipient" t.2 with
    | ok rs => exact .ok _
    | error e => exact .ite (.ok _) (.error (this.get e h))
  · refine .bind (.bind (baseFromObj_errs ..) fun b _ => .bind (pop0_errs ..) fun t _ => .bind ?_ fun _ _ => .bind (signersFromObj_errs ..) fun _ _ => .ok _)
      fun _ _ => .ok _
    unfold iterSigners
    split <;> first | exact .ok _ | exact msg_err (by decide)

theorem decode_errs (C : Crypto) (cls : DecCls) (allow : Bool) (b : Bytes) : Errs (MsgErr C) (decode C cls allow b) := by
  unfold decode
  have := loads_errs b
  dsimp only
  cases h : loads b with
  | ok v =>
    refine .bind (.ok _) fun v _ => ?_
    split
    · split
      · exact msg_err (by decide)
      · exact .bind (fromObj_errs ..) fun _ _ => .ite (.ok _) (msg_err (by decide))
    · exact msg_err (by decide)
    · exact msg_err (by decide)
  | error e =>
    dsimp only
    split
    · exact msg_err (by decide)
    · split
      · exact msg_err (by decide)
      · exact msg_cbor (.error (this.get e h))

/-! ### Truncated input -/

/-- What `F` reads from the beginning of a byte string, `F'` reads from every prefix that contains it; from shorter prefixes it runs out of data. (`F` and `F'`
are the same reader with different fuel.) -/
structure Reads {α : Type} (F F' : Bytes → Res (α × Bytes)) : Prop where
  le : ∀ b a r, F b = .ok (a, r) → r.length ≤ b.length
  get : ∀ p q a r, F (p ++ q) = .ok (a, r) →
    F' p = .error .recursionError ∨ (r.length < q.length ∧ F' p = .error .cborEOF) ∨ ∃ r', r = r' ++ q ∧ F' p = .ok (a, r')

theorem Reads.ret {α : Type} (a : α) : Reads (fun bs => .ok (a, bs)) (fun bs => .ok (a, bs)) := by
  refine ⟨fun b a' r h => ?_, fun p q a' r h => ?_⟩
  · cases h
    exact Nat.le_refl _
  · cases h
    exact .inr (.inr ⟨p, rfl, rfl⟩)

theorem Reads.fail {α : Type} (e : PyErr) : Reads (α := α) (fun _ => .error e) (fun _ => .error e) := by
  refine ⟨fun b a' r h => ?_, fun p q a' r h => ?_⟩ <;> cases h

theorem Reads.bind {α β : Type} {F F' : Bytes → Res (α × Bytes)} {G G' : α → Bytes → Res (β × Bytes)} (hf : Reads F F') (hg : ∀ a, Reads (G a) (G' a)) :
    Reads (fun bs => F bs >>= fun x => G x.1 x.2) (fun bs => F' bs >>= fun x => G' x.1 x.2) := by
  refine ⟨fun b a r h => ?_, fun p q b r h => ?_⟩
  · obtain ⟨⟨a, r1⟩, h1, h2⟩ := bind_eq_ok.mp h
    exact Nat.le_trans ((hg _).le _ _ _ h2) (hf.le _ _ _ h1)
  · obtain ⟨⟨a, r1⟩, h1, h2⟩ := bind_eq_ok.mp h
    rcases hf.get _ _ _ _ h1 with h' | ⟨hl, h'⟩ | ⟨r', rfl, h'⟩
    · exact .inl (by simp only [h', error_bind])
    · have := (hg _).le _ _ _ h2
      exact .inr (.inl ⟨Nat.lt_of_le_of_lt this hl, by simp only [h', error_bind]⟩)
    · rcases (hg a).get _ _ _ _ h2 with h3 | ⟨hl, h3⟩ | ⟨r2, h4, h3⟩
      · exact .inl (by simp only [h', ok_bind, h3])
      · exact .inr (.inl ⟨hl, by simp only [h', ok_bind, h3]⟩)
      · exact .inr (.inr ⟨r2, h4, by simp only [h', ok_bind, h3]⟩)

theorem Reads.ite {α : Type} {c : Prop} [Decidable c] {F F' G G' : Bytes → Res (α × Bytes)} (hf : Reads F F') (hg : Reads G G') :
    Reads (fun bs => if c then F bs else G bs) (fun bs => if c then F' bs else G' bs) := by
  by_cases h : c
  · simpa only [h, if_true] using hf
  · simpa only [h, if_false] using hg

theorem readN_reads (n : Nat) : Reads (readN n) (readN n) := by
  refine ⟨fun b a r h => ?_, fun p q a r h => ?_⟩
  · unfold readN at h
    split at h
    · cases h
      simp
    · cases h
  · unfold readN at h ⊢
    split at h
    · rename_i hn
      cases h
      by_cases hp : n ≤ p.length
      · refine .inr (.inr ⟨p.drop n, ?_, ?_⟩)
        · rw [List.drop_append_of_le_length hp]
        · rw [if_pos hp, List.take_append_of_le_length hp]
      · refine .inr (.inl ⟨?_, if_neg hp⟩)
        simp at hn ⊢
        omega
    · cases h

theorem decLen_reads (ai : Nat) : Reads (decLen ai) (decLen ai) := by
  unfold decLen
  exact .ite (.ret _) (.ite (.bind (readN_reads _) fun _ => .ret _) (.ite (.bind (readN_reads _) fun _ => .ret _) (.ite (.bind (readN_reads _) fun _ => .ret _)
    (.ite (.bind (readN_reads _) fun _ => .ret _) (.fail _)))))

theorem decSpecial_reads (ai : Nat) : Reads (decSpecial ai) (decSpecial ai) := by
  unfold decSpecial
  dsimp only
  refine .ite (.ret _) (.ite (.ret _) (.ite (.ret _) (.ite (.ret _) (.ite (.ret _) (.ite ?_ (.ite ?_ (.ite ?_ (.ite ?_ (.fail _)))))))))
  · exact .bind (readN_reads _) fun x => .ite (c := natOfBytes x < 32) (.fail _) (.ret (Val.simple (natOfBytes x)))
  · exact .bind (readN_reads _) fun x => .ret (Val.float (widen 5 10 (natOfBytes x)))
  · exact .bind (readN_reads _) fun x => .ret (Val.float (widen 8 23 (natOfBytes x)))
  · exact .bind (readN_reads _) fun x => .ret (Val.float (if floatNaN (natOfBytes x) then nanBits else natOfBytes x))

/-- A reader that looks at the first byte. -/
theorem Reads.cons {α : Type} {F F' : Bytes → Res (α × Bytes)} (hn : ∀ x, F [] ≠ .ok x) (hnil : F' [] = .error .recursionError ∨ F' [] = .error .cborEOF)
    (h : ∀ x, Reads (fun t => F (x :: t)) (fun t => F' (x :: t))) : Reads F F' := by
  refine ⟨fun b a r hr => ?_, fun p q a r hr => ?_⟩
  · cases b with
    | nil => exact absurd hr (hn _)
    | cons x t => exact Nat.le_succ_of_le ((h x).le t a r hr)
  · cases p with
    | nil =>
      refine hnil.imp id fun h' => .inl ⟨?_, h'⟩
      cases q with
      | nil => exact absurd hr (hn _)
      | cons x t => exact Nat.lt_succ_of_le ((h x).le t a r hr)
    | cons x t => exact (h x).get t q a r hr

theorem decChunks_reads (mt : Nat) : ∀ f f' : Nat, Reads (decChunks f mt) (decChunks f' mt)
  | 0, _ => ⟨fun _ _ _ h => by simp only [decChunks, reduceCtorEq] at h, fun _ _ _ _ h => by simp only [decChunks, reduceCtorEq] at h⟩
  | f + 1, 0 => ⟨fun b a r h => by
      have := (decChunks_ok h).2
      omega, fun _ _ _ _ _ => .inl (by simp only [decChunks])⟩
  | f + 1, f' + 1 => by
    refine .cons (by simp [decChunks]) (.inr (by simp only [decChunks])) fun x => ?_
    simp only [decChunks]
    exact .ite (.ret _) (.ite (.bind (decLen_reads _) fun n => .bind (readN_reads n) fun c => .ite (c := mt = 3 ∧ validUtf8 c = false) (.fail _)
      (.bind (decChunks_reads mt f f') fun cs => .ret (c ++ cs)))
      (.fail _))

theorem dec_le (f : Nat) : (∀ b a r, dec f b = .ok (a, r) → r.length ≤ b.length) ∧ (∀ n b a r, decArr f n b = .ok (a, r) → r.length ≤ b.length) ∧
    (∀ b a r, decArrInf f b = .ok (a, r) → r.length ≤ b.length) ∧ (∀ n b a r, decMap f n b = .ok (a, r) → r.length ≤ b.length) ∧
    ∀ b a r, decMapInf f b = .ok (a, r) → r.length ≤ b.length := by
  obtain ⟨h1, h2, h3, h4, h5⟩ := suffixOK f
  exact ⟨fun b a r h => Nat.le_of_lt (h1 b a r h).2, fun n b a r h => (h2 n b a r h).2, fun b a r h => (h3 b a r h).2, fun n b a r h => (h4 n b a r h).2,
    fun b a r h => (h5 b a r h).2⟩

theorem dec_reads (f : Nat) : ∀ f', Reads (dec f) (dec f') ∧ (∀ n, Reads (decArr f n) (decArr f' n)) ∧ Reads (decArrInf f) (decArrInf f') ∧
    (∀ n, Reads (decMap f n) (decMap f' n)) ∧ Reads (decMapInf f) (decMapInf f') := by
  induction f with
  | zero =>
    intro f'
    refine ⟨?_, ?_, ?_, ?_, ?_⟩ <;> intros <;> refine ⟨fun b a r h => ?_, fun p q a r h => ?_⟩ <;>
      simp only [dec, decArr, decArrInf, decMap, decMapInf, reduceCtorEq] at h
  | succ f ih =>
    intro f'
    obtain ⟨l1, l2, l3, l4, l5⟩ := dec_le (f + 1)
    cases f' with
    | zero =>
      exact ⟨⟨l1, fun _ _ _ _ _ => .inl (by simp only [dec])⟩, fun n => ⟨l2 n, fun _ _ _ _ _ => .inl (by simp only [decArr])⟩,
        ⟨l3, fun _ _ _ _ _ => .inl (by simp only [decArrInf])⟩, fun n => ⟨l4 n, fun _ _ _ _ _ => .inl (by simp only [decMap])⟩,
        ⟨l5, fun _ _ _ _ _ => .inl (by simp only [decMapInf])⟩⟩
    | succ f' =>
      obtain ⟨h1, h2, h3, h4, h5⟩ := ih f'
      have hnil : dec f' [] = .error .recursionError ∨ dec f' [] = .error .cborEOF := by
        cases f'
        · exact .inl (by simp only [dec])
        · exact .inr (by simp only [dec])
      have hbreak : ∀ (x : UInt8) (t : Bytes), (x :: t).head? = some 0xff ↔ x = 0xff := by simp
      refine ⟨?_, ?_, ?_, ?_, ?_⟩
      · refine .cons (by simp [dec]) (.inr (by simp only [dec])) fun x => ?_
        simp only [dec]
        refine .ite (.bind (decLen_reads _) fun n => .ret (Val.int n)) (.ite (.bind (decLen_reads _) fun n => .ret (Val.int (-1 - (n : Int))))
          (.ite (.ite ?_ ?_) (.ite (.ite ?_ ?_) (.ite (.ite ?_ ?_) (.ite (.ite ?_ ?_) (.ite ?_ (decSpecial_reads _)))))))
        · exact .bind (decChunks_reads ..) fun b => .ret (Val.bytes b)
        · exact .bind (decLen_reads _) fun n => .bind (readN_reads n) fun b => .ret (Val.bytes b)
        · exact .bind (decChunks_reads ..) fun b => .ret (Val.text b)
        · exact .bind (decLen_reads _) fun n => .bind (readN_reads n) fun b => .ite (c := validUtf8 b = true) (.ret (Val.text b)) (.fail _)
        · exact .bind h3 fun l => .ret (Val.arr l)
        · exact .bind (decLen_reads _) fun n => .bind (h2 n) fun l => .ret (Val.arr l)
        · exact .bind h5 fun l => .ret (Val.map l)
        · exact .bind (decLen_reads _) fun n => .bind (h4 n) fun l => .ret (Val.map l)
        · exact .bind (decLen_reads _) fun n => .bind h1 fun v => .ret (Val.tag n v)
      · intro n
        cases n with
        | zero => simp only [decArr]; exact .ret _
        | succ n => simp only [decArr]; exact .bind h1 fun v => .bind (h2 n) fun l => .ret (v :: l)
      · have := Reads.bind h1 fun v => Reads.bind h3 fun l => Reads.ret (v :: l)
        refine ⟨l3, fun p q a r h => ?_⟩
        cases p with
        | nil =>
          refine hnil.imp (fun h' => by simp [decArrInf, h', error_bind]) fun h' => .inl ⟨?_, by simp [decArrInf, h', error_bind]⟩
          rw [List.nil_append] at h
          simp only [decArrInf] at h
          split at h
          · rename_i hq
            cases h
            cases q <;> simp at hq ⊢
          · obtain ⟨⟨v, r1⟩, e1, h⟩ := bind_eq_ok.mp h
            obtain ⟨⟨l, r2⟩, e2, h⟩ := bind_eq_ok.mp h
            cases h
            exact Nat.lt_of_le_of_lt (h3.le _ _ _ e2) ((suffixOK f).1 _ _ _ e1).2
        | cons x t =>
          simp only [decArrInf, List.cons_append, hbreak, List.tail_cons] at h ⊢
          by_cases hx : x = 0xff
          · rw [if_pos hx] at h ⊢
            cases h
            exact .inr (.inr ⟨t, rfl, rfl⟩)
          · rw [if_neg hx] at h ⊢
            exact this.get (x :: t) q a r h
      · intro n
        cases n with
        | zero => simp only [decMap]; exact .ret _
        | succ n => simp only [decMap]; exact .bind h1 fun k => .bind h1 fun v => .bind (h4 n) fun l => .ret ((k, v) :: l)
      · have := Reads.bind h1 fun k => Reads.bind h1 fun v => Reads.bind h5 fun l => Reads.ret ((k, v) :: l)
        refine ⟨l5, fun p q a r h => ?_⟩
        cases p with
        | nil =>
          refine hnil.imp (fun h' => by simp [decMapInf, h', error_bind]) fun h' => .inl ⟨?_, by simp [decMapInf, h', error_bind]⟩
          rw [List.nil_append] at h
          simp only [decMapInf] at h
          split at h
          · rename_i hq
            cases h
            cases q <;> simp at hq ⊢
          · obtain ⟨⟨k, r0⟩, e0, h⟩ := bind_eq_ok.mp h
            obtain ⟨⟨v, r1⟩, e1, h⟩ := bind_eq_ok.mp h
            obtain ⟨⟨l, r2⟩, e2, h⟩ := bind_eq_ok.mp h
            cases h
            exact Nat.lt_of_le_of_lt (h5.le _ _ _ e2) (Nat.lt_of_le_of_lt (h1.le _ _ _ e1) ((suffixOK f).1 _ _ _ e0).2)
        | cons x t =>
          simp only [decMapInf, List.cons_append, hbreak, List.tail_cons] at h ⊢
          by_cases hx : x = 0xff
          · rw [if_pos hx] at h ⊢
            cases h
            exact .inr (.inr ⟨t, rfl, rfl⟩)
          · rw [if_neg hx] at h ⊢
            exact this.get (x :: t) q a r h

/-- Where a byte string that begins with a data item may be cut. -/
theorem decodeItem_take {b r : Bytes} {v : Val} (h : decodeItem b = .ok (v, r)) (k : Nat) :
    (k < b.length - r.length ∧ decodeItem (b.take k) = .error .cborEOF) ∨
    (b.length - r.length ≤ k ∧ ∃ r', decodeItem (b.take k) = .ok (v, r')) := by
  have hle := decodeItem_length h
  have h' : dec (2 * b.length + 1) (b.take k ++ b.drop k) = .ok (v, r) := by
    rw [List.take_append_drop]
    exact h
  rcases (dec_reads _ (2 * (b.take k).length + 1)).1.get _ _ v r h' with h1 | ⟨hl, h1⟩ | ⟨r', rfl, h1⟩
  · exact absurd h1 (decodeItem_fuel _)
  · refine .inl ⟨?_, h1⟩
    simp at hl
    omega
  · refine .inr ⟨?_, r', h1⟩
    simp at hle ⊢
    omega

theorem loads_take {b r : Bytes} {v : Val} (h : decodeItem b = .ok (v, r)) (k : Nat) :
    loads (b.take k) = if k < b.length - r.length then .error .cborEOF else loads b := by
  simp only [loads, h, ok_bind]
  rcases decodeItem_take h k with ⟨hk, h'⟩ | ⟨hk, r', h'⟩
  · rw [if_pos hk, h', error_bind]
  · rw [if_neg (by omega), h', ok_bind]

/-! ### The properties -/

/-- `decode()` of any bytes, on any class, raises only these exceptions. -/
theorem c84_message_partial {C : Crypto} {cls : DecCls} {allow : Bool} {b : Bytes} {e : PyErr} (h : decode C cls allow b = .error e) :
    e ∈ Spec.cborErrors ++ Spec.keyErrors ++ Spec.messageErrors ∨ Spec.PointError C e :=
  (decode_errs C cls allow b).get e h

/-- `CoseKey.decode()` of any bytes raises only these exceptions. -/
theorem c84_key_partial {C : Crypto} {b : Bytes} {e : PyErr} (h : Key.decode C b = .error e) :
    e ∈ Spec.cborErrors ++ Spec.keyErrors ∨ Spec.PointError C e := by
  rcases bind_eq_error.mp h with h | ⟨v, _, h⟩
  · exact .inl (List.mem_append_left _ ((loads_errs b).get e h))
  · rcases (fromDictVal_errs C v).get e h with h | h
    · exact .inl (List.mem_append_right _ h)
    · exact .inr h

/-- With a library that raises `ValueError` for bad points and returns coordinates of the size of the curve, no bytes make `decode()` raise anything else. -/
theorem c84_library_partial {C : Crypto} {cls : DecCls} {allow : Bool} {b : Bytes} {e : PyErr}
    (hraise : ∀ c len, (c, len) ∈ Spec.coordBytes → ∀ n x e, C.ecPub c n = .error e ∨ C.ecDecompress c x = .error e → e = .valueError)
    (hsize : ∀ c len, (c, len) ∈ Spec.coordBytes → ∀ n x p, C.ecPub c n = .ok p ∨ C.ecDecompress c x = .ok p → p.1 < 256 ^ len ∧ p.2 < 256 ^ len)
    (h : decode C cls allow b = .error e) : e ∈ Spec.cborErrors ++ Spec.keyErrors ++ Spec.messageErrors := by
  rcases c84_message_partial h with h | h'
  · exact h
  · clear h
    cases h' with
    | pub hc h => rw [hraise _ _ hc _ [] _ (.inl h)]; decide
    | decompress hc h => rw [hraise _ _ hc 0 _ _ (.inr h)]; decide
    | size hc h hs =>
      exfalso
      rcases h with ⟨n, h⟩ | ⟨x, h⟩
      · have := hsize _ _ hc n [] _ (.inl h)
        omega
      · have := hsize _ _ hc 0 x _ (.inr h)
        omega

/-- A message that is cut short raises `EOFError`; one that is extended is the same message. -/
theorem c84_truncated {C : Crypto} {cls : DecCls} {allow : Bool} {b : Bytes} {m : Msg} (h : decode C cls allow b = .ok m) :
    ∃ n, 0 < n ∧ n ≤ b.length ∧ ∀ k, decode C cls allow (b.take k) = if k < n then .error .cborEOF else .ok m := by
  cases hd : decodeItem b with
  | error e =>
    have : loads b = .error e := by simp only [loads, hd, error_bind]
    simp only [decode, this] at h
    split at h
    · cases h
    · split at h <;> cases h
  | ok x =>
    obtain ⟨v, r⟩ := x
    have hl := decodeItem_length hd
    refine ⟨b.length - r.length, by omega, by omega, fun k => ?_⟩
    have ht := loads_take hd k
    split
    · rename_i hk
      rw [if_pos hk] at ht
      simp only [decode, ht]
      rfl
    · rename_i hk
      rw [if_neg hk] at ht
      rw [← h]
      simp only [decode, ht]

/-- The same for keys. -/
theorem c84_key_truncated {C : Crypto} {b : Bytes} {key : Key} (h : Key.decode C b = .ok key) :
    ∃ n, 0 < n ∧ n ≤ b.length ∧ ∀ k, Key.decode C (b.take k) = if k < n then .error .cborEOF else .ok key := by
  cases hd : decodeItem b with
  | error e =>
    have : loads b = .error e := by simp only [loads, hd, error_bind]
    simp only [Key.decode, this, error_bind] at h
    cases h
  | ok x =>
    obtain ⟨v, r⟩ := x
    have hl := decodeItem_length hd
    refine ⟨b.length - r.length, by omega, by omega, fun k => ?_⟩
    have ht := loads_take hd k
    split
    · rename_i hk
      rw [if_pos hk] at ht
      simp only [Key.decode, ht, error_bind]
    · rename_i hk
      rw [if_neg hk] at ht
      rw [← h]
      simp only [Key.decode, ht]

/-- Each of them is raised for some bytes. -/
theorem c84_attained {e : PyErr} (h : e ∈ Spec.cborErrors ++ Spec.keyErrors ++ Spec.messageErrors) (hu : e ≠ .unsupported) :
    ∃ b, decode toy .any true b = .error e := by
  simp only [Spec.cborErrors, Spec.keyErrors, Spec.messageErrors, List.cons_append, List.nil_append, List.mem_cons, List.not_mem_nil, or_false] at h
  rcases h with rfl | rfl | rfl | rfl | rfl | rfl | rfl | rfl | rfl | rfl | rfl | rfl | rfl | rfl | rfl
  · exact ⟨[0xd2, 0x84], by decide +kernel⟩
  · exact ⟨[0xd2, 0x84, 0x41, 0xff, 0xa0, 0xf6, 0x40], by decide +kernel⟩
  · exact absurd rfl hu
  · exact ⟨[0xd2, 0x84, 0x44, 0xa1, 0x01, 0x18, 0x63, 0xa0, 0xf6, 0x40], by decide +kernel⟩
  · exact ⟨[0xd2, 0x84, 0x40, 0xa1, 0x20, 0xa3, 0x01, 0x02, 0x20, 0x06, 0x21, 0x41, 0x01, 0xf6, 0x40], by decide +kernel⟩
  · exact ⟨[0xd2, 0x84, 0x40, 0xa1, 0x20, 0xa0, 0xf6, 0x40], by decide +kernel⟩
  · exact ⟨[0xd2, 0x84, 0x40, 0xa1, 0x20, 0xa2, 0x01, 0x02, 0x20, 0x01, 0xf6, 0x40], by decide +kernel⟩
  · exact ⟨[0xd2, 0x00], by decide +kernel⟩
  · exact ⟨[0xff], by decide +kernel⟩
  · exact ⟨[0x80], by decide +kernel⟩
  · exact ⟨[0xd8, 0x63, 0x80], by decide +kernel⟩
  · exact ⟨[0xd2, 0x80], by decide +kernel⟩
  · exact ⟨[0xd2, 0x84, 0x40, 0xa1, 0x20, 0xa4, 0x01, 0x02, 0x20, 0x01, 0x21, 0x41, 0x01, 0x23, 0x41, 0x07, 0xf6, 0x40], by decide +kernel⟩
  · exact absurd rfl hu
  · exact ⟨[0xd8, 0x60, 0x84, 0x40, 0xa0, 0xf6, 0x81, 0x83, 0x40, 0xa1, 0x01, 0x25, 0x41, 0x01], by decide +kernel⟩

/-- The documentation announces fewer: a message that is cut short raises `EOFError`, an unknown algorithm `CoseException`, a missing element `IndexError`, an
inconsistent public key in a header `AssertionError`. -/
theorem c84_documented_refuted : ∀ e ∈ [PyErr.cborEOF, .coseException, .indexError, .assertionError], e ∉ Spec.documented ∧ ∃ b, decode toy .any true b = .error e := by
  intro e he
  refine ⟨?_, c84_attained ?_ ?_⟩
  · revert e
    decide
  · revert e
    decide
  · revert e
    decide

/-- The toy library meets the hypothesis of `c84_library_partial` on what it raises. -/
example : ∀ c len, (c, len) ∈ Spec.coordBytes → ∀ n x e, toy.ecPub c n = .error e ∨ toy.ecDecompress c x = .error e → e = .valueError := by
  intro c len _ n x e h
  rcases h with h | h
  · simp only [toy] at h
    split at h <;> cases h
    rfl
  · cases h

/-- With points reduced to the size of the field, it meets both. -/
example : ∃ C : Crypto, (∀ c len, (c, len) ∈ Spec.coordBytes → ∀ n x e, C.ecPub c n = .error e ∨ C.ecDecompress c x = .error e → e = .valueError) ∧
    (∀ c len, (c, len) ∈ Spec.coordBytes → ∀ n x p, C.ecPub c n = .ok p ∨ C.ecDecompress c x = .ok p → p.1 < 256 ^ len ∧ p.2 < 256 ^ len) ∧
    decode C .any true [0xd2, 0x84, 0x40, 0xa1, 0x20, 0xa2, 0x01, 0x02, 0x20, 0x01, 0xf6, 0x40] = .error .invalidKey := by
  refine ⟨{ toy with
      ecPub := fun c n => .ok (n % 256 ^ crvSize c, (n + 1) % 256 ^ crvSize c)
      ecDecompress := fun c x => if x = [] then .error .valueError else .ok (natOfBytes x % 256 ^ crvSize c, 0) }, ?_, ?_, by decide +kernel⟩
  · intro c len _ n x e h
    rcases h with h | h
    · cases h
    · simp only at h
      split at h <;> cases h
      rfl
  · intro c len hc n x p h
    have hs : crvSize c = len := by
      simp only [Spec.coordBytes, List.mem_cons, List.not_mem_nil, or_false, Prod.mk.injEq] at hc
      rcases hc with ⟨rfl, rfl⟩ | ⟨rfl, rfl⟩ | ⟨rfl, rfl⟩ | ⟨rfl, rfl⟩ <;> rfl
    have hp : 0 < 256 ^ len := Nat.pow_pos (by decide)
    rcases h with h | h
    · cases h
      simp only [hs]
      exact ⟨Nat.mod_lt _ hp, Nat.mod_lt _ hp⟩
    · simp only at h
      split at h
      · cases h
      · cases h
        simp only [hs]
        exact ⟨Nat.mod_lt _ hp, hp⟩

/-- A message of twelve bytes. -/
example : ∃ m, decode toy .any true [0xd2, 0x84, 0x43, 0xa1, 0x01, 0x26, 0xa0, 0x42, 0x68, 0x69, 0x41, 0x07] = .ok m :=
  (res_any (p := fun _ => true) (by decide +kernel)).imp fun _ h => h.1

/-- A key followed by other bytes. -/
example : ∃ k, Key.decode toy ([0xa2, 0x01, 0x04, 0x20, 0x50] ++ List.replicate 16 7 ++ [1, 2]) = .ok k :=
  (res_any (p := fun _ => true) (by decide +kernel)).imp fun _ h => h.1

end Cose
