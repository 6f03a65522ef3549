import Verif.Props.Iana
import Verif.Props.Repr
import Verif.Props.Attrs
import Verif.Props.RcptHeap
import Verif.Props.RefusalsMulti
import Verif.Cek
/-!
# Further parts of C21, C79, C83, C85, C87 and C91
-/
set_option autoImplicit false
namespace Cose
open Eff

/-! ### C21: floating-point numbers -/

/-- A binary64 number that is not a number: the exponent (bits 52 to 62) is all ones, the fraction (bits 0 to 51) is not zero. -/
def Spec.NotANumber (bits : Nat) : Prop := (∀ i, 52 ≤ i → i < 63 → bits.testBit i = true) ∧ ∃ i, i < 52 ∧ bits.testBit i = true

theorem exponent_ones {bits : Nat} : (∀ i, 52 ≤ i → i < 63 → bits.testBit i = true) ↔ bits / 2 ^ 52 % 2048 = 2047 := by
  constructor
  · intro h
    apply Nat.eq_of_testBit_eq
    intro i
    rw [show (2048 : Nat) = 2 ^ 11 from rfl, Nat.testBit_mod_two_pow, Nat.testBit_div_two_pow, show (2047 : Nat) = 2 ^ 11 - 1 from rfl,
      Nat.testBit_two_pow_sub_one]
    by_cases hi : i < 11
    · simp [hi, h (i + 52) (by omega) (by omega)]
    · simp [hi]
  · intro h i h1 h2
    have : (bits / 2 ^ 52 % 2048).testBit (i - 52) = (2047 : Nat).testBit (i - 52) := by rw [h]
    rw [show (2048 : Nat) = 2 ^ 11 from rfl, Nat.testBit_mod_two_pow, Nat.testBit_div_two_pow, show (2047 : Nat) = 2 ^ 11 - 1 from rfl,
      Nat.testBit_two_pow_sub_one, show i - 52 + 52 = i by omega] at this
    simpa [show i - 52 < 11 by omega] using this

theorem fraction_zero {bits : Nat} : (∃ i, i < 52 ∧ bits.testBit i = true) ↔ bits % 2 ^ 52 ≠ 0 := by
  constructor
  · rintro ⟨i, h1, h2⟩ h
    have := Nat.testBit_mod_two_pow bits 52 i
    rw [h] at this
    simp [h1, h2] at this
  · intro h
    obtain ⟨i, hi⟩ := Nat.exists_testBit_of_ne_zero h
    rw [Nat.testBit_mod_two_pow] at hi
    simp only [Bool.and_eq_true, decide_eq_true_eq] at hi
    exact ⟨i, hi⟩

theorem notANumber_iff {bits : Nat} : floatNaN bits = true ↔ Spec.NotANumber bits := by
  simp only [floatNaN, floatSpecial, Bool.and_eq_true, beq_iff_eq, bne_iff_ne, Spec.NotANumber, exponent_ones, fraction_zero]

/-- C21: infinities and everything that is not a number are written as half floats, every other number as the eight bytes of its binary64 form (`0xfb`). -/
theorem c21_floats {m : Mode} {bits : Nat} (hb : bits < 2 ^ 64) :
    (Spec.NotANumber bits → dumps fullname m (.float bits) = .ok [0xf9, 0x7e, 0x00]) ∧
    dumps fullname m (.float 0x7ff0000000000000) = .ok [0xf9, 0x7c, 0x00] ∧ dumps fullname m (.float 0xfff0000000000000) = .ok [0xf9, 0xfc, 0x00] ∧
    (¬ Spec.NotANumber bits → bits ≠ 0x7ff0000000000000 → bits ≠ 0xfff0000000000000 → dumps fullname m (.float bits) = .ok (0xfb :: beBytes 8 bits)) := by
  have e : ∀ bits, dumps fullname m (.float bits) = encFloat (if floatNaN bits then nanBits else bits) := by
    intro bits; simp [dumps, subst, ok_bind, big, enc]
  refine ⟨fun h => ?_, by rw [e]; decide, by rw [e]; decide, fun h h1 h2 => ?_⟩
  · rw [e, if_pos (notANumber_iff.mpr h)]; decide
  · have h0 : bits ≠ nanBits := by
      rintro rfl
      exact h (notANumber_iff.mp (by decide))
    rw [← notANumber_iff] at h
    rw [e, if_neg h, encFloat, if_neg h0, if_neg (by exact h1), if_neg (by exact h2), if_neg h, if_pos hb]

/-- 1.0, and a NaN with a payload. -/
example : ¬ Spec.NotANumber 0x3ff0000000000000 ∧ Spec.NotANumber 0x7ff8000000000001 :=
  ⟨fun h => absurd (notANumber_iff.mpr h) (by decide), notANumber_iff.mp (by decide)⟩

/-! ### C79: the header classes that are not registered -/

/-- C79: the two inputs of the key derivation that are never sent have numbers of their own, and neither number nor name is known as a header. -/
theorem c79_unsent : ∀ p ∈ [(Hdr.SuppPubOther, b!"SUPP_PUB_OTHER", (-998 : Int)), (Hdr.SuppPrivOther, b!"SUPP_PRIV_OTHER", -999)],
    fullname p.1 = p.2.1 ∧ p.1.ident = p.2.2 ∧ fromId .hdr (.text p.2.1) = .error .coseException ∧ fromId .hdr (.int p.2.2) = .error .coseException := by
  decide +kernel

/-! ### C83: what the decorators refuse -/

/-- C83: a class that is not of the right kind is refused by the decorators with `ValueError`, any other is recorded. -/
theorem c83_decorated {α : Type} {c : Given α} :
    (∀ (d : List (Int × α)) tag, (c.subclass = false → recordTag d tag c = .error .valueError) ∧ (c.subclass = true → ∃ d', recordTag d tag c = .ok d')) ∧
    (∀ (d : List (ClsId × α)) algs, (c.subclass = false → recordRc d algs c = .error .valueError) ∧ (c.subclass = true → ∃ d', recordRc d algs c = .ok d')) := by
  refine ⟨fun d tag => ⟨fun h => ?_, fun h => ?_⟩, fun d algs => ⟨fun h => ?_, fun h => ?_⟩⟩ <;> simp [recordTag, recordRc, h]

/-! ### C85: COSE_Mac -/

/-- C85: the same for a COSE_Mac message whose recipients were never assigned, and for computing its tag. -/
theorem c85_mac_none {C : Crypto} {R : Rand} {tag e : Bool} {h : RHeap} {b : Base} {v : Val} :
    (let x := (MacW.encode C R tag e).run ⟨h, b, v, none⟩
     let y := (Mac.encodeE C R tag e).run ⟨b, v, none⟩
     x.1 = y.1 ∧ x.2.base = y.2.base ∧ x.2.authTag = y.2.authTag ∧ x.2.addrs = none ∧ y.2.recipients = none ∧ x.2.heap = h) ∧
    (let x := (MacW.computeTag C R).run ⟨h, b, v, none⟩
     let y := (Mac.computeTagE C R).run ⟨b, v, none⟩
     x.1 = y.1 ∧ x.2.base = y.2.base ∧ x.2.authTag = y.2.authTag ∧ x.2.addrs = none ∧ y.2.recipients = none ∧ x.2.heap = h) := by
  have t : ((MacW.computeTag C R).run ⟨h, b, v, none⟩).1 = ((Mac.computeTagE C R).run ⟨b, v, none⟩).1 ∧
      ((MacW.computeTag C R).run ⟨h, b, v, none⟩).2 = ⟨h, b, v, none⟩ ∧ ((Mac.computeTagE C R).run ⟨b, v, none⟩).2 = ⟨b, v, none⟩ ∧
      ∀ a, ((Mac.computeTagE C R).run ⟨b, v, none⟩).1 ≠ .ok a := by
    unfold MacW.computeTag Mac.computeTagE
    cases ha : b.getAttr Hdr.Algorithm with
    | error e => simp [bind, expr, ha]
    | ok a => simp [bind, expr, ha]
  refine ⟨?_, ?_⟩
  · unfold MacW.encode Mac.encodeE
    cases hp : b.phdrEncoded with
    | error x => simp [bind, expr, hp]
    | ok pe =>
      cases e with
      | false => simp [bind, expr, hp, MacW.finish, Mac.finishE, self, raise]
      | true =>
        obtain ⟨t1, t2, t3, t4⟩ := t
        obtain ⟨a, ha⟩ : ∃ x, (MacW.computeTag C R).run ⟨h, b, v, none⟩ = (.error x, ⟨h, b, v, none⟩) ∧ (Mac.computeTagE C R).run ⟨b, v, none⟩ = (.error x, ⟨b, v, none⟩) := by
          cases hy : ((Mac.computeTagE C R).run ⟨b, v, none⟩).1 with
          | ok a => exact absurd hy (t4 a)
          | error x => exact ⟨x, Prod.ext (t1.trans hy) t2, Prod.ext hy t3⟩
        simp [bind, expr, hp, ha]
  · obtain ⟨t1, t2, t3, _⟩ := t
    simp only [t1, t2, t3, true_and]

/-! ### C87: class names -/

/-- What is in front of and behind the registered name in the name of a class. -/
def Spec.affix : Reg → Bytes × Bytes
  | .kp => (b!"KP", b!"") | .kpEc2 => (b!"EC2KP", b!"") | .kpOkp => (b!"OKPKP", b!"") | .kpRsa => (b!"RSAKP", b!"") | .kpSym => (b!"SYMKP", b!"")
  | .op => (b!"", b!"OP") | .kty => (b!"KTY", b!"") | _ => (b!"", b!"")

/-- Classes that are named differently. -/
def Spec.ownName : List (Cls × Bytes) :=
  [(⟨.hdr, 1⟩, b!"Algorithm"), (⟨.hdr, 7⟩, b!"CounterSignature"), (⟨.hdr, 9⟩, b!"CounterSignature0"),
   (⟨.alg, -65535⟩, b!"RsaPkcs1Sha1"), (⟨.alg, -259⟩, b!"RsaPkcs1Sha512"), (⟨.alg, -258⟩, b!"RsaPkcs1Sha384"), (⟨.alg, -257⟩, b!"RsaPkcs1Sha256"),
   (⟨.alg, -45⟩, b!"Shake256"), (⟨.alg, -44⟩, b!"Sha512"), (⟨.alg, -43⟩, b!"Sha384"), (⟨.alg, -18⟩, b!"Shake128"), (⟨.alg, -17⟩, b!"Sha512Trunc256"),
   (⟨.alg, -16⟩, b!"Sha256"), (⟨.alg, -15⟩, b!"Sha256Trunc64"), (⟨.alg, -14⟩, b!"Sha1"), (⟨.alg, -11⟩, b!"DirecHKDFSHA512")]

/-- C87: in texts an attribute has the name of its class, which is the registered name but for letter case, `_` and `+`, between what `Spec.affix` adds, unless
it is one of `Spec.ownName`. -/
theorem c87_class_names {r : Reg} {c : Cls} {n : Bytes} (h : (c, n) ∈ registry r) :
    (∀ s, (c, s) ∈ Spec.ownName → className c = s) ∧
    ((∀ s, (c, s) ∉ Spec.ownName) → upper (className c) = (Spec.affix c.reg).1 ++ n.filter (fun b => b ≠ 95 ∧ b ≠ 43) ++ (Spec.affix c.reg).2) := by
  have all : ∀ r ∈ [Reg.hdr, .alg, .kp, .kpEc2, .kpOkp, .kpRsa, .kpSym, .op, .kty, .crv], ∀ p ∈ registry r,
      (∀ q, Spec.ownName.find? (·.1 == p.1) = some q → className p.1 = q.2) ∧
      (Spec.ownName.find? (·.1 == p.1) = none → upper (className p.1) = (Spec.affix p.1.reg).1 ++ p.2.filter (fun b => b ≠ 95 ∧ b ≠ 43) ++ (Spec.affix p.1.reg).2) := by
    have : ∀ r ∈ [Reg.hdr, .alg, .kp, .kpEc2, .kpOkp, .kpRsa, .kpSym, .op, .kty, .crv], ∀ p ∈ registry r,
      (match Spec.ownName.find? (·.1 == p.1) with
      | some q => decide (className p.1 = q.2)
      | none => decide (upper (className p.1) = (Spec.affix p.1.reg).1 ++ p.2.filter (fun b => b ≠ 95 ∧ b ≠ 43) ++ (Spec.affix p.1.reg).2)) = true := by decide +kernel
    intro r hr p hp
    have := this r hr p hp
    split at this
    · rename_i q hq
      exact ⟨fun q' h => by rw [hq] at h; cases h; simpa using this, fun h => by rw [hq] at h; cases h⟩
    · rename_i hq
      exact ⟨fun q' h => (by rw [hq] at h; cases h), fun h => by simpa using this⟩
  have hk := all r (by cases r <;> simp) _ h
  cases hf : Spec.ownName.find? (·.1 == c) with
  | some q =>
    replace hk := hk.1 q hf
    have hq := List.mem_of_find?_eq_some hf
    have he : q.1 = c := by simpa using List.find?_some hf
    refine ⟨fun s hs => ?_, fun hn => absurd hq (by subst he; exact hn q.2)⟩
    have uni : ∀ p ∈ Spec.ownName, ∀ q ∈ Spec.ownName, p.1 = q.1 → p.2 = q.2 := by decide +kernel
    rw [hk]
    exact uni _ hq _ hs he
  | none =>
    refine ⟨fun s hs => ?_, fun _ => hk.2 hf⟩
    have := List.find?_eq_none.mp hf _ hs
    simp at this

/-- Some names. -/
example : className Hdr.KIDContext = b!"KIDContext" ∧ (Hdr.KIDContext, b!"KID_CONTEXT") ∈ registry .hdr ∧
    className ⟨.alg, -29⟩ = b!"EcdhEsA128KW" ∧ ((⟨.alg, -29⟩ : Cls), b!"ECDH_ES_A128KW") ∈ registry .alg := by decide +kernel

/-! ### C91: `DirectEncryption.compute_cek` -/

/-- What the key of a direct recipient must be. -/
def Spec.directKeyUse (b : Base) : List (Prop × PyErr) :=
  match b.key with
  | none => [(False, .attributeError)]
  | some k => (k.kind = .sym, .coseException) :: Spec.policy b k [Op.DeriveKey, Op.DeriveBits]

/-- C91: direct encryption has no key of its own; with another direct method the key is checked, and then `NotImplementedError` is raised. -/
theorem c91_direct_cek {b : Base} (hk : ∀ k, b.key = some k → Spec.PlainPolicy k) (hn : Spec.NamesAlgorithms b) :
    Spec.Outcome [(¬ Spec.Twice b Hdr.Algorithm, .coseException)]
      (fun r => (Spec.Value b Hdr.Algorithm (algCls (-6)) ∧ r = .ok none) ∨
        (¬ Spec.Value b Hdr.Algorithm (algCls (-6)) ∧ Spec.Outcome (Spec.directKeyUse b) (· = .error .notImplemented) r)) (directComputeCek b) := by
  unfold directComputeCek
  refine outcome_cons (fun hp => ?_) fun hp => outcome_nil ?_
  · rw [getAttr_twice (Classical.not_not.mp hp)]; rfl
  obtain ⟨alg, ha, hv⟩ := getAttr_value hp
  rw [ha, ok_bind]
  by_cases h : alg = algCls (-6)
  · exact .inl ⟨(hv _ (by simp)).mpr h, if_pos h⟩
  refine .inr ⟨fun h' => h ((hv _ (by simp)).mp h'), ?_⟩
  rw [if_neg h]
  unfold Spec.directKeyUse
  cases hb : b.key with
  | none => exact outcome_cons (fun _ => rfl) False.elim
  | some k =>
    refine outcome_cons (fun hs => ?_) fun hs => verify_outcome (hk k hb) hs hn hv rfl
    simp only [Key.verify, if_pos hs]
    rfl

/-- A key for encryption is refused by a direct recipient with key derivation. -/
example : directComputeCek
    { phdr := [(.cls Hdr.Algorithm, algCls (-10))], uhdr := [], payload := some [],
      key := some { Sample.symKey with store := (.cls KpKeyOps, .arr [.cls Op.Encrypt]) :: Sample.symKey.store } } = .error .illegalKeyOps := by
  decide +kernel

end Cose
