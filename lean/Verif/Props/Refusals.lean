import Verif.Props.Exact
/-!
# Property C91: a refused operation raises the exception of the first requirement that is not met
-/
set_option autoImplicit false
namespace Cose

/-! ### Specification -/

/-- A list of requirements with the exceptions for those that are not met: the first that is not met decides. -/
def Spec.FirstUnmet : List (Prop × PyErr) → PyErr → Prop
  | [], _ => False
  | (p, x) :: t, e => (¬ p ∧ x = e) ∨ (p ∧ Spec.FirstUnmet t e)

/-- All requirements are met. -/
def Spec.Met : List (Prop × PyErr) → Prop
  | [] => True
  | (p, _) :: t => p ∧ Spec.Met t

/-- The result of an operation with these requirements, whose result is as `rest` says if they are met. -/
def Spec.Outcome {α : Type} (requirements : List (Prop × PyErr)) (rest : Res α → Prop) (r : Res α) : Prop :=
  (∃ e, Spec.FirstUnmet requirements e ∧ r = .error e) ∨ (Spec.Met requirements ∧ rest r)

/-- The header is given in both dictionaries. -/
def Spec.Twice (b : Base) (c : Cls) : Prop :=
  (∃ v, dget b.phdr (.cls c) = some v ∧ v ≠ .none) ∧ ∃ v, dget b.uhdr (.cls c) = some v ∧ v ≠ .none

/-- The header has the value `v`. -/
def Spec.Value (b : Base) (c : Cls) (v : Val) : Prop := v ≠ .none ∧ (dget b.phdr (.cls c) = some v ∨ dget b.uhdr (.cls c) = some v)

/-- Where a header names a class, it names an algorithm. -/
def Spec.NamesAlgorithms (b : Base) : Prop := ∀ c, Spec.Value b Hdr.Algorithm (.cls c) → c.reg = .alg

/-- What the key's own `alg` and `key_ops` require for the operations `ops` on a message with headers `b`. -/
def Spec.policy (b : Base) (k : Key) (ops : List Cls) : List (Prop × PyErr) :=
  [(dget k.store (.cls KpAlg) = none ∨ ∃ c, Spec.Value b Hdr.Algorithm (.cls c), .attributeError),
   (∀ a, dget k.store (.cls KpAlg) = some a → Spec.Value b Hdr.Algorithm a, .illegalAlgorithm),
   (∀ l, dget k.store (.cls KpKeyOps) = some (.arr l) → l = [] ∨ ∃ o ∈ ops, .cls o ∈ l, .illegalKeyOps)]

/-- The numbers of the algorithms that sign (the code lets RSAES-OAEP pass here). -/
def Spec.signers : List Int := Spec.ecdsaAlgs.map (·.1) ++ [-8] ++ Spec.rsaAlgs.map (·.1) ++ Spec.oaepAlgs.map (·.1)

/-- Signing or verifying: what headers and key require. -/
def Spec.signatureUse (b : Base) (op : Cls) : List (Prop × PyErr) :=
  (¬ Spec.Twice b Hdr.Algorithm, .coseException) ::
  match b.key with
  | none => [(False, .coseException)]
  | some k => (k.kind ≠ .sym, .coseException) :: Spec.policy b k [op] ++
      [(∃ i ∈ Spec.signers, Spec.Value b Hdr.Algorithm (algCls i), .attributeError)]

/-- What signing with algorithm number `i` requires of the key. -/
def Spec.signingKey (i : Int) (k : Key) : List (Prop × PyErr) :=
  if i ∈ Spec.ecdsaAlgs.map (·.1) then
    [(∃ d, k.d = .ok (.bytes d), .typeError), (k.d ≠ .ok (.bytes []), .valueError)]
  else if i = -8 then
    [(k.kind ≠ .rsa, .attributeError), (∃ c, k.crv = .ok c, .invalidKey), (∃ c, k.crv = .ok (.cls c), .attributeError),
     (∃ c, k.crv = .ok (.cls c) ∧ fullname c ∈ [b!"ED25519", b!"ED448"], .coseException), (∃ d, k.d = .ok (.bytes d), .typeError)]
  else [(k.kind = .rsa, .attributeError)]

/-- What verifying with algorithm number `i` requires of the key and the signature. -/
def Spec.verifyingKey (i : Int) (k : Key) (sig : Val) : List (Prop × PyErr) :=
  if i ∈ Spec.ecdsaAlgs.map (·.1) then
    [(k.kind ≠ .rsa, .attributeError), (∃ x, k.x = .ok (.bytes x), .typeError), (k.x ≠ .ok (.bytes []), .valueError),
     (k.kind = .ec2, .attributeError), (∃ y, k.y = .ok (.bytes y), .typeError), (k.y ≠ .ok (.bytes []), .valueError),
     (∃ s, sig = .bytes s, .typeError)]
  else if i = -8 then
    [(k.kind ≠ .rsa, .attributeError), (∃ c, k.crv = .ok c, .invalidKey), (∃ c, k.crv = .ok (.cls c), .attributeError),
     (∃ c, k.crv = .ok (.cls c) ∧ fullname c ∈ [b!"ED25519", b!"ED448"], .coseException), (∃ x, k.x = .ok (.bytes x), .typeError),
     (∃ s, sig = .bytes s, .typeError)]
  else if i ∈ Spec.rsaAlgs.map (·.1) then [(k.kind = .rsa, .attributeError), (∃ s, sig = .bytes s, .typeError)]
  else [(k.kind = .rsa, .attributeError)]

/-- The parameters of an RSA key are byte strings, as every way to make a key leaves them. -/
def Spec.RsaBytes (k : Key) : Prop := k.kind = .rsa → ∀ c v, dget k.store (.cls c) = some v → c ∈ [RsaN, RsaE, RsaD, RsaP, RsaQ, RsaDP, RsaDQ, RsaQInv] → ∃ b, v = .bytes b

/-- The call of the primitive that makes a signature. -/
inductive Spec.SignCall (C : Crypto) (rnd : Bytes) (i : Int) (k : Key) (data : Bytes) : Res Bytes → Prop
  | ecdsa {c : Int} {h : HashId} {d : Bytes} : (i, c, h) ∈ Spec.ecdsaAlgs → k.d = .ok (.bytes d) →
      SignCall C rnd i k data (C.ecdsaSign (Spec.curve c) h (natOfBytes d) data)
  | eddsa {c : Cls} {d : Bytes} : i = -8 → k.crv = .ok (.cls c) → k.d = .ok (.bytes d) → SignCall C rnd i k data (C.eddsaSign c d data)
  | rsa {p : RsaPad} {h : HashId} {r : RsaNums} : (i, p, h) ∈ Spec.rsaAlgs → Spec.RsaKey k r → SignCall C rnd i k data (C.rsaSign p h r rnd data)
  | oaep : i ∈ Spec.oaepAlgs.map (·.1) → SignCall C rnd i k data (.error .crypto)

/-- The call of the primitive that judges a signature. -/
inductive Spec.VerifyCall (C : Crypto) (i : Int) (k : Key) (data : Bytes) (sig : Val) : Res Bool → Prop
  | ecdsa {c : Int} {h : HashId} {x y s : Bytes} : (i, c, h) ∈ Spec.ecdsaAlgs → k.x = .ok (.bytes x) → k.y = .ok (.bytes y) → sig = .bytes s →
      VerifyCall C i k data sig (C.ecdsaVerify (Spec.curve c) h (natOfBytes x) (natOfBytes y) data s)
  | eddsa {c : Cls} {x s : Bytes} : i = -8 → k.crv = .ok (.cls c) → k.x = .ok (.bytes x) → sig = .bytes s →
      VerifyCall C i k data sig (C.eddsaVerify c x data s)
  | rsa {p : RsaPad} {h : HashId} {n e : Nat} {s : Bytes} : (i, p, h) ∈ Spec.rsaAlgs → Spec.Number (k.rsaParam RsaN) n →
      Spec.Number (k.rsaParam RsaE) e → sig = .bytes s → VerifyCall C i k data sig (C.rsaVerify p h n e data s)
  | oaep : i ∈ Spec.oaepAlgs.map (·.1) → VerifyCall C i k data sig (.error .crypto)

/-- The numbers of the MAC algorithms. -/
def Spec.macs : List Int := Spec.hmacAlgs.map (·.1) ++ Spec.cbcMacAlgs.map (·.1)

/-- What the symmetric key of an operation requires. -/
def Spec.secret (k : Key) : List (Prop × PyErr) :=
  [(dget k.store (.cls SymK) ≠ none, .invalidKey), (∃ kb, dget k.store (.cls SymK) = some (.bytes kb), .typeError)]

/-- Computing or checking a tag: what headers, key and payload require. -/
def Spec.tagUse (b : Base) (op : Cls) : List (Prop × PyErr) :=
  (¬ Spec.Twice b Hdr.Algorithm, .coseException) ::
  match b.key with
  | none => [(False, .coseException)]
  | some k => (k.kind = .sym, .coseException) :: Spec.policy b k [op] ++
      [(∃ i ∈ Spec.macs, Spec.Value b Hdr.Algorithm (algCls i), .attributeError), (b.payload ≠ none, .valueError)] ++ Spec.secret k

/-- The nonce: an IV header, or base IV of the key and partial IV header. -/
def Spec.nonceUse (b : Base) (k : Key) : List (Prop × PyErr) :=
  [(¬ Spec.Twice b Hdr.IV, .coseException),
   ((∃ v, Spec.Value b Hdr.IV v) ∨ k.baseIv ≠ .bytes [], .coseException),
   ((∃ v, Spec.Value b Hdr.IV v) ∨ ¬ Spec.Twice b Hdr.PartialIV, .coseException),
   ((∃ v, Spec.Value b Hdr.IV v) ∨ (∃ v, Spec.Value b Hdr.PartialIV v), .typeError)]

/-- The rest of what encryption and decryption require. -/
def Spec.aeadUse (b : Base) (k : Key) (op : Cls) : List (Prop × PyErr) :=
  (k.kind = .sym, .coseException) :: Spec.policy b k [op] ++
    [(∃ i ∈ Spec.aeadAlgs.map (·.1), Spec.Value b Hdr.Algorithm (algCls i), .attributeError)] ++ Spec.secret k ++
    [(∀ v, Spec.Value b Hdr.IV v → ∃ n, v = .bytes n, .typeError), (b.payload ≠ none, .typeError)]

/-- Encrypting. -/
def Spec.encryptUse (b : Base) : List (Prop × PyErr) :=
  match b.key with
  | none => [(False, .coseException)]
  | some k => (¬ Spec.Twice b Hdr.Algorithm, .coseException) :: Spec.nonceUse b k ++ Spec.aeadUse b k Op.Encrypt

/-- Decrypting: without a key, a missing IV is noticed first, and differently. -/
def Spec.decryptUse (b : Base) : List (Prop × PyErr) :=
  (¬ Spec.Twice b Hdr.Algorithm, .coseException) ::
  match b.key with
  | none => [(¬ Spec.Twice b Hdr.IV, .coseException), (∃ v, Spec.Value b Hdr.IV v, .attributeError), (False, .coseException)]
  | some k => Spec.nonceUse b k ++ Spec.aeadUse b k Op.Decrypt

/-! ### Lemmas -/

theorem outcome_nil {α : Type} {rest : Res α → Prop} {r : Res α} (h : rest r) : Spec.Outcome [] rest r := .inr ⟨trivial, h⟩

theorem outcome_cons {α : Type} {p : Prop} {x : PyErr} {t : List (Prop × PyErr)} {rest : Res α → Prop} {r : Res α} (h1 : ¬ p → r = .error x)
    (h2 : p → Spec.Outcome t rest r) : Spec.Outcome ((p, x) :: t) rest r := by
  by_cases h : p
  · rcases h2 h with ⟨e, h3, h4⟩ | ⟨h3, h4⟩
    · exact .inl ⟨e, .inr ⟨h, h3⟩, h4⟩
    · exact .inr ⟨⟨h, h3⟩, h4⟩
  · exact .inl ⟨x, .inl ⟨h, rfl⟩, h1 h⟩

theorem outcome_append {α : Type} {l t : List (Prop × PyErr)} {rest : Res α → Prop} {r : Res α} (h : Spec.Outcome l (Spec.Outcome t rest) r) :
    Spec.Outcome (l ++ t) rest r := by
  induction l generalizing r with
  | nil =>
    rcases h with ⟨e, h, _⟩ | ⟨_, h⟩
    · exact h.elim
    · exact h
  | cons p l ih =>
    obtain ⟨p, x⟩ := p
    refine outcome_cons (fun hp => ?_) fun hp => ih ?_
    · rcases h with ⟨e, h | h, he⟩ | ⟨h, _⟩
      · rw [he, h.2]
      · exact absurd h.1 hp
      · exact absurd h.1 hp
    · rcases h with ⟨e, h | h, he⟩ | ⟨h, h'⟩
      · exact absurd hp h.1
      · exact .inl ⟨e, h.2, he⟩
      · exact .inr ⟨h.2, h'⟩

/-- The requirements decide: the exceptions are those of the first requirement that is not met. -/
theorem outcome_unique {α : Type} {l : List (Prop × PyErr)} {rest : Res α → Prop} {r : Res α} (h : Spec.Outcome l rest r) {e : PyErr}
    (he : Spec.FirstUnmet l e) : r = .error e := by
  induction l with
  | nil => exact he.elim
  | cons p l ih =>
    obtain ⟨p, x⟩ := p
    rcases h with ⟨e', h | h, hr⟩ | ⟨h, h'⟩
    · rcases he with he | he
      · rw [hr, ← h.2, he.2]
      · exact absurd he.1 h.1
    · rcases he with he | he
      · exact absurd h.1 he.1
      · exact ih (.inl ⟨e', h.2, hr⟩) he.2
    · rcases he with he | he
      · exact absurd h.1 he.1
      · exact ih (.inr ⟨h.2, h'⟩) he.2

theorem getAttr_twice {b : Base} {c : Cls} (h : Spec.Twice b c) : b.getAttr c = .error .coseException := by
  obtain ⟨⟨v, h1, h2⟩, w, h3, h4⟩ := h
  simp [Base.getAttr, Base.getAttrD, h1, h2, h3, h4]

/-- The value of a header that is not given twice: `None` if it is not given. -/
theorem getAttr_value {b : Base} {c : Cls} (h : ¬ Spec.Twice b c) :
    ∃ v, b.getAttr c = .ok v ∧ (∀ w, w ≠ .none → (Spec.Value b c w ↔ v = w)) := by
  have hd : ∀ o : Option Val, o.getD .none = .none ∨ ∃ v, o = some v ∧ v ≠ .none ∧ o.getD .none = v := by
    intro o
    cases o with
    | none => exact .inl rfl
    | some v =>
      by_cases hv : v = .none
      · exact .inl hv
      · exact .inr ⟨v, rfl, hv, rfl⟩
  unfold Spec.Twice at h
  unfold Spec.Value Base.getAttr Base.getAttrD
  rcases hd (dget b.phdr (.cls c)) with h1 | ⟨v, h1, h2, h3⟩ <;> rcases hd (dget b.uhdr (.cls c)) with g1 | ⟨w, g1, g2, g3⟩
  · simp only [h1, g1]
    refine ⟨.none, by simp, fun w hw => ⟨fun ⟨_, h⟩ => ?_, fun h => absurd h.symm hw⟩⟩
    rcases h with h | h
    · rw [h] at h1; exact absurd h1 hw
    · rw [h] at g1; exact absurd g1 hw
  · simp only [h1, g3]
    refine ⟨w, by simp, fun w' hw => ⟨fun ⟨_, h⟩ => ?_, fun h => ⟨hw, .inr (by rw [g1, h])⟩⟩⟩
    rcases h with h | h
    · rw [h] at h1; exact absurd h1 hw
    · rw [g1] at h; simpa using h
  · simp only [h3, g1]
    refine ⟨v, by simp [h2], fun w' hw => ⟨fun ⟨_, h⟩ => ?_, fun h => ⟨hw, .inl (by rw [h1, h])⟩⟩⟩
    rcases h with h | h
    · rw [h1] at h; simpa using h
    · rw [h] at g1; exact absurd g1 hw
  · exact absurd ⟨⟨v, h1, h2⟩, w, g1, g2⟩ h

theorem outcome_congr {α : Type} {l l' : List (Prop × PyErr)} {rest : Res α → Prop} {r : Res α} (h : l = l') (h' : Spec.Outcome l rest r) :
    Spec.Outcome l' rest r := h ▸ h'

theorem outcome_mono {α : Type} {l : List (Prop × PyErr)} {rest rest' : Res α → Prop} {r : Res α} (h : Spec.Outcome l rest r)
    (hr : rest r → rest' r) : Spec.Outcome l rest' r := h.imp id fun ⟨h1, h2⟩ => ⟨h1, hr h2⟩

theorem cls_ne_none {c : Cls} : Val.cls c ≠ .none := by simp

/-- `CoseKey.verify` for a key of the right class. -/
theorem verify_outcome {α : Type} {b : Base} {k : Key} {kind : Kind} {ops : List Cls} {alg : Val} {f : Res α} {rest : Res α → Prop}
    (hk : Spec.PlainPolicy k) (hkd : k.kind = kind)
    (hn : Spec.NamesAlgorithms b) (hv : ∀ w, w ≠ .none → (Spec.Value b Hdr.Algorithm w ↔ alg = w)) (h : rest f) :
    Spec.Outcome (Spec.policy b k ops) rest (k.verify kind alg ops >>= fun _ => f) := by
  classical
  subst hkd
  have ho : (k.keyOps = .arr [] ∧ dget k.store (.cls KpKeyOps) = none) ∨ ∃ l, dget k.store (.cls KpKeyOps) = some (.arr l) ∧ k.keyOps = .arr l := by
    rcases hk.2 with h | ⟨l, h⟩
    · exact .inl ⟨by simp [Key.keyOps, getD, h], h⟩
    · exact .inr ⟨l, h, by simp [Key.keyOps, getD, h]⟩
  have hrest : ∀ r : Res α, (r = if (∀ l, dget k.store (.cls KpKeyOps) = some (.arr l) → l = [] ∨ ∃ o ∈ ops, Val.cls o ∈ l) then f else .error .illegalKeyOps) →
      Spec.Outcome [(∀ l, dget k.store (.cls KpKeyOps) = some (.arr l) → l = [] ∨ ∃ o ∈ ops, Val.cls o ∈ l, .illegalKeyOps)] rest r := by
    rintro r rfl
    refine outcome_cons (fun hp => by rw [if_neg hp]) fun hp => outcome_nil (by rw [if_pos hp]; exact h)
  have hops : ((do
      let n ← lenOf k.keyOps
      if n = 0 then Except.ok ()
      else do
        let m ← anyOp k.keyOps ops false
        if m then .ok () else .error .illegalKeyOps) >>= fun _ => f) =
      if (∀ l, dget k.store (.cls KpKeyOps) = some (.arr l) → l = [] ∨ ∃ o ∈ ops, Val.cls o ∈ l) then f else .error .illegalKeyOps := by
    rcases ho with ⟨h1, h2⟩ | ⟨l, h1, h2⟩
    · rw [if_pos (by simp [h2])]
      simp only [h1, lenOf, ok_bind, List.length_nil, if_true]
    · simp only [h2, lenOf, ok_bind, h1, Option.some.injEq, Val.arr.injEq, forall_eq', anyOp_arr]
      by_cases hl : l = []
      · subst hl
        simp only [List.length_nil, if_true, true_or, ok_bind]
      · have hl' : l.length ≠ 0 := by simpa using hl
        simp only [hl', if_false, hl, false_or]
        by_cases ha : ∃ o ∈ ops, Val.cls o ∈ l
        · have : (ops.any fun c => l.contains (.cls c)) = true := by simpa using ha
          rw [if_pos ha, this]; rfl
        · have : (ops.any fun c => l.contains (.cls c)) = false := by simpa using ha
          rw [if_neg ha, this]; rfl
  rcases hk.1 with ha | ⟨i, ha⟩
  · refine outcome_cons (fun hp => absurd (.inl ha) hp) fun _ => outcome_cons (fun hp => absurd (by simp [ha]) hp) fun _ => hrest _ ?_
    rw [← hops]
    have : k.alg = .none := by simp [Key.alg, getD, ha]
    simp [Key.verify, this]
  · have hka : k.alg = algCls i := by simp [Key.alg, getD, ha]
    refine outcome_cons (fun hp => ?_) fun hp => ?_
    · simp only [ha, reduceCtorEq, false_or, not_exists, hv _ cls_ne_none] at hp
      simp only [Key.verify, hka, ne_eq, not_true_eq_false, if_false, reduceCtorEq, identOf, ok_bind]
      cases alg <;> first | rfl | exact absurd rfl (hp _)
    · simp only [ha, reduceCtorEq, false_or] at hp
      obtain ⟨c, hc⟩ := hp
      have hr := hn c hc
      rw [hv _ cls_ne_none] at hc
      subst hc
      obtain ⟨r, j⟩ := c
      simp only at hr; subst hr
      refine outcome_cons (fun hp => ?_) fun hp => hrest _ ?_
      · simp only [ha, Option.some.injEq, forall_eq', hv _ cls_ne_none, Val.cls.injEq, Cls.mk.injEq, true_and] at hp
        simp only [Key.verify, hka, ne_eq, not_true_eq_false, if_false, reduceCtorEq, identOf, ok_bind]
        have : (i != j) = true := by simpa using fun h => hp h.symm
        rw [if_pos this]; rfl
      · simp only [ha, Option.some.injEq, forall_eq', hv _ cls_ne_none, Val.cls.injEq, Cls.mk.injEq, true_and] at hp
        rw [← hops]
        simp only [Key.verify, hka, ne_eq, not_true_eq_false, if_false, reduceCtorEq, identOf, ok_bind, hp, bne_self_eq_false, Bool.false_eq_true]

theorem signMethod_signers {alg : Val} : (∃ i ∈ Spec.signers, alg = algCls i ∧ ∃ f, signMethod alg = .ok f) ∨
    (∀ i ∈ Spec.signers, alg ≠ algCls i) ∧ signMethod alg = .error .attributeError := by
  have all : ∀ i ∈ Spec.signers, (signMethod (algCls i)).toOption.isSome = true := by decide +kernel
  by_cases h : ∃ i ∈ Spec.signers, alg = algCls i
  · obtain ⟨i, hi, rfl⟩ := h
    refine .inl ⟨i, hi, rfl, ?_⟩
    have := all i hi
    cases hs : signMethod (algCls i) with
    | ok f => exact ⟨f, rfl⟩
    | error e => rw [hs] at this; exact absurd this (by simp [Except.toOption])
  · refine .inr ⟨fun i hi ha => h ⟨i, hi, ha⟩, ?_⟩
    unfold signMethod
    split <;> rename_i hf <;> try rfl
    all_goals
      exfalso
      obtain ⟨i, rfl, hr⟩ := algFam_row hf
      refine h ⟨i, ?_, rfl⟩
      simp only [registryRow] at hr
      simp only [Spec.signers, List.mem_append, List.mem_map, List.mem_singleton]
    · exact .inl (.inr ⟨_, by simpa using hr, rfl⟩)
    · exact .inr ⟨_, by simpa using hr, rfl⟩
    · simp only [List.any_eq_true, Bool.and_eq_true, beq_iff_eq] at hr
      obtain ⟨q, hq, ⟨h1, _⟩, _⟩ := hr
      exact .inl (.inl (.inl ⟨q, hq, h1⟩))
    · exact .inl (.inl (.inr (by simpa using hr)))

/-- The steps before the primitive is called, for signing and verifying. -/
theorem signature_use {α : Type} {b : Base} {op : Cls} {f : Key → AlgFam → Res α} {rest : Res α → Prop} (hk : ∀ k, b.key = some k → Spec.PlainPolicy k)
    (hn : Spec.NamesAlgorithms b)
    (h : ∀ k i fam, b.key = some k → k.kind ≠ .sym → i ∈ Spec.signers → Spec.Value b Hdr.Algorithm (algCls i) → signMethod (algCls i) = .ok fam → rest (f k fam)) :
    Spec.Outcome (Spec.signatureUse b op) rest
      (b.getAttr Hdr.Algorithm >>= fun alg => keyVerification b alg op >>= fun k => signMethod alg >>= fun fam => f k fam) := by
  refine outcome_cons (fun hp => ?_) fun hp => ?_
  · rw [getAttr_twice (Classical.not_not.mp hp)]; rfl
  · obtain ⟨alg, ha, hv⟩ := getAttr_value hp
    rw [ha, ok_bind]
    cases hb : b.key with
    | none => exact outcome_cons (fun _ => by simp [keyVerification, hb]) fun hf => hf.elim
    | some k =>
      dsimp only
      refine outcome_cons (fun hp => ?_) fun hp => ?_
      · have : k.kind = .sym := Classical.not_not.mp hp
        simp [keyVerification, hb, this]
      · have hkv : keyVerification b alg op = (k.verify k.kind alg [op] >>= fun _ => .ok k) := by
          unfold keyVerification
          simp only [hb]
          cases hkd : k.kind <;> simp_all
        rw [hkv, bind_assoc]
        refine outcome_append (verify_outcome (hk k hb) rfl hn hv ?_)
        rw [ok_bind]
        rcases signMethod_signers (alg := alg) with ⟨i, hi, rfl, fam, hf⟩ | ⟨h1, h2⟩
        · refine outcome_cons (fun hp => absurd ⟨i, hi, (hv _ cls_ne_none).mpr rfl⟩ hp) fun _ => outcome_nil ?_
          rw [hf, ok_bind]
          exact h k i fam hb hp hi ((hv _ cls_ne_none).mpr rfl) hf
        · refine outcome_cons (fun _ => by rw [h2]; rfl) fun ⟨i, hi, hp⟩ => ?_
          exact absurd ((hv _ cls_ne_none).mp hp) (h1 i hi)

theorem rsaParam_number {k : Key} {c : Cls} (hk : k.kind = .rsa) (hb : Spec.RsaBytes k) (hc : c ∈ [RsaN, RsaE, RsaD, RsaP, RsaQ, RsaDP, RsaDQ, RsaQInv]) :
    ∃ v n, k.rsaParam c = .ok v ∧ intFromBytes v = .ok n := by
  cases h : dget k.store (.cls c) with
  | none => exact ⟨.bytes [], _, by simp [Key.rsaParam, hk, getD, h], rfl⟩
  | some v =>
    obtain ⟨b, rfl⟩ := hb hk c v h hc
    exact ⟨.bytes b, _, by simp [Key.rsaParam, hk, getD, h], rfl⟩

theorem rsaNums_ok {k : Key} (hk : k.kind = .rsa) (hb : Spec.RsaBytes k) : ∃ r, rsaNumsOf k = .ok r := by
  obtain ⟨_, _, h1, g1⟩ := rsaParam_number (c := RsaE) hk hb (by simp)
  obtain ⟨_, _, h2, g2⟩ := rsaParam_number (c := RsaN) hk hb (by simp)
  obtain ⟨_, _, h3, g3⟩ := rsaParam_number (c := RsaP) hk hb (by simp)
  obtain ⟨_, _, h4, g4⟩ := rsaParam_number (c := RsaQ) hk hb (by simp)
  obtain ⟨_, _, h5, g5⟩ := rsaParam_number (c := RsaD) hk hb (by simp)
  obtain ⟨_, _, h6, g6⟩ := rsaParam_number (c := RsaDP) hk hb (by simp)
  obtain ⟨_, _, h7, g7⟩ := rsaParam_number (c := RsaDQ) hk hb (by simp)
  obtain ⟨_, _, h8, g8⟩ := rsaParam_number (c := RsaQInv) hk hb (by simp)
  simp only [rsaNumsOf, h1, h2, h3, h4, h5, h6, h7, h8, ok_bind, g1, g2, g3, g4, g5, g6, g7, g8]
  exact ⟨_, rfl⟩

theorem rsaNums_refused {k : Key} (hk : k.kind ≠ .rsa) : rsaNumsOf k = .error .attributeError := by
  simp [rsaNumsOf, Key.rsaParam, hk]

theorem d_ok {k : Key} (h : k.kind ≠ .sym) : ∃ v, k.d = .ok v := by
  unfold Key.d
  cases hk : k.kind <;> simp_all

theorem fam_rows {i : Int} {fam : AlgFam} (hf : signMethod (algCls i) = .ok fam) :
    (∃ c h, fam = .ecdsa (Spec.curve c) h ∧ (i, c, h) ∈ Spec.ecdsaAlgs ∧ i ∈ Spec.ecdsaAlgs.map (·.1)) ∨
    (fam = .eddsa ∧ i = -8 ∧ i ∉ Spec.ecdsaAlgs.map (·.1)) ∨
    (∃ p h, fam = .rsa p h ∧ (i, p, h) ∈ Spec.rsaAlgs ∧ i ∉ Spec.ecdsaAlgs.map (·.1) ∧ i ≠ -8 ∧ i ∈ Spec.rsaAlgs.map (·.1)) ∨
    (∃ h, fam = .rsaOaep h ∧ i ∈ Spec.oaepAlgs.map (·.1) ∧ i ∉ Spec.ecdsaAlgs.map (·.1) ∧ i ≠ -8 ∧ i ∉ Spec.rsaAlgs.map (·.1)) := by
  have d1 : ∀ q ∈ Spec.rsaAlgs, q.1 ∉ Spec.ecdsaAlgs.map (·.1) ∧ q.1 ≠ -8 := by decide +kernel
  have d2 : ∀ q ∈ Spec.oaepAlgs, q.1 ∉ Spec.ecdsaAlgs.map (·.1) ∧ q.1 ≠ -8 ∧ q.1 ∉ Spec.rsaAlgs.map (·.1) := by decide +kernel
  obtain ⟨i', hi, hr⟩ := algFam_row (signMethod_fam hf)
  simp only [Val.cls.injEq, Cls.mk.injEq, true_and] at hi
  subst hi
  unfold signMethod at hf
  split at hf <;> simp only [Except.ok.injEq, reduceCtorEq] at hf <;> subst hf <;> simp only [registryRow] at hr
  · have hm := List.contains_iff_mem.mp hr
    have := d1 _ hm
    exact .inr (.inr (.inl ⟨_, _, rfl, hm, this.1, this.2, List.mem_map.mpr ⟨_, hm, rfl⟩⟩))
  · have hm := List.contains_iff_mem.mp hr
    have := d2 _ hm
    exact .inr (.inr (.inr ⟨_, rfl, List.mem_map.mpr ⟨_, hm, rfl⟩, this⟩))
  · simp only [List.any_eq_true, Bool.and_eq_true, beq_iff_eq] at hr
    obtain ⟨⟨i', c', h'⟩, hq, ⟨h1, h2⟩, h3⟩ := hr
    simp only at h1 h2 h3
    subst h1 h2 h3
    exact .inl ⟨c', h', rfl, hq, List.mem_map.mpr ⟨_, hq, rfl⟩⟩
  · have : i = -8 := by simpa using hr
    subst this
    exact .inr (.inl ⟨rfl, rfl, by decide⟩)

theorem edCurve_outcome {α : Type} {k : Key} {f : Cls → Res α} {t : List (Prop × PyErr)} {rest : Res α → Prop} (hs : k.kind ≠ .sym)
    (h : ∀ c, k.crv = .ok (.cls c) → Spec.Outcome t rest (f c)) :
    Spec.Outcome ((k.kind ≠ .rsa, .attributeError) :: (∃ c, k.crv = .ok c, .invalidKey) :: (∃ c, k.crv = .ok (.cls c), .attributeError) ::
     (∃ c, k.crv = .ok (.cls c) ∧ fullname c ∈ [b!"ED25519", b!"ED448"], .coseException) :: t) rest (edCurve k >>= f) := by
  refine outcome_cons (fun hp => ?_) fun hp => outcome_cons (fun hp' => ?_) fun hp' => outcome_cons (fun hp'' => ?_) fun hp'' =>
    outcome_cons (fun h3 => ?_) fun h3 => ?_
  · have : k.kind = .rsa := Classical.not_not.mp hp
    simp [edCurve, Key.crv, this]
  · have : k.crv = .error .invalidKey := by
      revert hp'
      unfold Key.crv
      cases hk : k.kind <;> first | contradiction | skip
      all_goals
        simp only
        split <;> simp
    simp [edCurve, this]
  · obtain ⟨v, hv⟩ := hp'
    simp only [edCurve, hv, ok_bind]
    cases v <;> first | rfl | exact absurd ⟨_, hv⟩ hp''
  · obtain ⟨c, hv⟩ := hp''
    simp only [edCurve, hv, ok_bind]
    have : ¬ (fullname c = b!"ED25519" ∨ fullname c = b!"ED448") := fun hh => h3 ⟨c, hv, by simpa using hh⟩
    rw [if_neg this]; rfl
  · obtain ⟨c, hv, hc⟩ := h3
    rw [edCurve_iff.mpr ⟨hv, hc⟩, ok_bind]
    exact h c hv

theorem sign_call {C : Crypto} {rnd : Bytes} {i : Int} {k : Key} {data : Bytes} {fam : AlgFam} (hs : k.kind ≠ .sym) (hb : Spec.RsaBytes k)
    (hf : signMethod (algCls i) = .ok fam) :
    Spec.Outcome (Spec.signingKey i k) (Spec.SignCall C rnd i k data) (callSign C rnd fam k data) := by
  obtain ⟨d, hd⟩ := d_ok hs
  have hbytes : ∀ {e : PyErr}, (¬ ∃ b, k.d = .ok (.bytes b)) → asBytes e d = .error e := by
    intro e hp
    cases d <;> first | rfl | exact absurd ⟨_, hd⟩ hp
  rcases fam_rows hf with ⟨c, h, rfl, hm, hi⟩ | ⟨rfl, rfl, hi⟩ | ⟨p, h, rfl, hm, h1, h2, h3⟩ | ⟨h, rfl, h4, h1, h2, h3⟩
  · rw [Spec.signingKey, if_pos hi]
    simp only [callSign]
    refine outcome_cons (fun hp => ?_) fun hp => outcome_cons (fun hp' => ?_) fun hp' => outcome_nil ?_
    · rw [hd, ok_bind]
      cases d <;> first | rfl | exact absurd ⟨_, hd⟩ hp
    · rw [Classical.not_not.mp hp']; rfl
    · obtain ⟨d', hd'⟩ := hp
      have hne : d' ≠ [] := by rintro rfl; exact hp' hd'
      rw [hd', ok_bind, intFromHex_bytes hne, ok_bind]
      exact .ecdsa hm hd'
  · rw [Spec.signingKey, if_neg hi, if_pos rfl]
    simp only [callSign]
    refine edCurve_outcome hs fun c hc => outcome_cons (fun hp => ?_) fun ⟨d', hp⟩ => outcome_nil ?_
    · rw [hd, ok_bind, hbytes hp]; rfl
    · rw [hp]; exact .eddsa rfl hc hp
  · rw [Spec.signingKey, if_neg h1, if_neg h2]
    simp only [callSign]
    refine outcome_cons (fun hp => by rw [rsaNums_refused hp]; rfl) fun hp => outcome_nil ?_
    obtain ⟨r, hr⟩ := rsaNums_ok hp hb
    rw [hr]
    exact .rsa hm (rsaNums_iff.mp hr)
  · rw [Spec.signingKey, if_neg h1, if_neg h2]
    simp only [callSign]
    refine outcome_cons (fun hp => by rw [rsaNums_refused hp]; rfl) fun hp => outcome_nil ?_
    obtain ⟨r, hr⟩ := rsaNums_ok hp hb
    rw [hr]
    exact .oaep h4

theorem verify_call {C : Crypto} {i : Int} {k : Key} {data : Bytes} {sig : Val} {fam : AlgFam} (hs : k.kind ≠ .sym) (hb : Spec.RsaBytes k)
    (hf : signMethod (algCls i) = .ok fam) :
    Spec.Outcome (Spec.verifyingKey i k sig) (Spec.VerifyCall C i k data sig) (callVerify C fam k data sig) := by
  have hsig : (¬ ∃ s, sig = .bytes s) → asBytes .typeError sig = .error .typeError := by
    intro hp
    cases sig <;> first | rfl | exact absurd ⟨_, rfl⟩ hp
  have hx : k.kind ≠ .rsa → ∃ x, k.x = .ok x := by
    intro h
    unfold Key.x
    cases hk : k.kind <;> simp_all
  rcases fam_rows hf with ⟨c, h, rfl, hm, hi⟩ | ⟨rfl, rfl, hi⟩ | ⟨p, h, rfl, hm, h1, h2, h3⟩ | ⟨h, rfl, h4, h1, h2, h3⟩
  · rw [Spec.verifyingKey, if_pos hi]
    simp only [callVerify]
    refine outcome_cons (fun hp => ?_) fun hr => ?_
    · have : k.kind = .rsa := Classical.not_not.mp hp
      simp [Key.x, this]
    · obtain ⟨x, hx⟩ := hx hr
      refine outcome_cons (fun hp => ?_) fun hp => outcome_cons (fun hp' => ?_) fun hp' => ?_
      · rw [hx, ok_bind]
        cases x <;> first | rfl | exact absurd ⟨_, hx⟩ hp
      · rw [Classical.not_not.mp hp']; rfl
      · obtain ⟨x', hx'⟩ := hp
        have hne : x' ≠ [] := by rintro rfl; exact hp' hx'
        rw [hx', ok_bind, intFromHex_bytes hne, ok_bind]
        refine outcome_cons (fun hp => by cases hk : k.kind <;> simp_all [Key.y]) fun hp => ?_
        have hy : ∃ y, k.y = .ok y := by simp [Key.y, hp]
        obtain ⟨y, hy⟩ := hy
        refine outcome_cons (fun hp => ?_) fun hp => outcome_cons (fun hp' => ?_) fun hp' => ?_
        · rw [hy, ok_bind]
          cases y <;> first | rfl | exact absurd ⟨_, hy⟩ hp
        · rw [Classical.not_not.mp hp']; rfl
        · obtain ⟨y', hy'⟩ := hp
          have hne' : y' ≠ [] := by rintro rfl; exact hp' hy'
          rw [hy', ok_bind, intFromHex_bytes hne', ok_bind]
          refine outcome_cons (fun hp => by rw [hsig hp]; rfl) fun ⟨s, hp⟩ => outcome_nil ?_
          subst hp
          exact .ecdsa hm hx' hy' rfl
  · rw [Spec.verifyingKey, if_neg hi, if_pos rfl]
    simp only [callVerify]
    refine edCurve_outcome hs fun c hc => ?_
    have hr : k.kind ≠ .rsa := by intro h; simp [Key.crv, h] at hc
    obtain ⟨x, hx⟩ := hx hr
    refine outcome_cons (fun hp => ?_) fun ⟨x', hp⟩ => ?_
    · rw [hx, ok_bind]
      cases x <;> first | rfl | exact absurd ⟨_, hx⟩ hp
    · rw [hp]
      refine outcome_cons (fun hp => by rw [ok_bind, show asBytes PyErr.typeError (.bytes x') = .ok x' from rfl, ok_bind, hsig hp]; rfl) fun ⟨s, hp'⟩ => outcome_nil ?_
      subst hp'
      exact .eddsa rfl hc hp rfl
  · rw [Spec.verifyingKey, if_neg h1, if_neg h2, if_pos h3]
    simp only [callVerify]
    refine outcome_cons (fun hp => by simp [Key.rsaParam, hp]) fun hp => ?_
    obtain ⟨ve, e, he, he'⟩ := rsaParam_number (c := RsaE) hp hb (by simp)
    obtain ⟨vn, n, hn, hn'⟩ := rsaParam_number (c := RsaN) hp hb (by simp)
    simp only [he, he', hn, hn', ok_bind]
    refine outcome_cons (fun hp => by simp only [hsig hp]; rfl) fun ⟨s, hp'⟩ => outcome_nil ?_
    subst hp'
    exact .rsa hm ⟨_, hn, intFromBytes_iff.mp hn'⟩ ⟨_, he, intFromBytes_iff.mp he'⟩ rfl
  · rw [Spec.verifyingKey, if_neg h1, if_neg h2, if_neg h3]
    simp only [callVerify]
    refine outcome_cons (fun hp => by simp [Key.rsaParam, hp]) fun hp => outcome_nil ?_
    obtain ⟨ve, e, he, he'⟩ := rsaParam_number (c := RsaE) hp hb (by simp)
    obtain ⟨vn, n, hn, hn'⟩ := rsaParam_number (c := RsaN) hp hb (by simp)
    simp only [he, he', hn, hn', ok_bind]
    exact .oaep h4

/-- The attached and external data of a message are of CBOR length and its protected header can be written. -/
structure Spec.FitsStructure (b : Base) : Prop where
  phdr : Spec.BoundProtected b
  aad : b.aad.length < 2 ^ 64
  payload : Spec.ShortPayload b.payload

theorem sign1_structure_outcome {m : Sign1} {det : Option Bytes} (hf : Spec.FitsStructure m.base) (hd : Spec.ShortPayload det) :
    ((∃ p, Spec.OnePayload m.base.payload det p) ∧ ∃ d, m.sigStructure det = .ok d) ∨ (¬ ∃ p, Spec.OnePayload m.base.payload det p) ∧ m.sigStructure det = .error .coseException := by
  by_cases h : ∃ p, Spec.OnePayload m.base.payload det p
  · obtain ⟨p, hp⟩ := h
    refine .inl ⟨⟨p, hp⟩, c81_sign1_structure.mpr ⟨hf.phdr, hf.aad, p, hp, ?_⟩⟩
    rcases hp with ⟨h1, h2⟩ | ⟨h1, h2⟩
    · exact hf.payload _ h1
    · exact hd _ h2
  · refine .inr ⟨h, ?_⟩
    obtain ⟨pe, hpe, _⟩ := bound_iff.mpr hf.phdr
    have hb : m.base.baseStructure = .ok [.bytes pe, .bytes m.base.aad] := baseStructure_iff.mpr ⟨pe, hpe, rfl⟩
    have hc : choosePayload m.base.payload det = .error .coseException := by
      unfold choosePayload
      unfold Spec.OnePayload at h
      cases hp : m.base.payload <;> cases hq : det <;> simp_all
    simp only [Sign1.sigStructure, hb, ok_bind, hc]; rfl

theorem signer_structure_outcome {p s : Base} {det : Option Bytes} (hp : Spec.ShortProtected p) (hpl : Spec.ShortPayload p.payload)
    (hs : Spec.BoundProtected s) (ha : s.aad.length < 2 ^ 64) (hd : Spec.ShortPayload det) :
    ((∃ pl, Spec.OnePayload p.payload det pl) ∧ ∃ d, signerStructure p s det = .ok d) ∨ (¬ ∃ pl, Spec.OnePayload p.payload det pl) ∧ signerStructure p s det = .error .coseException := by
  by_cases h : ∃ pl, Spec.OnePayload p.payload det pl
  · obtain ⟨pl, h⟩ := h
    refine .inl ⟨⟨pl, h⟩, c81_signer_structure.mpr ⟨hp, hs, ha, pl, h, ?_⟩⟩
    rcases h with ⟨h1, h2⟩ | ⟨h1, h2⟩
    · exact hpl _ h1
    · exact hd _ h2
  · refine .inr ⟨h, ?_⟩
    obtain ⟨pe, hpe, _⟩ := hp
    have hc : choosePayload p.payload det = .error .coseException := by
      unfold choosePayload
      unfold Spec.OnePayload at h
      cases hp : p.payload <;> cases hq : det <;> simp_all
    obtain ⟨se, hse, _⟩ := bound_iff.mpr hs
    unfold signerStructure
    rw [hpe, ok_bind]
    by_cases h0 : s.phdr = []
    · simp only [h0, List.length_nil, ne_eq, not_true_eq_false, if_false, ok_bind, hc]; rfl
    · have hl : s.phdr.length ≠ 0 := by simpa using h0
      rw [if_neg h0] at hse
      simp only [hl, ne_eq, not_false_eq_true, if_true, hse, ok_bind, hc]; rfl

/-- What signing gives once the requirements on headers, key and payload are met. -/
def Spec.SignsWith (C : Crypto) (rnd : Bytes) (b : Base) (tbs : Res Bytes) (r : Res Bytes) : Prop :=
  ∃ k i data, b.key = some k ∧ i ∈ Spec.signers ∧ Spec.Value b Hdr.Algorithm (algCls i) ∧ tbs = .ok data ∧
    Spec.Outcome (Spec.signingKey i k) (Spec.SignCall C rnd i k data) r

/-- The same for verifying. -/
def Spec.VerifiesWith (C : Crypto) (b : Base) (tbs : Res Bytes) (sig : Val) (r : Res Bool) : Prop :=
  ∃ k i data, b.key = some k ∧ i ∈ Spec.signers ∧ Spec.Value b Hdr.Algorithm (algCls i) ∧ tbs = .ok data ∧
    Spec.Outcome (Spec.verifyingKey i k sig) (Spec.VerifyCall C i k data sig) r

/-- The keys are as every way to make a key leaves them. -/
def Spec.OrdinaryKey (b : Base) : Prop := ∀ k, b.key = some k → Spec.PlainPolicy k ∧ Spec.RsaBytes k

theorem compute_outcome {C : Crypto} {rnd : Bytes} {b : Base} {tbs : Res Bytes} {q : Prop} (hk : Spec.OrdinaryKey b)
    (hn : Spec.NamesAlgorithms b) (ht : (q ∧ ∃ d, tbs = .ok d) ∨ ¬ q ∧ tbs = .error .coseException) :
    Spec.Outcome (Spec.signatureUse b Op.Sign ++ [(q, .coseException)]) (Spec.SignsWith C rnd b tbs) (computeSignature C rnd b tbs) := by
  refine outcome_append (signature_use (f := fun k fam => tbs >>= fun data => callSign C rnd fam k data) (fun k h => (hk k h).1) hn ?_)
  intro k i fam hb hs hi hv hf
  rcases ht with ⟨hq, d, hd⟩ | ⟨hq, hd⟩
  · refine outcome_cons (fun h => absurd hq h) fun _ => outcome_nil ⟨k, i, d, hb, hi, hv, hd, ?_⟩
    rw [hd]
    exact sign_call hs (hk k hb).2 hf
  · exact outcome_cons (fun _ => by rw [hd]; rfl) fun h => absurd h hq

theorem verifies_outcome {C : Crypto} {b : Base} {tbs : Res Bytes} {sig : Val} {q : Prop} (hk : Spec.OrdinaryKey b)
    (hn : Spec.NamesAlgorithms b) (ht : (q ∧ ∃ d, tbs = .ok d) ∨ ¬ q ∧ tbs = .error .coseException) :
    Spec.Outcome (Spec.signatureUse b Op.Verify ++ [(q, .coseException)]) (Spec.VerifiesWith C b tbs sig) (verifySignature C b tbs sig) := by
  refine outcome_append (signature_use (f := fun k fam => tbs >>= fun data => callVerify C fam k data sig) (fun k h => (hk k h).1) hn ?_)
  intro k i fam hb hs hi hv hf
  rcases ht with ⟨hq, d, hd⟩ | ⟨hq, hd⟩
  · refine outcome_cons (fun h => absurd hq h) fun _ => outcome_nil ⟨k, i, d, hb, hi, hv, hd, ?_⟩
    rw [hd]
    exact verify_call hs (hk k hb).2 hf
  · exact outcome_cons (fun _ => by rw [hd]; rfl) fun h => absurd h hq

/-! ### MAC -/

theorem macMethod_macs {alg : Val} : (∃ i ∈ Spec.macs, alg = algCls i ∧ ∃ f, macMethod alg = .ok f) ∨
    (∀ i ∈ Spec.macs, alg ≠ algCls i) ∧ macMethod alg = .error .attributeError := by
  have all : ∀ i ∈ Spec.macs, (macMethod (algCls i)).toOption.isSome = true := by decide +kernel
  by_cases h : ∃ i ∈ Spec.macs, alg = algCls i
  · obtain ⟨i, hi, rfl⟩ := h
    refine .inl ⟨i, hi, rfl, ?_⟩
    have := all i hi
    cases hs : macMethod (algCls i) with
    | ok f => exact ⟨f, rfl⟩
    | error e => rw [hs] at this; exact absurd this (by simp [Except.toOption])
  · refine .inr ⟨fun i hi ha => h ⟨i, hi, ha⟩, ?_⟩
    unfold macMethod
    split <;> rename_i hf <;> try rfl
    all_goals
      exfalso
      obtain ⟨i, rfl, h1, h2⟩ := mac_row hf
      refine h ⟨i, ?_, rfl⟩
      simp only [Spec.macs, List.mem_append, List.mem_map]
    · exact .inr ⟨_, h2 _ _ rfl, rfl⟩
    · exact .inl ⟨_, h1 _ _ rfl, rfl⟩

theorem secret_outcome {α : Type} {k : Key} {f : Bytes → Res α} {t : List (Prop × PyErr)} {rest : Res α → Prop} (hs : k.kind = .sym)
    (h : ∀ kb, dget k.store (.cls SymK) = some (.bytes kb) → Spec.Outcome t rest (f kb)) :
    Spec.Outcome (Spec.secret k ++ t) rest (k.symK >>= fun kk => asBytes .typeError kk >>= f) := by
  refine outcome_cons (fun hp => ?_) fun hp => outcome_cons (fun hp' => ?_) fun ⟨kb, hp'⟩ => ?_
  · simp [Key.symK, hs, Classical.not_not.mp hp]
  · cases hv : dget k.store (.cls SymK) with
    | none => exact absurd hv hp
    | some v =>
      simp only [Key.symK, hs, hv, if_true, ok_bind]
      cases v <;> first | rfl | exact absurd ⟨_, hv⟩ hp'
  · simp only [Key.symK, hs, hp', if_true, ok_bind, asBytes]
    exact h kb hp'

theorem mac_structure_outcome {ctx : Bytes} {b : Base} (hc : ctx ∈ [b!"MAC0", b!"MAC"]) (hf : Spec.FitsStructure b) :
    (b.payload ≠ none ∧ ∃ d, macStructure ctx b = .ok d) ∨ b.payload = none ∧ macStructure ctx b = .error .valueError := by
  cases hp : b.payload with
  | some p => exact .inl ⟨by simp, (c81_mac_structure hc).mpr ⟨hf.phdr, hf.aad, p, hp, hf.payload _ hp⟩⟩
  | none =>
    refine .inr ⟨rfl, ?_⟩
    obtain ⟨pe, hpe, _⟩ := bound_iff.mpr hf.phdr
    have hb : b.baseStructure = .ok [.bytes pe, .bytes b.aad] := baseStructure_iff.mpr ⟨pe, hpe, rfl⟩
    simp only [macStructure, hb, ok_bind, hp]

/-- What computing a tag gives once the requirements are met: a tag (which one, says C52), or what the AES library raises for this key. -/
def Spec.TagsWith {α : Type} (C : Crypto) (ctx : Bytes) (b : Base) (answer : Bytes → α) (r : Res α) : Prop :=
  ∃ k kb i data, b.key = some k ∧ dget k.store (.cls SymK) = some (.bytes kb) ∧ i ∈ Spec.macs ∧ Spec.Value b Hdr.Algorithm (algCls i) ∧
    Cose.macStructure ctx b = .ok data ∧ ((∃ t, r = .ok (answer t)) ∨
      i ∈ Spec.cbcMacAlgs.map (·.1) ∧ ∃ pad e, pad < 16 ∧ (data.length + pad) % 16 = 0 ∧ C.aesCbc kb (data ++ List.replicate pad 0) = .error e ∧ r = .error e)

theorem tag_use {α : Type} {C : Crypto} {ctx : Bytes} {b : Base} {op : Cls} {answer : Bytes → α} (hc : ctx ∈ [b!"MAC0", b!"MAC"])
    (hk : Spec.OrdinaryKey b) (hn : Spec.NamesAlgorithms b) (hf : Spec.FitsStructure b) :
    Spec.Outcome (Spec.tagUse b op) (Spec.TagsWith C ctx b answer)
      (b.getAttr Hdr.Algorithm >>= fun alg => match b.key with
        | none => .error .coseException
        | some k => k.verify .sym alg [op] >>= fun _ => macMethod alg >>= fun f => macStructure ctx b >>= fun data =>
            callTag C f k data >>= fun t => .ok (answer t)) := by
  refine outcome_cons (fun hp => ?_) fun hp => ?_
  · rw [getAttr_twice (Classical.not_not.mp hp)]; rfl
  · obtain ⟨alg, ha, hv⟩ := getAttr_value hp
    rw [ha, ok_bind]
    cases hb : b.key with
    | none => exact outcome_cons (fun _ => rfl) fun hf => hf.elim
    | some k =>
      dsimp only
      rw [List.cons_append, List.cons_append]
      refine outcome_cons (fun hp => by simp [Key.verify, hp]) fun hs => ?_
      rw [List.append_assoc]
      refine outcome_append (verify_outcome (hk k hb).1 hs hn hv ?_)
      rcases macMethod_macs (alg := alg) with ⟨i, hi, rfl, fam, hm⟩ | ⟨h1, h2⟩
      · have hva := (hv _ cls_ne_none).mpr (rfl : algCls i = algCls i)
        refine outcome_cons (fun hp => absurd ⟨i, hi, hva⟩ hp) fun _ => ?_
        rw [hm, ok_bind]
        rcases mac_structure_outcome hc hf with ⟨hq, d, hd⟩ | ⟨hq, hd⟩
        · refine outcome_cons (fun h => absurd hq h) fun _ => ?_
          rw [hd, ok_bind]
          obtain ⟨i', hi', hh, hcb⟩ := mac_row (macMethod_fam hm)
          simp only [Val.cls.injEq, Cls.mk.injEq, true_and] at hi'
          subst hi'
          have hcall : ∃ g : Bytes → Res Bytes, (callTag C fam k d = k.symK >>= fun kk => asBytes .typeError kk >>= g) ∧
              ∀ kb, (∃ t, g kb = .ok t) ∨ i ∈ Spec.cbcMacAlgs.map (·.1) ∧ ∃ e, C.aesCbc kb (zeroPad d) = .error e ∧ g kb = .error e := by
            unfold macMethod at hm
            split at hm <;> simp only [Except.ok.injEq, reduceCtorEq] at hm <;> subst hm
            · refine ⟨_, rfl, fun kb => ?_⟩
              cases h : C.aesCbc kb (zeroPad d) with
              | error e => exact .inr ⟨List.mem_map.mpr ⟨_, hcb _ _ rfl, rfl⟩, e, rfl, rfl⟩
              | ok c => left; simp only [ok_bind]; split <;> exact ⟨_, rfl⟩
            · exact ⟨_, rfl, fun kb => .inl ⟨_, rfl⟩⟩
          obtain ⟨g, hg, hgk⟩ := hcall
          have := secret_outcome (t := []) (f := fun kb => g kb >>= fun t => Except.ok (answer t)) (rest := Spec.TagsWith C ctx b answer) hs ?_
          · rw [hg]
            simp only [List.append_nil, bind_assoc] at this ⊢
            exact this
          · intro kb hkb
            refine outcome_nil ⟨k, kb, i, d, hb, hkb, hi, hva, hd, ?_⟩
            rcases hgk kb with ⟨t, ht⟩ | ⟨h1, e, h2, h3⟩
            · exact .inl ⟨t, by simp only [ht, ok_bind]⟩
            · obtain ⟨pad, hp1, hp2, hp⟩ := zeroPad_spec d
              exact .inr ⟨h1, pad, e, hp1, hp2, hp ▸ h2, by simp only [h3]; rfl⟩
        · exact outcome_cons (fun _ => by rw [hd]; rfl) fun h => absurd hq h
      · refine outcome_cons (fun _ => by rw [h2]; rfl) fun ⟨i, hi, hp⟩ => ?_
        exact absurd ((hv _ cls_ne_none).mp hp) (h1 i hi)

/-! ### Encryption -/

theorem encMethod_aeads {alg : Val} : (∃ i a, (i, a) ∈ Spec.aeadAlgs ∧ alg = algCls i ∧ encMethod alg = .ok a) ∨
    (∀ i ∈ Spec.aeadAlgs.map (·.1), alg ≠ algCls i) ∧ encMethod alg = .error .attributeError := by
  cases h : encMethod alg with
  | ok a =>
    obtain ⟨_, hf⟩ := encMethod_fam h
    obtain ⟨i, rfl, hr⟩ := algFam_row hf
    exact .inl ⟨i, a, by simpa [registryRow] using hr, rfl, rfl⟩
  | error e =>
    refine .inr ⟨?_, ?_⟩
    · rintro i hi rfl
      obtain ⟨p, hp, rfl⟩ := List.mem_map.mp hi
      rw [aead_row p hp] at h
      simp at h
    · unfold encMethod at h
      split at h
      · simp at h
      · exact h.symm ▸ rfl

/-- The initialisation vectors are byte strings: the one of the key, and the partial one in the headers. -/
def Spec.IvBytes (b : Base) : Prop :=
  (∀ k, b.key = some k → ∃ iv, k.baseIv = .bytes iv) ∧ ∀ v, Spec.Value b Hdr.PartialIV v → ∃ p, v = .bytes p

theorem value_none {b : Base} {c : Cls} {v : Val} (hv : ∀ w, w ≠ .none → (Spec.Value b c w ↔ v = w)) : (∃ w, Spec.Value b c w) ↔ v ≠ .none := by
  constructor
  · rintro ⟨w, hw⟩
    have := (hv w hw.1).mp hw
    rw [this]; exact hw.1
  · intro h; exact ⟨v, (hv v h).mpr rfl⟩

theorem nonce_use {α : Type} {b : Base} {k : Key} {f : Val → Res α} {t : List (Prop × PyErr)} {rest : Res α → Prop} (hb : b.key = some k)
    (hi : Spec.IvBytes b)
    (h : ∀ n, getNonce b = .ok n → ((∀ v, Spec.Value b Hdr.IV v → ∃ n, v = .bytes n) ↔ ∃ nb, n = .bytes nb) → Spec.Outcome t rest (f n)) :
    Spec.Outcome (Spec.nonceUse b k ++ t) rest (getNonce b >>= f) := by
  refine outcome_cons (fun hp => ?_) fun hp => ?_
  · simp [getNonce, getAttr_twice (Classical.not_not.mp hp)]
  · obtain ⟨iv, ha, hv⟩ := getAttr_value hp
    have hval := value_none hv
    by_cases hiv : iv = .none
    · have hno : ¬ ∃ w, Spec.Value b Hdr.IV w := by rw [hval]; simpa using hiv
      have hall : ∀ v, Spec.Value b Hdr.IV v → ∃ n, v = .bytes n := fun v hv => absurd ⟨v, hv⟩ hno
      simp only [hno, false_or]
      refine outcome_cons (fun hp => ?_) fun hp => outcome_cons (fun hp' => ?_) fun hp' => ?_
      · simp only [getNonce, ha, ok_bind, hiv, hb, hp]; rfl
      · simp only [getNonce, ha, ok_bind, hiv, hb, getAttr_twice (Classical.not_not.mp hp')]
        rw [if_pos hp]; rfl
      · obtain ⟨pv, hpa, hpv⟩ := getAttr_value hp'
        have hpval := value_none hpv
        obtain ⟨biv, hbiv⟩ := hi.1 k hb
        refine outcome_cons (fun h3 => ?_) fun h3 => ?_
        · have hpn : pv = .none := by rw [hpval] at h3; simpa using h3
          simp only [getNonce, ha, ok_bind, hiv, hb, hpa, hpn, intFromBytes]
          rw [if_pos hp]; rfl
        · obtain ⟨w, hw⟩ := h3
          obtain ⟨pb, rfl⟩ := hi.2 w hw
          have := (hpv _ hw.1).mp hw
          subst this
          have hg : getNonce b = .ok (.bytes (beBytes ((bitLength (natOfBytes pb ^^^ natOfBytes biv) + 7) / 8) (natOfBytes pb ^^^ natOfBytes biv))) := by
            rw [hbiv] at hp
            simp only [getNonce, ha, ok_bind, hiv, hb, hpa, intFromBytes, hbiv, ne_eq, hp, not_true_eq_false, not_false_eq_true, if_true, if_false]
          rw [hg, ok_bind]
          exact h _ hg ⟨fun _ => ⟨_, rfl⟩, fun _ => hall⟩
    · have hyes : ∃ w, Spec.Value b Hdr.IV w := hval.mpr hiv
      simp only [hyes, true_or]
      refine outcome_cons (fun h => absurd trivial h) fun _ => outcome_cons (fun h => absurd trivial h) fun _ => outcome_cons (fun h => absurd trivial h) fun _ => ?_
      have hg : getNonce b = .ok iv := by simp [getNonce, ha, hiv]
      rw [hg, ok_bind]
      refine h _ hg ⟨fun h => h iv ((hv iv hiv).mpr rfl), ?_⟩
      rintro ⟨nb, rfl⟩ v hv'
      exact ⟨nb, ((hv v hv'.1).mp hv').symm⟩

theorem enc_structure_ok {ctx : Bytes} {b : Base} (hc : ctx ∈ [b!"Encrypt0", b!"Encrypt", b!"Enc_Recipient", b!"Mac_Recipient", b!"Rec_Recipient"])
    (hf : Spec.FitsStructure b) : ∃ d, encStructure ctx b = .ok d := (c81_enc_structure hc).mpr ⟨hf.phdr, hf.aad⟩

theorem aead_use {ctx : Bytes} {b : Base} {k : Key} {op : Cls} {alg nonce : Val} {prim : Aead → Bytes → Bytes → Bytes → Bytes → Res Bytes}
    (hc : ctx ∈ [b!"Encrypt0", b!"Encrypt", b!"Enc_Recipient", b!"Mac_Recipient", b!"Rec_Recipient"])
    (hk : Spec.PlainPolicy k) (hn : Spec.NamesAlgorithms b) (hf : Spec.FitsStructure b) (hb : b.key = some k)
    (ha : b.getAttr Hdr.Algorithm = .ok alg) (hv : ∀ w, w ≠ .none → (Spec.Value b Hdr.Algorithm w ↔ alg = w)) (hg : getNonce b = .ok nonce)
    (hnb : (∀ v, Spec.Value b Hdr.IV v → ∃ n, v = .bytes n) ↔ ∃ nb, nonce = .bytes nb) :
    Spec.Outcome (Spec.aeadUse b k op) (fun r => ∃ a key nonce aad text, Spec.Sealing ctx b a key nonce aad text ∧ r = prim a key nonce aad text)
      (k.verify .sym alg [op] >>= fun _ => encMethod alg >>= fun a => encStructure ctx b >>= fun aad => k.symK >>= fun kk =>
        asBytes .typeError kk >>= fun kb => asBytes .typeError nonce >>= fun n => match b.payload with
          | some d => prim a kb n aad d
          | none => .error .typeError) := by
  unfold Spec.aeadUse
  rw [List.cons_append, List.cons_append, List.cons_append]
  refine outcome_cons (fun hp => by simp [Key.verify, hp]) fun hs => ?_
  rw [List.append_assoc, List.append_assoc]
  refine outcome_append (verify_outcome hk hs hn hv ?_)
  rcases encMethod_aeads (alg := alg) with ⟨i, a, hi, rfl, hm⟩ | ⟨h1, h2⟩
  · have hva := (hv _ cls_ne_none).mpr (rfl : algCls i = algCls i)
    refine outcome_cons (fun hp => absurd ⟨i, List.mem_map.mpr ⟨_, hi, rfl⟩, hva⟩ hp) fun _ => ?_
    obtain ⟨aad, haad⟩ := enc_structure_ok hc hf
    rw [hm, ok_bind, haad, ok_bind]
    refine secret_outcome hs fun kb hkb => outcome_cons (fun hp => ?_) fun hp => ?_
    · rw [hnb] at hp
      cases nonce <;> first | rfl | exact absurd ⟨_, rfl⟩ hp
    · obtain ⟨nb, rfl⟩ := hnb.mp hp
      refine outcome_cons (fun hp => ?_) fun hp => ?_
      · rw [Classical.not_not.mp hp]; rfl
      · cases hpl : b.payload with
        | none => exact absurd hpl hp
        | some d =>
          refine outcome_nil ⟨a, kb, nb, aad, d, ⟨⟨i, ha, hi⟩, ⟨k, hb, ?_⟩, hg, haad, hpl⟩, rfl⟩
          simp [Key.symK, hs, hkb]
  · refine outcome_cons (fun _ => by rw [h2]; rfl) fun ⟨i, hi, hp⟩ => ?_
    exact absurd ((hv _ cls_ne_none).mp hp) (h1 i hi)

theorem encrypt_outcome {C : Crypto} {ctx : Bytes} {b : Base} (hc : ctx ∈ [b!"Encrypt0", b!"Encrypt", b!"Enc_Recipient", b!"Mac_Recipient", b!"Rec_Recipient"])
    (hk : Spec.OrdinaryKey b) (hn : Spec.NamesAlgorithms b) (hf : Spec.FitsStructure b) (hi : Spec.IvBytes b) :
    Spec.Outcome (Spec.encryptUse b) (fun r => ∃ a key nonce aad text, Spec.Sealing ctx b a key nonce aad text ∧ r = C.aeadEnc a key nonce aad text)
      (encEncrypt C ctx b) := by
  unfold Spec.encryptUse encEncrypt
  cases hb : b.key with
  | none => exact outcome_cons (fun _ => rfl) fun h => h.elim
  | some k =>
    simp only
    refine outcome_cons (fun hp => ?_) fun hp => ?_
    · rw [getAttr_twice (Classical.not_not.mp hp)]; rfl
    · obtain ⟨alg, ha, hv⟩ := getAttr_value hp
      rw [ha, ok_bind]
      refine nonce_use hb hi fun n hg hnb => ?_
      exact aead_use (prim := C.aeadEnc) hc (hk k hb).1 hn hf hb ha hv hg hnb

theorem decrypt_outcome {C : Crypto} {ctx : Bytes} {b : Base} (hc : ctx ∈ [b!"Encrypt0", b!"Encrypt", b!"Enc_Recipient", b!"Mac_Recipient", b!"Rec_Recipient"])
    (hk : Spec.OrdinaryKey b) (hn : Spec.NamesAlgorithms b) (hf : Spec.FitsStructure b) (hi : Spec.IvBytes b) :
    Spec.Outcome (Spec.decryptUse b) (fun r => ∃ a key nonce aad text, Spec.Sealing ctx b a key nonce aad text ∧ r = C.aeadDec a key nonce aad text)
      (encDecrypt C ctx b) := by
  unfold Spec.decryptUse encDecrypt
  refine outcome_cons (fun hp => ?_) fun hp => ?_
  · rw [getAttr_twice (Classical.not_not.mp hp)]; rfl
  · obtain ⟨alg, ha, hv⟩ := getAttr_value hp
    rw [ha, ok_bind]
    cases hb : b.key with
    | none =>
      refine outcome_cons (fun hp => ?_) fun hp => ?_
      · simp [getNonce, getAttr_twice (Classical.not_not.mp hp)]
      · obtain ⟨iv, ha', hv'⟩ := getAttr_value hp
        refine outcome_cons (fun h => ?_) fun h => outcome_cons (fun _ => ?_) fun h => h.elim
        · rw [value_none hv'] at h
          have : iv = .none := by simpa using h
          simp [getNonce, ha', this, hb]
        · rw [value_none hv'] at h
          simp [getNonce, ha', h]
    | some k =>
      simp only
      refine nonce_use hb hi fun n hg hnb => ?_
      exact aead_use (prim := C.aeadDec) hc (hk k hb).1 hn hf hb ha hv hg hnb

/-! ### C91 -/

/-- C91: signing a COSE_Sign1 message. -/
theorem c91_sign1 {C : Crypto} {rnd : Bytes} {m : Sign1} {det : Option Bytes} (hk : Spec.OrdinaryKey m.base) (hn : Spec.NamesAlgorithms m.base)
    (hf : Spec.FitsStructure m.base) (hd : Spec.ShortPayload det) :
    Spec.Outcome (Spec.signatureUse m.base Op.Sign ++ [(∃ p, Spec.OnePayload m.base.payload det p, .coseException)])
      (Spec.SignsWith C rnd m.base (m.sigStructure det)) (m.computeSignature C rnd det) :=
  compute_outcome hk hn (sign1_structure_outcome hf hd)

/-- C91: verifying a COSE_Sign1 message. -/
theorem c91_sign1_verify {C : Crypto} {m : Sign1} {det : Option Bytes} (hk : Spec.OrdinaryKey m.base) (hn : Spec.NamesAlgorithms m.base)
    (hf : Spec.FitsStructure m.base) (hd : Spec.ShortPayload det) :
    Spec.Outcome (Spec.signatureUse m.base Op.Verify ++ [(∃ p, Spec.OnePayload m.base.payload det p, .coseException)])
      (Spec.VerifiesWith C m.base (m.sigStructure det) m.signature) (m.verifySignature C det) :=
  verifies_outcome hk hn (sign1_structure_outcome hf hd)

/-- C91: a signer of a COSE_Sign message. -/
theorem c91_signer {C : Crypto} {rnd : Bytes} {p s : Base} {det : Option Bytes} (hk : Spec.OrdinaryKey s) (hn : Spec.NamesAlgorithms s)
    (hp : Spec.ShortProtected p) (hpl : Spec.ShortPayload p.payload) (hs : Spec.BoundProtected s) (ha : s.aad.length < 2 ^ 64) (hd : Spec.ShortPayload det) :
    Spec.Outcome (Spec.signatureUse s Op.Sign ++ [(∃ pl, Spec.OnePayload p.payload det pl, .coseException)])
      (Spec.SignsWith C rnd s (signerStructure p s det)) (signerCompute C rnd p s det) :=
  compute_outcome hk hn (signer_structure_outcome hp hpl hs ha hd)

theorem c91_signer_verify {C : Crypto} {p s : Base} {det : Option Bytes} (hk : Spec.OrdinaryKey s) (hn : Spec.NamesAlgorithms s)
    (hp : Spec.ShortProtected p) (hpl : Spec.ShortPayload p.payload) (hs : Spec.BoundProtected s) (ha : s.aad.length < 2 ^ 64) (hd : Spec.ShortPayload det) :
    Spec.Outcome (Spec.signatureUse s Op.Verify ++ [(∃ pl, Spec.OnePayload p.payload det pl, .coseException)])
      (Spec.VerifiesWith C s (signerStructure p s det) (match s.payload with | some sig => .bytes sig | none => .none)) (signerVerify C p s det) := by
  have : (match s.payload with | some sig => Val.bytes sig | none => .none) = optBytes s.payload := by cases s.payload <;> rfl
  rw [this]
  exact verifies_outcome hk hn (signer_structure_outcome hp hpl hs ha hd)

/-- C91: the tag of a COSE_Mac0 message. -/
theorem c91_mac0 {C : Crypto} {m : Mac0} (hk : Spec.OrdinaryKey m.base) (hn : Spec.NamesAlgorithms m.base) (hf : Spec.FitsStructure m.base) :
    Spec.Outcome (Spec.tagUse m.base Op.MacCreate) (Spec.TagsWith C b!"MAC0" m.base id) (m.computeTag C) := by
  have := tag_use (C := C) (ctx := b!"MAC0") (op := Op.MacCreate) (answer := id) (by decide) hk hn hf
  have e : ∀ r : Res Bytes, (r >>= fun t => Except.ok (id t)) = r := fun r => by cases r <;> rfl
  simp only [e] at this
  exact this

theorem c91_mac0_verify {C : Crypto} {m : Mac0} (hk : Spec.OrdinaryKey m.base) (hn : Spec.NamesAlgorithms m.base) (hf : Spec.FitsStructure m.base) :
    Spec.Outcome (Spec.tagUse m.base Op.MacVerify) (Spec.TagsWith C b!"MAC0" m.base fun t => m.authTag == .bytes t) (m.verifyTag C) :=
  tag_use (C := C) (ctx := b!"MAC0") (op := Op.MacVerify) (answer := fun t => m.authTag == .bytes t) (by decide) hk hn hf

/-- C91: encrypting a COSE_Encrypt0 message. -/
theorem c91_enc0 {C : Crypto} {m : Enc0} (hk : Spec.OrdinaryKey m.base) (hn : Spec.NamesAlgorithms m.base) (hf : Spec.FitsStructure m.base)
    (hi : Spec.IvBytes m.base) :
    Spec.Outcome (Spec.encryptUse m.base)
      (fun r => ∃ a key nonce aad text, Spec.Sealing b!"Encrypt0" m.base a key nonce aad text ∧ r = C.aeadEnc a key nonce aad text) (m.encrypt C) :=
  encrypt_outcome (by decide) hk hn hf hi

/-- C91: decrypting a COSE_Encrypt0 message. -/
theorem c91_enc0_decrypt {C : Crypto} {m : Enc0} (hk : Spec.OrdinaryKey m.base) (hn : Spec.NamesAlgorithms m.base) (hf : Spec.FitsStructure m.base)
    (hi : Spec.IvBytes m.base) :
    Spec.Outcome (Spec.decryptUse m.base)
      (fun r => ∃ a key nonce aad text, Spec.Sealing b!"Encrypt0" m.base a key nonce aad text ∧ r = C.aeadDec a key nonce aad text) (m.decrypt C) :=
  decrypt_outcome (by decide) hk hn hf hi

/-- C91: `encode` raises what signing, computing the tag or encrypting raises, if the protected header can be written. -/
theorem c91_encode {C : Crypto} {pe : Bytes} {e : PyErr} {tag : Bool} :
    (∀ {m : Sign1} {rnd : Bytes} {det : Option Bytes}, m.base.phdrEncoded = .ok pe → m.computeSignature C rnd det = .error e →
      m.encode C rnd tag true det = .error e) ∧
    (∀ {m : Mac0}, m.base.phdrEncoded = .ok pe → m.computeTag C = .error e → m.encode C tag true = .error e) ∧
    (∀ {m : Enc0}, m.base.phdrEncoded = .ok pe → m.encrypt C = .error e → m.encode C tag true = .error e) := by
  refine ⟨fun hp h => ?_, fun hp h => ?_, fun hp h => ?_⟩
  · simp only [Sign1.encode, hp, ok_bind, if_true, h]; rfl
  · simp only [Mac0.encode, hp, ok_bind, if_true, h]; rfl
  · simp only [Enc0.encode, hp, ok_bind, if_true, h]; rfl

/-! ### Examples -/

theorem Sample.namesAlgorithms (a : Int) (k : Key) (p : Option Bytes) : Spec.NamesAlgorithms (Sample.baseWith a k p) := by
  rintro c ⟨_, h | h⟩
  · have : dget (Sample.baseWith a k p).phdr (.cls Hdr.Algorithm) = some (algCls a) := rfl
    rw [this] at h; cases h; rfl
  · have : dget (Sample.baseWith a k p).uhdr (.cls Hdr.Algorithm) = none := rfl
    rw [this] at h; cases h

theorem Sample.ordinaryKey (k : Key) (a : Int) (p : Option Bytes) (h : Spec.PlainPolicy k) (hr : k.kind ≠ .rsa) : Spec.OrdinaryKey (Sample.baseWith a k p) := by
  rintro k' hk
  cases hk
  exact ⟨h, fun h => absurd h hr⟩

/-- A symmetric key does not sign: `CoseException`. -/
example (C : Crypto) (rnd : Bytes) : Sign1.computeSignature C rnd { base := Sample.baseWith (-7) Sample.symKey (some b!"hello") } none = .error .coseException := by
  refine outcome_unique (c91_sign1 (Sample.ordinaryKey _ _ _ ⟨.inl rfl, .inl rfl⟩ (by decide)) (Sample.namesAlgorithms _ _ _)
    ⟨.inr ⟨[0xa1, 1, 0x26], by decide +kernel, by decide⟩, by decide, by rintro p ⟨⟩; decide⟩ (by rintro p ⟨⟩)) ?_
  refine .inr ⟨?_, .inl ⟨by simp [Sample.symKey], rfl⟩⟩
  rintro ⟨_, w, h, _⟩
  cases (h : (none : Option Val) = some w)

/-- A key for HMAC 512/512 does not compute HMAC 256/256: `CoseIllegalAlgorithm`. -/
example (C : Crypto) : Mac0.computeTag C { base := Sample.baseWith 5 { Sample.symKey with store := (.cls KpAlg, algCls 7) :: Sample.symKey.store } (some b!"hello") } =
    .error .illegalAlgorithm := by
  refine outcome_unique (c91_mac0 (Sample.ordinaryKey _ _ _ ⟨.inr ⟨7, rfl⟩, .inl rfl⟩ (by decide)) (Sample.namesAlgorithms _ _ _)
    ⟨.inr ⟨[0xa1, 1, 5], by decide +kernel, by decide⟩, by decide, by rintro p ⟨⟩; decide⟩) ?_
  refine .inr ⟨?_, .inr ⟨rfl, .inr ⟨.inr ⟨⟨.alg, 5⟩, by simp, .inl rfl⟩, .inl ⟨fun h => ?_, rfl⟩⟩⟩⟩
  · rintro ⟨_, w, h, _⟩
    cases (h : (none : Option Val) = some w)
  · rcases (h _ rfl).2 with h | h
    · cases (h : some (algCls 5) = some (algCls 7))
    · cases (h : (none : Option Val) = some _)

end Cose
