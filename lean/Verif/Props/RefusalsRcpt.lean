import Verif.Props.Refusals
/-!
# Property C91, continued: recipients and messages with recipients
-/
set_option autoImplicit false
namespace Cose

/-! ### Specification -/

/-- Python can look the value up in a set. -/
def Spec.Hashable : Val → Prop
  | .arr _ => False
  | .map _ => False
  | .key _ _ => False
  | .tag _ v => Spec.Hashable v
  | _ => True
termination_by structural v => v

/-- A key-encryption key for AES key wrap with `n` bytes, taken from the recipient's key, and the data to wrap or unwrap. -/
def Spec.kekUse (b : Base) (k : Key) (n : Nat) : List (Prop × PyErr) :=
  [(k.kind = .sym, .attributeError), (dget k.store (.cls SymK) ≠ none, .invalidKey),
   (∃ kb, dget k.store (.cls SymK) = some (.bytes kb), .valueError),
   (∀ kb, dget k.store (.cls SymK) = some (.bytes kb) → kb.length ∈ [16, 24, 32], .invalidKey),
   (∀ kb, dget k.store (.cls SymK) = some (.bytes kb) → kb.length = n, .valueError), (b.payload ≠ none, .typeError)]

/-- The RSA key of the recipient, and the data. -/
def Spec.oaepUse (b : Base) (ops : List Cls) : List (Prop × PyErr) :=
  match b.key with
  | none => [(False, .attributeError)]
  | some k => (k.kind = .rsa, .coseException) :: Spec.policy b k ops ++ [(b.payload ≠ none, .typeError)]

/-- Recipients within a recipient that could carry its key. -/
def Spec.Carriers (rs : List Rcpt) : Prop := Spec.RecipientRules rs ∧ ∀ r ∈ rs, r.cls ≠ .directEncryption

/-- Wrapping a key. -/
def Spec.wrapUse (b : Base) : List (Prop × PyErr) :=
  [(¬ Spec.Twice b Hdr.Algorithm, .coseException), (b.phdr = [], .coseException), (∃ v, Spec.Value b Hdr.Algorithm v, .coseException),
   (∀ v, Spec.Value b Hdr.Algorithm v → Spec.Hashable v, .typeError),
   (∃ i ∈ Spec.kwAlgs.map (·.1) ++ Spec.oaepAlgs.map (·.1), Spec.Value b Hdr.Algorithm (algCls i), .attributeError)]

/-- Unwrapping a key. -/
def Spec.unwrapUse (b : Base) : List (Prop × PyErr) :=
  [(¬ Spec.Twice b Hdr.Algorithm, .coseException), (∀ v, Spec.Value b Hdr.Algorithm v → Spec.Hashable v, .typeError),
   (∃ i ∈ Spec.kwAlgs.map (·.1) ++ Spec.oaepAlgs.map (·.1), Spec.Value b Hdr.Algorithm (algCls i), .coseException)]

/-! ### Lemmas -/

theorem hashable_iff : ∀ v : Val, hashable v = true ↔ Spec.Hashable v
  | .tag _ v => by simp only [hashable, Spec.Hashable]; exact hashable_iff v
  | .none | .undef | .bool _ | .simple _ | .int _ | .float _ | .bytes _ | .text _ | .cls _ => by simp [hashable, Spec.Hashable]
  | .arr _ | .map _ | .key _ _ => by simp [hashable, Spec.Hashable]

theorem inSet_hashable {v : Val} {l : List Int} (h : Spec.Hashable v) : inSet v l = .ok (decide (∃ i ∈ l, v = algCls i)) := by
  cases v <;> first | exact h.elim | skip
  case cls c =>
    obtain ⟨r, j⟩ := c
    simp only [inSet, Except.ok.injEq, decide_eq_decide, Val.cls.injEq, Cls.mk.injEq]
    constructor
    · rintro ⟨h1, h2⟩; exact ⟨j, h2, h1, rfl⟩
    · rintro ⟨i, h2, h1, rfl⟩; exact ⟨h1, h2⟩
  case tag n w =>
    simp only [inSet]
    rw [if_pos ((hashable_iff w).mpr (by simpa only [Spec.Hashable] using h))]
    simp
  all_goals simp [inSet]

theorem inSet_unhashable {v : Val} {l : List Int} (h : ¬ Spec.Hashable v) : inSet v l = .error .typeError := by
  cases v <;> first | exact absurd trivial h | rfl | skip
  case tag n w =>
    simp only [inSet]
    rw [if_neg fun e => h ((hashable_iff w).mp e)]

theorem hashable_value {b : Base} {c : Cls} {v : Val} (hv : ∀ w, w ≠ .none → (Spec.Value b c w ↔ v = w)) :
    (∀ w, Spec.Value b c w → Spec.Hashable w) ↔ Spec.Hashable v := by
  constructor
  · intro h
    by_cases hn : v = .none
    · subst hn; trivial
    · exact h v ((hv v hn).mpr rfl)
  · intro h w hw
    rw [← (hv w hw.1).mp hw]; exact h

theorem kek_key {α : Type} {b : Base} {k : Key} {i : Int} {n : Nat} {ops ops' : List Cls} {f : Bytes → Bytes → Res α} {rest : Res α → Prop}
    (hi : (i, n) ∈ Spec.kwAlgs) (hops : ∀ o ∈ ops, o ∈ [Op.Wrap, Op.Encrypt, Op.Unwrap, Op.Decrypt, Op.DeriveKey]) (ho : ∃ o ∈ ops', o ∈ ops)
    (h : ∀ kb text, dget k.store (.cls SymK) = some (.bytes kb) → b.payload = some text → rest (f kb text)) :
    Spec.Outcome (Spec.kekUse b k n) rest
      (k.symK >>= fun kk => mkSym kk (algCls i) ops >>= fun kek => kek.verify .sym (algCls i) ops' >>= fun _ => kek.symK >>= fun kk => lenOf kk >>= fun m =>
        if n ≠ m then .error .valueError else asBytes .typeError kk >>= fun kb => match b.payload with
          | some d => f kb d
          | none => .error .typeError) := by
  obtain ⟨nm, hreg⟩ := algReg_of (kw_row _ hi)
  have hreg' : ∀ o ∈ ops, ∃ n, (o, n) ∈ registry .op := by
    intro o h
    have := hops o h
    refine opReg o ?_
    simp only [List.mem_cons, List.not_mem_nil, or_false] at this ⊢
    grind
  refine outcome_cons (fun hp => by simp [Key.symK, hp]) fun hs => outcome_cons (fun hp => by simp [Key.symK, hs, Classical.not_not.mp hp]) fun hst => ?_
  cases hv : dget k.store (.cls SymK) with
  | none => exact absurd hv hst
  | some v =>
    have hK : k.symK = .ok v := by simp [Key.symK, hs, hv]
    rw [hK, ok_bind, mkSym_eq hreg hreg']
    refine outcome_cons (fun hp => ?_) fun ⟨kb, hp⟩ => ?_
    · cases v <;> first | rfl | exact absurd ⟨_, rfl⟩ hp
    · cases hp
      simp only [Option.some.injEq, Val.bytes.injEq, forall_eq']
      refine outcome_cons (fun hl => ?_) fun hl => ?_
      · have hl' : ¬ (kb.length = 16 ∨ kb.length = 24 ∨ kb.length = 32) := by simpa using hl
        rw [if_neg hl']
        split <;> rfl
      · have hl' : kb.length = 16 ∨ kb.length = 24 ∨ kb.length = 32 := by simpa using hl
        have hne : kb ≠ [] := by rintro rfl; simp at hl'
        rw [if_neg hne, if_pos hl', ok_bind, permits_verify (symStore_permits kb (.inr ho)), ok_bind, symStore_symK, ok_bind]
        simp only [lenOf, ok_bind]
        refine outcome_cons (fun hp => by rw [if_pos (Ne.symm hp)]) fun hp => ?_
        rw [if_neg (by simpa using hp.symm)]
        simp only [asBytes, ok_bind]
        cases hpl : b.payload with
        | none => exact outcome_cons (fun _ => rfl) fun h => absurd rfl h
        | some d => exact outcome_cons (fun h => absurd (by simp) h) fun _ => outcome_nil (h kb d hv hpl)

theorem carriers_iff {rs : List Rcpt} : Spec.Carriers rs ↔ rs ≠ [] ∧ ∃ ts, verifyRecipients rs = .ok ts ∧ RCls.directEncryption ∉ ts := by
  constructor
  · rintro ⟨h, hd⟩
    refine ⟨h.nonempty, _, c32_accepted h, ?_⟩
    simpa using fun r hr => hd r hr
  · rintro ⟨h0, ts, h, hd⟩
    have := verifyRecipients_types h
    subst this
    exact ⟨rules_of_types h h0, by simpa using hd⟩

theorem verifyRecipients_error {rs : List Rcpt} {e : PyErr} (h : verifyRecipients rs = .error e) : e = .coseException := by
  unfold verifyRecipients at h
  simp only at h
  split at h
  · simpa using h.symm
  · split at h <;> simp at h
    exact h.symm

/-- The types of recipients that can carry a key. -/
theorem carrier_types {ts : List RCls} (h0 : ts ≠ []) (h : RCls.directEncryption ∉ ts) :
    ts.contains .directKeyAgreement = true ∨ ts.contains .keyWrap = true ∨ ts.contains .keyAgreementWithKeyWrap = true := by
  cases ts with
  | nil => exact absurd rfl h0
  | cons t ts => cases t <;> simp_all

theorem only_direct {rs : List Rcpt} {ts : List RCls} (hv : verifyRecipients rs = .ok ts) (h : RCls.directEncryption ∈ ts) :
    ts.contains .directKeyAgreement = false ∧ ts.contains .keyWrap = false ∧ ts.contains .keyAgreementWithKeyWrap = false := by
  obtain ⟨rfl, h1, _⟩ := verifyRecipients_iff.mp hv
  have := h1 (by simpa using h)
  refine ⟨?_, ?_, ?_⟩ <;>
  · simp only [List.contains_eq_mem, List.mem_map, decide_eq_false_iff_not, not_exists, not_and]
    intro r hr hc
    rw [this r hr] at hc
    simp at hc

theorem oaep_key {α : Type} {b : Base} {i : Int} {ops : List Cls} {f : Key → Res α} {rest : Res α → Prop}
    (hk : Spec.OrdinaryKey b) (hn : Spec.NamesAlgorithms b) (hv : ∀ w, w ≠ .none → (Spec.Value b Hdr.Algorithm w ↔ algCls i = w))
    (hm : ∀ k, b.key = some k → k.kind = .rsa → Spec.Outcome [(b.payload ≠ none, .typeError)] rest (f k)) :
    Spec.Outcome (Spec.oaepUse b ops) rest (match b.key with
      | none => .error .attributeError
      | some k => k.verify .rsa (algCls i) ops >>= fun _ => f k) := by
  unfold Spec.oaepUse
  cases hb : b.key with
  | none => exact outcome_cons (fun _ => rfl) fun h => h.elim
  | some k =>
    simp only
    refine outcome_cons (fun hp => by simp [Key.verify, hp]) fun hs => ?_
    exact outcome_append (verify_outcome (hk k hb).1 hs hn hv (hm k hb hs))

/-- What wrapping gives once an algorithm is known. -/
def Spec.WrapsWith (C : Crypto) (salt : Bytes) (b : Base) (rs : List Rcpt) (r : Res Bytes) : Prop :=
  (∃ i n, (i, n) ∈ Spec.kwAlgs ∧ Spec.Value b Hdr.Algorithm (algCls i) ∧
    match b.key with
    | some k => Spec.Outcome (Spec.kekUse b k n)
        (fun r => ∃ kb text, dget k.store (.cls SymK) = some (.bytes kb) ∧ b.payload = some text ∧ r = C.kwWrap kb text) r
    | none => Spec.Outcome [(Spec.Carriers rs, .coseException), (False, .typeError)] (fun _ => False) r) ∨
  (∃ i h, (i, h) ∈ Spec.oaepAlgs ∧ Spec.Value b Hdr.Algorithm (algCls i) ∧ Spec.Outcome (Spec.oaepUse b [Op.Wrap, Op.Encrypt])
    (fun r => ∃ k n e text, b.key = some k ∧ Spec.Number (k.rsaParam RsaN) n ∧ Spec.Number (k.rsaParam RsaE) e ∧ b.payload = some text ∧
      r = C.rsaEnc h n e salt text) r)

/-- What unwrapping gives once an algorithm is known; without a key, the first recipient within the recipient is asked, but its answer is refused. -/
def Spec.UnwrapsWith (C : Crypto) (b : Base) (rs : List Rcpt) (r : Res Bytes) : Prop :=
  (∃ i n, (i, n) ∈ Spec.kwAlgs ∧ Spec.Value b Hdr.Algorithm (algCls i) ∧
    match b.key with
    | some k => Spec.Outcome (Spec.kekUse b k n)
        (fun r => ∃ kb text, dget k.store (.cls SymK) = some (.bytes kb) ∧ b.payload = some text ∧ r = C.kwUnwrap kb text) r
    | none => Spec.Outcome [(Spec.Carriers rs, .coseException)]
        (fun r => ∃ inner more, rs = inner :: more ∧ ∀ e, r = .error e ↔ rcptDecrypt C inner = .error e ∨ (∃ x, rcptDecrypt C inner = .ok x) ∧ e = .invalidKey) r) ∨
  (∃ i h, (i, h) ∈ Spec.oaepAlgs ∧ Spec.Value b Hdr.Algorithm (algCls i) ∧ Spec.Outcome (Spec.oaepUse b [Op.Unwrap, Op.Decrypt])
    (fun r => ∃ k n text, b.key = some k ∧ Spec.RsaKey k n ∧ b.payload = some text ∧ r = C.rsaDec h n text) r)

theorem wrapAlgs_split {i : Int} (h : i ∈ Spec.kwAlgs.map (·.1) ++ Spec.oaepAlgs.map (·.1)) : (∃ n, (i, n) ∈ Spec.kwAlgs) ∨ ∃ h, (i, h) ∈ Spec.oaepAlgs := by
  simp only [List.mem_append, List.mem_map] at h
  rcases h with ⟨p, hp, rfl⟩ | ⟨p, hp, rfl⟩
  · exact .inl ⟨p.2, hp⟩
  · exact .inr ⟨p.2, hp⟩

/-- The two sets the code searches. -/
theorem wrapAlgs_none {v : Val} (hh : Spec.Hashable v) (h : ∀ i ∈ Spec.kwAlgs.map (·.1) ++ Spec.oaepAlgs.map (·.1), v ≠ algCls i) :
    inSet v aesKws = .ok false ∧ inSet v oaeps = .ok false := by
  rw [inSet_hashable hh, inSet_hashable hh]
  simp only [Except.ok.injEq, decide_eq_false_iff_not, not_exists, not_and]
  constructor
  · intro i hi; exact h i (by revert hi; simp [aesKws, Spec.kwAlgs, Spec.oaepAlgs]; grind)
  · intro i hi; exact h i (by revert hi; simp [oaeps, Spec.kwAlgs, Spec.oaepAlgs]; grind)

theorem wrap_outcome {C : Crypto} {salt : Bytes} {b : Base} {rs : List Rcpt} (hk : Spec.OrdinaryKey b) (hn : Spec.NamesAlgorithms b) :
    Spec.Outcome (Spec.wrapUse b) (Spec.WrapsWith C salt b rs) (kwEncrypt C salt b rs) := by
  unfold kwEncrypt
  refine outcome_cons (fun hp => ?_) fun hp => ?_
  · rw [getAttr_twice (Classical.not_not.mp hp)]; rfl
  · obtain ⟨alg, ha, hv⟩ := getAttr_value hp
    rw [ha, ok_bind]
    refine outcome_cons (fun hp => ?_) fun hp => ?_
    · rw [if_pos (by simpa using hp)]
    rw [if_neg (by simpa using hp)]
    refine outcome_cons (fun hp => ?_) fun hp => ?_
    · rw [value_none hv] at hp
      rw [if_pos (by simpa using hp)]
    rw [value_none hv] at hp
    rw [if_neg hp]
    refine outcome_cons (fun hp => ?_) fun hh => ?_
    · rw [hashable_value hv] at hp
      rw [inSet_unhashable hp]; rfl
    rw [hashable_value hv] at hh
    refine outcome_cons (fun hp => ?_) fun ⟨i, hi, hva⟩ => outcome_nil ?_
    · obtain ⟨h1, h2⟩ := wrapAlgs_none hh fun i hi e => hp ⟨i, hi, (hv _ cls_ne_none).mpr e⟩
      simp only [h1, h2, ok_bind, Bool.false_eq_true, if_false]
    · have := (hv _ cls_ne_none).mp hva
      subst this
      rcases wrapAlgs_split hi with ⟨n, hi⟩ | ⟨h, hi⟩
      · left
        refine ⟨i, n, hi, hva, ?_⟩
        rw [kw_inSet _ hi, ok_bind]
        simp only [if_true, kw_row _ hi]
        cases hb : b.key with
        | none =>
          simp only [kwKekEncrypt]
          by_cases hr : rs = []
          · subst hr
            exact outcome_cons (fun _ => rfl) fun h => absurd rfl h.1.nonempty
          · have : rs.isEmpty = false := by simpa using hr
            simp only [this, Bool.false_eq_true, if_false]
            cases hvr : verifyRecipients rs with
            | error e =>
              have := verifyRecipients_error hvr
              subst this
              refine outcome_cons (fun _ => rfl) fun h => ?_
              rw [c32_accepted h.1] at hvr
              simp at hvr
            | ok ts =>
              have hts := verifyRecipients_types hvr
              have hne : ts ≠ [] := by rw [hts]; simpa using hr
              rw [carriers_iff]
              refine outcome_cons (fun hp => ?_) fun hp => outcome_cons (fun _ => ?_) fun h => h.elim
              · have hd : RCls.directEncryption ∈ ts := Classical.byContradiction fun hd => hp ⟨hr, ts, hvr, hd⟩
                obtain ⟨h1, h2, h3⟩ := only_direct hvr hd
                simp only [ok_bind, h1, h2, h3, Bool.false_eq_true, if_false, or_self]
                rfl
              · obtain ⟨_, ts', h', hd⟩ := hp
                rw [hvr] at h'
                cases h'
                rw [ok_bind]
                rcases carrier_types hne hd with h | h | h
                · simp only [h, if_true]; rfl
                · simp only [h, true_or, if_true]
                  split <;> rfl
                · simp only [h, or_true, if_true]
                  split <;> rfl
        | some k =>
          simp only [kwKekEncrypt]
          exact kek_key (f := fun kb d => C.kwWrap kb d) hi (by simp) ⟨Op.Wrap, by simp, by simp⟩ fun kb text h1 h2 => ⟨kb, text, h1, h2, rfl⟩
      · right
        refine ⟨i, h, hi, hva, ?_⟩
        rw [(oaep_inSet _ hi).1, ok_bind]
        simp only [Bool.false_eq_true, if_false, (oaep_inSet _ hi).2, ok_bind, if_true, oaep_row _ hi]
        refine oaep_key hk hn hv fun k hb hs => ?_
        obtain ⟨ve, e, he, he'⟩ := rsaParam_number (c := RsaE) hs (hk k hb).2 (by simp)
        obtain ⟨vn, n, hn, hn'⟩ := rsaParam_number (c := RsaN) hs (hk k hb).2 (by simp)
        simp only [oaepKeyWrap, he, he', hn, hn', ok_bind]
        cases hpl : b.payload with
        | none => exact outcome_cons (fun _ => rfl) fun h => absurd rfl h
        | some d =>
          exact outcome_cons (fun h => absurd (by simp) h) fun _ => outcome_nil
            ⟨k, n, e, d, hb, ⟨_, hn, intFromBytes_iff.mp hn'⟩, ⟨_, he, intFromBytes_iff.mp he'⟩, rfl, rfl⟩

theorem unwrap_outcome {C : Crypto} {b : Base} {x : Bytes} {o : Nat} {rs : List Rcpt} (hk : Spec.OrdinaryKey b) (hn : Spec.NamesAlgorithms b) :
    Spec.Outcome (Spec.unwrapUse b) (Spec.UnwrapsWith C b rs) (rcptDecrypt C (.mk .keyWrap b x o rs)) := by
  unfold rcptDecrypt
  simp only
  refine outcome_cons (fun hp => ?_) fun hp => ?_
  · rw [getAttr_twice (Classical.not_not.mp hp)]; rfl
  · obtain ⟨alg, ha, hv⟩ := getAttr_value hp
    rw [ha, ok_bind]
    refine outcome_cons (fun hp => ?_) fun hh => ?_
    · rw [hashable_value hv] at hp
      rw [inSet_unhashable hp]; rfl
    rw [hashable_value hv] at hh
    refine outcome_cons (fun hp => ?_) fun ⟨i, hi, hva⟩ => outcome_nil ?_
    · obtain ⟨h1, h2⟩ := wrapAlgs_none hh fun i hi e => hp ⟨i, hi, (hv _ cls_ne_none).mpr e⟩
      simp only [h1, h2, ok_bind, Bool.false_eq_true, if_false]
    · have := (hv _ cls_ne_none).mp hva
      subst this
      rcases wrapAlgs_split hi with ⟨n, hi⟩ | ⟨h, hi⟩
      · left
        refine ⟨i, n, hi, hva, ?_⟩
        rw [kw_inSet _ hi, ok_bind]
        simp only [if_true, kw_row _ hi]
        cases hb : b.key with
        | none =>
          simp only
          cases rs with
          | nil =>
            simp only [kwKekDecrypt]
            exact outcome_cons (fun _ => rfl) fun h => absurd rfl h.1.nonempty
          | cons r t =>
            simp only [kwKekDecrypt]
            cases hvr : verifyRecipients (r :: t) with
            | error e =>
              have := verifyRecipients_error hvr
              subst this
              refine outcome_cons (fun _ => rfl) fun h => ?_
              rw [c32_accepted h.1] at hvr
              simp at hvr
            | ok ts =>
              have hts := verifyRecipients_types hvr
              have hne : ts ≠ [] := by rw [hts]; simp
              rw [carriers_iff]
              refine outcome_cons (fun hp => ?_) fun hp => outcome_nil ⟨r, t, rfl, fun e => ?_⟩
              · have hd : RCls.directEncryption ∈ ts := Classical.byContradiction fun hd => hp ⟨by simp, ts, hvr, hd⟩
                obtain ⟨h1, h2, h3⟩ := only_direct hvr hd
                simp only [h1, h2, h3, Bool.false_eq_true, if_false, or_self]
                rfl
              · obtain ⟨_, ts', h', hd⟩ := hp
                rw [hvr] at h'
                cases h'
                simp only
                rw [if_pos (carrier_types hne hd)]
                cases rcptDecrypt C r with
                | error e' => simp
                | ok p => simp [eq_comm]
        | some k =>
          simp only
          have : kwKekDecrypt C (some k) rs = k.symK := by cases rs <;> simp [kwKekDecrypt]
          rw [this]
          exact kek_key (f := fun kb d => C.kwUnwrap kb d) hi (by simp) ⟨Op.Unwrap, by simp, by simp⟩ fun kb text h1 h2 => ⟨kb, text, h1, h2, rfl⟩
      · right
        refine ⟨i, h, hi, hva, ?_⟩
        rw [(oaep_inSet _ hi).1, ok_bind]
        simp only [Bool.false_eq_true, if_false, (oaep_inSet _ hi).2, ok_bind, if_true, oaep_row _ hi]
        refine oaep_key hk hn hv fun k hb hs => ?_
        obtain ⟨n, hr⟩ := rsaNums_ok hs (hk k hb).2
        simp only [oaepKeyUnwrap, hr, ok_bind]
        cases hpl : b.payload with
        | none => exact outcome_cons (fun _ => rfl) fun h => absurd rfl h
        | some d =>
          exact outcome_cons (fun h => absurd (by simp) h) fun _ => outcome_nil ⟨k, n, d, hb, rsaNums_iff.mp hr, rfl, rfl⟩

end Cose
