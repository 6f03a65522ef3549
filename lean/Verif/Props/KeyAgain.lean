import Verif.CborStable
import Verif.Props.Samples
import Verif.Props.KeyWire
/-!
# Keys that were received (C74)

A key that was decoded is the key a constructor makes from the parameters of the received map, and can be sent again: on its
own or in a header of a message.
-/
set_option autoImplicit false
namespace Cose

/-! ### Specification -/

/-- The labels of a received key: integers, ASCII texts, where a text that spells the name of a parameter of the key type does so
in capital letters, and other labels that name nothing. -/
def Spec.KeyLabels (kind : Kind) (d : Dict) : Prop :=
  ∀ k v, (k, v) ∈ d → (∃ i, k = .int i) ∨
    (∃ s, k = .text s ∧ (∀ b ∈ s, b < 128) ∧
      ∀ p ∈ registry (kindReg kind), p.1.reg ≠ .kp → Spec.CaseVariant s p.2 → s = p.2) ∨
    Spec.ForeignKeyLabel kind k

/-- The key is one that its constructor makes from optional parameters with serialisable values. -/
def Spec.ConstructedKey (C : Crypto) (k : Key) : Prop :=
  ∃ opt, Spec.PlainOptional k.kind opt ∧
    match k.kind with
    | .sym => ∃ kv, symInit kv opt true = .ok k
    | .ec2 => ∃ crv x y d, ec2Init C crv x y d opt true = .ok k
    | .okp => ∃ crv x d, okpInit crv x d opt true = .ok k
    | .rsa => ∃ a, rsaInit a opt true = .ok k

/-! ### RSA keys made from arbitrary values -/

theorem allLen_iff {z : Bool} {l : List Val} : allLen z l = .ok true ↔ ∀ v ∈ l, ∃ n, lenOf v = .ok n ∧ (n == 0) = z := by
  induction l with
  | nil => simp [allLen]
  | cons v t ih =>
    simp only [allLen, bind_eq_ok, List.mem_cons, forall_eq_or_imp]
    constructor
    · rintro ⟨n, h1, h2⟩
      split at h2
      · rename_i h
        exact ⟨⟨n, h1, h⟩, ih.mp h2⟩
      · simp at h2
    · rintro ⟨⟨n, h1, h⟩, h2⟩
      exact ⟨n, h1, by rw [if_pos h]; exact ih.mpr h2⟩

theorem bytes_zero {b : Bytes} {z : Bool} (h : ∃ n, lenOf (.bytes b) = .ok n ∧ (n == 0) = z) : z = true ↔ b = [] := by
  obtain ⟨n, h1, h2⟩ := h
  simp [lenOf] at h1; subst h1
  subst h2
  simp

/-- The eight ordinary parameters of an accepted key, whatever was passed for the others, make an acceptable key. -/
theorem rsaInit_ordinary {a : RsaArgs} {opt : Dict} {allow : Bool} {k : Key} (h : rsaInit a opt allow = .ok k) :
    ∃ r : Spec.Rsa, r.NoMore ∧ rsaInit r.args opt allow = .ok { k with extra := [] } := by
  obtain ⟨hv, s, eb, nb, s3, s4, s5, s6, s7, s8, hs, he, hn, h3, h4, h5, h6, h7, h8, rfl⟩ := rsaInit_ok h
  obtain ⟨n, e, d, p, q, dp, dq, qinv, e1, e2, e3, e4, e5, e6, e7, e8⟩ := c42_bytes h
  have f1 : a.fix.e = a.e ∧ a.fix.n = a.n ∧ a.fix.d = a.d ∧ a.fix.p = a.p ∧ a.fix.q = a.q ∧ a.fix.dp = a.dp ∧ a.fix.dq = a.dq ∧
      a.fix.qinv = a.qinv := by
    unfold RsaArgs.fix; split <;> simp
  obtain ⟨f1, f2, f3, f4, f5, f6, f7, f8⟩ := f1
  refine ⟨⟨n, e, d, p, q, dp, dq, qinv, [], [], [], []⟩, ⟨rfl, rfl, rfl, rfl⟩, ?_⟩
  have valid : rsaValid (Spec.Rsa.mk n e d p q dp dq qinv [] [] [] []).args = .ok true := by
    rw [(rsaValid_spec _).1]
    have hh : (n ≠ [] ∧ e ≠ [] ∧ d = [] ∧ p = [] ∧ q = [] ∧ dp = [] ∧ dq = [] ∧ qinv = []) ∨
        (n ≠ [] ∧ e ≠ [] ∧ d ≠ [] ∧ p ≠ [] ∧ q ≠ [] ∧ dp ≠ [] ∧ dq ≠ [] ∧ qinv ≠ []) := by
      simp only [rsaValid, f1, f2, f3, f4, f5, f6, f7, f8, e1, e2, e3, e4, e5, e6, e7, e8] at hv
      have full : ∀ l, allLen false (.bytes n :: .bytes e :: .bytes d :: .bytes p :: .bytes q :: .bytes dp :: .bytes dq :: .bytes qinv :: l) = .ok true →
          (n ≠ [] ∧ e ≠ [] ∧ d ≠ [] ∧ p ≠ [] ∧ q ≠ [] ∧ dp ≠ [] ∧ dq ≠ [] ∧ qinv ≠ []) := by
        intro l hl
        rw [allLen_iff] at hl
        have g : ∀ b : Bytes, (Val.bytes b) ∈ (Val.bytes n :: .bytes e :: .bytes d :: .bytes p :: .bytes q :: .bytes dp :: .bytes dq :: .bytes qinv :: l) → b ≠ [] := by
          intro b hb hz
          have := (bytes_zero (hl _ hb)).mpr hz
          simp at this
        exact ⟨g _ (by simp), g _ (by simp), g _ (by simp), g _ (by simp), g _ (by simp), g _ (by simp), g _ (by simp), g _ (by simp)⟩
      have tail : ∀ {l1 l2 l3 : List Val}, (do
          let z ← allLen true l1
          let two ← if z then allLen false (.bytes n :: .bytes e :: .bytes d :: .bytes p :: .bytes q :: .bytes dp :: .bytes dq :: .bytes qinv :: l2) else .ok false
          if two then .ok true
          else allLen false (.bytes n :: .bytes e :: .bytes d :: .bytes p :: .bytes q :: .bytes dp :: .bytes dq :: .bytes qinv :: l3) : Res Bool) = .ok true →
          (n ≠ [] ∧ e ≠ [] ∧ d ≠ [] ∧ p ≠ [] ∧ q ≠ [] ∧ dp ≠ [] ∧ dq ≠ [] ∧ qinv ≠ []) := by
        intro l1 l2 l3 hv
        obtain ⟨z, hz, hv⟩ := bind_eq_ok.mp hv
        cases z with
        | true =>
          simp only [if_true] at hv
          obtain ⟨two, ht, hv⟩ := bind_eq_ok.mp hv
          cases two with
          | true => exact full _ ht
          | false => simp only [Bool.false_eq_true, if_false] at hv; exact full _ hv
        | false =>
          simp only [Bool.false_eq_true, if_false, ok_bind] at hv
          exact full _ hv
      by_cases hn0 : n.length = 0
      · simp only [lenOf, ok_bind, hn0, ne_eq, not_true_eq_false, Bool.false_eq_true, if_false] at hv
        exact .inr (tail hv)
      · by_cases he0 : e.length = 0
        · simp only [lenOf, ok_bind, hn0, he0, ne_eq, not_true_eq_false, not_false_eq_true, if_true, Bool.false_eq_true, if_false] at hv
          exact .inr (tail hv)
        · simp only [lenOf, ok_bind, hn0, he0, ne_eq, not_false_eq_true, if_true] at hv
          obtain ⟨pub, hp, hv⟩ := bind_eq_ok.mp hv
          cases pub with
          | true =>
            refine .inl ?_
            rw [allLen_iff] at hp
            have g : ∀ b : Bytes, (Val.bytes b) ∈ [Val.bytes d, .bytes p, .bytes q, .bytes dp, .bytes dq, .bytes qinv, a.fix.other, a.fix.ri, a.fix.di, a.fix.ti] → b = [] :=
              fun b hb => (bytes_zero (hp _ hb)).mp rfl
            exact ⟨by intro e; simp [e] at hn0, by intro e; simp [e] at he0, g _ (by simp), g _ (by simp), g _ (by simp), g _ (by simp), g _ (by simp), g _ (by simp)⟩
          | false =>
            simp only [Bool.false_eq_true, if_false] at hv
            exact .inr (tail hv)
    rcases hh with ⟨h1, h2, h3, h4, h5, h6, h7, h8⟩ | hh
    · exact .inl ⟨h1, h2, h3, h4, h5, h6, h7, h8, rfl, rfl, rfl, rfl⟩
    · exact .inr (.inl ⟨hh, rfl, rfl, rfl, rfl⟩)
  rw [e1] at hn; cases hn
  rw [e2] at he; cases he
  rw [e3, setIfNonEmpty_bytes] at h3; cases h3
  rw [e4, setIfNonEmpty_bytes] at h4; cases h4
  rw [e5, setIfNonEmpty_bytes] at h5; cases h5
  rw [e6, setIfNonEmpty_bytes] at h6; cases h6
  rw [e7, setIfNonEmpty_bytes] at h7; cases h7
  rw [e8, setIfNonEmpty_bytes] at h8; cases h8
  rw [rsaInit_form, valid]
  simp only [ok_bind, Bool.true_eq_false, if_false, hs]
  simp [RsaArgs.attrs, Spec.Rsa.args, truthy]

/-! ### A constructed key is sent and read back -/

theorem constructed_sent {C : Crypto} {m : Mode} (hm : m ≠ .plain) {k : Key} (h : Spec.ConstructedKey C k) :
    KeySent C m k { k with extra := [] } := by
  obtain ⟨opt, ho, h⟩ := h
  split at h
  · obtain ⟨kv, h⟩ := h
    rename_i hk
    rw [hk] at ho
    have e : k.extra = [] := by
      obtain ⟨s, kb, hs, rfl, hl, rfl⟩ := symInit_ok h
      rfl
    have := sym_sent (C := C) hm ho h
    cases k; simp only at e; subst e; exact this
  · obtain ⟨crv, x, y, d, h⟩ := h
    rename_i hk
    rw [hk] at ho
    have e : k.extra = [] := by
      obtain ⟨s, c, bx, bY, db, hs, hc, hr, nx, ny, hp, rfl⟩ := ec2Init_shape h
      rfl
    have := ec2_sent (C := C) hm ho h
    cases k; simp only at e; subst e; exact this
  · obtain ⟨crv, x, d, h⟩ := h
    rename_i hk
    rw [hk] at ho
    have e : k.extra = [] := by
      obtain ⟨s, c, s1, s2, hs, hc, h1, h2, hne, rfl⟩ := okpInit_ok h
      rfl
    have := okp_sent (C := C) hm ho h
    cases k; simp only at e; subst e; exact this
  · obtain ⟨a, h⟩ := h
    rename_i hk
    rw [hk] at ho
    obtain ⟨r, _, h⟩ := rsaInit_ordinary h
    have := rsa_sent (C := C) hm ho h
    exact ⟨this.1, this.2⟩

/-! ### A received key is a constructed one -/

theorem caseVariant_of_upper {s n : Bytes} (hs : ∀ b ∈ s, b < 128) (h : upper s = n) : Spec.CaseVariant s n := by
  rw [upper_ascii hs] at h
  subst h
  induction s with
  | nil => exact .nil
  | cons a t ih =>
    have e : ∀ a : UInt8, upByte a = a ∨ (65 ≤ upByte a ∧ upByte a ≤ 90 ∧ upByte a + 32 = a) := by
      intro a
      cases a with | ofBitVec v => revert v; decide +kernel
    have ih := ih fun b hb => hs b (List.mem_cons_of_mem _ hb)
    rw [List.map_cons]
    rcases e a with h | ⟨h1, h2, h3⟩
    · rw [h]; exact .same _ ih
    · have := Spec.CaseVariant.lower _ h1 h2 ih
      rwa [h3] at this

/-- The label does not name the parameter. -/
def Absent (c : Cls) (k : Val) : Prop := k ≠ .int c.ident ∧ k ≠ .text (fullname c)

theorem ddel_absent {d : Dict} {k : Val} (hn : KeysNodup d) : ∀ p ∈ ddel d k, p ∈ d ∧ p.1 ≠ k := by
  intro p hp
  refine ⟨ddel_sub p hp, ?_⟩
  have := dget_none_iff.mp (dget_ddel_same (k := k) hn) p hp
  intro e
  rw [e, keq_refl] at this
  cases this

theorem remove_absent {d : Dict} {c : Cls} (hn : KeysNodup d) :
    KeysNodup (remove d c) ∧ ∀ p ∈ remove d c, p ∈ d ∧ Absent c p.1 := by
  have n1 := ddel_nodup (k := .cls c) hn
  have n2 := ddel_nodup (k := .int c.ident) n1
  refine ⟨ddel_nodup n2, fun p hp => ?_⟩
  obtain ⟨h1, h2⟩ := ddel_absent n2 p hp
  obtain ⟨h3, h4⟩ := ddel_absent n1 p h1
  obtain ⟨h5, _⟩ := ddel_absent hn p h3
  exact ⟨h5, h4, h2⟩

theorem removes_absent (cs : List Cls) {d : Dict} (hn : KeysNodup d) :
    KeysNodup (cs.foldl remove d) ∧ ∀ p ∈ cs.foldl remove d, p ∈ d ∧ ∀ c ∈ cs, Absent c p.1 := by
  induction cs generalizing d with
  | nil => exact ⟨hn, fun p hp => ⟨hp, by simp⟩⟩
  | cons c t ih =>
    obtain ⟨n1, h1⟩ := remove_absent (c := c) hn
    obtain ⟨n2, h2⟩ := ih n1
    refine ⟨n2, fun p hp => ?_⟩
    obtain ⟨h3, h4⟩ := h2 p hp
    obtain ⟨h5, h6⟩ := h1 p h3
    refine ⟨h5, fun c' hc' => ?_⟩
    rcases List.mem_cons.mp hc' with rfl | hc'
    · exact h6
    · exact h4 c' hc'

/-- The parameters of the key type. -/
def specials : Kind → List Cls
  | .sym => [SymK]
  | .ec2 => [Ec2X, Ec2Y, Ec2D, Ec2Crv]
  | .okp => [OkpX, OkpD, OkpCrv]
  | .rsa => [RsaE, RsaN, RsaD, RsaP, RsaQ, RsaDP, RsaDQ, RsaQInv, RsaOther, RsaQInv, RsaRi, RsaDi, RsaTi]

theorem specials_all (kind : Kind) : ∀ p ∈ registry (kindReg kind), p.1.reg = .kp ∨ (p.1 ∈ specials kind ∧ p.2 = fullname p.1) := by
  cases kind <;> decide +kernel

theorem plainOptional_received {kind : Kind} {d : Dict} (hd : PyOK (.map d)) (hl : Spec.KeyLabels kind d) :
    Spec.PlainOptional kind ((specials kind).foldl remove d) := by
  intro k v hm
  obtain ⟨hmem, hab⟩ := (removes_absent (specials kind) hd.2).2 _ hm
  obtain ⟨hk, hv⟩ : PyOK k ∧ PyOK v := by
    have : ∀ (l : Dict), PyOKP l → (k, v) ∈ l → PyOK k ∧ PyOK v := by
      intro l
      induction l with
      | nil => intro _ h; cases h
      | cons q t ih =>
        intro h hm
        obtain ⟨a, b⟩ := q
        rcases List.mem_cons.mp hm with e | hm
        · cases e; exact h.1
        · exact ih h.2 hm
    exact this d hd.1 hmem
  simp only at hab
  rcases hl k v hmem with ⟨i, rfl⟩ | ⟨s, rfl, ha, hs⟩ | hf
  · cases hr : lookupId (kindReg kind) i with
    | none =>
      refine .inr ⟨foreignKey_int ?_, hv⟩
      intro p hp e
      have := lookupId_mem hp
      rw [e, hr] at this
      cases this
    | some c =>
      obtain ⟨rfl, n, hn⟩ := lookupId_some hr
      rcases specials_all kind _ hn with hkp | ⟨h1, _⟩
      · exact .inl ⟨c, n, hn, hkp, .ident, fun _ => hv⟩
      · exact absurd rfl (hab c h1).1
  · cases hr : lookupName (kindReg kind) (upper s) with
    | none =>
      exact .inr ⟨⟨hk, hr, fun p _ => by simp [keq, norm]⟩, hv⟩
    | some c =>
      obtain ⟨n, hn, hu⟩ := lookupName_some hr
      rw [upper_mem hn] at hu
      rcases specials_all kind _ hn with hkp | ⟨h1, h2⟩
      · exact .inl ⟨c, n, hn, hkp, .name (caseVariant_of_upper ha hu.symm), fun _ => hv⟩
      · refine absurd ?_ (hab c h1).2
        by_cases hkp : c.reg = .kp
        · have : ∀ c ∈ specials kind, c.reg ≠ .kp := by cases kind <;> decide
          exact absurd hkp (this c h1)
        · rw [hs _ hn hkp (caseVariant_of_upper ha hu.symm), h2]
  · exact .inr ⟨hf, hv⟩

/-- A key made from a received map is one that its constructor makes. -/
theorem constructed_received {C : Crypto} {d : Dict} {k : Key} (hd : PyOK (.map d)) (h : fromDict C d = .ok k)
    (hl : Spec.KeyLabels k.kind d) : Spec.ConstructedKey C k := by
  have key : ∀ kind, kindFromDict C kind d = .ok k → Spec.ConstructedKey C k := by
    intro kind h
    have hkind : k.kind = kind := kindFromDict_kind h
    have hp := plainOptional_received hd hl
    refine ⟨_, hp, ?_⟩
    subst hkind
    generalize hk : k.kind = kind at *
    cases kind with
    | sym => exact ⟨_, h⟩
    | ec2 => exact ⟨_, _, _, _, h⟩
    | okp => exact ⟨_, _, _, h⟩
    | rsa => exact ⟨_, h⟩
  simp only [fromDict] at h
  split at h
  · obtain ⟨kd, _, h⟩ := bind_eq_ok.mp h
    exact key kd h
  · split at h
    · obtain ⟨kd, _, h⟩ := bind_eq_ok.mp h
      exact key kd h
    · split at h
      · obtain ⟨kd, _, h⟩ := bind_eq_ok.mp h
        exact key kd h
      · cases h

/-! ### C74 -/

/-- **C74**: a key that was received can be encoded and decoded again, and nothing of it changes (but for the further primes of
an RSA key, which are not serialised, see `c42_refuted`). -/
theorem c74_again_partial {C : Crypto} {b b' : Bytes} {k : Key} (h : Key.decode C b = .ok k)
    (hl : ∀ d, loads b = .ok (.map d) → Spec.KeyLabels k.kind d) (he : k.encode = .ok b') :
    Key.decode C b' = .ok { k with extra := [] } := by
  obtain ⟨v, hv, h⟩ := bind_eq_ok.mp h
  have hp := loads_pyok hv
  cases v
  case map d => exact (constructed_sent (by decide) (constructed_received hp h (hl d hv))).decode he
  case key => exact absurd hp (by simp [PyOK])
  case arr l =>
    exact (fromList_refused h).elim
  all_goals cases h

/-- **C74**: in particular the key that is read back is the same key, unless it has further primes. -/
theorem c74_same_partial {C : Crypto} {b b' : Bytes} {k : Key} (h : Key.decode C b = .ok k)
    (hl : ∀ d, loads b = .ok (.map d) → Spec.KeyLabels k.kind d) (hx : k.extra = []) (he : k.encode = .ok b') :
    Key.decode C b' = .ok k := by
  rw [c74_again_partial h hl he, ← hx]

/-- A received OKP key with integer labels, a name in capital letters and an unknown parameter. -/
def Sample.okpMap : Dict :=
  [(.text b!"KTY", .text b!"OKP"), (.int (-1), .text b!"ED25519"), (.text b!"X", .bytes [1, 2]), (.int (-4), .bytes [3]),
   (.text b!"alg", .text b!"EdDSA"), (.text b!"note", .arr [.int 1]), (.int 77, .none)]

theorem keyLabel_text {kind : Kind} {s : Bytes}
    (h : (∀ b ∈ s, b < 128) ∧ ∀ p ∈ registry (kindReg kind), p.1.reg ≠ .kp → upper s = upper p.2 → s = p.2) :
    (∀ b ∈ s, b < 128) ∧ ∀ p ∈ registry (kindReg kind), p.1.reg ≠ .kp → Spec.CaseVariant s p.2 → s = p.2 :=
  ⟨h.1, fun p hp hr hc => h.2 p hp hr (hc.upper (ascii_mem hp))⟩

theorem Sample.okpMap_labels : Spec.KeyLabels .okp Sample.okpMap := by
  intro k v h
  simp only [Sample.okpMap, List.mem_cons, Prod.mk.injEq, List.not_mem_nil, or_false] at h
  rcases h with ⟨rfl, rfl⟩ | ⟨rfl, rfl⟩ | ⟨rfl, rfl⟩ | ⟨rfl, rfl⟩ | ⟨rfl, rfl⟩ | ⟨rfl, rfl⟩ | ⟨rfl, rfl⟩
  · exact .inr (.inl ⟨_, rfl, keyLabel_text (by decide +kernel)⟩)
  · exact .inl ⟨_, rfl⟩
  · exact .inr (.inl ⟨_, rfl, keyLabel_text (by decide +kernel)⟩)
  · exact .inl ⟨_, rfl⟩
  · exact .inr (.inl ⟨_, rfl, keyLabel_text (by decide +kernel)⟩)
  · exact .inr (.inl ⟨_, rfl, keyLabel_text (by decide +kernel)⟩)
  · exact .inl ⟨_, rfl⟩

example : (do
    let b ← dumps fullname .plain (.map Sample.okpMap)
    let k ← Key.decode toy b
    let b' ← k.encode
    .ok (decide (b ≠ b') && decide (k.extra = []) && decide (k.kind = .okp)) : Res Bool) = .ok true := by decide +kernel

/-- The bytes of a received key in which the name of a parameter is written in small letters, and the parameter is not a byte
string. -/
def Sample.smallLetters : Res (Bytes × Key × Bytes) := do
  let b ← dumps fullname .plain (.map [(.int 1, .int 1), (.int (-1), .int 6), (.int (-4), .bytes [3]), (.text b!"x", .int 5)])
  let k ← Key.decode toy b
  let b' ← k.encode
  .ok (b, k, b')

/-- **C74**, refuted without its condition on the labels: the parameters of the key type are only looked for under their names in
capital letters, but their names in small letters are accepted too, with any value.  Such a key is accepted and encoded, and the
encoding is refused. -/
theorem c74_small_letters_refuted : ∃ (b b' : Bytes) (k : Key), Key.decode toy b = .ok k ∧ k.encode = .ok b' ∧
    Key.decode toy b' = .error .typeError := by
  obtain ⟨⟨b, k, b'⟩, h, hp⟩ := res_any (r := Sample.smallLetters) (p := fun t => decide (Key.decode toy t.2.2 = .error .typeError)) (by decide +kernel)
  simp only [Sample.smallLetters, bind_eq_ok] at h
  obtain ⟨_, h1, _, h2, _, h3, h4⟩ := h
  simp only [Except.ok.injEq, Prod.mk.injEq] at h4
  obtain ⟨rfl, rfl, rfl⟩ := h4
  exact ⟨_, _, _, h2, h3, by simpa using hp⟩

end Cose
