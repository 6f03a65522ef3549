import Verif.Props.Reencode
import Verif.Props.Header
/-!
# Keys made from keys (C23, C96)

`CoseKey.from_dict` applied to a key object, as the header parser does when a header map that was parsed before is parsed again.
-/
set_option autoImplicit false
namespace Cose

/-! ### Entries under classes -/

/-- Looking up and removing an entry under a class. -/
def getOwn : List (Cls × Val) → Cls → Val → Val
  | [], _, v => v
  | p :: l, c, v => if p.1 = c then p.2 else getOwn l c v

def remOwn : List (Cls × Val) → Cls → List (Cls × Val)
  | [], _ => []
  | p :: l, c => if p.1 = c then l else p :: remOwn l c

theorem dget_own_plain (l : List (Cls × Val)) {k : Val} (hk : ∀ c, k ≠ .cls c) : dget (clsD l) k = none := by
  rw [dget_none_iff]
  intro p hp
  obtain ⟨q, _, rfl⟩ := List.mem_map.mp hp
  rw [keq_comm]
  exact keq_cls_false (hk _)

theorem extract_own (l : List (Cls × Val)) (c : Cls) (v : Val) : extract (clsD l) c v = getOwn l c v := by
  simp only [extract, dget_own_plain l (k := .int c.ident) (by simp), dget_own_plain l (k := .text (fullname c)) (by simp)]
  induction l with
  | nil => rfl
  | cons p t ih =>
    simp only [clsD, List.map_cons, dget, keq_cls_cls, decide_eq_true_eq, getOwn] at ih ⊢
    by_cases e : p.1 = c
    · simp [e]
    · simp only [e, if_false]; exact ih

theorem remove_own (l : List (Cls × Val)) (c : Cls) : remove (clsD l) c = clsD (remOwn l c) := by
  have hd : ddel (clsD l) (.cls c) = clsD (remOwn l c) := by
    induction l with
    | nil => rfl
    | cons p t ih =>
      simp only [clsD, List.map_cons, ddel, keq_cls_cls, decide_eq_true_eq, remOwn] at ih ⊢
      by_cases e : p.1 = c
      · simp [e]
      · simp only [e, if_false, ih, List.map_cons]
  rw [remove, hd, ddel_none_of_dget (dget_own_plain _ (by simp)), ddel_none_of_dget (dget_own_plain _ (by simp))]

/-! ### The common part of the store of a key -/

theorem regVal_fix {r : Reg} (v : Val) (h : RegVal r v) : fromId r v = .ok v := by
  obtain ⟨w, _, _, h3⟩ := regVal_wire (m := .ident) (by decide) v h
  exact fromId_idem _ h3

theorem common_fix {kind : Kind} {k v : Val} (h : Common kind k v) : FixEntry (kindReg kind) true simpleParser (k, v) := by
  obtain ⟨q, _, h2, h3⟩ := common_wire (m := .ident) (by decide) h
  refine ⟨fromIdKey_idem h2, ?_⟩
  simp only
  cases k <;> try rfl
  exact simpleParser_idem h3

theorem initStore_own {kind : Kind} {s : Dict} (h : InitOK kind s) : initStore kind s true = .ok s := by
  refine initStore_received h ?_
  have : ∀ t : Dict, (∀ p ∈ t, Common kind p.1 p.2) →
      All2 (fun q p' => fromIdKey (kindReg kind) q.1 true = .ok p'.1 ∧ parsedVal simpleParser p'.1 q.2 = .ok p'.2) t t := by
    intro t
    induction t with
    | nil => exact fun _ => .nil
    | cons p t ih =>
      intro hc
      exact .cons (common_fix (hc p (by simp))) (ih fun p hp => hc p (List.mem_cons_of_mem _ hp))
  exact this s h.common

/-- No label of the common part names a parameter of the key type. -/
theorem own_special {kind : Kind} {s : Dict} (h : ∀ p ∈ s, Common kind p.1 p.2) {c : Cls} (hc : Special kind c) :
    ∀ q ∈ s, keq q.1 (.cls c) = false ∧ keq q.1 (.int c.ident) = false ∧ keq q.1 (.text (fullname c)) = false := by
  intro q hq
  refine ⟨store_special h hc q hq, ?_⟩
  have : (∃ c', q.1 = .cls c') ∨ Spec.ForeignKeyLabel kind q.1 := by
    rcases h q hq with ⟨c', _, h1, _⟩ | ⟨c', h1, _⟩ | ⟨hf, _⟩
    · exact .inl ⟨_, h1⟩
    · exact .inl ⟨_, h1⟩
    · exact .inr hf
  rcases this with ⟨c', e⟩ | hf
  · rw [e, keq_comm, keq_comm (a := .cls c')]
    exact ⟨keq_cls_false (by simp), keq_cls_false (by simp)⟩
  · refine ⟨hf.apart _ hc.1, ?_⟩
    apply keq_text_false
    intro e
    have := hf.unregistered
    rw [e] at this
    simp [resolve, upper_mem hc.1, lookupName_mem hc.1] at this

/-- The class of a key is found from its own store. -/
theorem fromDict_own {C : Crypto} {kind : Kind} {s e : Dict} (h : InitOK kind s) : fromDict C (s ++ e) = kindFromDict C kind (s ++ e) := by
  obtain ⟨t, rfl⟩ := h.head
  simp only [fromDict, List.cons_append, dget, keq_refl, if_true]
  cases kind <;> rfl

theorem parseCrv_own {kty c : Cls} (h : crvKind c = some kty) (hm : ∃ n, (c, n) ∈ registry .crv) :
    parseCrv kty (.cls c) = .ok c := by
  obtain ⟨n, hn⟩ := hm
  have := resolve_cls (resolve_of_mem hn)
  simp [parseCrv, fromId, this, h]

theorem ec2Init_ownCrv {C : Crypto} {c : Cls} {x y d : Val} {opt : Dict} {allow : Bool} (h : crvKind c = some KtyEC2)
    (hm : ∃ n, (c, n) ∈ registry .crv) :
    ec2Init C (.cls c) x y d opt allow = ec2Init C (.int c.ident) x y d opt allow := by
  simp only [ec2Init, parseCrv_own h hm, parseCrv_ident h hm, reduceCtorEq, if_false]

theorem okpInit_ownCrv {c : Cls} {x d : Val} {opt : Dict} {allow : Bool} (h : crvKind c = some KtyOKP)
    (hm : ∃ n, (c, n) ∈ registry .crv) :
    okpInit (.cls c) x d opt allow = okpInit (.int c.ident) x d opt allow := by
  simp only [okpInit, parseCrv_own h hm, parseCrv_ident h hm, reduceCtorEq, if_false]

/-! ### The four key types -/

theorem sym_own {C : Crypto} {kv : Val} {opt : Dict} {allow : Bool} {k : Key} (ho : Spec.PlainOptional .sym opt)
    (h : symInit kv opt allow = .ok k) : fromDict C k.store = .ok k := by
  obtain ⟨s, kb, hs, rfl, hl, rfl⟩ := symInit_ok h
  have hi := initStore_plain ho hs
  have sp := own_special hi.common symK_special
  have hd : dset s (.cls SymK) (.bytes kb) = s ++ clsD [(SymK, .bytes kb)] := dset_append_new fun p hp => (sp p hp).1
  simp only [hd]
  rw [fromDict_own hi]
  simp only [kindFromDict, symFromDict, extract_append sp, remove_append sp, extract_own, remove_own]
  show symInit (.bytes kb) (s ++ []) true = _
  have hne : Val.bytes kb ≠ .bytes [] := by
    intro e; simp at e; subst e; simp at hl
  simp only [List.append_nil, symInit, initStore_own hi, ok_bind, if_neg hne, setSymK, if_pos hl, hd]

theorem ec2_own {C : Crypto} {crv x y d : Val} {opt : Dict} {allow : Bool} {k : Key} (ho : Spec.PlainOptional .ec2 opt)
    (h : ec2Init C crv x y d opt allow = .ok k) : fromDict C k.store = .ok k := by
  obtain ⟨s, c, bx, bY, db, hs, hc, hr, nx, ny, hp, rfl⟩ := ec2Init_shape h
  have hi := initStore_plain ho hs
  have s1 := ec2_special Ec2Crv (by simp)
  have s2 := ec2_special Ec2X (by simp)
  have s3 := ec2_special Ec2Y (by simp)
  have s4 := ec2_special Ec2D (by simp)
  have h3 := fun c (hc : Special .ec2 c) => own_special hi.common hc
  have e3 : dset (dset (dset s (.cls Ec2Crv) (.cls c)) (.cls Ec2X) (.bytes bx)) (.cls Ec2Y) (.bytes bY) =
      s ++ clsD [(Ec2Crv, .cls c), (Ec2X, .bytes bx), (Ec2Y, .bytes bY)] := by
    rw [← List.append_nil s]
    refine ((congrArg (fun z => dset (dset z _ _) _ _) (dset_special (l := []) hi.common s1 _ rfl (by simp))).trans ?_).trans (by rw [List.append_nil])
    refine (congrArg (fun z => dset z _ _) (dset_special hi.common s2 _ rfl (ks := [Ec2Crv]) (by decide))).trans ?_
    exact dset_special hi.common s3 _ rfl (ks := [Ec2Crv, Ec2X]) (by decide)
  have e4 : dset (dset (dset (dset s (.cls Ec2Crv) (.cls c)) (.cls Ec2X) (.bytes bx)) (.cls Ec2Y) (.bytes bY)) (.cls Ec2D) (.bytes db) =
      s ++ clsD [(Ec2Crv, .cls c), (Ec2X, .bytes bx), (Ec2Y, .bytes bY), (Ec2D, .bytes db)] := by
    rw [e3]
    exact dset_special hi.common s4 _ rfl (ks := [Ec2Crv, Ec2X, Ec2Y]) (by decide)
  have again := ec2Init_again (initStore_own hi) hc hr nx ny hp (C := C)
  rw [← ec2Init_ownCrv hc hr] at again
  by_cases hd : db = []
  · subst hd
    simp only [if_true] at again ⊢
    rw [e3] at again ⊢
    rw [fromDict_own hi]
    simp only [kindFromDict, ec2FromDict, extract_append (h3 _ s1), extract_append (h3 _ s2), extract_append (h3 _ s3), extract_append (h3 _ s4),
      remove_append (h3 _ s1), remove_append (h3 _ s2), remove_append (h3 _ s3), remove_append (h3 _ s4),
      extract_own, remove_own]
    show ec2Init C (.cls c) (.bytes bx) (.bytes bY) (.bytes []) (s ++ []) true = _
    rw [List.append_nil]
    exact again
  · simp only [hd, if_false] at again ⊢
    rw [e4] at again ⊢
    rw [fromDict_own hi]
    simp only [kindFromDict, ec2FromDict, extract_append (h3 _ s1), extract_append (h3 _ s2), extract_append (h3 _ s3), extract_append (h3 _ s4),
      remove_append (h3 _ s1), remove_append (h3 _ s2), remove_append (h3 _ s3), remove_append (h3 _ s4),
      extract_own, remove_own]
    show ec2Init C (.cls c) (.bytes bx) (.bytes bY) (.bytes db) (s ++ []) true = _
    rw [List.append_nil]
    exact again

theorem okp_own {C : Crypto} {crv x d : Val} {opt : Dict} {allow : Bool} {k : Key} (ho : Spec.PlainOptional .okp opt)
    (h : okpInit crv x d opt allow = .ok k) : fromDict C k.store = .ok k := by
  obtain ⟨s, c, s1, s2, hs, hc, h1, h2, hne, rfl⟩ := okpInit_ok h
  obtain ⟨hc, hr⟩ := parseCrv_ok hc
  have hi := initStore_plain ho hs
  obtain ⟨bx, rfl, rfl⟩ := setIfNonEmpty_shape h1
  obtain ⟨db, rfl, rfl⟩ := setIfNonEmpty_shape h2
  have p1 := okp_special OkpCrv (by simp)
  have p2 := okp_special OkpX (by simp)
  have p3 := okp_special OkpD (by simp)
  have h3 := fun c (hc : Special .okp c) => own_special hi.common hc
  have e1 : dset s (.cls OkpCrv) (.cls c) = s ++ clsD [(OkpCrv, .cls c)] := by
    have := dset_special (l := []) hi.common p1 (.cls c) rfl (by simp)
    simpa [clsD] using this
  have e2 := dset_opt (l := [(OkpCrv, .cls c)]) hi.common p2 bx (by simp)
  have e3 := dset_opt (l := [(OkpCrv, .cls c)] ++ optC OkpX bx) hi.common p3 db (by
    intro hh; rw [List.map_append, List.mem_append] at hh
    rcases hh with hh | hh
    · simp at hh
    · exact absurd (optC_keys hh) (by decide))
  have again : okpInit (.cls c) (.bytes bx) (.bytes db) s true =
      .ok { kind := .okp, store := s ++ clsD ([(OkpCrv, .cls c)] ++ optC OkpX bx ++ optC OkpD db) } := by
    have hlen : ¬ (bx.length = 0 ∧ db.length = 0) := by
      rintro ⟨a, b⟩
      rw [List.length_eq_zero_iff] at a b
      subst a; subst b; simp at hne
    simp only [okpInit, initStore_own hi, ok_bind, lenOf, parseCrv_own hc hr, setIfNonEmpty_bytes, e1, e2, e3]
    by_cases hx : bx.length = 0
    · have hd : (db.length == 0) = false := by simpa using fun h => hlen ⟨hx, h⟩
      simp [hx, hd]
    · simp [hx]
  rw [e1, e2, e3, fromDict_own hi]
  simp only [kindFromDict, okpFromDict, extract_append (h3 _ p1), extract_append (h3 _ p2), extract_append (h3 _ p3),
    remove_append (h3 _ p1), remove_append (h3 _ p2), remove_append (h3 _ p3), extract_own, remove_own]
  have g1 : getOwn ([(OkpCrv, Val.cls c)] ++ optC OkpX bx ++ optC OkpD db) OkpCrv .none = .cls c := rfl
  have g2 : getOwn ([(OkpCrv, Val.cls c)] ++ optC OkpX bx ++ optC OkpD db) OkpX (.bytes []) = .bytes bx := by
    by_cases hx : bx = [] <;> by_cases hd : db = [] <;> simp [optC, hx, hd, getOwn] <;> decide
  have g3 : getOwn ([(OkpCrv, Val.cls c)] ++ optC OkpX bx ++ optC OkpD db) OkpD (.bytes []) = .bytes db := by
    by_cases hx : bx = [] <;> by_cases hd : db = [] <;> simp [optC, hx, hd, getOwn] <;> decide
  have g4 : remOwn (remOwn (remOwn ([(OkpCrv, Val.cls c)] ++ optC OkpX bx ++ optC OkpD db) OkpX) OkpD) OkpCrv = [] := by
    by_cases hx : bx = [] <;> by_cases hd : db = [] <;> simp only [optC, hx, hd, if_true, if_false] <;> rfl
  rw [g1, g2, g3, g4]
  show okpInit (.cls c) (.bytes bx) (.bytes db) (s ++ []) true = _
  rw [List.append_nil]
  exact again

theorem rsa_own {C : Crypto} {r : Spec.Rsa} {opt : Dict} {allow : Bool} {k : Key} (ho : Spec.PlainOptional .rsa opt)
    (h : rsaInit r.args opt allow = .ok k) : fromDict C k.store = .ok { k with extra := [] } := by
  have hsh := ((c42_accepted r opt allow).mp ⟨k, h⟩).1
  obtain ⟨s, hi, hs, rfl⟩ := rsaInit_plain ho h
  have sp := fun c hc => rsa_special c hc
  have again : ∀ r' : Spec.Rsa, r' = { r with other := [], ri := [], di := [], ti := [] } →
      rsaInit r'.args s true = .ok { kind := .rsa, store := s ++ clsD r.chain } := by
    rintro r' rfl
    have hv : rsaValid { r with other := [], ri := [], di := [], ti := [] : Spec.Rsa }.args = .ok true := by
      rw [(rsaValid_spec _).1]
      rcases hsh with ⟨h1, h2, h3, h4, h5, h6, h7, h8, _⟩ | ⟨h1, _⟩ | ⟨h1, _⟩
      · exact .inl ⟨h1, h2, h3, h4, h5, h6, h7, h8, rfl, rfl, rfl, rfl⟩
      · exact .inr (.inl ⟨h1, rfl, rfl, rfl, rfl⟩)
      · exact .inr (.inl ⟨h1, rfl, rfl, rfl, rfl⟩)
    have h' := h
    rw [rsaInit_form] at h' ⊢
    obtain ⟨ok, hok, h'⟩ := bind_eq_ok.mp h'
    cases ok with
    | false => simp at h'
    | true =>
      simp only [Bool.true_eq_false, if_false, hs, ok_bind, Except.ok.injEq, Key.mk.injEq, true_and] at h'
      simp only [hv, ok_bind, Bool.true_eq_false, if_false, initStore_own hi, Except.ok.injEq, Key.mk.injEq, true_and]
      exact ⟨h'.1, by simp [RsaArgs.attrs, Spec.Rsa.args, truthy]⟩
  have pub : (r.d = [] ∧ r.p = [] ∧ r.q = [] ∧ r.dp = [] ∧ r.dq = [] ∧ r.qinv = []) ∨ r.Private := by
    rcases hsh with ⟨h1, h2, h3, h4, h5, h6, h7, h8, _⟩ | ⟨h1, _⟩ | ⟨h1, _⟩
    · exact .inl ⟨h3, h4, h5, h6, h7, h8⟩
    · exact .inr h1
    · exact .inr h1
  have ex : ∀ (l : List (Cls × Val)),
      rsaFromDict (s ++ clsD l) = rsaInit
        { n := getOwn l RsaN (.bytes []), e := getOwn l RsaE (.bytes []), d := getOwn l RsaD (.bytes []), p := getOwn l RsaP (.bytes []),
          q := getOwn l RsaQ (.bytes []), dp := getOwn l RsaDP (.bytes []), dq := getOwn l RsaDQ (.bytes []), qinv := getOwn l RsaQInv (.bytes []),
          other := getOwn l RsaOther (.arr []), ri := getOwn l RsaRi (.bytes []), di := getOwn l RsaDi (.bytes []), ti := getOwn l RsaTi (.bytes []) }
        (s ++ clsD ([RsaE, RsaN, RsaD, RsaP, RsaQ, RsaDP, RsaDQ, RsaQInv, RsaOther, RsaQInv, RsaRi, RsaDi, RsaTi].foldl remOwn l)) true := by
    intro l
    have h3 := fun c (hc : Special .rsa c) => own_special hi.common hc
    have e := fun c hc v => extract_append (v := v) (e := clsD l) (h3 c (sp c hc))
    have f : ∀ (cs : List Cls) (l : List (Cls × Val)), (∀ c ∈ cs, Special .rsa c) → cs.foldl remove (s ++ clsD l) = s ++ clsD (cs.foldl remOwn l) := by
      intro cs
      induction cs with
      | nil => intros; rfl
      | cons c t ih =>
        intro l hc
        rw [List.foldl_cons, remove_append (h3 c (hc c (by simp))), remove_own, ih _ fun c hc' => hc c (by simp [hc'])]
        rfl
    rw [rsaFromDict, f _ _ (by intro c hc; exact sp c ((by decide : ∀ c ∈ [RsaE, RsaN, RsaD, RsaP, RsaQ, RsaDP, RsaDQ, RsaQInv, RsaOther, RsaQInv, RsaRi, RsaDi, RsaTi], c ∈ [RsaE, RsaN, RsaD, RsaP, RsaQ, RsaDP, RsaDQ, RsaQInv, RsaOther, RsaRi, RsaDi, RsaTi]) c hc)),
      e RsaN (by decide), e RsaE (by decide), e RsaD (by decide), e RsaP (by decide), e RsaQ (by decide), e RsaDP (by decide), e RsaDQ (by decide),
      e RsaQInv (by decide), e RsaOther (by decide), e RsaRi (by decide), e RsaDi (by decide), e RsaTi (by decide)]
    simp only [extract_own]
  show fromDict C (s ++ clsD r.chain) = .ok { kind := .rsa, store := s ++ clsD r.chain }
  rw [fromDict_own hi]
  simp only [kindFromDict]
  rw [ex, ← again _ rfl]
  rcases pub with ⟨h1, h2, h3, h4, h5, h6⟩ | ⟨_, _, h1, h2, h3, h4, h5, h6⟩
  · have hch : r.chain = [(RsaE, .bytes r.e), (RsaN, .bytes r.n)] := by simp [Spec.Rsa.chain, optC, h1, h2, h3, h4, h5, h6]
    rw [hch]
    simp only [Spec.Rsa.args, h1, h2, h3, h4, h5, h6]
    show rsaInit _ (s ++ []) true = _
    rw [List.append_nil]
    rfl
  · have hch : r.chain = [(RsaE, .bytes r.e), (RsaN, .bytes r.n), (RsaD, .bytes r.d), (RsaP, .bytes r.p), (RsaQ, .bytes r.q),
        (RsaDP, .bytes r.dp), (RsaDQ, .bytes r.dq), (RsaQInv, .bytes r.qinv)] := by simp [Spec.Rsa.chain, optC, h1, h2, h3, h4, h5, h6]
    rw [hch]
    simp only [Spec.Rsa.args]
    show rsaInit _ (s ++ []) true = _
    rw [List.append_nil]
    rfl

theorem constructed_own {C : Crypto} {k : Key} (h : Spec.ConstructedKey C k) : fromDict C k.store = .ok { k with extra := [] } := by
  obtain ⟨opt, ho, h⟩ := h
  split at h
  · obtain ⟨kv, h⟩ := h
    rename_i hk
    rw [hk] at ho
    have e : k.extra = [] := by
      obtain ⟨s, kb, hs, rfl, hl, rfl⟩ := symInit_ok h
      rfl
    have := sym_own (C := C) ho h
    cases k; simp only at e; subst e; exact this
  · obtain ⟨crv, x, y, d, h⟩ := h
    rename_i hk
    rw [hk] at ho
    have e : k.extra = [] := by
      obtain ⟨s, c, bx, bY, db, hs, hc, hr, nx, ny, hp, rfl⟩ := ec2Init_shape h
      rfl
    have := ec2_own (C := C) ho h
    cases k; simp only at e; subst e; exact this
  · obtain ⟨crv, x, d, h⟩ := h
    rename_i hk
    rw [hk] at ho
    have e : k.extra = [] := by
      obtain ⟨s, c, s1, s2, hs, hc, h1, h2, hne, rfl⟩ := okpInit_ok h
      rfl
    have := okp_own (C := C) ho h
    cases k; simp only at e; subst e; exact this
  · obtain ⟨a, h⟩ := h
    rename_i hk
    rw [hk] at ho
    obtain ⟨r, _, h⟩ := rsaInit_ordinary h
    have := rsa_own (C := C) ho h
    exact this

/-! ### C23 -/

/-- **C23**: parsing is idempotent, for header maps whose COSE keys are ones that a constructor makes (see `c23_idempotent_received`
for what this means for received maps, and `c23_idempotent_refuted` for other keys). -/
theorem c23_idempotent_keys_partial {C : Crypto} {allow : Bool} {h d : Dict} (e : parseHeader C allow h = .ok d)
    (hk : ∀ k v, (k, v) ∈ d → k = .cls Hdr.EphemeralKey ∨ k = .cls Hdr.StaticKey →
      ∃ key, v = .key key.kind key.store ∧ Spec.ConstructedKey C key) :
    parseHeader C allow d = .ok d := by
  have hn : KeysNodup d := parseAttrs_nodup (by simp [KeysNodup]) e
  have hp := parseAttrs_parsed (by simp) e
  have := parseAttrs_fix (r := .hdr) (allow := allow) (parse := hdrParser C) (acc := []) (d := d) (by simpa using hn) ?_
  · simpa [parseHeader] using this
  · intro p hpd
    obtain ⟨h1, h2⟩ := hp p hpd
    refine ⟨h1, ?_⟩
    obtain ⟨k, v⟩ := p
    cases k <;> try rfl
    rename_i c
    obtain ⟨w, hw⟩ := h2 c rfl
    by_cases hkey : isKeyHdr c
    · have hc : (Val.cls c) = .cls Hdr.EphemeralKey ∨ (Val.cls c) = .cls Hdr.StaticKey := by
        obtain ⟨hr, hi⟩ := hkey
        obtain ⟨r, i⟩ := c
        simp only at hr hi
        subst hr
        rcases hi with rfl | rfl
        · exact .inl rfl
        · exact .inr rfl
      obtain ⟨key, rfl, hck⟩ := hk _ _ hpd hc
      simp only [isKeyHdr] at hkey
      simp only [parsedVal, hdrParser]
      rw [if_pos hkey]
      simp only [fromDictVal, constructed_own hck, ok_bind, Key.toVal]
    · exact hdrParser_idem hkey hw

/-- **C23**: parsing a received header map is idempotent, when its labels are integers and texts and the names of key parameters
are written in capital letters. -/
theorem c23_idempotent_received {C : Crypto} {allow : Bool} {h d : Dict} (hd : PyOK (.map h)) (e : parseHeader C allow h = .ok d)
    (hl : ∀ k v, (k, v) ∈ h → (∃ i, k = .int i) ∨ ∃ s, k = .text s)
    (hk : ∀ k m key, (k, .map m) ∈ h → fromDict C m = .ok key → Spec.KeyLabels key.kind m) :
    parseHeader C allow d = .ok d :=
  c23_idempotent_keys_partial e fun k v hm => (plainHeader_received hd e hl hk k v hm).2

example : PyOK (.map [(.text b!"Alg", .text b!"es256"), (.int (-1), .map Sample.okpMap)]) ∧
    (parseHeader toy true [(.text b!"Alg", .text b!"es256"), (.int (-1), .map Sample.okpMap)]).isOk = true ∧
    (∀ k m key, (k, .map m) ∈ ([(.text b!"Alg", .text b!"es256"), (.int (-1), .map Sample.okpMap)] : Dict) →
      fromDict toy m = .ok key → Spec.KeyLabels key.kind m) := by
  refine ⟨(by simp [PyOK, PyOKP, PyOKL, PyOKQ, Sample.okpMap, KeysNodup, keq, norm]; decide +kernel), by decide +kernel, ?_⟩
  intro k m key hm hf
  obtain ⟨_, this⟩ : k = .int (-1) ∧ m = Sample.okpMap := by simpa using hm
  subst this
  have hk : key.kind = .okp := by
    have : (fromDict toy Sample.okpMap).map (·.kind) = .ok .okp := by decide +kernel
    rw [hf] at this
    simpa [Except.map] using this
  rw [hk]
  exact Sample.okpMap_labels

/-- **C23**, refuted for key-valued headers in general: the header map with an OKP key whose parameter `x` is written in small letters
and is not a byte string is accepted, but its parsed form is refused. -/
theorem c23_idempotent_refuted : ∃ (h d : Dict), parseHeader toy true h = .ok d ∧ parseHeader toy true d = .error .typeError := by
  have : (do
      let d ← parseHeader toy true [(.int (-1), .map [(.int 1, .int 1), (.int (-1), .int 6), (.int (-4), .bytes [3]), (.text b!"x", .int 5)])]
      .ok (decide (parseHeader toy true d = .error .typeError)) : Res Bool) = .ok true := by decide +kernel
  obtain ⟨d, h1, h2⟩ := bind_eq_ok.mp this
  exact ⟨_, d, h1, by simpa using h2⟩

/-! ### C96 -/

/-- **C96**: `CoseKey.from_dict` applied to a key makes the same key again: same class, same parameters in the same order.  The key is
one made by a constructor from optional parameters with serialisable values.  Missing: keys with other optional parameters, and the
attributes for further primes of an RSA key, which are lost (`c96_primes_refuted`). -/
theorem c96_copy_partial {C : Crypto} {k : Key} (h : Spec.ConstructedKey C k) (hx : k.extra = []) :
    fromDictVal C (.key k.kind k.store) = .ok k := by
  simp only [fromDictVal, constructed_own h]
  cases k; simp only at hx; subst hx; rfl

/-- **C96**: in general the copy has the same class and the same parameters. -/
theorem c96_store_partial {C : Crypto} {k : Key} (h : Spec.ConstructedKey C k) :
    ∃ k', fromDictVal C (.key k.kind k.store) = .ok k' ∧ k'.kind = k.kind ∧ k'.store = k.store :=
  ⟨_, constructed_own h, rfl, rfl⟩

/-- **C96**: for a key that was decoded from bytes. -/
theorem c96_decoded_partial {C : Crypto} {b : Bytes} {k : Key} (h : Key.decode C b = .ok k)
    (hl : ∀ d, loads b = .ok (.map d) → Spec.KeyLabels k.kind d) :
    ∃ k', fromDictVal C (.key k.kind k.store) = .ok k' ∧ k'.kind = k.kind ∧ k'.store = k.store := by
  obtain ⟨v, hv, h⟩ := bind_eq_ok.mp h
  have hp := loads_pyok hv
  cases v
  case map d => exact c96_store_partial (constructed_received hp h (hl d hv))
  case key => exact absurd hp (by simp [PyOK])
  case arr l =>
    exact (fromList_refused h).elim
  all_goals cases h

example : Spec.ConstructedKey toy { kind := .sym, store := [(.cls KpKty, .cls KtySym), (.cls SymK, .bytes (List.replicate 16 7))] } :=
  ⟨[], (by intro k v h; cases h), .bytes (List.replicate 16 7), by decide +kernel⟩

/-- **C96**, refuted for RSA keys with more than two primes: the copy lacks the further primes. -/
theorem c96_primes_refuted : ∃ k : Key, Spec.ConstructedKey toy k ∧ fromDictVal toy (.key k.kind k.store) ≠ .ok k := by
  let one : Val := .bytes [1]
  let a : RsaArgs := { n := one, e := one, d := one, p := one, q := one, dp := one, dq := one, qinv := one, other := .arr [.int 1], ri := one, di := one, ti := one }
  have h : (rsaInit a [] true).isOk = true := by decide +kernel
  cases hk : rsaInit a [] true with
  | error e => rw [hk] at h; cases h
  | ok k =>
    have e1 : (rsaInit a [] true).map (fun k => decide (k.kind = .rsa) && decide (fromDictVal toy (.key k.kind k.store) ≠ .ok k)) = .ok true := by decide +kernel
    rw [hk] at e1
    simp only [Except.map, Except.ok.injEq, Bool.and_eq_true, decide_eq_true_eq] at e1
    exact ⟨k, ⟨[], (by intro k v h; cases h), by rw [e1.1]; exact ⟨a, hk⟩⟩, e1.2⟩

end Cose
