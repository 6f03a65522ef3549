import Verif.SpecKeys
/-!
# Lemmas about recipients
-/
set_option autoImplicit false
namespace Cose

/-! ### Algorithms with methods are registered -/

theorem algFam_reg {alg : Val} {f : AlgFam} (h : algFam alg = some f) :
    ∃ c n, alg = .cls c ∧ (c, n) ∈ registry .alg ∧ (c.ident, f) ∈ algTable := by
  cases alg <;> simp only [algFam, reduceCtorEq] at h
  rename_i c
  split at h <;> simp at h
  rename_i hr
  obtain ⟨i, h1⟩ := h
  have h2 := List.mem_of_find?_eq_some h1
  have h3 := List.find?_some h1
  simp at h3; subst h3
  have : ∀ p ∈ algTable, ∃ n, ((⟨.alg, p.1⟩ : Cls), n) ∈ registry .alg := by
    have : ∀ p ∈ algTable, (registry .alg).any (fun q => q.1 = ⟨.alg, p.1⟩) = true := by decide +kernel
    intro p hp
    have := this p hp
    rw [List.any_eq_true] at this
    obtain ⟨⟨c, n⟩, h1, h2⟩ := this
    simp at h2; subst h2
    exact ⟨n, h1⟩
  obtain ⟨n, hn⟩ := this _ h2
  refine ⟨c, n, rfl, ?_, h2⟩
  have : c = ⟨.alg, c.ident⟩ := by rw [← hr]
  rw [this]; exact hn

theorem fromId_cls {r : Reg} {c : Cls} {n : Bytes} (h : (c, n) ∈ registry r) : fromId r (.cls c) = .ok (.cls c) := by
  have : resolve r (.cls c) = some c := lookupId_mem h
  simp only [fromId, this]

theorem fromIdL_ops {ops : List Cls} (h : ∀ o ∈ ops, ∃ n, (o, n) ∈ registry .op) :
    fromIdL .op (ops.map .cls) = .ok (ops.map .cls) := by
  induction ops with
  | nil => rfl
  | cons o t ih =>
    obtain ⟨n, hn⟩ := h o (by simp)
    simp [fromIdL, fromId_cls hn, ih (fun x hx => h x (List.mem_cons_of_mem _ hx))]

/-! ### Symmetric keys made by the library -/

def symStore (alg : Val) (ops : List Cls) (kb : Bytes) : Dict :=
  [(.cls KpKty, .cls KtySym), (.cls KpAlg, alg)] ++
    (if ops.isEmpty then [] else [(.cls KpKeyOps, .arr (ops.map .cls))]) ++ [(.cls SymK, .bytes kb)]

theorem mkSym_eq {c : Cls} {n : Bytes} (hc : (c, n) ∈ registry .alg) {ops : List Cls}
    (hops : ∀ o ∈ ops, ∃ n, (o, n) ∈ registry .op) (v : Val) :
    mkSym v (.cls c) ops =
      if v = .bytes [] then .error .invalidKey
      else match v with
        | .bytes kb => if kb.length = 16 ∨ kb.length = 24 ∨ kb.length = 32 then
            .ok { kind := .sym, store := symStore (.cls c) ops kb } else .error .invalidKey
        | _ => .error .valueError := by
  have h1 : fromIdKey .kpSym (.cls KpAlg) true = .ok (.cls KpAlg) := by decide +kernel
  have h2 : fromIdKey .kpSym (.cls KpKeyOps) true = .ok (.cls KpKeyOps) := by decide +kernel
  have h3 : simpleParser KpAlg (.cls c) = .ok (.cls c) := fromId_cls hc
  have h4 : simpleParser KpKeyOps (.arr (ops.map .cls)) = .ok (.arr (ops.map .cls)) := by
    show fromId .op _ = _
    simp only [fromId, fromIdL_ops hops, ok_bind]
  have hi : initStore .sym ((.cls KpAlg, .cls c) :: (if ops.isEmpty then [] else [(.cls KpKeyOps, .arr (ops.map .cls))])) true =
      .ok ([(.cls KpKty, .cls KtySym), (.cls KpAlg, .cls c)] ++ (if ops.isEmpty then [] else [(.cls KpKeyOps, .arr (ops.map .cls))])) := by
    unfold initStore
    cases ops with
    | nil =>
      simp only [List.isEmpty_nil, if_true, parseAttrs, kindReg, h1, ok_bind, h3]
      simp [dset, dget, kindKty, KpKty, KpAlg, KpKeyOps]
    | cons o t =>
      simp only [List.isEmpty_cons, Bool.false_eq_true, if_false, parseAttrs, kindReg, h1, h2, ok_bind, h3, h4]
      simp [dset, dget, kindKty, KpKty, KpAlg, KpKeyOps, lenOf]
  unfold mkSym symInit
  rw [hi]
  simp only [ok_bind]
  split
  · rfl
  · cases v <;> simp only [setSymK, error_bind]
    split
    · rw [ok_bind, dset_append_new]
      · rfl
      · intro p hp
        cases ops <;> simp at hp
        · rcases hp with rfl | rfl <;> rfl
        · rcases hp with rfl | rfl | rfl <;> rfl
    · rfl

theorem mkSym_ok {c : Cls} {n : Bytes} (hc : (c, n) ∈ registry .alg) {ops : List Cls}
    (hops : ∀ o ∈ ops, ∃ n, (o, n) ∈ registry .op) {v : Val} {k : Key} (h : mkSym v (.cls c) ops = .ok k) :
    ∃ kb, v = .bytes kb ∧ (kb.length = 16 ∨ kb.length = 24 ∨ kb.length = 32) ∧
      k = { kind := .sym, store := symStore (.cls c) ops kb } := by
  rw [mkSym_eq hc hops] at h
  split at h
  · simp at h
  · cases v <;> simp only [reduceCtorEq] at h
    split at h <;> simp at h
    rename_i hl
    exact ⟨_, rfl, hl, h.symm⟩

theorem mkSym_bytes {c : Cls} {n : Bytes} (hc : (c, n) ∈ registry .alg) {ops : List Cls}
    (hops : ∀ o ∈ ops, ∃ n, (o, n) ∈ registry .op) {kb : Bytes} (hl : kb.length = 16 ∨ kb.length = 24 ∨ kb.length = 32) :
    mkSym (.bytes kb) (.cls c) ops = .ok { kind := .sym, store := symStore (.cls c) ops kb } := by
  rw [mkSym_eq hc hops, if_neg (by rintro ⟨⟩; simp at hl)]
  simp only [if_pos hl]

theorem symStore_symK (alg : Val) (ops : List Cls) (kb : Bytes) :
    ({ kind := .sym, store := symStore alg ops kb } : Key).symK = .ok (.bytes kb) := by
  cases ops <;> simp [Key.symK, symStore, dget, KpKty, KpAlg, KpKeyOps, SymK]

theorem symStore_baseIv (alg : Val) (ops : List Cls) (kb : Bytes) :
    ({ kind := .sym, store := symStore alg ops kb } : Key).baseIv = .bytes [] := by
  cases ops <;> simp [Key.baseIv, getD, symStore, dget, KpKty, KpAlg, KpKeyOps, SymK, KpBaseIV]

theorem symStore_permits {c : Cls} {ops use : List Cls} (kb : Bytes) (h : ops = [] ∨ ∃ o ∈ use, o ∈ ops) :
    Spec.Permits { kind := .sym, store := symStore (.cls c) ops kb } .sym (.cls c) use := by
  refine ⟨rfl, .inr ⟨c, rfl, ?_⟩, ?_⟩
  · cases ops <;> simp [symStore, dget, KpKty, KpAlg, KpKeyOps, SymK]
  · cases ops with
    | nil => left; simp [symStore, dget, KpKty, KpAlg, KpKeyOps, SymK]
    | cons o t =>
      right
      refine ⟨(o :: t).map .cls, by simp [symStore, dget, KpKty, KpAlg, KpKeyOps, SymK], .inr ?_⟩
      rcases h with h | ⟨x, h1, h2⟩
      · simp at h
      · exact ⟨x, h1, List.mem_map_of_mem h2⟩

theorem opReg (o : Cls) (h : o ∈ [Op.Sign, Op.Verify, Op.Encrypt, Op.Decrypt, Op.Wrap, Op.Unwrap, Op.DeriveKey, Op.DeriveBits,
    Op.MacCreate, Op.MacVerify]) : ∃ n, (o, n) ∈ registry .op := by
  have : ∀ o ∈ [Op.Sign, Op.Verify, Op.Encrypt, Op.Decrypt, Op.Wrap, Op.Unwrap, Op.DeriveKey, Op.DeriveBits,
    Op.MacCreate, Op.MacVerify], (registry .op).any (fun q => q.1 = o) = true := by decide +kernel
  have := this o h
  rw [List.any_eq_true] at this
  obtain ⟨⟨c, n⟩, h1, h2⟩ := this
  simp at h2; subst h2
  exact ⟨n, h1⟩

/-! ### Creating recipients -/

theorem loadsVal_bytes (b : Bytes) : loadsVal (.bytes b) = loads b := rfl

/-- The class of a received recipient is the one registered for its algorithm. -/
theorem createRecipient_received {C : Crypto} {allow : Bool} {ctx : Bytes} {oid : Nat} {pe : Bytes} {w ph uh : Dict}
    {rest : List Val} {alg : Val} {cls : RCls}
    (hp : ProtReceived C allow (.bytes pe) (some pe) ph) (hu : parseHeader C allow w = .ok uh)
    {b' : Base} (e1 : b'.phdr = ph) (e2 : b'.uhdr = uh) (ha : b'.getAttr Hdr.Algorithm = .ok alg) (hn : alg ≠ .none)
    (hc : rcptClass alg = .ok cls) :
    createRecipient C allow ctx oid (.arr (.bytes pe :: .map w :: rest)) =
      rcptFromObj C cls (.arr (.bytes pe :: .map w :: rest)) allow ctx oid := by
  have hpA : (if Val.bytes pe ≠ .bytes [] then do
        let v ← loadsVal (.bytes pe)
        let h ← parseHeaderVal C allow v
        .ok (getD h Hdr.Algorithm .none)
      else .ok .none : Res Val) = .ok (getD ph Hdr.Algorithm .none) := by
    rcases hp.inv with ⟨h, _⟩ | ⟨h, _, rfl⟩ | ⟨b, d, h1, _, hb, h2, h3⟩
    · simp at h
    · rw [if_neg (by simpa using h)]; rfl
    · simp at h1; subst h1
      rw [if_pos (by simpa using hb), loadsVal_bytes, h2]
      simp only [ok_bind, parseHeaderVal, h3]
  have key : createRecipient C allow ctx oid (.arr (.bytes pe :: .map w :: rest)) =
      (if getD ph Hdr.Algorithm .none ≠ .none then do
        let c ← rcptClass (getD ph Hdr.Algorithm .none)
        rcptFromObj C c (.arr (.bytes pe :: .map w :: rest)) allow ctx oid
      else if getD uh Hdr.Algorithm .none ≠ .none then do
        let c ← rcptClass (getD uh Hdr.Algorithm .none)
        rcptFromObj C c (.arr (.bytes pe :: .map w :: rest)) allow ctx oid
      else .error .coseException) := by
    unfold createRecipient
    by_cases hpe : Val.bytes pe ≠ .bytes []
    · simp only [if_pos hpe] at hpA
      obtain ⟨v, h1, hpA⟩ := bind_eq_ok.mp hpA
      obtain ⟨h, h2, hpA⟩ := bind_eq_ok.mp hpA
      simp at hpA
      simp only [rcptItem, List.getElem?_cons_zero, List.getElem?_cons_succ, ok_bind, if_pos hpe, h1, h2, hpA]
      simp only [parseHeaderVal, hu, ok_bind]
    · simp only [if_neg hpe] at hpA
      simp at hpA
      simp only [rcptItem, List.getElem?_cons_zero, List.getElem?_cons_succ, ok_bind, if_neg hpe, parseHeaderVal, hu, ← hpA]
  rw [key]
  have ha' : (if getD ph Hdr.Algorithm .none ≠ .none ∧ getD uh Hdr.Algorithm .none ≠ .none then .error .coseException
      else if getD ph Hdr.Algorithm .none ≠ .none then .ok (getD ph Hdr.Algorithm .none)
      else .ok (getD uh Hdr.Algorithm .none) : Res Val) = .ok alg := by
    rw [← ha, ← e1, ← e2]; rfl
  split at ha'
  · simp at ha'
  · split at ha'
    · rename_i h
      simp at ha'; rw [if_pos h, ha', hc, ok_bind]
    · rename_i h
      simp at ha'; rw [if_neg h, ha', if_pos hn, hc, ok_bind]

theorem rcptClass_ne_none {alg : Val} {cls : RCls} (h : rcptClass alg = .ok cls) : ∃ c, alg = .cls c ∧ c.reg = .alg := by
  cases alg <;> simp only [rcptClass, reduceCtorEq] at h
  split at h
  · rename_i hr; exact ⟨_, rfl, hr⟩
  · simp at h

/-! ### Membership -/

theorem hasRecipient_mem {rs : List Rcpt} {r : Rcpt} (h : r ∈ rs) : hasRecipient r.oid rs = true := by
  have : ∀ f, hasLoop r.oid f rs = true := by
    induction rs with
    | nil => simp at h
    | cons a t ih =>
      intro f
      rcases List.mem_cons.mp h with rfl | h
      · obtain ⟨_, _, _, _, _⟩ := r
        simp [hasLoop, hasIn, Rcpt.oid]
      · simp only [hasLoop]
        split
        · exact ih h _
        · rfl
  exact this _

end Cose
