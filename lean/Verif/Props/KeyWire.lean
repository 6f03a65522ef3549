import Verif.Props.Keys
/-!
# Serialisation of keys (C42, C43)
-/
set_option autoImplicit false
namespace Cose

/-! ### Specification of serialisable keys -/

/-- A label that is not a parameter of the key type and cannot be mistaken for one. -/
structure Spec.ForeignKeyLabel (kind : Kind) (k : Val) : Prop where
  plain : PyOK k
  unregistered : resolve (kindReg kind) k = none
  apart : ∀ p ∈ registry (kindReg kind), keq k (.int p.1.ident) = false

/-- Optional parameters with serialisable values: the common parameters under any of their names (key type, algorithm and
key operations in any form, key identifier and base IV with plain values), and unknown parameters with plain values. -/
def Spec.PlainOptional (kind : Kind) (d : Dict) : Prop :=
  ∀ k v, (k, v) ∈ d →
    (∃ c n, (c, n) ∈ registry (kindReg kind) ∧ c.reg = .kp ∧ Spec.Alias c n k ∧ (c = KpKid ∨ c = KpBaseIV → PyOK v)) ∨
    (Spec.ForeignKeyLabel kind k ∧ PyOK v)

theorem foreignKey_int {kind : Kind} {i : Int} (h : ∀ p ∈ registry (kindReg kind), p.1.ident ≠ i) :
    Spec.ForeignKeyLabel kind (.int i) := by
  refine ⟨trivial, by simpa [resolve, lookupId] using h, ?_⟩
  intro p hp
  have := h p hp
  simp [keq, norm]
  exact fun e => this e.symm

/-! ### Values made of attribute classes -/

/-- A class of the registry, or a list of such values. -/
inductive RegVal (r : Reg) : Val → Prop
  | one {c : Cls} {n : Bytes} : (c, n) ∈ registry r → RegVal r (.cls c)
  | many {l : List Val} : (∀ v ∈ l, RegVal r v) → RegVal r (.arr l)

mutual
theorem fromId_regVal {r : Reg} (v : Val) {w : Val} (h : fromId r v = .ok w) : RegVal r w := by
  cases v
  case arr l =>
    obtain ⟨l', h1, h⟩ := bind_eq_ok.mp h
    simp at h; subst h
    exact .many (fromIdL_regVal l h1)
  all_goals
    simp only [fromId] at h
    split at h <;> simp at h
    subst h
    rename_i hr
    obtain ⟨n, hn⟩ := (resolve_some hr).2
    exact .one hn
termination_by structural v
theorem fromIdL_regVal {r : Reg} (l : List Val) {w : List Val} (h : fromIdL r l = .ok w) : ∀ v ∈ w, RegVal r v := by
  cases l with
  | nil => simp [fromIdL] at h; subst h; simp
  | cons v t =>
    simp only [fromIdL, bind_eq_ok] at h
    obtain ⟨v', h1, t', h2, h⟩ := h
    simp at h; subst h
    intro x hx
    rcases List.mem_cons.mp hx with rfl | hx
    · exact fromId_regVal v h1
    · exact fromIdL_regVal t h2 x hx
termination_by structural l
end

/-- Classes are sent as their identifiers or, for algorithms if asked for, as their names. -/
theorem substCls_wire {m : Mode} (hm : m ≠ .plain) (c : Cls) :
    substCls fullname m c = .ok (.int c.ident) ∨ substCls fullname m c = .ok (.text (fullname c)) := by
  cases m with
  | plain => exact absurd rfl hm
  | ident => exact .inl rfl
  | base t =>
    simp only [substCls]
    split
    · exact .inr rfl
    · exact .inl rfl

theorem substCls_ident {m : Mode} (hm : m ≠ .plain) {c : Cls} (hc : c.reg ≠ .alg) : substCls fullname m c = .ok (.int c.ident) := by
  cases m with
  | plain => exact absurd rfl hm
  | ident => rfl
  | base t => simp [substCls, hc]

theorem kind_not_alg {kind : Kind} {c : Cls} {n : Bytes} (h : (c, n) ∈ registry (kindReg kind)) : c.reg ≠ .alg := by
  have : ∀ p ∈ registry (kindReg kind), p.1.reg ≠ .alg := by cases kind <;> decide +kernel
  exact this _ h

mutual
theorem regVal_wire {r : Reg} {m : Mode} (hm : m ≠ .plain) (v : Val) (h : RegVal r v) :
    ∃ w, subst fullname m v = .ok w ∧ PyOK w ∧ fromId r w = .ok v := by
  cases v
  case cls c =>
    cases h with
    | one hn =>
      simp only [subst]
      rcases substCls_wire hm c with e | e <;> rw [e]
      · exact ⟨_, rfl, trivial, by simp only [fromId, resolve_of_mem hn]⟩
      · refine ⟨_, rfl, ?_, ?_⟩
        · simp only [PyOK]; exact fullname_valid (resolve_of_mem hn)
        · simp only [fromId, resolve_fullname (resolve_of_mem hn)]
  case arr l =>
    cases h with
    | many hl =>
      obtain ⟨w, h1, h2, h3⟩ := regVals_wire hm l hl
      exact ⟨.arr w, by simp [subst, h1], by simpa [PyOK] using h2, by simp [fromId, h3]⟩
  all_goals cases h
termination_by structural v
theorem regVals_wire {r : Reg} {m : Mode} (hm : m ≠ .plain) (l : List Val) (h : ∀ v ∈ l, RegVal r v) :
    ∃ w, substL fullname m l = .ok w ∧ PyOKL w ∧ fromIdL r w = .ok l := by
  cases l with
  | nil => exact ⟨[], rfl, trivial, rfl⟩
  | cons v t =>
    obtain ⟨w, h1, h2, h3⟩ := regVal_wire hm v (h v (by simp))
    obtain ⟨ws, h4, h5, h6⟩ := regVals_wire hm t (fun x hx => h x (List.mem_cons_of_mem _ hx))
    exact ⟨w :: ws, by simp [substL, h1, h4], ⟨h2, h5⟩, by simp [fromIdL, h3, h6]⟩
termination_by structural l
end

/-! ### Entries of the store -/

/-- The common part of a store. -/
def Common (kind : Kind) (k v : Val) : Prop :=
  (∃ c r, k = .cls c ∧ (c = KpKty ∧ r = .kty ∨ c = KpAlg ∧ r = .alg ∨ c = KpKeyOps ∧ r = .op) ∧ RegVal r v) ∨
  (∃ c, k = .cls c ∧ (c = KpKid ∨ c = KpBaseIV) ∧ PyOK v) ∨ (Spec.ForeignKeyLabel kind k ∧ PyOK v)

/-- The label of an entry on the wire. -/
def KeyLabel (kind : Kind) (k k' : Val) : Prop :=
  (∃ c n, (c, n) ∈ registry (kindReg kind) ∧ k = .cls c ∧ k' = .int c.ident) ∨ (k' = k ∧ Spec.ForeignKeyLabel kind k)

def KeyEntry (m : Mode) (kind : Kind) (p q : Val × Val) : Prop :=
  substQ fullname m p = .ok q ∧ PyOK q.1 ∧ PyOK q.2 ∧ KeyLabel kind p.1 q.1

theorem kp_reg (kind : Kind) : ∀ c ∈ [KpKty, KpAlg, KpKeyOps, KpKid, KpBaseIV], (c, fullname c) ∈ registry (kindReg kind) := by
  cases kind <;> decide +kernel

theorem common_wire {m : Mode} (hm : m ≠ .plain) {kind : Kind} {k v : Val} (h : Common kind k v) :
    ∃ q, KeyEntry m kind (k, v) q ∧ fromIdKey (kindReg kind) q.1 true = .ok k ∧ parsedVal simpleParser k q.2 = .ok v := by
  have hcls : ∀ {c : Cls} {n : Bytes}, (c, n) ∈ registry (kindReg kind) →
      subst fullname m (.cls c) = .ok (.int c.ident) ∧ fromIdKey (kindReg kind) (.int c.ident) true = .ok (.cls c) := by
    intro c n hc
    exact ⟨substCls_ident hm (kind_not_alg hc), by simp [fromIdKey, resolve_of_mem hc]⟩
  rcases h with ⟨c, r, rfl, hc, hv⟩ | ⟨c, rfl, hc, hv⟩ | ⟨hf, hv⟩
  · obtain ⟨w, h1, h2, h3⟩ := regVal_wire hm v hv
    have hr : (c, fullname c) ∈ registry (kindReg kind) := by
      apply kp_reg
      rcases hc with ⟨rfl, _⟩ | ⟨rfl, _⟩ | ⟨rfl, _⟩ <;> simp
    obtain ⟨e1, e2⟩ := hcls hr
    refine ⟨(.int c.ident, w), ⟨by simp only [substQ, e1, h1, ok_bind], trivial, h2, .inl ⟨_, _, hr, rfl, rfl⟩⟩, e2, ?_⟩
    rcases hc with ⟨rfl, rfl⟩ | ⟨rfl, rfl⟩ | ⟨rfl, rfl⟩ <;> simpa [parsedVal, simpleParser] using h3
  · have hr : (c, fullname c) ∈ registry (kindReg kind) := by
      apply kp_reg
      rcases hc with rfl | rfl <;> simp
    obtain ⟨e1, e2⟩ := hcls hr
    refine ⟨(.int c.ident, v), ⟨by simp only [substQ, e1, subst_plain _ _ _ hv, ok_bind], trivial, hv, .inl ⟨_, _, hr, rfl, rfl⟩⟩, e2, ?_⟩
    rcases hc with rfl | rfl <;> simp [parsedVal, simpleParser]
  · refine ⟨(k, v), ⟨by simp only [substQ, subst_plain _ _ _ hf.plain, subst_plain _ _ _ hv, ok_bind], hf.plain, hv, .inr ⟨rfl, hf⟩⟩, ?_, ?_⟩
    · simp [fromIdKey, hf.unregistered]
    · have : ∀ c, k ≠ .cls c := by rintro c rfl; exact hf.plain
      cases k <;> first | rfl | exact absurd rfl (this _)

theorem keyLabel_apart {kind : Kind} {k1 k2 q1 q2 : Val} (h1 : KeyLabel kind k1 q1) (h2 : KeyLabel kind k2 q2) (h : keq k1 k2 = false) :
    keq q1 q2 = false := by
  rcases h1 with ⟨c1, n1, hc1, rfl, rfl⟩ | ⟨rfl, f1⟩ <;> rcases h2 with ⟨c2, n2, hc2, rfl, rfl⟩ | ⟨rfl, f2⟩
  · have hne : c1 ≠ c2 := by rintro rfl; simp [keq] at h
    have : c1.ident ≠ c2.ident := by
      intro e
      apply hne
      have a := lookupId_mem hc1
      have b := lookupId_mem hc2
      rw [e, b] at a
      simpa using a.symm
    simpa [keq, norm] using this
  · rw [keq_comm]; exact f2.apart _ hc1
  · exact f1.apart _ hc2
  · exact h

theorem keyEntries_nodup {m : Mode} {kind : Kind} {s w : Dict} (h : All2 (KeyEntry m kind) s w) (hn : KeysNodup s) : KeysNodup w := by
  induction h with
  | nil => simp [KeysNodup]
  | cons hh hrest ih =>
    have hn' := List.pairwise_cons.mp hn
    refine List.pairwise_cons.mpr ⟨?_, ih hn'.2⟩
    intro q' hq'
    obtain ⟨i, hi⟩ := List.getElem?_of_mem hq'
    obtain ⟨p', hp', hl⟩ := hrest.get i q' hi
    exact keyLabel_apart hh.2.2.2 hl.2.2.2 (hn'.1 p' (List.mem_of_getElem? hp'))

theorem keyEntries_subst {m : Mode} {kind : Kind} {s w : Dict} (h : All2 (KeyEntry m kind) s w) (hn : KeysNodup s) :
    subst fullname m (.map s) = .ok (.map w) ∧ PyOK (.map w) := by
  have hs : substP fullname m s = .ok w := by
    clear hn
    induction h with
    | nil => rfl
    | cons hh _ ih => simp [substP, hh.1, ih]
  have hp : PyOKP w := by
    clear hn hs
    induction h with
    | nil => trivial
    | cons hh _ ih =>
      rename_i q _ _ _
      obtain ⟨a, b⟩ := q
      exact ⟨⟨hh.2.1, hh.2.2.1⟩, ih⟩
  exact ⟨by simp [subst, hs], hp, keyEntries_nodup h hn⟩

theorem All2.append {α β : Type} {R : α → β → Prop} {l l' : List α} {m m' : List β} (h : All2 R l m) (h' : All2 R l' m') :
    All2 R (l ++ l') (m ++ m') := by
  induction h with
  | nil => exact h'
  | cons a _ ih => exact .cons a ih

/-- The common part of a store on the wire. -/
theorem common_all2 {m : Mode} (hm : m ≠ .plain) {kind : Kind} {t : Dict} (h : ∀ p ∈ t, Common kind p.1 p.2) :
    ∃ w, All2 (KeyEntry m kind) t w ∧
      All2 (fun q p' => fromIdKey (kindReg kind) q.1 true = .ok p'.1 ∧ parsedVal simpleParser p'.1 q.2 = .ok p'.2) w t := by
  induction t with
  | nil => exact ⟨[], .nil, .nil⟩
  | cons p t ih =>
    obtain ⟨w, h1, h2⟩ := ih (fun p hp => h p (List.mem_cons_of_mem _ hp))
    obtain ⟨q, e1, e2, e3⟩ := common_wire hm (h p (by simp))
    exact ⟨q :: w, .cons e1 h1, .cons ⟨e2, e3⟩ h2⟩

/-! ### The store after the constructors' common part -/

/-- What `initStore` returns for plain optional parameters. -/
structure InitOK (kind : Kind) (s : Dict) : Prop where
  nodup : KeysNodup s
  common : ∀ p ∈ s, Common kind p.1 p.2
  head : ∃ t, s = (.cls KpKty, .cls (kindKty kind)) :: t
  ops : ∀ v, dget s (.cls KpKeyOps) = some v → ∃ n, lenOf v = .ok n ∧ n ≠ 0

theorem ddel_sub {d : Dict} {k : Val} : ∀ p ∈ ddel d k, p ∈ d := by
  induction d with
  | nil => simp [ddel]
  | cons q t ih =>
    obtain ⟨a, b⟩ := q
    simp only [ddel]
    split
    · intro p hp; exact List.mem_cons_of_mem _ hp
    · intro p hp
      rcases List.mem_cons.mp hp with rfl | hp
      · simp
      · exact List.mem_cons_of_mem _ (ih p hp)

theorem ddel_nodup {d : Dict} {k : Val} (h : KeysNodup d) : KeysNodup (ddel d k) := by
  induction d with
  | nil => simpa [ddel] using h
  | cons q t ih =>
    obtain ⟨a, b⟩ := q
    have h' := List.pairwise_cons.mp h
    simp only [ddel]
    split
    · exact h'.2
    · exact List.pairwise_cons.mpr ⟨fun p hp => h'.1 p (ddel_sub p hp), ih h'.2⟩

theorem dget_ddel_same {d : Dict} {k : Val} (h : KeysNodup d) : dget (ddel d k) k = none := by
  induction d with
  | nil => rfl
  | cons q t ih =>
    obtain ⟨a, b⟩ := q
    have h' := List.pairwise_cons.mp h
    simp only [ddel]
    split
    · rename_i e
      rw [dget_none_iff]
      intro p hp
      have := h'.1 p hp
      simp only at this
      rw [keq_comm, ← keq_congr_left e]; exact this
    · rename_i e
      simp [dget, e, ih h'.2]

theorem ddel_none {d : Dict} {k : Val} (h : ∀ p ∈ d, keq p.1 k = false) : ddel d k = d := by
  induction d with
  | nil => rfl
  | cons q t ih =>
    obtain ⟨a, b⟩ := q
    have := h (a, b) (by simp)
    simp only at this
    simp [ddel, this, ih (fun p hp => h p (List.mem_cons_of_mem _ hp))]

theorem ddel_append {d e : Dict} {k : Val} (h : ∀ p ∈ d, keq p.1 k = false) : ddel (d ++ e) k = d ++ ddel e k := by
  induction d with
  | nil => rfl
  | cons q t ih =>
    obtain ⟨a, b⟩ := q
    have := h (a, b) (by simp)
    simp only at this
    simp [ddel, this, ih (fun p hp => h p (List.mem_cons_of_mem _ hp))]

theorem parseAttrs_head {r : Reg} {allow : Bool} {parse : Cls → Val → Res Val} {d acc h : Dict} {k v : Val}
    (e : parseAttrs r allow parse ((k, v) :: acc) d = .ok h) : ∃ v' t, h = (k, v') :: t := by
  induction d generalizing acc v with
  | nil => simp [parseAttrs] at e; exact ⟨v, acc, e.symm⟩
  | cons q t ih =>
    obtain ⟨a, b⟩ := q
    rw [parseAttrs_cons] at e
    obtain ⟨a', h1, e⟩ := bind_eq_ok.mp e
    obtain ⟨w, h2, e⟩ := bind_eq_ok.mp e
    simp only [dset] at e
    split at e
    · exact ih e
    · exact ih e

theorem common_parsed {kind : Kind} {d : Dict} (hd : Spec.PlainOptional kind d) {allow : Bool} {k v a w : Val} (hm : (k, v) ∈ d)
    (h1 : fromIdKey (kindReg kind) k allow = .ok a) (h2 : parsedVal simpleParser a v = .ok w) : Common kind a w := by
  rcases hd k v hm with ⟨c, n, hc, hr, hal, hv⟩ | ⟨hf, hv⟩
  · simp only [fromIdKey, alias_resolve hc hal] at h1
    simp at h1; subst h1
    simp only [parsedVal] at h2
    have hc' : c = KpKty ∨ c = KpAlg ∨ c = KpKeyOps ∨ c = KpKid ∨ c = KpBaseIV := by
      have : ∀ p ∈ registry (kindReg kind), p.1.reg = .kp → p.1 = KpKty ∨ p.1 = KpAlg ∨ p.1 = KpKeyOps ∨ p.1 = KpKid ∨ p.1 = KpBaseIV := by
        cases kind <;> decide +kernel
      exact this _ hc hr
    rcases hc' with rfl | rfl | rfl | rfl | rfl
    · exact .inl ⟨_, _, rfl, .inl ⟨rfl, rfl⟩, fromId_regVal v (by simpa [simpleParser] using h2)⟩
    · exact .inl ⟨_, _, rfl, .inr (.inl ⟨rfl, rfl⟩), fromId_regVal v (by simpa [simpleParser] using h2)⟩
    · exact .inl ⟨_, _, rfl, .inr (.inr ⟨rfl, rfl⟩), fromId_regVal v (by simpa [simpleParser] using h2)⟩
    · simp [simpleParser] at h2; subst h2
      exact .inr (.inl ⟨_, rfl, .inl rfl, hv (.inl rfl)⟩)
    · simp [simpleParser] at h2; subst h2
      exact .inr (.inl ⟨_, rfl, .inr rfl, hv (.inr rfl)⟩)
  · simp only [fromIdKey, hf.unregistered] at h1
    split at h1 <;> simp at h1
    subst h1
    have : parsedVal simpleParser k v = .ok v := by
      have : ∀ c, k ≠ .cls c := by rintro c rfl; exact hf.plain
      cases k <;> first | rfl | exact absurd rfl (this _)
    rw [this] at h2
    simp at h2; subst h2
    exact .inr (.inr ⟨hf, hv⟩)

theorem common_keq {kind : Kind} (k w a w' : Val) (h1 : Common kind k w) (h2 : Common kind a w') (he : keq k a = true) :
    Common kind k w' := by
  by_cases hk : ∃ c, k = .cls c
  · obtain ⟨c, rfl⟩ := hk
    rw [keq_cls_left] at he; subst he; exact h2
  · have ha : ¬ ∃ c, a = .cls c := by
      rintro ⟨c, rfl⟩
      rw [keq_cls_right] at he
      exact hk ⟨c, he⟩
    rcases h1 with ⟨c, _, rfl, _⟩ | ⟨c, rfl, _⟩ | ⟨hf, _⟩
    · exact absurd ⟨_, rfl⟩ hk
    · exact absurd ⟨_, rfl⟩ hk
    · rcases h2 with ⟨c, _, rfl, _⟩ | ⟨c, rfl, _⟩ | ⟨_, hv⟩
      · exact absurd ⟨_, rfl⟩ ha
      · exact absurd ⟨_, rfl⟩ ha
      · exact .inr (.inr ⟨hf, hv⟩)

theorem initStore_plain {kind : Kind} {opt s : Dict} {allow : Bool} (hd : Spec.PlainOptional kind opt)
    (h : initStore kind opt allow = .ok s) : InitOK kind s := by
  simp only [initStore, bind_eq_ok] at h
  obtain ⟨t, ht, h⟩ := h
  have hn : KeysNodup t := parseAttrs_nodup (by simp [KeysNodup]) ht
  have hc : ∀ p ∈ t, Common kind p.1 p.2 := by
    refine parseAttrs_inv (P := Common kind) common_keq (fun k v a w hm h1 h2 => common_parsed hd hm h1 h2) ?_ ht
    intro p hp
    have hp : p = (.cls KpKty, .cls (kindKty kind)) := by simpa using hp
    subst hp
    have : ∃ n, (kindKty kind, n) ∈ registry .kty := by
      refine ⟨fullname (kindKty kind), ?_⟩
      cases kind <;> decide +kernel
    obtain ⟨n, hn⟩ := this
    exact .inl ⟨_, _, rfl, .inl ⟨rfl, rfl⟩, .one hn⟩
  obtain ⟨v', t', hh⟩ := parseAttrs_head ht
  split at h
  · simp at h
  · rename_i hk
    have hk : dget t (.cls KpKty) = some (.cls (kindKty kind)) := by simpa using hk
    have hv' : v' = .cls (kindKty kind) := by
      rw [hh] at hk
      simpa [dget] using hk
    subst hv'
    split at h
    · rename_i ho
      simp at h; subst h
      exact ⟨hn, hc, ⟨t', hh⟩, fun v hv => by rw [ho] at hv; simp at hv⟩
    · rename_i v ho
      simp only [bind_eq_ok] at h
      obtain ⟨n, hl, h⟩ := h
      split at h <;> simp at h <;> subst h
      · refine ⟨ddel_nodup hn, fun p hp => hc p (ddel_sub p hp), ⟨ddel t' (.cls KpKeyOps), ?_⟩, fun v hv => ?_⟩
        · rw [hh]; simp [ddel]
        · rw [dget_ddel_same hn] at hv; simp at hv
      · rename_i hz
        exact ⟨hn, hc, ⟨t', hh⟩, fun w hw => by rw [ho] at hw; cases hw; exact ⟨n, hl, hz⟩⟩

/-- The receiver rebuilds the common part of the store. -/
theorem initStore_received {kind : Kind} {s w : Dict} (h : InitOK kind s)
    (hw : All2 (fun q p' => fromIdKey (kindReg kind) q.1 true = .ok p'.1 ∧ parsedVal simpleParser p'.1 q.2 = .ok p'.2) w s) :
    initStore kind w true = .ok s := by
  obtain ⟨t, rfl⟩ := h.head
  cases hw with
  | cons h1 h2 =>
    rename_i q w
    obtain ⟨a, b⟩ := q
    simp only at h1
    have hp : parseAttrs (kindReg kind) true simpleParser [(.cls KpKty, .cls (kindKty kind))] ((a, b) :: w) =
        .ok ((.cls KpKty, .cls (kindKty kind)) :: t) := by
      rw [parseAttrs_cons, h1.1, ok_bind, h1.2, ok_bind]
      have := parseAttrs_all2 h2 (acc := [(.cls KpKty, .cls (kindKty kind))]) (by simpa using h.nodup)
      simpa [dset] using this
    simp only [initStore, hp, ok_bind]
    rw [if_neg (by simp [dget])]
    cases ho : dget ((.cls KpKty, .cls (kindKty kind)) :: t) (.cls KpKeyOps) with
    | none => rfl
    | some v =>
      obtain ⟨n, hl, hz⟩ := h.ops v ho
      simp [hl, hz]

/-! ### The parameters of the key type -/

/-- `c` is a parameter of the key type (and not a common one). -/
def Special (kind : Kind) (c : Cls) : Prop := (c, fullname c) ∈ registry (kindReg kind) ∧ c.reg ≠ .kp

theorem keq_text {v : Val} {s : Bytes} (h : keq v (.text s) = true) : v = .text s := by
  cases v <;> simp [keq, norm] at h
  · rename_i f
    split at h <;> simp at h
  · rw [h]

theorem keq_text_false {v : Val} {s : Bytes} (h : v ≠ .text s) : keq v (.text s) = false := by
  cases e : keq v (.text s) with
  | false => rfl
  | true => exact absurd (keq_text e) h

theorem keq_cls_false {v : Val} {c : Cls} (h : v ≠ .cls c) : keq v (.cls c) = false := by
  cases e : keq v (.cls c) with
  | false => rfl
  | true => exact absurd (keq_cls_right.mp e) h

theorem store_special {kind : Kind} {s : Dict} (h : ∀ p ∈ s, Common kind p.1 p.2) {c : Cls} (hc : Special kind c) :
    ∀ p ∈ s, keq p.1 (.cls c) = false := by
  intro p hp
  apply keq_cls_false
  intro e
  rcases h p hp with ⟨c', r, h1, h2, _⟩ | ⟨c', h1, h2, _⟩ | ⟨hf, _⟩
  · rw [e] at h1; cases h1
    rcases h2 with ⟨rfl, _⟩ | ⟨rfl, _⟩ | ⟨rfl, _⟩ <;> exact hc.2 rfl
  · rw [e] at h1; cases h1
    rcases h2 with rfl | rfl <;> exact hc.2 rfl
  · rw [e] at hf; exact hf.plain

/-- No label of the common part, as transmitted, names a parameter of the key type. -/
theorem wire_special {m : Mode} {kind : Kind} {s w : Dict} (h : ∀ p ∈ s, Common kind p.1 p.2) (hw : All2 (KeyEntry m kind) s w) {c : Cls}
    (hc : Special kind c) :
    ∀ q ∈ w, keq q.1 (.cls c) = false ∧ keq q.1 (.int c.ident) = false ∧ keq q.1 (.text (fullname c)) = false := by
  intro q hq
  obtain ⟨i, hi⟩ := List.getElem?_of_mem hq
  obtain ⟨p, hp, hl⟩ := hw.get i q hi
  have hp := List.mem_of_getElem? hp
  have ha := store_special h hc p hp
  refine ⟨?_, ?_, ?_⟩
  · apply keq_cls_false
    intro e
    have := hl.2.1
    rw [e] at this; exact this
  · exact keyLabel_apart hl.2.2.2 (.inl ⟨c, _, hc.1, rfl, rfl⟩) ha
  · apply keq_text_false
    intro e
    rcases hl.2.2.2 with ⟨_, _, _, _, e'⟩ | ⟨e', hf⟩
    · rw [e] at e'; simp at e'
    · rw [← e', e] at hf
      have := hf.unregistered
      simp [resolve, upper_mem hc.1, lookupName_mem hc.1] at this

theorem dget_append_right {d e : Dict} {k : Val} (h : ∀ p ∈ d, keq p.1 k = false) : dget (d ++ e) k = dget e k := by
  rw [dget_append, dget_none_iff.mpr h]; rfl

theorem extract_append {d e : Dict} {c : Cls} {v : Val}
    (h : ∀ q ∈ d, keq q.1 (.cls c) = false ∧ keq q.1 (.int c.ident) = false ∧ keq q.1 (.text (fullname c)) = false) :
    extract (d ++ e) c v = extract e c v := by
  simp only [extract]
  rw [dget_append_right (fun q hq => (h q hq).1), dget_append_right (fun q hq => (h q hq).2.1),
    dget_append_right (fun q hq => (h q hq).2.2)]

theorem remove_append {d e : Dict} {c : Cls}
    (h : ∀ q ∈ d, keq q.1 (.cls c) = false ∧ keq q.1 (.int c.ident) = false ∧ keq q.1 (.text (fullname c)) = false) :
    remove (d ++ e) c = d ++ remove e c := by
  simp only [remove]
  rw [ddel_append (fun q hq => (h q hq).1), ddel_append (fun q hq => (h q hq).2.1), ddel_append (fun q hq => (h q hq).2.2)]

theorem specialEntry {m : Mode} (hm : m ≠ .plain) {kind : Kind} {c : Cls} (hc : Special kind c) {v w : Val} (hv : subst fullname m v = .ok w)
    (hw : PyOK w) : KeyEntry m kind (.cls c, v) (.int c.ident, w) :=
  ⟨by simp only [substQ, subst, substCls_ident hm (kind_not_alg hc.1), hv, ok_bind], trivial, hw, .inl ⟨c, _, hc.1, rfl, rfl⟩⟩

theorem specialBytes {m : Mode} (hm : m ≠ .plain) {kind : Kind} {c : Cls} (hc : Special kind c) {b : Bytes} :
    KeyEntry m kind (.cls c, .bytes b) (.int c.ident, .bytes b) := specialEntry hm hc rfl trivial

/-- The receiver of a key finds its class. -/
theorem fromDict_received {C : Crypto} {m : Mode} (hm : m ≠ .plain) {kind : Kind} {s w e : Dict} (h : InitOK kind s)
    (hw : All2 (KeyEntry m kind) s w) :
    fromDict C (w ++ e) = kindFromDict C kind (w ++ e) ∨ ∃ p ∈ e, ∃ c, p.1 = .cls c := by
  by_cases hx : ∃ p ∈ e, ∃ c, p.1 = .cls c
  · exact .inr hx
  · refine .inl ?_
    have hk : dget (w ++ e) (.cls KpKty) = none := by
      rw [dget_none_iff]
      intro q hq
      apply keq_cls_false
      intro eq
      rcases List.mem_append.mp hq with hq | hq
      · obtain ⟨i, hi⟩ := List.getElem?_of_mem hq
        obtain ⟨p, hp, hl⟩ := hw.get i q hi
        have := hl.2.1
        rw [eq] at this; exact this
      · exact hx ⟨q, hq, _, eq⟩
    obtain ⟨t, rfl⟩ := h.head
    cases hw with
    | cons h1 h2 =>
      rename_i q w
      have h1 := h1.1
      have : q = (.int 1, .int (kindKty kind).ident) := by
        have e2 : (kindKty kind).reg ≠ .alg := by cases kind <;> decide
        simp only [substQ, subst, substCls_ident hm (c := KpKty) (by decide), substCls_ident hm e2, ok_bind, Except.ok.injEq] at h1
        exact h1.symm
      subst this
      simp only [fromDict, hk]
      simp only [List.cons_append, dget, keq_refl, if_true]
      cases kind <;> rfl

/-! ### C43 -/

theorem symK_special : Special .sym SymK := ⟨by decide +kernel, by decide⟩

theorem nodup_append_one {s : Dict} {k v : Val} (h : KeysNodup s) (hk : ∀ p ∈ s, keq p.1 k = false) : KeysNodup (s ++ [(k, v)]) := by
  rw [KeysNodup, List.pairwise_append]
  exact ⟨h, by simp, by simpa using hk⟩

/-- The key `k` is sent, in the given mode, as a map from which the receiver makes `k'`. -/
def KeySent (C : Crypto) (m : Mode) (k k' : Key) : Prop :=
  (∃ w, subst fullname m (.map k.store) = .ok w ∧ PyOK w ∧ fromDictVal C w = .ok k') ∧
  ∀ p ∈ k.store, p.1 = .cls KpKeyOps → ∃ n, lenOf p.2 = .ok n ∧ n ≠ 0

theorem KeySent.decode {C : Crypto} {k k' : Key} {b : Bytes} (h : KeySent C .ident k k') (he : k.encode = .ok b) :
    Key.decode C b = .ok k' := by
  obtain ⟨⟨w, h1, h2, h3⟩, _⟩ := h
  have := loads_dumps h1 h2 he []
  rw [List.append_nil] at this
  simp only [Key.decode, this, ok_bind, h3]

theorem emptyOps_of_sized {s : Dict} (h : ∀ p ∈ s, p.1 = .cls KpKeyOps → ∃ n, lenOf p.2 = .ok n ∧ n ≠ 0) :
    (∀ p ∈ s, emptyKeyOps p.1 p.2 = false) ∧ ∃ n, keyOpsLen s = .ok n := by
  refine ⟨fun p hp => ?_, ?_⟩
  · by_cases hk : p.1 = .cls KpKeyOps
    · obtain ⟨n, h1, h2⟩ := h p hp hk
      rw [hk, emptyKeyOps, h1]
      cases n with
      | zero => exact absurd rfl h2
      | succ n => rfl
    · simp [emptyKeyOps, hk]
  · unfold keyOpsLen
    cases hd : dget s (.cls KpKeyOps) with
    | none => exact ⟨0, rfl⟩
    | some v =>
      obtain ⟨k, hv, hk⟩ := dget_mem hd
      obtain ⟨n, h1, _⟩ := h (k, v) hv (norm_eq_cls (by simpa [keq, norm] using hk))
      exact ⟨n, h1⟩

theorem substS_eq {fn : Cls → Bytes} {m : Mode} {s : Dict} (h : ∀ p ∈ s, emptyKeyOps p.1 p.2 = false) : substS fn m s = substP fn m s := by
  induction s with
  | nil => rfl
  | cons p t ih =>
    simp only [substS, substP, ih (fun p hp => h p (List.mem_cons_of_mem _ hp)), h p (by simp), Bool.false_eq_true, if_false]

/-- A key in a header is sent like the map of its parameters. -/
theorem KeySent.header {C : Crypto} {t : Bool} {k k' : Key} (h : KeySent C (.base t) k k') :
    ∃ w, subst fullname (.base t) (.key k.kind k.store) = .ok w ∧ PyOK w ∧ fromDictVal C w = .ok k' := by
  obtain ⟨⟨w, h1, h2, h3⟩, h4⟩ := h
  refine ⟨w, ?_, h2, h3⟩
  rw [← h1]
  obtain ⟨h5, n, h6⟩ := emptyOps_of_sized h4
  simp only [subst, substS_eq h5, h6, ok_bind]

/-- Entries under classes, in a dictionary. -/
def clsD (l : List (Cls × Val)) : Dict := l.map fun p => (.cls p.1, p.2)

theorem noEmptyOps {kind : Kind} {s : Dict} (hi : InitOK kind s) {l : List (Cls × Val)} (hs : ∀ c ∈ l.map (·.1), Special kind c) :
    ∀ p ∈ s ++ clsD l, p.1 = .cls KpKeyOps → ∃ n, lenOf p.2 = .ok n ∧ n ≠ 0 := by
  intro p hp hk
  obtain ⟨k, v⟩ := p
  simp only at hk
  subst hk
  rcases List.mem_append.mp hp with hp | hp
  · exact hi.ops v (mem_dget hi.nodup hp (keq_refl _))
  · obtain ⟨q, hq, e⟩ := List.mem_map.mp hp
    have := (hs q.1 (List.mem_map_of_mem (f := (·.1)) hq)).2
    have e : q.1 = KpKeyOps := by simpa using congrArg Prod.fst e
    rw [e] at this
    exact absurd rfl this

theorem sym_sent {C : Crypto} {m : Mode} (hm : m ≠ .plain) {kv : Val} {opt : Dict} {allow : Bool} {k : Key} (ho : Spec.PlainOptional .sym opt)
    (h : symInit kv opt allow = .ok k) : KeySent C m k k := by
  obtain ⟨s, kb, hs, rfl, hl, rfl⟩ := symInit_ok h
  have hi := initStore_plain ho hs
  have sp := store_special hi.common symK_special
  obtain ⟨w, hw, hp⟩ := common_all2 hm hi.common
  have hd : dset s (.cls SymK) (.bytes kb) = s ++ [(.cls SymK, .bytes kb)] := dset_append_new sp
  have hb := keyEntries_subst (kind := .sym) (w := w ++ [(.int SymK.ident, .bytes kb)]) (hw.append (.cons (specialBytes hm symK_special) .nil))
    (nodup_append_one hi.nodup sp)
  have wsp := wire_special hi.common hw symK_special
  refine ⟨⟨_, by simpa only [hd] using hb.1, hb.2, ?_⟩, ?_⟩
  rotate_left
  · simp only [hd]
    exact noEmptyOps hi (l := [(SymK, .bytes kb)]) (by simpa using symK_special)
  simp only [fromDictVal]
  rcases fromDict_received (C := C) (e := [(.int SymK.ident, .bytes kb)]) hm hi hw with hf | ⟨p, hp, c, e⟩
  · rw [hf]
    simp only [kindFromDict, symFromDict, extract_append wsp, remove_append wsp]
    have e1 : extract [(.int SymK.ident, .bytes kb)] SymK = .bytes kb := rfl
    have e2 : remove [(.int SymK.ident, .bytes kb)] SymK = [] := rfl
    rw [e1, e2, List.append_nil]
    have hne : Val.bytes kb ≠ .bytes [] := by
      intro e; simp at e; subst e; simp at hl
    simp only [symInit, initStore_received hi hp, ok_bind, if_neg hne, setSymK, if_pos hl]
  · have : p = (.int SymK.ident, .bytes kb) := by simpa using hp
    subst this; simp at e

/-- **C43** for symmetric keys: a key built by the constructor from plain optional parameters is restored exactly from its
encoding. -/
theorem c43_sym {C : Crypto} {kv : Val} {opt : Dict} {allow : Bool} {k : Key} {b : Bytes} (ho : Spec.PlainOptional .sym opt)
    (h : symInit kv opt allow = .ok k) (he : k.encode = .ok b) : Key.decode C b = .ok k :=
  (sym_sent (by decide) ho h).decode he

example : Spec.PlainOptional .sym [(.text b!"kid", .bytes [1]), (.text b!"alg", .text b!"A128GCM"), (.cls KpKeyOps, .arr [.int 3]), (.int 99, .arr [.int 1])] ∧
    (do let k ← symInit (.bytes (List.replicate 16 7)) [(.text b!"kid", .bytes [1]), (.text b!"alg", .text b!"A128GCM"), (.cls KpKeyOps, .arr [.int 3]),
          (.int 99, .arr [.int 1])] true
        k.encode : Res Bytes).isOk = true := by
  refine ⟨?_, by decide +kernel⟩
  intro k v h
  have hk : (k, v) = (.text b!"kid", .bytes [1]) ∨ (k, v) = (.text b!"alg", .text b!"A128GCM") ∨ (k, v) = (.cls KpKeyOps, .arr [.int 3]) ∨
      (k, v) = (.int 99, .arr [.int 1]) := by simpa using h
  rcases hk with e | e | e | e <;> cases e
  · exact .inl ⟨KpKid, b!"KID", by decide +kernel, rfl,
      .name (.lower 75 (by decide) (by decide) (.lower 73 (by decide) (by decide) (.lower 68 (by decide) (by decide) .nil))), fun _ => trivial⟩
  · exact .inl ⟨KpAlg, b!"ALG", by decide +kernel, rfl,
      .name (.lower 65 (by decide) (by decide) (.lower 76 (by decide) (by decide) (.lower 71 (by decide) (by decide) .nil))), fun h => by rcases h with h | h <;> cases h⟩
  · exact .inl ⟨KpKeyOps, b!"KEY_OPS", by decide +kernel, rfl, .cls, fun h => by rcases h with h | h <;> cases h⟩
  · exact .inr ⟨foreignKey_int (by decide +kernel), ⟨trivial, trivial⟩⟩

theorem ec2_special : ∀ c ∈ [Ec2Crv, Ec2X, Ec2Y, Ec2D], Special .ec2 c := by
  have : ∀ c ∈ [Ec2Crv, Ec2X, Ec2Y, Ec2D], (c, fullname c) ∈ registry (kindReg .ec2) ∧ c.reg ≠ .kp := by decide +kernel
  exact this

theorem okp_special : ∀ c ∈ [OkpCrv, OkpX, OkpD], Special .okp c := by
  have : ∀ c ∈ [OkpCrv, OkpX, OkpD], (c, fullname c) ∈ registry (kindReg .okp) ∧ c.reg ≠ .kp := by decide +kernel
  exact this

theorem parseCrv_ident {kty c : Cls} (h : crvKind c = some kty) (hm : ∃ n, (c, n) ∈ registry .crv) :
    parseCrv kty (.int c.ident) = .ok c := by
  obtain ⟨n, hn⟩ := hm
  simp [parseCrv, fromId, resolve_of_mem hn, h]

/-- The same entries as received: under their identifiers. -/
def intD (l : List (Cls × Val)) : Dict := l.map fun p => (.int p.1.ident, p.2)

theorem dget_intD_cls (l : List (Cls × Val)) (c : Cls) : dget (intD l) (.cls c) = none := by
  rw [dget_none_iff]
  intro p hp
  obtain ⟨q, _, rfl⟩ := List.mem_map.mp hp
  exact keq_cls_false (by simp)

theorem dget_intD_text (l : List (Cls × Val)) (t : Bytes) : dget (intD l) (.text t) = none := by
  rw [dget_none_iff]
  intro p hp
  obtain ⟨q, _, rfl⟩ := List.mem_map.mp hp
  exact keq_text_false (by simp)

theorem ddel_none_of_dget {d : Dict} {k : Val} (h : dget d k = none) : ddel d k = d :=
  ddel_none ((dget_none_iff).mp h)

/-- Looking up and removing a received entry. -/
def getC : List (Cls × Val) → Cls → Val → Val
  | [], _, v => v
  | p :: l, c, v => if p.1.ident = c.ident then p.2 else getC l c v

def remC : List (Cls × Val) → Cls → List (Cls × Val)
  | [], _ => []
  | p :: l, c => if p.1.ident = c.ident then l else p :: remC l c

theorem extract_intD (l : List (Cls × Val)) (c : Cls) (v : Val) : extract (intD l) c v = getC l c v := by
  simp only [extract, dget_intD_cls, dget_intD_text]
  induction l with
  | nil => rfl
  | cons p t ih =>
    have ek : keq (.int p.1.ident) (.int c.ident) = decide (p.1.ident = c.ident) := by
      by_cases e : p.1.ident = c.ident <;> simp [keq, norm, e]
    simp only [intD, List.map_cons, dget, ek, decide_eq_true_eq, getC] at ih ⊢
    by_cases e : p.1.ident = c.ident
    · simp [e]
    · simp only [e, if_false]; exact ih

theorem remove_intD (l : List (Cls × Val)) (c : Cls) : remove (intD l) c = intD (remC l c) := by
  have hd : ddel (intD l) (.int c.ident) = intD (remC l c) := by
    induction l with
    | nil => rfl
    | cons p t ih =>
      have ek : keq (.int p.1.ident) (.int c.ident) = decide (p.1.ident = c.ident) := by
        by_cases e : p.1.ident = c.ident <;> simp [keq, norm, e]
      simp only [intD, List.map_cons, ddel, ek, decide_eq_true_eq, remC] at ih ⊢
      by_cases e : p.1.ident = c.ident
      · simp [e]
      · simp only [e, if_false, ih, List.map_cons]
  rw [remove, ddel_none_of_dget (dget_intD_cls _ _), hd, ddel_none_of_dget (dget_intD_text _ _)]

/-- Appending parameters of the key type to a store. -/
theorem dset_special {kind : Kind} {s : Dict} {l : List (Cls × Val)} {ks : List Cls} (h : ∀ p ∈ s, Common kind p.1 p.2) {c : Cls} (hc : Special kind c)
    (v : Val) (hk : l.map (·.1) = ks) (hn : c ∉ ks) : dset (s ++ clsD l) (.cls c) v = s ++ clsD (l ++ [(c, v)]) := by
  rw [dset_append_new, List.append_assoc]
  · simp [clsD]
  intro p hp
  rcases List.mem_append.mp hp with hp | hp
  · exact store_special h hc p hp
  · obtain ⟨q, hq, rfl⟩ := List.mem_map.mp hp
    have : q.1 ≠ c := fun e => hn (hk ▸ e ▸ List.mem_map_of_mem (f := (·.1)) hq)
    simpa [keq_cls_cls] using this

theorem clsD_nodup {l : List (Cls × Val)} (h : (l.map (·.1)).Nodup) : KeysNodup (clsD l) := by
  simp only [KeysNodup, clsD, List.pairwise_map, keq_cls_cls]
  simp only [List.Nodup, List.pairwise_map] at h
  exact h.imp (by simp)

theorem nodup_special {kind : Kind} {s : Dict} {l : List (Cls × Val)} (h : InitOK kind s) (hn : (l.map (·.1)).Nodup)
    (hs : ∀ c ∈ l.map (·.1), Special kind c) : KeysNodup (s ++ clsD l) := by
  rw [KeysNodup, List.pairwise_append]
  refine ⟨h.nodup, clsD_nodup hn, fun p hp q hq => ?_⟩
  obtain ⟨r, hr, rfl⟩ := List.mem_map.mp hq
  exact store_special h.common (hs r.1 (List.mem_map_of_mem (f := (·.1)) hr)) p hp

/-- The encoding of a store, read back. -/
theorem received_store {C : Crypto} {m : Mode} (hm : m ≠ .plain) {kind : Kind} {s e' : Dict} {l : List (Cls × Val)} {ks : List Cls}
    (hi : InitOK kind s) (hk : l.map (·.1) = ks) (hn : ks.Nodup) (hs : ∀ c ∈ ks, Special kind c)
    (he : All2 (KeyEntry m kind) (clsD l) e') :
    ∃ w, initStore kind w true = .ok s ∧ (∀ {k k' : Key}, k.store = s ++ clsD l → kindFromDict C kind (w ++ e') = .ok k' → KeySent C m k k') ∧
      ∀ c, Special kind c → ∀ q ∈ w, keq q.1 (.cls c) = false ∧ keq q.1 (.int c.ident) = false ∧ keq q.1 (.text (fullname c)) = false := by
  subst hk
  obtain ⟨w, hw, hp⟩ := common_all2 hm hi.common
  have hl := keyEntries_subst (hw.append he) (nodup_special hi hn hs)
  refine ⟨w, initStore_received hi hp, ?_, fun c hc => wire_special hi.common hw hc⟩
  intro k k' hk hf'
  refine ⟨⟨.map (w ++ e'), by rw [hk]; exact hl.1, hl.2, ?_⟩, by rw [hk]; exact noEmptyOps hi hs⟩
  simp only [fromDictVal]
  rcases fromDict_received (C := C) (e := e') hm hi hw with hf | ⟨q, hq, c, hc⟩
  · rw [hf, hf']
  · obtain ⟨i, hi⟩ := List.getElem?_of_mem hq
    obtain ⟨p, hp, hl⟩ := he.get i q hi
    have := hl.2.1
    rw [hc] at this
    exact this.elim

theorem ec2Init_shape {C : Crypto} {crv x y d : Val} {opt : Dict} {allow : Bool} {r : Key}
    (h : ec2Init C crv x y d opt allow = .ok r) :
    ∃ s c bx bY db, initStore .ec2 opt allow = .ok s ∧ crvKind c = some KtyEC2 ∧ (∃ n, (c, n) ∈ registry .crv) ∧ bx ≠ [] ∧ bY ≠ [] ∧
      (db ≠ [] → EcPoint C c db bx bY) ∧
      r = { kind := .ec2, store := if db = [] then dset (dset (dset s (.cls Ec2Crv) (.cls c)) (.cls Ec2X) (.bytes bx)) (.cls Ec2Y) (.bytes bY)
        else dset (dset (dset (dset s (.cls Ec2Crv) (.cls c)) (.cls Ec2X) (.bytes bx)) (.cls Ec2Y) (.bytes bY)) (.cls Ec2D) (.bytes db) } := by
  obtain ⟨s, c, x', y', s1, s2, s3, hs, hc, h1, h2, h3, rfl, ht, hx, hy, hp, hq⟩ := ec2Init_ok h
  obtain ⟨hc, hm⟩ := parseCrv_ok hc
  have hsz : crvSize c ≠ 0 := by
    rcases ec2_curves hc with rfl | rfl | rfl | rfl <;> decide
  obtain ⟨bx, nx, rfl, rfl⟩ := truthy_setIfNonEmpty h1 ht
  rcases setIfNonEmpty_ok h3 with ⟨rfl, rfl⟩ | ⟨db, nd, rfl, rfl⟩
  · have : ∃ bY, bY ≠ [] ∧ y' = .bytes bY ∧ s3 = dset (dset (dset s (.cls Ec2Crv) (.cls c)) (.cls Ec2X) (.bytes bx)) (.cls Ec2Y) (.bytes bY) := by
      cases hty : truthy y with
      | true =>
        have e := hy hty
        rw [← e] at hty
        exact truthy_setIfNonEmpty h2 hty
      | false =>
        obtain ⟨xb, yb, px, _, rfl, _, _, ly⟩ := hq rfl hty
        exact truthy_setIfNonEmpty h2 (truthy_bytes ly hsz)
    obtain ⟨bY, ny, rfl, rfl⟩ := this
    exact ⟨s, c, bx, bY, [], hs, hc, hm, nx, ny, fun h => absurd rfl h, by simp⟩
  · obtain ⟨bx', bY, e, rfl, hp⟩ := hp db rfl nd
    cases e
    obtain ⟨_, ny, e, rfl⟩ := truthy_setIfNonEmpty h2 (truthy_bytes hp.2.2 hsz)
    cases e
    exact ⟨s, c, bx, bY, db, hs, hc, hm, nx, ny, fun _ => hp, by simp [nd]⟩

theorem ec2Init_again {C : Crypto} {c : Cls} {bx bY db : Bytes} {s w : Dict} (hs : initStore .ec2 w true = .ok s)
    (hc : crvKind c = some KtyEC2) (hm : ∃ n, (c, n) ∈ registry .crv) (nx : bx ≠ []) (ny : bY ≠ []) (hp : db ≠ [] → EcPoint C c db bx bY) :
    ec2Init C (.int c.ident) (.bytes bx) (.bytes bY) (.bytes db) w true =
      .ok { kind := .ec2, store := if db = [] then dset (dset (dset s (.cls Ec2Crv) (.cls c)) (.cls Ec2X) (.bytes bx)) (.cls Ec2Y) (.bytes bY)
        else dset (dset (dset (dset s (.cls Ec2Crv) (.cls c)) (.cls Ec2X) (.bytes bx)) (.cls Ec2Y) (.bytes bY)) (.cls Ec2D) (.bytes db) } := by
  have tx : truthy (.bytes bx) = true := by cases bx <;> simp_all [truthy]
  have ty : truthy (.bytes bY) = true := by cases bY <;> simp_all [truthy]
  have nx' : Val.bytes bx ≠ .bytes [] := by simpa
  have ny' : Val.bytes bY ≠ .bytes [] := by simpa
  by_cases hd : db = []
  · subst hd
    have td : truthy (.bytes []) = false := rfl
    simp only [ec2Init, hs, ok_bind, parseCrv_ident hc hm, tx, ty, td, setIfNonEmpty, nx', ny', if_false, if_true,
      setBytes, reduceCtorEq, Bool.true_eq_false, and_false, false_and, and_self, Bool.false_eq_true]
  · have td : truthy (.bytes db) = true := by cases db <;> simp_all [truthy]
    have nd : Val.bytes db ≠ .bytes [] := by simpa
    obtain ⟨h1, h2, h3⟩ := hp hd
    have e1 : toBytes (natOfBytes bx) (crvSize c) = .ok bx := by
      simp only [toBytes, ← h2, if_pos (natOfBytes_lt bx), beBytes_natOfBytes]
    have e2 : toBytes (natOfBytes bY) (crvSize c) = .ok bY := by
      simp only [toBytes, ← h3, if_pos (natOfBytes_lt bY), beBytes_natOfBytes]
    simp only [ec2Init, hs, ok_bind, parseCrv_ident hc hm, tx, ty, td, intFromBytes, h1, e1, e2, checkOrDerive, setIfNonEmpty, nx', ny', nd, hd, if_false, if_true,
      setBytes, reduceCtorEq, Bool.true_eq_false, and_false, and_self]

theorem crvKind_not_alg {c kty : Cls} (h : crvKind c = some kty) : c.reg ≠ .alg := by
  intro e
  simp [crvKind, e] at h

theorem ec2_sent {C : Crypto} {m : Mode} (hm : m ≠ .plain) {crv x y d : Val} {opt : Dict} {allow : Bool} {k : Key} (ho : Spec.PlainOptional .ec2 opt)
    (h : ec2Init C crv x y d opt allow = .ok k) : KeySent C m k k := by
  obtain ⟨s, c, bx, bY, db, hs, hc, hr, nx, ny, hp, rfl⟩ := ec2Init_shape h
  have hi := initStore_plain ho hs
  have s1 := ec2_special Ec2Crv (by simp)
  have s2 := ec2_special Ec2X (by simp)
  have s3 := ec2_special Ec2Y (by simp)
  have s4 := ec2_special Ec2D (by simp)
  have e3 : dset (dset (dset s (.cls Ec2Crv) (.cls c)) (.cls Ec2X) (.bytes bx)) (.cls Ec2Y) (.bytes bY) =
      s ++ clsD [(Ec2Crv, .cls c), (Ec2X, .bytes bx), (Ec2Y, .bytes bY)] := by
    rw [← List.append_nil s]
    refine ((congrArg (fun z => dset (dset z _ _) _ _) (dset_special (l := []) hi.common s1 _ rfl (by simp))).trans ?_).trans (by rw [List.append_nil])
    refine (congrArg (fun z => dset z _ _) (dset_special hi.common s2 _ rfl (ks := [Ec2Crv]) (by decide))).trans ?_
    exact dset_special hi.common s3 _ rfl (ks := [Ec2Crv, Ec2X]) (by decide)
  have e4 : dset (dset (dset (dset s (.cls Ec2Crv) (.cls c)) (.cls Ec2X) (.bytes bx)) (.cls Ec2Y) (.bytes bY)) (.cls Ec2D) (.bytes db) =
      s ++ clsD [(Ec2Crv, .cls c), (Ec2X, .bytes bx), (Ec2Y, .bytes bY), (Ec2D, .bytes db)] := by
    rw [e3]
    exact dset_special hi.common s4 _ rfl (ks := [Ec2Crv, Ec2X, Ec2Y]) (by decide)
  have hcl : KeyEntry m .ec2 (.cls Ec2Crv, .cls c) (.int Ec2Crv.ident, .int c.ident) := specialEntry hm s1 (substCls_ident hm (crvKind_not_alg hc)) trivial
  by_cases hd : db = []
  · subst hd
    simp only [if_true]
    obtain ⟨w, h1, h2, h3⟩ := received_store (C := C) hm (kind := .ec2) (s := s)
      (l := [(Ec2Crv, .cls c), (Ec2X, .bytes bx), (Ec2Y, .bytes bY)])
      (e' := intD [(Ec2Crv, .int c.ident), (Ec2X, .bytes bx), (Ec2Y, .bytes bY)]) hi
      rfl (ks := [Ec2Crv, Ec2X, Ec2Y]) (by decide) (by simp [s1, s2, s3])
      (.cons hcl (.cons (specialBytes hm s2) (.cons (specialBytes hm s3) .nil)))
    refine h2 e3 ?_
    simp only [kindFromDict, ec2FromDict, extract_append (h3 _ s1), extract_append (h3 _ s2), extract_append (h3 _ s3), extract_append (h3 _ s4),
      remove_append (h3 _ s1), remove_append (h3 _ s2), remove_append (h3 _ s3), remove_append (h3 _ s4),
      extract_intD, remove_intD]
    have := ec2Init_again h1 hc hr nx ny hp (C := C)
    rw [if_pos rfl] at this
    show ec2Init C (.int c.ident) (.bytes bx) (.bytes bY) (.bytes []) (w ++ []) true = _
    rw [List.append_nil]
    exact this
  · simp only [hd, if_false]
    obtain ⟨w, h1, h2, h3⟩ := received_store (C := C) hm (kind := .ec2) (s := s)
      (l := [(Ec2Crv, .cls c), (Ec2X, .bytes bx), (Ec2Y, .bytes bY), (Ec2D, .bytes db)])
      (e' := intD [(Ec2Crv, .int c.ident), (Ec2X, .bytes bx), (Ec2Y, .bytes bY), (Ec2D, .bytes db)]) hi
      rfl (ks := [Ec2Crv, Ec2X, Ec2Y, Ec2D]) (by decide) (by simp [s1, s2, s3, s4])
      (.cons hcl (.cons (specialBytes hm s2) (.cons (specialBytes hm s3) (.cons (specialBytes hm s4) .nil))))
    refine h2 e4 ?_
    simp only [kindFromDict, ec2FromDict, extract_append (h3 _ s1), extract_append (h3 _ s2), extract_append (h3 _ s3), extract_append (h3 _ s4),
      remove_append (h3 _ s1), remove_append (h3 _ s2), remove_append (h3 _ s3), remove_append (h3 _ s4),
      extract_intD, remove_intD]
    have := ec2Init_again h1 hc hr nx ny hp (C := C)
    rw [if_neg hd] at this
    show ec2Init C (.int c.ident) (.bytes bx) (.bytes bY) (.bytes db) (w ++ []) true = _
    rw [List.append_nil]
    exact this

/-- **C43** for EC2 keys: a key built by the constructor from plain optional parameters, public or private, is restored
exactly from its encoding. -/
theorem c43_ec2 {C : Crypto} {crv x y d : Val} {opt : Dict} {allow : Bool} {k : Key} {b : Bytes} (ho : Spec.PlainOptional .ec2 opt)
    (h : ec2Init C crv x y d opt allow = .ok k) (he : k.encode = .ok b) : Key.decode C b = .ok k :=
  (ec2_sent (by decide) ho h).decode he


/-- A key pair with a curve given by name, and a public key given by its compressed point. -/
example : Spec.PlainOptional .ec2 [(.int 99, .arr [.int 1])] ∧
    (do let k ← ec2Init toy (.text b!"P_256") (.bytes []) (.bytes []) (.bytes [5]) [(.int 99, .arr [.int 1])] true
        k.encode : Res Bytes).isOk = true ∧
    (do let k ← ec2Init toy (.int 1) (.bytes (beBytes 32 9)) (.bytes []) (.bytes []) [(.int 99, .arr [.int 1])] true
        k.encode : Res Bytes).isOk = true := by
  refine ⟨?_, by decide +kernel, by decide +kernel⟩
  intro k v h
  have hk : (k, v) = (.int 99, .arr [.int 1]) := by simpa using h
  cases hk
  exact .inr ⟨foreignKey_int (by decide +kernel), ⟨trivial, trivial⟩⟩

/-- An optional byte-string parameter. -/
def optC (c : Cls) (b : Bytes) : List (Cls × Val) := if b = [] then [] else [(c, .bytes b)]

theorem setIfNonEmpty_shape {s s' : Dict} {c : Cls} {v : Val} (h : setIfNonEmpty s c v = .ok s') :
    ∃ b, v = .bytes b ∧ s' = if b = [] then s else dset s (.cls c) (.bytes b) := by
  rcases setIfNonEmpty_ok h with ⟨rfl, rfl⟩ | ⟨b, hb, rfl, rfl⟩
  · exact ⟨[], rfl, by simp⟩
  · exact ⟨b, rfl, by simp [hb]⟩

theorem setIfNonEmpty_bytes (s : Dict) (c : Cls) (b : Bytes) :
    setIfNonEmpty s c (.bytes b) = .ok (if b = [] then s else dset s (.cls c) (.bytes b)) := by
  by_cases hb : b = [] <;> simp [setIfNonEmpty, setBytes, hb]

theorem dset_opt {kind : Kind} {s : Dict} {l : List (Cls × Val)} (h : ∀ p ∈ s, Common kind p.1 p.2) {c : Cls} (hc : Special kind c)
    (b : Bytes) (hn : c ∉ l.map (·.1)) : (if b = [] then s ++ clsD l else dset (s ++ clsD l) (.cls c) (.bytes b)) = s ++ clsD (l ++ optC c b) := by
  by_cases hb : b = []
  · simp [hb, optC]
  · simp only [hb, if_false, optC]
    exact dset_special h hc _ rfl hn

theorem optC_keys {c c' : Cls} {b : Bytes} (h : c' ∈ (optC c b).map (·.1)) : c' = c := by
  by_cases hb : b = [] <;> simp_all [optC]

theorem okp_sent {C : Crypto} {m : Mode} (hm : m ≠ .plain) {crv x d : Val} {opt : Dict} {allow : Bool} {k : Key} (ho : Spec.PlainOptional .okp opt)
    (h : okpInit crv x d opt allow = .ok k) : KeySent C m k k := by
  obtain ⟨s, c, s1, s2, hs, hc, h1, h2, hne, rfl⟩ := okpInit_ok h
  obtain ⟨hc, hr⟩ := parseCrv_ok hc
  have hi := initStore_plain ho hs
  obtain ⟨bx, rfl, rfl⟩ := setIfNonEmpty_shape h1
  obtain ⟨db, rfl, rfl⟩ := setIfNonEmpty_shape h2
  have p1 := okp_special OkpCrv (by simp)
  have p2 := okp_special OkpX (by simp)
  have p3 := okp_special OkpD (by simp)
  have e1 : dset s (.cls OkpCrv) (.cls c) = s ++ clsD [(OkpCrv, .cls c)] := by
    have := dset_special (l := []) hi.common p1 (.cls c) rfl (by simp)
    simpa [clsD] using this
  have e2 := dset_opt (l := [(OkpCrv, .cls c)]) hi.common p2 bx (by simp)
  have e3 := dset_opt (l := [(OkpCrv, .cls c)] ++ optC OkpX bx) hi.common p3 db (by
    intro hh; rw [List.map_append, List.mem_append] at hh
    rcases hh with hh | hh
    · simp at hh
    · exact absurd (optC_keys hh) (by decide))
  have hcl : KeyEntry m .okp (.cls OkpCrv, .cls c) (.int OkpCrv.ident, .int c.ident) := specialEntry hm p1 (substCls_ident hm (crvKind_not_alg hc)) trivial
  have again : ∀ w, initStore .okp w true = .ok s → okpInit (.int c.ident) (.bytes bx) (.bytes db) w true = .ok { kind := .okp, store := s ++ clsD ([(OkpCrv, .cls c)] ++ optC OkpX bx ++ optC OkpD db) } := by
    intro w hw
    have hlen : ¬ (bx.length = 0 ∧ db.length = 0) := by
      rintro ⟨a, b⟩
      rw [List.length_eq_zero_iff] at a b
      subst a; subst b; simp at hne
    simp only [okpInit, hw, ok_bind, lenOf, parseCrv_ident hc hr, setIfNonEmpty_bytes, e1, e2, e3]
    by_cases hx : bx.length = 0
    · have hd : (db.length == 0) = false := by simpa using fun h => hlen ⟨hx, h⟩
      simp [hx, hd]
    · simp [hx]
  rw [e1, e2, e3]
  have sp : ∀ c' ∈ [OkpCrv, OkpX, OkpD], Special .okp c' := okp_special
  by_cases hx : bx = [] <;> by_cases hd : db = []
  · subst hx; subst hd; simp at hne
  · obtain ⟨w, h4, h2, h3⟩ := received_store (C := C) hm (kind := .okp) (s := s) (l := [(OkpCrv, .cls c), (OkpD, .bytes db)])
      (e' := intD [(OkpCrv, .int c.ident), (OkpD, .bytes db)]) hi rfl (ks := [OkpCrv, OkpD]) (by decide) (by simp [p1, p3])
      (.cons hcl (.cons (specialBytes hm p3) .nil))
    refine h2 (by simp [optC, hx, hd]) ?_
    simp only [kindFromDict, okpFromDict, extract_append (h3 _ p1), extract_append (h3 _ p2), extract_append (h3 _ p3),
      remove_append (h3 _ p1), remove_append (h3 _ p2), remove_append (h3 _ p3), extract_intD, remove_intD]
    subst hx
    show okpInit (.int c.ident) (.bytes []) (.bytes db) (w ++ []) true = _
    rw [List.append_nil]
    exact again w h4
  · obtain ⟨w, h4, h2, h3⟩ := received_store (C := C) hm (kind := .okp) (s := s) (l := [(OkpCrv, .cls c), (OkpX, .bytes bx)])
      (e' := intD [(OkpCrv, .int c.ident), (OkpX, .bytes bx)]) hi rfl (ks := [OkpCrv, OkpX]) (by decide) (by simp [p1, p2])
      (.cons hcl (.cons (specialBytes hm p2) .nil))
    refine h2 (by simp [optC, hx, hd]) ?_
    simp only [kindFromDict, okpFromDict, extract_append (h3 _ p1), extract_append (h3 _ p2), extract_append (h3 _ p3),
      remove_append (h3 _ p1), remove_append (h3 _ p2), remove_append (h3 _ p3), extract_intD, remove_intD]
    subst hd
    show okpInit (.int c.ident) (.bytes bx) (.bytes []) (w ++ []) true = _
    rw [List.append_nil]
    exact again w h4
  · obtain ⟨w, h4, h2, h3⟩ := received_store (C := C) hm (kind := .okp) (s := s) (l := [(OkpCrv, .cls c), (OkpX, .bytes bx), (OkpD, .bytes db)])
      (e' := intD [(OkpCrv, .int c.ident), (OkpX, .bytes bx), (OkpD, .bytes db)]) hi rfl (ks := [OkpCrv, OkpX, OkpD]) (by decide)
      okp_special (.cons hcl (.cons (specialBytes hm p2) (.cons (specialBytes hm p3) .nil)))
    refine h2 (by simp [optC, hx, hd]) ?_
    simp only [kindFromDict, okpFromDict, extract_append (h3 _ p1), extract_append (h3 _ p2), extract_append (h3 _ p3),
      remove_append (h3 _ p1), remove_append (h3 _ p2), remove_append (h3 _ p3), extract_intD, remove_intD]
    show okpInit (.int c.ident) (.bytes bx) (.bytes db) (w ++ []) true = _
    rw [List.append_nil]
    exact again w h4

/-- **C43** for OKP keys. -/
theorem c43_okp {C : Crypto} {crv x d : Val} {opt : Dict} {allow : Bool} {k : Key} {b : Bytes} (ho : Spec.PlainOptional .okp opt)
    (h : okpInit crv x d opt allow = .ok k) (he : k.encode = .ok b) : Key.decode C b = .ok k :=
  (okp_sent (by decide) ho h).decode he


example : Spec.PlainOptional .okp [] ∧
    (do let k ← okpInit (.text b!"ED25519") (.bytes [1, 2]) (.bytes [3]) [] true
        k.encode : Res Bytes).isOk = true ∧
    (do let k ← okpInit (.int 6) (.bytes []) (.bytes [3]) [] true
        k.encode : Res Bytes).isOk = true := by
  exact ⟨by intro k v h; simp at h, by decide +kernel, by decide +kernel⟩

/-! ### C42 -/

/-- The parameters of an RSA key: byte strings, and the list of the further primes. -/
structure Spec.Rsa where
  n : Bytes
  e : Bytes
  d : Bytes
  p : Bytes
  q : Bytes
  dp : Bytes
  dq : Bytes
  qinv : Bytes
  other : List Val
  ri : Bytes
  di : Bytes
  ti : Bytes

def Spec.Rsa.args (r : Spec.Rsa) : RsaArgs :=
  { n := .bytes r.n, e := .bytes r.e, d := .bytes r.d, p := .bytes r.p, q := .bytes r.q, dp := .bytes r.dp, dq := .bytes r.dq,
    qinv := .bytes r.qinv, other := .arr r.other, ri := .bytes r.ri, di := .bytes r.di, ti := .bytes r.ti }

def Spec.Rsa.NoMore (r : Spec.Rsa) : Prop := r.other = [] ∧ r.ri = [] ∧ r.di = [] ∧ r.ti = []

/-- A public key: modulus and exponent only. -/
def Spec.Rsa.Public (r : Spec.Rsa) : Prop :=
  r.n ≠ [] ∧ r.e ≠ [] ∧ r.d = [] ∧ r.p = [] ∧ r.q = [] ∧ r.dp = [] ∧ r.dq = [] ∧ r.qinv = [] ∧ r.NoMore

def Spec.Rsa.Private (r : Spec.Rsa) : Prop :=
  r.n ≠ [] ∧ r.e ≠ [] ∧ r.d ≠ [] ∧ r.p ≠ [] ∧ r.q ≠ [] ∧ r.dp ≠ [] ∧ r.dq ≠ [] ∧ r.qinv ≠ []

/-- A private key with two primes. -/
def Spec.Rsa.TwoPrime (r : Spec.Rsa) : Prop := r.Private ∧ r.NoMore

/-- A private key with more than two primes. -/
def Spec.Rsa.MultiPrime (r : Spec.Rsa) : Prop := r.Private ∧ r.other ≠ [] ∧ r.ri ≠ [] ∧ r.di ≠ [] ∧ r.ti ≠ []

theorem allLen_nil (z : Bool) : allLen z [] = .ok true := rfl

theorem allLen_cons_bytes (z : Bool) (b : Bytes) (t : List Val) :
    allLen z (.bytes b :: t) = if decide (b = []) = z then allLen z t else .ok false := by
  have : (b.length == 0) = decide (b = []) := by cases b <;> simp
  simp only [allLen, lenOf, ok_bind, this]

theorem allLen_cons_arr (z : Bool) (b : List Val) (t : List Val) :
    allLen z (.arr b :: t) = if decide (b = []) = z then allLen z t else .ok false := by
  have : (b.length == 0) = decide (b = []) := by cases b <;> simp
  simp only [allLen, lenOf, ok_bind, this]

theorem ite_ok_true {P : Prop} [Decidable P] {x : Res Bool} : (if P then x else .ok false) = .ok true ↔ P ∧ x = .ok true := by
  by_cases h : P <;> simp [h]

theorem rsaValid_spec (r : Spec.Rsa) :
    (rsaValid r.args = .ok true ↔ r.Public ∨ r.TwoPrime ∨ r.MultiPrime) ∧ ∃ b, rsaValid r.args = .ok b := by
  have tot : ∀ (z : Bool) (l : List Val), (∀ v ∈ l, (∃ b, v = .bytes b) ∨ ∃ b, v = .arr b) → ∃ b, allLen z l = .ok b := by
    intro z l
    induction l with
    | nil => exact fun _ => ⟨_, rfl⟩
    | cons v t ih =>
      intro h
      obtain ⟨b, hb⟩ := ih fun v hv => h v (by simp [hv])
      rcases h v (by simp) with ⟨c, rfl⟩ | ⟨c, rfl⟩
      · rw [allLen_cons_bytes]; split
        · exact ⟨b, hb⟩
        · exact ⟨_, rfl⟩
      · rw [allLen_cons_arr]; split
        · exact ⟨b, hb⟩
        · exact ⟨_, rfl⟩
  obtain ⟨b1, h1⟩ := tot true [.bytes r.d, .bytes r.p, .bytes r.q, .bytes r.dp, .bytes r.dq, .bytes r.qinv, .arr r.other, .bytes r.ri, .bytes r.di, .bytes r.ti] (by simp)
  obtain ⟨b2, h2⟩ := tot true [.arr r.other, .bytes r.ri, .bytes r.ti, .bytes r.di] (by simp)
  obtain ⟨b3, h3⟩ := tot false [.bytes r.n, .bytes r.e, .bytes r.d, .bytes r.p, .bytes r.q, .bytes r.dp, .bytes r.dq, .bytes r.qinv] (by simp)
  obtain ⟨b4, h4⟩ := tot false [.bytes r.n, .bytes r.e, .bytes r.d, .bytes r.p, .bytes r.q, .bytes r.dp, .bytes r.dq, .bytes r.qinv, .arr r.other, .bytes r.ri, .bytes r.di, .bytes r.ti] (by simp)
  have i1 : b1 = true ↔ (r.d = [] ∧ r.p = [] ∧ r.q = [] ∧ r.dp = [] ∧ r.dq = [] ∧ r.qinv = [] ∧ r.other = [] ∧ r.ri = [] ∧ r.di = [] ∧ r.ti = []) := by
    have : b1 = true ↔ (.ok b1 : Res Bool) = .ok true := by simp
    rw [this, ← h1]
    simp only [allLen_cons_bytes, allLen_cons_arr, allLen_nil, ite_ok_true, decide_eq_true_eq, and_true]
  have i2 : b2 = true ↔ (r.other = [] ∧ r.ri = [] ∧ r.ti = [] ∧ r.di = []) := by
    have : b2 = true ↔ (.ok b2 : Res Bool) = .ok true := by simp
    rw [this, ← h2]
    simp only [allLen_cons_bytes, allLen_cons_arr, allLen_nil, ite_ok_true, decide_eq_true_eq, and_true]
  have i3 : b3 = true ↔ r.Private := by
    have : b3 = true ↔ (.ok b3 : Res Bool) = .ok true := by simp
    rw [this, ← h3]
    simp only [allLen_cons_bytes, allLen_nil, ite_ok_true, decide_eq_false_iff_not, and_true, Spec.Rsa.Private, ne_eq]
  have i4 : b4 = true ↔ r.Private ∧ (r.other ≠ [] ∧ r.ri ≠ [] ∧ r.di ≠ [] ∧ r.ti ≠ []) := by
    have : b4 = true ↔ (.ok b4 : Res Bool) = .ok true := by simp
    rw [this, ← h4]
    simp only [allLen_cons_bytes, allLen_cons_arr, allLen_nil, ite_ok_true, decide_eq_false_iff_not, and_true, Spec.Rsa.Private, ne_eq, and_assoc]
  have lz : ∀ b : Bytes, (b.length ≠ 0) ↔ b ≠ [] := by intro b; cases b <;> simp
  simp only [rsaValid, Spec.Rsa.args, lenOf, ok_bind, h1, h2, h3, h4, lz]
  simp only [Spec.Rsa.Public, Spec.Rsa.TwoPrime, Spec.Rsa.MultiPrime, Spec.Rsa.NoMore]
  by_cases c1 : r.n = []
  · simp only [c1, ne_eq, not_true_eq_false, if_false]
    cases b2 <;> cases b3 <;> cases b4 <;> simp only [if_true, if_false, Bool.false_eq_true] <;> grind
  · by_cases c2 : r.e = []
    · simp only [c1, c2, ne_eq, not_true_eq_false, not_false_eq_true, if_true, if_false]
      cases b2 <;> cases b3 <;> cases b4 <;> simp only [if_true, if_false, Bool.false_eq_true] <;> grind
    · simp only [c1, c2, ne_eq, not_false_eq_true, if_true]
      cases b1 <;> cases b2 <;> cases b3 <;> cases b4 <;> simp only [if_true, if_false, Bool.false_eq_true] <;> grind

def Spec.Rsa.chain (r : Spec.Rsa) : List (Cls × Val) :=
  [(RsaE, .bytes r.e), (RsaN, .bytes r.n)] ++ optC RsaD r.d ++ optC RsaP r.p ++ optC RsaQ r.q ++ optC RsaDP r.dp ++ optC RsaDQ r.dq ++ optC RsaQInv r.qinv

theorem rsa_special : ∀ c ∈ [RsaE, RsaN, RsaD, RsaP, RsaQ, RsaDP, RsaDQ, RsaQInv, RsaOther, RsaRi, RsaDi, RsaTi], Special .rsa c := by
  have : ∀ c ∈ [RsaE, RsaN, RsaD, RsaP, RsaQ, RsaDP, RsaDQ, RsaQInv, RsaOther, RsaRi, RsaDi, RsaTi],
      (c, fullname c) ∈ registry (kindReg .rsa) ∧ c.reg ≠ .kp := by decide +kernel
  exact this

theorem rsaInit_form (r : Spec.Rsa) (opt : Dict) (allow : Bool) :
    rsaInit r.args opt allow = (do
      let ok ← rsaValid r.args
      if ok = false then .error .invalidKey
      else do
        let s ← initStore .rsa opt allow
        let s := dset (dset s (.cls RsaE) (.bytes r.e)) (.cls RsaN) (.bytes r.n)
        let s := if r.d = [] then s else dset s (.cls RsaD) (.bytes r.d)
        let s := if r.p = [] then s else dset s (.cls RsaP) (.bytes r.p)
        let s := if r.q = [] then s else dset s (.cls RsaQ) (.bytes r.q)
        let s := if r.dp = [] then s else dset s (.cls RsaDP) (.bytes r.dp)
        let s := if r.dq = [] then s else dset s (.cls RsaDQ) (.bytes r.dq)
        let s := if r.qinv = [] then s else dset s (.cls RsaQInv) (.bytes r.qinv)
        .ok { kind := .rsa, store := s, extra := r.args.attrs }) := by
  have e : (if r.args.other = .none then { r.args with other := .arr [] } else r.args) = r.args := by simp [Spec.Rsa.args]
  simp only [rsaInit, e]
  congr 1; funext ok
  split
  · rfl
  · congr 1; funext s
    simp only [Spec.Rsa.args, setBytes, ok_bind, setIfNonEmpty_bytes, RsaArgs.attrs]

/-- **C42**: exactly the public keys, the private keys with two primes and the private keys with more primes are accepted,
for every value of the twelve parameters and for all acceptable optional parameters. -/
theorem c42_accepted (r : Spec.Rsa) (opt : Dict) (allow : Bool) :
    (∃ k, rsaInit r.args opt allow = .ok k) ↔ (r.Public ∨ r.TwoPrime ∨ r.MultiPrime) ∧ ∃ s, initStore .rsa opt allow = .ok s := by
  obtain ⟨hv, b, hb⟩ := rsaValid_spec r
  rw [← hv, rsaInit_form]
  cases b with
  | false => simp [hb]
  | true =>
    simp only [hb, ok_bind, Bool.true_eq_false, if_false, true_and]
    constructor
    · rintro ⟨k, hk⟩
      obtain ⟨s, hs, _⟩ := bind_eq_ok.mp hk
      exact ⟨s, hs⟩
    · rintro ⟨s, hs⟩
      simp only [hs, ok_bind]
      exact ⟨_, rfl⟩

/-- **C42** without optional parameters. -/
theorem c42_classified (r : Spec.Rsa) : (∃ k, rsaInit r.args [] true = .ok k) ↔ r.Public ∨ r.TwoPrime ∨ r.MultiPrime := by
  rw [c42_accepted]
  have : ∃ s, initStore .rsa [] true = .ok s := ⟨_, rfl⟩
  simp [this]

/-- Every other combination is refused as an invalid key, before the optional parameters are looked at. -/
theorem c42_refused (r : Spec.Rsa) (opt : Dict) (allow : Bool) (h : ¬ (r.Public ∨ r.TwoPrime ∨ r.MultiPrime)) :
    rsaInit r.args opt allow = .error .invalidKey := by
  obtain ⟨hv, b, hb⟩ := rsaValid_spec r
  rw [← hv] at h
  rw [rsaInit_form]
  cases b with
  | false => simp [hb]
  | true => exact absurd hb h

theorem rsaInit_plain {r : Spec.Rsa} {opt : Dict} {allow : Bool} {k : Key} (ho : Spec.PlainOptional .rsa opt)
    (h : rsaInit r.args opt allow = .ok k) :
    ∃ s, InitOK .rsa s ∧ initStore .rsa opt allow = .ok s ∧ k = { kind := .rsa, store := s ++ clsD r.chain, extra := r.args.attrs } := by
  rw [rsaInit_form] at h
  obtain ⟨ok, hok, h⟩ := bind_eq_ok.mp h
  cases ok with
  | false => simp at h
  | true =>
    simp only [Bool.true_eq_false, if_false] at h
    obtain ⟨s, hs, h⟩ := bind_eq_ok.mp h
    have hi := initStore_plain ho hs
    refine ⟨s, hi, hs, ?_⟩
    simp only [Except.ok.injEq] at h
    rw [← h]
    have sp := fun c hc => rsa_special c hc
    have e0 : dset (dset s (.cls RsaE) (.bytes r.e)) (.cls RsaN) (.bytes r.n) = s ++ clsD [(RsaE, .bytes r.e), (RsaN, .bytes r.n)] := by
      have a := dset_special (l := []) hi.common (sp RsaE (by decide)) (.bytes r.e) rfl (by simp)
      simp only [clsD, List.map_nil, List.append_nil, List.nil_append] at a
      rw [a]
      exact dset_special (l := [(RsaE, .bytes r.e)]) hi.common (sp RsaN (by decide)) (.bytes r.n) rfl (ks := [RsaE]) (by decide)
    have step : ∀ (l : List (Cls × Val)) (c : Cls) (b : Bytes) (ks : List Cls), (∀ x ∈ l.map (·.1), x ∈ ks) → Special .rsa c → c ∉ ks →
        (if b = [] then s ++ clsD l else dset (s ++ clsD l) (.cls c) (.bytes b)) = s ++ clsD (l ++ optC c b) ∧
        (∀ x ∈ (l ++ optC c b).map (·.1), x ∈ ks ++ [c]) := by
      intro l c b ks hl hc hn
      refine ⟨dset_opt hi.common hc b fun hh => hn (hl _ hh), ?_⟩
      intro x hx
      rw [List.map_append, List.mem_append] at hx
      rcases hx with hx | hx
      · simp [hl x hx]
      · simp [optC_keys hx]
    obtain ⟨e1, k1⟩ := step [(RsaE, .bytes r.e), (RsaN, .bytes r.n)] RsaD r.d [RsaE, RsaN] (by simp) (sp _ (by decide)) (by decide)
    obtain ⟨e2, k2⟩ := step _ RsaP r.p _ k1 (sp _ (by decide)) (by decide)
    obtain ⟨e3, k3⟩ := step _ RsaQ r.q _ k2 (sp _ (by decide)) (by decide)
    obtain ⟨e4, k4⟩ := step _ RsaDP r.dp _ k3 (sp _ (by decide)) (by decide)
    obtain ⟨e5, k5⟩ := step _ RsaDQ r.dq _ k4 (sp _ (by decide)) (by decide)
    obtain ⟨e6, _⟩ := step _ RsaQInv r.qinv _ k5 (sp _ (by decide)) (by decide)
    rw [e0, e1, e2, e3, e4, e5, e6]
    rfl

theorem rsa_sent {C : Crypto} {m : Mode} (hm : m ≠ .plain) {r : Spec.Rsa} {opt : Dict} {allow : Bool} {k : Key} (ho : Spec.PlainOptional .rsa opt)
    (h : rsaInit r.args opt allow = .ok k) : KeySent C m k { k with extra := [] } := by
  have hsh := ((c42_accepted r opt allow).mp ⟨k, h⟩).1
  obtain ⟨s, hi, hs, rfl⟩ := rsaInit_plain ho h
  have sp := fun c hc => rsa_special c hc
  have again : ∀ w, initStore .rsa w true = .ok s → ∀ r' : Spec.Rsa, r' = { r with other := [], ri := [], di := [], ti := [] } →
      rsaInit r'.args w true = .ok { kind := .rsa, store := s ++ clsD r.chain } := by
    rintro w hw r' rfl
    have hv : rsaValid { r with other := [], ri := [], di := [], ti := [] : Spec.Rsa }.args = .ok true := by
      rw [(rsaValid_spec _).1]
      rcases hsh with ⟨h1, h2, h3, h4, h5, h6, h7, h8, _⟩ | ⟨h1, _⟩ | ⟨h1, _⟩
      · exact .inl ⟨h1, h2, h3, h4, h5, h6, h7, h8, rfl, rfl, rfl, rfl⟩
      · exact .inr (.inl ⟨h1, rfl, rfl, rfl, rfl⟩)
      · exact .inr (.inl ⟨h1, rfl, rfl, rfl, rfl⟩)
    have h' := h
    rw [rsaInit_form] at h' ⊢
    obtain ⟨ok, hok, h'⟩ := bind_eq_ok.mp h'
    cases ok with
    | false => simp at h'
    | true =>
      simp only [Bool.true_eq_false, if_false, hs, ok_bind, Except.ok.injEq, Key.mk.injEq, true_and] at h'
      simp only [hv, ok_bind, Bool.true_eq_false, if_false, hw, Except.ok.injEq, Key.mk.injEq, true_and]
      exact ⟨h'.1, by simp [RsaArgs.attrs, Spec.Rsa.args, truthy]⟩
  have pub : (r.d = [] ∧ r.p = [] ∧ r.q = [] ∧ r.dp = [] ∧ r.dq = [] ∧ r.qinv = []) ∨ r.Private := by
    rcases hsh with ⟨h1, h2, h3, h4, h5, h6, h7, h8, _⟩ | ⟨h1, _⟩ | ⟨h1, _⟩
    · exact .inl ⟨h3, h4, h5, h6, h7, h8⟩
    · exact .inr h1
    · exact .inr h1
  have ex : ∀ (w : Dict) (l : List (Cls × Val)), (∀ c, Special .rsa c → ∀ q ∈ w, keq q.1 (.cls c) = false ∧ keq q.1 (.int c.ident) = false ∧ keq q.1 (.text (fullname c)) = false) →
      rsaFromDict (w ++ intD l) = rsaInit
        { n := getC l RsaN (.bytes []), e := getC l RsaE (.bytes []), d := getC l RsaD (.bytes []), p := getC l RsaP (.bytes []),
          q := getC l RsaQ (.bytes []), dp := getC l RsaDP (.bytes []), dq := getC l RsaDQ (.bytes []), qinv := getC l RsaQInv (.bytes []),
          other := getC l RsaOther (.arr []), ri := getC l RsaRi (.bytes []), di := getC l RsaDi (.bytes []), ti := getC l RsaTi (.bytes []) }
        (w ++ intD ([RsaE, RsaN, RsaD, RsaP, RsaQ, RsaDP, RsaDQ, RsaQInv, RsaOther, RsaQInv, RsaRi, RsaDi, RsaTi].foldl remC l)) true := by
    intro w l h3
    have e := fun c hc v => extract_append (v := v) (e := intD l) (h3 c (sp c hc))
    have f : ∀ (cs : List Cls) (l : List (Cls × Val)), (∀ c ∈ cs, Special .rsa c) → cs.foldl remove (w ++ intD l) = w ++ intD (cs.foldl remC l) := by
      intro cs
      induction cs with
      | nil => intros; rfl
      | cons c t ih =>
        intro l hc
        rw [List.foldl_cons, remove_append (h3 c (hc c (by simp))), remove_intD, ih _ fun c hc' => hc c (by simp [hc'])]
        rfl
    rw [rsaFromDict, f _ _ (by intro c hc; exact sp c ((by decide : ∀ c ∈ [RsaE, RsaN, RsaD, RsaP, RsaQ, RsaDP, RsaDQ, RsaQInv, RsaOther, RsaQInv, RsaRi, RsaDi, RsaTi], c ∈ [RsaE, RsaN, RsaD, RsaP, RsaQ, RsaDP, RsaDQ, RsaQInv, RsaOther, RsaRi, RsaDi, RsaTi]) c hc)),
      e RsaN (by decide), e RsaE (by decide), e RsaD (by decide), e RsaP (by decide), e RsaQ (by decide), e RsaDP (by decide), e RsaDQ (by decide),
      e RsaQInv (by decide), e RsaOther (by decide), e RsaRi (by decide), e RsaDi (by decide), e RsaTi (by decide)]
    simp only [extract_intD]
  rcases pub with ⟨h1, h2, h3, h4, h5, h6⟩ | ⟨_, _, h1, h2, h3, h4, h5, h6⟩
  · have hch : r.chain = [(RsaE, .bytes r.e), (RsaN, .bytes r.n)] := by simp [Spec.Rsa.chain, optC, h1, h2, h3, h4, h5, h6]
    obtain ⟨w, g1, g2, g3⟩ := received_store (C := C) hm (kind := .rsa) (s := s) (l := r.chain)
      (e' := intD [(RsaE, .bytes r.e), (RsaN, .bytes r.n)]) hi (by rw [hch]; rfl) (ks := [RsaE, RsaN]) (by decide)
      (by intro c hc; exact sp c ((by decide : ∀ c ∈ [RsaE, RsaN], c ∈ [RsaE, RsaN, RsaD, RsaP, RsaQ, RsaDP, RsaDQ, RsaQInv, RsaOther, RsaRi, RsaDi, RsaTi]) c hc))
      (by rw [hch]; exact .cons (specialBytes hm (sp RsaE (by decide))) (.cons (specialBytes hm (sp RsaN (by decide))) .nil))
    refine g2 rfl ?_
    simp only [kindFromDict]
    rw [ex w _ g3, ← again w g1 _ rfl]
    simp only [Spec.Rsa.args, h1, h2, h3, h4, h5, h6]
    show rsaInit _ (w ++ []) true = _
    rw [List.append_nil]
    rfl
  · have hch : r.chain = [(RsaE, .bytes r.e), (RsaN, .bytes r.n), (RsaD, .bytes r.d), (RsaP, .bytes r.p), (RsaQ, .bytes r.q),
        (RsaDP, .bytes r.dp), (RsaDQ, .bytes r.dq), (RsaQInv, .bytes r.qinv)] := by simp [Spec.Rsa.chain, optC, h1, h2, h3, h4, h5, h6]
    obtain ⟨w, g1, g2, g3⟩ := received_store (C := C) hm (kind := .rsa) (s := s) (l := r.chain)
      (e' := intD [(RsaE, .bytes r.e), (RsaN, .bytes r.n), (RsaD, .bytes r.d), (RsaP, .bytes r.p), (RsaQ, .bytes r.q),
        (RsaDP, .bytes r.dp), (RsaDQ, .bytes r.dq), (RsaQInv, .bytes r.qinv)]) hi (by rw [hch]; rfl)
      (ks := [RsaE, RsaN, RsaD, RsaP, RsaQ, RsaDP, RsaDQ, RsaQInv]) (by decide)
      (by intro c hc; exact sp c ((by decide : ∀ c ∈ [RsaE, RsaN, RsaD, RsaP, RsaQ, RsaDP, RsaDQ, RsaQInv], c ∈ [RsaE, RsaN, RsaD, RsaP, RsaQ, RsaDP, RsaDQ, RsaQInv, RsaOther, RsaRi, RsaDi, RsaTi]) c hc))
      (by rw [hch]; exact .cons (specialBytes hm (sp RsaE (by decide))) (.cons (specialBytes hm (sp RsaN (by decide))) (.cons (specialBytes hm (sp RsaD (by decide)))
        (.cons (specialBytes hm (sp RsaP (by decide))) (.cons (specialBytes hm (sp RsaQ (by decide))) (.cons (specialBytes hm (sp RsaDP (by decide)))
        (.cons (specialBytes hm (sp RsaDQ (by decide))) (.cons (specialBytes hm (sp RsaQInv (by decide))) .nil))))))))
    refine g2 rfl ?_
    simp only [kindFromDict]
    rw [ex w _ g3, ← again w g1 _ rfl]
    simp only [Spec.Rsa.args]
    show rsaInit _ (w ++ []) true = _
    rw [List.append_nil]
    rfl

/-- What is read back from the encoding of any RSA key: all its parameters but those of the further primes. -/
theorem rsa_read {C : Crypto} {r : Spec.Rsa} {opt : Dict} {allow : Bool} {k : Key} {b : Bytes} (ho : Spec.PlainOptional .rsa opt)
    (h : rsaInit r.args opt allow = .ok k) (he : k.encode = .ok b) : Key.decode C b = .ok { k with extra := [] } :=
  (rsa_sent (by decide) ho h).decode he


/-- **C43** for RSA keys: public keys and private keys with two primes are restored exactly from their encoding. -/
theorem c43_rsa {C : Crypto} {r : Spec.Rsa} {opt : Dict} {allow : Bool} {k : Key} {b : Bytes} (ho : Spec.PlainOptional .rsa opt)
    (hr : r.NoMore) (h : rsaInit r.args opt allow = .ok k) (he : k.encode = .ok b) : Key.decode C b = .ok k := by
  rw [rsa_read ho h he]
  obtain ⟨s, hi, hs, rfl⟩ := rsaInit_plain ho h
  obtain ⟨h1, h2, h3, h4⟩ := hr
  simp [RsaArgs.attrs, Spec.Rsa.args, truthy, h1, h2, h3, h4]

/-- **C42**, refuted for the serialisation of private keys with more than two primes: every such key loses the parameters of
its further primes; what is read back is a key without them. -/
theorem c42_refuted {C : Crypto} {r : Spec.Rsa} {opt : Dict} {allow : Bool} {k : Key} {b : Bytes} (ho : Spec.PlainOptional .rsa opt)
    (hr : r.MultiPrime) (h : rsaInit r.args opt allow = .ok k) (he : k.encode = .ok b) :
    ∃ k', Key.decode C b = .ok k' ∧ k' ≠ k ∧ k'.store = k.store ∧ k'.extra = [] ∧
      (Val.text b!"r_i", Val.bytes r.ri) ∈ k.extra ∧ (Val.text b!"d_i", Val.bytes r.di) ∈ k.extra ∧ (Val.text b!"t_i", Val.bytes r.ti) ∈ k.extra := by
  obtain ⟨s, hi, hs, e⟩ := rsaInit_plain ho h
  obtain ⟨_, h1, h2, h3, h4⟩ := hr
  refine ⟨_, rsa_read ho h he, ?_, rfl, rfl, ?_, ?_, ?_⟩
  · rw [e]; simp [RsaArgs.attrs, Spec.Rsa.args, h2]
  all_goals rw [e]; simp [RsaArgs.attrs, Spec.Rsa.args, h2, h3, h4]

/-- What is stored: a parameter is read as given. -/
theorem c42_values {r : Spec.Rsa} {opt : Dict} {allow : Bool} {k : Key} (ho : Spec.PlainOptional .rsa opt)
    (h : rsaInit r.args opt allow = .ok k) :
    k.rsaParam RsaN = .ok (.bytes r.n) ∧ k.rsaParam RsaE = .ok (.bytes r.e) ∧ k.rsaParam RsaD = .ok (.bytes r.d) ∧
      k.rsaParam RsaP = .ok (.bytes r.p) ∧ k.rsaParam RsaQ = .ok (.bytes r.q) ∧ k.rsaParam RsaDP = .ok (.bytes r.dp) ∧
      k.rsaParam RsaDQ = .ok (.bytes r.dq) ∧ k.rsaParam RsaQInv = .ok (.bytes r.qinv) := by
  obtain ⟨s, hi, hs, rfl⟩ := rsaInit_plain ho h
  have sp := fun c hc => rsa_special c hc
  have g : ∀ c, Special .rsa c → getD (s ++ clsD r.chain) c (.bytes []) = getD (clsD r.chain) c (.bytes []) := by
    intro c hc
    simp only [getD, dget_append_right (store_special hi.common hc)]
  simp only [Key.rsaParam, if_true, g _ (sp _ (by decide : RsaN ∈ _)), g _ (sp _ (by decide : RsaE ∈ _)), g _ (sp _ (by decide : RsaD ∈ _)), g _ (sp _ (by decide : RsaP ∈ _)), g _ (sp _ (by decide : RsaQ ∈ _)), g _ (sp _ (by decide : RsaDP ∈ _)), g _ (sp _ (by decide : RsaDQ ∈ _)), g _ (sp _ (by decide : RsaQInv ∈ _))]
  have pub : (r.d = [] ∧ r.p = [] ∧ r.q = [] ∧ r.dp = [] ∧ r.dq = [] ∧ r.qinv = []) ∨ r.Private := by
    rcases ((c42_accepted r opt allow).mp ⟨_, h⟩).1 with ⟨h1, h2, h3, h4, h5, h6, h7, h8, _⟩ | ⟨h1, _⟩ | ⟨h1, _⟩
    · exact .inl ⟨h3, h4, h5, h6, h7, h8⟩
    · exact .inr h1
    · exact .inr h1
  rcases pub with ⟨h1, h2, h3, h4, h5, h6⟩ | ⟨_, _, h1, h2, h3, h4, h5, h6⟩
  · have hch : r.chain = [(RsaE, .bytes r.e), (RsaN, .bytes r.n)] := by simp [Spec.Rsa.chain, optC, h1, h2, h3, h4, h5, h6]
    rw [hch, h1, h2, h3, h4, h5, h6]
    exact ⟨rfl, rfl, rfl, rfl, rfl, rfl, rfl, rfl⟩
  · have hch : r.chain = [(RsaE, .bytes r.e), (RsaN, .bytes r.n), (RsaD, .bytes r.d), (RsaP, .bytes r.p), (RsaQ, .bytes r.q),
        (RsaDP, .bytes r.dp), (RsaDQ, .bytes r.dq), (RsaQInv, .bytes r.qinv)] := by simp [Spec.Rsa.chain, optC, h1, h2, h3, h4, h5, h6]
    rw [hch]
    exact ⟨rfl, rfl, rfl, rfl, rfl, rfl, rfl, rfl⟩

/-- Without optional parameters, as with them. -/
example : Spec.PlainOptional .rsa [] ∧ ((Spec.Rsa.mk [1] [2] [3] [4] [5] [6] [7] [8] [] [] [] []).TwoPrime) ∧
    (Spec.Rsa.mk [1] [2] [] [] [] [] [] [] [] [] [] []).Public ∧ (Spec.Rsa.mk [1] [2] [3] [4] [5] [6] [7] [8] [.int 0] [9] [10] [11]).MultiPrime ∧
    (do let k ← rsaInit (Spec.Rsa.mk [1] [2] [3] [4] [5] [6] [7] [8] [.int 0] [9] [10] [11]).args [] true
        k.encode : Res Bytes).isOk = true := by
  refine ⟨by intro k v h; simp at h, ?_, ?_, ?_, by decide +kernel⟩
  · simp [Spec.Rsa.TwoPrime, Spec.Rsa.Private, Spec.Rsa.NoMore]
  · simp [Spec.Rsa.Public, Spec.Rsa.NoMore]
  · simp [Spec.Rsa.MultiPrime, Spec.Rsa.Private]

/-- Whatever Python values are passed, an accepted key has byte strings as its eight ordinary parameters. -/
theorem c42_bytes {a : RsaArgs} {opt : Dict} {allow : Bool} {k : Key} (h : rsaInit a opt allow = .ok k) :
    ∃ n e d p q dp dq qinv, a.n = .bytes n ∧ a.e = .bytes e ∧ a.d = .bytes d ∧ a.p = .bytes p ∧ a.q = .bytes q ∧
      a.dp = .bytes dp ∧ a.dq = .bytes dq ∧ a.qinv = .bytes qinv := by
  obtain ⟨_, s, eb, nb, s3, s4, s5, s6, s7, s8, _, he, hn, h3, h4, h5, h6, h7, h8, _⟩ := rsaInit_ok h
  obtain ⟨d, hd, _⟩ := setIfNonEmpty_shape h3
  obtain ⟨p, hp, _⟩ := setIfNonEmpty_shape h4
  obtain ⟨q, hq, _⟩ := setIfNonEmpty_shape h5
  obtain ⟨dp, hdp, _⟩ := setIfNonEmpty_shape h6
  obtain ⟨dq, hdq, _⟩ := setIfNonEmpty_shape h7
  obtain ⟨qi, hqi, _⟩ := setIfNonEmpty_shape h8
  exact ⟨nb, eb, d, p, q, dp, dq, qi, hn, he, hd, hp, hq, hdp, hdq, hqi⟩

end Cose
