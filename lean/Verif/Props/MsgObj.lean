import Verif.MsgObj
import Verif.Props.Header
import Verif.Wire
/-!
# C64, C65 — what a message object holds

C64: after any sequence of writes.  C65: after construction.
-/
set_option autoImplicit false
namespace Cose

/-! ### Specification of C64

A message object as a user sees it: three look-up tables, a payload, external data, a key, and the bytes of
the protected header it was received with (if it was received and the header has not been replaced). -/

structure Spec.View where
  phdr : Val → Option Val
  uhdr : Val → Option Val
  loc : Val → Option Val
  payload : Option Bytes
  aad : Bytes
  key : Option Key
  received : Option Bytes

/-- The table after an entry is written; `keq` is Python's `==` on dictionary keys. -/
def Spec.put (f : Val → Option Val) (k v : Val) : Val → Option Val := fun q => if keq k q then some v else f q
/-- The table after an entry is removed. -/
def Spec.drop (f : Val → Option Val) (k : Val) : Val → Option Val := fun q => if keq k q then none else f q
/-- The table after all entries of the dictionary `d` are written. -/
def Spec.putAll (f : Val → Option Val) (d : Dict) : Val → Option Val := fun q => (dget d q).or (f q)

/-- What one write does to the view: the new view, or the exception. -/
def Spec.write (s : Spec.View) : MsgOp → Except PyErr Spec.View
  | .setPhdr (.map d) => .ok { s with phdr := dget d, received := none }
  | .setPhdr _ => .error .typeError
  | .setUhdr (.map d) => .ok { s with uhdr := dget d }
  | .setUhdr _ => .error .typeError
  | .phdrUpdate (.map d) => .ok { s with phdr := Spec.putAll s.phdr d, received := none }
  | .phdrUpdate _ => .error .typeError
  | .uhdrUpdate (.map d) => .ok { s with uhdr := Spec.putAll s.uhdr d }
  | .uhdrUpdate _ => .error .typeError
  | .phdrSetItem k v => .ok { s with phdr := Spec.put s.phdr k v }
  | .phdrDelItem k => if s.phdr k = none then .error .keyError else .ok { s with phdr := Spec.drop s.phdr k }
  | .setPayload (.bytes p) => .ok { s with payload := some p }
  | .setPayload .none => .ok { s with payload := none }
  | .setPayload _ => .error .typeError
  | .setAad (.bytes p) => .ok { s with aad := p }
  | .setAad _ => .error .typeError
  | .setKey (.key k) => .ok { s with key := some k }
  | .setKey .none => .ok { s with key := none }
  | .setKey .other => .error .invalidKey
  | .setLocal d => .ok { s with loc := Spec.putAll s.loc d }

/-- A sequence of writes; one that raises has no effect. -/
def Spec.writes (s : Spec.View) : List MsgOp → Spec.View × List (Option PyErr)
  | [] => (s, [])
  | op :: t =>
    match Spec.write s op with
    | .ok s' => ((Spec.writes s' t).1, none :: (Spec.writes s' t).2)
    | .error e => ((Spec.writes s t).1, some e :: (Spec.writes s t).2)

/-- What the object shows. -/
def Base.view (b : Base) : Spec.View where
  phdr := dget b.phdr
  uhdr := dget b.uhdr
  loc := dget b.localAttrs
  payload := b.payload
  aad := b.aad
  key := b.key
  received := b.phdrEnc

/-- Python dictionaries have no two equal keys. -/
def Spec.DictArg : MsgOp → Prop
  | .setPhdr (.map d) | .setUhdr (.map d) | .phdrUpdate (.map d) | .uhdrUpdate (.map d) | .setLocal d => KeysNodup d
  | _ => True

/-- The dictionaries of the object have no two equal keys. -/
structure Spec.Proper (b : Base) : Prop where
  phdr : KeysNodup b.phdr
  uhdr : KeysNodup b.uhdr
  loc : KeysNodup b.localAttrs

/-! ### Helpers -/

theorem dget_dupdate_nodup {e : Dict} (he : KeysNodup e) (d : Dict) (q : Val) :
    dget (dupdate d e) q = (dget e q).or (dget d q) := by
  induction e generalizing d with
  | nil => simp [dupdate, dget]
  | cons p t ih =>
    obtain ⟨k, v⟩ := p
    unfold KeysNodup at he
    rw [List.pairwise_cons] at he
    simp only [dupdate, ih he.2, dget, dget_dset]
    by_cases hk : keq k q = true
    · have : dget t q = none := by
        rw [dget_none_iff]
        intro p hp
        have := he.1 p hp
        simp only [Bool.eq_false_iff] at this ⊢
        intro h; exact this (keq_trans hk (keq_symm h))
      simp [hk, this]
    · simp [hk]

theorem ddel_keysNodup {d : Dict} (h : KeysNodup d) (k : Val) : KeysNodup (ddel d k) := by
  induction d with
  | nil => simpa [ddel] using h
  | cons p t ih =>
    obtain ⟨a, v⟩ := p
    unfold KeysNodup at h
    rw [List.pairwise_cons] at h
    simp only [ddel]
    split
    · exact h.2
    · unfold KeysNodup
      rw [List.pairwise_cons]
      refine ⟨fun q hq => h.1 q ?_, ih h.2⟩
      have : ∀ (l : Dict), q ∈ ddel l k → q ∈ l := by
        intro l
        induction l with
        | nil => simp [ddel]
        | cons x l ih =>
          obtain ⟨a', v'⟩ := x
          simp only [ddel]
          split
          · intro h; exact List.mem_cons_of_mem _ h
          · intro h; rcases List.mem_cons.mp h with h | h
            · simp [h]
            · exact List.mem_cons_of_mem _ (ih h)
      exact this t hq

theorem dget_ddel {d : Dict} (h : KeysNodup d) (k q : Val) :
    dget (ddel d k) q = if keq k q then none else dget d q := by
  induction d with
  | nil => simp [ddel, dget]
  | cons p t ih =>
    obtain ⟨a, v⟩ := p
    unfold KeysNodup at h
    rw [List.pairwise_cons] at h
    simp only [ddel]
    by_cases hak : keq a k = true
    · simp only [hak, if_true, dget]
      by_cases hkq : keq k q = true
      · simp only [hkq, if_true]
        rw [dget_none_iff]
        intro x hx
        have := h.1 x hx
        simp only [Bool.eq_false_iff] at this ⊢
        intro hh; exact this (keq_trans hak (keq_trans hkq (keq_symm hh)))
      · have : keq a q = keq k q := keq_congr_left hak q
        simp [hkq, this]
    · simp only [hak, Bool.false_eq_true, if_false, dget, ih h.2]
      by_cases hkq : keq k q = true
      · have : keq a q = keq a k := (keq_congr_right hkq a).symm
        simp [hkq, this, hak]
      · simp [hkq]

theorem base_apply_spec {b : Base} (hb : Spec.Proper b) {op : MsgOp} (ho : Spec.DictArg op) :
    (∀ b', b.apply op = .ok b' → Spec.write b.view op = .ok b'.view ∧ Spec.Proper b') ∧
    (∀ e, b.apply op = .error e → Spec.write b.view op = .error e) := by
  cases op with
  | setPhdr v =>
    cases v <;> simp [Base.apply, Base.setPhdr, asDict, Spec.write, error_bind, ok_bind]
    exact ⟨rfl, ⟨ho, hb.uhdr, hb.loc⟩⟩
  | setUhdr v =>
    cases v <;> simp [Base.apply, Base.setUhdr, asDict, Spec.write, error_bind, ok_bind]
    exact ⟨rfl, ⟨hb.phdr, ho, hb.loc⟩⟩
  | phdrUpdate v =>
    cases v <;> simp [Base.apply, Base.phdrUpdate, asDict, Spec.write, error_bind, ok_bind]
    refine ⟨?_, ⟨dupdate_nodup hb.phdr _, hb.uhdr, hb.loc⟩⟩
    simp only [Base.view, Spec.View.mk.injEq, and_true]
    funext q; rw [dget_dupdate_nodup ho]; rfl
  | uhdrUpdate v =>
    cases v <;> simp [Base.apply, Base.uhdrUpdate, asDict, Spec.write, error_bind, ok_bind]
    refine ⟨?_, ⟨hb.phdr, dupdate_nodup hb.uhdr _, hb.loc⟩⟩
    simp only [Base.view, Spec.View.mk.injEq, and_true, true_and]
    funext q; rw [dget_dupdate_nodup ho]; rfl
  | phdrSetItem k v =>
    simp [Base.apply, Spec.write]
    refine ⟨?_, ⟨dset_nodup hb.phdr _ _, hb.uhdr, hb.loc⟩⟩
    simp only [Base.view, Base.phdrSetItem, Spec.View.mk.injEq, and_true]
    funext q; rw [dget_dset]; rfl
  | phdrDelItem k =>
    simp only [Base.apply, Base.phdrDel, Spec.write]
    have hv : b.view.phdr k = dget b.phdr k := rfl
    rw [hv]
    cases hk : dget b.phdr k with
    | none => simp
    | some w =>
      simp
      refine ⟨?_, ⟨ddel_keysNodup hb.phdr _, hb.uhdr, hb.loc⟩⟩
      simp only [Base.view, Base.phdrDelItem, Spec.View.mk.injEq, and_true]
      funext q; rw [dget_ddel hb.phdr]; rfl
  | setPayload v =>
    cases v <;> simp [Base.apply, Base.setPayload, Spec.write]
    · exact ⟨rfl, ⟨hb.phdr, hb.uhdr, hb.loc⟩⟩
    · exact ⟨rfl, ⟨hb.phdr, hb.uhdr, hb.loc⟩⟩
  | setAad v =>
    cases v <;> simp [Base.apply, Base.setAad, Spec.write]
    exact ⟨rfl, ⟨hb.phdr, hb.uhdr, hb.loc⟩⟩
  | setKey k =>
    cases k <;> simp [Base.apply, Base.setKey, Spec.write]
    · exact ⟨rfl, ⟨hb.phdr, hb.uhdr, hb.loc⟩⟩
    · exact ⟨rfl, ⟨hb.phdr, hb.uhdr, hb.loc⟩⟩
  | setLocal d =>
    simp [Base.apply, Base.setLocal, Spec.write]
    refine ⟨?_, ⟨hb.phdr, hb.uhdr, dupdate_nodup hb.loc _⟩⟩
    simp only [Base.view, Spec.View.mk.injEq, and_true, true_and]
    funext q; rw [dget_dupdate_nodup ho]; rfl

/-! ### Specification of C65 -/

/-- The protected header given to a constructor, as a dictionary, and the encoding that is kept: nothing, a
dictionary, or encoded bytes — not both. -/
inductive Spec.Protected (a : HdrArgs) : Dict → Option Bytes → Prop
  | absent : a.phdr = .none → a.phdrEncoded = .none → Protected a [] none
  | dict {d : Dict} : a.phdr = .map d → a.phdrEncoded = .none → Protected a d none
  | empty : a.phdr = .none → a.phdrEncoded = .bytes [] → Protected a [] (some [])
  | encoded {e : Bytes} {d : Dict} : a.phdr = .none → a.phdrEncoded = .bytes e → e ≠ [] → loads e = .ok (.map d) →
      Protected a d (some e)

/-- The unprotected header given to a constructor. -/
inductive Spec.Unprotected (a : HdrArgs) : Dict → Prop
  | absent : a.uhdr = .none → Unprotected a []
  | dict {d : Dict} : a.uhdr = .map d → Unprotected a d

/-- The Python values that denote the attribute with identifier `c.ident` and full name `n`: the integer (or
Boolean) equal to the identifier, the full name in any letter case, a class with that identifier. -/
def Spec.Denotes (c : Cls) (n : Bytes) : Val → Prop
  | .int i => i = c.ident
  | .bool b => (if b then 1 else 0) = c.ident
  | .text s => upper s = n
  | .cls c' => c'.ident = c.ident
  | _ => False

/-- A value of one of the registries (algorithms, curves, …) as written and as stored: a registered class, or a list
of such values. -/
inductive Spec.AttrArg (r : Reg) : Val → Val → Prop
  | one {c : Cls} {n : Bytes} {v : Val} : (c, n) ∈ registry r → Spec.Denotes c n v → AttrArg r v (.cls c)
  | many {l m : List Val} : l.length = m.length → (∀ (i : Nat) x y, l[i]? = some x → m[i]? = some y → AttrArg r x y) →
      AttrArg r (.arr l) (.arr m)

/-- An algorithm as written and as stored. -/
def Spec.AlgorithmArg : Val → Val → Prop := Spec.AttrArg .alg

/-- The values a header attribute accepts, and what is stored. -/
inductive Spec.ValueArg (C : Crypto) : Cls → Val → Val → Prop
  | algorithm {v w : Val} : Spec.AlgorithmArg v w → ValueArg C Hdr.Algorithm v w
  | critical {l : List Val} : l ≠ [] → (∀ x ∈ l, (∃ i, x = .int i) ∨ (∃ b, x = .bool b) ∨ ∃ s, x = .text s) →
      ValueArg C Hdr.Critical (.arr l) (.arr l)
  | typeNum {i : Int} : 0 ≤ i → ValueArg C Hdr.ContentType (.int i) (.int i)
  | typeBool {b : Bool} : ValueArg C Hdr.ContentType (.bool b) (.bool b)
  | typeText {s : Bytes} : ValueArg C Hdr.ContentType (.text s) (.text s)
  | bytes {c : Cls} {b : Bytes} : c ∈ [Hdr.KID, Hdr.IV, Hdr.PartialIV, Hdr.CounterSignature0, Hdr.KIDContext] →
      ValueArg C c (.bytes b) (.bytes b)
  | key {c : Cls} {v : Val} {k : Key} : c ∈ [Hdr.EphemeralKey, Hdr.StaticKey] → fromDictVal C v = .ok k →
      ValueArg C c v k.toVal
  | other {c : Cls} {v : Val} : c ∉ [Hdr.Algorithm, Hdr.Critical, Hdr.ContentType, Hdr.KID, Hdr.IV, Hdr.PartialIV,
      Hdr.CounterSignature0, Hdr.KIDContext, Hdr.EphemeralKey, Hdr.StaticKey] → ValueArg C c v v

/-- An entry of a header dictionary, as given and as stored. -/
inductive Spec.EntryArg (C : Crypto) (allow : Bool) : Val × Val → Val × Val → Prop
  | registered {c : Cls} {n : Bytes} {k v w : Val} : (c, n) ∈ registry .hdr → Spec.Denotes c n k → Spec.ValueArg C c v w →
      EntryArg C allow (k, v) (.cls c, w)
  | unknown {k v : Val} : allow = true → Spec.UnregisteredLabel k → EntryArg C allow (k, v) (k, v)

/-- A header table holds exactly the last of the entries for each label. -/
def Spec.Holds (t : Val → Option Val) (es : List (Val × Val)) : Prop :=
  ∀ q, t q = (es.reverse.find? fun e => keq e.1 q).map (·.2)

/-! ### Helpers -/

theorem initBase_iff {C : Crypto} {a : HdrArgs} {b : Base} :
    initBase C a = .ok b ↔ ∃ P e U p u, Spec.Protected a P e ∧ Spec.Unprotected a U ∧
      parseHeader C a.allow P = .ok p ∧ parseHeader C a.allow U = .ok u ∧
      b = { phdrEnc := e, phdr := p, uhdr := u, tstr := a.tstr } := by
  have un : ∀ {d : Dict}, UnprotReceived C a.allow a.uhdr d ↔ ∃ U, Spec.Unprotected a U ∧ parseHeader C a.allow U = .ok d := by
    intro d
    constructor
    · intro h
      rcases h.inv with ⟨h1, h2⟩ | ⟨x, h1, h2⟩
      · exact ⟨[], .absent h1, by rw [h2]; rfl⟩
      · exact ⟨x, .dict h1, h2⟩
    · rintro ⟨U, h1, h2⟩
      cases h1 with
      | absent h => rw [h]; simp [parseHeader_nil] at h2; subst h2; exact .absent
      | dict h => rw [h]; exact .full h2
  by_cases hp : a.phdr = .none
  · rw [initBase_enc hp, un]
    constructor
    · rintro ⟨h1, ⟨U, hU, h2⟩, h3⟩
      rcases h1.inv with ⟨e1, e2, e⟩ | ⟨e1, e2, e⟩ | ⟨bs, d, e1, e2, hb, hl, e⟩
      · exact ⟨[], none, U, b.phdr, b.uhdr, .absent hp e1, hU, by rw [e]; rfl, h2, by rw [h3]; simp [e2]⟩
      · exact ⟨[], some [], U, b.phdr, b.uhdr, .empty hp e1, hU, by rw [e]; rfl, h2, by rw [h3]; simp [e2]⟩
      · exact ⟨d, some bs, U, b.phdr, b.uhdr, .encoded hp e1 hb hl, hU, e, h2, by rw [h3]; simp [e2]⟩
    · rintro ⟨P, e, U, p, u, h1, hU, h2, h3, rfl⟩
      refine ⟨?_, ⟨U, hU, h3⟩, rfl⟩
      cases h1 with
      | absent _ h => rw [h]; simp [parseHeader_nil] at h2; subst h2; exact .absent
      | dict h _ => rw [h] at hp; simp at hp
      | empty _ h => rw [h]; simp [parseHeader_nil] at h2; subst h2; exact .empty
      | encoded _ h hb hl => rw [h]; exact .full hb hl h2
  · by_cases hq : a.phdrEncoded = .none
    · rw [initBase_dict hq, un]
      constructor
      · rintro ⟨h1, ⟨U, hU, h2⟩, h3⟩
        rcases h1.inv with ⟨e1, _⟩ | ⟨x, e1, e2⟩
        · exact absurd e1 hp
        · exact ⟨x, none, U, b.phdr, b.uhdr, .dict e1 hq, hU, e2, h2, h3⟩
      · rintro ⟨P, e, U, p, u, h1, hU, h2, h3, rfl⟩
        cases h1 with
        | absent h _ => exact absurd h hp
        | dict h _ => exact ⟨by rw [h]; exact .full h2, ⟨U, hU, h3⟩, rfl⟩
        | empty h _ => exact absurd h hp
        | encoded h _ _ _ => exact absurd h hp
    · constructor
      · intro h; unfold initBase at h; simp [hp, hq] at h
      · rintro ⟨P, e, U, p, u, h1, hU, h2, h3, rfl⟩
        cases h1 with
        | absent h _ => exact absurd h hp
        | dict _ h => exact absurd h hq
        | empty h _ => exact absurd h hp
        | encoded h _ _ _ => exact absurd h hp

theorem initMsg_iff {C : Crypto} {a : HdrArgs} {pl aad : Val} {key : Option Key} {b : Base} :
    initMsg C a pl aad key = .ok b ↔ ∃ b0 p d, initBase C a = .ok b0 ∧ pl = optBytes p ∧ aad = .bytes d ∧
      b = { b0 with payload := p, aad := d, key := key } := by
  refine ⟨initMsg_ok, ?_⟩
  rintro ⟨b0, p, d, h, rfl, rfl, rfl⟩
  unfold initMsg
  rw [h, ok_bind, setPayload_ok.mpr ⟨p, rfl, rfl⟩, ok_bind, setAad_ok.mpr ⟨d, rfl, rfl⟩, ok_bind]

theorem denotes_resolve {r : Reg} {v : Val} {c : Cls} :
    resolve r v = some c ↔ ∃ n, (c, n) ∈ registry r ∧ Spec.Denotes c n v := by
  have hid : ∀ i, lookupId r i = some c ↔ ∃ n, (c, n) ∈ registry r ∧ i = c.ident := by
    intro i
    constructor
    · intro h; obtain ⟨h1, n, h2⟩ := lookupId_some h; exact ⟨n, h2, h1.symm⟩
    · rintro ⟨n, h1, rfl⟩; exact lookupId_mem h1
  cases v <;> simp only [resolve, Spec.Denotes, and_false, exists_false, reduceCtorEq]
  case int i => exact hid i
  case bool b => exact hid _
  case cls c' => exact hid _
  case text s =>
    constructor
    · intro h; obtain ⟨n, h1, h2⟩ := lookupName_some h; exact ⟨n, h1, by rw [← h2, upper_mem h1]⟩
    · rintro ⟨n, h1, h2⟩; rw [h2]; exact lookupName_mem h1

mutual
theorem fromId_attrArg {r : Reg} (v : Val) {w : Val} (h : fromId r v = .ok w) : Spec.AttrArg r v w := by
  cases v
  case arr l =>
    simp only [fromId, bind_eq_ok] at h
    obtain ⟨l', h1, h2⟩ := h
    simp at h2; subst h2
    obtain ⟨h3, h4⟩ := fromIdL_attrArg l h1
    exact .many h3 h4
  all_goals
    simp only [fromId] at h
    split at h <;> simp at h
    rename_i c hc
    subst h
    obtain ⟨n, hn, hd⟩ := denotes_resolve.mp hc
    exact .one hn hd
theorem fromIdL_attrArg {r : Reg} (l : List Val) {w : List Val} (h : fromIdL r l = .ok w) :
    l.length = w.length ∧ ∀ (i : Nat) x y, l[i]? = some x → w[i]? = some y → Spec.AttrArg r x y := by
  cases l with
  | nil => simp [fromIdL] at h; subst h; simp
  | cons v t =>
    simp only [fromIdL, bind_eq_ok] at h
    obtain ⟨a, h1, b, h2, h3⟩ := h
    simp at h3; subst h3
    obtain ⟨h4, h5⟩ := fromIdL_attrArg t h2
    refine ⟨by simp [h4], ?_⟩
    intro i x y hx hy
    cases i with
    | zero => simp at hx hy; subst hx hy; exact fromId_attrArg v h1
    | succ i => exact h5 i x y (by simpa using hx) (by simpa using hy)
end

theorem attrArg_fromId {r : Reg} {v w : Val} (h : Spec.AttrArg r v w) : fromId r v = .ok w := by
  induction h with
  | one hn hd =>
    rename_i c n v
    have hr := denotes_resolve.mpr ⟨n, hn, hd⟩
    cases v <;> simp only [Spec.Denotes] at hd <;> simp only [fromId, hr]
  | many hl hi ih =>
    rename_i l m
    clear hi
    have : fromIdL r l = .ok m := by
      induction l generalizing m with
      | nil => cases m <;> simp_all [fromIdL]
      | cons x t iht =>
        cases m with
        | nil => simp at hl
        | cons y u =>
          have h0 := ih 0 x y (by simp) (by simp)
          have h1 := iht (m := u) (by simpa using hl)
            (fun i x y hx hy => ih (i + 1) x y (by simpa using hx) (by simpa using hy))
          simp [fromIdL, h0, h1]
    simp [fromId, this]

theorem hdrParser_iff {C : Crypto} {c : Cls} (hc : c.reg = .hdr) {v w : Val} :
    hdrParser C c v = .ok w ↔ Spec.ValueArg C c v w := by
  obtain ⟨r, i⟩ := c
  simp only at hc
  subst hc
  by_cases hk : i = -1 ∨ i = -2
  · have hp : hdrParser C ⟨.hdr, i⟩ v = (do let k ← fromDictVal C v; .ok k.toVal) := by
      unfold hdrParser; rw [if_pos ⟨rfl, hk⟩]
    rw [hp]
    constructor
    · intro h
      obtain ⟨k, h1, h2⟩ := bind_eq_ok.mp h
      simp at h2; subst h2
      exact .key (by rcases hk with rfl | rfl <;> simp) h1
    · intro h
      cases h with
      | key _ h => simp [h]
      | algorithm _ => omega
      | critical _ _ => omega
      | typeNum _ => omega
      | typeBool => omega
      | typeText => omega
      | bytes h => simp at h; omega
      | other h => simp at h; omega
  · have hp : hdrParser C ⟨.hdr, i⟩ v = simpleParser ⟨.hdr, i⟩ v := by
      unfold hdrParser; rw [if_neg (by simpa using hk)]
    rw [hp]
    simp only [simpleParser]
    by_cases h1 : i = 1
    · subst h1
      simp only [if_true]
      constructor
      · intro h; exact .algorithm (fromId_attrArg v h)
      · intro h
        cases h with
        | algorithm h => exact attrArg_fromId h
        | bytes h => simp at h
        | key h => simp at h
        | other h => simp at h
    by_cases h2 : i = 2
    · subst h2
      simp only [h1, if_false, if_true]
      constructor
      · intro h
        obtain ⟨l, rfl, rfl, h3, h4⟩ := critIsArray_ok h
        refine .critical h3 fun x hx => ?_
        have := h4 x hx
        cases x <;> simp [isIntOrStr] at this ⊢
      · intro h
        cases h with
        | critical h3 h4 =>
          rename_i l
          have : l.all isIntOrStr = true := by
            rw [List.all_eq_true]; intro x hx
            rcases h4 x hx with ⟨_, rfl⟩ | ⟨_, rfl⟩ | ⟨_, rfl⟩ <;> rfl
          have hl : ¬ l.length < 1 := by cases l <;> simp_all
          simp [critIsArray, this, hl]
        | bytes h => simp at h
        | key h => simp at h
        | other h => simp at h
    by_cases h3 : i = 3
    · subst h3
      simp only [h1, h2, if_false, if_true]
      constructor
      · intro h
        obtain ⟨rfl, h4⟩ := contentType_ok h
        rcases h4 with ⟨j, hj, rfl⟩ | ⟨b, rfl⟩ | ⟨s, rfl⟩
        · exact .typeNum hj
        · exact .typeBool
        · exact .typeText
      · intro h
        cases h with
        | typeNum h => simp [contentType]; omega
        | typeBool => rfl
        | typeText => rfl
        | bytes h => simp at h
        | key h => simp at h
        | other h => simp at h
    by_cases h4 : i = 4 ∨ i = 5 ∨ i = 6 ∨ i = 9 ∨ i = 10
    · simp only [h1, h2, h3, if_false, if_pos h4]
      constructor
      · intro h
        obtain ⟨b, rfl, rfl⟩ := isBstr_ok h
        exact .bytes (by simpa using h4)
      · intro h
        cases h with
        | bytes h => rfl
        | key h => simp at h; omega
        | other h => simp at h; omega
        | algorithm _ => omega
        | critical _ _ => omega
        | typeNum _ => omega
        | typeBool => omega
        | typeText => omega
    · simp only [h1, h2, h3, if_false, if_neg h4, hk]
      constructor
      · intro h
        simp at h; subst h
        refine .other ?_
        simp
        omega
      · intro h
        cases h with
        | bytes h => simp at h; omega
        | key h => simp at h; omega
        | other h => rfl
        | algorithm _ => omega
        | critical _ _ => omega
        | typeNum _ => omega
        | typeBool => omega
        | typeText => omega

/-- A class that is no header class and whose identifier no header has is stored as it is. -/
theorem hdrParser_unregistered {C : Crypto} {c : Cls} (h : lookupId .hdr c.ident = none) (v : Val) :
    hdrParser C c v = .ok v := by
  have hne : ∀ i : Int, (lookupId .hdr i).isSome = true → c.ident ≠ i := by
    rintro i hi rfl; rw [h] at hi; simp at hi
  have h1 := hne 1 (by decide +kernel)
  have h2 := hne 2 (by decide +kernel)
  have h3 := hne 3 (by decide +kernel)
  have h4 := hne 4 (by decide +kernel)
  have h5 := hne 5 (by decide +kernel)
  have h6 := hne 6 (by decide +kernel)
  have h9 := hne 9 (by decide +kernel)
  have h10 := hne 10 (by decide +kernel)
  have hm1 := hne (-1) (by decide +kernel)
  have hm2 := hne (-2) (by decide +kernel)
  unfold hdrParser simpleParser
  simp only [h1, h2, h3, h4, h5, h6, h9, h10, hm1, hm2, or_self, and_false, if_false]
  split <;> rfl

theorem entryArg_iff {C : Crypto} {allow : Bool} {k v a w : Val} :
    Spec.EntryArg C allow (k, v) (a, w) ↔ fromIdKey .hdr k allow = .ok a ∧ parsedVal (hdrParser C) a v = .ok w := by
  constructor
  · intro h
    cases h with
    | registered hn hd hv =>
      rename_i c n
      exact ⟨by simp [fromIdKey, denotes_resolve.mpr ⟨n, hn, hd⟩], (hdrParser_iff (hdr_reg hn)).mpr hv⟩
    | unknown ha hu =>
      have hr := unregistered_iff.mp hu
      refine ⟨by simp [fromIdKey, hr, ha], ?_⟩
      cases k <;> simp only [parsedVal]
      exact hdrParser_unregistered hr v
  · rintro ⟨h1, h2⟩
    rcases fromIdKey_ok h1 with ⟨c, hc, rfl⟩ | ⟨hn, ha, rfl⟩
    · obtain ⟨n, hn, hd⟩ := denotes_resolve.mp hc
      exact .registered hn hd ((hdrParser_iff (hdr_reg hn)).mp h2)
    · have hw : w = v := by
        cases a <;> simp [parsedVal] at h2 <;> try exact h2.symm
        rw [hdrParser_unregistered hn] at h2; simp at h2; exact h2.symm
      subst hw
      exact .unknown ha (unregistered_iff.mpr hn)

theorem parseAttrs_entries {C : Crypto} {allow : Bool} (h : Dict) :
    (∀ acc d, parseAttrs .hdr allow (hdrParser C) acc h = .ok d →
      ∃ es, All2 (Spec.EntryArg C allow) h es ∧ d = dupdate acc es) ∧
    (∀ acc es, All2 (Spec.EntryArg C allow) h es → parseAttrs .hdr allow (hdrParser C) acc h = .ok (dupdate acc es)) := by
  induction h with
  | nil =>
    refine ⟨fun acc d e => ⟨[], .nil, ?_⟩, fun acc es e => ?_⟩
    · simp [parseAttrs] at e; simp [dupdate, e]
    · cases e; simp [parseAttrs, dupdate]
  | cons p t ih =>
    obtain ⟨k, v⟩ := p
    refine ⟨fun acc d e => ?_, fun acc es e => ?_⟩
    · rw [parseAttrs_cons] at e
      simp only [bind_eq_ok] at e
      obtain ⟨a, h1, w, h2, e⟩ := e
      obtain ⟨es, h3, h4⟩ := ih.1 _ _ e
      exact ⟨(a, w) :: es, .cons (entryArg_iff.mpr ⟨h1, h2⟩) h3, h4⟩
    · cases e with
      | cons h1 h2 =>
        rename_i b m
        obtain ⟨a, w⟩ := b
        obtain ⟨h3, h4⟩ := entryArg_iff.mp h1
        rw [parseAttrs_cons, h3, ok_bind, h4, ok_bind]
        exact ih.2 _ _ h2

theorem dget_dupdate_last (d es : Dict) (q : Val) :
    dget (dupdate d es) q = ((es.reverse.find? fun e => keq e.1 q).map (·.2)).or (dget d q) := by
  induction es generalizing d with
  | nil => simp [dupdate]
  | cons p t ih =>
    obtain ⟨k, v⟩ := p
    simp only [dupdate, ih, dget_dset, List.reverse_cons, List.find?_append]
    cases (t.reverse.find? fun e => keq e.1 q) with
    | some x => simp
    | none =>
      by_cases h : keq k q = true <;> simp [List.find?, h]

/-! ### C64 -/

/-- After any sequence of writes, whatever was refused on the way, the object shows exactly what the
accepted writes put there, and each write is refused exactly when its argument has the wrong type (or the
entry to delete is missing). -/
theorem c64_history {b : Base} (hb : Spec.Proper b) (ops : List MsgOp) (ho : ∀ op ∈ ops, Spec.DictArg op) :
    (b.run ops).1.view = (Spec.writes b.view ops).1 ∧ (b.run ops).2 = (Spec.writes b.view ops).2 ∧
    Spec.Proper (b.run ops).1 := by
  induction ops generalizing b with
  | nil => exact ⟨rfl, rfl, hb⟩
  | cons op t ih =>
    obtain ⟨h1, h2⟩ := base_apply_spec hb (ho op (by simp))
    have ht : ∀ op ∈ t, Spec.DictArg op := fun o h => ho o (by simp [h])
    cases hr : b.apply op with
    | ok b' =>
      obtain ⟨hw, hp⟩ := h1 b' hr
      have := ih hp ht
      simp only [Base.run, hr, Spec.writes, hw]
      exact ⟨this.1, by rw [this.2.1], this.2.2⟩
    | error e =>
      have hw := h2 e hr
      have := ih hb ht
      simp only [Base.run, hr, Spec.writes, hw]
      exact ⟨this.1, by rw [this.2.1], this.2.2⟩

/-- Every message made by a constructor or received is a possible start. -/
theorem c64_start {C : Crypto} :
    (∀ {a : HdrArgs} {pl aad : Val} {key : Option Key} {b : Base}, initMsg C a pl aad key = .ok b → Spec.Proper b) ∧
    (∀ {obj rest : List Val} {allow : Bool} {b : Base}, baseFromObj C obj allow = .ok (b, rest) → Spec.Proper b) := by
  have hinit : ∀ {a : HdrArgs} {pl aad : Val} {key : Option Key} {b : Base}, initMsg C a pl aad key = .ok b →
      Spec.Proper b := by
    intro a pl aad key b h
    obtain ⟨⟨d1, e1⟩, ⟨d2, e2⟩⟩ := initMsg_headers h
    refine ⟨parseAttrs_nodup (by simp [KeysNodup]) e1, parseAttrs_nodup (by simp [KeysNodup]) e2, ?_⟩
    obtain ⟨b0, p, d, h0, rfl, rfl, rfl⟩ := initMsg_ok h
    obtain ⟨_, _, _, _, _, _, _, _, _, rfl⟩ := initBase_iff.mp h0
    simp [KeysNodup]
  refine ⟨fun h => hinit h, ?_⟩
  intro obj rest allow b h
  simp only [baseFromObj, bind_eq_ok] at h
  obtain ⟨x, _, y, _, b0, hb0, z, _, b1, hb1, h⟩ := h
  have h0 := hinit hb0
  simp at h
  obtain ⟨rfl, _⟩ := h
  have : b1.phdr = b0.phdr ∧ b1.uhdr = b0.uhdr ∧ b1.localAttrs = b0.localAttrs := by
    revert hb1
    cases z.1 <;> simp [Base.setPayload] <;> (rintro rfl; exact ⟨rfl, rfl, rfl⟩)
  exact ⟨by rw [this.1]; exact h0.phdr, by rw [this.2.1]; exact h0.uhdr, by rw [this.2.2]; exact h0.loc⟩

/-- Reading: `get_attr` sees nothing of an object but the two header tables of the view. -/
theorem c64_get_attr (b : Base) (a default : Val) :
    b.getAttrD a default =
      (if (b.view.phdr a).getD default ≠ .none ∧ (b.view.uhdr a).getD default ≠ .none then .error .coseException
       else if (b.view.phdr a).getD default ≠ .none then .ok ((b.view.phdr a).getD default)
       else .ok ((b.view.uhdr a).getD default)) := rfl

/-- The protected header bytes: those received, as long as the protected header was not assigned or updated
since; else the encoding of the current protected header. -/
theorem c64_phdr_encoded {b : Base} (ops : List MsgOp) :
    (∀ e, b.phdrEnc = some e → (∀ op ∈ ops, (∀ v, op ≠ .setPhdr v) ∧ ∀ v, op ≠ .phdrUpdate v) →
      (b.run ops).1.phdrEncoded = .ok e) ∧
    ((b.phdrEnc = none ∨ ∃ d, .setPhdr (.map d) ∈ ops ∨ .phdrUpdate (.map d) ∈ ops) →
      (b.run ops).1.phdrEncoded =
        if (b.run ops).1.phdr = [] then .ok [] else dumps fullname (.base b.tstr) (.map (b.run ops).1.phdr)) := by
  have enc : ∀ (b : Base) op b', b.apply op = .ok b' →
      b'.tstr = b.tstr ∧ (b.phdrEnc = none → b'.phdrEnc = none) ∧
      (b'.phdrEnc ≠ b.phdrEnc → (∃ v, op = .setPhdr v) ∨ ∃ v, op = .phdrUpdate v) ∧
      ((∃ v, op = .setPhdr v) ∨ (∃ v, op = .phdrUpdate v) → b'.phdrEnc = none) := by
    intro b op b' h
    cases op with
    | setPhdr v =>
      cases v <;> simp [Base.apply, Base.setPhdr, asDict, error_bind, ok_bind] at h
      subst h; simp
    | setUhdr v =>
      cases v <;> simp [Base.apply, Base.setUhdr, asDict, error_bind, ok_bind] at h
      subst h; simp
    | phdrUpdate v =>
      cases v <;> simp [Base.apply, Base.phdrUpdate, asDict, error_bind, ok_bind] at h
      subst h; simp
    | uhdrUpdate v =>
      cases v <;> simp [Base.apply, Base.uhdrUpdate, asDict, error_bind, ok_bind] at h
      subst h; simp
    | phdrSetItem k v => simp [Base.apply, Base.phdrSetItem] at h; subst h; simp
    | phdrDelItem k =>
      simp only [Base.apply, Base.phdrDel] at h
      split at h <;> simp at h
      subst h; simp [Base.phdrDelItem]
    | setPayload v => cases v <;> simp [Base.apply, Base.setPayload] at h <;> (subst h; simp)
    | setAad v => cases v <;> simp [Base.apply, Base.setAad] at h <;> (subst h; simp)
    | setKey k => cases k <;> simp [Base.apply, Base.setKey] at h <;> (subst h; simp)
    | setLocal d => simp [Base.apply, Base.setLocal] at h; subst h; simp
  have htstr : ∀ (ops : List MsgOp) (b : Base), (b.run ops).1.tstr = b.tstr := by
    intro ops
    induction ops with
    | nil => intro b; rfl
    | cons op t ih =>
      intro b
      cases hr : b.apply op with
      | ok b' => simp only [Base.run, hr]; rw [ih, (enc b op b' hr).1]
      | error e => simp only [Base.run, hr]; rw [ih]
  have hnone : ∀ (ops : List MsgOp) (b : Base), b.phdrEnc = none → (b.run ops).1.phdrEnc = none := by
    intro ops
    induction ops with
    | nil => intro b h; exact h
    | cons op t ih =>
      intro b h
      cases hr : b.apply op with
      | ok b' => simp only [Base.run, hr]; exact ih _ ((enc b op b' hr).2.1 h)
      | error e => simp only [Base.run, hr]; exact ih _ h
  constructor
  · intro e he hno
    have : (b.run ops).1.phdrEnc = some e := by
      induction ops generalizing b with
      | nil => exact he
      | cons op t ih =>
        have hop := hno op (by simp)
        have ht : ∀ op ∈ t, (∀ v, op ≠ .setPhdr v) ∧ ∀ v, op ≠ .phdrUpdate v := fun o h => hno o (by simp [h])
        cases hr : b.apply op with
        | ok b' =>
          simp only [Base.run, hr]
          refine ih ?_ ht
          rw [← he]
          refine Classical.byContradiction fun hne => ?_
          rcases (enc b op b' hr).2.2.1 hne with ⟨v, h⟩ | ⟨v, h⟩
          · exact hop.1 v h
          · exact hop.2 v h
        | error e => simp only [Base.run, hr]; exact ih he ht
    simp only [Base.phdrEncoded, this]
  · intro hx
    have : (b.run ops).1.phdrEnc = none := by
      rcases hx with h | ⟨d, h⟩
      · exact hnone _ _ h
      · induction ops generalizing b with
        | nil => simp at h
        | cons op t ih =>
          by_cases hh : op = .setPhdr (.map d) ∨ op = .phdrUpdate (.map d)
          · rcases hh with rfl | rfl
            · simp only [Base.run, Base.apply, Base.setPhdr, asDict, ok_bind]; exact hnone _ _ rfl
            · simp only [Base.run, Base.apply, Base.phdrUpdate, asDict, ok_bind]; exact hnone _ _ rfl
          · have ht : .setPhdr (.map d) ∈ t ∨ .phdrUpdate (.map d) ∈ t := by
              rcases h with h | h
              · rcases List.mem_cons.mp h with h | h
                · exact absurd (.inl h.symm) hh
                · exact .inl h
              · rcases List.mem_cons.mp h with h | h
                · exact absurd (.inr h.symm) hh
                · exact .inr h
            cases hr : b.apply op with
            | ok b' => simp only [Base.run, hr]; exact ih ht
            | error e => simp only [Base.run, hr]; exact ih ht
    simp only [Base.phdrEncoded, this, Base.mode, htstr]
    cases (b.run ops).1.phdr <;> simp

/-- A concrete history: three refused writes, a received header that is replaced, later values win. -/
def Sample.history : List MsgOp :=
  [.setPayload (.text b!"no"), .phdrSetItem (.cls Hdr.KID) (.bytes [1]), .setPayload (.bytes [7]), .setAad .none,
    .phdrUpdate (.map [(.cls Hdr.KID, .bytes [2]), (.cls Hdr.IV, .bytes [3])]), .setKey .other,
    .phdrDelItem (.cls Hdr.IV), .setLocal [(.int 5, .int 6)]]

example : Spec.Proper Sample.sign1.base := ⟨by decide +kernel, by decide +kernel, by decide +kernel⟩
example : ∀ op ∈ Sample.history, Spec.DictArg op := by
  intro op h
  simp [Sample.history] at h
  rcases h with rfl | rfl | rfl | rfl | rfl | rfl | rfl | rfl <;> first | trivial | (simp only [Spec.DictArg]; decide +kernel)
example : (Sample.sign1.base.run Sample.history).2 =
    [some .typeError, none, none, some .typeError, none, some .invalidKey, none, none] ∧
    (Sample.sign1.base.run Sample.history).1.view.phdr (.cls Hdr.KID) = some (.bytes [2]) ∧
    (Sample.sign1.base.run Sample.history).1.view.phdr (.cls Hdr.IV) = none ∧
    (Sample.sign1.base.run Sample.history).1.view.payload = some [7] := by decide +kernel


/-! ### C65 -/

/-- A constructor accepts its arguments exactly when the protected header is given in one form only and is a
dictionary (or encodes one), the unprotected header is a dictionary or absent, every entry of both is
acceptable, the payload is bytes or absent and the external data is bytes. -/
theorem c65_accepts {C : Crypto} {a : HdrArgs} {pl aad : Val} {key : Option Key} :
    (∃ b, initMsg C a pl aad key = .ok b) ↔
      ∃ P e U, Spec.Protected a P e ∧ Spec.Unprotected a U ∧
        (∀ p ∈ P, ∃ q, Spec.EntryArg C a.allow p q) ∧ (∀ p ∈ U, ∃ q, Spec.EntryArg C a.allow p q) ∧
        (pl = .none ∨ ∃ p, pl = .bytes p) ∧ ∃ d, aad = .bytes d := by
  have ent : ∀ {h : Dict}, (∃ d, parseHeader C a.allow h = .ok d) ↔ ∀ p ∈ h, ∃ q, Spec.EntryArg C a.allow p q := by
    intro h
    constructor
    · rintro ⟨d, e⟩
      obtain ⟨es, h1, hd⟩ := (parseAttrs_entries h).1 _ _ e
      clear e hd
      induction h1 with
      | nil => simp
      | cons hr _ ih =>
        intro p hp
        rcases List.mem_cons.mp hp with rfl | hp
        · exact ⟨_, hr⟩
        · exact ih p hp
    · intro hall
      have : ∃ es, All2 (Spec.EntryArg C a.allow) h es := by
        induction h with
        | nil => exact ⟨[], .nil⟩
        | cons p t ih =>
          obtain ⟨q, hq⟩ := hall p (by simp)
          obtain ⟨es, hes⟩ := ih (fun p hp => hall p (by simp [hp]))
          exact ⟨q :: es, .cons hq hes⟩
      obtain ⟨es, hes⟩ := this
      exact ⟨_, (parseAttrs_entries h).2 [] es hes⟩
  constructor
  · rintro ⟨b, h⟩
    obtain ⟨b0, p, d, h0, rfl, rfl, _⟩ := initMsg_iff.mp h
    obtain ⟨P, e, U, ph, uh, h1, h2, h3, h4, _⟩ := initBase_iff.mp h0
    refine ⟨P, e, U, h1, h2, ent.mp ⟨_, h3⟩, ent.mp ⟨_, h4⟩, ?_, d, rfl⟩
    cases p with
    | none => exact .inl rfl
    | some p => exact .inr ⟨p, rfl⟩
  · rintro ⟨P, e, U, h1, h2, h3, h4, h5, d, rfl⟩
    obtain ⟨ph, h3⟩ := ent.mpr h3
    obtain ⟨uh, h4⟩ := ent.mpr h4
    have hb := initBase_iff.mpr ⟨P, e, U, ph, uh, h1, h2, h3, h4, rfl⟩
    rcases h5 with rfl | ⟨p, rfl⟩
    · exact ⟨_, initMsg_iff.mpr ⟨_, none, d, hb, rfl, rfl, rfl⟩⟩
    · exact ⟨_, initMsg_iff.mpr ⟨_, some p, d, hb, rfl, rfl, rfl⟩⟩

/-- What the object then holds. -/
theorem c65_holds {C : Crypto} {a : HdrArgs} {pl aad : Val} {key : Option Key} {b : Base}
    (h : initMsg C a pl aad key = .ok b) :
    ∃ P e U ps us, Spec.Protected a P e ∧ Spec.Unprotected a U ∧
      All2 (Spec.EntryArg C a.allow) P ps ∧ Spec.Holds b.view.phdr ps ∧
      All2 (Spec.EntryArg C a.allow) U us ∧ Spec.Holds b.view.uhdr us ∧
      b.view.received = e ∧ pl = optBytes b.view.payload ∧ aad = .bytes b.view.aad ∧ b.view.key = key ∧
      (∀ q, b.view.loc q = none) ∧ b.tstr = a.tstr := by
  obtain ⟨b0, p, d, h0, rfl, rfl, rfl⟩ := initMsg_iff.mp h
  obtain ⟨P, e, U, ph, uh, h1, h2, h3, h4, rfl⟩ := initBase_iff.mp h0
  obtain ⟨ps, h5, rfl⟩ := (parseAttrs_entries P).1 _ _ h3
  obtain ⟨us, h6, rfl⟩ := (parseAttrs_entries U).1 _ _ h4
  refine ⟨P, e, U, ps, us, h1, h2, h5, ?_, h6, ?_, rfl, rfl, rfl, rfl, fun q => rfl, rfl⟩
  · intro q; simp [Base.view, dget_dupdate_last, dget]
  · intro q; simp [Base.view, dget_dupdate_last, dget]

/-- The entry a given entry is stored as is determined by it. -/
theorem c65_entry_unique {C : Crypto} {allow : Bool} {p q q' : Val × Val} (h : Spec.EntryArg C allow p q)
    (h' : Spec.EntryArg C allow p q') : q = q' := by
  obtain ⟨k, v⟩ := p
  obtain ⟨a, w⟩ := q
  obtain ⟨a', w'⟩ := q'
  obtain ⟨h1, h2⟩ := entryArg_iff.mp h
  obtain ⟨h3, h4⟩ := entryArg_iff.mp h'
  rw [h1] at h3; simp at h3; subst h3
  rw [h2] at h4; simp at h4; subst h4
  rfl

/-- The exceptions for arguments of the wrong form, in the order in which they are checked. -/
theorem c65_refused {C : Crypto} {a : HdrArgs} {pl aad : Val} {key : Option Key} :
    (a.phdr ≠ .none → a.phdrEncoded ≠ .none → initMsg C a pl aad key = .error .valueError) ∧
    (a.phdr ≠ .none → (∀ d, a.phdr ≠ .map d) → a.phdrEncoded = .none → initMsg C a pl aad key = .error .typeError) ∧
    (a.phdr = .none → a.phdrEncoded = .none → a.uhdr ≠ .none → (∀ d, a.uhdr ≠ .map d) →
      initMsg C a pl aad key = .error .typeError) ∧
    (∀ b, initBase C a = .ok b → pl ≠ .none → (∀ p, pl ≠ .bytes p) → initMsg C a pl aad key = .error .typeError) ∧
    (∀ b, initBase C a = .ok b → (pl = .none ∨ ∃ p, pl = .bytes p) → (∀ p, aad ≠ .bytes p) →
      initMsg C a pl aad key = .error .typeError) := by
  refine ⟨?_, ?_, ?_, ?_, ?_⟩
  · intro h1 h2
    simp [initMsg, initBase, h1, h2]
  · intro h1 h2 h3
    have : asDict a.phdr = .error .typeError := by
      cases hp : a.phdr <;> simp_all [asDict]
    simp [initMsg, initBase, h1, h3, this]
  · intro h1 h2 h3 h4
    have : asDict a.uhdr = .error .typeError := by
      cases hp : a.uhdr <;> simp_all [asDict]
    have h0 : asDict (.map []) = .ok [] := rfl
    simp [initMsg, initBase, h1, h2, h3, this, h0]
  · intro b hb h1 h2
    have : b.setPayload pl = .error .typeError := by cases pl <;> simp_all [Base.setPayload]
    simp [initMsg, hb, this]
  · intro b hb h1 h2
    have : ∀ b : Base, b.setAad aad = .error .typeError := by intro b; cases aad <;> simp_all [Base.setAad]
    rcases h1 with rfl | ⟨p, rfl⟩ <;> simp [initMsg, hb, this, Base.setPayload]


/-- A message constructed with aliases, an unknown label and a later value for the same attribute. -/
example : Spec.Protected { phdr := .map [(.text b!"Alg", .text b!"es256"), (.text b!"x", .int 5)] }
    [(.text b!"Alg", .text b!"es256"), (.text b!"x", .int 5)] none := .dict rfl rfl
example : Spec.EntryArg toy true (.text b!"Alg", .text b!"es256") (.cls Hdr.Algorithm, algCls (-7)) :=
  .registered (n := b!"ALG") (by decide +kernel) (by simp only [Spec.Denotes]; decide +kernel)
    (.algorithm (.one (n := b!"ES256") (by decide +kernel) (by simp only [Spec.Denotes]; decide +kernel)))
example : Spec.EntryArg toy true (.text b!"x", .int 5) (.text b!"x", .int 5) :=
  .unknown rfl (by simp only [Spec.UnregisteredLabel]; decide +kernel)
example : initMsg toy { phdr := .map [], phdrEncoded := .bytes [] } .none = .error .valueError := by decide +kernel
example : initMsg toy {} (.text b!"payload") = .error .typeError := by decide +kernel
example : initMsg toy { phdrEncoded := .bytes [0xa1, 4, 0x41, 9] } (.bytes [1]) =
    .ok { phdrEnc := some [0xa1, 4, 0x41, 9], phdr := [(.cls Hdr.KID, .bytes [9])], payload := some [1] } := by decide +kernel

end Cose
