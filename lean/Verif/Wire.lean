import Verif.Props.Header
import Verif.Props.Decode
/-!
# What a receiver reads from a header that was sent

`Spec.HdrSend`: the header map `h` of a sender can be transmitted, and the receiver reads it as `h'`.
For every ordinary header `h' = h`; a COSE key carried as a header arrives as a key object.
-/
set_option autoImplicit false
namespace Cose

/-- A label that is not a registered header and cannot be mistaken for one (e.g. any unregistered
integer or text label): see `foreign_int`, `foreign_text`. -/
structure Spec.ForeignLabel (k : Val) : Prop where
  plain : PyOK k
  unregistered : Spec.UnregisteredLabel k
  apart : ∀ p ∈ registry .hdr, keq k (.int p.1.ident) = false

/-- A value that passes the validation of header `c` (Algorithm and key headers are treated
separately). -/
def Spec.ValidValue (c : Cls) (v : Val) : Prop :=
  if c ∈ [Hdr.KID, Hdr.IV, Hdr.PartialIV, Hdr.KIDContext, Hdr.CounterSignature0] then ∃ b, v = .bytes b
  else if c = Hdr.Critical then
    ∃ l, v = .arr l ∧ l ≠ [] ∧ ∀ x ∈ l, (∃ i, x = .int i) ∨ (∃ b, x = .bool b) ∨ ∃ s, x = .text s
  else if c = Hdr.ContentType then (∃ i : Int, 0 ≤ i ∧ v = .int i) ∨ (∃ b, v = .bool b) ∨ ∃ s, v = .text s
  else True

/-- One header entry as sent and as received.  `tstr` is the sender's `alg_tstr_encoding`, `allow` the
receiver's `allow_unknown_attributes`. -/
inductive Spec.SendEntry (C : Crypto) (tstr allow : Bool) : Val × Val → Val × Val → Prop
  /-- an algorithm (or list of algorithms) -/
  | alg {v : Val} : Spec.AlgorithmValue v → SendEntry C tstr allow (.cls Hdr.Algorithm, v) (.cls Hdr.Algorithm, v)
  /-- any other registered header with a serialisable, valid value -/
  | plain {c : Cls} {n : Bytes} {v : Val} : (c, n) ∈ registry .hdr → c ≠ Hdr.Algorithm → c ≠ Hdr.EphemeralKey →
      c ≠ Hdr.StaticKey → PyOK v → Spec.ValidValue c v → SendEntry C tstr allow (.cls c, v) (.cls c, v)
  /-- a COSE key in a header: the receiver gets the key object made from the transmitted map `w` -/
  | key {c : Cls} {v w : Val} {k : Key} : c = Hdr.EphemeralKey ∨ c = Hdr.StaticKey →
      subst fullname (.base tstr) v = .ok w → PyOK w → fromDictVal C w = .ok k →
      SendEntry C tstr allow (.cls c, v) (.cls c, .key k.kind k.store)
  /-- an unknown header -/
  | foreign {k v : Val} : allow = true → Spec.ForeignLabel k → PyOK v → SendEntry C tstr allow (k, v) (k, v)

/-- The header map `h` is received as `h'`. -/
def Spec.HdrSend (C : Crypto) (tstr allow : Bool) (h h' : Dict) : Prop :=
  KeysNodup h ∧ All2 (Spec.SendEntry C tstr allow) h h'

/-- The headers of a message (signer, recipient) with base `b` are received as `ph` and `uh`.  The
protected header is either encoded afresh or is still the one that was received before.  `tstr` is the
`alg_tstr_encoding` of the message that is sent (the unprotected headers of signers and recipients are
serialised with the message, their protected headers on their own). -/
structure Spec.Sendable (C : Crypto) (tstr allow : Bool) (b : Base) (ph uh : Dict) : Prop where
  prot : (b.phdrEnc = none ∧ Spec.HdrSend C b.tstr allow b.phdr ph) ∨
    ∃ e, b.phdrEnc = some e ∧ ph = b.phdr ∧
      ((e = [] ∧ b.phdr = []) ∨ e ≠ [] ∧ ∃ raw, loads e = .ok (.map raw) ∧ parseHeader C allow raw = .ok b.phdr)
  unprot : Spec.HdrSend C tstr allow b.uhdr uh

/-! ### Labels -/

theorem foreign_int {i : Int} (h : ∀ p ∈ registry .hdr, p.1.ident ≠ i) : Spec.ForeignLabel (.int i) := by
  refine ⟨trivial, h, ?_⟩
  intro p hp
  have := h p hp
  simp [keq, norm]
  exact fun e => this e.symm

theorem foreign_text {s : Bytes} (hv : validUtf8 s = true) (h : ∀ p ∈ registry .hdr, p.2 ≠ upper s) :
    Spec.ForeignLabel (.text s) := by
  refine ⟨by simpa [PyOK] using hv, h, ?_⟩
  intro p _
  simp [keq, norm]

theorem hdr_reg {c : Cls} {n : Bytes} (h : (c, n) ∈ registry .hdr) : c.reg = .hdr := registry_reg (by decide) h
theorem alg_reg {c : Cls} {n : Bytes} (h : (c, n) ∈ registry .alg) : c.reg = .alg := registry_reg (by decide) h
theorem resolve_of_mem {r : Reg} {c : Cls} {n : Bytes} (h : (c, n) ∈ registry r) : resolve r (.int c.ident) = some c :=
  lookupId_mem h

/-! ### Values -/

theorem validValue_parser {C : Crypto} {c : Cls} {v : Val} (hr : c.reg = .hdr) (h1 : c ≠ Hdr.Algorithm)
    (h2 : c ≠ Hdr.EphemeralKey) (h3 : c ≠ Hdr.StaticKey) (h : Spec.ValidValue c v) : hdrParser C c v = .ok v := by
  obtain ⟨r, i⟩ := c
  simp only at hr
  subst hr
  have e1 : i ≠ 1 := by rintro rfl; exact h1 rfl
  have e2 : i ≠ -1 := by rintro rfl; exact h2 rfl
  have e3 : i ≠ -2 := by rintro rfl; exact h3 rfl
  simp only [hdrParser, simpleParser, e1, e2, e3, true_and, or_self, if_false]
  simp only [Spec.ValidValue, Hdr.KID, Hdr.IV, Hdr.PartialIV, Hdr.KIDContext, Hdr.CounterSignature0, Hdr.Critical,
    Hdr.ContentType, List.mem_cons, Cls.mk.injEq, true_and, List.not_mem_nil, or_false] at h
  split
  · rename_i hi
    subst hi
    simp at h
    obtain ⟨l, rfl, hl, h⟩ := h
    have : l.all isIntOrStr = true := by
      rw [List.all_eq_true]
      intro x hx
      rcases h x hx with ⟨_, rfl⟩ | h | ⟨_, rfl⟩
      · rfl
      · rcases h with rfl | rfl <;> rfl
      · rfl
    simp only [critIsArray, this]
    cases l with
    | nil => simp at hl
    | cons a t => simp
  · split
    · rename_i hi
      subst hi
      simp at h
      rcases h with ⟨i, hi, rfl⟩ | h | ⟨s, rfl⟩
      · simp [contentType]; omega
      · rcases h with rfl | rfl <;> rfl
      · rfl
    · split
      · rename_i hi
        rw [if_pos (by omega)] at h
        obtain ⟨b, rfl⟩ := h
        rfl
      · rfl

mutual
theorem algValue_wire (tstr : Bool) (v : Val) (h : Spec.AlgorithmValue v) :
    ∃ w, subst fullname (.base tstr) v = .ok w ∧ PyOK w ∧ fromId .alg w = .ok v := by
  cases v
  case cls c =>
    cases h with
    | one hn =>
      rename_i n
      have hr : c.reg = .alg := alg_reg hn
      simp only [subst, substCls]
      split
      · refine ⟨_, rfl, ?_, ?_⟩
        · simp only [PyOK]; exact fullname_valid (resolve_of_mem hn)
        · simp only [fromId, resolve_fullname (resolve_of_mem hn)]
      · refine ⟨_, rfl, trivial, ?_⟩
        simp only [fromId, resolve_of_mem hn]
  case arr l =>
    cases h with
    | many hl =>
      obtain ⟨w, h1, h2, h3⟩ := algValues_wire tstr l hl
      exact ⟨.arr w, by simp [subst, h1], by simpa [PyOK] using h2, by simp [fromId, h3]⟩
  all_goals cases h
termination_by structural v
theorem algValues_wire (tstr : Bool) (l : List Val) (h : ∀ v ∈ l, Spec.AlgorithmValue v) :
    ∃ w, substL fullname (.base tstr) l = .ok w ∧ PyOKL w ∧ fromIdL .alg w = .ok l := by
  cases l with
  | nil => exact ⟨[], rfl, trivial, rfl⟩
  | cons v t =>
    obtain ⟨w, h1, h2, h3⟩ := algValue_wire tstr v (h v (by simp))
    obtain ⟨ws, h4, h5, h6⟩ := algValues_wire tstr t (fun x hx => h x (List.mem_cons_of_mem _ hx))
    exact ⟨w :: ws, by simp [substL, h1, h4], ⟨h2, h5⟩, by simp [fromIdL, h3, h6]⟩
termination_by structural l
end

/-! ### Entries -/

/-- The label of an entry on the wire. -/
def WireLabel (k k' : Val) : Prop :=
  (∃ c n, (c, n) ∈ registry .hdr ∧ k = .cls c ∧ k' = .int c.ident) ∨ (k' = k ∧ Spec.ForeignLabel k)

theorem sendEntry_wire {C : Crypto} {tstr allow : Bool} {p p' : Val × Val} (h : Spec.SendEntry C tstr allow p p') :
    ∃ q, substQ fullname (.base tstr) p = .ok q ∧ PyOK q.1 ∧ PyOK q.2 ∧ p'.1 = p.1 ∧ WireLabel p.1 q.1 ∧
      fromIdKey .hdr q.1 allow = .ok p'.1 ∧ parsedVal (hdrParser C) p'.1 q.2 = .ok p'.2 := by
  have hcls : ∀ {c : Cls} {n : Bytes}, (c, n) ∈ registry .hdr →
      subst fullname (.base tstr) (.cls c) = .ok (.int c.ident) ∧ fromIdKey .hdr (.int c.ident) allow = .ok (.cls c) := by
    intro c n hc
    have hr : c.reg = .hdr := hdr_reg hc
    refine ⟨by simp [subst, substCls, hr], by simp [fromIdKey, resolve_of_mem hc]⟩
  cases h with
  | alg h =>
    obtain ⟨w, h1, h2, h3⟩ := algValue_wire tstr _ h
    have hc : (Hdr.Algorithm, b!"ALG") ∈ registry .hdr := by decide +kernel
    obtain ⟨e1, e2⟩ := hcls hc
    refine ⟨(.int Hdr.Algorithm.ident, w), by simp only [substQ, e1, h1, ok_bind], trivial, h2, rfl, .inl ⟨_, _, hc, rfl, rfl⟩, e2, ?_⟩
    simp only [parsedVal, hdrParser_alg, h3]
  | plain hc n1 n2 n3 hv hp =>
    obtain ⟨e1, e2⟩ := hcls hc
    refine ⟨(.int _, _), by simp only [substQ, e1, subst_plain _ _ _ hv, ok_bind], trivial, hv, rfl, .inl ⟨_, _, hc, rfl, rfl⟩, e2, ?_⟩
    simp only [parsedVal, validValue_parser (hdr_reg hc) n1 n2 n3 hp]
  | key hc hs hw hk =>
    rename_i c v w k
    have hc' : ∃ n, (c, n) ∈ registry .hdr := by
      rcases hc with rfl | rfl
      · exact ⟨b!"EPHEMERAL_KEY", by decide +kernel⟩
      · exact ⟨b!"STATIC_KEY", by decide +kernel⟩
    obtain ⟨n, hc'⟩ := hc'
    obtain ⟨e1, e2⟩ := hcls hc'
    refine ⟨(.int _, w), by simp only [substQ, e1, hs, ok_bind], trivial, hw, rfl, .inl ⟨_, _, hc', rfl, rfl⟩, e2, ?_⟩
    have hkp : c.reg = .hdr ∧ (c.ident = -1 ∨ c.ident = -2) := by
      rcases hc with rfl | rfl
      · exact ⟨rfl, .inl rfl⟩
      · exact ⟨rfl, .inr rfl⟩
    simp only [parsedVal, hdrParser, hkp, and_self, if_true, hk, ok_bind, Key.toVal]
  | foreign ha hk hv =>
    rename_i k v
    refine ⟨(k, v), by simp only [substQ, subst_plain _ _ _ hk.plain, subst_plain _ _ _ hv, ok_bind], hk.plain, hv, rfl,
      .inr ⟨rfl, hk⟩, ?_, ?_⟩
    · have := unregistered_iff.mp hk.unregistered
      simp [fromIdKey, this, ha]
    · have : ∀ c, k ≠ .cls c := by rintro c rfl; exact hk.plain
      cases k <;> first | rfl | exact absurd rfl (this _)

theorem wireLabel_apart {k1 k2 q1 q2 : Val} (h1 : WireLabel k1 q1) (h2 : WireLabel k2 q2) (h : keq k1 k2 = false) :
    keq q1 q2 = false := by
  rcases h1 with ⟨c1, n1, hc1, rfl, rfl⟩ | ⟨rfl, f1⟩ <;> rcases h2 with ⟨c2, n2, hc2, rfl, rfl⟩ | ⟨rfl, f2⟩
  · have hne : c1 ≠ c2 := by rintro rfl; simp [keq] at h
    have : c1.ident ≠ c2.ident := by
      intro e
      apply hne
      have r1 : c1.reg = .hdr := hdr_reg hc1
      have r2 : c2.reg = .hdr := hdr_reg hc2
      cases c1; cases c2; simp_all
    simpa [keq, norm] using this
  · have := f2.apart _ hc1
    rw [keq_comm]; exact this
  · exact f1.apart _ hc2
  · exact h

theorem parseAttrs_all2 {r : Reg} {allow : Bool} {parse : Cls → Val → Res Val} {w h' : Dict}
    (h : All2 (fun q p' => fromIdKey r q.1 allow = .ok p'.1 ∧ parsedVal parse p'.1 q.2 = .ok p'.2) w h') :
    ∀ {acc : Dict}, KeysNodup (acc ++ h') → parseAttrs r allow parse acc w = .ok (acc ++ h') := by
  induction h with
  | nil => intro acc _; simp [parseAttrs]
  | cons hh _ ih =>
    rename_i q p' _ m _
    intro acc hn
    obtain ⟨k, v⟩ := q
    obtain ⟨k', v'⟩ := p'
    rw [parseAttrs_cons]
    simp only at hh
    rw [hh.1, ok_bind, hh.2, ok_bind]
    have hn' : KeysNodup ((acc ++ [(k', v')]) ++ m) := by simpa using hn
    rw [dset_append_new, ih hn']
    · simp
    · intro p hp
      have := List.pairwise_append.mp hn
      exact this.2.2 p hp (k', v') (by simp)

/-- What arrives for a header map that can be sent. -/
theorem hdrSend_wire {C : Crypto} {tstr allow : Bool} {h h' : Dict} (hs : Spec.HdrSend C tstr allow h h') :
    ∃ w, subst fullname (.base tstr) (.map h) = .ok (.map w) ∧ PyOK (.map w) ∧ parseHeader C allow w = .ok h' := by
  obtain ⟨hn, ha⟩ := hs
  have key : ∃ w, substP fullname (.base tstr) h = .ok w ∧ PyOKP w ∧
      All2 (fun p q => WireLabel p.1 q.1) h w ∧
      All2 (fun q p' => fromIdKey .hdr q.1 allow = .ok p'.1 ∧ parsedVal (hdrParser C) p'.1 q.2 = .ok p'.2) w h' ∧
      h'.map (·.1) = h.map (·.1) := by
    clear hn
    induction ha with
    | nil => exact ⟨[], rfl, trivial, .nil, .nil, rfl⟩
    | cons hh _ ih =>
      obtain ⟨q, h1, h2, h3, h4, h5, h6, h7⟩ := sendEntry_wire hh
      obtain ⟨w, i1, i2, i3, i4, i5⟩ := ih
      refine ⟨q :: w, by simp [substP, h1, i1], ⟨?_, i2⟩, .cons h5 i3, .cons ⟨h6, h7⟩ i4, by simp [h4, i5]⟩
      obtain ⟨a, b⟩ := q
      exact ⟨h2, h3⟩
  obtain ⟨w, h1, h2, h3, h4, h5⟩ := key
  have hw : KeysNodup w := by
    clear h1 h2 h4 h5 ha
    induction h3 with
    | nil => simp [KeysNodup]
    | cons hh hrest ih =>
      rename_i p q l m
      have hn' := List.pairwise_cons.mp hn
      refine List.pairwise_cons.mpr ⟨?_, ih hn'.2⟩
      intro q' hq'
      obtain ⟨i, hi⟩ := List.getElem?_of_mem hq'
      obtain ⟨p', hp', hl⟩ := hrest.get i q' hi
      exact wireLabel_apart hh hl (hn'.1 p' (List.mem_of_getElem? hp'))
  have hn' : KeysNodup h' := by
    have : ∀ {a b : Dict}, b.map (·.1) = a.map (·.1) → KeysNodup a → KeysNodup b := by
      intro a b e h
      have e1 : (b.map (·.1)).Pairwise (fun x y => keq x y = false) := by
        rw [e, List.pairwise_map]; exact h
      rw [List.pairwise_map] at e1
      exact e1
    exact this h5 hn
  refine ⟨w, by simp [subst, h1], ⟨h2, hw⟩, ?_⟩
  have := parseAttrs_all2 h4 (acc := []) (by simpa using hn')
  simpa [parseHeader] using this

/-- Headers that are not COSE keys arrive unchanged. -/
theorem hdrSend_get {C : Crypto} {tstr allow : Bool} {h h' : Dict} (hs : Spec.HdrSend C tstr allow h h') {c : Cls}
    (h1 : c ≠ Hdr.EphemeralKey) (h2 : c ≠ Hdr.StaticKey) : dget h' (.cls c) = dget h (.cls c) := by
  replace hs := hs.2
  induction hs with
  | nil => rfl
  | cons hh _ ih =>
    cases hh with
    | alg _ => simp only [dget, ih]
    | plain _ _ _ _ _ _ => simp only [dget, ih]
    | key hc _ _ _ =>
      rename_i c' _ _ _ _ _ _
      have : keq (.cls c') (.cls c) = false := by
        simp only [keq_cls_cls, decide_eq_false_iff_not]
        rintro rfl
        rcases hc with rfl | rfl
        · exact h1 rfl
        · exact h2 rfl
      simp only [dget, this, ih]; rfl
    | foreign _ _ _ => simp only [dget, ih]

theorem hdrSend_length {C : Crypto} {tstr allow : Bool} {h h' : Dict} (hs : Spec.HdrSend C tstr allow h h') :
    h'.length = h.length := hs.2.length.symm

/-! ### The received header maps -/

theorem loads_nil : ∀ v, loads [] ≠ .ok v := by
  intro v h
  have : loads [] = .error (match loads [] with | .error e => e | .ok _ => .unsupported) := by decide +kernel
  rw [this] at h
  simp at h

theorem sendable_prot {C : Crypto} {tstr allow : Bool} {b : Base} {ph uh : Dict} (h : Spec.Sendable C tstr allow b ph uh)
    {pe : Bytes} (hp : b.phdrEncoded = .ok pe) : ProtReceived C allow (.bytes pe) (some pe) ph := by
  rcases h.prot with ⟨h0, hs⟩ | ⟨e, h0, rfl, h1⟩
  · simp only [Base.phdrEncoded, h0] at hp
    split at hp
    · obtain ⟨w, h1, h2, h3⟩ := hdrSend_wire hs
      have hl := loads_dumps h1 h2 hp []
      rw [List.append_nil] at hl
      refine .full ?_ hl h3
      rintro rfl
      exact loads_nil _ hl
    · rename_i hl
      simp at hp; subst hp
      have : ph = [] := by
        have := hdrSend_length hs
        cases ph with
        | nil => rfl
        | cons _ _ => simp at this; simp [← this] at hl
      subst this
      exact .empty
  · simp only [Base.phdrEncoded, h0] at hp
    simp at hp; subst hp
    rcases h1 with ⟨rfl, h1⟩ | ⟨h1, raw, h2, h3⟩
    · rw [h1]; exact .empty
    · exact .full h1 h2 h3

/-- What `decode` makes of the fields of a message, signer or recipient. -/
def recvBase (pe : Bytes) (ph uh : Dict) (p : Option Bytes) : Base :=
  { phdrEnc := some pe, phdr := ph, uhdr := uh, payload := p }

/-- A value and what arrives for it. -/
def Sent (m : Mode) (v w : Val) : Prop := subst fullname m v = .ok w ∧ PyOK w

theorem sent_plain {m : Mode} {v : Val} (h : PyOK v) : Sent m v v := ⟨subst_plain _ _ _ h, h⟩
theorem sent_bytes {m : Mode} {b : Bytes} : Sent m (.bytes b) (.bytes b) := sent_plain trivial
theorem sent_opt {m : Mode} {p : Option Bytes} : Sent m (optBytes p) (optBytes p) := by
  cases p <;> exact sent_plain trivial

theorem sent_arr {m : Mode} {l l' : List Val} (h : All2 (Sent m) l l') : Sent m (.arr l) (.arr l') := by
  have : substL fullname m l = .ok l' ∧ PyOKL l' := by
    induction h with
    | nil => exact ⟨rfl, trivial⟩
    | cons h _ ih => exact ⟨by simp [substL, h.1, ih.1], h.2, ih.2⟩
  exact ⟨by simp [subst, this.1], this.2⟩

theorem received_base {C : Crypto} {tstr allow : Bool} {b : Base} {ph uh : Dict} (h : Spec.Sendable C tstr allow b ph uh)
    {pe : Bytes} (hp : b.phdrEncoded = .ok pe) :
    ∃ w, Sent (.base tstr) (.map b.uhdr) (.map w) ∧
      ∀ p rest, baseFromObj C (.bytes pe :: .map w :: optBytes p :: rest) allow = .ok (recvBase pe ph uh p, rest) := by
  obtain ⟨w, h1, h2, h3⟩ := hdrSend_wire h.unprot
  refine ⟨w, ⟨h1, h2⟩, ?_⟩
  intro p rest
  refine baseFromObj_iff.mpr ⟨.bytes pe, .map w, rfl, sendable_prot h hp, .full h3, rfl, rfl, rfl, rfl⟩

/-- The tags of COSE messages. -/
theorem finish_loads {b : Base} {t : Nat} {l l' : List Val} {out : Bytes} (ht : (tagKind t).isSome = true)
    (hl : All2 (Sent b.mode) l l') (h : b.finish t true l = .ok out) (r : Bytes) :
    loads (out ++ r) = .ok (.tag t (.arr l')) := by
  have hs := sent_arr hl
  have ht' : t ≠ 2 ∧ t ≠ 3 ∧ t ≠ 55799 ∧ t ∉ semanticTags := by
    have : t = 16 ∨ t = 17 ∨ t = 18 ∨ t = 96 ∨ t = 97 ∨ t = 98 := by
      unfold tagKind at ht
      (repeat' split at ht) <;> simp_all
    rcases this with rfl | rfl | rfl | rfl | rfl | rfl <;> decide +kernel
  simp only [Base.finish, if_true] at h
  exact loads_dumps (w := .tag t (.arr l')) (by rw [subst, hs.1]; rfl) ⟨ht'.1, ht'.2.1, ht'.2.2.1, ht'.2.2.2, hs.2⟩ h r

theorem finish_decode {C : Crypto} {allow : Bool} {b : Base} {t : Nat} {k : MsgKind} {l l' : List Val} {out : Bytes}
    {cls : DecCls} {m : Msg} (ht : tagKind t = some k) (hc : cls.accepts k = true)
    (hl : All2 (Sent b.mode) l l') (h : b.finish t true l = .ok out) (hf : fromObj C k l' allow = .ok m) (r : Bytes) :
    decode C cls allow (out ++ r) = .ok m :=
  decode_iff.mpr ⟨t, l', k, finish_loads (by simp [ht]) hl h r, ht, hf, hc, fromObj_kind hf⟩

/-! ### The receiver authenticates the same bytes -/

theorem sendable_ph_get {C : Crypto} {tstr allow : Bool} {b : Base} {ph uh : Dict} (h : Spec.Sendable C tstr allow b ph uh) {c : Cls}
    (h1 : c ≠ Hdr.EphemeralKey) (h2 : c ≠ Hdr.StaticKey) : dget ph (.cls c) = dget b.phdr (.cls c) := by
  rcases h.prot with ⟨_, hs⟩ | ⟨_, _, rfl, _⟩
  · exact hdrSend_get hs h1 h2
  · rfl

theorem sendable_ph_length {C : Crypto} {tstr allow : Bool} {b : Base} {ph uh : Dict} (h : Spec.Sendable C tstr allow b ph uh) :
    ph.length = b.phdr.length := by
  rcases h.prot with ⟨_, hs⟩ | ⟨_, _, rfl, _⟩
  · exact hdrSend_length hs
  · rfl

/-- `get_attr` gives sender and receiver the same answer. -/
theorem sendable_getAttr {C : Crypto} {tstr allow : Bool} {b b' : Base} {ph uh : Dict} (h : Spec.Sendable C tstr allow b ph uh)
    (e1 : b'.phdr = ph) (e2 : b'.uhdr = uh) {c : Cls}
    (h1 : c ≠ Hdr.EphemeralKey) (h2 : c ≠ Hdr.StaticKey) : b'.getAttr c = b.getAttr c := by
  simp only [Base.getAttr, Base.getAttrD, e1, e2, sendable_ph_get h h1 h2, hdrSend_get h.unprot h1 h2]

theorem sendable_baseStructure {C : Crypto} {tstr allow : Bool} {b b' : Base} {ph uh : Dict} {pe : Bytes}
    (h : Spec.Sendable C tstr allow b ph uh) (hp : b.phdrEncoded = .ok pe)
    (e1 : b'.phdr = ph) (e2 : b'.phdrEnc = some pe) (e3 : b'.aad = b.aad) : b'.baseStructure = b.baseStructure := by
  have hp' : b'.phdrEncoded = .ok pe := by simp [Base.phdrEncoded, e2]
  simp only [Base.baseStructure, e1, e3, hp, hp', sendable_ph_length h]

/-! ### Headers made by the constructors can be sent -/

/-- Header dictionaries as users write them: labels are aliases of registered headers (other than the two
that carry keys) or foreign labels, values are plain data (algorithms may be given in any form). -/
def Spec.PlainArgs (d : Dict) : Prop :=
  ∀ k v, (k, v) ∈ d →
    (∃ c n, (c, n) ∈ registry .hdr ∧ Spec.Alias c n k ∧ c ≠ Hdr.EphemeralKey ∧ c ≠ Hdr.StaticKey ∧
      (c ≠ Hdr.Algorithm → PyOK v)) ∨
    (Spec.ForeignLabel k ∧ PyOK v)

theorem dset_inv {P : Val → Val → Prop} (hc : ∀ k w a w', P k w → P a w' → keq k a = true → P k w')
    {d : Dict} {a w : Val} (hd : ∀ p ∈ d, P p.1 p.2) (hw : P a w) : ∀ p ∈ dset d a w, P p.1 p.2 := by
  induction d with
  | nil => simpa [dset] using hw
  | cons q t ih =>
    obtain ⟨k, v⟩ := q
    simp only [dset]
    split
    · rename_i he
      intro p hp
      rcases List.mem_cons.mp hp with rfl | hp
      · exact hc _ _ _ _ (hd (k, v) (by simp)) hw he
      · exact hd p (List.mem_cons_of_mem _ hp)
    · intro p hp
      rcases List.mem_cons.mp hp with rfl | hp
      · exact hd _ (by simp)
      · exact ih (fun p hp => hd p (List.mem_cons_of_mem _ hp)) p hp

theorem parseAttrs_inv {r : Reg} {allow : Bool} {parse : Cls → Val → Res Val} {P : Val → Val → Prop}
    (hc : ∀ k w a w', P k w → P a w' → keq k a = true → P k w') {d acc h : Dict}
    (hd : ∀ k v a w, (k, v) ∈ d → fromIdKey r k allow = .ok a → parsedVal parse a v = .ok w → P a w)
    (ha : ∀ p ∈ acc, P p.1 p.2) (e : parseAttrs r allow parse acc d = .ok h) : ∀ p ∈ h, P p.1 p.2 := by
  induction d generalizing acc with
  | nil => simp [parseAttrs] at e; subst e; exact ha
  | cons q t ih =>
    obtain ⟨k, v⟩ := q
    rw [parseAttrs_cons] at e
    obtain ⟨a, h1, e⟩ := bind_eq_ok.mp e
    obtain ⟨w, h2, e⟩ := bind_eq_ok.mp e
    exact ih (fun k v a w hm => hd k v a w (List.mem_cons_of_mem _ hm))
      (dset_inv hc ha (hd k v a w (by simp) h1 h2)) e

theorem parser_validValue {C : Crypto} {c : Cls} {v w : Val} (hr : c.reg = .hdr) (h1 : c ≠ Hdr.Algorithm)
    (h2 : c ≠ Hdr.EphemeralKey) (h3 : c ≠ Hdr.StaticKey) (h : hdrParser C c v = .ok w) :
    w = v ∧ Spec.ValidValue c v := by
  obtain ⟨r, i⟩ := c
  simp only at hr
  subst hr
  have e1 : i ≠ 1 := by rintro rfl; exact h1 rfl
  have e2 : i ≠ -1 := by rintro rfl; exact h2 rfl
  have e3 : i ≠ -2 := by rintro rfl; exact h3 rfl
  simp only [hdrParser, simpleParser, e1, e2, e3, true_and, or_self, if_false] at h
  simp only [Spec.ValidValue, Hdr.KID, Hdr.IV, Hdr.PartialIV, Hdr.KIDContext, Hdr.CounterSignature0, Hdr.Critical,
    Hdr.ContentType, List.mem_cons, Cls.mk.injEq, true_and, List.not_mem_nil, or_false]
  split at h
  · rename_i hi
    subst hi
    obtain ⟨l, rfl, rfl, hl, hx⟩ := critIsArray_ok h
    refine ⟨rfl, ?_⟩
    simp only [show ¬ ((2:Int) = 4 ∨ (2:Int) = 5 ∨ (2:Int) = 6 ∨ (2:Int) = 10 ∨ (2:Int) = 9) by decide, if_false, if_true]
    refine ⟨l, rfl, hl, ?_⟩
    intro x hx'
    have := hx x hx'
    cases x <;> simp [isIntOrStr] at this <;> simp
  · split at h
    · rename_i hi
      subst hi
      obtain ⟨rfl, hv⟩ := contentType_ok h
      refine ⟨rfl, ?_⟩
      simp only [show ¬ ((3:Int) = 4 ∨ (3:Int) = 5 ∨ (3:Int) = 6 ∨ (3:Int) = 10 ∨ (3:Int) = 9) by decide, if_false,
        show ¬ ((3:Int) = 2) by decide, if_true]
      exact hv
    · split at h
      · rename_i hi
        obtain ⟨b, rfl, rfl⟩ := isBstr_ok h
        refine ⟨rfl, ?_⟩
        rw [if_pos (by omega)]
        exact ⟨b, rfl⟩
      · rename_i n1 n2 n3
        simp at h
        refine ⟨h.symm, ?_⟩
        rw [if_neg (by omega), if_neg n1, if_neg n2]
        trivial

/-- Parsed headers with plain values arrive as they are. -/
theorem hdrSend_parsed {C : Crypto} {tstr allow : Bool} {d h : Dict} (hd : Spec.PlainArgs d)
    (e : parseHeader C allow d = .ok h) : Spec.HdrSend C tstr allow h h := by
  refine ⟨parseAttrs_nodup (by simp [KeysNodup]) e, ?_⟩
  have key := parseAttrs_inv (P := fun k v => Spec.SendEntry C tstr allow (k, v) (k, v)) ?_ ?_ (by simp) e
  · clear e hd
    induction h with
    | nil => exact .nil
    | cons p t ih => exact .cons (key p (by simp)) (ih (fun p hp => key p (List.mem_cons_of_mem _ hp)))
  · intro k w a w' h1 h2 he
    by_cases hk : ∃ c, k = .cls c
    · obtain ⟨c, rfl⟩ := hk
      rw [keq_cls_left] at he; subst he; exact h2
    · have ha : ¬ ∃ c, a = .cls c := by
        rintro ⟨c, rfl⟩
        rw [keq_cls_right] at he
        exact hk ⟨c, he⟩
      cases h1 with
      | foreign ha' hf _ =>
        cases h2 with
        | foreign _ _ hv => exact .foreign ha' hf hv
        | alg _ => exact absurd ⟨_, rfl⟩ ha
        | plain _ _ _ _ _ _ => exact absurd ⟨_, rfl⟩ ha
        | key _ _ _ _ => exact absurd ⟨_, rfl⟩ ha
      | alg _ => exact absurd ⟨_, rfl⟩ hk
      | plain _ _ _ _ _ _ => exact absurd ⟨_, rfl⟩ hk
      | key _ _ _ _ => exact absurd ⟨_, rfl⟩ hk
  · intro k v a w hm h1 h2
    rcases hd k v hm with ⟨c, n, hc, hal, n1, n2, hv⟩ | ⟨hf, hv⟩
    · simp only [fromIdKey, alias_resolve hc hal] at h1
      simp at h1; subst h1
      simp only [parsedVal] at h2
      by_cases hA : c = Hdr.Algorithm
      · subst hA
        rw [hdrParser_alg] at h2
        exact .alg (fromId_algValue v h2)
      · obtain ⟨rfl, hvv⟩ := parser_validValue (hdr_reg hc) hA n1 n2 h2
        exact .plain hc hA n1 n2 (hv hA) hvv
    · have hr := unregistered_iff.mp hf.unregistered
      simp only [fromIdKey, hr] at h1
      split at h1 <;> simp at h1
      rename_i ha
      subst h1
      have : parsedVal (hdrParser C) k v = .ok v := by
        have : ∀ c, k ≠ .cls c := by rintro c rfl; exact hf.plain
        cases k <;> first | rfl | exact absurd rfl (this _)
      rw [this] at h2
      simp at h2; subst h2
      exact .foreign ha hf hv

/-- Messages made by the constructors from plain headers can be sent, and every header arrives as
`phdr` and `uhdr` show it. -/
theorem sendable_constructed {C : Crypto} {a : HdrArgs} {d e : Dict} {pl aad : Val} {key : Option Key} {b : Base}
    (hp : a.phdrEncoded = .none) (h1 : a.phdr = .map d) (h2 : a.uhdr = .map e) (hd : Spec.PlainArgs d)
    (he : Spec.PlainArgs e) (h : initMsg C a pl aad key = .ok b) (tstr : Bool) :
    Spec.Sendable C tstr a.allow b b.phdr b.uhdr := by
  obtain ⟨b0, p, x, h0, rfl, rfl, rfl⟩ := initMsg_ok h
  obtain ⟨u1, u2, u3⟩ := (initBase_dict hp).mp h0
  rw [h1] at u1; rw [h2] at u2
  rcases u1.inv with ⟨h, _⟩ | ⟨_, h, u1⟩
  · simp at h
  simp at h; subst h
  rcases u2.inv with ⟨h, _⟩ | ⟨_, h, u2⟩
  · simp at h
  simp at h; subst h
  refine ⟨.inl ⟨by rw [u3], hdrSend_parsed hd u1⟩, hdrSend_parsed he u2⟩

end Cose
