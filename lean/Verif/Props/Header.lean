import Verif.DecodeLemmas
import Verif.Props.Registry
import Verif.Props.Samples
/-!
# C22–C26 — header parsing and header lookup
-/
set_option autoImplicit false
namespace Cose

/-! ### Specification -/

/-- The ways to write a registered attribute `c` with full name `n`: its integer identifier, its class,
its full name in any letter case. -/
inductive Spec.Alias (c : Cls) (n : Bytes) : Val → Prop
  | ident : Alias c n (.int c.ident)
  | cls : Alias c n (.cls c)
  | name {s : Bytes} : Spec.CaseVariant s n → Alias c n (.text s)

/-- A label that names no registered header: an integer that is no identifier, a text that is no
name (whatever the letter case), or any other value that is not a class. -/
def Spec.UnregisteredLabel : Val → Prop
  | .int i => ∀ p ∈ registry .hdr, p.1.ident ≠ i
  | .bool b => ∀ p ∈ registry .hdr, p.1.ident ≠ if b then 1 else 0
  | .text s => ∀ p ∈ registry .hdr, p.2 ≠ upper s
  | .cls c => ∀ p ∈ registry .hdr, p.1.ident ≠ c.ident
  | _ => True

/-- Header values allowed in a validated header map. -/
structure Spec.ValidHeader (d : Dict) : Prop where
  kid : ∀ v, dget d (.cls Hdr.KID) = some v → ∃ b, v = .bytes b
  iv : ∀ v, dget d (.cls Hdr.IV) = some v → ∃ b, v = .bytes b
  partialIv : ∀ v, dget d (.cls Hdr.PartialIV) = some v → ∃ b, v = .bytes b
  kidContext : ∀ v, dget d (.cls Hdr.KIDContext) = some v → ∃ b, v = .bytes b
  counterSign0 : ∀ v, dget d (.cls Hdr.CounterSignature0) = some v → ∃ b, v = .bytes b
  critical : ∀ v, dget d (.cls Hdr.Critical) = some v →
    ∃ l, v = .arr l ∧ l ≠ [] ∧ ∀ x ∈ l, (∃ i, x = .int i) ∨ (∃ b, x = .bool b) ∨ ∃ s, x = .text s
  contentType : ∀ v, dget d (.cls Hdr.ContentType) = some v →
    (∃ i : Int, 0 ≤ i ∧ v = .int i) ∨ (∃ b, v = .bool b) ∨ ∃ s, v = .text s

/-- An algorithm value: a registered algorithm class, or a list of algorithm values. -/
inductive Spec.AlgorithmValue : Val → Prop
  | one {c : Cls} {n : Bytes} : (c, n) ∈ registry .alg → AlgorithmValue (.cls c)
  | many {l : List Val} : (∀ v ∈ l, AlgorithmValue v) → AlgorithmValue (.arr l)

/-! ### Helpers -/

theorem unregistered_iff {v : Val} : Spec.UnregisteredLabel v ↔ resolve .hdr v = none := by
  have hid : ∀ i, (∀ p ∈ registry .hdr, p.1.ident ≠ i) ↔ lookupId .hdr i = none := by
    intro i
    simp [lookupId]
  have hnm : ∀ s, (∀ p ∈ registry .hdr, p.2 ≠ s) ↔ lookupName .hdr s = none := by
    intro s
    simp only [lookupName, Option.map_eq_none_iff, List.find?_eq_none, List.mem_reverse, beq_iff_eq]
    constructor
    · intro h p hp e; exact h p hp (by rw [← e]; exact (upper_mem (c := p.1) (n := p.2) hp).symm)
    · intro h p hp e; exact h p hp (by rw [← e]; exact upper_mem (c := p.1) (n := p.2) hp)
  cases v <;> simp only [Spec.UnregisteredLabel, resolve] <;> first | exact hid _ | exact hnm _

theorem alias_resolve {r : Reg} {c : Cls} {n : Bytes} (hc : (c, n) ∈ registry r) {v : Val}
    (h : Spec.Alias c n v) : resolve r v = some c := by
  cases h with
  | ident => exact lookupId_mem hc
  | cls => exact lookupId_mem hc
  | name hs => simp only [resolve, hs.upper (ascii_mem hc), upper_mem hc, lookupName_mem hc]

theorem parsed_get {C : Crypto} {allow : Bool} {h d : Dict} (e : parseHeader C allow h = .ok d) {c : Cls} {v : Val}
    (hv : dget d (.cls c) = some v) : ∃ w, hdrParser C c w = .ok v := by
  rcases parseAttrs_get e c with ⟨_, hg⟩ | ⟨_, _, w, _, x, _, _, hp, _, hg⟩
  · rw [hv] at hg; simp [dget] at hg
  · rw [hv] at hg; simp at hg; subst hg; exact ⟨w, hp⟩

theorem validHeader_of_parsed {C : Crypto} {allow : Bool} {d : Dict} (h : Parsed C allow d) : Spec.ValidHeader d := by
  obtain ⟨h, e⟩ := h
  have get : ∀ (c : Cls) v, ¬ isKeyHdr c → dget d (.cls c) = some v → ∃ w, simpleParser c w = .ok v := by
    intro c v hk hv
    obtain ⟨w, hw⟩ := parsed_get e hv
    exact ⟨w, by rw [← hdrParser_simple hk]; exact hw⟩
  have bs : ∀ (c : Cls) v, ¬ isKeyHdr c → (∀ w, simpleParser c w = isBstr w) → dget d (.cls c) = some v →
      ∃ b, v = .bytes b := by
    intro c v hk hs hv
    obtain ⟨w, hw⟩ := get c v hk hv
    rw [hs] at hw
    obtain ⟨b, _, hb⟩ := isBstr_ok hw
    exact ⟨b, hb⟩
  refine ⟨?_, ?_, ?_, ?_, ?_, ?_, ?_⟩
  · intro v; exact bs _ v (by decide) (fun w => by simp [simpleParser])
  · intro v; exact bs _ v (by decide) (fun w => by simp [simpleParser])
  · intro v; exact bs _ v (by decide) (fun w => by simp [simpleParser])
  · intro v; exact bs _ v (by decide) (fun w => by simp [simpleParser])
  · intro v; exact bs _ v (by decide) (fun w => by simp [simpleParser])
  · intro v hv
    obtain ⟨w, hw⟩ := get _ v (by decide) hv
    have : critIsArray w = .ok v := by simpa [simpleParser] using hw
    obtain ⟨l, _, rfl, h1, h2⟩ := critIsArray_ok this
    refine ⟨l, rfl, h1, ?_⟩
    intro x hx
    have := h2 x hx
    cases x <;> simp [isIntOrStr] at this ⊢
  · intro v hv
    obtain ⟨w, hw⟩ := get _ v (by decide) hv
    have : contentType w = .ok v := by simpa [simpleParser] using hw
    obtain ⟨rfl, h2⟩ := contentType_ok this
    exact h2

mutual
theorem fromId_algValue (v : Val) {w : Val} (h : fromId .alg v = .ok w) : Spec.AlgorithmValue w := by
  cases v
  case arr l =>
    simp only [fromId, bind_eq_ok] at h
    obtain ⟨l', h1, h2⟩ := h
    simp at h2; subst h2
    exact .many (fromIdL_algValue l h1)
  all_goals
    simp only [fromId] at h
    split at h <;> simp at h
    rename_i c hc
    subst h
    obtain ⟨_, n, hn⟩ := resolve_some hc
    exact .one hn
theorem fromIdL_algValue (l : List Val) {w : List Val} (h : fromIdL .alg l = .ok w) :
    ∀ x ∈ w, Spec.AlgorithmValue x := by
  cases l with
  | nil => simp [fromIdL] at h; subst h; simp
  | cons v t =>
    simp only [fromIdL, bind_eq_ok] at h
    obtain ⟨a, h1, b, h2, h3⟩ := h
    simp at h3; subst h3
    intro x hx
    rcases List.mem_cons.mp hx with rfl | hx
    · exact fromId_algValue v h1
    · exact fromIdL_algValue t h2 x hx
end

theorem hdrParser_alg {C : Crypto} {w : Val} : hdrParser C Hdr.Algorithm w = fromId .alg w := by
  rw [hdrParser_simple (by decide)]; simp [simpleParser]

theorem algValue_of_parsed {C : Crypto} {allow : Bool} {d : Dict} (h : Parsed C allow d) {v : Val}
    (hv : dget d (.cls Hdr.Algorithm) = some v) : Spec.AlgorithmValue v := by
  obtain ⟨h, e⟩ := h
  obtain ⟨w, hw⟩ := parsed_get e hv
  rw [hdrParser_alg] at hw
  exact fromId_algValue w hw

theorem parseAttrs_error {r : Reg} {allow : Bool} {parse : Cls → Val → Res Val} {acc d1 d2 acc' : Dict} {k v : Val}
    {e : PyErr} (h1 : parseAttrs r allow parse acc d1 = .ok acc')
    (h2 : (do let a ← fromIdKey r k allow; parsedVal parse a v) = .error e) :
    parseAttrs r allow parse acc (d1 ++ (k, v) :: d2) = .error e := by
  rw [parseAttrs_append, h1, ok_bind, parseAttrs_cons]
  rcases bind_eq_error.mp h2 with h | ⟨a, h, h'⟩
  · rw [h]; rfl
  · rw [h, ok_bind, h']; rfl

theorem parseAttrs_not_ok {r : Reg} {allow : Bool} {parse : Cls → Val → Res Val} {acc d h : Dict} {k v : Val}
    (hm : (k, v) ∈ d) (he : ∀ w, (do let a ← fromIdKey r k allow; parsedVal parse a v) ≠ .ok w) :
    parseAttrs r allow parse acc d ≠ .ok h := by
  obtain ⟨d1, d2, rfl⟩ := List.append_of_mem hm
  rw [parseAttrs_append]
  intro hh
  obtain ⟨acc', _, hh⟩ := bind_eq_ok.mp hh
  rw [parseAttrs_cons] at hh
  simp only [bind_eq_ok] at hh
  obtain ⟨a, h1, w, h2, _⟩ := hh
  exact he w (by rw [h1]; exact h2)

/-! ### C22 — unknown attributes -/

/-- With `allow_unknown_attributes=False`, a header map with an unregistered label is rejected; if all
entries before it are fine, by a `CoseException`. -/
theorem c22_unknown_rejected {C : Crypto} {k v : Val} (hk : Spec.UnregisteredLabel k) :
    (∀ h d, (k, v) ∈ h → parseHeader C false h ≠ .ok d) ∧
    (∀ h1 h2 d, parseHeader C false h1 = .ok d → parseHeader C false (h1 ++ (k, v) :: h2) = .error .coseException) := by
  have hr := unregistered_iff.mp hk
  have hf : (do let a ← fromIdKey .hdr k false; parsedVal (hdrParser C) a v) = .error .coseException := by
    simp [fromIdKey, hr]
  refine ⟨?_, ?_⟩
  · intro h d hm
    exact parseAttrs_not_ok hm (by intro w; rw [hf]; simp)
  · intro h1 h2 d hd
    exact parseAttrs_error hd hf

/-- … hence such a message is not accepted: no header map of a message decoded with
`allow_unknown_attributes=False` has an unregistered label. -/
theorem c22_decode_registered_only {C : Crypto} {cls : DecCls} {bs : Bytes} {m : Msg}
    (h : decode C cls false bs = .ok m) :
    ∀ d ∈ m.headerMaps, ∀ p ∈ d, ∃ c n, p.1 = .cls c ∧ (c, n) ∈ registry .hdr := by
  intro d hd p hp
  obtain ⟨h0, e⟩ := decode_parsed h d hd
  obtain ⟨h1, _⟩ := parseAttrs_parsed (by simp) e p hp
  rcases fromIdKey_ok h1 with ⟨c, hc, hpc⟩ | ⟨_, hf, _⟩
  · obtain ⟨_, n, hn⟩ := resolve_some hc
    exact ⟨c, n, hpc, hn⟩
  · simp at hf

/-- … and the same for messages made by the constructors with `allow_unknown_attributes=False`. -/
theorem c22_construct_registered_only {C : Crypto} {a : HdrArgs} {pl aad : Val} {key : Option Key} {b : Base}
    (ha : a.allow = false) (h : initMsg C a pl aad key = .ok b) :
    ∀ p, p ∈ b.phdr ∨ p ∈ b.uhdr → ∃ c n, p.1 = .cls c ∧ (c, n) ∈ registry .hdr := by
  obtain ⟨⟨d1, e1⟩, ⟨d2, e2⟩⟩ := initMsg_headers h
  rw [ha] at e1 e2
  have aux : ∀ {d0 d : Dict}, parseHeader C false d0 = .ok d → ∀ p ∈ d, ∃ c n, p.1 = .cls c ∧ (c, n) ∈ registry .hdr := by
    intro d0 d e p hp
    obtain ⟨h1, _⟩ := parseAttrs_parsed (by simp) e p hp
    rcases fromIdKey_ok h1 with ⟨c, hc, hpc⟩ | ⟨_, hf, _⟩
    · obtain ⟨_, n, hn⟩ := resolve_some hc
      exact ⟨c, n, hpc, hn⟩
    · simp at hf
  intro p hp
  rcases hp with hp | hp
  · exact aux e1 p hp
  · exact aux e2 p hp

/-- With `allow_unknown_attributes=True` an entry with an unregistered label that is not overwritten by
a later equal label is kept, with its value unchanged. -/
theorem c22_unknown_kept {C : Crypto} {h1 h2 d : Dict} {k v : Val} (hk : Spec.UnregisteredLabel k)
    (hnc : ∀ c, k ≠ .cls c)
    (hlast : ∀ p ∈ h2, keq p.1 k = false)
    (h : parseHeader C true (h1 ++ (k, v) :: h2) = .ok d) : dget d k = some v := by
  have hr := unregistered_iff.mp hk
  unfold parseHeader at h
  rw [parseAttrs_append] at h
  replace h := bind_eq_ok.mp h
  obtain ⟨acc', _, h⟩ := h
  rw [parseAttrs_cons] at h
  have hf : fromIdKey .hdr k true = .ok k := by simp [fromIdKey, hr]
  have hp : parsedVal (hdrParser C) k v = .ok v := by
    cases k <;> first | rfl | exact absurd rfl (hnc _)
  rw [hf, ok_bind, hp, ok_bind] at h
  clear hf hp
  have hg : dget (dset acc' k v) k = some v := dget_dset_same _ _ _
  generalize dset acc' k v = acc at h hg
  induction h2 generalizing acc with
  | nil => simp [parseAttrs] at h; subst h; exact hg
  | cons p t ih =>
    obtain ⟨x, y⟩ := p
    rw [parseAttrs_cons] at h
    simp only [bind_eq_ok] at h
    obtain ⟨a, h1, w, _, h2⟩ := h
    refine ih (fun p hp => hlast p (List.mem_cons_of_mem _ hp)) _ h2 ?_
    rw [dget_dset_other, hg]
    rcases fromIdKey_ok h1 with ⟨c, hc, rfl⟩ | ⟨_, _, rfl⟩
    · rw [Bool.eq_false_iff]
      intro hkk
      exact hnc c (keq_cls_left.mp hkk)
    · exact hlast (a, y) (by simp)

/-- Nothing is invented: every label of a parsed header map is a registered class denoted by some label
of the input, or a label of the input. -/
theorem c22_nothing_invented {C : Crypto} {allow : Bool} {h d : Dict} (e : parseHeader C allow h = .ok d) :
    ∀ p ∈ d, (∃ q ∈ h, q.1 = p.1) ∨ ∃ q ∈ h, ∃ c, resolve .hdr q.1 = some c ∧ p.1 = .cls c := by
  have aux : ∀ (h acc d : Dict), parseAttrs .hdr allow (hdrParser C) acc h = .ok d →
      ∀ p ∈ d, (∃ q ∈ acc, q.1 = p.1) ∨ (∃ q ∈ h, q.1 = p.1) ∨ ∃ q ∈ h, ∃ c, resolve .hdr q.1 = some c ∧ p.1 = .cls c := by
    intro h
    induction h with
    | nil => intro acc d e p hp; simp [parseAttrs] at e; subst e; exact .inl ⟨p, hp, rfl⟩
    | cons q t ih =>
      obtain ⟨k, v⟩ := q
      intro acc d e p hp
      rw [parseAttrs_cons] at e
      simp only [bind_eq_ok] at e
      obtain ⟨a, h1, w, _, h2⟩ := e
      rcases ih _ _ h2 p hp with ⟨q, hq, e⟩ | ⟨q, hq, e⟩ | ⟨q, hq, c, e⟩
      · have : (∃ q' ∈ acc, q'.1 = q.1) ∨ q.1 = a := by
          clear ih h2 hp e
          induction acc with
          | nil => simp [dset] at hq; subst hq; exact .inr rfl
          | cons x s ihs =>
            simp only [dset] at hq
            split at hq
            · rcases List.mem_cons.mp hq with rfl | hq
              · exact .inl ⟨x, by simp, rfl⟩
              · exact .inl ⟨q, List.mem_cons_of_mem _ hq, rfl⟩
            · rcases List.mem_cons.mp hq with rfl | hq
              · exact .inl ⟨x, by simp, rfl⟩
              · rcases ihs hq with ⟨q', hq', e⟩ | e
                · exact .inl ⟨q', List.mem_cons_of_mem _ hq', e⟩
                · exact .inr e
        rcases this with ⟨q', hq', e'⟩ | e'
        · exact .inl ⟨q', hq', by rw [e', e]⟩
        · rcases fromIdKey_ok h1 with ⟨c, hc, rfl⟩ | ⟨_, _, rfl⟩
          · exact .inr (.inr ⟨(k, v), by simp, c, hc, by rw [← e, e']⟩)
          · exact .inr (.inl ⟨(a, v), by simp, by rw [← e, e']⟩)
      · exact .inr (.inl ⟨q, List.mem_cons_of_mem _ hq, e⟩)
      · exact .inr (.inr ⟨q, List.mem_cons_of_mem _ hq, c, e⟩)
  intro p hp
  rcases aux h [] d e p hp with ⟨q, hq, _⟩ | h | h
  · simp at hq
  · exact .inl h
  · exact .inr h

example : Spec.UnregisteredLabel (.text b!"reserved2") ∧ Spec.UnregisteredLabel (.int 8) := by
  constructor <;> rw [unregistered_iff] <;> decide +kernel
example : parseHeader toy true [(.int 1, .int (-7)), (.text b!"x", .int 3)] =
    .ok [(.cls Hdr.Algorithm, algCls (-7)), (.text b!"x", .int 3)] := by decide +kernel
example : parseHeader toy false [(.int 1, .int (-7)), (.text b!"x", .int 3)] = .error .coseException := by
  decide +kernel

/-! ### C23 — aliases -/

/-- Labels: writing an attribute in another way does not change what a header map means. -/
theorem c23_label_alias {C : Crypto} {allow : Bool} {c : Cls} {n : Bytes} (hc : (c, n) ∈ registry .hdr)
    {k k' : Val} (hk : Spec.Alias c n k) (hk' : Spec.Alias c n k') (h1 h2 : Dict) (v : Val) :
    parseHeader C allow (h1 ++ (k, v) :: h2) = parseHeader C allow (h1 ++ (k', v) :: h2) := by
  unfold parseHeader
  simp only [parseAttrs_append, parseAttrs_cons, fromIdKey, alias_resolve hc hk, alias_resolve hc hk']

/-- Algorithm values: likewise. -/
theorem c23_algorithm_alias {C : Crypto} {allow : Bool} {c : Cls} {n : Bytes} (hc : (c, n) ∈ registry .alg)
    {v v' : Val} (hv : Spec.Alias c n v) (hv' : Spec.Alias c n v') {k : Val}
    (hk : Spec.Alias Hdr.Algorithm b!"ALG" k) (h1 h2 : Dict) :
    parseHeader C allow (h1 ++ (k, v) :: h2) = parseHeader C allow (h1 ++ (k, v') :: h2) := by
  have hr : ∀ {v}, Spec.Alias c n v → fromId .alg v = .ok (.cls c) := by
    intro v hv
    have := alias_resolve hc hv
    cases hv <;> simp only [fromId, this]
  have hk' := alias_resolve (r := .hdr) (by decide +kernel) hk
  unfold parseHeader
  simp only [parseAttrs_append, parseAttrs_cons, fromIdKey, hk', ok_bind, parsedVal, hdrParser_alg, hr hv, hr hv']

/-- The value an attribute has after parsing is the parsed value of the last entry that denotes it,
whatever aliases occur before. -/
theorem c23_last_wins {C : Crypto} {allow : Bool} {c : Cls} {n : Bytes} (hc : (c, n) ∈ registry .hdr)
    {k v : Val} (hk : Spec.Alias c n k) {h1 h2 d : Dict} (hlast : ∀ p ∈ h2, resolve .hdr p.1 ≠ some c)
    (e : parseHeader C allow (h1 ++ (k, v) :: h2) = .ok d) :
    ∃ w, hdrParser C c v = .ok w ∧ dget d (.cls c) = some w := by
  have hkr := alias_resolve hc hk
  unfold parseHeader at e
  rw [parseAttrs_append] at e
  obtain ⟨acc, _, e⟩ := bind_eq_ok.mp e
  rcases parseAttrs_get e c with ⟨h, _⟩ | ⟨d1, k', v', d2, w, hd, hf, hp, _, hg⟩
  · exact absurd hkr (h (k, v) (by simp)).1
  · cases d1 with
    | nil => simp at hd; obtain ⟨⟨rfl, rfl⟩, rfl⟩ := hd; exact ⟨w, hp, hg⟩
    | cons x t =>
      simp at hd
      obtain ⟨_, rfl⟩ := hd
      have hk2 := hlast (k', v') (by simp)
      rcases fromIdKey_ok hf with ⟨c', hc', e'⟩ | ⟨hn, _, e'⟩
      · simp at e'; subst e'; exact absurd hc' hk2
      · subst e'; simp only [resolve, lookupId_mem hc] at hn; simp at hn

/-- Parsing is idempotent on header maps without a key-valued header (EphemeralKey, StaticKey). -/
theorem c23_idempotent {C : Crypto} {allow : Bool} {h d : Dict} (e : parseHeader C allow h = .ok d)
    (hk : dget d (.cls Hdr.EphemeralKey) = none ∧ dget d (.cls Hdr.StaticKey) = none) :
    parseHeader C allow d = .ok d := by
  have hn : KeysNodup d := parseAttrs_nodup (by simp [KeysNodup]) e
  have hp := parseAttrs_parsed (by simp) e
  have := parseAttrs_fix (r := .hdr) (allow := allow) (parse := hdrParser C) (acc := []) (d := d) (by simpa using hn) ?_
  · simpa [parseHeader] using this
  · intro p hpd
    obtain ⟨h1, h2⟩ := hp p hpd
    refine ⟨h1, ?_⟩
    obtain ⟨k, v⟩ := p
    cases k <;> try rfl
    rename_i c
    obtain ⟨w, hw⟩ := h2 c rfl
    refine hdrParser_idem ?_ hw
    rintro ⟨hr, hi⟩
    have hg : dget d (.cls c) = some v := mem_dget hn hpd (by simp)
    obtain ⟨r, i⟩ := c
    simp only at hr hi
    subst hr
    rcases hi with rfl | rfl
    · rw [hk.1] at hg; simp at hg
    · rw [hk.2] at hg; simp at hg

example : parseHeader toy true [(.text b!"Alg", .text b!"es256"), (.int 1, .int (-35)), (.cls Hdr.KID, .bytes [1])] =
    .ok [(.cls Hdr.Algorithm, algCls (-35)), (.cls Hdr.KID, .bytes [1])] := by decide +kernel

/-! ### C24 — validated values -/

/-- Every header map of every decoded message (also those of its signers and recipients). -/
theorem c24_decoded {C : Crypto} {cls : DecCls} {allow : Bool} {bs : Bytes} {m : Msg}
    (h : decode C cls allow bs = .ok m) : ∀ d ∈ m.headerMaps, Spec.ValidHeader d :=
  fun d hd => validHeader_of_parsed (decode_parsed h d hd)

/-- Both header maps of every message, signer or recipient made by a constructor (all of them call
`CoseMessage.__init__`). -/
theorem c24_constructed {C : Crypto} {a : HdrArgs} {pl aad : Val} {key : Option Key} {b : Base}
    (h : initMsg C a pl aad key = .ok b) : Spec.ValidHeader b.phdr ∧ Spec.ValidHeader b.uhdr := by
  obtain ⟨h1, h2⟩ := initMsg_headers h
  exact ⟨validHeader_of_parsed h1, validHeader_of_parsed h2⟩

/-- A message object returned by one of the constructors. -/
inductive Spec.Constructed (C : Crypto) : Msg → Prop
  | enc0 {a : HdrArgs} {p d : Val} {k : Option Key} {m : Enc0} : Enc0.new C a p d k = .ok m → Constructed C (.enc0 m)
  | mac0 {a : HdrArgs} {p d : Val} {k : Option Key} {m : Mac0} : Mac0.new C a p d k = .ok m → Constructed C (.mac0 m)
  | sign1 {a : HdrArgs} {p d : Val} {k : Option Key} {m : Sign1} : Sign1.new C a p d k = .ok m → Constructed C (.sign1 m)
  | sign {a : HdrArgs} {p : Val} {s : List Base} {m : SignMsg} : SignMsg.new C a p s = .ok m → Constructed C (.sign m)
  | enc {a : HdrArgs} {p d : Val} {k : Option Key} {r : Option (List Rcpt)} {m : Enc} :
      Enc.new C a p d k r = .ok m → Constructed C (.enc m)
  | mac {a : HdrArgs} {p d : Val} {k : Option Key} {r : Option (List Rcpt)} {m : Mac} :
      Mac.new C a p d k r = .ok m → Constructed C (.mac m)

theorem constructed_init {C : Crypto} {m : Msg} (h : Spec.Constructed C m) :
    ∃ a p d k, initMsg C a p d k = .ok m.base := by
  cases h with
  | enc0 h => simp only [Enc0.new, bind_eq_ok] at h; obtain ⟨b, h, e⟩ := h; simp at e; subst e; exact ⟨_, _, _, _, h⟩
  | mac0 h => simp only [Mac0.new, bind_eq_ok] at h; obtain ⟨b, h, e⟩ := h; simp at e; subst e; exact ⟨_, _, _, _, h⟩
  | sign1 h => simp only [Sign1.new, bind_eq_ok] at h; obtain ⟨b, h, e⟩ := h; simp at e; subst e; exact ⟨_, _, _, _, h⟩
  | sign h => simp only [SignMsg.new, bind_eq_ok] at h; obtain ⟨b, h, e⟩ := h; simp at e; subst e; exact ⟨_, _, _, _, h⟩
  | enc h => simp only [Enc.new, bind_eq_ok] at h; obtain ⟨b, h, e⟩ := h; simp at e; subst e; exact ⟨_, _, _, _, h⟩
  | mac h => simp only [Mac.new, bind_eq_ok] at h; obtain ⟨b, h, e⟩ := h; simp at e; subst e; exact ⟨_, _, _, _, h⟩

theorem c24_constructed_message {C : Crypto} {m : Msg} (h : Spec.Constructed C m) :
    Spec.ValidHeader m.base.phdr ∧ Spec.ValidHeader m.base.uhdr := by
  obtain ⟨_, _, _, _, h⟩ := constructed_init h
  exact c24_constructed h

/-- Assigning a header map is not validated: the property stops at the constructors and `decode`. -/
theorem c24_assignment_not_validated :
    ∃ (b b' : Base) (v : Val), b.setPhdr v = .ok b' ∧ Spec.ValidHeader b.phdr ∧ ¬ Spec.ValidHeader b'.phdr := by
  refine ⟨{}, { phdr := [(.cls Hdr.IV, .int 5)] }, .map [(.cls Hdr.IV, .int 5)], rfl, ?_, ?_⟩
  · exact validHeader_of_parsed (C := toy) (allow := true) ⟨[], rfl⟩
  · intro h
    obtain ⟨b, hb⟩ := h.iv (.int 5) (by decide +kernel)
    simp at hb

example : Spec.Constructed toy (.sign1 Sample.sign1) := by
  have h : Sign1.new toy { phdr := .map [(.text b!"alg", .text b!"es256")], uhdr := .map [(.int 4, .bytes b!"me")] }
    (.bytes b!"hello") (.bytes b!"aad") (some Sample.ecKey) = .ok Sample.sign1 := by decide +kernel
  exact .sign1 h
example : parseHeader toy true [(.int 5, .int 3)] = .error .valueError := by decide +kernel
example : parseHeader toy true [(.int 2, .arr [])] = .error .valueError := by decide +kernel

/-! ### C25 — registered algorithms -/

/-- Every Algorithm header value of a decoded message is a registered algorithm class (or a list of
algorithm values); a scalar one is a registered class. -/
theorem c25_decoded {C : Crypto} {cls : DecCls} {allow : Bool} {bs : Bytes} {m : Msg}
    (h : decode C cls allow bs = .ok m) :
    ∀ d ∈ m.headerMaps, ∀ v, dget d (.cls Hdr.Algorithm) = some v →
      Spec.AlgorithmValue v ∧ ((∀ l, v ≠ .arr l) → ∃ c n, v = .cls c ∧ (c, n) ∈ registry .alg) := by
  intro d hd v hv
  have hav := algValue_of_parsed (decode_parsed h d hd) hv
  refine ⟨hav, fun hl => ?_⟩
  cases hav with
  | one hn => exact ⟨_, _, rfl, hn⟩
  | many _ => exact absurd rfl (hl _)

theorem c25_constructed {C : Crypto} {a : HdrArgs} {pl aad : Val} {key : Option Key} {b : Base}
    (h : initMsg C a pl aad key = .ok b) :
    ∀ d, d = b.phdr ∨ d = b.uhdr → ∀ v, dget d (.cls Hdr.Algorithm) = some v →
      Spec.AlgorithmValue v ∧ ((∀ l, v ≠ .arr l) → ∃ c n, v = .cls c ∧ (c, n) ∈ registry .alg) := by
  obtain ⟨h1, h2⟩ := initMsg_headers h
  intro d hd v hv
  have hav : Spec.AlgorithmValue v := by
    rcases hd with rfl | rfl
    · exact algValue_of_parsed h1 hv
    · exact algValue_of_parsed h2 hv
  refine ⟨hav, fun hl => ?_⟩
  cases hav with
  | one hn => exact ⟨_, _, rfl, hn⟩
  | many _ => exact absurd rfl (hl _)

/-- An integer that is the identifier of no registered algorithm is rejected, whether or not unknown
attributes are allowed; if the entries before it are fine, by a `CoseException`. -/
theorem c25_unregistered_rejected {C : Crypto} {allow : Bool} {k : Val} (hk : Spec.Alias Hdr.Algorithm b!"ALG" k)
    {i : Int} (hi : ∀ p ∈ registry .alg, p.1.ident ≠ i) :
    (∀ h d, (k, .int i) ∈ h → parseHeader C allow h ≠ .ok d) ∧
    (∀ h1 h2 d, parseHeader C allow h1 = .ok d →
      parseHeader C allow (h1 ++ (k, .int i) :: h2) = .error .coseException) := by
  have hr : resolve .alg (.int i) = none := by simp [resolve, lookupId]; intro a b hab; exact hi (a, b) hab
  have hk' := alias_resolve (r := .hdr) (by decide +kernel) hk
  have hf : (do let a ← fromIdKey .hdr k allow; parsedVal (hdrParser C) a (.int i)) = .error .coseException := by
    simp [fromIdKey, hk', parsedVal, hdrParser_alg, fromId, hr]
  refine ⟨?_, ?_⟩
  · intro h d hm
    exact parseAttrs_not_ok hm (by intro w; rw [hf]; simp)
  · intro h1 h2 d hd
    exact parseAttrs_error hd hf

/-- The same on received bytes: a protected or unprotected header map with an unregistered algorithm
identifier makes `decode` raise. -/
theorem c25_decode_raises {C : Crypto} {cls : DecCls} {allow : Bool} {bs : Bytes} {t : Nat} {pe : Bytes} {ph uh : Dict}
    {rest : List Val} {k : Val} {i : Int}
    (hl : loads bs = .ok (.tag t (.arr (.bytes pe :: .map uh :: rest)))) (hpe : loads pe = .ok (.map ph))
    (hk : Spec.Alias Hdr.Algorithm b!"ALG" k) (hi : ∀ p ∈ registry .alg, p.1.ident ≠ i)
    (hm : (k, .int i) ∈ ph ∨ (k, .int i) ∈ uh) :
    ∃ e, decode C cls allow bs = .error e := by
  cases hd : decode C cls allow bs with
  | error e => exact ⟨e, rfl⟩
  | ok m =>
    exfalso
    obtain ⟨n, obj, kd, h1, _, h2, _, _⟩ := decode_iff.mp hd
    rw [hl] at h1
    simp at h1
    obtain ⟨_, rfl⟩ := h1
    have hb : ∃ b o, baseFromObj C (.bytes pe :: .map uh :: rest) allow = .ok (b, o) := by
      cases kd <;> simp only [fromObj, bind_eq_ok, Enc0.fromObj, Mac0.fromObj, Sign1.fromObj, Enc.fromObj,
        Mac.fromObj, SignMsg.fromObj] at h2 <;> obtain ⟨_, ⟨⟨b, o⟩, h2, _⟩, _⟩ := h2 <;> exact ⟨b, o, h2⟩
    obtain ⟨b, o, hb⟩ := hb
    obtain ⟨pe', uh', he, hp, hu, _⟩ := baseFromObj_iff.mp hb
    simp at he
    obtain ⟨rfl, rfl, _⟩ := he
    have hcr := c25_unregistered_rejected (C := C) (allow := allow) hk hi
    rcases hm with hm | hm
    · rcases hp.inv with ⟨e, _⟩ | ⟨e, _⟩ | ⟨b', d, e, _, _, h1, h2⟩
      · simp at e
      · simp at e; subst e; have he : ∀ v, loads [] ≠ .ok v := by intro v hv; simp [loads, decodeItem, dec] at hv
        exact he _ hpe
      · simp at e; subst e
        rw [hpe] at h1; simp at h1; subst h1
        exact hcr.1 _ _ hm h2
    · rcases hu.inv with ⟨e, _⟩ | ⟨d, e, h2⟩
      · simp at e
      · simp at e; subst e
        exact hcr.1 _ _ hm h2

example : ∀ p ∈ registry .alg, p.1.ident ≠ (-9 : Int) := by decide +kernel
example : parseHeader toy true [(.int 1, .int (-9))] = .error .coseException := by decide +kernel

/-! ### C26 — header lookup -/

/-- `get_attr(a)` on a message whose headers do not contain `None` values.  Partial: the clause of C26
about a default other than `None` is missing, because it is false (`c26_default_always_raises`). -/
theorem c26_get_attr_partial (b : Base) (c : Cls) (hp : dget b.phdr (.cls c) ≠ some .none)
    (hu : dget b.uhdr (.cls c) ≠ some .none) :
    (∀ v, dget b.phdr (.cls c) = some v → dget b.uhdr (.cls c) = none → b.getAttr c = .ok v) ∧
    (∀ v, dget b.phdr (.cls c) = none → dget b.uhdr (.cls c) = some v → b.getAttr c = .ok v) ∧
    (dget b.phdr (.cls c) = none → dget b.uhdr (.cls c) = none → b.getAttr c = .ok .none) ∧
    (∀ v w, dget b.phdr (.cls c) = some v → dget b.uhdr (.cls c) = some w → b.getAttr c = .error .coseException) := by
  refine ⟨?_, ?_, ?_, ?_⟩
  · intro v h1 h2
    have : v ≠ .none := by rintro rfl; exact hp h1
    simp [Base.getAttr, Base.getAttrD, h1, h2, this]
  · intro v h1 h2
    simp [Base.getAttr, Base.getAttrD, h1, h2]
  · intro h1 h2
    simp [Base.getAttr, Base.getAttrD, h1, h2]
  · intro v w h1 h2
    have e1 : v ≠ .none := by rintro rfl; exact hp h1
    have e2 : w ≠ .none := by rintro rfl; exact hu h2
    simp [Base.getAttr, Base.getAttrD, h1, h2, e1, e2]

/-- A `None` header value counts as absent. -/
theorem c26_none_is_absent (b : Base) (c : Cls) (h : dget b.phdr (.cls c) = some .none) :
    b.getAttr c = .ok ((dget b.uhdr (.cls c)).getD .none) := by
  simp [Base.getAttr, Base.getAttrD, h]

/-- With a default other than `None`, the default is never returned: the lookup raises in every case
in which the headers do not hold an explicit `None` — the last part of C26 fails. -/
theorem c26_default_always_raises (b : Base) (a d : Val) (hd : d ≠ .none)
    (hp : dget b.phdr a ≠ some .none) (hu : dget b.uhdr a ≠ some .none) :
    b.getAttrD a d = .error .coseException := by
  have key : ∀ x : Option Val, x ≠ some .none → x.getD d ≠ .none := by
    intro x hx
    cases x with
    | none => simpa using hd
    | some v => simp; rintro rfl; exact hx rfl
  simp [Base.getAttrD, key _ hp, key _ hu]

example : Sample.sign1.base.getAttr Hdr.Algorithm = .ok (algCls (-7)) ∧
    Sample.sign1.base.getAttr Hdr.KID = .ok (.bytes b!"me") ∧
    Sample.sign1.base.getAttr Hdr.IV = .ok .none ∧
    Sample.sign1.base.getAttrD (.cls Hdr.IV) (.bytes []) = .error .coseException := by decide +kernel

end Cose
