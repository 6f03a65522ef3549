import Verif.HdrLemmas
/-! Inversion of the constructors and of decoding. -/
set_option autoImplicit false
namespace Cose

/-- How a received protected header field is understood. -/
inductive ProtReceived (C : Crypto) (allow : Bool) : Val → Option Bytes → Dict → Prop
  | absent : ProtReceived C allow .none none []
  | empty : ProtReceived C allow (.bytes []) (some []) []
  | full {b : Bytes} {d ph : Dict} : b ≠ [] → loads b = .ok (.map d) → parseHeader C allow d = .ok ph →
      ProtReceived C allow (.bytes b) (some b) ph

/-- How a received unprotected header field is understood. -/
inductive UnprotReceived (C : Crypto) (allow : Bool) : Val → Dict → Prop
  | absent : UnprotReceived C allow .none []
  | full {d uh : Dict} : parseHeader C allow d = .ok uh → UnprotReceived C allow (.map d) uh

theorem ProtReceived.inv {C : Crypto} {allow : Bool} {v : Val} {e : Option Bytes} {ph : Dict}
    (h : ProtReceived C allow v e ph) :
    (v = .none ∧ e = none ∧ ph = []) ∨ (v = .bytes [] ∧ e = some [] ∧ ph = []) ∨
    ∃ b d, v = .bytes b ∧ e = some b ∧ b ≠ [] ∧ loads b = .ok (.map d) ∧ parseHeader C allow d = .ok ph := by
  cases h with
  | absent => exact .inl ⟨rfl, rfl, rfl⟩
  | empty => exact .inr (.inl ⟨rfl, rfl, rfl⟩)
  | full h1 h2 h3 => exact .inr (.inr ⟨_, _, rfl, rfl, h1, h2, h3⟩)

theorem UnprotReceived.inv {C : Crypto} {allow : Bool} {v : Val} {uh : Dict} (h : UnprotReceived C allow v uh) :
    (v = .none ∧ uh = []) ∨ ∃ d, v = .map d ∧ parseHeader C allow d = .ok uh := by
  cases h with
  | absent => exact .inl ⟨rfl, rfl⟩
  | full h => exact .inr ⟨_, rfl, h⟩

theorem parseHeader_nil (C : Crypto) (allow : Bool) : parseHeader C allow [] = .ok [] := rfl

theorem asDict_ok {v : Val} {d : Dict} : asDict v = .ok d ↔ v = .map d := by
  cases v <;> simp [asDict]

theorem initBase_enc {C : Crypto} {a : HdrArgs} {b : Base} (hp : a.phdr = .none) :
    initBase C a = .ok b ↔
      ProtReceived C a.allow a.phdrEncoded b.phdrEnc b.phdr ∧ UnprotReceived C a.allow a.uhdr b.uhdr ∧
      b = { phdrEnc := b.phdrEnc, phdr := b.phdr, uhdr := b.uhdr, tstr := a.tstr } := by
  unfold initBase
  simp only [hp, ne_eq, not_true_eq_false, false_and, ↓reduceIte]
  constructor
  · intro h
    split at h
    · rename_i he
      split at h
      · rename_i he'
        simp only [bind_eq_ok, ok_bind, asDict_ok, he'] at h
        obtain ⟨pd, h0, ud, h1, p, h2, u, h3, h4⟩ := h
        simp only [Val.map.injEq] at h0
        subst h0
        simp only [parseHeader_nil, Except.ok.injEq] at h2
        simp at h4
        subst h4 h2
        refine ⟨by rw [he']; exact .empty, ?_, rfl⟩
        split at h1
        · rename_i hu; simp only [Val.map.injEq] at h1; subst h1
          simp only [parseHeader_nil, Except.ok.injEq] at h3; subst h3; rw [hu]; exact .absent
        · rw [h1]; exact .full h3
      · rename_i he'
        simp only [bind_eq_ok, ok_bind, asDict_ok] at h
        obtain ⟨v, hl, pd, h0, ud, h1, p, h2, u, h3, h4⟩ := h
        subst h0
        obtain ⟨bs, hbs⟩ : ∃ bs, a.phdrEncoded = .bytes bs := by
          cases hv : a.phdrEncoded <;> simp_all [loadsVal]
        simp only [hbs, Except.ok.injEq] at h4
        subst h4
        refine ⟨?_, ?_, rfl⟩
        · rw [hbs]
          refine .full ?_ ?_ h2
          · rintro rfl; exact he' hbs
          · rw [hbs] at hl; exact hl
        · split at h1
          · rename_i hu; simp only [Val.map.injEq] at h1; subst h1
            simp only [parseHeader_nil, Except.ok.injEq] at h3; subst h3; rw [hu]; exact .absent
          · rw [h1]; exact .full h3
    · rename_i he
      simp only [Classical.not_not] at he
      simp only [bind_eq_ok, ok_bind, asDict_ok, he] at h
      obtain ⟨pd, h0, ud, h1, p, h2, u, h3, h4⟩ := h
      simp only [Val.map.injEq] at h0
      subst h0
      simp only [parseHeader_nil, Except.ok.injEq] at h2
      simp at h4
      subst h4 h2
      refine ⟨by rw [he]; exact .absent, ?_, rfl⟩
      split at h1
      · rename_i hu; simp only [Val.map.injEq] at h1; subst h1
        simp only [parseHeader_nil, Except.ok.injEq] at h3; subst h3; rw [hu]; exact .absent
      · rw [h1]; exact .full h3
  · rintro ⟨h1, h2, h3⟩
    rw [h3]
    have hu : ∃ ud, (if a.uhdr = .none then Val.map [] else a.uhdr) = .map ud ∧ parseHeader C a.allow ud = .ok b.uhdr := by
      rcases h2.inv with ⟨e1, e2⟩ | ⟨d, e1, e2⟩
      · exact ⟨[], by simp [e1], by rw [e2]; rfl⟩
      · exact ⟨d, by simp [e1], e2⟩
    obtain ⟨ud, hu1, hu2⟩ := hu
    rcases h1.inv with ⟨e1, e2, e3⟩ | ⟨e1, e2, e3⟩ | ⟨b', d, e1, e2, hb, hl, hp⟩
    · simp [hu1, asDict, parseHeader_nil, hu2, e1, e2, e3]
    · simp [hu1, asDict, parseHeader_nil, hu2, e1, e2, e3]
    · simp [hu1, asDict, hu2, hb, loadsVal, hl, hp, e1, e2]

theorem initBase_dict {C : Crypto} {a : HdrArgs} {b : Base} (hp : a.phdrEncoded = .none) :
    initBase C a = .ok b ↔
      UnprotReceived C a.allow a.phdr b.phdr ∧ UnprotReceived C a.allow a.uhdr b.uhdr ∧
      b = { phdrEnc := none, phdr := b.phdr, uhdr := b.uhdr, tstr := a.tstr } := by
  have aux : ∀ v d, (∃ ud, asDict (if v = .none then Val.map [] else v) = .ok ud ∧ parseHeader C a.allow ud = .ok d) ↔
      UnprotReceived C a.allow v d := by
    intro v d
    constructor
    · rintro ⟨ud, h1, h2⟩
      rw [asDict_ok] at h1
      split at h1
      · rename_i h; simp at h1; subst h1 h; simp [parseHeader_nil] at h2; subst h2; exact .absent
      · subst h1; exact .full h2
    · intro h
      cases h with
      | absent => exact ⟨[], by simp [asDict], rfl⟩
      | full h => exact ⟨_, by simp [asDict], h⟩
  rw [← aux, ← aux]
  unfold initBase
  simp only [hp, ne_eq, not_true_eq_false, and_false, ↓reduceIte]
  have e : ∀ v : Val, asDict (if v = .none then Val.map [] else v) = (if v = .none then .ok [] else asDict v) := by
    intro v; split <;> rfl
  simp only [e]
  constructor
  · intro h
    split at h
    · rename_i hn
      simp only [bind_eq_ok] at h
      obtain ⟨v, h0', pd, h0, ud, h1, p, h2, u, h3, h4⟩ := h
      simp at h4 h0'
      subst h4 h0'
      exact ⟨⟨pd, by rw [if_pos hn]; exact h0, h2⟩, ⟨ud, h1, h3⟩, rfl⟩
    · rename_i hn
      simp only [bind_eq_ok] at h
      obtain ⟨v, h0', pd, h0, ud, h1, p, h2, u, h3, h4⟩ := h
      simp at h4 h0'
      subst h4 h0'
      exact ⟨⟨pd, by rw [if_neg hn]; exact h0, h2⟩, ⟨ud, h1, h3⟩, rfl⟩
  · rintro ⟨⟨pd, h0, h2⟩, ⟨ud, h1, h3⟩, h4⟩
    rw [h4]
    split
    · rename_i hn
      rw [if_pos hn] at h0
      have : asDict (.map []) = .ok pd := h0
      simp [this, h1, h2, h3]
    · rename_i hn
      rw [if_neg hn] at h0
      simp [h0, h1, h2, h3]

theorem setPayload_ok {b b' : Base} {v : Val} :
    b.setPayload v = .ok b' ↔ ∃ p, v = optBytes p ∧ b' = { b with payload := p } := by
  cases v <;> simp only [Base.setPayload, Except.ok.injEq, reduceCtorEq, false_iff, not_exists]
  case none =>
    constructor
    · rintro rfl; exact ⟨none, rfl, rfl⟩
    · rintro ⟨p, h1, h2⟩; cases p <;> simp_all [optBytes]
  case bytes q =>
    constructor
    · rintro rfl; exact ⟨some q, rfl, rfl⟩
    · rintro ⟨p, h1, h2⟩; cases p <;> simp_all [optBytes]
  all_goals (intro p; cases p <;> simp [optBytes])

theorem setAad_ok {b b' : Base} {v : Val} :
    b.setAad v = .ok b' ↔ ∃ p, v = .bytes p ∧ b' = { b with aad := p } := by
  cases v <;> simp [Base.setAad, eq_comm]

theorem initMsg_ok {C : Crypto} {a : HdrArgs} {pl aad : Val} {key : Option Key} {b : Base}
    (h : initMsg C a pl aad key = .ok b) :
    ∃ b0 p d, initBase C a = .ok b0 ∧ pl = optBytes p ∧ aad = .bytes d ∧
      b = { b0 with payload := p, aad := d, key := key } := by
  unfold initMsg at h
  simp only [bind_eq_ok, setPayload_ok, setAad_ok] at h
  obtain ⟨b0, h0, b1, ⟨p, rfl, rfl⟩, b2, ⟨d, rfl, rfl⟩, h4⟩ := h
  simp at h4
  exact ⟨b0, p, d, h0, rfl, rfl, h4.symm⟩

/-- The headers of a constructed message come out of the header parser. -/
theorem initMsg_headers {C : Crypto} {a : HdrArgs} {pl aad : Val} {key : Option Key} {b : Base}
    (h : initMsg C a pl aad key = .ok b) :
    (∃ d, parseHeader C a.allow d = .ok b.phdr) ∧ (∃ d, parseHeader C a.allow d = .ok b.uhdr) := by
  obtain ⟨b0, p, d, h0, rfl, rfl, rfl⟩ := initMsg_ok h
  have un : ∀ {v d}, UnprotReceived C a.allow v d → ∃ e, parseHeader C a.allow e = .ok d := by
    intro v d h; cases h with
    | absent => exact ⟨[], rfl⟩
    | full h => exact ⟨_, h⟩
  by_cases hp : a.phdr = .none
  · obtain ⟨h1, h2, h3⟩ := (initBase_enc hp).mp h0
    refine ⟨?_, un h2⟩
    rcases h1.inv with ⟨_, _, e⟩ | ⟨_, _, e⟩ | ⟨_, d, _, _, _, _, e⟩
    · exact ⟨[], by rw [e]; rfl⟩
    · exact ⟨[], by rw [e]; rfl⟩
    · exact ⟨d, e⟩
  · have hq : a.phdrEncoded = .none := by
      cases hq : a.phdrEncoded <;> first | rfl | (unfold initBase at h0; simp [hp, hq] at h0)
    obtain ⟨h1, h2, h3⟩ := (initBase_dict hq).mp h0
    exact ⟨un h1, un h2⟩

theorem pop0_ok {l r : List Val} {v : Val} : pop0 l = .ok (v, r) ↔ l = v :: r := by
  cases l <;> simp [pop0]

/-- Exactly which lists a message (or signer, or recipient) is read from. -/
theorem baseFromObj_iff {C : Crypto} {obj rest : List Val} {allow : Bool} {b : Base} :
    baseFromObj C obj allow = .ok (b, rest) ↔
      ∃ pe uh, obj = pe :: uh :: optBytes b.payload :: rest ∧
        ProtReceived C allow pe b.phdrEnc b.phdr ∧ UnprotReceived C allow uh b.uhdr ∧
        b.aad = [] ∧ b.key = none ∧ b.tstr = false ∧ b.localAttrs = [] := by
  unfold baseFromObj
  constructor
  · intro h
    simp only [bind_eq_ok] at h
    obtain ⟨⟨pe, o1⟩, h0, ⟨uh, o2⟩, h1, b1, h2, ⟨pl, o3⟩, h3, b2, h4, h5⟩ := h
    simp only [pop0_ok] at h0 h1 h3
    obtain ⟨b0, p, d, hb, hpl, haad, rfl⟩ := initMsg_ok h2
    obtain ⟨p', rfl, rfl⟩ := setPayload_ok.mp h4
    simp at h5 haad
    obtain ⟨rfl, rfl⟩ := h5
    obtain ⟨i1, i2, i3⟩ := (initBase_enc rfl).mp hb
    subst h0 h1 h3
    refine ⟨pe, uh, rfl, i1, i2, haad, ?_, ?_, ?_⟩
    · rfl
    · rw [i3]
    · rw [i3]
  · rintro ⟨pe, uh, rfl, h1, h2, h3, h4, h5, h6⟩
    have hb : initBase C { phdrEncoded := pe, uhdr := uh, allow := allow } =
        .ok { phdrEnc := b.phdrEnc, phdr := b.phdr, uhdr := b.uhdr } :=
      (initBase_enc rfl).mpr ⟨h1, h2, rfl⟩
    have hs : ∀ b' : Base, b'.setPayload (optBytes b.payload) = .ok { b' with payload := b.payload } :=
      fun b' => setPayload_ok.mpr ⟨_, rfl, rfl⟩
    have hs' : ∀ b' : Base, b'.setPayload .none = .ok { b' with payload := none } := fun b' => rfl
    simp only [pop0, ok_bind, initMsg, hb, hs', Base.setAad, hs]
    obtain ⟨x1, x2, x3, x4, x5, x6, x7, x8⟩ := b
    simp_all

theorem fromObj_kind {C : Crypto} {k : MsgKind} {obj : List Val} {allow : Bool} {m : Msg}
    (h : fromObj C k obj allow = .ok m) : m.kind = k := by
  cases k <;> simp only [fromObj, bind_eq_ok] at h <;> obtain ⟨_, _, h⟩ := h <;> simp at h <;> subst h <;> rfl

/-- Exactly which byte strings decode to a message. -/
theorem decode_iff {C : Crypto} {cls : DecCls} {allow : Bool} {bs : Bytes} {m : Msg} :
    decode C cls allow bs = .ok m ↔ ∃ n obj k, loads bs = .ok (.tag n (.arr obj)) ∧ tagKind n = some k ∧
      fromObj C k obj allow = .ok m ∧ cls.accepts k = true ∧ m.kind = k := by
  unfold decode
  constructor
  · intro h
    cases hl : loads bs with
    | error e =>
      simp only [hl] at h
      (repeat' split at h) <;> simp at h
    | ok v =>
      simp only [hl, ok_bind] at h
      cases v <;> try simp at h
      rename_i n v
      cases v <;> try simp at h
      rename_i obj
      cases hk : tagKind n with
      | none => simp [hk] at h
      | some k =>
        simp only [hk, bind_eq_ok] at h
        obtain ⟨m', h1, h2⟩ := h
        have hm := fromObj_kind h1
        split at h2 <;> simp at h2
        rename_i hc
        subst h2
        exact ⟨n, obj, k, rfl, hk, h1, by rw [← hm]; exact hc, hm⟩
  · rintro ⟨n, obj, k, h1, h2, h3, h4, h5⟩
    simp [h1, h2, h3, h4, h5]

/-! ### The header maps of a message -/

mutual
/-- The header maps of a recipient and of the recipients nested in it. -/
def Rcpt.headerMaps : Rcpt → List Dict
  | .mk _ b _ _ rs => b.phdr :: b.uhdr :: rcptsHeaderMaps rs
termination_by structural x => x
def rcptsHeaderMaps : List Rcpt → List Dict
  | [] => []
  | r :: t => r.headerMaps ++ rcptsHeaderMaps t
termination_by structural x => x
end

/-- All header maps of a message, including those of its signers or recipients. -/
def Msg.headerMaps : Msg → List Dict
  | .enc0 m => [m.base.phdr, m.base.uhdr]
  | .mac0 m => [m.base.phdr, m.base.uhdr]
  | .sign1 m => [m.base.phdr, m.base.uhdr]
  | .enc m => m.base.phdr :: m.base.uhdr :: rcptsHeaderMaps m.recipients
  | .mac m => m.base.phdr :: m.base.uhdr :: rcptsHeaderMaps (m.recipients.getD [])
  | .sign m => m.base.phdr :: m.base.uhdr :: m.signers.flatMap fun s => [s.phdr, s.uhdr]

/-- A header map that the header parser returned. -/
def Parsed (C : Crypto) (allow : Bool) (d : Dict) : Prop := ∃ h, parseHeader C allow h = .ok d

theorem baseFromObj_parsed {C : Crypto} {obj rest : List Val} {allow : Bool} {b : Base}
    (h : baseFromObj C obj allow = .ok (b, rest)) : Parsed C allow b.phdr ∧ Parsed C allow b.uhdr := by
  obtain ⟨pe, uh, _, h1, h2, _⟩ := baseFromObj_iff.mp h
  refine ⟨?_, ?_⟩
  · rcases h1.inv with ⟨_, _, e⟩ | ⟨_, _, e⟩ | ⟨_, d, _, _, _, _, e⟩
    · exact ⟨[], by rw [e]; rfl⟩
    · exact ⟨[], by rw [e]; rfl⟩
    · exact ⟨d, e⟩
  · rcases h2.inv with ⟨_, e⟩ | ⟨d, _, e⟩
    · exact ⟨[], by rw [e]; rfl⟩
    · exact ⟨d, e⟩

theorem signerFromObj_ok {C : Crypto} {allow : Bool} {v : Val} {b : Base} (h : signerFromObj C allow v = .ok b) :
    ∃ l rest, v = .arr l ∧ baseFromObj C l allow = .ok (b, rest) := by
  cases v <;> simp only [signerFromObj, reduceCtorEq, bind_eq_ok] at h
  obtain ⟨⟨b', rest⟩, h1, h2⟩ := h
  simp at h2; subst h2
  exact ⟨_, rest, rfl, h1⟩

theorem signersFromObj_parsed {C : Crypto} {allow : Bool} {l : List Val} {ss : List Base}
    (h : signersFromObj C allow l = .ok ss) : ∀ s ∈ ss, Parsed C allow s.phdr ∧ Parsed C allow s.uhdr := by
  induction l generalizing ss with
  | nil => simp [signersFromObj] at h; subst h; simp
  | cons v t ih =>
    simp only [signersFromObj, bind_eq_ok] at h
    obtain ⟨s, h1, ss', h2, h3⟩ := h
    simp at h3; subst h3
    obtain ⟨l, rest, rfl, hb⟩ := signerFromObj_ok h1
    intro s' hs
    rcases List.mem_cons.mp hs with rfl | hs
    · exact baseFromObj_parsed hb
    · exact ih h2 s' hs

theorem rcptFromObj_ok {C : Crypto} {cls : RCls} {obj : Val} {allow : Bool} {ctx : Bytes} {oid : Nat} {r : Rcpt}
    (h : rcptFromObj C cls obj allow ctx oid = .ok r) :
    ∃ l rest b, obj = .arr l ∧ baseFromObj C l allow = .ok (b, rest) ∧ r = .mk cls b ctx oid [] := by
  cases obj <;> simp only [rcptFromObj, reduceCtorEq, bind_eq_ok] at h
  rename_i l
  obtain ⟨⟨b, rest⟩, h1, h2⟩ := h
  refine ⟨l, rest, b, rfl, h1, ?_⟩
  cases cls <;> simp only at h2
  · split at h2
    · simp at h2
    · simp only [bind_eq_ok] at h2
      obtain ⟨alg, _, h2⟩ := h2
      split at h2 <;> simp at h2
      exact h2.symm
  · simp only [bind_eq_ok] at h2
    obtain ⟨alg, _, kw, _, h2⟩ := h2
    split at h2
    · simp at h2
    · split at h2 <;> simp at h2
      exact h2.symm
  · simp only [bind_eq_ok] at h2
    obtain ⟨alg, _, es, _, h2⟩ := h2
    split at h2
    · simp only [bind_eq_ok] at h2
      obtain ⟨e, _, _, _, h2⟩ := h2
      split at h2 <;> simp at h2
      exact h2.symm
    · simp at h2; exact h2.symm
  · split at h2 <;> simp at h2
    exact h2.symm

theorem createRecipient_ok {C : Crypto} {allow : Bool} {ctx : Bytes} {oid : Nat} {v : Val} {r : Rcpt}
    (h : createRecipient C allow ctx oid v = .ok r) :
    ∃ cls, rcptFromObj C cls v allow ctx oid = .ok r := by
  unfold createRecipient at h
  simp only [bind_eq_ok] at h
  obtain ⟨r0, _, h⟩ := h
  have fin : ∀ (p u : Val), (if p ≠ .none then do
        let c ← rcptClass p
        rcptFromObj C c v allow ctx oid
      else if u ≠ .none then do
        let c ← rcptClass u
        rcptFromObj C c v allow ctx oid
      else .error .coseException) = .ok r → ∃ cls, rcptFromObj C cls v allow ctx oid = .ok r := by
    intro p u h
    split at h
    · simp only [bind_eq_ok] at h; obtain ⟨c, _, h⟩ := h; exact ⟨c, h⟩
    · split at h
      · simp only [bind_eq_ok] at h; obtain ⟨c, _, h⟩ := h; exact ⟨c, h⟩
      · simp at h
  split at h
  · simp only [bind_eq_ok, ok_bind] at h
    obtain ⟨_, _, _, _, _, _, _, _, h⟩ := h
    exact fin _ _ h
  · simp only [bind_eq_ok, ok_bind] at h
    obtain ⟨_, _, _, _, h⟩ := h
    exact fin _ _ h

theorem createRecipients_parsed {C : Crypto} {allow : Bool} {ctx : Bytes} {i : Nat} {l : List Val} {rs : List Rcpt}
    (h : createRecipients C allow ctx i l = .ok rs) : ∀ d ∈ rcptsHeaderMaps rs, Parsed C allow d := by
  induction l generalizing rs i with
  | nil => simp [createRecipients] at h; subst h; simp [rcptsHeaderMaps]
  | cons v t ih =>
    simp only [createRecipients, bind_eq_ok] at h
    obtain ⟨r, h1, rs', h2, h3⟩ := h
    simp at h3; subst h3
    obtain ⟨cls, h1⟩ := createRecipient_ok h1
    obtain ⟨l, rest, b, rfl, hb, rfl⟩ := rcptFromObj_ok h1
    obtain ⟨p1, p2⟩ := baseFromObj_parsed hb
    intro d hd
    simp only [rcptsHeaderMaps, Rcpt.headerMaps, List.mem_append, List.mem_cons, List.not_mem_nil, or_false] at hd
    rcases hd with (rfl | rfl) | hd
    · exact p1
    · exact p2
    · exact ih h2 d hd

theorem recipientsOf_parsed {C : Crypto} {allow : Bool} {ctx : Bytes} {obj : List Val} {rs : List Rcpt}
    (h : recipientsOf C allow ctx obj = .ok rs) : ∀ d ∈ rcptsHeaderMaps rs, Parsed C allow d := by
  unfold recipientsOf at h
  simp only [bind_eq_ok] at h
  obtain ⟨_, _, l, _, h⟩ := h
  exact createRecipients_parsed h

/-- Every header map of a decoded message comes out of the header parser. -/
theorem decode_parsed {C : Crypto} {cls : DecCls} {allow : Bool} {bs : Bytes} {m : Msg}
    (h : decode C cls allow bs = .ok m) : ∀ d ∈ m.headerMaps, Parsed C allow d := by
  obtain ⟨n, obj, k, _, _, h, _, _⟩ := decode_iff.mp h
  cases k <;> simp only [fromObj, bind_eq_ok, Enc0.fromObj, Mac0.fromObj, Sign1.fromObj, Enc.fromObj, Mac.fromObj,
    SignMsg.fromObj] at h
  case enc0 =>
    obtain ⟨m', ⟨⟨b, o⟩, h1, h2⟩, h3⟩ := h
    simp at h2 h3; subst h2 h3
    simpa [Msg.headerMaps] using baseFromObj_parsed h1
  case mac0 =>
    obtain ⟨m', ⟨⟨b, o⟩, h1, _, _, h2⟩, h3⟩ := h
    simp at h2 h3; subst h2 h3
    simpa [Msg.headerMaps] using baseFromObj_parsed h1
  case sign1 =>
    obtain ⟨m', ⟨⟨b, o⟩, h1, _, _, h2⟩, h3⟩ := h
    simp at h2 h3; subst h2 h3
    simpa [Msg.headerMaps] using baseFromObj_parsed h1
  case enc =>
    obtain ⟨m', ⟨⟨b, o⟩, h1, h2⟩, h3⟩ := h
    simp at h3; subst h3
    obtain ⟨p1, p2⟩ := baseFromObj_parsed h1
    split at h2
    · rename_i rs hr
      simp at h2; subst h2
      intro d hd
      simp only [Msg.headerMaps, List.mem_cons] at hd
      rcases hd with rfl | rfl | hd
      · exact p1
      · exact p2
      · exact recipientsOf_parsed hr d hd
    · split at h2 <;> simp at h2
      subst h2
      simp [Msg.headerMaps, rcptsHeaderMaps, p1, p2]
  case mac =>
    obtain ⟨m', ⟨⟨b, o⟩, h1, ⟨t, o2⟩, h1', h2⟩, h3⟩ := h
    simp at h3; subst h3
    obtain ⟨p1, p2⟩ := baseFromObj_parsed h1
    split at h2
    · rename_i rs hr
      simp at h2; subst h2
      intro d hd
      simp only [Msg.headerMaps, List.mem_cons, Option.getD_some] at hd
      rcases hd with rfl | rfl | hd
      · exact p1
      · exact p2
      · exact recipientsOf_parsed hr d hd
    · split at h2 <;> simp at h2
      subst h2
      simp [Msg.headerMaps, rcptsHeaderMaps, p1, p2]
  case sign =>
    obtain ⟨m', ⟨⟨b, o⟩, h1, _, _, l, _, ss, hss, h2⟩, h3⟩ := h
    simp at h2 h3; subst h2 h3
    obtain ⟨p1, p2⟩ := baseFromObj_parsed h1
    have hs := signersFromObj_parsed hss
    intro d hd
    simp only [Msg.headerMaps, List.mem_cons, List.mem_flatMap, List.not_mem_nil, or_false] at hd
    rcases hd with rfl | rfl | ⟨s, h, rfl | rfl⟩
    · exact p1
    · exact p2
    · exact (hs s h).1
    · exact (hs s h).2

/-! ### Lists that correspond element by element -/

/-- Two lists of the same length, related element by element. -/
inductive All2 {α β : Type} (R : α → β → Prop) : List α → List β → Prop
  | nil : All2 R [] []
  | cons {a : α} {b : β} {l : List α} {m : List β} : R a b → All2 R l m → All2 R (a :: l) (b :: m)

theorem All2.imp {α β : Type} {R S : α → β → Prop} (hRS : ∀ a b, R a b → S a b) {l : List α} {m : List β}
    (h : All2 R l m) : All2 S l m := by
  induction h with
  | nil => exact .nil
  | cons h _ ih => exact .cons (hRS _ _ h) ih

theorem All2.length {α β : Type} {R : α → β → Prop} {l : List α} {m : List β} (h : All2 R l m) :
    l.length = m.length := by
  induction h with
  | nil => rfl
  | cons _ _ ih => simp [ih]

theorem All2.get {α β : Type} {R : α → β → Prop} {l : List α} {m : List β} (h : All2 R l m) :
    ∀ (i : Nat) (b : β), m[i]? = some b → ∃ a, l[i]? = some a ∧ R a b := by
  induction h with
  | nil => intro i b h; simp at h
  | cons h _ ih =>
    intro i b hb
    cases i with
    | zero => simp at hb; subst hb; exact ⟨_, rfl, h⟩
    | succ i => simp at hb; obtain ⟨a, h1, h2⟩ := ih i b hb; exact ⟨a, by simpa using h1, h2⟩

theorem signersFromObj_all2 {C : Crypto} {allow : Bool} {l : List Val} {ss : List Base}
    (h : signersFromObj C allow l = .ok ss) :
    All2 (fun v s => ∃ obj rest, v = .arr obj ∧ baseFromObj C obj allow = .ok (s, rest)) l ss := by
  induction l generalizing ss with
  | nil => simp [signersFromObj] at h; subst h; exact .nil
  | cons v t ih =>
    simp only [signersFromObj, bind_eq_ok] at h
    obtain ⟨s, h1, ss', h2, h3⟩ := h
    simp at h3; subst h3
    obtain ⟨l, rest, rfl, hb⟩ := signerFromObj_ok h1
    exact .cons ⟨l, rest, rfl, hb⟩ (ih h2)

theorem createRecipients_all2 {C : Crypto} {allow : Bool} {ctx : Bytes} {i : Nat} {l : List Val} {rs : List Rcpt}
    (h : createRecipients C allow ctx i l = .ok rs) :
    All2 (fun v r => ∃ obj rest cls oid, v = .arr obj ∧ baseFromObj C obj allow = .ok (r.base, rest) ∧
      r = .mk cls r.base ctx oid []) l rs := by
  induction l generalizing rs i with
  | nil => simp [createRecipients] at h; subst h; exact .nil
  | cons v t ih =>
    simp only [createRecipients, bind_eq_ok] at h
    obtain ⟨r, h1, rs', h2, h3⟩ := h
    simp at h3; subst h3
    obtain ⟨cls, h1⟩ := createRecipient_ok h1
    obtain ⟨l, rest, b, rfl, hb, rfl⟩ := rcptFromObj_ok h1
    exact .cons ⟨l, rest, cls, _, rfl, hb, rfl⟩ (ih h2)

theorem recipientsOf_ok {C : Crypto} {allow : Bool} {ctx : Bytes} {obj : List Val} {rs : List Rcpt}
    (h : recipientsOf C allow ctx obj = .ok rs) :
    ∃ v rest l, obj = v :: rest ∧ iterRecipients v = .ok l ∧ createRecipients C allow ctx 0 l = .ok rs := by
  unfold recipientsOf at h
  simp only [bind_eq_ok] at h
  obtain ⟨⟨v, rest⟩, h0, l, h1, h⟩ := h
  rw [pop0_ok] at h0
  exact ⟨v, rest, l, h0, h1, h⟩

end Cose
