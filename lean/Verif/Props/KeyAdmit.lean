import Verif.Props.RefusalsAgree
import Verif.Props.KeyAgain
import Verif.Props.KeyObj
/-!
# Property C92: which arguments and dictionaries make a key, what the key then holds, and which exception refuses the others
-/
set_option autoImplicit false
namespace Cose

/-! ### Specification -/

/-- The parameters whose values are read from a registry: key type, algorithm and key operations, and the curve. -/
def Spec.coded : Kind → List (Cls × Reg)
  | .ec2 => [(⟨.kp, 1⟩, .kty), (⟨.kp, 3⟩, .alg), (⟨.kp, 4⟩, .op), (⟨.kpEc2, -1⟩, .crv)]
  | .okp => [(⟨.kp, 1⟩, .kty), (⟨.kp, 3⟩, .alg), (⟨.kp, 4⟩, .op), (⟨.kpOkp, -1⟩, .crv)]
  | _ => [(⟨.kp, 1⟩, .kty), (⟨.kp, 3⟩, .alg), (⟨.kp, 4⟩, .op)]

/-- An optional parameter as written, and the entry the key gets for it. -/
inductive Spec.ParamArg (kd : Kind) (allow : Bool) : Val × Val → Val × Val → Prop
  | coded {c : Cls} {n : Bytes} {q v w : Val} {r : Reg} : (c, n) ∈ Spec.params kd → Spec.Denotes c n q → (c, r) ∈ Spec.coded kd →
      Spec.AttrArg r v w → ParamArg kd allow (q, v) (.cls c, w)
  | plain {c : Cls} {n : Bytes} {q v : Val} : (c, n) ∈ Spec.params kd → Spec.Denotes c n q → (∀ r, (c, r) ∉ Spec.coded kd) →
      ParamArg kd allow (q, v) (.cls c, v)
  | unknown {q v : Val} : allow = true → (∀ p ∈ Spec.params kd, ¬ Spec.Denotes p.1 p.2 q) → ParamArg kd allow (q, v) (q, v)

/-- All optional parameters are read, giving the entries `es`. -/
def Spec.Reads (kd : Kind) (allow : Bool) (opt es : Dict) : Prop := All2 (Spec.ParamArg kd allow) opt es

/-- The last of the entries for a label. -/
def Spec.last (es : Dict) (q : Val) : Option Val := (es.reverse.find? fun e => keq e.1 q).map (·.2)

/-- What every constructor requires of the optional parameters. -/
def Spec.optionalUse (kd : Kind) (allow : Bool) (opt : Dict) : List (Prop × PyErr) :=
  [(∃ es, Spec.Reads kd allow opt es, .coseException),
   (∀ es v, Spec.Reads kd allow opt es → Spec.last es (.cls ⟨.kp, 1⟩) = some v → v = .cls (Spec.ktyClass kd), .illegalKeyType),
   (∀ es v, Spec.Reads kd allow opt es → Spec.last es (.cls ⟨.kp, 4⟩) = some v → ∃ l, v = .arr l, .typeError)]

/-- What a key holds on account of its optional parameters: the key type, and the last value given for each parameter; an empty list of key
operations is dropped. -/
def Spec.Holding (kd : Kind) (allow : Bool) (opt : Dict) (t : Val → Option Val) : Prop :=
  ∃ es, Spec.Reads kd allow opt es ∧ ∀ q, t q =
    if keq (.cls ⟨.kp, 4⟩) q = true ∧ Spec.last es (.cls ⟨.kp, 4⟩) = some (.arr []) then none
    else (Spec.last es q).or (if keq (.cls ⟨.kp, 1⟩) q then some (.cls (Spec.ktyClass kd)) else none)

/-- Labels that are Python classes are classes of the key's parameters (a class has its own reader for values, whatever it is used for). -/
def Spec.OwnClasses (kd : Kind) (opt : Dict) : Prop := ∀ c v, (.cls c, v) ∈ opt → ∃ p ∈ Spec.params kd, p.1.ident = c.ident

/-- The result is a key of this kind that shows the table `t`. -/
def Spec.MakesKey (kd : Kind) (t : Val → Option Val) (r : Res Key) : Prop := ∃ k, r = .ok k ∧ k.kind = kd ∧ ∀ q, k.table q = t q

/-- What a curve argument has to be: given, known, one curve, one of the key type. -/
def Spec.curveUse (v : Val) (ids : List Int) : List (Prop × PyErr) :=
  [(v ≠ .none, .invalidKey), (∃ w, Spec.AttrArg .crv v w, .coseException), (∃ c, Spec.CurveArg v c, .attributeError),
   (∃ c, Spec.CurveArg v c ∧ c.ident ∈ ids, .unsupportedCurve)]

/-- Python's `len` is defined. -/
def Spec.Sized : Val → Prop
  | .bytes _ => True | .text _ => True | .arr _ => True | .map _ => True | .key _ _ => True
  | _ => False

/-- Python's `len` is zero. -/
def Spec.Hollow (v : Val) : Prop := v = .bytes [] ∨ v = .text [] ∨ v = .arr [] ∨ v = .map [] ∨ ∃ kd, v = .key kd []

/-- A parameter given as an empty byte string counts as not given. -/
def Spec.give (t : Val → Option Val) (c : Cls) (v : Val) : Val → Option Val := if v = .bytes [] then t else Spec.put t (.cls c) v

/-- What is left to do for an EC2 key on the curve `c` with coordinates of `n` bytes, after the curve was read into the table `t`. -/
inductive Spec.Ec2Rest (C : Crypto) (c : Cls) (n : Nat) (x y d : Val) (t : Val → Option Val) (r : Res Key) : Prop
  /-- A private value: the coordinates are those of its point; coordinates given as well have to be the same. -/
  | secret {b : Bytes} : d = .bytes b → b ≠ [] →
      Spec.Then (C.ecPub c (natOfBytes b)) (fun p => Spec.Outcome
        [(p.1 < 256 ^ n, .overflowError), (truthy x = true → x = .bytes (beBytes n p.1), .assertionError),
         (p.2 < 256 ^ n, .overflowError), (truthy y = true → y = .bytes (beBytes n p.2), .assertionError)]
        (Spec.MakesKey .ec2 (Spec.put (Spec.put (Spec.put t (.cls ⟨.kpEc2, -2⟩) (.bytes (beBytes n p.1))) (.cls ⟨.kpEc2, -3⟩) (.bytes (beBytes n p.2)))
          (.cls ⟨.kpEc2, -4⟩) d))) r → Ec2Rest C c n x y d t r
  /-- A private value that is no number. -/
  | noNumber : truthy d = true → (∀ b, d ≠ .bytes b) → (∀ l, d ≠ .arr l) → (∀ l, d ≠ .map l) → r = .error .typeError → Ec2Rest C c n x y d t r
  /-- A private value given as a list of byte values is always refused; the exception depends on the list. -/
  | list {e : PyErr} : truthy d = true → ((∃ l, d = .arr l) ∨ ∃ l, d = .map l) → r = .error e → Ec2Rest C c n x y d t r
  /-- Both coordinates: they are taken as they are. -/
  | coordinates : truthy d = false → truthy y = true →
      Spec.Outcome [(∃ b, x = .bytes b, .typeError), (∃ b, y = .bytes b, .typeError), (∃ b, d = .bytes b, .typeError)]
        (Spec.MakesKey .ec2 (Spec.put (Spec.put t (.cls ⟨.kpEc2, -2⟩) x) (.cls ⟨.kpEc2, -3⟩) y)) r → Ec2Rest C c n x y d t r
  /-- Only x: y is the one of the compressed point. -/
  | compact {b : Bytes} : truthy d = false → truthy y = false → x = .bytes b →
      Spec.Then (C.ecDecompress c b) (fun p => Spec.Outcome
        [(p.1 < 256 ^ n, .overflowError), (b = beBytes n p.1, .assertionError), (p.2 < 256 ^ n, .overflowError), (∃ b, d = .bytes b, .typeError)]
        (Spec.MakesKey .ec2 (Spec.put (Spec.put t (.cls ⟨.kpEc2, -2⟩) x) (.cls ⟨.kpEc2, -3⟩) (.bytes (beBytes n p.2))))) r → Ec2Rest C c n x y d t r
  | noBytes : truthy d = false → truthy y = false → (∀ b, x ≠ .bytes b) → r = .error .typeError → Ec2Rest C c n x y d t r

/-! ### Helpers -/

theorem coded_parser {kd : Kind} {c : Cls} {n : Bytes} (h : (c, n) ∈ Spec.params kd) :
    (∀ r, (c, r) ∈ Spec.coded kd → ∀ v, simpleParser c v = fromId r v) ∧ ((∀ r, (c, r) ∉ Spec.coded kd) → ∀ v, simpleParser c v = .ok v) := by
  have hr : c.reg = .kp ∨ c.reg = kindReg kd := by
    have : ∀ kd : Kind, ∀ p ∈ Spec.params kd, p.1.reg = .kp ∨ p.1.reg = kindReg kd := by
      intro kd; cases kd <;> decide +kernel
    exact this kd _ h
  obtain ⟨g, i⟩ := c
  simp only at hr
  constructor
  · intro r hm v
    rcases hr with rfl | rfl <;> cases kd <;> simp [Spec.coded, kindReg] at hm <;>
      (first
        | (rcases hm with ⟨rfl, rfl⟩ | ⟨rfl, rfl⟩ | ⟨rfl, rfl⟩ <;> rfl)
        | (obtain ⟨rfl, rfl⟩ := hm; rfl))
  · intro hm v
    rcases hr with rfl | rfl
    · have h1 : i ≠ 1 := by rintro rfl; exact hm .kty (by cases kd <;> simp [Spec.coded])
      have h2 : i ≠ 3 := by rintro rfl; exact hm .alg (by cases kd <;> simp [Spec.coded])
      have h3 : i ≠ 4 := by rintro rfl; exact hm .op (by cases kd <;> simp [Spec.coded])
      simp [simpleParser, h1, h2, h3]
    · cases kd
      · simp [simpleParser, kindReg]
      · have h1 : i ≠ -1 := by rintro rfl; exact hm .crv (by simp [Spec.coded, kindReg])
        simp [simpleParser, kindReg, h1]
      · have h1 : i ≠ -1 := by rintro rfl; exact hm .crv (by simp [Spec.coded, kindReg])
        simp [simpleParser, kindReg, h1]
      · simp [simpleParser, kindReg]

theorem coded_dec {kd : Kind} (c : Cls) : (∃ r, (c, r) ∈ Spec.coded kd) ∨ ∀ r, (c, r) ∉ Spec.coded kd := by
  by_cases h : ∃ r, (c, r) ∈ Spec.coded kd
  · exact .inl h
  · exact .inr fun r hr => h ⟨r, hr⟩

theorem paramArg_iff {kd : Kind} {allow : Bool} {q v a w : Val} (ho : ∀ c, q = .cls c → ∃ p ∈ Spec.params kd, p.1.ident = c.ident) :
    Spec.ParamArg kd allow (q, v) (a, w) ↔ fromIdKey (kindReg kd) q allow = .ok a ∧ parsedVal simpleParser a v = .ok w := by
  constructor
  · intro h
    cases h with
    | coded h1 h2 h3 h4 =>
      exact ⟨by simp [fromIdKey, denotes_resolve.mpr ⟨_, h1, h2⟩], by simp only [parsedVal]; rw [(coded_parser h1).1 _ h3]; exact attrArg_iff.mp h4⟩
    | plain h1 h2 h3 =>
      exact ⟨by simp [fromIdKey, denotes_resolve.mpr ⟨_, h1, h2⟩], by simp only [parsedVal]; rw [(coded_parser h1).2 h3]⟩
    | unknown ha hu =>
      refine ⟨by simp [fromIdKey, unknown_iff.mp hu, ha], ?_⟩
      cases q <;> simp only [parsedVal]
      obtain ⟨p, hp, hi⟩ := ho _ rfl
      exact absurd hi.symm (hu p hp)
  · rintro ⟨h1, h2⟩
    rcases fromIdKey_ok h1 with ⟨c, hc, rfl⟩ | ⟨hn, ha, rfl⟩
    · obtain ⟨n, hn, hd⟩ := denotes_resolve.mp hc
      simp only [parsedVal] at h2
      rcases coded_dec (kd := kd) c with ⟨r, hr⟩ | hr
      · rw [(coded_parser hn).1 _ hr] at h2
        exact .coded hn hd hr (attrArg_iff.mpr h2)
      · rw [(coded_parser hn).2 hr] at h2
        injection h2 with h2
        subst h2
        exact .plain hn hd hr
    · have hw : w = v := by
        cases a <;> simp [parsedVal] at h2 <;> try exact h2.symm
        obtain ⟨p, hp, hi⟩ := ho _ rfl
        exact absurd hi.symm (unknown_iff.mpr hn p hp)
      subst hw
      exact .unknown ha (unknown_iff.mpr hn)

/-- A single optional parameter that is not read raises `CoseException`. -/
theorem paramArg_error {kd : Kind} {allow : Bool} {q v : Val} {e : PyErr} (ho : ∀ c, q = .cls c → ∃ p ∈ Spec.params kd, p.1.ident = c.ident)
    (h : (do let a ← fromIdKey (kindReg kd) q allow; parsedVal simpleParser a v) = .error e) : e = .coseException := by
  rcases bind_eq_error.mp h with h' | ⟨a, h1, h'⟩
  all_goals clear h; have h := h'; clear h'
  · unfold fromIdKey at h
    split at h
    · simp at h
    · split at h <;> simp at h; exact h.symm
  · rcases fromIdKey_ok h1 with ⟨c, hc, rfl⟩ | ⟨hn, ha, rfl⟩
    · obtain ⟨n, hn, hd⟩ := denotes_resolve.mp hc
      simp only [parsedVal] at h
      rcases coded_dec (kd := kd) c with ⟨r, hr⟩ | hr
      · rw [(coded_parser hn).1 _ hr] at h
        exact fromId_error v h
      · rw [(coded_parser hn).2 hr] at h
        simp at h
    · have : parsedVal simpleParser a v = .ok v := by
        cases a <;> first
          | rfl
          | (obtain ⟨p, hp, hi⟩ := ho _ rfl
             exact absurd hi.symm (unknown_iff.mpr hn p hp))
      rw [this] at h
      simp at h

theorem reads_parse {kd : Kind} {allow : Bool} (opt : Dict) (ho : Spec.OwnClasses kd opt) (acc : Dict) :
    (∃ es, Spec.Reads kd allow opt es ∧ parseAttrs (kindReg kd) allow simpleParser acc opt = .ok (dupdate acc es)) ∨
    ((¬ ∃ es, Spec.Reads kd allow opt es) ∧ parseAttrs (kindReg kd) allow simpleParser acc opt = .error .coseException) := by
  induction opt generalizing acc with
  | nil => exact .inl ⟨[], .nil, rfl⟩
  | cons p t ih =>
    obtain ⟨q, v⟩ := p
    have hq : ∀ c, q = .cls c → ∃ p ∈ Spec.params kd, p.1.ident = c.ident := fun c hc => ho c v (by simp [hc])
    have ht : Spec.OwnClasses kd t := fun c v h => ho c v (by simp [h])
    have e : parseAttrs (kindReg kd) allow simpleParser acc ((q, v) :: t) =
        (do let aw ← (do let a ← fromIdKey (kindReg kd) q allow; let w ← parsedVal simpleParser a v; .ok (a, w))
            parseAttrs (kindReg kd) allow simpleParser (dset acc aw.1 aw.2) t) := by
      rw [parseAttrs_cons]
      cases fromIdKey (kindReg kd) q allow with
      | error e => rfl
      | ok a => simp only [ok_bind]; cases parsedVal simpleParser a v <;> rfl
    cases hc : (do let a ← fromIdKey (kindReg kd) q allow; let w ← parsedVal simpleParser a v; .ok (a, w)) with
    | error e' =>
      have he : e' = .coseException := by
        refine paramArg_error (allow := allow) (v := v) hq ?_
        cases h1 : fromIdKey (kindReg kd) q allow with
        | error e => rw [h1] at hc; cases hc; rfl
        | ok a =>
          rw [h1] at hc
          simp only [ok_bind] at hc ⊢
          cases h2 : parsedVal simpleParser a v with
          | error e => rw [h2] at hc; cases hc; rfl
          | ok w => rw [h2] at hc; simp at hc
      refine .inr ⟨?_, by rw [e, hc, he]; rfl⟩
      rintro ⟨es, hes⟩
      cases hes with
      | cons h1 h2 =>
        rename_i b m
        obtain ⟨a, w⟩ := b
        obtain ⟨h3, h4⟩ := (paramArg_iff hq).mp h1
        rw [h3, ok_bind, h4] at hc
        simp at hc
    | ok aw =>
      obtain ⟨a, w⟩ := aw
      have h1 : Spec.ParamArg kd allow (q, v) (a, w) := by
        simp only [bind_eq_ok] at hc
        obtain ⟨a', h3, w', h4, h5⟩ := hc
        simp at h5
        obtain ⟨rfl, rfl⟩ := h5
        exact (paramArg_iff hq).mpr ⟨h3, h4⟩
      rw [e, hc, ok_bind]
      rcases ih ht (dset acc a w) with ⟨es, h2, h3⟩ | ⟨h2, h3⟩
      · exact .inl ⟨(a, w) :: es, .cons h1 h2, h3⟩
      · refine .inr ⟨?_, h3⟩
        rintro ⟨es, hes⟩
        cases hes with
        | cons _ h => exact h2 ⟨_, h⟩

theorem reads_unique {kd : Kind} {allow : Bool} {opt : Dict} (ho : Spec.OwnClasses kd opt) {es es' : Dict} (h : Spec.Reads kd allow opt es)
    (h' : Spec.Reads kd allow opt es') : es = es' := by
  unfold Spec.Reads at h h'
  induction h generalizing es' with
  | nil => cases h'; rfl
  | cons h1 h2 ih =>
    rename_i p b t m
    cases h' with
    | cons h3 h4 =>
      rename_i b' m'
      obtain ⟨q, v⟩ := p
      obtain ⟨a, w⟩ := b
      obtain ⟨a', w'⟩ := b'
      have hq : ∀ c, q = .cls c → ∃ p ∈ Spec.params kd, p.1.ident = c.ident := fun c hc => ho c v (by simp [hc])
      obtain ⟨e1, e2⟩ := (paramArg_iff hq).mp h1
      obtain ⟨e3, e4⟩ := (paramArg_iff hq).mp h3
      rw [e1] at e3; injection e3 with e3; subst e3
      rw [e2] at e4; injection e4 with e4; subst e4
      rw [ih (fun c v h => ho c v (by simp [h])) h4]

/-- The values of a registered parameter in entries that were read. -/
theorem reads_coded {kd : Kind} {allow : Bool} {opt es : Dict} (ho : Spec.OwnClasses kd opt) (h : Spec.Reads kd allow opt es) {c : Cls} {r : Reg}
    (hc : (c, r) ∈ Spec.coded kd) {v : Val} (hl : Spec.last es (.cls c) = some v) : (∃ c', v = .cls c') ∨ ∃ l, v = .arr l := by
  unfold Spec.last at hl
  simp only [Option.map_eq_some_iff] at hl
  obtain ⟨⟨a, w⟩, hf, rfl⟩ := hl
  have hm := List.mem_of_find?_eq_some hf
  have hk := List.find?_some hf
  simp only at hk
  simp only [List.mem_reverse] at hm
  have ha : a = .cls c := keq_cls_right.mp hk
  subst ha
  clear hf hk
  unfold Spec.Reads at h
  induction h with
  | nil => simp at hm
  | cons h1 h2 ih =>
    rename_i p b t m
    rcases List.mem_cons.mp hm with e | e
    · subst e
      cases h1 with
      | coded h1 h2 h3 h4 =>
        rcases attrArg_shape h4 with ⟨c', h, _⟩ | h
        · exact .inl ⟨c', h⟩
        · exact .inr h
      | plain h1 h2 h3 => exact absurd hc (h3 r)
      | unknown ha hu =>
        obtain ⟨p, hp, hi⟩ := ho c w (by simp)
        exact absurd hi.symm (hu p hp)
    · exact ih (fun c v h => ho c v (by simp [h])) e

theorem initStore_outcome {kd : Kind} {allow : Bool} {opt : Dict} (ho : Spec.OwnClasses kd opt) :
    Spec.Outcome (Spec.optionalUse kd allow opt) (fun r => ∃ s, r = .ok s ∧ KeysNodup s ∧ Spec.Holding kd allow opt (dget s)) (initStore kd opt allow) := by
  have hget : ∀ es q, dget (dupdate [(.cls KpKty, .cls (kindKty kd))] es) q =
      (Spec.last es q).or (if keq (.cls ⟨.kp, 1⟩) q then some (.cls (Spec.ktyClass kd)) else none) := by
    intro es q
    rw [dget_dupdate_last, ← spec_ktyClass]
    rfl
  rcases reads_parse opt ho [(.cls KpKty, .cls (kindKty kd))] with ⟨es, hr, hp⟩ | ⟨hr, hp⟩
  rotate_left
  · exact outcome_cons (fun _ => by rw [initStore, hp]; rfl) (fun h => absurd h hr)
  have hnd : KeysNodup (dupdate [(.cls KpKty, .cls (kindKty kd))] es) := dupdate_nodup (by simp [KeysNodup]) es
  have e : initStore kd opt allow = (if dget (dupdate [(.cls KpKty, .cls (kindKty kd))] es) (.cls KpKty) ≠ some (.cls (kindKty kd)) then .error .illegalKeyType
      else match dget (dupdate [(.cls KpKty, .cls (kindKty kd))] es) (.cls KpKeyOps) with
        | none => .ok (dupdate [(.cls KpKty, .cls (kindKty kd))] es)
        | some v => do
          let n ← lenOf v
          if n = 0 then .ok (ddel (dupdate [(.cls KpKty, .cls (kindKty kd))] es) (.cls KpKeyOps)) else .ok (dupdate [(.cls KpKty, .cls (kindKty kd))] es)) := by
    simp only [initStore, hp, ok_bind]
    rfl
  have hkty : dget (dupdate [(.cls KpKty, .cls (kindKty kd))] es) (.cls KpKty) = some (.cls (kindKty kd)) ↔
      (∀ v, Spec.last es (.cls ⟨.kp, 1⟩) = some v → v = .cls (Spec.ktyClass kd)) := by
    rw [hget, spec_ktyClass]
    show (Spec.last es (.cls ⟨.kp, 1⟩)).or (if keq (.cls ⟨.kp, 1⟩) (.cls ⟨.kp, 1⟩) then _ else none) = _ ↔ _
    cases Spec.last es (.cls ⟨.kp, 1⟩) <;> simp [keq_refl]
  have hops : dget (dupdate [(.cls KpKty, .cls (kindKty kd))] es) (.cls KpKeyOps) = Spec.last es (.cls ⟨.kp, 4⟩) := by
    rw [hget]
    show (Spec.last es (.cls ⟨.kp, 4⟩)).or (if keq (.cls ⟨.kp, 1⟩) (.cls ⟨.kp, 4⟩) then _ else none) = _
    simp [show keq (.cls ⟨.kp, 1⟩) (.cls ⟨.kp, 4⟩) = false from by decide]
  rw [e]
  refine outcome_cons (fun h => absurd ⟨es, hr⟩ h) fun _ => outcome_cons (fun h => ?_) fun h1 => ?_
  · rw [if_pos]
    intro h'
    exact h fun es' v hr' hv => hkty.mp h' v (by rw [reads_unique ho hr hr']; exact hv)
  rw [if_neg (by rw [Classical.not_not]; exact hkty.mpr fun v => h1 es v hr), hops]
  refine outcome_cons (fun h => ?_) fun h2 => outcome_nil ?_
  · have : ∃ v, Spec.last es (.cls ⟨.kp, 4⟩) = some v ∧ ¬ ∃ l, v = .arr l := by
      refine Classical.byContradiction fun hc => h fun es' v hr' hv => ?_
      refine Classical.byContradiction fun hl => hc ⟨v, by rw [reads_unique ho hr hr']; exact hv, hl⟩
    obtain ⟨v, hv, hl⟩ := this
    rcases reads_coded ho hr (r := .op) (by cases kd <;> simp [Spec.coded]) hv with ⟨c, rfl⟩ | hl'
    · rw [hv]; rfl
    · exact absurd hl' hl
  · cases hv : Spec.last es (.cls ⟨.kp, 4⟩) with
    | none =>
      refine ⟨_, rfl, hnd, es, hr, fun q => ?_⟩
      rw [if_neg (by rw [hv]; simp)]
      exact hget es q
    | some v =>
      obtain ⟨l, rfl⟩ := h2 es v hr hv
      simp only [lenOf, ok_bind]
      by_cases hl : l = []
      · subst hl
        refine ⟨_, rfl, ddel_keysNodup hnd _, es, hr, fun q => ?_⟩
        rw [dget_ddel hnd, hget, hv]
        by_cases hq : keq (.cls ⟨.kp, 4⟩) q = true
        · rw [if_pos hq, if_pos ⟨hq, rfl⟩]
        · have : ¬ (keq (.cls ⟨.kp, 4⟩) q = true ∧ (some (.arr []) : Option Val) = some (.arr [])) := fun h => hq h.1
          rw [if_neg hq, if_neg this]
      · rw [if_neg (by simpa using hl)]
        refine ⟨_, rfl, hnd, es, hr, fun q => ?_⟩
        rw [if_neg (by rw [hv]; simp [hl])]
        exact hget es q

theorem optional_bind {kd : Kind} {allow : Bool} {opt : Dict} (ho : Spec.OwnClasses kd opt) {f : Dict → Res Key} {l : List (Prop × PyErr)} {rest : Res Key → Prop}
    (h : ∀ s, Spec.Holding kd allow opt (dget s) → Spec.Outcome l rest (f s)) :
    Spec.Outcome (Spec.optionalUse kd allow opt ++ l) rest (initStore kd opt allow >>= f) := by
  apply outcome_append
  rcases initStore_outcome (allow := allow) ho with ⟨e, h1, h2⟩ | ⟨h1, s, h2, _, h3⟩
  · exact .inl ⟨e, h1, by rw [h2]; rfl⟩
  · exact .inr ⟨h1, by rw [h2, ok_bind]; exact h s h3⟩

theorem curve_bind {kd : Kind} {kty : Cls} {ids : List Int} {v : Val} {f : Cls → Res Key} {l : List (Prop × PyErr)} {rest : Res Key → Prop}
    (hk : (kd = .ec2 ∧ kty = KtyEC2 ∧ ids = [1, 2, 3, 8]) ∨ (kd = .okp ∧ kty = KtyOKP ∧ ids = [4, 5, 6, 7]))
    (h : ∀ c, Spec.CurveArg v c → crvKind c = some kty → Spec.Outcome l rest (f c)) :
    Spec.Outcome (Spec.curveUse v ids ++ l) rest (if v = .none then .error .invalidKey else parseCrv kty v >>= f) := by
  have hids : ∀ {c : Cls} {n : Bytes}, (c, n) ∈ registry .crv → (crvKind c = some kty ↔ c.ident ∈ ids) := by
    intro c n hc
    rcases hk with ⟨_, rfl, rfl⟩ | ⟨_, rfl, rfl⟩
    · rw [(crv_kind hc).1]; simp
    · rw [(crv_kind hc).2]; simp
  refine outcome_cons (fun h => by rw [if_pos (Classical.not_not.mp h)]) fun h1 => ?_
  rw [if_neg h1]
  refine outcome_cons (fun hn => ?_) fun h2 => ?_
  · rw [parseCrv, attrArg_none (fun w hw => hn ⟨w, hw⟩)]; rfl
  obtain ⟨w, hw⟩ := h2
  have hf := attrArg_iff.mp hw
  refine outcome_cons (fun hn => ?_) fun h3 => ?_
  · rcases attrArg_shape hw with ⟨c, rfl, _⟩ | ⟨m, rfl⟩
    · exact absurd ⟨c, hw⟩ hn
    · rw [parseCrv, hf]; rfl
  obtain ⟨c, hc⟩ := h3
  have hreg : ∃ n, (c, n) ∈ registry .crv := by
    rcases attrArg_shape hc with ⟨c', e, h⟩ | ⟨m, e⟩
    · injection e with e; rw [e]; exact h
    · simp at e
  obtain ⟨n, hreg⟩ := hreg
  have hp : parseCrv kty v = if crvKind c = some kty then .ok c else .error .unsupportedCurve := by
    rw [parseCrv, attrArg_iff.mp hc]; rfl
  rw [hp]
  refine outcome_cons (fun hn => ?_) fun h4 => ?_
  · rw [if_neg (fun hk => hn ⟨c, hc, (hids hreg).mp hk⟩)]; rfl
  obtain ⟨c', hc', hi⟩ := h4
  have : c' = c := by
    have := (attrArg_iff.mp hc').symm.trans (attrArg_iff.mp hc)
    injection this with this; injection this
  subst this
  rw [if_pos ((hids hreg).mpr hi), ok_bind]
  exact h _ hc ((hids hreg).mpr hi)

theorem give_bind {s : Dict} {c : Cls} {v : Val} {f : Dict → Res Key} {l : List (Prop × PyErr)} {rest : Res Key → Prop}
    (h : ∀ s', (∀ q, dget s' q = Spec.give (dget s) c v q) → (∃ b, v = .bytes b) → Spec.Outcome l rest (f s')) :
    Spec.Outcome ((∃ b, v = .bytes b, .typeError) :: l) rest (setIfNonEmpty s c v >>= f) := by
  by_cases hv : ∃ b, v = .bytes b
  · obtain ⟨b, rfl⟩ := hv
    refine outcome_cons (fun h => absurd ⟨b, rfl⟩ h) fun hb => ?_
    by_cases hb' : b = []
    · subst hb'
      exact h s (fun q => by simp [Spec.give]) hb
    · simp only [setIfNonEmpty, Val.bytes.injEq, hb', if_false, setBytes, ok_bind]
      exact h _ (fun q => by rw [dget_dset]; simp [Spec.give, hb', Spec.put]) hb
  · refine outcome_cons (fun _ => ?_) fun h => absurd h hv
    have : v ≠ .bytes [] := fun h => hv ⟨[], h⟩
    rw [setIfNonEmpty, if_neg this]
    cases v <;> first | rfl | (exact absurd ⟨_, rfl⟩ hv)

/-! ### The properties -/

/-- **C92**, symmetric keys. -/
theorem c92_symmetric {k : Val} {opt : Dict} {allow : Bool} (ho : Spec.OwnClasses .sym opt) :
    Spec.Outcome (Spec.optionalUse .sym allow opt ++ [(k ≠ .bytes [], .invalidKey), (∃ b, k = .bytes b, .valueError),
        (∀ b, k = .bytes b → b.length = 16 ∨ b.length = 24 ∨ b.length = 32, .invalidKey)])
      (fun r => ∃ t, Spec.Holding .sym allow opt t ∧ Spec.MakesKey .sym (Spec.put t (.cls ⟨.kpSym, -1⟩) k) r) (symInit k opt allow) := by
  refine optional_bind (f := fun s => if k = .bytes [] then .error .invalidKey else do let s ← setSymK s k; .ok { kind := .sym, store := s }) ho fun s hs => ?_
  refine outcome_cons (fun h => by rw [if_pos (Classical.not_not.mp h)]) fun h1 => ?_
  rw [if_neg h1]
  refine outcome_cons (fun h => ?_) fun h2 => ?_
  · cases k <;> first | rfl | exact absurd ⟨_, rfl⟩ h
  obtain ⟨b, rfl⟩ := h2
  refine outcome_cons (fun h => ?_) fun h3 => outcome_nil ⟨dget s, hs, ?_⟩
  · rw [setSymK, if_neg (fun h' => h fun b' e => by injection e with e; rw [← e]; exact h')]; rfl
  · rw [setSymK, if_pos (h3 b rfl), ok_bind]
    exact ⟨_, rfl, rfl, fun q => by simp only [Key.table, dget_dset]; rfl⟩

theorem sized_iff {v : Val} : Spec.Sized v ↔ ∃ n, lenOf v = .ok n := by cases v <;> simp [Spec.Sized, lenOf]

theorem unsized {v : Val} (h : ¬ Spec.Sized v) : lenOf v = .error .typeError := by cases v <;> simp_all [Spec.Sized, lenOf]

theorem hollow_iff {v : Val} : Spec.Hollow v ↔ lenOf v = .ok 0 := by cases v <;> simp [Spec.Hollow, lenOf]

/-- **C92**, OKP keys. -/
theorem c92_okp {crv x d : Val} {opt : Dict} {allow : Bool} (ho : Spec.OwnClasses .okp opt) :
    Spec.Outcome (Spec.optionalUse .okp allow opt ++ [(Spec.Sized x, .typeError), (Spec.Hollow x → Spec.Sized d, .typeError),
        (¬ (Spec.Hollow x ∧ Spec.Hollow d), .invalidKey)] ++ Spec.curveUse crv [4, 5, 6, 7] ++
        [(∃ b, x = .bytes b, .typeError), (∃ b, d = .bytes b, .typeError)])
      (fun r => ∃ c t, Spec.CurveArg crv c ∧ Spec.Holding .okp allow opt t ∧
        Spec.MakesKey .okp (Spec.give (Spec.give (Spec.put t (.cls ⟨.kpOkp, -1⟩) (.cls c)) ⟨.kpOkp, -2⟩ x) ⟨.kpOkp, -4⟩ d) r)
      (okpInit crv x d opt allow) := by
  rw [List.append_assoc, List.append_assoc]
  unfold okpInit
  refine optional_bind ho fun s hs => ?_
  have main : ∀ be : Bool, (be = true ↔ Spec.Hollow x ∧ Spec.Hollow d) →
      Spec.Outcome ((¬ (Spec.Hollow x ∧ Spec.Hollow d), .invalidKey) :: (Spec.curveUse crv [4, 5, 6, 7] ++ [(∃ b, x = .bytes b, .typeError), (∃ b, d = .bytes b, .typeError)]))
      (fun r => ∃ c t, Spec.CurveArg crv c ∧ Spec.Holding .okp allow opt t ∧
        Spec.MakesKey .okp (Spec.give (Spec.give (Spec.put t (.cls ⟨.kpOkp, -1⟩) (.cls c)) ⟨.kpOkp, -2⟩ x) ⟨.kpOkp, -4⟩ d) r)
      (if be = true then .error .invalidKey else if crv = .none then .error .invalidKey else do
        let c ← parseCrv KtyOKP crv
        let s := dset s (.cls OkpCrv) (.cls c)
        let s ← setIfNonEmpty s OkpX x
        let s ← setIfNonEmpty s OkpD d
        .ok { kind := .okp, store := s }) := by
    intro be hbe
    refine outcome_cons (fun h => by rw [if_pos (hbe.mpr (Classical.not_not.mp h))]) fun h1 => ?_
    rw [if_neg (fun h => h1 (hbe.mp h))]
    refine curve_bind (kd := .okp) (.inr ⟨rfl, rfl, rfl⟩) fun c hc _ => ?_
    refine give_bind fun s1 h1 _ => give_bind fun s2 h2 _ => outcome_nil ⟨c, dget s, hc, hs, _, rfl, rfl, fun q => ?_⟩
    simp only [Key.table, h2]
    have e1 : dget s1 = Spec.give (Spec.put (dget s) (.cls ⟨.kpOkp, -1⟩) (.cls c)) ⟨.kpOkp, -2⟩ x := by
      funext q
      rw [h1]
      have e0 : dget (dset s (.cls OkpCrv) (.cls c)) = Spec.put (dget s) (.cls ⟨.kpOkp, -1⟩) (.cls c) := by
        funext q; rw [dget_dset]; rfl
      rw [e0]
    rw [e1]
  refine outcome_cons (fun h => by rw [unsized h]; rfl) fun hx => ?_
  obtain ⟨lx, hlx⟩ := sized_iff.mp hx
  rw [hlx, ok_bind]
  by_cases hl : lx = 0
  · subst hl
    have hx := hollow_iff.mpr hlx
    refine outcome_cons (fun h => ?_) fun hd => ?_
    · rw [unsized (fun h' => h fun _ => h')]; rfl
    · obtain ⟨ld, hld⟩ := sized_iff.mp (hd hx)
      rw [if_pos rfl, hld, ok_bind, ok_bind]
      refine main _ ?_
      rw [hollow_iff (v := d), hld]
      simp [hx]
  · have hx : ¬ Spec.Hollow x := by rw [hollow_iff, hlx]; simpa using hl
    refine outcome_cons (fun h => absurd (fun h' => absurd h' hx) h) fun _ => ?_
    rw [if_neg hl, ok_bind]
    exact main _ (by simp [hx])

theorem toBytes_bind {α : Type} {m n : Nat} {f : Bytes → Res α} {l : List (Prop × PyErr)} {rest : Res α → Prop}
    (h : m < 256 ^ n → Spec.Outcome l rest (f (beBytes n m))) : Spec.Outcome ((m < 256 ^ n, .overflowError) :: l) rest (toBytes m n >>= f) := by
  refine outcome_cons (fun hn => by rw [toBytes, if_neg hn]; rfl) fun hp => ?_
  rw [toBytes, if_pos hp, ok_bind]
  exact h hp

theorem checkOrDerive_bind {α : Type} {v : Val} {b : Bytes} {f : Val → Res α} {l : List (Prop × PyErr)} {rest : Res α → Prop}
    (h : Spec.Outcome l rest (f (.bytes b))) : Spec.Outcome ((truthy v = true → v = .bytes b, .assertionError) :: l) rest (checkOrDerive v b >>= f) := by
  refine outcome_cons (fun hn => ?_) fun hp => ?_
  · have h1 : truthy v = true := Classical.byContradiction fun h => hn fun h' => absurd h' h
    have h2 : v ≠ .bytes b := fun h => hn fun _ => h
    rw [checkOrDerive, if_pos h1, if_neg h2]; rfl
  · have : checkOrDerive v b = .ok (.bytes b) := by
      unfold checkOrDerive
      split
      · rename_i ht; rw [hp ht, if_pos rfl]
      · rfl
    rw [this, ok_bind]
    exact h

theorem truthy_ne {v : Val} (h : truthy v = true) : v ≠ .bytes [] := by rintro rfl; simp [truthy] at h

theorem give_put {t : Val → Option Val} {c : Cls} {v : Val} (h : v ≠ .bytes []) : Spec.give t c v = Spec.put t (.cls c) v := by simp [Spec.give, h]

theorem beBytes_ne {n m : Nat} (h : n ≠ 0) : (.bytes (beBytes n m) : Val) ≠ .bytes [] := by
  intro e
  injection e with e
  have := congrArg List.length e
  rw [beBytes_length] at this
  simp at this; exact h this

/-- The last steps of the EC2 constructor. -/
def ec2Store (s : Dict) (x y d : Val) : Res Key := do
  let s ← setIfNonEmpty s Ec2X x
  let s ← setIfNonEmpty s Ec2Y y
  let s ← setIfNonEmpty s Ec2D d
  .ok { kind := .ec2, store := s }

theorem ec2Store_outcome {s : Dict} {x y d : Val} :
    Spec.Outcome [(∃ b, x = .bytes b, .typeError), (∃ b, y = .bytes b, .typeError), (∃ b, d = .bytes b, .typeError)]
      (Spec.MakesKey .ec2 (Spec.give (Spec.give (Spec.give (dget s) ⟨.kpEc2, -2⟩ x) ⟨.kpEc2, -3⟩ y) ⟨.kpEc2, -4⟩ d)) (ec2Store s x y d) := by
  unfold ec2Store
  refine give_bind fun s1 h1 _ => give_bind fun s2 h2 _ => give_bind fun s3 h3 _ => outcome_nil ⟨_, rfl, rfl, fun q => ?_⟩
  have e1 := funext h1
  have e2 := funext h2
  simp only [Key.table, h3, e2, e1]

theorem ec2Store_bytes {s : Dict} {x y d : Bytes} :
    Spec.MakesKey .ec2 (Spec.give (Spec.give (Spec.give (dget s) ⟨.kpEc2, -2⟩ (.bytes x)) ⟨.kpEc2, -3⟩ (.bytes y)) ⟨.kpEc2, -4⟩ (.bytes d))
      (ec2Store s (.bytes x) (.bytes y) (.bytes d)) := by
  rcases ec2Store_outcome (s := s) (x := .bytes x) (y := .bytes y) (d := .bytes d) with ⟨e, h, _⟩ | ⟨_, h⟩
  · simp [Spec.FirstUnmet] at h
  · exact h

/-- **C92**, EC2 keys. -/
theorem c92_ec2 {C : Crypto} {crv x y d : Val} {opt : Dict} {allow : Bool} (ho : Spec.OwnClasses .ec2 opt) :
    Spec.Outcome (Spec.optionalUse .ec2 allow opt ++ Spec.curveUse crv [1, 2, 3, 8] ++ [(truthy x = true ∨ truthy d = true, .invalidKey)])
      (fun r => ∃ c n t, Spec.CurveArg crv c ∧ (c, n) ∈ Spec.coordBytes ∧ Spec.Holding .ec2 allow opt t ∧
        Spec.Ec2Rest C c n x y d (Spec.put t (.cls ⟨.kpEc2, -1⟩) (.cls c)) r)
      (ec2Init C crv x y d opt allow) := by
  rw [List.append_assoc]
  unfold ec2Init
  refine optional_bind ho fun s hs => ?_
  refine curve_bind (kd := .ec2) (.inl ⟨rfl, rfl, rfl⟩) fun c hc hk => ?_
  have hcoord := coordBytes_mem hk
  have hsz : crvSize c ≠ 0 := by
    rcases ec2_curves hk with rfl | rfl | rfl | rfl <;> decide
  have ht : ∀ m, truthy (.bytes (beBytes (crvSize c) m)) = true := fun m => truthy_bytes (beBytes_length _ _) hsz
  have e0 : dget (dset s (.cls Ec2Crv) (.cls c)) = Spec.put (dget s) (.cls ⟨.kpEc2, -1⟩) (.cls c) := by
    funext q; rw [dget_dset]; rfl
  refine outcome_cons (fun h => ?_) fun hxd => outcome_nil ⟨c, crvSize c, dget s, hc, hcoord, hs, ?_⟩
  · have h1 : truthy x = false := by simpa using fun h' => h (.inl h')
    have h2 : truthy d = false := by simpa using fun h' => h (.inr h')
    simp [h1, h2]
  have g1 : ¬ (truthy x = false ∧ truthy y = false ∧ truthy d = false) := by
    rintro ⟨h1, _, h2⟩; simp [h1, h2] at hxd
  have g2 : ¬ (truthy d = false ∧ truthy x = false) := by
    rintro ⟨h1, h2⟩; simp [h1, h2] at hxd
  simp only [if_neg g1, if_neg g2]
  rw [← e0]
  generalize dset s (.cls Ec2Crv) (.cls c) = s'
  cases hd : truthy d with
  | true =>
    by_cases hb : ∃ b, d = .bytes b
    · obtain ⟨b, rfl⟩ := hb
      have hb : b ≠ [] := by rintro rfl; simp [truthy] at hd
      refine .secret rfl hb ?_
      simp only [if_true, intFromBytes, ok_bind]
      refine then_bind fun p hp => ?_
      refine toBytes_bind fun _ => checkOrDerive_bind (toBytes_bind fun _ => checkOrDerive_bind (outcome_nil ?_))
      simp only [ht, Bool.true_eq_false, and_false, if_false]
      have := ec2Store_bytes (s := s') (x := beBytes (crvSize c) p.1) (y := beBytes (crvSize c) p.2) (d := b)
      rw [give_put (beBytes_ne hsz), give_put (beBytes_ne hsz), give_put (by simpa using hb)] at this
      exact this
    · by_cases hl : (∃ l, d = .arr l) ∨ ∃ l, d = .map l
      · have key : ∀ r : Res Key, (∀ k, r ≠ .ok k) → Spec.Ec2Rest C c (crvSize c) x y d (dget s') r := by
          intro r hr
          cases r with
          | ok k => exact absurd rfl (hr k)
          | error e => exact .list hd hl rfl
        refine key _ fun k hk => ?_
        simp only [if_true, bind_eq_ok] at hk
        obtain ⟨n, _, p, _, bx, _, x', _, bY, _, y', _, hk⟩ := hk
        have hset : ∀ s2 s3 : Dict, setIfNonEmpty s2 Ec2D d ≠ .ok s3 := by
          intro s2 s3 h
          rcases setIfNonEmpty_ok h with ⟨h, _⟩ | ⟨b, _, h, _⟩
          · exact hb ⟨_, h⟩
          · exact hb ⟨_, h⟩
        obtain ⟨a, _, hk⟩ := hk
        have hend : ∀ s1 v, (do
            let s ← setIfNonEmpty s1 Ec2X a.1
            let s ← setIfNonEmpty s Ec2Y v
            let s ← setIfNonEmpty s Ec2D d
            .ok { kind := .ec2, store := s }) ≠ (.ok k : Res Key) := by
          intro s1 v h
          simp only [bind_eq_ok] at h
          obtain ⟨s2, _, s3, _, s4, h4, h⟩ := h
          simp at h
          subst h
          exact hset _ _ h4
        split at hk
        · split at hk
          · simp only [bind_eq_ok] at hk
            obtain ⟨q, _, b, _, hk⟩ := hk
            split at hk
            · simp only [bind_eq_ok] at hk
              obtain ⟨b', _, v, _, hk⟩ := hk
              exact hend s' v (by simp only [bind_eq_ok]; exact hk)
            · exact absurd hk (by intro h; cases h)
          · exact absurd hk (by intro h; cases h)
        · exact hend s' a.2 hk
      · refine .noNumber hd (fun b h => hb ⟨b, h⟩) (fun l h => hl (.inl ⟨l, h⟩)) (fun l h => hl (.inr ⟨l, h⟩)) ?_
        have : intFromBytes d = .error .typeError := by
          cases d <;> first | rfl | exact absurd ⟨_, rfl⟩ hb | exact absurd (.inl ⟨_, rfl⟩) hl | exact absurd (.inr ⟨_, rfl⟩) hl
        simp only [if_true, this]
        rfl
  | false =>
    have hx : truthy x = true := by simpa [hd] using hxd
    simp only [Bool.false_eq_true, if_false, ok_bind, hx, true_and]
    cases hy : truthy y with
    | true =>
      refine .coordinates hd hy ?_
      simp only [Bool.true_eq_false, if_false]
      have := ec2Store_outcome (s := s') (x := x) (y := y) (d := d)
      rw [give_put (truthy_ne hx), give_put (truthy_ne hy)] at this
      rcases this with h | ⟨hm, h⟩
      · exact .inl h
      · refine .inr ⟨hm, ?_⟩
        have : d = .bytes [] := by
          obtain ⟨b, rfl⟩ := hm.2.2.1
          cases b with
          | nil => rfl
          | cons a t => simp [truthy] at hd
        subst this
        exact h
    | false =>
      simp only [if_true]
      by_cases hb : ∃ b, x = .bytes b
      · obtain ⟨b, rfl⟩ := hb
        refine .compact hd hy rfl ?_
        refine then_bind fun p hp => toBytes_bind fun _ => ?_
        by_cases hbx : b = beBytes (crvSize c) p.1
        · refine outcome_cons (fun h => absurd hbx h) fun _ => ?_
          simp only [if_pos hbx]
          refine toBytes_bind fun _ => ?_
          have := ec2Store_outcome (s := s') (x := .bytes b) (y := .bytes (beBytes (crvSize c) p.2)) (d := d)
          rw [give_put (truthy_ne hx), give_put (beBytes_ne hsz)] at this
          rcases this with ⟨e, h, h'⟩ | ⟨hm, h⟩
          · refine .inl ⟨e, ?_, h'⟩
            simpa [Spec.FirstUnmet] using h
          · refine .inr ⟨hm.2.2, ?_⟩
            have : d = .bytes [] := by
              obtain ⟨b, rfl⟩ := hm.2.2.1
              cases b with
              | nil => rfl
              | cons a t => simp [truthy] at hd
            subst this
            exact h
        · refine outcome_cons (fun _ => ?_) fun h => absurd h hbx
          simp only [if_neg hbx]
          rfl
      · refine .noBytes hd hy (fun b h => hb ⟨b, h⟩) ?_
        cases x <;> first | rfl | exact absurd ⟨_, rfl⟩ hb

end Cose
