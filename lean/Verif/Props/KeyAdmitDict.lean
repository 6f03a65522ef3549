import Verif.Props.KeyAdmit
/-!
# Property C92, continued: RSA keys, dictionaries and received byte strings
-/
set_option autoImplicit false
namespace Cose

/-! ### Specification -/

/-- The parameters of an RSA key, in the order in which the constructor looks at them. -/
def RsaArgs.all (a : RsaArgs) : List Val := [a.n, a.e, a.d, a.p, a.q, a.dp, a.dq, a.qinv, a.other, a.ri, a.di, a.ti]

/-- Modulus and exponent only; or also the private values for two primes; or those for more primes. -/
def Spec.RsaForm (a : RsaArgs) : Prop :=
  (¬ Spec.Hollow a.n ∧ ¬ Spec.Hollow a.e ∧ ∀ v ∈ [a.d, a.p, a.q, a.dp, a.dq, a.qinv, a.other, a.ri, a.di, a.ti], Spec.Hollow v) ∨
  ((∀ v ∈ [a.other, a.ri, a.di, a.ti], Spec.Hollow v) ∧ ∀ v ∈ [a.n, a.e, a.d, a.p, a.q, a.dp, a.dq, a.qinv], ¬ Spec.Hollow v) ∨
  ∀ v ∈ a.all, ¬ Spec.Hollow v

/-- Each of the values is a byte string. -/
def Spec.byteStrings (l : List Val) : List (Prop × PyErr) := l.map fun v => (∃ b, v = .bytes b, .typeError)

/-- The parameters of its own that a key class takes out of a dictionary, with their names. -/
def Spec.own : Kind → List (Cls × Bytes)
  | .sym => [(⟨.kpSym, -1⟩, b!"K")]
  | .ec2 => [(⟨.kpEc2, -1⟩, b!"CURVE"), (⟨.kpEc2, -2⟩, b!"X"), (⟨.kpEc2, -3⟩, b!"Y"), (⟨.kpEc2, -4⟩, b!"D")]
  | .okp => [(⟨.kpOkp, -1⟩, b!"CURVE"), (⟨.kpOkp, -2⟩, b!"X"), (⟨.kpOkp, -4⟩, b!"D")]
  | .rsa => [(⟨.kpRsa, -1⟩, b!"N"), (⟨.kpRsa, -2⟩, b!"E"), (⟨.kpRsa, -3⟩, b!"D"), (⟨.kpRsa, -4⟩, b!"P"), (⟨.kpRsa, -5⟩, b!"Q"), (⟨.kpRsa, -6⟩, b!"DP"),
      (⟨.kpRsa, -7⟩, b!"DQ"), (⟨.kpRsa, -8⟩, b!"QINV"), (⟨.kpRsa, -9⟩, b!"OTHER"), (⟨.kpRsa, -10⟩, b!"R_I"), (⟨.kpRsa, -11⟩, b!"D_I"), (⟨.kpRsa, -12⟩, b!"T_I")]

/-- The value given for a parameter, or what stands for one that is not given. -/
def Spec.Given (d : Dict) (c : Cls) (name : Bytes) (absent v : Val) : Prop := Spec.Param d c name v ∨ (∀ w, ¬ Spec.Param d c name w) ∧ v = absent

/-- The label is a spelling of the parameter: its class, its identifier or its exact name. -/
def Spec.spells (q : Val) (c : Cls) (name : Bytes) : Bool := keq q (.cls c) || keq q (.int c.ident) || keq q (.text name)

/-- The entries that are left for the optional parameters. -/
def Spec.others (kd : Kind) (d : Dict) : Dict := d.filter fun e => (Spec.own kd).all fun p => !Spec.spells e.1 p.1 p.2

/-- The call of the constructor for a dictionary. -/
inductive Spec.Call (C : Crypto) (d : Dict) : Kind → Res Key → Prop
  | sym {k : Val} : Spec.Given d ⟨.kpSym, -1⟩ b!"K" (.bytes []) k → Call C d .sym (symInit k (Spec.others .sym d) true)
  | ec2 {crv x y e : Val} : Spec.Given d ⟨.kpEc2, -1⟩ b!"CURVE" .none crv → Spec.Given d ⟨.kpEc2, -2⟩ b!"X" (.bytes []) x →
      Spec.Given d ⟨.kpEc2, -3⟩ b!"Y" (.bytes []) y → Spec.Given d ⟨.kpEc2, -4⟩ b!"D" (.bytes []) e →
      Call C d .ec2 (ec2Init C crv x y e (Spec.others .ec2 d) true)
  | okp {crv x e : Val} : Spec.Given d ⟨.kpOkp, -1⟩ b!"CURVE" .none crv → Spec.Given d ⟨.kpOkp, -2⟩ b!"X" (.bytes []) x →
      Spec.Given d ⟨.kpOkp, -4⟩ b!"D" (.bytes []) e → Call C d .okp (okpInit crv x e (Spec.others .okp d) true)
  | rsa {a : RsaArgs} : Spec.Given d ⟨.kpRsa, -1⟩ b!"N" (.bytes []) a.n → Spec.Given d ⟨.kpRsa, -2⟩ b!"E" (.bytes []) a.e →
      Spec.Given d ⟨.kpRsa, -3⟩ b!"D" (.bytes []) a.d → Spec.Given d ⟨.kpRsa, -4⟩ b!"P" (.bytes []) a.p →
      Spec.Given d ⟨.kpRsa, -5⟩ b!"Q" (.bytes []) a.q → Spec.Given d ⟨.kpRsa, -6⟩ b!"DP" (.bytes []) a.dp →
      Spec.Given d ⟨.kpRsa, -7⟩ b!"DQ" (.bytes []) a.dq → Spec.Given d ⟨.kpRsa, -8⟩ b!"QINV" (.bytes []) a.qinv →
      Spec.Given d ⟨.kpRsa, -9⟩ b!"OTHER" (.arr []) a.other → Spec.Given d ⟨.kpRsa, -10⟩ b!"R_I" (.bytes []) a.ri →
      Spec.Given d ⟨.kpRsa, -11⟩ b!"D_I" (.bytes []) a.di → Spec.Given d ⟨.kpRsa, -12⟩ b!"T_I" (.bytes []) a.ti →
      Call C d .rsa (rsaInit a (Spec.others .rsa d) true)

/-- Python can look the value up in a dictionary. -/
def Spec.LookupKey : Val → Prop
  | .arr _ => False | .map _ => False | .key _ _ => False
  | .tag _ v => Spec.LookupKey v
  | _ => True
termination_by structural v => v

/-- The parameters that a key class takes out of its argument, in order, with their names. -/
def Spec.taken : Kind → List (Cls × Bytes)
  | .sym => [(⟨.kpSym, -1⟩, b!"K")]
  | .ec2 => [(⟨.kpEc2, -2⟩, b!"X"), (⟨.kpEc2, -3⟩, b!"Y"), (⟨.kpEc2, -4⟩, b!"D"), (⟨.kpEc2, -1⟩, b!"CURVE")]
  | .okp => [(⟨.kpOkp, -2⟩, b!"X"), (⟨.kpOkp, -4⟩, b!"D"), (⟨.kpOkp, -1⟩, b!"CURVE")]
  | .rsa => [(⟨.kpRsa, -2⟩, b!"E"), (⟨.kpRsa, -1⟩, b!"N"), (⟨.kpRsa, -3⟩, b!"D"), (⟨.kpRsa, -4⟩, b!"P"), (⟨.kpRsa, -5⟩, b!"Q"), (⟨.kpRsa, -6⟩, b!"DP"),
      (⟨.kpRsa, -7⟩, b!"DQ"), (⟨.kpRsa, -8⟩, b!"QINV"), (⟨.kpRsa, -9⟩, b!"OTHER"), (⟨.kpRsa, -10⟩, b!"R_I"), (⟨.kpRsa, -11⟩, b!"D_I"), (⟨.kpRsa, -12⟩, b!"T_I")]

/-- A list has an element equal to this number. -/
def Spec.HasNumber (l : List Val) (i : Int) : Prop := ∃ x ∈ l, keq x (.int i) = true

/-- Asking a list for a parameter: its class and its name are no indices, its number counts from the end. -/
def Spec.asked (l : List Val) (p : Cls × Bytes) : List (Prop × PyErr) :=
  [(.cls p.1 ∉ l, .typeError), (Spec.HasNumber l p.1.ident → -p.1.ident ≤ l.length, .indexError), (Spec.HasNumber l p.1.ident ∨ .text p.2 ∉ l, .typeError)]

/-- What an element of a list must be so that the list can be made a dictionary: two objects, the first of which can be a label. -/
def Spec.pairRules : Val → List (Prop × PyErr)
  | .arr l => [(l.length = 2, .valueError), (∀ k t, l = k :: t → Spec.LookupKey k, .typeError)]
  | .bytes b => [(b.length = 2, .valueError)]
  | .text s => [(textLength s = 2, .valueError)]
  | .map d => [(d.length = 2, .valueError)]
  | .key _ d => [(d.length = 2, .valueError)]
  | _ => [(False, .typeError)]

/-! ### Helpers -/

theorem allLen_sized {z : Bool} : ∀ {l : List Val}, (∀ v ∈ l, Spec.Sized v) →
    ∃ b, allLen z l = .ok b ∧ (b = true ↔ ∀ v ∈ l, (Spec.Hollow v ↔ z = true)) := by
  intro l
  induction l with
  | nil => exact fun _ => ⟨true, rfl, by simp⟩
  | cons v t ih =>
    intro h
    obtain ⟨n, hn⟩ := sized_iff.mp (h v (by simp))
    obtain ⟨b, hb, hi⟩ := ih fun v hv => h v (by simp [hv])
    simp only [allLen, hn, ok_bind]
    have hh : Spec.Hollow v ↔ n = 0 := by rw [hollow_iff, hn]; simp
    by_cases hz : (n == 0) = z
    · rw [if_pos hz]
      refine ⟨b, hb, ?_⟩
      rw [hi]
      have : Spec.Hollow v ↔ z = true := by rw [hh, ← hz]; simp
      simp [this]
    · rw [if_neg hz]
      refine ⟨false, rfl, ?_⟩
      simp only [Bool.false_eq_true, false_iff]
      intro hc
      have := hc v (by simp)
      rw [hh] at this
      apply hz
      cases z <;> simp_all

theorem rsaValid_sized {a : RsaArgs} (h : ∀ v ∈ a.all, Spec.Sized v) : ∃ b, rsaValid a = .ok b ∧ (b = true ↔ Spec.RsaForm a) := by
  simp only [RsaArgs.all] at h
  obtain ⟨b1, h1, i1⟩ := allLen_sized (z := true) (l := [a.d, a.p, a.q, a.dp, a.dq, a.qinv, a.other, a.ri, a.di, a.ti]) (fun v hv => h v (by simp at hv ⊢; grind))
  obtain ⟨b2, h2, i2⟩ := allLen_sized (z := true) (l := [a.other, a.ri, a.ti, a.di]) (fun v hv => h v (by simp at hv ⊢; grind))
  obtain ⟨b3, h3, i3⟩ := allLen_sized (z := false) (l := [a.n, a.e, a.d, a.p, a.q, a.dp, a.dq, a.qinv]) (fun v hv => h v (by simp at hv ⊢; grind))
  obtain ⟨b4, h4, i4⟩ := allLen_sized (z := false) (l := [a.n, a.e, a.d, a.p, a.q, a.dp, a.dq, a.qinv, a.other, a.ri, a.di, a.ti]) (fun v hv => h v (by simp at hv ⊢; grind))
  obtain ⟨n, hn⟩ := sized_iff.mp (h a.n (by simp))
  obtain ⟨e, he⟩ := sized_iff.mp (h a.e (by simp))
  have jn : Spec.Hollow a.n ↔ n = 0 := by rw [hollow_iff, hn]; simp
  have je : Spec.Hollow a.e ↔ e = 0 := by rw [hollow_iff, he]; simp
  simp only [rsaValid, hn, he, ok_bind, h1, h2, h3, h4]
  simp only [Spec.RsaForm, RsaArgs.all]
  simp only [iff_true, Bool.false_eq_true, iff_false] at i1 i2 i3 i4
  have i2' : b2 = true ↔ ∀ v ∈ [a.other, a.ri, a.di, a.ti], Spec.Hollow v := by rw [i2]; simp; grind
  rw [← i1, ← i2', ← i3, ← i4, jn, je]
  by_cases c1 : n = 0
  · simp only [c1, ne_eq, not_true_eq_false, if_false]
    cases b2 <;> cases b3 <;> cases b4 <;> simp
  · by_cases c2 : e = 0
    · simp only [c1, c2, ne_eq, not_true_eq_false, not_false_eq_true, if_true, if_false]
      cases b2 <;> cases b3 <;> cases b4 <;> simp
    · simp only [c1, c2, ne_eq, not_false_eq_true, if_true]
      cases b1 <;> cases b2 <;> cases b3 <;> cases b4 <;> simp

theorem set_bind {s : Dict} {c : Cls} {v : Val} {f : Dict → Res Key} {l : List (Prop × PyErr)} {rest : Res Key → Prop}
    (h : ∀ s', (∀ q, dget s' q = Spec.put (dget s) (.cls c) v q) → Spec.Outcome l rest (f s')) :
    Spec.Outcome ((∃ b, v = .bytes b, .typeError) :: l) rest (setBytes .typeError s c v >>= f) := by
  by_cases hv : ∃ b, v = .bytes b
  · obtain ⟨b, rfl⟩ := hv
    refine outcome_cons (fun h => absurd ⟨b, rfl⟩ h) fun hb => ?_
    exact h _ (fun q => by rw [dget_dset]; rfl)
  · refine outcome_cons (fun _ => ?_) fun h => absurd h hv
    cases v <;> first | rfl | (exact absurd ⟨_, rfl⟩ hv)

theorem ddel_filter {d : Dict} (hn : KeysNodup d) (k : Val) : ddel d k = d.filter fun e => !keq e.1 k := by
  induction d with
  | nil => rfl
  | cons p t ih =>
    obtain ⟨q, v⟩ := p
    have ht : KeysNodup t := (List.pairwise_cons.mp hn).2
    simp only [ddel]
    by_cases h : keq q k = true
    · rw [if_pos h, List.filter_cons_of_neg (by simp [h])]
      refine (List.filter_eq_self.mpr fun e he => ?_).symm
      have h1 := (List.pairwise_cons.mp hn).1 e he
      simp only at h1
      cases h2 : keq e.1 k with
      | false => rfl
      | true => rw [keq_trans h (keq_symm h2)] at h1; simp at h1
    · rw [if_neg h, List.filter_cons_of_pos (by simpa using h), ih ht]

theorem remove_filter {d : Dict} (hn : KeysNodup d) (c : Cls) : remove d c = d.filter fun e => !Spec.spells e.1 c (fullname c) := by
  have n1 := ddel_nodup (k := .cls c) hn
  have n2 := ddel_nodup (k := .int c.ident) n1
  rw [remove, ddel_filter n2, ddel_filter n1, ddel_filter hn, List.filter_filter, List.filter_filter]
  congr 1
  funext e
  simp only [Spec.spells]
  cases keq e.1 (.cls c) <;> cases keq e.1 (.int c.ident) <;> cases keq e.1 (.text (fullname c)) <;> rfl

theorem removes_filter (cs : List Cls) {d : Dict} (hn : KeysNodup d) :
    cs.foldl remove d = d.filter fun e => cs.all fun c => !Spec.spells e.1 c (fullname c) := by
  induction cs generalizing d with
  | nil => exact (List.filter_eq_self.mpr fun _ _ => rfl).symm
  | cons c t ih =>
    rw [List.foldl_cons, ih (remove_absent hn).1, remove_filter hn, List.filter_filter]
    congr 1
    funext e
    simp [Bool.and_comm]

theorem extract_given (d : Dict) (c : Cls) (a : Val) : Spec.Given d c (fullname c) a (extract d c a) := by
  unfold extract Spec.Given Spec.Param
  cases h1 : dget d (.cls c) with
  | some v => exact .inl (.inl rfl)
  | none =>
    cases h2 : dget d (.int c.ident) with
    | some v => exact .inl (.inr (.inl ⟨rfl, rfl⟩))
    | none =>
      cases h3 : dget d (.text (fullname c)) with
      | some v => exact .inl (.inr (.inr ⟨rfl, rfl, rfl⟩))
      | none => exact .inr ⟨by simp, rfl⟩

theorem call_kind {C : Crypto} {d : Dict} (hn : KeysNodup d) (kd : Kind) : Spec.Call C d kd (kindFromDict C kd d) := by
  have aux : ∀ (cs : List Cls), (∀ c ∈ cs, (c, fullname c) ∈ Spec.own kd) → (∀ p ∈ Spec.own kd, p.1 ∈ cs ∧ p.2 = fullname p.1) →
      cs.foldl remove d = Spec.others kd d := by
    intro cs h1 h2
    rw [removes_filter cs hn, Spec.others]
    congr 1
    funext e
    rw [Bool.eq_iff_iff]
    simp only [List.all_eq_true]
    constructor
    · intro h p hp
      obtain ⟨h3, h4⟩ := h2 p hp
      rw [h4]; exact h _ h3
    · intro h c hc
      exact h _ (h1 c hc)
  cases kd with
  | sym =>
    have e : remove d SymK = Spec.others .sym d := aux [SymK] (by decide +kernel) (by decide +kernel)
    simp only [kindFromDict, symFromDict, e]
    exact .sym (extract_given d SymK _)
  | ec2 =>
    have e : remove (remove (remove (remove d Ec2X) Ec2Y) Ec2D) Ec2Crv = Spec.others .ec2 d := aux [Ec2X, Ec2Y, Ec2D, Ec2Crv] (by decide +kernel) (by decide +kernel)
    simp only [kindFromDict, ec2FromDict, e]
    exact .ec2 (extract_given d Ec2Crv _) (extract_given d Ec2X _) (extract_given d Ec2Y _) (extract_given d Ec2D _)
  | okp =>
    have e : remove (remove (remove d OkpX) OkpD) OkpCrv = Spec.others .okp d := aux [OkpX, OkpD, OkpCrv] (by decide +kernel) (by decide +kernel)
    simp only [kindFromDict, okpFromDict, e]
    exact .okp (extract_given d OkpCrv _) (extract_given d OkpX _) (extract_given d OkpD _)
  | rsa =>
    have e := aux [RsaE, RsaN, RsaD, RsaP, RsaQ, RsaDP, RsaDQ, RsaQInv, RsaOther, RsaQInv, RsaRi, RsaDi, RsaTi] (by decide +kernel) (by decide +kernel)
    simp only [kindFromDict, rsaFromDict, e]
    exact .rsa (extract_given d RsaN _) (extract_given d RsaE _) (extract_given d RsaD _) (extract_given d RsaP _) (extract_given d RsaQ _)
      (extract_given d RsaDP _) (extract_given d RsaDQ _) (extract_given d RsaQInv _) (extract_given d RsaOther _) (extract_given d RsaRi _)
      (extract_given d RsaDi _) (extract_given d RsaTi _)

/-! ### The properties -/

/-- **C92**, RSA keys (`other = None` counts as the empty list). -/
theorem c92_rsa {a : RsaArgs} {opt : Dict} {allow : Bool} (ho : Spec.OwnClasses .rsa opt) (hs : ∀ v ∈ a.fix.all, Spec.Sized v) :
    Spec.Outcome ((Spec.RsaForm a.fix, .invalidKey) :: (Spec.optionalUse .rsa allow opt ++ Spec.byteStrings [a.e, a.n, a.d, a.p, a.q, a.dp, a.dq, a.qinv]))
      (fun r => ∃ t, Spec.Holding .rsa allow opt t ∧ Spec.MakesKey .rsa (Spec.give (Spec.give (Spec.give (Spec.give (Spec.give (Spec.give
        (Spec.put (Spec.put t (.cls ⟨.kpRsa, -2⟩) a.e) (.cls ⟨.kpRsa, -1⟩) a.n) ⟨.kpRsa, -3⟩ a.d) ⟨.kpRsa, -4⟩ a.p) ⟨.kpRsa, -5⟩ a.q) ⟨.kpRsa, -6⟩ a.dp)
        ⟨.kpRsa, -7⟩ a.dq) ⟨.kpRsa, -8⟩ a.qinv) r)
      (rsaInit a opt allow) := by
  have e1 : a.fix.e = a.e ∧ a.fix.n = a.n ∧ a.fix.d = a.d ∧ a.fix.p = a.p ∧ a.fix.q = a.q ∧ a.fix.dp = a.dp ∧ a.fix.dq = a.dq ∧
      a.fix.qinv = a.qinv := by
    unfold RsaArgs.fix; split <;> simp
  obtain ⟨e1, e2, e3, e4, e5, e6, e7, e8⟩ := e1
  rw [← e1, ← e2, ← e3, ← e4, ← e5, ← e6, ← e7, ← e8]
  obtain ⟨b, hb, hi⟩ := rsaValid_sized hs
  have hf : rsaInit a opt allow = (do
      let ok ← rsaValid a.fix
      if ok = false then .error .invalidKey
      else do
        let s ← initStore .rsa opt allow
        let s ← setBytes .typeError s RsaE a.fix.e
        let s ← setBytes .typeError s RsaN a.fix.n
        let s ← setIfNonEmpty s RsaD a.fix.d
        let s ← setIfNonEmpty s RsaP a.fix.p
        let s ← setIfNonEmpty s RsaQ a.fix.q
        let s ← setIfNonEmpty s RsaDP a.fix.dp
        let s ← setIfNonEmpty s RsaDQ a.fix.dq
        let s ← setIfNonEmpty s RsaQInv a.fix.qinv
        .ok { kind := .rsa, store := s, extra := a.fix.attrs }) := rfl
  rw [hf, hb, ok_bind]
  refine outcome_cons (fun h => ?_) fun h => ?_
  · rw [if_pos (by cases b with | false => rfl | true => exact absurd (hi.mp rfl) h)]
  rw [if_neg (by rw [hi.mpr h]; simp)]
  refine optional_bind ho fun s hs => ?_
  refine set_bind fun s1 h1 => set_bind fun s2 h2 => give_bind fun s3 h3 _ => give_bind fun s4 h4 _ => give_bind fun s5 h5 _ => give_bind fun s6 h6 _ =>
    give_bind fun s7 h7 _ => give_bind fun s8 h8 _ => outcome_nil ⟨dget s, hs, _, rfl, rfl, fun q => ?_⟩
  have f1 := funext h1
  have f2 := funext h2
  have f3 := funext h3
  have f4 := funext h4
  have f5 := funext h5
  have f6 := funext h6
  have f7 := funext h7
  simp only [Key.table, h8, f7, f6, f5, f4, f3, f2, f1]

theorem lookupKey_iff : ∀ v : Val, hashable v = true ↔ Spec.LookupKey v
  | .tag _ v => by simp only [hashable, Spec.LookupKey]; exact lookupKey_iff v
  | .none | .undef | .bool _ | .simple _ | .int _ | .float _ | .bytes _ | .text _ | .cls _ => by simp [hashable, Spec.LookupKey]
  | .arr _ | .map _ | .key _ _ => by simp [hashable, Spec.LookupKey]

theorem ktyLookup_unhashable {v : Val} (h : ¬ Spec.LookupKey v) : ktyLookup v = .error .typeError := by
  cases v <;> first | rfl | exact absurd trivial h | skip
  case tag n w =>
    simp only [ktyLookup]
    rw [if_neg fun e => h ((lookupKey_iff w).mp e)]

theorem ktyLookup_hashable {v : Val} (h : Spec.LookupKey v) :
    (∃ kd, ktyLookup v = .ok kd) ∨ ((∀ kd, ¬ Spec.NamesKty v kd) ∧ ktyLookup v = .error .keyError) := by
  by_cases ht : ∃ n w, v = .tag n w
  · obtain ⟨n, w, rfl⟩ := ht
    refine .inr ⟨fun kd hk => ?_, ?_⟩
    · cases kd <;> simp [Spec.NamesKty, keq, norm] at hk
    · simp only [ktyLookup]
      rw [if_pos ((lookupKey_iff w).mpr h)]
  have hl : ktyLookup v = (if keq v (.int 4) ∨ v = .text b!"SYMMETRIC" ∨ v = .cls KtySym then (.ok .sym : Res Kind)
      else if keq v (.int 2) ∨ v = .text b!"EC2" ∨ v = .cls KtyEC2 then .ok .ec2
      else if keq v (.int 1) ∨ v = .text b!"OKP" ∨ v = .cls KtyOKP then .ok .okp
      else if keq v (.int 3) ∨ v = .text b!"RSA" ∨ v = .cls KtyRSA then .ok .rsa
      else .error .keyError) := by
    cases v <;> first | rfl | exact h.elim | exact absurd ⟨_, _, rfl⟩ ht
  rw [hl]
  by_cases c1 : keq v (.int 4) = true ∨ v = .text b!"SYMMETRIC" ∨ v = .cls KtySym
  · exact .inl ⟨_, if_pos c1⟩
  · rw [if_neg c1]
    by_cases c2 : keq v (.int 2) = true ∨ v = .text b!"EC2" ∨ v = .cls KtyEC2
    · exact .inl ⟨_, if_pos c2⟩
    · rw [if_neg c2]
      by_cases c3 : keq v (.int 1) = true ∨ v = .text b!"OKP" ∨ v = .cls KtyOKP
      · exact .inl ⟨_, if_pos c3⟩
      · rw [if_neg c3]
        by_cases c4 : keq v (.int 3) = true ∨ v = .text b!"RSA" ∨ v = .cls KtyRSA
        · exact .inl ⟨_, if_pos c4⟩
        · rw [if_neg c4]
          refine .inr ⟨fun kd hk => ?_, rfl⟩
          cases kd
          · exact c1 hk
          · exact c2 hk
          · exact c3 hk
          · exact c4 hk

theorem extracts_outcome {l : List Val} {α : Type} {next : Res α} {rest : Res α → Prop} (hr : rest next) :
    ∀ {ps : List (Cls × Bytes)}, (∀ p ∈ ps, fullname p.1 = p.2 ∧ p.1.ident < 0) →
      Spec.Outcome (ps.flatMap (Spec.asked l)) rest (do listExtracts l (ps.map (·.1)); next) := by
  intro ps
  induction ps with
  | nil => exact fun _ => outcome_nil hr
  | cons p t ih =>
    intro h
    obtain ⟨hn, hi⟩ := h p (by simp)
    have h1 : (l.any (· == .cls p.1)) = true ↔ .cls p.1 ∈ l := by simp
    have h2 : (l.any (keq · (.int p.1.ident))) = true ↔ Spec.HasNumber l p.1.ident := by simp [Spec.HasNumber]
    have h3 : (l.any (· == .text (fullname p.1))) = true ↔ .text p.2 ∈ l := by simp [hn]
    have h4 : p.1.ident.natAbs ≤ l.length ↔ -p.1.ident ≤ l.length := by omega
    have ih := ih fun q hq => h q (by simp [hq])
    simp only [List.flatMap_cons, List.map_cons, listExtracts, bind_assoc]
    unfold Spec.asked listExtract
    refine outcome_cons (fun h => ?_) fun a1 => outcome_cons (fun h => ?_) fun a2 => outcome_cons (fun h => ?_) fun a3 => ?_
    · rw [if_pos (h1.mpr (Classical.byContradiction h))]; rfl
    · rw [if_neg (mt h1.mp a1)]
      have : Spec.HasNumber l p.1.ident ∧ ¬ -p.1.ident ≤ l.length := by
        refine ⟨Classical.byContradiction fun hc => h fun x => absurd x hc, fun x => h fun _ => x⟩
      rw [if_pos (h2.mpr this.1), if_neg (mt h4.mp this.2)]; rfl
    · have : ¬ Spec.HasNumber l p.1.ident ∧ .text p.2 ∈ l := ⟨fun x => h (.inl x), Classical.byContradiction fun x => h (.inr x)⟩
      rw [if_neg (mt h1.mp a1), if_neg (mt h2.mp this.1), if_pos (h3.mpr this.2)]; rfl
    · rw [if_neg (mt h1.mp a1)]
      by_cases hh : Spec.HasNumber l p.1.ident
      · rw [if_pos (h2.mpr hh), if_pos (h4.mpr (a2 hh))]
        exact ih
      · rw [if_neg (mt h2.mp hh), if_neg (mt h3.mp (a3.resolve_left hh))]
        exact ih

theorem pairRules_outcome {α : Type} {v : Val} {rest : Res α → Prop} {r : Res α} (h1 : ∀ e, pairRefused v = some e → r = .error e)
    (h2 : pairRefused v = none → rest r) : Spec.Outcome (Spec.pairRules v) rest r := by
  have hs : ∀ {p : Prop} [Decidable p] {e : PyErr}, pairRefused v = (if p then none else some e) → Spec.Outcome [(p, e)] rest r :=
    fun hp => outcome_cons (fun h => h1 _ (by rw [hp, if_neg h])) fun h => outcome_nil (h2 (by rw [hp, if_pos h]))
  cases v
  case arr l =>
    unfold Spec.pairRules
    refine outcome_cons (fun h => h1 _ ?_) fun h => outcome_cons (fun h' => h1 _ ?_) fun h' => outcome_nil (h2 ?_)
    · unfold pairRefused
      split <;> simp_all
    · obtain ⟨a, b, rfl⟩ : ∃ a b, l = [a, b] := by
        match l, h with
        | [a, b], _ => exact ⟨a, b, rfl⟩
      simp only [pairRefused]
      rw [if_neg fun e => h' fun k t e' => by cases e'; exact (lookupKey_iff _).mp e]
    · obtain ⟨a, b, rfl⟩ : ∃ a b, l = [a, b] := by
        match l, h with
        | [a, b], _ => exact ⟨a, b, rfl⟩
      simp only [pairRefused]
      rw [if_pos ((lookupKey_iff _).mpr (h' _ _ rfl))]
  case bytes => exact hs rfl
  case text => exact hs rfl
  case map => exact hs rfl
  case key => exact hs rfl
  all_goals exact outcome_cons (fun _ => h1 _ rfl) False.elim

theorem pairs_outcome {α : Type} {e0 : PyErr} {l : List Val} (hl : ∃ x ∈ l, ∃ e, pairRefused x = some e) :
    Spec.Outcome (l.flatMap Spec.pairRules) (fun _ => False) (match l.findSome? pairRefused with | some e => (.error e : Res α) | none => .error e0) := by
  induction l with
  | nil => obtain ⟨x, hx, _⟩ := hl; cases hx
  | cons v t ih =>
    refine outcome_append (pairRules_outcome (fun e he => ?_) fun he => ?_)
    · simp only [List.findSome?_cons, he]
    · simp only [List.findSome?_cons, he]
      refine ih ?_
      obtain ⟨x, hx, e, h⟩ := hl
      rcases List.mem_cons.mp hx with rfl | hx
      · rw [he] at h; cases h
      · exact ⟨x, hx, e, h⟩

/-- **C92**: a list in place of a dictionary is never a key.  What it raises: if it contains the number `1`, then its second element is taken for the key
type, the parameters of the key class are asked for, and at last the list is refused because not all its elements are pairs. -/
theorem c92_list {C : Crypto} {l : List Val} :
    (.cls ⟨.kp, 1⟩ ∈ l → fromDictVal C (.arr l) = .error .typeError) ∧
    (.cls ⟨.kp, 1⟩ ∉ l → ¬ Spec.HasNumber l 1 → .text b!"KTY" ∈ l → fromDictVal C (.arr l) = .error .typeError) ∧
    (.cls ⟨.kp, 1⟩ ∉ l → ¬ Spec.HasNumber l 1 → .text b!"KTY" ∉ l → fromDictVal C (.arr l) = .error .illegalKeyType) ∧
    (.cls ⟨.kp, 1⟩ ∉ l → Spec.HasNumber l 1 →
      Spec.Outcome [(∃ v, l[1]? = some v, .indexError), (∀ v, l[1]? = some v → Spec.LookupKey v, .typeError),
          (∀ v, l[1]? = some v → ∃ kd, Spec.NamesKty v kd, .keyError)]
        (fun r => ∃ v kd, l[1]? = some v ∧ Spec.NamesKty v kd ∧
          Spec.Outcome ((Spec.taken kd).flatMap (Spec.asked l) ++ l.flatMap Spec.pairRules) (fun _ => False) r) (fromDictVal C (.arr l))) := by
  have h1 : (l.any (· == .cls KpKty)) = true ↔ .cls ⟨.kp, 1⟩ ∈ l := by simp
  have h2 : (l.any (keq · (.int 1))) = true ↔ Spec.HasNumber l 1 := by simp [Spec.HasNumber]
  have h3 : (l.any (· == .text b!"KTY")) = true ↔ .text b!"KTY" ∈ l := by simp
  have e1 : fromDictVal C (.arr l) = fromList l := rfl
  refine ⟨fun a => ?_, fun a b c => ?_, fun a b c => ?_, fun a b => ?_⟩
  · rw [e1]; unfold fromList; rw [if_pos (h1.mpr a)]
  · rw [e1]; unfold fromList; rw [if_neg (mt h1.mp a), if_neg (mt h2.mp b), if_pos (h3.mpr c)]
  · rw [e1]; unfold fromList; rw [if_neg (mt h1.mp a), if_neg (mt h2.mp b), if_neg (mt h3.mp c)]
  rw [e1]; unfold fromList; rw [if_neg (mt h1.mp a), if_pos (h2.mpr b)]
  match l, b with
  | [], b => obtain ⟨x, hx, _⟩ := b; cases hx
  | [w], _ => exact outcome_cons (fun _ => rfl) fun ⟨v, hv⟩ => by cases hv
  | w :: v :: t, b =>
    refine outcome_cons (fun h => absurd ⟨v, rfl⟩ h) fun _ => outcome_cons (fun h => ?_) fun h => ?_
    · have : ¬ Spec.LookupKey v := fun hv => h fun v' e => by cases e; exact hv
      simp only [ktyLookup_unhashable this, error_bind]
    have hv := h v rfl
    rcases ktyLookup_hashable hv with ⟨kd, hk⟩ | ⟨hk, he⟩
    · have hn := ktyLookup_ok hk
      refine outcome_cons (fun h => absurd (fun v' e => by cases e; exact ⟨kd, hn⟩) h) fun _ => outcome_nil ⟨v, kd, rfl, hn, outcome_append ?_⟩
      simp only [hk, ok_bind]
      have hx : extracted kd = (Spec.taken kd).map (·.1) := by cases kd <;> rfl
      rw [hx]
      refine extracts_outcome (pairs_outcome ?_) ?_
      · obtain ⟨x, hx, hq⟩ := b
        refine ⟨x, hx, .typeError, ?_⟩
        cases x <;> first | rfl | (simp [keq, norm] at hq)
      · cases kd <;> decide
    · refine outcome_cons (fun _ => by simp only [he, error_bind]) fun h => ?_
      obtain ⟨kd, h⟩ := h v rfl
      exact absurd h (hk kd)

/-- **C92**: a dictionary makes a key as the constructor of its key type does. -/
theorem c92_from_dict {C : Crypto} {d : Dict} (hn : KeysNodup d) :
    Spec.Outcome [(∃ v, Spec.Param d ⟨.kp, 1⟩ b!"KTY" v, .illegalKeyType), (∀ v, Spec.Param d ⟨.kp, 1⟩ b!"KTY" v → Spec.LookupKey v, .typeError),
        (∀ v, Spec.Param d ⟨.kp, 1⟩ b!"KTY" v → ∃ kd, Spec.NamesKty v kd, .keyError)]
      (fun r => ∃ v kd, Spec.Param d ⟨.kp, 1⟩ b!"KTY" v ∧ Spec.NamesKty v kd ∧ Spec.Call C d kd r) (fromDictVal C (.map d)) := by
  have huniq : ∀ v w, Spec.Param d ⟨.kp, 1⟩ b!"KTY" v → Spec.Param d ⟨.kp, 1⟩ b!"KTY" w → v = w := by
    intro v w hv hw
    unfold Spec.Param at hv hw
    grind
  have hfrom : ∀ v, Spec.Param d ⟨.kp, 1⟩ b!"KTY" v → fromDictVal C (.map d) = (do let k ← ktyLookup v; kindFromDict C k d) := by
    intro v hv
    simp only [fromDictVal, fromDict]
    rcases hv with h | ⟨h1, h⟩ | ⟨h1, h2, h⟩
    · rw [show dget d (.cls KpKty) = some v from h]
    · rw [show dget d (.cls KpKty) = none from h1]; simp only; rw [show dget d (.int 1) = some v from h]
    · rw [show dget d (.cls KpKty) = none from h1]; simp only; rw [show dget d (.int 1) = none from h2]; simp only; rw [h]
  refine outcome_cons (fun h => ?_) fun ⟨v, hv⟩ => ?_
  · simp only [fromDictVal, fromDict]
    have h1 : dget d (.cls KpKty) = none := by
      cases hc : dget d (.cls KpKty) with
      | none => rfl
      | some v => exact absurd ⟨v, .inl hc⟩ h
    have h2 : dget d (.int 1) = none := by
      cases hc : dget d (.int 1) with
      | none => rfl
      | some v => exact absurd ⟨v, .inr (.inl ⟨h1, hc⟩)⟩ h
    have h3 : dget d (.text b!"KTY") = none := by
      cases hc : dget d (.text b!"KTY") with
      | none => rfl
      | some v => exact absurd ⟨v, .inr (.inr ⟨h1, h2, hc⟩)⟩ h
    rw [h1]; simp only; rw [h2]; simp only; rw [h3]
  rw [hfrom v hv]
  have hall : ∀ {P : Val → Prop}, P v → ∀ w, Spec.Param d ⟨.kp, 1⟩ b!"KTY" w → P w := fun hp w hw => huniq v w hv hw ▸ hp
  refine outcome_cons (fun h => ?_) fun h1 => ?_
  · have : ktyLookup v = .error .typeError := ktyLookup_unhashable fun hv => h (hall (P := Spec.LookupKey) hv)
    rw [this]; rfl
  have h1 := h1 v hv
  rcases ktyLookup_hashable h1 with ⟨kd, hk⟩ | ⟨hk, he⟩
  · have hk' := ktyLookup_ok hk
    refine outcome_cons (fun h => absurd (hall (P := fun w => ∃ kd, Spec.NamesKty w kd) ⟨kd, hk'⟩) h) fun _ => outcome_nil ⟨v, kd, hv, hk', ?_⟩
    rw [hk, ok_bind]
    exact call_kind hn kd
  · refine outcome_cons (fun _ => by rw [he]; rfl) fun h => ?_
    obtain ⟨kd, h⟩ := h v hv
    exact absurd h (hk kd)

/-- **C92**: what is no dictionary is no key.  A key object counts as the dictionary of its entries. -/
theorem c92_no_dict {C : Crypto} {v : Val} :
    ((∀ d, v ≠ .map d) → (∀ kd s, v ≠ .key kd s) → (∀ l, v ≠ .arr l) → fromDictVal C v = .error .typeError) ∧
    (∀ kd s, fromDictVal C (.key kd s) = fromDictVal C (.map s)) ∧
    ∀ l k, fromDictVal C (.arr l) ≠ .ok k := by
  refine ⟨fun h1 h2 h3 => ?_, fun _ _ => rfl, fun l k h => fromList_refused h⟩
  · cases v <;> first | rfl | exact absurd rfl (h1 _) | exact absurd rfl (h2 _ _) | exact absurd rfl (h3 _)

/-- **C92**: a received key is the dictionary that the byte string encodes; its labels are never Python classes. -/
theorem c92_received {C : Crypto} {b : Bytes} :
    (∀ e, loads b = .error e → Key.decode C b = .error e) ∧
    (∀ v, loads b = .ok v → (∀ d, v ≠ .map d) → (∀ l, v ≠ .arr l) → Key.decode C b = .error .typeError) ∧
    (∀ l k, loads b = .ok (.arr l) → Key.decode C b ≠ .ok k) ∧
    ∀ d, loads b = .ok (.map d) → (∀ kd, Spec.OwnClasses kd (Spec.others kd d)) ∧
      Spec.Outcome [(∃ v, Spec.Param d ⟨.kp, 1⟩ b!"KTY" v, .illegalKeyType), (∀ v, Spec.Param d ⟨.kp, 1⟩ b!"KTY" v → Spec.LookupKey v, .typeError),
          (∀ v, Spec.Param d ⟨.kp, 1⟩ b!"KTY" v → ∃ kd, Spec.NamesKty v kd, .keyError)]
        (fun r => ∃ v kd, Spec.Param d ⟨.kp, 1⟩ b!"KTY" v ∧ Spec.NamesKty v kd ∧ Spec.Call C d kd r) (Key.decode C b) := by
  have he : ∀ v, loads b = .ok v → Key.decode C b = fromDictVal C v := fun v h => by rw [Key.decode, h]; rfl
  refine ⟨fun e h => by rw [Key.decode, h]; rfl, fun v h h1 h2 => ?_, fun l k h => ?_, fun d h => ⟨fun kd c v hm => ?_, ?_⟩⟩
  · rw [he v h]
    refine c92_no_dict.1 h1 (fun kd s e => ?_) h2
    have := loads_pyok h
    rw [e] at this
    simp [PyOK] at this
  · rw [he _ h]
    exact c92_no_dict (v := .none).2.2 l k
  · have h1 := loads_pyok h
    simp only [PyOK] at h1
    have h2 := (PyOKP_iff.mp h1.1 _ (List.mem_filter.mp hm).1).1
    simp [PyOK] at h2
  · rw [he _ h]
    have h1 := loads_pyok h
    simp only [PyOK] at h1
    exact c92_from_dict h1.2

theorem allLen_type {z : Bool} : ∀ {l : List Val}, (∀ e, allLen z l = .error e → e = .typeError) ∧ (allLen z l = .ok true → ∀ v ∈ l, Spec.Sized v) := by
  intro l
  induction l with
  | nil => exact ⟨by simp [allLen], by simp⟩
  | cons v t ih =>
    simp only [allLen]
    by_cases hs : Spec.Sized v
    · obtain ⟨n, hn⟩ := sized_iff.mp hs
      rw [hn, ok_bind]
      split
      · exact ⟨ih.1, fun h w hw => by
          rcases List.mem_cons.mp hw with rfl | hw
          · exact hs
          · exact ih.2 h w hw⟩
      · simp
    · rw [unsized hs]
      exact ⟨fun e h => by cases h; rfl, fun h => by cases h⟩

/-- **C92**: an RSA key with a parameter that has no length is refused as one of the wrong type or of the wrong form. -/
theorem c92_rsa_unsized {a : RsaArgs} {opt : Dict} {allow : Bool} (hs : ∃ v ∈ a.fix.all, ¬ Spec.Sized v) :
    rsaInit a opt allow = .error .typeError ∨ rsaInit a opt allow = .error .invalidKey := by
  obtain ⟨v, hv, hs⟩ := hs
  have hf : ∃ f : Res Key, rsaInit a opt allow = (do
      let ok ← rsaValid a.fix
      if ok = false then .error .invalidKey else f) := ⟨_, rfl⟩
  obtain ⟨f, hf⟩ := hf
  have key : rsaValid a.fix = .error .typeError ∨ rsaValid a.fix = .ok false := by
    generalize a.fix = a at hv
    clear hf
    simp only [RsaArgs.all] at hv
    have A := @allLen_type true [a.d, a.p, a.q, a.dp, a.dq, a.qinv, a.other, a.ri, a.di, a.ti]
    have B := @allLen_type true [a.other, a.ri, a.ti, a.di]
    have D := @allLen_type false [a.n, a.e, a.d, a.p, a.q, a.dp, a.dq, a.qinv]
    have E := @allLen_type false [a.n, a.e, a.d, a.p, a.q, a.dp, a.dq, a.qinv, a.other, a.ri, a.di, a.ti]
    have rest : (do
        let z ← allLen true [a.other, a.ri, a.ti, a.di]
        let two ← if z then allLen false [a.n, a.e, a.d, a.p, a.q, a.dp, a.dq, a.qinv] else .ok false
        if two then .ok true
        else allLen false [a.n, a.e, a.d, a.p, a.q, a.dp, a.dq, a.qinv, a.other, a.ri, a.di, a.ti] : Res Bool) = .error .typeError ∨ (do
        let z ← allLen true [a.other, a.ri, a.ti, a.di]
        let two ← if z then allLen false [a.n, a.e, a.d, a.p, a.q, a.dp, a.dq, a.qinv] else .ok false
        if two then .ok true
        else allLen false [a.n, a.e, a.d, a.p, a.q, a.dp, a.dq, a.qinv, a.other, a.ri, a.di, a.ti] : Res Bool) = .ok false := by
      have last : allLen false [a.n, a.e, a.d, a.p, a.q, a.dp, a.dq, a.qinv, a.other, a.ri, a.di, a.ti] = .error .typeError ∨
          allLen false [a.n, a.e, a.d, a.p, a.q, a.dp, a.dq, a.qinv, a.other, a.ri, a.di, a.ti] = .ok false := by
        cases he : allLen false [a.n, a.e, a.d, a.p, a.q, a.dp, a.dq, a.qinv, a.other, a.ri, a.di, a.ti] with
        | error e => left; rw [E.1 e he]
        | ok b =>
          cases b with
          | false => right; rfl
          | true => exact absurd (E.2 he v hv) hs
      cases hb : allLen true [a.other, a.ri, a.ti, a.di] with
      | error e => left; rw [B.1 e hb]; rfl
      | ok b =>
        simp only [ok_bind]
        cases b with
        | false => simpa using last
        | true =>
          simp only [if_true]
          cases hd : allLen false [a.n, a.e, a.d, a.p, a.q, a.dp, a.dq, a.qinv] with
          | error e => left; rw [D.1 e hd]; rfl
          | ok b2 =>
            simp only [ok_bind]
            cases b2 with
            | false => simpa using last
            | true =>
              exfalso
              have h1 := B.2 hb
              have h2 := D.2 hd
              simp only [List.mem_cons, List.not_mem_nil, or_false] at hv h1 h2
              grind
    unfold rsaValid
    by_cases hn : Spec.Sized a.n
    rotate_left
    · left; rw [unsized hn]; rfl
    obtain ⟨n, hn'⟩ := sized_iff.mp hn
    simp only [hn', ok_bind]
    by_cases h0 : n ≠ 0
    · rw [if_pos h0]
      by_cases he : Spec.Sized a.e
      rotate_left
      · left; rw [unsized he]; rfl
      obtain ⟨m, he'⟩ := sized_iff.mp he
      simp only [he', ok_bind]
      by_cases h1 : m ≠ 0
      · rw [if_pos h1]
        cases ha : allLen true [a.d, a.p, a.q, a.dp, a.dq, a.qinv, a.other, a.ri, a.di, a.ti] with
        | error e => left; rw [A.1 e ha]; rfl
        | ok b =>
          cases b with
          | false => simpa using rest
          | true =>
            exfalso
            have h2 := A.2 ha
            simp only [List.mem_cons, List.not_mem_nil, or_false] at hv h2
            grind
      · rw [if_neg h1]; simpa using rest
    · rw [if_neg h0]; simpa using rest
  rcases key with h | h
  · left; rw [hf, h]; rfl
  · right; rw [hf, h]; rfl

/-! ### Samples -/

/-- Optional parameters in several spellings, one label of its own, one repeated parameter, and an empty list of operations. -/
def Sample.options : Dict := [(.text b!"alg", .text b!"A128GCM"), (.int 2, .bytes [7]), (.cls KpKeyOps, .arr []), (.int 99, .text b!"x")]

theorem sample_options (kd : Kind) : Spec.OwnClasses kd Sample.options ∧ ∃ es, Spec.Reads kd true Sample.options es := by
  refine ⟨?_, ?_⟩
  · intro c v h
    simp [Sample.options] at h
    obtain ⟨rfl, _⟩ := h
    cases kd <;> decide +kernel
  · rcases reads_parse (kd := kd) (allow := true) Sample.options (by
      intro c v h
      simp [Sample.options] at h
      obtain ⟨rfl, _⟩ := h
      cases kd <;> decide +kernel) [] with ⟨es, h, _⟩ | ⟨_, h⟩
    · exact ⟨es, h⟩
    · exfalso; revert h; cases kd <;> decide +kernel

/-- The key of 16 bytes is made, and holds the parameters, the empty list of operations excepted. -/
example : ∃ k, symInit (.bytes (List.replicate 16 1)) Sample.options true = .ok k ∧ k.table (.cls KpKeyOps) = none ∧
    k.table (.cls KpAlg) = some (algCls 1) ∧ k.table (.int 99) = some (.text b!"x") :=
  ⟨(symInit (.bytes (List.replicate 16 1)) Sample.options true).toOption.get (by decide +kernel), by decide +kernel, by decide +kernel, by decide +kernel,
    by decide +kernel⟩

/-- The exception for a key value of 15 bytes follows from the property. -/
example : symInit (.bytes (List.replicate 15 1)) [] true = .error .invalidKey := by
  refine outcome_unique (c92_symmetric (by simp [Spec.OwnClasses])) ?_
  have hr : ∀ es, Spec.Reads .sym true [] es → es = [] := fun es h => by cases h; rfl
  refine .inr ⟨⟨[], .nil⟩, .inr ⟨fun es v h hv => ?_, .inr ⟨fun es v h hv => ?_, .inr ⟨by simp, .inr ⟨⟨_, rfl⟩, .inl ⟨?_, rfl⟩⟩⟩⟩⟩⟩
  · rw [hr es h] at hv; simp [Spec.last] at hv
  · rw [hr es h] at hv; simp [Spec.last] at hv
  · intro h
    have := h _ rfl
    simp at this

example : (symInit (.int 5) [] true = .error .valueError) ∧ symInit (.bytes []) [] true = .error .invalidKey ∧
    symInit (.bytes (List.replicate 16 1)) [(.int 3, .int 12345)] true = .error .coseException ∧
    symInit (.bytes (List.replicate 16 1)) [(.int 99, .int 1)] false = .error .coseException ∧
    symInit (.bytes (List.replicate 16 1)) [(.int 1, .int 2)] true = .error .illegalKeyType ∧
    symInit (.bytes (List.replicate 16 1)) [(.int 4, .int 1)] true = .error .typeError := by decide +kernel

example : okpInit (.int 4) (.int 1) (.bytes []) [] true = .error .typeError ∧ okpInit (.int 4) (.bytes []) (.bytes []) [] true = .error .invalidKey ∧
    okpInit .none (.bytes [1]) (.bytes []) [] true = .error .invalidKey ∧ okpInit (.int 77) (.bytes [1]) (.bytes []) [] true = .error .coseException ∧
    okpInit (.arr [.int 4]) (.bytes [1]) (.bytes []) [] true = .error .attributeError ∧
    okpInit (.int 1) (.bytes [1]) (.bytes []) [] true = .error .unsupportedCurve ∧ okpInit (.int 4) (.text b!"x") (.bytes []) [] true = .error .typeError := by
  decide +kernel

example : ec2Init toy (.int 1) (.bytes []) (.bytes [1]) (.bytes []) [] true = .error .invalidKey ∧
    ec2Init toy (.int 4) (.bytes [1]) (.bytes [1]) (.bytes []) [] true = .error .unsupportedCurve ∧
    ec2Init toy (.int 1) (.bytes [1]) (.bytes [1]) (.bytes [5]) [] true = .error .assertionError ∧
    ec2Init toy (.int 1) (.bytes [1]) (.bool true) (.bytes []) [] true = .error .typeError := by decide +kernel

example : (∀ v ∈ ({ n := .bytes [1], e := .bytes [3] } : RsaArgs).fix.all, Spec.Sized v) ∧ Spec.RsaForm ({ n := .bytes [1], e := .bytes [3] } : RsaArgs).fix := by
  refine ⟨?_, .inl ?_⟩ <;> simp [RsaArgs.fix, RsaArgs.all, Spec.Sized, Spec.Hollow]

example : fromDictVal toy (.map [(.int 3, .int 1)]) = .error .illegalKeyType ∧ fromDictVal toy (.map [(.int 1, .arr [])]) = .error .typeError ∧
    fromDictVal toy (.map [(.int 1, .text b!"ec2")]) = .error .keyError ∧ fromDictVal toy (.int 1) = .error .typeError ∧
    fromDictVal toy (.arr [.int 2]) = .error .illegalKeyType := by decide +kernel

/-- Lists in place of keys: all five exceptions occur. -/
example : fromDictVal toy (.arr [.int 1]) = .error .indexError ∧ fromDictVal toy (.arr [.int 1, .arr []]) = .error .typeError ∧
    fromDictVal toy (.arr [.int 1, .int 9]) = .error .keyError ∧ fromDictVal toy (.arr [.text b!"abc", .int 2, .int 1]) = .error .valueError ∧
    fromDictVal toy (.arr [.int 1, .int 2, .int (-4)]) = .error .indexError ∧ fromDictVal toy (.arr [.arr [.int 1, .int 2], .int 2, .int 1]) = .error .typeError ∧
    fromDictVal toy (.arr [.text b!"KTY"]) = .error .typeError ∧ fromDictVal toy (.map [(.int 1, .tag 7 (.int 1))]) = .error .keyError ∧
    fromDictVal toy (.map [(.int 1, .tag 7 (.arr []))]) = .error .typeError := by decide +kernel

/-- A received key with labels in two spellings. -/
example : Spec.Call toy [(.int 1, .int 4), (.text b!"K", .bytes (List.replicate 16 1)), (.int 3, .int 1)] .sym
    (symInit (.bytes (List.replicate 16 1)) [(.int 1, .int 4), (.int 3, .int 1)] true) :=
  .sym (d := [(.int 1, .int 4), (.text b!"K", .bytes (List.replicate 16 1)), (.int 3, .int 1)]) (.inl (.inr (.inr ⟨by decide +kernel, by decide +kernel, by decide +kernel⟩)))

end Cose
