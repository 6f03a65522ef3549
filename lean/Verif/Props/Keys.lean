import Verif.Props.Structure
/-!
# Key objects and their histories (C39, C40, C41, C44 to C47)
-/
set_option autoImplicit false
namespace Cose

/-! ### Histories -/

/-- What a program can do to a key object through its attributes and `del`. -/
inductive Spec.KeyOp where
  | setKty (v : Val) | setAlg (v : Val) | setKid (v : Val) | setBaseIv (v : Val) | setKeyOps (v : Val)
  | setK (v : Val) | setCrv (v : Val) | setParam (c : Cls) (v : Val) | del (label : Val)

/-- An assignment that raises leaves the object as it was. -/
def Spec.keep (k : Key) : Res Key → Key
  | .ok k' => k'
  | .error _ => k

/-- The object after the operation, whether it succeeded or raised. -/
def Spec.KeyOp.after (k : Key) : Spec.KeyOp → Key
  | .setKty v => Spec.keep k (k.setKty v)
  | .setAlg v => Spec.keep k (k.setAlg v)
  | .setKid v => Spec.keep k (k.setKid v)
  | .setBaseIv v => Spec.keep k (k.setBaseIv v)
  | .setKeyOps v => (k.setKeyOps v).1
  | .setK v => Spec.keep k (k.setK v)
  | .setCrv v => Spec.keep k (k.setCrv v)
  | .setParam c v => Spec.keep k (k.setParam c v)
  | .del label => (k.delItem label).1

/-- The object after a sequence of operations. -/
def Spec.afterAll (k : Key) (ops : List Spec.KeyOp) : Key := ops.foldl Spec.KeyOp.after k

/-- `key.kty` is not assigned to. -/
def Spec.NoKty (ops : List Spec.KeyOp) : Prop := ∀ op ∈ ops, ∀ v, op ≠ .setKty v

theorem dget_ddel_other {d : Dict} {k q : Val} (h : keq k q = false) : dget (ddel d k) q = dget d q := by
  induction d with
  | nil => rfl
  | cons p t ih =>
    obtain ⟨a, b⟩ := p
    simp only [ddel]
    split
    · rename_i e
      have : keq a q = false := by rw [keq_congr_left e, h]
      simp [dget, this]
    · simp [dget, ih]

theorem fromIdKey_false {r : Reg} {l a : Val} (h : fromIdKey r l false = .ok a) :
    ∃ c, a = .cls c ∧ ∀ allow, fromIdKey r l allow = .ok (.cls c) := by
  unfold fromIdKey at h ⊢
  split at h
  · simp at h; exact ⟨_, h.symm, fun _ => rfl⟩
  · simp at h

/-- The ways in which an operation changes the store of a key of class `kind`; `kt`: the key type may be assigned, `dd`: the private
value of an OKP key may be deleted. -/
inductive StoreStep (kt dd : Prop) (kind : Kind) (s : Dict) : Dict → Prop
  | set {c : Cls} {v : Val} : c ≠ KpKty → c ≠ SymK → c ≠ Ec2Crv → c ≠ OkpCrv → StoreStep kt dd kind s (dset s (.cls c) v)
  | kty {v : Val} : kt → StoreStep kt dd kind s (dset s (.cls KpKty) v)
  | k {b : Bytes} : kind = .sym → (b.length = 16 ∨ b.length = 24 ∨ b.length = 32) →
      StoreStep kt dd kind s (dset s (.cls SymK) (.bytes b))
  | ec2Crv {c : Cls} : kind = .ec2 → crvKind c = some KtyEC2 → StoreStep kt dd kind s (dset s (.cls Ec2Crv) (.cls c))
  | okpCrv {c : Cls} : kind = .okp → crvKind c = some KtyOKP → StoreStep kt dd kind s (dset s (.cls OkpCrv) (.cls c))
  | delSym {c : Cls} : kind = .sym → c ≠ KpKty → c ≠ SymK → StoreStep kt dd kind s (ddel s (.cls c))
  | delOkp {c : Cls} : kind = .okp → c ≠ KpKty → c ≠ OkpCrv → (c = OkpX → dhas s (.cls OkpD) = true) → (c = OkpD → dd) →
      StoreStep kt dd kind s (ddel s (.cls c))
  | delEc2 {c : Cls} : kind = .ec2 → c ≠ KpKty → c ≠ Ec2Crv → (c = Ec2D → dhas s (.cls Ec2X) = true) →
      (c = Ec2X → dhas s (.cls Ec2D) = true) → StoreStep kt dd kind s (ddel s (.cls c))
  | delRsa {a : Val} : kind = .rsa → StoreStep kt dd kind s (ddel s a)

inductive Steps (kt dd : Prop) (kind : Kind) : Dict → Dict → Prop
  | nil {s : Dict} : Steps kt dd kind s s
  | snoc {s t u : Dict} : Steps kt dd kind s t → StoreStep kt dd kind t u → Steps kt dd kind s u

/-- A key of the same class reached by such steps. -/
def Leads (kt dd : Prop) (k k' : Key) : Prop := k'.kind = k.kind ∧ Steps kt dd k.kind k.store k'.store

theorem Leads.refl {kt dd : Prop} (k : Key) : Leads kt dd k k := ⟨rfl, .nil⟩

theorem Steps.trans {kt dd : Prop} {kind : Kind} {s t u : Dict} (h : Steps kt dd kind s t) (h' : Steps kt dd kind t u) :
    Steps kt dd kind s u := by
  induction h' with
  | nil => exact h
  | snoc _ h2 ih => exact .snoc ih h2

theorem Leads.trans {kt dd : Prop} {k k' k'' : Key} (h : Leads kt dd k k') (h' : Leads kt dd k' k'') : Leads kt dd k k'' :=
  ⟨h'.1.trans h.1, h.2.trans (h.1 ▸ h'.2)⟩

theorem Leads.one {kt dd : Prop} {k : Key} {s : Dict} (h : StoreStep kt dd k.kind k.store s) : Leads kt dd k { k with store := s } :=
  ⟨rfl, .snoc .nil h⟩

theorem Steps.mono {kt kt' dd dd' : Prop} {kind : Kind} {s t : Dict} (hk : kt → kt') (hd : dd → dd')
    (h : Steps kt dd kind s t) : Steps kt' dd' kind s t := by
  induction h with
  | nil => exact .nil
  | snoc _ h2 ih =>
    refine .snoc ih ?_
    cases h2 with
    | set h1 h2 h3 h4 => exact .set h1 h2 h3 h4
    | kty h => exact .kty (hk h)
    | k h1 h2 => exact .k h1 h2
    | ec2Crv h1 h2 => exact .ec2Crv h1 h2
    | okpCrv h1 h2 => exact .okpCrv h1 h2
    | delSym h1 h2 h3 => exact .delSym h1 h2 h3
    | delOkp h1 h2 h3 h4 h5 => exact .delOkp h1 h2 h3 h4 (fun h => hd (h5 h))
    | delEc2 h1 h2 h3 h4 h5 => exact .delEc2 h1 h2 h3 h4 h5
    | delRsa h1 => exact .delRsa h1

theorem Steps.inv {kt dd : Prop} {kind : Kind} {s t : Dict} {P : Dict → Prop} (hP : ∀ s s', P s → StoreStep kt dd kind s s' → P s')
    (h : Steps kt dd kind s t) (h0 : P s) : P t := by
  induction h with
  | nil => exact h0
  | snoc _ h2 ih => exact hP _ _ ih h2

theorem keyOpsLoop_leads {kt dd : Prop} {v : Val} {l : List Val} {k : Key} : Leads kt dd k (keyOpsLoop v k l).1 := by
  induction l generalizing k with
  | nil => exact .refl _
  | cons o t ih =>
    simp only [keyOpsLoop]
    split
    · exact .refl _
    · exact .refl _
    · split
      · exact .refl _
      · rename_i k' hk
        refine Leads.trans ?_ ih
        cases v <;> simp only [Key.setKeyOpsBase, reduceCtorEq] at hk
        obtain ⟨l', _, hk⟩ := bind_eq_ok.mp hk
        simp at hk; subst hk
        exact .one (.set (by decide) (by decide) (by decide) (by decide))

theorem setKeyOps_leads {kt dd : Prop} {v : Val} {k : Key} : Leads kt dd k (k.setKeyOps v).1 := by
  unfold Key.setKeyOps
  split <;> first | exact keyOpsLoop_leads | exact .refl _

theorem delBase_ok {k k' : Key} {l : Val} {c : Cls} (hc : ∀ allow, fromIdKey (kindReg k.kind) l allow = .ok (.cls c))
    (h : k.delBase l = .ok k') : dhas k.store (.cls c) = true ∧ k' = { k with store := ddel k.store (.cls c) } := by
  simp only [Key.delBase, hc, ok_bind] at h
  split at h <;> simp at h
  rename_i hh
  exact ⟨hh, h.symm⟩

theorem okVal {k : Key} {r : Res Key} {P : Key → Prop} (h : P k) (h' : ∀ k', r = .ok k' → P k') :
    P (Spec.keep k r) := by
  cases r with
  | error _ => exact h
  | ok k' => exact h' k' rfl

theorem okVal2 {k : Key} {r : Res Key} {P : Key → Prop} (h : P k) (h' : ∀ k', r = .ok k' → P k') :
    P (match r with | .ok k' => (k', (.ok () : Res Unit)) | .error e => (k, .error e)).1 := by
  cases r with
  | error _ => exact h
  | ok k' => exact h' k' rfl

theorem setBytes_ok {e : PyErr} {s s' : Dict} {c : Cls} {v : Val} (h : setBytes e s c v = .ok s') :
    ∃ b, v = .bytes b ∧ s' = dset s (.cls c) (.bytes b) := by
  cases v <;> simp only [setBytes, reduceCtorEq] at h
  simp at h; exact ⟨_, rfl, h.symm⟩

theorem bytesParams_ne {k : Kind} {c : Cls} (h : c ∈ bytesParams k) :
    c ≠ KpKty ∧ c ≠ SymK ∧ c ≠ Ec2Crv ∧ c ≠ OkpCrv := by
  refine ⟨?_, ?_, ?_, ?_⟩ <;> rintro rfl <;> revert h <;> cases k <;> decide

theorem fromIdKey_resolve {r : Reg} {l : Val} {c : Cls} (h : fromIdKey r l false = .ok (.cls c)) : resolve r l = some c := by
  unfold fromIdKey at h
  split at h
  · rename_i e; simp at h; rw [e, h]
  · simp at h

theorem delItem_leads {kt : Prop} (k : Key) (l : Val) : Leads kt (resolve .kpOkp l = some OkpD) k (k.delItem l).1 := by
  unfold Key.delItem
  split
  · rename_i hk
    refine okVal2 (P := Leads kt _ k) (.refl _) fun k' h => ?_
    simp only [Key.delBase, bind_eq_ok] at h
    obtain ⟨_, _, h⟩ := h
    split at h <;> simp at h
    subst h
    exact .one (.delRsa hk)
  · rename_i hk
    split
    · exact .refl _
    · rename_i a ha
      split
      · rename_i hne
        refine okVal2 (P := Leads kt _ k) (.refl _) fun k' h => ?_
        obtain ⟨c, rfl, hc⟩ := fromIdKey_false ha
        obtain ⟨_, rfl⟩ := delBase_ok (by rw [hk]; exact hc) h
        simp at hne
        exact .one (.delSym hk (by rintro rfl; simp at hne) (by rintro rfl; simp at hne))
      · exact .refl _
  · rename_i hk
    split
    · exact .refl _
    · rename_i a ha
      obtain ⟨c, rfl, hc⟩ := fromIdKey_false ha
      split
      · rename_i hne
        split
        · exact .refl _
        · rename_i hx
          refine okVal2 (P := Leads kt _ k) (.refl _) fun k' h => ?_
          obtain ⟨_, rfl⟩ := delBase_ok (by rw [hk]; exact hc) h
          simp at hne
          refine .one (.delOkp hk (by rintro rfl; simp at hne) (by rintro rfl; simp at hne) ?_ ?_)
          · rintro rfl
            simpa using hx
          · rintro rfl
            exact fromIdKey_resolve ha
      · exact .refl _
  · rename_i hk
    split
    · exact .refl _
    · rename_i a ha
      obtain ⟨c, rfl, hc⟩ := fromIdKey_false ha
      split
      · rename_i hne
        simp at hne
        split
        · exact .refl _
        · rename_i hd
          split
          · exact .refl _
          · rename_i hx
            split
            · rename_i hxy
              have ecx : ∀ (k1 : Key), k1.kind = .ec2 → ∀ allow, fromIdKey (kindReg k1.kind) (.cls Ec2X) allow = .ok (.cls Ec2X) := by
                intro k1 h1 allow; rw [h1]; cases allow <;> decide
              have ecy : ∀ (k1 : Key), k1.kind = .ec2 → ∀ allow, fromIdKey (kindReg k1.kind) (.cls Ec2Y) allow = .ok (.cls Ec2Y) := by
                intro k1 h1 allow; rw [h1]; cases allow <;> decide
              have l1 : ∀ k1, k.delBase (.cls Ec2X) = .ok k1 → Leads kt (resolve .kpOkp l = some OkpD) k k1 := by
                intro k1 h1
                obtain ⟨_, rfl⟩ := delBase_ok (ecx k hk) h1
                exact .one (.delEc2 hk (by decide) (by decide) (fun h => absurd h (by decide)) (fun _ => hxy.2))
              split
              · exact .refl _
              · rename_i k1 h1
                split
                · exact l1 _ h1
                · rename_i k2 h2
                  have hk1 : k1.kind = .ec2 := (l1 _ h1).1.trans hk
                  obtain ⟨_, rfl⟩ := delBase_ok (ecy k1 hk1) h2
                  exact (l1 _ h1).trans (.one (.delEc2 hk1 (by decide) (by decide) (fun h => absurd h (by decide)) (fun h => absurd h (by decide))))
            · refine okVal2 (P := Leads kt _ k) (.refl _) fun k' h => ?_
              obtain ⟨_, rfl⟩ := delBase_ok (by rw [hk]; exact hc) h
              refine .one (.delEc2 hk (by rintro rfl; simp at hne) (by rintro rfl; simp at hne) ?_ ?_)
              · rintro rfl
                simp only [true_and, not_or] at hd
                simpa using hd.2
              · rintro rfl
                simpa using hx
      · exact .refl _

/-- Every operation takes such steps. -/
theorem after_leads (k : Key) (op : Spec.KeyOp) : Leads (∃ v, op = .setKty v) (∃ l, op = .del l ∧ resolve .kpOkp l = some OkpD) k (op.after k) := by
  cases op with
  | setKty v =>
    refine okVal (P := Leads _ _ k) (.refl _) fun k' h => ?_
    simp only [Key.setKty, bind_eq_ok] at h
    obtain ⟨_, _, h⟩ := h; simp at h; subst h
    exact .one (.kty ⟨v, rfl⟩)
  | setAlg v =>
    refine okVal (P := Leads _ _ k) (.refl _) fun k' h => ?_
    simp only [Key.setAlg, bind_eq_ok] at h
    obtain ⟨_, _, h⟩ := h; simp at h; subst h
    exact .one (.set (by decide) (by decide) (by decide) (by decide))
  | setKid v =>
    refine okVal (P := Leads _ _ k) (.refl _) fun k' h => ?_
    simp only [Key.setKid, bind_eq_ok] at h
    obtain ⟨_, h1, h⟩ := h; simp at h; subst h
    obtain ⟨b, rfl, rfl⟩ := setBytes_ok h1
    exact .one (.set (by decide) (by decide) (by decide) (by decide))
  | setBaseIv v =>
    refine okVal (P := Leads _ _ k) (.refl _) fun k' h => ?_
    simp only [Key.setBaseIv, bind_eq_ok] at h
    obtain ⟨_, h1, h⟩ := h; simp at h; subst h
    obtain ⟨b, rfl, rfl⟩ := setBytes_ok h1
    exact .one (.set (by decide) (by decide) (by decide) (by decide))
  | setKeyOps v => exact setKeyOps_leads
  | setK v =>
    refine okVal (P := Leads _ _ k) (.refl _) fun k' h => ?_
    unfold Key.setK at h
    split at h
    · rename_i hk
      obtain ⟨s, h1, h⟩ := bind_eq_ok.mp h; simp at h; subst h
      cases v <;> simp only [setSymK, reduceCtorEq] at h1
      split at h1 <;> simp at h1
      rename_i hl
      subst h1
      exact .one (.k hk hl)
    · simp at h
  | setCrv v =>
    refine okVal (P := Leads _ _ k) (.refl _) fun k' h => ?_
    unfold Key.setCrv at h
    split at h
    · rename_i hk
      obtain ⟨c, h1, h⟩ := bind_eq_ok.mp h; simp at h; subst h
      exact .one (.ec2Crv hk (parseCrv_ok h1).1)
    · rename_i hk
      obtain ⟨c, h1, h⟩ := bind_eq_ok.mp h; simp at h; subst h
      exact .one (.okpCrv hk (parseCrv_ok h1).1)
    · simp at h
  | setParam c v =>
    refine okVal (P := Leads _ _ k) (.refl _) fun k' h => ?_
    unfold Key.setParam at h
    split at h
    · rename_i hc
      obtain ⟨s, h1, h⟩ := bind_eq_ok.mp h; simp at h; subst h
      obtain ⟨b, rfl, rfl⟩ := setBytes_ok h1
      obtain ⟨e1, e2, e3, e4⟩ := bytesParams_ne hc
      exact .one (.set e1 e2 e3 e4)
    · simp at h
  | del label =>
    obtain ⟨h1, h2⟩ := delItem_leads (kt := ∃ v, Spec.KeyOp.del label = .setKty v) k label
    exact ⟨h1, h2.mono id fun h => ⟨label, rfl, h⟩⟩

/-- The private value of an OKP key is not deleted (`del key[…]` with a label of the parameter D). -/
def Spec.KeepsD (ops : List Spec.KeyOp) : Prop := ∀ op ∈ ops, ∀ l, op = .del l → resolve .kpOkp l ≠ some OkpD

theorem afterAll_leads (k : Key) (ops : List Spec.KeyOp) :
    Leads (¬ Spec.NoKty ops) (¬ Spec.KeepsD ops) k (Spec.afterAll k ops) := by
  induction ops generalizing k with
  | nil => exact .refl _
  | cons op t ih =>
    obtain ⟨a1, a2⟩ := after_leads k op
    obtain ⟨b1, b2⟩ := ih (op.after k)
    refine ⟨b1.trans a1, Steps.trans (a2.mono ?_ ?_) ((a1 ▸ b2).mono ?_ ?_)⟩
    · rintro ⟨v, rfl⟩ h; exact h _ (by simp) v rfl
    · rintro ⟨l, rfl, hl⟩ h; exact h _ (by simp) l rfl hl
    · exact fun h h' => h fun o ho => h' o (List.mem_cons_of_mem _ ho)
    · exact fun h h' => h fun o ho => h' o (List.mem_cons_of_mem _ ho)

/-- The key type of the store is kept when it is not assigned to. -/
theorem Steps.kty {dd : Prop} {kind : Kind} {s t : Dict} {v : Val} (h : Steps False dd kind s t) (hr : kind ≠ .rsa)
    (hv : dget s (.cls KpKty) = some v) : dget t (.cls KpKty) = some v := by
  refine h.inv (P := fun s => dget s (.cls KpKty) = some v) (fun s s' hs st => ?_) hv
  cases st with
  | set h1 h2 h3 h4 => rw [dget_dset_other (by simpa using h1)]; exact hs
  | kty h => exact h.elim
  | k h1 h2 => rw [dget_dset_other (by decide)]; exact hs
  | ec2Crv h1 h2 => rw [dget_dset_other (by decide)]; exact hs
  | okpCrv h1 h2 => rw [dget_dset_other (by decide)]; exact hs
  | delSym h1 h2 h3 => rw [dget_ddel_other (by simpa using h2)]; exact hs
  | delOkp h1 h2 h3 h4 h5 => rw [dget_ddel_other (by simpa using h2)]; exact hs
  | delEc2 h1 h2 h3 h4 h5 => rw [dget_ddel_other (by simpa using h2)]; exact hs
  | delRsa h1 => exact (hr h1).elim

/-! ### Construction -/

/-- A key object produced by one of the constructors: the class constructors, `from_dict`, `decode`, `generate_key` and the
import of keys of the cryptography package. -/
inductive Spec.Built (C : Crypto) : Key → Prop
  | sym {k : Val} {opt : Dict} {allow : Bool} {r : Key} : symInit k opt allow = .ok r → Spec.Built C r
  | ec2 {crv x y d : Val} {opt : Dict} {allow : Bool} {r : Key} : ec2Init C crv x y d opt allow = .ok r → Spec.Built C r
  | okp {crv x d : Val} {opt : Dict} {allow : Bool} {r : Key} : okpInit crv x d opt allow = .ok r → Spec.Built C r
  | rsa {a : RsaArgs} {opt : Dict} {allow : Bool} {r : Key} : rsaInit a opt allow = .ok r → Spec.Built C r
  | fromDict {d : Val} {r : Key} : fromDictVal C d = .ok r → Spec.Built C r
  | decode {b : Bytes} {r : Key} : Key.decode C b = .ok r → Spec.Built C r
  | symGenerate {rnd : Nat → Bytes} {n : Int} {opt : Dict} {r : Key} : symGenerate rnd n opt = .ok r → Spec.Built C r
  | ec2Generate {crv : Val} {d : Nat} {opt : Dict} {r : Key} : ec2Generate C crv d opt = .ok r → Spec.Built C r
  | okpGenerate {crv : Val} {d : Bytes} {opt : Dict} {r : Key} : okpGenerate C crv d opt = .ok r → Spec.Built C r
  | ec2Import {crv : Cls} {x y : Nat} {d : Option Nat} {opt : Dict} {r : Key} :
      ec2FromNumbers C crv x y d opt = .ok r → Spec.Built C r
  | okpImport {crv : Cls} {x : Bytes} {d : Option Bytes} {opt : Dict} {r : Key} :
      okpFromBytes crv x d opt = .ok r → Spec.Built C r
  | rsaImport {n e : Nat} {priv : Option RsaNums} {opt : Dict} {r : Key} :
      rsaFromNumbers n e priv opt = .ok r → Spec.Built C r

/-- Every constructor goes through one of the four class constructors. -/
def ByInit (C : Crypto) (r : Key) : Prop :=
  (∃ k opt allow, symInit k opt allow = .ok r) ∨ (∃ crv x y d opt allow, ec2Init C crv x y d opt allow = .ok r) ∨
  (∃ crv x d opt allow, okpInit crv x d opt allow = .ok r) ∨ (∃ a opt allow, rsaInit a opt allow = .ok r)

theorem kindFromDict_init {C : Crypto} {k : Kind} {d : Dict} {r : Key} (h : kindFromDict C k d = .ok r) : ByInit C r := by
  cases k
  · exact .inl ⟨_, _, _, h⟩
  · exact .inr (.inl ⟨_, _, _, _, _, _, h⟩)
  · exact .inr (.inr (.inl ⟨_, _, _, _, _, h⟩))
  · exact .inr (.inr (.inr ⟨_, _, _, h⟩))

theorem fromDict_inv {C : Crypto} {d : Dict} {r : Key} (h : fromDict C d = .ok r) :
    ∃ v k, (dget d (.cls KpKty) = some v ∨ dget d (.cls KpKty) = none ∧ dget d (.int 1) = some v ∨
      dget d (.cls KpKty) = none ∧ dget d (.int 1) = none ∧ dget d (.text b!"KTY") = some v) ∧
      ktyLookup v = .ok k ∧ kindFromDict C k d = .ok r := by
  unfold fromDict at h
  split at h
  · rename_i v e
    obtain ⟨k, h1, h2⟩ := bind_eq_ok.mp h
    exact ⟨v, k, .inl e, h1, h2⟩
  · rename_i e
    split at h
    · rename_i v e1
      obtain ⟨k, h1, h2⟩ := bind_eq_ok.mp h
      exact ⟨v, k, .inr (.inl ⟨e, e1⟩), h1, h2⟩
    · rename_i e1
      split at h
      · rename_i v e2
        obtain ⟨k, h1, h2⟩ := bind_eq_ok.mp h
        exact ⟨v, k, .inr (.inr ⟨e, e1, e2⟩), h1, h2⟩
      · simp at h

/-- A list is no key. -/
theorem fromList_refused {l : List Val} {k : Key} (h : fromList l = .ok k) : False := by
  unfold fromList at h
  split at h
  · cases h
  · split at h
    · split at h
      · obtain ⟨_, _, h⟩ := bind_eq_ok.mp h
        obtain ⟨_, _, h⟩ := bind_eq_ok.mp h
        split at h <;> cases h
      · cases h
    · split at h <;> cases h

theorem fromDictVal_inv {C : Crypto} {v : Val} {r : Key} (h : fromDictVal C v = .ok r) :
    ∃ d, (v = .map d ∨ ∃ k, v = .key k d) ∧ fromDict C d = .ok r := by
  cases v <;> simp only [fromDictVal, reduceCtorEq] at h
  · exact (fromList_refused h).elim
  · exact ⟨_, .inl rfl, h⟩
  · exact ⟨_, .inr ⟨_, rfl⟩, h⟩

theorem fromDictVal_init {C : Crypto} {v : Val} {r : Key} (h : fromDictVal C v = .ok r) : ByInit C r := by
  obtain ⟨d, _, h⟩ := fromDictVal_inv h
  obtain ⟨_, _, _, _, h⟩ := fromDict_inv h
  exact kindFromDict_init h

theorem ec2FromNumbers_init {C : Crypto} {crv : Cls} {x y : Nat} {d : Option Nat} {opt : Dict} {r : Key}
    (h : ec2FromNumbers C crv x y d opt = .ok r) : ∃ e, ec2FromDict C e = .ok r := by
  simp only [ec2FromNumbers, bind_eq_ok] at h
  obtain ⟨_, _, _, _, h⟩ := h
  cases d with
  | none => exact ⟨_, h⟩
  | some n =>
    simp only [bind_eq_ok] at h
    obtain ⟨_, _, _, _, h⟩ := h
    exact ⟨_, h⟩

theorem Spec.Built.init {C : Crypto} {r : Key} (h : Spec.Built C r) : ByInit C r := by
  cases h with
  | sym h => exact .inl ⟨_, _, _, h⟩
  | ec2 h => exact .inr (.inl ⟨_, _, _, _, _, _, h⟩)
  | okp h => exact .inr (.inr (.inl ⟨_, _, _, _, _, h⟩))
  | rsa h => exact .inr (.inr (.inr ⟨_, _, _, h⟩))
  | fromDict h => exact fromDictVal_init h
  | decode h =>
    obtain ⟨_, _, h⟩ := bind_eq_ok.mp h
    exact fromDictVal_init h
  | symGenerate h =>
    unfold Cose.symGenerate at h
    split at h
    · exact .inl ⟨_, _, _, h⟩
    · simp at h
  | ec2Generate h =>
    simp only [Cose.ec2Generate, bind_eq_ok] at h
    obtain ⟨_, _, _, _, h⟩ := h
    obtain ⟨_, h⟩ := ec2FromNumbers_init h
    exact .inr (.inl ⟨_, _, _, _, _, _, h⟩)
  | okpGenerate h =>
    simp only [Cose.okpGenerate, bind_eq_ok] at h
    obtain ⟨_, _, _, _, h⟩ := h
    exact .inr (.inr (.inl ⟨_, _, _, _, _, h⟩))
  | ec2Import h =>
    obtain ⟨_, h⟩ := ec2FromNumbers_init h
    exact .inr (.inl ⟨_, _, _, _, _, _, h⟩)
  | okpImport h => exact .inr (.inr (.inl ⟨_, _, _, _, _, h⟩))
  | rsaImport h => exact .inr (.inr (.inr ⟨_, _, _, h⟩))

theorem initStore_kty {k : Kind} {opt s : Dict} {allow : Bool} (h : initStore k opt allow = .ok s) :
    dget s (.cls KpKty) = some (.cls (kindKty k)) := by
  simp only [initStore, bind_eq_ok] at h
  obtain ⟨t, _, h⟩ := h
  split at h
  · simp at h
  · rename_i hk
    have hk : dget t (.cls KpKty) = some (.cls (kindKty k)) := by simpa using hk
    split at h
    · simp at h; exact h ▸ hk
    · simp only [bind_eq_ok] at h
      obtain ⟨n, _, h⟩ := h
      split at h <;> simp at h <;> subst h
      · rw [dget_ddel_other (by decide)]; exact hk
      · exact hk

theorem setIfNonEmpty_ok {s s' : Dict} {c : Cls} {v : Val} (h : setIfNonEmpty s c v = .ok s') :
    v = .bytes [] ∧ s' = s ∨ ∃ b, b ≠ [] ∧ v = .bytes b ∧ s' = dset s (.cls c) (.bytes b) := by
  unfold setIfNonEmpty at h
  split at h
  · simp at h; exact .inl ⟨by assumption, h.symm⟩
  · rename_i hv
    obtain ⟨b, rfl, rfl⟩ := setBytes_ok h
    exact .inr ⟨b, by simpa using hv, rfl, rfl⟩

theorem setIfNonEmpty_get {s s' : Dict} {c q : Cls} {v : Val} (h : setIfNonEmpty s c v = .ok s') (hq : c ≠ q) :
    dget s' (.cls q) = dget s (.cls q) := by
  rcases setIfNonEmpty_ok h with ⟨_, rfl⟩ | ⟨b, _, _, rfl⟩
  · rfl
  · exact dget_dset_other (by simpa using hq)

theorem symInit_ok {k : Val} {opt : Dict} {allow : Bool} {r : Key} (h : symInit k opt allow = .ok r) :
    ∃ s b, initStore .sym opt allow = .ok s ∧ k = .bytes b ∧ (b.length = 16 ∨ b.length = 24 ∨ b.length = 32) ∧
      r = { kind := .sym, store := dset s (.cls SymK) (.bytes b) } := by
  simp only [symInit, bind_eq_ok] at h
  obtain ⟨s, hs, h⟩ := h
  split at h
  · simp at h
  · simp only [bind_eq_ok] at h
    obtain ⟨t, ht, h⟩ := h
    cases k <;> simp only [setSymK, reduceCtorEq] at ht
    split at ht <;> simp at ht
    rename_i hl
    simp at h
    exact ⟨s, _, hs, rfl, hl, by rw [← h, ← ht]⟩

theorem okpInit_ok {crv x d : Val} {opt : Dict} {allow : Bool} {r : Key} (h : okpInit crv x d opt allow = .ok r) :
    ∃ s c s1 s2, initStore .okp opt allow = .ok s ∧ parseCrv KtyOKP crv = .ok c ∧
      setIfNonEmpty (dset s (.cls OkpCrv) (.cls c)) OkpX x = .ok s1 ∧ setIfNonEmpty s1 OkpD d = .ok s2 ∧
      (x ≠ .bytes [] ∨ d ≠ .bytes []) ∧ r = { kind := .okp, store := s2 } := by
  simp only [okpInit, bind_eq_ok] at h
  obtain ⟨s, hs, lx, hlx, h⟩ := h
  have aux : ∀ be : Bool, (if be = true then (.error .invalidKey : Res Key) else if crv = .none then .error .invalidKey
      else do
        let c ← parseCrv KtyOKP crv
        let s := dset s (.cls OkpCrv) (.cls c)
        let s ← setIfNonEmpty s OkpX x
        let s ← setIfNonEmpty s OkpD d
        .ok { kind := .okp, store := s }) = .ok r →
      be = false ∧ ∃ c s1 s2, parseCrv KtyOKP crv = .ok c ∧
      setIfNonEmpty (dset s (.cls OkpCrv) (.cls c)) OkpX x = .ok s1 ∧ setIfNonEmpty s1 OkpD d = .ok s2 ∧
      r = { kind := .okp, store := s2 } := by
    intro be h
    split at h
    · simp at h
    · rename_i hb
      split at h
      · simp at h
      · simp only [bind_eq_ok] at h
        obtain ⟨c, hc, s1, h1, s2, h2, h⟩ := h
        simp at h
        exact ⟨by simpa using hb, c, s1, s2, hc, h1, h2, h.symm⟩
  split at h
  · simp only [bind_eq_ok] at h
    obtain ⟨ld, hld, be, hbe, h⟩ := h
    simp at hbe; subst hbe
    obtain ⟨hb, c, s1, s2, hc, h1, h2, rfl⟩ := aux _ h
    refine ⟨s, c, s1, s2, hs, hc, h1, h2, .inr ?_, rfl⟩
    rintro rfl
    simp [lenOf] at hld; subst hld; simp at hb
  · rename_i hl
    simp only [ok_bind] at h
    obtain ⟨_, c, s1, s2, hc, h1, h2, rfl⟩ := aux _ h
    refine ⟨s, c, s1, s2, hs, hc, h1, h2, .inl ?_, rfl⟩
    rintro rfl
    simp [lenOf] at hlx; exact hl hlx.symm

theorem intFromBytes_bytes {b : Bytes} : intFromBytes (.bytes b) = .ok (natOfBytes b) := rfl

/-- The point computed from a private value. -/
def EcPoint (C : Crypto) (c : Cls) (d bx bY : Bytes) : Prop :=
  C.ecPub c (natOfBytes d) = .ok (natOfBytes bx, natOfBytes bY) ∧ bx.length = crvSize c ∧ bY.length = crvSize c

theorem ec2Init_ok {C : Crypto} {crv x y d : Val} {opt : Dict} {allow : Bool} {r : Key}
    (h : ec2Init C crv x y d opt allow = .ok r) :
    ∃ s c x' y' s1 s2 s3, initStore .ec2 opt allow = .ok s ∧ parseCrv KtyEC2 crv = .ok c ∧
      setIfNonEmpty (dset s (.cls Ec2Crv) (.cls c)) Ec2X x' = .ok s1 ∧ setIfNonEmpty s1 Ec2Y y' = .ok s2 ∧
      setIfNonEmpty s2 Ec2D d = .ok s3 ∧ r = { kind := .ec2, store := s3 } ∧ truthy x' = true ∧
      (truthy x = true → x' = x) ∧ (truthy y = true → y' = y) ∧
      (∀ db, d = .bytes db → db ≠ [] → ∃ bx bY, x' = .bytes bx ∧ y' = .bytes bY ∧ EcPoint C c db bx bY) ∧
      (truthy d = false → truthy y = false →
        ∃ xb yb px, x = .bytes xb ∧ y' = .bytes yb ∧ C.ecDecompress c xb = .ok (px, natOfBytes yb) ∧ natOfBytes xb = px ∧
          yb.length = crvSize c) := by
  simp only [ec2Init, bind_eq_ok] at h
  obtain ⟨s, hs, h⟩ := h
  split at h
  · simp at h
  · simp only [bind_eq_ok] at h
    obtain ⟨c, hc, h⟩ := h
    have hsz : crvSize c ≠ 0 := by
      rcases ec2_curves (parseCrv_ok hc).1 with rfl | rfl | rfl | rfl <;> decide
    split at h
    · simp at h
    · rename_i hxyd
      split at h
      · simp at h
      · rename_i hdx
        split at h
        · rename_i hd
          simp only [bind_eq_ok] at h
          obtain ⟨n, hn, ⟨px, py⟩, hp, bx, hbx, x', hx', bY, hbY, y', hy', ⟨x2, y2⟩, h2, h⟩ := h
          simp only [Except.ok.injEq, Prod.mk.injEq] at h2
          obtain ⟨rfl, rfl⟩ := h2
          obtain ⟨lx, vx⟩ := toBytes_ok hbx
          obtain ⟨ly, vy⟩ := toBytes_ok hbY
          have ex : x' = .bytes bx ∧ (truthy x = true → x' = x) := by
            unfold checkOrDerive at hx'
            split at hx'
            · split at hx' <;> simp at hx'
              rename_i e; exact ⟨by rw [← hx', e], fun _ => hx'.symm⟩
            · rename_i e; simp at hx'; exact ⟨hx'.symm, fun h => absurd h e⟩
          have ey : y' = .bytes bY ∧ (truthy y = true → y' = y) := by
            unfold checkOrDerive at hy'
            split at hy'
            · split at hy' <;> simp at hy'
              rename_i e; exact ⟨by rw [← hy', e], fun _ => hy'.symm⟩
            · rename_i e; simp at hy'; exact ⟨hy'.symm, fun h => absurd h e⟩
          obtain ⟨rfl, ex⟩ := ex
          obtain ⟨rfl, ey⟩ := ey
          have tx := truthy_bytes lx hsz
          have ty := truthy_bytes ly hsz
          simp only [tx, ty, Bool.true_eq_false, and_false, if_false, ok_bind, bind_eq_ok] at h
          obtain ⟨s1, h1, s2, h2, s3, h3, h⟩ := h
          simp at h
          refine ⟨s, c, _, _, s1, s2, s3, hs, hc, h1, h2, h3, h.symm, tx, ex, ey, ?_, ?_⟩
          · rintro db rfl _
            simp [intFromBytes] at hn
            exact ⟨bx, bY, rfl, rfl, by rw [hn, vx, vy]; exact hp, lx, ly⟩
          · intro e; rw [hd] at e; simp at e
        · rename_i hd
          have hd : truthy d = false := by simpa using hd
          have hx : truthy x = true := by simpa [hd] using hdx
          have nd : ∀ db, d = .bytes db → db ≠ [] → False := by
            rintro db rfl hne
            cases db <;> simp_all [truthy]
          simp only [ok_bind] at h
          split at h
          · rename_i hy
            split at h
            · rename_i xb
              simp only [bind_eq_ok] at h
              obtain ⟨⟨px, py⟩, hp, bx, hbx, h⟩ := h
              split at h
              · rename_i e
                subst e
                simp only [bind_eq_ok] at h
                obtain ⟨bY, hbY, s1, h1, s2, h2, s3, h3, h⟩ := h
                simp at h
                obtain ⟨lx, vx⟩ := toBytes_ok hbx
                obtain ⟨ly, vy⟩ := toBytes_ok hbY
                refine ⟨s, c, _, _, s1, s2, s3, hs, hc, h1, h2, h3, h.symm, hx, fun _ => rfl, fun e => ?_, fun db e1 e2 => (nd db e1 e2).elim,
                  fun _ _ => ⟨_, bY, px, rfl, rfl, by rw [vy]; exact hp, vx, ly⟩⟩
                rw [hy.2] at e; simp at e
              · simp at h
            · simp at h
          · rename_i hy
            simp only [bind_eq_ok] at h
            obtain ⟨s1, h1, s2, h2, s3, h3, h⟩ := h
            simp at h
            refine ⟨s, c, _, _, s1, s2, s3, hs, hc, h1, h2, h3, h.symm, hx, fun _ => rfl, fun _ => rfl, fun db e1 e2 => (nd db e1 e2).elim,
              fun _ e => absurd ⟨hx, e⟩ hy⟩

/-- The arguments of the RSA constructor after `other=None` has been replaced. -/
def RsaArgs.fix (a : RsaArgs) : RsaArgs := if a.other = .none then { a with other := .arr [] } else a

/-- The instance attributes of an RSA key. -/
def RsaArgs.attrs (a : RsaArgs) : Dict :=
  (if truthy a.other then [(Val.text b!"other", a.other)] else []) ++
  (if a.ri = .bytes [] then [] else [(Val.text b!"r_i", a.ri)]) ++
  (if a.di = .bytes [] then [] else [(Val.text b!"d_i", a.di)]) ++
  (if a.ti = .bytes [] then [] else [(Val.text b!"t_i", a.ti)])

theorem rsaInit_ok {a : RsaArgs} {opt : Dict} {allow : Bool} {r : Key} (h : rsaInit a opt allow = .ok r) :
    rsaValid a.fix = .ok true ∧ ∃ s eb nb s3 s4 s5 s6 s7 s8, initStore .rsa opt allow = .ok s ∧ a.e = .bytes eb ∧ a.n = .bytes nb ∧
      setIfNonEmpty (dset (dset s (.cls RsaE) (.bytes eb)) (.cls RsaN) (.bytes nb)) RsaD a.d = .ok s3 ∧
      setIfNonEmpty s3 RsaP a.p = .ok s4 ∧ setIfNonEmpty s4 RsaQ a.q = .ok s5 ∧ setIfNonEmpty s5 RsaDP a.dp = .ok s6 ∧
      setIfNonEmpty s6 RsaDQ a.dq = .ok s7 ∧ setIfNonEmpty s7 RsaQInv a.qinv = .ok s8 ∧
      r = { kind := .rsa, store := s8, extra := a.fix.attrs } := by
  have fx : ∀ (P : RsaArgs → Prop), P a.fix → P (if a.other = .none then { a with other := .arr [] } else a) := fun _ h => h
  have e1 : a.fix.e = a.e ∧ a.fix.n = a.n ∧ a.fix.d = a.d ∧ a.fix.p = a.p ∧ a.fix.q = a.q ∧ a.fix.dp = a.dp ∧ a.fix.dq = a.dq ∧
      a.fix.qinv = a.qinv := by
    unfold RsaArgs.fix; split <;> simp
  obtain ⟨e1, e2, e3, e4, e5, e6, e7, e8⟩ := e1
  replace h : (do
    let ok ← rsaValid a.fix
    if ok = false then .error .invalidKey
    else do
      let s ← initStore .rsa opt allow
      let s ← setBytes .typeError s RsaE a.fix.e
      let s ← setBytes .typeError s RsaN a.fix.n
      let s ← setIfNonEmpty s RsaD a.fix.d
      let s ← setIfNonEmpty s RsaP a.fix.p
      let s ← setIfNonEmpty s RsaQ a.fix.q
      let s ← setIfNonEmpty s RsaDP a.fix.dp
      let s ← setIfNonEmpty s RsaDQ a.fix.dq
      let s ← setIfNonEmpty s RsaQInv a.fix.qinv
      .ok { kind := .rsa, store := s, extra := a.fix.attrs } : Res Key) = .ok r := h
  rw [e1, e2, e3, e4, e5, e6, e7, e8] at h
  obtain ⟨ok, hv, h⟩ := bind_eq_ok.mp h
  split at h
  · simp at h
  · rename_i hok
    have hok : ok = true := by simpa using hok
    subst hok
    simp only [bind_eq_ok] at h
    obtain ⟨s, hs, s1, h1, s2, h2, s3, h3, s4, h4, s5, h5, s6, h6, s7, h7, s8, h8, h⟩ := h
    simp at h
    obtain ⟨eb, ee, rfl⟩ := setBytes_ok h1
    obtain ⟨nb, en, rfl⟩ := setBytes_ok h2
    exact ⟨hv, s, eb, nb, s3, s4, s5, s6, s7, s8, hs, ee, en, h3, h4, h5, h6, h7, h8, h.symm⟩

/-- The key type after construction. -/
theorem byInit_kty {C : Crypto} {k : Key} (h : ByInit C k) : dget k.store (.cls KpKty) = some (.cls (kindKty k.kind)) := by
  rcases h with ⟨_, _, _, h⟩ | ⟨_, _, _, _, _, _, h⟩ | ⟨_, _, _, _, _, h⟩ | ⟨_, _, _, h⟩
  · obtain ⟨s, b, hs, _, _, rfl⟩ := symInit_ok h
    simp only
    rw [dget_dset_other (by decide)]; exact initStore_kty hs
  · obtain ⟨s, c, x', y', s1, s2, s3, hs, _, h1, h2, h3, rfl, _⟩ := ec2Init_ok h
    simp only
    rw [setIfNonEmpty_get h3 (by decide), setIfNonEmpty_get h2 (by decide), setIfNonEmpty_get h1 (by decide), dget_dset_other (by decide)]
    exact initStore_kty hs
  · obtain ⟨s, c, s1, s2, hs, _, h1, h2, _, rfl⟩ := okpInit_ok h
    simp only
    rw [setIfNonEmpty_get h2 (by decide), setIfNonEmpty_get h1 (by decide), dget_dset_other (by decide)]
    exact initStore_kty hs
  · obtain ⟨_, s, eb, nb, s3, s4, s5, s6, s7, s8, hs, _, _, h3, h4, h5, h6, h7, h8, rfl⟩ := rsaInit_ok h
    simp only
    rw [setIfNonEmpty_get h8 (by decide), setIfNonEmpty_get h7 (by decide), setIfNonEmpty_get h6 (by decide),
      setIfNonEmpty_get h5 (by decide), setIfNonEmpty_get h4 (by decide), setIfNonEmpty_get h3 (by decide),
      dget_dset_other (by decide), dget_dset_other (by decide)]
    exact initStore_kty hs

theorem kty_of {k : Key} {c : Cls} (h : dget k.store (.cls KpKty) = some (.cls c)) : k.kty = .cls c := by
  simp [Key.kty, getD, h]

theorem byInit_sym {C : Crypto} {k : Key} (h : ByInit C k) (hk : k.kind = .sym) :
    ∃ v opt allow, symInit v opt allow = .ok k := by
  rcases h with h | ⟨_, _, _, _, _, _, h⟩ | ⟨_, _, _, _, _, h⟩ | ⟨_, _, _, h⟩
  · exact h
  · obtain ⟨s, c, x', y', s1, s2, s3, _, _, _, _, _, rfl, _⟩ := ec2Init_ok h; simp at hk
  · obtain ⟨s, c, s1, s2, _, _, _, _, _, rfl⟩ := okpInit_ok h; simp at hk
  · obtain ⟨_, _, _, _, _, _, _, _, _, _, _, _, _, _, _, _, _, _, _, rfl⟩ := rsaInit_ok h; simp at hk

theorem byInit_ec2 {C : Crypto} {k : Key} (h : ByInit C k) (hk : k.kind = .ec2) :
    ∃ crv x y d opt allow, ec2Init C crv x y d opt allow = .ok k := by
  rcases h with ⟨_, _, _, h⟩ | h | ⟨_, _, _, _, _, h⟩ | ⟨_, _, _, h⟩
  · obtain ⟨_, _, _, _, _, rfl⟩ := symInit_ok h; simp at hk
  · exact h
  · obtain ⟨s, c, s1, s2, _, _, _, _, _, rfl⟩ := okpInit_ok h; simp at hk
  · obtain ⟨_, _, _, _, _, _, _, _, _, _, _, _, _, _, _, _, _, _, _, rfl⟩ := rsaInit_ok h; simp at hk

theorem byInit_okp {C : Crypto} {k : Key} (h : ByInit C k) (hk : k.kind = .okp) :
    ∃ crv x d opt allow, okpInit crv x d opt allow = .ok k := by
  rcases h with ⟨_, _, _, h⟩ | ⟨_, _, _, _, _, _, h⟩ | h | ⟨_, _, _, h⟩
  · obtain ⟨_, _, _, _, _, rfl⟩ := symInit_ok h; simp at hk
  · obtain ⟨s, c, x', y', s1, s2, s3, _, _, _, _, _, rfl, _⟩ := ec2Init_ok h; simp at hk
  · exact h
  · obtain ⟨_, _, _, _, _, _, _, _, _, _, _, _, _, _, _, _, _, _, _, rfl⟩ := rsaInit_ok h; simp at hk

/-! ### C39 -/

theorem sym_built_store {C : Crypto} {k : Key} (h : Spec.Built C k) (hk : k.kind = .sym) :
    ∃ b : Bytes, dget k.store (.cls SymK) = some (.bytes b) ∧ (b.length = 16 ∨ b.length = 24 ∨ b.length = 32) := by
  obtain ⟨v, opt, allow, h⟩ := byInit_sym h.init hk
  obtain ⟨s, b, _, _, hl, rfl⟩ := symInit_ok h
  exact ⟨b, dget_dset_same _ _ _, hl⟩

/-- **C39** at construction: whichever constructor made the symmetric key, from whatever arguments, its key type is
SYMMETRIC and its key value has 16, 24 or 32 bytes. -/
theorem c39_built {C : Crypto} {k : Key} (h : Spec.Built C k) (hk : k.kind = .sym) :
    k.kty = .cls KtySym ∧ ∃ b : Bytes, k.symK = .ok (.bytes b) ∧ (b.length = 16 ∨ b.length = 24 ∨ b.length = 32) := by
  obtain ⟨b, hb, hl⟩ := sym_built_store h hk
  exact ⟨kty_of (by simpa [hk, kindKty] using byInit_kty h.init), b, by simp [Key.symK, hk, hb], hl⟩

/-- **C39**, after any history of assignments and deletions, also failing ones: the object is still a symmetric key with a
key value of 16, 24 or 32 bytes.  Its key type is still SYMMETRIC provided `key.kty` was not assigned to; missing: key
types survive assignments to `key.kty` (`c39_refuted`). -/
theorem c39_history_partial {C : Crypto} {k : Key} (h : Spec.Built C k) (hk : k.kind = .sym) (ops : List Spec.KeyOp) :
    (Spec.afterAll k ops).kind = .sym ∧
    (∃ b : Bytes, (Spec.afterAll k ops).symK = .ok (.bytes b) ∧ (b.length = 16 ∨ b.length = 24 ∨ b.length = 32)) ∧
    (Spec.NoKty ops → (Spec.afterAll k ops).kty = .cls KtySym) := by
  obtain ⟨h1, h2⟩ := afterAll_leads k ops
  have inv := h2.inv (P := fun s => ∃ b : Bytes, dget s (.cls SymK) = some (.bytes b) ∧ (b.length = 16 ∨ b.length = 24 ∨ b.length = 32))
    (fun s s' hs st => ?_) (sym_built_store h hk)
  · obtain ⟨b, hb, hl⟩ := inv
    refine ⟨h1.trans hk, ⟨b, by simp [Key.symK, h1.trans hk, hb], hl⟩, fun hn => kty_of ?_⟩
    refine (h2.mono (fun h => h hn) id).kty (by rw [hk]; decide) ?_
    simpa [hk, kindKty] using byInit_kty h.init
  · obtain ⟨b, hb, hl⟩ := hs
    cases st with
    | set h1 h2 h3 h4 => exact ⟨b, by rw [dget_dset_other (by simpa using h2)]; exact hb, hl⟩
    | kty h => exact ⟨b, by rw [dget_dset_other (by decide)]; exact hb, hl⟩
    | k h1 h2 => exact ⟨_, dget_dset_same _ _ _, h2⟩
    | ec2Crv h1 h2 => exact ⟨b, by rw [dget_dset_other (by decide)]; exact hb, hl⟩
    | okpCrv h1 h2 => exact ⟨b, by rw [dget_dset_other (by decide)]; exact hb, hl⟩
    | delSym h1 h2 h3 => exact ⟨b, by rw [dget_ddel_other (by simpa using h3)]; exact hb, hl⟩
    | delOkp h1 => rw [hk] at h1; exact absurd h1 (by decide)
    | delEc2 h1 => rw [hk] at h1; exact absurd h1 (by decide)
    | delRsa h1 => rw [hk] at h1; exact absurd h1 (by decide)

/-- A 16-byte symmetric key. -/
def sampleSym : Key := { kind := .sym, store := [(.cls KpKty, .cls KtySym), (.cls SymK, .bytes (List.replicate 16 7))] }

theorem sampleSym_built (C : Crypto) : Spec.Built C sampleSym :=
  .sym (k := .bytes (List.replicate 16 7)) (opt := []) (allow := true) (by decide +kernel)

/-- The key value of a symmetric key cannot be deleted, and a key value of another length is refused. -/
example : sampleSym.kind = .sym ∧ Spec.NoKty [.setK (.bytes [1]), .del (.text b!"k"), .setAlg (.int 1), .del (.int 3)] ∧
    Spec.afterAll sampleSym [.setK (.bytes [1]), .del (.text b!"k"), .setAlg (.int 1), .del (.int 3)] = sampleSym := by
  refine ⟨rfl, ?_, by decide +kernel⟩
  intro op h v e
  subst e; simp at h

/-- **C39**, refuted for assignments to `key.kty`: one assignment, even of the correct key type, and the key type of the
key is no longer SYMMETRIC. -/
theorem c39_refuted (C : Crypto) : ∃ k ops, Spec.Built C k ∧ k.kind = .sym ∧ (Spec.afterAll k ops).kty ≠ .cls KtySym :=
  ⟨sampleSym, [.setKty (.int 4)], sampleSym_built C, rfl, by decide +kernel⟩

/-! ### C40 -/

theorem truthy_setIfNonEmpty {s s' : Dict} {c : Cls} {v : Val} (h : setIfNonEmpty s c v = .ok s') (ht : truthy v = true) :
    ∃ b, b ≠ [] ∧ v = .bytes b ∧ s' = dset s (.cls c) (.bytes b) := by
  rcases setIfNonEmpty_ok h with ⟨rfl, _⟩ | h
  · simp [truthy] at ht
  · exact h

theorem ec2_built_store {C : Crypto} {k : Key} (h : Spec.Built C k) (hk : k.kind = .ec2) :
    (∃ c, dget k.store (.cls Ec2Crv) = some (.cls c) ∧ crvKind c = some KtyEC2) ∧
    ∃ bx : Bytes, bx ≠ [] ∧ dget k.store (.cls Ec2X) = some (.bytes bx) := by
  obtain ⟨_, _, _, _, _, _, h⟩ := byInit_ec2 h.init hk
  obtain ⟨s, c, x', y', s1, s2, s3, hs, hc, h1, h2, h3, rfl, ht, _⟩ := ec2Init_ok h
  obtain ⟨bx, hne, rfl, rfl⟩ := truthy_setIfNonEmpty h1 ht
  refine ⟨⟨c, ?_, (parseCrv_ok hc).1⟩, bx, hne, ?_⟩
  · simp only
    rw [setIfNonEmpty_get h3 (by decide), setIfNonEmpty_get h2 (by decide), dget_dset_other (by decide), dget_dset_same]
  · simp only
    rw [setIfNonEmpty_get h3 (by decide), setIfNonEmpty_get h2 (by decide), dget_dset_same]

/-- **C40** at construction: whichever constructor made the EC2 key, from whatever arguments, its key type is EC2, its curve
is one of the EC2 curves (1, 2, 3 and 8 in the registry) and it has a non-empty x coordinate. -/
theorem c40_built {C : Crypto} {k : Key} (h : Spec.Built C k) (hk : k.kind = .ec2) :
    k.kty = .cls KtyEC2 ∧ (∃ i, k.crv = .ok (.cls ⟨.crv, i⟩) ∧ (i = 1 ∨ i = 2 ∨ i = 3 ∨ i = 8)) ∧
    ∃ bx : Bytes, bx ≠ [] ∧ k.x = .ok (.bytes bx) := by
  obtain ⟨⟨c, h1, h2⟩, bx, h3, h4⟩ := ec2_built_store h hk
  refine ⟨kty_of (by simpa [hk, kindKty] using byInit_kty h.init), ⟨c.ident, ?_, ?_⟩, bx, h3, by simp [Key.x, hk, getD, h4]⟩
  · simp only [Key.crv, hk, h1]
    rcases ec2_curves h2 with rfl | rfl | rfl | rfl <;> rfl
  · rcases ec2_curves h2 with rfl | rfl | rfl | rfl <;> simp

theorem coordBytes_mem {c : Cls} (h : crvKind c = some KtyEC2) : (c, crvSize c) ∈ Spec.coordBytes := by
  rcases ec2_curves h with rfl | rfl | rfl | rfl <;> decide

/-- **C40**, the private value: a key constructed with the private value `d` carries the point of `d`, with coordinates of
the length the curve demands, whatever coordinates were given besides. -/
theorem c40_point {C : Crypto} {crv x y : Val} {d : Bytes} {opt : Dict} {allow : Bool} {k : Key} (hd : d ≠ [])
    (h : ec2Init C crv x y (.bytes d) opt allow = .ok k) :
    ∃ c n bx bY, (c, n) ∈ Spec.coordBytes ∧ k.crv = .ok (.cls c) ∧ k.d = .ok (.bytes d) ∧ k.x = .ok (.bytes bx) ∧ k.y = .ok (.bytes bY) ∧
      C.ecPub c (natOfBytes d) = .ok (natOfBytes bx, natOfBytes bY) ∧ bx.length = n ∧ bY.length = n := by
  obtain ⟨s, c, x', y', s1, s2, s3, hs, hc, h1, h2, h3, rfl, ht, _, _, hp, _⟩ := ec2Init_ok h
  obtain ⟨bx, bY, rfl, rfl, hp, lx, ly⟩ := hp d rfl hd
  have hsz : crvSize c ≠ 0 := by
    rcases ec2_curves (parseCrv_ok hc).1 with rfl | rfl | rfl | rfl <;> decide
  obtain ⟨_, _, e, rfl⟩ := truthy_setIfNonEmpty h1 (truthy_bytes lx hsz)
  cases e
  obtain ⟨_, _, e, rfl⟩ := truthy_setIfNonEmpty h2 (truthy_bytes ly hsz)
  cases e
  obtain ⟨_, _, e, rfl⟩ := truthy_setIfNonEmpty h3 (by cases d <;> simp_all [truthy])
  cases e
  refine ⟨c, crvSize c, bx, bY, coordBytes_mem (parseCrv_ok hc).1, ?_, ?_, ?_, ?_, hp, lx, ly⟩
  · simp only [Key.crv]
    rw [dget_dset_other (by decide), dget_dset_other (by decide), dget_dset_other (by decide), dget_dset_same]
  · simp [Key.d, getD, dget_dset_same]
  · simp only [Key.x, getD]
    rw [dget_dset_other (by decide), dget_dset_other (by decide), dget_dset_same]; rfl
  · simp only [Key.y, getD]
    rw [dget_dset_other (by decide), dget_dset_same]; rfl

/-- **C40**, the compressed form: a public key constructed from x alone carries the y coordinate computed by point
decompression, and x is a full-length coordinate. -/
theorem c40_decompressed {C : Crypto} {crv x y : Val} {opt : Dict} {allow : Bool} {k : Key} (hy : truthy y = false)
    (h : ec2Init C crv x y (.bytes []) opt allow = .ok k) :
    ∃ c n xb yb, (c, n) ∈ Spec.coordBytes ∧ k.crv = .ok (.cls c) ∧ x = .bytes xb ∧ k.x = .ok (.bytes xb) ∧ k.y = .ok (.bytes yb) ∧
      C.ecDecompress c xb = .ok (natOfBytes xb, natOfBytes yb) ∧ yb.length = n := by
  obtain ⟨s, c, x', y', s1, s2, s3, hs, hc, h1, h2, h3, rfl, ht, hx, _, _, hq⟩ := ec2Init_ok h
  obtain ⟨xb, yb, px, rfl, rfl, hq, rfl, ly⟩ := hq rfl hy
  have hsz : crvSize c ≠ 0 := by
    rcases ec2_curves (parseCrv_ok hc).1 with rfl | rfl | rfl | rfl <;> decide
  have hx : x' = .bytes xb := by
    apply hx
    have : truthy (Val.bytes xb) = true := by
      refine Classical.byContradiction fun hn => ?_
      have e : truthy (Val.bytes xb) = false := by simpa using hn
      have : ec2Init C crv (.bytes xb) y (.bytes []) opt allow ≠ .ok { kind := .ec2, store := s3 } := by
        intro h'
        simp only [ec2Init, bind_eq_ok] at h'
        obtain ⟨_, _, h'⟩ := h'
        split at h'
        · simp at h'
        · simp only [bind_eq_ok] at h'
          obtain ⟨_, _, h'⟩ := h'
          rw [if_pos ⟨e, hy, rfl⟩] at h'
          simp at h'
      exact this h
    exact this
  subst hx
  obtain ⟨_, _, e, rfl⟩ := truthy_setIfNonEmpty h1 ht
  cases e
  obtain ⟨_, _, e, rfl⟩ := truthy_setIfNonEmpty h2 (truthy_bytes ly hsz)
  cases e
  have e3 := h3
  simp only [setIfNonEmpty, if_true] at e3
  simp at e3
  subst e3
  refine ⟨c, crvSize c, xb, yb, coordBytes_mem (parseCrv_ok hc).1, ?_, rfl, ?_, ?_, hq, ly⟩
  · simp only [Key.crv]
    rw [dget_dset_other (by decide), dget_dset_other (by decide), dget_dset_same]
  · simp only [Key.x, getD]
    rw [dget_dset_other (by decide), dget_dset_same]; rfl
  · simp [Key.y, getD, dget_dset_same]

theorem dhas_dset {s : Dict} {c q : Cls} {v : Val} (h : dhas s (.cls q) = true) : dhas (dset s (.cls c) v) (.cls q) = true := by
  unfold dhas at h ⊢
  rw [dget_dset]
  split
  · rfl
  · exact h

theorem dhas_ddel {s : Dict} {c q : Cls} (hc : c ≠ q) (h : dhas s (.cls q) = true) : dhas (ddel s (.cls c)) (.cls q) = true := by
  unfold dhas at h ⊢
  rw [dget_ddel_other (by simpa using hc)]
  exact h

/-- **C40**, after any history of assignments and deletions, also failing ones: the object is still an EC2 key with an EC2
curve, and the parameter X or the parameter D is present.  The key type is still EC2 provided `key.kty` was not assigned
to.  Missing: survival of the key type under assignments to `key.kty` (`c40_refuted_kty`), non-empty x or d
(`c40_refuted_empty`), agreement of x and y with d (`c40_refuted_point`, `c40_refuted_alias`). -/
theorem c40_history_partial {C : Crypto} {k : Key} (h : Spec.Built C k) (hk : k.kind = .ec2) (ops : List Spec.KeyOp) :
    (Spec.afterAll k ops).kind = .ec2 ∧
    (∃ i, (Spec.afterAll k ops).crv = .ok (.cls ⟨.crv, i⟩) ∧ (i = 1 ∨ i = 2 ∨ i = 3 ∨ i = 8)) ∧
    (dhas (Spec.afterAll k ops).store (.cls Ec2X) = true ∨ dhas (Spec.afterAll k ops).store (.cls Ec2D) = true) ∧
    (Spec.NoKty ops → (Spec.afterAll k ops).kty = .cls KtyEC2) := by
  obtain ⟨h1, h2⟩ := afterAll_leads k ops
  obtain ⟨hc, bx, _, hx⟩ := ec2_built_store h hk
  have inv := h2.inv (P := fun s => (∃ c, dget s (.cls Ec2Crv) = some (.cls c) ∧ crvKind c = some KtyEC2) ∧
      (dhas s (.cls Ec2X) = true ∨ dhas s (.cls Ec2D) = true))
    (fun s s' hs st => ?_) ⟨hc, .inl (by simp [dhas, hx])⟩
  · obtain ⟨⟨c, hc, hl⟩, hxd⟩ := inv
    refine ⟨h1.trans hk, ⟨c.ident, ?_, ?_⟩, hxd, fun hn => kty_of ?_⟩
    · simp only [Key.crv, h1.trans hk, hc]
      rcases ec2_curves hl with rfl | rfl | rfl | rfl <;> rfl
    · rcases ec2_curves hl with rfl | rfl | rfl | rfl <;> simp
    · refine (h2.mono (fun h => h hn) id).kty (by rw [hk]; decide) ?_
      simpa [hk, kindKty] using byInit_kty h.init
  · obtain ⟨⟨c, hc, hl⟩, hxd⟩ := hs
    have xd : ∀ {c : Cls} {v : Val}, dhas (dset s (.cls c) v) (.cls Ec2X) = true ∨ dhas (dset s (.cls c) v) (.cls Ec2D) = true :=
      hxd.imp dhas_dset dhas_dset
    cases st with
    | set h1 h2 h3 h4 => exact ⟨⟨c, by rw [dget_dset_other (by simpa using h3)]; exact hc, hl⟩, xd⟩
    | kty h => exact ⟨⟨c, by rw [dget_dset_other (by decide)]; exact hc, hl⟩, xd⟩
    | k h1 h2 => exact ⟨⟨c, by rw [dget_dset_other (by decide)]; exact hc, hl⟩, xd⟩
    | ec2Crv h1 h2 => exact ⟨⟨_, dget_dset_same _ _ _, h2⟩, xd⟩
    | okpCrv h1 h2 => exact ⟨⟨c, by rw [dget_dset_other (by decide)]; exact hc, hl⟩, xd⟩
    | delSym h1 => rw [hk] at h1; exact absurd h1 (by decide)
    | delOkp h1 => rw [hk] at h1; exact absurd h1 (by decide)
    | @delEc2 q h1 h2 h3 h4 h5 =>
      refine ⟨⟨c, by rw [dget_ddel_other (by simpa using h3)]; exact hc, hl⟩, ?_⟩
      by_cases e1 : q = Ec2D
      · subst e1; exact .inl (dhas_ddel (by decide) (h4 rfl))
      · by_cases e2 : q = Ec2X
        · subst e2; exact .inr (dhas_ddel (by decide) (h5 rfl))
        · exact hxd.imp (dhas_ddel e2) (dhas_ddel e1)
    | delRsa h1 => rw [hk] at h1; exact absurd h1 (by decide)

/-- A P-256 key pair of the example cryptography. -/
def sampleEc2 : Key := ((ec2Generate toy (.int 1) 5 []).toOption.get (by decide +kernel))

theorem sampleEc2_built : Spec.Built toy sampleEc2 := .ec2Generate (crv := .int 1) (d := 5) (opt := []) (by decide +kernel)

/-- Deleting y of a key pair deletes x too; then the private value cannot be deleted, and neither can the curve. -/
example : sampleEc2.kind = .ec2 ∧ (Spec.afterAll sampleEc2 [.del (.text b!"y")]).x = .ok (.bytes []) ∧
    (Spec.afterAll sampleEc2 [.del (.text b!"y"), .del (.int (-4)), .del (.int (-1))]).d = .ok (.bytes (beBytes 32 5)) := by
  decide +kernel

/-- The hypotheses of the construction theorems hold of ordinary keys. -/
example : (ec2Init toy (.int 1) (.bytes []) (.bytes []) (.bytes [5]) [] true).isOk = true ∧
    (ec2Init toy (.int 1) (.bytes (beBytes 32 9)) (.bytes []) (.bytes []) [] true).isOk = true := by decide +kernel

/-- **C40**, refuted for assignments to `key.kty`. -/
theorem c40_refuted_kty : ∃ k ops, Spec.Built toy k ∧ k.kind = .ec2 ∧ (Spec.afterAll k ops).kty ≠ .cls KtyEC2 :=
  ⟨sampleEc2, [.setKty (.int 2)], sampleEc2_built, by decide +kernel, by decide +kernel⟩

/-- **C40**, refuted: after `del key["D"]; key.x = b""` the key has neither x nor d. -/
theorem c40_refuted_empty : ∃ k ops, Spec.Built toy k ∧ k.kind = .ec2 ∧
    (Spec.afterAll k ops).x = .ok (.bytes []) ∧ (Spec.afterAll k ops).d = .ok (.bytes []) :=
  ⟨sampleEc2, [.del (.text b!"D"), .setParam Ec2X (.bytes [])], sampleEc2_built, by decide +kernel, by decide +kernel, by decide +kernel⟩

/-- **C40**, refuted: assigning another private value leaves x and y as they were, so they are no longer those of d. -/
theorem c40_refuted_point : ∃ k ops d bx bY, Spec.Built toy k ∧ k.kind = .ec2 ∧
    (Spec.afterAll k ops).d = .ok (.bytes d) ∧ (Spec.afterAll k ops).x = .ok (.bytes bx) ∧ (Spec.afterAll k ops).y = .ok (.bytes bY) ∧
    toy.ecPub ⟨.crv, 1⟩ (natOfBytes d) = .ok (6, 7) ∧ (natOfBytes bx, natOfBytes bY) = (5, 6) :=
  ⟨sampleEc2, [.setParam Ec2D (.bytes [6])], [6], beBytes 32 5, beBytes 32 6, sampleEc2_built, by decide +kernel, by decide +kernel,
    by decide +kernel, by decide +kernel, by decide +kernel, by decide +kernel⟩

/-- **C40**, refuted already at construction: a received key that names the private value `"d"` instead of `-4` or `"D"` is
accepted with a private value that does not belong to its public point. -/
theorem c40_refuted_alias : ∃ w k d bx bY, Key.decode toy w = .ok k ∧ k.kind = .ec2 ∧
    k.d = .ok (.bytes d) ∧ k.x = .ok (.bytes bx) ∧ k.y = .ok (.bytes bY) ∧
    toy.ecPub ⟨.crv, 1⟩ (natOfBytes d) = .ok (6, 7) ∧ (natOfBytes bx, natOfBytes bY) = (5, 6) := by
  refine ⟨(dumps fullname .ident (.map [(.int 1, .int 2), (.int (-1), .int 1), (.int (-2), .bytes [5]), (.int (-3), .bytes [6]),
      (.text b!"d", .bytes [6])])).toOption.get (by decide +kernel), _, [6], [5], [6], rfl, ?_⟩
  decide +kernel

/-! ### C41 -/

theorem okp_curves {c : Cls} (h : crvKind c = some KtyOKP) :
    c = ⟨.crv, 4⟩ ∨ c = ⟨.crv, 5⟩ ∨ c = ⟨.crv, 6⟩ ∨ c = ⟨.crv, 7⟩ := by
  obtain ⟨r, i⟩ := c
  unfold crvKind at h
  split at h
  · rename_i hr; simp at hr; subst hr
    split at h
    · simp at h
    · split at h
      · rename_i hi; simp at hi; simpa using hi
      · simp at h
  · simp at h

theorem okp_built_store {C : Crypto} {k : Key} (h : Spec.Built C k) (hk : k.kind = .okp) :
    (∃ c, dget k.store (.cls OkpCrv) = some (.cls c) ∧ crvKind c = some KtyOKP) ∧
    ∃ b : Bytes, b ≠ [] ∧ (dget k.store (.cls OkpX) = some (.bytes b) ∨ dget k.store (.cls OkpD) = some (.bytes b)) := by
  obtain ⟨_, _, _, _, _, h⟩ := byInit_okp h.init hk
  obtain ⟨s, c, s1, s2, hs, hc, h1, h2, hxd, rfl⟩ := okpInit_ok h
  refine ⟨⟨c, ?_, (parseCrv_ok hc).1⟩, ?_⟩
  · simp only
    rw [setIfNonEmpty_get h2 (by decide), setIfNonEmpty_get h1 (by decide), dget_dset_same]
  · rcases hxd with hx | hd
    · rcases setIfNonEmpty_ok h1 with ⟨e, _⟩ | ⟨b, hb, _, rfl⟩
      · exact absurd e hx
      · exact ⟨b, hb, .inl (by simp only; rw [setIfNonEmpty_get h2 (by decide), dget_dset_same])⟩
    · rcases setIfNonEmpty_ok h2 with ⟨e, _⟩ | ⟨b, hb, _, rfl⟩
      · exact absurd e hd
      · exact ⟨b, hb, .inr (by simp only; rw [dget_dset_same])⟩

/-- **C41** at construction: whichever constructor made the OKP key, from whatever arguments, its key type is OKP, its curve
is one of the OKP curves (4 to 7 in the registry) and x or d is a non-empty byte string. -/
theorem c41_built {C : Crypto} {k : Key} (h : Spec.Built C k) (hk : k.kind = .okp) :
    k.kty = .cls KtyOKP ∧ (∃ i, k.crv = .ok (.cls ⟨.crv, i⟩) ∧ (i = 4 ∨ i = 5 ∨ i = 6 ∨ i = 7)) ∧
    ∃ b : Bytes, b ≠ [] ∧ (k.x = .ok (.bytes b) ∨ k.d = .ok (.bytes b)) := by
  obtain ⟨⟨c, h1, h2⟩, b, h3, h4⟩ := okp_built_store h hk
  refine ⟨kty_of (by simpa [hk, kindKty] using byInit_kty h.init), ⟨c.ident, ?_, ?_⟩, b, h3, ?_⟩
  · simp only [Key.crv, hk, h1]
    rcases okp_curves h2 with rfl | rfl | rfl | rfl <;> rfl
  · rcases okp_curves h2 with rfl | rfl | rfl | rfl <;> simp
  · exact h4.imp (fun h => by simp [Key.x, hk, getD, h]) (fun h => by simp [Key.d, hk, getD, h])

/-- **C41**, after any history of assignments and deletions, also failing ones: the object is still an OKP key with an OKP
curve.  As long as D has not been deleted, X or D is present; as long as `key.kty` has not been assigned to, the key type
is OKP.  Missing: the same without these provisos (`c41_refuted`, `c41_refuted_kty`). -/
theorem c41_history_partial {C : Crypto} {k : Key} (h : Spec.Built C k) (hk : k.kind = .okp) (ops : List Spec.KeyOp) :
    (Spec.afterAll k ops).kind = .okp ∧
    (∃ i, (Spec.afterAll k ops).crv = .ok (.cls ⟨.crv, i⟩) ∧ (i = 4 ∨ i = 5 ∨ i = 6 ∨ i = 7)) ∧
    (Spec.KeepsD ops →
      dhas (Spec.afterAll k ops).store (.cls OkpX) = true ∨ dhas (Spec.afterAll k ops).store (.cls OkpD) = true) ∧
    (Spec.NoKty ops → (Spec.afterAll k ops).kty = .cls KtyOKP) := by
  obtain ⟨h1, h2⟩ := afterAll_leads k ops
  obtain ⟨hc, b, _, hx⟩ := okp_built_store h hk
  have crv : ∃ c, dget (Spec.afterAll k ops).store (.cls OkpCrv) = some (.cls c) ∧ crvKind c = some KtyOKP := by
    refine h2.inv (P := fun s => ∃ c, dget s (.cls OkpCrv) = some (.cls c) ∧ crvKind c = some KtyOKP) (fun s s' hs st => ?_) hc
    obtain ⟨c, hc, hl⟩ := hs
    cases st with
    | set h1 h2 h3 h4 => exact ⟨c, by rw [dget_dset_other (by simpa using h4)]; exact hc, hl⟩
    | kty h => exact ⟨c, by rw [dget_dset_other (by decide)]; exact hc, hl⟩
    | k h1 h2 => exact ⟨c, by rw [dget_dset_other (by decide)]; exact hc, hl⟩
    | ec2Crv h1 h2 => rw [hk] at h1; exact absurd h1 (by decide)
    | okpCrv h1 h2 => exact ⟨_, dget_dset_same _ _ _, h2⟩
    | delSym h1 => rw [hk] at h1; exact absurd h1 (by decide)
    | delOkp h1 h2 h3 => exact ⟨c, by rw [dget_ddel_other (by simpa using h3)]; exact hc, hl⟩
    | delEc2 h1 => rw [hk] at h1; exact absurd h1 (by decide)
    | delRsa h1 => rw [hk] at h1; exact absurd h1 (by decide)
  obtain ⟨c, hc, hl⟩ := crv
  refine ⟨h1.trans hk, ⟨c.ident, ?_, ?_⟩, fun hn => ?_, fun hn => kty_of ?_⟩
  · simp only [Key.crv, h1.trans hk, hc]
    rcases okp_curves hl with rfl | rfl | rfl | rfl <;> rfl
  · rcases okp_curves hl with rfl | rfl | rfl | rfl <;> simp
  · refine (h2.mono id (fun h => h hn)).inv (P := fun s => dhas s (.cls OkpX) = true ∨ dhas s (.cls OkpD) = true) (fun s s' hxd st => ?_)
      (hx.imp (fun h => by simp [dhas, h]) (fun h => by simp [dhas, h]))
    have xd : ∀ {c : Cls} {v : Val}, dhas (dset s (.cls c) v) (.cls OkpX) = true ∨ dhas (dset s (.cls c) v) (.cls OkpD) = true :=
      hxd.imp dhas_dset dhas_dset
    cases st with
    | set h1 h2 h3 h4 => exact xd
    | kty h => exact xd
    | k h1 h2 => exact xd
    | ec2Crv h1 h2 => exact xd
    | okpCrv h1 h2 => exact xd
    | delSym h1 => rw [hk] at h1; exact absurd h1 (by decide)
    | @delOkp q h1 h2 h3 h4 h5 =>
      have e1 : q ≠ OkpD := fun e => h5 e
      by_cases e2 : q = OkpX
      · subst e2; exact .inr (dhas_ddel (by decide) (h4 rfl))
      · exact hxd.imp (dhas_ddel e2) (dhas_ddel e1)
    | delEc2 h1 => rw [hk] at h1; exact absurd h1 (by decide)
    | delRsa h1 => rw [hk] at h1; exact absurd h1 (by decide)
  · refine (h2.mono (fun h => h hn) id).kty (by rw [hk]; decide) ?_
    simpa [hk, kindKty] using byInit_kty h.init

/-- A private Ed25519 key without its public part. -/
def sampleOkp : Key := { kind := .okp, store := [(.cls KpKty, .cls KtyOKP), (.cls OkpCrv, .cls ⟨.crv, 6⟩), (.cls OkpD, .bytes (List.replicate 32 9))] }

theorem sampleOkp_built (C : Crypto) : Spec.Built C sampleOkp :=
  .okp (crv := .int 6) (x := .bytes []) (d := .bytes (List.replicate 32 9)) (opt := []) (allow := true) (by decide +kernel)

example : Spec.NoKty [.setParam OkpX (.bytes [1]), .del (.text b!"x"), .del (.text b!"x")] ∧
    Spec.KeepsD [.setParam OkpX (.bytes [1]), .del (.text b!"x"), .del (.text b!"x")] ∧
    Spec.afterAll sampleOkp [.setParam OkpX (.bytes [1]), .del (.text b!"x"), .del (.text b!"x")] = sampleOkp := by
  refine ⟨?_, ?_, by decide +kernel⟩
  · intro op h v e; subst e; simp at h
  · intro op h l e
    subst e
    have : l = .text b!"x" := by simpa using h
    subst this
    decide +kernel

/-- **C41**, refuted: `del key["D"]` on a private key without x leaves a key with neither. -/
theorem c41_refuted (C : Crypto) : ∃ k ops, Spec.Built C k ∧ k.kind = .okp ∧
    dhas (Spec.afterAll k ops).store (.cls OkpX) = false ∧ dhas (Spec.afterAll k ops).store (.cls OkpD) = false :=
  ⟨sampleOkp, [.del (.text b!"D")], sampleOkp_built C, rfl, by decide +kernel, by decide +kernel⟩

/-- **C41**, refuted for assignments to `key.kty`. -/
theorem c41_refuted_kty (C : Crypto) : ∃ k ops, Spec.Built C k ∧ k.kind = .okp ∧ (Spec.afterAll k ops).kty ≠ .cls KtyOKP :=
  ⟨sampleOkp, [.setKty (.int 1)], sampleOkp_built C, rfl, by decide +kernel⟩

/-! ### C44 -/

/-- The values that name a key type: its identifier (or a Python number equal to it), its name, or its class. -/
def Spec.NamesKty (v : Val) : Kind → Prop
  | .okp => keq v (.int 1) = true ∨ v = .text b!"OKP" ∨ v = .cls ⟨.kty, 1⟩
  | .ec2 => keq v (.int 2) = true ∨ v = .text b!"EC2" ∨ v = .cls ⟨.kty, 2⟩
  | .rsa => keq v (.int 3) = true ∨ v = .text b!"RSA" ∨ v = .cls ⟨.kty, 3⟩
  | .sym => keq v (.int 4) = true ∨ v = .text b!"SYMMETRIC" ∨ v = .cls ⟨.kty, 4⟩

/-- The key type class of a Python key class. -/
def Spec.ktyClass : Kind → Cls
  | .okp => ⟨.kty, 1⟩ | .ec2 => ⟨.kty, 2⟩ | .rsa => ⟨.kty, 3⟩ | .sym => ⟨.kty, 4⟩

/-- The value a dictionary holds for a parameter: under the class, else under the identifier, else under the name. -/
def Spec.Param (d : Dict) (c : Cls) (name : Bytes) (v : Val) : Prop :=
  dget d (.cls c) = some v ∨ dget d (.cls c) = none ∧ dget d (.int c.ident) = some v ∨
  dget d (.cls c) = none ∧ dget d (.int c.ident) = none ∧ dget d (.text name) = some v

theorem ktyLookup_ok {v : Val} {k : Kind} (h : ktyLookup v = .ok k) : Spec.NamesKty v k := by
  unfold ktyLookup at h
  have aux : (if keq v (.int 4) ∨ v = .text b!"SYMMETRIC" ∨ v = .cls KtySym then (.ok .sym : Res Kind)
    else if keq v (.int 2) ∨ v = .text b!"EC2" ∨ v = .cls KtyEC2 then .ok .ec2
    else if keq v (.int 1) ∨ v = .text b!"OKP" ∨ v = .cls KtyOKP then .ok .okp
    else if keq v (.int 3) ∨ v = .text b!"RSA" ∨ v = .cls KtyRSA then .ok .rsa
    else .error .keyError) = .ok k → Spec.NamesKty v k := by
    intro h
    split at h
    · rename_i e; cases h; exact e
    · split at h
      · rename_i e; cases h; exact e
      · split at h
        · rename_i e; cases h; exact e
        · split at h
          · rename_i e; cases h; exact e
          · simp at h
  cases v <;> first | (simp at h; done) | exact aux h | (simp only at h; split at h <;> cases h)

theorem kindFromDict_kind {C : Crypto} {k : Kind} {d : Dict} {r : Key} (h : kindFromDict C k d = .ok r) : r.kind = k := by
  cases k
  · obtain ⟨_, _, _, _, _, rfl⟩ := symInit_ok h; rfl
  · obtain ⟨s, c, x', y', s1, s2, s3, _, _, _, _, _, rfl, _⟩ := ec2Init_ok h; rfl
  · obtain ⟨s, c, s1, s2, _, _, _, _, _, rfl⟩ := okpInit_ok h; rfl
  · obtain ⟨_, _, _, _, _, _, _, _, _, _, _, _, _, _, _, _, _, _, _, rfl⟩ := rsaInit_ok h; rfl

theorem spec_ktyClass (k : Kind) : kindKty k = Spec.ktyClass k := by cases k <;> rfl

/-- **C44**: if `CoseKey.from_dict` returns a key for a dictionary, then the dictionary has a key type, the class of the key
is the one it names, and the key type stored in the key is the class of that key type. -/
theorem c44_fromDict {C : Crypto} {d : Dict} {k : Key} (h : fromDictVal C (.map d) = .ok k) :
    ∃ v, Spec.Param d ⟨.kp, 1⟩ b!"KTY" v ∧ Spec.NamesKty v k.kind ∧ k.kty = .cls (Spec.ktyClass k.kind) := by
  have hb := fromDictVal_init h
  obtain ⟨v, kd, hv, hk, h'⟩ := fromDict_inv (C := C) (d := d) h
  have e := kindFromDict_kind h'
  subst e
  exact ⟨v, hv, ktyLookup_ok hk, by rw [← spec_ktyClass]; exact kty_of (byInit_kty hb)⟩

/-- **C44** for received keys: a byte string that decodes to a key is a CBOR map naming the key type of the key. -/
theorem c44_decode {C : Crypto} {b : Bytes} {k : Key} (h : Key.decode C b = .ok k) :
    ∃ d v, (loads b = .ok (.map d) ∨ ∃ kd, loads b = .ok (.key kd d)) ∧ Spec.Param d ⟨.kp, 1⟩ b!"KTY" v ∧ Spec.NamesKty v k.kind ∧
      k.kty = .cls (Spec.ktyClass k.kind) := by
  obtain ⟨w, hw, h⟩ := bind_eq_ok.mp h
  obtain ⟨d, hd, h'⟩ := fromDictVal_inv h
  obtain ⟨v, h1, h2, h3⟩ := c44_fromDict (C := C) (d := d) h'
  refine ⟨d, v, ?_, h1, h2, h3⟩
  rcases hd with rfl | ⟨kd, rfl⟩
  · exact .inl hw
  · exact .inr ⟨kd, hw⟩

/-- **C44**: no value names two key types. -/
theorem c44_unambiguous {v : Val} {k k' : Kind} (h : Spec.NamesKty v k) (h' : Spec.NamesKty v k') : k = k' := by
  have aux : ∀ {i j : Int} {s t : Bytes} {c e : Cls}, i ≠ j → s ≠ t → c ≠ e →
      (keq v (.int i) = true ∨ v = .text s ∨ v = .cls c) → (keq v (.int j) = true ∨ v = .text t ∨ v = .cls e) → False := by
    intro i j s t c e hi hs hc h h'
    rcases h with h | rfl | rfl
    · rcases h' with h' | rfl | rfl
      · have := keq_trans (keq_symm h) h'
        simp [keq, norm] at this
        exact hi this
      · simp [keq, norm] at h
      · simp [keq, norm] at h
    · rcases h' with h' | h' | h'
      · simp [keq, norm] at h'
      · simp at h'; exact hs h'
      · simp at h'
    · rcases h' with h' | h' | h'
      · simp [keq, norm] at h'
      · simp at h'
      · simp at h'; exact hc h'
  cases k <;> cases k' <;> first | rfl | exact (aux (by decide) (by decide) (by decide) h h').elim

example : (Key.decode toy ((dumps fullname .ident (.map [(.text b!"KTY", .text b!"SYMMETRIC"), (.text b!"K", .bytes (List.replicate 16 1))])).toOption.get
    (by decide +kernel))).isOk = true ∧ (fromDictVal toy (.map [(.int 1, .int 2), (.int (-1), .int 1), (.int (-2), .bytes [5]), (.int (-3), .bytes [6])])).isOk = true := by
  decide +kernel

/-! ### C45 -/

/-- The operations a key may be restricted to: 3 to 6, 9 and 10 (encrypt, decrypt, wrap key, unwrap key, MAC create, MAC
verify) for symmetric keys, 1, 2, 7 and 8 (sign, verify, derive key, derive bits) for the others. -/
def Spec.PermittedOp (k : Kind) (o : Cls) : Prop :=
  o.reg = .op ∧ if k = .sym then o.ident ∈ [3, 4, 5, 6, 9, 10] else o.ident ∈ [1, 2, 7, 8]

theorem dset_dset_same (d : Dict) (k v w : Val) : dset (dset d k v) k w = dset d k w := by
  induction d with
  | nil => simp [dset]
  | cons p t ih =>
    obtain ⟨a, b⟩ := p
    simp only [dset]
    split
    · rename_i e; simp [dset, e]
    · rename_i e; simp [dset, e, ih]

theorem setKeyOpsBase_twice {k k1 : Key} {v : Val} (h : k.setKeyOpsBase v = .ok k1) : k1.setKeyOpsBase v = .ok k1 := by
  cases v <;> simp only [Key.setKeyOpsBase, reduceCtorEq] at h ⊢
  obtain ⟨l, hl, h⟩ := bind_eq_ok.mp h
  simp at h; subst h
  simp [hl, dset_dset_same]

theorem setKeyOpsBase_kind {k k1 : Key} {v : Val} (h : k.setKeyOpsBase v = .ok k1) : k1.kind = k.kind := by
  cases v <;> simp only [Key.setKeyOpsBase, reduceCtorEq] at h
  obtain ⟨l, hl, h⟩ := bind_eq_ok.mp h
  simp at h; subst h; rfl

theorem keyOpsLoop_ok {v : Val} {l : List Val} {k k' : Key} (h : keyOpsLoop v k l = (k', .ok ())) :
    (∀ o ∈ l, supportedBy k.kind o = .ok true) ∧ (l ≠ [] → k.setKeyOpsBase v = .ok k') := by
  induction l generalizing k with
  | nil => simp
  | cons o t ih =>
    simp only [keyOpsLoop] at h
    split at h
    · simp at h
    · simp at h
    · rename_i hs
      split at h
      · simp at h
      · rename_i k1 h1
        obtain ⟨a, b⟩ := ih h
        refine ⟨?_, fun _ => ?_⟩
        · intro q hq
          rcases List.mem_cons.mp hq with rfl | hq
          · exact hs
          · rw [← setKeyOpsBase_kind h1]; exact a q hq
        · cases t with
          | nil => simp [keyOpsLoop] at h; rw [h1, h]
          | cons q t =>
            have := b (by simp)
            rw [setKeyOpsBase_twice h1] at this
            simp at this; rw [h1, this]

theorem keyOpsLoop_err {v : Val} {l : List Val} {k k' : Key} {e : PyErr} (h : keyOpsLoop v k l = (k', .error e)) :
    k' = k ∨ k.setKeyOpsBase v = .ok k' ∧ 1 < l.length := by
  induction l generalizing k with
  | nil => simp [keyOpsLoop] at h
  | cons o t ih =>
    simp only [keyOpsLoop] at h
    split at h
    · simp at h; exact .inl h.1.symm
    · simp at h; exact .inl h.1.symm
    · split at h
      · simp at h; exact .inl h.1.symm
      · rename_i k1 h1
        have hl : 1 < (o :: t).length := by
          cases t with
          | nil => simp [keyOpsLoop] at h
          | cons _ _ => simp
        rcases ih h with rfl | ⟨h2, _⟩
        · exact .inr ⟨h1, hl⟩
        · rw [setKeyOpsBase_twice h1] at h2
          simp at h2; subst h2
          exact .inr ⟨h1, hl⟩

theorem supportedOps_spec {k : Kind} {c : Cls} (h : c ∈ supportedOps k) : Spec.PermittedOp k c ∧ ∃ n, (c, n) ∈ registry .op := by
  have : ∀ k, ∀ c ∈ supportedOps k, (c.reg = .op ∧ if k = .sym then c.ident ∈ [3, 4, 5, 6, 9, 10] else c.ident ∈ [1, 2, 7, 8]) ∧
      (c, fullname c) ∈ registry .op := by
    intro k; cases k <;> decide +kernel
  exact ⟨(this k c h).1, _, (this k c h).2⟩

/-- An element the setter lets through and `from_id` knows is a permitted operation. -/
theorem supported_permitted {k : Kind} {v w : Val} (h : supportedBy k v = .ok true) (hw : fromId .op v = .ok w) :
    ∃ o, w = .cls o ∧ Spec.PermittedOp k o := by
  have key : ∀ {c}, resolve .op v = some c → fromId .op v = .ok (.cls c) → Spec.PermittedOp k c → ∃ o, w = .cls o ∧ Spec.PermittedOp k o := by
    intro c _ h2 h3
    rw [h2] at hw; simp at hw; exact ⟨c, hw.symm, h3⟩
  have main : ((supportedOps k).any fun c => v == .cls c || keq v (.int c.ident) || v == .text (fullname c)) = true := by
    cases v <;> simp only [supportedBy, reduceCtorEq, Except.ok.injEq] at h <;> exact h
  obtain ⟨c, hc, hv⟩ := List.any_eq_true.mp main
  obtain ⟨hp, n, hn⟩ := supportedOps_spec hc
  cases v <;> simp [keq, norm] at hv
  case cls c' =>
    subst hv
    exact key (by simp [resolve, lookupId_mem hn]) (by simp [fromId, resolve, lookupId_mem hn]) hp
  case int i =>
    subst hv
    exact key (by simp [resolve, lookupId_mem hn]) (by simp [fromId, resolve, lookupId_mem hn]) hp
  case bool b =>
    exact key (by simp only [resolve]; rw [hv]; exact lookupId_mem hn) (by simp only [fromId, resolve]; rw [hv, lookupId_mem hn]) hp
  case text t =>
    subst hv
    rw [fullname_mem hn] at *
    exact key (by simp [resolve, upper_mem hn, lookupName_mem hn]) (by simp [fromId, resolve, upper_mem hn, lookupName_mem hn]) hp
  case float f => simp [fromId, resolve] at hw

theorem fromIdL_permitted {k : Kind} {l l' : List Val} (h : ∀ o ∈ l, supportedBy k o = .ok true) (hl : fromIdL .op l = .ok l') :
    ∃ os : List Cls, l' = os.map .cls ∧ os.length = l.length ∧ ∀ o ∈ os, Spec.PermittedOp k o := by
  induction l generalizing l' with
  | nil => simp [fromIdL] at hl; subst hl; exact ⟨[], rfl, rfl, by simp⟩
  | cons v t ih =>
    simp only [fromIdL, bind_eq_ok] at hl
    obtain ⟨w, hw, t', ht, hl⟩ := hl
    simp at hl; subst hl
    obtain ⟨o, rfl, ho⟩ := supported_permitted (h v (by simp)) hw
    obtain ⟨os, rfl, hlen, hos⟩ := ih (fun q hq => h q (by simp [hq])) ht
    exact ⟨o :: os, rfl, by simp [hlen], by simpa using ⟨ho, hos⟩⟩

/-- **C45**, success: after `key.key_ops = ops` for a non-empty list, `key.key_ops` is the list of the operations the
elements denote, each of them permitted for the class of the key, and nothing else of the key has changed. -/
theorem c45_stored {k k' : Key} {l : List Val} (hl : l ≠ []) (h : k.setKeyOps (.arr l) = (k', .ok ())) :
    ∃ os : List Cls, fromIdL .op l = .ok (os.map .cls) ∧ (∀ o ∈ os, Spec.PermittedOp k.kind o) ∧ k'.keyOps = .arr (os.map .cls) ∧
      k'.kind = k.kind ∧ k'.extra = k.extra ∧ ∀ c, c ≠ KpKeyOps → dget k'.store (.cls c) = dget k.store (.cls c) := by
  obtain ⟨h1, h2⟩ := keyOpsLoop_ok (v := .arr l) h
  have h2 := h2 hl
  simp only [Key.setKeyOpsBase, bind_eq_ok] at h2
  obtain ⟨l', hl', h2⟩ := h2
  simp at h2; subst h2
  obtain ⟨os, rfl, _, hos⟩ := fromIdL_permitted h1 hl'
  refine ⟨os, hl', hos, by simp [Key.keyOps, getD, dget_dset_same], rfl, rfl, fun c hc => ?_⟩
  exact dget_dset_other (by simpa using Ne.symm hc)

/-- **C45**, failure, as far as it holds: if `key.key_ops = ops` raises, the key is unchanged, or `ops` has at least two
elements and has been stored as a whole.  Missing: the key is unchanged in every case (`c45_refuted_atomic`); the empty
list clears the restriction (`c45_refuted_clear`). -/
theorem c45_failure_partial {k k' : Key} {l : List Val} {e : PyErr} (h : k.setKeyOps (.arr l) = (k', .error e)) :
    k' = k ∨ 1 < l.length ∧ ∃ l', fromIdL .op l = .ok l' ∧ k' = { k with store := dset k.store (.cls KpKeyOps) (.arr l') } := by
  rcases keyOpsLoop_err (v := .arr l) h with rfl | ⟨h1, hl⟩
  · exact .inl rfl
  · simp only [Key.setKeyOpsBase, bind_eq_ok] at h1
    obtain ⟨l', h2, h1⟩ := h1
    simp at h1
    exact .inr ⟨hl, l', h2, h1.symm⟩

/-- **C45**, refusal: an operation that is not permitted for the class of the key is refused wherever it stands in the
list. -/
theorem c45_refused {k k' : Key} {l : List Val} {r : Res Unit} {v : Val} {o : Cls} (h : k.setKeyOps (.arr l) = (k', r)) (hv : v ∈ l)
    (ho : fromId .op v = .ok (.cls o)) (hp : ¬ Spec.PermittedOp k.kind o) : ∃ e, r = .error e := by
  cases r with
  | error e => exact ⟨e, rfl⟩
  | ok _ =>
    obtain ⟨h1, _⟩ := keyOpsLoop_ok (v := .arr l) h
    obtain ⟨o', e, hp'⟩ := supported_permitted (h1 v hv) ho
    cases e
    exact absurd hp' hp

example : sampleSym.setKeyOps (.arr [.int 3, .text b!"DECRYPT"]) =
    ({ sampleSym with store := sampleSym.store ++ [(.cls KpKeyOps, .arr [.cls ⟨.op, 3⟩, .cls ⟨.op, 4⟩])] }, .ok ()) := by decide +kernel

/-- **C45**, refuted: the assignment of [encrypt, sign] to a symmetric key raises and nevertheless stores both. -/
theorem c45_refuted_atomic (C : Crypto) : ∃ k l k' e, Spec.Built C k ∧ k.setKeyOps (.arr l) = (k', .error e) ∧
    k.keyOps = .arr [] ∧ k'.keyOps = .arr [.cls Op.Encrypt, .cls Op.Sign] ∧ ¬ Spec.PermittedOp k'.kind Op.Sign :=
  ⟨sampleSym, [.int 3, .int 1], { sampleSym with store := sampleSym.store ++ [(.cls KpKeyOps, .arr [.cls Op.Encrypt, .cls Op.Sign])] },
    .illegalKeyOps, sampleSym_built C, by decide +kernel, by decide +kernel, by decide +kernel, by
      simp [Spec.PermittedOp, sampleSym]⟩

/-- **C45**, refuted: assigning the empty list succeeds and leaves any restriction as it was. -/
theorem c45_refuted_clear (k : Key) : k.setKeyOps (.arr []) = (k, .ok ()) := rfl

/-! ### C46 -/

/-- **C46**, refuted for every key and value: whenever `key.kty = v` succeeds, `key.kty` is afterwards a key *parameter*
class and not a key type at all. -/
theorem c46_refuted {k k' : Key} {v : Val} (h : k.setKty v = .ok k') : ∀ i, k'.kty ≠ .cls ⟨.kty, i⟩ := by
  intro i
  simp only [Key.setKty, bind_eq_ok] at h
  obtain ⟨a, ha, h⟩ := h
  simp at h; subst h
  simp only [Key.kty, getD, dget_dset_same, Option.getD_some]
  rintro rfl
  cases v <;> simp only [fromId] at ha
  case arr => obtain ⟨_, _, ha⟩ := bind_eq_ok.mp ha; simp at ha
  all_goals
    split at ha <;> simp at ha
    rename_i hr
    subst ha
    have := resolve_reg (by decide) hr
    simp at this

/-- Such assignments do succeed, for instance `key.kty = 4` on a symmetric key. -/
theorem c46_refuted_witness (C : Crypto) : ∃ k k', Spec.Built C k ∧ k.kty = .cls KtySym ∧ k.setKty (.int 4) = .ok k' ∧
    k'.kty = .cls KpKeyOps :=
  ⟨sampleSym, { sampleSym with store := dset sampleSym.store (.cls KpKty) (.cls KpKeyOps) }, sampleSym_built C, by decide +kernel,
    by decide +kernel, by decide +kernel⟩

/-- **C46**, a failing assignment: a name that is a key type and not a key parameter is refused. -/
theorem c46_names (k : Key) : k.setKty (.text b!"EC2") = .error .coseException ∧ k.setKty (.text b!"SYMMETRIC") = .error .coseException ∧
    k.setKty (.text b!"RSA") = .error .coseException ∧ k.setKty (.text b!"OKP") = .error .coseException := by
  have : ∀ s ∈ [b!"EC2", b!"SYMMETRIC", b!"RSA", b!"OKP"], fromId .kp (.text s) = .error .coseException := by decide +kernel
  refine ⟨?_, ?_, ?_, ?_⟩ <;> (simp only [Key.setKty]; rw [this _ (by simp)]; rfl)

/-! ### C47 -/

/-- **C47**: the variable-length conversion used for RSA parameters is inverted by big-endian decoding. -/
theorem c47_inverse (n : Nat) : Spec.value (toBstr n) = n := by
  rw [← natOfBytes_value]; exact natOfBytes_beBytes_of_lt (lt_pow_byteLen n)

/-- **C47**: it is the shortest byte string with this value, and the only one of its length. -/
theorem c47_shortest (n : Nat) (b : Bytes) (h : Spec.value b = n) :
    (toBstr n).length ≤ b.length ∧ (b.length = (toBstr n).length → b = toBstr n) := by
  rw [← natOfBytes_value] at h
  subst h
  refine ⟨?_, fun hl => ?_⟩
  · rw [toBstr_natOfBytes]
    exact List.Sublist.length_le (List.dropWhile_sublist _)
  · have hl' : (bitLength (natOfBytes b) + 7) / 8 = b.length := by
      rw [hl, toBstr, beBytes_length]
    rw [toBstr, hl', beBytes_natOfBytes]

/-- **C47**: the fixed-length conversion used for coordinates either yields the unique byte string of that length with the
value, or raises because there is none. -/
theorem c47_fixed (n len : Nat) :
    (∃ b, toBytes n len = .ok b ∧ b.length = len ∧ Spec.value b = n ∧ ∀ b' : Bytes, b'.length = len → Spec.value b' = n → b' = b) ∨
    (toBytes n len = .error .overflowError ∧ ∀ b' : Bytes, b'.length = len → Spec.value b' ≠ n) := by
  simp only [← natOfBytes_value]
  by_cases h : n < 256 ^ len
  · refine .inl ⟨beBytes len n, by simp [toBytes, h], beBytes_length _ _, natOfBytes_beBytes_of_lt h, ?_⟩
    rintro b' rfl rfl
    exact (beBytes_natOfBytes b').symm
  · refine .inr ⟨by simp [toBytes, h], ?_⟩
    rintro b' rfl rfl
    exact h (natOfBytes_lt b')

/-- **C47**: fixed-length encodings are injective. -/
theorem c47_injective {m n len : Nat} {b : Bytes} (h : toBytes m len = .ok b) (h' : toBytes n len = .ok b) : m = n := by
  rw [← (toBytes_ok h).2, ← (toBytes_ok h').2]

/-- **C47**: the numbers of RSA keys and of nonces are read with `int.from_bytes`: big-endian, from byte strings or from lists of bytes; anything
else raises. -/
theorem c47_read (v : Val) (n : Nat) : intFromBytes v = .ok n ↔ Spec.BigEndian v n := intFromBytes_iff

/-- **C47**: coordinates and private values of elliptic curve keys are read big-endian from byte strings; the empty one raises `ValueError`, anything
else `TypeError`. -/
theorem c47_hex (v : Val) :
    (∃ b, v = .bytes b ∧ b ≠ [] ∧ intFromHex v = .ok (Spec.value b)) ∨ (v = .bytes [] ∧ intFromHex v = .error .valueError) ∨
    ((∀ b, v ≠ .bytes b) ∧ intFromHex v = .error .typeError) := by
  cases v with
  | bytes b =>
    cases b with
    | nil => exact .inr (.inl ⟨rfl, rfl⟩)
    | cons a t => exact .inl ⟨_, rfl, by simp, by rw [← natOfBytes_value]; rfl⟩
  | _ => exact .inr (.inr ⟨by simp, rfl⟩)

example : toBstr 65537 = [1, 0, 1] ∧ toBytes 5 4 = .ok [0, 0, 0, 5] ∧ toBytes 256 1 = .error .overflowError := by decide +kernel

end Cose
