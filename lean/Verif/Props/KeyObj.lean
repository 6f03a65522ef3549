import Verif.KeyObj
import Verif.Props.MsgObj
import Verif.Props.Keys
/-!
# C66 — a key object as a mapping, after any sequence of writes
-/
set_option autoImplicit false
namespace Cose

/-! ### Specification -/

/-- The key parameters a key class knows: the common ones and its own. -/
def Spec.params (kd : Kind) : List (Cls × Bytes) := registry (kindReg kd)

/-- The entry a label addresses: the parameter it denotes (by identifier, name in any letter case, or class), or,
if it denotes none, the label itself. -/
inductive Spec.Label (kd : Kind) : Val → Val → Prop
  | param {c : Cls} {n : Bytes} {q : Val} : (c, n) ∈ Spec.params kd → Spec.Denotes c n q → Label kd q (.cls c)
  | unknown {q : Val} : (∀ p ∈ Spec.params kd, ¬ Spec.Denotes p.1 p.2 q) → Label kd q q

/-- A curve as written. -/
def Spec.CurveArg (v : Val) (c : Cls) : Prop := Spec.AttrArg .crv v (.cls c)

/-- Parameters no deletion is allowed for. -/
def Spec.undeletable : Kind → List Cls
  | .sym => [KpKty, SymK]
  | .ec2 => [KpKty, Ec2Crv]
  | .okp => [KpKty, OkpCrv]
  | .rsa => []

/-- Deleting the parameter `c` would leave too little of the key, according to the key class. -/
def Spec.Needed (t : Val → Option Val) : Kind → Cls → Prop
  | .ec2, c => (c = Ec2D ∧ (t (.cls Ec2X) = none ∨ t (.cls Ec2Y) = none)) ∨ (c = Ec2X ∧ t (.cls Ec2D) = none)
  | .okp, c => c = OkpX ∧ t (.cls OkpD) = none
  | _, _ => False

/-- Both coordinates go: x or y of a private EC2 key. -/
def Spec.Coordinate (t : Val → Option Val) (kd : Kind) (c : Cls) : Prop :=
  kd = .ec2 ∧ (c = Ec2X ∨ c = Ec2Y) ∧ t (.cls Ec2D) ≠ none

/-- The writes that exist for a key class: `k` for symmetric keys, `crv` for EC2 and OKP keys, the byte string
parameters of the class. -/
def Spec.Exists (kd : Kind) : KeyWrite → Prop
  | .setK _ => kd = .sym
  | .setCrv _ => kd = .ec2 ∨ kd = .okp
  | .setParam c _ => c ∈ bytesParams kd
  | _ => True

/-- What one write does to a key that shows the table `t`: the new table, and the exception if it raises. -/
inductive Spec.KeyStep (kd : Kind) (t : Val → Option Val) : KeyWrite → (Val → Option Val) → Option PyErr → Prop
  | item {q a v : Val} : Spec.Label kd q a → KeyStep kd t (.setItem q v) (Spec.put t a v) none
  | alg {v w : Val} : Spec.AlgorithmArg v w → KeyStep kd t (.setAlg v) (Spec.put t (.cls KpAlg) w) none
  | algUnknown {v : Val} : (∀ w, ¬ Spec.AlgorithmArg v w) → KeyStep kd t (.setAlg v) t (some .coseException)
  | kid {b : Bytes} : KeyStep kd t (.setKid (.bytes b)) (Spec.put t (.cls KpKid) (.bytes b)) none
  | kidType {v : Val} : (∀ b, v ≠ .bytes b) → KeyStep kd t (.setKid v) t (some .typeError)
  | iv {b : Bytes} : KeyStep kd t (.setBaseIv (.bytes b)) (Spec.put t (.cls KpBaseIV) (.bytes b)) none
  | ivType {v : Val} : (∀ b, v ≠ .bytes b) → KeyStep kd t (.setBaseIv v) t (some .typeError)
  | k {b : Bytes} : b.length = 16 ∨ b.length = 24 ∨ b.length = 32 →
      KeyStep kd t (.setK (.bytes b)) (Spec.put t (.cls SymK) (.bytes b)) none
  | kLength {b : Bytes} : b.length ≠ 16 → b.length ≠ 24 → b.length ≠ 32 → KeyStep kd t (.setK (.bytes b)) t (some .invalidKey)
  | kType {v : Val} : (∀ b, v ≠ .bytes b) → KeyStep kd t (.setK v) t (some .valueError)
  | param {c : Cls} {b : Bytes} : KeyStep kd t (.setParam c (.bytes b)) (Spec.put t (.cls c) (.bytes b)) none
  | paramType {c : Cls} {v : Val} : (∀ b, v ≠ .bytes b) → KeyStep kd t (.setParam c v) t (some .typeError)
  | ec2Crv {v : Val} {c : Cls} : kd = .ec2 → Spec.CurveArg v c → c.ident = 1 ∨ c.ident = 2 ∨ c.ident = 3 ∨ c.ident = 8 →
      KeyStep kd t (.setCrv v) (Spec.put t (.cls Ec2Crv) (.cls c)) none
  | okpCrv {v : Val} {c : Cls} : kd = .okp → Spec.CurveArg v c → c.ident = 4 ∨ c.ident = 5 ∨ c.ident = 6 ∨ c.ident = 7 →
      KeyStep kd t (.setCrv v) (Spec.put t (.cls OkpCrv) (.cls c)) none
  | otherCrv {v : Val} {c : Cls} : Spec.CurveArg v c →
      (kd = .ec2 → ¬ (c.ident = 1 ∨ c.ident = 2 ∨ c.ident = 3 ∨ c.ident = 8)) →
      (kd = .okp → ¬ (c.ident = 4 ∨ c.ident = 5 ∨ c.ident = 6 ∨ c.ident = 7)) →
      KeyStep kd t (.setCrv v) t (some .unsupportedCurve)
  | listCrv {v : Val} {m : List Val} : Spec.AttrArg .crv v (.arr m) → KeyStep kd t (.setCrv v) t (some .attributeError)
  | noCrv {v : Val} : (∀ w, ¬ Spec.AttrArg .crv v w) → KeyStep kd t (.setCrv v) t (some .coseException)
  | delUnknown {q : Val} : kd ≠ .rsa → (∀ p ∈ Spec.params kd, ¬ Spec.Denotes p.1 p.2 q) →
      KeyStep kd t (.delItem q) t (some .coseException)
  | delRefused {q : Val} {c : Cls} : Spec.Label kd q (.cls c) → c ∈ Spec.undeletable kd ∨ Spec.Needed t kd c →
      KeyStep kd t (.delItem q) t (some .invalidKey)
  | delMissing {q a : Val} : Spec.Label kd q a → (kd ≠ .rsa → ∃ p ∈ Spec.params kd, Spec.Denotes p.1 p.2 q) →
      (∀ c, a = .cls c → c ∉ Spec.undeletable kd ∧ ¬ Spec.Needed t kd c ∧ ¬ Spec.Coordinate t kd c) → t a = none →
      KeyStep kd t (.delItem q) t (some .keyError)
  | del {q a : Val} : Spec.Label kd q a → (kd ≠ .rsa → ∃ p ∈ Spec.params kd, Spec.Denotes p.1 p.2 q) →
      (∀ c, a = .cls c → c ∉ Spec.undeletable kd ∧ ¬ Spec.Needed t kd c ∧ ¬ Spec.Coordinate t kd c) → t a ≠ none →
      KeyStep kd t (.delItem q) (Spec.drop t a) none
  | delCoordinates {q : Val} {c : Cls} : Spec.Label kd q (.cls c) → Spec.Coordinate t kd c →
      t (.cls Ec2X) ≠ none → t (.cls Ec2Y) ≠ none →
      KeyStep kd t (.delItem q) (Spec.drop (Spec.drop t (.cls Ec2X)) (.cls Ec2Y)) none
  | delNoX {q : Val} {c : Cls} : Spec.Label kd q (.cls c) → Spec.Coordinate t kd c → t (.cls Ec2X) = none →
      KeyStep kd t (.delItem q) t (some .keyError)
  | delNoY {q : Val} {c : Cls} : Spec.Label kd q (.cls c) → Spec.Coordinate t kd c → t (.cls Ec2X) ≠ none → t (.cls Ec2Y) = none →
      KeyStep kd t (.delItem q) (Spec.drop t (.cls Ec2X)) (some .keyError)

/-- A sequence of writes. -/
inductive Spec.KeyRun (kd : Kind) : (Val → Option Val) → List KeyWrite → (Val → Option Val) → List (Option PyErr) → Prop
  | nil {t : Val → Option Val} : KeyRun kd t [] t []
  | cons {t t' t'' : Val → Option Val} {w : KeyWrite} {ws : List KeyWrite} {e : Option PyErr} {es : List (Option PyErr)} :
      Spec.KeyStep kd t w t' e → KeyRun kd t' ws t'' es → KeyRun kd t (w :: ws) t'' (e :: es)

/-- The table a key shows. -/
def Key.table (k : Key) : Val → Option Val := dget k.store

/-! ### Helpers -/

theorem label_iff {kd : Kind} {q a : Val} : Spec.Label kd q a ↔ fromIdKey (kindReg kd) q true = .ok a := by
  have hnone : (∀ p ∈ Spec.params kd, ¬ Spec.Denotes p.1 p.2 q) ↔ resolve (kindReg kd) q = none := by
    constructor
    · intro h
      cases hr : resolve (kindReg kd) q with
      | none => rfl
      | some c =>
        obtain ⟨n, h1, h2⟩ := denotes_resolve.mp hr
        exact absurd h2 (h (c, n) h1)
    · intro h p hp hd
      rw [denotes_resolve.mpr ⟨p.2, hp, hd⟩] at h
      simp at h
  constructor
  · intro h
    cases h with
    | param h1 h2 => simp [fromIdKey, denotes_resolve.mpr ⟨_, h1, h2⟩]
    | unknown h => simp [fromIdKey, hnone.mp h]
  · intro h
    rcases fromIdKey_ok h with ⟨c, hc, rfl⟩ | ⟨hn, _, rfl⟩
    · obtain ⟨n, h1, h2⟩ := denotes_resolve.mp hc
      exact .param h1 h2
    · exact .unknown (hnone.mpr hn)

theorem unknown_iff {kd : Kind} {q : Val} :
    (∀ p ∈ Spec.params kd, ¬ Spec.Denotes p.1 p.2 q) ↔ resolve (kindReg kd) q = none := by
  constructor
  · intro h
    cases hr : resolve (kindReg kd) q with
    | none => rfl
    | some c =>
      obtain ⟨n, h1, h2⟩ := denotes_resolve.mp hr
      exact absurd h2 (h (c, n) h1)
  · intro h p hp hd
    rw [denotes_resolve.mpr ⟨p.2, hp, hd⟩] at h
    simp at h

theorem known_iff {kd : Kind} {q : Val} :
    (∃ p ∈ Spec.params kd, Spec.Denotes p.1 p.2 q) ↔ ∃ c, resolve (kindReg kd) q = some c := by
  constructor
  · rintro ⟨p, hp, hd⟩; exact ⟨p.1, denotes_resolve.mpr ⟨p.2, hp, hd⟩⟩
  · rintro ⟨c, hc⟩; obtain ⟨n, h1, h2⟩ := denotes_resolve.mp hc; exact ⟨(c, n), h1, h2⟩

theorem label_of_resolve {kd : Kind} {q : Val} {c : Cls} (h : resolve (kindReg kd) q = some c) : Spec.Label kd q (.cls c) :=
  label_iff.mpr (by simp [fromIdKey, h])

theorem label_unique {kd : Kind} {q a b : Val} (h : Spec.Label kd q a) (h' : Spec.Label kd q b) : a = b := by
  rw [label_iff] at h h'; rw [h] at h'; simpa using h'

theorem attrArg_iff {r : Reg} {v w : Val} : Spec.AttrArg r v w ↔ fromId r v = .ok w := ⟨attrArg_fromId, fromId_attrArg v⟩

mutual
theorem fromId_error {r : Reg} (v : Val) {e : PyErr} (h : fromId r v = .error e) : e = .coseException := by
  cases v
  case arr l =>
    simp only [fromId] at h
    rcases bind_eq_error.mp h with h | ⟨_, _, h⟩
    · exact fromIdL_error l h
    · simp at h
  all_goals
    simp only [fromId] at h
    split at h <;> simp at h
    exact h.symm
theorem fromIdL_error {r : Reg} (l : List Val) {e : PyErr} (h : fromIdL r l = .error e) : e = .coseException := by
  cases l with
  | nil => simp [fromIdL] at h
  | cons v t =>
    simp only [fromIdL] at h
    rcases bind_eq_error.mp h with h | ⟨_, _, h⟩
    · exact fromId_error v h
    · rcases bind_eq_error.mp h with h | ⟨_, _, h⟩
      · exact fromIdL_error t h
      · simp at h
end

theorem attrArg_none {r : Reg} {v : Val} (h : ∀ w, ¬ Spec.AttrArg r v w) : fromId r v = .error .coseException := by
  cases hf : fromId r v with
  | ok w => exact absurd (attrArg_iff.mpr hf) (h w)
  | error e => rw [fromId_error v hf]

theorem attrArg_shape {r : Reg} {v w : Val} (h : Spec.AttrArg r v w) : (∃ c, w = .cls c ∧ ∃ n, (c, n) ∈ registry r) ∨ ∃ m, w = .arr m := by
  cases h with
  | one h _ => exact .inl ⟨_, rfl, _, h⟩
  | many _ _ => exact .inr ⟨_, rfl⟩

theorem crv_kind {c : Cls} {n : Bytes} (h : (c, n) ∈ registry .crv) :
    (crvKind c = some KtyEC2 ↔ c.ident = 1 ∨ c.ident = 2 ∨ c.ident = 3 ∨ c.ident = 8) ∧
    (crvKind c = some KtyOKP ↔ c.ident = 4 ∨ c.ident = 5 ∨ c.ident = 6 ∨ c.ident = 7) := by
  have hr : c.reg = .crv := registry_reg (by decide) h
  unfold crvKind
  simp only [hr, if_true]
  constructor
  · constructor
    · intro h; split at h
      · assumption
      · split at h <;> simp at h
    · intro h; rw [if_pos h]
  · constructor
    · intro h; split at h
      · simp at h
      · split at h
        · assumption
        · simp at h
    · intro h; rw [if_neg (by omega), if_pos h]

theorem label_resolve {kd : Kind} {q : Val} {c : Cls} (h : Spec.Label kd q (.cls c)) (hm : ∃ n, (c, n) ∈ Spec.params kd) :
    resolve (kindReg kd) q = some c := by
  obtain ⟨n, hn⟩ := hm
  cases h with
  | param h1 h2 => exact denotes_resolve.mpr ⟨_, h1, h2⟩
  | unknown h => exact absurd rfl (h (c, n) hn)

theorem undeletable_mem {kd : Kind} {c : Cls} (h : c ∈ Spec.undeletable kd) : ∃ n, (c, n) ∈ Spec.params kd := by
  cases kd <;> simp [Spec.undeletable] at h
  · rcases h with rfl | rfl
    · exact ⟨b!"KTY", by decide +kernel⟩
    · exact ⟨b!"K", by decide +kernel⟩
  · rcases h with rfl | rfl
    · exact ⟨b!"KTY", by decide +kernel⟩
    · exact ⟨b!"CURVE", by decide +kernel⟩
  · rcases h with rfl | rfl
    · exact ⟨b!"KTY", by decide +kernel⟩
    · exact ⟨b!"CURVE", by decide +kernel⟩

theorem needed_mem {t : Val → Option Val} {kd : Kind} {c : Cls} (h : Spec.Needed t kd c) : ∃ n, (c, n) ∈ Spec.params kd := by
  cases kd <;> simp only [Spec.Needed] at h
  · rcases h with ⟨rfl, _⟩ | ⟨rfl, _⟩
    · exact ⟨b!"D", by decide +kernel⟩
    · exact ⟨b!"X", by decide +kernel⟩
  · obtain ⟨rfl, _⟩ := h
    exact ⟨b!"X", by decide +kernel⟩

theorem coordinate_mem {t : Val → Option Val} {kd : Kind} {c : Cls} (h : Spec.Coordinate t kd c) : ∃ n, (c, n) ∈ Spec.params kd := by
  obtain ⟨rfl, rfl | rfl, _⟩ := h
  · exact ⟨b!"X", by decide +kernel⟩
  · exact ⟨b!"Y", by decide +kernel⟩

theorem dhas_table {k : Key} {a : Val} : (dhas k.store a = true ↔ k.table a ≠ none) ∧ (dhas k.store a = false ↔ k.table a = none) := by
  unfold dhas Key.table
  cases dget k.store a <;> simp

theorem table_ddel {k : Key} (hn : KeysNodup k.store) (a : Val) :
    Key.table { k with store := ddel k.store a } = Spec.drop k.table a := by
  funext q; simp only [Key.table, dget_ddel hn]; rfl

theorem table_dset {k : Key} (a v : Val) : Key.table { k with store := dset k.store a v } = Spec.put k.table a v := by
  funext q; simp only [Key.table, dget_dset]; rfl

/-- Deleting a parameter with the method of the base class. -/
theorem delBase_resolved {k : Key} {q : Val} {c : Cls} (h : resolve (kindReg k.kind) q = some c) :
    k.delBase q = if dhas k.store (.cls c) then .ok { k with store := ddel k.store (.cls c) } else .error .keyError := by
  simp [Key.delBase, fromIdKey, h]

theorem ec2_self {c : Cls} {n : Bytes} (h : (c, n) ∈ registry .kpEc2) : resolve .kpEc2 (.cls c) = some c := lookupId_mem h

theorem delItem_resolved {k : Key} {q : Val} {c : Cls} (h : resolve (kindReg k.kind) q = some c) :
    k.delItem q =
      if c ∈ Spec.undeletable k.kind then (k, .error .invalidKey)
      else match k.kind with
      | .okp => if c = OkpX ∧ dhas k.store (.cls OkpD) = false then (k, .error .invalidKey)
          else if dhas k.store (.cls c) then ({ k with store := ddel k.store (.cls c) }, .ok ()) else (k, .error .keyError)
      | .ec2 =>
        if c = Ec2D ∧ (dhas k.store (.cls Ec2Y) = false ∨ dhas k.store (.cls Ec2X) = false) then (k, .error .invalidKey)
        else if c = Ec2X ∧ dhas k.store (.cls Ec2D) = false then (k, .error .invalidKey)
        else if (c = Ec2X ∨ c = Ec2Y) ∧ dhas k.store (.cls Ec2D) = true then
          if dhas k.store (.cls Ec2X) then
            if dhas (ddel k.store (.cls Ec2X)) (.cls Ec2Y) then
              ({ k with store := ddel (ddel k.store (.cls Ec2X)) (.cls Ec2Y) }, .ok ())
            else ({ k with store := ddel k.store (.cls Ec2X) }, .error .keyError)
          else (k, .error .keyError)
        else if dhas k.store (.cls c) then ({ k with store := ddel k.store (.cls c) }, .ok ()) else (k, .error .keyError)
      | _ => if dhas k.store (.cls c) then ({ k with store := ddel k.store (.cls c) }, .ok ()) else (k, .error .keyError) := by
  obtain ⟨kd, s, ex⟩ := k
  have hb := delBase_resolved h
  have hx : ∀ s : Dict, Key.delBase { kind := .ec2, store := s, extra := ex } (.cls Ec2X) =
      if dhas s (.cls Ec2X) then .ok { kind := .ec2, store := ddel s (.cls Ec2X), extra := ex } else .error .keyError :=
    fun s => delBase_resolved (ec2_self (n := b!"X") (by decide +kernel))
  have hy : ∀ s : Dict, Key.delBase { kind := .ec2, store := s, extra := ex } (.cls Ec2Y) =
      if dhas s (.cls Ec2Y) then .ok { kind := .ec2, store := ddel s (.cls Ec2Y), extra := ex } else .error .keyError :=
    fun s => delBase_resolved (ec2_self (n := b!"Y") (by decide +kernel))
  cases kd
  case sym =>
    simp only [kindReg] at h
    simp only [Key.delItem, fromIdKey, h, hb, Spec.undeletable, List.mem_cons, List.not_mem_nil, or_false, ne_eq, Val.cls.injEq]
    by_cases h1 : c = KpKty <;> by_cases h2 : c = SymK <;> simp only [h1, h2, or_true, true_or, or_self, not_true_eq_false, not_false_eq_true, and_false, false_and, and_self, if_true, if_false]
    by_cases h3 : dhas s (.cls c) = true <;> simp [h3]
  case rsa =>
    simp only [Key.delItem, hb, Spec.undeletable, List.not_mem_nil, if_false]
    by_cases h3 : dhas s (.cls c) = true <;> simp [h3]
  case okp =>
    simp only [kindReg] at h
    simp only [Key.delItem, fromIdKey, h, hb, Spec.undeletable, List.mem_cons, List.not_mem_nil, or_false, ne_eq, Val.cls.injEq]
    by_cases h1 : c = KpKty
    · simp [h1]
    by_cases h2 : c = OkpCrv
    · simp [h2]
    simp only [h1, h2, or_self, not_false_eq_true, and_self, if_true, if_false]
    by_cases h4 : c = OkpX ∧ dhas s (.cls OkpD) = false
    · rw [if_pos h4, if_pos h4]
    · rw [if_neg h4, if_neg h4]
      by_cases h3 : dhas s (.cls c) = true <;> simp [h3]
  case ec2 =>
    simp only [kindReg] at h
    simp only [Key.delItem, fromIdKey, h, hb, hx, Spec.undeletable, List.mem_cons, List.not_mem_nil, or_false, ne_eq, Val.cls.injEq]
    by_cases h1 : c = KpKty
    · simp [h1]
    by_cases h2 : c = Ec2Crv
    · simp [h2]
    simp only [h1, h2, or_self, not_false_eq_true, and_self, if_true, if_false]
    by_cases h4 : c = Ec2D ∧ (dhas s (.cls Ec2Y) = false ∨ dhas s (.cls Ec2X) = false)
    · rw [if_pos h4, if_pos h4]
    rw [if_neg h4, if_neg h4]
    by_cases h5 : c = Ec2X ∧ dhas s (.cls Ec2D) = false
    · rw [if_pos h5, if_pos h5]
    rw [if_neg h5, if_neg h5]
    by_cases h6 : (c = Ec2X ∨ c = Ec2Y) ∧ dhas s (.cls Ec2D) = true
    · rw [if_pos h6, if_pos h6]
      by_cases h7 : dhas s (.cls Ec2X) = true
      · simp only [h7, if_true, hy]
        by_cases h8 : dhas (ddel s (.cls Ec2X)) (.cls Ec2Y) = true <;> simp [h8]
      · simp [h7]
    · rw [if_neg h6, if_neg h6]
      by_cases h3 : dhas s (.cls c) = true <;> simp [h3]

theorem needed_dhas {k : Key} {c : Cls} : Spec.Needed k.table k.kind c ↔
    (k.kind = .okp ∧ c = OkpX ∧ dhas k.store (.cls OkpD) = false) ∨
    (k.kind = .ec2 ∧ c = Ec2D ∧ (dhas k.store (.cls Ec2Y) = false ∨ dhas k.store (.cls Ec2X) = false)) ∨
    (k.kind = .ec2 ∧ c = Ec2X ∧ dhas k.store (.cls Ec2D) = false) := by
  cases hk : k.kind <;> simp only [Spec.Needed, dhas_table.2] <;> grind

theorem coordinate_dhas {k : Key} {c : Cls} : Spec.Coordinate k.table k.kind c ↔
    k.kind = .ec2 ∧ (c = Ec2X ∨ c = Ec2Y) ∧ dhas k.store (.cls Ec2D) = true := by
  simp only [Spec.Coordinate, dhas_table.1]

/-- Every rule describes the code. -/
theorem keyStep_sound {k : Key} (hn : KeysNodup k.store) {w : KeyWrite} (hw : Spec.Exists k.kind w)
    {t : Val → Option Val} {e : Option PyErr} (h : Spec.KeyStep k.kind k.table w t e) :
    t = (k.write w).1.table ∧ e = (k.write w).2 := by
  cases h with
  | item h => rw [label_iff] at h; simp [Key.write, Key.setItem, h, Key.assigned, table_dset]
  | alg h => rw [Spec.AlgorithmArg, attrArg_iff] at h; simp [Key.write, Key.setAlg, h, Key.assigned, table_dset]
  | algUnknown h => simp [Key.write, Key.setAlg, attrArg_none h, Key.assigned]
  | kid => simp [Key.write, Key.setKid, setBytes, Key.assigned, table_dset]
  | kidType h =>
    rename_i v
    have : setBytes .typeError k.store KpKid v = .error .typeError := by cases v <;> simp_all [setBytes]
    simp [Key.write, Key.setKid, this, Key.assigned]
  | iv => simp [Key.write, Key.setBaseIv, setBytes, Key.assigned, table_dset]
  | ivType h =>
    rename_i v
    have : setBytes .typeError k.store KpBaseIV v = .error .typeError := by cases v <;> simp_all [setBytes]
    simp [Key.write, Key.setBaseIv, this, Key.assigned]
  | k hl =>
    simp only [Spec.Exists] at hw
    simp [Key.write, Key.setK, hw, setSymK, hl, Key.assigned]
    rw [← hw]; exact (table_dset _ _).symm
  | kLength h1 h2 h3 => simp only [Spec.Exists] at hw; simp [Key.write, Key.setK, hw, setSymK, h1, h2, h3, Key.assigned]
  | kType h =>
    rename_i v
    have : setSymK k.store v = .error .valueError := by cases v <;> simp_all [setSymK]
    simp only [Spec.Exists] at hw; simp [Key.write, Key.setK, hw, this, Key.assigned]
  | param => simp only [Spec.Exists] at hw; simp [Key.write, Key.setParam, hw, setBytes, Key.assigned, table_dset]
  | paramType h =>
    rename_i c v
    have : setBytes .typeError k.store c v = .error .typeError := by cases v <;> simp_all [setBytes]
    simp only [Spec.Exists] at hw; simp [Key.write, Key.setParam, hw, this, Key.assigned]
  | ec2Crv hk h hc =>
    rename_i v c
    obtain ⟨_, e, n, hm⟩ | ⟨_, e⟩ := attrArg_shape h
    · simp only [Val.cls.injEq] at e; subst e
      have := (crv_kind hm).1.mpr hc
      simp [Key.write, Key.setCrv, hk, parseCrv, attrArg_iff.mp h, this, Key.assigned]
      rw [← hk]; exact (table_dset _ _).symm
    · simp at e
  | okpCrv hk h hc =>
    rename_i v c
    obtain ⟨_, e, n, hm⟩ | ⟨_, e⟩ := attrArg_shape h
    · simp only [Val.cls.injEq] at e; subst e
      have := (crv_kind hm).2.mpr hc
      simp [Key.write, Key.setCrv, hk, parseCrv, attrArg_iff.mp h, this, Key.assigned]
      rw [← hk]; exact (table_dset _ _).symm
    · simp at e
  | otherCrv h h1 h2 =>
    rename_i v c
    obtain ⟨_, e, n, hm⟩ | ⟨_, e⟩ := attrArg_shape h
    · simp only [Val.cls.injEq] at e; subst e
      rcases hw with hk | hk
      · have : ¬ crvKind c = some KtyEC2 := fun h => h1 hk ((crv_kind hm).1.mp h)
        simp [Key.write, Key.setCrv, hk, parseCrv, attrArg_iff.mp h, this, Key.assigned]
      · have : ¬ crvKind c = some KtyOKP := fun h => h2 hk ((crv_kind hm).2.mp h)
        simp [Key.write, Key.setCrv, hk, parseCrv, attrArg_iff.mp h, this, Key.assigned]
    · simp at e
  | listCrv h =>
    rcases hw with hk | hk <;> simp [Key.write, Key.setCrv, hk, parseCrv, attrArg_iff.mp h, Key.assigned]
  | noCrv h =>
    rcases hw with hk | hk <;> simp [Key.write, Key.setCrv, hk, parseCrv, attrArg_none h, Key.assigned]
  | delUnknown hk h =>
    rename_i q
    rw [unknown_iff] at h
    have : k.delItem q = (k, .error .coseException) := by
      cases hkd : k.kind with
      | rsa => exact absurd hkd hk
      | _ => rw [hkd] at h; simp only [kindReg] at h; simp [Key.delItem, hkd, fromIdKey, h]
    simp [Key.write, this]
  | delRefused hl h =>
    rename_i q c
    have hm : ∃ n, (c, n) ∈ Spec.params k.kind := h.elim undeletable_mem needed_mem
    have hr := label_resolve hl hm
    have : k.delItem q = (k, .error .invalidKey) := by
      rw [delItem_resolved hr]
      by_cases hu : c ∈ Spec.undeletable k.kind
      · rw [if_pos hu]
      · rw [if_neg hu]
        rcases needed_dhas.mp (h.resolve_left hu) with ⟨hk, h⟩ | ⟨hk, h⟩ | ⟨hk, h⟩
        · simp only [hk]; rw [if_pos h]
        · simp only [hk]; rw [if_pos h]
        · simp only [hk]
          by_cases h' : c = Ec2D ∧ (dhas k.store (.cls Ec2Y) = false ∨ dhas k.store (.cls Ec2X) = false)
          · rw [if_pos h']
          · rw [if_neg h', if_pos h]
    simp [Key.write, this]
  | delMissing hl hknown hc ht =>
    rename_i q a
    have : k.delItem q = (k, .error .keyError) := by
      cases hr : resolve (kindReg k.kind) q with
      | some c =>
        have ha := label_unique hl (label_of_resolve hr)
        subst ha
        obtain ⟨h1, h2, h3⟩ := hc c rfl
        have hd : dhas k.store (.cls c) = false := dhas_table.2.mpr ht
        rw [delItem_resolved hr, if_neg h1]
        rw [needed_dhas] at h2
        rw [coordinate_dhas] at h3
        cases hk : k.kind <;> simp only [hk, reduceCtorEq, true_and, false_and, or_false, false_or, not_or, not_false_eq_true] at h2 h3 <;> simp only [hd, if_false, Bool.false_eq_true]
        · rw [if_neg h2.1, if_neg h2.2, if_neg h3]
        · rw [if_neg h2]
      | none =>
        cases hk : k.kind with
        | rsa =>
          have hr' := hr
          rw [hk] at hr'
          simp only [kindReg] at hr'
          have ha : a = q := by
            rw [label_iff, hk] at hl; simp [fromIdKey, kindReg, hr'] at hl; exact hl.symm
          subst ha
          have hd : dhas k.store a = false := dhas_table.2.mpr ht
          simp [Key.delItem, hk, Key.delBase, kindReg, fromIdKey, hr', hd]
        | _ =>
          obtain ⟨c, hc⟩ := known_iff.mp (hknown (by rw [hk]; simp))
          rw [hr] at hc; simp at hc
    simp [Key.write, this]
  | del hl hknown hc ht =>
    rename_i q a
    have : k.delItem q = ({ k with store := ddel k.store a }, .ok ()) := by
      cases hr : resolve (kindReg k.kind) q with
      | some c =>
        have ha := label_unique hl (label_of_resolve hr)
        subst ha
        obtain ⟨h1, h2, h3⟩ := hc c rfl
        have hd : dhas k.store (.cls c) = true := dhas_table.1.mpr ht
        rw [delItem_resolved hr, if_neg h1]
        rw [needed_dhas] at h2
        rw [coordinate_dhas] at h3
        cases hk : k.kind <;> simp only [hk, reduceCtorEq, true_and, false_and, or_false, false_or, not_or, not_false_eq_true] at h2 h3 <;> simp only [hd, if_true]
        · rw [if_neg h2.1, if_neg h2.2, if_neg h3]
        · rw [if_neg h2]
      | none =>
        cases hk : k.kind with
        | rsa =>
          have hr' := hr
          rw [hk] at hr'
          simp only [kindReg] at hr'
          have ha : a = q := by
            rw [label_iff, hk] at hl; simp [fromIdKey, kindReg, hr'] at hl; exact hl.symm
          subst ha
          have hd : dhas k.store a = true := dhas_table.1.mpr ht
          simp [Key.delItem, hk, Key.delBase, kindReg, fromIdKey, hr', hd]
        | _ =>
          obtain ⟨c, hc⟩ := known_iff.mp (hknown (by rw [hk]; simp))
          rw [hr] at hc; simp at hc
    simp [Key.write, this, table_ddel hn]
  | delCoordinates hl hc hx hy =>
    rename_i q c
    have hr := label_resolve hl (coordinate_mem hc)
    have hc' := coordinate_dhas.mp hc
    obtain ⟨hk, hcc, hd⟩ := hc'
    have hx' := dhas_table.1.mpr hx
    have hy' : dhas (ddel k.store (.cls Ec2X)) (.cls Ec2Y) = true := by
      have : dget (ddel k.store (.cls Ec2X)) (.cls Ec2Y) = dget k.store (.cls Ec2Y) := dget_ddel_other (by decide)
      unfold dhas; rw [this]; exact dhas_table.1.mpr hy
    have : k.delItem q = ({ k with store := ddel (ddel k.store (.cls Ec2X)) (.cls Ec2Y) }, .ok ()) := by
      rw [delItem_resolved hr, if_neg (by rw [hk]; rcases hcc with rfl | rfl <;> decide)]
      simp only [hk]
      rw [if_neg (by rcases hcc with rfl | rfl <;> simp), if_neg (by simp [hd]), if_pos ⟨hcc, hd⟩, if_pos hx', if_pos hy']
    simp only [Key.write, this, and_true]
    rw [← table_ddel hn]
    exact (table_ddel (k := { k with store := ddel k.store (.cls Ec2X) }) (ddel_keysNodup hn _) _).symm
  | delNoX hl hc hx =>
    rename_i q c
    have hr := label_resolve hl (coordinate_mem hc)
    obtain ⟨hk, hcc, hd⟩ := coordinate_dhas.mp hc
    have hx' := dhas_table.2.mpr hx
    have : k.delItem q = (k, .error .keyError) := by
      rw [delItem_resolved hr, if_neg (by rw [hk]; rcases hcc with rfl | rfl <;> decide)]
      simp only [hk]
      rw [if_neg (by rcases hcc with rfl | rfl <;> simp), if_neg (by simp [hd]), if_pos ⟨hcc, hd⟩, if_neg (by simp [hx'])]
    simp [Key.write, this]
  | delNoY hl hc hx hy =>
    rename_i q c
    have hr := label_resolve hl (coordinate_mem hc)
    obtain ⟨hk, hcc, hd⟩ := coordinate_dhas.mp hc
    have hx' := dhas_table.1.mpr hx
    have hy' : dhas (ddel k.store (.cls Ec2X)) (.cls Ec2Y) = false := by
      have : dget (ddel k.store (.cls Ec2X)) (.cls Ec2Y) = dget k.store (.cls Ec2Y) := dget_ddel_other (by decide)
      unfold dhas; rw [this]; exact dhas_table.2.mpr hy
    have : k.delItem q = ({ k with store := ddel k.store (.cls Ec2X) }, .error .keyError) := by
      rw [delItem_resolved hr, if_neg (by rw [hk]; rcases hcc with rfl | rfl <;> decide)]
      simp only [hk]
      rw [if_neg (by rcases hcc with rfl | rfl <;> simp), if_neg (by simp [hd]), if_pos ⟨hcc, hd⟩, if_pos hx', if_neg (by simp [hy'])]
    simp [Key.write, this, table_ddel hn]

/-- A rule applies to every write. -/
theorem keyStep_total {kd : Kind} (t : Val → Option Val) {w : KeyWrite} (hw : Spec.Exists kd w) :
    ∃ t' e, Spec.KeyStep kd t w t' e := by
  have bytes_or : ∀ v : Val, (∃ b, v = .bytes b) ∨ ∀ b, v ≠ .bytes b := fun v => by cases v <;> simp
  cases w with
  | setItem q v =>
    cases hr : resolve (kindReg kd) q with
    | none => exact ⟨_, _, .item (.unknown (unknown_iff.mpr hr))⟩
    | some c => exact ⟨_, _, .item (label_of_resolve hr)⟩
  | setAlg v =>
    by_cases h : ∃ w, Spec.AlgorithmArg v w
    · obtain ⟨w, h⟩ := h; exact ⟨_, _, .alg h⟩
    · exact ⟨_, _, .algUnknown fun w hw => h ⟨w, hw⟩⟩
  | setKid v =>
    rcases bytes_or v with ⟨b, rfl⟩ | h
    · exact ⟨_, _, .kid⟩
    · exact ⟨_, _, .kidType h⟩
  | setBaseIv v =>
    rcases bytes_or v with ⟨b, rfl⟩ | h
    · exact ⟨_, _, .iv⟩
    · exact ⟨_, _, .ivType h⟩
  | setK v =>
    rcases bytes_or v with ⟨b, rfl⟩ | h
    · by_cases hl : b.length = 16 ∨ b.length = 24 ∨ b.length = 32
      · exact ⟨_, _, .k hl⟩
      · simp only [not_or] at hl; exact ⟨_, _, .kLength hl.1 hl.2.1 hl.2.2⟩
    · exact ⟨_, _, .kType h⟩
  | setParam c v =>
    rcases bytes_or v with ⟨b, rfl⟩ | h
    · exact ⟨_, _, .param⟩
    · exact ⟨_, _, .paramType h⟩
  | setCrv v =>
    by_cases h : ∃ w, Spec.AttrArg .crv v w
    · obtain ⟨w, h⟩ := h
      rcases attrArg_shape h with ⟨c, rfl, _⟩ | ⟨m, rfl⟩
      · by_cases h1 : c.ident = 1 ∨ c.ident = 2 ∨ c.ident = 3 ∨ c.ident = 8
        · by_cases hk : kd = .ec2
          · exact ⟨_, _, .ec2Crv hk h h1⟩
          · exact ⟨_, _, .otherCrv h (fun e => absurd e hk) (fun _ => by omega)⟩
        · by_cases h2 : c.ident = 4 ∨ c.ident = 5 ∨ c.ident = 6 ∨ c.ident = 7
          · by_cases hk : kd = .okp
            · exact ⟨_, _, .okpCrv hk h h2⟩
            · exact ⟨_, _, .otherCrv h (fun _ => h1) (fun e => absurd e hk)⟩
          · exact ⟨_, _, .otherCrv h (fun _ => h1) (fun _ => h2)⟩
      · exact ⟨_, _, .listCrv h⟩
    · exact ⟨_, _, .noCrv fun w hw => h ⟨w, hw⟩⟩
  | delItem q =>
    cases hr : resolve (kindReg kd) q with
    | none =>
      by_cases hk : kd = .rsa
      · have hl : Spec.Label kd q q := .unknown (unknown_iff.mpr hr)
        have hc : ∀ c, q = .cls c → c ∉ Spec.undeletable kd ∧ ¬ Spec.Needed t kd c ∧ ¬ Spec.Coordinate t kd c := by
          subst hk; intro c _; simp [Spec.undeletable, Spec.Needed, Spec.Coordinate]
        by_cases ht : t q = none
        · exact ⟨_, _, .delMissing hl (fun h => absurd hk h) hc ht⟩
        · exact ⟨_, _, .del hl (fun h => absurd hk h) hc ht⟩
      · exact ⟨_, _, .delUnknown hk (unknown_iff.mpr hr)⟩
    | some c =>
      have hl := label_of_resolve hr
      have hkn : ∃ p ∈ Spec.params kd, Spec.Denotes p.1 p.2 q := known_iff.mpr ⟨c, hr⟩
      by_cases h1 : c ∈ Spec.undeletable kd ∨ Spec.Needed t kd c
      · exact ⟨_, _, .delRefused hl h1⟩
      · simp only [not_or] at h1
        by_cases h2 : Spec.Coordinate t kd c
        · by_cases hx : t (.cls Ec2X) = none
          · exact ⟨_, _, .delNoX hl h2 hx⟩
          · by_cases hy : t (.cls Ec2Y) = none
            · exact ⟨_, _, .delNoY hl h2 hx hy⟩
            · exact ⟨_, _, .delCoordinates hl h2 hx hy⟩
        · have hc : ∀ c', Val.cls c = .cls c' → c' ∉ Spec.undeletable kd ∧ ¬ Spec.Needed t kd c' ∧ ¬ Spec.Coordinate t kd c' := by
            intro c' e; simp at e; subst e; exact ⟨h1.1, h1.2, h2⟩
          by_cases ht : t (.cls c) = none
          · exact ⟨_, _, .delMissing hl (fun _ => hkn) hc ht⟩
          · exact ⟨_, _, .del hl (fun _ => hkn) hc ht⟩

/-- No write gives a key two entries with equal labels, or changes its class. -/
theorem write_nodup {k : Key} (hn : KeysNodup k.store) (w : KeyWrite) :
    KeysNodup (k.write w).1.store ∧ (k.write w).1.kind = k.kind := by
  have asg : ∀ r : Res Key, (∀ k', r = .ok k' → KeysNodup k'.store ∧ k'.kind = k.kind) →
      KeysNodup (k.assigned r).1.store ∧ (k.assigned r).1.kind = k.kind := by
    intro r h
    cases r with
    | ok k' => exact h k' rfl
    | error e => exact ⟨hn, rfl⟩
  have sb : ∀ {e : PyErr} {c : Cls} {v : Val} {s : Dict}, setBytes e k.store c v = .ok s → KeysNodup s := by
    intro e c v s h
    cases v <;> simp [setBytes] at h
    subst h; exact dset_nodup hn _ _
  cases w with
  | setItem l v =>
    refine asg _ fun k' h => ?_
    obtain ⟨a, _, h⟩ := bind_eq_ok.mp h
    simp at h; subst h; exact ⟨dset_nodup hn _ _, rfl⟩
  | setAlg v =>
    refine asg _ fun k' h => ?_
    obtain ⟨a, _, h⟩ := bind_eq_ok.mp h
    simp at h; subst h; exact ⟨dset_nodup hn _ _, rfl⟩
  | setKid v =>
    refine asg _ fun k' h => ?_
    obtain ⟨s, hs, h⟩ := bind_eq_ok.mp h
    simp at h; subst h; exact ⟨sb hs, rfl⟩
  | setBaseIv v =>
    refine asg _ fun k' h => ?_
    obtain ⟨s, hs, h⟩ := bind_eq_ok.mp h
    simp at h; subst h; exact ⟨sb hs, rfl⟩
  | setK v =>
    refine asg _ fun k' h => ?_
    unfold Key.setK at h
    split at h
    · obtain ⟨s, hs, h⟩ := bind_eq_ok.mp h
      simp at h; subst h
      refine ⟨?_, rfl⟩
      cases v <;> simp [setSymK] at hs
      split at hs <;> simp at hs
      subst hs; exact dset_nodup hn _ _
    · simp at h
  | setCrv v =>
    refine asg _ fun k' h => ?_
    unfold Key.setCrv at h
    split at h
    · obtain ⟨s, hs, h⟩ := bind_eq_ok.mp h
      simp at h; subst h; exact ⟨dset_nodup hn _ _, rfl⟩
    · obtain ⟨s, hs, h⟩ := bind_eq_ok.mp h
      simp at h; subst h; exact ⟨dset_nodup hn _ _, rfl⟩
    · simp at h
  | setParam c v =>
    refine asg _ fun k' h => ?_
    unfold Key.setParam at h
    split at h
    · obtain ⟨s, hs, h⟩ := bind_eq_ok.mp h
      simp at h; subst h; exact ⟨sb hs, rfl⟩
    · simp at h
  | delItem q =>
    have key : KeysNodup (k.delItem q).1.store ∧ (k.delItem q).1.kind = k.kind := by
      cases hr : resolve (kindReg k.kind) q with
      | some c =>
        rw [delItem_resolved hr]
        repeat' split
        all_goals first | exact ⟨hn, rfl⟩ | exact ⟨ddel_keysNodup hn _, rfl⟩ | exact ⟨ddel_keysNodup (ddel_keysNodup hn _) _, rfl⟩
      | none =>
        cases hk : k.kind with
        | rsa =>
          rw [hk] at hr; simp only [kindReg] at hr
          simp only [Key.delItem, hk, Key.delBase, kindReg, fromIdKey, hr, if_true, ok_bind]
          by_cases hd : dhas k.store q = true
          · simp only [hd, if_true]; exact ⟨ddel_keysNodup hn _, trivial⟩
          · simp only [hd]; exact ⟨hn, hk⟩
        | _ =>
          rw [hk] at hr; simp only [kindReg] at hr
          simp [Key.delItem, hk, fromIdKey, hr, hn]
    simp only [Key.write]
    revert key
    rcases k.delItem q with ⟨k', r | e⟩ <;> exact id

theorem initStore_nodup {kd : Kind} {opt s : Dict} {allow : Bool} (h : initStore kd opt allow = .ok s) : KeysNodup s := by
  simp only [initStore, bind_eq_ok] at h
  obtain ⟨t, ht, h⟩ := h
  have hn : KeysNodup t := parseAttrs_nodup (by simp [KeysNodup]) ht
  split at h
  · simp at h
  · split at h
    · simp at h; subst h; exact hn
    · obtain ⟨n, _, h⟩ := bind_eq_ok.mp h
      split at h <;> simp at h <;> subst h
      · exact ddel_keysNodup hn _
      · exact hn

theorem setIfNonEmpty_nodup {s s' : Dict} {c : Cls} {v : Val} (hn : KeysNodup s) (h : setIfNonEmpty s c v = .ok s') : KeysNodup s' := by
  rcases setIfNonEmpty_ok h with ⟨_, rfl⟩ | ⟨b, _, _, rfl⟩
  · exact hn
  · exact dset_nodup hn _ _

/-! ### The properties -/

/-- **C66**, one write.  Whatever was written and however the write was spelled, the key afterwards shows exactly what
the specification of a single write says, and raises exactly the exception it says. -/
theorem c66_step {k : Key} (hn : KeysNodup k.store) {w : KeyWrite} (hw : Spec.Exists k.kind w)
    (t : Val → Option Val) (e : Option PyErr) :
    Spec.KeyStep k.kind k.table w t e ↔ (k.write w).1.table = t ∧ (k.write w).2 = e := by
  constructor
  · intro h; have := keyStep_sound hn hw h; exact ⟨this.1.symm, this.2.symm⟩
  · rintro ⟨rfl, rfl⟩
    obtain ⟨t, e, h⟩ := keyStep_total k.table hw
    obtain ⟨rfl, rfl⟩ := keyStep_sound hn hw h
    exact h

/-- **C66**, any history.  The table a key shows after a sequence of writes, and the exceptions raised on the way, are
those of the specification; the class of the key stays the same and no two of its entries have equal labels. -/
theorem c66_history {k : Key} (hn : KeysNodup k.store) (ws : List KeyWrite) (hw : ∀ w ∈ ws, Spec.Exists k.kind w)
    (t : Val → Option Val) (es : List (Option PyErr)) :
    (Spec.KeyRun k.kind k.table ws t es ↔ (k.runWrites ws).1.table = t ∧ (k.runWrites ws).2 = es) ∧
    KeysNodup (k.runWrites ws).1.store ∧ (k.runWrites ws).1.kind = k.kind := by
  induction ws generalizing k es with
  | nil =>
    refine ⟨⟨fun h => ?_, ?_⟩, hn, rfl⟩
    · cases h; exact ⟨rfl, rfl⟩
    · rintro ⟨rfl, rfl⟩; exact .nil
  | cons w ws ih =>
    obtain ⟨hn', hk'⟩ := write_nodup hn w
    have hw' : ∀ w' ∈ ws, Spec.Exists (k.write w).1.kind w' := fun w' h => by rw [hk']; exact hw w' (by simp [h])
    refine ⟨⟨fun h => ?_, ?_⟩, ?_⟩
    · cases h with
      | cons h1 h2 =>
        obtain ⟨rfl, rfl⟩ := (c66_step hn (hw w (by simp)) _ _).mp h1
        rw [← hk'] at h2
        obtain ⟨h3, h4⟩ := (ih hn' hw' _).1.mp h2
        exact ⟨h3, by simp only [Key.runWrites]; rw [h4]⟩
    · rintro ⟨rfl, rfl⟩
      refine .cons ((c66_step hn (hw w (by simp)) _ _).mpr ⟨rfl, rfl⟩) ?_
      rw [← hk']
      exact (ih hn' hw' _).1.mpr ⟨rfl, rfl⟩
    · obtain ⟨_, h1, h2⟩ := ih hn' hw' []
      exact ⟨h1, h2.trans hk'⟩

/-- **C66**, start.  A key from any of the constructors has no two entries with equal labels. -/
theorem c66_start {C : Crypto} {k : Key} (h : Spec.Built C k) : KeysNodup k.store := by
  rcases h.init with ⟨v, opt, al, h⟩ | ⟨crv, x, y, d, opt, al, h⟩ | ⟨crv, x, d, opt, al, h⟩ | ⟨a, opt, al, h⟩
  · obtain ⟨s, b, hs, _, _, rfl⟩ := symInit_ok h
    exact dset_nodup (initStore_nodup hs) _ _
  · obtain ⟨s, c, x', y', s1, s2, s3, hs, _, h1, h2, h3, rfl, _⟩ := ec2Init_ok h
    exact setIfNonEmpty_nodup (setIfNonEmpty_nodup (setIfNonEmpty_nodup (dset_nodup (initStore_nodup hs) _ _) h1) h2) h3
  · obtain ⟨s, c, s1, s2, hs, _, h1, h2, _, rfl⟩ := okpInit_ok h
    exact setIfNonEmpty_nodup (setIfNonEmpty_nodup (dset_nodup (initStore_nodup hs) _ _) h1) h2
  · obtain ⟨_, s, eb, nb, s3, s4, s5, s6, s7, s8, hs, _, _, h1, h2, h3, h4, h5, h6, rfl⟩ := rsaInit_ok h
    exact setIfNonEmpty_nodup (setIfNonEmpty_nodup (setIfNonEmpty_nodup (setIfNonEmpty_nodup (setIfNonEmpty_nodup
      (setIfNonEmpty_nodup (dset_nodup (dset_nodup (initStore_nodup hs) _ _) _ _) h1) h2) h3) h4) h5) h6

/-- **C66**, reading.  `key[label]` is the entry the label addresses, in whatever spelling, or `KeyError` if there is
none; `label in key` says which of the two it is. -/
theorem c66_get {k : Key} {q a : Val} (h : Spec.Label k.kind q a) :
    (∀ v, k.getItem q = .ok v ↔ k.table a = some v) ∧ (k.table a = none ↔ k.getItem q = .error .keyError) ∧
    k.contains q = .ok (k.table a).isSome := by
  rw [label_iff] at h
  simp only [Key.getItem, Key.contains, h, ok_bind, Key.table, dhas]
  cases dget k.store a <;> simp

/-- Every label addresses exactly one entry. -/
theorem c66_label (kd : Kind) (q : Val) : ∃ a, Spec.Label kd q a ∧ ∀ b, Spec.Label kd q b → b = a := by
  cases hr : resolve (kindReg kd) q with
  | none => exact ⟨_, .unknown (unknown_iff.mpr hr), fun b hb => label_unique hb (.unknown (unknown_iff.mpr hr))⟩
  | some c => exact ⟨_, label_of_resolve hr, fun b hb => label_unique hb (label_of_resolve hr)⟩

/-- **C66**, iteration.  `list(key)` has each label of an entry once and no other, and `len(key)` counts them. -/
theorem c66_labels {k : Key} (hn : KeysNodup k.store) :
    k.labels.Pairwise (fun a b => keq a b = false) ∧ (∀ a ∈ k.labels, k.table a ≠ none) ∧
    (∀ a, k.table a ≠ none → ∃ b ∈ k.labels, keq b a = true) ∧ k.len = k.labels.length := by
  refine ⟨?_, ?_, ?_, by simp [Key.len, Key.labels]⟩
  · simpa [Key.labels, List.pairwise_map, KeysNodup] using hn
  · intro a ha
    obtain ⟨p, hp, rfl⟩ := List.mem_map.mp ha
    simp only [Key.table, ne_eq, dget_none_iff]
    intro h; have := h p hp; simp [keq_refl] at this
  · intro a ha
    simp only [Key.table, ne_eq, dget_none_iff] at ha
    refine Classical.byContradiction fun hc => ha fun p hp => ?_
    cases he : keq p.1 a with
    | false => rfl
    | true => exact absurd ⟨p.1, List.mem_map.mpr ⟨p, hp, rfl⟩, he⟩ hc

/-- **C66**, properties.  `alg`, `kid`, `base_iv`, `key_ops` and `kty` read the entries of their parameters, with
`None`, empty bytes or an empty list when there is none. -/
theorem c66_properties (k : Key) :
    k.alg = (k.table (.cls KpAlg)).getD .none ∧ k.kid = (k.table (.cls KpKid)).getD (.bytes []) ∧
    k.baseIv = (k.table (.cls KpBaseIV)).getD (.bytes []) ∧ k.keyOps = (k.table (.cls KpKeyOps)).getD (.arr []) ∧
    k.kty = (k.table (.cls KpKty)).getD .none := ⟨rfl, rfl, rfl, rfl, rfl⟩

/-- Assigning by label checks nothing: a symmetric key can be given a key value of one byte in this way, although
`key.k = …` refuses it. -/
theorem c66_item_unchecked (C : Crypto) : ∃ k, Spec.Built C k ∧ (k.write (.setK (.bytes [1]))).2 = some .invalidKey ∧
    (k.write (.setItem (.text b!"k") (.bytes [1]))).2 = none ∧
    (k.write (.setItem (.text b!"k") (.bytes [1]))).1.symK = .ok (.bytes [1]) :=
  ⟨sampleSym, sampleSym_built C, by decide +kernel, by decide +kernel, by decide +kernel⟩

/-- A failing deletion is not always without effect: delete the coordinates of a private EC2 key, assign `x` again, and
the deletion of `y` raises `KeyError` and removes `x`. -/
theorem c66_failed_deletion : ∃ k : Key, Spec.Built toy k ∧
    (k.runWrites [.delItem (.text b!"Y"), .setParam Ec2X (.bytes [1])]).1.table (.cls Ec2X) = some (.bytes [1]) ∧
    (k.runWrites [.delItem (.text b!"Y"), .setParam Ec2X (.bytes [1]), .delItem (.text b!"Y")]).1.table (.cls Ec2X) = none ∧
    (k.runWrites [.delItem (.text b!"Y"), .setParam Ec2X (.bytes [1]), .delItem (.text b!"Y")]).2 =
      [none, none, some .keyError] :=
  ⟨sampleEc2, sampleEc2_built, by decide +kernel, by decide +kernel, by decide +kernel⟩

/-- A history with refused and accepted writes in between. -/
example : (sampleSym.runWrites [.setAlg (.int 1), .setAlg (.text b!"nope"), .setKid (.bytes [5]), .setKid (.int 5),
      .delItem (.text b!"k"), .delItem (.text b!"kid"), .delItem (.int 2), .setItem (.text b!"mine") (.int 7), .delItem (.text b!"mine")]).2 =
    [none, some .coseException, none, some .typeError, some .invalidKey, none, some .keyError, none, some .coseException] := by
  decide +kernel

example : KeysNodup sampleSym.store ∧ Spec.Exists sampleSym.kind (.setK (.bytes [1])) := ⟨c66_start (sampleSym_built toy), rfl⟩

/-- Three spellings of one label. -/
example : Spec.Label .sym (.text b!"kId") (.cls KpKid) ∧ Spec.Label .sym (.int 2) (.cls KpKid) ∧
    Spec.Label .sym (.text b!"mine") (.text b!"mine") :=
  ⟨label_iff.mpr (by decide +kernel), label_iff.mpr (by decide +kernel), label_iff.mpr (by decide +kernel)⟩

end Cose
