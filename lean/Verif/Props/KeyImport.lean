import Verif.KeyImport
import Verif.Props.KeyWire
/-!
# Import of keys of the `cryptography` package (C63)
-/
set_option autoImplicit false
namespace Cose

/-! ### Specification -/

/-- RFC 8152, table 22 and RFC 8812: the COSE curve of a curve of the `cryptography` package and the length of its
coordinates in bytes. -/
def Spec.ecCurve : ExtCurve → Option (Cls × Nat)
  | .secp256r1 => some (⟨.crv, 1⟩, 32)
  | .secp384r1 => some (⟨.crv, 2⟩, 48)
  | .secp521r1 => some (⟨.crv, 3⟩, 66)
  | .secp256k1 => some (⟨.crv, 8⟩, 32)
  | .other _ => none

/-- RFC 8152, table 22. -/
def Spec.okpCurve : ExtOkp → Cls
  | .x25519 => ⟨.crv, 4⟩
  | .x448 => ⟨.crv, 5⟩
  | .ed25519 => ⟨.crv, 6⟩
  | .ed448 => ⟨.crv, 7⟩

/-- `b` is the big-endian encoding of `n` with exactly `len` bytes. -/
def Spec.Encodes (b : Bytes) (len n : Nat) : Prop := b.length = len ∧ natOfBytes b = n

/-! ### Dictionaries of parameters with optional ones added -/

theorem optional_apart {kind : Kind} {opt : Dict} (ho : Spec.PlainOptional kind opt) {c : Cls} (hc : Special kind c) :
    ∀ q ∈ opt, keq q.1 (.cls c) = false ∧ keq q.1 (.int c.ident) = false ∧ keq q.1 (.text (fullname c)) = false := by
  rintro ⟨k, v⟩ hq
  rcases ho k v hq with ⟨c', n, hm, hr, hal, _⟩ | ⟨hf, _⟩
  · have hne : c' ≠ c := by rintro rfl; exact hc.2 hr
    have hres := alias_resolve hm hal
    have no : ∀ w, keq k w = true → resolve (kindReg kind) w ≠ some c := by
      intro w hw
      cases hal with
      | ident =>
        intro e
        have : resolve (kindReg kind) (.int c'.ident) = some c := by
          cases w <;> simp [keq, norm] at hw <;> simp_all [resolve]
        rw [resolve_of_mem hm] at this
        exact hne (by simpa using this)
      | cls =>
        rw [keq_cls_left] at hw; subst hw
        rw [hres]; simpa using hne
      | name hv =>
        rw [keq_comm] at hw
        rw [keq_text hw, hres]; simpa using hne
    refine ⟨?_, ?_, ?_⟩
    · cases e : keq k (.cls c) with
      | false => rfl
      | true => exact absurd (by simpa [resolve] using lookupId_mem hc.1) (no _ e)
    · cases e : keq k (.int c.ident) with
      | false => rfl
      | true => exact absurd (resolve_of_mem hc.1) (no _ e)
    · cases e : keq k (.text (fullname c)) with
      | false => rfl
      | true => exact absurd (by simp [resolve, upper_mem hc.1, lookupName_mem hc.1]) (no _ e)
  · refine ⟨?_, hf.apart _ hc.1, ?_⟩
    · apply keq_cls_false
      rintro rfl
      exact hf.plain
    · apply keq_text_false
      rintro rfl
      have := hf.unregistered
      simp [resolve, upper_mem hc.1, lookupName_mem hc.1] at this

theorem dget_clsD_int (l : List (Cls × Val)) (i : Int) : dget (clsD l) (.int i) = none := by
  rw [dget_none_iff]
  intro p hp
  obtain ⟨q, _, rfl⟩ := List.mem_map.mp hp
  simp [keq, norm]

theorem dget_clsD_text (l : List (Cls × Val)) (t : Bytes) : dget (clsD l) (.text t) = none := by
  rw [dget_none_iff]
  intro p hp
  obtain ⟨q, _, rfl⟩ := List.mem_map.mp hp
  exact keq_text_false (by simp)

/-- Looking a parameter up. -/
def getK : List (Cls × Val) → Cls → Val → Val
  | [], _, v => v
  | p :: l, c, v => if p.1 = c then p.2 else getK l c v

/-- Removing a parameter. -/
def remK : List (Cls × Val) → Cls → List (Cls × Val)
  | [], _ => []
  | p :: l, c => if p.1 = c then l else p :: remK l c

theorem extract_clsD {l : List (Cls × Val)} {opt : Dict} {c : Cls} {v : Val}
    (h : ∀ q ∈ opt, keq q.1 (.cls c) = false ∧ keq q.1 (.int c.ident) = false ∧ keq q.1 (.text (fullname c)) = false) :
    extract (clsD l ++ opt) c v = getK l c v := by
  have hi : dget (clsD l ++ opt) (.int c.ident) = none := by
    rw [dget_append, dget_clsD_int, dget_none_iff.mpr (fun q hq => (h q hq).2.1)]; rfl
  have ht : dget (clsD l ++ opt) (.text (fullname c)) = none := by
    rw [dget_append, dget_clsD_text, dget_none_iff.mpr (fun q hq => (h q hq).2.2)]; rfl
  simp only [extract, hi, ht]
  clear hi ht
  induction l with
  | nil =>
    have : dget opt (.cls c) = none := dget_none_iff.mpr (fun q hq => (h q hq).1)
    simp [clsD, this, getK]
  | cons p t ih =>
    simp only [clsD, List.map_cons, List.cons_append, dget, keq_cls_cls, getK, decide_eq_true_eq] at ih ⊢
    by_cases e : p.1 = c
    · simp [e]
    · simp only [e, if_false]; exact ih

theorem remove_clsD {l : List (Cls × Val)} {opt : Dict} {c : Cls}
    (h : ∀ q ∈ opt, keq q.1 (.cls c) = false ∧ keq q.1 (.int c.ident) = false ∧ keq q.1 (.text (fullname c)) = false) :
    remove (clsD l ++ opt) c = clsD (remK l c) ++ opt := by
  have hd : ddel (clsD l ++ opt) (.cls c) = clsD (remK l c) ++ opt := by
    induction l with
    | nil => exact ddel_none (fun q hq => (h q hq).1)
    | cons p t ih =>
      simp only [clsD, List.map_cons, List.cons_append, ddel, keq_cls_cls, remK, decide_eq_true_eq] at ih ⊢
      by_cases e : p.1 = c
      · simp [e]
      · simp only [e, if_false, ih, List.map_cons, List.cons_append]
  have hi : dget (clsD (remK l c) ++ opt) (.int c.ident) = none := by
    rw [dget_append, dget_clsD_int, dget_none_iff.mpr (fun q hq => (h q hq).2.1)]; rfl
  have ht : dget (clsD (remK l c) ++ opt) (.text (fullname c)) = none := by
    rw [dget_append, dget_clsD_text, dget_none_iff.mpr (fun q hq => (h q hq).2.2)]; rfl
  rw [remove, hd, ddel_none_of_dget hi, ddel_none_of_dget ht]

theorem dupdate_clsD {kind : Kind} {l : List (Cls × Val)} {opt : Dict} (ho : Spec.PlainOptional kind opt) (hn : KeysNodup opt)
    (hl : (l.map (·.1)).Nodup) (hs : ∀ c ∈ l.map (·.1), Special kind c) : dupdate (clsD l) opt = clsD l ++ opt := by
  apply dupdate_append
  rw [KeysNodup, List.pairwise_append]
  refine ⟨clsD_nodup hl, hn, fun p hp q hq => ?_⟩
  obtain ⟨r, hr, rfl⟩ := List.mem_map.mp hp
  rw [keq_comm]
  exact (optional_apart ho (hs r.1 (List.mem_map_of_mem (f := (·.1)) hr)) q hq).1

/-! ### Elliptic curve keys -/

theorem ec2CurveOf_spec (cv : ExtCurve) : ec2CurveOf cv = (match Spec.ecCurve cv with
    | some p => .ok p.1
    | none => .error .unsupportedCurve) := by
  have hr : ((registry .crv).filter fun p => crvKind p.1 == some KtyEC2).reverse =
      [(⟨.crv, 8⟩, b!"SECP256K1"), (⟨.crv, 3⟩, b!"P_521"), (⟨.crv, 2⟩, b!"P_384"), (⟨.crv, 1⟩, b!"P_256")] := by decide +kernel
  simp only [ec2CurveOf, hr]
  cases cv <;> rfl

theorem ecCurve_spec {cv : ExtCurve} {c : Cls} {n : Nat} (h : Spec.ecCurve cv = some (c, n)) :
    crvSize c = n ∧ n ≠ 0 ∧ crvKind c = some KtyEC2 ∧ (∃ m, (c, m) ∈ registry .crv) ∧ parseCrv KtyEC2 (.cls c) = .ok c := by
  cases cv <;> cases h
  · exact ⟨rfl, by decide, rfl, ⟨b!"P_256", by decide +kernel⟩, by decide +kernel⟩
  · exact ⟨rfl, by decide, rfl, ⟨b!"P_384", by decide +kernel⟩, by decide +kernel⟩
  · exact ⟨rfl, by decide, rfl, ⟨b!"P_521", by decide +kernel⟩, by decide +kernel⟩
  · exact ⟨rfl, by decide, rfl, ⟨b!"SECP256K1", by decide +kernel⟩, by decide +kernel⟩

/-- The private part, `b''` for a public key. -/
def Spec.privBytes (n : Nat) : Option Nat → Bytes
  | some z => beBytes n z
  | none => []

theorem fromExt_ec (C : Crypto) (cv : ExtCurve) (x y : Nat) (d : Option Nat) (opt : Dict) :
    fromExt C (.ec cv x y d) opt = (do let c ← ec2CurveOf cv; ec2FromNumbers C c x y d opt) := rfl

/-- **C63**: importing an elliptic curve key is the same as calling the constructor with the COSE curve, the coordinates
and the private value as byte strings of the length of the curve's field, and the optional parameters. -/
theorem c63_ec_constructor {C : Crypto} {cv : ExtCurve} {c : Cls} {n x y : Nat} {d : Option Nat} {opt : Dict}
    (hc : Spec.ecCurve cv = some (c, n)) (hx : x < 256 ^ n) (hy : y < 256 ^ n) (hd : ∀ z, d = some z → z < 256 ^ n)
    (ho : Spec.PlainOptional .ec2 opt) (hn : KeysNodup opt) :
    fromExt C (.ec cv x y d) opt =
      ec2Init C (.cls c) (.bytes (beBytes n x)) (.bytes (beBytes n y)) (.bytes (Spec.privBytes n d)) opt true := by
  obtain ⟨hs, _, _, _, _⟩ := ecCurve_spec hc
  rw [fromExt_ec, ec2CurveOf_spec, hc]
  simp only [ok_bind, ec2FromNumbers, hs, toBytes, hx, hy, if_true]
  have sp := fun c hc => optional_apart ho (ec2_special c hc)
  have s1 := sp Ec2Crv (by simp)
  have s2 := sp Ec2X (by simp)
  have s3 := sp Ec2Y (by simp)
  have s4 := sp Ec2D (by simp)
  cases d with
  | none =>
    have e := dupdate_clsD (l := [(Ec2Crv, .cls c), (Ec2X, .bytes (beBytes n x)), (Ec2Y, .bytes (beBytes n y))]) ho hn
      (show [Ec2Crv, Ec2X, Ec2Y].Nodup by decide)
      (fun c hc => ec2_special c (by revert hc; simp; rintro (h | h | h) <;> simp [h]))
    have e' : dupdate [(.cls Ec2Crv, .cls c), (.cls Ec2X, .bytes (beBytes n x)), (.cls Ec2Y, .bytes (beBytes n y))] opt = _ := e
    simp only [e', ec2FromDict, extract_clsD s1, extract_clsD s2, extract_clsD s3, extract_clsD s4, remove_clsD s1, remove_clsD s2,
      remove_clsD s3, remove_clsD s4]
    rfl
  | some z =>
    have e := dupdate_clsD (l := [(Ec2Crv, .cls c), (Ec2X, .bytes (beBytes n x)), (Ec2Y, .bytes (beBytes n y)), (Ec2D, .bytes (beBytes n z))])
      ho hn (show [Ec2Crv, Ec2X, Ec2Y, Ec2D].Nodup by decide) (fun c hc => ec2_special c (by simpa using hc))
    have e0 : dupdate [(.cls Ec2Crv, .cls c), (.cls Ec2X, .bytes (beBytes n x)), (.cls Ec2Y, .bytes (beBytes n y))]
        [(.cls Ec2D, .bytes (beBytes n z))] = clsD [(Ec2Crv, .cls c), (Ec2X, .bytes (beBytes n x)), (Ec2Y, .bytes (beBytes n y)), (Ec2D, .bytes (beBytes n z))] := rfl
    simp only [hd z rfl, if_true, ok_bind, e0, e, ec2FromDict, extract_clsD s1, extract_clsD s2, extract_clsD s3, extract_clsD s4, remove_clsD s1, remove_clsD s2,
      remove_clsD s3, remove_clsD s4]
    rfl

/-- A coordinate or private value that is too long for the curve makes the import raise `OverflowError`. -/
theorem c63_ec_overflow {C : Crypto} {cv : ExtCurve} {c : Cls} {n x y : Nat} {d : Option Nat} {opt : Dict}
    (hc : Spec.ecCurve cv = some (c, n)) (h : ¬ (x < 256 ^ n ∧ y < 256 ^ n ∧ ∀ z, d = some z → z < 256 ^ n)) :
    fromExt C (.ec cv x y d) opt = .error .overflowError := by
  obtain ⟨hs, _, _, _, _⟩ := ecCurve_spec hc
  rw [fromExt_ec, ec2CurveOf_spec, hc]
  simp only [ok_bind, ec2FromNumbers, hs, toBytes]
  by_cases hx : x < 256 ^ n
  · by_cases hy : y < 256 ^ n
    · cases d with
      | none => exact absurd ⟨hx, hy, by simp⟩ h
      | some z =>
        have : ¬ z < 256 ^ n := fun hz => h ⟨hx, hy, by simpa using hz⟩
        simp [hx, hy, this]
    · simp [hx, hy]
  · simp [hx]

/-- **C63**: a curve without COSE identifier is refused, whatever the key. -/
theorem c63_ec_unsupported {C : Crypto} {cv : ExtCurve} {x y : Nat} {d : Option Nat} {opt : Dict} (hc : Spec.ecCurve cv = none) :
    fromExt C (.ec cv x y d) opt = .error .unsupportedCurve := by
  rw [fromExt_ec, ec2CurveOf_spec, hc]
  rfl

theorem ec2Init_cls {C : Crypto} {c : Cls} (hm : ∃ n, (c, n) ∈ registry .crv) (x y d : Val) (opt : Dict) (allow : Bool) :
    ec2Init C (.cls c) x y d opt allow = ec2Init C (.int c.ident) x y d opt allow := by
  obtain ⟨n, hn⟩ := hm
  have : fromId .crv (.cls c) = fromId .crv (.int c.ident) := by simp [fromId, resolve]
  simp only [ec2Init, reduceCtorEq, if_false, parseCrv, this]

/-- The store of an imported elliptic curve key. -/
theorem ec_imported {C : Crypto} {cv : ExtCurve} {c : Cls} {n x y : Nat} {d : Option Nat} {opt : Dict} {k : Key}
    (hc : Spec.ecCurve cv = some (c, n)) (ho : Spec.PlainOptional .ec2 opt) (hn : KeysNodup opt)
    (h : fromExt C (.ec cv x y d) opt = .ok k) :
    ∃ s, initStore .ec2 opt true = .ok s ∧ x < 256 ^ n ∧ y < 256 ^ n ∧ (∀ z, d = some z → z < 256 ^ n ∧ C.ecPub c z = .ok (x, y)) ∧
      k = { kind := .ec2, store := s ++ clsD ([(Ec2Crv, .cls c), (Ec2X, .bytes (beBytes n x)), (Ec2Y, .bytes (beBytes n y))] ++
        optC Ec2D (Spec.privBytes n d)) } := by
  have hr : x < 256 ^ n ∧ y < 256 ^ n ∧ ∀ z, d = some z → z < 256 ^ n := by
    apply Classical.byContradiction
    intro hh
    rw [c63_ec_overflow hc hh] at h
    simp at h
  obtain ⟨hx, hy, hd⟩ := hr
  obtain ⟨hsz, n0, hk, hm, _⟩ := ecCurve_spec hc
  rw [c63_ec_constructor hc hx hy hd ho hn] at h
  obtain ⟨s, c', x', y', s1, s2, s3, hs, hpc, h1, h2, h3, rfl, ht, hxx, hyy, hp, _⟩ := ec2Init_ok h
  have hcc : c' = c := by
    have := (ecCurve_spec hc).2.2.2.2
    rw [this] at hpc; simpa using hpc.symm
  subst hcc
  have lx := beBytes_length n x
  have ly := beBytes_length n y
  have e1 := hxx (truthy_bytes lx n0)
  have e2 := hyy (truthy_bytes ly n0)
  subst e1; subst e2
  have hi := initStore_plain ho hs
  have p1 := ec2_special Ec2Crv (by simp)
  have p2 := ec2_special Ec2X (by simp)
  have p3 := ec2_special Ec2Y (by simp)
  have p4 := ec2_special Ec2D (by simp)
  refine ⟨s, hs, hx, hy, fun z hz => ⟨hd z hz, ?_⟩, ?_⟩
  · subst hz
    have lz := beBytes_length n z
    obtain ⟨bx, bY, e1, e2, hpt⟩ := hp (beBytes n z) rfl (by simpa using bytes_ne lz n0)
    cases e1; cases e2
    have := hpt.1
    rwa [natOfBytes_beBytes_of_lt hx, natOfBytes_beBytes_of_lt hy, natOfBytes_beBytes_of_lt (hd z rfl)] at this
  · have q1 : dset s (.cls Ec2Crv) (.cls c') = s ++ clsD [(Ec2Crv, .cls c')] := by
      have := dset_special (l := []) hi.common p1 (.cls c') rfl (by simp)
      simpa [clsD] using this
    simp only [setIfNonEmpty_bytes, Except.ok.injEq] at h1 h2 h3
    subst h1; subst h2; subst h3
    rw [q1, dset_opt (l := [(Ec2Crv, .cls c')]) hi.common p2 _ (show Ec2X ∉ [Ec2Crv] by decide)]
    have nx : beBytes n x ≠ [] := by simpa using bytes_ne lx n0
    have ny : beBytes n y ≠ [] := by simpa using bytes_ne ly n0
    simp only [optC, nx, ny, if_false, List.cons_append, List.nil_append]
    rw [dset_special (l := [(Ec2Crv, .cls c'), (Ec2X, .bytes (beBytes n x))]) hi.common p3 _ rfl (ks := [Ec2Crv, Ec2X]) (show Ec2Y ∉ [Ec2Crv, Ec2X] by decide)]
    simp only [List.cons_append, List.nil_append]
    rw [dset_opt (l := [(Ec2Crv, .cls c'), (Ec2X, .bytes (beBytes n x)), (Ec2Y, .bytes (beBytes n y))]) hi.common p4 _
        (show Ec2D ∉ [Ec2Crv, Ec2X, Ec2Y] by decide)]
    rfl

theorem getD_special {kind : Kind} {s : Dict} (hi : InitOK kind s) (l : List (Cls × Val)) {c : Cls} (hc : Special kind c) (v : Val) :
    getD (s ++ clsD l) c v = getK l c v := by
  simp only [getD, dget_append_right (store_special hi.common hc)]
  induction l with
  | nil => rfl
  | cons p t ih =>
    simp only [clsD, List.map_cons, dget, keq_cls_cls, getK, decide_eq_true_eq] at ih ⊢
    by_cases e : p.1 = c
    · simp [e]
    · simp only [e, if_false]; exact ih

theorem dget_special {kind : Kind} {s : Dict} (hi : InitOK kind s) {p : Cls × Val} {l : List (Cls × Val)} (hc : Special kind p.1) :
    dget (s ++ clsD (p :: l)) (.cls p.1) = some p.2 := by
  rw [dget_append_right (store_special hi.common hc)]
  simp [clsD, dget]

/-- **C63**: an imported elliptic curve key is an EC2 key on the same curve with the same point and the same private
value, each as a big-endian byte string of exactly the length of the curve's field; a public key has no private value.
The private value of an accepted private key belongs to its point. -/
theorem c63_ec {C : Crypto} {cv : ExtCurve} {x y : Nat} {d : Option Nat} {opt : Dict} {k : Key}
    (ho : Spec.PlainOptional .ec2 opt) (hn : KeysNodup opt) (h : fromExt C (.ec cv x y d) opt = .ok k) :
    ∃ c n bx bY bd, Spec.ecCurve cv = some (c, n) ∧ k.kind = .ec2 ∧ k.kty = .cls KtyEC2 ∧ k.crv = .ok (.cls c) ∧
      k.x = .ok (.bytes bx) ∧ Spec.Encodes bx n x ∧ k.y = .ok (.bytes bY) ∧ Spec.Encodes bY n y ∧ k.d = .ok (.bytes bd) ∧
      (d = none → bd = []) ∧ ∀ z, d = some z → Spec.Encodes bd n z ∧ C.ecPub c z = .ok (x, y) := by
  cases hcv : Spec.ecCurve cv with
  | none => rw [c63_ec_unsupported hcv] at h; simp at h
  | some p =>
    obtain ⟨c, n⟩ := p
    obtain ⟨s, hs, hx, hy, hd, rfl⟩ := ec_imported hcv ho hn h
    obtain ⟨_, n0, _, _, _⟩ := ecCurve_spec hcv
    have hi := initStore_plain ho hs
    refine ⟨c, n, beBytes n x, beBytes n y, Spec.privBytes n d, rfl, rfl, ?_, ?_, ?_, ⟨beBytes_length _ _, natOfBytes_beBytes_of_lt hx⟩, ?_,
      ⟨beBytes_length _ _, natOfBytes_beBytes_of_lt hy⟩, ?_, ?_, ?_⟩
    · obtain ⟨t, rfl⟩ := hi.head
      simp [Key.kty, getD, dget]
      rfl
    · simp only [Key.crv]
      have := dget_special hi (p := (Ec2Crv, .cls c)) (l := [(Ec2X, .bytes (beBytes n x)), (Ec2Y, .bytes (beBytes n y))] ++
        optC Ec2D (Spec.privBytes n d)) (ec2_special Ec2Crv (by simp))
      simp only [List.cons_append, List.nil_append] at this ⊢
      rw [this]
    · simp only [Key.x, getD_special hi _ (ec2_special Ec2X (by simp))]
      rfl
    · simp only [Key.y, getD_special hi _ (ec2_special Ec2Y (by simp))]
      rfl
    · simp only [Key.d, getD_special hi _ (ec2_special Ec2D (by simp))]
      cases d with
      | none => rfl
      | some z =>
        have : beBytes n z ≠ [] := by simpa using bytes_ne (beBytes_length n z) n0
        simp only [Spec.privBytes, optC, this, if_false]
        rfl
    · rintro rfl; rfl
    · rintro z rfl
      obtain ⟨h1, h2⟩ := hd z rfl
      exact ⟨⟨beBytes_length _ _, natOfBytes_beBytes_of_lt h1⟩, h2⟩

/-- **C63**: every key on a supported curve whose numbers fit and whose private value, if any, belongs to its point is
imported. -/
theorem c63_ec_accepted {C : Crypto} {cv : ExtCurve} {c : Cls} {n x y : Nat} {d : Option Nat} {opt s : Dict}
    (hc : Spec.ecCurve cv = some (c, n)) (hx : x < 256 ^ n) (hy : y < 256 ^ n) (hd : ∀ z, d = some z → z < 256 ^ n ∧ C.ecPub c z = .ok (x, y))
    (ho : Spec.PlainOptional .ec2 opt) (hn : KeysNodup opt) (hs : initStore .ec2 opt true = .ok s) :
    ∃ k, fromExt C (.ec cv x y d) opt = .ok k := by
  obtain ⟨hsz, n0, hk, hm, _⟩ := ecCurve_spec hc
  rw [c63_ec_constructor hc hx hy (fun z hz => (hd z hz).1) ho hn, ec2Init_cls hm]
  refine ⟨_, ec2Init_again hs hk hm (by simpa using bytes_ne (beBytes_length n x) n0) (by simpa using bytes_ne (beBytes_length n y) n0) ?_⟩
  intro hne
  cases d with
  | none => simp [Spec.privBytes] at hne
  | some z =>
    obtain ⟨h1, h2⟩ := hd z rfl
    refine ⟨?_, by rw [hsz]; exact beBytes_length _ _, by rw [hsz]; exact beBytes_length _ _⟩
    simp only [Spec.privBytes]
    rw [natOfBytes_beBytes_of_lt hx, natOfBytes_beBytes_of_lt hy, natOfBytes_beBytes_of_lt h1]
    exact h2

/-- **C63**: the key imported from the public part of an elliptic curve key is the one imported from the private key, without
its private value. -/
theorem c63_ec_public {C : Crypto} {cv : ExtCurve} {x y z : Nat} {opt : Dict} {k k' : Key}
    (ho : Spec.PlainOptional .ec2 opt) (hn : KeysNodup opt) (h : fromExt C (.ec cv x y (some z)) opt = .ok k)
    (h' : fromExt C (.ec cv x y none) opt = .ok k') : k'.kind = k.kind ∧ k'.store = ddel k.store (.cls Ec2D) := by
  cases hcv : Spec.ecCurve cv with
  | none => rw [c63_ec_unsupported hcv] at h; simp at h
  | some p =>
    obtain ⟨c, n⟩ := p
    obtain ⟨s, hs, _, _, _, rfl⟩ := ec_imported hcv ho hn h
    obtain ⟨s', hs', _, _, _, rfl⟩ := ec_imported hcv ho hn h'
    rw [hs] at hs'; cases hs'
    obtain ⟨_, n0, _, _, _⟩ := ecCurve_spec hcv
    have hi := initStore_plain ho hs
    refine ⟨rfl, ?_⟩
    have : beBytes n z ≠ [] := by simpa using bytes_ne (beBytes_length n z) n0
    rw [ddel_append (store_special hi.common (ec2_special Ec2D (by simp)))]
    simp only [Spec.privBytes, optC, this, if_false, if_true]
    rfl

/-! ### Octet key pairs -/

theorem fromExt_okp (C : Crypto) (t : ExtOkp) (pub : Bytes) (priv : Option Bytes) (opt : Dict) :
    fromExt C (.okp t pub priv) opt = okpFromBytes (Spec.okpCurve t) pub priv opt := by
  cases t <;> rfl

theorem okpCurve_spec (t : ExtOkp) : parseCrv KtyOKP (.cls (Spec.okpCurve t)) = .ok (Spec.okpCurve t) := by
  cases t <;> decide +kernel

/-- **C63**: importing an octet key pair is the same as calling the constructor with the COSE curve and the raw bytes. -/
theorem c63_okp_constructor {C : Crypto} {t : ExtOkp} {pub : Bytes} {priv : Option Bytes} {opt : Dict}
    (ho : Spec.PlainOptional .okp opt) (hn : KeysNodup opt) :
    fromExt C (.okp t pub priv) opt =
      okpInit (.cls (Spec.okpCurve t)) (.bytes pub) (.bytes (priv.getD [])) opt true := by
  rw [fromExt_okp]
  have sp := fun c hc => optional_apart ho (okp_special c hc)
  have s1 := sp OkpCrv (by simp)
  have s2 := sp OkpX (by simp)
  have s3 := sp OkpD (by simp)
  have pubCase : okpFromDict (dupdate [(.cls OkpCrv, .cls (Spec.okpCurve t)), (.cls OkpX, .bytes pub)] opt) =
      okpInit (.cls (Spec.okpCurve t)) (.bytes pub) (.bytes []) opt true := by
    have e : dupdate [(.cls OkpCrv, .cls (Spec.okpCurve t)), (.cls OkpX, .bytes pub)] opt = _ :=
      dupdate_clsD (l := [(OkpCrv, .cls (Spec.okpCurve t)), (OkpX, .bytes pub)]) ho hn
        (show [OkpCrv, OkpX].Nodup by decide) (fun c hc => okp_special c (by revert hc; simp; rintro (h | h) <;> simp [h]))
    simp only [e, okpFromDict, extract_clsD s1, extract_clsD s2, extract_clsD s3, remove_clsD s1, remove_clsD s2, remove_clsD s3]
    rfl
  cases priv with
  | none => simp only [okpFromBytes, Option.getD_none]; exact pubCase
  | some p =>
    cases p with
    | nil => simp only [okpFromBytes, Option.getD_some]; exact pubCase
    | cons a l =>
      have e0 : dset [(.cls OkpCrv, .cls (Spec.okpCurve t)), (.cls OkpX, .bytes pub)] (.cls OkpD) (.bytes (a :: l)) =
          clsD [(OkpCrv, .cls (Spec.okpCurve t)), (OkpX, .bytes pub), (OkpD, .bytes (a :: l))] := rfl
      have e := dupdate_clsD (l := [(OkpCrv, .cls (Spec.okpCurve t)), (OkpX, .bytes pub), (OkpD, .bytes (a :: l))]) ho hn
        (show [OkpCrv, OkpX, OkpD].Nodup by decide) (fun c hc => okp_special c (by simpa using hc))
      simp only [okpFromBytes, Option.getD_some, e0, e, okpFromDict, extract_clsD s1, extract_clsD s2, extract_clsD s3, remove_clsD s1,
        remove_clsD s2, remove_clsD s3]
      rfl

theorem okp_imported {C : Crypto} {t : ExtOkp} {pub : Bytes} {priv : Option Bytes} {opt : Dict} {k : Key}
    (ho : Spec.PlainOptional .okp opt) (hn : KeysNodup opt) (h : fromExt C (.okp t pub priv) opt = .ok k) :
    ∃ s, initStore .okp opt true = .ok s ∧
      k = { kind := .okp, store := s ++ clsD ([(OkpCrv, .cls (Spec.okpCurve t))] ++ optC OkpX pub ++ optC OkpD (priv.getD [])) } := by
  rw [c63_okp_constructor ho hn] at h
  obtain ⟨s, c, s1, s2, hs, hc, h1, h2, _, rfl⟩ := okpInit_ok h
  rw [okpCurve_spec] at hc; cases hc
  have hi := initStore_plain ho hs
  have p1 := okp_special OkpCrv (by simp)
  have p2 := okp_special OkpX (by simp)
  have p3 := okp_special OkpD (by simp)
  have e1 : dset s (.cls OkpCrv) (.cls (Spec.okpCurve t)) = s ++ clsD [(OkpCrv, .cls (Spec.okpCurve t))] := by
    have := dset_special (l := []) hi.common p1 (.cls (Spec.okpCurve t)) rfl (by simp)
    simpa [clsD] using this
  simp only [setIfNonEmpty_bytes, Except.ok.injEq] at h1 h2
  subst h1; subst h2
  refine ⟨s, hs, ?_⟩
  rw [e1, dset_opt hi.common p2 pub (by simp), dset_opt hi.common p3 _ (by
    intro hh; rw [List.map_append, List.mem_append] at hh
    rcases hh with hh | hh
    · simp at hh
    · exact absurd (optC_keys hh) (by decide))]

theorem getK_append_skip {l m : List (Cls × Val)} {c : Cls} {v : Val} (h : ∀ p ∈ l, p.1 ≠ c) : getK (l ++ m) c v = getK m c v := by
  induction l with
  | nil => rfl
  | cons p t ih =>
    simp only [List.cons_append, getK, h p (by simp), if_false]
    exact ih fun q hq => h q (List.mem_cons_of_mem _ hq)

theorem getK_optC (c : Cls) (b : Bytes) : getK (optC c b) c (.bytes []) = .bytes b := by
  by_cases hb : b = [] <;> simp [optC, hb, getK]

theorem getK_optC_ne {c c' : Cls} (b : Bytes) (m : List (Cls × Val)) (v : Val) (h : c ≠ c') : getK (optC c b ++ m) c' v = getK m c' v := by
  by_cases hb : b = [] <;> simp [optC, hb, getK, h]

theorem getK_optC_eq (c : Cls) (b : Bytes) (m : List (Cls × Val)) (hm : ∀ p ∈ m, p.1 ≠ c) :
    getK (optC c b ++ m) c (.bytes []) = .bytes b := by
  by_cases hb : b = []
  · simp only [optC, hb, if_true, List.nil_append]
    induction m with
    | nil => rfl
    | cons p t ih =>
      simp only [getK, hm p (by simp), if_false]
      exact ih fun q hq => hm q (List.mem_cons_of_mem _ hq)
  · simp [optC, hb, getK]

/-- **C63**: an imported octet key pair is an OKP key on the same curve with the same raw bytes; a public key has no private
bytes. -/
theorem c63_okp {C : Crypto} {t : ExtOkp} {pub : Bytes} {priv : Option Bytes} {opt : Dict} {k : Key}
    (ho : Spec.PlainOptional .okp opt) (hn : KeysNodup opt) (h : fromExt C (.okp t pub priv) opt = .ok k) :
    k.kind = .okp ∧ k.kty = .cls KtyOKP ∧ k.crv = .ok (.cls (Spec.okpCurve t)) ∧ k.x = .ok (.bytes pub) ∧
      k.d = .ok (.bytes (priv.getD [])) := by
  obtain ⟨s, hs, rfl⟩ := okp_imported ho hn h
  have hi := initStore_plain ho hs
  refine ⟨rfl, ?_, ?_, ?_, ?_⟩
  · obtain ⟨t, rfl⟩ := hi.head
    simp [Key.kty, getD, dget]
    rfl
  · simp only [Key.crv]
    have := dget_special hi (p := (OkpCrv, .cls (Spec.okpCurve t))) (l := optC OkpX pub ++ optC OkpD (priv.getD [])) (okp_special OkpCrv (by simp))
    simp only [List.cons_append, List.nil_append] at this ⊢
    rw [this]
  · simp only [Key.x, getD_special hi _ (okp_special OkpX (by simp))]
    rw [List.append_assoc, getK_append_skip (by simp), getK_optC_eq _ _ _ (by
      intro p hp
      have := optC_keys (List.mem_map_of_mem (f := (·.1)) hp)
      simp only [this]; decide)]
  · simp only [Key.d, getD_special hi _ (okp_special OkpD (by simp))]
    rw [List.append_assoc, getK_append_skip (by simp), getK_optC_ne _ _ _ (by decide), getK_optC]

/-- **C63**: every octet key pair is imported (a key object always has non-empty public bytes). -/
theorem c63_okp_accepted {C : Crypto} {t : ExtOkp} {pub : Bytes} {priv : Option Bytes} {opt s : Dict} (hp : pub ≠ [])
    (ho : Spec.PlainOptional .okp opt) (hn : KeysNodup opt) (hs : initStore .okp opt true = .ok s) :
    ∃ k, fromExt C (.okp t pub priv) opt = .ok k := by
  rw [c63_okp_constructor ho hn]
  have : pub.length ≠ 0 := by simpa using hp
  simp only [okpInit, hs, ok_bind, lenOf, this, if_false, Bool.false_eq_true, reduceCtorEq, okpCurve_spec, setIfNonEmpty_bytes]
  exact ⟨_, rfl⟩

/-- **C63**: the public import of an octet key pair is the private one without its private bytes. -/
theorem c63_okp_public {C : Crypto} {t : ExtOkp} {pub priv : Bytes} {opt : Dict} {k k' : Key}
    (ho : Spec.PlainOptional .okp opt) (hn : KeysNodup opt) (hp : priv ≠ []) (h : fromExt C (.okp t pub (some priv)) opt = .ok k)
    (h' : fromExt C (.okp t pub none) opt = .ok k') : k'.kind = k.kind ∧ k'.store = ddel k.store (.cls OkpD) := by
  obtain ⟨s, hs, rfl⟩ := okp_imported ho hn h
  obtain ⟨s', hs', rfl⟩ := okp_imported ho hn h'
  rw [hs] at hs'; cases hs'
  have hi := initStore_plain ho hs
  refine ⟨rfl, ?_⟩
  rw [ddel_append (store_special hi.common (okp_special OkpD (by simp)))]
  by_cases hx : pub = []
  · simp only [optC, hp, hx, if_false, if_true, Option.getD_none, Option.getD_some]; rfl
  · simp only [optC, hp, hx, if_false, if_true, Option.getD_none, Option.getD_some]; rfl

/-! ### RSA keys -/

/-- The constructor arguments for the numbers of an RSA key. -/
def Spec.rsaOf (n e : Nat) : Option RsaNums → Spec.Rsa
  | none => ⟨toBstr n, toBstr e, [], [], [], [], [], [], [], [], [], []⟩
  | some k => ⟨toBstr n, toBstr e, toBstr k.d, toBstr k.p, toBstr k.q, toBstr k.dp, toBstr k.dq, toBstr k.qinv, [], [], [], []⟩

theorem toBstr_nil {n : Nat} : toBstr n = [] ↔ n = 0 := by
  constructor
  · intro h
    rw [← c47_inverse n, h]; rfl
  · rintro rfl; rfl

theorem fromExt_rsa (C : Crypto) (n e : Nat) (priv : Option RsaNums) (opt : Dict) :
    fromExt C (.rsa n e priv) opt = rsaFromNumbers n e priv opt := rfl

/-- **C63**: importing an RSA key is the same as calling the constructor with the numbers as byte strings. -/
theorem c63_rsa_constructor {C : Crypto} {n e : Nat} {priv : Option RsaNums} {opt : Dict}
    (ho : Spec.PlainOptional .rsa opt) (hn : KeysNodup opt) :
    fromExt C (.rsa n e priv) opt = rsaInit (Spec.rsaOf n e priv).args opt true := by
  rw [fromExt_rsa]
  have sp := fun c hc => optional_apart ho (rsa_special c hc)
  have f : ∀ (cs : List Cls) (l : List (Cls × Val)), (∀ c ∈ cs, Special .rsa c) → cs.foldl remove (clsD l ++ opt) = clsD (cs.foldl remK l) ++ opt := by
    intro cs
    induction cs with
    | nil => intros; rfl
    | cons c t ih =>
      intro l hc
      rw [List.foldl_cons, remove_clsD (optional_apart ho (hc c (by simp))), ih _ fun c hc' => hc c (by simp [hc'])]
      rfl
  have ex : ∀ l : List (Cls × Val), rsaFromDict (clsD l ++ opt) = rsaInit
        { n := getK l RsaN (.bytes []), e := getK l RsaE (.bytes []), d := getK l RsaD (.bytes []), p := getK l RsaP (.bytes []),
          q := getK l RsaQ (.bytes []), dp := getK l RsaDP (.bytes []), dq := getK l RsaDQ (.bytes []), qinv := getK l RsaQInv (.bytes []),
          other := getK l RsaOther (.arr []), ri := getK l RsaRi (.bytes []), di := getK l RsaDi (.bytes []), ti := getK l RsaTi (.bytes []) }
        (clsD ([RsaE, RsaN, RsaD, RsaP, RsaQ, RsaDP, RsaDQ, RsaQInv, RsaOther, RsaQInv, RsaRi, RsaDi, RsaTi].foldl remK l) ++ opt) true := by
    intro l
    rw [rsaFromDict, f _ _ (by intro c hc; exact rsa_special c ((by decide : ∀ c ∈ [RsaE, RsaN, RsaD, RsaP, RsaQ, RsaDP, RsaDQ, RsaQInv, RsaOther, RsaQInv, RsaRi, RsaDi, RsaTi], c ∈ [RsaE, RsaN, RsaD, RsaP, RsaQ, RsaDP, RsaDQ, RsaQInv, RsaOther, RsaRi, RsaDi, RsaTi]) c hc)),
      extract_clsD (sp RsaN (by decide)), extract_clsD (sp RsaE (by decide)), extract_clsD (sp RsaD (by decide)), extract_clsD (sp RsaP (by decide)),
      extract_clsD (sp RsaQ (by decide)), extract_clsD (sp RsaDP (by decide)), extract_clsD (sp RsaDQ (by decide)), extract_clsD (sp RsaQInv (by decide)),
      extract_clsD (sp RsaOther (by decide)), extract_clsD (sp RsaRi (by decide)), extract_clsD (sp RsaDi (by decide)), extract_clsD (sp RsaTi (by decide))]
  cases priv with
  | none =>
    have e1 : dupdate [(.cls RsaE, .bytes (toBstr e)), (.cls RsaN, .bytes (toBstr n))] opt = _ :=
      dupdate_clsD (l := [(RsaE, .bytes (toBstr e)), (RsaN, .bytes (toBstr n))]) ho hn (show [RsaE, RsaN].Nodup by decide)
        (fun c hc => rsa_special c (by revert hc; simp; rintro (h | h) <;> simp [h]))
    simp only [rsaFromNumbers, e1, ex]
    rfl
  | some k =>
    have e0 : dupdate [(.cls RsaE, .bytes (toBstr e)), (.cls RsaN, .bytes (toBstr n))] [(.cls RsaD, .bytes (toBstr k.d)), (.cls RsaP, .bytes (toBstr k.p)),
        (.cls RsaQ, .bytes (toBstr k.q)), (.cls RsaDP, .bytes (toBstr k.dp)), (.cls RsaDQ, .bytes (toBstr k.dq)), (.cls RsaQInv, .bytes (toBstr k.qinv))] =
        clsD [(RsaE, .bytes (toBstr e)), (RsaN, .bytes (toBstr n)), (RsaD, .bytes (toBstr k.d)), (RsaP, .bytes (toBstr k.p)), (RsaQ, .bytes (toBstr k.q)),
          (RsaDP, .bytes (toBstr k.dp)), (RsaDQ, .bytes (toBstr k.dq)), (RsaQInv, .bytes (toBstr k.qinv))] := rfl
    have e1 := dupdate_clsD (l := [(RsaE, .bytes (toBstr e)), (RsaN, .bytes (toBstr n)), (RsaD, .bytes (toBstr k.d)), (RsaP, .bytes (toBstr k.p)),
        (RsaQ, .bytes (toBstr k.q)), (RsaDP, .bytes (toBstr k.dp)), (RsaDQ, .bytes (toBstr k.dq)), (RsaQInv, .bytes (toBstr k.qinv))]) ho hn
        (show [RsaE, RsaN, RsaD, RsaP, RsaQ, RsaDP, RsaDQ, RsaQInv].Nodup by decide)
        (fun c hc => rsa_special c ((show ∀ c ∈ [RsaE, RsaN, RsaD, RsaP, RsaQ, RsaDP, RsaDQ, RsaQInv], c ∈ [RsaE, RsaN, RsaD, RsaP, RsaQ, RsaDP, RsaDQ, RsaQInv, RsaOther, RsaRi, RsaDi, RsaTi] by decide) c hc))
    simp only [rsaFromNumbers, e0, e1, ex]
    rfl

/-- What the eight parameters of an imported RSA key are, as the shortest big-endian encodings of the numbers. -/
def Spec.RsaHolds (k : Key) (n e : Nat) : Option RsaNums → Prop
  | none => (∃ b, k.rsaParam RsaN = .ok (.bytes b) ∧ Spec.Shortest b n) ∧ (∃ b, k.rsaParam RsaE = .ok (.bytes b) ∧ Spec.Shortest b e) ∧
      ∀ c ∈ [RsaD, RsaP, RsaQ, RsaDP, RsaDQ, RsaQInv], k.rsaParam c = .ok (.bytes [])
  | some r => (∃ b, k.rsaParam RsaN = .ok (.bytes b) ∧ Spec.Shortest b n) ∧ (∃ b, k.rsaParam RsaE = .ok (.bytes b) ∧ Spec.Shortest b e) ∧
      (∃ b, k.rsaParam RsaD = .ok (.bytes b) ∧ Spec.Shortest b r.d) ∧ (∃ b, k.rsaParam RsaP = .ok (.bytes b) ∧ Spec.Shortest b r.p) ∧
      (∃ b, k.rsaParam RsaQ = .ok (.bytes b) ∧ Spec.Shortest b r.q) ∧ (∃ b, k.rsaParam RsaDP = .ok (.bytes b) ∧ Spec.Shortest b r.dp) ∧
      (∃ b, k.rsaParam RsaDQ = .ok (.bytes b) ∧ Spec.Shortest b r.dq) ∧ ∃ b, k.rsaParam RsaQInv = .ok (.bytes b) ∧ Spec.Shortest b r.qinv

/-- **C63**: an imported RSA key holds the same numbers, each as its shortest big-endian encoding; a public key holds no private
one. -/
theorem c63_rsa {C : Crypto} {n e : Nat} {priv : Option RsaNums} {opt : Dict} {k : Key}
    (ho : Spec.PlainOptional .rsa opt) (hn : KeysNodup opt) (h : fromExt C (.rsa n e priv) opt = .ok k) :
    k.kind = .rsa ∧ k.kty = .cls KtyRSA ∧ k.extra = [] ∧ Spec.RsaHolds k n e priv := by
  rw [c63_rsa_constructor ho hn] at h
  have hv := c42_values ho h
  obtain ⟨s, hi, hs, rfl⟩ := rsaInit_plain ho h
  refine ⟨rfl, ?_, ?_, ?_⟩
  · obtain ⟨t, rfl⟩ := hi.head
    simp [Key.kty, getD, dget]
    rfl
  · cases priv <;> rfl
  · obtain ⟨h1, h2, h3, h4, h5, h6, h7, h8⟩ := hv
    cases priv with
    | none =>
      refine ⟨⟨_, h1, toBstr_shortest n⟩, ⟨_, h2, toBstr_shortest e⟩, ?_⟩
      simp only [List.mem_cons, List.not_mem_nil, or_false]
      rintro c (rfl | rfl | rfl | rfl | rfl | rfl)
      · exact h3
      · exact h4
      · exact h5
      · exact h6
      · exact h7
      · exact h8
    | some r =>
      exact ⟨⟨_, h1, toBstr_shortest n⟩, ⟨_, h2, toBstr_shortest e⟩, ⟨_, h3, toBstr_shortest r.d⟩, ⟨_, h4, toBstr_shortest r.p⟩, ⟨_, h5, toBstr_shortest r.q⟩,
        ⟨_, h6, toBstr_shortest r.dp⟩, ⟨_, h7, toBstr_shortest r.dq⟩, ⟨_, h8, toBstr_shortest r.qinv⟩⟩

/-- **C63**: an RSA key is imported exactly when the optional parameters are acceptable, the modulus and the exponent are not
zero, and the private numbers are all non-zero (or, which no RSA key has, all zero; then it counts as a public key). -/
theorem c63_rsa_accepted {C : Crypto} {n e : Nat} {priv : Option RsaNums} {opt : Dict} (ho : Spec.PlainOptional .rsa opt) (hn : KeysNodup opt) :
    (∃ k, fromExt C (.rsa n e priv) opt = .ok k) ↔
      (n ≠ 0 ∧ e ≠ 0 ∧ ∀ r, priv = some r → (∀ m ∈ [r.d, r.p, r.q, r.dp, r.dq, r.qinv], m ≠ 0) ∨ ∀ m ∈ [r.d, r.p, r.q, r.dp, r.dq, r.qinv], m = 0) ∧ ∃ s, initStore .rsa opt true = .ok s := by
  rw [c63_rsa_constructor ho hn, c42_accepted]
  have : ((Spec.rsaOf n e priv).Public ∨ (Spec.rsaOf n e priv).TwoPrime ∨ (Spec.rsaOf n e priv).MultiPrime) ↔
      (n ≠ 0 ∧ e ≠ 0 ∧ ∀ r, priv = some r → (∀ m ∈ [r.d, r.p, r.q, r.dp, r.dq, r.qinv], m ≠ 0) ∨ ∀ m ∈ [r.d, r.p, r.q, r.dp, r.dq, r.qinv], m = 0) := by
    cases priv with
    | none => simp [Spec.rsaOf, Spec.Rsa.Public, Spec.Rsa.TwoPrime, Spec.Rsa.MultiPrime, Spec.Rsa.Private, Spec.Rsa.NoMore, toBstr_nil]
    | some r =>
      simp only [Spec.rsaOf, Spec.Rsa.Public, Spec.Rsa.TwoPrime, Spec.Rsa.MultiPrime, Spec.Rsa.Private, Spec.Rsa.NoMore, ne_eq, toBstr_nil, Option.some.injEq, forall_eq', List.mem_cons, List.not_mem_nil, or_false, forall_eq_or_imp, forall_eq]
      grind
  rw [this]

/-! ### Keys of other types -/

/-- **C63**: a key object of any other type is refused. -/
theorem c63_other {C : Crypto} {opt : Dict} : fromExt C .other opt = .error .illegalKeyType := rfl

/-! ### Keys read from PEM files -/

/-- **C63**: reading a PEM file is importing the key that the `cryptography` package finds in it; what the package refuses is
refused. -/
theorem c63_pem {C : Crypto} {load : Bytes → Option Bytes → Res ExtKey} {loadPub : Bytes → Res ExtKey} {pem : Bytes} {password : Option Bytes} {opt : Dict} :
    (∀ e, load pem password = .error e → fromPemPrivate C load pem password opt = .error e) ∧
    (∀ k, load pem password = .ok k → fromPemPrivate C load pem password opt = fromExt C k opt) ∧
    (∀ e, loadPub pem = .error e → fromPemPublic C loadPub pem opt = .error e) ∧
    (∀ k, loadPub pem = .ok k → fromPemPublic C loadPub pem opt = fromExt C k opt) := by
  refine ⟨?_, ?_, ?_, ?_⟩ <;> intro k h <;> simp [fromPemPrivate, fromPemPublic, h]

/-! ### Generated keys -/

/-- **C63**: a generated elliptic curve key is the import of a fresh key on the requested curve: its private value is the fresh
value and its point belongs to it. -/
theorem c63_generate_ec {C : Crypto} {crv : Val} {z : Nat} {opt : Dict} {k : Key} (h : ec2Generate C crv z opt = .ok k) :
    ∃ cv c n x y, parseCrv KtyEC2 crv = .ok c ∧ Spec.ecCurve cv = some (c, n) ∧ C.ecPub c z = .ok (x, y) ∧
      fromExt C (.ec cv x y (some z)) opt = .ok k := by
  simp only [ec2Generate, bind_eq_ok] at h
  obtain ⟨c, hc, ⟨x, y⟩, hp, h⟩ := h
  have : ∃ cv n, Spec.ecCurve cv = some (c, n) := by
    obtain ⟨hk, _⟩ := parseCrv_ok hc
    obtain ⟨r, i⟩ := c
    simp only [crvKind] at hk
    split at hk
    · split at hk
      · rename_i h1 h2
        subst h1
        rcases h2 with rfl | rfl | rfl | rfl
        · exact ⟨.secp256r1, 32, rfl⟩
        · exact ⟨.secp384r1, 48, rfl⟩
        · exact ⟨.secp521r1, 66, rfl⟩
        · exact ⟨.secp256k1, 32, rfl⟩
      · split at hk <;> simp [KtyOKP, KtyEC2] at hk
    · simp at hk
  obtain ⟨cv, n, hcv⟩ := this
  refine ⟨cv, c, n, x, y, hc, hcv, hp, ?_⟩
  rw [fromExt_ec, ec2CurveOf_spec, hcv]
  exact h

/-- **C63**: a generated octet key pair is the import of a fresh key on the requested curve. -/
theorem c63_generate_okp {C : Crypto} {crv : Val} {z : Bytes} {opt : Dict} {k : Key} (h : okpGenerate C crv z opt = .ok k) :
    ∃ t pub, parseCrv KtyOKP crv = .ok (Spec.okpCurve t) ∧ C.okpPub (Spec.okpCurve t) z = .ok pub ∧ fromExt C (.okp t pub (some z)) opt = .ok k := by
  simp only [okpGenerate, bind_eq_ok] at h
  obtain ⟨c, hc, pub, hp, h⟩ := h
  have : ∃ t, Spec.okpCurve t = c := by
    obtain ⟨hk, _⟩ := parseCrv_ok hc
    obtain ⟨r, i⟩ := c
    simp only [crvKind] at hk
    split at hk
    · split at hk
      · simp [KtyOKP, KtyEC2] at hk
      · split at hk
        · rename_i h1 _ h2
          subst h1
          rcases h2 with rfl | rfl | rfl | rfl
          · exact ⟨.x25519, rfl⟩
          · exact ⟨.x448, rfl⟩
          · exact ⟨.ed25519, rfl⟩
          · exact ⟨.ed448, rfl⟩
        · simp at hk
    · simp at hk
  obtain ⟨t, rfl⟩ := this
  exact ⟨t, pub, hc, hp, by rw [fromExt_okp]; exact h⟩

/-- **C63**: a generated symmetric key holds the fresh bytes, and only lengths of 16, 24 and 32 bytes are generated. -/
theorem c63_generate_sym {rnd : Nat → Bytes} {len : Int} {opt : Dict} {k : Key} (ho : Spec.PlainOptional .sym opt) (h : symGenerate rnd len opt = .ok k) :
    (len = 16 ∨ len = 24 ∨ len = 32) ∧ k.kind = .sym ∧ k.kty = .cls KtySym ∧ k.symK = .ok (.bytes (rnd len.toNat)) := by
  simp only [symGenerate] at h
  split at h
  · rename_i hl
    obtain ⟨s, b, hs, hb, _, rfl⟩ := symInit_ok h
    cases hb
    have hi := initStore_plain ho hs
    refine ⟨hl, rfl, ?_, ?_⟩
    · obtain ⟨t, rfl⟩ := hi.head
      simp [Key.kty, getD, dget, dset]
      rfl
    · simp [Key.symK, dget_dset_same]
  · simp at h

theorem c63_generate_sym_refused {rnd : Nat → Bytes} {len : Int} {opt : Dict} (h : ¬ (len = 16 ∨ len = 24 ∨ len = 32)) :
    symGenerate rnd len opt = .error .valueError := by
  simp [symGenerate, h]

/-- What the `cryptography` package promises about a generated RSA key: it is a private RSA key with the requested exponent,
its modulus has exactly the requested number of bits, and no number is zero. -/
structure Spec.GeneratesRsa (gen : Int → Int → Res ExtKey) : Prop where
  rsa : ∀ {e bits : Int} {k : ExtKey}, gen e bits = .ok k → ∃ (n : Nat) (r : RsaNums), k = .rsa n e.toNat (some r) ∧ 0 < bits ∧
    2 ^ (bits.toNat - 1) ≤ n ∧ n < 2 ^ bits.toNat ∧ ∀ m ∈ [r.d, r.p, r.q, r.dp, r.dq, r.qinv], m ≠ 0

theorem shortest_length {b : Bytes} {n : Nat} (h : Spec.Shortest b n) : b.length = (toBstr n).length :=
  Nat.le_antisymm (h.2 _ (toBstr_shortest n).1) ((toBstr_shortest n).2 _ h.1)

/-- **C63**: a generated RSA key is the import of a fresh key; it has the public exponent 65537, a modulus of the requested
size, and the private numbers. -/
theorem c63_generate_rsa {C : Crypto} {gen : Int → Int → Res ExtKey} {bits : Int} {opt : Dict} {k : Key} (G : Spec.GeneratesRsa gen)
    (ho : Spec.PlainOptional .rsa opt) (hn : KeysNodup opt) (h : rsaGenerate C gen bits opt = .ok k) :
    ∃ n r, gen 65537 bits = .ok (.rsa n 65537 (some r)) ∧ fromExt C (.rsa n 65537 (some r)) opt = .ok k ∧ Spec.RsaHolds k n 65537 (some r) ∧
      k.rsaParam RsaE = .ok (.bytes [1, 0, 1]) ∧ ∃ b, k.rsaParam RsaN = .ok (.bytes b) ∧ b.length = (bits.toNat + 7) / 8 := by
  simp only [rsaGenerate, bind_eq_ok] at h
  obtain ⟨x, hg, h⟩ := h
  obtain ⟨n, r, rfl, hb, h1, h2, _⟩ := G.rsa hg
  have hf : fromExt C (.rsa n 65537 (some r)) opt = .ok k := h
  have hh := (c63_rsa ho hn hf).2.2.2
  have hh' := hh
  obtain ⟨⟨b, hb1, hb2⟩, ⟨e, he1, he2⟩, _⟩ := hh'
  refine ⟨n, r, hg, hf, hh, ?_, b, hb1, ?_⟩
  · have hl := shortest_length he2
    have hv := he2.1
    rw [← natOfBytes_value] at hv
    have : (toBstr 65537).length = 3 := by decide +kernel
    rw [this] at hl
    match e, hl with
    | [p, q, s], _ =>
      have hp := p.toNat_lt; have hq := q.toNat_lt; have hs := s.toNat_lt
      have e' : (p.toNat * 256 + q.toNat) * 256 + s.toNat = 65537 := by simpa [natOfBytes] using hv
      have : p.toNat = 1 ∧ q.toNat = 0 ∧ s.toNat = 1 := by omega
      obtain ⟨a1, a2, a3⟩ := this
      rw [he1, show p = 1 from UInt8.toNat_inj.mp a1, show q = 0 from UInt8.toNat_inj.mp a2, show s = 1 from UInt8.toNat_inj.mp a3]
  · rw [shortest_length hb2, toBstr, beBytes_length]
    have : bitLength n = bits.toNat := by
      have h0 : n ≠ 0 := Nat.ne_of_gt (Nat.lt_of_lt_of_le (Nat.two_pow_pos _) h1)
      have a := (Nat.pow_lt_pow_iff_right (by decide : 1 < 2)).mp (Nat.lt_of_le_of_lt h1 (lt_pow_bitLength n))
      have b := (Nat.pow_lt_pow_iff_right (by decide : 1 < 2)).mp (Nat.lt_of_le_of_lt (pow_bitLength_le h0) h2)
      omega
    rw [this]

/-- **C63**: generation succeeds exactly when the package generates a key and the optional parameters are acceptable. -/
theorem c63_generate_rsa_accepted {C : Crypto} {gen : Int → Int → Res ExtKey} {bits : Int} {opt : Dict} (G : Spec.GeneratesRsa gen)
    (ho : Spec.PlainOptional .rsa opt) (hn : KeysNodup opt) :
    (∃ k, rsaGenerate C gen bits opt = .ok k) ↔ (∃ x, gen 65537 bits = .ok x) ∧ ∃ s, initStore .rsa opt true = .ok s := by
  constructor
  · rintro ⟨k, h⟩
    obtain ⟨n, r, hg, hf, _⟩ := c63_generate_rsa G ho hn h
    exact ⟨⟨_, hg⟩, ((c63_rsa_accepted ho hn).mp ⟨k, hf⟩).2⟩
  · rintro ⟨⟨x, hg⟩, hs⟩
    obtain ⟨n, r, rfl, hb, h1, h2, h3⟩ := G.rsa hg
    obtain ⟨k, hk⟩ := (c63_rsa_accepted (C := C) (n := n) (e := 65537) (priv := some r) ho hn).mpr
      ⟨⟨Nat.ne_of_gt (Nat.lt_of_lt_of_le (Nat.two_pow_pos _) h1), by decide, fun r' e => by cases e; exact .inl h3⟩, hs⟩
    exact ⟨k, by simp only [rsaGenerate, hg, ok_bind]; exact hk⟩

/-! ### The hypotheses are met -/

/-- Optional parameters of every kind of key: an identifier and an unregistered label. -/
def sampleOpt : Dict := [(.cls KpKid, .bytes [1, 2]), (.int 99, .int 5)]

theorem sampleOpt_plain (kind : Kind) : Spec.PlainOptional kind sampleOpt ∧ KeysNodup sampleOpt ∧ ∃ s, initStore kind sampleOpt true = .ok s := by
  refine ⟨?_, by unfold KeysNodup sampleOpt; decide +kernel, ?_⟩
  · intro k v h
    have hk : (k, v) = (.cls KpKid, .bytes [1, 2]) ∨ (k, v) = (.int 99, .int 5) := by simpa [sampleOpt] using h
    rcases hk with e | e <;> cases e
    · exact .inl ⟨KpKid, b!"KID", by cases kind <;> decide +kernel, rfl, .cls, fun _ => trivial⟩
    · exact .inr ⟨by cases kind <;> exact foreignKey_int (by decide +kernel), trivial⟩
  · have : (initStore kind sampleOpt true).isOk = true := by cases kind <;> decide +kernel
    cases h : initStore kind sampleOpt true with
    | ok s => exact ⟨s, rfl⟩
    | error e => rw [h] at this; cases this

/-- A key pair of each type, and a public key of each type, is imported with these optional parameters. -/
example : (∃ x y, toy.ecPub ⟨.crv, 2⟩ 7 = .ok (x, y) ∧ (fromExt toy (.ec .secp384r1 x y (some 7)) sampleOpt).isOk = true ∧
      (fromExt toy (.ec .secp384r1 x y none) sampleOpt).isOk = true) ∧
    (fromExt toy (.okp .ed25519 [1, 2] (some [3])) sampleOpt).isOk = true ∧ (fromExt toy (.okp .x448 [1, 2] none) sampleOpt).isOk = true ∧
    (fromExt toy (.rsa 3233 17 (some ⟨3233, 17, 413, 61, 53, 53, 49, 38⟩)) sampleOpt).isOk = true ∧
    (fromExt toy (.rsa 3233 17 none) sampleOpt).isOk = true := by
  refine ⟨⟨_, _, rfl, ?_, ?_⟩, ?_, ?_, ?_, ?_⟩ <;> decide +kernel

/-- Numbers too long for the curve, and an unsupported curve. -/
example : Spec.ecCurve .secp256r1 = some (⟨.crv, 1⟩, 32) ∧ ¬ (256 ^ 32 : Nat) < 256 ^ 32 ∧ Spec.ecCurve (.other b!"brainpoolP256r1") = none := ⟨rfl, by decide, rfl⟩

/-- A package that generates keys of twelve bits. -/
example : ∃ gen : Int → Int → Res ExtKey, Spec.GeneratesRsa gen ∧ (rsaGenerate toy gen 12 sampleOpt).isOk = true := by
  refine ⟨fun e bits => if e = 65537 ∧ bits = 12 then .ok (.rsa 3233 65537 (some ⟨3233, 65537, 2753, 61, 53, 53, 49, 38⟩)) else .error .valueError, ⟨?_⟩, ?_⟩
  · intro e bits k h
    split at h
    · rename_i hc
      obtain ⟨rfl, rfl⟩ := hc
      cases h
      exact ⟨_, _, rfl, by decide, by decide, by decide, by decide⟩
    · cases h
  · decide +kernel

/-- Keys are generated. -/
example : (ec2Generate toy (.text b!"P_521") 9 sampleOpt).isOk = true ∧ (okpGenerate toy (.int 6) [4] sampleOpt).isOk = true ∧
    (symGenerate (fun n => List.replicate n 8) 24 sampleOpt).isOk = true ∧ ¬ ((17 : Int) = 16 ∨ (17 : Int) = 24 ∨ (17 : Int) = 32) := by
  refine ⟨?_, ?_, ?_, ?_⟩ <;> decide +kernel

end Cose
