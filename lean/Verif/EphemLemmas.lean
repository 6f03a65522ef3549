import Verif.RcptLemmas
/-!
# The automatically generated ephemeral key
-/
set_option autoImplicit false
namespace Cose

theorem toBytes_ok {n len : Nat} {b : Bytes} (h : toBytes n len = .ok b) : b.length = len ∧ natOfBytes b = n := by
  unfold toBytes at h
  split at h <;> simp at h
  rename_i hl
  subst h
  exact ⟨beBytes_length _ _, natOfBytes_beBytes_of_lt hl⟩

theorem parseCrv_ok {kty : Cls} {v : Val} {c : Cls} (h : parseCrv kty v = .ok c) :
    crvKind c = some kty ∧ ∃ n, (c, n) ∈ registry .crv := by
  simp only [parseCrv, bind_eq_ok] at h
  obtain ⟨a, h1, h2⟩ := h
  split at h2
  · split at h2 <;> simp at h2
    subst h2
    rename_i c _ hk
    refine ⟨hk, ?_⟩
    cases v <;> simp only [fromId] at h1
    case arr => obtain ⟨l, _, h1⟩ := bind_eq_ok.mp h1; simp at h1
    all_goals
      split at h1 <;> simp at h1
      subst h1
      rename_i hr
      exact (resolve_some hr).2
  · simp at h2

theorem ec2_curves {c : Cls} (h : crvKind c = some KtyEC2) :
    c = ⟨.crv, 1⟩ ∨ c = ⟨.crv, 2⟩ ∨ c = ⟨.crv, 3⟩ ∨ c = ⟨.crv, 8⟩ := by
  obtain ⟨r, i⟩ := c
  unfold crvKind at h
  split at h
  · rename_i hr; simp at hr; subst hr
    split at h
    · rename_i hi; simp at hi; simpa using hi
    · split at h <;> simp at h
  · simp at h

/-- The store of a public EC2 key. -/
def ec2Pub (c : Cls) (bx bY : Bytes) : Dict :=
  [(.cls KpKty, .cls KtyEC2), (.cls Ec2Crv, .cls c), (.cls Ec2X, .bytes bx), (.cls Ec2Y, .bytes bY)]

theorem truthy_bytes {b : Bytes} {n : Nat} (h : b.length = n) (hn : n ≠ 0) : truthy (.bytes b) = true := by
  cases b with
  | nil => simp at h; exact absurd h.symm hn
  | cons _ _ => rfl

theorem bytes_ne {b : Bytes} {n : Nat} (h : b.length = n) (hn : n ≠ 0) : Val.bytes b ≠ .bytes [] := by
  cases b with
  | nil => simp at h; exact absurd h.symm hn
  | cons _ _ => simp

theorem ec2Generate_ok {C : Crypto} {crv : Val} {d : Nat} {k : Key} (h : ec2Generate C crv d [] = .ok k) :
    ∃ c x y bx bY bd, parseCrv KtyEC2 crv = .ok c ∧ C.ecPub c d = .ok (x, y) ∧
      bx ≠ [] ∧ bY ≠ [] ∧ bd ≠ [] ∧ natOfBytes bx = x ∧ natOfBytes bY = y ∧ natOfBytes bd = d ∧
      k = { kind := .ec2, store := ec2Pub c bx bY ++ [(.cls Ec2D, .bytes bd)] } := by
  simp only [ec2Generate, bind_eq_ok] at h
  obtain ⟨c, hc, ⟨x, y⟩, hp, h⟩ := h
  simp only [ec2FromNumbers, bind_eq_ok] at h
  obtain ⟨bx, hx, bY, hy, bd, hd, _, hb, h⟩ := h
  simp at hb; subst hb
  obtain ⟨hk, _⟩ := parseCrv_ok hc
  obtain ⟨lx, vx⟩ := toBytes_ok hx
  obtain ⟨ly, vy⟩ := toBytes_ok hy
  obtain ⟨ld, vd⟩ := toBytes_ok hd
  have hs : crvSize c ≠ 0 := by
    rcases ec2_curves hk with rfl | rfl | rfl | rfl <;> decide
  have tx := truthy_bytes lx hs
  have ty := truthy_bytes ly hs
  have td := truthy_bytes ld hs
  have nx := bytes_ne lx hs
  have ny := bytes_ne ly hs
  have nd := bytes_ne ld hs
  refine ⟨c, x, y, bx, bY, bd, hc, hp, by simpa using nx, by simpa using ny, by simpa using nd, vx, vy, vd, ?_⟩
  have hpc : parseCrv KtyEC2 (.cls c) = .ok c := by
    rcases ec2_curves hk with rfl | rfl | rfl | rfl <;> decide +kernel
  have hi : initStore .ec2 [] true = .ok [(.cls KpKty, .cls KtyEC2)] := by decide +kernel
  have e : ec2FromDict C (dupdate (dupdate [(.cls Ec2Crv, .cls c), (.cls Ec2X, .bytes bx), (.cls Ec2Y, .bytes bY)] [(.cls Ec2D, .bytes bd)]) []) =
      ec2Init C (.cls c) (.bytes bx) (.bytes bY) (.bytes bd) [] true := by
    rfl
  rw [e] at h
  simp only [ec2Init, hi, ok_bind, hpc, tx, ty, td, intFromBytes, vd, hp, hx, hy, checkOrDerive, setIfNonEmpty, nx, ny, nd, if_false, if_true,
    setBytes, reduceCtorEq, Bool.true_eq_false, and_false, and_self] at h
  simp [dset] at h
  rw [← h]
  rfl

/-- What the receiver makes of the transmitted public key. -/
theorem ec2Pub_received (C : Crypto) {c : Cls} {bx bY : Bytes} (hk : crvKind c = some KtyEC2) (hx : bx ≠ []) (hy : bY ≠ []) :
    fromDictVal C (.map [(.int 1, .int 2), (.int (-1), .int c.ident), (.int (-2), .bytes bx), (.int (-3), .bytes bY)]) =
      .ok { kind := .ec2, store := ec2Pub c bx bY } := by
  have tx : truthy (.bytes bx) = true := by cases bx <;> simp_all [truthy]
  have ty : truthy (.bytes bY) = true := by cases bY <;> simp_all [truthy]
  have nx : Val.bytes bx ≠ .bytes [] := by simpa
  have ny : Val.bytes bY ≠ .bytes [] := by simpa
  have e : fromDictVal C (.map [(.int 1, .int 2), (.int (-1), .int c.ident), (.int (-2), .bytes bx), (.int (-3), .bytes bY)]) =
      ec2Init C (.int c.ident) (.bytes bx) (.bytes bY) (.bytes []) [(.int 1, .int 2)] true := by
    rfl
  have hi : initStore .ec2 [(.int 1, .int 2)] true = .ok [(.cls KpKty, .cls KtyEC2)] := by decide +kernel
  have hpc : parseCrv KtyEC2 (.int c.ident) = .ok c := by
    rcases ec2_curves hk with rfl | rfl | rfl | rfl <;> decide +kernel
  have td : truthy (.bytes []) = false := rfl
  rw [e]
  simp only [ec2Init, hi, ok_bind, hpc, tx, ty, td, setIfNonEmpty, nx, ny, if_false, if_true,
    setBytes, reduceCtorEq, Bool.true_eq_false, and_false, false_and, and_self, Bool.false_eq_true]
  simp [dset]
  rfl

theorem ec2Pub_subst {tstr : Bool} {c : Cls} {bx bY : Bytes} (hk : crvKind c = some KtyEC2) :
    subst fullname (.base tstr) (.map (ec2Pub c bx bY)) =
      .ok (.map [(.int 1, .int 2), (.int (-1), .int c.ident), (.int (-2), .bytes bx), (.int (-3), .bytes bY)]) := by
  rcases ec2_curves hk with rfl | rfl | rfl | rfl <;> rfl

/-- The public part of a private key: the point of `pk` belongs to the private value of `sk`. -/
def Spec.PublicOf (C : Crypto) (crv : Cls) (sk pk : Key) : Prop :=
  ∃ d x y : Bytes, sk.d = .ok (.bytes d) ∧ pk.kind = .ec2 ∧ pk.crv = .ok (.cls crv) ∧ pk.x = .ok (.bytes x) ∧
    pk.y = .ok (.bytes y) ∧ d ≠ [] ∧ x ≠ [] ∧ y ≠ [] ∧ C.ecPub crv (natOfBytes d) = .ok (natOfBytes x, natOfBytes y)

theorem getAttr_none {b : Base} {c : Cls} (h : b.getAttr c = .ok .none) :
    getD b.phdr c .none = .none ∧ getD b.uhdr c .none = .none := by
  have h' : (if getD b.phdr c .none ≠ .none ∧ getD b.uhdr c .none ≠ .none then .error .coseException
      else if getD b.phdr c .none ≠ .none then .ok (getD b.phdr c .none)
      else .ok (getD b.uhdr c .none) : Res Val) = .ok .none := h
  split at h'
  · simp at h'
  · split at h'
    · rename_i h1; simp at h'; exact absurd h' h1
    · rename_i h1
      simp at h'
      exact ⟨by simpa using h1, h'⟩

theorem getAttr_uhdr {b : Base} {c : Cls} (h : getD b.phdr c .none = .none) : b.getAttr c = .ok (getD b.uhdr c .none) := by
  show (if getD b.phdr c .none ≠ .none ∧ getD b.uhdr c .none ≠ .none then .error .coseException
      else if getD b.phdr c .none ≠ .none then .ok (getD b.phdr c .none)
      else .ok (getD b.uhdr c .none) : Res Val) = _
  simp [h]

/-- A key header is never transmitted with the value `None`. -/
theorem hdrSend_noneKey {C : Crypto} {tstr allow : Bool} {h h' : Dict} (hs : Spec.HdrSend C tstr allow h h') {c : Cls}
    (hc : c = Hdr.EphemeralKey ∨ c = Hdr.StaticKey) (h0 : getD h c .none = .none) : ∀ p ∈ h, keq p.1 (.cls c) = false := by
  replace hs := hs.2
  rw [← dget_none_iff]
  induction hs with
  | nil => rfl
  | cons hh _ ih =>
    rename_i a b _ _ _
    obtain ⟨k, v⟩ := a
    simp only [dget]
    split
    · rename_i hk
      simp only [getD, dget, hk, if_true, Option.getD_some] at h0
      rw [keq_cls_right] at hk
      subst hk; subst h0
      cases hh with
      | alg _ => simp at hc
      | plain _ _ _ _ _ _ => rcases hc with rfl | rfl <;> contradiction
      | key _ hs _ hf =>
        simp [subst] at hs; subst hs
        simp [fromDictVal] at hf
      | foreign _ hf _ => exact hf.plain.elim
    · rename_i hk
      apply ih
      simpa [getD, dget, hk] using h0

theorem hdrSend_append {C : Crypto} {tstr allow : Bool} {h h' : Dict} (hs : Spec.HdrSend C tstr allow h h')
    {p p' : Val × Val} (hp : Spec.SendEntry C tstr allow p p') (hn : ∀ q ∈ h, keq q.1 p.1 = false) :
    Spec.HdrSend C tstr allow (h ++ [p]) (h' ++ [p']) := by
  obtain ⟨h1, h2⟩ := hs
  refine ⟨?_, ?_⟩
  · rw [KeysNodup, List.pairwise_append]
    exact ⟨h1, by simp, by simpa using hn⟩
  · clear h1 hn
    induction h2 with
    | nil => exact .cons hp .nil
    | cons a _ ih => exact .cons a ih

theorem dget_append (d e : Dict) (q : Val) : dget (d ++ e) q = (dget d q).or (dget e q) := by
  induction d with
  | nil => simp [dget]
  | cons p t ih =>
    obtain ⟨a, b⟩ := p
    simp only [List.cons_append, dget]
    split
    · simp
    · exact ih

theorem hdrSend_keys {C : Crypto} {tstr allow : Bool} {h h' : Dict} (hs : Spec.HdrSend C tstr allow h h') (q : Val) :
    (dget h' q).isSome = (dget h q).isSome := by
  replace hs := hs.2
  induction hs with
  | nil => rfl
  | cons hh _ ih =>
    cases hh <;> simp only [dget] <;> split <;> first | rfl | exact ih

theorem setupEphemeral_ok {C : Crypto} {tstr allow : Bool} {d : Nat} {b b' : Base} {peer : Val} {ph uh : Dict}
    (hs : Spec.Sendable C tstr allow b ph uh) (h : setupEphemeral C d b peer = .ok b') :
    ∃ pk k c bx bY uh', asKey peer = .ok pk ∧ (∃ v, pk.crv = .ok v ∧ parseCrv KtyEC2 v = .ok c) ∧
      b.getAttr Hdr.EphemeralKey = .ok .none ∧
      b' = { b with key := some k, uhdr := b'.uhdr } ∧
      Spec.Sendable C tstr allow b' ph uh' ∧
      (∀ q : Cls, q ≠ Hdr.EphemeralKey → dget b'.uhdr (.cls q) = dget b.uhdr (.cls q)) ∧
      dget uh' (.cls Hdr.EphemeralKey) = some (.key .ec2 (ec2Pub c bx bY)) ∧
      Spec.PublicOf C c k { kind := .ec2, store := ec2Pub c bx bY } ∧
      uh' = uh ++ [(.cls Hdr.EphemeralKey, .key .ec2 (ec2Pub c bx bY))] := by
  simp only [setupEphemeral, bind_eq_ok] at h
  obtain ⟨pk, hpk, crv, hcrv, k, hk, e, he, h⟩ := h
  split at h
  · simp at h
  rename_i he'
  have he' : e = .none := by simpa using he'
  subst he'
  split at h
  · simp at h
  simp at h
  obtain ⟨c, x, y, bx, bY, bd, hc, hp, nx, ny, nd, rfl, rfl, rfl, rfl⟩ := ec2Generate_ok hk
  have hdel : ddel (ec2Pub c bx bY ++ [(.cls Ec2D, .bytes bd)]) (.cls Ec2D) = ec2Pub c bx bY := rfl
  simp only [hdel] at h
  obtain ⟨h0, h1⟩ := getAttr_none he
  have hn := hdrSend_noneKey hs.unprot (.inl rfl) h1
  have hu : dupdate b.uhdr [(.cls Hdr.EphemeralKey, .map (ec2Pub c bx bY))] =
      b.uhdr ++ [(.cls Hdr.EphemeralKey, .map (ec2Pub c bx bY))] := by
    simp only [dupdate]
    exact dset_append_new hn
  rw [hu] at h
  obtain ⟨hkk, _⟩ := parseCrv_ok hc
  have hentry : Spec.SendEntry C tstr allow (.cls Hdr.EphemeralKey, .map (ec2Pub c bx bY))
      (.cls Hdr.EphemeralKey, .key .ec2 (ec2Pub c bx bY)) :=
    .key (.inl rfl) (ec2Pub_subst hkk) (by simp [PyOK, PyOKP, PyOKQ, KeysNodup, keq, norm]) (ec2Pub_received C hkk nx ny)
  subst h
  refine ⟨pk, _, c, bx, bY, uh ++ [(.cls Hdr.EphemeralKey, .key .ec2 (ec2Pub c bx bY))], hpk, ⟨crv, hcrv, hc⟩, he, rfl,
    ⟨hs.prot, hdrSend_append hs.unprot hentry hn⟩, ?_, ?_, ?_, rfl⟩
  · intro q hq
    rw [dget_append]
    simp [dget, Ne.symm hq]
  · rw [dget_append]
    have : dget uh (.cls Hdr.EphemeralKey) = none := by
      have := hdrSend_keys hs.unprot (.cls Hdr.EphemeralKey)
      rw [dget_none_iff.mpr hn] at this
      simpa using this
    rw [this]
    simp [dget]
  · exact ⟨bd, bx, bY, rfl, rfl, rfl, rfl, rfl, nd, nx, ny, hp⟩

end Cose
