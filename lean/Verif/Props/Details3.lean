import Verif.Props.Details2
import Verif.Props.KeyAdmit
import Verif.Props.X509
/-!
# Further details of properties C21, C50, C53, C81 and C92: which tags are kept, and which values count as not given
-/
set_option autoImplicit false
namespace Cose

/-! ### C92, C81, C50: what counts as not given -/

/-- The values that count as false in Python: null and undefined, `False`, the numbers zero and everything empty. -/
def Spec.CountsAsNothing (v : Val) : Prop :=
  v = .none ∨ v = .undef ∨ v = .bool false ∨ v = .int 0 ∨ (∃ bits, v = .float bits ∧ Spec.FloatIs bits 0) ∨ Spec.Hollow v

/-- C92: "given" in the requirements of the key constructors means exactly that the value does not count as false. -/
theorem c92_given (v : Val) : truthy v = false ↔ Spec.CountsAsNothing v := by
  cases v <;> simp [truthy, Spec.CountsAsNothing, Spec.Hollow, floatInt_iff]

example : Spec.CountsAsNothing (.int 0) ∧ ¬ Spec.CountsAsNothing (.int 1) ∧ ¬ Spec.CountsAsNothing (.bytes [0]) := by
  simp [Spec.CountsAsNothing, Spec.Hollow]

/-- C50: a thumbprint that counts as nothing matches no certificate, whatever the algorithm, and nothing is raised. -/
theorem c50_no_thumbprint {C : Crypto} {t : X5T} (h : Spec.CountsAsNothing t.thumbprint) (given : Bytes) (e : Bool) :
    t.matchesCert C given e = .ok false := by
  simp [X5T.matchesCert, (c92_given _).mpr h]

/-- C50: with any other thumbprint, `matches` raises what `from_certificate` with the same algorithm and certificate raises. -/
theorem c50_matches_raises {C : Crypto} {t : X5T} (h : ¬ Spec.CountsAsNothing t.thumbprint) (given : Bytes) (e : Bool) (err : PyErr) :
    t.matchesCert C given e = .error err ↔ X5T.fromCertificate C t.alg given e = .error err := by
  have h' : truthy t.thumbprint = true := by
    cases ht : truthy t.thumbprint
    · exact absurd ((c92_given _).mp ht) h
    · rfl
  simp only [X5T.matchesCert, h', if_true, X5T.fromCertificate]
  cases certBytes given e with
  | error x => simp [bind, Except.bind]
  | ok c => cases hd : computeHashVal C t.alg c <;> simp [hd, bind, Except.bind]

example : X5T.matchesCert toy ⟨.int 7, .int 0⟩ b!"certificate" = .ok false := c50_no_thumbprint (by simp [Spec.CountsAsNothing]) _ _
example : X5T.matchesCert toy ⟨.int 7, .int 1⟩ b!"certificate" = .error .attributeError :=
  (c50_matches_raises (by simp [Spec.CountsAsNothing, Spec.Hollow]) _ _ _).mpr (by decide +kernel)

/-- C81: encoding without signing writes the stored signature, whatever it is (a decoded message can hold any value there), unless it counts as
nothing: then the message is written as the list of its three other parts, as if the signature were empty. -/
theorem c81_sign1_stored {C : Crypto} {rnd : Bytes} {m : Sign1} {tag : Bool} {det : Option Bytes} {out : Bytes}
    (h : m.encode C rnd tag false det = .ok out) :
    ∃ pe parts, m.base.phdrEncoded = .ok pe ∧
      (parts = [.bytes pe, .map m.base.uhdr, optBytes m.base.payload] ∧ Spec.CountsAsNothing m.signature ∨
       parts = [.bytes pe, .map m.base.uhdr, optBytes m.base.payload, m.signature] ∧ ¬ Spec.CountsAsNothing m.signature) ∧
      dumps fullname m.base.mode (if tag then .tag 18 (.arr parts) else .arr parts) = .ok out := by
  unfold Sign1.encode at h
  obtain ⟨pe, h1, h⟩ := bind_eq_ok.mp h
  cases ht : truthy m.signature with
  | false =>
    refine ⟨pe, _, h1, .inl ⟨rfl, (c92_given _).mp ht⟩, ?_⟩
    simp [ht, Base.finish, bind, Except.bind] at h
    cases tag <;> simpa using h
  | true =>
    refine ⟨pe, _, h1, .inr ⟨rfl, fun h0 => ?_⟩, ?_⟩
    · rw [(c92_given _).mpr h0] at ht
      exact absurd ht (by simp)
    · simp [ht, Base.finish, bind, Except.bind] at h
      cases tag <;> simpa using h

/-- A message whose signature is the integer one, and one whose signature is zero. -/
example : let m : Sign1 := { base := { phdr := [], uhdr := [], payload := some [1] }, signature := .int 1 }
    m.encode toy [] false false none = .ok [0x84, 0x40, 0xa0, 0x41, 1, 1] ∧
    { m with signature := .int 0 }.encode toy [] false false none = .ok [0x83, 0x40, 0xa0, 0x41, 1] := by decide +kernel

/-! ### C21: the values that are read back as they were written, without reference to the model's own predicate -/

/-- The tags that the CBOR library turns into something else than a tagged value: large integers, the CBOR marker, dates, decimal fractions and
large floats, references, rationals, regular expressions, MIME messages, UUIDs, sets, network addresses and complex numbers. -/
def Spec.interpretedTags : List Nat :=
  [2, 3, 55799, 0, 1, 4, 5, 25, 28, 29, 30, 35, 36, 37, 100, 256, 258, 260, 261, 1004, 43000]

/-- What CBOR data can hold, as Python has it: simple values that have no name of their own, floats with one NaN, valid text, dictionaries with
distinct keys, and tags that are not interpreted.  No class of the library and no key. -/
inductive Spec.Plain : Val → Prop
  | none : Plain .none
  | undef : Plain .undef
  | bool (b : Bool) : Plain (.bool b)
  | simple {n : Nat} : n < 20 ∨ (32 ≤ n ∧ n < 256) → Plain (.simple n)
  | int (i : Int) : Plain (.int i)
  | float {f : Nat} : f < 2 ^ 64 → (f / 2 ^ 52 % 2048 = 2047 → f % 2 ^ 52 = 0 ∨ f = 0x7ff8000000000000) → Plain (.float f)
  | bytes (b : Bytes) : Plain (.bytes b)
  | text {s : Bytes} : validUtf8 s = true → Plain (.text s)
  | list {l : List Val} : (∀ v ∈ l, Plain v) → Plain (.arr l)
  | dict {l : List (Val × Val)} : (∀ p ∈ l, Plain p.1) → (∀ p ∈ l, Plain p.2) → l.Pairwise (fun a b => keq a.1 b.1 = false) → Plain (.map l)
  | tag {n : Nat} {v : Val} : n ∉ Spec.interpretedTags → Plain v → Plain (.tag n v)

theorem tag_kept {n : Nat} : n ∉ Spec.interpretedTags ↔ n ≠ 2 ∧ n ≠ 3 ∧ n ≠ 55799 ∧ n ∉ semanticTags := by
  simp [Spec.interpretedTags, semanticTags]

theorem float_nan {f : Nat} : (floatNaN f = true → f = nanBits) ↔ (f / 2 ^ 52 % 2048 = 2047 → f % 2 ^ 52 = 0 ∨ f = 0x7ff8000000000000) := by
  simp only [floatNaN, floatSpecial, nanBits, Bool.and_eq_true, bne_iff_ne, ne_eq, beq_iff_eq]
  grind

mutual
theorem pyPlain_iff : ∀ v, PyOK v ↔ Spec.Plain v
  | .none => ⟨fun _ => .none, fun _ => trivial⟩
  | .undef => ⟨fun _ => .undef, fun _ => trivial⟩
  | .bool b => ⟨fun _ => .bool b, fun _ => trivial⟩
  | .simple n => ⟨fun h => .simple h, fun h => by cases h; assumption⟩
  | .int i => ⟨fun _ => .int i, fun _ => trivial⟩
  | .float f => ⟨fun h => .float h.1 (float_nan.mp h.2), fun h => by cases h with | float a b => exact ⟨a, float_nan.mpr b⟩⟩
  | .bytes b => ⟨fun _ => .bytes b, fun _ => trivial⟩
  | .text s => ⟨fun h => .text h, fun h => by cases h; assumption⟩
  | .arr l => ⟨fun h => .list ((pyPlain_iffL l).mp h), fun h => by cases h with | list a => exact (pyPlain_iffL l).mpr a⟩
  | .map l => ⟨fun h => .dict (fun p hp => ((pyPlain_iffP l).mp h.1 p hp).1) (fun p hp => ((pyPlain_iffP l).mp h.1 p hp).2) h.2,
      fun h => by cases h with | dict a b c => exact ⟨(pyPlain_iffP l).mpr fun p hp => ⟨a p hp, b p hp⟩, c⟩⟩
  | .tag n v => by
    have ih := pyPlain_iff v
    constructor
    · intro h
      simp only [PyOK] at h
      exact .tag (tag_kept.mpr ⟨h.1, h.2.1, h.2.2.1, h.2.2.2.1⟩) (ih.mp h.2.2.2.2)
    · intro h
      cases h with
      | tag a b => have := tag_kept.mp a; exact ⟨this.1, this.2.1, this.2.2.1, this.2.2.2, ih.mpr b⟩
  | .cls c => ⟨fun h => by simp [PyOK] at h, fun h => by cases h⟩
  | .key k s => ⟨fun h => by simp [PyOK] at h, fun h => by cases h⟩
termination_by structural x => x
theorem pyPlain_iffL : ∀ l : List Val, PyOKL l ↔ ∀ v ∈ l, Spec.Plain v
  | [] => by simp [PyOKL]
  | v :: t => by simp [PyOKL, pyPlain_iff v, pyPlain_iffL t]
termination_by structural x => x
theorem pyPlain_iffP : ∀ l : List (Val × Val), PyOKP l ↔ ∀ p ∈ l, Spec.Plain p.1 ∧ Spec.Plain p.2
  | [] => by simp [PyOKP]
  | p :: t => by
    have h1 := pyPlain_iffQ p
    have h2 := pyPlain_iffP t
    simp only [PyOKP, List.mem_cons, forall_eq_or_imp, h1, h2]
termination_by structural x => x
theorem pyPlain_iffQ : ∀ p : Val × Val, PyOKQ p ↔ Spec.Plain p.1 ∧ Spec.Plain p.2
  | (k, v) => by
    have h1 := pyPlain_iff k
    have h2 := pyPlain_iff v
    simp only [PyOKQ, h1, h2]
termination_by structural x => x
end

/-- C21: every plain value is read back as it was written, whatever follows. -/
theorem c21_plain {m : Mode} {v : Val} {b : Bytes} (hv : Spec.Plain v) (h : dumps fullname m v = .ok b) (r : Bytes) : loads (b ++ r) = .ok v :=
  c21_lossless ((pyPlain_iff v).mpr hv) h r

/-- C21: and nothing else is ever read: what `loads` returns is plain. -/
theorem c21_reads_plain {b : Bytes} {v : Val} (h : loads b = .ok v) : Spec.Plain v := (pyPlain_iff v).mp (loads_pyok h)

/-- C21: a tagged value is read as such exactly if its tag is not one the library interprets. -/
theorem c21_tags {m : Mode} {n : Nat} {v : Val} {b : Bytes} (hv : Spec.Plain v) (h : dumps fullname m (.tag n v) = .ok b) (r : Bytes) :
    loads (b ++ r) = .ok (.tag n v) ↔ n ∉ Spec.interpretedTags := by
  constructor
  · intro hl
    cases c21_reads_plain hl with
    | tag a _ => exact a
  · intro hn
    exact c21_plain (.tag hn hv) h r

example : Spec.Plain (.tag 1005 (.map [(.int 1, .tag 18 (.arr [.none, .float 0]))])) := by
  refine .tag (by decide) (.dict ?_ ?_ (by simp))
  · intro p hp; simp at hp; subst hp; exact .int 1
  · intro p hp; simp at hp; subst hp
    refine .tag (by decide) (.list ?_)
    intro v hv; simp at hv
    rcases hv with rfl | rfl
    · exact .none
    · exact .float (by decide) (by decide)

end Cose
