import Verif.SignHeap
import Verif.Props.RoundTrip
/-!
# Signers and the message they belong to (C55)
-/
set_option autoImplicit false
namespace Cose

/-! ### Specification -/

/-- `o` is an assignment `msg.signers = l`, done in state `h`, of a list that holds signer `s`. -/
def Spec.Attaches (h : Heap) (o : HeapOp) (s : Nat) : Prop :=
  ∃ m l ss, o = .assign m l ∧ (h.msg m).isSome ∧ h.lst l = some ss ∧ s ∈ ss

/-- None of the actions `post`, done from `h` on, attaches signer `s` to a message. -/
def Spec.NeverAttached (h : Heap) (post : List HeapOp) (s : Nat) : Prop :=
  ∀ p o q, post = p ++ o :: q → ¬ Spec.Attaches (Heap.run p h) o s

/-! ### Lemmas -/

theorem upd_same {α : Type} (f : Nat → Option α) (i : Nat) (v : α) : upd f i v i = some v := by simp [upd]

theorem upd_other {α : Type} (f : Nat → Option α) {i j : Nat} (v : α) (h : j ≠ i) : upd f i v j = f j := by simp [upd, h]

theorem adopt_get (m : Nat) (ss : List Nat) (f : Nat → Option SigObj) (s : Nat) :
    adopt m ss f s = (f s).map fun o => if s ∈ ss then { o with parent := some m } else o := by
  induction ss generalizing f with
  | nil => cases h : f s <;> simp [adopt, h]
  | cons t ss ih =>
    simp only [adopt]
    rw [ih]
    by_cases hst : s = t
    · subst hst
      cases h : f s with
      | none => simp [h]
      | some o => simp [upd]
    · cases h : f t with
      | none => simp [hst]
      | some o => simp [upd_other _ _ hst, hst]

theorem run_append (a b : List HeapOp) (h : Heap) : Heap.run (a ++ b) h = Heap.run b (Heap.run a h) := by
  induction a generalizing h with
  | nil => rfl
  | cons o t ih => simp [Heap.run, ih]

/-- Messages stay. -/
theorem step_msg {h : Heap} {o : HeapOp} {m : Nat} (hm : (h.msg m).isSome) : ((h.step o).msg m).isSome := by
  cases o with
  | newMsg m' b l =>
    simp only [Heap.step]
    split
    · by_cases e : m = m'
      · subst e; simp [upd]
      · simpa [upd_other _ _ e] using hm
    · exact hm
  | assign m' l =>
    simp only [Heap.step]
    split
    · by_cases e : m = m'
      · subst e; simp [upd]
      · simpa [upd_other _ _ e] using hm
    · exact hm
  | setMsg m' b =>
    simp only [Heap.step]
    split
    · by_cases e : m = m'
      · subst e; simp [upd]
      · simpa [upd_other _ _ e] using hm
    · exact hm
  | newSig s b => simp only [Heap.step]; split <;> exact hm
  | newList l ss => simp only [Heap.step]; split <;> exact hm
  | setList l ss => simp only [Heap.step]; split <;> exact hm
  | setSig s b => simp only [Heap.step]; split <;> exact hm

/-- A signer stays, and its parent only changes by an assignment that attaches it. -/
theorem step_sig {h : Heap} {o : HeapOp} {s : Nat} {x : SigObj} (hs : h.sig s = some x) (hn : ¬ Spec.Attaches h o s) :
    ∃ y, (h.step o).sig s = some y ∧ y.parent = x.parent := by
  cases o with
  | newMsg m' b l => simp only [Heap.step]; split <;> exact ⟨x, hs, rfl⟩
  | newList l ss => simp only [Heap.step]; split <;> exact ⟨x, hs, rfl⟩
  | setList l ss => simp only [Heap.step]; split <;> exact ⟨x, hs, rfl⟩
  | setMsg m' b => simp only [Heap.step]; split <;> exact ⟨x, hs, rfl⟩
  | newSig s' b =>
    simp only [Heap.step]
    split
    · rename_i e
      have : s ≠ s' := by rintro rfl; rw [e] at hs; cases hs
      exact ⟨x, by simp [upd_other _ _ this, hs], rfl⟩
    · exact ⟨x, hs, rfl⟩
  | setSig s' b =>
    simp only [Heap.step]
    split
    · rename_i y e
      by_cases hss : s = s'
      · subst hss
        rw [hs] at e; cases e
        exact ⟨_, upd_same _ _ _, rfl⟩
      · exact ⟨x, by simp [upd_other _ _ hss, hs], rfl⟩
    · exact ⟨x, hs, rfl⟩
  | assign m' l =>
    simp only [Heap.step]
    split
    · rename_i y ss e1 e2
      refine ⟨x, ?_, rfl⟩
      simp only [adopt_get, hs, Option.map_some, Option.some.injEq]
      rw [if_neg]
      intro hmem
      exact hn ⟨m', l, ss, rfl, by simp [e1], e2, hmem⟩
    · exact ⟨x, hs, rfl⟩

theorem run_sig {post : List HeapOp} {h : Heap} {s : Nat} {x : SigObj} (hs : h.sig s = some x) (hn : Spec.NeverAttached h post s) :
    ∃ y, (Heap.run post h).sig s = some y ∧ y.parent = x.parent := by
  induction post generalizing h x with
  | nil => exact ⟨x, hs, rfl⟩
  | cons o t ih =>
    obtain ⟨y, h1, h2⟩ := step_sig hs (hn [] o t rfl)
    obtain ⟨z, h3, h4⟩ := ih h1 (fun p o' q e => hn (o :: p) o' q (by rw [e]; rfl))
    exact ⟨z, h3, by rw [h4, h2]⟩

theorem run_msg {post : List HeapOp} {h : Heap} {m : Nat} (hm : (h.msg m).isSome) : ((Heap.run post h).msg m).isSome := by
  induction post generalizing h with
  | nil => exact hm
  | cons o t ih => exact ih (step_msg hm)

/-- After an assignment and any later actions that do not attach `s` elsewhere, the parent of `s` is the message. -/
theorem attached {h : Heap} {m l s : Nat} {ss : List Nat} {post : List HeapOp} (hm : (h.msg m).isSome) (hl : h.lst l = some ss)
    (hs : (h.sig s).isSome) (hmem : s ∈ ss) (hn : Spec.NeverAttached (h.step (.assign m l)) post s) :
    ∃ p x, (Heap.run (.assign m l :: post) h).msg m = some p ∧ (Heap.run (.assign m l :: post) h).sig s = some x ∧
      x.parent = some m := by
  obtain ⟨o, ho⟩ := Option.isSome_iff_exists.mp hm
  obtain ⟨x, hx⟩ := Option.isSome_iff_exists.mp hs
  have h1 : (h.step (.assign m l)).sig s = some { x with parent := some m } := by
    simp [Heap.step, ho, hl, adopt_get, hx, hmem]
  obtain ⟨y, h2, h3⟩ := run_sig h1 hn
  obtain ⟨p, hp⟩ := Option.isSome_iff_exists.mp (run_msg (post := post) (step_msg (o := .assign m l) hm))
  exact ⟨p, y, hp, h2, h3⟩

/-! ### C55 -/

/-- C55: a signer signs and verifies over the message it was last assigned to: over the protected header and payload that this message has at
the time of the call, however signer and message were changed since the assignment. -/
theorem c55_last_assignment (C : Crypto) (rnd : Bytes) (detached : Option Bytes) {pre post : List HeapOp} {m l s : Nat} {ss : List Nat}
    (hm : ((Heap.run pre {}).msg m).isSome) (hl : (Heap.run pre {}).lst l = some ss) (hs : ((Heap.run pre {}).sig s).isSome)
    (hmem : s ∈ ss) (hn : Spec.NeverAttached (Heap.run (pre ++ [.assign m l]) {}) post s) :
    ∃ p x, (Heap.run (pre ++ .assign m l :: post) {}).msg m = some p ∧ (Heap.run (pre ++ .assign m l :: post) {}).sig s = some x ∧
      Heap.compute C rnd (Heap.run (pre ++ .assign m l :: post) {}) s detached = signerCompute C rnd p.base x.base detached ∧
      Heap.verify C (Heap.run (pre ++ .assign m l :: post) {}) s detached = signerVerify C p.base x.base detached := by
  rw [run_append] at hn ⊢
  obtain ⟨p, x, h1, h2, h3⟩ := attached hm hl hs hmem hn
  refine ⟨p, x, h1, h2, ?_, ?_⟩
  · simp only [Heap.compute, h2, Heap.sigStructure, h3, h1, signerCompute]
  · simp only [Heap.verify, h2, Heap.sigStructure, h3, h1, signerVerify]

/-- C55: what is signed covers exactly the protected header and payload of that message (RFC 8152 section 4.4). -/
theorem c55_covers (C : Crypto) (rnd : Bytes) (detached : Option Bytes) {pre post : List HeapOp} {m l s : Nat} {ss : List Nat} {sg : Bytes}
    (hm : ((Heap.run pre {}).msg m).isSome) (hl : (Heap.run pre {}).lst l = some ss) (hs : ((Heap.run pre {}).sig s).isSome)
    (hmem : s ∈ ss) (hn : Spec.NeverAttached (Heap.run (pre ++ [.assign m l]) {}) post s)
    (hc : Heap.compute C rnd (Heap.run (pre ++ .assign m l :: post) {}) s detached = .ok sg) :
    ∃ p x pe pl tbs f k, (Heap.run (pre ++ .assign m l :: post) {}).msg m = some p ∧
      (Heap.run (pre ++ .assign m l :: post) {}).sig s = some x ∧ p.base.phdrEncoded = .ok pe ∧
      choosePayload p.base.payload detached = .ok pl ∧
      (x.base.phdr = [] ∧ dumpsPlain (.arr [.text b!"Signature", .bytes pe, .bytes x.base.aad, .bytes pl]) = .ok tbs ∨
        ∃ xe, x.base.phdrEncoded = .ok xe ∧
          dumpsPlain (.arr [.text b!"Signature", .bytes pe, .bytes xe, .bytes x.base.aad, .bytes pl]) = .ok tbs) ∧
      callSign C rnd f k tbs = .ok sg := by
  obtain ⟨p, x, h1, h2, h3, _⟩ := c55_last_assignment C rnd detached hm hl hs hmem hn
  rw [h3] at hc
  simp only [signerCompute, computeSignature, bind_eq_ok] at hc
  obtain ⟨alg, _, k, _, f, _, tbs, ht, hc⟩ := hc
  simp only [signerStructure, bind_eq_ok] at ht
  obtain ⟨pe, hpe, ht⟩ := ht
  split at ht
  · simp only [bind_eq_ok, Except.ok.injEq] at ht
    obtain ⟨xe, hxe, own, hown, pl, hpl, ht⟩ := ht
    subst hown
    exact ⟨p, x, pe, pl, tbs, f, k, h1, h2, hpe, hpl, .inr ⟨xe, hxe, by simpa using ht⟩, hc⟩
  · rename_i hlen
    simp only [ok_bind, bind_eq_ok] at ht
    obtain ⟨pl, hpl, ht⟩ := ht
    exact ⟨p, x, pe, pl, tbs, f, k, h1, h2, hpe, hpl, .inl ⟨by simpa using hlen, by simpa using ht⟩, hc⟩

/-- C55: a signer that was never part of an assignment neither signs nor verifies anything, in particular one that was put into the list
afterwards with `msg.signers.append(s)`: no cryptographic operation is reached. -/
theorem c55_unattached {pre post : List HeapOp} {b : Base} {s : Nat} (hs : (Heap.run pre {}).sig s = none)
    (hn : Spec.NeverAttached (Heap.run (pre ++ [.newSig s b]) {}) post s) (detached : Option Bytes) :
    ∃ e e', ∀ (C : Crypto) (rnd : Bytes), Heap.compute C rnd (Heap.run (pre ++ .newSig s b :: post) {}) s detached = .error e ∧
      Heap.verify C (Heap.run (pre ++ .newSig s b :: post) {}) s detached = .error e' := by
  rw [run_append] at hn ⊢
  have h1 : ((Heap.run pre {}).step (.newSig s b)).sig s = some ⟨b, none⟩ := by simp [Heap.step, hs, upd]
  obtain ⟨y, h2, h3⟩ := run_sig h1 hn
  have h2' : (Heap.run (.newSig s b :: post) (Heap.run pre {})).sig s = some y := h2
  have h4 : ∀ d, Heap.sigStructure (Heap.run (.newSig s b :: post) (Heap.run pre {})) y d = .error .attributeError := by
    intro d; simp [Heap.sigStructure, h3]
  simp only [Heap.compute, Heap.verify, h2', h4, computeSignature, verifySignature]
  cases ha : y.base.getAttr Hdr.Algorithm with
  | error e => exact ⟨e, e, fun _ _ => ⟨rfl, rfl⟩⟩
  | ok alg =>
    simp only [ok_bind]
    have lift : ∀ op, ∃ e, ∀ (α : Type) (g : Key → AlgFam → Bytes → Res α), (do
        let k ← keyVerification y.base alg op
        let f ← signMethod alg
        let data ← (Except.error PyErr.attributeError : Res Bytes)
        g k f data) = .error e := by
      intro op
      cases keyVerification y.base alg op with
      | error e => exact ⟨e, fun _ _ => rfl⟩
      | ok k =>
        cases signMethod alg with
        | error e => exact ⟨e, fun _ _ => rfl⟩
        | ok f => exact ⟨_, fun _ _ => rfl⟩
    obtain ⟨e, he⟩ := lift Op.Sign
    obtain ⟨e', he'⟩ := lift Op.Verify
    exact ⟨e, e', fun C rnd => ⟨he _ _, he' _ _⟩⟩

theorem sigsEncode_eq (C : Crypto) (rnd : Nat → Bytes) {h : Heap} {m : Nat} {p : MsgObj} (detached : Option Bytes) (hm : h.msg m = some p) :
    ∀ (i : Nat) (ss : List Nat) (bs : List Base), All2 (fun s b => ∃ x, h.sig s = some x ∧ x.parent = some m ∧ x.base = b) ss bs →
      h.sigsEncode C rnd detached i ss = signersEncode C rnd p.base detached i bs := by
  intro i ss bs ha
  induction ha generalizing i with
  | nil => rfl
  | cons hx _ ih =>
    obtain ⟨x, h1, h2, rfl⟩ := hx
    simp only [Heap.sigsEncode, signersEncode]
    rw [ih]
    congr 1
    simp only [Heap.sigEncode, signerEncode, signerCompute, Heap.compute, h1, Heap.sigStructure, h2, hm]

theorem step_lst {h : Heap} {o : HeapOp} {l : Nat} {ss : List Nat} (hl : h.lst l = some ss) (hn : ∀ ss', o ≠ .setList l ss') :
    (h.step o).lst l = some ss := by
  cases o with
  | newMsg m' b l' =>
    simp only [Heap.step]
    split
    · rename_i e1 e2
      have : l ≠ l' := by rintro rfl; rw [e2] at hl; cases hl
      simp [upd_other _ _ this, hl]
    · exact hl
  | newList l' ss' =>
    simp only [Heap.step]
    split
    · rename_i e2
      have : l ≠ l' := by rintro rfl; rw [e2] at hl; cases hl
      simp [upd_other _ _ this, hl]
    · exact hl
  | setList l' ss' =>
    simp only [Heap.step]
    split
    · exact hl
    · have : l ≠ l' := by rintro rfl; exact hn ss' rfl
      simp [upd_other _ _ this, hl]
  | assign m' l' => simp only [Heap.step]; split <;> exact hl
  | setMsg m' b => simp only [Heap.step]; split <;> exact hl
  | newSig s b => simp only [Heap.step]; split <;> exact hl
  | setSig s b => simp only [Heap.step]; split <;> exact hl

theorem run_lst {post : List HeapOp} {h : Heap} {l : Nat} {ss : List Nat} (hl : h.lst l = some ss)
    (hn : ∀ ss', HeapOp.setList l ss' ∉ post) : (Heap.run post h).lst l = some ss := by
  induction post generalizing h with
  | nil => exact hl
  | cons o t ih =>
    exact ih (step_lst hl (fun ss' e => hn ss' (by simp [e]))) (fun ss' hm => hn ss' (by simp [hm]))

theorem step_msgSigners {h : Heap} {o : HeapOp} {m : Nat} {p : MsgObj} (hm : h.msg m = some p) (hn : ∀ l, o ≠ .assign m l) :
    ∃ q, (h.step o).msg m = some q ∧ q.signers = p.signers := by
  cases o with
  | newMsg m' b l' =>
    simp only [Heap.step]
    split
    · rename_i e1 e2
      have : m ≠ m' := by rintro rfl; rw [e1] at hm; cases hm
      exact ⟨p, by simp [upd_other _ _ this, hm], rfl⟩
    · exact ⟨p, hm, rfl⟩
  | setMsg m' b =>
    simp only [Heap.step]
    split
    · rename_i q e
      by_cases hmm : m = m'
      · subst hmm
        rw [hm] at e; cases e
        exact ⟨_, upd_same _ _ _, rfl⟩
      · exact ⟨p, by simp [upd_other _ _ hmm, hm], rfl⟩
    · exact ⟨p, hm, rfl⟩
  | assign m' l' =>
    simp only [Heap.step]
    split
    · have : m ≠ m' := by rintro rfl; exact hn l' rfl
      exact ⟨p, by simp [upd_other _ _ this, hm], rfl⟩
    · exact ⟨p, hm, rfl⟩
  | newList l' ss' => simp only [Heap.step]; split <;> exact ⟨p, hm, rfl⟩
  | setList l' ss' => simp only [Heap.step]; split <;> exact ⟨p, hm, rfl⟩
  | newSig s b => simp only [Heap.step]; split <;> exact ⟨p, hm, rfl⟩
  | setSig s b => simp only [Heap.step]; split <;> exact ⟨p, hm, rfl⟩

theorem run_msgSigners {post : List HeapOp} {h : Heap} {m : Nat} {p : MsgObj} (hm : h.msg m = some p)
    (hn : ∀ l, HeapOp.assign m l ∉ post) : ∃ q, (Heap.run post h).msg m = some q ∧ q.signers = p.signers := by
  induction post generalizing h p with
  | nil => exact ⟨p, hm, rfl⟩
  | cons o t ih =>
    obtain ⟨q, h1, h2⟩ := step_msgSigners hm (o := o) (fun l e => hn l (by simp [e]))
    obtain ⟨r, h3, h4⟩ := ih h1 (fun l hm => hn l (by simp [hm]))
    exact ⟨r, h3, by rw [h4, h2]⟩

theorem all2_of_forall {α β : Type} {R : α → β → Prop} {l : List α} (h : ∀ a ∈ l, ∃ b, R a b) : ∃ bs, All2 R l bs := by
  induction l with
  | nil => exact ⟨[], .nil⟩
  | cons a t ih =>
    obtain ⟨b, hb⟩ := h a (by simp)
    obtain ⟨bs, hbs⟩ := ih (fun x hx => h x (by simp [hx]))
    exact ⟨b :: bs, .cons hb hbs⟩

/-- C55: as long as neither the list nor its signers are given to another message, encoding the message object is encoding the message value
that contains the signers as they are now; so everything proved about `SignMsg.encode` (C07, C57, …) holds of the objects. -/
theorem c55_encode (C : Crypto) (rnd : Nat → Bytes) (tag : Bool) (detached : Option Bytes) {pre post : List HeapOp} {m l : Nat} {ss : List Nat}
    (hm : ((Heap.run pre {}).msg m).isSome) (hl : (Heap.run pre {}).lst l = some ss) (hs : ∀ s ∈ ss, ((Heap.run pre {}).sig s).isSome)
    (hn : ∀ s ∈ ss, Spec.NeverAttached (Heap.run (pre ++ [.assign m l]) {}) post s)
    (hnl : ∀ ss', HeapOp.setList l ss' ∉ post) (hnm : ∀ l', HeapOp.assign m l' ∉ post) :
    ∃ p bs, (Heap.run (pre ++ .assign m l :: post) {}).msg m = some p ∧
      All2 (fun s b => ∃ x, (Heap.run (pre ++ .assign m l :: post) {}).sig s = some x ∧ x.base = b) ss bs ∧
      Heap.encode C rnd (Heap.run (pre ++ .assign m l :: post) {}) m tag detached =
        SignMsg.encode C rnd { base := p.base, signers := bs } tag detached := by
  rw [run_append] at hn ⊢
  obtain ⟨o, ho⟩ := Option.isSome_iff_exists.mp hm
  have hstep : ((Heap.run pre {}).step (.assign m l)).msg m = some { o with signers := l } := by
    simp [Heap.step, ho, hl, upd]
  obtain ⟨p, hp, hps⟩ := run_msgSigners hstep hnm
  have hlst := run_lst (post := post) (step_lst (o := .assign m l) hl (by simp)) hnl
  have hall : ∀ s ∈ ss, ∃ b, (fun s b => ∃ x, (Heap.run (.assign m l :: post) (Heap.run pre {})).sig s = some x ∧ x.parent = some m ∧ x.base = b) s b := by
    intro s hmem
    obtain ⟨_, x, _, h2, h3⟩ := attached hm hl (hs s hmem) hmem (hn s hmem)
    exact ⟨x.base, x, h2, h3, rfl⟩
  obtain ⟨bs, hbs⟩ := all2_of_forall hall
  have hlen : ss.length = bs.length := hbs.length
  refine ⟨p, bs, hp, hbs.imp (fun s b ⟨x, h1, _, h3⟩ => ⟨x, h1, h3⟩), ?_⟩
  · have hp' : (Heap.run (.assign m l :: post) (Heap.run pre {})).msg m = some p := hp
    have hl' : (Heap.run (.assign m l :: post) (Heap.run pre {})).lst p.signers = some ss := by rw [hps]; exact hlst
    simp only [Heap.encode, hp', SignMsg.encode, hl', Option.getD_some, hlen, sigsEncode_eq C rnd detached hp' 0 ss bs hbs]

namespace Sample

def msgHello : Base := { phdr := [(.cls Hdr.ContentType, .int 5)], payload := some b!"hello" }
def msgOther : Base := { phdr := [(.cls Hdr.ContentType, .int 5)], payload := some b!"other" }
def sigEs256 : Base := { baseWith (-7) ecKey (some []) with uhdr := [] }

/-- Two messages, one signer, one list. -/
def shareBase : List HeapOp := [.newMsg 0 msgHello 100, .newMsg 1 msgOther 101, .newSig 0 sigEs256, .newList 10 [0]]

/-- What a receiver finds: the verdict for the first signer of an encoded message. -/
def firstVerdict (r : Res Bytes) : Res Bool := do
  let w ← r
  let m ← decode toy .any false w
  match m with
  | .sign { base := p, signers := s :: _ } => signerVerify toy p (s.withKeyAad ecPubKey b!"aad") none
  | _ => .error .typeError

/-- The hypotheses of `c55_last_assignment` and `c55_encode`: the message is changed after the assignment, the change is covered. -/
example : ((Heap.run shareBase {}).msg 0).isSome ∧ (Heap.run shareBase {}).lst 10 = some [0] ∧ ((Heap.run shareBase {}).sig 0).isSome ∧
    (∀ s ∈ [0], Spec.NeverAttached (Heap.run (shareBase ++ [.assign 0 10]) {}) [.setMsg 0 msgOther] s) ∧
    firstVerdict (Heap.encode toy (fun _ => []) (Heap.run (shareBase ++ .assign 0 10 :: [.setMsg 0 msgOther]) {}) 0 true none) = .ok true := by
  refine ⟨by decide, by decide, by decide, ?_, by decide +kernel⟩
  rintro s _ p o q e ⟨m, l, ss, rfl, _⟩
  match p, e with
  | [], e => simp at e
  | _ :: _ :: _, e => simp at e

end Sample

open Sample in
/-- C55, what sharing does: after `a.signers = l; b.signers = l` the list is that of both messages, but encoding `a` gives a message whose
signature does not verify, because it was made over `b`; before the second assignment it did. -/
theorem c55_shared_list :
    firstVerdict (Heap.encode toy (fun _ => []) (Heap.run (shareBase ++ [.assign 0 10]) {}) 0 true none) = .ok true ∧
    ((Heap.run (shareBase ++ [.assign 0 10, .assign 1 10]) {}).msg 0).map (·.signers) = some 10 ∧
    firstVerdict (Heap.encode toy (fun _ => []) (Heap.run (shareBase ++ [.assign 0 10, .assign 1 10]) {}) 0 true none) = .ok false ∧
    firstVerdict (Heap.encode toy (fun _ => []) (Heap.run (shareBase ++ [.assign 0 10, .assign 1 10]) {}) 1 true none) = .ok true := by
  decide +kernel

open Sample in
/-- C55: a signer appended to the list of a message in place is not attached; encoding the message raises `AttributeError`. -/
theorem c55_appended_signer :
    Heap.encode toy (fun _ => []) (Heap.run (shareBase ++ [.assign 0 10, .newSig 1 sigEs256, .setList 10 [0, 1]]) {}) 0 true none =
      .error .attributeError := by
  decide +kernel

end Cose
