import Verif.ThreadEnc
import Verif.ThreadMix
import Verif.Props.Usage2
import Verif.Props.Reuse
import Verif.Props.Raise
/-!
# C99: calls on one message object from several threads

`Spec.*Call` are the calls a thread may make; `thread` is the sequence of steps it executes, `result` what the call returns or raises when
nothing else happens (the model of the other properties).  An execution is any list of thread numbers.
-/
set_option autoImplicit false

namespace Cose
open Thr

/-- After the execution `sched` of the given threads on the object `m`, thread number `i` has returned or raised `r`. -/
def Spec.Returns {σ : Type} (m : σ) (threads : List (Thr σ Val)) (sched : List Nat) (i : Nat) (r : Res Val) : Prop :=
  (exec sched (m, threads)).2[i]? = some (.done r)

/-- The object after the execution. -/
def Spec.After {σ : Type} (m : σ) (threads : List (Thr σ Val)) (sched : List Nat) : σ := (exec sched (m, threads)).1

/-- Every thread finishes if it gets enough turns, whatever has been executed before. -/
theorem c99_finishes {σ : Type} (m : σ) (threads : List (Thr σ Val)) (sched : List Nat) :
    ∃ more, ∀ i, i < threads.length → ∃ r, Spec.Returns m threads (sched ++ more) i r := by
  obtain ⟨more, h⟩ := all_finish (exec sched (m, threads))
  refine ⟨more, fun i hi => ?_⟩
  obtain ⟨r, hr⟩ := h i (by rw [exec_length]; exact hi)
  exact ⟨r, by unfold Spec.Returns; rw [exec_append]; exact hr⟩

/-! ### Messages that the calls do not change -/

theorem readers {σ : Type} (m : σ) (ts : List (Thr σ Val)) (h : ∀ t ∈ ts, Sees (id : σ → σ) t) (sched : List Nat) :
    Spec.After m ts sched = m ∧ ∀ i r, Spec.Returns m ts sched i r → ∃ t, ts[i]? = some t ∧ r = (t.alone m).1 := by
  have hs : SafeAll (fun s s' => s = s') (fun i r => ∃ t, ts[i]? = some t ∧ r = (t.alone m).1) (m, ts) := by
    intro i t ht
    refine ⟨fun s => s = m, fun s s' hs hg => by rw [← hg]; exact hs, rfl, ?_⟩
    exact safe_sees_end (h t (List.mem_of_getElem? ht)) (fun _ _ => rfl) (fun s s' hs hg => by rw [← hg]; exact hs)
      (fun s hs => by rw [hs]) ⟨t, ht, rfl⟩
  obtain ⟨h1, h2⟩ := safeAll_exec sched hs
  exact ⟨h2 (fun s => s = m) (fun s s' hs hg => by rw [← hg]; exact hs) rfl, h1⟩

/-- The calls on a COSE_Sign1 message. -/
inductive Spec.Sign1Call where
  | sign (rnd : Bytes) (detached : Option Bytes)
  | verify (detached : Option Bytes)
  | encode (rnd : Bytes) (tag sign : Bool) (detached : Option Bytes)

def Spec.Sign1Call.thread (C : Crypto) : Spec.Sign1Call → Thr Sign1 Val
  | .sign rnd d => Sign1.computeSignatureT C rnd d
  | .verify d => Sign1.verifySignatureT C d
  | .encode rnd tag sg d => Sign1.encodeT C rnd tag sg d

def Spec.Sign1Call.result (C : Crypto) (m : Sign1) : Spec.Sign1Call → Res Val
  | .sign rnd d => (m.computeSignature C rnd d).map .bytes
  | .verify d => (m.verifySignature C d).map .bool
  | .encode rnd tag sg d => (m.encode C rnd tag sg d).map .bytes

theorem map_eq_bind {α : Type} (x : Res α) (f : α → Val) : (x >>= fun b => .ok (f b)) = x.map f := by cases x <;> rfl

/-- Any number of threads may sign, verify and encode one COSE_Sign1 message at the same time: the message stays as it is, and every call
returns or raises what it does alone. -/
theorem c99_sign1 (C : Crypto) (m : Sign1) (calls : List Spec.Sign1Call) (sched : List Nat) :
    Spec.After m (calls.map (·.thread C)) sched = m ∧
    ∀ i r, Spec.Returns m (calls.map (·.thread C)) sched i r → ∃ call, calls[i]? = some call ∧ r = call.result C m := by
  have hs : ∀ t ∈ calls.map (·.thread C), Sees (id : Sign1 → Sign1) t := by
    intro t ht
    obtain ⟨call, _, rfl⟩ := List.mem_map.1 ht
    cases call with
    | sign rnd d => exact sees_sign1_compute C rnd d
    | verify d => exact sees_sign1_verify C d
    | encode rnd tag sign d => exact sees_sign1_encode C rnd tag sign d
  obtain ⟨h1, h2⟩ := readers m _ hs sched
  refine ⟨h1, fun i r hr => ?_⟩
  obtain ⟨t, ht, rfl⟩ := h2 i r hr
  rw [List.getElem?_map] at ht
  cases hc : calls[i]? with
  | none => rw [hc] at ht; cases ht
  | some call =>
    rw [hc] at ht; cases ht
    refine ⟨call, rfl, ?_⟩
    cases call with
    | sign rnd d => simp only [Spec.Sign1Call.thread, Sign1.computeSignatureT_alone, Spec.Sign1Call.result, map_eq_bind]
    | verify d => simp only [Spec.Sign1Call.thread, Sign1.verifySignatureT_alone, Spec.Sign1Call.result, map_eq_bind]
    | encode rnd tag sign d => simp only [Spec.Sign1Call.thread, Sign1.encodeT_alone, Spec.Sign1Call.result, map_eq_bind]

/-- The calls on a COSE_Sign message: verification by signer number `i`, and encoding. -/
inductive Spec.SignMsgCall where
  | verify (i : Nat) (detached : Option Bytes)
  | encode (rnd : Nat → Bytes) (tag : Bool) (detached : Option Bytes)

def Spec.SignMsgCall.thread (C : Crypto) : Spec.SignMsgCall → Thr SignMsg Val
  | .verify i d => SignMsg.verifyT C i d
  | .encode rnd tag d => SignMsg.encodeT C rnd tag d

/-- `none` if there is no such signer. -/
def Spec.SignMsgCall.result (C : Crypto) (m : SignMsg) : Spec.SignMsgCall → Option (Res Val)
  | .verify i d => m.signers[i]?.map fun s => (signerVerify C m.base s d).map .bool
  | .encode rnd tag d => some ((m.encode C rnd tag d).map .bytes)

/-- The same for COSE_Sign messages. -/
theorem c99_sign (C : Crypto) (m : SignMsg) (calls : List Spec.SignMsgCall) (sched : List Nat) :
    Spec.After m (calls.map (·.thread C)) sched = m ∧
    ∀ i r, Spec.Returns m (calls.map (·.thread C)) sched i r →
      ∃ call, calls[i]? = some call ∧ ∀ x, call.result C m = some x → r = x := by
  have hs : ∀ t ∈ calls.map (·.thread C), Sees (id : SignMsg → SignMsg) t := by
    intro t ht
    obtain ⟨call, _, rfl⟩ := List.mem_map.1 ht
    cases call with
    | verify i d => exact sees_sign_verify C i d
    | encode rnd tag d => exact sees_sign_encode C rnd tag d
  obtain ⟨h1, h2⟩ := readers m _ hs sched
  refine ⟨h1, fun i r hr => ?_⟩
  obtain ⟨t, ht, rfl⟩ := h2 i r hr
  rw [List.getElem?_map] at ht
  cases hc : calls[i]? with
  | none => rw [hc] at ht; cases ht
  | some call =>
    rw [hc] at ht; cases ht
    refine ⟨call, rfl, ?_⟩
    cases call with
    | verify i d =>
      intro x hx
      cases hsg : m.signers[i]? with
      | none => simp [Spec.SignMsgCall.result, hsg] at hx
      | some s =>
        simp only [Spec.SignMsgCall.result, hsg, Option.map_some, Option.some.injEq] at hx
        simp only [Spec.SignMsgCall.thread, SignMsg.verifyT_alone C i d m s hsg, map_eq_bind, hx]
    | encode rnd tag d =>
      intro x hx
      simp only [Spec.SignMsgCall.result, Option.some.injEq] at hx
      simp only [Spec.SignMsgCall.thread, SignMsg.encodeT_alone, map_eq_bind, hx]

/-- The calls on a COSE_Encrypt0 message. -/
inductive Spec.Enc0Call where
  | encrypt
  | decrypt
  | encode (tag encrypt : Bool)

def Spec.Enc0Call.thread (C : Crypto) : Spec.Enc0Call → Thr Enc0 Val
  | .encrypt => Enc0.encryptT C
  | .decrypt => Enc0.decryptT C
  | .encode tag enc => Enc0.encodeT C tag enc

def Spec.Enc0Call.result (C : Crypto) (m : Enc0) : Spec.Enc0Call → Res Val
  | .encrypt => (m.encrypt C).map .bytes
  | .decrypt => (m.decrypt C).map .bytes
  | .encode tag enc => (m.encode C tag enc).map .bytes

/-- The same for COSE_Encrypt0 messages. -/
theorem c99_enc0 (C : Crypto) (m : Enc0) (calls : List Spec.Enc0Call) (sched : List Nat) :
    Spec.After m (calls.map (·.thread C)) sched = m ∧
    ∀ i r, Spec.Returns m (calls.map (·.thread C)) sched i r → ∃ call, calls[i]? = some call ∧ r = call.result C m := by
  have hb : ∀ s s' : Enc0, id s = id s' → s.base = s'.base := fun _ _ h => congrArg Enc0.base h
  have hs : ∀ t ∈ calls.map (·.thread C), Sees (id : Enc0 → Enc0) t := by
    intro t ht
    obtain ⟨call, _, rfl⟩ := List.mem_map.1 ht
    cases call with
    | encrypt => exact sees_encEncryptT hb C _
    | decrypt => exact sees_encDecryptT hb C _
    | encode tag enc => exact sees_enc0_encode C tag enc
  obtain ⟨h1, h2⟩ := readers m _ hs sched
  refine ⟨h1, fun i r hr => ?_⟩
  obtain ⟨t, ht, rfl⟩ := h2 i r hr
  rw [List.getElem?_map] at ht
  cases hc : calls[i]? with
  | none => rw [hc] at ht; cases ht
  | some call =>
    rw [hc] at ht; cases ht
    refine ⟨call, rfl, ?_⟩
    cases call with
    | encrypt => simp only [Spec.Enc0Call.thread, Enc0.encryptT_alone, Spec.Enc0Call.result, map_eq_bind]
    | decrypt => simp only [Spec.Enc0Call.thread, Enc0.decryptT_alone, Spec.Enc0Call.result, map_eq_bind]
    | encode tag enc => simp only [Spec.Enc0Call.thread, Enc0.encodeT_alone, Spec.Enc0Call.result, map_eq_bind]

/-! ### MACs: the calls assign the tag to the message -/

section
variable {σ β : Type} {G : σ → σ → Prop} {K : σ → Prop} {g : σ → Base} {tag : σ → Val} {setTag : Val → σ → σ}

theorem safeAt_macComputeT {C : Crypto} {ctx : Bytes} {m : σ} {f : Val → Thr σ β} (hG : ∀ s, K s → G s s) (hK : Stable G K)
    (hb : ∀ s, K s → g s = g m) (hset : ∀ v s, tag (setTag v s) = v)
    (hw : ∀ t s, macCompute C ctx (g m) = .ok t → K s → G s (setTag (.bytes t) s) ∧ K (setTag (.bytes t) s))
    (hst : ∀ t, macCompute C ctx (g m) = .ok t → Stable G fun s => K s ∧ tag s = .bytes t)
    (h : ∀ t, macCompute C ctx (g m) = .ok t → SafeAt G (fun s => K s ∧ tag s = .bytes t) (setTag (.bytes t) m) (f (.bytes t))) :
    SafeAt G K m (macComputeT g C ctx tag setTag >>= f) := by
  have hg : ∀ s s' : σ, g s = g s' → g s = g s' := fun _ _ h => h
  have hk : Sees g (attr fun s => (g s).key) := sees_base hg Base.key
  have hmac : ∀ alg k a data t, (g m).getAttr Hdr.Algorithm = .ok alg → (g m).key = some k → verifyKey .sym alg Op.MacCreate (some k) = .ok a →
      ∀ fam, macMethod alg = .ok fam → macStructure ctx (g m) = .ok data → callTag C fam k data = .ok t →
      macCompute C ctx (g m) = .ok t := by
    intro alg k a data t h1 h2 h3 fam h4 h5 h6
    simp only [verifyKey] at h3
    simp only [macCompute, h1, h2, h3, h4, h5, bind, Except.bind, h6]
  simp only [macComputeT, bind_assoc', ite_bind]
  refine safeAt_sees hG hK hb (sees_getAttrT' hg _) fun alg halg => ?_
  rw [getAttrT_alone] at halg
  refine safeAt_sees hG hK hb hk fun k hk1 => safeAt_ite (fun _ => rfl) fun hne => ?_
  cases hk1
  cases hkey : (g m).key with
  | none => exact absurd hkey hne
  | some key =>
    refine safeAt_sees hG hK hb hk fun k hk1 => safeAt_expr fun a ha => safeAt_expr fun fam hfam => ?_
    cases hk1
    refine safeAt_sees hG hK hb hk fun k hk1 => ?_
    cases hk1
    refine safeAt_sees hG hK hb (sees_macStructureT hg ctx) fun data hd => safeAt_expr fun t ht => ?_
    rw [macStructureT_alone] at hd
    simp only [hkey] at ha ht
    have htag := hmac alg key a data t halg hkey ha fam hfam hd ht
    refine safeAt_assign (K' := fun s => K s ∧ tag s = .bytes t) (fun s hs => ⟨(hw t s htag hs).1, (hw t s htag hs).2, hset _ _⟩)
      (hst t htag) ?_
    refine safeAt_attr (fun s hs => hG s hs.1) (hst t htag) (fun s hs => by rw [hs.2, hset]) ?_
    rw [hset]
    exact h t htag
end

/-- The calls on a COSE_Mac0 message. -/
inductive Spec.Mac0Call where
  | compute
  | verify
  | encode (tag mac : Bool)

def Spec.Mac0Call.thread (C : Crypto) : Spec.Mac0Call → Thr Mac0 Val
  | .compute => Mac0.computeTagT C
  | .verify => Mac0.verifyTagT C
  | .encode tag mac => Mac0.encodeT C tag mac

def Spec.Mac0Call.result (C : Crypto) (m : Mac0) : Spec.Mac0Call → Res Val
  | .compute => (m.computeTag C).map .bytes
  | .verify => (m.verifyTag C).map .bool
  | .encode tag mac => (m.encode C tag mac).map fun x => .bytes x.1

/-- `m'` is the message `m`, possibly with the tag that `compute_tag` gives. -/
def Spec.TagSet (C : Crypto) (m m' : Mac0) : Prop := m' = m ∨ ∃ t, m.computeTag C = .ok t ∧ m' = { m with authTag := .bytes t }

theorem mac0_safe (C : Crypto) (m : Mac0) (call : Spec.Mac0Call) :
    Safe (fun s s' : Mac0 => s' = s ∨ ∃ t, m.computeTag C = .ok t ∧ s' = { s with authTag := .bytes t })
      (fun r => ∃ m', Spec.TagSet C m m' ∧ r = (call.thread C |>.alone m').1) (call.thread C) (Spec.TagSet C m) := by
  have hG : ∀ s, Spec.TagSet C m s → (fun s s' : Mac0 => s' = s ∨ ∃ t, m.computeTag C = .ok t ∧ s' = { s with authTag := .bytes t }) s s :=
    fun _ _ => .inl rfl
  have hset : ∀ s t, Spec.TagSet C m s → m.computeTag C = .ok t → { s with authTag := .bytes t } = { m with authTag := .bytes t } := by
    intro s t hs ht
    rcases hs with rfl | ⟨t', _, rfl⟩ <;> rfl
  have hK : Stable (fun s s' : Mac0 => s' = s ∨ ∃ t, m.computeTag C = .ok t ∧ s' = { s with authTag := .bytes t }) (Spec.TagSet C m) := by
    intro s s' hs hg
    rcases hg with rfl | ⟨t, ht, rfl⟩
    · exact hs
    · exact .inr ⟨t, ht, hset s t hs ht⟩
  have hm : Spec.TagSet C m m := .inl rfl
  have hb : ∀ s, Spec.TagSet C m s → s.base = m.base := by
    rintro s (rfl | ⟨t, _, rfl⟩) <;> rfl
  have hid : ∀ s s' : Mac0, s.base = s'.base → s.base = s'.base := fun _ _ h => h
  have hcomp : ∀ {β : Type} (f : Val → Thr Mac0 β), (∀ t, m.computeTag C = .ok t → ∀ K, (∀ s, K s → Spec.TagSet C m s) →
      Stable (fun s s' : Mac0 => s' = s ∨ ∃ t, m.computeTag C = .ok t ∧ s' = { s with authTag := .bytes t }) K →
      SafeAt (fun s s' : Mac0 => s' = s ∨ ∃ t, m.computeTag C = .ok t ∧ s' = { s with authTag := .bytes t }) K
        { m with authTag := .bytes t } (f (.bytes t))) →
      SafeAt (fun s s' : Mac0 => s' = s ∨ ∃ t, m.computeTag C = .ok t ∧ s' = { s with authTag := .bytes t }) (Spec.TagSet C m) m
        (Mac0.computeTagT C >>= f) := by
    intro β f hf
    refine safeAt_macComputeT hG hK hb (fun _ _ => rfl) (fun t s ht hs => ⟨.inr ⟨t, ht, rfl⟩, hK _ _ hs (.inr ⟨t, ht, rfl⟩)⟩) ?_ ?_
    · intro t ht s s' hs hg
      refine ⟨hK _ _ hs.1 hg, ?_⟩
      rcases hg with rfl | ⟨t', ht', rfl⟩
      · exact hs.2
      · have : m.computeTag C = .ok t := ht
        rw [this] at ht'; cases ht'; rfl
    · intro t ht
      refine hf t ht _ (fun s hs => hs.1) ?_
      intro s s' hs hg
      refine ⟨hK _ _ hs.1 hg, ?_⟩
      rcases hg with rfl | ⟨t', ht', rfl⟩
      · exact hs.2
      · have : m.computeTag C = .ok t := ht
        rw [this] at ht'; cases ht'; rfl
  have weaken : ∀ {t : Thr Mac0 Val}, SafeAt (fun s s' : Mac0 => s' = s ∨ ∃ t, m.computeTag C = .ok t ∧ s' = { s with authTag := .bytes t })
      (Spec.TagSet C m) m t → Safe (fun s s' : Mac0 => s' = s ∨ ∃ t, m.computeTag C = .ok t ∧ s' = { s with authTag := .bytes t })
      (fun r => ∃ m', Spec.TagSet C m m' ∧ r = (t.alone m').1) t (Spec.TagSet C m) := by
    intro t ht
    exact safe_weaken (fun r hr => ⟨m, hm, hr⟩) ht
  cases call with
  | compute =>
    refine weaken ?_
    rw [← bind_pure' (Spec.Mac0Call.thread C .compute)]
    exact hcomp _ fun t _ K _ _ => rfl
  | verify =>
    show SafeSome _ _ (macVerifyT Mac0.base C b!"MAC0" Mac0.authTag)
    have hk : Sees Mac0.base (attr fun s => (Mac0.base s).key) := sees_base hid Base.key
    refine safeSome_sees hm hG hK hb (sees_getAttrT' hid _) fun alg _ => ?_
    refine safeSome_sees hm hG hK hb hk fun _ _ => safeSome_ite (fun _ => ⟨m, hm, rfl⟩) fun _ => ?_
    refine safeSome_sees hm hG hK hb hk fun _ _ => ?_
    refine safeSome_sees hm hG hK hb (sees_expr _) fun _ _ => ?_
    refine safeSome_sees hm hG hK hb (sees_expr _) fun _ _ => ?_
    refine safeSome_sees hm hG hK hb hk fun _ _ => ?_
    refine safeSome_attr (v := Mac0.base) hG hK (fun x => ?_) fun s s' hs hs' => by rw [hb s hs, hb s' hs']
    exact sees_bind (sees_macStructureT hid _) fun _ => sees_bind (sees_expr _) fun _ => sees_pure _
  | encode tag mac =>
    refine weaken ?_
    show SafeAt _ _ _ (Mac0.encodeT C tag mac)
    refine safeAt_sees hG hK hb (sees_phdrEncodedT' hid) fun pe _ => ?_
    refine safeAt_sees hG hK hb (sees_base hid Base.uhdr) fun uh _ => ?_
    refine safeAt_sees hG hK hb (sees_base hid Base.payload) fun p _ => safeAt_ite (fun _ => ?_) fun _ => ?_
    · refine hcomp _ fun t ht K hKt hKs => ?_
      exact safeAt_sees_end (fun s _ => .inl rfl) hKs (fun s hs => hb s (hKt s hs)) (sees_finishT' hid _ _ _)
    · exact safeAt_sees_end hG hK hb (sees_finishT' hid _ _ _)

/-- Any number of threads may compute, encode and verify one COSE_Mac0 message at the same time.  Every call returns or raises what it does
alone, except that `verify_tag`, which reads the tag of the message, may find the tag that another call has just computed.  The message
stays as it is, but for this tag. -/
theorem c99_mac0 (C : Crypto) (m : Mac0) (calls : List Spec.Mac0Call) (sched : List Nat) :
    Spec.TagSet C m (Spec.After m (calls.map (·.thread C)) sched) ∧
    ∀ i r, Spec.Returns m (calls.map (·.thread C)) sched i r → ∃ call, calls[i]? = some call ∧
      (r = call.result C m ∨
        call = .verify ∧ ∃ t, m.computeTag C = .ok t ∧ r = Spec.Mac0Call.verify.result C { m with authTag := .bytes t }) := by
  have hs : SafeAll (fun s s' : Mac0 => s' = s ∨ ∃ t, m.computeTag C = .ok t ∧ s' = { s with authTag := .bytes t })
      (fun i r => ∃ call m', calls[i]? = some call ∧ Spec.TagSet C m m' ∧ r = ((call.thread C).alone m').1) (m, calls.map (·.thread C)) := by
    intro i t ht
    simp only [List.getElem?_map] at ht
    cases hc : calls[i]? with
    | none => rw [hc] at ht; cases ht
    | some call =>
      rw [hc] at ht; cases ht
      refine ⟨Spec.TagSet C m, ?_, .inl rfl, safe_weaken (fun r ⟨m', h1, h2⟩ => ⟨call, m', hc, h1, h2⟩) (mac0_safe C m call)⟩
      rintro s s' hs (rfl | ⟨t, ht, rfl⟩)
      · exact hs
      · rcases hs with rfl | ⟨t', _, rfl⟩ <;> exact .inr ⟨t, ht, rfl⟩
  obtain ⟨h1, h2⟩ := safeAll_exec sched hs
  refine ⟨h2 (Spec.TagSet C m) ?_ (.inl rfl), fun i r hr => ?_⟩
  · rintro s s' hs (rfl | ⟨t, ht, rfl⟩)
    · exact hs
    · rcases hs with rfl | ⟨t', _, rfl⟩ <;> exact .inr ⟨t, ht, rfl⟩
  · obtain ⟨call, m', hc, hm', hres⟩ := h1 i r hr
    have hall : ∀ m' : Mac0, ((call.thread C).alone m').1 = call.result C m' := by
      intro m'
      cases call with
      | compute => simp only [Spec.Mac0Call.thread, Mac0.computeTagT_alone, Spec.Mac0Call.result, map_eq_bind]
      | verify => simp only [Spec.Mac0Call.thread, Mac0.verifyTagT_alone, Spec.Mac0Call.result, map_eq_bind]
      | encode tag mac =>
        simp only [Spec.Mac0Call.thread, Mac0.encodeT_alone, Spec.Mac0Call.result, map_eq_bind]
        have := mac0_encode_agrees (C := C) (tag := tag) (e := mac) (m := m')
        generalize (Mac0.encodeE C tag mac).run m' = x at this
        obtain ⟨x, s⟩ := x
        cases x with
        | ok a => rw [agrees_of_ok this rfl]; rfl
        | error e => rw [agrees_of_error this rfl]; rfl
    refine ⟨call, hc, ?_⟩
    rw [hall] at hres
    rcases hm' with rfl | ⟨t, ht, rfl⟩
    · exact .inl hres
    · cases call with
      | compute => exact .inl hres
      | verify => exact .inr ⟨rfl, t, ht, hres⟩
      | encode tag mac =>
        refine .inl (hres.trans ?_)
        simp only [Spec.Mac0Call.result, Mac0.encode, Mac0.computeTag]
        cases m.base.phdrEncoded with
        | error e => rfl
        | ok pe =>
          simp only [bind, Except.bind]
          split
          · cases macCompute C b!"MAC0" m.base with
            | error e => rfl
            | ok t => rfl
          · cases m.base.finish 17 tag [.bytes pe, .map m.base.uhdr, optBytes m.base.payload] <;> rfl

/-! ### COSE_Mac with direct recipients -/

/-- The calls on a COSE_Mac message. -/
inductive Spec.MacCall where
  | compute (rand : Rand)
  | verify
  | encode (rand : Rand) (tag mac : Bool)

def Spec.MacCall.thread (C : Crypto) : Spec.MacCall → Thr Mac Val
  | .compute rand => Mac.computeTagT C rand
  | .verify => Mac.verifyTagT C
  | .encode rand tag mac => Mac.encodeT C rand tag mac

def Spec.MacCall.result (C : Crypto) (m : Mac) : Spec.MacCall → Res Val
  | .compute rand => (m.computeTag C rand).map fun x => .bytes x.1
  | .verify => (m.verifyTag C).map .bool
  | .encode rand tag mac => (m.encode C rand tag mac).map fun x => .bytes x.1

/-- All recipients share the key of the message. -/
def Spec.AllDirect (m : Mac) : Prop := ∃ rs, m.recipients = some rs ∧ ∀ r ∈ rs, r.cls = .directEncryption

/-- No recipient, at any depth, needs an ephemeral key to be made when the message is encoded (recipients without recipients of their own
never do if they are direct). -/
def Spec.MacKeyed (m : Mac) : Prop := ∀ rs, m.recipients = some rs → ∀ r ∈ rs, Spec.Keyed r

/-- `m'` is the message `m`, possibly with the tag of its content. -/
def Spec.MacTagSet (C : Crypto) (m m' : Mac) : Prop :=
  m' = m ∨ ∃ t, macCompute C b!"MAC" m.base = .ok t ∧ m' = { m with authTag := .bytes t }

/-- The assignment of that tag. -/
def TagChange (C : Crypto) (m s s' : Mac) : Prop := s' = s ∨ ∃ t, macCompute C b!"MAC" m.base = .ok t ∧ s' = { s with authTag := .bytes t }

theorem macTagSet_stable (C : Crypto) (m : Mac) : Stable (TagChange C m) (Spec.MacTagSet C m) := by
  rintro s s' hs (rfl | ⟨t, ht, rfl⟩)
  · exact hs
  · rcases hs with rfl | ⟨t', _, rfl⟩ <;> exact .inr ⟨t, ht, rfl⟩

theorem onMacRcpt_leaves {α : Type} {i : Nat} {r : Rcpt} {rs : List Rcpt} {f : Rcpt → Res α × Rcpt} (hr : rs[i]? = some r) (hf : (f r).2 = r)
    {s : Mac} (hs : s.recipients = some rs) : (onMacRcpt i f).run s = ((f r).1, s) := by
  have hset : rs.set i r = rs := by
    obtain ⟨hi, rfl⟩ := List.getElem?_eq_some_iff.1 hr
    exact List.set_getElem_self hi
  obtain ⟨b, t, rs'⟩ := s
  cases hs
  show (match rs[i]? with
    | none => (.error .indexError, _)
    | some r => ((f r).1, { base := b, authTag := t, recipients := some (rs.set i (f r).2) }) : Res α × Mac) = _
  rw [hr]
  simp only [hf, hset]

section
variable {C : Crypto} {R : Rand} {m : Mac} {rs : List Rcpt} {G : Mac → Mac → Prop} {K : Mac → Prop}

theorem safeAt_macRcpts (hG : ∀ s, K s → G s s) (hK : Stable G K) (hm : K m) (hb : ∀ s, K s → s.base = m.base)
    (hrs : ∀ s, K s → s.recipients = some rs) (hset : ∀ r ∈ rs, Spec.Keyed r) (n : Nat) :
    ∀ (i : Nat) (f : List Val → Thr Mac Val), i + n = rs.length →
      (∀ vs, SafeAt G K m (f vs)) → SafeAt G K m (macRcptsEncodeT C R n i >>= f) := by
  induction n with
  | zero => intro i f _ h; exact h []
  | succ n ih =>
    intro i f hi h
    have hlt : i < rs.length := by omega
    have hr : rs[i]? = some rs[i] := List.getElem?_eq_getElem hlt
    unfold macRcptsEncodeT
    rw [bind_assoc']
    refine safeAt_sees hG hK hb (sees_getAttrT' (fun _ _ h => h) _) fun _ _ => ?_
    rw [bind_assoc']
    refine safeAt_atomic hG hK hm (fun s h => onMacRcpt_leaves hr (keyed_encode _ _ (hset _ (List.getElem_mem hlt))) (hrs s h)) fun v _ => ?_
    rw [bind_assoc']
    exact ih (i + 1) _ (by omega) fun vs => h (v :: vs)

theorem safeAt_macFinish (hG : ∀ s, K s → G s s) (hK : Stable G K) (hm : K m) (hb : ∀ s, K s → s.base = m.base)
    (hrs : ∀ s, K s → s.recipients = some rs) (hset : ∀ r ∈ rs, Spec.Keyed r) (tag : Bool) (l : List Val) :
    SafeAt G K m (Mac.finishT C R tag l) := by
  have hend : ∀ l, SafeAt G K m (Cose.finishT Mac.base 97 tag l) := fun l => safeAt_sees_end hG hK hb (sees_finishT' (fun _ _ h => h) _ _ _)
  unfold Mac.finishT
  refine safeAt_attr hG hK (fun s h => by rw [hrs s h, hrs m hm]) ?_
  rw [hrs m hm]
  refine safeAt_expr fun n hn => ?_
  refine safeAt_ite (fun _ => hend _) fun _ => ?_
  refine safeAt_attr hG hK (fun s h => by rw [hrs s h, hrs m hm]) ?_
  rw [hrs m hm]
  refine safeAt_expr fun n hn => ?_
  cases hn
  exact safeAt_macRcpts hG hK hm hb hrs hset _ 0 _ (by simp) fun vs => hend _
end

theorem mac_safe (C : Crypto) (m : Mac) (hd : Spec.AllDirect m) (call : Spec.MacCall)
    (hk : ∀ R tag mac, call = .encode R tag mac → Spec.MacKeyed m) :
    Safe (TagChange C m) (fun r => ∃ m', Spec.MacTagSet C m m' ∧ (call ≠ .verify → m' = m) ∧ r = (call.thread C |>.alone m').1) (call.thread C) (Spec.MacTagSet C m) := by
  have hG : ∀ s, Spec.MacTagSet C m s → TagChange C m s s := fun _ _ => .inl rfl
  have hK := macTagSet_stable C m
  have hm : Spec.MacTagSet C m m := .inl rfl
  have hb : ∀ s, Spec.MacTagSet C m s → s.base = m.base := by rintro s (rfl | ⟨t, _, rfl⟩) <;> rfl
  have hrs : ∀ s, Spec.MacTagSet C m s → s.recipients = m.recipients := by rintro s (rfl | ⟨t, _, rfl⟩) <;> rfl
  have hid : ∀ s s' : Mac, s.base = s'.base → s.base = s'.base := fun _ _ h => h
  have hst : ∀ t, macCompute C b!"MAC" m.base = .ok t → Stable (TagChange C m) fun s => Spec.MacTagSet C m s ∧ s.authTag = .bytes t := by
    intro t ht s s' hs hg
    refine ⟨hK _ _ hs.1 hg, ?_⟩
    rcases hg with rfl | ⟨t', ht', rfl⟩
    · exact hs.2
    · rw [ht] at ht'; cases ht'; rfl
  -- `compute_tag` and what follows it
  have hcomp : ∀ {R : Rand} {f : Val → Thr Mac Val}, (∀ t, macCompute C b!"MAC" m.base = .ok t →
      SafeAt (TagChange C m) (fun s => Spec.MacTagSet C m s ∧ s.authTag = .bytes t) { m with authTag := .bytes t } (f (.bytes t))) →
      SafeAt (TagChange C m) (Spec.MacTagSet C m) m (Mac.computeTagT C R >>= f) := by
    intro R f hf
    obtain ⟨rs, hr, hall⟩ := hd
    simp only [Mac.computeTagT, bind_assoc', ite_bind]
    refine safeAt_sees hG hK hb (sees_getAttrT' hid _) fun target _ => ?_
    refine safeAt_attr hG hK hrs ?_
    rw [hr]
    refine safeAt_expr fun types hv => ?_
    have hts := verifyRecipients_types hv
    refine safeAt_ite (fun _ => ?_) fun hn => ?_
    · exact safeAt_macComputeT hG hK hb (fun _ _ => rfl) (fun t s ht hs => ⟨.inr ⟨t, ht, rfl⟩, hK _ _ hs (.inr ⟨t, ht, rfl⟩)⟩) hst hf
    have hnil : rs = [] := by
      cases rs with
      | nil => rfl
      | cons r t => exact absurd (by rw [hts]; simp [hall r List.mem_cons_self]) hn
    subst hnil
    rw [hts]
    exact rfl
  cases call with
  | compute rand =>
    refine safe_weaken (fun r hr => ⟨m, hm, fun _ => rfl, hr⟩) ?_
    show SafeAt (TagChange C m) (Spec.MacTagSet C m) m (Mac.computeTagT C rand)
    rw [← bind_pure' (Mac.computeTagT C rand)]
    exact hcomp fun t _ => rfl
  | encode rand tag mac =>
    refine safe_weaken (fun r hr => ⟨m, hm, fun _ => rfl, hr⟩) ?_
    show SafeAt (TagChange C m) (Spec.MacTagSet C m) m (Mac.encodeT C rand tag mac)
    have hset := hk rand tag mac rfl
    obtain ⟨rs, hr, _⟩ := hd
    unfold Mac.encodeT
    refine safeAt_sees hG hK hb (sees_phdrEncodedT' hid) fun pe _ => ?_
    refine safeAt_sees hG hK hb (sees_base hid Base.uhdr) fun uh _ => ?_
    refine safeAt_sees hG hK hb (sees_base hid Base.payload) fun p _ => ?_
    refine safeAt_ite (fun _ => ?_) fun _ => ?_
    · refine hcomp fun t ht => ?_
      refine safeAt_macFinish (rs := rs) (fun s hs => hG s hs.1) (hst t ht) ⟨.inr ⟨t, ht, rfl⟩, rfl⟩ (fun s hs => hb s hs.1)
        (fun s hs => (hrs s hs.1).trans hr) (hset rs hr) _ _
    · exact safeAt_macFinish (rs := rs) hG hK hm hb (fun s hs => (hrs s hs).trans hr) (hset rs hr) _ _
  | verify =>
    suffices h : SafeSome (TagChange C m) (Spec.MacTagSet C m) (macVerifyT Mac.base C b!"MAC" Mac.authTag) by
      refine safe_weaken (fun r hr => ?_) h
      obtain ⟨m', h1, h2⟩ := hr
      exact ⟨m', h1, fun h => absurd rfl h, h2⟩
    have hk : Sees Mac.base (attr fun s => (Mac.base s).key) := sees_base hid Base.key
    refine safeSome_sees hm hG hK hb (sees_getAttrT' hid _) fun alg _ => ?_
    refine safeSome_sees hm hG hK hb hk fun _ _ => safeSome_ite (fun _ => ⟨m, hm, rfl⟩) fun _ => ?_
    refine safeSome_sees hm hG hK hb hk fun _ _ => ?_
    refine safeSome_sees hm hG hK hb (sees_expr _) fun _ _ => ?_
    refine safeSome_sees hm hG hK hb (sees_expr _) fun _ _ => ?_
    refine safeSome_sees hm hG hK hb hk fun _ _ => ?_
    refine safeSome_attr (v := Mac.base) hG hK (fun x => ?_) fun s s' hs hs' => by rw [hb s hs, hb s' hs']
    exact sees_bind (sees_macStructureT hid _) fun _ => sees_bind (sees_expr _) fun _ => sees_pure _

/-- Any number of threads may compute and verify the tag of one COSE_Mac message with direct recipients and encode it at the same time: every call
returns or raises what it does alone, except that `verify_tag` may find the tag that another call has just computed. -/
theorem c99_mac_direct (C : Crypto) (m : Mac) (hd : Spec.AllDirect m) (calls : List Spec.MacCall)
    (hk : ∀ R tag mac, .encode R tag mac ∈ calls → Spec.MacKeyed m) (sched : List Nat) :
    Spec.MacTagSet C m (Spec.After m (calls.map (·.thread C)) sched) ∧
    ∀ i r, Spec.Returns m (calls.map (·.thread C)) sched i r → ∃ call, calls[i]? = some call ∧
      (r = call.result C m ∨
        call = .verify ∧ ∃ t, macCompute C b!"MAC" m.base = .ok t ∧ r = Spec.MacCall.verify.result C { m with authTag := .bytes t }) := by
  have hs : SafeAll (TagChange C m)
      (fun i r => ∃ call m', calls[i]? = some call ∧ Spec.MacTagSet C m m' ∧ (call ≠ .verify → m' = m) ∧ r = ((call.thread C).alone m').1) (m, calls.map (·.thread C)) := by
    intro i t ht
    simp only [List.getElem?_map] at ht
    cases hc : calls[i]? with
    | none => rw [hc] at ht; cases ht
    | some call =>
      rw [hc] at ht; cases ht
      exact ⟨Spec.MacTagSet C m, macTagSet_stable C m, .inl rfl, safe_weaken (fun r ⟨m', h1, h2⟩ => ⟨call, m', hc, h1, h2⟩) (mac_safe C m hd call fun R tag mac e => hk R tag mac (e ▸ List.mem_of_getElem? hc))⟩
  obtain ⟨h1, h2⟩ := safeAll_exec sched hs
  refine ⟨h2 (Spec.MacTagSet C m) (macTagSet_stable C m) (.inl rfl), fun i r hr => ?_⟩
  obtain ⟨call, m', hc, hm', hne, hres⟩ := h1 i r hr
  have hall : ∀ m' : Mac, Spec.MacTagSet C m m' → ((call.thread C).alone m').1 = call.result C m' := by
    intro m' hm'
    cases call with
    | compute rand =>
      simp only [Spec.MacCall.thread, Mac.computeTagT_alone C rand m', Spec.MacCall.result, valOf, map_eq_bind]
      have := computeTag_agrees (C := C) (R := rand) (m := m')
      generalize (Mac.computeTagE C rand).run m' = x at this
      obtain ⟨x, s⟩ := x
      cases x with
      | ok a => rw [agrees_of_ok this rfl]; rfl
      | error e => rw [agrees_of_error this rfl]; rfl
    | verify => simp only [Spec.MacCall.thread, Mac.verifyTagT, macVerifyT_alone, Spec.MacCall.result, Mac.verifyTag, map_eq_bind]
    | encode rand tag mac =>
      simp only [Spec.MacCall.thread, Mac.encodeT_alone C rand tag mac m', Spec.MacCall.result, valOf, map_eq_bind]
      have := mac_encode_agrees (C := C) (R := rand) (tag := tag) (e := mac) (m := m')
      generalize (Mac.encodeE C rand tag mac).run m' = x at this
      obtain ⟨x, s⟩ := x
      cases x with
      | ok a => rw [agrees_of_ok this rfl]; rfl
      | error e => rw [agrees_of_error this rfl]; rfl
  refine ⟨call, hc, ?_⟩
  rw [hall m' hm'] at hres
  rcases hm' with rfl | ⟨t, ht, rfl⟩
  · exact .inl hres
  · by_cases hv : call = .verify
    · subst hv
      exact .inr ⟨rfl, t, ht, hres⟩
    · rw [hne hv] at hres
      exact .inl hres

/-! ### COSE_Mac with direct key agreement -/

/-- The only recipient agrees on the key of the message. -/
def Spec.Agreeing (m : Mac) : Prop := ∃ r, m.recipients = some [r] ∧ r.cls = .directKeyAgreement

/-- `m'` is the message `m`, possibly with another key or tag. -/
def Spec.UpToKeyTag (m m' : Mac) : Prop := ∃ key t, m' = { m with base := { m.base with key := key }, authTag := t }

/-- The part of the message that is neither the key nor the tag. -/
def macRest (s : Mac) : Base × Option (List Rcpt) := ({ s.base with key := none }, s.recipients)

def Mac.withKey (k : Key) (m : Mac) : Mac := { m with base := { m.base with key := some k } }

/-- The key `k` or the tag of the message with this key is assigned. -/
def AgreeChange (C : Crypto) (m : Mac) (k : Key) (s s' : Mac) : Prop :=
  s' = s ∨ s' = Mac.withKey k s ∨ ∃ t, macCompute C b!"MAC" (Mac.withKey k m).base = .ok t ∧ s' = { s with authTag := .bytes t }

theorem upToKeyTag_stable (C : Crypto) (m : Mac) (k : Key) : Stable (AgreeChange C m k) (Spec.UpToKeyTag m) := by
  rintro s s' ⟨key, t, rfl⟩ (rfl | rfl | ⟨t', _, rfl⟩)
  · exact ⟨key, t, rfl⟩
  · exact ⟨some k, t, rfl⟩
  · exact ⟨key, .bytes t', rfl⟩

theorem macRest_of {m s : Mac} (h : Spec.UpToKeyTag m s) : macRest s = macRest m := by
  obtain ⟨key, t, rfl⟩ := h; rfl

theorem macRest_base {β : Type} (f : Base → β) (hf : ∀ b key, f { b with key := key } = f b) (s s' : Mac) (h : macRest s = macRest s') :
    f s.base = f s'.base := by
  have := congrArg (fun x => f x.1) h
  simpa [macRest, hf] using this

theorem macRest_rcpts (s s' : Mac) (h : macRest s = macRest s') : s.recipients = s'.recipients := congrArg Prod.snd h

theorem macRest_hdrs (s s' : Mac) (h : macRest s = macRest s') : s.base.phdr = s'.base.phdr ∧ s.base.uhdr = s'.base.uhdr :=
  ⟨macRest_base Base.phdr (fun _ _ => rfl) s s' h, macRest_base Base.uhdr (fun _ _ => rfl) s s' h⟩

theorem macRest_enc (s s' : Mac) (h : macRest s = macRest s') :
    s.base.phdrEnc = s'.base.phdrEnc ∧ s.base.phdr = s'.base.phdr ∧ s.base.tstr = s'.base.tstr :=
  ⟨macRest_base Base.phdrEnc (fun _ _ => rfl) s s' h, macRest_base Base.phdr (fun _ _ => rfl) s s' h,
    macRest_base Base.tstr (fun _ _ => rfl) s s' h⟩

theorem safeAt_agreeFinish {C : Crypto} {R : Rand} {m : Mac} {k : Key} {rs : List Rcpt} {m0 : Mac} {K : Mac → Prop}
    (hK : Stable (AgreeChange C m k) K) (hm : K m0) (hb : ∀ s, K s → macRest s = macRest m) (hr : m.recipients = some rs)
    (hset : ∀ r ∈ rs, Spec.Keyed r) (tag : Bool) (l : List Val) : SafeAt (AgreeChange C m k) K m0 (Mac.finishT C R tag l) := by
  have hG : ∀ s, K s → AgreeChange C m k s s := fun _ _ => .inl rfl
  have hv : ∀ s, K s → macRest s = macRest m0 := fun s hs => (hb s hs).trans (hb m0 hm).symm
  have hrs : ∀ s, K s → s.recipients = some rs := fun s hs => (macRest_rcpts s m (hb s hs)).trans hr
  have hend : ∀ l, SafeAt (AgreeChange C m k) K m0 (Cose.finishT Mac.base 97 tag l) :=
    fun l => safeAt_sees_end hG hK hv (sees_finishT (fun s s' h => (macRest_enc s s' h).2.2) _ _ _)
  have loop : ∀ (n i : Nat) (f : List Val → Thr Mac Val), i + n = rs.length →
      (∀ vs, SafeAt (AgreeChange C m k) K m0 (f vs)) → SafeAt (AgreeChange C m k) K m0 (macRcptsEncodeT C R n i >>= f) := by
    intro n
    induction n with
    | zero => intro i f _ h; exact h []
    | succ n ih =>
      intro i f hi h
      have hlt : i < rs.length := by omega
      have hr : rs[i]? = some rs[i] := List.getElem?_eq_getElem hlt
      unfold macRcptsEncodeT
      rw [bind_assoc']
      refine safeAt_sees hG hK hv (sees_getAttrT macRest_hdrs _) fun _ _ => ?_
      rw [bind_assoc']
      refine safeAt_atomic hG hK hm (fun s h => onMacRcpt_leaves hr (keyed_encode _ _ (hset _ (List.getElem_mem hlt))) (hrs s h)) fun v _ => ?_
      rw [bind_assoc']
      exact ih (i + 1) _ (by omega) fun vs => h (v :: vs)
  unfold Mac.finishT
  refine safeAt_attr hG hK (fun s h => by rw [hrs s h, hrs m0 hm]) ?_
  rw [hrs m0 hm]
  refine safeAt_expr fun n hn => ?_
  refine safeAt_ite (fun _ => hend _) fun _ => ?_
  refine safeAt_attr hG hK (fun s h => by rw [hrs s h, hrs m0 hm]) ?_
  rw [hrs m0 hm]
  refine safeAt_expr fun n hn => ?_
  cases hn
  exact loop _ 0 _ (by simp) fun vs => hend _

theorem agree_compute {C : Crypto} {R : Rand} {m : Mac} {k : Key} {r : Rcpt} (hr : m.recipients = some [r]) (hc : r.cls = .directKeyAgreement)
    (hk : ∀ target k', m.base.getAttr Hdr.Algorithm = .ok target → dkaComputeCek C r.base target true = .ok k' → k' = k)
    {f : Val → Thr Mac Val}
    (hf : ∀ t, macCompute C b!"MAC" (Mac.withKey k m).base = .ok t → Stable (AgreeChange C m k) (fun s => (Spec.UpToKeyTag m s ∧
      s.base = (Mac.withKey k m).base) ∧ s.authTag = .bytes t) → SafeAt (AgreeChange C m k) (fun s => (Spec.UpToKeyTag m s ∧
      s.base = (Mac.withKey k m).base) ∧ s.authTag = .bytes t) { Mac.withKey k m with authTag := .bytes t } (f (.bytes t))) :
    SafeAt (AgreeChange C m k) (Spec.UpToKeyTag m) m (Mac.computeTagT C R >>= f) := by
  have hG : ∀ s, Spec.UpToKeyTag m s → AgreeChange C m k s s := fun _ _ => .inl rfl
  have hK := upToKeyTag_stable C m k
  have hv : ∀ s, Spec.UpToKeyTag m s → macRest s = macRest m := fun s hs => macRest_of hs
  simp only [Mac.computeTagT, bind_assoc', ite_bind]
  refine safeAt_sees hG hK hv (sees_getAttrT macRest_hdrs _) fun target ht => ?_
  refine safeAt_attr hG hK (fun s hs => macRest_rcpts s m (hv s hs)) ?_
  rw [hr]
  refine safeAt_expr fun types hvr => ?_
  have hts := verifyRecipients_types hvr
  subst hts
  rw [if_neg (by simp [hc]), if_pos (by simp [hc])]
  refine safeAt_attr hG hK (fun s hs => macRest_rcpts s m (hv s hs)) ?_
  rw [hr]
  refine safeAt_expr fun k' hk' => ?_
  have := hk target k' (by rw [getAttrT_alone] at ht; exact ht) hk'
  subst this
  have hK1 : Stable (AgreeChange C m k') fun s => Spec.UpToKeyTag m s ∧ s.base = (Mac.withKey k' m).base := by
    rintro s s' ⟨h1, h2⟩ hg
    refine ⟨hK _ _ h1 hg, ?_⟩
    rcases hg with rfl | rfl | ⟨t, _, rfl⟩
    · exact h2
    · show { s.base with key := some k' } = _
      rw [h2]; rfl
    · exact h2
  refine safeAt_assign (K' := fun s => Spec.UpToKeyTag m s ∧ s.base = (Mac.withKey k' m).base) (fun s hs => ?_) hK1 ?_
  · refine ⟨.inr (.inl rfl), ?_⟩
    obtain ⟨key, t, rfl⟩ := hs
    exact ⟨⟨some k', t, rfl⟩, rfl⟩
  have hst : ∀ t, macCompute C b!"MAC" (Mac.withKey k' m).base = .ok t → Stable (AgreeChange C m k') fun s =>
      (Spec.UpToKeyTag m s ∧ s.base = (Mac.withKey k' m).base) ∧ s.authTag = .bytes t := by
    intro t ht s s' hs hg
    refine ⟨hK1 _ _ hs.1 hg, ?_⟩
    rcases hg with rfl | rfl | ⟨t', ht', rfl⟩
    · exact hs.2
    · exact hs.2
    · rw [ht] at ht'; cases ht'; rfl
  exact safeAt_macComputeT (fun _ _ => .inl rfl) hK1 (fun s hs => hs.2) (fun _ _ => rfl)
    (fun t s ht hs => ⟨.inr (.inr ⟨t, ht, rfl⟩), hK1 _ _ hs (.inr (.inr ⟨t, ht, rfl⟩))⟩) hst fun t ht => hf t ht (hst t ht)

theorem agree_safe {C : Crypto} {m : Mac} {k : Key} {rc : Rcpt} (hr : m.recipients = some [rc]) (hc : rc.cls = .directKeyAgreement)
    (huniq : ∀ target k', m.base.getAttr Hdr.Algorithm = .ok target → dkaComputeCek C rc.base target true = .ok k' → k' = k)
    (call : Spec.MacCall) (hn : call ≠ .verify) (hk : ∀ R tag mac, call = .encode R tag mac → Spec.MacKeyed m) :
    SafeAt (AgreeChange C m k) (Spec.UpToKeyTag m) m (call.thread C) := by
  cases call with
  | verify => exact absurd rfl hn
  | compute rand =>
    show SafeAt _ _ m (Mac.computeTagT C rand)
    rw [← bind_pure' (Mac.computeTagT C rand)]
    exact agree_compute hr hc huniq fun t _ _ => rfl
  | encode rand tag mac =>
    have hset := hk rand tag mac rfl
    have hG : ∀ s, Spec.UpToKeyTag m s → AgreeChange C m k s s := fun _ _ => .inl rfl
    have hK := upToKeyTag_stable C m k
    have hv : ∀ s, Spec.UpToKeyTag m s → macRest s = macRest m := fun s hs => macRest_of hs
    show SafeAt _ _ m (Mac.encodeT C rand tag mac)
    unfold Mac.encodeT
    refine safeAt_sees hG hK hv (sees_phdrEncodedT macRest_enc) fun pe _ => ?_
    refine safeAt_sees hG hK hv (sees_attr fun s s' h => (macRest_hdrs s s' h).2) fun uh _ => ?_
    refine safeAt_sees hG hK hv (sees_attr (macRest_base Base.payload fun _ _ => rfl)) fun p _ => ?_
    refine safeAt_ite (fun _ => ?_) fun _ => ?_
    · exact agree_compute hr hc huniq fun t _ hst => safeAt_agreeFinish hst ⟨⟨⟨some k, .bytes t, rfl⟩, rfl⟩, rfl⟩
        (fun s hs => hv s hs.1.1) hr (hset _ hr) _ _
    · exact safeAt_agreeFinish hK ⟨m.base.key, m.authTag, rfl⟩ hv hr (hset _ hr) _ _

/-- Any number of threads may compute the tag of one COSE_Mac message with a direct key agreement and encode it at the same time: every call
returns or raises what it does alone.  (`encode` makes an ephemeral key if the recipient has none; this is excluded here.) -/
theorem c99_mac_agreement (C : Crypto) (m : Mac) (hd : Spec.Agreeing m) (calls : List Spec.MacCall) (hv : .verify ∉ calls)
    (hk : ∀ R tag mac, .encode R tag mac ∈ calls → Spec.MacKeyed m) (sched : List Nat) :
    Spec.UpToKeyTag m (Spec.After m (calls.map (·.thread C)) sched) ∧
    ∀ i r, Spec.Returns m (calls.map (·.thread C)) sched i r → ∃ call, calls[i]? = some call ∧ r = call.result C m := by
  obtain ⟨rc, hr, hc⟩ := hd
  obtain ⟨k, huniq⟩ : ∃ k, ∀ target k', m.base.getAttr Hdr.Algorithm = .ok target → dkaComputeCek C rc.base target true = .ok k' → k' = k := by
    cases ht : m.base.getAttr Hdr.Algorithm with
    | error e => exact ⟨⟨.sym, [], []⟩, fun _ _ h => by cases h⟩
    | ok target =>
      cases hx : dkaComputeCek C rc.base target true with
      | error e => exact ⟨⟨.sym, [], []⟩, fun t k' h h' => by cases h; rw [hx] at h'; cases h'⟩
      | ok k => exact ⟨k, fun t k' h h' => by cases h; rw [hx] at h'; cases h'; rfl⟩
  have hs : SafeAll (AgreeChange C m k)
      (fun i r => ∃ call, calls[i]? = some call ∧ r = ((call.thread C).alone m).1) (m, calls.map (·.thread C)) := by
    intro i t ht
    simp only [List.getElem?_map] at ht
    cases hc : calls[i]? with
    | none => rw [hc] at ht; cases ht
    | some call =>
      rw [hc] at ht; cases ht
      exact ⟨Spec.UpToKeyTag m, upToKeyTag_stable C m k, ⟨m.base.key, m.authTag, rfl⟩,
        safe_weaken (fun r hr => ⟨call, hc, hr⟩) (agree_safe hr ‹_› huniq call (fun e => hv (e ▸ List.mem_of_getElem? hc)) fun R tag mac e => hk R tag mac (e ▸ List.mem_of_getElem? hc))⟩
  obtain ⟨h1, h2⟩ := safeAll_exec sched hs
  refine ⟨h2 _ (upToKeyTag_stable C m k) ⟨m.base.key, m.authTag, rfl⟩, fun i r hres => ?_⟩
  obtain ⟨call, hcall, hres⟩ := h1 i r hres
  refine ⟨call, hcall, hres.trans ?_⟩
  cases call with
  | verify => exact absurd (List.mem_of_getElem? hcall) hv
  | compute rand =>
    simp only [Spec.MacCall.thread, Mac.computeTagT_alone C rand m, Spec.MacCall.result, valOf, map_eq_bind]
    have := computeTag_agrees (C := C) (R := rand) (m := m)
    generalize (Mac.computeTagE C rand).run m = x at this
    obtain ⟨x, s⟩ := x
    cases x with
    | ok a => rw [agrees_of_ok this rfl]; rfl
    | error e => rw [agrees_of_error this rfl]; rfl
  | encode rand tag mac =>
    simp only [Spec.MacCall.thread, Mac.encodeT_alone C rand tag mac m, Spec.MacCall.result, valOf, map_eq_bind]
    have := mac_encode_agrees (C := C) (R := rand) (tag := tag) (e := mac) (m := m)
    generalize (Mac.encodeE C rand tag mac).run m = x at this
    obtain ⟨x, s⟩ := x
    cases x with
    | ok a => rw [agrees_of_ok this rfl]; rfl
    | error e => rw [agrees_of_error this rfl]; rfl

/-! ### COSE_Mac with recipients that wrap a key -/

/-- One of the recipients wraps the key of the message. -/
def Spec.Wrapping (m : Mac) : Prop :=
  ∃ rs, m.recipients = some rs ∧ ∃ r ∈ rs, r.cls = .keyWrap ∨ r.cls = .keyAgreementWithKeyWrap

/-- The call has to make a tag. -/
def Spec.MakesTag : Spec.MacCall → Prop
  | .compute _ => True
  | .verify => False
  | .encode _ _ mac => mac = true

/-- The classes of the recipients. -/
def macTypes (m : Mac) : Option (List RCls) := m.recipients.map (·.map Rcpt.cls)

/-- The thread does not change the classes `c` of the recipients, and a result of it is in `P`. -/
def KeepsTypes {α : Type} (c : Option (List RCls)) (P : Res α → Prop) : Thr Mac α → Prop
  | .done r => P r
  | .step f k => ∀ s, macTypes s = c → macTypes (f s) = c ∧ KeepsTypes c P (k s)

section
variable {α β : Type} {c : Option (List RCls)} {P : Res β → Prop}

theorem keepsT_safe {t : Thr Mac α} {P : Res α → Prop} (h : KeepsTypes c P t) :
    Safe (fun s s' => macTypes s = c → macTypes s' = c) P t (fun s => macTypes s = c) := by
  induction t with
  | done r => exact h
  | step f k ih => exact fun s hs => ⟨fun _ => (h s hs).1, _, fun _ _ h1 h2 => h2 h1, (h s hs).1, ih s (h s hs).2⟩

theorem keepsT_bind {t : Thr Mac α} {f : α → Thr Mac β} (ht : KeepsTypes c (fun _ => True) t) (he : ∀ e, P (.error e)) (hf : ∀ a, KeepsTypes c P (f a)) :
    KeepsTypes c P (t >>= f) := by
  show KeepsTypes c P (Thr.andThen t f)
  induction t with
  | done r =>
    cases r with
    | ok a => exact hf a
    | error e => exact he e
  | step g k ih => exact fun s hs => ⟨(ht s hs).1, ih s (ht s hs).2⟩

theorem keepsT_sees {t : Thr Mac α} (h : Sees id t) : KeepsTypes c (fun _ => True) t := by
  induction t with
  | done r => trivial
  | step f k ih => exact fun s hs => ⟨by rw [h.1 s]; exact hs, ih s (h.2.2 s)⟩

theorem keepsT_attr {a : Mac → α} {f : α → Thr Mac β} (h : ∀ s, macTypes s = c → KeepsTypes c P (f (a s))) : KeepsTypes c P (attr a >>= f) :=
  fun s hs => ⟨hs, h s hs⟩

theorem keepsT_ite {q : Prop} [Decidable q] {a b : Thr Mac α} {P : Res α → Prop} (ha : q → KeepsTypes c P a) (hb : ¬ q → KeepsTypes c P b) :
    KeepsTypes c P (if q then a else b) := by
  split
  · exact ha ‹_›
  · exact hb ‹_›

theorem keepsT_atomic {i : Nat} {f : Rcpt → Res α × Rcpt} (hf : ∀ r, (f r).2.cls = r.cls) : KeepsTypes c (fun _ => True) (atomic (onMacRcpt i f)) := by
  intro s hs
  refine ⟨?_, trivial⟩
  rw [← hs]
  obtain ⟨b, t, rs⟩ := s
  cases rs with
  | none => rfl
  | some rs =>
    simp only [onMacRcpt, Option.bind_some]
    cases hr : rs[i]? with
    | none => rfl
    | some r =>
      obtain ⟨hi, rfl⟩ := List.getElem?_eq_some_iff.1 hr
      simp only [macTypes, Option.map_some, List.map_set, hf, Option.some.injEq]
      rw [show Rcpt.cls rs[i] = (rs.map Rcpt.cls)[i]'(by simpa using hi) by simp]
      exact List.set_getElem_self _

theorem keepsT_setPayload (i : Nat) (v : Option Bytes) : KeepsTypes c (fun _ => True) (assign (Mac.setRcptPayload i v)) := by
  intro s hs
  refine ⟨?_, trivial⟩
  rw [← hs]
  obtain ⟨b, t, rs⟩ := s
  cases rs with
  | none => rfl
  | some rs =>
    simp only [Mac.setRcptPayload, macTypes, Option.map_some, Option.some.injEq]
    refine List.ext_getElem (by simp) fun j h1 h2 => ?_
    simp only [List.getElem_map, List.getElem_modify]
    split
    · generalize rs[j]'(by simpa using h2) = r
      cases r; rfl
    · rfl

theorem keepsT_wrapLoop (C : Crypto) (R : Rand) (n : Nat) : ∀ i key, KeepsTypes c (fun _ => True) (macWrapLoopT C R n i key) := by
  induction n with
  | zero => intro _ _; trivial
  | succ n ih =>
    intro i key
    have hat : KeepsTypes c (fun _ => True) (atomic (onMacRcpt i (rcptEncryptE C R 0 [i]).run)) :=
      keepsT_atomic fun r => (triedR_payload rcptEncryptE_tried).1
    refine keepsT_attr fun s _ => keepsT_ite (fun _ => ?_) fun _ => ?_
    · exact keepsT_bind (keepsT_setPayload _ _) (fun _ => trivial) fun _ => keepsT_bind hat (fun _ => trivial) fun _ => ih _ _
    · exact keepsT_attr fun s _ => keepsT_bind hat (fun _ => trivial) fun _ => ih _ _

theorem keepsT_rcptsEncode (C : Crypto) (R : Rand) (n : Nat) : ∀ i, KeepsTypes c (fun _ => True) (macRcptsEncodeT C R n i) := by
  induction n with
  | zero => intro _; trivial
  | succ n ih =>
    intro i
    refine keepsT_bind (keepsT_sees (sees_getAttrT' (fun s s' h => by cases h; rfl) _)) (fun _ => trivial) fun _ => ?_
    refine keepsT_bind (keepsT_atomic fun r => (triedR_payload (encodeE_tried r)).1) (fun _ => trivial) fun _ => ?_
    exact keepsT_bind (ih _) (fun _ => trivial) fun _ => trivial

theorem keepsT_finish (C : Crypto) (R : Rand) (tag : Bool) (l : List Val) : KeepsTypes c (fun _ => True) (Mac.finishT C R tag l) := by
  have hend : ∀ l, KeepsTypes c (fun _ => True) (Cose.finishT Mac.base 97 tag l) := fun l => keepsT_sees (sees_finishT' (fun s s' h => by cases h; rfl) _ _ _)
  refine keepsT_attr fun _ _ => keepsT_bind (keepsT_sees (sees_expr _)) (fun _ => trivial) fun _ => keepsT_ite (fun _ => hend _) fun _ => ?_
  refine keepsT_attr fun _ _ => keepsT_bind (keepsT_sees (sees_expr _)) (fun _ => trivial) fun _ => ?_
  exact keepsT_bind (keepsT_rcptsEncode C R _ _) (fun _ => trivial) fun _ => hend _
end

theorem keepsT_expr {α β : Type} {c : Option (List RCls)} {P : Res β → Prop} {r : Res α} {f : α → Thr Mac β} (he : ∀ e, r = .error e → P (.error e))
    (hf : ∀ a, r = .ok a → KeepsTypes c P (f a)) : KeepsTypes c P (expr r >>= f) := by
  cases r with
  | ok a => exact hf a rfl
  | error e => exact he e rfl

theorem keepsT_compute (C : Crypto) (R : Rand) {c : List RCls} (hw : .keyWrap ∈ c ∨ .keyAgreementWithKeyWrap ∈ c) :
    KeepsTypes (some c) (fun r => ∃ e, r = .error e) (Mac.computeTagT C R) := by
  have hga : KeepsTypes (some c) (fun _ => True) (getAttrT Mac.base Hdr.Algorithm) := keepsT_sees (sees_getAttrT' (fun s s' h => by cases h; rfl) _)
  refine keepsT_bind hga (fun e => ⟨e, rfl⟩) fun target => keepsT_attr fun s hs => ?_
  cases hr : s.recipients with
  | none => rw [macTypes, hr] at hs; cases hs
  | some rs =>
    rw [macTypes, hr] at hs
    simp only [Option.map_some, Option.some.injEq] at hs
    refine keepsT_expr (fun e _ => ⟨e, rfl⟩) fun types hv => ?_
    · simp only at hv
      have ht := (verifyRecipients_types hv).trans hs
      subst ht
      have hd : ¬ types.contains .directEncryption = true := by
        intro h
        simp only [verifyRecipients, hs] at hv
        split at hv
        · cases hv
        · rename_i hn
          refine hn ⟨h, ?_⟩
          simp only [List.any_eq_true]
          rcases hw with hw | hw <;> exact ⟨_, hw, by decide⟩
      have ha : ¬ types.contains .directKeyAgreement = true := by
        intro h
        simp only [verifyRecipients, hs] at hv
        split at hv
        · cases hv
        · split at hv
          · cases hv
          · rename_i hn
            have hl : rs.length = types.length := by rw [← hs]; simp
            have h1 : types.length ≤ 1 := by
              have := fun hh : rs.length > 1 => hn ⟨h, hh⟩
              rw [hl] at this
              exact Nat.le_of_not_lt this
            simp only [List.contains_eq_mem, decide_eq_true_eq] at h
            match types, h1, h, hw with
            | [x], _, h, hw =>
              simp only [List.mem_singleton] at h hw
              subst h
              rcases hw with hw | hw <;> cases hw
      rw [if_neg hd, if_neg ha, if_pos (by simpa using hw)]
      refine keepsT_bind hga (fun e => ⟨e, rfl⟩) fun _ => keepsT_bind (keepsT_sees (sees_expr _)) (fun e => ⟨e, rfl⟩) fun _ => ?_
      refine keepsT_attr fun _ _ => keepsT_bind (keepsT_wrapLoop C R _ _ _) (fun e => ⟨e, rfl⟩) fun _ => ⟨_, rfl⟩

/-- **C99**: with a recipient that wraps the key, no call that has to make a tag returns, however many threads use the message and whatever they
call: each raises, as it does alone (C38). -/
theorem c99_mac_wrapping (C : Crypto) (m : Mac) (hd : Spec.Wrapping m) (calls : List Spec.MacCall) (sched : List Nat) (i : Nat) (r : Res Val)
    (call : Spec.MacCall) (hc : calls[i]? = some call) (ht : Spec.MakesTag call) (h : Spec.Returns m (calls.map (·.thread C)) sched i r) :
    (∃ e, r = .error e) ∧ ∃ e, call.result C m = .error e := by
  obtain ⟨rs, hr, r0, hin, hcls⟩ := hd
  have hw : .keyWrap ∈ rs.map Rcpt.cls ∨ .keyAgreementWithKeyWrap ∈ rs.map Rcpt.cls := by
    rcases hcls with hcls | hcls
    · exact .inl (List.mem_map.2 ⟨r0, hin, hcls⟩)
    · exact .inr (List.mem_map.2 ⟨r0, hin, hcls⟩)
  have hm : macTypes m = some (rs.map Rcpt.cls) := by rw [macTypes, hr]; rfl
  have hk : ∀ call : Spec.MacCall, KeepsTypes (some (rs.map Rcpt.cls)) (fun r => Spec.MakesTag call → ∃ e, r = .error e) (call.thread C) := by
    have hid : ∀ s s' : Mac, id s = id s' → Mac.base s = Mac.base s' := fun s s' h => by cases h; rfl
    have weaken : ∀ {t : Thr Mac Val} {P Q : Res Val → Prop}, (∀ r, P r → Q r) → KeepsTypes (some (rs.map Rcpt.cls)) P t →
        KeepsTypes (some (rs.map Rcpt.cls)) Q t := by
      intro t P Q hpq h
      induction t with
      | done r => exact hpq r h
      | step f k ih => exact fun s hs => ⟨(h s hs).1, ih s (h s hs).2⟩
    intro call
    cases call with
    | compute rand => exact weaken (fun r h _ => h) (keepsT_compute C rand hw)
    | verify => exact weaken (fun r _ h => h.elim) (keepsT_sees (sees_macVerifyT hid C _ (fun s s' h => by cases h; rfl)))
    | encode rand tag mac =>
      refine keepsT_bind (keepsT_sees (sees_phdrEncodedT' hid)) (fun e _ => ⟨e, rfl⟩) fun pe => keepsT_attr fun _ _ => keepsT_attr fun _ _ => ?_
      refine keepsT_ite (fun _ => ?_) fun hn => ?_
      · have hc := keepsT_compute C rand hw
        show KeepsTypes _ _ (Thr.andThen _ _)
        generalize Mac.computeTagT C rand = t at hc
        induction t with
        | done r =>
          obtain ⟨e, rfl⟩ := hc
          exact fun _ => ⟨e, rfl⟩
        | step f k ih => exact fun s hs => ⟨(hc s hs).1, ih s (hc s hs).2⟩
      · exact weaken (fun r _ h => absurd h hn) (keepsT_finish C rand tag _)
  have hs : SafeAll (fun s s' => macTypes s = some (rs.map Rcpt.cls) → macTypes s' = some (rs.map Rcpt.cls))
      (fun i r => ∀ call, calls[i]? = some call → Spec.MakesTag call → ∃ e, r = .error e) (m, calls.map (·.thread C)) := by
    intro i t ht
    simp only [List.getElem?_map] at ht
    cases hc : calls[i]? with
    | none => rw [hc] at ht; cases ht
    | some call =>
      rw [hc] at ht; cases ht
      exact ⟨_, fun _ _ h1 h2 => h2 h1, hm, safe_weaken (fun r h call' e => by rw [hc] at e; cases e; exact h) (keepsT_safe (hk call))⟩
  refine ⟨(safeAll_exec sched hs).1 i r h call hc ht, ?_⟩
  have hbad : ∀ rand, ∃ e, m.computeTag C rand = .error e := by
    intro rand
    cases hx : m.computeTag C rand with
    | error e => exact ⟨e, rfl⟩
    | ok x =>
      exfalso
      have ha := Mac.computeTagT_alone C rand m
      have hagree := computeTag_agrees (C := C) (R := rand) (m := m)
      have hk := keepsT_compute C rand hw
      have key : ∀ (t : Thr Mac Val) (s : Mac), macTypes s = some (rs.map Rcpt.cls) → KeepsTypes (some (rs.map Rcpt.cls)) (fun r => ∃ e, r = .error e) t →
          ∃ e, (t.alone s).1 = .error e := by
        intro t
        induction t with
        | done r => exact fun s _ h => h
        | step f k ih => exact fun s hs h => ih s (f s) (h s hs).1 (h s hs).2
      obtain ⟨e, he⟩ := key _ m hm hk
      rw [ha, valOf] at he
      generalize (Mac.computeTagE C rand).run m = y at he hagree
      obtain ⟨y, s⟩ := y
      cases y with
      | ok a => cases he
      | error e' => have := agrees_of_error hagree rfl; rw [hx] at this; cases this
  cases call with
  | compute rand =>
    obtain ⟨e, he⟩ := hbad rand
    exact ⟨e, by simp only [Spec.MacCall.result, he]; rfl⟩
  | verify => exact ht.elim
  | encode rand tag mac =>
    obtain ⟨e, he⟩ := hbad rand
    cases ht
    cases hp : m.base.phdrEncoded with
    | error e' => exact ⟨e', by simp only [Spec.MacCall.result, Mac.encode, hp]; rfl⟩
    | ok pe => exact ⟨e, by simp only [Spec.MacCall.result, Mac.encode, hp, he, bind, Except.bind, ite_true]; rfl⟩

/-! ### COSE_Encrypt: the calls assign the content key to the message -/

/-- Several threads may decrypt one COSE_Encrypt message at the same time, each for a recipient of its own, if the recipients carry one
content key (as those of every message encoded by this library do).  Each call returns or raises what it does alone. -/
theorem c99_decrypt_partial (C : Crypto) (m : Enc) (rs : List Rcpt)
    (h : ∀ r ∈ rs, ∀ r' ∈ rs, ∀ k k', Spec.CarriesKey C m r k → Spec.CarriesKey C m r' k' → k = k') (sched : List Nat) :
    Spec.UpToKey m (Spec.After m (rs.map (Enc.decryptT C)) sched) ∧
    ∀ i r, Spec.Returns m (rs.map (Enc.decryptT C)) sched i r →
      ∃ rc, rs[i]? = some rc ∧ r = (m.decrypt C rc).map fun x => .bytes x.1 := by
  have hs : SafeAll (KeyChange fun k => (∃ types, verifyRecipients m.recipients = .ok types ∧ types.contains .directEncryption = false) ∧
      ∃ r ∈ rs, Spec.CarriesKey C m r k) (fun i r => ∃ rc, rs[i]? = some rc ∧ r = ((Enc.decryptT C rc).alone m).1)
      (m, rs.map (Enc.decryptT C)) := by
    intro i t ht
    simp only [List.getElem?_map] at ht
    cases hc : rs[i]? with
    | none => rw [hc] at ht; cases ht
    | some rc =>
      rw [hc] at ht; cases ht
      obtain ⟨K, h1, h2, h3⟩ := decrypt_safe C m rs h rc (List.mem_of_getElem? hc)
      exact ⟨K, h1, h2, safe_weaken (fun r hr => ⟨rc, hc, hr⟩) h3⟩
  obtain ⟨h1, h2⟩ := safeAll_exec sched hs
  refine ⟨h2 _ upToKey_stable ⟨m.base.key, rfl⟩, fun i r hr => ?_⟩
  obtain ⟨rc, hc, hres⟩ := h1 i r hr
  refine ⟨rc, hc, ?_⟩
  rw [hres, Enc.decryptT_alone, valOf, map_eq_bind]
  have := decrypt_agrees (C := C) (r := rc) (m := m)
  generalize (Enc.decryptE C rc).run m = x at this
  obtain ⟨x, s⟩ := x
  cases x with
  | ok a => rw [agrees_of_ok this rfl]; rfl
  | error e => rw [agrees_of_error this rfl]; rfl

/-- Whatever content keys the recipients carry: what a call of `decrypt` returns or raises, one of the calls returns or raises alone.  A
call whose own recipient gives no key raises what it raises alone.  So no execution returns a plaintext that no recipient can obtain. -/
theorem c99_decrypt_any (C : Crypto) (m : Enc) (rs : List Rcpt) (sched : List Nat) :
    Spec.UpToKey m (Spec.After m (rs.map (Enc.decryptT C)) sched) ∧
    ∀ i r, Spec.Returns m (rs.map (Enc.decryptT C)) sched i r →
      ∃ rc, rs[i]? = some rc ∧ (r = ((m.decrypt C rc).map fun x => .bytes x.1) ∨
        (∃ k, Spec.CarriesKey C m rc k) ∧ ∃ rc' ∈ rs, r = (m.decrypt C rc').map fun x => .bytes x.1) := by
  have halone : ∀ rc, ((Enc.decryptT C rc).alone m).1 = (m.decrypt C rc).map fun x => .bytes x.1 := by
    intro rc
    rw [Enc.decryptT_alone, valOf, map_eq_bind]
    have := decrypt_agrees (C := C) (r := rc) (m := m)
    generalize (Enc.decryptE C rc).run m = x at this
    obtain ⟨x, s⟩ := x
    cases x with
    | ok a => rw [agrees_of_ok this rfl]; rfl
    | error e => rw [agrees_of_error this rfl]; rfl
  have hs : SafeAll (KeyChange (Assigned C m rs)) (fun i r => ∃ rc, rs[i]? = some rc ∧ (r = ((Enc.decryptT C rc).alone m).1 ∨
      (∃ k, Spec.CarriesKey C m rc k) ∧ ∃ rc' ∈ rs, r = ((Enc.decryptT C rc').alone m).1)) (m, rs.map (Enc.decryptT C)) := by
    intro i t ht
    simp only [List.getElem?_map] at ht
    cases hc : rs[i]? with
    | none => rw [hc] at ht; cases ht
    | some rc =>
      rw [hc] at ht; cases ht
      obtain ⟨K, h1, h2, h3⟩ := decrypt_mixed C m rs rc (List.mem_of_getElem? hc)
      exact ⟨K, h1, h2, safe_weaken (fun r hr => ⟨rc, hc, hr⟩) h3⟩
  obtain ⟨h1, h2⟩ := safeAll_exec sched hs
  refine ⟨h2 _ upToKey_stable ⟨m.base.key, rfl⟩, fun i r hr => ?_⟩
  obtain ⟨rc, hc, hres⟩ := h1 i r hr
  refine ⟨rc, hc, ?_⟩
  simp only [halone] at hres
  exact hres

/-- The recipients of a message that has been encoded are settled. -/
theorem c99_settled {C : Crypto} {R : Rand} {m m' : Enc} {tag : Bool} {out : Bytes} (hR : ∀ n, (R.cek n).length = n)
    (h : m.encode C R tag true = .ok (out, m')) : ∀ r ∈ m'.recipients, Spec.Settled r := by
  have := enc_encode_agrees (C := C) (R := R) (tag := tag) (e := true) (m := m)
  rw [h] at this
  have hrun : (Enc.encodeE C R tag true).run m = (.ok out, m') := this
  have hpost : Post (Enc.encodeE C R tag true) m fun m' => ∀ r ∈ m'.recipients, Spec.Settled r := by
    refine post_exprBind fun pe _ => post_exprBind fun uh _ => ?_
    refine post_bind (post_encrypt hR) fun c m1 h1 => ?_
    refine post_read (f := id) (post_ite (fun he => post_expr ?_) fun _ => post_exprBind fun _ _ => ?_)
    · have : m1.recipients = [] := by simpa using he
      rw [this]; simp
    · refine post_bind (P := fun m' => ∀ r ∈ m'.recipients, Spec.Settled r) ?_ fun _ m' h => post_expr h
      intro vs m2 hr
      have h2 : (rcptsEncodeE C R [] 0 m1.recipients).1 = .ok vs := congrArg Prod.fst hr
      cases (congrArg Prod.snd hr : _ = m2)
      intro r hr
      exact ⟨encodeAll_cek (Prod.ext h2 rfl) h1 r hr, keyedAll_mem (encode_keyedAll _ _ _ (Prod.ext h2 rfl)) r hr⟩
  exact hpost _ _ hrun

/-- A call of `encode` on a COSE_Encrypt message: what the library draws during the call, and its arguments. -/
structure Spec.EncEncode where
  rand : Rand
  tag : Bool
  encrypt : Bool

/-- Any number of threads may encode one COSE_Encrypt message at the same time if its recipients are settled, as they are once the message
has been encoded before (`c99_settled`): every call returns or raises what it does alone. -/
theorem c99_encode_partial (C : Crypto) (m : Enc) (hset : ∀ r ∈ m.recipients, Spec.Settled r) (calls : List Spec.EncEncode) (sched : List Nat) :
    Spec.UpToKey m (Spec.After m (calls.map fun c => Enc.encodeT C c.rand c.tag c.encrypt) sched) ∧
    ∀ i r, Spec.Returns m (calls.map fun c => Enc.encodeT C c.rand c.tag c.encrypt) sched i r →
      ∃ c, calls[i]? = some c ∧ r = (m.encode C c.rand c.tag c.encrypt).map fun x => .bytes x.1 := by
  have hs : SafeAll (KeyChange (Spec.AssignsKey C m)) (fun i r => ∃ c, calls[i]? = some c ∧
      r = ((Enc.encodeT C c.rand c.tag c.encrypt).alone m).1) (m, calls.map fun c => Enc.encodeT C c.rand c.tag c.encrypt) := by
    intro i t ht
    simp only [List.getElem?_map] at ht
    cases hc : calls[i]? with
    | none => rw [hc] at ht; cases ht
    | some c =>
      rw [hc] at ht; cases ht
      exact ⟨_, encBefore_stable C m, encBefore_self m, safe_weaken (fun r hr => ⟨c, hc, hr⟩) (safeAt_encode C m c.rand c.tag c.encrypt hset)⟩
  obtain ⟨h1, h2⟩ := safeAll_exec sched hs
  refine ⟨h2 _ upToKey_stable ⟨m.base.key, rfl⟩, fun i r hr => ?_⟩
  obtain ⟨c, hc, hres⟩ := h1 i r hr
  refine ⟨c, hc, ?_⟩
  rw [hres, Enc.encodeT_alone, valOf, map_eq_bind]
  have := enc_encode_agrees (C := C) (R := c.rand) (tag := c.tag) (e := c.encrypt) (m := m)
  generalize (Enc.encodeE C c.rand c.tag c.encrypt).run m = x at this
  obtain ⟨x, s⟩ := x
  cases x with
  | ok a => rw [agrees_of_ok this rfl]; rfl
  | error e => rw [agrees_of_error this rfl]; rfl

/-! ### Where the code is not safe -/

/-- The receiver decodes the bytes that a call of `encode` returned, gives the first recipient the key `k` and decrypts. -/
def Spec.opens (C : Crypto) (k : Key) (aad : Bytes) : Res Val → Res Bytes
  | .ok (.bytes out) => do
    match ← decode C .any false out with
    | .enc m => match m.recipients with
      | [] => .error .indexError
      | r :: t => do
        let r := r.receiver k []
        let (p, _) ← Enc.decrypt C { base := { m.base with aad := aad }, recipients := r :: t } r
        .ok p
    | _ => .error .typeError
  | .ok _ => .error .typeError
  | .error e => .error e

/-- The receiver decodes the bytes that a call of `encode` returned and verifies the signature with the key `k`. -/
def Spec.verifies (C : Crypto) (k : Key) (aad : Bytes) : Res Val → Res Bool
  | .ok (.bytes out) => do
    match ← decode C .any false out with
    | .sign1 m => ({ m with base := { m.base with aad := aad, key := some k } } : Sign1).verifySignature C none
    | _ => .error .typeError
  | .ok _ => .error .typeError
  | .error e => .error e

/-- Some thread has finished with a result that satisfies `p`. -/
def finishedWith {σ : Type} (t : Option (Thr σ Val)) (p : Res Val → Bool) : Bool :=
  match t with
  | some (.done r) => p r
  | _ => false

theorem finishedWith_returns {σ : Type} {m : σ} {ts : List (Thr σ Val)} {sched : List Nat} {i : Nat} {p : Res Val → Bool}
    (h : finishedWith (exec sched (m, ts)).2[i]? p = true) : ∃ r, Spec.Returns m ts sched i r ∧ p r = true := by
  unfold Spec.Returns
  cases ht : (exec sched (m, ts)).2[i]? with
  | none => rw [ht] at h; cases h
  | some t =>
    rw [ht] at h
    cases t with
    | done r => exact ⟨r, rfl, h⟩
    | step f k => cases h

def Sample.encOne : Enc := { Sample.encKw with recipients := [Sample.kwRcpt 1] }

/-- **C99** is false of the code: two threads encode one new message for a key-wrap recipient.  Alone, each call gives bytes that the
recipient can decrypt.  In this execution one of them gives bytes that the recipient cannot decrypt: both threads find the recipient
without a content key, and each gives it the key it has drawn itself. -/
theorem c99_encode_race :
    Spec.opens toy Sample.symKey b!"aad" ((Sample.encOne.encode toy Sample.rand true true).map fun x => .bytes x.1) = .ok b!"hello" ∧
    Spec.opens toy Sample.symKey b!"aad" ((Sample.encOne.encode toy Sample.randOther true true).map fun x => .bytes x.1) = .ok b!"hello" ∧
    ∃ sched r, Spec.Returns Sample.encOne [Enc.encodeT toy Sample.rand true true, Enc.encodeT toy Sample.randOther true true] sched 1 r ∧
      r.isOk = true ∧ Spec.opens toy Sample.symKey b!"aad" r = .error .crypto := by
  refine ⟨by decide +kernel, by decide +kernel, ?_⟩
  obtain ⟨r, h1, h2⟩ := finishedWith_returns (m := Sample.encOne)
    (ts := [Enc.encodeT toy Sample.rand true true, Enc.encodeT toy Sample.randOther true true])
    (sched := List.replicate 12 0 ++ List.replicate 13 1 ++ List.replicate 60 0 ++ List.replicate 60 1) (i := 1)
    (p := fun r => r.isOk && decide (Spec.opens toy Sample.symKey b!"aad" r = .error .crypto)) (by decide +kernel)
  simp only [Bool.and_eq_true, decide_eq_true_eq] at h2
  exact ⟨_, r, h1, h2⟩

/-- **C99** is false of the code: one thread encodes a signed message while another replaces its payload.  The bytes returned hold one
payload and the signature of the other. -/
theorem c99_payload_race :
    (∀ p ∈ [b!"hello", b!"other"], Spec.verifies toy Sample.ecPubKey b!"aad"
      ((({ Sample.sign1 with base := { Sample.sign1.base with payload := some p } } : Sign1).encode toy [] true true none).map .bytes) = .ok true) ∧
    ∃ sched r, Spec.Returns Sample.sign1 [Sign1.encodeT toy [] true true none, Sign1.setPayloadT (some b!"other")] sched 0 r ∧
      Spec.verifies toy Sample.ecPubKey b!"aad" r = .ok false := by
  refine ⟨by decide +kernel, ?_⟩
  obtain ⟨r, h1, h2⟩ := finishedWith_returns (m := Sample.sign1)
    (ts := [Sign1.encodeT toy [] true true none, Sign1.setPayloadT (some b!"other")])
    (sched := List.replicate 6 0 ++ [1] ++ List.replicate 60 0) (i := 0)
    (p := fun r => decide (Spec.verifies toy Sample.ecPubKey b!"aad" r = .ok false)) (by decide +kernel)
  exact ⟨_, r, h1, by simpa using h2⟩

/-- A message from the wire, with the receiver's keys. -/
def Sample.encRecv : Enc :=
  match Sample.encKw.encode toy Sample.rand true true with
  | .ok (o, _) => match decode toy .any false o with
    | .ok (.enc m) => { base := { m.base with aad := b!"aad" }, recipients := m.recipients.map fun r => r.receiver Sample.symKey [] }
    | _ => Sample.encKw
  | _ => Sample.encKw

/-- A recipient that carries another content key. -/
def Sample.stray : Rcpt :=
  (Sample.kwRcpt 7).withBase { (Sample.kwRcpt 7).base with payload := some (List.replicate 8 5 ++ List.replicate 16 8) }

def Sample.encWithStray : Enc := { Sample.encRecv with recipients := Sample.encRecv.recipients ++ [Sample.stray] }

/-- **C99** is false of the code: a message has two recipients with different content keys, of which only the first opens it.  Alone,
`decrypt` with the second raises.  In this execution it returns the plaintext, because the key of the first has been assigned to the
message in between. -/
theorem c99_decrypt_race : ∃ first, Sample.encWithStray.recipients[0]? = some first ∧
    (∃ m', Sample.encWithStray.decrypt toy first = .ok (b!"hello", m')) ∧
    Sample.encWithStray.decrypt toy Sample.stray = .error .crypto ∧
    ∃ sched, Spec.Returns Sample.encWithStray [Enc.decryptT toy first, Enc.decryptT toy Sample.stray] sched 1 (.ok (.bytes b!"hello")) := by
  obtain ⟨⟨p, m'⟩, hd, hp⟩ := res_any (r := Sample.encWithStray.decrypt toy (Sample.encWithStray.recipients.headD Sample.stray)) (p := fun x => x.1 = b!"hello")
    (by decide +kernel)
  cases of_decide_eq_true hp
  refine ⟨(Sample.encWithStray.recipients.headD Sample.stray), by decide +kernel, ⟨m', hd⟩, by decide +kernel, ?_⟩
  obtain ⟨r, h1, h2⟩ := finishedWith_returns (m := Sample.encWithStray)
    (ts := [Enc.decryptT toy (Sample.encWithStray.recipients.headD Sample.stray), Enc.decryptT toy Sample.stray])
    (sched := List.replicate 5 1 ++ List.replicate 60 0 ++ List.replicate 60 1) (i := 1)
    (p := fun r => decide (r = .ok (.bytes b!"hello"))) (by decide +kernel)
  cases (of_decide_eq_true h2)
  exact ⟨_, h1⟩

/-! ### Concrete cases -/

/-- Two recipients with different content keys: under every schedule the second call gives the plaintext of the first or its own
exception, nothing else. -/
example (sched : List Nat) (r : Res Val)
    (h : Spec.Returns Sample.encWithStray ([Sample.encWithStray.recipients.headD Sample.stray, Sample.stray].map (Enc.decryptT toy)) sched 1 r) :
    r = .error .crypto ∨ r = .ok (.bytes b!"hello") := by
  obtain ⟨rc, hc, hr⟩ := (c99_decrypt_any toy Sample.encWithStray _ sched).2 1 r h
  cases hc
  have h1 : (Sample.encWithStray.decrypt toy Sample.stray).map (fun x => Val.bytes x.1) = .error .crypto := by decide +kernel
  have h2 : (Sample.encWithStray.decrypt toy (Sample.encWithStray.recipients.headD Sample.stray)).map (fun x => Val.bytes x.1) =
      .ok (.bytes b!"hello") := by decide +kernel
  rcases hr with rfl | ⟨_, rc', hm, rfl⟩
  · exact .inl h1
  · simp only [List.mem_cons, List.not_mem_nil, or_false] at hm
    rcases hm with rfl | rfl
    · exact .inr h2
    · exact .inl h1


/-- Three calls on one signed message: under every schedule the signature that `encode` writes is the one of the message. -/
example (sched : List Nat) (r : Res Val)
    (h : Spec.Returns Sample.sign1 ([.sign [] none, .encode [] true true none, .verify none].map (Spec.Sign1Call.thread toy)) sched 1 r) :
    Spec.verifies toy Sample.ecPubKey b!"aad" r = .ok true := by
  obtain ⟨call, hc, rfl⟩ := (c99_sign1 toy Sample.sign1 _ sched).2 1 r h
  cases hc
  decide +kernel

/-- One thread verifies a message without a tag while another encodes it: the bytes are those that `encode` gives alone, and the tag
verified is either the missing one or the new one. -/
example (sched : List Nat) (r : Res Val)
    (h : Spec.Returns Sample.mac0 ([.encode true true, .verify].map (Spec.Mac0Call.thread toy)) sched 1 r) :
    r = .ok (.bool false) ∨ r = .ok (.bool true) := by
  obtain ⟨call, hc, hr⟩ := (c99_mac0 toy Sample.mac0 _ sched).2 1 r h
  cases hc
  rcases hr with rfl | ⟨_, t, ht, rfl⟩
  · exact .inl (by decide +kernel)
  · obtain ⟨t', ht', hv⟩ := res_any (r := Sample.mac0.computeTag toy)
      (p := fun t => decide (Spec.Mac0Call.verify.result toy { Sample.mac0 with authTag := .bytes t } = .ok (.bool true))) (by decide +kernel)
    rw [ht] at ht'; cases ht'
    exact .inr (of_decide_eq_true hv)

/-- The same for a COSE_Mac message with two direct recipients. -/
example (sched : List Nat) (i : Nat) (rand : Rand) (r : Res Val)
    (h : Spec.Returns ({ base := Sample.mac0.base, recipients := some [Sample.directRcpt 1, Sample.directRcpt 2] } : Mac)
      ([.compute rand, .compute rand].map (Spec.MacCall.thread toy)) sched i r) :
    r = (macCompute toy b!"MAC" Sample.mac0.base).map .bytes := by
  obtain ⟨call, hc, hr⟩ := (c99_mac_direct toy _ ⟨_, rfl, by intro r hr; simp at hr; rcases hr with rfl | rfl <;> rfl⟩ _ (by simp) sched).2 i r h
  have : call = .compute rand := by
    have := List.mem_of_getElem? hc
    simpa using this
  subst this
  rcases hr with rfl | ⟨h, _⟩
  · unfold Spec.MacCall.result
    obtain ⟨t, ht, _⟩ := res_any (r := macCompute toy b!"MAC" Sample.mac0.base) (p := fun _ => true) (by decide +kernel)
    rw [ht]
    have ha : Sample.mac0.base.getAttr Hdr.Algorithm = .ok (algCls 5) := by decide +kernel
    simp [Mac.computeTag, ha, ht, bind, Except.bind, verifyRecipients, Sample.directRcpt, Rcpt.cls]
    rfl
  · cases h

/-- A thread that encodes this message and one that computes its tag: both recipients have what `encode` needs. -/
example (sched : List Nat) (i : Nat) (rand : Rand) (r : Res Val)
    (h : Spec.Returns ({ base := Sample.mac0.base, recipients := some [Sample.directRcpt 1, Sample.directRcpt 2] } : Mac)
      ([.encode rand true true, .compute rand].map (Spec.MacCall.thread toy)) sched i r) :
    ∃ call ∈ ([.encode rand true true, .compute rand] : List Spec.MacCall),
      r = call.result toy { base := Sample.mac0.base, recipients := some [Sample.directRcpt 1, Sample.directRcpt 2] } := by
  obtain ⟨call, hc, hr⟩ := (c99_mac_direct toy _ ⟨_, rfl, by intro r hr; simp at hr; rcases hr with rfl | rfl <;> rfl⟩ _
    (fun _ _ _ _ rs hrs r hin => by
      cases hrs; simp at hin; rcases hin with rfl | rfl <;> trivial) sched).2 i r h
  have hin := List.mem_of_getElem? hc
  refine ⟨call, hin, ?_⟩
  rcases hr with rfl | ⟨h, _⟩
  · rfl
  · subst h; simp at hin

/-- A message whose key is agreed with its recipient, encoded by one thread while another computes its tag; alone, `encode` succeeds. -/
example (sched : List Nat) (i : Nat) (r : Res Val)
    (h : Spec.Returns Sample.macAgreed ([.encode Sample.rand true true, .compute Sample.rand].map (Spec.MacCall.thread toy)) sched i r) :
    (∃ v, Spec.MacCall.result toy Sample.macAgreed (.encode Sample.rand true true) = .ok v) ∧
    ∃ call ∈ ([.encode Sample.rand true true, .compute Sample.rand] : List Spec.MacCall), r = call.result toy Sample.macAgreed := by
  obtain ⟨v, hv, _⟩ := res_any (r := Spec.MacCall.result toy Sample.macAgreed (.encode Sample.rand true true)) (p := fun _ => true)
    (by decide +kernel)
  obtain ⟨call, hc, hr⟩ := (c99_mac_agreement toy Sample.macAgreed ⟨_, rfl, by decide +kernel⟩ _ (by simp)
    (fun _ _ _ _ rs hrs r hin => by
      cases hrs; simp at hin; subst hin
      exact ⟨fun _ => by simp, trivial⟩) sched).2 i r h
  exact ⟨⟨v, hv⟩, call, List.mem_of_getElem? hc, hr⟩

/-- Two threads use a COSE_Mac message with a key-wrap recipient: in this execution both calls end, and both with `NameError`. -/
example : ∃ sched r r', Spec.Wrapping { base := Sample.mac0Aes.base, recipients := some Sample.encOne.recipients } ∧
    Spec.Returns ({ base := Sample.mac0Aes.base, recipients := some Sample.encOne.recipients } : Mac)
      ([.compute Sample.rand, .encode Sample.rand true true].map (Spec.MacCall.thread toy)) sched 0 r ∧
    Spec.Returns ({ base := Sample.mac0Aes.base, recipients := some Sample.encOne.recipients } : Mac)
      ([.compute Sample.rand, .encode Sample.rand true true].map (Spec.MacCall.thread toy)) sched 1 r' ∧
    r = .error .nameError ∧ r' = .error .nameError := by
  have hp : ∀ i, i < 2 → _ := fun i hi => finishedWith_returns (m := ({ base := Sample.mac0Aes.base, recipients := some Sample.encOne.recipients } : Mac))
    (ts := [.compute Sample.rand, .encode Sample.rand true true].map (Spec.MacCall.thread toy))
    (sched := List.replicate 7 0 ++ List.replicate 40 1 ++ List.replicate 40 0) (i := i)
    (p := fun r => decide (r = .error .nameError)) (by
      match i, hi with
      | 0, _ => decide +kernel
      | 1, _ => decide +kernel)
  obtain ⟨r, h1, h2⟩ := hp 0 (by omega)
  obtain ⟨r', h3, h4⟩ := hp 1 (by omega)
  exact ⟨_, r, r', ⟨_, rfl, _, List.mem_cons_self, .inl rfl⟩, h1, h3, of_decide_eq_true h2, of_decide_eq_true h4⟩

/-- The receivers of the two recipients of one message decrypt at the same time. -/
example (sched : List Nat) (i : Nat) (r : Res Val)
    (h : Spec.Returns Sample.encRecv (Sample.encRecv.recipients.map (Enc.decryptT toy)) sched i r) : r = .ok (.bytes b!"hello") := by
  have ha : Sample.encRecv.base.getAttr Hdr.Algorithm = .ok (algCls 1) := by decide +kernel
  have hsame : ∀ rc ∈ Sample.encRecv.recipients, rcptComputeCek toy rc (algCls 1) =
      rcptComputeCek toy (Sample.encRecv.recipients.headD Sample.stray) (algCls 1) := by decide +kernel
  have hk : ∀ rc ∈ Sample.encRecv.recipients, ∀ k, Spec.CarriesKey toy Sample.encRecv rc k →
      rcptComputeCek toy (Sample.encRecv.recipients.headD Sample.stray) (algCls 1) = .ok k := by
    rintro rc hrc k ⟨target, ht, hc⟩
    rw [ha] at ht; cases ht
    rw [← hsame rc hrc, hc]
  have hall : ∀ rc ∈ Sample.encRecv.recipients, (Sample.encRecv.decrypt toy rc).map (fun x => Val.bytes x.1) = .ok (Val.bytes b!"hello") := by decide +kernel
  obtain ⟨rc, hc, rfl⟩ := (c99_decrypt_partial toy Sample.encRecv _ (fun r hr r' hr' k k' h h' => by
    have := (hk r hr k h).symm.trans (hk r' hr' k' h')
    cases this; rfl) sched).2 i r h
  exact hall rc (List.mem_of_getElem? hc)

/-- A message that has been encoded once is encoded again by any number of threads. -/
example : ∃ out m1, Sample.encTwo.encode toy Sample.rand true true = .ok (out, m1) ∧ ∀ (n : Nat) (sched : List Nat) (i : Nat) (r : Res Val),
    Spec.Returns m1 (List.replicate n (Enc.encodeT toy Sample.randOther true true)) sched i r →
      r = (m1.encode toy Sample.randOther true true).map fun x => .bytes x.1 := by
  obtain ⟨⟨out, m1⟩, h, _⟩ := res_any (r := Sample.encTwo.encode toy Sample.rand true true) (p := fun _ => true) (by decide +kernel)
  refine ⟨out, m1, h, fun n sched i r hr => ?_⟩
  have hset := c99_settled (fun n => List.length_replicate ..) h
  obtain ⟨c, hc, rfl⟩ := (c99_encode_partial toy m1 hset (List.replicate n ⟨Sample.randOther, true, true⟩) sched).2 i r (by
    simpa using hr)
  have := List.eq_of_mem_replicate (List.mem_of_getElem? hc)
  rw [this]

end Cose
