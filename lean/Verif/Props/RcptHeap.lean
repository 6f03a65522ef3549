import Verif.RcptHeapLemmas
import Verif.Props.Reuse
/-!
# Recipient objects shared between messages (C85)
-/
set_option autoImplicit false
namespace Cose
open Eff

/-! ### Specification -/

/-- The message with attributes `b` holds a symmetric key with the bytes `kb`. -/
def Spec.HoldsKey (b : Base) (kb : Bytes) : Prop := ∃ k, b.key = some k ∧ k.symK = .ok (.bytes kb)

/-- All recipients listed in message `i` are of a class to which the content key is wrapped. -/
def Spec.WrappedIn (w : World) (i : Nat) : Prop :=
  ∀ a ∈ (w.msg i).2, (w.heap a).cls = .keyWrap ∨ (w.heap a).cls = .keyAgreementWithKeyWrap

/-- The calls that protect a message: `encrypt()` and `encode()`. -/
inductive Spec.Protects (C : Crypto) (R : Rand) : Eff EncW Bytes → Prop
  | encrypt : Spec.Protects C R (EncW.encrypt C R)
  | encode (tag : Bool) : Spec.Protects C R (EncW.encode C R tag true)

/-- The action does not concern message `i` or the recipients in `l`, and does not put them into another message. -/
def Spec.Apart (i : Nat) (l : List Nat) : WorldOp → Prop
  | .setRcpt a _ => a ∉ l
  | .setMsg j _ => j ≠ i
  | .setList j l' => j ≠ i ∧ ∀ a ∈ l', a ∉ l
  | .encrypt j _ => j ≠ i
  | .encode j _ _ _ => j ≠ i
  | .decrypt j _ => j ≠ i

/-! ### Lemmas -/

theorem finish_base {C : Crypto} {R : Rand} {tag : Bool} {vs : List Val} {b : Base} : Keeps (fun w : EncW => w.base = b) (EncW.finish C R tag vs) := by
  unfold EncW.finish
  refine ⟨fun w hw => ?_⟩
  rw [self_bind]
  exact Keeps.run (P := fun w : EncW => w.base = b) (.ite .expr (.bind .expr fun _ => .bind ⟨fun _ hs => hs⟩ fun _ => .expr)) w hw

theorem lasting_payload {a : Nat} {p : Option Bytes} (hp : p ≠ some []) : Lasting fun b r => b = a → r.base.payload = p := by
  refine ⟨fun b key r h e => ?_, fun b r r' ht h e => ?_⟩
  · have := h e
    unfold giveKey
    rw [if_neg (by rw [this]; exact hp)]
    exact this
  · rw [(triedR_payload ht).2]; exact h e

/-- What a successful `encrypt()` for wrap recipients has done. -/
theorem encryptW_wrapped {C : Crypto} {R : Rand} {w w' : EncW} {c : Bytes} (h : (EncW.encrypt C R).run w = (.ok c, w'))
    (hw : ∀ a ∈ w.addrs, (w.heap a).cls = .keyWrap ∨ (w.heap a).cls = .keyAgreementWithKeyWrap) :
    ∃ target n kb k, w.base.getAttr Hdr.Algorithm = .ok target ∧ algKeyLength target = .ok n ∧
      wrapLoopH C R 0 (some (R.cek n)) w.addrs w.heap = (.ok kb, w'.heap) ∧ mkSym (optBytes kb) target [Op.Encrypt] = .ok k ∧
      w'.base = { w.base with key := some k } := by
  have hw : Spec.Wrapped ⟨w.base, w.recipients⟩ := by
    intro r hr
    obtain ⟨a, ha, rfl⟩ := List.mem_map.mp hr
    exact hw a ha
  unfold EncW.encrypt at h
  rw [expr_bind] at h
  split at h
  rotate_left
  · cases h
  rename_i target ht
  rw [expr_bind] at h
  split at h
  rotate_left
  · cases h
  rename_i types hv
  obtain ⟨rfl, _⟩ := verifyRecipients_iff.mp hv
  obtain ⟨k1, k2⟩ := kw_not_direct hw
  rw [if_neg (by rw [k1]; decide), if_neg (by rw [k2]; decide)] at h
  split at h
  rotate_left
  · cases h
  rw [expr_bind] at h
  split at h
  rotate_left
  · cases h
  rename_i n hn
  rw [self_bind, eff_bind, call_run] at h
  split at h
  rotate_left
  · cases h
  rename_i kb w1 hl
  obtain ⟨e1, e2⟩ := Prod.mk.inj hl
  subst e2
  rw [expr_bind] at h
  split at h
  rotate_left
  · cases h
  rename_i k hk
  rw [eff_bind, call_run] at h
  simp only [assignKey, assign_run] at h
  rw [expr_run] at h
  obtain ⟨_, e3⟩ := Prod.mk.inj h
  subst e3
  exact ⟨target, n, kb, k, ht, hn, by rw [← e1], hk, rfl⟩

/-- `encode` leaves the message and the recipients' content keys as `encrypt` has left them. -/
theorem protects_wrapped {C : Crypto} {R : Rand} {m : Eff EncW Bytes} (hm : Spec.Protects C R m) {w w' : EncW} {c : Bytes}
    (h : m.run w = (.ok c, w'))
    (hw : ∀ a ∈ w.addrs, (w.heap a).cls = .keyWrap ∨ (w.heap a).cls = .keyAgreementWithKeyWrap) :
    ∃ target n kb k h1, w.base.getAttr Hdr.Algorithm = .ok target ∧ algKeyLength target = .ok n ∧
      wrapLoopH C R 0 (some (R.cek n)) w.addrs w.heap = (.ok kb, h1) ∧ mkSym (optBytes kb) target [Op.Encrypt] = .ok k ∧
      w'.base = { w.base with key := some k } ∧ ∀ a, (h1 a).base.payload ≠ some [] → (w'.heap a).base.payload = (h1 a).base.payload := by
  cases hm with
  | encrypt =>
    obtain ⟨target, n, kb, k, e1, e2, e3, e4, e5⟩ := encryptW_wrapped h hw
    exact ⟨target, n, kb, k, _, e1, e2, e3, e4, e5, fun _ _ => rfl⟩
  | encode tag =>
    unfold EncW.encode at h
    rw [expr_bind] at h
    split at h
    rotate_left
    · cases h
    rename_i pe _
    rw [expr_bind] at h
    simp only [if_true] at h
    rw [eff_bind] at h
    split at h
    rotate_left
    · cases h
    rename_i c1 w1 hc
    obtain ⟨target, n, kb, k, e1, e2, e3, e4, e5⟩ := encryptW_wrapped hc hw
    refine ⟨target, n, kb, k, _, e1, e2, e3, e4, ?_, fun a ha => ?_⟩
    · have := (finish_base (C := C) (R := R) (tag := tag) (vs := [.bytes pe, .map w.base.uhdr, .bytes c1]) (b := w1.base)).run w1 rfl
      rw [h] at this
      rw [this, e5]
    · have := (finish_keeps (C := C) (R := R) (h := w1.heap) (l := w1.addrs) (lasting_payload ha) (tag := tag) (vs := [.bytes pe, .map w.base.uhdr, .bytes c1])).run w1 ⟨rfl, fun _ _ => rfl, fun b e => by rw [e]⟩
      rw [h] at this
      exact this.all a rfl

theorem wrapLoopH_append {C : Crypto} {R : Rand} : ∀ (l1 : List Nat) {l2 : List Nat} {i : Nat} {key kb : Option Bytes} {h h' : RHeap},
    wrapLoopH C R i key (l1 ++ l2) h = (.ok kb, h') →
    ∃ k1 h1, wrapLoopH C R i key l1 h = (.ok k1, h1) ∧ wrapLoopH C R (i + l1.length) k1 l2 h1 = (.ok kb, h')
  | [], l2, i, key, kb, h, h', e => ⟨key, h, rfl, e⟩
  | a :: t, l2, i, key, kb, h, h', e => by
    simp only [List.cons_append, wrapLoopH] at e ⊢
    split at e
    · cases e
    rename_i r' hr
    obtain ⟨k1, h1, e1, e2⟩ := wrapLoopH_append t e
    refine ⟨k1, h1, e1, ?_⟩
    rw [List.length_cons, Nat.add_comm t.length 1, ← Nat.add_assoc]
    exact e2

theorem mkSym_holds {kb : Option Bytes} {q : Bytes} {target : Val} {k : Key} (e : kb = some q) (h : mkSym (optBytes kb) target [Op.Encrypt] = .ok k) :
    k.symK = .ok (.bytes q) := by
  subst e
  exact symK_mkSym h

/-- A content key is never empty. -/
theorem mkSym_nonempty {q : Bytes} {target : Val} {n : Nat} {k : Key} (hn : algKeyLength target = .ok n)
    (h : mkSym (.bytes q) target [Op.Encrypt] = .ok k) : q ≠ [] := by
  obtain ⟨i, rfl, hl⟩ := algKeyLength_id hn
  have hf : ∃ f, algFam (algCls i) = some f := by
    unfold algKeyLength at hn
    split at hn <;> first | exact ⟨_, by assumption⟩ | simp at hn
  obtain ⟨f, hf⟩ := hf
  obtain ⟨nm, hreg⟩ := algReg_of hf
  obtain ⟨kb2, e, hlen, rfl⟩ := mkSym_ok hreg (ops := [Op.Encrypt]) (fun o ho => opReg o (by simp at ho; simp [ho])) h
  cases e
  intro hz; subst hz; simp at hlen

theorem call_mk {α : Type} {w w' : World} {i : Nat} {m : Eff EncW α} {x : Res α} (h : w.call i m = (x, w')) :
    m.run ⟨w.heap, (w.msg i).1, (w.msg i).2⟩ = (x, ⟨w'.heap, (w'.msg i).1, (w'.msg i).2⟩) ∧ ∀ j, j ≠ i → w'.msg j = w.msg j := by
  unfold World.call at h
  dsimp only at h
  obtain ⟨h1, h2⟩ := Prod.mk.inj h
  subst h1
  subst h2
  refine ⟨?_, fun j hj => by simp [hj]⟩
  simp

/-! ### C85 -/

/-- **C85**, the part that holds: when none of the recipients listed in a message has a content key yet, then the message is encrypted with
the key drawn in this call, of the length of the content algorithm, and all recipients get this key: also those listed more than once.
Missing: recipients that have been used in another message (`c85_shared`). -/
theorem c85_fresh_partial {C : Crypto} {R : Rand} {m : Eff EncW Bytes} (hm : Spec.Protects C R m) {w w' : World} {i : Nat} {out : Bytes}
    (hw : Spec.WrappedIn w i) (hp : ∀ a ∈ (w.msg i).2, (w.heap a).base.payload = some []) (h : w.call i m = (.ok out, w')) :
    ∃ alg n, (w.msg i).1.getAttr Hdr.Algorithm = .ok (algCls alg) ∧ Spec.keyLength alg = some n ∧ Spec.HoldsKey (w'.msg i).1 (R.cek n) ∧
      ∀ a ∈ (w.msg i).2, (w'.heap a).base.payload = some (R.cek n) := by
  obtain ⟨target, n, kb, k, h1, e1, e2, e3, e4, e5, e6⟩ := protects_wrapped hm (call_mk h).1 hw
  simp only at e1 e3 e5 e6
  obtain ⟨hk, hall⟩ := wrapLoopH_uniform _ (fun a ha => .inl (hp a ha)) e3
  have hne : R.cek n ≠ [] := by subst hk; exact mkSym_nonempty e2 e4
  obtain ⟨alg, rfl, hl⟩ := algKeyLength_id e2
  refine ⟨alg, n, e1, hl, ⟨k, by rw [e5], mkSym_holds hk e4⟩, fun a ha => ?_⟩
  have := hall a (.inl ha)
  rw [e6 a (by rw [this]; simpa using hne), this]

/-- C85: a recipient object keeps the content key it has been given, through everything that is done in the program with any message, until
the application changes the recipient. -/
theorem c85_sticky {C : Crypto} {a : Nat} {p : Option Bytes} (hp : p ≠ some []) {ops : List WorldOp} (ho : ∀ r, WorldOp.setRcpt a r ∉ ops)
    {w : World} (h : (w.heap a).base.payload = p) : ((w.run C ops).heap a).base.payload = p := by
  induction ops generalizing w with
  | nil => exact h
  | cons o t ih =>
    refine ih (fun r hr => ho r (by simp [hr])) ?_
    have hin : ∀ i : Nat, Within w.heap (w.msg i).2 (fun b r => b = a → r.base.payload = p) ⟨w.heap, (w.msg i).1, (w.msg i).2⟩ :=
      fun i => ⟨rfl, fun _ _ => rfl, fun b e => by subst e; exact h⟩
    cases o with
    | setRcpt b r =>
      have : b ≠ a := by rintro rfl; exact ho r (by simp)
      simp only [World.step]
      rw [put_other (Ne.symm this)]
      exact h
    | setMsg i b => exact h
    | setList i l => exact h
    | encrypt i R => exact ((encrypt_keeps (C := C) (R := R) (lasting_payload hp)).run _ (hin i)).all a rfl
    | encode i R tag e => exact ((encode_keeps (C := C) (R := R) (lasting_payload hp)).run _ (hin i)).all a rfl
    | decrypt i b =>
      have := (decrypt_keeps (C := C) (h := w.heap) (l := (w.msg i).2) (a := b)).run ⟨w.heap, (w.msg i).1, (w.msg i).2⟩ ⟨rfl, rfl⟩
      show ((((EncW.decrypt C b).run ⟨w.heap, (w.msg i).1, (w.msg i).2⟩).2.heap) a).base.payload = p
      rw [this.2]; exact h

/-- C85: a message whose first recipient has a content key is encrypted with that key, whatever is drawn. -/
theorem c85_reused {C : Crypto} {R : Rand} {m : Eff EncW Bytes} (hm : Spec.Protects C R m) {w w' : World} {i a : Nat} {t : List Nat}
    {q out : Bytes} (hw : Spec.WrappedIn w i) (hl : (w.msg i).2 = a :: t) (ha : (w.heap a).base.payload = some q) (hq : q ≠ [])
    (ht : ∀ b ∈ t, (w.heap b).base.payload = some [] ∨ (w.heap b).base.payload = some q) (h : w.call i m = (.ok out, w')) :
    Spec.HoldsKey (w'.msg i).1 q ∧ ∀ b ∈ (w.msg i).2, (w'.heap b).base.payload = some q := by
  obtain ⟨target, n, kb, k, h1, e1, e2, e3, e4, e5, e6⟩ := protects_wrapped hm (call_mk h).1 hw
  simp only at e1 e3 e5 e6
  rw [hl] at e3
  have hg : giveKey (some (R.cek n)) (w.heap a) = (some q, w.heap a) := by
    unfold giveKey; rw [if_neg (by rw [ha]; simpa using hq), ha]
  have e3' : wrapLoopH C R 0 (some q) (a :: t) w.heap = (.ok kb, h1) := by
    have hg' : giveKey (some q) (w.heap a) = (some q, w.heap a) := by
      unfold giveKey; rw [if_neg (by rw [ha]; simpa using hq), ha]
    simp only [wrapLoopH, hg, hg'] at e3 ⊢
    exact e3
  obtain ⟨hk, hall⟩ := wrapLoopH_uniform _ (fun b hb => by
    rcases List.mem_cons.mp hb with rfl | hb
    · exact .inr ha
    · exact ht b hb) e3'
  refine ⟨⟨k, by rw [e5], mkSym_holds hk e4⟩, fun b hb => ?_⟩
  rw [hl] at hb
  have := hall b (.inl hb)
  rw [e6 b (by rw [this]; simpa using hq), this]

/-- C85: the property fails for shared recipients.  Once message `i` has been encrypted for recipients without content key, every message
that lists one of these recipient objects first (and otherwise only recipients without content key, or others of message `i`) is
encrypted with the content key of message `i`, whatever is drawn and whatever was done in between. -/
theorem c85_shared {C : Crypto} {R R' : Rand} {m m' : Eff EncW Bytes} (hm : Spec.Protects C R m) (hm' : Spec.Protects C R' m')
    {w w1 w2 w3 : World} {i j a : Nat} {t : List Nat} {out out' : Bytes} {ops : List WorldOp}
    (hw : Spec.WrappedIn w i) (hp : ∀ a ∈ (w.msg i).2, (w.heap a).base.payload = some []) (h : w.call i m = (.ok out, w1))
    (ha : a ∈ (w.msg i).2) (ho : ∀ b ∈ (w.msg i).2, ∀ r, WorldOp.setRcpt b r ∉ ops) (h2 : w1.run C ops = w2)
    (hw2 : Spec.WrappedIn w2 j) (hl : (w2.msg j).2 = a :: t) (ht : ∀ b ∈ t, (w2.heap b).base.payload = some [] ∨ b ∈ (w.msg i).2)
    (h3 : w2.call j m' = (.ok out', w3)) :
    ∃ kb, Spec.HoldsKey (w1.msg i).1 kb ∧ Spec.HoldsKey (w3.msg j).1 kb := by
  obtain ⟨alg, n, g1, g2, g3, g4⟩ := c85_fresh_partial hm hw hp h
  have hne : R.cek n ≠ [] := by
    obtain ⟨target, n', kb, k, h1, e1, e2, e3, e4, e5, e6⟩ := protects_wrapped hm (call_mk h).1 hw
    simp only at e1 e3
    obtain ⟨hk, _⟩ := wrapLoopH_uniform _ (fun a ha => .inl (hp a ha)) e3
    subst hk
    have : n' = n := by
      rw [e1] at g1; cases g1
      obtain ⟨i', hi, hl'⟩ := algKeyLength_id e2
      have : alg = i' := by simpa [algCls] using hi
      subst this
      rw [g2] at hl'; exact (Option.some.inj hl').symm
    subst this
    exact mkSym_nonempty e2 e4
  have hs : ∀ b ∈ (w.msg i).2, (w2.heap b).base.payload = some (R.cek n) := by
    intro b hb
    rw [← h2]
    exact c85_sticky (by simpa using hne) (ho b hb) (g4 b hb)
  exact ⟨R.cek n, g3, (c85_reused hm' hw2 hl (hs a ha) hne (fun b hb => (ht b hb).imp_right (hs b)) h3).1⟩

/-- C85: when a recipient with a content key is listed after recipients without one, the message is encrypted with that key, but the
recipients before it are given the key drawn in this call: what they are sent is not the content key of the message. -/
theorem c85_mixed {C : Crypto} {R : Rand} {m : Eff EncW Bytes} (hm : Spec.Protects C R m) {w w' : World} {i a : Nat} {l1 l2 : List Nat}
    {q out : Bytes} (hw : Spec.WrappedIn w i) (hl : (w.msg i).2 = l1 ++ a :: l2) (h1 : ∀ b ∈ l1, (w.heap b).base.payload = some [])
    (ha : (w.heap a).base.payload = some q) (hq : q ≠ [])
    (h2 : ∀ b ∈ l2, b ∉ l1 ∧ ((w.heap b).base.payload = some [] ∨ (w.heap b).base.payload = some q)) (h : w.call i m = (.ok out, w')) :
    ∃ alg n, (w.msg i).1.getAttr Hdr.Algorithm = .ok (algCls alg) ∧ Spec.keyLength alg = some n ∧ Spec.HoldsKey (w'.msg i).1 q ∧
      (R.cek n ≠ [] → ∀ b ∈ l1, (w'.heap b).base.payload = some (R.cek n)) := by
  obtain ⟨target, n, kb, k, hp, e1, e2, e3, e4, e5, e6⟩ := protects_wrapped hm (call_mk h).1 hw
  simp only at e1 e3 e5 e6
  rw [hl] at e3
  obtain ⟨k1, hp1, f1, f2⟩ := wrapLoopH_append l1 e3
  obtain ⟨rfl, g1⟩ := wrapLoopH_uniform _ (fun b hb => .inl (h1 b hb)) f1
  have hq' : (some q : Option Bytes) ≠ some [] := by simpa using hq
  have out1 : ∀ b, b ∉ l1 → hp1 b = w.heap b := by
    intro b hb
    have := (wrapLoopH_keeps (C := C) (R := R) (Q := fun _ _ => True) ⟨fun _ _ _ _ => trivial, fun _ _ _ _ _ => trivial⟩ l1 (i := 0) (key := some (R.cek n))
      (h := w.heap) (fun _ => trivial)).2 b hb
    rw [f1] at this
    exact this
  have hal : a ∉ l1 := by
    intro hx; have := h1 a hx; rw [ha] at this; exact hq' this
  have hg : ∀ key, giveKey key (hp1 a) = (some q, hp1 a) := by
    intro key
    unfold giveKey; rw [out1 a hal, if_neg (by rw [ha]; exact hq'), ha]
  have f3 : wrapLoopH C R (0 + l1.length) (some q) (a :: l2) hp1 = (.ok kb, hp) := by
    simp only [wrapLoopH, hg] at f2 ⊢
    exact f2
  obtain ⟨rfl, g2⟩ := wrapLoopH_uniform _ (fun b hb => by
    rcases List.mem_cons.mp hb with rfl | hb
    · exact .inr (by rw [out1 _ hal]; exact ha)
    · rw [out1 b (h2 b hb).1]; exact (h2 b hb).2) f3
  obtain ⟨alg, rfl, hlen⟩ := algKeyLength_id e2
  refine ⟨alg, n, e1, hlen, ⟨k, by rw [e5], mkSym_holds rfl e4⟩, fun hne b hb => ?_⟩
  have hb1 := g1 b (.inl hb)
  have hbn : b ∉ a :: l2 := by
    intro hx
    rcases List.mem_cons.mp hx with rfl | hx
    · exact hal hb
    · exact (h2 b hx).1 hb
  have hb2 : hp b = hp1 b := by
    have := (wrapLoopH_keeps (C := C) (R := R) (Q := fun _ _ => True) ⟨fun _ _ _ _ => trivial, fun _ _ _ _ _ => trivial⟩ (a :: l2)
      (i := 0 + l1.length) (key := some q) (h := hp1) (fun _ => trivial)).2 b hbn
    rw [f3] at this
    exact this
  rw [e6 b (by rw [hb2, hb1]; simpa using hne), hb2, hb1]

/-- C85: a message and its recipients stay as they are, whatever is done with messages that list none of these recipients. -/
theorem c85_isolated {C : Crypto} {i : Nat} {w : World} {ops : List WorldOp} (ho : ∀ o ∈ ops, Spec.Apart i (w.msg i).2 o)
    (hd : ∀ j, j ≠ i → ∀ a ∈ (w.msg j).2, a ∉ (w.msg i).2) :
    (w.run C ops).msg i = w.msg i ∧ ∀ a ∈ (w.msg i).2, (w.run C ops).heap a = w.heap a := by
  induction ops generalizing w with
  | nil => exact ⟨rfl, fun _ _ => rfl⟩
  | cons o t ih =>
    have key : (w.step C o).msg i = w.msg i ∧ (∀ a ∈ (w.msg i).2, (w.step C o).heap a = w.heap a) ∧
        ∀ j, j ≠ i → ∀ a ∈ ((w.step C o).msg j).2, a ∉ (w.msg i).2 := by
      have ho := ho o (by simp)
      have cal : ∀ {α : Type} {j : Nat} {x : Eff EncW α}, j ≠ i →
          Keeps (Within w.heap (w.msg j).2 fun _ _ => True) x →
          (w.call j x).2.msg i = w.msg i ∧ (∀ a ∈ (w.msg i).2, (w.call j x).2.heap a = w.heap a) ∧
            ∀ j', j' ≠ i → ∀ a ∈ ((w.call j x).2.msg j').2, a ∉ (w.msg i).2 := by
        intro α j x hj hx
        have := hx.run ⟨w.heap, (w.msg j).1, (w.msg j).2⟩ ⟨rfl, fun _ _ => rfl, fun _ => trivial⟩
        generalize e : w.call j x = y
        obtain ⟨y, w1⟩ := y
        obtain ⟨h1, h2⟩ := call_mk e
        rw [h1] at this
        dsimp only
        refine ⟨h2 i (Ne.symm hj), fun a ha => this.other a fun hx => hd j hj a hx ha, fun j' hj' a ha => ?_⟩
        by_cases e : j' = j
        · subst e
          rw [show (w1.msg j').2 = (w.msg j').2 from this.list] at ha
          exact hd j' hj' a ha
        · rw [h2 j' e] at ha; exact hd j' hj' a ha
      have hT : Lasting fun _ _ => True := ⟨fun _ _ _ _ => trivial, fun _ _ _ _ _ => trivial⟩
      cases o with
      | setRcpt b r => exact ⟨rfl, fun a ha => put_other (by rintro rfl; exact ho ha), hd⟩
      | setMsg j b =>
        simp only [Spec.Apart] at ho
        refine ⟨by simp [World.step, Ne.symm ho], fun _ _ => rfl, fun j' hj' a ha => ?_⟩
        simp only [World.step] at ha
        split at ha
        · exact hd j ho a ha
        · exact hd j' hj' a ha
      | setList j l =>
        refine ⟨by simp [World.step, Ne.symm ho.1], fun _ _ => rfl, fun j' hj' a ha => ?_⟩
        simp only [World.step] at ha
        split at ha
        · exact ho.2 a ha
        · exact hd j' hj' a ha
      | encrypt j R => exact cal ho (encrypt_keeps hT)
      | encode j R tag e => exact cal ho (encode_keeps hT)
      | decrypt j b =>
        refine cal ho ⟨fun s hs => ?_⟩
        have := (decrypt_keeps (C := C) (h := s.heap) (l := s.addrs) (a := b)).run s ⟨rfl, rfl⟩
        exact ⟨this.1.trans hs.list, fun a ha => by rw [this.2]; exact hs.other a ha, fun _ => trivial⟩
    obtain ⟨k1, k2, k3⟩ := key
    have := ih (w := w.step C o) (fun o ho' => by rw [k1]; exact ho o (by simp [ho'])) (by rw [k1]; exact k3)
    rw [k1] at this
    exact ⟨this.1, fun a ha => (this.2 a ha).trans (k2 a ha)⟩

/-- C85: as long as no recipient is listed twice in a message, its calls behave as if the message owned its recipients: same result or
exception, same message and recipients afterwards; no other recipient is touched. -/
theorem c85_enc_encode {C : Crypto} {R : Rand} {tag e : Bool} {h : RHeap} {b : Base} {l : List Nat} (hl : l.Nodup) :
    let x := (EncW.encode C R tag e).run ⟨h, b, l⟩
    let y := (Enc.encodeE C R tag e).run ⟨b, l.map h⟩
    x.1 = y.1 ∧ x.2.base = y.2.base ∧ x.2.addrs = l ∧ l.map x.2.heap = y.2.recipients ∧ ∀ a, a ∉ l → x.2.heap a = h a := by
  obtain ⟨h1, h2⟩ := (encode_sim (C := C) (R := R) (h := h) (l := l) (tag := tag) (e := e)).run ⟨h, b, l⟩ ⟨b, l.map h⟩ ⟨rfl, hl, rfl, rfl, fun _ _ => rfl⟩
  have hr := h2.rcpts
  have ho := h2.other
  rw [h2.list] at hr ho
  exact ⟨h1, h2.base, h2.list, hr, ho⟩

theorem c85_enc_encrypt {C : Crypto} {R : Rand} {h : RHeap} {b : Base} {l : List Nat} (hl : l.Nodup) :
    let x := (EncW.encrypt C R).run ⟨h, b, l⟩
    let y := (Enc.encryptE C R).run ⟨b, l.map h⟩
    x.1 = y.1 ∧ x.2.base = y.2.base ∧ x.2.addrs = l ∧ l.map x.2.heap = y.2.recipients ∧ ∀ a, a ∉ l → x.2.heap a = h a := by
  obtain ⟨h1, h2⟩ := (encrypt_sim (C := C) (R := R) (h := h) (l := l)).run ⟨h, b, l⟩ ⟨b, l.map h⟩ ⟨rfl, hl, rfl, rfl, fun _ _ => rfl⟩
  have hr := h2.rcpts
  have ho := h2.other
  rw [h2.list] at hr ho
  exact ⟨h1, h2.base, h2.list, hr, ho⟩

theorem c85_enc_decrypt {C : Crypto} {h : RHeap} {b : Base} {l : List Nat} {a : Nat} (ho : (h a).oid = a) :
    let x := (EncW.decrypt C a).run ⟨h, b, l⟩
    let y := (Enc.decryptE C (h a)).run ⟨b, l.map h⟩
    x.1 = y.1 ∧ x.2.base = y.2.base ∧ y.2.recipients = l.map h ∧ x.2.addrs = l ∧ x.2.heap = h := by
  obtain ⟨h1, h2⟩ := (decrypt_sim (C := C) (l := l) ho).run ⟨h, b, l⟩ ⟨b, l.map h⟩ ⟨rfl, rfl, rfl, rfl⟩
  exact ⟨h1, h2.base, h2.rcpts, h2.list, h2.heap⟩

theorem c85_mac_encode {C : Crypto} {R : Rand} {tag e : Bool} {h : RHeap} {b : Base} {v : Val} {l : List Nat} (hl : l.Nodup) :
    let x := (MacW.encode C R tag e).run ⟨h, b, v, some l⟩
    let y := (Mac.encodeE C R tag e).run ⟨b, v, some (l.map h)⟩
    x.1 = y.1 ∧ x.2.base = y.2.base ∧ x.2.authTag = y.2.authTag ∧ x.2.addrs = some l ∧ some (l.map x.2.heap) = y.2.recipients ∧
      ∀ a, a ∉ l → x.2.heap a = h a := by
  obtain ⟨h1, h2⟩ := (mac_encode_sim (C := C) (R := R) (h := h) (l := l) (tag := tag) (e := e)).run ⟨h, b, v, some l⟩ ⟨b, v, some (l.map h)⟩
    ⟨rfl, hl, rfl, rfl, rfl, fun _ _ => rfl⟩
  exact ⟨h1, h2.base, h2.tag, h2.list, h2.rcpts.symm, h2.other⟩

/-- C85: what an assignment does: it changes what is assigned to, and nothing else. -/
theorem c85_assigned {C : Crypto} {w : World} :
    (∀ a r, let w' := w.step C (.setRcpt a r); w'.heap a = r ∧ (∀ a', a' ≠ a → w'.heap a' = w.heap a') ∧ w'.msg = w.msg) ∧
    (∀ i b, let w' := w.step C (.setMsg i b); w'.msg i = (b, (w.msg i).2) ∧ (∀ j, j ≠ i → w'.msg j = w.msg j) ∧ w'.heap = w.heap) ∧
    (∀ i l, let w' := w.step C (.setList i l); w'.msg i = ((w.msg i).1, l) ∧ (∀ j, j ≠ i → w'.msg j = w.msg j) ∧ w'.heap = w.heap) := by
  refine ⟨fun a r => ⟨?_, fun a' h => ?_, rfl⟩, fun i b => ⟨?_, fun j h => ?_, rfl⟩, fun i l => ⟨?_, fun j h => ?_, rfl⟩⟩ <;>
    simp [World.step, RHeap.put] <;> intro e <;> exact absurd e h

/-- C85: what a call on a message returns, and how it leaves the message and the recipients, is what the same call does with the message and the
recipients as they are; every other message is left as it is. -/
theorem c85_called {C : Crypto} {w : World} {i : Nat} {o : WorldOp} {m : Eff EncW Bytes}
    (ho : (∃ R, o = .encrypt i R ∧ m = EncW.encrypt C R) ∨ (∃ R tag e, o = .encode i R tag e ∧ m = EncW.encode C R tag e) ∨
      ∃ a, o = .decrypt i a ∧ m = EncW.decrypt C a) :
    let x := m.run ⟨w.heap, (w.msg i).1, (w.msg i).2⟩
    (w.step C o).heap = x.2.heap ∧ (w.step C o).msg i = (x.2.base, x.2.addrs) ∧ ∀ j, j ≠ i → (w.step C o).msg j = w.msg j := by
  rcases ho with ⟨R, rfl, rfl⟩ | ⟨R, tag, e, rfl, rfl⟩ | ⟨a, rfl, rfl⟩ <;>
    exact ⟨rfl, by simp [World.step, World.call], fun j h => by simp [World.step, World.call, h]⟩

/-! ### Examples -/

/-- Four recipient objects and four messages: message 0 lists recipient 0 twice, and recipient 1 is in messages 0, 1 and 2. -/
def Sample.world : World where
  heap := fun a => Sample.kwRcpt a
  msg := fun i => ({ Sample.encKw.base with payload := some [i.toUInt8] }, match i with
    | 0 => [0, 1, 0]
    | 1 => [1, 2]
    | 2 => [2, 1]
    | 3 => [3]
    | _ => [])

def Sample.keyBytes (w : World) (i : Nat) : Option Bytes :=
  match (w.msg i).1.key with
  | some k => match k.symK with
    | .ok (.bytes b) => some b
    | _ => none
  | none => none

/-- Message 0 is encoded; afterwards message 1 and, independently, message 2, with other draws. -/
def Sample.after0 : Res Bytes × World := Sample.world.call 0 (EncW.encode toy Sample.rand true true)
def Sample.after1 : Res Bytes × World := Sample.after0.2.call 1 (EncW.encode toy Sample.randOther true true)
def Sample.after2 : Res Bytes × World := Sample.after0.2.call 2 (EncW.encode toy Sample.randOther true true)

/-- **C85** is false of the code: all three calls return, message 1 is encrypted with the content key of message 0, which is not the one drawn
for message 1; and recipient 2 of message 2, which no other message lists, is given another key than message 2 is encrypted with. -/
theorem c85_refuted : ∃ o0 o1 o2 w0 w1 w2 kb k,
    Sample.world.call 0 (EncW.encode toy Sample.rand true true) = (.ok o0, w0) ∧
    w0.call 1 (EncW.encode toy Sample.randOther true true) = (.ok o1, w1) ∧
    w0.call 2 (EncW.encode toy Sample.randOther true true) = (.ok o2, w2) ∧
    Sample.keyBytes w0 0 = some kb ∧ Sample.keyBytes w1 1 = some kb ∧ kb ≠ Sample.randOther.cek 16 ∧
    Sample.keyBytes w2 2 = some kb ∧ (w2.heap 2).base.payload = some k ∧ k ≠ kb := by
  have h0 : Sample.after0.1.isOk = true := by decide +kernel
  have h1 : Sample.after1.1.isOk = true := by decide +kernel
  have h2 : Sample.after2.1.isOk = true := by decide +kernel
  have ex : ∀ x : Res Bytes × World, x.1.isOk = true → ∃ o w, x = (.ok o, w) := by
    rintro ⟨x, w⟩ h
    cases x with
    | ok o => exact ⟨o, w, rfl⟩
    | error e => simp [Except.isOk, Except.toBool] at h
  obtain ⟨o0, w0, e0⟩ := ex _ h0
  obtain ⟨o1, w1, e1⟩ := ex _ h1
  obtain ⟨o2, w2, e2⟩ := ex _ h2
  have k0 : Sample.keyBytes Sample.after0.2 0 = some (Sample.rand.cek 16) := by decide +kernel
  have k1 : Sample.keyBytes Sample.after1.2 1 = some (Sample.rand.cek 16) := by decide +kernel
  have k2 : Sample.keyBytes Sample.after2.2 2 = some (Sample.rand.cek 16) := by decide +kernel
  have k3 : (Sample.after2.2.heap 2).base.payload = some (Sample.randOther.cek 16) := by decide +kernel
  rw [e0] at k0; rw [e1] at k1; rw [e2] at k2 k3
  have e0' := e0
  unfold Sample.after1 at e1; unfold Sample.after2 at e2
  rw [e0] at e1 e2
  exact ⟨o0, o1, o2, w0, w1, w2, _, _, e0', e1, e2, k0, k1, by decide +kernel, k2, k3, by decide +kernel⟩

/-- The hypotheses of `c85_fresh_partial`, `c85_shared` and `c85_mixed` are met in this execution. -/
example : Spec.WrappedIn Sample.world 0 ∧ (∀ a ∈ (Sample.world.msg 0).2, (Sample.world.heap a).base.payload = some []) ∧
    Sample.after0.1.isOk = true ∧ 1 ∈ (Sample.world.msg 0).2 ∧ (Sample.after0.2.msg 1).2 = 1 :: [2] ∧
    (∀ b ∈ [2], (Sample.after0.2.heap b).base.payload = some []) ∧ Sample.after1.1.isOk = true ∧
    (Sample.after0.2.msg 2).2 = [2] ++ 1 :: [] ∧ (Sample.after0.2.heap 1).base.payload = some (Sample.rand.cek 16) ∧ Sample.after2.1.isOk = true := by
  refine ⟨?_, by decide +kernel, by decide +kernel, by decide +kernel, by decide +kernel, by decide +kernel, by decide +kernel, by decide +kernel,
    by decide +kernel, by decide +kernel⟩
  intro a _
  exact .inl rfl

/-- Message 3 shares no recipient: the hypotheses of `c85_isolated`. -/
example : (∀ j, j ≠ 3 → ∀ a ∈ (Sample.world.msg j).2, a ∉ (Sample.world.msg 3).2) ∧
    Spec.Apart 3 (Sample.world.msg 3).2 (.encode 0 Sample.rand true true) ∧
    Spec.Apart 3 (Sample.world.msg 3).2 (.setRcpt 1 (Sample.kwRcpt 1)) := by
  refine ⟨?_, by simp [Spec.Apart], by simp [Spec.Apart, Sample.world]⟩
  intro j hj a ha
  rcases j with _ | _ | _ | _ | j
  · revert a; decide
  · revert a; decide
  · revert a; decide
  · exact absurd rfl hj
  · simp [Sample.world] at ha

/-- A list without repetition, for which encoding succeeds. -/
example : [1, 2].Nodup ∧ ((EncW.encode toy Sample.rand true true).run ⟨Sample.world.heap, (Sample.world.msg 1).1, [1, 2]⟩).1.isOk = true := by
  decide +kernel

end Cose
