import Verif.RcptHeap
import Verif.Props.Raise
/-!
# Messages with references to recipients, as long as no reference occurs twice
-/
set_option autoImplicit false
namespace Cose
open Eff

/-- Two methods do the same, as far as `P` relates their objects. -/
structure Sim {σ τ α : Type} (P : σ → τ → Prop) (x : Eff σ α) (y : Eff τ α) : Prop where
  run : ∀ s t, P s t → (x.run s).1 = (y.run t).1 ∧ P (x.run s).2 (y.run t).2

section
variable {σ τ α β : Type} {P : σ → τ → Prop}
theorem Sim.bind {x : Eff σ α} {y : Eff τ α} {f : α → Eff σ β} {g : α → Eff τ β} (h : Sim P x y) (k : ∀ a, Sim P (f a) (g a)) :
    Sim P (x >>= f) (y >>= g) := by
  refine ⟨fun s t hp => ?_⟩
  obtain ⟨h1, h2⟩ := h.run s t hp
  rw [eff_bind, eff_bind]
  revert h1 h2
  obtain ⟨a, s'⟩ := x.run s
  obtain ⟨b, t'⟩ := y.run t
  intro h1 h2
  simp only at h1
  subst h1
  cases a with
  | ok a => exact (k a).run _ _ h2
  | error e => exact ⟨rfl, h2⟩
theorem Sim.expr {f : σ → Res α} {g : τ → Res α} (h : ∀ s t, P s t → f s = g t) : Sim P (Eff.expr f) (Eff.expr g) :=
  ⟨fun s t hp => ⟨h s t hp, hp⟩⟩
theorem Sim.raise {e : PyErr} : Sim P (Eff.raise e : Eff σ α) (Eff.raise e : Eff τ α) := ⟨fun _ _ hp => ⟨rfl, hp⟩⟩
theorem Sim.pure {a : α} : Sim P (Pure.pure a : Eff σ α) (Pure.pure a : Eff τ α) := ⟨fun _ _ hp => ⟨rfl, hp⟩⟩
theorem Sim.assign {f : σ → σ} {g : τ → τ} (h : ∀ s t, P s t → P (f s) (g t)) : Sim P (Eff.assign f) (Eff.assign g) :=
  ⟨fun s t hp => ⟨rfl, h s t hp⟩⟩
theorem Sim.ite {c : Prop} [Decidable c] {x x' : Eff σ α} {y y' : Eff τ α} (h : Sim P x y) (k : Sim P x' y') :
    Sim P (if c then x else x') (if c then y else y') := by
  split
  · exact h
  · exact k
end

/-- `w` is the message `m` with references: its recipients are in the places `l`, no two in the same, and all other places are as in `h`. -/
structure Refers (h : RHeap) (l : List Nat) (w : EncW) (m : Enc) : Prop where
  list : w.addrs = l
  nodup : w.addrs.Nodup
  base : w.base = m.base
  rcpts : w.addrs.map w.heap = m.recipients
  other : ∀ a, a ∉ w.addrs → w.heap a = h a

theorem put_same {h : RHeap} {a : Nat} {r : Rcpt} : h.put a r a = r := by simp [RHeap.put]
theorem put_other {h : RHeap} {a b : Nat} {r : Rcpt} (hb : b ≠ a) : h.put a r b = h b := by simp [RHeap.put, hb]
theorem put_map {h : RHeap} {a : Nat} {r : Rcpt} {l : List Nat} (hl : a ∉ l) : l.map (h.put a r) = l.map h :=
  List.map_congr_left fun b hb => put_other (by rintro rfl; exact hl hb)

theorem wrapLoopH_sim {C : Crypto} {R : Rand} : ∀ (l : List Nat) {i : Nat} {key : Option Bytes} {h : RHeap}, l.Nodup →
    (wrapLoopH C R i key l h).1 = (wrapLoopE C R i key (l.map h)).1 ∧ l.map (wrapLoopH C R i key l h).2 = (wrapLoopE C R i key (l.map h)).2 ∧
      ∀ a, a ∉ l → (wrapLoopH C R i key l h).2 a = h a
  | [], i, key, h, _ => ⟨rfl, rfl, fun _ _ => rfl⟩
  | a :: t, i, key, h, hn => by
    obtain ⟨ha, ht⟩ := List.nodup_cons.mp hn
    simp only [wrapLoopH, List.map_cons, wrapLoopE]
    generalize (rcptEncryptE C R 0 [i]).run (giveKey key (h a)).2 = x
    obtain ⟨x, r'⟩ := x
    cases x with
    | error e => exact ⟨rfl, by simp [put_same, put_map ha], fun b hb => put_other (by simp at hb; exact hb.1)⟩
    | ok c =>
      have ih := wrapLoopH_sim (C := C) (R := R) t (i := i + 1) (key := (giveKey key (h a)).1) (h := h.put a r') ht
      rw [put_map ha] at ih
      dsimp only
      obtain ⟨i1, i2, i3⟩ := ih
      refine ⟨i1, ?_, ?_⟩
      · rw [i3 a ha, put_same, i2]
      · intro b hb
        simp at hb
        rw [i3 b hb.2, put_other hb.1]

theorem rcptsEncodeH_sim {C : Crypto} {R : Rand} : ∀ (l : List Nat) {i : Nat} {h : RHeap}, l.Nodup →
    (rcptsEncodeH C R i l h).1 = (rcptsEncodeE C R [] i (l.map h)).1 ∧ l.map (rcptsEncodeH C R i l h).2 = (rcptsEncodeE C R [] i (l.map h)).2 ∧
      ∀ a, a ∉ l → (rcptsEncodeH C R i l h).2 a = h a
  | [], i, h, _ => by exact ⟨rfl, rfl, fun _ _ => rfl⟩
  | a :: t, i, h, hn => by
    obtain ⟨ha, ht⟩ := List.nodup_cons.mp hn
    simp only [rcptsEncodeH, List.map_cons, rcptsEncodeE, List.nil_append]
    generalize rcptEncodeE C R [i] (h a) = x
    obtain ⟨x, r'⟩ := x
    cases x with
    | error e => exact ⟨rfl, by simp [put_same, put_map ha], fun b hb => put_other (by simp at hb; exact hb.1)⟩
    | ok v =>
      have ih := rcptsEncodeH_sim (C := C) (R := R) t (i := i + 1) (h := h.put a r') ht
      rw [put_map ha] at ih
      dsimp only
      revert ih
      generalize rcptsEncodeH C R (i + 1) t (h.put a r') = y
      generalize rcptsEncodeE C R [] (i + 1) (t.map h) = z
      obtain ⟨y, h'⟩ := y
      obtain ⟨z, t'⟩ := z
      rintro ⟨i1, i2, i3⟩
      simp only at i1 i2 i3
      subst i1
      cases y with
      | error e =>
        dsimp only
        refine ⟨rfl, by rw [i3 a ha, put_same, i2], ?_⟩
        intro b hb
        simp at hb
        rw [i3 b hb.2, put_other hb.1]
      | ok vs =>
        dsimp only
        refine ⟨rfl, by rw [i3 a ha, put_same, i2], ?_⟩
        intro b hb
        simp at hb
        rw [i3 b hb.2, put_other hb.1]

/-! ### The unprotected header of an encoded recipient -/

/-- The second element of an encoded recipient is its unprotected header as it is afterwards. -/
structure Shows (head : List Val) (b : Base) : Prop where
  eq : ∃ p c : Val, head = [p, .map b.uhdr, c]

theorem head_shows {C : Crypto} {R : Rand} {path : List Nat} {c : RCls} {rs : List Rcpt} {b b' : Base} {head : List Val}
    (h : (rcptHeadE C R path c rs).run b = (.ok head, b')) : Shows head b' := by
  have hd : ∀ {b : Base} {alg : Val} {head : List Val}, dkaHead b rs alg = .ok head → Shows head b := by
    intro b alg head h
    unfold dkaHead at h
    split at h
    · cases h
    obtain ⟨e, _, h⟩ := bind_eq_ok.mp h
    obtain ⟨m, _, h⟩ := bind_eq_ok.mp h
    split at h
    · cases h
    obtain ⟨pe, _, h⟩ := bind_eq_ok.mp h
    cases h
    exact ⟨_, _, rfl⟩
  cases c <;> simp only [rcptHeadE] at h
  · rw [expr_run] at h
    obtain ⟨hx, hb⟩ := Prod.mk.inj h
    subst hb
    replace h := hx
    obtain ⟨alg, _, h⟩ := bind_eq_ok.mp h
    split at h
    · cases h
    split at h
    · cases h
    split at h
    · cases h
    obtain ⟨pe, _, h⟩ := bind_eq_ok.mp h
    cases h
    exact ⟨_, _, rfl⟩
  · rw [expr_run] at h
    obtain ⟨hx, hb⟩ := Prod.mk.inj h
    subst hb
    replace h := hx
    obtain ⟨pe, _, h⟩ := bind_eq_ok.mp h
    obtain ⟨ct, _, h⟩ := bind_eq_ok.mp h
    cases h
    exact ⟨_, _, rfl⟩
  · rw [expr_bind] at h
    split at h
    rotate_left
    · cases h
    split at h
    · cases h
    rw [expr_bind] at h
    dsimp only at h
    split at h
    · cases h
    rw [expr_bind] at h
    dsimp only at h
    split at h
    · rw [expr_bind] at h
      split at h
      rotate_left
      · cases h
      split at h
      rotate_left
      · cases h
      rw [eff_bind] at h
      split at h
      · rw [expr_run] at h
        obtain ⟨hx, hb⟩ := Prod.mk.inj h
        subst hb
        replace h := hx
        exact hd h
      · cases h
    · rw [expr_run] at h
      obtain ⟨hx, hb⟩ := Prod.mk.inj h
      subst hb
      replace h := hx
      exact hd h
  · rw [expr_bind] at h
    split at h
    rotate_left
    · cases h
    rw [expr_bind] at h
    split at h
    rotate_left
    · cases h
    rw [expr_bind] at h
    split at h
    rotate_left
    · cases h
    rw [eff_bind] at h
    split at h
    · rw [expr_run] at h
      obtain ⟨hx, hb⟩ := Prod.mk.inj h
      subst hb
      replace h := hx
      cases h
      exact ⟨_, _, rfl⟩
    · cases h

theorem encode_shows {C : Crypto} {R : Rand} {path : List Nat} {r r' : Rcpt} {v : Val} (h : rcptEncodeE C R path r = (.ok v, r')) :
    ∃ (p c : Val) (t : List Val), v = .arr (p :: .map r'.base.uhdr :: c :: t) := by
  obtain ⟨cl, b, x, o, rs⟩ := r
  simp only [rcptEncodeE] at h
  split at h
  · cases h
  rename_i head b' hh
  obtain ⟨p, c, rfl⟩ := (head_shows hh).eq
  split at h
  · cases h; exact ⟨p, c, [], rfl⟩
  split at h
  · cases h
  · cases h; exact ⟨p, c, _, rfl⟩

/-- Reading the unprotected headers again when the message is serialised makes no difference. -/
theorem reread_all {C : Crypto} {R : Rand} : ∀ (l : List Nat) {i : Nat} {h h' : RHeap} {vs : List Val}, l.Nodup →
    rcptsEncodeH C R i l h = (.ok vs, h') → ∀ g : RHeap, (∀ a, a ∈ l → g a = h' a) → List.zipWith (reread g) l vs = vs
  | [], i, h, h', vs, _, e, g, _ => by cases e; rfl
  | a :: t, i, h, h', vs, hn, e, g, hg => by
    obtain ⟨ha, ht⟩ := List.nodup_cons.mp hn
    simp only [rcptsEncodeH] at e
    split at e
    · cases e
    rename_i v r' hv
    split at e
    · cases e
    rename_i ws h'' hw
    cases e
    have h3 := (rcptsEncodeH_sim (C := C) (R := R) t (i := i + 1) (h := h.put a r') ht).2.2 a ha
    rw [hw] at h3
    simp only [put_same] at h3
    obtain ⟨p, c, u, rfl⟩ := encode_shows hv
    have hga := hg a (by simp)
    rw [h3] at hga
    have := reread_all t ht hw g (fun b hb => hg b (by simp [hb]))
    simp only [List.zipWith_cons_cons, this, reread, hga]

theorem reread_length {C : Crypto} {R : Rand} : ∀ (l : List Nat) {i : Nat} {h h' : RHeap} {vs : List Val},
    rcptsEncodeH C R i l h = (.ok vs, h') → vs.length = l.length
  | [], i, h, h', vs, e => by cases e; rfl
  | a :: t, i, h, h', vs, e => by
    simp only [rcptsEncodeH] at e
    split at e
    · cases e
    split at e
    · cases e
    rename_i ws h'' hw
    cases e
    simp [reread_length t hw]

/-! ### Messages -/

theorem sim_call {h : RHeap} {l : List Nat} {α β : Type} {m : List Nat → RHeap → Res α × RHeap} {n : List Rcpt → Res α × List Rcpt} {w : EncW} {x : Enc}
    (hw : Refers h l w x) (hm : (m w.addrs w.heap).1 = (n x.recipients).1 ∧ w.addrs.map (m w.addrs w.heap).2 = (n x.recipients).2 ∧
      ∀ a, a ∉ w.addrs → (m w.addrs w.heap).2 a = w.heap a) {f : α → Eff EncW β} {g : α → Eff Enc β}
    (k : ∀ a w' x', m w.addrs w.heap = (.ok a, w'.heap) → w'.addrs = w.addrs → Refers h l w' x' →
      ((f a).run w').1 = ((g a).run x').1 ∧ Refers h l ((f a).run w').2 ((g a).run x').2) :
    ((call EncW.heap (fun w h => { w with heap := h }) (m w.addrs) >>= f).run w).1 =
      ((call Enc.recipients (fun m rs => { m with recipients := rs }) n >>= g).run x).1 ∧
    Refers h l ((call EncW.heap (fun w h => { w with heap := h }) (m w.addrs) >>= f).run w).2
      ((call Enc.recipients (fun m rs => { m with recipients := rs }) n >>= g).run x).2 := by
  rw [eff_bind, eff_bind, call_run, call_run]
  obtain ⟨h1, h2, h3⟩ := hm
  have hr : Refers h l { w with heap := (m w.addrs w.heap).2 } { x with recipients := (n x.recipients).2 } :=
    ⟨hw.list, hw.nodup, hw.base, h2, fun a ha => (h3 a ha).trans (hw.other a ha)⟩
  rw [← h1]
  cases e : (m w.addrs w.heap).1 with
  | ok a => exact k a _ _ (by rw [← e]) rfl hr
  | error e => exact ⟨rfl, hr⟩

theorem sim_assign {h : RHeap} {l : List Nat} {k : Key} : Sim (Refers h l) (call EncW.base (fun w b => { w with base := b }) (assignKey k).run)
    (call Enc.base (fun m b => { m with base := b }) (assignKey k).run) :=
  ⟨fun _ _ hw => ⟨rfl, hw.list, hw.nodup, congrArg (fun b : Base => { b with key := some k }) hw.base, hw.rcpts, hw.other⟩⟩

theorem encrypt_sim {C : Crypto} {R : Rand} {h : RHeap} {l : List Nat} : Sim (Refers h l) (EncW.encrypt C R) (Enc.encryptE C R) := by
  unfold EncW.encrypt Enc.encryptE
  refine .bind (.expr fun w x hw => by rw [hw.base]) fun target => ?_
  refine .bind (.expr fun w x hw => by rw [EncW.recipients, hw.rcpts]) fun types => ?_
  refine .ite (.expr fun w x hw => by rw [hw.base]) ?_
  refine .ite (.bind (.expr fun w x hw => by simp only [EncW.recipients, hw.rcpts]; cases x.recipients <;> rfl) fun k =>
    .bind sim_assign fun _ => .expr fun w x hw => by rw [hw.base]) ?_
  refine .ite (.bind (.expr fun w x hw => rfl) fun n => ⟨fun w x hw => ?_⟩) .raise
  rw [self_bind]
  refine sim_call (m := wrapLoopH C R 0 (some (R.cek n))) hw (by rw [← hw.rcpts]; exact wrapLoopH_sim w.addrs hw.nodup) ?_
  intro kb w' x' _ _ hw'
  exact (Sim.bind (P := Refers h l) (.expr fun w x hw => rfl) fun k => .bind sim_assign fun _ => .expr fun w x hw => by rw [hw.base]).run _ _ hw'

theorem finish_sim {C : Crypto} {R : Rand} {h : RHeap} {l : List Nat} {tag : Bool} {vs : List Val} :
    Sim (Refers h l) (EncW.finish C R tag vs) (Enc.finishE C R tag vs) := by
  unfold EncW.finish Enc.finishE
  refine ⟨fun w x hw => ?_⟩
  rw [self_bind, self_bind]
  have e : w.recipients = x.recipients := hw.rcpts
  rw [e]
  split
  · exact ⟨by rw [expr_run, expr_run, hw.base], hw⟩
  · rw [expr_bind, expr_bind, hw.base]
    cases x.base.getAttr Hdr.Algorithm with
    | error e => exact ⟨rfl, hw⟩
    | ok _ =>
      dsimp only
      refine sim_call (m := rcptsEncodeH C R 0) hw (by rw [← hw.rcpts]; exact rcptsEncodeH_sim w.addrs hw.nodup) ?_
      intro vs w' x' ee ea hw'
      rw [expr_run, expr_run]
      refine ⟨?_, hw'⟩
      rw [hw'.base, ea, reread_all w.addrs hw.nodup ee w'.heap (fun _ _ => rfl)]

theorem encode_sim {C : Crypto} {R : Rand} {h : RHeap} {l : List Nat} {tag e : Bool} : Sim (Refers h l) (EncW.encode C R tag e) (Enc.encodeE C R tag e) := by
  unfold EncW.encode Enc.encodeE
  refine .bind (.expr fun w x hw => by rw [hw.base]) fun pe => ?_
  refine .bind (.expr fun w x hw => by rw [hw.base]) fun uh => ?_
  exact .ite (.bind encrypt_sim fun c => finish_sim) (.bind (.expr fun w x hw => by rw [hw.base]) fun p => finish_sim)

/-- `decrypt` assigns the key of the message and nothing else. -/
structure ReadsW (h : RHeap) (l : List Nat) (w : EncW) (m : Enc) : Prop where
  list : w.addrs = l
  heap : w.heap = h
  base : w.base = m.base
  rcpts : m.recipients = l.map h

theorem ReadsW.eq {h : RHeap} {l : List Nat} {w : EncW} {m : Enc} (hw : ReadsW h l w m) : w.recipients = m.recipients := by
  rw [EncW.recipients, hw.list, hw.heap, hw.rcpts]

theorem decrypt_sim {C : Crypto} {h : RHeap} {l : List Nat} {a : Nat} (ho : (h a).oid = a) :
    Sim (ReadsW h l) (EncW.decrypt C a) (Enc.decryptE C (h a)) := by
  unfold EncW.decrypt Enc.decryptE
  refine .bind (.expr fun w x hw => by rw [hw.base]) fun target => ⟨fun w x hw => ?_⟩
  rw [self_bind, self_bind, ho, hw.eq]
  refine Sim.run (P := ReadsW h l) (.ite .raise ?_) w x hw
  refine .bind (.expr fun w x hw => by rw [hw.eq]) fun types => ?_
  refine .ite (.expr fun w x hw => by rw [hw.base]) (.ite ?_ .raise)
  refine .bind (.expr fun w x hw => by rw [hw.heap]) fun k => .bind ?_ fun _ => .expr fun w x hw => by rw [hw.base]
  exact ⟨fun w x hw => ⟨rfl, hw.list, hw.heap, congrArg (fun b : Base => { b with key := some k }) hw.base, hw.rcpts⟩⟩

/-- The same for a message whose list may also be missing. -/
structure RefersM (h : RHeap) (l : List Nat) (w : MacW) (m : Mac) : Prop where
  list : w.addrs = some l
  nodup : l.Nodup
  base : w.base = m.base
  tag : w.authTag = m.authTag
  rcpts : m.recipients = some (l.map w.heap)
  other : ∀ a, a ∉ l → w.heap a = h a

theorem sim_callM {h : RHeap} {l : List Nat} {α β : Type} {m : RHeap → Res α × RHeap} {n : List Rcpt → Res α × List Rcpt} {w : MacW} {x : Mac}
    {rs : List Rcpt}
    (hw : RefersM h l w x) (hm : (m w.heap).1 = (n rs).1 ∧ l.map (m w.heap).2 = (n rs).2 ∧
      ∀ a, a ∉ l → (m w.heap).2 a = w.heap a) {f : α → Eff MacW β} {g : α → Eff Mac β}
    (k : ∀ a w' x', m w.heap = (.ok a, w'.heap) → RefersM h l w' x' →
      ((f a).run w').1 = ((g a).run x').1 ∧ RefersM h l ((f a).run w').2 ((g a).run x').2) :
    ((call MacW.heap (fun w h => { w with heap := h }) m >>= f).run w).1 =
      ((call (fun _ : Mac => rs) (fun m rs => { m with recipients := some rs }) n >>= g).run x).1 ∧
    RefersM h l ((call MacW.heap (fun w h => { w with heap := h }) m >>= f).run w).2
      ((call (fun _ : Mac => rs) (fun m rs => { m with recipients := some rs }) n >>= g).run x).2 := by
  rw [eff_bind, eff_bind, call_run, call_run]
  obtain ⟨h1, h2, h3⟩ := hm
  have hr : RefersM h l { w with heap := (m w.heap).2 } { x with recipients := some (n rs).2 } :=
    ⟨hw.list, hw.nodup, hw.base, hw.tag, congrArg some h2.symm, fun a ha => (h3 a ha).trans (hw.other a ha)⟩
  rw [← h1]
  cases e : (m w.heap).1 with
  | ok a => exact k a _ _ (by rw [← e]) hr
  | error e => exact ⟨rfl, hr⟩

theorem sim_assignM {h : RHeap} {l : List Nat} {k : Key} : Sim (RefersM h l) (call MacW.base (fun w b => { w with base := b }) (assignKey k).run)
    (call Mac.base (fun m b => { m with base := b }) (assignKey k).run) :=
  ⟨fun _ _ hw => ⟨rfl, hw.list, hw.nodup, congrArg (fun b : Base => { b with key := some k }) hw.base, hw.tag, hw.rcpts, hw.other⟩⟩

theorem tag_sim {C : Crypto} {h : RHeap} {l : List Nat} : Sim (RefersM h l) (MacW.tag C) (Mac.tagE C) := by
  unfold MacW.tag Mac.tagE
  exact .bind (.expr fun w x hw => by rw [hw.base]) fun t =>
    .bind (.assign fun w x hw => ⟨hw.list, hw.nodup, hw.base, rfl, hw.rcpts, hw.other⟩) fun _ => .pure

theorem computeTag_sim {C : Crypto} {R : Rand} {h : RHeap} {l : List Nat} : Sim (RefersM h l) (MacW.computeTag C R) (Mac.computeTagE C R) := by
  unfold MacW.computeTag Mac.computeTagE
  refine .bind (.expr fun w x hw => by rw [hw.base]) fun target => ⟨fun w x hw => ?_⟩
  rw [expr_bind, expr_bind]
  simp only [hw.list, hw.rcpts]
  rw [expr_bind, expr_bind]
  cases verifyRecipients (l.map w.heap) with
  | error e => exact ⟨rfl, hw⟩
  | ok types =>
    dsimp only
    split
    · exact tag_sim.run w x hw
    split
    · rw [expr_bind, expr_bind]
      cases l.map w.heap with
      | nil => exact ⟨rfl, hw⟩
      | cons r t =>
        dsimp only
        cases dkaComputeCek C r.base target true with
        | error e => exact ⟨rfl, hw⟩
        | ok k => exact (Sim.bind sim_assignM fun _ => tag_sim).run w x hw
    split
    · rw [expr_bind, expr_bind]
      cases algKeyLength target with
      | error e => exact ⟨rfl, hw⟩
      | ok n =>
        dsimp only
        exact sim_callM (m := wrapLoopH C R 0 (some (R.cek n)) l) hw (wrapLoopH_sim l hw.nodup) fun _ w' x' _ hw' => ⟨rfl, hw'⟩
    · exact ⟨rfl, hw⟩

theorem mac_finish_sim {C : Crypto} {R : Rand} {h : RHeap} {l : List Nat} {tag : Bool} {vs : List Val} :
    Sim (RefersM h l) (MacW.finish C R tag vs) (Mac.finishE C R tag vs) := by
  unfold MacW.finish Mac.finishE
  refine ⟨fun w x hw => ?_⟩
  rw [self_bind, self_bind]
  simp only [hw.list, hw.rcpts]
  have hn := hw.nodup
  cases l with
  | nil => exact ⟨by simp only [List.map_nil, expr_run, hw.base], hw⟩
  | cons a t =>
    simp only [List.map_cons]
    rw [expr_bind, expr_bind, hw.base]
    cases x.base.getAttr Hdr.Algorithm with
    | error e => exact ⟨rfl, hw⟩
    | ok _ =>
      dsimp only
      refine sim_callM (m := rcptsEncodeH C R 0 (a :: t)) hw (rcptsEncodeH_sim (a :: t) hn) ?_
      intro ws w' x' ee hw'
      rw [expr_run, expr_run]
      refine ⟨?_, hw'⟩
      rw [hw'.base, reread_all (a :: t) hn ee w'.heap (fun _ _ => rfl)]

theorem mac_encode_sim {C : Crypto} {R : Rand} {h : RHeap} {l : List Nat} {tag e : Bool} :
    Sim (RefersM h l) (MacW.encode C R tag e) (Mac.encodeE C R tag e) := by
  unfold MacW.encode Mac.encodeE
  refine .bind (.expr fun w x hw => by rw [hw.base]) fun pe => ?_
  refine .bind (.expr fun w x hw => by rw [hw.base]) fun uh => ?_
  refine .bind (.expr fun w x hw => by rw [hw.base]) fun p => ?_
  exact .ite (.bind computeTag_sim fun c => mac_finish_sim) mac_finish_sim

/-! ### Lists in which a recipient may occur twice -/

/-- A property of objects that a method keeps. -/
structure Keeps {σ α : Type} (P : σ → Prop) (x : Eff σ α) : Prop where
  run : ∀ s, P s → P (x.run s).2

section
variable {σ α β : Type} {P : σ → Prop}
theorem Keeps.bind {x : Eff σ α} {f : α → Eff σ β} (h : Keeps P x) (k : ∀ a, Keeps P (f a)) : Keeps P (x >>= f) := by
  refine ⟨fun s hp => ?_⟩
  have h1 := h.run s hp
  rw [eff_bind]
  revert h1
  obtain ⟨a, s'⟩ := x.run s
  intro h1
  cases a with
  | ok a => exact (k a).run _ h1
  | error e => exact h1
theorem Keeps.expr {f : σ → Res α} : Keeps P (Eff.expr f) := ⟨fun _ hp => hp⟩
theorem Keeps.raise {e : PyErr} : Keeps P (Eff.raise e : Eff σ α) := ⟨fun _ hp => hp⟩
theorem Keeps.ite {c : Prop} [Decidable c] {x x' : Eff σ α} (h : Keeps P x) (k : Keeps P x') : Keeps P (if c then x else x') := by
  split
  · exact h
  · exact k
end

/-- What calls on a message with list `l` keep of the recipients in a program: those outside the list, and any property `Q` of a recipient
that is kept when an empty payload is filled and when a key is generated. -/
structure Within (h : RHeap) (l : List Nat) (Q : Nat → Rcpt → Prop) (w : EncW) : Prop where
  list : w.addrs = l
  other : ∀ a, a ∉ l → w.heap a = h a
  all : ∀ a, Q a (w.heap a)

structure Lasting (Q : Nat → Rcpt → Prop) : Prop where
  fill : ∀ a key r, Q a r → Q a (giveKey key r).2
  tried : ∀ a r r', Spec.TriedR r r' → Q a r → Q a r'

theorem wrapLoopH_keeps {C : Crypto} {R : Rand} {Q : Nat → Rcpt → Prop} (hQ : Lasting Q) : ∀ (l : List Nat) {i : Nat} {key : Option Bytes} {h : RHeap},
    (∀ a, Q a (h a)) → (∀ a, Q a ((wrapLoopH C R i key l h).2 a)) ∧ ∀ a, a ∉ l → (wrapLoopH C R i key l h).2 a = h a
  | [], i, key, h, hh => ⟨hh, fun _ _ => rfl⟩
  | a :: t, i, key, h, hh => by
    have h1 := hQ.tried a _ _ (rcptEncryptE_tried (C := C) (R := R) (ph := 0) (path := [i])) (hQ.fill a key _ (hh a))
    simp only [wrapLoopH]
    revert h1
    generalize (rcptEncryptE C R 0 [i]).run (giveKey key (h a)).2 = x
    obtain ⟨x, r'⟩ := x
    intro h1
    have h2 : ∀ b, Q b (h.put a r' b) := by
      intro b
      by_cases e : b = a
      · subst e; rw [put_same]; exact h1
      · rw [put_other e]; exact hh b
    cases x with
    | error e => exact ⟨h2, fun b hb => put_other (by simp at hb; exact hb.1)⟩
    | ok c =>
      obtain ⟨i1, i2⟩ := wrapLoopH_keeps hQ t (i := i + 1) (key := (giveKey key (h a)).1) h2
      refine ⟨i1, fun b hb => ?_⟩
      simp at hb
      rw [i2 b hb.2, put_other hb.1]

theorem rcptsEncodeH_keeps {C : Crypto} {R : Rand} {Q : Nat → Rcpt → Prop} (hQ : Lasting Q) : ∀ (l : List Nat) {i : Nat} {h : RHeap},
    (∀ a, Q a (h a)) → (∀ a, Q a ((rcptsEncodeH C R i l h).2 a)) ∧ ∀ a, a ∉ l → (rcptsEncodeH C R i l h).2 a = h a
  | [], i, h, hh => ⟨hh, fun _ _ => rfl⟩
  | a :: t, i, h, hh => by
    have h1 := hQ.tried a _ _ (encodeE_tried (C := C) (R := R) (h a) (path := [i])) (hh a)
    simp only [rcptsEncodeH]
    revert h1
    generalize rcptEncodeE C R [i] (h a) = x
    obtain ⟨x, r'⟩ := x
    intro h1
    have h2 : ∀ b, Q b (h.put a r' b) := by
      intro b
      by_cases e : b = a
      · subst e; rw [put_same]; exact h1
      · rw [put_other e]; exact hh b
    cases x with
    | error e => exact ⟨h2, fun b hb => put_other (by simp at hb; exact hb.1)⟩
    | ok c =>
      obtain ⟨i1, i2⟩ := rcptsEncodeH_keeps (C := C) (R := R) hQ t (i := i + 1) h2
      have i3 : ∀ b, b ∉ a :: t → (rcptsEncodeH C R (i + 1) t (h.put a r')).2 b = h b := by
        intro b hb
        simp at hb
        rw [i2 b hb.2, put_other hb.1]
      dsimp only
      revert i1 i3
      generalize rcptsEncodeH C R (i + 1) t (h.put a r') = y
      obtain ⟨y, h'⟩ := y
      intro i1 i3
      cases y <;> exact ⟨i1, i3⟩

section
variable {C : Crypto} {R : Rand} {h : RHeap} {l : List Nat} {Q : Nat → Rcpt → Prop}
theorem assign_keeps {k : Key} : Keeps (Within h l Q) (call EncW.base (fun w b => { w with base := b }) (assignKey k).run) :=
  ⟨fun _ hw => ⟨hw.list, hw.other, hw.all⟩⟩

theorem encrypt_keeps (hQ : Lasting Q) : Keeps (Within h l Q) (EncW.encrypt C R) := by
  unfold EncW.encrypt
  refine .bind .expr fun target => .bind .expr fun types => .ite .expr (.ite (.bind .expr fun k => .bind assign_keeps fun _ => .expr) ?_)
  refine .ite (.bind .expr fun n => ⟨fun w hw => ?_⟩) .raise
  rw [self_bind]
  refine Keeps.run (.bind (P := Within h l Q) ⟨fun s hs => ?_⟩ fun kb => .bind .expr fun k => .bind assign_keeps fun _ => .expr) w hw
  rw [call_run, hw.list]
  obtain ⟨h1, h2⟩ := wrapLoopH_keeps (C := C) (R := R) hQ l (i := 0) (key := some (R.cek n)) hs.all
  exact ⟨hs.list, fun a ha => (h2 a ha).trans (hs.other a ha), h1⟩

theorem finish_keeps (hQ : Lasting Q) {tag : Bool} {vs : List Val} : Keeps (Within h l Q) (EncW.finish C R tag vs) := by
  unfold EncW.finish
  refine ⟨fun w hw => ?_⟩
  rw [self_bind]
  refine Keeps.run (.ite .expr (.bind .expr fun _ => .bind (P := Within h l Q) ⟨fun s hs => ?_⟩ fun _ => .expr)) w hw
  rw [call_run, hw.list]
  obtain ⟨h1, h2⟩ := rcptsEncodeH_keeps (C := C) (R := R) hQ l (i := 0) hs.all
  exact ⟨hs.list, fun a ha => (h2 a ha).trans (hs.other a ha), h1⟩

theorem encode_keeps (hQ : Lasting Q) {tag e : Bool} : Keeps (Within h l Q) (EncW.encode C R tag e) := by
  unfold EncW.encode
  exact .bind .expr fun _ => .bind .expr fun _ => .ite (.bind (encrypt_keeps hQ) fun _ => finish_keeps hQ) (.bind .expr fun _ => finish_keeps hQ)

theorem decrypt_keeps {a : Nat} : Keeps (fun w => w.addrs = l ∧ w.heap = h) (EncW.decrypt C a) := by
  unfold EncW.decrypt
  refine .bind .expr fun target => ⟨fun w hw => ?_⟩
  rw [self_bind]
  exact Keeps.run (P := fun w : EncW => w.addrs = l ∧ w.heap = h) (.ite .raise (.bind .expr fun types => .ite .expr (.ite (.bind .expr fun k => .bind ⟨fun _ hw => hw⟩ fun _ => .expr) .raise))) w hw
end

/-- When all recipients in the list are empty or have the current content key, this stays the content key, and they all get it. -/
theorem wrapLoopH_uniform {C : Crypto} {R : Rand} {q : Bytes} : ∀ (l : List Nat) {i : Nat} {h h' : RHeap} {kb : Option Bytes},
    (∀ a ∈ l, (h a).base.payload = some [] ∨ (h a).base.payload = some q) → wrapLoopH C R i (some q) l h = (.ok kb, h') →
    kb = some q ∧ ∀ a, (a ∈ l ∨ (h a).base.payload = some q) → (h' a).base.payload = some q
  | [], i, h, h', kb, _, e => by cases e; exact ⟨rfl, fun a ha => ha.elim (fun x => by cases x) id⟩
  | a :: t, i, h, h', kb, hl, e => by
    have hg : (giveKey (some q) (h a)).1 = some q ∧ (giveKey (some q) (h a)).2.base.payload = some q := by
      have hr := hl a (by simp)
      unfold giveKey
      generalize h a = r at hr
      obtain ⟨c, b, x, o, rs⟩ := r
      simp only [Rcpt.base] at hr
      by_cases e : b.payload = some []
      · simp [Rcpt.base, e, Rcpt.withBase]
      · rcases hr with hr | hr
        · exact absurd hr e
        · have hq : q ≠ [] := fun e' => e (by rw [hr, e'])
          simp [Rcpt.base, hr, hq]
    have hh := (triedR_payload (rcptEncryptE_tried (C := C) (R := R) (ph := 0) (path := [i]) (r := (giveKey (some q) (h a)).2))).2
    simp only [wrapLoopH] at e
    split at e
    · cases e
    rename_i r' hr'
    rw [hr'] at hh
    rw [hg.1] at e
    have hp : (r' : Rcpt).base.payload = some q := hh.trans hg.2
    have := wrapLoopH_uniform t (h := h.put a r') (fun b hb => by
      by_cases e : b = a
      · subst e; rw [put_same]; exact .inr hp
      · rw [put_other e]; exact hl b (by simp [hb])) e
    refine ⟨this.1, fun b hb => this.2 b ?_⟩
    by_cases e : b = a
    · subst e; rw [put_same]; exact .inr hp
    · rw [put_other e]
      rcases hb with hb | hb
      · simp [e] at hb; exact .inl hb
      · exact .inr hb

end Cose
