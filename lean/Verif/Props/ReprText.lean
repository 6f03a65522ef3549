import Verif.Props.Repr
/-!
# The text of keys and messages (C87)
-/
set_option autoImplicit false
namespace Cose

/-! ### Specification -/

/-- How a value that is no container is shown: an attribute by its name, anything else as it is. -/
def Spec.simpleText : Val → Shown
  | .cls a => .atom (.text (className a))
  | v => .atom v

/-- An attribute, or a number, text, byte string or truth value. -/
def Spec.Simple (v : Val) : Prop := (∃ a, v = .cls a) ∨ Spec.plain v

/-- How a label is shown. -/
def Spec.labelText : Val → Val
  | .cls c => .text (className c)
  | v => v

/-- The start of a byte string and its length. -/
def Spec.startText (b : Bytes) : Shown := .trunc (.atom (.bytes (b.take 5))) b.length

/-- How a parameter of a key of class `kd` is shown. -/
def Spec.paramText (kd : Kind) (p : Val × Val) : Val × Shown :=
  (Spec.labelText p.1,
    match p with
    | (.cls c, .bytes b) => if c ∈ Spec.hidden kd ∧ b ≠ [] then Spec.startText b else .atom (.bytes b)
    | (.cls _, .arr l) => .list (l.map Spec.simpleText)
    | (_, v) => Spec.simpleText v)

/-- The place of a parameter: by number, and parameters without number after those with one. -/
def Spec.place : Val → Int
  | .cls c => c.ident
  | _ => 65536

/-- `d` has the entries of `s`, in the order of their places, and those with the same place in the same order as in `s`. -/
structure Spec.InOrder (d s : Dict) : Prop where
  perm : d.Perm s
  sorted : d.Pairwise fun a b => Spec.place a.1 ≤ Spec.place b.1
  stable : ∀ i, d.filter (fun a => Spec.place a.1 = i) = s.filter (fun a => Spec.place a.1 = i)

/-- The registered parameters of the four key classes. -/
def Spec.paramsOf : Kind → List (Cls × Bytes)
  | .ec2 => registry .kpEc2
  | .okp => registry .kpOkp
  | .rsa => registry .kpRsa
  | .sym => registry .kpSym

/-- An ordinary parameter of a key: its label is registered, a number, or a text that is no name used in the text; its
value is simple, but the key operations are a list, and the hidden parameters are byte strings. -/
structure Spec.OrdinaryParam (kd : Kind) (p : Val × Val) : Prop where
  label : (∃ c n, p.1 = .cls c ∧ (c, n) ∈ Spec.paramsOf kd) ∨ (∃ i, p.1 = .int i) ∨
    ∃ t, p.1 = .text t ∧ t ≠ b!"BASE_IV" ∧ t ≠ b!"OKPKpY" ∧ ∀ c n, (c, n) ∈ Spec.paramsOf kd → className c ≠ t
  ops : p.1 = .cls KpKeyOps → ∃ l, p.2 = .arr l ∧ ∀ v ∈ l, Spec.Simple v
  hidden : ∀ c ∈ Spec.hidden kd, p.1 = .cls c → ∃ b, p.2 = .bytes b
  other : p.1 ≠ .cls KpKeyOps → Spec.Simple p.2

/-- How a header is shown. -/
def Spec.headerText (p : Val × Val) : Val × Shown :=
  (Spec.labelText p.1,
    match p with
    | (.cls c, .bytes b) => if c = Hdr.IV ∧ b ≠ [] then Spec.startText b else .atom (.bytes b)
    | (_, v) => Spec.simpleText v)

/-- An ordinary header: its label is registered, a number, or a text that is no name used in the text; its value is
simple, and an IV is a byte string. -/
structure Spec.OrdinaryHeader (p : Val × Val) : Prop where
  label : (∃ c n, p.1 = .cls c ∧ (c, n) ∈ registry .hdr) ∨ (∃ i, p.1 = .int i) ∨
    ∃ t, p.1 = .text t ∧ t ≠ b!"PARTIAL_IV" ∧ ∀ c n, (c, n) ∈ registry .hdr → className c ≠ t
  iv : p.1 = .cls Hdr.IV → ∃ b, p.2 = .bytes b
  other : Spec.Simple p.2

/-- Ordinary headers and a payload. -/
structure Spec.OrdinaryBase (b : Base) : Prop where
  phdr : KeysNodup b.phdr ∧ ∀ p ∈ b.phdr, Spec.OrdinaryHeader p
  uhdr : KeysNodup b.uhdr ∧ ∀ p ∈ b.uhdr, Spec.OrdinaryHeader p
  payload : b.payload ≠ none

mutual
inductive Spec.OrdinaryRcpt : Rcpt → Prop
  | mk {c : RCls} {b : Base} {x : Bytes} {o : Nat} {rs : List Rcpt} : Spec.OrdinaryBase b → Spec.OrdinaryRcpts rs → OrdinaryRcpt (.mk c b x o rs)
inductive Spec.OrdinaryRcpts : List Rcpt → Prop
  | nil : OrdinaryRcpts []
  | cons {r : Rcpt} {rs : List Rcpt} : Spec.OrdinaryRcpt r → Spec.OrdinaryRcpts rs → OrdinaryRcpts (r :: rs)
end

/-- Protected header, unprotected header and the start of the payload. -/
def Spec.baseText (b : Base) : List Shown :=
  [.dict (b.phdr.map Spec.headerText), .dict (b.uhdr.map Spec.headerText), Spec.startText (b.payload.getD [])]

mutual
/-- A recipient: headers, start of the payload, list of recipients. -/
def Spec.rcptText : Rcpt → Shown
  | .mk _ b _ _ rs => .msg b!"COSE_Recipient" (Spec.baseText b ++ [.list (Spec.rcptTexts rs)])
termination_by structural x => x
def Spec.rcptTexts : List Rcpt → List Shown
  | [] => []
  | r :: t => Spec.rcptText r :: Spec.rcptTexts t
termination_by structural x => x
end

/-- A signer shows labels and attributes not by name but as Python shows classes. -/
def Spec.signerText (b : Base) : Shown :=
  .msg b!"COSE_Signature" [.dict (b.phdr.map fun p => (p.1, .atom p.2)), .dict (b.uhdr.map fun p => (p.1, .atom p.2)),
    Spec.startText (b.payload.getD [])]

/-- A message of the class `name` with the given parts after the payload. -/
def Spec.text (name : Bytes) (b : Base) (rest : List Shown) : Shown := .msg name (Spec.baseText b ++ rest)

/-! ### Sorting -/

theorem rank_place (v : Val) : rank v = Spec.place v := by cases v <;> rfl

theorem insertE_perm (e : Val × Val × Res Shown) (l : Entries) : (insertE e l).Perm (e :: l) := by
  induction l with
  | nil => exact .refl _
  | cons x t ih =>
    simp only [insertE]
    split
    · exact .refl _
    · exact (ih.cons x).trans (.swap _ _ _)

theorem sortE_perm (l : Entries) : (sortE l).Perm l := by
  induction l with
  | nil => exact .refl _
  | cons x t ih => exact (insertE_perm x (sortE t)).trans (ih.cons x)

theorem insertE_sorted {e : Val × Val × Res Shown} {l : Entries} (h : l.Pairwise fun a b => rank a.1 ≤ rank b.1) :
    (insertE e l).Pairwise fun a b => rank a.1 ≤ rank b.1 := by
  induction l with
  | nil => simp [insertE]
  | cons x t ih =>
    obtain ⟨h1, h2⟩ := List.pairwise_cons.mp h
    simp only [insertE]
    split
    · rename_i hx
      refine List.pairwise_cons.mpr ⟨fun a ha => ?_, h⟩
      rcases List.mem_cons.mp ha with rfl | ha
      · exact hx
      · have := h1 a ha; omega
    · rename_i hx
      refine List.pairwise_cons.mpr ⟨fun a ha => ?_, ih h2⟩
      rcases List.mem_cons.mp ((insertE_perm e t).mem_iff.mp ha) with rfl | ha
      · omega
      · exact h1 a ha

theorem sortE_sorted (l : Entries) : (sortE l).Pairwise fun a b => rank a.1 ≤ rank b.1 := by
  induction l with
  | nil => exact .nil
  | cons x t ih => exact insertE_sorted ih

theorem insertE_filter (i : Int) (e : Val × Val × Res Shown) (l : Entries) :
    (insertE e l).filter (fun a => rank a.1 = i) = (e :: l).filter (fun a => rank a.1 = i) := by
  induction l with
  | nil => rfl
  | cons x t ih =>
    simp only [insertE]
    split
    · rfl
    · rename_i hx
      rw [List.filter_cons, ih]
      by_cases h1 : rank x.1 = i
      · have h2 : ¬ rank e.1 = i := by omega
        simp [h1, h2]
      · simp [List.filter_cons, h1]

theorem sortE_filter (i : Int) (l : Entries) : (sortE l).filter (fun a => rank a.1 = i) = l.filter (fun a => rank a.1 = i) := by
  induction l with
  | nil => rfl
  | cons x t ih =>
    simp only [sortE]
    rw [insertE_filter, List.filter_cons, List.filter_cons, ih]

/-- Sorting the entries is sorting the dictionary. -/
theorem sortE_showE (s : Dict) : ∃ d, Spec.InOrder d s ∧ sortE (showE s) = showE d := by
  have hfix : ∀ e ∈ sortE (showE s), showP (e.1, e.2.1) = e := by
    intro e he
    have he := (sortE_perm _).mem_iff.mp he
    rw [showE_map] at he
    obtain ⟨⟨a, b⟩, _, rfl⟩ := List.mem_map.mp he
    simp [showP]
  have hback : ((showE s).map fun e => (e.1, e.2.1)) = s := by
    rw [showE_map, List.map_map]
    have : ((fun e : Val × Val × Res Shown => (e.1, e.2.1)) ∘ showP) = id := by funext ⟨a, b⟩; simp [showP]
    rw [this, List.map_id]
  refine ⟨(sortE (showE s)).map fun e => (e.1, e.2.1), ⟨?_, ?_, fun i => ?_⟩, ?_⟩
  · have := (sortE_perm (showE s)).map (fun e : Val × Val × Res Shown => (e.1, e.2.1))
    rwa [hback] at this
  · rw [List.pairwise_map]
    exact (sortE_sorted (showE s)).imp fun h => by simpa [rank_place] using h
  · have hf : ∀ l : Entries, (l.map fun e => (e.1, e.2.1)).filter (fun a => Spec.place a.1 = i) =
        (l.filter fun a => rank a.1 = i).map fun e => (e.1, e.2.1) := by
      intro l
      rw [List.filter_map]
      simp only [Function.comp_def, rank_place]
    rw [hf, sortE_filter, ← hf, hback]
  · rw [showE_map (List.map _ _), List.map_map]
    conv => lhs; rw [← List.map_id (sortE (showE s))]
    exact (List.map_congr_left fun e he => by simpa using hfix e he).symm

/-! ### Changing the entry with a given name -/

/-- Entry by entry. -/
def mapE (f : Val × Val × Res Shown → Res (Val × Val × Res Shown)) : Entries → Res Entries
  | [] => .ok []
  | e :: t => do
    let e ← f e
    let t ← mapE f t
    .ok (e :: t)

def Apart (es : Entries) : Prop := es.Pairwise fun a b => keq a.1 b.1 = false

/-- What `truncAt` does to one entry. -/
def trunc1 (n : Bytes) (e : Val × Val × Res Shown) : Res (Val × Val × Res Shown) :=
  if keq e.1 (.text n) then do
    let l ← lenOf e.2.1
    if l > 0 then do
      let s ← truncate e.2.1 e.2.2
      .ok (e.1, e.2.1, .ok s)
    else .ok e
  else .ok e

/-- What `opsAt` does to one entry. -/
def ops1 (e : Val × Val × Res Shown) : Res (Val × Val × Res Shown) :=
  if keq e.1 (.text b!"KpKeyOps") then do
    let s ← opsShown e.2.1 e.2.2
    .ok (e.1, e.2.1, s)
  else .ok e

theorem mapE_skip {f : Val × Val × Res Shown → Res (Val × Val × Res Shown)} {es : Entries} (h : ∀ e ∈ es, f e = .ok e) :
    mapE f es = .ok es := by
  induction es with
  | nil => rfl
  | cons e t ih => simp [mapE, h e (by simp), ih fun x hx => h x (by simp [hx]), ok_bind]

theorem apart_rest {e : Val × Val × Res Shown} {t : Entries} {n : Bytes} (h : Apart (e :: t)) (hk : keq e.1 (.text n) = true) :
    ∀ x ∈ t, keq x.1 (.text n) = false := by
  intro x hx
  have h1 := (List.pairwise_cons.mp h).1 x hx
  have h2 := keq_text_right.mp hk
  cases hq : keq x.1 (.text n) with
  | false => rfl
  | true =>
    have := keq_text_right.mp hq
    rw [h2, this] at h1
    simp at h1

theorem truncAt_mapE {n : Bytes} {es : Entries} (h : Apart es) : truncAt n es = mapE (trunc1 n) es := by
  induction es with
  | nil => rfl
  | cons e t ih =>
    obtain ⟨k, v, s⟩ := e
    cases hk : keq k (.text n) with
    | true =>
      have hr : mapE (trunc1 n) t = .ok t := mapE_skip fun x hx => by simp [trunc1, apart_rest h hk x hx]
      simp only [truncAt, findE, hk, if_true, mapE, trunc1, hr, ok_bind]
      cases lenOf v with
      | error e => rfl
      | ok m =>
        simp only [ok_bind]
        split
        · cases truncate v s with
          | error e => rfl
          | ok s' => simp [ok_bind, putE, hk]
        · rfl
    | false =>
      have ih := ih (List.pairwise_cons.mp h).2
      simp only [mapE, trunc1, hk, Bool.false_eq_true, if_false, ok_bind, ← ih]
      simp only [truncAt, findE, hk, Bool.false_eq_true, if_false]
      cases findE t (.text n) with
      | none => rfl
      | some x =>
        obtain ⟨v', s'⟩ := x
        simp only
        cases lenOf v' with
        | error e => rfl
        | ok m =>
          simp only [ok_bind]
          split
          · cases truncate v' s' with
            | error e => rfl
            | ok s' => simp [ok_bind, putE, hk]
          · rfl

theorem opsAt_mapE {es : Entries} (h : Apart es) : opsAt es = mapE ops1 es := by
  induction es with
  | nil => rfl
  | cons e t ih =>
    obtain ⟨k, v, s⟩ := e
    cases hk : keq k (.text b!"KpKeyOps") with
    | true =>
      have hr : mapE ops1 t = .ok t := mapE_skip fun x hx => by simp [ops1, apart_rest h hk x hx]
      simp only [opsAt, findE, hk, if_true, mapE, ops1, hr, ok_bind]
      cases opsShown v s with
      | error e => rfl
      | ok s' => simp [ok_bind, putE, hk]
    | false =>
      have ih := ih (List.pairwise_cons.mp h).2
      simp only [mapE, ops1, hk, Bool.false_eq_true, if_false, ok_bind, ← ih]
      simp only [opsAt, findE, hk, Bool.false_eq_true, if_false]
      cases findE t (.text b!"KpKeyOps") with
      | none => rfl
      | some x =>
        obtain ⟨v', s'⟩ := x
        simp only
        cases opsShown v' s' with
        | error e => rfl
        | ok s' => simp [ok_bind, putE, hk]

theorem apart_map {d : Dict} {g : Val × Val → Val × Val × Res Shown}
    (h : (d.map g).Pairwise fun a b => keq a.1 b.1 = false) : Apart (d.map g) := h

theorem mapE_map {d : Dict} {f : Val × Val × Res Shown → Res (Val × Val × Res Shown)} {g g' : Val × Val → Val × Val × Res Shown}
    (h : ∀ p ∈ d, f (g p) = .ok (g' p)) : mapE f (d.map g) = .ok (d.map g') := by
  induction d with
  | nil => rfl
  | cons p t ih => simp [mapE, h p (by simp), ih fun x hx => h x (by simp [hx]), ok_bind]

theorem finish_map {d : Dict} {g : Val × Val → Val × Val × Res Shown} {q : Val × Val → Val × Shown}
    (h : ∀ p ∈ d, (g p).1 = (q p).1 ∧ (g p).2.2 = .ok (q p).2) : finish (d.map g) = .ok (d.map q) := by
  induction d with
  | nil => rfl
  | cons p t ih =>
    obtain ⟨h1, h2⟩ := h p (by simp)
    have ih := ih fun x hx => h x (by simp [hx])
    simp only [List.map_cons]
    generalize hg : g p = e at h1 h2
    obtain ⟨a, b, c⟩ := e
    simp only at h1 h2
    subst h1 h2
    simp [finish, ih, ok_bind]

/-! ### Headers -/

theorem label_eq (v : Val) : nameOf v = Spec.labelText v := by cases v <;> rfl

theorem simple_shown {v : Val} (h : Spec.Simple v) : shownName v (showVal v) = .ok (Spec.simpleText v) := by
  rcases h with ⟨a, rfl⟩ | h
  · rfl
  · cases v <;> simp only [Spec.plain] at h <;> rfl

/-- Labels that are shown differently. -/
def LabelIn (reg : List (Cls × Bytes)) (v : Val) : Prop :=
  (∃ c n, v = .cls c ∧ (c, n) ∈ reg) ∨ (∃ i, v = .int i) ∨ ∃ t, v = .text t ∧ ∀ c n, (c, n) ∈ reg → className c ≠ t

theorem keq_int_cls (i : Int) (s : Bytes) : keq (.int i) (.text s) = false := by
  cases h : keq (.int i) (.text s) with
  | false => rfl
  | true => exact absurd (keq_text_right.mp h) (by simp)

theorem labels_apart {reg : List (Cls × Bytes)} (hinj : ∀ p ∈ reg, ∀ q ∈ reg, className p.1 = className q.1 → p.1 = q.1)
    {v w : Val} (hv : LabelIn reg v) (hw : LabelIn reg w) (h : keq v w = false) : keq (Spec.labelText v) (Spec.labelText w) = false := by
  cases hk : keq (Spec.labelText v) (Spec.labelText w) with
  | false => rfl
  | true =>
    exfalso
    rcases hv with ⟨c, n, rfl, hc⟩ | ⟨i, rfl⟩ | ⟨t, rfl, ht⟩
    · rcases hw with ⟨c', n', rfl, hc'⟩ | ⟨i, rfl⟩ | ⟨t, rfl, ht⟩
      · simp only [Spec.labelText] at hk
        have e := keq_text_right.mp hk
        have := hinj _ hc _ hc' (by simpa using e)
        simp only at this
        subst this
        simp at h
      · rw [keq_comm] at hk
        simp only [Spec.labelText, keq_int_cls] at hk
        simp at hk
      · simp only [Spec.labelText] at hk
        have e := keq_text_right.mp hk
        exact ht c n hc (by simpa using e)
    · rcases hw with ⟨c', n', rfl, hc'⟩ | ⟨j, rfl⟩ | ⟨t, rfl, ht⟩
      · simp only [Spec.labelText, keq_int_cls] at hk
        simp at hk
      · simp only [Spec.labelText] at hk
        rw [h] at hk; simp at hk
      · simp only [Spec.labelText, keq_int_cls] at hk
        simp at hk
    · rcases hw with ⟨c', n', rfl, hc'⟩ | ⟨j, rfl⟩ | ⟨t', rfl, ht'⟩
      · simp only [Spec.labelText] at hk
        have e := keq_text_right.mp hk
        exact ht c' n' hc' (by simpa using e.symm)
      · rw [keq_comm] at hk
        simp only [Spec.labelText, keq_int_cls] at hk
        simp at hk
      · simp only [Spec.labelText] at hk
        rw [h] at hk; simp at hk

/-- The entries after the names are in place. -/
def start (p : Val × Val) : Val × Val × Res Shown := (Spec.labelText p.1, nameOf p.2, shownName p.2 (showVal p.2))

theorem names_start {reg : List (Cls × Bytes)} (hinj : ∀ p ∈ reg, ∀ q ∈ reg, className p.1 = className q.1 → p.1 = q.1) {d : Dict}
    (hn : KeysNodup d) (hl : ∀ p ∈ d, LabelIn reg p.1) :
    names (showE d) = d.map start ∧ ∀ g : Val × Val → Val × Val × Res Shown, (∀ p, (g p).1 = Spec.labelText p.1) → Apart (d.map g) := by
  have hp : d.Pairwise fun a b => keq (Spec.labelText a.1) (Spec.labelText b.1) = false :=
    hn.imp_of_mem fun ha hb h => labels_apart hinj (hl _ ha) (hl _ hb) h
  refine ⟨?_, fun g hg => ?_⟩
  · rw [names_distinct, showE_map, List.map_map]
    · apply List.map_congr_left
      rintro ⟨a, b⟩ _
      simp [named, start, showP, label_eq]
    · rw [showE_map, List.pairwise_map]
      refine hp.imp fun {a b} h => ?_
      obtain ⟨a1, a2⟩ := a; obtain ⟨b1, b2⟩ := b
      simpa [showP, label_eq] using h
  · rw [Apart, List.pairwise_map]
    exact hp.imp fun {a b} h => by rw [hg, hg]; exact h

theorem hdr_names_inj : ∀ p ∈ registry .hdr, ∀ q ∈ registry .hdr, className p.1 = className q.1 → p.1 = q.1 :=
  fun p hp q hq => hdr_className_inj (n := p.2) (n' := q.2) hp hq

theorem className_text {reg : List (Cls × Bytes)} (hinj : ∀ p ∈ reg, ∀ q ∈ reg, className p.1 = className q.1 → p.1 = q.1)
    {c : Cls} {n nm : Bytes} (hc : (c, n) ∈ reg) (hn : className c = nm) {v : Val} (hv : LabelIn reg v) :
    keq (Spec.labelText v) (.text nm) = true ↔ v = .cls c := by
  rw [keq_text_right]
  subst hn
  rcases hv with ⟨c', n', rfl, hc'⟩ | ⟨i, rfl⟩ | ⟨t, rfl, ht⟩
  · simp only [Spec.labelText, Val.text.injEq, Val.cls.injEq]
    exact ⟨fun h => hinj _ hc' _ hc h, fun h => by rw [h]⟩
  · simp [Spec.labelText]
  · simp only [Spec.labelText, Val.text.injEq, reduceCtorEq, iff_false]
    exact fun h => ht c n hc h.symm

theorem no_label {reg : List (Cls × Bytes)} {nm : Bytes} (hno : ∀ p ∈ reg, className p.1 ≠ nm) {v : Val}
    (hv : (∃ c n, v = .cls c ∧ (c, n) ∈ reg) ∨ (∃ i, v = .int i) ∨ ∃ t, v = .text t ∧ t ≠ nm) :
    keq (Spec.labelText v) (.text nm) = false := by
  cases hk : keq (Spec.labelText v) (.text nm) with
  | false => rfl
  | true =>
    exfalso
    have e := keq_text_right.mp hk
    rcases hv with ⟨c, n, rfl, hc⟩ | ⟨i, rfl⟩ | ⟨t, rfl, ht⟩ <;> simp only [Spec.labelText, Val.text.injEq, reduceCtorEq] at e
    · exact hno _ hc e
    · exact ht e

theorem bytes_length_pos {b : Bytes} : b.length > 0 ↔ b ≠ [] := by
  cases b <;> simp

theorem hdrShown_text {d : Dict} (hn : KeysNodup d) (ho : ∀ p ∈ d, Spec.OrdinaryHeader p) :
    hdrShown d = .ok (.dict (d.map Spec.headerText)) := by
  have hl : ∀ p ∈ d, LabelIn (registry .hdr) p.1 := fun p hp => by
    rcases (ho p hp).label with h | h | ⟨t, h, _, h'⟩
    · exact .inl h
    · exact .inr (.inl h)
    · exact .inr (.inr ⟨t, h, h'⟩)
  obtain ⟨hs, ha⟩ := names_start hdr_names_inj hn hl
  let g : Val × Val → Val × Val × Res Shown := fun p => (Spec.labelText p.1, nameOf p.2, .ok (Spec.headerText p).2)
  have h1 : truncAt b!"IV" (d.map start) = .ok (d.map g) := by
    rw [truncAt_mapE (ha start fun _ => rfl)]
    apply mapE_map
    intro p hp
    have hk := className_text hdr_names_inj (c := Hdr.IV) (n := b!"IV") (nm := b!"IV") (by decide +kernel) (by decide +kernel) (hl p hp)
    have hsim := simple_shown (ho p hp).other
    have hiv := (ho p hp).iv
    obtain ⟨a, v⟩ := p
    simp only at hk hsim hiv
    simp only [trunc1, start, hsim, g]
    by_cases e : a = .cls Hdr.IV
    · obtain ⟨b, rfl⟩ := hiv e
      subst e
      rw [if_pos (hk.mpr rfl)]
      simp only [nameOf, lenOf, ok_bind, bytes_length_pos]
      by_cases hb : b = []
      · subst hb; rfl
      · simp [hb, truncate, ok_bind, Spec.headerText, Spec.startText]
    · rw [if_neg (fun h => e (hk.mp h))]
      cases a <;> try rfl
      rename_i c
      cases v <;> try rfl
      rename_i b
      have : ¬ (c = Hdr.IV) := fun h => e (by rw [h])
      simp [Spec.headerText, this, Spec.simpleText]
  have h2 : truncAt b!"PARTIAL_IV" (d.map g) = .ok (d.map g) := by
    rw [truncAt_mapE (ha g fun _ => rfl)]
    apply mapE_map
    intro p hp
    have : keq (Spec.labelText p.1) (.text b!"PARTIAL_IV") = false := by
      refine no_label (reg := registry .hdr) (by decide +kernel) ?_
      rcases (ho p hp).label with h | h | ⟨t, h, h', _⟩
      · exact .inl h
      · exact .inr (.inl h)
      · exact .inr (.inr ⟨t, h, h'⟩)
    simp [trunc1, g, this]
  simp only [hdrShown, truncAll, hs, h1, h2, ok_bind]
  rw [finish_map (q := Spec.headerText) fun p _ => ⟨rfl, rfl⟩]
  rfl

theorem baseShown_text {b : Base} (h : Spec.OrdinaryBase b) : baseShown b = .ok (Spec.baseText b) := by
  obtain ⟨⟨h1, h2⟩, ⟨h3, h4⟩, h5⟩ := h
  simp only [baseShown, hdrShown_text h1 h2, hdrShown_text h3 h4, ok_bind, Spec.baseText]
  cases hp : b.payload with
  | none => exact absurd hp h5
  | some p => rfl

mutual
theorem rcptRepr_text {r : Rcpt} (h : Spec.OrdinaryRcpt r) : r.repr = .ok (Spec.rcptText r) := by
  cases h with
  | mk h1 h2 => simp only [Rcpt.repr, baseShown_text h1, rcptsShown_text h2, ok_bind, Spec.rcptText]
theorem rcptsShown_text {rs : List Rcpt} (h : Spec.OrdinaryRcpts rs) : rcptsShown rs = .ok (Spec.rcptTexts rs) := by
  cases h with
  | nil => rfl
  | cons h1 h2 => simp only [rcptsShown, rcptRepr_text h1, rcptsShown_text h2, ok_bind, Spec.rcptTexts]
end

theorem simple_showVal {v : Val} (h : Spec.Simple v) : showVal v = .ok (.atom v) := by
  rcases h with ⟨a, rfl⟩ | h
  · rfl
  · cases v <;> simp only [Spec.plain] at h <;> rfl

theorem dictShown_text {d : Dict} (ho : ∀ p ∈ d, Spec.OrdinaryHeader p) :
    showVal (.map d) = .ok (.dict (d.map fun p => (p.1, .atom p.2))) := by
  simp only [showVal, showE_map]
  rw [finish_map (q := fun p => (p.1, .atom p.2)) fun p hp => ?_]
  · rfl
  · have := simple_showVal (ho p hp).other
    obtain ⟨a, b⟩ := p
    exact ⟨rfl, this⟩

theorem signerShown_text {b : Base} (h : Spec.OrdinaryBase b) : signerShown b = .ok (Spec.signerText b) := by
  obtain ⟨⟨h1, h2⟩, ⟨h3, h4⟩, h5⟩ := h
  simp only [signerShown, dictShown_text h2, dictShown_text h4, ok_bind, Spec.signerText]
  cases hp : b.payload with
  | none => exact absurd hp h5
  | some p => rfl

theorem signersShown_text {l : List Base} (h : ∀ b ∈ l, Spec.OrdinaryBase b) : signersShown l = .ok (l.map Spec.signerText) := by
  induction l with
  | nil => rfl
  | cons b t ih => simp [signersShown, signerShown_text (h b (by simp)), ih fun x hx => h x (by simp [hx]), ok_bind]

/-! ### Keys -/

theorem param_names_inj (kd : Kind) : ∀ p ∈ Spec.paramsOf kd, ∀ q ∈ Spec.paramsOf kd, className p.1 = className q.1 → p.1 = q.1 := by
  cases kd <;> decide +kernel

theorem opName_simple {l : List Val} (h : ∀ v ∈ l, Spec.Simple v) :
    ∃ ls, showL l = .ok ls ∧ List.zipWith opName l ls = l.map Spec.simpleText := by
  induction l with
  | nil => exact ⟨[], rfl, rfl⟩
  | cons v t ih =>
    obtain ⟨ls, h1, h2⟩ := ih fun x hx => h x (by simp [hx])
    have hv := h v (by simp)
    refine ⟨.atom v :: ls, by simp only [showL, simple_showVal hv, h1, ok_bind], ?_⟩
    simp only [List.zipWith_cons_cons, h2, List.map_cons, List.cons.injEq, and_true]
    cases v <;> rfl

theorem trunc1_miss {n : Bytes} {k v : Val} {s : Res Shown} (h : keq k (.text n) = false) : trunc1 n (k, v, s) = .ok (k, v, s) := by
  simp [trunc1, h]
theorem trunc1_bytes {n : Bytes} {k : Val} {b : Bytes} {s : Shown} (h : keq k (.text n) = true) :
    trunc1 n (k, .bytes b, .ok s) = .ok (k, .bytes b, .ok (if b ≠ [] then Spec.startText b else s)) := by
  simp only [trunc1, h, if_true, lenOf, ok_bind, bytes_length_pos]
  by_cases hb : b = [] <;> simp [hb, truncate, ok_bind, Spec.startText]
theorem ops1_miss {k v : Val} {s : Res Shown} (h : keq k (.text b!"KpKeyOps") = false) : ops1 (k, v, s) = .ok (k, v, s) := by
  simp [ops1, h]
theorem ops1_list {k : Val} {l : List Val} {ls : List Shown} (h : keq k (.text b!"KpKeyOps") = true) :
    ops1 (k, .arr l, .ok (.list ls)) = .ok (k, .arr l, .ok (.list (List.zipWith opName l ls))) := by
  simp [ops1, h, opsShown, ok_bind]

/-- A parameter while the hidden ones with the names `done` are shortened. -/
def partText (done : List Cls) (p : Val × Val) : Shown :=
  match p with
  | (.cls c, .bytes b) => if c ∈ done ∧ b ≠ [] then Spec.startText b else .atom (.bytes b)
  | (.cls _, .arr l) => .list (l.map Spec.simpleText)
  | (_, v) => Spec.simpleText v

def part (done : List Cls) (p : Val × Val) : Val × Val × Res Shown :=
  (Spec.labelText p.1, nameOf p.2, .ok (partText done p))

theorem ordinary_label {kd : Kind} {p : Val × Val} (h : Spec.OrdinaryParam kd p) : LabelIn (Spec.paramsOf kd) p.1 := by
  rcases h.label with h | h | ⟨t, h, _, _, h'⟩
  · exact .inl h
  · exact .inr (.inl h)
  · exact .inr (.inr ⟨t, h, h'⟩)

theorem truncAt_hidden {kd : Kind} {d : Dict} {done : List Cls} {c : Cls} {n nm : Bytes} (ho : ∀ p ∈ d, Spec.OrdinaryParam kd p)
    (ha : ∀ g : Val × Val → Val × Val × Res Shown, (∀ p, (g p).1 = Spec.labelText p.1) → Apart (d.map g))
    (hc : c ∈ Spec.hidden kd) (hr : (c, n) ∈ Spec.paramsOf kd) (hnm : className c = nm) :
    truncAt nm (d.map (part done)) = .ok (d.map (part (c :: done))) := by
  rw [truncAt_mapE (ha _ fun _ => rfl)]
  apply mapE_map
  intro p hp
  have hk := className_text (param_names_inj kd) hr hnm (ordinary_label (ho p hp))
  have hh := (ho p hp).hidden c hc
  obtain ⟨a, v⟩ := p
  simp only at hk hh
  by_cases e : a = .cls c
  · obtain ⟨b, rfl⟩ := hh e
    subst e
    refine (trunc1_bytes (hk.mpr rfl)).trans ?_
    simp only [part, partText, nameOf]
    by_cases hb : b = [] <;> simp [hb]
  · refine (trunc1_miss (Bool.eq_false_iff.mpr fun h => e (hk.mp h))).trans ?_
    simp only [part]
    cases a <;> try rfl
    rename_i c'
    cases v <;> try rfl
    rename_i b
    have : ¬ (c' = c) := fun h => e (by rw [h])
    simp [partText, this]

theorem truncAt_absent {kd : Kind} {d : Dict} {done : List Cls} {nm : Bytes} (ho : ∀ p ∈ d, Spec.OrdinaryParam kd p)
    (ha : ∀ g : Val × Val → Val × Val × Res Shown, (∀ p, (g p).1 = Spec.labelText p.1) → Apart (d.map g))
    (hnm : nm = b!"BASE_IV" ∨ nm = b!"OKPKpY") :
    truncAt nm (d.map (part done)) = .ok (d.map (part done)) := by
  rw [truncAt_mapE (ha _ fun _ => rfl)]
  apply mapE_map
  intro p hp
  have : keq (Spec.labelText p.1) (.text nm) = false := by
    refine no_label (reg := Spec.paramsOf kd) ?_ ?_
    · rcases hnm with rfl | rfl <;> cases kd <;> decide +kernel
    · rcases (ho p hp).label with h | h | ⟨t, h, h1, h2, _⟩
      · exact .inl h
      · exact .inr (.inl h)
      · exact .inr (.inr ⟨t, h, by rcases hnm with rfl | rfl <;> assumption⟩)
  simp [trunc1, part, this]

theorem opsAt_text {kd : Kind} {d : Dict} (ho : ∀ p ∈ d, Spec.OrdinaryParam kd p)
    (ha : ∀ g : Val × Val → Val × Val × Res Shown, (∀ p, (g p).1 = Spec.labelText p.1) → Apart (d.map g)) :
    opsAt (d.map start) = .ok (d.map (part [])) := by
  rw [opsAt_mapE (ha _ fun _ => rfl)]
  apply mapE_map
  intro p hp
  have hk := className_text (param_names_inj kd) (c := KpKeyOps) (n := b!"KEY_OPS") (nm := b!"KpKeyOps")
    (by cases kd <;> decide +kernel) (by decide +kernel) (ordinary_label (ho p hp))
  have ho1 := (ho p hp).ops
  have ho2 := (ho p hp).other
  obtain ⟨a, v⟩ := p
  simp only at hk ho1 ho2
  by_cases e : a = .cls KpKeyOps
  · obtain ⟨l, rfl, hl⟩ := ho1 e
    subst e
    obtain ⟨ls, h1, h2⟩ := opName_simple hl
    have h3 : start (.cls KpKeyOps, .arr l) = (Spec.labelText (.cls KpKeyOps), .arr l, .ok (.list ls)) := by
      simp only [start, nameOf, shownName, showVal, h1, ok_bind]
    rw [h3]
    refine (ops1_list (hk.mpr rfl)).trans ?_
    simp only [part, partText, nameOf, h2]
  · refine (ops1_miss (Bool.eq_false_iff.mpr fun h => e (hk.mp h))).trans ?_
    have hs := ho2 e
    rw [simple_shown hs]
    simp only [part]
    cases a <;> try rfl
    cases v <;> first | rfl | (simp [Spec.Simple, Spec.plain] at hs) | simp [partText, Spec.simpleText]

theorem keyShown_text {kd : Kind} {s : Dict} (hn : KeysNodup s) (ho : ∀ p ∈ s, Spec.OrdinaryParam kd p) :
    ∃ d, Spec.InOrder d s ∧ keyShown kd (showE s) = .ok (.key kd (d.map (Spec.paramText kd))) := by
  obtain ⟨d, hd, hs⟩ := sortE_showE s
  have hn' : KeysNodup d := by
    refine hd.perm.symm.pairwise hn fun {a b} h => ?_
    rw [keq_comm]; exact h
  have ho' : ∀ p ∈ d, Spec.OrdinaryParam kd p := fun p hp => ho p (hd.perm.mem_iff.mp hp)
  obtain ⟨h1, ha⟩ := names_start (param_names_inj kd) hn' fun p hp => ordinary_label (ho' p hp)
  refine ⟨d, hd, ?_⟩
  have hfin : finish (d.map (part (Spec.hidden kd).reverse)) = .ok (d.map (Spec.paramText kd)) := by
    refine finish_map fun p _ => ⟨rfl, ?_⟩
    obtain ⟨a, v⟩ := p
    simp only [part, Spec.paramText, partText, List.mem_reverse]
  have htr : truncAll (shortened kd) (d.map (part [])) = .ok (d.map (part (Spec.hidden kd).reverse)) := by
    cases kd with
    | sym =>
      simp only [shortened, truncAll]
      rw [truncAt_hidden (c := SymK) (n := b!"K") ho' ha (by decide) (by decide +kernel) (by decide +kernel)]
      rfl
    | okp =>
      simp only [shortened, truncAll]
      rw [truncAt_hidden (c := OkpD) (n := b!"D") ho' ha (by decide) (by decide +kernel) (by decide +kernel)]
      rw [ok_bind, truncAt_hidden (c := OkpX) (n := b!"X") ho' ha (by decide) (by decide +kernel) (by decide +kernel)]
      rw [ok_bind, truncAt_absent ho' ha (.inr rfl)]
      rfl
    | ec2 =>
      simp only [shortened, truncAll]
      rw [truncAt_hidden (c := Ec2D) (n := b!"D") ho' ha (by decide) (by decide +kernel) (by decide +kernel)]
      rw [ok_bind, truncAt_hidden (c := Ec2X) (n := b!"X") ho' ha (by decide) (by decide +kernel) (by decide +kernel)]
      rw [ok_bind, truncAt_hidden (c := Ec2Y) (n := b!"Y") ho' ha (by decide) (by decide +kernel) (by decide +kernel)]
      rfl
    | rsa =>
      rfl
  simp only [keyShown, hs, h1, opsAt_text ho' ha, ok_bind, truncAt_absent ho' ha (.inl rfl), htr, hfin]

/-! ### C87 -/

/-- **C87**.  Every registered attribute — header, algorithm, key parameter, key operation, key type, curve — is shown
by a name of its own. -/
theorem c87_names (r : Reg) : (∀ p ∈ registry r, className p.1 ≠ []) ∧
    ∀ p ∈ registry r, ∀ q ∈ registry r, className p.1 = className q.1 → p.1 = q.1 := by
  cases r <;> decide +kernel

/-- **C87**.  The text of a key with ordinary parameters: each parameter once, in the order of the numbers, the others
after them in their own order; labels, attributes and key operations by name; of the key value, private key and
coordinates the first five bytes and the length. -/
theorem c87_key {k : Key} (hn : KeysNodup k.store) (ho : ∀ p ∈ k.store, Spec.OrdinaryParam k.kind p) :
    ∃ d, Spec.InOrder d k.store ∧ k.repr = .ok (.key k.kind (d.map (Spec.paramText k.kind))) :=
  keyShown_text hn ho

/-- **C87**.  The text of messages with ordinary headers: the name of the message type, the protected header, the
unprotected header, the start of the payload, and then the start of the tag or signature, the recipients, the signers. -/
theorem c87_enc0 {m : Enc0} (h : Spec.OrdinaryBase m.base) : (Msg.enc0 m).repr = .ok (Spec.text b!"COSE_Encrypt0" m.base []) := by
  simp [Msg.repr, baseShown_text h, ok_bind, Spec.text]

theorem c87_mac0 {m : Mac0} {t : Bytes} (h : Spec.OrdinaryBase m.base) (ht : m.authTag = .bytes t) :
    (Msg.mac0 m).repr = .ok (Spec.text b!"COSE_Mac0" m.base [Spec.startText t]) := by
  simp [Msg.repr, baseShown_text h, ok_bind, Spec.text, tailShown, ht, truncate, Spec.startText]

theorem c87_sign1 {m : Sign1} {t : Bytes} (h : Spec.OrdinaryBase m.base) (ht : m.signature = .bytes t) :
    (Msg.sign1 m).repr = .ok (Spec.text b!"COSE_Sign1" m.base [Spec.startText t]) := by
  simp [Msg.repr, baseShown_text h, ok_bind, Spec.text, tailShown, ht, truncate, Spec.startText]

theorem c87_enc {m : Enc} (h : Spec.OrdinaryBase m.base) (hr : Spec.OrdinaryRcpts m.recipients) :
    (Msg.enc m).repr = .ok (Spec.text b!"COSE_Encrypt" m.base [.list (Spec.rcptTexts m.recipients)]) := by
  simp [Msg.repr, baseShown_text h, ok_bind, Spec.text, rcptsShown_text hr]

theorem c87_mac {m : Mac} {t : Bytes} {rs : List Rcpt} (h : Spec.OrdinaryBase m.base) (ht : m.authTag = .bytes t)
    (hm : m.recipients = some rs) (hr : Spec.OrdinaryRcpts rs) :
    (Msg.mac m).repr = .ok (Spec.text b!"COSE_Mac" m.base [Spec.startText t, .list (Spec.rcptTexts rs)]) := by
  simp [Msg.repr, baseShown_text h, ok_bind, Spec.text, tailShown, ht, truncate, Spec.startText, hm, rcptsShown_text hr]

theorem c87_sign {m : SignMsg} (h : Spec.OrdinaryBase m.base) (hs : ∀ b ∈ m.signers, Spec.OrdinaryBase b) :
    (Msg.sign m).repr = .ok (Spec.text b!"COSE_Sign" m.base [.list (m.signers.map Spec.signerText)]) := by
  simp [Msg.repr, baseShown_text h, ok_bind, Spec.text, signersShown_text hs]

/-! ### The cases are met -/

/-- A private EC2 key whose parameters are in no particular order, with two parameters that are not registered. -/
def Sample.reprKey : Key :=
  { kind := .ec2
    store := [(.cls KpKty, .cls KtyEC2), (.int 100, .text b!"a"), (.cls KpKeyOps, .arr [.cls Op.Sign, .cls Op.Verify]),
      (.cls Ec2D, .bytes [1, 2, 3, 4, 5, 6, 7]), (.int 7, .int 8), (.cls Ec2Crv, .cls P256)] }

example : KeysNodup Sample.reprKey.store ∧ (∀ p ∈ Sample.reprKey.store, Spec.OrdinaryParam .ec2 p) := by
  refine ⟨by simp [KeysNodup, Sample.reprKey, keq, norm], ?_⟩
  have reg : ∀ c ∈ [KpKty, KpKeyOps, Ec2D, Ec2Crv], ∃ n, (c, n) ∈ Spec.paramsOf .ec2 := by
    intro c hc
    have h : ∀ c ∈ [KpKty, KpKeyOps, Ec2D, Ec2Crv], ∃ q ∈ Spec.paramsOf .ec2, q.1 = c := by decide +kernel
    obtain ⟨⟨a, n⟩, h1, h2⟩ := h c hc
    exact ⟨n, h2 ▸ h1⟩
  intro p hp
  simp only [Sample.reprKey, List.mem_cons, List.not_mem_nil, or_false] at hp
  rcases hp with rfl | rfl | rfl | rfl | rfl | rfl
  · obtain ⟨n, h⟩ := reg KpKty (by simp)
    exact ⟨.inl ⟨_, n, rfl, h⟩, by simp [KpKty, KpKeyOps], by simp [Spec.hidden, KpKty, Ec2D, Ec2X, Ec2Y], fun _ => .inl ⟨_, rfl⟩⟩
  · exact ⟨.inr (.inl ⟨_, rfl⟩), by simp, by simp, fun _ => .inr trivial⟩
  · obtain ⟨n, h⟩ := reg KpKeyOps (by simp)
    exact ⟨.inl ⟨_, n, rfl, h⟩, fun _ => ⟨_, rfl, by simp [Spec.Simple]⟩, by simp [Spec.hidden, KpKeyOps, Ec2D, Ec2X, Ec2Y], by simp⟩
  · obtain ⟨n, h⟩ := reg Ec2D (by simp)
    exact ⟨.inl ⟨_, n, rfl, h⟩, by simp [Ec2D, KpKeyOps], by simp, fun _ => .inr trivial⟩
  · exact ⟨.inr (.inl ⟨_, rfl⟩), by simp, by simp, fun _ => .inr trivial⟩
  · obtain ⟨n, h⟩ := reg Ec2Crv (by simp)
    exact ⟨.inl ⟨_, n, rfl, h⟩, by simp [Ec2Crv, KpKeyOps], by simp [Spec.hidden, Ec2Crv, Ec2D, Ec2X, Ec2Y], fun _ => .inl ⟨_, rfl⟩⟩

/-- Its text. -/
example : Sample.reprKey.repr = .ok (.key .ec2
    [(.text b!"EC2KpD", .trunc (.atom (.bytes [1, 2, 3, 4, 5])) 7), (.text b!"EC2KpCurve", .atom (.text b!"P256")),
     (.text b!"KpKty", .atom (.text b!"KtyEC2")), (.text b!"KpKeyOps", .list [.atom (.text b!"SignOp"), .atom (.text b!"VerifyOp")]),
     (.int 100, .atom (.text b!"a")), (.int 7, .atom (.int 8))]) := rfl

/-- A message with headers, a tag and a recipient. -/
def Sample.reprBase : Base :=
  { phdr := [(.cls Hdr.Algorithm, algCls 5)], uhdr := [(.cls Hdr.IV, .bytes [1, 2, 3, 4, 5, 6]), (.int 77, .int 3)], payload := some [9] }

theorem Sample.reprBase_ordinary : Spec.OrdinaryBase Sample.reprBase := by
  have reg : ∀ c ∈ [Hdr.Algorithm, Hdr.IV], ∃ n, (c, n) ∈ registry .hdr := by
    intro c hc
    have h : ∀ c ∈ [Hdr.Algorithm, Hdr.IV], ∃ q ∈ registry .hdr, q.1 = c := by decide +kernel
    obtain ⟨⟨a, n⟩, h1, h2⟩ := h c hc
    exact ⟨n, h2 ▸ h1⟩
  refine ⟨⟨by simp [KeysNodup, Sample.reprBase], ?_⟩, ⟨by simp [KeysNodup, Sample.reprBase, keq, norm], ?_⟩, by simp [Sample.reprBase]⟩
  · intro p hp
    simp only [Sample.reprBase, List.mem_singleton] at hp
    subst hp
    obtain ⟨n, h⟩ := reg Hdr.Algorithm (by simp)
    exact ⟨.inl ⟨_, n, rfl, h⟩, by simp [Hdr.Algorithm, Hdr.IV], .inl ⟨_, rfl⟩⟩
  · intro p hp
    simp only [Sample.reprBase, List.mem_cons, List.not_mem_nil, or_false] at hp
    rcases hp with rfl | rfl
    · obtain ⟨n, h⟩ := reg Hdr.IV (by simp)
      exact ⟨.inl ⟨_, n, rfl, h⟩, fun _ => ⟨_, rfl⟩, .inr trivial⟩
    · exact ⟨.inr (.inl ⟨_, rfl⟩), by simp, .inr trivial⟩

example : Spec.OrdinaryRcpts [.mk .keyWrap Sample.reprBase [] 0 []] := .cons (.mk Sample.reprBase_ordinary .nil) .nil

end Cose
