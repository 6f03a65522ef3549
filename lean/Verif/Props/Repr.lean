import Verif.Repr
import Verif.Props.Reencode
import Verif.Props.Keys
/-!
# C67 — what printing a key or a message reveals
-/
set_option autoImplicit false
namespace Cose

/-! ### Specification -/

/-- The parameters of which the text of a key must show only the beginning and the length: the key value, the private
key and the coordinates. -/
def Spec.hidden : Kind → List Cls
  | .sym => [SymK]
  | .ec2 => [Ec2D, Ec2X, Ec2Y]
  | .okp => [OkpD, OkpX]
  | .rsa => []

mutual
/-- Two values that differ at most in the hidden parameters of the keys they contain, and there not in length or in the
first five bytes. -/
inductive Spec.Alike : Val → Val → Prop
  | same (v : Val) : Alike v v
  | arr {l l' : List Val} : Spec.AlikeL l l' → Alike (.arr l) (.arr l')
  | map {d d' : Dict} : Spec.AlikeD d d' → Alike (.map d) (.map d')
  | tag {n : Nat} {v v' : Val} : Spec.Alike v v' → Alike (.tag n v) (.tag n v')
  | key {kd : Kind} {s s' : Dict} : Spec.AlikeK kd s s' → Alike (.key kd s) (.key kd s')
inductive Spec.AlikeL : List Val → List Val → Prop
  | nil : AlikeL [] []
  | cons {v v' : Val} {l l' : List Val} : Spec.Alike v v' → Spec.AlikeL l l' → AlikeL (v :: l) (v' :: l')
inductive Spec.AlikeD : Dict → Dict → Prop
  | nil : AlikeD [] []
  | cons {k v v' : Val} {d d' : Dict} : Spec.Alike v v' → Spec.AlikeD d d' → AlikeD ((k, v) :: d) ((k, v') :: d')
/-- The entries of two keys of class `kd`. -/
inductive Spec.AlikeK : Kind → Dict → Dict → Prop
  | nil {kd : Kind} : AlikeK kd [] []
  | cons {kd : Kind} {k v v' : Val} {d d' : Dict} : Spec.Alike v v' → Spec.AlikeK kd d d' → AlikeK kd ((k, v) :: d) ((k, v') :: d')
  | hidden {kd : Kind} {c : Cls} {b b' : Bytes} {d d' : Dict} : c ∈ Spec.hidden kd → b.length = b'.length → b.take 5 = b'.take 5 →
      Spec.AlikeK kd d d' → AlikeK kd ((.cls c, .bytes b) :: d) ((.cls c, .bytes b') :: d')
end

/-- Two payloads with the same length and the same first five bytes. -/
def Spec.AlikePayload (p p' : Option Bytes) : Prop :=
  p = p' ∨ ∃ b b', p = some b ∧ p' = some b' ∧ b.length = b'.length ∧ b.take 5 = b'.take 5

/-- Headers alike and payload alike; key, external data, local attributes and encoded protected header are arbitrary. -/
def Spec.AlikeBase (b b' : Base) : Prop :=
  Spec.AlikeD b.phdr b'.phdr ∧ Spec.AlikeD b.uhdr b'.uhdr ∧ Spec.AlikePayload b.payload b'.payload

mutual
inductive Spec.AlikeR : Rcpt → Rcpt → Prop
  | mk {c c' : RCls} {b b' : Base} {x x' : Bytes} {o o' : Nat} {l l' : List Rcpt} :
      Spec.AlikeBase b b' → Spec.AlikeRs l l' → AlikeR (.mk c b x o l) (.mk c' b' x' o' l')
inductive Spec.AlikeRs : List Rcpt → List Rcpt → Prop
  | nil : AlikeRs [] []
  | cons {r r' : Rcpt} {l l' : List Rcpt} : Spec.AlikeR r r' → Spec.AlikeRs l l' → AlikeRs (r :: l) (r' :: l')
end

/-- A signature or tag: same start and length. -/
inductive Spec.AlikeTail : Val → Val → Prop
  | alike {v v' : Val} : Spec.Alike v v' → AlikeTail v v'
  | bytes {b b' : Bytes} : b.length = b'.length → b.take 5 = b'.take 5 → AlikeTail (.bytes b) (.bytes b')

/-- Two messages of the same class that differ at most in what their text must not show. -/
inductive Spec.AlikeMsg : Msg → Msg → Prop
  | enc0 {m m' : Enc0} : Spec.AlikeBase m.base m'.base → AlikeMsg (.enc0 m) (.enc0 m')
  | mac0 {m m' : Mac0} : Spec.AlikeBase m.base m'.base → Spec.AlikeTail m.authTag m'.authTag → AlikeMsg (.mac0 m) (.mac0 m')
  | sign1 {m m' : Sign1} : Spec.AlikeBase m.base m'.base → Spec.AlikeTail m.signature m'.signature → AlikeMsg (.sign1 m) (.sign1 m')
  | enc {m m' : Enc} : Spec.AlikeBase m.base m'.base → Spec.AlikeRs m.recipients m'.recipients → AlikeMsg (.enc m) (.enc m')
  | mac {m m' : Mac} {l l' : List Rcpt} : Spec.AlikeBase m.base m'.base → Spec.AlikeTail m.authTag m'.authTag →
      m.recipients = some l → m'.recipients = some l' → Spec.AlikeRs l l' → AlikeMsg (.mac m) (.mac m')
  | sign {m m' : SignMsg} : Spec.AlikeBase m.base m'.base → All2 Spec.AlikeBase m.signers m'.signers → AlikeMsg (.sign m) (.sign m')

/-! ### Helpers -/

theorem norm_eq_text {v : Val} {s : Bytes} (h : norm v = .text s) : v = .text s := by
  cases v <;> simp [norm] at h
  all_goals first | (subst h; rfl) | (split at h <;> simp at h)

theorem keq_text_right {v : Val} {s : Bytes} : keq v (.text s) = true ↔ v = .text s := by
  constructor
  · intro h; rw [keq_iff] at h; exact norm_eq_text (by simpa [norm] using h)
  · rintro rfl; simp

theorem alike_len {v v' : Val} (h : Spec.Alike v v') : lenOf v = lenOf v' := by
  have hl : ∀ {l l' : List Val}, Spec.AlikeL l l' → l.length = l'.length := by
    intro l
    induction l with
    | nil => intro l' h; cases h; rfl
    | cons x t ih => intro l' h; cases h with | cons _ h => simp [ih h]
  have hd : ∀ {l l' : Dict}, Spec.AlikeD l l' → l.length = l'.length := by
    intro l
    induction l with
    | nil => intro l' h; cases h; rfl
    | cons x t ih => intro l' h; cases h with | cons _ h => simp [ih h]
  have hk : ∀ {kd : Kind} {l l' : Dict}, Spec.AlikeK kd l l' → l.length = l'.length := by
    intro kd l
    induction l with
    | nil => intro l' h; cases h; rfl
    | cons x t ih =>
      intro l' h
      cases h with
      | cons _ h => simp [ih h]
      | hidden _ _ _ h => simp [ih h]
  cases h with
  | same => rfl
  | arr h => simp [lenOf, hl h]
  | map h => simp [lenOf, hd h]
  | tag h => rfl
  | key h => simp [lenOf, hk h]

theorem alikeL_length {l l' : List Val} (h : Spec.AlikeL l l') : l.length = l'.length := by
  have := alike_len (.arr h); simpa [lenOf] using this

theorem alike_nameOf {v v' : Val} (h : Spec.Alike v v') : Spec.Alike (nameOf v) (nameOf v') := by
  cases h with
  | same => exact .same _
  | arr h => exact .arr h
  | map h => exact .map h
  | tag h => exact .tag h
  | key h => exact .key h

theorem alike_shownName {v v' : Val} (h : Spec.Alike v v') (s : Res Shown) : shownName v s = shownName v' s := by
  cases h <;> first | rfl | simp [shownName]

theorem alike_truncate {v v' : Val} (h : Spec.Alike v v') (s : Res Shown) : truncate v s = truncate v' s := by
  cases h with
  | same => rfl
  | arr h => simp [truncate, alikeL_length h]
  | map h => rfl
  | tag h => rfl
  | key h => rfl

theorem alike_opName {l l' : List Val} (h : Spec.AlikeL l l') (ls : List Shown) : List.zipWith opName l ls = List.zipWith opName l' ls := by
  induction l generalizing l' ls with
  | nil => cases h; rfl
  | cons v t ih =>
    cases h with
    | cons h1 h2 =>
      cases ls with
      | nil => rfl
      | cons s ss =>
        simp only [List.zipWith_cons_cons, ih h2]
        congr 1
        cases h1 <;> rfl

theorem alike_opsShown {v v' : Val} (h : Spec.Alike v v') (s : Res Shown) : opsShown v s = opsShown v' s := by
  cases h with
  | same => rfl
  | arr h => simp only [opsShown, alike_opName h]
  | map h => rfl
  | tag h => rfl
  | key h => rfl

/-- Two entries with the same label, and values that are alike and shown alike, or hidden values of a parameter that is
still to be shortened (`H`), or values shown alike of a parameter that is not going to be changed (not in `P`). -/
def RelE (H P : List Bytes) (e e' : Val × Val × Res Shown) : Prop :=
  e.1 = e'.1 ∧ ((Spec.Alike e.2.1 e'.2.1 ∧ e.2.2 = e'.2.2) ∨
    (∃ n ∈ H, e.1 = .text n ∧ ∃ b b' : Bytes, b.length = b'.length ∧ b.take 5 = b'.take 5 ∧
      e.2 = (.bytes b, .ok (.atom (.bytes b))) ∧ e'.2 = (.bytes b', .ok (.atom (.bytes b')))) ∨
    (e.2.2 = e'.2.2 ∧ ∀ n ∈ P, e.1 ≠ .text n))

/-- The values of two entries that may be put under the label `k`. -/
def RelV (H P : List Bytes) (k : Val) (x x' : Val × Res Shown) : Prop := RelE H P (k, x) (k, x')

theorem relE_keq {H P : List Bytes} {k k' : Val} {x x' : Val × Res Shown} (h : RelV H P k x x') (hk : keq k' k = true) :
    RelV H P k' x x' := by
  obtain ⟨_, h | ⟨n, hn, he, h⟩ | ⟨h1, h2⟩⟩ := h
  · exact ⟨rfl, .inl h⟩
  · simp only at he; subst he
    rw [keq_text_right] at hk; subst hk
    exact ⟨rfl, .inr (.inl ⟨n, hn, rfl, h⟩)⟩
  · refine ⟨rfl, .inr (.inr ⟨h1, fun n hn e => ?_⟩)⟩
    simp only at e; subst e
    refine h2 n hn ?_
    rw [keq_comm, keq_text_right] at hk
    exact hk

theorem relE_put {H P : List Bytes} {es es' : Entries} (h : All2 (RelE H P) es es') {k : Val} {x x' : Val × Res Shown}
    (hx : RelV H P k x x') : All2 (RelE H P) (putE es k x) (putE es' k x') := by
  induction h with
  | nil => exact .cons hx .nil
  | cons h1 h2 ih =>
    rename_i e e' t t'
    obtain ⟨k1, y⟩ := e
    obtain ⟨k2, y'⟩ := e'
    have hk : k1 = k2 := h1.1
    subst hk
    simp only [putE]
    split
    · rename_i hk
      exact .cons (relE_keq hx hk) h2
    · exact .cons h1 ih

theorem relE_find {H P : List Bytes} {es es' : Entries} (h : All2 (RelE H P) es es') (k : Val) :
    (findE es k = none ∧ findE es' k = none) ∨ ∃ k' x x', keq k' k = true ∧ findE es k = some x ∧ findE es' k = some x' ∧ RelV H P k' x x' := by
  induction h with
  | nil => exact .inl ⟨rfl, rfl⟩
  | cons h1 h2 ih =>
    rename_i e e' t t'
    obtain ⟨k1, y⟩ := e
    obtain ⟨k2, y'⟩ := e'
    have hk : k1 = k2 := h1.1
    subst hk
    simp only [findE]
    split
    · rename_i hk; exact .inr ⟨k1, y, y', hk, rfl, rfl, h1⟩
    · exact ih

/-- No two labels are equal. -/
def NodupE (es : Entries) : Prop := es.Pairwise (fun a b => keq a.1 b.1 = false)

theorem putE_mem {es : Entries} {k : Val} {x : Val × Res Shown} {e : Val × Val × Res Shown} (h : e ∈ putE es k x) :
    (∃ e' ∈ es, e'.1 = e.1) ∨ (e.1 = k ∧ ∀ e' ∈ es, keq e'.1 k = false) := by
  induction es with
  | nil => simp only [putE, List.mem_singleton] at h; subst h; exact .inr ⟨rfl, by simp⟩
  | cons q t ih =>
    obtain ⟨a, b⟩ := q
    simp only [putE] at h
    split at h
    · rcases List.mem_cons.mp h with rfl | h
      · exact .inl ⟨_, List.mem_cons_self .., rfl⟩
      · exact .inl ⟨e, by simp [h], rfl⟩
    · rename_i hk
      rcases List.mem_cons.mp h with rfl | h
      · exact .inl ⟨_, List.mem_cons_self .., rfl⟩
      · rcases ih h with ⟨e', h1, h2⟩ | ⟨h1, h2⟩
        · exact .inl ⟨e', by simp [h1], h2⟩
        · refine .inr ⟨h1, fun e' he' => ?_⟩
          rcases List.mem_cons.mp he' with rfl | he'
          · simpa using hk
          · exact h2 e' he'

theorem putE_nodup {es : Entries} (h : NodupE es) (k : Val) (x : Val × Res Shown) : NodupE (putE es k x) := by
  induction es with
  | nil => simp [putE, NodupE]
  | cons q t ih =>
    obtain ⟨a, b⟩ := q
    obtain ⟨h1, h2⟩ := List.pairwise_cons.mp h
    simp only [putE]
    split
    · exact List.pairwise_cons.mpr ⟨h1, h2⟩
    · rename_i hk
      refine List.pairwise_cons.mpr ⟨fun e he => ?_, ih h2⟩
      rcases putE_mem he with ⟨e', h3, h4⟩ | ⟨h3, _⟩
      · rw [← h4]; exact h1 e' h3
      · simp only; rw [h3]; simpa using hk

theorem names_nodup (es : Entries) : NodupE (names es) := by
  have : ∀ (es acc : Entries), NodupE acc →
      NodupE (es.foldl (fun acc e => putE acc (nameOf e.1) (nameOf e.2.1, shownName e.2.1 e.2.2)) acc) := by
    intro es
    induction es with
    | nil => intro acc h; exact h
    | cons e t ih => intro acc h; exact ih _ (putE_nodup h _ _)
  exact this es [] (by simp [NodupE])

/-- Before the names: a hidden value stands under its class. -/
def RelC (kd : Kind) (e e' : Val × Val × Res Shown) : Prop :=
  e.1 = e'.1 ∧ ((Spec.Alike e.2.1 e'.2.1 ∧ e.2.2 = e'.2.2) ∨
    (∃ c ∈ Spec.hidden kd, e.1 = .cls c ∧ ∃ b b' : Bytes, b.length = b'.length ∧ b.take 5 = b'.take 5 ∧
      e.2 = (.bytes b, .ok (.atom (.bytes b))) ∧ e'.2 = (.bytes b', .ok (.atom (.bytes b')))))

theorem hidden_name {kd : Kind} {c : Cls} (h : c ∈ Spec.hidden kd) : className c ∈ shortened kd := by
  cases kd <;> simp only [Spec.hidden, List.mem_cons, List.not_mem_nil, or_false] at h
  · subst h; decide +kernel
  · rcases h with rfl | rfl | rfl <;> decide +kernel
  · rcases h with rfl | rfl <;> decide +kernel

theorem relC_insert {kd : Kind} {e e' : Val × Val × Res Shown} {es es' : Entries} (h : RelC kd e e') (hs : All2 (RelC kd) es es') :
    All2 (RelC kd) (insertE e es) (insertE e' es') := by
  induction hs with
  | nil => exact .cons h .nil
  | cons h1 h2 ih =>
    simp only [insertE, h.1, h1.1]
    split
    · exact .cons h (.cons h1 h2)
    · exact .cons h1 ih

theorem relC_sort {kd : Kind} {es es' : Entries} (hs : All2 (RelC kd) es es') : All2 (RelC kd) (sortE es) (sortE es') := by
  induction hs with
  | nil => exact .nil
  | cons h1 h2 ih => exact relC_insert h1 ih

theorem relC_names {kd : Kind} {P : List Bytes} {es es' : Entries} (hs : All2 (RelC kd) es es') : All2 (RelE (shortened kd) P) (names es) (names es') := by
  have : ∀ (es es' : Entries), All2 (RelC kd) es es' → ∀ acc acc', All2 (RelE (shortened kd) P) acc acc' →
      All2 (RelE (shortened kd) P)
        (es.foldl (fun acc e => putE acc (nameOf e.1) (nameOf e.2.1, shownName e.2.1 e.2.2)) acc)
        (es'.foldl (fun acc e => putE acc (nameOf e.1) (nameOf e.2.1, shownName e.2.1 e.2.2)) acc') := by
    intro es es' h
    induction h with
    | nil => intro acc acc' h; exact h
    | cons h1 h2 ih =>
      intro acc acc' h
      refine ih _ _ ?_
      simp only [← h1.1]
      refine relE_put h ⟨rfl, ?_⟩
      rcases h1.2 with ⟨ha, hs⟩ | ⟨c, hc, he, b, b', hl, ht, e1, e2⟩
      · refine .inl ⟨alike_nameOf ha, ?_⟩
        simp only [hs]; exact alike_shownName ha _
      · refine .inr (.inl ⟨className c, hidden_name hc, by rw [he]; rfl, b, b', hl, ht, ?_, ?_⟩)
        · rw [e1]; rfl
        · rw [e2]; rfl
  exact this es es' hs [] [] .nil

/-- Both computations fail alike, or succeed with related results. -/
def RelRes {α : Type} (R : α → α → Prop) (r r' : Res α) : Prop :=
  (∃ e, r = .error e ∧ r' = .error e) ∨ ∃ x x', r = .ok x ∧ r' = .ok x' ∧ R x x'

theorem relE_ops {H P : List Bytes} (hH : b!"KpKeyOps" ∉ H) (hP : b!"KpKeyOps" ∈ P) {es es' : Entries} (h : All2 (RelE H P) es es') :
    RelRes (fun a b => All2 (RelE H P) a b ∧ (NodupE es → NodupE a)) (opsAt es) (opsAt es') := by
  simp only [opsAt]
  rcases relE_find h (.text b!"KpKeyOps") with ⟨h1, h2⟩ | ⟨k', x, x', hk, h1, h2, hr⟩
  · rw [h1, h2]; exact .inr ⟨_, _, rfl, rfl, h, id⟩
  · obtain ⟨v, s⟩ := x
    obtain ⟨v', s'⟩ := x'
    rw [h1, h2]
    rw [keq_text_right] at hk; subst hk
    obtain ⟨_, ⟨ha, hs⟩ | ⟨n, hn, he, _⟩ | ⟨hs, hne⟩⟩ := hr
    · simp only at ha hs; subst hs
      simp only [← alike_opsShown ha]
      cases opsShown v s with
      | error e => exact .inl ⟨e, rfl, rfl⟩
      | ok r => exact .inr ⟨_, _, rfl, rfl, relE_put h ⟨rfl, .inl ⟨ha, rfl⟩⟩, fun hn => putE_nodup hn _ _⟩
    · simp only [Val.text.injEq] at he; subst he; exact absurd hn hH
    · exact absurd rfl (hne _ hP)

/-- With `n` done, no entry counts as hidden on account of `n`. -/
theorem relE_done {H P : List Bytes} {n : Bytes} {es es' : Entries} (h : All2 (RelE (n :: H) P) es es')
    (hs : ∀ e ∈ es, e.1 ≠ .text n) : All2 (RelE H P) es es' := by
  induction h with
  | nil => exact .nil
  | cons h1 h2 ih =>
    refine .cons ⟨h1.1, ?_⟩ (ih fun e he => hs e (by simp [he]))
    rcases h1.2 with h | ⟨m, hm, he, h⟩ | h
    · exact .inl h
    · rcases List.mem_cons.mp hm with rfl | hm
      · exact absurd he (hs _ (by simp))
      · exact .inr (.inl ⟨m, hm, he, h⟩)
    · exact .inr (.inr h)

theorem find_none {es : Entries} {n : Bytes} (h : findE es (.text n) = none) : ∀ e ∈ es, e.1 ≠ .text n := by
  induction es with
  | nil => simp
  | cons q t ih =>
    obtain ⟨a, b⟩ := q
    simp only [findE] at h
    split at h
    · simp at h
    · rename_i hk
      intro e he
      rcases List.mem_cons.mp he with rfl | he
      · intro e; simp only at e; subst e; simp at hk
      · exact ih h e he

/-- Showing the values under `n` alike settles `n`. -/
theorem relE_settle {H P : List Bytes} {n : Bytes} (hP : n ∉ P) {es es' : Entries} (h : All2 (RelE (n :: H) P) es es')
    (hn : NodupE es) {x x' : Val × Res Shown} (hx : x.2 = x'.2) :
    All2 (RelE H P) (putE es (.text n) x) (putE es' (.text n) x') := by
  have hne : ∀ m ∈ P, Val.text n ≠ .text m := fun m hm e => by simp at e; subst e; exact hP hm
  induction h with
  | nil => exact .cons ⟨rfl, .inr (.inr ⟨hx, hne⟩)⟩ .nil
  | cons h1 h2 ih =>
    rename_i e e' t t'
    obtain ⟨k1, y⟩ := e
    obtain ⟨k2, y'⟩ := e'
    have hk : k1 = k2 := h1.1
    subst hk
    obtain ⟨hn1, hn2⟩ := List.pairwise_cons.mp hn
    simp only [putE]
    split
    · rename_i hk
      rw [keq_text_right] at hk; subst hk
      refine .cons ⟨rfl, .inr (.inr ⟨hx, hne⟩)⟩ (relE_done h2 fun e he => ?_)
      intro h; have := hn1 e he; rw [h] at this; simp at this
    · rename_i hk
      refine .cons ⟨rfl, ?_⟩ (ih hn2)
      rcases h1.2 with h | ⟨m, hm, he, h⟩ | h
      · exact .inl h
      · rcases List.mem_cons.mp hm with rfl | hm
        · simp only at he; subst he; simp at hk
        · exact .inr (.inl ⟨m, hm, he, h⟩)
      · exact .inr (.inr h)

theorem relE_weaken {H P : List Bytes} {n : Bytes} {es es' : Entries} (h : All2 (RelE H (n :: P)) es es') : All2 (RelE H P) es es' := by
  induction h with
  | nil => exact .nil
  | cons h1 h2 ih =>
    refine .cons ⟨h1.1, ?_⟩ ih
    rcases h1.2 with h | h | ⟨h, h'⟩
    · exact .inl h
    · exact .inr (.inl h)
    · exact .inr (.inr ⟨h, fun m hm => h' m (by simp [hm])⟩)

theorem putE_find {es : Entries} {k : Val} {x : Val × Res Shown} (h : findE es k = some x) : putE es k x = es := by
  induction es with
  | nil => simp [findE] at h
  | cons q t ih =>
    obtain ⟨a, b⟩ := q
    simp only [findE] at h
    simp only [putE]
    split
    · rename_i hk; rw [if_pos hk] at h; simp at h; rw [h]
    · rename_i hk; rw [if_neg hk] at h; rw [ih h]

theorem relE_keep {H P : List Bytes} {n : Bytes} (hP : n ∉ P) {es es' : Entries} (h : All2 (RelE (n :: H) P) es es')
    (hn : NodupE es) {x x' : Val × Res Shown} (h1 : findE es (.text n) = some x) (h2 : findE es' (.text n) = some x') (hx : x.2 = x'.2) :
    All2 (RelE H P) es es' := by
  have := relE_settle hP h hn hx
  rwa [putE_find h1, putE_find h2] at this

theorem relE_trunc {H P : List Bytes} {n : Bytes} (hP : n ∉ P) {es es' : Entries} (h : All2 (RelE (n :: H) (n :: P)) es es') (hn : NodupE es) :
    RelRes (fun a b => All2 (RelE H P) a b ∧ NodupE a) (truncAt n es) (truncAt n es') := by
  simp only [truncAt]
  have hw := relE_weaken h
  rcases relE_find h (.text n) with ⟨h1, h2⟩ | ⟨k', x, x', hk, h1, h2, hr⟩
  · rw [h1, h2]; exact .inr ⟨_, _, rfl, rfl, relE_done hw (find_none h1), hn⟩
  · obtain ⟨v, s⟩ := x
    obtain ⟨v', s'⟩ := x'
    rw [h1, h2]
    rw [keq_text_right] at hk; subst hk
    obtain ⟨_, ⟨ha, hs⟩ | ⟨m, hm, he, b, b', hl, ht, e1, e2⟩ | ⟨hs, hne⟩⟩ := hr
    · simp only at ha hs; subst hs
      simp only [← alike_truncate ha, ← alike_len ha]
      cases lenOf v with
      | error e => exact .inl ⟨e, rfl, rfl⟩
      | ok k =>
        simp only [ok_bind]
        split
        · cases truncate v s with
          | error e => exact .inl ⟨e, rfl, rfl⟩
          | ok r => exact .inr ⟨_, _, rfl, rfl, relE_settle hP hw hn rfl, putE_nodup hn _ _⟩
        · exact .inr ⟨_, _, rfl, rfl, relE_keep hP hw hn h1 h2 rfl, hn⟩
    · simp only [Prod.mk.injEq] at e1 e2
      obtain ⟨rfl, rfl⟩ := e1
      obtain ⟨rfl, rfl⟩ := e2
      simp only [lenOf, ok_bind, ← hl, truncate, ← ht]
      split
      · exact .inr ⟨_, _, rfl, rfl, relE_settle hP hw hn rfl, putE_nodup hn _ _⟩
      · rename_i hz
        have hb : b = [] := List.eq_nil_of_length_eq_zero (by omega)
        have hb' : b' = [] := List.eq_nil_of_length_eq_zero (by omega)
        subst hb; subst hb'
        exact .inr ⟨_, _, rfl, rfl, relE_keep hP hw hn h1 h2 rfl, hn⟩
    · exact absurd rfl (hne _ (by simp))

theorem relE_truncAll {H : List Bytes} (hH : H.Nodup) {es es' : Entries} (h : All2 (RelE H H) es es') (hn : NodupE es) :
    RelRes (fun a b => All2 (RelE [] []) a b) (truncAll H es) (truncAll H es') := by
  induction H generalizing es es' with
  | nil => exact .inr ⟨_, _, rfl, rfl, h⟩
  | cons n t ih =>
    obtain ⟨h1, h2⟩ := List.nodup_cons.mp hH
    simp only [truncAll]
    rcases relE_trunc h1 h hn with ⟨e, e1, e2⟩ | ⟨x, x', e1, e2, hr, hn'⟩
    · rw [e1, e2]; exact .inl ⟨e, rfl, rfl⟩
    · rw [e1, e2]; exact ih h2 hr hn'

theorem relE_finish {P : List Bytes} {es es' : Entries} (h : All2 (RelE [] P) es es') : finish es = finish es' := by
  induction h with
  | nil => rfl
  | cons h1 h2 ih =>
    rename_i e e' t t'
    obtain ⟨k1, v1, s1⟩ := e
    obtain ⟨k2, v2, s2⟩ := e'
    have hk : k1 = k2 := h1.1
    subst hk
    have hs : s1 = s2 := by
      rcases h1.2 with ⟨_, h⟩ | ⟨n, hn, _⟩ | ⟨h, _⟩
      · exact h
      · simp at hn
      · exact h
    subst hs
    simp only [finish, ih]

/-- A secret that is not there needs no shortening. -/
theorem relE_extra {H P : List Bytes} {n : Bytes} {es es' : Entries} (h : All2 (RelE H P) es es') : All2 (RelE (n :: H) P) es es' := by
  induction h with
  | nil => exact .nil
  | cons h1 h2 ih =>
    refine .cons ⟨h1.1, ?_⟩ ih
    rcases h1.2 with h | ⟨m, hm, h⟩ | h
    · exact .inl h
    · exact .inr (.inl ⟨m, by simp [hm], h⟩)
    · exact .inr (.inr h)

theorem keyShown_alike {kd : Kind} {es es' : Entries} (h : All2 (RelC kd) es es') : keyShown kd es = keyShown kd es' := by
  have h0 := relC_names (P := b!"KpKeyOps" :: b!"BASE_IV" :: shortened kd) (relC_sort h)
  simp only [keyShown]
  rcases relE_ops (by cases kd <;> decide +kernel) (by simp) h0 with ⟨e, e1, e2⟩ | ⟨a, a', e1, e2, hr, hn⟩
  · rw [e1, e2]
  · rw [e1, e2]
    simp only [ok_bind]
    have hb : b!"BASE_IV" ∉ shortened kd := by cases kd <;> decide +kernel
    rcases relE_trunc hb (relE_extra (relE_weaken hr)) (hn (names_nodup _)) with ⟨e, e1, e2⟩ | ⟨c, c', e1, e2, hr, hn⟩
    · rw [e1, e2]
    · rw [e1, e2]
      simp only [ok_bind]
      rcases relE_truncAll (by cases kd <;> decide +kernel) hr hn with ⟨e, e1, e2⟩ | ⟨d, d', e1, e2, hr⟩
      · rw [e1, e2]
      · rw [e1, e2]
        simp only [ok_bind, relE_finish hr]

theorem relC_plain {es es' : Entries} (h : All2 (RelC .rsa) es es') : All2 (RelE [] []) es es' := by
  induction h with
  | nil => exact .nil
  | cons h1 h2 ih =>
    refine .cons ⟨h1.1, ?_⟩ ih
    rcases h1.2 with h | ⟨c, hc, _⟩
    · exact .inl h
    · simp [Spec.hidden] at hc

mutual
theorem show_alike {v v' : Val} (h : Spec.Alike v v') : showVal v = showVal v' := by
  cases h with
  | same => rfl
  | arr h => simp only [showVal, showL_alike h]
  | map h => simp only [showVal, relE_finish (relC_plain (showD_alike h))]
  | tag h => simp only [showVal, show_alike h]
  | key h => simp only [showVal]; exact keyShown_alike (showK_alike h)
theorem showL_alike {l l' : List Val} (h : Spec.AlikeL l l') : showL l = showL l' := by
  cases h with
  | nil => rfl
  | cons h1 h2 => simp only [showL, show_alike h1, showL_alike h2]
theorem showD_alike {d d' : Dict} (h : Spec.AlikeD d d') : All2 (RelC .rsa) (showE d) (showE d') := by
  cases h with
  | nil => exact .nil
  | cons h1 h2 => exact .cons ⟨rfl, .inl ⟨h1, show_alike h1⟩⟩ (showD_alike h2)
theorem showK_alike {kd : Kind} {d d' : Dict} (h : Spec.AlikeK kd d d') : All2 (RelC kd) (showE d) (showE d') := by
  cases h with
  | nil => exact .nil
  | cons h1 h2 => exact .cons ⟨rfl, .inl ⟨h1, show_alike h1⟩⟩ (showK_alike h2)
  | hidden hc hl ht h2 => exact .cons ⟨rfl, .inr ⟨_, hc, rfl, _, _, hl, ht, rfl, rfl⟩⟩ (showK_alike h2)
end

theorem hdrShown_alike {d d' : Dict} (h : Spec.AlikeD d d') : hdrShown d = hdrShown d' := by
  have h0 : All2 (RelE [] [b!"IV", b!"PARTIAL_IV"]) (names (showE d)) (names (showE d')) := relC_names (kd := .rsa) (showD_alike h)
  simp only [hdrShown]
  rcases relE_truncAll (by decide +kernel) (relE_extra (relE_extra h0)) (names_nodup _) with ⟨e, e1, e2⟩ | ⟨a, a', e1, e2, hr⟩
  · rw [e1, e2]
  · rw [e1, e2]; simp only [ok_bind, relE_finish hr]

theorem payloadShown_alike {p p' : Option Bytes} (h : Spec.AlikePayload p p') : payloadShown p = payloadShown p' := by
  rcases h with rfl | ⟨b, b', rfl, rfl, hl, ht⟩
  · rfl
  · simp [payloadShown, truncate, hl, ht]

theorem baseShown_alike {b b' : Base} (h : Spec.AlikeBase b b') : baseShown b = baseShown b' := by
  simp only [baseShown, hdrShown_alike h.1, hdrShown_alike h.2.1, payloadShown_alike h.2.2]

theorem signerShown_alike {b b' : Base} (h : Spec.AlikeBase b b') : signerShown b = signerShown b' := by
  simp only [signerShown, show_alike (.map h.1), show_alike (.map h.2.1), payloadShown_alike h.2.2]

theorem signersShown_alike {l l' : List Base} (h : All2 Spec.AlikeBase l l') : signersShown l = signersShown l' := by
  induction h with
  | nil => rfl
  | cons h1 h2 ih => simp only [signersShown, signerShown_alike h1, ih]

mutual
theorem rcptRepr_alike {r r' : Rcpt} (h : Spec.AlikeR r r') : r.repr = r'.repr := by
  cases h with
  | mk h1 h2 => simp only [Rcpt.repr, baseShown_alike h1, rcptsShown_alike h2]
theorem rcptsShown_alike {l l' : List Rcpt} (h : Spec.AlikeRs l l') : rcptsShown l = rcptsShown l' := by
  cases h with
  | nil => rfl
  | cons h1 h2 => simp only [rcptsShown, rcptRepr_alike h1, rcptsShown_alike h2]
end

theorem tailShown_alike {v v' : Val} (h : Spec.AlikeTail v v') : tailShown v = tailShown v' := by
  cases h with
  | alike h => simp only [tailShown, show_alike h, alike_truncate h]
  | bytes hl ht => simp [tailShown, truncate, hl, ht]

/-! ### The properties -/

/-- **C67** for keys.  The text of a symmetric, EC2 or OKP key says of the key value, the private key and the coordinates
nothing beyond their length and their first five bytes: change the rest in any way, here and in keys contained in
other parameters, and the text stays the same.  Missing: RSA keys (`c67_refuted_rsa`), for which no parameter is hidden. -/
theorem c67_key_partial {k k' : Key} (hk : k.kind = k'.kind) (h : Spec.AlikeK k.kind k.store k'.store) : k.repr = k'.repr := by
  simp only [Key.repr, ← hk]
  exact keyShown_alike (showK_alike h)

/-- **C67** for messages, recipients and signers.  The text of a message depends on nothing but its headers, its
payload and its signature, tag, recipients or signers: not on the key, the external data, the local attributes.  Of
the payload, signature and tag it says the length and the first five bytes, and of the keys in the headers what
`c67_key_partial` says. -/
theorem c67_message {m m' : Msg} (h : Spec.AlikeMsg m m') : m.repr = m'.repr := by
  cases h with
  | enc0 h => simp only [Msg.repr, baseShown_alike h]
  | mac0 h1 h2 => simp only [Msg.repr, baseShown_alike h1, tailShown_alike h2]
  | sign1 h1 h2 => simp only [Msg.repr, baseShown_alike h1, tailShown_alike h2]
  | enc h1 h2 => simp only [Msg.repr, baseShown_alike h1, rcptsShown_alike h2]
  | mac h1 h2 e1 e2 h3 => simp only [Msg.repr, baseShown_alike h1, tailShown_alike h2, e1, e2, rcptsShown_alike h3]
  | sign h1 h2 => simp only [Msg.repr, baseShown_alike h1, signersShown_alike h2]

/-- The text of a message without payload: there is none, `TypeError` is raised.  (Detached payloads.) -/
theorem c67_refuted_detached (m : Msg) (h : m.base.payload = none) : ∃ e, m.repr = .error e := by
  have hb : ∃ e, baseShown m.base = .error e := by
    simp only [baseShown, h, payloadShown]
    cases hdrShown m.base.phdr with
    | error e => exact ⟨e, rfl⟩
    | ok p =>
      cases hdrShown m.base.uhdr with
      | error e => exact ⟨e, rfl⟩
      | ok u => exact ⟨.typeError, rfl⟩
  obtain ⟨e, he⟩ := hb
  refine ⟨e, ?_⟩
  cases m <;> simp only [Msg.base] at he <;> simp only [Msg.repr, he] <;> rfl

/-- A public and a private exponent of ten bytes. -/
def sampleRsaRepr (d : Bytes) : Key :=
  { kind := .rsa, store := [(.cls KpKty, .cls KtyRSA), (.cls RsaE, .bytes [1, 0, 1]), (.cls RsaN, .bytes [9]), (.cls RsaD, .bytes d),
      (.cls RsaP, .bytes [3]), (.cls RsaQ, .bytes [3]), (.cls RsaDP, .bytes [1]), (.cls RsaDQ, .bytes [1]), (.cls RsaQInv, .bytes [1])] }

/-- **C67**, refuted for RSA keys: the text of a private RSA key contains the private exponent. -/
theorem c67_refuted_rsa (C : Crypto) (d : Bytes) (hd : d ≠ []) : Spec.Built C (sampleRsaRepr d) ∧
    ∃ l, (sampleRsaRepr d).repr = .ok (.key .rsa l) ∧ (Val.text b!"RSAKpD", Shown.atom (.bytes d)) ∈ l := by
  refine ⟨.rsa (a := RsaArgs.mk (.bytes [9]) (.bytes [1, 0, 1]) (.bytes d) (.bytes [3]) (.bytes [3])
    (.bytes [1]) (.bytes [1]) (.bytes [1]) (.arr []) (.bytes []) (.bytes []) (.bytes [])) (opt := []) (allow := true) ?_, _, rfl,
    .tail _ (.tail _ (.tail _ (.tail _ (.tail _ (.head _)))))⟩
  cases d with
  | nil => exact absurd rfl hd
  | cons x t => rfl

/-- Two private EC2 keys with different private keys and the same text. -/
example : ∃ k k' : Key, k.d ≠ k'.d ∧ k.kind = k'.kind ∧ Spec.AlikeK k.kind k.store k'.store ∧
    ∃ l, k.repr = .ok (.key .ec2 l) ∧ (Val.text b!"EC2KpD", Shown.trunc (.atom (.bytes [1, 2, 3, 4, 5])) 7) ∈ l := by
  refine ⟨{ kind := .ec2, store := [(.cls KpKty, .cls KtyEC2), (.cls Ec2D, .bytes [1, 2, 3, 4, 5, 6, 7])] },
    { kind := .ec2, store := [(.cls KpKty, .cls KtyEC2), (.cls Ec2D, .bytes [1, 2, 3, 4, 5, 7, 7])] }, by decide +kernel, rfl, ?_, _, rfl, .head _⟩
  exact .cons (.same _) (.hidden (by decide) rfl rfl .nil)

/-- Two messages with different keys, external data and payloads, and the same text. -/
example : ∃ m m' : Enc0, m.base.key ≠ m'.base.key ∧ m.base.aad ≠ m'.base.aad ∧ m.base.payload ≠ m'.base.payload ∧
    Spec.AlikeMsg (.enc0 m) (.enc0 m') := by
  refine ⟨⟨{ payload := some [1, 2, 3, 4, 5, 6], aad := [1], key := some sampleSym }⟩,
    ⟨{ payload := some [1, 2, 3, 4, 5, 7], aad := [2] }⟩, by decide +kernel, by decide +kernel, by decide +kernel, .enc0 ⟨.nil, .nil, ?_⟩⟩
  exact .inr ⟨_, _, rfl, rfl, rfl, rfl⟩

/-! ### C68: what the text of a message shows of its headers -/

theorem hdrName_inj : ∀ p ∈ hdrNames, ∀ q ∈ hdrNames, p.2 = q.2 → p.1 = q.1 := by decide +kernel

theorem lookup_mem_names {l : List (Int × Bytes)} {i : Int} {b : Bytes} (h : l.lookup i = some b) : (i, b) ∈ l := by
  induction l with
  | nil => simp at h
  | cons p t ih =>
    obtain ⟨j, c⟩ := p
    simp only [List.lookup] at h
    split at h
    · rename_i he
      have he : i = j := by simpa using he
      subst he; simp at h; subst h; simp
    · exact List.mem_cons_of_mem _ (ih h)

/-- Every registered header has a name of its own. -/
theorem hdr_named {c : Cls} {n : Bytes} (h : (c, n) ∈ registry .hdr) : c.reg = .hdr ∧ (c.ident, className c) ∈ hdrNames := by
  have hall : ∀ p ∈ registry .hdr, p.1.reg = .hdr ∧ (p.1.ident, className p.1) ∈ hdrNames := by decide +kernel
  exact hall (c, n) h

theorem hdr_className_inj {c c' : Cls} {n n' : Bytes} (h : (c, n) ∈ registry .hdr) (h' : (c', n') ∈ registry .hdr)
    (he : className c = className c') : c = c' := by
  obtain ⟨r1, m1⟩ := hdr_named h
  obtain ⟨r2, m2⟩ := hdr_named h'
  have := hdrName_inj _ m1 _ m2 he
  cases c; cases c'; simp_all

/-- Values that are neither attributes nor containers. -/
def Spec.plain : Val → Prop
  | .int _ | .bytes _ | .text _ | .bool _ => True
  | _ => False

/-- A registered header and its value, and how they are shown: the name of the header, and the name of a value that is
an attribute, or the plain value itself; of an IV the length and first five bytes. -/
def Spec.ShowsHeader (p : Val × Val) (q : Val × Shown) : Prop :=
  ∃ c, p.1 = .cls c ∧ q.1 = .text (className c) ∧
    ((c = Hdr.IV ∧ ∃ b : Bytes, p.2 = .bytes b ∧ b ≠ [] ∧ q.2 = .trunc (.atom (.bytes (b.take 5))) b.length) ∨
     ((∀ a, p.2 = .cls a → q.2 = .atom (.text (className a))) ∧ (Spec.plain p.2 → q.2 = .atom p.2)))

theorem findE_none_iff {es : Entries} {k : Val} : findE es k = none ↔ ∀ e ∈ es, keq e.1 k = false := by
  induction es with
  | nil => simp [findE]
  | cons q t ih =>
    obtain ⟨a, b⟩ := q
    simp only [findE]
    split
    · rename_i hk; simp [hk]
    · rename_i hk
      rw [ih]
      have : keq a k = false := by simpa using hk
      simp [this]

theorem putE_new {es : Entries} {k : Val} (h : ∀ e ∈ es, keq e.1 k = false) (x : Val × Res Shown) : putE es k x = es ++ [(k, x)] := by
  induction es with
  | nil => rfl
  | cons q t ih =>
    obtain ⟨a, b⟩ := q
    have ha : keq a k = false := h (a, b) (by simp)
    simp only [putE, ha, Bool.false_eq_true, if_false, List.cons_append]
    rw [ih fun e he => h e (by simp [he])]

/-- An entry with names in place of classes. -/
def named (e : Val × Val × Res Shown) : Val × Val × Res Shown := (nameOf e.1, nameOf e.2.1, shownName e.2.1 e.2.2)

theorem names_distinct {es : Entries} (h : es.Pairwise fun a b => keq (nameOf a.1) (nameOf b.1) = false) : names es = es.map named := by
  have : ∀ (es acc : Entries), (∀ a ∈ acc, ∀ e ∈ es, keq a.1 (nameOf e.1) = false) →
      (es.Pairwise fun a b => keq (nameOf a.1) (nameOf b.1) = false) →
      es.foldl (fun acc e => putE acc (nameOf e.1) (nameOf e.2.1, shownName e.2.1 e.2.2)) acc = acc ++ es.map named := by
    intro es
    induction es with
    | nil => intro acc _ _; simp
    | cons e t ih =>
      intro acc ha hp
      obtain ⟨h1, h2⟩ := List.pairwise_cons.mp hp
      simp only [List.foldl_cons]
      rw [putE_new fun a h => ha a h e (by simp), ih _ ?_ h2]
      · simp [named]
      · intro a h e' he'
        rcases List.mem_append.mp h with h | h
        · exact ha a h e' (by simp [he'])
        · simp only [List.mem_singleton] at h; subst h
          exact h1 e' he'
  exact (this es [] (by simp) h).trans (by simp)

/-- How an entry stands after the names are in place; `t` says whether an IV has been shortened. -/
def HdrEntry (p : Val × Val) (e : Val × Val × Res Shown) : Prop :=
  ∃ c, p.1 = .cls c ∧ e.1 = .text (className c) ∧
    ((c = Hdr.IV ∧ ∃ b : Bytes, p.2 = .bytes b ∧ b ≠ [] ∧ e.2.2 = .ok (.trunc (.atom (.bytes (b.take 5))) b.length)) ∨
      e.2.2 = shownName p.2 (showVal p.2))

theorem showE_map (d : Dict) : showE d = d.map showP := by
  induction d with
  | nil => rfl
  | cons p t ih => simp [showE, ih]

theorem headers_named {d : Dict} (hn : KeysNodup d) (hc : ∀ p ∈ d, ∃ c n, p.1 = .cls c ∧ (c, n) ∈ registry .hdr) :
    names (showE d) = (showE d).map named := by
  apply names_distinct
  rw [showE_map, List.pairwise_map]
  refine hn.imp_of_mem ?_
  intro p q hp hq hk
  obtain ⟨c, n, h1, h2⟩ := hc p hp
  obtain ⟨c', n', h1', h2'⟩ := hc q hq
  cases he : keq (nameOf (showP p).1) (nameOf (showP q).1) with
  | false => rfl
  | true =>
    have e1 : (showP p).1 = .cls c := by obtain ⟨a, b⟩ := p; exact h1
    have e2 : (showP q).1 = .cls c' := by obtain ⟨a, b⟩ := q; exact h1'
    rw [e1, e2] at he
    simp only [nameOf] at he
    rw [keq_text_right] at he
    have := hdr_className_inj h2 h2' (by simpa using he)
    subst this
    rw [h1, h1'] at hk; simp at hk

theorem finish_all2 {d : Dict} {es : Entries} {l : List (Val × Shown)} (h : All2 HdrEntry d es) (hf : finish es = .ok l) :
    All2 Spec.ShowsHeader d l := by
  induction h generalizing l with
  | nil => simp [finish] at hf; subst hf; exact .nil
  | cons h1 h2 ih =>
    rename_i p e t t'
    obtain ⟨k, v, s⟩ := e
    simp only [finish, bind_eq_ok] at hf
    obtain ⟨s', hs, t'', ht, hf⟩ := hf
    simp at hf; subst hf
    refine .cons ?_ (ih ht)
    obtain ⟨c, e1, e2, h⟩ := h1
    refine ⟨c, e1, e2, ?_⟩
    rcases h with ⟨hc, b, hb, hne, hx⟩ | hx
    · simp only at hx; rw [hx] at hs; simp at hs
      exact .inl ⟨hc, b, hb, hne, hs.symm⟩
    · simp only at hx
      refine .inr ⟨fun a ha => ?_, fun ha => ?_⟩
      · rw [ha] at hx; simp only [shownName] at hx; rw [hx] at hs; simpa using hs.symm
      · have : shownName p.2 (showVal p.2) = .ok (.atom p.2) := by
          cases hv : p.2 <;> simp only [hv, Spec.plain] at ha <;> rfl
        rw [this] at hx; rw [hx] at hs; simpa using hs.symm

/-- Shortening the IV. -/
theorem trunc_iv {d : Dict} {es es' : Entries} (h : All2 HdrEntry d es) (hr : All2 (fun p e => e.2.1 = nameOf p.2 ∧ e.2.2 = shownName p.2 (showVal p.2)) d es)
    (hd : ∀ p ∈ d, ∃ c n, p.1 = .cls c ∧ (c, n) ∈ registry .hdr)
    (hv : ∀ p ∈ d, p.1 = .cls Hdr.IV → ∃ b, p.2 = .bytes b) (ht : truncAt b!"IV" es = .ok es') : All2 HdrEntry d es' := by
  simp only [truncAt] at ht
  cases hf : findE es (.text b!"IV") with
  | none => rw [hf] at ht; simp at ht; subst ht; exact h
  | some x =>
    obtain ⟨v, s⟩ := x
    rw [hf] at ht
    simp only [bind_eq_ok] at ht
    obtain ⟨n, hl, ht⟩ := ht
    split at ht
    · obtain ⟨s', hs', ht⟩ := bind_eq_ok.mp ht
      simp at ht; subst ht
      clear ht
      induction h with
      | nil => simp [findE] at hf
      | cons h1 h2 ih =>
        rename_i hz p e t t'
        cases hr with
        | cons r1 r2 =>
        obtain ⟨k, w, r⟩ := e
        simp only [findE] at hf
        simp only [putE]
        split at hf
        · rename_i hk
          rw [if_pos hk]
          simp at hf
          obtain ⟨rfl, rfl⟩ := hf
          refine .cons ?_ h2
          obtain ⟨c, e1, e2, h⟩ := h1
          refine ⟨c, e1, e2, .inl ?_⟩
          rw [keq_text_right] at hk
          simp only at e2
          rw [hk] at e2
          obtain ⟨c', m, hc1, hc2⟩ := hd p (by simp)
          rw [e1] at hc1; simp at hc1; subst hc1
          have hiv : c = Hdr.IV := hdr_className_inj hc2 (show (Hdr.IV, b!"IV") ∈ registry .hdr by decide +kernel)
            (by simp at e2; rw [← e2]; decide +kernel)
          subst hiv
          obtain ⟨b, hb⟩ := hv p (by simp) e1
          refine ⟨rfl, b, hb, ?_, ?_⟩
          · rintro rfl
            simp only at r1
            rw [r1.1, hb] at hl
            simp [nameOf, lenOf] at hl; omega
          · simp only at r1
            rw [r1.1, hb] at hs'
            simp [nameOf, truncate] at hs'
            simp [hs']
        · rename_i hk
          rw [if_neg hk]
          exact .cons h1 (ih r2 (fun p hp => hd p (by simp [hp])) (fun p hp => hv p (by simp [hp])) hf)
    · simp at ht; subst ht; exact h

/-- **C68**.  The text of a message shows every registered header once, under its name and in the order of the
dictionary, with its value.  Missing: labels that are not registered (`c68_refuted`). -/
theorem c68_headers_partial {d : Dict} {s : Shown} (hn : KeysNodup d) (hc : ∀ p ∈ d, ∃ c n, p.1 = .cls c ∧ (c, n) ∈ registry .hdr)
    (hv : ∀ p ∈ d, p.1 = .cls Hdr.IV → ∃ b, p.2 = .bytes b) (h : hdrShown d = .ok s) :
    ∃ l, s = .dict l ∧ All2 Spec.ShowsHeader d l := by
  simp only [hdrShown, bind_eq_ok] at h
  obtain ⟨es, he, l, hl, h⟩ := h
  simp at h; subst h
  refine ⟨l, rfl, ?_⟩
  rw [headers_named hn hc] at he
  simp only [truncAll, bind_eq_ok] at he
  obtain ⟨es1, h1, es2, h2, he⟩ := he
  simp at he; subst he
  have base : All2 (fun p e => (∃ c, p.1 = .cls c ∧ e.1 = .text (className c)) ∧ e.2.1 = nameOf p.2 ∧ e.2.2 = shownName p.2 (showVal p.2))
      d ((showE d).map named) := by
    clear hn hv h1
    induction d with
    | nil => exact .nil
    | cons p t ih =>
      obtain ⟨c, n, hc1, _⟩ := hc p (by simp)
      obtain ⟨a, b⟩ := p
      simp only at hc1; subst hc1
      exact .cons ⟨⟨c, rfl, rfl⟩, rfl, rfl⟩ (ih fun p hp => hc p (by simp [hp]))
  have hE : All2 HdrEntry d es1 := by
    refine trunc_iv (base.imp fun p e h => ?_) (base.imp fun p e h => h.2) hc hv h1
    obtain ⟨⟨c, e1, e2⟩, _, e3⟩ := h
    exact ⟨c, e1, e2, .inr e3⟩
  have hno : findE es1 (.text b!"PARTIAL_IV") = none := by
    rw [findE_none_iff]
    intro e he
    have hno : ∀ p ∈ registry .hdr, className p.1 ≠ b!"PARTIAL_IV" := by decide +kernel
    cases hk : keq e.1 (.text b!"PARTIAL_IV") with
    | false => rfl
    | true =>
      rw [keq_text_right] at hk
      obtain ⟨i, hi⟩ := List.getElem?_of_mem he
      obtain ⟨p, hp, c, e1, e2, _⟩ := hE.get i e hi
      have hp := List.mem_of_getElem? hp
      obtain ⟨c', n, hc1, hc2⟩ := hc p hp
      rw [e1] at hc1; simp at hc1; subst hc1
      rw [hk] at e2
      exact absurd (by simpa using e2.symm) (hno _ hc2)
  simp only [truncAt, hno] at h2
  simp at h2; subst h2
  exact finish_all2 hE hl

/-- A message that says in its protected header that its algorithm is A128GCM, and under the label "Algorithm", a text
that is not registered, "A256GCM". -/
def sampleSpoof : Bytes :=
  [0xd0, 0x83, 0x55, 0xa2, 1, 1, 0x69] ++ b!"Algorithm" ++ [0x67] ++ b!"A256GCM" ++ [0xa0, 0x41, 7]

/-- **C68**, refuted for labels that are not registered: this message is accepted, its algorithm is A128GCM, and its text
shows one header, the algorithm A256GCM. -/
theorem c68_refuted : ∃ m, decode toy .any true sampleSpoof = .ok (.enc0 m) ∧
    dget m.base.phdr (.cls Hdr.Algorithm) = some (algCls 1) ∧
    hdrShown m.base.phdr = .ok (.dict [(.text b!"Algorithm", .atom (.text b!"A256GCM"))]) := by
  obtain ⟨m, h1, h2⟩ := res_any (r := decode toy .any true sampleSpoof)
    (p := fun m => match m with
      | .enc0 m => decide (m.base.phdr = [(.cls Hdr.Algorithm, algCls 1), (.text b!"Algorithm", .text b!"A256GCM")])
      | _ => false) (by decide +kernel)
  cases m with
  | enc0 m =>
    have h2 : m.base.phdr = _ := of_decide_eq_true h2
    refine ⟨m, h1, ?_, ?_⟩ <;> rw [h2] <;> rfl
  | _ => simp at h2

/-- The headers of a message with an algorithm, a key identifier and an IV. -/
example : ∃ d l, KeysNodup d ∧ (∀ p ∈ d, ∃ c n, p.1 = .cls c ∧ (c, n) ∈ registry .hdr) ∧ (∀ p ∈ d, p.1 = .cls Hdr.IV → ∃ b, p.2 = .bytes b) ∧
    hdrShown d = .ok (.dict l) ∧ l = [(.text b!"Algorithm", .atom (.text b!"A128GCM")), (.text b!"KID", .atom (.bytes [7])),
      (.text b!"IV", .trunc (.atom (.bytes [1, 2, 3, 4, 5])) 12)] := by
  refine ⟨[(.cls Hdr.Algorithm, algCls 1), (.cls Hdr.KID, .bytes [7]), (.cls Hdr.IV, .bytes [1, 2, 3, 4, 5, 6, 7, 8, 9, 10, 11, 12])], _,
    by decide +kernel, ?_, ?_, rfl, rfl⟩
  · have hall : ∀ c ∈ [Hdr.Algorithm, Hdr.KID, Hdr.IV], ∃ q ∈ registry .hdr, q.1 = c := by decide +kernel
    intro p hp
    have : ∃ c ∈ [Hdr.Algorithm, Hdr.KID, Hdr.IV], p.1 = .cls c := by
      simp only [List.mem_cons, List.not_mem_nil, or_false] at hp
      rcases hp with rfl | rfl | rfl <;> simp
    obtain ⟨c, hc, e⟩ := this
    obtain ⟨⟨c', n⟩, hq, rfl⟩ := hall c hc
    exact ⟨_, n, e, hq⟩
  · intro p hp he
    simp only [List.mem_cons, List.not_mem_nil, or_false] at hp
    rcases hp with rfl | rfl | rfl <;> simp_all [Hdr.Algorithm, Hdr.KID, Hdr.IV]

end Cose
