import Verif.Props.ReprText
import Verif.Props.Encodable
/-!
# Text is UTF-8 (C89)
-/
set_option autoImplicit false
namespace Cose

/-- The Unicode scalar values: code points that are not surrogates. -/
def Spec.Scalar (c : Nat) : Prop := c < 0xD800 ∨ 0xE000 ≤ c ∧ c < 0x110000

/-- The octets of a code point (RFC 3629, section 3). -/
def Spec.octets (c : Nat) : List Nat :=
  if c < 0x80 then [c]
  else if c < 0x800 then [0xC0 + c / 64, 0x80 + c % 64]
  else if c < 0x10000 then [0xE0 + c / 4096, 0x80 + c / 64 % 64, 0x80 + c % 64]
  else [0xF0 + c / 262144, 0x80 + c / 4096 % 64, 0x80 + c / 64 % 64, 0x80 + c % 64]

/-- The bytes of a character. -/
def Spec.utf8Char (c : Nat) : Bytes := (Spec.octets c).map UInt8.ofNat

/-- The bytes of a text. -/
def Spec.utf8 (cs : List Nat) : Bytes := (cs.map Spec.utf8Char).flatten

theorem ofNat_toNat8 {n : Nat} (h : n < 256) : (UInt8.ofNat n).toNat = n := by simp; omega

theorem utf8Go_first {lo hi a : UInt8} {t : Bytes} : utf8Go 0 lo hi (a :: t) =
    if a.toNat < 0x80 then utf8Go 0 0x80 0xBF t
    else if a.toNat < 0xC2 then false
    else if a.toNat < 0xE0 then utf8Go 1 0x80 0xBF t
    else if a.toNat = 0xE0 then utf8Go 2 0xA0 0xBF t
    else if a.toNat = 0xED then utf8Go 2 0x80 0x9F t
    else if a.toNat < 0xF0 then utf8Go 2 0x80 0xBF t
    else if a.toNat = 0xF0 then utf8Go 3 0x90 0xBF t
    else if a.toNat < 0xF4 then utf8Go 3 0x80 0xBF t
    else if a.toNat = 0xF4 then utf8Go 3 0x80 0x8F t
    else false := by
  simp only [utf8Go, UInt8.lt_iff_toNat_lt, beq_iff_eq, ← UInt8.toNat_inj]
  rfl

theorem utf8Go_next {n : Nat} {lo hi a : UInt8} {t : Bytes} :
    utf8Go (n + 1) lo hi (a :: t) = if lo.toNat ≤ a.toNat ∧ a.toNat ≤ hi.toNat then utf8Go n 0x80 0xBF t else false := by
  simp only [utf8Go, UInt8.le_iff_toNat_le]

theorem utf8Go_start {lo hi lo' hi' : UInt8} {t : Bytes} : utf8Go 0 lo hi t = utf8Go 0 lo' hi' t := by
  cases t <;> simp [utf8Go]

theorem utf8Go_step {n m l h : Nat} {lo hi : UInt8} {t : Bytes} (hl : lo.toNat = l) (hh : hi.toNat = h) (hm : m < 256) (h1 : l ≤ m) (h2 : m ≤ h) :
    utf8Go (n + 1) lo hi (UInt8.ofNat m :: t) = utf8Go n 0x80 0xBF t := by
  rw [utf8Go_next, ofNat_toNat8 hm, hl, hh, if_pos ⟨h1, h2⟩]

theorem utf8Go_char {c : Nat} (h : Spec.Scalar c) (t : Bytes) : utf8Go 0 0x80 0xBF (Spec.utf8Char c ++ t) = utf8Go 0 0x80 0xBF t := by
  unfold Spec.Scalar at h
  unfold Spec.utf8Char Spec.octets
  split
  · simp only [List.map, List.cons_append, List.nil_append]
    rw [utf8Go_first, ofNat_toNat8 (by omega), if_pos (by omega)]
  split
  · simp only [List.map, List.cons_append, List.nil_append]
    rw [utf8Go_first, ofNat_toNat8 (by omega), if_neg (by omega), if_neg (by omega), if_pos (by omega)]
    rw [utf8Go_step (l := 128) (h := 191) rfl rfl (by omega) (by omega) (by omega)]
  split
  · simp only [List.map, List.cons_append, List.nil_append]
    rw [utf8Go_first, ofNat_toNat8 (by omega), if_neg (by omega), if_neg (by omega), if_neg (by omega)]
    split
    · rw [utf8Go_step (l := 160) (h := 191) rfl rfl (by omega) (by omega) (by omega), utf8Go_step (l := 128) (h := 191) rfl rfl (by omega) (by omega) (by omega)]
    split
    · rw [utf8Go_step (l := 128) (h := 159) rfl rfl (by omega) (by omega) (by omega), utf8Go_step (l := 128) (h := 191) rfl rfl (by omega) (by omega) (by omega)]
    rw [if_pos (by omega)]
    rw [utf8Go_step (l := 128) (h := 191) rfl rfl (by omega) (by omega) (by omega), utf8Go_step (l := 128) (h := 191) rfl rfl (by omega) (by omega) (by omega)]
  · simp only [List.map, List.cons_append, List.nil_append]
    rw [utf8Go_first, ofNat_toNat8 (by omega), if_neg (by omega), if_neg (by omega), if_neg (by omega), if_neg (by omega), if_neg (by omega),
      if_neg (by omega)]
    split
    · rw [utf8Go_step (l := 144) (h := 191) rfl rfl (by omega) (by omega) (by omega), utf8Go_step (l := 128) (h := 191) rfl rfl (by omega) (by omega) (by omega),
        utf8Go_step (l := 128) (h := 191) rfl rfl (by omega) (by omega) (by omega)]
    split
    · rw [utf8Go_step (l := 128) (h := 191) rfl rfl (by omega) (by omega) (by omega), utf8Go_step (l := 128) (h := 191) rfl rfl (by omega) (by omega) (by omega),
        utf8Go_step (l := 128) (h := 191) rfl rfl (by omega) (by omega) (by omega)]
    rw [if_pos (by omega)]
    rw [utf8Go_step (l := 128) (h := 143) rfl rfl (by omega) (by omega) (by omega), utf8Go_step (l := 128) (h := 191) rfl rfl (by omega) (by omega) (by omega),
      utf8Go_step (l := 128) (h := 191) rfl rfl (by omega) (by omega) (by omega)]

theorem utf8Go_cont {n : Nat} {lo hi : UInt8} {t : Bytes} (h : utf8Go (n + 1) lo hi t = true) :
    ∃ a t', t = a :: t' ∧ lo.toNat ≤ a.toNat ∧ a.toNat ≤ hi.toNat ∧ utf8Go n 0x80 0xBF t' = true := by
  cases t with
  | nil => simp [utf8Go] at h
  | cons a t' =>
    rw [utf8Go_next] at h
    split at h
    · rename_i hc; exact ⟨a, t', rfl, hc.1, hc.2, h⟩
    · cases h

theorem eq_ofNat8 {a : UInt8} {n : Nat} (h : a.toNat = n) : a = UInt8.ofNat n := by subst h; simp

/-- A text of UTF-8 begins with a character. -/
theorem utf8Go_split {a : UInt8} {t : Bytes} (h : utf8Go 0 0x80 0xBF (a :: t) = true) :
    ∃ c t', Spec.Scalar c ∧ a :: t = Spec.utf8Char c ++ t' ∧ utf8Go 0 0x80 0xBF t' = true := by
  have ha : a.toNat < 256 := a.toNat_lt
  have one : ∀ {c : Nat} {t' : Bytes}, c < 0x80 → a.toNat = c → a :: t' = Spec.utf8Char c ++ t' := by
    intro c t' hc h0
    simp only [Spec.utf8Char, Spec.octets, if_pos hc, List.map, List.cons_append, List.nil_append]
    rw [eq_ofNat8 h0]
  have two : ∀ {c : Nat} {b1 : UInt8} {t' : Bytes}, 0x80 ≤ c → c < 0x800 → a.toNat = 0xC0 + c / 64 → b1.toNat = 0x80 + c % 64 →
      a :: b1 :: t' = Spec.utf8Char c ++ t' := by
    intro c b1 t' g1 g2 h0 h1
    simp only [Spec.utf8Char, Spec.octets, if_neg (Nat.not_lt.mpr g1), if_pos g2, List.map, List.cons_append, List.nil_append]
    rw [eq_ofNat8 h0, eq_ofNat8 h1]
  have three : ∀ {c : Nat} {b1 b2 : UInt8} {t' : Bytes}, 0x800 ≤ c → c < 0x10000 → a.toNat = 0xE0 + c / 4096 → b1.toNat = 0x80 + c / 64 % 64 →
      b2.toNat = 0x80 + c % 64 → a :: b1 :: b2 :: t' = Spec.utf8Char c ++ t' := by
    intro c b1 b2 t' g1 g2 h0 h1 h2
    simp only [Spec.utf8Char, Spec.octets, if_neg (show ¬ c < 128 by omega), if_neg (Nat.not_lt.mpr g1), if_pos g2, List.map, List.cons_append, List.nil_append]
    rw [eq_ofNat8 h0, eq_ofNat8 h1, eq_ofNat8 h2]
  have four : ∀ {c : Nat} {b1 b2 b3 : UInt8} {t' : Bytes}, 0x10000 ≤ c → a.toNat = 0xF0 + c / 262144 → b1.toNat = 0x80 + c / 4096 % 64 →
      b2.toNat = 0x80 + c / 64 % 64 → b3.toNat = 0x80 + c % 64 → a :: b1 :: b2 :: b3 :: t' = Spec.utf8Char c ++ t' := by
    intro c b1 b2 b3 t' g1 h0 h1 h2 h3
    simp only [Spec.utf8Char, Spec.octets, if_neg (show ¬ c < 128 by omega), if_neg (show ¬ c < 2048 by omega), if_neg (Nat.not_lt.mpr g1), List.map,
      List.cons_append, List.nil_append]
    rw [eq_ofNat8 h0, eq_ofNat8 h1, eq_ofNat8 h2, eq_ofNat8 h3]
  have tail3 : ∀ {lo hi : UInt8}, (lo.toNat = 0xA0 ∧ hi.toNat = 0xBF ∧ a.toNat = 0xE0 ∨ lo.toNat = 0x80 ∧ hi.toNat = 0x9F ∧ a.toNat = 0xED ∨
      lo.toNat = 0x80 ∧ hi.toNat = 0xBF ∧ 0xE0 < a.toNat ∧ a.toNat ≠ 0xED ∧ a.toNat < 0xF0) → utf8Go 2 lo hi t = true →
      ∃ c t', Spec.Scalar c ∧ a :: t = Spec.utf8Char c ++ t' ∧ utf8Go 0 0x80 0xBF t' = true := by
    intro lo hi hb h
    obtain ⟨b1, t1, rfl, g1, g2, h⟩ := utf8Go_cont h
    obtain ⟨b2, t2, rfl, g3, g4, h⟩ := utf8Go_cont h
    have g3 : 128 ≤ b2.toNat := g3
    have g4 : b2.toNat ≤ 191 := g4
    refine ⟨(a.toNat - 0xE0) * 4096 + (b1.toNat - 0x80) * 64 + (b2.toNat - 0x80), t2, ?_, ?_, h⟩
    · unfold Spec.Scalar; omega
    · exact three (by omega) (by omega) (by omega) (by omega) (by omega)
  have tail4 : ∀ {lo hi : UInt8}, (lo.toNat = 0x90 ∧ hi.toNat = 0xBF ∧ a.toNat = 0xF0 ∨ lo.toNat = 0x80 ∧ hi.toNat = 0x8F ∧ a.toNat = 0xF4 ∨
      lo.toNat = 0x80 ∧ hi.toNat = 0xBF ∧ 0xF0 < a.toNat ∧ a.toNat < 0xF4) → utf8Go 3 lo hi t = true →
      ∃ c t', Spec.Scalar c ∧ a :: t = Spec.utf8Char c ++ t' ∧ utf8Go 0 0x80 0xBF t' = true := by
    intro lo hi hb h
    obtain ⟨b1, t1, rfl, g1, g2, h⟩ := utf8Go_cont h
    obtain ⟨b2, t2, rfl, g3, g4, h⟩ := utf8Go_cont h
    obtain ⟨b3, t3, rfl, g5, g6, h⟩ := utf8Go_cont h
    have g3 : 128 ≤ b2.toNat := g3
    have g4 : b2.toNat ≤ 191 := g4
    have g5 : 128 ≤ b3.toNat := g5
    have g6 : b3.toNat ≤ 191 := g6
    refine ⟨(a.toNat - 0xF0) * 262144 + (b1.toNat - 0x80) * 4096 + (b2.toNat - 0x80) * 64 + (b3.toNat - 0x80), t3, ?_, ?_, h⟩
    · unfold Spec.Scalar; omega
    · exact four (by omega) (by omega) (by omega) (by omega) (by omega)
  rw [utf8Go_first] at h
  split at h
  · exact ⟨a.toNat, t, .inl (by omega), one (by omega) rfl, h⟩
  split at h
  · cases h
  split at h
  · obtain ⟨b1, t1, rfl, g1, g2, h⟩ := utf8Go_cont h
    have g1 : 128 ≤ b1.toNat := g1
    have g2 : b1.toNat ≤ 191 := g2
    exact ⟨(a.toNat - 0xC0) * 64 + (b1.toNat - 0x80), t1, .inl (by omega), two (by omega) (by omega) (by omega) (by omega), h⟩
  split at h
  · exact tail3 (.inl ⟨rfl, rfl, by assumption⟩) h
  split at h
  · exact tail3 (.inr (.inl ⟨rfl, rfl, by assumption⟩)) h
  split at h
  · exact tail3 (.inr (.inr ⟨rfl, rfl, by omega, by omega, by omega⟩)) h
  split at h
  · exact tail4 (.inl ⟨rfl, rfl, by assumption⟩) h
  split at h
  · exact tail4 (.inr (.inr ⟨rfl, rfl, by omega, by omega⟩)) h
  split at h
  · exact tail4 (.inr (.inl ⟨rfl, rfl, by assumption⟩)) h
  · cases h

theorem utf8Char_ne {c : Nat} : Spec.utf8Char c ≠ [] := by
  unfold Spec.utf8Char Spec.octets
  split <;> try split <;> try split
  all_goals simp

/-- C89: the bytes accepted as text are exactly the UTF-8 encodings of sequences of Unicode scalar values. -/
theorem c89_text (b : Bytes) : validUtf8 b = true ↔ ∃ cs, (∀ c ∈ cs, Spec.Scalar c) ∧ b = Spec.utf8 cs := by
  constructor
  · intro h
    have : ∀ (n : Nat) (b : Bytes), b.length ≤ n → utf8Go 0 0x80 0xBF b = true → ∃ cs, (∀ c ∈ cs, Spec.Scalar c) ∧ b = Spec.utf8 cs := by
      intro n
      induction n with
      | zero => intro b hb _; exact ⟨[], by simp, by simpa [Spec.utf8] using hb⟩
      | succ n ih =>
        intro b hb h
        cases b with
        | nil => exact ⟨[], by simp, rfl⟩
        | cons a t =>
          obtain ⟨c, t', hc, e, h'⟩ := utf8Go_split h
          have hl := congrArg List.length e
          have : 0 < (Spec.utf8Char c).length := List.length_pos_iff.mpr utf8Char_ne
          simp only [List.length_cons, List.length_append] at hl hb
          obtain ⟨cs, h1, h2⟩ := ih t' (by omega) h'
          exact ⟨c :: cs, by simpa using ⟨hc, h1⟩, by rw [e, h2]; rfl⟩
    exact this b.length b (Nat.le_refl _) h
  · rintro ⟨cs, h, rfl⟩
    unfold validUtf8
    induction cs with
    | nil => rfl
    | cons c cs ih =>
      show utf8Go 0 0x80 0xBF (Spec.utf8Char c ++ Spec.utf8 cs) = true
      rw [utf8Go_char (h c (by simp))]
      exact ih fun c hc => h c (by simp [hc])

/-- A byte that begins a character. -/
def Begins (b : UInt8) : Prop := b.toNat < 128 ∨ 192 ≤ b.toNat
/-- A byte inside a character. -/
def Continues (b : UInt8) : Prop := 128 ≤ b.toNat ∧ b.toNat < 192

theorem utf8Char_parts {c : Nat} (h : Spec.Scalar c) : ∃ b t, Spec.utf8Char c = b :: t ∧ Begins b ∧ ∀ x ∈ t, Continues x := by
  unfold Spec.Scalar at h
  have cont : ∀ n, n < 64 → Continues (UInt8.ofNat (128 + n)) := fun n hn => by
    unfold Continues; rw [ofNat_toNat8 (by omega)]; omega
  unfold Spec.utf8Char Spec.octets
  split
  · exact ⟨_, _, rfl, .inl (by rw [ofNat_toNat8 (by omega)]; omega), by simp⟩
  split
  · refine ⟨_, _, rfl, .inr (by rw [ofNat_toNat8 (by omega)]; omega), ?_⟩
    simp only [List.map, List.mem_cons, List.not_mem_nil, or_false, forall_eq]
    exact cont _ (by omega)
  split
  · refine ⟨_, _, rfl, .inr (by rw [ofNat_toNat8 (by omega)]; omega), ?_⟩
    simp only [List.map, List.mem_cons, List.not_mem_nil, or_false, forall_eq_or_imp, forall_eq]
    exact ⟨cont _ (by omega), cont _ (by omega)⟩
  · refine ⟨_, _, rfl, .inr (by rw [ofNat_toNat8 (by omega)]; omega), ?_⟩
    simp only [List.map, List.mem_cons, List.not_mem_nil, or_false, forall_eq_or_imp, forall_eq]
    exact ⟨cont _ (by omega), cont _ (by omega), cont _ (by omega)⟩

theorem not_continues {b : UInt8} (h : Begins b) : ¬ (128 ≤ b.toNat ∧ b.toNat < 192) := by unfold Begins at h; omega

theorem takeChars_conts {n : Nat} {t r : Bytes} (h : ∀ x ∈ t, Continues x) : takeChars n (t ++ r) = t ++ takeChars n r := by
  induction t with
  | nil => rfl
  | cons a t ih =>
    simp only [List.cons_append, takeChars]
    rw [if_pos (show 128 ≤ a.toNat ∧ a.toNat < 192 from h a (by simp)), ih fun x hx => h x (by simp [hx])]

theorem takeChars_utf8 {cs : List Nat} (h : ∀ c ∈ cs, Spec.Scalar c) (n : Nat) : takeChars n (Spec.utf8 cs) = Spec.utf8 (cs.take n) := by
  induction cs generalizing n with
  | nil => cases n <;> rfl
  | cons c cs ih =>
    obtain ⟨b, t, e, hb, ht⟩ := utf8Char_parts (h c (by simp))
    have hu : Spec.utf8 (c :: cs) = b :: (t ++ Spec.utf8 cs) := by
      show Spec.utf8Char c ++ Spec.utf8 cs = _; rw [e]; rfl
    rw [hu, takeChars.eq_def]
    simp only [if_neg (not_continues hb)]
    cases n with
    | zero => rfl
    | succ n =>
      simp only [List.take_succ_cons]
      rw [takeChars_conts ht, ih fun c hc => h c (by simp [hc])]
      show _ = Spec.utf8Char c ++ Spec.utf8 (cs.take n)
      rw [e]; rfl

theorem countChars_utf8 {cs : List Nat} (h : ∀ c ∈ cs, Spec.Scalar c) : countChars (Spec.utf8 cs) = cs.length := by
  induction cs with
  | nil => rfl
  | cons c cs ih =>
    obtain ⟨b, t, e, hb, ht⟩ := utf8Char_parts (h c (by simp))
    have hu : Spec.utf8 (c :: cs) = b :: (t ++ Spec.utf8 cs) := by
      show Spec.utf8Char c ++ Spec.utf8 cs = _; rw [e]; rfl
    have hf : t.filter (fun b => decide (b.toNat < 128) || decide (192 ≤ b.toNat)) = [] := by
      rw [List.filter_eq_nil_iff]
      intro x hx
      have := ht x hx
      unfold Continues at this
      simp; omega
    have := ih fun c hc => h c (by simp [hc])
    unfold countChars at this ⊢
    rw [hu, List.filter_cons_of_pos (by unfold Begins at hb; simp; exact hb), List.filter_append, hf, List.nil_append, List.length_cons, this,
      List.length_cons]

theorem chars_head {b : UInt8} {t : Bytes} : ∃ x l, chars (b :: t) = (b :: x) :: l := by
  rw [chars]
  split
  · exact ⟨[], [], rfl⟩
  · split
    · split
      · exact ⟨_, _, rfl⟩
      · exact ⟨_, _, rfl⟩
    · exact ⟨_, _, rfl⟩

theorem chars_char {b : UInt8} {t r : Bytes} (ht : ∀ x ∈ t, Continues x) (hr : ∀ x l, r = x :: l → Begins x) :
    chars (b :: (t ++ r)) = (b :: t) :: chars r := by
  induction t generalizing b with
  | nil =>
    cases r with
    | nil => rfl
    | cons x l =>
      obtain ⟨y, k, e⟩ := chars_head (b := x) (t := l)
      simp only [List.nil_append]
      rw [chars, e]
      simp only
      rw [if_neg (not_continues (hr x l rfl))]
  | cons a t ih =>
    have := ih (b := a) fun x hx => ht x (by simp [hx])
    simp only [List.cons_append]
    rw [chars, this]
    simp only
    rw [if_pos (show 128 ≤ a.toNat ∧ a.toNat < 192 from ht a (by simp))]

theorem chars_utf8 {cs : List Nat} (h : ∀ c ∈ cs, Spec.Scalar c) : chars (Spec.utf8 cs) = cs.map Spec.utf8Char := by
  induction cs with
  | nil => rfl
  | cons c cs ih =>
    obtain ⟨b, t, e, hb, ht⟩ := utf8Char_parts (h c (by simp))
    have hu : Spec.utf8 (c :: cs) = b :: (t ++ Spec.utf8 cs) := by
      show Spec.utf8Char c ++ Spec.utf8 cs = _; rw [e]; rfl
    rw [hu, chars_char ht, ih fun c hc => h c (by simp [hc]), List.map_cons, e]
    intro x l hx
    cases cs with
    | nil => simp [Spec.utf8] at hx
    | cons d cs =>
      obtain ⟨b', t', e', hb', _⟩ := utf8Char_parts (h d (by simp))
      have : Spec.utf8 (d :: cs) = b' :: (t' ++ Spec.utf8 cs) := by
        show Spec.utf8Char d ++ Spec.utf8 cs = _; rw [e']; rfl
      rw [this] at hx
      cases hx; exact hb'

/-- C89: a text in a message or key that is printed is shortened to its first five characters, whatever their length in bytes; the length that is
printed counts characters; and iterating over it gives its characters. -/
theorem c89_shortened {cs : List Nat} (h : ∀ c ∈ cs, Spec.Scalar c) (s : Res Shown) :
    truncate (.text (Spec.utf8 cs)) s = .ok (.trunc (.atom (.text (Spec.utf8 (cs.take 5)))) cs.length) ∧
    opsShown (.text (Spec.utf8 cs)) s = .ok (.ok (.list (cs.map fun c => .atom (.text (Spec.utf8 [c]))))) := by
  simp only [truncate, opsShown, takeChars_utf8 h, countChars_utf8 h, chars_utf8 h, List.map_map, true_and, Except.ok.injEq, Shown.list.injEq]
  refine List.map_congr_left fun c _ => ?_
  simp [Spec.utf8]

/-- C89: a text can be written exactly if it is UTF-8 (and not too long to have a length). -/
theorem c89_written (b : Bytes) (fn : Cls → Bytes) (m : Mode) :
    (∃ o, dumps fn m (.text b) = .ok o) ↔ (∃ cs, (∀ c ∈ cs, Spec.Scalar c) ∧ b = Spec.utf8 cs) ∧ b.length < 2 ^ 64 := by
  rw [← c89_text]
  exact enc_text_iff

/-- C89: a text item on the wire (the head `h` with the length, then the bytes) is read
exactly if it is UTF-8. -/
theorem c89_read {b h : Bytes} (hh : encHead 3 b.length = .ok h) (rest : Bytes) :
    loads (h ++ b ++ rest) = .ok (.text b) ∧ (∃ cs, (∀ c ∈ cs, Spec.Scalar c) ∧ b = Spec.utf8 cs) ∨
    loads (h ++ b ++ rest) = .error .cborValue ∧ ¬ ∃ cs, (∀ c ∈ cs, Spec.Scalar c) ∧ b = Spec.utf8 cs := by
  rw [← c89_text]
  obtain ⟨ib, t, rfl, h1, h2, h3⟩ := encHead_spec (by decide) hh
  unfold loads decodeItem
  simp only [List.cons_append, List.append_assoc]
  rw [dec_cons _ ib _ _ h1]
  simp only [h3, ok_bind, if_neg (show ¬ ib.toNat % 32 = 31 by omega), readN_append b rest _ rfl]
  cases hv : validUtf8 b with
  | true => simp [interp]
  | false => right; simp

/-- The text `s` occurs in the value `v`. -/
inductive Spec.TextIn (s : Bytes) : Val → Prop
  | here : Spec.TextIn s (.text s)
  | arr {l : List Val} {v : Val} : v ∈ l → Spec.TextIn s v → Spec.TextIn s (.arr l)
  | key {l : List (Val × Val)} {k v : Val} : (k, v) ∈ l → Spec.TextIn s k → Spec.TextIn s (.map l)
  | val {l : List (Val × Val)} {k v : Val} : (k, v) ∈ l → Spec.TextIn s v → Spec.TextIn s (.map l)
  | tag {n : Nat} {v : Val} : Spec.TextIn s v → Spec.TextIn s (.tag n v)

/-- C89: whatever bytes are received, every text in what they decode to is UTF-8. -/
theorem c89_received {bs s : Bytes} {v : Val} (h : loads bs = .ok v) (hs : Spec.TextIn s v) :
    ∃ cs, (∀ c ∈ cs, Spec.Scalar c) ∧ s = Spec.utf8 cs := by
  have hp := loads_pyok h
  clear h
  rw [← c89_text]
  induction hs with
  | here => exact hp
  | arr hm _ ih => exact ih (PyOKL_iff.mp (by simpa only [PyOK] using hp) _ hm)
  | key hm _ ih => simp only [PyOK] at hp; exact ih (PyOKP_iff.mp hp.1 _ hm).1
  | val hm _ ih => simp only [PyOK] at hp; exact ih (PyOKP_iff.mp hp.1 _ hm).2
  | tag _ ih => simp only [PyOK] at hp; exact ih hp.2.2.2.2

/-- `aé€😀`, in 1, 2, 3 and 4 bytes. -/
example : (∀ c ∈ [0x61, 0xE9, 0x20AC, 0x1F600], Spec.Scalar c) ∧
    Spec.utf8 [0x61, 0xE9, 0x20AC, 0x1F600] = [0x61, 0xC3, 0xA9, 0xE2, 0x82, 0xAC, 0xF0, 0x9F, 0x98, 0x80] ∧
    encHead 3 10 = .ok [0x6A] ∧ loads ([0x6A] ++ Spec.utf8 [0x61, 0xE9, 0x20AC, 0x1F600] ++ [1]) = .ok (.text (Spec.utf8 [0x61, 0xE9, 0x20AC, 0x1F600])) ∧
    loads [0x61, 0xFF] = .error .cborValue ∧ loads [0x63, 0xED, 0xA0, 0x80] = .error .cborValue ∧ loads [0x62, 0xC0, 0x80] = .error .cborValue := by
  refine ⟨?_, by decide +kernel, by decide +kernel, by decide +kernel, by decide +kernel, by decide +kernel, by decide +kernel⟩
  intro c hc
  simp at hc
  unfold Spec.Scalar
  omega

end Cose
