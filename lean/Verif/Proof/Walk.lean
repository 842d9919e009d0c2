import Verif.Proof.Lax

/-!
# The elements and members of a text are determined by the text

A text is scanned with the number of open brackets and the place with respect to strings.  An element ends where a comma, a
bracket, a colon or white space follows outside of all brackets and strings.
-/

set_option linter.unusedSimpArgs false

namespace Jzon

open Spec

/-- Outside of strings, in a string, or behind a reverse solidus in a string. -/
inductive Place where
  | out
  | str
  | esc
  deriving DecidableEq

def scanStep : Nat × Place → Byte → Nat × Place
  | (d, .out), c =>
    if c = 0x22 then (d, .str)
    else if c = 0x5B ∨ c = 0x7B then (d + 1, .out)
    else if c = 0x5D ∨ c = 0x7D then (d - 1, .out)
    else (d, .out)
  | (d, .str), c => if c = 0x5C then (d, .esc) else if c = 0x22 then (d, .out) else (d, .str)
  | (d, .esc), _ => (d, .str)

/-- The bytes that separate tokens. -/
def Separates (c : Byte) : Prop := c = 0x2C ∨ c = 0x3A ∨ c = 0x5D ∨ c = 0x7D ∨ c = 0x20 ∨ c = 0x09 ∨ c = 0x0A ∨ c = 0x0D

/-- A text that leaves brackets and strings as it found them. -/
structure Spans (t : List Byte) : Prop where
  back : ∀ d, t.foldl scanStep (d, .out) = (d, .out)
  above : ∀ d p q, t = p ++ q → d ≤ (p.foldl scanStep (d, .out)).1

/-- A text in which no separator is outside of brackets and strings. -/
structure Solid (t : List Byte) : Prop extends Spans t where
  ne : t ≠ []
  whole : ∀ p c q, t = p ++ c :: q → p.foldl scanStep (0, .out) = (0, .out) → ¬ Separates c

theorem Spans.nil : Spans [] := ⟨fun _ => rfl, fun d p q h => by
  obtain ⟨rfl, rfl⟩ := List.append_eq_nil_iff.mp h.symm
  exact Nat.le_refl _⟩

theorem Spans.append {a b : List Byte} (ha : Spans a) (hb : Spans b) : Spans (a ++ b) := by
  constructor
  · intro d
    rw [List.foldl_append, ha.back, hb.back]
  · intro d p q h
    rcases List.append_eq_append_iff.mp h with ⟨x, rfl, h2⟩ | ⟨x, h1, _⟩
    · rw [List.foldl_append, ha.back]
      exact hb.above d x q h2
    · exact ha.above d p x h1

/-- The byte does not open or close anything. -/
def Inert (c : Byte) : Prop := c ≠ 0x22 ∧ c ≠ 0x5B ∧ c ≠ 0x7B ∧ c ≠ 0x5D ∧ c ≠ 0x7D

theorem scanStep_inert {c : Byte} (h : Inert c) (d : Nat) : scanStep (d, .out) c = (d, .out) := by
  obtain ⟨h1, h2, h3, h4, h5⟩ := h
  simp [scanStep, h1, h2, h3, h4, h5]

theorem foldl_inert {l : List Byte} (h : ∀ c ∈ l, Inert c) (d : Nat) : l.foldl scanStep (d, .out) = (d, .out) := by
  induction l with
  | nil => rfl
  | cons c l ih =>
    rw [List.foldl_cons, scanStep_inert (h c (by simp))]
    exact ih fun c hc => h c (by simp [hc])

theorem Spans.inert {l : List Byte} (h : ∀ c ∈ l, Inert c) : Spans l := by
  refine ⟨foldl_inert h, ?_⟩
  rintro d p q rfl
  rw [foldl_inert fun c hc => h c (by simp [hc])]
  exact Nat.le_refl _

theorem Spans.ws {w : List Byte} (h : Ws w) : Spans w := by
  refine .inert fun c hc => ?_
  rcases h c hc with rfl | rfl | rfl | rfl <;> (unfold Inert; decide)

theorem Spans.byte {c : Byte} (h : Inert c) {l : List Byte} (hl : Spans l) : Spans (c :: l) :=
  Spans.append (a := [c]) (.inert fun x hx => by simp at hx; subst hx; exact h) hl

theorem Solid.inert {l : List Byte} (hne : l ≠ []) (h : ∀ c ∈ l, Inert c ∧ ¬ Separates c) : Solid l where
  toSpans := .inert fun c hc => (h c hc).1
  ne := hne
  whole p c q hl _ := (h c (by rw [hl]; simp)).2

/-- Brackets around a text. -/
theorem Solid.bracket {o c : Byte} {b : List Byte} (ho : o = 0x5B ∨ o = 0x7B) (hc : c = 0x5D ∨ c = 0x7D) (hb : Spans b) :
    Solid (o :: (b ++ [c])) := by
  have h1 : ∀ d, scanStep (d, .out) o = (d + 1, .out) := by
    intro d
    rcases ho with rfl | rfl <;> simp [scanStep]
  have h2 : ∀ d, scanStep (d + 1, .out) c = (d, .out) := by
    intro d
    rcases hc with rfl | rfl <;> simp [scanStep]
  have inner : ∀ d p x q, o :: (b ++ [c]) = p ++ x :: q → p ≠ [] → d + 1 ≤ (p.foldl scanStep (d, .out)).1 := by
    intro d p x q h hp
    cases p with
    | nil => exact absurd rfl hp
    | cons y p =>
      simp only [List.cons_append, List.cons.injEq] at h
      obtain ⟨rfl, h⟩ := h
      rw [List.foldl_cons, h1]
      rcases List.append_eq_append_iff.mp h with ⟨z, rfl, h3⟩ | ⟨z, h3, _⟩
      · cases z with
        | nil => rw [List.append_nil, hb.back]; exact Nat.le_refl _
        | cons z zs => simp at h3
      · exact hb.above (d + 1) p z h3
  refine ⟨⟨?_, ?_⟩, by simp, ?_⟩
  · intro d
    rw [List.foldl_cons, h1, List.foldl_append, hb.back]
    exact h2 d
  · intro d p q h
    cases q with
    | nil =>
      rw [List.append_nil] at h
      subst h
      rw [List.foldl_cons, h1, List.foldl_append, hb.back]
      simp [h2]
    | cons x q =>
      cases p with
      | nil => exact Nat.le_refl _
      | cons y p => exact Nat.le_of_succ_le (inner d (y :: p) x q h (by simp))
  · intro p x q h hp
    cases p with
    | nil =>
      simp only [List.nil_append, List.cons.injEq] at h
      obtain ⟨rfl, _⟩ := h
      rcases ho with rfl | rfl <;> (unfold Separates; decide)
    | cons y p =>
      have := inner 0 (y :: p) x q h (by simp)
      rw [hp] at this
      simp at this

/-- The content of a string. -/
structure Inner (b : List Byte) : Prop where
  back : ∀ d, b.foldl scanStep (d, .str) = (d, .str)
  within : ∀ d p q, b = p ++ q → (p.foldl scanStep (d, .str)).1 = d ∧ (p.foldl scanStep (d, .str)).2 ≠ .out

theorem Inner.nil : Inner [] := ⟨fun _ => rfl, fun d p q h => by
  obtain ⟨rfl, rfl⟩ := List.append_eq_nil_iff.mp h.symm
  simp⟩

theorem Inner.append {a b : List Byte} (ha : Inner a) (hb : Inner b) : Inner (a ++ b) := by
  constructor
  · intro d
    rw [List.foldl_append, ha.back, hb.back]
  · intro d p q h
    rcases List.append_eq_append_iff.mp h with ⟨x, rfl, h2⟩ | ⟨x, h1, _⟩
    · rw [List.foldl_append, ha.back]
      exact hb.within d x q h2
    · exact ha.within d p x h1

theorem Inner.byte {c : Byte} (h : c ≠ 0x22 ∧ c ≠ 0x5C) : Inner [c] := by
  have h1 : ∀ d, scanStep (d, .str) c = (d, .str) := by intro d; simp [scanStep, h.1, h.2]
  refine ⟨fun d => by simp [h1], ?_⟩
  intro d p q hp
  cases p with
  | nil => simp
  | cons x p =>
    simp only [List.cons_append, List.cons.injEq] at hp
    obtain ⟨rfl, hp⟩ := hp
    obtain ⟨rfl, rfl⟩ := List.append_eq_nil_iff.mp hp.symm
    simp [h1]

theorem Inner.escape (c : Byte) : Inner [0x5C, c] := by
  have h1 : ∀ d, scanStep (d, .str) 0x5C = (d, .esc) := by intro d; simp [scanStep]
  refine ⟨fun d => by simp [h1, scanStep], ?_⟩
  intro d p q hp
  match p, hp with
  | [], _ => simp
  | [x], hp =>
    simp only [List.cons_append, List.cons.injEq] at hp
    obtain ⟨rfl, _⟩ := hp
    simp [h1]
  | [x, y], hp =>
    simp only [List.cons_append, List.cons.injEq] at hp
    obtain ⟨rfl, _⟩ := hp
    simp [h1, scanStep]
  | x :: y :: z :: p, hp => simp at hp

theorem Inner.plain {b : List Byte} (h : ∀ c ∈ b, c ≠ 0x22 ∧ c ≠ 0x5C) : Inner b := by
  induction b with
  | nil => exact .nil
  | cons c b ih => exact Inner.append (a := [c]) (.byte (h c (by simp))) (ih fun c hc => h c (by simp [hc]))

theorem hexDigit_plain {c : Byte} (h : (hexDigit c).isSome) : c ≠ 0x22 ∧ c ≠ 0x5C := by
  revert c; apply forall_byte; decide +kernel

theorem Inner.strBody {b s : List Byte} (h : StrBody b s) : Inner b := by
  obtain ⟨cs, h, rfl, hs⟩ := h
  clear hs
  induction cs with
  | nil => exact .nil
  | cons x cs ih =>
    rw [List.flatMap_cons]
    refine Inner.append ?_ (ih fun c hc => h c (by simp [hc]))
    have hx := h x (by simp)
    cases x with
    | raw c => exact .byte hx.2
    | esc c => exact .escape c
    | uni a b c d =>
      obtain ⟨h1, h2, h3, h4⟩ := hx
      exact Inner.append (a := [0x5C, 0x75]) (.escape _) (.plain fun x hx => by
        simp only [List.mem_cons, List.not_mem_nil, or_false] at hx
        rcases hx with rfl | rfl | rfl | rfl
        · exact hexDigit_plain h1
        · exact hexDigit_plain h2
        · exact hexDigit_plain h3
        · exact hexDigit_plain h4)

/-- A string. -/
theorem Solid.quotes {b : List Byte} (hb : Inner b) : Solid (inQuotes b) := by
  have h1 : ∀ d, scanStep (d, .out) 0x22 = (d, .str) := by intro d; simp [scanStep]
  have h2 : ∀ d, scanStep (d, .str) 0x22 = (d, .out) := by intro d; simp [scanStep]
  have inner : ∀ d p x q, inQuotes b = p ++ x :: q → p ≠ [] →
      (p.foldl scanStep (d, .out)).1 = d ∧ (p.foldl scanStep (d, .out)).2 ≠ .out := by
    intro d p x q h hp
    cases p with
    | nil => exact absurd rfl hp
    | cons y p =>
      simp only [inQuotes, List.cons_append, List.cons.injEq] at h
      obtain ⟨rfl, h⟩ := h
      rw [List.foldl_cons, h1]
      rcases List.append_eq_append_iff.mp h with ⟨z, rfl, h3⟩ | ⟨z, h3, _⟩
      · cases z with
        | nil => rw [List.append_nil, hb.back]; simp
        | cons z zs => simp at h3
      · exact hb.within d p z h3
  refine ⟨⟨?_, ?_⟩, by simp [inQuotes], ?_⟩
  · intro d
    simp [inQuotes, h1, h2, hb.back]
  · intro d p q h
    cases q with
    | nil =>
      rw [List.append_nil] at h
      subst h
      simp [inQuotes, h1, h2, hb.back]
    | cons x q =>
      cases p with
      | nil => exact Nat.le_refl _
      | cons y p => exact Nat.le_of_eq (inner d (y :: p) x q h (by simp)).1.symm
  · intro p x q h hp
    cases p with
    | nil =>
      simp only [inQuotes, List.nil_append, List.cons.injEq] at h
      obtain ⟨rfl, _⟩ := h
      unfold Separates; decide
    | cons y p =>
      have := (inner 0 (y :: p) x q h (by simp)).2
      rw [hp] at this
      exact absurd rfl this

/-- What stands between the quotation marks does not matter, nor how a text goes on: two solid texts at the same place, each
followed by a separator, are the same. -/
theorem Solid.same {t t' r r' : List Byte} {c c' : Byte} (h : Solid t) (h' : Solid t') (hc : Separates c) (hc' : Separates c')
    (he : t ++ c :: r = t' ++ c' :: r') : t = t' ∧ c = c' ∧ r = r' := by
  rcases List.append_eq_append_iff.mp he with ⟨x, rfl, h2⟩ | ⟨x, rfl, h2⟩
  · cases x with
    | nil =>
      simp only [List.nil_append, List.cons.injEq] at h2
      exact ⟨by simp, h2⟩
    | cons y x =>
      simp only [List.cons_append, List.cons.injEq] at h2
      obtain ⟨rfl, _⟩ := h2
      exact absurd hc (h'.whole t c x rfl (h.back 0))
  · cases x with
    | nil =>
      simp only [List.nil_append, List.cons.injEq] at h2
      exact ⟨by simp, h2.1.symm, h2.2.symm⟩
    | cons y x =>
      simp only [List.cons_append, List.cons.injEq] at h2
      obtain ⟨rfl, _⟩ := h2
      exact absurd hc' (h.whole t' c' x rfl (h'.back 0))

/-- The bytes of numbers and literals. -/
def wordByte (c : Byte) : Bool := 0x2B ≤ c && c ≤ 0x7A && c != 0x2C && c != 0x3A && c != 0x5B && c != 0x5D

theorem wordByte_firm {c : Byte} (h : wordByte c = true) : Inert c ∧ ¬ Separates c := by
  revert c; unfold Inert Separates; apply forall_byte; decide +kernel

theorem wordByte_digit {c : Byte} (h : Digit c) : wordByte c = true := by
  revert c; unfold Digit; apply forall_byte; decide +kernel

theorem wordByte_number {u : List Byte} (h : Number u) : ∀ c ∈ u, wordByte c = true := by
  have un : ∀ u, Unsigned u → ∀ c ∈ u, wordByte c = true := by
    rintro u ⟨i, f, e, rfl, hi, hf, he⟩ c hc
    rcases List.mem_append.mp hc with hc | hc
    · cases hi with
      | zero => rw [List.mem_singleton.mp hc]; decide
      | pos d ds hd hds =>
        rcases List.mem_cons.mp hc with rfl | hc
        · exact wordByte_digit ⟨UInt8.le_trans (by decide) hd.1, hd.2⟩
        · exact wordByte_digit (hds c hc)
    rcases List.mem_append.mp hc with hc | hc
    · cases hf with
      | none => cases hc
      | some ds h =>
        rcases List.mem_cons.mp hc with rfl | hc
        · decide
        · exact wordByte_digit (h.2 c hc)
    · cases he with
      | none => cases hc
      | some e sign ds he hs h =>
        simp only [List.mem_cons, List.mem_append] at hc
        rcases hc with rfl | hc | hc
        · rcases he with rfl | rfl <;> decide
        · rcases hs with rfl | rfl | rfl
          · cases hc
          · simp at hc; subst hc; decide
          · simp at hc; subst hc; decide
        · exact wordByte_digit (h.2 c hc)
  rcases h with h | ⟨u, rfl, h⟩
  · exact un _ h
  · intro c hc
    rcases List.mem_cons.mp hc with rfl | hc
    · decide
    · exact un _ h c hc

theorem Solid.number {t : List Byte} (h : Number t) : Solid t := by
  have hne : t ≠ [] := by
    rcases h with ⟨i, f, e, rfl, hi, _⟩ | ⟨u, rfl, _⟩
    · cases hi <;> simp
    · simp
  exact .inert hne fun c hc => wordByte_firm (wordByte_number h c hc)

theorem Solid.literal {u : List Byte} (h : u = nullText ∨ u = trueText ∨ u = falseText) : Solid u := by
  have : u ≠ [] ∧ ∀ c ∈ u, wordByte c = true := by
    rcases h with rfl | rfl | rfl <;> decide
  exact .inert this.1 fun c hc => wordByte_firm (this.2 c hc)

theorem Solid.str {t s : List Byte} (h : Str t s) : Solid t := by
  obtain ⟨b, hb, rfl⟩ := h
  exact .quotes (.strBody hb)

theorem comma_inert : Inert 0x2C := by unfold Inert; decide
theorem colon_inert : Inert 0x3A := by unfold Inert; decide

mutual
theorem Solid.value {t : List Byte} {v : JVal} : Value t v → Solid t
  | .null => .literal (.inl rfl)
  | .true => .literal (.inr (.inl rfl))
  | .false => .literal (.inr (.inr rfl))
  | .num _ h => .number h
  | .str _ _ h => .str h
  | .arrEmpty _ hw => .bracket (.inl rfl) (.inl rfl) (.ws hw)
  | .arr _ _ h => .bracket (.inl rfl) (.inl rfl) (Spans.elems h)
  | .objEmpty _ hw => .bracket (.inr rfl) (.inr rfl) (.ws hw)
  | .obj _ _ h => .bracket (.inr rfl) (.inr rfl) (Spans.members h)
theorem Spans.elems {b : List Byte} {vs : List JVal} : Elems b vs → Spans b
  | .one _ _ _ _ h1 h h2 => (Spans.ws h1).append ((Solid.value h).toSpans.append (.ws h2))
  | .cons _ _ _ _ _ _ h1 h h2 hr =>
    (Spans.ws h1).append ((Solid.value h).toSpans.append ((Spans.ws h2).append (.byte comma_inert (Spans.elems hr))))
theorem Spans.members {b : List Byte} {ms : List (List Byte × JVal)} : Members b ms → Spans b
  | .single _ _ _ _ _ _ _ _ h1 hk h2 h3 h h4 =>
    (Spans.ws h1).append ((Solid.str hk).toSpans.append ((Spans.ws h2).append (.byte colon_inert
      ((Spans.ws h3).append ((Solid.value h).toSpans.append (.ws h4))))))
  | .more _ _ _ _ _ _ _ _ _ _ h1 hk h2 h3 h h4 hr =>
    (Spans.ws h1).append ((Solid.str hk).toSpans.append ((Spans.ws h2).append (.byte colon_inert
      ((Spans.ws h3).append ((Solid.value h).toSpans.append ((Spans.ws h4).append (.byte comma_inert (Spans.members hr))))))))
end

theorem Spans.items {b : List Byte} {ts : List (List Byte)} (h : Items b ts) (hs : ∀ t ∈ ts, Spans t) : Spans b := by
  induction h with
  | one w1 t w2 h1 h2 => exact (Spans.ws h1).append ((hs t (by simp)).append (.ws h2))
  | cons w1 t w2 b ts h1 h2 hb ih =>
    exact (Spans.ws h1).append ((hs t (by simp)).append ((Spans.ws h2).append (.byte comma_inert (ih fun t ht => hs t (by simp [ht])))))

theorem Solid.enclosed {o c : Byte} (ho : o = 0x5B ∨ o = 0x7B) (hc : c = 0x5D ∨ c = 0x7D) {t : List Byte} {ts : List (List Byte)}
    (h : Enclosed o c t ts) (hs : ∀ t ∈ ts, Spans t) : Solid t := by
  cases h with
  | empty w hw => exact .bracket ho hc (.ws hw)
  | items b ts h => exact .bracket ho hc (.items h hs)

/-- Texts of members. -/
theorem Spans.member {t : List Byte} {m : List Byte × List Byte} (h : MemberOf t m) (h1 : Spans m.1) (h2 : Spans m.2) : Spans t := by
  obtain ⟨w1, w2, hw1, hw2, rfl⟩ := h
  exact h1.append ((Spans.ws hw1).append (.byte colon_inert ((Spans.ws hw2).append h2)))

theorem Solid.object {t : List Byte} {ms : List (List Byte × List Byte)} (h : ObjectOf t ms)
    (hs : ∀ m ∈ ms, Spans m.1 ∧ Spans m.2) : Solid t := by
  obtain ⟨ts, h, hm⟩ := h
  refine .enclosed (.inr rfl) (.inr rfl) h fun u hu => ?_
  obtain ⟨m, hm1, hm2⟩ := each_left hm hu
  exact .member hm2 (hs m hm1).1 (hs m hm1).2

/-- All texts that decoding accepts. -/
theorem Solid.lax {nk sp : Bool} {t : List Byte} (h : Lax nk sp t) : Solid t := by
  induction h with
  | value t h => exact .value h.choose_spec
  | literal w u _ hw hu =>
    refine .quotes (.plain fun c hc => ?_)
    rcases List.mem_append.mp hc with hc | hc
    · rcases hw c hc with rfl | rfl | rfl | rfl <;> decide
    · have : ∀ u, u = nullText ∨ u = trueText ∨ u = falseText → ∀ c ∈ u, c ≠ 0x22 ∧ c ≠ 0x5C := by
        rintro u (rfl | rfl | rfl) <;> decide
      exact this u hu c hc
  | array t ts ht _ ih => exact .enclosed (.inl rfl) (.inl rfl) ht fun u hu => (ih u hu).toSpans
  | object t ms ht hk _ ih =>
    refine .object ht fun m hm => ⟨?_, (ih m hm).toSpans⟩
    rcases hk m hm with ⟨_, h⟩ | ⟨_, h⟩
    · exact (Solid.str h).toSpans
    · exact h ▸ (Solid.literal (.inl rfl)).toSpans

/-! ## Uniqueness -/

theorem separates_ws {c : Byte} (h : c = 0x20 ∨ c = 0x09 ∨ c = 0x0A ∨ c = 0x0D) : Separates c := .inr (.inr (.inr (.inr h)))

/-- White space in front of a byte that is none. -/
theorem ws_same {w w' r r' : List Byte} {c c' : Byte} (hw : Ws w) (hw' : Ws w') (hc : ¬ (c = 0x20 ∨ c = 0x09 ∨ c = 0x0A ∨ c = 0x0D))
    (hc' : ¬ (c' = 0x20 ∨ c' = 0x09 ∨ c' = 0x0A ∨ c' = 0x0D)) (h : w ++ c :: r = w' ++ c' :: r') : w = w' ∧ c = c' ∧ r = r' := by
  induction w generalizing w' with
  | nil =>
    cases w' with
    | nil => simp at h; exact ⟨rfl, h⟩
    | cons x w' =>
      simp only [List.nil_append, List.cons_append, List.cons.injEq] at h
      exact absurd (h.1 ▸ hw' x (by simp)) hc
  | cons y w ih =>
    cases w' with
    | nil =>
      simp only [List.nil_append, List.cons_append, List.cons.injEq] at h
      exact absurd (h.1 ▸ hw y (by simp)) hc'
    | cons x w' =>
      simp only [List.cons_append, List.cons.injEq] at h
      obtain ⟨rfl, h⟩ := h
      obtain ⟨rfl, h6⟩ := ih (fun c hc => hw c (by simp [hc])) (fun c hc => hw' c (by simp [hc])) h
      exact ⟨rfl, h6⟩

/-- A solid text with white space around it, up to a separator. -/
theorem padded_same {w1 t w2 w1' t' w2' r r' : List Byte} {c c' : Byte} (h1 : Ws w1) (h2 : Ws w2) (h1' : Ws w1') (h2' : Ws w2')
    (ht : Solid t) (ht' : Solid t') (hc : Separates c ∧ ¬ (c = 0x20 ∨ c = 0x09 ∨ c = 0x0A ∨ c = 0x0D))
    (hc' : Separates c' ∧ ¬ (c' = 0x20 ∨ c' = 0x09 ∨ c' = 0x0A ∨ c' = 0x0D))
    (h : w1 ++ (t ++ (w2 ++ c :: r)) = w1' ++ (t' ++ (w2' ++ c' :: r'))) : t = t' ∧ c = c' ∧ r = r' := by
  have head : ∀ {w : List Byte} {c : Byte} {r : List Byte}, Ws w → Separates c → ∃ y z, w ++ c :: r = y :: z ∧ Separates y := by
    intro w c r hw hc
    cases w with
    | nil => exact ⟨c, r, rfl, hc⟩
    | cons y w => exact ⟨y, _, rfl, separates_ws (hw y (by simp))⟩
  obtain ⟨x, u, rfl⟩ := List.exists_cons_of_ne_nil ht.ne
  obtain ⟨x', u', rfl⟩ := List.exists_cons_of_ne_nil ht'.ne
  have hx := ht.whole [] x u rfl rfl
  have hx' := ht'.whole [] x' u' rfl rfl
  obtain ⟨rfl, rfl, h6⟩ := ws_same h1 h1' (fun h => hx (separates_ws h)) (fun h => hx' (separates_ws h)) h
  have h7 : u ++ (w2 ++ c :: r) = u' ++ (w2' ++ c' :: r') := h6
  obtain ⟨y, z, e, hy⟩ := head (r := r) h2 hc.1
  obtain ⟨y', z', e', hy'⟩ := head (r := r') h2' hc'.1
  obtain ⟨h3, rfl, rfl⟩ := ht.same ht' hy hy' (r := z) (r' := z') (by rw [← e, ← e']; simp only [List.cons_append, h7])
  obtain ⟨_, h4, h5⟩ := ws_same h2 h2' hc.2 hc'.2 (e.trans e'.symm)
  exact ⟨h3, h4, h5⟩

theorem items_same {c : Byte} (hc : c = 0x5D ∨ c = 0x7D) {b b' r r' : List Byte} {ts ts' : List (List Byte)} (h : Items b ts) (h' : Items b' ts')
    (hs : ∀ t ∈ ts, Solid t) (hs' : ∀ t ∈ ts', Solid t) (he : b ++ c :: r = b' ++ c :: r') : ts = ts' := by
  have sc : Separates c ∧ ¬ (c = 0x20 ∨ c = 0x09 ∨ c = 0x0A ∨ c = 0x0D) := by
    rcases hc with rfl | rfl <;> (unfold Separates; decide)
  have sm : Separates 0x2C ∧ ¬ ((0x2C : Byte) = 0x20 ∨ (0x2C : Byte) = 0x09 ∨ (0x2C : Byte) = 0x0A ∨ (0x2C : Byte) = 0x0D) := by
    unfold Separates; decide
  have nc : c ≠ 0x2C := by rcases hc with rfl | rfl <;> decide
  induction h generalizing b' ts' with
  | one w1 t w2 h1 h2 =>
    cases h' with
    | one w1' t' w2' h1' h2' =>
      simp only [List.append_assoc] at he
      obtain ⟨rfl, _⟩ := padded_same h1 h2 h1' h2' (hs t (by simp)) (hs' t' (by simp)) sc sc he
      rfl
    | cons w1' t' w2' b' ts' h1' h2' hb' =>
      simp only [List.append_assoc, List.cons_append] at he
      obtain ⟨_, e, _⟩ := padded_same h1 h2 h1' h2' (hs t (by simp)) (hs' t' (by simp)) sc sm he
      exact absurd e nc
  | cons w1 t w2 b ts h1 h2 hb ih =>
    cases h' with
    | one w1' t' w2' h1' h2' =>
      simp only [List.append_assoc, List.cons_append] at he
      obtain ⟨_, e, _⟩ := padded_same h1 h2 h1' h2' (hs t (by simp)) (hs' t' (by simp)) sm sc he
      exact absurd e.symm nc
    | cons w1' t' w2' b' ts' h1' h2' hb' =>
      simp only [List.append_assoc, List.cons_append] at he
      obtain ⟨rfl, _, e⟩ := padded_same h1 h2 h1' h2' (hs t (by simp)) (hs' t' (by simp)) sm sm he
      rw [ih hb' (fun u hu => hs u (by simp [hu])) (fun u hu => hs' u (by simp [hu])) e]

theorem enclosed_same {o c : Byte} (hc : c = 0x5D ∨ c = 0x7D) {t : List Byte} {ts ts' : List (List Byte)} (h : Enclosed o c t ts)
    (h' : Enclosed o c t ts') (hs : ∀ t ∈ ts, Solid t) (hs' : ∀ t ∈ ts', Solid t) : ts = ts' := by
  have no : ∀ {w b : List Byte} {us : List (List Byte)}, Ws w → Items b us → (∀ t ∈ us, Solid t) → w ++ [c] ≠ b ++ [c] := by
    intro w b us hw hb hs he
    have hcw : ¬ (c = 0x20 ∨ c = 0x09 ∨ c = 0x0A ∨ c = 0x0D) := by rcases hc with rfl | rfl <;> decide
    have step : ∀ w1 t x, Ws w1 → Solid t → w ++ [c] = w1 ++ (t ++ x) → False ∨ ∃ u, t = c :: u := by
      intro w1 t x hw1 ht he
      obtain ⟨y, u, rfl⟩ := List.exists_cons_of_ne_nil ht.ne
      have hy := ht.whole [] y u rfl rfl
      obtain ⟨_, rfl, _⟩ := ws_same hw hw1 hcw (fun h => hy (separates_ws h)) he
      exact .inr ⟨u, rfl⟩
    have bad : ∀ t u, Solid t → t ≠ c :: u := by
      rintro t u ht rfl
      exact ht.whole [] c u rfl rfl (by rcases hc with rfl | rfl <;> (unfold Separates; decide))
    cases hb with
    | one w1 t w2 h1 h2 =>
      rw [List.append_assoc, List.append_assoc] at he
      rcases step w1 t _ h1 (hs t (by simp)) he with h | ⟨u, h⟩
      · exact h
      · exact bad t u (hs t (by simp)) h
    | cons w1 t w2 b ts h1 h2 hb =>
      rw [List.append_assoc, List.append_assoc] at he
      rcases step w1 t _ h1 (hs t (by simp)) he with h | ⟨u, h⟩
      · exact h
      · exact bad t u (hs t (by simp)) h
  generalize hte : t = t' at h'
  cases h with
  | empty w hw =>
    cases h' with
    | empty w' hw' => rfl
    | items b ts' h' =>
      simp only [List.cons.injEq] at hte
      exact absurd hte.2 (no hw h' hs')
  | items b ts h =>
    cases h' with
    | empty w' hw' =>
      simp only [List.cons.injEq] at hte
      exact absurd hte.2.symm (no hw' h hs)
    | items b' ts' h' =>
      simp only [List.cons.injEq] at hte
      exact items_same hc h h' hs hs' hte.2

theorem arrayOf_same {t : List Byte} {ts ts' : List (List Byte)} (h : ArrayOf t ts) (h' : ArrayOf t ts') (hs : ∀ t ∈ ts, Solid t)
    (hs' : ∀ t ∈ ts', Solid t) : ts = ts' := enclosed_same (.inl rfl) h h' hs hs'

theorem each_uncons {A B : Type} {R : A → B → Prop} {a : A} {as : List A} {bs : List B} (h : Each R (a :: as) bs) :
    ∃ b bs', R a b ∧ Each R as bs' ∧ bs = b :: bs' := by
  cases h with
  | cons h1 h2 => exact ⟨_, _, h1, h2, rfl⟩

/-- A member with white space around it, up to a comma or a bracket. -/
theorem member_same {w1 t w2 w1' t' w2' r r' : List Byte} {c c' : Byte} {m m' : List Byte × List Byte} (h1 : Ws w1) (h2 : Ws w2)
    (h1' : Ws w1') (h2' : Ws w2') (ht : MemberOf t m) (ht' : MemberOf t' m') (hm : Solid m.1 ∧ Solid m.2) (hm' : Solid m'.1 ∧ Solid m'.2)
    (hc : Separates c ∧ ¬ (c = 0x20 ∨ c = 0x09 ∨ c = 0x0A ∨ c = 0x0D))
    (hc' : Separates c' ∧ ¬ (c' = 0x20 ∨ c' = 0x09 ∨ c' = 0x0A ∨ c' = 0x0D))
    (h : w1 ++ (t ++ (w2 ++ c :: r)) = w1' ++ (t' ++ (w2' ++ c' :: r'))) : m = m' ∧ c = c' ∧ r = r' := by
  obtain ⟨v1, v2, hv1, hv2, rfl⟩ := ht
  obtain ⟨v1', v2', hv1', hv2', rfl⟩ := ht'
  have sm : Separates 0x3A ∧ ¬ ((0x3A : Byte) = 0x20 ∨ (0x3A : Byte) = 0x09 ∨ (0x3A : Byte) = 0x0A ∨ (0x3A : Byte) = 0x0D) := by
    unfold Separates; decide
  simp only [List.append_assoc, List.cons_append] at h
  obtain ⟨e1, _, e2⟩ := padded_same h1 hv1 h1' hv1' hm.1 hm'.1 sm sm h
  obtain ⟨e3, e4, e5⟩ := padded_same hv2 h2 hv2' h2' hm.2 hm'.2 hc hc' e2
  exact ⟨Prod.ext e1 e3, e4, e5⟩

theorem items_members_same {c : Byte} (hc : c = 0x5D ∨ c = 0x7D) {b b' r r' : List Byte} {ts ts' : List (List Byte)}
    {ms ms' : List (List Byte × List Byte)} (h : Items b ts) (h' : Items b' ts') (hm : Each MemberOf ts ms) (hm' : Each MemberOf ts' ms')
    (hs : ∀ m ∈ ms, Solid m.1 ∧ Solid m.2) (hs' : ∀ m ∈ ms', Solid m.1 ∧ Solid m.2) (he : b ++ c :: r = b' ++ c :: r') : ms = ms' := by
  have sc : Separates c ∧ ¬ (c = 0x20 ∨ c = 0x09 ∨ c = 0x0A ∨ c = 0x0D) := by
    rcases hc with rfl | rfl <;> (unfold Separates; decide)
  have sm : Separates 0x2C ∧ ¬ ((0x2C : Byte) = 0x20 ∨ (0x2C : Byte) = 0x09 ∨ (0x2C : Byte) = 0x0A ∨ (0x2C : Byte) = 0x0D) := by
    unfold Separates; decide
  have nc : c ≠ 0x2C := by rcases hc with rfl | rfl <;> decide
  induction h generalizing b' ts' ms ms' with
  | one w1 t w2 h1 h2 =>
    obtain ⟨m, _, k1, k2, rfl⟩ := each_uncons hm
    cases k2
    cases h' with
    | one w1' t' w2' h1' h2' =>
      obtain ⟨m', _, k1', k2', rfl⟩ := each_uncons hm'
      cases k2'
      simp only [List.append_assoc] at he
      obtain ⟨rfl, _⟩ := member_same h1 h2 h1' h2' k1 k1' (hs m (by simp)) (hs' m' (by simp)) sc sc he
      rfl
    | cons w1' t' w2' b' ts' h1' h2' hb' =>
      obtain ⟨m', _, k1', k2', rfl⟩ := each_uncons hm'
      simp only [List.append_assoc, List.cons_append] at he
      obtain ⟨_, e, _⟩ := member_same h1 h2 h1' h2' k1 k1' (hs m (by simp)) (hs' m' (by simp)) sc sm he
      exact absurd e nc
  | cons w1 t w2 b ts h1 h2 hb ih =>
    obtain ⟨m, ms, k1, k2, rfl⟩ := each_uncons hm
    cases h' with
    | one w1' t' w2' h1' h2' =>
      obtain ⟨m', _, k1', k2', rfl⟩ := each_uncons hm'
      simp only [List.append_assoc, List.cons_append] at he
      obtain ⟨_, e, _⟩ := member_same h1 h2 h1' h2' k1 k1' (hs m (by simp)) (hs' m' (by simp)) sm sc he
      exact absurd e.symm nc
    | cons w1' t' w2' b' ts' h1' h2' hb' =>
      obtain ⟨m', ms', k1', k2', rfl⟩ := each_uncons hm'
      simp only [List.append_assoc, List.cons_append] at he
      obtain ⟨rfl, _, e⟩ := member_same h1 h2 h1' h2' k1 k1' (hs m (by simp)) (hs' m' (by simp)) sm sm he
      rw [ih hb' k2 k2' (fun u hu => hs u (by simp [hu])) (fun u hu => hs' u (by simp [hu])) e]

/-- A text begins with the first byte of its key. -/
theorem empty_not_members {c : Byte} (hc : c = 0x5D ∨ c = 0x7D) {w b : List Byte} {ts : List (List Byte)}
    {ms : List (List Byte × List Byte)} (hw : Ws w) (hb : Items b ts) (hm : Each MemberOf ts ms) (hs : ∀ m ∈ ms, Solid m.1 ∧ Solid m.2) :
    w ++ [c] ≠ b ++ [c] := by
  intro he
  have hcw : ¬ (c = 0x20 ∨ c = 0x09 ∨ c = 0x0A ∨ c = 0x0D) := by rcases hc with rfl | rfl <;> decide
  have step : ∀ w1 t x m, Ws w1 → MemberOf t m → Solid m.1 → w ++ [c] = w1 ++ (t ++ x) → False := by
    intro w1 t x m hw1 ht hm1 he
    obtain ⟨v1, v2, hv1, hv2, rfl⟩ := ht
    obtain ⟨y, u, hyu⟩ := List.exists_cons_of_ne_nil hm1.ne
    rw [hyu] at he hm1
    have hy := hm1.whole [] y u rfl rfl
    obtain ⟨_, rfl, _⟩ := ws_same hw hw1 hcw (fun h => hy (separates_ws h)) he
    exact hy (by rcases hc with rfl | rfl <;> (unfold Separates; decide))
  cases hb with
  | one w1 t w2 h1 h2 =>
    obtain ⟨m, _, k1, _, rfl⟩ := each_uncons hm
    rw [List.append_assoc, List.append_assoc] at he
    exact step w1 t _ m h1 k1 (hs m (by simp)).1 he
  | cons w1 t w2 b ts h1 h2 hb =>
    obtain ⟨m, _, k1, _, rfl⟩ := each_uncons hm
    rw [List.append_assoc, List.append_assoc] at he
    exact step w1 t _ m h1 k1 (hs m (by simp)).1 he

theorem objectOf_same {t : List Byte} {ms ms' : List (List Byte × List Byte)} (h : ObjectOf t ms) (h' : ObjectOf t ms')
    (hs : ∀ m ∈ ms, Solid m.1 ∧ Solid m.2) (hs' : ∀ m ∈ ms', Solid m.1 ∧ Solid m.2) : ms = ms' := by
  obtain ⟨ts, h, hm⟩ := h
  obtain ⟨ts', h', hm'⟩ := h'
  generalize hte : t = t' at h'
  cases h with
  | empty w hw =>
    cases hm
    cases h' with
    | empty w' hw' => cases hm'; rfl
    | items b ts' h' =>
      simp only [List.cons.injEq] at hte
      exact absurd hte.2 (empty_not_members (.inr rfl) hw h' hm' hs')
  | items b ts h =>
    cases h' with
    | empty w' hw' =>
      simp only [List.cons.injEq] at hte
      exact absurd hte.2.symm (empty_not_members (.inr rfl) hw' h hm hs)
    | items b' ts' h' =>
      simp only [List.cons.injEq] at hte
      exact items_members_same (.inr rfl) h h' hm hm' hs hs' hte.2

end Jzon
