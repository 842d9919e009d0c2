import Verif.Proof.Patch
import Verif.Spec.Alike

/-!
# Texts that differ in white space, or in how strings are written
-/

set_option linter.unusedSimpArgs false

namespace Jzon

open Spec

/-! ## The grammar by lists of texts -/

theorem elems_items_iff {b : List Byte} {vs : List JVal} : Elems b vs ↔ ∃ ts, Items b ts ∧ Each Value ts vs := by
  constructor
  · intro h
    exact go h
  · rintro ⟨ts, h, he⟩
    induction h generalizing vs with
    | one w1 t w2 h1 h2 =>
      obtain ⟨v, vs', hv, he', rfl⟩ := each_uncons he
      cases he'
      exact .one w1 t w2 v h1 hv h2
    | cons w1 t w2 b ts h1 h2 hb ih =>
      obtain ⟨v, vs', hv, he', rfl⟩ := each_uncons he
      exact .cons w1 t w2 b v vs' h1 hv h2 (ih he')
where
  go {b : List Byte} {vs : List JVal} : Elems b vs → ∃ ts, Items b ts ∧ Each Value ts vs
    | .one w1 t w2 v h1 h h2 => ⟨[t], .one w1 t w2 h1 h2, .cons h .nil⟩
    | .cons w1 t w2 r v vs h1 h h2 hr => by
      obtain ⟨ts, h3, h4⟩ := go hr
      exact ⟨t :: ts, .cons w1 t w2 r ts h1 h2 h3, .cons h h4⟩

theorem value_arr_iff {t : List Byte} {vs : List JVal} : Value t (.arr vs) ↔ ∃ ts, ArrayOf t ts ∧ Each Value ts vs := by
  constructor
  · intro h
    cases h with
    | arrEmpty w hw => exact ⟨[], .empty w hw, .nil⟩
    | arr l _ h =>
      obtain ⟨ts, h1, h2⟩ := elems_items_iff.mp h
      exact ⟨ts, .items l ts h1, h2⟩
  · rintro ⟨ts, h, he⟩
    cases h with
    | empty w hw =>
      cases he
      exact .arrEmpty w hw
    | items b ts h => exact .arr b vs (elems_items_iff.mpr ⟨ts, h, he⟩)

theorem members_items_iff {b : List Byte} {js : List (List Byte × JVal)} :
    Members b js ↔ ∃ ts ms, Items b ts ∧ Each MemberOf ts ms ∧ Each (fun m j => Str m.1 j.1 ∧ Value m.2 j.2) ms js := by
  constructor
  · intro h
    exact go h
  · rintro ⟨ts, ms, h, he, hv⟩
    induction h generalizing ms js with
    | one w1 t w2 h1 h2 =>
      obtain ⟨m, ms', ⟨w3, w4, h3, h4, rfl⟩, he', rfl⟩ := each_uncons he
      cases he'
      obtain ⟨j, js', hj, hv', rfl⟩ := each_uncons hv
      cases hv'
      have := Members.single w1 m.1 w3 w4 m.2 w2 j.1 j.2 h1 hj.1 h3 h4 hj.2 h2
      simpa using this
    | cons w1 t w2 b ts h1 h2 hb ih =>
      obtain ⟨m, ms', ⟨w3, w4, h3, h4, rfl⟩, he', rfl⟩ := each_uncons he
      obtain ⟨j, js', hj, hv', rfl⟩ := each_uncons hv
      have := Members.more w1 m.1 w3 w4 m.2 w2 b j.1 j.2 js' h1 hj.1 h3 h4 hj.2 h2 (ih ms' he' hv')
      simpa using this
where
  go {b : List Byte} {js : List (List Byte × JVal)} :
      Members b js → ∃ ts ms, Items b ts ∧ Each MemberOf ts ms ∧ Each (fun m j => Str m.1 j.1 ∧ Value m.2 j.2) ms js
    | .single w1 k w2 w3 t w4 key v h1 hk h2 h3 h h4 =>
      ⟨[k ++ (w2 ++ 0x3A :: (w3 ++ t))], [(k, t)], by
        have := Items.one w1 (k ++ (w2 ++ 0x3A :: (w3 ++ t))) w4 h1 h4
        simpa using this, .cons ⟨w2, w3, h2, h3, rfl⟩ .nil, .cons ⟨hk, h⟩ .nil⟩
    | .more w1 k w2 w3 t w4 r key v ms h1 hk h2 h3 h h4 hr => by
      obtain ⟨ts, ms', h5, h6, h7⟩ := go hr
      refine ⟨(k ++ (w2 ++ 0x3A :: (w3 ++ t))) :: ts, (k, t) :: ms', ?_, .cons ⟨w2, w3, h2, h3, rfl⟩ h6, .cons ⟨hk, h⟩ h7⟩
      have := Items.cons w1 (k ++ (w2 ++ 0x3A :: (w3 ++ t))) w4 r ts h1 h4 h5
      simpa using this

theorem value_obj_iff {t : List Byte} {js : List (List Byte × JVal)} :
    Value t (.obj js) ↔ ∃ ms, ObjectOf t ms ∧ Each (fun m j => Str m.1 j.1 ∧ Value m.2 j.2) ms js := by
  constructor
  · intro h
    cases h with
    | objEmpty w hw => exact ⟨[], ⟨[], .empty w hw, .nil⟩, .nil⟩
    | obj l _ h =>
      obtain ⟨ts, ms, h1, h2, h3⟩ := members_items_iff.mp h
      exact ⟨ms, ⟨ts, .items l ts h1, h2⟩, h3⟩
  · rintro ⟨ms, ⟨ts, h, he⟩, hv⟩
    cases h with
    | empty w hw =>
      cases he
      cases hv
      exact .objEmpty w hw
    | items b ts h => exact .obj b js (members_items_iff.mpr ⟨ts, ms, h, he, hv⟩)

/-! ## First bytes -/

/-- The text does not begin with a bracket. -/
def NotOpen (t : List Byte) : Prop := ∀ c u, t = c :: u → c ≠ 0x5B ∧ c ≠ 0x7B

theorem notOpen_null : NotOpen nullText := by
  rintro c u h
  cases h
  decide

theorem notOpen_quotes {b : List Byte} : NotOpen (inQuotes b) := by
  rintro c u h
  cases h
  decide

theorem notOpen_str {t s : List Byte} (h : Str t s) : NotOpen t := by
  obtain ⟨b, _, rfl⟩ := h
  exact notOpen_quotes

theorem wordByte_number_head {t : List Byte} (h : Number t) {c : Byte} {u : List Byte} (ht : t = c :: u) : wordByte c = true :=
  wordByte_number h c (by rw [ht]; simp)

theorem notOpen_number {t : List Byte} (h : Number t) : NotOpen t := by
  intro c u ht
  have hw := wordByte_number_head h ht
  constructor <;> rintro rfl <;> cases hw

theorem notOpen_lit {t : List Byte} (h : t = nullText ∨ t = trueText ∨ t = falseText) : NotOpen t := by
  rcases h with rfl | rfl | rfl <;> (rintro c u h; cases h; decide)

theorem str_not_number {t s : List Byte} (h : Str t s) : ¬ Number t := by
  obtain ⟨b, _, rfl⟩ := h
  intro h
  have := wordByte_number_head h rfl
  cases this

theorem str_not_lit {t s : List Byte} (h : Str t s) : ¬ (t = nullText ∨ t = trueText ∨ t = falseText) := by
  obtain ⟨b, _, rfl⟩ := h
  rintro (h | h | h) <;> cases h

theorem array_open {t : List Byte} {ts : List (List Byte)} (h : ArrayOf t ts) : ¬ NotOpen t := by
  obtain ⟨u, rfl⟩ := enclosed_head h
  exact fun h => (h _ _ rfl).1 rfl

theorem object_open {t : List Byte} {ms : List (List Byte × List Byte)} (h : ObjectOf t ms) : ¬ NotOpen t := by
  obtain ⟨u, rfl⟩ := object_head h
  exact fun h => (h _ _ rfl).2 rfl

theorem array_not_object {t : List Byte} {ts : List (List Byte)} {ms : List (List Byte × List Byte)} (h : ArrayOf t ts) : ¬ ObjectOf t ms := by
  intro h'
  obtain ⟨u, rfl⟩ := enclosed_head h
  obtain ⟨u', hu⟩ := object_head h'
  cases hu

/-! ## Values -/

theorem str_value {t s : List Byte} {j : JVal} (h : Str t s) (hj : Value t j) : j = .str s := by
  cases hj with
  | null => exact absurd (.inl rfl) (str_not_lit h)
  | true => exact absurd (.inr (.inl rfl)) (str_not_lit h)
  | false => exact absurd (.inr (.inr rfl)) (str_not_lit h)
  | num _ hn => exact absurd hn (str_not_number h)
  | str _ s' h' => rw [Props.C13_denotation_unique h h']
  | arrEmpty w hw => exact absurd (notOpen_str h) (array_open (.empty w hw))
  | arr l vs h' => exact absurd (notOpen_str h) fun h => (h _ _ rfl).1 rfl
  | objEmpty w hw => exact absurd (notOpen_str h) fun h => (h _ _ rfl).2 rfl
  | obj l vs h' => exact absurd (notOpen_str h) fun h => (h _ _ rfl).2 rfl

theorem value_of_array {t : List Byte} {ts : List (List Byte)} {j : JVal} (h : ArrayOf t ts) (hj : Value t j) : ∃ js, j = .arr js := by
  have ho := array_open h
  cases hj with
  | null => exact absurd notOpen_null ho
  | true => exact absurd (notOpen_lit (.inr (.inl rfl))) ho
  | false => exact absurd (notOpen_lit (.inr (.inr rfl))) ho
  | num _ hn => exact absurd (notOpen_number hn) ho
  | str _ s' h' => exact absurd (notOpen_str h') ho
  | arrEmpty w hw => exact ⟨_, rfl⟩
  | arr l vs h' => exact ⟨_, rfl⟩
  | objEmpty w hw =>
    obtain ⟨u, hu⟩ := enclosed_head h
    cases hu
  | obj l vs h' =>
    obtain ⟨u, hu⟩ := enclosed_head h
    cases hu

theorem value_of_object {t : List Byte} {ms : List (List Byte × List Byte)} {j : JVal} (h : ObjectOf t ms) (hj : Value t j) : ∃ js, j = .obj js := by
  have ho := object_open h
  cases hj with
  | null => exact absurd notOpen_null ho
  | true => exact absurd (notOpen_lit (.inr (.inl rfl))) ho
  | false => exact absurd (notOpen_lit (.inr (.inr rfl))) ho
  | num _ hn => exact absurd (notOpen_number hn) ho
  | str _ s' h' => exact absurd (notOpen_str h') ho
  | objEmpty w hw => exact ⟨_, rfl⟩
  | obj l vs h' => exact ⟨_, rfl⟩
  | arrEmpty w hw =>
    obtain ⟨u, hu⟩ := object_head h
    cases hu
  | arr l vs h' =>
    obtain ⟨u, hu⟩ := object_head h
    cases hu

theorem alike_symm {esc : Bool} {t t' : List Byte} (h : SameText esc t t') : SameText esc t' t := by
  induction h with
  | same t h => exact .same t h
  | str t t' s he h h' => exact .str _ _ s he h' h
  | array t t' ts ts' h h' hn hs ih => exact .array _ _ _ _ h' h hn.symm fun i u u' hu hu' => ih i u' u hu' hu
  | object t t' ms ms' h h' hn hk hs ih =>
    refine .object _ _ _ _ h' h hn.symm (fun i m m' hm hm' => ?_) fun i m m' hm hm' => ih i m' m hm' hm
    obtain ⟨s, h1, h2, h3⟩ := hk i m' m hm' hm
    exact ⟨s, h2, h1, h3.imp id Eq.symm⟩

/-- With the partner of each text at hand. -/
theorem each_exchange {A B : Type} {R : A → B → Prop} {as as' : List A} {bs : List B} (hn : as.length = as'.length) (h : Each R as bs)
    (hs : ∀ (i : Nat) (u u' : A) (b : B), as[i]? = some u → as'[i]? = some u' → R u b → R u' b) : Each R as' bs := by
  refine each_of_get (by rw [← hn, each_length h]) fun i u' b hu' hb => ?_
  have hlt : i < as.length := by
    rw [hn]
    exact (List.getElem?_eq_some_iff.mp hu').1
  have hu : as[i]? = some as[i] := List.getElem?_eq_getElem hlt
  exact hs i _ _ _ hu hu' (each_get h hu hb)

theorem alike_solid {esc : Bool} {t t' : List Byte} (h : SameText esc t t') : Solid t := by
  induction h with
  | same t h => exact .value h.choose_spec
  | str t t' s he h h' => exact .str h
  | array t t' ts ts' h h' hn hs ih =>
    refine Solid.enclosed (.inl rfl) (.inl rfl) h fun u hu => (?_ : Solid u).toSpans
    obtain ⟨i, hi⟩ := List.getElem?_of_mem hu
    have hlt : i < ts'.length := by
      rw [← hn]
      exact (List.getElem?_eq_some_iff.mp hi).1
    exact ih i u _ hi (List.getElem?_eq_getElem hlt)
  | object t t' ms ms' h h' hn hk hs ih =>
    have key : ∀ m ∈ ms, Solid m.1 ∧ Solid m.2 := by
      intro m hm
      obtain ⟨i, hi⟩ := List.getElem?_of_mem hm
      have hlt : i < ms'.length := by
        rw [← hn]
        exact (List.getElem?_eq_some_iff.mp hi).1
      obtain ⟨s, hs, _⟩ := hk i m _ hi (List.getElem?_eq_getElem hlt)
      exact ⟨.str hs, ih i m _ hi (List.getElem?_eq_getElem hlt)⟩
    exact Solid.object h fun m hm => ⟨(key m hm).1.toSpans, (key m hm).2.toSpans⟩

theorem alike_elements {esc : Bool} {ts ts' : List (List Byte)} (hn : ts.length = ts'.length)
    (hs : ∀ (i : Nat) (u u' : List Byte), ts[i]? = some u → ts'[i]? = some u' → SameText esc u u') : ∀ u ∈ ts, Solid u := by
  intro u hu
  obtain ⟨i, hi⟩ := List.getElem?_of_mem hu
  have hlt : i < ts'.length := by
    rw [← hn]
    exact (List.getElem?_eq_some_iff.mp hi).1
  exact alike_solid (hs i u _ hi (List.getElem?_eq_getElem hlt))

theorem alike_members {esc : Bool} {ms ms' : List (List Byte × List Byte)} (hn : ms.length = ms'.length)
    (hk : ∀ (i : Nat) (m m' : List Byte × List Byte), ms[i]? = some m → ms'[i]? = some m' → ∃ s, Str m.1 s ∧ Str m'.1 s ∧ (esc = true ∨ m.1 = m'.1))
    (hs : ∀ (i : Nat) (m m' : List Byte × List Byte), ms[i]? = some m → ms'[i]? = some m' → SameText esc m.2 m'.2) : ∀ m ∈ ms, Solid m.1 ∧ Solid m.2 := by
  intro m hm
  obtain ⟨i, hi⟩ := List.getElem?_of_mem hm
  have hlt : i < ms'.length := by
    rw [← hn]
    exact (List.getElem?_eq_some_iff.mp hi).1
  obtain ⟨s, h, _⟩ := hk i m _ hi (List.getElem?_eq_getElem hlt)
  exact ⟨.str h, alike_solid (hs i m _ hi (List.getElem?_eq_getElem hlt))⟩

/-- Texts that are alike denote the same value. -/
theorem alike_value {esc : Bool} {t t' : List Byte} (h : SameText esc t t') {j : JVal} (hj : Value t j) : Value t' j := by
  induction h generalizing j with
  | same t h => exact hj
  | str t t' s he h h' =>
    rw [str_value h hj]
    exact .str _ _ h'
  | array t t' ts ts' h h' hn hs ih =>
    obtain ⟨js, rfl⟩ := value_of_array h hj
    obtain ⟨us, hus, he⟩ := value_arr_iff.mp hj
    obtain rfl := arrayOf_same h hus (alike_elements hn hs) (fun u hu => by
      obtain ⟨j, _, hj⟩ := each_left he hu
      exact .value hj)
    exact value_arr_iff.mpr ⟨ts', h', each_exchange hn he fun i u u' j hu hu' h => ih i u u' hu hu' h⟩
  | object t t' ms ms' h h' hn hk hs ih =>
    obtain ⟨js, rfl⟩ := value_of_object h hj
    obtain ⟨us, hus, he⟩ := value_obj_iff.mp hj
    obtain rfl := objectOf_same h hus (alike_members hn hk hs) (fun u hu => by
      obtain ⟨j, _, hj⟩ := each_left he hu
      exact ⟨.str hj.1, .value hj.2⟩)
    refine value_obj_iff.mpr ⟨ms', h', each_exchange hn he fun i m m' j hm hm' h => ⟨?_, ih i m m' hm hm' h.2⟩⟩
    obtain ⟨s, h1, h2, _⟩ := hk i m m' hm hm'
    rw [Props.C13_denotation_unique h.1 h1]
    exact h2

/-- Texts that denote the same value are alike. -/
theorem alike_of_value {t t' : List Byte} {j : JVal} (h : Value t j) (h' : Value t' j) : SameText true t t' := by
  obtain ⟨n, hn⟩ : ∃ n, t.length < n := ⟨_, Nat.lt_succ_self _⟩
  induction n generalizing t t' j with
  | zero => omega
  | succ n ih =>
    cases j with
    | null =>
      cases h
      cases h'
      exact .same _ ⟨_, .null⟩
    | bool b =>
      cases b with
      | true =>
        cases h
        cases h'
        exact .same _ ⟨_, .true⟩
      | false =>
        cases h
        cases h'
        exact .same _ ⟨_, .false⟩
    | num l =>
      cases h with
      | num _ h =>
        cases h' with
        | num _ h' => exact .same _ ⟨_, .num _ h⟩
    | str s =>
      cases h with
      | str _ _ h =>
        cases h' with
        | str _ _ h' => exact .str _ _ s rfl h h'
    | arr js =>
      obtain ⟨ts, h1, h2⟩ := value_arr_iff.mp h
      obtain ⟨ts', h1', h2'⟩ := value_arr_iff.mp h'
      have hl := each_length h2
      have hl' := each_length h2'
      refine .array _ _ ts ts' h1 h1' (by omega) fun i u u' hu hu' => ?_
      have hlt := (List.getElem?_eq_some_iff.mp hu).1
      have hj : js[i]? = some (js[i]'(by omega)) := List.getElem?_eq_getElem (by omega)
      exact ih (each_get h2 hu hj) (each_get h2' hu' hj) (by have := enclosed_length h1 u (List.mem_of_getElem? hu); omega)
    | obj js =>
      obtain ⟨ms, h1, h2⟩ := value_obj_iff.mp h
      obtain ⟨ms', h1', h2'⟩ := value_obj_iff.mp h'
      have hl := each_length h2
      have hl' := each_length h2'
      refine .object _ _ ms ms' h1 h1' (by omega) (fun i m m' hm hm' => ?_) fun i m m' hm hm' => ?_ <;>
        (have hlt := (List.getElem?_eq_some_iff.mp hm).1
         have hj : js[i]? = some (js[i]'(by omega)) := List.getElem?_eq_getElem (by omega)
         have a := each_get h2 hm hj
         have b := each_get h2' hm' hj)
      · exact ⟨_, a.1, b.1, .inl rfl⟩
      · exact ih a.2 b.2 (by have := objectOf_length h1 m (List.mem_of_getElem? hm); omega)

/-! ## Decoding -/

section
variable {F : Type} {Γ : TyEnv F} {cfg : DecCfg F} {sel : List (List Byte) → List Byte → Nat → Prop} {esc : Bool}

theorem decodesO_simple {T : Ty} {R : Rel F} (h : ∀ k, DecodesN Γ cfg true sel k T = R) {o : DecOpts} {a v : Val F} {t : List Byte} :
    DecodesO Γ cfg true sel T o a t v ↔ R o a t v :=
  ⟨fun ⟨k, hk⟩ => h k ▸ hk, fun h' => ⟨0, by rw [h]; exact h'⟩⟩

/-- The types that take no array and no object. -/
def Scalar : Ty → Prop
  | .bool | .str | .int _ | .uint _ | .float32 | .float64 | .number | .textUnmarshaler _ | .unsupported => True
  | _ => False

theorem scalar_notOpen {T : Ty} (hT : Scalar T) {o : DecOpts} {a v : Val F} {t : List Byte} (h : DecodesO Γ cfg true sel T o a t v) : NotOpen t := by
  obtain ⟨k, h⟩ := h
  cases T <;> simp only [Scalar] at hT
  case bool =>
    simp only [DecodesN] at h
    rcases h with h | ⟨_, w, u, _, rfl, _⟩
    · exact notOpen_lit (boolLit_text h)
    · exact notOpen_quotes
  case str =>
    simp only [DecodesN] at h
    rcases h with ⟨rfl, _⟩ | ⟨s, hs, _⟩
    · exact notOpen_null
    · exact notOpen_str hs
  case int w =>
    simp only [DecodesN] at h
    rcases h with ⟨rfl, _⟩ | ⟨u, z, hz, _, rfl⟩
    · exact notOpen_null
    · split
      · exact notOpen_quotes
      · exact notOpen_number (number_of_intLit hz)
  case uint w =>
    simp only [DecodesN] at h
    rcases h with ⟨rfl, _⟩ | ⟨u, z, hz, _, rfl⟩
    · exact notOpen_null
    · split
      · exact notOpen_quotes
      · exact notOpen_number (number_of_uintLit hz)
  case float32 =>
    simp only [DecodesN] at h
    rcases h with ⟨rfl, _⟩ | ⟨f, hf, _⟩
    · exact notOpen_null
    · exact notOpen_number hf
  case float64 =>
    simp only [DecodesN] at h
    rcases h with ⟨rfl, _⟩ | ⟨f, hf, _⟩
    · exact notOpen_null
    · exact notOpen_number hf
  case number =>
    simp only [DecodesN] at h
    rcases h with ⟨rfl, _⟩ | ⟨u, hu, rfl | rfl, _⟩
    · exact notOpen_null
    · exact notOpen_number hu
    · exact notOpen_quotes
  case textUnmarshaler =>
    simp only [DecodesN] at h
    rcases h with ⟨rfl, _⟩ | ⟨s, hs, _⟩
    · exact notOpen_null
    · exact notOpen_str hs
  case unsupported =>
    simp only [DecodesN] at h

theorem keyRel_alike {K : KeyTy} (hK : esc = true → (∀ w, K ≠ .int w) ∧ ∀ w, K ≠ .uint w) {m m' s : List Byte} {k : Key} (h1 : Str m s) (h2 : Str m' s)
    (h3 : esc = true ∨ m = m') (h : KeyRel Γ true K m k) : KeyRel Γ true K m' k := by
  rcases h3 with he | rfl
  · have nn : m ≠ nullText := fun h => str_not_lit h1 (.inl h)
    cases K with
    | str =>
      rcases h with ⟨s', hs', h⟩ | ⟨_, h, _⟩
      · rw [Props.C13_denotation_unique hs' h1] at h
        exact .inl ⟨s, h2, h⟩
      · exact absurd h nn
    | int w => exact absurd rfl ((hK he).1 w)
    | uint w => exact absurd rfl ((hK he).2 w)
    | text i =>
      rcases h with ⟨s', x, hs', h⟩ | ⟨_, h, _⟩
      · rw [Props.C13_denotation_unique hs' h1] at h
        exact .inl ⟨s, x, h2, h⟩
      · exact absurd h nn
  · exact h

theorem visits_exchange {S X : Type} {G : S → X → S → Prop} {xs xs' : List X} (hn : xs.length = xs'.length)
    (hs : ∀ (i : Nat) (x x' : X) (a b : S), xs[i]? = some x → xs'[i]? = some x' → G a x b → G a x' b) {a b : S} (h : Visits G a xs b) : Visits G a xs' b := by
  induction h generalizing xs' with
  | nil a =>
    cases xs' with
    | nil => exact .nil a
    | cons => cases hn
  | cons h _ ih =>
    cases xs' with
    | nil => cases hn
    | cons x' xs' =>
      exact .cons (hs 0 _ _ _ _ rfl rfl h) (ih (by simpa using hn) fun i x x' a b hx hx' h => hs (i + 1) x x' a b hx hx' h)

theorem decodesO_alike {P : Ty → Prop} (hP : Closed Γ P) (hv : ∀ T, P T → T ≠ .raw ∧ ∀ i, T ≠ .jsonUnmarshaler i)
    (hi : esc = true → ∀ U, P U → U ≠ .number ∧ ¬ Is Γ U (.slice (.uint .w8)) ∧ ∀ K E, Is Γ U (.map K E) → (∀ w, K ≠ .int w) ∧ ∀ w, K ≠ .uint w)
    (hq : esc = true → ∀ i fs f, P (.named i) → Γ.defn i = .struct fs → f ∈ fs → f.quoted = false)
    {t t' : List Byte} (h : SameText esc t t') {T : Ty} {o : DecOpts} {a v : Val F} (hT : P T) (ho : esc = true → o = {})
    (hd : DecodesO Γ cfg true sel T o a t v) : DecodesO Γ cfg true sel T o a t' v := by
  induction h generalizing T o a v with
  | same t h => exact hd
  | str t t' s he h h' =>
    have ho := ho he
    subst ho
    have nl := str_not_lit h
    have nl' := str_not_lit h'
    have nn := str_not_number h
    have no := notOpen_str h
    have slice : ∀ {T E : Ty} {a v : Val F}, P T → Is Γ T (.slice E) → ¬ DecodesO Γ cfg true sel T {} a t v := by
      intro T E a v hT hs hd
      rcases (decodesO_slice hs).mp hd with ⟨h1, _⟩ | ⟨h1, _⟩ | ⟨ts, vs, h1, _⟩
      · exact nl (.inl h1)
      · rw [eq_of_beq h1] at hs
        exact (hi he T hT).2.1 hs
      · exact array_open h1 no
    have array : ∀ {T E : Ty} {n : Nat} {a v : Val F}, Is Γ T (.array n E) → ¬ DecodesO Γ cfg true sel T {} a t v := by
      intro T E n a v hs hd
      rcases (decodesO_array hs).mp hd with ⟨h1, _⟩ | ⟨ts, vs, h1, _⟩
      · exact nl (.inl h1)
      · exact array_open h1 no
    have map : ∀ {T E : Ty} {K : KeyTy} {a v : Val F}, Is Γ T (.map K E) → ¬ DecodesO Γ cfg true sel T {} a t v := by
      intro T E n a v hs hd
      rcases (decodesO_map hs).mp hd with ⟨h1, _⟩ | ⟨ts, vs, h1, _⟩
      · exact nl (.inl h1)
      · exact object_open h1 no
    induction T generalizing a v with
    | bool =>
      rcases (decodesO_simple (R := BoolRel true) fun k => by cases k <;> simp only [DecodesN]).mp hd with hd | ⟨hd, _⟩
      · exact absurd (boolLit_text hd) nl
      · cases hd
    | str =>
      rcases (decodesO_simple (R := StrRel) fun k => by cases k <;> simp only [DecodesN]).mp hd with ⟨hd, _⟩ | ⟨s', hs', hd⟩
      · exact absurd (.inl hd) nl
      · rw [Props.C13_denotation_unique hs' h] at hd
        exact (decodesO_simple (R := StrRel) fun k => by cases k <;> simp only [DecodesN]).mpr (.inr ⟨s, h', hd⟩)
    | int w =>
      rcases (decodesO_simple (R := IntRel (IntLit w.bits)) fun k => by cases k <;> simp only [DecodesN]).mp hd with ⟨hd, _⟩ | ⟨u, z, hu, _, hd⟩
      · exact absurd (.inl hd) nl
      · rw [if_neg (by simp)] at hd
        exact absurd (hd ▸ number_of_intLit hu) nn
    | uint w =>
      rcases (decodesO_simple (R := IntRel (UintLit w.bits)) fun k => by cases k <;> simp only [DecodesN]).mp hd with ⟨hd, _⟩ | ⟨u, z, hu, _, hd⟩
      · exact absurd (.inl hd) nl
      · rw [if_neg (by simp)] at hd
        exact absurd (hd ▸ number_of_uintLit hu) nn
    | float32 =>
      rcases (decodesO_simple (R := FloatRel cfg.ops32) fun k => by cases k <;> simp only [DecodesN]).mp hd with ⟨hd, _⟩ | ⟨f, hf, _⟩
      · exact absurd (.inl hd) nl
      · exact absurd hf nn
    | float64 =>
      rcases (decodesO_simple (R := FloatRel cfg.ops64) fun k => by cases k <;> simp only [DecodesN]).mp hd with ⟨hd, _⟩ | ⟨f, hf, _⟩
      · exact absurd (.inl hd) nl
      · exact absurd hf nn
    | number => exact absurd rfl (hi he _ hT).1
    | raw => exact absurd rfl (hv _ hT).1
    | any =>
      obtain ⟨j, g, hj, hg⟩ := (decodesO_simple (R := AnyRel cfg) fun k => by cases k <;> simp only [DecodesN]).mp hd
      exact (decodesO_simple (R := AnyRel cfg) fun k => by cases k <;> simp only [DecodesN]).mpr
        ⟨j, g, alike_value (.str _ _ s he h h') hj, hg⟩
    | ptr T ih =>
      rcases decodesO_ptr.mp hd with ⟨hd, _⟩ | ⟨_, x, hx, rfl⟩
      · exact absurd (.inl hd) nl
      · exact decodesO_ptr.mpr (.inr ⟨fun h => nl' (.inl h), x, ih (hP.ptr _ hT) hx, rfl⟩)
    | slice T ih => exact absurd hd (slice hT (.slice T))
    | array k T ih => exact absurd hd (array (.array k T))
    | map K T ih => exact absurd hd (map (.map K T))
    | named i =>
      cases hdef : Γ.defn i with
      | slice T => exact absurd hd (slice hT (.named i _ hdef))
      | array k T => exact absurd hd (array (.named i _ hdef))
      | map K T => exact absurd hd (map (.named i _ hdef))
      | struct fs =>
        rcases (decodesO_struct hdef).mp hd with ⟨h1, _⟩ | ⟨ms, h1, _⟩
        · exact absurd (.inl h1) nl
        · exact absurd no (object_open h1)
    | jsonUnmarshaler i => exact absurd rfl ((hv _ hT).2 i)
    | textUnmarshaler i =>
      rcases (decodesO_simple (R := TextRel (Γ.unmarshalText i)) fun k => by cases k <;> simp only [DecodesN]).mp hd with ⟨hd, _⟩ | ⟨s', hs', hd⟩
      · exact absurd (.inl hd) nl
      · rw [Props.C13_denotation_unique hs' h] at hd
        exact (decodesO_simple (R := TextRel (Γ.unmarshalText i)) fun k => by cases k <;> simp only [DecodesN]).mpr (.inr ⟨s, h', hd⟩)
    | unsupported =>
      obtain ⟨k, hd⟩ := hd
      simp only [DecodesN] at hd
  | array t t' ts ts' h h' hn hs ih =>
    have op := array_open h
    have op' := array_open h'
    have sol := alike_elements hn hs
    have partner : ∀ {i : Nat} {u' : List Byte}, ts'[i]? = some u' → ∃ u, ts[i]? = some u := by
      intro i u' hu'
      have hlt : i < ts.length := by
        rw [hn]
        exact (List.getElem?_eq_some_iff.mp hu').1
      exact ⟨_, List.getElem?_eq_getElem hlt⟩
    have nn : t ≠ nullText := fun e => op (e ▸ notOpen_null)
    have nn' : t' ≠ nullText := fun e => op' (e ▸ notOpen_null)
    have slice : ∀ {T E : Ty} {o : DecOpts} {a v : Val F}, P T → Is Γ T (.slice E) → DecodesO Γ cfg true sel T o a t v → DecodesO Γ cfg true sel T o a t' v := by
      intro T E o a v hT hsl hd
      rcases (decodesO_slice hsl).mp hd with ⟨h1, _⟩ | ⟨_, b, _, _, _, h1, _⟩ | ⟨us, vs, h1, h2, h3⟩
      · exact absurd h1 nn
      · exact absurd (h1 ▸ notOpen_quotes) op
      · obtain rfl := arrayOf_same h h1 sol (fun u hu => by
          obtain ⟨x, _, hx⟩ := each_left h2 hu
          exact decodesO_solid hx)
        exact (decodesO_slice hsl).mpr (.inr (.inr ⟨ts', vs, h', each_exchange hn h2 fun i u u' b hu hu' hb =>
          ih i u u' hu hu' (hP.slice _ _ hT hsl) (fun _ => rfl) hb, h3⟩))
    have array : ∀ {T E : Ty} {n : Nat} {o : DecOpts} {a v : Val F}, P T → Is Γ T (.array n E) → DecodesO Γ cfg true sel T o a t v →
        DecodesO Γ cfg true sel T o a t' v := by
      intro T E n o a v hT hsl hd
      rcases (decodesO_array hsl).mp hd with ⟨h1, _⟩ | ⟨us, vs, h1, hvs, hlen, h2, h3, h4⟩
      · exact absurd h1 nn
      · obtain rfl := arrayOf_same h h1 sol (fun u hu => by
          obtain ⟨i, hi⟩ := List.getElem?_of_mem hu
          by_cases hlt : n ≤ i
          · exact .value (h2 i u hi hlt).choose_spec
          · exact decodesO_solid (h3 i u _ hi (List.getElem?_eq_getElem (by omega))))
        refine (decodesO_array hsl).mpr (.inr ⟨ts', vs, h', hvs, hlen, fun i u' hu' hle => ?_, fun i u' x hu' hx => ?_, fun i x hle hx => h4 i x (by omega) hx⟩)
        · obtain ⟨u, hu⟩ := partner hu'
          obtain ⟨j, hj⟩ := h2 i u hu hle
          exact ⟨j, alike_value (hs i u u' hu hu') hj⟩
        · obtain ⟨u, hu⟩ := partner hu'
          exact ih i u u' hu hu' (hP.array _ _ _ hT hsl) (fun _ => rfl) (h3 i u x hu hx)
    have map : ∀ {T E : Ty} {K : KeyTy} {o : DecOpts} {a v : Val F}, Is Γ T (.map K E) → ¬ DecodesO Γ cfg true sel T o a t v := by
      intro T E n o a v hs hd
      rcases (decodesO_map hs).mp hd with ⟨h1, _⟩ | ⟨ts, vs, h1, _⟩
      · exact nn h1
      · exact array_not_object h h1
    induction T generalizing a v with
    | raw => exact absurd rfl (hv _ hT).1
    | any =>
      obtain ⟨j, g, hj, hg⟩ := (decodesO_simple (R := AnyRel cfg) fun k => by cases k <;> simp only [DecodesN]).mp hd
      exact (decodesO_simple (R := AnyRel cfg) fun k => by cases k <;> simp only [DecodesN]).mpr
        ⟨j, g, alike_value (.array _ _ _ _ h h' hn hs) hj, hg⟩
    | ptr T ih =>
      rcases decodesO_ptr.mp hd with ⟨hd, _⟩ | ⟨_, x, hx, rfl⟩
      · exact absurd hd nn
      · exact decodesO_ptr.mpr (.inr ⟨nn', x, ih (hP.ptr _ hT) hx, rfl⟩)
    | slice T ih => exact slice hT (.slice T) hd
    | array k T ih => exact array hT (.array k T) hd
    | map K T ih => exact absurd hd (map (.map K T))
    | named i =>
      cases hdef : Γ.defn i with
      | slice T => exact slice hT (.named i _ hdef) hd
      | array k T => exact array hT (.named i _ hdef) hd
      | map K T => exact absurd hd (map (.named i _ hdef))
      | struct fs =>
        rcases (decodesO_struct hdef).mp hd with ⟨h1, _⟩ | ⟨ms, h1, _⟩
        · exact absurd h1 nn
        · exact absurd h1 (array_not_object h)
    | jsonUnmarshaler i => exact absurd rfl ((hv _ hT).2 i)
    | _ => exact absurd (scalar_notOpen (by simp only [Scalar]) hd) op
  | object t t' ms ms' h h' hn hk hs ih =>
    have op := object_open h
    have op' := object_open h'
    have sol := alike_members hn hk hs
    have nn : t ≠ nullText := fun e => op (e ▸ notOpen_null)
    have nn' : t' ≠ nullText := fun e => op' (e ▸ notOpen_null)
    have slice : ∀ {T E : Ty} {o : DecOpts} {a v : Val F}, Is Γ T (.slice E) → ¬ DecodesO Γ cfg true sel T o a t v := by
      intro T E o a v hsl hd
      rcases (decodesO_slice hsl).mp hd with ⟨h1, _⟩ | ⟨_, b, _, _, _, h1, _⟩ | ⟨us, vs, h1, h2, h3⟩
      · exact nn h1
      · exact op (h1 ▸ notOpen_quotes)
      · exact array_not_object h1 h
    have array : ∀ {T E : Ty} {n : Nat} {o : DecOpts} {a v : Val F}, Is Γ T (.array n E) → ¬ DecodesO Γ cfg true sel T o a t v := by
      intro T E n o a v hsl hd
      rcases (decodesO_array hsl).mp hd with ⟨h1, _⟩ | ⟨us, vs, h1, hvs, hlen, h2, h3, h4⟩
      · exact nn h1
      · exact array_not_object h1 h
    have map : ∀ {T E : Ty} {K : KeyTy} {o : DecOpts} {a v : Val F}, P T → Is Γ T (.map K E) → DecodesO Γ cfg true sel T o a t v →
        DecodesO Γ cfg true sel T o a t' v := by
      intro T E K o a v hT hm hd
      rcases (decodesO_map hm).mp hd with ⟨h1, _⟩ | ⟨us, xs, h1, h2, h3⟩
      · exact absurd h1 nn
      · obtain rfl := objectOf_same h h1 sol (fun u hu => by
          obtain ⟨x, _, hx⟩ := each_left h2 hu
          refine ⟨?_, decodesO_solid hx.2⟩
          rcases keyRel_text hx.1 with ⟨s, hs⟩ | ⟨_, hs⟩
          · exact .str hs
          · exact .literal (.inl hs))
        refine (decodesO_map hm).mpr (.inr ⟨ms', xs, h', each_exchange hn h2 fun i m m' b hm1 hm1' hb => ⟨?_, ?_⟩, h3⟩)
        · obtain ⟨s, h1, h2, h3⟩ := hk i m m' hm1 hm1'
          exact keyRel_alike (fun he => (hi he T hT).2.2 K E hm) h1 h2 h3 hb.1
        · exact ih i m m' hm1 hm1' (hP.map _ _ _ hT hm) (fun _ => rfl) hb.2
    induction T generalizing a v with
    | raw => exact absurd rfl (hv _ hT).1
    | any =>
      obtain ⟨j, g, hj, hg⟩ := (decodesO_simple (R := AnyRel cfg) fun k => by cases k <;> simp only [DecodesN]).mp hd
      exact (decodesO_simple (R := AnyRel cfg) fun k => by cases k <;> simp only [DecodesN]).mpr
        ⟨j, g, alike_value (.object _ _ _ _ h h' hn hk hs) hj, hg⟩
    | ptr T ih =>
      rcases decodesO_ptr.mp hd with ⟨hd, _⟩ | ⟨_, x, hx, rfl⟩
      · exact absurd hd nn
      · exact decodesO_ptr.mpr (.inr ⟨nn', x, ih (hP.ptr _ hT) hx, rfl⟩)
    | slice T ih => exact absurd hd (slice (.slice T))
    | array k T ih => exact absurd hd (array (.array k T))
    | map K T ih => exact map hT (.map K T) hd
    | named i =>
      cases hdef : Γ.defn i with
      | slice T => exact absurd hd (slice (.named i _ hdef))
      | array k T => exact absurd hd (array (.named i _ hdef))
      | map K T => exact map hT (.named i _ hdef) hd
      | struct fs =>
        rcases (decodesO_struct hdef).mp hd with ⟨h1, _⟩ | ⟨us, h1, h2⟩
        · exact absurd h1 nn
        · obtain rfl := objectOf_same h h1 sol (fun m hm => by
            obtain ⟨_, _, h⟩ := visits_mem h2 hm
            exact memberRel_str (fun _ _ _ _ _ h => decodesO_solid h) h)
          refine (decodesO_struct hdef).mpr (.inr ⟨ms', h', visits_exchange hn (fun k m m' x y hm hm' hG => ?_) h2⟩)
          obtain ⟨s, h1, h2, h3⟩ := hk k m m' hm hm'
          obtain ⟨key, hkey, hG⟩ := hG
          obtain rfl := Props.C13_denotation_unique h1 hkey
          refine ⟨s, h2, ?_⟩
          rcases hG with ⟨j, f, hj, hf, hG⟩ | ⟨hj, hst, ⟨jv, hjv⟩, hx⟩
          · refine .inl ⟨j, f, hj, hf, atPath_mono (fun x y hxy => ?_) hG⟩
            refine ih k m m' hm hm' (hP.field i fs f hT hdef (List.mem_of_getElem? hf)) (fun he => ?_) hxy
            rw [hq he i fs f hT hdef (List.mem_of_getElem? hf)]
          · exact .inr ⟨hj, hst, ⟨jv, alike_value (hs k m m' hm hm') hjv⟩, hx⟩
    | jsonUnmarshaler i => exact absurd rfl ((hv _ hT).2 i)
    | _ => exact absurd (scalar_notOpen (by simp only [Scalar]) hd) op

end

end Jzon
