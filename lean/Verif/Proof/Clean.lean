import Verif.Proof.Marshal
import Verif.Proof.Lax

/-!
# Typed encoding: the texts are JSON
-/

set_option linter.unusedSimpArgs false

namespace Jzon

open Spec

section
variable {F : Type} {Γ : TyEnv F} {E : EncEnv F} {html : Bool}

theorem str_plain {b : List Byte} (h : ∀ c ∈ b, 0x20 ≤ c ∧ c ≠ 0x22 ∧ c ≠ 0x5C) : Str (inQuotes b) b := ⟨b, strBody_plain h, rfl⟩

theorem stringText_str {s t : List Byte} (h : StringText html s t) : ∃ x, Str t x := by
  obtain ⟨x, _, h, _⟩ := h
  exact ⟨x, h⟩

theorem value_num {t : List Byte} (h : Number t) : IsValue t := ⟨_, .num t h⟩

theorem boolText_value {q : Bool} {v : Val F} {t : List Byte} (h : BoolText q v t) : IsValue t := by
  obtain ⟨b, _, rfl⟩ := h
  have := plain_lit (u := if b then trueText else falseText) (by cases b <;> simp)
  cases q
  · exact this.1
  · exact value_str this.2

theorem intText_value {fits : Int → Prop} {q : Bool} {v : Val F} {t : List Byte} (h : IntText fits q v t) : IsValue t := by
  obtain ⟨z, _, _, rfl⟩ := h
  cases q
  · exact value_num (decimalInt_number z)
  · exact value_str (str_number (decimalInt_number z))

theorem joined_items {ts : List (List Byte)} (h : ts ≠ []) : Items (joined ts) ts := by
  have w0 : Ws [] := by intro c hc; cases hc
  induction ts with
  | nil => exact absurd rfl h
  | cons t ts ih =>
    cases ts with
    | nil => simpa [joined] using Items.one [] t [] w0 w0
    | cons u us => simpa [joined] using Items.cons [] t [] (joined (u :: us)) (u :: us) w0 w0 (ih (by simp))

theorem bracketed_enclosed (o c : Byte) (ts : List (List Byte)) : Enclosed o c (bracketed o c ts) ts := by
  cases ts with
  | nil => exact .empty [] (by intro c hc; cases hc)
  | cons t ts => exact .items _ _ (joined_items (by simp))

theorem bracketed_array {ts : List (List Byte)} (h : ∀ t ∈ ts, IsValue t) : IsValue (bracketed 0x5B 0x5D ts) :=
  arrayOf_value (bracketed_enclosed _ _ ts) h

/-- A member with a value. -/
def IsMember (t : List Byte) : Prop := ∃ k u s, Str k s ∧ IsValue u ∧ t = k ++ 0x3A :: u

theorem joined_members {ts : List (List Byte)} (hn : ts ≠ []) (h : ∀ t ∈ ts, IsMember t) : ∃ ms, Members (joined ts) ms := by
  have w0 : Ws [] := by intro c hc; cases hc
  induction ts with
  | nil => exact absurd rfl hn
  | cons t ts ih =>
    obtain ⟨k, u, s, hk, ⟨j, hj⟩, rfl⟩ := h t (by simp)
    cases ts with
    | nil => exact ⟨_, by simpa [joined] using Members.single [] k [] [] u [] s j w0 hk w0 w0 hj w0⟩
    | cons t' ts' =>
      obtain ⟨ms, hm⟩ := ih (by simp) (fun t ht => h t (by simp [ht]))
      exact ⟨_, by simpa [joined] using Members.more [] k [] [] u [] (joined (t' :: ts')) s j ms w0 hk w0 w0 hj w0 hm⟩

theorem bracketed_object {ts : List (List Byte)} (h : ∀ t ∈ ts, IsMember t) : IsValue (bracketed 0x7B 0x7D ts) := by
  cases ts with
  | nil => exact ⟨_, .objEmpty [] (by intro c hc; cases hc)⟩
  | cons t ts =>
    obtain ⟨ms, hm⟩ := joined_members (by simp) h
    exact ⟨_, .obj _ _ hm⟩

theorem keyText_str {k : KeyTy} {key : Key} {t : List Byte} (h : KeyText E html k key t) : ∃ s, Str t s := by
  cases k with
  | str => obtain ⟨s, _, h⟩ := h; exact stringText_str h
  | int w => obtain ⟨z, _, _, rfl⟩ := h; exact str_number (decimalInt_number z)
  | uint w => obtain ⟨z, _, _, rfl⟩ := h; exact str_number (decimalInt_number z)
  | text i => obtain ⟨s, _, h⟩ := h; exact stringText_str h

theorem each_mem_right {A B : Type} {R : A → B → Prop} {as : List A} {bs : List B} (h : Each R as bs) {b : B} (hb : b ∈ bs) :
    ∃ a ∈ as, R a b := by
  induction h with
  | nil => cases hb
  | cons h _ ih =>
    rcases List.mem_cons.mp hb with rfl | hb
    · exact ⟨_, by simp, h⟩
    · obtain ⟨a, ha, hr⟩ := ih hb; exact ⟨a, by simp [ha], hr⟩

/-- The name of a member. -/
def MemberName (html : Bool) (k : List Byte) : Prop := (∃ s, StringText html s k) ∨ ∃ z, k = inQuotes (decimalInt z)

/-- A property of texts that the texts of all values have, if the ready-made texts have it. -/
structure Texts (E : EncEnv F) (html : Bool) (P : List Byte → Prop) : Prop where
  null : P nullText
  bool : ∀ q b : Bool, P (quotedIf q (if b then trueText else falseText))
  str : ∀ s t, StringText html s t → P t
  int : ∀ q z, P (quotedIf q (decimalInt z))
  num : ∀ f small big t, FloatLaws f small big → FloatText f small big t → P t
  base64 : ∀ bytes : List Byte, P (inQuotes (if bytes = [] then [] else E.base64 bytes))
  array : ∀ ts, (∀ t ∈ ts, P t) → P (bracketed 0x5B 0x5D ts)
  object : ∀ ts, (∀ t ∈ ts, ∃ k u, MemberName html k ∧ P u ∧ t = k ++ 0x3A :: u) → P (bracketed 0x7B 0x7D ts)

theorem texts_value (hE : EncLaws E) : Texts E html IsValue where
  null := value_null
  bool q b := boolText_value (F := Nat) ⟨b, rfl, rfl⟩
  str s t h := value_str (stringText_str h)
  int q z := intText_value (F := Nat) (fits := fun _ => True) ⟨z, rfl, trivial, rfl⟩
  num f small big t hf ht := value_num (floatText_number hf ht)
  base64 bytes := by
    refine value_str ⟨_, str_plain ?_⟩
    split
    · simp
    · exact hE.base64 bytes
  array ts h := bracketed_array h
  object ts h := bracketed_object fun t ht => by
    obtain ⟨k, u, hk, hu, rfl⟩ := h t ht
    rcases hk with ⟨s, hs⟩ | ⟨z, rfl⟩
    · obtain ⟨s, hs⟩ := stringText_str hs; exact ⟨k, u, s, hs, hu, rfl⟩
    · obtain ⟨s, hs⟩ := str_number (decimalInt_number z); exact ⟨_, u, s, hs, hu, rfl⟩

variable {P : List Byte → Prop}

section
variable (hX : Texts E html P)
include hX

theorem boolText_holds {q : Bool} {v : Val F} {t : List Byte} (h : BoolText q v t) : P t := by
  obtain ⟨b, _, rfl⟩ := h
  exact hX.bool q b

theorem strText_holds {inner q : Bool} {v : Val F} {t : List Byte} (h : StrText inner html q v t) : P t := by
  obtain ⟨s, _, h⟩ := h
  cases q
  · exact hX.str _ _ h
  · obtain ⟨u, _, h⟩ := h
    exact hX.str _ _ h

theorem intText_holds {fits : Int → Prop} {q : Bool} {v : Val F} {t : List Byte} (h : IntText fits q v t) : P t := by
  obtain ⟨z, _, _, rfl⟩ := h
  exact hX.int q z

theorem numText_holds {arg : F → FloatArg} {q : Bool} {v : Val F} {t : List Byte} (h : NumText arg q v t) : P t := by
  obtain ⟨f, small, big, _, _, _, hf, ht⟩ := h
  exact hX.num _ _ _ _ hf ht

theorem numberText_holds {q : Bool} {s t : List Byte} (h : NumberText q (.str s : Val F) t) (hs : s = [] ∨ P s) : P t := by
  obtain ⟨s', h1, rfl⟩ := h
  cases h1
  split
  · exact (show quotedIf false (decimalInt 0) = [0x30] by decide +kernel) ▸ hX.int false 0
  · rename_i h; exact hs.resolve_left h

omit hX in
theorem keyText_name {k : KeyTy} {key : Key} {t : List Byte} (h : KeyText E html k key t) : MemberName html t := by
  cases k with
  | str => obtain ⟨s, _, h⟩ := h; exact .inl ⟨_, h⟩
  | int w => obtain ⟨z, _, _, rfl⟩ := h; exact .inr ⟨z, rfl⟩
  | uint w => obtain ⟨z, _, _, rfl⟩ := h; exact .inr ⟨z, rfl⟩
  | text i => obtain ⟨s, _, h⟩ := h; exact .inl ⟨_, h⟩

theorem bytesText_holds {q : Bool} {v : Val F} {t : List Byte} (h : BytesText E.base64 q v t) : P t := by
  rcases h with ⟨_, rfl⟩ | ⟨bytes, _, rfl⟩
  · exact hX.null
  · exact hX.base64 bytes

theorem sliceText_holds {R : TextRel' F} {q : Bool} {v : Val F} {t : List Byte} (h : SliceText R q v t)
    (hR : ∀ vs, v = .slice vs → ∀ x ∈ vs, ∀ t, R false x t → P t) : P t := by
  rcases h with ⟨_, rfl⟩ | ⟨vs, ts, rfl, he, rfl⟩
  · exact hX.null
  · refine hX.array _ fun t ht => ?_
    obtain ⟨x, hx, h⟩ := each_mem_right he ht
    exact hR vs rfl x hx t h

theorem arrayText_holds {R : TextRel' F} {q : Bool} {v : Val F} {n : Nat} {t : List Byte} (h : ArrayText n R q v t)
    (hR : ∀ vs, v = .arr vs → ∀ x ∈ vs, ∀ t, R false x t → P t) : P t := by
  obtain ⟨vs, ts, rfl, _, he, rfl⟩ := h
  refine hX.array _ fun t ht => ?_
  obtain ⟨x, hx, h⟩ := each_mem_right he ht
  exact hR vs rfl x hx t h

theorem mapText_holds {k : KeyTy} {R : TextRel' F} {q : Bool} {v : Val F} {t : List Byte} (h : MapText (KeyText E html k) R q v t)
    (hR : ∀ m, v = .map m → ∀ k x, m k = some x → ∀ t, R false x t → P t) : P t := by
  rcases h with ⟨_, rfl⟩ | ⟨m, keys, ts, rfl, _, _, he, rfl⟩
  · exact hX.null
  · refine hX.object _ fun t ht => ?_
    obtain ⟨key, _, x, kt, xt, hm, hk, hx, rfl⟩ := each_mem_right he ht
    exact ⟨kt, xt, keyText_name hk, hR m rfl key x hm xt hx, rfl⟩

omit hX in
theorem fieldTexts_named {Em : Ty → Val F → Bool → Prop} {R : Ty → TextRel' F} {v : Val F} {fs : List EncField} {ts : List (List Byte)}
    (h : FieldTexts html Em R v fs ts) (hR : ∀ f ∈ fs, ∀ x, Reaches f.path v x → ∀ q t, R f.ty q x t → P t) :
    ∀ t ∈ ts, ∃ k u, MemberName html k ∧ P u ∧ t = k ++ 0x3A :: u := by
  induction h with
  | nil => simp
  | missing f fs ts _ _ ih => exact ih fun g hg => hR g (by simp [hg])
  | omitted f fs ts _ _ _ _ _ ih => exact ih fun g hg => hR g (by simp [hg])
  | written f fs ts x k u h _ hk hu _ ih =>
    intro t ht
    rcases List.mem_cons.mp ht with rfl | ht
    · exact ⟨k, u, .inl ⟨_, hk⟩, hR f (by simp) x h _ u hu, rfl⟩
    · exact ih (fun g hg => hR g (by simp [hg])) t ht

theorem structText_holds {Em : Ty → Val F → Bool → Prop} {R : Ty → TextRel' F} {fs : List EncField} {q : Bool} {v : Val F} {t : List Byte}
    (h : StructText html Em R fs q v t) (hR : ∀ f ∈ fs, ∀ x, Reaches f.path v x → ∀ q t, R f.ty q x t → P t) : P t := by
  obtain ⟨vs, ts, rfl, h, rfl⟩ := h
  exact hX.object _ (fieldTexts_named h hR)

theorem methodText_holds {f : Val F → Except EncErr (List Byte)} {q : Bool} {v : Val F} {t : List Byte} (h : MethodText html f q v t) :
    P t := by
  obtain ⟨s, _, h⟩ := h
  exact hX.str _ _ h

end

/-- A property that goes from a value to its parts and ensures that ready-made texts have the property `P`. -/
structure Inherits (Γ : TyEnv F) (E : EncEnv F) (P : List Byte → Prop) (C : Ty → Val F → Prop) : Prop where
  number : ∀ s, C .number (.str s) → s = [] ∨ P s
  raw : ∀ s, C .raw (.str s) → P s
  any : ∀ g, C .any (.any g) → NumbersAny (fun s => s = [] ∨ P s) g
  anys : ∀ l : List (GoVal F), C .any (.any (.arr l)) → C (.slice .any) (.slice (l.map Val.any))
  anyMap : ∀ m : List Byte → Option (GoVal F), C .any (.any (.obj m)) → C (.map .str .any) (.map (anyMap m))
  ptr : ∀ T v, C (.ptr T) (.ptr v) → C T v
  slice : ∀ T U vs, Is Γ T (.slice U) → C T (.slice vs) → ∀ v ∈ vs, C U v
  arr : ∀ T U n vs, Is Γ T (.array n U) → C T (.arr vs) → ∀ v ∈ vs, C U v
  map : ∀ T U K m, Is Γ T (.map K U) → C T (.map m) → ∀ k v, m k = some v → C U v
  field : ∀ i fs v, Γ.defn i = .struct fs → C (.named i) v → ∀ f ∈ E.fields i, ∀ x, Reaches f.path v x → C f.ty x
  json : ∀ i v t, C (.jsonUnmarshaler i) v → E.marshalJSON i v = .ok t → P t
  underJson : ∀ i v, C (.jsonUnmarshaler i) v → E.recv i = .pointer → C (E.under i) v
  underText : ∀ i v, C (.textUnmarshaler i) v → E.recv i = .pointer → C (E.under i) v

variable {C : Ty → Val F → Prop}

theorem preferred_holds (hX : Texts E html P) (hC : Inherits Γ E P C) {T : Ty} {R : TextRel' F} {q : Bool} {v : Val F} {t : List Byte} (hc : C T v)
    (h : Preferred E html T R q v t) (hR : R q v t → P t) : P t := by
  unfold Preferred at h
  cases T <;> simp only at h <;> try (exact hR h)
  · split at h
    · exact hC.json _ _ t hc h
    · exact hR h
  · split at h
    · exact methodText_holds hX h
    · exact hR h

theorem sliceTextOf_holds (hX : Texts E html P) (hC : Inherits Γ E P C) {T U : Ty} {R : TextRel' F} {q : Bool} {v : Val F} {t : List Byte} (hT : Is Γ T (.slice U))
    (hc : C T v) (h : SliceTextOf E html U R q v t) (hR : ∀ q x t, C U x → R q x t → P t) : P t := by
  unfold SliceTextOf at h
  split at h
  · exact bytesText_holds hX h
  · refine sliceText_holds hX h ?_
    rintro vs rfl x hx t ht
    have hx := hC.slice _ _ _ hT hc x hx
    exact preferred_holds hX hC hx ht fun h => hR _ _ _ hx h

theorem arrayTextOf_holds (hX : Texts E html P) (hC : Inherits Γ E P C) {T U : Ty} {n : Nat} {R : TextRel' F} {q : Bool} {v : Val F} {t : List Byte} (hT : Is Γ T (.array n U))
    (hc : C T v) (h : ArrayText n (Preferred E html U R) q v t) (hR : ∀ q x t, C U x → R q x t → P t) : P t := by
  refine arrayText_holds hX h ?_
  rintro vs rfl x hx t ht
  have hx := hC.arr _ _ _ _ hT hc x hx
  exact preferred_holds hX hC hx ht fun h => hR _ _ _ hx h

theorem mapTextOf_holds (hX : Texts E html P) (hC : Inherits Γ E P C) {T U : Ty} {K : KeyTy} {R : TextRel' F} {q : Bool} {v : Val F} {t : List Byte} (hT : Is Γ T (.map K U))
    (hc : C T v) (h : MapTextOf E html K R q v t) (hR : ∀ q x t, C U x → R q x t → P t) : P t := by
  refine mapText_holds hX h.2 ?_
  rintro m rfl k x hx t ht
  exact hR _ _ _ (hC.map _ _ _ _ hT hc k x hx) ht

theorem step_holds (hX : Texts E html P) (hC : Inherits Γ E P C) {rest : Ty → TextRel' F} (hr : ∀ T q v t, C T v → (∀ i, T ≠ .jsonUnmarshaler i) → (∀ i, T ≠ .textUnmarshaler i) → rest T q v t → P t)
    (hj : ∀ i q v t, E.recv i = .pointer → C (E.under i) v → rest (.jsonUnmarshaler i) q v t → P t)
    (ht : ∀ i q v t, E.recv i = .pointer → C (E.under i) v → rest (.textUnmarshaler i) q v t → P t) (T : Ty) :
    ∀ q v t, C T v → EncodesStep E html rest T q v t → P t := by
  induction T with
  | bool => exact fun q v t _ h => boolText_holds hX h
  | str => exact fun q v t _ h => strText_holds hX h
  | int w => exact fun q v t _ h => intText_holds hX h
  | uint w => exact fun q v t _ h => intText_holds hX h
  | float32 => exact fun q v t _ h => numText_holds hX h
  | float64 => exact fun q v t _ h => numText_holds hX h
  | number =>
    intro q v t hc h
    have h' := h
    obtain ⟨s, rfl, _⟩ := h'
    exact numberText_holds hX h (hC.number s hc)
  | raw =>
    intro q v t hc h
    cases h
    exact hC.raw _ hc
  | any =>
    intro q v t hc h
    obtain ⟨g, rfl, h⟩ := h
    have hg := hC.any g hc
    cases g with
    | nil => simp only at h; subst h; exact hX.null
    | bool b => exact boolText_holds hX h
    | number l => refine numberText_holds hX h ?_; cases hg; assumption
    | float f => exact numText_holds hX h
    | str s => exact strText_holds hX h
    | arr l => exact hr _ _ _ _ (hC.anys l hc) (by simp) (by simp) h
    | obj m => exact hr _ _ _ _ (hC.anyMap m hc) (by simp) (by simp) h
  | ptr U ih =>
    intro q v t hc h
    rcases h with ⟨_, rfl⟩ | ⟨x, rfl, h⟩
    · exact hX.null
    · have hx := hC.ptr _ _ hc
      exact preferred_holds hX hC hx h fun h => ih _ _ _ hx h
  | slice U ih => exact fun q v t hc h => sliceTextOf_holds hX hC (.slice U) hc h ih
  | array n U ih => exact fun q v t hc h => arrayTextOf_holds hX hC (.array n U) hc h ih
  | map K U ih => exact fun q v t hc h => mapTextOf_holds hX hC (.map K U) hc h ih
  | jsonUnmarshaler i =>
    intro q v t hc h
    simp only [EncodesStep] at h
    split at h
    · exact hC.json _ _ _ hc h
    · rename_i hn
      have hp : E.recv i = .pointer := by cases hr : E.recv i with
        | value => exact absurd hr hn
        | pointer => rfl
      exact hj i q v t hp (hC.underJson _ _ hc hp) h
  | textUnmarshaler i =>
    intro q v t hc h
    simp only [EncodesStep] at h
    split at h
    · exact methodText_holds hX h
    · rename_i hn
      have hp : E.recv i = .pointer := by cases hr : E.recv i with
        | value => exact absurd hr hn
        | pointer => rfl
      exact ht i q v t hp (hC.underText _ _ hc hp) h
  | unsupported => exact fun q v t _ h => h.elim
  | named i => exact fun q v t hc h => hr _ _ _ _ hc (by simp) (by simp) h

theorem encodesN_holds (hX : Texts E html P) (hC : Inherits Γ E P C) (n : Nat) :
    (∀ T q v t, C T v → (∀ i, T ≠ .jsonUnmarshaler i) → (∀ i, T ≠ .textUnmarshaler i) → EncodesN Γ E html n T q v t → P t) ∧
    (∀ i q v t, C (E.under i) v → EncodesN Γ E html n (.jsonUnmarshaler i) q v t → P t) ∧
    (∀ i q v t, C (E.under i) v → EncodesN Γ E html n (.textUnmarshaler i) q v t → P t) := by
  induction n with
  | zero => exact ⟨fun _ _ _ _ _ _ _ h => h.elim, fun _ _ _ _ _ h => h.elim, fun _ _ _ _ _ h => h.elim⟩
  | succ n ih =>
    obtain ⟨ih1, ih2, ih3⟩ := ih
    have hst : ∀ T q v t, C T v → EncodesStep E html (EncodesN Γ E html n) T q v t → P t :=
      step_holds hX hC ih1 (fun i q v t _ => ih2 i q v t) (fun i q v t _ => ih3 i q v t)
    refine ⟨?_, fun i => hst _, fun i => hst _⟩
    intro T q v t hc h1 h2 h
    cases T <;> simp only [EncodesN] at h <;> try (exact hst _ _ _ _ hc h)
    · rename_i i
      cases hd : Γ.defn i <;> simp only [hd] at h
      · refine structText_holds hX h ?_
        obtain ⟨vs, _, rfl, _⟩ := h
        intro f hf x hx q t ht
        have hx := hC.field _ _ _ hd hc f hf x hx
        exact preferred_holds hX hC hx ht fun h => hst _ _ _ _ hx h
      · exact sliceTextOf_holds hX hC (.named i _ hd) hc h (hst _)
      · exact arrayTextOf_holds hX hC (.named i _ hd) hc h (hst _)
      · exact mapTextOf_holds hX hC (.named i _ hd) hc h (hst _)
    · exact absurd rfl (h1 _)
    · exact absurd rfl (h2 _)

theorem encodes_holds (hX : Texts E html P) (hC : Inherits Γ E P C) {T : Ty} {q : Bool} {v : Val F} {t : List Byte} (hc : C T v)
    (h : Encodes Γ E html T q v t) : P t := by
  obtain ⟨n, h⟩ := h
  obtain ⟨h1, h2, h3⟩ := encodesN_holds (Γ := Γ) hX hC n
  exact step_holds hX hC h1 (fun i q v t _ => h2 i q v t) (fun i q v t _ => h3 i q v t) T q v t hc h

variable {V N : List Byte → Prop}

theorem numbersAny_mono {N' : List Byte → Prop} (hN : ∀ s, N s → N' s) {g : GoVal F} (h : NumbersAny N g) : NumbersAny N' g := by
  induction h with
  | nil => exact .nil
  | bool b => exact .bool b
  | number l h => exact .number l (hN l h)
  | float f => exact .float f
  | str s => exact .str s
  | arr l _ ih => exact .arr l ih
  | obj m _ ih => exact .obj m ih

theorem numbersAny_slice {l : List (GoVal F)} (h : ∀ g ∈ l, NumbersAny N g) : ReadyMade V N Γ E (.slice .any) (.slice (l.map Val.any)) := by
  refine .slice _ .any _ (.slice _) ?_
  simp only [List.mem_map]
  rintro v ⟨g, hg, rfl⟩
  exact .any g (h g hg)

theorem numbersAny_map {m : List Byte → Option (GoVal F)} (h : ∀ k g, m k = some g → NumbersAny N g) :
    ReadyMade V N Γ E (.map .str .any) (.map (anyMap m)) := by
  refine .map _ .any .str _ (.map _ _) ?_
  intro k v hv
  cases k with
  | int z => cases hv
  | other n => cases hv
  | str s =>
    simp only [anyMap] at hv
    cases hm : m s with
    | none => rw [hm] at hv; cases hv
    | some g => rw [hm] at hv; cases hv; exact .any g (h s g hm)

theorem readyMade_slice {T U : Ty} {vs : List (Val F)} (h : ReadyMade V N Γ E T (.slice vs)) (hT : Is Γ T (.slice U)) :
    ∀ v ∈ vs, ReadyMade V N Γ E U v := by
  generalize hv : Val.slice vs = v at h
  cases h <;> try (cases hv)
  all_goals try (cases hT; done)
  · rename_i hT' h
    cases hT <;> cases hT'
    · exact h
    · rename_i h1 h2; rw [h1] at h2; cases h2; exact h
  · rename_i h1 h; cases hT with
    | named _ _ h2 => rw [h1] at h2; cases h2

theorem readyMade_arr {T U : Ty} {n : Nat} {vs : List (Val F)} (h : ReadyMade V N Γ E T (.arr vs)) (hT : Is Γ T (.array n U)) :
    ∀ v ∈ vs, ReadyMade V N Γ E U v := by
  generalize hv : Val.arr vs = v at h
  cases h <;> try (cases hv)
  all_goals try (cases hT; done)
  · rename_i hT' h
    cases hT <;> cases hT'
    · exact h
    · rename_i h1 h2; rw [h1] at h2; cases h2; exact h
  · rename_i h1 h; cases hT with
    | named _ _ h2 => rw [h1] at h2; cases h2

theorem readyMade_map {T U : Ty} {K : KeyTy} {m : Key → Option (Val F)} (h : ReadyMade V N Γ E T (.map m)) (hT : Is Γ T (.map K U)) :
    ∀ k v, m k = some v → ReadyMade V N Γ E U v := by
  generalize hv : Val.map m = v at h
  cases h <;> try (cases hv)
  all_goals try (cases hT; done)
  · rename_i hT' h
    cases hT <;> cases hT'
    · exact h
    · rename_i h1 h2; rw [h1] at h2; cases h2; exact h
  · rename_i h1 h; cases hT with
    | named _ _ h2 => rw [h1] at h2; cases h2

theorem readyMade_inherits (hV : ∀ t, V t → P t) (hN : ∀ s, N s → s = [] ∨ P s) : Inherits Γ E P (ReadyMade V N Γ E) where
  number s h := by
    cases h with
    | number _ h => exact hN s h
  raw s h := by
    cases h with
    | raw _ h => exact hV s h
  any g h := by
    cases h with
    | any _ h => exact numbersAny_mono hN h
  anys l h := by
    cases h with
    | any _ h => cases h with
      | arr _ h => exact numbersAny_slice h
  anyMap m h := by
    cases h with
    | any _ h => cases h with
      | obj _ h => exact numbersAny_map h
  ptr T v h := by
    cases h with
    | ptr _ _ h => exact h
  slice T U vs hT h := readyMade_slice h hT
  arr T U n vs hT h := readyMade_arr h hT
  map T U K m hT h := readyMade_map h hT
  field i fs v hd h f hf x hx := by
    cases h with
    | struct _ _ _ _ h => exact h f hf x hx
    | _ => rename_i hT; cases hT; rename_i hT; rw [hd] at hT; cases hT
  json i v t h := by
    cases h with
    | json _ _ h _ => exact fun ht => hV t (h t ht)
    | _ => rename_i hT; cases hT
  underJson i v h := by
    cases h with
    | json _ _ _ h => exact h
    | _ => rename_i hT; cases hT
  underText i v h := by
    cases h with
    | text _ _ h => exact h
    | _ => rename_i hT; cases hT

theorem numberOrEmpty_value (s : List Byte) (h : NumberOrEmpty s) : s = [] ∨ IsValue s := h.imp_right value_num

theorem clean_inherits : Inherits Γ E IsValue (Clean Γ E) := readyMade_inherits (fun _ h => h) numberOrEmpty_value

theorem encodes_value (hE : EncLaws E) {C : Ty → Val F → Prop} (hC : Inherits Γ E IsValue C) {T : Ty} {q : Bool} {v : Val F} {t : List Byte} (hc : C T v)
    (h : Encodes Γ E html T q v t) : IsValue t := encodes_holds (texts_value hE) hC hc h

end

end Jzon
