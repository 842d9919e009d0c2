import Verif.Proof.EncSample
import Verif.Proof.Clean
import Verif.Props.Grammar
import Verif.Props.EncInt

/-!
# C35: Marshal writes JSON; C36: omitempty; C44: Marshal ends, and fails only for a reason

`Marshal Γ E old n T v` models `Marshal` for the value `v` of type `T`; `Γ` and `E` are the declared types and the
configuration, `old` is what is left in the recycled streamer, and `n` bounds how often types are unfolded (in Go nothing
does; the error `hang` stands for a call that does not end).  `EncLaws` are the assumptions about the standard library.
-/

set_option linter.unusedSimpArgs false

namespace Jzon.Props

open Jzon Spec

section
variable {F : Type} {Γ : TyEnv F} {E : EncEnv F} {L : Nat → List Ty}

theorem isJson_value {t : List Byte} (h : IsValue t) : IsJson t := by
  obtain ⟨x, hx⟩ := h
  exact ⟨x, [], t, [], by simp, ws_nil, hx, ws_nil⟩

theorem not_valid {t : List Byte} (h : Valid sampleIt samplePools.stack t = false) (it : It) (pool : Stack) : Valid it pool t = false := by
  rw [Bool.eq_false_iff] at h ⊢
  exact fun h' => h ((C01_valid_iff_json _ _ t).mpr ((C01_valid_iff_json it pool t).mp h'))

/-- What `Marshal` writes is described, type by type, by `Encodes`. -/
theorem C35_encodes (hE : EncLaws E) {old : Streamer} {n : Nat} {T : Ty} {v : Val F} {t : List Byte}
    (h : Marshal Γ E old n T v = .ok t) : Encodes Γ E E.escapeHTML T false v t := marshal_encodes hE h

/-- The output is JSON if all ready-made texts in the value are.  What is missing to the full statement is false: see
`C35_raw_violated`, `C35_number_violated` and `C35_method_violated`. -/
theorem C35_clean_partial (hE : EncLaws E) {old : Streamer} {n : Nat} {T : Ty} {v : Val F} {t : List Byte} (hc : Clean Γ E T v)
    (h : Marshal Γ E old n T v = .ok t) (it : It) (pool : Stack) : Valid it pool t = true := by
  rw [C01_valid_iff_json]
  obtain ⟨x, hx⟩ := encodes_value hE clean_inherits hc (marshal_encodes hE h)
  exact isJson_value ⟨x, hx⟩

/-- The output is JSON for all values of types without ready-made texts. -/
theorem C35_types_partial (hE : EncLaws E) {P : Ty → Prop} (hP : NoReadyMade Γ E P) {old : Streamer} {n : Nat} {T : Ty}
    {v : Val F} {t : List Byte} (hc : P T) (h : Marshal Γ E old n T v = .ok t) (it : It) (pool : Stack) : Valid it pool t = true := by
  rw [C01_valid_iff_json]
  have hI : Inherits Γ E IsValue (fun T _ => P T) :=
    { number := fun _ h => absurd h hP.number
      raw := fun _ h => absurd h hP.raw
      any := fun _ h => absurd h hP.any
      anys := fun _ h => absurd h hP.any
      anyMap := fun _ h => absurd h hP.any
      ptr := fun T _ h => hP.ptr T h
      slice := fun T U _ hT h _ _ => hP.slice T U hT h
      arr := fun T U n _ hT h _ _ => hP.array T U n hT h
      map := fun T U K _ hT h _ _ _ => hP.map T U K hT h
      field := fun i fs _ hd h f hf _ _ => hP.field i fs hd h f hf
      json := fun i _ _ h => absurd h (hP.json i)
      underJson := fun i _ h => absurd h (hP.json i)
      underText := fun i _ h _ => hP.under i h }
  obtain ⟨x, hx⟩ := encodes_value hE hI hc (marshal_encodes hE h)
  exact isJson_value ⟨x, hx⟩

/-- `[]json.RawMessage{nil, nil}` becomes `[,]`. -/
theorem C35_raw_violated (old : Streamer) (n : Nat) (it : It) (pool : Stack) :
    ∃ (T : Ty) (v : Val (List Byte)) (t : List Byte), HasTy sampleEnv sampleMembers T v ∧
      Marshal sampleEnv sampleEnc old n T v = .ok t ∧ Valid it pool t = false := by
  refine ⟨.slice .raw, .slice [.str [], .str []], bs! "[,]", .slice _ .raw _ (.slice _) (by simp [HasTy.raw]), rfl, not_valid (by decide +kernel) it pool⟩

/-- `[]json.Number{"abc"}` becomes `[abc]`. -/
theorem C35_number_violated (old : Streamer) (n : Nat) (it : It) (pool : Stack) :
    ∃ (T : Ty) (v : Val (List Byte)) (t : List Byte), HasTy sampleEnv sampleMembers T v ∧
      Marshal sampleEnv sampleEnc old n T v = .ok t ∧ Valid it pool t = false := by
  refine ⟨.slice .number, .slice [.str (bs! "abc")], bs! "[abc]", .slice _ .number _ (.slice _) (by simp [HasTy.number]), rfl, not_valid (by decide +kernel) it pool⟩

/-- A method `MarshalJSON` may return anything. -/
theorem C35_method_violated (old : Streamer) (n : Nat) (it : It) (pool : Stack) :
    ∃ (E : EncEnv (List Byte)) (T : Ty) (v : Val (List Byte)) (t : List Byte), EncLaws E ∧ HasTy sampleEnv sampleMembers T v ∧
      Marshal sampleEnv E old n T v = .ok t ∧ Valid it pool t = false :=
  ⟨{ sampleEnc with marshalJSON := fun _ _ => .ok (bs! "}") }, .jsonUnmarshaler 0, .int 0, bs! "}",
    { entries := sampleEnc_laws.entries, finite := sampleEnc_laws.finite, shuffle := sampleEnc_laws.shuffle,
      base64 := sampleEnc_laws.base64, paths := sampleEnc_laws.paths, float32 := sampleEnc_laws.float32,
      float64 := sampleEnc_laws.float64 }, .jsonUnmarshaler _ _, rfl, not_valid (by decide +kernel) it pool⟩

/-! ## omitempty -/

theorem is_unique {T : Ty} {d d' : Def} (h : Is Γ T d) (h' : Is Γ T d') : d = d' := by
  cases h with
  | named i _ h1 => cases h' with
    | named _ _ h2 => rw [← h1, h2]
  | _ => cases h'; rfl

theorem emptyHere_ordinary {T : Ty} {x : Val F} {b : Bool} (ho : Ordinary Γ E T) (hx : HasTy Γ L T x) (h : EmptyHere Γ E T x b) :
    b = true ↔ Empty (isZero E T) x := by
  have harr : ∀ {n U}, Is Γ T (.array n U) → (b = (n == 0)) → (b = true ↔ Empty (isZero E T) x) := by
    intro n U hT hb
    subst hb
    cases hx with
    | arr _ U' n' vs hT' hn hv =>
      cases is_unique hT' hT
      constructor
      · intro h
        have : vs = [] := List.eq_nil_of_length_eq_zero (by simpa [hn] using h)
        subst this
        exact .arr
      · intro h
        cases h
        simpa using hn.symm
    | nilSlice _ _ hi => cases is_unique hi hT
    | slice _ _ _ hi => cases is_unique hi hT
    | nilMap _ _ _ hi => cases is_unique hi hT
    | map _ _ _ _ hi => cases is_unique hi hT
    | struct _ _ _ hi => cases is_unique (.named _ _ hi) hT
    | _ => cases hT
  cases T with
  | jsonUnmarshaler i => exact ho.elim
  | textUnmarshaler i => exact ho.elim
  | unsupported => exact ho.elim
  | array n U => exact harr (.array _ _) h
  | named j =>
    simp only [EmptyHere] at h
    cases hd : Γ.defn j with
    | struct fs =>
      rw [hd] at h
      simp only at h
      have hf := ho.1 fs hd
      subst h
      cases hx with
      | struct _ _ vs _ _ _ =>
        constructor
        · intro h
          exact absurd (List.isEmpty_iff.mp h) hf
        · intro h; cases h
      | nilSlice _ _ hi => cases is_unique hi (.named _ _ hd)
      | slice _ _ _ hi => cases is_unique hi (.named _ _ hd)
      | arr _ _ _ _ hi => cases is_unique hi (.named _ _ hd)
      | nilMap _ _ _ hi => cases is_unique hi (.named _ _ hd)
      | map _ _ _ _ hi => cases is_unique hi (.named _ _ hd)
    | array n U => rw [hd] at h; exact harr (.named _ _ hd) h
    | slice U => rw [hd] at h; exact h
    | map K U => rw [hd] at h; exact h.1 (ho.2 K U hd)
  | map K U => exact h.1 ho
  | _ => exact h

theorem fieldTexts_mono {html : Bool} {Em Em' : Ty → Val F → Bool → Prop} {R R' : Ty → TextRel' F} {v : Val F} {fs : List EncField}
    {ts : List (List Byte)} (h : FieldTexts html Em R v fs ts)
    (he : ∀ f ∈ fs, f.omitEmpty = true → ∀ x b, Reaches f.path v x → Em f.ty x b → Em' f.ty x b)
    (hr : ∀ T q x t, R T q x t → R' T q x t) : FieldTexts html Em' R' v fs ts := by
  induction h with
  | nil => exact .nil
  | missing f fs ts h _ ih => exact .missing f fs ts h (ih fun g hg => he g (by simp [hg]))
  | omitted f fs ts x h ho hem _ ih =>
    exact .omitted f fs ts x h ho (he f (by simp) ho x _ h hem) (ih fun g hg => he g (by simp [hg]))
  | written f fs ts x k u h hem hk hu _ ih =>
    exact .written f fs ts x k u h (fun ho => he f (by simp) ho x _ h (hem ho)) hk (hr _ _ _ _ hu) (ih fun g hg => he g (by simp [hg]))

/-- The members of the text of a struct are, in order, the fields that are there (no nil pointer to an embedded struct is in
the way), without those with `omitempty` whose values are empty.  Missing: the types that are not `Ordinary`, for which this
is false, see `C36_struct_violated`, `C36_receiver_violated` and `C36_panic_violated`. -/
theorem C36_omits_partial (hE : EncLaws E) {i : Nat} {fs : List Field} (hd : Γ.defn i = .struct fs)
    (hp : ∀ f ∈ E.fields i, PathTy Γ L (.named i) f.path f.ty) (ho : ∀ f ∈ E.fields i, f.omitEmpty = true → Ordinary Γ E f.ty)
    {old : Streamer} {n : Nat} {v : Val F} {t : List Byte} (hv : HasTy Γ L (.named i) v) (h : Marshal Γ E old n (.named i) v = .ok t) :
    ∃ ts, t = bracketed 0x7B 0x7D ts ∧
      FieldTexts E.escapeHTML (fun T x b => b = true ↔ Empty (isZero E T) x) (FieldEncodes Γ E E.escapeHTML) v (E.fields i) ts := by
  obtain ⟨m, hm⟩ := marshal_encodes hE h
  cases m with
  | zero => exact hm.elim
  | succ m =>
    simp only [EncodesStep, EncodesN, hd] at hm
    obtain ⟨vs, ts, rfl, h1, rfl⟩ := hm
    refine ⟨ts, rfl, fieldTexts_mono h1 ?_ fun T q x t h => ⟨m, h⟩⟩
    intro f hf hof x b hr hem
    rcases reaches_or_missing (hp f hf) hv with hm | ⟨x', hx', hty⟩
    · have := followPath_missing hm; rw [followPath_reaches hr] at this; cases this
    · have := followPath_reaches hx'
      rw [followPath_reaches hr] at this
      cases this
      exact emptyHere_ordinary (ho f hf hof) hty hem

/-- Evaluating emptiness never panics, and nothing else does; see `C44_errors` for what else is known about errors. -/
theorem C36_no_panic_partial (hE : EncLaws E) (hD : EncDeclared Γ E L) (hj : ∀ i v, E.marshalJSON i v ≠ .error .panic)
    (ht : ∀ i v, E.marshalText i v ≠ .error .panic) {T : Ty} {v : Val F} (hv : HasTy Γ L T v) (hf : FiniteVal v) :
    ∃ N, ∀ old n, N ≤ n → Marshal Γ E old n T v ≠ .error .panic := by
  obtain ⟨N, hN⟩ := marshal_errors hE (encodable_of_hasTy (A := (· ≠ .panic)) hE hD (by simp) (by simp) (by simp)
    (fun i v e h => by rintro rfl; exact hj i v h) (fun i v e h => by rintro rfl; exact ht i v h) hv hf)
  exact ⟨N, fun old n hn h => hN old n _ hn h rfl⟩

/-- A field of a struct type without fields is left out, though its value is not empty. -/
theorem C36_struct_violated (old : Streamer) (n : Nat) :
    ∃ (E : EncEnv (List Byte)) (f : EncField) (v : Val (List Byte)), EncLaws E ∧ E.fields 9 = [f] ∧ f.omitEmpty = true ∧
      Reaches f.path v (.struct []) ∧ ¬ Empty (isZero E f.ty) (Val.struct [] : Val (List Byte)) ∧
      Marshal sampleEnv E old (n + 2) (.named 9) v = .ok (bs! "{}") := by
  refine ⟨{ sampleEnc with fields := fun i => if i = 9 then [⟨bs! "e", false, true, [.member 0], .named 2⟩] else [] },
    ⟨bs! "e", false, true, [.member 0], .named 2⟩, .struct [.struct []], ?_, rfl, rfl, .member 0 _ _ _ _ rfl (.here _), nofun, rfl⟩
  refine { sampleEnc_laws with paths := fun i f hf => ?_ }
  simp only at hf
  split at hf
  · cases List.mem_singleton.mp hf; exact ⟨_, _, rfl⟩
  · cases hf

/-- A field whose type has an encoding method with a pointer as receiver is written, though its value is zero. -/
theorem C36_receiver_violated (old : Streamer) (n : Nat) :
    ∃ (E : EncEnv (List Byte)) (f : EncField) (v : Val (List Byte)), EncLaws E ∧ E.fields 9 = [f] ∧ f.omitEmpty = true ∧
      Reaches f.path v (.int 0) ∧ Empty (isZero E f.ty) (Val.int 0 : Val (List Byte)) ∧
      Marshal sampleEnv E old (n + 2) (.named 9) v = .ok (bs! "{\"e\":7}") := by
  refine ⟨{ sampleEnc with fields := fun i => if i = 9 then [⟨bs! "e", false, true, [.member 0], .jsonUnmarshaler 2⟩] else [] },
    ⟨bs! "e", false, true, [.member 0], .jsonUnmarshaler 2⟩, .struct [.int 0], ?_, rfl, rfl, .member 0 _ _ _ _ rfl (.here _), .int, rfl⟩
  refine { sampleEnc_laws with paths := fun i f hf => ?_ }
  simp only at hf
  split at hf
  · cases List.mem_singleton.mp hf; exact ⟨_, _, rfl⟩
  · cases hf

/-- A field whose type is a string type with an encoding method panics. -/
theorem C36_panic_violated (old : Streamer) (n : Nat) :
    ∃ (E : EncEnv (List Byte)) (f : EncField) (v : Val (List Byte)), EncLaws E ∧ E.fields 9 = [f] ∧ f.omitEmpty = true ∧
      Reaches f.path v (.str (bs! "abc")) ∧ Marshal sampleEnv E old (n + 2) (.named 9) v = .error .panic := by
  refine ⟨{ sampleEnc with fields := fun i => if i = 9 then [⟨bs! "e", false, true, [.member 0], .textUnmarshaler 1⟩] else [] },
    ⟨bs! "e", false, true, [.member 0], .textUnmarshaler 1⟩, .struct [.str (bs! "abc")], ?_, rfl, rfl, .member 0 _ _ _ _ rfl (.here _), rfl⟩
  refine { sampleEnc_laws with paths := fun i f hf => ?_ }
  simp only at hf
  split at hf
  · cases List.mem_singleton.mp hf; exact ⟨_, _, rfl⟩
  · cases hf

/-! ## Errors -/

/-- `Marshal` ends, and every error has one of the allowed reasons: `Encodable Γ E A T v` says that `v` is a value of the type with
finite maps, and that the reasons for errors that occur in it (infinities and NaNs, unsupported types, failing methods) are in
`A`.  In particular there are no panics and no infinite loops, if they are not in `A`. -/
theorem C44_errors (hE : EncLaws E) {A : EncErr → Prop} {T : Ty} {v : Val F} (h : Encodable Γ E A T v) :
    ∃ N, ∀ old n e, N ≤ n → Marshal Γ E old n T v = .error e → A e := marshal_errors hE h

/-- Values of the declared types: the only errors are those for infinities, NaNs, unsupported types, and those that
methods return. -/
theorem C44_typed (hE : EncLaws E) (hD : EncDeclared Γ E L) {T : Ty} {v : Val F} (hv : HasTy Γ L T v) (hf : FiniteVal v) :
    ∃ N, ∀ old n e, N ≤ n → Marshal Γ E old n T v = .error e →
      e = .floatIsInfinity ∨ e = .floatIsNan ∨ e = .typeNotSupported ∨
      (∃ i x, E.marshalJSON i x = .error e) ∨ ∃ i x, E.marshalText i x = .error e :=
  marshal_errors hE (encodable_of_hasTy hE hD (.inl rfl) (.inr (.inl rfl)) (.inr (.inr (.inl rfl)))
    (fun i v _ h => .inr (.inr (.inr (.inl ⟨i, v, h⟩)))) (fun i v _ h => .inr (.inr (.inr (.inr ⟨i, v, h⟩)))) hv hf)

/-- If no reason for an error occurs in the value, `Marshal` succeeds. -/
theorem C44_succeeds (hE : EncLaws E) {T : Ty} {v : Val F} (h : Encodable Γ E (fun _ => False) T v) :
    ∃ N, ∀ old n, N ≤ n → ∃ t, Marshal Γ E old n T v = .ok t := by
  obtain ⟨N, hN⟩ := marshal_errors hE h
  refine ⟨N, fun old n hn => ?_⟩
  cases hm : Marshal Γ E old n T v with
  | ok t => exact ⟨t, rfl⟩
  | error e => exact (hN old n e hn hm).elim

/-! ## Examples -/

theorem sampleEnc_declared (E : EncEnv (List Byte)) (hE : E = { sampleEnc with recv := fun _ => .value }) :
    EncDeclared sampleEnv E sampleMembers := by
  subst hE
  constructor
  · intro i fs f hd hf
    match i with
    | 0 =>
      simp only [sampleEnc, List.mem_cons, List.not_mem_nil, or_false] at hf
      rcases hf with rfl | rfl | rfl <;> exact .member _ _ _ _ _ _ hd rfl (.here _)
    | 1 => cases hf
    | 2 => cases hf
    | _ + 3 =>
      simp only [sampleEnc, List.mem_cons, List.not_mem_nil, or_false] at hf
      subst hf
      exact .member _ _ _ _ _ _ hd rfl (.here _)
  · intro _; rfl
  · intro i k hi hk
    match i with
    | 1 => exact hk rfl
    | 0 => simp [sampleEnc] at hi
    | _ + 2 => simp [sampleEnc] at hi
  · intro i f hf _ j
    match i with
    | 0 =>
      simp only [sampleEnc, List.mem_cons, List.not_mem_nil, or_false] at hf
      rcases hf with rfl | rfl | rfl <;> exact ⟨nofun, nofun⟩
    | 1 => cases hf
    | 2 => cases hf
    | _ + 3 =>
      simp only [sampleEnc, List.mem_cons, List.not_mem_nil, or_false] at hf
      subst hf
      exact ⟨nofun, nofun⟩

/-- `T0{A: 0, Bs: []byte{1, 2}, Next: &T0{A: -3}}` -/
def sampleList : Val (List Byte) :=
  .struct [.int 0, .slice [.int 1, .int 2], .ptr (.struct [.int (-3), .nilSlice, .nilPtr])]

/-- The result is the text. -/
def okIs (r : Except EncErr (List Byte)) (t : List Byte) : Bool :=
  match r with
  | .ok u => u == t
  | .error _ => false

theorem of_okIs {r : Except EncErr (List Byte)} {t : List Byte} (h : okIs r t = true) : r = .ok t := by
  cases r with
  | ok u => rw [show u = t by simpa [okIs] using h]
  | error e => cases h

/-- Concrete case for `C35_types_partial`, `C36_omits_partial` and the others: `A` and `Next` are left out where they are empty, `Bs`
is not. -/
theorem sampleList_text : Marshal sampleEnv sampleEnc ⟨none, bs! "old", some .panic, true, false⟩ 5 (.named 0) sampleList =
    .ok (bs! "{\"bs\":\"AA\",\"next\":{\"A\":-3,\"bs\":null}}") := of_okIs (by decide +kernel)

theorem sampleList_hasTy : HasTy sampleEnv sampleMembers (.named 0) sampleList := by
  have hb : ∀ z : Int, 0 ≤ z → z < 2 ^ 8 → HasTy sampleEnv sampleMembers (.uint .w8) (.int z) := fun z h0 h => .uint _ _ h0 h
  have hs : ∀ x y w, HasTy sampleEnv sampleMembers (.int .w8) x → HasTy sampleEnv sampleMembers (.slice (.uint .w8)) y →
      HasTy sampleEnv sampleMembers (.ptr (.named 0)) w → HasTy sampleEnv sampleMembers (.named 0) (.struct [x, y, w]) := by
    intro x y w hx hy hw
    refine .struct 0 _ _ rfl rfl fun k v T hv hT => ?_
    match k with
    | 0 => cases hv; cases hT; exact hx
    | 1 => cases hv; cases hT; exact hy
    | 2 => cases hv; cases hT; exact hw
    | _ + 3 => cases hv
  refine hs _ _ _ (.int _ _ ⟨by decide, by decide⟩) (.slice _ _ _ (.slice _) ?_) (.ptr _ _ (hs _ _ _ (.int _ _ ⟨by decide, by decide⟩)
    (.nilSlice _ _ (.slice _)) (.nilPtr _)))
  intro v hv
  simp only [List.mem_cons, List.not_mem_nil, or_false] at hv
  rcases hv with rfl | rfl
  · exact hb _ (by decide) (by decide)
  · exact hb _ (by decide) (by decide)

theorem sampleList_finite : FiniteVal sampleList := by
  unfold sampleList
  refine .struct _ ?_
  simp only [List.mem_cons, List.not_mem_nil, or_false, forall_eq_or_imp, forall_eq]
  refine ⟨.int _, .slice _ ?_, .ptr _ (.struct _ ?_)⟩
  · simp only [List.mem_cons, List.not_mem_nil, or_false, forall_eq_or_imp, forall_eq]
    exact ⟨.int _, .int _⟩
  · simp only [List.mem_cons, List.not_mem_nil, or_false, forall_eq_or_imp, forall_eq]
    exact ⟨.int _, .nilSlice, .nilPtr⟩

/-- Concrete case for `C35_types_partial`: the types of this list. -/
theorem sampleList_types : NoReadyMade sampleEnv sampleEnc (fun T => T = .named 0 ∨ T = .int .w8 ∨ T = .slice (.uint .w8) ∨ T = .uint .w8 ∨
    T = .ptr (.named 0)) where
  raw := by simp
  number := by simp
  any := by simp
  json := by simp
  ptr T h := by simp at h; simp [h]
  slice T U hT h := by
    rcases h with rfl | rfl | rfl | rfl | rfl <;> cases hT
    · rename_i h; cases h
    · simp
  array T U n hT h := by
    rcases h with rfl | rfl | rfl | rfl | rfl <;> cases hT
    rename_i h; cases h
  map T U K hT h := by
    rcases h with rfl | rfl | rfl | rfl | rfl <;> cases hT
    rename_i h; cases h
  field i fs hd h f hf := by
    simp at h
    subst h
    simp only [sampleEnc, List.mem_cons, List.not_mem_nil, or_false] at hf
    rcases hf with rfl | rfl | rfl <;> simp
  under i h := by simp at h

/-- Concrete case for `C35_clean_partial`: a ready-made text. -/
example : Clean sampleEnv sampleEnc (.slice .raw) (.slice [.str (bs! "[true]")]) ∧
    Marshal sampleEnv sampleEnc ⟨none, [], none, false, false⟩ 5 (.slice .raw) (.slice [.str (bs! "[true]")]) = .ok (bs! "[[true]]") := by
  refine ⟨.slice _ .raw _ (.slice _) fun v hv => ?_, of_okIs (by decide +kernel)⟩
  rw [List.mem_singleton.mp hv]
  exact .raw _ (bracketed_array (ts := [bs! "true"]) fun t ht => by rw [List.mem_singleton.mp ht]; exact ⟨_, .true⟩)

/-- Concrete case for `C36_omits_partial`. -/
example : ∃ ts, bs! "{\"bs\":\"AA\",\"next\":{\"A\":-3,\"bs\":null}}" = bracketed 0x7B 0x7D ts ∧
      FieldTexts true (fun T x b => b = true ↔ Empty (isZero sampleEnc T) x) (FieldEncodes sampleEnv sampleEnc true) sampleList
        (sampleEnc.fields 0) ts := by
  refine C36_omits_partial (L := sampleMembers) sampleEnc_laws rfl ?_ ?_ sampleList_hasTy sampleList_text
  · intro f hf
    simp only [sampleEnc, List.mem_cons, List.not_mem_nil, or_false] at hf
    rcases hf with rfl | rfl | rfl <;> exact .member _ _ _ _ _ _ rfl rfl (.here _)
  · intro f hf _
    simp only [sampleEnc, List.mem_cons, List.not_mem_nil, or_false] at hf
    rcases hf with rfl | rfl | rfl <;> trivial

/-- Concrete case for `C44_typed` and `C36_no_panic_partial`. -/
example : ∃ N, ∀ old n e, N ≤ n → Marshal sampleEnv { sampleEnc with recv := fun _ => .value } old n (.named 0) sampleList = .error e →
    e = .floatIsInfinity ∨ e = .floatIsNan ∨ e = .typeNotSupported := by
  have hE : EncLaws { sampleEnc with recv := fun _ => .value } := { sampleEnc_laws with }
  obtain ⟨N, hN⟩ := C44_typed hE (sampleEnc_declared _ rfl) sampleList_hasTy sampleList_finite
  refine ⟨N, fun old n e hn h => ?_⟩
  rcases hN old n e hn h with h | h | h | ⟨i, x, h⟩ | ⟨i, x, h⟩
  · exact .inl h
  · exact .inr (.inl h)
  · exact .inr (.inr h)
  · cases h
  · cases h

/-- Concrete case for `C44_errors`: the only reason for an error is the NaN. -/
example : Encodable sampleEnv sampleEnc (· = .floatIsNan) (.slice .float64) (.slice [.float (bs! "1.5"), .float (bs! "x")]) ∧
    Marshal sampleEnv sampleEnc ⟨none, [], none, false, false⟩ 5 (.slice .float64) (.slice [.float (bs! "1.5"), .float (bs! "x")]) =
      .error .floatIsNan := by
  refine ⟨.slice _ .float64 _ (.slice _) fun v hv => ?_, rfl⟩
  simp only [List.mem_cons, List.not_mem_nil, or_false] at hv
  rcases hv with rfl | rfl
  · exact .float64 _ (by decide +kernel) (by decide +kernel)
  · exact .float64 _ (by decide +kernel) fun _ => rfl

/-- Concrete case for `C44_succeeds`: a map. -/
example : Encodable sampleEnv sampleEnc (fun _ => False) (.map .str .bool) (.map fun k => if k = .str (bs! "a") then some (.bool true) else none) := by
  refine .map _ .bool .str _ (.map _ _) ⟨[.str (bs! "a")], fun k h => ?_⟩ (fun h => absurd trivial h) (fun k v h => ?_) fun k v h => ?_
  · simp only at h
    split at h
    · rename_i hk; simp [hk]
    · cases h
  · split at h
    · rename_i hk; exact ⟨_, hk⟩
    · cases h
  · split at h
    · cases h; exact .bool _
    · cases h

end
end Jzon.Props
