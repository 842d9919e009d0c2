import Verif.Proof.Deferred
import Verif.Proof.Sample

/-!
# C67: keeping texts for later

Where a type has `json.RawMessage` instead of another type, the text is kept.  Decoding the kept texts afterwards gives the same as
decoding everything at once.
-/

namespace Jzon.Props

open Spec Jzon

section
variable {F : Type} {Γ : TyEnv F} {cfg : DecCfg F} {same : Nat → Nat → Prop}

/-- What `Unmarshal` makes of a text, starting from the zero value. -/
def Fresh (Γ : TyEnv F) (cfg : DecCfg F) (pools : Pools) (it : It) (T : Ty) (s : List Byte) (v : Val F) : Prop :=
  Unmarshal Γ cfg pools it s T (Γ.zero cfg T) = .ok v

theorem solid_trimmed {w t w2 s x x2 : List Byte} (hw : Ws w) (hw2 : Ws w2) (hx : Ws x) (hx2 : Ws x2) (ht : Solid t) (hs : Solid s)
    (he : w ++ (t ++ w2) = x ++ (s ++ x2)) : t = s := by
  refine (padded_same (r := []) (r' := []) (c := 0x2C) (c' := 0x2C) hw hw2 hx hx2 ht hs (by simp [Separates]) (by simp [Separates]) ?_).1
  have := congrArg (fun l => l ++ [(0x2C : Byte)]) he
  simpa using this

theorem unmarshal_around (hl : TypeLaws Γ cfg same) (pools : Pools) (it : It) {T : Ty} {old v : Val F} {w t w2 : List Byte} (hw : Ws w)
    (hw2 : Ws w2) (ht : Solid t) : Unmarshal Γ cfg pools it (w ++ (t ++ w2)) T old = .ok v ↔ DecodesHere Γ cfg same T old t v := by
  rw [unmarshal_iff hl]
  constructor
  · rintro ⟨x, s, x2, hx, hx2, he, h⟩
    rw [solid_trimmed hw hw2 hx hx2 ht (decodesO_solid h) he]
    exact h
  · intro h
    exact ⟨w, t, w2, hw, hw2, rfl, h⟩

theorem fresh_iff (hl : TypeLaws Γ cfg same) (pools : Pools) (it : It) {T : Ty} {v : Val F} {t : List Byte} (ht : IsValue t) :
    Fresh Γ cfg pools it T t v ↔ DecodesHere Γ cfg same T (Γ.zero cfg T) t v := by
  have := unmarshal_around hl pools it (T := T) (old := Γ.zero cfg T) (v := v) (w := []) (w2 := []) (by simp [Ws]) (by simp [Ws])
    (Solid.value ht.choose_spec)
  unfold Fresh
  simpa using this

theorem fresh_empty (hl : TypeLaws Γ cfg same) (pools : Pools) (it : It) {T : Ty} {v : Val F} : ¬ Fresh Γ cfg pools it T [] v := by
  intro h
  obtain ⟨w, t, w2, _, _, he, ht⟩ := (unmarshal_iff hl pools it).mp h
  have hn := (decodesO_solid ht).ne
  cases w with
  | nil =>
    cases t with
    | nil => exact hn rfl
    | cons _ _ => cases he
  | cons _ _ => cases he

/-- A text without repeated names and a type `T'` that is `T` with `json.RawMessage` in some places: `T` accepts the text with the
result `v` exactly if `T'` accepts it with a result to which `v` belongs, that is, from which `v` results if the kept texts are decoded. -/
theorem C67_later (hl : TypeLaws Γ cfg same) {apart : List Byte → List Byte → Prop} (ha : ∀ s s', apart s s' → Apart same cfg.caseSensitive s s')
    (pools pools' : Pools) (it it' : It) {T T' : Ty} {R : Val F → Val F → Prop} (h : Deferred Γ cfg apart (Fresh Γ cfg pools' it') T T' R)
    {data : List Byte} (hd : Around (Unrepeated apart) data) {v : Val F} :
    Unmarshal Γ cfg pools it data T (Γ.zero cfg T) = .ok v ↔
      ∃ r, Unmarshal Γ cfg pools it data T' (Γ.zero cfg T') = .ok r ∧ R r v := by
  obtain ⟨w, t, w2, hw, hw2, rfl, ht⟩ := hd
  simp only [unmarshal_around hl pools it hw hw2 (unrepeated_solid ht)]
  obtain ⟨h1, h2⟩ := deferred_main (fun T v => fresh_empty hl pools' it') (fun T s v hs => fresh_iff hl pools' it' hs)
    (fun s s' h => apart_selects hl.fold (ha s s' h)) h t ht
  exact ⟨h1 v, fun ⟨r, h3, h4⟩ => h2 r v h3 h4⟩

/-- Keeping the whole text; here names may be repeated. -/
theorem C67_text (hl : TypeLaws Γ cfg same) (pools pools' : Pools) (it it' : It) {T : Ty} {data : List Byte} (hd : Around IsValue data)
    {old v : Val F} :
    Unmarshal Γ cfg pools it data T (Γ.zero cfg T) = .ok v ↔
      ∃ s, Unmarshal Γ cfg pools it data .raw old = .ok (.str s) ∧ Fresh Γ cfg pools' it' T s v := by
  obtain ⟨w, t, w2, hw, hw2, rfl, ht⟩ := hd
  simp only [unmarshal_around hl pools it hw hw2 (Solid.value ht.choose_spec)]
  constructor
  · intro h
    exact ⟨t, decodesO_raw.mpr ⟨ht, rfl⟩, (fresh_iff hl pools' it' ht).mpr h⟩
  · rintro ⟨s, h, h'⟩
    obtain ⟨_, h⟩ := decodesO_raw.mp h
    cases h
    exact (fresh_iff hl pools' it' ht).mp h'

/-- Keeping the texts of the elements of an array; here names may be repeated. -/
theorem C67_elements (hl : TypeLaws Γ cfg same) (pools pools' : Pools) (it it' : It) {E : Ty} (hE : E ≠ .uint .w8) {data : List Byte}
    (hd : Around IsValue data) {old v : Val F} :
    Unmarshal Γ cfg pools it data (.slice E) old = .ok v ↔
      ∃ r, Unmarshal Γ cfg pools it data (.slice .raw) old = .ok r ∧
        SliceLater (fun x y => ∃ s, x = .str s ∧ Fresh Γ cfg pools' it' E s y) r v := by
  obtain ⟨w, t, w2, hw, hw2, rfl, ht⟩ := hd
  simp only [unmarshal_around hl pools it hw hw2 (Solid.value ht.choose_spec)]
  have hb : (E == .uint .w8) = false := by simpa using hE
  have elems : ∀ {ts X a} {vs : List (Val F)}, ArrayOf t ts → Each (DecodesO Γ cfg true (SelectsHere same cfg.caseSensitive) X {} a) ts vs →
      ∀ u ∈ ts, IsValue u := by
    intro ts X a vs h1 h2
    obtain ⟨x, hx⟩ := enclosed_head h1
    obtain ⟨us, hus, hv⟩ := array_texts ht hx
    obtain rfl := arrayOf_same hus h1 (fun u hu => .value (hv u hu).choose_spec) (fun u hu => by
      obtain ⟨b, _, hb⟩ := each_left h2 hu
      exact decodesO_solid hb)
    exact hv
  constructor
  · intro h
    rcases (decodesO_slice (.slice E)).mp h with ⟨rfl, rfl⟩ | ⟨h, _⟩ | ⟨ts, vs, h1, h2, rfl⟩
    · exact ⟨.nilSlice, (decodesO_slice (.slice .raw)).mpr (.inl ⟨rfl, rfl⟩), .inl ⟨rfl, rfl⟩⟩
    · rw [hb] at h
      cases h
    · have hs := elems h1 h2
      obtain ⟨rs, h3, h4⟩ := each_split (P := DecodesO Γ cfg true (SelectsHere same cfg.caseSensitive) .raw {} (Γ.zero cfg .raw))
        (Q := fun x y => ∃ s, x = .str s ∧ Fresh Γ cfg pools' it' E s y)
        (each_mono (fun u hu v h => ⟨.str u, decodesO_raw.mpr ⟨hs u hu, rfl⟩, u, rfl, (fresh_iff hl pools' it' (hs u hu)).mpr h⟩) h2)
      exact ⟨.slice rs, (decodesO_slice (.slice .raw)).mpr (.inr (.inr ⟨ts, rs, h1, h3, rfl⟩)), .inr ⟨rs, vs, rfl, rfl, h4⟩⟩
  · rintro ⟨r, h, hr⟩
    rcases (decodesO_slice (.slice .raw)).mp h with ⟨rfl, rfl⟩ | ⟨h, _⟩ | ⟨ts, rs, h1, h2, rfl⟩
    · rcases hr with ⟨_, rfl⟩ | ⟨_, _, h, _⟩
      · exact (decodesO_slice (.slice E)).mpr (.inl ⟨rfl, rfl⟩)
      · cases h
    · cases h
    · rcases hr with ⟨h, _⟩ | ⟨_, vs, h, rfl, h3⟩
      · cases h
      · cases h
        refine (decodesO_slice (.slice E)).mpr (.inr (.inr ⟨ts, vs, h1, each_mono ?_ (each_comp h2 h3), rfl⟩))
        rintro u hu v ⟨_, h4, s, rfl, h5⟩
        obtain ⟨hv, h4⟩ := decodesO_raw.mp h4
        cases h4
        exact (fresh_iff hl pools' it' hv).mp h5

end

/-! ## Cases -/

/-- ```go
type T0 struct {
    Kind string            // json:"kind"
    Data T2                // json:"data"
}
type T1 struct {
    Kind string            // json:"kind"
    Data json.RawMessage   // json:"data"
}
type T2 struct { X, Y int8 }
``` -/
def eventEnv : TyEnv (List Byte) where
  defn
    | 0 => .struct [⟨bs! "kind", false, [.member 0], .str⟩, ⟨bs! "data", false, [.member 1], .named 2⟩]
    | 1 => .struct [⟨bs! "kind", false, [.member 0], .str⟩, ⟨bs! "data", false, [.member 1], .raw⟩]
    | _ => .struct [⟨bs! "X", false, [.member 0], .int .w8⟩, ⟨bs! "Y", false, [.member 1], .int .w8⟩]
  zeroNamed
    | 0 => .struct [.str [], .struct [.int 0, .int 0]]
    | 1 => .struct [.str [], .str []]
    | _ => .struct [.int 0, .int 0]
  zeroOther _ := .other 0
  isKey _ _ := True
  unmarshalJSON _ v _ := .ok v
  unmarshalText _ v _ := .ok v

theorem eventLaws : TypeLaws eventEnv sampleCfg sampleSame where
  law32 := textOps_lawful
  law64 := textOps_lawful
  fold := asciiLib_lawful
  names i fs h := by
    match i with
    | 0 => cases h; decide
    | 1 => cases h; decide
    | n + 2 => cases h; decide

/-- The data of an event, and the events of a map of lists of events, can be kept for later. -/
theorem event_deferred (apart : List Byte → List Byte → Prop) (dec : Ty → List Byte → Val (List Byte) → Prop) :
    Deferred eventEnv sampleCfg apart dec (.named 0) (.named 1)
      (StructLater fun k => if k = 1 then TextLater (dec (.named 2)) (.struct [.int 0, .int 0]) else Eq) := by
  refine .struct 0 1 _ _ _ _ (fun _ => .named 2) (fun _ => .raw) _ (fun k => k ≠ 1) rfl rfl rfl rfl rfl ?_ ?_ rfl ?_ ?_ ?_
  · intro k hk
    refine ⟨by simp [hk], ?_⟩
    match k with
    | 0 => rfl
    | 1 => exact absurd rfl hk
    | k + 2 => rfl
  · intro k hk
    simp only [ne_eq, Decidable.not_not] at hk
    subst hk
    exact ⟨rfl, rfl⟩
  · intro n f f' hf hf'
    match n with
    | 0 =>
      cases hf
      cases hf'
      exact ⟨0, [], rfl, fun _ => rfl, fun h => absurd (by decide) h⟩
    | 1 =>
      cases hf
      cases hf'
      exact ⟨1, [], rfl, fun h => absurd rfl h, fun _ => ⟨rfl, rfl, rfl, rfl, rfl, rfl⟩⟩
    | n + 2 => cases hf
  · intro n m f g k p q hf hg hp hq hk
    simp only [ne_eq, Decidable.not_not] at hk
    subst hk
    match n, m with
    | 0, _ =>
      cases hf
      cases hp
    | 1, 0 =>
      cases hg
      cases hq
    | 1, 1 => rfl
    | 1, m + 2 => cases hg
    | n + 2, _ => cases hf
  · intro k hk
    simp only [ne_eq, Decidable.not_not] at hk
    subst hk
    simp only [if_true]
    exact .raw (.named 2)

/-- In maps from strings to lists of events, the data of every event may be kept, or the list with the name, and so on. -/
example (pools : Pools) (it : It) {data : List Byte} (hd : Around (Unrepeated (Apart sampleSame false)) data) :
    ∃ R : Val (List Byte) → Val (List Byte) → Prop, ∀ v, Unmarshal eventEnv sampleCfg pools it data (.map .str (.slice (.named 0))) .nilMap = .ok v ↔
      ∃ r, Unmarshal eventEnv sampleCfg pools it data (.map .str (.slice (.named 1))) .nilMap = .ok r ∧ R r v :=
  ⟨_, fun _ => C67_later eventLaws (fun _ _ h => h) pools pools it it
    (.map _ _ _ _ .str _ (.map _ _) (.map _ _) rfl rfl (distinct_str fun _ _ h => h.1)
      (.slice _ _ _ _ _ (.slice _) (.slice _) rfl rfl (by decide) (event_deferred _ _))) hd⟩

/-- At once, and in two steps. -/
example :
    Unmarshal eventEnv sampleCfg samplePools sampleIt (bs! "{\"data\": {\"Y\":2} ,\"kind\":\"a\"}") (.named 0) (eventEnv.zeroNamed 0) =
      .ok (.struct [.str (bs! "a"), .struct [.int 0, .int 2]]) ∧
    Unmarshal eventEnv sampleCfg samplePools sampleIt (bs! "{\"data\": {\"Y\":2} ,\"kind\":\"a\"}") (.named 1) (eventEnv.zeroNamed 1) =
      .ok (.struct [.str (bs! "a"), .str (bs! "{\"Y\":2}")]) ∧
    Fresh eventEnv sampleCfg samplePools sampleIt (.named 2) (bs! "{\"Y\":2}") (.struct [.int 0, .int 2]) := ⟨rfl, rfl, rfl⟩

/-- A text that meets the condition. -/
example : Unrepeated (Apart sampleSame false) (bs! "{\"A\":[],\"bs\":null}") := by
  have ha : Str (bs! "\"A\"") (bs! "A") := str_plain (b := bs! "A") (by decide)
  have hb : Str (bs! "\"bs\"") (bs! "bs") := str_plain (b := bs! "bs") (by decide)
  refine .object _ [(bs! "\"A\"", bs! "[]"), (bs! "\"bs\"", bs! "null")] ?_ ?_ ?_ ?_
  · exact ⟨[bs! "\"A\":[]", bs! "\"bs\":null"], .items (bs! "\"A\":[],\"bs\":null") _ (.cons [] (bs! "\"A\":[]") [] (bs! "\"bs\":null") _ (by simp [Ws]) (by simp [Ws])
      (.one [] (bs! "\"bs\":null") [] (by simp [Ws]) (by simp [Ws]))), .cons ⟨[], [], by simp [Ws], by simp [Ws], rfl⟩ (.cons ⟨[], [], by simp [Ws], by simp [Ws], rfl⟩ .nil)⟩
  · intro m hm
    simp only [List.mem_cons, List.not_mem_nil, or_false] at hm
    rcases hm with rfl | rfl
    · exact ⟨_, ha⟩
    · exact ⟨_, hb⟩
  · simp only [List.pairwise_cons, List.mem_cons, List.not_mem_nil, or_false]
    refine ⟨?_, by simp, .nil⟩
    rintro n rfl s s' hs hs'
    rw [C13_denotation_unique hs ha, C13_denotation_unique hs' hb]
    refine ⟨by decide, fun _ h => ?_⟩
    have := (asciiLib_lawful.equalFold _ _).mpr h
    revert this
    decide +kernel
  · intro m hm
    simp only [List.mem_cons, List.not_mem_nil, or_false] at hm
    rcases hm with rfl | rfl
    · exact .array _ [] (.empty [] (by simp [Ws])) (by simp)
    · exact .scalar _ ⟨_, .null⟩ nofun nofun

/-- With a repeated name the result is another one: at once, both values are taken together; a kept text is replaced. -/
example :
    Unmarshal eventEnv sampleCfg samplePools sampleIt (bs! "{\"data\":{\"X\":1},\"data\":{}}") (.named 0) (eventEnv.zeroNamed 0) =
      .ok (.struct [.str [], .struct [.int 1, .int 0]]) ∧
    (match Unmarshal eventEnv sampleCfg samplePools sampleIt (bs! "{\"data\":{\"X\":1},\"data\":{}}") (.named 1) (eventEnv.zeroNamed 1) with
      | .ok (.struct [.str s, .str t]) => s == [] && t == bs! "{}"
      | _ => false) = true ∧
    Fresh eventEnv sampleCfg samplePools sampleIt (.named 2) (bs! "{}") (.struct [.int 0, .int 0]) := ⟨rfl, by decide +kernel, rfl⟩

/-- A list of lists, kept element by element; the second element is refused by the second step and by decoding at once. -/
example :
    Unmarshal eventEnv sampleCfg samplePools sampleIt (bs! "[1, [2]]") (.slice .raw) .nilSlice = .ok (.slice [.str (bs! "1"), .str (bs! "[2]")]) ∧
    (∃ e, Unmarshal eventEnv sampleCfg samplePools sampleIt (bs! "[2]") (.int .w8) (.int 0) = .error e) ∧
    ∃ e, Unmarshal eventEnv sampleCfg samplePools sampleIt (bs! "[1, [2]]") (.slice (.int .w8)) .nilSlice = .error e := ⟨rfl, ⟨_, rfl⟩, _, rfl⟩

end Jzon.Props
