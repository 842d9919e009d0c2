import Verif.Props.RoundTrip
import Verif.Props.Typed

/-!
# C52: map keys with the methods `MarshalText` and `UnmarshalText`

`KeyTy.text i` is the type of map keys with methods number `i`; `E.under i` is the type it is defined as, and `E.recv i` says whether
`MarshalText` has the value or a pointer as receiver (Go does not let the library call the latter for a map key).
-/

set_option linter.unusedSimpArgs false

namespace Jzon.Props

open Jzon Spec

section
variable {F : Type} {Γ : TyEnv F} {E : EncEnv F} {cfg : DecCfg F} {same : Nat → Nat → Prop}

/-- What `Marshal` writes for a map with such keys: an object with one member for every entry, with the name that `TextKey`
gives for the key. -/
theorem C52_write (hE : EncLaws E) {T U : Ty} {i : Nat} (hT : Is Γ T (.map (.text i) U)) {m : Key → Option (Val F)} {old : Streamer} {n : Nat}
    {t : List Byte} (h : Marshal Γ E old n T (.map m) = .ok t) :
    ∃ keys ts, keys.Nodup ∧ (∀ k, k ∈ keys ↔ (m k).isSome) ∧
      Each (fun k u => ∃ x s kt xt, m k = some x ∧ TextKey E i k s ∧ StringText E.escapeHTML s kt ∧ Encodes Γ E E.escapeHTML U false x xt ∧
        u = kt ++ 0x3A :: xt) keys ts ∧
      t = bracketed 0x7B 0x7D ts := by
  obtain ⟨n, h⟩ := marshal_encodes hE h
  obtain ⟨n', h⟩ := enc_map hT (.inl h)
  rcases h with ⟨h, _⟩ | ⟨m', keys, ts, h1, h2, h3, h4, h5⟩
  · cases h
  · cases h1
    refine ⟨keys, ts, h2, h3, each_mono (fun k u _ hu => ?_) h4, h5⟩
    obtain ⟨x, kt, xt, g1, ⟨s, g2, g3⟩, g4, g5⟩ := hu
    exact ⟨x, s, kt, xt, g1, g2, g3, ⟨n', g4⟩, g5⟩

/-- The name of a key whose method has the value as receiver is what the method returns, unless the type is a string type. -/
theorem C52_name_method {i : Nat} (hr : E.recv i = .value) (h1 : E.under i ≠ .str) (h2 : E.under i ≠ .number) {k : Key} {s : List Byte} :
    TextKey E i k s ↔ E.marshalText i (keyAsValue k) = .ok s := by
  unfold TextKey
  cases hu : E.under i <;> first | exact absurd hu h1 | exact absurd hu h2 | simp only [hr]

/-- The name of a string is the string: the method is not called. -/
theorem C52_name_string {i : Nat} (h : E.under i = .str) {k : Key} {s : List Byte} : TextKey E i k s ↔ k = .str s := by
  unfold TextKey
  rw [h]

/-- The name of a number whose method has a pointer as receiver is its decimal representation. -/
theorem C52_name_int {i : Nat} {w : Width} (hr : E.recv i = .pointer) (h : E.under i = .int w) {k : Key} {s : List Byte} :
    TextKey E i k s ↔ ∃ z, k = .int z ∧ Fits w.bits z ∧ s = decimalInt z := by
  unfold TextKey
  rw [h, hr]

/-- If the method fails for a key of the map, `Marshal` fails. -/
theorem C52_write_error (hE : EncLaws E) {T U : Ty} {i : Nat} (hT : Is Γ T (.map (.text i) U)) (hr : E.recv i = .value) (h1 : E.under i ≠ .str)
    (h2 : E.under i ≠ .number) {m : Key → Option (Val F)} {k : Key} (hk : (m k).isSome) {e : EncErr}
    (he : E.marshalText i (keyAsValue k) = .error e) (old : Streamer) (n : Nat) (t : List Byte) : Marshal Γ E old n T (.map m) ≠ .ok t := by
  intro h
  obtain ⟨keys, ts, _, hm, hx, _⟩ := C52_write hE hT h
  have : ∀ {keys : List Key} {ts}, Each (fun k u => ∃ x s kt xt, m k = some x ∧ TextKey E i k s ∧ StringText E.escapeHTML s kt ∧
      Encodes Γ E E.escapeHTML U false x xt ∧ u = kt ++ 0x3A :: xt) keys ts → k ∈ keys → False := by
    intro keys ts hx hk
    induction hx with
    | nil => cases hk
    | cons h _ ih =>
      rcases List.mem_cons.mp hk with rfl | hk
      · obtain ⟨x, s, _, _, _, hs, _⟩ := h
        rw [(C52_name_method hr h1 h2).mp hs] at he
        cases he
      · exact ih hk
  exact this hx ((hm k).mpr hk)

/-- A map whose keys have a method with a pointer as receiver and are neither strings nor numbers is not written: not even a nil
map. -/
theorem C52_unsupported {T U : Ty} {i : Nat} (hT : Is Γ T (.map (.text i) U)) (hr : E.recv i = .pointer)
    (h1 : E.under i ≠ .str ∧ E.under i ≠ .number ∧ (∀ w, E.under i ≠ .int w) ∧ ∀ w, E.under i ≠ .uint w) (v : Val F) (old : Streamer) (n : Nat) :
    Marshal Γ E old (n + 1) T v = .error .typeNotSupported := by
  have hc : keyCoder E (.text i) = none := by
    simp only [keyCoder]
    cases hu : E.under i <;>
      first | exact absurd hu h1.1 | exact absurd hu h1.2.1 | exact absurd hu (h1.2.2.1 _) | exact absurd hu (h1.2.2.2 _) | simp [hu, hr]
  cases hT with
  | map => simp [Marshal, Streamer.value, newStreamer, Streamer.reset, Streamer.escapeHTML, encoderOf, encoderStep, mapEncoderOf, hc, notSupportedEncoder, Streamer.fail]
  | named j _ hd =>
    simp [Marshal, Streamer.value, newStreamer, Streamer.reset, Streamer.escapeHTML, encoderOf, encoderStep, unfoldedEncoder, hd, defEncoder, mapEncoderOf, hc, notSupportedEncoder, Streamer.fail]

/-- What `Unmarshal` makes of such a map: every member name goes through `UnmarshalText` of a new key, whatever the type of the
key is.  `null` is accepted as a key and gives the zero value (C30). -/
theorem C52_read (hl : TypeLaws Γ cfg same) (pools : Pools) (it : It) {data : List Byte} {T U : Ty} {i : Nat} (hT : Is Γ T (.map (.text i) U))
    {old v : Val F} :
    Unmarshal Γ cfg pools it data T old = .ok v ↔
      Around (fun t =>
        (t = nullText ∧ v = .nilMap) ∨
        ∃ ms xs, ObjectOf t ms ∧
          Each (fun m x =>
            ((∃ s y, Str m.1 s ∧ Γ.unmarshalText i (Γ.zeroOther i) s = .ok y ∧ x.1 = keyValue y) ∨ m.1 = nullText ∧ x.1 = keyValue (Γ.zeroOther i)) ∧
            Unmarshal Γ cfg pools it m.2 U (Γ.zero cfg U) = .ok x.2) ms xs ∧
          v = .map (putAll (entries old) xs))
      data := by
  rw [C30_map_partial hl pools it hT]
  simp only [KeyRel, true_and]

/-- A map comes back if `UnmarshalText` gives back the keys from their names and the values come back. -/
theorem C52_restores (hE : EncLaws E) (hl : TypeLaws Γ cfg same) (hS : SameTypes Γ E cfg) {T U : Ty} {i : Nat}
    (hT : Is Γ T (.map (.text i) U)) {m : Key → Option (Val F)}
    (hk : ∀ k x, m k = some x → ∀ s, TextKey E i k s →
      ValidUtf8 s ∧ ∃ y, Γ.unmarshalText i (Γ.zeroOther i) s = .ok y ∧ keyValue y = k)
    (hv : ∀ k x, m k = some x → Restores Γ E cfg E.escapeHTML U false x) {old : Streamer} {n : Nat} {t : List Byte}
    (h : Marshal Γ E old n T (.map m) = .ok t) (pools : Pools) (it : It) :
    Unmarshal Γ cfg pools it t T (Γ.zero cfg T) = .ok (.map m) :=
  C25_value hE hl hS (.map false T U (.text i) m hT hk hv) h pools it

end

/-! ## Cases -/

/-- The type with methods 0 is a struct with a number that is written as so many letters; 1 is a string type whose `MarshalText` puts a letter in
front of the string, and whose `UnmarshalText` takes it away; 2 is as 0, but with a pointer as receiver of `MarshalText`, 3 is as 2, but an
integer type. -/
def keyEnv : TyEnv (List Byte) := { sampleEnv with
  zeroOther
    | 1 => .str []
    | 3 => .int 0
    | _ => .other 0
  unmarshalText
    | 1, _, s => .ok (.str (s.drop 1))
    | 3, _, s => .ok (.int s.length)
    | _, _, s => .ok (.other s.length)
  isKey
    | 1, k => ∃ s, k = .str s
    | 3, k => ∃ z, k = .int z
    | _, k => ∃ n, k = .other n }

noncomputable def keyEnc : EncEnv (List Byte) := { sampleEnc with
  recv
    | 0 | 1 => .value
    | _ => .pointer
  under
    | 1 => .str
    | 3 => .int .w64
    | _ => .named 2
  marshalText
    | 0, .other n => .ok (List.replicate n 0x6B)
    | 1, .str s => .ok (0x78 :: s)
    | _, _ => .error (.custom 0) }

theorem keyEnc_laws : EncLaws keyEnc :=
  { entries := sampleEnc_laws.entries, finite := sampleEnc_laws.finite, shuffle := sampleEnc_laws.shuffle,
    base64 := sampleEnc_laws.base64, paths := sampleEnc_laws.paths, float32 := sampleEnc_laws.float32, float64 := sampleEnc_laws.float64 }

theorem keyEnv_laws : TypeLaws keyEnv lettersCfg sampleSame :=
  have h := sampleLaws lettersCfg rfl rfl rfl
  ⟨h.1, h.2, h.3, fun i fs hd => h.4 i fs hd⟩

theorem keyEnv_same : SameTypes keyEnv keyEnc lettersCfg where
  fields i fs h := letters_same.fields i fs h
  names := letters_same.names
  places := letters_same.places
  zeroArray i n U h := match i with | 0 | 1 | 2 | _ + 3 => by cases h
  zeroMap i K U h := letters_same.zeroMap i K U h

/-- `map[K]bool{k: true}` -/
def oneKey (k : Key) : Key → Option (Val (List Byte)) := fun k' => if k' = k then some (.bool true) else none

theorem oneKey_entries (k : Key) : sampleEntries (oneKey k) = some [k] := by
  have h : ∃ keys : List Key, keys.Nodup ∧ ∀ k', k' ∈ keys ↔ (oneKey k k').isSome :=
    ⟨[k], by simp, fun k' => by by_cases h : k' = k <;> simp [oneKey, h]⟩
  unfold sampleEntries
  rw [dif_pos h]
  obtain ⟨h1, h2⟩ := h.choose_spec
  have h2 : ∀ k', k' ∈ h.choose ↔ k' = k := fun k' => by rw [h2 k']; by_cases h : k' = k <;> simp [oneKey, h]
  match hx : h.choose with
  | [] => rw [hx] at h2; exact absurd ((h2 k).mpr rfl) (by simp)
  | [a] =>
    rw [hx] at h2
    rw [(h2 a).mp (by simp)]
  | a :: b :: l =>
    rw [hx] at h1 h2
    have ha := (h2 a).mp (by simp)
    have hb := (h2 b).mp (by simp)
    simp [ha, hb] at h1

/-- What is written for a map with one entry. -/
theorem oneKey_text {K : KeyTy} (hK : keyCoder keyEnc K ≠ none) (k : Key) (old : Streamer) (n : Nat) :
    Marshal keyEnv keyEnc old n (.map K .bool) (.map (oneKey k)) =
      match (membersEncode keyEnc K boolEncoder (oneKey k) [k] (newStreamer keyEnc old).objectStart).error with
      | some e => .error e
      | none => .ok (membersEncode keyEnc K boolEncoder (oneKey k) [k] (newStreamer keyEnc old).objectStart).buffer := by
  have h : keyEnc.entries (oneKey k) = some [k] := oneKey_entries k
  have h' : (newStreamer keyEnc old).error = none := rfl
  simp only [Marshal, Streamer.value, encoderOf, encoderStep, mapEncoderOf, hK, if_false, mapEncoder, h, h', ne_eq, not_true_eq_false]
  rfl

/-- Concrete case for `C52_write`, `C52_name_method` and `C52_read`: the name is what the method returns. -/
example : Marshal keyEnv keyEnc ⟨none, [], none, false, false⟩ 0 (.map (.text 0) .bool) (.map (oneKey (.other 3))) = .ok (bs! "{\"kkk\":true}") ∧
    keyEnc.recv 0 = .value ∧ keyEnc.under 0 = .named 2 := by
  rw [oneKey_text (by decide +kernel)]
  exact ⟨of_okIs (by decide +kernel), rfl, rfl⟩

/-- Concrete case for `C52_name_int`: the type has `MarshalText`, but with a pointer as receiver. -/
example : Marshal keyEnv keyEnc ⟨none, [], none, false, false⟩ 0 (.map (.text 3) .bool) (.map (oneKey (.int (-12)))) = .ok (bs! "{\"-12\":true}") := by
  rw [oneKey_text (by decide +kernel)]
  exact of_okIs (by decide +kernel)

/-- Concrete case for `C52_write_error`. -/
example : Marshal keyEnv keyEnc ⟨none, [], none, false, false⟩ 0 (.map (.text 0) .bool) (.map (oneKey (.str []))) = .error (.custom 0) ∧
    keyEnc.marshalText 0 (keyAsValue (.str [])) = .error (.custom 0) := by
  rw [oneKey_text (by decide +kernel)]
  exact ⟨rfl, rfl⟩

/-- Concrete case for `C52_restores`: all maps with one entry whose key is the struct. -/
example (n : Nat) (pools : Pools) (it : It) (old : Streamer) (m : Nat) (t : List Byte)
    (h : Marshal keyEnv keyEnc old m (.map (.text 0) .bool) (.map (oneKey (.other n))) = .ok t) :
    Unmarshal keyEnv lettersCfg pools it t (.map (.text 0) .bool) .nilMap = .ok (.map (oneKey (.other n))) := by
  refine C52_restores (same := sampleSame) keyEnc_laws keyEnv_laws keyEnv_same (.map _ _) (fun k x hx s hs => ?_) (fun k x hx => ?_) h pools it
  · unfold oneKey at hx
    split at hx
    · rename_i hk
      subst hk
      have hs := (C52_name_method (E := keyEnc) (i := 0) rfl (by simp [keyEnc]) (by simp [keyEnc])).mp hs
      cases hs
      refine ⟨valid_ascii fun c hc => ?_, .other n, by simp [keyEnv], rfl⟩
      rw [List.eq_of_mem_replicate hc]
      decide
    · cases hx
  · unfold oneKey at hx
    split at hx
    · cases hx; exact .bool _ _
    · cases hx

/-! ## Key types with both methods that do not come back -/

/-- For a string type with both methods, `UnmarshalText` is called and `MarshalText` is not: `"ab"` comes back as `"b"`, though
`UnmarshalText` is the inverse of `MarshalText`. -/
theorem C52_string_violated (pools : Pools) (it : It) (old : Streamer) :
    (∀ s t, keyEnc.marshalText 1 (.str s) = .ok t → keyEnv.unmarshalText 1 (keyEnv.zeroOther 1) t = .ok (.str s)) ∧
    ∃ t, Marshal keyEnv keyEnc old 0 (.map (.text 1) .bool) (.map (oneKey (.str (bs! "ab")))) = .ok t ∧
      Unmarshal keyEnv lettersCfg pools it t (.map (.text 1) .bool) .nilMap = .ok (.map (oneKey (.str (bs! "b")))) ∧
      oneKey (.str (bs! "b")) ≠ oneKey (.str (bs! "ab")) := by
  refine ⟨?_, bs! "{\"ab\":true}", ?_, ?_, ?_⟩
  · intro s t h
    cases h
    rfl
  · rw [oneKey_text (by decide +kernel)]
    rfl
  · rw [unmarshal_iff keyEnv_laws, ← unmarshal_iff keyEnv_laws samplePools sampleIt]
    rfl
  · intro h
    have := congrFun h (.str (bs! "b"))
    simp [oneKey] at this

/-- A map whose keys have both methods, `MarshalText` with a pointer as receiver, can be read but not written. -/
theorem C52_pointer_violated (pools : Pools) (it : It) (old : Streamer) (n : Nat) :
    Unmarshal keyEnv lettersCfg pools it (bs! "{\"kk\":true}") (.map (.text 2) .bool) .nilMap = .ok (.map (oneKey (.other 2))) ∧
    Marshal keyEnv keyEnc old (n + 1) (.map (.text 2) .bool) (.map (oneKey (.other 2))) = .error .typeNotSupported := by
  refine ⟨?_, C52_unsupported (.map _ _) rfl (by simp [keyEnc]) _ _ _⟩
  rw [unmarshal_iff keyEnv_laws, ← unmarshal_iff keyEnv_laws samplePools sampleIt]
  rfl


end Jzon.Props
