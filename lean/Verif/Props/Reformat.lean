import Verif.Proof.Tidy
import Verif.Props.RoundTrip

/-!
# C62: documents that are read and written again
-/

namespace Jzon.Props

open Spec Jzon

section
variable {F : Type} {Γ : TyEnv F} {E : EncEnv F} {cfg : DecCfg F} {same : Nat → Nat → Prop}

/-- A document in UTF-8 that was read into an `interface{}` can be written, what is written is a JSON text, and reading it gives
the same value. -/
theorem C62_comes_back (hE : EncLaws E) (hl : TypeLaws Γ cfg same) (hS : SameTypes Γ E cfg) (hf : cfg.useNumber = false → FloatsBack cfg E.float64)
    (pools : Pools) (it : It) {data : List Byte} (hu : ValidUtf8 data) {old v : Val F} (h : Unmarshal Γ cfg pools it data .any old = .ok v) :
    ∃ N, ∀ s n, N ≤ n → ∃ out, Marshal Γ E s n .any v = .ok out ∧ IsJson out ∧ ∀ pools it, Unmarshal Γ cfg pools it out .any (.any .nil) = .ok v := by
  obtain ⟨w, t, w2, hw, hw2, rfl, k, hd⟩ := (unmarshal_iff hl pools it).mp h
  obtain ⟨j, g, hv, hg, rfl⟩ : AnyRel cfg {} old t v := by cases k <;> simpa only [DecodesN] using hd
  obtain ⟨h1, h2⟩ := toGo_back hf (value_utf8 hv (validUtf8_between hw hw2 hu)) g hg
  obtain ⟨N, hN⟩ := C44_succeeds (Γ := Γ) hE (.any g h2)
  refine ⟨N, fun s n hn => ?_⟩
  obtain ⟨out, ho⟩ := hN s n hn
  have hb := C25_value hE hl hS (.any g h1) ho
  refine ⟨out, ho, ?_, hb⟩
  obtain ⟨w, t, w2, hw, hw2, rfl, k, hd⟩ := (unmarshal_iff hl pools it).mp (hb pools it)
  obtain ⟨j, g, hv, hg, _⟩ : AnyRel cfg {} (Γ.zero cfg .any) t (.any g) := by cases k <;> simpa only [DecodesN] using hd
  exact ⟨j, w, t, w2, rfl, hw, hv, hw2⟩

/-- With `UseNumber` what is written means the same as what was read, with the same literals for numbers. -/
theorem C62_same_document (hE : EncLaws E) (hl : TypeLaws Γ cfg same) (hS : SameTypes Γ E cfg) (hn : cfg.useNumber = true)
    (pools : Pools) (it : It) {data : List Byte} (hu : ValidUtf8 data) {j : JVal} (hj : Text data j) {old : Val F} :
    ∃ v N, Unmarshal Γ cfg pools it data .any old = .ok v ∧
      ∀ s n, N ≤ n → ∃ out j', Marshal Γ E s n .any v = .ok out ∧ Text out j' ∧ SameDocument j j' := by
  obtain ⟨w, t, w2, rfl, hw, hv, hw2⟩ := hj
  have hnum : anyNumber cfg = fun t => some (GoVal.number t) := by
    funext t
    simp [anyNumber, hn]
  obtain ⟨g, hg⟩ := toGo_total (F := F) (num := anyNumber cfg) (fun t => by rw [hnum]; exact ⟨_, rfl⟩) j
  have h : Unmarshal Γ cfg pools it (w ++ (t ++ w2)) .any old = .ok (.any g) :=
    (unmarshal_iff hl pools it).mpr ⟨w, t, w2, hw, hw2, rfl, 0, by simp only [DecodesN]; exact ⟨j, g, hv, hg, rfl⟩⟩
  obtain ⟨N, hN⟩ := C62_comes_back hE hl hS (by simp [hn]) pools it hu h
  refine ⟨_, N, h, fun s n hn => ?_⟩
  obtain ⟨out, ho, _, hb⟩ := hN s n hn
  obtain ⟨w', t', w2', hw', hw2', rfl, k, hd⟩ := (unmarshal_iff hl pools it).mp (hb pools it)
  obtain ⟨j', g', hv', hg', he⟩ : AnyRel cfg {} (.any .nil) t' (.any g) := by cases k <;> simpa only [DecodesN] using hd
  cases he
  rw [hnum] at hg hg'
  exact ⟨_, j', ho, ⟨w', t', w2', rfl, hw', hv', hw2'⟩, sameDocument_of_toGo _ j j' g (Nat.le_refl _) hg hg'⟩

/-- A document in UTF-8 that was read into a variable of a type made of booleans, integers, strings, pointers, slices, arrays, maps
and structs can be written, and reading what is written gives the same value. -/
theorem C62_typed (hE : EncLaws E) (hl : TypeLaws Γ cfg same) (hS : SameTypes Γ E cfg) {L : Nat → List Ty} (hD : Declared Γ L) {P : Ty → Prop}
    (hP : ∀ T, P T → Plain Γ E cfg L P T) (hp : TidyProgram Γ cfg P) (pools : Pools) (it : It) {data : List Byte} (hu : ValidUtf8 data) {T : Ty} (hT : P T)
    {old v : Val F} (hold : HasTy Γ L T old) (ho : Tidy old) (h : Unmarshal Γ cfg pools it data T old = .ok v) :
    ∃ N, ∀ s n, N ≤ n → ∃ out, Marshal Γ E s n T v = .ok out ∧ ∀ pools it, Unmarshal Γ cfg pools it out T (Γ.zero cfg T) = .ok v := by
  obtain ⟨w, t, w2, hw, hw2, rfl, k, hd⟩ := (unmarshal_iff hl pools it).mp h
  have ht := decodesN_tidy hS hp hP k T {} old t v hT ho (validUtf8_between hw hw2 hu) hd
  exact C25_types hE hl hS hP hT (decodesN_hasTy hD hold hd) ht.1 ht.2

end

/-! ## Cases -/

theorem list_tidy : TidyProgram sampleEnv lettersCfg listTypes where
  zero T h := by
    rcases h with rfl | rfl | rfl | rfl
    · exact tidy_struct.mpr (by simp [tidy_int, tidy_nilPtr]; exact ⟨.nilSlice, .nilSlice⟩)
    · exact tidy_int _
    · exact ⟨.nilSlice, .nilSlice⟩
    · exact tidy_nilPtr
  embedded i fs f T h hd hf hm := by
    rcases h with h | h | h | h
    · cases h
      cases hd
      simp at hf
      rcases hf with rfl | rfl | rfl <;> simp at hm
    all_goals cases h
  keys i s x _ h := by
    cases h
    match i with
    | 0 => rintro s ⟨⟩
    | 1 =>
      rintro s ⟨⟩
      exact validUtf8_nil
    | _ + 2 => rintro s ⟨⟩
  zeroKeys i := by
    match i with
    | 0 => rintro s ⟨⟩
    | 1 =>
      rintro s ⟨⟩
      exact validUtf8_nil
    | _ + 2 => rintro s ⟨⟩

example {data : List Byte} (hu : ValidUtf8 data) {v : Val (List Byte)}
    (h : Unmarshal sampleEnv lettersCfg samplePools sampleIt data (.named 0) (.struct [.int 0, .nilSlice, .nilPtr]) = .ok v) :
    ∃ N, ∀ s n, N ≤ n → ∃ out, Marshal sampleEnv lettersEnc s n (.named 0) v = .ok out ∧
      ∀ pools it, Unmarshal sampleEnv lettersCfg pools it out (.named 0) (.struct [.int 0, .nilSlice, .nilPtr]) = .ok v :=
  C62_typed lettersEnc_laws (sampleLaws lettersCfg rfl rfl rfl) letters_same sampleDeclared listTypes_plain list_tidy _ _ hu (.inl rfl)
    (hasTy_zero (cfg := lettersCfg) sampleDeclared (.named 0)) (list_tidy.zero (.named 0) (.inl rfl)) h

/-- A document with white space, an escape, and a member that is overridden. -/
def draft : List Byte := bs! " {\"a\" : 1.50, \"b\":[true], \"a\":\"\\u0041\"}\n"

example : Unmarshal sampleEnv lettersCfg samplePools sampleIt (bs! "[ 1.50 , \"\\u0041\" ]") .any (.any .nil) =
    .ok (.any (.arr [.number (bs! "1.50"), .str (bs! "A")])) := rfl
example : Marshal sampleEnv lettersEnc ⟨none, [], none, false, false⟩ 3 .any (.any (.arr [.number (bs! "1.50"), .str (bs! "A")])) =
    .ok (bs! "[1.50,\"A\"]") := of_okIs (by decide +kernel)

example {j : JVal} (hj : Text draft j) := C62_same_document lettersEnc_laws (sampleLaws lettersCfg rfl rfl rfl) letters_same rfl samplePools sampleIt
  (valid_ascii (by decide +kernel)) hj (old := .any .nil)

/-- A document that is not in UTF-8: it is read, but what is written means something else. -/
example : Unmarshal sampleEnv lettersCfg samplePools sampleIt [0x22, 0x80, 0x22] .any (.any .nil) = .ok (.any (.str [0x80])) ∧
    Marshal sampleEnv lettersEnc ⟨none, [], none, false, false⟩ 3 .any (.any (.str [0x80])) = .ok (bs! "\"\\ufffd\"") :=
  ⟨rfl, of_okIs (by decide +kernel)⟩

/-- A library that knows the numbers 0 and 1.5 only. -/
def fewOps : FloatOps (List Byte) where
  parse t := if t = bs! "0" then .ok (bs! "0") else if t = bs! "1.5" ∨ t = bs! "1.50" then .ok (bs! "1.5") else .error (.custom 0)
  zero := bs! "0"
  neg t := t

def fewCfg : DecCfg (List Byte) := { lettersCfg with useNumber := false, ops64 := fewOps }

theorem few_back : FloatsBack fewCfg lettersEnc.float64 := by
  have parse : ∀ t f, fewOps.parse t = .ok f → f = bs! "0" ∨ f = bs! "1.5" := by
    intro t f h
    simp only [fewOps] at h
    split at h
    · cases h
      exact .inl rfl
    · split at h
      · cases h
        exact .inr rfl
      · cases h
  have lit : ∀ t f, literal fewOps t = .ok f → f = bs! "0" ∨ f = bs! "1.5" := by
    intro t f h
    unfold literal at h
    split at h
    · rename_i u
      cases hp : fewOps.parse u with
      | error e => rw [hp] at h; cases h
      | ok x =>
        rw [hp] at h
        cases h
        exact parse u x hp
    · exact parse t f h
  intro t f h
  rcases lit t f h with rfl | rfl
  · refine ⟨rfl, rfl, ?_⟩
    rintro t' ⟨f', small, big, he, _, _, hl, ht⟩
    cases he
    obtain rfl : t' = bs! "0" := ht
    rfl
  · refine ⟨rfl, rfl, ?_⟩
    rintro t' ⟨f', small, big, he, _, _, hl, ht⟩
    cases he
    obtain rfl : small = false := (hl.posSmall rfl rfl).symm
    obtain rfl : big = false := (hl.posBig rfl rfl).symm
    obtain rfl : t' = bs! "1.5" := ht
    rfl

theorem few_laws : TypeLaws sampleEnv fewCfg sampleSame where
  law32 := textOps_lawful
  law64 := ⟨rfl, fun t => by simp [fewCfg, fewOps]⟩
  fold := (sampleLaws lettersCfg rfl rfl rfl).fold
  names := (sampleLaws lettersCfg rfl rfl rfl).names

theorem few_same : SameTypes sampleEnv lettersEnc fewCfg where
  fields := letters_same.fields
  names := letters_same.names
  places := letters_same.places
  zeroArray i n U h := by
    match i with
    | 0 => cases h
    | 1 => cases h
    | 2 => cases h
    | _ + 3 => cases h
  zeroMap := letters_same.zeroMap

example {data : List Byte} (hu : ValidUtf8 data) {v : Val (List Byte)} (h : Unmarshal sampleEnv fewCfg samplePools sampleIt data .any (.any .nil) = .ok v) :
    ∃ N, ∀ s n, N ≤ n → ∃ out, Marshal sampleEnv lettersEnc s n .any v = .ok out ∧
      IsJson out ∧ ∀ pools it, Unmarshal sampleEnv fewCfg pools it out .any (.any .nil) = .ok v :=
  C62_comes_back lettersEnc_laws few_laws few_same (fun _ => few_back) _ _ hu h
example : Unmarshal sampleEnv fewCfg samplePools sampleIt (bs! "[ 1.50]") .any (.any .nil) = .ok (.any (.arr [.float (bs! "1.5")])) := rfl

end Jzon.Props
