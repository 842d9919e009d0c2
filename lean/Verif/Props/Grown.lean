import Verif.Proof.Grown
import Verif.Props.Deferred
import Verif.Props.RoundTrip
import Verif.Props.Marshal

/-!
# C68: fields may be added

Programs exchange texts, and the struct types of one of them have further fields.
-/

namespace Jzon.Props

open Spec Jzon

section
variable {F : Type} {Γ : TyEnv F} {cfg : DecCfg F} {E : EncEnv F} {L : Nat → List Ty} {place : Nat → Nat → Nat → Nat}
variable {same : Nat → Nat → Prop} {P : Ty → Ty → Prop}

/-- An older program reads what a newer one accepts: if unknown fields are not forbidden, it gets the same value without the further
members.  `P` relates the types of the older program to those of the newer one.

What is missing to the full statement is false: for structs with one field see `C68_one_field_violated` (`Wider.single` excludes what is
wrong there), and for texts that are not JSON see `C68_text_violated`. -/
theorem C68_newer_partial (hl : TypeLaws Γ cfg same) (hD : Declared Γ L) (hz : ZeroValues Γ cfg L)
    (hP : ∀ T T', P T T' → GrownBy Γ same cfg.caseSensitive L place P T T') (hs : cfg.disallowUnknownFields = false) (pools : Pools) (it : It)
    {T T' : Ty} (hT : P T T') {data : List Byte} (hd : IsJson data) {old old' v' : Val F}
    (ho : Narrowed Γ L place (fun _ _ _ => True) T T' old old') (h : Unmarshal Γ cfg pools it data T' old' = .ok v') :
    ∃ v, Unmarshal Γ cfg pools it data T old = .ok v ∧ Narrowed Γ L place (fun _ _ _ => True) T T' v v' := by
  obtain ⟨j, w, t, w2, rfl, hw, ht, hw2⟩ := hd
  have ht : IsValue t := ⟨j, ht⟩
  have hsol : Solid t := .value ht.choose_spec
  rw [unmarshal_around hl pools it hw hw2 hsol] at h
  obtain ⟨v, h1, h2⟩ := grown_down hl hD hz hP (fun _ _ _ _ => trivial) (.inl ⟨fun _ _ _ => trivial, hs⟩) (naming_all ht) T T' hT {} old old' v' ho h
  exact ⟨v, (unmarshal_around hl pools it hw hw2 hsol).mpr h1, h2⟩

/-- A newer program reads a text in which the names of the further fields do not occur: it accepts the text exactly if the older program
does, the values are the same in the members that both have, and the further members keep their zero values.  Here it does not matter if
unknown fields are forbidden. -/
theorem C68_older_partial (hl : TypeLaws Γ cfg same) (hD : Declared Γ L) (hz : ZeroValues Γ cfg L)
    (hP : ∀ T T', P T T' → GrownBy Γ same cfg.caseSensitive L place P T T') (pools : Pools) (it : It)
    {T T' : Ty} (hT : P T T') {data : List Byte} (hd : Around (Naming (Unadded Γ same cfg.caseSensitive L place P)) data) {old old' : Val F}
    (ho : Narrowed Γ L place (StillZero Γ cfg L) T T' old old') :
    (∀ v, Unmarshal Γ cfg pools it data T old = .ok v →
      ∃ v', Unmarshal Γ cfg pools it data T' old' = .ok v' ∧ Narrowed Γ L place (StillZero Γ cfg L) T T' v v') ∧
    (∀ v', Unmarshal Γ cfg pools it data T' old' = .ok v' →
      ∃ v, Unmarshal Γ cfg pools it data T old = .ok v ∧ Narrowed Γ L place (StillZero Γ cfg L) T T' v v') := by
  obtain ⟨w, t, w2, hw, hw2, rfl, ht⟩ := hd
  have hsol : Solid t := naming_solid ht
  have hx : ∀ (j l : Nat) T, (L j)[l]? = some T → StillZero Γ cfg L j l (Γ.zero cfg T) := by
    intro j l T h U hU
    rw [h] at hU
    cases hU
    rfl
  simp only [unmarshal_around hl pools it hw hw2 hsol]
  exact ⟨fun v h => grown_up hl hD hz hP hx (fun _ h => h) ht T T' hT {} old old' v ho h,
    fun v' h => grown_down hl hD hz hP hx (.inr fun _ h => h) ht T T' hT {} old old' v' ho h⟩

/-- The same from the zero values, so that both programs start with new variables. -/
theorem C68_zero (hz : ZeroValues Γ cfg L) {cs : Bool} (hP : ∀ T T', P T T' → GrownBy Γ same cs L place P T T') {T T' : Ty} (hT : P T T') :
    Narrowed Γ L place (StillZero Γ cfg L) T T' (Γ.zero cfg T) (Γ.zero cfg T') ∧
    Narrowed Γ L place (fun _ _ _ => True) T T' (Γ.zero cfg T) (Γ.zero cfg T') := by
  refine ⟨part_zero hz hP (fun j l T h U hU => ?_) hT, part_zero hz hP (fun _ _ _ _ => trivial) hT⟩
  rw [h] at hU
  cases hU
  rfl

/-- Two values are the same in the members that both have only if their types are the same or one of them has further members: with equal
types, the values are equal. -/
theorem C68_same {extra : Nat → Nat → Val F → Prop} {T : Ty} {v v' : Val F} : Narrowed Γ L place extra T T v v' ↔ v = v' :=
  ⟨fun h => part_eq h rfl, fun h => h ▸ .same T v⟩

/-- For structs it says: the members are the same. -/
theorem C68_members {extra : Nat → Nat → Val F → Prop} {i j : Nat} (hne : i ≠ j) {fs fs' : List Field} (hd : Γ.defn i = .struct fs)
    (hd' : Γ.defn j = .struct fs') {v v' : Val F} : Narrowed Γ L place extra (.named i) (.named j) v v' ↔
      ∃ xs ys, v = .struct xs ∧ v' = .struct ys ∧ xs.length = (L i).length ∧ ys.length = (L j).length ∧
        (∀ (k : Nat) (T T' : Ty) x y, (L i)[k]? = some T → (L j)[place i j k]? = some T' → xs[k]? = some x → ys[place i j k]? = some y →
          Narrowed Γ L place extra T T' x y) ∧
        ∀ (l : Nat) y, (∀ k, k < (L i).length → place i j k ≠ l) → ys[l]? = some y → extra j l y := by
  constructor
  · intro h
    obtain ⟨xs, ys, h1, h2, h3, h4, h5, h6⟩ := part_struct hne hd hd' h
    exact ⟨xs, ys, h1, h2, h3, h4, h5, h6⟩
  · rintro ⟨xs, ys, rfl, rfl, h3, h4, h5, h6⟩
    exact .struct i j fs fs' xs ys hne hd hd' h3 h4 h5 h6

/-- What a newer program writes is read by an older one, which gets the value without the further members.  `Q` is a set of types of the
newer program, made of booleans, integers, strings, pointers, slices, arrays, maps and structs. -/
theorem C68_written_partial (hE : EncLaws E) (hl : TypeLaws Γ cfg same) (hS : SameTypes Γ E cfg) (hD : Declared Γ L) (hz : ZeroValues Γ cfg L)
    (hP : ∀ T T', P T T' → GrownBy Γ same cfg.caseSensitive L place P T T') (hs : cfg.disallowUnknownFields = false) {Q : Ty → Prop}
    (hQ : ∀ T, Q T → Plain Γ E cfg L Q T) (hr : NoReadyMade Γ E Q) {T T' : Ty} (hT : P T T') (hT' : Q T') {v' : Val F} (hv : HasTy Γ L T' v')
    (hu : Utf8Val v') (hf : FiniteVal v') :
    ∃ N, ∀ old n, N ≤ n → ∃ t, Marshal Γ E old n T' v' = .ok t ∧
      ∀ pools it, ∃ v, Unmarshal Γ cfg pools it t T (Γ.zero cfg T) = .ok v ∧ Narrowed Γ L place (fun _ _ _ => True) T T' v v' := by
  obtain ⟨N, hN⟩ := C25_types hE hl hS hQ hT' hv hu hf
  refine ⟨N, fun old n hn => ?_⟩
  obtain ⟨t, h1, h2⟩ := hN old n hn
  refine ⟨t, h1, fun pools it => ?_⟩
  have hj := C35_types_partial hE hr hT' h1 it ⟨[], 0⟩
  rw [C01_valid_iff_json] at hj
  exact C68_newer_partial hl hD hz hP hs pools it hT hj (C68_zero hz hP hT).2 (h2 pools it)

end

/-! ## Cases -/

/-- ```go
type T0 struct {
    A    int8      // json:"a"
    Next *T0       // json:"next"
}
type T1 struct {
    New  string    // json:"new"
    A    int8      // json:"a"
    Next *T1       // json:"next"
}
type T2 struct { K int8 }                       // json:"k"
type T3 struct { K, X int8 }                    // json:"k" json:"x"
type T4 struct { A, B int8 }                    // json:"a" json:"b"
type T5 struct { A, B int8; M map[string]int8 } // json:"a" json:"b" json:"m"
``` -/
def versionEnv : TyEnv (List Byte) where
  defn
    | 0 => .struct [⟨bs! "a", false, [.member 0], .int .w8⟩, ⟨bs! "next", false, [.member 1], .ptr (.named 0)⟩]
    | 1 => .struct [⟨bs! "new", false, [.member 0], .str⟩, ⟨bs! "a", false, [.member 1], .int .w8⟩,
        ⟨bs! "next", false, [.member 2], .ptr (.named 1)⟩]
    | 2 => .struct [⟨bs! "k", false, [.member 0], .int .w8⟩]
    | 3 => .struct [⟨bs! "k", false, [.member 0], .int .w8⟩, ⟨bs! "x", false, [.member 1], .int .w8⟩]
    | 4 => .struct [⟨bs! "a", false, [.member 0], .int .w8⟩, ⟨bs! "b", false, [.member 1], .int .w8⟩]
    | _ => .struct [⟨bs! "a", false, [.member 0], .int .w8⟩, ⟨bs! "b", false, [.member 1], .int .w8⟩,
        ⟨bs! "m", false, [.member 2], .map .str (.int .w8)⟩]
  zeroNamed
    | 0 => .struct [.int 0, .nilPtr]
    | 1 => .struct [.str [], .int 0, .nilPtr]
    | 2 => .struct [.int 0]
    | 3 => .struct [.int 0, .int 0]
    | 4 => .struct [.int 0, .int 0]
    | _ => .struct [.int 0, .int 0, .nilMap]
  zeroOther _ := .other 0
  isKey _ _ := True
  unmarshalJSON _ v _ := .ok v
  unmarshalText _ v _ := .ok v

/-- The members. -/
def versionMembers : Nat → List Ty
  | 0 => [.int .w8, .ptr (.named 0)]
  | 1 => [.str, .int .w8, .ptr (.named 1)]
  | 2 => [.int .w8]
  | 3 => [.int .w8, .int .w8]
  | 4 => [.int .w8, .int .w8]
  | _ => [.int .w8, .int .w8, .map .str (.int .w8)]

/-- The members of the first two types belong to each other. -/
def versionPlace : Nat → Nat → Nat → Nat := fun _ _ k => k + 1

/-- Lists of the first types, and what they are made of. -/
def Versions (T T' : Ty) : Prop :=
  (T = .slice (.named 0) ∧ T' = .slice (.named 1)) ∨ (T = .ptr (.named 0) ∧ T' = .ptr (.named 1)) ∨ (T = .named 0 ∧ T' = .named 1) ∨
    (T = .int .w8 ∧ T' = .int .w8)

theorem versionLaws : TypeLaws versionEnv sampleCfg sampleSame where
  law32 := textOps_lawful
  law64 := textOps_lawful
  fold := asciiLib_lawful
  names i fs h := by
    match i with
    | 0 | 1 | 2 | 3 | 4 => cases h; decide
    | n + 5 => cases h; decide

theorem versionZero : ZeroValues versionEnv sampleCfg versionMembers where
  slice i E h := by
    match i with
    | 0 | 1 | 2 | 3 | 4 => cases h
    | n + 5 => cases h
  map i K E h := by
    match i with
    | 0 | 1 | 2 | 3 | 4 => cases h
    | n + 5 => cases h
  array i n E h := by
    match i with
    | 0 | 1 | 2 | 3 | 4 => cases h
    | n + 5 => cases h
  struct i fs h := by
    match i with
    | 0 | 1 | 2 | 3 | 4 => rfl
    | n + 5 => rfl

theorem versionDeclared : Declared versionEnv versionMembers where
  fields i fs f h hf := by
    match i with
    | 0 | 1 | 2 | 3 | 4 =>
      cases h
      simp only [List.mem_cons, List.not_mem_nil, or_false] at hf
      rcases hf with rfl | hf
      · exact .member _ _ _ _ _ _ rfl rfl (.here _)
      all_goals try (rcases hf with rfl | hf)
      all_goals try subst hf
      all_goals exact .member _ _ _ _ _ _ rfl rfl (.here _)
    | n + 5 =>
      cases h
      simp only [List.mem_cons, List.not_mem_nil, or_false] at hf
      rcases hf with rfl | rfl | rfl
      all_goals exact .member _ _ _ _ _ _ rfl rfl (.here _)
  zero i := by
    have int0 : HasTy versionEnv versionMembers (.int .w8) (.int 0) := .int _ _ (by unfold Fits; decide)
    match i with
    | 0 =>
      refine .struct 0 _ _ rfl rfl fun k v T hv hT => ?_
      match k with
      | 0 => cases hv; cases hT; exact int0
      | 1 => cases hv; cases hT; exact .nilPtr _
      | k + 2 => cases hv
    | 1 =>
      refine .struct 1 _ _ rfl rfl fun k v T hv hT => ?_
      match k with
      | 0 => cases hv; cases hT; exact .str _
      | 1 => cases hv; cases hT; exact int0
      | 2 => cases hv; cases hT; exact .nilPtr _
      | k + 3 => cases hv
    | 2 =>
      refine .struct 2 _ _ rfl rfl fun k v T hv hT => ?_
      match k with
      | 0 => cases hv; cases hT; exact int0
      | k + 1 => cases hv
    | 3 =>
      refine .struct 3 _ _ rfl rfl fun k v T hv hT => ?_
      match k with
      | 0 => cases hv; cases hT; exact int0
      | 1 => cases hv; cases hT; exact int0
      | k + 2 => cases hv
    | 4 =>
      refine .struct 4 _ _ rfl rfl fun k v T hv hT => ?_
      match k with
      | 0 => cases hv; cases hT; exact int0
      | 1 => cases hv; cases hT; exact int0
      | k + 2 => cases hv
    | n + 5 =>
      refine .struct (n + 5) _ _ rfl rfl fun k v T hv hT => ?_
      match k with
      | 0 => cases hv; cases hT; exact int0
      | 1 => cases hv; cases hT; exact int0
      | 2 => cases hv; cases hT; exact .nilMap _ _ _ (.map _ _)
      | k + 3 => cases hv
  keys i := ⟨trivial, fun _ _ _ => trivial⟩

theorem sample_apart {a b : List Byte} (h : asciiLib.equalFold a b = false) (hne : a ≠ b) : Apart sampleSame false a b :=
  ⟨hne, fun _ hk => by
    have := (asciiLib_lawful.equalFold _ _).mpr hk
    rw [h] at this
    cases this⟩

theorem versions_grown (T T' : Ty) (h : Versions T T') : GrownBy versionEnv sampleSame false versionMembers versionPlace Versions T T' := by
  rcases h with ⟨rfl, rfl⟩ | ⟨rfl, rfl⟩ | ⟨rfl, rfl⟩ | ⟨rfl, rfl⟩
  · exact .slice _ _ _ _ (.slice _) (.slice _) (by decide) (by decide) (.inr (.inr (.inl ⟨rfl, rfl⟩)))
  · exact .ptr _ _ (.inr (.inr (.inl ⟨rfl, rfl⟩)))
  · refine .struct 0 1 _ _ rfl rfl ⟨fun k T hT => ?_, fun k k' _ _ h => Nat.succ.inj h, ?_, fun f hf => by cases hf⟩
    · match k with
      | 0 => cases hT; exact ⟨_, rfl, .inr (.inr (.inr ⟨rfl, rfl⟩))⟩
      | 1 => cases hT; exact ⟨_, rfl, .inr (.inl ⟨rfl, rfl⟩)⟩
      | k + 2 => cases hT
    · refine .new _ _ _ ⟨⟨0, [], rfl, fun k _ => Nat.succ_ne_zero k⟩, fun f hf => ?_⟩ (.old _ _ _ _ ⟨rfl, rfl, 0, [], rfl, rfl, .inl rfl⟩
        (.old _ _ _ _ ⟨rfl, rfl, 1, [], rfl, rfl, .inl rfl⟩ .nil))
      simp only [List.mem_cons, List.not_mem_nil, or_false] at hf
      rcases hf with rfl | rfl
      · exact sample_apart (by decide +kernel) (by decide)
      · exact sample_apart (by decide +kernel) (by decide)
  · exact .same _

/-- All JSON texts of lists of the newer type can be read as lists of the older type. -/
example (pools : Pools) (it : It) {data : List Byte} (hd : IsJson data) {v' : Val (List Byte)}
    (h : Unmarshal versionEnv sampleCfg pools it data (.slice (.named 1)) .nilSlice = .ok v') :
    ∃ v, Unmarshal versionEnv sampleCfg pools it data (.slice (.named 0)) .nilSlice = .ok v ∧
      Narrowed versionEnv versionMembers versionPlace (fun _ _ _ => True) (.slice (.named 0)) (.slice (.named 1)) v v' :=
  C68_newer_partial versionLaws versionDeclared versionZero versions_grown rfl pools it (.inl ⟨rfl, rfl⟩) hd (.nilSlice _ _ _ _ (.slice _) (.slice _)) h

/-- One text. -/
example :
    Unmarshal versionEnv sampleCfg samplePools sampleIt (bs! "{\"a\":1,\"new\":\"x\",\"next\":{\"new\":\"\"}}") (.named 1) (versionEnv.zeroNamed 1) =
      .ok (.struct [.str (bs! "x"), .int 1, .ptr (.struct [.str [], .int 0, .nilPtr])]) ∧
    Unmarshal versionEnv sampleCfg samplePools sampleIt (bs! "{\"a\":1,\"new\":\"x\",\"next\":{\"new\":\"\"}}") (.named 0) (versionEnv.zeroNamed 0) =
      .ok (.struct [.int 1, .ptr (.struct [.int 0, .nilPtr])]) := ⟨rfl, rfl⟩

/-- A name that is not added. -/
example : Unadded versionEnv sampleSame false versionMembers versionPlace Versions (bs! "next") := by
  intro i j fs' hp hne hd f hf l p hfp hl
  rcases hp with ⟨h, _⟩ | ⟨h, _⟩ | ⟨h, h'⟩ | ⟨h, _⟩
  · cases h
  · cases h
  · cases h
    cases h'
    cases hd
    simp only [List.mem_cons, List.not_mem_nil, or_false] at hf
    rcases hf with rfl | rfl | rfl
    · exact sample_apart (by decide +kernel) (by decide)
    · cases hfp
      exact absurd rfl (hl 0 (by decide))
    · cases hfp
      exact absurd rfl (hl 1 (by decide))
  · cases h

/-- For structs with one field, the property does not hold: the Kelvin sign selects the field `k` of the wider type, not that of the
narrower one. -/
theorem C68_one_field_violated :
    Unmarshal versionEnv sampleCfg samplePools sampleIt (bs! "{\"K\":1}") (.named 3) (versionEnv.zeroNamed 3) = .ok (.struct [.int 1, .int 0]) ∧
    Unmarshal versionEnv sampleCfg samplePools sampleIt (bs! "{\"K\":1}") (.named 2) (versionEnv.zeroNamed 2) = .ok (.struct [.int 0]) := ⟨rfl, rfl⟩

/-- The further fields may accept texts that are not JSON; then they cannot be skipped. -/
theorem C68_text_violated :
    (match Unmarshal versionEnv sampleCfg samplePools sampleIt (bs! "{\"m\":{null:1}}") (.named 5) (versionEnv.zeroNamed 5) with
      | .ok (.struct [.int _, .int _, .map m]) => (m (.str [])).isSome
      | _ => false) = true ∧
    (match Unmarshal versionEnv sampleCfg samplePools sampleIt (bs! "{\"m\":{null:1}}") (.named 4) (versionEnv.zeroNamed 4) with
      | .ok _ => false
      | .error _ => true) = true := by decide +kernel

end Jzon.Props
