import Verif.Spec.Grown
import Verif.Proof.Deferred

/-!
# Types with further fields
-/

set_option linter.unusedSimpArgs false

namespace Jzon

open Spec

/-! ## Names in texts -/

theorem naming_value {ok : List Byte → Prop} {t : List Byte} (h : Naming ok t) : IsValue t := by
  induction h with
  | scalar t h _ _ => exact h
  | array t ts h _ ih => exact arrayOf_value h ih
  | object t ms h hk _ ih => exact (objectOf_value.mp ⟨ms, h, fun m hm => ⟨⟨_, (hk m hm).choose_spec.1⟩, ih m hm⟩⟩).1

theorem naming_solid {ok : List Byte → Prop} {t : List Byte} (h : Naming ok t) : Solid t := .value (naming_value h).choose_spec

theorem naming_array {ok : List Byte → Prop} {t : List Byte} (h : Naming ok t) {ts : List (List Byte)} (ht : ArrayOf t ts)
    (hs : ∀ u ∈ ts, Solid u) : ∀ u ∈ ts, Naming ok u := by
  obtain ⟨x, hx⟩ := enclosed_head ht
  cases h with
  | scalar _ _ ha _ => exact absurd hx (ha x)
  | array _ us h h1 =>
    obtain rfl := arrayOf_same h ht (fun u hu => naming_solid (h1 u hu)) hs
    exact h1
  | object _ ms h _ _ =>
    obtain ⟨y, hy⟩ := object_head h
    rw [hx] at hy
    cases hy

theorem naming_object {ok : List Byte → Prop} {t : List Byte} (h : Naming ok t) {ms : List (List Byte × List Byte)} (ht : ObjectOf t ms)
    (hs : ∀ m ∈ ms, Solid m.1 ∧ Solid m.2) : ∀ m ∈ ms, (∃ s, Str m.1 s ∧ ok s) ∧ Naming ok m.2 := by
  obtain ⟨x, hx⟩ := object_head ht
  cases h with
  | scalar _ _ _ ho => exact absurd hx (ho x)
  | array _ us h h1 =>
    obtain ⟨y, hy⟩ := enclosed_head h
    rw [hx] at hy
    cases hy
  | object _ us h h1 h2 =>
    obtain rfl := objectOf_same h ht (fun m hm => ⟨.str (h1 m hm).choose_spec.1, naming_solid (h2 m hm)⟩) hs
    exact fun m hm => ⟨h1 m hm, h2 m hm⟩

theorem naming_all {t : List Byte} (h : IsValue t) : Naming (fun _ => True) t := by
  generalize hn : t.length = n
  induction n using Nat.strongRecOn generalizing t with
  | ind n ih =>
    subst hn
    by_cases ha : ∃ u, t = 0x5B :: u
    · obtain ⟨u, hu⟩ := ha
      obtain ⟨ts, h1, h2⟩ := array_texts h hu
      exact .array t ts h1 fun x hx => ih _ (enclosed_length h1 x hx) (h2 x hx) rfl
    · by_cases ho : ∃ u, t = 0x7B :: u
      · obtain ⟨ms, h1, h2⟩ := objectOf_value.mpr ⟨h, ho⟩
        exact .object t ms h1 (fun m hm => ⟨_, (h2 m hm).1.choose_spec, trivial⟩) fun m hm => ih _ (objectOf_length h1 m hm) (h2 m hm).2 rfl
      · exact .scalar t h (fun u e => ha ⟨u, e⟩) fun u e => ho ⟨u, e⟩

/-! ## Lists with further elements -/

theorem merged_get {A : Type} {old : A → A → Prop} {new : A → Prop} {as bs : List A} (h : Merged old new as bs) {n : Nat} {a : A}
    (ha : as[n]? = some a) : ∃ (m : Nat) (b : A), bs[m]? = some b ∧ old a b ∧
      ∀ (m' : Nat) (b' : A), m' < m → bs[m']? = some b' → (∃ (n' : Nat) (a' : A), n' < n ∧ as[n']? = some a' ∧ old a' b') ∨ new b' := by
  induction h generalizing n with
  | nil => cases ha
  | old a0 b0 as bs h _ ih =>
    cases n with
    | zero =>
      cases ha
      exact ⟨0, b0, rfl, h, fun m' b' hm => absurd hm (by omega)⟩
    | succ n =>
      obtain ⟨m, b, h1, h2, h3⟩ := ih (by simpa using ha)
      refine ⟨m + 1, b, by simpa using h1, h2, fun m' b' hm hb => ?_⟩
      cases m' with
      | zero =>
        cases hb
        exact .inl ⟨0, a0, by omega, rfl, h⟩
      | succ m' =>
        rcases h3 m' b' (by omega) (by simpa using hb) with ⟨n', a', h4, h5, h6⟩ | h4
        · exact .inl ⟨n' + 1, a', by omega, by simpa using h5, h6⟩
        · exact .inr h4
  | new b0 as bs h _ ih =>
    obtain ⟨m, b, h1, h2, h3⟩ := ih ha
    refine ⟨m + 1, b, by simpa using h1, h2, fun m' b' hm hb => ?_⟩
    cases m' with
    | zero =>
      cases hb
      exact .inr h
    | succ m' => exact h3 m' b' (by omega) (by simpa using hb)

theorem merged_back {A : Type} {old : A → A → Prop} {new : A → Prop} {as bs : List A} (h : Merged old new as bs) {m : Nat} {b : A}
    (hb : bs[m]? = some b) : (∃ (n : Nat) (a : A), as[n]? = some a ∧ old a b) ∨ new b := by
  induction h generalizing m with
  | nil => cases hb
  | old a0 b0 as bs h _ ih =>
    cases m with
    | zero =>
      cases hb
      exact .inl ⟨0, a0, rfl, h⟩
    | succ m =>
      rcases ih (m := m) (by simpa using hb) with ⟨n, a, h1, h2⟩ | h1
      · exact .inl ⟨n + 1, a, by simpa using h1, h2⟩
      · exact .inr h1
  | new b0 as bs h _ ih =>
    cases m with
    | zero =>
      cases hb
      exact .inr h
    | succ m => exact ih (m := m) (by simpa using hb)

theorem merged_length {A : Type} {old : A → A → Prop} {new : A → Prop} {as bs : List A} (h : Merged old new as bs) : as.length ≤ bs.length := by
  induction h with
  | nil => exact Nat.le_refl _
  | old _ _ _ _ _ _ ih => simp; omega
  | new _ _ _ _ _ ih => simp; omega

theorem merged_single {A : Type} {old : A → A → Prop} {new : A → Prop} {a b : A} (h : Merged old new [a] [b]) : old a b := by
  cases h with
  | old _ _ _ _ h _ => exact h
  | new _ _ _ _ h => cases h

/-! ## Which field is selected -/

section
variable {same : Nat → Nat → Prop} {cs : Bool}

/-- The key matches the name. -/
def KeyMatches (same : Nat → Nat → Prop) (cs : Bool) (key name : List Byte) : Prop := name = key ∨ (cs = false ∧ KeyEq same name key)

theorem keyEq_trans {lib : FoldLib} (hl : FoldLaws lib same) {a b c : List Byte} (h : KeyEq same a b) (h' : KeyEq same b c) : KeyEq same a c := by
  obtain ⟨ns, ms, h1, h2, h3⟩ := h
  obtain ⟨ns', ms', h4, h5, h6⟩ := h'
  obtain rfl := (runes_iff.mp h2).trans (runes_iff.mp h4).symm
  exact ⟨ns, ms', h1, h5, each_mono (fun a _ b ⟨c, h, h'⟩ => hl.trans _ _ _ h h') (each_through h3 h6)⟩

/-- A key does not match two names that are apart. -/
theorem matches_apart {lib : FoldLib} (hl : FoldLaws lib same) {key a b : List Byte} (ha : KeyMatches same cs key a) (hb : KeyMatches same cs key b) :
    ¬ Apart same cs a b := by
  rintro ⟨h1, h2⟩
  rcases ha with rfl | ⟨hc, ha⟩
  · rcases hb with rfl | ⟨hc, hb⟩
    · exact h1 rfl
    · exact h2 hc ((keyEq_symm hl).mp hb)
  · rcases hb with rfl | ⟨_, hb⟩
    · exact h2 hc ha
    · exact h2 hc (keyEq_trans hl ha ((keyEq_symm hl).mp hb))

theorem selects_matches {names : List (List Byte)} {key : List Byte} {i : Nat} (h : Selects same cs names key i) :
    ∃ n, names[i]? = some n ∧ KeyMatches same cs key n := by
  rcases h with h | ⟨_, hc, ⟨n, hn, h⟩, _⟩
  · exact ⟨key, h, .inl rfl⟩
  · exact ⟨n, hn, .inr ⟨hc, h⟩⟩

theorem selects_some {names : List (List Byte)} {key n : List Byte} {i : Nat} (hi : names[i]? = some n) (h : KeyMatches same cs key n) :
    ∃ i, Selects same cs names key i := by
  by_cases hk : key ∈ names
  · obtain ⟨j, hj⟩ := List.getElem?_of_mem hk
    exact ⟨j, .inl hj⟩
  · rcases h with rfl | ⟨hc, h⟩
    · exact absurd (List.mem_of_getElem? hi) hk
    · induction i using Nat.strongRecOn generalizing n with
      | ind i ih =>
        by_cases hj : ∃ j n, j < i ∧ names[j]? = some n ∧ KeyEq same n key
        · obtain ⟨j, n', h1, h2, h3⟩ := hj
          exact ih j h1 h2 h3
        · exact ⟨i, .inr ⟨hk, hc, ⟨n, hi, h⟩, fun j n' h1 h2 h3 => hj ⟨j, n', h1, h2, h3⟩⟩⟩

theorem names_get {fs : List Field} {i : Nat} {n : List Byte} : (fs.map Field.name)[i]? = some n ↔ ∃ f, fs[i]? = some f ∧ f.name = n := by
  simp

variable {old : Field → Field → Prop} {new : Field → Prop} {fs fs' : List Field}

/-- A field that is selected is selected among the further ones. -/
theorem selects_up {lib : FoldLib} (hl : FoldLaws lib same) (h : Merged old new fs fs') (ho : ∀ f f', old f f' → f.name = f'.name)
    (hn : ∀ f', new f' → ∀ f ∈ fs, Apart same cs f.name f'.name) {key : List Byte} {n : Nat}
    (hs : SelectsHere same cs (fs.map Field.name) key n) :
    ∃ n' f f', fs[n]? = some f ∧ fs'[n']? = some f' ∧ old f f' ∧ SelectsHere same cs (fs'.map Field.name) key n' := by
  obtain ⟨hs, hs1⟩ := hs
  obtain ⟨x, hx, hm⟩ := selects_matches hs
  obtain ⟨f, hf, rfl⟩ := names_get.mp hx
  obtain ⟨n', f', h1, h2, h3⟩ := merged_get h hf
  have hname := ho f f' h2
  refine ⟨n', f, f', hf, h1, h2, ?_, fun hone => ?_⟩
  · rcases hs with hs | ⟨hno, hc, ⟨x, hx', hk⟩, hfirst⟩
    · rw [hx] at hs
      cases hs
      exact .inl (names_get.mpr ⟨f', h1, hname.symm⟩)
    · rw [hx] at hx'
      cases hx'
      refine .inr ⟨fun hmem => ?_, hc, ⟨f'.name, names_get.mpr ⟨f', h1, rfl⟩, hname ▸ hk⟩, fun j y hj hy hky => ?_⟩
      · obtain ⟨g', hg, rfl⟩ := List.mem_map.mp hmem
        obtain ⟨m, hg⟩ := List.getElem?_of_mem hg
        rcases merged_back h hg with ⟨m', g, h4, h5⟩ | h4
        · exact hno (List.mem_map.mpr ⟨g, List.mem_of_getElem? h4, ho g g' h5⟩)
        · exact matches_apart hl hm (.inl rfl) (hn g' h4 f (List.mem_of_getElem? hf))
      · obtain ⟨g', hg, rfl⟩ := names_get.mp hy
        rcases h3 j g' hj hg with ⟨m, g, h4, h5, h6⟩ | h4
        · exact hfirst m g.name h4 (names_get.mpr ⟨g, h5, rfl⟩) (ho g g' h6 ▸ hky)
        · exact matches_apart hl hm (.inr ⟨hc, hky⟩) (hn g' h4 f (List.mem_of_getElem? hf))
  · rw [List.length_map] at hone
    have hlen := merged_length h
    have hpos := (List.getElem?_eq_some_iff.mp hf).1
    obtain ⟨g', rfl⟩ := List.length_eq_one_iff.mp hone
    obtain ⟨g, rfl⟩ := List.length_eq_one_iff.mp (show fs.length = 1 by simp at hlen; omega)
    have hg := ho g g' (merged_single h)
    have := hs1 rfl
    simpa [hg] using this

/-- A field that is selected among the further ones is selected, or is a further one and then none of the others is selected. -/
theorem selects_down {lib : FoldLib} (hl : FoldLaws lib same) (h : Merged old new fs fs') (ho : ∀ f f', old f f' → f.name = f'.name)
    (hn : ∀ f', new f' → ∀ f ∈ fs, Apart same cs f.name f'.name)
    (hone : ∀ f, fs = [f] → (∃ f', fs' = [f']) ∨ cs = true ∨ (∃ c ∈ f.name, ¬ c < 0x80) ∨ ∀ key, KeyEq same f.name key → ∀ c ∈ key, c < 0x80)
    (huniq : ∀ key i j, SelectsHere same cs (fs'.map Field.name) key i → SelectsHere same cs (fs'.map Field.name) key j → i = j)
    {key : List Byte} {n' : Nat} (hs : SelectsHere same cs (fs'.map Field.name) key n') :
    ∃ f', fs'[n']? = some f' ∧ ((∃ n f, fs[n]? = some f ∧ old f f' ∧ SelectsHere same cs (fs.map Field.name) key n) ∨
      (new f' ∧ KeyMatches same cs key f'.name ∧ ∀ n, ¬ SelectsHere same cs (fs.map Field.name) key n)) := by
  obtain ⟨x, hx, hm⟩ := selects_matches hs.1
  obtain ⟨f', hf', rfl⟩ := names_get.mp hx
  refine ⟨f', hf', ?_⟩
  by_cases hex : ∃ n, SelectsHere same cs (fs.map Field.name) key n
  · obtain ⟨n, hn1⟩ := hex
    obtain ⟨m, f, g', h1, h2, h3, h4⟩ := selects_up hl h ho hn hn1
    obtain rfl := huniq key _ _ hs h4
    rw [hf'] at h2
    cases h2
    exact .inl ⟨n, f, h1, h3, hn1⟩
  · have hnone : ∀ n, ¬ SelectsHere same cs (fs.map Field.name) key n := fun n h => hex ⟨n, h⟩
    rcases merged_back h hf' with ⟨n, f, h1, h2⟩ | h1
    · exfalso
      have hname := ho f f' h2
      have hm' : KeyMatches same cs key f.name := hname ▸ hm
      obtain ⟨i, hi⟩ := selects_some (names_get.mpr ⟨f, h1, rfl⟩) hm'
      refine hnone i ⟨hi, fun hlen => ?_⟩
      rw [List.length_map] at hlen
      obtain ⟨g, rfl⟩ := List.length_eq_one_iff.mp hlen
      have : f = g := by
        have := List.mem_of_getElem? h1
        simpa using this
      subst this
      rcases hone f rfl with ⟨g', rfl⟩ | hc | ⟨c, hc, hc'⟩ | hk
      · have hg := ho f g' (merged_single h)
        have := hs.2 rfl
        simpa [hg] using this
      · exact .inl hc
      · exact .inr (.inr ⟨f.name, by simp, c, hc, hc'⟩)
      · rcases hm' with rfl | ⟨_, hm'⟩
        · by_cases ha : ∀ c ∈ f.name, c < 0x80
          · exact .inr (.inl ha)
          · simp only [Classical.not_forall] at ha
            obtain ⟨c, hc, hc'⟩ := ha
            exact .inr (.inr ⟨f.name, by simp, c, hc, hc'⟩)
        · exact .inr (.inl (hk key hm'))
    · exact .inr ⟨h1, hm, hnone⟩

end

/-! ## Values -/

section
variable {F : Type} {Γ : TyEnv F} {cfg : DecCfg F} {L : Nat → List Ty} {place : Nat → Nat → Nat → Nat} {extra : Nat → Nat → Val F → Prop}

theorem part_eq {T T' : Ty} {v v' : Val F} (h : Narrowed Γ L place extra T T' v v') (hT : T = T') : v = v' := by
  cases h with
  | same | nilPtr | nilSlice | nilMap => rfl
  | ptr _ _ _ _ hne => exact absurd (Ty.ptr.inj hT) hne
  | struct _ _ _ _ _ _ hne => exact absurd (Ty.named.inj hT) hne
  | slice _ _ _ _ _ _ hne => exact absurd hT hne
  | arr _ _ _ _ _ _ _ hne => exact absurd hT hne
  | map _ _ _ _ _ _ _ hne => exact absurd hT hne

theorem is_def {T : Ty} {d d' : Def} (h : Is Γ T d) (h' : Is Γ T d') : d = d' := by
  cases h with
  | named i _ h => cases h' with
    | named _ _ h' => rw [← h, ← h']
  | _ => cases h'; rfl

theorem part_ptr {T T' : Ty} {v v' : Val F} (hne : T ≠ T') (h : Narrowed Γ L place extra (.ptr T) (.ptr T') v v') :
    (v = .nilPtr ∧ v' = .nilPtr) ∨ ∃ x x', v = .ptr x ∧ v' = .ptr x' ∧ Narrowed Γ L place extra T T' x x' := by
  cases h with
  | same => exact absurd rfl hne
  | nilPtr => exact .inl ⟨rfl, rfl⟩
  | ptr _ _ x x' _ h => exact .inr ⟨x, x', rfl, rfl, h⟩
  | nilSlice _ _ _ _ hS => cases hS
  | slice _ _ _ _ _ _ _ hS => cases hS
  | arr _ _ _ _ _ _ _ _ hS => cases hS
  | nilMap _ _ _ _ _ hS => cases hS
  | map _ _ _ _ _ _ _ _ hS => cases hS

theorem part_arr {S S' T T' : Ty} {n : Nat} {v v' : Val F} (hne : S ≠ S') (hS : Is Γ S (.array n T)) (hS' : Is Γ S' (.array n T'))
    (h : Narrowed Γ L place extra S S' v v') : ∃ xs ys, v = .arr xs ∧ v' = .arr ys ∧ xs.length = ys.length ∧
      ∀ (k : Nat) x y, xs[k]? = some x → ys[k]? = some y → Narrowed Γ L place extra T T' x y := by
  cases h with
  | same => exact absurd rfl hne
  | nilPtr | ptr => cases hS
  | nilSlice _ _ _ _ hS1 => cases is_def hS hS1
  | slice _ _ _ _ _ _ _ hS1 => cases is_def hS hS1
  | arr _ _ _ _ _ xs ys _ hS1 hS2 hn h =>
    cases is_def hS hS1
    cases is_def hS' hS2
    exact ⟨xs, ys, rfl, rfl, hn, h⟩
  | nilMap _ _ _ _ _ hS1 => cases is_def hS hS1
  | map _ _ _ _ _ _ _ _ hS1 => cases is_def hS hS1
  | struct _ _ _ _ _ _ _ hd =>
    cases is_def hS (.named _ _ hd)

theorem part_map {S S' T T' : Ty} {K : KeyTy} {v v' : Val F} (hne : S ≠ S') (hS : Is Γ S (.map K T)) (hS' : Is Γ S' (.map K T'))
    (h : Narrowed Γ L place extra S S' v v') : (v = .nilMap ∧ v' = .nilMap) ∨ ∃ m m', v = .map m ∧ v' = .map m' ∧
      (∀ k, (m k).isSome = (m' k).isSome) ∧ ∀ k x y, m k = some x → m' k = some y → Narrowed Γ L place extra T T' x y := by
  cases h with
  | same => exact absurd rfl hne
  | nilPtr | ptr => cases hS
  | nilSlice _ _ _ _ hS1 => cases is_def hS hS1
  | slice _ _ _ _ _ _ _ hS1 => cases is_def hS hS1
  | arr _ _ _ _ _ _ _ _ hS1 => cases is_def hS hS1
  | nilMap => exact .inl ⟨rfl, rfl⟩
  | map _ _ _ _ _ m m' _ hS1 hS2 hk h =>
    cases is_def hS hS1
    cases is_def hS' hS2
    exact .inr ⟨m, m', rfl, rfl, hk, h⟩
  | struct _ _ _ _ _ _ _ hd =>
    cases is_def hS (.named _ _ hd)

/-- Two struct values on the way. -/
structure Beside (Γ : TyEnv F) (L : Nat → List Ty) (place : Nat → Nat → Nat → Nat) (extra : Nat → Nat → Val F → Prop) (i j : Nat)
    (xs ys : List (Val F)) : Prop where
  len : xs.length = (L i).length
  len' : ys.length = (L j).length
  both : ∀ (k : Nat) (T T' : Ty) x y, (L i)[k]? = some T → (L j)[place i j k]? = some T' → xs[k]? = some x → ys[place i j k]? = some y →
    Narrowed Γ L place extra T T' x y
  more : ∀ (l : Nat) y, (∀ k, k < (L i).length → place i j k ≠ l) → ys[l]? = some y → extra j l y

theorem part_struct {i j : Nat} {fs fs' : List Field} {v v' : Val F} (hne : i ≠ j) (hd : Γ.defn i = .struct fs) (hd' : Γ.defn j = .struct fs')
    (h : Narrowed Γ L place extra (.named i) (.named j) v v') : ∃ xs ys, v = .struct xs ∧ v' = .struct ys ∧ Beside Γ L place extra i j xs ys := by
  have hS : Is Γ (.named i) (.struct fs) := .named _ _ hd
  cases h with
  | same => exact absurd rfl hne
  | nilSlice _ _ _ _ hS1 => cases is_def hS hS1
  | slice _ _ _ _ _ _ _ hS1 => cases is_def hS hS1
  | arr _ _ _ _ _ _ _ _ hS1 => cases is_def hS hS1
  | nilMap _ _ _ _ _ hS1 => cases is_def hS hS1
  | map _ _ _ _ _ _ _ _ hS1 => cases is_def hS hS1
  | struct _ _ _ _ xs ys _ _ _ hn hn' h hx => exact ⟨xs, ys, rfl, rfl, hn, hn', h, hx⟩

variable {same : Nat → Nat → Prop} {cs : Bool} {P : Ty → Ty → Prop}

theorem part_zero (hz : ZeroValues Γ cfg L) (hP : ∀ T T', P T T' → GrownBy Γ same cs L place P T T')
    (hx : ∀ (j l : Nat) T, (L j)[l]? = some T → extra j l (Γ.zero cfg T)) {T T' : Ty} (h : P T T') :
    Narrowed Γ L place extra T T' (Γ.zero cfg T) (Γ.zero cfg T') := by
  generalize hn : sizeOf (Γ.zero cfg T) = n
  induction n using Nat.strongRecOn generalizing T T' with
  | ind n ih =>
    subst hn
    by_cases hne : T = T'
    · subst hne
      exact .same _ _
    · cases hP T T' h with
      | same => exact .same _ _
      | ptr => exact .nilPtr _ _
      | slice _ _ E E' hS hS' =>
        have z : ∀ {S E}, Is Γ S (.slice E) → Γ.zero cfg S = .nilSlice := by
          intro S E h
          cases h with
          | slice => rfl
          | named i _ h => exact hz.slice i _ h
        rw [z hS, z hS']
        exact .nilSlice _ _ _ _ hS hS'
      | map _ _ E E' K hS hS' =>
        have z : ∀ {S K E}, Is Γ S (.map K E) → Γ.zero cfg S = .nilMap := by
          intro S K E h
          cases h with
          | map => rfl
          | named i _ h => exact hz.map i _ _ h
        rw [z hS, z hS']
        exact .nilMap _ _ _ _ K hS hS'
      | array _ _ E E' m hS hS' hE =>
        have z : ∀ {S E}, Is Γ S (.array m E) → Γ.zero cfg S = .arr (List.replicate m (Γ.zero cfg E)) := by
          intro S E h
          cases h with
          | array => rfl
          | named i _ h => exact hz.array i _ _ h
        rw [z hS] at ih ⊢
        rw [z hS']
        refine .arr _ _ _ _ m _ _ hne hS hS' (by simp) fun k x y hx hy => ?_
        have h1 := List.mem_of_getElem? hx
        have h2 := List.sizeOf_lt_of_mem h1
        rw [List.eq_of_mem_replicate h1] at h2 ⊢
        rw [List.eq_of_mem_replicate (List.mem_of_getElem? hy)]
        exact ih _ (by simp only [Val.arr.sizeOf_spec]; omega) hE rfl
      | struct i j fs fs' hd hd' hw =>
        have z1 := hz.struct i fs hd
        have z2 := hz.struct j fs' hd'
        simp only [TyEnv.zero, z1, z2] at ih ⊢
        refine .struct i j fs fs' _ _ (fun e => hne (by rw [e])) hd hd' (by simp) (by simp) (fun k U U' x y hU hU' hx hy => ?_) fun l y _ hy => ?_
        · rw [List.getElem?_map, hU] at hx
          rw [List.getElem?_map, hU'] at hy
          cases hx
          cases hy
          obtain ⟨U'', h3, h4⟩ := hw.members k U hU
          rw [hU'] at h3
          cases h3
          have h1 : Γ.zero cfg U ∈ (L i).map (Γ.zero cfg) := List.mem_map.mpr ⟨U, List.mem_of_getElem? hU, rfl⟩
          have h2 := List.sizeOf_lt_of_mem h1
          exact ih _ (by simp only [Val.struct.sizeOf_spec]; omega) h4 rfl
        · rw [List.getElem?_map] at hy
          cases hU : (L j)[l]? with
          | none =>
            rw [hU] at hy
            cases hy
          | some U =>
            rw [hU] at hy
            cases hy
            exact hx j l U hU

end

/-! ## One kind of type after the other -/

section
variable {F : Type}

theorem each_carry {A B C : Type} {Q : A → B → Prop} {Q' : A → C → Prop} {R : B → C → Prop} {as : List A} {bs : List B} (h : Each Q as bs)
    (hc : ∀ a ∈ as, ∀ b, Q a b → ∃ c, Q' a c ∧ R b c) : ∃ cs, Each Q' as cs ∧ Each R bs cs := by
  induction h with
  | nil => exact ⟨[], .nil, .nil⟩
  | cons h _ ih =>
    obtain ⟨c, h1, h2⟩ := hc _ (by simp) _ h
    obtain ⟨cs, h3, h4⟩ := ih fun a ha => hc a (by simp [ha])
    exact ⟨c :: cs, .cons h1 h3, .cons h2 h4⟩

theorem list_choose {A B : Type} {as : List A} {Q : Nat → A → B → Prop} (h : ∀ (i : Nat) a, as[i]? = some a → ∃ b, Q i a b) :
    ∃ bs : List B, bs.length = as.length ∧ ∀ (i : Nat) a b, as[i]? = some a → bs[i]? = some b → Q i a b := by
  induction as generalizing Q with
  | nil => exact ⟨[], rfl, fun i a b ha => by simp at ha⟩
  | cons a as ih =>
    obtain ⟨b, hb⟩ := h 0 a rfl
    obtain ⟨bs, h1, h2⟩ := ih (Q := fun i => Q (i + 1)) fun i a ha => h (i + 1) a (by simpa using ha)
    refine ⟨b :: bs, by simp [h1], fun i x y hx hy => ?_⟩
    cases i with
    | zero =>
      cases hx
      cases hy
      exact hb
    | succ i => exact h2 i x y (by simpa using hx) (by simpa using hy)

variable {D D' : Rel F} {R : Val F → Val F → Prop} {z z' : Val F} {Q : List Byte → Prop} {t : List Byte} {o : DecOpts} {old old' v : Val F}

theorem ptr_carry (hz : R z z') (hold : (old = .nilPtr ∧ old' = .nilPtr) ∨ ∃ x x', old = .ptr x ∧ old' = .ptr x' ∧ R x x')
    (h : ∀ x x' v, R x x' → D o x t v → ∃ v', D' o x' t v' ∧ R v v') (hv : PtrRel z D o old t v) :
    ∃ v', PtrRel z' D' o old' t v' ∧ ((v = .nilPtr ∧ v' = .nilPtr) ∨ ∃ x x', v = .ptr x ∧ v' = .ptr x' ∧ R x x') := by
  have hp : R (pointee z old) (pointee z' old') := by
    rcases hold with ⟨rfl, rfl⟩ | ⟨x, x', rfl, rfl, h⟩
    · exact hz
    · exact h
  rcases hv with ⟨rfl, rfl⟩ | ⟨hn, x, h1, rfl⟩
  · exact ⟨_, .inl ⟨rfl, rfl⟩, .inl ⟨rfl, rfl⟩⟩
  · obtain ⟨x', h2, h3⟩ := h _ _ _ hp h1
    exact ⟨_, .inr ⟨hn, x', h2, rfl⟩, .inr ⟨x, x', rfl, rfl, h3⟩⟩

theorem slice_carry {base64 : List Byte → Except Err (List Byte)} (hs : ∀ o a u b, D o a u b → Solid u)
    (hQ : ∀ ts, ArrayOf t ts → (∀ u ∈ ts, Solid u) → ∀ u ∈ ts, Q u)
    (h : ∀ u v, Q u → D {} z u v → ∃ v', D' {} z' u v' ∧ R v v') (hv : SliceRel base64 false z D o old t v) :
    ∃ v', SliceRel base64 false z' D' o old' t v' ∧ ((v = .nilSlice ∧ v' = .nilSlice) ∨
      ∃ xs ys, v = .slice xs ∧ v' = .slice ys ∧ xs.length = ys.length ∧ ∀ (k : Nat) x y, xs[k]? = some x → ys[k]? = some y → R x y) := by
  rcases hv with ⟨rfl, rfl⟩ | ⟨h, _⟩ | ⟨ts, vs, h1, h2, rfl⟩
  · exact ⟨_, .inl ⟨rfl, rfl⟩, .inl ⟨rfl, rfl⟩⟩
  · cases h
  · have h3 := hQ ts h1 fun u hu => by
      obtain ⟨b, _, hb⟩ := each_left h2 hu
      exact hs _ _ _ _ hb
    obtain ⟨vs', h4, h5⟩ := each_carry h2 fun u hu v hv => h u v (h3 u hu) hv
    exact ⟨_, .inr (.inr ⟨ts, vs', h1, h4, rfl⟩), .inr ⟨vs, vs', rfl, rfl, each_length h5, fun k x y hx hy => each_get h5 hx hy⟩⟩

theorem array_carry {n : Nat} (hs : ∀ o a u b, D o a u b → Solid u) (hQ : ∀ ts, ArrayOf t ts → (∀ u ∈ ts, Solid u) → ∀ u ∈ ts, Q u)
    (hz : R z z') (hold : ∃ xs ys, old = .arr xs ∧ old' = .arr ys ∧ xs.length = ys.length ∧
      ∀ (k : Nat) x y, xs[k]? = some x → ys[k]? = some y → R x y)
    (h : ∀ u a a' v, Q u → R a a' → D {} a u v → ∃ v', D' {} a' u v' ∧ R v v') (hv : ArrayRel n z D o old t v) :
    ∃ v', ArrayRel n z' D' o old' t v' ∧ 
      ∃ xs ys, v = .arr xs ∧ v' = .arr ys ∧ xs.length = ys.length ∧ ∀ (k : Nat) x y, xs[k]? = some x → ys[k]? = some y → R x y := by
  rcases hv with ⟨rfl, rfl⟩ | ⟨ts, vs, h1, rfl, h2, h3, h4, h5⟩
  · exact ⟨_, .inl ⟨rfl, rfl⟩, hold⟩
  · obtain ⟨xs, ys, rfl, rfl, hlen, hel⟩ := hold
    have el : ∀ k : Nat, R (element z (.arr xs) k) (element z' (.arr ys) k) := by
      intro k
      simp only [element]
      by_cases hk : k < xs.length
      · rw [List.getElem?_eq_getElem hk, List.getElem?_eq_getElem (hlen ▸ hk)]
        exact hel k _ _ (List.getElem?_eq_getElem hk) (List.getElem?_eq_getElem (hlen ▸ hk))
      · rw [List.getElem?_eq_none (by omega), List.getElem?_eq_none (by omega)]
        exact hz
    have hq := hQ ts h1 fun u hu => by
      obtain ⟨i, hi⟩ := List.getElem?_of_mem hu
      by_cases hk : i < n
      · exact hs _ _ _ _ (h4 i u _ hi (List.getElem?_eq_getElem (h2.symm ▸ hk)))
      · exact .value (h3 i u hi (by omega)).choose_spec
    obtain ⟨vs', h6, h7⟩ := list_choose (as := vs) (Q := fun i x y => R x y ∧ (∀ u, ts[i]? = some u → D' {} (element z' (.arr ys) i) u y) ∧
        (ts.length ≤ i → y = z')) fun i x hx => by
      by_cases hi : i < ts.length
      · have hu := List.getElem?_eq_getElem hi
        obtain ⟨y, h8, h9⟩ := h _ _ _ _ (hq _ (List.getElem_mem hi)) (el i) (h4 i _ x hu hx)
        refine ⟨y, h9, fun u hu' => ?_, fun hi' => absurd hi' (by omega)⟩
        rw [hu] at hu'
        cases hu'
        exact h8
      · refine ⟨z', ?_, fun u hu => absurd (List.getElem?_eq_some_iff.mp hu).1 hi, fun _ => rfl⟩
        rw [h5 i x (by omega) hx]
        exact hz
    have get : ∀ (i : Nat) (y : Val F), vs'[i]? = some y → ∃ x, vs[i]? = some x := fun i y hy =>
      ⟨_, List.getElem?_eq_getElem (h6 ▸ (List.getElem?_eq_some_iff.mp hy).1)⟩
    refine ⟨.arr vs', .inr ⟨ts, vs', h1, rfl, h6.trans h2, h3, fun i u y hu hy => ?_, fun i y hi hy => ?_⟩, vs, vs', rfl, rfl, h6.symm,
      fun k x y hx hy => (h7 k x y hx hy).1⟩
    · obtain ⟨x, hx⟩ := get i y hy
      exact (h7 i x y hx hy).2.1 u hu
    · obtain ⟨x, hx⟩ := get i y hy
      exact (h7 i x y hx hy).2.2 hi

theorem map_carry {K : List Byte → Key → Prop} (hK : ∀ t k, K t k → Solid t) (hs : ∀ o a u b, D o a u b → Solid u)
    (hQ : ∀ ms, ObjectOf t ms → (∀ m ∈ ms, Solid m.1 ∧ Solid m.2) → ∀ m ∈ ms, Q m.2)
    (hold : (old = .nilMap ∧ old' = .nilMap) ∨ ∃ m m', old = .map m ∧ old' = .map m' ∧ (∀ k, (m k).isSome = (m' k).isSome) ∧
      ∀ k x y, m k = some x → m' k = some y → R x y)
    (h : ∀ u v, Q u → D {} z u v → ∃ v', D' {} z' u v' ∧ R v v') (hv : MapRel K z D o old t v) :
    ∃ v', MapRel K z' D' o old' t v' ∧ ((v = .nilMap ∧ v' = .nilMap) ∨ ∃ m m', v = .map m ∧ v' = .map m' ∧
      (∀ k, (m k).isSome = (m' k).isSome) ∧ ∀ k x y, m k = some x → m' k = some y → R x y) := by
  rcases hv with ⟨rfl, rfl⟩ | ⟨ms, xs, h1, h2, rfl⟩
  · exact ⟨_, .inl ⟨rfl, rfl⟩, .inl ⟨rfl, rfl⟩⟩
  · have hq := hQ ms h1 fun m hm => by
      obtain ⟨x, _, h3, h4⟩ := each_left h2 hm
      exact ⟨hK _ _ h3, hs _ _ _ _ h4⟩
    obtain ⟨ys, h3, h4⟩ := each_carry (C := Key × Val F) (Q' := fun m x => K m.1 x.1 ∧ D' {} z' m.2 x.2)
      (R := fun (x y : Key × Val F) => x.1 = y.1 ∧ R x.2 y.2) h2
      fun m hm x hx => by
        obtain ⟨y, h5, h6⟩ := h _ _ (hq m hm) hx.2
        exact ⟨(x.1, y), ⟨hx.1, h5⟩, rfl, h6⟩
    refine ⟨_, .inr ⟨ms, ys, h1, h3, rfl⟩, .inr ⟨_, _, rfl, rfl, ?_⟩⟩
    have he : (∀ k, (entries old k).isSome = (entries old' k).isSome) ∧ ∀ k x y, entries old k = some x → entries old' k = some y → R x y := by
      rcases hold with ⟨rfl, rfl⟩ | ⟨m, m', rfl, rfl, h⟩
      · exact ⟨fun _ => rfl, fun k x y hx => by cases hx⟩
      · exact h
    rw [putAll_none (m := entries old), putAll_none (m := entries old')]
    have both := fun k => putAll_each (R := R) h4 k
    refine ⟨fun k => ?_, fun k x y hx hy => ?_⟩
    · rcases both k with ⟨h5, h6⟩ | ⟨x, y, h5, h6, _⟩
      · simp only [h5, h6, Option.none_or]
        exact he.1 k
      · simp only [h5, h6, Option.some_or, Option.isSome_some]
    · rcases both k with ⟨h5, h6⟩ | ⟨x, y, h5, h6, h7⟩
      · simp only [h5, h6, Option.none_or] at hx hy
        exact he.2 k x y hx hy
      · simp only [h5, h6, Option.some_or] at hx hy
        cases hx
        cases hy
        exact h7

end

/-! ## Structs -/

section
variable {F : Type} {Γ : TyEnv F} {cfg : DecCfg F} {L : Nat → List Ty} {place : Nat → Nat → Nat → Nat} {extra : Nat → Nat → Val F → Prop}
variable {same : Nat → Nat → Prop} {cs : Bool} {P : Ty → Ty → Prop} {i j : Nat} {fs fs' : List Field} {xs ys : List (Val F)}

theorem beside_set (hw : Wider same cs L P (place i j) i j fs fs') (h : Beside Γ L place extra i j xs ys) {k : Nat} {T T' : Ty} {x y : Val F}
    (hT : (L i)[k]? = some T) (hT' : (L j)[place i j k]? = some T') (hn : Narrowed Γ L place extra T T' x y) :
    Beside Γ L place extra i j (xs.set k x) (ys.set (place i j k) y) := by
  have hk := (List.getElem?_eq_some_iff.mp hT).1
  refine ⟨by simp [h.len], by simp [h.len'], fun m U U' a b hU hU' ha hb => ?_, fun l b hl hb => ?_⟩
  · by_cases hm : k = m
    · subst hm
      rw [List.getElem?_set_self (h.len ▸ hk)] at ha
      rw [List.getElem?_set_self (h.len' ▸ (List.getElem?_eq_some_iff.mp hT').1)] at hb
      rw [hT] at hU
      rw [hT'] at hU'
      cases hU
      cases hU'
      cases ha
      cases hb
      exact hn
    · have hm' : place i j k ≠ place i j m := fun e => hm (hw.inj k m hk (List.getElem?_eq_some_iff.mp hU).1 e)
      rw [List.getElem?_set_ne hm] at ha
      rw [List.getElem?_set_ne hm'] at hb
      exact h.both m U U' a b hU hU' ha hb
  · rw [List.getElem?_set_ne (hl k hk)] at hb
    exact h.more l b hl hb

theorem beside_more (h : Beside Γ L place extra i j xs ys) {l : Nat} {y : Val F} (hl : ∀ k, k < (L i).length → place i j k ≠ l)
    (hy : extra j l y) : Beside Γ L place extra i j xs (ys.set l y) := by
  refine ⟨h.len, by simp [h.len'], fun m U U' a b hU hU' ha hb => ?_, fun m b hm hb => ?_⟩
  · rw [List.getElem?_set_ne (fun e => hl m (List.getElem?_eq_some_iff.mp hU).1 e.symm)] at hb
    exact h.both m U U' a b hU hU' ha hb
  · by_cases e : l = m
    · subst e
      rw [List.getElem?_set_self'] at hb
      cases hy' : ys[l]? with
      | none =>
        rw [hy'] at hb
        cases hb
      | some _ =>
        rw [hy'] at hb
        cases hb
        exact hy
    · rw [List.getElem?_set_ne e] at hb
      exact h.more m b hm hb

/-- The fields correspond to each other. -/
abbrev KeptField (L : Nat → List Ty) (place : Nat → Nat) (i j : Nat) (f f' : Field) : Prop :=
  f.name = f'.name ∧ f.quoted = f'.quoted ∧ ∃ k p, f.path = .member k :: p ∧ f'.path = .member (place k) :: p ∧
    (p = [] ∨ f.ty = f'.ty ∧ (L i)[k]? = (L j)[place k]?)

theorem kept_places (hD : Declared Γ L) (hd : Γ.defn i = .struct fs) (hd' : Γ.defn j = .struct fs') {f f' : Field} (hf : f ∈ fs)
    (hf' : f' ∈ fs') (h : KeptField L (place i j) i j f f') : ∃ k p T T', f.path = .member k :: p ∧ f'.path = .member (place i j k) :: p ∧
      (L i)[k]? = some T ∧ (L j)[place i j k]? = some T' ∧ ((p = [] ∧ f.ty = T ∧ f'.ty = T') ∨ (f.ty = f'.ty ∧ T = T')) := by
  obtain ⟨_, _, k, p, h1, h2, h3⟩ := h
  have t1 := hD.fields i fs f hd hf
  have t2 := hD.fields j fs' f' hd' hf'
  rw [h1] at t1
  rw [h2] at t2
  cases t1 with
  | member _ _ _ T _ _ _ hT hp =>
    cases t2 with
    | member _ _ _ T' _ _ _ hT' hp' =>
      refine ⟨k, p, T, T', h1, h2, hT, hT', ?_⟩
      rcases h3 with rfl | ⟨h3, h4⟩
      · refine .inl ⟨rfl, ?_, ?_⟩
        · cases hp
          rfl
        · cases hp'
          rfl
      · rw [hT, hT'] at h4
        exact .inr ⟨h3, Option.some.inj h4⟩

theorem atPath_member {zero : Ty → Val F} {G : Val F → Val F → Prop} {k : Nat} {p : List PathStep} {s' : Val F}
    (h : AtPath zero G (.member k :: p) (.struct xs) s') : ∃ a b, xs[k]? = some a ∧ s' = .struct (xs.set k b) ∧ AtPath zero G p a b := by
  cases h with
  | member _ _ _ a b hi h => exact ⟨a, b, hi, rfl, h⟩

/-- What the induction gives for the text of a member. -/
def Down (Γ : TyEnv F) (L : Nat → List Ty) (place : Nat → Nat → Nat → Nat) (extra : Nat → Nat → Val F → Prop) (P : Ty → Ty → Prop)
    (R : Ty → Rel F) (u : List Byte) : Prop :=
  ∀ T T', P T T' → ∀ o old old' v', Narrowed Γ L place extra T T' old old' → R T' o old' u v' → ∃ v, R T o old u v ∧ Narrowed Γ L place extra T T' v v'

def Up (Γ : TyEnv F) (L : Nat → List Ty) (place : Nat → Nat → Nat → Nat) (extra : Nat → Nat → Val F → Prop) (P : Ty → Ty → Prop)
    (R : Ty → Rel F) (u : List Byte) : Prop :=
  ∀ T T', P T T' → ∀ o old old' v, Narrowed Γ L place extra T T' old old' → R T o old u v → ∃ v', R T' o old' u v' ∧ Narrowed Γ L place extra T T' v v'

variable {R : Ty → Rel F} {u : List Byte}

theorem field_down (hD : Declared Γ L) (hd : Γ.defn i = .struct fs) (hd' : Γ.defn j = .struct fs')
    (hw : Wider same cs L P (place i j) i j fs fs') (h : Beside Γ L place extra i j xs ys) (hu : Down Γ L place extra P R u) {f f' : Field} (hf : f ∈ fs) (hf' : f' ∈ fs')
    (hk : KeptField L (place i j) i j f f') {zero : Ty → Val F} {s' : Val F}
    (ha : AtPath zero (fun a b => R f'.ty { quoted := f'.quoted } a u b) f'.path (.struct ys) s') :
    ∃ xs' ys', s' = .struct ys' ∧ AtPath zero (fun a b => R f.ty { quoted := f.quoted } a u b) f.path (.struct xs) (.struct xs') ∧
      Beside Γ L place extra i j xs' ys' := by
  obtain ⟨k, p, T, T', h1, h2, hT, hT', h3⟩ := kept_places hD hd hd' hf hf' hk
  rw [h2] at ha
  obtain ⟨a, b, h4, rfl, h5⟩ := atPath_member ha
  have hx : xs[k]? = some _ := List.getElem?_eq_getElem (h.len ▸ (List.getElem?_eq_some_iff.mp hT).1)
  have hn := h.both k T T' _ a hT hT' hx h4
  rw [h1, hk.2.1]
  rcases h3 with ⟨rfl, h6, h7⟩ | ⟨h6, rfl⟩
  · cases h5 with
    | here _ _ h5 =>
      rw [h7] at h5
      obtain ⟨U, h8, h9⟩ := hw.members k T hT
      rw [hT'] at h8
      cases h8
      obtain ⟨b', h10, h11⟩ := hu _ _ h9 _ _ _ _ hn h5
      exact ⟨_, _, rfl, .member _ _ _ _ _ hx (.here _ _ (h6 ▸ h10)), beside_set hw h hT hT' h11⟩
  · have hxa := part_eq hn rfl
    rw [hxa] at hx
    exact ⟨_, _, rfl, .member _ _ _ _ _ hx (h6 ▸ h5), beside_set hw h hT hT' (.same _ _)⟩

theorem field_up (hD : Declared Γ L) (hd : Γ.defn i = .struct fs) (hd' : Γ.defn j = .struct fs')
    (hw : Wider same cs L P (place i j) i j fs fs') (h : Beside Γ L place extra i j xs ys) (hu : Up Γ L place extra P R u) {f f' : Field} (hf : f ∈ fs) (hf' : f' ∈ fs')
    (hk : KeptField L (place i j) i j f f') {zero : Ty → Val F} {s' : Val F}
    (ha : AtPath zero (fun a b => R f.ty { quoted := f.quoted } a u b) f.path (.struct xs) s') :
    ∃ xs' ys', s' = .struct xs' ∧ AtPath zero (fun a b => R f'.ty { quoted := f'.quoted } a u b) f'.path (.struct ys) (.struct ys') ∧
      Beside Γ L place extra i j xs' ys' := by
  obtain ⟨k, p, T, T', h1, h2, hT, hT', h3⟩ := kept_places hD hd hd' hf hf' hk
  rw [h1] at ha
  obtain ⟨a, b, h4, rfl, h5⟩ := atPath_member ha
  have hy : ys[place i j k]? = some _ := List.getElem?_eq_getElem (h.len' ▸ (List.getElem?_eq_some_iff.mp hT').1)
  have hn := h.both k T T' a _ hT hT' h4 hy
  rw [h2, ← hk.2.1]
  rcases h3 with ⟨rfl, h6, h7⟩ | ⟨h6, rfl⟩
  · cases h5 with
    | here _ _ h5 =>
      rw [h6] at h5
      obtain ⟨U, h8, h9⟩ := hw.members k T hT
      rw [hT'] at h8
      cases h8
      obtain ⟨b', h10, h11⟩ := hu _ _ h9 _ _ _ _ hn h5
      exact ⟨_, _, rfl, .member _ _ _ _ _ hy (.here _ _ (h7 ▸ h10)), beside_set hw h hT hT' h11⟩
  · have hxa := part_eq hn rfl
    rw [← hxa] at hy
    exact ⟨_, _, rfl, .member _ _ _ _ _ hy (h6 ▸ h5), beside_set hw h hT hT' (.same _ _)⟩

/-- How it is known that the further fields do no harm: their values do not matter and unknown names are accepted, or they do not occur. -/
def Harmless (Γ : TyEnv F) (cfg : DecCfg F) (same : Nat → Nat → Prop) (L : Nat → List Ty) (place : Nat → Nat → Nat → Nat)
    (extra : Nat → Nat → Val F → Prop) (P : Ty → Ty → Prop) (ok : List Byte → Prop) : Prop :=
  ((∀ j l y, extra j l y) ∧ cfg.disallowUnknownFields = false) ∨ ∀ s, ok s → Unadded Γ same cfg.caseSensitive L place P s

theorem new_unadded {ok : List Byte → Prop} (hok : ∀ s, ok s → Unadded Γ same cfg.caseSensitive L place P s) (hl : FoldLaws cfg.fold same)
    (hp : P (.named i) (.named j)) (hne : i ≠ j) (hd' : Γ.defn j = .struct fs') {t key s : List Byte} (hk : Str t key) (hs : Str t s) (ho : ok s) {f' : Field}
    (hf' : f' ∈ fs') {l : Nat} {p : List PathStep} (h1 : f'.path = .member l :: p) (h2 : ∀ k, k < (L i).length → place i j k ≠ l)
    (hm : KeyMatches same cfg.caseSensitive key f'.name) : False := by
  obtain rfl := Props.C13_denotation_unique hk hs
  exact matches_apart hl hm (.inl rfl) (hok _ ho i j fs' hp hne hd' f' hf' l p h1 h2)

theorem member_down (hl : TypeLaws Γ cfg same) (hD : Declared Γ L) (hd : Γ.defn i = .struct fs) (hd' : Γ.defn j = .struct fs')
    (hp : P (.named i) (.named j)) (hne : i ≠ j) (hw : Wider same cfg.caseSensitive L P (place i j) i j fs fs') {ok : List Byte → Prop}
    (hh : Harmless Γ cfg same L place extra P ok) {m : List Byte × List Byte} (hm : ∃ s, Str m.1 s ∧ ok s) (hv : IsValue m.2)
    (hu : Down Γ L place extra P R m.2) (h : Beside Γ L place extra i j xs ys) {s' : Val F}
    (hr : MemberRel cfg.disallowUnknownFields (Γ.zero cfg) (SelectsHere same cfg.caseSensitive (fs'.map Field.name)) fs' R (.struct ys) m s') :
    ∃ xs' ys', s' = .struct ys' ∧
      MemberRel cfg.disallowUnknownFields (Γ.zero cfg) (SelectsHere same cfg.caseSensitive (fs.map Field.name)) fs R (.struct xs) m (.struct xs') ∧
      Beside Γ L place extra i j xs' ys' := by
  obtain ⟨key, hk, ⟨n', f', h1, h2, h3⟩ | ⟨h1, h2, h3, rfl⟩⟩ := hr
  · obtain ⟨g, h4, h5⟩ := selects_down hl.fold hw.fields (fun f f' h => h.1) (fun f' h => h.2) hw.single
      (fun key a b ha hb => by
        obtain ⟨o, _, ho⟩ := hl.decLaws.finds j fs' hd' key
        have := ((ho a).mp ha).symm.trans ((ho b).mp hb)
        exact Option.some.inj this) h1
    rw [h2] at h4
    cases h4
    rcases h5 with ⟨n, f, h6, h7, h8⟩ | ⟨h6, h7, h8⟩
    · obtain ⟨xs', ys', rfl, h9, h10⟩ := field_down hD hd hd' hw h hu (List.mem_of_getElem? h6) (List.mem_of_getElem? h2) h7 h3
      exact ⟨xs', ys', rfl, ⟨key, hk, .inl ⟨n, f, h8, h6, h9⟩⟩, h10⟩
    · obtain ⟨⟨l, p, h9, h10⟩, _⟩ := h6
      rcases hh with ⟨hx, hs⟩ | hok
      · rw [h9] at h3
        obtain ⟨a, b, _, rfl, _⟩ := atPath_member h3
        exact ⟨xs, _, rfl, ⟨key, hk, .inr ⟨h8, hs, hv, rfl⟩⟩, beside_more h h10 (hx j l b)⟩
      · obtain ⟨s, hs, ho⟩ := hm
        exact (new_unadded hok hl.fold hp hne hd' hk hs ho (List.mem_of_getElem? h2) h9 h10 h7).elim
  · refine ⟨xs, ys, rfl, ⟨key, hk, .inr ⟨fun n hn => ?_, h2, h3, rfl⟩⟩, h⟩
    obtain ⟨n', _, _, _, _, _, h4⟩ := selects_up hl.fold hw.fields (fun f f' h => h.1) (fun f' h => h.2) hn
    exact h1 n' h4

theorem member_up (hl : TypeLaws Γ cfg same) (hD : Declared Γ L) (hd : Γ.defn i = .struct fs) (hd' : Γ.defn j = .struct fs')
    (hp : P (.named i) (.named j)) (hne : i ≠ j) (hw : Wider same cfg.caseSensitive L P (place i j) i j fs fs') {ok : List Byte → Prop}
    (hok : ∀ s, ok s → Unadded Γ same cfg.caseSensitive L place P s) {m : List Byte × List Byte} (hm : ∃ s, Str m.1 s ∧ ok s)
    (hu : Up Γ L place extra P R m.2) (h : Beside Γ L place extra i j xs ys) {s' : Val F}
    (hr : MemberRel cfg.disallowUnknownFields (Γ.zero cfg) (SelectsHere same cfg.caseSensitive (fs.map Field.name)) fs R (.struct xs) m s') :
    ∃ xs' ys', s' = .struct xs' ∧
      MemberRel cfg.disallowUnknownFields (Γ.zero cfg) (SelectsHere same cfg.caseSensitive (fs'.map Field.name)) fs' R (.struct ys) m (.struct ys') ∧
      Beside Γ L place extra i j xs' ys' := by
  obtain ⟨key, hk, ⟨n, f, h1, h2, h3⟩ | ⟨h1, h2, h3, rfl⟩⟩ := hr
  · obtain ⟨n', g, f', h4, h5, h6, h7⟩ := selects_up hl.fold hw.fields (fun f f' h => h.1) (fun f' h => h.2) h1
    rw [h2] at h4
    cases h4
    obtain ⟨xs', ys', rfl, h9, h10⟩ := field_up hD hd hd' hw h hu (List.mem_of_getElem? h2) (List.mem_of_getElem? h5) h6 h3
    exact ⟨xs', ys', rfl, ⟨key, hk, .inl ⟨n', f', h7, h5, h9⟩⟩, h10⟩
  · refine ⟨xs, ys, rfl, ⟨key, hk, .inr ⟨fun n' hn => ?_, h2, h3, rfl⟩⟩, h⟩
    obtain ⟨f', h4, ⟨n, f, _, _, h5⟩ | ⟨⟨⟨l, p, h5, h6⟩, _⟩, h7, _⟩⟩ := selects_down hl.fold hw.fields (fun f f' h => h.1) (fun f' h => h.2) hw.single
      (fun key a b ha hb => by
        obtain ⟨o, _, ho⟩ := hl.decLaws.finds j fs' hd' key
        have := ((ho a).mp ha).symm.trans ((ho b).mp hb)
        exact Option.some.inj this) hn
    · exact h1 n h5
    · obtain ⟨s, hs, ho⟩ := hm
      exact new_unadded hok hl.fold hp hne hd' hk hs ho (List.mem_of_getElem? h4) h5 h6 h7

/-- Steps that keep two states together. -/
theorem visits_carry {X : Type} {G G' : Val F → X → Val F → Prop} {B : List (Val F) → List (Val F) → Prop} {ms : List X} {xs ys : List (Val F)} {s : Val F}
    (h : ∀ m ∈ ms, ∀ xs ys s, B xs ys → G (.struct xs) m s → ∃ xs' ys', s = .struct xs' ∧ G' (.struct ys) m (.struct ys') ∧ B xs' ys')
    (hb : B xs ys) (hv : Visits G (.struct xs) ms s) : ∃ xs' ys', s = .struct xs' ∧ Visits G' (.struct ys) ms (.struct ys') ∧ B xs' ys' := by
  induction ms generalizing xs ys with
  | nil =>
    cases hv
    exact ⟨xs, ys, rfl, .nil _, hb⟩
  | cons m ms ih =>
    cases hv with
    | cons h1 h2 =>
      obtain ⟨xs1, ys1, rfl, h3, h4⟩ := h m (by simp) xs ys _ hb h1
      obtain ⟨xs', ys', h5, h6, h7⟩ := ih (fun m hm => h m (by simp [hm])) h4 h2
      exact ⟨xs', ys', h5, .cons h3 h6, h7⟩

theorem beside_part (hne : i ≠ j) (hd : Γ.defn i = .struct fs) (hd' : Γ.defn j = .struct fs') (h : Beside Γ L place extra i j xs ys) :
    Narrowed Γ L place extra (.named i) (.named j) (.struct xs) (.struct ys) :=
  .struct i j fs fs' xs ys hne hd hd' h.len h.len' h.both h.more

theorem keyRel_solid {K : KeyTy} {t : List Byte} {k : Key} (h : KeyRel Γ true K t k) : Solid t := by
  rcases keyRel_text h with ⟨s, h⟩ | ⟨_, rfl⟩
  · exact .str h
  · exact .value .null

end

/-! ## All types -/

section
variable {F : Type} {Γ : TyEnv F} {cfg : DecCfg F} {L : Nat → List Ty} {place : Nat → Nat → Nat → Nat} {extra : Nat → Nat → Val F → Prop}
variable {same : Nat → Nat → Prop} {P : Ty → Ty → Prop} {ok : List Byte → Prop}

/-- What the wider type makes of a text, the narrower type makes of it too, without the further members. -/
theorem grown_down (hl : TypeLaws Γ cfg same) (hD : Declared Γ L) (hz : ZeroValues Γ cfg L)
    (hP : ∀ T T', P T T' → GrownBy Γ same cfg.caseSensitive L place P T T') (hx : ∀ (j l : Nat) T, (L j)[l]? = some T → extra j l (Γ.zero cfg T))
    (hh : Harmless Γ cfg same L place extra P ok) {t : List Byte} (ht : Naming ok t) :
    Down Γ L place extra P (DecodesO Γ cfg true (SelectsHere same cfg.caseSensitive)) t := by
  generalize hn : t.length = n
  induction n using Nat.strongRecOn generalizing t with
  | ind n ih =>
    subst hn
    have hQ : ∀ ts, ArrayOf t ts → (∀ u ∈ ts, Solid u) → ∀ u ∈ ts, Down Γ L place extra P (DecodesO Γ cfg true (SelectsHere same cfg.caseSensitive)) u :=
      fun ts h1 h2 u hu => ih _ (enclosed_length h1 u hu) (naming_array ht h1 h2 u hu) rfl
    have hM : ∀ ms, ObjectOf t ms → (∀ m ∈ ms, Solid m.1 ∧ Solid m.2) → ∀ m ∈ ms,
        Down Γ L place extra P (DecodesO Γ cfg true (SelectsHere same cfg.caseSensitive)) m.2 :=
      fun ms h1 h2 m hm => ih _ (objectOf_length h1 m hm) (naming_object ht h1 h2 m hm).2 rfl
    have rest : ∀ T T', P T T' → ∀ o old old' v', Narrowed Γ L place extra T T' old old' →
        DecodesO Γ cfg true (SelectsHere same cfg.caseSensitive) T' o old' t v' → T ≠ T' → (∀ E, T ≠ .ptr E) →
        ∃ v, DecodesO Γ cfg true (SelectsHere same cfg.caseSensitive) T o old t v ∧ Narrowed Γ L place extra T T' v v' := by
      intro T T' hp o old old' v' hold hv hne hnp
      cases hP _ _ hp with
      | same => exact absurd rfl hne
      | ptr E => exact absurd rfl (hnp E)
      | slice _ _ E E' hS hS' hb hb' hE =>
        have hb1 : (E == Ty.uint .w8) = false := by simpa using hb
        have hb2 : (E' == Ty.uint .w8) = false := by simpa using hb'
        have hv := (decodesO_slice hS').mp hv
        rw [hb2] at hv
        obtain ⟨v, h1, h2⟩ := slice_carry (R := fun a b => Narrowed Γ L place extra E E' b a) (D' := DecodesO Γ cfg true (SelectsHere same cfg.caseSensitive) E) (z' := Γ.zero cfg E)
          (old' := old) (fun _ _ _ _ => decodesO_solid) hQ (fun u v hu h => hu E E' hE _ _ _ v (part_zero hz hP hx hE) h) hv
        refine ⟨v, (decodesO_slice hS).mpr (by rw [hb1]; exact h1), ?_⟩
        rcases h2 with ⟨rfl, rfl⟩ | ⟨ys, xs, rfl, rfl, hlen, hall⟩
        · exact .nilSlice _ _ _ _ hS hS'
        · exact .slice _ _ _ _ _ _ hne hS hS' hlen.symm (fun k x y hx hy => hall k y x hy hx)
      | array _ _ E E' n hS hS' hE =>
        obtain ⟨v, h1, ys, xs, rfl, rfl, hlen, hall⟩ := array_carry (R := fun a b => Narrowed Γ L place extra E E' b a) (D' := DecodesO Γ cfg true (SelectsHere same cfg.caseSensitive) E) (z' := Γ.zero cfg E)
          (old' := old) (fun _ _ _ _ => decodesO_solid) hQ (part_zero hz hP hx hE)
          (by
            obtain ⟨xs, ys, rfl, rfl, hlen, hall⟩ := part_arr hne hS hS' hold
            exact ⟨ys, xs, rfl, rfl, hlen.symm, fun k x y hx hy => hall k y x hy hx⟩)
          (fun u a a' v hu ha h => hu E E' hE _ _ _ v ha h) ((decodesO_array hS').mp hv)
        exact ⟨_, (decodesO_array hS).mpr h1, .arr _ _ _ _ _ _ _ hne hS hS' hlen.symm (fun k x y hx hy => hall k y x hy hx)⟩
      | map _ _ E E' K hS hS' hE =>
        obtain ⟨v, h1, h2⟩ := map_carry (R := fun a b => Narrowed Γ L place extra E E' b a) (D' := DecodesO Γ cfg true (SelectsHere same cfg.caseSensitive) E) (z' := Γ.zero cfg E)
          (old' := old) (fun _ _ => keyRel_solid) (fun _ _ _ _ => decodesO_solid) hM
          (by
            rcases part_map hne hS hS' hold with ⟨rfl, rfl⟩ | ⟨m, m', rfl, rfl, hlen, hall⟩
            · exact .inl ⟨rfl, rfl⟩
            · exact .inr ⟨m', m, rfl, rfl, fun k => (hlen k).symm, fun k x y hx hy => hall k y x hy hx⟩)
          (fun u v hu h => hu E E' hE _ _ _ v (part_zero hz hP hx hE) h) ((decodesO_map hS').mp hv)
        refine ⟨v, (decodesO_map hS).mpr h1, ?_⟩
        rcases h2 with ⟨rfl, rfl⟩ | ⟨m', m, rfl, rfl, hlen, hall⟩
        · exact .nilMap _ _ _ _ K hS hS'
        · exact .map _ _ _ _ K _ _ hne hS hS' (fun k => (hlen k).symm) (fun k x y hx hy => hall k y x hy hx)
      | struct i j fs fs' hd hd' hw =>
        have hne' : i ≠ j := fun e => hne (by rw [e])
        obtain ⟨xs, ys, rfl, rfl, hbs⟩ := part_struct hne' hd hd' hold
        rcases (decodesO_struct hd').mp hv with ⟨rfl, rfl⟩ | ⟨ms, h1, h2⟩
        · exact ⟨_, (decodesO_struct hd).mpr (.inl ⟨rfl, rfl⟩), hold⟩
        · have hsol : ∀ m ∈ ms, Solid m.1 ∧ Solid m.2 := fun m hm => by
            obtain ⟨_, _, h⟩ := visits_mem h2 hm
            exact memberRel_str (fun _ _ _ _ _ h => decodesO_solid h) h
          have hsub := naming_object ht h1 hsol
          obtain ⟨ys1, xs1, rfl, h3, h4⟩ := visits_carry (B := fun ys xs => Beside Γ L place extra i j xs ys)
            (G' := MemberRel cfg.disallowUnknownFields (Γ.zero cfg) (SelectsHere same cfg.caseSensitive (fs.map Field.name)) fs
              (DecodesO Γ cfg true (SelectsHere same cfg.caseSensitive)))
            (fun m hm ys xs s hb h => by
              obtain ⟨xs1, ys1, h5, h6, h7⟩ := member_down hl hD hd hd' hp hne' hw hh (hsub m hm).1 (naming_value (hsub m hm).2) (hM ms h1 hsol m hm) hb h
              exact ⟨ys1, xs1, h5, h6, h7⟩) hbs h2
          exact ⟨_, (decodesO_struct hd).mpr (.inr ⟨ms, h1, h3⟩), beside_part hne' hd hd' h4⟩
    intro T T' hp o old old' v' hold hv
    by_cases hne : T = T'
    · subst hne
      obtain rfl := part_eq hold rfl
      exact ⟨v', hv, .same _ _⟩
    induction T generalizing T' o old old' v' with
    | ptr E ihE =>
      cases hP _ _ hp with
      | same => exact absurd rfl hne
      | ptr _ E' hE =>
        have hne' : E ≠ E' := fun e => hne (by rw [e])
        obtain ⟨v, h1, h2⟩ := ptr_carry (R := fun a b => Narrowed Γ L place extra E E' b a) (D' := DecodesO Γ cfg true (SelectsHere same cfg.caseSensitive) E) (z' := Γ.zero cfg E)
          (old' := old) (part_zero hz hP hx hE)
          (by
            rcases part_ptr hne' hold with ⟨rfl, rfl⟩ | ⟨x, x', rfl, rfl, h⟩
            · exact .inl ⟨rfl, rfl⟩
            · exact .inr ⟨x', x, rfl, rfl, h⟩)
          (fun x x' v hxx h => ihE E' hE o x' x v hxx h hne') (decodesO_ptr.mp hv)
        refine ⟨v, decodesO_ptr.mpr h1, ?_⟩
        rcases h2 with ⟨rfl, rfl⟩ | ⟨x, x', rfl, rfl, h2⟩
        · exact .nilPtr _ _
        · exact .ptr _ _ _ _ hne' h2
      | slice _ _ _ _ h => cases h
      | array _ _ _ _ _ h => cases h
      | map _ _ _ _ _ h => cases h
    | _ => exact rest _ _ hp _ _ _ _ hold hv hne (fun E h => by cases h)

/-- What the narrower type makes of a text without the names of the further members, the wider type makes of it too. -/
theorem grown_up (hl : TypeLaws Γ cfg same) (hD : Declared Γ L) (hz : ZeroValues Γ cfg L)
    (hP : ∀ T T', P T T' → GrownBy Γ same cfg.caseSensitive L place P T T') (hx : ∀ (j l : Nat) T, (L j)[l]? = some T → extra j l (Γ.zero cfg T))
    (hok : ∀ s, ok s → Unadded Γ same cfg.caseSensitive L place P s) {t : List Byte} (ht : Naming ok t) :
    Up Γ L place extra P (DecodesO Γ cfg true (SelectsHere same cfg.caseSensitive)) t := by
  generalize hn : t.length = n
  induction n using Nat.strongRecOn generalizing t with
  | ind n ih =>
    subst hn
    have hQ : ∀ ts, ArrayOf t ts → (∀ u ∈ ts, Solid u) → ∀ u ∈ ts, Up Γ L place extra P (DecodesO Γ cfg true (SelectsHere same cfg.caseSensitive)) u :=
      fun ts h1 h2 u hu => ih _ (enclosed_length h1 u hu) (naming_array ht h1 h2 u hu) rfl
    have hM : ∀ ms, ObjectOf t ms → (∀ m ∈ ms, Solid m.1 ∧ Solid m.2) → ∀ m ∈ ms,
        Up Γ L place extra P (DecodesO Γ cfg true (SelectsHere same cfg.caseSensitive)) m.2 :=
      fun ms h1 h2 m hm => ih _ (objectOf_length h1 m hm) (naming_object ht h1 h2 m hm).2 rfl
    have rest : ∀ T T', P T T' → ∀ o old old' v, Narrowed Γ L place extra T T' old old' →
        DecodesO Γ cfg true (SelectsHere same cfg.caseSensitive) T o old t v → T ≠ T' → (∀ E, T ≠ .ptr E) →
        ∃ v', DecodesO Γ cfg true (SelectsHere same cfg.caseSensitive) T' o old' t v' ∧ Narrowed Γ L place extra T T' v v' := by
      intro T T' hp o old old' v hold hv hne hnp
      cases hP _ _ hp with
      | same => exact absurd rfl hne
      | ptr E => exact absurd rfl (hnp E)
      | slice _ _ E E' hS hS' hb hb' hE =>
        have hb1 : (E == Ty.uint .w8) = false := by simpa using hb
        have hb2 : (E' == Ty.uint .w8) = false := by simpa using hb'
        have hv := (decodesO_slice hS).mp hv
        rw [hb1] at hv
        obtain ⟨v', h1, h2⟩ := slice_carry (R := Narrowed Γ L place extra E E') (D' := DecodesO Γ cfg true (SelectsHere same cfg.caseSensitive) E') (z' := Γ.zero cfg E')
          (old' := old') (fun _ _ _ _ => decodesO_solid) hQ (fun u v hu h => hu E E' hE _ _ _ v (part_zero hz hP hx hE) h) hv
        refine ⟨v', (decodesO_slice hS').mpr (by rw [hb2]; exact h1), ?_⟩
        rcases h2 with ⟨rfl, rfl⟩ | ⟨xs, ys, rfl, rfl, hlen, hall⟩
        · exact .nilSlice _ _ _ _ hS hS'
        · exact .slice _ _ _ _ _ _ hne hS hS' hlen (hall)
      | array _ _ E E' n hS hS' hE =>
        obtain ⟨v', h1, xs, ys, rfl, rfl, hlen, hall⟩ := array_carry (R := Narrowed Γ L place extra E E') (D' := DecodesO Γ cfg true (SelectsHere same cfg.caseSensitive) E') (z' := Γ.zero cfg E')
          (old' := old') (fun _ _ _ _ => decodesO_solid) hQ (part_zero hz hP hx hE)
          (by
            obtain ⟨xs, ys, rfl, rfl, hlen, hall⟩ := part_arr hne hS hS' hold
            exact ⟨xs, ys, rfl, rfl, hlen, hall⟩)
          (fun u a a' v hu ha h => hu E E' hE _ _ _ v ha h) ((decodesO_array hS).mp hv)
        exact ⟨_, (decodesO_array hS').mpr h1, .arr _ _ _ _ _ _ _ hne hS hS' hlen (hall)⟩
      | map _ _ E E' K hS hS' hE =>
        obtain ⟨v', h1, h2⟩ := map_carry (R := Narrowed Γ L place extra E E') (D' := DecodesO Γ cfg true (SelectsHere same cfg.caseSensitive) E') (z' := Γ.zero cfg E')
          (old' := old') (fun _ _ => keyRel_solid) (fun _ _ _ _ => decodesO_solid) hM
          (by
            rcases part_map hne hS hS' hold with ⟨rfl, rfl⟩ | ⟨m, m', rfl, rfl, hlen, hall⟩
            · exact .inl ⟨rfl, rfl⟩
            · exact .inr ⟨m, m', rfl, rfl, hlen, hall⟩)
          (fun u v hu h => hu E E' hE _ _ _ v (part_zero hz hP hx hE) h) ((decodesO_map hS).mp hv)
        refine ⟨v', (decodesO_map hS').mpr h1, ?_⟩
        rcases h2 with ⟨rfl, rfl⟩ | ⟨m, m', rfl, rfl, hlen, hall⟩
        · exact .nilMap _ _ _ _ K hS hS'
        · exact .map _ _ _ _ K _ _ hne hS hS' hlen (hall)
      | struct i j fs fs' hd hd' hw =>
        have hne' : i ≠ j := fun e => hne (by rw [e])
        obtain ⟨xs, ys, rfl, rfl, hbs⟩ := part_struct hne' hd hd' hold
        rcases (decodesO_struct hd).mp hv with ⟨rfl, rfl⟩ | ⟨ms, h1, h2⟩
        · exact ⟨_, (decodesO_struct hd').mpr (.inl ⟨rfl, rfl⟩), hold⟩
        · have hsol : ∀ m ∈ ms, Solid m.1 ∧ Solid m.2 := fun m hm => by
            obtain ⟨_, _, h⟩ := visits_mem h2 hm
            exact memberRel_str (fun _ _ _ _ _ h => decodesO_solid h) h
          have hsub := naming_object ht h1 hsol
          obtain ⟨xs1, ys1, rfl, h3, h4⟩ := visits_carry (B := Beside Γ L place extra i j)
            (G' := MemberRel cfg.disallowUnknownFields (Γ.zero cfg) (SelectsHere same cfg.caseSensitive (fs'.map Field.name)) fs'
              (DecodesO Γ cfg true (SelectsHere same cfg.caseSensitive)))
            (fun m hm xs ys s hb h => by
              obtain ⟨xs1, ys1, h5, h6, h7⟩ := member_up hl hD hd hd' hp hne' hw hok (hsub m hm).1 (hM ms h1 hsol m hm) hb h
              exact ⟨xs1, ys1, h5, h6, h7⟩) hbs h2
          exact ⟨_, (decodesO_struct hd').mpr (.inr ⟨ms, h1, h3⟩), beside_part hne' hd hd' h4⟩
    intro T T' hp o old old' v hold hv
    by_cases hne : T = T'
    · subst hne
      obtain rfl := part_eq hold rfl
      exact ⟨v, hv, .same _ _⟩
    induction T generalizing T' o old old' v with
    | ptr E ihE =>
      cases hP _ _ hp with
      | same => exact absurd rfl hne
      | ptr _ E' hE =>
        have hne' : E ≠ E' := fun e => hne (by rw [e])
        obtain ⟨v', h1, h2⟩ := ptr_carry (R := Narrowed Γ L place extra E E') (D' := DecodesO Γ cfg true (SelectsHere same cfg.caseSensitive) E') (z' := Γ.zero cfg E')
          (old' := old') (part_zero hz hP hx hE)
          (by
            rcases part_ptr hne' hold with ⟨rfl, rfl⟩ | ⟨x, x', rfl, rfl, h⟩
            · exact .inl ⟨rfl, rfl⟩
            · exact .inr ⟨x, x', rfl, rfl, h⟩)
          (fun x x' v hxx h => ihE E' hE o x x' v hxx h hne') (decodesO_ptr.mp hv)
        refine ⟨v', decodesO_ptr.mpr h1, ?_⟩
        rcases h2 with ⟨rfl, rfl⟩ | ⟨x, x', rfl, rfl, h2⟩
        · exact .nilPtr _ _
        · exact .ptr _ _ _ _ hne' h2
      | slice _ _ _ _ h => cases h
      | array _ _ _ _ _ h => cases h
      | map _ _ _ _ _ h => cases h
    | _ => exact rest _ _ hp _ _ _ _ hold hv hne (fun E h => by cases h)

end

end Jzon
