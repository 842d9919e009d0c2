import Verif.Proof.Restores
import Verif.Proof.Encodable

/-!
# Types all values of which come back
-/

set_option linter.unusedSimpArgs false

namespace Jzon

open Spec

section
variable {F : Type} {Γ : TyEnv F} {E : EncEnv F} {cfg : DecCfg F} {L : Nat → List Ty} {P : Ty → Prop}

theorem is_same {T : Ty} {d d' : Def} (h : Is Γ T d) (h' : Is Γ T d') : d = d' := by
  cases h <;> cases h' <;> simp_all

theorem hasTy_slice {T U : Ty} {v : Val F} (h : HasTy Γ L T v) (hT : Is Γ T (.slice U)) :
    v = .nilSlice ∨ ∃ vs, v = .slice vs ∧ ∀ x ∈ vs, HasTy Γ L U x := by
  cases h with
  | nilSlice => exact .inl rfl
  | slice _ U' vs hT' h => cases is_same hT hT'; exact .inr ⟨vs, rfl, h⟩
  | arr _ _ _ _ hT' => cases is_same hT hT'
  | nilMap _ _ _ hT' => cases is_same hT hT'
  | map _ _ _ _ hT' => cases is_same hT hT'
  | struct i fs vs hd => cases is_same hT (.named i _ hd)
  | _ => cases hT

theorem hasTy_array {T U : Ty} {n : Nat} {v : Val F} (h : HasTy Γ L T v) (hT : Is Γ T (.array n U)) :
    ∃ vs, v = .arr vs ∧ vs.length = n ∧ ∀ x ∈ vs, HasTy Γ L U x := by
  cases h with
  | nilSlice _ _ hT' => cases is_same hT hT'
  | slice _ U' vs hT' h => cases is_same hT hT'
  | arr _ _ _ _ hT' hn h => cases is_same hT hT'; exact ⟨_, rfl, hn, h⟩
  | nilMap _ _ _ hT' => cases is_same hT hT'
  | map _ _ _ _ hT' => cases is_same hT hT'
  | struct i fs vs hd => cases is_same hT (.named i _ hd)
  | _ => cases hT

theorem hasTy_map {T U : Ty} {K : KeyTy} {v : Val F} (h : HasTy Γ L T v) (hT : Is Γ T (.map K U)) :
    v = .nilMap ∨ ∃ m, v = .map m ∧ (∀ k x, m k = some x → KeyOf Γ K k) ∧ ∀ k x, m k = some x → HasTy Γ L U x := by
  cases h with
  | nilSlice _ _ hT' => cases is_same hT hT'
  | slice _ U' vs hT' h => cases is_same hT hT'
  | arr _ _ _ _ hT' hn h => cases is_same hT hT'
  | nilMap _ _ _ hT' => exact .inl rfl
  | map _ _ _ m hT' hk h => cases is_same hT hT'; exact .inr ⟨m, rfl, hk, h⟩
  | struct i fs vs hd => cases is_same hT (.named i _ hd)
  | _ => cases hT

theorem hasTy_struct {i : Nat} {fs : List Field} {v : Val F} (h : HasTy Γ L (.named i) v) (hd : Γ.defn i = .struct fs) :
    ∃ vs, v = .struct vs ∧ vs.length = (L i).length ∧
      ∀ (k : Nat) (x : Val F) (T : Ty), vs[k]? = some x → (L i)[k]? = some T → HasTy Γ L T x := by
  have hT : Is Γ (.named i) (.struct fs) := .named i _ hd
  cases h with
  | nilSlice _ _ hT' => cases is_same hT hT'
  | slice _ U' vs hT' h => cases is_same hT hT'
  | arr _ _ _ _ hT' hn h => cases is_same hT hT'
  | nilMap _ _ _ hT' => cases is_same hT hT'
  | map _ _ _ m hT' hk h => cases is_same hT hT'
  | struct i fs vs hd hn h => exact ⟨vs, rfl, hn, h⟩

theorem hasTy_ptr {T : Ty} {v : Val F} (h : HasTy Γ L (.ptr T) v) : v = .nilPtr ∨ ∃ x, v = .ptr x ∧ HasTy Γ L T x := by
  cases h with
  | nilPtr => exact .inl rfl
  | ptr _ x h => exact .inr ⟨x, rfl, h⟩
  | nilSlice _ _ hT => cases hT
  | slice _ _ _ hT => cases hT
  | arr _ _ _ _ hT => cases hT
  | nilMap _ _ _ hT => cases hT
  | map _ _ _ _ hT => cases hT

theorem neverNull_notNull {T : Ty} {v : Val F} (hn : NeverNull Γ T) (h : HasTy Γ L T v) : NotNull E T v := by
  cases h with
  | bool => exact ⟨by simp, by simp, by simp, by simp⟩
  | str => exact ⟨by simp, by simp, by simp, by simp⟩
  | int => exact ⟨by simp, by simp, by simp, by simp⟩
  | uint => exact ⟨by simp, by simp, by simp, by simp⟩
  | arr _ _ _ _ hT =>
    cases hT with
    | array => exact ⟨by simp, by simp, by simp, by simp⟩
    | named => exact ⟨by simp, by simp, by simp, by simp⟩
  | struct => exact ⟨by simp, by simp, by simp, by simp⟩
  | nilSlice _ _ hT =>
    cases hT with
    | slice => exact hn.elim
    | named i _ hd => simp only [NeverNull, hd] at hn
  | slice _ _ _ hT =>
    cases hT with
    | slice => exact hn.elim
    | named i _ hd => simp only [NeverNull, hd] at hn
  | nilMap _ _ _ hT =>
    cases hT with
    | map => exact hn.elim
    | named i _ hd => simp only [NeverNull, hd] at hn
  | map _ _ _ _ hT =>
    cases hT with
    | map => exact hn.elim
    | named i _ hd => simp only [NeverNull, hd] at hn
  | _ => exact hn.elim

/-- An empty value of these types is the zero value. -/
theorem oneEmpty_zero {T : Ty} {v : Val F} (ho : OneEmpty T) (h : HasTy Γ L T v) (he : ¬ EmptyHere Γ E T v false) : v = Γ.zero cfg T := by
  cases T with
  | bool =>
    cases h with
    | bool b =>
      cases b with
      | false => rfl
      | true => exact absurd (⟨fun h => (by cases h), fun h => (by cases h)⟩ : (false = true ↔ Empty _ (Val.bool true))) he
    | nilSlice _ _ hT => cases hT
    | slice _ _ _ hT => cases hT
    | arr _ _ _ _ hT => cases hT
    | nilMap _ _ _ hT => cases hT
    | map _ _ _ _ hT => cases hT
  | str =>
    cases h with
    | str s =>
      cases s with
      | nil => rfl
      | cons c s => exact absurd (⟨fun h => (by cases h), fun h => (by cases h)⟩ : (false = true ↔ Empty _ (Val.str (c :: s)))) he
    | nilSlice _ _ hT => cases hT
    | slice _ _ _ hT => cases hT
    | arr _ _ _ _ hT => cases hT
    | nilMap _ _ _ hT => cases hT
    | map _ _ _ _ hT => cases hT
  | int w =>
    cases h with
    | int w z =>
      by_cases hz : z = 0
      · subst hz; rfl
      · exact absurd (⟨fun h => (by cases h), fun h => (by cases h; exact absurd rfl hz)⟩ : (false = true ↔ Empty _ (Val.int z))) he
    | nilSlice _ _ hT => cases hT
    | slice _ _ _ hT => cases hT
    | arr _ _ _ _ hT => cases hT
    | nilMap _ _ _ hT => cases hT
    | map _ _ _ _ hT => cases hT
  | uint w =>
    cases h with
    | uint w z =>
      by_cases hz : z = 0
      · subst hz; rfl
      · exact absurd (⟨fun h => (by cases h), fun h => (by cases h; exact absurd rfl hz)⟩ : (false = true ↔ Empty _ (Val.int z))) he
    | nilSlice _ _ hT => cases hT
    | slice _ _ _ hT => cases hT
    | arr _ _ _ _ hT => cases hT
    | nilMap _ _ _ hT => cases hT
    | map _ _ _ _ hT => cases hT
  | ptr T =>
    rcases hasTy_ptr h with rfl | ⟨x, rfl, _⟩
    · rfl
    · exact absurd (⟨fun h => (by cases h), fun h => (by cases h)⟩ : (false = true ↔ Empty _ (Val.ptr x))) he
  | _ => exact ho.elim

/-- A path of members is never missing. -/
theorem members_reach {T : Ty} {p : List PathStep} {U : Ty} (hp : PathTy Γ L T p U) (hm : ∀ s ∈ p, ∃ k, s = .member k) :
    ∀ {v : Val F}, HasTy Γ L T v → ∃ x, Reaches p v x := by
  induction hp with
  | here T => intro v _; exact ⟨v, .here v⟩
  | member i k fs T T' p hd hk _ ih =>
    intro v hv
    obtain ⟨vs, rfl, hn, h⟩ := hasTy_struct hv hd
    have hkl : k < vs.length := by have := (List.getElem?_eq_some_iff.mp hk).1; omega
    have hkv : vs[k]? = some vs[k] := List.getElem?_eq_getElem hkl
    obtain ⟨x, hx⟩ := ih (fun s hs => hm s (by simp [hs])) (h k _ T hkv hk)
    exact ⟨x, .member k p vs _ x hkv hx⟩
  | deref e T T' p => obtain ⟨k, hk⟩ := hm _ List.mem_cons_self; cases hk

theorem covered_elsewhere {ps : List PathStep → Ty → Bool → Prop} {T : Ty} (h : Covered Γ cfg L ps T) :
    ∀ {v : Val F}, HasTy Γ L T v → Elsewhere (Γ.zero cfg)
      (fun p U => ∃ o, ps p U o ∧ ∃ x, Reaches p v x ∧ (o = true → EmptyHere Γ E U x false)) (Γ.zero cfg T) v := by
  induction h with
  | field ps T o h ho =>
    intro v hv
    by_cases hw : o = true → EmptyHere Γ E T v false
    · exact .here _ T v ⟨o, (h [] T o).mpr ⟨rfl, rfl, rfl⟩, v, .here v, hw⟩
    · simp only [Classical.not_imp] at hw
      rw [oneEmpty_zero (cfg := cfg) (ho hw.1) hv hw.2]
      refine .nothing _ _ ?_
      rintro p U ⟨b, h1, x, hx, h2⟩
      obtain ⟨rfl, rfl, rfl⟩ := (h p U b).mp h1
      cases hx
      refine hw.2 ?_
      rw [oneEmpty_zero (cfg := cfg) (ho hw.1) hv hw.2]
      exact h2 hw.1
  | struct ps i fs hd hz h0 _ ih =>
    intro v hv
    obtain ⟨vs, rfl, hn, h⟩ := hasTy_struct hv hd
    show Elsewhere _ _ (Γ.zeroNamed i) _
    rw [hz]
    refine .struct _ _ _ ?_ (by simp [hn]) ?_
    · rintro U ⟨o, h1, _⟩; exact h0 U o h1
    · intro k z x hz hx
      rw [List.getElem?_map] at hz
      cases hT : (L i)[k]? with
      | none => rw [hT] at hz; cases hz
      | some T =>
        rw [hT] at hz
        cases hz
        have := ih k T hT (h k x T hx hT)
        have heq : (fun p U => ∃ o, ps (.member k :: p) U o ∧ ∃ y, Reaches p x y ∧ (o = true → EmptyHere Γ E U y false)) =
            (fun p U => ∃ o, ps (.member k :: p) U o ∧ ∃ y, Reaches (.member k :: p) (.struct vs) y ∧ (o = true → EmptyHere Γ E U y false)) := by
          funext p U
          refine propext ⟨?_, ?_⟩
          · rintro ⟨o, h1, y, h2, h3⟩; exact ⟨o, h1, y, .member k p vs x y hx h2, h3⟩
          · rintro ⟨o, h1, y, h2, h3⟩
            cases h2 with
            | member _ _ _ x' _ hx' h2 =>
              rw [hx] at hx'
              cases hx'
              exact ⟨o, h1, y, h2, h3⟩
        rw [← heq]
        exact this
  | ptr ps T h0 hn hm _ ih =>
    intro v hv
    rcases hasTy_ptr hv with rfl | ⟨x, rfl, hx⟩
    · refine .nothing _ _ ?_
      rintro p U ⟨o, h1, y, h2, _⟩
      obtain ⟨p, rfl⟩ := h0 p U o h1
      cases h2
    · refine .ptr _ T x ?_ ?_ ?_
      · obtain ⟨p, U, h1, h2⟩ := hn
        obtain ⟨y, hy⟩ := members_reach (hm p U false h1) h2 hx
        exact ⟨_, U, false, h1, y, .deref true T p x y hy, fun h => by cases h⟩
      · rintro p U ⟨o, h1, _⟩; exact h0 p U o h1
      · have heq : (fun p U => ∃ o, ps (.deref true T :: p) U o ∧ ∃ y, Reaches p x y ∧ (o = true → EmptyHere Γ E U y false)) =
            (fun p U => ∃ o, ps (.deref true T :: p) U o ∧ ∃ y, Reaches (.deref true T :: p) (.ptr x) y ∧ (o = true → EmptyHere Γ E U y false)) := by
          funext p U
          refine propext ⟨?_, ?_⟩
          · rintro ⟨o, h1, y, h2, h3⟩; exact ⟨o, h1, y, .deref true T p x y h2, h3⟩
          · rintro ⟨o, h1, y, h2, h3⟩
            cases h2 with
            | deref _ _ _ _ _ h2 => exact ⟨o, h1, y, h2, h3⟩
        rw [← heq]
        exact ih hx

/-- Bytes as integers. -/
theorem bytes_of_hasTy {vs : List (Val F)} (h : ∀ v ∈ vs, HasTy Γ L (.uint .w8) v) : ∃ bytes : List Byte, vs = bytes.map fun c => .int c.toNat := by
  induction vs with
  | nil => exact ⟨[], rfl⟩
  | cons v vs ih =>
    obtain ⟨bytes, hb⟩ := ih fun v hv => h v (by simp [hv])
    have hv := h v List.mem_cons_self
    cases hv with
    | uint w z h0 hz =>
      have hz : z < 256 := hz
      refine ⟨UInt8.ofNat z.toNat :: bytes, ?_⟩
      rw [hb, List.map_cons]
      congr 2
      rw [UInt8.toNat_ofNat']
      omega
    | nilSlice _ _ hT => cases hT
    | slice _ _ _ hT => cases hT
    | arr _ _ _ _ hT => cases hT
    | nilMap _ _ _ hT => cases hT
    | map _ _ _ _ hT => cases hT

theorem utf8_reaches {p : List PathStep} {v x : Val F} (h : Reaches p v x) (hu : Utf8Val v) : Utf8Val x := by
  induction h with
  | here => exact hu
  | member i p vs v x hi _ ih => cases hu with | struct _ h => exact ih (h v (List.mem_of_getElem? hi))
  | deref e t p v x _ ih => cases hu with | ptr _ h => exact ih h

theorem keyRestores {K : KeyTy} {m : Key → Option (Val F)} (hK : PlainKey Γ E K) (hm : ∀ k v, m k = some v → KeyOf Γ K k) (h : ∀ s v, m (.str s) = some v → ValidUtf8 s) {k : Key}
    {v : Val F} (hk : m k = some v) : KeyRestores Γ E K k := by
  cases K with
  | text i => exact ((hK i rfl).2 k ((hm k v hk).2 i rfl)).2 fun s hs => h s v (hs ▸ hk)
  | _ =>
    cases k with
    | str s => exact h s v hk
    | int z => trivial
    | other n => trivial

/-- What is at the end of a path of a value. -/
theorem plain_restores (hE : EncLaws E) (hP : ∀ T, P T → Plain Γ E cfg L P T) {T : Ty} {v : Val F} (h : HasTy Γ L T v) :
    ∀ {p U x}, PathTy Γ L T p U → Reaches p v x → P U → Utf8Val x → ∀ q, Restores Γ E cfg html U q x := by
  have no : ∀ {T : Ty}, (∀ d, ¬ Is Γ T d) → (∀ U, T ≠ .ptr U) → ∀ {p U}, PathTy Γ L T p U → p = [] ∧ U = T := by
    intro T h1 h2 p U hp
    cases hp with
    | here => exact ⟨rfl, rfl⟩
    | member i k fs T T' p hd => exact absurd (.named i _ hd) (h1 _)
    | deref e T => exact absurd rfl (h2 T)
  induction h with
  | bool b =>
    intro p U x hp hx _ _ q
    obtain ⟨rfl, rfl⟩ := no (by intro d h; cases h) (by simp) hp
    cases hx
    exact .bool q b
  | str s =>
    intro p U x hp hx _ hu q
    obtain ⟨rfl, rfl⟩ := no (by intro d h; cases h) (by simp) hp
    cases hx
    cases hu with | str _ hs => exact .str q s hs
  | int w z =>
    intro p U x hp hx _ _ q
    obtain ⟨rfl, rfl⟩ := no (by intro d h; cases h) (by simp) hp
    cases hx
    exact .int q w z
  | uint w z =>
    intro p U x hp hx _ _ q
    obtain ⟨rfl, rfl⟩ := no (by intro d h; cases h) (by simp) hp
    cases hx
    exact .uint q w z
  | nilPtr T =>
    intro p U x hp hx _ _ q
    cases hp with
    | here => cases hx; exact .nilPtr q T
    | deref => cases hx
  | ptr T v hv ih =>
    intro p U x hp hx hU hu q
    cases hp with
    | here =>
      cases hx
      cases hP _ hU with
      | ptr _ h hn =>
        cases hu with
        | ptr _ hu => exact .ptr q T v (neverNull_notNull hn hv) (ih (.here T) (.here v) h hu q)
      | bytes _ hT => cases hT
      | slice _ _ hT => cases hT
      | array _ _ _ hT => cases hT
      | map _ _ _ hT => cases hT
    | deref e _ _ p hp =>
      cases hx with
      | deref _ _ _ _ _ hx => exact ih hp hx hU hu q
  | nilSlice T U' hT =>
    intro p U x hp hx _ _ q
    cases hx with
    | here =>
      cases hp
      exact .nilSlice q T U' hT
  | slice T U' vs hT hvs ih =>
    intro p U x hp hx hU hu q
    cases hx with
    | here =>
      cases hp
      cases hu with
      | slice _ hu =>
        cases hP _ hU with
        | bytes _ hT' hb =>
          cases is_same hT hT'
          obtain ⟨bytes, rfl⟩ := bytes_of_hasTy hvs
          exact .bytes q T bytes hT (hb bytes)
        | slice _ _ hT' hne h =>
          cases is_same hT hT'
          exact .slice q T U' vs hT hne fun v hv => ih v hv (.here _) (.here v) h (hu v hv) false
        | array _ _ _ hT' => cases is_same hT hT'
        | map _ _ _ hT' => cases is_same hT hT'
        | struct i fs hd => cases is_same hT (.named i _ hd)
        | _ => cases hT
  | arr T U' n vs hT hn hvs ih =>
    intro p U x hp hx hU hu q
    cases hx with
    | here =>
      cases hp
      cases hu with
      | arr _ hu =>
        cases hP _ hU with
        | bytes _ hT' hb => cases is_same hT hT'
        | slice _ _ hT' hne h => cases is_same hT hT'
        | array _ _ _ hT' h =>
          cases is_same hT hT'
          exact .arr q T U' n vs hT fun v hv => ih v hv (.here _) (.here v) h (hu v hv) false
        | map _ _ _ hT' => cases is_same hT hT'
        | struct i fs hd => cases is_same hT (.named i _ hd)
        | _ => cases hT
  | nilMap T U' K hT =>
    intro p U x hp hx _ _ q
    cases hx with
    | here =>
      cases hp
      exact .nilMap q T U' K hT
  | map T U' K m hT hk hm ih =>
    intro p U x hp hx hU hu q
    cases hx with
    | here =>
      cases hp
      cases hu with
      | map _ huk hu =>
        cases hP _ hU with
        | bytes _ hT' hb => cases is_same hT hT'
        | slice _ _ hT' hne h => cases is_same hT hT'
        | array _ _ _ hT' h => cases is_same hT hT'
        | map _ _ _ hT' hK h =>
          cases is_same hT hT'
          exact .map q T U' K m hT (fun k v hkv => keyRestores hK hk huk hkv)
            fun k v hkv => ih k v hkv (.here _) (.here v) h (hu k v hkv) false
        | struct i fs hd => cases is_same hT (.named i _ hd)
        | _ => cases hT
  | struct i fs vs hd hn hvs ih =>
    intro p U x hp hx hU hu q
    have sub : ∀ k p U x, PathTy Γ L (.named i) (.member k :: p) U → Reaches (.member k :: p) (.struct vs) x → P U → Utf8Val x → ∀ q,
        Restores Γ E cfg html U q x := by
      intro k p U x hp hx hU hu q
      cases hp with
      | member _ _ _ T _ _ _ hk hp =>
        cases hx with
        | member _ _ _ v _ hv hx => exact ih k v T hv hk hp hx hU hu q
    cases hx with
    | here =>
      cases hp
      cases hP _ hU with
      | bytes _ hT' hb => cases is_same (.named i _ hd) hT'
      | slice _ _ hT' hne h => cases is_same (.named i _ hd) hT'
      | array _ _ _ hT' h => cases is_same (.named i _ hd) hT'
      | map _ _ _ hT' h => cases is_same (.named i _ hd) hT'
      | struct _ fs' hd' h hc =>
        refine .struct q i fs vs hd ?_ ?_
        · have := covered_elsewhere (E := E) hc (.struct i fs vs hd hn hvs)
          have heq : (fun p U => ∃ o, (∃ f ∈ E.fields i, f.path = p ∧ f.ty = U ∧ f.omitEmpty = o) ∧
              ∃ x, Reaches p (.struct vs) x ∧ (o = true → EmptyHere Γ E U x false)) =
              (fun p T => ∃ f ∈ E.fields i, f.path = p ∧ f.ty = T ∧ Written Γ E (.struct vs) f) := by
            funext p U
            refine propext ⟨?_, ?_⟩
            · rintro ⟨o, ⟨f, hf, rfl, rfl, rfl⟩, x, hx, he⟩; exact ⟨f, hf, rfl, rfl, x, hx, he⟩
            · rintro ⟨f, hf, rfl, rfl, x, hx, he⟩; exact ⟨_, ⟨f, hf, rfl, rfl, rfl⟩, x, hx, he⟩
          rw [← heq]
          exact this
        · intro f hf x hx _
          obtain ⟨k, p, hkp⟩ := hE.paths i f hf
          obtain ⟨h1, h2⟩ := h f hf
          rw [hkp] at h1 hx
          exact sub k p f.ty x h1 hx h2 (utf8_reaches hx hu) _
    | member k p _ v x hv hx => exact sub k p U x hp (.member k p vs v x hv hx) hU hu q
  | _ =>
    intro p U x hp hx hU _ q
    obtain ⟨rfl, rfl⟩ := no (by intro d h; cases h) (by simp) hp
    cases hP _ hU with
    | bytes _ hT => cases hT
    | slice _ _ hT => cases hT
    | array _ _ _ hT => cases hT
    | map _ _ _ hT => cases hT

theorem finite_reaches {p : List PathStep} {v x : Val F} (h : Reaches p v x) (hu : FiniteVal v) : FiniteVal x := by
  induction h with
  | here => exact hu
  | member i p vs v x hi _ ih => cases hu with | struct _ h => exact ih (h v (List.mem_of_getElem? hi))
  | deref e t p v x _ ih => cases hu with | ptr _ h => exact ih h

theorem plainKey_known {K : KeyTy} (hK : PlainKey Γ E K) : KeysKnown E K := by
  cases K with
  | text i => exact (hK i rfl).1
  | _ => trivial

theorem plainKey_fine {K : KeyTy} (hK : PlainKey Γ E K) {k : Key} (hk : KeyOf Γ K k) : KeyFine E (fun _ => False) K k := by
  cases K with
  | text i => exact ((hK i rfl).2 k (hk.2 i rfl)).1
  | _ => exact hk.1

/-- What is at the end of a path of a value can be encoded. -/
theorem plain_encodable (hE : EncLaws E) (hP : ∀ T, P T → Plain Γ E cfg L P T) {T : Ty} {v : Val F} (h : HasTy Γ L T v) :
    ∀ {p U x}, PathTy Γ L T p U → Reaches p v x → P U → FiniteVal x → Encodable Γ E (fun _ => False) U x := by
  have no : ∀ {T : Ty}, (∀ d, ¬ Is Γ T d) → (∀ U, T ≠ .ptr U) → ∀ {p U}, PathTy Γ L T p U → p = [] ∧ U = T := by
    intro T h1 h2 p U hp
    cases hp with
    | here => exact ⟨rfl, rfl⟩
    | member i k fs T T' p hd => exact absurd (.named i _ hd) (h1 _)
    | deref e T => exact absurd rfl (h2 T)
  induction h with
  | bool b =>
    intro p U x hp hx _ _
    obtain ⟨rfl, rfl⟩ := no (by intro d h; cases h) (by simp) hp
    cases hx
    exact .bool b
  | str s =>
    intro p U x hp hx _ hu
    obtain ⟨rfl, rfl⟩ := no (by intro d h; cases h) (by simp) hp
    cases hx
    exact .str s
  | int w z hz =>
    intro p U x hp hx _ _
    obtain ⟨rfl, rfl⟩ := no (by intro d h; cases h) (by simp) hp
    cases hx
    exact .int w z hz
  | uint w z h0 hz =>
    intro p U x hp hx _ _
    obtain ⟨rfl, rfl⟩ := no (by intro d h; cases h) (by simp) hp
    cases hx
    exact .uint w z ⟨h0, hz⟩
  | nilPtr T =>
    intro p U x hp hx hU _
    cases hp with
    | here =>
      cases hx
      refine .nilPtr T ?_ ?_
      case refine_2 =>
        intro K U' hT hn
        cases hP _ hU with
        | ptr _ h hn' =>
          unfold NeverNull at hn'
          cases hT with
          | map => exact hn'.elim
          | named i _ hd => simp only [hd] at hn'
        | bytes _ hT => cases hT
        | slice _ _ hT => cases hT
        | array _ _ _ hT => cases hT
        | map _ _ _ hT => cases hT
      rintro rfl
      cases hP _ hU with
      | ptr _ h hn => exact hn.elim
      | bytes _ hT => cases hT
      | slice _ _ hT => cases hT
      | array _ _ _ hT => cases hT
      | map _ _ _ hT => cases hT
    | deref => cases hx
  | ptr T v hv ih =>
    intro p U x hp hx hU hu
    cases hp with
    | here =>
      cases hx
      cases hP _ hU with
      | ptr _ h hn =>
        cases hu with
        | ptr _ hu => exact .ptr T v (ih (.here T) (.here v) h hu)
      | bytes _ hT => cases hT
      | slice _ _ hT => cases hT
      | array _ _ _ hT => cases hT
      | map _ _ _ hT => cases hT
    | deref e _ _ p hp =>
      cases hx with
      | deref _ _ _ _ _ hx => exact ih hp hx hU hu
  | nilSlice T U' hT =>
    intro p U x hp hx _ _
    cases hx with
    | here =>
      cases hp
      exact .nilSlice T U' hT
  | slice T U' vs hT hvs ih =>
    intro p U x hp hx hU hu
    cases hx with
    | here =>
      cases hp
      cases hu with
      | slice _ hu =>
        cases hP _ hU with
        | bytes _ hT' hb =>
          cases is_same hT hT'
          refine .slice T _ vs hT fun v hv => ?_
          cases hvs v hv with
          | uint _ z h0 hz => exact .uint _ z ⟨h0, hz⟩
          | nilSlice _ _ hT => cases hT
          | slice _ _ _ hT => cases hT
          | arr _ _ _ _ hT => cases hT
          | nilMap _ _ _ hT => cases hT
          | map _ _ _ _ hT => cases hT
        | slice _ _ hT' hne h =>
          cases is_same hT hT'
          exact .slice T U' vs hT fun v hv => ih v hv (.here _) (.here v) h (hu v hv)
        | array _ _ _ hT' => cases is_same hT hT'
        | map _ _ _ hT' => cases is_same hT hT'
        | struct i fs hd => cases is_same hT (.named i _ hd)
        | _ => cases hT
  | arr T U' n vs hT hn hvs ih =>
    intro p U x hp hx hU hu
    cases hx with
    | here =>
      cases hp
      cases hu with
      | arr _ hu =>
        cases hP _ hU with
        | bytes _ hT' hb => cases is_same hT hT'
        | slice _ _ hT' hne h => cases is_same hT hT'
        | array _ _ _ hT' h =>
          cases is_same hT hT'
          exact .arr T U' n vs hT hn fun v hv => ih v hv (.here _) (.here v) h (hu v hv)
        | map _ _ _ hT' => cases is_same hT hT'
        | struct i fs hd => cases is_same hT (.named i _ hd)
        | _ => cases hT
  | nilMap T U' K hT =>
    intro p U x hp hx hU _
    cases hx with
    | here =>
      cases hp
      cases hP _ hU with
      | bytes _ hT' hb => cases is_same hT hT'
      | slice _ _ hT' hne h => cases is_same hT hT'
      | array _ _ _ hT' h => cases is_same hT hT'
      | map _ _ _ hT' hK h =>
        cases is_same hT hT'
        exact .nilMap T U' K hT fun h => absurd (plainKey_known hK) h
      | struct i fs hd => cases is_same hT (.named i _ hd)
      | _ => cases hT
  | map T U' K m hT hk hm ih =>
    intro p U x hp hx hU hu
    cases hx with
    | here =>
      cases hp
      cases hu with
      | map _ huk hu =>
        cases hP _ hU with
        | bytes _ hT' hb => cases is_same hT hT'
        | slice _ _ hT' hne h => cases is_same hT hT'
        | array _ _ _ hT' h => cases is_same hT hT'
        | map _ _ _ hT' hK h =>
          cases is_same hT hT'
          exact .map T U' K m hT huk (fun h => absurd (plainKey_known hK) h) (fun k v hkv => plainKey_fine hK (hk k v hkv)) fun k v hkv => ih k v hkv (.here _) (.here v) h (hu k v hkv)
        | struct i fs hd => cases is_same hT (.named i _ hd)
        | _ => cases hT
  | struct i fs vs hd hn hvs ih =>
    intro p U x hp hx hU hu
    have sub : ∀ k p U x, PathTy Γ L (.named i) (.member k :: p) U → Reaches (.member k :: p) (.struct vs) x → P U → FiniteVal x →
        Encodable Γ E (fun _ => False) U x := by
      intro k p U x hp hx hU hu
      cases hp with
      | member _ _ _ T _ _ _ hk hp =>
        cases hx with
        | member _ _ _ v _ hv hx => exact ih k v T hv hk hp hx hU hu
    cases hx with
    | here =>
      cases hp
      cases hP _ hU with
      | bytes _ hT' hb => cases is_same (.named i _ hd) hT'
      | slice _ _ hT' hne h => cases is_same (.named i _ hd) hT'
      | array _ _ _ hT' h => cases is_same (.named i _ hd) hT'
      | map _ _ _ hT' h => cases is_same (.named i _ hd) hT'
      | struct _ fs' hd' h hc =>
        refine .struct i fs vs hd ?_ ?_ ?_
        · intro f hf
          rcases reaches_or_missing (h f hf).1 (.struct i fs vs hd hn hvs) with h | ⟨x, h, _⟩
          · exact .inl h
          · exact .inr ⟨x, h⟩
        · intro f hf _ x _
          have := hP _ (h f hf).2
          unfold EmptyKnown
          split
          · rename_i j hj
            rw [hj] at this
            cases this with
            | bytes _ hT => cases hT
            | slice _ _ hT => cases hT
            | array _ _ _ hT => cases hT
            | map _ _ _ hT => cases hT
          · rename_i j hj
            rw [hj] at this
            cases this with
            | bytes _ hT => cases hT
            | slice _ _ hT => cases hT
            | array _ _ _ hT => cases hT
            | map _ _ _ hT => cases hT
          · trivial
        · intro f hf x hx
          obtain ⟨k, p, hkp⟩ := hE.paths i f hf
          obtain ⟨h1, h2⟩ := h f hf
          rw [hkp] at h1 hx
          exact sub k p f.ty x h1 hx h2 (finite_reaches hx hu)
    | member k p _ v x hv hx => exact sub k p U x hp (.member k p vs v x hv hx) hU hu
  | _ =>
    intro p U x hp hx hU _
    obtain ⟨rfl, rfl⟩ := no (by intro d h; cases h) (by simp) hp
    cases hP _ hU with
    | bytes _ hT => cases hT
    | slice _ _ hT => cases hT
    | array _ _ _ hT => cases hT
    | map _ _ _ hT => cases hT

end

end Jzon
