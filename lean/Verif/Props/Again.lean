import Verif.Proof.Again
import Verif.Proof.Sample

/-!
# C59: a text that is decoded again

Decoding `data` into a variable gives every place of the variable a new value, or leaves it alone, in a way that does not depend on
what the variable held.  So to decode the same data a second time changes nothing, and decoding data before others are decoded
is in vain if the same data are decoded after them.
-/

namespace Jzon.Props

open Spec Jzon

section
variable {F : Type} {Γ : TyEnv F} {cfg : DecCfg F} {L : Nat → List Ty} {same : Nat → Nat → Prop}

theorem around_same {w t w2 w' t' w2' : List Byte} (h1 : Ws w) (h2 : Ws w2) (h1' : Ws w') (h2' : Ws w2') (ht : Solid t) (ht' : Solid t')
    (h : w ++ (t ++ w2) = w' ++ (t' ++ w2')) : t = t' := by
  refine (padded_same (r := []) (r' := []) (c := 0x2C) (c' := 0x2C) h1 h2 h1' h2' ht ht' (by simp [Separates]) (by simp [Separates]) ?_).1
  have := congrArg (fun l => l ++ [(0x2C : Byte)]) h
  simpa using this

theorem unmarshal_patch (hl : TypeLaws Γ cfg same) (hD : Declared Γ L) (hM : MethodsOverwrite Γ) (pools : Pools) (it : It) (data : List Byte) (T : Ty) :
    ∃ p, PatchTy Γ cfg L T p ∧ ∀ a v, Unmarshal Γ cfg pools it data T a = .ok v → v = p.apply a := by
  by_cases hex : ∃ w t w2, Ws w ∧ Ws w2 ∧ data = w ++ (t ++ w2) ∧ Solid t
  · obtain ⟨w, t, w2, hw, hw2, rfl, ht⟩ := hex
    obtain ⟨p, hp, h⟩ := patch_exists hl.decLaws hD hM (t.length + 1) T {} t (by omega)
    refine ⟨p, hp, fun a v h' => ?_⟩
    obtain ⟨w', t', w2', hw', hw2', he, hd⟩ := (unmarshal_iff hl pools it).mp h'
    obtain rfl := around_same hw hw2 hw' hw2' ht (decodesO_solid hd) he
    exact h a v hd
  · refine ⟨.keep, .keep _, fun a v h' => ?_⟩
    obtain ⟨w', t', w2', hw', hw2', he, hd⟩ := (unmarshal_iff hl pools it).mp h'
    exact absurd ⟨w', t', w2', hw', hw2', he, decodesO_solid hd⟩ hex

theorem unmarshal_total (hl : TypeLaws Γ cfg same) (hD : Declared Γ L) (hM : MethodsOverwrite Γ) (hE : AllExported Γ) {pools : Pools} {it : It}
    {data : List Byte} {T : Ty} {a a' v : Val F} (ha : HasTy Γ L T a) (ha' : HasTy Γ L T a') (h : Unmarshal Γ cfg pools it data T a = .ok v) :
    ∃ v', Unmarshal Γ cfg pools it data T a' = .ok v' := by
  obtain ⟨w, t, w2, hw, hw2, he, hd⟩ := (unmarshal_iff hl pools it).mp h
  obtain ⟨v', hd'⟩ := decodesO_total hD hM hE (t.length + 1) T {} t (by omega) a a' v ha ha' hd
  exact ⟨v', (unmarshal_iff hl pools it).mpr ⟨w, t, w2, hw, hw2, he, hd'⟩⟩

theorem unmarshal_hasTy (hl : TypeLaws Γ cfg same) (hD : Declared Γ L) {pools : Pools} {it : It} {data : List Byte} {T : Ty} {a v : Val F}
    (ha : HasTy Γ L T a) (h : Unmarshal Γ cfg pools it data T a = .ok v) : HasTy Γ L T v := by
  obtain ⟨w, t, w2, hw, hw2, he, k, hd⟩ := (unmarshal_iff hl pools it).mp h
  exact decodesN_hasTy hD ha hd

theorem inTurn_hasTy (hl : TypeLaws Γ cfg same) (hD : Declared Γ L) {pools : Pools} {it : It} {ds : List (List Byte)} {T : Ty} {a v : Val F}
    (ha : HasTy Γ L T a) (h : InTurn (fun d a v => Unmarshal Γ cfg pools it d T a = .ok v) ds a v) : HasTy Γ L T v := by
  induction h with
  | nil => exact ha
  | cons _ _ _ _ _ h _ ih => exact ih (unmarshal_hasTy hl hD ha h)

theorem inTurn_patch (hl : TypeLaws Γ cfg same) (hD : Declared Γ L) (hM : MethodsOverwrite Γ) (pools : Pools) (it : It) (ds : List (List Byte)) (T : Ty) :
    ∃ p, PatchTy Γ cfg L T p ∧ ∀ a v, InTurn (fun d a v => Unmarshal Γ cfg pools it d T a = .ok v) ds a v → v = p.apply a := by
  induction ds with
  | nil => exact ⟨.keep, .keep _, fun a v h => by cases h; rfl⟩
  | cons d ds ih =>
    obtain ⟨p, hp, h1⟩ := unmarshal_patch hl hD hM pools it d T
    obtain ⟨q, hq, h2⟩ := ih
    refine ⟨p.comp q, hp.comp hq, fun a v h => ?_⟩
    cases h with
    | cons _ _ _ _ _ ha hb => rw [hp.apply_comp hq, ← h1 _ _ ha, ← h2 _ _ hb]

theorem inTurn_append {D : List Byte → Val F → Val F → Prop} {xs ys : List (List Byte)} {a v : Val F} :
    InTurn D (xs ++ ys) a v ↔ ∃ b, InTurn D xs a b ∧ InTurn D ys b v := by
  induction xs generalizing a with
  | nil => exact ⟨fun h => ⟨a, .nil _, h⟩, fun ⟨b, h1, h2⟩ => by cases h1; exact h2⟩
  | cons x xs ih =>
    constructor
    · intro h
      cases h with
      | cons _ _ _ b _ h h' =>
        obtain ⟨c, h1, h2⟩ := ih.mp h'
        exact ⟨c, .cons _ _ _ _ _ h h1, h2⟩
    · rintro ⟨c, h1, h2⟩
      cases h1 with
      | cons _ _ _ b _ h h' => exact .cons _ _ _ _ _ h (ih.mpr ⟨c, h', h2⟩)

theorem inTurn_total (hl : TypeLaws Γ cfg same) (hD : Declared Γ L) (hM : MethodsOverwrite Γ) (hE : AllExported Γ) {pools : Pools} {it : It}
    {ds : List (List Byte)} {T : Ty} {a a' v : Val F} (ha : HasTy Γ L T a) (ha' : HasTy Γ L T a')
    (h : InTurn (fun d a v => Unmarshal Γ cfg pools it d T a = .ok v) ds a v) :
    ∃ v', InTurn (fun d a v => Unmarshal Γ cfg pools it d T a = .ok v) ds a' v' := by
  induction h generalizing a' with
  | nil => exact ⟨a', .nil _⟩
  | cons d ds a b c h _ ih =>
    obtain ⟨b', hb'⟩ := unmarshal_total hl hD hM hE ha ha' h
    obtain ⟨v', hv'⟩ := ih (unmarshal_hasTy hl hD ha h) (unmarshal_hasTy hl hD ha' hb')
    exact ⟨v', .cons _ _ _ _ _ hb' hv'⟩

/-- Decoding data, then others, then the data again, gives what decoding the others and then the data gives, if both are accepted.
Nothing is assumed about the variable. -/
theorem C59_last_wins_if_accepted (hl : TypeLaws Γ cfg same) (hD : Declared Γ L) (hM : MethodsOverwrite Γ) (pools : Pools) (it : It) {T : Ty}
    {d : List Byte} {ds : List (List Byte)} {old v w : Val F}
    (h : InTurn (fun d a v => Unmarshal Γ cfg pools it d T a = .ok v) (d :: ds ++ [d]) old v)
    (h' : InTurn (fun d a v => Unmarshal Γ cfg pools it d T a = .ok v) (ds ++ [d]) old w) : v = w := by
  obtain ⟨p, hp, h1⟩ := unmarshal_patch hl hD hM pools it d T
  obtain ⟨q, hq, h2⟩ := inTurn_patch hl hD hM pools it ds T
  have last : ∀ a b, InTurn (fun d a v => Unmarshal Γ cfg pools it d T a = .ok v) (ds ++ [d]) a b → b = (q.comp p).apply a := by
    intro a b h
    obtain ⟨c, hc, h⟩ := inTurn_append.mp h
    cases h with
    | cons _ _ _ _ _ h hn =>
      cases hn
      rw [hq.apply_comp hp, ← h2 _ _ hc, ← h1 _ _ h]
  cases h with
  | cons _ _ _ b _ ha hb =>
    rw [last _ _ hb, last _ _ h', h1 _ _ ha, ← hp.apply_comp (hq.comp hp), Patch.absorb]

/-- Decoding data first makes no difference, neither to the value nor to whether all is accepted, if the same data come last. -/
theorem C59_last_wins (hl : TypeLaws Γ cfg same) (hD : Declared Γ L) (hM : MethodsOverwrite Γ) (hE : AllExported Γ) (pools : Pools) (it : It) {T : Ty}
    {d : List Byte} {ds : List (List Byte)} {old v : Val F} (hold : HasTy Γ L T old) :
    InTurn (fun d a v => Unmarshal Γ cfg pools it d T a = .ok v) (d :: ds ++ [d]) old v ↔
      InTurn (fun d a v => Unmarshal Γ cfg pools it d T a = .ok v) (ds ++ [d]) old v := by
  constructor
  · intro h
    have hh := h
    cases h with
    | cons _ _ _ b _ ha hb =>
      obtain ⟨w, hw⟩ := inTurn_total hl hD hM hE (unmarshal_hasTy hl hD hold ha) hold hb
      rw [C59_last_wins_if_accepted hl hD hM pools it hh hw]
      exact hw
  · intro h
    obtain ⟨c, hc, hd⟩ := inTurn_append.mp h
    cases hd with
    | cons _ _ _ _ _ hd hn =>
      cases hn
      obtain ⟨b, hb⟩ := unmarshal_total hl hD hM hE (inTurn_hasTy hl hD hold hc) hold hd
      obtain ⟨w, hw⟩ := inTurn_total hl hD hM hE hold (unmarshal_hasTy hl hD hold hb) h
      have hall := InTurn.cons (D := fun d a v => Unmarshal Γ cfg pools it d T a = .ok v) d (ds ++ [d]) old b w hb hw
      rw [← C59_last_wins_if_accepted hl hD hM pools it hall h]
      exact hall

/-- Decoding the same data again is accepted and changes nothing. -/
theorem C59_again (hl : TypeLaws Γ cfg same) (hD : Declared Γ L) (hM : MethodsOverwrite Γ) (hE : AllExported Γ) (pools : Pools) (it : It) {T : Ty}
    {d : List Byte} {old v : Val F} (hold : HasTy Γ L T old) (h : Unmarshal Γ cfg pools it d T old = .ok v) :
    Unmarshal Γ cfg pools it d T v = .ok v := by
  have := (C59_last_wins hl hD hM hE pools it (ds := []) hold).mpr (.cons d [] old v v h (.nil v))
  cases this with
  | cons _ _ _ b _ ha hb =>
    rw [h] at ha
    cases ha
    cases hb with
    | cons _ _ _ _ _ hb hn =>
      cases hn
      exact hb

/-- Without assumptions on the variable and on embedded structs: if decoding the same data again is accepted, it changes nothing. -/
theorem C59_again_if_accepted (hl : TypeLaws Γ cfg same) (hD : Declared Γ L) (hM : MethodsOverwrite Γ) (pools : Pools) (it : It) {T : Ty}
    {d : List Byte} {old v w : Val F} (h : Unmarshal Γ cfg pools it d T old = .ok v) (h' : Unmarshal Γ cfg pools it d T v = .ok w) : w = v :=
  C59_last_wins_if_accepted hl hD hM pools it (ds := []) (.cons d [d] old v w h (.cons d [] v w w h' (.nil w))) (.cons d [] old v v h (.nil v))

end

/-! ## Cases -/

theorem sampleOverwrite : MethodsOverwrite sampleEnv where
  json _ _ := .inr fun _ => rfl
  text _ _ := .inr fun _ => rfl

theorem sampleExported : AllExported sampleEnv := by
  intro i fs f hd hf T
  match i with
  | 0 =>
    cases hd
    simp at hf
    rcases hf with rfl | rfl | rfl <;> simp
  | 1 => cases hd
  | 2 =>
    cases hd
    cases hf
  | n + 3 =>
    cases hd
    simp at hf
    subst hf
    simp

/-- The second time everything is there already. -/
example : Unmarshal sampleEnv sampleCfg samplePools sampleIt (bs! "{\"A\":1,\"next\":{\"A\":2,\"next\":null}}") (.named 0)
      (.struct [.int 9, .nilSlice, .nilPtr]) = .ok (.struct [.int 1, .nilSlice, .ptr (.struct [.int 2, .nilSlice, .nilPtr])]) ∧
    Unmarshal sampleEnv sampleCfg samplePools sampleIt (bs! "{\"A\":1,\"next\":{\"A\":2,\"next\":null}}") (.named 0)
      (.struct [.int 1, .nilSlice, .ptr (.struct [.int 2, .nilSlice, .nilPtr])]) =
        .ok (.struct [.int 1, .nilSlice, .ptr (.struct [.int 2, .nilSlice, .nilPtr])]) := ⟨rfl, rfl⟩

example {v : Val (List Byte)} {d : List Byte} (h : Unmarshal sampleEnv sampleCfg samplePools sampleIt d (.named 0)
    (.struct [.int 9, .nilSlice, .nilPtr]) = .ok v) : Unmarshal sampleEnv sampleCfg samplePools sampleIt d (.named 0) v = .ok v := by
  refine C59_again (sampleLaws _ rfl rfl rfl) sampleDeclared sampleOverwrite sampleExported _ _ (.struct 0 _ _ rfl rfl ?_) h
  intro k v T h1 h2
  match k with
  | 0 =>
    cases h1
    cases h2
    exact .int _ _ (by unfold Fits; decide)
  | 1 =>
    cases h1
    cases h2
    exact .nilSlice _ _ (.slice _)
  | 2 =>
    cases h1
    cases h2
    exact .nilPtr _
  | k + 3 => cases h1

/-- The program

```go
type inner struct { X int8 }        // 1
type Outer struct { *inner }        // 2
type T0 struct { O *Outer }         // 0, json:"o"
```
-/
def innerEnv : TyEnv (List Byte) :=
  { sampleEnv with
    defn := fun
      | 0 => .struct [⟨bs! "o", false, [.member 0], .ptr (.named 2)⟩]
      | 1 => .struct [⟨bs! "X", false, [.member 0], .int .w8⟩]
      | _ => .struct [⟨bs! "X", false, [.member 0, .deref false (.named 1), .member 0], .int .w8⟩]
    zeroNamed := fun
      | 0 => .struct [.nilPtr]
      | 1 => .struct [.int 0]
      | _ => .struct [.nilPtr] }

/-- Why embedded structs must be exported: the data are accepted once, but not again, because they have taken away an embedded
struct that the library can not put back. -/
theorem C59_unexported_fails :
    Unmarshal innerEnv sampleCfg samplePools sampleIt (bs! "{\"o\":{\"X\":1},\"o\":null}") (.named 0)
      (.struct [.ptr (.struct [.ptr (.struct [.int 7])])]) = .ok (.struct [.nilPtr]) ∧
    ∀ v, Unmarshal innerEnv sampleCfg samplePools sampleIt (bs! "{\"o\":{\"X\":1},\"o\":null}") (.named 0)
      (.struct [.nilPtr]) ≠ .ok v := by
  refine ⟨rfl, fun v h => ?_⟩
  have : Unmarshal innerEnv sampleCfg samplePools sampleIt (bs! "{\"o\":{\"X\":1},\"o\":null}") (.named 0)
      (.struct [.nilPtr]) = .error .nilEmbeddedPointer := rfl
  rw [this] at h
  cases h

end Jzon.Props
