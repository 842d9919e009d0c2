import Verif.Spec.Words

/-!
# Sample types

```go
type Any = interface{}                              // iface 0
                                                    // json.Marshaler is named 1, encoding.TextMarshaler is named 2
type Shape interface { MarshalJSON() ([]byte, error); Area() int }  // named 3
type Celsius float64                                // named 4, func (*Celsius) MarshalJSON
type ID int                                         // named 5, func (ID) MarshalText
type Outer struct { A int `json:",omitempty,string"`; B Any `json:",omitempty"`; C Celsius; *Inner }  // named 6
type Inner struct { D string `json:",omitempty"` }   // named 7
type Handle struct { P *int }                       // named 8
                                                    // json.Number is named 9
type Secret struct { p *int }                       // named 10
type Key struct { p *int }                          // named 11, func (Key) MarshalText
type Tag string                                     // named 12, func (Tag) MarshalText
type Tagged struct { T Tag `json:",omitempty"` }     // named 13
```
-/

namespace Jzon.Words

def sampleDirect : RTy → Bool
  | .ptr _ | .map _ _ | .func => true
  | .array n t => n == 1 && sampleDirect t
  | .struct 2 => true
  | .named 8 | .named 10 | .named 11 => true
  | _ => false

/-- The types that are used in the samples. -/
def sampleUsed : List RTy :=
  [.prim .int, .prim .string, .prim .uint8, .prim .float, .iface 0, .named 1, .named 4, .named 5, .named 6, .named 7, .named 8,
    .named 9, .ptr (.prim .int), .ptr (.named 4), .ptr (.named 6), .slice (.prim .uint8), .slice (.named 4),
    .map (.named 5) (.iface 0)]

def sampleTypes : Types where
  under
    | 1 => .iface 1
    | 2 => .iface 2
    | 3 => .iface 3
    | 4 => .prim .float
    | 5 => .prim .int
    | 6 => .struct 0
    | 7 => .struct 1
    | 8 | 10 | 11 => .struct 2
    | 13 => .struct 3
    | _ => .prim .string
  fields
    | 0 => [.prim .int, .iface 0, .named 4, .ptr (.named 7)]
    | 1 => [.prim .string]
    | 2 => [.ptr (.prim .int)]
    | 3 => [.named 12]
    | _ => []
  offset
    | 0, 1 => 8
    | 0, 2 => 24
    | 0, 3 => 32
    | _, _ => 0
  size
    | .prim .uint8 => 1
    | .prim .string => 16
    | .slice _ => 24
    | .iface _ => 16
    | .named 6 => 40
    | .named 7 | .named 12 | .named 13 => 16
    | _ => 8
  direct := sampleDirect
  json t := t = .named 1 || t = .named 3 || t = .ptr (.named 4)
  text t := t = .named 2 || t = .named 5 || t = .ptr (.named 5) || t = .named 11 || t = .ptr (.named 11) ||
      t = .named 12 || t = .ptr (.named 12)
  methods i := i != 0
  implements i t :=
    match i with
    | 1 | 3 => t = .named 1 || t = .named 3 || t = .ptr (.named 4)
    | 2 => t = .named 2 || t = .named 5 || t = .ptr (.named 5) || t = .named 11 || t = .ptr (.named 11) ||
      t = .named 12 || t = .ptr (.named 12)
    | _ => true
  used t := t ∈ sampleUsed
  special
    | .named 1 => some .jsonMarshaler
    | .named 2 => some .textMarshaler
    | .named 9 => some .number
    | _ => none
  custom _ := false
  described
    | .named 6 => [⟨0, [0], true, true⟩, ⟨1, [1], true, false⟩, ⟨2, [2], false, false⟩, ⟨3, [3, 0], true, false⟩]
    | .named 7 => [⟨3, [0], true, false⟩]
    | .named 8 => [⟨4, [0], false, false⟩]
    | .named 13 => [⟨5, [0], true, false⟩]
    | _ => []
  zero _ n := n == 0
  customEmpty _ _ := false

/-- The laws, for the sample and for what is like it but for `used`, `custom` and `special`. -/
theorem sampleLawful (used : RTy → Prop) (custom : RTy → Bool) : { sampleTypes with used := used, custom := custom }.Lawful where
  under i j h := by
    revert h
    simp only [sampleTypes]
    split <;> nofun
  directPrim _ := rfl
  directSlice _ := rfl
  directIface _ := rfl
  directPtr _ := rfl
  directMap _ _ := rfl
  directFunc := rfl
  directArray n t := by simp [sampleTypes, sampleDirect]
  directStruct i := by
    match i with
    | 0 | 1 => simp [sampleTypes, sampleDirect]
    | 2 | 3 => simp [sampleTypes, sampleDirect]
    | n + 4 => simp [sampleTypes, sampleDirect]
  directNamed i := by
    match i with
    | 0 | 1 | 2 | 3 | 4 | 5 | 6 | 7 | 8 | 9 | 10 | 11 | 12 | 13 => rfl
    | n + 14 => rfl
  sizeByte t h := by
    cases t with
    | prim k => cases h; rfl
    | named i =>
      revert h
      simp only [sampleTypes, Types.core]
      split <;> nofun
    | _ => cases h
  offsetFirst i := by
    match i with
    | 0 | n + 1 => rfl
  number t h := by
    revert h
    simp only [sampleTypes]
    split
    · nofun
    · nofun
    · intro _; rfl
    · nofun
  raw t h := by
    revert h
    simp only [sampleTypes]
    split <;> nofun
  jsonMarshaler t h := by
    revert h
    simp only [sampleTypes]
    split
    · intro _; exact ⟨1, rfl, rfl, fun u h => h⟩
    · nofun
    · nofun
    · nofun
  textMarshaler t h := by
    revert h
    simp only [sampleTypes]
    split
    · nofun
    · intro _; exact ⟨2, rfl, rfl, fun u h => h⟩
    · nofun
    · nofun

theorem sampleClosed : sampleTypes.Closed where
  ptr t e h hc := by
    have := (by decide : ∀ t ∈ sampleUsed, (match sampleTypes.core t with | .ptr e => decide (e ∈ sampleUsed) | _ => true) = true) t h
    rw [hc] at this; exact (of_decide_eq_true this : e ∈ sampleUsed)
  slice t e h hc := by
    have := (by decide : ∀ t ∈ sampleUsed, (match sampleTypes.core t with | .slice e => decide (e ∈ sampleUsed) | _ => true) = true) t h
    rw [hc] at this; exact (of_decide_eq_true this : e ∈ sampleUsed)
  array t n e h hc := by
    have := (by decide : ∀ t ∈ sampleUsed, (match sampleTypes.core t with | .array _ e => decide (e ∈ sampleUsed) | _ => true) = true) t h
    rw [hc] at this; exact (of_decide_eq_true this : e ∈ sampleUsed)
  map t k e h hc := by
    have := (by decide : ∀ t ∈ sampleUsed, (match sampleTypes.core t with | .map _ e => decide (e ∈ sampleUsed) | _ => true) = true) t h
    rw [hc] at this; exact (of_decide_eq_true this : e ∈ sampleUsed)
  struct t i d h hc hd := by
    revert hd
    simp only [sampleTypes]
    split
    · intro hd
      simp only [List.mem_cons, List.not_mem_nil, or_false] at hd
      rcases hd with rfl | rfl | rfl | rfl
      · exact ⟨_, .field rfl rfl, by decide⟩
      · exact ⟨_, .field rfl rfl, by decide⟩
      · exact ⟨_, .field rfl rfl, by decide⟩
      · exact ⟨_, .pointer (by simp) rfl rfl (.field rfl rfl), by decide⟩
    · intro hd
      simp only [List.mem_cons, List.not_mem_nil, or_false] at hd
      subst hd
      exact ⟨_, .field rfl rfl, by decide⟩
    · intro hd
      simp only [List.mem_cons, List.not_mem_nil, or_false] at hd
      subst hd
      exact ⟨_, .field rfl rfl, by decide⟩
    · next t => revert h; simp [sampleTypes, sampleUsed]
    · intro hd; cases hd

theorem sampleClear : sampleTypes.Clear where
  iface t h := (by decide : ∀ t ∈ sampleUsed, sampleTypes.isIface t = true → sampleTypes.special t = none →
    sampleTypes.json t = false ∧ sampleTypes.text t = false) t h
  custom t h hc := by cases hc
  emptyStruct t i h hc hd := by
    have := (by decide : ∀ t ∈ sampleUsed, (match sampleTypes.core t with
      | .struct _ => decide (sampleTypes.described t = [] → sampleTypes.direct t = false) | _ => true) = true) t h
    rw [hc] at this; exact of_decide_eq_true this hd
  textPtr t e h hc := by
    have := (by decide : ∀ t ∈ sampleUsed, (match sampleTypes.core t with
      | .ptr e => decide (sampleTypes.special e ≠ some .textMarshaler) | _ => true) = true) t h
    rw [hc] at this; exact of_decide_eq_true this
  keyIface t k e h hc := by
    have := (by decide : ∀ t ∈ sampleUsed, (match sampleTypes.core t with
      | .map k _ => decide (sampleTypes.text k = true → sampleTypes.isIface k = false) | _ => true) = true) t h
    rw [hc] at this; exact of_decide_eq_true this
  keyDirect t k e h hc ht hd := by
    have := (by decide : ∀ t ∈ sampleUsed, (match sampleTypes.core t with
      | .map k _ => decide (sampleTypes.text k = true → sampleTypes.direct k = false) | _ => true) = true) t h
    rw [hc] at this; rw [of_decide_eq_true this ht] at hd; cases hd
  omits t i d f h hc := by
    simp only [sampleTypes]
    split
    · intro hd
      simp only [List.mem_cons, List.not_mem_nil, or_false] at hd
      rcases hd with rfl | rfl | rfl | rfl
      · intro _ hl
        cases hl with
        | field hc hf => cases hc; cases hf; exact .kind rfl rfl rfl nofun
        | embedded h | pointer h => exact absurd rfl h
      · intro _ hl
        cases hl with
        | field hc hf => cases hc; cases hf; exact .kind rfl rfl rfl nofun
        | embedded h | pointer h => exact absurd rfl h
      · intro h; cases h
      · intro _ hl
        cases hl with
        | embedded _ hc hf hp => cases hc; cases hf; exact absurd rfl (hp _)
        | pointer _ hc hf hl =>
          cases hc; cases hf
          cases hl with
          | field hc hf => cases hc; cases hf; exact .kind rfl rfl rfl nofun
          | embedded h | pointer h => exact absurd rfl h
    · intro hd
      simp only [List.mem_cons, List.not_mem_nil, or_false] at hd
      subst hd
      intro _ hl
      cases hl with
      | field hc hf => cases hc; cases hf; exact .kind rfl rfl rfl nofun
      | embedded h | pointer h => exact absurd rfl h
    · intro hd
      simp only [List.mem_cons, List.not_mem_nil, or_false] at hd
      subst hd
      intro h; cases h
    · next t => revert h; simp [sampleTypes, sampleUsed]
    · intro hd; cases hd

/-- `Outer{A: 5, B: Handle{nil}, C: 36, Inner: nil}` at 100, a pointer to another one at 200, with an `Inner` at 300. -/
def sampleMemory : Memory := fun a =>
  match a with
  | 100 => some (.prim .int 5)
  | 108 => some (.eface (some (.named 8, none)))
  | 124 => some (.prim .float 36)
  | 132 => some (.ptr none)
  | 200 => some (.prim .int 7)
  | 208 => some (.eface (some (.ptr (.named 6), some 100)))
  | 224 => some (.prim .float 12)
  | 232 => some (.ptr (some 300))
  | 300 => some (.prim .string 77)
  | _ => none

theorem sampleFinite : sampleMemory.Finite := by
  refine ⟨301, fun a ha => ?_⟩
  unfold sampleMemory
  split <;> first | omega | rfl

def sampleInner : DVal := .list [.prim 5, .box (.named 8) (.list [.nil]), .prim 36, .nil]
def sampleOuter : DVal := .list [.prim 7, .box (.ptr (.named 6)) (.ref sampleInner), .prim 12, .ref (.list [.prim 77])]

theorem sampleHoldsInner : Holds sampleTypes sampleMemory (.named 6) 100 sampleInner :=
  .named (.struct (.cons (.prim rfl) (.cons (.eface rfl rfl (by simp [sampleTypes, sampleUsed])
    (.word rfl rfl (.named (.struct rfl rfl .nilPtr)))) (.cons (.named (.prim rfl)) (.cons (.nilPtr rfl) .nil)))))

theorem sampleHolds : Holds sampleTypes sampleMemory (.named 6) 200 sampleOuter :=
  .named (.struct (.cons (.prim rfl) (.cons (.eface rfl rfl (by simp [sampleTypes, sampleUsed])
    (.word rfl rfl (.ptr sampleHoldsInner))) (.cons (.named (.prim rfl)) (.cons (.ptr rfl (.named (.struct (.cons (.prim rfl) .nil))))
      .nil)))))

/-- What is written for the second one: the method of `*Celsius` is called, and the fields of `Inner` are found. -/
def sampleOut : Out :=
  .obj [(0, .prim true .int 7),
    (1, .obj [(0, .prim true .int 5), (1, .obj [(4, .null)]), (2, .json (.ptr (.named 4)) (.ref (.prim 36)))]),
    (2, .json (.ptr (.named 4)) (.ref (.prim 12))), (3, .prim false .string 77)]

end Jzon.Words
