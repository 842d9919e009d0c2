import Verif.Proof.WordsUnique
import Verif.Spec.WordsSample

/-!
# C49: values with dynamic types

The encoders work on untyped pointers, and what the pointer is depends on how the encoder was reached: for an element, a field or
the target of a pointer it is the address of a variable; for the content of an interface it is the data word, which for some types
is the value itself.  Each encoder gets what it takes its pointer for, every read finds what it expects, and what is written is
what `Spec.Words` says, where there are no addresses and no words.

`_partial`: there are types for which this goes wrong, see `_violated` below and `Types.Clear`.
-/

namespace Jzon.Props
open Jzon Jzon.Words

variable {Γ : Types} {m : Memory}

/-- What the argument of `Streamer.Value` is, as the language has it. -/
inductive Argument (Γ : Types) (m : Memory) : Option (RTy × Ptr) → DVal → Prop
  | nil : Argument Γ m none .nil
  | value {t w v} : Γ.used t → Boxed Γ m t w v → Argument Γ m (some (t, w)) (.box t v)

/-- What is to be written for the argument of `Streamer.Value`; `q` is the option `string`. -/
inductive ArgumentShows (Γ : Types) (q : Bool) : DVal → Out → Prop
  | nil : ArgumentShows Γ q .nil .null
  | value {t v o} : Shows Γ q t v o → ArgumentShows Γ q (.box t v) o

/-- `Streamer.Value` writes what is to be written for its argument, and nothing else. -/
theorem C49_value_partial (L : Γ.Lawful) (C : Γ.Closed) (G : Γ.Clear) {x v o} (hf : m.Finite) (h : Argument Γ m x v) :
    Value Γ m x o ↔ ArgumentShows Γ false v o := by
  cases h with
  | nil => exact ⟨fun h => by cases h; exact .nil, fun h => by cases h; exact .nil⟩
  | value hu hb =>
    exact ⟨fun h => by cases h with | value h => exact .value ((run_root L C G hf hu hb).mp h),
      fun h => by cases h with | value h => exact .value ((run_root L C G hf hu hb).mpr h)⟩

/-- It comes to an end, and never reads a word that is not there or that is something else than it takes it for. -/
theorem C49_ends_partial (L : Γ.Lawful) (C : Γ.Closed) (G : Γ.Clear) {x v} (hf : m.Finite) (h : Argument Γ m x v) :
    ∃ o, Value Γ m x o := by
  cases h with
  | nil => exact ⟨_, .nil⟩
  | value hu hb =>
    obtain ⟨o, h⟩ := run_root_exists L C G hf hu hb
    exact ⟨o, .value h⟩

/-- It never panics. -/
theorem C49_no_panic_partial (L : Γ.Lawful) (C : Γ.Closed) (G : Γ.Clear) {x v o} (hf : m.Finite) (h : Argument Γ m x v)
    (hv : Value Γ m x o) : ¬ o.Panics := by
  cases (C49_value_partial L C G hf h).mp hv with
  | nil => nofun
  | value h => exact h.clean

/-- The output depends only on the value, not on where it is or how its parts are shared. -/
theorem C49_memory_partial (L : Γ.Lawful) (C : Γ.Closed) (G : Γ.Clear) {m' : Memory} {x x' v o o'} (hf : m.Finite) (hf' : m'.Finite)
    (h : Argument Γ m x v) (h' : Argument Γ m' x' v) (hv : Value Γ m x o) (hv' : Value Γ m' x' o') : o = o' := by
  have e := (C49_value_partial L C G hf h).mp hv
  have e' := (C49_value_partial L C G hf' h').mp hv'
  cases e with
  | nil => cases e'; rfl
  | value e => cases e' with | value e' => exact e.unique e'

/-- A variable of an interface type is written like its content as an argument of `Streamer.Value`; this holds for the interfaces
without methods and for those with methods. -/
theorem C49_interface_partial (L : Γ.Lawful) (C : Γ.Closed) (G : Γ.Clear) {q t i a v o} (hf : m.Finite) (hu : Γ.used t)
    (hc : Γ.core t = .iface i) (hs : Γ.special t = none) (hn : Γ.custom t = false) (h : Holds Γ m t a v) :
    Run Γ m q (Γ.internalEnc t) (some a) o ↔ ArgumentShows Γ q v o := by
  have hw : Γ.way t = .kind := by
    have hi : Γ.isIface t = true := by simp [Types.isIface, hc]
    obtain ⟨h1, h2⟩ := G.iface t hu hi hs
    simp [Types.way, hn, hs, h1, h2]
  have hk : Γ.kindCustom t = none := by simp [Types.kindCustom, hw, hc]
  have hun : Γ.unsupported t = false := by simp [Types.unsupported, hw, hc]
  rw [run_internal L C G hf hu h]
  constructor
  · intro hs
    cases hs with
    | iface _ _ h => exact .value h
    | ifaceNil => exact .nil
    | nil ht => cases ht <;> simp_all
    | ref ht => cases ht <;> simp_all
    | _ => simp_all
  · intro hs
    cases hs with
    | nil => exact .ifaceNil hw hc
    | value h => exact .iface hw hc h

/-- What a pointer points to, and an element of a map: the encoder of the type gets the address of a variable. -/
theorem C49_variable_partial (L : Γ.Lawful) (C : Γ.Closed) (G : Γ.Clear) {q t a v o} (hf : m.Finite) (hu : Γ.used t)
    (h : Holds Γ m t a v) : Run Γ m q (Γ.internalEnc t) (some a) o ↔ Shows Γ q t v o :=
  run_internal L C G hf hu h

/-- Elements of slices and arrays, and fields: if only the pointer type has a method, it is called with a pointer to the variable. -/
theorem C49_element_partial (L : Γ.Lawful) (C : Γ.Closed) (G : Γ.Clear) {q t a v o} (hf : m.Finite) (hu : Γ.used t)
    (h : Holds Γ m t a v) : Run Γ m q (Γ.elemEnc t) (some a) o ↔ ShowsVar Γ q t v o :=
  run_elem L C G hf hu h

/-- A field with the option `omitempty` is asked for its emptiness, and the answer is whether its content is empty. -/
theorem C49_empty_partial (L : Γ.Lawful) (G : Γ.Clear) {t i d f a v r} (hu : Γ.used t) (hc : Γ.core t = .struct i)
    (hd : d ∈ Γ.described t) (ho : d.omitEmpty = true) (hl : Leads Γ t d.path f) (hf : Γ.used f) (h : Holds Γ m f a v) :
    IsEmpty Γ m (Γ.elemEnc f) a r ↔ r = some (Γ.emptyValue f v) :=
  isEmpty_iff L G hf (G.omits t i d f hu hc hd ho hl) h

/-- What is to be written is determined by the value. -/
theorem C49_determined {q t v o o'} (h : Shows Γ q t v o) (h' : Shows Γ q t v o') : o = o' := h.unique h'

/-! ## A case -/

/-- An `*Outer` in an `interface{}`, with another one in a field, which has a struct that is a nil pointer in an `interface{}`. -/
theorem sampleArgument : Argument sampleTypes sampleMemory (some (.ptr (.named 6), some 200)) (.box (.ptr (.named 6)) (.ref sampleOuter)) :=
  .value (by simp [sampleTypes, sampleUsed]) (.word rfl rfl (.ptr sampleHolds))

theorem sampleShowsInner : Shows sampleTypes false (.named 6) sampleInner
    (.obj [(0, .prim true .int 5), (1, .obj [(4, .null)]), (2, .json (.ptr (.named 4)) (.ref (.prim 36)))]) := by
  refine .struct rfl rfl (.field (.field rfl) (.field rfl rfl) (fun _ => rfl) (.value rfl (.prim rfl rfl rfl))
    (.field (.field rfl) (.field rfl rfl) (fun _ => rfl) (.value rfl (.iface rfl rfl (.struct rfl rfl (.field (.field rfl)
      (.field rfl rfl) nofun (.value rfl ?_) .nil))))
    (.field (.field rfl) (.field rfl rfl) nofun (.pointer rfl (.jsonPtr rfl rfl rfl))
    (.skip (.null (by simp) rfl) .nil))))
  exact Shows.nil (e := .prim .int) (.kind rfl rfl)

theorem sampleShows : ArgumentShows sampleTypes false (.box (.ptr (.named 6)) (.ref sampleOuter)) sampleOut :=
  .value (.ref (.kind rfl rfl) (.struct rfl rfl (.field (.field rfl) (.field rfl rfl) (fun _ => rfl) (.value rfl (.prim rfl rfl rfl))
    (.field (.field rfl) (.field rfl rfl) (fun _ => rfl) (.value rfl (.iface rfl rfl (.ref (.kind rfl rfl) sampleShowsInner)))
    (.field (.field rfl) (.field rfl rfl) nofun (.pointer rfl (.jsonPtr rfl rfl rfl))
    (.field (.pointer (by simp) rfl (.field rfl)) (.pointer (by simp) rfl rfl (.field rfl rfl)) (fun _ => rfl)
      (.value rfl (.prim rfl rfl rfl)) .nil))))))

example : Value sampleTypes sampleMemory (some (.ptr (.named 6), some 200)) sampleOut :=
  (C49_value_partial (sampleLawful _ _) sampleClosed sampleClear sampleFinite sampleArgument).mpr sampleShows

example : ¬ sampleOut.Panics :=
  C49_no_panic_partial (sampleLawful _ _) sampleClosed sampleClear sampleFinite sampleArgument
    ((C49_value_partial (sampleLawful _ _) sampleClosed sampleClear sampleFinite sampleArgument).mpr sampleShows)

/-- The field `B`, a variable of the type `interface{}`. -/
example {o} : Run sampleTypes sampleMemory false (sampleTypes.internalEnc (.iface 0)) (some 108) o ↔
    ArgumentShows sampleTypes false (.box (.named 8) (.list [.nil])) o :=
  C49_interface_partial (sampleLawful _ _) sampleClosed sampleClear sampleFinite (by simp [sampleUsed]) rfl rfl rfl
    (.eface rfl rfl (by simp [sampleUsed]) (.word rfl rfl (.named (.struct rfl rfl .nilPtr))))

/-- The field `C`: the method of `*Celsius` is called. -/
example : Run sampleTypes sampleMemory false (sampleTypes.elemEnc (.named 4)) (some 124) (.json (.ptr (.named 4)) (.ref (.prim 36))) :=
  (C49_element_partial (sampleLawful _ _) sampleClosed sampleClear sampleFinite (by simp [sampleUsed])
    (.named (.prim rfl))).mpr (.pointer rfl (.jsonPtr rfl rfl rfl))

/-- As the content of an interface a `Celsius` has no method. -/
example : Run sampleTypes sampleMemory false (sampleTypes.rootEnc (.named 4)) (some 124) (.prim false .float 36) :=
  (run_root (sampleLawful _ _) sampleClosed sampleClear sampleFinite (by simp [sampleUsed])
    (.pointer rfl rfl (.named (.prim rfl)))).mpr (.prim rfl rfl rfl)

/-- `Outer{A: 0, B: nil, C: 36, Inner: &Inner{""}}`: three empty fields. -/
example : Shows sampleTypes false (.named 6) (.list [.prim 0, .nil, .prim 36, .ref (.list [.prim 0])])
    (.obj [(2, .json (.ptr (.named 4)) (.ref (.prim 36)))]) :=
  .struct rfl rfl (.omitted (.field rfl) (.field rfl rfl) rfl rfl (.omitted (.field rfl) (.field rfl rfl) rfl rfl
    (.field (.field rfl) (.field rfl rfl) nofun (.pointer rfl (.jsonPtr rfl rfl rfl))
    (.omitted (.pointer (by simp) rfl (.field rfl)) (.pointer (by simp) rfl rfl (.field rfl rfl)) rfl rfl .nil))))

/-- The field `B`. -/
example : IsEmpty sampleTypes sampleMemory (sampleTypes.elemEnc (.iface 0)) 108 (some false) :=
  (C49_empty_partial (sampleLawful _ _) sampleClear (t := .named 6) (i := 0) (d := ⟨1, [1], true, false⟩) (by simp [sampleUsed]) rfl
    (by simp [sampleTypes]) rfl (.field rfl rfl) (by simp [sampleUsed])
    (.eface rfl rfl (by simp [sampleUsed]) (.word rfl rfl (.named (.struct rfl rfl .nilPtr))))).mpr rfl

/-! ## The types for which it goes wrong -/

/-- The sample with other used types and with encoders of the user. -/
abbrev sampleWith (used : List RTy) (custom : RTy → Bool) : Types :=
  { sampleTypes with used := fun t => t ∈ used, custom := custom }

theorem sampleWith_closed {used : List RTy} {custom : RTy → Bool}
    (h : ∀ t ∈ used, (match sampleTypes.core t with
      | .ptr e | .slice e | .array _ e | .map _ e => decide (e ∈ used)
      | _ => true) = true)
    (hs : ∀ t ∈ used, sampleTypes.described t = []) : (sampleWith used custom).Closed where
  ptr t e ht hc := by
    have := h t ht
    rw [show sampleTypes.core t = .ptr e from hc] at this
    exact (of_decide_eq_true this : e ∈ used)
  slice t e ht hc := by
    have := h t ht
    rw [show sampleTypes.core t = .slice e from hc] at this
    exact (of_decide_eq_true this : e ∈ used)
  array t n e ht hc := by
    have := h t ht
    rw [show sampleTypes.core t = .array n e from hc] at this
    exact (of_decide_eq_true this : e ∈ used)
  map t k e ht hc := by
    have := h t ht
    rw [show sampleTypes.core t = .map k e from hc] at this
    exact (of_decide_eq_true this : e ∈ used)
  struct t i d ht hc hd := by
    rw [show (sampleWith used custom).described t = [] from hs t ht] at hd
    cases hd

/-- Memory with a few cells. -/
def cells : List (Addr × Cell) → Memory
  | [], _ => none
  | (a, c) :: r, b => if b = a then some c else cells r b

theorem cells_finite : ∀ cs : List (Addr × Cell), (cells cs).Finite
  | [] => ⟨0, fun _ _ => rfl⟩
  | (a, c) :: r => by
    obtain ⟨n, hn⟩ := cells_finite r
    refine ⟨max n (a + 1), fun b hb => ?_⟩
    have h1 : n ≤ b := by omega
    have h2 : b ≠ a := by
      have : a + 1 ≤ b := Nat.le_trans (Nat.le_max_right _ _) hb
      intro e; subst e; exact absurd this (Nat.not_succ_le_self _)
    simp [cells, h2, hn b h1]

/-- An interface type of the user with the method `MarshalJSON` (`[]Shape` with a `*Celsius` in it): the interface value is taken
for the value of a type with the method, and the call panics. -/
theorem C49_marshaler_interface_violated : ∃ (Γ : Types) (m : Memory) (x : Option (RTy × Ptr)) (v : DVal),
    Γ.Lawful ∧ Γ.Closed ∧ m.Finite ∧ Argument Γ m x v ∧ (∀ t, Γ.custom t = false) ∧
    ∀ o, Value Γ m x o ↔ o = .arr [.panic] := by
  refine ⟨sampleWith [.slice (.named 3), .named 3, .ptr (.named 4), .named 4] fun _ => false,
    cells [(10, .slice (some 20) 1), (20, .iface (some (.ptr (.named 4), some 30))), (30, .prim .float 1)],
    some (.slice (.named 3), some 10), .box (.slice (.named 3)) (.list [.box (.ptr (.named 4)) (.ref (.prim 1))]),
    sampleLawful _ _, sampleWith_closed (by decide) (by decide), cells_finite _,
    .value (by simp) (.pointer rfl rfl (.slice rfl (.cons (.named (.iface rfl rfl (by simp) rfl
      (.word rfl rfl (.ptr (.named (.prim rfl)))))) .nil))), fun _ => rfl, fun o => ⟨fun h => ?_, fun h => ?_⟩⟩
  · cases h with
    | value h =>
      change Run _ _ _ (.slice (.named 3)) _ _ at h
      cases h with
      | sliceNil h => cases h
      | slice h h1 =>
        cases h
        cases h1 with
        | cons h h1 =>
          cases h1
          change Run _ _ _ (.jsonMarshaler (.named 3)) _ _ at h
          cases h with
          | jsonMarshaler h =>
            cases h with
            | panic => rfl
            | call h => cases h
  · subst h
    refine .value (?_ : Run _ _ _ (.slice (.named 3)) _ _)
    refine .slice rfl (.cons (?_ : Run _ _ _ (.jsonMarshaler (.named 3)) _ _) .nil)
    exact .jsonMarshaler (.panic (.inl rfl))

/-- An encoder of the user for a type that is stored directly in interfaces (for `*int`): in a variable it gets the address of the
pointer, in an interface the pointer itself; whatever it takes its argument for, it is wrong in one of the two. -/
theorem C49_custom_direct_violated : ∃ (Γ : Types) (m : Memory) (t : RTy) (w : Ptr) (v : DVal),
    Γ.Lawful ∧ Γ.Closed ∧ m.Finite ∧ Γ.used t ∧ Boxed Γ m t w v ∧ Γ.custom t = true ∧
    (¬ ∃ o, Value Γ m (some (t, w)) o) ∧
    ∃ a, Holds Γ m t a v ∧ Run Γ m false (Γ.elemEnc t) (some a) (.custom false t v) := by
  refine ⟨sampleWith [.ptr (.prim .int), .prim .int] fun t => t = .ptr (.prim .int),
    cells [(10, .prim .int 5), (20, .ptr (some 10))], .ptr (.prim .int), some 10, .ref (.prim 5),
    sampleLawful _ _, sampleWith_closed (by decide) (by decide), cells_finite _, by simp,
    .word rfl rfl (.ptr (.prim rfl)), rfl, ?_, 20, .ptr rfl (.prim rfl), ?_⟩
  · intro ⟨o, h⟩
    cases h with
    | value h =>
      change Run _ _ _ (.custom (.ptr (.prim .int))) _ _ at h
      cases h with
      | custom h => cases h with
        | ptr h => cases h
        | nilPtr h => cases h
  · exact (show Run _ _ _ (.custom (.ptr (.prim .int))) _ _ from .custom (.ptr rfl (.prim rfl)))

/-- A struct without described fields that is a pointer (`struct { p *int }`): if the pointer is nil, `null` is written in place
of `{}`. -/
theorem C49_empty_struct_violated : ∃ (Γ : Types) (m : Memory) (x : Option (RTy × Ptr)) (v : DVal),
    Γ.Lawful ∧ Γ.Closed ∧ m.Finite ∧ Argument Γ m x v ∧ (∀ t, Γ.custom t = false) ∧
    (∀ o, Value Γ m x o ↔ o = .null) ∧ ∀ o, ArgumentShows Γ false v o ↔ o = .obj [] := by
  refine ⟨sampleWith [.named 10] fun _ => false, cells [], some (.named 10, none), .box (.named 10) (.list [.nil]),
    sampleLawful _ _, sampleWith_closed (by decide) (by decide), cells_finite _,
    .value (by simp) (.word rfl rfl (.named (.struct rfl rfl .nilPtr))), fun _ => rfl, fun o => ⟨fun h => ?_, fun h => ?_⟩,
    fun o => ⟨fun h => ?_, fun h => ?_⟩⟩
  · cases h with
    | value h =>
      change Run _ _ _ .emptyStruct _ _ at h
      cases h; rfl
  · subst h
    exact .value (show Run _ _ _ .emptyStruct _ _ from .null rfl)
  · cases h with
    | value h => exact h.unique (.struct rfl rfl .nil)
  · subst h
    exact .value (.struct rfl rfl .nil)

/-- A nil pointer to an `encoding.TextMarshaler`: the call panics. -/
theorem C49_text_pointer_violated : ∃ (Γ : Types) (m : Memory) (x : Option (RTy × Ptr)) (v : DVal),
    Γ.Lawful ∧ Γ.Closed ∧ m.Finite ∧ Argument Γ m x v ∧ (∀ t, Γ.custom t = false) ∧
    (∀ o, Value Γ m x o ↔ o = .panic) ∧ ∀ o, ArgumentShows Γ false v o ↔ o = .null := by
  refine ⟨sampleWith [.ptr (.named 2), .named 2] fun _ => false, cells [], some (.ptr (.named 2), none),
    .box (.ptr (.named 2)) .nil,
    sampleLawful _ _, sampleWith_closed (by decide) (by decide), cells_finite _,
    .value (by simp) (.word rfl rfl .nilPtr), fun _ => rfl, fun o => ⟨fun h => ?_, fun h => ?_⟩,
    fun o => ⟨fun h => ?_, fun h => ?_⟩⟩
  · cases h with
    | value h =>
      change Run _ _ _ (.special .textMarshaler) _ _ at h
      cases h with
      | null h => cases h
      | dynTextPanic => rfl
  · subst h
    exact .value (show Run _ _ _ (.special .textMarshaler) _ _ from .dynTextPanic)
  · cases h with
    | value h => exact h.unique (Shows.nil (e := .named 2) (.kind rfl rfl))
  · subst h
    exact .value (Shows.nil (e := .named 2) (.kind rfl rfl))

/-- Map keys of an interface type with the method `MarshalText`, such as `map[encoding.TextMarshaler]int`: the call panics. -/
theorem C49_interface_key_violated : ∃ (Γ : Types) (m : Memory) (x : Option (RTy × Ptr)) (v : DVal),
    Γ.Lawful ∧ Γ.Closed ∧ m.Finite ∧ Argument Γ m x v ∧ (∀ t, Γ.custom t = false) ∧
    ∃ o, Value Γ m x o ∧ o.Panics := by
  refine ⟨sampleWith [.map (.named 2) (.prim .int), .prim .int, .named 5] fun _ => false,
    cells [(10, .map [(20, 40)]), (20, .iface (some (.named 5, some 30))), (30, .prim .int 3), (40, .prim .int 4)],
    some (.map (.named 2) (.prim .int), some 10), .box (.map (.named 2) (.prim .int)) (.map [(.box (.named 5) (.prim 3), .prim 4)]),
    sampleLawful _ _, sampleWith_closed (by decide) (by decide), cells_finite _,
    .value (by simp) (.word rfl rfl (.map rfl (.cons (.named (.iface rfl rfl (by simp) rfl (.pointer rfl rfl (.named (.prim rfl)))))
      (.prim rfl) .nil))), fun _ => rfl, .dict [(.panic, .prim false .int 4)], .value ?_, .dict .key⟩
  refine (?_ : Run _ _ _ (.direct (.map (.text (.named 2)) (.prim .int))) _ _)
  refine .direct (a := 50) rfl (.map rfl rfl (.cons (.text (.panic (.inl rfl))) ?_ .nil))
  exact (show Run _ _ _ (.prim .int) _ _ from .prim rfl)

/-- Map keys that are pointers without being of a pointer type (`struct { p *int }`), with the method `MarshalText`: if the pointer
is nil, the empty string is written and the method is not called. -/
theorem C49_direct_key_violated : ∃ (Γ : Types) (m : Memory) (x : Option (RTy × Ptr)) (v : DVal) (o : Out),
    Γ.Lawful ∧ Γ.Closed ∧ m.Finite ∧ Argument Γ m x v ∧ (∀ t, Γ.custom t = false) ∧
    Value Γ m x (.dict [(.empty, o)]) ∧
    ∃ k kv, Γ.text k = true ∧ (∀ e, Γ.core k ≠ .ptr e) ∧ ArgumentShows Γ false v (.dict [(.text k kv, o)]) := by
  refine ⟨sampleWith [.map (.named 11) (.prim .int), .prim .int] fun _ => false,
    cells [(10, .map [(20, 40)]), (20, .ptr none), (40, .prim .int 4)],
    some (.map (.named 11) (.prim .int), some 10), .box (.map (.named 11) (.prim .int)) (.map [(.list [.nil], .prim 4)]), .prim false .int 4,
    sampleLawful _ _, sampleWith_closed (by decide) (by decide), cells_finite _,
    .value (by simp) (.word rfl rfl (.map rfl (.cons (.named (.struct (.cons (.nilPtr rfl) .nil)))
      (.prim rfl) .nil))), fun _ => rfl, .value ?_, .named 11, .list [.nil], rfl, nofun,
    .value (.map rfl rfl rfl (.cons (.text rfl nofun nofun) (.prim rfl rfl rfl) .nil))⟩
  refine (?_ : Run _ _ _ (.direct (.map (.directText (.named 11)) (.prim .int))) _ _)
  refine .direct (a := 50) rfl (.map rfl rfl (.cons (.directNil rfl) ?_ .nil))
  exact (show Run _ _ _ (.prim .int) _ _ from .prim rfl)

/-- A field with the option `omitempty` of a string type with the method `MarshalText`: the question whether it is empty panics. -/
theorem C49_omitempty_violated : ∃ (Γ : Types) (m : Memory) (x : Option (RTy × Ptr)) (v : DVal),
    Γ.Lawful ∧ m.Finite ∧ Argument Γ m x v ∧ (∀ t, Γ.custom t = false) ∧ (∀ o, Value Γ m x o ↔ o = .obj [(5, .panic)]) := by
  refine ⟨sampleWith [.named 13, .named 12] fun _ => false, cells [(10, .prim .string 1)],
    some (.named 13, some 10), .box (.named 13) (.list [.prim 1]),
    sampleLawful _ _, cells_finite _,
    .value (by simp) (.pointer rfl rfl (.named (.struct (.cons (.named (.prim rfl)) .nil)))), fun _ => rfl,
    fun o => ⟨fun h => ?_, fun h => ?_⟩⟩
  · cases h with
    | value h =>
      change Run _ _ _ (.struct (.named 13)) _ _ at h
      cases h with
      | struct h =>
        change RunFields _ _ _ _ [⟨5, [0], true, false⟩] _ at h
        cases h with
        | skip h h1 => cases h; cases h1
        | panic _ _ _ _ h => cases h; rfl
        | omitted h h1 _ h2 =>
          cases h
          change IsEmpty _ _ (.textMarshaler (.named 12)) _ _ at h2
          cases h2 with
          | text h2 => have := h2.unique (.string rfl); cases this
        | field h h1 h2 =>
          cases h
          have h2 := h2 rfl
          change IsEmpty _ _ (.textMarshaler (.named 12)) _ _ at h2
          cases h2 with
          | text h2 => have := h2.unique (.string rfl); cases this
  · subst h
    refine .value (?_ : Run _ _ _ (.struct (.named 13)) _ _)
    refine .struct (.panic (d := ⟨5, [0], true, false⟩) rfl rfl rfl (?_ : IsEmpty _ _ (.textMarshaler (.named 12)) _ _) .nil)
    exact .text (.string rfl)

/-- What the question whether a field with the option `omitempty` is empty does for the types that `Types.OmitOk` leaves out: if only
the pointer type has a method, the field is never empty; if a string or function type has a method, the question panics; an array
of length 0 with a method is not empty; a struct without fields to be written is empty. -/
theorem C49_omitempty_odd (L : Γ.Lawful) (hf : m.Finite) {t : RTy} {a : Addr} {r : Option Bool} :
    (Γ.likeElem t = false → Γ.custom (.ptr t) = false → (IsEmpty Γ m (Γ.elemEnc t) a r ↔ r = some false)) ∧
    (Γ.likeElem t = true → Γ.way t = .json ∨ Γ.way t = .text →
      (Γ.core t = .prim .string ∨ Γ.core t = .func → (IsEmpty Γ m (Γ.elemEnc t) a r ↔ r = none)) ∧
      (∀ e, Γ.core t = .array 0 e → (IsEmpty Γ m (Γ.elemEnc t) a r ↔ r = some false))) ∧
    (Γ.likeElem t = true → Γ.way t = .kind → ∀ i, Γ.core t = .struct i → Γ.described t = [] →
      (IsEmpty Γ m (Γ.elemEnc t) a r ↔ r = some true)) :=
  ⟨isEmpty_pointer L hf.fresh, fun hl hw => ⟨isEmpty_panic L hl hw, fun _ => isEmpty_array L hl hw⟩,
    fun hl hw _ => isEmpty_struct L hl hw⟩

/-- A string type with the method `MarshalText`. -/
example : (sampleWith [.named 13, .named 12] fun _ => false).likeElem (.named 12) = true ∧
    (sampleWith [.named 13, .named 12] fun _ => false).way (.named 12) = .text ∧
    (sampleWith [.named 13, .named 12] fun _ => false).core (.named 12) = .prim .string := by decide

end Jzon.Props
