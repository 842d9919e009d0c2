import Verif.Model.Words

/-!
# What is to be written for values with dynamic types

`Shows Γ q t v o`: for the value `v` of the type `t` the tree `o` is to be written; `q` is the option `string`.  Nothing here knows of addresses, of words or
of the two caches.
-/

namespace Jzon.Words

/-- What decides on the output for a type: the first that applies. -/
inductive Way where
  /-- there is an encoder of the user for the type -/
  | custom
  | special (s : Special)
  /-- the type has the method `MarshalJSON` -/
  | json
  /-- the type has the method `MarshalText` -/
  | text
  | kind
  deriving DecidableEq, Repr

def Types.way (Γ : Types) (t : RTy) : Way :=
  if Γ.custom t then .custom
  else
    match Γ.special t with
    | some s => .special s
    | none => if Γ.json t then .json else if Γ.text t then .text else .kind

/-- The method of `t` is not one of `*t` only: a pointer to `t` is written like the value it points to. -/
def Types.likeElem (Γ : Types) (t : RTy) : Bool :=
  match Γ.way (.ptr t) with
  | .kind => true
  | .json => Γ.json t
  | .text => Γ.text t
  | _ => false

/-- The types without encoder. -/
def Types.unsupported (Γ : Types) (t : RTy) : Bool :=
  Γ.way t = .kind &&
    match Γ.core t with
    | .func => true
    | .map k _ =>
      match Γ.core k with
      | .prim .string | .prim .int | .prim .uint8 => false
      | _ => !Γ.text k
    | _ => false

/-- An encoder of the user for a basic type is used for all types of its kind that have no encoder or method of their own. -/
def Types.kindCustom (Γ : Types) (t : RTy) : Option Prim :=
  match Γ.way t, Γ.core t with
  | .kind, .prim k => if Γ.custom (.prim k) then some k else none
  | _, _ => none

/-- What is to be written for a nil pointer to `t`: `null`; but it is the encoder of the user that decides if there is one, and a
type that is not supported is an error. -/
def Types.nilOut (Γ : Types) (q : Bool) (t : RTy) : Out :=
  if Γ.custom t then .customNil q t
  else
    match Γ.kindCustom t with
    | some k => .customNil q (.prim k)
    | none => if Γ.unsupported t then .notSupported else .null

/-- Slices of `t` are byte slices: the elements are bytes and have no encoder or method of their own. -/
def Types.byteLike (Γ : Types) (t : RTy) : Bool :=
  Γ.core t = .prim .uint8 && Γ.way t = .kind && !Γ.custom (.prim .uint8) && Γ.likeElem t

/-- The empty values: `false`, `0`, `""`, nil, and arrays, slices and maps of length 0; for types with an encoder of the user, what
that says. -/
def Types.emptyValue (Γ : Types) (t : RTy) (v : DVal) : Bool :=
  if Γ.custom t then Γ.customEmpty t v
  else
    match Γ.kindCustom t with
    | some k => Γ.customEmpty (.prim k) v
    | none =>
      match Γ.core t, v with
      | .prim k, .prim n => Γ.zero k n
      | .struct _, _ => false
      | _, .nil => true
      | _, .list vs => vs.isEmpty
      | _, .map es => es.isEmpty
      | _, _ => false

/-- The field with the index sequence `path`: `none` if an embedded pointer on the way is nil. -/
inductive Follows : List Nat → DVal → Option DVal → Prop
  | field {j vs v} : vs[j]? = some v → Follows [j] (.list vs) (some v)
  | embedded {j js vs ws r} : js ≠ [] → vs[j]? = some (.list ws) → Follows js (.list ws) r → Follows (j :: js) (.list vs) r
  | pointer {j js vs v r} : js ≠ [] → vs[j]? = some (.ref v) → Follows js v r → Follows (j :: js) (.list vs) r
  | null {j js vs} : js ≠ [] → vs[j]? = some .nil → Follows (j :: js) (.list vs) none

/-- The type of the field with the index sequence `path`. -/
inductive Leads (Γ : Types) : RTy → List Nat → RTy → Prop
  | field {t i j f} : Γ.core t = .struct i → (Γ.fields i)[j]? = some f → Leads Γ t [j] f
  | embedded {t i j js e f} : js ≠ [] → Γ.core t = .struct i → (Γ.fields i)[j]? = some e → (∀ p, e ≠ .ptr p) → Leads Γ e js f →
      Leads Γ t (j :: js) f
  | pointer {t i j js e f} : js ≠ [] → Γ.core t = .struct i → (Γ.fields i)[j]? = some (.ptr e) → Leads Γ e js f →
      Leads Γ t (j :: js) f

/-- What is to be written for a map key: strings and integers as they are, otherwise the answer of `MarshalText`; a nil pointer is
the empty string. -/
inductive ShowsKey (Γ : Types) : RTy → DVal → KeyOut → Prop
  | string {t n} : Γ.core t = .prim .string → ShowsKey Γ t (.prim n) (.prim .string n)
  | nil {t e} : Γ.text t = true → Γ.core t = .ptr e → ShowsKey Γ t .nil .empty
  | ref {t e v} : Γ.text t = true → Γ.core t = .ptr e → ShowsKey Γ t (.ref v) (.text t (.ref v))
  | text {t v} : Γ.text t = true → Γ.core t ≠ .prim .string → (∀ e, Γ.core t ≠ .ptr e) → ShowsKey Γ t v (.text t v)
  | int {t k n} : Γ.text t = false → Γ.core t = .prim k → k = .int ∨ k = .uint8 → ShowsKey Γ t (.prim n) (.prim k n)

/-- Pointers of type `t` to `e` that are written like what they point to. -/
inductive Through (Γ : Types) : RTy → RTy → Prop
  | json {t e} : Γ.way t = .json → Γ.core t = .ptr e → Γ.json e = true → Through Γ t e
  | text {t e} : Γ.way t = .text → Γ.core t = .ptr e → Γ.text e = true → Through Γ t e
  | kind {t e} : Γ.way t = .kind → Γ.core t = .ptr e → Through Γ t e

mutual
/-- What is to be written for the value `v` of type `t`. -/
inductive Shows (Γ : Types) : Bool → RTy → DVal → Out → Prop
  | custom {q t v} : Γ.way t = .custom → Shows Γ q t v (.custom q t v)
  | number {q t n} : Γ.way t = .special .number → Shows Γ q t (.prim n) (.number n)
  | rawNil {q t} : Γ.way t = .special .raw → Shows Γ q t .nil (.raw [])
  | raw {q t ns} : Γ.way t = .special .raw → Shows Γ q t (.list (ns.map .prim)) (.raw ns)
  | jsonIfaceNil {q t} : Γ.way t = .special .jsonMarshaler → Shows Γ q t .nil .null
  | jsonIface {q t u v} : Γ.way t = .special .jsonMarshaler → Shows Γ q t (.box u v) (.json u v)
  | textIfaceNil {q t} : Γ.way t = .special .textMarshaler → Shows Γ q t .nil .null
  | textIface {q t u v} : Γ.way t = .special .textMarshaler → Shows Γ q t (.box u v) (.text u v)
  /-- methods of types that are no pointer types -/
  | json {q t v} : Γ.way t = .json → (∀ e, Γ.core t ≠ .ptr e) → Shows Γ q t v (.json t v)
  | text {q t v} : Γ.way t = .text → (∀ e, Γ.core t ≠ .ptr e) → Shows Γ q t v (.text t v)
  /-- methods of pointer types -/
  | jsonNil {q t e} : Γ.way t = .json → Γ.core t = .ptr e → Γ.json e = false → Shows Γ q t .nil .null
  | jsonPtr {q t e v} : Γ.way t = .json → Γ.core t = .ptr e → Γ.json e = false → Shows Γ q t (.ref v) (.json t (.ref v))
  | textNil {q t e} : Γ.way t = .text → Γ.core t = .ptr e → Γ.text e = false → Shows Γ q t .nil .null
  | textPtr {q t e v} : Γ.way t = .text → Γ.core t = .ptr e → Γ.text e = false → Shows Γ q t (.ref v) (.text t (.ref v))
  /-- other pointers -/
  | nil {q t e} : Through Γ t e → Shows Γ q t .nil (Γ.nilOut q e)
  | ref {q t e v o} : Through Γ t e → Shows Γ q e v o → Shows Γ q t (.ref v) o
  | kindCustom {q t k v} : Γ.kindCustom t = some k → Shows Γ q t v (.custom q (.prim k) v)
  | prim {q t k n} : Γ.way t = .kind → Γ.kindCustom t = none → Γ.core t = .prim k → Shows Γ q t (.prim n) (.prim q k n)
  | sliceNil {q t e} : Γ.way t = .kind → Γ.core t = .slice e → Shows Γ q t .nil .null
  | bytes {q t e ns} : Γ.way t = .kind → Γ.core t = .slice e → Γ.byteLike e = true →
      Shows Γ q t (.list (ns.map .prim)) (.base64 ns)
  | slice {q t e vs os} : Γ.way t = .kind → Γ.core t = .slice e → Γ.byteLike e = false → ShowsVars Γ e vs os →
      Shows Γ q t (.list vs) (.arr os)
  | array {q t n e vs os} : Γ.way t = .kind → Γ.core t = .array n e → ShowsVars Γ e vs os → Shows Γ q t (.list vs) (.arr os)
  | mapNil {q t k e} : Γ.way t = .kind → Γ.core t = .map k e → Γ.unsupported t = false → Shows Γ q t .nil .null
  | map {q t k e vs os} : Γ.way t = .kind → Γ.core t = .map k e → Γ.unsupported t = false → ShowsEntries Γ k e vs os →
      Shows Γ q t (.map vs) (.dict os)
  | ifaceNil {q t i} : Γ.way t = .kind → Γ.core t = .iface i → Shows Γ q t .nil .null
  /-- a value in an interface is written as it is written outside -/
  | iface {q t i u v o} : Γ.way t = .kind → Γ.core t = .iface i → Shows Γ q u v o → Shows Γ q t (.box u v) o
  | struct {q t i v os} : Γ.way t = .kind → Γ.core t = .struct i → ShowsFields Γ t v (Γ.described t) os → Shows Γ q t v (.obj os)
  | notSupported {q t v} : Γ.unsupported t = true → Shows Γ q t v .notSupported
/-- What is to be written for a variable of type `t`, that is, for an element or a field: if only `*t` has the method, it is called
with a pointer to the variable. -/
inductive ShowsVar (Γ : Types) : Bool → RTy → DVal → Out → Prop
  | value {q t v o} : Γ.likeElem t = true → Shows Γ q t v o → ShowsVar Γ q t v o
  | pointer {q t v o} : Γ.likeElem t = false → Shows Γ q (.ptr t) (.ref v) o → ShowsVar Γ q t v o
inductive ShowsVars (Γ : Types) : RTy → List DVal → List Out → Prop
  | nil {t} : ShowsVars Γ t [] []
  | cons {t v vs o os} : ShowsVar Γ false t v o → ShowsVars Γ t vs os → ShowsVars Γ t (v :: vs) (o :: os)
inductive ShowsEntries (Γ : Types) : RTy → RTy → List (DVal × DVal) → List (KeyOut × Out) → Prop
  | nil {k t} : ShowsEntries Γ k t [] []
  | cons {k t x v es ko o os} : ShowsKey Γ k x ko → Shows Γ false t v o → ShowsEntries Γ k t es os →
      ShowsEntries Γ k t ((x, v) :: es) ((ko, o) :: os)
/-- The described fields of the value `v` of the struct type `t`. -/
inductive ShowsFields (Γ : Types) : RTy → DVal → List Described → List (Nat × Out) → Prop
  | nil {t v} : ShowsFields Γ t v [] []
  | skip {t v d ds os} : Follows d.path v none → ShowsFields Γ t v ds os → ShowsFields Γ t v (d :: ds) os
  | omitted {t v d ds x f os} : Follows d.path v (some x) → Leads Γ t d.path f → d.omitEmpty = true → Γ.emptyValue f x = true →
      ShowsFields Γ t v ds os → ShowsFields Γ t v (d :: ds) os
  | field {t v d ds x f o os} : Follows d.path v (some x) → Leads Γ t d.path f → (d.omitEmpty = true → Γ.emptyValue f x = false) →
      ShowsVar Γ d.quoted f x o → ShowsFields Γ t v ds os → ShowsFields Γ t v (d :: ds) ((d.name, o) :: os)
end

mutual
/-- Somewhere in the output there is a panic. -/
inductive Out.Panics : Out → Prop
  | here : Out.Panics .panic
  | arr {os} : PanicsIn os → Out.Panics (.arr os)
  | obj {os} : PanicsInFields os → Out.Panics (.obj os)
  | dict {os} : PanicsInEntries os → Out.Panics (.dict os)
inductive PanicsIn : List Out → Prop
  | head {o os} : Out.Panics o → PanicsIn (o :: os)
  | tail {o os} : PanicsIn os → PanicsIn (o :: os)
inductive PanicsInFields : List (Nat × Out) → Prop
  | head {n o os} : Out.Panics o → PanicsInFields ((n, o) :: os)
  | tail {x os} : PanicsInFields os → PanicsInFields (x :: os)
inductive PanicsInEntries : List (KeyOut × Out) → Prop
  | key {o os} : PanicsInEntries ((.panic, o) :: os)
  | head {k o os} : Out.Panics o → PanicsInEntries ((k, o) :: os)
  | tail {x os} : PanicsInEntries os → PanicsInEntries (x :: os)
end

/-- What the language and its implementation say about the types of every program. -/
structure Types.Lawful (Γ : Types) : Prop where
  under : ∀ i j, Γ.under i ≠ .named j
  /-- which types are stored directly in interfaces -/
  directPrim : ∀ k, Γ.direct (.prim k) = false
  directSlice : ∀ t, Γ.direct (.slice t) = false
  directIface : ∀ i, Γ.direct (.iface i) = false
  directPtr : ∀ t, Γ.direct (.ptr t) = true
  directMap : ∀ k t, Γ.direct (.map k t) = true
  directFunc : Γ.direct .func = true
  directArray : ∀ n t, Γ.direct (.array n t) = true ↔ n = 1 ∧ Γ.direct t = true
  directStruct : ∀ i, Γ.direct (.struct i) = true ↔ ∃ t, Γ.fields i = [t] ∧ Γ.direct t = true
  directNamed : ∀ i, Γ.direct (.named i) = Γ.direct (Γ.under i)
  /-- layout -/
  sizeByte : ∀ t, Γ.core t = .prim .uint8 → Γ.size t = 1
  offsetFirst : ∀ i, Γ.offset i 0 = 0
  /-- the types of the standard library -/
  number : ∀ t, Γ.special t = some .number → Γ.core t = .prim .string
  raw : ∀ t, Γ.special t = some .raw → Γ.core t = .slice (.prim .uint8)
  jsonMarshaler : ∀ t, Γ.special t = some .jsonMarshaler →
    ∃ i, Γ.core t = .iface i ∧ Γ.methods i = true ∧ ∀ u, Γ.implements i u = true → Γ.json u = true
  textMarshaler : ∀ t, Γ.special t = some .textMarshaler →
    ∃ i, Γ.core t = .iface i ∧ Γ.methods i = true ∧ ∀ u, Γ.implements i u = true → Γ.text u = true

/-- The types a value is made of are used too. -/
structure Types.Closed (Γ : Types) : Prop where
  ptr : ∀ t e, Γ.used t → Γ.core t = .ptr e → Γ.used e
  slice : ∀ t e, Γ.used t → Γ.core t = .slice e → Γ.used e
  array : ∀ t n e, Γ.used t → Γ.core t = .array n e → Γ.used e
  map : ∀ t k e, Γ.used t → Γ.core t = .map k e → Γ.used e
  /-- the described fields exist -/
  struct : ∀ t i d, Γ.used t → Γ.core t = .struct i → d ∈ Γ.described t → ∃ f, Leads Γ t d.path f ∧ Γ.used f

/-- The types whose `IsEmpty` tells the empty values: those without a method of the pointer type only, other than structs without
described fields; and if the type has a method, other than strings, functions and arrays of length 0. -/
inductive Types.OmitOk (Γ : Types) (t : RTy) : Prop
  | kind : Γ.likeElem t = true → Γ.way t = .kind → Γ.unsupported t = false → (∀ i, Γ.core t = .struct i → Γ.described t ≠ []) →
      Γ.OmitOk t
  | method : Γ.likeElem t = true → Γ.way t = .json ∨ Γ.way t = .text → Γ.core t ≠ .prim .string → Γ.core t ≠ .func →
      (∀ e, Γ.core t ≠ .array 0 e) → Γ.OmitOk t
  | other : Γ.likeElem t = true → Γ.way t = .custom ∨ (∃ s, Γ.way t = .special s) → Γ.OmitOk t

/-- The types for which the encoders go wrong are not used: see `Verif.Props.Words` for what happens otherwise. -/
structure Types.Clear (Γ : Types) : Prop where
  /-- an interface type with a method `MarshalJSON` or `MarshalText` is `json.Marshaler` or `encoding.TextMarshaler` -/
  iface : ∀ t, Γ.used t → Γ.isIface t = true → Γ.special t = none → Γ.json t = false ∧ Γ.text t = false
  /-- the encoders of the user are for types that are not stored directly in interfaces -/
  custom : ∀ t, Γ.used t → Γ.custom t = true → Γ.direct t = false
  /-- structs that are pointers have a field to be written -/
  emptyStruct : ∀ t i, Γ.used t → Γ.core t = .struct i → Γ.described t = [] → Γ.direct t = false
  /-- there are no pointers to `encoding.TextMarshaler` -/
  textPtr : ∀ t e, Γ.used t → Γ.core t = .ptr e → Γ.special e ≠ some .textMarshaler
  /-- keys with the method `MarshalText` are of no interface type -/
  keyIface : ∀ t k e, Γ.used t → Γ.core t = .map k e → Γ.text k = true → Γ.isIface k = false
  /-- keys with the method `MarshalText` that are stored directly in interfaces are pointers -/
  keyDirect : ∀ t k e, Γ.used t → Γ.core t = .map k e → Γ.text k = true → Γ.direct k = true → ∃ p, Γ.core k = .ptr p
  /-- see C36 for what happens otherwise -/
  omits : ∀ t i d f, Γ.used t → Γ.core t = .struct i → d ∈ Γ.described t → d.omitEmpty = true → Leads Γ t d.path f → Γ.OmitOk f

/-- There is always room for another variable. -/
def Memory.Finite (m : Memory) : Prop := ∃ n : Nat, ∀ a : Nat, n ≤ a → m a = none

end Jzon.Words
