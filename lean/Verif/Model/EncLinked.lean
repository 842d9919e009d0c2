import Verif.Model.EncCache
import Verif.Model.Linked
import Verif.Model.Marshal

/-!
# Encoder objects in use

What an encoder of the caches (`Verif.Model.EncCache`: objects with links to each other) does when its `Encode` is called: which of
the encoders of `Verif.Model.Marshal` it is, with the encoders behind its links in the place of the encoders of the element types.
-/

namespace Jzon

section
variable {F : Type}

/-- The number of the encoder without links of a type. -/
def encPrim (K : TyIds) (u : TypeId) : Nat := if K.ty u = .uint .w8 then uint8Coder else u + 2

/-- The type whose encoder has the number `p`. -/
def encPrimTy (K : TyIds) : Nat → Option Ty
  | 0 => some (.uint .w8)
  | 1 => none
  | u + 2 => some (K.ty u)

/-- What `createEncoderInternal` finds out about the type number `u`, which is like the type `T`, `/repo/encoder_config.go:139-303`;
`direct` tells which types are stored directly in interfaces (`ifaceIndir`, `/repo/eface.go:32-35`). -/
def encShapeAs (Γ : TyEnv F) (E : EncEnv F) (K : TyIds) (direct : Ty → Bool) (u : TypeId) : Ty → EncShape
  | .bool | .str | .int _ | .uint _ | .float32 | .float64 => .native u (encPrim K u)
  | .number | .raw | .any | .unsupported => .prim (encPrim K u) false []
  | .jsonUnmarshaler _ | .textUnmarshaler _ => .prim (encPrim K u) (direct (K.ty u)) []
  | .ptr t => if (pointerMethod E t).isSome then .prim (encPrim K u) true [] else .ptr (K.id t)
  | .slice t => .slice (K.id t) (t = .uint .w8)
  | .array n t => if n = 0 then .prim (encPrim K u) false [K.id (.ptr t)] else .node [K.id t] (direct (K.ty u))
  | .map k t => if keyCoder E k = none then .prim (encPrim K u) false [] else .map (K.id t)
  | .named i =>
    match Γ.defn i with
    | .slice t => .slice (K.id t) (t = .uint .w8)
    | .array n t => if n = 0 then .prim (encPrim K u) false [K.id (.ptr t)] else .node [K.id t] (direct (K.ty u))
    | .map k t => if keyCoder E k = none then .prim (encPrim K u) false [] else .map (K.id t)
    | .struct _ =>
      if (E.fields i).length = 0 then .prim (encPrim K u) false []
      else .node ((E.fields i).map fun f => K.id f.ty) (direct (K.ty u))

/-- The type that decides on the encoder: a type whose method has a pointer as receiver is encoded like its underlying type,
`/repo/encoder_config.go:153`. -/
def encoderTy (E : EncEnv F) : Ty → Ty
  | .jsonUnmarshaler i => if E.recv i = .pointer then E.under i else .jsonUnmarshaler i
  | .textUnmarshaler i => if E.recv i = .pointer then E.under i else .textUnmarshaler i
  | t => t

/-- The types of `Γ` for the encoder cache, without encoders given by the user.  Numbers that are not the number of a type stand
for some types without elements. -/
def encTypes (Γ : TyEnv F) (E : EncEnv F) (K : TyIds) (direct : Ty → Bool) : EncTypes where
  shape u := if K.id (K.ty u) = u then encShapeAs Γ E K direct u (encoderTy E (K.ty u)) else .prim (encPrim K u) false []
  ptrTo u := if K.id (K.ty u) = u then K.id (.ptr (K.ty u)) else u
  custom _ := none

/-- The encoder with one link, for types without a name, `/repo/val_encoder_native_ptr.go:8-22`,
`/repo/val_encoder_native_slice.go:9-26`, `/repo/val_encoder_native_array.go:26-45`, `/repo/val_encoder_native_map.go:14-52`. -/
def linkEncoder (E : EncEnv F) (d : ValEncoder F) : Ty → Option (ValEncoder F)
  | .ptr _ => some (ptrEncoder d)
  | .slice _ => some (sliceEncoder d)
  | .array n _ => some (arrayEncoder n d)
  | .map k _ => some (mapEncoder E k d)
  | _ => none

/-- `fieldsEncode` with the encoder of each field beside it: `fi.encoder`, `/repo/val_encoder_native_struct.go:78-108`. -/
def linkedFieldsEncode (v : Val F) : List (EncField × ValEncoder F) → Streamer → Streamer
  | [], s => s.objectEnd
  | (f, d) :: fs, s =>
    match fieldValue d f v with
    | .error e => s.fail e
    | .ok none => linkedFieldsEncode v fs s
    | .ok (some x) =>
      let s := fieldEncode d f x s
      if s.error ≠ none then s else linkedFieldsEncode v fs s

/-- `structEncoder` with the encoder of each field beside it, `/repo/val_encoder_native_struct.go:64-109`. -/
def linkedStructEncoder (fs : List (EncField × ValEncoder F)) : ValEncoder F where
  isEmpty _ := .ok false
  encode _ v s :=
    if s.error ≠ none then s
    else
      match v with
      | none => s.null
      | some v => linkedFieldsEncode v fs s.objectStart

/-- The encoders of named types with the encoders behind their links. -/
def namedLinkEncoder (E : EncEnv F) (i : Nat) (ds : List (ValEncoder F)) : Def → Option (ValEncoder F)
  | .slice _ => ds.head?.map sliceEncoder
  | .array n _ => ds.head?.map (arrayEncoder n)
  | .map k _ => ds.head?.map (mapEncoder E k)
  | .struct _ => if ds.length ≠ (E.fields i).length then none else some (linkedStructEncoder ((E.fields i).zip ds))

/-- The encoders without links, `/repo/val_encoder.go:17-75` and `/repo/encoder_config.go:144-302`; `rest` are the encoders that
`efaceEncoder` looks up. -/
def primEncoder (Γ : TyEnv F) (E : EncEnv F) (rest : Ty → ValEncoder F) : Ty → Option (ValEncoder F)
  | .bool => some boolEncoder
  | .str => some (stringEncoder E)
  | .int w => some (intEncoder (appendIntOf w))
  | .uint w => some (intEncoder (appendUintOf w))
  | .float32 => some (floatEncoder E.float32)
  | .float64 => some (floatEncoder E.float64)
  | .number => some numberEncoder
  | .raw => some rawEncoder
  | .any => some (anyEncoder E rest)
  | .unsupported => some notSupportedEncoder
  | .ptr t => (pointerMethod E t).map pointerMarshalerEncoder
  | .array n _ => if n = 0 then some emptyArrayEncoder else none
  | .map k _ => if keyCoder E k = none then some notSupportedEncoder else none
  | .jsonUnmarshaler i =>
    if E.recv i = .value then some (marshalerEncoder (kindEmpty Γ E (E.under i)) (writeJSON (E.marshalJSON i))) else none
  | .textUnmarshaler i =>
    if E.recv i = .value then some (marshalerEncoder (kindEmpty Γ E (E.under i)) (writeText (E.marshalText i))) else none
  | _ => none

/-- The encoders of named types without links. -/
def namedPrimEncoder (E : EncEnv F) (i : Nat) : Def → Option (ValEncoder F)
  | .array n _ => if n = 0 then some emptyArrayEncoder else none
  | .map k _ => if keyCoder E k = none then some notSupportedEncoder else none
  | .struct _ => if (E.fields i).length = 0 then some emptyStructEncoder else none
  | _ => none

/-- The type that an encoder was made for. -/
def selfTy (K : TyIds) (h : List EncObj) : ECoder → Option Ty
  | .prim p => encPrimTy K p
  | .obj a => (h[a]?).map fun o => K.ty o.ty
  | _ => none

/-- The bound on the depth is used up. -/
def deepEncoder : ValEncoder F := { isEmpty := fun _ => .error .hang, encode := fun _ _ s => s.fail .hang }

/-- The encoder `c` in the heap `h` acts as `d`, as long as it is not used to go more than `n` named types deep.  With `some T`: if
it was made for a type like `T`.  An object with a nil link, and a `directEncoder` around nil, acts as nothing. -/
inductive EActs (Γ : TyEnv F) (E : EncEnv F) (K : TyIds) (h : List EncObj) : Nat → Option Ty → ECoder → ValEncoder F → Prop
  | self (n : Nat) (c : ECoder) (T : Ty) (d : ValEncoder F) (hT : selfTy K h c = some T) (hc : EActs Γ E K h n (some T) c d) :
      EActs Γ E K h n none c d
  | base64 (n : Nat) : EActs Γ E K h n none (.prim base64Coder) (base64Encoder E)
  /-- `/repo/val_encoder_direct.go:11-17` -/
  | direct (n : Nat) (c : ECoder) (d : ValEncoder F) (hc : EActs Γ E K h n none c d) : EActs Γ E K h n none (.direct c) (directEncoder d)
  | prim (n : Nat) (p : Nat) (T : Ty) (d : ValEncoder F) (hd : primEncoder Γ E (unfoldedEncoder Γ E n) T = some d) :
      EActs Γ E K h n (some T) (.prim p) d
  | link (n : Nat) (a : Nat) (o : EncObj) (T : Ty) (c : ECoder) (d d' : ValEncoder F) (ho : h[a]? = some o) (hl : o.links = [some c])
      (hc : EActs Γ E K h n none c d) (hd : linkEncoder E d T = some d') : EActs Γ E K h n (some T) (.obj a) d'
  | deep (c : ECoder) (i : Nat) : EActs Γ E K h 0 (some (.named i)) c deepEncoder
  | named (n : Nat) (a : Nat) (o : EncObj) (i : Nat) (cs : List ECoder) (ds : List (ValEncoder F)) (d : ValEncoder F)
      (ho : h[a]? = some o) (hl : o.links = cs.map some) (hn : cs.length = ds.length)
      (hc : ∀ (j : Nat) (hj : j < cs.length), EActs Γ E K h n none cs[j] ds[j])
      (hd : namedLinkEncoder E i ds (Γ.defn i) = some d) : EActs Γ E K h (n + 1) (some (.named i)) (.obj a) d
  | namedPrim (n : Nat) (p : Nat) (i : Nat) (d : ValEncoder F) (hd : namedPrimEncoder E i (Γ.defn i) = some d) :
      EActs Γ E K h (n + 1) (some (.named i)) (.prim p) d
  /-- a type whose method has a pointer as receiver -/
  | method (n : Nat) (T U : Ty) (c : ECoder) (d : ValEncoder F) (hT : encoderTy E T = U) (hU : U ≠ T) (hc : EActs Γ E K h n (some U) c d) :
      EActs Γ E K h (n + 1) (some T) c d
  | methodDeep (T : Ty) (c : ECoder) (hU : encoderTy E T ≠ T) : EActs Γ E K h 0 (some T) c deepEncoder

/-- The types without encoder, `/repo/encoder_config.go:265-270,298-301`: those that are not supported, and the maps with such
keys. -/
def NoEncoder (Γ : TyEnv F) (E : EncEnv F) : Ty → Prop
  | .unsupported => True
  | .map k _ => keyCoder E k = none
  | .named i =>
    match Γ.defn i with
    | .map k _ => keyCoder E k = none
    | _ => False
  | _ => False

/-- The encoder `c` of the published cache, called with the word of an interface that holds a value `v` of type `T`
(`/repo/streamer_val.go:17-23`), does what `d` does with the address of `v`: for a pointer the word points to what `v` points to; for the
other types that are stored directly the word is `v`, and `c` has to be a `directEncoder`; otherwise the word is the address of `v`. -/
inductive RootActs (Γ : TyEnv F) (E : EncEnv F) (K : TyIds) (h : List EncObj) (direct : Ty → Bool) : Nat → Ty → ECoder → ValEncoder F → Prop
  | ptr (n : Nat) (t : Ty) (c : ECoder) (d : ValEncoder F) (hn : ∀ x, c ≠ .direct x) (hc : EActs Γ E K h n none c d) :
      RootActs Γ E K h direct n (.ptr t) c (ptrEncoder d)
  | word (n : Nat) (T : Ty) (c : ECoder) (d : ValEncoder F) (hT : direct T = true) (hc : EActs Γ E K h n none c d) :
      RootActs Γ E K h direct n T (.direct c) d
  | address (n : Nat) (T : Ty) (c : ECoder) (d : ValEncoder F) (hT : direct T = false) (hc : EActs Γ E K h n none c d) :
      RootActs Γ E K h direct n T c d
  /-- `/repo/val_encoder.go:127-136` does not look at the word -/
  | unused (n : Nat) (T : Ty) (c : ECoder) (d : ValEncoder F) (hT : NoEncoder Γ E (encoderTy E T)) (hn : ∀ x, c ≠ .direct x) (hc : EActs Γ E K h n none c d)
      (hd : ∀ q v w s, d.encode q v s = d.encode q w s) : RootActs Γ E K h direct n T c d

end

end Jzon
