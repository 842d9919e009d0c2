import Verif.Model.Cache
import Verif.Model.Typed

/-!
# Decoder objects in use

What a decoder of the cache (`Verif.Model.Cache`: objects with links to each other) does when its `Decode` is called: which of the
decoders of `Verif.Model.Typed` it is, with the decoders behind its links in the place of the decoders of the element types.
-/

namespace Jzon

/-- A numbering of the types: `rtypeOfType`, `/repo/eface.go:27-30`, and back. -/
structure TyIds where
  id : Ty → TypeId
  ty : TypeId → Ty
  ty_id : ∀ t, ty (id t) = t

section
variable {F : Type}

/-- What `createDecoderInternal` finds out about a type, `/repo/decoder_config.go:148-242`; the number of a decoder without links
is the number of the type.  For struct types the fields are those of `Γ`. -/
def decShape (Γ : TyEnv F) (K : TyIds) (u : TypeId) : DecShape :=
  match K.ty u with
  | .bool | .str | .int _ | .uint _ | .float32 | .float64 => .native u u
  | .number | .raw | .any | .jsonUnmarshaler _ | .textUnmarshaler _ | .unsupported => .prim u
  | .ptr t | .slice t | .array _ t | .map _ t => .node [K.id t]
  | .named i =>
    match Γ.defn i with
    | .slice t | .array _ t | .map _ t => .node [K.id t]
    | .struct fs => if fs = [] then .prim u else .node (fs.map fun f => K.id f.ty)

/-- The types of `Γ` for the decoder cache, without decoders given by the user. -/
def decTypes (Γ : TyEnv F) (K : TyIds) : DecTypes where
  shape := decShape Γ K
  custom _ := none

/-- The decoders without links, `/repo/val_decoder.go:17-66` and `/repo/decoder_config.go:148-188`. -/
def primDecoder (Γ : TyEnv F) (cfg : DecCfg F) (pools : Pools) : Ty → Option (ValDecoder (Val F))
  | .bool => some boolDecoder
  | .str => some (stringDecoder pools)
  | .int w => some (intDecoder (readIntOf w))
  | .uint w => some (intDecoder (readUintOf w))
  | .float32 => some (floatDecoder cfg.ops32)
  | .float64 => some (floatDecoder cfg.ops64)
  | .number => some jsonNumberDecoder
  | .raw => some (rawDecoder pools)
  | .any => some (anyDecoder cfg pools)
  | .jsonUnmarshaler i => some (jsonUnmarshalerDecoder pools (Γ.unmarshalJSON i))
  | .textUnmarshaler i => some (textUnmarshalerDecoder (Γ.unmarshalText i))
  | .unsupported => some notSupportedDecoder
  | _ => none

/-- The decoders with one link, for types without a name: `elemDec` and so on, `/repo/val_decoder_native_ptr.go:26-30`,
`/repo/val_decoder_native_slice.go:25-36`, `/repo/val_decoder_native_array.go:29-37`, `/repo/val_decoder_native_map.go:46-57`. -/
def linkDecoder (Γ : TyEnv F) (cfg : DecCfg F) (pools : Pools) (d : ValDecoder (Val F)) : Ty → Option (ValDecoder (Val F))
  | .ptr t => some (ptrDecoder (Γ.zero cfg t) d)
  | .slice t => some (sliceDecoder cfg (t == .uint .w8) (Γ.zero cfg t) d)
  | .array k t => some (arrayDecoder pools k (Γ.zero cfg t) d)
  | .map k t => some (mapDecoder (keyZero Γ k) (Γ.zero cfg t) (keyDecoder Γ pools k) d)
  | _ => none

/-- `structMember` with the decoders of the fields in the order of the fields: `fi.decoder`,
`/repo/val_decoder_native_struct.go:126-157` and likewise in the other struct decoders. -/
def linkedMember (cfg : DecCfg F) (pools : Pools) (zero : Ty → Val F) (fs : List Field) (ds : List (ValDecoder (Val F)))
    (name : List Byte) (v : Val F) : Prog (Val F) := do
  match ← Prog.ofExcept (findField cfg.fold cfg.caseSensitive (fs.map Field.name) name) with
  | some i =>
    match fs[i]?, ds[i]? with
    | some f, some d => atPath zero f.path (d { quoted := f.quoted }) v
    | _, _ => .throw .panic
  | none =>
    if cfg.disallowUnknownFields then .throw (.unknownField name)
    else do
      Skip pools.stack
      pure v

/-- The decoders of named types: for structs, `/repo/val_decoder_native_struct.go:88-97` and the like, with one link for each field. -/
def namedLinkDecoder (Γ : TyEnv F) (cfg : DecCfg F) (pools : Pools) (ds : List (ValDecoder (Val F))) : Def → Option (ValDecoder (Val F))
  | .slice t => ds.head?.map fun d => sliceDecoder cfg (t == .uint .w8) (Γ.zero cfg t) d
  | .array k t => ds.head?.map fun d => arrayDecoder pools k (Γ.zero cfg t) d
  | .map k t => ds.head?.map fun d => mapDecoder (keyZero Γ k) (Γ.zero cfg t) (keyDecoder Γ pools k) d
  | .struct fs => if fs = [] then none else some (structDecoder (linkedMember cfg pools (Γ.zero cfg) fs ds))

/-- The decoder `c` in the heap `g` acts as `d`, as long as it is not used to go more than `n` named types deep; then `d` is the
error `hang`.  An object that is not yet built, and one with a nil link, acts as nothing: Go would call a method of a nil interface. -/
inductive Acts (Γ : TyEnv F) (cfg : DecCfg F) (pools : Pools) (K : TyIds) (g : List DecObj) : Nat → Coder → ValDecoder (Val F) → Prop
  | prim (n : Nat) (p : Nat) (d : ValDecoder (Val F)) (h : primDecoder Γ cfg pools (K.ty p) = some d) : Acts Γ cfg pools K g n (.prim p) d
  | link (n : Nat) (a : Nat) (u : TypeId) (c : Coder) (d d' : ValDecoder (Val F)) (ho : g[a]? = some ⟨u, some [some c]⟩)
      (hc : Acts Γ cfg pools K g n c d) (h : linkDecoder Γ cfg pools d (K.ty u) = some d') : Acts Γ cfg pools K g n (.obj a) d'
  | deep (a : Nat) (o : DecObj) (i : Nat) (ho : g[a]? = some o) (h : K.ty o.ty = .named i) :
      Acts Γ cfg pools K g 0 (.obj a) (fun _ _ => .throw .hang)
  | deepPrim (p : Nat) (i : Nat) (h : K.ty p = .named i) : Acts Γ cfg pools K g 0 (.prim p) (fun _ _ => .throw .hang)
  | named (n : Nat) (a : Nat) (u : TypeId) (i : Nat) (cs : List Coder) (ds : List (ValDecoder (Val F))) (d : ValDecoder (Val F))
      (ho : g[a]? = some ⟨u, some (cs.map some)⟩) (hl : cs.length = ds.length) (hu : K.ty u = .named i)
      (hc : ∀ (j : Nat) (hj : j < cs.length), Acts Γ cfg pools K g n cs[j] ds[j])
      (h : namedLinkDecoder Γ cfg pools ds (Γ.defn i) = some d) : Acts Γ cfg pools K g (n + 1) (.obj a) d
  /-- a struct without fields, `/repo/decoder_config.go:193-196` -/
  | empty (n : Nat) (p : Nat) (i : Nat) (hu : K.ty p = .named i) (h : Γ.defn i = .struct []) :
      Acts Γ cfg pools K g (n + 1) (.prim p) (emptyObjectDecoder cfg pools)

end

end Jzon
